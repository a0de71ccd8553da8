import Verif.Ex.KitSw
import Verif.Lib.PlayerExist
/-
Example for C62: `EUDLoopPlayer` over the players 1, 3 and 6 in memory, for every state of the lists of triggers; the body counts the players and adds up their numbers.
-/

namespace Eud.SC
namespace ExPlayerExist

def tbl : Nat := 0xE010000
/-- The result variable of `f_playerexist`, its parameter, its end. -/
def fr : Nat := trigAt 0
def arg : Nat := exVar 1
def fend : Nat := trigAt 1
def nptr : Nat := fendPtr [fr] fend
def ret : Nat := fr + 348
def pv : Nat := exVar 0
def t : Nat := exVar 2 + 348
def cnt : Nat := exVar 3
def sum : Nat := exVar 4

def noS (_j _b _k _x _n _m : Nat) : Option Emitted := none
/-- The default. -/
def D : Emitted := emitD fend noS (.base (pexDef ret)) 0 0 fend 28 0
/-- The jump table: the test of the other bits, the start, the three bits. -/
def jblks : List SBlk :=
  [⟨trigAt 10, ⟨[(cMemX (arg + 348) .exactly 0 0xFFFFFFF8).c], [sNext (trigAt 10) (trigAt 11)]⟩, none, false⟩,
   ⟨trigAt 11, ⟨[], [sNext (trigAt 10) D.e]⟩, some (trigAt 12), false⟩,
   ⟨trigAt 12, ⟨[], sNext (trigAt 15) tbl :: [aMem ret .set 1].map PA.a⟩, some (trigAt 13), false⟩,
   ⟨trigAt 13, ⟨[(cMemX (arg + 348) .atLeast 1 (pow2 0)).c], [sMem (trigAt 15 + 4) .add (BitVec.ofNat 32 (20 * 2 ^ 0))]⟩, some (trigAt 14), false⟩,
   ⟨trigAt 14, ⟨[(cMemX (arg + 348) .atLeast 1 (pow2 1)).c], [sMem (trigAt 15 + 4) .add (BitVec.ofNat 32 (20 * 2 ^ 1))]⟩, some (trigAt 15), false⟩,
   ⟨trigAt 15, ⟨[(cMemX (arg + 348) .atLeast 1 (pow2 2)).c], [sMem (trigAt 15 + 4) .add (BitVec.ofNat 32 (20 * 2 ^ 2))]⟩, none, false⟩]
def cs (p : Nat) : Nat := trigAt (20 + p)
def tab : List (Nat × Nat) := ((List.range 8).map cs).zipIdx.flatMap fun p => [(tbl + 20 * p.2, p.1), (tbl + 20 * p.2 + 2372, 8)]
def cb (p : Nat) : SBlk := ⟨cs p, ⟨[cMem (0x51A280 + p * 12 + 8) .exactly (~~~ (BitVec.ofNat 32 (0x51A280 + p * 12 + 4)))].map PC.c, [aMem ret .set 0].map PA.a⟩, some fend, false⟩

/-- `cnt += 1; sum += player` -/
def body : Stmt := .asg [⟨cnt + 348, .add, .const 1⟩, ⟨sum + 348, .add, .var pv⟩]
def L00 : Layout := ⟨⟨[], [], []⟩, [], []⟩
def c1 (L : Layout) : Site := ⟨trigAt 10, fend, nptr, trigAt 92, .prim (PexRel L (arg + 348) ret), [(fr, t)], [(arg + 348, .var pv)]⟩
def no (i : Nat) : ES := .base (.ite .skip [cMem (pv + 348) .exactly (BitVec.ofNat 32 i)] .cont .skip)
def es : ES := .seq (.base (.asg [⟨pv + 348, .set, .const 1⟩]))
  (.loop false (.base .skip) [cMem (pv + 348) .atMost 6]
    (.seq (no 2) (.seq (no 4) (.seq (no 5) (.seq (.site 0) (.seq (.base (.ite .skip [cMem t .atLeast 1] .skip .cont)) (.base body))))))
    (.base (.asg [⟨pv + 348, .add, .const 1⟩])))
def M : Emitted := emitD retAt (fun _ => callS (c1 L00)) es 0 0 haltAt 90 20

def parts : List (List SBlk) := [fendBlks [fr] fend, jblks, (List.range 8).map cb, M.blks]
def sparts : List (List Blk) := [D.seqs, M.seqs]
def L0 : Layout := ⟨⟨parts.flatten, sparts.flatten, (List.range 5).map exVar⟩, (trigAt 10, D.e) :: M.rest, []⟩
def L : Layout := (L0.pin tab).hide (trigAt 15 + 4)

def vs (x y : W) : List W := [1, 2, 3, x, y]
/-- The ends of the lists of triggers of the players. -/
def ends (f : Nat → W) : List (Nat × W) := (List.range 8).map fun p => (0x51A280 + 12 * p + 8, f p)
def mem (x y : W) (f : Nat → W) : Mem := L0.mem exBuf (vs x y) (pinHoles tab ++ ends f)

theorem laid (x y : W) : L0.Laid exBuf (vs x y) := Layout.laidB_spec (show L0.laidB exBuf 5 = true by decide +kernel)
theorem pins : L0.pinB exBuf 5 tab = true := by decide +kernel
theorem laid0 : L0.Laid exBuf (vs 0 0) := laid 0 0
theorem wf : L.Wf := (laid0.pinWf pins).hide (Layout.freeB_spec (by decide +kernel))
theorem ok (x y : W) (f : Nat → W) : L.Ok (mem x y f) := by
  have h := (laid x y).pinOk pins (ends f)
  exact ⟨h.prog, h.mask, h.rest⟩
def cellQ (x : Nat) : Bool := L0.pinCellB tab x && x != trigAt 15 + 4
theorem cell {x : Nat} (h : cellQ x = true) : L.cell x := by
  simp only [cellQ, Bool.and_eq_true, bne_iff_ne, ne_eq] at h
  have hc := laid0.pinCellB h.1
  exact ⟨hc.1, by rw [L, Layout.hide_priv]; exact fun e => e.elim h.2 hc.2⟩
theorem vars : ∀ v ∈ (List.range 5).map exVar, v ∈ L.P.vars := fun _ h => h
theorem bp {l : List SBlk} (k : Nat) (h : parts[k]? = some l) : ∀ b ∈ l, b ∈ L.P.blks := fun _ hb => List.mem_flatten.2 ⟨l, List.mem_of_getElem? h, hb⟩
theorem sp {l : List Blk} (k : Nat) (h : sparts[k]? = some l) : ∀ b ∈ l, b ∈ L.P.seqs := fun _ hb => List.mem_flatten.2 ⟨l, List.mem_of_getElem? h, hb⟩

/-! Code -/

def jmp : JumpCodeA L (arg + 348) 0xFFFFFFFF [aMem ret .set 1] (pexCases cs) D.e (trigAt 10) := by
  have e2 : keyXor (pexCases cs) = (7 : W) := by rw [keyXor, pex_keyAnd, pex_keyOr]; rfl
  have e4 : bitPlaces 7 = [0, 1, 2] := by decide +kernel
  have e5 : jumpTargets (pexCases cs) D.e = (List.range 8).map cs := by
    rw [jumpTargets, e2, e4, keyList_eq (p := 0) (by simp [Asc]), pex_keyAnd]
    rfl
  refine ⟨trigAt 12, trigAt 13, trigAt 15, tbl, ?_, bp 1 rfl _ (by simp [jblks]), placedAB_spec (by decide +kernel), ?_, ?_, ?_, by simp [L, Layout.hide], (laid0.cellB (x := trigAt 15 + 4) (by decide +kernel)).1, by decide +kernel, by decide +kernel⟩
  · rw [pex_inv, if_pos (by decide), pex_keyAnd]
    exact .last (trigAt 10) (trigAt 11) _ [] (by simp) (by simp) (placedCB_spec rfl) trivial ⟨bp 1 rfl _ (by simp [jblks]), bp 1 rfl _ (by simp [jblks]), .head _, by decide⟩
  · rw [e2, e4]
    exact .more (n := trigAt 14) (bp 1 rfl _ (by simp [jblks])) (.more (n := trigAt 15) (bp 1 rfl _ (by simp [jblks])) (.last (bp 1 rfl _ (by simp [jblks]))))
  · rw [e5]
    intro i u hi
    have hz : (u, i) ∈ ((List.range 8).map cs).zipIdx := List.mem_zipIdx_iff_getElem?.2 hi
    have : ∀ q ∈ [(tbl + 20 * i, u), (tbl + 20 * i + 2372, 8)], q ∈ L.rest := fun q hq => List.mem_append_right _ (List.mem_flatMap.2 ⟨_, hz, hq⟩)
    exact ⟨this _ (by simp), this _ (by simp)⟩
  · rw [e5]; decide +kernel

theorem fF : FuncCode L (trigAt 10) fend nptr [fr] (.prim (PexRel L (arg + 348) ret)) := by
  refine ⟨⟨0, 0, pex_code wf (cell (by decide +kernel)) (cell (by decide +kernel)) (by decide) jmp ?_ ?_⟩, fendBlks_end (bp 0 rfl) (cell (by decide +kernel)) ?_ (by decide)⟩
  · intro p hp
    have h : ∀ p < 8, placedCB (cs p + 8) [cMem (0x51A280 + p * 12 + 8) .exactly (~~~ (BitVec.ofNat 32 (0x51A280 + p * 12 + 4)))] = true ∧ placedAB (cs p + 328) [aMem ret .set 0] = true := by decide +kernel
    exact ⟨0, 0, 0, .trig (placedCB_spec (h p hp).1) (placedAB_spec (h p hp).2) (bp 2 rfl (cb p) (List.mem_map_of_mem (List.mem_range.2 hp)))⟩
  · refine ⟨fend, 0, 0, emitD_code (S := noS) (f := fun _ => .skip) (es := .base (pexDef ret)) (n := 28) (m := 0) (fun j b k x n m E h => by cases h) (by decide +kernel) ⟨?_, sp 0 rfl, ?_⟩⟩
    · rw [show (emitD fend noS (.base (pexDef ret)) 0 0 fend 28 0).blks = [] by decide +kernel]; simp
    · rw [show (emitD fend noS (.base (pexDef ret)) 0 0 fend 28 0).rest = [] by decide +kernel]; simp
  · intro v hv
    rw [List.mem_singleton.1 hv]
    exact ⟨cell (by decide +kernel), by decide⟩

def prog : Stmt := loopPlayers ((c1 L).stmt L) pv t 1 6 [1, 3, 6] body

theorem code : Code L retAt 0 0 prog M.e haltAt :=
  emitD_code (S := fun _ => callS (c1 L00)) (f := fun _ => (c1 L).stmt L) (es := es) (n := 90) (m := 20) (fun j b k x n m E h hi => callS_code (c := c1 L) wf fF (by decide +kernel) h hi) (by decide +kernel)
    ⟨bp 3 rfl, sp 1 rfl, fun r hr => List.mem_append_left _ (.tail _ hr)⟩

/-! The loop -/

def scr : List Nat := callOnly nptr [(fr, t)] [(arg + 348, .var pv)] [fr + 348]

theorem call (s : Mem) : Does L ((c1 L).stmt L) s fun s' => s' t = (if PlayerThere s (s (pv + 348)) then 1 else 0) ∧ Only scr s s' :=
  C62_exist wf (src := .var pv) (callOkB_spec (cell := cellQ) (fun x h => cell h) vars (by decide +kernel)) fF (by decide) (cell (by decide +kernel))
    (fun x hx => have h : ∀ x ∈ pexAt, cellQ x = true ∧ x ∉ [nptr, fr + 344, arg + 348, fr + 348] := by decide +kernel
      ⟨cell (h x hx).1, (h x hx).2⟩) s

/-- The player has triggers. -/
def th (f : Nat → W) (p : Nat) : Bool := f p != ~~~ (BitVec.ofNat 32 (0x51A280 + 12 * p + 4))
/-- The players met before `p`. -/
def seen (f : Nat → W) (p : Nat) : List Nat := [1, 3, 6].filter fun q => decide (q < p) && th f q

theorem seen_step (f : Nat → W) (p : Nat) (h1 : 1 ≤ p) (h2 : p ≤ 6) : seen f (p + 1) = if p ∈ [1, 3, 6] ∧ th f p = true then seen f p ++ [p] else seen f p := by
  have : p = 1 ∨ p = 2 ∨ p = 3 ∨ p = 4 ∨ p = 5 ∨ p = 6 := by omega
  unfold seen
  generalize th f = g
  cases e1 : g 1 <;> cases e3 : g 3 <;> cases e6 : g 6 <;> rcases this with rfl | rfl | rfl | rfl | rfl | rfl <;> simp [e1, e3, e6]

def Inv (x y : W) (f : Nat → W) (p : Nat) (s : Mem) : Prop :=
  (∀ q < 8, s (0x51A280 + 12 * q + 8) = f q) ∧ s (cnt + 348) = x + BitVec.ofNat 32 (seen f p).length ∧ s (sum + 348) = y + BitVec.ofNat 32 (seen f p).sum

theorem there {x y : W} {f : Nat → W} {p q : Nat} {s : Mem} (h : Inv x y f q s) (hp : p < 8) : PlayerThere s (BitVec.ofNat 32 p) ↔ th f p = true := by
  have e : (BitVec.ofNat 32 p).toNat = p := by rw [BitVec.toNat_ofNat, Nat.mod_eq_of_lt (by omega)]
  rw [PlayerThere, e, h.1 p hp, th, bne_iff_ne]
  exact ⟨fun h => h.2, fun h => ⟨hp, h⟩⟩

theorem inv_only {l : List Nat} (h : ∀ z ∈ (cnt + 348) :: (sum + 348) :: pexAt, z ∉ l) {x y : W} {f : Nat → W} {p : Nat} {s s' : Mem} (ho : Only l s s') (hi : Inv x y f p s) : Inv x y f p s' :=
  ⟨fun q hq => (ho _ (h _ (List.mem_cons_of_mem _ (List.mem_cons_of_mem _ (pexAt_mem hq))))).trans (hi.1 q hq), (ho _ (h _ (by simp))).trans hi.2.1, (ho _ (h _ (by simp))).trans hi.2.2⟩

theorem body_does {x y : W} {f : Nat → W} {p : Nat} {s : Mem} (hi : Inv x y f p s) (h1 : 1 ≤ p) (h2 : p ≤ 6) (hp : p ∈ [1, 3, 6]) (ht : th f p = true) (hv : s (pv + 348) = BitVec.ofNat 32 p) :
    Does L body s fun s2 => Inv x y f (p + 1) s2 ∧ s2 (pv + 348) = BitVec.ofNat 32 p := by
  refine Does.asg ?_ ?_ ?_
  · simp only [List.mem_cons, List.not_mem_nil, or_false, forall_eq_or_imp, forall_eq]
    exact ⟨cell (by decide +kernel), cell (by decide +kernel)⟩
  · simp only [List.mem_cons, List.not_mem_nil, or_false, forall_eq_or_imp, forall_eq]
    exact ⟨fun v h => (by cases h), fun v h => by cases h; exact vars _ (by decide)⟩
  · have n1 : (sum + 348 : Nat) ≠ cnt + 348 := by decide
    have n2 : (pv + 348 : Nat) ≠ cnt + 348 := by decide
    have n3 : (pv + 348 : Nat) ≠ sum + 348 := by decide
    have hs := seen_step f p h1 h2
    rw [if_pos ⟨hp, ht⟩] at hs
    simp only [runAsg, Src.valM, arith, set_ne n1, set_ne n2]
    refine ⟨⟨fun q hq => ?_, ?_, ?_⟩, by rw [set_ne n3, set_ne n2, hv]⟩
    · have : ∀ z ∈ pexAt, z ≠ cnt + 348 ∧ z ≠ sum + 348 := by decide +kernel
      have h := this _ (pexAt_mem hq)
      rw [set_ne h.2, set_ne h.1, hi.1 q hq]
    · rw [set_ne n1.symm, set_eq, hi.2.1, hs, List.length_append, List.length_singleton, BitVec.ofNat_add, BitVec.add_assoc]
      rfl
    · rw [set_eq, hi.2.2, hs, hv, List.sum_append, List.sum_singleton, BitVec.ofNat_add, BitVec.add_assoc]

theorem loopP {x y : W} {f : Nat → W} {s : Mem} (h0 : Inv x y f 1 s) : Wp L prog s fun o s' => o = .nrm ∧ Inv x y f 7 s' := by
  refine C62_loop (I := Inv x y f) (scr := scr) (cell (by decide +kernel)) (cell (by decide +kernel)) (by decide) (by decide) (by decide) call (by decide +kernel) (by decide +kernel)
    (fun p s s' => inv_only (by decide +kernel)) ?_ ?_ (fun _ h => ⟨rfl, h⟩) h0
  · intro p s h1 h2 hp ht hi hv
    refine Wp.mono (Does.wp (body_does hi h1 h2 hp ((there hi (by omega)).1 ht) hv)) ?_
    rintro o s2 ⟨rfl, h⟩
    exact h
  · intro p s h1 h2 hn hi
    have hs := seen_step f p h1 h2
    rw [if_neg (fun h => hn.elim (fun h' => h' h.1) fun h' => h' ((there hi (by omega)).2 h.2))] at hs
    unfold Inv
    rw [hs]
    exact hi

/-- The machine: the players among 1, 3 and 6 that have triggers are counted. -/
theorem run (x y : W) (f : Nat → W) : ∃ m', Reaches ⟨mem x y f, M.e⟩ ⟨m', haltAt⟩ ∧ m' (cnt + 348) = x + BitVec.ofNat 32 ([1, 3, 6].filter (th f)).length ∧ m' (sum + 348) = y + BitVec.ofNat 32 ([1, 3, 6].filter (th f)).sum := by
  have hl := laid x y
  have hv0 : ∀ z, cellQ z = true → ∀ m, L.view m z = m z := fun z hz m => Layout.view_at (cell hz).2
  have i1 : L.view (mem x y f) (cnt + 348) = x := by rw [hv0 _ (by decide +kernel)]; exact (hl.ok _).2 3 (by simp [vs])
  have i2 : L.view (mem x y f) (sum + 348) = y := by rw [hv0 _ (by decide +kernel)]; exact (hl.ok _).2 4 (by simp [vs])
  have i3 : ∀ q < 8, L.view (mem x y f) (0x51A280 + 12 * q + 8) = f q := by
    intro q hq
    have fr : ∀ q < 8, L0.Free exBuf 5 (0x51A280 + 12 * q + 8) ∧ cellQ (0x51A280 + 12 * q + 8) = true ∧ (pinHoles tab).find? (fun r => r.1 == 0x51A280 + 12 * q + 8) = none := by decide +kernel
    rw [hv0 _ (fr q hq).2.1]
    refine (hl.free (fr q hq).1 (by decide) _).trans ?_
    rw [List.find?_append, (fr q hq).2.2]
    have : q = 0 ∨ q = 1 ∨ q = 2 ∨ q = 3 ∨ q = 4 ∨ q = 5 ∨ q = 6 ∨ q = 7 := by omega
    rcases this with rfl | rfl | rfl | rfl | rfl | rfl | rfl | rfl <;> rfl
  have s1 : seen f 1 = [] := by simp [seen]
  have s7 : seen f 7 = [1, 3, 6].filter (th f) := by simp [seen, List.filter_cons]
  obtain ⟨o, s', x1, rfl, -, e1, e2⟩ := loopP (x := x) (y := y) (f := f) (s := L.view (mem x y f)) ⟨i3, by rw [s1, i1]; simp, by rw [s1, i2]; simp⟩
  obtain ⟨m', rr, -, hv⟩ := C25_structured wf x1 code _ (ok x y f) rfl
  rw [s7] at e1 e2
  refine ⟨m', rr, ?_, ?_⟩
  · rw [← hv0 (cnt + 348) (by decide +kernel) m', hv, e1]
  · rw [← hv0 (sum + 348) (by decide +kernel) m', hv, e2]

end ExPlayerExist
end Eud.SC
