import Verif.Ex.ByteWrite
import Verif.Ex.PlayerExist
import Verif.Lib.PlayerLoop
/-
Example for C64: `EUDPlayerLoop` in memory, for every state of the lists of triggers and every current player; the body counts the players, looks whether the current player is 3, and changes the
current player.
-/

namespace Eud.SC
namespace ExPlayerLoop

open ExPlayerExist (tbl fr arg fend nptr ret pv t cnt sum noS D jblks cs tab cb ends th)

def cpc : Nat := 0xE000000
def o : Nat := exVar 5
def bits : List Nat := (List.range 32).reverse

/-! `f_getcurpl` -/

def r0 : Nat := trigAt 30
def gend : Nat := trigAt 31
def gptr : Nat := fendPtr [r0] gend
def cnd : Nat := trigAt 33 + 8

/-- A trigger of `VProc(cpcache, ...)` that goes on at `x0`. -/
def vp (d x0 : Nat) (mid : List PA) (_b _k x n m : Nat) : Option Emitted :=
  if x = x0 ∧ x0 < 2 ^ 32 ∧ placedAB (trigAt n + 328) (cpActs cpc d x [] mid) then
    some ⟨trigAt n, n + 1, m, [⟨trigAt n, ⟨[], (cpActs cpc d x [] mid).map PA.a⟩, some cpc, false⟩], [], []⟩ else none

def gS : Nat → (b k x n m : Nat) → Option Emitted
  | 0 => vp (cnd + 8) (trigAt 35) []
  | 1 => vp cpAddr (trigAt 32) []
  | _ => vp (r0 + 348) gend [cpSetTo cpc]

def esGet : ES :=
  .seq (.ite (.base .skip) [cMemV cpAddr .exactly cnd] (.base .skip)
      (.seq (.base (.trig [] [aMem (cpc + 348) .set 0]))
        (.seq (.base (.seqs (bits.map fun i => .trig [cMemX cpAddr .atLeast 1 (pow2 i)] [aMem (cpc + 348) .add (pow2 i)]))) (.seq (.site 0) (.site 1)))))
    (.seq (.site 2) (.base .ret))
def G : Emitted := emitD gend gS esGet 0 0 gend 32 0

/-! The program -/

/-- `f_setcurpl(v)` -/
def sv (v x0 : Nat) (_b _k x n m : Nat) : Option Emitted :=
  if x = x0 ∧ x0 < 2 ^ 32 ∧ trigAt (n + 1) < 2 ^ 32 then
    some ⟨trigAt n, n + 2, m, [⟨trigAt n, ⟨[], ([.dest v (epd (cpc + 348)), .modi v .set, .vnext v (trigAt (n + 1))] : List QA).map QA.act⟩, some v, false⟩,
      ⟨trigAt (n + 1), ⟨[], ([.dest v (epd (cnd + 8)), .cell (aMem (cpc + 344) .set (epd cpAddr)), .vnext v cpc, .cell (aMem (cpc + 4) .set (BitVec.ofNat 32 x))] : List QA).map QA.act⟩,
        some v, false⟩], [], []⟩ else none

/-- `cnt += 1`; if the current player is 3, `sum += 1`; `SetCurrentPlayer(7)` -/
def body : Stmt := .seq (.trig [] [aMem (cnt + 348) .add 1]) (.seq (.trig [cMem cpAddr .exactly 3] [aMem (sum + 348) .add 1]) (.trig [] (setCpActs cpc cnd .set 7)))
def L00 : Layout := ⟨⟨[], [], []⟩, [], []⟩
def c1 (L : Layout) : Site := ⟨trigAt 10, fend, nptr, trigAt 99, .prim (PexRel L (arg + 348) ret), [(fr, t)], [(arg + 348, .var pv)]⟩
def c0 (L : Layout) (back : Nat) : Site := ⟨trigAt 33, gend, gptr, back, getCp L cpc cnd r0 bits (trigAt 35) (trigAt 32) gend, [(r0, o + 348)], []⟩
def SM (L : Layout) (back : Nat) : Nat → (b k x n m : Nat) → Option Emitted
  | 0 => callS (c0 L back)
  | 1 => callS (c1 L)
  | 2 => sv pv (trigAt 96)
  | _ => sv o haltAt
def esA : ES := .seq (.loop false (.base .skip) [cMem (pv + 348) .atMost 7]
    (.seq (.site 1) (.seq (.base (.ite .skip [cMem t .atLeast 1] .skip .cont)) (.seq (.site 2) (.base body)))) (.base (.asg [⟨pv + 348, .add, .const 1⟩]))) (.site 3)
def esB : ES := .seq (.base (.asg [⟨pv + 348, .set, .const 0⟩])) esA
def es : ES := .seq (.site 0) esB
/-- Where the call of `f_getcurpl` returns. -/
def back : Nat := (emitD retAt (SM L00 0) esB 0 0 haltAt 90 20).e
def M : Emitted := emitD retAt (SM L00 back) es 0 0 haltAt 90 20

def parts : List (List SBlk) := [fendBlks [fr] fend, jblks, (List.range 8).map cb, fendBlks [r0] gend, G.blks, M.blks]
def sparts : List (List Blk) := [D.seqs, M.seqs]
def L0 : Layout := ⟨⟨parts.flatten, sparts.flatten, (List.range 6).map exVar⟩, (trigAt 10, D.e) :: (G.rest ++ M.rest), []⟩
def X : List (Nat × Nat) := pvPins cpc ++ tab
def L : Layout := (L0.pin X).hide (trigAt 15 + 4)

def vs (x y : W) : List W := [1, 2, 3, x, y, 6]
/-- The current player is `g`, the cached one is 5. -/
def holes0 : List (Nat × W) := [(cpc + 348, 5), (cpc + 352, pmod .set), (cnd + 8, 5)]
def holes (g : W) (f : Nat → W) : List (Nat × W) := holes0 ++ (cpAddr, g) :: ends f
def mem (x y g : W) (f : Nat → W) : Mem := L0.mem exBuf (vs x y) (pinHoles X ++ holes g f)

theorem laid (x y : W) : L0.Laid exBuf (vs x y) := Layout.laidB_spec (show L0.laidB exBuf 6 = true by decide +kernel)
theorem pins : L0.pinB exBuf 6 X = true := by decide +kernel
theorem laid0 : L0.Laid exBuf (vs 0 0) := laid 0 0
theorem wf : L.Wf := (laid0.pinWf pins).hide (Layout.freeB_spec (by decide +kernel))
theorem ok (x y g : W) (f : Nat → W) : L.Ok (mem x y g f) := by
  have h := (laid x y).pinOk pins (holes g f)
  exact ⟨h.prog, h.mask, h.rest⟩
def cellQ (x : Nat) : Bool := L0.pinCellB X x && x != trigAt 15 + 4
theorem cell {x : Nat} (h : cellQ x = true) : L.cell x := by
  simp only [cellQ, Bool.and_eq_true, bne_iff_ne, ne_eq] at h
  have hc := laid0.pinCellB h.1
  exact ⟨hc.1, by rw [L, Layout.hide_priv]; exact fun e => e.elim h.2 hc.2⟩
theorem vars : ∀ v ∈ (List.range 6).map exVar, v ∈ L.P.vars := fun _ h => h
theorem bp {l : List SBlk} (k : Nat) (h : parts[k]? = some l) : ∀ b ∈ l, b ∈ L.P.blks := fun _ hb => List.mem_flatten.2 ⟨l, List.mem_of_getElem? h, hb⟩
theorem sp {l : List Blk} (k : Nat) (h : sparts[k]? = some l) : ∀ b ∈ l, b ∈ L.P.seqs := fun _ hb => List.mem_flatten.2 ⟨l, List.mem_of_getElem? h, hb⟩
theorem pvar : PVar L cpc := PVar.hide (PVar.pin (X := X) laid0 (fun _ h => List.mem_append_left _ h) (by decide +kernel)) (by decide +kernel)
theorem cpOk : CpOk L cpc cnd := ⟨pvar, by decide, by decide, cell (by decide +kernel), by decide, cell (by decide +kernel), by decide⟩

/-! Code -/

def jmp : JumpCodeA L (arg + 348) 0xFFFFFFFF [aMem ret .set 1] (pexCases cs) D.e (trigAt 10) := by
  have e2 : keyXor (pexCases cs) = (7 : W) := by rw [keyXor, pex_keyAnd, pex_keyOr]; rfl
  have e4 : bitPlaces 7 = [0, 1, 2] := by decide +kernel
  have e5 : jumpTargets (pexCases cs) D.e = (List.range 8).map cs := by
    rw [jumpTargets, e2, e4, keyList_eq (p := 0) (by simp [Asc]), pex_keyAnd]
    rfl
  refine ⟨trigAt 12, trigAt 13, trigAt 15, tbl, ?_, bp 1 rfl _ (by simp [jblks]), placedAB_spec (by decide +kernel), ?_, ?_, ?_, by simp [L, Layout.hide], (laid0.cellB (x := trigAt 15 + 4) (by decide +kernel)).1, by decide +kernel, by decide +kernel⟩
  · rw [pex_inv, if_pos (by decide), pex_keyAnd]
    exact .last (trigAt 10) (trigAt 11) _ [] (by simp) (by simp) (placedCB_spec rfl) trivial ⟨bp 1 rfl _ (by simp [jblks]), bp 1 rfl _ (by simp [jblks]), .head _, by decide⟩
  · rw [e2, e4]
    exact .more (n := trigAt 14) (bp 1 rfl _ (by simp [jblks])) (.more (n := trigAt 15) (bp 1 rfl _ (by simp [jblks])) (.last (bp 1 rfl _ (by simp [jblks]))))
  · rw [e5]
    intro i u hi
    have hz : (u, i) ∈ ((List.range 8).map cs).zipIdx := List.mem_zipIdx_iff_getElem?.2 hi
    have : ∀ q ∈ [(tbl + 20 * i, u), (tbl + 20 * i + 2372, 8)], q ∈ L.rest := fun q hq => List.mem_append_right _ (List.mem_append_right _ (List.mem_flatMap.2 ⟨_, hz, hq⟩))
    exact ⟨this _ (by simp), this _ (by simp)⟩
  · rw [e5]; decide +kernel

theorem fF : FuncCode L (trigAt 10) fend nptr [fr] (.prim (PexRel L (arg + 348) ret)) := by
  refine ⟨⟨0, 0, pex_code wf (cell (by decide +kernel)) (cell (by decide +kernel)) (by decide) jmp ?_ ?_⟩, fendBlks_end (bp 0 rfl) (cell (by decide +kernel)) ?_ (by decide)⟩
  · intro p hp
    have h : ∀ p < 8, placedCB (cs p + 8) [cMem (0x51A280 + p * 12 + 8) .exactly (~~~ (BitVec.ofNat 32 (0x51A280 + p * 12 + 4)))] = true ∧ placedAB (cs p + 328) [aMem ret .set 0] = true := by decide +kernel
    exact ⟨0, 0, 0, .trig (placedCB_spec (h p hp).1) (placedAB_spec (h p hp).2) (bp 2 rfl (cb p) (List.mem_map_of_mem (List.mem_range.2 hp)))⟩
  · refine ⟨fend, 0, 0, emitD_code (S := noS) (f := fun _ => .skip) (es := .base (pexDef ret)) (n := 28) (m := 0) (fun j b k x n m E h => by cases h) (by decide +kernel) ⟨?_, sp 0 rfl, ?_⟩⟩
    · rw [show (emitD fend noS (.base (pexDef ret)) 0 0 fend 28 0).blks = [] by decide +kernel]; simp
    · rw [show (emitD fend noS (.base (pexDef ret)) 0 0 fend 28 0).rest = [] by decide +kernel]; simp
  · intro v hv
    rw [List.mem_singleton.1 hv]
    exact ⟨cell (by decide +kernel), by decide⟩

theorem vpCode {d x0 : Nat} {mid : List PA} (hmid : mid = [] ∨ mid = [cpSetTo cpc]) (he : EpdOK d) (hd : L.cell d) (hn : d ≠ cpc + 4) {r b k x n m : Nat} {E : Emitted}
    (h : vp d x0 mid b k x n m = some E) (hi : E.Into L) : Code L r b k (.prim (CpRel L cpc d x0 [])) E.e x := by
  unfold vp at h
  split at h
  · rename_i hh
    obtain ⟨rfl, h1, h2⟩ := hh
    cases h
    exact CpVP.code wf cpOk ⟨hi.blks _ (by simp), placedAB_spec h2, h1⟩ hmid he hd hn
  · cases h

theorem svCode {v x0 : Nat} (hv : v ∈ L.P.vars) (nv : v + 348 ∉ [cpc + 4, cpc + 344, cpc + 348, cpc + 352, cnd + 8, cpAddr]) {r b k x n m : Nat} {E : Emitted}
    (h : sv v x0 b k x n m = some E) (hi : E.Into L) : Code L r b k (.prim (CpOpRel cpc cnd (.setV v x0))) E.e x := by
  unfold sv at h
  split at h
  · rename_i hh
    obtain ⟨rfl, h1, h2⟩ := hh
    cases h
    exact CpOp.Placed.code wf cpOk (.setV (t2 := trigAt (n + 1)) (v := v) ⟨hi.blks _ (List.mem_cons_self ..), hi.blks _ (List.mem_cons_of_mem _ (List.mem_cons_self ..)), h2, h1, hv, nv⟩)
  · cases h

def gf : Nat → Stmt
  | 0 => .prim (CpRel L cpc (cnd + 8) (trigAt 35) [])
  | 1 => .prim (CpRel L cpc cpAddr (trigAt 32) [])
  | _ => .prim (CpRel L cpc (r0 + 348) gend [])

theorem fG : FuncCode L (trigAt 33) gend gptr [r0] (getCp L cpc cnd r0 bits (trigAt 35) (trigAt 32) gend) := by
  rw [show trigAt 33 = G.e by decide +kernel]
  refine ⟨⟨0, 0, emitD_code (S := gS) (f := gf) (es := esGet) ?_ (by decide +kernel) ⟨bp 4 rfl, ?_, fun r hr => List.mem_append_left _ (.tail _ (List.mem_append_left _ hr))⟩⟩, fendBlks_end (bp 3 rfl) (cell (by decide +kernel)) ?_ (by decide)⟩
  · intro j b k x n m E h hi
    match j with
    | 0 => exact vpCode (Or.inl rfl) (by decide) cpOk.cc (by decide) h hi
    | 1 => exact vpCode (Or.inl rfl) (by decide) cpOk.cp (by decide) h hi
    | _ + 2 => exact vpCode (Or.inr rfl) (by decide) (cell (by decide +kernel)) (by decide) h hi
  · rw [show (emitD gend gS esGet 0 0 gend 32 0).seqs = [] by decide +kernel]; simp
  · intro v hv
    rw [List.mem_singleton.1 hv]
    exact ⟨cell (by decide +kernel), by decide⟩

def prog : Stmt := playerLoop ((c0 L back).stmt L) ((c1 L).stmt L) cpc cnd pv o t (trigAt 96) haltAt body

theorem code : Code L retAt 0 0 prog M.e haltAt := by
  refine emitD_code (S := SM L00 back) (f := fun j => match j with
      | 0 => (c0 L back).stmt L
      | 1 => (c1 L).stmt L
      | 2 => .prim (CpOpRel cpc cnd (.setV pv (trigAt 96)))
      | _ => .prim (CpOpRel cpc cnd (.setV o haltAt))) (es := es) (n := 90) (m := 20) ?_ (by decide +kernel)
    ⟨bp 5 rfl, sp 1 rfl, fun r hr => List.mem_append_left _ (.tail _ (List.mem_append_right _ hr))⟩
  intro j b k x n m E h hi
  match j with
  | 0 => exact callS_code (c := c0 L back) wf fG (by decide +kernel) h hi
  | 1 => exact callS_code (c := c1 L) wf fF (by decide +kernel) h hi
  | 2 => exact svCode (vars _ (by decide)) (by decide) h hi
  | _ + 3 => exact svCode (vars _ (by decide)) (by decide) h hi

/-! The loop -/

def scr : List Nat := callOnly nptr [(fr, t)] [(arg + 348, .var pv)] [fr + 348]
def gscr : List Nat := callOnly gptr [(r0, o + 348)] [] ((r0 + 348) :: cpScr cpc cnd)

theorem call (s : Mem) : Does L ((c1 L).stmt L) s fun s' => s' t = (if PlayerThere s (s (pv + 348)) then 1 else 0) ∧ Only scr s s' :=
  C62_exist wf (src := .var pv) (callOkB_spec (cell := cellQ) (fun x h => cell h) vars (by decide +kernel)) fF (by decide) (cell (by decide +kernel))
    (fun x hx => have h : ∀ x ∈ pexAt, cellQ x = true ∧ x ∉ [nptr, fr + 344, arg + 348, fr + 348] := by decide +kernel
      ⟨cell (h x hx).1, (h x hx).2⟩) s

theorem get (s : Mem) (h : CpInv cpc cnd s) : Does L ((c0 L back).stmt L) s fun s' => s' (o + 348) = s cpAddr ∧ s' cpAddr = s cpAddr ∧ CpInv cpc cnd s' ∧ Only gscr s s' :=
  C64_get wf cpOk (List.reverse_perm _) (callOkB_spec (cell := cellQ) (fun x h => cell h) vars (by decide +kernel)) fG (by decide +kernel) (by decide +kernel) h

def seen (f : Nat → W) (p : Nat) : List Nat := (List.range p).filter (th f)

def Inv (x y : W) (f : Nat → W) (p : Nat) (s : Mem) : Prop :=
  (∀ q < 8, s (0x51A280 + 12 * q + 8) = f q) ∧ s (cnt + 348) = x + BitVec.ofNat 32 (seen f p).length ∧ s (sum + 348) = y + (if 3 ∈ seen f p then 1 else 0)

theorem there {x y : W} {f : Nat → W} {p q : Nat} {s : Mem} (h : Inv x y f q s) (hp : p < 8) : PlayerThere s (BitVec.ofNat 32 p) ↔ th f p = true := by
  have e : (BitVec.ofNat 32 p).toNat = p := by rw [BitVec.toNat_ofNat, Nat.mod_eq_of_lt (by omega)]
  rw [PlayerThere, e, h.1 p hp, th, bne_iff_ne]
  exact ⟨fun h => h.2, fun h => ⟨hp, h⟩⟩

theorem inv_only {l : List Nat} (h : ∀ z ∈ (cnt + 348) :: (sum + 348) :: pexAt, z ∉ l) {x y : W} {f : Nat → W} {p : Nat} {s s' : Mem} (ho : Only l s s') (hi : Inv x y f p s) : Inv x y f p s' :=
  ⟨fun q hq => (ho _ (h _ (List.mem_cons_of_mem _ (List.mem_cons_of_mem _ (pexAt_mem hq))))).trans (hi.1 q hq), (ho _ (h _ (by simp))).trans hi.2.1, (ho _ (h _ (by simp))).trans hi.2.2⟩

theorem setCp7 {s : Mem} (h : CpInv cpc cnd s) : Does L (.trig [] (setCpActs cpc cnd .set 7)) s fun s' => CpInv cpc cnd s' ∧ Only (cpAddr :: cpScr cpc cnd) s s' := by
  refine Does.mono (setCp_does cpOk .set 7 s) ?_
  rintro s' rfl
  exact (C35_history cpOk s [.setC 7] (by simp [CpOp.vars]) s h (Only.refl _ _)).2

theorem body_does {x y w : W} {f : Nat → W} {p : Nat} {s : Mem} (hi : Inv x y f p s) (hp : p < 8) (ht : th f p = true) (hc : s cpAddr = BitVec.ofNat 32 p) (hv : s (pv + 348) = BitVec.ofNat 32 p)
    (ho : s (o + 348) = w) (hci : CpInv cpc cnd s) : Does L body s fun s2 => Inv x y f (p + 1) s2 ∧ CpInv cpc cnd s2 ∧ s2 (pv + 348) = BitVec.ofNat 32 p ∧ s2 (o + 348) = w := by
  have n1 : (sum + 348 : Nat) ≠ cnt + 348 := by decide
  have sn : seen f (p + 1) = seen f p ++ [p] := by simp [seen, List.range_succ, ht]
  have hn : 3 ∈ seen f p → p ≠ 3 := fun h e => by
    rw [seen, List.mem_filter, List.mem_range, e] at h
    exact absurd h.1 (by decide)
  -- the part before the current player is changed
  have key : ∀ s1 : Mem, s1 = s.set (cnt + 348) (s (cnt + 348) + 1) → ∀ s2 : Mem, s2 = (if p = 3 then s1.set (sum + 348) (s1 (sum + 348) + 1) else s1) →
      Inv x y f (p + 1) s2 ∧ Only [cnt + 348, sum + 348] s s2 := by
    rintro s1 rfl s2 rfl
    have oo : Only [cnt + 348, sum + 348] s (if p = 3 then (s.set (cnt + 348) (s (cnt + 348) + 1)).set (sum + 348) ((s.set (cnt + 348) (s (cnt + 348) + 1)) (sum + 348) + 1) else s.set (cnt + 348) (s (cnt + 348) + 1)) := by
      split
      · exact ((Only.refl _ _).set (by simp) _).set (by simp) _
      · exact (Only.refl _ _).set (by simp) _
    refine ⟨⟨fun q hq => ?_, ?_, ?_⟩, oo⟩
    · have : ∀ z ∈ pexAt, z ∉ [cnt + 348, sum + 348] := by decide +kernel
      rw [oo _ (this _ (pexAt_mem hq)), hi.1 q hq]
    · have : s (cnt + 348) + 1 = x + BitVec.ofNat 32 (seen f (p + 1)).length := by
        rw [hi.2.1, sn, List.length_append, List.length_singleton, BitVec.ofNat_add, BitVec.add_assoc]; rfl
      split
      · rw [set_ne n1.symm, set_eq, this]
      · rw [set_eq, this]
    · rw [sn]
      by_cases h3 : p = 3
      · rw [if_pos h3, set_eq, set_ne n1, hi.2.2, if_neg (fun h => hn h h3), if_pos (by simp [h3])]
        simp
      · rw [if_neg h3, set_ne n1, hi.2.2]
        simp [Ne.symm h3]
  refine Does.seq (Does.acts (actsOk_mem (cell (by decide +kernel)) trivial) ?_)
  simp only [runPA_cons, runPA_nil, aMem_run, arith]
  have hh : holdsAll (s.set (cnt + 348) (s (cnt + 348) + 1)) [cMem cpAddr .exactly 3] = decide (p = 3) := by
    have : (cpAddr : Nat) ≠ cnt + 348 := by decide
    simp only [holdsAll_cons, holdsAll_nil, Bool.and_true, cMem_holds, compare, set_ne this, hc]
    rw [decide_eq_decide, ← BitVec.toNat_inj, BitVec.toNat_ofNat, Nat.mod_eq_of_lt (by omega)]
    exact Iff.rfl
  have last : ∀ s2 : Mem, Inv x y f (p + 1) s2 ∧ Only [cnt + 348, sum + 348] s s2 →
      Does L (.trig [] (setCpActs cpc cnd .set 7)) s2 fun s2 => Inv x y f (p + 1) s2 ∧ CpInv cpc cnd s2 ∧ s2 (pv + 348) = BitVec.ofNat 32 p ∧ s2 (o + 348) = w := by
    rintro s2 ⟨i2, o2⟩
    refine Does.mono (setCp7 ⟨by rw [o2 _ (by decide), o2 _ (by decide), hci.1], by rw [o2 _ (by decide), hci.2]⟩) ?_
    rintro s3 ⟨c3, o3⟩
    exact ⟨inv_only (by decide +kernel) o3 i2, c3, by rw [o3 _ (by decide), o2 _ (by decide), hv], by rw [o3 _ (by decide), o2 _ (by decide), ho]⟩
  refine Does.seq (Does.trig (by simp only [List.mem_singleton, forall_eq]; exact cMem_ok (cell (by decide +kernel)) _ _ _) (fun h => ⟨actsOk_mem (cell (by decide +kernel)) trivial, ?_⟩) (fun h => ?_))
  · rw [hh, decide_eq_true_eq] at h
    have := key _ rfl _ rfl
    rw [if_pos h] at this
    simp only [runPA_cons, runPA_nil, aMem_run, arith]
    exact last _ this
  · rw [hh, decide_eq_false_iff_not] at h
    have := key _ rfl _ rfl
    rw [if_neg h] at this
    exact last _ this

theorem loopP {x y w : W} {f : Nat → W} {s : Mem} (h0 : Inv x y f 0 s) (hw : s cpAddr = w) (hc : CpInv cpc cnd s) : Wp L prog s fun q s' => q = .nrm ∧ Inv x y f 8 s' ∧ s' cpAddr = w := by
  refine C64_loop (I := Inv x y f) (K := Inv x y f 8) (scr := scr) (gscr := gscr) (w := w) cpOk (cell (by decide +kernel)) (cell (by decide +kernel)) (by decide) (by decide) (by decide) get call
    (by decide +kernel) (by decide +kernel) (fun p s s' => inv_only (by decide +kernel)) (fun s s' => inv_only (by decide +kernel)) ?_ ?_ (fun _ h => h) (fun _ h e _ => ⟨rfl, h, e⟩) hw hc h0
  · intro p s hp ht hi e1 e2 e3 e4
    refine Wp.mono (Does.wp (body_does hi hp ((there hi hp).1 ht) e1 e2 e3 e4)) ?_
    rintro q s2 ⟨rfl, h⟩
    exact h
  · intro p s hp hn hi
    have sn : seen f (p + 1) = seen f p := by
      have : th f p = false := Bool.eq_false_iff.2 fun h => hn ((there hi hp).2 h)
      simp [seen, List.range_succ, this]
    unfold Inv
    rw [sn]
    exact hi

/-- The machine: the players in the game are counted, the third one is met as current player if it is there, and the current player is as before. -/
theorem run (x y g : W) (f : Nat → W) : ∃ m', Reaches ⟨mem x y g f, M.e⟩ ⟨m', haltAt⟩ ∧ m' (cnt + 348) = x + BitVec.ofNat 32 ((List.range 8).filter (th f)).length ∧
    m' (sum + 348) = y + (if th f 3 = true then 1 else 0) ∧ m' cpAddr = g := by
  have hl := laid x y
  have hv0 : ∀ z, cellQ z = true → ∀ m, L.view m z = m z := fun z hz m => Layout.view_at (cell hz).2
  have i1 : L.view (mem x y g f) (cnt + 348) = x := by rw [hv0 _ (by decide +kernel)]; exact (hl.ok _).2 3 (by simp [vs])
  have i2 : L.view (mem x y g f) (sum + 348) = y := by rw [hv0 _ (by decide +kernel)]; exact (hl.ok _).2 4 (by simp [vs])
  have fr0 : ∀ z v, (pinHoles X ++ holes0).find? (fun r => r.1 == z) = some (z, v) → cellQ z = true ∧ L0.Free exBuf 6 z → L.view (mem x y g f) z = v := by
    intro z v h hz
    rw [hv0 _ hz.1]
    refine (hl.free hz.2 (by decide) _).trans ?_
    rw [holes, ← List.append_assoc, List.find?_append, h]
    rfl
  have fr1 : ∀ z, (pinHoles X ++ holes0).find? (fun r => r.1 == z) = none → cellQ z = true ∧ L0.Free exBuf 6 z →
      L.view (mem x y g f) z = match ((cpAddr, g) :: ends f).find? (fun r => r.1 == z) with | some r => r.2 | none => 0 := by
    intro z h hz
    rw [hv0 _ hz.1]
    refine (hl.free hz.2 (by decide) _).trans ?_
    rw [holes, ← List.append_assoc, List.find?_append, h]
    rfl
  have j1 : L.view (mem x y g f) (cpc + 348) = 5 := fr0 _ _ (by decide +kernel) (by decide +kernel)
  have j2 : L.view (mem x y g f) (cpc + 352) = pmod .set := fr0 _ _ (by decide +kernel) (by decide +kernel)
  have j3 : L.view (mem x y g f) (cnd + 8) = 5 := by
    rw [hv0 _ (by decide +kernel)]
    have hb : ∃ b ∈ L0.P.blks, b.t + 16 = cnd + 8 ∧ b.wordAt 16 = none := by decide +kernel
    obtain ⟨b, h1, h2, h3⟩ := hb
    rw [← h2]
    refine ((hl.hole h1 (by decide) h3 (fun h => absurd h (by decide)) _).2).trans ?_
    rw [h2, holes, ← List.append_assoc, List.find?_append, show (pinHoles X ++ holes0).find? (fun r => r.1 == cnd + 8) = some (cnd + 8, 5) by decide +kernel]
    rfl
  have j4 : L.view (mem x y g f) cpAddr = g := (fr1 _ (by decide +kernel) (by decide +kernel)).trans rfl
  have i3 : ∀ q < 8, L.view (mem x y g f) (0x51A280 + 12 * q + 8) = f q := by
    intro q hq
    have fr : ∀ q < 8, (pinHoles X ++ holes0).find? (fun r => r.1 == 0x51A280 + 12 * q + 8) = none ∧ cellQ (0x51A280 + 12 * q + 8) = true ∧ L0.Free exBuf 6 (0x51A280 + 12 * q + 8) := by decide +kernel
    refine (fr1 _ (fr q hq).1 (fr q hq).2).trans ?_
    have : q = 0 ∨ q = 1 ∨ q = 2 ∨ q = 3 ∨ q = 4 ∨ q = 5 ∨ q = 6 ∨ q = 7 := by omega
    rcases this with rfl | rfl | rfl | rfl | rfl | rfl | rfl | rfl <;> rfl
  obtain ⟨q, s', x1, rfl, ⟨-, e1, e2⟩, e3⟩ := loopP (x := x) (y := y) (f := f) (s := L.view (mem x y g f)) ⟨i3, by rw [i1]; simp [seen], by rw [i2]; simp [seen]⟩ j4 ⟨by rw [j1, j3], j2⟩
  obtain ⟨m', rr, -, hv⟩ := C25_structured wf x1 code _ (ok x y g f) rfl
  refine ⟨m', rr, ?_, ?_, ?_⟩
  · rw [← hv0 (cnt + 348) (by decide +kernel) m', hv, e1]; rfl
  · rw [← hv0 (sum + 348) (by decide +kernel) m', hv, e2]; simp [seen]
  · rw [← hv0 cpAddr (by decide +kernel) m', hv, e3]

end ExPlayerLoop
end Eud.SC
