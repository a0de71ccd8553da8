import Verif.Machine.Pin
import Verif.Machine.EmitG
import Verif.Lib.CurPl
/-
Examples for C35: `f_setcurpl(v); f_addcurpl(3); f_getcurpl()` in memory, and `f_getcurpl()` after the game changed the current player.
-/

namespace Eud.SC

namespace ExCurPl

def cpc : Nat := 0xE000000
/-- The condition is that of the branch of `f_getcurpl`. -/
def cnd : Nat := trigAt 1 + 8
def v : Nat := exVar 0
def r0 : Nat := exVar 1
/-- The shuffled order of the bits. -/
def bits : List Nat := (List.range 32).reverse

/-- A trigger of `VProc(cpcache, ...)` that goes on at `x0`. -/
def vp (d x0 : Nat) (mid : List PA) (_b _k x n m : Nat) : Option Emitted :=
  if x = x0 ∧ x0 < 2 ^ 32 ∧ placedAB (trigAt n + 328) (cpActs cpc d x [] mid) then
    some ⟨trigAt n, n + 1, m, [⟨trigAt n, ⟨[], (cpActs cpc d x [] mid).map PA.a⟩, some cpc, false⟩], [], []⟩ else none

def sv (x0 : Nat) (_b _k x n m : Nat) : Option Emitted :=
  if x = x0 ∧ x0 < 2 ^ 32 ∧ trigAt (n + 1) < 2 ^ 32 then
    some ⟨trigAt n, n + 2, m, [⟨trigAt n, ⟨[], ([.dest v (epd (cpc + 348)), .modi v .set, .vnext v (trigAt (n + 1))] : List QA).map QA.act⟩, some v, false⟩,
      ⟨trigAt (n + 1), ⟨[], ([.dest v (epd (cnd + 8)), .cell (aMem (cpc + 344) .set (epd cpAddr)), .vnext v cpc, .cell (aMem (cpc + 4) .set (BitVec.ofNat 32 x))] : List QA).map QA.act⟩,
        some v, false⟩], [], []⟩ else none

/-- `f_setcurpl(v)`, and the three uses of the cache in `f_getcurpl`. -/
def S : Nat → (b k x n m : Nat) → Option Emitted
  | 0 => sv (trigAt 38)
  | 1 => vp (cnd + 8) (trigAt 3) []
  | 2 => vp cpAddr (trigAt 0) []
  | _ => vp (r0 + 348) retAt [cpSetTo cpc]

def esGet : ES :=
  .seq (.ite (.base .skip) [cMemV cpAddr .exactly cnd] (.base .skip)
      (.seq (.base (.trig [] [aMem (cpc + 348) .set 0]))
        (.seq (.base (.seqs (bits.map fun i => .trig [cMemX cpAddr .atLeast 1 (pow2 i)] [aMem (cpc + 348) .add (pow2 i)]))) (.seq (.site 1) (.site 2)))))
    (.seq (.site 3) (.base .ret))
def es : ES := .seq (.site 0) (.seq (.base (.trig [] (setCpActs cpc cnd .add 3))) esGet)

def E : Emitted := (emitG retAt S es 0 0 haltAt 0 0).getD .none

def L0 : Layout := ⟨⟨E.blks, E.seqs, (List.range 2).map exVar⟩, E.rest, []⟩
def X : List (Nat × Nat) := pvPins cpc
def L : Layout := L0.pin X

def f : Nat → Stmt
  | 0 => .prim (CpOpRel cpc cnd (.setV v (trigAt 38)))
  | 1 => .prim (CpRel L cpc (cnd + 8) (trigAt 3) [])
  | 2 => .prim (CpRel L cpc cpAddr (trigAt 0) [])
  | _ => .prim (CpRel L cpc (r0 + 348) retAt [])

/-- The current player is `g`, the cached one is 5. -/
def holes (g : W) : List (Nat × W) := [(cpAddr, g), (cpc + 348, 5), (cpc + 352, pmod .set), (cnd + 8, 5)]
def mem (x g : W) : Mem := L0.mem exBuf [x, 7] (pinHoles X ++ holes g)

theorem laid (x : W) : L0.Laid exBuf [x, 7] := Layout.laidB_spec (show L0.laidB exBuf 2 = true by decide +kernel)
theorem pins (x : W) : L0.pinB exBuf [x, (7 : W)].length X = true := show L0.pinB exBuf 2 X = true by decide +kernel
theorem wf : L.Wf := (laid 0).pinWf (pins 0)
theorem ok (x g : W) : L.Ok (mem x g) := (laid x).pinOk (pins x) (holes g)
theorem blkCell {x : Nat} (h : L0.cellB x = true ∧ ∀ r ∈ X, x ≠ r.1 + 4) : L.cell x := Layout.pin_cell ((laid 0).cellB h.1) h.2

theorem cpOk : CpOk L cpc cnd :=
  ⟨PVar.pin (laid 0) (fun _ h => h) (by decide +kernel), by decide, by decide, blkCell (by decide +kernel), by decide, blkCell (by decide +kernel), by decide⟩

theorem vpCode {d x0 : Nat} {mid : List PA} (hmid : mid = [] ∨ mid = [cpSetTo cpc]) (he : EpdOK d) (hd : L.cell d) (hn : d ≠ cpc + 4) {b k x n m : Nat} {E : Emitted}
    (h : vp d x0 mid b k x n m = some E) (hi : E.Into L) : Code L retAt b k (.prim (CpRel L cpc d x0 [])) E.e x := by
  unfold vp at h
  split at h
  · rename_i hh
    obtain ⟨rfl, h1, h2⟩ := hh
    cases h
    exact CpVP.code wf cpOk ⟨hi.blks _ (by simp), placedAB_spec h2, h1⟩ hmid he hd hn
  · cases h

theorem sites (j b k x n m : Nat) (E : Emitted) (h : S j b k x n m = some E) (hi : E.Into L) : Code L retAt b k (f j) E.e x := by
  match j with
  | 0 =>
    unfold S sv at h
    simp only at h
    split at h
    · rename_i hh
      obtain ⟨rfl, h1, h2⟩ := hh
      cases h
      exact CpOp.Placed.code wf cpOk (.setV (t2 := trigAt (n + 1)) (v := v) ⟨hi.blks _ (List.mem_cons_self ..), hi.blks _ (List.mem_cons_of_mem _ (List.mem_cons_self ..)), h2, h1,
        (laid 0).exVars (i := 0) (by decide), by decide⟩)
    · cases h
  | 1 => exact vpCode (Or.inl rfl) (by decide) cpOk.cc (by decide) h hi
  | 2 => exact vpCode (Or.inl rfl) (by decide) cpOk.cp (by decide) h hi
  | _ + 3 => exact vpCode (Or.inr rfl) (by decide) (blkCell (by decide +kernel)) (by decide) h hi

theorem emitted : emitG retAt S es 0 0 haltAt 0 0 = some E := by
  have h : (emitG retAt S es 0 0 haltAt 0 0).isSome = true := by decide +kernel
  obtain ⟨E', hE⟩ := Option.isSome_iff_exists.1 h
  rw [E, hE]; rfl

theorem code : Code L retAt 0 0 (.seq (f 0) (.seq (.trig [] (setCpActs cpc cnd .add 3)) (getCp L cpc cnd r0 bits (trigAt 3) (trigAt 0) retAt))) E.e haltAt :=
  emitG_code sites (st := es) emitted ⟨fun _ h => h, fun _ h => h, fun _ h => List.mem_append_left _ h⟩

theorem perm : bits.Perm (List.range 32) := List.reverse_perm _

theorem init (x g : W) : L.view (mem x g) cpAddr = g ∧ CpInv cpc cnd (L.view (mem x g)) ∧ L.view (mem x g) (v + 348) = x := by
  have hl := laid x
  have hcd : ∀ y ∈ [cpAddr, cpc + 348, cpc + 352, cnd + 8, v + 348], L0.cellB y = true ∧ ∀ r ∈ X, y ≠ r.1 + 4 := by decide +kernel
  have hc : ∀ y ∈ [cpAddr, cpc + 348, cpc + 352, cnd + 8, v + 348], L.view (mem x g) y = mem x g y := fun y hy => Layout.view_at (blkCell (hcd y hy)).2
  have fr : ∀ y ∈ [cpAddr, cpc + 348, cpc + 352], L0.Free exBuf 2 y := by decide +kernel
  have h1 : mem x g cpAddr = g := (hl.free (fr _ (by simp)) (by decide) _).trans (by simp [pinHoles, X, pvPins, holes, cpc, cpAddr])
  have h2 : mem x g (cpc + 348) = 5 := (hl.free (fr _ (by simp)) (by decide) _).trans (by simp [pinHoles, X, pvPins, holes, cpc, cpAddr])
  have h3 : mem x g (cpc + 352) = pmod .set := (hl.free (fr _ (by simp)) (by decide) _).trans (by simp [pinHoles, X, pvPins, holes, cpc, cpAddr])
  have h4 : mem x g (cnd + 8) = 5 := by
    have hb : (⟨trigAt 1, ⟨[(cMemV cpAddr .exactly cnd).c], [sNext (trigAt 1) (trigAt 2)]⟩, none, false⟩ : SBlk) ∈ L0.P.blks := by decide +kernel
    have := (hl.hole hb (o := 16) (by decide) (by decide +kernel) (by decide) (pinHoles X ++ holes g)).2
    exact this.trans (by simp [pinHoles, X, pvPins, holes, cpc, cpAddr, cnd, trigAt])
  refine ⟨?_, ⟨?_, ?_⟩, ?_⟩
  · rw [hc _ (by simp), h1]
  · rw [hc _ (by simp), hc _ (by simp), h2, h4]
  · rw [hc _ (by simp), h3]
  · rw [hc _ (by simp)]; exact (hl.ok _).2 0 (by simp)

theorem r0n : r0 + 348 ∉ [cpc + 4, cpc + 344, cpc + 348, cpc + 352, cnd + 8, cpAddr] := by decide

/-- The machine: the result is `v + 3`, and so is the current player. -/
theorem run (x g : W) : ∃ m', Reaches ⟨mem x g, E.e⟩ ⟨m', retAt⟩ ∧ m' (r0 + 348) = x + 3 ∧ m' cpAddr = x + 3 := by
  obtain ⟨i1, i2, i3⟩ := init x g
  obtain ⟨e1, e2, e3⟩ := C35_history cpOk (L.view (mem x g)) [.setV v (trigAt 38), .addC 3] (by decide) (L.view (mem x g)) i2 (Only.refl _ _)
  simp only [List.foldl_cons, List.foldl_nil, CpOp.spec, i3] at e1 e2 e3
  obtain ⟨o, s', hx, ho, q1, q2, -⟩ := C35_get cpOk perm (trigAt 3) (trigAt 0) retAt e2 r0n
  subst ho
  obtain ⟨s1, w1, rfl⟩ := setCp_does cpOk .add 3 (CpOp.run cpc cnd (.setV v (trigAt 38)) (L.view (mem x g)))
  have hr := C25_structured wf (.seqN (.prim ⟨i2, rfl⟩) (.seqN w1 hx)) code
  obtain ⟨m', rr, -, hv⟩ := hr _ (ok x g) rfl
  refine ⟨m', rr, ?_, ?_⟩
  · have : L.view m' (r0 + 348) = m' (r0 + 348) := Layout.view_at (blkCell (by decide +kernel)).2
    rw [← this, hv, q1, e1]
  · have : L.view m' cpAddr = m' cpAddr := Layout.view_at cpOk.cp.2
    rw [← this, hv, q2, e1]

def E1 : Emitted := (emitG retAt S esGet 0 0 haltAt 0 0).getD .none

theorem code1 : Code L retAt 0 0 (getCp L cpc cnd r0 bits (trigAt 3) (trigAt 0) retAt) E1.e haltAt := by
  have h : (emitG retAt S esGet 0 0 haltAt 0 0).isSome = true := by decide +kernel
  obtain ⟨E', hE⟩ := Option.isSome_iff_exists.1 h
  have e : E1 = E' := by rw [E1, hE]; rfl
  have h1 : ∀ b ∈ E1.blks, b ∈ L0.P.blks := by decide +kernel
  have h2 : ∀ b ∈ E1.rest, b ∈ L0.rest := by decide +kernel
  have h3 : E1.seqs = [] := by decide +kernel
  rw [← e] at hE
  exact emitG_code sites (st := esGet) hE ⟨h1, by simp [h3], fun _ h => List.mem_append_left _ (h2 _ h)⟩

/-- The machine: whatever the game set the current player to, that is the result, though something else is cached. -/
theorem runGame (g : W) : ∃ m', Reaches ⟨mem 0 g, E1.e⟩ ⟨m', retAt⟩ ∧ m' (r0 + 348) = g ∧ m' cpAddr = g ∧ m' (cpc + 348) = g := by
  obtain ⟨i1, i2, i3⟩ := init 0 g
  obtain ⟨o, s', hx, ho, q1, q2, q3, -⟩ := C35_get cpOk perm (trigAt 3) (trigAt 0) retAt i2 r0n
  subst ho
  obtain ⟨m', rr, -, hv⟩ := C25_structured wf hx code1 _ (ok 0 g) rfl
  refine ⟨m', rr, ?_, ?_, ?_⟩
  · have : L.view m' (r0 + 348) = m' (r0 + 348) := Layout.view_at (blkCell (by decide +kernel)).2
    rw [← this, hv, q1, i1]
  · have : L.view m' cpAddr = m' cpAddr := Layout.view_at cpOk.cp.2
    rw [← this, hv, q2, i1]
  · have : L.view m' (cpc + 348) = m' (cpc + 348) := Layout.view_at cpOk.pv.val.2
    rw [← this, hv, q3, i1]

end ExCurPl

end Eud.SC
