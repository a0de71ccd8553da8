import Verif.Machine.Pin
import Verif.Machine.EmitG
import Verif.Ex.Read
import Verif.Lib.GameTick
/-
Example for C65: `f_getgametick()` in memory, for every tick of the game and every cached tick.
-/

namespace Eud.SC

namespace ExGameTick

open ExRead (tabBlks tabBlks_mem base q1)

def cpc : Nat := 0xE000000
def rend : Nat := trigAt 0
def A (t : Nat) : Nat := trigAt (t + 1)
def T : RT := RT.run RT.empty (base ++ [q1])
def t1 : Nat := (((RT.run RT.empty base).req q1).map Prod.snd).getD 0

def cch : Nat := exVar 0
def fr : Nat := exVar 1
/-- The condition is that of the branch of the function. -/
def cnd : Nat := trigAt 190 + 8
def rnx : Nat := seqAt 1

/-- The read. -/
def rdS (_b _k x n m : Nat) : Option Emitted :=
  if x = rnx then match emitAsg (A t1) m (epdOps rend cpc rnx (cch + 348) (.const (epd tickAddr)) none) with
    | some (e, Q) => some ⟨e, n, m + Q.length, [], Q, []⟩
    | none => none
  else none

def es : ES :=
  .seq (.ite (.base .skip) [cMemV tickAddr .exactly cnd] (.base .skip) (.seq (.site 0) (.base (.asg [⟨cnd + 8, .set, .var cch⟩])))) (.base (retVar fr cch))

def E : Emitted := (emitG retAt (fun _ => rdS) es 0 0 haltAt 190 0).getD .none

def L0 : Layout := ⟨⟨rendBlk rend :: (tabBlks A rend 0 T.trigs ++ E.blks), E.seqs, (List.range 2).map exVar⟩, E.rest, []⟩
def X : List (Nat × Nat) := pvPins cpc
def L : Layout := L0.pin X

/-- The tick is `t`, the cached one is `c`, the current player is 3 and so is its cache. -/
def holes (t c : W) : List (Nat × W) := [(tickAddr, t), (cnd + 8, c), (cpAddr, 3), (cpc + 348, 3), (cpc + 352, pmod .set)]
def mem (t c : W) : Mem := L0.mem exBuf [c, 7] (pinHoles X ++ holes t c)

theorem laid (c : W) : L0.Laid exBuf [c, 7] := Layout.laidB_spec (show L0.laidB exBuf 2 = true by decide +kernel)
theorem pins (c : W) : L0.pinB exBuf [c, (7 : W)].length X = true := show L0.pinB exBuf 2 X = true by decide +kernel
theorem wf : L.Wf := (laid 0).pinWf (pins 0)
theorem ok (t c : W) : L.Ok (mem t c) := (laid c).pinOk (pins c) (holes t c)
theorem blkCell {x : Nat} (h : L0.cellB x = true ∧ ∀ r ∈ X, x ≠ r.1 + 4) : L.cell x := Layout.pin_cell ((laid 0).cellB h.1) h.2
theorem pv : PVar L cpc := PVar.pin (laid 0) (fun _ h => h) (by decide +kernel)

theorem tab : RdTab L T A rend := by
  have hc : ∀ x ∈ [rend + 4, rend + 344, rend + 348, cpAddr], L0.cellB x = true ∧ ∀ r ∈ X, x ≠ r.1 + 4 := by decide +kernel
  have hc' : ∀ x ∈ [rend + 4, rend + 344, rend + 348, cpAddr], L.cell x := fun x hx => blkCell (hc x hx)
  refine ⟨fun t r h => ?_, List.mem_cons_self .., hc' _ (by simp), hc' _ (by simp), hc' _ (by simp), hc' _ (by simp), by decide⟩
  have := tabBlks_mem (A := A) (rend := rend) (k := 0) h
  rw [Nat.zero_add] at this
  exact List.mem_cons_of_mem _ (List.mem_append_left _ this)

theorem req1 : (RT.run RT.empty base).req q1 = some (T, t1) := by decide +kernel
theorem reader1 : Reader L rend (A t1) 0xFFFFFFFF 0 := Reader.of (q := q1) wf base [] (by decide) req1 tab

theorem cells : ∀ y ∈ [tickAddr, cnd + 8, cch + 348, fr + 348, cpAddr, cpc + 348, cpc + 352, rend + 348], L.cell y := by
  have h : ∀ y ∈ [tickAddr, cnd + 8, cch + 348, fr + 348, cpAddr, cpc + 348, cpc + 352, rend + 348], L0.cellB y = true ∧ ∀ r ∈ X, y ≠ r.1 + 4 := by decide +kernel
  exact fun y hy => blkCell (h y hy)

theorem rdok : RdOk L rend cpc (cch + 348) (.const (epd tickAddr)) :=
  ⟨pv, by decide +kernel, cells _ (by simp), by decide, by decide +kernel, by decide +kernel, by decide, fun _ h => by cases h⟩

theorem tickOk : TickOk L rend cpc cnd cch fr :=
  ⟨rdok, (laid 0).exVars (i := 0) (by decide), cells _ (by simp), cells _ (by simp), cells _ (by simp), by decide +kernel, by decide +kernel⟩

theorem sites (j b k x n m : Nat) (E : Emitted) (h : rdS b k x n m = some E) (hi : E.Into L) :
    Code L retAt b k ((fun _ => .prim (EpdRel L rend cpc rnx (cch + 348) 0xFFFFFFFF 0 (.const (epd tickAddr)) none)) j) E.e x := by
  unfold rdS at h
  split at h
  · rename_i hx
    subst hx
    split at h
    · rename_i e Q hQ
      cases h
      exact C32_epd_code wf tab reader1 rdok (by decide) (emitAsg_code hQ hi.seqs retAt b k)
    · cases h
  · cases h

theorem emitted : emitG retAt (fun _ => rdS) es 0 0 haltAt 190 0 = some E := by
  have h : (emitG retAt (fun _ => rdS) es 0 0 haltAt 190 0).isSome = true := by decide +kernel
  obtain ⟨E', hE⟩ := Option.isSome_iff_exists.1 h
  rw [E, hE]; rfl

theorem into : E.Into L := by
  have h1 : L.P.blks = rendBlk rend :: (tabBlks A rend 0 T.trigs ++ E.blks) := by unfold L Layout.pin L0; generalize E = E; rfl
  have h2 : L.P.seqs = E.seqs := by unfold L Layout.pin L0; generalize E = E; rfl
  have h3 : ∀ r ∈ E.rest, r ∈ L.rest := by unfold L Layout.pin L0; generalize E = E; exact fun r h => List.mem_append_left _ h
  refine ⟨fun b h => ?_, fun b h => ?_, h3⟩
  · rw [h1]; exact List.mem_cons_of_mem _ (List.mem_append_right _ h)
  · rw [h2]; exact h

theorem code : Code L retAt 0 0 (gameTick L rend cpc cnd cch fr rnx) E.e haltAt := by
  have h := emitG_code sites (st := es) emitted into
  simpa only [es, ES.stmt, gameTick] using h

theorem init (t c : W) : L.view (mem t c) tickAddr = t ∧ L.view (mem t c) cpAddr = 3 ∧ L.view (mem t c) (cpc + 348) = 3 ∧ TickInv rend cpc cnd cch (L.view (mem t c)) := by
  have hl := laid c
  have hv : ∀ y ∈ [tickAddr, cnd + 8, cch + 348, fr + 348, cpAddr, cpc + 348, cpc + 352, rend + 348], L.view (mem t c) y = mem t c y :=
    fun y hy => Layout.view_at (cells y hy).2
  have fr : ∀ y ∈ [tickAddr, cpAddr, cpc + 348, cpc + 352], L0.Free exBuf 2 y := by decide +kernel
  have h1 : mem t c tickAddr = t := (hl.free (fr _ (by simp)) (by decide) _).trans (by simp [pinHoles, X, pvPins, holes, cpc, cpAddr, tickAddr])
  have h2 : mem t c cpAddr = 3 := (hl.free (fr _ (by simp)) (by decide) _).trans (by simp [pinHoles, X, pvPins, holes, cpc, cpAddr, tickAddr, cnd, trigAt])
  have h3 : mem t c (cpc + 348) = 3 := (hl.free (fr _ (by simp)) (by decide) _).trans (by simp [pinHoles, X, pvPins, holes, cpc, cpAddr, tickAddr, cnd, trigAt])
  have h4 : mem t c (cpc + 352) = pmod .set := (hl.free (fr _ (by simp)) (by decide) _).trans (by simp [pinHoles, X, pvPins, holes, cpc, cpAddr, tickAddr, cnd, trigAt])
  have h5 : mem t c (cnd + 8) = c := by
    have hb : (⟨trigAt 190, ⟨[(cMemV tickAddr .exactly cnd).c], [sNext (trigAt 190) (trigAt 191)]⟩, none, false⟩ : SBlk) ∈ L0.P.blks := by decide +kernel
    have := (hl.hole hb (o := 16) (by decide) (by decide +kernel) (by decide) (pinHoles X ++ holes t c)).2
    exact this.trans (by simp [pinHoles, X, pvPins, holes, cpc, cpAddr, cnd, trigAt, tickAddr])
  have h6 : mem t c (rend + 348) = 0 := by
    have := (hl.hole (show rendBlk rend ∈ L0.P.blks from List.mem_cons_self ..) (o := 348) (by decide) (by decide +kernel) (by decide) (pinHoles X ++ holes t c)).2
    exact this.trans (by simp [pinHoles, X, pvPins, holes, cpc, cpAddr, cnd, trigAt, tickAddr, rend, rendBlk])
  have h7 : mem t c (cch + 348) = c := (hl.ok _).2 0 (by simp)
  refine ⟨?_, ?_, ?_, ⟨?_, ?_, ?_⟩⟩
  · rw [hv _ (by simp), h1]
  · rw [hv _ (by simp), h2]
  · rw [hv _ (by simp), h3]
  · rw [hv _ (by simp), hv _ (by simp), h5, h7]
  · rw [hv _ (by simp), h4]
  · rw [hv _ (by simp), h6]

/-- The machine: the result is the present tick, whether the cached one is the same or not; the current player stays, and the cache is right again. -/
theorem run (t c : W) : ∃ m', Reaches ⟨mem t c, E.e⟩ ⟨m', retAt⟩ ∧ m' (fr + 348) = t ∧ m' (cch + 348) = m' (cnd + 8) ∧ m' cpAddr = 3 := by
  obtain ⟨i1, i2, i3, i4⟩ := init t c
  obtain ⟨o, s', hx, rfl, q1, -, q2, q3, -⟩ := C65_tick (nxt := rnx) tickOk i4
  obtain ⟨m', rr, -, hv⟩ := C25_structured wf hx code _ (ok t c) rfl
  have hm : ∀ y ∈ [tickAddr, cnd + 8, cch + 348, fr + 348, cpAddr, cpc + 348, cpc + 352, rend + 348], m' y = s' y := fun y hy => by
    rw [← hv, Layout.view_at (cells y hy).2]
  refine ⟨m', rr, ?_, ?_, ?_⟩
  · rw [hm _ (by simp), q1, i1]
  · rw [hm _ (by simp), hm _ (by simp), q3.eq]
  · rw [hm _ (by simp)]
    rcases q2 with h | h
    · rw [h, i2]
    · rw [h, i3]

end ExGameTick

end Eud.SC
