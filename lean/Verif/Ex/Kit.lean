import Verif.Machine.Pin
import Verif.Machine.EmitG
import Verif.Lib.MemBase
/-
Tools for examples: calls and single variables as placed pieces of code, ends of functions, and checks by computation.
-/

namespace Eud.SC

/-! ## Pieces of code -/

/-- `VProc(v, acts)` that goes on at `x0`. -/
def vpS (v x0 : Nat) (acts : List PA) (_b _k x n m : Nat) : Option Emitted :=
  if x = x0 ∧ x0 < 2 ^ 32 ∧ placedAB (trigAt n + 328) (acts ++ [aMem (v + 4) .set (BitVec.ofNat 32 x0)]) then
    some ⟨trigAt n, n + 1, m, [⟨trigAt n, ⟨[], (acts ++ [aMem (v + 4) .set (BitVec.ofNat 32 x0)]).map PA.a⟩, some v, false⟩], [], []⟩ else none

theorem vpS_code {L : Layout} (hw : L.Wf) {v M x0 : Nat} {acts : List PA} (hv : PVar L v M) {r b k x n m : Nat} {E : Emitted} (h : vpS v x0 acts b k x n m = some E) (hi : E.Into L) :
    Code L r b k (vproc L v M x0 acts) E.e x := by
  unfold vpS at h
  split at h
  · rename_i hh
    obtain ⟨rfl, h1, h2⟩ := hh
    cases h
    exact vproc_code hw hv h1 (placedAB_spec h2) (hi.blks _ (by simp))
  · cases h

/-- A call. -/
def callS (c : Site) (_b _k x n m : Nat) : Option Emitted :=
  if x = c.back ∧ x < 2 ^ 32 then match emitAsg c.fstart m (callAsg c.nptr x c.rs c.args) with
    | some (e, Q) => some ⟨e, n, m + Q.length, [], Q, []⟩
    | none => none
  else none

theorem callS_code {L : Layout} (hw : L.Wf) {c : Site} (hF : FuncCode L c.fstart c.fend c.nptr (c.rs.map Prod.fst) c.body) (hn : ∀ r ∈ c.rs, r.1 + 4 ≠ c.nptr)
    {r b k x n m : Nat} {E : Emitted} (h : callS c b k x n m = some E) (hi : E.Into L) : Code L r b k (c.stmt L) E.e x := by
  unfold callS at h
  split at h
  · rename_i hx
    split at h
    · rename_i hq
      cases h
      obtain ⟨rfl, hx2⟩ := hx
      exact C31_call hw hF ⟨⟨0, 0, 0, emitAsg_code hq hi.seqs _ _ _⟩, hx2⟩ hn _ _ _
    · cases h
  · cases h

/-- The triggers at the end of a function. -/
def fendBlks (frets : List Nat) (fend : Nat) : List SBlk := frets.map fretBlk ++ [⟨fend, ⟨[], retActs frets⟩, frets.head?, false⟩]

/-- Where the address to return to is put. -/
def fendPtr (frets : List Nat) (fend : Nat) : Nat := if frets = [] then fend + 4 else fend + 328 + 32 * (frets.length - 1) + 20

theorem fendBlks_end {L : Layout} {frets : List Nat} {fend : Nat} (hb : ∀ b ∈ fendBlks frets fend, b ∈ L.P.blks) (hc : L.cell (fendPtr frets fend)) (h4 : ∀ v ∈ frets, L.cell (v + 4) ∧ v < 2 ^ 32)
    (hnd : frets.Nodup) : FuncEnd L fend (fendPtr frets fend) frets := by
  refine ⟨?_, ?_, hc, ?_, hnd⟩
  · rintro rfl
    exact ⟨rfl, hb _ (by simp [fendBlks, retActs])⟩
  · rintro v vs rfl
    refine ⟨by simp [fendPtr], hb _ (by simp [fendBlks])⟩
  · intro v hv
    exact ⟨hb _ (List.mem_append_left _ (List.mem_map_of_mem hv)), (h4 v hv).1, (h4 v hv).2⟩

/-! ## Checks -/

/-- A visible dword that nothing refers to. -/
def Layout.pinCellB (L : Layout) (X : List (Nat × Nat)) (x : Nat) : Bool := L.cellB x && X.all fun r => x != r.1 + 4

theorem Layout.Laid.pinCellB {L : Layout} {p : Nat} {vals : List W} (h : L.Laid p vals) {X : List (Nat × Nat)} {x : Nat} (hx : L.pinCellB X x = true) : (L.pin X).cell x := by
  simp only [Layout.pinCellB, Bool.and_eq_true, List.all_eq_true, bne_iff_ne, ne_eq] at hx
  exact Layout.pin_cell (h.cellB hx.1) hx.2

/-- `EpdOK` by computation. -/
def srcIn (vars : List Nat) : Src → Bool
  | .const _ => true
  | .var v => vars.contains v

def callOkB (cell : Nat → Bool) (vars : List Nat) (nptr : Nat) (rs : List (Nat × Nat)) (args : List (Nat × Src)) (scratch : List Nat) : Bool :=
  cell nptr && rs.all (fun r => cell (r.1 + 344) && cell r.2 && decide (EpdOK r.2)) && args.all (fun a => cell a.1 && srcIn vars a.2) &&
  decide (args.map Prod.fst).Nodup && decide (rs.map Prod.fst).Nodup && decide (rs.map Prod.snd).Nodup &&
  args.all (fun b => match b.2 with
    | .const _ => true
    | .var v => args.all (fun a => v + 348 != a.1) && v + 348 != nptr && rs.all (fun r => v + 348 != r.1 + 344)) &&
  args.all (fun a => nptr != a.1 && rs.all fun r => r.1 + 344 != a.1) && rs.all (fun r => nptr != r.1 + 344) &&
  rs.all (fun r => rs.all fun q => r.2 != q.1 + 4 && r.2 != q.1 + 344 && r.2 != q.1 + 348 && r.1 + 4 != q.1 + 344 && q.1 + 348 != r.1 + 4) &&
  !scratch.contains nptr && rs.all (fun r => !scratch.contains (r.1 + 344)) && rs.all fun r => r.1 + 4 != nptr

theorem callOkB_spec {L : Layout} {cell : Nat → Bool} {vars : List Nat} (hc : ∀ x, cell x = true → L.cell x) (hv : ∀ v ∈ vars, v ∈ L.P.vars) {nptr : Nat} {rs : List (Nat × Nat)}
    {args : List (Nat × Src)} {scratch : List Nat} (h : callOkB cell vars nptr rs args scratch = true) : CallOk L nptr rs args scratch := by
  simp only [callOkB, Bool.and_eq_true, List.all_eq_true, decide_eq_true_eq, bne_iff_ne, ne_eq, Bool.not_eq_true', List.contains_eq_mem, decide_eq_false_iff_not] at h
  obtain ⟨⟨⟨⟨⟨⟨⟨⟨⟨⟨⟨⟨h1, h2⟩, h3⟩, h4⟩, h5⟩, h6⟩, h7⟩, h8⟩, h9⟩, h10⟩, h11⟩, h12⟩, h13⟩ := h
  refine ⟨hc _ h1, fun r hr => ⟨hc _ (h2 r hr).1.1, hc _ (h2 r hr).1.2, (h2 r hr).2⟩, fun a ha => ⟨hc _ (h3 a ha).1, fun v e => ?_⟩, h4, h5, h6, ?_, ?_, fun a ha => h8 a ha, fun r hr => h9 r hr,
    fun r hr q hq => ?_, h11, h12, h13⟩
  · have := (h3 a ha).2
    rw [e] at this
    simp only [srcIn, List.contains_eq_mem, decide_eq_true_eq] at this
    exact hv v this
  · intro a ha b hb v e
    have := h7 b hb
    rw [e] at this
    simp only [Bool.and_eq_true, List.all_eq_true, bne_iff_ne, ne_eq] at this
    exact this.1.1 a ha
  · intro a ha v e
    have := h7 a ha
    rw [e] at this
    simp only [Bool.and_eq_true, List.all_eq_true, bne_iff_ne, ne_eq] at this
    exact ⟨this.1.2, this.2⟩
  · obtain ⟨⟨⟨⟨y1, y2⟩, y3⟩, y4⟩, y5⟩ := h10 r hr q hq
    exact ⟨y1, y2, y3, y4, y5⟩

/-- What `emitG` gives, if it gives something. -/
def emitD (r : Nat) (S : Nat → (b k x n m : Nat) → Option Emitted) (es : ES) (b k x n m : Nat) : Emitted := (emitG r S es b k x n m).getD .none

theorem emitD_eq {r : Nat} {S : Nat → (b k x n m : Nat) → Option Emitted} {es : ES} {b k x n m : Nat} (h : (emitG r S es b k x n m).isSome = true) :
    emitG r S es b k x n m = some (emitD r S es b k x n m) := by
  obtain ⟨E, hE⟩ := Option.isSome_iff_exists.1 h
  rw [emitD, hE]; rfl

theorem emitD_code {L : Layout} {r : Nat} {S : Nat → (b k x n m : Nat) → Option Emitted} {f : Nat → Stmt}
    (hP : ∀ j b k x n m E, S j b k x n m = some E → E.Into L → Code L r b k (f j) E.e x) {es : ES} {b k x n m : Nat} (h : (emitG r S es b k x n m).isSome = true)
    (hi : (emitD r S es b k x n m).Into L) : Code L r b k (es.stmt f) (emitD r S es b k x n m).e x := emitG_code hP (emitD_eq h) hi

theorem Emitted.Into.of_eq {L : Layout} {E : Emitted} {s r : List _} (h1 : ∀ b ∈ E.blks, b ∈ L.P.blks) (e2 : E.seqs = s) (h2 : ∀ b ∈ s, b ∈ L.P.seqs) (e3 : E.rest = r)
    (h3 : ∀ b ∈ r, b ∈ L.rest) : E.Into L := ⟨h1, e2 ▸ h2, e3 ▸ h3⟩

end Eud.SC
