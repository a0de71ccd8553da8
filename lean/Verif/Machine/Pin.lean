import Verif.Machine.PVar
import Verif.Machine.EmitP
/-
Layouts for examples with further pinned dwords, such as those of a variable whose dwords are visible (`PVar`).
-/

namespace Eud.SC

/-- The layout with dwords outside of the program that keep their contents. -/
def Layout.pin (L : Layout) (X : List (Nat × Nat)) : Layout := { L with rest := L.rest ++ X }

/-- Outside of the triggers and the variable buffer. -/
def Layout.Free (L : Layout) (p n x : Nat) : Prop :=
  (∀ b ∈ L.P.blks, x < b.t ∨ b.t + 2408 ≤ x) ∧ (∀ b ∈ L.P.seqs, x < b.t ∨ b.t + 2408 ≤ x) ∧ (x < p - 4 ∨ p + 2404 + 72 * n ≤ x)

instance (L : Layout) (p n x : Nat) : Decidable (L.Free p n x) := by unfold Layout.Free; infer_instance

/-- What a free dword holds. -/
theorem Layout.Laid.free {L : Layout} {p : Nat} {vals : List W} (h : L.Laid p vals) {x : Nat} (hx : L.Free p vals.length x) (hp : 4 ≤ p) (holes : List (Nat × W)) :
    L.mem p vals holes x = match holes.find? (fun r => r.1 == x) with | some r => r.2 | none => 0 := by
  obtain ⟨h1, h2, h3⟩ := hx
  show simage _ L.P.blks x = _
  rw [simage_outside (fun b hb => by have := h1 b hb; omega), image_outside (fun b hb => by have := h2 b hb; omega)]
  have hout : bufImage (restMem L.rest holes) p vals x = restMem L.rest holes x := by
    unfold bufImage
    rw [if_neg (by omega)]
  rw [hout]
  unfold restMem
  have : L.rest.find? (fun q => q.1 + 4 == x) = none := by
    rw [List.find?_eq_none]
    intro r hr'
    obtain ⟨-, c, hc, e, -⟩ := h.rest r hr'
    have := h1 c hc
    simp only [beq_iff_eq]
    omega
  rw [this]
  rfl

theorem Layout.Laid.freeCell {L : Layout} {p : Nat} {vals : List W} (h : L.Laid p vals) {x : Nat} (hx : L.Free p vals.length x) : L.cell x := by
  obtain ⟨h1, h2, h3⟩ := hx
  have hp4 := h.P.p4
  have hvr : ∀ v ∈ L.P.vars, ∃ i, i < vals.length ∧ v = p - 4 + 72 * i := by
    intro v hv
    rw [h.P.vars] at hv
    obtain ⟨i, hi, rfl⟩ := List.mem_map.1 hv
    exact ⟨i, List.mem_range.1 hi, rfl⟩
  refine ⟨⟨?_, ?_⟩, ?_⟩
  · rintro (⟨c, hc, hf⟩ | hf | ⟨v, hv, hf⟩)
    · have := SBlk.foot_range (h.P.bv c hc).cl (h.P.bv c hc).al hf
      have := h1 c hc
      omega
    · obtain ⟨c, hc, hr'⟩ := progFoot_range hf
      have := h2 c hc
      omega
    · obtain ⟨i, hi, rfl⟩ := hvr v hv
      rcases hf with hf | hf | hf | hf <;> omega
  · intro v hv
    obtain ⟨i, hi, rfl⟩ := hvr v hv
    omega
  · rintro (⟨v, hv, e⟩ | ⟨v, hv, e⟩ | ⟨r, hr, e⟩ | e)
    · obtain ⟨i, hi, rfl⟩ := hvr v hv; omega
    · obtain ⟨i, hi, rfl⟩ := hvr v hv; omega
    · obtain ⟨-, c, hc, e2, -⟩ := h.rest r hr
      have := h1 c hc
      omega
    · rw [h.hid] at e; simp at e

/-- Check that the dwords may be pinned. -/
def Layout.pinB (L : Layout) (p n : Nat) (X : List (Nat × Nat)) : Bool :=
  X.all (fun r => decide (L.Free p n (r.1 + 4)) && decide (r.2 < 2 ^ 32) && decide (r.1 + 4 ≠ cpAddr)) && decide (X.Pairwise fun r q => r.1 ≠ q.1)

theorem Layout.pin_priv {L : Layout} {X : List (Nat × Nat)} {x : Nat} : (L.pin X).priv x ↔ L.priv x ∨ ∃ r ∈ X, x = r.1 + 4 := by
  simp only [Layout.priv, Layout.pin, List.mem_append]
  constructor
  · rintro (h | h | ⟨r, h | h, e⟩ | h)
    · exact Or.inl (Or.inl h)
    · exact Or.inl (Or.inr (Or.inl h))
    · exact Or.inl (Or.inr (Or.inr (Or.inl ⟨r, h, e⟩)))
    · exact Or.inr ⟨r, h, e⟩
    · exact Or.inl (Or.inr (Or.inr (Or.inr h)))
  · rintro ((h | h | ⟨r, h, e⟩ | h) | ⟨r, h, e⟩)
    · exact Or.inl h
    · exact Or.inr (Or.inl h)
    · exact Or.inr (Or.inr (Or.inl ⟨r, Or.inl h, e⟩))
    · exact Or.inr (Or.inr (Or.inr h))
    · exact Or.inr (Or.inr (Or.inl ⟨r, Or.inr h, e⟩))

theorem Layout.pin_cell {L : Layout} {X : List (Nat × Nat)} {x : Nat} (h : L.cell x) (hX : ∀ r ∈ X, x ≠ r.1 + 4) : (L.pin X).cell x :=
  ⟨h.1, fun hp => (pin_priv.1 hp).elim h.2 fun ⟨r, hr, e⟩ => hX r hr e⟩

theorem Layout.Laid.pinWf {L : Layout} {p : Nat} {vals : List W} (h : L.Laid p vals) {X : List (Nat × Nat)} (hX : L.pinB p vals.length X = true) : (L.pin X).Wf := by
  simp only [Layout.pinB, Bool.and_eq_true, List.all_eq_true, decide_eq_true_eq] at hX
  obtain ⟨hX, hP⟩ := hX
  have hw := h.wf
  have hp4 := h.P.p4
  have hvr : ∀ v ∈ L.P.vars, ∃ i, i < vals.length ∧ v = p - 4 + 72 * i := by
    intro v hv
    rw [h.P.vars] at hv
    obtain ⟨i, hi, rfl⟩ := List.mem_map.1 hv
    exact ⟨i, List.mem_range.1 hi, rfl⟩
  have hdis : ∀ r ∈ L.rest, ∀ q ∈ X, r.1 ≠ q.1 := by
    intro r hr q hq e
    obtain ⟨-, c, hc, e2, -⟩ := h.rest r hr
    have := (hX q hq).1.1.1 c hc
    omega
  refine ⟨hw.P, ?_, ?_, ?_, ?_, ?_, ?_, ?_⟩
  · intro b hb o h1 h2 hp
    rcases pin_priv.1 hp with hp | ⟨r, hr, e⟩
    · exact hw.blk b hb o h1 h2 hp
    · have := (hX r hr).1.1.1 b hb
      omega
  · intro v hv hp
    rcases pin_priv.1 hp with hp | ⟨r, hr, e⟩
    · exact hw.val v hv hp
    · obtain ⟨i, hi, rfl⟩ := hvr v hv
      have := (hX r hr).1.1.2.2
      omega
  · intro hp
    rcases pin_priv.1 hp with hp | ⟨r, hr, e⟩
    · exact hw.cp hp
    · exact (hX r hr).2 e.symm
  · intro r hr
    rcases List.mem_append.1 hr with hr | hr
    · exact hw.rdat r hr
    · exact (h.freeCell (hX r hr).1.1).1
  · intro r hr v hv
    rcases List.mem_append.1 hr with hr | hr
    · exact hw.rsep r hr v hv
    · obtain ⟨i, hi, rfl⟩ := hvr v hv
      have := (hX r hr).1.1.2.2
      omega
  · intro r hr
    rcases List.mem_append.1 hr with hr | hr
    · exact hw.rlt r hr
    · exact (hX r hr).1.2
  · intro r hr q hq e
    rcases List.mem_append.1 hr with hr | hr <;> rcases List.mem_append.1 hq with hq | hq
    · exact hw.rinj r hr q hq e
    · exact absurd e (hdis r hr q hq)
    · exact absurd e.symm (hdis q hq r hr)
    · exact (pairwise_ne (fun a b h => Ne.symm h) hP r hr q hq).elim id (fun h => absurd e h)

/-- The contents of pinned dwords among the initial contents of holes. -/
def pinHoles (X : List (Nat × Nat)) : List (Nat × W) := X.map fun r => (r.1 + 4, BitVec.ofNat 32 r.2)

theorem pinHoles_find {X : List (Nat × Nat)} (hP : X.Pairwise fun r q => r.1 ≠ q.1) {r : Nat × Nat} (hr : r ∈ X) (holes : List (Nat × W)) :
    (pinHoles X ++ holes).find? (fun q => q.1 == r.1 + 4) = some (r.1 + 4, BitVec.ofNat 32 r.2) := by
  induction X with
  | nil => simp at hr
  | cons a X ih =>
    rw [List.pairwise_cons] at hP
    simp only [pinHoles, List.map_cons, List.cons_append, List.find?_cons]
    rcases List.mem_cons.1 hr with rfl | hr
    · simp
    · have := hP.1 r hr
      rw [show ((a.1 + 4, BitVec.ofNat 32 a.2).1 == r.1 + 4) = false from by simpa using this]
      exact ih hP.2 hr

/-- The program is in memory with its pinned dwords. -/
theorem Layout.Laid.pinOk {L : Layout} {p : Nat} {vals : List W} (h : L.Laid p vals) {X : List (Nat × Nat)} (hX : L.pinB p vals.length X = true) (holes : List (Nat × W)) :
    (L.pin X).Ok (L.mem p vals (pinHoles X ++ holes)) := by
  simp only [Layout.pinB, Bool.and_eq_true, List.all_eq_true, decide_eq_true_eq] at hX
  obtain ⟨hX, hP⟩ := hX
  obtain ⟨hok, -⟩ := h.ok (pinHoles X ++ holes)
  refine ⟨hok.prog, hok.mask, ?_⟩
  intro r hr
  rcases List.mem_append.1 hr with hr | hr
  · exact hok.rest r hr
  · rw [h.free (hX r hr).1.1 h.P.p4, pinHoles_find hP hr]

/-- The pinned dwords of a variable whose dwords are visible. -/
def pvPins (v : Nat) (M : Nat := 0xFFFFFFFF) : List (Nat × Nat) := [(v + 16, 0), (v + 324, M), (v + 352, 0x43530000), (v + 380, 0), (v + 2372, 4)]

theorem PVar.pin {L : Layout} {p : Nat} {vals : List W} (h : L.Laid p vals) {X : List (Nat × Nat)} {v M : Nat} (hs : ∀ r ∈ pvPins v M, r ∈ X)
    (hc : ∀ o ∈ [4, 344, 348, 352], L.Free p vals.length (v + o) ∧ ∀ r ∈ X, v + o ≠ r.1 + 4) : PVar (L.pin X) v M := by
  have key : ∀ o ∈ [4, 344, 348, 352], (L.pin X).cell (v + o) := fun o ho => Layout.pin_cell (h.freeCell (hc o ho).1) (hc o ho).2
  have hm : ∀ r ∈ pvPins v M, r ∈ (L.pin X).rest := fun r hr => List.mem_append_right _ (hs r hr)
  exact ⟨hm _ (by simp [pvPins]), hm _ (by simp [pvPins]), hm _ (by simp [pvPins]), hm _ (by simp [pvPins]), hm _ (by simp [pvPins]),
    key 4 (by simp), key 344 (by simp), key 348 (by simp), key 352 (by simp)⟩

end Eud.SC
