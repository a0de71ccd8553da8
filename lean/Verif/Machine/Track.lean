import Verif.Machine.StructEx
/-
Layouts with further private dwords, for examples.
-/

namespace Eud.SC

/-! ## Making dwords private -/

/-- `x` is none of the dwords that must stay visible. -/
def Layout.free (L : Layout) (x : Nat) : Prop :=
  (∀ b ∈ L.P.blks, ∀ o, 8 ≤ o → o < 2376 → b.t + o ≠ x) ∧ (∀ v ∈ L.P.vars, v + 348 ≠ x) ∧ x ≠ cpAddr

theorem Layout.free_of {L : Layout} {x : Nat} (h1 : L.P.blks.all (fun b => decide (x < b.t + 8 ∨ b.t + 2376 ≤ x)) = true)
    (h2 : L.P.vars.all (fun v => decide (v + 348 ≠ x)) = true) (h3 : x ≠ cpAddr) : L.free x := by
  simp only [List.all_eq_true, decide_eq_true_eq] at h1 h2
  refine ⟨fun b hb o ho1 ho2 e => ?_, h2, h3⟩
  have := h1 b hb
  omega

def Layout.hide (L : Layout) (x : Nat) : Layout := { L with hid := x :: L.hid }
def Layout.track (L : Layout) (r : Nat × Nat) : Layout := { L with rest := r :: L.rest }

theorem Layout.hide_priv (L : Layout) (x y : Nat) : (L.hide x).priv y ↔ y = x ∨ L.priv y := by
  simp only [Layout.priv, Layout.hide, List.mem_cons]
  grind

theorem Layout.track_priv (L : Layout) (r : Nat × Nat) (y : Nat) : (L.track r).priv y ↔ y = r.1 + 4 ∨ L.priv y := by
  simp only [Layout.priv, Layout.track, List.mem_cons, exists_eq_or_imp]
  grind

theorem Layout.Wf.hide {L : Layout} (h : L.Wf) {x : Nat} (hx : L.free x) : (L.hide x).Wf where
  P := h.P
  blk b hb o h1 h2 := by
    rw [Layout.hide_priv]
    rintro (e | e)
    · exact hx.1 b hb o h1 h2 e
    · exact h.blk b hb o h1 h2 e
  val v hv := by
    rw [Layout.hide_priv]
    rintro (e | e)
    · exact hx.2.1 v hv e
    · exact h.val v hv e
  cp := by
    rw [Layout.hide_priv]
    rintro (e | e)
    · exact hx.2.2 e.symm
    · exact h.cp e
  rdat := h.rdat
  rsep := h.rsep
  rlt := h.rlt
  rinj := h.rinj

theorem Layout.Wf.track {L : Layout} (h : L.Wf) {r : Nat × Nat} (hx : L.free (r.1 + 4)) (hc : L.cell (r.1 + 4)) (hl : r.2 < 2 ^ 32) : (L.track r).Wf where
  P := h.P
  blk b hb o h1 h2 := by
    rw [Layout.track_priv]
    rintro (e | e)
    · exact hx.1 b hb o h1 h2 e
    · exact h.blk b hb o h1 h2 e
  val v hv := by
    rw [Layout.track_priv]
    rintro (e | e)
    · exact hx.2.1 v hv e
    · exact h.val v hv e
  cp := by
    rw [Layout.track_priv]
    rintro (e | e)
    · exact hx.2.2 e.symm
    · exact h.cp e
  rdat q hq := by
    simp only [Layout.track, List.mem_cons] at hq
    rcases hq with rfl | hq
    · exact hc.1
    · exact h.rdat q hq
  rsep q hq v hv := by
    simp only [Layout.track, List.mem_cons] at hq
    rcases hq with rfl | hq
    · exact ⟨fun e => hc.2 (Or.inr (Or.inl ⟨v, hv, e⟩)), fun e => hc.2 (Or.inl ⟨v, hv, Or.inl e⟩), fun e => hc.2 (Or.inl ⟨v, hv, Or.inr (Or.inl e)⟩)⟩
    · exact h.rsep q hq v hv
  rlt q hq := by
    simp only [Layout.track, List.mem_cons] at hq
    rcases hq with rfl | hq
    · exact hl
    · exact h.rlt q hq
  rinj a ha b hb e := by
    simp only [Layout.track, List.mem_cons] at ha hb
    rcases ha with rfl | ha <;> rcases hb with rfl | hb
    · rfl
    · exact absurd (Or.inr (Or.inr (Or.inl ⟨b, hb, by rw [e]⟩))) hc.2
    · exact absurd (Or.inr (Or.inr (Or.inl ⟨a, ha, by rw [e]⟩))) hc.2
    · exact h.rinj a ha b hb e

/-- The check for a list of dwords at once. -/
def Layout.freeB (L : Layout) (x : Nat) : Bool :=
  L.P.blks.all (fun b => decide (x < b.t + 8 ∨ b.t + 2376 ≤ x)) && L.P.vars.all (fun v => decide (v + 348 ≠ x)) && decide (x ≠ cpAddr)

theorem Layout.freeB_spec {L : Layout} {x : Nat} (h : L.freeB x = true) : L.free x := by
  simp only [Layout.freeB, Bool.and_eq_true, decide_eq_true_eq] at h
  exact Layout.free_of h.1.1 h.1.2 h.2

def Layout.tracks (L : Layout) (l : List (Nat × Nat)) : Layout := { L with rest := l ++ L.rest }

theorem Layout.tracks_priv (L : Layout) : ∀ (l : List (Nat × Nat)) (y : Nat), (L.tracks l).priv y ↔ (∃ r ∈ l, y = r.1 + 4) ∨ L.priv y
  | [], y => by simp [Layout.tracks]
  | r :: l, y => by
    have := Layout.track_priv (L.tracks l) r y
    rw [Layout.tracks_priv L l y] at this
    simp only [List.mem_cons, exists_eq_or_imp, or_assoc]
    exact this

/-- Tracking many dwords. -/
theorem Layout.Wf.tracks {L : Layout} (h : L.Wf) : ∀ {l : List (Nat × Nat)}, (∀ r ∈ l, L.free (r.1 + 4) ∧ L.cell (r.1 + 4) ∧ r.2 < 2 ^ 32) →
    l.Pairwise (fun r q => r.1 ≠ q.1) → (L.tracks l).Wf
  | [], _, _ => h
  | r :: l, hl, hp => by
    rw [List.pairwise_cons] at hp
    have i := h.tracks (l := l) (fun q hq => hl q (by simp [hq])) hp.2
    obtain ⟨h1, h2, h3⟩ := hl r (by simp)
    refine i.track (L := L.tracks l) ⟨h1.1, h1.2.1, h1.2.2⟩ ⟨h2.1, ?_⟩ h3
    rw [Layout.tracks_priv]
    rintro (⟨q, hq, e⟩ | e)
    · exact hp.1 q hq (by omega)
    · exact h2.2 e

/-- The dwords of `l` can be tracked in the laid out program. -/
def Layout.tracksB (L : Layout) (l : List (Nat × Nat)) : Bool :=
  l.all (fun r => L.freeB (r.1 + 4) && L.cellB (r.1 + 4) && decide (r.2 < 2 ^ 32)) && decide (l.map Prod.fst).Nodup

theorem Layout.Laid.tracks {L : Layout} {p : Nat} {vals : List W} (h : L.Laid p vals) {l : List (Nat × Nat)} (hl : L.tracksB l = true) : (L.tracks l).Wf := by
  simp only [Layout.tracksB, Bool.and_eq_true, List.all_eq_true, decide_eq_true_eq] at hl
  have q2 := hl.2
  refine h.wf.tracks (fun r hr => ⟨Layout.freeB_spec (hl.1 r hr).1.1, h.cellB (hl.1 r hr).1.2, (hl.1 r hr).2⟩) ?_
  rw [List.Nodup, List.pairwise_map] at q2
  exact q2

end Eud.SC
