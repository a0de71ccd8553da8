import Verif.Machine.Struct
/-
Layouts for examples, and an example for C24 and C25.
-/

namespace Eud.SC

/-- Initial next pointers of branch triggers, and initial contents of other holes. -/
def restMem (rest : List (Nat × Nat)) (holes : List (Nat × W)) : Mem := fun x =>
  match rest.find? (fun r => r.1 + 4 == x) with
  | some r => BitVec.ofNat 32 r.2
  | none => match holes.find? (fun r => r.1 == x) with
    | some r => r.2
    | none => 0

/-- A laid out program whose branch triggers are among its triggers. -/
structure Layout.Laid (L : Layout) (p : Nat) (vals : List W) : Prop where
  P : L.P.Laid p vals
  hid : L.hid = []
  rest : ∀ r ∈ L.rest, r.2 < 2 ^ 32 ∧ ∃ b ∈ L.P.blks, b.t = r.1 ∧ b.next = none
  rinj : L.rest.Pairwise (fun r q => r.1 ≠ q.1)

/-- The initial memory of an example. -/
def Layout.mem (L : Layout) (p : Nat) (vals : List W) (holes : List (Nat × W) := []) : Mem :=
  L.P.mem (restMem L.rest holes) p vals

theorem pairwise_ne {α : Type} {R : α → α → Prop} (hR : ∀ a b, R a b → R b a) : ∀ {l : List α}, l.Pairwise R →
    ∀ a ∈ l, ∀ b ∈ l, a = b ∨ R a b
  | [], _, a, ha, _, _ => by simp at ha
  | c :: l, h, a, ha, b, hb => by
    rw [List.pairwise_cons] at h
    simp only [List.mem_cons] at ha hb
    rcases ha with rfl | ha <;> rcases hb with rfl | hb
    · exact Or.inl rfl
    · exact Or.inr (h.1 b hb)
    · exact Or.inr (hR _ _ (h.1 a ha))
    · exact pairwise_ne hR h.2 a ha b hb

theorem Layout.Laid.wf {L : Layout} {p : Nat} {vals : List W} (h : L.Laid p vals) : L.Wf := by
  obtain ⟨h1, h2, -, -⟩ := h.P.ok (fun _ => 0)
  have hp4 := h.P.p4
  have hlo := h.P.lo
  have hvr : ∀ v ∈ L.P.vars, ∃ i, i < vals.length ∧ v = p - 4 + 72 * i := by
    intro v hv
    rw [h.P.vars] at hv
    obtain ⟨i, hi, rfl⟩ := List.mem_map.1 hv
    exact ⟨i, List.mem_range.1 hi, rfl⟩
  have hnp : ∀ x, (∀ v ∈ L.P.vars, x ≠ v + 4 ∧ x ≠ v + 344 ∧ x ≠ v + 352 ∧ x ≠ v + 328) →
      (∀ r ∈ L.rest, x ≠ r.1 + 4) → ¬ L.priv x := by
    intro x hv hr hx
    rcases hx with ⟨v, hvv, e | e | e⟩ | ⟨v, hvv, e⟩ | ⟨r, hrr, e⟩ | e
    · exact (hv v hvv).1 e
    · exact (hv v hvv).2.1 e
    · exact (hv v hvv).2.2.1 e
    · exact (hv v hvv).2.2.2 e
    · exact hr r hrr e
    · rw [h.hid] at e; simp at e
  have hbt : ∀ b ∈ L.P.blks, ∀ c ∈ L.P.blks, b = c ∨ (b.t + 2408 ≤ c.t ∨ c.t + 2408 ≤ b.t) :=
    pairwise_ne (fun a b h => by omega) h.P.bp
  refine ⟨h2, ?_, ?_, ?_, ?_, ?_, fun r hr => (h.rest r hr).1, ?_⟩
  · intro b hb o ho1 ho2
    have hb1 := h.P.bb b hb
    apply hnp
    · intro v hv
      obtain ⟨i, hi, rfl⟩ := hvr v hv
      omega
    · intro r hr
      obtain ⟨-, c, hc, e, -⟩ := h.rest r hr
      rcases hbt b hb c hc with rfl | hbc <;> omega
  · intro v hv
    obtain ⟨o4, o20, o328, o344, o348, o352, o356, o384, o2376⟩ := offs_mem
    apply hnp
    · intro w hw
      exact ⟨h2.sep v hv w hw _ o348 _ o4 (by omega), h2.sep v hv w hw _ o348 _ o344 (by omega),
        h2.sep v hv w hw _ o348 _ o352 (by omega), h2.sep v hv w hw _ o348 _ o328 (by omega)⟩
    · intro r hr
      obtain ⟨-, c, hc, e, -⟩ := h.rest r hr
      have := h.P.bb c hc
      obtain ⟨i, hi, rfl⟩ := hvr v hv
      omega
  · apply hnp
    · intro v hv
      obtain ⟨i, hi, rfl⟩ := hvr v hv
      simp only [cpAddr] at hlo ⊢
      omega
    · intro r hr
      obtain ⟨-, c, hc, e, -⟩ := h.rest r hr
      have := h.P.bb c hc
      simp only [cpAddr] at hlo ⊢
      omega
  · intro r hr
    obtain ⟨-, c, hc, e, hn⟩ := h.rest r hr
    have hcb := h.P.bb c hc
    refine ⟨?_, ?_⟩
    · rintro (⟨b, hb, hf⟩ | hf | ⟨v, hv, hf⟩)
      · rcases hbt b hb c hc with rfl | hbc
        · rcases hf with ⟨i, hi, j, hj, -, hx⟩ | ⟨hl, hx⟩ | ⟨i, hi, j, hj, -, hx⟩ | ⟨hl, hx⟩ | ⟨-, hx⟩ | ⟨hx, -⟩
          · omega
          · omega
          · omega
          · omega
          · omega
          · rw [hn] at hx; simp at hx
        · have := SBlk.foot_range (h.P.bv b hb).cl (h.P.bv b hb).al hf
          omega
      · obtain ⟨b, hb, hr'⟩ := progFoot_range hf
        have := h.P.x c hc b hb
        omega
      · obtain ⟨i, hi, rfl⟩ := hvr v hv
        rcases hf with hf | hf | hf | hf <;> omega
    · intro v hv
      obtain ⟨i, hi, rfl⟩ := hvr v hv
      omega
  · intro r hr v hv
    obtain ⟨-, c, hc, e, hn⟩ := h.rest r hr
    have hcb := h.P.bb c hc
    obtain ⟨i, hi, rfl⟩ := hvr v hv
    omega
  · intro r hr q hq e
    rcases pairwise_ne (fun a b h => Ne.symm h) h.rinj r hr q hq with h | h
    · exact h
    · exact absurd e h

theorem Layout.Laid.ok {L : Layout} {p : Nat} {vals : List W} (h : L.Laid p vals) (holes : List (Nat × W) := []) :
    L.Ok (L.mem p vals holes) ∧ ∀ i (hi : i < vals.length), L.mem p vals holes (p - 4 + 72 * i + 348) = vals[i] := by
  obtain ⟨h1, h2, h3, h4⟩ := h.P.ok (restMem L.rest holes)
  refine ⟨⟨h1, h3, ?_⟩, h4⟩
  intro r hr
  obtain ⟨-, c, hc, e, hn⟩ := h.rest r hr
  have hcb := h.P.bb c hc
  show simage _ L.P.blks (r.1 + 4) = _
  rw [← e, simage_inside h.P.bp c hc 4 (by omega)]
  simp only [SBlk.wordAt, if_true, hn, Option.map_none, Option.getD_none]
  rw [image_outside (fun b hb => by have := h.P.x c hc b hb; omega)]
  have hout : bufImage (restMem L.rest holes) p vals (c.t + 4) = restMem L.rest holes (c.t + 4) := by
    unfold bufImage
    rw [if_neg (by omega)]
  rw [hout]
  unfold restMem
  have : L.rest.find? (fun q => q.1 + 4 == c.t + 4) = some r := by
    have hw := h.wf.rinj
    cases hf : L.rest.find? (fun q => q.1 + 4 == c.t + 4) with
    | none =>
      rw [List.find?_eq_none] at hf
      exact absurd (by simp [e]) (hf r hr)
    | some q =>
      have h1 := List.find?_some hf
      have h2 := List.mem_of_find?_eq_some hf
      simp only [beq_iff_eq] at h1
      rw [hw q h2 r hr (by omega)]
  rw [this]

theorem SBlk.foot_wordAt {b : SBlk} (hv : b.Valid) {o : Nat} (h : b.foot (b.t + o)) : (b.wordAt o).isSome = true := by
  have hcl := hv.cl
  have hal := hv.al
  unfold SBlk.wordAt
  rcases h with ⟨i, hi, j, hj, hs, e⟩ | ⟨hl, e⟩ | ⟨i, hi, j, hj, hs, e⟩ | ⟨hl, e⟩ | ⟨ho, e⟩ | ⟨hn, e⟩
  · have : o = 8 + 20 * i + 4 * j := by omega
    subst this
    rw [if_neg (by omega), if_pos (by omega), show (8 + 20 * i + 4 * j - 8) / 20 = i by omega,
      show (8 + 20 * i + 4 * j - 8) % 20 / 4 = j by omega, List.getElem?_eq_getElem hi]
    exact hs
  · have : o = 8 + 20 * b.T.conds.length + 12 := by omega
    subst this
    rw [if_neg (by omega), if_pos (by omega),
      show (8 + 20 * b.T.conds.length + 12 - 8) / 20 = b.T.conds.length by omega, List.getElem?_eq_none (by omega)]
    rfl
  · have : o = 328 + 32 * i + 4 * j := by omega
    subst this
    rw [if_neg (by omega), if_neg (by omega), if_pos (by omega), show (328 + 32 * i + 4 * j - 328) / 32 = i by omega,
      show (328 + 32 * i + 4 * j - 328) % 32 / 4 = j by omega, List.getElem?_eq_getElem hi]
    exact hs
  · have : o = 328 + 32 * b.T.acts.length + 24 := by omega
    subst this
    rw [if_neg (by omega), if_neg (by omega), if_pos (by omega),
      show (328 + 32 * b.T.acts.length + 24 - 328) / 32 = b.T.acts.length by omega, List.getElem?_eq_none (by omega)]
    rfl
  · have : o = 2376 := by omega
    subst this
    simp [ho]
  · have : o = 4 := by omega
    subst this
    simpa using hn

/-- A hole of a trigger is a cell, with the given initial contents. -/
theorem Layout.Laid.hole {L : Layout} {p : Nat} {vals : List W} (h : L.Laid p vals) {b : SBlk} (hb : b ∈ L.P.blks)
    {o : Nat} (ho : o < 2408) (hn : b.wordAt o = none) (hr : o = 4 → ∀ r ∈ L.rest, r.1 ≠ b.t)
    (holes : List (Nat × W) := []) :
    L.cell (b.t + o) ∧ L.mem p vals holes (b.t + o)
      = (match holes.find? (fun r => r.1 == b.t + o) with | some r => r.2 | none => 0) := by
  have hvr : ∀ v ∈ L.P.vars, ∃ i, i < vals.length ∧ v = p - 4 + 72 * i := by
    intro v hv
    rw [h.P.vars] at hv
    obtain ⟨i, hi, rfl⟩ := List.mem_map.1 hv
    exact ⟨i, List.mem_range.1 hi, rfl⟩
  have hp4 := h.P.p4
  have hbb := h.P.bb b hb
  have hbt : ∀ c ∈ L.P.blks, b = c ∨ (b.t + 2408 ≤ c.t ∨ c.t + 2408 ≤ b.t) := fun c hc =>
    pairwise_ne (fun a b h => by omega) h.P.bp b hb c hc
  have hrr : ∀ r ∈ L.rest, b.t + o ≠ r.1 + 4 := by
    intro r hr' e
    obtain ⟨-, c, hc, e2, -⟩ := h.rest r hr'
    rcases hbt c hc with rfl | hbc
    · exact hr (by omega) r hr' e2.symm
    · omega
  refine ⟨⟨⟨?_, ?_⟩, ?_⟩, ?_⟩
  · rintro (⟨c, hc, hf⟩ | hf | ⟨v, hv, hf⟩)
    · rcases hbt c hc with rfl | hbc
      · have := SBlk.foot_wordAt (h.P.bv b hb) hf
        rw [hn] at this
        simp at this
      · have := SBlk.foot_range (h.P.bv c hc).cl (h.P.bv c hc).al hf
        omega
    · obtain ⟨c, hc, hr'⟩ := progFoot_range hf
      have := h.P.x b hb c hc
      omega
    · obtain ⟨i, hi, rfl⟩ := hvr v hv
      rcases hf with hf | hf | hf | hf <;> omega
  · intro v hv
    obtain ⟨i, hi, rfl⟩ := hvr v hv
    omega
  · rintro (⟨v, hvv, e | e | e⟩ | ⟨v, hvv, e⟩ | ⟨r, hrr', e⟩ | e)
    · obtain ⟨i, hi, rfl⟩ := hvr v hvv; omega
    · obtain ⟨i, hi, rfl⟩ := hvr v hvv; omega
    · obtain ⟨i, hi, rfl⟩ := hvr v hvv; omega
    · obtain ⟨i, hi, rfl⟩ := hvr v hvv; omega
    · exact hrr r hrr' e
    · rw [h.hid] at e; simp at e
  · show simage _ L.P.blks (b.t + o) = _
    rw [simage_inside h.P.bp b hb o ho, hn, Option.getD_none,
      image_outside (fun c hc => by have := h.P.x b hb c hc; omega)]
    have hout : bufImage (restMem L.rest holes) p vals (b.t + o) = restMem L.rest holes (b.t + o) := by
      unfold bufImage
      rw [if_neg (by omega)]
    rw [hout]
    unfold restMem
    have : L.rest.find? (fun q => q.1 + 4 == b.t + o) = none := by
      rw [List.find?_eq_none]
      intro r hr'
      have := hrr r hr'
      simp only [beq_iff_eq]
      omega
    rw [this]

/-! ## A decision procedure for layouts -/

instance (c : SCnd) : Decidable c.Valid := by
  unfold SCnd.Valid; split <;> infer_instance

instance (a : SAct) : Decidable a.Valid :=
  match h : a.dst with
  | none => isTrue (fun d hd => by rw [h] at hd; cases hd)
  | some d => if hv : d.Valid then isTrue (fun d' hd => by rw [h] at hd; cases hd; exact hv)
    else isFalse (fun hh => hv (hh d h))

/-- Triggers in increasing order of addresses. -/
def ordered : Nat → List Nat → Bool
  | _, [] => true
  | lo, t :: ts => decide (lo ≤ t) && ordered (t + 2408) ts

theorem ordered_spec : ∀ {ts : List Nat} {lo : Nat}, ordered lo ts = true →
    (∀ t ∈ ts, lo ≤ t) ∧ ts.Pairwise (fun a b => a + 2408 ≤ b)
  | [], _, _ => ⟨by simp, List.Pairwise.nil⟩
  | t :: ts, lo, h => by
    simp only [ordered, Bool.and_eq_true, decide_eq_true_eq] at h
    obtain ⟨h1, h2⟩ := ordered_spec h.2
    refine ⟨?_, List.pairwise_cons.2 ⟨fun b hb => h1 b hb, h2⟩⟩
    intro u hu
    simp only [List.mem_cons] at hu
    rcases hu with rfl | hu
    · exact h.1
    · have := h1 u hu; omega

def SBlk.validB (b : SBlk) : Bool :=
  decide (b.T.conds.length ≤ 16) && decide (b.T.acts.length ≤ 64) && b.T.conds.all (fun c => decide c.Valid) &&
    b.T.acts.all (fun a => decide a.Valid) && (match b.next with | some n => decide (n < 2 ^ 32) | none => true)

theorem SBlk.validB_spec {b : SBlk} (h : b.validB = true) : b.Valid := by
  simp only [SBlk.validB, Bool.and_eq_true, decide_eq_true_eq, List.all_eq_true] at h
  obtain ⟨⟨⟨⟨h1, h2⟩, h3⟩, h4⟩, h5⟩ := h
  refine ⟨h1, h2, h3, h4, ?_⟩
  intro n hn
  rw [hn] at h5
  simpa using h5

instance (c : Cnd) : Decidable c.Valid := by
  unfold Cnd.Valid; split <;> infer_instance

def Blk.validB (b : Blk) : Bool :=
  decide (b.T.conds.length ≤ 16) && decide (b.T.acts.length ≤ 64) && b.T.conds.all (fun c => decide c.Valid) &&
    b.T.acts.all (fun a => decide a.dst.Valid) && (match b.next with | some n => decide (n < 2 ^ 32) | none => true)

theorem Blk.validB_spec {b : Blk} (h : b.validB = true) : b.Valid := by
  simp only [Blk.validB, Bool.and_eq_true, decide_eq_true_eq, List.all_eq_true] at h
  obtain ⟨⟨⟨⟨h1, h2⟩, h3⟩, h4⟩, h5⟩ := h
  refine ⟨h1, h2, h3, h4, ?_⟩
  intro n hn
  rw [hn] at h5
  simpa using h5

/-- Check that a layout is laid out: buffer of `n` variables at `p`, triggers in increasing order, those of
`SeqCompute` last. -/
def Layout.laidB (L : Layout) (p n : Nat) : Bool :=
  decide (L.P.vars = (List.range n).map (fun i => p - 4 + 72 * i)) && decide (4 ≤ p) && decide (p % 4 = 0) &&
  decide (cpAddr < p) && decide (p + 2404 + 72 * n < 2 ^ 32) && L.P.blks.all SBlk.validB && L.P.seqs.all Blk.validB &&
  ordered (p + 2404 + 72 * n) (L.P.blks.map SBlk.t ++ L.P.seqs.map Blk.t) && L.hid.isEmpty &&
  L.rest.all (fun r => decide (r.2 < 2 ^ 32) && L.P.blks.any (fun b => b.t == r.1 && b.next.isNone)) &&
  ordered 0 (L.rest.map Prod.fst)

theorem Layout.laidB_spec {L : Layout} {p : Nat} {vals : List W} (h : L.laidB p vals.length = true) : L.Laid p vals := by
  simp only [Layout.laidB, Bool.and_eq_true, decide_eq_true_eq, List.all_eq_true, List.isEmpty_iff, List.any_eq_true] at h
  obtain ⟨⟨⟨⟨⟨⟨⟨⟨⟨⟨h1, h2⟩, h3⟩, h4⟩, h5⟩, h6⟩, h7⟩, h8⟩, h9⟩, h10⟩, h11⟩ := h
  obtain ⟨o1, o2⟩ := ordered_spec h8
  obtain ⟨-, q2⟩ := ordered_spec h11
  rw [List.pairwise_append] at o2
  obtain ⟨o2, o3, o4⟩ := o2
  refine ⟨⟨h1, h2, h3, h4, h5, fun b hb => SBlk.validB_spec (h6 b hb), fun b hb => Blk.validB_spec (h7 b hb), ?_, ?_,
    ?_, ?_, ?_⟩, h9, ?_, ?_⟩
  · rw [List.pairwise_map] at o2
    exact o2.imp (fun h => Or.inl h)
  · rw [List.pairwise_map] at o3
    exact o3.imp (fun h => Or.inl h)
  · intro b hb
    exact o1 b.t (List.mem_append_right _ (List.mem_map_of_mem hb))
  · intro b hb
    exact o1 b.t (List.mem_append_left _ (List.mem_map_of_mem hb))
  · intro b hb c hc
    exact Or.inl (o4 _ (List.mem_map_of_mem hb) _ (List.mem_map_of_mem hc))
  · intro r hr
    obtain ⟨e1, b, hb, e2, e3⟩ := h10 r hr
    exact ⟨e1, b, hb, by simpa using e2, by simpa using e3⟩
  · rw [List.pairwise_map] at q2
    exact q2.imp (fun h => by omega)

/-! ## Example: `while x >= 1: if x is odd: y += 3; x -= 1` -/

/-! ## A decision procedure for cells -/

def Layout.cellB (L : Layout) (x : Nat) : Bool :=
  L.P.blks.all (fun b => decide (x < b.t) || decide (b.t + 2408 ≤ x) || (b.wordAt (x - b.t)).isNone) &&
  L.P.seqs.all (fun b => decide (x < b.t) || decide (b.t + 2408 ≤ x)) &&
  L.P.vars.all (fun v => [4, 20, 328, 344, 352, 356, 384, 2376].all fun o => decide (x ≠ v + o)) &&
  L.rest.all (fun r => decide (x ≠ r.1 + 4)) && L.hid.isEmpty

theorem Layout.Laid.cellB {L : Layout} {p : Nat} {vals : List W} (h : L.Laid p vals) {x : Nat} (hx : L.cellB x = true) : L.cell x := by
  simp only [Layout.cellB, Bool.and_eq_true, List.all_eq_true, Bool.or_eq_true, decide_eq_true_eq, List.isEmpty_iff] at hx
  obtain ⟨⟨⟨⟨h1, h2⟩, h3⟩, h4⟩, h5⟩ := hx
  have h3' : ∀ v ∈ L.P.vars, x ≠ v + 4 ∧ x ≠ v + 20 ∧ x ≠ v + 328 ∧ x ≠ v + 344 ∧ x ≠ v + 352 ∧ x ≠ v + 356 ∧ x ≠ v + 384 ∧ x ≠ v + 2376 :=
    fun v hv => by
      have := h3 v hv
      simpa using this
  refine ⟨⟨?_, fun v hv => (h3' v hv).2.2.2.2.1⟩, ?_⟩
  · rintro (⟨c, hc, hf⟩ | hf | ⟨v, hv, hf⟩)
    · have hr := SBlk.foot_range (h.P.bv c hc).cl (h.P.bv c hc).al hf
      rcases h1 c hc with (g | g) | g
      · omega
      · omega
      · obtain ⟨o, rfl⟩ : ∃ o, x = c.t + o := ⟨x - c.t, by omega⟩
        have := SBlk.foot_wordAt (h.P.bv c hc) hf
        rw [Nat.add_sub_cancel_left] at g
        cases hh : c.wordAt o <;> simp [hh] at this g
    · obtain ⟨c, hc, hr'⟩ := progFoot_range hf
      have := h2 c hc
      omega
    · have := h3' v hv
      rcases hf with hf | hf | hf | hf <;> omega
  · rintro (⟨v, hv, e⟩ | ⟨v, hv, e⟩ | ⟨r, hr, e⟩ | e)
    · have := h3' v hv; omega
    · have := h3' v hv; omega
    · exact h4 r hr e
    · rw [h5] at e; simp at e


namespace Ex25

def p : Nat := 0x1000000
def x : Nat := p + 344
def y : Nat := p + 72 + 344
/-- `x >= 1` -/
def cs : List PC := [cMem x .atLeast 1]
/-- `x.ExactlyX(1, 1)` -/
def odd : List PC := [cMemX x .exactly 1 1]
def body : Stmt := .seq (.ite .skip odd (.trig [] [aMem y .add 3]) .skip) (.trig [] [aMem x .sub 1])
def st : Stmt := .loop false .skip cs body .skip

def t (k : Nat) : Nat := 0x2000000 + 0x1000 * k
def b0 : SBlk := ⟨t 0, ⟨[sChk x .atLeast 1 0xFFFFFFFF], [sNext (t 0) (t 1)]⟩, none, false⟩
def b1 : SBlk := ⟨t 1, ⟨[], [sNext (t 0) (t 6)]⟩, some (t 2), false⟩
def b2 : SBlk := ⟨t 2, ⟨[sChk x .exactly 1 1], [sNext (t 2) (t 3)]⟩, none, false⟩
def b3 : SBlk := ⟨t 3, ⟨[], [sNext (t 2) (t 5)]⟩, some (t 4), false⟩
def b4 : SBlk := ⟨t 4, ⟨[], [sMem y .add 3]⟩, some (t 5), false⟩
def b5 : SBlk := ⟨t 5, ⟨[], [sMem x .sub 1]⟩, some (t 0), false⟩
def L : Layout := ⟨⟨[b0, b1, b2, b3, b4, b5], [], [p - 4, p - 4 + 72]⟩, [(t 0, t 6), (t 2, t 5)], []⟩

theorem laid (a b : W) : L.Laid p [a, b] := by
  refine ⟨⟨rfl, by decide, by decide, by decide, by simp [p], ?_, by simp [L], ?_, by simp [L], by simp [L],
    ?_, by simp [L]⟩, rfl, ?_, ?_⟩
  · intro c hc
    simp only [L, List.mem_cons, List.not_mem_nil, or_false] at hc
    rcases hc with rfl | rfl | rfl | rfl | rfl | rfl
    all_goals
      refine ⟨by decide, by decide, ?_, ?_, ?_⟩
      · simp [b0, b1, b2, b3, b4, b5, sChk, SCnd.Valid, Dst.Valid]; try decide
      · intro a ha d hd
        simp only [b0, b1, b2, b3, b4, b5, List.mem_singleton] at ha
        subst ha
        simp only [sNext, sMem, Option.some.injEq] at hd
        subst hd
        simp only [Dst.Valid]; decide
      · simp [b0, b1, b2, b3, b4, b5, t]
  · simp [L, b0, b1, b2, b3, b4, b5, t]
  · intro c hc
    simp only [L, List.mem_cons, List.not_mem_nil, or_false] at hc
    rcases hc with rfl | rfl | rfl | rfl | rfl | rfl <;> simp [b0, b1, b2, b3, b4, b5, t, p]
  · intro r hr
    simp only [L, List.mem_cons, List.not_mem_nil, or_false] at hr
    rcases hr with rfl | rfl
    · exact ⟨by decide, b0, by simp [L], rfl, rfl⟩
    · exact ⟨by decide, b2, by simp [L], rfl, rfl⟩
  · decide

theorem code : Code L 0 0 0 st (t 0) (t 6) := by
  refine Code.loop (c := t 0) (ta := t 2) (i := t 0) Code.skip ?_ ?_ Code.skip
  · refine BranchAt.last _ (t 1) cs [] (by simp [cs]) (by decide) ⟨cMem_static _ _ _, trivial⟩ trivial ⟨?_, ?_, ?_, by decide⟩
    · simp [L, cs, b0, cMem]
    · simp [L, b1]
    · simp [L]
  · refine Code.seq (m := t 5) (Code.ite (c := t 2) (ta := t 4) (fa := t 5) Code.skip ?_ ?_ Code.skip) ?_
    · refine BranchAt.last _ (t 3) odd [] (by simp [odd]) (by decide) ⟨cMemX_static _ _ _ _, trivial⟩ trivial ⟨?_, ?_, ?_, by decide⟩
      · simp [L, odd, b2, cMemX]
      · simp [L, b3]
      · simp [L]
    · exact Code.trig trivial ⟨by simp [aMem, SAct.static, sMem], trivial⟩ (by simp [L, b4, aMem])
    · exact Code.trig trivial ⟨by simp [aMem, SAct.static, sMem], trivial⟩ (by simp [L, b5, aMem])

/-- The loop adds 3 for every odd number it counts through. -/
theorem exec (hw : L.Wf) : ∀ (n : Nat) (s : Mem), n < 2 ^ 32 → s x = BitVec.ofNat 32 n →
    ∃ s', Exec L st s .nrm s' ∧ s' x = 0 ∧ s' y = s y + BitVec.ofNat 32 (3 * ((n + 1) / 2)) := by
  have hcx : L.cell x := cell_val hw (v := p - 4) (by simp [L])
  have hcy : L.cell y := cell_val hw (v := p - 4 + 72) (by simp [L])
  have hok : ∀ (s : Mem), (∀ q ∈ cs, q.Ok L s) ∧ ∀ q ∈ odd, q.Ok L s := by
    intro s
    constructor <;> intro q hq
    · simp only [cs, List.mem_singleton] at hq
      subst hq
      exact cMem_ok hcx _ _ _
    · simp only [odd, List.mem_singleton] at hq
      subst hq
      exact cMemX_ok hcx _ _ _ _
  intro n
  induction n with
  | zero =>
    intro s _ hs
    refine ⟨s, Exec.loopEnd (Exec.skip _) (hok s).1 ?_, hs, by simp⟩
    simp [cs, compare, hs]
  | succ n ih =>
    intro s hn hs
    have hxy : x ≠ y := by decide
    have hodd : holdsAll s odd = decide ((n + 1) % 2 = 1) := by
      simp only [odd, holdsAll_cons, holdsAll_nil, cMemX_holds, compare, hs, Bool.and_true]
      rw [Bool.eq_iff_iff]
      simp only [decide_eq_true_eq, ← BitVec.toNat_inj, BitVec.toNat_and, BitVec.toNat_ofNat]
      rw [Nat.mod_eq_of_lt hn]
      simp [Nat.and_one_is_mod]
    let s1 := if (n + 1) % 2 = 1 then s.set y (s y + 3) else s
    have h1x : s1 x = s x := by
      simp only [s1]; split
      · exact set_ne hxy
      · rfl
    let s2 := s1.set x (s1 x - 1)
    have h2x : s2 x = BitVec.ofNat 32 n := by
      simp only [s2, set_eq, h1x, hs]
      apply BitVec.eq_of_toNat_eq
      simp only [BitVec.toNat_sub, BitVec.toNat_ofNat, show (1 : W).toNat = 1 from rfl]
      omega
    have h2y : s2 y = if (n + 1) % 2 = 1 then s y + 3 else s y := by
      simp only [s2, set_ne (Ne.symm hxy), s1]
      split
      · exact set_eq _ _ _
      · rfl
    have hB : Exec L body s .nrm s2 := by
      refine Exec.seqN (s1 := s1) (Exec.ite (s1 := s) (Exec.skip _) (hok s).2 ?_) ?_
      · rw [hodd]
        by_cases ho : (n + 1) % 2 = 1
        · simp only [ho, decide_true, if_true, s1]
          simpa [arith] using Exec.acts (L := L) (s := s) (actsOk_mem hcy (md := .add) (v := 3) (ps := []) trivial)
        · simp only [ho, decide_false, s1]
          exact Exec.skip _
      · have hge : ¬ s1 x = 0#32 := by
          rw [h1x, hs, ← BitVec.toNat_inj, BitVec.toNat_ofNat]
          simp only [BitVec.toNat_ofNat]
          omega
        simpa [arith, s2, hge] using Exec.acts (L := L) (s := s1) (actsOk_mem hcx (md := .sub) (v := 1) (ps := []) trivial)
    obtain ⟨s', e1, e2, e3⟩ := ih s2 (by omega) h2x
    refine ⟨s', Exec.loopStep (s1 := s) (Exec.skip _) (hok s).1 ?_ hB (by simp) (Exec.skip _) e1, e2, ?_⟩
    · simp only [cs, holdsAll_cons, holdsAll_nil, cMem_holds, compare, hs, Bool.and_true, Bool.not_false,
        decide_eq_true_eq, BitVec.le_def, BitVec.toNat_ofNat, show (1 : W).toNat = 1 from rfl]
      omega
    · rw [e3, h2y]
      split
      · rw [BitVec.add_assoc]
        congr 1
        apply BitVec.eq_of_toNat_eq
        simp only [BitVec.toNat_add, BitVec.toNat_ofNat, show (3 : W).toNat = 3 from rfl]
        omega
      · congr 2
        omega

/-- From `x = 7`, `y = 100` the emitted triggers reach the end with `x = 0`, `y = 112`. -/
example : ∃ m', Reaches ⟨L.mem p [7, 100], t 0⟩ ⟨m', t 6⟩ ∧ m' x = 0 ∧ m' y = 112 := by
  have hl := laid 7 100
  obtain ⟨hok, hval⟩ := hl.ok
  have hw := hl.wf
  have nx : ¬ L.priv x := (cell_val hw (v := p - 4) (by simp [L])).2
  have ny : ¬ L.priv y := (cell_val hw (v := p - 4 + 72) (by simp [L])).2
  have h0 : L.view (L.mem p [7, 100]) x = 7 := by
    rw [Layout.view_at nx]; exact hval 0 (by decide)
  have h1 : L.view (L.mem p [7, 100]) y = 100 := by
    rw [Layout.view_at ny]; exact hval 1 (by decide)
  obtain ⟨s', e1, e2, e3⟩ := exec hw 7 _ (by decide) h0
  obtain ⟨m', r, -, hv⟩ := C25_structured hw e1 code _ hok rfl
  refine ⟨m', r, ?_, ?_⟩
  · rw [← Layout.view_at (m := m') nx, hv, e2]
  · rw [← Layout.view_at (m := m') ny, hv, e3, h1]; decide

end Ex25

end Eud.SC
