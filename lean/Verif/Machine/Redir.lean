import Verif.Machine.Wp
/-
Code that leaves next pointers of its own triggers changed for a while.  `L.redir d` is the layout `L`
except that the triggers listed in `d` have, for the time being, another next pointer.  What is visible
is the same in all these layouts.
-/

namespace Eud.SC

/-- The layout in which the triggers of `d` have the next pointers given there. -/
def Layout.redir (L : Layout) (d : List (Nat × Nat)) : Layout :=
  { L with rest := L.rest.map fun r => (r.1, (d.lookup r.1).getD r.2) }

/-- From layout `L`, view `s`, at `t`, the machine gets to layout `L'`, view `s'`, at `t'`. -/
def Layout.Moves (L L' : Layout) (s : Mem) (t : Nat) (s' : Mem) (t' : Nat) : Prop :=
  ∀ m, L.Ok m → L.view m = s → ∃ m', Reaches ⟨m, t⟩ ⟨m', t'⟩ ∧ L'.Ok m' ∧ L'.view m' = s'

theorem Layout.Moves.trans {L1 L2 L3 : Layout} {s1 s2 s3 : Mem} {t1 t2 t3 : Nat} (h : L1.Moves L2 s1 t1 s2 t2)
    (g : L2.Moves L3 s2 t2 s3 t3) : L1.Moves L3 s1 t1 s3 t3 := by
  intro m hm hv
  obtain ⟨m2, r2, o2, v2⟩ := h m hm hv
  obtain ⟨m3, r3, o3, v3⟩ := g m2 o2 v2
  exact ⟨m3, r2.trans r3, o3, v3⟩

theorem Layout.Runs.moves {L : Layout} {s s' : Mem} {t t' : Nat} (h : L.Runs s t s' t') : L.Moves L s t s' t' := h
theorem Layout.Moves.runs {L : Layout} {s s' : Mem} {t t' : Nat} (h : L.Moves L s t s' t') : L.Runs s t s' t' := h

theorem Layout.redir_nil (L : Layout) : L.redir [] = L := by
  unfold Layout.redir
  simp

theorem Layout.redir_mem {L : Layout} {d : List (Nat × Nat)} {r : Nat × Nat} (h : r ∈ (L.redir d).rest) :
    ∃ q ∈ L.rest, r.1 = q.1 ∧ r.2 = (d.lookup q.1).getD q.2 := by
  simp only [Layout.redir, List.mem_map] at h
  obtain ⟨q, hq, rfl⟩ := h
  exact ⟨q, hq, rfl, rfl⟩

theorem Layout.redir_mem' {L : Layout} {d : List (Nat × Nat)} {q : Nat × Nat} (h : q ∈ L.rest) :
    (q.1, (d.lookup q.1).getD q.2) ∈ (L.redir d).rest := by
  simp only [Layout.redir, List.mem_map]
  exact ⟨q, h, rfl⟩

theorem Layout.redir_priv (L : Layout) (d : List (Nat × Nat)) (x : Nat) : (L.redir d).priv x ↔ L.priv x := by
  have : (∃ r ∈ (L.redir d).rest, x = r.1 + 4) ↔ (∃ r ∈ L.rest, x = r.1 + 4) := by
    constructor
    · rintro ⟨r, hr, e⟩
      obtain ⟨q, hq, e1, -⟩ := Layout.redir_mem hr
      exact ⟨q, hq, by rw [e, e1]⟩
    · rintro ⟨q, hq, e⟩
      exact ⟨_, Layout.redir_mem' hq, e⟩
  unfold Layout.priv
  rw [this]
  exact Iff.rfl

theorem Layout.redir_cell (L : Layout) (d : List (Nat × Nat)) (x : Nat) : (L.redir d).cell x ↔ L.cell x := by
  unfold Layout.cell
  rw [Layout.redir_priv]
  exact Iff.rfl

theorem Layout.redir_view (L : Layout) (d : List (Nat × Nat)) (m : Mem) : (L.redir d).view m = L.view m := by
  funext x
  unfold Layout.view
  by_cases h : L.priv x
  · rw [if_pos h, if_pos ((Layout.redir_priv L d x).2 h)]
  · rw [if_neg h, if_neg (fun g => h ((Layout.redir_priv L d x).1 g))]

theorem List.lookup_mem {d : List (Nat × Nat)} {x y : Nat} (h : d.lookup x = some y) : (x, y) ∈ d := by
  induction d with
  | nil => simp at h
  | cons p d ih =>
    obtain ⟨a, b⟩ := p
    rw [List.lookup_cons] at h
    split at h
    · rename_i e
      have e := beq_iff_eq.1 e
      simp only [Option.some.injEq] at h
      subst e h
      simp
    · exact List.mem_cons_of_mem _ (ih h)

theorem Layout.Wf.redir {L : Layout} (h : L.Wf) {d : List (Nat × Nat)} (hd : ∀ p ∈ d, p.2 < 2 ^ 32) : (L.redir d).Wf where
  P := h.P
  blk b hb o h1 h2 := by rw [Layout.redir_priv]; exact h.blk b hb o h1 h2
  val v hv := by rw [Layout.redir_priv]; exact h.val v hv
  cp := by rw [Layout.redir_priv]; exact h.cp
  rdat r hr := by
    obtain ⟨q, hq, e, -⟩ := Layout.redir_mem hr
    rw [e]; exact h.rdat q hq
  rsep r hr v hv := by
    obtain ⟨q, hq, e, -⟩ := Layout.redir_mem hr
    rw [e]; exact h.rsep q hq v hv
  rlt r hr := by
    obtain ⟨q, hq, -, e⟩ := Layout.redir_mem hr
    rw [e]
    cases hl : d.lookup q.1 with
    | none => exact h.rlt q hq
    | some n => exact hd _ (List.lookup_mem hl)
  rinj r hr p hp e := by
    obtain ⟨q, hq, e1, e2⟩ := Layout.redir_mem hr
    obtain ⟨q', hq', e1', e2'⟩ := Layout.redir_mem hp
    have := h.rinj q hq q' hq' (by rw [← e1, ← e1', e])
    subst this
    exact Prod.ext e (by rw [e2, e2'])

/-- Moving one next pointer moves to the next layout. -/
theorem Layout.Ok.redir_set {L : Layout} (hw : L.Wf) {d : List (Nat × Nat)} {m : Mem} (h : (L.redir d).Ok m) {t c : Nat}
    (ht : (t, c) ∈ L.rest) (n : Nat) : (L.redir ((t, n) :: d)).Ok (m.set (t + 4) (BitVec.ofNat 32 n)) := by
  have hdat := hw.rdat _ ht
  refine ⟨h.prog.congr (Prog.Same.set (hdat.okw _ _)), ?_, ?_⟩
  · intro v hv
    rw [set_ne (Ne.symm (hw.rsep _ ht v hv).1)]
    exact h.mask v hv
  · intro r hr
    obtain ⟨q, hq, e1, e2⟩ := Layout.redir_mem hr
    rw [e1, e2, List.lookup_cons]
    by_cases e : q.1 = t
    · simp [e, set_eq]
    · rw [set_ne (by omega)]
      have hb : (q.1 == t) = false := by simpa using e
      rw [hb]
      exact h.rest _ (Layout.redir_mem' hq)

/-- Redirecting triggers to where they go anyway changes nothing. -/
theorem Layout.redir_same {L : Layout} (hw : L.Wf) {d : List (Nat × Nat)} (hd : ∀ x y, d.lookup x = some y → (x, y) ∈ L.rest) :
    L.redir d = L := by
  have : L.rest.map (fun r => (r.1, (d.lookup r.1).getD r.2)) = L.rest := by
    conv => rhs; rw [← List.map_id L.rest]
    apply List.map_congr_left
    intro r hr
    cases hl : d.lookup r.1 with
    | none => rfl
    | some n =>
      have := hw.rinj r hr _ (hd _ _ hl) rfl
      rw [this]
      rfl
  unfold Layout.redir
  rw [this]

theorem PC.Ok.redir {L : Layout} {s : Mem} {p : PC} (h : p.Ok L s) (d : List (Nat × Nat)) : p.Ok (L.redir d) s := by
  refine ⟨h.1, ?_⟩
  have := h.2
  revert this
  split
  · rw [Layout.redir_priv]; exact id
  · exact id

theorem ActsOk.redir {L : Layout} (d : List (Nat × Nat)) : ∀ {as : List PA} {s : Mem}, ActsOk L as s → ActsOk (L.redir d) as s
  | [], _, _ => trivial
  | _ :: _, _, ⟨h1, h2, h3⟩ => ⟨h1, (Layout.redir_cell L d _).2 h2, ActsOk.redir d h3⟩

/-- The meaning of programs does not depend on the next pointers. -/
theorem Exec.redir {L : Layout} (d : List (Nat × Nat)) {st : Stmt} {s s' : Mem} {o : Out} (h : Exec L st s o s') :
    Exec (L.redir d) st s o s' := by
  induction h with
  | skip s => exact .skip s
  | seqN _ _ i1 i2 => exact .seqN i1 i2
  | seqX _ ho i1 => exact .seqX i1 ho
  | asg hc hv => exact .asg (fun g hg => (Layout.redir_cell L d _).2 (hc g hg)) hv
  | trig hc ha => exact .trig (fun p hp => (hc p hp).redir d) (fun h => (ha h).redir d)
  | ite _ hc _ i1 i2 => exact .ite i1 (fun p hp => (hc p hp).redir d) i2
  | loopEnd _ hc hh i1 => exact .loopEnd i1 (fun p hp => (hc p hp).redir d) hh
  | loopBrk _ hc hh _ i1 i2 => exact .loopBrk i1 (fun p hp => (hc p hp).redir d) hh i2
  | loopRet _ hc hh _ i1 i2 => exact .loopRet i1 (fun p hp => (hc p hp).redir d) hh i2
  | loopStep _ hc hh _ ho _ _ i1 i2 i3 i4 => exact .loopStep i1 (fun p hp => (hc p hp).redir d) hh i2 ho i3 i4
  | brk s => exact .brk s
  | cont s => exact .cont s
  | ret s => exact .ret s
  | prim h => exact .prim h

/-! ## Triggers that redirect -/

theorem Layout.Acts.redir {L : Layout} (d : List (Nat × Nat)) : ∀ {as : List SAct} {x : Nat} {s : Mem}, L.Acts as x s → (L.redir d).Acts as x s
  | [], _, _, _ => trivial
  | _ :: _, _, _, ⟨h1, h2, h3⟩ => ⟨h1, (Layout.redir_cell L d _).2 h2, Layout.Acts.redir d h3⟩

theorem Layout.Cnds.redir {L : Layout} (d : List (Nat × Nat)) : ∀ {cs : List SCnd} {x : Nat} {s : Mem}, L.Cnds cs x s → (L.redir d).Cnds cs x s
  | [], _, _, _ => trivial
  | c :: cs, x, s, ⟨h1, h2, h3⟩ => by
    refine ⟨h1, ?_, Layout.Cnds.redir d h3⟩
    revert h2
    split
    · rw [Layout.redir_priv]; exact id
    · exact id

/-- A trigger whose conditions do not hold goes where it is directed at the moment. -/
theorem Layout.Moves.stay {L : Layout} (hw : L.Wf) {d : List (Nat × Nat)} (hd : ∀ p ∈ d, p.2 < 2 ^ 32) {t n c : Nat} {cs : List SCnd} {as : List SAct}
    (hb : (⟨t, ⟨cs, sNext t n :: as⟩, none, false⟩ : SBlk) ∈ L.P.blks) (hr : (t, c) ∈ L.rest) {s : Mem} (hc : L.Cnds cs (t + 8) s)
    (hh : condsS s cs (t + 8) = false) : (L.redir d).Moves (L.redir d) s t s ((d.lookup t).getD c) := by
  intro m hm hv
  have hwd := hw.redir hd
  have hrd := Layout.redir_mem' (d := d) hr
  have hbl := hm.prog.blks _ hb
  obtain ⟨c1, c2⟩ := Layout.cnds_run hwd.cp cs (t + 8) m (fun o ho' => by
    rw [Nat.add_assoc]; exact hwd.blk _ hb _ (by omega) (by have := hbl.cl; simp only at this; omega)) (by rw [hv]; exact hc.redir d)
  rw [hv, hh] at c2
  have hs := hm.prog.step hb rfl c1 (fun h => by rw [c2] at h; cases h)
  simp only [SBlk.exec, c2, Bool.false_eq_true, if_false] at hs
  refine ⟨m, Reaches.step ?_, hm, hv⟩
  rw [hs.1, hm.rest _ hrd, BitVec.toNat_ofNat, Nat.mod_eq_of_lt (hwd.rlt _ hrd)]

/-- A trigger whose conditions hold redirects itself, does its actions and goes there. -/
theorem Layout.Moves.self {L : Layout} (hw : L.Wf) {d : List (Nat × Nat)} (hd : ∀ p ∈ d, p.2 < 2 ^ 32) {t n c : Nat} {cs : List SCnd} {as : List SAct}
    (hb : (⟨t, ⟨cs, sNext t n :: as⟩, none, false⟩ : SBlk) ∈ L.P.blks) (hr : (t, c) ∈ L.rest) (hn : n < 2 ^ 32) {s : Mem} (hc : L.Cnds cs (t + 8) s)
    (hh : condsS s cs (t + 8) = true) (ha : L.Acts as (t + 360) s) :
    (L.redir d).Moves (L.redir ((t, n) :: d)) s t (runS as (t + 360) s) n := by
  intro m hm hv
  have hwd := hw.redir hd
  have hd' : ∀ p ∈ (t, n) :: d, p.2 < 2 ^ 32 := by
    intro p hp
    simp only [List.mem_cons] at hp
    exact hp.elim (fun e => e ▸ hn) (hd p)
  have hwd' := hw.redir hd'
  have hbl := hm.prog.blks _ hb
  obtain ⟨c1, c2⟩ := Layout.cnds_run hwd.cp cs (t + 8) m (fun o ho' => by
    rw [Nat.add_assoc]; exact hwd.blk _ hb _ (by omega) (by have := hbl.cl; simp only at this; omega)) (by rw [hv]; exact hc.redir d)
  rw [hv, hh] at c2
  have hv1 : (L.redir ((t, n) :: d)).view (m.set (t + 4) (BitVec.ofNat 32 n)) = s := by
    rw [Layout.redir_view, Layout.view_priv (Layout.Wf.privR hr), ← hv, Layout.redir_view]
  obtain ⟨a1, a2, a3⟩ := Layout.acts_run hwd'.cp as (t + 360) _ (hm.redir_set hw hr n) (fun o ho => by
    rw [Nat.add_assoc]; exact hwd'.blk _ hb _ (by omega) (by have := hbl.al; simp at this; omega)) (by rw [hv1]; exact ha.redir _)
  have hs := hm.prog.step hb rfl c1 (fun _ => Prog.acts_next (hw.rdat _ hr) a1)
  have hself : (t, n) ∈ (L.redir ((t, n) :: d)).rest := by
    have := Layout.redir_mem' (d := (t, n) :: d) hr
    simpa using this
  simp only [SBlk.exec, c2, if_true, runS, sNext_apply] at hs
  rw [show t + 328 + 32 = t + 360 by omega] at hs
  refine ⟨_, Reaches.step ?_, a2, by rw [a3, hv1]⟩
  rw [hs.1, a2.rest _ hself, BitVec.toNat_ofNat, Nat.mod_eq_of_lt hn]

/-- A trigger that redirects another one first. -/
theorem Layout.Moves.other {L : Layout} (hw : L.Wf) {d : List (Nat × Nat)} (hd : ∀ p ∈ d, p.2 < 2 ^ 32) {e t n c x : Nat} {as : List SAct}
    (hb : (⟨e, ⟨[], sNext t n :: as⟩, some x, false⟩ : SBlk) ∈ L.P.blks) (hr : (t, c) ∈ L.rest) (hn : n < 2 ^ 32) {s : Mem} (ha : L.Acts as (e + 360) s) :
    (L.redir d).Moves (L.redir ((t, n) :: d)) s e (runS as (e + 360) s) x := by
  intro m hm hv
  have hd' : ∀ p ∈ (t, n) :: d, p.2 < 2 ^ 32 := by
    intro p hp
    simp only [List.mem_cons] at hp
    exact hp.elim (fun e => e ▸ hn) (hd p)
  have hwd' := hw.redir hd'
  have hbl := hm.prog.blks _ hb
  have hv1 : (L.redir ((t, n) :: d)).view (m.set (t + 4) (BitVec.ofNat 32 n)) = s := by
    rw [Layout.redir_view, Layout.view_priv (Layout.Wf.privR hr), ← hv, Layout.redir_view]
  obtain ⟨a1, a2, a3⟩ := Layout.acts_run hwd'.cp as (e + 360) _ (hm.redir_set hw hr n) (fun o ho => by
    rw [Nat.add_assoc]; exact hwd'.blk _ hb _ (by omega) (by have := hbl.al; simp at this; omega)) (by rw [hv1]; exact ha.redir _)
  have hs := hm.prog.step_next hb rfl rfl trivial (fun _ => Prog.acts_next (hw.rdat _ hr) a1)
  simp only [SBlk.exec, condsS, if_true, runS, sNext_apply] at hs
  rw [show e + 328 + 32 = e + 360 by omega] at hs
  exact ⟨_, Reaches.step hs.1, a2, by rw [a3, hv1]⟩

end Eud.SC
