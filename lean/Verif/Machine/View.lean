import Verif.Machine.VarOps
/-
Reasoning about emitted code one program point at a time.

The code emitted by eudplib keeps book-keeping dwords: next pointer, destination and modifier of
the variables' own triggers, and the next pointers of branch triggers, which are rewritten and then
put back.  The *view* of a memory hides them, and `Layout.Runs` says what a piece of code does to
the view.  All facts are about the machine of Basic.lean; nothing here is assumed.
-/

namespace Eud.SC

instance (S : List Nat) (x : Nat) : Decidable (ctlOf S x) := by unfold ctlOf; infer_instance

/-- A program with its book-keeping dwords: `rest` lists branch triggers with the next pointer they
have whenever they are not in use, `hid` other private dwords. -/
structure Layout where
  P : Prog
  rest : List (Nat × Nat)
  hid : List Nat

/-- Book-keeping dwords. -/
def Layout.priv (L : Layout) (x : Nat) : Prop :=
  ctlOf L.P.vars x ∨ (∃ v ∈ L.P.vars, x = v + 328) ∨ (∃ r ∈ L.rest, x = r.1 + 4) ∨ x ∈ L.hid

instance (L : Layout) (x : Nat) : Decidable (L.priv x) := by unfold Layout.priv; infer_instance

/-- A dword that code may write and that is visible. -/
def Layout.cell (L : Layout) (x : Nat) : Prop := L.P.data x ∧ ¬ L.priv x

/-- What is in memory apart from book-keeping. -/
def Layout.view (L : Layout) (m : Mem) : Mem := fun x => if L.priv x then 0 else m x

/-- The program is loaded, variables have no mask, branch triggers are at rest. -/
structure Layout.Ok (L : Layout) (m : Mem) : Prop where
  prog : L.P.In m
  mask : ∀ v ∈ L.P.vars, m (v + 328) = 0xFFFFFFFF
  rest : ∀ r ∈ L.rest, m (r.1 + 4) = BitVec.ofNat 32 r.2

/-- Static facts about the places of things. -/
structure Layout.Wf (L : Layout) : Prop where
  P : L.P.Wf
  blk : ∀ b ∈ L.P.blks, ∀ o, 8 ≤ o → o < 2376 → ¬ L.priv (b.t + o)
  val : ∀ v ∈ L.P.vars, ¬ L.priv (v + 348)
  cp : ¬ L.priv cpAddr
  rdat : ∀ r ∈ L.rest, L.P.data (r.1 + 4)
  rsep : ∀ r ∈ L.rest, ∀ v ∈ L.P.vars, r.1 + 4 ≠ v + 328 ∧ r.1 + 4 ≠ v + 4 ∧ r.1 + 4 ≠ v + 344
  rlt : ∀ r ∈ L.rest, r.2 < 2 ^ 32
  rinj : ∀ r ∈ L.rest, ∀ q ∈ L.rest, r.1 = q.1 → r = q

/-- From view `s` at `t`, the machine gets to view `s'` at `t'`. -/
def Layout.Runs (L : Layout) (s : Mem) (t : Nat) (s' : Mem) (t' : Nat) : Prop :=
  ∀ m, L.Ok m → L.view m = s → ∃ m', Reaches ⟨m, t⟩ ⟨m', t'⟩ ∧ L.Ok m' ∧ L.view m' = s'

theorem Layout.Runs.refl (L : Layout) (s : Mem) (t : Nat) : L.Runs s t s t :=
  fun m h hv => ⟨m, Reaches.refl _, h, hv⟩

theorem Layout.Runs.trans {L : Layout} {s1 s2 s3 : Mem} {t1 t2 t3 : Nat} (h : L.Runs s1 t1 s2 t2)
    (g : L.Runs s2 t2 s3 t3) : L.Runs s1 t1 s3 t3 := by
  intro m hm hv
  obtain ⟨m2, r2, o2, v2⟩ := h m hm hv
  obtain ⟨m3, r3, o3, v3⟩ := g m2 o2 v2
  exact ⟨m3, r2.trans r3, o3, v3⟩

theorem Layout.view_at {L : Layout} {m : Mem} {x : Nat} (h : ¬ L.priv x) : L.view m x = m x := if_neg h

theorem Layout.view_set {L : Layout} {m : Mem} {x : Nat} {w : W} (h : ¬ L.priv x) :
    L.view (m.set x w) = (L.view m).set x w := by
  funext y
  unfold Layout.view Mem.set
  by_cases hy : y = x
  · subst hy; simp [h]
  · simp [hy]

theorem Layout.view_priv {L : Layout} {m : Mem} {x : Nat} {w : W} (h : L.priv x) :
    L.view (m.set x w) = L.view m := by
  funext y
  unfold Layout.view Mem.set
  by_cases hy : y = x
  · subst hy; simp [h]
  · simp [hy]

theorem Layout.view_congr {L : Layout} {m m' : Mem} (h : ∀ x, ¬ L.priv x → m' x = m x) : L.view m' = L.view m := by
  funext y
  unfold Layout.view
  by_cases hy : L.priv y
  · simp [hy]
  · simp [hy, h y hy]

theorem Layout.cell.okw {L : Layout} {x : Nat} (h : L.cell x) (o n : W) : L.P.okw x o n := h.1.okw o n

/-- Writing a cell keeps the book-keeping. -/
theorem Layout.Ok.set {L : Layout} {m : Mem} (h : L.Ok m) {x : Nat} (hx : L.cell x) (w : W) : L.Ok (m.set x w) := by
  refine ⟨h.prog.congr (Prog.Same.set (hx.okw _ _)), ?_, ?_⟩
  · intro v hv
    rw [set_ne (fun e => hx.2 (Or.inr (Or.inl ⟨v, hv, e.symm⟩)))]
    exact h.mask v hv
  · intro r hr
    rw [set_ne (fun e => hx.2 (Or.inr (Or.inr (Or.inl ⟨r, hr, e.symm⟩))))]
    exact h.rest r hr

/-! ## Triggers -/

/-- Every action writes a cell when its turn comes. -/
def Layout.Acts (L : Layout) : List SAct → Nat → Mem → Prop
  | [], _, _ => True
  | a :: as, x, s => a.Ready s x ∧ L.cell ((a.res s x).dst.addr s) ∧ L.Acts as (x + 32) ((a.res s x).apply s)

/-- Every condition looks at a visible dword. -/
def Layout.Cnds (L : Layout) : List SCnd → Nat → Mem → Prop
  | [], _, _ => True
  | c :: cs, x, s => c.Ready s x ∧
      (match c.res s x with | .check d _ _ _ => ¬ L.priv (d.addr s) | _ => True) ∧ L.Cnds cs (x + 20) s

theorem Dst.addr_view {L : Layout} (hcp : ¬ L.priv cpAddr) (d : Dst) (m : Mem) : d.addr (L.view m) = d.addr m := by
  cases d with
  | mem a => rfl
  | cp u => simp only [Dst.addr, Layout.view_at hcp]

theorem SAct.res_view {L : Layout} {m : Mem} {x : Nat} (a : SAct) (h0 : ¬ L.priv x) (h16 : ¬ L.priv (x + 16))
    (h20 : ¬ L.priv (x + 20)) : a.res (L.view m) x = a.res m x := by
  simp only [SAct.res, Layout.view_at h0, Layout.view_at h16, Layout.view_at h20]

theorem SCnd.res_view {L : Layout} {m : Mem} {x : Nat} (c : SCnd) (h0 : ¬ L.priv x) (h4 : ¬ L.priv (x + 4))
    (h8 : ¬ L.priv (x + 8)) : c.res (L.view m) x = c.res m x := by
  cases c <;> simp only [SCnd.res, Layout.view_at h0, Layout.view_at h4, Layout.view_at h8]

theorem Layout.acts_run {L : Layout} (hcp : ¬ L.priv cpAddr) : ∀ (as : List SAct) (x : Nat) (m : Mem), L.Ok m →
    (∀ o, o < 32 * as.length → ¬ L.priv (x + o)) → L.Acts as x (L.view m) →
    L.P.Acts as x m ∧ L.Ok (runS as x m) ∧ L.view (runS as x m) = runS as x (L.view m)
  | [], _, m, h, _, _ => ⟨trivial, h, rfl⟩
  | a :: as, x, m, h, hp, ha => by
    have e := SAct.res_view (m := m) a (by simpa using hp 0 (by simp)) (hp 16 (by simp; omega)) (hp 20 (by simp; omega))
    obtain ⟨h1, h2, h3⟩ := ha
    rw [e] at h2 h3
    rw [Dst.addr_view hcp] at h2
    have hap : (a.res m x).apply (L.view m) = L.view ((a.res m x).apply m) := by
      unfold Act.apply
      rw [Dst.addr_view hcp, Layout.view_set h2.2, Layout.view_at h2.2]
    have hok : L.Ok ((a.res m x).apply m) := by
      unfold Act.apply
      exact h.set h2 _
    rw [hap] at h3
    obtain ⟨i1, i2, i3⟩ := Layout.acts_run hcp as (x + 32) _ hok (fun o ho => by
      have := hp (32 + o) (by simp; omega)
      rwa [← Nat.add_assoc] at this) h3
    refine ⟨⟨?_, h2.okw _ _, i1⟩, i2, ?_⟩
    · intro hd
      have := h1 hd
      rwa [Layout.view_at (hp 16 (by simp; omega))] at this
    · simp only [runS]
      rw [i3, e, hap]

theorem Layout.cnds_run {L : Layout} (hcp : ¬ L.priv cpAddr) : ∀ (cs : List SCnd) (x : Nat) (m : Mem),
    (∀ o, o < 20 * cs.length → ¬ L.priv (x + o)) → L.Cnds cs x (L.view m) →
    readyS m cs x ∧ condsS m cs x = condsS (L.view m) cs x
  | [], _, _, _, _ => ⟨trivial, rfl⟩
  | c :: cs, x, m, hp, hc => by
    have p4 : ¬ L.priv (x + 4) := hp 4 (by simp; omega)
    have e := SCnd.res_view (m := m) c (by simpa using hp 0 (by simp)) p4 (hp 8 (by simp; omega))
    obtain ⟨h1, h2, h3⟩ := hc
    obtain ⟨i1, i2⟩ := Layout.cnds_run hcp cs (x + 20) m (fun o ho => by
      have := hp (20 + o) (by simp; omega)
      rwa [← Nat.add_assoc] at this) h3
    refine ⟨⟨?_, i1⟩, ?_⟩
    · unfold SCnd.Ready at h1 ⊢
      split
      · simp only at h1
        rwa [Layout.view_at p4] at h1
      · trivial
    · simp only [condsS, i2, e]
      congr 1
      rw [e] at h2
      cases hr : c.res m x with
      | const b => rfl
      | check d cm v k =>
        rw [hr] at h2
        simp only at h2
        rw [Dst.addr_view hcp] at h2
        simp only [Cnd.holds, Dst.addr_view hcp, Layout.view_at h2]

/-- What a trigger does to the view. -/
def SBlk.execV (b : SBlk) (s : Mem) : Mem := b.exec s

/-- **A trigger** with a fixed next pointer. -/
theorem Layout.Runs.trig {L : Layout} (hw : L.Wf) {b : SBlk} (hb : b ∈ L.P.blks) (ho : b.once = false) {n : Nat}
    (hn : b.next = some n) {s : Mem} (hc : L.Cnds b.T.conds (b.t + 8) s)
    (ha : condsS s b.T.conds (b.t + 8) = true → L.Acts b.T.acts (b.t + 328) s) :
    L.Runs s b.t (b.exec s) n := by
  rintro m hm rfl
  have hbl := hm.prog.blks b hb
  obtain ⟨c1, c2⟩ := Layout.cnds_run hw.cp b.T.conds (b.t + 8) m (fun o ho' => by
    rw [Nat.add_assoc]; exact hw.blk b hb _ (by omega) (by have := hbl.cl; omega)) hc
  have ha' : condsS (L.view m) b.T.conds (b.t + 8) = true → _ := fun h =>
    Layout.acts_run hw.cp b.T.acts (b.t + 328) m hm (fun o ho' => by
      rw [Nat.add_assoc]; exact hw.blk b hb _ (by omega) (by have := hbl.al; omega)) (ha h)
  have hs := hm.prog.step_next hb ho hn c1 (fun h => (ha' (c2 ▸ h)).1)
  refine ⟨b.exec m, Reaches.step hs.1, ?_, ?_⟩
  · unfold SBlk.exec
    split
    · exact (ha' (c2 ▸ ‹_›)).2.1
    · exact hm
  · unfold SBlk.exec
    rw [c2]
    split
    · exact (ha' ‹_›).2.2
    · rfl

/-- **A branch** (trigger/branch.py:16-41 `_branch_sub`): with at most 16 conditions. -/
structure BranchSub (L : Layout) (t : Nat) (cs : List SCnd) (pre : List SAct) (ontrue onfalse tj : Nat) : Prop where
  br : (⟨t, ⟨cs, [sNext t tj]⟩, none, false⟩ : SBlk) ∈ L.P.blks
  join : (⟨tj, ⟨[], pre ++ [sNext t onfalse]⟩, some ontrue, false⟩ : SBlk) ∈ L.P.blks
  rest : (t, onfalse) ∈ L.rest
  lt : tj < 2 ^ 32

theorem Layout.Runs.branchSub {L : Layout} (hw : L.Wf) {t ontrue onfalse tj : Nat} {cs : List SCnd} {pre : List SAct}
    (hB : BranchSub L t cs pre ontrue onfalse tj) {s : Mem} (hc : L.Cnds cs (t + 8) s)
    (ha : condsS s cs (t + 8) = true → L.Acts pre (tj + 328) s) :
    L.Runs s t (if condsS s cs (t + 8) then runS pre (tj + 328) s else s)
      (if condsS s cs (t + 8) then ontrue else onfalse) := by
  rintro m hm rfl
  have hbl := hm.prog.blks _ hB.br
  have htl := hm.prog.blks _ hB.join
  have hdat := hw.rdat _ hB.rest
  have hpriv : L.priv (t + 4) := Or.inr (Or.inr (Or.inl ⟨_, hB.rest, rfl⟩))
  obtain ⟨c1, c2⟩ := Layout.cnds_run hw.cp cs (t + 8) m (fun o ho' => by
    rw [Nat.add_assoc]; exact hw.blk _ hB.br _ (by omega) (by have := hbl.cl; simp only at this; omega)) hc
  have hs := hm.prog.step hB.br rfl c1 (fun _ => Prog.acts_next hdat trivial)
  simp only [SBlk.exec, runS, sNext_apply] at hs
  rw [← c2]
  cases hcc : condsS m cs (t + 8) with
  | false =>
    simp only [hcc, Bool.false_eq_true, if_false] at hs ⊢
    refine ⟨m, Reaches.step ?_, hm, rfl⟩
    rw [hs.1, hm.rest _ hB.rest, BitVec.toNat_ofNat, Nat.mod_eq_of_lt (hw.rlt _ hB.rest)]
  | true =>
    simp only [hcc, if_true, set_eq] at hs ⊢
    rw [BitVec.toNat_ofNat, Nat.mod_eq_of_lt hB.lt] at hs
    -- the join trigger: run `pre`, then put the next pointer back
    have ha := ha (c2 ▸ hcc)
    have hpo : ∀ o, o < 32 * pre.length → ¬ L.priv (tj + 328 + o) := fun o ho => by
      rw [Nat.add_assoc]
      exact hw.blk _ hB.join _ (by omega) (by have := htl.al; simp at this; omega)
    -- swap the two writes: `pre` does not depend on the private dword
    have key : ∀ (as : List SAct) (x : Nat) (m0 : Mem) (w : W), (∀ o, o < 32 * as.length → ¬ L.priv (x + o)) →
        L.Acts as x (L.view m0) → runS as x (m0.set (t + 4) w) = (runS as x m0).set (t + 4) w := by
      intro as
      induction as with
      | nil => intros; rfl
      | cons a as ih =>
        intro x m0 w hp hA
        have p0 : ¬ L.priv x := by simpa using hp 0 (by simp)
        have p16 := hp 16 (by simp; omega)
        have p20 := hp 20 (by simp; omega)
        have ne : ∀ y, ¬ L.priv y → y ≠ t + 4 := fun y hy e => hy (e ▸ hpriv)
        have e1 : a.res (m0.set (t + 4) w) x = a.res m0 x := by
          simp only [SAct.res, set_ne (ne _ p0), set_ne (ne _ p16), set_ne (ne _ p20)]
        have e2 := SAct.res_view (m := m0) a p0 p16 p20
        obtain ⟨h1, h2, h3⟩ := hA
        rw [e2] at h2 h3
        rw [Dst.addr_view hw.cp] at h2
        have ead : (a.res m0 x).dst.addr (m0.set (t + 4) w) = (a.res m0 x).dst.addr m0 := by
          cases (a.res m0 x).dst with
          | mem _ => rfl
          | cp u => simp only [Dst.addr, set_ne (ne _ hw.cp)]
        have hap : (a.res m0 x).apply (L.view m0) = L.view ((a.res m0 x).apply m0) := by
          unfold Act.apply
          rw [Dst.addr_view hw.cp, Layout.view_set h2.2, Layout.view_at h2.2]
        simp only [runS, e1]
        rw [hap] at h3
        rw [← ih (x + 32) _ w (fun o ho => by
          have := hp (32 + o) (by simp; omega)
          rwa [← Nat.add_assoc] at this) h3]
        congr 1
        unfold Act.apply
        rw [ead, set_ne (ne _ h2.2)]
        funext y
        unfold Mem.set
        have := ne _ h2.2
        by_cases hy : y = (a.res m0 x).dst.addr m0 <;> by_cases hy2 : y = t + 4
        · exact absurd (hy ▸ hy2) this
        · simp [hy, this]
        · simp [hy2, Ne.symm this]
        · simp [hy, hy2]
    have hrun := Layout.acts_run hw.cp pre (tj + 328) m hm hpo ha
    have hm1 : L.P.In (m.set (t + 4) (BitVec.ofNat 32 tj)) := hs.2
    have hactsP : ∀ (as : List SAct) (x : Nat) (m0 : Mem), (∀ o, o < 32 * as.length → ¬ L.priv (x + o)) →
        L.Acts as x (L.view m0) → L.P.Acts as x m0 := by
      intro as
      induction as with
      | nil => intros; trivial
      | cons a as ih =>
        intro x m0 hp hA
        have p0 : ¬ L.priv x := by simpa using hp 0 (by simp)
        have p16 := hp 16 (by simp; omega)
        have p20 := hp 20 (by simp; omega)
        have e2 := SAct.res_view (m := m0) a p0 p16 p20
        obtain ⟨h1, h2, h3⟩ := hA
        rw [e2] at h2 h3
        rw [Dst.addr_view hw.cp] at h2
        have hap : (a.res m0 x).apply (L.view m0) = L.view ((a.res m0 x).apply m0) := by
          unfold Act.apply
          rw [Dst.addr_view hw.cp, Layout.view_set h2.2, Layout.view_at h2.2]
        rw [hap] at h3
        refine ⟨?_, h2.okw _ _, ih (x + 32) _ (fun o ho => by
          have := hp (32 + o) (by simp; omega)
          rwa [← Nat.add_assoc] at this) h3⟩
        intro hd
        have := h1 hd
        rwa [Layout.view_at p16] at this
    have hs2 := hm1.step_next hB.join rfl rfl trivial (fun _ => Prog.acts_append _ _ _ _
      (hactsP pre (tj + 328) _ hpo (by rw [Layout.view_priv hpriv]; exact ha)) (Prog.acts_next hdat trivial))
    simp only [SBlk.exec, condsS, if_true, runS_append, runS, sNext_apply] at hs2
    rw [key pre _ m _ hpo ha] at hs2
    have hres : ((runS pre (tj + 328) m).set (t + 4) (BitVec.ofNat 32 tj)).set (t + 4) (BitVec.ofNat 32 onfalse)
        = (runS pre (tj + 328) m).set (t + 4) (BitVec.ofNat 32 onfalse) := by
      funext y; unfold Mem.set; by_cases hy : y = t + 4 <;> simp [hy]
    rw [hres] at hs2
    have hself : (runS pre (tj + 328) m).set (t + 4) (BitVec.ofNat 32 onfalse) = runS pre (tj + 328) m := by
      rw [← hrun.2.1.rest _ hB.rest]; exact set_self _ _
    rw [hself] at hs2
    exact ⟨_, Reaches.head hs.1 (Reaches.step hs2.1), hrun.2.1, hrun.2.2⟩

end Eud.SC
