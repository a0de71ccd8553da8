import Verif.Lib.Trigger
/-
`EUDSwitch` (src/eudplib/ctrlstru/swblock.py): selecting a case by value.
-/

namespace Eud.SC

/-! ## What a switch should do -/

/-- The target of the case labelled `v`, or the default. -/
def caseOf (cases : List (W × Nat)) (dflt : Nat) (v : W) : Nat := (cases.lookup v).getD dflt

/-! ## Triggers that redirect others -/

/-- `SetNextPtr(p.1, p.2)` -/
def nx (p : Nat × Nat) : SAct := sNext p.1 p.2

/-- The conditions that compare the selected dword, `MemoryXEPD(epd, cmp, k, bitmask)`, and their meaning `val`. -/
structure Sel (L : Layout) (val : Mem → W) (mk : Cmp → W → PC) : Prop where
  pos : ∀ c k, (mk c k).pos = none ∧ (mk c k).c.static
  ok : ∀ c k s, (mk c k).Ok L s
  holds : ∀ c k s, (mk c k).holds s = compare c (val s) k

theorem Sel.cnd {L : Layout} {val : Mem → W} {mk : Cmp → W → PC} (h : Sel L val mk) (c : Cmp) (k : W) (x : Nat) (s : Mem) :
    condsS s [(mk c k).c] x = compare c (val s) k ∧ L.Cnds [(mk c k).c] x s := by
  have hp : PlacedC x [mk c k] := ⟨by rw [(h.pos c k).1]; exact (h.pos c k).2, trivial⟩
  obtain ⟨e1, e2⟩ := hp.spec (L := L) (s := s)
  refine ⟨?_, e2 (fun p hp => by simp only [List.mem_singleton] at hp; subst hp; exact h.ok c k s)⟩
  have := h.holds c k s
  simp only [List.map_cons, List.map_nil] at e1
  rw [e1, holdsAll_cons, holdsAll_nil, Bool.and_true, this]

/-- `MemoryXEPD` on a fixed dword. -/
theorem Sel.mem {L : Layout} {x : Nat} (hx : L.cell x) (mask : W) : Sel L (fun s => s x &&& mask) (fun c k => cMemX x c k mask) :=
  ⟨fun _ _ => ⟨rfl, cMemX_static _ _ _ _⟩, fun _ _ _ => cMemX_ok hx _ _ _ _, fun _ _ _ => cMemX_holds _ _ _ _ _⟩

theorem next_acts {L : Layout} (hw : L.Wf) : ∀ (l : List (Nat × Nat)) (x : Nat) (d : List (Nat × Nat)) (m : Mem),
    (∀ p ∈ l, ∃ c, (p.1, c) ∈ L.rest) → (L.redir d).Ok m →
    L.P.Acts (l.map nx) x m ∧ (L.redir (l.reverse ++ d)).Ok (runS (l.map nx) x m) ∧ L.view (runS (l.map nx) x m) = L.view m
  | [], _, _, _, _, h => ⟨trivial, h, rfl⟩
  | p :: l, x, d, m, ht, h => by
    obtain ⟨c, hr⟩ := ht p (by simp)
    obtain ⟨i1, i2, i3⟩ := next_acts hw l (x + 32) (p :: d) (m.set (p.1 + 4) (BitVec.ofNat 32 p.2))
      (fun u hu => ht u (List.mem_cons_of_mem _ hu)) (h.redir_set hw hr p.2)
    refine ⟨Prog.acts_next (hw.rdat _ hr) i1, ?_, ?_⟩
    · simpa only [List.map_cons, runS, nx, sNext_apply, List.reverse_cons, List.append_assoc, List.singleton_append] using i2
    · simp only [List.map_cons, runS, nx, sNext_apply]
      rw [i3, Layout.view_priv (Layout.Wf.privR hr)]

/-- A trigger that redirects triggers, perhaps itself, if its conditions hold. -/
theorem Layout.Moves.hop {L : Layout} (hw : L.Wf) {d l : List (Nat × Nat)} (hd : ∀ p ∈ d, p.2 < 2 ^ 32) (hl : ∀ p ∈ l, p.2 < 2 ^ 32) {t c : Nat} {cs : List SCnd}
    (hb : (⟨t, ⟨cs, l.map nx⟩, none, false⟩ : SBlk) ∈ L.P.blks) (hr : (t, c) ∈ L.rest) (hlr : ∀ p ∈ l, ∃ c, (p.1, c) ∈ L.rest)
    {s : Mem} (hc : L.Cnds cs (t + 8) s) (hh : condsS s cs (t + 8) = true) :
    (L.redir d).Moves (L.redir (l.reverse ++ d)) s t s (((l.reverse ++ d).lookup t).getD c) := by
  intro m hm hv
  have hwd := hw.redir hd
  have hwd' := hw.redir (d := l.reverse ++ d) (by
    intro p hp
    simp only [List.mem_append, List.mem_reverse] at hp
    exact hp.elim (hl p) (hd p))
  have hbl := hm.prog.blks _ hb
  obtain ⟨c1, c2⟩ := Layout.cnds_run hwd.cp cs (t + 8) m (fun o ho' => by
    rw [Nat.add_assoc]; exact hwd.blk _ hb _ (by omega) (by have := hbl.cl; simp only at this; omega)) (by rw [hv]; exact hc.redir d)
  rw [hv, hh] at c2
  obtain ⟨a1, a2, a3⟩ := next_acts hw l (t + 328) d m hlr hm
  have hs := hm.prog.step hb rfl c1 (fun _ => a1)
  have hself := Layout.redir_mem' (d := l.reverse ++ d) hr
  simp only [SBlk.exec, c2, if_true] at hs
  refine ⟨_, Reaches.step ?_, a2, by rw [Layout.redir_view, a3, ← hv, Layout.redir_view]⟩
  rw [hs.1, a2.rest _ hself, BitVec.toNat_ofNat, Nat.mod_eq_of_lt (hwd'.rlt _ hself)]

/-- A trigger without conditions that redirects others and goes to `x`. -/
theorem Layout.Moves.jmp {L : Layout} (hw : L.Wf) {d l : List (Nat × Nat)} {t x : Nat}
    (hb : (⟨t, ⟨[], l.map nx⟩, some x, false⟩ : SBlk) ∈ L.P.blks) (hlr : ∀ p ∈ l, ∃ c, (p.1, c) ∈ L.rest) (s : Mem) :
    (L.redir d).Moves (L.redir (l.reverse ++ d)) s t s x := by
  intro m hm hv
  obtain ⟨a1, a2, a3⟩ := next_acts hw l (t + 328) d m hlr hm
  have hs := hm.prog.step_next hb rfl rfl trivial (fun _ => a1)
  simp only [SBlk.exec, condsS, if_true] at hs
  exact ⟨_, Reaches.step hs.1, a2, by rw [Layout.redir_view, a3, ← hv, Layout.redir_view]⟩

/-- At most the triggers in `r` are redirected. -/
def Eff (L : Layout) (d r : List (Nat × Nat)) : Prop :=
  (∀ p ∈ d, p.2 < 2 ^ 32) ∧ ∀ x y, d.lookup x = some y → (x, y) ∈ L.rest ∨ ∃ q ∈ r, q.1 = x

theorem Eff.nil {L : Layout} (r : List (Nat × Nat)) : Eff L [] r := ⟨by simp, by simp⟩

theorem Eff.same {L : Layout} (hw : L.Wf) {d : List (Nat × Nat)} (h : Eff L d []) : L.redir d = L :=
  Layout.redir_same hw (fun x y hl => (h.2 x y hl).elim id (fun ⟨_, hq, _⟩ => by simp at hq))

/-- Putting entries of `rest` in front. -/
theorem Eff.put {L : Layout} (hw : L.Wf) {d r r' : List (Nat × Nat)} (h : Eff L d r) {l : List (Nat × Nat)} (hl : ∀ p ∈ l, p ∈ L.rest)
    (hr : ∀ q ∈ r, (∃ p ∈ l, p.1 = q.1) ∨ q ∈ r') : Eff L (l.reverse ++ d) r' := by
  refine ⟨fun p hp => ?_, fun x y hx => ?_⟩
  · simp only [List.mem_append, List.mem_reverse] at hp
    exact hp.elim (fun g => hw.rlt _ (hl p g)) (h.1 p)
  · rw [List.lookup_append] at hx
    cases h1 : l.reverse.lookup x with
    | some z =>
      rw [h1] at hx
      simp only [Option.some_or, Option.some.injEq] at hx
      subst hx
      exact Or.inl (hl _ (by simpa using List.lookup_mem h1))
    | none =>
      rw [h1, Option.none_or] at hx
      rcases h.2 x y hx with g | ⟨q, hq, e⟩
      · exact Or.inl g
      · rcases hr q hq with ⟨p, hp, e'⟩ | g
        · rw [List.lookup_eq_none_iff] at h1
          have := h1 p (by simp [hp])
          simp [e', e] at this
        · exact Or.inr ⟨q, g, e⟩

/-- Redirecting one trigger. -/
theorem Eff.redirect {L : Layout} {d r : List (Nat × Nat)} (h : Eff L d r) {q : Nat × Nat} (hq : q.2 < 2 ^ 32) {n : Nat} : Eff L (q :: d) ((q.1, n) :: r) := by
  refine ⟨fun p hp => ?_, fun x y hx => ?_⟩
  · simp only [List.mem_cons] at hp
    exact hp.elim (fun e => e ▸ hq) (h.1 p)
  · obtain ⟨a, b⟩ := q
    rw [List.lookup_cons] at hx
    split at hx
    · rename_i e
      exact Or.inr ⟨_, List.mem_cons_self, by simpa using (beq_iff_eq.1 e).symm⟩
    · exact (h.2 x y hx).imp id (fun ⟨q, hq, e⟩ => ⟨q, List.mem_cons_of_mem _ hq, e⟩)

theorem Eff.get {L : Layout} (hw : L.Wf) {d r : List (Nat × Nat)} (h : Eff L d r) {t c : Nat} (hr : (t, c) ∈ L.rest) (ht : ∀ q ∈ r, q.1 ≠ t) :
    (d.lookup t).getD c = c := by
  cases hl : d.lookup t with
  | none => rfl
  | some y =>
    rcases h.2 t y hl with g | ⟨q, hq, e⟩
    · have := hw.rinj _ g _ hr rfl
      simpa using this
    · exact absurd e (ht q hq)

/-! ## Binary search -/

/-- `_key_selector(keys)` with the current contents of `reset` (swblock.py:309-369): starts at the given address; the last list holds its redirecting triggers. -/
inductive Search (L : Layout) (mk : Cmp → W → PC) (dflt : Nat) : List (W × Nat) → List (Nat × Nat) → Nat → List Nat → Prop
  | one {k : W} {tgt t j g : Nat} {reset : List (Nat × Nat)}
      (hb : (⟨t, ⟨[(mk .exactly k).c], ((t, j) :: reset).map nx⟩, none, false⟩ : SBlk) ∈ L.P.blks) (hr : (t, g) ∈ L.rest)
      (hj : (⟨j, ⟨[], [(t, g)].map nx⟩, some tgt, false⟩ : SBlk) ∈ L.P.blks) (lt : j < 2 ^ 32)
      (hg : if reset = [] then g = dflt else (⟨g, ⟨[], reset.map nx⟩, some dflt, false⟩ : SBlk) ∈ L.P.blks) :
      Search L mk dflt [(k, tgt)] reset t [t]
  | two {k : W} {tgt t j e : Nat} {kc : W × Nat} {reset : List (Nat × Nat)} {ts : List Nat}
      (hb : (⟨t, ⟨[(mk .exactly k).c], ((t, j) :: reset).map nx⟩, none, false⟩ : SBlk) ∈ L.P.blks) (hr : (t, e) ∈ L.rest)
      (hj : (⟨j, ⟨[], [(t, e)].map nx⟩, some tgt, false⟩ : SBlk) ∈ L.P.blks) (lt : j < 2 ^ 32) (h : Search L mk dflt [kc] reset e ts) :
      Search L mk dflt [(k, tgt), kc] reset t (t :: ts)
  | many {keys : List (W × Nat)} {k : W} {tgt t e1 e2 : Nat} {reset : List (Nat × Nat)} {ts1 ts2 : List Nat} (hl : 3 ≤ keys.length)
      (hk : keys[keys.length / 2]? = some (k, tgt))
      (hb : (⟨t, ⟨[(mk .atLeast k).c], ((t, e2) :: reset).map nx⟩, none, false⟩ : SBlk) ∈ L.P.blks) (hr : (t, e1) ∈ L.rest) (lt : e2 < 2 ^ 32)
      (h1 : Search L mk dflt (keys.take (keys.length / 2)) reset e1 ts1) (h2 : Search L mk dflt (keys.drop (keys.length / 2)) [(t, e1)] e2 ts2) :
      Search L mk dflt keys reset t (t :: (ts1 ++ ts2))

theorem caseOf_cons (k : W) (tgt dflt : Nat) (l : List (W × Nat)) (v : W) : caseOf ((k, tgt) :: l) dflt v = if v = k then tgt else caseOf l dflt v := by
  unfold caseOf
  rw [List.lookup_cons]
  by_cases h : v = k
  · simp [h]
  · have : (v == k) = false := by simpa using h
    rw [this, if_neg h]

theorem caseOf_one (k : W) (tgt dflt : Nat) (v : W) : caseOf [(k, tgt)] dflt v = if v = k then tgt else dflt := by
  rw [caseOf_cons]
  rfl

theorem caseOf_append_left {l r : List (W × Nat)} {dflt : Nat} {v : W} (h : ∀ p ∈ r, p.1 ≠ v) : caseOf (l ++ r) dflt v = caseOf l dflt v := by
  unfold caseOf
  have : r.lookup v = none := by rw [List.lookup_eq_none_iff]; intro p hp; simpa using Ne.symm (h p hp)
  rw [List.lookup_append, this, Option.or_none]

theorem caseOf_append_right {l r : List (W × Nat)} {dflt : Nat} {v : W} (h : ∀ p ∈ l, p.1 ≠ v) : caseOf (l ++ r) dflt v = caseOf r dflt v := by
  unfold caseOf
  have : l.lookup v = none := by rw [List.lookup_eq_none_iff]; intro p hp; simpa using Ne.symm (h p hp)
  rw [List.lookup_append, this, Option.none_or]

theorem Search.moves {L : Layout} (hw : L.Wf) {val : Mem → W} {mk : Cmp → W → PC} (hS : Sel L val mk) {dflt : Nat} {keys : List (W × Nat)} {reset : List (Nat × Nat)}
    {e : Nat} {ts : List Nat} (h : Search L mk dflt keys reset e ts) : ts.Nodup → keys.Pairwise (fun a b => a.1 < b.1) → (∀ q ∈ reset, q ∈ L.rest ∧ q.1 ∉ ts) →
    ∀ {d : List (Nat × Nat)}, Eff L d reset → ∀ s, (L.redir d).Moves L s e s (caseOf keys dflt (val s)) := by
  induction h with
  | @one k tgt t j g reset hb hr hj lt hg =>
    intro hnd hso hre d hd s
    have hlt : ∀ q ∈ reset, q.2 < 2 ^ 32 := fun q hq => hw.rlt _ (hre q hq).1
    have ht : ∀ q ∈ reset, q.1 ≠ t := fun q hq e => (hre q hq).2 (by simp [e])
    obtain ⟨c1, c2⟩ := hS.cnd .exactly k (t + 8) s
    rw [caseOf_one]
    simp only [compare] at c1
    by_cases hk : val s = k
    · rw [if_pos hk]
      have hop := Layout.Moves.hop hw hd.1 (l := (t, j) :: reset) (by
        intro p hp; simp only [List.mem_cons] at hp; exact hp.elim (fun e => e ▸ lt) (hlt p)) hb hr (by
        intro p hp; simp only [List.mem_cons] at hp; exact hp.elim (fun e => e ▸ ⟨g, hr⟩) (fun hp => ⟨p.2, (hre p hp).1⟩)) c2 (by rw [c1]; simpa using hk)
      have hlk : ((((t, j) :: reset).reverse ++ d).lookup t).getD g = j := by
        have : reset.reverse.lookup t = none := by
          rw [List.lookup_eq_none_iff]
          intro p hp
          simpa using Ne.symm (ht p (by simpa using hp))
        rw [List.reverse_cons, List.append_assoc, List.lookup_append, this]
        simp
      rw [hlk] at hop
      refine hop.trans ?_
      have hjm := Layout.Moves.jmp hw (d := ((t, j) :: reset).reverse ++ d) hj (by simpa using ⟨g, hr⟩) s
      have he : Eff L ([(t, g)].reverse ++ (((t, j) :: reset).reverse ++ d)) [] := by
        rw [show ((t, j) :: reset).reverse ++ d = reset.reverse ++ ((t, j) :: d) by simp]
        have h1 : Eff L ((t, j) :: d) ((t, g) :: reset) := hd.redirect lt
        have h2 : Eff L (reset.reverse ++ ((t, j) :: d)) [(t, g)] := h1.put hw (fun p hp => (hre p hp).1) (by
          intro q hq; simp only [List.mem_cons] at hq; exact hq.elim (fun e => Or.inr (by simp [e])) (fun hq => Or.inl ⟨q, hq, rfl⟩))
        exact h2.put hw (l := [_]) (r' := []) (by intro p hp; simp only [List.mem_singleton] at hp; subst hp; exact hr) (by simp)
      rw [he.same hw] at hjm
      exact hjm
    · rw [if_neg hk]
      have hst := Layout.Moves.stay hw hd.1 (n := j) (as := reset.map nx) hb hr c2 (by rw [c1]; simpa using hk)
      rw [hd.get hw hr ht] at hst
      refine hst.trans ?_
      by_cases hn : reset = []
      · rw [if_pos hn] at hg
        subst hn
        rw [hd.same hw, hg]
        exact Layout.Runs.refl _ _ _
      · rw [if_neg hn] at hg
        have hjm := Layout.Moves.jmp hw (d := d) hg (fun p hp => ⟨p.2, (hre p hp).1⟩) s
        have he : Eff L (reset.reverse ++ d) [] := hd.put hw (fun p hp => (hre p hp).1) (fun q hq => Or.inl ⟨q, hq, rfl⟩)
        rw [he.same hw] at hjm
        exact hjm
  | @two k tgt t j e kc reset ts hb hr hj lt h ih =>
    intro hnd hso hre d hd s
    have hlt : ∀ q ∈ reset, q.2 < 2 ^ 32 := fun q hq => hw.rlt _ (hre q hq).1
    have ht : ∀ q ∈ reset, q.1 ≠ t := fun q hq e => (hre q hq).2 (by simp [e])
    obtain ⟨c1, c2⟩ := hS.cnd .exactly k (t + 8) s
    rw [caseOf_cons]
    simp only [compare] at c1
    by_cases hk : val s = k
    · rw [if_pos hk]
      have hop := Layout.Moves.hop hw hd.1 (l := (t, j) :: reset) (by
        intro p hp; simp only [List.mem_cons] at hp; exact hp.elim (fun e => e ▸ lt) (hlt p)) hb hr (by
        intro p hp; simp only [List.mem_cons] at hp; exact hp.elim (fun e' => e' ▸ ⟨e, hr⟩) (fun hp => ⟨p.2, (hre p hp).1⟩)) c2 (by rw [c1]; simpa using hk)
      have hlk : ((((t, j) :: reset).reverse ++ d).lookup t).getD e = j := by
        have : reset.reverse.lookup t = none := by
          rw [List.lookup_eq_none_iff]
          intro p hp
          simpa using Ne.symm (ht p (by simpa using hp))
        rw [List.reverse_cons, List.append_assoc, List.lookup_append, this]
        simp
      rw [hlk] at hop
      refine hop.trans ?_
      have hjm := Layout.Moves.jmp hw (d := ((t, j) :: reset).reverse ++ d) hj (by simpa using ⟨e, hr⟩) s
      have he : Eff L ([(t, e)].reverse ++ (((t, j) :: reset).reverse ++ d)) [] := by
        rw [show ((t, j) :: reset).reverse ++ d = reset.reverse ++ ((t, j) :: d) by simp]
        have h1 : Eff L ((t, j) :: d) ((t, e) :: reset) := hd.redirect lt
        have h2 : Eff L (reset.reverse ++ ((t, j) :: d)) [(t, e)] := h1.put hw (fun p hp => (hre p hp).1) (by
          intro q hq; simp only [List.mem_cons] at hq; exact hq.elim (fun e => Or.inr (by simp [e])) (fun hq => Or.inl ⟨q, hq, rfl⟩))
        exact h2.put hw (l := [_]) (r' := []) (by intro p hp; simp only [List.mem_singleton] at hp; subst hp; exact hr) (by simp)
      rw [he.same hw] at hjm
      exact hjm
    · rw [if_neg hk]
      have hst := Layout.Moves.stay hw hd.1 (n := j) (as := reset.map nx) hb hr c2 (by rw [c1]; simpa using hk)
      rw [hd.get hw hr ht] at hst
      exact hst.trans (ih (List.nodup_cons.1 hnd).2 (by simp) (fun q hq => ⟨(hre q hq).1, fun g => (hre q hq).2 (List.mem_cons_of_mem _ g)⟩) hd s)
  | @many keys k tgt t e1 e2 reset ts1 ts2 hl hk hb hr lt h1 h2 ih1 ih2 =>
    intro hnd hso hre d hd s
    have hlt : ∀ q ∈ reset, q.2 < 2 ^ 32 := fun q hq => hw.rlt _ (hre q hq).1
    have ht : ∀ q ∈ reset, q.1 ≠ t := fun q hq e => (hre q hq).2 (by simp [e])
    obtain ⟨c1, c2⟩ := hS.cnd .atLeast k (t + 8) s
    simp only [compare] at c1
    rw [List.nodup_cons, List.nodup_append] at hnd
    have hsplit : keys = keys.take (keys.length / 2) ++ keys.drop (keys.length / 2) := (List.take_append_drop _ _).symm
    have hso' := hso
    rw [hsplit, List.pairwise_append] at hso'
    have hhead : keys.drop (keys.length / 2) = (k, tgt) :: keys.drop (keys.length / 2 + 1) := by
      obtain ⟨h, e⟩ := List.getElem?_eq_some_iff.1 hk
      rw [List.drop_eq_getElem_cons h, e]
    by_cases hc : k ≤ val s
    · have hop := Layout.Moves.hop hw hd.1 (l := (t, e2) :: reset) (by
        intro p hp; simp only [List.mem_cons] at hp; exact hp.elim (fun e => e ▸ lt) (hlt p)) hb hr (by
        intro p hp; simp only [List.mem_cons] at hp; exact hp.elim (fun e => e ▸ ⟨e1, hr⟩) (fun hp => ⟨p.2, (hre p hp).1⟩)) c2 (by rw [c1]; simpa using hc)
      have hlk : ((((t, e2) :: reset).reverse ++ d).lookup t).getD e1 = e2 := by
        have : reset.reverse.lookup t = none := by
          rw [List.lookup_eq_none_iff]
          intro p hp
          simpa using Ne.symm (ht p (by simpa using hp))
        rw [List.reverse_cons, List.append_assoc, List.lookup_append, this]
        simp
      rw [hlk] at hop
      refine hop.trans ?_
      have he : Eff L (((t, e2) :: reset).reverse ++ d) [(t, e1)] := by
        rw [List.reverse_cons, List.append_assoc]
        have h1 : Eff L ((t, e2) :: d) ((t, e1) :: reset) := hd.redirect lt
        exact h1.put hw (fun p hp => (hre p hp).1) (by
          intro q hq; simp only [List.mem_cons] at hq; exact hq.elim (fun e => Or.inr (by simp [e])) (fun hq => Or.inl ⟨q, hq, rfl⟩))
      have := ih2 hnd.2.2.1 hso'.2.1 (by
        intro q hq; simp only [List.mem_singleton] at hq; subst hq; exact ⟨hr, fun g => hnd.1 (List.mem_append_right _ g)⟩) he s
      rw [hsplit, caseOf_append_right]
      · exact this
      · intro p hp e
        have := hso'.2.2 p hp (k, tgt) (by rw [hhead]; simp)
        simp only at this
        rw [e] at this
        simp only [BitVec.le_def, BitVec.lt_def] at hc this
        omega
    · have hst := Layout.Moves.stay hw hd.1 (n := e2) (as := reset.map nx) hb hr c2 (by rw [c1]; simpa using hc)
      rw [hd.get hw hr ht] at hst
      refine hst.trans ?_
      have := ih1 hnd.2.1 hso'.1 (fun q hq => ⟨(hre q hq).1, fun g => (hre q hq).2 (by simp [g])⟩) hd s
      rw [hsplit, caseOf_append_left]
      · exact this
      · intro p hp e
        have h2 : k ≤ p.1 := by
          have h3 := hso'.2.1
          rw [hhead] at hp h3
          simp only [List.mem_cons] at hp
          rcases hp with rfl | hp
          · simp
          · have := (List.pairwise_cons.1 h3).1 p hp
            simp only [BitVec.le_def, BitVec.lt_def] at this ⊢
            omega
        exact hc (e ▸ h2)

/-- **C26 (binary search).** For any number of cases control goes to the case whose label equals the selected value, or to the default,
nothing else changes, and afterwards the triggers are as they were before. -/
theorem C26_search {L : Layout} (hw : L.Wf) {val : Mem → W} {mk : Cmp → W → PC} (hS : Sel L val mk) {dflt : Nat} {keys : List (W × Nat)} {e : Nat} {ts : List Nat}
    (h : Search L mk dflt keys [] e ts) (hnd : ts.Nodup) (hso : keys.Pairwise (fun a b => a.1 < b.1)) (s : Mem) : L.Runs s e s (caseOf keys dflt (val s)) := by
  have := h.moves hw hS hnd hso (by simp) (Eff.nil _) s
  rwa [Layout.redir_nil] at this

/-! ## A chain of comparisons -/

/-- The comparisons of a switch with at most three cases (swblock.py:165-182); `r` is the trigger with the `restore` action. -/
inductive Chain (L : Layout) (mk : Cmp → W → PC) (r dflt : Nat) : List (W × Nat) → Nat → Prop
  | nil : Chain L mk r dflt [] dflt
  | cons {k : W} {tgt t n : Nat} {cases : List (W × Nat)}
      (hb : (⟨t, ⟨[(mk .exactly k).c], [sNext t tgt, sMem (r + 344) .set (epd t + 1), sMem (r + 348) .set (BitVec.ofNat 32 n)]⟩, none, false⟩ : SBlk) ∈ L.P.blks)
      (hr : (t, n) ∈ L.rest) (he : EpdOK (t + 4)) (lt : tgt < 2 ^ 32) (h : Chain L mk r dflt cases n) : Chain L mk r dflt ((k, tgt) :: cases) t

/-- The trigger that puts back the next pointer changed by the last execution, followed by the comparisons. -/
structure ChainSwitch (L : Layout) (mk : Cmp → W → PC) (r dflt : Nat) (cases : List (W × Nat)) where
  e : Nat
  rb : (⟨r, ⟨[], [⟨none, .set, none, some 0xFFFFFFFF⟩]⟩, some e, false⟩ : SBlk) ∈ L.P.blks
  ch : Chain L mk r dflt cases e
  c344 : L.cell (r + 344)
  c348 : L.cell (r + 348)

/-- Between executions: at most one trigger is redirected, and `restore` puts this one back. -/
def Restores (L : Layout) (r : Nat) (d : List (Nat × Nat)) (s : Mem) : Prop :=
  ∃ p ∈ L.rest, s (r + 344) = epd (p.1 + 4) ∧ s (r + 348) = BitVec.ofNat 32 p.2 ∧ EpdOK (p.1 + 4) ∧ Eff L d [p]

theorem epd_add4 (t : Nat) (h : t % 4 = 0) : epd t + 1 = epd (t + 4) := by
  unfold epd
  have : ((t + 4 : Nat) : Int) - 0x58A364 = ((t : Int) - 0x58A364) + 4 := by omega
  rw [this, Int.add_ediv_of_dvd_right (by decide), BitVec.ofInt_add]
  rfl

theorem restore_moves {L : Layout} (hw : L.Wf) {r e : Nat} (hb : (⟨r, ⟨[], [⟨none, .set, none, some 0xFFFFFFFF⟩]⟩, some e, false⟩ : SBlk) ∈ L.P.blks)
    {d : List (Nat × Nat)} {s : Mem} (h : Restores L r d s) (c1 : L.cell (r + 344)) (c2 : L.cell (r + 348)) : (L.redir d).Moves L s r s e := by
  obtain ⟨p, hp, h1, h2, h3, hE⟩ := h
  intro m hm hv
  have g1 : m (r + 344) = epd (p.1 + 4) := by rw [← h1, ← hv, Layout.redir_view, Layout.view_at c1.2]
  have g2 : m (r + 348) = BitVec.ofNat 32 p.2 := by rw [← h2, ← hv, Layout.redir_view, Layout.view_at c2.2]
  have hd : dstOf (m (r + 328 + 16)) 0 = some (.mem (p.1 + 4)) := by
    rw [Nat.add_assoc, show 328 + 16 = 344 from rfl, g1]; exact dstOf_epd h3
  have e : ((⟨none, .set, none, some 0xFFFFFFFF⟩ : SAct).res m (r + 328)).apply m = m.set (p.1 + 4) (BitVec.ofNat 32 p.2) := by
    simp only [SAct.res, Option.getD_none, Option.getD_some, hd, Act.apply, Dst.addr, modify_full]
    rw [Nat.add_assoc, show 328 + 20 = 348 from rfl, g2]
    rfl
  have ha : L.P.Acts [⟨none, .set, none, some 0xFFFFFFFF⟩] (r + 328) m := by
    refine ⟨fun _ => by rw [hd]; rfl, ?_, trivial⟩
    simp only [SAct.res, Option.getD_none, hd, Option.getD_some, Dst.addr]
    exact (hw.rdat p hp).okw _ _
  have hs := (hm.prog.step_next hb rfl rfl trivial (fun _ => ha)).1
  simp only [SBlk.exec, condsS, if_true, runS, e] at hs
  have ho := hm.redir_set hw (t := p.1) (c := p.2) hp p.2
  have hE' : Eff L ([p].reverse ++ d) [] := hE.put hw (by intro q hq; simp only [List.mem_singleton] at hq; subst hq; exact hp) (by simp)
  have : L.redir ((p.1, p.2) :: d) = L := hE'.same hw
  rw [this] at ho
  exact ⟨_, Reaches.step hs, ho, by rw [Layout.view_priv (Layout.Wf.privR hp), ← hv, Layout.redir_view]⟩

theorem Chain.moves {L : Layout} (hw : L.Wf) {val : Mem → W} {mk : Cmp → W → PC} (hS : Sel L val mk) {r dflt : Nat} {cases : List (W × Nat)} {e : Nat}
    (h : Chain L mk r dflt cases e) (c1 : L.cell (r + 344)) (c2 : L.cell (r + 348)) {s : Mem} (h0 : Restores L r [] s) :
    ∃ d' s', Restores L r d' s' ∧ (∀ x, x ≠ r + 344 → x ≠ r + 348 → s' x = s x) ∧ L.Moves (L.redir d') s e s' (caseOf cases dflt (val s)) := by
  induction h with
  | nil => exact ⟨[], s, h0, fun _ _ _ => rfl, by rw [Layout.redir_nil]; exact Layout.Runs.refl _ _ _⟩
  | @cons k tgt t n cases hb hr he lt h ih =>
    obtain ⟨k1, k2⟩ := hS.cnd .exactly k (t + 8) s
    simp only [compare] at k1
    rw [caseOf_cons]
    by_cases hk : val s = k
    · rw [if_pos hk]
      have hse := Layout.Moves.self hw (d := []) (by simp) hb hr lt k2 (by rw [k1]; simpa using hk)
        (by exact ⟨sMem_ready _ _ _ _ _, c1, sMem_ready _ _ _ _ _, c2, trivial⟩)
      rw [Layout.redir_nil] at hse
      simp only [runS, sMem_apply, arith] at hse
      refine ⟨_, _, ⟨(t, n), hr, ?_, ?_, he, ?_⟩, ?_, hse⟩
      · rw [set_ne (by omega), set_eq, epd_add4 t (by have := he.1; omega)]
      · rw [set_eq]
      · exact (Eff.nil (L := L) []).redirect (q := (t, tgt)) lt
      · intro x h1 h2
        rw [set_ne h2, set_ne h1]
    · rw [if_neg hk]
      have hst := Layout.Moves.stay hw (d := []) (by simp) hb hr k2 (by rw [k1]; simpa using hk)
      rw [Layout.redir_nil] at hst
      obtain ⟨d', s', g1, g2, g3⟩ := ih
      exact ⟨d', s', g1, g2, Layout.Moves.trans hst g3⟩

/-- **C26 (few cases).** Control goes to the case whose label equals the selected value, or to the default, and nothing
but the operands of the `restore` action changes.  The next pointer of the comparison that matched stays redirected until the
next execution, whose first action puts it back: the code can be executed again and again. -/
theorem C26_chain {L : Layout} (hw : L.Wf) {val : Mem → W} {mk : Cmp → W → PC} (hS : Sel L val mk) {r dflt : Nat} {cases : List (W × Nat)}
    (h : ChainSwitch L mk r dflt cases) {d : List (Nat × Nat)} {s : Mem} (h0 : Restores L r d s) :
    ∃ d' s', Restores L r d' s' ∧ (∀ x, x ≠ r + 344 → x ≠ r + 348 → s' x = s x) ∧ (L.redir d).Moves (L.redir d') s r s' (caseOf cases dflt (val s)) := by
  have h1 : Restores L r [] s := by
    obtain ⟨p, hp, h1, h2, h3, -⟩ := h0
    exact ⟨p, hp, h1, h2, h3, Eff.nil _⟩
  obtain ⟨d', s', g1, g2, g3⟩ := h.ch.moves hw hS h.c344 h.c348 h1
  exact ⟨d', s', g1, g2, (restore_moves hw h.rb h0 h.c344 h.c348).trans g3⟩

/-! ## Two labels that differ in one bit -/

theorem or_sub_and (a b : W) : (a ||| b) - (a &&& b) = a ^^^ b := by
  have h : (a ^^^ b) &&& (a &&& b) = 0 := by
    apply BitVec.eq_of_getLsbD_eq
    intro i hi
    simp only [BitVec.getLsbD_and, BitVec.getLsbD_xor]
    cases a.getLsbD i <;> cases b.getLsbD i <;> simp
  have h2 : (a ^^^ b) ||| (a &&& b) = a ||| b := by
    apply BitVec.eq_of_getLsbD_eq
    intro i hi
    simp only [BitVec.getLsbD_and, BitVec.getLsbD_xor, BitVec.getLsbD_or]
    cases a.getLsbD i <;> cases b.getLsbD i <;> simp
  rw [← h2, ← BitVec.add_eq_or_of_and_eq_zero _ _ h, BitVec.add_sub_cancel]

/-- The test with one comparison (swblock.py:150-163): the labels of the only two cases, which go to the same place, differ in one bit. -/
theorem pair_test (v mask k0 k1 : W) (h0 : k0 &&& mask = k0) (h1 : k1 &&& mask = k1) {i : Nat} (hlt : i < 32) (hi : (k0 ||| k1) - (k0 &&& k1) = pow2 i) :
    v &&& (~~~ ((k0 ||| k1) - (k0 &&& k1)) &&& mask) = k0 &&& k1 ↔ v &&& mask = k0 ∨ v &&& mask = k1 := by
  have hb : ∀ j < 32, (k0.getLsbD j ^^ k1.getLsbD j) = decide (j = i) := by
    intro j hj
    have := congrArg (fun w => w.getLsbD j) hi
    rw [or_sub_and] at this
    simp only [BitVec.getLsbD_xor, pow2, BitVec.getLsbD_twoPow, hlt] at this
    rw [this]
    by_cases e : j = i <;> simp [e, eq_comm, hlt]
    intro e'
    exact absurd e'.symm e
  have hm0 : ∀ j, (k0.getLsbD j && mask.getLsbD j) = k0.getLsbD j := fun j => by rw [← BitVec.getLsbD_and, h0]
  have hm1 : ∀ j, (k1.getLsbD j && mask.getLsbD j) = k1.getLsbD j := fun j => by rw [← BitVec.getLsbD_and, h1]
  have hl : ∀ j < 32, (v &&& (~~~ ((k0 ||| k1) - (k0 &&& k1)) &&& mask)).getLsbD j = (v.getLsbD j && !(k0.getLsbD j ^^ k1.getLsbD j) && mask.getLsbD j) := by
    intro j hj
    rw [or_sub_and]
    simp only [BitVec.getLsbD_and, BitVec.getLsbD_not, BitVec.getLsbD_xor, hj, decide_true, Bool.true_and, Bool.and_assoc]
  constructor
  · intro h
    have hv : ∀ j < 32, (v.getLsbD j && !(k0.getLsbD j ^^ k1.getLsbD j) && mask.getLsbD j) = (k0.getLsbD j && k1.getLsbD j) := by
      intro j hj
      rw [← hl j hj, h, BitVec.getLsbD_and]
    by_cases g : (v &&& mask).getLsbD i = k0.getLsbD i
    · left
      apply BitVec.eq_of_getLsbD_eq
      intro j hj
      by_cases e : j = i
      · rw [e, g]
      · have a1 := hb j hj
        have a2 := hv j hj
        rw [BitVec.getLsbD_and]
        simp only [e, decide_false] at a1
        rw [a1] at a2
        revert a1 a2
        cases k0.getLsbD j <;> cases k1.getLsbD j <;> simp
    · right
      apply BitVec.eq_of_getLsbD_eq
      intro j hj
      have a1 := hb j hj
      by_cases e : j = i
      · subst e
        simp only [decide_true] at a1
        revert a1 g
        cases (v &&& mask).getLsbD j <;> cases k0.getLsbD j <;> cases k1.getLsbD j <;> simp
      · have a2 := hv j hj
        rw [BitVec.getLsbD_and]
        simp only [e, decide_false] at a1
        rw [a1] at a2
        revert a1 a2
        cases k0.getLsbD j <;> cases k1.getLsbD j <;> simp
  · rintro (h | h)
    · apply BitVec.eq_of_getLsbD_eq
      intro j hj
      have hv : (v.getLsbD j && mask.getLsbD j) = k0.getLsbD j := by rw [← h, BitVec.getLsbD_and]
      rw [hl j hj, BitVec.getLsbD_and]
      revert hv
      cases v.getLsbD j <;> cases mask.getLsbD j <;> cases k0.getLsbD j <;> cases k1.getLsbD j <;> simp
    · apply BitVec.eq_of_getLsbD_eq
      intro j hj
      have hv : (v.getLsbD j && mask.getLsbD j) = k1.getLsbD j := by rw [← h, BitVec.getLsbD_and]
      rw [hl j hj, BitVec.getLsbD_and]
      revert hv
      cases v.getLsbD j <;> cases mask.getLsbD j <;> cases k0.getLsbD j <;> cases k1.getLsbD j <;> simp

/-- **C26 (two labels that differ in one bit).** One masked comparison decides. -/
theorem C26_pair {L : Layout} (hw : L.Wf) {x : Nat} (hx : L.cell x) {mask k0 k1 : W} (h0 : k0 &&& mask = k0) (h1 : k1 &&& mask = k1) {i : Nat} (hlt : i < 32)
    (hi : (k0 ||| k1) - (k0 &&& k1) = pow2 i) {tgt dflt e : Nat}
    (hB : BranchAt L tgt dflt e [cMemX x .exactly (k0 &&& k1) (~~~ ((k0 ||| k1) - (k0 &&& k1)) &&& mask)] []) (s : Mem) :
    L.Runs s e s (caseOf [(k0, tgt), (k1, tgt)] dflt (s x &&& mask)) := by
  have h := C24_branch hw hB (s := s) (fun p hp => by simp only [List.mem_singleton] at hp; subst hp; exact cMemX_ok hx _ _ _ _) (fun _ => trivial)
  have hh : holdsAll s [cMemX x .exactly (k0 &&& k1) (~~~ ((k0 ||| k1) - (k0 &&& k1)) &&& mask)] = decide (s x &&& mask = k0 ∨ s x &&& mask = k1) := by
    simp only [holdsAll_cons, holdsAll_nil, Bool.and_true, cMemX_holds, compare]
    congr 1
    exact propext (pair_test _ _ _ _ h0 h1 hlt hi)
  rw [hh] at h
  rw [caseOf_cons, caseOf_one]
  by_cases a : s x &&& mask = k0
  · simpa [a] using h
  · by_cases b : s x &&& mask = k1
    · have : ¬ k1 = k0 := b ▸ a
      simpa [b, this] using h
    · simpa [a, b] using h

/-! ## Jump tables: the table -/

/-- `bits(n)` (utils/binio.py:38-43) for a 32-bit number: the places of the bits that are set, lowest first. -/
def bitPlaces (x : W) : List Nat := (List.range 32).filter (fun i => x.getLsbD i)

/-- The sums of all selections of the given numbers (`map(sum, powerset(..))`, swblock.py:199-204), in some order. -/
def subs : List Nat → List Nat
  | [] => [0]
  | b :: bs => subs bs ++ (subs bs).map (b + ·)

/-- `sorted(map(sum, powerset(keybits)))` -/
def keyList (bits : List Nat) : List Nat := (subs bits).mergeSort (fun a b => decide (a ≤ b))

/-- The sum of the numbers `2 ^ p` selected by the bits of `n`. -/
def sel : List Nat → Nat → Nat
  | [], _ => 0
  | p :: ps, n => (if n % 2 = 1 then 2 ^ p else 0) + sel ps (n / 2)

/-- Ascending places, all at least `p`. -/
def Asc : Nat → List Nat → Prop
  | _, [] => True
  | p, q :: qs => p ≤ q ∧ Asc (q + 1) qs

theorem Asc.mono {p p' : Nat} (h : p' ≤ p) : ∀ {l : List Nat}, Asc p l → Asc p' l
  | [], _ => trivial
  | _ :: _, ⟨h1, h2⟩ => ⟨Nat.le_trans h h1, h2⟩

theorem sel_dvd : ∀ {ps : List Nat} {p : Nat}, Asc p ps → ∀ n, 2 ^ p ∣ sel ps n
  | [], _, _, _ => ⟨0, rfl⟩
  | q :: qs, p, ⟨h1, h2⟩, n => by
    unfold sel
    refine Nat.dvd_add ?_ (Nat.dvd_trans (Nat.pow_dvd_pow 2 (by omega)) (sel_dvd h2 (n / 2)))
    split
    · exact Nat.pow_dvd_pow 2 h1
    · exact ⟨0, rfl⟩

theorem sel_lt : ∀ {ps : List Nat} {p : Nat}, Asc p ps → ∀ {n n' : Nat}, n < n' → n' < 2 ^ ps.length → sel ps n < sel ps n'
  | [], _, _, n, n', h, h' => by simp at h'; omega
  | q :: qs, p, ⟨h1, h2⟩, n, n', h, h' => by
    unfold sel
    have hp : 0 < 2 ^ q := Nat.two_pow_pos q
    by_cases e : n / 2 = n' / 2
    · rw [e, if_neg (by omega), if_pos (by omega)]
      omega
    · have hlt := sel_lt h2 (n := n / 2) (n' := n' / 2) (by omega) (by rw [List.length_cons, Nat.pow_succ] at h'; omega)
      obtain ⟨a, ha⟩ := sel_dvd h2 (n / 2)
      obtain ⟨b, hb⟩ := sel_dvd h2 (n' / 2)
      rw [Nat.pow_succ] at ha hb
      have : a < b := by
        rw [ha, hb] at hlt
        exact Nat.lt_of_mul_lt_mul_left hlt
      have : 2 ^ q * 2 * (a + 1) ≤ 2 ^ q * 2 * b := Nat.mul_le_mul_left _ this
      rw [Nat.mul_add] at this
      split <;> split <;> omega

theorem subs_mem : ∀ (ps : List Nat) (x : Nat), x ∈ subs (ps.map (2 ^ ·)) ↔ ∃ n < 2 ^ ps.length, sel ps n = x
  | [], x => by
    simp only [subs, List.map_nil, List.mem_singleton, sel, List.length_nil]
    exact ⟨fun h => ⟨0, by decide, h.symm⟩, fun ⟨_, _, h⟩ => h.symm⟩
  | p :: ps, x => by
    simp only [subs, List.map_cons, List.mem_append, List.mem_map (f := (2 ^ p + ·)), subs_mem ps, List.length_cons, Nat.pow_succ]
    constructor
    · rintro (⟨n, hn, e⟩ | ⟨y, ⟨n, hn, e⟩, e'⟩)
      · refine ⟨2 * n, by omega, ?_⟩
        rw [sel, if_neg (by omega), show 2 * n / 2 = n by omega, e, Nat.zero_add]
      · refine ⟨2 * n + 1, by omega, ?_⟩
        rw [sel, if_pos (by omega), show (2 * n + 1) / 2 = n by omega, e, e']
    · rintro ⟨n, hn, e⟩
      rw [sel] at e
      split at e
      · exact Or.inr ⟨sel ps (n / 2), ⟨n / 2, by omega, rfl⟩, e⟩
      · exact Or.inl ⟨n / 2, by omega, by omega⟩

theorem subs_nodup : ∀ {ps : List Nat} {p : Nat}, Asc p ps → (subs (ps.map (2 ^ ·))).Nodup
  | [], _, _ => by simp [subs]
  | q :: qs, p, ⟨_, h2⟩ => by
    simp only [subs, List.map_cons]
    rw [List.nodup_append]
    refine ⟨subs_nodup h2, ?_, ?_⟩
    · exact List.Pairwise.map (S := (· ≠ ·)) (2 ^ q + ·) (fun a b h e => h (by omega)) (subs_nodup h2)
    · intro a ha b hb e
      subst e
      simp only [List.mem_map (f := (2 ^ q + ·))] at hb
      obtain ⟨c, hc, e⟩ := hb
      obtain ⟨n, -, ea⟩ := (subs_mem _ _).1 ha
      obtain ⟨n', -, ec⟩ := (subs_mem _ _).1 hc
      have d1 := sel_dvd h2 n
      have d2 := sel_dvd h2 n'
      rw [ea] at d1
      rw [ec] at d2
      have : 2 ^ (q + 1) ∣ 2 ^ q := by
        have := (Nat.dvd_add_iff_left d2 (m := 2 ^ q)).2 (e ▸ d1)
        exact this
      have := Nat.le_of_dvd (Nat.two_pow_pos q) this
      rw [Nat.pow_succ] at this
      have := Nat.two_pow_pos q
      omega

/-- Sorted lists with the same elements are equal. -/
theorem sorted_ext : ∀ {l r : List Nat}, l.Pairwise (· < ·) → r.Pairwise (· < ·) → (∀ x, x ∈ l ↔ x ∈ r) → l = r
  | [], [], _, _, _ => rfl
  | [], b :: r, _, _, h => absurd ((h b).2 (by simp)) (by simp)
  | a :: l, [], _, _, h => absurd ((h a).1 (by simp)) (by simp)
  | a :: l, b :: r, h1, h2, h => by
    rw [List.pairwise_cons] at h1 h2
    have e : a = b := by
      have ha := (h a).1 (by simp)
      have hb := (h b).2 (by simp)
      simp only [List.mem_cons] at ha hb
      rcases ha with rfl | ha
      · rfl
      · rcases hb with rfl | hb
        · rfl
        · have := h2.1 a ha
          have := h1.1 b hb
          omega
    subst e
    congr 1
    refine sorted_ext h1.2 h2.2 (fun x => ?_)
    have := h x
    simp only [List.mem_cons] at this
    constructor
    · intro hx
      have := h1.1 x hx
      rcases (h x).1 (by simp [hx]) with _ | ⟨_, hx'⟩
      · omega
      · exact hx'
    · intro hx
      have := h2.1 x hx
      rcases (h x).2 (by simp [hx]) with _ | ⟨_, hx'⟩
      · omega
      · exact hx'

/-- The keys of the table in order. -/
theorem keyList_eq {ps : List Nat} {p : Nat} (h : Asc p ps) : keyList (ps.map (2 ^ ·)) = (List.range (2 ^ ps.length)).map (sel ps) := by
  have hp := List.mergeSort_perm (subs (ps.map (2 ^ ·))) (fun a b => decide (a ≤ b))
  refine sorted_ext ?_ ?_ ?_
  · have h1 := List.pairwise_mergeSort (le := fun a b : Nat => decide (a ≤ b)) (by simp; omega) (by simp; omega) (subs (ps.map (2 ^ ·)))
    have h2 : (keyList (ps.map (2 ^ ·))).Nodup := hp.nodup_iff.2 (subs_nodup h)
    unfold keyList at h2 ⊢
    have := List.pairwise_and_iff.2 ⟨h1, h2⟩
    exact this.imp (fun ⟨a, b⟩ => by simp at a; omega)
  · rw [List.pairwise_map]
    exact (List.pairwise_lt_range (n := 2 ^ ps.length)).imp_of_mem (fun ha hb hlt => sel_lt h hlt (by simpa using hb))
  · intro x
    unfold keyList
    rw [hp.mem_iff, subs_mem]
    simp

/-! ## The index -/

/-- The number with the bits of `v` at the given places. -/
def index : List Nat → W → Nat
  | [], _ => 0
  | p :: ps, v => (if v.getLsbD p then 1 else 0) + 2 * index ps v

theorem index_lt : ∀ (ps : List Nat) (v : W), index ps v < 2 ^ ps.length
  | [], _ => by simp [index]
  | p :: ps, v => by
    have := index_lt ps v
    rw [index, List.length_cons, Nat.pow_succ]
    split <;> omega

/-- The sum of the bits of `v` at the given places. -/
def sumBits : List Nat → W → Nat
  | [], _ => 0
  | p :: ps, v => (if v.getLsbD p then 2 ^ p else 0) + sumBits ps v

theorem sel_index : ∀ (ps : List Nat) (v : W), sel ps (index ps v) = sumBits ps v
  | [], _ => rfl
  | p :: ps, v => by
    rw [sel, index, sumBits, ← sel_index ps v]
    split
    · rw [if_pos (by omega), show (1 + 2 * index ps v) / 2 = index ps v by omega]
    · rw [if_neg (by omega), show (0 + 2 * index ps v) / 2 = index ps v by omega]

theorem sumBits_append : ∀ (ps qs : List Nat) (v : W), sumBits (ps ++ qs) v = sumBits ps v + sumBits qs v
  | [], _, _ => by simp [sumBits]
  | p :: ps, qs, v => by rw [List.cons_append, sumBits, sumBits, sumBits_append ps qs v]; omega

theorem sumBits_range (x v : W) : ∀ n ≤ 32, sumBits ((List.range n).filter (fun i => x.getLsbD i)) v = (v &&& x).toNat % 2 ^ n
  | 0, _ => by simp [sumBits, Nat.mod_one]
  | n + 1, h => by
    rw [List.range_succ, List.filter_append, sumBits_append, sumBits_range x v n (by omega), Nat.mod_pow_succ]
    congr 1
    have hb : (v &&& x).toNat / 2 ^ n % 2 = if (v &&& x).getLsbD n then 1 else 0 := by
      have := Nat.testBit_eq_decide_div_mod_eq (x := (v &&& x).toNat) (i := n)
      rw [BitVec.testBit_toNat] at this
      by_cases hc : (v &&& x).toNat / 2 ^ n % 2 = 1
      · rw [this, hc]; rfl
      · have h0 : (v &&& x).toNat / 2 ^ n % 2 = 0 := by omega
        rw [this, h0]; rfl
    rw [hb, BitVec.getLsbD_and]
    simp only [List.filter_cons, List.filter_nil]
    cases x.getLsbD n <;> cases hv : v.getLsbD n <;> simp [sumBits, hv]

theorem sumBits_places (x v : W) : sumBits (bitPlaces x) v = (v &&& x).toNat := by
  rw [bitPlaces, sumBits_range x v 32 (by omega), Nat.mod_eq_of_lt (v &&& x).isLt]

theorem Asc.of_pairwise : ∀ {l : List Nat} {p : Nat}, l.Pairwise (· < ·) → (∀ q ∈ l, p ≤ q) → Asc p l
  | [], _, _, _ => trivial
  | q :: qs, p, h, hp => by
    rw [List.pairwise_cons] at h
    exact ⟨hp q (by simp), Asc.of_pairwise h.2 (fun r hr => h.1 r hr)⟩

theorem bitPlaces_asc (x : W) : Asc 0 (bitPlaces x) :=
  Asc.of_pairwise (List.Pairwise.filter _ (List.pairwise_lt_range (n := 32))) (fun _ _ => Nat.zero_le _)

/-! ## Which labels get to the table -/

/-- `keyand` and `keyor` (swblock.py:184-187). -/
def keyAnd : List (W × Nat) → W
  | [] => 0
  | c :: cs => cs.foldl (fun a c => a &&& c.1) c.1
def keyOr (cs : List (W × Nat)) : W := cs.foldl (fun a c => a ||| c.1) 0

theorem foldl_and_bit (j : Nat) : ∀ (cs : List (W × Nat)) (a : W), (cs.foldl (fun a c => a &&& c.1) a).getLsbD j = (a.getLsbD j && cs.all (fun c => c.1.getLsbD j))
  | [], a => by simp
  | c :: cs, a => by rw [List.foldl_cons, foldl_and_bit j cs, BitVec.getLsbD_and, List.all_cons, Bool.and_assoc]

theorem foldl_or_bit (j : Nat) : ∀ (cs : List (W × Nat)) (a : W), (cs.foldl (fun a c => a ||| c.1) a).getLsbD j = (a.getLsbD j || cs.any (fun c => c.1.getLsbD j))
  | [], a => by simp
  | c :: cs, a => by rw [List.foldl_cons, foldl_or_bit j cs, BitVec.getLsbD_or, List.any_cons, Bool.or_assoc]

theorem keyAnd_bit {cs : List (W × Nat)} (h : cs ≠ []) (j : Nat) : (keyAnd cs).getLsbD j = cs.all (fun c => c.1.getLsbD j) := by
  cases cs with
  | nil => exact absurd rfl h
  | cons c cs => rw [keyAnd, foldl_and_bit, List.all_cons]

theorem keyOr_bit (cs : List (W × Nat)) (j : Nat) : (keyOr cs).getLsbD j = cs.any (fun c => c.1.getLsbD j) := by
  rw [keyOr, foldl_or_bit]
  simp

/-- The mask of the bits that all labels agree on. -/
def invMask (cs : List (W × Nat)) (mask : W) : W := (~~~ (keyOr cs) ||| keyAnd cs) &&& mask
def keyXor (cs : List (W × Nat)) : W := keyOr cs - keyAnd cs

theorem keyXor_bit {cs : List (W × Nat)} (h : cs ≠ []) {j : Nat} (hj : j < 32) : (keyXor cs).getLsbD j = ((keyOr cs).getLsbD j && !(keyAnd cs).getLsbD j) := by
  have hsub : keyOr cs = (keyOr cs &&& ~~~ (keyAnd cs)) + keyAnd cs := by
    rw [BitVec.add_eq_or_of_and_eq_zero]
    · apply BitVec.eq_of_getLsbD_eq
      intro i hi
      simp only [BitVec.getLsbD_or, BitVec.getLsbD_and, BitVec.getLsbD_not, hi, decide_true, Bool.true_and, keyAnd_bit h, keyOr_bit]
      cases ha : cs.all (fun c => c.1.getLsbD i) with
      | false => simp
      | true =>
        obtain ⟨c, hc⟩ := List.exists_mem_of_ne_nil cs h
        have : cs.any (fun c => c.1.getLsbD i) = true := List.any_eq_true.2 ⟨c, hc, List.all_eq_true.1 ha c hc⟩
        simp [this]
    · apply BitVec.eq_of_getLsbD_eq
      intro i hi
      simp only [BitVec.getLsbD_and, BitVec.getLsbD_not, hi]
      cases (keyAnd cs).getLsbD i <;> simp
  have : keyXor cs = keyOr cs &&& ~~~ (keyAnd cs) := by
    unfold keyXor
    conv => lhs; lhs; rw [hsub]
    rw [BitVec.add_sub_cancel]
  rw [this, BitVec.getLsbD_and, BitVec.getLsbD_not]
  simp [hj]

/-- A value that agrees with the labels on the common bits is `keyand` plus its remaining bits. -/
theorem inv_sum {cs : List (W × Nat)} (h : cs ≠ []) {mask : W} (hm : ∀ c ∈ cs, c.1 &&& mask = c.1) {v : W} (hv : v &&& invMask cs mask = keyAnd cs) :
    v &&& mask = keyAnd cs + (v &&& keyXor cs) := by
  have hb : ∀ j, (v &&& invMask cs mask).getLsbD j = (keyAnd cs).getLsbD j := fun j => by rw [hv]
  have hmj : ∀ j, mask.getLsbD j = false → cs.any (fun c => c.1.getLsbD j) = false := by
    intro j hj
    rw [List.any_eq_false]
    intro c hc
    have : c.1.getLsbD j = (c.1 &&& mask).getLsbD j := by rw [hm c hc]
    rw [this, BitVec.getLsbD_and, hj]
    simp
  have hao : ∀ j, (keyAnd cs).getLsbD j = true → (keyOr cs).getLsbD j = true := by
    intro j hj
    rw [keyAnd_bit h] at hj
    rw [keyOr_bit]
    obtain ⟨c, hc⟩ := List.exists_mem_of_ne_nil cs h
    exact List.any_eq_true.2 ⟨c, hc, List.all_eq_true.1 hj c hc⟩
  rw [BitVec.add_eq_or_of_and_eq_zero]
  · apply BitVec.eq_of_getLsbD_eq
    intro j hj
    have e := hb j
    have e2 := hao j
    have e3 := hmj j
    rw [← keyOr_bit] at e3
    simp only [invMask, BitVec.getLsbD_and, BitVec.getLsbD_or, BitVec.getLsbD_not, keyXor_bit h hj, hj, decide_true, Bool.true_and] at e ⊢
    revert e e2 e3
    cases mask.getLsbD j <;> cases (keyAnd cs).getLsbD j <;> cases (keyOr cs).getLsbD j <;> cases v.getLsbD j <;> simp
  · apply BitVec.eq_of_getLsbD_eq
    intro j hj
    simp only [BitVec.getLsbD_and, keyXor_bit h hj]
    cases (keyAnd cs).getLsbD j <;> simp

/-- A value that does not is no label. -/
theorem inv_none {cs : List (W × Nat)} {mask : W} (hm : ∀ c ∈ cs, c.1 &&& mask = c.1) {v : W} (hv : v &&& invMask cs mask ≠ keyAnd cs) :
    ∀ c ∈ cs, c.1 ≠ v &&& mask := by
  intro c hc e
  apply hv
  have hne : cs ≠ [] := fun h => by rw [h] at hc; simp at hc
  apply BitVec.eq_of_getLsbD_eq
  intro j hj
  have e1 : c.1.getLsbD j = (v.getLsbD j && mask.getLsbD j) := by rw [e, BitVec.getLsbD_and]
  have e2 : (keyAnd cs).getLsbD j = true → c.1.getLsbD j = true := by
    rw [keyAnd_bit hne]; exact fun h => List.all_eq_true.1 h c hc
  have e3 : c.1.getLsbD j = true → (keyOr cs).getLsbD j = true := by
    rw [keyOr_bit]; exact fun h => List.any_eq_true.2 ⟨c, hc, h⟩
  simp only [invMask, BitVec.getLsbD_and, BitVec.getLsbD_or, BitVec.getLsbD_not, hj, decide_true, Bool.true_and]
  revert e1 e2 e3
  cases c.1.getLsbD j <;> cases mask.getLsbD j <;> cases (keyAnd cs).getLsbD j <;> cases (keyOr cs).getLsbD j <;> cases v.getLsbD j <;> simp

/-! ## Jump tables: the code -/

/-- One trigger for each bit (swblock.py:221-225), the last one being the jumper `j`. -/
inductive BitsCode (L : Layout) (x j : Nat) : Nat → List Nat → Nat → Prop
  | last {i p : Nat} (hb : (⟨j, ⟨[(cMemX x .atLeast 1 (pow2 p)).c], [sMem (j + 4) .add (BitVec.ofNat 32 (20 * 2 ^ i))]⟩, none, false⟩ : SBlk) ∈ L.P.blks) :
      BitsCode L x j i [p] j
  | more {i p t n : Nat} {ps : List Nat}
      (hb : (⟨t, ⟨[(cMemX x .atLeast 1 (pow2 p)).c], [sMem (j + 4) .add (BitVec.ofNat 32 (20 * 2 ^ i))]⟩, some n, false⟩ : SBlk) ∈ L.P.blks)
      (h : BitsCode L x j (i + 1) ps n) : BitsCode L x j i (p :: ps) t

/-- The targets in the table (swblock.py:203-206). -/
def jumpTargets (cases : List (W × Nat)) (dflt : Nat) : List Nat :=
  (keyList ((bitPlaces (keyXor cases)).map (2 ^ ·))).map (fun key => ((cases.map (fun c => (c.1.toNat, c.2))).lookup ((keyAnd cases).toNat + key)).getD dflt)

/-- The code of a switch with a jump table (swblock.py:190-231) for a fixed dword `x`, starting at `e`.  The table consists of triggers that overlap, each 20
bytes behind the one before (jumptable.py:51-78); what matters of such a trigger is its next pointer and its flags, 8, which say that it does nothing.
The next pointer of the jumper is left as it is after the jump, so it is listed as hidden. -/
structure JumpCode (L : Layout) (x : Nat) (mask : W) (cases : List (W × Nat)) (dflt e : Nat) where
  r : Nat
  b0 : Nat
  j : Nat
  tbl : Nat
  inv : if invMask cases mask ≠ 0 then BranchAt L r dflt e [cMemX x .exactly (keyAnd cases) (invMask cases mask)] [] else e = r
  rb : (⟨r, ⟨[], [sNext j tbl]⟩, some b0, false⟩ : SBlk) ∈ L.P.blks
  bits : BitsCode L x j 0 (bitPlaces (keyXor cases)) b0
  tab : ∀ (i t : Nat), (jumpTargets cases dflt)[i]? = some t → (tbl + 20 * i, t) ∈ L.rest ∧ (tbl + 20 * i + 2372, 8) ∈ L.rest
  lt : tbl + 20 * (jumpTargets cases dflt).length < 2 ^ 32
  hid : j + 4 ∈ L.hid
  dat : L.P.data (j + 4)
  hm : ∀ v ∈ L.P.vars, j + 4 ≠ v + 328
  hr : ∀ r ∈ L.rest, r.1 ≠ j

theorem Layout.Ok.set_hid {L : Layout} {m : Mem} (h : L.Ok m) {x : Nat} (hd : L.P.data x) (hm : ∀ v ∈ L.P.vars, x ≠ v + 328) (hr : ∀ r ∈ L.rest, r.1 + 4 ≠ x) (w : W) :
    L.Ok (m.set x w) := by
  refine ⟨h.prog.congr (Prog.Same.set (hd.okw _ _)), ?_, ?_⟩
  · intro v hv
    rw [set_ne (Ne.symm (hm v hv))]
    exact h.mask v hv
  · intro r hq
    rw [set_ne (hr r hq)]
    exact h.rest r hq

theorem BitsCode.run {L : Layout} (hw : L.Wf) {x j : Nat} (hx : L.cell x) (hid : j + 4 ∈ L.hid) (dat : L.P.data (j + 4)) (hm : ∀ v ∈ L.P.vars, j + 4 ≠ v + 328)
    (hr : ∀ r ∈ L.rest, r.1 ≠ j) {i : Nat} {ps : List Nat} {e : Nat} (h : BitsCode L x j i ps e) : (∀ p ∈ ps, p < 32) → ∀ m, L.Ok m →
    ∃ m', Reaches ⟨m, e⟩ ⟨m', (m (j + 4) + BitVec.ofNat 32 (20 * 2 ^ i * index ps (L.view m x))).toNat⟩ ∧ L.Ok m' ∧ L.view m' = L.view m := by
  have hpriv : L.priv (j + 4) := Or.inr (Or.inr (Or.inr hid))
  -- one trigger
  have one : ∀ {t i p : Nat} {n : Option Nat}, p < 32 →
      (⟨t, ⟨[(cMemX x .atLeast 1 (pow2 p)).c], [sMem (j + 4) .add (BitVec.ofNat 32 (20 * 2 ^ i))]⟩, n, false⟩ : SBlk) ∈ L.P.blks → ∀ m, L.Ok m →
      ∃ m', step ⟨m, t⟩ = some ⟨m', (m' (t + 4)).toNat⟩ ∧ L.Ok m' ∧ L.view m' = L.view m ∧
        m' (j + 4) = m (j + 4) + BitVec.ofNat 32 (20 * 2 ^ i * (if (L.view m x).getLsbD p then 1 else 0)) := by
    intro t i p n hp hb m hok
    have hbl := hok.prog.blks _ hb
    obtain ⟨c1, c2⟩ := Layout.cnds_run hw.cp [(cMemX x .atLeast 1 (pow2 p)).c] (t + 8) m (fun o ho' => by
      rw [Nat.add_assoc]; exact hw.blk _ hb _ (by omega) (by have := hbl.cl; simp only at this; omega))
      ⟨(cMemX_ok hx (L.view m) .atLeast 1 (pow2 p)).1, hx.2, trivial⟩
    have hc : condsS (L.view m) [(cMemX x .atLeast 1 (pow2 p)).c] (t + 8) = (L.view m x).getLsbD p := by
      simp only [condsS, cMemX, sChk_res, Bool.and_true]
      exact pow2_bit _ hp
    rw [hc] at c2
    have hs := hok.prog.step hb rfl c1 (fun _ => Prog.acts_mem dat trivial)
    simp only [SBlk.exec, c2] at hs
    refine ⟨_, hs.1, ?_⟩
    cases hbit : (L.view m x).getLsbD p with
    | false =>
      simp only [Bool.false_eq_true, if_false]
      exact ⟨hok, trivial, by simp⟩
    | true =>
      simp only [if_true, runS, sMem_apply, arith]
      exact ⟨hok.set_hid dat hm (fun r hr' e => hr r hr' (by omega)) _, Layout.view_priv hpriv, by rw [set_eq, Nat.mul_one]⟩
  induction h with
  | @last i p hb =>
    intro hp m hok
    obtain ⟨m', s1, o1, v1, e1⟩ := one (hp p (by simp)) hb m hok
    refine ⟨m', ?_, o1, v1⟩
    rw [e1] at s1
    have : index [p] (L.view m x) = if (L.view m x).getLsbD p then 1 else 0 := by simp [index]
    rw [this]
    exact Reaches.step s1
  | @more i p t n ps hb h ih =>
    intro hp m hok
    obtain ⟨m', s1, o1, v1, e1⟩ := one (hp p (by simp)) hb m hok
    have hnx := (o1.prog.blks _ hb).next n rfl
    rw [hnx.1, BitVec.toNat_ofNat, Nat.mod_eq_of_lt hnx.2] at s1
    obtain ⟨m2, s2, o2, v2⟩ := ih (fun q hq => hp q (by simp [hq])) m' o1
    refine ⟨m2, ?_, o2, v2.trans v1⟩
    rw [v1, e1] at s2
    have : m (j + 4) + BitVec.ofNat 32 (20 * 2 ^ i * (if (L.view m x).getLsbD p then 1 else 0)) + BitVec.ofNat 32 (20 * 2 ^ (i + 1) * index ps (L.view m x))
        = m (j + 4) + BitVec.ofNat 32 (20 * 2 ^ i * index (p :: ps) (L.view m x)) := by
      rw [BitVec.add_assoc, ← BitVec.ofNat_add, index, Nat.pow_succ]
      congr 2
      generalize index ps (L.view m x) = q
      split <;> grind
    rw [this] at s2
    exact Reaches.head s1 s2

theorem lookup_toNat (v : W) : ∀ (cs : List (W × Nat)), (cs.map (fun c => (c.1.toNat, c.2))).lookup v.toNat = cs.lookup v
  | [] => rfl
  | ⟨c, t⟩ :: cs => by
    simp only [List.map_cons, List.lookup_cons, lookup_toNat v cs]
    by_cases e : v = c
    · simp [e]
    · have h1 : (v == c) = false := by simpa using e
      have h2 : (v.toNat == c.toNat) = false := by simpa using fun g => e (BitVec.eq_of_toNat_eq g)
      rw [h1, h2]

/-- The entry of the table that is chosen. -/
theorem jumpTargets_get {cs : List (W × Nat)} (h : cs ≠ []) {mask : W} (hm : ∀ c ∈ cs, c.1 &&& mask = c.1) {v : W} (hv : v &&& invMask cs mask = keyAnd cs) (dflt : Nat) :
    (jumpTargets cs dflt)[index (bitPlaces (keyXor cs)) v]? = some (caseOf cs dflt (v &&& mask)) := by
  have hs := inv_sum h hm hv
  have hn : (keyAnd cs).toNat + (v &&& keyXor cs).toNat = (v &&& mask).toNat := by
    rw [hs]
    rw [BitVec.toNat_add, Nat.mod_eq_of_lt]
    have hz : keyAnd cs &&& (v &&& keyXor cs) = 0 := by
      apply BitVec.eq_of_getLsbD_eq
      intro j hj
      simp only [BitVec.getLsbD_and, keyXor_bit h hj]
      cases (keyAnd cs).getLsbD j <;> simp
    have := BitVec.toNat_add_of_and_eq_zero hz
    rw [← this]
    exact BitVec.isLt _
  rw [jumpTargets, keyList_eq (bitPlaces_asc _), List.getElem?_map, List.getElem?_map, List.getElem?_range (index_lt _ _)]
  simp only [Option.map_some, sel_index, sumBits_places, hn, lookup_toNat]
  rfl

/-- **C26 (jump table).** Control goes to the case whose label equals the selected value, or to the default, and nothing else
changes; whatever is in the hidden dword, the code works again the next time. -/
theorem C26_jump {L : Layout} (hw : L.Wf) {x : Nat} (hx : L.cell x) {mask : W} {cases : List (W × Nat)} (hne : cases ≠ []) (hm : ∀ c ∈ cases, c.1 &&& mask = c.1)
    {dflt e : Nat} (h : JumpCode L x mask cases dflt e) (s : Mem) : L.Runs s e s (caseOf cases dflt (s x &&& mask)) := by
  -- the test of the common bits
  have h1 : L.Runs s e s (if s x &&& invMask cases mask = keyAnd cases then h.r else dflt) := by
    have hi := h.inv
    by_cases hz : invMask cases mask ≠ 0
    · rw [if_pos hz] at hi
      have hb := C24_branch hw hi (s := s) (fun p hp => by simp only [List.mem_singleton] at hp; subst hp; exact cMemX_ok hx _ _ _ _) (fun _ => trivial)
      simp only [holdsAll_cons, holdsAll_nil, Bool.and_true, cMemX_holds, compare] at hb
      by_cases hk : s x &&& invMask cases mask = keyAnd cases
      · simpa [hk] using hb
      · simpa [hk] using hb
    · rw [if_neg hz] at hi
      have hz : invMask cases mask = 0 := Decidable.not_not.1 hz
      have hk : keyAnd cases = 0 := by
        apply BitVec.eq_of_getLsbD_eq
        intro j hj
        have := congrArg (fun w => w.getLsbD j) hz
        simp only [invMask, BitVec.getLsbD_and, BitVec.getLsbD_or, BitVec.getLsbD_not] at this
        cases ha : (keyAnd cases).getLsbD j with
        | false => simp
        | true =>
          obtain ⟨c, hc⟩ := List.exists_mem_of_ne_nil cases hne
          have hcj : c.1.getLsbD j = true := by rw [keyAnd_bit hne] at ha; exact List.all_eq_true.1 ha c hc
          have hmj : mask.getLsbD j = true := by
            rw [← hm c hc, BitVec.getLsbD_and] at hcj
            simp at hcj
            exact hcj.2
          rw [ha, hmj] at this
          simp at this
      rw [if_pos (by rw [hz, hk]; simp), ← hi]
      exact Layout.Runs.refl _ _ _
  refine h1.trans ?_
  by_cases hk : s x &&& invMask cases mask = keyAnd cases
  · rw [if_pos hk]
    intro m hok hv
    have hpriv : L.priv (h.j + 4) := Or.inr (Or.inr (Or.inr h.hid))
    have hs := hok.prog.step_next h.rb rfl rfl trivial (fun _ => Prog.acts_next h.dat trivial)
    simp only [SBlk.exec, condsS, if_true, runS, sNext_apply] at hs
    have ho := hok.set_hid h.dat h.hm (fun r hr e => h.hr r hr (by omega)) (BitVec.ofNat 32 h.tbl)
    have hv1 : L.view (m.set (h.j + 4) (BitVec.ofNat 32 h.tbl)) = s := by rw [Layout.view_priv hpriv, hv]
    obtain ⟨m2, r2, o2, v2⟩ := h.bits.run hw hx h.hid h.dat h.hm h.hr (fun p hp => by
      simp only [bitPlaces, List.mem_filter, List.mem_range] at hp; exact hp.1) _ ho
    rw [hv1] at r2 v2
    rw [set_eq, Nat.pow_zero, Nat.mul_one, ← BitVec.ofNat_add] at r2
    have hg := jumpTargets_get hne hm hk dflt
    have hlt := (List.getElem?_eq_some_iff.1 hg).1
    obtain ⟨t1, t2⟩ := h.tab _ _ hg
    have hl := h.lt
    rw [BitVec.toNat_ofNat, Nat.mod_eq_of_lt (by omega)] at r2
    have f8 := o2.rest _ t2
    have fn := o2.rest _ t1
    have hst : step ⟨m2, h.tbl + 20 * index (bitPlaces (keyXor cases)) (s x)⟩ = some ⟨m2, caseOf cases dflt (s x &&& mask)⟩ := by
      rw [step_disabled (by rw [show h.tbl + 20 * index (bitPlaces (keyXor cases)) (s x) + 2376 = h.tbl + 20 * index (bitPlaces (keyXor cases)) (s x) + 2372 + 4 by omega, f8]; rfl), fn,
        BitVec.toNat_ofNat, Nat.mod_eq_of_lt (hw.rlt _ t1)]
    exact ⟨m2, Reaches.head hs.1 (r2.trans (Reaches.step hst)), o2, v2⟩
  · rw [if_neg hk]
    have hn := inv_none hm hk
    have : caseOf cases dflt (s x &&& mask) = dflt := by
      unfold caseOf
      rw [List.lookup_eq_none_iff.2 (fun p hp => by simpa using Ne.symm (hn p hp))]
      rfl
    rw [this]
    exact Layout.Runs.refl _ _ _

/-! ## The table in memory -/

/-- The dwords `EUDJumpBuffer.WritePayload` writes (jumptable.py:51-78); `none` where the contents do not matter (`WriteSpace`). -/
def jumpBuffer (np : List W) : List (Option W) :=
  (np.take 17).flatMap (fun n => [some n, none, none, none, some 0]) ++
  ((np.drop 17).take 101).flatMap (fun n => [some n, none, some 0, none, some 0]) ++
  (np.drop 118).flatMap (fun n => [some n, none, some 0, some 8, some 0]) ++
  ([none, none, some 0, some 8] ++ (List.range 16).flatMap (fun _ => [none, none, none, some 0, some 8]) ++
    (List.range 101).flatMap (fun _ => [none, none, none, none, some 8]))

/-- A piece of five dwords in a row of such pieces. -/
theorem flatMap5 {α β : Type} {f : α → List β} (hf : ∀ a, (f a).length = 5) : ∀ (l : List α) (i o : Nat), o < 5 → (l.flatMap f)[5 * i + o]? = l[i]?.bind (fun a => (f a)[o]?)
  | [], _, _, _ => by simp
  | a :: l, 0, o, ho => by
    rw [List.flatMap_cons, List.getElem?_append_left (by rw [hf]; omega)]
    simp
  | a :: l, i + 1, o, ho => by
    rw [List.flatMap_cons, List.getElem?_append_right (by rw [hf]; omega), hf, show 5 * (i + 1) + o - 5 = 5 * i + o by omega, flatMap5 hf l i o ho]
    simp

theorem flatMap5_length {α β : Type} {f : α → List β} (hf : ∀ a, (f a).length = 5) : ∀ (l : List α), (l.flatMap f).length = 5 * l.length
  | [] => rfl
  | a :: l => by rw [List.flatMap_cons, List.length_append, hf, flatMap5_length hf l, List.length_cons]; omega

/-- The dwords in the pieces of the table proper. -/
theorem jumpBuffer_piece (np : List W) (i o : Nat) (ho : o < 5) (hi : i < np.length) : (jumpBuffer np)[5 * i + o]? =
    ([some np[i], none, if i < 17 then none else some 0, if i < 118 then none else some 8, some 0] : List (Option W))[o]? := by
  have l1 := flatMap5_length (f := fun n : W => [some n, none, none, none, some (0 : W)]) (fun _ => rfl) (np.take 17)
  have l2 := flatMap5_length (f := fun n : W => [some n, none, some (0 : W), none, some 0]) (fun _ => rfl) ((np.drop 17).take 101)
  have l3 := flatMap5_length (f := fun n : W => [some n, none, some (0 : W), some 8, some 0]) (fun _ => rfl) (np.drop 118)
  rw [List.length_take] at l1 l2
  rw [List.length_drop] at l2 l3
  unfold jumpBuffer
  by_cases h1 : i < 17
  · rw [List.getElem?_append_left (by simp only [List.length_append]; omega), List.getElem?_append_left (by simp only [List.length_append]; omega),
      List.getElem?_append_left (by omega), flatMap5 (fun _ => rfl) _ _ _ ho, List.getElem?_take_of_lt h1, List.getElem?_eq_getElem hi]
    simp [h1, show i < 118 by omega]
  · by_cases h2 : i < 118
    · rw [List.getElem?_append_left (by simp only [List.length_append]; omega), List.getElem?_append_left (by simp only [List.length_append]; omega),
        List.getElem?_append_right (by omega), show 5 * i + o - ((np.take 17).flatMap (fun n : W => [some n, none, none, none, some (0 : W)])).length = 5 * (i - 17) + o by omega,
        flatMap5 (fun _ => rfl) _ _ _ ho, List.getElem?_take_of_lt (by omega), List.getElem?_drop, show 17 + (i - 17) = i by omega, List.getElem?_eq_getElem hi]
      simp [h1, h2]
    · rw [List.getElem?_append_left (by simp only [List.length_append]; omega), List.getElem?_append_right (by simp only [List.length_append]; omega)]
      rw [show 5 * i + o - ((np.take 17).flatMap (fun n : W => [some n, none, none, none, some (0 : W)]) ++
        ((np.drop 17).take 101).flatMap (fun n : W => [some n, none, some (0 : W), none, some 0])).length = 5 * (i - 118) + o by rw [List.length_append]; omega,
        flatMap5 (fun _ => rfl) _ _ _ ho, List.getElem?_drop, show 118 + (i - 118) = i by omega, List.getElem?_eq_getElem hi]
      simp [h1, h2]

/-- The dwords behind the table. -/
theorem jumpBuffer_tail (np : List W) (i : Nat) (h : np.length ≤ i) : (jumpBuffer np)[5 * i + 3]? = (if i < np.length + 118 then some (some 8) else none) ∧
    (i < np.length + 17 → (jumpBuffer np)[5 * i + 2]? = some (some 0)) := by
  have l1 := flatMap5_length (f := fun n : W => [some n, none, none, none, some (0 : W)]) (fun _ => rfl) (np.take 17)
  have l2 := flatMap5_length (f := fun n : W => [some n, none, some (0 : W), none, some 0]) (fun _ => rfl) ((np.drop 17).take 101)
  have l3 := flatMap5_length (f := fun n : W => [some n, none, some (0 : W), some 8, some 0]) (fun _ => rfl) (np.drop 118)
  rw [List.length_take] at l1 l2
  rw [List.length_drop] at l2 l3
  have hl : ((np.take 17).flatMap (fun n : W => [some n, none, none, none, some (0 : W)]) ++
      ((np.drop 17).take 101).flatMap (fun n : W => [some n, none, some (0 : W), none, some 0]) ++
      (np.drop 118).flatMap (fun n : W => [some n, none, some (0 : W), some 8, some 0])).length = 5 * np.length := by
    simp only [List.length_append]; omega
  obtain ⟨k, rfl⟩ : ∃ k, i = np.length + k := ⟨i - np.length, by omega⟩
  unfold jumpBuffer
  generalize hT : ([none, none, some 0, some 8] ++ (List.range 16).flatMap (fun _ => [none, none, none, some 0, some 8]) ++
    (List.range 101).flatMap (fun _ => [none, none, none, none, some 8]) : List (Option W)) = T
  rw [List.getElem?_append_right (by rw [hl]; omega), List.getElem?_append_right (by rw [hl]; omega), hl,
    show 5 * (np.length + k) + 3 - 5 * np.length = 5 * k + 3 by omega, show 5 * (np.length + k) + 2 - 5 * np.length = 5 * k + 2 by omega]
  have hlen : T.length = 589 := by rw [← hT]; decide +kernel
  have e1 : ∀ k < 118, T[5 * k + 3]? = some (some 8) := by rw [← hT]; decide +kernel
  have e2 : ∀ k < 17, T[5 * k + 2]? = some (some 0) := by rw [← hT]; decide +kernel
  constructor
  · by_cases hk : k < 118
    · rw [e1 k hk, if_pos (by omega)]
    · rw [if_neg (by omega), List.getElem?_eq_none (by omega)]
  · intro hk
    exact e2 k (by omega)

/-- Every trigger of the table, which begins 4 bytes before its next pointer, has the next pointer, no condition, no action and the flags 8. -/
theorem jumpBuffer_entry (np : List W) (i : Nat) (h : i < np.length) : (jumpBuffer np)[5 * i]? = some (some np[i]) ∧ (jumpBuffer np)[5 * i + 4]? = some (some 0) ∧
    (jumpBuffer np)[5 * i + 87]? = some (some 0) ∧ (jumpBuffer np)[5 * i + 593]? = some (some 8) := by
  refine ⟨by simpa using jumpBuffer_piece np i 0 (by omega) h, by simpa using jumpBuffer_piece np i 4 (by omega) h, ?_, ?_⟩
  · rw [show 5 * i + 87 = 5 * (i + 17) + 2 by omega]
    by_cases h1 : i + 17 < np.length
    · rw [jumpBuffer_piece np (i + 17) 2 (by omega) h1]
      simp
    · exact (jumpBuffer_tail np (i + 17) (by omega)).2 (by omega)
  · rw [show 5 * i + 593 = 5 * (i + 118) + 3 by omega]
    by_cases h1 : i + 118 < np.length
    · rw [jumpBuffer_piece np (i + 118) 3 (by omega) h1]
      simp
    · rw [(jumpBuffer_tail np (i + 118) (by omega)).1, if_pos (by omega)]

/-! ## A constant selector -/

/-- `EUDSwitch(c, mask)` with a constant (swblock.py:141-148): the constant is looked up as it is. -/
def constSwitch (cases : List (W × Nat)) (dflt : Nat) (c : Int) : Nat := ((cases.map (fun p => ((p.1.toNat : Int), p.2))).lookup c).getD dflt

/-- For constants within the mask this is right. -/
theorem C26_const (cases : List (W × Nat)) (dflt : Nat) (mask v : W) (hv : v &&& mask = v) : constSwitch cases dflt v.toNat = caseOf cases dflt (v &&& mask) := by
  unfold constSwitch caseOf
  rw [hv]
  congr 1
  induction cases with
  | nil => rfl
  | cons c cs ih =>
    obtain ⟨c, t⟩ := c
    simp only [List.map_cons, List.lookup_cons, ih]
    by_cases e : v = c
    · simp [e]
    · have h1 : (v == c) = false := by simpa using e
      have h2 : ((v.toNat : Int) == (c.toNat : Int)) = false := by
        simp only [beq_eq_false_iff_ne, ne_eq, Int.ofNat_inj]
        exact fun g => e (BitVec.eq_of_toNat_eq g)
      rw [h1, h2]

/-- **C26 is false** for constants outside the mask: `EUDSwitch(0x105, 0xFF)` does not enter case 5, and `EUDSwitch(-1)` does not enter case 0xFFFFFFFF. -/
theorem C26_counterexample_const : constSwitch [(5, 100)] 200 0x105 = 200 ∧ caseOf [(5, 100)] 200 (0x105 &&& 0xFF) = 100 ∧
    constSwitch [(0xFFFFFFFF, 100)] 200 (-1) = 200 ∧ caseOf [(0xFFFFFFFF, 100)] 200 (BitVec.ofInt 32 (-1)) = 100 := by
  decide +kernel

end Eud.SC
