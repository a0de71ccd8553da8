import Verif.Machine.Redir
import Verif.Lib.Logic
/-
`Trigger()` (src/eudplib/trigger/triggerdef.py): a trigger with any number of conditions and actions.
-/

namespace Eud.SC

/-! ## Slicing -/

/-- `[l[i : i + n + 1] for i in range(0, len(l), n + 1)]` -/
def chunks (n : Nat) (l : List α) : List (List α) :=
  if h : l = [] then [] else l.take (n + 1) :: chunks n (l.drop (n + 1))
termination_by l.length
decreasing_by
  have := List.length_pos_iff.2 h
  simp only [List.length_drop]
  omega

theorem chunks_nil (n : Nat) : chunks n ([] : List α) = [] := by rw [chunks]; simp

theorem chunks_cons (n : Nat) {l : List α} (h : l ≠ []) : chunks n l = l.take (n + 1) :: chunks n (l.drop (n + 1)) := by
  rw [chunks]; simp [h]

theorem chunks_flatten (n : Nat) (l : List α) : (chunks n l).flatten = l := by
  by_cases h : l = []
  · subst h; rw [chunks_nil]; rfl
  · rw [chunks_cons n h, List.flatten_cons, chunks_flatten n (l.drop (n + 1)), List.take_append_drop]
termination_by l.length
decreasing_by
  have := List.length_pos_iff.2 h
  simp only [List.length_drop]
  omega

/-! ## The emitted code -/

/-- The condition triggers of an extended trigger (triggerdef.py:73-92): for each group of conditions the code
that writes the variable fields into the conditions, then a trigger that goes to `cend` unless its conditions hold, in
which case it moves its own next pointer to the next group first.  The list gives the condition triggers.
The patch code comes first in line, so it runs while earlier groups are redirected. -/
inductive CondCode (L : Layout) (cend : Nat) : List (Stmt × List PC) → Nat → Nat → List Nat → Prop
  | nil (e : Nat) : CondCode L cend [] e e []
  | cons {pre : Stmt} {cs : List PC} {gs : List (Stmt × List PC)} {e t n x : Nat} {ts : List Nat}
      (hpre : ∀ d : List (Nat × Nat), (∀ p ∈ d, p.2 < 2 ^ 32) → ∃ r b k, Code (L.redir d) r b k pre e t)
      (hb : (⟨t, ⟨cs.map PC.c, [sNext t n]⟩, none, false⟩ : SBlk) ∈ L.P.blks) (hp : PlacedC (t + 8) cs)
      (hr : (t, cend) ∈ L.rest) (hn : n < 2 ^ 32) (h : CondCode L cend gs n x ts) :
      CondCode L cend ((pre, cs) :: gs) e x (t :: ts)

/-- The triggers that put the next pointers of the condition triggers back, 64 at a time (triggerdef.py:111-115). -/
inductive RevertCode (L : Layout) (cend : Nat) : List (List Nat) → Nat → Nat → Prop
  | nil (e : Nat) : RevertCode L cend [] e e
  | cons {ts : List Nat} {tss : List (List Nat)} {e n x : Nat}
      (hb : (⟨e, ⟨[], ts.map (fun t => sNext t cend)⟩, some n, false⟩ : SBlk) ∈ L.P.blks) (h : RevertCode L cend tss n x) :
      RevertCode L cend (ts :: tss) e x

/-- An extended trigger (triggerdef.py:65-115, `preserved=True`) from `e` to `x`: condition triggers, actions, revert triggers. -/
structure TriggerCode (L : Layout) (gs : List (Stmt × List PC)) (body : Stmt) (e x : Nat) where
  cend : Nat
  a : Nat
  ts : List Nat
  conds : CondCode L cend gs e a ts
  nodup : ts.Nodup
  body : ∀ d : List (Nat × Nat), (∀ p ∈ d, p.2 < 2 ^ 32) → ∃ r b k, Code (L.redir d) r b k body a cend
  revert : RevertCode L cend (chunks 63 ts) cend x
  lt : cend < 2 ^ 32

/-! ## Its meaning -/

/-- Evaluating groups of conditions from left to right, until one group does not hold. -/
inductive Conds (L : Layout) : List (Stmt × List PC) → Mem → Bool → Mem → Prop
  | nil (s : Mem) : Conds L [] s true s
  | fail {pre : Stmt} {cs : List PC} {gs : List (Stmt × List PC)} {s s1 : Mem} (h1 : Exec L pre s .nrm s1)
      (hc : ∀ p ∈ cs, p.Ok L s1) (hh : holdsAll s1 cs = false) : Conds L ((pre, cs) :: gs) s false s1
  | cons {pre : Stmt} {cs : List PC} {gs : List (Stmt × List PC)} {s s1 s2 : Mem} {b : Bool} (h1 : Exec L pre s .nrm s1)
      (hc : ∀ p ∈ cs, p.Ok L s1) (hh : holdsAll s1 cs = true) (h : Conds L gs s1 b s2) : Conds L ((pre, cs) :: gs) s b s2

theorem CondCode.moves {L : Layout} (hw : L.Wf) {cend : Nat} {gs : List (Stmt × List PC)} {s s' : Mem} {b : Bool}
    (hx : Conds L gs s b s') : ∀ {e x : Nat} {ts : List Nat}, CondCode L cend gs e x ts → ts.Nodup →
    ∀ d : List (Nat × Nat), (∀ p ∈ d, p.2 < 2 ^ 32) → (∀ p ∈ d, p.1 ∉ ts) →
    ∃ d' : List (Nat × Nat), (∀ p ∈ d', p.2 < 2 ^ 32) ∧ (∀ p ∈ d', p ∈ d ∨ p.1 ∈ ts) ∧
      (L.redir d).Moves (L.redir d') s e s' (if b then x else cend) := by
  induction hx with
  | nil s =>
    intro e x ts hc _ d hd _
    cases hc
    exact ⟨d, hd, fun p hp => Or.inl hp, (Layout.Runs.refl _ _ _).moves⟩
  | @fail pre cs gs s s1 h1 hc hh =>
    intro e x ts hcode hnd d hd hdt
    cases hcode with
    | @cons _ _ _ _ t n _ ts hpre hb hp hr hn h =>
      refine ⟨d, hd, fun p hp => Or.inl hp, ?_⟩
      obtain ⟨r, b, k, hcd⟩ := hpre d hd
      have hwd := hw.redir hd
      refine (C25_structured hwd (h1.redir d) hcd).moves.trans ?_
      intro m hm hv
      obtain ⟨e1, e2⟩ := hp.spec (L := L.redir d) (s := s1)
      have hl : d.lookup t = none := by
        cases hl : d.lookup t with
        | none => rfl
        | some y => exact absurd (by simp) (hdt _ (List.lookup_mem hl))
      have hrd : (t, cend) ∈ (L.redir d).rest := by
        have := Layout.redir_mem' (d := d) hr
        simpa [hl] using this
      have := Layout.Ok.br (as := []) hwd hm hb hrd hn (by rw [hv]; exact e2 (fun p hp => (hc p hp).redir d))
        (fun _ => trivial) (fun _ => by simp only [runS, set_eq])
      rw [hv, e1, hh, if_neg (by simp)] at this
      exact ⟨m, Reaches.step this, hm, hv⟩
  | @cons pre cs gs s s1 s2 b h1 hc hh h ih =>
    intro e x ts hcode hnd d hd hdt
    cases hcode with
    | @cons _ _ _ _ t n _ ts hpre hb hp hr hn h' =>
      simp only [List.nodup_cons] at hnd
      obtain ⟨d', hd', hsub, hmv⟩ := ih h' hnd.2 ((t, n) :: d)
        (by intro p hp; simp only [List.mem_cons] at hp; exact hp.elim (fun e => e ▸ hn) (hd p))
        (by
          intro p hp
          simp only [List.mem_cons] at hp
          rcases hp with rfl | hp
          · exact hnd.1
          · exact fun g => hdt p hp (List.mem_cons_of_mem _ g))
      refine ⟨d', hd', ?_, ?_⟩
      · intro p hp
        rcases hsub p hp with h | h
        · simp only [List.mem_cons] at h
          rcases h with rfl | h
          · exact Or.inr (by simp)
          · exact Or.inl h
        · exact Or.inr (List.mem_cons_of_mem _ h)
      · obtain ⟨r, b, k, hcd⟩ := hpre d hd
        have hwd := hw.redir hd
        refine (C25_structured hwd (h1.redir d) hcd).moves.trans (Layout.Moves.trans ?_ hmv)
        intro m hm hv
        obtain ⟨e1, e2⟩ := hp.spec (L := L.redir d) (s := s1)
        have hl : d.lookup t = none := by
          cases hl : d.lookup t with
          | none => rfl
          | some y => exact absurd (by simp) (hdt _ (List.lookup_mem hl))
        have hrd : (t, cend) ∈ (L.redir d).rest := by
          have := Layout.redir_mem' (d := d) hr
          simpa [hl] using this
        have := Layout.Ok.br (as := []) hwd hm hb hrd hn (by rw [hv]; exact e2 (fun p hp => (hc p hp).redir d))
          (fun _ => trivial) (fun _ => by simp only [runS, set_eq])
        rw [hv, e1, hh, if_pos rfl] at this
        refine ⟨_, Reaches.step this.1, hm.redir_set hw hr n, ?_⟩
        simp only [runS]
        rw [Layout.redir_view, Layout.view_priv (Layout.Wf.privR hr), ← hv, Layout.redir_view]

/-- Reverting moves the redirected next pointers back. -/
theorem revert_acts {L : Layout} (hw : L.Wf) {cend : Nat} : ∀ (ts : List Nat) (x : Nat) (d : List (Nat × Nat)) (m : Mem),
    (∀ t ∈ ts, (t, cend) ∈ L.rest) → (L.redir d).Ok m →
    L.P.Acts (ts.map (fun t => sNext t cend)) x m ∧
      (L.redir ((ts.map (fun t => (t, cend))).reverse ++ d)).Ok (runS (ts.map (fun t => sNext t cend)) x m) ∧
      L.view (runS (ts.map (fun t => sNext t cend)) x m) = L.view m
  | [], _, _, _, _, h => ⟨trivial, h, rfl⟩
  | t :: ts, x, d, m, ht, h => by
    have hr := ht t (by simp)
    obtain ⟨i1, i2, i3⟩ := revert_acts hw ts (x + 32) ((t, cend) :: d) (m.set (t + 4) (BitVec.ofNat 32 cend))
      (fun u hu => ht u (List.mem_cons_of_mem _ hu)) (h.redir_set hw hr cend)
    refine ⟨Prog.acts_next (hw.rdat _ hr) i1, ?_, ?_⟩
    · simpa only [List.map_cons, runS, sNext_apply, List.reverse_cons, List.append_assoc, List.singleton_append] using i2
    · simp only [List.map_cons, runS, sNext_apply]
      rw [i3, Layout.view_priv (Layout.Wf.privR hr)]

theorem RevertCode.moves {L : Layout} (hw : L.Wf) {cend : Nat} {tss : List (List Nat)} {e x : Nat}
    (h : RevertCode L cend tss e x) (ht : ∀ ts ∈ tss, ∀ t ∈ ts, (t, cend) ∈ L.rest) (s : Mem) : ∀ d : List (Nat × Nat),
    (L.redir d).Moves (L.redir ((tss.flatten.map (fun t => (t, cend))).reverse ++ d)) s e s x := by
  induction h with
  | nil e => intro d; exact (Layout.Runs.refl _ _ _).moves
  | @cons ts tss e n x hb h ih =>
    intro d
    have i := ih (fun ts hts => ht ts (by simp [hts])) ((ts.map (fun t => (t, cend))).reverse ++ d)
    rw [List.flatten_cons, List.map_append, List.reverse_append, List.append_assoc]
    refine Layout.Moves.trans ?_ i
    intro m hm hv
    obtain ⟨a1, a2, a3⟩ := revert_acts hw ts (e + 328) d m (ht ts (by simp)) hm
    have hs := hm.prog.step_next hb rfl rfl trivial (fun _ => a1)
    simp only [SBlk.exec, condsS, if_true] at hs
    exact ⟨_, Reaches.step hs.1, a2, by rw [Layout.redir_view, a3, ← hv, Layout.redir_view]⟩

theorem CondCode.rest {L : Layout} {cend : Nat} {gs : List (Stmt × List PC)} {e x : Nat} {ts : List Nat}
    (h : CondCode L cend gs e x ts) : ∀ t ∈ ts, (t, cend) ∈ L.rest := by
  induction h with
  | nil e => simp
  | cons hpre hb hp hr hn h ih =>
    intro t ht
    simp only [List.mem_cons] at ht
    rcases ht with rfl | ht
    · exact hr
    · exact ih t ht

/-- **C29 (extended triggers).** With any number of conditions and actions, whose fields may come from variables,
the actions happen if and only if all groups of conditions hold, and afterwards the triggers are as they were before. -/
theorem C29_extended {L : Layout} (hw : L.Wf) {gs : List (Stmt × List PC)} {body : Stmt} {e x : Nat}
    (hT : TriggerCode L gs body e x) {s s1 s2 : Mem} {b : Bool} (hc : Conds L gs s b s1)
    (hb : b = true → Exec L body s1 .nrm s2) (hn : b = false → s2 = s1) : L.Runs s e s2 x := by
  obtain ⟨d, hd, hsub, hmv⟩ := hT.conds.moves hw hc hT.nodup [] (by simp) (by simp)
  rw [Layout.redir_nil] at hmv
  have hts := hT.conds.rest
  have hbody : (L.redir d).Moves (L.redir d) s1 (if b then hT.a else hT.cend) s2 hT.cend := by
    cases b with
    | true =>
      obtain ⟨r, b, k, hcd⟩ := hT.body d hd
      exact C25_structured (hw.redir hd) ((hb rfl).redir d) hcd
    | false =>
      rw [hn rfl]
      exact Layout.Runs.refl _ _ _
  have hrev := hT.revert.moves hw (fun ts h t ht => hts t (by
    rw [← chunks_flatten 63 hT.ts]
    exact List.mem_flatten.2 ⟨ts, h, ht⟩)) s2 d
  rw [chunks_flatten] at hrev
  have hsame : L.redir ((hT.ts.map (fun t => (t, hT.cend))).reverse ++ d) = L := by
    apply Layout.redir_same hw
    intro t y hl
    rw [List.lookup_append] at hl
    cases h1 : ((hT.ts.map (fun t => (t, hT.cend))).reverse).lookup t with
    | some z =>
      rw [h1] at hl
      simp only [Option.some_or, Option.some.injEq] at hl
      subst hl
      have := List.lookup_mem h1
      simp only [List.mem_reverse, List.mem_map, Prod.mk.injEq] at this
      obtain ⟨u, hu, rfl, rfl⟩ := this
      exact hts u hu
    | none =>
      rw [h1, Option.none_or] at hl
      have hm := List.lookup_mem hl
      rcases hsub _ hm with h | h
      · simp at h
      · rw [List.lookup_eq_none_iff] at h1
        have := h1 (t, hT.cend) (by simp [h])
        simp at this
  rw [hsame] at hrev
  exact (hmv.trans (hbody.trans hrev)).runs

/-! ## Triggers whose fields are constants -/

theorem runPA_append (as bs : List PA) (s : Mem) : runPA (as ++ bs) s = runPA bs (runPA as s) := by
  simp [runPA, List.foldl_append]

theorem ActsOk.append {L : Layout} : ∀ {as bs : List PA} {s : Mem},
    ActsOk L (as ++ bs) s ↔ ActsOk L as s ∧ ActsOk L bs (runPA as s)
  | [], bs, s => by simp [ActsOk, runPA]
  | a :: as, bs, s => by
    simp only [List.cons_append, ActsOk, ActsOk.append (as := as), runPA, List.foldl_cons, and_assoc]

/-- `Trigger(cs, as)` from `e` to `x`: a plain trigger if it fits (triggerdef.py:50-63), else an extended one. -/
inductive TriggerAt (L : Layout) (cs : List PC) (as : List PA) : Nat → Nat → Prop
  | plain {e x : Nat} (hc : cs.length ≤ 16) (ha : as.length ≤ 64) (pc : PlacedC (e + 8) cs) (pa : PlacedA (e + 328) as)
      (hb : (⟨e, ⟨cs.map PC.c, as.map PA.a⟩, some x, false⟩ : SBlk) ∈ L.P.blks) : TriggerAt L cs as e x
  | ext {e x : Nat} (hl : 16 < cs.length ∨ 64 < as.length)
      (h : TriggerCode L ((chunks 15 cs).map (fun c => (.skip, c))) (.seqs ((chunks 63 as).map (.trig []))) e x) :
      TriggerAt L cs as e x

theorem Conds.const {L : Layout} {s : Mem} : ∀ {gs : List (List PC)}, (∀ p ∈ gs.flatten, p.Ok L s) →
    Conds L (gs.map (fun c => (.skip, c))) s (holdsAll s gs.flatten) s
  | [], _ => Conds.nil s
  | g :: gs, h => by
    simp only [List.flatten_cons, holdsAll_append, List.map_cons]
    cases hg : holdsAll s g with
    | false => exact .fail (.skip s) (fun p hp => h p (by simp [hp])) hg
    | true =>
      rw [Bool.true_and]
      exact .cons (.skip s) (fun p hp => h p (by simp [hp])) hg
        (Conds.const (gs := gs) (fun p hp => h p (by rw [List.flatten_cons]; exact List.mem_append_right _ hp)))

theorem Exec.chunked {L : Layout} : ∀ {gs : List (List PA)} {s : Mem}, ActsOk L gs.flatten s →
    Exec L (.seqs (gs.map (.trig []))) s .nrm (runPA gs.flatten s)
  | [], s, _ => .skip s
  | g :: gs, s, h => by
    rw [List.flatten_cons] at h ⊢
    rw [runPA_append]
    obtain ⟨h1, h2⟩ := ActsOk.append.1 h
    exact .seqN (Exec.acts h1) (Exec.chunked h2)

/-- **C29.** `Trigger(cs, as)` performs all actions, in order, exactly when all conditions hold, and can be executed again. -/
theorem C29_trigger {L : Layout} (hw : L.Wf) {cs : List PC} {as : List PA} {e x : Nat} (hT : TriggerAt L cs as e x) {s : Mem}
    (hc : ∀ p ∈ cs, p.Ok L s) (ha : holdsAll s cs = true → ActsOk L as s) :
    L.Runs s e (if holdsAll s cs then runPA as s else s) x := by
  cases hT with
  | plain _ _ pc pa hb =>
    have : Code L 0 0 0 (.trig cs as) e x := .trig pc pa hb
    exact C25_structured hw (.trig hc ha) this
  | ext hl h =>
    have hcs := Conds.const (L := L) (s := s) (gs := chunks 15 cs) (by rw [chunks_flatten]; exact hc)
    rw [chunks_flatten] at hcs
    refine C29_extended hw h hcs ?_ ?_
    · intro hh
      rw [if_pos hh]
      have := Exec.chunked (L := L) (gs := chunks 63 as) (s := s) (by rw [chunks_flatten]; exact ha hh)
      rwa [chunks_flatten] at this
    · intro hh
      rw [hh]
      rfl

end Eud.SC
