import Verif.Build.Blocks
/-
C08: trigger scopes and successors (core/rawtrigger/triggerscope.py, rawtriggerdef.py).
-/

namespace Eud.Scope
open Eud.Blocks

/-- What a label or a `nextptr` can be. -/
inductive Tgt
  | trig (n : Nat)
  | ext (x : Nat)
  | zero
  deriving DecidableEq

/-- Compiler state.  `saved`: the managers put aside by `set_blockstru_manager` while function bodies are compiled
(eudfuncn.py:92-128), innermost first.  The user data of a trigger scope is its number, `pend` its `nexttrigger_list`.
`val`: what the forwards were set to.  `succ`: the `nextptr` of the triggers, a forward or an explicit one. -/
structure St where
  cur : Bsm Nat
  saved : List (Bsm Nat)
  pend : Nat → List Nat
  val : Nat → Option Tgt
  succ : Nat → Option (Nat ⊕ Tgt)
  nScope : Nat
  nFwd : Nat
  nTrig : Nat

def St.init : St := ⟨Bsm.empty, [], fun _ => [], fun _ => none, fun _ => none, 0, 0, 0⟩

/-- `push`/`pop`: `PushTriggerScope`/`PopTriggerScope`; `opn`/`cls`: control blocks of other names; `enter`/`leave`: beginning and end
of a function body (a new block manager); `trig x`: `RawTrigger(nextptr=x)`; `label`: `NextTrigger()`; `setNext`: `SetNextTrigger(x)`. -/
inductive Op
  | push
  | pop
  | opn (n : String)
  | cls (n : String)
  | enter
  | leave
  | trig (next : Option Nat)
  | label
  | setNext (x : Nat)

def ts : String := "triggerscope"

/-- `for fw in nt_list: fw << trg`; setting a forward that is set raises (constexpr.rs:251-273). -/
def fill (val : Nat → Option Tgt) (t : Tgt) : List Nat → Option (Nat → Option Tgt)
  | [] => some val
  | f :: l => if (val f).isSome then none else fill (fun k => if k = f then some t else val k) t l

/-- The current scope: `EUDGetLastBlockOfName("triggerscope")`. -/
def St.scope (s : St) : Option Nat := (s.cur.lastOf ts).map Prod.snd

/-- triggerscope.py:22-27 `SetNextTrigger` -/
def St.setNext (s : St) (t : Tgt) : Option St :=
  s.scope.bind fun c => (fill s.val t (s.pend c)).map fun v =>
    { s with val := v, pend := fun k => if k = c then [] else s.pend k }

/-- triggerscope.py:30-34 `NextTrigger`; the forward returned is number `s.nFwd`. -/
def St.label (s : St) : Option St :=
  s.scope.map fun c => { s with pend := fun k => if k = c then s.pend c ++ [s.nFwd] else s.pend k, nFwd := s.nFwd + 1 }

/-- One operation; `none` is an exception.  `push`: triggerscope.py:17-19; `pop`: 41-44 (the list of a closed scope is unreachable
and is cleared here); `trig`: rawtriggerdef.py:182-196, registration first, then the successor. -/
def St.step (s : St) : Op → Option St
  | .push => some { s with cur := s.cur.create ts s.nScope, nScope := s.nScope + 1,
                           pend := fun k => if k = s.nScope then [] else s.pend k }
  | .pop => match s.cur.pop ts with
    | (some (_, c), b) => (fill s.val .zero (s.pend c)).map fun v =>
        { s with cur := b, val := v, pend := fun k => if k = c then [] else s.pend k }
    | (none, _) => none
  | .opn n => if n = ts then none else some { s with cur := s.cur.create n 0 }
  | .cls n => if n = ts then none else match s.cur.pop n with
    | (some _, b) => some { s with cur := b }
    | (none, _) => none
  | .enter => some { s with cur := Bsm.empty, saved := s.cur :: s.saved }
  | .leave => match s.cur.stru, s.saved with
    | [], b :: r => some { s with cur := b, saved := r }
    | _, _ => none
  | .label => s.label
  | .setNext x => s.setNext (.ext x)
  | .trig (some x) => (s.setNext (.trig s.nTrig)).map fun s =>
      { s with succ := fun k => if k = s.nTrig then some (.inr (.ext x)) else s.succ k, nTrig := s.nTrig + 1 }
  | .trig none => (s.setNext (.trig s.nTrig)).bind fun s => s.label.map fun s' =>
      { s' with succ := fun k => if k = s.nTrig then some (.inl s.nFwd) else s.succ k, nTrig := s.nTrig + 1 }

def St.run (s : St) : List Op → Option St
  | [] => some s
  | o :: w => (s.step o).bind fun s => s.run w

/-- Where trigger `t` continues. -/
def St.next (s : St) (t : Nat) : Option Tgt := (s.succ t).bind fun
  | .inl f => s.val f
  | .inr t => some t

/-! ## Specification -/

/-- Triggers created by a history. -/
def trigs : List Op → Nat
  | [] => 0
  | .trig _ :: w => trigs w + 1
  | _ :: w => trigs w
/-- Labels created by a history, including the successors left open by triggers. -/
def fwds : List Op → Nat
  | [] => 0
  | .trig none :: w => fwds w + 1
  | .label :: w => fwds w + 1
  | _ :: w => fwds w

/-- Nothing is created in the scope the history starts in, only in the scopes it opens itself, and it ends in the scope it started
in; `d` is the number of scopes opened. -/
def quiet : Nat → List Op → Bool
  | d, [] => d == 0
  | d, .push :: w => quiet (d + 1) w
  | 0, .pop :: _ => false
  | d + 1, .pop :: w => quiet d w
  | d, .trig _ :: w => (d != 0) && quiet d w
  | d, .setNext _ :: w => (d != 0) && quiet d w
  | d, _ :: w => quiet d w

/-- What ends a wait: the next trigger, number `k`; an explicit successor; the end of the scope. -/
def target (k : Nat) : Op → Option Tgt
  | .trig _ => some (.trig k)
  | .setNext x => some (.ext x)
  | .pop => some .zero
  | _ => none

/-! ## Invariant -/

def scopesOf (b : Bsm Nat) : List Nat := (b.last ts).map Prod.snd
def St.scopes (s : St) : List Nat := scopesOf s.cur ++ s.saved.flatMap scopesOf

structure Good (s : St) : Prop where
  cur : Inv s.cur
  saved : ∀ b ∈ s.saved, Inv b
  lt : ∀ c ∈ s.scopes, c < s.nScope
  nodup : s.scopes.Nodup
  plt : ∀ c, ∀ f ∈ s.pend c, f < s.nFwd
  pnd : ∀ c, (s.pend c).Nodup
  punset : ∀ c, ∀ f ∈ s.pend c, s.val f = none
  pdisj : ∀ c c', c ≠ c' → ∀ f ∈ s.pend c, f ∉ s.pend c'
  vfresh : ∀ f, s.nFwd ≤ f → s.val f = none
  sfresh : ∀ t, s.nTrig ≤ t → s.succ t = none

theorem Good.init : Good St.init := by
  refine ⟨Inv.empty, ?_, ?_, ?_, ?_, ?_, ?_, ?_, ?_, ?_⟩ <;> simp [St.init, St.scopes, scopesOf, Bsm.empty]

theorem scope_head {s : St} {c : Nat} (h : s.scope = some c) : ∃ r, s.scopes = c :: r := by
  unfold St.scope Bsm.lastOf at h
  simp only [St.scopes, scopesOf]
  cases hl : s.cur.last ts with
  | nil => rw [hl] at h; simp at h
  | cons a l => rw [hl] at h; simp at h; exact ⟨_, by rw [List.map_cons, List.cons_append, h]⟩

theorem fill_spec {t : Tgt} : ∀ {l : List Nat} {v v' : Nat → Option Tgt}, fill v t l = some v' →
    (∀ f, f ∉ l → v' f = v f) ∧ (∀ f ∈ l, v' f = some t ∧ v f = none)
  | [], v, v', h => by cases h; simp
  | f :: l, v, v', h => by
    unfold fill at h
    split at h
    · simp at h
    · rename_i hf
      obtain ⟨h1, h2⟩ := fill_spec h
      refine ⟨fun g hg => ?_, fun g hg => ?_⟩
      · simp only [List.mem_cons, not_or] at hg
        rw [h1 g hg.2]; simp [hg.1]
      · by_cases hl : g ∈ l
        · obtain ⟨k1, k2⟩ := h2 g hl
          refine ⟨k1, ?_⟩
          by_cases hgf : g = f
          · subst hgf; simp at k2
          · simpa [hgf] using k2
        · simp only [List.mem_cons] at hg
          rcases hg with rfl | hg
          · rw [h1 g hl]; simp at hf; simp [hf]
          · exact absurd hg hl

theorem fill_ok {t : Tgt} : ∀ {l : List Nat} {v : Nat → Option Tgt}, l.Nodup → (∀ f ∈ l, v f = none) → ∃ v', fill v t l = some v'
  | [], v, _, _ => ⟨v, rfl⟩
  | f :: l, v, hn, hv => by
    simp only [List.nodup_cons] at hn
    unfold fill
    rw [hv f (by simp)]
    simp only [Option.isSome_none, Bool.false_eq_true, if_false]
    refine fill_ok hn.2 (fun g hg => ?_)
    have : g ≠ f := fun e => hn.1 (e ▸ hg)
    simp [this, hv g (by simp [hg])]

/-- Common part of `SetNextTrigger` and `PopTriggerScope`. -/
theorem Good.fillAt {s : St} (h : Good s) {c : Nat} {t : Tgt} {v : Nat → Option Tgt} (hf : fill s.val t (s.pend c) = some v) :
    Good { s with val := v, pend := fun k => if k = c then [] else s.pend k } := by
  obtain ⟨h1, h2⟩ := fill_spec hf
  refine ⟨h.cur, h.saved, h.lt, h.nodup, ?_, ?_, ?_, ?_, ?_, h.sfresh⟩
  · intro k f hk
    by_cases e : k = c
    · simp [e] at hk
    · simp only [e, if_false] at hk; exact h.plt k f hk
  · intro k
    by_cases e : k = c
    · simp [e]
    · simp only [e, if_false]; exact h.pnd k
  · intro k f hk
    by_cases e : k = c
    · simp [e] at hk
    · simp only [e, if_false] at hk
      show v f = none
      rw [h1 f (h.pdisj k c e f hk)]
      exact h.punset k f hk
  · intro k k' hkk f hk
    by_cases e : k = c
    · simp [e] at hk
    · simp only [e, if_false] at hk
      by_cases e' : k' = c
      · simp [e']
      · simp only [e', if_false]; exact h.pdisj k k' hkk f hk
  · intro f hf'
    show v f = none
    rw [h1 f (fun hc => absurd (h.plt c f hc) (Nat.not_lt.2 hf'))]
    exact h.vfresh f hf'

theorem Good.label {s s' : St} (h : Good s) (hl : s.label = some s') : Good s' := by
  obtain ⟨c, hc, rfl⟩ := Option.map_eq_some_iff.1 hl
  refine ⟨h.cur, h.saved, h.lt, h.nodup, ?_, ?_, ?_, ?_, ?_, h.sfresh⟩
  · intro k f hk
    by_cases e : k = c
    · simp only [e, if_true, List.mem_append, List.mem_singleton] at hk
      rcases hk with hk | rfl
      · exact Nat.lt_succ_of_lt (h.plt c f hk)
      · exact Nat.lt_succ_self _
    · simp only [e, if_false] at hk
      exact Nat.lt_succ_of_lt (h.plt k f hk)
  · intro k
    by_cases e : k = c
    · simp only [e, if_true]
      rw [List.nodup_append]
      refine ⟨h.pnd c, by simp, ?_⟩
      intro a ha b hb
      simp only [List.mem_singleton] at hb
      subst hb
      exact Nat.ne_of_lt (h.plt c a ha)
    · simp only [e, if_false]; exact h.pnd k
  · intro k f hk
    by_cases e : k = c
    · simp only [e, if_true, List.mem_append, List.mem_singleton] at hk
      rcases hk with hk | rfl
      · exact h.punset c f hk
      · exact h.vfresh _ (Nat.le_refl _)
    · simp only [e, if_false] at hk; exact h.punset k f hk
  · intro k k' hkk f hk
    by_cases e : k = c
    · subst e
      simp only [if_true, List.mem_append, List.mem_singleton] at hk
      simp only [Ne.symm hkk, if_false]
      rcases hk with hk | rfl
      · exact h.pdisj k k' hkk f hk
      · exact fun hx => Nat.lt_irrefl _ (h.plt k' _ hx)
    · simp only [e, if_false] at hk
      by_cases e' : k' = c
      · subst e'
        simp only [if_true, List.mem_append, List.mem_singleton, not_or]
        exact ⟨h.pdisj k k' hkk f hk, fun hx => Nat.lt_irrefl _ (hx ▸ h.plt k f hk)⟩
      · simp only [e', if_false]; exact h.pdisj k k' hkk f hk
  · intro f hf
    exact h.vfresh f (Nat.le_of_succ_le hf)

theorem setNext_inv {s s' : St} {t : Tgt} (hs : s.setNext t = some s') : ∃ c v, s.scope = some c ∧
    fill s.val t (s.pend c) = some v ∧ s' = { s with val := v, pend := fun k => if k = c then [] else s.pend k } := by
  obtain ⟨c, hc, h1⟩ := Option.bind_eq_some_iff.1 hs
  obtain ⟨v, hv, rfl⟩ := Option.map_eq_some_iff.1 h1
  exact ⟨c, v, hc, hv, rfl⟩

theorem scopesOf_create_ts (b : Bsm Nat) (d : Nat) : scopesOf (b.create ts d) = d :: scopesOf b := by
  simp [scopesOf, Bsm.create]
theorem scopesOf_create {b : Bsm Nat} {n : String} (hn : n ≠ ts) (d : Nat) : scopesOf (b.create n d) = scopesOf b := by
  simp [scopesOf, Bsm.create, Ne.symm hn]
theorem scopesOf_pop_ts {b b' : Bsm Nat} {m : String} {c : Nat} (h : Inv b) (hp : b.pop ts = (some (m, c), b')) :
    scopesOf b = c :: scopesOf b' := by
  obtain ⟨h1, h2, h3⟩ := h.pop hp
  simp only [scopesOf, h ts, h1 ts, h2]
  simp only at h3
  subst h3
  simp
theorem scopesOf_pop {b b' : Bsm Nat} {n : String} {t : String × Nat} (hn : n ≠ ts) (h : Inv b) (hp : b.pop n = (some t, b')) :
    scopesOf b = scopesOf b' := by
  obtain ⟨h1, h2, h3⟩ := h.pop hp
  simp only [scopesOf, h ts, h1 ts, h2]
  simp [h3, hn]

theorem Good.step {s s' : St} (h : Good s) {o : Op} (hs : s.step o = some s') : Good s' := by
  cases o with
  | push =>
    cases hs
    have hsc : ∀ p : Nat → List Nat, ({ s with cur := s.cur.create ts s.nScope, nScope := s.nScope + 1, pend := p } : St).scopes =
        s.nScope :: s.scopes := by
      intro p
      simp only [St.scopes, scopesOf_create_ts, List.cons_append]
    refine ⟨h.cur.create _ _, h.saved, ?_, ?_, ?_, ?_, ?_, ?_, h.vfresh, h.sfresh⟩
    · rw [hsc]
      intro c hc
      simp only [List.mem_cons] at hc
      rcases hc with rfl | hc
      · exact Nat.lt_succ_self _
      · exact Nat.lt_succ_of_lt (h.lt c hc)
    · rw [hsc]
      simp only [List.nodup_cons]
      exact ⟨fun hx => Nat.lt_irrefl _ (h.lt _ hx), h.nodup⟩
    · intro k f hk
      by_cases e : k = s.nScope
      · simp [e] at hk
      · simp only [e, if_false] at hk; exact h.plt k f hk
    · intro k
      by_cases e : k = s.nScope
      · simp [e]
      · simp only [e, if_false]; exact h.pnd k
    · intro k f hk
      by_cases e : k = s.nScope
      · simp [e] at hk
      · simp only [e, if_false] at hk; exact h.punset k f hk
    · intro k k' hkk f hk
      by_cases e : k = s.nScope
      · simp [e] at hk
      · simp only [e, if_false] at hk
        by_cases e' : k' = s.nScope
        · simp [e']
        · simp only [e', if_false]; exact h.pdisj k k' hkk f hk
  | pop =>
    simp only [St.step] at hs
    split at hs
    · rename_i n c b hp
      obtain ⟨v, hv, rfl⟩ := Option.map_eq_some_iff.1 hs
      have hg := h.fillAt hv
      have hsc : s.scopes = c :: (scopesOf b ++ s.saved.flatMap scopesOf) := by
        simp only [St.scopes, scopesOf_pop_ts h.cur hp, List.cons_append]
      have hlt := h.lt
      have hnd := h.nodup
      rw [hsc] at hlt hnd
      refine ⟨(h.cur.pop hp).1, h.saved, fun k hk => hlt k (List.mem_cons_of_mem _ hk), (List.nodup_cons.1 hnd).2, hg.plt, hg.pnd, hg.punset, hg.pdisj,
        hg.vfresh, hg.sfresh⟩
    · simp at hs
  | opn n =>
    simp only [St.step] at hs
    split at hs
    · simp at hs
    · rename_i hn
      cases hs
      have hsc : ({ s with cur := s.cur.create n 0 } : St).scopes = s.scopes := by
        simp only [St.scopes, scopesOf_create hn]
      exact ⟨h.cur.create _ _, h.saved, by rw [hsc]; exact h.lt, by rw [hsc]; exact h.nodup, h.plt, h.pnd, h.punset, h.pdisj, h.vfresh,
        h.sfresh⟩
  | cls n =>
    simp only [St.step] at hs
    split at hs
    · simp at hs
    · rename_i hn
      split at hs
      · rename_i t b hp
        cases hs
        have hsc : ({ s with cur := b } : St).scopes = s.scopes := by
          simp only [St.scopes, scopesOf_pop hn h.cur hp]
        exact ⟨(h.cur.pop hp).1, h.saved, by rw [hsc]; exact h.lt, by rw [hsc]; exact h.nodup, h.plt, h.pnd, h.punset, h.pdisj, h.vfresh,
          h.sfresh⟩
      · simp at hs
  | enter =>
    cases hs
    have hsc : ({ s with cur := Bsm.empty, saved := s.cur :: s.saved } : St).scopes = s.scopes := by
      simp [St.scopes, scopesOf, Bsm.empty]
    refine ⟨Inv.empty, ?_, by rw [hsc]; exact h.lt, by rw [hsc]; exact h.nodup, h.plt, h.pnd, h.punset, h.pdisj, h.vfresh,
        h.sfresh⟩
    intro b hb
    rcases List.mem_cons.1 hb with rfl | hb
    · exact h.cur
    · exact h.saved b hb
  | leave =>
    simp only [St.step] at hs
    split at hs
    · rename_i b r hc hb
      cases hs
      have hsc : ({ s with cur := b, saved := r } : St).scopes = s.scopes := by
        have : scopesOf s.cur = [] := by simp [scopesOf, h.cur ts, hc]
        simp only [St.scopes, hb, this, List.flatMap_cons, List.nil_append]
      exact ⟨h.saved b (by simp [hb]), fun x hx => h.saved x (by simp [hb, hx]), by rw [hsc]; exact h.lt, by rw [hsc]; exact h.nodup, h.plt, h.pnd,
        h.punset, h.pdisj, h.vfresh, h.sfresh⟩
    · simp at hs
  | label => exact h.label hs
  | setNext x =>
    obtain ⟨c, v, hc, hv, rfl⟩ := setNext_inv hs
    exact h.fillAt hv
  | trig x =>
    cases x with
    | some x =>
      obtain ⟨s1, hs1, rfl⟩ := Option.map_eq_some_iff.1 hs
      obtain ⟨c, v, hc, hv, rfl⟩ := setNext_inv hs1
      have hg := h.fillAt hv
      refine ⟨hg.cur, hg.saved, hg.lt, hg.nodup, hg.plt, hg.pnd, hg.punset, hg.pdisj, hg.vfresh, ?_⟩
      intro t ht
      have : t ≠ s.nTrig := by simp only at ht; omega
      simp only [this, if_false]
      exact h.sfresh t (by simp only at ht; omega)
    | none =>
      obtain ⟨s1, hs1, hs2⟩ := Option.bind_eq_some_iff.1 hs
      obtain ⟨s2, hs3, rfl⟩ := Option.map_eq_some_iff.1 hs2
      obtain ⟨c, v, hc, hv, rfl⟩ := setNext_inv hs1
      have hg := (h.fillAt hv).label hs3
      refine ⟨hg.cur, hg.saved, hg.lt, hg.nodup, hg.plt, hg.pnd, hg.punset, hg.pdisj, hg.vfresh, ?_⟩
      intro t ht
      have : t ≠ s.nTrig := by simp only at ht; omega
      simp only [this, if_false]
      exact h.sfresh t (by simp only at ht; omega)

theorem run_append (s : St) : ∀ (u v : List Op), s.run (u ++ v) = (s.run u).bind (fun s => s.run v)
  | [], v => rfl
  | o :: u, v => by
    simp only [List.cons_append, St.run]
    cases s.step o with
    | none => rfl
    | some s1 => simp only [Option.bind_some]; exact run_append s1 u v

theorem Good.run {s s' : St} (h : Good s) : ∀ {w : List Op}, s.run w = some s' → Good s' := by
  intro w
  induction w generalizing s with
  | nil => intro hr; cases hr; exact h
  | cons o w ih =>
    intro hr
    obtain ⟨s1, h1, h2⟩ := Option.bind_eq_some_iff.1 hr
    exact ih (h.step h1) h2

/-! ## Counting, and that what is set stays set -/

theorem label_frame {s s' : St} (hl : s.label = some s') :
    s'.nTrig = s.nTrig ∧ s'.nFwd = s.nFwd + 1 ∧ s'.val = s.val ∧ s'.succ = s.succ ∧ s'.scopes = s.scopes ∧ s'.nScope = s.nScope := by
  obtain ⟨c, hc, rfl⟩ := Option.map_eq_some_iff.1 hl
  exact ⟨rfl, rfl, rfl, rfl, rfl, rfl⟩

theorem step_count {s s' : St} {o : Op} (hs : s.step o = some s') :
    s'.nTrig = s.nTrig + trigs [o] ∧ s'.nFwd = s.nFwd + fwds [o] ∧
    (∀ f x, s.val f = some x → s'.val f = some x) ∧ (∀ t, t < s.nTrig → s'.succ t = s.succ t) := by
  have hfill : ∀ {t : Tgt} {l : List Nat} {v : Nat → Option Tgt}, fill s.val t l = some v → ∀ f x, s.val f = some x → v f = some x := by
    intro t l v hv f x hx
    obtain ⟨h1, h2⟩ := fill_spec hv
    by_cases hf : f ∈ l
    · rw [(h2 f hf).2] at hx; simp at hx
    · rw [h1 f hf]; exact hx
  cases o with
  | push => cases hs; exact ⟨rfl, rfl, fun _ _ h => h, fun _ _ => rfl⟩
  | pop =>
    simp only [St.step] at hs
    split at hs
    · obtain ⟨v, hv, rfl⟩ := Option.map_eq_some_iff.1 hs
      exact ⟨rfl, rfl, hfill hv, fun _ _ => rfl⟩
    · simp at hs
  | opn n =>
    simp only [St.step] at hs
    split at hs
    · simp at hs
    · cases hs; exact ⟨rfl, rfl, fun _ _ h => h, fun _ _ => rfl⟩
  | cls n =>
    simp only [St.step] at hs
    split at hs
    · simp at hs
    · split at hs
      · cases hs; exact ⟨rfl, rfl, fun _ _ h => h, fun _ _ => rfl⟩
      · simp at hs
  | enter => cases hs; exact ⟨rfl, rfl, fun _ _ h => h, fun _ _ => rfl⟩
  | leave =>
    simp only [St.step] at hs
    split at hs
    · cases hs; exact ⟨rfl, rfl, fun _ _ h => h, fun _ _ => rfl⟩
    · simp at hs
  | label =>
    obtain ⟨h1, h2, h3, h4, -⟩ := label_frame hs
    exact ⟨h1, h2, fun f x hx => by rw [h3]; exact hx, fun t _ => by rw [h4]⟩
  | setNext x =>
    obtain ⟨c, v, hc, hv, rfl⟩ := setNext_inv hs
    exact ⟨rfl, rfl, hfill hv, fun _ _ => rfl⟩
  | trig x =>
    cases x with
    | some x =>
      obtain ⟨s1, hs1, rfl⟩ := Option.map_eq_some_iff.1 hs
      obtain ⟨c, v, hc, hv, rfl⟩ := setNext_inv hs1
      exact ⟨rfl, rfl, hfill hv, fun t ht => if_neg (Nat.ne_of_lt ht)⟩
    | none =>
      obtain ⟨s1, hs1, hs2⟩ := Option.bind_eq_some_iff.1 hs
      obtain ⟨s2, hs3, rfl⟩ := Option.map_eq_some_iff.1 hs2
      obtain ⟨c, v, hc, hv, rfl⟩ := setNext_inv hs1
      obtain ⟨h1, h2, h3, h4, -⟩ := label_frame hs3
      exact ⟨rfl, h2, fun f x hx => by simp only [h3]; exact hfill hv f x hx, fun t ht => if_neg (Nat.ne_of_lt ht)⟩

theorem trigs_cons (o : Op) (w : List Op) : trigs (o :: w) = trigs [o] + trigs w := by
  cases o <;> simp [trigs, Nat.add_comm]
theorem fwds_cons (o : Op) (w : List Op) : fwds (o :: w) = fwds [o] + fwds w := by
  cases o with
  | trig x => cases x <;> simp [fwds, Nat.add_comm]
  | _ => simp [fwds, Nat.add_comm]

theorem run_count {s' : St} : ∀ {w : List Op} {s : St}, s.run w = some s' →
    s'.nTrig = s.nTrig + trigs w ∧ s'.nFwd = s.nFwd + fwds w ∧
    (∀ f x, s.val f = some x → s'.val f = some x) ∧ (∀ t, t < s.nTrig → s'.succ t = s.succ t)
  | [], s, h => by cases h; exact ⟨rfl, rfl, fun _ _ h => h, fun _ _ => rfl⟩
  | o :: w, s, h => by
    obtain ⟨s1, h1, h2⟩ := Option.bind_eq_some_iff.1 h
    obtain ⟨a1, a2, a3, a4⟩ := step_count h1
    obtain ⟨b1, b2, b3, b4⟩ := run_count h2
    rw [trigs_cons, fwds_cons]
    refine ⟨by omega, by omega, fun f x hx => b3 f x (a3 f x hx), fun t ht => ?_⟩
    rw [b4 t (by omega), a4 t ht]

/-! ## Waiting -/

/-- Forward `f` waits in scope `c`, with `d` scopes open above it. -/
structure Waits (f c d : Nat) (s : St) : Prop where
  pos : ∃ pre post, s.scopes = pre ++ c :: post ∧ pre.length = d
  mem : f ∈ s.pend c

theorem Waits.step {f c d : Nat} {s s' : St} {o : Op} {w : List Op} (hg : Good s) (h : Waits f c d s) (hq : quiet d (o :: w))
    (hs : s.step o = some s') : ∃ d', quiet d' w ∧ Waits f c d' s' := by
  obtain ⟨⟨pre, post, hp, hl⟩, hm⟩ := h
  have hcs : c ∈ s.scopes := by rw [hp]; simp
  have hnd := hg.nodup
  -- the current scope is another one when scopes are open above
  have hcur : d ≠ 0 → ∀ k, s.scope = some k → k ≠ c := by
    intro hd k hk he
    subst he
    obtain ⟨r, hr⟩ := scope_head hk
    rw [hp] at hr hnd
    cases pre with
    | nil => exact hd (by simpa using hl.symm)
    | cons a l =>
      simp only [List.cons_append, List.cons.injEq] at hr
      simp only [List.cons_append, List.nodup_cons] at hnd
      exact hnd.1 (by rw [hr.1]; simp)
  cases o with
  | push =>
    cases hs
    refine ⟨d + 1, hq, ⟨s.nScope :: pre, post, ?_, by simp [hl]⟩, ?_⟩
    · have : s.scopes = scopesOf s.cur ++ s.saved.flatMap scopesOf := rfl
      simp only [St.scopes, scopesOf_create_ts, List.cons_append]
      rw [← this, hp]
    · have : c ≠ s.nScope := Nat.ne_of_lt (hg.lt c hcs)
      simp only [this, if_false]; exact hm
  | pop =>
    cases d with
    | zero => simp [quiet] at hq
    | succ d =>
      simp only [St.step] at hs
      split at hs
      · rename_i n k b hpop
        obtain ⟨v, hv, rfl⟩ := Option.map_eq_some_iff.1 hs
        have hsc : s.scopes = k :: (scopesOf b ++ s.saved.flatMap scopesOf) := by
          simp only [St.scopes, scopesOf_pop_ts hg.cur hpop, List.cons_append]
        cases pre with
        | nil => simp at hl
        | cons a l =>
          rw [hp] at hsc hnd
          simp only [List.cons_append, List.cons.injEq] at hsc
          simp only [List.cons_append, List.nodup_cons] at hnd
          refine ⟨d, hq, ⟨l, post, hsc.2.symm, by simpa using hl⟩, ?_⟩
          have : c ≠ k := by
            rintro rfl
            exact hnd.1 (by rw [hsc.1]; simp)
          simp only [this, if_false]; exact hm
      · simp at hs
  | opn n =>
    simp only [St.step] at hs
    split at hs
    · simp at hs
    · rename_i hn
      cases hs
      refine ⟨d, by cases d <;> exact hq, ⟨pre, post, ?_, hl⟩, hm⟩
      rw [← hp]; simp only [St.scopes, scopesOf_create hn]
  | cls n =>
    simp only [St.step] at hs
    split at hs
    · simp at hs
    · rename_i hn
      split at hs
      · rename_i t b hpop
        cases hs
        refine ⟨d, by cases d <;> exact hq, ⟨pre, post, ?_, hl⟩, hm⟩
        rw [← hp]; simp only [St.scopes, scopesOf_pop hn hg.cur hpop]
      · simp at hs
  | enter =>
    cases hs
    refine ⟨d, by cases d <;> exact hq, ⟨pre, post, ?_, hl⟩, hm⟩
    rw [← hp]; simp [St.scopes, scopesOf, Bsm.empty]
  | leave =>
    simp only [St.step] at hs
    split at hs
    · rename_i b r hc hb
      cases hs
      refine ⟨d, by cases d <;> exact hq, ⟨pre, post, ?_, hl⟩, hm⟩
      rw [← hp]
      have : scopesOf s.cur = [] := by simp [scopesOf, hg.cur ts, hc]
      simp only [St.scopes, hb, this, List.flatMap_cons, List.nil_append]
    · simp at hs
  | label =>
    obtain ⟨k, hk, rfl⟩ := Option.map_eq_some_iff.1 hs
    refine ⟨d, by cases d <;> exact hq, ⟨pre, post, hp, hl⟩, ?_⟩
    by_cases e : c = k
    · simp only [e, if_true]; rw [e] at hm; simp [hm]
    · simp only [e, if_false]; exact hm
  | setNext x =>
    have hd : d ≠ 0 ∧ quiet d w = true := by cases d <;> simp [quiet] at hq ⊢; exact hq
    obtain ⟨k, v, hk, hv, rfl⟩ := setNext_inv hs
    refine ⟨d, hd.2, ⟨pre, post, hp, hl⟩, ?_⟩
    simp only [Ne.symm (hcur hd.1 k hk), if_false]; exact hm
  | trig x =>
    have hd : d ≠ 0 ∧ quiet d w = true := by cases d <;> simp [quiet] at hq ⊢; exact hq
    cases x with
    | some x =>
      obtain ⟨s1, hs1, rfl⟩ := Option.map_eq_some_iff.1 hs
      obtain ⟨k, v, hk, hv, rfl⟩ := setNext_inv hs1
      refine ⟨d, hd.2, ⟨pre, post, hp, hl⟩, ?_⟩
      simp only [Ne.symm (hcur hd.1 k hk), if_false]; exact hm
    | none =>
      obtain ⟨s1, hs1, hs2⟩ := Option.bind_eq_some_iff.1 hs
      obtain ⟨s2, hs3, rfl⟩ := Option.map_eq_some_iff.1 hs2
      obtain ⟨k, v, hk, hv, rfl⟩ := setNext_inv hs1
      obtain ⟨k', hk', rfl⟩ := Option.map_eq_some_iff.1 hs3
      refine ⟨d, hd.2, ⟨pre, post, hp, hl⟩, ?_⟩
      have h1 := Ne.symm (hcur hd.1 k hk)
      have h2 := Ne.symm (hcur hd.1 k' hk')
      simp only [h1, h2, if_false]; exact hm

theorem Waits.run {f c : Nat} {s' : St} : ∀ {w : List Op} {d : Nat} {s : St}, Good s → Waits f c d s → quiet d w →
    s.run w = some s' → Waits f c 0 s'
  | [], d, s, _, h, hq, hr => by
    cases hr
    cases d with
    | zero => exact h
    | succ d => simp [quiet] at hq
  | o :: w, d, s, hg, h, hq, hr => by
    obtain ⟨s1, h1, h2⟩ := Option.bind_eq_some_iff.1 hr
    obtain ⟨d', h3, h4⟩ := h.step hg hq h1
    exact h4.run (hg.step h1) h3 h2

theorem Waits.finish {f c : Nat} {s s' : St} {q : Op} {x : Tgt} (hg : Good s) (h : Waits f c 0 s) (hs : s.step q = some s')
    (hx : target s.nTrig q = some x) : s'.val f = some x := by
  obtain ⟨⟨pre, post, hp, hl⟩, hm⟩ := h
  have : pre = [] := List.length_eq_zero_iff.1 hl
  subst this
  have hcur : ∀ k, s.scope = some k → k = c := by
    intro k hk
    obtain ⟨r, hr⟩ := scope_head hk
    rw [hp] at hr
    simp only [List.nil_append, List.cons.injEq] at hr
    exact hr.1.symm
  have hset : ∀ {t : Tgt} {s1 : St}, s.setNext t = some s1 → s1.val f = some t := by
    intro t s1 h1
    obtain ⟨k, v, hk, hv, rfl⟩ := setNext_inv h1
    have := hcur k hk
    subst this
    exact ((fill_spec hv).2 f hm).1
  cases q with
  | pop =>
    simp only [target, Option.some.injEq] at hx
    subst hx
    simp only [St.step] at hs
    split at hs
    · rename_i n k b hpop
      obtain ⟨v, hv, rfl⟩ := Option.map_eq_some_iff.1 hs
      have hsc : s.scopes = k :: (scopesOf b ++ s.saved.flatMap scopesOf) := by
        simp only [St.scopes, scopesOf_pop_ts hg.cur hpop, List.cons_append]
      rw [hp] at hsc
      simp only [List.nil_append, List.cons.injEq] at hsc
      rw [← hsc.1] at hv
      exact ((fill_spec hv).2 f hm).1
    · simp at hs
  | setNext y => simp only [target, Option.some.injEq] at hx; subst hx; exact hset hs
  | trig y =>
    simp only [target, Option.some.injEq] at hx
    subst hx
    cases y with
    | some y =>
      obtain ⟨s1, hs1, rfl⟩ := Option.map_eq_some_iff.1 hs
      have := hset hs1
      exact this
    | none =>
      obtain ⟨s1, hs1, hs2⟩ := Option.bind_eq_some_iff.1 hs
      obtain ⟨s2, hs3, rfl⟩ := Option.map_eq_some_iff.1 hs2
      obtain ⟨-, -, h3, -⟩ := label_frame hs3
      simp only [h3]
      exact hset hs1
  | _ => simp [target] at hx

theorem waits_label {s s' : St} (hl : s.label = some s') : ∃ c, Waits s.nFwd c 0 s' := by
  obtain ⟨c, hc, rfl⟩ := Option.map_eq_some_iff.1 hl
  obtain ⟨r, hr⟩ := scope_head hc
  refine ⟨c, ⟨[], r, hr, rfl⟩, by simp⟩

theorem trigs_append : ∀ u v : List Op, trigs (u ++ v) = trigs u + trigs v
  | [], v => by simp [trigs]
  | o :: u, v => by rw [List.cons_append, trigs_cons, trigs_cons o u, trigs_append u v]; omega

/-- **C08 (labels).** A label made by `NextTrigger()` resolves to what follows in its scope: the next trigger created in the same
scope, an explicit successor set before that, or 0 when the scope is closed — whatever scopes, blocks and
functions are opened and closed in between and whatever happens afterwards. -/
theorem C08_label {h mid rest : List Op} {q : Op} {x : Tgt} {st : St}
    (hr : St.init.run (h ++ .label :: (mid ++ q :: rest)) = some st) (hq : quiet 0 mid)
    (hx : target (trigs h + trigs mid) q = some x) : st.val (fwds h) = some x := by
  rw [run_append] at hr
  obtain ⟨s1, h1, hr⟩ := Option.bind_eq_some_iff.1 hr
  obtain ⟨s2, h2, hr⟩ := Option.bind_eq_some_iff.1 hr
  rw [run_append] at hr
  obtain ⟨s3, h3, hr⟩ := Option.bind_eq_some_iff.1 hr
  obtain ⟨s4, h4, hr⟩ := Option.bind_eq_some_iff.1 hr
  have g1 := Good.init.run h1
  have g2 := g1.step h2
  have g3 := g2.run h3
  obtain ⟨c, hw⟩ := waits_label h2
  have c1 := run_count h1
  have c2 := step_count h2
  have c3 := run_count h3
  have hf : s1.nFwd = fwds h := by rw [c1.2.1]; simp [St.init]
  rw [hf] at hw
  refine (run_count hr).2.2.1 _ _ ((hw.run g2 hq h3).finish g3 h4 ?_)
  rw [c3.1, c2.1, c1.1]
  simpa [trigs, St.init] using hx

/-- **C08 (successors).** A trigger created without a successor continues at the next trigger created in the same scope, or
at an explicit successor set before that, or at 0 when the scope is closed — whatever is in between and after. -/
theorem C08_successor {h mid rest : List Op} {q : Op} {x : Tgt} {st : St}
    (hr : St.init.run (h ++ .trig none :: (mid ++ q :: rest)) = some st) (hq : quiet 0 mid)
    (hx : target (trigs h + 1 + trigs mid) q = some x) : st.next (trigs h) = some x := by
  rw [run_append] at hr
  obtain ⟨s1, h1, hr⟩ := Option.bind_eq_some_iff.1 hr
  obtain ⟨s2, h2, hr⟩ := Option.bind_eq_some_iff.1 hr
  rw [run_append] at hr
  obtain ⟨s3, h3, hr⟩ := Option.bind_eq_some_iff.1 hr
  obtain ⟨s4, h4, hr⟩ := Option.bind_eq_some_iff.1 hr
  have g1 := Good.init.run h1
  have g2 := g1.step h2
  have g3 := g2.run h3
  have c1 := run_count h1
  have c2 := step_count h2
  have c3 := run_count h3
  have c4 := step_count h4
  have c5 := run_count hr
  have ht : s1.nTrig = trigs h := by rw [c1.1]; simp [St.init]
  have hstep := h2
  obtain ⟨sa, hs1, hs2⟩ := Option.bind_eq_some_iff.1 h2
  obtain ⟨sb, hs3, rfl⟩ := Option.map_eq_some_iff.1 hs2
  obtain ⟨k, v, hk, hv, rfl⟩ := setNext_inv hs1
  obtain ⟨c, hw⟩ := waits_label hs3
  have hw' : Waits s1.nFwd c 0 _ := ⟨hw.pos, hw.mem⟩
  have hval : st.val s1.nFwd = some x := by
    refine c5.2.2.1 _ _ ((Waits.run g2 ⟨hw.pos, hw.mem⟩ hq h3).finish g3 h4 ?_)
    rw [c3.1]
    simp only [ht]
    exact hx
  have hlt : s1.nTrig < s3.nTrig := by
    have := c3.1
    simp only at this
    omega
  have hsucc : st.succ s1.nTrig = some (.inl s1.nFwd) := by
    rw [c5.2.2.2 _ (by have := c4.1; omega), c4.2.2.2 _ hlt, c3.2.2.2 _ (Nat.lt_succ_self _)]
    simp
  simp only [St.next, ← ht, hsucc, Option.bind_some, hval]

/-- **C08 (explicit successors).** -/
theorem C08_explicit {h rest : List Op} {e : Nat} {st : St} (hr : St.init.run (h ++ .trig (some e) :: rest) = some st) :
    st.next (trigs h) = some (.ext e) := by
  rw [run_append] at hr
  obtain ⟨s1, h1, hr⟩ := Option.bind_eq_some_iff.1 hr
  obtain ⟨s2, h2, hr⟩ := Option.bind_eq_some_iff.1 hr
  have c1 := run_count h1
  have ht : s1.nTrig = trigs h := by rw [c1.1]; simp [St.init]
  have c3 := run_count hr
  obtain ⟨sa, hs1, rfl⟩ := Option.map_eq_some_iff.1 h2
  obtain ⟨k, v, hk, hv, rfl⟩ := setNext_inv hs1
  have : st.succ s1.nTrig = some (.inr (.ext e)) := by
    rw [c3.2.2.2 _ (Nat.lt_succ_self _)]
    simp
  simp only [St.next, ← ht, this, Option.bind_some]

/-! ## Well-nested programs are accepted -/

/-- What may be written inside a scope. -/
inductive Body : List Op → Prop
  | nil : Body []
  | trig (x : Option Nat) {w : List Op} (h : Body w) : Body (.trig x :: w)
  | label {w : List Op} (h : Body w) : Body (.label :: w)
  | setNext (x : Nat) {w : List Op} (h : Body w) : Body (.setNext x :: w)
  | scope {u w : List Op} (hu : Body u) (h : Body w) : Body (.push :: (u ++ .pop :: w))
  | block {n : String} {u w : List Op} (hn : n ≠ ts) (hu : Body u) (h : Body w) : Body (.opn n :: (u ++ .cls n :: w))
  | func {u w : List Op} (hu : Body u) (h : Body w) : Body (.enter :: .push :: (u ++ .pop :: .leave :: w))

theorem setNext_ok {s : St} (h : Good s) {c : Nat} (hc : s.scope = some c) (t : Tgt) : ∃ s', s.setNext t = some s' ∧
    s'.cur = s.cur ∧ s'.saved = s.saved := by
  obtain ⟨v, hv⟩ := fill_ok (t := t) (h.pnd c) (h.punset c)
  exact ⟨{ s with val := v, pend := fun k => if k = c then [] else s.pend k },
    by simp only [St.setNext, hc, Option.bind_some, hv, Option.map_some], rfl, rfl⟩

theorem label_ok {s : St} {c : Nat} (hc : s.scope = some c) : ∃ s', s.label = some s' ∧ s'.cur = s.cur ∧ s'.saved = s.saved := by
  exact ⟨{ s with pend := fun k => if k = c then s.pend c ++ [s.nFwd] else s.pend k, nFwd := s.nFwd + 1 },
    by simp only [St.label, hc, Option.map_some], rfl, rfl⟩

theorem scope_push (s : St) : ∃ s' c, s.step .push = some s' ∧ s'.cur = s.cur.create ts c ∧ s'.saved = s.saved ∧ s'.scope = some c :=
  ⟨_, s.nScope, rfl, rfl, rfl, by simp [St.scope, Bsm.lastOf, Bsm.create]⟩

theorem pop_ok {s : St} (h : Good s) {b : Bsm Nat} (hb : Inv b) {c : Nat} (hc : s.cur = b.create ts c) :
    ∃ s', s.step .pop = some s' ∧ s'.cur = b ∧ s'.saved = s.saved := by
  have hi := h.cur
  obtain ⟨b', hp⟩ := hi.pop_ok (n := ts) (d := c) (r := b.stru) (by rw [hc]; rfl)
  obtain ⟨h1, h2, -⟩ := hi.pop hp
  have : b' = b := h1.ext hb (by rw [hc] at h2; simp only [Bsm.create, List.cons.injEq] at h2; exact h2.2.symm)
  obtain ⟨v, hv⟩ := fill_ok (t := .zero) (h.pnd c) (h.punset c)
  exact ⟨{ s with cur := b', val := v, pend := fun k => if k = c then [] else s.pend k },
    by simp only [St.step, hp, hv, Option.map_some], this, rfl⟩

/-- **C08 (acceptance).** Every well-nested body is accepted in a scope and leaves the nesting as it was. -/
theorem C08_accepted {w : List Op} (hw : Body w) : ∀ {s : St}, Good s → (∃ c, s.scope = some c) →
    ∃ s', s.run w = some s' ∧ s'.cur = s.cur ∧ s'.saved = s.saved := by
  induction hw with
  | nil => intro s _ _; exact ⟨s, rfl, rfl, rfl⟩
  | @trig x w h ih =>
    rintro s hg ⟨c, hc⟩
    obtain ⟨s1, h1, h2, h3⟩ := setNext_ok hg hc (.trig s.nTrig)
    have hc1 : s1.scope = some c := by simp only [St.scope, h2]; exact hc
    cases x with
    | some x =>
      obtain ⟨s2, hst, e1, e2⟩ : ∃ s2, s.step (.trig (some x)) = some s2 ∧ s2.cur = s1.cur ∧ s2.saved = s1.saved :=
        ⟨{ s1 with succ := fun k => if k = s1.nTrig then some (.inr (.ext x)) else s1.succ k, nTrig := s1.nTrig + 1 },
          by simp only [St.step, h1, Option.map_some], rfl, rfl⟩
      obtain ⟨s', k1, k2, k3⟩ := ih (hg.step hst) ⟨c, by simp only [St.scope, e1]; exact hc1⟩
      exact ⟨s', by simp only [St.run, hst, Option.bind_some]; exact k1, k2.trans (e1.trans h2), k3.trans (e2.trans h3)⟩
    | none =>
      obtain ⟨s2, h4, h5, h6⟩ := label_ok hc1
      obtain ⟨s3, hst, e1, e2⟩ : ∃ s3, s.step (.trig none) = some s3 ∧ s3.cur = s2.cur ∧ s3.saved = s2.saved :=
        ⟨{ s2 with succ := fun k => if k = s1.nTrig then some (.inl s1.nFwd) else s1.succ k, nTrig := s1.nTrig + 1 },
          by simp only [St.step, h1, Option.bind_some, h4, Option.map_some], rfl, rfl⟩
      obtain ⟨s', k1, k2, k3⟩ := ih (hg.step hst) ⟨c, by simp only [St.scope, e1, h5]; exact hc1⟩
      exact ⟨s', by simp only [St.run, hst, Option.bind_some]; exact k1, k2.trans (e1.trans (h5.trans h2)), k3.trans (e2.trans (h6.trans h3))⟩
  | @label w h ih =>
    rintro s hg ⟨c, hc⟩
    obtain ⟨s1, h1, h2, h3⟩ := label_ok hc
    obtain ⟨s', k1, k2, k3⟩ := ih (hg.step (o := .label) h1) ⟨c, by simp only [St.scope, h2]; exact hc⟩
    exact ⟨s', by simp only [St.run, St.step, h1, Option.bind_some]; exact k1, k2.trans h2, k3.trans h3⟩
  | @setNext x w h ih =>
    rintro s hg ⟨c, hc⟩
    obtain ⟨s1, h1, h2, h3⟩ := setNext_ok hg hc (.ext x)
    obtain ⟨s', k1, k2, k3⟩ := ih (hg.step (o := .setNext x) h1) ⟨c, by simp only [St.scope, h2]; exact hc⟩
    exact ⟨s', by simp only [St.run, St.step, h1, Option.bind_some]; exact k1, k2.trans h2, k3.trans h3⟩
  | @scope u w hu h iu ih =>
    rintro s hg ⟨c, hc⟩
    obtain ⟨s1, d, h1, h2, h3, h4⟩ := scope_push s
    have g1 := hg.step h1
    obtain ⟨s2, k1, k2, k3⟩ := iu g1 ⟨d, h4⟩
    have g2 := g1.run k1
    obtain ⟨s3, p1, p2, p3⟩ := pop_ok g2 hg.cur (k2.trans h2)
    obtain ⟨s', q1, q2, q3⟩ := ih (g2.step p1) ⟨c, by simp only [St.scope, p2]; exact hc⟩
    refine ⟨s', ?_, q2.trans p2, q3.trans (p3.trans (k3.trans h3))⟩
    simp only [St.run, h1, Option.bind_some, run_append, k1, p1]
    exact q1
  | @block n u w hn hu h iu ih =>
    rintro s hg ⟨c, hc⟩
    have h1 : s.step (.opn n) = some { s with cur := s.cur.create n 0 } := by simp [St.step, hn]
    have g1 := hg.step h1
    obtain ⟨s2, k1, k2, k3⟩ := iu g1 ⟨c, by
      simp only [St.scope, Bsm.lastOf, Bsm.create, if_neg (Ne.symm hn)]
      exact hc⟩
    have g2 := g1.run k1
    obtain ⟨b', hp⟩ := g2.cur.pop_ok (n := n) (d := 0) (r := s.cur.stru) (by rw [k2]; rfl)
    obtain ⟨i1, i2, -⟩ := g2.cur.pop hp
    have hb : b' = s.cur := i1.ext hg.cur (by rw [k2] at i2; simp only [Bsm.create, List.cons.injEq] at i2; exact i2.2.symm)
    have h3 : s2.step (.cls n) = some { s2 with cur := b' } := by simp only [St.step, if_neg hn, hp]
    obtain ⟨s', q1, q2, q3⟩ := ih (g2.step h3) ⟨c, by simp only [St.scope, hb]; exact hc⟩
    refine ⟨s', ?_, q2.trans hb, q3.trans k3⟩
    simp only [St.run, h1, Option.bind_some, run_append, k1, h3]
    exact q1
  | @func u w hu h iu ih =>
    rintro s hg ⟨c, hc⟩
    have h0 : s.step .enter = some { s with cur := Bsm.empty, saved := s.cur :: s.saved } := rfl
    have g0 := hg.step h0
    obtain ⟨s1, d, h1, h2, h3, h4⟩ := scope_push { s with cur := Bsm.empty, saved := s.cur :: s.saved }
    have g1 := g0.step h1
    obtain ⟨s2, k1, k2, k3⟩ := iu g1 ⟨d, h4⟩
    have g2 := g1.run k1
    obtain ⟨s3, p1, p2, p3⟩ := pop_ok g2 g0.cur (k2.trans h2)
    have g3 := g2.step p1
    have h5 : s3.step .leave = some { s3 with cur := s.cur, saved := s.saved } := by
      have e1 : s3.cur.stru = [] := by rw [p2]; rfl
      have e2 : s3.saved = s.cur :: s.saved := p3.trans (k3.trans h3)
      simp only [St.step, e1, e2]
    obtain ⟨s', q1, q2, q3⟩ := ih (g3.step h5) ⟨c, hc⟩
    refine ⟨s', ?_, q2, q3⟩
    simp only [St.run, h0, h1, Option.bind_some, run_append, k1, p1, h5]
    exact q1

/-- Example: a function body and a nested scope between two triggers. -/
example : ∃ st, St.init.run [.push, .trig none, .enter, .push, .trig none, .trig none, .pop, .leave, .label, .opn "ifblock", .trig none,
      .cls "ifblock", .setNext 7, .pop] = some st ∧
    st.next 0 = some (.trig 3) ∧ st.next 1 = some (.trig 2) ∧ st.next 2 = some .zero ∧ st.next 3 = some (.ext 7) ∧
    st.val 3 = some (.trig 3) := by
  refine ⟨_, rfl, ?_⟩
  decide

example : quiet 0 [.enter, .push, .trig none, .trig none, .pop, .leave, .label, .opn "ifblock"] = true := rfl

end Eud.Scope
