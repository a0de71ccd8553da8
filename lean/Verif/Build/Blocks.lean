/-
C09: the stack of control blocks (src/eudplib/utils/blockstru.py).
-/

namespace Eud.Blocks

/-- `BlockStruManager` (blockstru.py:15-18): the list of open blocks, last one first, and for each name the list of blocks of that
name, last one first (an absent key is the empty list). -/
structure Bsm (α : Type) where
  stru : List (String × α)
  last : String → List (String × α)

def Bsm.empty {α : Type} : Bsm α := ⟨[], fun _ => []⟩

variable {α : Type}

/-- blockstru.py:34-43 `EUDCreateBlock` -/
def Bsm.create (b : Bsm α) (n : String) (d : α) : Bsm α :=
  ⟨(n, d) :: b.stru, fun k => if k = n then (n, d) :: b.last n else b.last k⟩

/-- blockstru.py:51-58 `EUDGetLastBlockOfName`; `none` is an exception. -/
def Bsm.lastOf (b : Bsm α) (n : String) : Option (String × α) := (b.last n).head?

/-- blockstru.py:61-69 `EUDPeekBlock` -/
def Bsm.peek (b : Bsm α) (n : String) : Option (String × α) :=
  match b.stru with
  | [] => none
  | t :: _ => if t.1 = n then some t else none

/-- blockstru.py:72-84 `EUDPopBlock`: the block returned (`none` is an exception) and the state left behind.  The
block is removed from the list before its name is checked. -/
def Bsm.pop (b : Bsm α) (n : String) : Option (String × α) × Bsm α :=
  match b.stru with
  | [] => (none, b)
  | t :: r =>
    if t.1 = n then
      match b.last n with
      | [] => (none, { b with stru := r })
      | _ :: l => (some t, ⟨r, fun k => if k = n then l else b.last k⟩)
    else (none, { b with stru := r })

/-- Operations that change the blocks. -/
inductive Op (α : Type)
  | create (n : String) (d : α)
  | pop (n : String)

/-- A history without exceptions. -/
def run (b : Bsm α) : List (Op α) → Option (Bsm α)
  | [] => some b
  | .create n d :: w => run (b.create n d) w
  | .pop n :: w => match b.pop n with
    | (some _, b') => run b' w
    | (none, _) => none

/-! ## Specification: matching of opening and closing -/

/-- Balanced histories. -/
inductive Bal : List (Op α) → Prop
  | nil : Bal []
  | blk {n : String} {d : α} {u v : List (Op α)} (hu : Bal u) (hv : Bal v) : Bal (.create n d :: (u ++ .pop n :: v))

/-- Histories that close only what they open and leave no block of name `n` open. -/
inductive Ext (n : String) : List (Op α) → Prop
  | bal {u : List (Op α)} (hu : Bal u) : Ext n u
  | opn {m : String} {d : α} {u v : List (Op α)} (hu : Bal u) (hm : m ≠ n) (hv : Ext n v) : Ext n (u ++ .create m d :: v)

/-! ## Proof -/

/-- The two records agree. -/
def Inv (b : Bsm α) : Prop := ∀ n, b.last n = b.stru.filter (fun t => t.1 = n)

theorem Inv.empty : Inv (Bsm.empty (α := α)) := fun _ => rfl

theorem Inv.create {b : Bsm α} (h : Inv b) (n : String) (d : α) : Inv (b.create n d) := by
  intro k
  simp only [Bsm.create, List.filter_cons]
  by_cases hk : k = n
  · subst hk; simp [h k]
  · simp [hk, Ne.symm hk, h k]

theorem Inv.pop {b : Bsm α} (h : Inv b) {n : String} {t : String × α} {b' : Bsm α} (hp : b.pop n = (some t, b')) :
    Inv b' ∧ b.stru = t :: b'.stru ∧ t.1 = n := by
  unfold Bsm.pop at hp
  split at hp
  · simp at hp
  · rename_i t' r hs
    split at hp
    · rename_i hn
      have hl := h n
      rw [hs, List.filter_cons, if_pos (by simp [hn])] at hl
      rw [hl] at hp
      simp only [Prod.mk.injEq, Option.some.injEq] at hp
      obtain ⟨rfl, rfl⟩ := hp
      refine ⟨fun k => ?_, hs, hn⟩
      by_cases hk : k = n
      · subst hk; simp
      · simp only [hk, if_false]
        rw [h k, hs, List.filter_cons, if_neg]
        simp [hn, Ne.symm hk]
    · simp at hp

theorem Inv.pop_ok {b : Bsm α} (h : Inv b) {n : String} {d : α} {r : List (String × α)} (hs : b.stru = (n, d) :: r) :
    ∃ b', b.pop n = (some (n, d), b') := by
  unfold Bsm.pop
  have hl := h n
  rw [hs, List.filter_cons, if_pos (by simp)] at hl
  rw [hs]
  simp [hl]

theorem Inv.ext {b c : Bsm α} (hb : Inv b) (hc : Inv c) (h : b.stru = c.stru) : b = c := by
  cases b; cases c
  simp only at h
  subst h
  congr 1
  funext n
  have h1 := hb n
  have h2 := hc n
  simp only at h1 h2
  rw [h1, h2]

theorem run_append (b : Bsm α) : ∀ (u v : List (Op α)), run b (u ++ v) = (run b u).bind (fun c => run c v)
  | [], v => rfl
  | .create n d :: u, v => by simp only [List.cons_append, run]; exact run_append _ u v
  | .pop n :: u, v => by
    simp only [List.cons_append, run]
    split
    · exact run_append _ u v
    · rfl

theorem run_inv {b c : Bsm α} (h : Inv b) : ∀ {w : List (Op α)}, run b w = some c → Inv c := by
  intro w
  induction w generalizing b with
  | nil => intro hr; cases hr; exact h
  | cons o w ih =>
    cases o with
    | create n d => exact fun hr => ih (h.create n d) hr
    | pop n =>
      simp only [run]
      split
      · rename_i t b' hp
        exact fun hr => ih (h.pop hp).1 hr
      · simp

theorem bal_run {w : List (Op α)} (hw : Bal w) : ∀ {b : Bsm α}, Inv b → run b w = some b := by
  induction hw with
  | nil => intros; rfl
  | @blk n d u v hu hv iu iv =>
    intro b h
    simp only [run]
    rw [run_append, iu (h.create n d)]
    simp only [Option.bind_some, run]
    obtain ⟨b', hp⟩ := (h.create n d).pop_ok (n := n) (d := d) rfl
    rw [hp]
    obtain ⟨h1, h2, -⟩ := (h.create n d).pop hp
    have : b' = b := h1.ext h (by simp only [Bsm.create, List.cons.injEq] at h2; exact h2.2.symm)
    rw [this]
    exact iv h

/-- **C09 (closing).** In every reachable state: a balanced history succeeds and leaves everything as it was; after opening
a block and any balanced history, closing it returns exactly what was stored, restores the state before, and closing with another name
is refused. -/
theorem C09_nesting {h w : List (Op α)} {b : Bsm α} (hb : run Bsm.empty h = some b) (hw : Bal w) (n : String) (d : α) :
    run b w = some b ∧
    ∃ c, run b (.create n d :: w) = some c ∧ c.pop n = (some (n, d), b) ∧ c.peek n = some (n, d) ∧
      ∀ m, m ≠ n → (c.pop m).1 = none ∧ c.peek m = none := by
  have hi := run_inv Inv.empty hb
  refine ⟨bal_run hw hi, b.create n d, by simp only [run]; exact bal_run hw (hi.create n d), ?_, ?_, ?_⟩
  · obtain ⟨b', hp⟩ := (hi.create n d).pop_ok (n := n) (d := d) rfl
    obtain ⟨h1, h2, -⟩ := (hi.create n d).pop hp
    have : b' = b := h1.ext hi (by simp only [Bsm.create, List.cons.injEq] at h2; exact h2.2.symm)
    rw [hp, this]
  · simp [Bsm.peek, Bsm.create]
  · intro m hm
    simp [Bsm.pop, Bsm.peek, Bsm.create, Ne.symm hm]

theorem bal_append {u v : List (Op α)} (hu : Bal u) (hv : Bal v) : Bal (u ++ v) := by
  induction hu with
  | nil => exact hv
  | @blk n d u1 v1 h1 h2 i1 i2 =>
    have := Bal.blk (n := n) (d := d) h1 i2
    simpa using this

theorem ext_run {n : String} {w : List (Op α)} (hw : Ext n w) : ∀ {b : Bsm α}, Inv b → ∃ c, run b w = some c ∧
    c.last n = b.last n := by
  induction hw with
  | bal hu => exact fun h => ⟨_, bal_run hu h, rfl⟩
  | @opn m d u v hu hm hv ih =>
    intro b h
    rw [run_append, bal_run hu h]
    obtain ⟨c, h1, h2⟩ := ih (h.create m d)
    refine ⟨c, h1, ?_⟩
    rw [h2]
    simp [Bsm.create, Ne.symm hm]

/-- What a successful history looks like: balanced parts and the openings still open. -/
inductive Shape : List (Op α) → List (String × α) → Prop
  | nil : Shape [] []
  | opn {w : List (Op α)} {l : List (String × α)} {m : String} {d : α} (h : Shape w l) : Shape (w ++ [.create m d]) ((m, d) :: l)
  | bal {w u : List (Op α)} {l : List (String × α)} (h : Shape w l) (hu : Bal u) : Shape (w ++ u) l

theorem Shape.pop {w : List (Op α)} {l : List (String × α)} (h : Shape w l) : ∀ {m : String} {d : α} {r : List (String × α)},
    l = (m, d) :: r → ∃ w1 u, w = w1 ++ .create m d :: u ∧ Bal u ∧ Shape w1 r := by
  induction h with
  | nil => intro m d r h; cases h
  | @opn w l m d h ih =>
    intro m' d' r hl
    cases hl
    exact ⟨w, [], by simp, Bal.nil, h⟩
  | @bal w u l h hu ih =>
    intro m d r hl
    obtain ⟨w1, u1, rfl, h1, h2⟩ := ih hl
    exact ⟨w1, u1 ++ u, by simp, bal_append h1 hu, h2⟩

theorem shape_run : ∀ (w : List (Op α)) (b c : Bsm α) (v : List (Op α)), Inv b → Shape v b.stru →
    run b w = some c → Shape (v ++ w) c.stru
  | [], b, c, v, _, hs, hr => by cases hr; simpa using hs
  | .create n d :: w, b, c, v, hi, hs, hr => by
    have := shape_run w (b.create n d) c (v ++ [.create n d]) (hi.create n d) hs.opn hr
    simpa using this
  | .pop n :: w, b, c, v, hi, hs, hr => by
    simp only [run] at hr
    split at hr
    · rename_i t b' hp
      obtain ⟨h1, h2, h3⟩ := hi.pop hp
      obtain ⟨m, d⟩ := t
      simp only at h3
      subst h3
      obtain ⟨w1, u, rfl, hu, hw1⟩ := hs.pop h2
      have hsh : Shape (w1 ++ .create m d :: (u ++ [.pop m])) b'.stru :=
        Shape.bal hw1 (by simpa using Bal.blk (n := m) (d := d) hu Bal.nil)
      have := shape_run w b' c _ h1 hsh hr
      simpa using this
    · simp at hr

theorem ext_append_bal {n : String} {v u : List (Op α)} (hv : Ext n v) (hu : Bal u) : Ext n (v ++ u) := by
  induction hv with
  | bal h => exact .bal (bal_append h hu)
  | @opn m d x y hx hm hy ih =>
    have := Ext.opn (n := n) (m := m) (d := d) hx hm ih
    simpa using this

theorem ext_append_opn {n m : String} {d : α} {v : List (Op α)} (hv : Ext n v) (hm : m ≠ n) : Ext n (v ++ [.create m d]) := by
  induction hv with
  | bal h => exact .opn h hm (.bal .nil)
  | @opn m' d' x y hx hm' hy ih =>
    have := Ext.opn (n := n) (m := m') (d := d') hx hm' ih
    simpa using this

theorem Shape.split {w : List (Op α)} {l : List (String × α)} (h : Shape w l) (n : String) :
    Ext n w ∨ ∃ w1 d v, w = w1 ++ .create n d :: v ∧ Ext n v := by
  induction h with
  | nil => exact .inl (.bal .nil)
  | @opn w l m d h ih =>
    by_cases hm : m = n
    · subst hm
      exact .inr ⟨w, d, [], by simp, .bal .nil⟩
    · rcases ih with h | ⟨w1, d1, v, rfl, hv⟩
      · exact .inl (ext_append_opn h hm)
      · exact .inr ⟨w1, d1, v ++ [.create m d], by simp, ext_append_opn hv hm⟩
  | @bal w u l h hu ih =>
    rcases ih with h | ⟨w1, d1, v, rfl, hv⟩
    · exact .inl (ext_append_bal h hu)
    · exact .inr ⟨w1, d1, v ++ u, by simp, ext_append_bal hv hu⟩

/-- **C09 (lookup).** Looking up a name after any successful history gives the data of the innermost open block of that name
— the last one opened after which only balanced histories and openings of other names follow — or is refused if
there is none; one of the two cases always applies. -/
theorem C09_lookup {h : List (Op α)} {b : Bsm α} (hb : run Bsm.empty h = some b) (n : String) :
    (Ext n h → b.lastOf n = none) ∧
    (∀ w d v, h = w ++ .create n d :: v → Ext n v → b.lastOf n = some (n, d)) ∧
    (Ext n h ∨ ∃ w d v, h = w ++ .create n d :: v ∧ Ext n v) := by
  refine ⟨fun he => ?_, ?_, ?_⟩
  · obtain ⟨c, h1, h2⟩ := ext_run he (Inv.empty (α := α))
    rw [hb] at h1; cases h1
    simp [Bsm.lastOf, h2, Bsm.empty]
  · rintro w d v rfl hv
    rw [run_append] at hb
    obtain ⟨c, hc, hr⟩ := Option.bind_eq_some_iff.1 hb
    simp only [run] at hr
    obtain ⟨c', h1, h2⟩ := ext_run hv ((run_inv Inv.empty hc).create n d)
    rw [hr] at h1; cases h1
    simp [Bsm.lastOf, h2, Bsm.create]
  · have := shape_run h Bsm.empty b [] Inv.empty Shape.nil hb
    exact Shape.split (by simpa using this) n

/-- Example: `if` around a `while` that was closed. -/
example : ∃ b, run Bsm.empty [.create "ifblock" 1, .create "whileblock" 2, .pop "whileblock"] = some b ∧
    b.lastOf "ifblock" = some ("ifblock", 1) ∧ b.lastOf "whileblock" = none :=
  ⟨_, rfl, rfl, rfl⟩

example : Ext "ifblock" ([.create "whileblock" 2, .pop "whileblock"] : List (Op Nat)) :=
  .bal (Bal.blk (u := []) (v := []) .nil .nil)

/-- A refused closing is not harmless: the block is gone from the nesting, but looking it up still finds it. -/
theorem C09_counterexample : ∃ b : Bsm Nat, run Bsm.empty [.create "ifblock" 1] = some b ∧
    (b.pop "whileblock").1 = none ∧ (b.pop "whileblock").2.stru = [] ∧
    (b.pop "whileblock").2.lastOf "ifblock" = some ("ifblock", 1) := ⟨_, rfl, rfl, rfl, rfl⟩

end Eud.Blocks
