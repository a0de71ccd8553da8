/-
C50: flattening of nested lists (src/eudplib/utils/etc.py:80-108).
-/

namespace Eud.Flatten

/-- What is passed as conditions or actions: something that is not iterated over (a string, an object with `dont_flatten`, or a
non-iterable), or an iterable with its items. -/
inductive Item (α : Type)
  | atom (a : α)
  | list (l : List (Item α))

variable {α : Type}

mutual
/-- etc.py:99-114 `FlattenList(lst, ret)`, with the list appended to. -/
def flattenList : Item α → List α → List α
  | .atom a, ret => ret ++ [a]
  | .list l, ret => flattenAll l ret
/-- The `for` loop. -/
def flattenAll : List (Item α) → List α → List α
  | [], ret => ret
  | x :: l, ret => flattenAll l (flattenList x ret)
end

mutual
/-- etc.py:117-125 `FlattenIter`: the values yielded. -/
def flattenIter : Item α → List α
  | .atom a => [a]
  | .list l => iterAll l
def iterAll : List (Item α) → List α
  | [] => []
  | x :: l => flattenIter x ++ iterAll l
end

/-! ## Specification -/

/-- The atom at a path. -/
inductive At : Item α → List Nat → α → Prop
  | here (a : α) : At (.atom a) [] a
  | down {l : List (Item α)} {i : Nat} {x : Item α} {p : List Nat} {a : α} (hi : l[i]? = some x) (h : At x p a) : At (.list l) (i :: p) a

/-- Left-to-right order of paths. -/
inductive Lt : List Nat → List Nat → Prop
  | head {i j : Nat} (p q : List Nat) (h : i < j) : Lt (i :: p) (j :: q)
  | tail {i : Nat} {p q : List Nat} (h : Lt p q) : Lt (i :: p) (i :: q)

/-- `l` lists the atoms of `x` from left to right: their paths are increasing and they are all there. -/
def Lists (x : Item α) (l : List α) : Prop :=
  ∃ ps : List (List Nat), ps.Pairwise Lt ∧ ps.length = l.length ∧ (∀ (k : Nat) p a, ps[k]? = some p → l[k]? = some a → At x p a) ∧
    ∀ p a, At x p a → p ∈ ps

theorem At.det {x : Item α} {p : List Nat} {a b : α} (h : At x p a) (g : At x p b) : a = b := by
  induction h with
  | here => cases g; rfl
  | down hi h ih =>
    cases g with
    | down hi' h' => rw [hi] at hi'; cases hi'; exact ih h'

mutual
/-- Atoms with their paths. -/
def paths : Item α → List (List Nat × α)
  | .atom a => [([], a)]
  | .list l => pathsAll 0 l
def pathsAll (i : Nat) : List (Item α) → List (List Nat × α)
  | [] => []
  | x :: l => (paths x).map (fun t => (i :: t.1, t.2)) ++ pathsAll (i + 1) l
end

mutual
theorem iter_paths : ∀ x : Item α, flattenIter x = (paths x).map Prod.snd
  | .atom a => rfl
  | .list l => by simp only [flattenIter, paths]; exact iterAll_paths 0 l
theorem iterAll_paths (i : Nat) : ∀ l : List (Item α), iterAll l = (pathsAll i l).map Prod.snd
  | [] => rfl
  | x :: l => by
    simp only [iterAll, pathsAll, List.map_append, List.map_map]
    rw [iter_paths x, iterAll_paths (i + 1) l]
    rfl
end

mutual
theorem list_iter : ∀ (x : Item α) (ret : List α), flattenList x ret = ret ++ flattenIter x
  | .atom a, ret => rfl
  | .list l, ret => by simp only [flattenList, flattenIter]; exact all_iter l ret
theorem all_iter : ∀ (l : List (Item α)) (ret : List α), flattenAll l ret = ret ++ iterAll l
  | [], ret => by simp [flattenAll, iterAll]
  | x :: l, ret => by
    simp only [flattenAll, iterAll]
    rw [all_iter l, list_iter x, List.append_assoc]
end

mutual
theorem paths_at : ∀ (x : Item α) (p : List Nat) (a : α), (p, a) ∈ paths x ↔ At x p a
  | .atom b, p, a => by
    simp only [paths, List.mem_singleton, Prod.mk.injEq]
    constructor
    · rintro ⟨rfl, rfl⟩; exact .here _
    · intro h; cases h; exact ⟨rfl, rfl⟩
  | .list l, p, a => by
    simp only [paths]
    rw [pathsAll_at 0 l]
    constructor
    · rintro ⟨i, x, q, rfl, hx, h⟩
      rw [Nat.zero_add]
      exact .down hx h
    · intro h
      cases h with
      | @down l i x q a hi h => exact ⟨i, x, q, by rw [Nat.zero_add], hi, h⟩
theorem pathsAll_at (n : Nat) : ∀ (l : List (Item α)) (p : List Nat) (a : α),
    (p, a) ∈ pathsAll n l ↔ ∃ i x q, p = (n + i) :: q ∧ l[i]? = some x ∧ At x q a
  | [], p, a => by simp [pathsAll]
  | x :: l, p, a => by
    simp only [pathsAll, List.mem_append, List.mem_map, Prod.mk.injEq, Prod.exists]
    rw [pathsAll_at (n + 1) l]
    constructor
    · rintro (⟨q, b, hq, rfl, rfl⟩ | ⟨i, y, q, rfl, hy, h⟩)
      · exact ⟨0, x, q, rfl, rfl, (paths_at x q b).1 hq⟩
      · exact ⟨i + 1, y, q, by rw [Nat.add_assoc, Nat.add_comm 1], hy, h⟩
    · rintro ⟨i, y, q, rfl, hy, h⟩
      cases i with
      | zero =>
        simp only [List.getElem?_cons_zero, Option.some.injEq] at hy
        subst hy
        exact .inl ⟨q, a, (paths_at _ q a).2 h, rfl, rfl⟩
      | succ i =>
        simp only [List.getElem?_cons_succ] at hy
        exact .inr ⟨i, y, q, by rw [Nat.add_assoc, Nat.add_comm 1], hy, h⟩
end

mutual
theorem paths_lt : ∀ x : Item α, (paths x).Pairwise (fun s t => Lt s.1 t.1)
  | .atom a => by simp [paths]
  | .list l => by simp only [paths]; exact pathsAll_lt 0 l
theorem pathsAll_lt (n : Nat) : ∀ l : List (Item α), (pathsAll n l).Pairwise (fun s t => Lt s.1 t.1)
  | [] => by simp [pathsAll]
  | x :: l => by
    simp only [pathsAll]
    rw [List.pairwise_append]
    refine ⟨?_, pathsAll_lt (n + 1) l, ?_⟩
    · rw [List.pairwise_map]
      exact (paths_lt x).imp (fun h => .tail h)
    · rintro s hs ⟨p, b⟩ ht
      obtain ⟨s', -, rfl⟩ := List.mem_map.1 hs
      obtain ⟨i, y, q, rfl, -, -⟩ := (pathsAll_at (n + 1) l p b).1 ht
      exact .head _ _ (by omega)
end

/-- **C50.** Both functions list the atoms of any nesting from left to right, each exactly once. -/
theorem C50_flatten (x : Item α) : Lists x (flattenList x []) ∧ flattenIter x = flattenList x [] := by
  have h : flattenIter x = flattenList x [] := by rw [list_iter]; rfl
  refine ⟨?_, h⟩
  rw [← h, iter_paths]
  refine ⟨(paths x).map Prod.fst, ?_, by simp, ?_, ?_⟩
  · rw [List.pairwise_map]; exact paths_lt x
  · intro k p a hp ha
    simp only [List.getElem?_map, Option.map_eq_some_iff] at hp ha
    obtain ⟨t, ht, rfl⟩ := hp
    obtain ⟨u, hu, rfl⟩ := ha
    rw [ht] at hu; cases hu
    exact (paths_at x _ _).1 (List.mem_of_getElem? ht)
  · intro p a h
    exact List.mem_map.2 ⟨(p, a), (paths_at x p a).2 h, rfl⟩

theorem Lt.irrefl : ∀ {p : List Nat}, ¬ Lt p p
  | [], h => by cases h
  | i :: p, h => by
    cases h with
    | head _ _ h => exact Nat.lt_irrefl _ h
    | tail h => exact Lt.irrefl h

example : flattenList (.list [.atom 1, .list [.list [.atom 2], .list [], .atom 3], .atom 4]) [] = [1, 2, 3, 4] := by
  simp [flattenList, flattenAll]
example : At (.list [.atom 1, .list [.list [.atom 2], .list [], .atom 3], .atom 4]) [1, 2] 3 :=
  .down rfl (.down rfl (.here 3))

end Eud.Flatten
