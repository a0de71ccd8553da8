import Verif.Map.Bytes
/-
C10: map sections (src/eudplib/core/mapdata/chktok.py).
-/

namespace Eud.Map

/-- A Python `dict` from names to contents: pairs in insertion order. -/
abbrev Dict := List (Bytes × Bytes)

/-- `d[k] = v`: an existing key keeps its place. -/
def Dict.set : Dict → Bytes → Bytes → Dict
  | [], k, v => [(k, v)]
  | (a, x) :: d, k, v => if a = k then (a, v) :: d else (a, x) :: Dict.set d k v
/-- `d[k]`; `none` is a `KeyError`. -/
def Dict.get (d : Dict) (k : Bytes) : Option Bytes := (d.find? (fun t => t.1 = k)).map Prod.snd
/-- `del d[k]` -/
def Dict.del (d : Dict) (k : Bytes) : Dict := d.filter (fun t => t.1 ≠ k)

/-- chktok.py:16-29 `sectionname_format` on bytes. -/
def sectionName (n : Bytes) : Option Bytes :=
  if n.length < 4 then some (n ++ List.replicate (4 - n.length) 0x20)
  else if n.length > 4 then none
  else some n

/-- The name of the section appended at the end. -/
def isom : Bytes := [0x49, 0x53, 0x4F, 0x4D]

/-- chktok.py:75-88 `savechk`; `r` is the random number in the header of the last section. -/
def savechk (d : Dict) (r : Nat) : Bytes :=
  (d.map fun t => t.1 ++ i2b4 t.2.length ++ t.2).flatten ++ (isom ++ i2b4 ((r ||| 0x80000000 : Nat) : Int))

/-- chktok.py:39-68 `loadchk`, the loop from `index` on; `none` is an `IndexError`. (`b2i4` is never negative, so the
refusal of negative lengths is never taken.) -/
def loadchk (b : Bytes) (index : Nat) (d : Dict) : Option Dict :=
  if _h : index < b.length then
    match b2i4 b (index + 4) with
    | none => none
    | some n => loadchk b (index + n + 8) (d.set ((b.drop index).take 4) ((b.drop (index + 8)).take n))
  else some d
termination_by b.length - index

/-! ## Specification -/

/-- What is in a map: names of four bytes, no two equal, contents that fit the length field. -/
structure OkMap (d : Dict) : Prop where
  names : ∀ t ∈ d, t.1.length = 4
  nodup : (d.map Prod.fst).Nodup
  short : ∀ t ∈ d, t.2.length < 2 ^ 32

/-- The first section of saved bytes. -/
theorem load_one (p nm c rest : Bytes) (d : Dict) (n : Nat) (hn : nm.length = 4) (hv : b2i4 (p ++ (nm ++ i2b4 n ++ (c ++ rest))) (p.length + 4) = some c.length) :
    loadchk (p ++ (nm ++ i2b4 n ++ (c ++ rest))) p.length d =
      loadchk (p ++ (nm ++ i2b4 n ++ (c ++ rest))) (p ++ (nm ++ i2b4 n ++ c)).length (d.set nm c) := by
  rw [loadchk]
  have h4 := i2b4_length n
  rw [dif_pos (by simp only [List.length_append]; omega), hv]
  simp only
  have e1 : ((p ++ (nm ++ i2b4 n ++ (c ++ rest))).drop p.length).take 4 = nm := by
    rw [List.drop_left, List.append_assoc, List.take_append_of_le_length (by omega), List.take_of_length_le (by omega)]
  have e2 : ((p ++ (nm ++ i2b4 n ++ (c ++ rest))).drop (p.length + 8)).take c.length = c := by
    rw [← List.append_assoc, show p.length + 8 = (p ++ (nm ++ i2b4 n)).length by simp only [List.length_append]; omega, List.drop_left,
      List.take_left]
  have e3 : p.length + c.length + 8 = (p ++ (nm ++ i2b4 n ++ c)).length := by simp only [List.length_append]; omega
  rw [e1, e2, e3]

theorem load_all (r : Nat) : ∀ (d : Dict) (p : Bytes) (e : Dict), OkMap d →
    loadchk (p ++ savechk d r) p.length e = some ((d.foldl (fun e t => e.set t.1 t.2) e).set isom [])
  | [], p, e, _ => by
    simp only [savechk, List.map_nil, List.flatten_nil, List.nil_append, List.foldl_nil]
    have hi : isom.length = 4 := rfl
    have h4 := i2b4_length ((r ||| 0x80000000 : Nat) : Int)
    have hv := (C14_read_written ((r ||| 0x80000000 : Nat) : Int) (p ++ isom) []).2.2
    rw [List.append_nil, List.append_assoc, List.length_append, hi] at hv
    rw [loadchk, dif_pos (by simp only [List.length_append]; omega), hv]
    simp only
    have e1 : ((p ++ (isom ++ i2b4 ((r ||| 0x80000000 : Nat) : Int))).drop p.length).take 4 = isom := by
      rw [List.drop_left, List.take_append_of_le_length (by omega), List.take_of_length_le (by omega)]
    have e2 : (p ++ (isom ++ i2b4 ((r ||| 0x80000000 : Nat) : Int))).drop (p.length + 8) = [] :=
      List.drop_of_length_le (by simp only [List.length_append]; omega)
    rw [e1, e2, loadchk, dif_neg, List.take_nil]
    simp only [List.length_append]
    omega
  | (nm, c) :: d, p, e, h => by
    have hn : nm.length = 4 := h.names (nm, c) (by simp)
    have hc : c.length < 2 ^ 32 := h.short (nm, c) (by simp)
    have h4 := i2b4_length c.length
    have hs : savechk ((nm, c) :: d) r = nm ++ i2b4 c.length ++ (c ++ savechk d r) := by
      simp only [savechk, List.map_cons, List.flatten_cons, List.append_assoc]
    have hv := (C14_read_written (c.length : Int) (p ++ nm) (c ++ savechk d r)).2.2
    have hm : ((c.length : Int) % 2 ^ 32).toNat = c.length := by omega
    rw [List.length_append, hn, hm] at hv
    rw [hs, load_one p nm c _ e _ hn (by rw [← hv]; simp only [List.append_assoc])]
    have ih := load_all r d (p ++ (nm ++ i2b4 c.length ++ c)) (e.set nm c)
      ⟨fun t ht => h.names t (by simp [ht]), by have := h.nodup; simp only [List.map_cons, List.nodup_cons] at this; exact this.2, fun t ht => h.short t (by simp [ht])⟩
    rw [show p ++ (nm ++ i2b4 c.length ++ (c ++ savechk d r)) = p ++ (nm ++ i2b4 c.length ++ c) ++ savechk d r by simp only [List.append_assoc]]
    rw [ih]
    rfl

theorem set_new : ∀ {d : Dict} {k v : Bytes}, k ∉ d.map Prod.fst → d.set k v = d ++ [(k, v)]
  | [], k, v, _ => rfl
  | (a, x) :: d, k, v, h => by
    simp only [List.map_cons, List.mem_cons, not_or] at h
    simp only [Dict.set, if_neg (Ne.symm h.1), set_new h.2, List.cons_append]

theorem foldl_set : ∀ (d e : Dict), ((e ++ d).map Prod.fst).Nodup → d.foldl (fun e t => e.set t.1 t.2) e = e ++ d
  | [], e, _ => by simp
  | (k, v) :: d, e, h => by
    simp only [List.foldl_cons]
    have h1 : k ∉ e.map Prod.fst := by
      simp only [List.map_append, List.map_cons] at h
      have := (List.nodup_append.1 h).2.2
      intro hk
      exact this k hk k (by simp) rfl
    rw [set_new h1, foldl_set d (e ++ [(k, v)]) (by simpa using h)]
    simp

/-- **C10 (exactly what is loaded).** Loading what was saved gives back all sections with their contents and in their order, except that the section
`ISOM` is empty afterwards (and is added at the end if there was none). -/
theorem C10_roundtrip_partial (d : Dict) (r : Nat) (h : OkMap d) : loadchk (savechk d r) 0 [] = some (d.set isom []) := by
  have := load_all r d [] [] h
  rw [List.nil_append] at this
  rw [show (0 : Nat) = ([] : Bytes).length from rfl, this, foldl_set d [] (by simpa using h.nodup)]
  rfl

theorem set_get : ∀ (d : Dict) (k v j : Bytes), (d.set k v).get j = if j = k then some v else d.get j
  | [], k, v, j => by
    by_cases h : j = k
    · subst h; simp [Dict.set, Dict.get]
    · simp [Dict.set, Dict.get, h, Ne.symm h]
  | (a, x) :: d, k, v, j => by
    have ih := set_get d k v j
    unfold Dict.get at ih ⊢
    simp only [Dict.set]
    by_cases hk : a = k
    · subst hk
      by_cases h : j = a
      · subst h; simp
      · simp [h, Ne.symm h]
    · simp only [if_neg hk, List.find?_cons]
      by_cases hj : a = j
      · subst hj; simp [hk]
      · simp only [hj, decide_false]; exact ih

/-- **C10 (contents).** Every section other than `ISOM` reads the same after saving and loading, and a section that was not there is not there. -/
theorem C10_sections_partial (d : Dict) (r : Nat) (h : OkMap d) :
    ∃ e, loadchk (savechk d r) 0 [] = some e ∧ (∀ k, k ≠ isom → e.get k = d.get k) ∧
      e.filter (fun t => t.1 ≠ isom) = d.filter (fun t => t.1 ≠ isom) := by
  refine ⟨_, C10_roundtrip_partial d r h, fun k hk => by rw [set_get, if_neg hk], ?_⟩
  clear h
  induction d with
  | nil => simp [Dict.set]
  | cons t d ih =>
    obtain ⟨a, x⟩ := t
    simp only [Dict.set]
    by_cases ha : a = isom
    · simp [ha]
    · simp [ha] at ih ⊢
      exact ih

/-- **C10 (access).** `setsection`/`getsection`/`delsection` behave like a table keyed by padded names. -/
theorem C10_access (d : Dict) (n j v : Bytes) {k : Bytes} (hk : sectionName n = some k) :
    (d.set k v).get j = (if j = k then some v else d.get j) ∧ (d.del k).get j = (if j = k then none else d.get j) ∧
      k.length = 4 ∧ n <+: k := by
  refine ⟨set_get d k v j, ?_, ?_⟩
  · clear hk
    unfold Dict.get Dict.del
    induction d with
    | nil => simp
    | cons t d ih =>
      by_cases ht : t.1 = k
      · subst ht
        simp only [List.filter_cons, ne_eq, not_true_eq_false, decide_false, Bool.false_eq_true, if_false, List.find?_cons] at ih ⊢
        rw [ih]
        by_cases hj : j = t.1
        · simp [hj]
        · simp [hj, Ne.symm hj]
      · simp only [List.filter_cons, ne_eq, ht, not_false_eq_true, decide_true, if_true, List.find?_cons] at ih ⊢
        by_cases hj : t.1 = j
        · have : j ≠ k := fun e => ht (hj.trans e)
          simp [hj, this]
        · simp only [hj, decide_false]; exact ih
  · unfold sectionName at hk
    split at hk
    · cases hk
      refine ⟨by simp only [List.length_append, List.length_replicate]; omega, List.prefix_append _ _⟩
    · split at hk
      · simp at hk
      · cases hk
        exact ⟨by omega, List.prefix_refl _⟩

/-- Example of a map with two sections. -/
example : OkMap [([0x56, 0x45, 0x52, 0x20], [59, 0]), ([0x44, 0x49, 0x4D, 0x20], [64, 0, 64, 0])] :=
  ⟨by decide, by decide, by decide⟩

/-- **C10 is false for `ISOM`**: a map that has contents there loses them. -/
theorem C10_counterexample : OkMap [(isom, [1, 2, 3])] ∧ ∀ r, loadchk (savechk [(isom, [1, 2, 3])] r) 0 [] = some [(isom, [])] := by
  have h : OkMap [(isom, [1, 2, 3])] := ⟨by decide, by decide, by decide⟩
  exact ⟨h, fun r => C10_roundtrip_partial _ r h⟩

end Eud.Map
