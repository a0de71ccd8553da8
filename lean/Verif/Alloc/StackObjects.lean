/-
Model of the object placement of `src/rust/src/allocator/payload.rs`
(`stack_objects`, lines 174-214) and the proofs of C01 and C02.

Simplifications (all in this file):
* `i32`/`usize` values are unbounded `Int`/`Nat` (payloads beyond 2^31 dwords are
  not modelled);
* a Rust panic (index out of range, cast of a negative number used as an index)
  is the value `Res.panic`;
* the `while` loop gets a step budget; running out is `Res.timeout`, and
  theorem `C02_terminates` shows that a sufficient budget always exists.
-/

namespace Eud.Alloc

/-- Outcome of a Rust function: a value, a panic, or "step budget exhausted". -/
inductive Res (α : Type) where
  | ok (a : α)
  | panic
  | timeout
  deriving Repr, DecidableEq

/-- An occupancy map as produced by `ObjAllocator.end_write`: entry `-1` is a free
dword, any other entry is the index where the run of occupied dwords starts. -/
abbrev OccMap := List Int

/-- The conflict table `dwoccupmap_sum` (payload.rs:175): a vector of `size`
entries, `-1` for "free".  The vector is a function plus its length; reads and
writes check the index against `size`. -/
structure Tab where
  size : Nat
  get : Nat → Int

/-- payload.rs:175 `vec![-1; total]`. -/
def Tab.init (n : Nat) : Tab := ⟨n, fun _ => -1⟩

/-- `dwoccupmap_sum[i] = v` -/
def Tab.set (t : Tab) (i : Nat) (v : Int) : Tab :=
  ⟨t.size, fun j => if j = i then v else t.get j⟩

/-- payload.rs:182-191: the search loop of one object.  `la` is `lallocaddr`. -/
def search (occ : OccMap) (t : Tab) : Nat → Nat → Nat → Res Nat
  | 0, _, _ => .timeout
  | fuel + 1, la, i =>
    if h : i < occ.length then
      if occ[i] ≠ -1 then
        if la + i < t.size then
          if t.get (la + i) ≠ -1 then
            -- payload.rs:186: `(sum - occ) as usize`; a negative value becomes a
            -- huge index, i.e. the next access panics
            if t.get (la + i) - occ[i] < 0 then .panic
            else search occ t fuel (t.get (la + i) - occ[i]).toNat 0
          else search occ t fuel la (i + 1)
        else .panic
      else search occ t fuel la (i + 1)
    else .ok la

/-- payload.rs:194-203: the reversed `for` loop that enters an object into the
conflict table; the first argument counts the entries not yet visited, so entry
`n` is processed when the argument is `n + 1`. -/
def applyOcc (occ : OccMap) (la : Nat) : Nat → Tab → Res Tab
  | 0, t => .ok t
  | n + 1, t =>
    if h : n < occ.length then
      if la + n < t.size then
        if occ[n] ≠ -1 ∨ t.get (la + n) ≠ -1 then
          if la + n + 1 < t.size then
            applyOcc occ la n
              (t.set (la + n)
                (if t.get (la + n + 1) = -1 then (la + n : Int) + 1 else t.get (la + n + 1)))
          else .panic
        else applyOcc occ la n t
      else if occ[n] = -1 then .panic  -- reads `dwoccupmap_sum[curoff]`
      else .panic                      -- reads `dwoccupmap_sum[curoff + 1]`
    else .ok t

/-- State of the outer loop of `stack_objects`: table, `lallocaddr`, the
placements in dwords (the code stores `lallocaddr * 4`) and `payload_size` in
dwords (the code stores it in bytes). -/
structure St where
  tab : Tab
  la : Nat
  placed : List Nat
  size : Nat

/-- payload.rs:180-211: one iteration of the outer loop. -/
def placeOne (fuel : Nat) (s : St) (occ : OccMap) : Res St :=
  match search occ s.tab fuel s.la 0 with
  | .ok la =>
    match applyOcc occ la occ.length s.tab with
    | .ok t => .ok ⟨t, la, s.placed ++ [la], max s.size (la + occ.length)⟩
    | .panic => .panic
    | .timeout => .timeout
  | .panic => .panic
  | .timeout => .timeout

/-- payload.rs:180: the outer loop. -/
def placeAll (fuel : Nat) : St → List OccMap → Res St
  | s, [] => .ok s
  | s, o :: os =>
    match placeOne fuel s o with
    | .ok s' => placeAll fuel s' os
    | .panic => .panic
    | .timeout => .timeout

/-- payload.rs:175: `dwoccupmap_list.iter().map(Vec::len).sum()` -/
def totalLen (os : List OccMap) : Nat := (os.map List.length).sum

/-- payload.rs:174-214 `stack_objects`: returns the byte offsets `alloctable` and
the byte size `payload_size`. -/
def stackObjects (fuel : Nat) (os : List OccMap) : Res (List Nat × Nat) :=
  match placeAll fuel ⟨Tab.init (totalLen os), 0, [], 0⟩ os with
  | .ok s => .ok (s.placed.map (· * 4), s.size * 4)
  | .panic => .panic
  | .timeout => .timeout

/-! ## Specification -/

/-- Dword `i` of an object is really used. -/
def Used (o : OccMap) (i : Nat) : Prop := ∃ h : i < o.length, o[i] ≠ -1

/-- Occupancy maps made by the dry run mark runs by their start: an entry is
`-1` or the index of an earlier (or the same) dword. -/
def WF (o : OccMap) : Prop :=
  ∀ i (h : i < o.length), o[i] = -1 ∨ (0 ≤ o[i] ∧ o[i] ≤ i)

/-- Payload dword `d` is used by the object `o` placed at byte address `a`. -/
def Occupies (a : Nat) (o : OccMap) (d : Nat) : Prop :=
  ∃ i, Used o i ∧ a + 4 * i = 4 * d

/-! ## Lemmas -/

/-- What the table means: entries in range tell whether a dword is used by one of
the placed objects; a non-free entry points strictly to the right, at most to `E`. -/
structure TabOK (t : Tab) (S : Nat → Prop) (E : Nat) : Prop where
  mem : ∀ j, t.get j ≠ -1 ↔ S j
  fwd : ∀ j, t.get j ≠ -1 → (j : Int) < t.get j ∧ t.get j ≤ E

theorem search_ok {occ : OccMap} {t : Tab} {S : Nat → Prop} {E : Nat}
    (ht : TabOK t S E) (hw : WF occ) :
    ∀ fuel la i r, la ≤ E →
      (∀ k, k < i → Used occ k → ¬ S (la + k)) →
      search occ t fuel la i = .ok r →
      la ≤ r ∧ r ≤ E ∧ ∀ k, Used occ k → ¬ S (r + k) := by
  intro fuel
  induction fuel with
  | zero => intro la i r _ _ h; simp [search] at h
  | succ n ih =>
    intro la i r hla hfree h
    unfold search at h
    split at h
    · rename_i hi
      split at h
      · rename_i hocc
        split at h
        · split at h
          · rename_i htab
            split at h
            · cases h
            · rename_i hneg
              have hf := ht.fwd _ htab
              have hwi := hw i hi
              have h1 : 0 ≤ occ[i] ∧ occ[i] ≤ i := by
                rcases hwi with h0 | h0
                · exact absurd h0 hocc
                · exact h0
              have hle : (t.get (la + i) - occ[i]).toNat ≤ E := by omega
              have := ih _ 0 r hle (by intro k hk; omega) h
              refine ⟨by omega, this.2.1, this.2.2⟩
          · rename_i htab
            refine ih la (i + 1) r hla ?_ h
            intro k hk hu
            by_cases hki : k = i
            · subst hki
              intro hs
              exact htab ((ht.mem _).2 hs)
            · exact hfree k (by omega) hu
        · cases h
      · rename_i hocc
        refine ih la (i + 1) r hla ?_ h
        intro k hk hu
        by_cases hki : k = i
        · subst hki
          obtain ⟨hl, hne⟩ := hu
          exact absurd hne hocc
        · exact hfree k (by omega) hu
    · rename_i hi
      cases h
      refine ⟨Nat.le_refl _, hla, ?_⟩
      intro k hu
      have : k < occ.length := hu.1
      exact hfree k (by omega) hu

/-- The search never panics when everything in reach is inside the table, and it
ends within `(E - la + 1) * (len + 1)` steps. -/
theorem search_terminates {occ : OccMap} {t : Tab} {S : Nat → Prop} {E : Nat}
    (ht : TabOK t S E) (hw : WF occ) (hsz : E + occ.length ≤ t.size) :
    ∀ fuel la i, la ≤ E → i ≤ occ.length →
      (E - la) * (occ.length + 1) + (occ.length - i) < fuel →
      ∃ r, search occ t fuel la i = .ok r := by
  intro fuel
  induction fuel with
  | zero => intro la i _ _ h; omega
  | succ n ih =>
    intro la i hla hi hfuel
    unfold search
    split
    · rename_i hlt
      split
      · rename_i hocc
        have hin : la + i < t.size := by omega
        simp only [hin, if_true]
        split
        · rename_i htab
          have hf := ht.fwd _ htab
          have h1 : 0 ≤ occ[i] ∧ occ[i] ≤ i := by
            rcases hw i hlt with h0 | h0
            · exact absurd h0 hocc
            · exact h0
          have hnn : ¬ (t.get (la + i) - occ[i] < 0) := by omega
          simp only [hnn, if_false]
          obtain ⟨la', hla'⟩ : ∃ la', (t.get (la + i) - occ[i]).toNat = la' := ⟨_, rfl⟩
          rw [hla']
          have hgt : la < la' ∧ la' ≤ E := by omega
          apply ih la' 0 hgt.2 (Nat.zero_le _)
          have : (E - la') * (occ.length + 1) + (occ.length + 1) ≤ (E - la) * (occ.length + 1) := by
            have h2 : E - la' + 1 ≤ E - la := by omega
            calc (E - la') * (occ.length + 1) + (occ.length + 1)
                = (E - la' + 1) * (occ.length + 1) := by
                  rw [Nat.add_mul, Nat.one_mul]
              _ ≤ _ := Nat.mul_le_mul_right _ h2
          omega
        · apply ih la (i + 1) hla (by omega); omega
      · apply ih la (i + 1) hla (by omega); omega
    · exact ⟨la, rfl⟩

/-- The set after entering the dwords `n ≤ k < len` of the object. -/
def addSet (S : Nat → Prop) (occ : OccMap) (la n : Nat) (j : Nat) : Prop :=
  S j ∨ ∃ k, n ≤ k ∧ Used occ k ∧ j = la + k

theorem applyOcc_spec {occ : OccMap} {la : Nat} {S : Nat → Prop} {E : Nat}
    (hE : la + occ.length ≤ E) :
    ∀ n t, n ≤ occ.length →
      TabOK t (addSet S occ la n) E →
      (∃ t', applyOcc occ la n t = .ok t' ∧ t'.size = t.size ∧
          TabOK t' (addSet S occ la 0) E) ∨
      (applyOcc occ la n t = .panic ∧
          (t.size < la + occ.length ∨
            (la + occ.length = t.size ∧ (Used occ (occ.length - 1) ∨ addSet S occ la n (t.size - 1))))) := by
  intro n
  induction n with
  | zero => intro t _ ht; left; exact ⟨t, rfl, rfl, ht⟩
  | succ n ih =>
    intro t hn ht
    have hlt : n < occ.length := by omega
    unfold applyOcc
    simp only [hlt, dite_true]
    split
    · rename_i hin
      split
      · rename_i hocc
        split
        · rename_i hin1
          -- the entry is rewritten
          have hnew : TabOK (t.set (la + n)
              (if t.get (la + n + 1) = -1 then (la + n : Int) + 1 else t.get (la + n + 1)))
              (addSet S occ la n) E := by
            constructor
            · intro j
              simp only [Tab.set]
              by_cases hj : j = la + n
              · subst hj
                simp only [if_true]
                constructor
                · intro _
                  rcases hocc with h | h
                  · right; exact ⟨n, Nat.le_refl _, ⟨hlt, h⟩, rfl⟩
                  · rcases (ht.mem _).1 h with h | ⟨k, hk, _, he⟩
                    · left; exact h
                    · omega
                · intro _
                  split
                  · omega
                  · assumption
              · simp only [hj, if_false]
                rw [ht.mem]
                constructor
                · rintro (h | ⟨k, hk, hu, he⟩)
                  · left; exact h
                  · right; exact ⟨k, by omega, hu, he⟩
                · rintro (h | ⟨k, hk, hu, he⟩)
                  · left; exact h
                  · right
                    have : k ≠ n := by rintro rfl; exact hj he
                    exact ⟨k, by omega, hu, he⟩
            · intro j
              simp only [Tab.set]
              by_cases hj : j = la + n
              · subst hj
                simp only [if_true]
                intro _
                split
                · omega
                · rename_i h
                  have := ht.fwd _ h
                  omega
              · simp only [hj, if_false]
                exact ht.fwd j
          rcases ih _ (by omega) hnew with ⟨t', h1, h2, h3⟩ | ⟨h1, h2⟩
          · left; exact ⟨t', h1, by rw [h2]; rfl, h3⟩
          · right
            refine ⟨h1, ?_⟩
            rcases h2 with h2 | ⟨h2, h3⟩
            · left; exact h2
            · -- impossible unless the size is hit; the index n+1 was in range
              right
              refine ⟨h2, ?_⟩
              rcases h3 with h3 | h3
              · left; exact h3
              · simp only [Tab.set] at h3 h2
                rcases h3 with h3 | ⟨k, hk, hu, he⟩
                · right; left; exact h3
                · left
                  have := hu.1
                  have : k = occ.length - 1 := by omega
                  rw [← this]; exact hu
        · rename_i hin1
          right
          refine ⟨rfl, ?_⟩
          by_cases hl : n + 1 = occ.length
          · right
            refine ⟨by omega, ?_⟩
            rcases hocc with h | h
            · left
              have : occ.length - 1 = n := by omega
              rw [this]; exact ⟨hlt, h⟩
            · right
              have h' := (ht.mem _).1 h
              have : t.size - 1 = la + n := by omega
              rw [this]; exact h'
          · left; omega
      · rename_i hocc
        have hnone : ¬ Used occ n := by
          rintro ⟨_, h⟩
          exact hocc (Or.inl h)
        have hnew : TabOK t (addSet S occ la n) E := by
          refine ⟨?_, ht.fwd⟩
          intro j
          rw [ht.mem]
          constructor
          · rintro (h | ⟨k, hk, hu, he⟩)
            · left; exact h
            · right; exact ⟨k, by omega, hu, he⟩
          · rintro (h | ⟨k, hk, hu, he⟩)
            · left; exact h
            · right
              have : k ≠ n := by rintro rfl; exact hnone hu
              exact ⟨k, by omega, hu, he⟩
        rcases ih t (by omega) hnew with h | ⟨h1, h2⟩
        · left; exact h
        · right
          refine ⟨h1, ?_⟩
          rcases h2 with h2 | ⟨h2, h3⟩
          · left; exact h2
          · right
            refine ⟨h2, ?_⟩
            rcases h3 with h3 | h3 | ⟨k, hk, hu, he⟩
            · left; exact h3
            · right; left; exact h3
            · left
              have := hu.1
              have : k = occ.length - 1 := by omega
              rw [← this]; exact hu
    · right
      refine ⟨by split <;> rfl, ?_⟩
      left; omega

/-- Set of dwords used by placed objects. -/
def usedBy (ps : List (Nat × OccMap)) (j : Nat) : Prop :=
  ∃ p ∈ ps, ∃ k, Used p.2 k ∧ j = p.1 + k

/-- No two entries of the placement list use the same dword. -/
def Disjoint (ps : List (Nat × OccMap)) : Prop :=
  ps.Pairwise fun p q => ∀ i j, Used p.2 i → Used q.2 j → p.1 + i ≠ q.1 + j

/-- Invariant of the outer loop; `done` are the objects placed so far. -/
structure Inv (s : St) (done : List OccMap) : Prop where
  len : s.placed.length = done.length
  tab : TabOK s.tab (usedBy (s.placed.zip done)) s.size
  dis : Disjoint (s.placed.zip done)
  la : s.la ≤ s.size
  size : s.size ≤ totalLen done
  fits : ∀ p ∈ s.placed.zip done, p.1 + p.2.length ≤ s.size
  mono : s.placed.Pairwise (· ≤ ·)
  last : ∀ p ∈ s.placed, p ≤ s.la

theorem totalLen_append (a b : List OccMap) : totalLen (a ++ b) = totalLen a + totalLen b := by
  simp [totalLen]

theorem totalLen_single (o : OccMap) : totalLen [o] = o.length := by simp [totalLen]

theorem Inv.usedBy_lt {s : St} {done : List OccMap} (h : Inv s done) {j : Nat}
    (hj : usedBy (s.placed.zip done) j) : j < s.size := by
  obtain ⟨p, hp, k, hu, rfl⟩ := hj
  have := h.fits p hp
  have := hu.1
  omega

theorem placeOne_inv {s : St} {done : List OccMap} (hi : Inv s done) {o : OccMap} (hw : WF o)
    {fuel : Nat} {s' : St} (h : placeOne fuel s o = .ok s') :
    Inv s' (done ++ [o]) ∧ s'.tab.size = s.tab.size := by
  unfold placeOne at h
  split at h
  · rename_i la hs
    have hso := search_ok hi.tab hw fuel s.la 0 la hi.la (by intro k hk; omega) hs
    obtain ⟨h1, h2, h3⟩ := hso
    -- widen the bound of the table
    have hT : TabOK s.tab (addSet (usedBy (s.placed.zip done)) o la o.length)
        (max s.size (la + o.length)) := by
      constructor
      · intro j
        rw [hi.tab.mem]
        constructor
        · intro h; left; exact h
        · rintro (h | ⟨k, hk, hu, _⟩)
          · exact h
          · have := hu.1; omega
      · intro j hj
        have := hi.tab.fwd j hj
        omega
    have ha := applyOcc_spec (S := usedBy (s.placed.zip done)) (la := la) (occ := o)
      (E := max s.size (la + o.length)) (Nat.le_max_right _ _) o.length s.tab (Nat.le_refl _) hT
    rcases ha with ⟨t', he, hsz, htok⟩ | ⟨he, _⟩
    · rw [he] at h
      simp only [Res.ok.injEq] at h
      subst h
      have hz : (s.placed ++ [la]).zip (done ++ [o]) = s.placed.zip done ++ [(la, o)] := by
        rw [List.zip_append hi.len]; rfl
      refine ⟨⟨?_, ?_, ?_, ?_, ?_, ?_, ?_, ?_⟩, hsz⟩
      · simp [hi.len]
      · constructor
        · intro j
          show t'.get j ≠ -1 ↔ _
          rw [htok.mem]
          simp only [hz]
          constructor
          · rintro (⟨p, hp, r⟩ | ⟨k, _, hu, he⟩)
            · exact ⟨p, by simp [hp], r⟩
            · exact ⟨(la, o), by simp, k, hu, he⟩
          · rintro ⟨p, hp, k, hu, he⟩
            simp only [List.mem_append, List.mem_singleton] at hp
            rcases hp with hp | hp
            · left; exact ⟨p, hp, k, hu, he⟩
            · subst hp; right; exact ⟨k, Nat.zero_le _, hu, he⟩
        · exact htok.fwd
      · simp only [hz]
        unfold Disjoint
        rw [List.pairwise_append]
        refine ⟨hi.dis, by simp, ?_⟩
        intro p hp q hq i j hui huj
        simp only [List.mem_singleton] at hq
        subst hq
        intro he
        exact h3 j huj ⟨p, hp, i, hui, he.symm⟩
      · show la ≤ max s.size (la + o.length); omega
      · rw [totalLen_append, totalLen_single]
        have := hi.size
        show max s.size (la + o.length) ≤ _
        omega
      · simp only [hz]
        intro p hp
        simp only [List.mem_append, List.mem_singleton] at hp
        rcases hp with hp | hp
        · have := hi.fits p hp; omega
        · subst hp; exact Nat.le_max_right _ _
      · show (s.placed ++ [la]).Pairwise _
        rw [List.pairwise_append]
        refine ⟨hi.mono, by simp, ?_⟩
        intro a ha b hb
        simp only [List.mem_singleton] at hb
        have := hi.last a ha
        omega
      · intro p hp
        have hp' : p ∈ s.placed ∨ p = la := by
          simpa using hp
        rcases hp' with hp' | hp'
        · have := hi.last p hp'; show p ≤ la; omega
        · show p ≤ la; omega
    · rw [he] at h; cases h
  · cases h
  · cases h

theorem placeAll_inv {fuel : Nat} : ∀ (os : List OccMap) {s : St} {done : List OccMap} {s' : St},
    Inv s done → (∀ o ∈ os, WF o) → placeAll fuel s os = .ok s' →
    Inv s' (done ++ os)
  | [], s, done, s', hi, _, h => by
    simp only [placeAll, Res.ok.injEq] at h
    subst h
    simpa using hi
  | o :: os, s, done, s', hi, hw, h => by
    unfold placeAll at h
    split at h
    · rename_i s1 h1
      have hi1 := placeOne_inv hi (hw o (by simp)) h1
      have := placeAll_inv os hi1.1 (fun o' ho' => hw o' (by simp [ho'])) h
      simpa using this
    · cases h
    · cases h

theorem inv_init (n : Nat) : Inv ⟨Tab.init n, 0, [], 0⟩ [] := by
  constructor
  · rfl
  · constructor
    · intro j
      constructor
      · intro h; exact absurd rfl h
      · rintro ⟨p, hp, _⟩; simp at hp
    · intro j h; exact absurd rfl h
  · exact List.Pairwise.nil
  · exact Nat.le_refl _
  · exact Nat.zero_le _
  · simp
  · exact List.Pairwise.nil
  · simp

theorem zip_map_mul (l : List Nat) (os : List OccMap) :
    (l.map (· * 4)).zip os = (l.zip os).map (fun p => (p.1 * 4, p.2)) := by
  rw [List.zip_map_left]
  congr 1

theorem placeOne_terminates {s : St} {done : List OccMap} (hi : Inv s done) {o : OccMap} (hw : WF o)
    (hsz : totalLen (done ++ [o]) ≤ s.tab.size) {fuel : Nat}
    (hf : s.size * (o.length + 1) + o.length < fuel) :
    (∃ s', placeOne fuel s o = .ok s') ∨
    (placeOne fuel s o = .panic ∧ totalLen (done ++ [o]) = s.tab.size ∧
      s.size = totalLen done ∧ Used o (o.length - 1)) := by
  have hsize := hi.size
  rw [totalLen_append, totalLen_single] at hsz
  have hterm := search_terminates hi.tab hw (by omega) fuel s.la 0 hi.la (Nat.zero_le _)
    (by
      have h1 : (s.size - s.la) * (o.length + 1) ≤ s.size * (o.length + 1) :=
        Nat.mul_le_mul_right _ (by omega)
      omega)
  obtain ⟨la, hs⟩ := hterm
  obtain ⟨h1, h2, h3⟩ := search_ok hi.tab hw fuel s.la 0 la hi.la (by intro k hk; omega) hs
  have hT : TabOK s.tab (addSet (usedBy (s.placed.zip done)) o la o.length)
      (max s.size (la + o.length)) := by
    constructor
    · intro j
      rw [hi.tab.mem]
      constructor
      · intro h; left; exact h
      · rintro (h | ⟨k, hk, hu, _⟩)
        · exact h
        · have := hu.1; omega
    · intro j hj
      have := hi.tab.fwd j hj
      omega
  have ha := applyOcc_spec (S := usedBy (s.placed.zip done)) (la := la) (occ := o)
    (E := max s.size (la + o.length)) (Nat.le_max_right _ _) o.length s.tab (Nat.le_refl _) hT
  rcases ha with ⟨t', he, _, _⟩ | ⟨he, hp⟩
  · left
    refine ⟨⟨t', la, s.placed ++ [la], max s.size (la + o.length)⟩, ?_⟩
    unfold placeOne
    rw [hs]; simp only [he]
  · right
    refine ⟨?_, ?_⟩
    · unfold placeOne
      rw [hs]; simp only [he]
    · rcases hp with hp | ⟨hp, hq⟩
      · omega
      · rw [totalLen_append, totalLen_single]
        refine ⟨by omega, by omega, ?_⟩
        rcases hq with hq | hq | ⟨k, hk, hu, _⟩
        · exact hq
        · have := hi.usedBy_lt hq
          by_cases h0 : o.length = 0
          · -- an empty object cannot make `applyOcc` panic
            exfalso
            have : applyOcc o la o.length s.tab = .ok s.tab := by rw [h0]; rfl
            rw [this] at he; cases he
          · omega
        · have := hu.1; omega

theorem placeAll_terminates : ∀ (os : List OccMap) (s : St) (done : List OccMap),
    Inv s done → (∀ o ∈ os, WF o) → totalLen (done ++ os) ≤ s.tab.size →
    ∃ n, ∀ fuel, n ≤ fuel →
      (∃ s', placeAll fuel s os = .ok s') ∨
      (placeAll fuel s os = .panic ∧ totalLen (done ++ os) = s.tab.size ∧
        ∃ pre o post, os = pre ++ o :: post ∧ totalLen post = 0 ∧ Used o (o.length - 1))
  | [], s, done, _, _, _ => ⟨0, fun fuel _ => Or.inl ⟨s, rfl⟩⟩
  | o :: os, s, done, hi, hw, hsz => by
    have hcons : totalLen (done ++ o :: os) = totalLen (done ++ [o]) + totalLen os := by
      rw [← totalLen_append]; simp
    rw [hcons] at hsz
    -- the state after the first object does not depend on the budget, once it is large enough
    let n0 := s.size * (o.length + 1) + o.length + 1
    have h0 := placeOne_terminates hi (hw o (by simp)) (by omega : totalLen (done ++ [o]) ≤ s.tab.size)
      (fuel := n0) (by omega)
    rcases h0 with ⟨s1, h1⟩ | ⟨hp, ht, hu⟩
    · have hi1 := placeOne_inv hi (hw o (by simp)) h1
      obtain ⟨m, hm⟩ := placeAll_terminates os s1 (done ++ [o]) hi1.1
        (fun o' ho' => hw o' (by simp [ho'])) (by rw [totalLen_append]; omega)
      refine ⟨max n0 m, fun fuel hfuel => ?_⟩
      have hsame : placeOne fuel s o = .ok s1 := by
        have hmono : ∀ (f : Nat) la i r, search o s.tab f la i = .ok r → ∀ f', f ≤ f' →
            search o s.tab f' la i = .ok r := by
          intro f
          induction f with
          | zero => intro la i r h; simp [search] at h
          | succ f ihf =>
            intro la i r h f' hf'
            obtain ⟨g, rfl⟩ : ∃ g, f' = g + 1 := ⟨f' - 1, by omega⟩
            unfold search at h ⊢
            split
            · rename_i hlt
              simp only [hlt, dite_true] at h
              split
              · rename_i ho
                rw [if_pos ho] at h
                split
                · rename_i hin
                  rw [if_pos hin] at h
                  split
                  · rename_i htb
                    rw [if_pos htb] at h
                    split
                    · rename_i hng
                      rw [if_pos hng] at h; cases h
                    · rename_i hng
                      rw [if_neg hng] at h
                      exact ihf _ _ _ h g (by omega)
                  · rename_i htb
                    rw [if_neg htb] at h
                    exact ihf _ _ _ h g (by omega)
                · rename_i hin
                  rw [if_neg hin] at h; cases h
              · rename_i ho
                rw [if_neg ho] at h
                exact ihf _ _ _ h g (by omega)
            · rename_i hlt
              simp only [hlt, dite_false] at h
              exact h
        unfold placeOne at h1 ⊢
        split at h1
        · rename_i la hs
          rw [hmono _ _ _ _ hs fuel (by omega)]
          exact h1
        · cases h1
        · cases h1
      rcases hm fuel (by omega) with ⟨s', h'⟩ | ⟨h', ht, pre, o', post, hos, hpost, hu⟩
      · left; refine ⟨s', ?_⟩; unfold placeAll; rw [hsame]; exact h'
      · right
        refine ⟨?_, ?_, o :: pre, o', post, by rw [hos]; rfl, hpost, hu⟩
        · unfold placeAll; rw [hsame]; exact h'
        · rw [hi1.2] at ht; rw [hcons, ← totalLen_append, ht]
    · refine ⟨n0, fun fuel hfuel => ?_⟩
      right
      have hz : totalLen os = 0 := by omega
      refine ⟨?_, by rw [hcons]; omega, [], o, os, rfl, hz, hu.2⟩
      rcases placeOne_terminates hi (hw o (by simp)) (by omega : totalLen (done ++ [o]) ≤ s.tab.size)
        (fuel := fuel) (by omega) with ⟨s1, h1⟩ | ⟨hp', _⟩
      · -- the same budget-independence shows this cannot happen
        exfalso
        have hi1 := placeOne_inv hi (hw o (by simp)) h1
        unfold placeOne at hp h1
        obtain ⟨la0, hs0⟩ := search_terminates hi.tab (hw o (by simp))
          (by have := hi.size; rw [totalLen_append, totalLen_single] at ht; omega) n0 s.la 0 hi.la
          (Nat.zero_le _) (by
            have h1 : (s.size - s.la) * (o.length + 1) ≤ s.size * (o.length + 1) :=
              Nat.mul_le_mul_right _ (by omega)
            omega)
        obtain ⟨la1, hs1⟩ := search_terminates hi.tab (hw o (by simp))
          (by have := hi.size; rw [totalLen_append, totalLen_single] at ht; omega) fuel s.la 0 hi.la
          (Nat.zero_le _) (by
            have h1 : (s.size - s.la) * (o.length + 1) ≤ s.size * (o.length + 1) :=
              Nat.mul_le_mul_right _ (by omega)
            omega)
        have heq : la0 = la1 := by
          have hdet : ∀ (f g : Nat) la i r r', search o s.tab f la i = .ok r →
              search o s.tab g la i = .ok r' → r = r' := by
            intro f
            induction f with
            | zero => intro g la i r r' h; simp [search] at h
            | succ f ihf =>
              intro g la i r r' h h'
              cases g with
              | zero => simp [search] at h'
              | succ g =>
                unfold search at h h'
                split at h
                · rename_i hlt
                  simp only [hlt, dite_true] at h'
                  split at h
                  · rename_i ho
                    rw [if_pos ho] at h'
                    split at h
                    · rename_i hin
                      rw [if_pos hin] at h'
                      split at h
                      · rename_i htb
                        rw [if_pos htb] at h'
                        split at h
                        · cases h
                        · rename_i hng
                          rw [if_neg hng] at h'
                          exact ihf _ _ _ _ _ h h'
                      · rename_i htb
                        rw [if_neg htb] at h'
                        exact ihf _ _ _ _ _ h h'
                    · cases h
                  · rename_i ho
                    rw [if_neg ho] at h'
                    exact ihf _ _ _ _ _ h h'
                · rename_i hlt
                  simp only [hlt, dite_false] at h'
                  cases h; cases h'; rfl
          exact hdet _ _ _ _ _ _ hs0 hs1
        subst heq
        rw [hs0] at hp
        rw [hs1] at h1
        simp only at hp h1
        split at h1
        · rename_i t' ht'
          rw [ht'] at hp; cases hp
        · cases h1
        · cases h1
      · unfold placeAll; rw [hp']

/-! ## Theorems -/

/-- **C01.** Whenever placement succeeds, no payload dword is occupied by two
different objects. -/
theorem C01_no_overlap (fuel : Nat) (os : List OccMap) (hw : ∀ o ∈ os, WF o)
    (addrs : List Nat) (size : Nat) (h : stackObjects fuel os = .ok (addrs, size))
    (i j : Nat) (hij : i ≠ j) (hi : i < os.length) (hj : j < os.length)
    (hi' : i < addrs.length) (hj' : j < addrs.length) (d : Nat)
    (h1 : Occupies addrs[i] os[i] d) (h2 : Occupies addrs[j] os[j] d) : False := by
  unfold stackObjects at h
  split at h
  · rename_i s hs
    simp only [Res.ok.injEq, Prod.mk.injEq] at h
    obtain ⟨rfl, rfl⟩ := h
    have hinv := placeAll_inv os (inv_init (totalLen os)) hw hs
    simp only [List.nil_append] at hinv
    have hd := hinv.dis
    unfold Disjoint at hd
    rw [List.pairwise_iff_getElem] at hd
    have key : ∀ a b, a < b → ∀ (ha : a < os.length) (hb : b < os.length)
        (ha' : a < s.placed.length) (hb' : b < s.placed.length),
        Occupies (s.placed[a] * 4) os[a] d → Occupies (s.placed[b] * 4) os[b] d → False := by
      intro a b hab ha hb ha' hb' ⟨x, hx, hxe⟩ ⟨y, hy, hye⟩
      have := hd a b (by simp; omega) (by simp; omega) hab x y
      simp only [List.getElem_zip] at this
      exact this hx hy (by omega)
    simp only [List.length_map] at hi' hj'
    simp only [List.getElem_map] at h1 h2
    rcases Nat.lt_or_gt_of_ne hij with hlt | hgt
    · exact key i j hlt hi hj hi' hj' h1 h2
    · exact key j i hgt hj hi hj' hi' h2 h1
  · cases h
  · cases h

/-- **C02 (partial).** A successful placement gives every object an address, the
addresses are 4-aligned and in creation order, every object ends within the
payload, and the payload is not larger than all objects laid end to end.
Missing for the full claim: success itself, see `C02_terminates_partial` and
`C02_counterexample`. -/
theorem C02_bounds_partial (fuel : Nat) (os : List OccMap) (hw : ∀ o ∈ os, WF o)
    (addrs : List Nat) (size : Nat) (h : stackObjects fuel os = .ok (addrs, size)) :
    addrs.length = os.length ∧ (∀ a ∈ addrs, a % 4 = 0) ∧ addrs.Pairwise (· ≤ ·) ∧
    (∀ i (hi : i < os.length) (hi' : i < addrs.length), addrs[i] + 4 * os[i].length ≤ size) ∧
    size ≤ 4 * totalLen os := by
  unfold stackObjects at h
  split at h
  · rename_i s hs
    simp only [Res.ok.injEq, Prod.mk.injEq] at h
    obtain ⟨rfl, rfl⟩ := h
    have hinv := placeAll_inv os (inv_init (totalLen os)) hw hs
    simp only [List.nil_append] at hinv
    refine ⟨by simpa using hinv.len, ?_, ?_, ?_, ?_⟩
    · intro a ha
      simp only [List.mem_map] at ha
      obtain ⟨b, _, rfl⟩ := ha
      omega
    · rw [List.pairwise_map]
      exact hinv.mono.imp (by intro a b hab; omega)
    · intro i hi hi'
      simp only [List.length_map] at hi'
      have hm : (s.placed[i], os[i]) ∈ s.placed.zip os := by
        rw [List.mem_iff_getElem]
        exact ⟨i, by simp; omega, by simp⟩
      have := hinv.fits _ hm
      simp only [List.getElem_map]
      simp only at this
      omega
    · have := hinv.size
      omega
  · cases h
  · cases h

/-- **C02 (partial).** With enough steps placement always ends, and it ends
successfully unless some object that is followed only by empty ones has its last
dword in use (`C02_counterexample` shows that this exclusion is needed). -/
theorem C02_terminates_partial (os : List OccMap) (hw : ∀ o ∈ os, WF o) :
    ∃ n, ∀ fuel, n ≤ fuel →
      (∃ r, stackObjects fuel os = .ok r) ∨
      (stackObjects fuel os = .panic ∧
        ∃ pre o post, os = pre ++ o :: post ∧ totalLen post = 0 ∧ Used o (o.length - 1)) := by
  obtain ⟨n, hn⟩ := placeAll_terminates os ⟨Tab.init (totalLen os), 0, [], 0⟩ [] (inv_init _) hw
    (by simp [Tab.init])
  refine ⟨n, fun fuel hf => ?_⟩
  rcases hn fuel hf with ⟨s, hs⟩ | ⟨hp, _, hx⟩
  · left
    refine ⟨(s.placed.map (· * 4), s.size * 4), ?_⟩
    unfold stackObjects; rw [hs]
  · right
    refine ⟨?_, hx⟩
    unfold stackObjects; rw [hp]

/-- **C02 (counterexample).** A payload made of one fully used object (one dword)
makes `stack_objects` read past the end of the conflict table, whatever the
budget: the claim that placement never fails is false for the code as written. -/
theorem C02_counterexample : ∀ fuel, 2 ≤ fuel → stackObjects fuel [[0]] = .panic := by
  intro fuel h
  obtain ⟨f, rfl⟩ : ∃ f, fuel = f + 2 := ⟨fuel - 2, by omega⟩
  simp [stackObjects, placeAll, placeOne, search, applyOcc, totalLen, Tab.init]

/-- **C02 (partial).** If the last object ends with an unused dword, placement
always succeeds. -/
theorem C02_succeeds_partial (os : List OccMap) (last : OccMap) (hw : ∀ o ∈ os ++ [last], WF o)
    (hne : last ≠ []) (hfree : ¬ Used last (last.length - 1)) :
    ∃ n, ∀ fuel, n ≤ fuel → ∃ r, stackObjects fuel (os ++ [last]) = .ok r := by
  obtain ⟨n, hn⟩ := C02_terminates_partial (os ++ [last]) hw
  refine ⟨n, fun fuel hf => ?_⟩
  rcases hn fuel hf with h | ⟨_, pre, o, post, he, hz, hu⟩
  · exact h
  · exfalso
    rcases List.eq_nil_or_concat post with rfl | ⟨p, x, rfl⟩
    · have : os ++ [last] = pre ++ [o] := he
      have := List.append_inj_right' this rfl
      simp only [List.cons.injEq, and_true] at this
      subst this
      exact hfree hu
    · have : os ++ [last] = (pre ++ o :: p) ++ [x] := by rw [he]; simp
      have := List.append_inj_right' this rfl
      simp only [List.cons.injEq, and_true] at this
      subst this
      rw [List.concat_eq_append, totalLen_append, totalLen_single] at hz
      have : last.length = 0 := by omega
      exact hne (List.eq_nil_of_length_eq_zero this)

/-! ## Non-vacuity: two objects with holes are interleaved -/

/-- Two objects of five dwords with holes fit into each other: the second is
placed at dword 1 (byte 4), inside the hole of the first. -/
example : stackObjects 100 [[0, -1, -1, -1, 4], [0, 0, -1, -1, -1]] = .ok ([0, 4], 24) := by
  decide

example : WF [0, -1, -1, -1, 4] ∧ WF [0, 0, -1, -1, -1] := by
  unfold WF; decide

example : ¬ Used [0, 0, -1, -1, -1] 4 := by
  rintro ⟨_, h⟩; exact h rfl

end Eud.Alloc
