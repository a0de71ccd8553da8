import Verif.Machine.Call

/-!
# `NonSeqCompute` and `SetVariables`

`SetVariables` is `SeqCompute` in the order written.  `NonSeqCompute` first puts its pairs in another order, so that `SeqCompute` can start several
variables with one trigger; functions use it to pass three or more variables.  A simultaneous assignment is what users expect of both: every
destination changes by the values the sources had *before*.
-/

namespace Eud.SC

/-! ## The specification -/

/-- Simultaneous assignment: every destination is updated by its old value and the old value of its source; nothing else changes. -/
def Simul (l : List Asg) (s s' : Mem) : Prop :=
  (∀ g ∈ l, s' g.a = arith g.md (s g.a) (g.src.valM s)) ∧ ∀ x, (∀ g ∈ l, x ≠ g.a) → s' x = s x

/-- No destination occurs twice, and no source is a destination. -/
def Disj (l : List Asg) : Prop :=
  (l.map (·.a)).Nodup ∧ ∀ g ∈ l, ∀ h ∈ l, ∀ v, h.src = .var v → v + 348 ≠ g.a

/-! ## The order `NonSeqCompute` uses -/

/-- A destination: an `EUDVariable` object, or an EPD of any dword. -/
inductive NDst
  | var (v : Nat)
  | cell (a : Nat)
deriving DecidableEq

/-- The dword written. -/
def NDst.addr : NDst → Nat
  | .var v => v + 348
  | .cell a => a

/-- A `(dst, mdt, src)` pair of `NonSeqCompute`. -/
structure NPair where
  dst : NDst
  md : Mod
  src : Src

/-- The assignment it stands for. -/
def NPair.asg (p : NPair) : Asg := ⟨p.dst.addr, p.md, p.src⟩

/-- eudv.py:867-869: `IsEUDVariable(src)`. -/
def NPair.srcVar (p : NPair) : Option Nat :=
  match p.src with
  | .var v => some v
  | .const _ => none

/-- eudv.py:865-871: the dictionary's keys, in the order of first insertion. -/
def srcKeys (l : List NPair) : List Nat := l.foldl (fun ks p => match p.srcVar with
  | none => ks
  | some v => if v ∈ ks then ks else ks ++ [v]) []

/-- eudv.py:889-894: `zip_longest(*lists)`, with the fill values left out: all first elements, then all second elements, and so on. -/
def roundRobin {α : Type} (ls : List (List α)) : List α :=
  (List.range ((ls.map List.length).foldl max 0)).flatMap fun i => ls.filterMap (·[i]?)

/-- eudv.py:855-894 `NonSeqCompute`: the order in which the pairs are given to `SeqCompute`; `none` when the assertion (876-880) fails.  `key` is
Python's `id` of the destination; the theorems hold for every `key`.  The second sort, by `getattr(mdt, "_name", "")`, compares equal strings for
the modifiers `SetTo`, `Add`, `Subtract` (constenc.py:69-80 define no `_name`), and is stable, so it changes nothing. -/
def nonSeq (key : NDst → Nat) (l : List NPair) : Option (List NPair) :=
  let ks := srcKeys l
  if ks = [] then some l
  else if l.any (fun p => match p.dst with | .var v => decide (v ∈ ks) | .cell _ => false) then none
  else
    let lists := ks.map fun v => (l.filter fun p => p.srcVar == some v).mergeSort (fun p q => decide (key p.dst ≤ key q.dst))
    some (l.filter (fun p => p.srcVar == none) ++ roundRobin lists)

/-! ## It is a permutation -/

theorem flatMap_app_perm {α β : Type} (f g : α → List β) : ∀ l : List α, (l.flatMap fun i => f i ++ g i).Perm (l.flatMap f ++ l.flatMap g)
  | [] => by simp
  | a :: l => by
    simp only [List.flatMap_cons]
    have := flatMap_app_perm f g l
    refine ((this.append_left (f a ++ g a))).trans ?_
    simp only [List.append_assoc]
    refine List.Perm.append_left _ ?_
    rw [← List.append_assoc, ← List.append_assoc]
    exact (List.perm_append_comm).append_right _

theorem range_get {α : Type} : ∀ (l : List α) (n : Nat), l.length ≤ n → ((List.range n).flatMap fun i => (l[i]?).toList) = l
  | [], n, _ => by
    rw [List.flatMap_eq_nil_iff]; simp
  | a :: l, 0, h => by simp at h
  | a :: l, n + 1, h => by
    rw [List.range_succ_eq_map, List.flatMap_cons, List.flatMap_map]
    simp only [List.getElem?_cons_zero, Option.toList_some, List.getElem?_cons_succ]
    rw [range_get l n (by simpa using h)]; rfl

theorem rr_perm {α : Type} : ∀ (ls : List (List α)) (n : Nat), (∀ l ∈ ls, l.length ≤ n) →
    ((List.range n).flatMap fun i => ls.filterMap (·[i]?)).Perm ls.flatten
  | [], n, _ => by
    simp
  | l :: ls, n, h => by
    have e : (fun i : Nat => (l :: ls).filterMap (·[i]?)) = fun i => (l[i]?).toList ++ ls.filterMap (·[i]?) := by
      funext i
      simp only [List.filterMap_cons]
      cases l[i]? <;> rfl
    rw [e]
    refine (flatMap_app_perm _ _ _).trans ?_
    rw [range_get l n (h l (by simp)), List.flatten_cons]
    exact (rr_perm ls n (fun k hk => h k (by simp [hk]))).append_left l

theorem le_foldl_max : ∀ (l : List Nat) (n : Nat), n ≤ l.foldl max n ∧ ∀ x ∈ l, x ≤ l.foldl max n
  | [], n => ⟨Nat.le_refl _, by simp⟩
  | a :: l, n => by
    obtain ⟨h1, h2⟩ := le_foldl_max l (max n a)
    refine ⟨by simp only [List.foldl_cons]; omega, ?_⟩
    intro x hx
    simp only [List.mem_cons] at hx
    simp only [List.foldl_cons]
    rcases hx with rfl | hx
    · omega
    · exact h2 x hx

theorem roundRobin_perm {α : Type} (ls : List (List α)) : (roundRobin ls).Perm ls.flatten :=
  rr_perm ls _ fun l hl => (le_foldl_max (ls.map List.length) 0).2 _ (List.mem_map_of_mem hl)

theorem srcKeys_go : ∀ (l : List NPair) (ks : List Nat), ks.Nodup →
    (l.foldl (fun ks p => match p.srcVar with
      | none => ks
      | some v => if v ∈ ks then ks else ks ++ [v]) ks).Nodup ∧
    ∀ v, v ∈ (l.foldl (fun ks p => match p.srcVar with
      | none => ks
      | some v => if v ∈ ks then ks else ks ++ [v]) ks) ↔ v ∈ ks ∨ ∃ p ∈ l, p.srcVar = some v
  | [], ks, h => ⟨h, by simp⟩
  | p :: l, ks, h => by
    simp only [List.foldl_cons]
    cases hp : p.srcVar with
    | none =>
      simp only []
      obtain ⟨h1, h2⟩ := srcKeys_go l ks h
      refine ⟨h1, fun v => (h2 v).trans ?_⟩
      simp [hp]
    | some w =>
      simp only []
      by_cases hw : w ∈ ks
      · rw [if_pos hw]
        obtain ⟨h1, h2⟩ := srcKeys_go l ks h
        refine ⟨h1, fun v => (h2 v).trans ?_⟩
        simp only [List.mem_cons, exists_eq_or_imp, hp, Option.some.injEq]
        constructor
        · rintro (a | a)
          · exact .inl a
          · exact .inr (.inr a)
        · rintro (a | a | a)
          · exact .inl a
          · exact .inl (a ▸ hw)
          · exact .inr a
      · rw [if_neg hw]
        obtain ⟨h1, h2⟩ := srcKeys_go l (ks ++ [w]) (by
          rw [List.nodup_append]
          refine ⟨h, by simp, ?_⟩
          intro a ha b hb e
          simp only [List.mem_singleton] at hb
          exact hw (hb ▸ e ▸ ha))
        refine ⟨h1, fun v => (h2 v).trans ?_⟩
        simp only [List.mem_append, List.mem_singleton, List.mem_cons, List.not_mem_nil, or_false, exists_eq_or_imp, hp, Option.some.injEq]
        constructor
        · rintro ((a | a) | a)
          · exact .inl a
          · exact .inr (.inl a.symm)
          · exact .inr (.inr a)
        · rintro (a | a | a)
          · exact .inl (.inl a)
          · exact .inl (.inr a.symm)
          · exact .inr a

theorem srcKeys_spec (l : List NPair) : (srcKeys l).Nodup ∧ ∀ v, v ∈ srcKeys l ↔ ∃ p ∈ l, p.srcVar = some v := by
  obtain ⟨h1, h2⟩ := srcKeys_go l [] (by simp)
  exact ⟨h1, fun v => (h2 v).trans (by simp)⟩

theorem groups_perm (key : NDst → Nat) (l : List NPair) : ∀ ks : List Nat, ks.Nodup →
    ((ks.map fun v => (l.filter fun p => p.srcVar == some v).mergeSort (fun p q => decide (key p.dst ≤ key q.dst))).flatten).Perm
      (l.filter fun p => match p.srcVar with | none => false | some v => decide (v ∈ ks))
  | [], _ => by
    have : (l.filter fun p => match p.srcVar with | none => false | some v => decide (v ∈ ([] : List Nat))) = [] := by
      rw [List.filter_eq_nil_iff]
      intro p _
      cases p.srcVar <;> simp
    rw [this]; exact .nil
  | v :: ks, h => by
    simp only [List.nodup_cons] at h
    rw [List.map_cons, List.flatten_cons]
    refine ((List.mergeSort_perm _ _).append (groups_perm key l ks h.2)).trans ?_
    refine (?_ : List.Perm _ _).trans (List.filter_append_perm (fun p : NPair => p.srcVar == some v) _)
    rw [List.filter_filter, List.filter_filter]
    have e1 : (l.filter fun p => p.srcVar == some v) = l.filter fun p => (p.srcVar == some v) && (match p.srcVar with | none => false | some w => decide (w ∈ v :: ks)) := by
      apply List.filter_congr
      intro p _
      cases hp : p.srcVar with
      | none => simp
      | some w =>
        by_cases e : w = v <;> simp [e]
    have e2 : (l.filter fun p => match p.srcVar with | none => false | some w => decide (w ∈ ks)) =
        l.filter fun p => (!(p.srcVar == some v)) && (match p.srcVar with | none => false | some w => decide (w ∈ v :: ks)) := by
      apply List.filter_congr
      intro p _
      cases hp : p.srcVar with
      | none => simp
      | some w =>
        by_cases e : w = v
        · subst e; simp [h.1]
        · simp [e]
    rw [← e1, ← e2]

/-- `NonSeqCompute` performs exactly the assignments given, in some order. -/
theorem nonSeq_perm {key : NDst → Nat} {l o : List NPair} (h : nonSeq key l = some o) : o.Perm l := by
  unfold nonSeq at h
  simp only at h
  split at h
  · simp only [Option.some.injEq] at h; rw [h]
  · split at h
    · simp at h
    · simp only [Option.some.injEq] at h
      obtain ⟨hn, hm⟩ := srcKeys_spec l
      rw [← h]
      refine (((roundRobin_perm _).trans (groups_perm key l _ hn)).append_left _).trans ?_
      refine (?_ : List.Perm _ _).trans (List.filter_append_perm (fun p : NPair => p.srcVar == none) l)
      refine List.Perm.append_left _ (List.Perm.of_eq ?_)
      apply List.filter_congr
      intro p hp
      cases hq : p.srcVar with
      | none => simp
      | some w => simp [(hm w).2 ⟨p, hp, hq⟩]

/-- When the assertion passes, no variable given as a destination is a source. -/
theorem nonSeq_assert {key : NDst → Nat} {l o : List NPair} (h : nonSeq key l = some o) : ∀ p ∈ l, ∀ q ∈ l, ∀ v w, p.dst = .var v → q.src = .var w → w ≠ v := by
  intro p hp q hq v w hv hw e
  subst e
  have hk : w ∈ srcKeys l := ((srcKeys_spec l).2 w).2 ⟨q, hq, by simp [NPair.srcVar, hw]⟩
  unfold nonSeq at h
  simp only at h
  split at h
  · rename_i h0; rw [h0] at hk; simp at hk
  · split at h
    · simp at h
    · rename_i h2
      apply h2
      rw [List.any_eq_true]
      exact ⟨p, hp, by simp [hv, hk]⟩

/-! ## Its meaning -/

/-- One after the other is simultaneous, when the assignments are apart. -/
theorem runAsg_simul : ∀ {l : List Asg} (_ : Disj l) (s : Mem), Simul l s (runAsg l s)
  | [], _, s => ⟨by simp, fun _ _ => rfl⟩
  | g :: l, ⟨h1, h2⟩, s => by
    simp only [List.map_cons, List.nodup_cons, List.mem_map, not_exists, not_and] at h1
    obtain ⟨i1, i2⟩ := runAsg_simul (l := l) ⟨h1.2, fun a ha b hb => h2 a (by simp [ha]) b (by simp [hb])⟩
      (s.set g.a (arith g.md (s g.a) (g.src.valM s)))
    refine ⟨?_, fun x hx => ?_⟩
    · intro k hk
      simp only [List.mem_cons] at hk
      simp only [runAsg]
      rcases hk with rfl | hk
      · rw [i2 k.a (fun k hk e => h1.1 k hk e.symm), set_eq]
      · rw [i1 k hk, set_ne (fun e => h1.1 k hk e)]
        congr 1
        cases hs : k.src with
        | const w => rfl
        | var v => exact set_ne (h2 g (by simp) k (by simp [hk]) v hs)
    · simp only [runAsg]
      rw [i2 x (fun k hk => hx k (by simp [hk])), set_ne (hx g (by simp))]

theorem Simul.det {l : List Asg} {s a b : Mem} (ha : Simul l s a) (hb : Simul l s b) : a = b := by
  funext x
  by_cases h : ∃ g ∈ l, x = g.a
  · obtain ⟨g, hg, rfl⟩ := h
    rw [ha.1 g hg, hb.1 g hg]
  · have : ∀ g ∈ l, x ≠ g.a := fun g hg e => h ⟨g, hg, e⟩
    rw [ha.2 x this, hb.2 x this]

theorem Disj.perm {l k : List Asg} (h : Disj l) (hp : k.Perm l) : Disj k :=
  ⟨(hp.map _).nodup_iff.2 h.1, fun g hg q hq => h.2 g (hp.mem_iff.1 hg) q (hp.mem_iff.1 hq)⟩

/-- The order of assignments that are apart does not matter. -/
theorem runAsg_perm {l k : List Asg} (h : Disj l) (hp : k.Perm l) (s : Mem) : runAsg k s = runAsg l s := by
  refine Simul.det (l := l) ?_ (runAsg_simul h s)
  obtain ⟨h1, h2⟩ := runAsg_simul (h.perm hp) s
  exact ⟨fun g hg => h1 g (hp.mem_iff.2 hg), fun x hx => h2 x (fun g hg => hx g (hp.mem_iff.1 hg))⟩

/-- **C19 (`SetVariables`).** `SetVariables` (and `SeqCompute`), with no destination twice and no source a destination: simultaneous assignment. -/
theorem C19_setvariables {L : Layout} {gs : List Asg} (hc : ∀ g ∈ gs, L.cell g.a) (hv : ∀ g ∈ gs, ∀ v, g.src = .var v → v ∈ L.P.vars) (ha : Disj gs) (s : Mem) :
    Does L (.asg gs) s fun s' => Simul gs s s' :=
  ⟨_, .asg hc hv, runAsg_simul ha s⟩

/-- **C19 (`NonSeqCompute`).** When `NonSeqCompute` accepts its arguments and no destination occurs twice: whatever order it chooses, the code it
emits performs the simultaneous assignment.  That no variable is both source and destination it checks itself; for a destination given as an
address (`NDst.cell`) it does not. -/
theorem C19_nonseq {L : Layout} {key : NDst → Nat} {l o : List NPair} (hn : nonSeq key l = some o)
    (hc : ∀ p ∈ l, L.cell p.dst.addr) (hv : ∀ p ∈ l, ∀ v, p.src = .var v → v ∈ L.P.vars)
    (hd : (l.map fun p => p.dst.addr).Nodup) (ha : ∀ p ∈ l, ∀ q ∈ l, ∀ a v, p.dst = .cell a → q.src = .var v → v + 348 ≠ a) (s : Mem) :
    Does L (.asg (o.map NPair.asg)) s fun s' => Simul (l.map NPair.asg) s s' := by
  have hp : (o.map NPair.asg).Perm (l.map NPair.asg) := (nonSeq_perm hn).map _
  have hap : Disj (l.map NPair.asg) := by
    refine ⟨by rw [List.map_map]; exact hd, ?_⟩
    intro g hg h hh v hsv
    obtain ⟨p, hp, rfl⟩ := List.mem_map.1 hg
    obtain ⟨q, hq, rfl⟩ := List.mem_map.1 hh
    show v + 348 ≠ p.dst.addr
    cases hd : p.dst with
    | cell a => exact ha p hp q hq a v hd hsv
    | var w =>
      have := nonSeq_assert hn p hp q hq w v hd hsv
      simp only [NDst.addr]
      omega
  refine ⟨_, .asg ?_ ?_, ?_⟩
  · intro g hg
    obtain ⟨p, hp', rfl⟩ := List.mem_map.1 (hp.mem_iff.1 hg)
    exact hc p hp'
  · intro g hg v hs
    obtain ⟨p, hp', rfl⟩ := List.mem_map.1 (hp.mem_iff.1 hg)
    exact hv p hp' v hs
  · rw [runAsg_perm hap hp]
    exact runAsg_simul hap s

/-- **C19 (refutation for `SetVariables`).** `SetVariables([a, b], [b, a])` does not swap: both end up with the old value of `b`. -/
theorem C19_setvariables_swap (a b : Nat) (h : a ≠ b) (s : Mem) (hs : s (a + 348) ≠ s (b + 348)) :
    let gs : List Asg := [⟨a + 348, .set, .var b⟩, ⟨b + 348, .set, .var a⟩]
    runAsg gs s (a + 348) = s (b + 348) ∧ runAsg gs s (b + 348) = s (b + 348) ∧ ¬ Simul gs s (runAsg gs s) := by
  have e1 : b + 348 ≠ a + 348 := by omega
  have r : runAsg [⟨a + 348, .set, .var b⟩, ⟨b + 348, .set, .var a⟩] s (b + 348) = s (b + 348) := by
    simp [runAsg, arith, Src.valM, Mem.set]
  refine ⟨by simp [runAsg, arith, Src.valM, Mem.set, e1.symm], r, ?_⟩
  intro hS
  have := hS.1 ⟨b + 348, .set, .var a⟩ (by simp)
  rw [r] at this
  simp only [arith, Src.valM] at this
  exact hs this.symm

/-- **C19 (`NonSeqCompute` is not sequential).** `NonSeqCompute([(a, SetTo, v), (d, SetTo, v), (d, Add, w)])` adds `w` to `d` first and then sets it:
the sum is lost (`a`'s object being older than `d`'s: `key`). -/
theorem C19_nonseq_order (key : NDst → Nat) (a d v w : Nat) (hk : key (.var a) ≤ key (.var d)) (hv : v ≠ a ∧ v ≠ d ∧ w ≠ a ∧ w ≠ d ∧ v ≠ w ∧ a ≠ d) (s : Mem) :
    let l : List NPair := [⟨.var a, .set, .var v⟩, ⟨.var d, .set, .var v⟩, ⟨.var d, .add, .var w⟩]
    ∃ o, nonSeq key l = some o ∧ runAsg (o.map NPair.asg) s (d + 348) = s (v + 348) ∧
      runAsg (l.map NPair.asg) s (d + 348) = s (v + 348) + s (w + 348) := by
  obtain ⟨h1, h2, h3, h4, h5, h6⟩ := hv
  have e : nonSeq key [⟨.var a, .set, .var v⟩, ⟨.var d, .set, .var v⟩, ⟨.var d, .add, .var w⟩] =
      some [⟨.var a, .set, .var v⟩, ⟨.var d, .add, .var w⟩, ⟨.var d, .set, .var v⟩] := by
    have ek : srcKeys [⟨.var a, .set, .var v⟩, ⟨.var d, .set, .var v⟩, ⟨.var d, .add, .var w⟩] = [v, w] := by
      simp [srcKeys, NPair.srcVar, h5.symm]
    unfold nonSeq
    simp only [ek]
    rw [if_neg (by simp), if_neg (by simp [h1.symm, h2.symm, h3.symm, h4.symm])]
    have f1 : ([⟨.var a, .set, .var v⟩, ⟨.var d, .set, .var v⟩, ⟨.var d, .add, .var w⟩] : List NPair).filter (fun p => p.srcVar == some v) =
        [⟨.var a, .set, .var v⟩, ⟨.var d, .set, .var v⟩] := by
      simp [NPair.srcVar, h5.symm]
    have f2 : ([⟨.var a, .set, .var v⟩, ⟨.var d, .set, .var v⟩, ⟨.var d, .add, .var w⟩] : List NPair).filter (fun p => p.srcVar == some w) =
        [⟨.var d, .add, .var w⟩] := by
      simp [NPair.srcVar, h5]
    have f3 : ([⟨.var a, .set, .var v⟩, ⟨.var d, .set, .var v⟩, ⟨.var d, .add, .var w⟩] : List NPair).filter (fun p => p.srcVar == none) = [] := by
      simp [NPair.srcVar]
    simp only [List.map_cons, List.map_nil, f1, f2, f3]
    have m1 : ([⟨.var a, .set, .var v⟩, ⟨.var d, .set, .var v⟩] : List NPair).mergeSort (fun p q => decide (key p.dst ≤ key q.dst)) =
        [⟨.var a, .set, .var v⟩, ⟨.var d, .set, .var v⟩] := List.mergeSort_of_pairwise (by simp [hk])
    have m2 : ([⟨.var d, .add, .var w⟩] : List NPair).mergeSort (fun p q => decide (key p.dst ≤ key q.dst)) = [⟨.var d, .add, .var w⟩] := by
      simp
    rw [m1, m2]
    rfl
  refine ⟨_, e, ?_, ?_⟩
  · have a1 : v + 348 ≠ d + 348 := by omega
    have a2 : v + 348 ≠ a + 348 := by omega
    simp [runAsg, NPair.asg, NDst.addr, arith, Src.valM, Mem.set, a1, a2, h1, h2]
  · simp [runAsg, NPair.asg, NDst.addr, arith, Src.valM, Mem.set, h1, h2, h3, h4]

/-! ## Calls with three or more variables -/

/-- eudfuncn.py:233-250: the pairs a call gives to `NonSeqCompute`: the assignments of `callAsg`, parameters being variables. -/
def callPairs (nptr back : Nat) (rs : List (Nat × Nat)) (args : List (Nat × Src)) : List NPair :=
  ⟨.cell nptr, .set, .const (BitVec.ofNat 32 back)⟩ :: rs.map (fun r => ⟨.cell (r.1 + 344), .set, .const (epd r.2)⟩) ++
    (args.filter (fun a => match a.2 with | .const _ => true | .var _ => false)).map (fun a => ⟨.var a.1, .set, a.2⟩) ++
    (args.filter (fun a => match a.2 with | .const _ => false | .var _ => true)).map (fun a => ⟨.var a.1, .set, a.2⟩)

theorem callPairs_perm (nptr back : Nat) (rs : List (Nat × Nat)) (args : List (Nat × Src)) :
    ((callPairs nptr back rs args).map NPair.asg).Perm (callAsg nptr back rs (args.map fun a => (a.1 + 348, a.2))) := by
  unfold callPairs callAsg
  simp only [List.map_append, List.map_cons, List.map_map, List.append_assoc, List.cons_append]
  refine List.Perm.cons _ ?_
  refine List.Perm.append (List.Perm.of_eq (by rfl)) ?_
  rw [← List.map_append]
  have := (List.filter_append_perm (fun a : Nat × Src => match a.2 with | .const _ => true | .var _ => false) args)
  have e : (args.filter fun a => !(match a.2 with | .const _ => true | .var _ => false)) = args.filter (fun a => match a.2 with | .const _ => false | .var _ => true) := by
    apply List.filter_congr
    intro a _
    cases a.2 <;> rfl
  rw [e] at this
  exact this.map _

/-- A call site with three or more variable arguments: `NonSeqCompute` of the pairs, then on to the function. -/
structure CallSiteN (L : Layout) (key : NDst → Nat) (e back fstart nptr : Nat) (rs : List (Nat × Nat)) (args : List (Nat × Src)) : Prop where
  code : ∃ o, nonSeq key (callPairs nptr back rs args) = some o ∧ ∃ r b k, Code L r b k (.asg (o.map NPair.asg)) e fstart
  back : back < 2 ^ 32

theorem callAsg_apart {L : Layout} {nptr back : Nat} {rs : List (Nat × Nat)} {args : List (Nat × Src)} {scr : List Nat}
    (hk : CallOk L nptr rs args scr) : Disj (callAsg nptr back rs args) := by
  constructor
  · simp only [callAsg, List.map_append, List.map_cons, List.map_map, List.cons_append]
    rw [List.nodup_cons, List.nodup_append]
    refine ⟨?_, ?_, ?_, ?_⟩
    · simp only [List.mem_append, List.mem_map, not_or, not_exists, not_and]
      exact ⟨fun r hr e => hk.rn r hr e.symm, fun a ha e => (hk.pn a ha).1 e.symm⟩
    · have h := hk.nr
      clear hk
      induction rs with
      | nil => simp
      | cons r rs ih =>
        simp only [List.map_cons, List.nodup_cons, List.mem_map, not_exists, not_and] at h ⊢
        refine ⟨fun q hq e => h.1 q hq ?_, ih h.2⟩
        simp only [Function.comp] at e
        omega
    · exact hk.na
    · intro x hx y hy e
      subst e
      obtain ⟨r, hr, rfl⟩ := List.mem_map.1 hx
      obtain ⟨a, ha, hy⟩ := List.mem_map.1 hy
      exact (hk.pn a ha).2 r hr hy.symm
  · intro g hg h hh v hv
    simp only [callAsg, List.mem_cons, List.mem_append, List.mem_map] at hg hh
    rcases hh with (rfl | ⟨r, hr, rfl⟩) | ⟨a, ha, rfl⟩
    · simp at hv
    · simp at hv
    · rcases hg with (rfl | ⟨r, hr, rfl⟩) | ⟨c, hc, rfl⟩
      · exact (hk.an a ha v hv).1
      · exact (hk.an a ha v hv).2 r hr
      · exact hk.aa c hc a ha v hv

/-- **C31 (calls with three or more variables).** Such a call, whatever the order `NonSeqCompute` chose, means what a call means. -/
theorem C31_call_nonseq {L : Layout} (hw : L.Wf) {key : NDst → Nat} {fstart fend nptr e back : Nat} {rs : List (Nat × Nat)}
    {args : List (Nat × Src)} {scr : List Nat} {body : Stmt} (hF : FuncCode L fstart fend nptr (rs.map Prod.fst) body)
    (hC : CallSiteN L key e back fstart nptr rs args) (hk : CallOk L nptr rs (args.map fun a => (a.1 + 348, a.2)) scr) (r b k : Nat) :
    Code L r b k (.prim (CallRel L fend nptr back body rs (args.map fun a => (a.1 + 348, a.2)))) e back := by
  apply Code.prim
  rintro s s' ⟨o, s2, h1, ho, h2, h3, h4, rfl⟩
  obtain ⟨q, hq, r', b', k', hcode⟩ := hC.code
  obtain ⟨b1, k1, hbody⟩ := hF.body
  have hp : (q.map NPair.asg).Perm (callAsg nptr back rs (args.map fun a => (a.1 + 348, a.2))) :=
    ((nonSeq_perm hq).map _).trans (callPairs_perm _ _ _ _)
  have h1' : Exec L (.asg (q.map NPair.asg)) s .nrm (runAsg (callAsg nptr back rs (args.map fun a => (a.1 + 348, a.2))) s) := by
    rw [← runAsg_perm (callAsg_apart hk) hp]
    cases h1 with
    | asg hc hv =>
      exact .asg (fun g hg => hc g (hp.mem_iff.1 hg)) (fun g hg => hv g (hp.mem_iff.1 hg))
  have c1 : L.Runs s e _ fstart := C25_structured hw h1' hcode
  have c2 : L.Runs (runAsg (callAsg nptr back rs (args.map fun a => (a.1 + 348, a.2))) s) fstart s2 fend := by
    have := C25_structured hw h2 hbody
    rcases ho with rfl | rfl <;> exact this
  exact (c1.trans c2).trans (hF.fend.runs hw h4 hk.hnp hC.back h3).2

end Eud.SC
