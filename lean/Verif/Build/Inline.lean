/-
C49: triggers of the original map moved into the payload (src/eudplib/maprw/inlinecode/{btinliner,ilcprocesstrig}.py).

What is modelled is which copies of which trigger run for which player in a trigger cycle, and in what order.  The link between a TRIG
trigger and its code (`_create_inline_code_dispatcher`, inj_finalizer.py) is taken to run the code once, in place of the trigger.
-/

namespace Eud.Inline

/-! ## Model: one trigger at a time (inlining rate below 1) -/

/-- btinliner.py:19-33 `get_executing_players`; `b` is the trigger's bytes, `force` the force of a player. -/
def executing (b : Nat → Nat) (force : Nat → Nat) (p : Nat) : Bool :=
  b (320 + 2048 + 4 + 17) != 0 || b (320 + 2048 + 4 + p) != 0 || b (320 + 2048 + 4 + 18 + force p) != 0

/-- btinliner.py:73 `execp` -/
def execp (ex : Nat → Bool) : List Nat := (List.range 8).filter ex

/-- What is emitted for a trigger: copies that run always, for a range of players, for one player. -/
inductive Part
  | copy
  | guarded (lo hi : Nat)
  | case (players : List Nat)

/-- Number of copies run when the current player is `p`.  A switch runs at most one case. -/
def Part.count (p : Nat) : Part → Nat
  | .copy => 1
  | .guarded lo hi => if lo ≤ p ∧ p ≤ hi then 1 else 0
  | .case l => if p ∈ l then 1 else 0

/-- btinliner.py:73-93, the body of `inline_codify_binary_trigger`; `nw`: `_preserved_and_has_no_wait`; `none` is the `ValueError` of `max([])`. -/
def codify (ex : Nat → Bool) (nw : Bool) : Option (List Part) :=
  let l := execp ex
  let first := if nw && l.length == 8 then [Part.copy] else []
  if nw then
    match l.max?, l.min? with
    | some hi, some lo =>
      if hi - lo = l.length - 1 then some (first ++ [.guarded lo hi]) else some (first ++ [.case l])
    | _, _ => none
  else some (first ++ [.case l])

/-- How often the trigger runs for player `p`. -/
def runs (l : List Part) (p : Nat) : Nat := (l.map (Part.count p)).sum

theorem mem_execp {ex : Nat → Bool} {p : Nat} : p ∈ execp ex ↔ p < 8 ∧ ex p = true := by simp [execp]

/-- In a list without repetitions that is as long as its span, everything between is there. -/
theorem span_full {l : List Nat} {lo hi : Nat} (hn : l.Nodup) (hlo : ∀ x ∈ l, lo ≤ x) (hhi : ∀ x ∈ l, x ≤ hi) (hl : hi - lo = l.length - 1) (hne : l ≠ [])
    {p : Nat} (h1 : lo ≤ p) (h2 : p ≤ hi) : p ∈ l := by
  apply Classical.byContradiction
  intro hp
  have hnd : (p :: l).Nodup := List.nodup_cons.2 ⟨hp, hn⟩
  have hsub : p :: l ⊆ List.range' lo (hi - lo + 1) := by
    intro x hx
    rw [List.mem_range'_1]
    rcases List.mem_cons.1 hx with rfl | hx
    · omega
    · have := hlo x hx; have := hhi x hx; omega
  have := List.Nodup.length_le_of_subset hnd hsub
  have hpos : 0 < l.length := List.length_pos_iff.2 hne
  simp only [List.length_cons, List.length_range'] at this
  omega

/-- **C49 (one trigger).** An inlined trigger runs exactly once for each player it applied to and not at all for the others – unless it is
preserved, has no wait and applies to all eight players, which is false (`C49_counterexample`).  With no player at all and no wait, the
map cannot be built (`C49_counterexample_empty`). -/
theorem C49_single_partial (ex : Nat → Bool) (nw : Bool) {l : List Part} (h : codify ex nw = some l) (hall : nw = true → (execp ex).length ≠ 8)
    {p : Nat} (hp : p < 8) : runs l p = if ex p then 1 else 0 := by
  unfold codify at h
  have hfirst : (if nw && (execp ex).length == 8 then [Part.copy] else []) = [] := by
    cases nw with
    | false => rfl
    | true => simp [hall rfl]
  have hcase : runs [.case (execp ex)] p = if ex p then 1 else 0 := by
    simp [runs, Part.count, mem_execp, hp]
  simp only [hfirst, List.nil_append] at h
  cases nw with
  | false => simp only [Bool.false_eq_true, if_false] at h; cases h; exact hcase
  | true =>
    simp only [if_true] at h
    split at h
    · rename_i hi lo hmax hmin
      split at h
      · rename_i hspan
        cases h
        have h1 := List.max?_eq_some_iff.1 hmax
        have h2 := List.min?_eq_some_iff.1 hmin
        have hne : execp ex ≠ [] := by intro he; rw [he] at h1; simp at h1
        have hnd : (execp ex).Nodup := List.Pairwise.filter _ List.nodup_range
        simp only [runs, List.map_cons, List.map_nil, List.sum_cons, List.sum_nil, Nat.add_zero, Part.count]
        by_cases hx : ex p
        · have := mem_execp.2 ⟨hp, hx⟩
          rw [if_pos hx, if_pos ⟨h2.2 p this, h1.2 p this⟩]
        · rw [if_neg hx, if_neg]
          rintro ⟨a, b⟩
          exact hx (mem_execp.1 (span_full hnd (fun x hx => h2.2 x hx) (fun x hx => h1.2 x hx) hspan hne a b)).2
      · cases h; exact hcase
    · simp at h

/-- **C49 is false** for preserved triggers without waits of all players: they run twice. -/
theorem C49_counterexample : ∃ l, codify (fun _ => true) true = some l ∧ runs l 0 = 2 := ⟨_, rfl, by decide⟩

/-- A preserved trigger that applies to nobody stops the build. -/
theorem C49_counterexample_empty : codify (fun _ => false) true = none := by decide

/-- The hypotheses are met by, say, a trigger for players 2 to 4. -/
example : ∃ l, codify (fun p => decide (2 ≤ p ∧ p ≤ 4)) true = some l ∧ (execp fun p => decide (2 ≤ p ∧ p ≤ 4)).length ≠ 8 ∧ runs l 3 = 1 ∧ runs l 5 = 0 :=
  ⟨_, rfl, by decide, by decide, by decide⟩

/-! The players a trigger of the map applies to, by the format of the TRIG section: after 16 conditions (320 bytes), 64 actions (2048 bytes) and
a dword of flags there is one byte for each of 27 player groups. -/

/-- Player groups with players of this map: player `k`, everybody, force `f`. -/
inductive PGroup
  | player (k : Fin 8)
  | all
  | force (f : Fin 4)

/-- Number of a group. -/
def PGroup.num : PGroup → Nat
  | .player k => k
  | .all => 17
  | .force f => 18 + f

/-- Players of a group. -/
def PGroup.has (force : Nat → Nat) (p : Nat) : PGroup → Prop
  | .player k => p = k
  | .all => True
  | .force f => force p = f

/-- The trigger applies to player `p`. -/
def AppliesTo (b : Nat → Nat) (force : Nat → Nat) (p : Nat) : Prop := ∃ g : PGroup, b (2372 + g.num) ≠ 0 ∧ g.has force p

/-- **C49 (players).** The players for which a trigger is inlined are those it applies to. -/
theorem C49_players (b force : Nat → Nat) {p : Nat} (hp : p < 8) (hf : force p < 4) : executing b force p = true ↔ AppliesTo b force p := by
  unfold executing AppliesTo
  simp only [Bool.or_eq_true, bne_iff_ne]
  constructor
  · rintro ((h | h) | h)
    · exact ⟨.all, h, trivial⟩
    · exact ⟨.player ⟨p, hp⟩, h, rfl⟩
    · exact ⟨.force ⟨force p, hf⟩, by rw [show 2372 + PGroup.num (.force ⟨force p, hf⟩) = 320 + 2048 + 4 + 18 + force p from by simp [PGroup.num]; omega]; exact h, rfl⟩
  · rintro ⟨g, h, hg⟩
    cases g with
    | all => exact Or.inl (Or.inl h)
    | player k => exact Or.inl (Or.inr (by rw [show p = k from hg]; exact h))
    | force f =>
      refine Or.inr ?_
      rw [show force p = f from hg]
      rwa [show 2372 + PGroup.num (.force f) = 320 + 2048 + 4 + 18 + f from by simp [PGroup.num]; omega] at h

/-- **C49 (one trigger, from its bytes).** -/
theorem C49_bytes_partial (b force : Nat → Nat) (nw : Bool) {l : List Part} (h : codify (executing b force) nw = some l)
    (hall : nw = true → (execp (executing b force)).length ≠ 8) {p : Nat} (hp : p < 8) (hf : force p < 4) :
    (AppliesTo b force p → runs l p = 1) ∧ (¬ AppliesTo b force p → runs l p = 0) := by
  have := C49_single_partial _ nw h hall hp
  rw [← C49_players b force hp hf]
  constructor
  · intro he; rw [this, if_pos he]
  · intro he; rw [this, if_neg he]

/-- Force 2 and player 5. -/
example : let b := fun i => if i = 2372 + 19 ∨ i = 2372 + 5 then 1 else 0
    ∃ l, codify (executing b (fun p => p / 2)) true = some l ∧ (execp (executing b (fun p => p / 2))).length ≠ 8 ∧
      (List.range 8).map (runs l) = [0, 0, 1, 1, 0, 1, 0, 0] := ⟨_, rfl, by decide, by decide⟩

/-! ## Model: all triggers (inlining rate 1, the default) -/

/-- A segment of the TRIG section: a trigger, with the players it applies to, whether its property value is below `0x80000000`, and whether it is
kept because copies would take too much space; or inline code with its players (its effective players are all zero,
ilcprocesstrig.py:144-157). -/
inductive Seg (T : Type)
  | trig (t : T) (ex : Nat → Bool) (low big : Bool)
  | code (c : T) (players : Nat → Bool)

/-- What the new TRIG section has: triggers, links to code for one player with copies of triggers, links to inline code. -/
inductive Out (T : Type)
  | trig (t : T) (ex : Nat → Bool)
  | link (p : Nat) (l : List T)
  | code (c : T) (players : Nat → Bool)

variable {T : Type}

/-- ilcprocesstrig.py:92-97 `append_ptriggers` -/
def flush (p : Nat) (s : List (Out T) × (Nat → List T)) : List (Out T) × (Nat → List T) :=
  if s.2 p = [] then s else (s.1 ++ [.link p (s.2 p)], fun q => if q = p then [] else s.2 q)

/-- … for the players of a trigger among `0, …, 7` (ilcprocesstrig.py:118-120, 127-129) -/
def flushAll (ex : Nat → Bool) (s : List (Out T) × (Nat → List T)) : List (Out T) × (Nat → List T) :=
  (List.range 8).foldl (fun s p => if ex p then flush p s else s) s

/-- The loop body of `_consecutive_inline_trig_section` (ilcprocesstrig.py:99-130).  Sharing of triggers is requested (`try_share_trigger`) but its
result is used only for the decision `big`. -/
def seg (s : List (Out T) × (Nat → List T)) : Seg T → List (Out T) × (Nat → List T)
  | .code c pl =>
    -- executing_players is all False
    let s := flushAll (fun _ => false) s
    (s.1 ++ [.code c pl], s.2)
  | .trig t ex low big =>
    if low then
      if ((List.range 8).filter ex).length ≥ 2 ∧ big then
        let s := flushAll ex s
        (s.1 ++ [.trig t ex], s.2)
      else (s.1, fun p => if p < 8 ∧ ex p then s.2 p ++ [t] else s.2 p)
    else
      let s := flushAll ex s
      (s.1 ++ [.trig t ex], s.2)

/-- ilcprocesstrig.py:85-136 `_consecutive_inline_trig_section`, without the blank trigger at the end. -/
def inlineAll (l : List (Seg T)) : List (Out T) := (flushAll (fun _ => true) (l.foldl seg ([], fun _ => []))).1

/-- What a player runs in a cycle, in order: before … -/
def before (p : Nat) (l : List (Seg T)) : List T := l.flatMap fun
  | .trig t ex _ _ => if ex p then [t] else []
  | .code c pl => if pl p then [c] else []

/-- … and after. -/
def after (p : Nat) (l : List (Out T)) : List T := l.flatMap fun
  | .trig t ex => if ex p then [t] else []
  | .link q l => if q = p then l else []
  | .code c pl => if pl p then [c] else []

/-- The same, only of triggers. -/
def trigsBefore (p : Nat) (l : List (Seg T)) : List T := l.flatMap fun
  | .trig t ex _ _ => if ex p then [t] else []
  | .code _ _ => []

def trigsAfter (p : Nat) (l : List (Out T)) : List T := l.flatMap fun
  | .trig t ex => if ex p then [t] else []
  | .link q l => if q = p then l else []
  | .code _ _ => []

theorem trigsAfter_append (p : Nat) (a b : List (Out T)) : trigsAfter p (a ++ b) = trigsAfter p a ++ trigsAfter p b := by simp [trigsAfter]

/-- The triggers done and pending for a player. -/
def total (p : Nat) (s : List (Out T) × (Nat → List T)) : List T := trigsAfter p s.1 ++ s.2 p

theorem flush_total (p q : Nat) (s : List (Out T) × (Nat → List T)) : total q (flush p s) = total q s ∧ (flush p s).2 p = [] ∧
    (∀ r, s.2 r = [] → (flush p s).2 r = []) := by
  unfold flush
  by_cases h : s.2 p = []
  · rw [if_pos h]; exact ⟨rfl, h, fun _ hr => hr⟩
  · rw [if_neg h]
    refine ⟨?_, by simp, fun r hr => by simp only; split <;> simp [hr]⟩
    simp only [total, trigsAfter_append]
    by_cases hq : p = q
    · subst hq; simp [trigsAfter]
    · simp [trigsAfter, hq, Ne.symm hq]

theorem foldl_flush (ex : Nat → Bool) (q : Nat) : ∀ (l : List Nat) (s : List (Out T) × (Nat → List T)),
    total q (l.foldl (fun s p => if ex p then flush p s else s) s) = total q s ∧
    (∀ r, (s.2 r = [] ∨ r ∈ l ∧ ex r = true) → (l.foldl (fun s p => if ex p then flush p s else s) s).2 r = [])
  | [], s => ⟨rfl, fun r hr => by simpa using hr⟩
  | p :: l, s => by
    obtain ⟨h1, h2⟩ := foldl_flush ex q l (if ex p then flush p s else s)
    have hf := flush_total p q s
    refine ⟨h1.trans ?_, ?_⟩
    · split
      · exact hf.1
      · rfl
    · intro r hr
      refine h2 r ?_
      rcases hr with hr | ⟨hr, he⟩
      · left
        split
        · exact hf.2.2 r hr
        · exact hr
      · rcases List.mem_cons.1 hr with rfl | hr
        · left; rw [if_pos he]; exact hf.2.1
        · exact Or.inr ⟨hr, he⟩

theorem flushAll_total (ex : Nat → Bool) (q : Nat) (s : List (Out T) × (Nat → List T)) : total q (flushAll ex s) = total q s :=
  (foldl_flush ex q _ s).1

theorem flushAll_nil (ex : Nat → Bool) (s : List (Out T) × (Nat → List T)) {r : Nat} (h : s.2 r = [] ∨ r < 8 ∧ ex r = true) : (flushAll ex s).2 r = [] :=
  (foldl_flush ex 0 _ s).2 r (h.imp id fun h => ⟨List.mem_range.2 h.1, h.2⟩)

theorem seg_total {q : Nat} (hq : q < 8) (s : List (Out T) × (Nat → List T)) (x : Seg T) : total q (seg s x) = total q s ++ trigsBefore q [x] := by
  have plain : ∀ (t : T) (ex : Nat → Bool), total q ((flushAll ex s).1 ++ [Out.trig t ex], (flushAll ex s).2) = total q s ++ if ex q then [t] else [] := by
    intro t ex
    have h := flushAll_total ex q s
    simp only [total] at h
    simp only [total, trigsAfter_append]
    by_cases he : ex q
    · have hn := flushAll_nil ex s (r := q) (Or.inr ⟨hq, he⟩)
      rw [hn, List.append_nil] at h ⊢
      rw [h]
      simp [trigsAfter, he]
    · simp only [trigsAfter, List.flatMap_cons, List.flatMap_nil, he, List.append_nil]
      simpa [trigsAfter] using h
  cases x with
  | code c pl =>
    have h := flushAll_total (fun _ => false) q s
    simp only [total] at h
    simp only [seg, total, trigsAfter_append, trigsBefore, List.flatMap_cons, List.flatMap_nil, List.append_nil]
    rw [← h]
    simp [trigsAfter]
  | trig t ex low big =>
    have hb : trigsBefore q [Seg.trig t ex low big] = if ex q then [t] else [] := by simp [trigsBefore]
    rw [hb]
    unfold seg
    simp only
    split
    · split
      · exact plain t ex
      · simp only [total, hq, true_and]
        by_cases he : ex q <;> simp [he]
    · exact plain t ex

theorem foldl_seg_total {q : Nat} (hq : q < 8) : ∀ (l : List (Seg T)) (s : List (Out T) × (Nat → List T)), total q (l.foldl seg s) = total q s ++ trigsBefore q l
  | [], s => by simp [trigsBefore]
  | x :: l, s => by
    rw [List.foldl_cons, foldl_seg_total hq l, seg_total hq, List.append_assoc]
    simp [trigsBefore]

/-- **C49 (all triggers, default).** Every player runs the same triggers in the same order after inlining, each exactly as often as before –
whatever triggers, player sets, sizes and inline codes there are. -/
theorem C49_all (l : List (Seg T)) {p : Nat} (hp : p < 8) : trigsAfter p (inlineAll l) = trigsBefore p l := by
  have h1 := foldl_seg_total hp l ([], fun _ => [])
  have h2 := flushAll_total (fun _ => true) p (l.foldl seg ([], fun _ => []))
  have h3 := flushAll_nil (fun _ => true) (l.foldl seg ([], fun _ => [])) (r := p) (Or.inr ⟨hp, rfl⟩)
  simp only [total, h3, List.append_nil] at h1 h2
  unfold inlineAll
  rw [h2, h1]
  rfl

theorem after_eq_trigs (p : Nat) : ∀ {l : List (Out T)}, (∀ x ∈ l, ∀ c pl, x ≠ .code c pl) → after p l = trigsAfter p l
  | [], _ => rfl
  | x :: l, h => by
    have ih := after_eq_trigs p (l := l) (fun y hy => h y (List.mem_cons_of_mem _ hy))
    have e1 : after p (x :: l) = after p [x] ++ after p l := by simp [after]
    have e2 : trigsAfter p (x :: l) = trigsAfter p [x] ++ trigsAfter p l := by simp [trigsAfter]
    rw [e1, e2, ih]
    cases x with
    | code c pl => exact absurd rfl (h _ (List.mem_cons_self ..) c pl)
    | trig t ex => rfl
    | link q l => rfl

/-- With inline code, the order is not kept: a trigger before it is run after it. -/
theorem C49_counterexample_order : ∃ l : List (Seg Nat), before 0 l = [1, 2] ∧ after 0 (inlineAll l) = [2, 1] :=
  ⟨[.trig 1 (fun p => p == 0) true false, .code 2 (fun p => p == 0)], by decide, by decide⟩

/-- A section with triggers kept, copied and flushed in between. -/
example : trigsAfter 1 (inlineAll [Seg.trig 1 (fun _ => true) true false, .trig 2 (fun p => p == 1) true false, .trig 3 (fun p => p ≤ 1) true true,
    .trig 4 (fun p => p == 0) true false, .trig 5 (fun _ => true) true false]) = [1, 2, 3, 5] :=
  C49_all _ (by decide)

end Eud.Inline
