import Verif.Alloc.Writer
/-
Lemmas about the dry run and the real write: both are shown equal to a byte-wise
reading of the object's image.
-/

namespace Eud.Alloc

/-! ### Dry run = byte-wise feeding of the image -/

/-- Skip one byte (payload.rs:55-62 `occup0`). -/
def Dry.occup0 (d : Dry) : Dry :=
  let d := { d with idx := d.idx + 1 }
  if d.idx = 4 then { (d.push d.sub) with idx := 0, sub := false } else d

/-- Feed one byte of an image. -/
def Dry.feed (d : Dry) : Option Byte → Dry
  | some _ => d.occup1
  | none => d.occup0

theorem iter_add {α : Type} (f : α → α) : ∀ (a b : Nat) (x : α), iter f (a + b) x = iter f b (iter f a x)
  | 0, b, x => by simp [iter]
  | a + 1, b, x => by
    have : a + 1 + b = (a + b) + 1 := by omega
    rw [this]
    simp only [iter]
    exact iter_add f a b (f x)

theorem feed_some (l : List Byte) (d : Dry) :
    (l.map some).foldl Dry.feed d = iter Dry.occup1 l.length d := by
  induction l generalizing d with
  | nil => rfl
  | cons a l ih => simp only [List.map_cons, List.foldl_cons, List.length_cons, iter, Dry.feed]; exact ih _

theorem feed_none (n : Nat) (d : Dry) :
    (List.replicate n none).foldl Dry.feed d = iter Dry.occup0 n d := by
  induction n generalizing d with
  | zero => rfl
  | succ n ih => simp only [List.replicate_succ, List.foldl_cons, iter, Dry.feed]; exact ih _

@[simp] theorem push_idx (d : Dry) (b : Bool) : (d.push b).idx = d.idx := rfl
@[simp] theorem push_sub (d : Dry) (b : Bool) : (d.push b).sub = d.sub := rfl

/-- State on a dword boundary. -/
def Dry.clean (d : Dry) : Prop := d.idx = 0 ∧ d.sub = false

theorem push_clean {d : Dry} (h : d.clean) (b : Bool) : (d.push b).clean := h

theorem occup1_four {d : Dry} (h : d.clean) : iter Dry.occup1 4 d = d.push true := by
  obtain ⟨sub, idx, map⟩ := d
  obtain ⟨h1, h2⟩ := h
  simp only at h1 h2
  subst h1; subst h2
  simp [iter, Dry.occup1, Dry.push]

theorem iter_push_clean (b : Bool) : ∀ (n : Nat) {d : Dry}, d.clean →
    (iter (fun d => d.push b) n d).clean
  | 0, _, h => h
  | n + 1, _, h => iter_push_clean b n (push_clean h b)

theorem occup1_mul : ∀ (q : Nat) {d : Dry}, d.clean →
    iter Dry.occup1 (4 * q) d = iter (fun d => d.push true) q d
  | 0, _, _ => rfl
  | q + 1, d, h => by
    have : 4 * (q + 1) = 4 + 4 * q := by omega
    rw [this, iter_add, occup1_four h]
    simp only [iter]
    exact occup1_mul q (push_clean h true)

theorem bulk_eq {d : Dry} (h : d.clean) (n : Nat) : d.bulk n = iter Dry.occup1 n d := by
  unfold Dry.bulk
  conv => rhs; rw [show n = 4 * (n / 4) + n % 4 by omega]
  rw [iter_add, occup1_mul _ h]

theorem bulk_small (d : Dry) {n : Nat} (h : n < 4) : d.bulk n = iter Dry.occup1 n d := by
  unfold Dry.bulk
  rw [show n / 4 = 0 by omega, show n % 4 = n by omega]
  rfl

theorem occup0_small : ∀ (n : Nat) (d : Dry), d.idx + n < 4 →
    iter Dry.occup0 n d = { d with idx := d.idx + n }
  | 0, d, _ => rfl
  | n + 1, d, h => by
    simp only [iter]
    have h1 : d.occup0 = { d with idx := d.idx + 1 } := by
      unfold Dry.occup0
      simp only
      rw [if_neg (by omega)]
    rw [h1, occup0_small n _ (by simp only; omega)]
    simp only [Dry.mk.injEq, true_and, and_true]
    omega

theorem occup0_fill (d : Dry) (h : d.idx < 4) :
    iter Dry.occup0 (4 - d.idx) d = { (d.push d.sub) with idx := 0, sub := false } := by
  have : 4 - d.idx = (3 - d.idx) + 1 := by omega
  rw [this, iter_add, occup0_small (3 - d.idx) d (by omega)]
  simp only [iter, Dry.occup0]
  rw [if_pos (by omega)]
  rfl

theorem occup0_mul : ∀ (q : Nat) {d : Dry}, d.clean →
    iter Dry.occup0 (4 * q) d = iter (fun d => d.push false) q d
  | 0, _, _ => rfl
  | q + 1, d, h => by
    have h4 : 4 * (q + 1) = 4 + 4 * q := by omega
    rw [h4, iter_add]
    have := occup0_fill d (by rw [h.1]; omega)
    rw [h.1] at this
    rw [show (4 : Nat) = 4 - 0 from rfl, this]
    have h2 : ({ d.push d.sub with idx := 0, sub := false } : Dry) = d.push false := by
      obtain ⟨sub, idx, map⟩ := d
      obtain ⟨h1, h2⟩ := h
      simp only at h1 h2
      subst h1; subst h2; rfl
    rw [h2]
    simp only [iter]
    exact occup0_mul q (push_clean h false)

theorem space_eq (d : Dry) (h : d.idx < 4) (n : Nat) : d.space n = iter Dry.occup0 n d := by
  unfold Dry.space
  simp only
  split
  · rename_i hge
    conv => rhs; rw [show n = (4 - d.idx) + (n - (4 - d.idx)) by omega]
    rw [iter_add, occup0_fill d h]
    have hc : ({ d.push d.sub with idx := 0, sub := false } : Dry).clean := ⟨rfl, rfl⟩
    obtain ⟨m, hm⟩ : ∃ m, n - (4 - d.idx) = m := ⟨_, rfl⟩
    have hm' : d.idx + n - 4 = m := by omega
    rw [hm]
    conv => rhs; rw [show m = 4 * (m / 4) + m % 4 by omega]
    rw [iter_add, occup0_mul _ hc, occup0_small _ _ (by
      have := (iter_push_clean false (m / 4) hc).1
      rw [this]; omega)]
    -- compare the two fold states
    have key : ∀ (q : Nat) (s s' : Bool) (x x' : Nat) (l : OccMap),
        (iter (fun (d : Dry) => d.push false) q ⟨s, x, l⟩).map = (iter (fun (d : Dry) => d.push false) q ⟨s', x', l⟩).map ∧
        (iter (fun (d : Dry) => d.push false) q ⟨s, x, l⟩).idx = x ∧
        (iter (fun (d : Dry) => d.push false) q ⟨s, x, l⟩).sub = s := by
      intro q
      induction q with
      | zero => intros; exact ⟨rfl, rfl, rfl⟩
      | succ q ih =>
        intro s s' x x' l
        simp only [iter, Dry.push]
        exact ih _ _ _ _ _
    simp only [Dry.push, hm']
    have k1 := key (m / 4) d.sub false m 0 (d.map ++ [
        if d.sub = false then -1
        else if d.map.getLast?.getD (-1) ≠ -1 then d.map.getLast?.getD (-1)
        else (d.map.length : Int)])
    have k2 := key (m / 4) false false 0 0 (d.map ++ [
        if d.sub = false then -1
        else if d.map.getLast?.getD (-1) ≠ -1 then d.map.getLast?.getD (-1)
        else (d.map.length : Int)])
    have e1 := k1.1
    have e2 := k1.2.1
    have e3 := k2.2.1
    have e4 := k2.2.2
    simp only [Dry.push] at e1 e2 e3 e4
    rw [Dry.mk.injEq]
    refine ⟨?_, ?_, ?_⟩
    · exact e4.symm
    · simp only [e2, e3]; omega
    · exact e1
  · rename_i hlt
    rw [occup0_small _ _ (by omega)]

theorem iter_clean_mul (f : Dry → Dry) (hf : ∀ d : Dry, d.clean → (iter f 4 d).clean) :
    ∀ (q : Nat) {d : Dry}, d.clean → (iter f (4 * q) d).clean
  | 0, _, h => h
  | q + 1, d, h => by
    rw [show 4 * (q + 1) = 4 + 4 * q by omega, iter_add]
    exact iter_clean_mul f hf q (hf d h)

theorem occup1_clean (q : Nat) {d : Dry} (h : d.clean) : (iter Dry.occup1 (4 * q) d).clean := by
  rw [occup1_mul q h]; exact iter_push_clean _ _ h

theorem occup0_clean (q : Nat) {d : Dry} (h : d.clean) : (iter Dry.occup0 (4 * q) d).clean := by
  rw [occup0_mul q h]; exact iter_push_clean _ _ h

/-! ### Images -/

theorem leBytes_length (x : BitVec 32) (n : Nat) : (leBytes x n).length = n := by
  induction n generalizing x with
  | zero => rfl
  | succ n ih => simp [leBytes, ih]

theorem imgPack_eq : ∀ (fmt : List Width) (args : List Rloc), fmt.length = args.length →
    ∃ bs : List Byte, imgPack fmt args = bs.map some ∧ bs.length = fmtSize fmt
  | [], [], _ => ⟨[], rfl, rfl⟩
  | w :: ws, r :: rs, h => by
    obtain ⟨bs, h1, h2⟩ := imgPack_eq ws rs (by simpa using h)
    refine ⟨leBytes r.offset w.size ++ bs, ?_, ?_⟩
    · simp [imgPack, h1]
    · simp [leBytes_length, h2, fmtSize]
  | [], _ :: _, h => by simp at h
  | _ :: _, [], h => by simp at h

theorem imgPacks_eq (fmt : List Width) : ∀ (l : List (List Rloc)),
    l.all (·.length == fmt.length) = true →
    ∃ bs : List Byte, (l.map (imgPack fmt)).flatten = bs.map some ∧ bs.length = l.length * fmtSize fmt
  | [], _ => ⟨[], rfl, by simp⟩
  | a :: l, h => by
    simp only [List.all_cons, Bool.and_eq_true, beq_iff_eq] at h
    obtain ⟨b1, h1, h2⟩ := imgPack_eq fmt a h.1.symm
    obtain ⟨b2, h3, h4⟩ := imgPacks_eq fmt l h.2
    refine ⟨b1 ++ b2, by simp [h1, h3], ?_⟩
    simp only [List.length_append, List.length_cons, h2, h4, Nat.add_mul, Nat.one_mul]
    omega

theorem condFmt_size : fmtSize condFmt = 20 := by decide
theorem actFmt_size : fmtSize actFmt = 32 := by decide

theorem map_some_replicate (n : Nat) (b : Byte) :
    List.replicate n (some b) = (List.replicate n b).map some := by simp

theorem records_feed {d : Dry} (hc : d.clean) (fmt : List Width) (w cap : Nat)
    (hw : fmtSize fmt = 4 * w) (l : List (List Rloc)) (hl : l.all (·.length == fmt.length) = true) :
    d.records w cap l.length =
      ((l.map (imgPack fmt)).flatten ++
        (if l.length < cap then List.replicate (4 * w) (some 0) ++
          List.replicate (4 * w * (cap - 1 - l.length)) none else [])).foldl Dry.feed d ∧
    (d.records w cap l.length).clean := by
  obtain ⟨cb, hcb, hcl⟩ := imgPacks_eq fmt l hl
  have e1 : List.foldl Dry.feed d (l.map (imgPack fmt)).flatten =
      iter (fun (d : Dry) => d.push true) (l.length * w) d := by
    rw [hcb, feed_some, hcl, hw, show l.length * (4 * w) = 4 * (l.length * w) by
      rw [Nat.mul_left_comm], occup1_mul _ hc]
  have c1 := iter_push_clean true (l.length * w) hc
  rw [List.foldl_append, e1]
  unfold Dry.records
  obtain ⟨d1, hd1⟩ : ∃ d1, iter (fun (d : Dry) => d.push true) (l.length * w) d = d1 := ⟨_, rfl⟩
  rw [hd1] at c1 ⊢
  simp only
  have c2 := iter_push_clean true w c1
  split
  · rw [space_eq _ (by rw [c2.1]; omega)]
    refine ⟨?_, ?_⟩
    · rw [List.foldl_append, map_some_replicate, feed_some, feed_none, List.length_replicate,
        occup1_mul _ c1]
    · rw [Nat.mul_assoc]
      exact occup0_clean _ c2
  · exact ⟨rfl, c1⟩

/-- A trigger's dry run is the byte-wise feeding of its image. -/
theorem trigger_feed {d : Dry} (hc : d.clean) (p n : Rloc) (cs as : List (List Rloc)) (f : Rloc)
    (hcs : cs.all (·.length == condFmt.length) = true)
    (has : as.all (·.length == actFmt.length) = true) :
    d.trigger cs.length as.length = (imgTrigger p n cs as f).foldl Dry.feed d := by
  have e0 : List.foldl Dry.feed d ((leBytes p.offset 4).map some ++ (leBytes n.offset 4).map some) =
      (d.push true).push true := by
    rw [List.foldl_append, feed_some, feed_some, leBytes_length, leBytes_length, occup1_four hc,
      occup1_four (push_clean hc true)]
  have c0 : ((d.push true).push true).clean := push_clean (push_clean hc true) true
  obtain ⟨e1, c1⟩ := records_feed c0 condFmt 5 16 condFmt_size cs hcs
  obtain ⟨e2, c2⟩ := records_feed c1 actFmt 8 64 actFmt_size as has
  have e3 : ∀ d' : Dry, d'.clean → List.foldl Dry.feed d' ((leBytes f.offset 4).map some ++
      List.replicate 27 none ++ [some 0]) = ((d'.push true).space 27).occup1 := by
    intro d' hd'
    rw [List.foldl_append, List.foldl_append, feed_some, leBytes_length, occup1_four hd', feed_none,
      space_eq _ (by rw [(push_clean hd' true).1]; omega)]
    simp only [List.foldl_cons, List.foldl_nil, Dry.feed]
  unfold Dry.trigger imgTrigger
  rw [← e3 _ c2, e2, e1, ← e0]
  simp only [List.foldl_append, Nat.reduceMul, Nat.reduceSub]

theorem feed_idx_lt {d : Dry} (h : d.idx < 4) (x : Option Byte) : (d.feed x).idx < 4 := by
  cases x <;> simp only [Dry.feed, Dry.occup0, Dry.occup1] <;> split <;> simp_all <;> omega

theorem feed_sub {d : Dry} (x : Option Byte) :
    (d.feed x).idx = 0 → (d.feed x).sub = false := by
  cases x <;> simp only [Dry.feed, Dry.occup0, Dry.occup1] <;> split <;> simp

/-- State facts needed between calls. -/
structure Dry.OK (d : Dry) (pos : Nat) : Prop where
  idx : d.idx < 4
  sub : d.idx = 0 → d.sub = false
  pos : d.map.length * 4 + d.idx = pos

theorem feed_OK {d : Dry} {pos : Nat} (h : d.OK pos) (x : Option Byte) : (d.feed x).OK (pos + 1) := by
  refine ⟨feed_idx_lt h.idx x, feed_sub x, ?_⟩
  have := h.pos
  have := h.idx
  cases x <;> simp only [Dry.feed, Dry.occup0, Dry.occup1] <;> split <;>
    simp_all [Dry.push] <;> omega

theorem feedAll_OK : ∀ (l : List (Option Byte)) {d : Dry} {pos : Nat}, d.OK pos →
    (l.foldl Dry.feed d).OK (pos + l.length)
  | [], _, _, h => h
  | x :: l, d, pos, h => by
    simp only [List.foldl_cons, List.length_cons]
    have := feedAll_OK l (feed_OK h x)
    rw [show pos + (l.length + 1) = pos + 1 + l.length by omega]
    exact this

theorem OK.clean {d : Dry} {pos : Nat} (h : d.OK pos) (h4 : pos % 4 = 0) : d.clean := by
  have h0 : d.idx = 0 := by
    have := h.pos; have := h.idx; omega
  exact ⟨h0, h.sub h0⟩

theorem step_feed {d : Dry} {pos : Nat} (h : d.OK pos) (o : WOp)
    (hb : o.isBulk = true → pos % 4 = 0) (hm : o.matched = true) :
    d.step o = (imgOp o).foldl Dry.feed d := by
  cases o with
  | byte n => rfl
  | word n =>
    simp only [Dry.step, imgOp, feed_some, leBytes_length]
    rfl
  | dword r =>
    simp only [Dry.step, imgOp, feed_some, leBytes_length]
    rw [occup1_four (OK.clean h (hb rfl))]
  | pack fmt args =>
    simp only [WOp.matched, beq_iff_eq] at hm
    obtain ⟨bs, h1, h2⟩ := imgPack_eq fmt args hm
    simp only [Dry.step, imgOp, h1, feed_some, h2]
    by_cases h4 : 4 ≤ fmtSize fmt
    · exact bulk_eq (OK.clean h (hb (by simp [WOp.isBulk, h4]))) _
    · exact bulk_small _ (by omega)
  | bytes bs =>
    simp only [Dry.step, imgOp, feed_some]
    by_cases h4 : 4 ≤ bs.length
    · exact bulk_eq (OK.clean h (hb (by simp [WOp.isBulk, h4]))) _
    · exact bulk_small _ (by omega)
  | space n =>
    simp only [Dry.step, imgOp, feed_none]
    exact space_eq _ h.idx _
  | trigger p n cs as f =>
    simp only [WOp.matched, Bool.and_eq_true] at hm
    exact trigger_feed (OK.clean h (hb rfl)) p n cs as f hm.1.1.1 hm.1.1.2

theorem steps_feed : ∀ (ops : List WOp) {d : Dry} {pos : Nat}, d.OK pos → Aligned pos ops →
    ops.foldl Dry.step d = (image ops).foldl Dry.feed d
  | [], _, _, _, _ => rfl
  | o :: os, d, pos, h, ha => by
    obtain ⟨h1, h2, h3⟩ := ha
    simp only [List.foldl_cons, image, List.map_cons, List.flatten_cons, List.foldl_append]
    rw [step_feed h o h1 h2]
    exact steps_feed os (feedAll_OK _ h) h3

/-! ### Meaning of the occupancy map -/

structure Dry.Inv (d : Dry) (img : List (Option Byte)) : Prop extends d.OK img.length where
  mem : ∀ k (h : k < d.map.length), d.map[k] ≠ -1 ↔ StoresIn img k
  subm : d.sub = true ↔ StoresIn img d.map.length
  wf : WF d.map

theorem storesIn_append (img : List (Option Byte)) (x : Option Byte) (k : Nat) :
    StoresIn (img ++ [x]) k ↔ StoresIn img k ∨ (img.length / 4 = k ∧ x.isSome = true) := by
  constructor
  · rintro ⟨i, b, hi, hb⟩
    rcases Nat.lt_or_ge i img.length with hlt | hge
    · left; exact ⟨i, b, hi, by rwa [List.getElem?_append_left hlt] at hb⟩
    · rw [List.getElem?_append_right hge] at hb
      have h0 : i - img.length = 0 := by
        rcases Nat.eq_zero_or_pos (i - img.length) with h | h
        · exact h
        · rw [List.getElem?_eq_none (by simp; omega)] at hb; cases hb
      rw [h0] at hb
      simp only [List.getElem?_cons_zero, Option.some.injEq] at hb
      right
      exact ⟨by rw [← hi]; congr 1; omega, by rw [hb]; rfl⟩
  · rintro (⟨i, b, hi, hb⟩ | ⟨hk, hx⟩)
    · refine ⟨i, b, hi, ?_⟩
      have hlt : i < img.length := by
        rcases Nat.lt_or_ge i img.length with h | h
        · exact h
        · rw [List.getElem?_eq_none h] at hb; cases hb
      rw [List.getElem?_append_left hlt]; exact hb
    · obtain ⟨b, rfl⟩ := Option.isSome_iff_exists.1 hx
      exact ⟨img.length, b, hk, by simp⟩

theorem wf_push {d : Dry} (h : WF d.map) (b : Bool) : WF (d.push b).map := by
  intro i hi
  simp only [Dry.push] at hi ⊢
  rcases Nat.lt_or_ge i d.map.length with hlt | hge
  · rw [List.getElem_append_left hlt]; exact h i hlt
  · have : i = d.map.length := by simp at hi; omega
    subst this
    simp only [List.getElem_append_right (Nat.le_refl _), Nat.sub_self, List.getElem_cons_zero]
    split
    · left; rfl
    · split
      · rename_i hne
        cases hl : d.map.getLast? with
        | none => rw [hl] at hne; exact absurd rfl hne
        | some v =>
          simp only [Option.getD_some]
          rw [List.getLast?_eq_getElem?] at hl
          obtain ⟨hx, hv⟩ := List.getElem?_eq_some_iff.1 hl
          rcases h _ hx with h' | h'
          · left; rw [← hv]; exact h'
          · right; rw [← hv]; omega
      · right; omega

theorem push_last {d : Dry} (b : Bool) :
    (d.push b).map.length = d.map.length + 1 ∧
    (∀ k (hk : k < d.map.length) (hk' : k < (d.push b).map.length), (d.push b).map[k] = d.map[k]) ∧
    ∀ (hk' : d.map.length < (d.push b).map.length), ((d.push b).map[d.map.length] ≠ -1 ↔ b = true) := by
  refine ⟨by simp [Dry.push], ?_, ?_⟩
  · intro k hk hk'
    simp only [Dry.push]
    rw [List.getElem_append_left hk]
  · intro hk'
    simp only [Dry.push, List.getElem_append_right (Nat.le_refl _), Nat.sub_self,
      List.getElem_cons_zero]
    cases b with
    | false => simp
    | true =>
      simp only [Bool.true_eq_false, if_false]
      constructor
      · intro _; trivial
      · intro _
        split
        · assumption
        · omega

theorem feed_Inv {d : Dry} {img : List (Option Byte)} (h : d.Inv img) (x : Option Byte) :
    (d.feed x).Inv (img ++ [x]) := by
  have hok := feed_OK h.toOK x
  have hpos := h.pos
  have hidx := h.idx
  have hq : img.length / 4 = d.map.length := by omega
  have hnone : ∀ k, d.map.length < k → ¬ StoresIn (img ++ [x]) k := by
    rintro k hk ⟨i, b, hi, hb⟩
    have : i < (img ++ [x]).length := by
      rcases Nat.lt_or_ge i (img ++ [x]).length with h | h
      · exact h
      · rw [List.getElem?_eq_none h] at hb; cases hb
    simp at this
    omega
  -- the `sub` flag after accounting for this byte
  obtain ⟨s, hs⟩ : ∃ s, (d.sub || x.isSome) = s := ⟨_, rfl⟩
  have hsub : s = true ↔ StoresIn (img ++ [x]) d.map.length := by
    rw [storesIn_append, ← h.subm, ← hs]
    simp [hq]
  have hform : d.feed x =
      if d.idx + 1 = 4 then ⟨false, 0, (Dry.push ⟨s, d.idx + 1, d.map⟩ s).map⟩
      else ⟨s, d.idx + 1, d.map⟩ := by
    cases x with
    | none =>
      simp only [Option.isSome_none, Bool.or_false] at hs
      subst hs
      simp only [Dry.feed, Dry.occup0, Dry.push]
    | some b =>
      simp only [Option.isSome_some, Bool.or_true] at hs
      subst hs
      simp only [Dry.feed, Dry.occup1, Dry.push]
  have hlen : (img ++ [x]).length = img.length + 1 := by simp
  by_cases h4 : d.idx + 1 = 4
  · rw [if_pos h4] at hform
    have hp := push_last (d := ⟨s, d.idx + 1, d.map⟩) s
    rw [hform] at hok ⊢
    refine { toOK := by rw [hlen]; exact hok, mem := ?_, subm := ?_, wf := ?_ }
    · intro k hk
      simp only at hk ⊢
      have hk2 : k < d.map.length + 1 := by have := hp.1; simp only at this; omega
      rcases Nat.lt_or_ge k d.map.length with hlt | hge
      · rw [hp.2.1 k hlt, h.mem k hlt, storesIn_append]
        constructor
        · intro h; left; exact h
        · rintro (h | ⟨h, _⟩)
          · exact h
          · omega
      · have : k = d.map.length := by omega
        subst this
        rw [hp.2.2 hk, hsub]
    · simp only [Bool.false_eq_true, false_iff]
      apply hnone
      have := hp.1
      simp only at this
      omega
    · exact wf_push (d := ⟨s, d.idx + 1, d.map⟩) h.wf s
  · rw [if_neg h4] at hform
    rw [hform] at hok ⊢
    refine { toOK := by rw [hlen]; exact hok, mem := ?_, subm := hsub, wf := h.wf }
    intro k hk
    simp only at hk ⊢
    rw [h.mem k hk, storesIn_append]
    constructor
    · intro h; left; exact h
    · rintro (h | ⟨h, _⟩)
      · exact h
      · omega

theorem feedAll_Inv : ∀ (l : List (Option Byte)) {d : Dry} {img : List (Option Byte)},
    d.Inv img → (l.foldl Dry.feed d).Inv (img ++ l)
  | [], _, _, h => by simpa using h
  | x :: l, d, img, h => by
    simp only [List.foldl_cons]
    have := feedAll_Inv l (feed_Inv h x)
    simpa using this

theorem start_Inv : (⟨false, 0, []⟩ : Dry).Inv [] where
  idx := by decide
  sub := fun _ => rfl
  pos := rfl
  mem := by intro k h; simp at h
  subm := by
    simp only [Bool.false_eq_true, false_iff]
    rintro ⟨i, b, _, hb⟩; simp at hb
  wf := by intro i h; simp at h

/-- Meaning of the dry run of an aligned sequence. -/
theorem dryRun_spec {ops : List WOp} (ha : Aligned 0 ops) :
    (dryRun ops).length = ((image ops).length + 3) / 4 ∧
    (∀ d, Used (dryRun ops) d ↔ StoresIn (image ops) d) ∧ WF (dryRun ops) := by
  have hok : (⟨false, 0, []⟩ : Dry).OK 0 := start_Inv.toOK
  have hinv := feedAll_Inv (image ops) start_Inv
  rw [← steps_feed ops hok ha] at hinv
  simp only [List.nil_append] at hinv
  unfold dryRun
  simp only
  obtain ⟨d, hd⟩ : ∃ d, List.foldl Dry.step ⟨false, 0, []⟩ ops = d := ⟨_, rfl⟩
  rw [hd] at hinv ⊢
  have hpos := hinv.pos
  have hidx := hinv.idx
  have hout : ∀ k, (image ops).length ≤ 4 * k → ¬ StoresIn (image ops) k := by
    rintro k hk ⟨i, b, hi, hb⟩
    rw [List.getElem?_eq_none (by omega)] at hb; cases hb
  split
  · rename_i hgt
    have hp := push_last (d := d) d.sub
    refine ⟨by rw [hp.1]; omega, ?_, wf_push hinv.wf _⟩
    intro k
    rcases Nat.lt_trichotomy k d.map.length with hlt | heq | hgt'
    · constructor
      · rintro ⟨hk, hne⟩
        rw [hp.2.1 k hlt] at hne
        exact (hinv.mem k hlt).1 hne
      · intro hs
        exact ⟨by rw [hp.1]; omega, by rw [hp.2.1 k hlt]; exact (hinv.mem k hlt).2 hs⟩
    · subst heq
      rw [← hinv.subm]
      constructor
      · rintro ⟨hk, hne⟩; exact (hp.2.2 hk).1 hne
      · intro hs; exact ⟨by rw [hp.1]; omega, (hp.2.2 (by rw [hp.1]; omega)).2 hs⟩
    · constructor
      · rintro ⟨hk, _⟩; rw [hp.1] at hk; omega
      · intro hs; exact absurd hs (hout k (by omega))
  · refine ⟨by omega, ?_, hinv.wf⟩
    intro k
    constructor
    · rintro ⟨hk, hne⟩; exact (hinv.mem k hk).1 hne
    · intro hs
      have hk : k < d.map.length := by
        rcases Nat.lt_or_ge k d.map.length with h | h
        · exact h
        · exact absurd hs (hout k (by omega))
      exact ⟨hk, (hinv.mem k hk).2 hs⟩

end Eud.Alloc
