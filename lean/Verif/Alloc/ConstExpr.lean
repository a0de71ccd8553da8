import Verif.Alloc.Expr
/-
C05, C07: `ConstExpr` and `Forward` (src/rust/src/allocator/constexpr.rs).
-/

namespace Eud.Expr

/-- Python objects that are address expressions: an `EUDObject` (eudobj.rs:25-59), a `Forward`, both
of which are `ConstExpr(None, 0, 4)` with their own `Evaluate`, or a plain `ConstExpr`. -/
inductive Expr
  | obj (n : Nat)
  | fwd (n : Nat)
  | node (base : Option Expr) (offset mode : Int)

def Expr.base : Expr → Option Expr
  | .node b _ _ => b
  | _ => none
def Expr.offset : Expr → Int
  | .node _ o _ => o
  | _ => 0
def Expr.mode : Expr → Int
  | .node _ _ m => m
  | _ => 4

/-- The `baseobj` of a result: the expression itself if it has none (`if rlocmode != 0 && baseobj.is_none`). -/
def Expr.mk (e : Expr) (o m : Int) : Expr := .node (if m ≠ 0 ∧ e.base.isNone then some e else e.base) o m

/-- constexpr.rs:77-93 `__add__`, `__radd__`; `k` is an `i64` truncated to `i32`. -/
def Expr.add (e : Expr) (k : Int) : Option Expr :=
  if -2 ^ 63 ≤ k ∧ k < 2 ^ 63 then some (e.mk (i32 (e.offset + i32 k)) e.mode) else none
/-- constexpr.rs:95-107 -/
def Expr.sub (e : Expr) (k : Int) : Option Expr :=
  if -2 ^ 63 ≤ k ∧ k < 2 ^ 63 then some (e.mk (i32 (e.offset - i32 k)) e.mode) else none
/-- constexpr.rs:109-121 -/
def Expr.rsub (e : Expr) (k : Int) : Option Expr :=
  if -2 ^ 63 ≤ k ∧ k < 2 ^ 63 then some (e.mk (i32 (i32 k - e.offset)) (i32 (-e.mode))) else none
/-- constexpr.rs:123-141 `__mul__`, `__rmul__` -/
def Expr.mul (e : Expr) (k : Int) : Option Expr :=
  if IsI32 k then
    some (.node (if i32 (e.mode * k) ≠ 0 ∧ e.base.isNone then some e else if i32 (e.mode * k) = 0 then none else e.base)
      (i32 (e.offset * k)) (i32 (e.mode * k)))
  else none
/-- constexpr.rs:143-163; `%` is the remainder of truncated division, and panics on 0. -/
def Expr.floordiv (e : Expr) (k : Int) : Option Expr :=
  if ¬ IsI32 k then none
  else if e.mode ≠ 0 ∧ (k = 0 ∨ e.mode.tmod k ≠ 0) then none
  else match divremFloor e.offset k, divremFloor e.mode k with
    | some (q, _), some (p, _) => some (e.mk q p)
    | _, _ => none
/-- constexpr.rs:165-174 -/
def Expr.mod (e : Expr) (k : Int) : Option Int :=
  if ¬ IsI32 k ∨ e.mode ≠ 4 ∨ k = 0 ∨ (4 : Int).tmod k ≠ 0 then none
  else (divremFloor e.offset k).map Prod.snd
/-- constexpr.rs:200-206 -/
def Expr.neg (e : Expr) : Expr := .node e.base (i32 (-e.offset)) (i32 (-e.mode))

/-- etc.py:28-43: `EPD` of a `ConstExpr`; an EPD value is refused. -/
def Expr.epd (e : Expr) : Option Expr :=
  if e.mode = 1 then none else (e.add (-0x58A364)).bind (fun f => f.floordiv 4)

/-- rlocint.rs:393-406 `impl Div<i32> for RlocInt` with divisor 4. -/
def RlocInt.div4 (r : RlocInt) : Option RlocInt :=
  if r.mode ≠ 0 ∧ ¬ (r.offset.tmod 4 = 0 ∧ r.mode.tmod 4 = 0) then none
  else match divremFloor r.offset 4, divremFloor r.mode 4 with
    | some (q, _), some (p, _) => some ⟨q, p⟩
    | _, _ => none

/-- `Evaluate()`: `A n` is the value of object `n` (its place in the payload), `H n` what `Forward` `n` was set
to.  constexpr.rs:43-57 and 284-291.  No result means an exception. -/
inductive Eval (A : Nat → RlocInt) (H : Nat → Option Expr) : Expr → RlocInt → Prop
  | obj (n : Nat) : Eval A H (.obj n) (A n)
  | fwd {n : Nat} {e : Expr} {r : RlocInt} (hn : H n = some e) (he : Eval A H e r) : Eval A H (.fwd n) r
  | const {b : Option Expr} {o : Int} : Eval A H (.node b o 0) ⟨o, 0⟩
  | rel {b : Expr} {o m : Int} {r q : RlocInt} (hm : m ≠ 0) (hb : Eval A H b r)
      (hd : RlocInt.div4 ⟨i32 (r.offset * m), i32 (r.mode * m)⟩ = some q) :
      Eval A H (.node (some b) o m) ⟨i32 (q.offset + o), q.mode⟩

theorem Eval.det {A : Nat → RlocInt} {H : Nat → Option Expr} {e : Expr} {r s : RlocInt} (h : Eval A H e r)
    (g : Eval A H e s) : r = s := by
  induction h generalizing s with
  | obj n => cases g; rfl
  | fwd hn he ih =>
    cases g with
    | fwd hn' he' =>
      rw [hn] at hn'; cases hn'
      exact ih he'
  | const =>
    cases g with
    | const => rfl
    | rel hm => exact absurd rfl hm
  | rel hm hb hd ih =>
    cases g with
    | const => exact absurd rfl hm
    | rel hm' hb' hd' =>
      have := ih hb'
      subst this
      rw [hd] at hd'
      cases hd'
      rfl

/-- Objects and forwards. -/
def Expr.leaf : Expr → Prop
  | .node _ _ _ => False
  | _ => True

/-- What an expression refers to: `b` is the object or forward, evaluating to `r`, a multiple of 4 that stays within
an `i32` when scaled.  An expression built from `b` by the operators is `b` itself or has `b` as its base. -/
structure Refers (A : Nat → RlocInt) (H : Nat → Option Expr) (b : Expr) (r : RlocInt) (e : Expr) : Prop where
  leaf : b.leaf
  ev : Eval A H b r
  al : 4 ∣ r.offset ∧ 4 ∣ r.mode
  base : e = b ∨ (e.mode ≠ 0 → e.base = some b) ∧ ∃ x y z, e = .node x y z
  fit : IsI32 (r.offset * e.mode) ∧ IsI32 (r.mode * e.mode)
  i32 : IsI32 e.offset ∧ IsI32 e.mode

theorem div4_of {x y : Int} (h : 4 ∣ x ∧ 4 ∣ y) : RlocInt.div4 ⟨x, y⟩ = some ⟨x / 4, y / 4⟩ := by
  unfold RlocInt.div4
  have h1 : x.tmod 4 = 0 := Int.tmod_eq_zero_of_dvd h.1
  have h2 : y.tmod 4 = 0 := Int.tmod_eq_zero_of_dvd h.2
  simp [h1, h2, divremFloor]

/-- The value of an expression: offset plus `mode` quarters of what it refers to. -/
theorem Refers.eval {A : Nat → RlocInt} {H : Nat → Option Expr} {b e : Expr} {r : RlocInt} (h : Refers A H b r e) :
    ∃ v, Eval A H e v ∧ (∀ B, Same (v.val B) (e.offset + e.mode * (r.val B / 4))) ∧
      (IsI32 (r.offset / 4 * e.mode + e.offset) → IsI32 (r.offset * e.mode) →
        ∀ B, v.val B = e.offset + e.mode * (r.val B / 4)) := by
  obtain ⟨⟨p, hp⟩, ⟨q, hq⟩⟩ := h.al
  have hv4 : ∀ B, r.val B / 4 = p + q * B := by
    intro B
    simp only [RlocInt.val, hp, hq]
    rw [show 4 * p + 4 * q * B = 4 * (p + q * B) by grind]
    omega
  rcases h.base with rfl | ⟨hb, x, y, z, rfl⟩
  · refine ⟨r, h.ev, ?_, ?_⟩
    · intro B
      have h0 : e.offset = 0 ∧ e.mode = 4 := by
        cases e with
        | node => exact absurd h.leaf (by simp [Expr.leaf])
        | obj n => exact ⟨rfl, rfl⟩
        | fwd n => exact ⟨rfl, rfl⟩
      rw [h0.1, h0.2, hv4]
      simp only [RlocInt.val, hp, hq]
      rw [show 4 * p + 4 * q * B = 0 + 4 * (p + q * B) by grind]
      exact Same.refl _
    · intro _ _ B
      have h0 : e.offset = 0 ∧ e.mode = 4 := by
        cases e with
        | node => exact absurd h.leaf (by simp [Expr.leaf])
        | obj n => exact ⟨rfl, rfl⟩
        | fwd n => exact ⟨rfl, rfl⟩
      rw [h0.1, h0.2, hv4]
      simp only [RlocInt.val, hp, hq]
      grind
  · simp only [Expr.mode, Expr.offset, Expr.base] at hb ⊢
    by_cases hz : z = 0
    · subst hz
      refine ⟨⟨y, 0⟩, Eval.const, fun B => ?_, fun _ _ B => ?_⟩
      · simp only [RlocInt.val, Int.zero_mul]; exact Same.refl _
      · simp only [RlocInt.val, Int.zero_mul]
    · have hx := hb hz
      subst hx
      have hfit := h.fit
      simp only [Expr.mode] at hfit
      have hd : RlocInt.div4 ⟨Expr.i32 (r.offset * z), Expr.i32 (r.mode * z)⟩ = some ⟨p * z, q * z⟩ := by
        rw [i32_id hfit.1, i32_id hfit.2, hp, hq, div4_of ⟨⟨p * z, by grind⟩, ⟨q * z, by grind⟩⟩]
        congr 2
        · rw [Int.mul_assoc]; omega
        · rw [Int.mul_assoc]; omega
      refine ⟨_, Eval.rel hz h.ev hd, fun B => ?_, fun h1 _ B => ?_⟩
      · rw [hv4]
        simp only [RlocInt.val]
        refine ((i32_same _).add (Same.refl _)).trans ?_
        rw [show p * z + y + q * z * B = y + z * (p + q * B) by grind]
        exact Same.refl _
      · rw [hv4]
        simp only [RlocInt.val]
        rw [hp, show 4 * p / 4 = p by omega] at h1
        rw [i32_id h1]
        grind

theorem Expr.mk_offset (e : Expr) (o m : Int) : (e.mk o m).offset = o ∧ (e.mk o m).mode = m := ⟨rfl, rfl⟩

theorem Refers.mkE {A : Nat → RlocInt} {H : Nat → Option Expr} {b e : Expr} {r : RlocInt} (h : Refers A H b r e) {o m : Int}
    (ho : IsI32 o) (hm : IsI32 m) (hf : IsI32 (r.offset * m) ∧ IsI32 (r.mode * m)) (hz : e.mode = 0 → m = 0) :
    Refers A H b r (e.mk o m) := by
  refine ⟨h.leaf, h.ev, h.al, Or.inr ⟨?_, _, _, _, rfl⟩, hf, ho, hm⟩
  intro hm0
  change m ≠ 0 at hm0
  show (if m ≠ 0 ∧ e.base.isNone then some e else e.base) = some b
  rcases h.base with rfl | ⟨hb, x, y, z, rfl⟩
  · have : e.base = none := by
      cases e with
      | node => exact absurd h.leaf (by simp [Expr.leaf])
      | obj n => rfl
      | fwd n => rfl
    simp [hm0, this]
  · have := hb (fun e => hm0 (hz e))
    simp [this]

/-- **C05 (sums, differences, products).** Let `e` be an expression built on an object or a forward that evaluates
to a multiple of 4.  `e + k`, `k + e`, `e - k`, `k - e` and `e * k`, if not refused, evaluate to the
corresponding result modulo 2^32 for every load address, provided the scaled place of the object fits into an
`i32`.  Again they are built on that object, so this holds for any number of operations. -/
theorem C05_arith_partial {A : Nat → RlocInt} {H : Nat → Option Expr} {b e e' : Expr} {r v : RlocInt} (h : Refers A H b r e)
    (he : Eval A H e v) (k : Int) :
    (e.add k = some e' → Refers A H b r e' ∧ ∃ v', Eval A H e' v' ∧ ∀ B, Same (v'.val B) (v.val B + k)) ∧
    (e.sub k = some e' → Refers A H b r e' ∧ ∃ v', Eval A H e' v' ∧ ∀ B, Same (v'.val B) (v.val B - k)) ∧
    (e.rsub k = some e' → IsI32 (r.offset * e'.mode) ∧ IsI32 (r.mode * e'.mode) →
      Refers A H b r e' ∧ ∃ v', Eval A H e' v' ∧ ∀ B, Same (v'.val B) (k - v.val B)) ∧
    (e.mul k = some e' → IsI32 (r.offset * e'.mode) ∧ IsI32 (r.mode * e'.mode) →
      Refers A H b r e' ∧ ∃ v', Eval A H e' v' ∧ ∀ B, Same (v'.val B) (v.val B * k)) := by
  obtain ⟨w, hw, hwv, -⟩ := h.eval
  have hvw := he.det hw
  subst hvw
  have hbase : ∀ x, Same (v.val x) (e.offset + e.mode * (r.val x / 4)) := hwv
  refine ⟨?_, ?_, ?_, ?_⟩
  · unfold Expr.add
    split <;> simp only [Option.some.injEq, reduceCtorEq, false_implies]
    rintro rfl
    have hR := h.mkE (o := i32 (e.offset + i32 k)) (i32_is _) h.i32.2 h.fit id
    refine ⟨hR, ?_⟩
    obtain ⟨v', h1, h2, -⟩ := hR.eval
    refine ⟨v', h1, fun B => (h2 B).trans ?_⟩
    simp only [Expr.mk_offset]
    refine (((i32_same _).trans ((Same.refl _).add (i32_same k))).add (Same.refl _)).trans ?_
    refine Same.trans ?_ ((hbase B).symm.add (Same.refl k))
    rw [show e.offset + k + e.mode * (r.val B / 4) = e.offset + e.mode * (r.val B / 4) + k by omega]
    exact Same.refl _
  · unfold Expr.sub
    split <;> simp only [Option.some.injEq, reduceCtorEq, false_implies]
    rintro rfl
    have hR := h.mkE (o := i32 (e.offset - i32 k)) (i32_is _) h.i32.2 h.fit id
    refine ⟨hR, ?_⟩
    obtain ⟨v', h1, h2, -⟩ := hR.eval
    refine ⟨v', h1, fun B => (h2 B).trans ?_⟩
    simp only [Expr.mk_offset]
    refine (((i32_same _).trans ((Same.refl _).sub (i32_same k))).add (Same.refl _)).trans ?_
    refine Same.trans ?_ ((hbase B).symm.sub (Same.refl k))
    rw [show e.offset - k + e.mode * (r.val B / 4) = e.offset + e.mode * (r.val B / 4) - k by omega]
    exact Same.refl _
  · unfold Expr.rsub
    split <;> simp only [Option.some.injEq, reduceCtorEq, false_implies]
    rintro rfl hf
    have hR := h.mkE (o := i32 (i32 k - e.offset)) (m := i32 (-e.mode)) (i32_is _) (i32_is _) hf
      (fun h0 => by rw [h0]; decide)
    refine ⟨hR, ?_⟩
    obtain ⟨v', h1, h2, -⟩ := hR.eval
    refine ⟨v', h1, fun B => (h2 B).trans ?_⟩
    simp only [Expr.mk_offset]
    refine (((i32_same _).trans ((i32_same k).sub (Same.refl _))).add ((i32_same _).mul (Same.refl _))).trans ?_
    refine Same.trans ?_ ((Same.refl k).sub (hbase B).symm)
    rw [show k - e.offset + -e.mode * (r.val B / 4) = k - (e.offset + e.mode * (r.val B / 4)) by grind]
    exact Same.refl _
  · unfold Expr.mul
    split <;> simp only [Option.some.injEq, reduceCtorEq, false_implies]
    rintro rfl hf
    have hR : Refers A H b r (.node (if i32 (e.mode * k) ≠ 0 ∧ e.base.isNone then some e
        else if i32 (e.mode * k) = 0 then none else e.base) (i32 (e.offset * k)) (i32 (e.mode * k))) := by
      refine ⟨h.leaf, h.ev, h.al, Or.inr ⟨?_, _, _, _, rfl⟩, hf, i32_is _, i32_is _⟩
      intro hm0
      change i32 (e.mode * k) ≠ 0 at hm0
      show (if i32 (e.mode * k) ≠ 0 ∧ e.base.isNone then some e
        else if i32 (e.mode * k) = 0 then none else e.base) = some b
      rcases h.base with rfl | ⟨hb, x, y, z, rfl⟩
      · have : e.base = none := by
          cases e with
          | node => exact absurd h.leaf (by simp [Expr.leaf])
          | obj n => rfl
          | fwd n => rfl
        simp [hm0, this]
      · have hz : z ≠ 0 := by
          rintro rfl
          simp only [Expr.mode, Int.zero_mul] at hm0
          exact hm0 (by decide)
        have := hb hz
        simp [hm0, this]
    refine ⟨hR, ?_⟩
    obtain ⟨v', h1, h2, -⟩ := hR.eval
    refine ⟨v', h1, fun B => (h2 B).trans ?_⟩
    simp only [Expr.offset, Expr.mode]
    refine ((i32_same _).add ((i32_same _).mul (Same.refl _))).trans ?_
    refine Same.trans ?_ ((hbase B).symm.mul (Same.refl k))
    simp only [Expr.offset, Expr.mode]
    rw [show ∀ x y z : Int, x * k + y * k * z = (x + y * z) * k by intros; grind]
    exact Same.refl _

theorem tmod_dvd {a b : Int} (h : a.tmod b = 0) : b ∣ a := Int.dvd_of_tmod_eq_zero h

theorem divremFloor_dvd {a k p r : Int} (h : divremFloor a k = some (p, r)) (hd : k ∣ a) : r = 0 ∧ a = k * p := by
  obtain ⟨f1, f2, f3, f4⟩ := divremFloor_spec h
  obtain ⟨j, rfl⟩ := hd
  have hkp : r = k * (j - p) := by rw [Int.mul_sub]; omega
  have : j - p = 0 := by
    rcases Int.lt_trichotomy k 0 with hn | hn | hn
    · obtain ⟨g1, g2⟩ := f3 hn
      rcases Int.lt_trichotomy (j - p) 0 with h | h | h
      · have := Int.mul_pos_of_neg_of_neg hn h; omega
      · exact h
      · have := Int.mul_le_mul_of_nonpos_left (show k ≤ 0 by omega) (show 1 ≤ j - p by omega)
        omega
    · exact absurd hn f4
    · obtain ⟨g1, g2⟩ := f2 hn
      rcases Int.lt_trichotomy (j - p) 0 with h | h | h
      · have := Int.mul_neg_of_pos_of_neg hn h; omega
      · exact h
      · have := Int.mul_le_mul_of_nonneg_left (show 1 ≤ j - p by omega) (show 0 ≤ k by omega)
        omega
  rw [this, Int.mul_zero] at hkp
  exact ⟨hkp, by omega⟩

/-- **C05 (division, remainder).** `e // k` and `e % k` either are refused or are floor division and its remainder of the value
of `e`, whatever the load address; the values involved have to fit into an `i32`. -/
theorem C05_division_partial {A : Nat → RlocInt} {H : Nat → Option Expr} {b e : Expr} {r v : RlocInt} (h : Refers A H b r e)
    (he : Eval A H e v) (hx : IsI32 (r.offset / 4 * e.mode + e.offset)) (k : Int) :
    (∀ e', e.floordiv k = some e' → IsI32 e'.offset → IsI32 e'.mode → IsI32 (r.offset / 4 * e'.mode + e'.offset) →
      IsI32 (r.offset * e'.mode) ∧ IsI32 (r.mode * e'.mode) →
      ∃ v', Eval A H e' v' ∧ ∀ B, IsFloor (v'.val B) (v.val B) k) ∧
    (∀ n, e.mod k = some n → ∀ B, (∃ q, v.val B = k * q + n) ∧ (0 < k → 0 ≤ n ∧ n < k) ∧ (k < 0 → k < n ∧ n ≤ 0)) := by
  obtain ⟨w, hw, -, hwv⟩ := h.eval
  have hvw := he.det hw
  subst hvw
  have hval := hwv hx h.fit.1
  constructor
  · intro e' hd h1 h2 h3 h4
    unfold Expr.floordiv at hd
    split at hd
    · simp at hd
    split at hd
    · simp at hd
    rename_i hk0 hk
    split at hd
    · rename_i q rr p rp hq hp
      simp only [Option.some.injEq] at hd
      subst hd
      have hdv : k ∣ e.mode := by
        by_cases h0 : e.mode = 0
        · rw [h0]; exact ⟨0, by simp⟩
        · simp only [not_and, not_or, Decidable.not_not] at hk
          exact tmod_dvd (hk h0).2
      obtain ⟨-, hpe⟩ := divremFloor_dvd hp hdv
      have hR := h.mkE h1 h2 h4 (fun h0 => by
        obtain ⟨-, -, -, g⟩ := divremFloor_spec hp
        rw [h0] at hpe
        rcases Int.mul_eq_zero.1 hpe.symm with h | h
        · exact absurd h g
        · exact h)
      obtain ⟨v', i1, -, i2⟩ := hR.eval
      refine ⟨v', i1, fun B => ?_⟩
      rw [i2 h3 h4.1 B, hval B]
      obtain ⟨f1, f2, f3, f4⟩ := divremFloor_spec hq
      refine ⟨rr, ?_, f2, f3, f4⟩
      simp only [Expr.mk_offset]
      rw [hpe]
      conv => lhs; rw [f1]
      grind
    · simp at hd
  · intro n hn B
    unfold Expr.mod at hn
    split at hn
    · simp at hn
    · rename_i hk
      simp only [not_or, Decidable.not_not] at hk
      obtain ⟨-, hm, hk0, h4⟩ := hk
      obtain ⟨j, hj⟩ := tmod_dvd h4
      obtain ⟨x, hx', rfl⟩ := Option.map_eq_some_iff.1 hn
      obtain ⟨q, rr⟩ := x
      obtain ⟨f1, f2, f3, f4⟩ := divremFloor_spec hx'
      refine ⟨⟨q + j * (r.val B / 4), ?_⟩, f2, f3⟩
      rw [hval B, hm, hj]
      conv => lhs; rw [f1]
      grind

/-- **C05 (EPD).** The EPD of an address: four times it plus `0x58A364` is the address again, modulo 2^32 and whatever
the load address. -/
theorem C05_epd {A : Nat → RlocInt} {H : Nat → Option Expr} {b e e' : Expr} {r v : RlocInt} (h : Refers A H b r e)
    (he : Eval A H e v) (hm : e.mode = 4) (hal : 4 ∣ e.offset) (hd : e.epd = some e')
    (hf : IsI32 r.offset ∧ IsI32 r.mode) :
    ∃ v', Eval A H e' v' ∧ ∀ B, Same (4 * v'.val B + 0x58A364) (v.val B) := by
  obtain ⟨w, hw, hwv, -⟩ := h.eval
  have hvw := he.det hw
  subst hvw
  unfold Expr.epd at hd
  rw [if_neg (by omega), Option.bind_eq_some_iff] at hd
  obtain ⟨f, hf1, hf2⟩ := hd
  obtain ⟨hRf, vf, hef, hvf⟩ := (C05_arith_partial h he (-0x58A364)).1 hf1
  have hfm : f.mode = 4 ∧ f.offset = i32 (e.offset + i32 (-0x58A364)) := by
    unfold Expr.add at hf1
    split at hf1 <;> simp at hf1
    subst hf1
    exact ⟨hm, rfl⟩
  have hfo : 4 ∣ f.offset := by
    rw [hfm.2]
    have h1 := i32_same (e.offset + i32 (-0x58A364))
    have h2 : i32 (-0x58A364) = -0x58A364 := by decide
    rw [h2] at h1 ⊢
    unfold Same at h1
    obtain ⟨j, hj⟩ := hal
    omega
  have hfi := hRf.i32
  unfold Expr.floordiv at hf2
  split at hf2
  · simp at hf2
  split at hf2
  · simp at hf2
  split at hf2
  · rename_i q rr p rp hq hp
    simp only [Option.some.injEq] at hf2
    subst hf2
    obtain ⟨-, hqe⟩ := divremFloor_dvd hq hfo
    obtain ⟨-, hpe⟩ := divremFloor_dvd hp ⟨1, by rw [hfm.1]; rfl⟩
    have hp1 : p = 1 := by rw [hfm.1] at hpe; omega
    subst hp1
    have hR := hRf.mkE (o := q) (m := 1) (by unfold IsI32 at hfi ⊢; omega) (by decide)
      ⟨by rw [Int.mul_one]; exact hf.1, by rw [Int.mul_one]; exact hf.2⟩ (fun h0 => by rw [hfm.1] at h0; omega)
    obtain ⟨v', i1, i2, -⟩ := hR.eval
    refine ⟨v', i1, fun B => ?_⟩
    have k1 := i2 B
    simp only [Expr.mk_offset] at k1
    have k2 := (((Same.refl 4).mul k1).add (Same.refl 0x58A364))
    refine k2.trans ?_
    have k3 := hvf B
    obtain ⟨wf, hwf, hwfv, -⟩ := hRf.eval
    have := hef.det hwf
    subst this
    have k4 := hwfv B
    rw [hfm.1] at k4
    unfold Same at *
    omega
  · simp at hf2

/-- Example: object at offset `0x1230` of the payload; `(obj + 20) * 1`, `EPD(obj + 4)`. -/
example : let A : Nat → RlocInt := fun _ => ⟨0x1230, 4⟩
    Refers A (fun _ => none) (.obj 0) ⟨0x1230, 4⟩ (.obj 0) ∧
      (∃ e, (Expr.obj 0).add 4 = some e ∧ ∃ e', e.epd = some e' ∧ Eval A (fun _ => none) e' ⟨(0x1230 + 4 - 0x58A364) / 4, 1⟩) := by
  refine ⟨⟨trivial, Eval.obj 0, by decide, Or.inl rfl, by decide, by decide⟩, _, rfl, _, rfl, ?_⟩
  exact Eval.rel (r := ⟨0x1230, 4⟩) (q := ⟨0x48C, 1⟩) (by decide) (Eval.obj 0) (by decide)

/-- **C05 is false for some expressions.** (1) A unary minus on an object gives an expression that cannot be evaluated, although
`0 - obj` can. (2) Adding 0 to a forward that was set to the constant `0x40000000` gives 0. -/
theorem C05_counterexample (A : Nat → RlocInt) :
    (∀ H n v, ¬ Eval A H (Expr.obj n).neg v) ∧
    (∃ H v e', Eval A H (.fwd 0) v ∧ (Expr.fwd 0).add 0 = some e' ∧ ∀ v', Eval A H e' v' → ¬ Same (v'.val 0) (v.val 0 + 0)) := by
  constructor
  · intro H n v h
    cases h
  · refine ⟨fun _ => some (.node none 0x40000000 0), ⟨0x40000000, 0⟩, _, Eval.fwd rfl Eval.const, rfl, ?_⟩
    have hev : Eval A (fun _ => some (.node none 0x40000000 0)) ((Expr.fwd 0).mk (i32 (0 + i32 0)) 4) ⟨0, 0⟩ :=
      Eval.rel (r := ⟨0x40000000, 0⟩) (q := ⟨0, 0⟩) (by decide) (Eval.fwd rfl Eval.const) (by decide)
    intro v' h
    have := h.det hev
    subst this
    decide

/-- Unary minus is right where it can be evaluated. -/
theorem C05_neg_partial {A : Nat → RlocInt} {H : Nat → Option Expr} {b e : Expr} {r v : RlocInt} (h : Refers A H b r e)
    (he : Eval A H e v) (hb : ¬ e.leaf) (hf : IsI32 (r.offset * e.neg.mode) ∧ IsI32 (r.mode * e.neg.mode)) :
    ∃ v', Eval A H e.neg v' ∧ ∀ B, Same (v'.val B) (-v.val B) := by
  obtain ⟨w, hw, hwv, -⟩ := h.eval
  have hvw := he.det hw
  subst hvw
  have hR : Refers A H b r e.neg := by
    refine ⟨h.leaf, h.ev, h.al, Or.inr ⟨?_, _, _, _, rfl⟩, hf, i32_is _, i32_is _⟩
    intro hm
    rcases h.base with rfl | ⟨hb', -⟩
    · exact absurd h.leaf hb
    · apply hb'
      intro h0
      apply hm
      simp only [Expr.neg, Expr.mode] at h0 ⊢
      rw [h0]; decide
  obtain ⟨v', i1, i2, -⟩ := hR.eval
  refine ⟨v', i1, fun B => (i2 B).trans ?_⟩
  simp only [Expr.neg, Expr.offset, Expr.mode]
  refine ((i32_same _).add ((i32_same _).mul (Same.refl _))).trans ?_
  refine Same.trans ?_ (hwv B).neg.symm
  simp only [Expr.offset, Expr.mode]
  rw [show ∀ x y z : Int, -x + -y * z = -(x + y * z) by intros; grind]
  exact Same.refl _

/-! ## C07: `Forward` -/

/-- What can be written on the right of `fwd << x`: `None`, an integer, another expression. -/
inductive FArg
  | none
  | int (n : Int)
  | expr (e : Expr)

/-- Operations on the forwards of a program. -/
inductive FOp
  | set (n : Nat) (a : FArg)
  | reset (n : Nat)

/-- constexpr.rs:251-273 `__lshift__` and 280-283 `Reset`; `none` is an exception, which leaves the forward as it was.
(Integers that are no `i32` are stored as they are and cannot be evaluated; they are refused here.) -/
def fstep (H : Nat → Option Expr) : FOp → Option (Nat → Option Expr)
  | .reset n => some (fun k => if k = n then .none else H k)
  | .set n a =>
    if (H n).isSome then .none
    else match a with
      | .none => .none
      | .int i => if IsI32 i then some (fun k => if k = n then some (.node .none i 0) else H k) else .none
      | .expr e => some (fun k => if k = n then some e else H k)

/-- A history; exceptions are caught by the user. -/
def frun (H : Nat → Option Expr) : List FOp → Nat → Option Expr
  | [] => H
  | o :: os => frun ((fstep H o).getD H) os

/-- Specification: what forward `n` stands for after a history. -/
inductive Stands : List FOp → Nat → Option FArg → Prop
  /-- unset at the beginning -/
  | init (n : Nat) : Stands [] n none
  | reset {os : List FOp} {n : Nat} : Stands (os ++ [.reset n]) n none
  /-- setting an unset forward takes effect -/
  | set {os : List FOp} {n : Nat} {a : FArg} (h : Stands os n none) (ha : a ≠ .none) (hi : ∀ i, a = .int i → IsI32 i) :
      Stands (os ++ [.set n a]) n (some a)
  /-- setting to `None` or to an integer out of range is refused -/
  | bad {os : List FOp} {n : Nat} {a : FArg} {x : Option FArg} (h : Stands os n x)
      (ha : a = .none ∨ ∃ i, a = .int i ∧ ¬ IsI32 i) : Stands (os ++ [.set n a]) n x
  /-- setting again is refused -/
  | twice {os : List FOp} {n : Nat} {a b : FArg} (h : Stands os n (some b)) : Stands (os ++ [.set n a]) n (some b)
  /-- operations on other forwards do not matter -/
  | other {os : List FOp} {n : Nat} {o : FOp} {x : Option FArg} (h : Stands os n x)
      (ho : match o with | .set k _ => k ≠ n | .reset k => k ≠ n) : Stands (os ++ [o]) n x

theorem frun_append (H : Nat → Option Expr) : ∀ (os ps : List FOp), frun H (os ++ ps) = frun (frun H os) ps
  | [], _ => rfl
  | o :: os, ps => by simp only [List.cons_append, frun]; exact frun_append _ os ps

/-- What is stored in a forward that stands for `x`. -/
def storedAs : Option FArg → Option Expr → Prop
  | none, y => y = none
  | some .none, _ => False
  | some (.int i), y => y = some (.node none i 0)
  | some (.expr e), y => y = some e

/-- **C07.** For every history of settings and resets of any number of forwards: a forward that stands for nothing cannot be
evaluated, and one that was set evaluates to exactly what the expression it was set to evaluates to. -/
theorem C07_forward (A : Nat → RlocInt) {os : List FOp} {n : Nat} {x : Option FArg} (h : Stands os n x) :
    let H := frun (fun _ => none) os
    (x = none → ∀ v, ¬ Eval A H (.fwd n) v) ∧
    (∀ i, x = some (.int i) → ∀ v, Eval A H (.fwd n) v ↔ v = ⟨i, 0⟩) ∧
    (∀ e, x = some (.expr e) → ∀ v, Eval A H (.fwd n) v ↔ Eval A H e v) ∧ x ≠ some .none := by
  have key : storedAs x (frun (fun _ => none) os n) := by
    induction h with
    | init n => rfl
    | reset => simp [storedAs, frun_append, frun, fstep]
    | @set os n a h ha hi ih =>
      simp only [storedAs] at ih
      cases a with
      | none => exact absurd rfl ha
      | int i => simp [storedAs, frun_append, frun, fstep, ih, hi i rfl]
      | expr e => simp [storedAs, frun_append, frun, fstep, ih]
    | @bad os n a x h ha ih =>
      have : frun (fun _ => none) (os ++ [.set n a]) = frun (fun _ => none) os := by
        rw [frun_append]
        simp only [frun, fstep]
        split
        · rfl
        · rcases ha with rfl | ⟨i, rfl, hi⟩
          · rfl
          · simp [hi]
      rw [this]; exact ih
    | @twice os n a b h ih =>
      have hs : (frun (fun _ => none) os n).isSome = true := by
        cases b with
        | none => exact absurd ih id
        | int i => simp only [storedAs] at ih; rw [ih]; rfl
        | expr e => simp only [storedAs] at ih; rw [ih]; rfl
      have : frun (fun _ => none) (os ++ [.set n a]) = frun (fun _ => none) os := by
        rw [frun_append]
        simp only [frun, fstep, hs, if_true]
        rfl
      rw [this]; exact ih
    | @other os n o x h ho ih =>
      have : frun (fun _ => none) (os ++ [o]) n = frun (fun _ => none) os n := by
        rw [frun_append]
        cases o with
        | reset k => simp only at ho; simp [frun, fstep, Ne.symm ho]
        | set k a =>
          simp only at ho
          simp only [frun, fstep]
          split
          · rfl
          · cases a with
            | none => rfl
            | int i =>
              simp only
              split <;> simp [Ne.symm ho]
            | expr e => simp [Ne.symm ho]
      rw [this]; exact ih
  refine ⟨?_, ?_, ?_, ?_⟩
  · rintro rfl v hv
    simp only [storedAs] at key
    cases hv with
    | fwd hn he => rw [key] at hn; simp at hn
  · rintro i rfl v
    simp only [storedAs] at key
    constructor
    · intro hv
      cases hv with
      | fwd hn he =>
        rw [key] at hn
        cases hn
        cases he with
        | const => rfl
    · rintro rfl
      exact Eval.fwd key Eval.const
  · rintro e rfl v
    simp only [storedAs] at key
    constructor
    · intro hv
      cases hv with
      | fwd hn he => rw [key] at hn; cases hn; exact he
    · exact fun he => Eval.fwd key he
  · rintro rfl
    exact key

/-- Example: setting twice keeps the first; after `Reset` it can be set again. -/
example : Stands ([.set 0 (.int 5)] ++ [.set 0 (.int 7)]) 0 (some (.int 5)) :=
  Stands.twice (Stands.set (os := []) (Stands.init 0) (by simp) (by intro i h; cases h; decide))

example : Stands (([.set 0 (.int 5)] ++ [.reset 0]) ++ [.set 0 (.expr (.fwd 1))]) 0 (some (.expr (.fwd 1))) :=
  Stands.set Stands.reset (by simp) (by intro i h; cases h)

end Eud.Expr
