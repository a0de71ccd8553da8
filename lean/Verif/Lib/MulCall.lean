import Verif.Machine.Call
import Verif.Machine.Mul
import Verif.Lib.Ops
/-
C20, C31: calls of the multiplication function `f_mul` (core/calcf/muldiv.py:20-24, 386-440) as a statement.

The function keeps two dwords of its own between calls (`reset_nptr`), so that what it does depends on them: they must hold the address of some
branch trigger and where it leads.  This holds initially and after each call.
-/

namespace Eud.SC

variable {L : Layout}

/-- What the rounds leave: result, frame, and `reset_nptr` in order. -/
theorem mulV_spec {a b ret t0 fin : Nat} {p1 p2 p3 p4 : Nat → Nat} (hM : MulCode L a b ret t0 fin p1 p2 p3 p4) :
    ∀ (k i : Nat), i + k = 31 → ∀ s, MulRest L (p2 31) s → MulSpec L b ret (p2 31) s (mulV a b ret p2 p4 k i s)
      (s (ret + 348) + s (b + 348) * (s (a + 348) >>> i)) := by
  have v1 : b + 348 ≠ ret + 348 := by have := hM.br; omega
  have v2 : a + 348 ≠ ret + 348 := by have := hM.ar; omega
  have v3 : a + 348 ≠ b + 348 := by have := hM.ab; omega
  obtain ⟨d1, d2, d3⟩ := hM.hd 344 (by simp)
  obtain ⟨g1, g2, g3⟩ := hM.hd 348 (by simp)
  intro k
  induction k with
  | zero =>
    intro i hi s hR
    obtain rfl : i = 31 := by omega
    refine ⟨hR.congr (by rw [mulV, set_ne d3]) (by rw [mulV, set_ne g3]), ?_, ?_⟩
    · rw [mulV, set_eq, shr_succ _ 31]
      have : ∀ x : W, x >>> (31 + 1) = 0 := by
        intro x; apply BitVec.eq_of_getLsbD_eq; intro j hj; simp
      rw [this]
      split <;> grind
    · intro x hx
      rw [mulV, set_ne (by simp at hx; exact hx.1)]
  | succ k ih =>
    intro i hi s hR
    have hi2 : i < 31 := by omega
    rw [mulV]
    by_cases hz : s (a + 348) >>> (i + 1) = 0
    · simp only [if_pos hz]
      refine ⟨⟨_, hM.r2 i hi2, ?_, ?_, hM.epd i hi2⟩, ?_, ?_⟩
      · rw [set_ne (by omega), set_eq]
      · rw [set_eq]
      · rw [set_ne g3.symm, set_ne d3.symm, set_eq, shr_succ _ i, hz]
        split <;> grind
      · intro x hx
        simp only [List.mem_cons, List.not_mem_nil, or_false, not_or] at hx
        rw [set_ne hx.2.2.2, set_ne hx.2.2.1, set_ne hx.1]
    · simp only [if_neg hz]
      have h3 := ih (i + 1) (by omega)
        ((s.set (ret + 348) (s (ret + 348) + (if (s (a + 348)).getLsbD i then s (b + 348) else 0))).set (b + 348)
          ((s.set (ret + 348) (s (ret + 348) + (if (s (a + 348)).getLsbD i then s (b + 348) else 0))) (b + 348) +
          (s.set (ret + 348) (s (ret + 348) + (if (s (a + 348)).getLsbD i then s (b + 348) else 0))) (b + 348)))
        (hR.congr (by rw [set_ne d2, set_ne d3]) (by rw [set_ne g2, set_ne g3]))
      refine ⟨h3.hole, ?_, ?_⟩
      · rw [h3.res, set_ne v1.symm, set_eq, set_eq, set_ne v3, set_ne v1, set_ne v2, shr_succ _ i]
        split <;> grind
      · intro x hx
        have hx' := hx
        simp only [List.mem_cons, List.not_mem_nil, or_false, not_or] at hx'
        rw [h3.frame x hx, set_ne hx'.2.1, set_ne hx'.1]

/-- What the chain of triggers does. -/
def MulRel (L : Layout) (a b ret : Nat) (p2 p4 : Nat → Nat) (s s' : Mem) : Prop :=
  MulRest L (p2 31) s ∧ s' = mulV a b ret p2 p4 31 0 (s.set (ret + 348) 0)

theorem MulCode.code (hw : L.Wf) {a b ret t0 fin : Nat} {p1 p2 p3 p4 : Nat → Nat} (hM : MulCode L a b ret t0 fin p1 p2 p3 p4) (r bk k : Nat) :
    Code L r bk k (.prim (MulRel L a b ret p2 p4)) t0 fin := by
  refine .prim ?_
  rintro s s' ⟨hR, rfl⟩ m h rfl
  obtain ⟨m', h1, h2, h3, -⟩ := eud_mul_view hw hM h hR
  exact ⟨m', h1, h2, h3⟩

/-- muldiv.py:393-426: the body of `_eud_mul`, `r0` being the result variable -/
def eudMul (L : Layout) (a b ret r0 : Nat) (p2 p4 : Nat → Nat) : Stmt :=
  .seq (.prim (MulRel L a b ret p2 p4)) (.seq (.asg [⟨r0 + 348, .set, .var ret⟩]) .ret)

/-- The dwords the function may change. -/
def mulOnly (b ret r0 e : Nat) : List Nat := [r0 + 348, ret + 348, b + 348, e + 344, e + 348]

theorem C20_body {a b ret t0 fin r0 : Nat} {p1 p2 p3 p4 : Nat → Nat} (hM : MulCode L a b ret t0 fin p1 p2 p3 p4)
    (c0 : L.cell (r0 + 348)) (hr : r0 + 348 ≠ p2 31 + 344 ∧ r0 + 348 ≠ p2 31 + 348) (s : Mem) (hR : MulRest L (p2 31) s) :
    Wp L (eudMul L a b ret r0 p2 p4) s fun o s' => o = .ret ∧ s' (r0 + 348) = s (a + 348) * s (b + 348) ∧ MulRest L (p2 31) s' ∧
      Only (mulOnly b ret r0 (p2 31)) s s' := by
  have v1 : b + 348 ≠ ret + 348 := by have := hM.br; omega
  have v2 : a + 348 ≠ ret + 348 := by have := hM.ar; omega
  obtain ⟨d1, d2, d3⟩ := hM.hd 344 (by simp)
  obtain ⟨g1, g2, g3⟩ := hM.hd 348 (by simp)
  have h := mulV_spec hM 31 0 rfl (s.set (ret + 348) 0) (hR.congr (set_ne d3) (set_ne g3))
  have e : mulV a b ret p2 p4 31 0 (s.set (ret + 348) 0) (ret + 348) = s (a + 348) * s (b + 348) := by
    rw [h.res, set_eq, set_ne v1, set_ne v2, BitVec.ushiftRight_zero, BitVec.mul_comm]; simp
  refine Wp.seqN (Does.prim ⟨hR, rfl⟩ (Wp.seqN (Does.asg (by simp [c0]) (by simp [hM.vr]) (Wp.ret ⟨rfl, ?_, ?_, ?_⟩))))
  · simp only [runAsg_cons, runAsg_nil, Src.valM, arith]
    rw [set_eq, e]
  · simp only [runAsg_cons, runAsg_nil]
    exact h.hole.congr (set_ne hr.1.symm) (set_ne hr.2.symm)
  · simp only [runAsg_cons, runAsg_nil]
    refine Only.set ?_ (by simp [mulOnly]) _
    intro x hx
    simp only [mulOnly, List.mem_cons, List.not_mem_nil, or_false, not_or] at hx
    rw [h.frame x (by simp [hx]), set_ne hx.2.1]

/-- `st` computes `v` into `out` as long as `I` holds, which stays so; `scr` are the other dwords it may change. -/
def CompI (L : Layout) (I : Mem → Prop) (st : Stmt) (out : Nat) (v : Mem → W) (scr : List Nat) : Prop :=
  ∀ s, I s → Does L st s fun s' => s' out = v s ∧ I s' ∧ Only (out :: scr) s s'

theorem Comp.toI {st : Stmt} {out : Nat} {v : Mem → W} {scr : List Nat} (h : Comp L st out v scr) {I : Mem → Prop}
    (hI : ∀ s s', Only (out :: scr) s s' → I s → I s') : CompI L I st out v scr :=
  fun s hs => (h s).mono fun s' h' => ⟨h'.1, hI _ _ h'.2 hs, h'.2⟩

/-- **C20, C31 (a call of `f_mul`).** Whatever was multiplied before: a call of `f_mul` stores the product of the two arguments, variables or constants, at the place
given for the result (which may be one of the arguments, as in `x *= y`), and leaves the function ready for the next call. -/
theorem C20_call (hw : L.Wf) {fend nptr fstart back a b ret t0 fin r0 q : Nat} {p1 p2 p3 p4 : Nat → Nat} {sa sb : Src} {scr : List Nat}
    (hM : MulCode L a b ret t0 fin p1 p2 p3 p4) (c0 : L.cell (r0 + 348)) (hr : r0 + 348 ≠ p2 31 + 344 ∧ r0 + 348 ≠ p2 31 + 348)
    (hscr : scr = mulOnly b ret r0 (p2 31))
    (hk : CallOk L nptr [(r0, q)] [(a + 348, sa), (b + 348, sb)] scr)
    (hF : FuncCode L fstart fend nptr [r0] (eudMul L a b ret r0 p2 p4)) (hback : back < 2 ^ 32)
    (hp : ∀ x ∈ [p2 31 + 344, p2 31 + 348], x ∉ [nptr, r0 + 344, r0 + 4, q]) :
    CompI L (MulRest L (p2 31)) (.prim (CallRel L fend nptr back (eudMul L a b ret r0 p2 p4) [(r0, q)] [(a + 348, sa), (b + 348, sb)])) q
      (fun s => sa.valM s * sb.valM s) (callOnly nptr [(r0, q)] [(a + 348, sa), (b + 348, sb)] scr) := by
  obtain ⟨d1, d2, d3⟩ := hM.hd 344 (by simp)
  obtain ⟨g1, g2, g3⟩ := hM.hd 348 (by simp)
  obtain ⟨hp1, hp2⟩ : (_ ∧ _) := ⟨hp _ (List.mem_cons_self ..), hp (p2 31 + 348) (by simp)⟩
  simp only [List.mem_cons, List.not_mem_nil, or_false, not_or] at hp1 hp2
  intro s hR
  refine (C31_does hw hk hF hback (Q := fun s2 => s2 (r0 + 348) = sa.valM s * sb.valM s ∧ MulRest L (p2 31) s2) ?_).mono ?_
  · intro s1 h1 h2
    have e1 : s1 (a + 348) = sa.valM s := h1 (a + 348, sa) (by simp)
    have e2 : s1 (b + 348) = sb.valM s := h1 (b + 348, sb) (by simp)
    have hR1 : MulRest L (p2 31) s1 := hR.congr (h2 _ (by simp [hp1]; omega)) (h2 _ (by simp [hp2]; omega))
    refine (C20_body hM c0 hr s1 hR1).mono ?_
    rintro o s2 ⟨rfl, g1, g2, g3⟩
    rw [e1, e2] at g1
    exact ⟨Or.inr rfl, ⟨g1, g2⟩, hscr ▸ g3⟩
  · rintro s' ⟨⟨s2, ⟨h1, h2⟩, h3, h5⟩, h4⟩
    exact ⟨by rw [h3 (r0, q) (by simp), h1], h2.congr (h5 _ (by simp only [List.map_cons, List.map_nil, List.singleton_append, List.mem_cons, List.not_mem_nil, or_false, not_or]; exact ⟨hp1.2.2.2, hp1.2.2.1⟩)) (h5 _ (by simp only [List.map_cons, List.map_nil, List.singleton_append, List.mem_cons, List.not_mem_nil, or_false, not_or]; exact ⟨hp2.2.2.2, hp2.2.2.1⟩)), h4.mono fun x hx => by simp [hx]⟩

end Eud.SC
