import Verif.Machine.StructEx
import Verif.Machine.Mul
/-
Example for C20: the routine is laid out and multiplies 1234567 by 7654321.
-/

namespace Eud.SC.Ex20

def p : Nat := 0x1000000
def va : Nat := p - 4
def vb : Nat := p - 4 + 72
def vr : Nat := p - 4 + 144
def t (k : Nat) : Nat := 0x2000000 + 0x1000 * k
def p1 (i : Nat) : Nat := t (1 + 4 * i)
def p3 (i : Nat) : Nat := t (2 + 4 * i)
def p2 (i : Nat) : Nat := t (3 + 4 * i)
def p4 (i : Nat) : Nat := t (4 + 4 * i)
def B0 : SBlk := ⟨t 0, ⟨[], [sMem (vr + 348) .set 0, sModi vb .add]⟩, some (p1 0), false⟩
def B1 (i : Nat) : SBlk := ⟨p1 i, ⟨[sChk (va + 348) .atLeast 1 (pow2 i)], [sNext (p1 i) (p3 i)]⟩, none, false⟩
def B3 (i : Nat) : SBlk :=
  ⟨p3 i, ⟨[], [sDest vb (vr + 348), sNext (p1 i) (p2 i), sNext vb (p2 i)]⟩, some vb, false⟩
def B2 (i : Nat) : SBlk := ⟨p2 i, ⟨[sChk (va + 348) .exactly 0 (remBits i)],
      [sNext (p2 i) (p2 31), sMem (p2 31 + 344) .set (epd (p2 i + 4)),
        sMem (p2 31 + 348) .set (BitVec.ofNat 32 (p4 i))]⟩, none, false⟩
def B4 (i : Nat) : SBlk := ⟨p4 i, ⟨[], [sDest vb (vb + 348), sNext vb (p1 (i + 1))]⟩, some vb, false⟩
def BE : SBlk := ⟨p2 31, ⟨[], [⟨none, .set, none, some 0xFFFFFFFF⟩]⟩, some (t 128), false⟩
def L : Layout :=
  ⟨⟨B0 :: (List.range 31).flatMap (fun i => [B1 i, B3 i, B2 i, B4 i]) ++ [B1 31, B3 31, BE], [], [va, vb, vr]⟩,
    (List.range 31).flatMap (fun i => [(p1 i, p2 i), (p2 i, p4 i)]) ++ [(p1 31, p2 31)], []⟩

theorem laid (a b c : W) : L.Laid p [a, b, c] := Layout.laidB_spec (show L.laidB p 3 = true by decide +kernel)

theorem lt32 {i : Nat} (h : i < 32) : i < 31 ∨ i = 31 := by omega

theorem code (hl : L.Laid p [1234567, 7654321, 5]) : MulCode L va vb vr (t 0) (t 128) p1 p2 p3 p4 := by
  have hm : ∀ i < 31, ∀ x ∈ [B1 i, B3 i, B2 i, B4 i], x ∈ L.P.blks := by
    intro i hi x hx
    simp only [L, List.cons_append, List.mem_cons, List.mem_append, List.mem_flatMap, List.mem_range]
    exact Or.inr (Or.inl ⟨i, hi, by simpa using hx⟩)
  have hr : ∀ i < 31, ∀ x ∈ [(p1 i, p2 i), (p2 i, p4 i)], x ∈ L.rest := by
    intro i hi x hx
    simp only [L, List.mem_append, List.mem_flatMap, List.mem_range]
    exact Or.inl ⟨i, hi, hx⟩
  have hBE : BE ∈ L.P.blks := by simp [L]
  refine ⟨by simp [L, B0], ?_, ?_, ?_, fun i hi => hm i hi (B2 i) (by simp), fun i hi => hr i hi _ (by simp),
    fun i hi => hm i hi (B4 i) (by simp), hBE, ?_, ?_, ?_, ?_, by decide +kernel, by simp [L], by simp [L], by simp [L],
    by decide +kernel, by decide +kernel, by decide +kernel, ⟨?_, ?_⟩, by decide +kernel⟩
  · intro i hi
    rcases lt32 hi with h | rfl
    · exact hm i h (B1 i) (by simp)
    · simp [L, B1]
  · intro i hi
    rcases lt32 hi with h | rfl
    · exact hr i h _ (by simp)
    · simp [L]
  · intro i hi
    rcases lt32 hi with h | rfl
    · exact hm i h (B3 i) (by simp)
    · simp [L, B3]
  · intro i hi; simp only [p1, t]; omega
  · intro i hi; simp only [p3, t]; omega
  · intro i hi; simp only [p2, t]; omega
  · decide +kernel
  · exact (hl.hole hBE (o := 344) (by decide) (by decide +kernel) (by omega)).1
  · exact (hl.hole hBE (o := 348) (by decide) (by decide +kernel) (by omega)).1

/-- The dwords of `reset_nptr` when the map starts. -/
def holes : List (Nat × W) := [(p2 31 + 344, epd (p1 31 + 4)), (p2 31 + 348, BitVec.ofNat 32 (p2 31))]

example : ∃ m', Reaches ⟨L.mem p [1234567, 7654321, 5] holes, t 0⟩ ⟨m', t 128⟩ ∧ m' (vr + 348) = 1234567 * 7654321 := by
  have hl := laid 1234567 7654321 5
  have hw := hl.wf
  have hc := code hl
  obtain ⟨hok, hval⟩ := hl.ok holes
  have hBE : BE ∈ L.P.blks := hc.be
  have hh1 := (hl.hole hBE (o := 344) (by decide) (by decide +kernel) (by omega) holes)
  have hh2 := (hl.hole hBE (o := 348) (by decide) (by decide +kernel) (by omega) holes)
  have nv : ∀ v ∈ L.P.vars, ¬ L.priv (v + 348) := fun v hv => (cell_val hw hv).2
  have hR : MulRest L (p2 31) (L.view (L.mem p [1234567, 7654321, 5] holes)) := by
    refine ⟨(p1 31, p2 31), by simp [L], ?_, ?_, by decide +kernel⟩
    · rw [Layout.view_at (show ¬ L.priv (p2 31 + 344) from hh1.1.2)]
      exact hh1.2.trans (by decide +kernel)
    · rw [Layout.view_at (show ¬ L.priv (p2 31 + 348) from hh2.1.2)]
      exact hh2.2.trans (by decide +kernel)
  obtain ⟨m', r, o, s⟩ := C20_eud_mul hw hc hok hR
  refine ⟨m', r, ?_⟩
  rw [← Layout.view_at (m := m') (nv vr (by simp [L])), s.res,
    Layout.view_at (nv va (by simp [L])), Layout.view_at (nv vb (by simp [L]))]
  exact congr (congrArg _ (hval 0 (by decide))) (hval 1 (by decide))

end Eud.SC.Ex20
