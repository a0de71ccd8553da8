import Verif.Lib.MemBase
/-
C22: `f_bitlshift(a, k)` of a variable by a constant from 1 to 10 (core/calcf/bitwise.py:144-198): a variable that adds its value to itself.
-/

namespace Eud.SC

/-- bitwise.py:166-181: the body of the function.  `ad` is `_selfadder`, the action `set_ret` is at `p`, the `VProc`s go on at the addresses `ns` and at `n`. -/
def selfBody (L : Layout) (ad p n : Nat) (ns : List Nat) : Stmt :=
  .seq (.seqs (ns.map fun n => vproc L ad 0xFFFFFFFF n []))
    (.seq (vproc L ad 0xFFFFFFFF n [aMemV (ad + 344) .set p, aMemX (ad + 352) .set 0x07000000 0xFF000000])
      (.trig [] [aMem (ad + 344) .set (epd (ad + 348)), aMemX (ad + 352) .set 0x08000000 0xFF000000]))

/-- `_selfadder` as it is between calls (variable/evcommon.py:16-18). -/
def SelfInv (ad : Nat) (s : Mem) : Prop := s (ad + 344) = epd (ad + 348) ∧ s (ad + 352) = pmod .add

theorem SelfInv.only {ad : Nat} {s s' : Mem} {l : List Nat} (h : SelfInv ad s) (ho : Only l s s') (h1 : ad + 344 ∉ l) (h2 : ad + 352 ∉ l) : SelfInv ad s' :=
  ⟨(ho _ h1).trans h.1, (ho _ h2).trans h.2⟩

/-- The dwords that the function changes. -/
def selfScr (ad : Nat) : List Nat := [ad + 4, ad + 344, ad + 348, ad + 352]

theorem double_shl (x : W) (k : Nat) : x <<< k + x <<< k = x <<< (k + 1) := by
  apply BitVec.eq_of_toNat_eq
  rw [BitVec.toNat_add, BitVec.toNat_shiftLeft, BitVec.toNat_shiftLeft, Nat.shiftLeft_eq, Nat.shiftLeft_eq]
  have h : 2 ^ (k + 1) = 2 ^ k * 2 := Nat.pow_succ ..
  rw [h, ← Nat.mul_assoc]
  omega

theorem self_double {L : Layout} {ad : Nat} (hv : PVar L ad) (he : EpdOK (ad + 348)) : ∀ (ns : List Nat) (s : Mem), SelfInv ad s →
    Does L (.seqs (ns.map fun n => vproc L ad 0xFFFFFFFF n [])) s fun s' => s' (ad + 348) = s (ad + 348) <<< ns.length ∧ SelfInv ad s' ∧ Only [ad + 4, ad + 348] s s'
  | [], s, h => Does.skip ⟨by simp, h, Only.refl _ s⟩
  | n :: ns, s, h => by
    refine Does.seq (vproc_full (acts := []) (s := s) hv trivial (md := .add) (d := ad + 348) h.2 h.1 he hv.val (by omega) ?_)
    simp only [runPA_nil, arith]
    have o1 : Only [ad + 4, ad + 348] s ((s.set (ad + 4) (BitVec.ofNat 32 n)).set (ad + 348) (s (ad + 348) + s (ad + 348))) :=
      ((Only.refl _ s).set (by simp) _).set (by simp) _
    refine Does.mono (self_double hv he ns _ (h.only o1 (by simp) (by simp))) ?_
    rintro s' ⟨h1, h2, h3⟩
    refine ⟨?_, h2, o1.trans h3⟩
    rw [h1, set_eq, List.length_cons]
    have e : s (ad + 348) + s (ad + 348) = s (ad + 348) <<< 1 := by
      have := double_shl (s (ad + 348)) 0
      simpa using this
    rw [e, ← BitVec.shiftLeft_add, Nat.add_comm 1 ns.length]

theorem modi_set : modify .set (pmod .add) 0x07000000 0xFF000000 = pmod .set := by decide +kernel
theorem modi_add : modify .set (pmod .set) 0x08000000 0xFF000000 = pmod .add := by decide +kernel

/-- The body: the value, shifted, goes to the destination; `_selfadder` is as before. -/
theorem selfBody_does {L : Layout} {ad p n o : Nat} (hv : PVar L ad) (he : EpdOK (ad + 348)) (ns : List Nat) (hc : L.cell o) (ho : EpdOK o) (hn : o ∉ selfScr ad)
    (hp : p + 20 ∉ selfScr ad) {s : Mem} (hi : SelfInv ad s) (hd : s (p + 20) = epd o) :
    Does L (selfBody L ad p n ns) s fun s' => s' o = s (ad + 348) <<< ns.length ∧ SelfInv ad s' ∧ Only (o :: selfScr ad) s s' := by
  simp only [selfScr, List.mem_cons, List.not_mem_nil, or_false, not_or] at hn hp
  unfold selfBody
  refine Does.seq (Does.mono (self_double hv he ns s hi) ?_)
  rintro s1 ⟨h1, h2, h3⟩
  have hd1 : s1 (p + 20) = epd o := by rw [h3 _ (by simp; omega), hd]
  have hr : ∀ x, runPA [aMemV (ad + 344) .set p, aMemX (ad + 352) .set 0x07000000 0xFF000000] s1 x =
      if x = ad + 352 then pmod .set else if x = ad + 344 then epd o else s1 x := by
    intro x
    simp only [runPA_cons, runPA_nil, aMemV_run, aMemX_run, arith, get_set]
    rw [if_neg (show ad + 352 ≠ ad + 344 by omega), h2.2, modi_set, hd1]
  refine Does.seq (vproc_full (acts := [aMemV (ad + 344) .set p, aMemX (ad + 352) .set 0x07000000 0xFF000000]) (s := s1) hv
    (actsOk_memV hv.dst (actsOk_memX hv.md trivial)) (md := .set) (d := o) ?_ ?_ ho hc hn.1 ?_)
  · rw [hr, if_pos rfl]
  · rw [hr, if_neg (by omega), if_pos rfl]
  · refine Does.acts (actsOk_mem hv.dst (actsOk_memX hv.md trivial)) ?_
    have hx : ∀ x, runPA [aMem (ad + 344) .set (epd (ad + 348)), aMemX (ad + 352) .set 0x08000000 0xFF000000]
        (((runPA [aMemV (ad + 344) .set p, aMemX (ad + 352) .set 0x07000000 0xFF000000] s1).set (ad + 4) (BitVec.ofNat 32 n)).set o
          (arith .set (runPA [aMemV (ad + 344) .set p, aMemX (ad + 352) .set 0x07000000 0xFF000000] s1 o)
            (runPA [aMemV (ad + 344) .set p, aMemX (ad + 352) .set 0x07000000 0xFF000000] s1 (ad + 348)))) x =
        if x = ad + 352 then pmod .add else if x = ad + 344 then epd (ad + 348) else if x = o then s1 (ad + 348) else if x = ad + 4 then BitVec.ofNat 32 n else s1 x := by
      intro x
      generalize hq : runPA [aMemV (ad + 344) .set p, aMemX (ad + 352) .set 0x07000000 0xFF000000] s1 = q at hr ⊢
      simp only [runPA_cons, runPA_nil, aMem_run, aMemX_run, arith, get_set, hr]
      rw [if_neg (show ad + 352 ≠ ad + 344 by omega), if_neg (show ad + 352 ≠ o from fun e => hn.2.2.2 e.symm), if_neg (show ad + 352 ≠ ad + 4 by omega), if_true, modi_add]
      grind
    refine ⟨?_, ⟨?_, ?_⟩, ?_⟩
    · rw [hx, if_neg (by omega), if_neg (by omega), if_pos rfl, h1]
    · rw [hx, if_neg (by omega), if_pos rfl]
    · rw [hx, if_pos rfl]
    · intro x hxo
      simp only [selfScr, List.mem_cons, List.not_mem_nil, or_false, not_or] at hxo
      rw [hx, if_neg hxo.2.2.2.2, if_neg hxo.2.2.1, if_neg hxo.1, if_neg hxo.2.1]
      exact h3 _ (by simp [hxo])

/-- **C22, `f_bitlshift(a, k)`** with a constant `k` (1 to 10 in the code; any number of doublings here): the result is stored and nothing else that matters changes. -/
theorem C22_lshift_const {L : Layout} (hw : L.Wf) {fend nptr fstart back ad p n o : Nat} {ns : List Nat} {src : Src} (hv : PVar L ad) (he : EpdOK (ad + 348)) (hc : L.cell o)
    (ho : EpdOK o) (hn : o ∉ selfScr ad) (hp : p + 20 ∉ selfScr ad) (hO : CallOk L nptr [] [(p + 20, .const (epd o)), (ad + 348, src)] (o :: selfScr ad))
    (hF : FuncCode L fstart fend nptr [] (selfBody L ad p n ns)) (hback : back < 2 ^ 32) {s : Mem} (hi : SelfInv ad s) (hnp : nptr ∉ [ad + 344, ad + 352]) :
    Does L (.prim (CallRel L fend nptr back (selfBody L ad p n ns) [] [(p + 20, .const (epd o)), (ad + 348, src)])) s fun s' =>
      s' o = src.valM s <<< ns.length ∧ SelfInv ad s' ∧ Only (nptr :: (p + 20) :: o :: selfScr ad) s s' := by
  have hp' := hp
  simp only [selfScr, List.mem_cons, List.not_mem_nil, or_false, not_or] at hp' hnp
  refine Does.mono (C31_does hw hO hF hback (Q := fun s2 => s2 o = src.valM s <<< ns.length ∧ SelfInv ad s2) ?_) ?_
  · intro s1 h1 h2
    have a1 := h1 (p + 20, .const (epd o)) (by simp)
    have a2 := h1 (ad + 348, src) (by simp)
    have hi1 : SelfInv ad s1 := hi.only h2 (by simp; omega) (by simp; omega)
    refine Wp.mono (selfBody_does hv he ns hc ho hn hp hi1 a1).wp ?_
    rintro out s2 ⟨rfl, g1, g2, g3⟩
    refine ⟨Or.inl rfl, ⟨?_, g2⟩, g3⟩
    rw [g1, a2]
  · rintro s' ⟨⟨s2, ⟨g1, g2⟩, -, g4⟩, g5⟩
    have e : s' = s2 := by funext x; exact g4 x (by simp)
    subst e
    refine ⟨g1, g2, g5.mono fun x hx => ?_⟩
    simp only [callOnly, selfScr, List.map_nil, List.map_cons, List.nil_append, List.cons_append, List.mem_cons, List.not_mem_nil, or_false] at hx ⊢
    grind

end Eud.SC
