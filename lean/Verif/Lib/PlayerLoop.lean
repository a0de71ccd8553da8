import Verif.Lib.PlayerExist
import Verif.Lib.CurPl
import Verif.Machine.Call
/-
C64: `EUDPlayerLoop` and `EUDEndPlayerLoop` (eudlib/utilf/pexist.py).
-/

namespace Eud.SC

/-- pexist.py:119-147.  `get` is the call `f_getcurpl()` with its result in the variable `o`, `call` is the call of `f_playerexist` with its result in the dword `t`; `n1` and `n2` are where the two
uses of `f_setcurpl` go on.  The continue point is at the increment. -/
def playerLoop (get call : Stmt) (cpc cnd v o t n1 n2 : Nat) (body : Stmt) : Stmt :=
  .seq get (.seq (.asg [⟨v + 348, .set, .const 0⟩])
    (.seq (.loop false .skip [cMem (v + 348) .atMost 7]
        (.seq call (.seq (.ite .skip [cMem t .atLeast 1] .skip .cont) (.seq (.prim (CpOpRel cpc cnd (.setV v n1))) body)))
        (.asg [⟨v + 348, .add, .const 1⟩]))
      (.prim (CpOpRel cpc cnd (.setV o n2)))))

theorem setV_does {L : Layout} {cpc cnd v n : Nat} (hk : CpOk L cpc cnd) (hv : v + 348 ∉ [cpc + 4, cpc + 344, cpc + 348, cpc + 352, cnd + 8, cpAddr]) {s : Mem} (hI : CpInv cpc cnd s) :
    Does L (.prim (CpOpRel cpc cnd (.setV v n))) s fun s' => s' cpAddr = s (v + 348) ∧ CpInv cpc cnd s' ∧ Only (cpAddr :: cpScr cpc cnd) s s' :=
  Does.prim ⟨hI, rfl⟩ (C35_history hk s [.setV v n] (by simpa [CpOp.vars] using hv) s hI (Only.refl _ _))

/-- The call of `f_getcurpl`. -/
theorem C64_get {L : Layout} (hw : L.Wf) {cpc cnd r0 o np fs fe back n1 n2 n3 : Nat} {l : List Nat} (hk : CpOk L cpc cnd) (hl : l.Perm (List.range 32))
    (hO : CallOk L np [(r0, o + 348)] [] ((r0 + 348) :: cpScr cpc cnd)) (hF : FuncCode L fs fe np [r0] (getCp L cpc cnd r0 l n1 n2 n3)) (hb : back < 2 ^ 32)
    (hn : ∀ x ∈ [np, r0 + 344, r0 + 348, o + 348, r0 + 4], x ∉ [cpc + 4, cpc + 344, cpc + 348, cpc + 352, cnd + 8, cpAddr]) {s : Mem} (hI : CpInv cpc cnd s) :
    Does L (.prim (CallRel L fe np back (getCp L cpc cnd r0 l n1 n2 n3) [(r0, o + 348)] [])) s fun s' =>
      s' (o + 348) = s cpAddr ∧ s' cpAddr = s cpAddr ∧ CpInv cpc cnd s' ∧ Only (callOnly np [(r0, o + 348)] [] ((r0 + 348) :: cpScr cpc cnd)) s s' := by
  have keep : ∀ {k : List Nat} {m m' : Mem}, (∀ x ∈ k, x ∈ [np, r0 + 344, r0 + 348, o + 348, r0 + 4]) → Only k m m' → (∀ y ∈ [cpc + 4, cpc + 344, cpc + 348, cpc + 352, cnd + 8, cpAddr], m' y = m y) :=
    fun hs h y hy => h y fun hy' => hn y (hs y hy') hy
  refine Does.mono (C31_does hw hO hF hb (Q := fun s2 => s2 (r0 + 348) = s cpAddr ∧ s2 cpAddr = s cpAddr ∧ CpInv cpc cnd s2) ?_) ?_
  · intro s1 _ e2
    have k := keep (by simp only [List.map_cons, List.map_nil, List.append_nil, List.mem_cons, List.not_mem_nil, or_false]; rintro x (rfl | rfl) <;> simp) e2
    have i1 : CpInv cpc cnd s1 := ⟨by rw [k _ (by simp), k _ (by simp), hI.1], by rw [k _ (by simp), hI.2]⟩
    refine Wp.mono (C35_get hk hl n1 n2 n3 i1 (hn _ (by simp))) ?_
    rintro q s2 ⟨rfl, g1, g2, -, g4, g5⟩
    exact ⟨Or.inr rfl, ⟨by rw [g1, k _ (by simp)], by rw [g2, k _ (by simp)], g4⟩, g5⟩
  · rintro s' ⟨⟨s2, ⟨q1, q2, q3⟩, g2, g3⟩, g4⟩
    have k := keep (by simp only [List.map_cons, List.map_nil, List.cons_append, List.nil_append, List.mem_cons, List.not_mem_nil, or_false]; rintro x (rfl | rfl) <;> simp) g3
    exact ⟨(g2 (r0, o + 348) (by simp)).trans q1, by rw [k _ (by simp), q2], ⟨by rw [k _ (by simp), k _ (by simp), q3.1], by rw [k _ (by simp), q3.2]⟩, g4⟩

/-- **C64 (`EUDPlayerLoop`).** The body runs once for each of the eight players that is in the game when its turn comes, in order, with that player as the current player.  After the loop, also
when it is left by `EUDBreak`, the current player is what it was before.  `K` is what is known at the end. -/
theorem C64_loop {L : Layout} {get call body : Stmt} {cpc cnd v o t n1 n2 : Nat} {gscr scr : List Nat} (hk : CpOk L cpc cnd) (hv : L.cell (v + 348)) (ht : L.cell t)
    (nv : v + 348 ∉ [cpc + 4, cpc + 344, cpc + 348, cpc + 352, cnd + 8, cpAddr]) (no : o + 348 ∉ [cpc + 4, cpc + 344, cpc + 348, cpc + 352, cnd + 8, cpAddr]) (hov : o ≠ v)
    (hget : ∀ s, CpInv cpc cnd s → Does L get s fun s' => s' (o + 348) = s cpAddr ∧ s' cpAddr = s cpAddr ∧ CpInv cpc cnd s' ∧ Only gscr s s')
    (hcall : ∀ s, Does L call s fun s' => s' t = (if PlayerThere s (s (v + 348)) then 1 else 0) ∧ Only scr s s')
    (hs : ∀ x ∈ (v + 348) :: (o + 348) :: (cnd + 8) :: (cpc + 348) :: (cpc + 352) :: pexAt, x ∉ scr) (hx : ∀ x ∈ pexAt, x ∉ cpAddr :: cpScr cpc cnd)
    {I : Nat → Mem → Prop} {K : Mem → Prop} (hI : ∀ p s s', Only ((v + 348) :: (cpAddr :: cpScr cpc cnd) ++ scr ++ gscr) s s' → I p s → I p s') (hK : ∀ s s', Only (cpAddr :: cpScr cpc cnd) s s' → K s → K s')
    {Q : Out → Mem → Prop} {w : W}
    (hb : ∀ p s, p < 8 → PlayerThere s (BitVec.ofNat 32 p) → I p s → s cpAddr = BitVec.ofNat 32 p → s (v + 348) = BitVec.ofNat 32 p → s (o + 348) = w → CpInv cpc cnd s → Wp L body s fun q s2 => match q with
      | .brk => K s2 ∧ CpInv cpc cnd s2 ∧ s2 (o + 348) = w
      | .ret => Q .ret s2
      | _ => I (p + 1) s2 ∧ CpInv cpc cnd s2 ∧ s2 (v + 348) = BitVec.ofNat 32 p ∧ s2 (o + 348) = w)
    (hd : ∀ p s, p < 8 → ¬ PlayerThere s (BitVec.ofNat 32 p) → I p s → I (p + 1) s) (h8 : ∀ s, I 8 s → K s) (hQ : ∀ s, K s → s cpAddr = w → CpInv cpc cnd s → Q .nrm s)
    {s : Mem} (hw : s cpAddr = w) (hc : CpInv cpc cnd s) (h0 : I 0 s) : Wp L (playerLoop get call cpc cnd v o t n1 n2 body) s Q := by
  have nvo : (o + 348 : Nat) ≠ v + 348 := fun e => hov (by omega)
  have cps : ∀ {s s' : Mem} {l : List Nat}, (∀ y ∈ [cnd + 8, cpc + 348, cpc + 352], y ∉ l) → Only l s s' → CpInv cpc cnd s → CpInv cpc cnd s' := by
    intro s s' l hl ho hi
    exact ⟨by rw [ho _ (hl _ (by simp)), ho _ (hl _ (by simp)), hi.1], by rw [ho _ (hl _ (by simp)), hi.2]⟩
  have cpv : ∀ y ∈ [cnd + 8, cpc + 348, cpc + 352], y ∉ [v + 348] := by
    intro y hy e
    rw [List.mem_singleton] at e
    subst e
    apply nv
    simp only [List.mem_cons, List.not_mem_nil, or_false] at hy ⊢
    rcases hy with h | h | h <;> simp [h]
  have setOnly : ∀ (s : Mem) (a : W), Only [v + 348] s (s.set (v + 348) a) := fun s a => (Only.refl _ _).set (by simp) _
  have wide : ∀ {s s' : Mem} {l : List Nat}, (∀ x ∈ l, x ∈ (v + 348) :: (cpAddr :: cpScr cpc cnd) ++ scr ++ gscr) → Only l s s' → Only ((v + 348) :: (cpAddr :: cpScr cpc cnd) ++ scr ++ gscr) s s' :=
    fun hl ho x hx' => ho x fun h => hx' (hl x h)
  refine Wp.seqN (Does.mono (hget s hc) ?_)
  rintro s0 ⟨g1, g2, g3, g4⟩
  refine Wp.seqN (Does.asg (by simpa using hv) (by simp) ?_)
  simp only [runAsg_cons, runAsg_nil, arith, Src.valM]
  have i0 : I 0 (s0.set (v + 348) 0) := hI _ _ _ (wide (by simp) (setOnly _ _)) (hI _ _ _ (wide (fun x h => List.mem_append_right _ h) g4) h0)
  refine Wp.seq (Wp.loop (fun n s => ∃ p, n + p = 8 ∧ s (v + 348) = BitVec.ofNat 32 p ∧ s (o + 348) = w ∧ CpInv cpc cnd s ∧ I p s) ?_ (n := 8)
    ⟨0, rfl, set_eq .., by rw [set_ne nvo, g1, hw], cps cpv (setOnly _ _) g3, i0⟩)
  rintro n s ⟨p, hn, hsv, hso, hci, hi⟩
  have fin : ∀ {s : Mem}, K s → CpInv cpc cnd s → s (o + 348) = w → Wp L (.prim (CpOpRel cpc cnd (.setV o n2))) s Q := by
    intro s k c e
    refine Wp.mono (Does.wp (setV_does hk no c)) ?_
    rintro q s' ⟨rfl, e1, e2, e3⟩
    exact hQ _ (hK _ _ e3 k) (e1.trans e) e2
  have hst : holdsAll s [cMem (v + 348) .atMost 7] = decide (p ≤ 7) := by
    simp only [holdsAll_cons, holdsAll_nil, Bool.and_true, cMem_holds, compare, hsv]
    rw [decide_eq_decide, BitVec.le_def, BitVec.toNat_ofNat, Nat.mod_eq_of_lt (by omega)]
    exact Iff.rfl
  refine Does.skip ⟨by simp only [List.mem_singleton, forall_eq]; exact cMem_ok hv _ _ _, fun h => ?_, fun h => ?_⟩
  · rw [hst, decide_eq_false_iff_not] at h
    have : p = 8 := by omega
    subst this
    exact Eq.mpr (if_pos rfl) (fin (h8 _ hi) hci hso)
  · rw [hst, Bool.not_false, decide_eq_true_eq] at h
    have step : ∀ {s2 : Mem}, I (p + 1) s2 → CpInv cpc cnd s2 → s2 (v + 348) = BitVec.ofNat 32 p → s2 (o + 348) = w →
        Does L (.asg [⟨v + 348, .add, .const 1⟩]) s2 fun s3 => ∃ m, m < n ∧ ∃ p, m + p = 8 ∧ s3 (v + 348) = BitVec.ofNat 32 p ∧ s3 (o + 348) = w ∧ CpInv cpc cnd s3 ∧ I p s3 := by
      intro s2 i2 c2 e2 e3
      refine Does.asg (by simpa using hv) (by simp) ?_
      simp only [runAsg_cons, runAsg_nil, arith, Src.valM, e2]
      exact ⟨n - 1, by omega, p + 1, by omega, by rw [set_eq, BitVec.ofNat_add]; rfl, by rw [set_ne nvo, e3], cps cpv (setOnly _ _) c2, hI _ _ _ (wide (by simp) (setOnly _ _)) i2⟩
    refine Wp.seqN (Does.mono (hcall s) ?_)
    rintro s1 ⟨t1, o1⟩
    have v1 : s1 (v + 348) = BitVec.ofNat 32 p := (o1 _ (hs _ (by simp))).trans hsv
    have w1 : s1 (o + 348) = w := (o1 _ (hs _ (by simp))).trans hso
    have c1 : CpInv cpc cnd s1 := cps (fun y hy => hs y (by simp only [List.mem_cons, List.not_mem_nil, or_false] at hy ⊢; rcases hy with h | h | h <;> simp [h])) o1 hci
    have et := there_congr (fun x hx => o1 x (hs x (by simp [hx]))) (BitVec.ofNat 32 p)
    have i1 := hI p s s1 (wide (fun x h => List.mem_append_left _ (List.mem_append_right _ h)) o1) hi
    have hh : holdsAll s1 [cMem t .atLeast 1] = decide (PlayerThere s1 (BitVec.ofNat 32 p)) := by
      simp only [holdsAll_cons, holdsAll_nil, Bool.and_true, cMem_holds, compare, t1, hsv]
      rw [decide_eq_decide, et]
      by_cases hx : PlayerThere s (BitVec.ofNat 32 p) <;> simp [hx]
    refine Wp.seq (Wp.ite0 (by simp only [List.mem_singleton, forall_eq]; exact cMem_ok ht _ _ _) (fun h' => ⟨_, _, .skip _, ?_⟩) (fun h' => Wp.cont ?_))
    · rw [hh, decide_eq_true_eq] at h'
      refine Eq.mpr (if_pos rfl) (Wp.seqN (Does.mono (setV_does hk nv c1) ?_))
      rintro s2 ⟨a1, a2, a3⟩
      have keep : ∀ x, x ∉ [cpc + 4, cpc + 344, cpc + 348, cpc + 352, cnd + 8, cpAddr] → s2 x = s1 x := by
        intro x hx'
        refine a3 x fun h => hx' ?_
        simp only [cpScr, List.mem_cons, List.not_mem_nil, or_false] at h ⊢
        rcases h with h | h | h | h | h <;> simp [h]
      have th2 := (there_congr (fun x hx' => a3 x (hx x hx')) (BitVec.ofNat 32 p)).2 h'
      refine Wp.mono (hb p s2 (by omega) th2 (hI _ _ _ (wide (fun x h => List.mem_append_left _ (List.mem_append_left _ (List.mem_cons_of_mem _ h))) a3) i1) (a1.trans v1)
        ((keep _ nv).trans v1) ((keep _ no).trans w1) a2) ?_
      intro q s3 h3
      cases q with
      | brk => exact Eq.mpr (if_pos rfl) (fin h3.1 h3.2.1 h3.2.2)
      | ret => exact Eq.mpr (if_neg (fun h => by cases h)) h3
      | nrm => exact step h3.1 h3.2.1 h3.2.2.1 h3.2.2.2
      | cont => exact step h3.1 h3.2.1 h3.2.2.1 h3.2.2.2
    · rw [hh, decide_eq_false_iff_not] at h'
      rw [if_neg (by simp)]
      exact step (hd p s1 (by omega) h' i1) c1 v1 w1

end Eud.SC
