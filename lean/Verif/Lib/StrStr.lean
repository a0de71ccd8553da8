import Verif.Lib.ByteStream
import Verif.Lib.StrLen
/-
C36: `f_strnstr` (string/strfunc.py:131-170), with a reader and a stream.
-/

namespace Eud.SC

/-- The substring at `q` of length `l` is found `i` bytes into the string at `p`. -/
def SubAt (m : Mem) (p q l i : Nat) : Prop := ∀ j < l, byteAt m (posB p (i + j)) = byteAt m (posB q j)

/-- What `strnstr` shall give: the first place before `N` bytes and before the end of the string where the substring is found, or -1.  An empty substring is found at once. -/
def StrStr (m : Mem) (p q N l : Nat) (w : W) : Prop :=
  (∃ i, (i < N ∨ l = 0) ∧ (∀ j < i, byteAt m (posB p j) ≠ 0) ∧ SubAt m p q l i ∧ (∀ j < i, ¬ SubAt m p q l j) ∧ w = BitVec.ofNat 32 (posB p i)) ∨
  (l ≠ 0 ∧ (∀ i < N, (∀ j < i, byteAt m (posB p j) ≠ 0) → ¬ SubAt m p q l i) ∧ w = -1)

/-- Bytes that may be read: not in the code, the objects or the function. -/
def RdS (L : Layout) (C : SCfg) (own : List Nat) (p : Nat) : Prop := ¬ L.priv (p / 4 * 4) ∧ ¬ C.Int (p / 4 * 4) ∧ p / 4 * 4 ∉ own

/-- Variables of the user. -/
def VarS (L : Layout) (C : SCfg) (v : Nat) : Prop := v ∈ L.P.vars ∧ ¬ C.Int (v + 348) ∧ EpdOK (v + 348)

theorem VarS.src {L : Layout} {C : SCfg} {v : Nat} (h : VarS L C v) : SrcS L C (.var v) := by
  rintro w ⟨⟩; exact ⟨h.1, h.2.1⟩

theorem SRep.here {C : SCfg} {cp : W} {σ : SSt} {s : Mem} (h : SRep C cp σ s) : SRep C cp ⟨⟨σ.rp, σ.wp, s⟩, σ.sp⟩ s := ⟨h.b, h.st, fun _ _ => rfl⟩

/-- Dwords of the user may change. -/
theorem SRep.move {C : SCfg} {cp : W} {σ : SSt} {s s' : Mem} (h : SRep C cp σ s) (hs : ∀ x, C.Int x → s' x = s x) : SRep C cp ⟨⟨σ.rp, σ.wp, s'⟩, σ.sp⟩ s' := by
  refine ⟨h.b.move fun x hx => hs x (.inl hx), fun i hi => ?_, fun _ _ => rfl⟩
  obtain ⟨a1, a2, a3⟩ := h.st i hi
  have k : ∀ x ∈ (C.S i).own, s' x = s x := fun x hx => hs x (SHist.sint hi hx)
  refine ⟨⟨?_, ?_⟩, a2, SHist.mds (fun x hx => k x ?_) a3⟩
  · rw [k _ (by simp [BStr.own]), a1.1]
  · rw [k _ (by simp [BStr.own]), a1.2]
  · simp only [BStr.own, List.mem_cons, List.not_mem_nil, or_false] at hx ⊢; grind

/-- strfunc.py:131-170: the parameters `str`, `sub`, `cnt`; the variables `dst`, `b`, `a`, `oldoffset`, `oldsuboffset`, `d`; `e` is the byte read in line 157, `t` is `string + dst`, `u` is `substring + 1`;
`ta`, `ca`, `te`, `ce` belong to the two comparisons; the rest are labels.  `ri` and `si` are the reader `br2` and the stream `bs1`. -/
structure StrStrFn where
  np : Nat
  fs : Nat
  fe : Nat
  r : Nat
  str : Nat
  sub : Nat
  cnt : Nat
  dst : Nat
  b : Nat
  a : Nat
  oo : Nat
  os : Nat
  d : Nat
  e : Nat
  t : Nat
  u : Nat
  ta : Nat
  ca : Nat
  te : Nat
  ce : Nat
  k1 : Nat
  k2 : Nat
  k3 : Nat
  n1 : Nat
  n2 : Nat
  n3 : Nat
  n4 : Nat
  v1 : Nat
  v2 : Nat
  ri : Nat
  si : Nat

namespace StrStrFn
variable (F : StrStrFn)

def own : List Nat :=
  [F.np, F.r + 4, F.r + 344, F.str + 348, F.sub + 348, F.oo + 352, F.os + 352, F.r + 348, F.cnt + 348, F.dst + 348, F.b + 348, F.a + 348, F.d + 348, F.e + 348, F.t + 348, F.u + 348, F.ta + 348, F.te + 348, F.ca, F.ca + 8, F.ce, F.ce + 8,
    F.oo + 4, F.oo + 344, F.oo + 348, F.os + 4, F.os + 344, F.os + 348]
/-- What the body may change. -/
def scr : List Nat :=
  [F.r + 348, F.cnt + 348, F.dst + 348, F.b + 348, F.a + 348, F.d + 348, F.e + 348, F.t + 348, F.u + 348, F.ta + 348, F.te + 348, F.ca, F.ca + 8, F.ce, F.ce + 8,
    F.oo + 4, F.oo + 344, F.oo + 348, F.os + 4, F.os + 344, F.os + 348]

/-- `EUDReturn(x)` -/
def retS (x : Src) : Stmt := .seq (.asg [⟨F.r + 348, .set, x⟩]) .ret
/-- `EUDReturn(string + dst)` -/
def retAdd : Stmt := .seq (opAdd F.t F.str (.var F.dst)) (F.retS (.var F.t))
/-- `VProc([bs1._offset, bs1._suboffset], …)` -/
def save (C : SCfg) : Stmt := .prim (VProc2Rel (C.S F.si).off (C.S F.si).sub (F.oo + 348) (F.os + 348) F.v1)
/-- `VProc([oldoffset, oldsuboffset], …)` -/
def restore (C : SCfg) : Stmt := .prim (VProc2Rel F.oo F.os ((C.S F.si).off + 348) ((C.S F.si).sub + 348) F.v2)

/-- strfunc.py:152-158 -/
def inner (L : Layout) (C : SCfg) : Stmt :=
  .loop false .skip []
    (.seq ((StOp.base (.read F.ri (F.d + 348))).stmt L C F.n3)
      (.seq (.ite .skip [cMem (F.d + 348) .exactly 0] F.retAdd .skip)
        (.seq ((StOp.read F.si (F.e + 348)).stmt L C F.n4)
          (.ite (cmpVar F.e F.d F.te F.ce .eq).1 [(cmpVar F.e F.d F.te F.ce .eq).2] .skip .brk)))) .skip

/-- strfunc.py:141-167 -/
def outer (L : Layout) (C : SCfg) : Stmt :=
  .loop false .skip [cMem (F.cnt + 348) .atLeast 1]
    (.seq ((StOp.read F.si (F.a + 348)).stmt L C F.n2)
      (.seq (.trig [] [aMem (F.dst + 348) .add 1, aMem (F.cnt + 348) .sub 1])
        (.seq (.ite .skip [cMem (F.a + 348) .exactly 0] .brk .skip)
          (.seq (.ite (cmpVar F.a F.b F.ta F.ca .eq).1 [(cmpVar F.a F.b F.ta F.ca .eq).2] .skip .cont)
            (.seq (F.save C) (.seq (F.inner L C) (.seq (F.restore C)
              (.seq (opAdd F.u F.sub (.const 1)) ((StOp.base (.rseekV F.ri (.var F.u))).stmt L C F.k3)))))))) ) .skip

/-- strfunc.py:131-170 -/
def body (L : Layout) (C : SCfg) : Stmt :=
  .seq ((StOp.seek F.si (.var F.str)).stmt L C F.k1)
    (.seq ((StOp.base (.rseekV F.ri (.var F.sub))).stmt L C F.k2)
      (.seq (.asg [⟨F.dst + 348, .set, .const (-1)⟩])
        (.seq ((StOp.base (.read F.ri (F.b + 348))).stmt L C F.n1)
          (.seq (.ite .skip [cMem (F.b + 348) .exactly 0] (F.retS (.var F.str)) .skip)
            (.seq (F.outer L C) (F.retS (.const (-1))))))))

/-- The function is in place. -/
structure Ok (L : Layout) (C : SCfg) : Prop where
  cel : ∀ x ∈ [F.np, F.r + 344, F.r + 348, F.ca + 8, F.ce + 8], L.cell x
  int : ∀ x ∈ F.own, ¬ C.Int x
  vars : ∀ v ∈ [F.str, F.sub, F.cnt, F.dst, F.b, F.a, F.d, F.e, F.t, F.u, F.ta, F.te], VarS L C v
  nd : F.own.Nodup
  lab : ∀ x ∈ [F.k1, F.k2, F.k3, F.n1, F.n2, F.n3, F.n4], x < 2 ^ 32
  ri : F.ri < C.G.nr
  si : F.si < C.ns

/-- The stream is at `P` and the reader at `R`; the rest is as in `s0`. -/
def Here (C : SCfg) (cp : W) (s0 s : Mem) (P R : Nat) : Prop := (∃ σ, SRep C cp σ s ∧ σ.sp F.si = P ∧ σ.rp F.ri = R) ∧ ∀ y, ¬ C.Int y → y ∉ F.scr → s y = s0 y

/-- `oldoffset` and `oldsuboffset` hold the position `P`. -/
def Saved (s : Mem) (P : Nat) : Prop := s (F.os + 348) = BitVec.ofNat 32 (P % 4) ∧ epdAddr (s (F.oo + 348)) = P / 4 * 4

end StrStrFn

section
variable {L : Layout} {C : SCfg} {br : Nat → Nat} {cp : W} {F : StrStrFn} {s0 s : Mem} {P R : Nat}

namespace StrStrFn

theorem scr_own : ∀ y ∈ F.scr, y ∈ F.own := by
  intro y hy
  simp only [own, scr, List.mem_cons, List.not_mem_nil, or_false] at hy ⊢
  grind

theorem byte0 (h : F.Here C cp s0 s P R) {p : Nat} (hp : RdS L C F.own p) : byteAt s p = byteAt s0 p := byteAt_congr (h.2 _ hp.2.1 fun hm => hp.2.2 (scr_own _ hm))

/-- Local variables change. -/
theorem Here.loc (hF : F.Ok L C) (h : F.Here C cp s0 s P R) {l : List Nat} {s' : Mem} (ho : Only l s s') (hl : ∀ x ∈ l, x ∈ F.scr) : F.Here C cp s0 s' P R := by
  obtain ⟨⟨σ, h1, h2, h3⟩, h4⟩ := h
  exact ⟨⟨_, h1.move fun x hx => ho x fun hm => hF.int _ (scr_own _ (hl x hm)) hx, h2, h3⟩, fun y hy hn => by rw [ho y fun hm => hn (hl y hm), h4 y hy hn]⟩

theorem readR (hC : C.Ok L br) (hF : F.Ok L C) (h : F.Here C cp s0 s P R) (hR : RdS L C F.own R) {v n : Nat} (hn : n < 2 ^ 32) (hv : v ∈ [F.b, F.d]) :
    Does L ((StOp.base (.read F.ri (v + 348))).stmt L C n) s fun s' => F.Here C cp s0 s' P (nextB R) ∧ s' (v + 348) = (byteAt s0 R).setWidth 32 ∧ ∀ y, ¬ C.Int y → y ≠ v + 348 → s' y = s y := by
  have hs : v + 348 ∈ F.scr := by simp only [scr, List.mem_cons, List.not_mem_nil, or_false] at hv ⊢; grind
  have hV : VarS L C v := hF.vars v (by simp only [List.mem_cons, List.not_mem_nil, or_false] at hv ⊢; grind)
  have hb := byte0 h hR
  obtain ⟨⟨σ, h1, h2, h3⟩, h4⟩ := h
  subst h3
  refine (C37_stream_step hC h1.here hn _ ?_).mono fun s' h' => ?_
  · refine ⟨⟨hF.ri, cell_val hC.G.wf hV.1, hV.2.2, fun hi => hV.2.1 (.inl hi), hR.1, fun hi => hR.2.1 (.inl hi)⟩, ?_⟩
    simp only [BOp.uses, List.mem_cons, List.not_mem_nil, or_false, forall_eq_or_imp, forall_eq]
    exact ⟨fun hi => hV.2.1 (.inr hi), fun hi => hR.2.1 (.inr hi)⟩
  · have e := h'.vis
    simp only [StOp.spec, BOp.spec] at e
    have e2 : ∀ y, ¬ C.Int y → y ≠ v + 348 → s' y = s y := fun y hy hn => by rw [e y hy, set_ne hn]
    refine ⟨⟨⟨_, h', h2, BHist.upd_self _ _ _⟩, fun y hy hn => ?_⟩, by rw [e _ hV.2.1, set_eq, hb], e2⟩
    rw [e2 y hy fun e => hn (e ▸ hs), h4 y hy hn]

theorem readS (hC : C.Ok L br) (hF : F.Ok L C) (h : F.Here C cp s0 s P R) (hP : RdS L C F.own P) {v n : Nat} (hn : n < 2 ^ 32) (hv : v ∈ [F.a, F.e]) :
    Does L ((StOp.read F.si (v + 348)).stmt L C n) s fun s' => F.Here C cp s0 s' (nextB P) R ∧ s' (v + 348) = (byteAt s0 P).setWidth 32 ∧ ∀ y, ¬ C.Int y → y ≠ v + 348 → s' y = s y := by
  have hs : v + 348 ∈ F.scr := by simp only [scr, List.mem_cons, List.not_mem_nil, or_false] at hv ⊢; grind
  have hV : VarS L C v := hF.vars v (by simp only [List.mem_cons, List.not_mem_nil, or_false] at hv ⊢; grind)
  have hb := byte0 h hP
  obtain ⟨⟨σ, h1, h2, h3⟩, h4⟩ := h
  subst h2
  refine (C37_stream_step hC h1.here hn _ ?_).mono fun s' h' => ?_
  · exact ⟨hF.si, cell_val hC.G.wf hV.1, hV.2.2, hV.2.1, hP.1, hP.2.1⟩
  · have e := h'.vis
    simp only [StOp.spec] at e
    have e2 : ∀ y, ¬ C.Int y → y ≠ v + 348 → s' y = s y := fun y hy hn => by rw [e y hy, set_ne hn]
    refine ⟨⟨⟨_, h', BHist.upd_self _ _ _, h3⟩, fun y hy hn => ?_⟩, by rw [e _ hV.2.1, set_eq, hb], e2⟩
    rw [e2 y hy fun e => hn (e ▸ hs), h4 y hy hn]

theorem seekR (hC : C.Ok L br) (hF : F.Ok L C) (h : F.Here C cp s0 s P R) {v n : Nat} (hn : n < 2 ^ 32) (hv : v ∈ [F.sub, F.u]) :
    Does L ((StOp.base (.rseekV F.ri (.var v))).stmt L C n) s fun s' => F.Here C cp s0 s' P (s (v + 348)).toNat ∧ ∀ y, ¬ C.Int y → s' y = s y := by
  have hV : VarS L C v := hF.vars v (by simp only [List.mem_cons, List.not_mem_nil, or_false] at hv ⊢; grind)
  obtain ⟨⟨σ, h1, h2, h3⟩, h4⟩ := h
  refine (C37_stream_step hC h1.here hn _ ?_).mono fun s' h' => ?_
  · refine ⟨⟨hF.ri, fun w hw => ⟨(hV.src w hw).1, fun hi => (hV.src w hw).2 (.inl hi)⟩⟩, ?_⟩
    simp only [BOp.uses, Src.uses, List.mem_singleton, forall_eq]
    exact fun hi => hV.2.1 (.inr hi)
  · have e := h'.vis
    simp only [StOp.spec, BOp.spec] at e
    exact ⟨⟨⟨_, h', h2, BHist.upd_self _ _ _⟩, fun y hy hn => by rw [e y hy, h4 y hy hn]⟩, e⟩

theorem seekS (hC : C.Ok L br) (hF : F.Ok L C) (h : F.Here C cp s0 s P R) {n : Nat} (hn : n < 2 ^ 32) :
    Does L ((StOp.seek F.si (.var F.str)).stmt L C n) s fun s' => F.Here C cp s0 s' (s (F.str + 348)).toNat R ∧ ∀ y, ¬ C.Int y → s' y = s y := by
  have hV : VarS L C F.str := hF.vars _ (by simp)
  obtain ⟨⟨σ, h1, h2, h3⟩, h4⟩ := h
  refine (C37_stream_step hC h1.here hn _ ?_).mono fun s' h' => ?_
  · exact ⟨hF.si, hV.src⟩
  · have e := h'.vis
    simp only [StOp.spec] at e
    exact ⟨⟨⟨_, h', BHist.upd_self _ _ _, h3⟩, fun y hy hn => by rw [e y hy, h4 y hy hn]⟩, e⟩

theorem save_does (hC : C.Ok L br) (hF : F.Ok L C) (h : F.Here C cp s0 s P R) :
    Does L (F.save C) s fun s' => F.Here C cp s0 s' P R ∧ F.Saved s' P ∧ ∀ y, ¬ C.Int y → y ∉ [F.oo + 348, F.os + 348] → s' y = s y := by
  obtain ⟨⟨σ, h1, h2, h3⟩, h4⟩ := h
  subst h2
  obtain ⟨a1, a2, a3⟩ := h1.st _ hF.si
  have hS := hC.S _ hF.si
  have nd1 : (pvDw (C.S F.si).off ++ pvDw (C.S F.si).sub).Nodup := hS.nd.sublist (by unfold BStr.own pvDw; simp only [List.cons_append, List.nil_append]; sublist_tac)
  have mS : ∀ x ∈ [(C.S F.si).off + 4, (C.S F.si).off + 344, (C.S F.si).sub + 4, (C.S F.si).sub + 344], x ∈ (C.S F.si).own := by
    intro x hx
    simp only [BStr.own, List.mem_cons, List.not_mem_nil, or_false] at hx ⊢; grind
  have i1 : ¬ C.Int (F.oo + 348) := hF.int _ (by simp [own])
  have i2 : ¬ C.Int (F.os + 348) := hF.int _ (by simp [own])
  have nd2 : [F.oo + 348, F.os + 348].Nodup := hF.nd.sublist (by unfold own; sublist_tac)
  simp only [List.nodup_cons, List.mem_cons, not_or, List.not_mem_nil, not_false_eq_true, List.nodup_nil, and_true, or_false] at nd2
  refine (vproc2_does (nxt := F.v1) nd1 (fun hm => i1 (SHist.sint hF.si (mS _ hm))) (fun hm => ?_) a3.1 a3.2.1).mono ?_
  · rcases List.mem_cons.1 hm with hm | hm
    · exact nd2 hm.symm
    · exact i2 (SHist.sint hF.si (mS _ hm))
  · rintro s' ⟨q1, q2, q3⟩
    have ndm : [(C.S F.si).off + 4, (C.S F.si).off + 344, (C.S F.si).off + 348, (C.S F.si).off + 352, (C.S F.si).sub + 4, (C.S F.si).sub + 344, (C.S F.si).sub + 348, (C.S F.si).sub + 352, (C.S F.si).v + 352].Nodup :=
      hS.nd.sublist (by unfold BStr.own; sublist_tac)
    simp only [List.nodup_cons, List.mem_cons, not_or, List.not_mem_nil, not_false_eq_true, List.nodup_nil, and_true, or_false] at ndm
    have kp : ∀ x ∈ [(C.S F.si).off + 348, (C.S F.si).off + 352, (C.S F.si).sub + 348, (C.S F.si).sub + 352, (C.S F.si).v + 352], s' x = s x := by
      intro x hx
      have hxo : C.Int x := SHist.sint hF.si (by simp only [BStr.own, List.mem_cons, List.not_mem_nil, or_false] at hx ⊢; grind)
      refine q3 x fun hm => ?_
      simp only [List.mem_cons, List.not_mem_nil, or_false] at hm hx
      rcases hm with rfl | rfl | hm
      · exact i1 hxo
      · exact i2 hxo
      · grind
    have e : ∀ y, ¬ C.Int y → y ∉ [F.oo + 348, F.os + 348] → s' y = s y := by
      intro y hy hn
      refine q3 y fun hm => ?_
      rw [show [F.oo + 348, F.os + 348, (C.S F.si).off + 4, (C.S F.si).off + 344, (C.S F.si).sub + 4, (C.S F.si).sub + 344] = [F.oo + 348, F.os + 348] ++ [(C.S F.si).off + 4, (C.S F.si).off + 344, (C.S F.si).sub + 4, (C.S F.si).sub + 344] from rfl,
        List.mem_append] at hm
      exact hm.elim hn fun hm => hy (SHist.sint hF.si (mS y hm))
    refine ⟨⟨⟨⟨⟨σ.rp, σ.wp, s'⟩, σ.sp⟩, SHist.step hC h1 (fun j => j = F.si) q3 ?_ ?_ ?_ ?_, rfl, h3⟩, fun y hy hn => ?_⟩, ⟨by rw [q2, a1.1], by rw [q1, a1.2]⟩, e⟩
    · intro x hx
      rcases List.mem_cons.1 hx with rfl | hx
      · exact .inr (.inr (.inr i1))
      rcases List.mem_cons.1 hx with rfl | hx
      · exact .inr (.inr (.inr i2))
      · exact .inr (.inr (.inl ⟨_, hF.si, rfl, mS x hx⟩))
    · rintro j - rfl
      exact ⟨⟨by rw [kp _ (by simp), a1.1], by rw [kp _ (by simp), a1.2]⟩, a2, by rw [kp _ (by simp), a3.1], by rw [kp _ (by simp), a3.2.1], by rw [kp _ (by simp), a3.2.2]⟩
    · exact fun j _ _ => rfl
    · exact fun x _ => rfl
    · rw [e y hy fun hm => hn ?_, h4 y hy hn]
      simp only [scr, List.mem_cons, List.not_mem_nil, or_false] at hm ⊢
      grind

theorem restore_does (hC : C.Ok L br) (hF : F.Ok L C) (h : F.Here C cp s0 s P R) {P0 : Nat} (hS : F.Saved s P0) (hP : P0 < 2 ^ 32) (m1 : s0 (F.oo + 352) = pmod .set) (m2 : s0 (F.os + 352) = pmod .set) :
    Does L (F.restore C) s fun s' => F.Here C cp s0 s' P0 R ∧ ∀ y, ¬ C.Int y → y ∉ [F.oo + 4, F.oo + 344, F.os + 4, F.os + 344] → s' y = s y := by
  obtain ⟨⟨σ, h1, h2, h3⟩, h4⟩ := h
  obtain ⟨a1, a2, a3⟩ := h1.st _ hF.si
  have hSt := hC.S _ hF.si
  have nd1 : (pvDw F.oo ++ pvDw F.os).Nodup := by
    have n1 : [F.oo + 352, F.os + 352, F.oo + 4, F.oo + 344, F.oo + 348, F.os + 4, F.os + 344, F.os + 348].Nodup := hF.nd.sublist (by unfold own; sublist_tac)
    simp only [pvDw, List.cons_append, List.nil_append, List.nodup_cons, List.mem_cons, not_or, List.not_mem_nil, not_false_eq_true, List.nodup_nil, and_true, or_false] at n1 ⊢
    grind
  have hsr : ∀ x ∈ [F.oo + 4, F.oo + 344, F.os + 4, F.os + 344], x ∈ F.scr := by
    intro x hx
    simp only [scr, List.mem_cons, List.not_mem_nil, or_false] at hx ⊢; grind
  have hin : ∀ x ∈ [F.oo + 4, F.oo + 344, F.os + 4, F.os + 344], ¬ C.Int x := fun x hx => hF.int x (scr_own x (hsr x hx))
  have t1 : (C.S F.si).off + 348 ∈ (C.S F.si).own := by simp [BStr.own]
  have t2 : (C.S F.si).sub + 348 ∈ (C.S F.si).own := by simp [BStr.own]
  have ndS : [(C.S F.si).off + 348, (C.S F.si).off + 352, (C.S F.si).sub + 348, (C.S F.si).sub + 352, (C.S F.si).v + 352].Nodup := hSt.nd.sublist (by unfold BStr.own; sublist_tac)
  simp only [List.nodup_cons, List.mem_cons, not_or, List.not_mem_nil, not_false_eq_true, List.nodup_nil, and_true, or_false] at ndS
  have ms : ∀ x ∈ [F.oo + 352, F.os + 352], s x = s0 x := fun x hx => h4 x (hF.int x (by simp only [own, List.mem_cons, List.not_mem_nil, or_false] at hx ⊢; grind)) (by
    have n1 : (x :: F.scr).Nodup := by
      simp only [List.mem_cons, List.not_mem_nil, or_false] at hx
      rcases hx with rfl | rfl <;> exact hF.nd.sublist (by unfold own scr; sublist_tac)
    exact (List.nodup_cons.1 n1).1)
  refine (vproc2_does (nxt := F.v2) nd1 (fun hm => hin _ hm (SHist.sint hF.si t1)) (fun hm => ?_) (by rw [ms _ (by simp), m1]) (by rw [ms _ (by simp), m2])).mono ?_
  · rcases List.mem_cons.1 hm with hm | hm
    · grind
    · exact hin _ hm (SHist.sint hF.si t2)
  · rintro s' ⟨q1, q2, q3⟩
    have kp : ∀ x ∈ [(C.S F.si).off + 352, (C.S F.si).sub + 352, (C.S F.si).v + 352], s' x = s x := by
      intro x hx
      have hxo : C.Int x := SHist.sint hF.si (by simp only [BStr.own, List.mem_cons, List.not_mem_nil, or_false] at hx ⊢; grind)
      refine q3 x fun hm => ?_
      rcases List.mem_cons.1 hm with hm | hm
      · simp only [List.mem_cons, List.not_mem_nil, or_false] at hx; grind
      rcases List.mem_cons.1 hm with hm | hm
      · simp only [List.mem_cons, List.not_mem_nil, or_false] at hx; grind
      · exact hin x hm hxo
    have e : ∀ y, ¬ C.Int y → y ∉ [F.oo + 4, F.oo + 344, F.os + 4, F.os + 344] → s' y = s y := by
      intro y hy hn
      refine q3 y fun hm => ?_
      rcases List.mem_cons.1 hm with rfl | hm
      · exact hy (SHist.sint hF.si t1)
      rcases List.mem_cons.1 hm with rfl | hm
      · exact hy (SHist.sint hF.si t2)
      · exact hn hm
    refine ⟨⟨⟨⟨⟨σ.rp, σ.wp, s'⟩, upd σ.sp F.si P0⟩, SHist.step hC h1 (fun j => j = F.si) q3 ?_ ?_ ?_ ?_, BHist.upd_self _ _ _, h3⟩, fun y hy hn => ?_⟩, e⟩
    · intro x hx
      rcases List.mem_cons.1 hx with rfl | hx
      · exact .inr (.inr (.inl ⟨_, hF.si, rfl, t1⟩))
      rcases List.mem_cons.1 hx with rfl | hx
      · exact .inr (.inr (.inl ⟨_, hF.si, rfl, t2⟩))
      · exact .inr (.inr (.inr (hin x hx)))
    · rintro j - rfl
      rw [BHist.upd_self]
      exact ⟨⟨by rw [q2, hS.1], by rw [q1, hS.2]⟩, hP, by rw [kp _ (by simp), a3.1], by rw [kp _ (by simp), a3.2.1], by rw [kp _ (by simp), a3.2.2]⟩
    · exact fun j _ hj => BHist.upd_ne hj
    · exact fun x _ => rfl
    · rw [e y hy fun hm => hn (hsr y hm), h4 y hy hn]

/-- The dwords that the inner loop changes. -/
def inScr (F : StrStrFn) : List Nat := [F.d + 348, F.e + 348, F.te + 348, F.ce, F.ce + 8]

theorem inScr_scr : ∀ y ∈ F.inScr, y ∈ F.scr := by
  intro y hy
  simp only [inScr, scr, List.mem_cons, List.not_mem_nil, or_false] at hy ⊢
  grind

/-- The function has returned `w`. -/
def Res (F : StrStrFn) (C : SCfg) (cp : W) (s0 s : Mem) (w : W) : Prop := (∃ P R, F.Here C cp s0 s P R) ∧ s (F.r + 348) = w

theorem retS_wp (hF : F.Ok L C) (h : F.Here C cp s0 s P R) {x : Src} (hx : ∀ v, x = .var v → v ∈ L.P.vars) : Wp L (F.retS x) s fun o s' => o = .ret ∧ F.Res C cp s0 s' (x.valM s) := by
  refine Wp.seqN (Does.asg ?_ ?_ (Wp.ret ⟨rfl, ⟨P, R, ?_⟩, ?_⟩))
  · simp only [List.mem_singleton, forall_eq]; exact hF.cel _ (by simp)
  · simp only [List.mem_singleton, forall_eq]; exact hx
  · simp only [runAsg, arith]
    exact h.loc hF (Only.set (Only.refl [F.r + 348] _) (by simp) _) (by simp [scr])
  · simp only [runAsg, arith, set_eq]

theorem retAdd_wp (hw : L.Wf) (hF : F.Ok L C) (h : F.Here C cp s0 s P R) : Wp L F.retAdd s fun o s' => o = .ret ∧ F.Res C cp s0 s' (s (F.str + 348) + s (F.dst + 348)) := by
  have nd1 : [F.str + 348, F.t + 348].Nodup := hF.nd.sublist (by unfold own; sublist_tac)
  simp only [List.nodup_cons, List.mem_cons, not_or, List.not_mem_nil, not_false_eq_true, List.nodup_nil, and_true, or_false] at nd1
  have vt := hF.vars F.t (by simp)
  refine Wp.seqN ((C53_add hw vt.1 (hF.vars F.str (by simp)).1 (y := .var F.dst) (by rintro v ⟨⟩; exact (hF.vars F.dst (by simp)).1) (by omega) s).mono ?_)
  rintro s1 ⟨e1, e2⟩
  refine (retS_wp hF (h.loc hF e2 (by simp [scr])) (x := .var F.t) (by rintro v ⟨⟩; exact vt.1)).mono ?_
  rintro o s2 ⟨rfl, h2⟩
  refine ⟨rfl, ?_⟩
  rw [valM_var, e1] at h2
  exact h2

theorem eq_does (hw : L.Wf) (hF : F.Ok L C) (h : F.Here C cp s0 s P R) {x y t c : Nat} (hx : VarS L C x) (hy : VarS L C y) (ht : VarS L C t) (hc : L.cell (c + 8)) (nd : [x + 348, y + 348, t + 348, c, c + 8].Nodup)
    (hs : ∀ z ∈ [c, c + 8, t + 348], z ∈ F.scr) :
    Does L (cmpVar x y t c .eq).1 s fun s' => (∀ p ∈ [(cmpVar x y t c .eq).2], p.Ok L s') ∧ (holdsAll s' [(cmpVar x y t c .eq).2] = decide (s (x + 348) = s (y + 348))) ∧
      F.Here C cp s0 s' P R ∧ Only [c, c + 8, t + 348] s s' := by
  simp only [List.nodup_cons, List.mem_cons, not_or, List.not_mem_nil, not_false_eq_true, List.nodup_nil, and_true, or_false] at nd
  refine (C23_var hw hx.1 hy.1 ht.1 (by grind) (by grind) .eq (by simp) (fun _ => hc) (by grind) (by grind) (by grind) s).mono ?_
  rintro s' ⟨e1, e2, e3⟩
  refine ⟨e1, ?_, h.loc hF e3 hs, e3⟩
  rw [e2]
  simp only [Rel.holds, decide_eq_decide]
  rw [Int.ofNat_inj, BitVec.toNat_inj]

/-- The inner loop: whether the substring is found at place `i`. -/
theorem inner_wp (hC : C.Ok L br) (hF : F.Ok L C) {p q N l i : Nat} (hl : StrLen s0 q l) (hl0 : l ≠ 0) (hi : i < N) (hA : ∀ i, i + 2 ≤ N + l → (∀ j < i, byteAt s0 (posB p j) ≠ 0) → RdS L C F.own (posB p i))
    (hB : ∀ i ≤ l, RdS L C F.own (posB q i)) (hz : ∀ j < i, byteAt s0 (posB p j) ≠ 0) (h0 : byteAt s0 (posB p i) = byteAt s0 (posB q 0)) (hp : s0 (F.str + 348) = BitVec.ofNat 32 p) (hd : s (F.dst + 348) = BitVec.ofNat 32 i)
    (h : F.Here C cp s0 s (posB p (i + 1)) (posB q 1)) :
    Wp L (F.inner L C) s fun o s' => (o = .ret ∧ SubAt s0 p q l i ∧ F.Res C cp s0 s' (BitVec.ofNat 32 (posB p i))) ∨
      (o = .nrm ∧ ¬ SubAt s0 p q l i ∧ (∃ P R, F.Here C cp s0 s' P R) ∧ ∀ y, ¬ C.Int y → y ∉ F.inScr → s' y = s y) := by
  have nd1 : [F.d + 348, F.e + 348, F.te + 348, F.ce, F.ce + 8].Nodup := hF.nd.sublist (by unfold own; sublist_tac)
  have nd2 : ((F.dst + 348) :: F.inScr).Nodup := hF.nd.sublist (by unfold own inScr; sublist_tac)
  have nd3 : ((F.str + 348) :: F.scr).Nodup := hF.nd.sublist (by unfold own scr; sublist_tac)
  have nc := nd1
  simp only [List.nodup_cons, List.mem_cons, not_or, List.not_mem_nil, not_false_eq_true, List.nodup_nil, and_true, or_false] at nc
  have vd := hF.vars F.d (by simp)
  have ve := hF.vars F.e (by simp)
  have vt := hF.vars F.te (by simp)
  have idst : ¬ C.Int (F.dst + 348) := (hF.vars F.dst (by simp)).2.1
  have istr : ¬ C.Int (F.str + 348) := (hF.vars F.str (by simp)).2.1
  refine Wp.loop (fun k s' => k < l ∧ F.Here C cp s0 s' (posB p (i + (l - k))) (posB q (l - k)) ∧ (∀ j < l - k, byteAt s0 (posB p (i + j)) = byteAt s0 (posB q j)) ∧ ∀ y, ¬ C.Int y → y ∉ F.inScr → s' y = s y) ?_ (n := l - 1) ?_
  · rintro k s1 ⟨hk, g1, g2, g3⟩
    refine Does.skip ⟨by simp, fun hh => by simp [holdsAll] at hh, fun _ => ?_⟩
    refine Wp.seqN ((readR hC hF g1 (hB _ (by omega)) (hF.lab _ (by simp)) (v := F.d) (by simp)).mono ?_)
    rintro s2 ⟨u1, u2, u3⟩
    have u4 : ∀ y, ¬ C.Int y → y ∉ F.inScr → s2 y = s y := fun y hy hn => by rw [u3 y hy fun e => hn (by simp [inScr, e]), g3 y hy hn]
    refine Wp.seq (Wp.ite0 ?_ (fun hh => ?_) fun hh => Wp.skip ?_)
    · simp only [List.mem_singleton, forall_eq]
      exact cMem_ok (cell_val hC.G.wf vd.1) _ _ _
    · simp only [holdsAll_cons, holdsAll_nil, Bool.and_true, cMem_holds, u2, compare, decide_eq_true_eq] at hh
      rw [show (0 : W) = (0 : BitVec 8).setWidth 32 from rfl, setW_inj] at hh
      have hk0 : k = 0 := by
        cases k with
        | zero => rfl
        | succ k => exact absurd hh (hl.1 _ (by omega))
      subst hk0
      refine (retAdd_wp hC.G.wf hF u1).mono ?_
      rintro o s3 ⟨rfl, w⟩
      rw [if_neg (by simp)]
      refine .inl ⟨rfl, g2, ?_⟩
      rw [u1.2 _ istr (List.nodup_cons.1 nd3).1, hp, u4 _ idst (List.nodup_cons.1 nd2).1, hd] at w
      rw [show BitVec.ofNat 32 (posB p i) = BitVec.ofNat 32 p + BitVec.ofNat 32 i by
        apply BitVec.eq_of_toNat_eq
        simp only [posB, BitVec.toNat_ofNat, BitVec.toNat_add]; omega]
      exact w
    · simp only [holdsAll_cons, holdsAll_nil, Bool.and_true, cMem_holds, u2, compare, decide_eq_false_iff_not] at hh
      rw [show (0 : W) = (0 : BitVec 8).setWidth 32 from rfl, setW_inj] at hh
      have hk0 : k ≠ 0 := by
        rintro rfl
        exact hh hl.2
      rw [if_pos rfl]
      have hz' : ∀ j < i + (l - k), byteAt s0 (posB p j) ≠ 0 := by
        intro j hj
        by_cases c : j < i
        · exact hz j c
        · rw [show j = i + (j - i) by omega, g2 (j - i) (by omega)]
          exact hl.1 _ (by omega)
      refine Wp.seqN ((readS hC hF u1 (hA _ (by omega) hz') (hF.lab _ (by simp)) (v := F.e) (by simp)).mono ?_)
      rintro s3 ⟨w1, w2, w3⟩
      have w4 : ∀ y, ¬ C.Int y → y ∉ F.inScr → s3 y = s y := fun y hy hn => by rw [w3 y hy fun e => hn (by simp [inScr, e]), u4 y hy hn]
      have w5 : s3 (F.d + 348) = (byteAt s0 (posB q (l - k))).setWidth 32 := by rw [w3 _ vd.2.1 (by grind), u2]
      refine Wp.ite ((eq_does hC.G.wf hF w1 ve vd vt (hF.cel _ (by simp)) ?_ ?_).mono ?_)
      · simp only [List.nodup_cons, List.mem_cons, not_or, List.not_mem_nil, not_false_eq_true, List.nodup_nil, and_true, or_false]; grind
      · intro z hz
        simp only [scr, List.mem_cons, List.not_mem_nil, or_false] at hz ⊢; grind
      · rintro s4 ⟨x1, x2, x3, x4⟩
        have x5 : ∀ y, ¬ C.Int y → y ∉ F.inScr → s4 y = s y := fun y hy hn => by
          rw [x4 y fun hm => hn (by simp only [inScr, List.mem_cons, List.not_mem_nil, or_false] at hm ⊢; grind), w4 y hy hn]
        rw [w2, w5] at x2
        refine ⟨x1, fun hh => Wp.skip (Does.skip ⟨k - 1, by omega, by omega, ?_, ?_, x5⟩), fun hh => Wp.brk (.inr ⟨rfl, ?_, ⟨_, _, x3⟩, x5⟩)⟩
        · rw [posB_next, posB_next] at x3
          rw [show l - (k - 1) = l - k + 1 by omega]
          exact x3
        · rw [x2, decide_eq_true_eq, setW_inj] at hh
          intro j hj
          by_cases c : j < l - k
          · exact g2 j c
          · rw [show j = l - k by omega]; exact hh
        · rw [x2, decide_eq_false_iff_not, setW_inj] at hh
          exact fun hs => hh (hs _ (by omega))
  · refine ⟨by omega, ?_, ?_, fun y _ _ => rfl⟩
    · rw [show l - (l - 1) = 1 by omega]; exact h
    · intro j hj
      rw [show j = 0 by omega]; exact h0

theorem ofNat_pos {k : Nat} (h : k < 2 ^ 32) : ((1 : W) ≤ BitVec.ofNat 32 k ↔ k ≠ 0) ∧ (k ≠ 0 → arith .sub (BitVec.ofNat 32 k) 1 = BitVec.ofNat 32 (k - 1)) := by
  have h1 : (1 : W).toNat = 1 := rfl
  refine ⟨?_, fun hk => ?_⟩
  · simp only [BitVec.le_def, BitVec.toNat_ofNat, Nat.mod_eq_of_lt h, h1]; omega
  · rw [arith, if_neg (by simp only [BitVec.lt_def, BitVec.toNat_ofNat, Nat.mod_eq_of_lt h, h1]; omega)]
    apply BitVec.eq_of_toNat_eq
    simp only [BitVec.toNat_sub, BitVec.toNat_ofNat, h1]
    omega

/-- The whole function. -/
theorem body_wp (hC : C.Ok L br) (hF : F.Ok L C) {p q N l : Nat} (hl : StrLen s q l) (hA : ∀ i, l ≠ 0 → N ≠ 0 → i + 2 ≤ N + l → (∀ j < i, byteAt s (posB p j) ≠ 0) → RdS L C F.own (posB p i))
    (hB : ∀ i ≤ l, RdS L C F.own (posB q i)) (hp : (s (F.str + 348)).toNat = p) (hq : (s (F.sub + 348)).toNat = q) (hN : (s (F.cnt + 348)).toNat = N) (m1 : s (F.oo + 352) = pmod .set) (m2 : s (F.os + 352) = pmod .set)
    {σ : SSt} (h : SRep C cp σ s) : Wp L (F.body L C) s fun o s' => o = .ret ∧ ∃ w, StrStr s p q N l w ∧ F.Res C cp s s' w := by
  have vc := hF.vars F.cnt (by simp)
  have vd := hF.vars F.dst (by simp)
  have va := hF.vars F.a (by simp)
  have vb := hF.vars F.b (by simp)
  have vu := hF.vars F.u (by simp)
  have vs := hF.vars F.str (by simp)
  have vv := hF.vars F.sub (by simp)
  have hp' : p < 2 ^ 32 := hp ▸ BitVec.isLt _
  have hq' : q < 2 ^ 32 := hq ▸ BitVec.isLt _
  have hN' : N < 2 ^ 32 := hN ▸ BitVec.isLt _
  have nS : ∀ x ∈ [F.str + 348, F.sub + 348], x ∉ F.scr := by
    intro x hx
    simp only [List.mem_cons, List.not_mem_nil, or_false] at hx
    have n1 : (x :: F.scr).Nodup := by rcases hx with rfl | rfl <;> exact hF.nd.sublist (by unfold own scr; sublist_tac)
    exact (List.nodup_cons.1 n1).1
  have nd1 : [F.cnt + 348, F.dst + 348, F.b + 348, F.a + 348, F.d + 348, F.e + 348, F.u + 348, F.ta + 348, F.te + 348, F.ca, F.ca + 8, F.ce, F.ce + 8].Nodup := hF.nd.sublist (by unfold own; sublist_tac)
  have nd2 : [F.cnt + 348, F.dst + 348, F.b + 348, F.oo + 4, F.oo + 344, F.oo + 348, F.os + 4, F.os + 344, F.os + 348].Nodup := hF.nd.sublist (by unfold own; sublist_tac)
  have nd3 : [F.cnt + 348, F.dst + 348, F.b + 348, F.d + 348, F.e + 348, F.te + 348, F.ce, F.ce + 8, F.oo + 348, F.os + 348].Nodup := hF.nd.sublist (by unfold own; sublist_tac)
  simp only [List.nodup_cons, List.mem_cons, not_or, List.not_mem_nil, not_false_eq_true, List.nodup_nil, and_true, or_false] at nd1 nd2 nd3
  have h0 : F.Here C cp s s (σ.sp F.si) (σ.rp F.ri) := ⟨⟨_, h, rfl, rfl⟩, fun _ _ _ => rfl⟩
  refine Wp.seqN ((seekS hC hF h0 (hF.lab _ (by simp))).mono ?_)
  rintro s1 ⟨a1, a2⟩
  refine Wp.seqN ((seekR hC hF a1 (hF.lab _ (by simp)) (v := F.sub) (by simp)).mono ?_)
  rintro s2 ⟨b1, b2⟩
  rw [hp, a2 _ vv.2.1, hq] at b1
  refine Wp.seqN (Does.asg ?_ ?_ ?_)
  · simp only [List.mem_singleton, forall_eq]; exact cell_val hC.G.wf vd.1
  · simp only [List.mem_singleton, forall_eq]; rintro v ⟨⟩
  simp only [runAsg, arith, Src.valM]
  generalize hs3 : s2.set (F.dst + 348) (-1) = s3
  have c1 : F.Here C cp s s3 p q := b1.loc hF (l := [F.dst + 348]) (by rw [← hs3]; exact Only.set (Only.refl _ _) (by simp) _) (by simp [scr])
  have c2 : s3 (F.dst + 348) = -1 := by rw [← hs3, set_eq]
  have c3 : s3 (F.cnt + 348) = BitVec.ofNat 32 N := by
    rw [← hs3, set_ne (by grind), b2 _ vc.2.1, a2 _ vc.2.1, ← hN, BitVec.ofNat_toNat, BitVec.setWidth_eq]
  have hq0 := hB 0 (by omega)
  rw [posB_zero hq'] at hq0
  refine Wp.seqN ((readR hC hF c1 hq0 (hF.lab _ (by simp)) (v := F.b) (by simp)).mono ?_)
  rintro s4 ⟨d1, d2, d3⟩
  refine Wp.seq (Wp.ite0 ?_ (fun hh => ?_) fun hh => Wp.skip ?_)
  · simp only [List.mem_singleton, forall_eq]
    exact cMem_ok (cell_val hC.G.wf vb.1) _ _ _
  · simp only [holdsAll_cons, holdsAll_nil, Bool.and_true, cMem_holds, d2, compare, decide_eq_true_eq] at hh
    rw [show (0 : W) = (0 : BitVec 8).setWidth 32 from rfl, setW_inj] at hh
    have hl0 : l = 0 := by
      cases l with
      | zero => rfl
      | succ l =>
        have := hl.1 0 (by omega)
        rw [posB_zero hq'] at this
        exact absurd hh this
    refine (retS_wp hF d1 (x := .var F.str) (by rintro v ⟨⟩; exact vs.1)).mono ?_
    rintro o s5 ⟨rfl, w⟩
    rw [if_neg (by simp)]
    refine ⟨rfl, _, .inl ⟨0, .inr hl0, by simp, fun j hj => by omega, by simp, rfl⟩, ?_⟩
    rw [posB_zero hp', ← hp, BitVec.ofNat_toNat, BitVec.setWidth_eq]
    rw [valM_var, d1.2 _ vs.2.1 (nS _ (by simp))] at w
    exact w
  simp only [holdsAll_cons, holdsAll_nil, Bool.and_true, cMem_holds, d2, compare, decide_eq_false_iff_not] at hh
  rw [show (0 : W) = (0 : BitVec 8).setWidth 32 from rfl, setW_inj] at hh
  have hl0 : l ≠ 0 := by
    rintro rfl
    have := hl.2
    rw [posB_zero hq'] at this
    exact hh this
  have hh0 := hh
  clear hh
  rw [if_pos rfl]
  refine Wp.seq (Wp.mono (Wp.loop (Q := fun o s' => (o = .nrm ∧ (∀ i < N, (∀ j < i, byteAt s (posB p j) ≠ 0) → ¬ SubAt s p q l i) ∧ ∃ P R, F.Here C cp s s' P R) ∨ (o = .ret ∧ ∃ w, StrStr s p q N l w ∧ F.Res C cp s s' w))
    (fun k s' => k ≤ N ∧ F.Here C cp s s' (posB p (N - k)) (posB q 1) ∧ s' (F.b + 348) = (byteAt s q).setWidth 32 ∧ s' (F.dst + 348) + 1 = BitVec.ofNat 32 (N - k) ∧ s' (F.cnt + 348) = BitVec.ofNat 32 k ∧
      (∀ j < N - k, byteAt s (posB p j) ≠ 0) ∧ ∀ j < N - k, ¬ SubAt s p q l j) ?_ (n := N) ?_) ?_)
  · rintro k s5 ⟨hk, e1, e2, e3, e4, e5, e6⟩
    refine Does.skip ⟨?_, fun hh => ?_, fun hh => ?_⟩
    · simp only [List.mem_singleton, forall_eq]
      exact cMem_ok (cell_val hC.G.wf vc.1) _ _ _
    · simp only [holdsAll_cons, holdsAll_nil, Bool.and_true, cMem_holds, e4, compare, decide_eq_false_iff_not] at hh
      rw [(ofNat_pos (by omega)).1, Decidable.not_not] at hh
      subst hh
      exact .inl ⟨rfl, fun i hi _ => e6 i (by omega), _, _, e1⟩
    · simp only [holdsAll_cons, holdsAll_nil, Bool.and_true, cMem_holds, e4, compare, Bool.not_false, decide_eq_true_eq] at hh
      have hk0 := (ofNat_pos (by omega)).1.1 hh
      refine Wp.seqN ((readS hC hF e1 (hA _ hl0 (by omega) (by omega) e5) (hF.lab _ (by simp)) (v := F.a) (by simp)).mono ?_)
      rintro s6 ⟨f1, f2, f3⟩
      rw [posB_next] at f1
      have f4 : s6 (F.b + 348) = (byteAt s q).setWidth 32 := by rw [f3 _ vb.2.1 (by grind), e2]
      have f5 : s6 (F.dst + 348) + 1 = BitVec.ofNat 32 (N - k) := by rw [f3 _ vd.2.1 (by grind), e3]
      have f6 : s6 (F.cnt + 348) = BitVec.ofNat 32 k := by rw [f3 _ vc.2.1 (by grind), e4]
      refine Wp.seqN (Does.acts ?_ ?_)
      · exact actsOk_mem (cell_val hC.G.wf vd.1) (actsOk_mem (cell_val hC.G.wf vc.1) trivial)
      rw [runPA_cons, runPA_cons, runPA_nil, aMem_run, aMem_run]
      rw [set_ne (show F.cnt + 348 ≠ F.dst + 348 by grind), f6, (ofNat_pos (by omega)).2 hk0, show arith .add (s6 (F.dst + 348)) 1 = BitVec.ofNat 32 (N - k) from f5]
      generalize hs7 : (s6.set (F.dst + 348) (BitVec.ofNat 32 (N - k))).set (F.cnt + 348) (BitVec.ofNat 32 (k - 1)) = s7
      have g1 : F.Here C cp s s7 (posB p (N - k + 1)) (posB q 1) := f1.loc hF (l := [F.dst + 348, F.cnt + 348]) (by rw [← hs7]; exact Only.set (Only.set (Only.refl _ _) (by simp) _) (by simp) _) (by simp [scr])
      have g2 : s7 (F.a + 348) = (byteAt s (posB p (N - k))).setWidth 32 := by rw [← hs7, set_ne (by grind), set_ne (by grind), f2]
      have g3 : s7 (F.b + 348) = (byteAt s q).setWidth 32 := by rw [← hs7, set_ne (by grind), set_ne (by grind), f4]
      have g4 : s7 (F.dst + 348) = BitVec.ofNat 32 (N - k) := by rw [← hs7, set_ne (by grind), set_eq]
      have g5 : s7 (F.cnt + 348) = BitVec.ofNat 32 (k - 1) := by rw [← hs7, set_eq]
      have hN1 : N - k + 1 = N - (k - 1) := by omega
      have h1 : BitVec.ofNat 32 (N - k) + 1 = BitVec.ofNat 32 (N - (k - 1)) := by
        rw [← hN1]
        apply BitVec.eq_of_toNat_eq
        simp only [BitVec.toNat_add, BitVec.toNat_ofNat, show (1 : W).toNat = 1 from rfl]; omega
      refine Wp.seq (Wp.ite0 ?_ (fun hz => Wp.brk ?_) fun hz => Wp.skip ?_)
      · simp only [List.mem_singleton, forall_eq]
        exact cMem_ok (cell_val hC.G.wf va.1) _ _ _
      · simp only [holdsAll_cons, holdsAll_nil, Bool.and_true, cMem_holds, g2, compare, decide_eq_true_eq] at hz
        rw [show (0 : W) = (0 : BitVec 8).setWidth 32 from rfl, setW_inj] at hz
        rw [if_neg (by simp)]
        refine .inl ⟨rfl, fun i hi hn => ?_, _, _, g1⟩
        by_cases c : i < N - k
        · exact e6 i c
        · by_cases c2 : i = N - k
          · subst c2
            intro hs
            have := hs 0 (by omega)
            rw [Nat.add_zero, hz, posB_zero hq'] at this
            exact hh0 this.symm
          · exact absurd hz (hn _ (by omega))
      simp only [holdsAll_cons, holdsAll_nil, Bool.and_true, cMem_holds, g2, compare, decide_eq_false_iff_not] at hz
      rw [show (0 : W) = (0 : BitVec 8).setWidth 32 from rfl, setW_inj] at hz
      rw [if_pos rfl]
      have hz2 : ∀ j < N - (k - 1), byteAt s (posB p j) ≠ 0 := by
        intro j hj
        by_cases c : j < N - k
        · exact e5 j c
        · rw [show j = N - k by omega]; exact hz
      refine Wp.seq (Wp.ite ((eq_does hC.G.wf hF g1 va vb (hF.vars F.ta (by simp)) (hF.cel _ (by simp)) ?_ ?_).mono ?_))
      · simp only [List.nodup_cons, List.mem_cons, not_or, List.not_mem_nil, not_false_eq_true, List.nodup_nil, and_true, or_false]; grind
      · intro z hz
        simp only [scr, List.mem_cons, List.not_mem_nil, or_false] at hz ⊢; grind
      rintro s8 ⟨x1, x2, x3, x4⟩
      rw [g2, g3] at x2
      have y3 : s8 (F.b + 348) = (byteAt s q).setWidth 32 := by rw [x4 _ (by simp only [List.mem_cons, List.not_mem_nil, or_false, not_or]; grind), g3]
      have y4 : s8 (F.dst + 348) = BitVec.ofNat 32 (N - k) := by rw [x4 _ (by simp only [List.mem_cons, List.not_mem_nil, or_false, not_or]; grind), g4]
      have y5 : s8 (F.cnt + 348) = BitVec.ofNat 32 (k - 1) := by rw [x4 _ (by simp only [List.mem_cons, List.not_mem_nil, or_false, not_or]; grind), g5]
      refine ⟨x1, fun hh => Wp.skip ?_, fun hh => Wp.cont ?_⟩
      · rw [x2, decide_eq_true_eq, setW_inj] at hh
        rw [if_pos rfl]
        refine Wp.seqN ((save_does hC hF x3).mono ?_)
        rintro s9 ⟨z1, z2, z3⟩
        have q3 : s9 (F.b + 348) = (byteAt s q).setWidth 32 := by rw [z3 _ vb.2.1 (by simp only [List.mem_cons, List.not_mem_nil, or_false, not_or]; grind), y3]
        have q4 : s9 (F.dst + 348) = BitVec.ofNat 32 (N - k) := by rw [z3 _ vd.2.1 (by simp only [List.mem_cons, List.not_mem_nil, or_false, not_or]; grind), y4]
        have q5 : s9 (F.cnt + 348) = BitVec.ofNat 32 (k - 1) := by rw [z3 _ vc.2.1 (by simp only [List.mem_cons, List.not_mem_nil, or_false, not_or]; grind), y5]
        refine Wp.seq ((inner_wp hC hF hl hl0 (i := N - k) (N := N) (by omega) (fun i => hA i hl0 (by omega)) hB e5 (by rw [posB_zero hq']; exact hh) (by rw [← hp, BitVec.ofNat_toNat, BitVec.setWidth_eq]) q4 z1).mono ?_)
        rintro o s10 (⟨rfl, r1, r2⟩ | ⟨rfl, r1, ⟨P', R', r2⟩, r3⟩)
        · rw [if_neg (by simp)]
          exact .inr ⟨rfl, _, .inl ⟨N - k, .inl (by omega), e5, r1, e6, rfl⟩, r2⟩
        rw [if_pos rfl]
        have t3 : s10 (F.b + 348) = (byteAt s q).setWidth 32 := by rw [r3 _ vb.2.1 (by simp only [inScr, List.mem_cons, List.not_mem_nil, or_false, not_or]; grind), q3]
        have t4 : s10 (F.dst + 348) = BitVec.ofNat 32 (N - k) := by rw [r3 _ vd.2.1 (by simp only [inScr, List.mem_cons, List.not_mem_nil, or_false, not_or]; grind), q4]
        have t5 : s10 (F.cnt + 348) = BitVec.ofNat 32 (k - 1) := by rw [r3 _ vc.2.1 (by simp only [inScr, List.mem_cons, List.not_mem_nil, or_false, not_or]; grind), q5]
        have t6 : F.Saved s10 (posB p (N - k + 1)) := by
          refine ⟨?_, ?_⟩
          · rw [r3 _ (hF.int _ (by simp [own])) (by simp only [inScr, List.mem_cons, List.not_mem_nil, or_false, not_or]; grind), z2.1]
          · rw [r3 _ (hF.int _ (by simp [own])) (by simp only [inScr, List.mem_cons, List.not_mem_nil, or_false, not_or]; grind), z2.2]
        refine Wp.seqN ((restore_does hC hF r2 t6 (posB_lt _ _) m1 m2).mono ?_)
        rintro s11 ⟨w1, w2⟩
        have w3 : s11 (F.b + 348) = (byteAt s q).setWidth 32 := by rw [w2 _ vb.2.1 (by simp only [List.mem_cons, List.not_mem_nil, or_false, not_or]; grind), t3]
        have w4 : s11 (F.dst + 348) = BitVec.ofNat 32 (N - k) := by rw [w2 _ vd.2.1 (by simp only [List.mem_cons, List.not_mem_nil, or_false, not_or]; grind), t4]
        have w5 : s11 (F.cnt + 348) = BitVec.ofNat 32 (k - 1) := by rw [w2 _ vc.2.1 (by simp only [List.mem_cons, List.not_mem_nil, or_false, not_or]; grind), t5]
        have hsu : F.u ≠ F.sub := by
          have : [F.sub + 348, F.u + 348].Nodup := hF.nd.sublist (by unfold own; sublist_tac)
          simp only [List.nodup_cons, List.mem_cons, not_or, List.not_mem_nil, not_false_eq_true, List.nodup_nil, and_true, or_false] at this
          omega
        refine Wp.seqN ((C53_add hC.G.wf vu.1 vv.1 (y := .const 1) (by simp) hsu s11).mono ?_)
        rintro s12 ⟨i1, i2⟩
        rw [w1.2 _ vv.2.1 (nS _ (by simp)), show Src.valM s11 (.const 1) = 1 from rfl] at i1
        refine Wp.mono (Does.wp (seekR hC hF (w1.loc hF i2 (by simp [scr])) (hF.lab _ (by simp)) (v := F.u) (by simp))) ?_
        rintro o s13 ⟨rfl, j1, j2⟩
        refine Does.skip ⟨k - 1, by omega, by omega, ?_, ?_, ?_, ?_, hz2, fun j hj => ?_⟩
        · rw [i1, hN1, show (s (F.sub + 348) + 1).toNat = posB q 1 by rw [posB, ← hq, BitVec.toNat_add]; rfl] at j1
          exact j1
        · rw [j2 _ vb.2.1, i2 _ (by simp only [List.mem_cons, List.not_mem_nil, or_false, not_or]; grind), w3]
        · rw [j2 _ vd.2.1, i2 _ (by simp only [List.mem_cons, List.not_mem_nil, or_false, not_or]; grind), w4, h1]
        · rw [j2 _ vc.2.1, i2 _ (by simp only [List.mem_cons, List.not_mem_nil, or_false, not_or]; grind), w5]
        · by_cases c : j < N - k
          · exact e6 j c
          · rw [show j = N - k by omega]; exact r1
      · rw [x2, decide_eq_false_iff_not, setW_inj] at hh
        rw [if_neg (by simp)]
        refine Does.skip ⟨k - 1, by omega, by omega, by rw [← hN1]; exact x3, y3, by rw [y4, h1], y5, hz2, fun j hj => ?_⟩
        by_cases c : j < N - k
        · exact e6 j c
        · rw [show j = N - k by omega]
          intro hs
          have := hs 0 (by omega)
          rw [Nat.add_zero, posB_zero hq'] at this
          exact hh this
  · refine ⟨Nat.le_refl _, ?_, d2, ?_, ?_, by simp, by simp⟩
    · rw [Nat.sub_self, posB_zero hp']
      rw [← posB_next, posB_zero hq']; exact d1
    · rw [d3 _ vd.2.1 (by grind), c2, Nat.sub_self]; rfl
    · rw [d3 _ vc.2.1 (by grind), c3]
  · rintro o s5 (⟨rfl, r1, P', R', r2⟩ | ⟨rfl, r1⟩)
    · rw [if_pos rfl]
      refine (retS_wp hF r2 (x := .const (-1)) (by rintro v ⟨⟩)).mono ?_
      rintro o s6 ⟨rfl, w⟩
      exact ⟨rfl, _, .inr ⟨hl0, r1, rfl⟩, w⟩
    · rw [if_neg (by simp)]
      exact ⟨rfl, r1⟩

/-- What is found depends only on the bytes that are read. -/
theorem StrStr_congr {m m' : Mem} {A : Nat → Prop} (hA : ∀ x, A x → byteAt m' x = byteAt m x) {p q N l : Nat} (hl : StrLen m q l) (hq : ∀ i ≤ l, A (posB q i)) (hp : ∀ i, l ≠ 0 → N ≠ 0 → i + 2 ≤ N + l → (∀ j < i, byteAt m (posB p j) ≠ 0) → A (posB p i)) :
    StrLen m' q l ∧ (∀ i, l ≠ 0 → N ≠ 0 → i + 2 ≤ N + l → (∀ j < i, byteAt m' (posB p j) ≠ 0) → A (posB p i)) ∧ ∀ w, StrStr m' p q N l w → StrStr m p q N l w := by
  have c : ∀ i ≤ l, byteAt m' (posB q i) = byteAt m (posB q i) := fun i hi => hA _ (hq i hi)
  have e1 : l ≠ 0 → N ≠ 0 → ∀ i, i + 1 ≤ N + l → ((∀ j < i, byteAt m' (posB p j) ≠ 0) ∨ (∀ j < i, byteAt m (posB p j) ≠ 0)) → ∀ j < i, byteAt m' (posB p j) = byteAt m (posB p j) := by
    intro l0 N0 i
    induction i with
    | zero => intro _ _ j hj; omega
    | succ i ih =>
      intro h1 h2
      have ih := ih (by omega) (h2.imp (fun h j hj => h j (by omega)) fun h j hj => h j (by omega))
      intro j hj
      by_cases hj' : j < i
      · exact ih j hj'
      · rw [show j = i by omega]
        refine hA _ (hp i l0 N0 (by omega) fun j hj => ?_)
        rcases h2 with h | h
        · rw [← ih j hj]; exact h j (by omega)
        · exact h j (by omega)
  have e2 : l ≠ 0 → ∀ i < N, (∀ j < i, byteAt m (posB p j) ≠ 0) → (SubAt m' p q l i ↔ SubAt m p q l i) := by
    intro l0 i hi hz
    have key : ∀ t ≤ l, ((∀ j < t, byteAt m' (posB p (i + j)) = byteAt m' (posB q j)) ∨ (∀ j < t, byteAt m (posB p (i + j)) = byteAt m (posB q j))) → ∀ j < t, byteAt m' (posB p (i + j)) = byteAt m (posB p (i + j)) := by
      intro t
      induction t with
      | zero => intro _ _ j hj; omega
      | succ t ih =>
        intro h1 h2
        have ih := ih (by omega) (h2.imp (fun h j hj => h j (by omega)) fun h j hj => h j (by omega))
        intro j hj
        by_cases hj' : j < t
        · exact ih j hj'
        · rw [show j = t by omega]
          refine hA _ (hp (i + t) l0 (by omega) (by omega) fun j hj => ?_)
          by_cases hji : j < i
          · exact hz j hji
          · rw [show j = i + (j - i) by omega]
            have : byteAt m (posB p (i + (j - i))) = byteAt m (posB q (j - i)) := by
              rcases h2 with h | h
              · rw [← ih _ (by omega), h _ (by omega), c _ (by omega)]
              · exact h _ (by omega)
            rw [this]
            exact hl.1 _ (by omega)
    constructor
    · intro h j hj
      rw [← key l (Nat.le_refl _) (.inl h) j hj, h j hj, c j (by omega)]
    · intro h j hj
      rw [key l (Nat.le_refl _) (.inr h) j hj, h j hj, c j (by omega)]
  refine ⟨⟨fun k hk => by rw [c k (by omega)]; exact hl.1 k hk, by rw [c l (by omega)]; exact hl.2⟩, fun i l0 N0 hi hz => hp i l0 N0 hi fun j hj => ?_, ?_⟩
  · rw [← e1 l0 N0 i (by omega) (.inl hz) j hj]; exact hz j hj
  · rintro w (⟨i, h1, h2, h3, h4, rfl⟩ | ⟨h1, h2, rfl⟩)
    · by_cases l0 : l = 0
      · subst l0
        refine .inl ⟨i, .inr rfl, fun j hj => ?_, fun j hj => by omega, fun j hj => ?_, rfl⟩
        · exact absurd (fun k hk => by omega) (h4 j hj)
        · exact absurd (fun k hk => by omega) (h4 j hj)
      · have hi := h1.resolve_right l0
        have hz : ∀ j < i, byteAt m (posB p j) ≠ 0 := fun j hj => by rw [← e1 l0 (by omega) i (by omega) (.inl h2) j hj]; exact h2 j hj
        exact .inl ⟨i, h1, hz, (e2 l0 i hi hz).1 h3, fun j hj hs => h4 j hj ((e2 l0 j (by omega) fun k hk => hz k (by omega)).2 hs), rfl⟩
    · refine .inr ⟨h1, fun i hi hz hs => h2 i hi (fun j hj => ?_) ((e2 h1 i hi hz).2 hs), rfl⟩
      rw [e1 h1 (by omega) i (by omega) (.inr hz) j hj]; exact hz j hj

end StrStrFn

/-- The dwords of the objects. -/
def SCfg.ints (C : SCfg) : List Nat := C.G.ints ++ (C.ev + 348) :: (List.range C.ns).flatMap fun i => (C.S i).own

theorem SCfg.ints_mem {x : Nat} : x ∈ C.ints ↔ C.Int x := by
  simp only [SCfg.ints, List.mem_append, List.mem_cons, List.mem_flatMap, List.mem_range, SCfg.Int, SCfg.SInt, BCfg.ints_mem]

/-- What the caller may use for a parameter. -/
def ArgS (L : Layout) (C : SCfg) (own : List Nat) (x : Src) : Prop := ∀ v, x = .var v → v ∈ L.P.vars ∧ ¬ C.Int (v + 348) ∧ v + 348 ∉ own

def StrStrFn.call (F : StrStrFn) (L : Layout) (C : SCfg) (back o : Nat) (x y n : Src) : Stmt :=
  .prim (CallRel L F.fe F.np back (F.body L C) [(F.r, o)] [(F.str + 348, x), (F.sub + 348, y), (F.cnt + 348, n)])

open StrStrFn in
/-- **C36 (`f_strnstr`).** For every string, substring and count: the address of the first place before `n` bytes and before the end of the string where the substring is found, the string itself if the substring is empty, and -1 otherwise.
No dword of the user changes but the result. -/
theorem C36_strnstr (hC : C.Ok L br) (hF : F.Ok L C) (hc : FuncCode L F.fs F.fe F.np [F.r] (F.body L C)) {back o : Nat} (hb : back < 2 ^ 32) (ho : L.cell o ∧ EpdOK o ∧ ¬ C.Int o ∧ o ∉ F.own) {x y n : Src}
    (hx : ArgS L C F.own x) (hy : ArgS L C F.own y) (hn : ArgS L C F.own n) {σ : SSt} (h : SRep C cp σ s) (m1 : s (F.oo + 352) = pmod .set) (m2 : s (F.os + 352) = pmod .set) {l : Nat} (hl : StrLen s (y.valM s).toNat l)
    (hA : ∀ i, l ≠ 0 → (n.valM s).toNat ≠ 0 → i + 2 ≤ (n.valM s).toNat + l → (∀ j < i, byteAt s (posB (x.valM s).toNat j) ≠ 0) → RdS L C F.own (posB (x.valM s).toNat i)) (hB : ∀ i ≤ l, RdS L C F.own (posB (y.valM s).toNat i)) :
    Does L (F.call L C back o x y n) s fun s' => (∃ σ', SRep C cp σ' s') ∧ StrStr s (x.valM s).toNat (y.valM s).toNat (n.valM s).toNat l (s' o) ∧ ∀ z, ¬ C.Int z → z ≠ o → z ∉ F.own → s' z = s z := by
  obtain ⟨co, eo, io, no⟩ := ho
  have hint := hF.int
  have nd1 : [F.np, F.r + 4, F.r + 344, F.str + 348, F.sub + 348, F.r + 348, F.cnt + 348].Nodup := hF.nd.sublist (by unfold own; sublist_tac)
  simp only [List.nodup_cons, List.mem_cons, not_or, List.not_mem_nil, not_false_eq_true, List.nodup_nil, and_true, or_false] at nd1
  have ns : ∀ z ∈ [F.np, F.r + 4, F.r + 344, F.str + 348, F.sub + 348, F.oo + 352, F.os + 352], z ∉ F.scr := by
    have nn : ([F.np, F.r + 4, F.r + 344, F.str + 348, F.sub + 348, F.oo + 352, F.os + 352] ++ F.scr).Nodup := hF.nd
    exact fun z hz hm => (List.nodup_append.1 nn).2.2 z hz z hm rfl
  have mo : ∀ z ∈ F.np :: (F.r + 344) :: [F.str + 348, F.sub + 348, F.cnt + 348], z ∈ F.own := by
    intro z hz
    simp only [own, List.mem_cons, List.not_mem_nil, or_false] at hz ⊢; grind
  have no1 : ∀ z ∈ F.own, o ≠ z := fun z hz e => no (e ▸ hz)
  have si : ∀ z ∈ F.own, z ∉ F.scr → z ∉ F.scr ++ C.ints := fun z hz h1 hm => (List.mem_append.1 hm).elim h1 fun h2 => hint z hz (SCfg.ints_mem.1 h2)
  have hO : CallOk L F.np [(F.r, o)] [(F.str + 348, x), (F.sub + 348, y), (F.cnt + 348, n)] (F.scr ++ C.ints) := by
    refine callOk1R (hF.cel _ (by simp)) (hF.cel _ (by simp)) co eo ?_ ?_ (by grind) (fun a h1 v hv => ?_) ?_ ?_ ?_
    · simp only [List.mem_cons, List.not_mem_nil, or_false, forall_eq_or_imp, forall_eq]
      exact ⟨cell_val hC.G.wf (hF.vars _ (by simp)).1, cell_val hC.G.wf (hF.vars _ (by simp)).1, cell_val hC.G.wf (hF.vars _ (by simp)).1⟩
    · simp only [List.map_cons, List.map_nil, List.nodup_cons, List.mem_cons, not_or, List.not_mem_nil, not_false_eq_true, List.nodup_nil, and_true, or_false]; grind
    · have : v ∈ L.P.vars ∧ ¬ C.Int (v + 348) ∧ v + 348 ∉ F.own := by
        simp only [List.mem_cons, List.not_mem_nil, or_false] at h1
        rcases h1 with rfl | rfl | rfl
        · exact hx v hv
        · exact hy v hv
        · exact hn v hv
      exact ⟨this.1, fun hm => this.2.2 (mo _ hm)⟩
    · simp only [List.mem_cons, List.not_mem_nil, or_false, not_or]
      exact ⟨no1 _ (by simp [own]), no1 _ (by simp [own]), no1 _ (by simp [own])⟩
    · exact si _ (by simp [own]) (ns _ (by simp))
    · exact si _ (by simp [own]) (ns _ (by simp))
  refine (C31_does hC.G.wf hO hc hb (s := s) (Q := fun s2 => StrStr s (x.valM s).toNat (y.valM s).toNat (n.valM s).toNat l (s2 (F.r + 348)) ∧ (∃ σ2, SRep C cp σ2 s2) ∧ ∀ z, ¬ C.Int z → z ∉ F.own → s2 z = s z) ?_).mono ?_
  · intro s1 e1 e2
    simp only [List.mem_cons, List.not_mem_nil, or_false, forall_eq_or_imp, forall_eq, List.map_cons, List.map_nil, List.cons_append, List.nil_append] at e1 e2
    have e3 : ∀ z, z ∉ F.own → s1 z = s z := fun z hz => e2 z fun hm => hz (mo z hm)
    have h1 : SRep C cp _ s1 := h.move fun z hz => e3 z fun hm => hint z hm hz
    obtain ⟨g1, g2, g3⟩ := StrStr_congr (A := RdS L C F.own) (m := s) (m' := s1) (fun z hz => byteAt_congr (e3 _ hz.2.2)) hl hB hA
    have nm : ∀ z ∈ [F.oo + 352, F.os + 352], z ∉ F.np :: (F.r + 344) :: [F.str + 348, F.sub + 348, F.cnt + 348] := by
      intro z hz
      simp only [List.mem_cons, List.not_mem_nil, or_false] at hz
      have n1 : [F.np, F.r + 344, F.str + 348, F.sub + 348, F.oo + 352, F.cnt + 348].Nodup := hF.nd.sublist (by unfold own; sublist_tac)
      have n2 : [F.np, F.r + 344, F.str + 348, F.sub + 348, F.os + 352, F.cnt + 348].Nodup := hF.nd.sublist (by unfold own; sublist_tac)
      simp only [List.nodup_cons, List.mem_cons, not_or, List.not_mem_nil, not_false_eq_true, List.nodup_nil, and_true, or_false] at n1 n2 ⊢
      rcases hz with rfl | rfl <;> grind
    refine (body_wp hC hF g1 g2 hB (by rw [e1.1]) (by rw [e1.2.1]) (by rw [e1.2.2]) (by rw [e2 _ (nm _ (by simp)), m1]) (by rw [e2 _ (nm _ (by simp)), m2]) h1).mono ?_
    rintro o' s2 ⟨rfl, w, q1, ⟨P, R, q2⟩, q3⟩
    refine ⟨.inr rfl, ⟨by rw [q3]; exact g3 w q1, ?_, fun z hz hn => ?_⟩, fun z hz => ?_⟩
    · obtain ⟨⟨σ2, q4, -⟩, -⟩ := q2
      exact ⟨σ2, q4⟩
    · rw [q2.2 z hz fun hm => hn (scr_own z hm), e3 z hn]
    · rw [List.mem_append, not_or] at hz
      exact q2.2 z (fun hi => hz.2 (SCfg.ints_mem.2 hi)) hz.1
  · rintro s' ⟨⟨s2, ⟨q1, ⟨σ2, q2⟩, q3⟩, q4, q5⟩, -⟩
    simp only [List.mem_singleton, forall_eq, List.map_cons, List.map_nil, List.cons_append, List.nil_append] at q4 q5
    refine ⟨⟨_, q2.move fun z hz => q5 z ?_⟩, by rw [q4]; exact q1, fun z hz h1 h2 => ?_⟩
    · simp only [List.mem_cons, List.not_mem_nil, or_false, not_or]
      exact ⟨fun e => io (e ▸ hz), fun e => hint (F.r + 4) (by simp [own]) (e ▸ hz)⟩
    · rw [q5 z ?_, q3 z hz h2]
      simp only [List.mem_cons, List.not_mem_nil, or_false, not_or]
      exact ⟨h1, fun e => h2 (by rw [e]; simp [own])⟩

end
end Eud.SC
