import Verif.Machine.Wp
/-
Operators that need more than `SeqCompute`: exclusive or through the masks of variables, subtraction through a helper variable.
-/

namespace Eud.SC

/-- As `Layout.Ok`, but the mask of the variable `y` may be anything. -/
structure Layout.OkX (L : Layout) (y : Nat) (m : Mem) : Prop where
  prog : L.P.In m
  mask : ∀ v ∈ L.P.vars, v ≠ y → m (v + 328) = 0xFFFFFFFF
  rest : ∀ r ∈ L.rest, m (r.1 + 4) = BitVec.ofNat 32 r.2

theorem Layout.Ok.okX {L : Layout} {m : Mem} (h : L.Ok m) (y : Nat) : L.OkX y m := ⟨h.prog, fun v hv _ => h.mask v hv, h.rest⟩

theorem Layout.OkX.ok {L : Layout} {y : Nat} {m : Mem} (h : L.OkX y m) (hm : m (y + 328) = 0xFFFFFFFF) : L.Ok m :=
  ⟨h.prog, fun v hv => by
    by_cases e : v = y
    · subst e; exact hm
    · exact h.mask v hv e, h.rest⟩

theorem Layout.OkX.setMask {L : Layout} (hw : L.Wf) {y : Nat} {m : Mem} (h : L.OkX y m) (hy : y ∈ L.P.vars) (w : W) : L.OkX y (m.set (y + 328) w) := by
  obtain ⟨o4, o20, o328, o344, o348, o352, o356, o384, o2376⟩ := offs_mem
  refine ⟨h.prog.congr (Prog.Same.set ((hw.P.data hy (by simp)).okw _ _)), ?_, ?_⟩
  · intro u hu hne
    rw [set_ne (by omega)]
    exact h.mask u hu hne
  · intro r hr
    rw [set_ne (hw.rsep r hr y hy).1]
    exact h.rest r hr

theorem Layout.OkX.set4 {L : Layout} (hw : L.Wf) {y : Nat} {m : Mem} (h : L.OkX y m) {v : Nat} (hv : v ∈ L.P.vars) (w : W) :
    L.OkX y (m.set (v + 4) w) := by
  obtain ⟨o4, o20, o328, o344, o348, o352, o356, o384, o2376⟩ := offs_mem
  refine ⟨h.prog.congr (Prog.Same.set ((hw.P.data hv (by simp)).okw _ _)), ?_, ?_⟩
  · intro u hu hne
    rw [set_ne (hw.P.sep u hu v hv 328 o328 4 o4 (by omega))]
    exact h.mask u hu hne
  · intro r hr
    rw [set_ne (hw.rsep r hr v hv).2.1]
    exact h.rest r hr

theorem Layout.OkX.set344 {L : Layout} (hw : L.Wf) {y : Nat} {m : Mem} (h : L.OkX y m) {v : Nat} (hv : v ∈ L.P.vars) (w : W) :
    L.OkX y (m.set (v + 344) w) := by
  obtain ⟨o4, o20, o328, o344, o348, o352, o356, o384, o2376⟩ := offs_mem
  refine ⟨h.prog.congr (Prog.Same.set ((hw.P.data hv (by simp)).okw _ _)), ?_, ?_⟩
  · intro u hu hne
    rw [set_ne (hw.P.sep u hu v hv 328 o328 344 o344 (by omega))]
    exact h.mask u hu hne
  · intro r hr
    rw [set_ne (hw.rsep r hr v hv).2.2]
    exact h.rest r hr

theorem Layout.OkX.setMod {L : Layout} (hw : L.Wf) {y : Nat} {m : Mem} (h : L.OkX y m) {v : Nat} (hv : v ∈ L.P.vars) (md : Mod) :
    L.OkX y (m.set (v + 352) (modWord (m (v + 352)) md)) := by
  obtain ⟨o4, o20, o328, o344, o348, o352, o356, o384, o2376⟩ := offs_mem
  refine ⟨h.prog.congr (Prog.Same.set (hw.P.okw_mod hv _ _)), ?_, ?_⟩
  · intro u hu hne
    rw [set_ne (hw.P.sep u hu v hv 328 o328 352 o352 (by omega))]
    exact h.mask u hu hne
  · intro r hr
    rw [set_ne ((hw.rdat r hr).2 v hv)]
    exact h.rest r hr

theorem Layout.OkX.set {L : Layout} {y : Nat} {m : Mem} (h : L.OkX y m) {x : Nat} (hx : L.cell x) (w : W) : L.OkX y (m.set x w) := by
  refine ⟨h.prog.congr (Prog.Same.set (hx.okw _ _)), ?_, ?_⟩
  · intro v hv hne
    rw [set_ne (fun e => hx.2 (Or.inr (Or.inl ⟨v, hv, e.symm⟩)))]
    exact h.mask v hv hne
  · intro r hr
    rw [set_ne (fun e => hx.2 (Or.inr (Or.inr (Or.inl ⟨r, hr, e.symm⟩))))]
    exact h.rest r hr

theorem Layout.Wf.priv328 {L : Layout} {v : Nat} (hv : v ∈ L.P.vars) : L.priv (v + 328) := Or.inr (Or.inl ⟨v, hv, rfl⟩)

/-- A variable does its action under its mask. -/
theorem Layout.OkX.vstep {L : Layout} {y : Nat} {m : Mem} (h : L.OkX y m) {v : Nat} (hv : v ∈ L.P.vars) {md : Mod}
    (hmd : varMod m v = some md) {d n : Nat} (hdst : m (v + 344) = epd d) (hd : L.cell d) (hed : EpdOK d) (hnx : m (v + 4) = BitVec.ofNat 32 n) (hn : n < 2 ^ 32) :
    step ⟨m, v⟩ = some ⟨m.set d (modify md (m d) (m (v + 348)) (m (v + 328))), n⟩ ∧
      L.OkX y (m.set d (modify md (m d) (m (v + 348)) (m (v + 328)))) :=
  ⟨(h.prog.step_var hv hmd hdst hed hnx hn (hd.okw _ _) (fun e => hd.2 (e ▸ Layout.Wf.priv4 hv))).1, h.set hd _⟩

/-! ## Exclusive or -/

/-- eudv.py:489-505 `x ^= y` -/
structure IxorCode (L : Layout) (x y t0 t1 t2 fin : Nat) : Prop where
  b0 : (⟨t0, ⟨[], [sMask y 0x55555555, sDest y (x + 348), sModi y .add, sNext y t1]⟩, some y, false⟩ : SBlk) ∈ L.P.blks
  b1 : (⟨t1, ⟨[], [sMask y 0xAAAAAAAA, sNext y t2]⟩, some y, false⟩ : SBlk) ∈ L.P.blks
  b2 : (⟨t2, ⟨[], [sMask y 0xFFFFFFFF]⟩, some fin, false⟩ : SBlk) ∈ L.P.blks
  vx : x ∈ L.P.vars
  vy : y ∈ L.P.vars
  l1 : t1 < 2 ^ 32
  l2 : t2 < 2 ^ 32

/-- Xoring the even and then the odd bits. -/
theorem xor_steps (x y : W) : (x ^^^ (y &&& 0x55555555)) ^^^ (y &&& 0xAAAAAAAA) = x ^^^ y := by
  rw [BitVec.xor_assoc, mask5A]

/-- The last two triggers, shared by all forms of exclusive or: the odd bits. -/
theorem xor_tail {L : Layout} (hw : L.Wf) {y d t1 t2 fin : Nat}
    (b1 : (⟨t1, ⟨[], [sMask y 0xAAAAAAAA, sNext y t2]⟩, some y, false⟩ : SBlk) ∈ L.P.blks)
    (b2 : (⟨t2, ⟨[], [sMask y 0xFFFFFFFF]⟩, some fin, false⟩ : SBlk) ∈ L.P.blks) (vy : y ∈ L.P.vars) (l2 : t2 < 2 ^ 32) {m : Mem}
    (h : L.OkX y m) (hmd : varMod m y = some .add) (hdst : m (y + 344) = epd d) (hd : L.cell d) (hed : EpdOK d) :
    ∃ m', Reaches ⟨m, t1⟩ ⟨m', fin⟩ ∧ L.Ok m' ∧ L.view m' = (L.view m).set d (L.view m d ^^^ (L.view m (y + 348) &&& 0xAAAAAAAA)) := by
  have p328 := Layout.Wf.priv328 vy
  have p4 := Layout.Wf.priv4 vy
  have hs1 := h.prog.step_next b1 rfl rfl trivial (fun _ => Prog.acts_mask hw.P vy (Prog.acts_nextv hw.P vy trivial))
  simp only [SBlk.exec, condsS, if_true, runS, sMask_apply, sNext_apply] at hs1
  have o1 := (h.setMask hw vy 0xAAAAAAAA).set4 hw vy (BitVec.ofNat 32 t2)
  have hv2 := o1.vstep vy (md := .add) (d := d) (n := t2) (by unfold varMod at hmd ⊢; rw [set_ne (by omega), set_ne (by omega)]; exact hmd)
    (by rw [set_ne (by omega), set_ne (by omega), hdst]) hd hed (set_eq _ _ _) l2
  have o2 := hv2.2
  have hs3 := o2.prog.step_next b2 rfl rfl trivial (fun _ => Prog.acts_mask hw.P vy trivial)
  simp only [SBlk.exec, condsS, if_true, runS, sMask_apply] at hs3
  refine ⟨_, (Reaches.step hs1.1).trans ((Reaches.step hv2.1).trans (Reaches.step hs3.1)), (o2.setMask hw vy _).ok (set_eq _ _ _), ?_⟩
  have n4 : d ≠ y + 4 := fun e => hd.2 (e ▸ p4)
  have n328 : d ≠ y + 328 := fun e => hd.2 (e ▸ p328)
  rw [Layout.view_priv p328, Layout.view_set hd.2, Layout.view_priv p4, Layout.view_priv p328,
    set_ne n4, set_ne n328, set_ne (show y + 348 ≠ y + 4 by omega), set_ne (show y + 348 ≠ y + 328 by omega), set_ne (show y + 328 ≠ y + 4 by omega), set_eq, add_alt altA,
    Layout.view_at hd.2, Layout.view_at (hw.val y vy)]

/-- `x ^= y`, also for the same variable on both sides. -/
theorem C53_ixor {L : Layout} (hw : L.Wf) {x y t0 t1 t2 fin : Nat} (hc : IxorCode L x y t0 t1 t2 fin) (s : Mem) :
    L.Runs s t0 (s.set (x + 348) (s (x + 348) ^^^ s (y + 348))) fin := by
  rintro m hm rfl
  have hcx := cell_val hw hc.vx
  have vy := hc.vy
  have p328 := Layout.Wf.priv328 vy
  have p4 := Layout.Wf.priv4 vy
  have p344 := Layout.Wf.priv344 vy
  have p352 := Layout.Wf.priv352 vy
  have nx : ∀ z, L.priv z → z ≠ x + 348 := fun z hz e => hcx.2 (e ▸ hz)
  have hs1 := hm.prog.step_next hc.b0 rfl rfl trivial (fun _ => Prog.acts_mask hw.P vy (Prog.acts_dest hw.P vy (Prog.acts_modi hw.P vy (Prog.acts_nextv hw.P vy trivial))))
  simp only [SBlk.exec, condsS, if_true, runS, sMask_apply, sNext_apply, sDest_apply, sModi_apply] at hs1
  have o1 := ((((hm.okX y).setMask hw vy 0x55555555).set344 hw vy (epd (x + 348))).setMod hw vy .add).set4 hw vy (BitVec.ofNat 32 t1)
  generalize hM : ((((m.set (y + 328) 0x55555555).set (y + 344) (epd (x + 348))).set (y + 352)
    (modWord (((m.set (y + 328) 0x55555555).set (y + 344) (epd (x + 348))) (y + 352)) .add)).set (y + 4) (BitVec.ofNat 32 t1)) = m1 at hs1 o1
  have e328 : m1 (y + 328) = 0x55555555 := by
    rw [← hM, set_ne (by omega), set_ne (by omega), set_ne (by omega), set_eq]
  have e344 : m1 (y + 344) = epd (x + 348) := by rw [← hM, set_ne (by omega), set_ne (by omega), set_eq]
  have e4 : m1 (y + 4) = BitVec.ofNat 32 t1 := by rw [← hM, set_eq]
  have emd : varMod m1 y = some .add := by
    rw [← hM]; exact varMod_modWord (by rw [set_ne (by omega), set_eq])
  have ev : L.view m1 = L.view m := by
    rw [← hM, Layout.view_priv p4, Layout.view_priv p352, Layout.view_priv p344, Layout.view_priv p328]
  have hv2 := o1.vstep vy emd e344 hcx (hw.P.epd x hc.vx) e4 hc.l1
  obtain ⟨m', r, o, v⟩ := xor_tail hw hc.b1 hc.b2 vy hc.l2 hv2.2 (by unfold varMod at emd ⊢; rw [set_ne (nx _ p352)]; exact emd)
    (by rw [set_ne (nx _ p344), e344]) hcx (hw.P.epd x hc.vx)
  refine ⟨m', (Reaches.step hs1.1).trans ((Reaches.step hv2.1).trans r), o, ?_⟩
  rw [v, Layout.view_set hcx.2, set_eq, set_set, add_alt (by rw [e328]; exact alt5), e328, ← Layout.view_at (m := m1) hcx.2, ← Layout.view_at (m := m1) (hw.val y vy), ev]
  congr 1
  by_cases e : y = x
  · subst e
    rw [set_eq]
    generalize L.view m (y + 348) = w
    have : (w ^^^ w &&& 0x55555555) &&& 0xAAAAAAAA = w &&& 0xAAAAAAAA := by
      apply BitVec.eq_of_getLsbD_eq
      intro i hi
      have h : ∀ i, i < 32 → (0xAAAAAAAA : W).getLsbD i = !(0x55555555 : W).getLsbD i := by decide
      simp only [BitVec.getLsbD_and, BitVec.getLsbD_xor, h i hi]
      cases (0x55555555 : W).getLsbD i <;> simp
    rw [this, xor_steps]
  · rw [set_ne (by omega), xor_steps]

/-- eudv.py:507-531 `t = x ^ y` for different variables, neither of them a temporary value; the trigger of `VProc([x, y], ..)`. -/
structure XorCode (L : Layout) (t x y t0 t1 t2 fin : Nat) : Prop where
  b0 : (⟨t0, ⟨[], [sMask y 0x55555555, sDest x (t + 348), sModi x .set, sDest y (t + 348), sModi y .add, sNext x y, sNext y t1]⟩, some x, false⟩ : SBlk) ∈ L.P.blks
  b1 : (⟨t1, ⟨[], [sMask y 0xAAAAAAAA, sNext y t2]⟩, some y, false⟩ : SBlk) ∈ L.P.blks
  b2 : (⟨t2, ⟨[], [sMask y 0xFFFFFFFF]⟩, some fin, false⟩ : SBlk) ∈ L.P.blks
  vt : t ∈ L.P.vars
  vx : x ∈ L.P.vars
  vy : y ∈ L.P.vars
  l1 : t1 < 2 ^ 32
  l2 : t2 < 2 ^ 32
  ly : y < 2 ^ 32

theorem C53_xor {L : Layout} (hw : L.Wf) {t x y t0 t1 t2 fin : Nat} (hc : XorCode L t x y t0 t1 t2 fin) (hxy : x ≠ y) (hty : t ≠ y) (s : Mem) :
    L.Runs s t0 (s.set (t + 348) (s (x + 348) ^^^ s (y + 348))) fin := by
  rintro m hm rfl
  have hct := cell_val hw hc.vt
  have vy := hc.vy
  have vx := hc.vx
  have p328 := Layout.Wf.priv328 vy
  have q328 := Layout.Wf.priv328 vx
  have p4 := Layout.Wf.priv4 vy
  have p344 := Layout.Wf.priv344 vy
  have p352 := Layout.Wf.priv352 vy
  have q4 := Layout.Wf.priv4 vx
  have q344 := Layout.Wf.priv344 vx
  have q352 := Layout.Wf.priv352 vx
  have nt : ∀ z, L.priv z → z ≠ t + 348 := fun z hz e => hct.2 (e ▸ hz)
  obtain ⟨o4, o20, o328, o344, o348, o352, o356, o384, o2376⟩ := offs_mem
  have sp : ∀ i ∈ varOffs, ∀ j ∈ varOffs, i ≠ j → x + i ≠ y + j ∧ y + j ≠ x + i := fun i hi j hj h =>
    ⟨hw.P.sep x vx y vy i hi j hj h, Ne.symm (hw.P.sep x vx y vy i hi j hj h)⟩
  have hs1 := hm.prog.step_next hc.b0 rfl rfl trivial (fun _ => Prog.acts_mask hw.P vy (Prog.acts_dest hw.P vx (Prog.acts_modi hw.P vx
    (Prog.acts_dest hw.P vy (Prog.acts_modi hw.P vy (Prog.acts_nextv hw.P vx (Prog.acts_nextv hw.P vy trivial)))))))
  simp only [SBlk.exec, condsS, if_true, runS, sMask_apply, sNext_apply, sDest_apply, sModi_apply] at hs1
  generalize hA : (m.set (y + 328) 0x55555555).set (x + 344) (epd (t + 348)) = mA at hs1
  have oA : L.OkX y mA := hA ▸ ((hm.okX y).setMask hw vy 0x55555555).set344 hw vx _
  have vA : L.view mA = L.view m := by rw [← hA, Layout.view_priv q344, Layout.view_priv p328]
  have a328 : mA (y + 328) = 0x55555555 := by rw [← hA, set_ne (sp _ o344 _ o328 (by omega)).2, set_eq]
  have a344 : mA (x + 344) = epd (t + 348) := by rw [← hA, set_eq]
  generalize hB : mA.set (x + 352) (modWord (mA (x + 352)) .set) = mB at hs1
  have oB : L.OkX y mB := hB ▸ oA.setMod hw vx .set
  have vB : L.view mB = L.view m := by rw [← hB, Layout.view_priv q352, vA]
  have b328 : mB (y + 328) = 0x55555555 := by rw [← hB, set_ne (sp _ o352 _ o328 (by omega)).2, a328]
  have b344 : mB (x + 344) = epd (t + 348) := by rw [← hB, set_ne (by omega), a344]
  have bmd : varMod mB x = some .set := by rw [← hB]; exact varMod_modWord (set_eq _ _ _)
  generalize hC : mB.set (y + 344) (epd (t + 348)) = mC at hs1
  have oC : L.OkX y mC := hC ▸ oB.set344 hw vy _
  have vC : L.view mC = L.view m := by rw [← hC, Layout.view_priv p344, vB]
  have c328 : mC (y + 328) = 0x55555555 := by rw [← hC, set_ne (by omega), b328]
  have c344 : mC (x + 344) = epd (t + 348) := by rw [← hC, set_ne (by omega), b344]
  have cy344 : mC (y + 344) = epd (t + 348) := by rw [← hC, set_eq]
  have cmd : varMod mC x = some .set := by
    unfold varMod at bmd ⊢; rw [← hC, set_ne (sp _ o352 _ o344 (by omega)).1]; exact bmd
  generalize hD : mC.set (y + 352) (modWord (mC (y + 352)) .add) = mD at hs1
  have oD : L.OkX y mD := hD ▸ oC.setMod hw vy .add
  have vD : L.view mD = L.view m := by rw [← hD, Layout.view_priv p352, vC]
  have d328 : mD (y + 328) = 0x55555555 := by rw [← hD, set_ne (by omega), c328]
  have d344 : mD (x + 344) = epd (t + 348) := by rw [← hD, set_ne (sp _ o344 _ o352 (by omega)).1, c344]
  have dy344 : mD (y + 344) = epd (t + 348) := by rw [← hD, set_ne (by omega), cy344]
  have dmd : varMod mD x = some .set := by
    unfold varMod at cmd ⊢; rw [← hD, set_ne (by omega)]; exact cmd
  have dymd : varMod mD y = some .add := by rw [← hD]; exact varMod_modWord (set_eq _ _ _)
  generalize hE : (mD.set (x + 4) (BitVec.ofNat 32 y)).set (y + 4) (BitVec.ofNat 32 t1) = mE at hs1
  have oE : L.OkX y mE := hE ▸ (oD.set4 hw vx _).set4 hw vy _
  have vE : L.view mE = L.view m := by rw [← hE, Layout.view_priv p4, Layout.view_priv q4, vD]
  have e328 : mE (y + 328) = 0x55555555 := by rw [← hE, set_ne (by omega), set_ne (sp _ o4 _ o328 (by omega)).2, d328]
  have ex328 : mE (x + 328) = 0xFFFFFFFF := oE.mask x vx hxy
  have e344 : mE (x + 344) = epd (t + 348) := by rw [← hE, set_ne (sp _ o344 _ o4 (by omega)).1, set_ne (by omega), d344]
  have ey344 : mE (y + 344) = epd (t + 348) := by rw [← hE, set_ne (by omega), set_ne (sp _ o4 _ o344 (by omega)).2, dy344]
  have emd : varMod mE x = some .set := by
    unfold varMod at dmd ⊢; rw [← hE, set_ne (sp _ o352 _ o4 (by omega)).1, set_ne (by omega)]; exact dmd
  have eymd : varMod mE y = some .add := by
    unfold varMod at dymd ⊢; rw [← hE, set_ne (by omega), set_ne (sp _ o4 _ o352 (by omega)).2]; exact dymd
  have ex4 : mE (x + 4) = BitVec.ofNat 32 y := by rw [← hE, set_ne (by omega), set_eq]
  have ey4 : mE (y + 4) = BitVec.ofNat 32 t1 := by rw [← hE, set_eq]
  have hv1 := oE.vstep vx emd e344 hct (hw.P.epd t hc.vt) ex4 hc.ly
  rw [ex328, modify_full, arith] at hv1
  generalize hF : mE.set (t + 348) (mE (x + 348)) = mF at hv1
  have vF : L.view mF = (L.view m).set (t + 348) (L.view m (x + 348)) := by
    rw [← hF, Layout.view_set hct.2, vE, ← Layout.view_at (m := mE) (hw.val x vx), vE]
  have hv2 := hv1.2.vstep vy (md := .add) (d := t + 348) (n := t1) (by unfold varMod at eymd ⊢; rw [← hF, set_ne (nt _ p352)]; exact eymd)
    (by rw [← hF, set_ne (nt _ p344), ey344]) hct (hw.P.epd t hc.vt) (by rw [← hF, set_ne (nt _ p4), ey4]) hc.l1
  have f328 : mF (y + 328) = 0x55555555 := by rw [← hF, set_ne (nt _ p328), e328]
  obtain ⟨m', r, o, v⟩ := xor_tail hw hc.b1 hc.b2 vy hc.l2 hv2.2
    (by unfold varMod at eymd ⊢; rw [set_ne (nt _ p352), ← hF, set_ne (nt _ p352)]; exact eymd)
    (by rw [set_ne (nt _ p344), ← hF, set_ne (nt _ p344), ey344]) hct (hw.P.epd t hc.vt)
  refine ⟨m', (Reaches.step hs1.1).trans ((Reaches.step hv1.1).trans ((Reaches.step hv2.1).trans r)), o, ?_⟩
  rw [v, Layout.view_set hct.2, set_eq, set_set, add_alt (by rw [f328]; exact alt5), f328, ← Layout.view_at (m := mF) hct.2,
    ← Layout.view_at (m := mF) (hw.val y vy), vF, set_eq, set_set, set_ne (show y + 348 ≠ t + 348 by omega),
    set_ne (show y + 348 ≠ t + 348 by omega), set_ne (show y + 348 ≠ t + 348 by omega), xor_steps]

/-- With the same variable on both sides the result is not 0: the assignment to the new variable is lost, and the code leaves the old value
of the new variable (0 at the start of the game) xored with `x`. -/
theorem C53_counterexample_xor_self {L : Layout} (hw : L.Wf) {t x t0 t1 t2 fin : Nat} (hc : XorCode L t x x t0 t1 t2 fin) (htx : t ≠ x) (s : Mem) :
    L.Runs s t0 (s.set (t + 348) (s (t + 348) ^^^ s (x + 348))) fin := by
  rintro m hm rfl
  have hct := cell_val hw hc.vt
  have vx := hc.vx
  have q328 := Layout.Wf.priv328 vx
  have q4 := Layout.Wf.priv4 vx
  have q344 := Layout.Wf.priv344 vx
  have q352 := Layout.Wf.priv352 vx
  have nt : ∀ z, L.priv z → z ≠ t + 348 := fun z hz e => hct.2 (e ▸ hz)
  have hs1 := hm.prog.step_next hc.b0 rfl rfl trivial (fun _ => Prog.acts_mask hw.P vx (Prog.acts_dest hw.P vx (Prog.acts_modi hw.P vx
    (Prog.acts_dest hw.P vx (Prog.acts_modi hw.P vx (Prog.acts_nextv hw.P vx (Prog.acts_nextv hw.P vx trivial)))))))
  simp only [SBlk.exec, condsS, if_true, runS, sMask_apply, sNext_apply, sDest_apply, sModi_apply] at hs1
  generalize hA : (m.set (x + 328) 0x55555555).set (x + 344) (epd (t + 348)) = mA at hs1
  have oA : L.OkX x mA := hA ▸ ((hm.okX x).setMask hw vx 0x55555555).set344 hw vx _
  have vA : L.view mA = L.view m := by rw [← hA, Layout.view_priv q344, Layout.view_priv q328]
  have a328 : mA (x + 328) = 0x55555555 := by rw [← hA, set_ne (by omega), set_eq]
  generalize hB : (mA.set (x + 352) (modWord (mA (x + 352)) .set)).set (x + 344) (epd (t + 348)) = mB at hs1
  have oB : L.OkX x mB := hB ▸ (oA.setMod hw vx .set).set344 hw vx _
  have vB : L.view mB = L.view m := by rw [← hB, Layout.view_priv q344, Layout.view_priv q352, vA]
  have b328 : mB (x + 328) = 0x55555555 := by rw [← hB, set_ne (by omega), set_ne (by omega), a328]
  have b344 : mB (x + 344) = epd (t + 348) := by rw [← hB, set_eq]
  generalize hE : ((mB.set (x + 352) (modWord (mB (x + 352)) .add)).set (x + 4) (BitVec.ofNat 32 x)).set (x + 4) (BitVec.ofNat 32 t1) = mE at hs1
  have oE : L.OkX x mE := hE ▸ ((oB.setMod hw vx .add).set4 hw vx _).set4 hw vx _
  have vE : L.view mE = L.view m := by rw [← hE, Layout.view_priv q4, Layout.view_priv q4, Layout.view_priv q352, vB]
  have e328 : mE (x + 328) = 0x55555555 := by rw [← hE, set_ne (by omega), set_ne (by omega), set_ne (by omega), b328]
  have e344 : mE (x + 344) = epd (t + 348) := by rw [← hE, set_ne (by omega), set_ne (by omega), set_ne (by omega), b344]
  have emd : varMod mE x = some .add := by
    rw [← hE]; exact varMod_modWord (by rw [set_ne (by omega), set_ne (by omega), set_eq])
  have e4 : mE (x + 4) = BitVec.ofNat 32 t1 := by rw [← hE, set_eq]
  have hv2 := oE.vstep vx emd e344 hct (hw.P.epd t hc.vt) e4 hc.l1
  obtain ⟨m', r, o, v⟩ := xor_tail hw hc.b1 hc.b2 vx hc.l2 hv2.2
    (by unfold varMod at emd ⊢; rw [set_ne (nt _ q352)]; exact emd) (by rw [set_ne (nt _ q344), e344]) hct (hw.P.epd t hc.vt)
  refine ⟨m', (Reaches.step hs1.1).trans ((Reaches.step hv2.1).trans r), o, ?_⟩
  rw [v, Layout.view_set hct.2, set_eq, set_set, add_alt (by rw [e328]; exact alt5), e328, ← Layout.view_at (m := mE) hct.2,
    ← Layout.view_at (m := mE) (hw.val x vx), vE, set_ne (show x + 348 ≠ t + 348 by omega), xor_steps]

/-! ## Subtraction of a variable in place -/

/-- evcommon.py:15: the helper variable `_addor`, whose modifier is `Add` and never changed. -/
def addorBlk (v : Nat) : SBlk := ⟨v, ⟨[], [⟨none, .add, none, none⟩]⟩, none, false⟩

/-- eudv.py:263-277 `x -= y`: the trigger of `SeqCompute([(x, Add, 1), (addor, SetTo, 0xFFFFFFFF), (addor, Subtract, y), (x, None, addor)])`. -/
structure IsubCode (L : Layout) (x y ad t0 fin : Nat) : Prop where
  b0 : (⟨t0, ⟨[], [sMem (x + 348) .add 1, sMem (ad + 348) .set 0xFFFFFFFF, sDest y (ad + 348), sModi y .sub, sNext y ad, sDest ad (x + 348), sNext ad fin]⟩,
    some y, false⟩ : SBlk) ∈ L.P.blks
  ba : addorBlk ad ∈ L.P.blks
  vx : x ∈ L.P.vars
  vy : y ∈ L.P.vars
  c4 : L.cell (ad + 4)
  c344 : L.cell (ad + 344)
  c348 : L.cell (ad + 348)
  e348 : EpdOK (ad + 348)
  la : ad < 2 ^ 32
  lf : fin < 2 ^ 32
  xa : ∀ o ∈ [4, 328, 344, 348], x + 348 ≠ ad + o
  ya : ∀ o ∈ [4, 328, 344, 348], y + 348 ≠ ad + o

theorem addor_runs {L : Layout} (hw : L.Wf) {v d : Nat} (hb : addorBlk v ∈ L.P.blks) (hc : L.cell (v + 4)) {s : Mem}
    (h1 : s (v + 344) = epd d) (h2 : EpdOK d) (h3 : s (v + 328) = 0xFFFFFFFF) (hd : L.cell d) (hdv : d ≠ v + 4)
    {n : Nat} (hn : n < 2 ^ 32) (h4 : s (v + 4) = BitVec.ofNat 32 n) :
    L.Runs s v (s.set d (s d + s (v + 348))) n := by
  have hdo : dstOf (s (v + 328 + 16)) 0 = some (.mem d) := by
    rw [Nat.add_assoc, show 328 + 16 = 344 from rfl, h1]; exact dstOf_epd h2
  have := Layout.Runs.trigDyn hw hb rfl hc.2 (s := s) trivial (fun _ => by
    refine ⟨fun _ => ?_, ?_, trivial⟩
    · exact congrArg Option.isSome hdo
    · simp only [addorBlk, SAct.res, Option.getD_none, hdo, Option.getD_some, Dst.addr]
      exact hd)
  have he : (addorBlk v).exec s = s.set d (s d + s (v + 348)) := by
    simp only [addorBlk, SBlk.exec, condsS, if_true, runS, SAct.res, Option.getD_none, Option.getD_some, hdo, Act.apply,
      Dst.addr, h3, modify_full, arith, Nat.add_assoc, Nat.reduceAdd]
  rw [he] at this
  rw [show (addorBlk v).t = v from rfl, set_ne (Ne.symm hdv), h4, BitVec.toNat_ofNat, Nat.mod_eq_of_lt hn] at this
  exact this

/-- What the code of `x -= y` does: like `x += 1; a = ~y; x += a` with the values at each moment. -/
theorem isub_runs {L : Layout} (hw : L.Wf) {x y ad t0 fin : Nat} (hc : IsubCode L x y ad t0 fin) {s : Mem} (hm : s (ad + 328) = 0xFFFFFFFF) :
    ∃ s', L.Runs s t0 s' fin ∧ Only [x + 348, ad + 4, ad + 344, ad + 348] s s' ∧
      s' (x + 348) = s (x + 348) + 1 + ~~~ (if y = x then s (x + 348) + 1 else s (y + 348)) := by
  have hcx := cell_val hw hc.vx
  have vy := hc.vy
  have p328 := Layout.Wf.priv328 vy
  have p4 := Layout.Wf.priv4 vy
  have p344 := Layout.Wf.priv344 vy
  have p352 := Layout.Wf.priv352 vy
  have x4 := hc.xa 4 (by simp)
  have x328 := hc.xa 328 (by simp)
  have x344 := hc.xa 344 (by simp)
  have x348 := hc.xa 348 (by simp)
  have y4 := hc.ya 4 (by simp)
  have y344 := hc.ya 344 (by simp)
  have y348 := hc.ya 348 (by simp)
  -- the view after the trigger, and after `y` has run
  let s1 := (((s.set (x + 348) (s (x + 348) + 1)).set (ad + 348) 0xFFFFFFFF).set (ad + 344) (epd (x + 348))).set (ad + 4) (BitVec.ofNat 32 fin)
  let s2 := s1.set (ad + 348) (~~~ s1 (y + 348))
  have r1 : L.Runs s t0 s2 ad := by
    clear hm
    rintro m hm rfl
    have hs1 := hm.prog.step_next hc.b0 rfl rfl trivial (fun _ => Prog.acts_mem hcx.1 (Prog.acts_mem hc.c348.1 (Prog.acts_dest hw.P vy (Prog.acts_modi hw.P vy
      (Prog.acts_nextv hw.P vy (Prog.acts_mem hc.c344.1 (Prog.acts_mem hc.c4.1 trivial)))))))
    simp only [SBlk.exec, condsS, if_true, runS, sNext_apply, sDest_apply, sModi_apply, sMem_apply, arith] at hs1
    generalize hA : (m.set (x + 348) (m (x + 348) + 1)).set (ad + 348) 0xFFFFFFFF = mA at hs1
    have oA : L.Ok mA := hA ▸ (hm.set hcx _).set hc.c348 _
    have vA : L.view mA = ((L.view m).set (x + 348) (L.view m (x + 348) + 1)).set (ad + 348) 0xFFFFFFFF := by
      rw [← hA, Layout.view_set hc.c348.2, Layout.view_set hcx.2, Layout.view_at hcx.2]
    have np : ∀ z, L.cell z → z ≠ y + 4 ∧ z ≠ y + 328 ∧ z ≠ y + 344 ∧ z ≠ y + 352 := fun z hz =>
      ⟨fun e => hz.2 (e ▸ p4), fun e => hz.2 (e ▸ p328), fun e => hz.2 (e ▸ p344), fun e => hz.2 (e ▸ p352)⟩
    obtain ⟨f1, f2, f3, f4⟩ := np _ hc.c4
    obtain ⟨g1, g2, g3, g4⟩ := np _ hc.c344
    obtain ⟨k1, k2, k3, k4⟩ := np _ hc.c348
    generalize hB : ((((mA.set (y + 344) (epd (ad + 348))).set (y + 352) (modWord ((mA.set (y + 344) (epd (ad + 348))) (y + 352)) .sub)).set (y + 4) (BitVec.ofNat 32 ad)).set
      (ad + 344) (epd (x + 348))).set (ad + 4) (BitVec.ofNat 32 fin) = mB at hs1
    have oB : L.Ok mB := hB ▸ ((((oA.set344 hw vy _).setMod hw vy .sub).set4 hw vy _).set hc.c344 _).set hc.c4 _
    have vB : L.view mB = ((L.view mA).set (ad + 344) (epd (x + 348))).set (ad + 4) (BitVec.ofNat 32 fin) := by
      rw [← hB, Layout.view_set hc.c4.2, Layout.view_set hc.c344.2, Layout.view_priv p4, Layout.view_priv p352, Layout.view_priv p344]
    have vB' : L.view mB = s1 := by rw [vB, vA]
    have bmd : varMod mB y = some .sub := by
      rw [← hB]; exact varMod_modWord (by rw [set_ne f4.symm, set_ne g4.symm, set_ne (by omega), set_eq])
    have b344 : mB (y + 344) = epd (ad + 348) := by
      rw [← hB, set_ne f3.symm, set_ne g3.symm, set_ne (by omega), set_ne (by omega), set_eq]
    have b4 : mB (y + 4) = BitVec.ofNat 32 ad := by rw [← hB, set_ne f1.symm, set_ne g1.symm, set_eq]
    have hv2 := (oB.okX y).vstep vy bmd b344 hc.c348 hc.e348 b4 hc.la
    rw [oB.mask y vy, modify_full] at hv2
    have hall : mB (ad + 348) = 0xFFFFFFFF := by
      rw [← Layout.view_at (m := mB) hc.c348.2, vB, set_ne (by omega), set_ne (by omega), vA, set_eq]
    have hsub : arith .sub (0xFFFFFFFF : W) (mB (y + 348)) = ~~~ mB (y + 348) := by
      simp only [arith]
      rw [if_neg]
      · apply BitVec.eq_of_toNat_eq
        rw [BitVec.toNat_sub, BitVec.toNat_not]
        have := (mB (y + 348)).isLt
        simp only [BitVec.ofNat_eq_ofNat, BitVec.toNat_ofNat]
        omega
      · rw [BitVec.lt_def]
        have := (mB (y + 348)).isLt
        simp only [BitVec.ofNat_eq_ofNat, BitVec.toNat_ofNat]
        omega
    rw [hall, hsub] at hv2
    refine ⟨_, (Reaches.step hs1.1).trans (Reaches.step hv2.1), hv2.2.ok ?_, ?_⟩
    · rw [set_ne k2.symm]
      exact oB.mask y vy
    · rw [Layout.view_set hc.c348.2, vB', ← Layout.view_at (m := mB) (hw.val y vy), vB']
  have e348 : s2 (ad + 348) = ~~~ s1 (y + 348) := set_eq _ _ _
  have ex : s2 (x + 348) = s (x + 348) + 1 := by
    show (s1.set _ _) _ = _
    rw [set_ne x348]
    show (((_ : Mem).set _ _).set _ _) _ = _
    rw [set_ne x4, set_ne x344, set_ne x348, set_eq]
  have ey : s1 (y + 348) = if y = x then s (x + 348) + 1 else s (y + 348) := by
    show (((_ : Mem).set _ _).set _ _) _ = _
    rw [set_ne y4, set_ne y344, set_ne y348]
    by_cases e : y = x
    · subst e; rw [if_pos rfl, set_eq]
    · rw [if_neg e, set_ne (by omega)]
  have r2 := addor_runs hw hc.ba hc.c4 (s := s2) (d := x + 348) (n := fin) ?_ (hw.P.epd x hc.vx) ?_ hcx x4 hc.lf ?_
  · refine ⟨_, r1.trans r2, ?_, ?_⟩
    · refine Only.set (Only.set (Only.set (Only.set (Only.set (Only.set (Only.refl _ _) ?_ _) ?_ _) ?_ _) ?_ _) ?_ _) ?_ _ <;> simp
    · rw [set_eq, ex, e348, ey]
  · show (s1.set _ _) _ = _
    rw [set_ne (by omega)]
    show (((_ : Mem).set _ _).set _ _) _ = _
    rw [set_ne (by omega), set_eq]
  · show (s1.set _ _) _ = _
    rw [set_ne (by omega)]
    show ((((s.set _ _).set _ _).set _ _).set _ _) _ = _
    rw [set_ne (by omega), set_ne (by omega), set_ne (by omega), set_ne x328.symm, hm]
  · show (s1.set _ _) _ = _
    rw [set_ne (by omega)]
    exact set_eq _ _ _

theorem sub_not (a b : W) : a + 1 + ~~~b = a - b := by
  rw [BitVec.sub_eq_add_neg, ← neg_eq, BitVec.add_assoc, BitVec.add_comm 1]

/-- `x -= y` for different variables, apart from the helper variable nothing else changes. -/
theorem C53_isub {L : Layout} (hw : L.Wf) {x y ad t0 fin : Nat} (hc : IsubCode L x y ad t0 fin) (hxy : y ≠ x) {s : Mem} (hm : s (ad + 328) = 0xFFFFFFFF) :
    ∃ s', L.Runs s t0 s' fin ∧ Only [x + 348, ad + 4, ad + 344, ad + 348] s s' ∧ s' (x + 348) = s (x + 348) - s (y + 348) := by
  obtain ⟨s', h1, h2, h3⟩ := isub_runs hw hc hm
  rw [if_neg hxy, sub_not] at h3
  exact ⟨s', h1, h2, h3⟩

/-- `x -= x` leaves `2**32 - 1` in `x`. -/
theorem C53_counterexample_isub_self {L : Layout} (hw : L.Wf) {x ad t0 fin : Nat} (hc : IsubCode L x x ad t0 fin) {s : Mem} (hm : s (ad + 328) = 0xFFFFFFFF) :
    ∃ s', L.Runs s t0 s' fin ∧ s' (x + 348) = 0xFFFFFFFF := by
  obtain ⟨s', h1, h2, h3⟩ := isub_runs hw hc hm
  rw [if_pos rfl] at h3
  refine ⟨s', h1, h3.trans ?_⟩
  apply BitVec.eq_of_toNat_eq
  generalize s (x + 348) + 1 = w
  rw [BitVec.toNat_add, BitVec.toNat_not]
  have := w.isLt
  simp only [BitVec.ofNat_eq_ofNat, BitVec.toNat_ofNat]
  omega

end Eud.SC
