import Verif.Machine.Struct
/-
Book-keeping writes: next pointers, destinations and modifiers of variables, next pointers of
branch triggers.
-/

namespace Eud.SC

theorem Layout.Wf.priv4 {L : Layout} {v : Nat} (hv : v ∈ L.P.vars) : L.priv (v + 4) := Or.inl ⟨v, hv, Or.inl rfl⟩
theorem Layout.Wf.priv344 {L : Layout} {v : Nat} (hv : v ∈ L.P.vars) : L.priv (v + 344) :=
  Or.inl ⟨v, hv, Or.inr (Or.inl rfl)⟩
theorem Layout.Wf.priv352 {L : Layout} {v : Nat} (hv : v ∈ L.P.vars) : L.priv (v + 352) :=
  Or.inl ⟨v, hv, Or.inr (Or.inr rfl)⟩
theorem Layout.Wf.privR {L : Layout} {r : Nat × Nat} (hr : r ∈ L.rest) : L.priv (r.1 + 4) :=
  Or.inr (Or.inr (Or.inl ⟨r, hr, rfl⟩))

theorem Layout.Ok.set4 {L : Layout} (hw : L.Wf) {m : Mem} (h : L.Ok m) {v : Nat} (hv : v ∈ L.P.vars) (w : W) :
    L.Ok (m.set (v + 4) w) := by
  obtain ⟨o4, o20, o328, o344, o348, o352, o356, o384, o2376⟩ := offs_mem
  refine ⟨h.prog.congr (Prog.Same.set ((hw.P.data hv (by simp)).okw _ _)), ?_, ?_⟩
  · intro u hu
    rw [set_ne (hw.P.sep u hu v hv 328 o328 4 o4 (by omega))]
    exact h.mask u hu
  · intro r hr
    rw [set_ne (hw.rsep r hr v hv).2.1]
    exact h.rest r hr

theorem Layout.Ok.set344 {L : Layout} (hw : L.Wf) {m : Mem} (h : L.Ok m) {v : Nat} (hv : v ∈ L.P.vars) (w : W) :
    L.Ok (m.set (v + 344) w) := by
  obtain ⟨o4, o20, o328, o344, o348, o352, o356, o384, o2376⟩ := offs_mem
  refine ⟨h.prog.congr (Prog.Same.set ((hw.P.data hv (by simp)).okw _ _)), ?_, ?_⟩
  · intro u hu
    rw [set_ne (hw.P.sep u hu v hv 328 o328 344 o344 (by omega))]
    exact h.mask u hu
  · intro r hr
    rw [set_ne (hw.rsep r hr v hv).2.2]
    exact h.rest r hr

theorem Layout.Ok.setMod {L : Layout} (hw : L.Wf) {m : Mem} (h : L.Ok m) {v : Nat} (hv : v ∈ L.P.vars) (md : Mod) :
    L.Ok (m.set (v + 352) (modWord (m (v + 352)) md)) := by
  obtain ⟨o4, o20, o328, o344, o348, o352, o356, o384, o2376⟩ := offs_mem
  refine ⟨h.prog.congr (Prog.Same.set (hw.P.okw_mod hv _ _)), ?_, ?_⟩
  · intro u hu
    rw [set_ne (hw.P.sep u hu v hv 328 o328 352 o352 (by omega))]
    exact h.mask u hu
  · intro r hr
    rw [set_ne ((hw.rdat r hr).2 v hv)]
    exact h.rest r hr

/-- A branch trigger by itself: its next pointer is used as it is, or set to `tj` first. -/
theorem Layout.Ok.br {L : Layout} (hw : L.Wf) {m : Mem} (hm : L.Ok m) {t onfalse tj : Nat} {cs : List SCnd}
    {as : List SAct}
    (hb : (⟨t, ⟨cs, sNext t tj :: as⟩, none, false⟩ : SBlk) ∈ L.P.blks) (hr : (t, onfalse) ∈ L.rest) (htj : tj < 2 ^ 32)
    (hc : L.Cnds cs (t + 8) (L.view m))
    (ha : condsS (L.view m) cs (t + 8) = true → L.P.Acts as (t + 360) (m.set (t + 4) (BitVec.ofNat 32 tj)))
    (hk : condsS (L.view m) cs (t + 8) = true →
      runS as (t + 360) (m.set (t + 4) (BitVec.ofNat 32 tj)) (t + 4) = BitVec.ofNat 32 tj) :
    if condsS (L.view m) cs (t + 8) = true then
      step ⟨m, t⟩ = some ⟨runS as (t + 360) (m.set (t + 4) (BitVec.ofNat 32 tj)), tj⟩ ∧
        L.P.In (runS as (t + 360) (m.set (t + 4) (BitVec.ofNat 32 tj)))
    else step ⟨m, t⟩ = some ⟨m, onfalse⟩ := by
  have hbl := hm.prog.blks _ hb
  have hdat := hw.rdat _ hr
  obtain ⟨c1, c2⟩ := Layout.cnds_run hw.cp cs (t + 8) m (fun o ho' => by
    rw [Nat.add_assoc]; exact hw.blk _ hb _ (by omega) (by have := hbl.cl; simp only at this; omega)) hc
  have hs := hm.prog.step hb rfl c1 (fun h => Prog.acts_next hdat (ha (c2 ▸ h)))
  simp only [SBlk.exec, runS, sNext_apply] at hs
  rw [← c2] at ha hk ⊢
  cases hcc : condsS m cs (t + 8) with
  | false =>
    simp only [hcc, Bool.false_eq_true, if_false] at hs ⊢
    rw [hs.1, hm.rest _ hr, BitVec.toNat_ofNat, Nat.mod_eq_of_lt (hw.rlt _ hr)]
  | true =>
    rw [hcc] at hk
    simp only [hcc, if_true] at hs ⊢
    rw [show t + 328 + 32 = t + 360 from by omega, hk rfl, BitVec.toNat_ofNat, Nat.mod_eq_of_lt htj] at hs
    exact hs

/-- Writes to different places can be swapped. -/
theorem set_comm {m : Mem} {a b : Nat} {u w : W} (h : a ≠ b) : (m.set a u).set b w = (m.set b w).set a u := by
  funext y
  unfold Mem.set
  by_cases h1 : y = a <;> by_cases h2 : y = b <;> simp [h1, h2]
  · exact absurd (h1 ▸ h2) h
  · intro e; exact absurd (h1.symm.trans (h1 ▸ e)) (by omega)
  · intro e; exact absurd e.symm h

theorem set_set (m : Mem) (a : Nat) (u w : W) : (m.set a u).set a w = m.set a w := by
  funext y
  unfold Mem.set
  by_cases h1 : y = a <;> simp [h1]

/-- A dword at rest can be written with its rest value without effect. -/
theorem Layout.Ok.set_rest {L : Layout} {m : Mem} (h : L.Ok m) {t d : Nat} (hr : (t, d) ∈ L.rest) :
    m.set (t + 4) (BitVec.ofNat 32 d) = m := by
  rw [← h.rest _ hr]; exact set_self _ _

/-- A variable whose destination and next pointer have just been set does its action. -/
theorem Layout.Ok.vstep {L : Layout} (hw : L.Wf) {m : Mem} (h : L.Ok m) {v : Nat} (hv : v ∈ L.P.vars) {md : Mod}
    (hmd : varMod m v = some md) {d n : Nat} (hd : L.cell d) (hed : EpdOK d) (hn : n < 2 ^ 32) :
    ∃ m', step ⟨(m.set (v + 344) (epd d)).set (v + 4) (BitVec.ofNat 32 n), v⟩ = some ⟨m', n⟩ ∧ L.Ok m' ∧
      m' (v + 352) = m (v + 352) ∧ L.view m' = (L.view m).set d (arith md (L.view m d) (L.view m (v + 348))) := by
  obtain ⟨o4, o20, o328, o344, o348, o352, o356, o384, o2376⟩ := offs_mem
  have s4 := Layout.Wf.priv4 hv
  have s344 := Layout.Wf.priv344 hv
  have s352 := Layout.Wf.priv352 hv
  have h2 := (h.set344 hw hv (epd d)).set4 hw hv (BitVec.ofNat 32 n)
  have ne : ∀ y, L.priv y → y ≠ d := fun y hy e => hd.2 (e ▸ hy)
  have hmd2 : varMod ((m.set (v + 344) (epd d)).set (v + 4) (BitVec.ofNat 32 n)) v = some md := by
    unfold varMod at hmd ⊢
    rw [set_ne (by omega), set_ne (by omega)]
    exact hmd
  have hs := (h2.prog.step_var hv hmd2 (by rw [set_ne (by omega), set_eq]) hed (set_eq _ _ _) hn (hd.okw _ _)
    (Ne.symm (ne _ s4))).1
  refine ⟨_, hs, h2.set hd _, ?_, ?_⟩
  · rw [set_ne (ne _ s352), set_ne (by omega), set_ne (by omega)]
  · rw [Layout.view_set hd.2, Layout.view_priv s4, Layout.view_priv s344, h2.mask v hv, modify_full,
      set_ne (Ne.symm (ne _ s4)), set_ne (Ne.symm (ne _ s344)), set_ne (by omega), set_ne (by omega),
      Layout.view_at hd.2, Layout.view_at (hw.val v hv)]

end Eud.SC
