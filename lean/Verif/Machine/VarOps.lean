import Verif.Machine.InPlace
/-
C19 (`VProc`), C53: operators between variables (core/variable/eudv.py:243-520).
-/

namespace Eud.SC

/-- The dwords of two variables at different offsets are different. -/
theorem VSep.facts {v w : Nat} (h : VSep v w) :
    (v + 4 ≠ w + 328 ∧ v + 4 ≠ w + 344 ∧ v + 4 ≠ w + 348 ∧ v + 4 ≠ w + 352) ∧
    (v + 328 ≠ w + 4 ∧ v + 328 ≠ w + 344 ∧ v + 328 ≠ w + 348 ∧ v + 328 ≠ w + 352) ∧
    (v + 344 ≠ w + 4 ∧ v + 344 ≠ w + 328 ∧ v + 344 ≠ w + 348 ∧ v + 344 ≠ w + 352) ∧
    (v + 348 ≠ w + 4 ∧ v + 348 ≠ w + 328 ∧ v + 348 ≠ w + 344 ∧ v + 348 ≠ w + 352) ∧
    (v + 352 ≠ w + 4 ∧ v + 352 ≠ w + 328 ∧ v + 352 ≠ w + 344 ∧ v + 352 ≠ w + 348) := by
  obtain ⟨o4, o20, o328, o344, o348, o352, o356, o384, o2376⟩ := offs_mem
  refine ⟨⟨?_, ?_, ?_, ?_⟩, ⟨?_, ?_, ?_, ?_⟩, ⟨?_, ?_, ?_, ?_⟩, ⟨?_, ?_, ?_, ?_⟩, ⟨?_, ?_, ?_, ?_⟩⟩ <;>
    exact h _ (by assumption) _ (by assumption) (by omega)

/-! ## Actions on the fields of a variable -/

/-- eudv.py:158-159 `SetMask` -/
def sMask (v : Nat) (k : W) : SAct := sMem (v + 328) .set k
/-- eudv.py:202-204 `SetDest` with the value address of a variable or an EPD expression -/
def sDest (v a : Nat) : SAct := sMem (v + 344) .set (epd a)
/-- eudv.py:230-236 `SetModifier` -/
def sModi (v : Nat) (md : Mod) : SAct := sMemX (v + 352) .set (md.code.setWidth 32 <<< 24) 0xFF000000
/-- stockact.py:867-868 `SetNextPtr` -/
def sNext (t dest : Nat) : SAct := sMem (t + 4) .set (BitVec.ofNat 32 dest)

/-- The dword +352 of a variable with a modifier written into it. -/
def modWord (w : W) (md : Mod) : W := modify .set w (md.code.setWidth 32 <<< 24) 0xFF000000

theorem varMod_modWord {m : Mem} {v : Nat} {w : W} {md : Mod} (h : m (v + 352) = modWord w md) :
    varMod m v = some md := by
  unfold varMod
  rw [h, modWord, (setModifier_word w md).1, ofCode_code]

@[simp] theorem sMask_apply (v : Nat) (k : W) (m : Mem) (x : Nat) :
    ((sMask v k).res m x).apply m = m.set (v + 328) k := by simp [sMask, arith]
@[simp] theorem sDest_apply (v a : Nat) (m : Mem) (x : Nat) :
    ((sDest v a).res m x).apply m = m.set (v + 344) (epd a) := by simp [sDest, arith]
@[simp] theorem sModi_apply (v : Nat) (md : Mod) (m : Mem) (x : Nat) :
    ((sModi v md).res m x).apply m = m.set (v + 352) (modWord (m (v + 352)) md) := by simp [sModi, modWord]
@[simp] theorem sNext_apply (t d : Nat) (m : Mem) (x : Nat) :
    ((sNext t d).res m x).apply m = m.set (t + 4) (BitVec.ofNat 32 d) := by simp [sNext, arith]

theorem Prog.acts_nil (P : Prog) (x : Nat) (m : Mem) : P.Acts [] x m := trivial

theorem Prog.acts_mem {P : Prog} {a : Nat} {md : Mod} {v : W} {ss : List SAct} {x : Nat} {m : Mem}
    (h : P.data a) (hr : P.Acts ss (x + 32) (m.set a (arith md (m a) v))) :
    P.Acts (sMem a md v :: ss) x m :=
  ⟨sMem_ready _ _ _ _ _, h.okw _ _, by rw [sMem_apply]; exact hr⟩

theorem Prog.acts_memX {P : Prog} {a : Nat} {md : Mod} {v k : W} {ss : List SAct} {x : Nat} {m : Mem}
    (h : P.data a) (hr : P.Acts ss (x + 32) (m.set a (modify md (m a) v k))) :
    P.Acts (sMemX a md v k :: ss) x m :=
  ⟨sMemX_ready _ _ _ _ _ _, h.okw _ _, by rw [sMemX_apply]; exact hr⟩

theorem Prog.acts_mask {P : Prog} (hw : P.Wf) {v : Nat} (hv : v ∈ P.vars) {k : W} {ss : List SAct} {x : Nat} {m : Mem}
    (hr : P.Acts ss (x + 32) (m.set (v + 328) k)) : P.Acts (sMask v k :: ss) x m :=
  P.acts_mem (hw.data hv (by simp)) hr

theorem Prog.acts_dest {P : Prog} (hw : P.Wf) {v a : Nat} (hv : v ∈ P.vars) {ss : List SAct} {x : Nat} {m : Mem}
    (hr : P.Acts ss (x + 32) (m.set (v + 344) (epd a))) : P.Acts (sDest v a :: ss) x m :=
  P.acts_mem (hw.data hv (by simp)) hr

theorem Prog.acts_nextv {P : Prog} (hw : P.Wf) {v d : Nat} (hv : v ∈ P.vars) {ss : List SAct} {x : Nat} {m : Mem}
    (hr : P.Acts ss (x + 32) (m.set (v + 4) (BitVec.ofNat 32 d))) : P.Acts (sNext v d :: ss) x m :=
  P.acts_mem (hw.data hv (by simp)) hr

theorem Prog.acts_next {P : Prog} {t d : Nat} (h : P.data (t + 4)) {ss : List SAct} {x : Nat} {m : Mem}
    (hr : P.Acts ss (x + 32) (m.set (t + 4) (BitVec.ofNat 32 d))) : P.Acts (sNext t d :: ss) x m :=
  P.acts_mem h hr

theorem Prog.acts_modi {P : Prog} (hw : P.Wf) {v : Nat} (hv : v ∈ P.vars) {md : Mod} {ss : List SAct} {x : Nat} {m : Mem}
    (hr : P.Acts ss (x + 32) (m.set (v + 352) (modWord (m (v + 352)) md))) : P.Acts (sModi v md :: ss) x m := by
  refine ⟨sMemX_ready _ _ _ _ _ _, ?_, by rw [sModi_apply]; exact hr⟩
  rw [sModi_apply]
  show P.okw (v + 352) _ ((m.set (v + 352) (modWord (m (v + 352)) md)) (v + 352))
  rw [set_eq]
  exact hw.okw_mod hv _ _

/-! ## `VProc` -/

/-- eudv.py:674-676: link the variables one after the other and the last one to `stop`. -/
def linkActs : List Nat → Nat → List SAct
  | [], _ => []
  | [v], stop => [sNext v stop]
  | v :: w :: vs, stop => sNext v w :: linkActs (w :: vs) stop

/-- What the variables do, one after the other: final memory and addresses written. -/
def varsRun : List Nat → Mem → Option (Mem × List Nat)
  | [], m => some (m, [])
  | v :: vs, m =>
    match varMod m v, varDst m v with
    | some md, some (.mem a) => do
      let r ← varsRun vs (m.set a (modify md (m a) (m (v + 348)) (m (v + 328))))
      some (r.1, a :: r.2)
    | _, _ => none

/-- The `nextptr`s lead through the variables to `stop`. -/
def VLinked (m : Mem) (stop : Nat) : List Nat → Prop
  | [] => True
  | v :: vs => m (v + 4) = BitVec.ofNat 32 (vs.headD stop) ∧ VLinked m stop vs

theorem VLinked.congr {m m' : Mem} {stop : Nat} : ∀ {vs : List Nat}, VLinked m stop vs →
    (∀ v ∈ vs, m' (v + 4) = m (v + 4)) → VLinked m' stop vs
  | [], _, _ => trivial
  | v :: vs, h, hc => ⟨by rw [hc v (by simp)]; exact h.1, h.2.congr (fun w hw => hc w (by simp [hw]))⟩

theorem linkActs_frame : ∀ (vs : List Nat) (stop x : Nat) (m : Mem) (y : Nat), (∀ v ∈ vs, y ≠ v + 4) →
    runS (linkActs vs stop) x m y = m y
  | [], _, _, _, _, _ => rfl
  | [v], stop, x, m, y, h => by
    simp only [linkActs, runS, sNext_apply]
    exact set_ne (h v (by simp))
  | v :: w :: vs, stop, x, m, y, h => by
    simp only [linkActs, runS, sNext_apply]
    rw [linkActs_frame (w :: vs) stop _ _ y (fun u hu => h u (List.mem_cons_of_mem _ hu))]
    exact set_ne (h v (by simp))

theorem linkActs_linked : ∀ (vs : List Nat) (stop x : Nat) (m : Mem), vs.Nodup →
    VLinked (runS (linkActs vs stop) x m) stop vs
  | [], _, _, _, _ => trivial
  | [v], stop, x, m, _ => by
    simp only [linkActs, runS, sNext_apply]
    exact ⟨set_eq _ _ _, trivial⟩
  | v :: w :: vs, stop, x, m, hnd => by
    rw [List.nodup_cons] at hnd
    simp only [linkActs, runS, sNext_apply]
    refine ⟨?_, linkActs_linked (w :: vs) stop _ _ hnd.2⟩
    rw [linkActs_frame (w :: vs) stop _ _ (v + 4) (fun u hu he => hnd.1 (by have : u = v := by omega
                                                                            exact this ▸ hu)), set_eq]
    rfl

theorem linkActs_acts {P : Prog} (hw : P.Wf) : ∀ (vs : List Nat) (stop x : Nat) (m : Mem),
    (∀ v ∈ vs, v ∈ P.vars) → P.Acts (linkActs vs stop) x m
  | [], _, _, _, _ => trivial
  | [v], _, _, _, h => P.acts_nextv hw (h v (by simp)) trivial
  | v :: w :: vs, stop, _, _, h => P.acts_nextv hw (h v (by simp))
      (linkActs_acts hw (w :: vs) stop _ _ (fun u hu => h u (List.mem_cons_of_mem _ hu)))

/-- **Running linked variables**: each one performs its action in turn. -/
theorem Prog.In.vars_run {P : Prog} (hw : P.Wf) {stop : Nat} (hst : stop < 2 ^ 32) :
    ∀ (vs : List Nat) (m m' : Mem) (tg : List Nat), P.In m → (∀ v ∈ vs, v ∈ P.vars) → VLinked m stop vs →
    varsRun vs m = some (m', tg) → (∀ a ∈ tg, P.data a ∧ ∀ v ∈ vs, a ≠ v + 4) →
    Reaches ⟨m, vs.headD stop⟩ ⟨m', stop⟩ ∧ P.In m' ∧ (∀ x, x ∉ tg → m' x = m x)
  | [], m, m', tg, h, _, _, hr, _ => by
    simp only [varsRun, Option.some.injEq, Prod.mk.injEq] at hr
    obtain ⟨rfl, rfl⟩ := hr
    exact ⟨Reaches.refl _, h, fun _ _ => rfl⟩
  | v :: vs, m, m', tg, h, hv, hl, hr, ht => by
    simp only [varsRun] at hr
    split at hr
    · rename_i md a hmd hd
      simp only [bind, Option.bind_eq_some_iff, Option.some.injEq, Prod.mk.injEq] at hr
      obtain ⟨⟨m2, tg2⟩, h1, rfl, rfl⟩ := hr
      have hva := hv v (by simp)
      have hta := ht a (by simp)
      have hlt : vs.headD stop < 2 ^ 32 := by
        cases vs with
        | nil => exact hst
        | cons w vs =>
          have := (hw.epd w (hv w (by simp))).2.1
          simp only [List.headD_cons]
          omega
      have hs := Eud.SC.step_var (h.vars v hva) hmd hd
        ⟨fun e => hta.1.1 (Or.inr (Or.inr ⟨v, hva, Or.inr (Or.inr (Or.inl e))⟩)),
          fun e => hta.1.1 (Or.inr (Or.inr ⟨v, hva, Or.inr (Or.inr (Or.inr e))⟩))⟩
      simp only [varAct, Act.apply, Dst.addr] at hs
      rw [set_ne (fun e => hta.2 v (by simp) e.symm), hl.1, BitVec.toNat_ofNat, Nat.mod_eq_of_lt hlt] at hs
      obtain ⟨i1, i2, i3⟩ := Prog.In.vars_run hw hst vs _ m2 tg2 (h.congr (Prog.Same.set (hta.1.okw _ _)))
        (fun w hw' => hv w (by simp [hw'])) (hl.2.congr (fun w hw' => set_ne (fun e => hta.2 w (by simp [hw']) e.symm)))
        h1 (fun b hb => ⟨(ht b (by simp [hb])).1, fun w hw' => (ht b (by simp [hb])).2 w (by simp [hw'])⟩)
      refine ⟨Reaches.head hs i1, i2, ?_⟩
      intro x hx
      simp only [List.mem_cons, not_or] at hx
      show m2 x = m x
      rw [i3 x hx.2, set_ne hx.1]
    · cases hr

theorem runS_append : ∀ (as bs : List SAct) (x : Nat) (m : Mem),
    runS (as ++ bs) x m = runS bs (x + 32 * as.length) (runS as x m)
  | [], _, _, _ => by simp [runS]
  | a :: as, bs, x, m => by
    simp only [List.cons_append, runS, List.length_cons]
    rw [runS_append as bs]
    congr 1; omega

theorem Prog.acts_append {P : Prog} : ∀ (as bs : List SAct) (x : Nat) (m : Mem),
    P.Acts as x m → P.Acts bs (x + 32 * as.length) (runS as x m) → P.Acts (as ++ bs) x m
  | [], _, _, _, _, h => by simpa [runS] using h
  | a :: as, bs, x, m, h1, h2 => by
    refine ⟨h1.1, h1.2.1, acts_append as bs _ _ h1.2.2 ?_⟩
    simp only [runS, List.length_cons] at h2
    rw [show x + 32 + 32 * as.length = x + 32 * (as.length + 1) by omega]
    exact h2

/-- **C19 (`VProc`, eudv.py:666-685).** For any actions and any list of different variables (that
fit into one trigger), the emitted code performs the actions and then lets each variable perform its
own action (destination, modifier, mask and value as they are at that time), in order, and goes on
behind the block; nothing else but the next pointers of these variables changes. -/
theorem C19_vproc {P : Prog} {m : Mem} (h : P.In m) (hw : P.Wf) {b : SBlk} (hb : b ∈ P.blks)
    (ho : b.once = false) {as : List SAct} {v : Nat} {vs : List Nat} {stop : Nat}
    (hT : b.T = ⟨[], as ++ linkActs (v :: vs) stop⟩) (hn : b.next = some v) (hst : stop < 2 ^ 32)
    (hnd : (v :: vs).Nodup) (hv : ∀ u ∈ v :: vs, u ∈ P.vars) (ha : P.Acts as (b.t + 328) m)
    {m' : Mem} {tg : List Nat}
    (hr : varsRun (v :: vs) (runS (linkActs (v :: vs) stop) (b.t + 328 + 32 * as.length)
      (runS as (b.t + 328) m)) = some (m', tg))
    (ht : ∀ a ∈ tg, P.data a ∧ ∀ u ∈ v :: vs, a ≠ u + 4) :
    Reaches ⟨m, b.t⟩ ⟨m', stop⟩ ∧ P.In m' ∧
      (∀ x, x ∉ tg → (∀ u ∈ v :: vs, x ≠ u + 4) → m' x = runS as (b.t + 328) m x) := by
  have hs := h.step_next hb ho hn (by rw [hT]; trivial)
    (fun _ => by rw [hT]; exact Prog.acts_append _ _ _ _ ha (linkActs_acts hw _ _ _ _ hv))
  have he : b.exec m = runS (linkActs (v :: vs) stop) (b.t + 328 + 32 * as.length) (runS as (b.t + 328) m) := by
    unfold SBlk.exec
    rw [hT]
    simp only [condsS, if_true, runS_append]
  rw [he] at hs
  obtain ⟨i1, i2, i3⟩ := Prog.In.vars_run hw hst (v :: vs) _ m' tg hs.2 hv (linkActs_linked _ _ _ _ hnd) hr ht
  refine ⟨Reaches.head hs.1 i1, i2, ?_⟩
  intro x hx hx2
  rw [i3 x hx, linkActs_frame _ _ _ _ _ hx2]

end Eud.SC
