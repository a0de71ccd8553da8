import Verif.Machine.Image
/-
C19 at the level of variable values, examples and counterexamples for `SeqCompute`.
-/

namespace Eud.SC

/-! ## Specification on values -/

/-- `dst md= src` for a variable `dst` and a constant or variable `src`. -/
structure Assign where
  dst : Nat
  md : Mod
  src : Src

/-- Value of a source. -/
def Src.val (σ : Nat → W) : Src → W
  | .const w => w
  | .var v => σ v

/-- Perform the assignments in order on a map from variables to values. -/
def runAssigns : List Assign → (Nat → W) → (Nat → W)
  | [], σ => σ
  | a :: as, σ => runAssigns as (fun x => if x = a.dst then arith a.md (σ a.dst) (a.src.val σ) else σ x)

def Assign.pair (a : Assign) : Pair := ⟨some (.var a.dst), some a.md, a.src⟩

/-- A set of usable variables: well formed, with the full mask, not clashing with each
other, with the code or with the current player cell. -/
structure VarsOK (m : Mem) (V : List Nat) (F : Nat → Prop) : Prop where
  var : ∀ v ∈ V, VarAt m v
  mask : ∀ v ∈ V, m (v + 328) = 0xFFFFFFFF
  sep : ∀ v ∈ V, ∀ w ∈ V, VSep v w
  epd : ∀ v ∈ V, EpdOK (v + 348)
  code : ∀ v ∈ V, ¬ F (v + 4) ∧ ¬ F (v + 344) ∧ ¬ F (v + 348) ∧ ¬ F (v + 352)
  cp : ∀ v ∈ V, cpAddr ≠ v + 344 ∧ cpAddr ≠ v + 352 ∧ cpAddr ≠ v + 4

def Assign.In (V : List Nat) (a : Assign) : Prop :=
  a.dst ∈ V ∧ ∀ v, a.src = .var v → v ∈ V

theorem specPair_assign {E : Env} {V : List Nat} {m : Mem} {a : Assign}
    (hsep : ∀ v ∈ V, ∀ w ∈ V, VSep v w) (hepd : ∀ v ∈ V, EpdOK (v + 348))
    (hmask : ∀ v ∈ V, m (v + 328) = 0xFFFFFFFF) (ha : a.In V) :
    ∃ m', specPair E a.pair m = some (m', a.dst + 348) ∧
      m' (a.dst + 348) = arith a.md (m (a.dst + 348)) (a.src.val (fun v => m (v + 348))) ∧
      ∀ x, x ≠ a.dst + 348 → (∀ s, a.src = .var s → x ≠ s + 344 ∧ x ≠ s + 352) → m' x = m x := by
  obtain ⟨d, md, src⟩ := a
  obtain ⟨hd, hs⟩ := ha
  simp only at hd hs
  obtain ⟨o4, o20, o328, o344, o348, o352, o356, o384, o2376⟩ := offs_mem
  cases src with
  | const w =>
    refine ⟨m.set (d + 348) (arith md (m (d + 348)) w), ?_, set_eq _ _ _, fun x hx _ => set_ne hx⟩
    simp only [Assign.pair, specPair, DRef.epd, dstOf_epd (hepd d hd), Option.map_some, Dst.addr]
  | var s =>
    have hsV := hs s rfl
    have hc : ∀ x, x ≠ s + 344 → x ≠ s + 352 → ctl E (some (.var d)) (some md) s m x = m x :=
      fun x h1 h2 => ctl_other h1 h2
    have e1 : varMod (ctl E (some (.var d)) (some md) s m) s = some md := by
      unfold varMod
      rw [ctl_mod]
      simp only
      rw [(setModifier_word _ _).1, ofCode_code]
    have e2 : varDst (ctl E (some (.var d)) (some md) s m) s = some (.mem (d + 348)) := by
      unfold varDst
      rw [ctl_dest]
      exact dstOf_epd (hepd d hd)
    have hd348 : ctl E (some (.var d)) (some md) s m (d + 348) = m (d + 348) :=
      hc _ (hsep d hd s hsV 348 o348 344 o344 (by omega)) (hsep d hd s hsV 348 o348 352 o352 (by omega))
    refine ⟨(ctl E (some (.var d)) (some md) s m).set (d + 348) (arith md (m (d + 348)) (m (s + 348))),
      ?_, set_eq _ _ _, ?_⟩
    · simp only [Assign.pair, specPair, e1, e2, Dst.addr]
      rw [hc (s + 348) (by omega) (by omega), hc (s + 328) (by omega) (by omega), hmask s hsV,
        modify_full, hd348]
    · intro x hx hx2
      rw [set_ne hx]
      exact hc x (hx2 s rfl).1 (hx2 s rfl).2

theorem specRun_assigns {E : Env} {V : List Nat} (hsep : ∀ v ∈ V, ∀ w ∈ V, VSep v w)
    (hepd : ∀ v ∈ V, EpdOK (v + 348)) : ∀ (as : List Assign) (m : Mem), (∀ a ∈ as, a.In V) →
    (∀ v ∈ V, m (v + 328) = 0xFFFFFFFF) →
    ∃ m' tg, specRun E (as.map Assign.pair) m = some (m', tg) ∧ (∀ x ∈ tg, ∃ v ∈ V, x = v + 348) ∧
      (∀ v ∈ V, m' (v + 348) = runAssigns as (fun v => m (v + 348)) v) ∧
      (∀ x, (∀ v ∈ V, x ≠ v + 344 ∧ x ≠ v + 348 ∧ x ≠ v + 352) → m' x = m x)
  | [], m, _, _ => ⟨m, [], rfl, by simp, fun _ _ => rfl, fun _ _ => rfl⟩
  | a :: as, m, hin, hmask => by
    have ha := hin a (by simp)
    obtain ⟨m1, h1, h2, h3⟩ := specPair_assign (E := E) hsep hepd hmask ha
    obtain ⟨o4, o20, o328, o344, o348, o352, o356, o384, o2376⟩ := offs_mem
    have hmask1 : ∀ v ∈ V, m1 (v + 328) = 0xFFFFFFFF := by
      intro v hv
      rw [h3 (v + 328) (hsep v hv a.dst ha.1 328 o328 348 o348 (by omega))
        (fun s hs => ⟨hsep v hv s (ha.2 s hs) 328 o328 344 o344 (by omega),
          hsep v hv s (ha.2 s hs) 328 o328 352 o352 (by omega)⟩)]
      exact hmask v hv
    obtain ⟨m2, tg, i1, i2, i3, i4⟩ := specRun_assigns (E := E) hsep hepd as m1 (fun b hb => hin b (by simp [hb])) hmask1
    refine ⟨m2, (a.dst + 348) :: tg, ?_, ?_, ?_, ?_⟩
    · simp only [List.map_cons, specRun, h1, i1, bind, Option.bind_some]
    · intro x hx
      simp only [List.mem_cons] at hx
      rcases hx with rfl | hx
      · exact ⟨a.dst, ha.1, rfl⟩
      · exact i2 x hx
    · intro v hv
      rw [i3 v hv]
      simp only [runAssigns]
      -- both runs start from maps that agree on V
      have hagree : ∀ (bs : List Assign) (σ τ : Nat → W), (∀ b ∈ bs, b.In V) → (∀ u ∈ V, σ u = τ u) →
          ∀ u ∈ V, runAssigns bs σ u = runAssigns bs τ u := by
        intro bs
        induction bs with
        | nil => intro σ τ _ h u hu; exact h u hu
        | cons b bs ih =>
          intro σ τ hb h u hu
          simp only [runAssigns]
          apply ih _ _ (fun c hc => hb c (by simp [hc])) _ u hu
          intro w hw
          have hbi := hb b (by simp)
          have hsv : b.src.val σ = b.src.val τ := by
            cases hsr : b.src with
            | const w => rfl
            | var s => exact h s (hbi.2 s hsr)
          simp only [hsv, h b.dst hbi.1, h w hw]
      apply hagree as _ _ (fun b hb => hin b (by simp [hb])) _ v hv
      intro u hu
      by_cases hud : u = a.dst
      · rw [if_pos hud, hud, h2]
      · rw [if_neg hud]
        exact h3 _ (by omega) (fun s hs => ⟨hsep u hu s (ha.2 s hs) 348 o348 344 o344 (by omega),
          hsep u hu s (ha.2 s hs) 348 o348 352 o352 (by omega)⟩)
    · intro x hx
      rw [i4 x hx]
      exact h3 x (hx a.dst ha.1).2.1 (fun s hs => ⟨(hx s (ha.2 s hs)).1, (hx s (ha.2 s hs)).2.2⟩)

/-- **C19 (variables).** For every list of assignments between variables and constants
that compiles, running the emitted code leaves every variable with the value obtained by
performing the assignments one after the other, and changes nothing but the values,
destinations, modifiers and next pointers of these variables. -/
theorem C19_variables {E : Env} {ts : Nat → Nat} {as : List Assign} {P : List Blk} {m : Mem}
    {V : List Nat} (hem : seqCompute E ts (as.map Assign.pair) = some P)
    (hts : ∀ k ≤ P.length, ts k < 2 ^ 32) (hL : Loaded m P) (hV : VarsOK m V (progFoot P))
    (hin : ∀ a ∈ as, a.In V) :
    ∃ m', Reaches ⟨m, ts 0⟩ ⟨m', ts P.length⟩ ∧
      (∀ v ∈ V, m' (v + 348) = runAssigns as (fun v => m (v + 348)) v) ∧
      (∀ x, (∀ v ∈ V, x ≠ v + 4 ∧ x ≠ v + 344 ∧ x ≠ v + 348 ∧ x ≠ v + 352) → m' x = m x) ∧
      Loaded m' P ∧ VarsOK m' V (progFoot P) := by
  obtain ⟨o4, o20, o328, o344, o348, o352, o356, o384, o2376⟩ := offs_mem
  obtain ⟨ms, tg, h1, h2, h3, h4⟩ := specRun_assigns (E := E) hV.sep hV.epd as m hin hV.mask
  have hsub : ∀ v ∈ srcVars (as.map Assign.pair), v ∈ V := by
    intro v hv
    clear hem h1 h3
    induction as with
    | nil => simp [srcVars] at hv
    | cons a as ih =>
      simp only [List.map_cons, srcVars] at hv
      split at hv
      · rename_i s hs
        simp only [List.mem_cons] at hv
        rcases hv with rfl | hv
        · exact (hin a (by simp)).2 _ hs
        · exact ih (fun b hb => hin b (by simp [hb])) hv
      · exact ih (fun b hb => hin b (by simp [hb])) hv
  have hsrc : SrcsOK m (srcVars (as.map Assign.pair)) (progFoot P) :=
    ⟨fun v hv => hV.var v (hsub v hv), fun v hv w hw => hV.sep v (hsub v hv) w (hsub w hw),
      fun v hv => by have := (hV.epd v (hsub v hv)).2.1; omega,
      fun v hv => ⟨(hV.code v (hsub v hv)).1, (hV.code v (hsub v hv)).2.1, (hV.code v (hsub v hv)).2.2.2⟩,
      fun v hv => hV.cp v (hsub v hv)⟩
  obtain ⟨m', r, e, l, o⟩ := C19_seqcompute_partial hem hts hL hsrc (by
      intro p hp v hpv d hd
      obtain ⟨a, ha, rfl⟩ := List.mem_map.1 hp
      simp only [Assign.pair, Option.some.injEq] at hd
      subst hd; rfl) h1 (by
      intro x hx
      obtain ⟨v, hv, rfl⟩ := h2 x hx
      refine ⟨(hV.code v hv).2.2.1, ?_⟩
      rintro ⟨w, hw, hor⟩
      have hs := hV.sep v hv w (hsub w hw)
      rcases hor with h | h | h | h | h | h | h
      · exact hs 348 o348 4 o4 (by omega) h
      · exact hs 348 o348 20 o20 (by omega) h
      · exact hs 348 o348 344 o344 (by omega) h
      · exact hs 348 o348 352 o352 (by omega) h
      · exact hs 348 o348 356 o356 (by omega) h
      · exact hs 348 o348 384 o384 (by omega) h
      · exact hs 348 o348 2376 o2376 (by omega) h)
  have hnn : ∀ v ∈ V, ∀ k ∈ varOffs, k ≠ 4 → ¬ nextFoot (srcVars (as.map Assign.pair)) (v + k) := by
    rintro v hv k hk hk4 ⟨w, hw, he⟩
    exact hV.sep v hv w (hsub w hw) k hk 4 o4 hk4 he
  have hfr : ∀ x, (∀ v ∈ V, x ≠ v + 4 ∧ x ≠ v + 344 ∧ x ≠ v + 348 ∧ x ≠ v + 352) → m' x = m x := by
    intro x hx
    rw [e x (fun ⟨w, hw, he⟩ => (hx w (hsub w hw)).1 he)]
    exact h4 x (fun v hv => ⟨(hx v hv).2.1, (hx v hv).2.2.1, (hx v hv).2.2.2⟩)
  have hfld : ∀ v ∈ V, ∀ k ∈ varOffs, k ≠ 4 → k ≠ 344 → k ≠ 348 → k ≠ 352 → m' (v + k) = m (v + k) := by
    intro v hv k hk a b c d
    apply hfr
    intro w hw
    have hs := hV.sep v hv w hw
    exact ⟨hs k hk 4 o4 a, hs k hk 344 o344 b, hs k hk 348 o348 c, hs k hk 352 o352 d⟩
  refine ⟨m', r, fun v hv => ?_, hfr, l, ?_⟩
  · rw [e _ (hnn v hv 348 o348 (by omega)), h3 v hv]
  · refine ⟨fun v hv => ?_, fun v hv => ?_, hV.sep, hV.epd, hV.code, hV.cp⟩
    · by_cases hvs : v ∈ srcVars (as.map Assign.pair)
      · exact o.var v hvs
      · apply (hV.var v hv).congr
        · intro x hx
          rcases hx with rfl | rfl | rfl | rfl
          · exact hfld v hv 20 o20 (by omega) (by omega) (by omega) (by omega)
          · exact hfld v hv 356 o356 (by omega) (by omega) (by omega) (by omega)
          · exact hfld v hv 384 o384 (by omega) (by omega) (by omega) (by omega)
          · exact hfld v hv 2376 o2376 (by omega) (by omega) (by omega) (by omega)
        · -- the modifier dword of a variable that is not a source is not written
          rw [e _ (hnn v hv 352 o352 (by omega))]
          have : ∀ (as : List Assign) (m ms : Mem) (tg : List Nat), (∀ a ∈ as, a.In V) →
              (∀ u ∈ V, m (u + 328) = 0xFFFFFFFF) → v ∉ srcVars (as.map Assign.pair) →
              specRun E (as.map Assign.pair) m = some (ms, tg) → ms (v + 352) = m (v + 352) := by
            intro as
            induction as with
            | nil =>
              intro m ms tg _ _ _ h
              simp only [List.map_nil, specRun, Option.some.injEq, Prod.mk.injEq] at h
              rw [h.1]
            | cons a as ih =>
              intro m ms tg hin hmask hns h
              have ha := hin a (by simp)
              obtain ⟨m1, q1, q2, q3⟩ := specPair_assign (E := E) hV.sep hV.epd hmask ha
              simp only [List.map_cons, specRun, q1, bind, Option.bind_some, Option.bind_eq_some_iff,
                Option.some.injEq] at h
              obtain ⟨⟨m2, t2⟩, h5, h6⟩ := h
              simp only [Prod.mk.injEq] at h6
              have hns' : v ∉ srcVars (as.map Assign.pair) := by
                intro hm
                apply hns
                simp only [List.map_cons, srcVars]
                split
                · exact List.mem_cons_of_mem _ hm
                · exact hm
              have hmask1 : ∀ u ∈ V, m1 (u + 328) = 0xFFFFFFFF := by
                intro u hu
                rw [q3 (u + 328) (hV.sep u hu a.dst ha.1 328 o328 348 o348 (by omega))
                  (fun s hs => ⟨hV.sep u hu s (ha.2 s hs) 328 o328 344 o344 (by omega),
                    hV.sep u hu s (ha.2 s hs) 328 o328 352 o352 (by omega)⟩)]
                exact hmask u hu
              have := ih m1 m2 t2 (fun b hb => hin b (by simp [hb])) hmask1 hns' h5
              rw [← h6.1, this]
              apply q3
              · exact hV.sep v hv a.dst ha.1 352 o352 348 o348 (by omega)
              · intro s hs
                refine ⟨hV.sep v hv s (ha.2 s hs) 352 o352 344 o344 (by omega), ?_⟩
                intro he
                apply hns
                have : v = s := by omega
                simp [Assign.pair, srcVars, hs, this]
          rw [this as m ms tg hin hV.mask hvs h1]
    · rw [hfld v hv 328 o328 (by omega) (by omega) (by omega) (by omega)]
      exact hV.mask v hv

/-! ## A memory for examples: any number of variables, any disjoint code above them -/

/-- Variables of a buffer at `p` and code that starts behind it satisfy all assumptions. -/
theorem varsOK_image {m0 : Mem} {p : Nat} {vals : List W} {P : List Blk} (h4 : 4 ≤ p) (hal : p % 4 = 0)
    (hlo : cpAddr < p) (hhi : p + 2404 + 72 * vals.length < 2 ^ 32)
    (hP : ∀ b ∈ P, p + 2404 + 72 * vals.length ≤ b.t) :
    VarsOK (image (bufImage m0 p vals) P) ((List.range vals.length).map (fun i => p - 4 + 72 * i))
      (progFoot P) := by
  have hb := bufImage_written m0 p vals
  have himg : ∀ x, x < p + 2404 + 72 * vals.length → image (bufImage m0 p vals) P x = bufImage m0 p vals x :=
    fun x hx => image_outside (fun b hb => Or.inl (by have := hP b hb; omega))
  have hnp : ∀ x, x < p + 2404 + 72 * vals.length → ¬ progFoot P x := by
    rintro x hx ⟨b, hbP, hf⟩
    have := hP b hbP
    simp only [Blk.foot, Trig.foot, CodeFoot] at hf
    omega
  have hmem : ∀ v ∈ (List.range vals.length).map (fun i => p - 4 + 72 * i),
      ∃ i, i < vals.length ∧ v = p - 4 + 72 * i := by
    intro v hv
    obtain ⟨i, hi, rfl⟩ := List.mem_map.1 hv
    exact ⟨i, List.mem_range.1 hi, rfl⟩
  refine ⟨?_, ?_, ?_, ?_, ?_, ?_⟩
  · intro v hv
    obtain ⟨i, hi, rfl⟩ := hmem v hv
    obtain ⟨h, -⟩ := C51_variable_buffer hb h4 i hi
    apply VarAt.congr h
    · intro x hx
      apply himg
      rcases hx with rfl | rfl | rfl | rfl <;> omega
    · rw [himg _ (by omega)]
  · intro v hv
    obtain ⟨i, hi, rfl⟩ := hmem v hv
    obtain ⟨-, -, h, -⟩ := C51_variable_buffer hb h4 i hi
    rw [himg _ (by omega)]; exact h
  · intro v hv w hw
    obtain ⟨i, hi, rfl⟩ := hmem v hv
    obtain ⟨j, hj, rfl⟩ := hmem w hw
    exact vsep_buffer _ i j
  · intro v hv
    obtain ⟨i, hi, rfl⟩ := hmem v hv
    refine ⟨by omega, by omega, ?_⟩
    simp only [cpAddr, deathTable] at *
    omega
  · intro v hv
    obtain ⟨i, hi, rfl⟩ := hmem v hv
    exact ⟨hnp _ (by omega), hnp _ (by omega), hnp _ (by omega), hnp _ (by omega)⟩
  · intro v hv
    obtain ⟨i, hi, rfl⟩ := hmem v hv
    simp only [cpAddr] at *
    omega

/-! ## Examples -/

namespace Ex

/-- Three variables with values 5, 7, 9. -/
def p : Nat := 0x1000000
def vals : List W := [5, 7, 9]
def x : Nat := p - 4
def y : Nat := p - 4 + 72
def z : Nat := p - 4 + 144
def ts (k : Nat) : Nat := 0x2000000 + 4096 * k
def E : Env := ⟨fun _ => 0, fun _ => false⟩

/-- `z := 100; y += x; x := y; z -= x; y := x` -/
def prog : List Assign :=
  [⟨z, .set, .const 100⟩, ⟨y, .add, .var x⟩, ⟨x, .set, .var y⟩, ⟨z, .sub, .var x⟩, ⟨y, .set, .var x⟩]

/-- Which triggers are emitted: the source `x` is used three times, hence three triggers. -/
example : (seqCompute E ts (prog.map Assign.pair)).map (·.map (fun b => (b.t, b.T.acts.length, b.next)))
    = some [(ts 0, 7, some x), (ts 1, 3, some x), (ts 2, 3, some x)] := by decide +kernel

/-- All hypotheses of `C19_variables` hold for this program in a concrete memory. -/
example : ∃ P, seqCompute E ts (prog.map Assign.pair) = some P ∧ (∀ k ≤ P.length, ts k < 2 ^ 32) ∧
    Loaded (image (bufImage (fun _ => 0) p vals) P) P ∧
    VarsOK (image (bufImage (fun _ => 0) p vals) P) [x, y, z] (progFoot P) ∧
    (∀ a ∈ prog, a.In [x, y, z]) := by
  have hsome : (seqCompute E ts (prog.map Assign.pair)).isSome = true := by decide +kernel
  obtain ⟨P, hP⟩ := Option.isSome_iff_exists.1 hsome
  have hpos : (seqCompute E ts (prog.map Assign.pair)).map (·.map (·.t)) = some [ts 0, ts 1, ts 2] := by
    decide +kernel
  rw [hP] at hpos
  simp only [Option.map_some, Option.some.injEq] at hpos
  have hval : ((seqCompute E ts (prog.map Assign.pair)).getD []).all (fun b =>
      b.T.conds.isEmpty && decide (b.T.acts.length ≤ 64) && b.T.acts.all (fun a => decide a.dst.Valid) &&
      (b.next.getD 0 < 2 ^ 32)) = true := by decide +kernel
  rw [hP] at hval
  simp only [Option.getD_some, List.all_eq_true, Bool.and_eq_true, List.isEmpty_iff, decide_eq_true_eq] at hval
  have hlen : P.length = 3 := by
    have := congrArg List.length hpos
    simpa using this
  have hts : ∀ b ∈ P, b.t = ts 0 ∨ b.t = ts 1 ∨ b.t = ts 2 := by
    intro b hb
    have : b.t ∈ P.map (·.t) := List.mem_map.2 ⟨b, hb, rfl⟩
    rw [hpos] at this
    simpa using this
  refine ⟨P, hP, ?_, ?_, ?_, ?_⟩
  · intro k hk; simp only [ts]; omega
  · apply image_loaded
    · intro b hb
      obtain ⟨⟨⟨h1, h2⟩, h3⟩, h4⟩ := hval b hb
      refine ⟨by simp [h1], h2, by simp [h1], h3, ?_⟩
      intro n hn
      rw [hn] at h4
      simpa using h4
    · have : (P.map (·.t)).Pairwise (fun s t => s + 2408 ≤ t ∨ t + 2408 ≤ s) := by
        rw [hpos]; decide
      exact List.pairwise_map.1 this
  · have := varsOK_image (m0 := fun _ => 0) (p := p) (vals := vals) (P := P) (by decide) (by decide)
      (by decide) (by decide) (by
        intro b hb
        rcases hts b hb with h | h | h <;> rw [h] <;> decide)
    exact this
  · intro a ha
    simp only [prog, List.mem_cons, List.not_mem_nil, or_false] at ha
    rcases ha with rfl | rfl | rfl | rfl | rfl <;>
      exact ⟨by simp, by intro v hv; simp_all⟩

end Ex

/-! ## Counterexamples -/

namespace Cex

/-- Environment with one Python object: the integer 0 (player 1's death counter of unit 0). -/
def E : Env := ⟨fun _ => 0, fun _ => false⟩

/-- **C19 counterexample.** `SeqCompute([(EPD 0, SetTo, v)])`: the destination is the integer 0,
which is false in Python, so no destination is set.  The variable keeps its former
destination; if that is another variable `w`, the value is written there and the cell
that was asked for is not changed. -/
theorem C19_counterexample {m : Mem} {t stop v w : Nat} {P : List Blk}
    (hem : seqCompute E (fun k => if k = 0 then t else stop)
      [⟨some (.obj 0), some .set, .var v⟩] = some P)
    (hL : Loaded m P) (hv : VarAt m v) (hmask : m (v + 328) = 0xFFFFFFFF)
    (hst : stop < 2 ^ 32)
    (hw : EpdOK (w + 348)) (hd : m (v + 344) = epd (w + 348)) (hsep : VSep v w)
    (hcode : ∀ u, u = v ∨ u = w → ¬ progFoot P (u + 4) ∧ ¬ progFoot P (u + 352))
    (hdt : ∀ k ∈ [4, 352], v + k ≠ deathTable) (hdw : w + 348 ≠ deathTable) :
    ∃ m', Reaches ⟨m, t⟩ ⟨m', stop⟩ ∧ m' (w + 348) = m (v + 348) ∧ m' deathTable = m deathTable := by
  have hP : P = [⟨t, ⟨[], [setModifier v .set, setNext v stop]⟩, some v⟩] := by
    have : seqCompute E (fun k => if k = 0 then t else stop)
      [⟨some (.obj 0), some .set, .var v⟩] =
        some [⟨t, ⟨[], [setModifier v .set, setNext v stop]⟩, some v⟩] := by
      rfl
    rw [this] at hem
    exact (Option.some.inj hem).symm
  have hb : (⟨t, ⟨[], [setModifier v .set, setNext v stop]⟩, some v⟩ : Blk) ∈ P := by rw [hP]; simp
  obtain ⟨h1, h2⟩ := hL.step hb rfl (fun _ => SafeActs.of_static m (by
    intro a ha
    simp only [List.mem_cons, List.not_mem_nil, or_false] at ha
    rcases ha with rfl | rfl
    · exact ⟨_, rfl, (hcode v (Or.inl rfl)).2⟩
    · exact ⟨_, rfl, (hcode v (Or.inl rfl)).1⟩))
  have hex : Trig.exec ⟨[], [setModifier v .set, setNext v stop]⟩ m =
      (m.set (v + 352) (modify .set (m (v + 352)) (Mod.set.code.setWidth 32 <<< 24) 0xFF000000)).set (v + 4)
        (BitVec.ofNat 32 stop) := by
    simp only [Trig.exec, List.all_nil, if_true, List.foldl_cons, List.foldl_nil, setModifier, setNext,
      setMemX_apply, setMem_apply, arith]
  simp only [hex] at h1
  generalize hm1 : (m.set (v + 352) (modify .set (m (v + 352)) (Mod.set.code.setWidth 32 <<< 24)
    0xFF000000)).set (v + 4) (BitVec.ofNat 32 stop) = m1 at h1
  have hk : ∀ x, x ≠ v + 4 → x ≠ v + 352 → m1 x = m x := by
    intro x ha hb
    rw [← hm1, set_ne ha, set_ne hb]
  have hvar : VarAt m1 v := by
    apply hv.congr
    · intro x hx
      rcases hx with rfl | rfl | rfl | rfl <;> exact hk _ (by omega) (by omega)
    · rw [← hm1, set_ne (by omega), set_eq, (setModifier_word _ _).2]
  obtain ⟨o4, o20, o328, o344, o348, o352, o356, o384, o2376⟩ := offs_mem
  have hstep := step_var hvar (md := .set) (d := .mem (w + 348))
    (by
      unfold varMod
      rw [← hm1, set_ne (by omega), set_eq, (setModifier_word _ _).1, ofCode_code])
    (by
      unfold varDst
      rw [hk _ (by omega) (by omega), hd]; exact dstOf_epd hw)
    ⟨fun he => hsep 384 o384 348 o348 (by omega) he.symm,
      fun he => hsep 2376 o2376 348 o348 (by omega) he.symm⟩
  have happ : (varAct m1 v .set (.mem (w + 348))).apply m1 = m1.set (w + 348) (m (v + 348)) := by
    unfold Act.apply
    simp only [varAct, Dst.addr]
    rw [hk (v + 328) (by omega) (by omega), hmask, modify_full, hk (v + 348) (by omega) (by omega)]
    rfl
  rw [happ] at hstep
  have hn : (m1.set (w + 348) (m (v + 348))) (v + 4) = BitVec.ofNat 32 stop := by
    rw [set_ne (hsep 4 o4 348 o348 (by omega)), ← hm1, set_eq]
  rw [hn, BitVec.toNat_ofNat, Nat.mod_eq_of_lt hst] at hstep
  refine ⟨_, Reaches.head h1 (Reaches.step hstep), set_eq _ _ _, ?_⟩
  rw [set_ne (fun he => hdw he.symm)]
  exact hk _ (fun he => hdt 4 (by simp) he.symm) (fun he => hdt 352 (by simp) he.symm)

/-- `x_i := y_i` for 40 variables, and the same assignments once more in reverse order. -/
def many : List Assign :=
  let l := (List.range 40).map fun i => (⟨1000000 + 72 * i, .set, .var (2000000 + 72 * i)⟩ : Assign)
  l ++ l.reverse

/-- `SeqCompute` rejects this valid list ("Too many actions"): it counts one action for a
repeated assignment, but emits two. -/
theorem C19_compile_counterexample :
    (seqCompute E Ex.ts (many.map Assign.pair)).isNone = true := by decide +kernel

end Cex

/-! ## Compilation succeeds -/

theorem varActs_length {E : Env} {c : Cache} {p : VPair} {n : Option Nat} {stop : Nat} :
    (varActs E c p n stop).1.length ≤ 3 := by
  simp only [varActs, List.length_append]
  have h1 : ∀ (d : Option DRef) (pd : Option DRef), (match d with
      | some d => if sameObj p.dst pd = false ∧ d.truthy E = true then [setDest p.v (d.epd E)] else []
      | none => []).length ≤ 1 := by
    intro d pd
    split
    · split <;> simp
    · simp
  have h2 : ∀ (d : Option Mod) (pm : Option Mod), (match d with
      | some md => if p.mdt ≠ pm then [setModifier p.v md] else []
      | none => []).length ≤ 1 := by
    intro d pd
    split
    · split <;> simp
    · simp
  have h3 : ∀ pn : Option Nat, (if n.isSome = true ∧ pn = n then [] else [setNext p.v (n.getD stop)]).length ≤ 1 := by
    intro pn
    split <;> simp
  have a := h1 p.dst ((c p.v).getD (none, none, none)).1
  have b := h2 p.mdt ((c p.v).getD (none, none, none)).2.1
  have d := h3 ((c p.v).getD (none, none, none)).2.2
  exact Nat.le_trans (Nat.add_le_add (Nat.add_le_add a b) d) (by omega)

theorem subActs_length {E : Env} {stop : Nat} : ∀ {vs : List VPair} {c : Cache},
    (subActs E stop c vs).1.length ≤ 3 * vs.length
  | [], _ => by simp [subActs]
  | p :: ps, c => by
    simp only [subActs, List.length_append, List.length_cons]
    have h1 := varActs_length (E := E) (c := c) (p := p) (n := ps.head?.map (·.v)) (stop := stop)
    have h2 := subActs_length (E := E) (stop := stop) (vs := ps)
      (c := fun x => if x = p.v then some (varActs E c p (ps.head?.map (·.v)) stop).2 else c x)
    omega

/-- A group in which all constants come first and that has few enough actions. -/
structure GoodGroup (g : List Pair) : Prop where
  shape : ∃ cs vs, g = cs ++ vs ∧ (∀ p ∈ cs, p.isConst = true) ∧ (∀ p ∈ vs, p.isConst = false) ∧
    cs.length + 3 * vs.length ≤ 64

theorem mapM_isSome {α β : Type} {f : α → Option β} : ∀ {l : List α}, (∀ x ∈ l, (f x).isSome = true) →
    ∃ r, l.mapM f = some r ∧ r.length = l.length
  | [], _ => ⟨[], rfl, rfl⟩
  | x :: l, h => by
    obtain ⟨y, hy⟩ := Option.isSome_iff_exists.1 (h x (by simp))
    obtain ⟨r, hr, hl⟩ := mapM_isSome (l := l) (fun z hz => h z (by simp [hz]))
    exact ⟨y :: r, by simp [hy, hr], by simp [hl]⟩

theorem emitSub_isSome {E : Env} {g : List Pair} (hg : GoodGroup g)
    (hc : ∀ p ∈ g, p.isConst = true → (constAct E p).isSome = true) (c : Cache) (t stop : Nat) :
    (emitSub E c g t stop).isSome = true := by
  obtain ⟨cs, vs, rfl, h1, h2, h3⟩ := hg.shape
  have e1 : (cs ++ vs).takeWhile Pair.isConst = cs := by
    rw [List.takeWhile_append_of_pos h1]
    cases vs with
    | nil => simp
    | cons v vs => simp [h2 v (by simp)]
  have e2 : (cs ++ vs).dropWhile Pair.isConst = vs := by
    rw [List.dropWhile_append_of_pos h1]
    cases vs with
    | nil => simp
    | cons v vs => simp [h2 v (by simp)]
  obtain ⟨ca, hca, hcl⟩ := mapM_isSome (l := cs) (f := constAct E)
    (fun p hp => hc p (by simp [hp]) (h1 p hp))
  obtain ⟨va, hva, hvl⟩ := mapM_isSome (l := vs) (f := toVar) (fun p hp => by
    have := h2 p hp
    unfold Pair.isConst at this
    unfold toVar
    split <;> simp_all)
  have hlen := subActs_length (E := E) (stop := stop) (vs := va) (c := c)
  simp only [emitSub, e1, e2, hca, hva, bind, Option.bind_some, List.length_append]
  rw [if_pos (by omega)]
  rfl

structure Group.Good (g : Group) (done : List Pair) : Prop where
  inv : g.Inv done
  dict : ∀ v, v ∉ srcVars done → g.dict v = none
  out : ∀ x ∈ g.out, GoodGroup x
  sub : ∃ cs vs, g.sub = cs ++ vs ∧ (∀ p ∈ cs, p.isConst = true) ∧ (∀ p ∈ vs, p.isConst = false) ∧
    cs.length + 3 * vs.length = g.count ∧ (g.constc = true → vs = [])
  cnt : g.count ≤ 63

theorem Group.Good.flush {g : Group} {done : List Pair} (h : g.Good done) :
    g.flush.Good done ∧ g.flush.sub = [] ∧ g.flush.count = 0 := by
  have hi := h.inv.flush
  refine ⟨⟨hi.1, ?_, ?_, ?_, ?_⟩, hi.2, ?_⟩
  · unfold Group.flush; split <;> exact h.dict
  · unfold Group.flush
    split
    · exact h.out
    · intro x hx
      simp only [List.mem_append, List.mem_singleton] at hx
      rcases hx with hx | rfl
      · exact h.out x hx
      · obtain ⟨cs, vs, a, b, c, d, _⟩ := h.sub
        exact ⟨⟨cs, vs, a, b, c, by have := h.cnt; omega⟩⟩
  · unfold Group.flush
    split
    · exact h.sub
    · exact ⟨[], [], rfl, by simp, by simp, rfl, fun _ => rfl⟩
  · unfold Group.flush
    split
    · exact h.cnt
    · simp
  · unfold Group.flush
    split
    · assumption
    · rfl

theorem Group.Good.step {g : Group} {done : List Pair} (h : g.Good done) (p : Pair)
    (hp : ∀ v, p.src = .var v → v ∉ srcVars done) : (g.step p).Good (done ++ [p]) := by
  have hinv := h.inv.step p
  have hk : ∀ a b : Group, a = b → a.Good (done ++ [p]) → b.Good (done ++ [p]) := by
    intro a b e h; rw [← e]; exact h
  revert hinv
  unfold Group.step
  split
  · rename_i v hv
    have hvn := hp v hv
    have key : ∀ g' : Group, g'.Good done → g'.count ≤ 60 →
        Group.Inv { g' with
          srcs := v :: g'.srcs, constc := false
          count := g'.count + 3 - (match g'.dict v with
            | none => 0
            | some (pd, pm) => (if p.dst = pd then 1 else 0) + (if p.mdt = pm then 1 else 0))
          dict := fun x => if x = v then some (p.dst, p.mdt) else g'.dict x
          sub := g'.sub ++ [p] } (done ++ [p]) →
        Group.Good { g' with
          srcs := v :: g'.srcs, constc := false
          count := g'.count + 3 - (match g'.dict v with
            | none => 0
            | some (pd, pm) => (if p.dst = pd then 1 else 0) + (if p.mdt = pm then 1 else 0))
          dict := fun x => if x = v then some (p.dst, p.mdt) else g'.dict x
          sub := g'.sub ++ [p] } (done ++ [p]) := by
      intro g' h' hc hi
      have hd := h'.dict v hvn
      refine ⟨hi, ?_, h'.out, ?_, ?_⟩
      · intro w hw
        rw [srcVars_append, List.mem_append, not_or] at hw
        have : w ≠ v := by
          intro he
          apply hw.2
          simp [srcVars, hv, he]
        simp only [this, if_false]
        exact h'.dict w hw.1
      · obtain ⟨cs, vs, a, b, c, d, _⟩ := h'.sub
        refine ⟨cs, vs ++ [p], by simp [a], b, ?_, ?_, by simp⟩
        · intro q hq
          simp only [List.mem_append, List.mem_singleton] at hq
          rcases hq with hq | rfl
          · exact c q hq
          · unfold Pair.isConst; rw [hv]
        · simp only [hd, List.length_append, List.length_cons, List.length_nil]; omega
      · simp only [hd]; omega
    split
    · exact fun hi => key _ h.flush.1 (by rw [h.flush.2.2]; omega) hi
    · split
      · exact fun hi => key _ h.flush.1 (by rw [h.flush.2.2]; omega) hi
      · exact fun hi => key _ h (by omega) hi
  · rename_i w hw
    have hconst : p.isConst = true := by unfold Pair.isConst; rw [hw]
    have key : ∀ g' : Group, g'.Good done → g'.count ≤ 60 → (g'.constc = true ∨ g'.sub = []) →
        Group.Inv { g' with count := g'.count + 1, sub := g'.sub ++ [p] } (done ++ [p]) →
        Group.Good { g' with count := g'.count + 1, sub := g'.sub ++ [p] } (done ++ [p]) := by
      intro g' h' hc hcc hi
      refine ⟨hi, ?_, h'.out, ?_, ?_⟩
      · intro x hx
        rw [srcVars_append, List.mem_append, not_or] at hx
        exact h'.dict x hx.1
      · obtain ⟨cs, vs, a, b, c, d, e⟩ := h'.sub
        have hvs : vs = [] := by
          rcases hcc with hcc | hcc
          · exact e hcc
          · rw [a] at hcc
            exact (List.append_eq_nil_iff.1 hcc).2
        subst hvs
        refine ⟨cs ++ [p], [], by simp [a], ?_, by simp, ?_, fun _ => rfl⟩
        · intro q hq
          simp only [List.mem_append, List.mem_singleton] at hq
          rcases hq with hq | rfl
          · exact b q hq
          · exact hconst
        · simp only [List.length_append, List.length_cons, List.length_nil] at d ⊢; omega
      · simp only; omega
    split
    · exact fun hi => key _ h.flush.1 (by rw [h.flush.2.2]; omega) (Or.inr h.flush.2.1) hi
    · rename_i hcc
      simp only [Bool.not_eq_false] at hcc
      split
      · exact fun hi => key _ h.flush.1 (by rw [h.flush.2.2]; omega) (Or.inr h.flush.2.1) hi
      · exact fun hi => key _ h (by omega) (Or.inl hcc) hi

theorem group_good (ps : List Pair) (hnd : (srcVars ps).Nodup) : ∀ g ∈ group ps, GoodGroup g := by
  have : ∀ (qs : List Pair) (g : Group) (done : List Pair), g.Good done → (srcVars (done ++ qs)).Nodup →
      (qs.foldl Group.step g).Good (done ++ qs) := by
    intro qs
    induction qs with
    | nil => intro g done h _; simpa using h
    | cons q qs ih =>
      intro g done h hn
      simp only [List.foldl_cons]
      have hstep := h.step q (by
        intro v hv hm
        rw [srcVars_append] at hn
        have := (List.nodup_append.1 hn).2.2 v hm v (by simp [srcVars, hv])
        exact this rfl)
      have := ih _ _ hstep (by simpa using hn)
      simpa using this
  have h0 := this ps ⟨[], true, 0, [], fun _ => none, []⟩ []
    ⟨⟨rfl, by simp [srcVars], List.nodup_nil, by simp, fun _ => rfl⟩, fun _ _ => rfl, by simp,
      ⟨[], [], rfl, by simp, by simp, rfl, fun _ => rfl⟩, by simp⟩ (by simpa using hnd)
  exact h0.flush.1.out

/-- **C19 (compiles).** `SeqCompute` never fails on a list in which every source variable occurs
once, however long it is. (It can fail when sources repeat: `C19_compile_counterexample`.) -/
theorem C19_compiles_partial {E : Env} {ts : Nat → Nat} {ps : List Pair} (hnd : (srcVars ps).Nodup)
    (hc : ∀ p ∈ ps, p.isConst = true → ∃ d md, p.dst = some d ∧ p.mdt = some md ∧
      (dstOf (d.epd E) 0).isSome = true) :
    ∃ P, seqCompute E ts ps = some P := by
  have hg := group_good ps hnd
  have hfl := (group_spec ps).1
  have hcg : ∀ g ∈ group ps, ∀ p ∈ g, p.isConst = true → (constAct E p).isSome = true := by
    intro g hg' p hp hpc
    have hps : p ∈ ps := by
      rw [← hfl]
      exact List.mem_flatten.2 ⟨g, hg', hp⟩
    obtain ⟨d, md, h1, h2, h3⟩ := hc p hps hpc
    unfold Pair.isConst at hpc
    unfold constAct
    split
    · rename_i d' md' w e1 e2 e3
      rw [h1] at e1
      cases e1
      simp only [Option.isSome_map]
      exact h3
    · rename_i hno
      exfalso
      cases hs : p.src with
      | const w => exact hno d md w h1 h2 hs
      | var v => simp [hs] at hpc
  have : ∀ (gs : List (List Pair)) (k : Nat) (c : Cache), (∀ g ∈ gs, GoodGroup g) →
      (∀ g ∈ gs, ∀ p ∈ g, p.isConst = true → (constAct E p).isSome = true) →
      ∃ bs, emitAll E ts k c gs = some bs := by
    intro gs
    induction gs with
    | nil => intro k c _ _; exact ⟨[], rfl⟩
    | cons g gs ih =>
      intro k c h1 h2
      obtain ⟨⟨b, c'⟩, hb⟩ := Option.isSome_iff_exists.1
        (emitSub_isSome (h1 g (by simp)) (h2 g (by simp)) c (ts k) (ts (k + 1)))
      obtain ⟨bs, hbs⟩ := ih (k + 1) c' (fun x hx => h1 x (by simp [hx])) (fun x hx => h2 x (by simp [hx]))
      exact ⟨b :: bs, by simp [emitAll, hb, hbs]⟩
  exact this _ 0 _ hg hcg

/-- The hypotheses hold for a list of 100 constant and 100 variable assignments. -/
example : ∃ P, seqCompute Cex.E Ex.ts (((List.range 100).map fun i =>
      (⟨0x1000000 + 72 * i, .set, .const 1⟩ : Assign)) ++ ((List.range 100).map fun i =>
      (⟨0x1000000 + 72 * i, .add, .var (0x2000000 + 72 * i)⟩ : Assign)) |>.map Assign.pair) = some P := by
  apply C19_compiles_partial
  · decide +kernel
  · intro p hp _
    obtain ⟨a, ha, rfl⟩ := List.mem_map.1 hp
    refine ⟨_, _, rfl, rfl, ?_⟩
    have : EpdOK (a.dst + 348) := by
      simp only [List.mem_append, List.mem_map, List.mem_range] at ha
      rcases ha with ⟨i, hi, rfl⟩ | ⟨i, hi, rfl⟩ <;> (simp only [EpdOK, deathTable]; omega)
    rw [DRef.epd, dstOf_epd this]; rfl

end Eud.SC
