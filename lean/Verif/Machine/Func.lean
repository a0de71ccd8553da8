import Verif.Machine.Raw
/-
C31: calling functions (core/eudfunc/eudfuncn.py).

The variables that carry results out of a function have their destination and next pointer set from
outside, by the caller and by the end of the function.  So they are treated as triggers with holes
whose dwords are visible, not as variables of the layout.
-/

namespace Eud.SC

/-- A trigger whose next pointer is an ordinary dword goes where this dword says. -/
theorem Layout.Runs.trigDyn {L : Layout} (hw : L.Wf) {b : SBlk} (hb : b ∈ L.P.blks) (ho : b.once = false)
    (hn : ¬ L.priv (b.t + 4)) {s : Mem} (hc : L.Cnds b.T.conds (b.t + 8) s)
    (ha : condsS s b.T.conds (b.t + 8) = true → L.Acts b.T.acts (b.t + 328) s) :
    L.Runs s b.t (b.exec s) (b.exec s (b.t + 4)).toNat := by
  rintro m hm rfl
  have hbl := hm.prog.blks b hb
  obtain ⟨c1, c2⟩ := Layout.cnds_run hw.cp b.T.conds (b.t + 8) m (fun o ho' => by
    rw [Nat.add_assoc]; exact hw.blk b hb _ (by omega) (by have := hbl.cl; omega)) hc
  have ha' : condsS (L.view m) b.T.conds (b.t + 8) = true → _ := fun h =>
    Layout.acts_run hw.cp b.T.acts (b.t + 328) m hm (fun o ho' => by
      rw [Nat.add_assoc]; exact hw.blk b hb _ (by omega) (by have := hbl.al; omega)) (ha h)
  have hs := hm.prog.step hb ho c1 (fun h => (ha' (c2 ▸ h)).1)
  have hv : L.view (b.exec m) = b.exec (L.view m) := by
    unfold SBlk.exec
    rw [c2]
    split
    · exact (ha' ‹_›).2.2
    · rfl
  refine ⟨b.exec m, ?_, ?_, hv⟩
  · rw [← hv, Layout.view_at hn]
    exact Reaches.step hs.1
  · unfold SBlk.exec
    split
    · exact (ha' (c2 ▸ ‹_›)).2.1
    · exact hm

/-- A result variable as a trigger: destination and value are looked up when it runs; the modifier is `SetTo` and all bits count. -/
def fretBlk (v : Nat) : SBlk := ⟨v, ⟨[], [⟨none, .set, none, some 0xFFFFFFFF⟩]⟩, none, false⟩

/-- eudfuncn.py:118: the actions of `VProc(self._frets, [])` (eudv.py:676-678); the value of the last one
is `self._nptr`, written by the callers. -/
def retActs : List Nat → List SAct
  | [] => []
  | [v] => [⟨some (.mem (v + 4)), .set, none, some 0xFFFFFFFF⟩]
  | v :: w :: vs => sNext v w :: retActs (w :: vs)

/-- eudfuncn.py:114-120: the end of a function with its results.  (More than 64 results would need
more than one trigger.) -/
structure FuncEnd (L : Layout) (fend nptr : Nat) (frets : List Nat) : Prop where
  none : frets = [] → nptr = fend + 4 ∧ (⟨fend, ⟨[], []⟩, none, false⟩ : SBlk) ∈ L.P.blks
  some : ∀ v vs, frets = v :: vs → nptr = fend + 328 + 32 * vs.length + 20 ∧
    (⟨fend, ⟨[], retActs frets⟩, Option.some v, false⟩ : SBlk) ∈ L.P.blks
  cell : L.cell nptr
  blk : ∀ v ∈ frets, fretBlk v ∈ L.P.blks ∧ L.cell (v + 4) ∧ v < 2 ^ 32
  nodup : frets.Nodup

/-- Storing results: `*d = v` for each pair in turn. -/
def storeRets : List (Nat × Nat) → Mem → Mem
  | [], s => s
  | (v, d) :: l, s => storeRets l (s.set d (s (v + 348)))

/-- The destinations are in place and do not interfere with the dwords that steer the return. -/
structure RetsReady (L : Layout) (rs : List (Nat × Nat)) (s : Mem) : Prop where
  dest : ∀ r ∈ rs, s (r.1 + 344) = epd r.2 ∧ EpdOK r.2 ∧ L.cell r.2
  sep : ∀ r ∈ rs, ∀ q ∈ rs, r.2 ≠ q.1 + 4 ∧ r.2 ≠ q.1 + 344
  off : ∀ r ∈ rs, ∀ q ∈ rs, r.1 + 4 ≠ q.1 + 344

theorem storeRets_ne : ∀ {rs : List (Nat × Nat)} {s : Mem} {x : Nat}, (∀ r ∈ rs, x ≠ r.2) → storeRets rs s x = s x
  | [], _, _, _ => rfl
  | (v, d) :: l, s, x, h => by
    simp only [storeRets]
    rw [storeRets_ne (fun r hr => h r (by simp [hr])), set_ne (h (v, d) (by simp))]

/-- The next pointers lead through the result variables to `back`. -/
def RetLinked (s : Mem) (back : Nat) : List (Nat × Nat) → Prop
  | [] => True
  | (v, _) :: l => s (v + 4) = BitVec.ofNat 32 ((l.map Prod.fst).headD back) ∧ RetLinked s back l

theorem RetLinked.congr {s s' : Mem} {back : Nat} : ∀ {l : List (Nat × Nat)}, RetLinked s back l →
    (∀ r ∈ l, s' (r.1 + 4) = s (r.1 + 4)) → RetLinked s' back l
  | [], _, _ => trivial
  | (v, d) :: l, h, hc => ⟨by rw [hc (v, d) (by simp)]; exact h.1, h.2.congr (fun r hr => hc r (by simp [hr]))⟩

theorem fret_exec {s : Mem} {v d : Nat} (h1 : s (v + 344) = epd d) (h2 : EpdOK d) :
    (fretBlk v).exec s = s.set d (s (v + 348)) := by
  have hd : dstOf (s (v + 328 + 16)) 0 = some (.mem d) := by
    rw [Nat.add_assoc, show 328 + 16 = 344 from rfl, h1]; exact dstOf_epd h2
  simp only [fretBlk, SBlk.exec, condsS, if_true, runS, SAct.res, Option.getD_none, Option.getD_some, hd, Act.apply,
    Dst.addr, modify_full, arith, Nat.add_assoc, Nat.reduceAdd]

theorem fret_runs {L : Layout} (hw : L.Wf) {v d : Nat} (hb : fretBlk v ∈ L.P.blks) (hc : L.cell (v + 4)) {s : Mem}
    (h1 : s (v + 344) = epd d) (h2 : EpdOK d) (hd : L.cell d) (hdv : d ≠ v + 4)
    {n : Nat} (hn : n < 2 ^ 32) (h4 : s (v + 4) = BitVec.ofNat 32 n) :
    L.Runs s v (s.set d (s (v + 348))) n := by
  have hdo : dstOf (s (v + 328 + 16)) 0 = some (.mem d) := by
    rw [Nat.add_assoc, show 328 + 16 = 344 from rfl, h1]; exact dstOf_epd h2
  have := Layout.Runs.trigDyn hw hb rfl hc.2 (s := s) trivial (fun _ => by
    refine ⟨fun _ => ?_, ?_, trivial⟩
    · exact congrArg Option.isSome hdo
    · simp only [fretBlk, SAct.res, Option.getD_none, hdo, Option.getD_some, Dst.addr]
      exact hd)
  rw [fret_exec h1 h2] at this
  rw [show (fretBlk v).t = v from rfl, set_ne (Ne.symm hdv), h4, BitVec.toNat_ofNat, Nat.mod_eq_of_lt hn] at this
  exact this

/-- The result variables run one after the other and then control is back at the caller. -/
theorem rets_run {L : Layout} (hw : L.Wf) {back : Nat} (hback : back < 2 ^ 32) : ∀ (rs : List (Nat × Nat)) (s : Mem),
    (∀ r ∈ rs, fretBlk r.1 ∈ L.P.blks ∧ L.cell (r.1 + 4) ∧ r.1 < 2 ^ 32) → RetsReady L rs s → RetLinked s back rs →
    L.Runs s ((rs.map Prod.fst).headD back) (storeRets rs s) back
  | [], s, _, _, _ => Layout.Runs.refl _ _ _
  | (v, d) :: l, s, hb, hR, hl => by
    obtain ⟨b1, b2, b3⟩ := hb (v, d) (by simp)
    obtain ⟨e1, e2, e3⟩ := hR.dest (v, d) (by simp)
    have hn : (l.map Prod.fst).headD back < 2 ^ 32 := by
      cases l with
      | nil => exact hback
      | cons r l => exact (hb r (by simp)).2.2
    have h1 := fret_runs hw b1 b2 e1 e2 e3 (hR.sep (v, d) (by simp) (v, d) (by simp)).1 hn hl.1
    refine h1.trans (rets_run hw hback l _ (fun r hr => hb r (by simp [hr])) ⟨?_, ?_, ?_⟩ ?_)
    · intro r hr
      obtain ⟨q1, q2, q3⟩ := hR.dest r (by simp [hr])
      refine ⟨?_, q2, q3⟩
      rw [set_ne (Ne.symm (hR.sep (v, d) (by simp) r (by simp [hr])).2)]
      exact q1
    · exact fun r hr q hq => hR.sep r (by simp [hr]) q (by simp [hq])
    · exact fun r hr q hq => hR.off r (by simp [hr]) q (by simp [hq])
    · exact hl.2.congr (fun r hr => set_ne (Ne.symm (hR.sep (v, d) (by simp) r (by simp [hr])).1))

theorem retActs_run : ∀ (rs : List (Nat × Nat)) (x : Nat) (s : Mem) (back : Nat), rs ≠ [] →
    (rs.map Prod.fst).Nodup → (∀ r ∈ rs, r.1 + 4 ≠ x + 32 * (rs.length - 1) + 20) →
    s (x + 32 * (rs.length - 1) + 20) = BitVec.ofNat 32 back →
    RetLinked (runS (retActs (rs.map Prod.fst)) x s) back rs ∧
      (∀ y, (∀ r ∈ rs, y ≠ r.1 + 4) → runS (retActs (rs.map Prod.fst)) x s y = s y)
  | [], _, _, _, h, _, _, _ => absurd rfl h
  | [(v, d)], x, s, back, _, _, _, hs => by
    simp only [List.length_singleton, Nat.sub_self, Nat.mul_zero, Nat.add_zero] at hs
    have e : runS (retActs [v]) x s = s.set (v + 4) (BitVec.ofNat 32 back) := by
      simp only [retActs, runS, SAct.res, Option.getD_some, Option.getD_none, Act.apply, Dst.addr, modify_full, hs,
        arith]
    simp only [List.map_cons, List.map_nil, e]
    exact ⟨⟨set_eq _ _ _, trivial⟩, fun y hy => set_ne (hy (v, d) (by simp))⟩
  | (v, d) :: (w, e) :: l, x, s, back, _, hnd, hne, hs => by
    simp only [List.map_cons, List.nodup_cons] at hnd
    have hlen : ((v, d) :: (w, e) :: l).length - 1 = l.length + 1 := by simp
    rw [hlen] at hne hs
    have hlen2 : ((w, e) :: l).length - 1 = l.length := by simp
    have hv : v + 4 ≠ x + 32 * (l.length + 1) + 20 := hne (v, d) (by simp)
    obtain ⟨i1, i2⟩ := retActs_run ((w, e) :: l) (x + 32) (s.set (v + 4) (BitVec.ofNat 32 w)) back (by simp)
      (by simpa using hnd.2)
      (by rw [hlen2]; intro r hr; have := hne r (List.mem_cons_of_mem _ hr); omega)
      (by rw [hlen2, show x + 32 + 32 * l.length + 20 = x + 32 * (l.length + 1) + 20 by omega, set_ne (Ne.symm hv)]; exact hs)
    simp only [List.map_cons, retActs, runS, sNext_apply] at i1 i2 ⊢
    refine ⟨⟨?_, i1⟩, ?_⟩
    · rw [i2, set_eq]
      · simp
      · intro r hr
        have : r.1 ∈ w :: l.map Prod.fst := by
          simp only [List.mem_cons] at hr ⊢
          rcases hr with rfl | hr
          · exact Or.inl rfl
          · exact Or.inr (List.mem_map_of_mem hr)
        intro he
        have : r.1 = v := by omega
        subst this
        exact hnd.1 (by simpa using ‹r.1 ∈ w :: l.map Prod.fst›)
    · intro y hy
      rw [i2 y (fun r hr => hy r (List.mem_cons_of_mem _ hr)), set_ne (hy (v, d) (by simp))]

theorem retActs_acts {L : Layout} : ∀ (vs : List Nat) (x : Nat) (s : Mem), (∀ v ∈ vs, L.cell (v + 4)) →
    L.Acts (retActs vs) x s
  | [], _, _, _ => trivial
  | [v], x, s, h => ⟨(by intro hh; cases hh), h v (by simp), trivial⟩
  | v :: w :: vs, x, s, h => ⟨sMem_ready _ _ _ _ _, h v (by simp),
      retActs_acts (w :: vs) _ _ (fun u hu => h u (List.mem_cons_of_mem _ hu))⟩

/-- The linking actions at the end of a function. -/
def retLink (fend : Nat) (rs : List (Nat × Nat)) (s : Mem) : Mem := runS (retActs (rs.map Prod.fst)) (fend + 328) s

/-- What the machine does at the end of a function: results are stored at the places the caller
asked for, and control goes to the place the caller asked for. -/
theorem FuncEnd.runs {L : Layout} (hw : L.Wf) {fend nptr : Nat} {rs : List (Nat × Nat)}
    (hF : FuncEnd L fend nptr (rs.map Prod.fst)) {s : Mem} (hR : RetsReady L rs s)
    (hnp : ∀ r ∈ rs, r.1 + 4 ≠ nptr) {back : Nat} (hback : back < 2 ^ 32) (hb : s nptr = BitVec.ofNat 32 back) :
    (∀ x, (∀ r ∈ rs, x ≠ r.1 + 4) → retLink fend rs s x = s x) ∧ L.Runs s fend (storeRets rs (retLink fend rs s)) back := by
  cases hrs : rs with
  | nil =>
    subst hrs
    obtain ⟨e, hblk⟩ := hF.none rfl
    refine ⟨fun _ _ => rfl, ?_⟩
    have hc := hF.cell
    rw [e] at hc hb
    have := Layout.Runs.trigDyn hw hblk rfl hc.2 (s := s) trivial (fun _ => trivial)
    rw [show (⟨fend, ⟨[], []⟩, Option.none, false⟩ : SBlk).exec s = s from rfl, hb, BitVec.toNat_ofNat,
      Nat.mod_eq_of_lt hback] at this
    exact this
  | cons r l =>
    rw [← hrs]
    obtain ⟨e, hblk⟩ := hF.some r.1 (l.map Prod.fst) (by rw [hrs]; rfl)
    have hlen : rs.length - 1 = (l.map Prod.fst).length := by rw [hrs]; simp
    have hcell : ∀ v ∈ rs.map Prod.fst, L.cell (v + 4) := fun v hv => (hF.blk v hv).2.1
    obtain ⟨i1, i2⟩ := retActs_run rs (fend + 328) s back (by simp [hrs]) hF.nodup
      (by rw [hlen, ← e]; exact hnp) (by rw [hlen, ← e]; exact hb)
    have h1 := Layout.Runs.trig hw hblk rfl rfl (s := s) trivial (fun _ => retActs_acts _ _ _ hcell)
    simp only [SBlk.exec, condsS, if_true] at h1
    refine ⟨i2, h1.trans ?_⟩
    have := rets_run hw hback rs (runS (retActs (rs.map Prod.fst)) (fend + 328) s)
      (fun q hq => hF.blk q.1 (List.mem_map_of_mem hq)) ⟨?_, hR.sep, hR.off⟩ i1
    · rw [hrs] at this ⊢
      exact this
    · intro q hq
      rw [i2 _ (fun r hr => Ne.symm (hR.off r hr q hq))]
      exact hR.dest q hq

/-! ## Calls -/

/-- eudfuncn.py:171-209 (and 157-166): what a call site assigns before it jumps to the function: the return address, the
destinations of the results, the arguments. -/
def callAsg (nptr back : Nat) (rs : List (Nat × Nat)) (args : List (Nat × Src)) : List Asg :=
  ⟨nptr, .set, .const (BitVec.ofNat 32 back)⟩ :: rs.map (fun r => ⟨r.1 + 344, .set, .const (epd r.2)⟩) ++
    args.map (fun a => ⟨a.1, .set, a.2⟩)

/-- A compiled function: body between `fstart` and `fend` (`EUDReturn` jumps to `fend`), and the end. -/
structure FuncCode (L : Layout) (fstart fend nptr : Nat) (frets : List Nat) (body : Stmt) : Prop where
  body : ∃ b k, Code L fend b k body fstart fend
  fend : FuncEnd L fend nptr frets

/-- A call site: `SeqCompute` of the assignments, then on to the function. -/
structure CallSite (L : Layout) (e back fstart nptr : Nat) (rs : List (Nat × Nat)) (args : List (Nat × Src)) : Prop where
  code : ∃ r b k, Code L r b k (.asg (callAsg nptr back rs args)) e fstart
  back : back < 2 ^ 32

/-- What a call means: run the body with the parameters set; then store the results.  The body must
leave alone the dwords that steer the return. -/
def CallRel (L : Layout) (fend nptr back : Nat) (body : Stmt) (rs : List (Nat × Nat)) (args : List (Nat × Src))
    (s s' : Mem) : Prop :=
  ∃ o s2, Exec L (.asg (callAsg nptr back rs args)) s .nrm (runAsg (callAsg nptr back rs args) s) ∧
    (o = .nrm ∨ o = .ret) ∧ Exec L body (runAsg (callAsg nptr back rs args) s) o s2 ∧
    s2 nptr = BitVec.ofNat 32 back ∧ RetsReady L rs s2 ∧ s' = storeRets rs (retLink fend rs s2)

/-- **C31 (calls).** Whatever was called before from wherever: a call with any arguments and result
places runs the body on the arguments, stores the results and comes back to this call site.  So a
call is a statement, and can be used in other functions' bodies. -/
theorem C31_call {L : Layout} (hw : L.Wf) {fstart fend nptr e back : Nat} {rs : List (Nat × Nat)}
    {args : List (Nat × Src)} {body : Stmt} (hF : FuncCode L fstart fend nptr (rs.map Prod.fst) body)
    (hC : CallSite L e back fstart nptr rs args) (hnp : ∀ r ∈ rs, r.1 + 4 ≠ nptr) (r b k : Nat) :
    Code L r b k (.prim (CallRel L fend nptr back body rs args)) e back := by
  apply Code.prim
  rintro s s' ⟨o, s2, h1, ho, h2, h3, h4, rfl⟩
  obtain ⟨r', b', k', hcode⟩ := hC.code
  obtain ⟨b1, k1, hbody⟩ := hF.body
  have c1 : L.Runs s e _ fstart := C25_structured hw h1 hcode
  have c2 : L.Runs (runAsg (callAsg nptr back rs args) s) fstart s2 fend := by
    have := C25_structured hw h2 hbody
    rcases ho with rfl | rfl <;> exact this
  exact (c1.trans c2).trans (hF.fend.runs hw h4 hnp hC.back h3).2

theorem runAsg_append : ∀ (l k : List Asg) (s : Mem), runAsg (l ++ k) s = runAsg k (runAsg l s)
  | [], _, _ => rfl
  | a :: l, k, s => by simp only [List.cons_append, runAsg, runAsg_append l k]

theorem runAsg_ne : ∀ {l : List Asg} {s : Mem} {x : Nat}, (∀ g ∈ l, x ≠ g.a) → runAsg l s x = s x
  | [], _, _, _ => rfl
  | a :: l, s, x, h => by
    simp only [runAsg]
    rw [runAsg_ne (fun g hg => h g (by simp [hg])), set_ne (h a (by simp))]

theorem args_run : ∀ (args : List (Nat × Src)) (s : Mem), (args.map Prod.fst).Nodup →
    (∀ a ∈ args, ∀ b ∈ args, ∀ v, b.2 = .var v → v + 348 ≠ a.1) →
    ∀ a ∈ args, runAsg (args.map (fun a => ⟨a.1, .set, a.2⟩)) s a.1 = a.2.valM s
  | [], _, _, _, a, ha => by simp at ha
  | b :: l, s, hnd, hs, a, ha => by
    simp only [List.map_cons, List.nodup_cons] at hnd
    simp only [List.map_cons, runAsg, arith]
    simp only [List.mem_cons] at ha
    rcases ha with rfl | ha
    · rw [runAsg_ne, set_eq]
      intro g hg
      obtain ⟨c, hc, rfl⟩ := List.mem_map.1 hg
      exact fun e => hnd.1 (e ▸ List.mem_map_of_mem hc)
    · rw [args_run l _ hnd.2 (fun a ha b hb => hs a (by simp [ha]) b (by simp [hb])) a ha]
      cases h : a.2 with
      | const w => rfl
      | var v => exact set_ne (hs b (by simp) a (by simp [ha]) v h)

/-- **C31 (what the body sees).** The body starts with the parameters equal to the values the arguments
had at the call (unless a parameter is itself an argument of the call, which happens when a function
calls itself), the return address and the destinations set, and the rest as it was. -/
theorem C31_entry {nptr back : Nat} {rs : List (Nat × Nat)} {args : List (Nat × Src)} {s : Mem}
    (hnd : (args.map Prod.fst).Nodup)
    (harg : ∀ a ∈ args, ∀ b ∈ args, ∀ v, b.2 = .var v → v + 348 ≠ a.1)
    (hsrc : ∀ a ∈ args, ∀ v, a.2 = .var v → v + 348 ≠ nptr ∧ ∀ r ∈ rs, v + 348 ≠ r.1 + 344)
    (hnp : ∀ a ∈ args, nptr ≠ a.1 ∧ ∀ r ∈ rs, r.1 + 344 ≠ a.1) (hnr : ∀ r ∈ rs, nptr ≠ r.1 + 344)
    (hrd : (rs.map Prod.fst).Nodup) :
    let s1 := runAsg (callAsg nptr back rs args) s
    (∀ a ∈ args, s1 a.1 = a.2.valM s) ∧ s1 nptr = BitVec.ofNat 32 back ∧ (∀ r ∈ rs, s1 (r.1 + 344) = epd r.2) ∧
      ∀ x, x ≠ nptr → (∀ a ∈ args, x ≠ a.1) → (∀ r ∈ rs, x ≠ r.1 + 344) → s1 x = s x := by
  have hd : ∀ (rs : List (Nat × Nat)) (m : Mem), (rs.map Prod.fst).Nodup → ∀ r ∈ rs,
      runAsg (rs.map (fun r => (⟨r.1 + 344, .set, .const (epd r.2)⟩ : Asg))) m (r.1 + 344) = epd r.2 := by
    intro rs
    induction rs with
    | nil => intro _ _ r hr; simp at hr
    | cons q l ih =>
      intro m hnd r hr
      simp only [List.map_cons, List.nodup_cons] at hnd
      simp only [List.map_cons, runAsg, arith, Src.valM]
      simp only [List.mem_cons] at hr
      rcases hr with rfl | hr
      · rw [runAsg_ne, set_eq]
        intro g hg
        obtain ⟨c, hc, rfl⟩ := List.mem_map.1 hg
        intro e
        have : r.1 = c.1 := by simp only at e; omega
        exact hnd.1 (this ▸ List.mem_map_of_mem hc)
      · exact ih _ hnd.2 r hr
  have ne1 : ∀ (m : Mem) x, (∀ r ∈ rs, x ≠ r.1 + 344) →
      runAsg (rs.map (fun r => (⟨r.1 + 344, .set, .const (epd r.2)⟩ : Asg))) m x = m x := by
    intro m x hx
    apply runAsg_ne
    intro g hg
    obtain ⟨c, hc, rfl⟩ := List.mem_map.1 hg
    exact hx c hc
  have ne2 : ∀ (m : Mem) x, (∀ a ∈ args, x ≠ a.1) →
      runAsg (args.map (fun a => (⟨a.1, .set, a.2⟩ : Asg))) m x = m x := by
    intro m x hx
    apply runAsg_ne
    intro g hg
    obtain ⟨c, hc, rfl⟩ := List.mem_map.1 hg
    exact hx c hc
  intro s1
  simp only [s1, callAsg, runAsg_append, runAsg, arith, Src.valM, List.cons_append]
  refine ⟨?_, ?_, ?_, ?_⟩
  · intro a ha
    rw [args_run args _ hnd harg a ha]
    cases h : a.2 with
    | const w => rfl
    | var v =>
      obtain ⟨e1, e2⟩ := hsrc a ha v h
      simp only [Src.valM]
      rw [ne1 _ _ e2, set_ne e1]
  · rw [ne2 _ _ (fun a ha => (hnp a ha).1), ne1 _ _ hnr, set_eq]
  · intro r hr
    rw [ne2 _ _ (fun a ha => (hnp a ha).2 r hr), hd rs _ hrd r hr]
  · intro x h1 h2 h3
    rw [ne2 _ _ h2, ne1 _ _ h3, set_ne h1]

/-- **C31 (what the caller sees).** After the call each result place holds the value the body left in
the corresponding result variable; nothing else differs from what the body left, except the next
pointers of the result variables. -/
theorem C31_exit {fend : Nat} {rs : List (Nat × Nat)} {s : Mem}
    (hlink : ∀ x, (∀ r ∈ rs, x ≠ r.1 + 4) → retLink fend rs s x = s x)
    (hd : (rs.map Prod.snd).Nodup) (hv : ∀ r ∈ rs, ∀ q ∈ rs, r.2 ≠ q.1 + 348)
    (h4 : ∀ r ∈ rs, ∀ q ∈ rs, q.1 + 348 ≠ r.1 + 4) :
    (∀ r ∈ rs, storeRets rs (retLink fend rs s) r.2 = s (r.1 + 348)) ∧
      ∀ x, (∀ r ∈ rs, x ≠ r.2 ∧ x ≠ r.1 + 4) → storeRets rs (retLink fend rs s) x = s x := by
  constructor
  · intro r hr
    rw [← hlink (r.1 + 348) (fun q hq => h4 q hq r hr)]
    clear hlink h4
    generalize retLink fend rs s = m
    induction rs generalizing m with
    | nil => simp at hr
    | cons q l ih =>
      simp only [List.map_cons, List.nodup_cons] at hd
      obtain ⟨v, d⟩ := q
      simp only [storeRets]
      simp only [List.mem_cons] at hr
      rcases hr with rfl | hr
      · rw [storeRets_ne, set_eq]
        intro c hc e
        exact hd.1 (e ▸ List.mem_map_of_mem hc)
      · rw [ih hd.2 (fun a ha b hb => hv a (by simp [ha]) b (by simp [hb])) hr]
        exact set_ne (Ne.symm (hv (v, d) (by simp) r (by simp [hr])))
  · intro x hx
    rw [storeRets_ne (fun r hr => (hx r hr).1), hlink x (fun r hr => (hx r hr).2)]

end Eud.SC
