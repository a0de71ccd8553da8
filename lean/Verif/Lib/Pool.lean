import Verif.Lib.EpdVar
/-
Object pools: collections/objpool.py, and fields of objects: core/eudstruct/eudstruct.py.
-/

namespace Eud.SC

/-- A pool (objpool.py:39-46): `size` objects, `stride = 72 * max_fieldn` bytes each, from `base` on; the offsets of free objects are in the EUDArray at `data`, the variable `rem` has their
number.  `k1`, `v` are variables of `_alloc`, which ends at `fend` with the result in `fret`; `rend`, `cpc` and `rnx` belong to the call of the reader. -/
structure Pool where
  base : Nat
  stride : Nat
  size : Nat
  data : Nat
  rem : Nat
  k1 : Nat
  v : Nat
  fret : Nat
  fstart : Nat
  fend : Nat
  nptr : Nat
  rend : Nat
  cpc : Nat
  rnx : Nat

namespace Pool

/-- objpool.py:51-60 `_alloc`.  `self.data[self.remaining]` is `f_dwread_epd(self._epd + key)` (eudarray.py:168-170), whose result is a temporary that `baseobj` is added to. -/
def body (L : Layout) (P : Pool) : Stmt :=
  .seq (.ite .skip [cMem (P.rem + 348) .exactly 0] (.seq (.asg [⟨P.fret + 348, .set, .const 0⟩]) .ret) .skip)
    (.seq (.asg [⟨P.rem + 348, .add, .const (-1)⟩])
      (.seq (.asg (sumAsg P.k1 (.const (epd P.data)) (.var P.rem)))
        (.seq (.prim (EpdRel L P.rend P.cpc P.rnx (P.v + 348) 0xFFFFFFFF 0 (.var P.k1) none))
          (.seq (.asg [⟨P.v + 348, .add, .const (BitVec.ofNat 32 P.base)⟩])
            (.seq (.asg [⟨P.fret + 348, .set, .var P.v⟩]) .ret)))))

/-- A call of `_alloc` with the result at `d` (objpool.py:69). -/
def alloc (L : Layout) (P : Pool) (back d : Nat) : Stmt := .prim (CallRel L P.fend P.nptr back (P.body L) [(P.fret, d)] [])

/-- eudv.py:299-338 `x - baseobj` into the variable `t` -/
def diffAsg (P : Pool) (t x : Nat) : List Asg :=
  [⟨t + 348, .set, .const 0xFFFFFFFF⟩, ⟨t + 348, .sub, .const (BitVec.ofNat 32 P.base)⟩, ⟨t + 348, .add, .const 1⟩, ⟨t + 348, .add, .var x⟩]

/-- objpool.py:83-84: the end of `free`, for the object in the variable `x`. `t1` is for the difference; `p` and `t` belong to `iset`. -/
def free (L : Layout) (P : Pool) (p t t1 x : Nat) : Stmt :=
  .seq (.asg (P.diffAsg t1 x)) (.seq (iset L p t false .set (.const (epd P.data)) (.var P.rem) (.var t1)) (.asg [⟨P.rem + 348, .add, .const 1⟩]))

/-- What `_alloc` may change, besides the result. -/
def scr (P : Pool) : List Nat := [P.rem + 348, P.k1 + 348, P.v + 348, P.fret + 348] ++ rdScr P.rend P.cpc

def callScr (P : Pool) : List Nat := P.nptr :: (P.fret + 4) :: (P.fret + 344) :: P.scr

/-- The dwords that hold the state of the pool. -/
def keep (P : Pool) : List Nat := (P.rem + 348) :: (P.cpc + 352) :: (P.rend + 348) :: (List.range P.size).map (fun i => P.data + 4 * i)

structure Ok (L : Layout) (P : Pool) : Prop where
  fc : FuncCode L P.fstart P.fend P.nptr [P.fret] (P.body L)
  rd : RdOk L P.rend P.cpc (P.v + 348) (.var P.k1)
  vr : P.rem ∈ L.P.vars
  vk : P.k1 ∈ L.P.vars
  vv : P.v ∈ L.P.vars
  cell : ∀ y ∈ [P.rem + 348, P.k1 + 348, P.v + 348, P.fret + 348], L.cell y
  nd : ((P.cpc + 352) :: P.callScr).Nodup
  al : P.data % 4 = 0
  lt : P.data + 4 * P.size < 2 ^ 32
  plain : ∀ i < P.size, PlainEpd (epd P.data + BitVec.ofNat 32 i)
  dc : ∀ i < P.size, L.cell (P.data + 4 * i) ∧ P.data + 4 * i ∉ (P.cpc + 352) :: P.callScr

/-- The pool has the free objects `fr` (offsets, the next one first). -/
structure Is (P : Pool) (s : Mem) (fr : List W) : Prop where
  len : s (P.rem + 348) = BitVec.ofNat 32 fr.length
  le : fr.length ≤ P.size
  el : ∀ i w, fr.reverse[i]? = some w → s (P.data + 4 * i) = w
  md : s (P.cpc + 352) = pmod .set
  z : s (P.rend + 348) = 0

theorem Is.congr {P : Pool} {s s' : Mem} {fr : List W} (h : P.Is s fr) (hs : ∀ x ∈ P.keep, s' x = s x) : P.Is s' fr := by
  refine ⟨(hs _ (by simp [keep])).trans h.len, h.le, fun i w hw => (hs _ ?_).trans (h.el i w hw), (hs _ (by simp [keep])).trans h.md, (hs _ (by simp [keep])).trans h.z⟩
  have hi : i < fr.length := by
    have := (List.getElem?_eq_some_iff.1 hw).1
    rwa [List.length_reverse] at this
  have := h.le
  simp only [keep, List.mem_cons, List.mem_map, List.mem_range]
  exact Or.inr (Or.inr (Or.inr ⟨i, by omega, rfl⟩))

theorem daddr {P : Pool} {L : Layout} (hP : P.Ok L) {i : Nat} (h : i < P.size) : epdAddr (epd P.data + BitVec.ofNat 32 i) = P.data + 4 * i :=
  epdAddr_add hP.al (by have := hP.lt; omega)

/-- The result of `_alloc`. -/
def res (P : Pool) : List W → W
  | [] => 0
  | x :: _ => x + BitVec.ofNat 32 P.base

theorem body_wp {L : Layout} {P : Pool} (hP : P.Ok L) {s : Mem} {fr : List W} (hI : P.Is s fr) :
    Wp L (P.body L) s fun o s' => (o = .nrm ∨ o = .ret) ∧ (s' (P.fret + 348) = P.res fr ∧ P.Is s' fr.tail) ∧ Only P.scr s s' := by
  have nd := hP.nd
  simp only [callScr, scr, List.cons_append, List.nil_append, List.nodup_cons, List.mem_cons, not_or] at nd
  obtain ⟨n0, -, n1, n2, n3, n4, n5, n6, n7, -⟩ := nd
  have c1 := hP.cell (P.rem + 348) (by simp)
  have c2 := hP.cell (P.k1 + 348) (by simp)
  have c3 := hP.cell (P.v + 348) (by simp)
  have c4 := hP.cell (P.fret + 348) (by simp)
  have zmem : P.rend + 348 ∈ rdScr P.rend P.cpc := by simp [rdScr]
  have zn : ∀ {x}, x ∉ rdScr P.rend P.cpc → P.rend + 348 ≠ x := fun h e => h (e ▸ zmem)
  obtain ⟨-, -, -, cr, ck, cv, cf, cz⟩ := n0
  obtain ⟨rk, rv, rf, rz⟩ := n3
  obtain ⟨kv, kf, kz⟩ := n4
  obtain ⟨vf, vz⟩ := n5
  have hlt := hP.lt
  have hle := hI.le
  have hdc : ∀ i < P.size, P.data + 4 * i ≠ P.fret + 348 ∧ P.data + 4 * i ≠ P.rem + 348 ∧ P.data + 4 * i ≠ P.k1 + 348 ∧ P.data + 4 * i ≠ P.v + 348 ∧ P.data + 4 * i ∉ rdScr P.rend P.cpc := by
    intro i hi
    have := (hP.dc i hi).2
    simp only [callScr, scr, List.cons_append, List.nil_append, List.mem_cons, not_or] at this
    obtain ⟨-, -, -, -, h1, h2, h3, h4, h5⟩ := this
    exact ⟨h4, h1, h2, h3, h5⟩
  refine Wp.seq (Wp.ite0 (by simp; exact cMem_ok c1 _ _ _) ?_ ?_)
  · intro h
    simp only [holdsAll_cons, holdsAll_nil, cMem_holds, compare, Bool.and_true, decide_eq_true_eq, hI.len] at h
    have h0 : fr = [] := by
      have := congrArg BitVec.toNat h
      rw [BitVec.toNat_ofNat, Nat.mod_eq_of_lt (by omega)] at this
      exact List.length_eq_zero_iff.1 this
    subst h0
    refine Wp.seqN (Does.asg (by simpa using c4) (by simp) (Wp.ret ?_))
    rw [if_neg (by simp)]
    simp only [runAsg, Src.valM, arith]
    refine ⟨by simp, ⟨set_eq _ _ _, hI.congr fun x hx => set_ne ?_⟩, (Only.refl _ _).set (by simp [scr]) _⟩
    rintro rfl
    simp only [keep, List.mem_cons, List.mem_map, List.mem_range] at hx
    rcases hx with h | h | h | ⟨i, hi, h⟩
    · exact rf h.symm
    · exact cf h.symm
    · exact zn n6 h.symm
    · exact (hdc i hi).1 h
  · intro h
    simp only [holdsAll_cons, holdsAll_nil, cMem_holds, compare, Bool.and_true, decide_eq_false_iff_not, hI.len] at h
    cases fr with
    | nil => simp at h
    | cons w r =>
    simp only [List.length_cons] at hle
    refine ⟨.nrm, s, .skip s, ?_⟩
    dsimp only
    rw [if_pos rfl]
    refine Wp.seqN (Does.asg (by simpa using c1) (by simp) ?_)
    simp only [runAsg, Src.valM, arith]
    have e1 : s (P.rem + 348) + -1 = BitVec.ofNat 32 r.length := by
      rw [hI.len, List.length_cons, BitVec.ofNat_add, BitVec.add_assoc]
      exact BitVec.add_zero _
    rw [e1]
    refine Wp.seqN (Does.asg ?_ ?_ ?_)
    · intro g hg; rw [(sumAsg_mem hg).1]; exact c2
    · intro g hg u hu
      rcases (sumAsg_mem hg).2 with h | h
      · rw [h] at hu; cases hu
      · rw [h] at hu; cases hu; exact hP.vr
    rw [sum_val (by rintro u (h | h); · cases h
                    · cases h; intro e; exact rk (by rw [e]))]
    simp only [Src.valM, set_eq]
    have er : Src.valM ((s.set (P.rem + 348) (BitVec.ofNat 32 r.length)).set (P.k1 + 348) (epd P.data + BitVec.ofNat 32 r.length)) (.var P.k1) = epd P.data + BitVec.ofNat 32 r.length := set_eq _ _ _
    have ea := daddr hP (show r.length < P.size by omega)
    have hd := hdc r.length (by omega)
    refine Wp.seqN ((C32_epd hP.rd ?_ ?_ ?_).mono ?_)
    · rw [set_ne ck, set_ne cr]; exact hI.md
    · rw [er, ea]; exact (hP.dc _ (by omega)).1.2
    · rw [er, ea]; exact hd.2.2.2.2
    rintro s1 ⟨h1, -, h3, h4⟩
    rw [er, ea, C32_dword, Option.getD_none, set_ne (zn kz), set_ne (zn rz), set_ne hd.2.2.1, set_ne hd.2.1, hI.z, hI.el r.length w (by simp), show ∀ w : W, (0 : W) + w = w from fun w => BitVec.zero_add w] at h1
    have hk : ∀ x, x ≠ P.v + 348 → x ∉ rdScr P.rend P.cpc → x ≠ P.k1 + 348 → x ≠ P.rem + 348 → s1 x = s x := by
      intro x x1 x2 x3 x4
      rw [h4 x (by simp [x1, x2]), set_ne x3, set_ne x4]
    refine Wp.seqN (Does.asg (by simpa using c3) (by simp) ?_)
    simp only [runAsg, Src.valM, arith, h1]
    refine Wp.seqN (Does.asg (by simpa using c4) (by simpa using hP.vv) (Wp.ret ?_))
    simp only [runAsg, Src.valM, arith, set_eq]
    refine ⟨by simp, ⟨rfl, ?_⟩, ?_⟩
    · refine ⟨?_, by simp only [List.tail_cons]; omega, fun i w' hw' => ?_, ?_, ?_⟩
      · rw [set_ne rf, set_ne rv, h4 _ (by simp only [List.mem_cons, not_or]; exact ⟨rv, rz⟩), set_ne rk, set_eq]; rfl
      · simp only [List.tail_cons] at hw'
        have hi := (List.getElem?_eq_some_iff.1 hw').1
        rw [List.length_reverse] at hi
        have hd := hdc i (by omega)
        rw [set_ne hd.1, set_ne hd.2.2.2.1, hk _ hd.2.2.2.1 hd.2.2.2.2 hd.2.2.1 hd.2.1]
        exact hI.el i w' (by rw [List.reverse_cons, List.getElem?_append_left (by rw [List.length_reverse]; exact hi)]; exact hw')
      · rw [set_ne cf, set_ne cv, hk _ cv cz ck cr]; exact hI.md
      · rw [set_ne (zn n6), set_ne (zn vz)]; exact h3
    · intro x hx
      simp only [scr, List.cons_append, List.nil_append, List.mem_cons, not_or] at hx
      rw [set_ne hx.2.2.2.1, set_ne hx.2.2.1, hk x hx.2.2.1 hx.2.2.2.2 hx.2.1 hx.1]

/-- `alloc`: the object that was freed last, or 0 if there is no free one. -/
theorem alloc_does {L : Layout} (hw : L.Wf) {P : Pool} (hP : P.Ok L) {back d : Nat} (hk : CallOk L P.nptr [(P.fret, d)] [] P.scr) (hb : back < 2 ^ 32) (hdk : d ∉ P.keep)
    {s : Mem} {fr : List W} (hI : P.Is s fr) :
    Does L (P.alloc L back d) s fun s' => s' d = P.res fr ∧ P.Is s' fr.tail ∧ Only (d :: P.callScr) s s' := by
  have nd := hP.nd
  simp only [callScr, List.nodup_cons, List.mem_cons, not_or] at nd
  obtain ⟨n0, n1, n2, n3, n4⟩ := nd
  have sc : ∀ x ∈ P.keep, x = P.cpc + 352 ∨ x ∈ P.scr ∨ ∃ i < P.size, x = P.data + 4 * i := by
    intro x hx
    simp only [keep, List.mem_cons, List.mem_map, List.mem_range] at hx
    rcases hx with h | h | h | ⟨i, hi, h⟩
    · exact Or.inr (Or.inl (by simp [scr, h]))
    · exact Or.inl h
    · exact Or.inr (Or.inl (by simp [scr, h, rdScr]))
    · exact Or.inr (Or.inr ⟨i, hi, h.symm⟩)
  have kn : ∀ x ∈ P.keep, x ≠ P.nptr ∧ x ≠ P.fret + 4 ∧ x ≠ P.fret + 344 := by
    intro x hx
    rcases sc x hx with h | h | ⟨i, hi, h⟩
    · grind
    · grind
    · have := (hP.dc i hi).2
      simp only [callScr, List.mem_cons, not_or] at this
      grind
  refine (C31_does hw hk hP.fc hb (s := s) (Q := fun s2 => s2 (P.fret + 348) = P.res fr ∧ P.Is s2 fr.tail) ?_).mono ?_
  · intro s1 _ h1
    refine body_wp hP (hI.congr fun x hx => h1 x ?_)
    have := kn x hx
    simp [this]
  · rintro s' ⟨⟨s2, ⟨q1, q2⟩, h2, h3⟩, h4⟩
    refine ⟨(h2 _ (List.mem_singleton.2 rfl)).trans q1, q2.congr fun x hx => h3 x ?_, h4.mono ?_⟩
    · have := kn x hx
      have hxd : x ≠ d := fun h => hdk (h ▸ hx)
      simp [this, hxd]
    · intro x hx
      simp only [callOnly, List.map_cons, List.map_nil, List.append_nil, List.mem_cons, List.mem_append, List.not_mem_nil, or_false] at hx
      simp only [callScr, List.mem_cons]
      grind

/-- Static facts about a call of `free`. -/
structure FreeOk (L : Layout) (P : Pool) (p t t1 x : Nat) : Prop where
  io : ISetOk L p t (.const (epd P.data)) (.var P.rem) (.var t1)
  t1c : L.cell (t1 + 348)
  xv : x ∈ L.P.vars
  nx : x ≠ t1
  nk : ∀ y ∈ [t1 + 348, t + 348, p, p + 16, p + 20], y ∉ P.keep

/-- `free`: the object is the next one to be allocated. -/
theorem free_does {L : Layout} {P : Pool} (hP : P.Ok L) {p t t1 x : Nat} (hF : FreeOk L P p t t1 x) {s : Mem} {fr : List W} (hI : P.Is s fr) (hroom : fr.length < P.size) :
    Does L (P.free L p t t1 x) s fun s' => P.Is s' ((s (x + 348) - BitVec.ofNat 32 P.base) :: fr) ∧ Only ((P.data + 4 * fr.length) :: (P.rem + 348) :: [t1 + 348, t + 348, p, p + 16, p + 20]) s s' := by
  have hlt := hP.lt
  have kk : ∀ i < P.size, P.data + 4 * i ∈ P.keep := fun i hi => by simp only [keep, List.mem_cons, List.mem_map, List.mem_range]; exact Or.inr (Or.inr (Or.inr ⟨i, hi, rfl⟩))
  have k1 : P.rem + 348 ∈ P.keep := by simp [keep]
  have k2 : P.cpc + 352 ∈ P.keep := by simp [keep]
  have k3 : P.rend + 348 ∈ P.keep := by simp [keep]
  have nk : ∀ y ∈ P.keep, y ≠ t1 + 348 ∧ y ≠ t + 348 ∧ y ≠ p ∧ y ≠ p + 16 ∧ y ≠ p + 20 := by
    intro y hy
    have := hF.nk
    refine ⟨?_, ?_, ?_, ?_, ?_⟩ <;> (rintro rfl; exact this _ (by simp) hy)
  have dif : runAsg (P.diffAsg t1 x) s = s.set (t1 + 348) (s (x + 348) - BitVec.ofNat 32 P.base) := by
    have hne : x + 348 ≠ t1 + 348 := by have := hF.nx; omega
    have e1 : ∀ b c : W, (if (0xFFFFFFFF : W) < b then 0 else (0xFFFFFFFF : W) - b) + 1 + c = c - b := by
      intro b c
      have hb := b.isLt
      rw [if_neg (by rw [BitVec.lt_def, show BitVec.toNat (0xFFFFFFFF : W) = 4294967295 from rfl]; omega), BitVec.sub_eq_add_neg, BitVec.sub_eq_add_neg]
      have : (0xFFFFFFFF : W) + -b + 1 + c = (0xFFFFFFFF + 1) + (c + -b) := by ac_rfl
      rw [this]
      exact BitVec.zero_add _
    funext y
    simp only [diffAsg, runAsg, Src.valM, set_eq, set_ne hne, arith, get_set]
    split
    · exact e1 _ _
    · rfl
  refine Does.seq (Does.asg ?_ ?_ ?_)
  · intro g hg
    simp only [diffAsg, List.mem_cons, List.not_mem_nil, or_false] at hg
    rcases hg with rfl | rfl | rfl | rfl <;> exact hF.t1c
  · intro g hg v hv
    simp only [diffAsg, List.mem_cons, List.not_mem_nil, or_false] at hg
    rcases hg with rfl | rfl | rfl | rfl <;> cases hv
    exact hF.xv
  rw [dif]
  have el : Src.valM (s.set (t1 + 348) (s (x + 348) - BitVec.ofNat 32 P.base)) (.const (epd P.data)) + Src.valM (s.set (t1 + 348) (s (x + 348) - BitVec.ofNat 32 P.base)) (.var P.rem) =
      epd P.data + BitVec.ofNat 32 fr.length := by
    simp only [Src.valM]
    rw [set_ne (nk _ k1).1, hI.len]
  have ea : epdAddr (epd P.data + BitVec.ofNat 32 fr.length) = P.data + 4 * fr.length := daddr hP hroom
  refine Does.seq ((iset_does hF.io (by rw [el]; exact hP.plain _ hroom) (by rw [el, ea]; exact (hP.dc _ hroom).1) (by
    rw [el, ea]
    have := nk _ (kk _ hroom)
    simp [this])).mono ?_)
  rintro s1 ⟨h1, h2⟩
  rw [el, ea] at h1 h2
  simp only [arith, Src.valM, set_eq] at h1
  have hdc : ∀ i < P.size, P.data + 4 * i ≠ P.rem + 348 ∧ P.data + 4 * i ≠ P.cpc + 352 ∧ P.data + 4 * i ≠ P.rend + 348 := by
    intro i hi
    have := (hP.dc i hi).2
    simp only [callScr, scr, rdScr, List.cons_append, List.nil_append, List.mem_cons, not_or] at this
    grind
  have fr1 : ∀ y ∈ P.keep, y ≠ P.data + 4 * fr.length → s1 y = s y := by
    intro y hy hn
    have := nk y hy
    rw [h2 y (by simp [this, hn]), set_ne this.1]
  have ndd := hP.nd
  simp only [callScr, scr, rdScr, List.cons_append, List.nil_append, List.nodup_cons, List.mem_cons, not_or] at ndd
  refine Does.asg (by simpa using hP.cell _ (by simp)) (by simp) ?_
  simp only [runAsg, Src.valM, arith]
  rw [fr1 _ k1 (fun h => (hdc _ hroom).1 h.symm), hI.len]
  refine ⟨⟨?_, by simp only [List.length_cons]; omega, fun i w hw => ?_, ?_, ?_⟩, fun y hy => ?_⟩
  · rw [set_eq, List.length_cons, BitVec.ofNat_add]
    rfl
  · have hi := (List.getElem?_eq_some_iff.1 hw).1
    rw [List.length_reverse, List.length_cons] at hi
    rw [set_ne (hdc i (by omega)).1]
    rw [List.reverse_cons] at hw
    by_cases hh : i < fr.length
    · rw [List.getElem?_append_left (by rw [List.length_reverse]; exact hh)] at hw
      rw [fr1 _ (kk i (by omega)) (by omega)]
      exact hI.el i w hw
    · obtain rfl : i = fr.length := by omega
      rw [List.getElem?_append_right (by rw [List.length_reverse]; omega), List.length_reverse, Nat.sub_self] at hw
      simp only [List.getElem?_cons_zero, Option.some.injEq] at hw
      rw [← hw]
      exact h1
  · rw [set_ne (by grind), fr1 _ k2 (fun h => (hdc _ hroom).2.1 h.symm)]; exact hI.md
  · rw [set_ne (by grind), fr1 _ k3 (fun h => (hdc _ hroom).2.2 h.symm)]; exact hI.z
  · simp only [List.mem_cons, List.not_mem_nil, or_false, not_or] at hy
    rw [set_ne hy.2.1, h2 y (by simp [hy]), set_ne hy.2.2.1]

/-- objpool.py:44-46: object `k` -/
def obj (P : Pool) (k : Nat) : W := BitVec.ofNat 32 (P.base + P.stride * k)

def objs (P : Pool) : List W := (List.range P.size).map P.obj

end Pool

/-! ## Histories -/

/-- What a program sees: the live objects, the fields of objects, and its own dwords. -/
structure Heap where
  live : List W
  fields : W → Nat → W
  env : Mem

/-- Operations: `alloc`, `free`, reading and writing a field of the object `a` (`e` is the EPD of it), assignments, and other computations. -/
inductive POp
  | alloc (back d : Nat)
  | free (p t t1 x : Nat)
  | get (a idx : Src) (nx d : Nat)
  | put (e x idx : Src) (nx : Nat)
  | user (gs : List Asg)
  | comp (st : Stmt) (out : Nat) (val : Mem → W) (scr : List Nat)

/-- eudstruct.py:120-137 `getfield`, `setfield` are those of EUDVArray. -/
def POp.stmt (L : Layout) (P : Pool) (A : VArrs) : POp → Stmt
  | .alloc back d => P.alloc L back d
  | .free p t t1 x => P.free L p t t1 x
  | .get a idx nx d => VOp.stmt L A (.get 0 a idx nx d)
  | .put e x idx nx => VOp.stmt L A (.put 0 e x idx nx)
  | .user gs => .asg gs
  | .comp st _ _ _ => st

/-- What a user relies on.  Whatever object the pool chooses among those that are not live (0 only if all are), the rest of the program must be right; only live objects may be freed, read and
written; `Q` is wanted in the end. -/
def POp.safe (objs : List W) (nf : Nat) : List POp → Heap → (Heap → Prop) → Prop
  | [], H, Q => Q H
  | .alloc _ d :: ops, H, Q =>
    ((∀ o ∈ objs, o ∈ H.live) → POp.safe objs nf ops { H with env := H.env.set d 0 } Q) ∧
      ∀ o ∈ objs, o ∉ H.live → POp.safe objs nf ops { H with live := o :: H.live, env := H.env.set d o } Q
  | .free _ _ _ x :: ops, H, Q => H.env (x + 348) ∈ H.live ∧ POp.safe objs nf ops { H with live := H.live.erase (H.env (x + 348)) } Q
  | .get a idx _ d :: ops, H, Q => a.valM H.env ∈ H.live ∧ (idx.valM H.env).toNat < nf ∧
      POp.safe objs nf ops { H with env := H.env.set d (H.fields (a.valM H.env) (idx.valM H.env).toNat) } Q
  | .put e x idx _ :: ops, H, Q => (idx.valM H.env).toNat < nf ∧ ∃ o ∈ H.live, e.valM H.env = epd o.toNat ∧
      POp.safe objs nf ops { H with fields := fun o' i => if o' = o ∧ i = (idx.valM H.env).toNat then x.valM H.env else H.fields o' i } Q
  | .user gs :: ops, H, Q => POp.safe objs nf ops { H with env := runAsg gs H.env } Q
  | .comp _ out val _ :: ops, H, Q => POp.safe objs nf ops { H with env := H.env.set out (val H.env) } Q

/-- The dwords `l` are not those of the program, of the fields, or of the triggers for fields. -/
def Apart (A : VArrs) (l : List Nat) : Prop := ∀ y ∈ l, y ∉ A.U ∧ y ∉ A.V.scr ∧ ∀ k i, A.In k i → y ∉ VSh.dws (A.at k i)

/-- The pool and its objects. -/
structure PoolOk (L : Layout) (P : Pool) (A : VArrs) (nf : Nat) : Prop where
  pool : P.Ok L
  arr : A.Ok L
  n : A.n = P.size
  base : ∀ k < P.size, A.base k = P.base + P.stride * k
  len : ∀ k, A.len k = nf
  pos : 0 < P.stride ∧ 0 < P.base
  end' : P.base + P.stride * P.size ≤ 2 ^ 32
  ap : Apart A P.callScr
  ak : Apart A P.keep

def POp.Ok (L : Layout) (P : Pool) (A : VArrs) : POp → Prop
  | .alloc back d => CallOk L P.nptr [(P.fret, d)] [] P.scr ∧ back < 2 ^ 32 ∧ d ∈ A.U
  | .free p t t1 x => Pool.FreeOk L P p t t1 x ∧ x + 348 ∈ A.U ∧ Apart A [t1 + 348, t + 348, p, p + 16, p + 20]
  | .get a idx _ d => SrcIn A.U a ∧ SrcIn A.U idx ∧ d ∈ A.U
  | .put e x idx _ => SrcIn A.U e ∧ SrcIn A.U x ∧ SrcIn A.U idx
  | .user gs => AsgIn L A.U gs
  | .comp st out val scr => Comp L st out val scr ∧ out ∈ A.U ∧ Apart A scr ∧ (∀ y ∈ scr, y ∉ P.keep) ∧ ∀ s e : Mem, (∀ u ∈ A.U, s u = e u) → val s = val e

/-- The memory is as the program sees it. -/
structure PoolIs (P : Pool) (A : VArrs) (s : Mem) (H : Heap) : Prop where
  fr : ∃ fr, P.Is s fr ∧ (fr.map (· + BitVec.ofNat 32 P.base) ++ H.live).Perm P.objs
  v : VArrIs A s (fun k i => H.fields (P.obj k) i, H.env)

theorem VArrIs.frame {A : VArrs} {s s' : Mem} {f f' : Nat → Nat → W} {e e' : Mem} (hI : VArrIs A s (f, e)) (h : ∀ k i, A.In k i → ∀ y ∈ VSh.dws (A.at k i), s' y = s y) (hz : s' (A.V.gi + 348) = s (A.V.gi + 348))
    (hf : ∀ k i, A.In k i → f k i = f' k i) (hu : ∀ x ∈ A.U, s' x = e' x) : VArrIs A s' (f', e') :=
  ⟨fun k i hk => (h k i hk _ (by simp [VSh.dws])).trans ((hI.val k i hk).trans (hf k i hk)), fun k i hk =>
    ⟨(h k i hk _ (by simp [VSh.dws])).trans (hI.el k i hk).nxt, (h k i hk _ (by simp [VSh.dws])).trans (hI.el k i hk).dst, (h k i hk _ (by simp [VSh.dws])).trans (hI.el k i hk).md⟩, hz.trans hI.z, hu⟩

theorem Apart.frame {A : VArrs} {L : Layout} (hA : A.Ok L) {l : List Nat} (ha : Apart A l) {s s' : Mem} {d : Nat} (hd : d ∈ A.U) (h : Only (d :: l) s s') {f : Nat → Nat → W} {e : Mem} (hI : VArrIs A s (f, e)) {w : W}
    (hw : s' d = w) : VArrIs A s' (f, e.set d w) := by
  have zz : A.V.gi + 348 ∈ A.V.scr := by simp [VSh.scr]
  refine hI.frame (fun k i hk y hy => h y ?_) (h _ ?_) (fun _ _ _ => rfl) (fun x hx => ?_)
  · simp only [List.mem_cons, not_or]
    exact ⟨fun e => (hA.esc k i hk y hy).2 (e ▸ hd), fun hl => (ha y hl).2.2 k i hk hy⟩
  · simp only [List.mem_cons, not_or]
    exact ⟨fun e => hA.usc _ hd (e ▸ zz), fun hl => (ha _ hl).2.1 zz⟩
  · rw [get_set]
    split
    · rename_i hh; rw [hh]; exact hw
    · rename_i hh
      rw [h x (by simp only [List.mem_cons, not_or]; exact ⟨hh, fun hl => (ha x hl).1 hx⟩)]
      exact hI.u x hx

theorem Apart.frame0 {A : VArrs} {l : List Nat} (ha : Apart A l) {s s' : Mem} (h : Only l s s') {f : Nat → Nat → W} {e : Mem} (hI : VArrIs A s (f, e)) : VArrIs A s' (f, e) := by
  have zz : A.V.gi + 348 ∈ A.V.scr := by simp [VSh.scr]
  exact hI.frame (fun k i hk y hy => h y fun hl => (ha y hl).2.2 k i hk hy) (h _ fun hl => (ha _ hl).2.1 zz) (fun _ _ _ => rfl) (fun x hx => (h x fun hl => (ha x hl).1 hx).trans (hI.u x hx))

/-- The arrays, with more dwords watched. -/
def VArrs.ext (A : VArrs) (l : List Nat) : VArrs := { A with U := A.U ++ l }

theorem VArrs.ext_ok {A : VArrs} {L : Layout} (hA : A.Ok L) {l : List Nat} (ha : Apart A l) : (A.ext l).Ok L where
  sh := hA.sh
  len := hA.len
  lt := hA.lt
  ep := hA.ep
  el := hA.el
  inj := hA.inj
  esc := fun k i hk y hy => ⟨(hA.esc k i hk y hy).1, fun h => by
    rcases List.mem_append.1 h with h | h
    · exact (hA.esc k i hk y hy).2 h
    · exact (ha y h).2.2 k i hk hy⟩
  usc := fun y hy => by
    rcases List.mem_append.1 hy with h | h
    · exact hA.usc y h
    · exact (ha y h).2.1

/-- Operations on fields, with everything else that stays. -/
theorem fieldStep {L : Layout} {A : VArrs} (hA : A.Ok L) {l : List Nat} (ha : Apart A l) {op : VOp} (hop : op.Ok L A) {s : Mem} {f f' : Nat → Nat → W} {e e' : Mem} (hI : VArrIs A s (f, e))
    (hs : op.spec A (f, e) = some (f', e')) : Does L (op.stmt L A) s fun s' => VArrIs A s' (f', e') ∧ ∀ x ∈ l, s' x = s x := by
  have hi : VArrIs (A.ext l) s (f, s) := ⟨hI.val, hI.el, hI.z, fun _ _ => rfl⟩
  have mono : ∀ {x : Src}, SrcIn A.U x → SrcIn (A.ext l).U x := fun h v hv => List.mem_append_left _ (h v hv)
  have ex : ∀ {x : Src}, SrcIn A.U x → x.valM s = x.valM e := fun h => valM_in hI.u h
  have out : ∀ {s' : Mem} {d : Nat} {w : W} {g : Nat → Nat → W}, d ∈ A.U → VArrIs (A.ext l) s' (g, s.set d w) → VArrIs A s' (g, e.set d w) ∧ ∀ x ∈ l, s' x = s x := by
    intro s' d w g hd h
    refine ⟨⟨h.val, h.el, h.z, fun x hx => ?_⟩, fun x hx => ?_⟩
    · have h1 : s' x = s.set d w x := h.u x (List.mem_append_left _ hx)
      have h2 : s x = e x := hI.u x hx
      show s' x = e.set d w x
      rw [h1, get_set, get_set, h2]
    · have h1 : s' x = s.set d w x := h.u x (List.mem_append_right _ hx)
      have h2 : x ≠ d := fun hh => (ha x hx).1 (by rw [hh]; exact hd)
      rw [h1, get_set, if_neg h2]
  cases op with
  | get k a idx nx d =>
    obtain ⟨o1, o2, o3⟩ := hop
    simp only [VOp.spec] at hs
    split at hs
    · rename_i hh
      simp only [Option.some.injEq, Prod.mk.injEq] at hs
      obtain ⟨rfl, rfl⟩ := hs
      refine (vStep (A := A.ext l) (VArrs.ext_ok hA ha) (op := .get k a idx nx d) ⟨mono o1, mono o2, List.mem_append_left _ o3⟩ hi (a' := (f, s.set d (f k (idx.valM e).toNat))) ?_).mono fun s' h => out o3 h
      simp only [VOp.spec]
      rw [ex o2, ex o1]
      exact if_pos hh
    · cases hs
  | put k b x idx nx =>
    obtain ⟨o1, o2, o3⟩ := hop
    simp only [VOp.spec] at hs
    split at hs
    · rename_i hh
      simp only [Option.some.injEq, Prod.mk.injEq] at hs
      obtain ⟨rfl, rfl⟩ := hs
      refine (vStep (A := A.ext l) (VArrs.ext_ok hA ha) (op := .put k b x idx nx) ⟨mono o1, mono o2, mono o3⟩ hi
        (a' := (fun k' i' => if k' = k ∧ i' = (idx.valM e).toNat then x.valM e else f k' i', s)) ?_).mono fun s' h => ?_
      · simp only [VOp.spec]
        rw [ex o3, ex o1, ex o2]
        exact if_pos hh
      · exact ⟨⟨h.val, h.el, h.z, fun x hx => (h.u x (List.mem_append_left _ hx)).trans (hI.u x hx)⟩, fun x hx => h.u x (List.mem_append_right _ hx)⟩
    · cases hs
  | user gs =>
    simp only [VOp.spec, Option.some.injEq, Prod.mk.injEq] at hs
    obtain ⟨rfl, rfl⟩ := hs
    have hg : AsgIn L (A.ext l).U gs := ⟨fun g h => ⟨(hop.1 g h).1, List.mem_append_left _ (hop.1 g h).2.1, mono (hop.1 g h).2.2⟩, hop.2⟩
    refine (vStep (A := A.ext l) (VArrs.ext_ok hA ha) (op := .user gs) hg hi (a' := (f, runAsg gs s)) rfl).mono fun s' h => ?_
    obtain ⟨g1, g2⟩ := runAsg_in gs hI.u fun g h => (hop.1 g h).2
    exact ⟨⟨h.val, h.el, h.z, fun x hx => (h.u x (List.mem_append_left _ hx)).trans (g1 x hx)⟩, fun x hx => (h.u x (List.mem_append_right _ hx)).trans (g2 x fun hu => (ha x hx).1 hu)⟩

theorem PoolOk.inj {L : Layout} {P : Pool} {A : VArrs} {nf : Nat} (hO : PoolOk L P A nf) {k k' : Nat} (h : k < P.size) (h' : k' < P.size) (e : P.obj k = P.obj k') : k = k' := by
  have h1 := hO.end'
  have h2 : P.stride * k + P.stride ≤ P.stride * P.size := by rw [← Nat.mul_succ]; exact Nat.mul_le_mul_left _ h
  have h3 : P.stride * k' + P.stride ≤ P.stride * P.size := by rw [← Nat.mul_succ]; exact Nat.mul_le_mul_left _ h'
  have h4 := hO.pos.1
  have := congrArg BitVec.toNat e
  simp only [Pool.obj, BitVec.toNat_ofNat] at this
  rw [Nat.mod_eq_of_lt (by omega), Nat.mod_eq_of_lt (by omega)] at this
  exact Nat.eq_of_mul_eq_mul_left h4 (by omega)

theorem PoolOk.toNat {L : Layout} {P : Pool} {A : VArrs} {nf : Nat} (hO : PoolOk L P A nf) {k : Nat} (h : k < P.size) : (P.obj k).toNat = P.base + P.stride * k := by
  have h1 := hO.end'
  have h2 : P.stride * k + P.stride ≤ P.stride * P.size := by rw [← Nat.mul_succ]; exact Nat.mul_le_mul_left _ h
  have h4 := hO.pos.1
  rw [Pool.obj, BitVec.toNat_ofNat]
  exact Nat.mod_eq_of_lt (by omega)

theorem PoolOk.nodup {L : Layout} {P : Pool} {A : VArrs} {nf : Nat} (hO : PoolOk L P A nf) : P.objs.Nodup := by
  refine List.pairwise_map.2 (List.Pairwise.imp_of_mem ?_ List.nodup_range)
  intro a b ha hb hne e
  exact hne (hO.inj (List.mem_range.1 ha) (List.mem_range.1 hb) e)

/-- One operation. -/
theorem poolStep {L : Layout} (hw : L.Wf) {P : Pool} {A : VArrs} {nf : Nat} (hO : PoolOk L P A nf) {op : POp} {ops : List POp} (hop : op.Ok L P A) {s : Mem} {H : Heap} (hI : PoolIs P A s H) {Q : Heap → Prop}
    (hs : POp.safe P.objs nf (op :: ops) H Q) : Does L (op.stmt L P A) s fun s' => ∃ H', PoolIs P A s' H' ∧ POp.safe P.objs nf ops H' Q := by
  obtain ⟨⟨fr, hp, hperm⟩, hv⟩ := hI
  have hnd : (fr.map (· + BitVec.ofNat 32 P.base) ++ H.live).Nodup := hperm.nodup_iff.2 hO.nodup
  have liveObj : ∀ o ∈ H.live, ∃ k < P.size, P.obj k = o := by
    intro o ho
    have := hperm.mem_iff.1 (List.mem_append_right _ ho)
    obtain ⟨k, hk, e⟩ := List.mem_map.1 this
    exact ⟨k, List.mem_range.1 hk, e⟩
  have ku : ∀ {d}, d ∈ A.U → d ∉ P.keep := fun hd hk => (hO.ak _ hk).1 hd
  cases op with
  | alloc back d =>
    obtain ⟨o1, o2, o3⟩ := hop
    simp only [POp.safe] at hs
    refine (Pool.alloc_does hw hO.pool o1 o2 (ku o3) hp).mono ?_
    rintro s' ⟨h1, h2, h3⟩
    cases fr with
    | nil =>
      refine ⟨{ H with env := H.env.set d 0 }, ⟨⟨[], h2, hperm⟩, hO.ap.frame hO.arr o3 h3 hv h1⟩, hs.1 fun o ho => ?_⟩
      have := hperm.mem_iff.2 ho
      simpa using this
    | cons x r =>
      simp only [List.map_cons, List.cons_append, List.nodup_cons, List.mem_append, not_or] at hnd
      refine ⟨{ H with live := (x + BitVec.ofNat 32 P.base) :: H.live, env := H.env.set d (x + BitVec.ofNat 32 P.base) }, ⟨⟨r, h2, ?_⟩, hO.ap.frame hO.arr o3 h3 hv h1⟩, hs.2 (x + BitVec.ofNat 32 P.base) (hperm.mem_iff.1 (by simp)) hnd.1.2⟩
      exact List.perm_middle.trans hperm
  | free p t t1 x =>
    obtain ⟨o1, o2, o3⟩ := hop
    simp only [POp.safe] at hs
    have ex : s (x + 348) = H.env (x + 348) := hv.u _ o2
    have hlen := hperm.length_eq
    simp only [List.length_append, List.length_map, Pool.objs, List.length_range] at hlen
    have hpos := List.length_pos_of_mem hs.1
    refine (Pool.free_does hO.pool o1 hp (by omega)).mono ?_
    rintro s' ⟨h1, h2⟩
    refine ⟨{ H with live := H.live.erase (H.env (x + 348)) }, ⟨⟨_, h1, ?_⟩, Apart.frame0 (l := (P.data + 4 * fr.length) :: (P.rem + 348) :: [t1 + 348, t + 348, p, p + 16, p + 20]) ?_ h2 hv⟩, hs.2⟩
    · simp only [List.map_cons, List.cons_append, ex, BitVec.sub_add_cancel]
      exact (List.perm_middle.symm.trans (List.Perm.append_left _ (List.perm_cons_erase hs.1).symm)).trans hperm
    · intro y hy
      simp only [List.mem_cons] at hy
      rcases hy with rfl | rfl | hy
      · refine hO.ak _ ?_
        simp only [Pool.keep, List.mem_cons, List.mem_map, List.mem_range]
        exact Or.inr (Or.inr (Or.inr ⟨fr.length, by omega, rfl⟩))
      · exact hO.ak _ (by simp [Pool.keep])
      · exact o3 y (by simpa using hy)
  | get a idx nx d =>
    simp only [POp.safe] at hs
    obtain ⟨h1, h2, h3⟩ := hs
    obtain ⟨k, hk, e⟩ := liveObj _ h1
    have es : VOp.stmt L A (.get 0 a idx nx d) = VOp.stmt L A (.get k a idx nx d) := by simp only [VOp.stmt, hO.len]
    simp only [POp.stmt]
    rw [es]
    refine (fieldStep hO.arr hO.ak (op := .get k a idx nx d) hop hv (f' := fun k i => H.fields (P.obj k) i) (e' := H.env.set d (H.fields (a.valM H.env) (idx.valM H.env).toNat)) ?_).mono ?_
    · simp only [VOp.spec]
      rw [if_pos ⟨⟨by rw [hO.n]; exact hk, by rw [hO.len]; exact h2⟩, by rw [← e, hO.base k hk]; rfl⟩, e]
    · rintro s' ⟨g1, g2⟩
      exact ⟨{ H with env := H.env.set d (H.fields (a.valM H.env) (idx.valM H.env).toNat) }, ⟨⟨fr, hp.congr g2, hperm⟩, g1⟩, h3⟩
  | put b x idx nx =>
    simp only [POp.safe] at hs
    obtain ⟨h1, o, ho, h2, h3⟩ := hs
    obtain ⟨k, hk, e⟩ := liveObj _ ho
    have es : VOp.stmt L A (.put 0 b x idx nx) = VOp.stmt L A (.put k b x idx nx) := by cases b <;> cases x <;> cases idx <;> simp only [VOp.stmt, hO.len]
    simp only [POp.stmt]
    rw [es]
    refine (fieldStep hO.arr hO.ak (op := .put k b x idx nx) hop hv (f' := fun k' i' => if k' = k ∧ i' = (idx.valM H.env).toNat then x.valM H.env else H.fields (P.obj k') i') (e' := H.env) ?_).mono ?_
    · simp only [VOp.spec]
      rw [if_pos ⟨⟨by rw [hO.n]; exact hk, by rw [hO.len]; exact h1⟩, by rw [h2, ← e, hO.toNat hk, hO.base k hk]⟩]
    · rintro s' ⟨g1, g2⟩
      refine ⟨{ H with fields := fun o' i => if o' = o ∧ i = (idx.valM H.env).toNat then x.valM H.env else H.fields o' i }, ⟨⟨fr, hp.congr g2, hperm⟩, g1.frame (fun _ _ _ _ _ => rfl) rfl (fun k' i' hin => ?_) g1.u⟩, h3⟩
      have hk' : k' < P.size := by rw [← hO.n]; exact hin.1
      have : (k' = k) = (P.obj k' = o) := by
        apply propext
        constructor
        · rintro rfl; exact e
        · intro h; exact hO.inj hk' hk (h.trans e.symm)
      simp only [this]
  | user gs =>
    simp only [POp.safe] at hs
    refine (fieldStep hO.arr hO.ak (op := .user gs) hop hv rfl).mono ?_
    rintro s' ⟨g1, g2⟩
    exact ⟨{ H with env := runAsg gs H.env }, ⟨⟨fr, hp.congr g2, hperm⟩, g1⟩, hs⟩
  | comp st out val scr =>
    simp only [POp.safe] at hs
    obtain ⟨o1, o2, o3, o4, o5⟩ := hop
    refine (o1 s).mono ?_
    rintro s' ⟨h1, h2⟩
    refine ⟨{ H with env := H.env.set out (val H.env) }, ⟨⟨fr, hp.congr fun x hx => h2 x ?_, hperm⟩, o3.frame hO.arr o2 h2 hv (h1.trans (o5 _ _ hv.u))⟩, hs⟩
    simp only [List.mem_cons, not_or]
    exact ⟨fun h => ku o2 (h ▸ hx), fun hl => o4 x hl hx⟩

/-- **C41.** Any history of `alloc` and `free` of a pool of any size, with reads and writes of fields and other computations in between.  A program that is right for every choice of the pool among the
objects that are not live (with 0 only when all objects are live) does run like that: no object is handed out while it is live, a freed object becomes available, and fields of live objects are
changed by nothing but writes to them. -/
theorem C41_pool {L : Layout} (hw : L.Wf) {P : Pool} {A : VArrs} {nf : Nat} (hO : PoolOk L P A nf) :
    ∀ (ops : List POp) (s : Mem) (H : Heap) (Q : Heap → Prop), (∀ op ∈ ops, op.Ok L P A) → PoolIs P A s H → POp.safe P.objs nf ops H Q →
      Does L (.seqs (ops.map (POp.stmt L P A))) s fun s' => ∃ H', PoolIs P A s' H' ∧ Q H'
  | [], s, H, Q, _, hI, h => Does.skip ⟨H, hI, h⟩
  | op :: ops, s, H, Q, hop, hI, h =>
    Does.seq ((poolStep hw hO (hop op (by simp)) hI h).mono fun s' ⟨H', h1, h2⟩ => C41_pool hw hO ops s' H' Q (fun op ho => hop op (by simp [ho])) h1 h2)

/-- objpool.py:44-46: the pool as it is in the beginning. -/
theorem Pool.init {L : Layout} {P : Pool} {A : VArrs} {nf : Nat} (hO : PoolOk L P A nf) {s : Mem} {f : W → Nat → W} {e : Mem} (hr : s (P.rem + 348) = BitVec.ofNat 32 P.size)
    (hd : ∀ i < P.size, s (P.data + 4 * i) = BitVec.ofNat 32 (P.stride * i)) (hm : s (P.cpc + 352) = pmod .set) (hz : s (P.rend + 348) = 0) (hv : VArrIs A s (fun k i => f (P.obj k) i, e)) :
    PoolIs P A s ⟨[], f, e⟩ := by
  refine ⟨⟨((List.range P.size).map fun i => BitVec.ofNat 32 (P.stride * i)).reverse, ⟨?_, ?_, fun i w hw => ?_, hm, hz⟩, ?_⟩, hv⟩
  · rw [hr]; simp
  · simp
  · rw [List.reverse_reverse, List.getElem?_map] at hw
    obtain ⟨j, hj, e⟩ := Option.map_eq_some_iff.1 hw
    obtain ⟨h1, h2⟩ := List.getElem?_eq_some_iff.1 hj
    rw [List.getElem_range] at h2
    rw [List.length_range] at h1
    subst h2
    rw [hd _ h1, e]
  · rw [List.append_nil, Pool.objs]
    refine (List.Perm.map _ (List.reverse_perm _)).trans (List.Perm.of_eq ?_)
    rw [List.map_map]
    refine List.map_congr_left fun i _ => ?_
    simp only [Function.comp, Pool.obj]
    rw [BitVec.ofNat_add, BitVec.add_comm]

end Eud.SC
