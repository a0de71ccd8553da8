import Verif.Lib.ByteStream
import Verif.Lib.CurPl
import Verif.Lib.RepMov
import Verif.Lib.StrLen
/-
C37: `CPByteWriter` (memio/cpbyterw.py): bytes collected in a buffer, and written to the dword of the current player four at a time.
-/

namespace Eud.SC

/-- cpbyterw.py:10-20: the objects of a writer, and the code of its methods. -/
structure CpW where
  /-- `_suboffset`, a light variable -/
  sub : Nat
  /-- `_b[0]`, a variable -/
  b : Nat
  /-- `_b[1]`, `_b[2]`, `_b[3]`, light variables -/
  b1 : Nat
  b2 : Nat
  b3 : Nat
  /-- the parameter of `writebyte` -/
  v : Nat
  /-- the next pointers at the ends of the methods -/
  wnp : Nat
  fnp : Nat
  /-- the ends and the starts of the methods -/
  wfe : Nat
  ffe : Nat
  wfs : Nat
  ffs : Nat
  /-- where `VProc(byte, ...)` goes on in the cases 0, 1, 2 and in case 3 -/
  n : Nat → Nat
  /-- where the call of `flushdword` in case 3 goes on -/
  nb : Nat
  /-- where `VProc(_b[0], ...)` goes on -/
  nf : Nat
  /-- the cache of the current player -/
  cpc : Nat
  cnd : Nat

namespace CpW
variable {L : Layout} {C : CpW}

/-- The dword of `_b[i]`. -/
def bd (C : CpW) : Nat → Nat
  | 0 => C.b + 348
  | 1 => C.b1
  | 2 => C.b2
  | _ => C.b3

/-- cpbyterw.py:59-64: the trigger for bit `k` of the dword. -/
def bit (C : CpW) (k : Nat) : Stmt := .trig [cMemX (C.bd (k / 8)) .atLeast 1 (pow2 (k % 8))] [aCp .add (BitVec.ofNat 32 (2 ^ k)) 0xFFFFFFFF]

/-- cpbyterw.py:65-72: on to the next dword, with an empty buffer. -/
def fin (C : CpW) : Stmt :=
  .trig [] (setCpActs C.cpc C.cnd .add 1 ++ [aMem C.sub .set 0, aMem (C.b + 348) .set 13, aMem C.b1 .set 13, aMem C.b2 .set 13, aMem C.b3 .set 13])

/-- cpbyterw.py:49-72 `flushdword()` -/
def flBody (L : Layout) (C : CpW) : Stmt :=
  .seq (.trig [] [aCp .set 0 0xFFFFFFFF])
    (.seq (.ite .skip [cMem C.sub .exactly 0] .ret .skip)
      (.seq (vproc L C.b 0xFFFFFFFF C.nf [aMem (C.b + 344) .set 13])
        (.seq (.seqs ((List.range' 8 24).map C.bit)) C.fin)))

/-- cpbyterw.py:36-47: the cases of `writebyte`.  Case 3 does not end with `EUDBreak()`; it is the last one, so it goes on at the same place. -/
def wrCase (L : Layout) (C : CpW) (i : Nat) : Stmt :=
  if i = 3 then .seq (vproc L C.v 0xFFFFFFFF (C.n 3) [aMem (C.v + 344) .set (epd (C.bd 3))]) (.seq (.prim (CallRel L C.ffe C.fnp C.nb (C.flBody L) [] [])) .brk)
  else .seq (vproc L C.v 0xFFFFFFFF (C.n i) [aMem (C.v + 344) .set (epd (C.bd i)), aMem C.sub .add 1]) .brk

/-- cpbyterw.py:22-47 `writebyte(byte)` -/
def wrBody (L : Layout) (C : CpW) : Stmt := .prim (SwRel L (fun s => s C.sub) (cases0 4 (C.wrCase L)))

/-- The dwords of the writer, with those of the current player. -/
def own (C : CpW) : List Nat :=
  [C.sub, C.b + 4, C.b + 344, C.b + 348, C.b + 352, C.b1, C.b2, C.b3, C.v + 4, C.v + 344, C.v + 348, C.v + 352, C.wnp, C.fnp, C.cpc + 348, C.cnd + 8, cpAddr]

/-- The writer is in place. -/
structure Ok (L : Layout) (C : CpW) : Prop where
  wf : L.Wf
  pb : PVar L C.b
  pv : PVar L C.v
  cel : ∀ x ∈ C.own, L.cell x
  nd : C.own.Nodup
  eb : ∀ i < 4, EpdOK (C.bd i)
  lt : C.nb < 2 ^ 32
  fw : FuncCode L C.wfs C.wfe C.wnp [] (C.wrBody L)
  ff : FuncCode L C.ffs C.ffe C.fnp [] (C.flBody L)

/-! ## The specification -/

/-- What a user of the writer sees: the bytes that wait in the buffer, the current player, and the memory. -/
structure St where
  buf : List W
  cp : W
  m : Mem

/-- Byte `i` of the buffer; the rest is filled with carriage returns. -/
def pad (l : List W) (i : Nat) : W := l.getD i 13

/-- The dword that goes to memory: the first value as it is, the low bytes of the others above it. -/
def dwOf (l : List W) : W :=
  pad l 0 + BitVec.ofNat 32 ((pad l 1).toNat % 256 * 2 ^ 8 + (pad l 2).toNat % 256 * 2 ^ 16 + (pad l 3).toNat % 256 * 2 ^ 24)

/-- The buffer goes to the dword of the current player. -/
def St.out (σ : St) (l : List W) : St := ⟨[], σ.cp + 1, σ.m.set (epdAddr σ.cp) (dwOf l)⟩

/-- `writebyte(w)` -/
def St.write (σ : St) (w : W) : St := if σ.buf.length = 3 then σ.out (σ.buf ++ [w]) else { σ with buf := σ.buf ++ [w] }

/-- `flushdword()`.  With an empty buffer it puts zero into the dword of the current player. -/
def St.flush (σ : St) : St := if σ.buf = [] then { σ with m := σ.m.set (epdAddr σ.cp) 0 } else σ.out σ.buf

/-- The memory of a program, and what its user sees, apart from the counter. -/
structure RepB (C : CpW) (σ : St) (s : Mem) : Prop where
  buf : ∀ i < 4, s (C.bd i) = pad σ.buf i
  cp : s cpAddr = σ.cp ∧ s (C.cpc + 348) = σ.cp ∧ s (C.cnd + 8) = σ.cp
  mds : s (C.b + 352) = pmod .set ∧ s (C.v + 352) = pmod .set
  vis : ∀ x, x ∉ C.own → s x = σ.m x

/-- The memory of a program, and what its user sees. -/
structure Rep (C : CpW) (σ : St) (s : Mem) : Prop extends RepB C σ s where
  len : σ.buf.length < 4
  sub : s C.sub = BitVec.ofNat 32 σ.buf.length

/-! ## The pieces -/

theorem ite_mulN (c : Prop) [Decidable c] (a b m : Nat) : (if c then a else b) * m = if c then a * m else b * m := by split <;> rfl

/-- `VProc(v, v.SetDest(CP))`: the value goes to the dword of the current player. -/
theorem vproc_cp {v n : Nat} (hv : PVar L v) {s : Mem} (h1 : s (v + 352) = pmod .set) (hc : L.cell (epdAddr (s cpAddr))) (hd : epdAddr (s cpAddr) ∉ [v + 4, v + 344, v + 348]) (hp : cpAddr ∉ [v + 4, v + 344]) :
    Does L (vproc L v 0xFFFFFFFF n [aMem (v + 344) .set 13]) s fun s' =>
      s' = ((s.set (v + 344) 13).set (v + 4) (BitVec.ofNat 32 n)).set (epdAddr (s cpAddr)) (s (v + 348)) := by
  simp only [List.mem_cons, List.not_mem_nil, or_false, not_or] at hd hp
  refine Does.seq (Does.acts (actsOk_mem hv.dst (actsOk_mem hv.nxt trivial)) ?_)
  simp only [List.cons_append, List.nil_append, runPA_cons, runPA_nil, aMem_run, arith]
  have e : ((s.set (v + 344) 13).set (v + 4) (BitVec.ofNat 32 n)) cpAddr = s cpAddr := by rw [set_ne (by grind), set_ne (by grind)]
  refine Does.prim (s' := ((s.set (v + 344) 13).set (v + 4) (BitVec.ofNat 32 n)).set (epdAddr (s cpAddr)) (s (v + 348))) ⟨.set, .cp 0, ?_, ?_, ?_, ?_, ?_, ?_⟩ rfl
  · rw [set_ne (by omega), set_ne (by omega), h1]
  · rw [set_ne (by omega), set_eq]; exact dstOf_thirteen
  · rw [cpAt0, e]; exact hc
  · rw [cpAt0, e]; exact hd.1
  · rw [set_eq]
  · rw [cpAt0, e, show BitVec.ofNat 32 0xFFFFFFFF = (0xFFFFFFFF : W) from rfl, modify_full]
    congr 1
    rw [arith, set_ne (by omega), set_ne (by omega)]

/-- The bits of `_b[1]`, `_b[2]`, `_b[3]`. -/
def bitsOf (g : Nat → W) (l : List Nat) : Nat := (l.map fun k => if (g (k / 8)).getLsbD (k % 8) then 2 ^ k else 0).sum

theorem bitsOf_all (g : Nat → W) : bitsOf g (List.range' 8 24) = (g 1).toNat % 256 * 2 ^ 8 + (g 2).toNat % 256 * 2 ^ 16 + (g 3).toNat % 256 * 2 ^ 24 := by
  have h : ∀ i, (g i).toNat % 256 = bitsum (g i) (List.range 8) := fun i => (bitsum_range (g i) 8 (by omega)).symm
  rw [h, h, h]
  unfold bitsOf bitsum
  simp only [show List.range' 8 24 = [8, 9, 10, 11, 12, 13, 14, 15, 16, 17, 18, 19, 20, 21, 22, 23, 24, 25, 26, 27, 28, 29, 30, 31] from rfl, show List.range 8 = [0, 1, 2, 3, 4, 5, 6, 7] from rfl,
    List.map_cons, List.map_nil, List.sum_cons, List.sum_nil, Nat.add_mul, ite_mulN, Nat.zero_mul, Nat.add_zero, Nat.add_assoc, Nat.reduceMod, Nat.reduceDiv, Nat.reducePow, Nat.reduceMul]

theorem bits_cp {s : Mem} (hc : L.cell (epdAddr (s cpAddr))) (hb : ∀ i, L.cell (C.bd i)) (hn : ∀ i, epdAddr (s cpAddr) ≠ C.bd i) (hp : epdAddr (s cpAddr) ≠ cpAddr) (l : List Nat) (hl : ∀ k ∈ l, k < 32) :
    Does L (.seqs (l.map C.bit)) s fun s' => s' = s.set (epdAddr (s cpAddr)) (s (epdAddr (s cpAddr)) + BitVec.ofNat 32 (bitsOf (fun i => s (C.bd i)) l)) := by
  refine (Does.chain (L := L) C.bit (fun k s' => s' (epdAddr (s cpAddr)) + BitVec.ofNat 32 (bitsOf (fun i => s (C.bd i)) k) = s (epdAddr (s cpAddr)) + BitVec.ofNat 32 (bitsOf (fun i => s (C.bd i)) l) ∧
    Only [epdAddr (s cpAddr)] s s') l s ⟨rfl, Only.refl _ _⟩ ?_).mono ?_
  · rintro k l' s1 hk ⟨e1, e2⟩
    have ev : ∀ i, s1 (C.bd i) = s (C.bd i) := fun i => e2 _ (by simp only [List.mem_singleton]; exact Ne.symm (hn i))
    have ec : s1 cpAddr = s cpAddr := e2 _ (by simp only [List.mem_singleton]; exact Ne.symm hp)
    have hcons : bitsOf (fun i => s (C.bd i)) (k :: l') = (if (s (C.bd (k / 8))).getLsbD (k % 8) then 2 ^ k else 0) + bitsOf (fun i => s (C.bd i)) l' := by
      simp only [bitsOf, List.map_cons, List.sum_cons]
    rw [hcons] at e1
    refine Does.trig (by simp only [List.mem_singleton, forall_eq]; exact cMemX_ok (hb _) _ _ _ _) ?_ ?_ <;>
      simp only [holdsAll_cons, holdsAll_nil, Bool.and_true, cMemX_holds, runPA_cons, runPA_nil, aCp_run, ev, ec, pow2_bit _ (show k % 8 < 32 by omega)] <;> intro hb <;>
      simp only [hb, if_true, Bool.false_eq_true, if_false] at e1
    · refine ⟨actsOk_cp (by rw [ec]; exact hc) trivial, ?_, e2.set (by simp) _⟩
      rw [set_eq, modify_full, arith, BitVec.add_assoc, ← BitVec.ofNat_add]
      exact e1
    · exact ⟨by rw [Nat.zero_add] at e1; exact e1, e2⟩
  · rintro s' ⟨e1, e2⟩
    funext x
    rw [get_set]
    split
    · rename_i h
      rw [h]
      simpa [bitsOf] using e1
    · rename_i h
      exact e2 x (by simpa using h)

/-! ## `flushdword` -/

theorem bd_own (i : Nat) : C.bd i ∈ C.own := by
  unfold bd own
  split <;> simp

/-- The dwords that `flushdword` may change, besides the one of the current player. -/
def flScr (C : CpW) : List Nat := [C.sub, C.b + 4, C.b + 344, C.b + 348, C.b1, C.b2, C.b3, C.cpc + 348, C.cnd + 8, cpAddr]

/-- Changes elsewhere. -/
theorem RepB.congr {σ : St} {s s' : Mem} (h : RepB C σ s) (hs : ∀ x, x ∉ C.own → s' x = s x)
    (ho : ∀ x ∈ [C.b + 348, C.b + 352, C.b1, C.b2, C.b3, C.v + 352, C.cpc + 348, C.cnd + 8, cpAddr], s' x = s x) : RepB C σ s' := by
  have hb : ∀ i, s' (C.bd i) = s (C.bd i) := fun i => ho _ (by unfold bd; split <;> simp)
  refine ⟨fun i hi => ?_, ⟨?_, ?_, ?_⟩, ⟨?_, ?_⟩, fun x hx => ?_⟩
  · rw [hb, h.buf i hi]
  · rw [ho _ (by simp), h.cp.1]
  · rw [ho _ (by simp), h.cp.2.1]
  · rw [ho _ (by simp), h.cp.2.2]
  · rw [ho _ (by simp), h.mds.1]
  · rw [ho _ (by simp), h.mds.2]
  · rw [hs x hx, h.vis x hx]

theorem Rep.congr {σ : St} {s s' : Mem} (h : Rep C σ s) (hs : ∀ x, x ∉ C.own → s' x = s x)
    (ho : ∀ x ∈ [C.sub, C.b + 348, C.b + 352, C.b1, C.b2, C.b3, C.v + 352, C.cpc + 348, C.cnd + 8, cpAddr], s' x = s x) : Rep C σ s' :=
  ⟨h.toRepB.congr hs fun x hx => ho x (List.mem_cons_of_mem _ hx), h.len, by rw [ho _ (by simp), h.sub]⟩

theorem fin_does (hC : C.Ok L) {s : Mem} {A : Nat} {w cp : W} {m : Mem} (hA : A ∉ C.own) (h1 : s cpAddr = cp ∧ s (C.cpc + 348) = cp ∧ s (C.cnd + 8) = cp) (h2 : s (C.b + 352) = pmod .set ∧ s (C.v + 352) = pmod .set)
    (h3 : s A = w) (h4 : ∀ x, x ∉ C.own → x ≠ A → s x = m x) : Does L C.fin s fun s' => Rep C ⟨[], cp + 1, m.set A w⟩ s' ∧ Only C.flScr s s' := by
  have nd : [C.sub, C.b + 348, C.b + 352, C.b1, C.b2, C.b3, C.v + 352, C.cpc + 348, C.cnd + 8, cpAddr].Nodup := hC.nd.sublist (by unfold own; sublist_tac)
  have c := hC.cel
  refine Does.acts (actsOk_mem (c _ (by simp [own])) (actsOk_mem (c _ (by simp [own])) (actsOk_mem (c _ (by simp [own])) (actsOk_mem (c _ (by simp [own])) (actsOk_mem (c _ (by simp [own]))
    (actsOk_mem (c _ (by simp [own])) (actsOk_mem (c _ (by simp [own])) (actsOk_mem (c _ (by simp [own])) trivial)))))))) ?_
  simp only [setCpActs, List.cons_append, List.nil_append, runPA_cons, runPA_nil, aMem_run, arith]
  simp only [List.nodup_cons, List.mem_cons, not_or, List.not_mem_nil, not_false_eq_true, List.nodup_nil, and_true, or_false] at nd
  refine ⟨⟨⟨fun i hi => ?_, ⟨?_, ?_, ?_⟩, ⟨?_, ?_⟩, fun x hx => ?_⟩, by simp, ?_⟩, ?_⟩
  · have : pad [] i = 13 := by simp [pad]
    show _ = pad [] i
    rw [this]
    have hi4 : i = 0 ∨ i = 1 ∨ i = 2 ∨ i = 3 := by omega
    rcases hi4 with rfl | rfl | rfl | rfl <;> simp only [bd, get_set] <;> grind
  · simp only [get_set]; grind
  · simp only [get_set]; grind
  · simp only [get_set]; grind
  · simp only [get_set]; grind
  · simp only [get_set]; grind
  · have hx' := hx
    simp only [own, List.mem_cons, not_or, List.not_mem_nil, not_false_eq_true, and_true] at hx'
    simp only [get_set]
    by_cases e : x = A
    · rw [if_pos e]; grind
    · rw [if_neg e, ← h4 x hx e]; grind
  · simp only [get_set]; grind
  · exact ((((((((Only.refl _ s).set (by simp [flScr]) _).set (by simp [flScr]) _).set (by simp [flScr]) _).set (by simp [flScr]) _).set (by simp [flScr]) _).set (by simp [flScr]) _).set (by simp [flScr]) _).set (by simp [flScr]) _

/-- **The body of `flushdword`.** -/
theorem flBody_does (hC : C.Ok L) {σ : St} {s : Mem} (h : RepB C σ s) {k : Nat} (hs : s C.sub = BitVec.ofNat 32 k) (hl : k < 4) (hk : k = 0 ↔ σ.buf = []) (hc : L.cell (epdAddr σ.cp)) (hn : epdAddr σ.cp ∉ C.own) :
    Wp L (C.flBody L) s fun o s' => (o = .nrm ∨ o = .ret) ∧ Rep C σ.flush s' ∧ Only (epdAddr σ.cp :: C.flScr) s s' := by
  have nd : [C.sub, C.b + 4, C.b + 344, C.b + 348, C.b + 352, C.b1, C.b2, C.b3, C.v + 352, C.cpc + 348, C.cnd + 8, cpAddr].Nodup := hC.nd.sublist (by unfold own; sublist_tac)
  have c := hC.cel
  have hn' := hn
  simp only [List.nodup_cons, List.mem_cons, not_or, List.not_mem_nil, not_false_eq_true, List.nodup_nil, and_true, or_false] at nd
  simp only [own, List.mem_cons, not_or, List.not_mem_nil, not_false_eq_true, and_true] at hn
  have nb : ∀ i, epdAddr σ.cp ≠ C.bd i := fun i e => hn' (e ▸ bd_own i)
  refine Wp.seqN (Does.acts (actsOk_cp (by rw [h.cp.1]; exact hc) trivial) ?_)
  simp only [runPA_cons, runPA_nil, aCp_run, h.cp.1, modify_full, arith]
  have h1 : ∀ x, x ≠ epdAddr σ.cp → (s.set (epdAddr σ.cp) 0) x = s x := fun x hx => set_ne hx
  have hz : (s.set (epdAddr σ.cp) 0) (epdAddr σ.cp) = 0 := set_eq ..
  have o1 : Only (epdAddr σ.cp :: C.flScr) s (s.set (epdAddr σ.cp) 0) := (Only.refl _ s).set (by simp) _
  generalize s.set (epdAddr σ.cp) 0 = s1 at h1 hz o1
  have es : s1 C.sub = BitVec.ofNat 32 k := by rw [h1 _ (by grind), hs]
  refine Wp.seq (Wp.ite0 (by simp only [List.mem_singleton, forall_eq]; exact cMem_ok (c _ (by simp [own])) _ _ _) ?_ ?_) <;>
    simp only [holdsAll_cons, holdsAll_nil, Bool.and_true, cMem_holds, compare, es, beq_iff_eq, beq_eq_false_iff_ne, ne_eq, decide_eq_true_eq, decide_eq_false_iff_not] <;> intro hb
  · refine Wp.ret ⟨Or.inr rfl, ?_, o1⟩
    have hnil : σ.buf = [] := by
      have := congrArg BitVec.toNat hb
      rw [BitVec.toNat_ofNat, show (0 : W).toNat = 0 from rfl] at this
      exact hk.1 (by omega)
    rw [St.flush, if_pos hnil]
    refine ⟨⟨fun i hi => ?_, ⟨?_, ?_, ?_⟩, ⟨?_, ?_⟩, fun x hx => ?_⟩, by simp [hnil], by rw [es, hk.2 hnil]; simp [hnil]⟩
    · rw [h1 _ (Ne.symm (nb i)), h.buf i hi]
    · rw [h1 _ (by grind), h.cp.1]
    · rw [h1 _ (by grind), h.cp.2.1]
    · rw [h1 _ (by grind), h.cp.2.2]
    · rw [h1 _ (by grind), h.mds.1]
    · rw [h1 _ (by grind), h.mds.2]
    · show _ = σ.m.set _ _ x
      rw [get_set]
      split
      · rename_i e; rw [e, hz]
      · rename_i e; rw [h1 _ e, h.vis x hx]
  · refine ⟨_, s1, .skip _, ?_⟩
    simp only [if_true]
    have hne : σ.buf ≠ [] := fun e => hb (by rw [hk.2 e]; rfl)
    rw [St.flush, if_neg hne, St.out]
    have ec : s1 cpAddr = σ.cp := by rw [h1 _ (by grind), h.cp.1]
    refine Wp.seqN ((vproc_cp hC.pb (s := s1) (by rw [h1 _ (by grind), h.mds.1]) (by rw [ec]; exact hc) (by rw [ec]; simp only [List.mem_cons, List.not_mem_nil, or_false, not_or]; grind) (by simp only [List.mem_cons, List.not_mem_nil, or_false, not_or]; grind)).mono ?_)
    rintro s2 e2
    rw [ec] at e2
    have o2 : Only (epdAddr σ.cp :: C.flScr) s1 s2 := by rw [e2]; exact (((Only.refl _ s1).set (by simp [flScr]) _).set (by simp [flScr]) _).set (by simp [flScr]) _
    have k2 : ∀ x, x ≠ epdAddr σ.cp → x ≠ C.b + 344 → x ≠ C.b + 4 → s2 x = s x := fun x a1 a2 a3 => by rw [e2, set_ne a1, set_ne a3, set_ne a2, h1 _ a1]
    have ec2 : s2 cpAddr = σ.cp := by rw [k2 _ (by grind) (by grind) (by grind), h.cp.1]
    have z2 : s2 (epdAddr σ.cp) = pad σ.buf 0 := by rw [e2, set_eq, h1 _ (by grind), ← h.buf 0 (by omega), bd]
    have b2 : ∀ i < 4, s2 (C.bd i) = pad σ.buf i := by
      intro i hi
      rw [← h.buf i hi, k2 _ (Ne.symm (nb i))] <;> (have hi4 : i = 0 ∨ i = 1 ∨ i = 2 ∨ i = 3 := by omega) <;> rcases hi4 with rfl | rfl | rfl | rfl <;> simp only [bd] <;> grind
    refine Wp.seqN ((bits_cp (C := C) (s := s2) (by rw [ec2]; exact hc) (fun i => c _ (bd_own i)) (fun i => by rw [ec2]; exact nb i) (by rw [ec2]; grind) (List.range' 8 24) (by simp only [List.mem_range'_1]; omega)).mono ?_)
    rintro s3 e3
    rw [ec2, z2, bitsOf_all, b2 1 (by omega), b2 2 (by omega), b2 3 (by omega), show pad σ.buf 0 + BitVec.ofNat 32 _ = dwOf σ.buf from rfl] at e3
    have k3 : ∀ x, x ≠ epdAddr σ.cp → s3 x = s2 x := fun x hx => by rw [e3, set_ne hx]
    refine Wp.mono (Does.wp (fin_does hC (s := s3) (A := epdAddr σ.cp) (w := dwOf σ.buf) (cp := σ.cp) (m := σ.m) hn' ⟨?_, ?_, ?_⟩ ⟨?_, ?_⟩ ?_ ?_)) ?_
    · rw [k3 _ (by grind), ec2]
    · rw [k3 _ (by grind), k2 _ (by grind) (by grind) (by grind), h.cp.2.1]
    · rw [k3 _ (by grind), k2 _ (by grind) (by grind) (by grind), h.cp.2.2]
    · rw [k3 _ (by grind), k2 _ (by grind) (by grind) (by grind), h.mds.1]
    · rw [k3 _ (by grind), k2 _ (by grind) (by grind) (by grind), h.mds.2]
    · rw [e3, set_eq]
    · intro x hx hxA
      have hx' := hx
      simp only [own, List.mem_cons, not_or, List.not_mem_nil, not_false_eq_true, and_true] at hx'
      rw [k3 _ hxA, k2 _ hxA (by grind) (by grind), h.vis x hx]
    · rintro o s4 ⟨rfl, g1, g2⟩
      refine ⟨Or.inl rfl, g1, o1.trans (o2.trans (Only.trans ?_ (g2.mono (fun x hx => List.mem_cons_of_mem _ hx))))⟩
      rw [e3]; exact (Only.refl _ s2).set (by simp) _

/-! ## The methods -/

/-- A call of `flushdword()` that goes on at `back`. -/
def flCall (L : Layout) (C : CpW) (back : Nat) : Stmt := .prim (CallRel L C.ffe C.fnp back (C.flBody L) [] [])

/-- A call of `writebyte(x)` that goes on at `back`. -/
def wrCall (L : Layout) (C : CpW) (back : Nat) (x : Src) : Stmt := .prim (CallRel L C.wfe C.wnp back (C.wrBody L) [] [(C.v + 348, x)])

theorem callOk0 {np : Nat} {scr : List Nat} (cn : L.cell np) (hs : np ∉ scr) : CallOk L np [] [] scr where
  cn := cn
  cr := by simp
  ca := by simp
  na := by simp
  nr := by simp
  nd := by simp
  aa := by simp
  an := by simp
  pn := by simp
  rn := by simp
  rr := by simp
  sn := hs
  sr := by simp
  hnp := by simp

theorem flCall_does (hC : C.Ok L) {σ : St} {s : Mem} {back : Nat} (hb : back < 2 ^ 32) (h : RepB C σ s) {k : Nat} (hs : s C.sub = BitVec.ofNat 32 k) (hl : k < 4) (hk : k = 0 ↔ σ.buf = [])
    (hc : L.cell (epdAddr σ.cp)) (hn : epdAddr σ.cp ∉ C.own) :
    Does L (C.flCall L back) s fun s' => Rep C σ.flush s' ∧ Only (C.fnp :: epdAddr σ.cp :: C.flScr) s s' := by
  have nd : [C.sub, C.b + 4, C.b + 344, C.b + 348, C.b + 352, C.b1, C.b2, C.b3, C.v + 352, C.fnp, C.cpc + 348, C.cnd + 8, cpAddr].Nodup := hC.nd.sublist (by unfold own; sublist_tac)
  simp only [List.nodup_cons, List.mem_cons, not_or, List.not_mem_nil, not_false_eq_true, List.nodup_nil, and_true, or_false] at nd
  have nf : C.fnp ≠ epdAddr σ.cp := fun e => hn (e ▸ (by simp [own]))
  have hO : CallOk L C.fnp [] [] (epdAddr σ.cp :: C.flScr) := callOk0 (hC.cel _ (by simp [own])) (by
    simp only [flScr, List.mem_cons, List.not_mem_nil, or_false, not_or]; grind)
  refine (C31_does hC.wf hO hC.ff hb (s := s) (Q := Rep C σ.flush) ?_).mono ?_
  · intro s1 _ e2
    simp only [List.map_nil, List.nil_append] at e2
    have k1 : ∀ x, x ≠ C.fnp → s1 x = s x := fun x hx => e2 x (by simpa using hx)
    refine (flBody_does hC (s := s1) (h.congr (fun x hx => k1 x fun e => hx (e ▸ (by simp [own]))) ?_) (by rw [k1 _ (by grind), hs]) hl hk hc hn).mono ?_
    · intro x hx
      simp only [List.mem_cons, List.not_mem_nil, or_false] at hx
      exact k1 x (by grind)
    · exact fun o s2 h2 => h2
  · rintro s' ⟨⟨s2, q1, -, q3⟩, q4⟩
    have e : s' = s2 := funext fun y => q3 y (by simp)
    subst e
    exact ⟨q1, q4.mono (by simp [callOnly])⟩

/-- The dwords that `writebyte` may change, besides the one of the current player. -/
def wrScr (C : CpW) : List Nat := C.flScr ++ [C.v + 4, C.v + 344, C.fnp]

theorem pad_append_lt {l : List W} {w : W} {i : Nat} (h : i < l.length) : pad (l ++ [w]) i = pad l i := by simp [pad, List.getElem?_append_left h]
theorem pad_append_eq {l : List W} {w : W} : pad (l ++ [w]) l.length = w := by simp [pad]
theorem pad_ge {l : List W} {i : Nat} (h : l.length ≤ i) : pad l i = 13 := by simp [pad, h]

theorem bd_inj (hC : C.Ok L) {i j : Nat} (hi : i < 4) (hj : j < 4) (h : C.bd i = C.bd j) : i = j := by
  have nd : [C.b + 348, C.b1, C.b2, C.b3].Nodup := hC.nd.sublist (by unfold own; sublist_tac)
  simp only [List.nodup_cons, List.mem_cons, not_or, List.not_mem_nil, not_false_eq_true, List.nodup_nil, and_true, or_false] at nd
  have hi4 : i = 0 ∨ i = 1 ∨ i = 2 ∨ i = 3 := by omega
  have hj4 : j = 0 ∨ j = 1 ∨ j = 2 ∨ j = 3 := by omega
  rcases hi4 with rfl | rfl | rfl | rfl <;> rcases hj4 with rfl | rfl | rfl | rfl <;> simp only [bd] at h <;> grind

theorem bd_mem {i : Nat} (hi : i < 4) : C.bd i = C.b + 348 ∨ C.bd i = C.b1 ∨ C.bd i = C.b2 ∨ C.bd i = C.b3 := by
  have hi4 : i = 0 ∨ i = 1 ∨ i = 2 ∨ i = 3 := by omega
  rcases hi4 with rfl | rfl | rfl | rfl <;> simp [bd]

/-- One more byte in the buffer. -/
theorem RepB.push (hC : C.Ok L) {σ : St} {s s' : Mem} (h : RepB C σ s) (hl : σ.buf.length < 4) {w : W} (hb : s' (C.bd σ.buf.length) = w)
    (hs : ∀ x, x ∉ [C.bd σ.buf.length, C.sub, C.v + 4, C.v + 344] → s' x = s x) : RepB C { σ with buf := σ.buf ++ [w] } s' := by
  have nd : [C.sub, C.b + 4, C.b + 344, C.b + 348, C.b + 352, C.b1, C.b2, C.b3, C.v + 4, C.v + 344, C.v + 352, C.cpc + 348, C.cnd + 8, cpAddr].Nodup := hC.nd.sublist (by unfold own; sublist_tac)
  simp only [List.nodup_cons, List.mem_cons, not_or, List.not_mem_nil, not_false_eq_true, List.nodup_nil, and_true, or_false] at nd
  have hm := bd_mem (C := C) hl
  have k : ∀ x, x ≠ C.bd σ.buf.length → x ≠ C.sub → x ≠ C.v + 4 → x ≠ C.v + 344 → s' x = s x := fun x a1 a2 a3 a4 => hs x (by simp only [List.mem_cons, List.not_mem_nil, or_false, not_or]; exact ⟨a1, a2, a3, a4⟩)
  refine ⟨fun i hi => ?_, ⟨?_, ?_, ?_⟩, ⟨?_, ?_⟩, fun x hx => ?_⟩
  · by_cases e : i = σ.buf.length
    · rw [e, hb, pad_append_eq]
    · have hm2 := bd_mem (C := C) hi
      rw [k _ (fun h => e (bd_inj hC hi hl h)) (by grind) (by grind) (by grind), h.buf i hi]
      by_cases hlt : i < σ.buf.length
      · rw [pad_append_lt hlt]
      · rw [pad_ge (by omega), pad_ge (by simp; omega)]
  · rw [k _ (by grind) (by grind) (by grind) (by grind), h.cp.1]
  · rw [k _ (by grind) (by grind) (by grind) (by grind), h.cp.2.1]
  · rw [k _ (by grind) (by grind) (by grind) (by grind), h.cp.2.2]
  · rw [k _ (by grind) (by grind) (by grind) (by grind), h.mds.1]
  · rw [k _ (by grind) (by grind) (by grind) (by grind), h.mds.2]
  · have hx' := hx
    simp only [own, List.mem_cons, not_or, List.not_mem_nil, not_false_eq_true, and_true] at hx'
    rw [k x (by grind) (by grind) (by grind) (by grind), h.vis x hx]

/-- **The body of `writebyte`.** -/
theorem wrBody_does (hC : C.Ok L) {σ : St} {s : Mem} (h : Rep C σ s) (ho : σ.buf.length = 3 → L.cell (epdAddr σ.cp) ∧ epdAddr σ.cp ∉ C.own) :
    Does L (C.wrBody L) s fun s' => Rep C (σ.write (s (C.v + 348))) s' ∧ Only (if σ.buf.length = 3 then epdAddr σ.cp :: C.wrScr else C.wrScr) s s' := by
  have nd : [C.sub, C.b + 4, C.b + 344, C.b + 348, C.b + 352, C.b1, C.b2, C.b3, C.v + 4, C.v + 344, C.v + 348, C.v + 352, C.cpc + 348, C.cnd + 8, cpAddr].Nodup := hC.nd.sublist (by unfold own; sublist_tac)
  simp only [List.nodup_cons, List.mem_cons, not_or, List.not_mem_nil, not_false_eq_true, List.nodup_nil, and_true, or_false] at nd
  have c := hC.cel
  have hl := h.len
  have hm := bd_mem (C := C) hl
  have et : (s C.sub).toNat = σ.buf.length := by rw [h.sub, BitVec.toNat_ofNat]; omega
  have hlk : (cases0 4 (C.wrCase L)).lookup (s C.sub) = some (C.wrCase L σ.buf.length) := by rw [cases0_lookup (by omega), et, if_pos hl]
  refine Does.sw (fun h => by rw [hlk] at h; cases h) (fun st hst => ?_)
  rw [hlk] at hst
  obtain rfl := Option.some.inj hst
  unfold wrCase St.write
  have cb : L.cell (C.bd σ.buf.length) := c _ (bd_own _)
  by_cases h3 : σ.buf.length = 3
  · obtain ⟨o1, o2⟩ := ho h3
    rw [if_pos h3, if_pos h3, if_pos h3]
    rw [h3] at hm cb
    refine Wp.seqN (vproc_full (acts := [aMem (C.v + 344) .set (epd (C.bd 3))]) (s := s) hC.pv (actsOk_mem hC.pv.dst trivial) (md := .set) (d := C.bd 3) ?_ ?_ (hC.eb 3 (by omega)) cb (by grind) ?_) <;>
      simp only [runPA_cons, runPA_nil, aMem_run, arith]
    · rw [set_ne (by grind), h.mds.2]
    · rw [set_eq]
    rw [set_ne (show C.v + 348 ≠ C.v + 344 by omega)]
    generalize hs1 : ((s.set (C.v + 344) (epd (C.bd 3))).set (C.v + 4) (BitVec.ofNat 32 (C.n 3))).set (C.bd 3) (s (C.v + 348)) = s1
    have k1 : Only [C.v + 344, C.v + 4, C.bd 3] s s1 := by rw [← hs1]; exact (((Only.refl _ s).set (by simp) _).set (by simp) _).set (by simp) _
    refine Wp.seqN ((flCall_does hC hC.lt (s := s1) (h.toRepB.push hC hl (w := s (C.v + 348)) ?_ ?_) (k := 3) ?_ (by omega) (by simp) o1 o2).mono ?_)
    · rw [h3, ← hs1, set_eq]
    · intro x hx
      rw [h3] at hx
      exact k1 x fun hx' => hx (by simp only [List.mem_cons, List.not_mem_nil, or_false] at hx' ⊢; grind)
    · rw [k1 _ (by simp only [List.mem_cons, List.not_mem_nil, or_false, not_or]; grind), h.sub, h3]
    · rintro s2 ⟨q1, q2⟩
      refine Wp.brk ⟨rfl, ?_, (k1.mono ?_).trans (q2.mono ?_)⟩
      · simp only [St.flush, List.append_eq_nil_iff, List.cons_ne_self, and_false, if_false] at q1
        exact q1
      · intro x hx
        simp only [wrScr, flScr, List.mem_cons, List.mem_append, List.not_mem_nil, or_false] at hx ⊢
        grind
      · intro x hx
        simp only [wrScr, flScr, List.mem_cons, List.mem_append, List.not_mem_nil, or_false] at hx ⊢
        grind
  · rw [if_neg h3, if_neg h3, if_neg h3]
    refine Wp.seqN (vproc_full (acts := [aMem (C.v + 344) .set (epd (C.bd σ.buf.length)), aMem C.sub .add 1]) (s := s) hC.pv (actsOk_mem hC.pv.dst (actsOk_mem (c _ (by simp [own])) trivial)) (md := .set) (d := C.bd σ.buf.length) ?_ ?_ (hC.eb _ hl) cb (by grind) ?_) <;>
      simp only [runPA_cons, runPA_nil, aMem_run, arith]
    · rw [set_ne (by grind), set_ne (by grind), h.mds.2]
    · rw [set_ne (by grind), set_eq]
    rw [set_ne (show C.v + 348 ≠ C.sub by grind), set_ne (show C.v + 348 ≠ C.v + 344 by omega), set_ne (show C.sub ≠ C.v + 344 by grind), h.sub]
    generalize hs1 : (((s.set (C.v + 344) (epd (C.bd σ.buf.length))).set C.sub (BitVec.ofNat 32 σ.buf.length + 1)).set (C.v + 4) (BitVec.ofNat 32 (C.n σ.buf.length))).set (C.bd σ.buf.length) (s (C.v + 348)) = s1
    have k1 : Only [C.v + 344, C.sub, C.v + 4, C.bd σ.buf.length] s s1 := by rw [← hs1]; exact ((((Only.refl _ s).set (by simp) _).set (by simp) _).set (by simp) _).set (by simp) _
    refine Wp.brk ⟨rfl, ⟨h.toRepB.push hC hl ?_ ?_, ?_, ?_⟩, k1.mono ?_⟩
    · rw [← hs1, set_eq]
    · intro x hx
      exact k1 x fun hx' => hx (by simp only [List.mem_cons, List.not_mem_nil, or_false] at hx' ⊢; grind)
    · simp only [List.length_append, List.length_cons, List.length_nil]; omega
    · rw [← hs1, set_ne (by grind), set_ne (by grind), set_eq]
      simp only [List.length_append, List.length_cons, List.length_nil, Nat.zero_add, BitVec.ofNat_add]
      rfl
    · intro x hx
      simp only [wrScr, flScr, List.mem_cons, List.mem_append, List.not_mem_nil, or_false] at hx ⊢
      grind

theorem wrCall_does (hC : C.Ok L) {σ : St} {s : Mem} {back : Nat} {x : Src} (hb : back < 2 ^ 32) (h : Rep C σ s) (hx : ∀ v, x = .var v → v ∈ L.P.vars ∧ v + 348 ∉ C.own)
    (ho : σ.buf.length = 3 → L.cell (epdAddr σ.cp) ∧ epdAddr σ.cp ∉ C.own) : Does L (C.wrCall L back x) s (Rep C (σ.write (x.valM σ.m))) := by
  have nd : [C.sub, C.b + 4, C.b + 344, C.b + 348, C.b + 352, C.b1, C.b2, C.b3, C.v + 4, C.v + 344, C.v + 348, C.v + 352, C.wnp, C.fnp, C.cpc + 348, C.cnd + 8, cpAddr].Nodup := hC.nd.sublist (by unfold own; sublist_tac)
  simp only [List.nodup_cons, List.mem_cons, not_or, List.not_mem_nil, not_false_eq_true, List.nodup_nil, and_true, or_false] at nd
  have c := hC.cel
  have hO : CallOk L C.wnp [] [(C.v + 348, x)] (if σ.buf.length = 3 then epdAddr σ.cp :: C.wrScr else C.wrScr) := by
    refine SHist.callOk1 (fun v hv => ⟨(hx v hv).1, fun e => (hx v hv).2 (e ▸ (by simp [own])), fun e => (hx v hv).2 (e ▸ (by simp [own]))⟩) (c _ (by simp [own])) (c _ (by simp [own])) (by grind) ?_
    have hw : C.wnp ∉ C.wrScr := by simp only [wrScr, flScr, List.mem_cons, List.mem_append, List.not_mem_nil, or_false, not_or]; grind
    split
    · rename_i h3
      rw [List.mem_cons, not_or]
      exact ⟨fun e => (ho h3).2 (e ▸ (by simp [own])), hw⟩
    · exact hw
  have hv : x.valM s = x.valM σ.m := by
    cases x with
    | const w => rfl
    | var v => exact h.vis _ (hx v rfl).2
  refine (C31_does hC.wf hO hC.fw hb (s := s) (Q := Rep C (σ.write (x.valM σ.m))) ?_).mono ?_
  · intro s1 e1 e2
    simp only [List.mem_singleton, forall_eq, List.map_cons, List.map_nil, List.nil_append] at e1 e2
    have k : ∀ x, x ≠ C.wnp → x ≠ C.v + 348 → s1 x = s x := fun x h1 h2 => e2 x (by simp only [List.mem_cons, List.not_mem_nil, or_false, not_or]; exact ⟨h1, h2⟩)
    refine (Does.wp (wrBody_does hC (s := s1) (h.congr (fun x hx => k x (fun e => hx (e ▸ (by simp [own]))) (fun e => hx (e ▸ (by simp [own])))) ?_) ho)).mono ?_
    · intro x hx
      simp only [List.mem_cons, List.not_mem_nil, or_false] at hx
      exact k x (by grind) (by grind)
    · rintro o s2 ⟨rfl, q1, q2⟩
      rw [e1, hv] at q1
      exact ⟨Or.inl rfl, q1, q2⟩
  · rintro s' ⟨⟨s2, q1, -, q3⟩, -⟩
    have e : s' = s2 := funext fun y => q3 y (by simp)
    subst e
    exact q1

/-! ## Histories -/

/-- What a program does with the writer: `writebyte(x)`, `flushdword()`, `SetCurrentPlayer(p)` or `AddCurrentPlayer(p)`, and a change of another dword. -/
inductive Op where
  | write (x : Src)
  | flush
  | cp (md : Mod) (p : W)
  | poke (a : Nat) (md : Mod) (w : W)

/-- The specification. -/
def Op.spec (σ : St) : Op → St
  | .write x => σ.write (x.valM σ.m)
  | .flush => σ.flush
  | .cp md p => { σ with cp := arith md σ.cp p }
  | .poke a md w => { σ with m := σ.m.set a (arith md (σ.m a) w) }

/-- The code; `n` is where the calls go on. -/
def Op.stmt (L : Layout) (C : CpW) (n : Nat) : Op → Stmt
  | .write x => C.wrCall L n x
  | .flush => C.flCall L n
  | .cp md p => .trig [] (setCpActs C.cpc C.cnd md p)
  | .poke a md w => .trig [] [aMem a md w]

/-- The operation stays clear of the dwords of the writer: a dword that is written to is one that the program may write to. -/
def Op.Ok (L : Layout) (C : CpW) (σ : St) : Op → Prop
  | .write x => (∀ v, x = .var v → v ∈ L.P.vars ∧ v + 348 ∉ C.own) ∧ (σ.buf.length = 3 → L.cell (epdAddr σ.cp) ∧ epdAddr σ.cp ∉ C.own)
  | .flush => L.cell (epdAddr σ.cp) ∧ epdAddr σ.cp ∉ C.own
  | .cp _ _ => True
  | .poke a _ _ => L.cell a ∧ a ∉ C.own

/-- **C37 (`CPByteWriter`), one operation.** -/
theorem C37_cpwriter_step (hC : C.Ok L) {σ : St} {s : Mem} (h : Rep C σ s) {n : Nat} (hn : n < 2 ^ 32) (op : Op) (hk : op.Ok L C σ) : Does L (op.stmt L C n) s (Rep C (op.spec σ)) := by
  have nd : [C.sub, C.b + 348, C.b + 352, C.b1, C.b2, C.b3, C.v + 352, C.cpc + 348, C.cnd + 8, cpAddr].Nodup := hC.nd.sublist (by unfold own; sublist_tac)
  simp only [List.nodup_cons, List.mem_cons, not_or, List.not_mem_nil, not_false_eq_true, List.nodup_nil, and_true, or_false] at nd
  have c := hC.cel
  cases op with
  | write x => exact wrCall_does hC hn h hk.1 hk.2
  | flush =>
    refine (flCall_does hC hn h.toRepB h.sub h.len ?_ hk.1 hk.2).mono fun s' h' => h'.1
    exact ⟨List.eq_nil_of_length_eq_zero, fun e => by rw [e]; rfl⟩
  | cp md p =>
    refine Does.acts (actsOk_mem (c _ (by simp [own])) (actsOk_mem (c _ (by simp [own])) (actsOk_mem (c _ (by simp [own])) trivial))) ?_
    simp only [setCpActs, runPA_cons, runPA_nil, aMem_run]
    obtain ⟨p1, p2, p3⟩ := h.cp
    refine ⟨⟨fun i hi => ?_, ⟨?_, ?_, ?_⟩, ⟨?_, ?_⟩, fun x hx => ?_⟩, h.len, ?_⟩
    · have hm := bd_mem (C := C) hi
      rw [set_ne (by grind), set_ne (by grind), set_ne (by grind), h.buf i hi]
      rfl
    · rw [set_eq, set_ne (by grind), set_ne (by grind), p1]; rfl
    · rw [set_ne (by grind), set_ne (by grind), set_eq, p2]; rfl
    · rw [set_ne (by grind), set_eq, set_ne (by grind), p3]; rfl
    · rw [set_ne (by grind), set_ne (by grind), set_ne (by grind), h.mds.1]
    · rw [set_ne (by grind), set_ne (by grind), set_ne (by grind), h.mds.2]
    · have hx' := hx
      simp only [own, List.mem_cons, not_or, List.not_mem_nil, not_false_eq_true, and_true] at hx'
      rw [set_ne (by grind), set_ne (by grind), set_ne (by grind), h.vis x hx]
      rfl
    · rw [set_ne (by grind), set_ne (by grind), set_ne (by grind), h.sub]
      rfl
  | poke a md w =>
    obtain ⟨k1, k2⟩ := hk
    refine Does.acts (actsOk_mem k1 trivial) ?_
    simp only [runPA_cons, runPA_nil, aMem_run]
    have k3 : ∀ x ∈ C.own, ∀ u, (s.set a u) x = s x := fun x hx u => set_ne fun e => k2 (e ▸ hx)
    refine ⟨⟨fun i hi => ?_, ⟨?_, ?_, ?_⟩, ⟨?_, ?_⟩, fun x hx => ?_⟩, h.len, ?_⟩
    · rw [k3 _ (bd_own i), h.buf i hi]; rfl
    · rw [k3 _ (by simp [own]), h.cp.1]; rfl
    · rw [k3 _ (by simp [own]), h.cp.2.1]; rfl
    · rw [k3 _ (by simp [own]), h.cp.2.2]; rfl
    · rw [k3 _ (by simp [own]), h.mds.1]
    · rw [k3 _ (by simp [own]), h.mds.2]
    · show _ = σ.m.set a _ x
      rw [get_set, get_set, h.vis x hx, h.vis a k2]
    · rw [k3 _ (by simp [own]), h.sub]; rfl

/-- All operations stay clear. -/
def OpsOk (L : Layout) (C : CpW) (σ : St) : List Op → Prop
  | [] => True
  | op :: l => op.Ok L C σ ∧ OpsOk L C (op.spec σ) l

/-- **C37 (`CPByteWriter`).** After any history of writes, flushes, changes of the current player and other stores: the bytes that have gone out are where the current player was when
they went out, four at a time, the others are in the buffer, and nothing else has changed. -/
theorem C37_cpwriter_history (hC : C.Ok L) : ∀ (ops : List (Op × Nat)) {σ : St} {s : Mem}, Rep C σ s → (∀ p ∈ ops, p.2 < 2 ^ 32) → OpsOk L C σ (ops.map Prod.fst) →
    Does L (.seqs (ops.map fun p => p.1.stmt L C p.2)) s (Rep C ((ops.map Prod.fst).foldl Op.spec σ))
  | [], _, _, h, _, _ => Does.skip h
  | p :: l, _, _, h, hn, hk => Does.seq ((C37_cpwriter_step hC h (hn p (by simp)) p.1 hk.1).mono fun _ h1 => C37_cpwriter_history hC l h1 (fun q hq => hn q (by simp [hq])) hk.2)

/-! ## Bytes in memory -/

/-- The bytes of the dword. -/
theorem dwOf_byte {l : List W} (h : (pad l 0).toNat < 256) {i : Nat} (hi : i < 4) : (dwOf l).extractLsb' (8 * i) 8 = (pad l i).setWidth 8 := by
  have key : (dwOf l).toNat = (pad l 0).toNat + ((pad l 1).toNat % 256 * 2 ^ 8 + (pad l 2).toNat % 256 * 2 ^ 16 + (pad l 3).toNat % 256 * 2 ^ 24) := by
    unfold dwOf
    rw [BitVec.toNat_add, BitVec.toNat_ofNat]
    omega
  apply BitVec.eq_of_toNat_eq
  rw [BitVec.extractLsb'_toNat, key, BitVec.toNat_setWidth, Nat.shiftRight_eq_div_pow]
  have hi4 : i = 0 ∨ i = 1 ∨ i = 2 ∨ i = 3 := by omega
  rcases hi4 with rfl | rfl | rfl | rfl <;> omega

/-- The dwords of the bytes `l`, in order. -/
def chunk (l : List W) (k : Nat) : W := dwOf ((l.drop (4 * k)).take 4)

/-- Writing the bytes `l` from an empty buffer. -/
theorem writes_eq : ∀ (n : Nat) (l : List W) (σ : St), l.length ≤ n → σ.buf = [] →
    l.foldl St.write σ = ⟨l.drop (l.length / 4 * 4), σ.cp + BitVec.ofNat 32 (l.length / 4), (List.range (l.length / 4)).foldl (fun m k => m.set (epdAddr (σ.cp + BitVec.ofNat 32 k)) (chunk l k)) σ.m⟩
  | n, [], ⟨_, cp, m⟩, _, rfl => by simp
  | n, [a], ⟨_, cp, m⟩, _, rfl => by simp [St.write]
  | n, [a, b], ⟨_, cp, m⟩, _, rfl => by simp [St.write]
  | n, [a, b, c], ⟨_, cp, m⟩, _, rfl => by simp [St.write]
  | 0, a :: b :: c :: d :: l, _, h, _ => by simp at h
  | n + 1, a :: b :: c :: d :: l, ⟨_, cp, m⟩, h, rfl => by
    have e : List.foldl St.write ⟨[], cp, m⟩ (a :: b :: c :: d :: l) = l.foldl St.write ⟨[], cp + 1, m.set (epdAddr cp) (dwOf [a, b, c, d])⟩ := by simp [St.write, St.out]
    rw [e, writes_eq n l _ (by simp at h; omega) rfl]
    have hlen : (a :: b :: c :: d :: l).length / 4 = l.length / 4 + 1 := by simp only [List.length_cons]; omega
    rw [hlen, List.range_succ_eq_map, List.foldl_cons, List.foldl_map]
    congr 1
    · rw [show (l.length / 4 + 1) * 4 = l.length / 4 * 4 + 4 by omega]
      rfl
    · show cp + 1 + BitVec.ofNat 32 (l.length / 4) = cp + BitVec.ofNat 32 (l.length / 4 + 1)
      rw [BitVec.ofNat_add, BitVec.add_assoc, BitVec.add_comm (BitVec.ofNat 32 _) (BitVec.ofNat 32 1)]
      rfl
    · have : ∀ (k : Nat), chunk (a :: b :: c :: d :: l) (k + 1) = chunk l k := by
        intro k
        simp only [chunk, show 4 * (k + 1) = 4 * k + 4 by omega, List.drop_succ_cons]
      simp only [Nat.succ_eq_add_one, this]
      have h2 : ∀ k : Nat, cp + BitVec.ofNat 32 (k + 1) = cp + 1 + BitVec.ofNat 32 k := by
        intro k
        rw [BitVec.ofNat_add, BitVec.add_assoc, BitVec.add_comm (BitVec.ofNat 32 k)]
        rfl
      simp only [h2]
      simp [chunk]

theorem foldl_set_out {A : Nat → Nat} {f : Nat → W} : ∀ (n : Nat) (m : Mem) {x : Nat}, (∀ k < n, x ≠ A k) → (List.range n).foldl (fun m k => m.set (A k) (f k)) m x = m x
  | 0, m, x, _ => rfl
  | n + 1, m, x, h => by
    rw [List.range_succ, List.foldl_append, List.foldl_cons, List.foldl_nil, set_ne (h n (by omega)), foldl_set_out n m fun k hk => h k (by omega)]

theorem foldl_set_in {A : Nat → Nat} {f : Nat → W} : ∀ (n : Nat) (m : Mem) {k : Nat}, (∀ i < n, ∀ j < n, A i = A j → i = j) → k < n → (List.range n).foldl (fun m k => m.set (A k) (f k)) m (A k) = f k
  | 0, m, k, _, hk => by omega
  | n + 1, m, k, h, hk => by
    rw [List.range_succ, List.foldl_append, List.foldl_cons, List.foldl_nil]
    by_cases e : k = n
    · rw [e, set_eq]
    · rw [set_ne fun h1 => e (h k hk n (by omega) h1), foldl_set_in n m (fun i hi j hj => h i (by omega) j (by omega)) (by omega)]

/-- How many dwords the bytes take. -/
def dwords (n : Nat) : Nat := (n + 3) / 4

theorem pad_chunk (l : List W) {k j : Nat} (hj : j < 4) : pad ((l.drop (4 * k)).take 4) j = pad l (4 * k + j) := by
  simp [pad, List.getElem?_take, hj, List.getElem?_drop]

/-- Writing `l` and flushing, dword by dword. -/
theorem writes_flush (l : List W) {cp : W} {m : Mem} (hn : dwords l.length ≤ 2 ^ 30) :
    (l.foldl St.write ⟨[], cp, m⟩).flush.buf = [] ∧ (l.foldl St.write ⟨[], cp, m⟩).flush.cp = cp + BitVec.ofNat 32 (dwords l.length) ∧
    (∀ k < dwords l.length, (l.foldl St.write ⟨[], cp, m⟩).flush.m (epdAddr (cp + BitVec.ofNat 32 k)) = if l.length % 4 = 0 ∧ epdAddr (cp + BitVec.ofNat 32 k) = epdAddr (cp + BitVec.ofNat 32 (l.length / 4)) then 0 else chunk l k) ∧
    (l.length % 4 = 0 → (l.foldl St.write ⟨[], cp, m⟩).flush.m (epdAddr (cp + BitVec.ofNat 32 (l.length / 4))) = 0) ∧
    ∀ x, (∀ k < dwords l.length, x ≠ epdAddr (cp + BitVec.ofNat 32 k)) → (l.length % 4 = 0 → x ≠ epdAddr (cp + BitVec.ofNat 32 (l.length / 4))) → (l.foldl St.write ⟨[], cp, m⟩).flush.m x = m x := by
  rw [writes_eq l.length l _ (Nat.le_refl _) rfl]
  have inj : ∀ i < dwords l.length, ∀ j < dwords l.length, epdAddr (cp + BitVec.ofNat 32 i) = epdAddr (cp + BitVec.ofNat 32 j) → i = j := fun i hi j hj h => epdAddr_inj cp hn hi hj h
  by_cases h0 : l.length % 4 = 0
  · have hd : l.drop (l.length / 4 * 4) = [] := List.drop_eq_nil_of_le (by omega)
    have hk : dwords l.length = l.length / 4 := by unfold dwords; omega
    rw [St.flush, if_pos hd, hk]
    rw [hk] at inj
    refine ⟨hd, rfl, fun k hk => ?_, fun _ => set_eq .., fun x h1 h2 => ?_⟩
    · show Mem.set _ _ _ _ = _
      rw [get_set]
      simp only [h0, true_and]
      split
      · rfl
      · exact foldl_set_in _ _ inj hk
    · show Mem.set _ _ _ _ = _
      rw [set_ne (h2 h0)]
      exact foldl_set_out _ _ h1
  · have hd : l.drop (l.length / 4 * 4) ≠ [] := fun h => by
      have := congrArg List.length h
      simp only [List.length_drop, List.length_nil] at this
      omega
    have hk : dwords l.length = l.length / 4 + 1 := by unfold dwords; omega
    have hch : dwOf (l.drop (l.length / 4 * 4)) = chunk l (l.length / 4) := by
      unfold chunk
      rw [Nat.mul_comm, List.take_of_length_le]
      rw [List.length_drop]
      omega
    rw [St.flush, if_neg hd, St.out]
    refine ⟨rfl, ?_, fun k hk' => ?_, fun h => absurd h h0, fun x h1 _ => ?_⟩
    · rw [hk, BitVec.ofNat_add, ← BitVec.add_assoc]; rfl
    · rw [if_neg fun h => h0 h.1]
      show Mem.set _ _ _ _ = _
      by_cases e : k = l.length / 4
      · rw [e, set_eq, hch]
      · rw [set_ne fun h => e (inj k hk' _ (by omega) h)]
        exact foldl_set_in _ _ (fun i hi j hj => inj i (by omega) j (by omega)) (by omega)
    · show Mem.set _ _ _ _ = _
      rw [set_ne (h1 _ (by omega))]
      exact foldl_set_out _ _ fun k hk' => h1 k (by omega)

/-- Enough room for the writes: the dwords from the current player on may be written to. -/
theorem opsOk_writes : ∀ (l : List W) {σ : St}, σ.buf.length < 4 → (∀ k ≤ (σ.buf.length + l.length) / 4, L.cell (epdAddr (σ.cp + BitVec.ofNat 32 k)) ∧ epdAddr (σ.cp + BitVec.ofNat 32 k) ∉ C.own) →
    OpsOk L C σ (l.map (fun w => Op.write (.const w)) ++ [Op.flush])
  | [], σ, _, h => ⟨by have := h 0 (by omega); rw [BitVec.add_zero] at this; exact this, trivial⟩
  | w :: l, σ, hl, h => by
    refine ⟨⟨fun v hv => (by cases hv), fun _ => by have := h 0 (by omega); simpa using this⟩, ?_⟩
    simp only [Op.spec, Src.valM, St.write]
    by_cases h3 : σ.buf.length = 3
    · rw [if_pos h3]
      refine opsOk_writes l (by simp [St.out]) fun k hk => ?_
      have h1 := h (k + 1) (by simp only [St.out, List.length_nil, List.length_cons] at hk ⊢; omega)
      have e : (σ.out (σ.buf ++ [w])).cp + BitVec.ofNat 32 k = σ.cp + BitVec.ofNat 32 (k + 1) := by
        show σ.cp + 1 + BitVec.ofNat 32 k = _
        rw [BitVec.ofNat_add, BitVec.add_assoc, BitVec.add_comm (BitVec.ofNat 32 k)]
        rfl
      rw [e]
      exact h1
    · rw [if_neg h3]
      refine opsOk_writes l (by simp; omega) fun k hk => h k ?_
      simp only [List.length_append, List.length_cons, List.length_nil] at hk ⊢
      omega

theorem foldl_writes : ∀ (l : List W) (σ : St), (l.map (fun w => Op.write (.const w)) ++ [Op.flush]).foldl Op.spec σ = (l.foldl St.write σ).flush
  | [], _ => rfl
  | _ :: l, _ => foldl_writes l _

/-- **C37 (`CPByteWriter`), in bytes.** Writing any number of bytes, each below 256, from an empty buffer, and flushing: they are one after the other from the dword of the current player
on, filled up with carriage returns, the current player is behind them, and the only other dword that has changed is, if the number was a multiple of four, the one behind them, which is zero. -/
theorem C37_cpwriter_bytes (hC : C.Ok L) {cp : W} {m s : Mem} (h : Rep C ⟨[], cp, m⟩ s) (l : List (W × Nat)) (hb : ∀ p ∈ l, p.1.toNat < 256 ∧ p.2 < 2 ^ 32) (hlen : l.length < 2 ^ 32 - 4) {nf : Nat} (hnf : nf < 2 ^ 32)
    (hr : ∀ k ≤ l.length / 4, L.cell (epdAddr (cp + BitVec.ofNat 32 k)) ∧ epdAddr (cp + BitVec.ofNat 32 k) ∉ C.own) :
    Does L (.seqs ((l.map fun p => C.wrCall L p.2 (.const p.1)) ++ [C.flCall L nf])) s fun s' =>
      (∀ i < 4 * dwords l.length, byteAt s' (epdAddr (cp + BitVec.ofNat 32 (i / 4)) + i % 4) = ((l.map Prod.fst).getD i 13).setWidth 8) ∧
      s' cpAddr = cp + BitVec.ofNat 32 (dwords l.length) ∧
      (l.length % 4 = 0 → s' (epdAddr (cp + BitVec.ofNat 32 (l.length / 4))) = 0) ∧
      (∀ x, x ∉ C.own → (∀ k ≤ l.length / 4, x ≠ epdAddr (cp + BitVec.ofNat 32 k)) → s' x = s x) ∧ Rep C ⟨[], cp + BitVec.ofNat 32 (dwords l.length), s'⟩ s' := by
  have key := C37_cpwriter_history hC (l.map (fun p => (Op.write (.const p.1), p.2)) ++ [(Op.flush, nf)]) h (by
    intro p hp
    simp only [List.mem_append, List.mem_map, List.mem_singleton] at hp
    rcases hp with ⟨q, hq, rfl⟩ | rfl
    · exact (hb q hq).2
    · exact hnf) (by
    have := opsOk_writes (L := L) (C := C) (l.map Prod.fst) (σ := ⟨[], cp, m⟩) (by simp) (by simpa using hr)
    simpa [List.map_map, Function.comp_def] using this)
  have e1 : (l.map (fun p => (Op.write (.const p.1), p.2)) ++ [(Op.flush, nf)]).map (fun p => p.1.stmt L C p.2) = (l.map fun p => C.wrCall L p.2 (.const p.1)) ++ [C.flCall L nf] := by
    simp [List.map_map, Function.comp_def, Op.stmt]
  have e2 : ((l.map (fun p => (Op.write (.const p.1), p.2)) ++ [(Op.flush, nf)]).map Prod.fst).foldl Op.spec ⟨[], cp, m⟩ = ((l.map Prod.fst).foldl St.write ⟨[], cp, m⟩).flush := by
    rw [← foldl_writes]
    simp [List.map_map, Function.comp_def]
  rw [e1, e2] at key
  refine key.mono ?_
  have hdw : dwords (l.map Prod.fst).length ≤ 2 ^ 30 - 1 := by rw [List.length_map]; unfold dwords; omega
  obtain ⟨w1, w2, w3, w4, w5⟩ := writes_flush (l.map Prod.fst) (cp := cp) (m := m) (by omega)
  rw [List.length_map] at w2 w3 w4 w5 hdw
  generalize ((l.map Prod.fst).foldl St.write ⟨[], cp, m⟩).flush = σ at *
  intro s' hs'
  have hvis : ∀ k ≤ l.length / 4, s' (epdAddr (cp + BitVec.ofNat 32 k)) = σ.m (epdAddr (cp + BitVec.ofNat 32 k)) := fun k hk => hs'.vis _ (hr k hk).2
  have hdl : ∀ k, k < dwords l.length → k ≤ l.length / 4 := fun k hk => by unfold dwords at hk; omega
  refine ⟨fun i hi => ?_, ?_, fun h0 => ?_, fun x hx hx2 => ?_, ?_⟩
  · obtain ⟨p1, p2⟩ := epdAddr_mod4 (cp + BitVec.ofNat 32 (i / 4))
    unfold byteAt
    rw [show (epdAddr (cp + BitVec.ofNat 32 (i / 4)) + i % 4) / 4 * 4 = epdAddr (cp + BitVec.ofNat 32 (i / 4)) by omega, show (epdAddr (cp + BitVec.ofNat 32 (i / 4)) + i % 4) % 4 = i % 4 by omega]
    have hk : i / 4 < dwords l.length := by omega
    rw [hvis _ (hdl _ hk), w3 _ hk, if_neg]
    · rw [chunk, dwOf_byte]
      · rw [pad_chunk _ (by omega), show 4 * (i / 4) + i % 4 = i by omega]; rfl
      · rw [pad_chunk _ (by omega), pad, List.getD_eq_getElem?_getD]
        cases hg : (l.map Prod.fst)[4 * (i / 4) + 0]? with
        | none => decide
        | some w =>
          obtain ⟨p, hp, rfl⟩ := List.mem_map.1 (List.mem_of_getElem? hg)
          exact (hb p hp).1
      · omega
    · rintro ⟨h0, h1⟩
      have := epdAddr_inj cp (n := 2 ^ 30) (Nat.le_refl _) (by omega) (by omega) h1
      unfold dwords at hk
      omega
  · rw [hs'.cp.1, w2]
  · rw [hvis _ (Nat.le_refl _), w4 h0]
  · rw [hs'.vis x hx, w5 x (fun k hk => hx2 k (hdl k hk)) (fun _ => hx2 _ (Nat.le_refl _)), h.vis x hx]
  · obtain ⟨⟨q1, q2, q3, q4⟩, q5, q6⟩ := hs'
    rw [w1] at q1 q5 q6
    rw [w2] at q2
    exact ⟨⟨q1, q2, q3, fun _ _ => rfl⟩, q5, q6⟩

/-- **C37, limit.** The first byte of a dword is not cut to eight bits: writing 0x100 and then 0 leaves a one in the second byte. -/
theorem C37_cpwriter_spill (cp : W) (m : Mem) : byteAt (([0x100, 0].foldl St.write ⟨[], cp, m⟩).flush.m) (epdAddr cp + 1) = 1 ∧
    ∀ l : List W, l.length < 4 → l ≠ [] → dwOf (l ++ [0x100]) = dwOf (l ++ [0]) := by
  refine ⟨?_, fun l hl hne => ?_⟩
  · obtain ⟨p1, p2⟩ := epdAddr_mod4 cp
    have e : ([0x100, 0].foldl St.write ⟨[], cp, m⟩).flush.m = m.set (epdAddr cp) (dwOf [0x100, 0]) := by simp [St.write, St.flush, St.out]
    rw [show dwOf [0x100, 0] = 0x0D0D0100 by decide +kernel] at e
    rw [e]
    unfold byteAt
    rw [show (epdAddr cp + 1) / 4 * 4 = epdAddr cp by omega, show (epdAddr cp + 1) % 4 = 1 by omega, set_eq]
    rfl
  · rcases l with _ | ⟨a, _ | ⟨b, _ | ⟨c, _ | ⟨d, l⟩⟩⟩⟩ <;> simp [dwOf, pad] at hne hl ⊢

end CpW
end Eud.SC
