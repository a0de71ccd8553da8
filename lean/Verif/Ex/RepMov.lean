import Verif.Ex.Kit
import Verif.Ex.Read
import Verif.Lib.RepMov
/-
Example for C36: `f_repmovsd_epd(EPD(0x7001000), EPD(0x7000000), n)` in memory, for any number of dwords that fits.
-/

namespace Eud.SC

/-- Addresses between `lo` and `hi` are not used by the program. -/
def Layout.farB (L : Layout) (X : List (Nat × Nat)) (lo hi : Nat) : Bool :=
  L.P.blks.all (fun b => decide (b.t + 2408 ≤ lo) || decide (hi ≤ b.t)) && L.P.seqs.all (fun b => decide (b.t + 2408 ≤ lo) || decide (hi ≤ b.t)) &&
  L.P.vars.all (fun v => decide (v + 2408 ≤ lo) || decide (hi ≤ v)) && L.rest.all (fun r => decide (r.1 + 2408 ≤ lo) || decide (hi ≤ r.1)) && L.hid.isEmpty &&
  X.all (fun r => decide (r.1 + 2408 ≤ lo) || decide (hi ≤ r.1))

theorem Layout.Laid.far {L : Layout} {p : Nat} {vals : List W} (h : L.Laid p vals) {X : List (Nat × Nat)} {lo hi x : Nat} (hf : L.farB X lo hi = true) (h1 : lo ≤ x) (h2 : x < hi) : (L.pin X).cell x := by
  simp only [Layout.farB, Bool.and_eq_true, List.all_eq_true, Bool.or_eq_true, decide_eq_true_eq] at hf
  obtain ⟨⟨⟨⟨⟨f1, f2⟩, f3⟩, f4⟩, f5⟩, f6⟩ := hf
  refine Layout.pin_cell (h.cellB ?_) (fun r hr => by have := f6 r hr; omega)
  simp only [Layout.cellB, Bool.and_eq_true, List.all_eq_true, Bool.or_eq_true, decide_eq_true_eq]
  refine ⟨⟨⟨⟨fun b hb => .inl ?_, fun b hb => ?_⟩, fun v hv => ?_⟩, fun r hr => by have := f4 r hr; omega⟩, f5⟩
  · have := f1 b hb; omega
  · have := f2 b hb; omega
  · have := f3 v hv
    simp only [List.mem_cons, List.not_mem_nil, or_false]
    omega

namespace ExRepMov

def cpc : Nat := 0xE000000
def rend : Nat := trigAt 0
def A (t : Nat) : Nat := trigAt (t + 1)
def q1 : RReq := .get 0xFFFFFFFF 0
def T : RT := RT.run RT.empty ExRead.base
def rt : Nat := ((T.req q1).map Prod.snd).getD 0
def rd : Nat := A rt
def t0 : Nat := trigAt 82
def ls : Nat := trigAt 83
def cn : Nat := trigAt 84
def fe : Nat := trigAt 85
def nptr : Nat := fe + 4
def v : Nat := exVar 0
def src : Nat := 0x7000000
def dst : Nat := 0x7001000

def b0 : SBlk := ⟨t0, ⟨[], [aMem (ls + 4) .set (BitVec.ofNat 32 rd), aMem (rend + 4) .set (BitVec.ofNat 32 cn), aMem (cpc + 344) .set (epd cpAddr), aMem (cpc + 4) .set (BitVec.ofNat 32 fe)].map PA.a⟩, some ls, false⟩
def b1 : SBlk := ⟨ls, ⟨[cMem (ls + 8) .exactly 0].map PC.c, [aMem (ls + 4) .set (BitVec.ofNat 32 cpc)].map PA.a⟩, none, false⟩
def b2 : SBlk := ⟨cn, ⟨[], [aMem (rend + 344) .add 1, aMem cpAddr .add 1, aMem (ls + 8) .sub 1].map PA.a⟩, some ls, false⟩

def args : List (Nat × Src) := repArgs rend ls (.const (epd dst)) (.const (epd src)) (.var v)
def L00 : Layout := ⟨⟨[], [], []⟩, [], []⟩
def c1 (L : Layout) : Site := ⟨t0, fe, nptr, haltAt, .prim (RepRel L rend cpc ls cn fe), [], args⟩
def SM (L : Layout) : Nat → (b k x n m : Nat) → Option Emitted := fun _ => callS (c1 L)
def M : Emitted := emitD retAt (SM L00) (.site 0) 0 0 haltAt 0 0

def blks : List SBlk := rendBlk rend :: ExRead.tabBlks A rend 0 T.trigs ++ [b0, b1, b2] ++ fendBlks [] fe
def L0 : Layout := ⟨⟨blks, M.seqs, [v]⟩, [], []⟩
def X : List (Nat × Nat) := pvPins cpc
def L : Layout := L0.pin X

/-- The cached player is 5; three dwords of the source. -/
def holes (x y z : W) : List (Nat × W) := [(cpc + 348, 5), (cpc + 352, pmod .set), (src, x), (src + 4, y), (src + 8, z)]
def mem (n : Nat) (x y z : W) : Mem := L0.mem exBuf [BitVec.ofNat 32 n] (pinHoles X ++ holes x y z)

theorem laid (n : Nat) : L0.Laid exBuf [BitVec.ofNat 32 n] := Layout.laidB_spec (show L0.laidB exBuf 1 = true by decide +kernel)
theorem pins (n : Nat) : L0.pinB exBuf [BitVec.ofNat 32 n].length X = true := show L0.pinB exBuf 1 X = true by decide +kernel
theorem wf : L.Wf := (laid 0).pinWf (pins 0)
theorem ok (n : Nat) (x y z : W) : L.Ok (mem n x y z) := (laid n).pinOk (pins n) (holes x y z)
theorem pv : PVar L cpc := PVar.pin (laid 0) (fun _ h => h) (by decide +kernel)
theorem cell {x : Nat} (h : L0.pinCellB X x = true) : L.cell x := (laid 0).pinCellB h
theorem cellN {x : Nat} (h : L0.pinCellB X x = true) : ¬ L.priv x := (cell h).2
theorem vars : ∀ w ∈ [v], w ∈ L.P.vars := fun _ h => h

theorem tab : RdTab L T A rend := by
  have hc : ∀ x ∈ [rend + 4, rend + 344, rend + 348, cpAddr], L0.pinCellB X x = true := by decide +kernel
  refine ⟨fun t r h => ?_, List.mem_cons_self .., cell (hc _ (by simp)), cell (hc _ (by simp)), cell (hc _ (by simp)), cell (hc _ (by simp)), by decide⟩
  have := ExRead.tabBlks_mem (A := A) (rend := rend) (k := 0) h
  rw [Nat.zero_add] at this
  exact List.mem_append_left _ (List.mem_append_left _ (List.mem_cons_of_mem _ this))

theorem rdr : Reader L rend rd 0xFFFFFFFF 0 :=
  Reader.of (q := q1) wf ExRead.base [] (by decide) (show T.req q1 = some (T, rt) by decide +kernel) tab

theorem rk : RepOk L rend cpc t0 ls cn rd fe where
  tab := ⟨T, A, tab⟩
  rdr := rdr
  pv := pv
  b0 := List.mem_append_left _ (List.mem_append_right _ (.head _))
  b1 := List.mem_append_left _ (List.mem_append_right _ (.tail _ (.head _)))
  b2 := List.mem_append_left _ (List.mem_append_right _ (.tail _ (.tail _ (.head _))))
  c4 := cell (by decide +kernel)
  c8 := cell (by decide +kernel)
  nd := by decide +kernel
  lt := by decide +kernel

theorem fend : FuncEnd L fe nptr [] := fendBlks_end (frets := []) (fun x h => List.mem_append_right _ h) (cell (by decide +kernel)) (by simp) (by simp)
theorem f1 : FuncCode L t0 fe nptr [] (.prim (RepRel L rend cpc ls cn fe)) := ⟨⟨0, 0, rep_code wf rk fe 0 0⟩, fend⟩

theorem inM : M.Into L := .of_eq (s := M.seqs) (r := []) (fun x h => by rw [show M.blks = [] by decide +kernel] at h; simp at h) rfl (fun _ h => h) (by decide +kernel) (by simp)
theorem code : Code L retAt 0 0 ((c1 L).stmt L) M.e haltAt := by
  refine emitD_code (S := SM L00) (f := fun _ => (c1 L).stmt L) (es := .site 0) (n := 0) (m := 0) ?_ (by decide +kernel) inM
  intro j b k x n m E h hi
  exact callS_code (c := c1 L) wf f1 (by decide +kernel) h hi

theorem hole_at (x y z : W) (a : Nat) (h : ([cpc + 348, cpc + 352, src, src + 4, src + 8] ++ (pinHoles X).map Prod.fst).contains a = false) : (pinHoles X ++ holes x y z).find? (fun r => r.1 == a) = none := by
  simp only [List.contains_eq_mem, decide_eq_false_iff_not, List.mem_append, List.mem_map, not_or, not_exists, not_and, List.mem_cons, List.not_mem_nil, or_false] at h
  rw [List.find?_eq_none]
  intro r hr
  rcases List.mem_append.1 hr with hr | hr
  · have := h.2 r hr
    simpa using this
  · simp only [holes, List.mem_cons, List.not_mem_nil, or_false] at hr
    obtain ⟨⟨h1, h2, h3, h4, h5⟩, -⟩ := h
    rcases hr with rfl | rfl | rfl | rfl | rfl <;> simp only [beq_iff_eq] <;> exact Ne.symm ‹_›

theorem far {x : Nat} (h1 : src ≤ x) (h2 : x < 0x7F00000) : L.cell x := (laid 0).far (lo := 0x7000000) (hi := 0x7F00000) (show L0.farB X 0x7000000 0x7F00000 = true by decide +kernel) h1 h2

/-- The machine copies `n` dwords. -/
theorem run (n : Nat) (hn : n ≤ 1024) (x y z : W) : ∃ m', Reaches ⟨mem n x y z, M.e⟩ ⟨m', haltAt⟩ ∧ m' cpAddr = 5 ∧ (∀ i < n, m' (dst + 4 * i) = mem n x y z (src + 4 * i)) ∧
    (2 < n → m' dst = x ∧ m' (dst + 4) = y ∧ m' (dst + 8) = z) ∧ (∀ i, n ≤ i → i < 2048 → m' (dst + 4 * i) = mem n x y z (dst + 4 * i)) := by
  have hl := laid n
  have hvv : ∀ a, L.cell a → ∀ m, L.view m a = m a := fun a ha m => Layout.view_at ha.2
  have fr : ∀ y ∈ [cpc + 348, cpc + 352, src, src + 4, src + 8], L0.Free exBuf 1 y := by decide +kernel
  have i352 : L.view (mem n x y z) (cpc + 352) = pmod .set := by rw [hvv _ (cell (by decide +kernel))]; exact (hl.free (fr _ (by simp)) (by decide) _).trans rfl
  have i348 : L.view (mem n x y z) (cpc + 348) = 5 := by rw [hvv _ (cell (by decide +kernel))]; exact (hl.free (fr _ (by simp)) (by decide) _).trans rfl
  have ir : L.view (mem n x y z) (rend + 348) = 0 := by
    rw [hvv _ (cell (by decide +kernel))]
    have := (hl.hole (show rendBlk rend ∈ L0.P.blks from List.mem_cons_self ..) (o := 348) (by decide) (by decide +kernel) (by decide) (pinHoles X ++ holes x y z)).2
    rw [show (pinHoles X ++ holes x y z).find? (fun r => r.1 == (rendBlk rend).t + 348) = none from hole_at x y z _ (by decide +kernel)] at this
    exact this
  have iv : L.view (mem n x y z) (v + 348) = BitVec.ofNat 32 n := by rw [hvv _ (cell (by decide +kernel))]; exact (hl.ok _).2 0 (by simp)
  have e1 : mem n x y z src = x := (hl.free (fr _ (by simp)) (by decide) _).trans rfl
  have e2 : mem n x y z (src + 4) = y := (hl.free (fr _ (by simp)) (by decide) _).trans rfl
  have e3 : mem n x y z (src + 8) = z := (hl.free (fr _ (by simp)) (by decide) _).trans rfl
  have nn : ((Src.var v).valM (L.view (mem n x y z))).toNat = n := by
    simp only [Src.valM, iv, BitVec.toNat_ofNat]
    omega
  have ed : ∀ i < n, epdAddr (epd dst + BitVec.ofNat 32 i) = dst + 4 * i := fun i h => by
    rw [epdAddr_off, epdAddr_epd (by decide) (by decide)]; simp only [dst]; omega
  have es : ∀ i < n, epdAddr (epd src + BitVec.ofNat 32 i) = src + 4 * i := fun i h => by
    rw [epdAddr_off, epdAddr_epd (by decide) (by decide)]; simp only [src]; omega
  have hS : ∀ x, src ≤ x → x < 0x7F00000 → x ∉ nptr :: repScr rend cpc ls ++ [cpc + 348, cpc + 352] := by
    have : ∀ x ∈ nptr :: repScr rend cpc ls ++ [cpc + 348, cpc + 352], x < src ∨ 0x7F00000 ≤ x := by decide +kernel
    intro x h1 h2 h3
    have := this x h3
    omega
  have hin : RepIn L (nptr :: repScr rend cpc ls ++ [cpc + 348, cpc + 352]) n (epd dst) (epd src) := by
    constructor
    · intro i hi
      rw [ed i hi]
      refine ⟨.inr ?_, far (by simp only [dst, src]; omega) (by simp only [dst]; omega), hS _ (by simp only [dst, src]; omega) (by simp only [dst]; omega)⟩
      have : (epd dst).toNat = 27908903 := by decide +kernel
      rw [BitVec.toNat_add, this, BitVec.toNat_ofNat]
      omega
    · intro i hi
      rw [es i hi]
      exact ⟨(far (by omega) (by simp only [src]; omega)).2, hS _ (by omega) (by simp only [src]; omega)⟩
  obtain ⟨s1, x1, -, q2, q3⟩ := C36_repmovsd (back := haltAt) (s := L.view (mem n x y z)) (dst := .const (epd dst)) (src := .const (epd src)) (cnt := .var v) wf rk fend
    (callOkB_spec (fun _ => cell) vars (by decide +kernel)) (by decide) i352 ir (by decide) (by rw [nn]; exact hin)
  rw [nn] at q3
  simp only [Src.valM] at q3
  obtain ⟨m', rr, -, hv⟩ := C25_structured wf x1 code _ (ok n x y z) rfl
  have hm : ∀ y, L.cell y → m' y = s1 y := fun y hy => by rw [← hv, hvv y hy]
  have hcp : ∀ i < n, m' (dst + 4 * i) = mem n x y z (src + 4 * i) := by
    intro i hi
    have hf := far (x := dst + 4 * i) (by simp only [dst, src]; omega) (by simp only [dst]; omega)
    rw [hm _ hf, q3 _ (fun h => hS (dst + 4 * i) (by simp only [dst, src]; omega) (by simp only [dst]; omega) (List.mem_append_left _ h)),
      movsd_copy (by decide) (by decide) (by simp only [dst]; omega) (by simp only [src]; omega) (.inr (by simp only [dst, src]; omega)) i hi]
    exact hvv _ (far (by omega) (by simp only [src]; omega)) _
  refine ⟨m', rr, ?_, hcp, ?_, ?_⟩
  · rw [hm _ (cell (by decide +kernel)), q2, i348]
  · intro h
    exact ⟨(hcp 0 (by omega)).trans e1, (hcp 1 (by omega)).trans e2, (hcp 2 (by omega)).trans e3⟩
  · intro i h1 h2
    have hf := far (x := dst + 4 * i) (by simp only [dst, src]; omega) (by simp only [dst]; omega)
    rw [hm _ hf, q3 _ (fun h => hS (dst + 4 * i) (by simp only [dst, src]; omega) (by simp only [dst]; omega) (List.mem_append_left _ h)),
      movsd_other (by decide) (by simp only [dst]; omega) (.inr (by omega))]
    exact hvv _ hf _

end ExRepMov

end Eud.SC
