import Verif.Ex.Kit
import Verif.Lib.ListLoop
/-
Example for C59: sprites are counted and their pointers added up, with `EUDLoopSprite`, in memory.
-/

namespace Eud.SC
namespace ExSpriteLoop

def cpc : Nat := 0xE000000

def D : DwepRd := ⟨trigAt 0, trigAt 1, trigAt 36, trigAt 2, fendPtr [trigAt 0, trigAt 1] (trigAt 2), cpc, trigAt 2, 300⟩

def pv : Nat := exVar 0
def ev : Nat := exVar 1
def cnt : Nat := exVar 2
def sum : Nat := exVar 3
def yv : Nat := exVar 4

def S : Nat → (b k x n m : Nat) → Option Emitted := fun _ => vpS cpc (trigAt 2) [aMem (cpc + 344) .set (epd cpAddr)]
def F1 : Emitted := emitD D.fe S (.seq (.base (rdCore 300 (dwepdInits (D.p + 348) (D.q + 348)) (dwepdItems (D.p + 348) (D.q + 348)))) (.site 0)) 0 0 (trigAt 2) 3 0

/-- The sprites of each row. -/
def sprites : Nat → List W
  | 0 => [0x62A000]
  | 200 => [0x62B004, 0x62A108]
  | _ => []

def L00 : Layout := ⟨⟨[], [], []⟩, [], []⟩
def B0 : Nat := trigAt 42
def B1 : Nat := trigAt 42
def c1 (L : Layout) : Site := ⟨D.fs, D.fe, D.np, B0, D.body L, [(D.p, pv + 348), (D.q, ev + 348)], [(cpAddr, .var yv)]⟩
def c2 (L : Layout) : Site := ⟨D.fs, D.fe, D.np, B1, D.body L, [(D.p, pv + 348), (D.q, ev + 348)], [(cpAddr, .var ev)]⟩
def SM (L : Layout) : Nat → (b k x n m : Nat) → Option Emitted
  | 0 => callS (c1 L)
  | _ => callS (c2 L)

/-- `cnt += 1; sum += ptr` -/
def body (p : Nat) : Stmt := .asg [⟨cnt + 348, .add, .const 1⟩, ⟨sum + 348, .add, .var p⟩]

def es : ES := .seq (.base (.asg [⟨yv + 348, .set, .const (epd 0x629688)⟩]))
  (.loop false (.base .skip) [cMem (yv + 348) .atMost (epd 0x629688 + 255)]
    (.seq (.seq (.site 0) (.loop false (.base .skip) [cMem (pv + 348) .atLeast 1] (.base (body pv)) (.seq (.base (.asg [⟨ev + 348, .add, .const 1⟩])) (.site 1))))
      (.base (.asg [⟨yv + 348, .add, .const 1⟩]))) (.base .skip))
def M : Emitted := emitD retAt (SM L00) es 0 0 haltAt 40 0

def L0 : Layout := ⟨⟨fendBlks [D.p, D.q] D.fe ++ F1.blks ++ M.blks, M.seqs, (List.range 5).map exVar⟩, M.rest, []⟩
def X : List (Nat × Nat) := pvPins cpc
def L : Layout := L0.pin X

def vs (x y : W) : List W := [1, 2, x, y, 3]
def holes : List (Nat × W) := [(cpc + 348, 5), (cpc + 352, pmod .set), (rowAt 0, 0x62A000), (rowAt 200, 0x62B004), (0x62B008, 0x62A108)]
def mem (x y : W) : Mem := L0.mem exBuf (vs x y) (pinHoles X ++ holes)

theorem laid (x y : W) : L0.Laid exBuf (vs x y) := Layout.laidB_spec (show L0.laidB exBuf 5 = true by decide +kernel)
theorem pins (x y : W) : L0.pinB exBuf (vs x y).length X = true := show L0.pinB exBuf 5 X = true by decide +kernel
theorem wf : L.Wf := (laid 0 0).pinWf (pins 0 0)
theorem ok (x y : W) : L.Ok (mem x y) := (laid x y).pinOk (pins x y) holes
theorem pvar : PVar L cpc := PVar.pin (laid 0 0) (fun _ h => h) (by decide +kernel)
theorem cell {x : Nat} (h : L0.pinCellB X x = true) : L.cell x := (laid 0 0).pinCellB h
theorem vars : ∀ v ∈ (List.range 5).map exVar, v ∈ L.P.vars := fun _ h => h

theorem in1 : F1.Into L := .of_eq (s := []) (r := []) (fun x h => by simp only [L, Layout.pin, L0, List.mem_append]; simp [h]) (by decide +kernel) (by simp) (by decide +kernel) (by simp)
theorem inM : M.Into L := ⟨fun x h => by simp only [L, Layout.pin, L0, List.mem_append]; exact Or.inr h, fun _ h => h, fun x h => by simp only [L, Layout.pin, L0, List.mem_append]; exact Or.inl h⟩

theorem f1 : FuncCode L D.fs D.fe D.np [D.p, D.q] (D.body L) := by
  rw [show D.fs = F1.e by decide +kernel]
  refine ⟨⟨0, 0, emitD_code (f := fun _ => cpBack L cpc (trigAt 2)) (fun j b k x n m E h hi => vpS_code wf pvar h hi) (by decide +kernel) in1⟩, fendBlks_end (frets := [D.p, D.q]) (fend := D.fe) (fun x h => ?_) (cell (by decide +kernel)) ?_ (by decide)⟩
  · simp only [L, Layout.pin, L0, List.mem_append]; simp [h]
  · have h : ∀ v ∈ [D.p, D.q], L0.pinCellB X (v + 4) = true ∧ v < 2 ^ 32 := by decide +kernel
    exact fun v hv => ⟨cell (h v hv).1, (h v hv).2⟩

def prog : Stmt := loopSprite L D yv (pv + 348) ev B0 B1 (body pv)

theorem code : Code L retAt 0 0 prog M.e haltAt := by
  refine emitD_code (S := SM L00) (f := fun j => match j with | 0 => (c1 L).stmt L | _ => (c2 L).stmt L) (es := es) (n := 40) (m := 0) ?_ (by decide +kernel) inM
  intro j b k x n m E h hi
  match j with
  | 0 => exact callS_code (c := c1 L) wf f1 (by decide +kernel) h hi
  | _ + 1 => exact callS_code (c := c2 L) wf f1 (by decide +kernel) h hi

theorem rows : ∀ r < 256, L0.Free exBuf 5 (rowAt r) ∧ L0.pinCellB X (rowAt r) = true ∧ rowAt r ∉ [cpAddr, D.np, D.p + 344, D.q + 344, D.p + 348, D.q + 348] ∧ rowAt r ∉ (yv + 348) :: D.scr (pv + 348) (ev + 348) ∧ rowAt r ∉ [cnt + 348, sum + 348] := by decide +kernel

theorem sok : SprOk L D yv (pv + 348) ev B0 B1 where
  fn := ⟨wf, cell (by decide +kernel), ⟨cell (by decide +kernel), cell (by decide +kernel)⟩, by decide, ⟨pvar, by decide, by decide⟩, by decide, f1, by decide⟩
  cp := cell (by decide +kernel)
  ce := cell (by decide +kernel)
  cy := cell (by decide +kernel)
  hd := fun r hr => ⟨⟨(cell (rows r hr).2.1).2, (rows r hr).2.2.1⟩, (rows r hr).2.2.2.1⟩
  b := by decide
  call0 := callOkB_spec (fun _ => cell) vars (by decide +kernel)
  call1 := callOkB_spec (fun _ => cell) vars (by decide +kernel)
  cr := by decide
  md := by decide
  ys := by decide

/-- What is known after the sprites `v`. -/
def Inv (x y : W) (v : List W) (s : Mem) : Prop := s (cnt + 348) = x + BitVec.ofNat 32 v.length ∧ s (sum + 348) = y + v.foldl (· + ·) 0

/-- One run of the body. -/
theorem body_does {p : Nat} (hp : p ∈ (List.range 5).map exVar) (hne : p ≠ cnt) {x y : W} {v : List W} {s : Mem} (hi : Inv x y v s) :
    Does L (body p) s fun s2 => Inv x y (v ++ [s (p + 348)]) s2 ∧ Only [cnt + 348, sum + 348] s s2 := by
  refine Does.asg ?_ ?_ ?_
  · simp only [List.mem_cons, List.not_mem_nil, or_false, forall_eq_or_imp, forall_eq]
    exact ⟨cell (by decide +kernel), cell (by decide +kernel)⟩
  · simp only [List.mem_cons, List.not_mem_nil, or_false, forall_eq_or_imp, forall_eq]
    exact ⟨fun v h => (by cases h), fun v h => by cases h; exact vars _ hp⟩
  · have n1 : (sum + 348 : Nat) ≠ cnt + 348 := by decide
    have n2 : p + 348 ≠ cnt + 348 := by omega
    have e : runAsg [⟨cnt + 348, .add, .const 1⟩, ⟨sum + 348, .add, .var p⟩] s = (s.set (cnt + 348) (s (cnt + 348) + 1)).set (sum + 348) (s (sum + 348) + s (p + 348)) := by
      simp only [runAsg, Src.valM, arith, set_ne n1, set_ne n2]
    rw [e]
    refine ⟨⟨?_, ?_⟩, ?_⟩
    · rw [set_ne n1.symm, set_eq, hi.1, List.length_append, List.length_singleton, BitVec.ofNat_add, BitVec.add_assoc]
      rfl
    · rw [set_eq, hi.2, List.foldl_append, List.foldl_cons, List.foldl_nil, BitVec.add_assoc]
    · intro z hz'
      simp only [List.mem_cons, List.not_mem_nil, or_false, not_or] at hz'
      rw [set_ne hz'.2, set_ne hz'.1]

/-- The nodes after `q` are still there. -/
theorem tail_at {stop : W → Prop} {s s2 : Mem} {q : W} {l : List W} (h : NodesAt stop s q (q :: l)) (ho : Only [cnt + 348, sum + 348] s s2) (hm : ∀ r ∈ q :: l, r.toNat + 4 ∉ [cnt + 348, sum + 348]) :
    NodesAt stop s2 (s2 (q.toNat + 4)) l := by
  cases h with
  | cons _ h =>
    rw [ho _ (hm q (by simp))]
    exact h.congr fun r hr => ho _ (hm r (by simp [hr]))

/-- The sprites of the rows before `r`. -/
def seen (r : Nat) : List W := (List.range r).flatMap sprites

theorem seen_succ (r : Nat) : seen (r + 1) = seen r ++ sprites r := by
  simp only [seen, List.range_succ, List.flatMap_append, List.flatMap_cons, List.flatMap_nil, List.append_nil]

/-- What holds for all sprites. -/
theorem all {P : Nat → Prop} (h : P 0x62A000 ∧ P 0x62B004 ∧ P 0x62A108) (r : Nat) : ∀ q ∈ sprites r, P q.toNat := by
  unfold sprites
  split
  · simp only [List.mem_singleton, forall_eq]
    exact h.1
  · simp only [List.mem_cons, List.not_mem_nil, or_false, forall_eq_or_imp, forall_eq]
    exact h.2
  · simp

theorem loop {x y : W} {s : Mem} (h1 : s (cnt + 348) = x) (h2 : s (sum + 348) = y) (hm : s (D.cpc + 352) = pmod .set) (hl : ∀ r < 256, NodesAt (· = 0) s (s (rowAt r)) (sprites r)) :
    Wp L prog s fun o s' => o = .nrm ∧ Inv x y (seen 256) s' := by
  refine C59_sprite sok (ns := sprites) (I := fun r v => Inv x y (seen r ++ v)) ?_ ?_ ?_ ?_ ?_ ⟨by rw [h1]; exact (BitVec.add_zero x).symm, by rw [h2]; exact (BitVec.add_zero y).symm⟩ hm hl
  · have h := all (P := fun n => n % 4 = 0 ∧ n + 4 < 2 ^ 32 ∧ L0.pinCellB X (n + 4) = true ∧ n + 4 ∉ [cpAddr, D.np, D.p + 344, D.q + 344, D.p + 348, D.q + 348] ∧ n + 4 ∉ (yv + 348) :: D.scr (pv + 348) (ev + 348)) (by decide +kernel)
    exact fun r _ q hq => ⟨(h r q hq).1, (h r q hq).2.1, ⟨(cell (h r q hq).2.2.1).2, (h r q hq).2.2.2.1⟩, (h r q hq).2.2.2.2⟩
  · rintro r v s1 s2 ho ⟨a1, a2⟩
    exact ⟨(ho _ (by decide +kernel)).trans a1, (ho _ (by decide +kernel)).trans a2⟩
  · intro r v q l s1 hr e hi ha hp he hc
    refine Wp.mono (Does.wp (body_does (p := pv) (by decide) (by decide) hi)) ?_
    rintro o s2 ⟨rfl, i2, o2⟩
    have hm' := all (P := fun n => n + 4 ∉ [cnt + 348, sum + 348]) (by decide +kernel)
    refine ⟨by rw [← List.append_assoc, ← hp]; exact i2, ⟨(o2 _ (by decide +kernel)).trans ha.md, (o2 _ (by decide +kernel)).trans ha.y, fun j g1 g2 => ?_⟩, (o2 _ (by decide +kernel)).trans he, tail_at hc o2 fun r' hr' => hm' r r' (by rw [e]; exact List.mem_append_right _ hr')⟩
    rw [o2 _ (rows j g2).2.2.2.2]
    exact (ha.rows j g1 g2).congr fun q hq => o2 _ (hm' j q hq)
  · intro r s1 _ hi
    simp only [seen_succ, List.append_nil]
    exact hi
  · intro s1 hi
    rw [List.append_nil] at hi
    exact ⟨rfl, hi⟩

/-- The machine: all three sprites are counted. -/
theorem run (x y : W) : ∃ m', Reaches ⟨mem x y, M.e⟩ ⟨m', haltAt⟩ ∧ m' (cnt + 348) = x + 3 ∧ m' (sum + 348) = y + (0x62A000 + 0x62B004 + 0x62A108) := by
  have hl := laid x y
  have hv0 : ∀ z, L0.pinCellB X z = true → ∀ m, L.view m z = m z := fun z hz m => Layout.view_at (cell hz).2
  have fv : ∀ z, L0.Free exBuf 5 z → L0.pinCellB X z = true → L.view (mem x y) z = match (pinHoles X ++ holes).find? (fun q => q.1 == z) with | some q => q.2 | none => (0 : W) := fun z h1 h2 => by
    rw [hv0 _ h2]
    exact hl.free h1 (by decide) _
  have head : ∀ r < 256, (match (pinHoles X ++ holes).find? (fun q => q.1 == rowAt r) with | some q => q.2 | none => (0 : W)) = (sprites r).headD 0 := by decide +kernel
  have nodes : ∀ r < 256, NodesAt (· = 0) (L.view (mem x y)) (L.view (mem x y) (rowAt r)) (sprites r) := by
    intro r hr
    rw [fv _ (rows r hr).1 (rows r hr).2.1, head r hr]
    unfold sprites
    split
    · refine .cons (by decide) ?_
      rw [fv _ (by decide +kernel) (by decide +kernel)]
      exact .nil (by decide +kernel)
    · refine .cons (by decide) ?_
      rw [fv _ (by decide +kernel) (by decide +kernel), show (match (pinHoles X ++ holes).find? (fun q => q.1 == BitVec.toNat ([0x62B004, 0x62A108].headD (0 : W)) + 4) with | some q => q.2 | none => (0 : W)) = (0x62A108 : W) by decide +kernel]
      refine .cons (by decide) ?_
      rw [fv _ (by decide +kernel) (by decide +kernel)]
      exact .nil (by decide +kernel)
    · exact .nil rfl
  obtain ⟨o, s1, x1, rfl, e1, e2⟩ := loop (x := x) (y := y) (by rw [hv0 _ (by decide +kernel)]; exact (hl.ok _).2 2 (by simp [vs])) (by rw [hv0 _ (by decide +kernel)]; exact (hl.ok _).2 3 (by simp [vs]))
    ((fv _ (by decide +kernel) (by decide +kernel)).trans (by decide +kernel)) nodes
  obtain ⟨m', rr, -, hv⟩ := C25_structured wf x1 code _ (ok x y) rfl
  refine ⟨m', rr, ?_, ?_⟩
  · rw [← hv0 (cnt + 348) (by decide +kernel) m', hv, e1]
    exact congrArg (x + ·) (by decide +kernel)
  · rw [← hv0 (sum + 348) (by decide +kernel) m', hv, e2]
    exact congrArg (y + ·) (by decide +kernel)

end ExSpriteLoop
end Eud.SC
