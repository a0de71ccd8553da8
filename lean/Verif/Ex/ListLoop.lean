import Verif.Ex.Kit
import Verif.Lib.ListLoop
/-
Example for C59: bullets and units are counted and their pointers added up, with `EUDLoopBullet` and `EUDLoopUnit`, in memory.
-/

namespace Eud.SC

/-- The trigger that checks for an empty dword, and the bit tests. -/
def emS (chk ini : Nat) (inits : List (Nat × W)) (items : List (Nat × List (Nat × W))) (b k x n m : Nat) : Option Emitted :=
  match emit 0 (rdCore 0 inits items) b k x n m with
  | some E => if E.e = ini ∧ chk = trigAt E.n ∧ ini < 2 ^ 32 ∧ x < 2 ^ 32 ∧ placedAB (chk + 328) (emActs chk x inits) then
      some ⟨chk, E.n + 1, E.m, E.blks ++ [⟨chk, ⟨[cpZero.c], (emActs chk x inits).map PA.a⟩, none, false⟩], E.seqs, E.rest⟩ else none
  | none => none

theorem emS_code {L : Layout} (hw : L.Wf) {chk ini : Nat} {inits : List (Nat × W)} {items : List (Nat × List (Nat × W))} (h4 : ¬ L.priv (chk + 4)) {r b k x n m : Nat} {E : Emitted}
    (h : emS chk ini inits items b k x n m = some E) (hi : E.Into L) : Code L r b k (.prim (EmptyRel L chk ini x inits items)) E.e x := by
  unfold emS at h
  split at h
  · rename_i A hA
    split at h
    · rename_i hh
      obtain ⟨e1, e2, e3, e4, e5⟩ := hh
      cases h
      refine empty_code hw (hi.blks _ (by simp)) h4 (placedAB_spec e5) e3 e4 (u := 0) ⟨b, k, ?_⟩
      rw [← e1]
      exact emit_code hA ⟨fun y hy => hi.blks y (by simp [hy]), fun y hy => hi.seqs y (by simp [hy]), fun y hy => hi.rest y (by simp [hy])⟩
    · cases h
  · cases h

namespace ExListLoop

def cpc : Nat := 0xE000000

def D : DwepRd := ⟨trigAt 0, trigAt 1, trigAt 36, trigAt 2, fendPtr [trigAt 0, trigAt 1] (trigAt 2), cpc, trigAt 2, 300⟩
def U : UnRd := ⟨trigAt 60, trigAt 61, trigAt 83, trigAt 62, fendPtr [trigAt 60, trigAt 61] (trigAt 62), cpc, trigAt 62, trigAt 83, trigAt 82, trigAt 63⟩

def pv : Nat := exVar 0
def ev : Nat := exVar 1
def cnt : Nat := exVar 2
def sum : Nat := exVar 3
def pu : Nat := exVar 4
def eu : Nat := exVar 5

def S : Nat → (b k x n m : Nat) → Option Emitted
  | 0 => vpS cpc (trigAt 2) [aMem (cpc + 344) .set (epd cpAddr)]
  | 1 => vpS cpc (trigAt 62) [aMem (U.chk + 4) .set (BitVec.ofNat 32 U.ini), aMem (cpc + 344) .set (epd cpAddr)]
  | _ => fun b k x n m => if x = U.fin then emS U.chk U.ini (genInits U.rs) (genItems (maskBits unitMask) U.rs) b k x n m else none

def F1 : Emitted := emitD D.fe S (.seq (.base (rdCore 300 (dwepdInits (D.p + 348) (D.q + 348)) (dwepdItems (D.p + 348) (D.q + 348)))) (.site 0)) 0 0 (trigAt 2) 3 0
def F2 : Emitted := emitD U.fe S (.seq (.site 2) (.site 1)) 0 0 (trigAt 62) 63 0

/-- The first bullet and the first unit. -/
def hB : Nat := 0x64DEC4
def hU : Nat := 0x628430

def bullets : List W := [0x64B348, 0x64B2D8, 0x64B500]
def units : List W := [BitVec.ofNat 32 (0x59CCA8 + 336 * 5), 0x59CCA8, BitVec.ofNat 32 (0x59CCA8 + 336 * 1699)]

def L00 : Layout := ⟨⟨[], [], []⟩, [], []⟩
def c1 (L : Layout) : Site := ⟨D.fs, D.fe, D.np, trigAt 92, D.body L, [(D.p, pv + 348), (D.q, ev + 348)], [(cpAddr, .const (epd hB))]⟩
def c2 (L : Layout) : Site := ⟨D.fs, D.fe, D.np, trigAt 92, D.body L, [(D.p, pv + 348), (D.q, ev + 348)], [(cpAddr, .var ev)]⟩
def c3 (L : Layout) : Site := ⟨U.fs, U.fe, U.np, trigAt 90, U.body L, [(U.p, pu + 348), (U.q, eu + 348)], [(cpAddr, .const (epd hU))]⟩
def c4 (L : Layout) : Site := ⟨U.fs, U.fe, U.np, trigAt 90, U.body L, [(U.p, pu + 348), (U.q, eu + 348)], [(cpAddr, .var eu)]⟩
def SM (L : Layout) : Nat → (b k x n m : Nat) → Option Emitted
  | 0 => callS (c1 L)
  | 1 => callS (c2 L)
  | 2 => callS (c3 L)
  | _ => callS (c4 L)

/-- `cnt += 1; sum += ptr` -/
def body (p : Nat) : Stmt := .asg [⟨cnt + 348, .add, .const 1⟩, ⟨sum + 348, .add, .var p⟩]

def es : ES := .seq
  (.seq (.site 0) (.loop false (.base .skip) (listConds (pv + 348) none) (.base (body pv)) (.seq (.base (.asg [⟨ev + 348, .add, .const 1⟩])) (.site 1))))
  (.seq (.site 2) (.loop true (.base .skip) [cMem (pu + 348) .exactly 0] (.base (body pu)) (.seq (.base (.asg [⟨eu + 348, .add, .const 1⟩])) (.site 3))))
def M : Emitted := emitD retAt (SM L00) es 0 0 haltAt 90 0

def L0 : Layout := ⟨⟨fendBlks [D.p, D.q] D.fe ++ F1.blks ++ fendBlks [U.p, U.q] U.fe ++ F2.blks ++ M.blks, M.seqs, (List.range 6).map exVar⟩, M.rest, []⟩
def X : List (Nat × Nat) := pvPins cpc
def L : Layout := L0.pin X

def vs (x y : W) : List W := [1, 2, x, y, 3, 4]
def nexts (h : Nat) : List W → List (Nat × W)
  | [] => [(h, 0)]
  | p :: l => (h, p) :: nexts (p.toNat + 4) l
/-- The cached player is 5. -/
def holes : List (Nat × W) := [(cpc + 348, 5), (cpc + 352, pmod .set), (U.chk + 4, BitVec.ofNat 32 U.ini)] ++ nexts hB bullets ++ nexts hU units
def mem (x y : W) : Mem := L0.mem exBuf (vs x y) (pinHoles X ++ holes)

theorem laid (x y : W) : L0.Laid exBuf (vs x y) := Layout.laidB_spec (show L0.laidB exBuf 6 = true by decide +kernel)
theorem pins (x y : W) : L0.pinB exBuf (vs x y).length X = true := show L0.pinB exBuf 6 X = true by decide +kernel
theorem wf : L.Wf := (laid 0 0).pinWf (pins 0 0)
theorem ok (x y : W) : L.Ok (mem x y) := (laid x y).pinOk (pins x y) holes
theorem pvar : PVar L cpc := PVar.pin (laid 0 0) (fun _ h => h) (by decide +kernel)
theorem cell {x : Nat} (h : L0.pinCellB X x = true) : L.cell x := (laid 0 0).pinCellB h
theorem vars : ∀ v ∈ (List.range 6).map exVar, v ∈ L.P.vars := fun _ h => h

def fS : Nat → Stmt
  | 0 => cpBack L cpc (trigAt 2)
  | 1 => vproc L cpc 0xFFFFFFFF (trigAt 62) [aMem (U.chk + 4) .set (BitVec.ofNat 32 U.ini), aMem (cpc + 344) .set (epd cpAddr)]
  | _ => .prim (EmptyRel L U.chk U.ini U.fin (genInits U.rs) (genItems (maskBits unitMask) U.rs))

theorem sites (r : Nat) (j b k x n m : Nat) (E : Emitted) (h : S j b k x n m = some E) (hi : E.Into L) : Code L r b k (fS j) E.e x := by
  match j with
  | 0 => exact vpS_code wf pvar h hi
  | 1 => exact vpS_code wf pvar h hi
  | _ + 2 =>
    simp only [S] at h
    split at h
    · rename_i hx
      subst hx
      exact emS_code wf (cell (by decide +kernel)).2 h hi
    · cases h

theorem in1 : F1.Into L := .of_eq (s := []) (r := []) (fun x h => by simp only [L, Layout.pin, L0, List.mem_append]; simp [h]) (by decide +kernel) (by simp) (by decide +kernel) (by simp)
theorem in2 : F2.Into L := .of_eq (s := []) (r := []) (fun x h => by simp only [L, Layout.pin, L0, List.mem_append]; simp [h]) (by decide +kernel) (by simp) (by decide +kernel) (by simp)
theorem inM : M.Into L := ⟨fun x h => by simp only [L, Layout.pin, L0, List.mem_append]; exact Or.inr h, fun _ h => h, fun x h => by simp only [L, Layout.pin, L0, List.mem_append]; exact Or.inl h⟩

theorem f1 : FuncCode L D.fs D.fe D.np [D.p, D.q] (D.body L) := by
  rw [show D.fs = F1.e by decide +kernel]
  refine ⟨⟨0, 0, emitD_code (sites D.fe) (by decide +kernel) in1⟩, fendBlks_end (frets := [D.p, D.q]) (fend := D.fe) (fun x h => ?_) (cell (by decide +kernel)) ?_ (by decide)⟩
  · simp only [L, Layout.pin, L0, List.mem_append]; simp [h]
  · have h : ∀ v ∈ [D.p, D.q], L0.pinCellB X (v + 4) = true ∧ v < 2 ^ 32 := by decide +kernel
    exact fun v hv => ⟨cell (h v hv).1, (h v hv).2⟩

theorem f2 : FuncCode L U.fs U.fe U.np [U.p, U.q] (U.body L) := by
  rw [show U.fs = F2.e by decide +kernel]
  refine ⟨⟨0, 0, emitD_code (sites U.fe) (by decide +kernel) in2⟩, fendBlks_end (frets := [U.p, U.q]) (fend := U.fe) (fun x h => ?_) (cell (by decide +kernel)) ?_ (by decide)⟩
  · simp only [L, Layout.pin, L0, List.mem_append]; simp [h]
  · have h : ∀ v ∈ [U.p, U.q], L0.pinCellB X (v + 4) = true ∧ v < 2 ^ 32 := by decide +kernel
    exact fun v hv => ⟨cell (h v hv).1, (h v hv).2⟩

def prog : Stmt := .seq (loopList L D hB (pv + 348) ev none (trigAt 92) (trigAt 92) (body pv)) (loopUnit L U hU (pu + 348) eu (trigAt 90) (trigAt 90) (body pu))

theorem code : Code L retAt 0 0 prog M.e haltAt := by
  refine emitD_code (S := SM L00) (f := fun j => match j with | 0 => (c1 L).stmt L | 1 => (c2 L).stmt L | 2 => (c3 L).stmt L | _ => (c4 L).stmt L) (es := es) (n := 90) (m := 0) ?_ (by decide +kernel) inM
  intro j b k x n m E h hi
  match j with
  | 0 => exact callS_code (c := c1 L) wf f1 (by decide +kernel) h hi
  | 1 => exact callS_code (c := c2 L) wf f1 (by decide +kernel) h hi
  | 2 => exact callS_code (c := c3 L) wf f2 (by decide +kernel) h hi
  | _ + 3 => exact callS_code (c := c4 L) wf f2 (by decide +kernel) h hi

theorem lok : ListOk L D hB (pv + 348) ev (trigAt 92) (trigAt 92) where
  fn := ⟨wf, cell (by decide +kernel), ⟨cell (by decide +kernel), cell (by decide +kernel)⟩, by decide, ⟨pvar, by decide, by decide⟩, by decide, f1, by decide⟩
  cp := cell (by decide +kernel)
  ce := cell (by decide +kernel)
  hd := ⟨by decide, by decide, ⟨(cell (by decide +kernel)).2, by decide⟩, by decide⟩
  b := by decide
  call0 := callOkB_spec (fun _ => cell) vars (by decide +kernel)
  call1 := callOkB_spec (fun _ => cell) vars (by decide +kernel)
  cr := by decide
  md := by decide

theorem uok : UnitOk L U hU (pu + 348) eu (trigAt 90) (trigAt 90) where
  fn := ⟨wf, cell (by decide +kernel), ⟨cell (by decide +kernel), cell (by decide +kernel)⟩, by decide, ⟨pvar, by decide, by decide⟩, ⟨cell (by decide +kernel), by decide, by decide, by decide⟩, by decide, f2, by decide, by decide⟩
  cp := cell (by decide +kernel)
  ce := cell (by decide +kernel)
  hd := ⟨by decide, by decide, ⟨(cell (by decide +kernel)).2, by decide⟩, by decide⟩
  b := by decide
  call0 := callOkB_spec (fun _ => cell) vars (by decide +kernel)
  call1 := callOkB_spec (fun _ => cell) vars (by decide +kernel)
  ho := by decide
  md := by decide

/-- What is known after the nodes `v`, when the dwords `zs` must not change. -/
def Inv (zs : List Nat) (x y : W) (s0 : Mem) (v : List W) (s : Mem) : Prop :=
  s (cnt + 348) = x + BitVec.ofNat 32 v.length ∧ s (sum + 348) = y + v.foldl (· + ·) 0 ∧ ∀ z ∈ zs, s z = s0 z

theorem inv_only {zs scr : List Nat} (h : ∀ z ∈ (cnt + 348) :: (sum + 348) :: zs, z ∉ scr) {x y : W} {s0 : Mem} {v : List W} {s s' : Mem} (ho : Only scr s s') (hi : Inv zs x y s0 v s) :
    Inv zs x y s0 v s' :=
  ⟨(ho _ (h _ (by simp))).trans hi.1, (ho _ (h _ (by simp))).trans hi.2.1, fun z hz => (ho _ (h _ (by simp [hz]))).trans (hi.2.2 z hz)⟩

/-- One run of the body. -/
theorem body_does {zs : List Nat} (hz : ∀ z ∈ zs, z ≠ cnt + 348 ∧ z ≠ sum + 348) {p : Nat} (hp : p ∈ (List.range 6).map exVar) (hne : p ≠ cnt) {x y : W} {s0 : Mem} {v : List W} {s : Mem} (hi : Inv zs x y s0 v s) :
    Does L (body p) s fun s2 => Inv zs x y s0 (v ++ [s (p + 348)]) s2 ∧ Only [cnt + 348, sum + 348] s s2 := by
  refine Does.asg ?_ ?_ ?_
  · simp only [List.mem_cons, List.not_mem_nil, or_false, forall_eq_or_imp, forall_eq]
    exact ⟨cell (by decide +kernel), cell (by decide +kernel)⟩
  · simp only [List.mem_cons, List.not_mem_nil, or_false, forall_eq_or_imp, forall_eq]
    exact ⟨fun v h => (by cases h), fun v h => by cases h; exact vars _ hp⟩
  · have n1 : (sum + 348 : Nat) ≠ cnt + 348 := by decide
    have n2 : p + 348 ≠ cnt + 348 := by omega
    have e : runAsg [⟨cnt + 348, .add, .const 1⟩, ⟨sum + 348, .add, .var p⟩] s = (s.set (cnt + 348) (s (cnt + 348) + 1)).set (sum + 348) (s (sum + 348) + s (p + 348)) := by
      simp only [runAsg, Src.valM, arith, set_ne n1, set_ne n2]
    rw [e]
    refine ⟨⟨?_, ?_, ?_⟩, ?_⟩
    · rw [set_ne n1.symm, set_eq, hi.1, List.length_append, List.length_singleton, BitVec.ofNat_add, BitVec.add_assoc]
      rfl
    · rw [set_eq, hi.2.1, List.foldl_append, List.foldl_cons, List.foldl_nil, BitVec.add_assoc]
    · intro z hz'
      rw [set_ne (hz z hz').2, set_ne (hz z hz').1, hi.2.2 z hz']
    · intro z hz'
      simp only [List.mem_cons, List.not_mem_nil, or_false, not_or] at hz'
      rw [set_ne hz'.2, set_ne hz'.1]

/-- The nodes after `q` are still there. -/
theorem tail_at {stop : W → Prop} {s s2 : Mem} {q : W} {l : List W} (h : NodesAt stop s q (q :: l)) (ho : Only [cnt + 348, sum + 348] s s2) (hm : ∀ r ∈ q :: l, r.toNat + 4 ∉ [cnt + 348, sum + 348]) :
    NodesAt stop s2 (s2 (q.toNat + 4)) l := by
  cases h with
  | cons _ h =>
    rw [ho _ (hm q (by simp))]
    exact h.congr fun r hr => ho _ (hm r (by simp [hr]))

def zB : List Nat := (nexts hU units).map Prod.fst ++ [U.chk + 4, cpc + 352]
def zU : List Nat := [cpc + 352]

theorem loopB {x y : W} {s : Mem} (h1 : s (cnt + 348) = x) (h2 : s (sum + 348) = y) (hr : s (cpc + 352) = pmod .set) (hl : NodesAt (listStop none) s (s hB) bullets) :
    Wp L (loopList L D hB (pv + 348) ev none (trigAt 92) (trigAt 92) (body pv)) s fun o s' => o = .nrm ∧ Inv zB x y s bullets s' := by
  refine C59_list lok none (I := Inv zB x y s) ?_ (fun v s s' ho hi => inv_only (by decide +kernel) ho hi) ?_ (fun _ h => ⟨rfl, h⟩) ⟨by rw [h1]; simp, by rw [h2]; simp, fun _ _ => rfl⟩ hr hl
  · have h' : ∀ n ∈ bullets.map BitVec.toNat, n % 4 = 0 ∧ n + 4 < 2 ^ 32 ∧ L0.pinCellB X (n + 4) = true ∧ n + 4 ∉ [cpAddr, D.np, D.p + 344, D.q + 344, D.p + 348, D.q + 348] ∧ n + 4 ∉ D.scr (pv + 348) (ev + 348) := by decide +kernel
    have h := fun q hq => h' _ (List.mem_map_of_mem (a := q) hq)
    exact fun q hq => ⟨(h q hq).1, (h q hq).2.1, ⟨(cell (h q hq).2.2.1).2, (h q hq).2.2.2.1⟩, (h q hq).2.2.2.2⟩
  · intro v q l s1 e hi hm hp he hc
    refine Wp.mono (Does.wp (body_does (zs := zB) (by decide +kernel) (p := pv) (by decide) (by decide) hi)) ?_
    rintro o s2 ⟨rfl, i2, o2⟩
    have hm' : ∀ n ∈ bullets.map BitVec.toNat, n + 4 ∉ [cnt + 348, sum + 348] := by decide +kernel
    refine ⟨by rw [← hp]; exact i2, (o2 _ (by decide +kernel)).trans hm, (o2 _ (by decide +kernel)).trans he, tail_at hc o2 fun r hr => hm' _ (List.mem_map_of_mem (by rw [e]; exact List.mem_append_right _ hr))⟩

theorem loopU {x y : W} {s : Mem} (h1 : s (cnt + 348) = x) (h2 : s (sum + 348) = y) (hr : U.Rdy s) (hl : NodesAt (· = 0) s (s hU) units) :
    Wp L (loopUnit L U hU (pu + 348) eu (trigAt 90) (trigAt 90) (body pu)) s fun o s' => o = .nrm ∧ Inv zU x y s units s' := by
  refine C59_unit uok (I := Inv zU x y s) ?_ (fun v s s' ho hi => inv_only (by decide +kernel) ho hi) ?_ (fun _ h => ⟨rfl, h⟩) ⟨by rw [h1]; simp, by rw [h2]; simp, fun _ _ => rfl⟩ hr hl
  · have h' : ∀ n ∈ units.map BitVec.toNat, L0.pinCellB X (n + 4) = true ∧ n + 4 ∉ [cpAddr, U.np, U.p + 344, U.q + 344, U.p + 348, U.q + 348] ∧ n + 4 ∉ U.scr (pu + 348) (eu + 348) := by decide +kernel
    have h := fun q hq => h' _ (List.mem_map_of_mem (a := q) hq)
    refine fun q hq => ⟨?_, ⟨(cell (h q hq).1).2, (h q hq).2.1⟩, (h q hq).2.2⟩
    simp only [units, List.mem_cons, List.not_mem_nil, or_false] at hq
    rcases hq with rfl | rfl | rfl
    · exact ⟨5, by decide, by decide +kernel⟩
    · exact ⟨0, by decide, by decide +kernel⟩
    · exact ⟨1699, by decide, by decide +kernel⟩
  · intro v q l s1 e hi hm hp he hc
    refine Wp.mono (Does.wp (body_does (zs := zU) (by decide +kernel) (p := pu) (by decide) (by decide) hi)) ?_
    rintro o s2 ⟨rfl, i2, o2⟩
    have hm' : ∀ n ∈ units.map BitVec.toNat, n + 4 ∉ [cnt + 348, sum + 348] := by decide +kernel
    refine ⟨by rw [← hp]; exact i2, ⟨(o2 _ (by decide +kernel)).trans hm.1, (o2 _ (by decide +kernel)).trans hm.2⟩, (o2 _ (by decide +kernel)).trans he, tail_at hc o2 fun r hr => hm' _ (List.mem_map_of_mem (by rw [e]; exact List.mem_append_right _ hr))⟩

theorem nodes {stop : W → Prop} (h0 : stop 0) {m : Mem} : ∀ {h : Nat} {l : List W}, (∀ r ∈ nexts h l, m r.1 = r.2) → (∀ q ∈ l, ¬ stop q) → NodesAt stop m (m h) l
  | h, [], e, _ => by
    rw [e (h, 0) (by simp [nexts])]
    exact .nil h0
  | h, q :: l, e, hs => by
    rw [e (h, q) (by simp [nexts])]
    exact .cons (hs q (by simp)) (nodes h0 (fun r hr => e r (by simp [nexts, hr])) fun q hq => hs q (by simp [hq]))

/-- The machine: all six nodes are counted. -/
theorem run (x y : W) : ∃ m', Reaches ⟨mem x y, M.e⟩ ⟨m', haltAt⟩ ∧ m' (cnt + 348) = x + 6 ∧ m' (sum + 348) = y + (0x64B348 + 0x64B2D8 + 0x64B500 + (0x59CCA8 + 336 * 5) + 0x59CCA8 + (0x59CCA8 + 336 * 1699)) := by
  have hl := laid x y
  have hv0 : ∀ z, L0.pinCellB X z = true → ∀ m, L.view m z = m z := fun z hz m => Layout.view_at (cell hz).2
  have fr : ∀ r ∈ (cpc + 352, pmod .set) :: (nexts hB bullets ++ nexts hU units), L0.Free exBuf 6 r.1 ∧ L0.pinCellB X r.1 = true ∧ (match (pinHoles X ++ holes).find? (fun q => q.1 == r.1) with | some q => q.2 | none => (0 : W)) = r.2 := by decide +kernel
  have fv : ∀ r ∈ (cpc + 352, pmod .set) :: (nexts hB bullets ++ nexts hU units), L.view (mem x y) r.1 = r.2 := fun r hr => by
    rw [hv0 _ (fr r hr).2.1]
    exact (hl.free (fr r hr).1 (by decide) _).trans (fr r hr).2.2
  have i1 : L.view (mem x y) (cnt + 348) = x := by rw [hv0 _ (by decide +kernel)]; exact (hl.ok _).2 2 (by simp [vs])
  have i2 : L.view (mem x y) (sum + 348) = y := by rw [hv0 _ (by decide +kernel)]; exact (hl.ok _).2 3 (by simp [vs])
  have i3 : L.view (mem x y) (U.chk + 4) = BitVec.ofNat 32 U.ini := by
    rw [hv0 _ (by decide +kernel)]
    have hb : ∃ b ∈ L0.P.blks, b.t = U.chk ∧ b.wordAt 4 = none ∧ ∀ r ∈ L0.rest, r.1 ≠ b.t := by decide +kernel
    obtain ⟨b, h1, h2, h3, h4⟩ := hb
    rw [← h2]
    refine ((hl.hole h1 (by decide) h3 (fun _ => h4) _).2).trans ?_
    rw [h2]
    decide +kernel
  obtain ⟨o, s1, x1, rfl, e1, e2, k1⟩ := loopB i1 i2 (fv (cpc + 352, pmod .set) (by simp)) (nodes (Or.inl rfl) (fun r hr => fv r (by simp [hr])) (by simp only [bullets, List.mem_cons, List.not_mem_nil, or_false, forall_eq_or_imp, forall_eq, listStop]; decide +kernel))
  have u1 : ∀ r ∈ nexts hU units, s1 r.1 = r.2 := fun r hr => by
    rw [k1 r.1 (List.mem_append_left _ (List.mem_map_of_mem hr))]
    exact fv r (by simp [hr])
  have r1 : U.Rdy s1 := ⟨(k1 (cpc + 352) (by simp [zB])).trans (fv (cpc + 352, pmod .set) (by simp)), (k1 _ (by simp [zB])).trans i3⟩
  obtain ⟨o, s2, x2, rfl, e3, e4, -⟩ := loopU e1 e2 r1 (nodes (stop := (· = 0)) rfl u1 (by simp only [units, List.mem_cons, List.not_mem_nil, or_false, forall_eq_or_imp, forall_eq]; decide +kernel))
  obtain ⟨m', rr, -, hv⟩ := C25_structured wf (.seqN x1 x2) code _ (ok x y) rfl
  refine ⟨m', rr, ?_, ?_⟩
  · rw [← hv0 (cnt + 348) (by decide +kernel) m', hv, e3, BitVec.add_assoc]
    exact congrArg (x + ·) (by decide +kernel)
  · rw [← hv0 (sum + 348) (by decide +kernel) m', hv, e4, BitVec.add_assoc]
    exact congrArg (y + ·) (by decide +kernel)

end ExListLoop
end Eud.SC
