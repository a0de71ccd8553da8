import Verif.Ex.ListLoop
import Verif.Lib.PlayerUnit
/-
Example for C61: the units of a player are counted and their pointers added up, with `EUDLoopPlayerUnit`, in memory; the body clears both variables of the loop.
-/

namespace Eud.SC

/-- A call whose assignments are given. -/
def callGS (fstart back : Nat) (gs : List Asg) (_b _k x n m : Nat) : Option Emitted :=
  if x = back ∧ x < 2 ^ 32 then match emitAsg fstart m gs with
    | some (e, Q) => some ⟨e, n, m + Q.length, [], Q, []⟩
    | none => none
  else none

theorem callGS_code {L : Layout} (hw : L.Wf) {fstart fend nptr back : Nat} {rs : List (Nat × Nat)} {gs : List Asg} {body : Stmt} (hF : FuncCode L fstart fend nptr (rs.map Prod.fst) body) (hn : ∀ r ∈ rs, r.1 + 4 ≠ nptr)
    {r b k x n m : Nat} {E : Emitted} (h : callGS fstart back gs b k x n m = some E) (hi : E.Into L) : Code L r b k (.prim (CallGRel L fend nptr back body rs gs)) E.e x := by
  unfold callGS at h
  split at h
  · rename_i hx
    split at h
    · rename_i hq
      cases h
      obtain ⟨rfl, hx2⟩ := hx
      exact callG_code hw hF ⟨0, 0, 0, emitAsg_code hq hi.seqs _ _ _⟩ hx2 hn _ _ _
    · cases h
  · cases h

namespace ExPlayerUnit

def cpc : Nat := 0xE000000
def U : UnRd := ⟨trigAt 60, trigAt 61, trigAt 83, trigAt 62, fendPtr [trigAt 60, trigAt 61] (trigAt 62), cpc, trigAt 62, trigAt 83, trigAt 82, trigAt 63⟩

def pu : Nat := exVar 0
def eu : Nat := exVar 1
def cnt : Nat := exVar 2
def sum : Nat := exVar 3

def S : Nat → (b k x n m : Nat) → Option Emitted
  | 0 => vpS cpc (trigAt 62) [aMem (U.chk + 4) .set (BitVec.ofNat 32 U.ini), aMem (cpc + 344) .set (epd cpAddr)]
  | _ => fun b k x n m => if x = U.fin then emS U.chk U.ini (genInits U.rs) (genItems (maskBits unitMask) U.rs) b k x n m else none

def F2 : Emitted := emitD U.fe S (.seq (.site 1) (.site 0)) 0 0 (trigAt 62) 63 0

/-- The first unit of player 3. -/
def hU : Nat := 0x6283F8 + 4 * 2
def units : List W := [BitVec.ofNat 32 (0x59CCA8 + 336 * 5), 0x59CCA8, BitVec.ofNat 32 (0x59CCA8 + 336 * 1699)]

/-- `cnt += 1; sum += ptr; ptr << 0; epd << 0` -/
def body : Stmt := .asg [⟨cnt + 348, .add, .const 1⟩, ⟨sum + 348, .add, .var pu⟩, ⟨pu + 348, .set, .const 0⟩, ⟨eu + 348, .set, .const 0⟩]
def sp : Nat := trigAt 92 + 328
def b1 : Nat := (emitD retAt S (.base body) 0 0 (trigAt 92) 93 0).e

def L00 : Layout := ⟨⟨[], [], []⟩, [], []⟩
def c1 (L : Layout) : Site := ⟨U.fs, U.fe, U.np, trigAt 90, U.body L, [(U.p, pu + 348), (U.q, eu + 348)], [(cpAddr, .const (epd hU))]⟩
def SM (L : Layout) : Nat → (b k x n m : Nat) → Option Emitted
  | 0 => callS (c1 L)
  | _ => callGS U.fs b1 (U.nextAsg eu (sp + 20) (sp + 52) b1)

def es : ES := .seq (.site 0) (.loop true (.base .skip) [cMem (pu + 348) .exactly 0] (.seq (.site 1) (.base body)) (.base (.trig [] [aMemV (pu + 348) .set sp, aMemV (eu + 348) .set (sp + 32)])))
def M : Emitted := emitD retAt (SM L00) es 0 0 haltAt 90 0

def L0 : Layout := ⟨⟨fendBlks [U.p, U.q] U.fe ++ F2.blks ++ M.blks, M.seqs, (List.range 4).map exVar⟩, M.rest, []⟩
def X : List (Nat × Nat) := pvPins cpc
def L : Layout := L0.pin X

def vs (x y : W) : List W := [1, 2, x, y]
def nexts (h : Nat) : List W → List (Nat × W)
  | [] => [(h, 0)]
  | p :: l => (h, p) :: nexts (p.toNat + 0x6C) l
/-- The cached player is 5. -/
def holes : List (Nat × W) := [(cpc + 348, 5), (cpc + 352, pmod .set), (U.chk + 4, BitVec.ofNat 32 U.ini)] ++ nexts hU units
def mem (x y : W) : Mem := L0.mem exBuf (vs x y) (pinHoles X ++ holes)

theorem laid (x y : W) : L0.Laid exBuf (vs x y) := Layout.laidB_spec (show L0.laidB exBuf 4 = true by decide +kernel)
theorem pins (x y : W) : L0.pinB exBuf (vs x y).length X = true := show L0.pinB exBuf 4 X = true by decide +kernel
theorem wf : L.Wf := (laid 0 0).pinWf (pins 0 0)
theorem ok (x y : W) : L.Ok (mem x y) := (laid x y).pinOk (pins x y) holes
theorem pvar : PVar L cpc := PVar.pin (laid 0 0) (fun _ h => h) (by decide +kernel)
theorem cell {x : Nat} (h : L0.pinCellB X x = true) : L.cell x := (laid 0 0).pinCellB h
theorem vars : ∀ v ∈ (List.range 4).map exVar, v ∈ L.P.vars := fun _ h => h

def fS : Nat → Stmt
  | 0 => vproc L cpc 0xFFFFFFFF (trigAt 62) [aMem (U.chk + 4) .set (BitVec.ofNat 32 U.ini), aMem (cpc + 344) .set (epd cpAddr)]
  | _ => .prim (EmptyRel L U.chk U.ini U.fin (genInits U.rs) (genItems (maskBits unitMask) U.rs))

theorem sites (r : Nat) (j b k x n m : Nat) (E : Emitted) (h : S j b k x n m = some E) (hi : E.Into L) : Code L r b k (fS j) E.e x := by
  match j with
  | 0 => exact vpS_code wf pvar h hi
  | _ + 1 =>
    simp only [S] at h
    split at h
    · rename_i hx
      subst hx
      exact emS_code wf (cell (by decide +kernel)).2 h hi
    · cases h

theorem in2 : F2.Into L := .of_eq (s := []) (r := []) (fun x h => by simp only [L, Layout.pin, L0, List.mem_append]; simp [h]) (by decide +kernel) (by simp) (by decide +kernel) (by simp)
theorem inM : M.Into L := ⟨fun x h => by simp only [L, Layout.pin, L0, List.mem_append]; exact Or.inr h, fun _ h => h, fun x h => by simp only [L, Layout.pin, L0, List.mem_append]; exact Or.inl h⟩

theorem f2 : FuncCode L U.fs U.fe U.np [U.p, U.q] (U.body L) := by
  rw [show U.fs = F2.e by decide +kernel]
  refine ⟨⟨0, 0, emitD_code (sites U.fe) (by decide +kernel) in2⟩, fendBlks_end (frets := [U.p, U.q]) (fend := U.fe) (fun x h => ?_) (cell (by decide +kernel)) ?_ (by decide)⟩
  · simp only [L, Layout.pin, L0, List.mem_append]; simp [h]
  · have h : ∀ v ∈ [U.p, U.q], L0.pinCellB X (v + 4) = true ∧ v < 2 ^ 32 := by decide +kernel
    exact fun v hv => ⟨cell (h v hv).1, (h v hv).2⟩

def prog : Stmt := loopPlayer L U (.const (epd hU)) (pu + 348) eu sp (trigAt 90) b1 body

theorem code : Code L retAt 0 0 prog M.e haltAt := by
  refine emitD_code (S := SM L00) (f := fun j => match j with | 0 => (c1 L).stmt L | _ => U.nextCall L eu (sp + 20) (sp + 52) b1) (es := es) (n := 90) (m := 0) ?_ (by decide +kernel) inM
  intro j b k x n m E h hi
  match j with
  | 0 => exact callS_code (c := c1 L) wf f2 (by decide +kernel) h hi
  | _ + 1 => exact callGS_code wf (rs := [(U.p, sp + 20), (U.q, sp + 52)]) f2 (by decide +kernel) h hi

theorem uok : PlayerOk L U (.const (epd hU)) hU (pu + 348) eu sp (trigAt 90) b1 where
  fn := ⟨wf, cell (by decide +kernel), ⟨cell (by decide +kernel), cell (by decide +kernel)⟩, by decide, ⟨pvar, by decide, by decide⟩, ⟨cell (by decide +kernel), by decide, by decide, by decide⟩, by decide, f2, by decide, by decide⟩
  cp := cell (by decide +kernel)
  ce := cell (by decide +kernel)
  pe := by decide
  hd := ⟨by decide, by decide, ⟨(cell (by decide +kernel)).2, by decide⟩⟩
  b := by decide +kernel
  call0 := callOkB_spec (fun _ => cell) vars (by decide +kernel)
  call1 := callOkB_spec (fun _ => cell) vars (by decide +kernel)
  ho := by decide
  own := by decide +kernel
  md := by decide +kernel

/-- What is known after the units `v`. -/
def Inv (x y : W) (v : List W) (s : Mem) : Prop := s (cnt + 348) = x + BitVec.ofNat 32 v.length ∧ s (sum + 348) = y + v.foldl (· + ·) 0

/-- One run of the body. -/
theorem body_does {x y : W} {v : List W} {s : Mem} (hi : Inv x y v s) :
    Does L body s fun s2 => Inv x y (v ++ [s (pu + 348)]) s2 ∧ Only [cnt + 348, sum + 348, pu + 348, eu + 348] s s2 := by
  refine Does.asg ?_ ?_ ?_
  · simp only [List.mem_cons, List.not_mem_nil, or_false, forall_eq_or_imp, forall_eq]
    exact ⟨cell (by decide +kernel), cell (by decide +kernel), cell (by decide +kernel), cell (by decide +kernel)⟩
  · simp only [List.mem_cons, List.not_mem_nil, or_false, forall_eq_or_imp, forall_eq]
    exact ⟨fun v h => (by cases h), fun v h => by cases h; exact vars _ (by decide), fun v h => (by cases h), fun v h => (by cases h)⟩
  · have n1 : (sum + 348 : Nat) ≠ cnt + 348 := by decide
    have n2 : (pu + 348 : Nat) ≠ cnt + 348 := by decide
    have n3 : (pu + 348 : Nat) ≠ sum + 348 := by decide
    have n4 : (eu + 348 : Nat) ≠ sum + 348 := by decide
    have n5 : (eu + 348 : Nat) ≠ cnt + 348 := by decide
    simp only [runAsg, Src.valM, arith, set_ne n1, set_ne n2]
    refine ⟨⟨?_, ?_⟩, ?_⟩
    · rw [set_ne n5.symm, set_ne n2.symm, set_ne n1.symm, set_eq, hi.1, List.length_append, List.length_singleton, BitVec.ofNat_add, BitVec.add_assoc]
      rfl
    · rw [set_ne n4.symm, set_ne n3.symm, set_eq, hi.2, List.foldl_append, List.foldl_cons, List.foldl_nil, BitVec.add_assoc]
    · intro z hz'
      simp only [List.mem_cons, List.not_mem_nil, or_false, not_or] at hz'
      rw [set_ne hz'.2.2.2, set_ne hz'.2.2.1, set_ne hz'.2.1, set_ne hz'.1]

theorem loopU {x y : W} {s : Mem} (h1 : s (cnt + 348) = x) (h2 : s (sum + 348) = y) (hr : U.Rdy s) (hl : PUnitsAt s (s hU) units) :
    Wp L prog s fun o s' => o = .nrm ∧ Inv x y units s' := by
  refine C61_player uok (I := Inv x y) ?_ (fun v s s' ho hi => ⟨(ho _ (by decide +kernel)).trans hi.1, (ho _ (by decide +kernel)).trans hi.2⟩) ?_ (fun _ h => ⟨rfl, h⟩) rfl ⟨by rw [h1]; simp, by rw [h2]; simp⟩ hr hl
  · have h' : ∀ n ∈ units.map BitVec.toNat, L0.pinCellB X (n + 0x6C) = true ∧ n + 0x6C ∉ [cpAddr, U.np, U.p + 344, U.q + 344, U.p + 348, U.q + 348] ∧ n + 0x6C ∉ playerScr U (pu + 348) eu sp := by decide +kernel
    have h := fun q hq => h' _ (List.mem_map_of_mem (a := q) hq)
    refine fun q hq => ⟨?_, ⟨(cell (h q hq).1).2, (h q hq).2.1⟩, (h q hq).2.2⟩
    simp only [units, List.mem_cons, List.not_mem_nil, or_false] at hq
    rcases hq with rfl | rfl | rfl
    · exact ⟨5, by decide, by decide +kernel⟩
    · exact ⟨0, by decide, by decide +kernel⟩
    · exact ⟨1699, by decide, by decide +kernel⟩
  · intro v q l s1 e hi hm hp he hc hn
    refine Wp.mono (Does.wp (body_does hi)) ?_
    rintro o s2 ⟨rfl, i2, o2⟩
    have hm' : ∀ n ∈ units.map BitVec.toNat, n + 0x6C ∉ [cnt + 348, sum + 348, pu + 348, eu + 348] := by decide +kernel
    refine ⟨by rw [← hp]; exact i2, ⟨(o2 _ (by decide +kernel)).trans hm.1, (o2 _ (by decide +kernel)).trans hm.2⟩, fun y hy => o2 y ?_, ?_⟩
    · have : ∀ y ∈ [sp + 20, sp + 52], y ∉ [cnt + 348, sum + 348, pu + 348, eu + 348] := by decide +kernel
      exact this y hy
    · cases hc with
      | cons _ hc =>
        rw [hn]
        exact hc.congr fun r hr => o2 _ (hm' _ (List.mem_map_of_mem (by rw [e]; simp [hr])))

theorem nodes {m : Mem} : ∀ {h : Nat} {l : List W}, (∀ r ∈ nexts h l, m r.1 = r.2) → (∀ q ∈ l, q ≠ 0) → PUnitsAt m (m h) l
  | h, [], e, _ => by
    rw [e (h, 0) (by simp [nexts])]
    exact .nil
  | h, q :: l, e, hs => by
    rw [e (h, q) (by simp [nexts])]
    exact .cons (hs q (by simp)) (nodes (fun r hr => e r (by simp [nexts, hr])) fun q hq => hs q (by simp [hq]))

/-- The machine: the three units are counted. -/
theorem run (x y : W) : ∃ m', Reaches ⟨mem x y, M.e⟩ ⟨m', haltAt⟩ ∧ m' (cnt + 348) = x + 3 ∧ m' (sum + 348) = y + ((0x59CCA8 + 336 * 5) + 0x59CCA8 + (0x59CCA8 + 336 * 1699)) := by
  have hl := laid x y
  have hv0 : ∀ z, L0.pinCellB X z = true → ∀ m, L.view m z = m z := fun z hz m => Layout.view_at (cell hz).2
  have fr : ∀ r ∈ (cpc + 352, pmod .set) :: nexts hU units, L0.Free exBuf 4 r.1 ∧ L0.pinCellB X r.1 = true ∧ (match (pinHoles X ++ holes).find? (fun q => q.1 == r.1) with | some q => q.2 | none => (0 : W)) = r.2 := by decide +kernel
  have fv : ∀ r ∈ (cpc + 352, pmod .set) :: nexts hU units, L.view (mem x y) r.1 = r.2 := fun r hr => by
    rw [hv0 _ (fr r hr).2.1]
    exact (hl.free (fr r hr).1 (by decide) _).trans (fr r hr).2.2
  have i1 : L.view (mem x y) (cnt + 348) = x := by rw [hv0 _ (by decide +kernel)]; exact (hl.ok _).2 2 (by simp [vs])
  have i2 : L.view (mem x y) (sum + 348) = y := by rw [hv0 _ (by decide +kernel)]; exact (hl.ok _).2 3 (by simp [vs])
  have i3 : L.view (mem x y) (U.chk + 4) = BitVec.ofNat 32 U.ini := by
    rw [hv0 _ (by decide +kernel)]
    have hb : ∃ b ∈ L0.P.blks, b.t = U.chk ∧ b.wordAt 4 = none ∧ ∀ r ∈ L0.rest, r.1 ≠ b.t := by decide +kernel
    obtain ⟨b, h1, h2, h3, h4⟩ := hb
    rw [← h2]
    refine ((hl.hole h1 (by decide) h3 (fun _ => h4) _).2).trans ?_
    rw [h2]
    decide +kernel
  obtain ⟨o, s1, x1, rfl, e1, e2⟩ := loopU i1 i2 ⟨fv (cpc + 352, pmod .set) (by simp), i3⟩ (nodes (fun r hr => fv r (by simp [hr])) (by simp only [units, List.mem_cons, List.not_mem_nil, or_false, forall_eq_or_imp, forall_eq]; decide +kernel))
  obtain ⟨m', rr, -, hv⟩ := C25_structured wf x1 code _ (ok x y) rfl
  refine ⟨m', rr, ?_, ?_⟩
  · rw [← hv0 (cnt + 348) (by decide +kernel) m', hv, e1]
    exact congrArg (x + ·) (by decide +kernel)
  · rw [← hv0 (sum + 348) (by decide +kernel) m', hv, e2]
    exact congrArg (y + ·) (by decide +kernel)

end ExPlayerUnit
end Eud.SC
