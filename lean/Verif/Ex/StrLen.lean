import Verif.Ex.RepMov
import Verif.Ex.ByteWrite
import Verif.Lib.StrLen
/-
Example for C36: `n << f_strlen(x)` in memory, for all contents of the memory that is read and all addresses.
-/

namespace Eud.SC

namespace ExStrLen

def cpc : Nat := 0xE000000
def ev : Nat := 0xE001000
def q : Nat := exVar 0
def r : Nat := exVar 1
def x : Nat := exVar 4
def o : Nat := exVar 5

def D : Div4 := ⟨trigAt 1, trigAt 0, seqAt 0, trigAt 2, fendPtr [trigAt 0, trigAt 1] (trigAt 2)⟩
def noS : Nat → (b k x n m : Nat) → Option Emitted := fun _ _ _ _ _ _ => none
def eD : Emitted := emitD D.fe noS (.base (constDivPow (D.a + 348) (D.q + 348) 4)) 0 0 D.fe 3 0

def C : SLen := ⟨fendPtr [trigAt 40] (trigAt 41), trigAt 45, trigAt 41, trigAt 40, ev, exVar 2, exVar 3, trigAt 46, fun i => trigAt (47 + i), trigAt 51, seqAt 10⟩

def eP : Emitted := emitD C.fe noS (.base (.seqs ((List.range 4).map C.pre))) 0 0 C.t 42 10
def eE : Emitted := emitD C.fe (fun _ => vpS cpc C.cn [aMem (cpc + 344) .set (epd cpAddr)]) (.seq (.site 0) (.base (retVar C.fr C.ret))) 0 0 C.fe 51 10
def tBlk : SBlk := ⟨C.t, ⟨[], [aMemV (C.ev + 4) .set C.jp, aMem (C.ev + 344) .set (epd cpAddr), aMem (C.ret + 348) .set 0].map PA.a⟩, some ev, false⟩
def bBlk (i : Nat) : SBlk := ⟨C.b i, ⟨[SLen.cond i].map PC.c, (C.acts i).map PA.a⟩, none, false⟩

/-! The program -/

def L00 : Layout := ⟨⟨[], [], []⟩, [], []⟩
def dS : Site := ⟨D.fs, D.fe, D.np, seqAt 21, constDivPow (D.a + 348) (D.q + 348) 4, [(D.q, q + 348), (D.a, r + 348)], [(D.a + 348, .var x)]⟩
def cS (L : Layout) : Site := ⟨C.fs, C.fe, C.np, haltAt, C.body L cpc, [(C.fr, o + 348)], [(C.ev + 348, .var q), (C.sv + 348, .var r)]⟩
def mS : Nat → (b k x n m : Nat) → Option Emitted
  | 0 => callS dS
  | _ => callS (cS L00)
def esM : ES := .seq (.site 0) (.seq (.base (.asg [⟨q + 348, .add, .const (BitVec.ofNat 32 (2 ^ 32 - 0x58A364 / 4))⟩])) (.site 1))
def eM : Emitted := emitD retAt mS esM 0 0 haltAt 52 20

/-! Memory -/

def parts : List (List SBlk) := [fendBlks [D.q, D.a] D.fe, eD.blks, fendBlks [C.fr] C.fe, eP.blks, [tBlk, bBlk 0, bBlk 1, bBlk 2, bBlk 3], eE.blks]
def sparts : List (List Blk) := [eD.seqs, eE.seqs, eM.seqs]
def L0 : Layout := ⟨⟨parts.flatten, sparts.flatten, (List.range 6).map exVar⟩, [], []⟩
def X : List (Nat × Nat) := pvPins cpc ++ pvPins ev
def L : Layout := L0.pin X

def vs (xv : BitVec 32) : List (BitVec 32) := [0, 0, 0, 0, xv, 7]
/-- The cached player is 5. -/
def holes : List (Nat × BitVec 32) := [(cpAddr, 5), (cpc + 348, 5), (cpc + 352, pmod .set), (ev + 352, pmod .set)]
/-- The memory of the game between 0x7000000 and 0x7F00000 holds `u`. -/
def mem (u : List (Nat × BitVec 32)) (xv : BitVec 32) : Mem := L0.mem exBuf (vs xv) (pinHoles X ++ holes ++ u)

theorem laid (xv : BitVec 32) : L0.Laid exBuf (vs xv) := Layout.laidB_spec (show L0.laidB exBuf 6 = true by decide +kernel)
theorem pins : L0.pinB exBuf 6 X = true := by decide +kernel
theorem laid0 : L0.Laid exBuf (vs 0) := laid 0
theorem wf : L.Wf := laid0.pinWf pins
theorem ok (u : List (Nat × BitVec 32)) (xv : BitVec 32) : L.Ok (mem u xv) := by
  unfold mem
  rw [List.append_assoc]
  exact (laid xv).pinOk pins (holes ++ u)
def cellQ (x : Nat) : Bool := L0.pinCellB X x
theorem cell {x : Nat} (h : cellQ x = true) : L.cell x := laid0.pinCellB h
theorem far {x : Nat} (h1 : 0x7000000 ≤ x) (h2 : x < 0x7F00000) : L.cell x :=
  laid0.far (lo := 0x7000000) (hi := 0x7F00000) (show L0.farB X 0x7000000 0x7F00000 = true by decide +kernel) h1 h2
theorem pv {v : Nat} (h : v ∈ [cpc, ev]) : PVar L v := by
  have h1 : ∀ v ∈ [cpc, ev], (∀ r ∈ pvPins v, r ∈ X) ∧ (∀ o ∈ [4, 344, 348, 352], L0.Free exBuf 6 (v + o) ∧ ∀ r ∈ X, v + o ≠ r.1 + 4) := by decide +kernel
  exact PVar.pin laid0 (h1 v h).1 (h1 v h).2
theorem vars : ∀ v ∈ (List.range 6).map exVar, v ∈ L.P.vars := fun _ h => h

theorem bp {l : List SBlk} (k : Nat) (h : parts[k]? = some l) : ∀ b ∈ l, b ∈ L.P.blks := fun _ hb => List.mem_flatten.2 ⟨l, List.mem_of_getElem? h, hb⟩
theorem sp {l : List Blk} (k : Nat) (h : sparts[k]? = some l) : ∀ b ∈ l, b ∈ L.P.seqs := fun _ hb => List.mem_flatten.2 ⟨l, List.mem_of_getElem? h, hb⟩
/-- A piece with the triggers and assignments at these places. -/
theorem into {E : Emitted} (hb : E.blks = [] ∨ ∃ k : Nat, parts[k]? = some E.blks) (hs : E.seqs = [] ∨ ∃ j : Nat, sparts[j]? = some E.seqs) (h3 : E.rest = []) : E.Into L := by
  refine ⟨?_, ?_, by rw [h3]; simp⟩
  · rcases hb with e | ⟨j, e⟩
    · rw [e]; simp
    · exact bp j e
  · rcases hs with e | ⟨j, e⟩
    · rw [e]; simp
    · exact sp j e

/-! Code -/

theorem fD : FuncCode L D.fs D.fe D.np [D.q, D.a] (constDivPow (D.a + 348) (D.q + 348) 4) := by
  refine ⟨⟨0, 0, ?_⟩, fendBlks_end (bp 0 rfl) (cell (by decide +kernel)) (fun v hv => ?_) (by decide)⟩
  · rw [show D.fs = eD.e by decide +kernel]
    exact emitD_code (S := noS) (f := fun _ => .skip) (es := .base (constDivPow (D.a + 348) (D.q + 348) 4)) (fun j b k x n m E h => by simp [noS] at h) (by decide +kernel)
      (into (.inr ⟨1, rfl⟩) (.inr ⟨0, rfl⟩) (by decide +kernel))
  · have : ∀ v ∈ [D.q, D.a], cellQ (v + 4) = true ∧ v < 2 ^ 32 := by decide +kernel
    exact ⟨cell (this v hv).1, (this v hv).2⟩

theorem cok : C.Ok L cpc where
  pe := pv (by simp [C])
  pc := pv (by simp)
  cs := cell (by decide +kernel)
  cr := cell (by decide +kernel)
  vr := vars _ (by decide)
  cj := cell (by decide +kernel)
  cf := cell (by decide +kernel)
  ccp := cell (by decide +kernel)
  blk := fun i h => by
    have : i = 0 ∨ i = 1 ∨ i = 2 ∨ i = 3 := by omega
    rcases this with rfl | rfl | rfl | rfl
    · exact bp 4 rfl _ (.tail _ (.head _))
    · exact bp 4 rfl _ (.tail _ (.tail _ (.head _)))
    · exact bp 4 rfl _ (.tail _ (.tail _ (.tail _ (.head _))))
    · exact bp 4 rfl _ (.tail _ (.tail _ (.tail _ (.tail _ (.head _)))))
  cb := fun i h => by
    have : ∀ i < 4, cellQ (C.b i + 4) = true := by decide +kernel
    exact cell (this i h)
  lt := by decide
  nd := by decide +kernel

theorem fC : FuncCode L C.fs C.fe C.np [C.fr] (C.body L cpc) := by
  refine ⟨⟨0, 0, .seq (m := C.t) ?_ (.seq (m := C.ev) ?_ (.seq (m := C.le) (SLen.rel_code wf cok) ?_))⟩, fendBlks_end (bp 2 rfl) (cell (by decide +kernel)) (fun v hv => ?_) (by decide)⟩
  · rw [show C.fs = eP.e by decide +kernel]
    exact emitD_code (S := noS) (f := fun _ => .skip) (es := .base (.seqs ((List.range 4).map C.pre))) (fun j b k x n m E h => by simp [noS] at h) (by decide +kernel)
      (into (.inr ⟨3, rfl⟩) (.inl (by decide +kernel)) (by decide +kernel))
  · exact .trig (cs := []) trivial ⟨rfl, ⟨rfl, rfl, rfl⟩, ⟨rfl, rfl, rfl⟩, trivial⟩ (bp 4 rfl _ (.head _))
  · rw [show C.le = eE.e by decide +kernel]
    exact emitD_code (S := fun _ => vpS cpc C.cn [aMem (cpc + 344) .set (epd cpAddr)]) (f := fun _ => cpBack L cpc C.cn) (es := .seq (.site 0) (.base (retVar C.fr C.ret)))
      (fun j b k x n m E h hi => vpS_code wf (pv (by simp)) h hi) (by decide +kernel) (into (.inr ⟨5, rfl⟩) (.inr ⟨1, rfl⟩) (by decide +kernel))
  · have : ∀ v ∈ [C.fr], cellQ (v + 4) = true ∧ v < 2 ^ 32 := by decide +kernel
    exact ⟨cell (this v hv).1, (this v hv).2⟩

def prog : Stmt := C.strlen D L cpc (seqAt 21) haltAt q r (o + 348) (.var x)

theorem code : Code L retAt 0 0 prog eM.e haltAt := by
  refine emitD_code (S := mS) (f := fun j => match j with | 0 => dS.stmt L | _ => (cS L).stmt L) (es := esM) ?_ (by decide +kernel) (into (.inl (by decide +kernel)) (.inr ⟨2, rfl⟩) (by decide +kernel))
  intro j b k x' n m E h hi
  match j with
  | 0 => exact callS_code (c := dS) wf fD (by decide) h hi
  | _ + 1 => exact callS_code (c := cS L) wf fC (by intro r h; revert r; decide) h hi

theorem scrFar : ∀ y ∈ (q + 348) :: (r + 348) :: (D.own ++ C.own cpc), y < 0x7000000 ∨ 0x7F00000 ≤ y := by decide +kernel

/-- `n` is the length of the string; the current player is as before. -/
theorem run (u : List (Nat × BitVec 32)) (hu : ∀ r ∈ u, 0x7000000 ≤ r.1 ∧ r.1 < 0x7F00000) (xv : BitVec 32) {n : Nat} (hx : 0x7000000 ≤ xv.toNat) (hn : xv.toNat + n < 0x7F00000)
    (h1 : ∀ k < n, byteAt (mem u xv) (xv.toNat + k) ≠ 0) (h2 : byteAt (mem u xv) (xv.toNat + n) = 0) :
    ∃ m', Reaches ⟨mem u xv, eM.e⟩ ⟨m', haltAt⟩ ∧ m' (o + 348) = BitVec.ofNat 32 n ∧ m' cpAddr = 5 := by
  have hvv : ∀ a, L.cell a → ∀ m, L.view m a = m a := fun a ha m => Layout.view_at ha.2
  have hl := laid xv
  have fr : ∀ z, cellQ z = true ∧ L0.Free exBuf 6 z ∧ (z < 0x7000000 ∨ 0x7F00000 ≤ z) → L.view (mem u xv) z = match (pinHoles X ++ holes).find? (fun r => r.1 == z) with | some r => r.2 | none => 0 := by
    intro z hz
    rw [hvv _ (cell hz.1)]
    refine (hl.free hz.2.1 (by decide) _).trans ?_
    rw [List.find?_append, show List.find? (fun r => r.1 == z) u = none by
      rw [List.find?_eq_none]
      intro r hr
      have := hu r hr
      simp only [beq_iff_eq]
      omega, Option.or_none]
    rfl
  have hc : ∀ z ∈ [cpc + 348, cpc + 352, ev + 352], cellQ z = true ∧ L0.Free exBuf 6 z ∧ (z < 0x7000000 ∨ 0x7F00000 ≤ z) := by decide +kernel
  have e4 : Src.valM (L.view (mem u xv)) (.var x) = xv := by
    rw [valM_var, hvv _ (cell (by decide +kernel))]
    exact (hl.ok _).2 4 (show 4 < 6 by decide)
  have pe : ∀ k ≤ n, posB xv.toNat k = xv.toNat + k := fun k hk => Nat.mod_eq_of_lt (by omega)
  have hb : ∀ k ≤ n, byteAt (L.view (mem u xv)) (posB xv.toNat k) = byteAt (mem u xv) (xv.toNat + k) := fun k hk => by
    rw [pe k hk]
    exact byteAt_congr (hvv _ (far (by omega) (by omega)) _)
  have hd := C36_strlen (L := L) wf cok fC (D := D) ⟨cell (by decide +kernel), cell (by decide +kernel), by decide, fD⟩ (b1 := seqAt 21) (b2 := haltAt) (q := q) (r := r) (o := o + 348) (x := .var x) (by decide) (by decide)
    (callOkB_spec (fun x h => cell (x := x) h) vars (by decide +kernel)) (callOkB_spec (fun x h => cell (x := x) h) vars (by decide +kernel)) (by decide) (cell (by decide +kernel)) (by decide) (by decide +kernel)
    (s := L.view (mem u xv)) (n := n) ((fr (ev + 352) (hc _ (by simp))).trans (by decide +kernel)) ((fr (cpc + 352) (hc _ (by simp))).trans (by decide +kernel))
    (by
      rw [e4]
      intro k hk
      rw [pe k hk]
      refine ⟨(far (by omega) (by omega)).2, fun hx => ?_⟩
      have := scrFar _ hx
      omega)
    (by
      rw [e4]
      exact ⟨fun k hk => by rw [hb k (by omega)]; exact h1 k hk, by rw [hb n (by omega)]; exact h2⟩)
  obtain ⟨s', xe, g1, g2, -⟩ := hd
  obtain ⟨m', rr, -, hv'⟩ := C25_structured wf xe code _ (ok u xv) rfl
  refine ⟨m', rr, ?_, ?_⟩
  · rw [← hvv _ (cell (by decide +kernel)) m', hv', g1]
  · rw [← hvv _ (cell (by decide +kernel)) m', hv', g2]
    exact (fr (cpc + 348) (hc _ (by simp))).trans (by decide +kernel)

end ExStrLen

end Eud.SC
