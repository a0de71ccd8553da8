import Verif.Ex.KitSw
import Verif.Ex.Read
import Verif.Ex.ByteWrite
import Verif.Lib.FlagRead
/-
Example for C32: `f_wread_epd(e, i)` with two variables, in memory, with its switch and the readers it shares.
-/

namespace Eud.SC

namespace ExSubRead

def A (t : Nat) : Nat := trigAt (t + 30)
def tbl : Nat := 0xE010000

def S : SubRd where
  rend := 0xE002000
  cpc := 0xE000000
  sv := exVar 2
  bv := trigAt 0
  t2 := trigAt 21
  t3 := trigAt 22
  fend := trigAt 1

def nptr : Nat := fendPtr [S.bv] S.fend
def e : Nat := exVar 0
def i : Nat := exVar 1
def o : Nat := exVar 3 + 348
/-- Two dwords in a row. -/
def D : Nat := 0xE020000

/-! The readers (bwepdio.py:275-289). -/

def q : Nat → RReq
  | 0 => .insertOrGet 0xFFFF 0 none
  | 1 => .insertOrGet 0xFFFF00 (-8) none
  | 2 => .insertOrGet 0xFFFF0000 (-16) none
  | 3 => .insertOrGet 0xFF000000 (-24) none
  | _ => .insertOrGet 0xFF 8 none
def pre (j : Nat) : List RReq := ExRead.base ++ (List.range j).map q
def T : RT := RT.run RT.empty (pre 5)
def rd (j : Nat) : Nat := (((RT.run RT.empty (pre j)).req (q j)).map Prod.snd).getD 0

/-! The function. -/

def swBlks : List SBlk := sw4ABlks (S.sv + 348) (trigAt 10) (trigAt 11) (trigAt 12) (trigAt 13) (trigAt 14) tbl S.cpc S.acts
def tab : List (Nat × Nat) := sw4Tab tbl (A (rd 0)) (A (rd 1)) (A (rd 2)) (trigAt 20)
def b1 : List PA := [aMem (S.rend + 4) .set (BitVec.ofNat 32 S.t2)]
def b2 : List PA := [aMem cpAddr .add 1, aMemX (S.rend + 352) .set (8 <<< 24) 0xFF000000, aMem (S.rend + 4) .set (BitVec.ofNat 32 S.t3)]
def b3 : List PA := [aMemX (S.rend + 352) .set (7 <<< 24) 0xFF000000]
def two : List SBlk := [⟨trigAt 20, ⟨[], b1.map PA.a⟩, some (A (rd 3)), false⟩, ⟨trigAt 21, ⟨[], b2.map PA.a⟩, some (A (rd 4)), false⟩, ⟨trigAt 22, ⟨[], b3.map PA.a⟩, some S.cpc, false⟩]
def rtab : List SBlk := ExRead.tabBlks A S.rend 0 T.trigs

/-! The program: one call. -/

def args : List (Nat × Src) := [(cpAddr, .var e), (S.sv + 348, .var i)]
def site (L : Layout) : Site := ⟨trigAt 10, S.fend, nptr, haltAt, S.body L 2, [(S.bv, o)], args⟩
def L00 : Layout := ⟨⟨[], [], []⟩, [], []⟩
def mS : Nat → (b k x n m : Nat) → Option Emitted := fun _ => callS (site L00)
def eM : Emitted := emitD retAt mS (.site 0) 0 0 haltAt 90 0

/-! Memory -/

def parts : List (List SBlk) := [fendBlks [S.bv] S.fend, swBlks, two, rtab, eM.blks]
def L0 : Layout := ⟨⟨parts.flatten, eM.seqs, (List.range 4).map exVar⟩, [(trigAt 10, S.cpc)], []⟩
def rendPins (r : Nat) : List (Nat × Nat) := [(r + 16, 0), (r + 352, 20), (r + 372, (epd (r + 348)).toNat), (r + 376, 0), (r + 380, 0x072D0000), (r + 384, 20), (r + 412, 0), (r + 2372, 4)]
def X : List (Nat × Nat) := pvPins S.cpc ++ rendPins S.rend ++ tab
def jmp : Nat := trigAt 14
def L : Layout := (L0.pin X).hide (jmp + 4)

def vs (iv : W) : List W := [epd D, iv, 9, 9]
def holes0 : List (Nat × W) := [(S.cpc + 348, 5), (S.cpc + 352, pmod .set), (S.rend + 352, pmod .set), (S.rend + 348, 0)]
def holes (x y : W) : List (Nat × W) := holes0 ++ [(D, x), (D + 4, y)]
def mem (iv x y : W) : Mem := L0.mem exBuf (vs iv) (pinHoles X ++ holes x y)

theorem laid (iv : W) : L0.Laid exBuf (vs iv) := Layout.laidB_spec (show L0.laidB exBuf 4 = true by decide +kernel)
theorem pins : L0.pinB exBuf 4 X = true := by decide +kernel
theorem laid0 : L0.Laid exBuf (vs 0) := laid 0
theorem wf : L.Wf := (laid0.pinWf pins).hide (Layout.freeB_spec (by decide +kernel))
theorem ok (iv x y : W) : L.Ok (mem iv x y) := by
  have h := (laid iv).pinOk pins (holes x y)
  exact ⟨h.prog, h.mask, h.rest⟩
def cellQ (x : Nat) : Bool := L0.pinCellB X x && x != jmp + 4
theorem cell {x : Nat} (h : cellQ x = true) : L.cell x := by
  simp only [cellQ, Bool.and_eq_true, bne_iff_ne, ne_eq] at h
  have hc := laid0.pinCellB h.1
  exact ⟨hc.1, by rw [L, Layout.hide_priv]; exact fun e => e.elim h.2 hc.2⟩
theorem pv : PVar L S.cpc := by
  have h1 : (∀ r ∈ pvPins S.cpc, r ∈ X) ∧ (∀ o ∈ [4, 344, 348, 352], L0.Free exBuf 4 (S.cpc + o) ∧ ∀ r ∈ X, S.cpc + o ≠ r.1 + 4) ∧ jmp + 4 ∉ [S.cpc + 4, S.cpc + 344, S.cpc + 348, S.cpc + 352] := by decide +kernel
  exact (PVar.pin laid0 h1.1 h1.2.1).hide h1.2.2
theorem vars : ∀ v ∈ (List.range 4).map exVar, v ∈ L.P.vars := fun _ h => h
theorem bp {l : List SBlk} (k : Nat) (h : parts[k]? = some l) : ∀ b ∈ l, b ∈ L.P.blks := fun _ hb => List.mem_flatten.2 ⟨l, List.mem_of_getElem? h, hb⟩
theorem xr : ∀ r ∈ X, r ∈ L.rest := fun _ hr => List.mem_append_right _ hr

/-! Code -/

theorem rendX : RendX L S.rend := by
  have hr : ∀ r ∈ rendPins S.rend, r ∈ L.rest := fun r h => xr r (List.mem_append_left _ (List.mem_append_right _ h))
  exact ⟨hr _ (.head _), hr _ (.tail _ (.head _)), hr _ (.tail _ (.tail _ (.head _))), hr _ (.tail _ (.tail _ (.tail _ (.head _)))), hr _ (.tail _ (.tail _ (.tail _ (.tail _ (.head _))))),
    hr _ (.tail _ (.tail _ (.tail _ (.tail _ (.tail _ (.head _)))))), hr _ (.tail _ (.tail _ (.tail _ (.tail _ (.tail _ (.tail _ (.head _))))))),
    hr _ (.tail _ (.tail _ (.tail _ (.tail _ (.tail _ (.tail _ (.tail _ (.head _)))))))), cell (by decide +kernel), cell (by decide +kernel), cell (by decide +kernel), cell (by decide +kernel), by decide⟩

theorem sok : S.Ok L := ⟨rendX, pv, cell (by decide +kernel), by decide, cell (by decide +kernel), by decide +kernel, by decide⟩

theorem trigs : RdTrigs L T A S.rend := by
  refine ⟨fun t r h => ?_, cell (by decide +kernel), by decide⟩
  have := ExRead.tabBlks_mem (A := A) (rend := S.rend) (k := 0) h
  rw [Nat.zero_add] at this
  exact bp 3 rfl _ this

theorem reader (j : Nat) (qs' : List RReq) {T1 : RT} (h1 : (RT.run RT.empty (pre j)).req (q j) = some (T1, rd j)) (h2 : T1.run qs' = T) (hm : (q j).mask < 2 ^ 32) : Reader L S.rend (A (rd j)) (q j).mask (q j).sh :=
  Reader.ofT wf (pre j) qs' hm h1 (by rw [h2]; exact trigs)
theorem reqN (j : Nat) (h : ((RT.run RT.empty (pre j)).req (q j)).isSome = true) : (RT.run RT.empty (pre j)).req (q j) = some ((((RT.run RT.empty (pre j)).req (q j)).getD (RT.empty, 0)).1, rd j) := by
  unfold rd
  obtain ⟨y, hy⟩ := Option.isSome_iff_exists.1 h
  rw [hy]; rfl
theorem r0 : Reader L S.rend (A (rd 0)) 0xFFFF 0 := reader 0 [q 1, q 2, q 3, q 4] (reqN 0 (by decide +kernel)) (by decide +kernel) (by decide)
theorem r1 : Reader L S.rend (A (rd 1)) 0xFFFF00 (-8) := reader 1 [q 2, q 3, q 4] (reqN 1 (by decide +kernel)) (by decide +kernel) (by decide)
theorem r2 : Reader L S.rend (A (rd 2)) 0xFFFF0000 (-16) := reader 2 [q 3, q 4] (reqN 2 (by decide +kernel)) (by decide +kernel) (by decide)
theorem r3 : Reader L S.rend (A (rd 3)) 0xFF000000 (-24) := reader 3 [q 4] (reqN 3 (by decide +kernel)) (by decide +kernel) (by decide)
theorem r4 : Reader L S.rend (A (rd 4)) 0xFF 8 := reader 4 [] (reqN 4 (by decide +kernel)) (by decide +kernel) (by decide)

theorem nob : S.bv + 348 ≠ S.rend + 352 ∧ S.bv + 348 ≠ S.rend + 4 ∧ S.bv + 348 ≠ S.rend + 348 := by decide

theorem oneCode {i t mask : Nat} {sh : Int} (h : Reader L S.rend t mask sh) (e1 : mask = (2 ^ (8 * 2) - 1) * 2 ^ (8 * i)) (e2 : sh = -(8 * i : Nat)) {r k : Nat} : Code L r S.cpc k (S.one L 2 i) t 0 := by
  subst e1 e2
  exact Code.seq (m := S.cpc) (rdX_code rendX h (by decide) sok.eb sok.cb nob) .brk

theorem twoCode {r k : Nat} : Code L r S.cpc k (S.two L) (trigAt 20) 0 :=
  Code.seq (m := A (rd 3)) (.trig (placedCB_spec rfl) (placedAB_spec (show placedAB _ b1 = true by decide +kernel)) (bp 2 rfl _ (.head _)))
    (.seq (m := S.t2) (rdX_code rendX r3 (by decide) sok.eb sok.cb nob)
      (.seq (m := A (rd 4)) (.trig (placedCB_spec rfl) (placedAB_spec (show placedAB _ b2 = true by decide +kernel)) (bp 2 rfl _ (.tail _ (.head _))))
        (.seq (m := S.t3) (rdX_code rendX r4 (by decide) sok.eb sok.cb nob)
          (.seq (m := S.cpc) (.trig (placedCB_spec rfl) (placedAB_spec (show placedAB _ b3 = true by decide +kernel)) (bp 2 rfl _ (.tail _ (.tail _ (.head _))))) .brk))))

theorem swCode {r b k : Nat} : Code L r b k (.prim (SwARel L (fun s => s (S.sv + 348)) S.acts (cases0 4 (S.case L 2)))) (trigAt 10) S.cpc := by
  refine swA_code wf (val := fun s => s (S.sv + 348)) (d := S.cpc) (cases := [(0, A (rd 0), S.one L 2 0), (1, A (rd 1), S.one L 2 1), (2, A (rd 2), S.one L 2 2), (3, trigAt 20, S.two L)]) ?_ ?_
  · intro s c ha hs hl
    have := sw4A_runs wf (cell (by decide +kernel)) (bp 1 rfl) (placedAB_spec (by decide +kernel)) (.head _) (fun r hr => xr r (List.mem_append_right _ hr)) (by decide) (by decide) (by simp [L, Layout.hide, jmp])
      (laid0.cellB (x := jmp + 4) (by decide +kernel)).1 (by decide) (by decide +kernel) s ha hs
    have h4 : (s (S.sv + 348)).toNat < 4 := by
      have := lookup_mem' hl
      simp only [List.mem_cons, Prod.mk.injEq, List.not_mem_nil, or_false] at this
      rcases this with ⟨h, -⟩ | ⟨h, -⟩ | ⟨h, -⟩ | ⟨h, -⟩ <;> rw [h] <;> decide
    rw [if_pos h4] at this
    exact this
  · intro c hc
    simp only [List.mem_cons, List.not_mem_nil, or_false] at hc
    rcases hc with rfl | rfl | rfl | rfl
    · exact ⟨0, 0, 0, oneCode r0 (by decide) (by decide)⟩
    · exact ⟨0, 0, 0, oneCode r1 (by decide) (by decide)⟩
    · exact ⟨0, 0, 0, oneCode r2 (by decide) (by decide)⟩
    · exact ⟨0, 0, 0, twoCode⟩

theorem fF : FuncCode L (trigAt 10) S.fend nptr [S.bv] (S.body L 2) := by
  refine ⟨⟨0, 0, .seq swCode (pv_code wf pv (by decide))⟩, fendBlks_end (bp 0 rfl) (cell (by decide +kernel)) ?_ (by decide)⟩
  intro v hv
  rw [List.mem_singleton.1 hv]
  exact ⟨cell (by decide +kernel), by decide⟩

theorem code : Code L retAt 0 0 ((site L).stmt L) eM.e haltAt := by
  refine emitD_code (S := mS) (f := fun _ => (site L).stmt L) (es := .site 0) ?_ (by decide +kernel) ⟨?_, fun b hb => hb, ?_⟩
  · intro j b k x n m E h hi
    exact callS_code (c := site L) wf fF (by decide) h hi
  · exact bp 4 rfl
  · have : (emitD retAt mS (.site 0) 0 0 haltAt 90 0).rest = [] := by decide +kernel
    rw [this]; simp

/-- The word at any offset, in one dword or in two; the cached current player is restored. -/
theorem run (iv x y : W) (hi : iv.toNat < 4) : ∃ m', Reaches ⟨mem iv x y, eM.e⟩ ⟨m', haltAt⟩ ∧ m' o = BitVec.ofNat 32 ((x.toNat + 2 ^ 32 * y.toNat) / 2 ^ (8 * iv.toNat) % 65536) ∧ m' cpAddr = 5 := by
  have hl := laid iv
  have hvv : ∀ a, L.cell a → ∀ m, L.view m a = m a := fun a ha m => Layout.view_at ha.2
  have fr : ∀ z, cellQ z = true ∧ L0.Free exBuf 4 z → L.view (mem iv x y) z = match (pinHoles X ++ holes x y).find? (fun r => r.1 == z) with | some r => r.2 | none => 0 := by
    intro z hz
    rw [hvv _ (cell hz.1)]
    exact hl.free hz.2 (by decide) _
  have vv : ∀ k : Nat, (h : k < 4) → L.view (mem iv x y) (exVar k + 348) = (vs iv)[k]'h := by
    intro k h
    have : ∀ k < 4, cellQ (exVar k + 348) = true := by decide +kernel
    rw [hvv _ (cell (this k h))]
    exact (hl.ok _).2 k h
  have hc : ∀ z ∈ [S.cpc + 348, S.cpc + 352, S.rend + 352, S.rend + 348, D, D + 4], cellQ z = true ∧ L0.Free exBuf 4 z := by decide +kernel
  have ho := ok iv x y
  have fr0 : ∀ z w, (pinHoles X ++ holes0).find? (fun r => r.1 == z) = some (z, w) → cellQ z = true ∧ L0.Free exBuf 4 z → L.view (mem iv x y) z = w := by
    intro z w h hz
    rw [fr z hz, holes, ← List.append_assoc, List.find?_append, h]
    rfl
  have i1 : L.view (mem iv x y) (S.cpc + 348) = 5 := fr0 _ _ (by decide +kernel) (hc _ (by simp))
  have i2 : L.view (mem iv x y) (S.cpc + 352) = pmod .set := fr0 _ _ (by decide +kernel) (hc _ (by simp))
  have i3 : L.view (mem iv x y) (S.rend + 352) = pmod .set := fr0 _ _ (by decide +kernel) (hc _ (by simp))
  have i4 : L.view (mem iv x y) (S.rend + 348) = 0 := fr0 _ _ (by decide +kernel) (hc _ (by simp))
  have i5 : L.view (mem iv x y) D = x := (fr _ (hc _ (by simp))).trans (by rfl)
  have i6 : L.view (mem iv x y) (D + 4) = y := (fr _ (hc _ (by simp))).trans (by rfl)
  have i7 : L.view (mem iv x y) (e + 348) = epd D := vv 0 (by decide)
  have i8 : L.view (mem iv x y) (i + 348) = iv := vv 1 (by decide)
  generalize hs : L.view (mem iv x y) = s at *
  have ed : epdAddr (epd D) = D := by decide +kernel
  have ed4 : epdAddr (epd D + 1) = D + 4 := by decide +kernel
  have hD : ¬ L.priv D ∧ D ∉ nptr :: (S.bv + 344) :: args.map Prod.fst ++ S.own := ⟨(cell (by decide +kernel)).2, by decide +kernel⟩
  have hD4 : ¬ L.priv (D + 4) ∧ D + 4 ∉ nptr :: (S.bv + 344) :: args.map Prod.fst ++ S.own ++ [S.rend + 352] := ⟨(cell (by decide +kernel)).2, by decide +kernel⟩
  obtain ⟨s', xe, k1, k2, -⟩ := C32_sub (e := .var e) (i := .var i) (s := s) (args := args) (o := o) (back := haltAt) wf sok (Or.inr rfl) (.head _) (.tail _ (.head _))
    (callOkB_spec (cell := cellQ) (fun x h => cell h) vars (by decide +kernel)) fF (by decide) (by simp only [Src.valM, i8]; exact hi) i3 i4 i2 (by decide +kernel) (by decide +kernel)
    (by simp only [Src.valM, i7, ed]; exact hD) (by simp only [Src.valM, i7, ed4]; exact fun _ => hD4)
  simp only [Src.valM, i7, i8, ed, ed4, i5, i6] at k1
  obtain ⟨m', rr, -, hv'⟩ := C25_structured wf xe code _ ho hs
  have hm : ∀ z, cellQ z = true → m' z = s' z := fun z hz => by rw [← Layout.view_at (L := L) (m := m') (cell hz).2, hv']
  exact ⟨m', rr, by rw [hm _ (by decide +kernel), k1]; rfl, by rw [hm _ (by decide +kernel), k2, i1]⟩

end ExSubRead

end Eud.SC
