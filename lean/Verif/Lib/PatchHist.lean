import Verif.Lib.PatchBlk
/-
C47: histories of `f_dwpatch_epd`, `f_blockpatch_epd` (up to 256 dwords), `f_unpatchall` and assignments of the program; and what goes wrong with longer blocks.
-/

namespace Eud.SC

/-! ## Records -/

def PDst (log : List PRec) (x : Nat) : Prop := ∃ r ∈ log, ∃ i < r.2.2.toNat, epdAddr (r.1 + BitVec.ofNat 32 i) = x
def PSrc (log : List PRec) (x : Nat) : Prop := ∃ r ∈ log, ∃ i < r.2.2.toNat, epdAddr (r.2.1 + BitVec.ofNat 32 i) = x

theorem undo_cons (r : PRec) (log : List PRec) (m : Mem) : undo (r :: log) m = movsd r.2.2.toNat r.1 r.2.1 (undo log m) := rfl

theorem undo_concat (log : List PRec) (r : PRec) (m : Mem) : undo (log ++ [r]) m = undo log (movsd r.2.2.toNat r.1 r.2.1 m) := by
  simp only [undo, List.foldr_append, List.foldr_cons, List.foldr_nil]

theorem undo_out : ∀ (log : List PRec) {m : Mem} {x : Nat}, ¬ PDst log x → undo log m x = m x
  | [], _, _, _ => rfl
  | r :: log, m, x, h => by
    rw [undo_cons, movsd_out _ _ _ _ _ (fun i hi e => h ⟨r, by simp, i, hi, e⟩)]
    exact undo_out log fun ⟨q, hq, h'⟩ => h ⟨q, by simp [hq], h'⟩

/-- What copying back gives depends only on the sources, and on the dword itself if it is not copied to. -/
theorem undo_congr : ∀ (log : List PRec) {m m' : Mem} {x : Nat}, (∀ r ∈ log, r.2.2.toNat ≤ 256) → (∀ y, PDst log y → ¬ PSrc log y) → (∀ y, PSrc log y → m y = m' y) → (PDst log x ∨ m x = m' x) → undo log m x = undo log m' x
  | [], _, _, _, _, _, _, h => h.elim (fun ⟨_, h, _⟩ => by cases h) id
  | r :: log, m, m', x, hn, hd, hs, hx => by
    have up : ∀ y, PDst log y → PDst (r :: log) y := fun y ⟨q, hq, h'⟩ => ⟨q, by simp [hq], h'⟩
    have us : ∀ y, PSrc log y → PSrc (r :: log) y := fun y ⟨q, hq, h'⟩ => ⟨q, by simp [hq], h'⟩
    rw [undo_cons, undo_cons]
    by_cases hr : ∃ i < r.2.2.toNat, epdAddr (r.1 + BitVec.ofNat 32 i) = x
    · obtain ⟨i, hi, rfl⟩ := hr
      have h256 := hn r (by simp)
      have key : ∀ M : Mem, movsd r.2.2.toNat r.1 r.2.1 (undo log M) (epdAddr (r.1 + BitVec.ofNat 32 i)) = M (epdAddr (r.2.1 + BitVec.ofNat 32 i)) := fun M => by
        rw [movsd_in _ _ _ _ (fun i hi j hj e => epdAddr_inj r.1 (by omega) hi hj e)
          (fun i hi j hj e => hd (epdAddr (r.1 + BitVec.ofNat 32 j)) ⟨r, by simp, j, by omega, rfl⟩ ⟨r, by simp, i, hi, e.symm⟩) i hi]
        exact undo_out log fun h => hd _ (up _ h) ⟨r, by simp, i, hi, rfl⟩
      rw [key, key]
      exact hs _ ⟨r, by simp, i, hi, rfl⟩
    · rw [movsd_out _ _ _ _ _ (fun i hi e => hr ⟨i, hi, e⟩), movsd_out _ _ _ _ _ (fun i hi e => hr ⟨i, hi, e⟩)]
      refine undo_congr log (fun q hq => hn q (by simp [hq])) (fun y h1 h2 => hd y (up y h1) (us y h2)) (fun y hy => hs y (us y hy)) (hx.imp_left ?_)
      rintro ⟨q, hq, i, hi, e⟩
      rcases List.mem_cons.1 hq with rfl | hq
      · exact absurd ⟨i, hi, e⟩ hr
      · exact ⟨q, hq, i, hi, e⟩

theorem pdst_concat (log : List PRec) (r : PRec) (y : Nat) : PDst (log ++ [r]) y ↔ PDst log y ∨ ∃ i < r.2.2.toNat, epdAddr (r.1 + BitVec.ofNat 32 i) = y := by
  constructor
  · rintro ⟨q, hq, h⟩
    rcases List.mem_append.1 hq with hq | hq
    · exact .inl ⟨q, hq, h⟩
    · exact .inr (List.mem_singleton.1 hq ▸ h)
  · rintro (⟨q, hq, h⟩ | h)
    · exact ⟨q, by simp [hq], h⟩
    · exact ⟨r, by simp, h⟩

theorem psrc_concat (log : List PRec) (r : PRec) (y : Nat) : PSrc (log ++ [r]) y ↔ PSrc log y ∨ ∃ i < r.2.2.toNat, epdAddr (r.2.1 + BitVec.ofNat 32 i) = y := by
  constructor
  · rintro ⟨q, hq, h⟩
    rcases List.mem_append.1 hq with hq | hq
    · exact .inl ⟨q, hq, h⟩
    · exact .inr (List.mem_singleton.1 hq ▸ h)
  · rintro (⟨q, hq, h⟩ | h)
    · exact ⟨q, by simp [hq], h⟩
    · exact ⟨r, by simp, h⟩

theorem one_idx {i : Nat} (h : i < (1 : W).toNat) : i = 0 := Nat.lt_one_iff.1 h

theorem add_zero_epd (d : W) : d + BitVec.ofNat 32 0 = d := BitVec.add_zero d

/-! ## Swapping blocks -/

/-- Which dword of the block at EPD `d` is `x`? -/
def blkAt (d : W) (n x : Nat) : Option Nat := (List.range n).find? fun i => epdAddr (d + BitVec.ofNat 32 i) == x

theorem blkAt_some {d : W} {n x i : Nat} (h : blkAt d n x = some i) : i < n ∧ epdAddr (d + BitVec.ofNat 32 i) = x :=
  ⟨List.mem_range.1 (List.mem_of_find?_eq_some h), by simpa using List.find?_some h⟩

theorem blkAt_none {d : W} {n x : Nat} (h : blkAt d n x = none) : ∀ i < n, epdAddr (d + BitVec.ofNat 32 i) ≠ x := fun i hi => by
  simpa using List.find?_eq_none.1 h i (List.mem_range.2 hi)

theorem blkAt_eq {d : W} {n i : Nat} (hn : n ≤ 256) (hi : i < n) : blkAt d n (epdAddr (d + BitVec.ofNat 32 i)) = some i := by
  cases h : blkAt d n (epdAddr (d + BitVec.ofNat 32 i)) with
  | none => exact absurd rfl (blkAt_none h i hi)
  | some j =>
    obtain ⟨hj, e⟩ := blkAt_some h
    rw [epdAddr_inj d (by omega) hj hi e]

/-- Two blocks exchanged. -/
def swapped (d p : W) (n : Nat) (m : Mem) : Mem := fun x =>
  match blkAt d n x with
  | some i => m (epdAddr (p + BitVec.ofNat 32 i))
  | none =>
    match blkAt p n x with
    | some i => m (epdAddr (d + BitVec.ofNat 32 i))
    | none => m x

theorem blkSwap_spec {T d p : W} {n : Nat} (hn : n ≤ 256) (hdp : ∀ i < n, ∀ j < n, epdAddr (d + BitVec.ofNat 32 i) ≠ epdAddr (p + BitVec.ofNat 32 j))
    (hdT : ∀ i < n, ∀ j < n, epdAddr (d + BitVec.ofNat 32 i) ≠ epdAddr (T + BitVec.ofNat 32 j)) (hpT : ∀ i < n, ∀ j < n, epdAddr (p + BitVec.ofNat 32 i) ≠ epdAddr (T + BitVec.ofNat 32 j)) (m : Mem) {x : Nat}
    (hx : ∀ i < n, epdAddr (T + BitVec.ofNat 32 i) ≠ x) : blkSwap T d p n m x = swapped d p n m x := by
  have inj : ∀ (e : W), ∀ i < n, ∀ j < n, epdAddr (e + BitVec.ofNat 32 i) = epdAddr (e + BitVec.ofNat 32 j) → i = j := fun e i hi j hj h => epdAddr_inj e (by omega) hi hj h
  unfold swapped
  cases h1 : blkAt d n x with
  | some i =>
    obtain ⟨hi, rfl⟩ := blkAt_some h1
    rw [blkSwap, movsd_out _ _ _ _ _ (fun j hj e => hdp i hi j hj e.symm), movsd_in _ _ _ _ (inj d) (fun i hi j hj => hdp j (by omega) i hi) i hi, movsd_out _ _ _ _ _ (fun j hj e => hpT i hi j hj e.symm)]
  | none =>
    cases h2 : blkAt p n x with
    | some i =>
      obtain ⟨hi, rfl⟩ := blkAt_some h2
      dsimp only
      rw [blkSwap, movsd_in _ _ _ _ (inj p) (fun i hi j hj => hpT j (by omega) i hi) i hi, movsd_out _ _ _ _ _ (fun j hj e => hdT j hj i hi e),
        movsd_in _ _ _ _ (inj T) (fun i hi j hj e => hdT i hi j (by omega) e.symm) i hi]
    | none => exact blkSwap_out hx (blkAt_none h1) (blkAt_none h2)

theorem blkIter_le (T d p : W) {n : Nat} (hn : n ≤ 256) (m : Mem) : blkIter T d p n m = blkSwap T d p n m := by
  by_cases h : n = 0
  · subst h
    rw [blkIter_zero]
    rfl
  · rw [blkIter_pos _ _ _ h, Nat.min_eq_left hn, Nat.sub_eq_zero_of_le hn, blkIter_zero]

/-! ## Histories -/

/-- The dwords that patching keeps for itself. -/
def PCfg.Priv (G : PCfg) (x : Nat) : Prop := x ∈ G.scr ∨ G.InStk x ∨ (∃ q < G.cap, x = G.db + 4 * q) ∨ ∃ q < 256, x = G.tb + 4 * q

/-- What the program sees: memory, the values that patched dwords had at first, and the dwords that hold values for unpatching; and the number of patches. -/
structure PSp where
  m : Mem
  orig : Nat → Option W
  H : List Nat
  k : Nat

inductive PtOp
  /-- `f_dwpatch_epd(dst, val)`, from a place followed by `back` -/
  | patch (back : Nat) (dst val : Src)
  /-- `f_blockpatch_epd(dst, src, cnt)` -/
  | block (back : Nat) (dst src cnt : Src)
  /-- assignments of the program -/
  | user (gs : List Asg)
  /-- `f_unpatchall()` -/
  | unpatch (back : Nat)

/-- The intended meaning: a patched dword is set, and remembers the value it had before it was first patched; `f_unpatchall` brings these back. -/
def PtOp.spec : PtOp → PSp → PSp
  | .patch _ dst val, σ =>
    { σ with m := σ.m.set (epdAddr (dst.valM σ.m)) (val.valM σ.m), orig := fun x => if x = epdAddr (dst.valM σ.m) ∧ σ.orig x = none then some (σ.m x) else σ.orig x, k := σ.k + 1 }
  | .block _ dst src cnt, σ =>
    { m := swapped (dst.valM σ.m) (src.valM σ.m) (cnt.valM σ.m).toNat σ.m
      orig := fun x => if (blkAt (dst.valM σ.m) (cnt.valM σ.m).toNat x).isSome ∧ σ.orig x = none then some (σ.m x) else σ.orig x
      H := σ.H ++ (List.range (cnt.valM σ.m).toNat).map fun i => epdAddr (src.valM σ.m + BitVec.ofNat 32 i)
      k := σ.k + 1 }
  | .user gs, σ => { σ with m := runAsg gs σ.m }
  | .unpatch _, σ => ⟨fun x => (σ.orig x).getD (σ.m x), fun _ => none, [], 0⟩

/-- A dword of the program. -/
def UTarget (L : Layout) (G : PCfg) (D : W) : Prop := PlainEpd D ∧ L.cell (epdAddr D) ∧ ¬ G.Priv (epdAddr D)

def SrcU (G : PCfg) (x : Src) : Prop := ∀ v, x = .var v → ¬ G.Priv (v + 348)

/-- The conditions under which patching is to work: there is room; blocks are not longer than 256 dwords, apart from each other, and their sources are neither patched nor changed before they are unpatched. -/
def PtOp.Ok (L : Layout) (G : PCfg) : PtOp → PSp → Prop
  | .patch back dst val, σ => back < 2 ^ 32 ∧ CallOk L G.rp [] [(G.d + 348, dst), (G.v + 348, val)] [] ∧ SrcU G dst ∧ SrcU G val ∧ σ.k < G.cap ∧ UTarget L G (dst.valM σ.m) ∧ epdAddr (dst.valM σ.m) ∉ σ.H
  | .block back dst src cnt, σ =>
    back < 2 ^ 32 ∧ CallOk L G.rb [] [(G.bd + 348, dst), (G.bs + 348, src), (G.bn + 348, cnt)] [] ∧ SrcU G dst ∧ SrcU G src ∧ SrcU G cnt ∧ σ.k < G.cap ∧ (cnt.valM σ.m).toNat ≤ 256 ∧
      (∀ i < (cnt.valM σ.m).toNat, UTarget L G (dst.valM σ.m + BitVec.ofNat 32 i) ∧ epdAddr (dst.valM σ.m + BitVec.ofNat 32 i) ∉ σ.H) ∧
      (∀ i < (cnt.valM σ.m).toNat, UTarget L G (src.valM σ.m + BitVec.ofNat 32 i) ∧ epdAddr (src.valM σ.m + BitVec.ofNat 32 i) ∉ σ.H ∧ σ.orig (epdAddr (src.valM σ.m + BitVec.ofNat 32 i)) = none) ∧
      ∀ i < (cnt.valM σ.m).toNat, ∀ j < (cnt.valM σ.m).toNat, epdAddr (dst.valM σ.m + BitVec.ofNat 32 i) ≠ epdAddr (src.valM σ.m + BitVec.ofNat 32 j)
  | .user gs, σ => ∀ g ∈ gs, L.cell g.a ∧ ¬ G.Priv g.a ∧ g.a ∉ σ.H ∧ SrcU G g.src ∧ ∀ v, g.src = .var v → v ∈ L.P.vars
  | .unpatch back, _ => back < 2 ^ 32 ∧ CallOk L G.ru [] [] []

def PtOk (L : Layout) (G : PCfg) : List PtOp → PSp → Prop
  | [], _ => True
  | op :: l, σ => op.Ok L G σ ∧ PtOk L G l (op.spec σ)

def PtOp.run (l : List PtOp) (σ : PSp) : PSp := l.foldl (fun σ op => op.spec σ) σ

/-- The places of the three functions' code. -/
structure PFns where
  (fp fb fu rd n1 n2 n3 n4 t0 cn fe ub u1 u2 u3 bn1 cont b1 b2 b3 : Nat)

def PtOp.stmt (L : Layout) (G : PCfg) (F : PFns) : PtOp → Stmt
  | .patch back dst val => .prim (CallRel L F.fp G.rp back (dwpatchBody L G F.rd F.n1 F.n2 F.n3 F.n4) [] [(G.d + 348, dst), (G.v + 348, val)])
  | .block back dst src cnt => .prim (CallRel L F.fb G.rb back (blkBody L G F.bn1 F.cont F.cn F.fe F.b1 F.b2 F.b3) [] [(G.bd + 348, dst), (G.bs + 348, src), (G.bn + 348, cnt)])
  | .user gs => .asg gs
  | .unpatch back => .prim (CallRel L F.fu G.ru back (unpatchBody L G F.cn F.fe F.ub F.u1 F.u2 F.u3) [] [])

/-- A call without results. -/
theorem call0_does {L : Layout} {fend nptr back : Nat} {args : List (Nat × Src)} {body : Stmt} (hk : CallOk L nptr [] args []) {s : Mem} {Q : Mem → Prop}
    (hb : ∀ s1, (∀ a ∈ args, s1 a.1 = a.2.valM s) → Only (nptr :: args.map Prod.fst) s s1 → Does L body s1 fun s2 => Q s2 ∧ s2 nptr = s1 nptr) :
    Does L (.prim (CallRel L fend nptr back body [] args)) s Q := by
  obtain ⟨e1, e2, -, e4⟩ := C31_entry (back := back) (s := s) hk.na hk.aa hk.an hk.pn hk.rn hk.nr
  obtain ⟨s2, h1, hQ, hO⟩ := hb (runAsg (callAsg nptr back [] args) s) e1 (by
    intro x hx
    simp only [List.mem_cons, List.mem_map, not_or, not_exists, not_and] at hx
    exact e4 x hx.1 (fun a ha e => hx.2 a ha e.symm) (fun r hr => by cases hr))
  refine Does.prim ⟨.nrm, s2, ?_, Or.inl rfl, h1, hO.trans e2, ⟨fun r hr => (by cases hr), fun r hr => (by cases hr), fun r hr => (by cases hr)⟩, rfl⟩ hQ
  refine .asg ?_ ?_
  · intro g hg
    simp only [callAsg, List.map_nil, List.append_nil, List.cons_append, List.nil_append, List.mem_cons, List.mem_append, List.mem_map] at hg
    rcases hg with rfl | ⟨a, ha, rfl⟩
    · exact hk.cn
    · exact (hk.ca a ha).1
  · intro g hg v hv
    simp only [callAsg, List.map_nil, List.append_nil, List.cons_append, List.nil_append, List.mem_cons, List.mem_append, List.mem_map] at hg
    rcases hg with rfl | ⟨a, ha, rfl⟩
    · cases hv
    · exact (hk.ca a ha).2 v hv

/-- Memory, patch stack and the program's view agree. -/
structure PInv (L : Layout) (G : PCfg) (c : W) (σ : PSp) (log : List PRec) (s : Mem) : Prop where
  is : PIs G log s c s
  m : ∀ x, ¬ G.Priv x → s x = σ.m x
  k : log.length = σ.k
  ok : ∀ r ∈ log, RecOk L G r ∧ r.2.2.toNat ≤ 256
  src : ∀ x, PSrc log x → x ∈ σ.H ∨ ∃ q < σ.k, x = G.db + 4 * q
  hid : ∀ x ∈ σ.H, ¬ G.Priv x
  dst : ∀ x, PDst log x → ¬ G.Priv x ∧ x ∉ σ.H
  orig : ∀ x, (σ.orig x ≠ none ↔ PDst log x)
  undo : ∀ x, ¬ G.Priv x → undo log s x = (σ.orig x).getD (σ.m x)

theorem PIs.other {G : PCfg} {log : List PRec} {m : Mem} {c : W} {s s1 : Mem} (hpl : ∀ q < 3 * G.cap, G.pb + 4 * q ∉ G.scr) (h : PIs G log m c s) (h1 : ∀ i ∈ [4, 7, 8, 9, 11, 12, 16, 20, 24, 28, 43], s1 (G.C i) = s (G.C i))
    (h2 : ∀ x, G.InStk x → s1 x = s x) : PIs G log s1 c s1 where
  ps := (h1 11 (by decide)).trans h.ps
  dws := (h1 12 (by decide)).trans h.dws
  len := h.len
  sum := (h1 4 (by decide)).trans h.sum
  cpc := (h1 8 (by decide)).trans h.cpc
  cp := (h1 7 (by decide)).trans h.cp
  mdc := (h1 9 (by decide)).trans h.mdc
  mdd := (h1 16 (by decide)).trans h.mdd
  mdv := (h1 20 (by decide)).trans h.mdv
  mdp := (h1 24 (by decide)).trans h.mdp
  mdq := (h1 28 (by decide)).trans h.mdq
  mdn := (h1 43 (by decide)).trans h.mdn
  stk := fun i d p n hi => by
    have hl := h.len
    obtain ⟨a, b, e⟩ := h.stk i d p n hi
    have hi' : i < log.length := (List.getElem?_eq_some_iff.1 hi).1
    rw [h2 _ ⟨3 * i, by omega, rfl⟩, h2 _ ⟨3 * i + 1, by omega, rfl⟩, h2 _ ⟨3 * i + 2, by omega, rfl⟩]
    exact ⟨a, b, e⟩
  mem := fun _ _ _ => rfl

/-- Setting the arguments of a call. -/
theorem PIs.args {L : Layout} {G : PCfg} (hk : POk L G) {log : List PRec} {c : W} {s s1 : Mem} (h : PIs G log s c s) {A : List Nat} (hA : ∀ i ∈ A, i < 47 ∧ i ∉ [4, 7, 8, 9, 11, 12, 16, 20, 24, 28, 43]) (ho : Only (A.map G.C) s s1) :
    PIs G log s1 c s1 ∧ ∀ x, x ∉ G.scr → s1 x = s x := by
  have out : ∀ x, x ∉ G.scr → s1 x = s x := fun x hx => ho x fun hm => by
    obtain ⟨i, hi, rfl⟩ := List.mem_map.1 hm
    exact hx (G.C_mem (hA i hi).1)
  refine ⟨h.other (fun q hq => (hk.pl q hq).2.2) (fun i hi => ho _ fun hm => ?_) (fun x ⟨q, hq, e⟩ => out x (e ▸ (hk.pl q hq).2.2)), out⟩
  obtain ⟨j, hj, e⟩ := List.mem_map.1 hm
  have hi47 : i < 47 := by
    simp only [List.mem_cons, List.not_mem_nil, or_false] at hi
    omega
  exact G.C_inj hk.nd (hA j hj).1 hi47 (fun h => (hA j hj).2 (h ▸ hi)) e

theorem valM_user {G : PCfg} {m m' : Mem} (h : ∀ x, ¬ G.Priv x → m x = m' x) {x : Src} (hx : SrcU G x) : x.valM m = x.valM m' := by
  cases x with
  | const w => rfl
  | var v => exact h _ (hx v rfl)

theorem runAsg_user {G : PCfg} : ∀ (gs : List Asg) {m m' : Mem}, (∀ x, ¬ G.Priv x → m x = m' x) → (∀ g ∈ gs, ¬ G.Priv g.a ∧ SrcU G g.src) → ∀ x, ¬ G.Priv x → runAsg gs m x = runAsg gs m' x
  | [], _, _, h, _ => h
  | g :: gs, m, m', h, hg => by
    obtain ⟨g1, g2⟩ := hg g (by simp)
    refine runAsg_user gs (fun x hx => ?_) fun g' hg' => hg g' (by simp [hg'])
    rw [get_set, get_set, valM_user h g2, h _ g1, h x hx]

section steps
variable {L : Layout} {G : PCfg} {c : W} {σ : PSp} {log : List PRec} {s : Mem}

theorem UTarget.tgt {D : W} (h : UTarget L G D) : PTarget L G D := ⟨h.1, h.2.1, fun e => h.2.2 (.inl e), fun e => h.2.2 (.inr (.inl e))⟩

theorem not_priv_scr {x : Nat} (h : ¬ G.Priv x) : x ∉ G.scr ∧ ¬ G.InStk x := ⟨fun e => h (.inl e), fun e => h (.inr (.inl e))⟩

theorem PInv.apart (hi : PInv L G c σ log s) (hd : ∀ q < G.cap, G.db + 4 * q ∉ G.scr ∧ ¬ G.InStk (G.db + 4 * q)) : ∀ y, PSrc log y → y ∉ G.scr ∧ ¬ G.InStk y := fun y hy => by
  rcases hi.src y hy with h | ⟨q, hq, rfl⟩
  · exact not_priv_scr (hi.hid y h)
  · have h1 := hi.is.len
    have h2 := hi.k
    exact hd q (by omega)

theorem PInv.sd (hi : PInv L G c σ log s) : ∀ y, PDst log y → ¬ PSrc log y := fun y hy hs => by
  obtain ⟨h1, h2⟩ := hi.dst y hy
  have h3 := hi.is.len
  have h4 := hi.k
  rcases hi.src y hs with h | ⟨q, hq, rfl⟩
  · exact h2 h
  · exact h1 (.inr (.inr (.inl ⟨q, by omega, rfl⟩)))

theorem patch_inv (hk : POk L G) (hi : PInv L G c σ log s) {back : Nat} {dst val : Src} (ho : (PtOp.patch back dst val).Ok L G σ) {s1 s2 : Mem} (hout : ∀ x, x ∉ G.scr → s1 x = s x)
    (hp : PIs G (log ++ [(dst.valM σ.m, epd G.db + BitVec.ofNat 32 log.length, 1)])
        ((s1.set (epdAddr (dst.valM σ.m)) (val.valM σ.m)).set (G.db + 4 * log.length) (s1 (epdAddr (dst.valM σ.m)))) c s2) :
    PInv L G c ((PtOp.patch back dst val).spec σ) (log ++ [(dst.valM σ.m, epd G.db + BitVec.ofNat 32 log.length, 1)]) s2 := by
  obtain ⟨-, -, -, -, hcap, ht, hH⟩ := ho
  have hkk := hi.k
  generalize hD : dst.valM σ.m = D at *
  generalize hV : val.valM σ.m = V at *
  have J : epdAddr (epd G.db + BitVec.ofNat 32 log.length) = G.db + 4 * log.length := epdAddr_add hk.al.2 (by have := hk.lt.2; omega)
  obtain ⟨jp, jc, jn, js⟩ := hk.dl log.length (by omega)
  have ap := hi.apart fun q hq => ⟨(hk.dl q hq).2.2.1, (hk.dl q hq).2.2.2⟩
  have ha := not_priv_scr ht.2.2
  have kp : ∀ x, ¬ G.Priv x → x ≠ G.db + 4 * log.length := fun x hx e => hx (.inr (.inr (.inl ⟨_, by omega, e⟩)))
  have hm2 : ∀ x, x ∉ G.scr → ¬ G.InStk x → s2 x = if x = G.db + 4 * log.length then s (epdAddr D) else if x = epdAddr D then V else s x := fun x h1 h2 => by
    rw [hp.mem x h1 h2, get_set, get_set, hout x h1, hout _ ha.1]
  have srcs : ∀ y, PSrc (log ++ [(D, epd G.db + BitVec.ofNat 32 log.length, (1 : W))]) y → PSrc log y ∨ y = G.db + 4 * log.length := fun y hy => by
    refine ((psrc_concat _ _ y).1 hy).imp_right ?_
    rintro ⟨i, hi', e⟩
    rw [one_idx hi', add_zero_epd, J] at e
    exact e.symm
  have dsts : ∀ y, PDst (log ++ [(D, epd G.db + BitVec.ofNat 32 log.length, (1 : W))]) y ↔ PDst log y ∨ y = epdAddr D := fun y => by
    rw [pdst_concat]
    constructor
    · refine Or.imp_right ?_
      rintro ⟨i, hi', e⟩
      rw [one_idx hi', add_zero_epd] at e
      exact e.symm
    · exact Or.imp_right fun e => ⟨0, Nat.zero_lt_one, by rw [add_zero_epd, e]⟩
  refine ⟨hp.other (fun q hq => (hk.pl q hq).2.2) (fun _ _ => rfl) fun _ _ => rfl, ?_, by simp [hi.k, PtOp.spec], ?_, ?_, hi.hid, ?_, ?_, ?_⟩
  · intro x hx
    obtain ⟨h1, h2⟩ := not_priv_scr hx
    simp only [PtOp.spec, hD, hV]
    rw [hm2 x h1 h2, if_neg (kp x hx), get_set, hi.m x hx]
  · intro r hr
    rcases List.mem_append.1 hr with hr | hr
    · exact hi.ok r hr
    · rw [List.mem_singleton.1 hr]
      refine ⟨fun i hi' => ?_, (by decide : (1 : W).toNat ≤ 256)⟩
      rw [one_idx hi', add_zero_epd, add_zero_epd]
      refine ⟨ht.tgt, ?_⟩
      simp only [J]
      exact ⟨jc.2, jn, js⟩
  · intro y hy
    rcases srcs y hy with hy | rfl
    · rcases hi.src y hy with h | ⟨q, hq, rfl⟩
      · exact .inl h
      · exact .inr ⟨q, by simp only [PtOp.spec]; omega, rfl⟩
    · exact .inr ⟨log.length, by simp only [PtOp.spec]; omega, rfl⟩
  · intro y hy
    rcases (dsts y).1 hy with hy | rfl
    · exact hi.dst y hy
    · exact ⟨ht.2.2, hH⟩
  · intro x
    rw [dsts]
    simp only [PtOp.spec, hD]
    have := hi.orig x
    by_cases hx : x = epdAddr D
    · simp only [hx, true_and, or_true, iff_true]
      split <;> simp_all
    · simp only [hx, false_and, if_false, or_false]
      exact this
  · intro x hx
    rw [undo_concat]
    have e1 : movsd (1 : W).toNat D (epd G.db + BitVec.ofNat 32 log.length) s2 = s2.set (epdAddr D) (s (epdAddr D)) := by
      show movsd 1 _ _ _ = _
      rw [movsd, movsd, J, hm2 _ jn js, if_pos rfl]
    simp only [e1]
    rw [undo_congr log (m' := s) (fun r hr => (hi.ok r hr).2) hi.sd ?_ (.inr ?_), hi.undo x hx]
    · simp only [PtOp.spec, hD, hV, get_set]
      by_cases hxa : x = epdAddr D
      · subst hxa
        cases h : σ.orig (epdAddr D) <;> simp
      · simp only [hxa, false_and, if_false]
    · intro y hy
      obtain ⟨h1, h2⟩ := ap y hy
      have hya : y ≠ epdAddr D := by
        rintro rfl
        rcases hi.src _ hy with h | ⟨q, hq, e⟩
        · exact hH h
        · exact ht.2.2 (.inr (.inr (.inl ⟨q, by omega, e⟩)))
      have hyk : y ≠ G.db + 4 * log.length := by
        rcases hi.src _ hy with h | ⟨q, hq, e⟩
        · exact kp y (hi.hid y h)
        · omega
      rw [set_ne hya, hm2 y h1 h2, if_neg hyk, if_neg hya]
    · obtain ⟨h1, h2⟩ := not_priv_scr hx
      by_cases hxa : x = epdAddr D
      · rw [hxa, set_eq]
      · rw [set_ne hxa, hm2 x h1 h2, if_neg (kp x hx), if_neg hxa]

theorem block_inv (hk : POk L G) (htd : ∀ q < G.cap, ∀ r < 256, G.db + 4 * q ≠ G.tb + 4 * r) (hi : PInv L G c σ log s) {back : Nat} {dst src cnt : Src} (ho : (PtOp.block back dst src cnt).Ok L G σ) {s1 s2 : Mem}
    (hout : ∀ x, x ∉ G.scr → s1 x = s x)
    (hp : PIs G (log ++ [(dst.valM σ.m, src.valM σ.m, cnt.valM σ.m)]) (blkIter (epd G.tb) (dst.valM σ.m) (src.valM σ.m) (cnt.valM σ.m).toNat s1) c s2) :
    PInv L G c ((PtOp.block back dst src cnt).spec σ) (log ++ [(dst.valM σ.m, src.valM σ.m, cnt.valM σ.m)]) s2 := by
  obtain ⟨-, -, -, -, -, hcap, hn, hd, hs, hds⟩ := ho
  have hkk := hi.k
  simp only [PtOp.spec]
  generalize dst.valM σ.m = D at *
  generalize src.valM σ.m = P at *
  generalize cnt.valM σ.m = N at *
  generalize hN : N.toNat = n at *
  have J : ∀ i < n, epdAddr (epd G.tb + BitVec.ofNat 32 i) = G.tb + 4 * i := fun i hi => epdAddr_add hk.tl.1 (by have := hk.tl.2.1; omega)
  have npT : ∀ x, ¬ G.Priv x → ∀ i < n, epdAddr (epd G.tb + BitVec.ofNat 32 i) ≠ x := fun x hx i hi e => hx (.inr (.inr (.inr ⟨i, by omega, by rw [← J i hi, e]⟩)))
  have ap := hi.apart fun q hq => ⟨(hk.dl q hq).2.2.1, (hk.dl q hq).2.2.2⟩
  rw [blkIter_le _ _ _ hn] at hp
  have sw : ∀ x, ¬ G.Priv x → s2 x = swapped D P n s x := fun x hx => by
    obtain ⟨h1, h2⟩ := not_priv_scr hx
    rw [hp.mem x h1 h2, blkSwap_spec hn hds (fun i hi j hj e => npT _ (hd i hi).1.2.2 j hj e.symm) (fun i hi j hj e => npT _ (hs i hi).1.2.2 j hj e.symm) _ (npT x hx)]
    unfold swapped
    split
    · rename_i i e
      exact hout _ (not_priv_scr (hs i (blkAt_some e).1).1.2.2).1
    · split
      · rename_i i e
        exact hout _ (not_priv_scr (hd i (blkAt_some e).1).1.2.2).1
      · exact hout x h1
  have swD : ∀ i < n, s2 (epdAddr (D + BitVec.ofNat 32 i)) = s (epdAddr (P + BitVec.ofNat 32 i)) := fun i hi => by
    rw [sw _ (hd i hi).1.2.2, swapped, blkAt_eq hn hi]
  have nD : ∀ i < n, blkAt D n (epdAddr (P + BitVec.ofNat 32 i)) = none := fun i hi => by
    cases h : blkAt D n (epdAddr (P + BitVec.ofNat 32 i)) with
    | none => rfl
    | some j =>
      obtain ⟨hj, e⟩ := blkAt_some h
      exact absurd e (hds j hj i hi)
  have swP : ∀ i < n, s2 (epdAddr (P + BitVec.ofNat 32 i)) = s (epdAddr (D + BitVec.ofNat 32 i)) := fun i hi => by
    rw [sw _ (hs i hi).1.2.2, swapped, nD i hi, blkAt_eq hn hi]
  have srcs : ∀ y, PSrc (log ++ [(D, P, N)]) y → PSrc log y ∨ ∃ i < n, epdAddr (P + BitVec.ofNat 32 i) = y := fun y hy => by
    have := (psrc_concat _ _ y).1 hy
    simp only [hN] at this
    exact this
  have dsts : ∀ y, PDst (log ++ [(D, P, N)]) y ↔ PDst log y ∨ ∃ i < n, epdAddr (D + BitVec.ofNat 32 i) = y := fun y => by
    rw [pdst_concat]
    simp only [hN]
  refine ⟨hp.other (fun q hq => (hk.pl q hq).2.2) (fun _ _ => rfl) fun _ _ => rfl, ?_, by simp [hi.k], ?_, ?_, ?_, ?_, ?_, ?_⟩
  · intro x hx
    rw [sw x hx]
    simp only [swapped]
    split
    · rename_i i e
      exact hi.m _ (hs i (blkAt_some e).1).1.2.2
    · split
      · rename_i i e
        exact hi.m _ (hd i (blkAt_some e).1).1.2.2
      · exact hi.m x hx
  · intro r hr
    rcases List.mem_append.1 hr with hr | hr
    · exact hi.ok r hr
    · rw [List.mem_singleton.1 hr]
      refine ⟨fun i hi' => ?_, by simpa only [hN] using hn⟩
      simp only [hN] at hi'
      exact ⟨(hd i hi').1.tgt, (hs i hi').1.2.1.2, (not_priv_scr (hs i hi').1.2.2).1, (not_priv_scr (hs i hi').1.2.2).2⟩
  · intro y hy
    simp only [List.mem_append, List.mem_map, List.mem_range]
    rcases srcs y hy with hy | ⟨i, hi', e⟩
    · rcases hi.src y hy with h | ⟨q, hq, rfl⟩
      · exact .inl (.inl h)
      · exact .inr ⟨q, by omega, rfl⟩
    · exact .inl (.inr ⟨i, hi', e⟩)
  · intro y hy
    simp only [List.mem_append, List.mem_map, List.mem_range] at hy
    rcases hy with hy | ⟨i, hi', rfl⟩
    · exact hi.hid y hy
    · exact (hs i hi').1.2.2
  · intro y hy
    simp only [List.mem_append, List.mem_map, List.mem_range, not_or, not_exists, not_and]
    rcases (dsts y).1 hy with hy | ⟨i, hi', rfl⟩
    · refine ⟨(hi.dst y hy).1, (hi.dst y hy).2, fun i hi' e => ?_⟩
      exact (hi.orig y).2 hy (e ▸ (hs i hi').2.2)
    · exact ⟨(hd i hi').1.2.2, (hd i hi').2, fun j hj e => hds i hi' j hj e.symm⟩
  · intro x
    rw [dsts]
    have := hi.orig x
    cases h : blkAt D n x with
    | some i =>
      obtain ⟨h1, h2⟩ := blkAt_some h
      simp only [Option.isSome_some, true_and]
      refine ⟨fun _ => .inr ⟨i, h1, h2⟩, fun _ => ?_⟩
      split <;> simp_all
    | none =>
      have h' := blkAt_none h
      show (if (blkAt D n x).isSome = true ∧ σ.orig x = none then some (σ.m x) else σ.orig x) ≠ none ↔ _
      rw [if_neg (by simp [h]), this]
      exact ⟨.inl, fun h => h.elim id fun ⟨i, hi', e⟩ => absurd e (h' i hi')⟩
  · intro x hx
    rw [undo_concat]
    simp only [hN]
    by_cases hxP : ∃ i < n, epdAddr (P + BitVec.ofNat 32 i) = x
    · obtain ⟨i, hi', rfl⟩ := hxP
      have h0 := (hs i hi').2.2
      rw [undo_out log fun h => (hi.orig _).2 h h0, movsd_out _ _ _ _ _ fun j hj e => hds j hj i hi' e, swP i hi', hi.m _ (hd i hi').1.2.2]
      simp only [nD i hi', Option.isSome_none, Bool.false_eq_true, false_and, if_false, h0, Option.getD_none, swapped, blkAt_eq hn hi']
    · rw [undo_congr log (m' := s) (fun r hr => (hi.ok r hr).2) hi.sd ?_ (.inr ?_), hi.undo x hx]
      · cases h : blkAt D n x with
        | some i =>
          simp only [Option.isSome_some, true_and]
          cases h0 : σ.orig x <;> simp
        | none =>
          have hP0 : blkAt P n x = none := by
            cases h2 : blkAt P n x with
            | none => rfl
            | some j => exact absurd ⟨j, blkAt_some h2⟩ hxP
          simp only [Option.isSome_none, Bool.false_eq_true, false_and, if_false, swapped, h, hP0]
      · intro y hy
        obtain ⟨h1, h2⟩ := ap y hy
        have hyD : ∀ i < n, epdAddr (D + BitVec.ofNat 32 i) ≠ y := by
          rintro i hi' rfl
          rcases hi.src _ hy with h | ⟨q, hq, e⟩
          · exact (hd i hi').2 h
          · exact (hd i hi').1.2.2 (.inr (.inr (.inl ⟨q, by omega, e⟩)))
        have hyP : ∀ i < n, epdAddr (P + BitVec.ofNat 32 i) ≠ y := by
          rintro i hi' rfl
          rcases hi.src _ hy with h | ⟨q, hq, e⟩
          · exact (hs i hi').2.1 h
          · exact (hs i hi').1.2.2 (.inr (.inr (.inl ⟨q, by omega, e⟩)))
        have hyT : ∀ i < n, epdAddr (epd G.tb + BitVec.ofNat 32 i) ≠ y := by
          intro i hi' e
          rcases hi.src _ hy with h | ⟨q, hq, e'⟩
          · exact npT y (hi.hid y h) i hi' e
          · exact htd q (by omega) i (by omega) (by rw [← e', ← e, J i hi'])
        rw [movsd_out _ _ _ _ _ hyD, hp.mem y h1 h2, blkSwap_out hyT hyD hyP, hout y h1]
      · by_cases hxD : ∃ i < n, epdAddr (D + BitVec.ofNat 32 i) = x
        · obtain ⟨i, hi', rfl⟩ := hxD
          rw [movsd_in _ _ _ _ (fun i hi j hj e => epdAddr_inj D (by omega) hi hj e) (fun i hi j hj => hds j (by omega) i hi) i hi', swP i hi']
        · obtain ⟨h1, h2⟩ := not_priv_scr hx
          have hxD' : ∀ i < n, epdAddr (D + BitVec.ofNat 32 i) ≠ x := fun i hi e => hxD ⟨i, hi, e⟩
          rw [movsd_out _ _ _ _ _ hxD', hp.mem x h1 h2, blkSwap_out (npT x hx) hxD' (fun i hi e => hxP ⟨i, hi, e⟩), hout x h1]

theorem user_inv (hk : POk L G) (hi : PInv L G c σ log s) {gs : List Asg} (ho : (PtOp.user gs).Ok L G σ) : PInv L G c ((PtOp.user gs).spec σ) log (runAsg gs s) := by
  have hkk := hi.k
  have hll := hi.is.len
  have keep : ∀ x, G.Priv x ∨ x ∈ σ.H → runAsg gs s x = s x := fun x hx => runAsg_ne fun g hg e => by
    obtain ⟨-, h1, h2, -⟩ := ho g hg
    exact hx.elim (e ▸ h1) (e ▸ h2)
  have hm : ∀ x, ¬ G.Priv x → runAsg gs s x = runAsg gs σ.m x := runAsg_user gs hi.m fun g hg => ⟨(ho g hg).2.1, (ho g hg).2.2.2.1⟩
  refine ⟨hi.is.other (fun q hq => (hk.pl q hq).2.2) (fun i hi' => keep _ (.inl (.inl (G.C_mem ?_)))) (fun x hx => keep x (.inl (.inr (.inl hx)))), hm, hi.k, hi.ok, hi.src, hi.hid, hi.dst, hi.orig, ?_⟩
  · simp only [List.mem_cons, List.not_mem_nil, or_false] at hi'
    omega
  · intro x hx
    by_cases hd : PDst log x
    · rw [undo_congr log (m' := s) (fun r hr => (hi.ok r hr).2) hi.sd (fun y hy => ?_) (.inl hd), hi.undo x hx]
      · have := (hi.orig x).2 hd
        simp only [PtOp.spec]
        cases h : σ.orig x
        · exact absurd h this
        · rfl
      · rcases hi.src y hy with h | ⟨q, hq, e⟩
        · exact keep y (.inr h)
        · exact keep y (.inl (.inr (.inr (.inl ⟨q, by omega, e⟩))))
    · rw [undo_out log hd, hm x hx]
      have : σ.orig x = none := by
        cases h : σ.orig x
        · rfl
        · exact absurd ((hi.orig x).1 (by simp [h])) hd
      simp only [PtOp.spec, this, Option.getD_none]

theorem unpatch_inv (hk : POk L G) (hi : PInv L G c σ log s) {back : Nat} {s1 s2 : Mem} (hout : ∀ x, x ∉ G.scr → s1 x = s x) (hp : PIs G [] (undo log s1) c s2) : PInv L G c ((PtOp.unpatch back).spec σ) [] s2 := by
  have ap := hi.apart fun q hq => ⟨(hk.dl q hq).2.2.1, (hk.dl q hq).2.2.2⟩
  have hm : ∀ x, ¬ G.Priv x → s2 x = (σ.orig x).getD (σ.m x) := fun x hx => by
    obtain ⟨h1, h2⟩ := not_priv_scr hx
    rw [hp.mem x h1 h2, undo_congr log (m' := s) (fun r hr => (hi.ok r hr).2) hi.sd (fun y hy => hout y (ap y hy).1) (.inr (hout x h1)), hi.undo x hx]
  refine ⟨hp.other (fun q hq => (hk.pl q hq).2.2) (fun _ _ => rfl) fun _ _ => rfl, hm, rfl, fun r hr => (by cases hr), fun x ⟨r, hr, _⟩ => (by cases hr), fun x hx => (by cases hx), fun x ⟨r, hr, _⟩ => (by cases hr), ?_, ?_⟩
  · intro x
    simp only [PtOp.spec, ne_eq, not_true, false_iff]
    rintro ⟨r, hr, _⟩
    cases hr
  · intro x hx
    exact hm x hx

end steps

/-- Each operation does what it should. -/
theorem ptop_does {L : Layout} (hw : L.Wf) {G : PCfg} (hk : POk L G) {F : PFns} (hu : UOk L G F.t0 F.cn F.rd F.fe F.ub) (hb : BOk L G F.t0 F.cn F.rd F.fe F.b1 F.b2 F.b3) (htd : ∀ q < G.cap, ∀ r < 256, G.db + 4 * q ≠ G.tb + 4 * r)
    {c : W} {σ : PSp} {log : List PRec} {s : Mem} (hi : PInv L G c σ log s) (op : PtOp) (ho : op.Ok L G σ) : Does L (op.stmt L G F) s fun s' => ∃ log', PInv L G c (op.spec σ) log' s' := by
  have hkk := hi.k
  cases op with
  | patch back dst val =>
    have ho' := ho
    obtain ⟨h1, h2, h3, h4, h5, h6, h7⟩ := ho
    refine call0_does h2 fun s1 ha hO => ?_
    obtain ⟨hp, hout⟩ := hi.is.args hk (A := [30, 15, 19]) (by decide) hO
    have e1 : s1 (G.d + 348) = dst.valM σ.m := (ha (G.d + 348, dst) (by simp)).trans (valM_user hi.m h3)
    have e2 : s1 (G.v + 348) = val.valM σ.m := (ha (G.v + 348, val) (by simp)).trans (valM_user hi.m h4)
    refine (dwpatch_body hk F.rd F.n1 F.n2 F.n3 F.n4 hp (by omega) (e1 ▸ h6.tgt)).mono fun s2 ⟨q1, q2⟩ => ⟨?_, q2⟩
    rw [e1, e2] at q1
    exact ⟨_, patch_inv hk hi ho' hout q1⟩
  | block back dst src cnt =>
    have ho' := ho
    obtain ⟨h1, h2, h3, h4, h5, h6, h7, h8, h9, h10⟩ := ho
    refine call0_does h2 fun s1 ha hO => ?_
    obtain ⟨hp, hout⟩ := hi.is.args hk (A := [46, 38, 39, 42]) (by decide) hO
    have e1 : s1 (G.bd + 348) = dst.valM σ.m := (ha (G.bd + 348, dst) (by simp)).trans (valM_user hi.m h3)
    have e2 : s1 (G.bs + 348) = src.valM σ.m := (ha (G.bs + 348, src) (by simp)).trans (valM_user hi.m h4)
    have e3 : s1 (G.bn + 348) = cnt.valM σ.m := (ha (G.bn + 348, cnt) (by simp)).trans (valM_user hi.m h5)
    refine (blk_body hw hk hb F.bn1 F.cont hp (by omega) (fun i hi' => ?_) (fun i hi' => ?_)).mono fun s2 ⟨q1, q2⟩ => ⟨?_, q2⟩
    · rw [e1]
      rw [e3] at hi'
      exact (h8 i (by omega)).1.tgt
    · rw [e2]
      rw [e3] at hi'
      exact (h9 i (by omega)).1.tgt
    · rw [e1, e2, e3] at q1
      exact ⟨_, block_inv hk htd hi ho' hout q1⟩
  | user gs => exact Does.asg (fun g hg => (ho g hg).1) (fun g hg => (ho g hg).2.2.2.2) ⟨log, user_inv hk hi ho⟩
  | unpatch back =>
    refine call0_does ho.2 fun s1 _ hO => ?_
    obtain ⟨hp, hout⟩ := hi.is.args hk (A := [31]) (by decide) hO
    exact (unpatch_body hw hk hu F.u1 F.u2 F.u3 hp fun r hr => (hi.ok r hr).1).mono fun s2 ⟨q1, q2⟩ => ⟨⟨[], unpatch_inv hk hi hout q1⟩, q2⟩

/-- **C47 (patch histories).** Whatever sequence of `f_dwpatch_epd`, `f_blockpatch_epd` (at most 256 dwords each, sources left alone while patched), assignments of the program and `f_unpatchall` is run, within the capacity of the patch
stack: every dword outside the patch library's own storage holds what it should.  Patched dwords hold what was patched, or was written to them since; after `f_unpatchall` each of them holds what it held before it was first patched,
whatever number of times it was patched, in whatever order, with whatever writes in between; other dwords are unaffected. -/
theorem C47_patches {L : Layout} (hw : L.Wf) {G : PCfg} (hk : POk L G) {F : PFns} (hu : UOk L G F.t0 F.cn F.rd F.fe F.ub) (hb : BOk L G F.t0 F.cn F.rd F.fe F.b1 F.b2 F.b3) (htd : ∀ q < G.cap, ∀ r < 256, G.db + 4 * q ≠ G.tb + 4 * r)
    {c : W} : ∀ (l : List PtOp) {σ : PSp} {log : List PRec} {s : Mem}, PInv L G c σ log s → PtOk L G l σ → Does L (.seqs (l.map (PtOp.stmt L G F))) s fun s' => ∃ log', PInv L G c (PtOp.run l σ) log' s'
  | [], σ, log, s, hi, _ => ⟨s, .skip _, log, hi⟩
  | op :: l, σ, log, s, hi, ho => by
    refine Does.seq ((ptop_does hw hk hu hb htd hi op ho.1).mono fun s1 ⟨log1, h1⟩ => ?_)
    exact C47_patches hw hk hu hb htd l h1 ho.2

/-- Nothing patched yet. -/
theorem PInv.init {L : Layout} {G : PCfg} {c : W} {s : Mem} (h : PIs G [] s c s) : PInv L G c ⟨s, fun _ => none, [], 0⟩ [] s := by
  refine ⟨h, fun _ _ => rfl, rfl, fun r hr => (by cases hr), fun x ⟨r, hr, _⟩ => (by cases hr), fun x hx => (by cases hx), fun x ⟨r, hr, _⟩ => (by cases hr), ?_, fun _ _ => rfl⟩
  intro x
  simp only [ne_eq, not_true, false_iff]
  rintro ⟨r, hr, _⟩
  cases hr

def PtOp.isUnpatch : PtOp → Bool
  | .unpatch _ => true
  | _ => false

theorem orig_kept : ∀ (l : List PtOp) {σ : PSp} {x : Nat} {v : W}, (∀ op ∈ l, op.isUnpatch = false) → σ.orig x = some v → (PtOp.run l σ).orig x = some v
  | [], _, _, _, _, h => h
  | op :: l, σ, x, v, hl, h => by
    refine orig_kept l (σ := op.spec σ) (fun o ho => hl o (by simp [ho])) ?_
    have := hl op (by simp)
    cases op <;> simp_all [PtOp.spec, PtOp.isUnpatch]

/-- The reading of the specification that users rely on: after whatever happened (`l1`), a dword that is not patched is patched by `f_dwpatch_epd`; then anything but `f_unpatchall` happens (`l2`: further patches of it, writes to it, patches of others); then `f_unpatchall`
makes it what it was just before it was patched, and nothing remains patched. -/
theorem C47_restored (l1 l2 : List PtOp) (back back' : Nat) (dst val : Src) (σ : PSp) (h2 : ∀ op ∈ l2, op.isUnpatch = false) (h1 : (PtOp.run l1 σ).orig (epdAddr (dst.valM (PtOp.run l1 σ).m)) = none) :
    (PtOp.run (l1 ++ [.patch back dst val] ++ l2 ++ [.unpatch back']) σ).m (epdAddr (dst.valM (PtOp.run l1 σ).m)) = (PtOp.run l1 σ).m (epdAddr (dst.valM (PtOp.run l1 σ).m)) ∧
      ∀ x, (PtOp.run (l1 ++ [.patch back dst val] ++ l2 ++ [.unpatch back']) σ).orig x = none := by
  have e : PtOp.run (l1 ++ [.patch back dst val] ++ l2 ++ [.unpatch back']) σ = PtOp.spec (.unpatch back') (PtOp.run l2 (PtOp.spec (.patch back dst val) (PtOp.run l1 σ))) := by
    simp only [PtOp.run, List.foldl_append, List.foldl_cons, List.foldl_nil]
  rw [e]
  generalize PtOp.run l1 σ = τ at *
  refine ⟨?_, fun _ => rfl⟩
  have := orig_kept l2 (σ := PtOp.spec (.patch back dst val) τ) (x := epdAddr (dst.valM τ.m)) (v := τ.m (epdAddr (dst.valM τ.m))) h2 (by simp [PtOp.spec, h1])
  show Option.getD _ _ = _
  rw [this]
  rfl

/-! ## What goes wrong -/

/-- **C47, not true of longer blocks.** `f_blockpatch_epd` of more than 256 dwords never patches the dwords from the 257th on (the pointers stay where they are between the chunks): the 257th dword of the destination still holds what it did, whatever the source holds. -/
theorem C47_long_block {L : Layout} (hw : L.Wf) {G : PCfg} (hk : POk L G) {t0 cn rd fe b1 b2 b3 : Nat} (hu : BOk L G t0 cn rd fe b1 b2 b3) (n1 cont : Nat) {log : List PRec} {m : Mem} {c : W} {s : Mem} (h : PIs G log m c s)
    (hl : log.length < G.cap) (hd : ∀ i < min (s (G.bn + 348)).toNat 256, PTarget L G (s (G.bd + 348) + BitVec.ofNat 32 i)) (hp : ∀ i < min (s (G.bn + 348)).toNat 256, PTarget L G (s (G.bs + 348) + BitVec.ofNat 32 i))
    {x : Nat} (hx : x ∉ G.scr) (hxs : ¬ G.InStk x) (h1 : ∀ i < 256, epdAddr (epd G.tb + BitVec.ofNat 32 i) ≠ x) (h2 : ∀ i < 256, epdAddr (s (G.bd + 348) + BitVec.ofNat 32 i) ≠ x)
    (h3 : ∀ i < 256, epdAddr (s (G.bs + 348) + BitVec.ofNat 32 i) ≠ x) :
    Does L (blkBody L G n1 cont cn fe b1 b2 b3) s fun s' => s' x = m x :=
  (blk_body hw hk hu n1 cont h hl hd hp).mono fun s' ⟨q, _⟩ => by
    rw [q.mem x hx hxs, blkIter_out _ (fun i hi => h1 i (by omega)) (fun i hi => h2 i (by omega)) (fun i hi => h3 i (by omega))]

end Eud.SC
