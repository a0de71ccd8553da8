import Verif.Lib.ByteHist
/-
C36: copying and comparing blocks and strings byte by byte (memio/mblockio.py `_memcpy`, `f_memcmp`, string/strfunc.py `f_strcpy`, `f_strcmp`).
-/

namespace Eud.SC

/-! ## Functions that use byte readers and writers -/

/-- All dwords of the objects. -/
def BCfg.ints (G : BCfg) : List Nat := G.own .com ++ ((List.range G.nr).flatMap (fun i => G.own (.rd i)) ++ (List.range G.nw).flatMap fun i => G.own (.wr i))

theorem BCfg.ints_mem {G : BCfg} {x : Nat} : x ∈ G.ints ↔ G.Int x := by
  simp only [ints, List.mem_append, List.mem_flatMap, List.mem_range]
  constructor
  · rintro (h | ⟨i, h1, h2⟩ | ⟨i, h1, h2⟩)
    · exact ⟨.com, trivial, h⟩
    · exact ⟨.rd i, h1, h2⟩
    · exact ⟨.wr i, h1, h2⟩
  · rintro ⟨b, h1, h2⟩
    cases b with
    | com => exact .inl h2
    | rd i => exact .inr (.inl ⟨i, h1, h2⟩)
    | wr i => exact .inr (.inr ⟨i, h1, h2⟩)

/-- The memory of the user may be described by the machine itself. -/
theorem BRep.here {G : BCfg} {cp : W} {σ : BSt} {s : Mem} (h : BRep G cp σ s) : BRep G cp { σ with m := s } s := ⟨h.rd, h.wr, h.com, fun _ _ => rfl⟩

/-- Dwords of the user may change. -/
theorem BRep.move {G : BCfg} {cp : W} {σ : BSt} {s s' : Mem} (h : BRep G cp σ s) (hs : ∀ x, G.Int x → s' x = s x) : BRep G cp { σ with m := s' } s' :=
  BHist.step h (fun _ => False) (fun _ hb _ _ hx => hs _ (BHist.int hb hx)) (by simp) (by intros; rfl) (by simp) (by intros; rfl) (by simp) (by intros; rfl)

/-- Static facts about a call of a function that uses the objects: its places are dwords of the user. -/
structure BCallOk (L : Layout) (G : BCfg) (np : Nat) (rs : List (Nat × Nat)) (args : List (Nat × Src)) (scr : List Nat) : Prop where
  ok : CallOk L np rs args scr
  np : ¬ G.Int np
  rs : ∀ r ∈ rs, ¬ G.Int (r.1 + 4) ∧ ¬ G.Int (r.1 + 344) ∧ ¬ G.Int r.2
  args : ∀ a ∈ args, ¬ G.Int a.1

/-- Calls of functions that use the objects. -/
theorem bcall_does {L : Layout} (hw : L.Wf) {G : BCfg} {cp : W} {fe np fs back : Nat} {rs : List (Nat × Nat)} {args : List (Nat × Src)} {body : Stmt} {scr : List Nat}
    (hk : BCallOk L G np rs args scr) (hF : FuncCode L fs fe np (rs.map Prod.fst) body) (hb : back < 2 ^ 32) {σ : BSt} {s : Mem} (h : BRep G cp σ s) {Q : BSt → Prop}
    (hB : ∀ s1, (∀ a ∈ args, s1 a.1 = a.2.valM s) → Only (np :: (rs.map (fun r => r.1 + 344) ++ args.map Prod.fst)) s s1 → BRep G cp { σ with m := s1 } s1 →
      Wp L body s1 fun o s2 => (o = .nrm ∨ o = .ret) ∧ ∃ σ2, BRep G cp σ2 s2 ∧ Q σ2 ∧ ∀ x, ¬ G.Int x → x ∉ scr → σ2.m x = s1 x) :
    Does L (.prim (CallRel L fe np back body rs args)) s fun s' => ∃ σ2, Q σ2 ∧ BRep G cp { σ2 with m := s' } s' ∧ (∀ r ∈ rs, s' r.2 = σ2.m (r.1 + 348) ∨ G.Int (r.1 + 348)) ∧
      ∀ x, ¬ G.Int x → x ∉ rs.map Prod.snd → x ∉ rs.map (fun r => r.1 + 4) → s' x = σ2.m x := by
  have hO : CallOk L np rs args (scr ++ G.ints) := { hk.ok with
    sn := fun hx => (List.mem_append.1 hx).elim hk.ok.sn fun hx => hk.np (BCfg.ints_mem.1 hx)
    sr := fun r hr hx => (List.mem_append.1 hx).elim (hk.ok.sr r hr) fun hx => (hk.rs r hr).2.1 (BCfg.ints_mem.1 hx) }
  refine (C31_does hw hO hF hb (s := s) (Q := fun s2 => ∃ σ2, BRep G cp σ2 s2 ∧ Q σ2) ?_).mono ?_
  · intro s1 e1 e2
    refine (hB s1 e1 e2 (h.move fun x hx => e2 x fun hm => ?_)).mono ?_
    · simp only [List.mem_cons, List.mem_append, List.mem_map] at hm
      rcases hm with rfl | ⟨r, hr, rfl⟩ | ⟨a, ha, rfl⟩
      · exact hk.np hx
      · exact (hk.rs r hr).2.1 hx
      · exact hk.args a ha hx
    · rintro o s2 ⟨h1, σ2, h2, h3, h4⟩
      refine ⟨h1, ⟨σ2, h2, h3⟩, fun x hx => ?_⟩
      rw [List.mem_append, not_or] at hx
      have hi : ¬ G.Int x := fun hi => hx.2 (BCfg.ints_mem.2 hi)
      rw [h2.vis x hi, h4 x hi hx.1]
  · rintro s' ⟨⟨s2, ⟨σ2, h1, h2⟩, h3, h4⟩, -⟩
    refine ⟨σ2, h2, h1.move fun x hx => h4 x fun hm => ?_, fun r hr => ?_, fun x hx h5 h6 => ?_⟩
    · simp only [List.mem_append, List.mem_map] at hm
      rcases hm with ⟨r, hr, rfl⟩ | ⟨r, hr, rfl⟩
      · exact (hk.rs r hr).2.2 hx
      · exact (hk.rs r hr).1 hx
    · by_cases hi : G.Int (r.1 + 348)
      · exact .inr hi
      · exact .inl (by rw [h3 r hr, h1.vis _ hi])
    · rw [h4 x (by rw [List.mem_append, not_or]; exact ⟨h5, h6⟩), h1.vis x hx]

/-! ## Copying bytes -/

/-- The address `i` bytes further. -/
def posB (p i : Nat) : Nat := (p + i) % 2 ^ 32

theorem posB_lt (p i : Nat) : posB p i < 2 ^ 32 := Nat.mod_lt _ (by decide)
theorem posB_zero {p : Nat} (h : p < 2 ^ 32) : posB p 0 = p := Nat.mod_eq_of_lt h
theorem posB_next (p i : Nat) : nextB (posB p i) = posB p (i + 1) := by unfold nextB posB; omega

/-- The memory after copying `n` bytes from `s` on to `d` on, one after the other. -/
def cpyB (m : Mem) (d s : Nat) : Nat → Mem
  | 0 => m
  | n + 1 => putByte (cpyB m d s n) (posB d n) (byteAt (cpyB m d s n) (posB s n))

/-- A byte that is not written stays. -/
theorem cpyB_other {m : Mem} {d s : Nat} : ∀ {n : Nat} {q : Nat}, (∀ i < n, q ≠ posB d i) → byteAt (cpyB m d s n) q = byteAt m q
  | 0, _, _ => rfl
  | n + 1, q, h => by rw [cpyB, byteAt_put, if_neg (h n (by omega)), cpyB_other fun i hi => h i (by omega)]

theorem cpyB_out {m : Mem} {d s : Nat} : ∀ {n : Nat} {x : Nat}, (∀ i < n, x ≠ posB d i / 4 * 4) → cpyB m d s n x = m x
  | 0, _, _ => rfl
  | n + 1, x, h => by rw [cpyB, putByte_ne (h n (by omega)), cpyB_out fun i hi => h i (by omega)]

theorem posB_inj {p i j : Nat} (hi : i < 2 ^ 32) (hj : j < 2 ^ 32) (h : posB p i = posB p j) : i = j := by unfold posB at h; omega

/-- **What copying does**, if no byte is read after it was written: the bytes from `d` on become those from `s` on. -/
theorem cpyB_spec {m : Mem} {d s : Nat} : ∀ {n : Nat}, n ≤ 2 ^ 32 → (∀ i j, i < j → j < n → posB d i ≠ posB s j) → ∀ i < n, byteAt (cpyB m d s n) (posB d i) = byteAt m (posB s i)
  | 0, _, _, _, h => absurd h (by omega)
  | n + 1, hn, hd, i, hi => by
    rw [cpyB, byteAt_put]
    by_cases e : i = n
    · subst e
      rw [if_pos rfl, cpyB_other fun j hj => (hd j i hj hi).symm]
    · rw [if_neg fun h => e (posB_inj (by omega) (by omega) h)]
      exact cpyB_spec (by omega) (fun i j h1 h2 => hd i j h1 (by omega)) i (by omega)

/-- Copying looks only at dwords of the source. -/
theorem cpyB_congr {m m' : Mem} {d s : Nat} {scr : List Nat} (h : ∀ y, y ∉ scr → m y = m' y) : ∀ {n : Nat}, (∀ i < n, posB s i / 4 * 4 ∉ scr ∧ posB d i / 4 * 4 ∉ scr) →
    ∀ y, y ∉ scr → cpyB m d s n y = cpyB m' d s n y
  | 0, _, y, hy => h y hy
  | n + 1, hs, y, hy => by
    have ih := cpyB_congr (n := n) h fun i hi => hs i (by omega)
    simp only [cpyB, putByte, get_set, byteAt, ih _ (hs n (by omega)).1, ih _ (hs n (by omega)).2, ih _ hy]

/-- The dword of a byte that a function reads: memory that can be read, and none of its own variables. -/
def RdB (L : Layout) (G : BCfg) (scr : List Nat) (p : Nat) : Prop := ¬ L.priv (p / 4 * 4) ∧ ¬ G.Int (p / 4 * 4) ∧ p / 4 * 4 ∉ scr
/-- The same of a byte that it writes. -/
def WrB (L : Layout) (G : BCfg) (scr : List Nat) (p : Nat) : Prop := EpdOK (p / 4 * 4) ∧ L.cell (p / 4 * 4) ∧ ¬ G.Int (p / 4 * 4) ∧ p / 4 * 4 ∉ scr

/-- A variable of a function. -/
def VarU (L : Layout) (G : BCfg) (v : Nat) : Prop := v ∈ L.P.vars ∧ ¬ G.Int (v + 348) ∧ EpdOK (v + 348)

theorem VarU.src {L : Layout} {G : BCfg} {v : Nat} (h : VarU L G v) : SrcB L G (.var v) := by
  rintro w e
  cases e
  exact ⟨h.1, h.2.1⟩

theorem byteAt_congr {m m' : Mem} {p : Nat} (h : m (p / 4 * 4) = m' (p / 4 * 4)) : byteAt m p = byteAt m' p := by unfold byteAt; rw [h]

theorem valM_var (s : Mem) (v : Nat) : Src.valM s (.var v) = s (v + 348) := rfl

theorem ofNat_dec {k : Nat} (h : k ≠ 0) : BitVec.ofNat 32 k + (-1 : W) = BitVec.ofNat 32 (k - 1) := by
  obtain ⟨j, rfl⟩ : ∃ j, k = j + 1 := ⟨k - 1, by omega⟩
  rw [BitVec.ofNat_add, BitVec.add_assoc, show BitVec.ofNat 32 1 + (-1 : W) = 0#32 by decide, BitVec.add_zero, Nat.add_sub_cancel]

/-! ### `_memcpy` -/

/-- mblockio.py:51-63: the loop of `_memcpy`, with labels `n1` to `n2`. -/
def cpyLoop (L : Layout) (G : BCfg) (n1 n2 len b : Nat) : Stmt :=
  .loop true .skip [cMem (len + 348) .exactly 0]
    (.seqs ([(BOp.read 0 (b + 348), n1), (.writeV 0 (.var b), n2), (.asg (len + 348) .add (.const (-1)), 0)].map fun o => o.1.stmt L G o.2)) .skip

/-- mblockio.py:51-63 `_memcpy` -/
def memcpyBody (L : Layout) (G : BCfg) (k1 k2 n1 n2 dst src len b : Nat) : Stmt :=
  .seq (.seqs ([(BOp.rseekV 0 (.var src), k1), (.wseekV 0 (.var dst), k2)].map fun o => o.1.stmt L G o.2)) (cpyLoop L G n1 n2 len b)

section
variable {L : Layout} {G : BCfg} {br : Nat → Nat} {cp : W} {n1 n2 len b : Nat}

theorem cpyLoop_does (hG : G.Ok L br) (h1 : n1 < 2 ^ 32) (h2 : n2 < 2 ^ 32) (hr : 0 < G.nr) (hw : 0 < G.nw) (vl : VarU L G len) (vb : VarU L G b) (hne : len ≠ b) {scr : List Nat} (hs1 : len + 348 ∈ scr) (hs2 : b + 348 ∈ scr)
    {σ : BSt} {s : Mem} (h : BRep G cp σ s) (hR : ∀ i < (σ.m (len + 348)).toNat, RdB L G scr (posB (σ.rp 0) i)) (hW : ∀ i < (σ.m (len + 348)).toNat, WrB L G scr (posB (σ.wp 0) i)) :
    Does L (cpyLoop L G n1 n2 len b) s fun s' => ∃ σ', BRep G cp σ' s' ∧ ∀ y, y ∉ scr → σ'.m y = cpyB σ.m (σ.wp 0) (σ.rp 0) (σ.m (len + 348)).toNat y := by
  generalize hN : (σ.m (len + 348)).toNat = N at hR hW ⊢
  have hNlt : N < 2 ^ 32 := hN ▸ (σ.m (len + 348)).isLt
  refine Does.loop (fun k s => k ≤ N ∧ ∃ σ', BRep G cp σ' s ∧ σ'.m (len + 348) = BitVec.ofNat 32 k ∧ σ'.rp 0 = posB (σ.rp 0) (N - k) ∧ σ'.wp 0 = posB (σ.wp 0) (N - k) ∧
    ∀ y, y ∉ scr → σ'.m y = cpyB σ.m (σ.wp 0) (σ.rp 0) (N - k) y) ?_ (n := N) ⟨Nat.le_refl _, σ, h, by rw [← hN]; simp, ?_, ?_, ?_⟩
  · rintro k s ⟨hk, σ', g1, g2, g3, g4, g5⟩
    refine Does.skip ⟨?_, ?_, ?_⟩
    · simp only [List.mem_singleton, forall_eq]
      exact cMem_ok (cell_val hG.wf vl.1) _ _ _
    · intro hh
      refine ⟨σ', g1, ?_⟩
      have : k = 0 := by
        simp only [holdsAll_cons, holdsAll_nil, Bool.and_true, cMem_holds, g1.vis _ vl.2.1, g2, compare, decide_eq_true_eq] at hh
        have := congrArg BitVec.toNat hh
        simp only [BitVec.toNat_ofNat] at this
        rw [Nat.mod_eq_of_lt (by omega)] at this
        simpa using this
      subst this
      exact g5
    · intro hh
      have hk0 : k ≠ 0 := by
        rintro rfl
        simp [holdsAll_cons, holdsAll_nil, cMem_holds, g1.vis _ vl.2.1, g2, compare] at hh
      obtain ⟨r1, r2, r3⟩ := hR (N - k) (by omega)
      obtain ⟨w1, w2, w3, w4⟩ := hW (N - k) (by omega)
      have hlb : len + 348 ≠ b + 348 := by omega
      refine (C37_history hG _ g1 ?_ ?_).mono fun s2 h2 => Does.skip ⟨k - 1, by omega, by omega, _, h2, ?_, ?_, ?_, ?_⟩
      · simp [h1, h2]
      · simp only [List.map_cons, List.map_nil, BOp.AllOk, BOp.Ok, BOp.spec, g3, g4, and_true]
        exact ⟨⟨hr, cell_val hG.wf vb.1, vb.2.2, vb.2.1, r1, r2⟩, ⟨hw, vb.src, w1, w2, w3⟩, cell_val hG.wf vl.1, vl.2.1, by rintro v ⟨⟩⟩
      · simp only [List.map_cons, List.map_nil, BOp.run, List.foldl_cons, List.foldl_nil, BOp.spec, get_set, if_true, g4, putByte, if_neg hlb, arith, Src.valM]
        rw [if_neg (show len + 348 ≠ posB (σ.wp 0) (N - k) / 4 * 4 from fun e => w4 (e ▸ hs1)), g2]
        exact ofNat_dec hk0
      · simp only [List.map_cons, List.map_nil, BOp.run, List.foldl_cons, List.foldl_nil, BOp.spec, BHist.upd_self, g3, posB_next]
        congr 1; omega
      · simp only [List.map_cons, List.map_nil, BOp.run, List.foldl_cons, List.foldl_nil, BOp.spec, BHist.upd_self, g4, posB_next]
        congr 1; omega
      · intro y hy
        have e1 : N - (k - 1) = N - k + 1 := by omega
        have e2 : y ≠ len + 348 := fun e => hy (e ▸ hs1)
        have e3 : y ≠ b + 348 := fun e => hy (e ▸ hs2)
        have e4 : posB (σ.wp 0) (N - k) / 4 * 4 ≠ b + 348 := fun e => w4 (e ▸ hs2)
        rw [e1, cpyB]
        simp only [List.map_cons, List.map_nil, BOp.run, List.foldl_cons, List.foldl_nil, BOp.spec, g3, g4, get_set, if_neg e2, Src.valM, if_true, putByte, if_neg e3, if_neg e4, byteAt_congr (g5 _ r3), g5 _ w4, g5 y hy]
        simp
  · simp [posB_zero (h.rd 0 hr).2]
  · simp [posB_zero (h.wr 0 hw).2.1]
  · intro y _; simp [cpyB]

/-! ### Calls -/

/-- A call without results. -/
theorem callOk0 {np : Nat} {args : List (Nat × Src)} {scr : List Nat} (cn : L.cell np) (ca : ∀ a ∈ args, L.cell a.1) (nd : (np :: args.map Prod.fst).Nodup)
    (hx : ∀ a ∈ args, ∀ v, a.2 = .var v → v ∈ L.P.vars ∧ v + 348 ∉ np :: args.map Prod.fst) (hs : np ∉ scr) : CallOk L np [] args scr where
  cn := cn
  cr := by simp
  ca := fun a ha => ⟨ca a ha, fun v hv => (hx a ha v hv).1⟩
  na := (List.nodup_cons.1 nd).2
  nr := by simp
  nd := by simp
  aa := fun a ha c hc v hv e => (hx c hc v hv).2 (by rw [e]; exact List.mem_cons_of_mem _ (List.mem_map_of_mem ha))
  an := fun a ha v hv => ⟨fun e => (hx a ha v hv).2 (by rw [e]; exact List.mem_cons_self), by simp⟩
  pn := fun a ha => ⟨fun e => (List.nodup_cons.1 nd).1 (by rw [e]; exact List.mem_map_of_mem ha), by simp⟩
  rn := by simp
  rr := by simp
  sn := hs
  sr := by simp
  hnp := by simp

/-- A call with one result in `r`, stored at `o`. -/
theorem callOk1R {np r o : Nat} {args : List (Nat × Src)} {scr : List Nat} (cn : L.cell np) (cr : L.cell (r + 344)) (co : L.cell o) (eo : EpdOK o) (ca : ∀ a ∈ args, L.cell a.1)
    (nd : (np :: (r + 344) :: args.map Prod.fst).Nodup) (h4 : r + 4 ≠ np)
    (hx : ∀ a ∈ args, ∀ v, a.2 = .var v → v ∈ L.P.vars ∧ v + 348 ∉ np :: (r + 344) :: args.map Prod.fst) (ho : o ∉ [r + 4, r + 344, r + 348]) (hs : np ∉ scr) (hr : r + 344 ∉ scr) : CallOk L np [(r, o)] args scr where
  cn := cn
  cr := by simp only [List.mem_singleton, forall_eq]; exact ⟨cr, co, eo⟩
  ca := fun a ha => ⟨ca a ha, fun v hv => (hx a ha v hv).1⟩
  na := (List.nodup_cons.1 (List.nodup_cons.1 nd).2).2
  nr := by simp
  nd := by simp
  aa := fun a ha c hc v hv e => (hx c hc v hv).2 (by rw [e]; exact List.mem_cons_of_mem _ (List.mem_cons_of_mem _ (List.mem_map_of_mem ha)))
  an := fun a ha v hv => ⟨fun e => (hx a ha v hv).2 (by rw [e]; exact List.mem_cons_self), by
    simp only [List.mem_singleton, forall_eq]
    exact fun e => (hx a ha v hv).2 (by rw [e]; exact List.mem_cons_of_mem _ List.mem_cons_self)⟩
  pn := fun a ha => ⟨fun e => (List.nodup_cons.1 nd).1 (by rw [e]; exact List.mem_cons_of_mem _ (List.mem_map_of_mem ha)), by
    simp only [List.mem_singleton, forall_eq]
    exact fun e => (List.nodup_cons.1 (List.nodup_cons.1 nd).2).1 (by rw [e]; exact List.mem_map_of_mem ha)⟩
  rn := by simp only [List.mem_singleton, forall_eq]; exact fun e => (List.nodup_cons.1 nd).1 (by rw [e]; exact List.mem_cons_self)
  rr := by
    simp only [List.mem_cons, List.not_mem_nil, or_false, not_or] at ho
    simp only [List.mem_singleton, forall_eq]
    exact ⟨ho.1, ho.2.1, ho.2.2, by omega, by omega⟩
  sn := hs
  sr := by simpa using hr
  hnp := by simpa using h4

/-- A value that the caller passes: a constant, or a variable that is none of those of the function. -/
def ArgU (L : Layout) (G : BCfg) (own : List Nat) (x : Src) : Prop := ∀ v, x = .var v → v ∈ L.P.vars ∧ ¬ G.Int (v + 348) ∧ v + 348 ∉ own

/-- The function `_memcpy`: its parameters, its local variable, its end and its labels. -/
structure MemcpyFn where
  np : Nat
  fs : Nat
  fe : Nat
  dst : Nat
  src : Nat
  len : Nat
  b : Nat
  k1 : Nat
  k2 : Nat
  n1 : Nat
  n2 : Nat

def MemcpyFn.own (F : MemcpyFn) : List Nat := [F.np, F.dst + 348, F.src + 348, F.len + 348, F.b + 348]
def MemcpyFn.body (F : MemcpyFn) (L : Layout) (G : BCfg) : Stmt := memcpyBody L G F.k1 F.k2 F.n1 F.n2 F.dst F.src F.len F.b
/-- mblockio.py:73 `_memcpy(dst, src, copylen)` -/
def MemcpyFn.call (F : MemcpyFn) (L : Layout) (G : BCfg) (back : Nat) (d s n : Src) : Stmt :=
  .prim (CallRel L F.fe F.np back (F.body L G) [] [(F.dst + 348, d), (F.src + 348, s), (F.len + 348, n)])

/-- The function is in place. -/
structure MemcpyOk (L : Layout) (G : BCfg) (F : MemcpyFn) : Prop where
  cn : L.cell F.np
  inp : ¬ G.Int F.np
  vars : ∀ v ∈ [F.dst, F.src, F.len, F.b], VarU L G v
  nd : F.own.Nodup
  lab : F.k1 < 2 ^ 32 ∧ F.k2 < 2 ^ 32 ∧ F.n1 < 2 ^ 32 ∧ F.n2 < 2 ^ 32
  func : FuncCode L F.fs F.fe F.np [] (F.body L G)

theorem seekOk {v : Nat} (hv : VarU L G v) {i : Nat} (σ : BSt) : (i < G.nr → (BOp.rseekV i (.var v)).Ok L G σ) ∧ (i < G.nw → (BOp.wseekV i (.var v)).Ok L G σ) :=
  ⟨fun h => ⟨h, hv.src⟩, fun h => ⟨h, hv.src⟩⟩

/-- **C36 (`_memcpy`).** The call copies the bytes one after the other, for every length and alignment, also for blocks that overlap; `cpyB_spec` and `cpyB_other` say what this means for the bytes. -/
theorem C36_memcpy (hG : G.Ok L br) (hr : 0 < G.nr) (hw : 0 < G.nw) {F : MemcpyFn} (hF : MemcpyOk L G F) {back : Nat} (hb : back < 2 ^ 32) {d sr n : Src} (hd : ArgU L G F.own d) (hsr : ArgU L G F.own sr) (hn : ArgU L G F.own n)
    {σ : BSt} {s : Mem} (h : BRep G cp σ s) (hR : ∀ i < (n.valM s).toNat, RdB L G F.own (posB (sr.valM s).toNat i)) (hW : ∀ i < (n.valM s).toNat, WrB L G F.own (posB (d.valM s).toNat i)) :
    Does L (F.call L G back d sr n) s fun s' => (∃ σ', BRep G cp σ' s') ∧ ∀ y, ¬ G.Int y → y ∉ F.own → s' y = cpyB s (d.valM s).toNat (sr.valM s).toNat (n.valM s).toNat y := by
  obtain ⟨vd, vs, vl, vb⟩ : VarU L G F.dst ∧ VarU L G F.src ∧ VarU L G F.len ∧ VarU L G F.b := ⟨hF.vars _ (by simp), hF.vars _ (by simp), hF.vars _ (by simp), hF.vars _ (by simp)⟩
  have nd := hF.nd
  simp only [MemcpyFn.own, List.nodup_cons, List.mem_cons, not_or, List.not_mem_nil, not_false_eq_true, List.nodup_nil, and_true, or_false] at nd
  generalize hN : (n.valM s).toNat = N at hR hW ⊢
  let scr := [F.len + 348, F.b + 348] ++ (List.range N).map fun i => posB (d.valM s).toNat i / 4 * 4
  have hk : BCallOk L G F.np [] [(F.dst + 348, d), (F.src + 348, sr), (F.len + 348, n)] scr := by
    refine ⟨callOk0 hF.cn ?_ ?_ ?_ ?_, hF.inp, by simp, ?_⟩
    · simp only [List.mem_cons, List.not_mem_nil, or_false, forall_eq_or_imp, forall_eq]
      exact ⟨cell_val hG.wf vd.1, cell_val hG.wf vs.1, cell_val hG.wf vl.1⟩
    · simp only [List.map_cons, List.map_nil, List.nodup_cons, List.mem_cons, not_or, List.not_mem_nil, not_false_eq_true, List.nodup_nil, and_true, or_false]; grind
    · simp only [List.map_cons, List.map_nil, List.mem_cons, List.not_mem_nil, or_false, forall_eq_or_imp, forall_eq]
      simp only [ArgU, MemcpyFn.own, List.mem_cons, List.not_mem_nil, or_false, not_or] at hd hsr hn
      exact ⟨fun v hv => ⟨(hd v hv).1, by have := (hd v hv).2.2; grind⟩, fun v hv => ⟨(hsr v hv).1, by have := (hsr v hv).2.2; grind⟩, fun v hv => ⟨(hn v hv).1, by have := (hn v hv).2.2; grind⟩⟩
    · simp only [scr, List.mem_append, List.mem_cons, List.not_mem_nil, or_false, List.mem_map, List.mem_range, not_or, not_exists, not_and]
      exact ⟨by grind, fun i hi e => (hW i hi).2.2.2 (by rw [e]; simp [MemcpyFn.own])⟩
    · simp only [List.mem_cons, List.not_mem_nil, or_false, forall_eq_or_imp, forall_eq]
      exact ⟨vd.2.1, vs.2.1, vl.2.1⟩
  refine (bcall_does hG.wf hk hF.func hb h (Q := fun σ2 => ∀ y, y ∉ F.own → σ2.m y = cpyB s (d.valM s).toNat (sr.valM s).toNat N y) ?_).mono ?_
  · intro s1 e1 e2 h1
    simp only [List.mem_cons, List.not_mem_nil, or_false, forall_eq_or_imp, forall_eq] at e1
    have hon : ∀ y, y ∉ F.own → s1 y = s y := fun y hy => e2 y (by
      simp only [List.map_nil, List.nil_append, List.map_cons, MemcpyFn.own, List.mem_cons, List.not_mem_nil, or_false, not_or] at hy ⊢; grind)
    refine (Does.wp (Q := fun s2 => ∃ σ2, BRep G cp σ2 s2 ∧ (∀ y, y ∉ F.own → σ2.m y = cpyB s (d.valM s).toNat (sr.valM s).toNat N y) ∧ ∀ y, ¬ G.Int y → y ∉ scr → σ2.m y = s1 y) ?_).mono fun o s2 hq => ⟨.inl hq.1, hq.2⟩
    refine Does.seq ((C37_history hG _ h1 ?_ ?_).mono fun s2 h2 => ?_)
    · simp [hF.lab.1, hF.lab.2.1]
    · exact ⟨(seekOk vs _).1 hr, (seekOk vd _).2 hw, trivial⟩
    · simp only [List.map_cons, List.map_nil, BOp.run, List.foldl_cons, List.foldl_nil, BOp.spec, valM_var, e1.1, e1.2.1] at h2
      have hl : (s1 (F.len + 348)).toNat = N := by rw [e1.2.2, hN]
      have own2 : ∀ y ∈ [F.len + 348, F.b + 348], y ∈ F.own := by simp [MemcpyFn.own]
      refine (cpyLoop_does hG hF.lab.2.2.1 hF.lab.2.2.2 hr hw vl vb (fun e => nd.2.2.2 (by rw [e])) (scr := [F.len + 348, F.b + 348]) (by simp) (by simp) h2 ?_ ?_).mono ?_
      · simp only [hl, BHist.upd_self]
        exact fun i hi => ⟨(hR i hi).1, (hR i hi).2.1, fun hm => (hR i hi).2.2 (own2 _ hm)⟩
      · simp only [hl, BHist.upd_self]
        exact fun i hi => ⟨(hW i hi).1, (hW i hi).2.1, (hW i hi).2.2.1, fun hm => (hW i hi).2.2.2 (own2 _ hm)⟩
      · rintro s3 ⟨σ3, g1, g2⟩
        simp only [hl, BHist.upd_self] at g2
        refine ⟨σ3, g1, fun y hy => ?_, fun y _ hy => ?_⟩
        · rw [g2 y fun hm => hy (own2 _ hm)]
          exact cpyB_congr hon (fun i hi => ⟨(hR i hi).2.2, (hW i hi).2.2.2⟩) y hy
        · simp only [scr, List.mem_append, not_or, List.mem_map, List.mem_range, not_exists, not_and] at hy
          rw [g2 y hy.1, cpyB_out fun i hi e => hy.2 i hi e.symm]
  · rintro s' ⟨σ2, g1, g2, -, g3⟩
    exact ⟨⟨_, g2⟩, fun y hy h5 => by rw [g3 y hy (by simp) (by simp), g1 y h5]⟩

/-- **C36 (`_memcpy`, in bytes).** If no byte of the source is overwritten before it is read, the bytes at the destination become those that were at the source, and all other bytes of the user stay. -/
theorem C36_memcpy_bytes (hG : G.Ok L br) (hr : 0 < G.nr) (hw : 0 < G.nw) {F : MemcpyFn} (hF : MemcpyOk L G F) {back : Nat} (hb : back < 2 ^ 32) {d sr n : Src} (hd : ArgU L G F.own d) (hsr : ArgU L G F.own sr) (hn : ArgU L G F.own n)
    {σ : BSt} {s : Mem} (h : BRep G cp σ s) {D S N : Nat} (hD : (d.valM s).toNat = D) (hS : (sr.valM s).toNat = S) (hN : (n.valM s).toNat = N) (hR : ∀ i < N, RdB L G F.own (posB S i)) (hW : ∀ i < N, WrB L G F.own (posB D i))
    (hov : ∀ i j, i < j → j < N → posB D i ≠ posB S j) :
    Does L (F.call L G back d sr n) s fun s' => (∃ σ', BRep G cp σ' s') ∧ (∀ i < N, byteAt s' (posB D i) = byteAt s (posB S i)) ∧
      ∀ q, ¬ G.Int (q / 4 * 4) → q / 4 * 4 ∉ F.own → (∀ i < N, q ≠ posB D i) → byteAt s' q = byteAt s q := by
  subst hD hS hN
  refine (C36_memcpy hG hr hw hF hb hd hsr hn h hR hW).mono ?_
  rintro s' ⟨h1, h2⟩
  refine ⟨h1, fun i hi => ?_, fun q h3 h4 h5 => ?_⟩
  · rw [byteAt_congr (h2 _ (hW i hi).2.2.1 (hW i hi).2.2.2), cpyB_spec (Nat.le_of_lt (n.valM s).isLt) hov i hi]
  · rw [byteAt_congr (h2 _ h3 h4), cpyB_other h5]

/-! ## Comparing -/

/-- Comparing `n` bytes: 0, or the difference of the first bytes that differ. -/
def cmpB (m : Mem) (a b : Nat) : Nat → W
  | 0 => 0
  | n + 1 => if byteAt m a = byteAt m b then cmpB m (nextB a) (nextB b) n else (byteAt m a).setWidth 32 - (byteAt m b).setWidth 32

/-- The difference of different bytes is not 0, and its top bit tells which is less. -/
theorem byte_diff (x y : BitVec 8) (h : x ≠ y) : x.setWidth 32 - y.setWidth 32 ≠ (0 : W) ∧ ((x.setWidth 32 - y.setWidth 32).msb = true ↔ x < y) := by
  have hx := x.isLt
  have hy := y.isLt
  have hne : x.toNat ≠ y.toNat := fun e => h (BitVec.eq_of_toNat_eq e)
  have e : (x.setWidth 32 - y.setWidth 32 : W).toNat = (2 ^ 32 - y.toNat + x.toNat) % 2 ^ 32 := by
    rw [BitVec.toNat_sub, BitVec.toNat_setWidth, BitVec.toNat_setWidth, Nat.mod_eq_of_lt (show x.toNat < 2 ^ 32 by omega), Nat.mod_eq_of_lt (show y.toNat < 2 ^ 32 by omega)]
  refine ⟨fun h0 => ?_, ?_⟩
  · rw [h0] at e
    simp only [show (0 : W).toNat = 0 from rfl] at e
    omega
  · rw [BitVec.msb_eq_decide, decide_eq_true_eq, e, BitVec.lt_def]
    omega

theorem posB_succ (p i : Nat) : posB (nextB p) i = posB p (i + 1) := by unfold posB nextB; omega

/-- The result is 0 exactly when all bytes agree. -/
theorem cmpB_zero {m : Mem} : ∀ {n a b : Nat}, a < 2 ^ 32 → b < 2 ^ 32 → (cmpB m a b n = 0 ↔ ∀ i < n, byteAt m (posB a i) = byteAt m (posB b i))
  | 0, _, _, _, _ => by simp [cmpB]
  | n + 1, a, b, ha, hb => by
    rw [cmpB]
    split
    · rename_i h
      rw [cmpB_zero (nextB_lt a) (nextB_lt b)]
      simp only [posB_succ]
      constructor
      · intro h1 i hi
        cases i with
        | zero => rw [posB_zero ha, posB_zero hb, h]
        | succ i => exact h1 i (by omega)
      · intro h1 i hi
        exact h1 (i + 1) (by omega)
    · rename_i h
      constructor
      · intro h1
        exact absurd h1 (byte_diff _ _ h).1
      · intro h1
        have := h1 0 (by omega)
        rw [posB_zero ha, posB_zero hb] at this
        exact absurd this h

/-- Otherwise it is the difference at the first place where they differ. -/
theorem cmpB_first {m : Mem} : ∀ {k n a b : Nat}, a < 2 ^ 32 → b < 2 ^ 32 → k < n → (∀ i < k, byteAt m (posB a i) = byteAt m (posB b i)) → byteAt m (posB a k) ≠ byteAt m (posB b k) →
    cmpB m a b n = (byteAt m (posB a k)).setWidth 32 - (byteAt m (posB b k)).setWidth 32
  | k, 0, _, _, _, _, h, _, _ => absurd h (by omega)
  | 0, n + 1, a, b, ha, hb, _, _, h => by
    rw [posB_zero ha, posB_zero hb] at h ⊢
    rw [cmpB, if_neg h]
  | k + 1, n + 1, a, b, ha, hb, hk, h1, h2 => by
    have h0 := h1 0 (by omega)
    rw [posB_zero ha, posB_zero hb] at h0
    rw [cmpB, if_pos h0, cmpB_first (k := k) (nextB_lt a) (nextB_lt b) (by omega) (fun i hi => by rw [posB_succ, posB_succ]; exact h1 (i + 1) (by omega)) (by rw [posB_succ, posB_succ]; exact h2), posB_succ, posB_succ]

/-- The functions that compare: parameters `b1`, `b2` and (`f_memcmp`) `cnt`, local variables `c1`, `c2`, `t`, the result `r`, and the condition `c` that compares `c1` with `c2`. -/
structure CmpFn where
  np : Nat
  fs : Nat
  fe : Nat
  r : Nat
  b1 : Nat
  b2 : Nat
  cnt : Nat
  c1 : Nat
  c2 : Nat
  t : Nat
  c : Nat
  k1 : Nat
  k2 : Nat
  n1 : Nat
  n2 : Nat

namespace CmpFn
variable (F : CmpFn)

def own : List Nat := [F.np, F.r + 4, F.r + 344, F.r + 348, F.b1 + 348, F.b2 + 348, F.cnt + 348, F.c1 + 348, F.c2 + 348, F.t + 348, F.c, F.c + 8]
/-- What the body may change. -/
def scr : List Nat := [F.r + 348, F.cnt + 348, F.c1 + 348, F.c2 + 348, F.t + 348, F.c, F.c + 8]

/-- `EUDReturn(ch1 - ch2)` -/
def retDiff : Stmt := .seq (opSub F.t F.c1 F.c2) (.seq (.asg [⟨F.r + 348, .set, .var F.t⟩]) .ret)
/-- `EUDReturn(0)` -/
def ret0 : Stmt := .seq (.asg [⟨F.r + 348, .set, .const 0⟩]) .ret
/-- `br1.seekoffset(buf1)`, `br2.seekoffset(buf2)` -/
def seek (L : Layout) (G : BCfg) : Stmt := .seqs ([(BOp.rseekV 0 (.var F.b1), F.k1), (.rseekV 1 (.var F.b2), F.k2)].map fun o => o.1.stmt L G o.2)

/-- mblockio.py:76-91 `f_memcmp` -/
def memcmp (L : Layout) (G : BCfg) : Stmt :=
  .seq (F.seek L G) (.seq
    (.loop true .skip [cMem (F.cnt + 348) .exactly 0]
      (.seq (.seqs ([(BOp.asg (F.cnt + 348) .add (.const (-1)), 0), (.read 0 (F.c1 + 348), F.n1), (.read 1 (F.c2 + 348), F.n2)].map fun o => o.1.stmt L G o.2))
        (.seq (.ite (cmpVar F.c1 F.c2 F.t F.c .eq).1 [(cmpVar F.c1 F.c2 F.t F.c .eq).2] .cont .skip) F.retDiff)) .skip)
    F.ret0)

/-- strfunc.py:40-55 `f_strcmp` -/
def strcmp (L : Layout) (G : BCfg) : Stmt :=
  .seq (F.seek L G)
    (.loop false .skip []
      (.seq (.seqs ([(BOp.read 0 (F.c1 + 348), F.n1), (.read 1 (F.c2 + 348), F.n2)].map fun o => o.1.stmt L G o.2))
        (.ite (cmpVar F.c1 F.c2 F.t F.c .eq).1 [(cmpVar F.c1 F.c2 F.t F.c .eq).2]
          (.seq (.ite .skip [cMem (F.c1 + 348) .exactly 0] F.ret0 .skip) .cont) F.retDiff)) .skip)

/-- The function is in place. -/
structure Ok (L : Layout) (G : BCfg) : Prop where
  cel : ∀ x ∈ [F.np, F.r + 344, F.r + 348, F.c + 8], L.cell x
  int : ∀ x ∈ F.own, ¬ G.Int x
  vars : ∀ v ∈ [F.b1, F.b2, F.cnt, F.c1, F.c2, F.t], VarU L G v
  nd : F.own.Nodup
  lab : F.k1 < 2 ^ 32 ∧ F.k2 < 2 ^ 32 ∧ F.n1 < 2 ^ 32 ∧ F.n2 < 2 ^ 32

end CmpFn

section
variable {F : CmpFn}

theorem Wp.skip {s : Mem} {Q : Out → Mem → Prop} (h : Q .nrm s) : Wp L .skip s Q := ⟨_, s, .skip _, h⟩

/-- Returning the difference. -/
theorem CmpFn.retDiff_wp (hw : L.Wf) (hF : F.Ok L G) {σ : BSt} {s : Mem} (h : BRep G cp σ s) :
    Wp L F.retDiff s fun o s' => o = .ret ∧ BRep G cp { σ with m := s' } s' ∧ s' (F.r + 348) = s (F.c1 + 348) - s (F.c2 + 348) ∧ Only [F.r + 348, F.t + 348] s s' := by
  have nd := hF.nd
  simp only [CmpFn.own, List.nodup_cons, List.mem_cons, not_or, List.not_mem_nil, not_false_eq_true, List.nodup_nil, and_true, or_false] at nd
  have v1 := hF.vars F.c1 (by simp)
  have v2 := hF.vars F.c2 (by simp)
  have vt := hF.vars F.t (by simp)
  refine Wp.seqN ((C53_sub hw vt.1 v1.1 v2.1 (by grind) (by grind) s).mono ?_)
  rintro s1 ⟨e1, e2⟩
  refine Wp.seqN (Does.asg ?_ ?_ (Wp.ret ?_))
  · simp only [List.mem_singleton, forall_eq]; exact hF.cel _ (by simp)
  · simp only [List.mem_singleton, forall_eq]; rintro v ⟨⟩; exact vt.1
  · simp only [runAsg, arith, Src.valM]
    have hO : Only [F.r + 348, F.t + 348] s (s1.set (F.r + 348) (s1 (F.t + 348))) := Only.set (e2.mono (by simp)) (by simp) _
    refine ⟨trivial, h.move fun x hx => hO x ?_, by rw [set_eq, e1], hO⟩
    simp only [List.mem_cons, List.not_mem_nil, or_false, not_or]
    exact ⟨fun e => hF.int _ (by simp [CmpFn.own]) (e ▸ hx), fun e => hF.int _ (by simp [CmpFn.own]) (e ▸ hx)⟩

theorem CmpFn.ret0_wp (hF : F.Ok L G) {σ : BSt} {s : Mem} (h : BRep G cp σ s) :
    Wp L F.ret0 s fun o s' => o = .ret ∧ BRep G cp { σ with m := s' } s' ∧ s' (F.r + 348) = 0 ∧ Only [F.r + 348, F.t + 348] s s' := by
  refine Wp.seqN (Does.asg ?_ ?_ (Wp.ret ?_))
  · simp only [List.mem_singleton, forall_eq]; exact hF.cel _ (by simp)
  · simp only [List.mem_singleton, forall_eq]; rintro v ⟨⟩
  · simp only [runAsg, arith, Src.valM]
    have hO : Only [F.r + 348, F.t + 348] s (s.set (F.r + 348) 0) := Only.set (Only.refl _ _) (by simp) _
    refine ⟨trivial, h.move fun x hx => hO x ?_, set_eq _ _ _, hO⟩
    simp only [List.mem_cons, List.not_mem_nil, or_false, not_or]
    exact ⟨fun e => hF.int _ (by simp [CmpFn.own]) (e ▸ hx), fun e => hF.int _ (by simp [CmpFn.own]) (e ▸ hx)⟩

/-- The comparison of the bytes. -/
theorem CmpFn.eq_does (hw : L.Wf) (hF : F.Ok L G) {σ : BSt} {s : Mem} (h : BRep G cp σ s) :
    Does L (cmpVar F.c1 F.c2 F.t F.c .eq).1 s fun s' => (∀ p ∈ [(cmpVar F.c1 F.c2 F.t F.c .eq).2], p.Ok L s') ∧ (holdsAll s' [(cmpVar F.c1 F.c2 F.t F.c .eq).2] = decide (s (F.c1 + 348) = s (F.c2 + 348))) ∧
      BRep G cp { σ with m := s' } s' ∧ Only [F.c, F.c + 8, F.t + 348] s s' := by
  have nd := hF.nd
  simp only [CmpFn.own, List.nodup_cons, List.mem_cons, not_or, List.not_mem_nil, not_false_eq_true, List.nodup_nil, and_true, or_false] at nd
  have v1 := hF.vars F.c1 (by simp)
  have v2 := hF.vars F.c2 (by simp)
  have vt := hF.vars F.t (by simp)
  refine (C23_var hw v1.1 v2.1 vt.1 (by grind) (by grind) .eq (by simp) (fun _ => hF.cel _ (by simp)) (by grind) (by grind) (by grind) s).mono ?_
  rintro s' ⟨e1, e2, e3⟩
  refine ⟨e1, ?_, h.move fun x hx => e3 x ?_, e3⟩
  · rw [e2]
    simp only [Rel.holds, decide_eq_decide]
    rw [Int.ofNat_inj, BitVec.toNat_inj]
  · simp only [List.mem_cons, List.not_mem_nil, or_false, not_or]
    exact ⟨fun e => hF.int _ (by simp [CmpFn.own]) (e ▸ hx), fun e => hF.int _ (by simp [CmpFn.own]) (e ▸ hx), fun e => hF.int _ (by simp [CmpFn.own]) (e ▸ hx)⟩

/-- Reading a byte of each block. -/
theorem CmpFn.reads_does (hG : G.Ok L br) (hr : 1 < G.nr) (hF : F.Ok L G) {σ : BSt} {s : Mem} (h : BRep G cp σ s) (h0 : RdB L G F.own (σ.rp 0)) (h1 : RdB L G F.own (σ.rp 1)) :
    Does L (.seqs ([(BOp.read 0 (F.c1 + 348), F.n1), (.read 1 (F.c2 + 348), F.n2)].map fun o => o.1.stmt L G o.2)) s fun s' =>
      BRep G cp { σ with m := s', rp := upd (upd σ.rp 0 (nextB (σ.rp 0))) 1 (nextB (σ.rp 1)) } s' ∧ s' (F.c1 + 348) = (byteAt s (σ.rp 0)).setWidth 32 ∧ s' (F.c2 + 348) = (byteAt s (σ.rp 1)).setWidth 32 ∧
      ∀ y, ¬ G.Int y → y ∉ [F.c1 + 348, F.c2 + 348] → s' y = s y := by
  have nd := hF.nd
  simp only [CmpFn.own, List.nodup_cons, List.mem_cons, not_or, List.not_mem_nil, not_false_eq_true, List.nodup_nil, and_true, or_false] at nd
  have v1 := hF.vars F.c1 (by simp)
  have v2 := hF.vars F.c2 (by simp)
  have n1 : σ.rp 1 / 4 * 4 ≠ F.c1 + 348 := fun e => h1.2.2 (by rw [e]; simp [CmpFn.own])
  refine (C37_history hG _ h.here ?_ ?_).mono fun s' h2 => ?_
  · simp [hF.lab.2.2.1, hF.lab.2.2.2]
  · simp only [List.map_cons, List.map_nil, BOp.AllOk, BOp.Ok, BOp.spec, and_true, BHist.upd_ne (show (1 : Nat) ≠ 0 by decide)]
    exact ⟨⟨by omega, cell_val hG.wf v1.1, v1.2.2, v1.2.1, h0.1, h0.2.1⟩, hr, cell_val hG.wf v2.1, v2.2.2, v2.2.1, h1.1, h1.2.1⟩
  · have e := h2.vis
    have h3 := h2.here
    simp only [List.map_cons, List.map_nil, BOp.run, List.foldl_cons, List.foldl_nil, BOp.spec, get_set, BHist.upd_ne (show (1 : Nat) ≠ 0 by decide)] at e h3
    refine ⟨h3, ?_, ?_, fun y hy hn => ?_⟩
    · rw [e _ v1.2.1, if_neg (by grind), if_pos rfl]
    · rw [e _ v2.2.1, if_pos rfl]
      congr 1
      exact byteAt_congr (set_ne n1)
    · simp only [List.mem_cons, List.not_mem_nil, or_false, not_or] at hn
      rw [e _ hy, if_neg hn.2, if_neg hn.1]

theorem setW_inj {x y : BitVec 8} : (x.setWidth 32 : W) = y.setWidth 32 ↔ x = y := by
  constructor
  · intro h
    have := congrArg (BitVec.setWidth 8) h
    simpa using this
  · rintro rfl; rfl

theorem CmpFn.memcmp_wp (hG : G.Ok L br) (hr : 1 < G.nr) (hF : F.Ok L G) {σ : BSt} {s : Mem} (h : BRep G cp σ s) {a b N : Nat} (ha : (s (F.b1 + 348)).toNat = a) (hb : (s (F.b2 + 348)).toNat = b) (hN : (s (F.cnt + 348)).toNat = N)
    (hA : ∀ i < N, RdB L G F.own (posB a i)) (hB : ∀ i < N, RdB L G F.own (posB b i)) :
    Wp L (F.memcmp L G) s fun o s' => (o = .nrm ∨ o = .ret) ∧ ∃ σ', BRep G cp σ' s' ∧ σ'.m (F.r + 348) = cmpB s a b N ∧ ∀ y, ¬ G.Int y → y ∉ F.scr → σ'.m y = s y := by
  have nd := hF.nd
  have hso : ∀ y ∈ F.scr, y ∈ F.own := by
    intro y hy
    simp only [CmpFn.own, CmpFn.scr, List.mem_cons, List.not_mem_nil, or_false] at hy ⊢
    grind
  have hint : ∀ y ∈ F.scr, ¬ G.Int y := fun y hy => hF.int y (hso y hy)
  simp only [CmpFn.own, List.nodup_cons, List.mem_cons, not_or, List.not_mem_nil, not_false_eq_true, List.nodup_nil, and_true, or_false] at nd
  have v1 := hF.vars F.c1 (by simp)
  have v2 := hF.vars F.c2 (by simp)
  have vc := hF.vars F.cnt (by simp)
  have vb1 := hF.vars F.b1 (by simp)
  have vb2 := hF.vars F.b2 (by simp)
  have ha' : a < 2 ^ 32 := ha ▸ (s (F.b1 + 348)).isLt
  have hb' : b < 2 ^ 32 := hb ▸ (s (F.b2 + 348)).isLt
  have hN' : N < 2 ^ 32 := hN ▸ (s (F.cnt + 348)).isLt
  refine Wp.seqN ((C37_history hG _ h.here ?_ ?_).mono fun s1 h1 => ?_)
  · simp [hF.lab.1, hF.lab.2.1]
  · exact ⟨(seekOk vb1 _).1 (by omega), (seekOk vb2 _).1 hr, trivial⟩
  have hv := h1.vis
  have h2 := h1.here
  simp only [List.map_cons, List.map_nil, BOp.run, List.foldl_cons, List.foldl_nil, BOp.spec, valM_var, ha, hb] at hv h2
  have bc : ∀ {m : Mem} {p : Nat}, RdB L G F.own p → (∀ y, ¬ G.Int y → y ∉ F.scr → m y = s y) → byteAt m p = byteAt s p := fun hp hm => byteAt_congr (hm _ hp.2.1 fun hs => hp.2.2 (hso _ hs))
  refine Wp.seq (Wp.mono (Wp.loop (Q := fun o s' => (o = .nrm ∧ (∃ σ', BRep G cp σ' s') ∧ (∀ y, ¬ G.Int y → y ∉ F.scr → s' y = s y) ∧ cmpB s a b N = 0) ∨
      (o = .ret ∧ (∃ σ', BRep G cp σ' s') ∧ (∀ y, ¬ G.Int y → y ∉ F.scr → s' y = s y) ∧ s' (F.r + 348) = cmpB s a b N))
    (fun k s' => k ≤ N ∧ s' (F.cnt + 348) = BitVec.ofNat 32 k ∧ (∃ σ', BRep G cp σ' s' ∧ σ'.rp 0 = posB a (N - k) ∧ σ'.rp 1 = posB b (N - k)) ∧ (∀ y, ¬ G.Int y → y ∉ F.scr → s' y = s y) ∧
      cmpB s a b N = cmpB s (posB a (N - k)) (posB b (N - k)) k) ?_ (n := N) ?_) ?_)
  · rintro k s' ⟨hk, g1, ⟨σ', g2, g3, g4⟩, g5, g6⟩
    refine Does.skip ⟨?_, ?_, ?_⟩
    · simp only [List.mem_singleton, forall_eq]
      exact cMem_ok (cell_val hG.wf vc.1) _ _ _
    · intro hh
      simp only [holdsAll_cons, holdsAll_nil, Bool.and_true, cMem_holds, g1, compare, decide_eq_true_eq] at hh
      have := congrArg BitVec.toNat hh
      simp only [BitVec.toNat_ofNat] at this
      rw [Nat.mod_eq_of_lt (by omega)] at this
      have : k = 0 := by simpa using this
      subst this
      exact .inl ⟨rfl, ⟨_, g2⟩, g5, by rw [g6]; rfl⟩
    · intro hh
      have hk0 : k ≠ 0 := by
        rintro rfl
        simp [holdsAll_cons, holdsAll_nil, cMem_holds, g1, compare] at hh
      have rA := hA (N - k) (by omega)
      have rB := hB (N - k) (by omega)
      refine Wp.seqN (Does.seq ((C37_step hG g2 (n := 0) (by omega) (.asg (F.cnt + 348) .add (.const (-1))) ⟨cell_val hG.wf vc.1, vc.2.1, by rintro v ⟨⟩⟩).mono fun s2 q1 => ?_))
      have q2 := q1.vis
      have q1 := q1.here
      simp only [BOp.spec, get_set, arith] at q2 q1
      refine (CmpFn.reads_does hG hr hF q1 (by rw [g3]; exact rA) (by rw [g4]; exact rB)).mono ?_
      rintro s3 ⟨u1, u2, u3, u4⟩
      have q3 : ∀ y, ¬ G.Int y → y ∉ F.scr → s2 y = s y := fun y hy hn => by
        rw [q2 y hy, if_neg (fun e => hn (by rw [e]; simp [CmpFn.scr])), ← g2.vis y hy, g5 y hy hn]
      rw [g3, bc rA q3] at u2
      rw [g4, bc rB q3] at u3
      have u5 : ∀ y, ¬ G.Int y → y ∉ F.scr → s3 y = s y := fun y hy hn => by
        rw [u4 y hy (fun hm => hn (by simp only [CmpFn.scr, List.mem_cons, List.not_mem_nil, or_false] at hm ⊢; grind)), q3 y hy hn]
      have uc : s3 (F.cnt + 348) = BitVec.ofNat 32 (k - 1) := by
        rw [u4 _ vc.2.1 (by simp only [List.mem_cons, List.not_mem_nil, or_false, not_or]; grind), q2 _ vc.2.1, if_pos rfl, ← g2.vis _ vc.2.1, g1]
        exact ofNat_dec hk0
      obtain ⟨j, rfl⟩ : ∃ j, k = j + 1 := ⟨k - 1, by omega⟩
      have en : N - (j + 1) + 1 = N - j := by omega
      refine Wp.seq (Wp.ite ((CmpFn.eq_does hG.wf hF u1).mono ?_))
      rintro s4 ⟨w1, w2, w3, w4⟩
      have w5 : ∀ y, ¬ G.Int y → y ∉ F.scr → s4 y = s y := fun y hy hn => by
        rw [w4 y (fun hm => hn (by simp only [CmpFn.scr, List.mem_cons, List.not_mem_nil, or_false] at hm ⊢; grind)), u5 y hy hn]
      rw [u2, u3] at w2
      refine ⟨w1, fun hh => Wp.cont ?_, fun hh => ?_⟩
      · rw [w2, decide_eq_true_eq, setW_inj] at hh
        rw [if_neg (by simp)]
        refine Does.skip ⟨j, by omega, by omega, ?_, ⟨_, w3, ?_, ?_⟩, w5, ?_⟩
        · rw [w4 _ (by simp only [List.mem_cons, List.not_mem_nil, or_false, not_or]; grind), uc, Nat.add_sub_cancel]
        · simp only [BHist.upd_ne (show (0 : Nat) ≠ 1 by decide), BHist.upd_self, g3, posB_next, en]
        · simp only [BHist.upd_self, g4, posB_next, en]
        · rw [g6, cmpB, if_pos hh, posB_next, posB_next, en]
      · rw [w2, decide_eq_false_iff_not, setW_inj] at hh
        refine Wp.skip ?_
        rw [if_pos rfl]
        refine (CmpFn.retDiff_wp hG.wf hF w3).mono ?_
        rintro o s5 ⟨rfl, x1, x2, x3⟩
        refine .inr ⟨rfl, ⟨_, x1⟩, fun y hy hn => ?_, ?_⟩
        · rw [x3 y (fun hm => hn (by simp only [CmpFn.scr, List.mem_cons, List.not_mem_nil, or_false] at hm ⊢; grind)), w5 y hy hn]
        · rw [x2, w4 _ (by simp only [List.mem_cons, List.not_mem_nil, or_false, not_or]; grind), w4 _ (by simp only [List.mem_cons, List.not_mem_nil, or_false, not_or]; grind), u2, u3, g6, cmpB, if_neg hh]
  · refine ⟨Nat.le_refl _, ?_, ⟨_, h2, ?_, ?_⟩, fun y hy _ => hv y hy, by rw [Nat.sub_self, posB_zero ha', posB_zero hb']⟩
    · rw [hv _ vc.2.1, ← hN, BitVec.ofNat_toNat, BitVec.setWidth_eq]
    · simp only [BHist.upd_ne (show (0 : Nat) ≠ 1 by decide), BHist.upd_self, Nat.sub_self, posB_zero ha']
    · simp only [BHist.upd_self, Nat.sub_self, hv _ vb2.2.1, hb, posB_zero hb']
  · rintro o s2 (⟨rfl, ⟨σ', q1⟩, q2, q3⟩ | ⟨rfl, ⟨σ', q1⟩, q2, q3⟩)
    · rw [if_pos rfl]
      refine (CmpFn.ret0_wp hF q1).mono ?_
      rintro o s5 ⟨rfl, x1, x2, x3⟩
      refine ⟨.inr rfl, _, x1, by rw [q3]; exact x2, fun y hy hn => ?_⟩
      show s5 y = s y
      rw [x3 y (fun hm => hn (by simp only [CmpFn.scr, List.mem_cons, List.not_mem_nil, or_false] at hm ⊢; grind)), q2 y hy hn]
    · rw [if_neg (by simp)]
      exact ⟨.inr rfl, _, q1.here, q3, q2⟩

/-- `StrEnd m a b n`: the bytes before place `n` agree and are not 0, and at `n` they differ or are 0. -/
def StrEnd (m : Mem) (a b n : Nat) : Prop :=
  (∀ i < n, byteAt m (posB a i) = byteAt m (posB b i) ∧ byteAt m (posB a i) ≠ 0) ∧ (byteAt m (posB a n) ≠ byteAt m (posB b n) ∨ byteAt m (posB a n) = 0)

theorem CmpFn.strcmp_wp (hG : G.Ok L br) (hr : 1 < G.nr) (hF : F.Ok L G) {σ : BSt} {s : Mem} (h : BRep G cp σ s) {a b n : Nat} (ha : (s (F.b1 + 348)).toNat = a) (hb : (s (F.b2 + 348)).toNat = b) (hn : StrEnd s a b n)
    (hA : ∀ i ≤ n, RdB L G F.own (posB a i)) (hB : ∀ i ≤ n, RdB L G F.own (posB b i)) :
    Wp L (F.strcmp L G) s fun o s' => (o = .nrm ∨ o = .ret) ∧ ∃ σ', BRep G cp σ' s' ∧ σ'.m (F.r + 348) = (byteAt s (posB a n)).setWidth 32 - (byteAt s (posB b n)).setWidth 32 ∧
      ∀ y, ¬ G.Int y → y ∉ F.scr → σ'.m y = s y := by
  have nd := hF.nd
  have hso : ∀ y ∈ F.scr, y ∈ F.own := by
    intro y hy
    simp only [CmpFn.own, CmpFn.scr, List.mem_cons, List.not_mem_nil, or_false] at hy ⊢
    grind
  simp only [CmpFn.own, List.nodup_cons, List.mem_cons, not_or, List.not_mem_nil, not_false_eq_true, List.nodup_nil, and_true, or_false] at nd
  have v1 := hF.vars F.c1 (by simp)
  have vb1 := hF.vars F.b1 (by simp)
  have vb2 := hF.vars F.b2 (by simp)
  have ha' : a < 2 ^ 32 := ha ▸ (s (F.b1 + 348)).isLt
  have hb' : b < 2 ^ 32 := hb ▸ (s (F.b2 + 348)).isLt
  refine Wp.seqN ((C37_history hG _ h.here ?_ ?_).mono fun s1 h1 => ?_)
  · simp [hF.lab.1, hF.lab.2.1]
  · exact ⟨(seekOk vb1 _).1 (by omega), (seekOk vb2 _).1 hr, trivial⟩
  have hv := h1.vis
  have h2 := h1.here
  simp only [List.map_cons, List.map_nil, BOp.run, List.foldl_cons, List.foldl_nil, BOp.spec, valM_var, ha, hb] at hv h2
  have bc : ∀ {m : Mem} {p : Nat}, RdB L G F.own p → (∀ y, ¬ G.Int y → y ∉ F.scr → m y = s y) → byteAt m p = byteAt s p := fun hp hm => byteAt_congr (hm _ hp.2.1 fun hs => hp.2.2 (hso _ hs))
  refine Wp.mono (Wp.loop (Q := fun o s' => o = .ret ∧ (∃ σ', BRep G cp σ' s') ∧ (∀ y, ¬ G.Int y → y ∉ F.scr → s' y = s y) ∧ s' (F.r + 348) = (byteAt s (posB a n)).setWidth 32 - (byteAt s (posB b n)).setWidth 32)
    (fun k s' => k ≤ n ∧ (∃ σ', BRep G cp σ' s' ∧ σ'.rp 0 = posB a (n - k) ∧ σ'.rp 1 = posB b (n - k)) ∧ ∀ y, ¬ G.Int y → y ∉ F.scr → s' y = s y) ?_ (n := n) ?_) ?_
  · rintro k s' ⟨hk, ⟨σ', g2, g3, g4⟩, g5⟩
    refine Does.skip ⟨by simp, fun hh => by simp [holdsAll] at hh, fun _ => ?_⟩
    have rA := hA (n - k) (by omega)
    have rB := hB (n - k) (by omega)
    refine Wp.seqN ((CmpFn.reads_does hG hr hF g2 (by rw [g3]; exact rA) (by rw [g4]; exact rB)).mono ?_)
    rintro s3 ⟨u1, u2, u3, u4⟩
    rw [g3, bc rA g5] at u2
    rw [g4, bc rB g5] at u3
    have u5 : ∀ y, ¬ G.Int y → y ∉ F.scr → s3 y = s y := fun y hy hn => by
      rw [u4 y hy (fun hm => hn (by simp only [CmpFn.scr, List.mem_cons, List.not_mem_nil, or_false] at hm ⊢; grind)), g5 y hy hn]
    refine Wp.ite ((CmpFn.eq_does hG.wf hF u1).mono ?_)
    rintro s4 ⟨w1, w2, w3, w4⟩
    have w5 : ∀ y, ¬ G.Int y → y ∉ F.scr → s4 y = s y := fun y hy hn => by
      rw [w4 y (fun hm => hn (by simp only [CmpFn.scr, List.mem_cons, List.not_mem_nil, or_false] at hm ⊢; grind)), u5 y hy hn]
    have w6 : s4 (F.c1 + 348) = (byteAt s (posB a (n - k))).setWidth 32 := by rw [w4 _ (by simp only [List.mem_cons, List.not_mem_nil, or_false, not_or]; grind), u2]
    have w7 : s4 (F.c2 + 348) = (byteAt s (posB b (n - k))).setWidth 32 := by rw [w4 _ (by simp only [List.mem_cons, List.not_mem_nil, or_false, not_or]; grind), u3]
    rw [u2, u3] at w2
    refine ⟨w1, fun hh => ?_, fun hh => ?_⟩
    · rw [w2, decide_eq_true_eq, setW_inj] at hh
      refine Wp.seq (Wp.ite0 ?_ (fun h0 => ?_) fun h0 => ?_)
      · simp only [List.mem_singleton, forall_eq]
        exact cMem_ok (cell_val hG.wf v1.1) _ _ _
      · simp only [holdsAll_cons, holdsAll_nil, Bool.and_true, cMem_holds, w6, compare, decide_eq_true_eq] at h0
        rw [show (0 : W) = (0 : BitVec 8).setWidth 32 from rfl, setW_inj] at h0
        have hk0 : k = 0 := by
          cases k with
          | zero => rfl
          | succ k => exact absurd h0 (hn.1 (n - (k + 1)) (by omega)).2
        subst hk0
        refine (CmpFn.ret0_wp hF w3).mono ?_
        rintro o s5 ⟨rfl, x1, x2, x3⟩
        rw [if_neg (by simp)]
        refine ⟨rfl, ⟨_, x1⟩, fun y hy hn => ?_, ?_⟩
        · rw [x3 y (fun hm => hn (by simp only [CmpFn.scr, List.mem_cons, List.not_mem_nil, or_false] at hm ⊢; grind)), w5 y hy hn]
        · rw [x2]
          rw [Nat.sub_zero] at hh
          rw [hh, BitVec.sub_self]; rfl
      · simp only [holdsAll_cons, holdsAll_nil, Bool.and_true, cMem_holds, w6, compare, decide_eq_false_iff_not] at h0
        rw [show (0 : W) = (0 : BitVec 8).setWidth 32 from rfl, setW_inj] at h0
        obtain ⟨j, rfl⟩ : ∃ j, k = j + 1 := by
          cases k with
          | zero => exact absurd hn.2 (by rw [Nat.sub_zero] at hh h0; simp [hh]; rw [← hh]; exact h0)
          | succ k => exact ⟨k, rfl⟩
        have en : n - (j + 1) + 1 = n - j := by omega
        refine Wp.skip ?_
        rw [if_pos rfl]
        refine Wp.cont (Does.skip ⟨j, by omega, by omega, ⟨_, w3, ?_, ?_⟩, w5⟩)
        · simp only [BHist.upd_ne (show (0 : Nat) ≠ 1 by decide), BHist.upd_self, g3, posB_next, en]
        · simp only [BHist.upd_self, g4, posB_next, en]
    · rw [w2, decide_eq_false_iff_not, setW_inj] at hh
      have hk0 : k = 0 := by
        cases k with
        | zero => rfl
        | succ k => exact absurd (hn.1 (n - (k + 1)) (by omega)).1 hh
      subst hk0
      refine (CmpFn.retDiff_wp hG.wf hF w3).mono ?_
      rintro o s5 ⟨rfl, x1, x2, x3⟩
      refine ⟨rfl, ⟨_, x1⟩, fun y hy hn => ?_, ?_⟩
      · rw [x3 y (fun hm => hn (by simp only [CmpFn.scr, List.mem_cons, List.not_mem_nil, or_false] at hm ⊢; grind)), w5 y hy hn]
      · rw [x2, w6, w7, Nat.sub_zero]
  · refine ⟨Nat.le_refl _, ⟨_, h2, ?_, ?_⟩, fun y hy _ => hv y hy⟩
    · simp only [BHist.upd_ne (show (0 : Nat) ≠ 1 by decide), BHist.upd_self, Nat.sub_self, posB_zero ha']
    · simp only [BHist.upd_self, Nat.sub_self, hv _ vb2.2.1, hb, posB_zero hb']
  · rintro o s2 ⟨rfl, ⟨σ', q1⟩, q2, q3⟩
    exact ⟨.inr rfl, _, q1.here, q3, q2⟩

/-- Comparing looks only at the bytes compared. -/
theorem cmpB_congr {m m' : Mem} : ∀ {n a b : Nat}, a < 2 ^ 32 → b < 2 ^ 32 → (∀ i < n, byteAt m (posB a i) = byteAt m' (posB a i) ∧ byteAt m (posB b i) = byteAt m' (posB b i)) → cmpB m a b n = cmpB m' a b n
  | 0, _, _, _, _, _ => rfl
  | n + 1, a, b, ha, hb, h => by
    have h0 := h 0 (by omega)
    rw [posB_zero ha, posB_zero hb] at h0
    rw [cmpB, cmpB, h0.1, h0.2, cmpB_congr (nextB_lt a) (nextB_lt b) fun i hi => by rw [posB_succ, posB_succ]; exact h (i + 1) (by omega)]

/-- The call of a function that compares, with the arguments for the parameters in `ps`. -/
def CmpFn.call (F : CmpFn) (L : Layout) (body : Stmt) (back o : Nat) (args : List (Nat × Src)) : Stmt := .prim (CallRel L F.fe F.np back body [(F.r, o)] args)

/-- Where the result goes. -/
def DestU (L : Layout) (G : BCfg) (own : List Nat) (o : Nat) : Prop := L.cell o ∧ EpdOK o ∧ ¬ G.Int o ∧ o ∉ own

theorem CmpFn.call_does (hG : G.Ok L br) (hF : F.Ok L G) {body : Stmt} (hC : FuncCode L F.fs F.fe F.np [F.r] body) {back o : Nat} (hb : back < 2 ^ 32) (ho : DestU L G F.own o) {args : List (Nat × Src)}
    (ha : ∀ p ∈ args, p.1 ∈ [F.b1 + 348, F.b2 + 348, F.cnt + 348] ∧ ArgU L G F.own p.2) (hnd : (args.map Prod.fst).Nodup) {σ : BSt} {s : Mem} (h : BRep G cp σ s) {w : W}
    (hB : ∀ s1, (∀ a ∈ args, s1 a.1 = a.2.valM s) → (∀ y, y ∉ F.own → s1 y = s y) → BRep G cp { σ with m := s1 } s1 →
      Wp L body s1 fun o s' => (o = .nrm ∨ o = .ret) ∧ ∃ σ', BRep G cp σ' s' ∧ σ'.m (F.r + 348) = w ∧ ∀ y, ¬ G.Int y → y ∉ F.scr → σ'.m y = s1 y) :
    Does L (F.call L body back o args) s fun s' => (∃ σ', BRep G cp σ' s') ∧ s' o = w ∧ ∀ y, ¬ G.Int y → y ≠ o → y ∉ F.own → s' y = s y := by
  obtain ⟨co, eo, io, no⟩ := ho
  have nd := hF.nd
  have hint := hF.int
  simp only [CmpFn.own, List.nodup_cons, List.mem_cons, not_or, List.not_mem_nil, not_false_eq_true, List.nodup_nil, and_true, or_false] at nd
  have hp : ∀ x ∈ args.map Prod.fst, x ∈ [F.b1 + 348, F.b2 + 348, F.cnt + 348] := by
    intro x hx
    obtain ⟨p, h1, rfl⟩ := List.mem_map.1 hx
    exact (ha p h1).1
  have hpo : ∀ x ∈ F.np :: (F.r + 344) :: args.map Prod.fst, x ∈ F.own := by
    intro x hx
    simp only [List.mem_cons] at hx
    rcases hx with rfl | rfl | hx
    · simp [CmpFn.own]
    · simp [CmpFn.own]
    · have := hp x hx
      simp only [CmpFn.own, List.mem_cons, List.not_mem_nil, or_false] at this ⊢
      grind
  have hk : BCallOk L G F.np [(F.r, o)] args F.scr := by
    refine ⟨callOk1R (hF.cel _ (by simp)) (hF.cel _ (by simp)) co eo ?_ ?_ (by grind) (fun a h1 v hv => ?_) ?_ ?_ ?_, hint _ (by simp [CmpFn.own]), ?_, ?_⟩
    · intro a h1
      have := (ha a h1).1
      simp only [List.mem_cons, List.not_mem_nil, or_false] at this
      rcases this with e | e | e <;> rw [e] <;> exact cell_val hG.wf (hF.vars _ (by simp)).1
    · rw [List.nodup_cons, List.nodup_cons]
      refine ⟨fun hm => ?_, fun hm => ?_, hnd⟩
      · rw [List.mem_cons] at hm
        rcases hm with e | hm
        · grind
        · have := hp _ hm
          simp only [List.mem_cons, List.not_mem_nil, or_false] at this
          grind
      · have := hp _ hm
        simp only [List.mem_cons, List.not_mem_nil, or_false] at this
        grind
    · have := (ha a h1).2 v hv
      exact ⟨this.1, fun hm => this.2.2 (hpo _ hm)⟩
    · simp only [CmpFn.own, List.mem_cons, List.not_mem_nil, or_false, not_or] at no ⊢; grind
    · simp only [CmpFn.scr, List.mem_cons, List.not_mem_nil, or_false, not_or]; grind
    · simp only [CmpFn.scr, List.mem_cons, List.not_mem_nil, or_false, not_or]; grind
    · simp only [List.mem_singleton, forall_eq]
      exact ⟨hint _ (by simp [CmpFn.own]), hint _ (by simp [CmpFn.own]), io⟩
    · intro a h1
      exact hint _ (hpo _ (List.mem_cons_of_mem _ (List.mem_cons_of_mem _ (List.mem_map_of_mem h1))))
  refine (bcall_does hG.wf hk hC hb h (Q := fun σ2 => σ2.m (F.r + 348) = w ∧ ∀ y, ¬ G.Int y → y ∉ F.own → σ2.m y = s y) ?_).mono ?_
  · intro s1 e1 e2 h1
    have e3 : ∀ y, y ∉ F.own → s1 y = s y := fun y hy => e2 y fun hm => hy (hpo _ (by
      simpa only [List.map_cons, List.map_nil, List.cons_append, List.nil_append] using hm))
    refine (hB s1 e1 e3 h1).mono ?_
    rintro o' s2 ⟨q1, σ2, q2, q3, q4⟩
    refine ⟨q1, σ2, q2, ⟨q3, fun y hy hn => ?_⟩, q4⟩
    rw [q4 y hy fun hm => hn ?_, e3 y hn]
    simp only [CmpFn.own, CmpFn.scr, List.mem_cons, List.not_mem_nil, or_false] at hm ⊢
    grind
  · rintro s' ⟨σ2, ⟨g1, g2⟩, g3, g4, g5⟩
    refine ⟨⟨_, g3⟩, ?_, fun y hy h1 h2 => ?_⟩
    · rcases g4 _ (List.mem_singleton.2 rfl) with e | e
      · rw [e, g1]
      · exact absurd e (hint _ (by simp [CmpFn.own]))
    · rw [g5 y hy (by simpa using h1) (by simp only [List.map_cons, List.map_nil, List.mem_singleton]; exact fun e => h2 (by rw [e]; simp [CmpFn.own])), g2 y hy h2]

/-- **C36 (`f_memcmp`).** For every length: 0 if all bytes agree, otherwise the difference of the first bytes that differ (`cmpB_zero`, `cmpB_first`, `byte_diff`); no dword of the user changes but the result. -/
theorem C36_memcmp (hG : G.Ok L br) (hr : 1 < G.nr) (hF : F.Ok L G) (hC : FuncCode L F.fs F.fe F.np [F.r] (F.memcmp L G)) {back o : Nat} (hb : back < 2 ^ 32) (ho : DestU L G F.own o) {x y n : Src}
    (hx : ArgU L G F.own x) (hy : ArgU L G F.own y) (hn : ArgU L G F.own n) {σ : BSt} {s : Mem} (h : BRep G cp σ s)
    (hA : ∀ i < (n.valM s).toNat, RdB L G F.own (posB (x.valM s).toNat i)) (hB : ∀ i < (n.valM s).toNat, RdB L G F.own (posB (y.valM s).toNat i)) :
    Does L (F.call L (F.memcmp L G) back o [(F.b1 + 348, x), (F.b2 + 348, y), (F.cnt + 348, n)]) s fun s' => (∃ σ', BRep G cp σ' s') ∧
      s' o = cmpB s (x.valM s).toNat (y.valM s).toNat (n.valM s).toNat ∧ ∀ y, ¬ G.Int y → y ≠ o → y ∉ F.own → s' y = s y := by
  have nd := hF.nd
  simp only [CmpFn.own, List.nodup_cons, List.mem_cons, not_or, List.not_mem_nil, not_false_eq_true, List.nodup_nil, and_true, or_false] at nd
  refine CmpFn.call_does hG hF hC hb ho ?_ ?_ h fun s1 e1 e2 h1 => ?_
  · simp only [List.mem_cons, List.not_mem_nil, or_false, forall_eq_or_imp, forall_eq]
    exact ⟨⟨by simp, hx⟩, ⟨by simp, hy⟩, by simp, hn⟩
  · simp only [List.map_cons, List.map_nil, List.nodup_cons, List.mem_cons, not_or, List.not_mem_nil, not_false_eq_true, List.nodup_nil, and_true, or_false]; grind
  · simp only [List.mem_cons, List.not_mem_nil, or_false, forall_eq_or_imp, forall_eq] at e1
    refine (CmpFn.memcmp_wp hG hr hF h1 (by rw [e1.1]) (by rw [e1.2.1]) (by rw [e1.2.2]) hA hB).mono ?_
    rintro o' s2 ⟨q1, σ2, q2, q3, q4⟩
    refine ⟨q1, σ2, q2, ?_, q4⟩
    rw [q3]
    exact cmpB_congr (x.valM s).isLt (y.valM s).isLt fun i hi => ⟨byteAt_congr (e2 _ (hA i hi).2.2), byteAt_congr (e2 _ (hB i hi).2.2)⟩

/-- **C36 (`f_strcmp`).** For strings of every length: the difference of the bytes at the first place where the strings differ or end. -/
theorem C36_strcmp (hG : G.Ok L br) (hr : 1 < G.nr) (hF : F.Ok L G) (hC : FuncCode L F.fs F.fe F.np [F.r] (F.strcmp L G)) {back o : Nat} (hb : back < 2 ^ 32) (ho : DestU L G F.own o) {x y : Src}
    (hx : ArgU L G F.own x) (hy : ArgU L G F.own y) {σ : BSt} {s : Mem} (h : BRep G cp σ s) {n : Nat} (hn : StrEnd s (x.valM s).toNat (y.valM s).toNat n)
    (hA : ∀ i ≤ n, RdB L G F.own (posB (x.valM s).toNat i)) (hB : ∀ i ≤ n, RdB L G F.own (posB (y.valM s).toNat i)) :
    Does L (F.call L (F.strcmp L G) back o [(F.b1 + 348, x), (F.b2 + 348, y)]) s fun s' => (∃ σ', BRep G cp σ' s') ∧
      s' o = (byteAt s (posB (x.valM s).toNat n)).setWidth 32 - (byteAt s (posB (y.valM s).toNat n)).setWidth 32 ∧ ∀ y, ¬ G.Int y → y ≠ o → y ∉ F.own → s' y = s y := by
  have nd := hF.nd
  simp only [CmpFn.own, List.nodup_cons, List.mem_cons, not_or, List.not_mem_nil, not_false_eq_true, List.nodup_nil, and_true, or_false] at nd
  refine CmpFn.call_does hG hF hC hb ho ?_ ?_ h fun s1 e1 e2 h1 => ?_
  · simp only [List.mem_cons, List.not_mem_nil, or_false, forall_eq_or_imp, forall_eq]
    exact ⟨⟨by simp, hx⟩, by simp, hy⟩
  · simp only [List.map_cons, List.map_nil, List.nodup_cons, List.mem_cons, not_or, List.not_mem_nil, not_false_eq_true, List.nodup_nil, and_true, or_false]; grind
  · simp only [List.mem_cons, List.not_mem_nil, or_false, forall_eq_or_imp, forall_eq] at e1
    have ba : ∀ i ≤ n, byteAt s1 (posB (x.valM s).toNat i) = byteAt s (posB (x.valM s).toNat i) := fun i hi => byteAt_congr (e2 _ (hA i hi).2.2)
    have bb : ∀ i ≤ n, byteAt s1 (posB (y.valM s).toNat i) = byteAt s (posB (y.valM s).toNat i) := fun i hi => byteAt_congr (e2 _ (hB i hi).2.2)
    have hn1 : StrEnd s1 (x.valM s).toNat (y.valM s).toNat n := by
      refine ⟨fun i hi => ?_, ?_⟩
      · rw [ba i (by omega), bb i (by omega)]; exact hn.1 i hi
      · rw [ba n (by omega), bb n (by omega)]; exact hn.2
    refine (CmpFn.strcmp_wp hG hr hF h1 (by rw [e1.1]) (by rw [e1.2]) hn1 hA hB).mono ?_
    rintro o' s2 ⟨q1, σ2, q2, q3, q4⟩
    exact ⟨q1, σ2, q2, by rw [q3, ba n (by omega), bb n (by omega)], q4⟩

end

/-! ## `f_strcpy` -/

/-- The function `f_strcpy`: parameters `dst`, `src`, local variables `t` (the byte read), `b`, the result `r`. -/
structure StrcpyFn where
  np : Nat
  fs : Nat
  fe : Nat
  r : Nat
  dst : Nat
  src : Nat
  t : Nat
  b : Nat
  k1 : Nat
  k2 : Nat
  n1 : Nat
  n2 : Nat

namespace StrcpyFn
variable (F : StrcpyFn)

def own : List Nat := [F.np, F.r + 4, F.r + 344, F.r + 348, F.dst + 348, F.src + 348, F.t + 348, F.b + 348]

/-- strfunc.py:16-37 `f_strcpy` -/
def body (L : Layout) (G : BCfg) : Stmt :=
  .seq (.seqs ([(BOp.rseekV 0 (.var F.src), F.k1), (.wseekV 0 (.var F.dst), F.k2)].map fun o => o.1.stmt L G o.2))
    (.seq (.loop false .skip []
      (.seq (.seqs ([(BOp.read 0 (F.t + 348), F.n1), (.asg (F.b + 348) .set (.var F.t), 0), (.writeV 0 (.var F.b), F.n2)].map fun o => o.1.stmt L G o.2))
        (.ite .skip [cMem (F.b + 348) .exactly 0] .brk .skip)) .skip)
      (.asg [⟨F.r + 348, .set, .var F.dst⟩]))

/-- The function is in place. -/
structure Ok (L : Layout) (G : BCfg) : Prop where
  cel : ∀ x ∈ [F.np, F.r + 344, F.r + 348], L.cell x
  int : ∀ x ∈ F.own, ¬ G.Int x
  vars : ∀ v ∈ [F.dst, F.src, F.t, F.b], VarU L G v
  nd : F.own.Nodup
  lab : F.k1 < 2 ^ 32 ∧ F.k2 < 2 ^ 32 ∧ F.n1 < 2 ^ 32 ∧ F.n2 < 2 ^ 32
  func : FuncCode L F.fs F.fe F.np [F.r] (F.body L G)

def call (L : Layout) (G : BCfg) (back o : Nat) (d s : Src) : Stmt := .prim (CallRel L F.fe F.np back (F.body L G) [(F.r, o)] [(F.dst + 348, d), (F.src + 348, s)])
end StrcpyFn

/-- The byte with number `n` is the first 0 that copying meets. -/
def CpyEnd (m : Mem) (d s n : Nat) : Prop := (∀ i < n, byteAt (cpyB m d s i) (posB s i) ≠ 0) ∧ byteAt (cpyB m d s n) (posB s n) = 0

/-- If the string is not overwritten ahead, this is its end. -/
theorem CpyEnd.of {m : Mem} {d s n : Nat} (h : ∀ i j, i < j → j ≤ n → posB d i ≠ posB s j) (h1 : ∀ i < n, byteAt m (posB s i) ≠ 0) (h2 : byteAt m (posB s n) = 0) : CpyEnd m d s n :=
  ⟨fun i hi => by rw [cpyB_other fun j hj => (h j i hj (by omega)).symm]; exact h1 i hi, by rw [cpyB_other fun j hj => (h j n hj (by omega)).symm]; exact h2⟩

/-- **C36 (`f_strcpy`).** The bytes up to the first 0 are copied with it, one after the other, for every length and alignment; the result is `dst`. -/
theorem C36_strcpy (hG : G.Ok L br) (hr : 0 < G.nr) (hw : 0 < G.nw) {F : StrcpyFn} (hF : F.Ok L G) {back o : Nat} (hb : back < 2 ^ 32) (ho : DestU L G F.own o) {d sr : Src} (hd : ArgU L G F.own d) (hsr : ArgU L G F.own sr)
    {σ : BSt} {s : Mem} (h : BRep G cp σ s) {n : Nat} (hn : CpyEnd s (d.valM s).toNat (sr.valM s).toNat n)
    (hR : ∀ i ≤ n, RdB L G F.own (posB (sr.valM s).toNat i)) (hW : ∀ i ≤ n, WrB L G F.own (posB (d.valM s).toNat i)) :
    Does L (F.call L G back o d sr) s fun s' => (∃ σ', BRep G cp σ' s') ∧ s' o = d.valM s ∧
      ∀ y, ¬ G.Int y → y ≠ o → y ∉ F.own → s' y = cpyB s (d.valM s).toNat (sr.valM s).toNat (n + 1) y := by
  obtain ⟨vd, vs, vt, vb⟩ : VarU L G F.dst ∧ VarU L G F.src ∧ VarU L G F.t ∧ VarU L G F.b := ⟨hF.vars _ (by simp), hF.vars _ (by simp), hF.vars _ (by simp), hF.vars _ (by simp)⟩
  obtain ⟨co, eo, io, no⟩ := ho
  have nd := hF.nd
  have hint := hF.int
  simp only [StrcpyFn.own, List.nodup_cons, List.mem_cons, not_or, List.not_mem_nil, not_false_eq_true, List.nodup_nil, and_true, or_false] at nd
  generalize hDe : (d.valM s).toNat = D at hn hW ⊢
  generalize hSe : (sr.valM s).toNat = S at hn hR ⊢
  let scr := [F.r + 348, F.t + 348, F.b + 348] ++ (List.range (n + 1)).map fun i => posB D i / 4 * 4
  have hk : BCallOk L G F.np [(F.r, o)] [(F.dst + 348, d), (F.src + 348, sr)] scr := by
    refine ⟨callOk1R (hF.cel _ (by simp)) (hF.cel _ (by simp)) co eo ?_ ?_ (by grind) ?_ ?_ ?_ ?_, hint _ (by simp [StrcpyFn.own]), ?_, ?_⟩
    · simp only [List.mem_cons, List.not_mem_nil, or_false, forall_eq_or_imp, forall_eq]
      exact ⟨cell_val hG.wf vd.1, cell_val hG.wf vs.1⟩
    · simp only [List.map_cons, List.map_nil, List.nodup_cons, List.mem_cons, not_or, List.not_mem_nil, not_false_eq_true, List.nodup_nil, and_true, or_false]; grind
    · simp only [List.map_cons, List.map_nil, List.mem_cons, List.not_mem_nil, or_false, forall_eq_or_imp, forall_eq]
      simp only [ArgU, StrcpyFn.own, List.mem_cons, List.not_mem_nil, or_false, not_or] at hd hsr
      exact ⟨fun v hv => ⟨(hd v hv).1, by have := (hd v hv).2.2; grind⟩, fun v hv => ⟨(hsr v hv).1, by have := (hsr v hv).2.2; grind⟩⟩
    · simp only [StrcpyFn.own, List.mem_cons, List.not_mem_nil, or_false, not_or] at no ⊢; grind
    · simp only [scr, List.mem_append, List.mem_cons, List.not_mem_nil, or_false, List.mem_map, List.mem_range, not_or, not_exists, not_and]
      exact ⟨by grind, fun i hi e => (hW i (by omega)).2.2.2 (by rw [e]; simp [StrcpyFn.own])⟩
    · simp only [scr, List.mem_append, List.mem_cons, List.not_mem_nil, or_false, List.mem_map, List.mem_range, not_or, not_exists, not_and]
      exact ⟨by grind, fun i hi e => (hW i (by omega)).2.2.2 (by rw [e]; simp [StrcpyFn.own])⟩
    · simp only [List.mem_singleton, forall_eq]
      exact ⟨hint _ (by simp [StrcpyFn.own]), hint _ (by simp [StrcpyFn.own]), io⟩
    · simp only [List.mem_cons, List.not_mem_nil, or_false, forall_eq_or_imp, forall_eq]
      exact ⟨vd.2.1, vs.2.1⟩
  refine (bcall_does hG.wf hk hF.func hb h (Q := fun σ2 => σ2.m (F.r + 348) = d.valM s ∧ ∀ y, ¬ G.Int y → y ∉ F.own → σ2.m y = cpyB s D S (n + 1) y) ?_).mono ?_
  · intro s1 e1 e2 h1
    simp only [List.mem_cons, List.not_mem_nil, or_false, forall_eq_or_imp, forall_eq] at e1
    have hon : ∀ y, y ∉ F.own → s1 y = s y := fun y hy => e2 y (by
      simp only [List.map_nil, List.nil_append, List.map_cons, List.cons_append, StrcpyFn.own, List.mem_cons, List.not_mem_nil, or_false, not_or] at hy ⊢; grind)
    refine (Does.wp (Q := fun s2 => ∃ σ2, BRep G cp σ2 s2 ∧ (σ2.m (F.r + 348) = d.valM s ∧ ∀ y, ¬ G.Int y → y ∉ F.own → σ2.m y = cpyB s D S (n + 1) y) ∧ ∀ y, ¬ G.Int y → y ∉ scr → σ2.m y = s1 y) ?_).mono fun o s2 hq => ⟨.inl hq.1, hq.2⟩
    refine Does.seq ((C37_history hG _ h1 ?_ ?_).mono fun s2 h2 => ?_)
    · simp [hF.lab.1, hF.lab.2.1]
    · exact ⟨(seekOk vs _).1 hr, (seekOk vd _).2 hw, trivial⟩
    have hD' : D < 2 ^ 32 := hDe ▸ (d.valM s).isLt
    have hS' : S < 2 ^ 32 := hSe ▸ (sr.valM s).isLt
    simp only [List.map_cons, List.map_nil, BOp.run, List.foldl_cons, List.foldl_nil, BOp.spec, valM_var, e1.1, e1.2, hDe, hSe] at h2
    let tb := [F.t + 348, F.b + 348]
    have tbo : ∀ y ∈ tb, y ∈ F.own := by simp [StrcpyFn.own, tb]
    have rs : ∀ i ≤ n, posB S i / 4 * 4 ∉ tb := fun i hi hm => (hR i hi).2.2 (tbo _ hm)
    have ws : ∀ i ≤ n, posB D i / 4 * 4 ∉ tb := fun i hi hm => (hW i hi).2.2.2 (tbo _ hm)
    have hn1 : ∀ i ≤ n, byteAt (cpyB s1 D S i) (posB S i) = byteAt (cpyB s D S i) (posB S i) := fun i hi =>
      byteAt_congr (cpyB_congr hon (fun j hj => ⟨(hR j (by omega)).2.2, (hW j (by omega)).2.2.2⟩) _ (hR i hi).2.2)
    refine Does.seq (Does.mono (Q := fun s3 => ∃ σ3, BRep G cp σ3 s3 ∧ ∀ y, y ∉ tb → σ3.m y = cpyB s1 D S (n + 1) y) ?_ ?_)
    · refine (Wp.loop (Q := fun o s3 => o = .nrm ∧ ∃ σ3, BRep G cp σ3 s3 ∧ ∀ y, y ∉ tb → σ3.m y = cpyB s1 D S (n + 1) y)
        (fun k s3 => k ≤ n ∧ ∃ σ3, BRep G cp σ3 s3 ∧ σ3.rp 0 = posB S (n - k) ∧ σ3.wp 0 = posB D (n - k) ∧ ∀ y, y ∉ tb → σ3.m y = cpyB s1 D S (n - k) y) ?_ (n := n) ⟨Nat.le_refl _, _, h2, ?_, ?_, ?_⟩).does (fun _ _ h => h.1) |>.mono fun _ h => h.2
      · rintro k s3 ⟨hk, σ3, g1, g2, g3, g4⟩
        refine Does.skip ⟨by simp, fun hh => by simp [holdsAll] at hh, fun _ => ?_⟩
        obtain ⟨r1, r2, r3⟩ := hR (n - k) (by omega)
        obtain ⟨w1, w2, w3, w4⟩ := hW (n - k) (by omega)
        have ntb : F.t + 348 ≠ F.b + 348 := by grind
        have e4 : posB D (n - k) / 4 * 4 ≠ F.t + 348 := fun e => w4 (by rw [e]; simp [StrcpyFn.own])
        have e5 : posB D (n - k) / 4 * 4 ≠ F.b + 348 := fun e => w4 (by rw [e]; simp [StrcpyFn.own])
        refine Wp.seqN ((C37_history hG _ g1 ?_ ?_).mono fun s4 h4 => ?_)
        · simp [hF.lab.2.2.1, hF.lab.2.2.2]
        · simp only [List.map_cons, List.map_nil, BOp.AllOk, BOp.Ok, BOp.spec, g2, g3, and_true]
          exact ⟨⟨hr, cell_val hG.wf vt.1, vt.2.2, vt.2.1, r1, r2⟩, ⟨cell_val hG.wf vb.1, vb.2.1, vt.src⟩, hw, vb.src, w1, w2, w3⟩
        simp only [List.map_cons, List.map_nil, BOp.run, List.foldl_cons, List.foldl_nil, BOp.spec, valM_var, get_set, if_true, g2, g3, arith, posB_next] at h4
        rw [byteAt_congr (g4 _ (rs _ (by omega))), hn1 (n - k) (by omega)] at h4
        have hbv : s4 (F.b + 348) = (byteAt (cpyB s D S (n - k)) (posB S (n - k))).setWidth 32 := by
          rw [h4.vis _ vb.2.1]
          simp only [putByte, get_set, if_neg (Ne.symm e5), if_true]
        have hm4 : ∀ y, y ∉ tb → putByte ((σ3.m.set (F.t + 348) ((byteAt (cpyB s D S (n - k)) (posB S (n - k))).setWidth 32)).set (F.b + 348) ((byteAt (cpyB s D S (n - k)) (posB S (n - k))).setWidth 32)) (posB D (n - k))
            ((((byteAt (cpyB s D S (n - k)) (posB S (n - k))).setWidth 32 : W)).setWidth 8) y = cpyB s1 D S (n - k + 1) y := by
          intro y hy
          simp only [tb, List.mem_cons, List.not_mem_nil, or_false, not_or] at hy
          rw [cpyB, hn1 _ (by omega)]
          simp only [putByte, get_set, if_neg hy.1, if_neg hy.2, if_neg e4, if_neg e5, g4 _ (ws (n - k) (by omega)), g4 y (by simp only [tb, List.mem_cons, List.not_mem_nil, or_false, not_or]; exact hy)]
          simp
        refine Wp.ite0 ?_ (fun hh => ?_) fun hh => ?_
        · simp only [List.mem_singleton, forall_eq]
          exact cMem_ok (cell_val hG.wf vb.1) _ _ _
        · simp only [holdsAll_cons, holdsAll_nil, Bool.and_true, cMem_holds, hbv, compare, decide_eq_true_eq] at hh
          rw [show (0 : W) = (0 : BitVec 8).setWidth 32 from rfl, setW_inj] at hh
          have hk0 : k = 0 := by
            cases k with
            | zero => rfl
            | succ k => exact absurd hh (hn.1 (n - (k + 1)) (by omega))
          subst hk0
          exact Wp.brk ⟨rfl, _, h4, hm4⟩
        · simp only [holdsAll_cons, holdsAll_nil, Bool.and_true, cMem_holds, hbv, compare, decide_eq_false_iff_not] at hh
          rw [show (0 : W) = (0 : BitVec 8).setWidth 32 from rfl, setW_inj] at hh
          obtain ⟨j, rfl⟩ : ∃ j, k = j + 1 := by
            cases k with
            | zero => exact absurd hn.2 hh
            | succ k => exact ⟨k, rfl⟩
          have en : n - (j + 1) + 1 = n - j := by omega
          refine Wp.skip (Does.skip ⟨j, by omega, by omega, _, h4, ?_, ?_, ?_⟩)
          · simp only [BHist.upd_self, en]
          · simp only [BHist.upd_self, en]
          · rw [← en]; exact hm4
      · simp only [BHist.upd_self, Nat.sub_self, posB_zero hS']
      · simp only [BHist.upd_self, Nat.sub_self, posB_zero hD']
      · intro y _; rw [Nat.sub_self]; rfl
    · rintro s3 ⟨σ3, g1, g2⟩
      refine Does.asg ?_ ?_ ?_
      · simp only [List.mem_singleton, forall_eq]; exact hF.cel _ (by simp)
      · simp only [List.mem_singleton, forall_eq]; rintro v ⟨⟩; exact vd.1
      · simp only [runAsg, arith, Src.valM]
        have hdd : s3 (F.dst + 348) = d.valM s := by
          rw [g1.vis _ vd.2.1, g2 _ (by simp only [tb, List.mem_cons, List.not_mem_nil, or_false, not_or]; grind), cpyB_out fun i hi e => (hW i (by omega)).2.2.2 (by rw [← e]; simp [StrcpyFn.own]), e1.1]
        have ir := hint (F.r + 348) (by simp [StrcpyFn.own])
        refine ⟨_, g1.move fun x hx => set_ne fun e => ir (e ▸ hx), ⟨by simp only [set_eq]; exact hdd, fun y hy h5 => ?_⟩, fun y hy h5 => ?_⟩
        · simp only
          rw [set_ne (fun e => h5 (by rw [e]; simp [StrcpyFn.own])), g1.vis y hy, g2 y fun hm => h5 (tbo _ hm)]
          exact cpyB_congr hon (fun i hi => ⟨(hR i (by omega)).2.2, (hW i (by omega)).2.2.2⟩) y h5
        · simp only [scr, List.mem_append, not_or, List.mem_map, List.mem_range, not_exists, not_and, List.mem_cons, List.not_mem_nil, or_false] at h5
          simp only
          rw [set_ne h5.1.1, g1.vis y hy, g2 y (by simp only [tb, List.mem_cons, List.not_mem_nil, or_false, not_or]; exact h5.1.2), cpyB_out fun i hi e => h5.2 i hi e.symm]
  · rintro s' ⟨σ2, ⟨g1, g2⟩, g3, g4, g5⟩
    refine ⟨⟨_, g3⟩, ?_, fun y hy h1 h2 => ?_⟩
    · rcases g4 _ (List.mem_singleton.2 rfl) with e | e
      · rw [e, g1]
      · exact absurd e (hint _ (by simp [StrcpyFn.own]))
    · rw [g5 y hy (by simpa using h1) (by simp only [List.map_cons, List.map_nil, List.mem_singleton]; exact fun e => h2 (by rw [e]; simp [StrcpyFn.own])), g2 y hy h2]

end
end Eud.SC
