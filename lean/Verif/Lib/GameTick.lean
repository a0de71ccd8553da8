import Verif.Lib.Read
import Verif.Lib.ByteWrite
/-
C65: `f_getgametick` (eudlib/utilf/gametick.py).

`cch` is the variable `gametick_cache`, `cnd` is the condition `_gametick_cond`, whose amount the function keeps equal to the cached tick.
`rend`, `cpc` are the end of the readers and the cache of the current player (see C32), `fr` is the variable of the result of the function.
-/

namespace Eud.SC

/-- gametick.py:21: the address of the game tick. -/
def tickAddr : Nat := 0x57F23C

/-- gametick.py:14-28.  The statement `EUDIfNot` (ctrlstru/ifelse.py) has its body in the second branch.  Line 22 reads with
`_epd_caller` (dwepdio.py:46-49) and goes on at `nxt`; line 23 writes the amount of the condition; line 26 returns. -/
def gameTick (L : Layout) (rend cpc cnd cch fr nxt : Nat) : Stmt :=
  .seq (.ite .skip [cMemV tickAddr .exactly cnd] .skip
      (.seq (.prim (EpdRel L rend cpc nxt (cch + 348) 0xFFFFFFFF 0 (.const (epd tickAddr)) none)) (.asg [⟨cnd + 8, .set, .var cch⟩])))
    (retVar fr cch)

/-- The dwords of the function. -/
structure TickOk (L : Layout) (rend cpc cnd cch fr : Nat) : Prop where
  rd : RdOk L rend cpc (cch + 348) (.const (epd tickAddr))
  cv : cch ∈ L.P.vars
  cc : L.cell (cnd + 8)
  cf : L.cell (fr + 348)
  ct : L.cell tickAddr
  nd : [fr + 348, cnd + 8, cch + 348, cpc + 348, cpc + 352, tickAddr].Nodup
  nr : ∀ x ∈ [fr + 348, cnd + 8, cch + 348, cpc + 352, tickAddr], x ∉ rdScr rend cpc

/-- What holds between calls: the condition compares with the cached tick (gametick.py:18-21: both are 0 in the map), the reader is at rest. -/
structure TickInv (rend cpc cnd cch : Nat) (s : Mem) : Prop where
  eq : s (cnd + 8) = s (cch + 348)
  md : s (cpc + 352) = pmod .set
  z : s (rend + 348) = 0

/-- **C65 (the game tick).**  For every memory that meets the invariant, whatever the game has written to the dword of the tick: the call
returns the present tick, the tick itself is unchanged, the current player is either untouched or the cached one, the invariant holds
again, and only the dwords of the function and of the reader change. -/
theorem C65_tick {L : Layout} {rend cpc cnd cch fr nxt : Nat} (hk : TickOk L rend cpc cnd cch fr) {s : Mem} (hI : TickInv rend cpc cnd cch s) :
    Wp L (gameTick L rend cpc cnd cch fr nxt) s fun o s' => o = .ret ∧ s' (fr + 348) = s tickAddr ∧ s' tickAddr = s tickAddr ∧
      (s' cpAddr = s cpAddr ∨ s' cpAddr = s (cpc + 348)) ∧ TickInv rend cpc cnd cch s' ∧
      Only ((fr + 348) :: (cnd + 8) :: (cch + 348) :: rdScr rend cpc) s s' := by
  have nd := hk.nd
  have nr := hk.nr
  have rcp : cpAddr ∈ rdScr rend cpc := by simp [rdScr]
  have r48 : rend + 348 ∈ rdScr rend cpc := by simp [rdScr]
  simp only [List.nodup_cons, List.mem_cons, not_or, List.not_mem_nil, not_false_eq_true, List.nodup_nil, and_true] at nd
  simp only [List.mem_cons, List.not_mem_nil, or_false, forall_eq_or_imp, forall_eq] at nr
  obtain ⟨nf, nc, nh, nm, nt⟩ := nr
  have et : epdAddr (epd tickAddr) = tickAddr := epdAddr_epd (by decide) (by decide)
  have key : Does L (.ite .skip [cMemV tickAddr .exactly cnd] .skip
      (.seq (.prim (EpdRel L rend cpc nxt (cch + 348) 0xFFFFFFFF 0 (.const (epd tickAddr)) none)) (.asg [⟨cnd + 8, .set, .var cch⟩]))) s fun s' =>
      s' (cch + 348) = s tickAddr ∧ (s' cpAddr = s cpAddr ∨ s' cpAddr = s (cpc + 348)) ∧ TickInv rend cpc cnd cch s' ∧
        Only ((cnd + 8) :: (cch + 348) :: rdScr rend cpc) s s' := by
    refine Does.ite0 (fun p hp => by rw [List.mem_singleton.1 hp]; exact cMemV_ok hk.ct _ _ _) (fun h => ?_) (fun h => ?_)
    · simp only [holdsAll_cons, holdsAll_nil, Bool.and_true, cMemV_holds, compare, decide_eq_true_eq] at h
      exact Does.skip ⟨by rw [← hI.eq, h], Or.inl rfl, hI, Only.refl _ _⟩
    · refine Does.seq ((C32_epd (mask := 0xFFFFFFFF) (sh := 0) (nxt := nxt) (init := none) hk.rd hI.md
        (by simp only [Src.valM, et]; exact hk.ct.2) (by simp only [Src.valM, et]; exact nt)).mono ?_)
      rintro s1 ⟨h1, h2, h3, h4⟩
      simp only [Src.valM, et, Option.getD_none, hI.z, C32_dword, BitVec.zero_add] at h1
      have h5 : s1 (cpc + 352) = pmod .set := by
        rw [h4 _ (by simp only [List.mem_cons, not_or]; exact ⟨by grind, nm⟩), hI.md]
      refine Does.asg (by simpa using hk.cc) (by simpa using hk.cv) ?_
      simp only [runAsg, Src.valM, arith]
      refine ⟨?_, Or.inr ?_, ⟨?_, ?_, ?_⟩, ?_⟩
      · rw [set_ne (by grind)]; simpa using h1
      · rw [set_ne (by grind), h2]
      · rw [set_eq, set_ne (by grind)]
      · rw [set_ne (by grind), h5]
      · rw [set_ne (by grind), h3]
      · exact (h4.mono fun x hx => List.mem_cons_of_mem _ hx).set (by simp) _
  refine Wp.seqN (key.mono ?_)
  rintro s1 ⟨h1, h2, h3, h4⟩
  have h6 : s1 tickAddr = s tickAddr := h4 _ (by simp only [List.mem_cons, not_or]; grind)
  refine Wp.seqN (Does.asg (by simpa using hk.cf) (by simpa using hk.cv) (Wp.ret ?_))
  simp only [runAsg, Src.valM, arith]
  refine ⟨trivial, by rw [set_eq, h1], ?_, ?_, ⟨?_, ?_, ?_⟩, ?_⟩
  · rw [set_ne (by grind), h6]
  · rw [set_ne (by grind)]; exact h2
  · rw [set_ne (by grind), set_ne (by grind), h3.eq]
  · rw [set_ne (by grind), h3.md]
  · rw [set_ne (by grind), h3.z]
  · exact (h4.mono fun x hx => List.mem_cons_of_mem _ hx).set (by simp) _

/-- A history: before each call the game and the rest of the map change the memory, and each call returns the tick of its own moment. -/
inductive TickTrace (L : Layout) (st : Stmt) (res : Nat) : List (Mem → Mem) → Mem → Prop
  | nil (s : Mem) : TickTrace L st res [] s
  | cons {g : Mem → Mem} {gs : List (Mem → Mem)} {s s' : Mem} (hx : Exec L st (g s) .ret s') (hr : s' res = g s tickAddr)
      (ht : TickTrace L st res gs s') : TickTrace L st res (g :: gs) s

/-- **C65 (histories).**  Calls in any number, with any changes of memory between them that leave the cache alone and the reader at rest,
all return the tick of their own moment: the cache never gives an old one. -/
theorem C65_history {L : Layout} {rend cpc cnd cch fr nxt : Nat} (hk : TickOk L rend cpc cnd cch fr) : ∀ (gs : List (Mem → Mem)) (s : Mem),
    TickInv rend cpc cnd cch s → (∀ g ∈ gs, ∀ s, ∀ x ∈ [cnd + 8, cch + 348, cpc + 352, rend + 348], g s x = s x) →
      TickTrace L (gameTick L rend cpc cnd cch fr nxt) (fr + 348) gs s
  | [], s, _, _ => .nil s
  | g :: gs, s, hI, hg => by
    have hx := hg g (by simp) s
    have hI' : TickInv rend cpc cnd cch (g s) := ⟨by rw [hx _ (by simp), hx _ (by simp), hI.eq], by rw [hx _ (by simp), hI.md], by rw [hx _ (by simp), hI.z]⟩
    obtain ⟨o, s', he, rfl, h1, -, -, h2, -⟩ := C65_tick (nxt := nxt) hk hI'
    exact .cons he h1 (C65_history hk gs s' h2 fun g' hg' => hg g' (by simp [hg']))

end Eud.SC
