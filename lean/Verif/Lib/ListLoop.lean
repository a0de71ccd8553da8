import Verif.Lib.ReadEmpty
/-
C59: going through the linked lists of the game: `EUDLoopList`, `EUDLoopBullet`, `EUDLoopUnit` (eudlib/utilf/listloop.py).
-/

namespace Eud.SC

/-! ## NodesAt lists -/

/-- Spec: from the pointer `p` on, memory holds the list of nodes `l`; the second dword of a node is the pointer to the next one, and `stop` tells which
pointers end the list. -/
inductive NodesAt (stop : W → Prop) (m : Mem) : W → List W → Prop
  | nil {p : W} : stop p → NodesAt stop m p []
  | cons {p : W} {l : List W} : ¬ stop p → NodesAt stop m (m (p.toNat + 4)) l → NodesAt stop m p (p :: l)

theorem NodesAt.congr {stop : W → Prop} {m m' : Mem} {p : W} {l : List W} (h : NodesAt stop m p l) (e : ∀ q ∈ l, m' (q.toNat + 4) = m (q.toNat + 4)) : NodesAt stop m' p l := by
  induction h with
  | nil h => exact .nil h
  | @cons p l h1 _ ih =>
    refine .cons h1 ?_
    rw [e p (by simp)]
    exact ih fun q hq => e q (by simp [hq])

/-- The nodes are determined by the memory. -/
theorem NodesAt.unique {stop : W → Prop} {m : Mem} {p : W} {l k : List W} (h : NodesAt stop m p l) (g : NodesAt stop m p k) : l = k := by
  induction h generalizing k with
  | nil h => cases g with
    | nil => rfl
    | cons h' => exact absurd h h'
  | cons h _ ih => cases g with
    | nil h' => exact absurd h' h
    | cons _ g' => rw [ih g']

/-! ## The loop, for any function that reads a pointer -/

/-- Code that reads the dword at the EPD `src`, if its address is allowed (`ok`) and what the code relies on (`rdy`) is there: it puts `f` of the dword at `p` and `g` of it at `e`. -/
def NodeRead (L : Layout) (st : Stmt) (src : Mem → W) (p e : Nat) (scr : List Nat) (rdy : Mem → Prop) (ok : Nat → Prop) (f g : W → W) : Prop :=
  ∀ s, rdy s → ok (epdAddr (src s)) → Does L st s fun s' => s' p = f (s (epdAddr (src s))) ∧ s' e = g (s (epdAddr (src s))) ∧ rdy s' ∧ Only scr s s'

/-- listloop.py:33-45, 54-62: the pointer at `p` and its EPD at `e` are read by `rd0`; then, while the condition allows it, the body runs, `e` moves on to the second dword
of the node, and both are read from there by `rd1`. -/
def walkL (e : Nat) (rd0 rd1 : Stmt) (neg : Bool) (cs : List PC) (body : Stmt) : Stmt :=
  .seq rd0 (.loop neg .skip cs body (.seq (.asg [⟨e, .add, .const 1⟩]) rd1))

/-- What can be a node. -/
structure Node (scr : List Nat) (ok : Nat → Prop) (f g : W → W) (p : W) : Prop where
  al : p.toNat % 4 = 0
  lt : p.toNat + 4 < 2 ^ 32
  ok : ok (p.toNat + 4)
  scr : p.toNat + 4 ∉ scr
  f : f p = p
  g : g p = epd p.toNat

theorem node_link {p : W} (h1 : p.toNat % 4 = 0) (h2 : p.toNat + 4 < 2 ^ 32) : epdAddr (epd p.toNat + 1) = p.toNat + 4 := by
  have e : epd p.toNat + 1 = epd (p.toNat + 4) := by
    unfold epd
    apply BitVec.eq_of_toNat_eq
    simp only [BitVec.toNat_add, BitVec.toNat_ofInt]
    have : (1 : W).toNat = 1 := rfl
    rw [this]
    omega
  rw [e, epdAddr_epd (by omega) h2]

/-- **C59.** Let the header at `h`, whose EPD is read first, lead to the list of nodes `ns`.  Let `I v` be anything that does not depend on the variables of the loop, holds for `v = []` before it, and goes over from `v` to
`v ++ [p]` whenever the body runs for the node `p` that comes after `v`, with pointer and EPD of that node in the variables; the body may change the nodes already seen in any way, but not which nodes come after `p`.  Then the loop ends, with
`I ns`: the body has run for every node once, in order.  If the body breaks or returns, the loop is left. -/
theorem C59_walk {L : Layout} {h p e : Nat} {rd0 rd1 body : Stmt} {neg : Bool} {cs : List PC} {scr : List Nat} {rdy : Mem → Prop} {ok : Nat → Prop} {f g : W → W} {stop : W → Prop} {src : Mem → W}
    (hr0 : NodeRead L rd0 src p e scr rdy ok f g) (hr1 : NodeRead L rd1 (fun s => s e) p e scr rdy ok f g)
    (hh : h % 4 = 0 ∧ h < 2 ^ 32 ∧ ok h ∧ h ∉ scr) (hce : L.cell e) (hs : e ∈ scr) (hrs : ∀ s w, rdy s → rdy (s.set e w))
    (hc : ∀ s, (∀ c ∈ cs, c.Ok L s) ∧ (holdsAll s cs = neg ↔ stop (s p))) (hst : ∀ q, stop q → f q = q)
    {ns : List W} (hn : ∀ q ∈ ns, Node scr ok f g q) {I : List W → Mem → Prop} (hI : ∀ v s s', Only scr s s' → I v s → I v s') {Q : Out → Mem → Prop}
    (hb : ∀ v q l s, ns = v ++ q :: l → I v s → rdy s → s p = q → s e = epd q.toNat → NodesAt stop s q (q :: l) → Wp L body s fun o s2 => match o with
      | .brk => Q .nrm s2
      | .ret => Q .ret s2
      | _ => I (v ++ [q]) s2 ∧ rdy s2 ∧ s2 e = epd q.toNat ∧ NodesAt stop s2 (s2 (q.toNat + 4)) l)
    (hQ : ∀ s, I ns s → Q .nrm s) {s : Mem} (he : src s = epd h) (h0 : I [] s) (hr : rdy s) (hl : NodesAt stop s (s h) ns) : Wp L (walkL e rd0 rd1 neg cs body) s Q := by
  have fx : ∀ {m : Mem} {q : W} {l : List W}, NodesAt stop m q l → (∀ x ∈ l, x ∈ ns) → f q = q ∧ (l ≠ [] → g q = epd q.toNat) := by
    intro m q l hq hl
    cases hq with
    | nil hq => exact ⟨hst _ hq, fun hn => absurd rfl hn⟩
    | cons hq _ => exact ⟨(hn _ (hl _ (by simp))).f, fun _ => (hn _ (hl _ (by simp))).g⟩
  have eh := epdAddr_epd hh.1 hh.2.1
  refine Wp.seqN (Does.mono (hr0 s hr (by rw [he, eh]; exact hh.2.2.1)) ?_)
  rintro s1 ⟨a1, a2, ar, a3⟩
  simp only [he, eh] at a1 a2
  obtain ⟨f1, f2⟩ := fx hl fun _ hx => hx
  refine Wp.loop (Q := Q) (fun n s => ∃ v l, ns = v ++ l ∧ I v s ∧ rdy s ∧ NodesAt stop s (s p) l ∧ (l ≠ [] → s e = epd (s p).toNat) ∧ n = l.length) ?_ (n := ns.length)
    ⟨[], ns, rfl, hI _ _ _ a3 h0, ar, ?_, ?_, rfl⟩
  · rintro n s2 ⟨v, l, e0, i2, r2, c2, k2, rfl⟩
    refine Does.skip ⟨(hc s2).1, fun hn' => ?_, fun hn' => ?_⟩
    · have hs2 := (hc s2).2.1 hn'
      cases c2 with
      | nil => rw [e0, List.append_nil] at hQ; exact hQ _ i2
      | cons h' => exact absurd hs2 h'
    · have hs2 : ¬ stop (s2 p) := fun h' => by
        rw [(hc s2).2.2 h'] at hn'
        cases neg <;> simp at hn'
      generalize hq : s2 p = q at c2 k2 hs2
      cases c2 with
      | nil h' => exact absurd h' hs2
      | @cons _ l h' c2 =>
        have nq := hn q (by rw [e0]; simp)
        refine Wp.mono (hb v q l s2 e0 i2 r2 hq (k2 (by simp)) (.cons h' c2)) ?_
        intro o s3 h3
        have key : I (v ++ [q]) s3 ∧ rdy s3 ∧ s3 e = epd q.toNat ∧ NodesAt stop s3 (s3 (q.toNat + 4)) l →
            Does L (.seq (.asg [⟨e, .add, .const 1⟩]) rd1) s3 (fun s3 => ∃ m, m < (q :: l).length ∧ ∃ v l, ns = v ++ l ∧ I v s3 ∧ rdy s3 ∧ NodesAt stop s3 (s3 p) l ∧ (l ≠ [] → s3 e = epd (s3 p).toNat) ∧ m = l.length) := by
          rintro ⟨i3, r3, e3, c3⟩
          refine Does.seq (Does.asg (by simpa using hce) (by simp) ?_)
          simp only [runAsg_cons, runAsg_nil, arith, Src.valM, e3]
          have o4 : Only scr s3 (s3.set e (epd q.toNat + 1)) := (Only.refl _ _).set hs _
          have ea := node_link nq.al nq.lt
          have hne : q.toNat + 4 ≠ e := fun h => nq.scr (h ▸ hs)
          refine Does.mono (hr1 (s3.set e (epd q.toNat + 1)) (hrs _ _ r3) (by simp only [set_eq, ea]; exact nq.ok)) ?_
          rintro s5 ⟨b1, b2, br, b3⟩
          simp only [set_eq, ea, set_ne hne] at b1 b2
          have o5 := o4.trans b3
          obtain ⟨g1, g2⟩ := fx c3 fun x hx => by rw [e0]; simp [hx]
          rw [g1] at b1
          refine ⟨_, Nat.lt_succ_self l.length, v ++ [q], l, by simpa using e0, hI _ _ _ o5 i3, br, ?_, ?_, rfl⟩
          · rw [b1]
            exact c3.congr fun x hx => o5 _ (hn x (by rw [e0]; simp [hx])).scr
          · intro hl'
            rw [b1, b2, g2 hl']
        cases o with
        | brk => exact h3
        | ret => exact h3
        | nrm => exact key h3
        | cont => exact key h3
  · rw [a1, f1]
    exact hl.congr fun x hx => a3 _ (hn x hx).scr
  · intro hn'
    rw [a1, f1, a2, f2 hn']

/-! ## `EUDLoopList` -/

/-- The function `f_dwepdread_epd` (dwepdio.py:19-41): its result variables, its start and end, the cache of the current player, the unit that was drawn, and where it goes on. -/
structure DwepRd where
  p : Nat
  q : Nat
  fs : Nat
  fe : Nat
  np : Nat
  cpc : Nat
  n : Nat
  u : Nat

namespace DwepRd
variable (F : DwepRd)

def body (L : Layout) : Stmt := rdBody L F.cpc F.n F.u (dwepdInits (F.p + 348) (F.q + 348)) (dwepdItems (F.p + 348) (F.q + 348))

/-- A call whose results go to `o1` and `o2`. -/
def call (L : Layout) (src : Src) (o1 o2 back : Nat) : Stmt := .prim (CallRel L F.fe F.np back (F.body L) [(F.p, o1), (F.q, o2)] [(cpAddr, src)])

/-- What a call changes. -/
def scr (o1 o2 : Nat) : List Nat := [F.np, o1, o2, F.p + 4, F.q + 4, F.p + 344, F.q + 344, cpAddr, F.cpc + 4, F.cpc + 344, F.p + 348, F.q + 348]

/-- The code is there, and its dwords are apart. -/
structure Ok (L : Layout) : Prop where
  wf : L.Wf
  cp : L.cell cpAddr
  c : L.cell (F.p + 348) ∧ L.cell (F.q + 348)
  pq : F.p ≠ F.q
  k : CpcOk L F.cpc (dwepdInits (F.p + 348) (F.q + 348))
  nc : cpAddr ≠ F.p + 348 ∧ cpAddr ≠ F.q + 348
  code : FuncCode L F.fs F.fe F.np [F.p, F.q] (F.body L)
  keep : F.cpc + 348 ∉ [F.np, F.p + 344, F.q + 344] ∧ F.cpc + 352 ∉ [F.np, F.p + 344, F.q + 344]

/-- The dword can be read: it is not part of the code or of the variables used. -/
def rd (L : Layout) (x : Nat) : Prop := ¬ L.priv x ∧ x ∉ [cpAddr, F.np, F.p + 344, F.q + 344, F.p + 348, F.q + 348]

theorem read {F : DwepRd} {L : Layout} (h : F.Ok L) {src : Src} {o1 o2 back : Nat} (hO : CallOk L F.np [(F.p, o1), (F.q, o2)] [(cpAddr, src)] (cpBackScr F.cpc ++ [F.p + 348, F.q + 348])) (hb : back < 2 ^ 32)
    (hcr : cpAddr ∉ [o1, o2, F.p + 4, F.q + 4]) (hmd : F.cpc + 352 ∉ F.scr o1 o2) :
    NodeRead L (F.call L src o1 o2 back) (fun s => src.valM s) o1 o2 (F.scr o1 o2) (fun s => s (F.cpc + 352) = pmod .set) (F.rd L) id fun w => epd w.toNat := by
  intro s hm hr
  refine Does.mono (C32_dwepdread h.wf h.cp h.c h.pq h.k h.nc hO h.code hb hm h.keep hcr hr.1 hr.2) ?_
  rintro s' ⟨h1, h2, -, h4⟩
  exact ⟨h1, h2, (h4 _ hmd).trans hm, h4⟩

end DwepRd

/-- When the loop ends: at the pointer `break_offset`, if given (listloop.py:35-36), otherwise at 0 and at pointers above 0x7FFFFFFF (listloop.py:37-38). -/
def listStop : Option W → W → Prop
  | some b, p => p = b
  | none, p => p = 0 ∨ 0x7FFFFFFF < p.toNat

/-- listloop.py:35-38 `ptr == break_offset`, and `ptr > 0`, `ptr <= 0x7FFFFFFF`. -/
def listConds (p : Nat) : Option W → List PC
  | some b => [cMem p .exactly b]
  | none => [cMem p .atLeast 1, cMem p .atMost 0x7FFFFFFF]

/-- listloop.py:27-45 `EUDLoopList(header_offset, break_offset)`; both are constants.  The variables `ptr` and `epd` have their values at `p` and `e`. -/
def loopList (L : Layout) (F : DwepRd) (h p : Nat) (ev : Nat) (bo : Option W) (b0 b1 : Nat) (body : Stmt) : Stmt :=
  walkL (ev + 348) (F.call L (.const (epd h)) p (ev + 348) b0) (F.call L (.var ev) p (ev + 348) b1) bo.isSome (listConds p bo) body

theorem listConds_spec {L : Layout} {p : Nat} (hp : L.cell p) (bo : Option W) (s : Mem) : (∀ c ∈ listConds p bo, c.Ok L s) ∧ (holdsAll s (listConds p bo) = bo.isSome ↔ listStop bo (s p)) := by
  cases bo with
  | some b =>
    refine ⟨?_, ?_⟩
    · simp only [listConds, List.mem_singleton, forall_eq]
      exact cMem_ok hp _ _ _
    · simp only [listConds, holdsAll_cons, holdsAll_nil, cMem_holds, compare, listStop, Option.isSome_some, Bool.and_true, decide_eq_true_eq]
  | none =>
    refine ⟨?_, ?_⟩
    · simp only [listConds, List.mem_cons, List.not_mem_nil, or_false, forall_eq_or_imp, forall_eq]
      exact ⟨cMem_ok hp _ _ _, cMem_ok hp _ _ _⟩
    · simp only [listConds, holdsAll_cons, holdsAll_nil, cMem_holds, compare, listStop, Option.isSome_none, Bool.and_true, Bool.and_eq_false_iff, decide_eq_false_iff_not]
      generalize s p = w
      have h1 : (1 : W).toNat = 1 := rfl
      have h2 : (0x7FFFFFFF : W).toNat = 0x7FFFFFFF := rfl
      have h0 : w = 0 ↔ w.toNat = 0 := ⟨fun e => by rw [e]; rfl, fun e => BitVec.eq_of_toNat_eq e⟩
      simp only [BitVec.le_def, h1, h2, h0]
      omega

/-- What the loop relies on. -/
structure ListOk (L : Layout) (F : DwepRd) (h p ev b0 b1 : Nat) : Prop where
  fn : F.Ok L
  cp : L.cell p
  ce : L.cell (ev + 348)
  hd : h % 4 = 0 ∧ h < 2 ^ 32 ∧ F.rd L h ∧ h ∉ F.scr p (ev + 348)
  b : b0 < 2 ^ 32 ∧ b1 < 2 ^ 32
  call0 : CallOk L F.np [(F.p, p), (F.q, ev + 348)] [(cpAddr, .const (epd h))] (cpBackScr F.cpc ++ [F.p + 348, F.q + 348])
  call1 : CallOk L F.np [(F.p, p), (F.q, ev + 348)] [(cpAddr, .var ev)] (cpBackScr F.cpc ++ [F.p + 348, F.q + 348])
  cr : cpAddr ∉ [p, ev + 348, F.p + 4, F.q + 4]
  md : F.cpc + 352 ∉ F.scr p (ev + 348)

/-- **C59 (`EUDLoopList`).** The body runs once for every node of the list, in order, with its pointer and its EPD; see `C59_walk`. -/
theorem C59_list {L : Layout} {F : DwepRd} {h p ev b0 b1 : Nat} (hO : ListOk L F h p ev b0 b1) (bo : Option W) {body : Stmt} {ns : List W}
    (hn : ∀ q ∈ ns, q.toNat % 4 = 0 ∧ q.toNat + 4 < 2 ^ 32 ∧ F.rd L (q.toNat + 4) ∧ q.toNat + 4 ∉ F.scr p (ev + 348)) {I : List W → Mem → Prop}
    (hI : ∀ v s s', Only (F.scr p (ev + 348)) s s' → I v s → I v s') {Q : Out → Mem → Prop}
    (hb : ∀ v q l s, ns = v ++ q :: l → I v s → s (F.cpc + 352) = pmod .set → s p = q → s (ev + 348) = epd q.toNat → NodesAt (listStop bo) s q (q :: l) → Wp L body s fun o s2 => match o with
      | .brk => Q .nrm s2
      | .ret => Q .ret s2
      | _ => I (v ++ [q]) s2 ∧ s2 (F.cpc + 352) = pmod .set ∧ s2 (ev + 348) = epd q.toNat ∧ NodesAt (listStop bo) s2 (s2 (q.toNat + 4)) l)
    (hQ : ∀ s, I ns s → Q .nrm s) {s : Mem} (h0 : I [] s) (hr : s (F.cpc + 352) = pmod .set) (hl : NodesAt (listStop bo) s (s h) ns) : Wp L (loopList L F h p ev bo b0 b1 body) s Q :=
  C59_walk (DwepRd.read hO.fn hO.call0 hO.b.1 hO.cr hO.md) (DwepRd.read hO.fn hO.call1 hO.b.2 hO.cr hO.md) hO.hd hO.ce (by simp [DwepRd.scr]) (fun s w g => (set_ne (show F.cpc + 352 ≠ ev + 348 from fun e => hO.md (by rw [e]; simp [DwepRd.scr]))).trans g) (listConds_spec hO.cp bo) (fun _ _ => rfl)
    (fun q hq => ⟨(hn q hq).1, (hn q hq).2.1, (hn q hq).2.2.1, (hn q hq).2.2.2, rfl, rfl⟩) hI hb hQ rfl h0 hr hl

/-! ## `EUDLoopUnit` -/

/-- specialized.py:13-18: bits 4 to 21 of a pointer to a unit vary. -/
def unitMask : W := 0x3FFFF0

/-- specialized.py:16 `0x100002 - 0x58A364 // 4` -/
def unitE0 : W := 0x100002 - BitVec.ofNat 32 (0x58A364 / 4)

/-- specialized.py:13-18: start values and functions of the results of `f_cunitepdread_epd`. -/
def unitRets (p q : Nat) : List GenRet := [⟨p, 0x400008, pow2⟩, ⟨q, unitE0, fun i => pow2 (i - 2)⟩]

/-- What is read from a dword. -/
def unitF (w : W) : W := if w = 0 then 0 else 0x400008 + bitSum w pow2 (maskBits unitMask)
def unitG (w : W) : W := if w = 0 then 0 else unitE0 + bitSum w (fun i => pow2 (i - 2)) (maskBits unitMask)

/-- Spec: the pointers to the 1700 units, which are 336 bytes long. -/
def UnitPtr (w : W) : Prop := ∃ i < 1700, w.toNat = 0x59CCA8 + 336 * i

theorem unitSum (w : W) : bitSum w (fun i => pow2 (i - 2)) (maskBits unitMask) = BitVec.ofNat 32 ((w &&& unitMask).toNat / 4) := by
  have h := bitSum_down (w &&& unitMask) 2 30 (by omega)
  have hlt := (w &&& unitMask).isLt
  rw [show (w &&& unitMask).toNat / 4 = (w &&& unitMask).toNat / 2 ^ 2 % 2 ^ 30 by omega, ← h, bitSum_mask]
  unfold maskBits
  rw [← bitSum_filter w _ (fun i => unitMask.getLsbD i) (l := List.range (2 + 30)) (by intro i _ hi; rw [hi]; rfl)]
  refine bitSum_congr w fun i hi => ?_
  simp only [List.mem_filter] at hi
  rw [if_pos hi.2]
  have : ∀ i < 2, unitMask.getLsbD i = false := by decide
  by_cases h2 : 2 ≤ i
  · rw [if_pos h2]
  · rw [this i (by omega)] at hi
    simp at hi

theorem unit_mask : ∀ i < 1700, BitVec.ofNat 32 (0x59CCA8 + 336 * i) &&& unitMask = BitVec.ofNat 32 (0x59CCA8 + 336 * i - 0x400008) := by decide +kernel

/-- For a pointer to a unit, pointer and EPD are read. -/
theorem unit_read {w : W} (h : UnitPtr w) : unitF w = w ∧ unitG w = epd w.toNat := by
  obtain ⟨i, hi, e⟩ := h
  have ew : w = BitVec.ofNat 32 (0x59CCA8 + 336 * i) := by
    apply BitVec.eq_of_toNat_eq
    rw [BitVec.toNat_ofNat, e]
    omega
  have h0 : w ≠ 0 := by
    rintro rfl
    have : (0 : W).toNat = 0 := rfl
    omega
  have hm := unit_mask i hi
  rw [← ew] at hm
  have e1 : (0x400008 : W).toNat = 0x400008 := rfl
  have e2 : unitE0.toNat = 2 ^ 32 + 0x100002 - 0x58A364 / 4 := rfl
  refine ⟨?_, ?_⟩
  · unfold unitF
    rw [if_neg h0, gen_mask, hm]
    apply BitVec.eq_of_toNat_eq
    rw [BitVec.toNat_add, BitVec.toNat_ofNat, e1, e]
    omega
  · unfold unitG
    rw [if_neg h0, unitSum, hm]
    unfold epd
    apply BitVec.eq_of_toNat_eq
    rw [BitVec.toNat_add, e2, BitVec.toNat_ofNat, BitVec.toNat_ofNat, BitVec.toNat_ofInt, e]
    rw [Nat.mod_eq_of_lt (a := 0x59CCA8 + 336 * i - 0x400008) (by omega), Nat.mod_eq_of_lt (a := (0x59CCA8 + 336 * i - 0x400008) / 4) (by omega)]
    omega

/-- The function `f_cunitepdread_epd`: result variables, start and end, cache of the current player; the trigger that checks for 0, where it goes on, and the end of the bit tests. -/
structure UnRd where
  p : Nat
  q : Nat
  fs : Nat
  fe : Nat
  np : Nat
  cpc : Nat
  n : Nat
  chk : Nat
  ini : Nat
  fin : Nat

namespace UnRd
variable (F : UnRd)

def rs : List GenRet := unitRets (F.p + 348) (F.q + 348)

def body (L : Layout) : Stmt := emBody L F.cpc F.n F.chk F.ini F.fin (genInits F.rs) (genItems (maskBits unitMask) F.rs)

def call (L : Layout) (src : Src) (o1 o2 back : Nat) : Stmt := .prim (CallRel L F.fe F.np back (F.body L) [(F.p, o1), (F.q, o2)] [(cpAddr, src)])

/-- What the body changes. -/
def own : List Nat := (F.chk + 4) :: cpBackScr F.cpc ++ [F.p + 348, F.q + 348]

def scr (o1 o2 : Nat) : List Nat := callOnly F.np [(F.p, o1), (F.q, o2)] [(cpAddr, .const 0)] F.own

/-- The modifier of the cache, and where the check goes on. -/
def Rdy (s : Mem) : Prop := s (F.cpc + 352) = pmod .set ∧ s (F.chk + 4) = BitVec.ofNat 32 F.ini

structure Ok (L : Layout) : Prop where
  wf : L.Wf
  cp : L.cell cpAddr
  c : L.cell (F.p + 348) ∧ L.cell (F.q + 348)
  pq : F.p ≠ F.q
  k : CpcOk L F.cpc (genInits F.rs)
  ch : ChkOk L F.cpc F.chk (genInits F.rs)
  nc : cpAddr ≠ F.p + 348 ∧ cpAddr ≠ F.q + 348
  code : FuncCode L F.fs F.fe F.np [F.p, F.q] (F.body L)
  keep : ∀ y ∈ [F.cpc + 348, F.cpc + 352, F.chk + 4], y ∉ [F.np, F.p + 344, F.q + 344]
  ret : ∀ y ∈ [cpAddr, F.chk + 4], y ∉ [F.p + 4, F.q + 4]

def rd (L : Layout) (x : Nat) : Prop := ¬ L.priv x ∧ x ∉ [cpAddr, F.np, F.p + 344, F.q + 344, F.p + 348, F.q + 348]

theorem read {F : UnRd} {L : Layout} (h : F.Ok L) {src : Src} {o1 o2 back : Nat} (hO : CallOk L F.np [(F.p, o1), (F.q, o2)] [(cpAddr, src)] F.own) (hb : back < 2 ^ 32)
    (ho : ∀ y ∈ [cpAddr, F.chk + 4, F.cpc + 352], y ∉ [o1, o2]) {s : Mem} (hr : F.Rdy s) (hrd : F.rd L (epdAddr (src.valM s))) :
    Does L (F.call L src o1 o2 back) s fun s' => s' o1 = unitF (s (epdAddr (src.valM s))) ∧ s' o2 = unitG (s (epdAddr (src.valM s))) ∧ s' cpAddr = s (F.cpc + 348) ∧ s' (F.chk + 4) = BitVec.ofNat 32 F.ini ∧ Only (F.scr o1 o2) s s' := by
  have k1 := h.ret cpAddr (by simp)
  have k2 := h.ret (F.chk + 4) (by simp)
  have j1 := ho cpAddr (by simp)
  have j2 := ho (F.chk + 4) (by simp)
  simp only [List.mem_cons, List.not_mem_nil, or_false, not_or] at k1 k2 j1 j2
  refine Does.mono (C32_readgen_empty (mask := unitMask) (rs := F.rs) (outs := [(F.p, o1), (F.q, o2)]) h.wf h.cp ?_ ?_ h.k h.ch ?_ hO h.code hb hr.1 hr.2 h.keep ?_ ?_ hrd.1 hrd.2) ?_
  · have := h.pq
    simp [rs, unitRets]
    exact this
  · intro r hr'
    simp only [rs, unitRets, List.mem_cons, List.not_mem_nil, or_false] at hr'
    rcases hr' with rfl | rfl
    · exact ⟨h.c.1, Ne.symm h.nc.1⟩
    · exact ⟨h.c.2, Ne.symm h.nc.2⟩
  · simp [rs, unitRets]
  · simp only [List.map_cons, List.map_nil, List.cons_append, List.nil_append, List.mem_cons, List.not_mem_nil, or_false, not_or]
    exact ⟨j1.1, j1.2, k1.1, k1.2⟩
  · simp only [List.map_cons, List.map_nil, List.cons_append, List.nil_append, List.mem_cons, List.not_mem_nil, or_false, not_or]
    exact ⟨j2.1, j2.2, k2.1, k2.2⟩
  · rintro s' ⟨h1, h2, h3, h4⟩
    have m1 : (⟨F.p + 348, 0x400008, pow2⟩ : GenRet) ∈ F.rs := List.mem_cons_self ..
    have m2 : (⟨F.q + 348, unitE0, fun i => pow2 (i - 2)⟩ : GenRet) ∈ F.rs := List.mem_cons_of_mem _ (List.mem_cons_self ..)
    refine ⟨?_, ?_, h2, h3, h4⟩
    · have := h1 (F.p, o1) (by simp) _ m1 rfl
      rwa [← unitF] at this
    · have := h1 (F.q, o2) (by simp) _ m2 rfl
      rwa [← unitG] at this

end UnRd

/-- listloop.py:51-63 `EUDLoopUnit()`; the header is at 0x628430. -/
def loopUnit (L : Layout) (F : UnRd) (h p ev b0 b1 : Nat) (body : Stmt) : Stmt :=
  walkL (ev + 348) (F.call L (.const (epd h)) p (ev + 348) b0) (F.call L (.var ev) p (ev + 348) b1) true [cMem p .exactly 0] body

structure UnitOk (L : Layout) (F : UnRd) (h p ev b0 b1 : Nat) : Prop where
  fn : F.Ok L
  cp : L.cell p
  ce : L.cell (ev + 348)
  hd : h % 4 = 0 ∧ h < 2 ^ 32 ∧ F.rd L h ∧ h ∉ F.scr p (ev + 348)
  b : b0 < 2 ^ 32 ∧ b1 < 2 ^ 32
  call0 : CallOk L F.np [(F.p, p), (F.q, ev + 348)] [(cpAddr, .const (epd h))] F.own
  call1 : CallOk L F.np [(F.p, p), (F.q, ev + 348)] [(cpAddr, .var ev)] F.own
  ho : ∀ y ∈ [cpAddr, F.chk + 4, F.cpc + 352], y ∉ [p, ev + 348]
  md : F.cpc + 352 ∉ F.scr p (ev + 348)

/-- **C59 (`EUDLoopUnit`).** The body runs once for every unit of the list, in order, with its pointer and its EPD; see `C59_walk`. -/
theorem C59_unit {L : Layout} {F : UnRd} {h p ev b0 b1 : Nat} (hO : UnitOk L F h p ev b0 b1) {body : Stmt} {ns : List W}
    (hn : ∀ q ∈ ns, UnitPtr q ∧ F.rd L (q.toNat + 4) ∧ q.toNat + 4 ∉ F.scr p (ev + 348)) {I : List W → Mem → Prop}
    (hI : ∀ v s s', Only (F.scr p (ev + 348)) s s' → I v s → I v s') {Q : Out → Mem → Prop}
    (hb : ∀ v q l s, ns = v ++ q :: l → I v s → F.Rdy s → s p = q → s (ev + 348) = epd q.toNat → NodesAt (· = 0) s q (q :: l) → Wp L body s fun o s2 => match o with
      | .brk => Q .nrm s2
      | .ret => Q .ret s2
      | _ => I (v ++ [q]) s2 ∧ F.Rdy s2 ∧ s2 (ev + 348) = epd q.toNat ∧ NodesAt (· = 0) s2 (s2 (q.toNat + 4)) l)
    (hQ : ∀ s, I ns s → Q .nrm s) {s : Mem} (h0 : I [] s) (hr : F.Rdy s) (hl : NodesAt (· = 0) s (s h) ns) : Wp L (loopUnit L F h p ev b0 b1 body) s Q := by
  have hread : ∀ {src : Src} {b : Nat}, b < 2 ^ 32 → CallOk L F.np [(F.p, p), (F.q, ev + 348)] [(cpAddr, src)] F.own →
      NodeRead L (F.call L src p (ev + 348) b) (fun s => src.valM s) p (ev + 348) (F.scr p (ev + 348)) F.Rdy (F.rd L) unitF unitG := by
    intro src b hb' hc s hr hrd
    refine Does.mono (UnRd.read hO.fn hc hb' hO.ho hr hrd) ?_
    rintro s' ⟨h1, h2, -, h4, h5⟩
    exact ⟨h1, h2, ⟨(h5 _ hO.md).trans hr.1, h4⟩, h5⟩
  have m1 := hO.ho (F.chk + 4) (by simp)
  have m2 := hO.ho (F.cpc + 352) (by simp)
  simp only [List.mem_cons, List.not_mem_nil, or_false, not_or] at m1 m2
  refine C59_walk (hread (src := .const (epd h)) hO.b.1 hO.call0) (hread (src := .var ev) hO.b.2 hO.call1) hO.hd hO.ce (by simp [UnRd.scr, callOnly])
    (fun s w g => ⟨(set_ne m2.2).trans g.1, (set_ne m1.2).trans g.2⟩) ?_ ?_ (fun q hq => ?_) hI hb hQ rfl h0 hr hl
  · intro s
    refine ⟨by simp only [List.mem_singleton, forall_eq]; exact cMem_ok hO.cp _ _ _, ?_⟩
    simp only [holdsAll_cons, holdsAll_nil, cMem_holds, compare, Bool.and_true, decide_eq_true_eq]
  · rintro q rfl
    rfl
  · obtain ⟨u1, u2, u3⟩ := hn q hq
    obtain ⟨r1, r2⟩ := unit_read u1
    obtain ⟨i, hi, e⟩ := u1
    exact ⟨by omega, by omega, u2, u3, r1, r2⟩

/-! ## `EUDLoopSprite` -/

/-- Spec: the headers of the 256 lists of sprites, one for each row of the map. -/
def rowAt (r : Nat) : Nat := 0x629688 + 4 * r

/-- listloop.py:272-289 `EUDLoopSprite`; the variable `y_epd` is `y`.  `y_epd < n` is `AtMost(n - 1)` (eudv.py:608). -/
def loopSprite (L : Layout) (F : DwepRd) (y p ev b0 b1 : Nat) (body : Stmt) : Stmt :=
  .seq (.asg [⟨y + 348, .set, .const (epd 0x629688)⟩])
    (.loop false .skip [cMem (y + 348) .atMost (epd 0x629688 + 255)]
      (.seq (walkL (ev + 348) (F.call L (.var y) p (ev + 348) b0) (F.call L (.var ev) p (ev + 348) b1) false [cMem p .atLeast 1] body) (.asg [⟨y + 348, .add, .const 1⟩])) .skip)

/-- What the loop relies on. -/
structure SprOk (L : Layout) (F : DwepRd) (y p ev b0 b1 : Nat) : Prop where
  fn : F.Ok L
  cp : L.cell p
  ce : L.cell (ev + 348)
  cy : L.cell (y + 348)
  hd : ∀ r < 256, F.rd L (rowAt r) ∧ rowAt r ∉ (y + 348) :: F.scr p (ev + 348)
  b : b0 < 2 ^ 32 ∧ b1 < 2 ^ 32
  call0 : CallOk L F.np [(F.p, p), (F.q, ev + 348)] [(cpAddr, .var y)] (cpBackScr F.cpc ++ [F.p + 348, F.q + 348])
  call1 : CallOk L F.np [(F.p, p), (F.q, ev + 348)] [(cpAddr, .var ev)] (cpBackScr F.cpc ++ [F.p + 348, F.q + 348])
  cr : cpAddr ∉ [p, ev + 348, F.p + 4, F.q + 4]
  md : F.cpc + 352 ∉ (y + 348) :: F.scr p (ev + 348)
  ys : y + 348 ∉ F.scr p (ev + 348)

/-- What must be true in the row `r` besides the assertion of the user: the number of the row and the lists of the rows from `k` on are there. -/
structure SprAt (F : DwepRd) (y : Nat) (ns : Nat → List W) (r k : Nat) (s : Mem) : Prop where
  md : s (F.cpc + 352) = pmod .set
  y : s (y + 348) = epd (rowAt r)
  rows : ∀ j, k ≤ j → j < 256 → NodesAt (· = 0) s (s (rowAt j)) (ns j)

theorem SprAt.only {L : Layout} {F : DwepRd} {y p ev b0 b1 : Nat} (hO : SprOk L F y p ev b0 b1) {ns : Nat → List W}
    (hn : ∀ r < 256, ∀ q ∈ ns r, q.toNat + 4 ∉ (y + 348) :: F.scr p (ev + 348)) {r k : Nat} {s s' : Mem} (ho : Only (F.scr p (ev + 348)) s s') (h : SprAt F y ns r k s) : SprAt F y ns r k s' := by
  refine ⟨(ho _ fun hh => hO.md (List.mem_cons_of_mem _ hh)).trans h.md, (ho _ hO.ys).trans h.y, fun j h1 h2 => ?_⟩
  rw [ho _ fun hh => (hO.hd j h2).2 (List.mem_cons_of_mem _ hh)]
  exact (h.rows j h1 h2).congr fun q hq => ho _ fun hh => hn j h2 q hq (List.mem_cons_of_mem _ hh)

/-- **C59 (`EUDLoopSprite`).** The body runs once for every sprite, row by row and in the order of the lists, with its pointer and its EPD.  `I r v` is what is known in the row `r` after the sprites `v`
of this row.  `EUDBreak` does not leave the loop: it goes on with the next row. -/
theorem C59_sprite {L : Layout} {F : DwepRd} {y p ev b0 b1 : Nat} (hO : SprOk L F y p ev b0 b1) {body : Stmt} {ns : Nat → List W}
    (hn : ∀ r < 256, ∀ q ∈ ns r, q.toNat % 4 = 0 ∧ q.toNat + 4 < 2 ^ 32 ∧ F.rd L (q.toNat + 4) ∧ q.toNat + 4 ∉ (y + 348) :: F.scr p (ev + 348)) {I : Nat → List W → Mem → Prop}
    (hI : ∀ r v s s', Only ((y + 348) :: F.scr p (ev + 348)) s s' → I r v s → I r v s') {Q : Out → Mem → Prop}
    (hb : ∀ r v q l s, r < 256 → ns r = v ++ q :: l → I r v s → SprAt F y ns r (r + 1) s → s p = q → s (ev + 348) = epd q.toNat → NodesAt (· = 0) s q (q :: l) → Wp L body s fun o s2 => match o with
      | .brk => I (r + 1) [] s2 ∧ SprAt F y ns r (r + 1) s2
      | .ret => Q .ret s2
      | _ => I r (v ++ [q]) s2 ∧ SprAt F y ns r (r + 1) s2 ∧ s2 (ev + 348) = epd q.toNat ∧ NodesAt (· = 0) s2 (s2 (q.toNat + 4)) l)
    (hr : ∀ r s, r < 256 → I r (ns r) s → I (r + 1) [] s) (hQ : ∀ s, I 256 [] s → Q .nrm s) {s : Mem} (h0 : I 0 [] s) (hm : s (F.cpc + 352) = pmod .set)
    (hl : ∀ r < 256, NodesAt (· = 0) s (s (rowAt r)) (ns r)) : Wp L (loopSprite L F y p ev b0 b1 body) s Q := by
  have row : ∀ r, epd 0x629688 + BitVec.ofNat 32 r = epd (rowAt r) := by
    intro r
    unfold epd rowAt
    apply BitVec.eq_of_toNat_eq
    simp only [BitVec.toNat_add, BitVec.toNat_ofInt, BitVec.toNat_ofNat]
    omega
  have yset : ∀ {s : Mem} {r k k' : Nat} (r' : Nat), k ≤ k' → SprAt F y ns r k s → SprAt F y ns r' k' (s.set (y + 348) (epd (rowAt r'))) := by
    intro s r k k' r' hk h
    refine ⟨(set_ne fun e => hO.md (by rw [e]; simp)).trans h.md, set_eq .., fun j h1 h2 => ?_⟩
    rw [set_ne fun e => (hO.hd j h2).2 (by rw [e]; simp)]
    exact (h.rows j (by omega) h2).congr fun q hq => set_ne fun e => (hn j h2 q hq).2.2.2 (by rw [e]; simp)
  have yonly : ∀ (s : Mem) (w : W), Only ((y + 348) :: F.scr p (ev + 348)) s (s.set (y + 348) w) := fun s w => (Only.refl _ _).set (by simp) _
  refine Wp.seqN (Does.asg (by simpa using hO.cy) (by simp) ?_)
  simp only [runAsg_cons, runAsg_nil, arith, Src.valM]
  refine Wp.loop (fun n s => ∃ r, n + r = 256 ∧ I r [] s ∧ SprAt F y ns r r s) ?_ (n := 256) ⟨0, rfl, hI _ _ _ _ (yonly s _) h0, ?_⟩
  · rintro n s1 ⟨r, hn', i1, a1⟩
    have hst : holdsAll s1 [cMem (y + 348) .atMost (epd 0x629688 + 255)] = decide (r < 256) := by
      simp only [holdsAll_cons, holdsAll_nil, Bool.and_true, cMem_holds, compare, a1.y, ← row]
      rw [decide_eq_decide]
      have e1 : (epd 0x629688 + BitVec.ofNat 32 r).toNat = 0x27CC9 + r := by
        rw [BitVec.toNat_add, show (epd 0x629688).toNat = 0x27CC9 by decide, BitVec.toNat_ofNat]
        omega
      have e2 : (epd 0x629688 + 255).toNat = 0x27CC9 + 255 := by decide
      rw [BitVec.le_def, e1, e2]
      omega
    refine Does.skip ⟨by simp only [List.mem_singleton, forall_eq]; exact cMem_ok hO.cy _ _ _, fun h => ?_, fun h => ?_⟩
    · rw [hst, decide_eq_false_iff_not] at h
      have : r = 256 := by omega
      subst this
      exact hQ _ i1
    · rw [hst, Bool.not_false, decide_eq_true_eq] at h
      have hmd : F.cpc + 352 ∉ F.scr p (ev + 348) := fun hh => hO.md (List.mem_cons_of_mem _ hh)
      have inner := C59_walk (h := rowAt r) (stop := (· = 0)) (neg := false) (cs := [cMem p .atLeast 1]) (body := body) (ns := ns r) (I := fun v s => I r v s ∧ SprAt F y ns r (r + 1) s)
        (Q := fun o s => match o with | .nrm => I (r + 1) [] s ∧ SprAt F y ns r (r + 1) s | .ret => Q .ret s | _ => False) (s := s1)
        (DwepRd.read hO.fn hO.call0 hO.b.1 hO.cr hmd) (DwepRd.read hO.fn hO.call1 hO.b.2 hO.cr hmd)
        ⟨by unfold rowAt; omega, by unfold rowAt; omega, (hO.hd r h).1, fun hh => (hO.hd r h).2 (List.mem_cons_of_mem _ hh)⟩ hO.ce (by simp [DwepRd.scr])
        (fun s w g => (set_ne (show F.cpc + 352 ≠ ev + 348 from fun e => hmd (by rw [e]; simp [DwepRd.scr]))).trans g) ?_ (fun _ _ => rfl)
        (fun q hq => ⟨(hn r h q hq).1, (hn r h q hq).2.1, (hn r h q hq).2.2.1, fun hh => (hn r h q hq).2.2.2 (List.mem_cons_of_mem _ hh), rfl, rfl⟩) ?_ ?_ ?_ (by simp only [Src.valM]; exact a1.y) ⟨i1, a1.md, a1.y, fun j h1 h2 => a1.rows j (by omega) h2⟩ a1.md (a1.rows r (by omega) h)
      · refine Wp.seq (Wp.mono inner ?_)
        intro o s2 h2
        cases o with
        | nrm =>
          refine Eq.mpr (if_pos rfl) (Wp.mono (Does.wp (Does.asg (Q := fun s3 => Does L .skip s3 fun s3 => ∃ m, m < n ∧ ∃ r, m + r = 256 ∧ I r [] s3 ∧ SprAt F y ns r r s3) (by simpa using hO.cy) (by simp) ?_)) ?_)
          · simp only [runAsg_cons, runAsg_nil, arith, Src.valM, h2.2.y]
            have e : epd (rowAt r) + 1 = epd (rowAt (r + 1)) := by rw [← row, ← row, BitVec.add_assoc, BitVec.ofNat_add]; rfl
            rw [e]
            exact Does.skip ⟨n - 1, by omega, r + 1, by omega, hI _ _ _ _ (yonly _ _) h2.1, yset _ (Nat.le_refl _) h2.2⟩
          · rintro o s3 ⟨rfl, h3⟩
            exact h3
        | ret => exact Eq.mpr (if_neg (by simp)) h2
        | brk => exact h2.elim
        | cont => exact h2.elim
      · intro s2
        refine ⟨by simp only [List.mem_singleton, forall_eq]; exact cMem_ok hO.cp _ _ _, ?_⟩
        simp only [holdsAll_cons, holdsAll_nil, Bool.and_true, cMem_holds, compare, decide_eq_false_iff_not]
        generalize s2 p = w
        have h1 : (1 : W).toNat = 1 := rfl
        have h0 : w = 0 ↔ w.toNat = 0 := ⟨fun e => by rw [e]; rfl, fun e => BitVec.eq_of_toNat_eq e⟩
        simp only [BitVec.le_def, h1, h0]
        omega
      · rintro v s2 s3 ho ⟨i2, a2⟩
        exact ⟨hI _ _ _ _ (fun x hx => ho x fun hh => hx (List.mem_cons_of_mem _ hh)) i2, a2.only hO (fun r hr q hq => (hn r hr q hq).2.2.2) ho⟩
      · rintro v q l s2 e0 ⟨i2, a2⟩ m2 p2 e2 c2
        refine Wp.mono (hb r v q l s2 h e0 i2 a2 p2 e2 c2) ?_
        intro o s3 h3
        cases o with
        | brk => exact h3
        | ret => exact h3
        | nrm => exact ⟨⟨h3.1, h3.2.1⟩, h3.2.1.md, h3.2.2⟩
        | cont => exact ⟨⟨h3.1, h3.2.1⟩, h3.2.1.md, h3.2.2⟩
      · rintro s2 ⟨i2, a2⟩
        exact ⟨hr r s2 h i2, a2⟩
  · refine ⟨(set_ne fun e => hO.md (by rw [e]; simp)).trans hm, set_eq .., fun j h1 h2 => ?_⟩
    rw [set_ne fun e => (hO.hd j h2).2 (by rw [e]; simp)]
    exact (hl j h2).congr fun q hq => set_ne fun e => (hn j h2 q hq).2.2.2 (by rw [e]; simp)

end Eud.SC
