import Verif.Machine.Var
/-
C19: `SeqCompute` and `VProc` (core/variable/eudv.py:666-853).

`SeqCompute` compiles a list of assignments `(dst, modifier, src)` into triggers.  A
constant source becomes one action; a variable source is executed as a trigger of its
own, after its destination, modifier and `nextptr` were set by the emitted trigger.
Destination, modifier and `nextptr` actions that repeat what an earlier trigger of the
same call already set are dropped.
-/

namespace Eud.SC

/-! ## Model of the compiler -/

/-- Destination of an assignment: an EUD variable, or another Python object (an integer
or a constant expression), known by its identity. -/
inductive DRef
  | var (v : Nat)
  | obj (id : Nat)
deriving DecidableEq

/-- What the Python objects are: their EPD value and their truth value. -/
structure Env where
  val : Nat → W
  truthy : Nat → Bool

/-- eudv.py:696-700 `_get_computedest`: `EPD(dst.getValueAddr())` for variables. -/
def DRef.epd (E : Env) : DRef → W
  | .var v => Eud.SC.epd (v + 348)
  | .obj i => E.val i

def DRef.truthy (E : Env) : DRef → Bool
  | .var _ => true
  | .obj i => E.truthy i

inductive Src
  | const (w : W)
  | var (v : Nat)
deriving DecidableEq

structure Pair where
  dst : Option DRef
  mdt : Option Mod
  src : Src
deriving DecidableEq

/-- An assignment from a variable. -/
structure VPair where
  dst : Option DRef
  mdt : Option Mod
  v : Nat

/-- eudv.py `_srcdict`: last destination, modifier and next variable set for a source. -/
abbrev Cache := Nat → Option (Option DRef × Option Mod × Option Nat)

/-- `dst is prev_dst` after `_get_computedest`, which makes a new object for every
variable. -/
def sameObj : Option DRef → Option DRef → Bool
  | some (.obj i), some (.obj j) => i == j
  | none, none => true
  | _, _ => false

/-- eudv.py:739-760 `remove_duplicate_actions`: actions and new cache entry for one
source; `next` is the next source if there is one, `stop` the label after the block. -/
def varActs (E : Env) (c : Cache) (p : VPair) (next : Option Nat) (stop : Nat) :
    List Act × (Option DRef × Option Mod × Option Nat) :=
  let (pd, pm, pn) := (c p.v).getD (none, none, none)
  ((match p.dst with
    | some d => if sameObj p.dst pd = false ∧ d.truthy E = true then [setDest p.v (d.epd E)] else []
    | none => []) ++
   (match p.mdt with
    | some md => if p.mdt ≠ pm then [setModifier p.v md] else []
    | none => []) ++
   (if next.isSome ∧ pn = next then [] else [setNext p.v (next.getD stop)]),
   ((match p.dst with | some d => if d.truthy E = true then some d else pd | none => pd),
    (match p.mdt with | some md => some md | none => pm), next))

/-- eudv.py:762-779: all sources of one trigger. -/
def subActs (E : Env) (stop : Nat) : Cache → List VPair → List Act × Cache
  | c, [] => ([], c)
  | c, p :: ps =>
    let r := varActs E c p (ps.head?.map (·.v)) stop
    let rest := subActs E stop (fun x => if x = p.v then some r.2 else c x) ps
    (r.1 ++ rest.1, rest.2)

/-- eudv.py:729-731: an assignment from a constant, `SetDeaths(dst, mdt, src, 0)`. -/
def constAct (E : Env) (p : Pair) : Option Act :=
  match p.dst, p.mdt, p.src with
  | some d, some md, .const w => (dstOf (d.epd E) 0).map fun x => ⟨x, md, w, 0xFFFFFFFF⟩
  | _, _, _ => none

def toVar (p : Pair) : Option VPair :=
  match p.src with
  | .var v => some ⟨p.dst, p.mdt, v⟩
  | .const _ => none

def Pair.isConst (p : Pair) : Bool := match p.src with | .const _ => true | .var _ => false

/-- eudv.py:703-779 `_seqcompute_sub`: one trigger at `t`, continuing at `stop`; fails
when there are more than 64 actions (rawtriggerdef.py:136). -/
def emitSub (E : Env) (c : Cache) (ps : List Pair) (t stop : Nat) : Option (Blk × Cache) := do
  let cs ← (ps.takeWhile Pair.isConst).mapM (constAct E)
  let vs ← (ps.dropWhile Pair.isConst).mapM toVar
  let r := subActs E stop c vs
  let acts := cs ++ r.1
  if acts.length ≤ 64 then
    some (⟨t, ⟨[], acts⟩, some ((vs.head?.map (·.v)).getD stop)⟩, r.2)
  else none

/-- State of the grouping loop (eudv.py:782-853). -/
structure Group where
  srcs : List Nat
  constc : Bool
  count : Nat
  sub : List Pair
  dict : Nat → Option (Option DRef × Option Mod)
  out : List (List Pair)

/-- eudv.py:800-812 `flush_pairs` -/
def Group.flush (g : Group) : Group :=
  if g.count = 0 then g
  else { g with srcs := [], constc := true, count := 0, sub := [], out := g.out ++ [g.sub] }

/-- eudv.py:814-853: one pass of the loop over the assignments. -/
def Group.step (g : Group) (p : Pair) : Group :=
  match p.src with
  | .var v =>
    let g := if v ∈ g.srcs then g.flush else if g.count ≥ 61 then g.flush else g
    let dec := match g.dict v with
      | none => 0
      | some (pd, pm) => (if p.dst = pd then 1 else 0) + (if p.mdt = pm then 1 else 0)
    { g with
      srcs := v :: g.srcs, constc := false, count := g.count + 3 - dec
      dict := fun x => if x = v then some (p.dst, p.mdt) else g.dict x
      sub := g.sub ++ [p] }
  | .const _ =>
    let g := if g.constc = false then g.flush else if g.count ≥ 61 then g.flush else g
    { g with count := g.count + 1, sub := g.sub ++ [p] }

/-- The groups of assignments that `SeqCompute` puts into one trigger each. -/
def group (ps : List Pair) : List (List Pair) :=
  ((ps.foldl Group.step ⟨[], true, 0, [], fun _ => none, []⟩).flush).out

/-- Emit the groups; the `k`-th trigger gets address `ts k`. -/
def emitAll (E : Env) (ts : Nat → Nat) : Nat → Cache → List (List Pair) → Option (List Blk)
  | _, _, [] => some []
  | k, c, g :: gs => do
    let (b, c') ← emitSub E c g (ts k) (ts (k + 1))
    let bs ← emitAll E ts (k + 1) c' gs
    some (b :: bs)

/-- eudv.py:782-853 `SeqCompute` -/
def seqCompute (E : Env) (ts : Nat → Nat) (ps : List Pair) : Option (List Blk) :=
  emitAll E ts 0 (fun _ => none) (group ps)

/-! ## Specification: the assignments one after the other -/

/-- Set the variable's own destination and modifier when given. -/
def ctl (E : Env) (dst : Option DRef) (mdt : Option Mod) (v : Nat) (m : Mem) : Mem :=
  let m1 := match dst with | some d => m.set (v + 344) (d.epd E) | none => m
  match mdt with
  | some md => m1.set (v + 352) (modify .set (m1 (v + 352)) (md.code.setWidth 32 <<< 24) 0xFF000000)
  | none => m1

/-- The effect of one assignment and the address it writes. -/
def specPair (E : Env) (p : Pair) (m : Mem) : Option (Mem × Nat) :=
  match p.src with
  | .const w =>
    match p.dst, p.mdt with
    | some d, some md => (dstOf (d.epd E) 0).map fun x =>
        (m.set (x.addr m) (arith md (m (x.addr m)) w), x.addr m)
    | _, _ => none
  | .var v =>
    let m1 := ctl E p.dst p.mdt v m
    match varMod m1 v, varDst m1 v with
    | some md, some x => some (m1.set (x.addr m1) (modify md (m1 (x.addr m1)) (m1 (v + 348)) (m1 (v + 328))), x.addr m1)
    | _, _ => none

/-- All assignments in order: final memory and all addresses written. -/
def specRun (E : Env) : List Pair → Mem → Option (Mem × List Nat)
  | [], m => some (m, [])
  | p :: ps, m => do
    let (m1, a) ← specPair E p m
    let (m2, as) ← specRun E ps m1
    some (m2, a :: as)

/-- The variables read by the assignments. -/
def srcVars : List Pair → List Nat
  | [] => []
  | p :: ps => match p.src with | .var v => v :: srcVars ps | .const _ => srcVars ps

/-- Dwords that control a variable used as a source. -/
def ctlFoot (S : List Nat) (x : Nat) : Prop :=
  ∃ v ∈ S, x = v + 4 ∨ x = v + 20 ∨ x = v + 344 ∨ x = v + 352 ∨ x = v + 356 ∨ x = v + 384 ∨ x = v + 2376

def nextFoot (S : List Nat) (x : Nat) : Prop := ∃ v ∈ S, x = v + 4

/-- Assumptions about the source variables: they are variables, do not clash with each
other, with the code or with the current player cell, and have 32-bit addresses. -/
structure SrcsOK (m : Mem) (S : List Nat) (F : Nat → Prop) : Prop where
  var : ∀ v ∈ S, VarAt m v
  sep : ∀ v ∈ S, ∀ w ∈ S, VSep v w
  lt : ∀ v ∈ S, v < 2 ^ 32
  code : ∀ v ∈ S, ¬ F (v + 4) ∧ ¬ F (v + 344) ∧ ¬ F (v + 352)
  cp : ∀ v ∈ S, cpAddr ≠ v + 344 ∧ cpAddr ≠ v + 352 ∧ cpAddr ≠ v + 4

/-! ## Proof -/

theorem ctl_other {E : Env} {d : Option DRef} {md : Option Mod} {v : Nat} {m : Mem} {x : Nat}
    (h1 : x ≠ v + 344) (h2 : x ≠ v + 352) : ctl E d md v m x = m x := by
  unfold ctl
  cases d <;> cases md <;> simp [Mem.set, h1, h2]

theorem ctl_dest {E : Env} {d : Option DRef} {md : Option Mod} {v : Nat} {m : Mem} :
    ctl E d md v m (v + 344) = match d with | some r => r.epd E | none => m (v + 344) := by
  unfold ctl
  cases d <;> cases md <;> simp [Mem.set]

theorem ctl_mod {E : Env} {d : Option DRef} {md : Option Mod} {v : Nat} {m : Mem} :
    ctl E d md v m (v + 352) =
      match md with
      | some k => modify .set (m (v + 352)) (k.code.setWidth 32 <<< 24) 0xFF000000
      | none => m (v + 352) := by
  unfold ctl
  cases d <;> cases md <;> simp [Mem.set]

theorem offs_mem : 4 ∈ varOffs ∧ 20 ∈ varOffs ∧ 328 ∈ varOffs ∧ 344 ∈ varOffs ∧ 348 ∈ varOffs ∧
    352 ∈ varOffs ∧ 356 ∈ varOffs ∧ 384 ∈ varOffs ∧ 2376 ∈ varOffs := by decide

/-- Run of a chain of variables whose control dwords were prepared. -/
def NextsOK (m : Mem) (stop : Nat) : List VPair → Prop
  | [] => True
  | p :: ps => m (p.v + 4) = BitVec.ofNat 32 (((ps.head?.map (·.v))).getD stop) ∧ NextsOK m stop ps

def specV (p : VPair) : Pair := ⟨p.dst, p.mdt, .var p.v⟩

def entryV (vs : List VPair) (stop : Nat) : Nat := (vs.head?.map (·.v)).getD stop

theorem NextsOK.congr {m m' : Mem} {stop : Nat} : ∀ {vs : List VPair}, NextsOK m stop vs →
    (∀ p ∈ vs, m' (p.v + 4) = m (p.v + 4)) → NextsOK m' stop vs
  | [], _, _ => trivial
  | p :: ps, h, hc => ⟨by rw [hc p (by simp)]; exact h.1,
      NextsOK.congr h.2 (fun q hq => hc q (by simp [hq]))⟩

theorem chain_vars {E : Env} {S : List Nat} (hsep : ∀ v ∈ S, ∀ w ∈ S, VSep v w)
    (hlt : ∀ v ∈ S, v < 2 ^ 32)
    (hcp : ∀ v ∈ S, cpAddr ≠ v + 344 ∧ cpAddr ≠ v + 352 ∧ cpAddr ≠ v + 4) {stop : Nat}
    (hstop : stop < 2 ^ 32) :
    ∀ (vs : List VPair) (m ms ms' : Mem) (tg : List Nat), (∀ p ∈ vs, p.v ∈ S) →
      (vs.map (·.v)).Nodup →
      (∀ x, ¬ nextFoot S x → (∀ p ∈ vs, x ≠ p.v + 344 ∧ x ≠ p.v + 352) → m x = ms x) →
      (∀ p ∈ vs, m (p.v + 344) = ctl E p.dst p.mdt p.v ms (p.v + 344) ∧
        m (p.v + 352) = ctl E p.dst p.mdt p.v ms (p.v + 352)) →
      NextsOK m stop vs → (∀ v ∈ S, VarAt m v) →
      specRun E (vs.map (specV)) ms = some (ms', tg) → (∀ a ∈ tg, ¬ ctlFoot S a) →
      ∃ m', Reaches ⟨m, entryV vs stop⟩ ⟨m', stop⟩ ∧ (∀ x, ¬ nextFoot S x → m' x = ms' x) ∧
        (∀ x, x ∉ tg → m' x = m x)
  | [], m, ms, ms', tg, _, _, hA, _, _, _, hsp, _ => by
    simp only [List.map_nil, specRun, Option.some.injEq, Prod.mk.injEq] at hsp
    obtain ⟨rfl, rfl⟩ := hsp
    exact ⟨m, Reaches.refl _, fun x hx => hA x hx (by simp), fun _ _ => rfl⟩
  | p :: ps, m, ms, ms', tg, hS, hnd, hA, hB, hN, hV, hsp, htg => by
    have hpS := hS p (by simp)
    simp only [List.map_cons, List.nodup_cons] at hnd
    simp only [List.map_cons, specRun, bind, Option.bind_eq_some_iff] at hsp
    obtain ⟨⟨m1, a⟩, h1, ⟨m2, as⟩, h2, h3⟩ := hsp
    simp only [Option.some.injEq, Prod.mk.injEq] at h3
    obtain ⟨rfl, rfl⟩ := h3
    -- the specification of the first assignment
    simp only [specV, specPair] at h1
    split at h1
    · rename_i md d hmd hd
      simp only [Option.some.injEq, Prod.mk.injEq] at h1
      obtain ⟨hm1, ha⟩ := h1
      have haP : ¬ ctlFoot S a := htg a (by simp)
      obtain ⟨o4, o20, o328, o344, o348, o352, o356, o384, o2376⟩ := offs_mem
      -- fields of p in m
      have hself : ∀ x, ¬ nextFoot S x → (∀ q ∈ ps, x ≠ q.v + 344 ∧ x ≠ q.v + 352) →
          m x = ctl E p.dst p.mdt p.v ms x := by
        intro x hx hq
        by_cases e1 : x = p.v + 344
        · rw [e1]; exact (hB p (by simp)).1
        · by_cases e2 : x = p.v + 352
          · rw [e2]; exact (hB p (by simp)).2
          · rw [ctl_other e1 e2]
            apply hA x hx
            intro q hq'
            simp only [List.mem_cons] at hq'
            rcases hq' with rfl | hq'
            · exact ⟨e1, e2⟩
            · exact hq q hq'
      have hfield : ∀ o, o ∈ varOffs → o ≠ 4 → m (p.v + o) = ctl E p.dst p.mdt p.v ms (p.v + o) := by
        intro o ho h4
        apply hself
        · rintro ⟨w, hw, he⟩
          exact hsep p.v hpS w hw o ho 4 o4 h4 he
        · intro q hq
          have hne : p.v ≠ q.v := by
            intro he
            apply hnd.1
            rw [he]
            exact List.mem_map.2 ⟨q, hq, rfl⟩
          have hqS := hS q (by simp [hq])
          constructor
          · intro he
            by_cases e : o = 344
            · subst e; omega
            · exact hsep p.v hpS q.v hqS o ho 344 o344 e he
          · intro he
            by_cases e : o = 352
            · subst e; omega
            · exact hsep p.v hpS q.v hqS o ho 352 o352 e he
      have hcpv : m cpAddr = ctl E p.dst p.mdt p.v ms cpAddr := by
        apply hself
        · rintro ⟨w, hw, he⟩
          exact (hcp w hw).2.2 he
        · intro q hq
          exact ⟨(hcp q.v (hS q (by simp [hq]))).1, (hcp q.v (hS q (by simp [hq]))).2.1⟩
      have hdaddr : d.addr m = a := by
        rw [← ha]
        cases d with
        | mem y => rfl
        | cp u => simp only [Dst.addr, hcpv]
      have hmd' : varMod m p.v = some md := by
        unfold varMod at hmd ⊢
        rw [hfield 352 o352 (by omega)]; exact hmd
      have hd' : varDst m p.v = some d := by
        unfold varDst at hd ⊢
        rw [hfield 344 o344 (by omega)]; exact hd
      have hstep := step_var (hV p.v hpS) hmd' hd' (by
        rw [hdaddr]
        exact ⟨fun he => haP ⟨p.v, hpS, by simp [he]⟩, fun he => haP ⟨p.v, hpS, by simp [he]⟩⟩)
      -- the memory after the step
      have hma : m a = ctl E p.dst p.mdt p.v ms a := by
        apply hself
        · rintro ⟨w, hw, he⟩
          exact haP ⟨w, hw, Or.inl he⟩
        · intro q hq
          exact ⟨fun he => haP ⟨q.v, hS q (by simp [hq]), by simp [he]⟩,
            fun he => haP ⟨q.v, hS q (by simp [hq]), by simp [he]⟩⟩
      have hval : (varAct m p.v md d).apply m = m.set a (m1 a) := by
        unfold Act.apply
        simp only [varAct, hdaddr]
        rw [← hm1, ha, set_eq, hfield 348 o348 (by omega), hfield 328 o328 (by omega), hma]
      rw [hval] at hstep
      -- continue
      have hkeep : ∀ x, x ≠ a → (m.set a (m1 a)) x = m x := fun x hx => set_ne hx
      have hpn : (m.set a (m1 a)) (p.v + 4) = m (p.v + 4) :=
        hkeep _ (fun he => haP ⟨p.v, hpS, Or.inl he.symm⟩)
      have hpc : ((m.set a (m1 a)) (p.v + 4)).toNat = entryV ps stop := by
        rw [hpn, hN.1, BitVec.toNat_ofNat]
        apply Nat.mod_eq_of_lt
        cases ps with
        | nil => exact hstop
        | cons q qs => exact hlt q.v (hS q (by simp))
      rw [hpc] at hstep
      have hm1a : ∀ x, x ≠ a → m1 x = ctl E p.dst p.mdt p.v ms x := by
        intro x hx
        rw [← hm1]
        exact set_ne (by rw [ha]; exact hx)
      obtain ⟨m', hr, hfin, hfr⟩ := chain_vars hsep hlt hcp hstop ps (m.set a (m1 a)) m1 m2 as
        (fun q hq => hS q (by simp [hq])) hnd.2
        (by
          intro x hx hq
          by_cases e : x = a
          · rw [e, set_eq]
          · rw [hkeep x e, hm1a x e]
            exact hself x hx hq)
        (by
          intro q hq
          have hqS := hS q (by simp [hq])
          have hne : q.v ≠ p.v := by
            intro he
            apply hnd.1
            rw [← he]
            exact List.mem_map.2 ⟨q, hq, rfl⟩
          have hB' := hB q (by simp [hq])
          have hA344 : q.v + 344 ≠ a := fun he => haP ⟨q.v, hqS, by simp [← he]⟩
          have hA352 : q.v + 352 ≠ a := fun he => haP ⟨q.v, hqS, by simp [← he]⟩
          have hs1 : m1 (q.v + 344) = ms (q.v + 344) := by
            rw [hm1a _ hA344, ctl_other (by omega)
              (fun he => hsep q.v hqS p.v hpS 344 o344 352 o352 (by omega) he)]
          have hs2 : m1 (q.v + 352) = ms (q.v + 352) := by
            rw [hm1a _ hA352, ctl_other
              (fun he => hsep q.v hqS p.v hpS 352 o352 344 o344 (by omega) he) (by omega)]
          rw [hkeep _ hA344, hkeep _ hA352, hB'.1, hB'.2]
          simp only [ctl_dest, ctl_mod, hs1, hs2, and_self])
        (hN.2.congr (fun q hq => hkeep _ (fun he => haP ⟨q.v, hS q (by simp [hq]), by simp [← he]⟩)))
        (by
          intro v hv
          apply (hV v hv).congr
          · intro x hx
            apply hkeep
            intro he
            apply haP
            refine ⟨v, hv, ?_⟩
            rcases hx with h | h | h | h <;> simp [← he, h]
          · rw [hkeep _ (fun he => haP ⟨v, hv, by simp [← he]⟩)])
        h2 (fun x hx => htg x (by simp [hx]))
      refine ⟨m', Reaches.head ?_ hr, hfin, ?_⟩
      · exact hstep
      · intro x hx
        simp only [List.mem_cons, not_or] at hx
        rw [hfr x hx.2, hkeep x hx.1]
    · cases h1

/-- What a cache entry promises about memory. -/
def EntryOK (E : Env) (m : Mem) (v : Nat) (e : Option DRef × Option Mod × Option Nat) : Prop :=
  (∀ r, e.1 = some r → m (v + 344) = r.epd E) ∧ (∀ k, e.2.1 = some k → varMod m v = some k) ∧
  (∀ w, e.2.2 = some w → m (v + 4) = BitVec.ofNat 32 w)

theorem EntryOK.congr {E : Env} {m m' : Mem} {v : Nat} {e : Option DRef × Option Mod × Option Nat}
    (h : EntryOK E m v e) (h4 : m' (v + 4) = m (v + 4)) (h344 : m' (v + 344) = m (v + 344))
    (h352 : m' (v + 352) = m (v + 352)) : EntryOK E m' v e := by
  refine ⟨fun r hr => by rw [h344]; exact h.1 r hr, fun k hk => ?_, fun w hw => by rw [h4]; exact h.2.2 w hw⟩
  have := h.2.1 k hk
  unfold varMod at this ⊢
  rw [h352]; exact this

theorem sameObj_epd {E : Env} {a b : DRef} (h : sameObj (some a) (some b) = true) :
    a.epd E = b.epd E := by
  cases a <;> cases b <;> simp_all [sameObj, DRef.epd]

theorem sameObj_none {a : DRef} : sameObj (some a) none = false := by
  cases a <;> rfl

theorem foldl_app (as bs : List Act) (m : Mem) :
    (as ++ bs).foldl (fun m a => a.apply m) m =
      bs.foldl (fun m a => a.apply m) (as.foldl (fun m a => a.apply m) m) := List.foldl_append

theorem varActs_spec {E : Env} {c : Cache} {p : VPair} {next : Option Nat} {stop : Nat} {m : Mem}
    (hc : ∀ e, c p.v = some e → EntryOK E m p.v e)
    (ht : ∀ d, p.dst = some d → d.truthy E = true) :
    let m1 := (varActs E c p next stop).1.foldl (fun m a => a.apply m) m
    (∀ x, x ≠ p.v + 4 → x ≠ p.v + 344 → x ≠ p.v + 352 → m1 x = m x) ∧
    m1 (p.v + 344) = ctl E p.dst p.mdt p.v m (p.v + 344) ∧
    m1 (p.v + 352) = ctl E p.dst p.mdt p.v m (p.v + 352) ∧
    m1 (p.v + 4) = BitVec.ofNat 32 (next.getD stop) ∧
    EntryOK E m1 p.v (varActs E c p next stop).2 := by
  have he : EntryOK E m p.v ((c p.v).getD (none, none, none)) := by
    cases h : c p.v with
    | none => exact ⟨by simp, by simp, by simp⟩
    | some e => exact hc e h
  rcases heq : (c p.v).getD (none, none, none) with ⟨pd, pm, pn⟩
  rw [heq] at he
  simp only [varActs, heq, foldl_app]
  obtain ⟨v, hv⟩ : ∃ v, v = p.v := ⟨_, rfl⟩
  simp only [← hv] at *
  -- destination
  generalize hm1 : List.foldl (fun m a => Act.apply a m) m
    (match p.dst with
      | some d => if sameObj p.dst pd = false ∧ d.truthy E = true then [setDest v (d.epd E)] else []
      | none => []) = m1
  have h1 : (∀ x, x ≠ v + 344 → m1 x = m x) ∧
      m1 (v + 344) = ctl E p.dst p.mdt v m (v + 344) ∧
      (∀ r, (match p.dst with | some d => if d.truthy E = true then some d else pd | none => pd) = some r →
        m1 (v + 344) = r.epd E) := by
    subst hm1
    rw [ctl_dest]
    cases hd : p.dst with
    | none => exact ⟨fun _ _ => rfl, rfl, he.1⟩
    | some d =>
      have htd := ht d hd
      simp only [htd, and_true, if_true, Option.some.injEq]
      cases hs : sameObj (some d) pd with
      | false =>
        simp only [if_true, List.foldl_cons, List.foldl_nil, setDest, setMem_apply, arith]
        refine ⟨fun x hx => set_ne hx, set_eq _ _ _, ?_⟩
        rintro r rfl
        exact set_eq _ _ _
      | true =>
        simp only [Bool.true_eq_false, if_false, List.foldl_nil]
        cases pd with
        | none => simp [sameObj_none] at hs
        | some q =>
          have := he.1 q rfl
          rw [sameObj_epd (E := E) hs, ← this]
          refine ⟨fun _ _ => trivial, rfl, ?_⟩
          rintro r rfl
          rw [this, sameObj_epd (E := E) hs]
  -- modifier
  generalize hm2 : List.foldl (fun m a => Act.apply a m) m1
    (match p.mdt with
      | some md => if p.mdt ≠ pm then [setModifier v md] else []
      | none => []) = m2
  have h2 : (∀ x, x ≠ v + 352 → m2 x = m1 x) ∧
      m2 (v + 352) = ctl E p.dst p.mdt v m (v + 352) ∧
      (∀ r, (match p.mdt with | some d => some d | none => pm) = some r → varMod m2 v = some r) := by
    subst hm2
    rw [ctl_mod, ← h1.1 (v + 352) (by omega)]
    have he2 : ∀ k, pm = some k → varMod m1 v = some k := by
      intro k hk
      unfold varMod
      rw [h1.1 (v + 352) (by omega)]
      exact he.2.1 k hk
    cases hd : p.mdt with
    | none => exact ⟨fun _ _ => rfl, rfl, he2⟩
    | some md =>
      simp only [Option.some.injEq]
      by_cases hs : some md = pm
      · rw [if_neg (by simp [hs])]
        simp only [List.foldl_nil]
        have := he2 md hs.symm
        refine ⟨fun _ _ => trivial, (setModifier_noop this).symm, ?_⟩
        rintro r rfl
        exact this
      · rw [if_pos hs]
        simp only [List.foldl_cons, List.foldl_nil, setModifier, setMemX_apply]
        refine ⟨fun x hx => set_ne hx, set_eq _ _ _, ?_⟩
        rintro r rfl
        unfold varMod
        rw [set_eq, (setModifier_word _ _).1, ofCode_code]
  -- next pointer
  generalize hm3 : List.foldl (fun m a => Act.apply a m) m2
    (if next.isSome = true ∧ pn = next then [] else [setNext v (next.getD stop)]) = m3
  have h3 : (∀ x, x ≠ v + 4 → m3 x = m2 x) ∧ m3 (v + 4) = BitVec.ofNat 32 (next.getD stop) := by
    subst hm3
    split
    · rename_i h
      refine ⟨fun _ _ => rfl, ?_⟩
      obtain ⟨w, hw⟩ := Option.isSome_iff_exists.1 h.1
      simp only [List.foldl_nil]
      rw [h2.1 _ (by omega), h1.1 _ (by omega), hw]
      exact he.2.2 w (by rw [← hw]; exact h.2)
    · simp only [List.foldl_cons, List.foldl_nil, setNext, setMem_apply, arith]
      exact ⟨fun x hx => set_ne hx, set_eq _ _ _⟩
  refine ⟨?_, ?_, ?_, h3.2, ?_, ?_, ?_⟩
  · intro x a b d
    rw [h3.1 x a, h2.1 x d, h1.1 x b]
  · rw [h3.1 _ (by omega), h2.1 _ (by omega), h1.2.1]
  · rw [h3.1 _ (by omega), h2.2.1]
  · intro r hr
    rw [h3.1 _ (by omega), h2.1 _ (by omega)]
    exact h1.2.2 r hr
  · intro r hr
    unfold varMod
    rw [h3.1 _ (by omega)]
    exact h2.2.2 r hr
  · intro w hw
    simp only at hw
    rw [h3.2, hw]; rfl

theorem varActs_safe {E : Env} {c : Cache} {p : VPair} {next : Option Nat} {stop : Nat} {F : Nat → Prop}
    (hF : ¬ F (p.v + 4) ∧ ¬ F (p.v + 344) ∧ ¬ F (p.v + 352)) :
    ∀ a ∈ (varActs E c p next stop).1, ∃ x, a.dst = .mem x ∧ ¬ F x := by
  intro a ha
  simp only [varActs, List.mem_append] at ha
  rcases ha with (ha | ha) | ha
  · split at ha
    · split at ha
      · simp only [List.mem_singleton] at ha
        subst ha
        exact ⟨_, rfl, hF.2.1⟩
      · simp at ha
    · simp at ha
  · split at ha
    · split at ha
      · simp only [List.mem_singleton] at ha
        subst ha
        exact ⟨_, rfl, hF.2.2⟩
      · simp at ha
    · simp at ha
  · split at ha
    · simp at ha
    · simp only [List.mem_singleton] at ha
      subst ha
      exact ⟨_, rfl, hF.1⟩

theorem subActs_safe {E : Env} {stop : Nat} {F : Nat → Prop} : ∀ {vs : List VPair} {c : Cache},
    (∀ p ∈ vs, ¬ F (p.v + 4) ∧ ¬ F (p.v + 344) ∧ ¬ F (p.v + 352)) →
    ∀ a ∈ (subActs E stop c vs).1, ∃ x, a.dst = .mem x ∧ ¬ F x
  | [], _, _, a, ha => by simp [subActs] at ha
  | p :: ps, c, h, a, ha => by
    simp only [subActs, List.mem_append] at ha
    rcases ha with ha | ha
    · exact varActs_safe (h p (by simp)) a ha
    · exact subActs_safe (fun q hq => h q (by simp [hq])) a ha

def CacheOK (E : Env) (S : List Nat) (c : Cache) (m : Mem) : Prop :=
  ∀ v e, c v = some e → v ∈ S ∧ EntryOK E m v e

theorem subActs_spec {E : Env} {S : List Nat} (hsep : ∀ v ∈ S, ∀ w ∈ S, VSep v w) {stop : Nat} :
    ∀ (vs : List VPair) (c : Cache) (m : Mem), (∀ p ∈ vs, p.v ∈ S) → (vs.map (·.v)).Nodup →
      CacheOK E S c m → (∀ p ∈ vs, ∀ d, p.dst = some d → d.truthy E = true) →
      let m1 := (subActs E stop c vs).1.foldl (fun m a => a.apply m) m
      (∀ x, (∀ p ∈ vs, x ≠ p.v + 4 ∧ x ≠ p.v + 344 ∧ x ≠ p.v + 352) → m1 x = m x) ∧
      (∀ p ∈ vs, m1 (p.v + 344) = ctl E p.dst p.mdt p.v m (p.v + 344) ∧
        m1 (p.v + 352) = ctl E p.dst p.mdt p.v m (p.v + 352)) ∧
      NextsOK m1 stop vs ∧ CacheOK E S (subActs E stop c vs).2 m1
  | [], c, m, _, _, hc, _ => ⟨fun _ _ => rfl, by simp, trivial, hc⟩
  | p :: ps, c, m, hS, hnd, hc, ht => by
    simp only [List.map_cons, List.nodup_cons] at hnd
    have hpS := hS p (by simp)
    have hsp := varActs_spec (next := ps.head?.map (·.v)) (stop := stop)
      (fun e he => (hc p.v e he).2) (ht p (by simp))
    simp only [subActs, foldl_app]
    generalize varActs E c p (ps.head?.map (·.v)) stop = r at hsp
    generalize List.foldl (fun m a => Act.apply a m) m r.1 = m1 at hsp
    obtain ⟨s1, s2, s3, s4, s5⟩ := hsp
    obtain ⟨o4, o20, o328, o344, o348, o352, o356, o384, o2376⟩ := offs_mem
    have hoth : ∀ w ∈ S, w ≠ p.v → m1 (w + 4) = m (w + 4) ∧ m1 (w + 344) = m (w + 344) ∧
        m1 (w + 352) = m (w + 352) := by
      intro w hw hne
      have hs := hsep w hw p.v hpS
      refine ⟨s1 _ (by omega) (hs 4 o4 344 o344 (by omega)) (hs 4 o4 352 o352 (by omega)),
        s1 _ (hs 344 o344 4 o4 (by omega)) (by omega) (hs 344 o344 352 o352 (by omega)),
        s1 _ (hs 352 o352 4 o4 (by omega)) (hs 352 o352 344 o344 (by omega)) (by omega)⟩
    have hc1 : CacheOK E S (fun x => if x = p.v then some r.2 else c x) m1 := by
      intro v e hv
      simp only at hv
      split at hv
      · rename_i h
        cases hv
        rw [h]
        exact ⟨hpS, s5⟩
      · rename_i h
        obtain ⟨hvS, hev⟩ := hc v e hv
        obtain ⟨a, b, d⟩ := hoth v hvS h
        exact ⟨hvS, hev.congr a b d⟩
    obtain ⟨i1, i2, i3, i4⟩ := subActs_spec hsep ps _ m1 (fun q hq => hS q (by simp [hq])) hnd.2 hc1
      (fun q hq => ht q (by simp [hq]))
    have hpne : ∀ q ∈ ps, q.v ≠ p.v := by
      intro q hq he
      apply hnd.1
      rw [← he]
      exact List.mem_map.2 ⟨q, hq, rfl⟩
    have hpk : ∀ o, o = 4 ∨ o = 344 ∨ o = 352 → ∀ q ∈ ps, p.v + o ≠ q.v + 4 ∧ p.v + o ≠ q.v + 344 ∧
        p.v + o ≠ q.v + 352 := by
      intro o ho q hq
      have hs := hsep p.v hpS q.v (hS q (by simp [hq]))
      have hne := hpne q hq
      rcases ho with rfl | rfl | rfl
      · exact ⟨by omega, hs 4 o4 344 o344 (by omega), hs 4 o4 352 o352 (by omega)⟩
      · exact ⟨hs 344 o344 4 o4 (by omega), by omega, hs 344 o344 352 o352 (by omega)⟩
      · exact ⟨hs 352 o352 4 o4 (by omega), hs 352 o352 344 o344 (by omega), by omega⟩
    refine ⟨?_, ?_, ⟨?_, i3⟩, i4⟩
    · intro x hx
      rw [i1 x (fun q hq => hx q (by simp [hq])), s1 x (hx p (by simp)).1 (hx p (by simp)).2.1
        (hx p (by simp)).2.2]
    · intro q hq
      simp only [List.mem_cons] at hq
      rcases hq with rfl | hq
      · rw [i1 _ (hpk 344 (by simp)), i1 _ (hpk 352 (by simp))]
        exact ⟨s2, s3⟩
      · have := i2 q hq
        obtain ⟨a, b, d⟩ := hoth q.v (hS q (by simp [hq])) (hpne q hq)
        rw [this.1, this.2]
        simp only [ctl_dest, ctl_mod, b, d, and_self]
    · rw [i1 _ (hpk 4 (by simp)), s4]

theorem specRun_append (E : Env) : ∀ (a b : List Pair) (m : Mem),
    specRun E (a ++ b) m = (do
      let (m1, t1) ← specRun E a m
      let (m2, t2) ← specRun E b m1
      some (m2, t1 ++ t2))
  | [], b, m => by
    simp only [List.nil_append, specRun, bind, Option.bind_some]
    cases specRun E b m <;> rfl
  | p :: a, b, m => by
    simp only [List.cons_append, specRun, bind]
    cases specPair E p m with
    | none => rfl
    | some r =>
      simp only [Option.bind_some]
      rw [specRun_append E a b r.1]
      simp only [bind]
      cases specRun E a r.1 with
      | none => rfl
      | some r2 =>
        simp only [Option.bind_some]
        cases specRun E b r2.1 <;> rfl

/-- The constant assignments of a group. -/
theorem consts_run {E : Env} {N F : Nat → Prop} (hNF : ∀ x, N x → F x) (hcp : ¬ N cpAddr) :
    ∀ (ps : List Pair) (cs : List Act) (m ms ms' : Mem) (tg : List Nat),
      ps.mapM (constAct E) = some cs → (∀ x, ¬ N x → m x = ms x) →
      specRun E ps ms = some (ms', tg) → (∀ a ∈ tg, ¬ F a) →
      let m1 := cs.foldl (fun m a => a.apply m) m
      (∀ x, ¬ N x → m1 x = ms' x) ∧ SafeActs F m cs ∧ (∀ x, x ∉ tg → m1 x = m x)
  | [], cs, m, ms, ms', tg, hm, he, hs, ht => by
    simp only [List.mapM_nil, pure, Option.some.injEq] at hm
    subst hm
    simp only [specRun, Option.some.injEq, Prod.mk.injEq] at hs
    obtain ⟨rfl, rfl⟩ := hs
    exact ⟨he, trivial, fun _ _ => rfl⟩
  | p :: ps, cs, m, ms, ms', tg, hm, he, hs, ht => by
    simp only [List.mapM_cons, bind, Option.bind_eq_some_iff, pure, Option.some.injEq] at hm
    obtain ⟨a, ha, as, has, rfl⟩ := hm
    simp only [specRun, bind, Option.bind_eq_some_iff] at hs
    obtain ⟨⟨m1, x⟩, h1, ⟨m2, xs⟩, h2, h3⟩ := hs
    simp only [Option.some.injEq, Prod.mk.injEq] at h3
    obtain ⟨rfl, rfl⟩ := h3
    unfold constAct at ha
    split at ha
    · rename_i d md w hd hmd hsrc
      simp only [specPair, hd, hmd, hsrc, Option.map_eq_some_iff] at ha h1
      obtain ⟨y, hy, rfl⟩ := ha
      obtain ⟨y', hy', h1⟩ := h1
      rw [hy] at hy'
      cases hy'
      simp only [Prod.mk.injEq] at h1
      obtain ⟨rfl, rfl⟩ := h1
      have hya : y.addr m = y.addr ms := by
        cases y with
        | mem _ => rfl
        | cp u => simp only [Dst.addr, he cpAddr hcp]
      have hxF := ht (y.addr ms) (by simp)
      have hval : Act.apply ⟨y, md, w, 0xFFFFFFFF⟩ m =
          m.set (y.addr ms) (arith md (ms (y.addr ms)) w) := by
        unfold Act.apply
        simp only [modify_full, hya]
        rw [he _ (fun h => hxF (hNF _ h))]
      obtain ⟨i1, i2, i3⟩ := consts_run hNF hcp ps as
        (m.set (y.addr ms) (arith md (ms (y.addr ms)) w)) _ m2 xs has (by
          intro z hz
          show Mem.set _ _ _ z = Mem.set _ _ _ z
          unfold Mem.set
          split
          · rfl
          · exact he z hz) h2 (fun b hb => ht b (by simp [hb]))
      simp only [List.foldl_cons, hval]
      refine ⟨i1, ⟨by rw [hya]; exact hxF, by rw [hval]; exact i2⟩, ?_⟩
      intro z hz
      simp only [List.mem_cons, not_or] at hz
      rw [i3 z hz.2, set_ne hz.1]
    · cases ha

theorem toVar_spec : ∀ {ps : List Pair} {vs : List VPair}, ps.mapM toVar = some vs →
    ps = vs.map specV
  | [], vs, h => by
    simp only [List.mapM_nil, pure, Option.some.injEq] at h
    subst h; rfl
  | p :: ps, vs, h => by
    simp only [List.mapM_cons, bind, Option.bind_eq_some_iff, pure, Option.some.injEq] at h
    obtain ⟨a, ha, as, has, rfl⟩ := h
    rw [toVar_spec has]
    unfold toVar at ha
    split at ha
    · rename_i v hv
      cases ha
      cases p
      simp only at hv
      simp [specV, hv]
    · cases ha

theorem srcVars_append : ∀ (a b : List Pair), srcVars (a ++ b) = srcVars a ++ srcVars b
  | [], _ => rfl
  | p :: a, b => by
    simp only [List.cons_append, srcVars]
    split <;> simp [srcVars_append a b]

theorem srcVars_specV : ∀ (vs : List VPair), srcVars (vs.map specV) = vs.map (·.v)
  | [] => rfl
  | v :: vs => by simp [specV, srcVars, srcVars_specV vs]

theorem srcVars_const : ∀ (ps : List Pair), (∀ p ∈ ps, p.isConst = true) → srcVars ps = []
  | [], _ => rfl
  | p :: ps, h => by
    have hp := h p (by simp)
    unfold Pair.isConst at hp
    simp only [srcVars]
    split
    · simp_all
    · exact srcVars_const ps (fun q hq => h q (by simp [hq]))

theorem SafeActs.append {F : Nat → Prop} : ∀ {as bs : List Act} {m : Mem}, SafeActs F m as →
    SafeActs F (as.foldl (fun m a => a.apply m) m) bs → SafeActs F m (as ++ bs)
  | [], _, _, _, h => h
  | _ :: _, _, _, h1, h2 => ⟨h1.1, SafeActs.append h1.2 h2⟩

/-- Assignments from a variable never use a destination that Python takes for false. -/
def Truthy (E : Env) (ps : List Pair) : Prop :=
  ∀ p ∈ ps, ∀ v, p.src = .var v → ∀ d, p.dst = some d → d.truthy E = true

/-- One emitted trigger together with the variables it runs. -/
theorem sub_run {E : Env} {S : List Nat} {P : List Blk} {c c' : Cache} {ps : List Pair}
    {t stop : Nat} {b : Blk} {m ms ms' : Mem} {tg : List Nat}
    (hem : emitSub E c ps t stop = some (b, c')) (hb : b ∈ P) (hL : Loaded m P)
    (hsrc : SrcsOK m S (progFoot P)) (hS : ∀ v ∈ srcVars ps, v ∈ S) (hnd : (srcVars ps).Nodup)
    (hc : CacheOK E S c m) (ht : Truthy E ps) (hstop : stop < 2 ^ 32)
    (heq : ∀ x, ¬ nextFoot S x → m x = ms x) (hsp : specRun E ps ms = some (ms', tg))
    (hsafe : ∀ a ∈ tg, ¬ progFoot P a ∧ ¬ ctlFoot S a) :
    ∃ m', Reaches ⟨m, t⟩ ⟨m', stop⟩ ∧ (∀ x, ¬ nextFoot S x → m' x = ms' x) ∧ Loaded m' P ∧
      SrcsOK m' S (progFoot P) ∧ CacheOK E S c' m' := by
  simp only [emitSub, bind, Option.bind_eq_some_iff] at hem
  obtain ⟨cs, hcs, vs, hvs, hem⟩ := hem
  split at hem
  · rename_i hlen
    simp only [Option.some.injEq, Prod.mk.injEq] at hem
    obtain ⟨rfl, rfl⟩ := hem
    have hsplit : ps = ps.takeWhile Pair.isConst ++ vs.map specV := by
      rw [← toVar_spec hvs, List.takeWhile_append_dropWhile]
    generalize hcp' : ps.takeWhile Pair.isConst = cps at hcs hsplit
    have hconst : srcVars cps = [] := by
      apply srcVars_const
      intro p hp
      rw [← hcp'] at hp
      exact List.all_eq_true.1 List.all_takeWhile p hp
    have hsv : srcVars ps = vs.map (·.v) := by
      rw [hsplit, srcVars_append, hconst, srcVars_specV]; rfl
    have hvS : ∀ p ∈ vs, p.v ∈ S := by
      intro p hp
      apply hS
      rw [hsv]
      exact List.mem_map.2 ⟨p, hp, rfl⟩
    rw [hsv] at hnd
    have hvt : ∀ p ∈ vs, ∀ d, p.dst = some d → d.truthy E = true := by
      intro p hp
      apply ht (specV p) _ p.v rfl
      rw [hsplit]
      exact List.mem_append_right _ (List.mem_map.2 ⟨p, hp, rfl⟩)
    rw [hsplit, specRun_append] at hsp
    simp only [bind, Option.bind_eq_some_iff] at hsp
    obtain ⟨⟨mc, tc⟩, hs1, ⟨mv, tv⟩, hs2, hs3⟩ := hsp
    simp only [Option.some.injEq, Prod.mk.injEq] at hs3
    obtain ⟨rfl, rfl⟩ := hs3
    obtain ⟨o4, o20, o328, o344, o348, o352, o356, o384, o2376⟩ := offs_mem
    -- constants
    obtain ⟨k1, k2, k3⟩ := consts_run (N := nextFoot S) (F := fun x => progFoot P x ∨ ctlFoot S x)
      (fun x ⟨v, hv, hx⟩ => Or.inr ⟨v, hv, Or.inl hx⟩)
      (fun ⟨v, hv, hx⟩ => (hsrc.cp v hv).2.2 hx) cps cs m ms mc tc hcs heq hs1
      (fun a ha => by
        have := hsafe a (by simp [ha])
        simp only [not_or]; exact this)
    generalize hm1 : cs.foldl (fun m a => a.apply m) m = m1 at k1 k3
    have hk : ∀ x, ctlFoot S x → m1 x = m x := fun x hx => k3 x (fun h => (hsafe x (by simp [h])).2 hx)
    have hc1 : CacheOK E S c m1 := by
      intro v e hv
      obtain ⟨h1, h2⟩ := hc v e hv
      exact ⟨h1, h2.congr (hk _ ⟨v, h1, by simp⟩) (hk _ ⟨v, h1, by simp⟩) (hk _ ⟨v, h1, by simp⟩)⟩
    obtain ⟨s1, s2, s3, s4⟩ := subActs_spec hsrc.sep (stop := stop) vs c m1 hvS hnd hc1 hvt
    have hsf2 : SafeActs (progFoot P) m1 (subActs E stop c vs).1 :=
      SafeActs.of_static _ (subActs_safe (fun p hp => hsrc.code p.v (hvS p hp)))
    have hsafeT : SafeActs (progFoot P) m (cs ++ (subActs E stop c vs).1) :=
      (k2.mono (fun x hx => Or.inl hx)).append (by rw [hm1]; exact hsf2)
    obtain ⟨hstep, hL2⟩ := hL.step hb rfl (fun _ => hsafeT)
    generalize hm2 : (subActs E stop c vs).1.foldl (fun m a => a.apply m) m1 = m2 at s1 s2 s3 s4
    have hex : Trig.exec ⟨[], cs ++ (subActs E stop c vs).1⟩ m = m2 := by
      simp only [Trig.exec, List.all_nil, if_true, foldl_app, hm1, hm2]
    simp only [hex] at hstep hL2
    -- the sources stay variables
    have hstat : ∀ v ∈ S, ∀ o ∈ varOffs, o ≠ 4 → o ≠ 344 → o ≠ 352 → m2 (v + o) = m1 (v + o) := by
      intro v hv o ho h1 h2 h3
      apply s1
      intro p hp
      have := hsrc.sep v hv p.v (hvS p hp)
      exact ⟨this o ho 4 o4 h1, this o ho 344 o344 h2, this o ho 352 o352 h3⟩
    have hV2 : ∀ v ∈ S, VarAt m2 v := by
      intro v hv
      apply (hsrc.var v hv).congr
      · intro x hx
        rcases hx with rfl | rfl | rfl | rfl
        · rw [hstat v hv 20 o20 (by omega) (by omega) (by omega)]; exact hk _ ⟨v, hv, by simp⟩
        · rw [hstat v hv 356 o356 (by omega) (by omega) (by omega)]; exact hk _ ⟨v, hv, by simp⟩
        · rw [hstat v hv 384 o384 (by omega) (by omega) (by omega)]; exact hk _ ⟨v, hv, by simp⟩
        · rw [hstat v hv 2376 o2376 (by omega) (by omega) (by omega)]; exact hk _ ⟨v, hv, by simp⟩
      · rw [← hk (v + 352) ⟨v, hv, by simp⟩]
        by_cases hin : ∃ p ∈ vs, p.v = v
        · obtain ⟨p, hp, rfl⟩ := hin
          rw [(s2 p hp).2, ctl_mod]
          split
          · exact (setModifier_word _ _).2
          · rfl
        · rw [s1]
          intro p hp
          have hne : p.v ≠ v := fun he => hin ⟨p, hp, he⟩
          have := hsrc.sep v hv p.v (hvS p hp)
          exact ⟨this 352 o352 4 o4 (by omega), this 352 o352 344 o344 (by omega), by omega⟩
    -- the variables
    obtain ⟨m', hr, hfin, hfr⟩ := chain_vars hsrc.sep hsrc.lt hsrc.cp hstop vs m2 mc mv tv hvS hnd
      (by
        intro x hx hq
        rw [s1 x, k1 x hx]
        intro p hp
        exact ⟨fun he => hx ⟨p.v, hvS p hp, he⟩, (hq p hp).1, (hq p hp).2⟩)
      (by
        intro p hp
        have hp1 : m1 (p.v + 344) = mc (p.v + 344) :=
          k1 _ (fun ⟨w, hw, he⟩ => hsrc.sep p.v (hvS p hp) w hw 344 o344 4 o4 (by omega) he)
        have hp2 : m1 (p.v + 352) = mc (p.v + 352) :=
          k1 _ (fun ⟨w, hw, he⟩ => hsrc.sep p.v (hvS p hp) w hw 352 o352 4 o4 (by omega) he)
        rw [(s2 p hp).1, (s2 p hp).2]
        simp only [ctl_dest, ctl_mod, hp1, hp2, and_self])
      s3 hV2 hs2 (fun a ha => (hsafe a (by simp [ha])).2)
    have hk' : ∀ x, ctlFoot S x → m' x = m2 x := fun x hx => hfr x (fun h => (hsafe x (by simp [h])).2 hx)
    refine ⟨m', Reaches.head hstep hr, hfin, ?_, ?_, ?_⟩
    · exact hL2.congr (fun x hx => hfr x (fun h => (hsafe x (by simp [h])).1 hx))
    · refine ⟨?_, hsrc.sep, hsrc.lt, hsrc.code, hsrc.cp⟩
      intro v hv
      apply (hV2 v hv).congr
      · intro x hx
        apply hk'
        rcases hx with rfl | rfl | rfl | rfl <;> exact ⟨v, hv, by simp⟩
      · rw [hk' _ ⟨v, hv, by simp⟩]
    · intro v e hv
      obtain ⟨h1, h2⟩ := s4 v e hv
      exact ⟨h1, h2.congr (hk' _ ⟨v, h1, by simp⟩) (hk' _ ⟨v, h1, by simp⟩) (hk' _ ⟨v, h1, by simp⟩)⟩
  · cases hem

theorem emitAll_length {E : Env} {ts : Nat → Nat} : ∀ {gs : List (List Pair)} {k : Nat} {c : Cache}
    {bs : List Blk}, emitAll E ts k c gs = some bs → bs.length = gs.length
  | [], k, c, bs, h => by
    simp only [emitAll, Option.some.injEq] at h
    subst h; rfl
  | g :: gs, k, c, bs, h => by
    simp only [emitAll, bind, Option.bind_eq_some_iff, Option.some.injEq] at h
    obtain ⟨⟨b, c'⟩, h1, bs', h2, rfl⟩ := h
    simp [emitAll_length h2]

theorem all_run {E : Env} {S : List Nat} {P : List Blk} {ts : Nat → Nat} :
    ∀ (gs : List (List Pair)) (k : Nat) (c : Cache) (bs : List Blk) (m ms ms' : Mem) (tg : List Nat),
      emitAll E ts k c gs = some bs → (∀ b ∈ bs, b ∈ P) → (∀ j ≤ k + gs.length, ts j < 2 ^ 32) →
      Loaded m P → SrcsOK m S (progFoot P) → (∀ v ∈ srcVars gs.flatten, v ∈ S) →
      (∀ g ∈ gs, (srcVars g).Nodup) → CacheOK E S c m → Truthy E gs.flatten →
      (∀ x, ¬ nextFoot S x → m x = ms x) → specRun E gs.flatten ms = some (ms', tg) →
      (∀ a ∈ tg, ¬ progFoot P a ∧ ¬ ctlFoot S a) →
      ∃ m', Reaches ⟨m, ts k⟩ ⟨m', ts (k + gs.length)⟩ ∧ (∀ x, ¬ nextFoot S x → m' x = ms' x) ∧
        Loaded m' P ∧ SrcsOK m' S (progFoot P)
  | [], k, c, bs, m, ms, ms', tg, _, _, _, hL, hsrc, _, _, _, _, heq, hsp, _ => by
    simp only [List.flatten_nil, specRun, Option.some.injEq, Prod.mk.injEq] at hsp
    obtain ⟨rfl, rfl⟩ := hsp
    exact ⟨m, Reaches.refl _, heq, hL, hsrc⟩
  | g :: gs, k, c, bs, m, ms, ms', tg, hem, hbP, hts, hL, hsrc, hS, hnd, hc, ht, heq, hsp, hsafe => by
    simp only [emitAll, bind, Option.bind_eq_some_iff, Option.some.injEq] at hem
    obtain ⟨⟨b, c'⟩, he1, bs', he2, rfl⟩ := hem
    simp only [List.flatten_cons, specRun_append, bind, Option.bind_eq_some_iff] at hsp
    obtain ⟨⟨m1, t1⟩, hs1, ⟨m2, t2⟩, hs2, hs3⟩ := hsp
    simp only [Option.some.injEq, Prod.mk.injEq] at hs3
    obtain ⟨rfl, rfl⟩ := hs3
    simp only [List.flatten_cons, srcVars_append, List.mem_append] at hS
    simp only [List.length_cons] at hts ⊢
    obtain ⟨n1, r1, e1, l1, o1, c1⟩ := sub_run he1 (hbP b (by simp)) hL hsrc
      (fun v hv => hS v (Or.inl hv)) (hnd g (by simp)) hc
      (fun p hp => ht p (by simp [hp])) (hts (k + 1) (by omega)) heq hs1
      (fun a ha => hsafe a (by simp [ha]))
    obtain ⟨n2, r2, e2, l2, o2⟩ := all_run gs (k + 1) c' bs' n1 m1 m2 t2 he2
      (fun x hx => hbP x (by simp [hx])) (fun j hj => hts j (by omega)) l1 o1
      (fun v hv => hS v (Or.inr hv)) (fun x hx => hnd x (by simp [hx])) c1
      (fun p hp => ht p (by
        simp only [List.flatten_cons, List.mem_append]; exact Or.inr hp)) e1 hs2
      (fun a ha => hsafe a (by simp [ha]))
    exact ⟨n2, r1.trans (by rw [show k + (gs.length + 1) = k + 1 + gs.length by omega]; exact r2),
      e2, l2, o2⟩

/-! ### Grouping -/

structure Group.Inv (g : Group) (done : List Pair) : Prop where
  all : g.out.flatten ++ g.sub = done
  srcs : ∀ v, v ∈ srcVars g.sub ↔ v ∈ g.srcs
  nd : (srcVars g.sub).Nodup
  outnd : ∀ x ∈ g.out, (srcVars x).Nodup
  cnt : g.count = 0 → g.sub = []

theorem Group.Inv.flush {g : Group} {done : List Pair} (h : g.Inv done) :
    g.flush.Inv done ∧ g.flush.sub = [] := by
  unfold Group.flush
  split
  · rename_i hz
    exact ⟨h, h.cnt hz⟩
  · refine ⟨⟨?_, ?_, ?_, ?_, ?_⟩, rfl⟩
    · simpa using h.all
    · intro v; simp [srcVars]
    · exact List.nodup_nil
    · intro x hx
      simp only [List.mem_append, List.mem_singleton] at hx
      rcases hx with hx | rfl
      · exact h.outnd x hx
      · exact h.nd
    · intro _; rfl

theorem Group.Inv.step {g : Group} {done : List Pair} (h : g.Inv done) (p : Pair) :
    (g.step p).Inv (done ++ [p]) := by
  unfold Group.step
  split
  · rename_i v hv
    have key : ∀ g' : Group, g'.Inv done → v ∉ g'.srcs →
        Group.Inv { g' with
          srcs := v :: g'.srcs, constc := false
          count := g'.count + 3 - (match g'.dict v with
            | none => 0
            | some (pd, pm) => (if p.dst = pd then 1 else 0) + (if p.mdt = pm then 1 else 0))
          dict := fun x => if x = v then some (p.dst, p.mdt) else g'.dict x
          sub := g'.sub ++ [p] } (done ++ [p]) := by
      intro g' h' hn
      have hsv : srcVars (g'.sub ++ [p]) = srcVars g'.sub ++ [v] := by
        rw [srcVars_append]; simp [srcVars, hv]
      refine ⟨?_, ?_, ?_, h'.outnd, ?_⟩
      · simp only [← h'.all, List.append_assoc]
      · intro w
        simp only [hsv, List.mem_append, h'.srcs, List.mem_cons, List.not_mem_nil, or_false]
        exact Or.comm
      · simp only [hsv]
        rw [List.nodup_append]
        refine ⟨h'.nd, by simp, ?_⟩
        intro a ha b hb
        simp only [List.mem_singleton] at hb
        subst hb
        intro he
        subst he
        exact hn ((h'.srcs _).1 ha)
      · simp only
        intro hz
        exfalso
        revert hz
        split
        · omega
        · split <;> split <;> simp <;> omega
    have hsrcs : ∀ g' : Group, g'.Inv done → g'.sub = [] → v ∉ g'.srcs := by
      intro g' h' hs hm
      have := (h'.srcs v).2 hm
      rw [hs] at this
      simp [srcVars] at this
    split
    · exact key _ h.flush.1 (hsrcs _ h.flush.1 h.flush.2)
    · split
      · exact key _ h.flush.1 (hsrcs _ h.flush.1 h.flush.2)
      · exact key _ h ‹_›
  · rename_i w hw
    have key : ∀ g' : Group, g'.Inv done →
        Group.Inv { g' with count := g'.count + 1, sub := g'.sub ++ [p] } (done ++ [p]) := by
      intro g' h'
      have hsv : srcVars (g'.sub ++ [p]) = srcVars g'.sub := by
        rw [srcVars_append]; simp [srcVars, hw]
      refine ⟨?_, ?_, ?_, h'.outnd, ?_⟩
      · simp only [← h'.all, List.append_assoc]
      · intro x; simp only [hsv]; exact h'.srcs x
      · simp only [hsv]; exact h'.nd
      · simp
    split
    · exact key _ h.flush.1
    · split
      · exact key _ h.flush.1
      · exact key _ h

theorem group_spec (ps : List Pair) :
    (group ps).flatten = ps ∧ ∀ g ∈ group ps, (srcVars g).Nodup := by
  have : ∀ (qs : List Pair) (g : Group) (done : List Pair), g.Inv done →
      (qs.foldl Group.step g).Inv (done ++ qs) := by
    intro qs
    induction qs with
    | nil => intro g done h; simpa using h
    | cons q qs ih =>
      intro g done h
      simp only [List.foldl_cons]
      have := ih _ _ (h.step q)
      simpa using this
  have h0 := this ps ⟨[], true, 0, [], fun _ => none, []⟩ []
    ⟨rfl, by simp [srcVars], List.nodup_nil, by simp, fun _ => rfl⟩
  have h1 := h0.flush
  refine ⟨?_, h1.1.outnd⟩
  have := h1.1.all
  rw [h1.2, List.append_nil] at this
  exact this

/-! ## Theorem -/

/-- **C19.** Whenever `SeqCompute` compiles, running the emitted triggers from any
memory has the effect of performing the assignments one after the other, except that the
`nextptr` fields of source variables are used as scratch.  The triggers stay intact,
so they can be run again.

Missing for the full property: variable sources with the integer destination EPD 0
(`Truthy`; see `C19_counterexample`). -/
theorem C19_seqcompute_partial {E : Env} {ts : Nat → Nat} {ps : List Pair} {P : List Blk} {m ms : Mem}
    {tg : List Nat} (hem : seqCompute E ts ps = some P) (hts : ∀ k ≤ P.length, ts k < 2 ^ 32)
    (hL : Loaded m P) (hsrc : SrcsOK m (srcVars ps) (progFoot P)) (ht : Truthy E ps)
    (hsp : specRun E ps m = some (ms, tg))
    (hsafe : ∀ a ∈ tg, ¬ progFoot P a ∧ ¬ ctlFoot (srcVars ps) a) :
    ∃ m', Reaches ⟨m, ts 0⟩ ⟨m', ts P.length⟩ ∧ (∀ x, ¬ nextFoot (srcVars ps) x → m' x = ms x) ∧
      Loaded m' P ∧ SrcsOK m' (srcVars ps) (progFoot P) := by
  obtain ⟨g1, g2⟩ := group_spec ps
  have hl := emitAll_length hem
  rw [hl] at hts ⊢
  have := all_run (S := srcVars ps) (group ps) 0 (fun _ => none) P m m ms tg hem (fun _ h => h)
    (fun j hj => hts j (by omega)) hL hsrc (by rw [g1]; exact fun _ h => h) g2
    (by intro v e h; cases h) (by rw [g1]; exact ht) (fun _ _ => rfl) (by rw [g1]; exact hsp) hsafe
  simpa using this

end Eud.SC
