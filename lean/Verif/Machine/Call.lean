import Verif.Machine.Wp
/-
Calls, as a rule for `Does`: the results of the body at the places wanted by the caller, and what stays the same.
-/

namespace Eud.SC

/-- Static facts about a call: the places of return address, result variables, parameters, destinations, and what the body may change. -/
structure CallOk (L : Layout) (nptr : Nat) (rs : List (Nat × Nat)) (args : List (Nat × Src)) (scratch : List Nat) : Prop where
  /-- places are cells -/
  cn : L.cell nptr
  cr : ∀ r ∈ rs, L.cell (r.1 + 344) ∧ L.cell r.2 ∧ EpdOK r.2
  ca : ∀ a ∈ args, L.cell a.1 ∧ ∀ v, a.2 = .var v → v ∈ L.P.vars
  /-- parameters, result variables and destinations are different -/
  na : (args.map Prod.fst).Nodup
  nr : (rs.map Prod.fst).Nodup
  nd : (rs.map Prod.snd).Nodup
  /-- no argument is a parameter or steers the return -/
  aa : ∀ a ∈ args, ∀ b ∈ args, ∀ v, b.2 = .var v → v + 348 ≠ a.1
  an : ∀ a ∈ args, ∀ v, a.2 = .var v → v + 348 ≠ nptr ∧ ∀ r ∈ rs, v + 348 ≠ r.1 + 344
  pn : ∀ a ∈ args, nptr ≠ a.1 ∧ ∀ r ∈ rs, r.1 + 344 ≠ a.1
  /-- the places that steer the return are different from each other, and from destinations -/
  rn : ∀ r ∈ rs, nptr ≠ r.1 + 344
  rr : ∀ r ∈ rs, ∀ q ∈ rs, r.2 ≠ q.1 + 4 ∧ r.2 ≠ q.1 + 344 ∧ r.2 ≠ q.1 + 348 ∧ r.1 + 4 ≠ q.1 + 344 ∧ q.1 + 348 ≠ r.1 + 4
  /-- the body leaves them alone -/
  sn : nptr ∉ scratch
  sr : ∀ r ∈ rs, r.1 + 344 ∉ scratch
  hnp : ∀ r ∈ rs, r.1 + 4 ≠ nptr

/-- What a call may change. -/
def callOnly (nptr : Nat) (rs : List (Nat × Nat)) (args : List (Nat × Src)) (scratch : List Nat) : List Nat :=
  nptr :: (rs.map Prod.snd ++ rs.map (fun r => r.1 + 4) ++ rs.map (fun r => r.1 + 344) ++ args.map Prod.fst ++ scratch)

/-- **C31 (calls as statements).** If the body, started with its parameters equal to the arguments, ends with `Q` and changes at most `scratch`, then the
call ends with the results where the caller wants them, changing only what is listed. -/
theorem C31_does {L : Layout} (hw : L.Wf) {fend nptr fstart back : Nat} {rs : List (Nat × Nat)} {args : List (Nat × Src)} {body : Stmt} {scratch : List Nat}
    (hk : CallOk L nptr rs args scratch) (hF : FuncCode L fstart fend nptr (rs.map Prod.fst) body) (hback : back < 2 ^ 32) {s : Mem} {Q : Mem → Prop}
    (hb : ∀ s1, (∀ a ∈ args, s1 a.1 = a.2.valM s) → Only (nptr :: (rs.map (fun r => r.1 + 344) ++ args.map Prod.fst)) s s1 →
      Wp L body s1 fun o s2 => (o = .nrm ∨ o = .ret) ∧ Q s2 ∧ Only scratch s1 s2) :
    Does L (.prim (CallRel L fend nptr back body rs args)) s fun s' =>
      (∃ s2, Q s2 ∧ (∀ r ∈ rs, s' r.2 = s2 (r.1 + 348)) ∧ Only (rs.map Prod.snd ++ rs.map (fun r => r.1 + 4)) s2 s') ∧
      Only (callOnly nptr rs args scratch) s s' := by
  obtain ⟨e1, e2, e3, e4⟩ := C31_entry (back := back) (s := s) hk.na hk.aa hk.an hk.pn hk.rn hk.nr
  obtain ⟨o, s2, h1, ho, hQ, hO⟩ := hb (runAsg (callAsg nptr back rs args) s) e1 (by
    intro x hx
    simp only [List.mem_cons, List.mem_append, List.mem_map, not_or, not_exists, not_and] at hx
    exact e4 x hx.1 (fun a ha e => hx.2.2 a ha e.symm) (fun r hr e => hx.2.1 r hr e.symm))
  have hready : RetsReady L rs s2 := by
    refine ⟨fun r hr => ⟨?_, (hk.cr r hr).2.2, (hk.cr r hr).2.1⟩, fun r hr q hq => ⟨(hk.rr r hr q hq).1, (hk.rr r hr q hq).2.1⟩,
      fun r hr q hq => (hk.rr r hr q hq).2.2.2.1⟩
    rw [hO _ (hk.sr r hr), e3 r hr]
  have hn2 : s2 nptr = BitVec.ofNat 32 back := by rw [hO _ hk.sn, e2]
  obtain ⟨hl, -⟩ := hF.fend.runs hw hready hk.hnp hback hn2
  obtain ⟨x1, x2⟩ := C31_exit (fend := fend) hl hk.nd (fun r hr q hq => (hk.rr r hr q hq).2.2.1) (fun r hr q hq => (hk.rr r hr q hq).2.2.2.2)
  have o2 : Only (rs.map Prod.snd ++ rs.map (fun r => r.1 + 4)) s2 (storeRets rs (retLink fend rs s2)) := by
    intro x hx
    simp only [List.mem_append, List.mem_map, not_or, not_exists, not_and] at hx
    exact x2 x (fun r hr => ⟨fun e => hx.1 r hr e.symm, fun e => hx.2 r hr e.symm⟩)
  refine Does.prim ⟨o, s2, ?_, ho, h1, hn2, hready, rfl⟩ ⟨⟨s2, hQ, x1, o2⟩, ?_⟩
  · refine .asg ?_ ?_
    · intro g hg
      simp only [callAsg, List.cons_append, List.mem_cons, List.mem_append, List.mem_map] at hg
      rcases hg with rfl | ⟨r, hr, rfl⟩ | ⟨a, ha, rfl⟩
      · exact hk.cn
      · exact (hk.cr r hr).1
      · exact (hk.ca a ha).1
    · intro g hg v hv
      simp only [callAsg, List.cons_append, List.mem_cons, List.mem_append, List.mem_map] at hg
      rcases hg with rfl | ⟨r, hr, rfl⟩ | ⟨a, ha, rfl⟩
      · cases hv
      · cases hv
      · exact (hk.ca a ha).2 v hv
  · intro x hx
    simp only [callOnly, List.mem_cons, List.mem_append, List.mem_map, not_or, not_exists, not_and] at hx
    obtain ⟨y1, ⟨⟨⟨y2, y3⟩, y4⟩, y5⟩, y6⟩ := hx
    rw [o2 x (by simp only [List.mem_append, List.mem_map, not_or, not_exists, not_and]; exact ⟨y2, y3⟩), hO x y6,
      e4 x y1 (fun a ha e => y5 a ha e.symm) (fun r hr e => y4 r hr e.symm)]

/-- `st` computes `v` into `out`, and may change `scr` besides. -/
def Comp (L : Layout) (st : Stmt) (out : Nat) (v : Mem → W) (scr : List Nat) : Prop :=
  ∀ s, Does L st s fun s' => s' out = v s ∧ Only (out :: scr) s s'

/-- `st` computes two values. -/
def Comp2 (L : Layout) (st : Stmt) (o1 o2 : Nat) (v1 v2 : Mem → W) (scr : List Nat) : Prop :=
  ∀ s, Does L st s fun s' => s' o1 = v1 s ∧ s' o2 = v2 s ∧ Only (o1 :: o2 :: scr) s s'

theorem Only.mem {l : List Nat} {s s' : Mem} (h : Only l s s') {x : Nat} (hx : x ∉ l) : s' x = s x := h x hx

end Eud.SC
