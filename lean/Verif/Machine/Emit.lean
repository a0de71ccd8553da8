import Verif.Machine.StructEx
import Verif.Machine.Wp
/-
Placing structured code, for examples: gives addresses to the triggers of a statement, and shows that the result
is `Code` for the statement.
-/

namespace Eud.SC

/-- Addresses of triggers. -/
def trigAt (n : Nat) : Nat := 0x2000000 + 0x1000 * n
/-- Addresses of the triggers of `SeqCompute`. -/
def seqAt (n : Nat) : Nat := 0x8000000 + 0x1000 * n

structure Emitted where
  /-- entry -/
  e : Nat
  /-- triggers used so far -/
  n : Nat
  m : Nat
  blks : List SBlk
  seqs : List Blk
  rest : List (Nat × Nat)

def SCnd.staticB : SCnd → Bool
  | .check d _ v k => d.isSome && v.isSome && k.isSome
  | .const _ => true
def SAct.staticB (a : SAct) : Bool := a.dst.isSome && a.val.isSome && a.mask.isSome

def placedCB : Nat → List PC → Bool
  | _, [] => true
  | x, p :: ps => (match p.pos with | some y => y == x | none => p.c.staticB) && placedCB (x + 20) ps

def placedAB : Nat → List PA → Bool
  | _, [] => true
  | x, p :: ps => (match p.pos with | some y => y == x | none => p.a.staticB) && placedAB (x + 32) ps

theorem placedCB_spec : ∀ {ps : List PC} {x : Nat}, placedCB x ps = true → PlacedC x ps
  | [], _, _ => trivial
  | p :: ps, x, h => by
    simp only [placedCB, Bool.and_eq_true] at h
    refine ⟨?_, placedCB_spec h.2⟩
    cases hp : p.pos with
    | some y => rw [hp] at h; simpa using h.1
    | none =>
      rw [hp] at h
      have h1 := h.1
      simp only at h1 ⊢
      cases hc : p.c with
      | const b => trivial
      | check d c v k =>
        rw [hc] at h1
        simp only [SCnd.staticB, Bool.and_eq_true] at h1
        exact ⟨h1.1.1, h1.1.2, h1.2⟩

theorem placedAB_spec : ∀ {ps : List PA} {x : Nat}, placedAB x ps = true → PlacedA x ps
  | [], _, _ => trivial
  | p :: ps, x, h => by
    simp only [placedAB, Bool.and_eq_true] at h
    refine ⟨?_, placedAB_spec h.2⟩
    cases hp : p.pos with
    | some y => rw [hp] at h; simpa using h.1
    | none =>
      rw [hp] at h
      have h1 := h.1
      simp only [SAct.staticB, Bool.and_eq_true] at h1
      exact ⟨h1.1.1, h1.1.2, h1.2⟩

def seqEnv : Env := ⟨fun i => epd i, fun _ => true⟩
def asgGA (l : List Asg) : List GA := l.map (fun g => ⟨.obj g.a, g.a, g.md, g.src⟩)

instance (a : Nat) : Decidable (EpdOK a) := by unfold EpdOK; infer_instance

def emitAsg (x m : Nat) (l : List Asg) : Option (Nat × List Blk) :=
  match seqCompute seqEnv (fun i => seqAt (m + i)) ((asgGA l).map GA.pair) with
  | none => none
  | some q =>
    let ts := fun i => if i < q.length then seqAt (m + i) else x
    match seqCompute seqEnv ts ((asgGA l).map GA.pair) with
    | none => none
    | some Q => if Q.length = q.length ∧ (∀ i < q.length + 1, ts i < 2 ^ 32) ∧ ∀ g ∈ l, EpdOK g.a then some (ts 0, Q) else none

/-- The two triggers of a branch, at `trigAt n` and `trigAt (n + 1)`. -/
def emitBr (n : Nat) (cs : List PC) (t f : Nat) : List SBlk :=
  [⟨trigAt n, ⟨cs.map PC.c, [sNext (trigAt n) (trigAt (n + 1))]⟩, none, false⟩,
   ⟨trigAt (n + 1), ⟨[], [sNext (trigAt n) f]⟩, some t, false⟩]

def brOk (n : Nat) (cs : List PC) : Bool :=
  !cs.isEmpty && decide (cs.length ≤ 16) && placedCB (trigAt n + 8) cs && decide (trigAt (n + 1) < 2 ^ 32)

/-- Emit `st` so that it goes on at `x`. -/
def emit (r : Nat) : Stmt → (b k x n m : Nat) → Option Emitted
  | .skip, _, _, x, n, m => some ⟨x, n, m, [], [], []⟩
  | .brk, b, _, _, n, m => some ⟨b, n, m, [], [], []⟩
  | .cont, _, k, _, n, m => some ⟨k, n, m, [], [], []⟩
  | .ret, _, _, _, n, m => some ⟨r, n, m, [], [], []⟩
  | .prim _, _, _, _, _, _ => none
  | .trig cs as, _, _, x, n, m =>
    if placedCB (trigAt n + 8) cs && placedAB (trigAt n + 328) as then
      some ⟨trigAt n, n + 1, m, [⟨trigAt n, ⟨cs.map PC.c, as.map PA.a⟩, some x, false⟩], [], []⟩ else none
  | .asg l, _, _, x, n, m => match emitAsg x m l with
    | some (e, Q) => some ⟨e, n, m + Q.length, [], Q, []⟩
    | none => none
  | .seq p q, b, k, x, n, m => match emit r q b k x n m with
    | none => none
    | some B => match emit r p b k B.e B.n B.m with
      | none => none
      | some A => some ⟨A.e, A.n, A.m, B.blks ++ A.blks, B.seqs ++ A.seqs, B.rest ++ A.rest⟩
  | .ite pre cs p q, b, k, x, n, m => match emit r p b k x (n + 2) m with
    | none => none
    | some A => match emit r q b k x A.n A.m with
      | none => none
      | some B => match emit r pre b k (trigAt n) B.n B.m with
        | none => none
        | some C => if brOk n cs then
            some ⟨C.e, C.n, C.m, emitBr n cs A.e B.e ++ A.blks ++ B.blks ++ C.blks, A.seqs ++ B.seqs ++ C.seqs,
              (trigAt n, B.e) :: (A.rest ++ B.rest ++ C.rest)⟩ else none
  | .loop neg pre cs body inc, _, _, x, n, m => match emit r pre x 0 (trigAt n) (n + 2) m with
    | none => none
    | some A => match emit r inc x 0 A.e A.n A.m with
      | none => none
      | some B => match emit r body x B.e B.e B.n B.m with
        | none => none
        -- `EUDContinue` does not occur in the conditions or the increment
        | some C => match emit r pre x B.e (trigAt n) (n + 2) m, emit r inc x B.e A.e A.n A.m with
          | some A', some B' =>
            if brOk n cs ∧ A'.e = A.e ∧ B'.e = B.e then
              some ⟨A.e, C.n, C.m, emitBr n cs (if neg then x else C.e) (if neg then C.e else x) ++ A'.blks ++ B'.blks ++ C.blks,
                A'.seqs ++ B'.seqs ++ C.seqs, (trigAt n, if neg then C.e else x) :: (A'.rest ++ B'.rest ++ C.rest)⟩ else none
          | _, _ => none

/-- The layout contains these triggers. -/
structure Emitted.Into (E : Emitted) (L : Layout) : Prop where
  blks : ∀ b ∈ E.blks, b ∈ L.P.blks
  seqs : ∀ b ∈ E.seqs, b ∈ L.P.seqs
  rest : ∀ r ∈ E.rest, r ∈ L.rest

theorem asgGA_map (l : List Asg) : (asgGA l).map (fun g => (⟨g.a, g.md, g.src⟩ : Asg)) = l := by
  simp only [asgGA, List.map_map]
  exact List.map_id l

theorem emitAsg_code {L : Layout} {x m : Nat} {l : List Asg} {e : Nat} {Q : List Blk} (h : emitAsg x m l = some (e, Q)) (hQ : ∀ b ∈ Q, b ∈ L.P.seqs)
    (r b k : Nat) : Code L r b k (.asg l) e x := by
  unfold emitAsg at h
  split at h
  · cases h
  · rename_i q hq
    simp only at h
    split at h
    · cases h
    · rename_i Q' hQ'
      split at h
      · rename_i hh
        cases h
        have := Code.asg (L := L) (r := r) (b := b) (k := k) hQ' hQ (fun i hi => hh.2.1 i (by omega)) (by
          intro g hg
          obtain ⟨a, ha, rfl⟩ := List.mem_map.1 hg
          exact ⟨rfl, hh.2.2 a ha, rfl⟩)
        rw [asgGA_map, hh.1] at this
        simpa using this
      · cases h

theorem emitBr_at {L : Layout} {n t f : Nat} {cs : List PC} (h : brOk n cs = true) (hb : ∀ b ∈ emitBr n cs t f, b ∈ L.P.blks) (hr : (trigAt n, f) ∈ L.rest) :
    BranchAt L t f (trigAt n) cs [] := by
  simp only [brOk, Bool.and_eq_true, decide_eq_true_eq, Bool.not_eq_true', List.isEmpty_eq_false_iff] at h
  obtain ⟨⟨⟨h1, h2⟩, h3⟩, h4⟩ := h
  exact .last _ (trigAt (n + 1)) cs [] h1 h2 (placedCB_spec h3) trivial
    ⟨hb _ (by simp [emitBr]), hb _ (by simp [emitBr]), hr, h4⟩

/-- What `emit` returns is code for the statement. -/
theorem emit_code {L : Layout} {r : Nat} : ∀ {st : Stmt} {b k x n m : Nat} {E : Emitted}, emit r st b k x n m = some E → E.Into L → Code L r b k st E.e x
  | .skip, _, _, _, _, _, _, h, _ => by cases h; exact .skip
  | .brk, _, _, _, _, _, _, h, _ => by cases h; exact .brk
  | .cont, _, _, _, _, _, _, h, _ => by cases h; exact .cont
  | .ret, _, _, _, _, _, _, h, _ => by cases h; exact .ret
  | .prim _, _, _, _, _, _, _, h, _ => by cases h
  | .trig cs as, _, _, _, _, _, _, h, hi => by
    simp only [emit] at h
    split at h
    · rename_i hp
      cases h
      simp only [Bool.and_eq_true] at hp
      exact .trig (placedCB_spec hp.1) (placedAB_spec hp.2) (hi.blks _ (by simp))
    · cases h
  | .asg l, _, _, _, _, _, _, h, hi => by
    simp only [emit] at h
    split at h
    · rename_i hq
      cases h
      exact emitAsg_code hq hi.seqs _ _ _
    · cases h
  | .seq p q, _, _, _, _, _, _, h, hi => by
    simp only [emit] at h
    split at h
    · cases h
    · rename_i B hB
      split at h
      · cases h
      · rename_i A hA
        cases h
        refine .seq (emit_code (E := A) hA ⟨?_, ?_, ?_⟩) (emit_code hB ⟨?_, ?_, ?_⟩)
        · exact fun b hb => hi.blks b (by simp [hb])
        · exact fun b hb => hi.seqs b (by simp [hb])
        · exact fun b hb => hi.rest b (by simp [hb])
        · exact fun b hb => hi.blks b (by simp [hb])
        · exact fun b hb => hi.seqs b (by simp [hb])
        · exact fun b hb => hi.rest b (by simp [hb])
  | .ite pre cs p q, _, _, _, _, _, _, h, hi => by
    simp only [emit] at h
    split at h
    · cases h
    · rename_i A hA
      split at h
      · cases h
      · rename_i B hB
        split at h
        · cases h
        · rename_i C hC
          split at h
          · rename_i hbr
            cases h
            refine .ite (emit_code (E := C) hC ⟨?_, ?_, ?_⟩) (emitBr_at hbr ?_ ?_) (emit_code hA ⟨?_, ?_, ?_⟩) (emit_code hB ⟨?_, ?_, ?_⟩)
            · exact fun b hb => hi.blks b (by simp [hb])
            · exact fun b hb => hi.seqs b (by simp [hb])
            · exact fun b hb => hi.rest b (by simp [hb])
            · exact fun b hb => hi.blks b (by simp [hb])
            · exact hi.rest _ (by simp)
            · exact fun b hb => hi.blks b (by simp [hb])
            · exact fun b hb => hi.seqs b (by simp [hb])
            · exact fun b hb => hi.rest b (by simp [hb])
            · exact fun b hb => hi.blks b (by simp [hb])
            · exact fun b hb => hi.seqs b (by simp [hb])
            · exact fun b hb => hi.rest b (by simp [hb])
          · cases h
  | .loop neg pre cs body inc, _, _, x, n, m, _, h, hi => by
    simp only [emit] at h
    split at h
    · cases h
    · rename_i A hA
      split at h
      · cases h
      · rename_i B hB
        split at h
        · cases h
        · rename_i C hC
          split at h
          · rename_i A' B' hA' hB'
            split at h
            · rename_i hh
              cases h
              obtain ⟨hbr, e1, e2⟩ := hh
              refine .loop (c := trigAt n) (ta := C.e) (i := B.e) (e1 ▸ emit_code hA' ⟨?_, ?_, ?_⟩) (emitBr_at hbr ?_ ?_) (emit_code hC ⟨?_, ?_, ?_⟩)
                (by have q : Code L r x B.e inc B'.e A.e := emit_code hB' ⟨fun b hb => hi.blks b (by simp [hb]), fun b hb => hi.seqs b (by simp [hb]), fun b hb => hi.rest b (by simp [hb])⟩
                    rw [e2] at q; exact q)
              · exact fun b hb => hi.blks b (by simp [hb])
              · exact fun b hb => hi.seqs b (by simp [hb])
              · exact fun b hb => hi.rest b (by simp [hb])
              · exact fun b hb => hi.blks b (by simp [hb])
              · exact hi.rest _ (by simp)
              · exact fun b hb => hi.blks b (by simp [hb])
              · exact fun b hb => hi.seqs b (by simp [hb])
              · exact fun b hb => hi.rest b (by simp [hb])
            · cases h
          · cases h

/-! ## Running an example -/

/-- Where execution ends: behind the code and for `EUDReturn`. -/
def haltAt : Nat := 0xF000000
def retAt : Nat := 0xF001000

/-- Address of the variable buffer of examples and of the `i`th variable. -/
def exBuf : Nat := 0x1000000
def exVar (i : Nat) : Nat := exBuf - 4 + 72 * i

def insRest (a : Nat × Nat) : List (Nat × Nat) → List (Nat × Nat)
  | [] => [a]
  | b :: l => if a.1 ≤ b.1 then a :: b :: l else b :: insRest a l

def sortRest (l : List (Nat × Nat)) : List (Nat × Nat) := l.foldr insRest []

theorem mem_insRest {a x : Nat × Nat} : ∀ {l : List (Nat × Nat)}, x ∈ insRest a l ↔ x = a ∨ x ∈ l
  | [] => by simp [insRest]
  | b :: l => by
    unfold insRest
    split
    · simp
    · simp only [List.mem_cons, mem_insRest (l := l)]
      constructor
      · rintro (h | h | h) <;> simp [h]
      · rintro (h | h | h) <;> simp [h]

theorem mem_sortRest {x : Nat × Nat} : ∀ {l : List (Nat × Nat)}, x ∈ sortRest l ↔ x ∈ l
  | [] => by simp [sortRest]
  | b :: l => by
    have ih := mem_sortRest (x := x) (l := l)
    simp only [sortRest, List.foldr_cons, mem_insRest, List.mem_cons] at ih ⊢
    rw [ih]

/-- The layout of an example with `nv` variables. -/
def exLayout (st : Stmt) (nv : Nat) : Layout :=
  match emit retAt st 0 0 haltAt 0 0 with
  | some E => ⟨⟨E.blks, E.seqs, (List.range nv).map exVar⟩, sortRest E.rest, []⟩
  | none => ⟨⟨[], [], []⟩, [], []⟩

def exEntry (st : Stmt) : Nat := ((emit retAt st 0 0 haltAt 0 0).map Emitted.e).getD 0

theorem exCode {st : Stmt} {nv : Nat} (h : (emit retAt st 0 0 haltAt 0 0).isSome = true) : Code (exLayout st nv) retAt 0 0 st (exEntry st) haltAt := by
  obtain ⟨E, hE⟩ := Option.isSome_iff_exists.1 h
  simp only [exLayout, exEntry, hE, Option.map_some, Option.getD_some]
  exact emit_code hE ⟨fun _ h => h, fun _ h => h, fun _ h => mem_sortRest.2 h⟩

theorem Layout.Laid.exVars {L : Layout} {vals : List W} (hl : L.Laid exBuf vals) {i : Nat} (h : i < vals.length) : exVar i ∈ L.P.vars := by
  rw [hl.P.vars]
  exact List.mem_map.2 ⟨i, List.mem_range.2 h, rfl⟩

/-- The value of a variable is a cell. -/
theorem Layout.Laid.exCell {L : Layout} {vals : List W} (hl : L.Laid exBuf vals) {i : Nat} (h : i < vals.length) : L.cell (exVar i + 348) :=
  cell_val hl.wf (hl.exVars h)

theorem Layout.Laid.exView {L : Layout} {vals : List W} (hl : L.Laid exBuf vals) {i : Nat} (h : i < vals.length) (m : Mem) :
    L.view m (exVar i + 348) = m (exVar i + 348) := Layout.view_at (hl.exCell h).2

/-- The initial values. -/
theorem Layout.Laid.exVal {L : Layout} {vals : List W} (hl : L.Laid exBuf vals) {i : Nat} (h : i < vals.length) (holes : List (Nat × W)) :
    L.view (L.mem exBuf vals holes) (exVar i + 348) = vals[i] := (hl.exView h _).trans ((hl.ok holes).2 i h)

/-- If the statement does something from the initial view, then the machine does it from the initial memory. -/
theorem exRun {st : Stmt} {nv : Nat} {vals : List W} {holes : List (Nat × W)} (he : (emit retAt st 0 0 haltAt 0 0).isSome = true)
    (hl : (exLayout st nv).Laid exBuf vals) {Q : Out → Mem → Prop}
    (h : Wp (exLayout st nv) st ((exLayout st nv).view ((exLayout st nv).mem exBuf vals holes)) Q) :
    ∃ o m', Reaches ⟨(exLayout st nv).mem exBuf vals holes, exEntry st⟩ ⟨m', o.dest haltAt 0 0 retAt⟩ ∧ Q o ((exLayout st nv).view m') := by
  obtain ⟨o, s', h1, h2⟩ := h.runs hl.wf (exCode he)
  obtain ⟨m', r, -, hv⟩ := h1 _ (hl.ok holes).1 rfl
  exact ⟨o, m', r, by rw [hv]; exact h2⟩

end Eud.SC
