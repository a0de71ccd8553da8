import Verif.Machine.Emit
import Verif.Machine.Call
/-
Placing structured code that calls functions, for examples.
-/

namespace Eud.SC

/-- A call: the function, where it comes back to, results and arguments. -/
structure Site where
  fstart : Nat
  fend : Nat
  nptr : Nat
  back : Nat
  body : Stmt
  rs : List (Nat × Nat)
  args : List (Nat × Src)

def Site.stmt (c : Site) (L : Layout) : Stmt := .prim (CallRel L c.fend c.nptr c.back c.body c.rs c.args)

/-- Statements with calls. -/
inductive ES where
  | base (st : Stmt)
  | seq (p q : ES)
  | ite (pre : ES) (cs : List PC) (p q : ES)
  | loop (neg : Bool) (pre : ES) (cs : List PC) (body inc : ES)
  | site (j : Nat)

def ES.stmt (f : Nat → Stmt) : ES → Stmt
  | .base st => st
  | .seq p q => .seq (p.stmt f) (q.stmt f)
  | .ite pre cs p q => .ite (pre.stmt f) cs (p.stmt f) (q.stmt f)
  | .loop neg pre cs body inc => .loop neg (pre.stmt f) cs (body.stmt f) (inc.stmt f)
  | .site j => f j

/-- Emit `st` so that it goes on at `x`. -/
def emitP (r : Nat) (S : Nat → Site) : ES → (b k x n m : Nat) → Option Emitted
  | .base st, b, k, x, n, m => emit r st b k x n m
  | .site j, _, _, x, n, m => if x = (S j).back ∧ x < 2 ^ 32 then match emitAsg (S j).fstart m (callAsg (S j).nptr x (S j).rs (S j).args) with
      | some (e, Q) => some ⟨e, n, m + Q.length, [], Q, []⟩
      | none => none
    else none
  | .seq p q, b, k, x, n, m => match emitP r S q b k x n m with
    | none => none
    | some B => match emitP r S p b k B.e B.n B.m with
      | none => none
      | some A => some ⟨A.e, A.n, A.m, B.blks ++ A.blks, B.seqs ++ A.seqs, B.rest ++ A.rest⟩
  | .ite pre cs p q, b, k, x, n, m => match emitP r S p b k x (n + 2) m with
    | none => none
    | some A => match emitP r S q b k x A.n A.m with
      | none => none
      | some B => match emitP r S pre b k (trigAt n) B.n B.m with
        | none => none
        | some C => if brOk n cs then
            some ⟨C.e, C.n, C.m, emitBr n cs A.e B.e ++ A.blks ++ B.blks ++ C.blks, A.seqs ++ B.seqs ++ C.seqs,
              (trigAt n, B.e) :: (A.rest ++ B.rest ++ C.rest)⟩ else none
  | .loop neg pre cs body inc, _, _, x, n, m => match emitP r S pre x 0 (trigAt n) (n + 2) m with
    | none => none
    | some A => match emitP r S inc x 0 A.e A.n A.m with
      | none => none
      | some B => match emitP r S body x B.e B.e B.n B.m with
        | none => none
        | some C => match emitP r S pre x B.e (trigAt n) (n + 2) m, emitP r S inc x B.e A.e A.n A.m with
          | some A', some B' =>
            if brOk n cs ∧ A'.e = A.e ∧ B'.e = B.e then
              some ⟨A.e, C.n, C.m, emitBr n cs (if neg then x else C.e) (if neg then C.e else x) ++ A'.blks ++ B'.blks ++ C.blks,
                A'.seqs ++ B'.seqs ++ C.seqs, (trigAt n, if neg then C.e else x) :: (A'.rest ++ B'.rest ++ C.rest)⟩ else none
          | _, _ => none

/-- What `emitP` returns is code for the statement. -/
theorem emitP_code {L : Layout} {r : Nat} {S : Nat → Site} (hw : L.Wf) (hF : ∀ j, FuncCode L (S j).fstart (S j).fend (S j).nptr ((S j).rs.map Prod.fst) (S j).body)
    (hn : ∀ j, ∀ r ∈ (S j).rs, r.1 + 4 ≠ (S j).nptr) :
    ∀ {st : ES} {b k x n m : Nat} {E : Emitted}, emitP r S st b k x n m = some E → E.Into L → Code L r b k (st.stmt fun j => (S j).stmt L) E.e x
  | .base st, _, _, _, _, _, _, h, hi => emit_code h hi
  | .site j, _, _, x, _, _, _, h, hi => by
    simp only [emitP] at h
    split at h
    · rename_i hx
      split at h
      · rename_i hq
        cases h
        obtain ⟨rfl, hx2⟩ := hx
        exact C31_call hw (hF j) ⟨⟨0, 0, 0, emitAsg_code hq hi.seqs _ _ _⟩, hx2⟩ (hn j) _ _ _
      · cases h
    · cases h
  | .seq p q, _, _, _, _, _, _, h, hi => by
    simp only [emitP] at h
    split at h
    · cases h
    · rename_i B hB
      split at h
      · cases h
      · rename_i A hA
        cases h
        refine .seq (emitP_code hw hF hn (E := A) hA ⟨?_, ?_, ?_⟩) (emitP_code hw hF hn hB ⟨?_, ?_, ?_⟩)
        · exact fun b hb => hi.blks b (by simp [hb])
        · exact fun b hb => hi.seqs b (by simp [hb])
        · exact fun b hb => hi.rest b (by simp [hb])
        · exact fun b hb => hi.blks b (by simp [hb])
        · exact fun b hb => hi.seqs b (by simp [hb])
        · exact fun b hb => hi.rest b (by simp [hb])
  | .ite pre cs p q, _, _, _, _, _, _, h, hi => by
    simp only [emitP] at h
    split at h
    · cases h
    · rename_i A hA
      split at h
      · cases h
      · rename_i B hB
        split at h
        · cases h
        · rename_i C hC
          split at h
          · rename_i hbr
            cases h
            refine .ite (emitP_code hw hF hn (E := C) hC ⟨?_, ?_, ?_⟩) (emitBr_at hbr ?_ ?_) (emitP_code hw hF hn hA ⟨?_, ?_, ?_⟩) (emitP_code hw hF hn hB ⟨?_, ?_, ?_⟩)
            · exact fun b hb => hi.blks b (by simp [hb])
            · exact fun b hb => hi.seqs b (by simp [hb])
            · exact fun b hb => hi.rest b (by simp [hb])
            · exact fun b hb => hi.blks b (by simp [hb])
            · exact hi.rest _ (by simp)
            · exact fun b hb => hi.blks b (by simp [hb])
            · exact fun b hb => hi.seqs b (by simp [hb])
            · exact fun b hb => hi.rest b (by simp [hb])
            · exact fun b hb => hi.blks b (by simp [hb])
            · exact fun b hb => hi.seqs b (by simp [hb])
            · exact fun b hb => hi.rest b (by simp [hb])
          · cases h
  | .loop neg pre cs body inc, _, _, x, n, m, _, h, hi => by
    simp only [emitP] at h
    split at h
    · cases h
    · rename_i A hA
      split at h
      · cases h
      · rename_i B hB
        split at h
        · cases h
        · rename_i C hC
          split at h
          · rename_i A' B' hA' hB'
            split at h
            · rename_i hh
              cases h
              obtain ⟨hbr, e1, e2⟩ := hh
              refine .loop (c := trigAt n) (ta := C.e) (i := B.e) (e1 ▸ emitP_code hw hF hn hA' ⟨?_, ?_, ?_⟩) (emitBr_at hbr ?_ ?_) (emitP_code hw hF hn hC ⟨?_, ?_, ?_⟩)
                (by have q : Code L r x B.e (inc.stmt fun j => (S j).stmt L) B'.e A.e := emitP_code hw hF hn hB' ⟨fun b hb => hi.blks b (by simp [hb]), fun b hb => hi.seqs b (by simp [hb]), fun b hb => hi.rest b (by simp [hb])⟩
                    rw [e2] at q; exact q)
              · exact fun b hb => hi.blks b (by simp [hb])
              · exact fun b hb => hi.seqs b (by simp [hb])
              · exact fun b hb => hi.rest b (by simp [hb])
              · exact fun b hb => hi.blks b (by simp [hb])
              · exact hi.rest _ (by simp)
              · exact fun b hb => hi.blks b (by simp [hb])
              · exact fun b hb => hi.seqs b (by simp [hb])
              · exact fun b hb => hi.rest b (by simp [hb])
            · cases h
          · cases h

/-- The bodies of the functions do not matter. -/
theorem emitP_congr {r : Nat} {S S' : Nat → Site} (h : ∀ j, (S j).fstart = (S' j).fstart ∧ (S j).nptr = (S' j).nptr ∧ (S j).back = (S' j).back ∧
    (S j).rs = (S' j).rs ∧ (S j).args = (S' j).args) : ∀ (st : ES) (b k x n m : Nat), emitP r S st b k x n m = emitP r S' st b k x n m
  | .base st, _, _, _, _, _ => rfl
  | .site j, _, _, _, _, _ => by
    obtain ⟨h1, h2, h3, h4, h5⟩ := h j
    simp only [emitP, h1, h2, h3, h4, h5]
  | .seq p q, _, _, _, _, _ => by simp only [emitP, emitP_congr h p, emitP_congr h q]
  | .ite pre cs p q, _, _, _, _, _ => by simp only [emitP, emitP_congr h pre, emitP_congr h p, emitP_congr h q]
  | .loop neg pre cs body inc, _, _, _, _, _ => by simp only [emitP, emitP_congr h pre, emitP_congr h body, emitP_congr h inc]

/-! Blocks can be compared. -/

instance : DecidableEq Mod := fun a b => by cases a <;> cases b <;> first | exact isTrue rfl | exact isFalse (by intro h; cases h)
instance : DecidableEq Cmp := fun a b => by cases a <;> cases b <;> first | exact isTrue rfl | exact isFalse (by intro h; cases h)
deriving instance DecidableEq for Dst
deriving instance DecidableEq for SAct
deriving instance DecidableEq for SCnd
deriving instance DecidableEq for STrig
deriving instance DecidableEq for SBlk
deriving instance DecidableEq for Act
deriving instance DecidableEq for Cnd
deriving instance DecidableEq for Trig
deriving instance DecidableEq for Blk

def Emitted.none : Emitted := ⟨0, 0, 0, [], [], []⟩

end Eud.SC
