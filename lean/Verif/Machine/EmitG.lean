import Verif.Machine.EmitP
/-
Placing structured code around pieces of code that are placed in some other way, for examples.
-/

namespace Eud.SC

/-- Emit `st` so that it goes on at `x`. -/
def emitG (r : Nat) (S : Nat → (b k x n m : Nat) → Option Emitted) : ES → (b k x n m : Nat) → Option Emitted
  | .base st, b, k, x, n, m => emit r st b k x n m
  | .site j, b, k, x, n, m => S j b k x n m
  | .seq p q, b, k, x, n, m => match emitG r S q b k x n m with
    | none => none
    | some B => match emitG r S p b k B.e B.n B.m with
      | none => none
      | some A => some ⟨A.e, A.n, A.m, B.blks ++ A.blks, B.seqs ++ A.seqs, B.rest ++ A.rest⟩
  | .ite pre cs p q, b, k, x, n, m => match emitG r S p b k x (n + 2) m with
    | none => none
    | some A => match emitG r S q b k x A.n A.m with
      | none => none
      | some B => match emitG r S pre b k (trigAt n) B.n B.m with
        | none => none
        | some C => if brOk n cs then
            some ⟨C.e, C.n, C.m, emitBr n cs A.e B.e ++ A.blks ++ B.blks ++ C.blks, A.seqs ++ B.seqs ++ C.seqs,
              (trigAt n, B.e) :: (A.rest ++ B.rest ++ C.rest)⟩ else none
  | .loop neg pre cs body inc, _, _, x, n, m => match emitG r S pre x 0 (trigAt n) (n + 2) m with
    | none => none
    | some A => match emitG r S inc x 0 A.e A.n A.m with
      | none => none
      | some B => match emitG r S body x B.e B.e B.n B.m with
        | none => none
        | some C => match emitG r S pre x B.e (trigAt n) (n + 2) m, emitG r S inc x B.e A.e A.n A.m with
          | some A', some B' =>
            if brOk n cs ∧ A'.e = A.e ∧ B'.e = B.e then
              some ⟨A.e, C.n, C.m, emitBr n cs (if neg then x else C.e) (if neg then C.e else x) ++ A'.blks ++ B'.blks ++ C.blks,
                A'.seqs ++ B'.seqs ++ C.seqs, (trigAt n, if neg then C.e else x) :: (A'.rest ++ B'.rest ++ C.rest)⟩ else none
          | _, _ => none

/-- What `emitG` returns is code for the statement. -/
theorem emitG_code {L : Layout} {r : Nat} {S : Nat → (b k x n m : Nat) → Option Emitted} {f : Nat → Stmt}
    (hP : ∀ j b k x n m E, S j b k x n m = some E → E.Into L → Code L r b k (f j) E.e x) :
    ∀ {st : ES} {b k x n m : Nat} {E : Emitted}, emitG r S st b k x n m = some E → E.Into L → Code L r b k (st.stmt f) E.e x
  | .base st, _, _, _, _, _, _, h, hi => emit_code h hi
  | .site j, _, _, _, _, _, _, h, hi => hP j _ _ _ _ _ _ h hi
  | .seq p q, _, _, _, _, _, _, h, hi => by
    simp only [emitG] at h
    split at h
    · cases h
    · rename_i B hB
      split at h
      · cases h
      · rename_i A hA
        cases h
        refine .seq (emitG_code hP (E := A) hA ⟨?_, ?_, ?_⟩) (emitG_code hP hB ⟨?_, ?_, ?_⟩)
        · exact fun b hb => hi.blks b (by simp [hb])
        · exact fun b hb => hi.seqs b (by simp [hb])
        · exact fun b hb => hi.rest b (by simp [hb])
        · exact fun b hb => hi.blks b (by simp [hb])
        · exact fun b hb => hi.seqs b (by simp [hb])
        · exact fun b hb => hi.rest b (by simp [hb])
  | .ite pre cs p q, _, _, _, _, _, _, h, hi => by
    simp only [emitG] at h
    split at h
    · cases h
    · rename_i A hA
      split at h
      · cases h
      · rename_i B hB
        split at h
        · cases h
        · rename_i C hC
          split at h
          · rename_i hbr
            cases h
            refine .ite (emitG_code hP (E := C) hC ⟨?_, ?_, ?_⟩) (emitBr_at hbr ?_ ?_) (emitG_code hP hA ⟨?_, ?_, ?_⟩) (emitG_code hP hB ⟨?_, ?_, ?_⟩)
            · exact fun b hb => hi.blks b (by simp [hb])
            · exact fun b hb => hi.seqs b (by simp [hb])
            · exact fun b hb => hi.rest b (by simp [hb])
            · exact fun b hb => hi.blks b (by simp [hb])
            · exact hi.rest _ (by simp)
            · exact fun b hb => hi.blks b (by simp [hb])
            · exact fun b hb => hi.seqs b (by simp [hb])
            · exact fun b hb => hi.rest b (by simp [hb])
            · exact fun b hb => hi.blks b (by simp [hb])
            · exact fun b hb => hi.seqs b (by simp [hb])
            · exact fun b hb => hi.rest b (by simp [hb])
          · cases h
  | .loop neg pre cs body inc, _, _, x, n, m, _, h, hi => by
    simp only [emitG] at h
    split at h
    · cases h
    · rename_i A hA
      split at h
      · cases h
      · rename_i B hB
        split at h
        · cases h
        · rename_i C hC
          split at h
          · rename_i A' B' hA' hB'
            split at h
            · rename_i hh
              cases h
              obtain ⟨hbr, e1, e2⟩ := hh
              refine .loop (c := trigAt n) (ta := C.e) (i := B.e) (e1 ▸ emitG_code hP hA' ⟨?_, ?_, ?_⟩) (emitBr_at hbr ?_ ?_) (emitG_code hP hC ⟨?_, ?_, ?_⟩)
                (by have q : Code L r x B.e (inc.stmt f) B'.e A.e := emitG_code hP hB' ⟨fun b hb => hi.blks b (by simp [hb]), fun b hb => hi.seqs b (by simp [hb]), fun b hb => hi.rest b (by simp [hb])⟩
                    rw [e2] at q; exact q)
              · exact fun b hb => hi.blks b (by simp [hb])
              · exact fun b hb => hi.seqs b (by simp [hb])
              · exact fun b hb => hi.rest b (by simp [hb])
              · exact fun b hb => hi.blks b (by simp [hb])
              · exact hi.rest _ (by simp)
              · exact fun b hb => hi.blks b (by simp [hb])
              · exact fun b hb => hi.seqs b (by simp [hb])
              · exact fun b hb => hi.rest b (by simp [hb])
            · cases h
          · cases h

end Eud.SC
