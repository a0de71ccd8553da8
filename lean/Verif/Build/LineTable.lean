/-
C15: the line tables of compiled scripts (src/eudplib/epscript/linetable_calculator.py, the code for Python 3.11 and later, which
src/rust/eudplib-epscript/src/linetable.rs repeats).  Bytes are natural numbers.
-/

namespace Eud.LineTable

/-! ## Model -/

/-- linetable_calculator.py:274-283 `_encode_varint` -/
def varint (n : Nat) : List Nat :=
  if n ≥ 0x40 then ((n &&& 0x3F) ||| 64) :: varint (n >>> 6) else [n ||| 0]
termination_by n
decreasing_by simp only [Nat.shiftRight_eq_div_pow]; omega

/-- linetable_calculator.py:285-290 `_encode_svarint` -/
def svarint (d : Int) : List Nat := varint (if d < 0 then (d.natAbs <<< 1) ||| 1 else d.natAbs <<< 1)

/-- linetable_calculator.py:292-301 `_encode_bytecode_to_entries_py311` -/
def entries (d : Int) (n : Nat) : List Nat :=
  if n = 0 then []
  else if n ≤ 8 then (0b11101000 ||| (n - 1)) :: svarint d
  else ((0b11101000 ||| (8 - 1)) :: svarint d) ++ entries d (n - 8)
termination_by n

/-- An instruction: the mapped line, if it starts one, and its size in code units of two bytes (with its caches). -/
structure Instr where
  line : Option Int
  size : Nat

/-- The loop of `assemble` (linetable_calculator.py:138-154) with `calc_linetable_py311` (289-305) and `update_cursor` (214-218):
`line`, `pos` are `cur_lineno`, `cur_bytecode`; `len` is the length of the code so far (all in code units); then the end hook (156-158). -/
def assembleFrom (line : Int) (pos len : Nat) : List Instr → List Nat
  | [] => entries 0 (len - pos)
  | i :: l =>
    let d := match i.line with
      | some x => x - line
      | none => 0
    entries d (len - pos) ++ assembleFrom (i.line.getD line) len (len + i.size) l

/-- linetable_calculator.py:116-163 `assemble` -/
def assemble (firstlineno : Int) (l : List Instr) : List Nat := assembleFrom firstlineno 0 0 l

/-! ## The format: https://github.com/python/cpython/blob/3.11/Objects/locations.md -/

/-- A variable-length number: six bits a byte, least significant first, bit 6 set on all but the last. -/
def rdVar : List Nat → Option (Nat × List Nat)
  | [] => none
  | b :: l => if b / 64 % 2 = 1 then (rdVar l).map fun p => (b % 64 + 64 * p.1, p.2) else some (b % 64, l)

/-- A signed one: the lowest bit is the sign. -/
def toSigned (u : Nat) : Int := if u % 2 = 1 then -(u / 2 : Nat) else (u / 2 : Nat)

/-- The line of every code unit, for tables of entries of form 13 (no column info): `1 1101 lll` for `lll + 1` code units, then the
difference of the line to the entry before. -/
def decode (line : Int) : Nat → List Nat → Option (List Int)
  | 0, l => if l = [] then some [] else none
  | f + 1, l => match l with
    | [] => some []
    | b :: l =>
      if b / 8 = 29 then (rdVar l).bind fun p => (decode (line + toSigned p.1) f p.2).map fun r => List.replicate (b % 8 + 1) (line + toSigned p.1) ++ r
      else none

/-! ## Proofs -/

theorem or64 {x : Nat} (h : x < 64) : x ||| 64 = x + 64 := by
  have : 64 + x = 64 ||| x := Nat.two_pow_add_eq_or_of_lt (i := 6) (b := x) h 1
  rw [Nat.or_comm]
  omega

theorem or1 (x : Nat) : (x <<< 1) ||| 1 = 2 * x + 1 := by
  have := Nat.two_pow_add_eq_or_of_lt (i := 1) (b := 1) (by decide) x
  rw [Nat.shiftLeft_eq, Nat.mul_comm]
  omega

theorem orHead {n : Nat} (h : n < 8) : 0b11101000 ||| n = 232 + n := by
  have : 232 + n = 232 ||| n := Nat.two_pow_add_eq_or_of_lt (i := 3) (b := n) h 29
  omega

theorem rdVar_varint (n : Nat) (l : List Nat) : rdVar (varint n ++ l) = some (n, l) := by
  induction n using varint.induct with
  | case1 n h ih =>
    rw [varint, if_pos h, List.cons_append, rdVar]
    have h63 : n &&& 0x3F = n % 64 := Nat.and_two_pow_sub_one_eq_mod n 6
    rw [h63, or64 (by omega), if_pos (by omega), ih, Option.map_some]
    simp only [Nat.shiftRight_eq_div_pow]
    congr 2
    omega
  | case2 n h =>
    rw [varint, if_neg h, List.singleton_append, rdVar, Nat.or_zero, if_neg (by omega)]
    congr 2
    omega

theorem toSigned_enc (d : Int) : toSigned (if d < 0 then (d.natAbs <<< 1) ||| 1 else d.natAbs <<< 1) = d := by
  unfold toSigned
  by_cases h : d < 0
  · rw [if_pos h, or1, if_pos (by omega)]
    omega
  · rw [if_neg h, Nat.shiftLeft_eq, if_neg (by omega)]
    omega

/-- One entry, with the rest of the table. -/
theorem decode_entry (line d : Int) {n : Nat} (hn : n < 8) (f : Nat) (l : List Nat) :
    decode line (f + 1) ((0b11101000 ||| n) :: svarint d ++ l) = (decode (line + d) f l).map fun r => List.replicate (n + 1) (line + d) ++ r := by
  rw [List.cons_append, decode, orHead hn, if_pos (by omega), svarint, rdVar_varint, Option.bind_some, toSigned_enc, show (232 + n) % 8 = n by omega]

theorem decode_mono {line : Int} {r : List Int} : ∀ {f g : Nat} {l : List Nat}, f ≤ g → decode line f l = some r → decode line g l = some r := by
  intro f
  induction f generalizing line r with
  | zero =>
    intro g l _ h
    simp only [decode] at h
    split at h
    · rename_i hl
      subst hl
      cases h
      cases g <;> rfl
    · simp at h
  | succ f ih =>
    intro g l hg h
    obtain ⟨g, rfl⟩ : ∃ g', g = g' + 1 := ⟨g - 1, by omega⟩
    simp only [decode] at h ⊢
    split at h
    · exact h
    · rename_i b l
      split at h
      · rename_i hb
        simp only [hb, if_true] at h ⊢
        obtain ⟨p, hp, h⟩ := Option.bind_eq_some_iff.1 h
        obtain ⟨s, hs, rfl⟩ := Option.map_eq_some_iff.1 h
        rw [hp, Option.bind_some, ih (by omega) hs, Option.map_some]
      · simp at h

/-- The lines an interpreter reports, if the table is well formed. -/
def Lines (line : Int) (l : List Nat) (r : List Int) : Prop := ∃ f, decode line f l = some r

/-- The lines are determined. -/
theorem Lines.unique {line : Int} {l : List Nat} {r s : List Int} (h : Lines line l r) (h' : Lines line l s) : r = s := by
  obtain ⟨f, hf⟩ := h
  obtain ⟨g, hg⟩ := h'
  have h1 := decode_mono (Nat.le_max_left f g) hf
  have h2 := decode_mono (Nat.le_max_right f g) hg
  exact Option.some.inj (h1.symm.trans h2)

/-- The lines that the entries for `n` code units give: the difference is added again every eight units. -/
def rep (line d : Int) (n : Nat) : List Int :=
  if n = 0 then [] else if n ≤ 8 then List.replicate n (line + d) else List.replicate 8 (line + d) ++ rep (line + d) d (n - 8)
termination_by n

theorem Lines.entries (d : Int) (n : Nat) : ∀ {line : Int} {l : List Nat} {r : List Int},
    Lines (line + d * (((n + 7) / 8 : Nat) : Int)) l r → Lines line (entries d n ++ l) (rep line d n ++ r) := by
  induction n using LineTable.entries.induct with
  | case1 =>
    intro line l r h
    unfold LineTable.entries rep
    simpa using h
  | case2 n h0 h8 =>
    rintro line l r ⟨f, hf⟩
    have h1 : (n + 7) / 8 = 1 := by omega
    rw [h1, show d * ((1 : Nat) : Int) = d by omega] at hf
    refine ⟨f + 1, ?_⟩
    unfold LineTable.entries rep
    rw [if_neg h0, if_pos h8, if_neg h0, if_pos h8, decode_entry line d (by omega), hf, Option.map_some, show n - 1 + 1 = n by omega]
  | case3 n h0 h8 ih =>
    intro line l r h
    have h1 : (((n + 7) / 8 : Nat) : Int) = 1 + (((n - 8 + 7) / 8 : Nat) : Int) := by omega
    rw [h1, Int.mul_add, Int.mul_one, ← Int.add_assoc] at h
    obtain ⟨f, hf⟩ := ih h
    refine ⟨f + 1, ?_⟩
    unfold LineTable.entries rep
    rw [if_neg h0, if_neg h8, if_neg h0, if_neg h8, List.append_assoc, decode_entry line d (by decide), hf, Option.map_some, List.append_assoc]

/-- The mapped line of an instruction: that of the last instruction that starts a line. -/
def lineAt (first : Int) : List Instr → List Int
  | [] => []
  | i :: l => i.line.getD first :: lineAt (i.line.getD first) l

/-- The wanted lines of the code units. -/
def wanted (first : Int) (l : List Instr) : List Int :=
  ((lineAt first l).zip l).flatMap fun p => List.replicate p.2.size p.1

/-- What the interpreter reports instead: every instruction has the line of its successor. -/
def shifted (first : Int) : List Instr → List Int
  | [] => []
  | [i] => List.replicate i.size (i.line.getD first)
  | i :: j :: l => List.replicate i.size (j.line.getD (i.line.getD first)) ++ shifted (i.line.getD first) (j :: l)

/-- The lines are differences: moving the first line moves all. -/
theorem decode_shift (k : Int) : ∀ (f : Nat) (line : Int) (l : List Nat), decode (line + k) f l = (decode line f l).map (List.map (· + k))
  | 0, line, l => by simp only [decode]; split <;> simp
  | f + 1, line, l => by
    simp only [decode]
    split
    · rfl
    · split
      · rename_i b l _
        cases rdVar l with
        | none => rfl
        | some p =>
          have := decode_shift k f (line + toSigned p.1) p.2
          rw [show line + toSigned p.1 + k = line + k + toSigned p.1 by omega] at this
          simp only [Option.bind_some, this, Option.map_map]
          congr 1
          funext r
          simp only [Function.comp_apply, List.map_append, List.map_replicate]
          congr 2
          omega
      · rfl

theorem Lines.shift {line : Int} {l : List Nat} {r : List Int} (k : Int) (h : Lines line l r) : Lines (line + k) l (r.map (· + k)) := by
  obtain ⟨f, hf⟩ := h
  exact ⟨f, by rw [decode_shift, hf]; rfl⟩

theorem entries_zero (d : Int) : entries d 0 = [] := by rw [entries]; simp

theorem rep_small {line d : Int} {n : Nat} (h : n ≤ 8) : rep line d n = List.replicate n (line + d) := by
  rw [rep]
  by_cases h0 : n = 0
  · subst h0; simp
  · rw [if_neg h0, if_pos h]

theorem div8 {n : Nat} (h0 : 0 < n) (h : n ≤ 8) (d : Int) : d * (((n + 7) / 8 : Nat) : Int) = d := by
  rw [show (n + 7) / 8 = 1 by omega]; omega

/-- The loop in the middle: `i` is the instruction before. -/
theorem assembleFrom_lines : ∀ (l : List Instr) (i : Instr) (first : Int) (pos : Nat), (∀ j ∈ i :: l, 0 < j.size ∧ j.size ≤ 8) →
    Lines (i.line.getD first) (assembleFrom (i.line.getD first) pos (pos + i.size) l) (shifted first (i :: l))
  | [], i, first, pos, h => by
    have hi := h i (by simp)
    have := Lines.entries (0 : Int) i.size (line := i.line.getD first) (l := []) (r := []) ⟨0, rfl⟩
    rw [rep_small hi.2, Int.add_zero] at this
    simpa [assembleFrom, shifted] using this
  | j :: l, i, first, pos, h => by
    have hi := h i (by simp)
    have ih := assembleFrom_lines l j (i.line.getD first) (pos + i.size) (fun k hk => h k (List.mem_cons_of_mem _ hk))
    have hd : (match j.line with | some x => x - i.line.getD first | none => 0) = j.line.getD (i.line.getD first) - i.line.getD first := by
      cases j.line with
      | none => simp
      | some x => rfl
    simp only [assembleFrom, shifted, Nat.add_sub_cancel_left]
    have e := Lines.entries (j.line.getD (i.line.getD first) - i.line.getD first) i.size (line := i.line.getD first) (r := shifted (i.line.getD first) (j :: l))
      (l := assembleFrom (j.line.getD (i.line.getD first)) (pos + i.size) (pos + i.size + j.size) l)
      (by rw [div8 hi.1 hi.2, show i.line.getD first + (j.line.getD (i.line.getD first) - i.line.getD first) = j.line.getD (i.line.getD first) by omega]; exact ih)
    rw [rep_small hi.2, show i.line.getD first + (j.line.getD (i.line.getD first) - i.line.getD first) = j.line.getD (i.line.getD first) by omega] at e
    cases hj : j.line with
    | none => rw [hj] at e hd; simp only [Option.getD_none, Int.sub_self] at e; exact e
    | some x => rw [hj] at e; exact e

/-- **C15 (what the tables say).** For instructions of at most eight code units, the table is well formed and gives every instruction the
line of its *successor*, all moved by the difference between the first line and that of the first instruction.  The whole property is
false, see `C15_counterexample` and `C15_counterexample_long`. -/
theorem C15_lines_partial (first : Int) (i : Instr) (l : List Instr) (h : ∀ j ∈ i :: l, 0 < j.size ∧ j.size ≤ 8) :
    Lines first (assemble first (i :: l)) ((shifted first (i :: l)).map (· + (first - i.line.getD first))) := by
  have h1 : assemble first (i :: l) = assembleFrom (i.line.getD first) 0 (0 + i.size) l := by
    simp only [assemble, assembleFrom, Nat.sub_self, entries_zero, List.nil_append]
  rw [h1]
  have := (assembleFrom_lines l i first 0 h).shift (first - i.line.getD first)
  rwa [show i.line.getD first + (first - i.line.getD first) = first by omega] at this

/-- Consequence: a script whose instructions all have the first line is decoded correctly. -/
theorem C15_constant_partial (first : Int) (l : List Instr) (hl : l ≠ []) (hs : ∀ j ∈ l, 0 < j.size ∧ j.size ≤ 8) (hc : ∀ j ∈ l, j.line.getD first = first) :
    Lines first (assemble first l) (wanted first l) := by
  have key : ∀ l : List Instr, (∀ j ∈ l, j.line.getD first = first) → shifted first l = wanted first l := by
    intro l
    induction l with
    | nil => intro _; rfl
    | cons i l ih =>
      intro h
      have hi := h i (by simp)
      have ih' := ih (fun j hj => h j (by simp [hj]))
      cases l with
      | nil => simp [shifted, wanted, lineAt]
      | cons j l =>
        have hj := h j (by simp)
        simp only [shifted, hi, hj]
        rw [ih']
        simp only [wanted, lineAt, hi, hj, List.zip_cons_cons, List.flatMap_cons]
  cases l with
  | nil => exact absurd rfl hl
  | cons i l =>
    have := C15_lines_partial first i l hs
    rw [hc i (by simp), Int.sub_self, key _ hc] at this
    simpa using this

/-- **C15 is false**: two instructions on lines 1 and 2, the first is reported on line 2. -/
theorem C15_counterexample : Lines 1 (assemble 1 [⟨some 1, 1⟩, ⟨some 2, 1⟩]) [2, 2] ∧ wanted 1 [⟨some 1, 1⟩, ⟨some 2, 1⟩] = [1, 2] := by
  refine ⟨?_, by decide⟩
  have := C15_lines_partial 1 ⟨some 1, 1⟩ [⟨some 2, 1⟩] (by decide)
  exact this

/-- **C15 is false** for instructions of more than eight code units: the difference is counted twice. -/
theorem C15_counterexample_long : Lines 1 (assemble 1 [⟨some 1, 11⟩, ⟨some 2, 1⟩]) [2, 2, 2, 2, 2, 2, 2, 2, 3, 3, 3, 3] := by
  refine ⟨10, ?_⟩
  have h : assemble 1 [⟨some 1, 11⟩, ⟨some 2, 1⟩] = [0xEF, 2, 0xEA, 2, 0xE8, 0] := by
    simp [assemble, assembleFrom, entries, svarint, varint]
  rw [h]
  decide

/-- The hypotheses of `C15_lines_partial` with lines going up and down. -/
example : Lines 5 (assemble 5 [⟨some 5, 1⟩, ⟨none, 6⟩, ⟨some 300, 2⟩, ⟨some 7, 1⟩]) [5, 300, 300, 300, 300, 300, 300, 7, 7, 7] :=
  C15_lines_partial 5 ⟨some 5, 1⟩ [⟨none, 6⟩, ⟨some 300, 2⟩, ⟨some 7, 1⟩] (by decide)

end Eud.LineTable
