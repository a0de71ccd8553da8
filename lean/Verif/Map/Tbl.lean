import Verif.Map.Bytes
/-
C11, C12: the string table (src/eudplib/core/mapdata/tblformat.py).
Strings are byte strings: the conversions of `str` (`u2b`, `u2utf8`) are not modelled.
-/

namespace Eud.Map

/-- tblformat.py:54-55 -/
def roundup4 (n : Nat) : Nat := (n + 3) / 4 * 4

/-- tblformat.py:59-89.  `smap`: `_stringmap`; `index`: `_dataindextb`; `empties`: `_emptystring`, a slot with or without the string
that follows it; `first`: `_first_extended_string`.  The entry sizes are parameters of the functions. -/
structure Tbl where
  datatb : List Bytes
  smap : Bytes → Option Nat
  index : List Nat
  capacity : Nat
  empties : List (Nat × Option Bytes)
  loaded : Bool
  first : Option Bytes

/-- A new table; `e` is the entry size for saving. -/
def Tbl.new (e : Nat) : Tbl := ⟨[], fun _ => none, [], e, [], false, none⟩

/-- The assertions at the end of `AddString` and `ForceAddString`. -/
def Tbl.check (e : Nat) (t : Tbl) (i : Nat) : Option (Tbl × Nat) :=
  if t.capacity < 2 ^ (8 * e) ∧ i < 65535 then some (t, i) else none

/-- tblformat.py:267-322 `AddString`; `none` is an exception. -/
def Tbl.add (e : Nat) (t : Tbl) (s : Bytes) : Option (Tbl × Nat) :=
  match t.smap s with
  | some r => match t.index[r]? with
    | none => none
    | some d => Tbl.check e { t with index := t.index ++ [d], capacity := t.capacity + e } t.index.length
  | none =>
    match t.empties, t.loaded, t.first with
    | (i, nx) :: rest, true, some (x :: xs) =>
      match t.datatb.idxOf? (nx.getD (x :: xs)) with
      | none => none
      | some k =>
        if i < t.index.length then
          Tbl.check e { t with
            empties := rest
            datatb := t.datatb.insertIdx k s
            index := (t.index.map fun v => if v ≥ k then v + 1 else v).set i k
            capacity := t.capacity + roundup4 (s.length + 1)
            smap := fun u => if u = s then some i else t.smap u } i
        else none
    | _, _, _ =>
      Tbl.check e { t with
        first := some (t.first.getD s)
        datatb := t.datatb ++ [s]
        index := t.index ++ [t.datatb.length]
        capacity := t.capacity + roundup4 (s.length + 1) + e
        smap := fun u => if u = s then some t.index.length else t.smap u } t.index.length

/-- tblformat.py:383-407 `ForceAddString` -/
def Tbl.force (e : Nat) (t : Tbl) (s : Bytes) : Option (Tbl × Nat) :=
  Tbl.check e { t with
    datatb := t.datatb ++ [s]
    index := t.index ++ [t.datatb.length]
    capacity := t.capacity + roundup4 (s.length + 1) + e } t.index.length

/-- tblformat.py:324-332 `GetString` -/
def Tbl.getString (t : Tbl) : Nat → Option Bytes
  | 0 => none
  | n + 1 => t.index[n]?.bind fun d => t.datatb[d]?

/-- `get`: `GetStringIndex` (tblformat.py:330-337); `add`, `force`: `AddString`, `ForceAddString`. -/
inductive TblOp
  | add (s : Bytes)
  | get (s : Bytes)
  | force (s : Bytes)

def TblOp.str : TblOp → Bytes
  | .add s => s
  | .get s => s
  | .force s => s

/-- The new table and the string id handed out, counting from 1. -/
def Tbl.step (e : Nat) (t : Tbl) : TblOp → Option (Tbl × Nat)
  | .add s => (t.add e s).map fun p => (p.1, p.2 + 1)
  | .force s => (t.force e s).map fun p => (p.1, p.2 + 1)
  | .get s => match t.smap s with
    | some r => some (t, r + 1)
    | none => (t.add e s).map fun p => (p.1, p.2 + 1)

def Tbl.run (e : Nat) (t : Tbl) : List TblOp → Option Tbl
  | [] => some t
  | o :: w => (t.step e o).bind fun p => Tbl.run e p.1 w

/-! ## Loading -/

/-- `b2i2` or `b2i4` -/
def b2in (n : Nat) (b : Bytes) (k : Nat) : Option Nat := if n = 2 then b2i2 b k else if n = 4 then b2i4 b k else none

/-- The bytes up to the first zero; `none` if there is none (`IndexError`). -/
def scan : Bytes → Option Bytes
  | [] => none
  | x :: l => if x = 0 then some [] else (scan l).map (x :: ·)

/-- String `i` of a table with entry size `n`. -/
def readStr (n : Nat) (b : Bytes) (i : Nat) : Option Bytes := (b2in n b (i * n)).bind fun off => scan (b.drop off)

/-- The inner loop of `load_tbl` (tblformat.py:114-125): the first string that is not empty among the next `m`, skipping those `removed`. -/
def nextStr (n : Nat) (b : Bytes) (removed : Nat → Bool) : Nat → Nat → Option (Option Bytes)
  | _, 0 => some none
  | j, m + 1 =>
    if removed j then nextStr n b removed (j + 1) m
    else match readStr n b j with
      | none => none
      | some [] => nextStr n b removed (j + 1) m
      | some s => some (some s)

/-- The loop of `load_tbl` (tblformat.py:101-129) over strings `i, …, i + m - 1`. -/
def loadLoop (le e : Nat) (b : Bytes) : Nat → Nat → Tbl → Option Tbl
  | _, 0, t => some t
  | i, m + 1, t =>
    match readStr le b i with
    | none => none
    | some s =>
      if s = [] then
        match nextStr le b (fun _ => false) (i + 1) m with
        | none => none
        | some nx => ({ t with empties := t.empties ++ [(i - 1, nx)] }.add e s).bind fun p => loadLoop le e b (i + 1) m p.1
      else (t.add e s).bind fun p => loadLoop le e b (i + 1) m p.1

/-- tblformat.py:92-128 `load_tbl` on a new object. -/
def loadTbl (le e : Nat) (b : Bytes) : Option Tbl :=
  (b2in le b 0).bind fun n => (loadLoop le e b 1 n (Tbl.new e)).map fun t => { t with loaded := true }

/-- The loop of `load_tbl_with_chk` (tblformat.py:199-258).  `removed`: strings that are only names of locations or switches.  The name
tables filled on the way are not modelled, and `unit_name_encoding` is not set. -/
def loadLoopChk (le e : Nat) (b : Bytes) (removed : Nat → Bool) : Nat → Nat → Tbl → Option Tbl
  | _, 0, t => some t
  | i, m + 1, t =>
    match b2in le b (i * le) with
    | none => none
    | some off =>
      if off ≥ b.length then loadLoopChk le e b removed (i + 1) m t
      else
        let s := (scan (b.drop off)).getD (b.drop off)
        if s = [] ∨ removed i then
          match nextStr le b removed (i + 1) m with
          | none => none
          | some nx => ({ t with empties := t.empties ++ [(i - 1, nx)] }.add e []).bind fun p => loadLoopChk le e b removed (i + 1) m p.1
        else (t.add e s).bind fun p => loadLoopChk le e b removed (i + 1) m p.1

/-- tblformat.py:130-265 `load_tbl_with_chk` on a new object. -/
def loadTblChk (le e : Nat) (b : Bytes) (removed : Nat → Bool) : Option Tbl :=
  (b2in le b 0).bind fun n => (loadLoopChk le e b removed 1 n (Tbl.new e)).map fun t => { t with loaded := true }

/-! ## Saving -/

def i2bn (n : Nat) (i : Nat) : Bytes := if n = 2 then i2b2 i else i2b4 i

/-- The space taken by a string, and its bytes with zeros behind. -/
def padded (s : Bytes) : Bytes := s ++ List.replicate (roundup4 (s.length + 1) - s.length) 0

/-- Offsets of the strings from `o` on. -/
def offsets (o : Nat) : List Bytes → List Nat
  | [] => []
  | s :: l => o :: offsets (o + roundup4 (s.length + 1)) l

/-- tblformat.py:343-376 `save_tbl`; `none` is an `IndexError`. -/
def Tbl.save (e : Nat) (t : Tbl) : Option Bytes :=
  let n := e * (t.index.length + 1)
  let offs := offsets (roundup4 (e * t.index.length + e)) t.datatb
  (t.index.mapM fun d => offs[d]?).map fun os =>
    i2bn e t.index.length ++ (os.map (i2bn e)).flatten ++ List.replicate (roundup4 n - n) 0 ++ (t.datatb.map padded).flatten

/-! ## Invariants -/

def Tbl.at (t : Tbl) (r : Nat) : Option Bytes := t.index[r]?.bind fun d => t.datatb[d]?

theorem getString_succ (t : Tbl) (n : Nat) : t.getString (n + 1) = t.at n := rfl

structure TGood (e : Nat) (t : Tbl) : Prop where
  lt : ∀ v ∈ t.index, v < t.datatb.length
  map : ∀ s r, t.smap s = some r → r < t.index.length
  sound : ∀ s r, s ≠ [] → t.smap s = some r → t.at r = some s
  empty : ∀ p ∈ t.empties, t.at p.1 = some []
  nodup : (t.empties.map Prod.fst).Nodup
  cap : t.capacity = e + e * t.index.length + (t.datatb.map fun s => roundup4 (s.length + 1)).sum
  bound : t.capacity < 2 ^ (8 * e) ∧ t.index.length ≤ 65535

theorem at_some {t : Tbl} {r : Nat} {s : Bytes} (h : t.at r = some s) : r < t.index.length := by
  unfold Tbl.at at h
  obtain ⟨d, hd, -⟩ := Option.bind_eq_some_iff.1 h
  exact (List.getElem?_eq_some_iff.1 hd).1

theorem check_some {e : Nat} {t u : Tbl} {i j : Nat} (h : t.check e i = some (u, j)) : u = t ∧ j = i ∧ t.capacity < 2 ^ (8 * e) ∧ i < 65535 := by
  unfold Tbl.check at h
  split at h
  · rename_i hc
    cases h; exact ⟨rfl, rfl, hc⟩
  · simp at h

/-- Appending to the two lists does not change what is there. -/
theorem at_append {t u : Tbl} {x : List Nat} {y : List Bytes} (hi : u.index = t.index ++ x) (hd : u.datatb = t.datatb ++ y) {r : Nat} {s : Bytes}
    (h : t.at r = some s) : u.at r = some s := by
  unfold Tbl.at at h ⊢
  obtain ⟨d, h1, h2⟩ := Option.bind_eq_some_iff.1 h
  rw [hi, hd, List.getElem?_append_left (List.getElem?_eq_some_iff.1 h1).1, h1, Option.bind_some,
    List.getElem?_append_left (List.getElem?_eq_some_iff.1 h2).1, h2]

/-- Inserting a string and moving the indices does not change what is there, except in the slot set. -/
theorem at_insert {t u : Tbl} {i k : Nat} {s : Bytes} (hk : k ≤ t.datatb.length)
    (hi : u.index = (t.index.map fun v => if v ≥ k then v + 1 else v).set i k) (hd : u.datatb = t.datatb.insertIdx k s) :
    (∀ r x, r ≠ i → t.at r = some x → u.at r = some x) ∧ (i < t.index.length → u.at i = some s) := by
  constructor
  · intro r x hr h
    unfold Tbl.at at h ⊢
    obtain ⟨d, h1, h2⟩ := Option.bind_eq_some_iff.1 h
    rw [hi, hd, List.getElem?_set_ne (Ne.symm hr), List.getElem?_map, h1, Option.map_some, Option.bind_some, List.getElem?_insertIdx]
    by_cases hdk : d ≥ k
    · rw [if_pos hdk, if_neg (by omega), if_neg (by omega), Nat.add_sub_cancel]; exact h2
    · rw [if_neg hdk, if_pos (by omega)]; exact h2
  · intro hl
    unfold Tbl.at
    rw [hi, hd, List.getElem?_set_self (by simpa using hl), Option.bind_some, List.getElem?_insertIdx, if_neg (by omega), if_pos rfl, if_pos hk]

theorem idxOf_lt {l : List Bytes} {x : Bytes} {k : Nat} (h : l.idxOf? x = some k) : k < l.length := by
  have := List.findIdx?_eq_some_iff_findIdx_eq.1 (show l.findIdx? (· == x) = some k from h)
  exact this.1

/-- What an operation does: the id handed out denotes the string, if this is not empty, and everything that is not an empty slot stays. -/
structure StepOk (e : Nat) (t u : Tbl) (s : Bytes) (i : Nat) : Prop where
  good : TGood e u
  keep : ∀ r x, t.at r = some x → r ∉ t.empties.map Prod.fst → u.at r = some x ∧ r ∉ u.empties.map Prod.fst
  smap : ∀ v r, t.smap v = some r → u.smap v = some r
  den : s ≠ [] → u.at i = some s ∧ i ∉ u.empties.map Prod.fst

theorem sum_insertIdx (f : Bytes → Nat) (s : Bytes) : ∀ (l : List Bytes) (k : Nat), k ≤ l.length → ((l.insertIdx k s).map f).sum = (l.map f).sum + f s
  | l, 0, _ => by simp [Nat.add_comm]
  | [], k + 1, h => by simp at h
  | x :: l, k + 1, h => by
    have := sum_insertIdx f s l k (by simpa using h)
    simp only [List.insertIdx_succ_cons, List.map_cons, List.sum_cons, this]
    omega

theorem add_ok {e : Nat} {t u : Tbl} {s : Bytes} {i : Nat} (h : TGood e t) (ha : t.add e s = some (u, i)) : StepOk e t u s i := by
  unfold Tbl.add at ha
  split at ha
  · rename_i r hr
    split at ha
    · simp at ha
    · rename_i d hd
      obtain ⟨rfl, rfl, hc1, hc2⟩ := check_some ha
      have hat : ∀ r x, t.at r = some x → ({ t with index := t.index ++ [d], capacity := t.capacity + e } : Tbl).at r = some x :=
        fun r x hx => at_append (t := t) (u := { t with index := t.index ++ [d], capacity := t.capacity + e }) (x := [d]) (y := []) rfl (List.append_nil _).symm hx
      have hnew : ({ t with index := t.index ++ [d], capacity := t.capacity + e } : Tbl).at t.index.length = t.at r := by
        simp only [Tbl.at, List.getElem?_append_right (Nat.le_refl _), Nat.sub_self, List.getElem?_cons_zero, hd]
      refine ⟨⟨?_, ?_, ?_, ?_, h.nodup, ?_, hc1, ?_⟩, ?_, fun _ _ hx => hx, ?_⟩
      · intro v hv
        simp only [List.mem_append, List.mem_singleton] at hv
        rcases hv with hv | rfl
        · exact h.lt v hv
        · exact h.lt v (List.mem_of_getElem? hd)
      · intro s r hs
        simp only [List.length_append, List.length_singleton]
        exact Nat.lt_succ_of_lt (h.map s r hs)
      · exact fun s r hs hm => hat r s (h.sound s r hs hm)
      · exact fun p hp => hat _ _ (h.empty p hp)
      · simp only [List.length_append, List.length_singleton, Nat.mul_add]
        have := h.cap
        omega
      · simp only [List.length_append, List.length_singleton]; omega
      · exact fun r x hx hn => ⟨hat r x hx, hn⟩
      · intro hs
        refine ⟨hnew.trans (h.sound s r hs hr), ?_⟩
        intro hm
        obtain ⟨p, hp, he⟩ := List.mem_map.1 hm
        have := at_some (h.empty p hp)
        rw [he] at this
        exact Nat.lt_irrefl _ this
  · rename_i hn
    split at ha
    · rename_i j nx rest x xs he hl hf
      split at ha
      · simp at ha
      · rename_i k hk
        split at ha
        · rename_i hj
          obtain ⟨rfl, rfl, hc1, hc2⟩ := check_some ha
          have hkl := idxOf_lt hk
          obtain ⟨i1, i2⟩ := at_insert (t := t) (u := { t with
            empties := rest
            datatb := t.datatb.insertIdx k s
            index := (t.index.map fun v => if v ≥ k then v + 1 else v).set i k
            capacity := t.capacity + roundup4 (s.length + 1)
            smap := fun u => if u = s then some i else t.smap u }) (Nat.le_of_lt hkl) rfl rfl
          have hnd := h.nodup
          rw [he] at hnd
          simp only [List.map_cons, List.nodup_cons] at hnd
          have hdl : (t.datatb.insertIdx k s).length = t.datatb.length + 1 := List.length_insertIdx_of_le_length (Nat.le_of_lt hkl) s
          refine ⟨⟨?_, ?_, ?_, ?_, hnd.2, ?_, hc1, ?_⟩, ?_, ?_, ?_⟩
          · intro v hv
            simp only [hdl]
            rcases List.mem_or_eq_of_mem_set hv with hv | rfl
            · obtain ⟨w, hw, rfl⟩ := List.mem_map.1 hv
              have := h.lt w hw
              split <;> omega
            · omega
          · intro v r hv
            simp only [List.length_set, List.length_map]
            simp only at hv
            split at hv
            · cases hv; exact hj
            · exact h.map v r hv
          · intro v r hvs hv
            simp only at hv
            split at hv
            · rename_i hvs'
              cases hv; subst hvs'; exact i2 hj
            · have h1 := h.sound v r hvs hv
              refine i1 r v ?_ h1
              rintro rfl
              have := h.empty (r, nx) (by rw [he]; simp)
              rw [this] at h1
              exact hvs (Option.some.inj h1).symm
          · intro p hp
            refine i1 p.1 [] ?_ (h.empty p (by rw [he]; simp [hp]))
            intro hpi
            exact hnd.1 (List.mem_map.2 ⟨p, hp, hpi⟩)
          · simp only [List.length_set, List.length_map]
            rw [sum_insertIdx _ _ _ _ (Nat.le_of_lt hkl)]
            have := h.cap
            omega
          · simp only [List.length_set, List.length_map]; exact h.bound.2
          · intro r x hx hr
            rw [he] at hr
            simp only [List.map_cons, List.mem_cons, not_or] at hr
            exact ⟨i1 r x hr.1 hx, hr.2⟩
          · intro v r hv
            have : v ≠ s := by rintro rfl; rw [hn] at hv; simp at hv
            simp only [this, if_false]; exact hv
          · exact fun _ => ⟨i2 hj, hnd.1⟩
        · simp at ha
    · obtain ⟨rfl, rfl, hc1, hc2⟩ := check_some ha
      have hat : ∀ r x, t.at r = some x → ({ t with
        first := some (t.first.getD s)
        datatb := t.datatb ++ [s]
        index := t.index ++ [t.datatb.length]
        capacity := t.capacity + roundup4 (s.length + 1) + e
        smap := fun u => if u = s then some t.index.length else t.smap u } : Tbl).at r = some x :=
        fun r x hx => at_append (t := t) (x := [t.datatb.length]) (y := [s]) rfl rfl hx
      have hnew : ({ t with
        first := some (t.first.getD s)
        datatb := t.datatb ++ [s]
        index := t.index ++ [t.datatb.length]
        capacity := t.capacity + roundup4 (s.length + 1) + e
        smap := fun u => if u = s then some t.index.length else t.smap u } : Tbl).at t.index.length = some s := by
        simp only [Tbl.at, List.getElem?_append_right (Nat.le_refl _), Nat.sub_self, List.getElem?_cons_zero, Option.bind_some]
      refine ⟨⟨?_, ?_, ?_, ?_, h.nodup, ?_, hc1, ?_⟩, ?_, ?_, ?_⟩
      · intro v hv
        simp only [List.mem_append, List.mem_singleton] at hv
        simp only [List.length_append, List.length_singleton]
        rcases hv with hv | rfl
        · exact Nat.lt_succ_of_lt (h.lt v hv)
        · exact Nat.lt_succ_self _
      · intro v r hv
        simp only [List.length_append, List.length_singleton]
        simp only at hv
        split at hv
        · cases hv; exact Nat.lt_succ_self _
        · exact Nat.lt_succ_of_lt (h.map v r hv)
      · intro v r hvs hv
        simp only at hv
        split at hv
        · rename_i hvs'
          cases hv; subst hvs'; exact hnew
        · exact hat r v (h.sound v r hvs hv)
      · exact fun p hp => hat _ _ (h.empty p hp)
      · simp only [List.length_append, List.length_singleton, Nat.mul_add, List.map_append, List.sum_append, List.map_cons, List.map_nil, List.sum_cons,
          List.sum_nil]
        have := h.cap
        omega
      · simp only [List.length_append, List.length_singleton]; omega
      · exact fun r x hx hn => ⟨hat r x hx, hn⟩
      · intro v r hv
        have : v ≠ s := by rintro rfl; rw [hn] at hv; simp at hv
        simp only [this, if_false]; exact hv
      · intro hs
        refine ⟨hnew, ?_⟩
        intro hm
        obtain ⟨p, hp, he⟩ := List.mem_map.1 hm
        have := at_some (h.empty p hp)
        rw [he] at this
        exact Nat.lt_irrefl _ this

theorem force_ok {e : Nat} {t u : Tbl} {s : Bytes} {i : Nat} (h : TGood e t) (ha : t.force e s = some (u, i)) : StepOk e t u s i := by
  unfold Tbl.force at ha
  obtain ⟨rfl, rfl, hc1, hc2⟩ := check_some ha
  have hat : ∀ r x, t.at r = some x → ({ t with
    datatb := t.datatb ++ [s]
    index := t.index ++ [t.datatb.length]
    capacity := t.capacity + roundup4 (s.length + 1) + e } : Tbl).at r = some x :=
    fun r x hx => at_append (t := t) (x := [t.datatb.length]) (y := [s]) rfl rfl hx
  refine ⟨⟨?_, ?_, ?_, ?_, h.nodup, ?_, hc1, ?_⟩, fun r x hx hn => ⟨hat r x hx, hn⟩, fun _ _ hx => hx, ?_⟩
  · intro v hv
    simp only [List.mem_append, List.mem_singleton] at hv
    simp only [List.length_append, List.length_singleton]
    rcases hv with hv | rfl
    · exact Nat.lt_succ_of_lt (h.lt v hv)
    · exact Nat.lt_succ_self _
  · intro v r hv
    simp only [List.length_append, List.length_singleton]
    exact Nat.lt_succ_of_lt (h.map v r hv)
  · exact fun v r hvs hv => hat r v (h.sound v r hvs hv)
  · exact fun p hp => hat _ _ (h.empty p hp)
  · simp only [List.length_append, List.length_singleton, Nat.mul_add, List.map_append, List.sum_append, List.map_cons, List.map_nil, List.sum_cons,
      List.sum_nil]
    have := h.cap
    omega
  · simp only [List.length_append, List.length_singleton]; omega
  · intro hs
    refine ⟨by simp only [Tbl.at, List.getElem?_append_right (Nat.le_refl _), Nat.sub_self, List.getElem?_cons_zero, Option.bind_some], ?_⟩
    intro hm
    obtain ⟨p, hp, he⟩ := List.mem_map.1 hm
    have := at_some (h.empty p hp)
    rw [he] at this
    exact Nat.lt_irrefl _ this

theorem step_ok {e : Nat} {t u : Tbl} {o : TblOp} {n : Nat} (h : TGood e t) (hs : t.step e o = some (u, n)) : ∃ i, n = i + 1 ∧ StepOk e t u o.str i := by
  cases o with
  | add s =>
    obtain ⟨⟨u', i⟩, h1, h2⟩ := Option.map_eq_some_iff.1 hs
    cases h2
    exact ⟨i, rfl, add_ok h h1⟩
  | force s =>
    obtain ⟨⟨u', i⟩, h1, h2⟩ := Option.map_eq_some_iff.1 hs
    cases h2
    exact ⟨i, rfl, force_ok h h1⟩
  | get s =>
    simp only [Tbl.step] at hs
    split at hs
    · rename_i r hr
      cases hs
      refine ⟨r, rfl, h, fun _ _ hx hn => ⟨hx, hn⟩, fun _ _ hx => hx, fun hsne => ⟨h.sound s r hsne hr, ?_⟩⟩
      intro hm
      obtain ⟨p, hp, he⟩ := List.mem_map.1 hm
      have h1 := h.empty p hp
      rw [he, h.sound s r hsne hr] at h1
      exact hsne (Option.some.inj h1)
    · obtain ⟨⟨u', i⟩, h1, h2⟩ := Option.map_eq_some_iff.1 hs
      cases h2
      exact ⟨i, rfl, add_ok h h1⟩

theorem run_keep {e : Nat} {u : Tbl} : ∀ {w : List TblOp} {t : Tbl}, TGood e t → t.run e w = some u →
    TGood e u ∧ (∀ r x, t.at r = some x → r ∉ t.empties.map Prod.fst → u.at r = some x) ∧ (∀ v r, t.smap v = some r → u.smap v = some r)
  | [], t, h, hr => by cases hr; exact ⟨h, fun _ _ hx _ => hx, fun _ _ hx => hx⟩
  | o :: w, t, h, hr => by
    obtain ⟨⟨u1, n⟩, h1, h2⟩ := Option.bind_eq_some_iff.1 hr
    obtain ⟨i, -, hk⟩ := step_ok h h1
    obtain ⟨g1, g2, g3⟩ := run_keep hk.good h2
    exact ⟨g1, fun r x hx hn => g2 r x (hk.keep r x hx hn).1 (hk.keep r x hx hn).2, fun v r hv => g3 v r (hk.smap v r hv)⟩

/-! ## Tables that a program starts with -/

theorem TGood.new {e : Nat} (he : e = 2 ∨ e = 4) : TGood e (Tbl.new e) := by
  refine ⟨by simp [Tbl.new], by simp [Tbl.new], by simp [Tbl.new], by simp [Tbl.new], by simp [Tbl.new], by simp [Tbl.new], ?_, by simp [Tbl.new]⟩
  rcases he with rfl | rfl <;> simp [Tbl.new]

/-- While loading: what was read is what is stored. -/
structure Loading (e : Nat) (t : Tbl) (l : List Bytes) : Prop where
  lt : ∀ v ∈ t.index, v < t.datatb.length
  sound : ∀ s r, t.smap s = some r → t.at r = some s
  cap : t.capacity = e + e * t.index.length + (t.datatb.map fun s => roundup4 (s.length + 1)).sum
  bound : t.capacity < 2 ^ (8 * e) ∧ t.index.length ≤ 65535
  len : t.index.length = l.length
  at_ : ∀ k, t.at k = l[k]?
  unl : t.loaded = false

theorem Loading.add {e : Nat} {t u : Tbl} {l : List Bytes} {s : Bytes} {i : Nat} (h : Loading e t l) (ha : t.add e s = some (u, i)) :
    Loading e u (l ++ [s]) ∧ u.empties = t.empties ∧ i = l.length := by
  have hlast : ∀ (u : Tbl), u.index.length = l.length + 1 → (∀ k x, t.at k = some x → u.at k = some x) → u.at l.length = some s →
      ∀ k, u.at k = (l ++ [s])[k]? := by
    intro u hu h1 h2 k
    by_cases hk : k < l.length
    · rw [List.getElem?_append_left hk]
      have := h.at_ k
      rw [List.getElem?_eq_getElem hk] at this ⊢
      exact h1 k _ this
    · by_cases hk' : k = l.length
      · subst hk'; simp [h2]
      · rw [List.getElem?_eq_none (by simp only [List.length_append, List.length_singleton]; omega)]
        unfold Tbl.at
        rw [List.getElem?_eq_none (by omega)]; rfl
  unfold Tbl.add at ha
  split at ha
  · rename_i r hr
    split at ha
    · simp at ha
    · rename_i d hd
      obtain ⟨rfl, rfl, hc1, hc2⟩ := check_some ha
      have hat : ∀ r x, t.at r = some x → ({ t with index := t.index ++ [d], capacity := t.capacity + e } : Tbl).at r = some x :=
        fun r x hx => at_append (t := t) (u := { t with index := t.index ++ [d], capacity := t.capacity + e }) (x := [d]) (y := []) rfl (List.append_nil _).symm hx
      have hnew : ({ t with index := t.index ++ [d], capacity := t.capacity + e } : Tbl).at l.length = some s := by
        rw [← h.sound s r hr, ← h.len]
        simp only [Tbl.at, List.getElem?_append_right (Nat.le_refl _), Nat.sub_self, List.getElem?_cons_zero, hd]
      refine ⟨⟨?_, fun s r hm => hat r s (h.sound s r hm), ?_, ⟨hc1, ?_⟩, ?_, hlast _ ?_ hat hnew, h.unl⟩, rfl, h.len⟩
      · intro v hv
        simp only [List.mem_append, List.mem_singleton] at hv
        rcases hv with hv | rfl
        · exact h.lt v hv
        · exact h.lt v (List.mem_of_getElem? hd)
      · simp only [List.length_append, List.length_singleton, Nat.mul_add]
        have := h.cap
        omega
      · simp only [List.length_append, List.length_singleton]; omega
      · simp [h.len]
      · simp [h.len]
  · rename_i hn
    split at ha
    · rename_i hl _
      rw [h.unl] at hl; simp at hl
    · obtain ⟨rfl, rfl, hc1, hc2⟩ := check_some ha
      have hat : ∀ r x, t.at r = some x → ({ t with
        first := some (t.first.getD s)
        datatb := t.datatb ++ [s]
        index := t.index ++ [t.datatb.length]
        capacity := t.capacity + roundup4 (s.length + 1) + e
        smap := fun u => if u = s then some t.index.length else t.smap u } : Tbl).at r = some x :=
        fun r x hx => at_append (t := t) (x := [t.datatb.length]) (y := [s]) rfl rfl hx
      have hnew : ({ t with
        first := some (t.first.getD s)
        datatb := t.datatb ++ [s]
        index := t.index ++ [t.datatb.length]
        capacity := t.capacity + roundup4 (s.length + 1) + e
        smap := fun u => if u = s then some t.index.length else t.smap u } : Tbl).at t.index.length = some s := by
        simp only [Tbl.at, List.getElem?_append_right (Nat.le_refl _), Nat.sub_self, List.getElem?_cons_zero, Option.bind_some]
      refine ⟨⟨?_, ?_, ?_, ⟨hc1, ?_⟩, ?_, hlast _ ?_ hat (by rw [← h.len]; exact hnew), h.unl⟩, rfl, h.len⟩
      · intro v hv
        simp only [List.mem_append, List.mem_singleton] at hv
        simp only [List.length_append, List.length_singleton]
        rcases hv with hv | rfl
        · exact Nat.lt_succ_of_lt (h.lt v hv)
        · exact Nat.lt_succ_self _
      · intro v r hv
        simp only at hv
        split at hv
        · rename_i hvs'
          cases hv; subst hvs'; exact hnew
        · exact hat r v (h.sound v r hv)
      · simp only [List.length_append, List.length_singleton, Nat.mul_add, List.map_append, List.sum_append, List.map_cons, List.map_nil, List.sum_cons,
          List.sum_nil]
        have := h.cap
        omega
      · simp only [List.length_append, List.length_singleton]; omega
      · simp [h.len]
      · simp [h.len]

/-- The empty slots found while loading. -/
structure Slots (t : Tbl) (l : List Bytes) : Prop where
  empty : ∀ p ∈ t.empties, l[p.1]? = some []
  nodup : (t.empties.map Prod.fst).Nodup

theorem Slots.lt {t : Tbl} {l : List Bytes} (h : Slots t l) {p : Nat × Option Bytes} (hp : p ∈ t.empties) : p.1 < l.length :=
  (List.getElem?_eq_some_iff.1 (h.empty p hp)).1

theorem Slots.snoc {t u : Tbl} {l : List Bytes} (h : Slots t l) (s : Bytes) (hu : u.empties = t.empties) : Slots u (l ++ [s]) := by
  refine ⟨fun p hp => ?_, by rw [hu]; exact h.nodup⟩
  rw [hu] at hp
  rw [List.getElem?_append_left (h.lt hp)]
  exact h.empty p hp

theorem Slots.new {t u : Tbl} {l : List Bytes} (h : Slots t l) {nx : Option Bytes} (hu : u.empties = t.empties ++ [(l.length, nx)]) : Slots u (l ++ [[]]) := by
  constructor
  · intro p hp
    rw [hu] at hp
    simp only [List.mem_append, List.mem_singleton] at hp
    rcases hp with hp | rfl
    · rw [List.getElem?_append_left (h.lt hp)]; exact h.empty p hp
    · simp
  · rw [hu, List.map_append, List.nodup_append]
    refine ⟨h.nodup, by simp, ?_⟩
    intro a ha b hb
    simp only [List.map_cons, List.map_nil, List.mem_singleton] at hb
    subst hb
    obtain ⟨p, hp, rfl⟩ := List.mem_map.1 ha
    exact Nat.ne_of_lt (h.lt hp)

theorem loadLoop_ok {le e : Nat} {b : Bytes} {u : Tbl} : ∀ {m i : Nat} {t : Tbl} {l : List Bytes}, Loading e t l → Slots t l → i = l.length + 1 →
    loadLoop le e b i m t = some u → ∃ l', Loading e u (l ++ l') ∧ Slots u (l ++ l') ∧ l'.length = m ∧ ∀ k < m, readStr le b (i + k) = l'[k]?
  | 0, i, t, l, h, hsl, _, hr => by
    cases hr
    exact ⟨[], by simpa using h, by simpa using hsl, rfl, fun k hk => absurd hk (Nat.not_lt_zero k)⟩
  | m + 1, i, t, l, h, hsl, hi, hr => by
    unfold loadLoop at hr
    split at hr
    · simp at hr
    · rename_i s hs
      have key : ∀ {t2 : Tbl}, Loading e t2 (l ++ [s]) → Slots t2 (l ++ [s]) → loadLoop le e b (i + 1) m t2 = some u →
          ∃ l', Loading e u (l ++ l') ∧ Slots u (l ++ l') ∧ l'.length = m + 1 ∧ ∀ k < m + 1, readStr le b (i + k) = l'[k]? := by
        intro t2 h2 hs2 hr2
        obtain ⟨l', g1, g2, g3, g4⟩ := loadLoop_ok h2 hs2 (by rw [List.length_append, List.length_singleton]; omega) hr2
        refine ⟨s :: l', by simpa using g1, by simpa using g2, by simp [g3], ?_⟩
        intro k hk
        cases k with
        | zero => simpa using hs
        | succ k =>
          have := g4 k (by omega)
          rw [List.getElem?_cons_succ, ← this]
          congr 1
          omega
      split at hr
      · rename_i hse
        subst hse
        split at hr
        · simp at hr
        · rename_i nx hnx
          obtain ⟨⟨t2, j⟩, h1, h2⟩ := Option.bind_eq_some_iff.1 hr
          have hL : Loading e { t with empties := t.empties ++ [(i - 1, nx)] } l := ⟨h.lt, h.sound, h.cap, h.bound, h.len, h.at_, h.unl⟩
          obtain ⟨a1, a2, -⟩ := hL.add h1
          refine key a1 (hsl.new (nx := nx) ?_) h2
          rw [a2, show l.length = i - 1 by omega]
      · obtain ⟨⟨t2, j⟩, h1, h2⟩ := Option.bind_eq_some_iff.1 hr
        obtain ⟨a1, a2, -⟩ := h.add h1
        exact key a1 (hsl.snoc s a2) h2

theorem Loading.new {e : Nat} (he : e = 2 ∨ e = 4) : Loading e (Tbl.new e) [] := by
  refine ⟨by simp [Tbl.new], by simp [Tbl.new], by simp [Tbl.new], ⟨?_, by simp [Tbl.new]⟩, rfl, by simp [Tbl.new, Tbl.at], rfl⟩
  rcases he with rfl | rfl <;> simp [Tbl.new]

theorem Loading.good {e : Nat} {t : Tbl} {l : List Bytes} (h : Loading e t l) (hs : Slots t l) : TGood e { t with loaded := true } :=
  ⟨h.lt, fun s r hm => at_some (h.sound s r hm), fun s r _ hm => h.sound s r hm, fun p hp => (h.at_ p.1).trans (hs.empty p hp), hs.nodup, h.cap, h.bound⟩

/-- **C12 (loading).** A loaded table holds the strings of the bytes it was loaded from, under the same numbers. -/
theorem C12_load {le e : Nat} {b : Bytes} {t : Tbl} (he : e = 2 ∨ e = 4) (hl : loadTbl le e b = some t) :
    TGood e t ∧ ∃ n, b2in le b 0 = some n ∧ t.index.length = n ∧ ∀ i, 1 ≤ i → i ≤ n → t.getString i = readStr le b i := by
  obtain ⟨n, hn, h1⟩ := Option.bind_eq_some_iff.1 hl
  obtain ⟨u, hu, rfl⟩ := Option.map_eq_some_iff.1 h1
  obtain ⟨l, g1, g2, g3, g4⟩ := loadLoop_ok (Loading.new he) ⟨by simp [Tbl.new], by simp [Tbl.new]⟩ rfl hu
  simp only [List.nil_append] at g1 g2
  refine ⟨g1.good g2, n, hn, g1.len.trans g3, ?_⟩
  intro i h1 h2
  obtain ⟨k, rfl⟩ : ∃ k, i = k + 1 := ⟨i - 1, by omega⟩
  have g5 : readStr le b (1 + k) = l[k]? := g4 k (by omega)
  rw [getString_succ, Nat.add_comm k 1, g5]
  exact g1.at_ k

/-- Loading with the map's names: the same holds if no string offset is out of range. -/
theorem loadLoopChk_ok {le e : Nat} {b : Bytes} {rm : Nat → Bool} {u : Tbl} : ∀ {m i : Nat} {t : Tbl} {l : List Bytes}, Loading e t l → Slots t l →
    i = l.length + 1 → (∀ j off, b2in le b (j * le) = some off → off < b.length) → loadLoopChk le e b rm i m t = some u →
    ∃ l', Loading e u (l ++ l') ∧ Slots u (l ++ l')
  | 0, i, t, l, h, hsl, _, _, hr => by
    cases hr
    exact ⟨[], by simpa using h, by simpa using hsl⟩
  | m + 1, i, t, l, h, hsl, hi, ho, hr => by
    unfold loadLoopChk at hr
    split at hr
    · simp at hr
    · rename_i off hoff
      rw [if_neg (by have := ho i off hoff; omega)] at hr
      have key : ∀ {s : Bytes} {t2 : Tbl}, Loading e t2 (l ++ [s]) → Slots t2 (l ++ [s]) → loadLoopChk le e b rm (i + 1) m t2 = some u →
          ∃ l', Loading e u (l ++ l') ∧ Slots u (l ++ l') := by
        intro s t2 h2 hs2 hr2
        obtain ⟨l', g1, g2⟩ := loadLoopChk_ok h2 hs2 (by rw [List.length_append, List.length_singleton]; omega) ho hr2
        exact ⟨s :: l', by simpa using g1, by simpa using g2⟩
      simp only at hr
      split at hr
      · split at hr
        · simp at hr
        · rename_i nx hnx
          obtain ⟨⟨t2, j⟩, h1, h2⟩ := Option.bind_eq_some_iff.1 hr
          have hL : Loading e { t with empties := t.empties ++ [(i - 1, nx)] } l := ⟨h.lt, h.sound, h.cap, h.bound, h.len, h.at_, h.unl⟩
          obtain ⟨a1, a2, -⟩ := hL.add h1
          refine key a1 (hsl.new (nx := nx) ?_) h2
          rw [a2, show l.length = i - 1 by omega]
      · obtain ⟨⟨t2, j⟩, h1, h2⟩ := Option.bind_eq_some_iff.1 hr
        obtain ⟨a1, a2, -⟩ := h.add h1
        exact key a1 (hsl.snoc _ a2) h2

/-- The tables a program can start with. -/
inductive Start (e : Nat) : Tbl → Prop
  | new : Start e (Tbl.new e)
  | load {le : Nat} {b : Bytes} {t : Tbl} (h : loadTbl le e b = some t) : Start e t
  | chk {le : Nat} {b : Bytes} {rm : Nat → Bool} {t : Tbl} (ho : ∀ j off, b2in le b (j * le) = some off → off < b.length)
      (h : loadTblChk le e b rm = some t) : Start e t

theorem Start.good {e : Nat} (he : e = 2 ∨ e = 4) {t : Tbl} (h : Start e t) : TGood e t := by
  cases h with
  | new => exact TGood.new he
  | load h => exact (C12_load he h).1
  | chk ho h =>
    obtain ⟨n, hn, h1⟩ := Option.bind_eq_some_iff.1 h
    obtain ⟨u, hu, rfl⟩ := Option.map_eq_some_iff.1 h1
    obtain ⟨l, g1, g2⟩ := loadLoopChk_ok (Loading.new he) ⟨by simp [Tbl.new], by simp [Tbl.new]⟩ rfl ho hu
    exact g1.good g2

/-- **C11.** For any table to start with and any history: the id handed out for a string that is not empty denotes this string then
and ever after; asking again gives the same id; and asking for two different strings gives different ids. -/
theorem C11_ids_partial {e : Nat} (he : e = 2 ∨ e = 4) {t0 t1 t2 t3 : Tbl} {w v : List TblOp} {o : TblOp} {n : Nat} (h0 : Start e t0)
    (h1 : t0.run e w = some t1) (ho : t1.step e o = some (t2, n)) (hs : o.str ≠ []) (h2 : t2.run e v = some t3) :
    t2.getString n = some o.str ∧ t3.getString n = some o.str ∧
    (∀ s, o = .get s → t3.step e (.get s) = some (t3, n)) ∧
    (∀ s m t4, s ≠ [] → s ≠ o.str → t3.step e (.get s) = some (t4, m) → m ≠ n) := by
  have g1 := (run_keep (h0.good he) h1).1
  obtain ⟨i, rfl, hk⟩ := step_ok g1 ho
  obtain ⟨g3, k1, k2⟩ := run_keep hk.good h2
  obtain ⟨d1, d2⟩ := hk.den hs
  have d3 := k1 _ _ d1 d2
  refine ⟨d1, d3, ?_, ?_⟩
  · rintro s rfl
    have : t2.smap s = some i := by
      simp only [Tbl.step] at ho
      split at ho
      · rename_i r hr
        cases ho; exact hr
      · rename_i hn
        obtain ⟨⟨u', j⟩, a1, a2⟩ := Option.map_eq_some_iff.1 ho
        cases a2
        unfold Tbl.add at a1
        rw [hn] at a1
        simp only at a1
        split at a1
        · split at a1
          · simp at a1
          · split at a1
            · obtain ⟨rfl, rfl, -, -⟩ := check_some a1; simp
            · simp at a1
        · obtain ⟨rfl, rfl, -, -⟩ := check_some a1; simp
    simp only [Tbl.step, k2 _ _ this]
  · intro s m t4 hs' hne hg hmn
    obtain ⟨j, rfl, hk'⟩ := step_ok g3 hg
    obtain ⟨e1, -⟩ := hk'.den hs'
    have hij : j = i := by omega
    subst hij
    -- what was in the slot before is still there
    have : t4.at j = some o.str := by
      refine (hk'.keep j _ d3 ?_).1
      intro hm
      obtain ⟨p, hp, hpe⟩ := List.mem_map.1 hm
      have := g3.empty p hp
      rw [hpe, d3] at this
      exact hs (Option.some.inj this)
    rw [this] at e1
    exact hne (Option.some.inj e1).symm

/-! ## Saving -/

theorem b2in_i2bn {e : Nat} (he : e = 2 ∨ e = 4) (p s : Bytes) {n : Nat} (hn : n < 2 ^ (8 * e)) : b2in e (p ++ i2bn e n ++ s) p.length = some n := by
  have h := C14_read_written n p s
  rcases he with rfl | rfl
  · have hm : ((n : Int) % 2 ^ 16).toNat = n := by omega
    simp only [b2in, i2bn, if_true]
    rw [h.2.1, hm]
  · have hm : ((n : Int) % 2 ^ 32).toNat = n := by omega
    simp only [b2in, i2bn, if_true, if_neg (show ¬ (4 = 2) by decide)]
    rw [h.2.2, hm]

theorem i2bn_length {e : Nat} (he : e = 2 ∨ e = 4) (n : Nat) : (i2bn e n).length = e := by
  rcases he with rfl | rfl <;> rfl

theorem padded_length (s : Bytes) : (padded s).length = roundup4 (s.length + 1) := by
  simp only [padded, List.length_append, List.length_replicate, roundup4]
  omega

theorem offsets_get : ∀ (l : List Bytes) (o k : Nat), (offsets o l)[k]? = if k < l.length then some (o + ((l.take k).map fun s => roundup4 (s.length + 1)).sum) else none
  | [], o, k => by simp [offsets]
  | s :: l, o, 0 => by simp [offsets]
  | s :: l, o, k + 1 => by
    rw [offsets, List.getElem?_cons_succ, offsets_get l]
    by_cases h : k < l.length
    · simp only [h, if_true, List.length_cons, Nat.add_lt_add_iff_right, List.take_succ_cons, List.map_cons, List.sum_cons, Option.some.injEq]
      omega
    · simp [h]

theorem scan_padded (s rest : Bytes) : scan (padded s ++ rest) = some (s.takeWhile (· ≠ 0)) := by
  have : ∃ r, padded s ++ rest = s ++ 0 :: r := by
    have : ∃ m, roundup4 (s.length + 1) - s.length = m + 1 := ⟨roundup4 (s.length + 1) - s.length - 1, by unfold roundup4; omega⟩
    obtain ⟨m, hm⟩ := this
    exact ⟨List.replicate m 0 ++ rest, by simp only [padded, hm, List.replicate_succ, List.append_assoc, List.cons_append]⟩
  obtain ⟨r, hr⟩ := this
  rw [hr]
  clear hr
  induction s with
  | nil => simp [scan]
  | cons x s ih =>
    simp only [List.cons_append, scan, List.takeWhile_cons]
    by_cases hx : x = 0
    · simp [hx]
    · rw [if_neg hx, ih]
      simp only [Option.map_some, ne_eq, hx, not_false_eq_true, decide_true, if_true]

theorem flatten_padded_length (l : List Bytes) : (l.map padded).flatten.length = (l.map fun s => roundup4 (s.length + 1)).sum := by
  induction l with
  | nil => rfl
  | cons s l ih => simp only [List.map_cons, List.flatten_cons, List.length_append, padded_length, ih, List.sum_cons]

theorem flatten_i2bn_length {e : Nat} (he : e = 2 ∨ e = 4) (l : List Nat) : (l.map (i2bn e)).flatten.length = e * l.length := by
  induction l with
  | nil => rfl
  | cons s l ih => simp only [List.map_cons, List.flatten_cons, List.length_append, i2bn_length he, ih, List.length_cons, Nat.mul_succ]; omega

theorem split_at {α : Type} {l : List α} {k : Nat} {x : α} (h : l[k]? = some x) : l = l.take k ++ x :: l.drop (k + 1) := by
  obtain ⟨hk, rfl⟩ := List.getElem?_eq_some_iff.1 h
  rw [List.getElem_cons_drop, List.take_append_drop]

theorem mapM_some {α β : Type} {f : α → Option β} : ∀ {l : List α}, (∀ x ∈ l, (f x).isSome) → ∃ m, l.mapM f = some m
  | [], _ => ⟨[], rfl⟩
  | x :: l, h => by
    obtain ⟨y, hy⟩ := Option.isSome_iff_exists.1 (h x (by simp))
    obtain ⟨m, hm⟩ := mapM_some (l := l) (fun z hz => h z (by simp [hz]))
    exact ⟨y :: m, by simp [List.mapM_cons, hy, hm]⟩

theorem mapM_get {α β : Type} {f : α → Option β} : ∀ {l : List α} {m : List β}, l.mapM f = some m → m.length = l.length ∧ ∀ (k : Nat) x, l[k]? = some x → m[k]? = f x
  | [], m, h => by simp at h; subst h; simp
  | x :: l, m, h => by
    simp only [List.mapM_cons, Option.bind_eq_bind, Option.pure_def] at h
    obtain ⟨y, hy, h⟩ := Option.bind_eq_some_iff.1 h
    obtain ⟨m', hm, h⟩ := Option.bind_eq_some_iff.1 h
    cases h
    obtain ⟨h1, h2⟩ := mapM_get hm
    refine ⟨by simp [h1], fun k z hz => ?_⟩
    cases k with
    | zero => simp at hz; subst hz; simp [hy]
    | succ k => simp at hz; simpa using h2 k z hz

/-- **C12 (saving).** After any history a table can be saved, and reading string `n` out of the saved bytes gives the string `n` of the table
up to its first NUL, for both entry sizes. -/
theorem C12_save {e : Nat} (he : e = 2 ∨ e = 4) {t0 t : Tbl} {w : List TblOp} (h0 : Start e t0) (hr : t0.run e w = some t) :
    ∃ b, t.save e = some b ∧ b2in e b 0 = some t.index.length ∧
      ∀ n s, t.getString n = some s → readStr e b n = some (s.takeWhile (· ≠ 0)) := by
  have g := (run_keep (h0.good he) hr).1
  obtain ⟨os, hos⟩ := mapM_some (f := fun d => (offsets (roundup4 (e * t.index.length + e)) t.datatb)[d]?) (l := t.index)
    (fun d hd => by rw [offsets_get, if_pos (g.lt d hd)]; rfl)
  obtain ⟨ol, og⟩ := mapM_get hos
  have hcap := g.cap
  have hb := g.bound
  have hsum : ∀ k, ((t.datatb.take k).map fun s => roundup4 (s.length + 1)).sum ≤ (t.datatb.map fun s => roundup4 (s.length + 1)).sum := by
    intro k
    conv => rhs; rw [← List.take_append_drop k t.datatb]
    rw [List.map_append, List.sum_append]
    omega
  have hlen : e * t.index.length + e = e * (t.index.length + 1) := by rw [Nat.mul_succ]
  refine ⟨_, by simp only [Tbl.save, hos, Option.map_some]; rfl, ?_, ?_⟩
  · have := b2in_i2bn he [] ((os.map (i2bn e)).flatten ++ List.replicate (roundup4 (e * (t.index.length + 1)) - e * (t.index.length + 1)) 0 ++ (t.datatb.map padded).flatten)
      (n := t.index.length) (by rcases he with rfl | rfl <;> omega)
    simpa [List.append_assoc] using this
  · intro n s hn
    cases n with
    | zero => simp [Tbl.getString] at hn
    | succ n =>
      obtain ⟨d, hd, hs⟩ := Option.bind_eq_some_iff.1 (show t.index[n]?.bind (fun d => t.datatb[d]?) = some s from hn)
      have hdl := (List.getElem?_eq_some_iff.1 hs).1
      have hO := og n d hd
      rw [offsets_get, if_pos hdl] at hO
      -- the entry
      have hsp := split_at hO
      have hro : roundup4 (e * (t.index.length + 1)) ≥ e * (t.index.length + 1) ∧ roundup4 (e * (t.index.length + 1)) < e * (t.index.length + 1) + 4 := by
        unfold roundup4; omega
      have hs4 : roundup4 (s.length + 1) ≥ 4 := by unfold roundup4; omega
      have hdd := split_at hs
      have hsumd : ((t.datatb.take d).map fun s => roundup4 (s.length + 1)).sum + roundup4 (s.length + 1) ≤
          (t.datatb.map fun s => roundup4 (s.length + 1)).sum := by
        conv => rhs; rw [hdd]
        rw [List.map_append, List.sum_append, List.map_cons, List.sum_cons]
        omega
      rw [hlen] at hO hsp
      generalize hoff : roundup4 (e * (t.index.length + 1)) + ((t.datatb.take d).map fun s => roundup4 (s.length + 1)).sum = off at hO hsp
      have hofflt : off < 2 ^ (8 * e) := by omega
      have hnl : n < os.length := (List.getElem?_eq_some_iff.1 hO).1
      unfold readStr
      have e1 : i2bn e t.index.length ++ (os.map (i2bn e)).flatten ++ List.replicate (roundup4 (e * (t.index.length + 1)) - e * (t.index.length + 1)) 0 ++
          (t.datatb.map padded).flatten =
          (i2bn e t.index.length ++ ((os.take n).map (i2bn e)).flatten) ++ i2bn e off ++ (((os.drop (n + 1)).map (i2bn e)).flatten ++
            List.replicate (roundup4 (e * (t.index.length + 1)) - e * (t.index.length + 1)) 0 ++ (t.datatb.map padded).flatten) := by
        conv => lhs; rw [hsp]
        simp only [List.map_append, List.map_cons, List.flatten_append, List.flatten_cons, List.append_assoc]
      have e2 : (i2bn e t.index.length ++ ((os.take n).map (i2bn e)).flatten).length = (n + 1) * e := by
        rw [List.length_append, i2bn_length he, flatten_i2bn_length he, List.length_take, Nat.min_eq_left (Nat.le_of_lt hnl), Nat.succ_mul, Nat.mul_comm]
        omega
      have e3 := b2in_i2bn he (i2bn e t.index.length ++ ((os.take n).map (i2bn e)).flatten) (((os.drop (n + 1)).map (i2bn e)).flatten ++
            List.replicate (roundup4 (e * (t.index.length + 1)) - e * (t.index.length + 1)) 0 ++ (t.datatb.map padded).flatten) hofflt
      rw [e2, ← e1] at e3
      rw [e3, Option.bind_some]
      have e4 : i2bn e t.index.length ++ (os.map (i2bn e)).flatten ++ List.replicate (roundup4 (e * (t.index.length + 1)) - e * (t.index.length + 1)) 0 ++
          (t.datatb.map padded).flatten =
          (i2bn e t.index.length ++ (os.map (i2bn e)).flatten ++ List.replicate (roundup4 (e * (t.index.length + 1)) - e * (t.index.length + 1)) 0 ++
            ((t.datatb.take d).map padded).flatten) ++ (padded s ++ ((t.datatb.drop (d + 1)).map padded).flatten) := by
        conv => lhs; rw [hdd]
        simp only [List.map_append, List.map_cons, List.flatten_append, List.flatten_cons, List.append_assoc]
      have e5 : (i2bn e t.index.length ++ (os.map (i2bn e)).flatten ++ List.replicate (roundup4 (e * (t.index.length + 1)) - e * (t.index.length + 1)) 0 ++
            ((t.datatb.take d).map padded).flatten).length = off := by
        simp only [List.length_append, i2bn_length he, flatten_i2bn_length he, List.length_replicate, flatten_padded_length, ol]
        omega
      rw [e4, ← e5, List.drop_left]
      exact scan_padded s _

/-! ## Examples and counterexamples -/

/-- A table with the strings `A` and the empty one. -/
def exTbl : Bytes := [2, 0, 6, 0, 7, 0, 0x41, 0]

/-- The table loaded from it, for examples. -/
def exStart : Option Tbl := loadTbl 2 4 exTbl

example : (exStart.map fun t => (t.getString 1, t.getString 2, t.empties)) = some (some [0x41], some [], [(1, none)]) := by
  decide +kernel

/-- A history after it: the empty slot is reused, a string is asked for twice, and the table is saved. -/
example : (exStart.bind fun t => (t.run 4 [.get [0x58], .add [0x41], .get [0x58], .force [0x42, 0x43]]).bind fun u => u.save 4) =
    some [4, 0, 0, 0, 24, 0, 0, 0, 20, 0, 0, 0, 24, 0, 0, 0, 32, 0, 0, 0, 0x58, 0, 0, 0, 0x41, 0, 0, 0, 0, 0, 0, 0, 0x42, 0x43, 0, 0] := by
  decide +kernel

/-- **C11 is false for the empty string**: its id is given to the next new string, and asking for the empty string again still gives this id. -/
theorem C11_counterexample : ((loadTbl 2 4 exTbl).bind fun t => (t.step 4 (.get [])).bind fun p => (p.1.step 4 (.get [0x58])).bind fun q =>
    (q.1.step 4 (.get [])).map fun r => (p.2, p.1.getString p.2, q.2, q.1.getString p.2, r.2)) = some (2, some [], 2, some [0x58], 2) := by
  decide +kernel

/-- Strings: `B`, one with an offset behind the end, an empty one, `A`. -/
def exBad : Bytes := [4, 0, 10, 0, 0xFF, 0, 12, 0, 13, 0, 0x42, 0, 0, 0x41, 0]

/-- **C11 is false for maps with a string offset behind the end of the section**: the id handed out for `A` becomes another string. -/
theorem C11_counterexample_offset : ((loadTblChk 2 4 exBad fun _ => false).bind fun t => (t.step 4 (.get [0x41])).bind fun p =>
    (p.1.step 4 (.get [0x58])).map fun q => (p.2, p.1.getString p.2, q.2, q.1.getString p.2)) = some (3, some [0x41], 3, some [0x58]) := by
  decide +kernel

end Eud.Map
