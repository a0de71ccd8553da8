import Verif.Lib.Trigger
/-
`PTrigger()` (src/eudplib/trigger/ptrigger.py): a trigger for some players only.
-/

namespace Eud.SC

/-! ## Which players -/

/-- The loop over the given players (ptrigger.py:49-66): 0..7 one player, 0x12..0x15 a force, 0x11 all players, which ends the loop; other
values are ignored. -/
def effPlayers (force : Nat → Nat) : List Nat → (Nat → Bool) → (Nat → Bool)
  | [], eff => eff
  | q :: qs, eff =>
    if q ≤ 7 then effPlayers force qs (fun p => if p = q then true else eff p)
    else if 0x12 ≤ q ∧ q ≤ 0x15 then effPlayers force qs (fun p => if force p = q - 0x12 then true else eff p)
    else if q = 0x11 then fun _ => true
    else effPlayers force qs eff

/-- Player `p` is meant by the entry `q`: itself, its force, or all players. -/
def Means (force : Nat → Nat) (p q : Nat) : Prop := q = p ∨ (force p < 4 ∧ q = 0x12 + force p) ∨ q = 0x11

theorem effPlayers_spec (force : Nat → Nat) : ∀ (qs : List Nat) (eff : Nat → Bool) {p : Nat}, p < 8 →
    (effPlayers force qs eff p = true ↔ eff p = true ∨ ∃ q ∈ qs, Means force p q)
  | [], eff, p, _ => by simp [effPlayers]
  | q :: qs, eff, p, hp => by
    unfold effPlayers
    split
    · rename_i h
      rw [effPlayers_spec force qs _ hp]
      simp only [List.exists_mem_cons, Means]
      by_cases e : p = q
      · simp [e]
      · have h1 : ¬ q = p := fun g => e g.symm
        have h2 : ¬ (force p < 4 ∧ q = 0x12 + force p) := by omega
        have h3 : ¬ q = 0x11 := by omega
        simp [e, h1, h2, h3]
    · split
      · rename_i h
        rw [effPlayers_spec force qs _ hp]
        simp only [List.exists_mem_cons, Means]
        have h1 : ¬ q = p := by omega
        have h3 : ¬ q = 0x11 := by omega
        by_cases e : force p = q - 0x12
        · have h2 : force p < 4 ∧ q = 0x12 + force p := by omega
          rw [if_pos e]
          exact ⟨fun _ => Or.inr ⟨q, by simp, Or.inr (Or.inl h2)⟩, fun _ => Or.inl rfl⟩
        · have h2 : ¬ (force p < 4 ∧ q = 0x12 + force p) := by omega
          simp [e, h1, h2, h3]
      · split
        · rename_i h
          simp only [List.exists_mem_cons, Means]
          simp [h]
        · rw [effPlayers_spec force qs _ hp]
          simp only [List.exists_mem_cons, Means]
          have h1 : ¬ q = p := by omega
          have h2 : ¬ (force p < 4 ∧ q = 0x12 + force p) := by omega
          have h3 : ¬ q = 0x11 := by omega
          simp [h1, h2, h3]

/-! ## The emitted code -/

/-- The dword `aaaa`. -/
def aaaa : W := 0x61616161

/-- The triggers of `PTrigger` (ptrigger.py:81-118) for a player table at `pdb`, from `t1` to `x`; `body` is the `Trigger()` in the middle. -/
structure PTriggerCode (L : Layout) (pdb : Nat) (body : Stmt) (t1 x : Nat) where
  t2 : Nat
  tc : Nat
  tr : Nat
  t3 : Nat
  h1 : (⟨t1, ⟨[sChk cpAddr .atMost 7 0xFFFFFFFF], [sNext t1 t2, sMem cpAddr .add (epd pdb)]⟩, none, false⟩ : SBlk) ∈ L.P.blks
  r1 : (t1, t3) ∈ L.rest
  h2 : (⟨t2, ⟨[.check (some (.cp 0)) .exactly (some aaaa) (some 0xFFFFFFFF)], [sNext t2 tc, sMem cpAddr .sub (epd pdb)]⟩, none, false⟩ : SBlk) ∈ L.P.blks
  r2 : (t2, t3) ∈ L.rest
  hb : ∀ d : List (Nat × Nat), (∀ p ∈ d, p.2 < 2 ^ 32) → ∃ r b k, Code (L.redir d) r b k body tc tr
  hr : (⟨tr, ⟨[], [sNext t2 t3, sMem cpAddr .add (epd pdb)]⟩, some t3, false⟩ : SBlk) ∈ L.P.blks
  h3 : (⟨t3, ⟨[], [sNext t1 t3, sMem cpAddr .sub (epd pdb)]⟩, some x, false⟩ : SBlk) ∈ L.P.blks
  lt : t2 < 2 ^ 32 ∧ tc < 2 ^ 32 ∧ t3 < 2 ^ 32
  ne : t1 ≠ t2
  /-- the current player and the table can be read -/
  cp : L.cell cpAddr
  tab : ∀ p < 8, ¬ L.priv (pdb + 4 * p) ∧ pdb + 4 * p ≠ cpAddr
  al : pdb % 4 = 0 ∧ pdb + 32 < 2 ^ 32
  /-- adding a player number to the table's place does not wrap around -/
  nw : (epd pdb).toNat + 7 < 2 ^ 32

/-- The player table (ptrigger.py:68-78). -/
def PTable (pdb : Nat) (eff : Nat → Bool) (s : Mem) : Prop := ∀ p < 8, s (pdb + 4 * p) = if eff p then aaaa else 0

theorem arith_add_sub {c e : W} (h : c.toNat + e.toNat < 2 ^ 32) : arith .sub (arith .add c e) e = c := by
  have h1 : (c + e).toNat = c.toNat + e.toNat := by rw [BitVec.toNat_add, Nat.mod_eq_of_lt h]
  show (if c + e < e then 0 else c + e - e) = c
  rw [if_neg (by rw [BitVec.lt_def, h1]; omega)]
  apply BitVec.eq_of_toNat_eq
  rw [BitVec.toNat_sub_of_le (by rw [BitVec.le_def, h1]; omega), h1]
  omega

theorem PTriggerCode.epd_at {L : Layout} {pdb : Nat} {body : Stmt} {t1 x : Nat} (hT : PTriggerCode L pdb body t1 x) {p : Nat} (hp : p < 8) (s : Mem) (c : W)
    (hc : c.toNat = p) : Dst.addr (s.set cpAddr (arith .add c (epd pdb))) (.cp 0) = pdb + 4 * p := by
  have e := epd_toNat pdb hT.al.1 (by have := hT.al.2; omega)
  have hn := hT.nw
  have hl := hT.al.2
  have h4 := hT.al.1
  simp only [Dst.addr, set_eq, arith]
  have h1 : (c + epd pdb).toNat = p + (epd pdb).toNat := by rw [BitVec.toNat_add, hc, Nat.mod_eq_of_lt (by omega)]
  rw [h1, e]
  simp only [deathTable]
  split <;> omega

theorem lt1 {n : Nat} (h : n < 2 ^ 32) (t : Nat) : ∀ p ∈ [(t, n)], p.2 < 2 ^ 32 := by simp [h]

/-- The end of `PTrigger`. -/
theorem PTriggerCode.last {L : Layout} (hw : L.Wf) {pdb : Nat} {body : Stmt} {t1 x : Nat} (hT : PTriggerCode L pdb body t1 x) {d : List (Nat × Nat)}
    (hd : ∀ p ∈ d, p.2 < 2 ^ 32) (hl : ∀ a y, d.lookup a = some y → a ≠ t1 → (a, y) ∈ L.rest) (s : Mem) :
    (L.redir d).Moves L s hT.t3 (s.set cpAddr (arith .sub (s cpAddr) (epd pdb))) x := by
  have h := Layout.Moves.other hw hd hT.h3 hT.r1 hT.lt.2.2 (s := s) ⟨sMem_ready _ _ _ _ _, hT.cp, trivial⟩
  simp only [runS, sMem_apply] at h
  rwa [Layout.redir_same hw (d := (t1, hT.t3) :: d)] at h
  intro a y hay
  rw [List.lookup_cons] at hay
  split at hay
  · rename_i e
    have e := beq_iff_eq.1 e
    cases hay
    subst e
    exact hT.r1
  · rename_i e
    exact hl a y hay (by simpa using e)

/-- The start of `PTrigger` for current players 0..7. -/
theorem PTriggerCode.first {L : Layout} (hw : L.Wf) {pdb : Nat} {body : Stmt} {t1 x : Nat} (hT : PTriggerCode L pdb body t1 x) {s : Mem}
    (hp : (s cpAddr).toNat < 8) : L.Moves (L.redir [(t1, hT.t2)]) s t1 (s.set cpAddr (arith .add (s cpAddr) (epd pdb))) hT.t2 := by
  have h := Layout.Moves.self hw (d := []) (by simp) hT.h1 hT.r1 hT.lt.1 (s := s) ⟨sChk_ready _ _ _ _ _ _, hT.cp.2, trivial⟩
    (by simp only [condsS, sChk_res, and_full, compare, Bool.and_true, decide_eq_true_eq, BitVec.le_def]
        show (s cpAddr).toNat ≤ 7
        omega)
    ⟨sMem_ready _ _ _ _ _, hT.cp, trivial⟩
  simpa only [runS, sMem_apply, Layout.redir_nil] using h

/-- **C30 (players not listed).** For a current player that is not listed, nothing happens. -/
theorem C30_unlisted {L : Layout} (hw : L.Wf) {pdb : Nat} {body : Stmt} {t1 x : Nat} (hT : PTriggerCode L pdb body t1 x) {force : Nat → Nat} {qs : List Nat}
    {s : Mem} (hs : PTable pdb (effPlayers force qs fun _ => false) s) (hp : (s cpAddr).toNat < 8)
    (hq : ∀ q ∈ qs, ¬ Means force (s cpAddr).toNat q) : L.Runs s t1 s x := by
  have he : effPlayers force qs (fun _ => false) (s cpAddr).toNat = false := by
    rw [Bool.eq_false_iff, ne_eq, effPlayers_spec force qs _ hp]
    rintro (h | ⟨q, h1, h2⟩)
    · cases h
    · exact hq q h1 h2
  have ad := hT.epd_at hp s (s cpAddr) rfl
  obtain ⟨hpr, hne⟩ := hT.tab _ hp
  have hst := Layout.Moves.stay hw (lt1 hT.lt.1 t1) hT.h2 hT.r2 (s := s.set cpAddr (arith .add (s cpAddr) (epd pdb)))
    ⟨trivial, by simp only [SCnd.res, Option.getD_some, ad]; exact hpr, trivial⟩
    (by
      simp only [condsS, SCnd.res, Option.getD_some, Cnd.holds, ad, and_full, compare, Bool.and_true, set_ne hne, hs _ hp, he]
      decide)
  have hl : (List.lookup hT.t2 [(t1, hT.t2)]).getD hT.t3 = hT.t3 := by
    rw [List.lookup_cons]
    have : (hT.t2 == t1) = false := by simpa using Ne.symm hT.ne
    rw [this]
    rfl
  rw [hl] at hst
  have h3 := hT.last hw (lt1 hT.lt.1 t1) (by
    intro a y h hne
    rw [List.lookup_cons] at h
    have : (a == t1) = false := by simpa using hne
    rw [this] at h
    cases h) (s.set cpAddr (arith .add (s cpAddr) (epd pdb)))
  rw [set_eq, arith_add_sub (by have := hT.nw; omega), set_set, set_self] at h3
  exact ((hT.first hw hp).trans (hst.trans h3)).runs

/-- **C30 (players listed).** For a listed current player, the conditions and actions are executed, with the current player as it was, and
afterwards the current player is what the actions made it. -/
theorem C30_listed {L : Layout} (hw : L.Wf) {pdb : Nat} {body : Stmt} {t1 x : Nat} (hT : PTriggerCode L pdb body t1 x) {force : Nat → Nat} {qs : List Nat}
    {s s' : Mem} (hs : PTable pdb (effPlayers force qs fun _ => false) s) (hp : (s cpAddr).toNat < 8)
    (hq : ∃ q ∈ qs, Means force (s cpAddr).toNat q) (hx : Exec L body s .nrm s') (hn : (s' cpAddr).toNat + (epd pdb).toNat < 2 ^ 32) : L.Runs s t1 s' x := by
  have he : effPlayers force qs (fun _ => false) (s cpAddr).toNat = true := (effPlayers_spec force qs _ hp).2 (Or.inr hq)
  have ad := hT.epd_at hp s (s cpAddr) rfl
  obtain ⟨hpr, hne⟩ := hT.tab _ hp
  have h2 := Layout.Moves.self hw (lt1 hT.lt.1 t1) hT.h2 hT.r2 hT.lt.2.1 (s := s.set cpAddr (arith .add (s cpAddr) (epd pdb)))
    ⟨trivial, by simp only [SCnd.res, Option.getD_some, ad]; exact hpr, trivial⟩
    (by
      simp only [condsS, SCnd.res, Option.getD_some, Cnd.holds, ad, and_full, compare, Bool.and_true, set_ne hne, hs _ hp, he]
      decide)
    ⟨sMem_ready _ _ _ _ _, hT.cp, trivial⟩
  simp only [runS, sMem_apply] at h2
  rw [set_eq, arith_add_sub (by have := hT.nw; omega), set_set, set_self] at h2
  have hd : ∀ p ∈ [(hT.t2, hT.tc), (t1, hT.t2)], p.2 < 2 ^ 32 := by simp [hT.lt]
  obtain ⟨r, b, k, hc⟩ := hT.hb _ hd
  have hbody : (L.redir _).Moves (L.redir _) s hT.tc s' hT.tr := (C25_structured (hw.redir hd) (hx.redir _) hc)
  have h4 := Layout.Moves.other hw hd hT.hr hT.r2 hT.lt.2.2 (s := s') ⟨sMem_ready _ _ _ _ _, hT.cp, trivial⟩
  simp only [runS, sMem_apply] at h4
  have h3 := hT.last hw (d := [(hT.t2, hT.t3), (hT.t2, hT.tc), (t1, hT.t2)]) (by simp [hT.lt]) (by
    intro a y h hne
    by_cases e : a = hT.t2
    · subst e
      simp only [List.lookup_cons, beq_self_eq_true, Option.some.injEq] at h
      subst h
      exact hT.r2
    · have e1 : (a == hT.t2) = false := by simpa using e
      have e2 : (a == t1) = false := by simpa using hne
      simp only [List.lookup_cons, e1, e2, List.lookup_nil] at h
      cases h) (s'.set cpAddr (arith .add (s' cpAddr) (epd pdb)))
  rw [set_eq, arith_add_sub hn, set_set, set_self] at h3
  exact ((hT.first hw hp).trans (h2.trans (hbody.trans (h4.trans h3)))).runs

/-- What happens when the current player is none of 0..7 (for instance 8..11, or any death table offset): the table's place is subtracted from it,
although it was not added. -/
theorem ptrigger_other {L : Layout} (hw : L.Wf) {pdb : Nat} {body : Stmt} {t1 x : Nat} (hT : PTriggerCode L pdb body t1 x) {s : Mem}
    (hp : 8 ≤ (s cpAddr).toNat) : L.Runs s t1 (s.set cpAddr (arith .sub (s cpAddr) (epd pdb))) x := by
  have hst := Layout.Moves.stay hw (d := []) (by simp) hT.h1 hT.r1 (s := s) ⟨sChk_ready _ _ _ _ _ _, hT.cp.2, trivial⟩
    (by simp only [condsS, sChk_res, and_full, compare, Bool.and_true, decide_eq_false_iff_not, BitVec.le_def]
        show ¬ (s cpAddr).toNat ≤ 7
        omega)
  have h3 := hT.last hw (d := []) (by simp) (by intro a y h; cases h) s
  rw [Layout.redir_nil] at hst h3
  exact (hst.trans h3).runs

/-- **C30 is false** for current players 8..11: they become player 0. -/
theorem C30_counterexample {L : Layout} (hw : L.Wf) {pdb : Nat} {body : Stmt} {t1 x : Nat} (hT : PTriggerCode L pdb body t1 x) {s : Mem}
    (hp : 8 ≤ (s cpAddr).toNat) (hs : (s cpAddr).toNat < (epd pdb).toNat) : L.Runs s t1 (s.set cpAddr 0) x := by
  have := ptrigger_other hw hT hp
  rwa [show arith .sub (s cpAddr) (epd pdb) = 0 from if_pos (BitVec.lt_def.2 hs)] at this

end Eud.SC
