import Verif.Lib.MemBase
/-
Reading memory with triggers that test one bit each: `f_dwepdread_epd`, `f_flagread_epd` (memio/dwepdio.py), the readers of `f_readgen_epd` and
`f_readgen_cp` (memio/memifgen.py), and `f_dwepdread_cp` (memio/cpmemio.py).
-/

namespace Eud.SC

/-! ## Sums of bits -/

/-- The sum of `f i` over the set bits `i` of `w` that are listed. -/
def bitSum (w : W) (f : Nat → W) : List Nat → W
  | [] => 0
  | i :: l => (if w.getLsbD i then f i else 0) + bitSum w f l

theorem bitSum_append (w : W) (f : Nat → W) : ∀ (l k : List Nat), bitSum w f (l ++ k) = bitSum w f l + bitSum w f k
  | [], k => by simp [bitSum]
  | i :: l, k => by rw [List.cons_append]; simp only [bitSum]; rw [bitSum_append w f l k, BitVec.add_assoc]

theorem bitSum_perm (w : W) (f : Nat → W) {l k : List Nat} (h : l.Perm k) : bitSum w f l = bitSum w f k := by
  induction h with
  | nil => rfl
  | cons x _ ih => simp only [bitSum, ih]
  | swap x y l => simp only [bitSum]; rw [← BitVec.add_assoc, ← BitVec.add_assoc, BitVec.add_comm (if w.getLsbD y then _ else _)]
  | trans _ _ ih1 ih2 => exact ih1.trans ih2

theorem bitSum_filter (w : W) (f : Nat → W) (p : Nat → Bool) : ∀ {l : List Nat}, (∀ i ∈ l, p i = false → f i = 0) → bitSum w f (l.filter p) = bitSum w f l
  | [], _ => rfl
  | i :: l, h => by
    rw [List.filter_cons]
    by_cases hp : p i
    · rw [if_pos hp]; simp only [bitSum]; rw [bitSum_filter w f p fun j hj => h j (by simp [hj])]
    · have hz := h i (by simp) (by simpa using hp)
      rw [if_neg hp]; simp only [bitSum, hz]; rw [bitSum_filter w f p fun j hj => h j (by simp [hj])]; simp

theorem bitSum_congr (w : W) {f g : Nat → W} : ∀ {l : List Nat}, (∀ i ∈ l, f i = g i) → bitSum w f l = bitSum w g l
  | [], _ => rfl
  | i :: l, h => by simp only [bitSum]; rw [h i (by simp), bitSum_congr w fun j hj => h j (by simp [hj])]

theorem bitSum_mask (w m : W) (f : Nat → W) : ∀ (l : List Nat), bitSum (w &&& m) f l = bitSum w (fun i => if m.getLsbD i then f i else 0) l
  | [] => rfl
  | i :: l => by
    simp only [bitSum, BitVec.getLsbD_and]
    rw [bitSum_mask w m f l]
    cases w.getLsbD i <;> cases m.getLsbD i <;> simp

theorem bitSum_pow2 (w : W) : ∀ (l : List Nat), bitSum w pow2 l = bitAcc w l
  | [] => rfl
  | i :: l => by simp only [bitSum, bitAcc, bitSum_pow2 w l]

/-- All bits: the dword. -/
theorem bitSum_all (w : W) {l : List Nat} (h : l.Perm (List.range 32)) : bitSum w pow2 l = w := by rw [bitSum_pow2, bitAcc_all w h]

/-- The bits of a mask. -/
theorem bitSum_flag (w m : W) {l : List Nat} (h : l.Perm (List.range 32)) : bitSum w (fun i => if m.getLsbD i then pow2 i else 0) l = w &&& m := by
  rw [← bitSum_mask, bitSum_all _ h]

/-- The bits from `k` on, each moved `k` places down. -/
theorem bitSum_down (w : W) (k : Nat) : ∀ n, k + n ≤ 32 → bitSum w (fun i => if k ≤ i then pow2 (i - k) else 0) (List.range (k + n)) = BitVec.ofNat 32 (w.toNat / 2 ^ k % 2 ^ n)
  | 0, _ => by
    rw [Nat.add_zero, Nat.pow_zero, Nat.mod_one]
    have : ∀ l : List Nat, (∀ i ∈ l, i < k) → bitSum w (fun i => if k ≤ i then pow2 (i - k) else 0) l = 0 := by
      intro l
      induction l with
      | nil => intro _; rfl
      | cons i l ih =>
        intro h
        have := h i (by simp)
        simp only [bitSum, if_neg (show ¬ k ≤ i by omega), ih fun j hj => h j (by simp [hj])]
        simp
    exact this _ fun i hi => by simpa using hi
  | n + 1, h => by
    rw [← Nat.add_assoc, List.range_succ, bitSum_append, bitSum_down w k n (by omega)]
    simp only [bitSum, BitVec.ofNat_eq_ofNat, BitVec.add_zero]
    rw [if_pos (show k ≤ k + n by omega), Nat.add_sub_cancel_left]
    have hb : w.getLsbD (k + n) = decide (w.toNat / 2 ^ k / 2 ^ n % 2 = 1) := by
      rw [BitVec.getLsbD, Nat.testBit_eq_decide_div_mod_eq, Nat.pow_add, Nat.div_div_eq_div_mul]
    have hm : w.toNat / 2 ^ k % 2 ^ (n + 1) = w.toNat / 2 ^ k % 2 ^ n + 2 ^ n * (w.toNat / 2 ^ k / 2 ^ n % 2) := Nat.mod_pow_succ
    rw [hm, BitVec.ofNat_add, hb]
    rcases Nat.mod_two_eq_zero_or_one (w.toNat / 2 ^ k / 2 ^ n) with e | e <;> rw [e]
    · simp
    · simp only [decide_true, if_true, Nat.mul_one]
      congr 1
      apply BitVec.eq_of_toNat_eq
      simp [pow2, BitVec.toNat_twoPow]

theorem sumBitsC_map (w : W) (x : Nat) (g : Nat → List (Nat × W)) : ∀ (l : List Nat), sumBitsC w x (l.map fun i => (i, g i)) = bitSum w (fun i => sumC x (g i)) l
  | [] => rfl
  | i :: l => by simp only [List.map_cons, sumBitsC, bitSum, sumBitsC_map w x g l]

/-! ## The bodies -/

/-- Start values, and the current player moved so that unit `u` of it is the dword wanted (dwepdio.py:25-30). -/
def rdActs (u : Nat) (inits : List (Nat × W)) : List PA :=
  (inits.map fun p => aMem p.1 .set p.2) ++ (if u = 0 then [] else [aMem cpAddr .add (-(12 * BitVec.ofNat 32 u))])

/-- Start values, then the bit tests. -/
def rdCore (u : Nat) (inits : List (Nat × W)) (items : List (Nat × List (Nat × W))) : Stmt :=
  .seq (.trig [] (rdActs u inits)) (.seqs (items.map (bitTrig u)))

/-- What the code may assume: distinct targets, none of which is the dword read. -/
structure RdHyp (L : Layout) (inits : List (Nat × W)) (items : List (Nat × List (Nat × W))) : Prop where
  cp : L.cell cpAddr
  nd : (inits.map Prod.fst).Nodup
  ic : ∀ p ∈ inits, L.cell p.1 ∧ p.1 ≠ cpAddr
  it : ∀ t ∈ items, t.1 < 32 ∧ ∀ a ∈ t.2, a.1 ∈ inits.map Prod.fst

theorem unit_addr (e : W) (u : Nat) : (deathTable + 4 * (e + -(12 * BitVec.ofNat 32 u)).toNat + 48 * u) % 2 ^ 32 = epdAddr e := by
  unfold epdAddr
  simp only [BitVec.toNat_add, BitVec.toNat_neg, BitVec.toNat_mul, BitVec.toNat_ofNat]
  have := e.isLt
  have h12 : (12 : BitVec 32).toNat = 12 := rfl
  rw [h12]
  omega

theorem runPA_inits : ∀ (l : List (Nat × W)) (s : Mem), (l.map Prod.fst).Nodup →
    (∀ p ∈ l, runPA (l.map fun p => aMem p.1 .set p.2) s p.1 = p.2) ∧ ∀ x, x ∉ l.map Prod.fst → runPA (l.map fun p => aMem p.1 .set p.2) s x = s x
  | [], s, _ => ⟨by simp, fun _ _ => rfl⟩
  | p :: l, s, h => by
    rw [List.map_cons, List.nodup_cons] at h
    obtain ⟨h1, h2⟩ := runPA_inits l (s.set p.1 p.2) h.2
    rw [List.map_cons, runPA_cons, aMem_run]
    simp only [arith]
    refine ⟨?_, ?_⟩
    · intro q hq
      rcases List.mem_cons.1 hq with rfl | hq
      · rw [h2 _ h.1, set_eq]
      · exact h1 q hq
    · intro x hx
      simp only [List.map_cons, List.mem_cons, not_or] at hx
      rw [h2 x hx.2, set_ne hx.1]

theorem actsOk_inits {L : Layout} : ∀ (l : List (Nat × W)) (s : Mem), (∀ p ∈ l, L.cell p.1) → ActsOk L (l.map fun p => aMem p.1 .set p.2) s
  | [], _, _ => trivial
  | a :: l, s, h => actsOk_mem (h a (by simp)) (actsOk_inits l _ fun b hb => h b (by simp [hb]))

/-- **The bit tests** add to each start value the constants of the bits that are set in the dword at the current player. -/
theorem rdCore_does {L : Layout} {u : Nat} {inits : List (Nat × W)} {items : List (Nat × List (Nat × W))} (h : RdHyp L inits items) {s : Mem}
    (hp : ¬ L.priv (epdAddr (s cpAddr))) (ha : epdAddr (s cpAddr) ∉ inits.map Prod.fst) (hc : epdAddr (s cpAddr) ≠ cpAddr) :
    Does L (rdCore u inits items) s fun s' => (∀ p ∈ inits, s' p.1 = p.2 + sumBitsC (s (epdAddr (s cpAddr))) p.1 items) ∧
      s' cpAddr = s cpAddr + -(12 * BitVec.ofNat 32 u) ∧ Only (cpAddr :: inits.map Prod.fst) s s' := by
  obtain ⟨i1, i2⟩ := runPA_inits inits s h.nd
  have ncp : cpAddr ∉ inits.map Prod.fst := by
    intro hm
    obtain ⟨p, hp', e⟩ := List.mem_map.1 hm
    exact (h.ic p hp').2 e
  have hrun : runPA (rdActs u inits) s = (runPA (inits.map fun p => aMem p.1 .set p.2) s).set cpAddr (s cpAddr + -(12 * BitVec.ofNat 32 u)) := by
    unfold rdActs
    rw [runPA_append]
    by_cases hu : u = 0
    · subst hu
      simp only [if_true, runPA_nil]
      rw [show -(12 * BitVec.ofNat 32 0) = (0 : W) from rfl]
      funext x
      rw [get_set]
      split
      · rename_i e; subst e; rw [i2 _ ncp]; simp
      · rfl
    · rw [if_neg hu, runPA_cons, runPA_nil, aMem_run]
      simp only [arith, i2 _ ncp]
  have hok : ActsOk L (rdActs u inits) s := by
    unfold rdActs
    refine ActsOk.append.2 ⟨actsOk_inits _ _ fun p hp' => (h.ic p hp').1, ?_⟩
    by_cases hu : u = 0
    · rw [if_pos hu]; trivial
    · rw [if_neg hu]; exact actsOk_mem h.cp trivial
  unfold rdCore
  refine Does.seq (Does.acts hok ?_)
  rw [hrun]
  have ec := i2
  generalize runPA (inits.map fun p => aMem p.1 .set p.2) s = s1 at *
  have ea : Dst.addr (s1.set cpAddr (s cpAddr + -(12 * BitVec.ofNat 32 u))) (.cp u) = epdAddr (s cpAddr) := by
    simp only [Dst.addr, set_eq]; exact unit_addr _ _
  have ev : (s1.set cpAddr (s cpAddr + -(12 * BitVec.ofNat 32 u))) (epdAddr (s cpAddr)) = s (epdAddr (s cpAddr)) := by rw [set_ne hc, i2 _ ha]
  refine Does.mono (bits_does (by rw [ea]; exact hp) items ?_) ?_
  · intro t ht
    obtain ⟨t1, t2⟩ := h.it t ht
    refine ⟨t1, fun a ha' => ?_⟩
    obtain ⟨p, hp', e⟩ := List.mem_map.1 (t2 a ha')
    rw [ea, ← e]
    exact ⟨(h.ic p hp').1, (h.ic p hp').2, fun e' => ha (e' ▸ List.mem_map_of_mem hp')⟩
  · intro s' hs'
    rw [ea, ev] at hs'
    have zero : ∀ x, x ∉ inits.map Prod.fst → sumBitsC (s (epdAddr (s cpAddr))) x items = 0 := by
      intro x hx
      have hit := fun t ht => (h.it t ht).2
      clear h hs'
      induction items with
      | nil => rfl
      | cons t l ih =>
        simp only [sumBitsC]
        have z : ∀ k : List (Nat × W), (∀ a ∈ k, a.1 ∈ inits.map Prod.fst) → sumC x k = 0 := by
          intro k
          induction k with
          | nil => intro _; rfl
          | cons a k ih2 =>
            intro hk
            have : a.1 ≠ x := fun e => hx (e ▸ hk a (by simp))
            simp only [sumC, if_neg this, ih2 fun b hb => hk b (by simp [hb])]
            simp
        rw [z _ (hit t (by simp)), ih fun t ht => hit t (by simp [ht])]
        simp
    refine ⟨fun p hp' => ?_, ?_, ?_⟩
    · rw [hs', set_ne (h.ic p hp').2, i1 p hp']
    · rw [hs', set_eq, zero _ ncp]; simp
    · intro x hx
      simp only [List.mem_cons, not_or] at hx
      rw [hs', set_ne hx.1, i2 x hx.2, zero x hx.2]
      simp

/-- `rdCore` and then `f_setcurpl2cpcache()`: the body of `f_dwepdread_epd` (dwepdio.py:19-41), of the readers of `f_flagread_epd` (dwepdio.py:69-92) and of
`_read_epd_func` (memifgen.py:22-67 with `_check_empty=False`). -/
def rdBody (L : Layout) (cpc n u : Nat) (inits : List (Nat × W)) (items : List (Nat × List (Nat × W))) : Stmt :=
  .seq (rdCore u inits items) (cpBack L cpc n)

/-- The dwords that the body uses besides its results. -/
structure CpcOk (L : Layout) (cpc : Nat) (inits : List (Nat × W)) : Prop where
  pv : PVar L cpc
  ncp : cpAddr ∉ [cpc + 4, cpc + 344, cpc + 348, cpc + 352]
  ni : ∀ p ∈ inits, p.1 ∉ [cpc + 4, cpc + 344, cpc + 348, cpc + 352]

theorem rdBody_does {L : Layout} {cpc n u : Nat} {inits : List (Nat × W)} {items : List (Nat × List (Nat × W))} (h : RdHyp L inits items) (hk : CpcOk L cpc inits) {s : Mem}
    (hm : s (cpc + 352) = pmod .set) (hp : ¬ L.priv (epdAddr (s cpAddr))) (ha : epdAddr (s cpAddr) ∉ inits.map Prod.fst) (hc : epdAddr (s cpAddr) ≠ cpAddr) :
    Does L (rdBody L cpc n u inits items) s fun s' => (∀ p ∈ inits, s' p.1 = p.2 + sumBitsC (s (epdAddr (s cpAddr))) p.1 items) ∧
      s' cpAddr = s (cpc + 348) ∧ Only (cpBackScr cpc ++ inits.map Prod.fst) s s' := by
  have hnc := hk.ncp
  simp only [List.mem_cons, List.not_mem_nil, or_false, not_or] at hnc
  have hni : ∀ y ∈ [cpc + 4, cpc + 344, cpc + 348, cpc + 352], y ∉ inits.map Prod.fst := by
    intro y hy hy'
    obtain ⟨p, hp', e⟩ := List.mem_map.1 hy'
    exact hk.ni p hp' (e ▸ hy)
  unfold rdBody
  refine Does.seq (Does.mono (rdCore_does h hp ha hc) ?_)
  rintro s1 ⟨h1, -, h3⟩
  refine Does.mono (cpBack_does hk.pv h.cp (by simp; omega) ?_) ?_
  · rw [h3 _ ?_, hm]
    simp only [List.mem_cons, not_or]
    exact ⟨by omega, hni _ (by simp)⟩
  · rintro s2 ⟨g1, g2⟩
    refine ⟨fun p hp' => ?_, ?_, ?_⟩
    · rw [g2 _ ?_, h1 p hp']
      have := hk.ni p hp'
      have := (h.ic p hp').2
      simp only [cpBackScr, List.mem_cons, List.not_mem_nil, or_false, not_or] at *
      grind
    · rw [g1, h3 _ ?_]
      simp only [List.mem_cons, not_or]
      exact ⟨by omega, hni _ (by simp)⟩
    · refine Only.trans (s2 := s1) (h3.mono ?_) (g2.mono ?_)
      · intro x hx
        rcases List.mem_cons.1 hx with rfl | hx
        · simp [cpBackScr]
        · exact List.mem_append_right _ hx
      · intro x hx
        exact List.mem_append_left _ hx

/-! ## Reading at an EPD, as calls

The parameter of these functions is the current player itself (`_EUDPredefineParam(cp.CP)`). -/

/-- A call of a function with such a body: results, current player, and what stays the same.  `rs` are result variables and the dwords their values go to. -/
theorem rd_call {L : Layout} (hw : L.Wf) {fend nptr fstart back cpc n u : Nat} {rs : List (Nat × Nat)} {src : Src} {inits : List (Nat × W)} {items : List (Nat × List (Nat × W))}
    (h : RdHyp L inits items) (hk : CpcOk L cpc inits) (hi : ∀ r ∈ rs, r.1 + 348 ∈ inits.map Prod.fst)
    (hO : CallOk L nptr rs [(cpAddr, src)] (cpBackScr cpc ++ inits.map Prod.fst))
    (hF : FuncCode L fstart fend nptr (rs.map Prod.fst) (rdBody L cpc n u inits items)) (hback : back < 2 ^ 32) {s : Mem} (hm : s (cpc + 352) = pmod .set)
    (hkeep : cpc + 348 ∉ nptr :: rs.map (fun r => r.1 + 344) ∧ cpc + 352 ∉ nptr :: rs.map (fun r => r.1 + 344))
    (hcp : cpAddr ∉ rs.map Prod.snd ++ rs.map (fun r => r.1 + 4))
    (hp : ¬ L.priv (epdAddr (src.valM s))) (hn : epdAddr (src.valM s) ∉ cpAddr :: nptr :: rs.map (fun r => r.1 + 344) ++ inits.map Prod.fst) :
    Does L (.prim (CallRel L fend nptr back (rdBody L cpc n u inits items) rs [(cpAddr, src)])) s fun s' =>
      (∀ r ∈ rs, ∀ p ∈ inits, p.1 = r.1 + 348 → s' r.2 = p.2 + sumBitsC (s (epdAddr (src.valM s))) p.1 items) ∧
      s' cpAddr = s (cpc + 348) ∧ Only (callOnly nptr rs [(cpAddr, src)] (cpBackScr cpc ++ inits.map Prod.fst)) s s' := by
  have hnc := hk.ncp
  simp only [List.mem_cons, List.not_mem_nil, or_false, not_or] at hnc hkeep
  simp only [List.cons_append, List.mem_cons, List.mem_append, not_or] at hn
  refine Does.mono (C31_does hw hO hF hback (Q := fun s2 => (∀ p ∈ inits, s2 p.1 = p.2 + sumBitsC (s (epdAddr (src.valM s))) p.1 items) ∧ s2 cpAddr = s (cpc + 348)) ?_) ?_
  · intro s1 e1 e2
    have ec : s1 cpAddr = src.valM s := e1 (cpAddr, src) (by simp)
    have ek : ∀ x, x ≠ cpAddr → x ≠ nptr → x ∉ rs.map (fun r => r.1 + 344) → s1 x = s x := fun x h1 h2 h3 => e2 x (by
      simp only [List.map_cons, List.map_nil, List.mem_cons, List.mem_append, List.not_mem_nil, or_false, not_or]; exact ⟨h2, h3, h1⟩)
    have hd := rdBody_does (n := n) (u := u) h hk (s := s1) (by rw [ek _ (by omega) hkeep.2.1 hkeep.2.2, hm]) (by rw [ec]; exact hp) (by rw [ec]; exact hn.2.2.2) (by rw [ec]; exact hn.1)
    refine Wp.mono hd.wp ?_
    rintro o s2 ⟨rfl, g1, g2, g3⟩
    rw [ec, ek _ hn.1 hn.2.1 hn.2.2.1] at g1
    exact ⟨Or.inl rfl, ⟨g1, by rw [g2, ek _ (by omega) hkeep.1.1 hkeep.1.2]⟩, g3⟩
  · rintro s' ⟨⟨s2, ⟨g1, g2⟩, g3, g4⟩, g5⟩
    refine ⟨fun r hr p hp' e => ?_, ?_, g5⟩
    · rw [g3 r hr, ← e]; exact g1 p hp'
    · rw [g4 _ hcp, g2]

/-- dwepdio.py:32-39, cpmemio.py:21-30: bit `i` adds `2^i` to the dword and, from bit 2 on, `2^(i-2)` to the EPD. -/
def dwepdItems (p q : Nat) : List (Nat × List (Nat × W)) :=
  (List.range 32).map fun i => (i, (p, pow2 i) :: if 2 ≤ i then [(q, pow2 (i - 2))] else [])

/-- dwepdio.py:25-28, cpmemio.py:20 -/
def dwepdInits (p q : Nat) : List (Nat × W) := [(p, 0), (q, epd 0)]

theorem dwepd_fst (w : W) {p q : Nat} (h : p ≠ q) : sumBitsC w p (dwepdItems p q) = w := by
  unfold dwepdItems
  rw [sumBitsC_map, bitSum_congr w (g := pow2), bitSum_all w (List.Perm.refl _)]
  intro i _
  split <;> simp [sumC, Ne.symm h]

theorem dwepd_snd (w : W) {p q : Nat} (h : p ≠ q) : epd 0 + sumBitsC w q (dwepdItems p q) = epd w.toNat := by
  unfold dwepdItems
  rw [sumBitsC_map, bitSum_congr w (g := fun i => if 2 ≤ i then pow2 (i - 2) else 0), show List.range 32 = List.range (2 + 30) from rfl, bitSum_down w 2 30 (by omega)]
  · unfold epd
    apply BitVec.eq_of_toNat_eq
    have := w.isLt
    simp only [BitVec.toNat_add, BitVec.toNat_ofInt, BitVec.toNat_ofNat]
    omega
  · intro i _
    split <;> simp [sumC, h]

theorem dwepd_items {p q : Nat} : ∀ t ∈ dwepdItems p q, t.1 < 32 ∧ ∀ a ∈ t.2, a.1 ∈ (dwepdInits p q).map Prod.fst := by
  intro t ht
  obtain ⟨i, hi, rfl⟩ := List.mem_map.1 ht
  refine ⟨by simpa using hi, ?_⟩
  intro a ha
  simp only [dwepdInits, List.map_cons, List.map_nil]
  rcases List.mem_cons.1 ha with rfl | ha
  · simp
  · split at ha
    · simp only [List.mem_singleton] at ha; subst ha; simp
    · simp at ha

/-- **C32 (`f_dwepdread_epd`).** For all memory contents and every EPD of a dword that the code does not use: the results are the dword and the EPD of
the dword taken as a pointer, the current player afterwards is the cached one, and only the listed dwords change. -/
theorem C32_dwepdread {L : Layout} (hw : L.Wf) {fend nptr fstart back cpc n u p q o1 o2 : Nat} {src : Src} (hcp : L.cell cpAddr)
    (hc : L.cell (p + 348) ∧ L.cell (q + 348)) (hpq : p ≠ q) (hk : CpcOk L cpc (dwepdInits (p + 348) (q + 348))) (hnc : cpAddr ≠ p + 348 ∧ cpAddr ≠ q + 348)
    (hO : CallOk L nptr [(p, o1), (q, o2)] [(cpAddr, src)] (cpBackScr cpc ++ [p + 348, q + 348]))
    (hF : FuncCode L fstart fend nptr [p, q] (rdBody L cpc n u (dwepdInits (p + 348) (q + 348)) (dwepdItems (p + 348) (q + 348)))) (hback : back < 2 ^ 32)
    {s : Mem} (hm : s (cpc + 352) = pmod .set) (hkeep : cpc + 348 ∉ [nptr, p + 344, q + 344] ∧ cpc + 352 ∉ [nptr, p + 344, q + 344])
    (hcr : cpAddr ∉ [o1, o2, p + 4, q + 4]) (hp : ¬ L.priv (epdAddr (src.valM s))) (hn : epdAddr (src.valM s) ∉ [cpAddr, nptr, p + 344, q + 344, p + 348, q + 348]) :
    Does L (.prim (CallRel L fend nptr back (rdBody L cpc n u (dwepdInits (p + 348) (q + 348)) (dwepdItems (p + 348) (q + 348))) [(p, o1), (q, o2)] [(cpAddr, src)])) s
      fun s' => s' o1 = s (epdAddr (src.valM s)) ∧ s' o2 = epd (s (epdAddr (src.valM s))).toNat ∧ s' cpAddr = s (cpc + 348) ∧
        Only [nptr, o1, o2, p + 4, q + 4, p + 344, q + 344, cpAddr, cpc + 4, cpc + 344, p + 348, q + 348] s s' := by
  have hne : p + 348 ≠ q + 348 := by omega
  have h : RdHyp L (dwepdInits (p + 348) (q + 348)) (dwepdItems (p + 348) (q + 348)) := by
    refine ⟨hcp, ?_, ?_, dwepd_items⟩
    · simp [dwepdInits, hpq]
    · intro x hx
      simp only [dwepdInits, List.mem_cons, List.not_mem_nil, or_false] at hx
      rcases hx with rfl | rfl
      · exact ⟨hc.1, Ne.symm hnc.1⟩
      · exact ⟨hc.2, Ne.symm hnc.2⟩
  refine Does.mono (rd_call hw h hk (by simp [dwepdInits]) hO hF hback hm hkeep (by simpa using hcr) hp (by simpa [dwepdInits] using hn)) ?_
  rintro s' ⟨g1, g2, g3⟩
  refine ⟨?_, ?_, g2, g3.mono ?_⟩
  · rw [g1 (p, o1) (by simp) (p + 348, 0) (by simp [dwepdInits]) rfl, dwepd_fst _ hne]
    simp
  · rw [g1 (q, o2) (by simp) (q + 348, epd 0) (by simp [dwepdInits]) rfl, dwepd_snd _ hne]
  · intro x hx
    simp only [callOnly, cpBackScr, dwepdInits, List.map_cons, List.map_nil, List.cons_append, List.nil_append, List.mem_cons, List.not_mem_nil, or_false, List.append_nil] at hx ⊢
    grind

/-! ## `f_readgen_epd` -/

/-- A result of a generated reader: where it is, its start value, and what the bit `i` adds. -/
structure GenRet where
  at_ : Nat
  init : W
  f : Nat → W

/-- The bits of a mask, from the lowest on (utils/binio.py:38-43). -/
def maskBits (mask : W) : List Nat := (List.range 32).filter fun i => mask.getLsbD i

/-- memifgen.py:36-58 (epd), memifgen.py:153-182 (cp), dwepdio.py:78-88 (flags): one trigger for each of the bits for which some result is to be changed. -/
def genItems (bits : List Nat) (rs : List GenRet) : List (Nat × List (Nat × W)) :=
  (bits.filter fun i => rs.any fun r => r.f i != 0).map fun i => (i, (rs.filter fun r => r.f i != 0).map fun r => (r.at_, r.f i))

def genInits (rs : List GenRet) : List (Nat × W) := rs.map fun r => (r.at_, r.init)

theorem genInits_fst (rs : List GenRet) : (genInits rs).map Prod.fst = rs.map GenRet.at_ := by
  simp only [genInits, List.map_map]
  rfl

theorem sumC_gen (i : Nat) : ∀ {rs : List GenRet} {r : GenRet}, r ∈ rs → (rs.map GenRet.at_).Nodup →
    sumC r.at_ ((rs.filter fun r => r.f i != 0).map fun r => (r.at_, r.f i)) = r.f i := by
  have hz : ∀ {rs : List GenRet} {x : Nat}, x ∉ rs.map GenRet.at_ → sumC x ((rs.filter fun r => r.f i != 0).map fun r => (r.at_, r.f i)) = 0 := by
    intro rs
    induction rs with
    | nil => intro _ _; rfl
    | cons q rs ih =>
      intro x hx
      simp only [List.map_cons, List.mem_cons, not_or] at hx
      rw [List.filter_cons]
      split
      · simp only [List.map_cons, sumC, if_neg (Ne.symm hx.1), ih hx.2]; simp
      · exact ih hx.2
  intro rs
  induction rs with
  | nil => intro r hr; simp at hr
  | cons q rs ih =>
    intro r hr hnd
    rw [List.map_cons, List.nodup_cons] at hnd
    rw [List.filter_cons]
    rcases List.mem_cons.1 hr with rfl | hr
    · split
      · simp only [List.map_cons, sumC, if_true, hz hnd.1]; simp
      · rename_i h0
        rw [hz hnd.1]
        simpa using (Eq.symm (by simpa using h0))
    · have hne : q.at_ ≠ r.at_ := fun e => hnd.1 (e ▸ List.mem_map_of_mem hr)
      split
      · simp only [List.map_cons, sumC, if_neg hne, ih hr hnd.2]; simp
      · exact ih hr hnd.2

theorem gen_sum (w : W) (bits : List Nat) {rs : List GenRet} {r : GenRet} (hr : r ∈ rs) (hnd : (rs.map GenRet.at_).Nodup) :
    sumBitsC w r.at_ (genItems bits rs) = bitSum w r.f bits := by
  unfold genItems
  rw [sumBitsC_map, bitSum_congr w (g := r.f) fun i _ => sumC_gen i hr hnd, bitSum_filter]
  intro i _ h
  simp only [List.any_eq_false, bne_iff_ne, ne_eq, Decidable.not_not] at h
  exact h r hr

theorem gen_hyp {L : Layout} {bits : List Nat} (hb : ∀ i ∈ bits, i < 32) {rs : List GenRet} (hcp : L.cell cpAddr) (hnd : (rs.map GenRet.at_).Nodup) (hc : ∀ r ∈ rs, L.cell r.at_ ∧ r.at_ ≠ cpAddr) :
    RdHyp L (genInits rs) (genItems bits rs) := by
  refine ⟨hcp, by rw [genInits_fst]; exact hnd, ?_, ?_⟩
  · intro p hp
    obtain ⟨r, hr, rfl⟩ := List.mem_map.1 hp
    exact hc r hr
  · intro t ht
    obtain ⟨i, hi, rfl⟩ := List.mem_map.1 ht
    refine ⟨hb i (List.mem_filter.1 hi).1, ?_⟩
    intro a ha
    obtain ⟨r, hr, rfl⟩ := List.mem_map.1 ha
    rw [genInits_fst]
    exact List.mem_map_of_mem (f := GenRet.at_) (List.mem_filter.1 hr).1

theorem maskBits_lt (mask : W) : ∀ i ∈ maskBits mask, i < 32 := by
  intro i hi
  simp only [maskBits, List.mem_filter, List.mem_range] at hi
  exact hi.1

/-- Masks: `f_maskread_epd` with any mask (memifgen.py:204-252: `lambda x: x`). -/
theorem gen_mask (w mask : W) : bitSum w pow2 (maskBits mask) = w &&& mask := by
  unfold maskBits
  rw [← bitSum_flag w mask (List.Perm.refl (List.range 32)), ← bitSum_filter w (fun i => if mask.getLsbD i then pow2 i else 0) (fun i => mask.getLsbD i) (l := List.range 32)]
  · refine bitSum_congr w fun i hi => ?_
    simp only [List.mem_filter] at hi
    rw [if_pos hi.2]
  · intro i _ hi
    rw [hi]; rfl

/-- **C32 (`f_readgen_epd`).** Every result of a generated reader is its start value plus the sum of what its function gives for the bits of the mask that
are set in the dword; the current player afterwards is the cached one, and only the listed dwords change. -/
theorem C32_readgen {L : Layout} (hw : L.Wf) {fend nptr fstart back cpc n : Nat} {mask : W} {rs : List GenRet} {outs : List (Nat × Nat)} {src : Src}
    (hcp : L.cell cpAddr) (hnd : (rs.map GenRet.at_).Nodup) (hc : ∀ r ∈ rs, L.cell r.at_ ∧ r.at_ ≠ cpAddr) (hk : CpcOk L cpc (genInits rs))
    (ho : ∀ r ∈ outs, r.1 + 348 ∈ rs.map GenRet.at_) (hO : CallOk L nptr outs [(cpAddr, src)] (cpBackScr cpc ++ rs.map GenRet.at_))
    (hF : FuncCode L fstart fend nptr (outs.map Prod.fst) (rdBody L cpc n 0 (genInits rs) (genItems (maskBits mask) rs))) (hback : back < 2 ^ 32) {s : Mem} (hm : s (cpc + 352) = pmod .set)
    (hkeep : cpc + 348 ∉ nptr :: outs.map (fun r => r.1 + 344) ∧ cpc + 352 ∉ nptr :: outs.map (fun r => r.1 + 344))
    (hcr : cpAddr ∉ outs.map Prod.snd ++ outs.map (fun r => r.1 + 4))
    (hp : ¬ L.priv (epdAddr (src.valM s))) (hn : epdAddr (src.valM s) ∉ cpAddr :: nptr :: outs.map (fun r => r.1 + 344) ++ rs.map GenRet.at_) :
    Does L (.prim (CallRel L fend nptr back (rdBody L cpc n 0 (genInits rs) (genItems (maskBits mask) rs)) outs [(cpAddr, src)])) s fun s' =>
      (∀ o ∈ outs, ∀ r ∈ rs, r.at_ = o.1 + 348 → s' o.2 = r.init + bitSum (s (epdAddr (src.valM s))) r.f (maskBits mask)) ∧
      s' cpAddr = s (cpc + 348) ∧ Only (callOnly nptr outs [(cpAddr, src)] (cpBackScr cpc ++ rs.map GenRet.at_)) s s' := by
  have e := genInits_fst rs
  have h := rd_call (u := 0) (rs := outs) hw (gen_hyp (maskBits_lt mask) hcp hnd hc) hk (by rw [e]; exact ho) (by rw [e]; exact hO) hF hback hm hkeep hcr hp (by rw [e]; exact hn)
  rw [e] at h
  refine Does.mono h ?_
  rintro s' ⟨g1, g2, g3⟩
  refine ⟨fun o ho' r hr er => ?_, g2, g3⟩
  rw [g1 o ho' (r.at_, r.init) (List.mem_map_of_mem (f := fun r : GenRet => (r.at_, r.init)) hr) er, gen_sum _ _ hr hnd]

end Eud.SC
