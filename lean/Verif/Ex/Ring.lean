import Verif.Ex.Kit
import Verif.Lib.Ring
/-
Examples for C38 and C39: a queue and a deque of capacity 2 in memory, with the functions and programs that use them.
-/

namespace Eud.SC

theorem simage_base {m m' : Mem} {x : Nat} (h : m x = m' x) : ∀ (P : List SBlk), simage m P x = simage m' P x
  | [] => h
  | b :: P => by simp only [simage, h, simage_base h P]

theorem image_base {m m' : Mem} {x : Nat} (h : m x = m' x) : ∀ (P : List Blk), image m P x = image m' P x
  | [] => h
  | b :: P => by simp only [image, image_base h P]

/-- Outside of the variables their values do not matter. -/
theorem Layout.mem_vals {L : Layout} {p x : Nat} {vals vals' : List W} {holes : List (Nat × W)} (hl : vals.length = vals'.length) (hx : x < p ∨ p + 2404 + 72 * vals.length ≤ x) :
    L.mem p vals holes x = L.mem p vals' holes x := by
  refine simage_base (image_base ?_ _) _
  unfold bufImage
  rw [if_neg (by omega), if_neg (by omega)]

namespace ExRing

/-- A queue, a deque, and the deque where it fails. -/
inductive Cfg | queue | deque | bad

def Cfg.dq : Cfg → Bool
  | .queue => false
  | _ => true

def fa : Nat := trigAt 0
def rp : Nat := trigAt 1
def fp : Nat := trigAt 2
def fl : Nat := trigAt 3
def rq : Nat := trigAt 4
def fq : Nat := trigAt 5
def ret : Nat := exVar 0
def lv : Nat := exVar 1
/-- The ends of popleft and pop. -/
def T1 : Emitted := emitD fp (fun _ _ _ _ _ _ => none) (.base (retVar rp ret)) 0 0 fp 20 0
def T2 : Emitted := emitD fq (fun _ _ _ _ _ _ => none) (.base (retVar rq ret)) 0 0 fq 20 5

def R (c : Cfg) : Ring where
  q := 0xE010000
  cap := 2
  pop := 0xE000000
  ret := ret
  len := lv + 348
  it := 0xE004000
  ta := trigAt 6
  cw := trigAt 7
  wt := trigAt 8
  wh := trigAt 9
  jl := trigAt 10
  wr := trigAt 11
  dq := c.dq
  p1 := trigAt 12
  jp := trigAt 13
  rp := T2.e
  cw2 := trigAt 14
  wh2 := trigAt 15
  wt2 := trigAt 16
  tl := trigAt 17

def F : RingFns := ⟨fa, fa + 4, trigAt 6, fp, fendPtr [rp] fp, trigAt 10, rp, fl, fl + 4, trigAt 14, fq, fendPtr [rq] fq, trigAt 12, rq⟩

def x : Src := .var (exVar 2)
def y : Src := .var (exVar 3)
def z : Src := .var (exVar 4)
def o (i : Nat) : Nat := exVar (5 + i) + 348
def U : List Nat := [exVar 2 + 348, exVar 3 + 348, exVar 4 + 348, o 0, o 1, o 2]

/-- Where the `i`th call of a program is. -/
def at_ (i : Nat) : Nat := seqAt (10 * i + 10)

/-- The programs. -/
def ops : Cfg → List RingOp
  | .queue => [.clear, .append (at_ 2) x, .append (at_ 3) y, .append (at_ 4) z, .length (o 0) lv, .popleft (at_ 6) (o 1), .append (at_ 7) x, .popleft haltAt (o 2)]
  | .deque => [.clear, .append (at_ 2) x, .append (at_ 3) y, .append (at_ 4) z, .length (o 0) lv, .popleft (at_ 6) (o 1), .appendleft (at_ 7) x, .pop (at_ 8) (o 2), .popleft haltAt (o 0)]
  | .bad => [.appendleft (at_ 1) (.const 7), .append (at_ 2) (.const 9), .pop haltAt (o 0)]

/-- One operation that goes on at `e`: from the `i`th place on. -/
def emitOp (c : Cfg) (i e : Nat) : RingOp → Option Emitted
  | .append back v => if back = e then (emitAsg F.sa (10 * i + 10) (callAsg F.na back [] [((R c).ta + 348, v)])).map fun q => ⟨q.1, 0, 0, [], q.2, []⟩ else none
  | .popleft back o => if back = e then (emitAsg F.sp (10 * i + 10) (callAsg F.np back [(F.rp, o)] [])).map fun q => ⟨q.1, 0, 0, [], q.2, []⟩ else none
  | .appendleft back v => if back = e ∧ c.dq = true then (emitAsg F.sl (10 * i + 10) (callAsg F.nl back [] [((R c).tl + 508, v)])).map fun q => ⟨q.1, 0, 0, [], q.2, []⟩ else none
  | .pop back o => if back = e ∧ c.dq = true then (emitAsg F.sq (10 * i + 10) (callAsg F.nq back [(F.rq, o)] [])).map fun q => ⟨q.1, 0, 0, [], q.2, []⟩ else none
  | .clear => match (R c).clear with
    | .trig cs as => if placedCB (trigAt (20 + i) + 8) cs ∧ placedAB (trigAt (20 + i) + 328) as then some ⟨trigAt (20 + i), 0, 0, [⟨trigAt (20 + i), ⟨cs.map PC.c, as.map PA.a⟩, some e, false⟩], [], []⟩ else none
    | _ => none
  | .length o v => (emitAsg e (10 * i + 10) [⟨o, .set, .var v⟩]).map fun q => ⟨q.1, 0, 0, [], q.2, []⟩
  | .user gs => (emitAsg e (10 * i + 10) gs).map fun q => ⟨q.1, 0, 0, [], q.2, []⟩

def emitOps (c : Cfg) : Nat → List RingOp → Option Emitted
  | _, [] => some ⟨haltAt, 0, 0, [], [], []⟩
  | i, op :: ops => (emitOps c (i + 1) ops).bind fun E => (emitOp c i E.e op).map fun D => ⟨D.e, 0, 0, D.blks ++ E.blks, D.seqs ++ E.seqs, []⟩

def M (c : Cfg) : Emitted := (emitOps c 0 (ops c)).getD .none

def trg (t : Nat) (cs : List PC) (as : List PA) (n : Option Nat) : SBlk := ⟨t, ⟨cs.map PC.c, as.map PA.a⟩, n, false⟩

def blks (c : Cfg) : List SBlk :=
  let r := R c
  fendBlks [] fa ++ fendBlks [rp] fp ++ fendBlks [] fl ++ fendBlks [rq] fq ++
  [trg r.ta [] r.appActs (some r.cw), trg r.cw [cMem r.len .atLeast (BitVec.ofNat 32 (r.cap + 1))] r.cwActs none, trg r.wt [r.tailEnd] r.wtActs (some r.wh),
   trg r.wh [r.headEnd] (r.head.move (-r.cap)) (some fa), trg r.jl [] r.jlActs none, trg r.wr [r.tailEnd] (r.tail.move (-r.cap)) (some T1.e)] ++
  (if r.dq then [trg r.p1 [r.headZero] (r.head.move r.cap) (some r.jp), trg r.jp [] r.jpActs none,
    trg r.cw2 [cMem r.len .atLeast (BitVec.ofNat 32 r.cap)] r.cw2Acts none, trg r.wh2 [r.headZero] (r.head.move r.cap) (some r.wt2), trg r.wt2 [r.tailZero] (r.tail.move r.cap) (some r.tl),
    trg r.tl [] r.tlActs (some fl)] else []) ++ (M c).blks

def L0 (c : Cfg) : Layout := ⟨⟨blks c, T1.seqs ++ T2.seqs ++ (M c).seqs, (List.range 8).map exVar⟩, [], []⟩
def X (c : Cfg) : List (Nat × Nat) := pvPins (R c).pop ++ pvPins (R c).q ++ pvPins ((R c).q + 72)
def L (c : Cfg) : Layout := (L0 c).pin (X c)

/-- The ends of the queue at the start: for the third program as after three times append. -/
def pos0 : Cfg → Int
  | .bad => 1
  | _ => 0

def holes (c : Cfg) : List (Nat × W) :=
  let r := R c
  [((R c).q + 4, BitVec.ofNat 32 r.pop), (r.q + 344, epd (r.pop + 348)), (r.q + 352, pmod .set), (r.q + 76, BitVec.ofNat 32 r.pop), (r.q + 416, epd (r.pop + 348)), (r.q + 424, pmod .set),
   (r.pop + 344, epd (r.ret + 348)), (r.pop + 352, pmod .set), (r.cw + 4, BitVec.ofNat 32 r.wh), (r.cw2 + 4, BitVec.ofNat 32 r.wt2), (r.q + 348, 3), (r.q + 420, 4)] ++
  (r.head ++ r.tail).map fun e => (e.1, BitVec.ofInt 32 (e.2.1 + e.2.2 * pos0 c))

def vs (c : Cfg) (a b d : W) : List W := [0, match c with | .bad => 2 | _ => 0, a, b, d, 0, 0, 0]
def mem (c : Cfg) (a b d : W) : Mem := (L0 c).mem exBuf (vs c a b d) (pinHoles (X c) ++ holes c)

theorem laid (c : Cfg) (a b d : W) : (L0 c).Laid exBuf (vs c a b d) := Layout.laidB_spec (show (L0 c).laidB exBuf 8 = true by cases c <;> decide +kernel)
theorem pins (c : Cfg) (a b d : W) : (L0 c).pinB exBuf (vs c a b d).length (X c) = true := show (L0 c).pinB exBuf 8 (X c) = true by cases c <;> decide +kernel
theorem wf (c : Cfg) : (L c).Wf := (laid c 0 0 0).pinWf (pins c 0 0 0)
theorem ok (c : Cfg) (a b d : W) : (L c).Ok (mem c a b d) := (laid c a b d).pinOk (pins c a b d) (holes c)
theorem pvs (c : Cfg) (v : Nat) (h : v ∈ [(R c).pop, (R c).q, (R c).q + 72]) : PVar (L c) v := by
  have h1 : ∀ v ∈ [(R c).pop, (R c).q, (R c).q + 72], (∀ r ∈ pvPins v, r ∈ X c) ∧ (∀ o ∈ [4, 344, 348, 352], (L0 c).Free exBuf 8 (v + o) ∧ ∀ r ∈ X c, v + o ≠ r.1 + 4) := by
    cases c <;> decide +kernel
  exact PVar.pin (laid c 0 0 0) (h1 v h).1 (h1 v h).2
theorem cell {c : Cfg} {x : Nat} (h : (L0 c).pinCellB (X c) x = true) : (L c).cell x := (laid c 0 0 0).pinCellB h
theorem vars (c : Cfg) : ∀ v ∈ (List.range 8).map exVar, v ∈ (L c).P.vars := fun _ h => h

/-! The queue and its functions. -/

theorem rok (c : Cfg) : (R c).Ok (L c) where
  pos := by cases c <;> decide
  al := by cases c <;> decide
  ge := by cases c <;> decide
  lt := by cases c <;> decide
  cells := by
    have : ∀ x ∈ (R c).steer, (L0 c).pinCellB (X c) x = true := by cases c <;> decide +kernel
    exact fun x hx => cell (this x hx)
  elem := by
    intro j hj
    have : j = 0 ∨ j = 1 := by change j < 2 at hj; omega
    rcases this with rfl | rfl
    · exact pvs c (R c).q (by simp)
    · exact pvs c ((R c).q + 72) (by simp)
  pv := pvs c (R c).pop (by simp)
  vr := vars c ret (by decide +kernel)
  nd := by cases c <;> decide +kernel
  dis := by
    have : ∀ o ∈ [4, 344, 348, 352], ∀ j < 2, (R c).q + 72 * j + o ∉ (R c).steer ∧ (R c).pop + 344 ∉ (R c).steer ∧ (R c).pop + 352 ∉ (R c).steer := by cases c <;> decide +kernel
    rintro x (⟨j, hj, rfl | rfl | rfl | rfl⟩ | rfl | rfl)
    · exact (this 4 (by simp) j hj).1
    · exact (this 344 (by simp) j hj).1
    · exact (this 348 (by simp) j hj).1
    · exact (this 352 (by simp) j hj).1
    · exact (this 4 (by simp) 0 (by simp)).2.1
    · exact (this 4 (by simp) 0 (by simp)).2.2
  pe := show ∀ j < 2, (R c).pop + 344 ≠ (R c).q + 72 * j + 348 ∧ (R c).pop + 352 ≠ (R c).q + 72 * j + 348 by cases c <;> decide +kernel
  ep := by cases c <;> decide +kernel
  er := by cases c <;> decide +kernel
  plt := by cases c <;> decide

theorem np {c : Cfg} {x : Nat} (h : (L0 c).pinCellB (X c) x = true) : ¬ (L c).priv x := (cell h).2

theorem into {c : Cfg} {E : Emitted} (h1 : E.blks = []) (h2 : ∀ b ∈ E.seqs, b ∈ (L0 c).P.seqs) (h3 : E.rest = []) : E.Into (L c) := ⟨by simp [h1], h2, by rw [h3]; simp⟩

theorem seq_mem {c : Cfg} {b : Blk} (h : b ∈ T1.seqs ∨ b ∈ T2.seqs ∨ b ∈ (M c).seqs) : b ∈ (L0 c).P.seqs := by
  simp only [L0, List.mem_append]
  rcases h with h | h | h
  · exact Or.inl (Or.inl h)
  · exact Or.inl (Or.inr h)
  · exact Or.inr h

theorem t1Code (c : Cfg) : Code (L c) fp 0 0 (retVar rp ret) T1.e fp :=
  emitD_code (S := fun _ _ _ _ _ _ => none) (f := fun _ => .skip) (es := .base (retVar rp ret)) (n := 20) (m := 0) (by simp) (by decide +kernel) (into (by decide +kernel) (fun b h => seq_mem (Or.inl h)) (by decide +kernel))
theorem t2Code (c : Cfg) : Code (L c) fq 0 0 (retVar rq ret) T2.e fq :=
  emitD_code (S := fun _ _ _ _ _ _ => none) (f := fun _ => .skip) (es := .base (retVar rq ret)) (n := 20) (m := 5) (by simp) (by decide +kernel) (into (by decide +kernel) (fun b h => seq_mem (Or.inr (Or.inl h))) (by decide +kernel))

def main (c : Cfg) : List SBlk :=
  let r := R c
  [trg r.ta [] r.appActs (some r.cw), trg r.cw [cMem r.len .atLeast (BitVec.ofNat 32 (r.cap + 1))] r.cwActs none, trg r.wt [r.tailEnd] r.wtActs (some r.wh),
   trg r.wh [r.headEnd] (r.head.move (-r.cap)) (some fa), trg r.jl [] r.jlActs none, trg r.wr [r.tailEnd] (r.tail.move (-r.cap)) (some T1.e)]
def moreT (c : Cfg) : List SBlk :=
  let r := R c
  [trg r.p1 [r.headZero] (r.head.move r.cap) (some r.jp), trg r.jp [] r.jpActs none,
    trg r.cw2 [cMem r.len .atLeast (BitVec.ofNat 32 r.cap)] r.cw2Acts none, trg r.wh2 [r.headZero] (r.head.move r.cap) (some r.wt2), trg r.wt2 [r.tailZero] (r.tail.move r.cap) (some r.tl),
    trg r.tl [] r.tlActs (some fl)]
def more (c : Cfg) : List SBlk := if (R c).dq then moreT c else []

theorem blk_main {c : Cfg} {b : SBlk} (h : b ∈ main c) : b ∈ (L c).P.blks := List.mem_append_left _ (List.mem_append_left _ (List.mem_append_right _ h))
theorem blk_more {c : Cfg} {b : SBlk} (h : b ∈ more c) : b ∈ (L c).P.blks := List.mem_append_left _ (List.mem_append_right _ h)
theorem blk_prog {c : Cfg} {b : SBlk} (h : b ∈ (M c).blks) : b ∈ (L c).P.blks := List.mem_append_right _ h
theorem blk_end {c : Cfg} {b : SBlk} (h : b ∈ fendBlks [] fa ++ fendBlks [rp] fp ++ fendBlks [] fl ++ fendBlks [rq] fq) : b ∈ (L c).P.blks := List.mem_append_left _ (List.mem_append_left _ (List.mem_append_left _ h))

instance (r : Ring) (x : Nat) : Decidable (r.own x) := by unfold Ring.own Ring.data; infer_instance

theorem fok (c : Cfg) : F.Ok (L c) (R c) U where
  append := by
    refine ⟨⟨0, 0, ?_⟩, fendBlks_end (frets := []) (fun b h => blk_end (List.mem_append_left _ (List.mem_append_left _ (List.mem_append_left _ h)))) (cell (by cases c <;> decide +kernel)) (by simp) (by simp)⟩
    refine .seq (.trig trivial (placedAB_spec (by cases c <;> decide +kernel)) (blk_main (.head _))) (.seq (detour_code (wf c) (blk_main (.tail _ (.head _))) (np (by cases c <;> decide +kernel))
      (placedCB_spec (by cases c <;> decide +kernel)) (placedAB_spec (by cases c <;> decide +kernel)) (blk_main (.tail _ (.tail _ (.head _)))) (placedCB_spec (by cases c <;> decide +kernel))
      (placedAB_spec (by cases c <;> decide +kernel)) (by simp [R, trigAt]) (by simp [R, trigAt])) ?_)
    exact .trig (placedCB_spec (by cases c <;> decide +kernel)) (placedAB_spec (by cases c <;> decide +kernel)) (blk_main (.tail _ (.tail _ (.tail _ (.head _)))))
  popleft := by
    refine ⟨⟨0, 0, ?_⟩, fendBlks_end (frets := [rp]) (fun b h => blk_end (List.mem_append_left _ (List.mem_append_left _ (List.mem_append_right _ h)))) (cell (by cases c <;> decide +kernel)) (fun v hv => ?_) (by simp)⟩
    · exact .seq (.seq (Ring.jump_code (wf c) (rok c) (blk_main (.tail _ (.tail _ (.tail _ (.tail _ (.head _)))))) (np (by cases c <;> decide +kernel)) (placedAB_spec (by cases c <;> decide +kernel)) (by simp [R, trigAt]))
        (.trig (placedCB_spec (by cases c <;> decide +kernel)) (placedAB_spec (by cases c <;> decide +kernel)) (blk_main (.tail _ (.tail _ (.tail _ (.tail _ (.tail _ (.head _))))))))) (t1Code c)
    · rw [List.mem_singleton.1 hv]
      exact ⟨cell (by cases c <;> decide +kernel), by decide⟩
  appendleft := fun hd => by
    have hm : ∀ {b : SBlk}, b ∈ moreT c → b ∈ (L c).P.blks := fun h => blk_more (by rw [more, if_pos hd]; exact h)
    refine ⟨⟨0, 0, ?_⟩, fendBlks_end (frets := []) (fun b h => blk_end (List.mem_append_left _ (List.mem_append_right _ h))) (cell (by cases c <;> decide +kernel)) (by simp) (by simp)⟩
    refine .seq (detour_code (wf c) (hm (.tail _ (.tail _ (.head _)))) (np (by cases c <;> decide +kernel)) (placedCB_spec (by cases c <;> decide +kernel)) (placedAB_spec (by cases c <;> decide +kernel))
      (hm (.tail _ (.tail _ (.tail _ (.head _))))) (placedCB_spec (by cases c <;> decide +kernel)) (placedAB_spec (by cases c <;> decide +kernel)) (by cases c <;> decide) (by cases c <;> decide)) ?_
    exact .seq (.trig (placedCB_spec (by cases c <;> decide +kernel)) (placedAB_spec (by cases c <;> decide +kernel)) (hm (.tail _ (.tail _ (.tail _ (.tail _ (.head _)))))))
      (.trig trivial (placedAB_spec (by revert hd; cases c <;> decide +kernel)) (hm (.tail _ (.tail _ (.tail _ (.tail _ (.tail _ (.head _))))))))
  pop := fun hd => by
    have hm : ∀ {b : SBlk}, b ∈ moreT c → b ∈ (L c).P.blks := fun h => blk_more (by rw [more, if_pos hd]; exact h)
    refine ⟨⟨0, 0, ?_⟩, fendBlks_end (frets := [rq]) (fun b h => blk_end (List.mem_append_right _ h)) (cell (by cases c <;> decide +kernel)) (fun v hv => ?_) (by simp)⟩
    · exact .seq (.seq (.trig (placedCB_spec (by cases c <;> decide +kernel)) (placedAB_spec (by cases c <;> decide +kernel)) (hm (.head _)))
        (Ring.jump_code (wf c) (rok c) (hm (.tail _ (.head _))) (np (by cases c <;> decide +kernel)) (placedAB_spec (by cases c <;> decide +kernel)) (by cases c <;> decide +kernel))) (t2Code c)
    · rw [List.mem_singleton.1 hv]
      exact ⟨cell (by cases c <;> decide +kernel), by decide⟩
  own := by cases c <;> decide +kernel
  own2 := fun _ => by cases c <;> decide +kernel
  cell := cell (by cases c <;> decide +kernel)
  cell2 := fun _ => cell (by cases c <;> decide +kernel)
  free := by cases c <;> decide +kernel
  free2 := by intro; cases c <;> decide +kernel

/-! The programs. -/

instance (r : Ring) (x : Nat) : Decidable (r.data x) := by unfold Ring.data; infer_instance

theorem callCode {c : Cfg} {i e fstart fend nptr : Nat} {rs : List (Nat × Nat)} {args : List (Nat × Src)} {body : Stmt} (hF : FuncCode (L c) fstart fend nptr (rs.map Prod.fst) body)
    (hn : ∀ r ∈ rs, r.1 + 4 ≠ nptr) (he : e < 2 ^ 32) {D : Emitted} (h : (emitAsg fstart (10 * i + 10) (callAsg nptr e rs args)).map (fun q => (⟨q.1, 0, 0, [], q.2, []⟩ : Emitted)) = some D)
    (h2 : ∀ b ∈ D.seqs, b ∈ (L c).P.seqs) : Code (L c) retAt 0 0 (.prim (CallRel (L c) fend nptr e body rs args)) D.e e := by
  obtain ⟨⟨e1, Q⟩, hq, rfl⟩ := Option.map_eq_some_iff.1 h
  exact C31_call (wf c) hF ⟨⟨0, 0, 0, emitAsg_code hq h2 _ _ _⟩, he⟩ hn _ _ _

theorem emitOp_code {c : Cfg} {i e : Nat} {op : RingOp} {D : Emitted} (h : emitOp c i e op = some D) (he : e < 2 ^ 32)
    (h1 : ∀ b ∈ D.blks, b ∈ (L c).P.blks) (h2 : ∀ b ∈ D.seqs, b ∈ (L c).P.seqs) : Code (L c) retAt 0 0 (op.stmt (L c) (R c) F) D.e e := by
  have hF := fok c
  cases op with
  | append back v =>
    simp only [emitOp] at h
    split at h
    · subst back
      exact callCode hF.append (by simp) he h h2
    · cases h
  | popleft back o =>
    simp only [emitOp] at h
    split at h
    · subst back
      exact callCode (rs := [(F.rp, o)]) hF.popleft (by simpa using (by decide : F.rp + 4 ≠ F.np)) he h h2
    · cases h
  | appendleft back v =>
    simp only [emitOp] at h
    split at h
    · rename_i hb
      obtain ⟨rfl, hd⟩ := hb
      exact callCode (hF.appendleft hd) (by simp) he h h2
    · cases h
  | pop back o =>
    simp only [emitOp] at h
    split at h
    · rename_i hb
      obtain ⟨rfl, hd⟩ := hb
      exact callCode (rs := [(F.rq, o)]) (hF.pop hd) (by simpa using (by decide : F.rq + 4 ≠ F.nq)) he h h2
    · cases h
  | clear =>
    simp only [emitOp, Ring.clear] at h
    split at h
    · rename_i hp
      cases h
      exact .trig (placedCB_spec hp.1) (placedAB_spec hp.2) (h1 _ (by simp))
    · cases h
  | length o v =>
    simp only [emitOp] at h
    obtain ⟨⟨e1, Q⟩, hq, rfl⟩ := Option.map_eq_some_iff.1 h
    exact emitAsg_code hq h2 _ _ _
  | user gs =>
    simp only [emitOp] at h
    obtain ⟨⟨e1, Q⟩, hq, rfl⟩ := Option.map_eq_some_iff.1 h
    exact emitAsg_code hq h2 _ _ _

/-- All entries fit in a dword. -/
def entB (c : Cfg) : Nat → List RingOp → Bool
  | _, [] => true
  | i, op :: ops => (match emitOps c i (op :: ops) with | some E => decide (E.e < 2 ^ 32) | none => false) && entB c (i + 1) ops

theorem emitOps_code {c : Cfg} : ∀ (os : List RingOp) (i : Nat) {E : Emitted}, entB c i os = true → emitOps c i os = some E → (∀ b ∈ E.blks, b ∈ (L c).P.blks) → (∀ b ∈ E.seqs, b ∈ (L c).P.seqs) →
    E.e < 2 ^ 32 ∧ Code (L c) retAt 0 0 (.seqs (os.map (RingOp.stmt (L c) (R c) F))) E.e haltAt
  | [], _, E, _, h, _, _ => by
    cases h
    exact ⟨by decide, .skip⟩
  | op :: os, i, E, hb, h, h1, h2 => by
    simp only [entB, h, Bool.and_eq_true, decide_eq_true_eq] at hb
    simp only [emitOps, Option.bind_eq_some_iff, Option.map_eq_some_iff] at h
    obtain ⟨E1, h3, D, h4, rfl⟩ := h
    obtain ⟨i1, i2⟩ := emitOps_code os (i + 1) hb.2 h3 (fun b h => h1 b (List.mem_append_right _ h)) (fun b h => h2 b (List.mem_append_right _ h))
    exact ⟨hb.1, .seq (emitOp_code (D := D) h4 i1 (fun b h => h1 b (List.mem_append_left _ h)) (fun b h => h2 b (List.mem_append_left _ h))) i2⟩

theorem code (c : Cfg) : Code (L c) retAt 0 0 (.seqs ((ops c).map (RingOp.stmt (L c) (R c) F))) (M c).e haltAt := by
  have h1 : (emitOps c 0 (ops c)).isSome = true := by cases c <;> decide +kernel
  obtain ⟨E, hE⟩ := Option.isSome_iff_exists.1 h1
  have hM : M c = E := by rw [M, hE]; rfl
  rw [hM]
  exact (emitOps_code (ops c) 0 (by cases c <;> decide +kernel) hE (fun b h => blk_prog (hM ▸ h)) (fun b h => seq_mem (Or.inr (Or.inr (hM ▸ h))))).2

/-- The call sites, by computation. -/
def opB (c : Cfg) : RingOp → Bool
  | .append back x => decide (back < 2 ^ 32) && callOkB ((L0 c).pinCellB (X c)) ((List.range 8).map exVar) F.na [] [((R c).ta + 348, x)] (R c).scr && (match x with | .var v => U.contains (v + 348) | _ => true)
  | .popleft back o => decide (back < 2 ^ 32) && callOkB ((L0 c).pinCellB (X c)) ((List.range 8).map exVar) F.np [(F.rp, o)] [] ((R c).steer ++ [F.rp + 348]) && U.contains o
  | .appendleft back x => decide (back < 2 ^ 32) && callOkB ((L0 c).pinCellB (X c)) ((List.range 8).map exVar) F.nl [] [((R c).tl + 508, x)] (R c).scr && (match x with | .var v => U.contains (v + 348) | _ => true)
  | .pop back o => decide (back < 2 ^ 32) && callOkB ((L0 c).pinCellB (X c)) ((List.range 8).map exVar) F.nq [(F.rq, o)] [] ((R c).steer ++ [F.rq + 348]) && U.contains o
  | .clear => true
  | .length o v => (L0 c).pinCellB (X c) o && decide (v = lv) && U.contains o
  | .user _ => false

theorem opB_spec {c : Cfg} {op : RingOp} (h : opB c op = true) : op.Ok (L c) (R c) F U := by
  have src : ∀ {x : Src}, (match x with | .var v => U.contains (v + 348) | _ => true) = true → SrcIn U x := by
    rintro x hx v rfl
    simpa using hx
  cases op <;> simp only [opB, Bool.and_eq_true, decide_eq_true_eq, Bool.false_eq_true] at h
  · exact ⟨h.1.1, callOkB_spec (fun _ => cell) (vars c) h.1.2, src h.2⟩
  · exact ⟨h.1.1, callOkB_spec (fun _ => cell) (vars c) h.1.2, by simpa using h.2⟩
  · exact ⟨h.1.1, callOkB_spec (fun _ => cell) (vars c) h.1.2, src h.2⟩
  · exact ⟨h.1.1, callOkB_spec (fun _ => cell) (vars c) h.1.2, by simpa using h.2⟩
  · trivial
  · obtain ⟨⟨h1, rfl⟩, h3⟩ := h
    exact ⟨cell h1, vars c lv (by decide +kernel), rfl, by simpa using h3⟩

theorem opsOk (c : Cfg) : ∀ op ∈ ops c, op.Ok (L c) (R c) F U := by
  have : (ops c).all (opB c) = true := by cases c <;> decide +kernel
  exact fun op h => opB_spec (List.all_eq_true.1 this op h)

/-! The start. -/

theorem hc {c : Cfg} {a : Nat} (h : (L0 c).pinCellB (X c) a = true) (m : Mem) : (L c).view m a = m a := Layout.view_at (cell h).2

theorem vals0 (c : Cfg) (a b d : W) {x : Nat} {w : W} (hx : (x < exBuf ∨ exBuf + 2404 + 72 * 8 ≤ x) ∧ (L0 c).pinCellB (X c) x = true ∧ mem c 0 0 0 x = w) : (L c).view (mem c a b d) x = w := by
  rw [hc hx.2.1, ← hx.2.2]
  exact Layout.mem_vals (by simp [vs]) hx.1

theorem var0 (c : Cfg) (a b d : W) (i : Nat) (hi : i < 8) (h : (L0 c).pinCellB (X c) (exVar i + 348) = true) : (L c).view (mem c a b d) (exVar i + 348) = (vs c a b d)[i]'hi := by
  rw [hc h]
  exact ((laid c a b d).ok _).2 i hi

def l0 : Cfg → List W
  | .bad => [4, 3]
  | _ => []

theorem rep (c : Cfg) (a b d : W) : (R c).Rep ((L c).view (mem c a b d)) (pos0 c).toNat (pos0 c).toNat (l0 c) := by
  refine ⟨by cases c <;> decide, by cases c <;> decide, by cases c <;> decide, ?_, ?_, ?_, ?_, ?_, ?_⟩
  · refine (var0 c a b d 1 (by simp) (by cases c <;> decide +kernel)).trans ?_
    cases c <;> rfl
  · have : ∀ e ∈ (R c).tail, (e.1 < exBuf ∨ exBuf + 2404 + 72 * 8 ≤ e.1) ∧ (L0 c).pinCellB (X c) e.1 = true ∧ mem c 0 0 0 e.1 = BitVec.ofInt 32 (e.2.1 + e.2.2 * (pos0 c).toNat) := by cases c <;> decide +kernel
    exact fun e he => vals0 c a b d (this e he)
  · have : ∀ e ∈ (R c).head, (e.1 < exBuf ∨ exBuf + 2404 + 72 * 8 ≤ e.1) ∧ (L0 c).pinCellB (X c) e.1 = true ∧ mem c 0 0 0 e.1 = BitVec.ofInt 32 (e.2.1 + e.2.2 * (pos0 c).toNat) := by cases c <;> decide +kernel
    exact fun e he => vals0 c a b d (this e he)
  · exact Or.inl (vals0 c a b d (by cases c <;> decide +kernel))
  · exact fun hd => vals0 c a b d (by revert hd; cases c <;> decide +kernel)
  · refine ⟨?_, ?_, vals0 c a b d (by cases c <;> decide +kernel), vals0 c a b d (by cases c <;> decide +kernel)⟩
    · intro i hi
      refine vals0 c a b d ?_
      revert i
      cases c <;> decide +kernel
    · intro j hj
      have : j = 0 ∨ j = 1 := by change j < 2 at hj; omega
      rcases this with rfl | rfl <;> exact ⟨vals0 c a b d (by cases c <;> decide +kernel), vals0 c a b d (by cases c <;> decide +kernel), vals0 c a b d (by cases c <;> decide +kernel)⟩

theorem rin (c : Cfg) (hp : pos0 c = 0) (a b d : W) : RingIs (R c) U ((L c).view (mem c a b d)) (l0 c, false, (L c).view (mem c a b d)) :=
  ⟨⟨_, _, rep c a b d, fun _ => by rw [hp]; simp [R]⟩, fun _ _ => rfl⟩

/-- The queue: after appending `a`, `b`, `d` its length is 2 and `popleft` gives `b`; after appending `a` once more `popleft` gives `d`. -/
theorem run_queue (a b d : W) : ∃ m', Reaches ⟨mem .queue a b d, (M .queue).e⟩ ⟨m', haltAt⟩ ∧ m' (o 0) = 2 ∧ m' (o 1) = b ∧ m' (o 2) = d := by
  have v3 := var0 .queue a b d 3 (by simp) (by decide +kernel)
  have v4 := var0 .queue a b d 4 (by simp) (by decide +kernel)
  have cv : ∀ u ∈ U, (L0 .queue).pinCellB (X .queue) u = true := by decide +kernel
  generalize hs : (L .queue).view (mem .queue a b d) = s at v3 v4
  have hr : runOps (RingOp.queue 2) (ops .queue) ([], s) = some ([s (exVar 2 + 348)], ((s.set (o 0) 2).set (o 1) (s (exVar 3 + 348))).set (o 2) (s (exVar 4 + 348))) := by
    simp [runOps, ops, RingOp.queue, x, y, z, Src.valM, get_set, o, exVar, exBuf]
  obtain ⟨s1, x1, -, e1⟩ := C38_queue (wf .queue) (rok .queue) rfl (fok .queue) (ops .queue) _ _ _ _ _ (opsOk .queue) (rin .queue rfl a b d) (hs ▸ hr)
  obtain ⟨m', rr, -, hv'⟩ := C25_structured (wf .queue) x1 (code .queue) _ (ok .queue a b d) rfl
  refine ⟨m', rr, ?_, ?_, ?_⟩
  · rw [← hc (cv (o 0) (by decide)) m', hv', e1 _ (by decide)]
    simp [get_set, o, exVar, exBuf]
  · rw [← hc (cv (o 1) (by decide)) m', hv', e1 _ (by decide)]
    simp [get_set, o, exVar, exBuf]
    exact hs ▸ v3
  · rw [← hc (cv (o 2) (by decide)) m', hv', e1 _ (by decide)]
    simp [get_set]
    exact hs ▸ v4

/-- The deque: after appending `a`, `b`, `d`, `popleft` gives `b`; after `appendleft(a)`, `pop` gives `d` and `popleft` gives `a`. -/
theorem run_deque (a b d : W) : ∃ m', Reaches ⟨mem .deque a b d, (M .deque).e⟩ ⟨m', haltAt⟩ ∧ m' (o 0) = a ∧ m' (o 1) = b ∧ m' (o 2) = d := by
  have v2 := var0 .deque a b d 2 (by simp) (by decide +kernel)
  have v3 := var0 .deque a b d 3 (by simp) (by decide +kernel)
  have v4 := var0 .deque a b d 4 (by simp) (by decide +kernel)
  have cv : ∀ u ∈ U, (L0 .deque).pinCellB (X .deque) u = true := by decide +kernel
  generalize hs : (L .deque).view (mem .deque a b d) = s at v2 v3 v4
  have hr : runOps (RingOp.deque 2) (ops .deque) ([], false, s) = some ([], false, (((s.set (o 0) 2).set (o 1) (s (exVar 3 + 348))).set (o 2) (s (exVar 4 + 348))).set (o 0) (s (exVar 2 + 348))) := by
    simp [runOps, ops, RingOp.deque, x, y, z, Src.valM, get_set, o, exVar, exBuf]
  obtain ⟨s1, x1, -, e1⟩ := C39_deque_partial (wf .deque) (rok .deque) rfl (fok .deque) (ops .deque) _ _ _ (opsOk .deque) (rin .deque rfl a b d) (hs ▸ hr)
  obtain ⟨m', rr, -, hv'⟩ := C25_structured (wf .deque) x1 (code .deque) _ (ok .deque a b d) rfl
  refine ⟨m', rr, ?_, ?_, ?_⟩
  · rw [← hc (cv (o 0) (by decide)) m', hv', e1 _ (by decide)]
    simp [get_set, o, exVar, exBuf]
    exact hs ▸ v2
  · rw [← hc (cv (o 1) (by decide)) m', hv', e1 _ (by decide)]
    simp [get_set, o, exVar, exBuf]
    exact hs ▸ v3
  · rw [← hc (cv (o 2) (by decide)) m', hv', e1 _ (by decide)]
    simp [get_set, o, exVar, exBuf]
    exact hs ▸ v4

/-- Where the deque fails: `appendleft(7)`, `append(9)`, `pop()` gives 7. -/
theorem run_bad (a b d : W) : ∃ m', Reaches ⟨mem .bad a b d, (M .bad).e⟩ ⟨m', haltAt⟩ ∧ m' (o 0) = 7 := by
  obtain ⟨s1, x1, e1, -⟩ := C39_counterexample (wf .bad) (rok .bad) rfl (fok .bad) (by decide) (cell (by decide +kernel)) (by decide +kernel) (by decide +kernel) (opsOk .bad _ (.head _)) (b2 := at_ 2) (z := 9) (by decide)
    (callOkB_spec (fun _ => cell) (vars .bad) (by decide +kernel)) (opsOk .bad _ (.tail _ (.tail _ (.head _)))) (by decide) (rep .bad a b d) rfl
  obtain ⟨m', rr, -, hv'⟩ := C25_structured (wf .bad) x1 (code .bad) _ (ok .bad a b d) rfl
  refine ⟨m', rr, ?_⟩
  rw [← hc (c := .bad) (by decide +kernel) m', hv', e1]

end ExRing

end Eud.SC
