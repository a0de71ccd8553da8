import Verif.Alloc.StackObjects
/-
Model of the two interpreters of an object's write sequence:

* the dry run `ObjAllocator`      (src/rust/src/allocator/payload.rs:11-172)
* the real write `PayloadBuffer`  (src/rust/src/allocator/pbuffer.rs:1-175)

and of the whole payload construction (payload.rs:257-334).

Simplifications: machine integers that count bytes (`u32`, `usize`) are `Nat`;
Python objects that evaluate to an address value are already evaluated (`Rloc`);
Rust panics and Python exceptions are both `none`.
-/

namespace Eud.Alloc

/-- An evaluated address value, rlocint.rs:48-51: `offset` (an `i32`, kept as 32
bits) plus `rlocmode` times a quarter of the load address. -/
structure Rloc where
  offset : BitVec 32
  mode : BitVec 32
  deriving DecidableEq, Repr

abbrev Byte := BitVec 8

/-- Field widths of `WritePack`: `'B'`, `'H'`, `'I'` (pbuffer.rs:86-91). -/
inductive Width where
  | B | H | I
  deriving DecidableEq, Repr

def Width.size : Width → Nat
  | .B => 1 | .H => 2 | .I => 4

/-- One call an object makes in its `WritePayload` method. -/
inductive WOp where
  | byte (n : BitVec 32)
  | word (n : BitVec 32)
  | dword (r : Rloc)
  | pack (fmt : List Width) (args : List Rloc)
  | bytes (bs : List Byte)
  | space (n : Nat)
  | trigger (prev next : Rloc) (conds acts : List (List Rloc)) (flags : Rloc)
  deriving Repr

/-- `x.to_le_bytes()[..n]` -/
def leBytes (x : BitVec 32) : Nat → List Byte
  | 0 => []
  | n + 1 => x.setWidth 8 :: leBytes (x >>> 8) n

/-- The format of a condition, pbuffer.rs:149 `"IIIHBBBBH"`. -/
def condFmt : List Width := [.I, .I, .I, .H, .B, .B, .B, .B, .H]
/-- The format of an action, pbuffer.rs:160 `"IIIIIIHBBBBH"`. -/
def actFmt : List Width := [.I, .I, .I, .I, .I, .I, .H, .B, .B, .B, .B, .H]

/-! ### The dry run -/

/-- payload.rs:14-18 -/
structure Dry where
  sub : Bool
  idx : Nat
  map : OccMap
  deriving Repr

/-- payload.rs:43-52 `push` -/
def Dry.push (d : Dry) (b : Bool) : Dry :=
  { d with map := d.map ++ [
      if b = false then -1
      else if d.map.getLast?.getD (-1) ≠ -1 then d.map.getLast?.getD (-1)
      else (d.map.length : Int)] }

/-- payload.rs:64-72 `occup1` -/
def Dry.occup1 (d : Dry) : Dry :=
  let d := { d with sub := true, idx := d.idx + 1 }
  if d.idx = 4 then { (d.push d.sub) with idx := 0, sub := false } else d

def iter {α : Type} (f : α → α) : Nat → α → α
  | 0, a => a
  | n + 1, a => iter f n (f a)

/-- payload.rs:105-110, 117-122: `n/4` occupied dwords, then `n%4` bytes. -/
def Dry.bulk (d : Dry) (n : Nat) : Dry :=
  iter Dry.occup1 (n % 4) (iter (fun d => d.push true) (n / 4) d)

/-- payload.rs:127-138 `WriteSpace` -/
def Dry.space (d : Dry) (n : Nat) : Dry :=
  let d := { d with idx := d.idx + n }
  if d.idx ≥ 4 then
    let d := d.push d.sub
    let d := { d with idx := d.idx - 4 }
    let d := iter (fun d => d.push false) (d.idx / 4) d
    { d with idx := d.idx % 4, sub := false }
  else d

/-- payload.rs:145-153, 156-164: `n` records of `w` dwords, and if there are fewer
than `cap` a zero record and the space of the rest. -/
def Dry.records (d : Dry) (w cap n : Nat) : Dry :=
  let d := iter (fun (d : Dry) => d.push true) (n * w) d
  if n < cap then
    (iter (fun (d : Dry) => d.push true) w d).space (4 * w * (cap - 1 - n)) else d

/-- payload.rs:140-171 `_write_trigger` -/
def Dry.trigger (d : Dry) (nc na : Nat) : Dry :=
  (((((d.push true).push true).records 5 16 nc).records 8 64 na).push true |>.space 27).occup1

def fmtSize (fmt : List Width) : Nat := (fmt.map Width.size).sum

/-- payload.rs:75-172, one call on the dry run.  For a trigger the Python side
passes the counts (`RawTrigger._allocate_trigger`). -/
def Dry.step (d : Dry) : WOp → Dry
  | .byte _ => d.occup1
  | .word _ => d.occup1.occup1
  | .dword _ => d.push true
  | .pack fmt _ => d.bulk (fmtSize fmt)
  | .bytes bs => d.bulk bs.length
  | .space n => d.space n
  | .trigger _ _ cs as _ => d.trigger cs.length as.length

/-- payload.rs:29-41: `start_write`, the calls, `end_write`. -/
def dryRun (ops : List WOp) : OccMap :=
  let d := ops.foldl Dry.step ⟨false, 0, []⟩
  if d.idx > 0 then (d.push d.sub).map else d.map

/-! ### The real write -/

/-- pbuffer.rs:8-14; `data` is a vector of length `size`. -/
structure Buf where
  size : Nat
  data : Nat → Byte
  cur : Nat
  prt : List Nat
  ort : List Nat

/-- `self.data[cur..cur+n].copy_from_slice(..); cur += n` -/
def Buf.store (b : Buf) (bs : List Byte) : Option Buf :=
  if b.cur + bs.length ≤ b.size then
    some { b with
      data := fun i => if b.cur ≤ i then (bs[i - b.cur]?).getD (b.data i) else b.data i
      cur := b.cur + bs.length }
  else none

/-- pbuffer.rs:60-81 `WriteDword` -/
def Buf.dword (b : Buf) (r : Rloc) : Option Buf :=
  if r.mode ≠ 0 then
    if b.cur % 4 ≠ 0 then none
    else if r.mode = 1 then { b with prt := b.prt ++ [b.cur] }.store (leBytes r.offset 4)
    else if r.mode = 4 then { b with ort := b.ort ++ [b.cur] }.store (leBytes r.offset 4)
    else none
  else b.store (leBytes r.offset 4)

/-- pbuffer.rs:85-120, the body of the loop of `WritePack` -/
def Buf.field (b : Buf) (w : Width) (r : Rloc) : Option Buf :=
  if ¬ (r.mode = 0 ∨ (w.size = 4 ∧ b.cur % 4 = 0)) then none
  else
    let b := if r.mode = 1 then { b with prt := b.prt ++ [b.cur] }
      else if r.mode = 4 then { b with ort := b.ort ++ [b.cur] } else b
    b.store (leBytes r.offset w.size)

/-- pbuffer.rs:84-122 `WritePack`; `zip` stops at the shorter list. -/
def Buf.pack (b : Buf) : List Width → List Rloc → Option Buf
  | w :: ws, r :: rs => (b.field w r).bind fun b => b.pack ws rs
  | _, _ => some b

/-- pbuffer.rs:131-133 `WriteSpace` -/
def Buf.space (b : Buf) (n : Nat) : Buf := { b with cur := b.cur + n }

def Buf.packs (b : Buf) (fmt : List Width) : List (List Rloc) → Option Buf
  | [] => some b
  | a :: as => (b.pack fmt a).bind fun b => b.packs fmt as

/-- pbuffer.rs:152-155 and 163-166: when the list is not full, one zero record
followed by unwritten space. -/
def Buf.fill (b : Buf) (count limit width : Nat) : Option Buf :=
  if count < limit then
    (b.store (List.replicate width 0)).map (·.space (width * (limit - 1 - count)))
  else some b

/-- pbuffer.rs:135-174 `_write_trigger` -/
def Buf.trigger (b : Buf) (prev next : Rloc) (cs as : List (List Rloc)) (flags : Rloc) :
    Option Buf := do
  let b ← b.dword prev
  let b ← b.dword next
  let b ← b.packs condFmt cs
  let b ← b.fill cs.length 16 20
  let b ← b.packs actFmt as
  let b ← b.fill as.length 64 32
  let b ← b.dword flags
  (b.space 27).store [0]

/-- One call on the real buffer. -/
def Buf.step (b : Buf) : WOp → Option Buf
  | .byte n => b.store [n.setWidth 8]
  | .word n => b.store (leBytes n 2)
  | .dword r => b.dword r
  | .pack fmt args => b.pack fmt args
  | .bytes bs => b.store bs
  | .space n => some (b.space n)
  | .trigger p n cs as f => b.trigger p n cs as f

def Buf.run (b : Buf) : List WOp → Option Buf
  | [] => some b
  | o :: os => (b.step o).bind fun b => b.run os

/-! ### Payload construction -/

/-- An object: its declared size and its write sequence, which may mention the
addresses of all objects (payload.py `GetObjectAddr`). -/
structure Obj where
  size : Nat
  write : (Nat → Rloc) → List WOp

/-- payload.py:208, 218-226: address used while the sizes are being computed. -/
def dryAddr : Nat → Rloc := fun _ => ⟨0, 4⟩

/-- payload.rs:336-338 `get_object_addr` -/
def realAddr (addrs : List Nat) : Nat → Rloc :=
  fun i => ⟨BitVec.ofNat 32 (addrs[i]?.getD 0), 4⟩

/-- payload.rs:257-293 `alloc_objects`: the dry run of each object, with the
check that its length matches the declared size. -/
def allocObjects (fuel : Nat) (objs : List Obj) : Option (List Nat × Nat) :=
  let maps := objs.map fun o => dryRun (o.write dryAddr)
  if objs.all (fun o => (dryRun (o.write dryAddr)).length == (o.size + 3) / 4) then
    match stackObjects fuel maps with
    | .ok r => some r
    | _ => none
  else none

/-- payload.rs:309-327: the loop that writes the objects. -/
def writeObjs (addr : Nat → Rloc) : Buf → List (Obj × Nat) → Option Buf
  | b, [] => some b
  | b, (o, a) :: rest =>
    match ({ b with cur := a }).run (o.write addr) with
    | some b' => if b'.cur - a = o.size then writeObjs addr b' rest else none
    | none => none

/-- payload.rs:295-334 `construct_payload` -/
def constructPayload (objs : List Obj) (addrs : List Nat) (size : Nat) : Option Buf :=
  writeObjs (realAddr addrs) ⟨size, fun _ => 0, 0, [], []⟩ (objs.zip addrs)

/-! ## Specification -/

/-- The bytes a call stores: `some b` for a stored byte, `none` for a skipped one. -/
def imgPack : List Width → List Rloc → List (Option Byte)
  | w :: ws, r :: rs => (leBytes r.offset w.size).map some ++ imgPack ws rs
  | _, _ => []

def imgTrigger (prev next : Rloc) (cs as : List (List Rloc)) (flags : Rloc) : List (Option Byte) :=
  (leBytes prev.offset 4).map some ++ (leBytes next.offset 4).map some ++
  (cs.map (imgPack condFmt)).flatten ++
  (if cs.length < 16 then List.replicate 20 (some 0) ++ List.replicate (20 * (15 - cs.length)) none
   else []) ++
  (as.map (imgPack actFmt)).flatten ++
  (if as.length < 64 then List.replicate 32 (some 0) ++ List.replicate (32 * (63 - as.length)) none
   else []) ++
  (leBytes flags.offset 4).map some ++ List.replicate 27 none ++ [some 0]

def imgOp : WOp → List (Option Byte)
  | .byte n => [some (n.setWidth 8)]
  | .word n => (leBytes n 2).map some
  | .dword r => (leBytes r.offset 4).map some
  | .pack fmt args => imgPack fmt args
  | .bytes bs => bs.map some
  | .space n => List.replicate n none
  | .trigger p n cs as f => imgTrigger p n cs as f

/-- The image of an object: what it stores, relative to its own start. -/
def image (ops : List WOp) : List (Option Byte) := (ops.map imgOp).flatten

/-- A call that stores whole dwords: it has to start on a dword boundary. -/
def WOp.isBulk : WOp → Bool
  | .byte _ | .word _ | .space _ => false
  | .dword _ | .trigger .. => true
  | .pack fmt _ => 4 ≤ fmtSize fmt
  | .bytes bs => 4 ≤ bs.length

/-- The arguments fit the format. -/
def WOp.matched : WOp → Bool
  | .pack fmt args => fmt.length == args.length
  | .trigger _ _ cs as _ =>
    cs.all (·.length == condFmt.length) && as.all (·.length == actFmt.length) &&
    cs.length ≤ 16 && as.length ≤ 64
  | _ => true

/-- Every call that stores whole dwords starts at a multiple of four. -/
def Aligned (pos : Nat) : List WOp → Prop
  | [] => True
  | o :: os => (o.isBulk = true → pos % 4 = 0) ∧ o.matched = true ∧
      Aligned (pos + (imgOp o).length) os

/-- `img` stores a byte inside dword `d`. -/
def StoresIn (img : List (Option Byte)) (d : Nat) : Prop :=
  ∃ k b, k / 4 = d ∧ img[k]? = some (some b)

end Eud.Alloc
