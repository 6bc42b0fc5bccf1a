import Verif.PacketHeader
import Verif.PayloadHeader
/-!
# Blocks: what `brec_macros` generates for a `#[block]` struct

A block type is a list of field types; the functions below are the generated functions, written
once for an arbitrary list of fields instead of as generated text.
-/

namespace Brec

/-! ## Field types -/

/-- The numeric types of `Ty` (`/repo/brec_macros/src/entities/ty/mod.rs:7-23`). -/
inductive NumTy
  | u8 | u16 | u32 | u64 | u128 | i8 | i16 | i32 | i64 | i128 | f32 | f64
  deriving DecidableEq, Repr

/-- Numeric part of `Ty::size` (`entities/ty/mod.rs:26-44`). -/
def NumTy.size : NumTy → Nat
  | u8 => 1 | u16 => 2 | u32 => 4 | u64 => 8 | u128 => 16
  | i8 => 1 | i16 => 2 | i32 => 4 | i64 => 8 | i128 => 16
  | f32 => 4 | f64 => 8

/-- A user enum linked to `u8`: the user supplies `From<&E> for u8` and `TryFrom<u8> for E`. The enum's
values are numbered. -/
structure Linked where
  card : Nat
  enc : Fin card → Byte
  dec : Byte → Option (Fin card)

/-- `Ty` (`entities/ty/mod.rs:7-23`). -/
inductive FTy
  | num (n : NumTy)
  | bool
  | blob (n : Nat)
  | linked (e : Linked)

/-- Values of a field type. Numbers are bit patterns (for floats `to_le_bytes`/`from_le_bytes` move
the bits unchanged; equality here is equality of bits). -/
@[reducible] def FTy.Val : FTy → Type
  | num n => BitVec (8 * n.size)
  | bool => Bool
  | blob n => Arr n
  | linked e => Fin e.card

/-- `Ty::size` (`entities/ty/mod.rs:26-44`). -/
def FTy.size : FTy → Nat
  | num n => n.size
  | bool => 1
  | blob n => n
  | linked _ => 1

/-- `Field::to_bytes` (`tokenized/block/to_bytes/field/mod.rs:8-36`), the owned and the referred form
(they differ only in a `&`). -/
def FTy.toBytes : (t : FTy) → t.Val → Bytes
  | num n, v => leBytes n.size (BitVec.toNat v)
  | bool, v => [flagByte v]
  | blob _, v => v.1
  | linked e, v => [e.enc v]

/-- The byte of a one-byte buffer. -/
def byteOf (b : Bytes) : Byte := BitVec.ofNat 8 (leNat b)

/-- `<[u8; n]>::try_from(slice)` on a slice of the right length; a wrong length (excluded by the callers)
is shown as a panic. -/
def toArr (n : Nat) (b : Bytes) : Out (Arr n) := if h : b.length = n then .ok ⟨b, h⟩ else .panic

/-- `Enum::try_from(u8).map_err(FailedConverting)`. -/
def Linked.decode (e : Linked) (b : Byte) : Out (Fin e.card) :=
  match e.dec b with
  | some v => .ok v
  | none => .err .failedConverting

/-- `Field::read_exact` (`tokenized/block/read_exact/field/mod.rs:8-51`). -/
def FTy.read : (t : FTy) → P t.Val
  | num n => do
    let b ← P.readExact n.size
    pure (BitVec.ofNat _ (leNat b))
  | bool => do
    let b ← P.readExact 1
    pure (byteOf b != 0)
  | blob n => do
    let b ← P.readExact n
    P.lift (toArr n b)
  | linked e => do
    let b ← P.readExact 1
    P.lift (e.decode (byteOf b))

/-- `FromBytes for Ty` (`tokenized/block/from_bytes/ty/mod.rs:8-43`) on the slice `#src[#from..#to]`. -/
def FTy.ofSlice : (t : FTy) → Bytes → Out t.Val
  | num _, b => .ok (BitVec.ofNat _ (leNat b))
  | bool, b => .ok (byteOf b == 1)
  | blob n, b => toArr n b
  | linked e, b => e.decode (byteOf b)

/-- `&buf[from..to]`: panics when out of range. -/
def cut (buf : Bytes) (a b : Nat) : Out Bytes :=
  if a ≤ b ∧ b ≤ buf.length then .ok (slice buf a (b - a)) else .panic

/-! ## Block types -/

/-- A block struct: its signature constant (`entities/block/mod.rs:38-54`, the CRC-32 of name and field
list, here any four bytes), its declared fields, and the `no_crc` attribute. Fields are known by position; that their names do
not matter, and for which name they do, is the subject of `Verif.Names`. -/
structure BlockTy where
  sig : Bytes
  fields : List FTy
  noCrc : Bool

/-- A field list's values. -/
@[reducible] def Vals : List FTy → Type
  | [] => Unit
  | t :: ts => t.Val × Vals ts

/-- Size of the declared fields. -/
def fieldsSize : List FTy → Nat
  | [] => 0
  | t :: ts => t.size + fieldsSize ts

/-- `StaticSize::ssize` (`codegen/props/block.rs:68-86`) and `Block::size` (`entities/block/mod.rs:60-67`):
all fields including the injected `__sig` and `__crc` (`parsing/block/mod.rs:35-36`). -/
def BlockTy.ssize (b : BlockTy) : Nat := 4 + fieldsSize b.fields + 4

/-- What `hasher.update` receives (`codegen/props/block.rs:32-41`), in order. -/
def Vals.parts : (ts : List FTy) → Vals ts → List Bytes
  | [], _ => []
  | t :: ts, (v, vs) => t.toBytes v :: Vals.parts ts vs

/-- `CrcU32::crc` of the owned and of the referred block (`codegen/props/block.rs:5-66`):
one hasher updated with each field in turn. -/
def BlockTy.crc (b : BlockTy) (v : Vals b.fields) : Bytes :=
  if b.noCrc then [0, 0, 0, 0]
  else leBytes 4
    (((Vals.parts b.fields v).foldl crcState 0xFFFFFFFF#32) ^^^ 0xFFFFFFFF#32).toNat

/-! ### Writing -/

/-- `buffer[off..off + n].copy_from_slice(src)` (also the `copy_nonoverlapping` form, whose out of range
case would be undefined behaviour and is shown as a panic). -/
def copyAt (buf : Bytes) (off : Nat) (src : Bytes) : Out Bytes :=
  if off + src.length ≤ buf.length then
    .ok (buf.take off ++ src ++ buf.drop (off + src.length))
  else .panic

/-- `#(#buf_fillers)*` (`codegen/write/block.rs:8-44`). -/
def fillFields : (ts : List FTy) → Vals ts → Bytes → Nat → Out (Bytes × Nat)
  | [], _, buf, off => .ok (buf, off)
  | t :: ts, (v, vs), buf, off =>
    (copyAt buf off (t.toBytes v)).bind fun buf => fillFields ts vs buf (off + t.size)

/-- The buffer handed to `writer.write`/`write_all` (`codegen/write/block.rs:51-81`). -/
def BlockTy.buffer (b : BlockTy) (v : Vals b.fields) : Out Bytes :=
  (copyAt (List.replicate b.ssize 0) 0 b.sig).bind fun buf =>
  (fillFields b.fields v buf 4).bind fun r =>
  copyAt r.1 r.2 (b.crc v)

/-- One field as seen by the `slices` generator. -/
structure FV where
  blob : Bool
  size : Nat
  bytes : Bytes

def FTy.isBlob : FTy → Bool
  | blob _ => true
  | _ => false

def Vals.fvs : (ts : List FTy) → Vals ts → List FV
  | [], _ => []
  | t :: ts, (v, vs) => ⟨t.isBlob, t.size, t.toBytes v⟩ :: Vals.fvs ts vs

/-- State of the grouping loop: `groups`, `slices`, `fields`. -/
structure Grouping where
  groups : List (List FV)
  slices : List FV
  fields : List FV

/-- One iteration (`codegen/write/block.rs:95-125`). -/
def Grouping.step (g : Grouping) (f : FV) : Grouping :=
  if f.blob then
    let g := if g.fields.isEmpty then g else { g with groups := g.groups ++ [g.fields], fields := [] }
    { g with slices := g.slices ++ [f] }
  else
    let g := if g.slices.isEmpty then g else { g with groups := g.groups ++ [g.slices], slices := [] }
    { g with fields := g.fields ++ [f] }

/-- The tail of the grouping (`codegen/write/block.rs:126-131`). -/
def Grouping.finish (g : Grouping) : List (List FV) :=
  let groups := if g.fields.isEmpty then g.groups else g.groups ++ [g.fields]
  if g.slices.isEmpty then groups else groups ++ [g.slices]

/-- State of the emitted code for one group: `slices`, `buffer`, `offset`. -/
structure Emit where
  slots : List Bytes
  buffer : Bytes
  offset : Nat

/-- The code emitted for one group (`codegen/write/block.rs:133-181`): `n` counts the fields, `last` is
the index of the group's last field and `len` the group's total size. -/
def emitGroup (len last : Nat) : Nat → List FV → Emit → Out Emit
  | _, [], e => .ok e
  | n, f :: fs, e =>
    if f.blob then emitGroup len last (n + 1) fs { e with slots := e.slots ++ [f.bytes] }
    else
      let e := if n = 0 then { e with buffer := List.replicate len 0, offset := 0 } else e
      (copyAt e.buffer e.offset f.bytes).bind fun buffer =>
      let e := { e with buffer }
      let e := if n ≠ last then { e with offset := e.offset + f.size }
        else { e with slots := e.slots ++ [e.buffer] }
      emitGroup len last (n + 1) fs e

/-- All groups in order. -/
def emitGroups : List (List FV) → Emit → Out Emit
  | [], e => .ok e
  | g :: gs, e =>
    (emitGroup ((g.map FV.size).sum) (g.length - 1) 0 g e).bind fun e => emitGroups gs e

/-- `WriteVectoredTo::slices` (`codegen/write/block.rs:183-199`). -/
def BlockTy.slices (b : BlockTy) (v : Vals b.fields) : Out (List Bytes) :=
  let groups := ((Vals.fvs b.fields v).foldl Grouping.step ⟨[], [], []⟩).finish
  (emitGroups groups ⟨[b.sig], [], 0⟩).map fun e => e.slots ++ [b.crc v]

/-! ### Reading -/

/-- `#(#fields)*` of the stream reader. -/
def Vals.read : (ts : List FTy) → P (Vals ts)
  | [] => pure ()
  | t :: ts => do
    let v ← t.read
    let vs ← Vals.read ts
    pure (v, vs)

/-- The part of `ReadBlockFrom::read` after the signature check (`codegen/read/block.rs:32-44`). -/
def BlockTy.readBody (b : BlockTy) : P (Vals b.fields) := do
  let v ← Vals.read b.fields
  let crc ← P.readExact 4
  if b.crc v ≠ crc then P.fail .crcDismatch else
  pure v

/-- `ReadBlockFrom::read(buf, skip_sig)` (`codegen/read/block.rs:19-46`). -/
def BlockTy.read (b : BlockTy) (skipSig : Bool) : P (Vals b.fields) :=
  if skipSig then b.readBody
  else do
    let sig ← P.readExact 4
    if sig ≠ b.sig then P.fail .sigDismatch else b.readBody

/-- The zero-copy view (`codegen/base/block.rs:47-53`): signature, fields, CRC. Blobs are references
into the buffer; their content is what matters here. `Verif.View` keeps the references. -/
structure Referred (ts : List FTy) where
  sig : Bytes
  vals : Vals ts
  crc : Bytes

/-- `From<Referred> for Block` (`codegen/base/block.rs:55-61`). -/
def Referred.into {ts} (r : Referred ts) : Vals ts := r.vals

/-- The field part of `read_from_slice` (`codegen/read/block.rs:62-83`), from a given offset. -/
def Vals.ofSlice : (ts : List FTy) → Bytes → Nat → Out (Vals ts × Nat)
  | [], _, off => .ok ((), off)
  | t :: ts, buf, off =>
    (cut buf off (off + t.size)).bind fun s =>
    (t.ofSlice s).bind fun v =>
    (Vals.ofSlice ts buf (off + t.size)).map fun r => ((v, r.1), r.2)

/-- `ReadBlockFromSlice::read_from_slice(buf, skip_sig)` (`codegen/read/block.rs:88-123`). The offsets are
generated counting `__sig` (4 bytes) even when `skip_sig` is set. -/
def BlockTy.readSlice (b : BlockTy) (buf : Bytes) (skipSig : Bool) : Out (Referred b.fields) :=
  if ¬ skipSig ∧ buf.length < 4 then .err (.notEnoughSig buf.length 4)
  else if ¬ skipSig ∧ buf.take 4 ≠ b.sig then .err .sigDismatch
  else
    let required := if skipSig then b.ssize - 4 else b.ssize
    if buf.length < required then .err (.notEnoughData required)
    else
      (if skipSig then .ok b.sig else cut buf 0 4).bind fun sig =>
      (Vals.ofSlice b.fields buf 4).bind fun r =>
      (cut buf r.2 (r.2 + 4)).bind fun crc =>
      if b.crc r.1 ≠ crc then .err .crcDismatch else .ok ⟨sig, r.1, crc⟩

/-- `TryReadFrom::try_read` (`codegen/read/block.rs:139-161`). -/
def BlockTy.tryRead (b : BlockTy) (c : Cur) : Out (Status (Vals b.fields)) × Cur :=
  match c.remaining with
  | .err e => (.err e, c)
  | .panic => (.panic, c)
  | .ok len =>
    if len < 4 then (.ok (.notEnough (4 - len)), c)
    else
      match c.run (P.readExact 4) with
      | (.ok sig, c1) =>
        if sig ≠ b.sig then (.err .sigDismatch, c1.seek c.pos)
        else if len < b.ssize then (.ok (.notEnough (b.ssize - len)), c1)
        else ((c1.run (b.read true)).1.map .success, (c1.run (b.read true)).2)
      | (.err e, c1) => (.err e, c1)
      | (.panic, c1) => (.panic, c1)

/-- `TryReadFromBuffered::try_read` (`codegen/read/block.rs:176-198`). -/
def BlockTy.tryBuf (b : BlockTy) (cs : Chunks) : Out (Status (Vals b.fields)) × Chunks :=
  if (Chunks.fill cs).length < 4 then (.ok (.notEnough (4 - (Chunks.fill cs).length)), cs)
  else if ¬ b.sig.isPrefixOf (Chunks.fill cs) then (.err .sigDismatch, cs)
  else
    let cs := Chunks.consume 4 cs
    ((Chunks.run (b.read true) cs).1.map .success, (Chunks.run (b.read true) cs).2)

/-! ## The generated `Block` enum -/

/-- A value of the generated `Block` enum: which block type, and its fields. -/
def BlockVal := (b : BlockTy) × Vals b.fields

/-- A value of the generated `BlockReferred` enum. -/
def BlockRef := (b : BlockTy) × Referred b.fields

/-- `referred_into` (`collector/blocks/props.rs:44-59`). -/
def BlockRef.into (r : BlockRef) : BlockVal := ⟨r.1, r.2.into⟩

/-- `impl Size for Block` (`collector/blocks/props.rs:6-23`) and `BlockReferred` (`:25-42`). -/
def BlockVal.size (v : BlockVal) : Nat := v.1.ssize
def BlockRef.size (v : BlockRef) : Nat := v.1.ssize

/-- `impl WriteTo for Block` (`collector/blocks/write.rs:6-33`). -/
def BlockVal.buffer (v : BlockVal) : Out Bytes := v.1.buffer v.2

/-- `impl WriteVectoredTo for Block` (`collector/blocks/write.rs:35-51`). -/
def BlockVal.slices (v : BlockVal) : Out (List Bytes) := v.1.slices v.2

/-- `ReadBlockFrom for Block` (`collector/blocks/read.rs:35-62`); `ReadFrom for Block` (`:6-33`) is the same
with `skip_sig = false`. Each failed variant has already taken its four signature bytes. -/
def enumRead (skipSig : Bool) : List BlockTy → P BlockVal
  | [] => P.fail .sigDismatch
  | b :: bs => ⟨fun s =>
    match (b.read skipSig).run s with
    | (.ok v, s') => (.ok ⟨b, v⟩, s')
    | (.err .sigDismatch, s') => (enumRead skipSig bs).run s'
    | (.err e, s') => (.err e, s')
    | (.panic, s') => (.panic, s')⟩

/-- `TryReadFrom for Block` (`collector/blocks/read.rs:64-98`). -/
def enumTryRead : List BlockTy → Cur → Out (Status BlockVal) × Cur
  | [], c => (.err .sigDismatch, c)
  | b :: bs, c =>
    match b.tryRead c with
    | (.ok (.success v), c') => (.ok (.success ⟨b, v⟩), c')
    | (.ok (.notEnough n), c') => (.ok (.notEnough n), c')
    | (.err .sigDismatch, c') => enumTryRead bs c'
    | (.err e, c') => (.err e, c')
    | (.panic, c') => (.panic, c')

/-- `TryReadFromBuffered for Block` (`collector/blocks/read.rs:100-132`). -/
def enumTryBuf : List BlockTy → Chunks → Out (Status BlockVal) × Chunks
  | [], cs => (.err .sigDismatch, cs)
  | b :: bs, cs =>
    match b.tryBuf cs with
    | (.ok (.success v), cs') => (.ok (.success ⟨b, v⟩), cs')
    | (.ok (.notEnough n), cs') => (.ok (.notEnough n), cs')
    | (.err .sigDismatch, cs') => enumTryBuf bs cs'
    | (.err e, cs') => (.err e, cs')
    | (.panic, cs') => (.panic, cs')

/-- `ReadBlockFromSlice for BlockReferred` (`collector/blocks/read.rs:134-161`). -/
def enumReadSlice (skipSig : Bool) : List BlockTy → Bytes → Out BlockRef
  | [], _ => .err .sigDismatch
  | b :: bs, buf =>
    match b.readSlice buf skipSig with
    | .ok r => .ok ⟨b, r⟩
    | .err .sigDismatch => enumReadSlice skipSig bs buf
    | .err e => .err e
    | .panic => .panic

end Brec
