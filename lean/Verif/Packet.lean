import Verif.BlockRead
import Verif.PayloadLemmas
import Verif.PacketHeader
import Verif.Sink
import Verif.Rules
/-!
# Packets

Model of `/repo/brec/src/packet/{mod,read,write}.rs`.
-/

namespace Brec

/-- `MAX_BLOCKS_COUNT` (`/repo/brec/src/lib.rs:15`). -/
def MAX_BLOCKS : Nat := 255

/-- What the packet code needs from `B: BlockDef` and `BR: BlockReferredDef<B>` (`packet/mod.rs:19-33`). -/
structure BlockOps where
  B : Type
  BR : Type
  size : B → Nat
  rsize : BR → Nat
  into : BR → B
  buffer : B → Out Bytes
  slices : B → Out (List Bytes)
  readSlice : Bytes → Out BR
  tryRead : Cur → Out (Status B) × Cur
  tryBuf : Chunks → Out (Status B) × Chunks

/-- The generated `Block`/`BlockReferred` enums over block types `vs`. -/
def blockEnum (vs : List BlockTy) : BlockOps where
  B := BlockVal
  BR := BlockRef
  size := BlockVal.size
  rsize := BlockRef.size
  into := BlockRef.into
  buffer := BlockVal.buffer
  slices := BlockVal.slices
  readSlice := enumReadSlice false vs
  tryRead := enumTryRead vs
  tryBuf := enumTryBuf vs

variable (O : BlockOps) (Q : PayloadOps)

/-- `PacketDef` (`packet/mod.rs:80-88`). -/
structure Packet where
  blocks : List O.B
  payload : Option Q.V

namespace Packet

variable {O Q}

/-- `PacketHeader::new(&self.blocks, self.payload.as_ref())` (`packet/header/mod.rs:66-87`, `payload_size` `:99-107`). -/
def header (p : Packet O Q) : Out PacketHeader :=
  match p.payload with
  | none => .ok (PacketHeader.ofSizes (p.blocks.map O.size).sum none)
  | some v => (Q.size v).map fun n => PacketHeader.ofSizes (p.blocks.map O.size).sum (some (n + Q.hsize v))

/-! ## Writing -/

/-- `blk.write_all(buf)` for each block (`packet/write.rs:59-61`). -/
def writeBlocks : List O.B → W Unit
  | [] => pure ()
  | b :: bs => do
    let x ← W.lift (O.buffer b)
    Sink.writeAll x
    writeBlocks bs

/-- `WriteMutTo::write_all` (`packet/write.rs:56-67`). The payload is encoded in one step before its header is
written (the code encodes it for the CRC, writes the header, and encodes again). -/
def writeAll (p : Packet O Q) : W Unit := do
  let h ← W.lift p.header
  Sink.writeAll h.bytes
  writeBlocks p.blocks
  match p.payload with
  | none => pure ()
  | some v => do
    let x ← W.lift (Q.parts v)
    Sink.writeAll x.1
    Sink.writeAll x.2

/-- The block loop of `write` (`packet/write.rs:31-38`): `inl` is the early return. -/
def writeBlocksPartial : (total : Nat) → List O.B → W (Nat ⊕ Nat)
  | total, [] => pure (.inr total)
  | total, b :: bs => do
    let x ← W.lift (O.buffer b)
    let written ← Sink.write x
    if written < O.size b then pure (.inl (total + written))
    else writeBlocksPartial (total + written) bs

/-- `WritePayloadWithHeaderTo::write` (`traits/write/mod.rs:89-98`). -/
def writePayload (v : Q.V) : W Nat := do
  let x ← W.lift (Q.parts v)
  Sink.writeAll x.1
  let s ← Sink.write x.2
  pure (s + x.1.length)

/-- `WriteMutTo::write` (`packet/write.rs:25-48`). -/
def write (p : Packet O Q) : W Nat := do
  let h ← W.lift p.header
  let total ← Sink.write h.bytes
  if total < HSIZE then pure total
  else do
    let r ← writeBlocksPartial total p.blocks
    match r with
    | .inl n => pure n
    | .inr total =>
      match p.payload with
      | none => pure total
      | some v => do
        let written ← writePayload v
        let size ← W.lift (Q.size v)
        if written < size + Q.hsize v then pure (total + written) else pure (total + written)

/-- `blk.slices()` of each block, appended (`packet/write.rs:99-101`). -/
def blockSlices : List O.B → Out (List Bytes)
  | [] => .ok []
  | b :: bs => (O.slices b).bind fun s => (blockSlices bs).map fun ss => s ++ ss

/-- `WriteVectoredMutTo::slices` (`packet/write.rs:93-106`). -/
def slices (p : Packet O Q) : Out (List Bytes) :=
  p.header.bind fun h =>
  (blockSlices p.blocks).bind fun bs =>
  match p.payload with
  | none => .ok (h.bytes :: bs)
  | some v => (Q.parts v).map fun x => h.bytes :: bs ++ [x.1, x.2]

/-- `write_all` into a `Vec<u8>`. -/
def serialize (p : Packet O Q) : Out Bytes := ((p.writeAll).run ⟨[], []⟩).1.map fun _ => ((p.writeAll).run ⟨[], []⟩).2.got

/-! ## Reading -/

variable (O Q)

/-- The block loop of `ReadFrom`/`TryReadFromBuffered` (`packet/read.rs:32-50`, `:188-206`): `left` is
`255 - iterations`. The two loops differ in what a shortage means, see `readBlocks`. `read` is the running sum. -/
def blocksBuf (blocksLen : Nat) : (left read : Nat) → (acc : List O.B) → Chunks → Out (Status (List O.B)) × Chunks
  | left, read, acc, cs =>
    match O.tryBuf cs with
    | (.ok (.success b), cs') =>
      if read + O.size b = blocksLen then (.ok (.success (acc ++ [b])), cs')
      else match left with
        | 0 => (.err .maxBlocksCount, cs')
        | left + 1 => blocksBuf blocksLen left (read + O.size b) (acc ++ [b]) cs'
    | (.ok (.notEnough n), cs') => (.ok (.notEnough n), cs')
    | (.err e, cs') => (.err e, cs')
    | (.panic, cs') => (.panic, cs')

/-- The block loop of `TryReadFrom` (`packet/read.rs:95-121`), position resets left to the caller. -/
def blocksCur (blocksLen : Nat) : (left read : Nat) → (acc : List O.B) → Cur → Out (Status (List O.B)) × Cur
  | left, read, acc, c =>
    match O.tryRead c with
    | (.ok (.success b), c') =>
      if read + O.size b = blocksLen then (.ok (.success (acc ++ [b])), c')
      else match left with
        | 0 => (.err .maxBlocksCount, c')
        | left + 1 => blocksCur blocksLen left (read + O.size b) (acc ++ [b]) c'
    | (.ok (.notEnough n), c') => (.ok (.notEnough n), c')
    | (.err e, c') => (.err e, c')
    | (.panic, c') => (.panic, c')

variable {O}

/-- What `ReadFrom::read` does with the `header.size` bytes it read (`packet/read.rs:30-55`). The cursor over
the inner vector is a buffered source with one chunk. -/
def ofInner (h : PacketHeader) (inner : Bytes) : Out (Packet O Q) :=
  let r := if h.blocksLen > 0 then blocksBuf O h.blocksLen MAX_BLOCKS 0 [] [inner] else (.ok (.success []), [inner])
  match r.1 with
  | .ok (.success bs) =>
    if h.payload then
      match Chunks.run PayloadHeader.read r.2 with
      | (.ok ph, cs) => ((Chunks.run (Q.read ph) cs).1).map fun v => ⟨bs, some v⟩
      | (.err e, _) => .err e
      | (.panic, _) => .panic
    else .ok ⟨bs, none⟩
  | .ok (.notEnough n) => .err (.notEnoughData n)
  | .err e => .err e
  | .panic => .panic

/-- `ReadFrom::read` (`packet/read.rs:20-57`). -/
def read : P (Packet O Q) := do
  let h ← PacketHeader.read
  P.lift (allocZeroed h.size)
  let inner ← P.readExact h.size
  P.lift (ofInner Q h inner)

/-- The payload part of `TryReadFrom` (`packet/read.rs:123-144`); `start` is `start_pos`. -/
def payloadCur (start : Nat) (flag : Bool) (bs : List O.B) (c : Cur) : Out (Status (Packet O Q)) × Cur :=
  if flag then
    match PayloadHeader.tryRead c with
    | (.ok (.success ph), c1) =>
      match Q.tryRead ph c1 with
      | (.ok (.success v), c2) => (.ok (.success ⟨bs, some v⟩), c2)
      | (.ok (.notEnough n), c2) => (.ok (.notEnough n), c2.seek start)
      | (.err e, c2) => (.err e, c2.seek start)
      | (.panic, c2) => (.panic, c2)
    | (.ok (.notEnough n), c1) => (.err (.notEnoughData n), c1.seek start)
    | (.err e, c1) => (.err e, c1)
    | (.panic, c1) => (.panic, c1)
  else (.ok (.success ⟨bs, none⟩), c)

/-- `TryReadFrom::try_read` (`packet/read.rs:80-147`). -/
def tryRead (c : Cur) : Out (Status (Packet O Q)) × Cur :=
  match c.remaining with
  | .err e => (.err e, c)
  | .panic => (.panic, c)
  | .ok available =>
    match PacketHeader.tryRead c with
    | (.ok (.notEnough n), c1) => (.ok (.notEnough n), c1)
    | (.err e, c1) => (.err e, c1)
    | (.panic, c1) => (.panic, c1)
    | (.ok (.success h), c1) =>
      if h.size > available then (.ok (.notEnough (h.size - available)), c1)
      else
        let r := if h.blocksLen > 0 then blocksCur O h.blocksLen MAX_BLOCKS 0 [] c1 else (.ok (.success []), c1)
        match r.1 with
        | .ok (.success bs) => payloadCur Q c.pos h.payload bs r.2
        | .ok (.notEnough n) => (.ok (.notEnough n), r.2.seek c.pos)
        | .err e => (.err e, r.2.seek c.pos)
        | .panic => (.panic, r.2)

/-- `TryReadFromBuffered::try_read` (`packet/read.rs:170-226`). -/
def tryBuf (cs : Chunks) : Out (Status (Packet O Q)) × Chunks :=
  let available := (Chunks.fill cs).length
  if available < HSIZE then (.ok (.notEnough (HSIZE - available)), cs)
  else
    match PacketHeader.readSlice (Chunks.fill cs) with
    | .err e => (.err e, cs)
    | .panic => (.panic, cs)
    | .ok h =>
      if h.size > available then (.ok (.notEnough (h.size - available)), cs)
      else
        let cs1 := Chunks.consume HSIZE cs
        let r := if h.blocksLen > 0 then blocksBuf O h.blocksLen MAX_BLOCKS 0 [] cs1 else (.ok (.success []), cs1)
        match r.1 with
        | .ok (.success bs) =>
          if h.payload then
            match PayloadHeader.tryBuf r.2 with
            | (.ok (.success ph), cs2) =>
              match Q.tryBuf ph (Chunks.consume ph.size cs2) with
              | (.ok (.success v), cs3) => (.ok (.success ⟨bs, some v⟩), cs3)
              | (.ok (.notEnough n), cs3) => (.ok (.notEnough n), cs3)
              | (.err e, cs3) => (.err e, cs3)
              | (.panic, cs3) => (.panic, cs3)
            | (.ok (.notEnough n), cs2) => (.err (.notEnoughData n), cs2)
            | (.err e, cs2) => (.err e, cs2)
            | (.panic, cs2) => (.panic, cs2)
          else (.ok (.success ⟨bs, none⟩), r.2)
        | .ok (.notEnough n) => (.ok (.notEnough n), r.2)
        | .err e => (.err e, r.2)
        | .panic => (.panic, r.2)

/-! ## `Packet::filtered` -/

variable (O)

/-- The block loop of `filtered` (`packet/mod.rs:131-141`). The loop has no bound on the number of blocks; every block has
a positive size and `read` cannot pass the end of the buffer without a panic, so `fuel = buf.length + 1`
iterations are never used up (`slicesLoop_fuel`); running out of fuel stands for "does not terminate" and
is rendered as a panic. -/
def slicesLoop (buf : Bytes) (blocksLen : Nat) : (fuel read : Nat) → (acc : List O.BR) → Out (List O.BR)
  | 0, _, _ => .panic
  | fuel + 1, read, acc =>
    if read > buf.length then .panic
    else match O.readSlice (buf.drop read) with
      | .ok r =>
        if read + O.rsize r = blocksLen then .ok (acc ++ [r])
        else slicesLoop buf blocksLen fuel (read + O.rsize r) (acc ++ [r])
      | .err e => .err e
      | .panic => .panic

/-- `LookInStatus` (`packet/mod.rs:59-68`). -/
inductive Look (α : Type) where
  | accepted (n : Nat) (a : α)
  | denied (n : Nat)
  | notEnough (n : Nat)

variable {O}

/-- What `filtered` does with the `header.size` bytes it read (`packet/mod.rs:131-187`). `&packet_buffer[a..]` panics
when `a` is past the end. -/
def look (rules : Rules O.BR (Packet O Q)) (h : PacketHeader) (buf : Bytes) : Out (Look (Packet O Q)) :=
  (if h.blocksLen > 0 then slicesLoop O buf h.blocksLen (buf.length + 1) 0 [] else .ok []).bind fun rs =>
  if ¬ rules.filterByBlocks rs then .ok (.denied h.size)
  else
    let final (p : Packet O Q) : Out (Look (Packet O Q)) :=
      if rules.filter p then .ok (.accepted h.size p) else .ok (.denied h.size)
    if h.payload then
      if h.blocksLen > buf.length then .panic
      else match PayloadHeader.peek (Chunks.fill [buf.drop h.blocksLen]) with
        | .ok (.success ph) =>
          if h.blocksLen + ph.size > buf.length then .panic
          else if ¬ rules.filterByPayload (buf.drop (h.blocksLen + ph.size)) then .ok (.denied h.size)
          else match (Q.tryBuf ph [buf.drop (h.blocksLen + ph.size)]).1 with
            | .ok (.success v) => final ⟨rs.map O.into, some v⟩
            | .ok (.notEnough n) => .err (.notEnoughData n)
            | .err e => .err e
            | .panic => .panic
        | .ok (.notEnough n) => .err (.notEnoughData n)
        | .err e => .err e
        | .panic => .panic
    else final ⟨rs.map O.into, none⟩

/-- `PacketDef::filtered` (`packet/mod.rs:117-188`). -/
def filtered (rules : Rules O.BR (Packet O Q)) : P (Look (Packet O Q)) := do
  let h ← PacketHeader.read
  P.lift (allocZeroed h.size)
  let buf ← P.readExact h.size
  P.lift (look Q rules h buf)

end Packet

end Brec
