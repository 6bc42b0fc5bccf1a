import Verif.Reader
import Verif.Storage
/-!
# What readers ask the allocator for

`vec![0u8; n]` and `Vec::with_capacity(n)` with an `n` taken from the bytes being read: the sizes, in the order of the calls. The functions below follow the
control flow of the readers and consult the models of the readers for what happens in between.

Not counted: copies of bytes that are there already (`to_vec`, `extend_from_slice`), the vectors of the values returned (`Vec<Block>`, what a user's `decode` makes),
and the two buffers for the signature and the CRC of a payload header, which never exceed 128 bytes (`payload/header/read.rs:28-36`: the capacity is checked first).
-/

namespace Brec

namespace PEnum

/-- `ReadPayloadFrom::read` of the variants in turn (`traits/read/mod.rs:72-76`, `collector/payloads/read.rs:6-52`): a variant compares the signature before
`vec![0u8; header.payload_len()]`, and the next variant is tried on a mismatch only. -/
def asks (h : PayloadHeader) : List PayloadTy → List Nat
  | [] => []
  | T :: Ts => if h.sig ≠ T.ssig then asks h Ts else [h.len]

/-- `TryReadPayloadFrom::try_read` of the variants in turn (`traits/read/mod.rs:111-122`, `collector/payloads/read.rs:54-112`): the length is compared with what the
source has before anything else. -/
def tryAsks (h : PayloadHeader) (vs : List PayloadTy) (c : Cur) : List Nat :=
  match c.remaining with
  | .ok len => if len < h.len then [] else asks h vs
  | _ => []

end PEnum

/-- `vec![0u8; n]`: a request if `n` is a legal size, a panic without a request if not. -/
def askZeroed (n : Nat) : List Nat := if n < 2 ^ 63 then [n] else []

namespace Packet

variable (O : BlockOps) (vs : List PayloadTy)

/-- `ReadFrom::read` on the bytes of the packet (`packet/read.rs:30-55`), cf. `ofInner`. -/
def innerAsks (h : PacketHeader) (inner : Bytes) : List Nat :=
  let r := if h.blocksLen > 0 then blocksBuf O h.blocksLen MAX_BLOCKS 0 [] [inner] else (.ok (.success []), [inner])
  match r.1 with
  | .ok (.success _) =>
    if h.payload then
      match Chunks.run PayloadHeader.read r.2 with
      | (.ok ph, _) => PEnum.asks ph (vs ++ [bytesTy, stringTy])
      | _ => []
    else []
  | _ => []

/-- `ReadFrom::read` (`packet/read.rs:20-57`), cf. `Packet.read`. -/
def readAsks (s : Bytes) : List Nat :=
  match PacketHeader.read.run s with
  | (.ok h, s1) =>
    askZeroed h.size ++
      if h.size < 2 ^ 63 then
        match (P.readExact h.size).run s1 with
        | (.ok inner, _) => innerAsks O vs h inner
        | _ => []
      else []
  | _ => []

/-- `TryReadFrom::try_read` (`packet/read.rs:80-147`), cf. `Packet.tryRead`. -/
def tryAsks (c : Cur) : List Nat :=
  match c.remaining, PacketHeader.tryRead c with
  | .ok available, (.ok (.success h), c1) =>
    if h.size > available then []
    else
      let r := if h.blocksLen > 0 then blocksCur O h.blocksLen MAX_BLOCKS 0 [] c1 else (.ok (.success []), c1)
      match r.1 with
      | .ok (.success _) =>
        if h.payload then
          match PayloadHeader.tryRead r.2 with
          | (.ok (.success ph), c2) => PEnum.tryAsks ph (vs ++ [bytesTy, stringTy]) c2
          | _ => []
        else []
      | _ => []
  | _, _ => []

/-- `TryReadFromBuffered::try_read` (`packet/read.rs:170-226`), cf. `Packet.tryBuf`. -/
def bufAsks (cs : Chunks) : List Nat :=
  if (Chunks.fill cs).length < HSIZE then []
  else
    match PacketHeader.readSlice (Chunks.fill cs) with
    | .ok h =>
      if h.size > (Chunks.fill cs).length then []
      else
        let r := if h.blocksLen > 0 then blocksBuf O h.blocksLen MAX_BLOCKS 0 [] (Chunks.consume HSIZE cs)
          else (.ok (.success []), Chunks.consume HSIZE cs)
        match r.1 with
        | .ok (.success _) =>
          if h.payload then
            match PayloadHeader.tryBuf r.2 with
            | (.ok (.success ph), _) => PEnum.asks ph (vs ++ [bytesTy, stringTy])
            | _ => []
          else []
        | _ => []
    | _ => []

variable {O}

/-- `filtered` on the bytes of the packet (`packet/mod.rs:131-187`), cf. `look`. -/
def lookAsks (rules : Rules O.BR (Packet O (PEnum.ops vs))) (h : PacketHeader) (buf : Bytes) : List Nat :=
  match (if h.blocksLen > 0 then slicesLoop O buf h.blocksLen (buf.length + 1) 0 [] else .ok []) with
  | .ok rs =>
    if ¬ rules.filterByBlocks rs then []
    else if h.payload then
      match PayloadHeader.peek (Chunks.fill [buf.drop h.blocksLen]) with
      | .ok (.success ph) =>
        if h.blocksLen + ph.size > buf.length then []
        else if ¬ rules.filterByPayload (buf.drop (h.blocksLen + ph.size)) then []
        else PEnum.asks ph (vs ++ [bytesTy, stringTy])
      | _ => []
    else []
  | _ => []

/-- `PacketDef::filtered` (`packet/mod.rs:117-188`), cf. `Packet.filtered`. -/
def filteredAsks (rules : Rules O.BR (Packet O (PEnum.ops vs))) (s : Bytes) : List Nat :=
  match PacketHeader.read.run s with
  | (.ok h, s1) =>
    askZeroed h.size ++
      if h.size < 2 ^ 63 then
        match (P.readExact h.size).run s1 with
        | (.ok buf, _) => lookAsks vs rules h buf
        | _ => []
      else []
  | _ => []

end Packet

namespace Rd

variable {O : BlockOps} (vs : List PayloadTy)

/-- `PacketBufReaderDef::new` (`packet/reader.rs:255-262`): `Vec::with_capacity(u32::MAX as usize)`. -/
def newAsks : List Nat := [2 ^ 32 - 1]

/-- `read` on the bytes of one packet (`packet/reader.rs:362-444`), cf. `parse`. -/
def parseAsks (rules : Rules O.BR (Packet O (PEnum.ops vs))) (h : PacketHeader) (pb : Bytes) : List Nat :=
  if h.blocksLen > pb.length then []
  else
    match (if pb.take h.blocksLen = [] then (.ok [], .dropConsume) else blocksLoop O (pb.take h.blocksLen) MAX_BLOCKS 0 []).1 with
    | .ok rs =>
      if ¬ rules.filterByBlocks rs then []
      else if h.payload then
        match PayloadHeader.tryBuf [pb.drop h.blocksLen] with
        | (.ok (.success ph), _) =>
          if h.blocksLen + ph.size > pb.length then []
          else if ¬ rules.filterByPayload (pb.drop (h.blocksLen + ph.size)) then []
          else PEnum.asks ph (vs ++ [bytesTy, stringTy])
        | _ => []
      else []
    | _ => []

/-- `PacketBufReaderDef::read` (`packet/reader.rs:281-445`): requests are made only once the bytes of a packet are complete. -/
def readAsks (rules : Rules O.BR (Packet O (PEnum.ops vs))) (r : Rd) : List Nat :=
  match r.recent with
  | .ready h =>
    match r.src.fill with
    | (some buf, _) =>
      if h.size > r.buffered.length + buf.length then []
      else if h.size < r.buffered.length then []
      else parseAsks vs rules h (r.buffered ++ buf.take (h.size - r.buffered.length))
    | _ => []
  | .refill _ _ => []
  | .empty =>
    match r.src.fill with
    | (some buf, _) =>
      if buf.length < HSIZE then []
      else
        match readHeader buf with
        | .ok (.found h _ stop) =>
          if h.size + stop ≥ 2 ^ 64 then []
          else if h.size + stop > buf.length then []
          else parseAsks vs rules h (slice buf stop h.size)
        | _ => []
    | _ => []

end Rd

namespace Slot

/-- `Vec::<u64>::with_capacity(n)`: `8 * n` bytes. -/
def askLengths (n : Nat) : List Nat := if n * 8 < 2 ^ 63 then [n * 8] else []

/-- `ReadFrom for Slot` (`slot/read.rs:18-40`). -/
def readAsks (s : Bytes) : List Nat :=
  match readHeader.run s with
  | (.ok capacity, _) => askLengths capacity
  | _ => []

/-- `TryReadFrom for Slot` (`slot/read.rs:58-95`): the length of the table is compared with what the source has. -/
def tryAsks (c : Cur) : List Nat :=
  match c.remaining, tryReadHeader c with
  | .ok len, (.ok (.success capacity), _) =>
    match u64 c.chk (SLOT_HSIZE + capacity * 8 + 4) with
    | .ok needed => if len < needed then [] else askLengths capacity
    | _ => []
  | _, _ => []

end Slot

/-- The iterators over a storage, when their buffer is empty: a buffer for all packets of the next slot (`iters.rs:161-173`, `:254-266`), cf. `Iter.refill`. What
is asked for while the packets are read from it is `Packet.readAsks`/`Packet.filteredAsks`. -/
def Iter.refillAsks (it : Iter) : List Nat :=
  if it.buffer ≠ [] then []
  else match it.spans.next with
    | (some span, _) => askZeroed (span.2 - span.1)
    | _ => []

end Brec
