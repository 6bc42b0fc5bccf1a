import Verif.PacketHeader
/-!
# Storage slots

Model of `/repo/brec/src/storage/slot/*`. `u64` sums inside one process are natural numbers here; where a sum of numbers read from a
file can leave `u64`, the model says so explicitly (`u64`).
-/

namespace Brec

/-- `STORAGE_SLOT_SIG` (`slot/mod.rs:15`). -/
def SLOT_SIG : Bytes := [166, 177, 188, 199, 199, 188, 177, 166]

/-- `DEFAULT_SLOT_CAPACITY` (`slot/mod.rs:13`). -/
def SLOT_CAPACITY : Nat := 500

/-- Size of `SlotHeader` (`slot/header.rs:13-22`). -/
def SLOT_HSIZE : Nat := 16

/-- A sum of `u64` numbers whose exact value is `n`: overflow panics with overflow checks and wraps without. (All summands are
non-negative: the first overflow occurs iff the exact value leaves the range.) -/
def u64 (chk : Bool) (n : Nat) : Out Nat := if n < 2 ^ 64 then .ok n else if chk then .panic else .ok (n % 2 ^ 64)

/-- `Slot` (`slot/mod.rs:30-40`). -/
structure Slot where
  lengths : List Nat
  capacity : Nat
  crc : Bytes
  deriving DecidableEq, Repr

namespace Slot

/-- What the CRC covers: capacity and lengths (`slot/mod.rs:190-204`). -/
def body (capacity : Nat) (lengths : List Nat) : Bytes := leBytes 8 capacity ++ lengths.flatMap (leBytes 8)

/-- `CrcU32 for Slot` (`slot/mod.rs:190-204`). -/
def crcOf (capacity : Nat) (lengths : List Nat) : Bytes := crcBytes (body capacity lengths)

/-- `Size for Slot` (`slot/mod.rs:178-188`). -/
def size (s : Slot) : Nat := SLOT_HSIZE + s.capacity * 8 + 4

/-- `is_full` (`slot/mod.rs:115-123`). -/
def isFull (s : Slot) : Bool :=
  match s.lengths.getLast? with
  | some ln => decide (ln > 0)
  | none => false

/-- `iter().position(|ln| ln == &0)`. -/
def freePos (s : Slot) : Option Nat := s.lengths.findIdx? (· == 0)

/-- `width` (`slot/mod.rs:61-69`). The sum is exact: with overflow checks, `load` panics on a table whose sum leaves `u64` (`u64` in `loadLoop`); without, the code
goes on with the sum modulo 2^64 (simplified: no writer makes such a table). -/
def width (s : Slot) : Nat :=
  if s.isFull then s.lengths.sum
  else match s.freePos with
    | none => s.lengths.sum
    | some k => (s.lengths.take k).sum

/-- `get_slot_offset` (`slot/mod.rs:79-84`). The sum is exact, see `width`; a place beyond the end of the file is a panic (with overflow checks) or an error anyway. -/
def slotOffset (s : Slot) (nth : Nat) : Option Nat :=
  if nth ≥ s.lengths.length then none else some ((s.lengths.take nth).sum + s.size)

/-- `is_empty` (`slot/mod.rs:90-95`). -/
def isEmpty (s : Slot) (nth : Nat) : Out Bool :=
  match s.lengths[nth]? with
  | some ln => .ok (ln == 0)
  | none => .err (.outOfBounds s.lengths.length nth)

/-- `count` (`slot/mod.rs:97-99`). -/
def count (s : Slot) : Nat := (s.lengths.filter (0 < ·)).length

/-- `is_used` (`slot/mod.rs:101-103`). -/
def isUsed (s : Slot) (idx : Nat) : Bool :=
  match s.lengths[idx]? with
  | some ln => decide (0 < ln)
  | none => false

/-- `offset_of` (`slot/mod.rs:105-113`). -/
def offsetOf (s : Slot) (idx : Nat) : Option Nat :=
  if idx = 0 then some 0
  else if idx ≥ s.lengths.length ∨ ¬ s.isUsed idx then none
  else some (s.lengths.take idx).sum

/-- `get_free_slot_offset` (`slot/mod.rs:126-132`). -/
def freeOffset (s : Slot) : Option Nat :=
  if s.isFull then none else s.freePos.map fun k => (s.lengths.take k).sum + s.size

/-- `get_free_slot_index` (`slot/mod.rs:135-140`). -/
def freeIndex (s : Slot) : Option Nat := if s.isFull then none else s.freePos

/-- `insert` (`slot/mod.rs:153-162`). -/
def insert (s : Slot) (length : Nat) : Out Slot :=
  match s.freePos with
  | none => .err .cannotInsertIntoSlot
  | some k => .ok { s with lengths := s.lengths.set k length, crc := crcOf s.capacity (s.lengths.set k length) }

/-- `Default for Slot` (`slot/mod.rs:165-176`), for any capacity. -/
def default (cap : Nat) : Slot := ⟨List.replicate cap 0, cap, crcOf cap (List.replicate cap 0)⟩

/-- `get_buffer` (`slot/write.rs:10-24`): what `write`/`write_all` hand to the sink. Copying past the allocated `size()` bytes panics. -/
def bytes (s : Slot) : Out Bytes :=
  let content := SLOT_SIG ++ leBytes 8 s.capacity ++ s.lengths.flatMap (leBytes 8) ++ s.crc
  if content.length > s.size then .panic else .ok (content ++ List.replicate (s.size - content.length) 0)

/-- `SlotHeader::read` (`slot/header.rs:33-48`). -/
def readHeader : P Nat := do
  let sig ← P.readExact 8
  if sig ≠ SLOT_SIG then P.fail .sigDismatch else
  let c ← P.readExact 8
  pure (leNat c)

/-- `SlotHeader::try_read` (`slot/header.rs:59-82`). -/
def tryReadHeader (c : Cur) : Out (Status Nat) × Cur :=
  match c.remaining with
  | .panic => (.panic, c)
  | .err e => (.err e, c)
  | .ok len =>
    if len < SLOT_HSIZE then (.ok (.notEnough SLOT_HSIZE), c)
    else
      match c.run (P.readExact 8) with
      | (.err e, c1) => (.err e, c1)
      | (.panic, c1) => (.panic, c1)
      | (.ok sig, c1) =>
        if sig ≠ SLOT_SIG then (.err .sigDismatch, c1.seek c.pos)
        else
          match c1.run (P.readExact 8) with
          | (.err e, c2) => (.err e, c2)
          | (.panic, c2) => (.panic, c2)
          | (.ok b, c2) => (.ok (.success (leNat b)), c2)

/-- The loop reading `n` lengths (`slot/read.rs:25-29`, `:77-81`). -/
def readLengths : Nat → P (List Nat)
  | 0 => pure []
  | n + 1 => do
    let b ← P.readExact 8
    let ls ← readLengths n
    pure (leNat b :: ls)

/-- `Vec::<u64>::with_capacity(n)`. -/
def alloc (n : Nat) : Out Unit := if n * 8 < 2 ^ 63 then .ok () else .panic

/-- Lengths, CRC and check (`slot/read.rs:24-39`, `:76-94`). -/
def readBody (capacity : Nat) : P Slot := do
  P.lift (alloc capacity)
  let ls ← readLengths capacity
  let crc ← P.readExact 4
  if crc = crcOf capacity ls then pure ⟨ls, capacity, crc⟩ else P.fail .crcDismatch

/-- `ReadFrom for Slot` (`slot/read.rs:18-40`). -/
def read : P Slot := do
  let capacity ← readHeader
  readBody capacity

/-- `PacketHeader::ssize() - needed` (`slot/read.rs:73`): underflow panics with overflow checks and wraps without. -/
def missing (chk : Bool) (needed : Nat) : Out Nat :=
  if needed ≤ HSIZE then .ok (HSIZE - needed) else if chk then .panic else .ok (2 ^ 64 + HSIZE - needed)

/-- `TryReadFrom for Slot` (`slot/read.rs:58-95`). -/
def tryRead (c : Cur) : Out (Status Slot) × Cur :=
  match c.remaining with
  | .panic => (.panic, c)
  | .err e => (.err e, c)
  | .ok len =>
    match tryReadHeader c with
    | (.err e, c1) => (.err e, c1)
    | (.panic, c1) => (.panic, c1)
    | (.ok (.notEnough n), c1) => (.ok (.notEnough n), c1)
    | (.ok (.success capacity), c1) =>
      match u64 c.chk (SLOT_HSIZE + capacity * 8 + 4) with
      | .err e => (.err e, c1)
      | .panic => (.panic, c1)
      | .ok needed =>
        if len < needed then ((missing c.chk needed).map .notEnough, c1.seek c.pos)
        else
          match c1.run (readBody capacity) with
          | (.ok s, c2) => (.ok (.success s), c2)
          | (.err e, c2) => (.err e, c2)
          | (.panic, c2) => (.panic, c2)

end Slot

end Brec
