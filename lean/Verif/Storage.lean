import Verif.Slot
import Verif.Packet
/-!
# Slot-based storage

Model of `/repo/brec/src/storage/{locator.rs, writer/mod.rs, reader/mod.rs, reader/iters.rs}`.

The slot capacity is a parameter `cap`; the crate uses `SLOT_CAPACITY` (`DEFAULT_SLOT_CAPACITY`, 500) everywhere. A file is its byte list;
its cursor is always set by an absolute seek before it is used, so it is not part of the state. Seeking never fails (the OS
limits the offset to `i64::MAX`, the theorems stay below that).
-/

namespace Brec

/-- Seek to `pos` and write `b`: bytes between the old end and `pos` become zero. -/
def overwrite (d : Bytes) (pos : Nat) (b : Bytes) : Bytes :=
  (d ++ List.replicate (pos - d.length) 0).take pos ++ b ++ d.drop (pos + b.length)

/-- `FreeSlotLocator` (`locator.rs:14-17`). Its sums are natural numbers: they are the ones `load` forms from the same slots. -/
structure Locator where
  next : Nat := 0
  slotOffset : Nat := 0
  deriving DecidableEq, Repr

namespace Locator

/-- `next` (`locator.rs:29-41`). -/
def step (l : Locator) (slots : List Slot) : Option Nat × Locator :=
  match slots[l.next]? with
  | none => (none, l)
  | some slot =>
    match slot.freeOffset with
    | some off => (some (l.slotOffset + off), l)
    | none =>
      let l' : Locator := ⟨l.next + 1, l.slotOffset + slot.size + slot.width⟩
      match slots[l'.next]? with
      | none => (none, l')
      | some slot' => (slot'.freeOffset.map (l'.slotOffset + ·), l')

/-- The loop of `setup` (`locator.rs:65-71`). -/
def walk : Locator → List Slot → Locator
  | l, [] => l
  | l, s :: ss => if s.freeOffset.isSome then l else walk ⟨l.next + 1, l.slotOffset + s.size + s.width⟩ ss

/-- `setup` (`locator.rs:63-72`): `slot_offset` is not reset. -/
def setup (l : Locator) (slots : List Slot) : Locator := walk { l with next := 0 } slots

end Locator

/-- `AnchoredSlot` (`slot/anchored.rs:4-7`). -/
structure Anchored where
  inner : Slot
  offset : Nat
  deriving DecidableEq, Repr

/-- The loop of `load`, of the writer (`writer/mod.rs:51-70`) and of the reader (`reader/mod.rs:53-73`). `none`: not finished within
`fuel` iterations. -/
def loadLoop (chk : Bool) (data : Bytes) : (fuel offset : Nat) → (slots : List Anchored) → Option (Out (List Anchored))
  | 0, _, _ => none
  | fuel + 1, offset, slots =>
    match (Slot.tryRead ⟨data, offset, chk⟩).1 with
    | .ok (.success slot) =>
      match u64 chk (offset + slot.size + slot.width) with
      | .ok next => loadLoop chk data fuel next (slots ++ [⟨slot, offset⟩])
      | .err e => some (.err e)
      | .panic => some .panic
    | .ok (.notEnough _) => some (.ok slots)
    | .err .crcDismatch => some (.err (.damagedSlot .crcDismatch))
    | .err .sigDismatch => some (.err (.damagedSlot .sigDismatch))
    | .err e => some (.err e)
    | .panic => some .panic

/-! ## Writer -/

/-- `WriterDef` (`writer/mod.rs:8-18`). -/
structure Writer where
  slots : List Slot
  data : Bytes
  loc : Locator
  deriving DecidableEq, Repr

namespace Writer

/-- `WriterDef::new` (`writer/mod.rs:35-73`). -/
def open_ (chk : Bool) (fuel : Nat) (data : Bytes) : Option (Out Writer) :=
  (loadLoop chk data fuel 0 []).map fun r => r.map fun ss => ⟨ss.map (·.inner), data, Locator.setup {} (ss.map (·.inner))⟩

/-- What reaches the file of the two writes of an insert (`writer/mod.rs:101-112`) when only the first `k` bytes get there. -/
def torn (data : Bytes) (slotOffset : Nat) (sb : Bytes) (offset : Nat) (pb : Bytes) (k : Nat) : Bytes :=
  if k < sb.length then overwrite data slotOffset (sb.take k)
  else if k = sb.length then overwrite data slotOffset sb
  else overwrite (overwrite data slotOffset sb) offset (pb.take (k - sb.length))

/-- Finding the place of the next packet (`writer/mod.rs:84-92`). -/
def place (cap : Nat) (w : Writer) : Option Nat × Writer :=
  match w.loc.step w.slots with
  | (some off, l) => (some off, { w with loc := l })
  | (none, l) => ((l.step (w.slots ++ [Slot.default cap])).1,
      { w with slots := w.slots ++ [Slot.default cap], loc := (l.step (w.slots ++ [Slot.default cap])).2 })

variable {O : BlockOps} {Q : PayloadOps}

/-- `insert` (`writer/mod.rs:83-114`). `fault = some k`: the backend fails after `k` bytes of slot and packet have reached it
(`k` beyond the last byte: the final flush fails). -/
def insert (cap : Nat) (w : Writer) (p : Packet O Q) (fault : Option Nat) : Out Unit × Writer :=
  match w.place cap with
  | (none, w1) => (.err .cannotFindFreeSlot, w1)
  | (some offset, w1) =>
    match p.serialize with
    | .err e => (.err e, w1)
    | .panic => (.panic, w1)
    | .ok buffer =>
      match w1.slots[w1.loc.next]? with
      | none => (.err .cannotInsertIntoSlot, w1)
      | some slot =>
        match slot.insert buffer.length with
        | .err e => (.err e, w1)
        | .panic => (.panic, w1)
        | .ok slot' =>
          let w2 : Writer := { w1 with slots := w1.slots.set w1.loc.next slot' }
          match slot'.bytes with
          | .err e => (.err e, w2)
          | .panic => (.panic, w2)
          | .ok sb =>
            match fault with
            | none => (.ok (), { w2 with data := overwrite (overwrite w1.data w1.loc.slotOffset sb) offset buffer })
            | some k => (.err .io, { w2 with data := torn w1.data w1.loc.slotOffset sb offset buffer k })

end Writer

/-! ## Reader -/

/-- `ReaderDef` (`reader/mod.rs:8-19`); file and rules are arguments of the methods. -/
structure Storage where
  slots : List Anchored
  loc : Locator
  deriving DecidableEq, Repr

namespace Storage

/-- `ReaderDef::new` (`reader/mod.rs:37-77`). -/
def open_ (chk : Bool) (fuel : Nat) (data : Bytes) : Option (Out Storage) :=
  (loadLoop chk data fuel 0 []).map fun r => r.map fun ss => ⟨ss, Locator.setup {} (ss.map (·.inner))⟩

/-- `last` and the initial `source_pos` of `reload` (`reader/mod.rs:82-97`). -/
def lastInfo (s : Storage) : Option (Nat × Bytes) × Nat :=
  match s.slots.getLast? with
  | none => (none, 0)
  | some a =>
    match a.inner.freeOffset, a.inner.freeIndex with
    | some _, some index => (some (index, a.inner.crc), a.offset)
    | none, none => (none, a.offset + a.inner.width + a.inner.size)
    | _, _ => (none, 0)

/-- The loop of `reload` (`reader/mod.rs:99-153`). `Sum.inl n`: early `return Ok(n)`; `Sum.inr ()`: `break`. -/
def reloadLoop (chk : Bool) (data : Bytes) (last : Option (Nat × Bytes)) (count : Nat) :
    (fuel pos : Nat) → List Anchored → Option (Out (Nat ⊕ Unit) × List Anchored)
  | 0, _, _ => none
  | fuel + 1, pos, slots =>
    match (Slot.tryRead ⟨data, pos, chk⟩).1 with
    | .ok (.success slot) =>
      match last, slots.length == count with
      | some (_, crc), true =>
        if crc = slot.crc then some (.ok (.inl 0), slots)
        else match slots[count - 1]? with
          | none => some (.err (.accessSlot (count - 1)), slots)
          | some lst =>
            let slots' := slots.set (count - 1) { lst with inner := slot }
            if slot.freeIndex.isNone then
              match u64 chk (pos + slot.size + slot.width) with
              | .ok pos' => reloadLoop chk data last count fuel pos' slots'
              | .err e => some (.err e, slots')
              | .panic => some (.panic, slots')
            else some (.ok (.inr ()), slots')
      | _, _ =>
        match u64 chk (pos + slot.size + slot.width) with
        | .ok pos' => reloadLoop chk data last count fuel pos' (slots ++ [⟨slot, pos⟩])
        | .err e => some (.err e, slots)
        | .panic => some (.panic, slots)
    | .ok (.notEnough needed) =>
      match last.isNone, slots.length == count with
      | true, true => some (.ok (.inl 0), slots)
      | false, true =>
        if needed = SLOT_HSIZE then some (.ok (.inr ()), slots) else some (.err (.damagedSlot (.notEnoughData needed)), slots)
      | _, false => some (.ok (.inr ()), slots)
    | .err .crcDismatch => some (.err (.damagedSlot .crcDismatch), slots)
    | .err .sigDismatch => some (.err (.damagedSlot .sigDismatch), slots)
    | .err e => some (.err e, slots)
    | .panic => some (.panic, slots)

/-- The number `reload` returns (`reader/mod.rs:155-178`). -/
def fresh (cap : Nat) (last : Option (Nat × Bytes)) (count : Nat) (slots : List Anchored) : Nat :=
  match last, slots.length == count, slots.getLast? with
  | some (index, _), true, some a =>
    match a.inner.freeIndex with
    | some idx => idx - index
    | none => cap - index
  | some (index, _), false, some a => cap - index + a.inner.freeIndex.getD 0 + (slots.length - count) * cap
  | none, false, some a => a.inner.freeIndex.getD 0 + (slots.length - (count + 1)) * cap
  | _, _, _ => 0

/-- `reload` (`reader/mod.rs:79-182`) on the file `data`. -/
def reload (cap : Nat) (chk : Bool) (fuel : Nat) (s : Storage) (data : Bytes) : Option (Out Nat × Storage) :=
  (reloadLoop chk data s.lastInfo.1 s.slots.length fuel s.lastInfo.2 s.slots).map fun r =>
    match r with
    | (.ok (.inl n), slots) => (.ok n, { s with slots := slots })
    | (.ok (.inr ()), slots) =>
      (.ok (fresh cap s.lastInfo.1 s.slots.length slots), ⟨slots, s.loc.setup (slots.map (·.inner))⟩)
    | (.err e, slots) => (.err e, { s with slots := slots })
    | (.panic, slots) => (.panic, { s with slots := slots })

/-- `count` (`reader/mod.rs:205-216`). -/
def count (cap : Nat) (s : Storage) : Nat :=
  match s.slots[s.loc.next]? with
  | none => s.slots.length * cap
  | some a =>
    match a.inner.freeIndex with
    | none => s.slots.length * cap
    | some index => s.loc.next * cap + index

/-- Where `nth` and `nth_filtered` look for packet `n` (`reader/mod.rs:266-280`, `:337-351`). -/
def offsetOf (cap : Nat) (s : Storage) (n : Nat) : Out (Option Nat) :=
  match s.slots[n / cap]? with
  | none => .ok none
  | some a =>
    match a.inner.isEmpty (n % cap) with
    | .err e => .err e
    | .panic => .panic
    | .ok true => .ok none
    | .ok false =>
      match a.inner.slotOffset (n % cap) with
      | none => .ok none
      | some off => .ok (some (off + ((s.slots.take (n / cap)).map fun b => b.inner.width + b.inner.size).sum))

variable {O : BlockOps} {Q : PayloadOps}

/-- `nth` (`reader/mod.rs:265-286`). -/
def nth (cap : Nat) (chk : Bool) (s : Storage) (data : Bytes) (n : Nat) : Out (Option (Packet O Q)) :=
  match s.offsetOf cap n with
  | .err e => .err e
  | .panic => .panic
  | .ok none => .ok none
  | .ok (some off) =>
    match (Packet.tryRead Q ⟨data, off, chk⟩).1 with
    | .ok (.success p) => .ok (some p)
    | .ok (.notEnough n) => .err (.notEnoughData n)
    | .err e => .err e
    | .panic => .panic

/-- `nth_filtered` (`reader/mod.rs:333-358`). -/
def nthFiltered (cap : Nat) (rules : Rules O.BR (Packet O Q)) (s : Storage) (data : Bytes) (n : Nat) : Out (Option (Packet.Look (Packet O Q))) :=
  match s.offsetOf cap n with
  | .err e => .err e
  | .panic => .panic
  | .ok none => .ok none
  | .ok (some off) =>
    match ((Packet.filtered Q rules).run (data.drop off)).1 with
    | .ok (.notEnough n) => .err (.notEnoughData n)
    | .ok l => .ok (some l)
    | .err e => .err e
    | .panic => .panic

end Storage

/-! ## Iterators -/

/-- `PacketsLocatorIterator` (`iters.rs:16-19`). -/
structure Spans where
  offset : Nat
  slots : List Slot
  deriving DecidableEq, Repr

namespace Spans

/-- `from` (`iters.rs:28-60`); `idx` counts the slots passed, `target` is what is left of `packet`. -/
def fromLoop (cap packet : Nat) : (idx target : Nat) → Spans → Out (Nat × Nat) × Spans
  | idx, _, ⟨off, []⟩ => (if idx = 0 then .err .emptySource else .err (.outOfBounds (idx * cap) packet), ⟨off, []⟩)
  | idx, target, ⟨off, s :: ss⟩ =>
    if s.count ≤ target then fromLoop cap packet (idx + 1) (target - s.count) ⟨off + s.size + s.width, ss⟩
    else if ¬ s.isUsed target then (.err (.outOfBounds (s.count + idx * cap) packet), ⟨off, ss⟩)
    else match s.offsetOf target with
      | none => (.err (.outOfBounds (s.count + idx * cap) packet), ⟨off, ss⟩)
      | some k => (.ok (off + s.size + k, off + s.size + s.width), ⟨off, ss⟩)
  termination_by _ _ s => s.slots.length

/-- `next` (`iters.rs:67-79`). -/
def next : Spans → Option (Nat × Nat) × Spans
  | ⟨off, []⟩ => (none, ⟨off, []⟩)
  | ⟨off, s :: ss⟩ =>
    if s.width = 0 then (none, ⟨off, ss⟩)
    else (some (off + s.size, off + s.width + s.size), ⟨off + s.width + s.size, ss⟩)

end Spans

/-- Seek, allocate and `read_exact(..).unwrap()` of the region of a slot (`iters.rs:134-139`, `:163-172`, `:256-265`). -/
def fetch (data : Bytes) (span : Nat × Nat) : Out Bytes :=
  match allocZeroed (span.2 - span.1) with
  | .ok () => if span.2 - span.1 ≤ (data.drop span.1).length then .ok ((data.drop span.1).take (span.2 - span.1)) else .panic
  | .err e => .err e
  | .panic => .panic

/-- `ReaderIterator` (`iters.rs:95-109`) and `ReaderFilteredIterator` (`iters.rs:196-209`): the spans to come and what is left in the
buffer. -/
structure Iter where
  spans : Spans
  buffer : Bytes
  deriving DecidableEq, Repr

namespace Iter

/-- `ReaderIterator::new` (`iters.rs:121-130`, `reader/mod.rs:222-229`). -/
def new (s : Storage) : Iter := ⟨⟨0, s.slots.map (·.inner)⟩, []⟩

/-- `ReaderIterator::seek` (`iters.rs:132-141`, `reader/mod.rs:231-240`). -/
def seek (cap : Nat) (it : Iter) (data : Bytes) (packet : Nat) : Out Iter :=
  match Spans.fromLoop cap packet 0 packet it.spans with
  | (.ok span, spans) => (fetch data span).map fun b => ⟨spans, b⟩
  | (.err e, _) => .err e
  | (.panic, _) => .panic

/-- Refilling an empty buffer (`iters.rs:161-173`, `:254-266`). `none`: the iterator ends. -/
def refill (data : Bytes) (it : Iter) : Option (Out Iter) :=
  if it.buffer ≠ [] then some (.ok it)
  else match it.spans.next with
    | (none, _) => none
    | (some span, spans) => some ((fetch data span).map fun b => ⟨spans, b⟩)

variable {O : BlockOps} {Q : PayloadOps}

/-- `ReaderIterator::next` (`iters.rs:159-178`). -/
def next (data : Bytes) (it : Iter) : Option (Out (Packet O Q)) × Iter :=
  match refill data it with
  | none => (none, ⟨it.spans.next.2, it.buffer⟩)
  | some (.err e) => (some (.err e), it)
  | some .panic => (some .panic, it)
  | some (.ok it1) => (some ((Packet.read Q).run it1.buffer).1, { it1 with buffer := ((Packet.read (O := O) Q).run it1.buffer).2 })

/-- `ReaderFilteredIterator::next` (`iters.rs:252-278`). `none`: not finished within `fuel` iterations. -/
def nextFiltered (rules : Rules O.BR (Packet O Q)) (data : Bytes) : (fuel : Nat) → Iter → Option (Option (Out (Packet O Q)) × Iter)
  | 0, _ => none
  | fuel + 1, it =>
    match refill data it with
    | none => some (none, ⟨it.spans.next.2, it.buffer⟩)
    | some (.err e) => some (some (.err e), it)
    | some .panic => some (some .panic, it)
    | some (.ok it1) =>
      let r := (Packet.filtered Q rules).run it1.buffer
      match r.1 with
      | .ok (.accepted _ p) => some (some (.ok p), { it1 with buffer := r.2 })
      | .ok (.denied _) => nextFiltered rules data fuel { it1 with buffer := r.2 }
      | .ok (.notEnough n) => some (some (.err (.notEnoughData n)), { it1 with buffer := r.2 })
      | .err e => some (some (.err e), { it1 with buffer := r.2 })
      | .panic => some (some .panic, { it1 with buffer := r.2 })

end Iter

/-- `ReaderRangeIterator` (`iters.rs:292-306`), `ReaderRangeFilteredIterator` (`iters.rs:371-382`). Simplified: `from += 1` does not
overflow (it would only for `from = usize::MAX`). -/
structure Range where
  start : Nat
  len : Nat
  deriving DecidableEq, Repr

namespace Range

variable {O : BlockOps} {Q : PayloadOps}

/-- `ReaderRangeIterator::next` (`iters.rs:343-355`). -/
def next (cap : Nat) (chk : Bool) (s : Storage) (data : Bytes) (r : Range) : Option (Out (Packet O Q)) × Range :=
  if r.len = 0 then (none, r)
  else match s.nth cap chk data r.start with
    | .ok none => (none, ⟨r.start + 1, r.len - 1⟩)
    | .ok (some p) => (some (.ok p), ⟨r.start + 1, r.len - 1⟩)
    | .err e => (some (.err e), ⟨r.start + 1, r.len - 1⟩)
    | .panic => (some .panic, ⟨r.start + 1, r.len - 1⟩)

/-- `ReaderRangeFilteredIterator::next` (`iters.rs:412-434`). `none`: not finished within `fuel` iterations. -/
def nextFiltered (cap : Nat) (rules : Rules O.BR (Packet O Q)) (s : Storage) (data : Bytes) :
    (fuel : Nat) → Range → Option (Option (Out (Packet O Q)) × Range)
  | 0, _ => none
  | fuel + 1, r =>
    if r.len = 0 then some (none, r)
    else match s.nthFiltered cap rules data r.start with
      | .ok none => some (none, ⟨r.start + 1, r.len⟩)
      | .ok (some (.accepted _ p)) => some (some (.ok p), ⟨r.start + 1, r.len - 1⟩)
      | .ok (some (.denied _)) => nextFiltered cap rules s data fuel ⟨r.start + 1, r.len⟩
      | .ok (some (.notEnough n)) => some (some (.err (.notEnoughData n)), ⟨r.start + 1, r.len⟩)
      | .err e => some (some (.err e), ⟨r.start + 1, r.len⟩)
      | .panic => some (some .panic, ⟨r.start + 1, r.len⟩)

end Range

end Brec
