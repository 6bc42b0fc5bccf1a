import Verif.Packet
/-!
# `PacketBufReader`

Model of `/repo/brec/src/packet/reader.rs`. The source behind the `std::io::BufReader` is a list of events: what
each `Read::read` made by `fill_buf` gives. `chk` says whether the program is built with overflow checks (debug) or
without (release).
-/

namespace Brec

/-- What the source will give: `some b` is a successful read of `b` (`b = []`: zero bytes, "end of file for now"), `none` a
failing one. The head of the list is what is left in the buffer of the `BufReader`, if that is not empty. -/
abbrev Events := List (Option Bytes)

namespace Events

/-- `BufReader::fill_buf`: the current buffer if it is not empty, otherwise one `read` of the source. `none` is an error. After
the last event the source stays at its end. -/
def fill : Events → Option Bytes × Events
  | [] => (some [], [])
  | none :: es => (none, es)
  | some [] :: es => (some [], es)
  | some (b :: bs) :: es => (some (b :: bs), some (b :: bs) :: es)

/-- `BufReader::consume(n)`: at most the current buffer. It is only called after a `fill`. -/
def consume (n : Nat) : Events → Events
  | [] => []
  | none :: es => none :: es
  | some b :: es => if n = 0 then some b :: es else if n < b.length then some (b.drop n) :: es else es

/-- The bytes of all successful reads. -/
def bytes (es : Events) : Bytes := (es.map fun e => e.getD []).flatten

end Events

/-- `HeaderReadState` (`reader.rs:49-60`). The `Option`s of the code only serve to move values out; `Ready(None)` and
`Refill(None)` are never stored (`:168`, `:199`, `:217`, `:237`, `:247`, `:304`, `:313-321`, `:332`, `:347`). -/
inductive Recent where
  | ready (h : PacketHeader)
  | refill (buf : Bytes) (needed : Nat)
  | empty
  deriving DecidableEq, Repr

/-- `NextPacket` (`reader.rs:10-33`). -/
inductive Next (α : Type) where
  | notEnough (n : Nat)
  | noData
  | notFound
  | skipped
  | found (p : α)

/-- `PacketBufReaderDef` (`reader.rs:83-101`) without the rules, which `read` takes as an argument. `log` are the calls made to
`Ignored` callbacks so far. -/
structure Rd where
  src : Events
  recent : Recent
  buffered : Bytes
  log : List Bytes
  deriving DecidableEq, Repr

/-- `PacketHeaderState` (`reader.rs:35-46`). -/
inductive HeaderState where
  | notFound
  | notEnough (start needed : Nat)
  | found (h : PacketHeader) (start stop : Nat)

/-- `read_header` (`reader.rs:118-131`). The end of the returned range is used as an exclusive one throughout. -/
def readHeader (buf : Bytes) : Out HeaderState :=
  match getPos buf with
  | none => .ok .notFound
  | some offset =>
    match isNotEnough (buf.drop offset) with
    | some needed => .ok (.notEnough offset needed)
    | none => (PacketHeader.readSlice (buf.drop offset)).map fun h => .found h offset (offset + HSIZE)

namespace Rd

/-- `PacketBufReaderDef::new` (`reader.rs:255-262`) on a source. -/
def new (src : Events) : Rd := ⟨src, .empty, [], []⟩

variable {O : BlockOps} {Q : PayloadOps}

/-- What `read` does to its buffers before it returns (`reader.rs:371-372`, `:137-147`, `:404-407`). -/
inductive Fin where
  /-- `drop_and_consume` -/
  | dropConsume
  /-- only `buffered.clear()` -/
  | clear
  /-- nothing -/
  | leave
  deriving DecidableEq, Repr

variable (O) in
/-- The block loop (`reader.rs:369-393`): `left` is `MAX_BLOCKS_COUNT - count`. -/
def blocksLoop (buf : Bytes) : (left processed : Nat) → (acc : List O.BR) → Out (List O.BR) × Fin
  | 0, _, _ => (.err .maxBlocksCount, .clear)
  | left + 1, processed, acc =>
    if processed > buf.length then (.panic, .leave)
    else match O.readSlice (buf.drop processed) with
      | .panic => (.panic, .leave)
      | .err e => (.err e, .dropConsume)
      | .ok r =>
        if O.rsize r = 0 then (.err .zeroLengthBlock, .dropConsume)
        else if processed + O.rsize r = buf.length then (.ok (acc ++ [r]), .dropConsume)
        else blocksLoop buf left (processed + O.rsize r) (acc ++ [r])

/-- The part of `read` after the blocks (`reader.rs:394-444`). -/
def parsePayload (rules : Rules O.BR (Packet O Q)) (h : PacketHeader) (pb : Bytes) (rs : List O.BR) :
    Out (Next (Packet O Q)) × Fin :=
  if ¬ rules.filterByBlocks rs then (.ok .skipped, .dropConsume)
  else
    let final (p : Packet O Q) : Out (Next (Packet O Q)) × Fin :=
      if rules.filter p then (.ok (.found p), .dropConsume) else (.ok .skipped, .dropConsume)
    if h.payload then
      match PayloadHeader.tryBuf [pb.drop h.blocksLen] with
      | (.ok (.success ph), _) =>
        if h.blocksLen + ph.size > pb.length then (.panic, .leave)
        else if ¬ rules.filterByPayload (pb.drop (h.blocksLen + ph.size)) then (.ok .skipped, .dropConsume)
        else match Q.tryBuf ph [pb.drop (h.blocksLen + ph.size)] with
          | (.ok (.success v), _) => final ⟨rs.map O.into, some v⟩
          | (.ok (.notEnough n), _) => (.err (.notEnoughData n), .dropConsume)
          | (.err e, _) => (.err e, .leave)
          | (.panic, _) => (.panic, .leave)
      | (.ok (.notEnough n), _) => (.err (.notEnoughData n), .dropConsume)
      | (.err e, _) => (.err e, .dropConsume)
      | (.panic, _) => (.panic, .leave)
    else final ⟨rs.map O.into, none⟩

/-- What `read` makes of the bytes of one packet (`reader.rs:362-444`). `&packet_buffer[..blocks_len]` panics when `blocks_len` is
past the end. -/
def parse (rules : Rules O.BR (Packet O Q)) (h : PacketHeader) (pb : Bytes) : Out (Next (Packet O Q)) × Fin :=
  if h.blocksLen > pb.length then (.panic, .leave)
  else
    let r := if pb.take h.blocksLen = [] then (.ok [], .dropConsume)
      else blocksLoop O (pb.take h.blocksLen) MAX_BLOCKS 0 []
    match r.1 with
    | .ok rs => parsePayload rules h pb rs
    | .err e => (.err e, r.2)
    | .panic => (.panic, r.2)

/-- The return paths of `read`: `drop_and_consume` (`reader.rs:137-147`) and the others. -/
def finish (rules : Rules O.BR (Packet O Q)) (h : PacketHeader) (pb : Bytes) (consume : Nat) (r : Rd) :
    Out (Next (Packet O Q)) × Rd :=
  let x := parse rules h pb
  match x.2 with
  | .dropConsume => (x.1, { r with buffered := [], src := r.src.consume consume })
  | .clear => (x.1, { r with buffered := [] })
  | .leave => (x.1, r)

/-- `rules.ignore(&buffer[..n])`, done only if `n > 0` (`reader.rs:212-214` etc.). -/
def ignoreTo (rules : Rules O.BR (Packet O Q)) (n : Nat) (buf : Bytes) (log : List Bytes) : List Bytes :=
  if n > 0 then log ++ rules.ignore (buf.take n) else log

/-- `self.inner.consume(sgmt.end() - buffered)` (`reader.rs:216`, `:236`). Without overflow checks the difference wraps
around, and `BufReader::consume` of more than there is takes all that is there. -/
def consumeDiff (chk : Bool) (stop buffered : Nat) (src : Events) : Option Events :=
  if buffered ≤ stop then some (src.consume (stop - buffered))
  else if chk then none
  else some (src.consume (2 ^ 64 + stop - buffered))

/-- `read` with `recent = Ready`: `resolve_header_ready` (`reader.rs:154-180`) and `:284-287`. -/
def readReady (rules : Rules O.BR (Packet O Q)) (h : PacketHeader) (r : Rd) : Out (Next (Packet O Q)) × Rd :=
  match r.src.fill with
  | (none, src) => (.err .io, { r with src := src })
  | (some buf, src) =>
    if h.size > r.buffered.length + buf.length then
      (.ok (.notEnough (h.size - (r.buffered.length + buf.length))),
        { r with src := src.consume buf.length, buffered := r.buffered ++ buf, recent := .ready h })
    else if h.size < r.buffered.length then (.err .invalidPacketReaderLogic, { r with src := src })
    else
      let rest := h.size - r.buffered.length
      finish rules h (r.buffered ++ buf.take rest) 0
        { r with src := src.consume rest, buffered := r.buffered ++ buf.take rest }

/-- The second attempt of `resolve_header_refill` (`reader.rs:226-251`): `buf` is everything, `buffered` the length of what was
there before and `extracted` the length of the current buffer of the source. -/
def refillAll (rules : Rules O.BR (Packet O Q)) (chk : Bool) (buf : Bytes) (buffered extracted : Nat) (r : Rd) :
    Out (Next (Packet O Q)) × Rd :=
  match readHeader buf with
  | .err e => (.err e, r)
  | .panic => (.panic, r)
  | .ok (.found h start stop) =>
    match consumeDiff chk stop buffered r.src with
    | none => (.panic, { r with log := ignoreTo rules start buf r.log })
    | some src => (.ok (.notEnough 0), { r with log := ignoreTo rules start buf r.log, src := src, recent := .ready h })
  | .ok (.notEnough start needed) =>
    (.ok (.notEnough needed),
      { r with log := ignoreTo rules start buf r.log, src := r.src.consume extracted, recent := .refill (buf.drop start) needed })
  | .ok .notFound =>
    (.ok .notFound,
      { r with log := ignoreTo rules (buf.length - HSIZE) buf r.log, src := r.src.consume extracted
               recent := .refill (buf.drop (buf.length - HSIZE)) HSIZE })

/-- `read` with `recent = Refill`: `resolve_header_refill` (`reader.rs:186-252`). -/
def readRefill (rules : Rules O.BR (Packet O Q)) (chk : Bool) (buffer : Bytes) (needed : Nat) (r : Rd) :
    Out (Next (Packet O Q)) × Rd :=
  match r.src.fill with
  | (none, src) => (.err .io, { r with src := src })
  | (some [], src) => (.ok .noData, { r with src := src, log := r.log ++ rules.ignore buffer })
  | (some (c :: cs), src) =>
    let ext := c :: cs
    if ext.length < needed then
      (.ok (.notEnough (needed - ext.length)),
        { r with src := src.consume ext.length, recent := .refill (buffer ++ ext) (needed - ext.length) })
    else
      match readHeader (buffer ++ ext.take needed) with
      | .err e => (.err e, { r with src := src })
      | .panic => (.panic, { r with src := src })
      | .ok (.found h start stop) =>
        match consumeDiff chk stop buffer.length src with
        | none => (.panic, { r with src := src, log := ignoreTo rules start (buffer ++ ext.take needed) r.log })
        | some src' =>
          (.ok (.notEnough 0),
            { r with log := ignoreTo rules start (buffer ++ ext.take needed) r.log, src := src', recent := .ready h })
      | .ok _ => refillAll rules chk (buffer ++ ext) buffer.length ext.length { r with src := src }

/-- `read` with `recent = Empty` (`reader.rs:291-354`). `packet_size + end` past `usize` panics: with overflow checks at `:340`, without
at the slice `:351`, whose wrapped end lies before its start. -/
def readEmpty (rules : Rules O.BR (Packet O Q)) (r : Rd) : Out (Next (Packet O Q)) × Rd :=
  match r.src.fill with
  | (none, src) => (.err .io, { r with src := src, buffered := [] })
  | (some [], src) => (.ok .noData, { r with src := src, buffered := [] })
  | (some (c :: cs), src) =>
    let buf := c :: cs
    let r := { r with src := src, buffered := [] }
    if buf.length < HSIZE then
      (.ok (.notEnough (HSIZE - buf.length)),
        { r with src := src.consume buf.length, recent := .refill buf (HSIZE - buf.length) })
    else
      match readHeader buf with
      | .err e => (.err e, r)
      | .panic => (.panic, r)
      | .ok .notFound =>
        (.ok .notFound,
          { r with log := ignoreTo rules (buf.length - HSIZE) buf r.log, src := src.consume buf.length
                   recent := .refill (buf.drop (buf.length - HSIZE)) HSIZE })
      | .ok (.notEnough start needed) =>
        (.ok (.notEnough needed),
          { r with log := ignoreTo rules start buf r.log, src := src.consume buf.length
                   recent := .refill (buf.drop start) needed })
      | .ok (.found h start stop) =>
        let r := { r with log := ignoreTo rules start buf r.log }
        if h.size + stop ≥ 2 ^ 64 then (.panic, r)
        else if h.size + stop > buf.length then
          (.ok (.notEnough (h.size + stop - buf.length)),
            { r with src := src.consume buf.length, buffered := buf.drop stop, recent := .ready h })
        else finish rules h (slice buf stop h.size) (stop + h.size) r

/-- `PacketBufReaderDef::read` (`reader.rs:281-445`). -/
def read (rules : Rules O.BR (Packet O Q)) (chk : Bool) (r : Rd) : Out (Next (Packet O Q)) × Rd :=
  match r.recent with
  | .ready h => readReady rules h { r with recent := .empty }
  | .refill b n => readRefill rules chk b n { r with recent := .empty }
  | .empty => readEmpty rules r

/-- `n` calls of `read` in a row: their results and the final state. After a panic there are no more calls. -/
def reads (rules : Rules O.BR (Packet O Q)) (chk : Bool) : Nat → Rd → List (Out (Next (Packet O Q))) × Rd
  | 0, r => ([], r)
  | n + 1, r =>
    match read rules chk r with
    | (.panic, r') => ([.panic], r')
    | (o, r') => (o :: (reads rules chk n r').1, (reads rules chk n r').2)

end Rd

end Brec
