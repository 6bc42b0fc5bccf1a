import Verif.Reader
import Verif.Storage
/-!
# Rules that remember

`RuleFnDef::Dynamic` holds "a dynamic, possibly stateful closure" (`/repo/brec/src/packet/rules.rs:11-17`). The models in `Rules`, `Reader` and `Packet` take the filter callbacks as pure
functions. Here they have a state, shared by all of them (counters or tables behind an `Arc<Mutex<_>>`), and the readers are written once more with this state passed through.

The `Ignored` callback does not take part in the state; what it is called with is still recorded by the reader.
-/

namespace Brec

/-- The rules of a `RulesDef` (`rules.rs:72-79`), at most one of each kind (`add_rule`, `rules.rs:96-129`), with callbacks that read and change a state. -/
structure Asker (σ BR Pk : Type) where
  ignored : Bool
  blocks : Option (σ → List BR → Bool × σ)
  payload : Option (σ → Bytes → Bool × σ)
  packet : Option (σ → Pk → Bool × σ)

namespace Asker

variable {σ BR Pk : Type}

/-- `filter_by_blocks`, `filter_by_payload`, `filter` (`rules.rs:152-200`): the answer of the callback, `true` if there is none. -/
def ask {α : Type} (f : Option (σ → α → Bool × σ)) (s : σ) (a : α) : Bool × σ :=
  match f with
  | some f => f s a
  | none => (true, s)

/-- The rules without the filters. -/
def base (A : Asker σ BR Pk) : Rules BR Pk := if A.ignored then [.ignored 0] else []

end Asker

namespace Rd

variable {O : BlockOps} {Q : PayloadOps} {σ : Type}

/-- `self.rules.filter(&packet)` at the end (`packet/reader.rs:428-443`). -/
def finalS (A : Asker σ O.BR (Packet O Q)) (s : σ) (p : Packet O Q) : (Out (Next (Packet O Q)) × Fin) × σ :=
  match Asker.ask A.packet s p with
  | (true, s') => ((.ok (.found p), .dropConsume), s')
  | (false, s') => ((.ok .skipped, .dropConsume), s')

/-- The part of `read` after the blocks (`packet/reader.rs:390-444`), cf. `parsePayload`. -/
def parsePayloadS (A : Asker σ O.BR (Packet O Q)) (s : σ) (h : PacketHeader) (pb : Bytes) (rs : List O.BR) :
    (Out (Next (Packet O Q)) × Fin) × σ :=
  match Asker.ask A.blocks s rs with
  | (false, s1) => ((.ok .skipped, .dropConsume), s1)
  | (true, s1) =>
    if h.payload then
      match PayloadHeader.tryBuf [pb.drop h.blocksLen] with
      | (.ok (.success ph), _) =>
        if h.blocksLen + ph.size > pb.length then ((.panic, .leave), s1)
        else
          match Asker.ask A.payload s1 (pb.drop (h.blocksLen + ph.size)) with
          | (false, s2) => ((.ok .skipped, .dropConsume), s2)
          | (true, s2) =>
            match Q.tryBuf ph [pb.drop (h.blocksLen + ph.size)] with
            | (.ok (.success v), _) => finalS A s2 ⟨rs.map O.into, some v⟩
            | (.ok (.notEnough n), _) => ((.err (.notEnoughData n), .dropConsume), s2)
            | (.err e, _) => ((.err e, .leave), s2)
            | (.panic, _) => ((.panic, .leave), s2)
      | (.ok (.notEnough n), _) => ((.err (.notEnoughData n), .dropConsume), s1)
      | (.err e, _) => ((.err e, .dropConsume), s1)
      | (.panic, _) => ((.panic, .leave), s1)
    else finalS A s1 ⟨rs.map O.into, none⟩

/-- `read` on the bytes of one packet (`packet/reader.rs:362-444`), cf. `parse`. -/
def parseS (A : Asker σ O.BR (Packet O Q)) (s : σ) (h : PacketHeader) (pb : Bytes) : (Out (Next (Packet O Q)) × Fin) × σ :=
  if h.blocksLen > pb.length then ((.panic, .leave), s)
  else
    let r := if pb.take h.blocksLen = [] then (.ok [], .dropConsume)
      else blocksLoop O (pb.take h.blocksLen) MAX_BLOCKS 0 []
    match r.1 with
    | .ok rs => parsePayloadS A s h pb rs
    | .err e => ((.err e, r.2), s)
    | .panic => ((.panic, r.2), s)

/-- The return paths of `read` (`packet/reader.rs:137-147`), cf. `finish`. -/
def finishS (A : Asker σ O.BR (Packet O Q)) (s : σ) (h : PacketHeader) (pb : Bytes) (consume : Nat) (r : Rd) :
    (Out (Next (Packet O Q)) × Rd) × σ :=
  let x := parseS A s h pb
  match x.1.2 with
  | .dropConsume => ((x.1.1, { r with buffered := [], src := r.src.consume consume }), x.2)
  | .clear => ((x.1.1, { r with buffered := [] }), x.2)
  | .leave => ((x.1.1, r), x.2)

/-- `read` with `recent = Ready` (`packet/reader.rs:154-180`, `:284-287`), cf. `readReady`. -/
def readReadyS (A : Asker σ O.BR (Packet O Q)) (s : σ) (h : PacketHeader) (r : Rd) : (Out (Next (Packet O Q)) × Rd) × σ :=
  match r.src.fill with
  | (none, src) => ((.err .io, { r with src := src }), s)
  | (some buf, src) =>
    if h.size > r.buffered.length + buf.length then
      ((.ok (.notEnough (h.size - (r.buffered.length + buf.length))),
        { r with src := src.consume buf.length, buffered := r.buffered ++ buf, recent := .ready h }), s)
    else if h.size < r.buffered.length then ((.err .invalidPacketReaderLogic, { r with src := src }), s)
    else
      let rest := h.size - r.buffered.length
      finishS A s h (r.buffered ++ buf.take rest) 0
        { r with src := src.consume rest, buffered := r.buffered ++ buf.take rest }

/-- `read` with `recent = Empty` (`packet/reader.rs:291-354`), cf. `readEmpty`. -/
def readEmptyS (A : Asker σ O.BR (Packet O Q)) (s : σ) (r : Rd) : (Out (Next (Packet O Q)) × Rd) × σ :=
  match r.src.fill with
  | (none, src) => ((.err .io, { r with src := src, buffered := [] }), s)
  | (some [], src) => ((.ok .noData, { r with src := src, buffered := [] }), s)
  | (some (c :: cs), src) =>
    let buf := c :: cs
    let r := { r with src := src, buffered := [] }
    if buf.length < HSIZE then
      ((.ok (.notEnough (HSIZE - buf.length)),
        { r with src := src.consume buf.length, recent := .refill buf (HSIZE - buf.length) }), s)
    else
      match readHeader buf with
      | .err e => ((.err e, r), s)
      | .panic => ((.panic, r), s)
      | .ok .notFound =>
        ((.ok .notFound,
          { r with log := ignoreTo A.base (buf.length - HSIZE) buf r.log, src := src.consume buf.length
                   recent := .refill (buf.drop (buf.length - HSIZE)) HSIZE }), s)
      | .ok (.notEnough start needed) =>
        ((.ok (.notEnough needed),
          { r with log := ignoreTo A.base start buf r.log, src := src.consume buf.length
                   recent := .refill (buf.drop start) needed }), s)
      | .ok (.found h start stop) =>
        let r := { r with log := ignoreTo A.base start buf r.log }
        if h.size + stop ≥ 2 ^ 64 then ((.panic, r), s)
        else if h.size + stop > buf.length then
          ((.ok (.notEnough (h.size + stop - buf.length)),
            { r with src := src.consume buf.length, buffered := buf.drop stop, recent := .ready h }), s)
        else finishS A s h (slice buf stop h.size) (stop + h.size) r

/-- `PacketBufReaderDef::read` (`packet/reader.rs:281-445`), cf. `read`. A refill asks no filter. -/
def readS (A : Asker σ O.BR (Packet O Q)) (chk : Bool) (s : σ) (r : Rd) : (Out (Next (Packet O Q)) × Rd) × σ :=
  match r.recent with
  | .ready h => readReadyS A s h { r with recent := .empty }
  | .refill b n => (readRefill A.base chk b n { r with recent := .empty }, s)
  | .empty => readEmptyS A s r

/-- `n` calls of `read` in a row, cf. `reads`. -/
def readsS (A : Asker σ O.BR (Packet O Q)) (chk : Bool) : Nat → σ → Rd → List (Out (Next (Packet O Q))) × Rd × σ
  | 0, s, r => ([], r, s)
  | n + 1, s, r =>
    match readS A chk s r with
    | ((.panic, r'), s') => ([.panic], r', s')
    | ((o, r'), s') => (o :: (readsS A chk n s' r').1, (readsS A chk n s' r').2)

end Rd

namespace Packet

variable {O : BlockOps} {Q : PayloadOps} {σ : Type}

/-- `rules.filter(&pkg)` at the end of `filtered` (`packet/mod.rs:182-187`). -/
def lastLookS (A : Asker σ O.BR (Packet O Q)) (s : σ) (n : Nat) (p : Packet O Q) : Out (Look (Packet O Q)) × σ :=
  match Asker.ask A.packet s p with
  | (true, s') => (.ok (.accepted n p), s')
  | (false, s') => (.ok (.denied n), s')

/-- The part of `filtered` after the blocks (`packet/mod.rs:145-187`). -/
def lookPayloadS (A : Asker σ O.BR (Packet O Q)) (s : σ) (h : PacketHeader) (buf : Bytes) (rs : List O.BR) : Out (Look (Packet O Q)) × σ :=
  if h.payload then
    if h.blocksLen > buf.length then (.panic, s)
    else match PayloadHeader.peek (Chunks.fill [buf.drop h.blocksLen]) with
      | .ok (.success ph) =>
        if h.blocksLen + ph.size > buf.length then (.panic, s)
        else match Asker.ask A.payload s (buf.drop (h.blocksLen + ph.size)) with
          | (false, s2) => (.ok (.denied h.size), s2)
          | (true, s2) =>
            match (Q.tryBuf ph [buf.drop (h.blocksLen + ph.size)]).1 with
            | .ok (.success v) => lastLookS A s2 h.size ⟨rs.map O.into, some v⟩
            | .ok (.notEnough n) => (.err (.notEnoughData n), s2)
            | .err e => (.err e, s2)
            | .panic => (.panic, s2)
      | .ok (.notEnough n) => (.err (.notEnoughData n), s)
      | .err e => (.err e, s)
      | .panic => (.panic, s)
  else lastLookS A s h.size ⟨rs.map O.into, none⟩

/-- What `filtered` does with the bytes it read (`packet/mod.rs:131-187`), cf. `look`. -/
def lookS (A : Asker σ O.BR (Packet O Q)) (s : σ) (h : PacketHeader) (buf : Bytes) : Out (Look (Packet O Q)) × σ :=
  match (if h.blocksLen > 0 then slicesLoop O buf h.blocksLen (buf.length + 1) 0 [] else .ok []) with
  | .err e => (.err e, s)
  | .panic => (.panic, s)
  | .ok rs =>
    match Asker.ask A.blocks s rs with
    | (false, s1) => (.ok (.denied h.size), s1)
    | (true, s1) => lookPayloadS A s1 h buf rs

/-- The header and the bytes of a packet (`packet/mod.rs:117-130`). -/
def fetchWhole : P (PacketHeader × Bytes) := do
  let h ← PacketHeader.read
  P.lift (allocZeroed h.size)
  let buf ← P.readExact h.size
  pure (h, buf)

/-- `PacketDef::filtered` (`packet/mod.rs:117-188`), cf. `filtered`: the result, the rest of the source, and what the callbacks remember. -/
def filteredS (A : Asker σ O.BR (Packet O Q)) (s : σ) (src : Bytes) : (Out (Look (Packet O Q)) × Bytes) × σ :=
  match fetchWhole.run src with
  | (.ok (h, buf), t) => (((lookS A s h buf).1, t), (lookS A s h buf).2)
  | (.err e, t) => ((.err e, t), s)
  | (.panic, t) => ((.panic, t), s)

end Packet

namespace Storage

variable {O : BlockOps} {Q : PayloadOps} {σ : Type}

/-- `nth_filtered` (`storage/reader/mod.rs:333-358`), cf. `nthFiltered`. -/
def nthFilteredS (cap : Nat) (A : Asker σ O.BR (Packet O Q)) (st : Storage) (data : Bytes) (s : σ) (n : Nat) : Out (Option (Packet.Look (Packet O Q))) × σ :=
  match st.offsetOf cap n with
  | .err e => (.err e, s)
  | .panic => (.panic, s)
  | .ok none => (.ok none, s)
  | .ok (some off) =>
    match Packet.filteredS A s (data.drop off) with
    | ((.ok (.notEnough n), _), s') => (.err (.notEnoughData n), s')
    | ((.ok l, _), s') => (.ok (some l), s')
    | ((.err e, _), s') => (.err e, s')
    | ((.panic, _), s') => (.panic, s')

end Storage

/-- `ReaderFilteredIterator::next` (`storage/reader/iters.rs:252-278`), cf. `Iter.nextFiltered`. -/
def Iter.nextFilteredS {O : BlockOps} {Q : PayloadOps} {σ : Type} (A : Asker σ O.BR (Packet O Q)) (data : Bytes) :
    (fuel : Nat) → σ × Iter → Option (Option (Out (Packet O Q)) × (σ × Iter))
  | 0, _ => none
  | fuel + 1, (s, it) =>
    match it.refill data with
    | none => some (none, s, ⟨it.spans.next.2, it.buffer⟩)
    | some (.err e) => some (some (.err e), s, it)
    | some .panic => some (some .panic, s, it)
    | some (.ok it1) =>
      match Packet.filteredS A s it1.buffer with
      | ((.ok (.accepted _ p), t), s') => some (some (.ok p), s', { it1 with buffer := t })
      | ((.ok (.denied _), t), s') => nextFilteredS A data fuel (s', { it1 with buffer := t })
      | ((.ok (.notEnough n), t), s') => some (some (.err (.notEnoughData n)), s', { it1 with buffer := t })
      | ((.err e, t), s') => some (some (.err e), s', { it1 with buffer := t })
      | ((.panic, t), s') => some (some .panic, s', { it1 with buffer := t })

/-- `ReaderRangeFilteredIterator::next` (`storage/reader/iters.rs:412-434`), cf. `Range.nextFiltered`. -/
def Range.nextFilteredS {O : BlockOps} {Q : PayloadOps} {σ : Type} (cap : Nat) (A : Asker σ O.BR (Packet O Q)) (st : Storage) (data : Bytes) :
    (fuel : Nat) → σ × Range → Option (Option (Out (Packet O Q)) × (σ × Range))
  | 0, _ => none
  | fuel + 1, (s, r) =>
    if r.len = 0 then some (none, s, r)
    else match st.nthFilteredS cap A data s r.start with
      | (.ok none, s') => some (none, s', ⟨r.start + 1, r.len⟩)
      | (.ok (some (.accepted _ p)), s') => some (some (.ok p), s', ⟨r.start + 1, r.len - 1⟩)
      | (.ok (some (.denied _)), s') => nextFilteredS cap A st data fuel (s', ⟨r.start + 1, r.len⟩)
      | (.ok (some (.notEnough n)), s') => some (some (.err (.notEnoughData n)), s', ⟨r.start + 1, r.len⟩)
      | (.err e, s') => some (some (.err e), s', ⟨r.start + 1, r.len⟩)
      | (.panic, s') => some (some .panic, s', ⟨r.start + 1, r.len⟩)

end Brec
