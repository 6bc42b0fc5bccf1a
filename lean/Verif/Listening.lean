import Verif.Stateful
/-!
# An `Ignored` callback that remembers

`IgnoredCallback` is an `FnMut` (`/repo/brec/src/packet/rules.rs:21`). Here it has a state, the one it shares with the filters of `Stateful`, and the reader is written once more with
the calls of it in their places. What it is called with is also recorded, as in the other models.
-/

namespace Brec.Rd

variable {O : BlockOps} {Q : PayloadOps} {σ : Type}

/-- `self.rules.ignore(&buffer[..n])?`, done only if `n > 0` (`packet/reader.rs:212-214` etc.), cf. `ignoreTo`. -/
def hear (I : σ → Bytes → σ) (n : Nat) (buf : Bytes) (s : σ) : σ := if n > 0 then I s (buf.take n) else s

/-- The `Ignored` rule, for the record. -/
def recorder : Rules O.BR (Packet O Q) := [.ignored 0]

/-- The second attempt of `resolve_header_refill` (`packet/reader.rs:226-251`), cf. `refillAll`. -/
def refillAllI (I : σ → Bytes → σ) (chk : Bool) (buf : Bytes) (buffered extracted : Nat) (s : σ) (r : Rd) : (Out (Next (Packet O Q)) × Rd) × σ :=
  match readHeader buf with
  | .err e => ((.err e, r), s)
  | .panic => ((.panic, r), s)
  | .ok (.found h start stop) =>
    let r := { r with log := ignoreTo (recorder : Rules O.BR (Packet O Q)) start buf r.log }
    match consumeDiff chk stop buffered r.src with
    | none => ((.panic, r), hear I start buf s)
    | some src => ((.ok (.notEnough 0), { r with src := src, recent := .ready h }), hear I start buf s)
  | .ok (.notEnough start needed) =>
    let r := { r with log := ignoreTo (recorder : Rules O.BR (Packet O Q)) start buf r.log }
    ((.ok (.notEnough needed), { r with src := r.src.consume extracted, recent := .refill (buf.drop start) needed }), hear I start buf s)
  | .ok .notFound =>
    let r := { r with log := ignoreTo (recorder : Rules O.BR (Packet O Q)) (buf.length - HSIZE) buf r.log }
    ((.ok .notFound, { r with src := r.src.consume extracted, recent := .refill (buf.drop (buf.length - HSIZE)) HSIZE }), hear I (buf.length - HSIZE) buf s)

/-- `read` with `recent = Refill`: `resolve_header_refill` (`packet/reader.rs:186-252`), cf. `readRefill`. -/
def readRefillI (I : σ → Bytes → σ) (chk : Bool) (buffer : Bytes) (needed : Nat) (s : σ) (r : Rd) : (Out (Next (Packet O Q)) × Rd) × σ :=
  match r.src.fill with
  | (none, src) => ((.err .io, { r with src := src }), s)
  | (some [], src) => ((.ok .noData, { r with src := src, log := r.log ++ [buffer] }), I s buffer)
  | (some (c :: cs), src) =>
    let ext := c :: cs
    let r := { r with src := src }
    if ext.length < needed then
      ((.ok (.notEnough (needed - ext.length)), { r with src := src.consume ext.length, recent := .refill (buffer ++ ext) (needed - ext.length) }), s)
    else
      match readHeader (buffer ++ ext.take needed) with
      | .err e => ((.err e, r), s)
      | .panic => ((.panic, r), s)
      | .ok (.found h start stop) =>
        let r := { r with log := ignoreTo (recorder : Rules O.BR (Packet O Q)) start (buffer ++ ext.take needed) r.log }
        match consumeDiff chk stop buffer.length src with
        | none => ((.panic, r), hear I start (buffer ++ ext.take needed) s)
        | some src' => ((.ok (.notEnough 0), { r with src := src', recent := .ready h }), hear I start (buffer ++ ext.take needed) s)
      | .ok _ => refillAllI I chk (buffer ++ ext) buffer.length ext.length s r

/-- `read` with `recent = Empty` (`packet/reader.rs:291-354`), cf. `readEmptyS`: what is in front of a packet is reported before the filters are asked about it. -/
def readEmptyI (A : Asker σ O.BR (Packet O Q)) (I : σ → Bytes → σ) (s : σ) (r : Rd) : (Out (Next (Packet O Q)) × Rd) × σ :=
  match r.src.fill with
  | (none, src) => ((.err .io, { r with src := src, buffered := [] }), s)
  | (some [], src) => ((.ok .noData, { r with src := src, buffered := [] }), s)
  | (some (c :: cs), src) =>
    let buf := c :: cs
    let r := { r with src := src, buffered := [] }
    if buf.length < HSIZE then
      ((.ok (.notEnough (HSIZE - buf.length)), { r with src := src.consume buf.length, recent := .refill buf (HSIZE - buf.length) }), s)
    else
      match readHeader buf with
      | .err e => ((.err e, r), s)
      | .panic => ((.panic, r), s)
      | .ok .notFound =>
        let r := { r with log := ignoreTo (recorder : Rules O.BR (Packet O Q)) (buf.length - HSIZE) buf r.log }
        ((.ok .notFound, { r with src := src.consume buf.length, recent := .refill (buf.drop (buf.length - HSIZE)) HSIZE }), hear I (buf.length - HSIZE) buf s)
      | .ok (.notEnough start needed) =>
        let r := { r with log := ignoreTo (recorder : Rules O.BR (Packet O Q)) start buf r.log }
        ((.ok (.notEnough needed), { r with src := src.consume buf.length, recent := .refill (buf.drop start) needed }), hear I start buf s)
      | .ok (.found h start stop) =>
        let s := hear I start buf s
        let r := { r with log := ignoreTo (recorder : Rules O.BR (Packet O Q)) start buf r.log }
        if h.size + stop ≥ 2 ^ 64 then ((.panic, r), s)
        else if h.size + stop > buf.length then
          ((.ok (.notEnough (h.size + stop - buf.length)), { r with src := src.consume buf.length, buffered := buf.drop stop, recent := .ready h }), s)
        else finishS A s h (slice buf stop h.size) (stop + h.size) r

/-- `PacketBufReaderDef::read` (`packet/reader.rs:281-445`), cf. `readS`. -/
def readI (A : Asker σ O.BR (Packet O Q)) (I : σ → Bytes → σ) (chk : Bool) (s : σ) (r : Rd) : (Out (Next (Packet O Q)) × Rd) × σ :=
  match r.recent with
  | .ready h => readReadyS A s h { r with recent := .empty }
  | .refill b n => readRefillI I chk b n s { r with recent := .empty }
  | .empty => readEmptyI A I s r

/-- `n` calls of `read` in a row, cf. `readsS`. -/
def readsI (A : Asker σ O.BR (Packet O Q)) (I : σ → Bytes → σ) (chk : Bool) : Nat → σ → Rd → List (Out (Next (Packet O Q))) × Rd × σ
  | 0, s, r => ([], r, s)
  | n + 1, s, r =>
    match readI A I chk s r with
    | ((.panic, r'), s') => ([.panic], r', s')
    | ((o, r'), s') => (o :: (readsI A I chk n s' r').1, (readsI A I chk n s' r').2)

end Brec.Rd
