import Verif.Reader
/-!
# `BufferedReader`

Model of `/repo/brec/src/traits/read/reader.rs`. The reader inside is one that behaves as `std::io::BufReader` on a source (`Events`, see
`Verif/Reader.lean`).
-/

namespace Brec

/-- `BufferedReader` (`reader.rs:57-63`). `filled` is only the memory in which `fill_buf` builds its answer (`:199-203`) and is left out; `consumed`
is a number without upper bound. -/
structure Buffered where
  inner : Events
  buffer : Bytes
  innerLen : Nat
  consumed : Nat
  deriving DecidableEq, Repr

namespace Buffered

/-- `BufferedReader::new` (`reader.rs:103-111`). -/
def new (inner : Events) : Buffered := ⟨inner, [], 0, 0⟩

/-- `buffer_len` (`reader.rs:116-118`). `none` is an I/O error. -/
def bufferLen (b : Buffered) : Option Nat × Buffered :=
  match b.inner.fill with
  | (none, es) => (none, { b with inner := es })
  | (some x, es) => (some x.length, { b with inner := es })

/-- `len` (`reader.rs:123-125`). -/
def len (b : Buffered) : Option Nat × Buffered :=
  match b.inner.fill with
  | (none, es) => (none, { b with inner := es })
  | (some x, es) => (some (x.length + b.buffer.length), { b with inner := es })

/-- `is_empty` (`reader.rs:128-130`). -/
def isEmpty (b : Buffered) : Option Bool × Buffered := (b.len.1.map (· == 0), b.len.2)

/-- `refill` (`reader.rs:145-149`). -/
def refill (b : Buffered) : Option Unit × Buffered :=
  match b.inner.fill with
  | (none, es) => (none, { b with inner := es })
  | (some x, es) => (some (), { b with inner := es.consume x.length, buffer := x })

/-- `Read::read` of the reader inside into `n > 0` bytes: what `fill_buf` gives, as far as it fits. -/
def readInner (es : Events) (n : Nat) : Option Bytes × Events :=
  match es.fill with
  | (none, es) => (none, es)
  | (some x, es) => (some (x.take n), es.consume (min n x.length))

/-- `Read::read` into a buffer of `n` bytes (`reader.rs:165-182`). An error of the reader inside is returned after the preloaded bytes have been drained
(`:170-179`). -/
def read (b : Buffered) (n : Nat) : Option Bytes × Buffered :=
  if n = 0 then (some [], b)
  else
    let pre := b.buffer.take n
    let b' := { b with buffer := b.buffer.drop n }
    if pre.length < n then
      match readInner b'.inner (n - pre.length) with
      | (none, es) => (none, { b' with inner := es })
      | (some x, es) => (some (pre ++ x), { b' with inner := es, consumed := b'.consumed + (pre.length + x.length) })
    else (some pre, { b' with consumed := b'.consumed + pre.length })

/-- `BufRead::fill_buf` (`reader.rs:193-204`). -/
def fillBuf (b : Buffered) : Option Bytes × Buffered :=
  match b.inner.fill with
  | (none, es) => (none, { b with inner := es })
  | (some x, es) =>
    if b.buffer = [] then (some x, { b with inner := es })
    else (some (b.buffer ++ x), { b with inner := es, innerLen := x.length })

/-- `BufRead::consume` (`reader.rs:212-240`). -/
def consume (b : Buffered) (amt : Nat) : Buffered :=
  if b.buffer = [] then { b with inner := b.inner.consume amt, consumed := b.consumed + amt }
  else if amt ≤ b.buffer.length then { b with buffer := b.buffer.drop amt, consumed := b.consumed + amt }
  else
    let a := amt - b.buffer.length
    if a ≤ b.innerLen then
      { b with buffer := [], inner := b.inner.consume a, innerLen := b.innerLen - a, consumed := b.consumed + a }
    else
      { b with buffer := [], inner := b.inner.consume (a - b.innerLen), innerLen := 0, consumed := b.consumed + (a - b.innerLen) }

end Buffered
end Brec
