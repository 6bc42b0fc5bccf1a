import Verif.Crc32
/-!
# Outcomes and byte sources

Rust results, panics, and the `std::io` sources used by the crate.
-/

namespace Brec

/-- Errors of `/repo/brec/src/error.rs:4-73` that the modelled code can produce. String payloads
(messages) are dropped. `io` is `Error::Io` (for readers: unexpected end of file). -/
inductive Err
  | notEnoughData (n : Nat)
  | notEnoughSig (len need : Nat)
  | invalidCapacity (n : Nat)
  | sigDismatch
  | crcDismatch
  | ruleDuplicate
  | zeroLengthBlock
  | maxBlocksCount
  | failedConverting
  | io
  | failExtractByteBlock
  | failToReadPayloadHeader
  | invalidPacketReaderLogic
  | cannotFindFreeSlot
  | cannotFindFreePlaceInSlot
  | cannotInsertIntoSlot
  | damagedSlot (e : Err)
  | outOfBounds (len req : Nat)
  | fileIsLocked
  | timeoutToWaitLockedFile
  | accessSlot (n : Nat)
  | emptySource
  deriving DecidableEq, Repr

/-- A Rust call either returns `Ok`, returns `Err`, or panics. -/
inductive Out (α : Type) where
  | ok (a : α)
  | err (e : Err)
  | panic
  deriving DecidableEq, Repr

namespace Out
def map {α β} (f : α → β) : Out α → Out β
  | ok a => ok (f a)
  | err e => err e
  | panic => panic

def bind {α β} (x : Out α) (f : α → Out β) : Out β :=
  match x with
  | ok a => f a
  | err e => err e
  | panic => panic

@[simp] theorem map_ok {α β} (f : α → β) (a : α) : (Out.ok a).map f = .ok (f a) := rfl
@[simp] theorem map_err {α β} (f : α → β) (e : Err) : (Out.err e : Out α).map f = .err e := rfl
@[simp] theorem map_panic {α β} (f : α → β) : (Out.panic : Out α).map f = .panic := rfl
@[simp] theorem bind_ok {α β} (f : α → Out β) (a : α) : (Out.ok a).bind f = f a := rfl
@[simp] theorem bind_err {α β} (f : α → Out β) (e : Err) : (Out.err e : Out α).bind f = .err e := rfl
@[simp] theorem bind_panic {α β} (f : α → Out β) : (Out.panic : Out α).bind f = .panic := rfl
end Out

/-- `ReadStatus<T>` (`/repo/brec/src/traits/read/mod.rs`). -/
inductive Status (α : Type) where
  | success (a : α)
  | notEnough (n : Nat)
  deriving DecidableEq, Repr

/-! ## Plain readers (`std::io::Read`)

A function that only uses `Read::read_exact` sees the source as the bytes that are left in it.
The state after the call is part of the result, also when the call fails. -/

/-- A reading function: result and the bytes left in the source. -/
structure P (α : Type) where
  run : Bytes → Out α × Bytes

namespace P

protected def pure {α} (a : α) : P α := ⟨fun s => (.ok a, s)⟩

protected def bind {α β} (x : P α) (f : α → P β) : P β := ⟨fun s =>
  match x.run s with
  | (.ok a, s') => (f a).run s'
  | (.err e, s') => (.err e, s')
  | (.panic, s') => (.panic, s')⟩

instance : Monad P where
  pure := P.pure
  bind := P.bind

/-- `return Err(e)`. -/
def fail {α} (e : Err) : P α := ⟨fun s => (.err e, s)⟩

def panic {α} : P α := ⟨fun s => (.panic, s)⟩

/-- A pure computation that may fail. -/
def lift {α} (o : Out α) : P α := ⟨fun s => (o, s)⟩

/-- `Read::read_exact` of `n` bytes. On a short source it fails with `UnexpectedEof`; std leaves the
amount read unspecified, the model consumes everything (`Cursor` and the default method do). -/
def readExact (n : Nat) : P Bytes := ⟨fun s =>
  if s.length < n then (.err .io, []) else (.ok (s.take n), s.drop n)⟩

@[simp] theorem pure_run {α} (a : α) (s : Bytes) : (Pure.pure a : P α).run s = (.ok a, s) := rfl
@[simp] theorem fail_run {α} (e : Err) (s : Bytes) : (fail e : P α).run s = (.err e, s) := rfl
@[simp] theorem panic_run {α} (s : Bytes) : (panic : P α).run s = (.panic, s) := rfl
@[simp] theorem lift_run {α} (o : Out α) (s : Bytes) : (lift o : P α).run s = (o, s) := rfl

theorem bind_run {α β} (x : P α) (f : α → P β) (s : Bytes) :
    (x >>= f).run s = match x.run s with
      | (.ok a, s') => (f a).run s'
      | (.err e, s') => (.err e, s')
      | (.panic, s') => (.panic, s') := rfl

theorem bind_ok {α β} {x : P α} {f : α → P β} {s s' : Bytes} {a : α} (h : x.run s = (.ok a, s')) :
    (x >>= f).run s = (f a).run s' := by rw [bind_run, h]

theorem bind_err {α β} {x : P α} {f : α → P β} {s s' : Bytes} {e : Err}
    (h : x.run s = (.err e, s')) : (x >>= f).run s = (.err e, s') := by rw [bind_run, h]

theorem readExact_append' {n : Nat} {a : Bytes} (h : a.length = n) (s : Bytes) :
    (readExact n).run (a ++ s) = (.ok a, s) := by
  subst h; simp [readExact]

theorem readExact_short {n : Nat} {s : Bytes} (h : s.length < n) :
    (readExact n).run s = (.err .io, []) := by simp [readExact, h]

theorem readExact_ok {n : Nat} {s : Bytes} (h : n ≤ s.length) :
    (readExact n).run s = (.ok (s.take n), s.drop n) := by
  simp [readExact, Nat.not_lt.mpr h]

/-- What is left is always a suffix of what was there. -/
def Suffix {α} (x : P α) : Prop := ∀ s, (x.run s).2 <:+ s

end P

/-- `vec![0u8; n]`: capacity overflow panics at `isize::MAX` (64-bit target). Running out of memory
below that limit is not modelled. -/
def allocZeroed (n : Nat) : Out Unit := if n < 2 ^ 63 then .ok () else .panic

/-! ## Seekable sources (`std::io::Read + Seek`): cursor or file -/

/-- A byte store with a position. `chk` says whether the build has overflow checks (debug) or wraps
(release): it only matters for `End(0) - stream_position` when the position is past the end. -/
structure Cur where
  data : Bytes
  pos : Nat
  chk : Bool
  deriving DecidableEq, Repr

namespace Cur

/-- Bytes from the position on. -/
def rest (c : Cur) : Bytes := c.data.drop c.pos

/-- Running a plain reader on a seekable source. -/
def run {α} (x : P α) (c : Cur) : Out α × Cur :=
  ((x.run c.rest).1, { c with pos := c.pos + (c.rest.length - (x.run c.rest).2.length) })

/-- `seek(End(0))? - start_pos` followed by `seek(Start(start_pos))`
(e.g. `/repo/brec/src/packet/header/read.rs:115-117`). -/
def remaining (c : Cur) : Out Nat :=
  if c.pos ≤ c.data.length then .ok (c.data.length - c.pos)
  else if c.chk then .panic
  else .ok (2 ^ 64 + c.data.length - c.pos)

def seek (c : Cur) (p : Nat) : Cur := { c with pos := p }

@[simp] theorem seek_data (c : Cur) (p : Nat) : (c.seek p).data = c.data := rfl
@[simp] theorem seek_pos (c : Cur) (p : Nat) : (c.seek p).pos = p := rfl

theorem remaining_ok {c : Cur} (h : c.pos ≤ c.data.length) :
    c.remaining = .ok c.rest.length := by simp [remaining, h, rest]

theorem run_ok {α} {x : P α} {c : Cur} {a : α} {s' : Bytes} (h : x.run c.rest = (.ok a, s')) :
    c.run x = (.ok a, { c with pos := c.pos + (c.rest.length - s'.length) }) := by
  simp [run, h]

/-- The usual situation: the reader takes exactly `m` and leaves `s`. -/
theorem run_take {α} {x : P α} {c : Cur} {a : α} {m s : Bytes} (hr : c.rest = m ++ s)
    (h : x.run (m ++ s) = (.ok a, s)) : c.run x = (.ok a, { c with pos := c.pos + m.length }) := by
  rw [← hr] at h
  rw [run_ok h, hr]
  simp

/-- Advance by `m`. -/
theorem rest_add {c : Cur} {m s : Bytes} (hr : c.rest = m ++ s) :
    ({ c with pos := c.pos + m.length } : Cur).rest = s := by
  simp only [rest] at *
  rw [← List.drop_drop, hr]
  simp

end Cur

/-! ## Buffered sources (`std::io::BufRead`)

A buffered source is the list of chunks it is going to deliver; any way of cutting a byte stream
into chunks is such a list. Empty chunks are skipped (an empty `fill_buf` means end of stream).
A `Cursor`/`&[u8]` used as `BufRead` is a single chunk. -/

abbrev Chunks := List Bytes

namespace Chunks

/-- `BufRead::fill_buf`. -/
def fill : Chunks → Bytes
  | [] => []
  | [] :: cs => fill cs
  | c :: _ => c

/-- Drop `n` bytes: what `BufRead::consume(n)` (within one chunk) and `read_exact` (across chunks) do. -/
def skip : Nat → Chunks → Chunks
  | _, [] => []
  | n, c :: cs => if n < c.length then c.drop n :: cs else skip (n - c.length) cs

/-- `BufRead::consume(n)`: at most the current buffer (`Cursor`, `BufReader`, `&[u8]` saturate or
panic beyond it; the callers modelled here never go beyond except where noted). -/
def consume (n : Nat) (cs : Chunks) : Chunks := skip (min n (fill cs).length) cs

/-- Running a plain reader on a buffered source. -/
def run {α} (x : P α) (cs : Chunks) : Out α × Chunks :=
  ((x.run cs.flatten).1, skip (cs.flatten.length - (x.run cs.flatten).2.length) cs)

@[simp] theorem fill_nil : fill [] = [] := rfl
@[simp] theorem fill_nil_cons (cs : Chunks) : fill ([] :: cs) = fill cs := rfl
theorem fill_cons {c : Bytes} (h : c ≠ []) (cs : Chunks) : fill (c :: cs) = c := by
  cases c with
  | nil => exact absurd rfl h
  | cons a c => rfl
@[simp] theorem fill_single (c : Bytes) : fill [c] = c := by cases c <;> rfl

theorem flatten_skip (n : Nat) (cs : Chunks) : (skip n cs).flatten = cs.flatten.drop n := by
  induction cs generalizing n with
  | nil => simp [skip]
  | cons c cs ih =>
    simp only [skip, List.flatten_cons]
    split
    · rename_i h
      rw [List.flatten_cons, List.drop_append_of_le_length (by omega)]
    · rename_i h
      rw [ih, List.drop_append]
      simp [List.drop_eq_nil_of_le (Nat.not_lt.mp h)]

theorem fill_prefix (cs : Chunks) : fill cs <+: cs.flatten := by
  induction cs with
  | nil => simp
  | cons c cs ih =>
    cases c with
    | nil => simpa using ih
    | cons a c => simp [fill]

theorem fill_eq_nil {cs : Chunks} (h : fill cs = []) : cs.flatten = [] := by
  induction cs with
  | nil => rfl
  | cons c cs ih =>
    cases c with
    | nil => simpa using ih h
    | cons a c => simp [fill] at h

theorem flatten_consume {n : Nat} {cs : Chunks} (h : n ≤ (fill cs).length) :
    (consume n cs).flatten = cs.flatten.drop n := by
  rw [consume, flatten_skip, Nat.min_eq_left h]

theorem skip_single_flatten (n : Nat) (c : Bytes) : (skip n [c]).flatten = c.drop n := by
  rw [flatten_skip]; simp

/-- The current buffer after dropping `n` of its bytes (more than `n` are there). -/
theorem fill_skip {n : Nat} {cs : Chunks} (h : n < (fill cs).length) :
    fill (skip n cs) = (fill cs).drop n := by
  induction cs with
  | nil => simp at h
  | cons c cs ih =>
    cases c with
    | nil => simpa [skip] using ih (by simpa using h)
    | cons a c =>
      have h' : n < (a :: c).length := h
      rw [skip, if_pos h']
      have hne : (a :: c).drop n ≠ [] := by
        intro e
        have := congrArg List.length e
        simp only [List.length_drop, List.length_nil] at this
        omega
      rw [fill_cons hne]; rfl

theorem run_take {α} {x : P α} {cs : Chunks} {a : α} {m s : Bytes} (hr : cs.flatten = m ++ s)
    (h : x.run (m ++ s) = (.ok a, s)) : run x cs = (.ok a, skip m.length cs) := by
  simp [run, hr, h]

end Chunks

end Brec
