import Verif.Block
/-!
# The `unsafe` copies of the generated writers

`Verif.Block` has one function for the checked and for the raw copies into the buffer of a block (`copyAt`). Here they are told apart: a checked copy with a wrong range
panics, a raw one is undefined behaviour.
-/

namespace Brec

/-- The end of a piece of code that uses raw pointers. -/
inductive Exec (α : Type) where
  | ok (a : α)
  | panic
  /-- Undefined behaviour. -/
  | ub
  deriving DecidableEq, Repr

/-- A copy into `buffer`. -/
inductive Copy where
  /-- `buffer[off..off + n].copy_from_slice(src)` -/
  | checked (off n : Nat) (src : Bytes)
  /-- `copy_nonoverlapping(src.as_ptr(), buffer.as_mut_ptr().add(off), n)` -/
  | raw (off n : Nat) (src : Bytes)
  deriving DecidableEq, Repr

/-- What happens to a buffer. `copy_from_slice` panics unless the range lies in the buffer and has the length of the source; `copy_nonoverlapping` needs `n` bytes to be
readable at the source and writable at the destination, and the two not to overlap (they do not: the buffer is a local array, the source a field or another array). -/
def Copy.run : Copy → Bytes → Exec Bytes
  | checked off n src, buf =>
    if off + n ≤ buf.length ∧ src.length = n then .ok (buf.take off ++ src ++ buf.drop (off + n)) else .panic
  | raw off n src, buf =>
    if off + n ≤ buf.length ∧ n ≤ src.length then .ok (buf.take off ++ src.take n ++ buf.drop (off + n)) else .ub

/-- One after the other. -/
def runCopies : List Copy → Bytes → Exec Bytes
  | [], buf => .ok buf
  | c :: cs, buf =>
    match c.run buf with
    | .ok buf => runCopies cs buf
    | .panic => .panic
    | .ub => .ub

/-- `#(#buf_fillers)*` (`codegen/write/block.rs:8-44`): raw for blobs, checked for all others. `#size` is a number in the generated code, computed from the declared type
(`entities/ty/mod.rs:26-44`). -/
def fillCopies : (ts : List FTy) → Vals ts → Nat → List Copy
  | [], _, _ => []
  | t :: ts, (v, vs), off =>
    (if t.isBlob then Copy.raw off t.size (t.toBytes v) else Copy.checked off t.size (t.toBytes v)) :: fillCopies ts vs (off + t.size)

/-- The copies of `write` and `write_all` (`codegen/write/block.rs:50-81`): the signature, the fields, and the checksum, which is copied by a raw pointer too. -/
def BlockTy.copies (b : BlockTy) (v : Vals b.fields) : List Copy :=
  Copy.checked 0 4 b.sig :: (fillCopies b.fields v 4 ++ [Copy.raw (4 + fieldsSize b.fields) 4 (b.crc v)])

/-- The buffer, which begins as `[0u8; #size]`. -/
def BlockTy.fill (b : BlockTy) (v : Vals b.fields) : Exec Bytes := runCopies (b.copies v) (List.replicate b.ssize 0)

end Brec
