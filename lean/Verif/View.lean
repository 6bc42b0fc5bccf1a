import Verif.Block
/-!
# Zero-copy views as pointers

`Verif.Block` shows a view by the contents of the bytes it refers to. Here the references are kept: a view holds pointers into the buffer it was read from, and what it
shows depends on the memory at the time it is looked at. Lifetimes are modelled as far as the signature of `read_from_slice` mentions them.
-/

namespace Brec

/-! ## Memory -/

/-- Memory at one moment: the buffers of the program by number, `none` if freed. Moving a buffer to another place is freeing it and making a new one. -/
abbrev Mem := Nat → Option Bytes

/-- A slice `&buf[off..off + len]`. -/
structure Span where
  buf : Nat
  off : Nat
  len : Nat
  deriving DecidableEq, Repr

/-- What a reference points to: a constant of the program, or a part of a buffer. -/
inductive Ptr where
  | static (x : Bytes)
  | span (s : Span)
  deriving DecidableEq, Repr

/-- Looking at the bytes. `none`: the memory is gone (undefined behaviour). -/
def Span.load (m : Mem) (s : Span) : Option Bytes :=
  match m s.buf with
  | none => none
  | some x => if s.off + s.len ≤ x.length then some (slice x s.off s.len) else none

def Ptr.load (m : Mem) : Ptr → Option Bytes
  | static x => some x
  | span s => s.load m

/-! ## Views -/

/-- The type of a field in the view: a reference for a blob, the value itself for all others (`codegen/base/block.rs:11-20`). -/
@[reducible] def FTy.Held : FTy → Type
  | num n => BitVec (8 * n.size)
  | bool => Bool
  | blob _ => Ptr
  | linked e => Fin e.card

@[reducible] def Helds : List FTy → Type
  | [] => Unit
  | t :: ts => t.Held × Helds ts

/-- `#vis struct #referred_name<'a>` (`codegen/base/block.rs:47-53`). `__sig` and `__crc` are blobs of four bytes too. -/
structure BlockView (ts : List FTy) where
  sig : Ptr
  held : Helds ts
  crc : Ptr

/-- `FromBytes for Ty` (`tokenized/block/from_bytes/ty/mod.rs:8-43`) on `src[from..to]`, where `src` is the slice `p`: a blob is borrowed, all others are copied. -/
def FTy.hold (p : Span) (off : Nat) : (t : FTy) → Bytes → Out t.Held
  | num n, b => (FTy.num n).ofSlice b
  | bool, b => FTy.bool.ofSlice b
  | blob n, b => (toArr n b).map fun _ => .span ⟨p.buf, p.off + off, n⟩
  | linked e, b => (FTy.linked e).ofSlice b

/-- The field part of `read_from_slice` (`codegen/read/block.rs:62-83`). -/
def Helds.ofSlice (p : Span) : (ts : List FTy) → Bytes → Nat → Out (Helds ts × Nat)
  | [], _, off => .ok ((), off)
  | t :: ts, buf, off =>
    (cut buf off (off + t.size)).bind fun s =>
    (t.hold p off s).bind fun v =>
    (Helds.ofSlice p ts buf (off + t.size)).map fun r => ((v, r.1), r.2)

/-- The value of a field as it is found now. -/
def FTy.load (m : Mem) : (t : FTy) → t.Held → Option t.Val
  | num _, v => some v
  | bool, v => some v
  | blob n, p => (p.load m).bind fun x => if h : x.length = n then some ⟨x, h⟩ else none
  | linked _, v => some v

/-- `From<#referred_name<'a>> for #block_name` (`codegen/base/block.rs:55-61`): blobs are copied from where they are (`*block.#field`). -/
def Helds.load (m : Mem) : (ts : List FTy) → Helds ts → Option (Vals ts)
  | [], _ => some ()
  | t :: ts, (v, vs) =>
    match t.load m v, Helds.load m ts vs with
    | some v, some vs => some (v, vs)
    | _, _ => none

/-- The block made of a view. -/
def BlockView.into (m : Mem) {ts : List FTy} (w : BlockView ts) : Option (Vals ts) := Helds.load m ts w.held

/-- Everything that can be seen of a view, as by `Debug` (`codegen/base/block.rs:48`). -/
def BlockView.load (m : Mem) {ts : List FTy} (w : BlockView ts) : Option (Referred ts) :=
  match w.sig.load m, Helds.load m ts w.held, w.crc.load m with
  | some sig, some vals, some crc => some ⟨sig, vals, crc⟩
  | _, _, _ => none

/-- `read_from_slice(buf, skip_sig)` (`codegen/read/block.rs:88-123`) on the slice `p`. The result is first typed with the lifetime of the slice and then given the
lifetime of `Self` by `std::mem::transmute` (`:120`), which does nothing to the pointers. -/
def BlockTy.view (b : BlockTy) (m : Mem) (p : Span) (skipSig : Bool) : Out (BlockView b.fields) :=
  match p.load m with
  | none => .panic
  | some buf =>
    if ¬ skipSig ∧ buf.length < 4 then .err (.notEnoughSig buf.length 4)
    else if ¬ skipSig ∧ buf.take 4 ≠ b.sig then .err .sigDismatch
    else
      let required := if skipSig then b.ssize - 4 else b.ssize
      if buf.length < required then .err (.notEnoughData required)
      else
        (if skipSig then .ok (Ptr.static b.sig) else (cut buf 0 4).map fun _ => .span ⟨p.buf, p.off, 4⟩).bind fun sig =>
        (Helds.ofSlice p b.fields buf 4).bind fun r =>
        (cut buf r.2 (r.2 + 4)).bind fun crc =>
        match Helds.load m b.fields r.1 with
        | none => .panic
        | some v => if b.crc v ≠ crc then .err .crcDismatch else .ok ⟨sig, r.1, .span ⟨p.buf, p.off + r.2, 4⟩⟩

/-- A value of `BlockReferred<'a>` (`collector/blocks/enums.rs:29-43`). -/
def EnumView := (b : BlockTy) × BlockView b.fields

/-- `ReadBlockFromSlice for BlockReferred` (`collector/blocks/read.rs:134-161`). -/
def enumView (skipSig : Bool) (m : Mem) (p : Span) : List BlockTy → Out EnumView
  | [] => .err .sigDismatch
  | b :: bs =>
    match b.view m p skipSig with
    | .ok w => .ok ⟨b, w⟩
    | .err .sigDismatch => enumView skipSig m p bs
    | .err e => .err e
    | .panic => .panic

/-- `referred_into` (`collector/blocks/props.rs:44-59`). -/
def EnumView.into (m : Mem) (w : EnumView) : Option BlockVal := (w.2.into m).map fun v => ⟨w.1, v⟩

/-! ## Lifetimes -/

/-- A lifetime, by the moment it ends; `none` is `'static`. The regions of rustc are sets of program points; here a run of the program is looked at, and a lifetime
lasts from the beginning of what is looked at to its end. -/
abbrev Life := Option Nat

/-- Something of this lifetime may be used at this moment. -/
def Life.live : Life → Nat → Prop
  | none, _ => True
  | some e, t => t < e

/-- `'a: 'b`. -/
def Life.outlives (a b : Life) : Prop := ∀ t, b.live t → a.live t

/-- What rustc asks of a call `<X<'a> as ReadBlockFromSlice>::read_from_slice(buf: &'b [u8], _)`: `where Self: 'b` (`traits/read/mod.rs:37-39`,
`codegen/read/block.rs:88-91`, `collector/blocks/read.rs:152-155`), that is `'a: 'b`. The caller chooses `'a`: in the aliases of `generate!` it is the parameter of
`Rules<'a>`, `Rule<'a>`, `Reader<'a, S>` and `PacketBufReader<'a, R>` (`collector/packet.rs:19-33`). -/
def sliceCall (a b : Life) : Prop := a.outlives b

/-- What rustc sees to: as long as a buffer is borrowed it is neither changed nor freed. -/
def Borrowed (m : Nat → Mem) (buf : Nat) (t0 : Nat) (b : Life) : Prop := ∀ t, t0 ≤ t → b.live t → m t buf = m t0 buf

end Brec
