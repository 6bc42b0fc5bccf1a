import Verif.PayloadHeader
import Verif.Utf8
/-!
# Payloads

Model of the payload traits (`/repo/brec/src/payload/mod.rs`, `/repo/brec/src/traits/{props,read,write}/mod.rs`),
the default payloads (`/repo/brec/src/payload/defaults/*.rs`) and the generated `Payload` enum
(`/repo/brec_macros/src/collector/payloads/*.rs`).
-/

namespace Brec

/-- A fallible user function: `None` stands for any `io::Error`. -/
def ioOut {α} : Option α → Out α
  | some a => .ok a
  | none => .err .io

/-- A payload type: the trait implementations a user (or the `#[payload]` macro) supplies.
`encodeRef` is `PayloadEncodeReferred::encode`, `crcFn` an override of `PayloadCrc::crc` (`none`: default
method), `beforeEncode`/`afterDecode` are `PayloadHooks` (`/repo/brec/src/payload/mod.rs:16-74`,
`/repo/brec/src/traits/props/mod.rs:29-108`). -/
structure PayloadTy where
  Val : Type
  ssig : ByteBlock
  sig : Val → ByteBlock
  encode : Val → Option Bytes
  encodeRef : Val → Option (Option Bytes)
  decode : Bytes → Option Val
  size : Val → Option Nat
  crcFn : Option (Val → Option ByteBlock)
  crcSize : Nat
  beforeEncode : Val → Option Val := some
  afterDecode : Val → Option Val := some

namespace PayloadTy

/-- `if let Some(bytes) = PayloadEncodeReferred::encode(self)? { bytes } else { PayloadEncode::encode(self)? }`
(`traits/props/mod.rs:43-47`, `traits/write/mod.rs:92-96,104-108,130-134`). -/
def body (T : PayloadTy) (v : T.Val) : Out Bytes :=
  (ioOut (T.encodeRef v)).bind fun r =>
    match r with
    | some b => .ok b
    | none => ioOut (T.encode v)

/-- `ByteBlock::Len4(crc32(bytes).to_le_bytes())`. -/
def crcBlock (bytes : Bytes) : ByteBlock := .len4 ⟨crcBytes bytes, crcBytes_length bytes⟩

/-- `PayloadCrc::crc` (`traits/props/mod.rs:41-49`), possibly overridden. -/
def crc (T : PayloadTy) (v : T.Val) : Out ByteBlock :=
  match T.crcFn with
  | some f => ioOut (f v)
  | none => (T.body v).map crcBlock

/-- `PayloadHeader::new` (`payload/header/mod.rs:46-59`). -/
def header (T : PayloadTy) (v : T.Val) : Out PayloadHeader :=
  (ioOut (T.size v)).bind fun len =>
    if len > 2 ^ 32 - 1 then .err .io
    else (T.crc v).map fun crc => { sig := T.sig v, crc, len }

/-- `PayloadHeader::ssize` (`payload/header/mod.rs:84-88`) with `T::crc_size()`. -/
def hsize (T : PayloadTy) (v : T.Val) : Nat := 1 + (T.sig v).size + 1 + T.crcSize + 4

/-- `ReadPayloadFrom::read` (`traits/read/mod.rs:68-83`). (`vec![0; len]` with `len : u32` cannot
overflow a 64-bit capacity.) The hook `after_decode` is not called by the code. -/
def read (T : PayloadTy) (h : PayloadHeader) : P T.Val :=
  if h.sig ≠ T.ssig then P.fail .sigDismatch
  else do
    let bytes ← P.readExact h.len
    let value ← P.lift (ioOut (T.decode bytes))
    let crc ← P.lift (T.crc value)
    if h.crc ≠ crc then P.fail .crcDismatch else pure value

/-- `TryReadPayloadFrom::try_read` (`traits/read/mod.rs:111-122`). -/
def tryRead (T : PayloadTy) (h : PayloadHeader) (c : Cur) : Out (Status T.Val) × Cur :=
  match c.remaining with
  | .err e => (.err e, c)
  | .panic => (.panic, c)
  | .ok len =>
    if len < h.len then (.ok (.notEnough (h.len - len)), c)
    else (((c.run (T.read h)).1).map .success, (c.run (T.read h)).2)

/-- `TryReadPayloadFromBuffered::try_read` (`traits/read/mod.rs:153-158`). -/
def tryBuf (T : PayloadTy) (h : PayloadHeader) (cs : Chunks) : Out (Status T.Val) × Chunks :=
  (((Chunks.run (T.read h) cs).1).map .success, (Chunks.run (T.read h) cs).2)

/-- The two buffers `WritePayloadWithHeaderTo::write_all` hands to the sink
(`traits/write/mod.rs:101-109`), and the two slices of `WriteVectoredPayloadWithHeaderTo::slices`
(`:126-136`). The hook `before_encode` is not called by the code. -/
def parts (T : PayloadTy) (v : T.Val) : Out (Bytes × Bytes) :=
  (T.header v).bind fun h => (T.body v).map fun b => (h.asVec, b)

/-- All bytes written by `write_all`. -/
def writeAll (T : PayloadTy) (v : T.Val) : Out Bytes := (T.parts v).map fun p => p.1 ++ p.2

/-- What a payload type owes to a value: the trait implementations are consistent with each other and
decoding inverts encoding. `x` is the encoded body, `c` the checksum. -/
structure Good (T : PayloadTy) (v : T.Val) (x : Bytes) (c : ByteBlock) : Prop where
  sig_eq : T.sig v = T.ssig
  body_eq : T.body v = .ok x
  size_eq : T.size v = some x.length
  len_le : x.length ≤ 2 ^ 32 - 1
  crc_eq : T.crc v = .ok c
  decode_eq : T.decode x = some v

end PayloadTy

/-! ## Default payloads -/

/-- The ASCII bytes of a literal. -/
def ascii (s : String) : Bytes := s.toList.map fun c => BitVec.ofNat 8 c.toNat

/-- `Vec<u8>` (`payload/defaults/vec_u8.rs`). -/
@[reducible] def bytesTy : PayloadTy where
  Val := Bytes
  ssig := PayloadTy.crcBlock (ascii "Vec<u8>")
  sig _ := PayloadTy.crcBlock (ascii "Vec<u8>")
  encode v := some v
  encodeRef v := some (some v)
  decode b := some b
  size v := some v.length
  crcFn := none
  crcSize := 4

/-- `String` (`payload/defaults/string.rs`). -/
@[reducible] def stringTy : PayloadTy where
  Val := Utf8
  ssig := PayloadTy.crcBlock (ascii "String")
  sig _ := PayloadTy.crcBlock (ascii "String")
  encode v := some v.1
  encodeRef v := some (some v.1)
  decode b := some (Utf8.ofLossy b)
  size v := some v.1.length
  crcFn := none
  crcSize := 4

theorem bytesTy_good (v : Bytes) (h : v.length ≤ 2 ^ 32 - 1) :
    bytesTy.Good v v (PayloadTy.crcBlock v) where
  sig_eq := rfl
  body_eq := rfl
  size_eq := rfl
  len_le := h
  crc_eq := rfl
  decode_eq := rfl

theorem stringTy_good (v : Utf8) (h : v.1.length ≤ 2 ^ 32 - 1) :
    stringTy.Good v v.1 (PayloadTy.crcBlock v.1) where
  sig_eq := rfl
  body_eq := rfl
  size_eq := rfl
  len_le := h
  crc_eq := rfl
  decode_eq := congrArg some (Utf8.ofLossy_val v)

/-- A payload as the `#[payload(bincode)]` macro generates it (`codegen/base/payload.rs:38-66`,
`codegen/props/payload.rs`) from a serializer; `noCrc` is the attribute `no_crc`. -/
@[reducible] def bincodeTy (Val : Type) (sig : Arr 4) (ser : Val → Option Bytes) (serSize : Val → Option Nat)
    (de : Bytes → Option Val) (noCrc : Bool) : PayloadTy where
  Val := Val
  ssig := .len4 sig
  sig _ := .len4 sig
  encode := ser
  encodeRef _ := some none
  decode := de
  size := serSize
  crcFn := if noCrc then some fun _ => some (.len4 ⟨[0, 0, 0, 0], rfl⟩) else none
  crcSize := 4

/-! ## The generated enum -/

/-- Values of `enum Payload { A(A), B(B), …, Bytes(Vec<u8>), String(String) }` for a list of variants. -/
@[reducible] def PVal : List PayloadTy → Type
  | [] => Empty
  | T :: Ts => T.Val ⊕ PVal Ts

namespace PEnum

/-- Dispatch of a property to the variant (`collector/payloads/props.rs`). -/
def dispatch {α : Type} (f : (T : PayloadTy) → T.Val → α) : (vs : List PayloadTy) → PVal vs → α
  | [], v => nomatch v
  | T :: _, .inl v => f T v
  | _ :: Ts, .inr v => dispatch f Ts v

/-- `PayloadSize::size` (`collector/payloads/props.rs:82-99`). -/
def size (vs : List PayloadTy) (v : PVal vs) : Out Nat := dispatch (fun T v => ioOut (T.size v)) vs v

/-- `PayloadSignature::sig` (`collector/payloads/props.rs:46-64`). -/
def sig (vs : List PayloadTy) (v : PVal vs) : ByteBlock := dispatch (fun T v => T.sig v) vs v

/-- `PayloadHeader::ssize` of the enum: `PayloadCrc for Payload` (`collector/payloads/props.rs:66-84`)
does not define `crc_size`, so the default 4 is used whatever the variant says. -/
def hsize (vs : List PayloadTy) (v : PVal vs) : Nat := 1 + (sig vs v).size + 1 + 4 + 4

/-- `WriteMutTo::write_all`/`WriteVectoredMutTo::slices` of the enum: the variant's
(`collector/payloads/write.rs`). -/
def parts (vs : List PayloadTy) (v : PVal vs) : Out (Bytes × Bytes) := dispatch PayloadTy.parts vs v

/-- `ExtractPayloadFrom::read` (`collector/payloads/read.rs:6-52`): variants in order, going on only on
`SignatureDismatch`. -/
def read (h : PayloadHeader) : (vs : List PayloadTy) → P (PVal vs)
  | [] => P.fail .sigDismatch
  | T :: Ts => ⟨fun s =>
    match (T.read h).run s with
    | (.ok v, s') => (.ok (.inl v), s')
    | (.err .sigDismatch, s') => (((read h Ts).run s').1.map .inr, ((read h Ts).run s').2)
    | (.err e, s') => (.err e, s')
    | (.panic, s') => (.panic, s')⟩

/-- `TryExtractPayloadFrom::try_read` (`collector/payloads/read.rs:54-112`). -/
def tryRead (h : PayloadHeader) : (vs : List PayloadTy) → Cur → Out (Status (PVal vs)) × Cur
  | [], c => (.err .sigDismatch, c)
  | T :: Ts, c =>
    match T.tryRead h c with
    | (.ok (.success v), c') => (.ok (.success (.inl v)), c')
    | (.ok (.notEnough n), c') => (.ok (.notEnough n), c')
    | (.err .sigDismatch, c') =>
      (match (tryRead h Ts c').1 with
        | .ok (.success v) => .ok (.success (.inr v))
        | .ok (.notEnough n) => .ok (.notEnough n)
        | .err e => .err e
        | .panic => .panic, (tryRead h Ts c').2)
    | (.err e, c') => (.err e, c')
    | (.panic, c') => (.panic, c')

/-- `TryExtractPayloadFromBuffered::try_read` (`collector/payloads/read.rs:114-172`). -/
def tryBuf (h : PayloadHeader) : (vs : List PayloadTy) → Chunks → Out (Status (PVal vs)) × Chunks
  | [], c => (.err .sigDismatch, c)
  | T :: Ts, c =>
    match T.tryBuf h c with
    | (.ok (.success v), c') => (.ok (.success (.inl v)), c')
    | (.ok (.notEnough n), c') => (.ok (.notEnough n), c')
    | (.err .sigDismatch, c') =>
      (match (tryBuf h Ts c').1 with
        | .ok (.success v) => .ok (.success (.inr v))
        | .ok (.notEnough n) => .ok (.notEnough n)
        | .err e => .err e
        | .panic => .panic, (tryBuf h Ts c').2)
    | (.err e, c') => (.err e, c')
    | (.panic, c') => (.panic, c')

end PEnum

/-! ## The interface the packet code uses -/

/-- What the packet code needs from `P: PayloadDef<Inner>`, `Inner: PayloadInnerDef`
(`packet/mod.rs:56-83`). -/
structure PayloadOps where
  V : Type
  size : V → Out Nat
  hsize : V → Nat
  parts : V → Out (Bytes × Bytes)
  read : PayloadHeader → P V
  tryRead : PayloadHeader → Cur → Out (Status V) × Cur
  tryBuf : PayloadHeader → Chunks → Out (Status V) × Chunks

/-- The generated enum over user variants `vs` (then `Bytes`, then `String`). -/
def PEnum.ops (vs : List PayloadTy) : PayloadOps where
  V := PVal (vs ++ [bytesTy, stringTy])
  size := PEnum.size _
  hsize := PEnum.hsize _
  parts := PEnum.parts _
  read h := PEnum.read h _
  tryRead h := PEnum.tryRead h _
  tryBuf h := PEnum.tryBuf h _

/-- What the packet code relies on for one payload value: header `h`, body `x`. -/
structure PayloadOps.Good (O : PayloadOps) (v : O.V) (h : PayloadHeader) (x : Bytes) : Prop where
  parts_eq : O.parts v = .ok (h.asVec, x)
  size_eq : O.size v = .ok x.length
  hsize_eq : O.hsize v = h.size
  len_eq : h.len = x.length
  len_lt : h.len < 2 ^ 32
  read_eq : ∀ s, (O.read h).run (x ++ s) = (.ok v, s)
  tryRead_eq : ∀ (c : Cur) s, c.pos ≤ c.data.length → c.rest = x ++ s →
    O.tryRead h c = (.ok (.success v), { c with pos := c.pos + x.length })
  tryBuf_eq : ∀ (cs : Chunks) s, cs.flatten = x ++ s →
    O.tryBuf h cs = (.ok (.success v), Chunks.skip x.length cs)
  tryRead_short : ∀ c : Cur, c.pos ≤ c.data.length → c.rest.length < x.length →
    O.tryRead h c = (.ok (.notEnough (x.length - c.rest.length)), c)

end Brec
