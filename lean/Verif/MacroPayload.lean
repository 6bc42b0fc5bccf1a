import Verif.Macro
/-!
# `#[payload(…)]` and `generate!(…)`

What the two macros accept and which code they emit, as far as it decides whether the user's crate compiles: the traits implemented for a
payload type, and the variants, the match arms and the derives of the generated `enum Payload`.
-/

namespace Brec

/-! ## `#[payload(…)]` -/

/-- `PayloadAttr` (`entities/payload/attr/mod.rs:65-74`). -/
inductive PayloadAttr
  | path (segs : List Bytes)
  | noDefaultSig
  | hooks
  | noAutoCrc
  | noCrc
  | bincode
  deriving DecidableEq

/-- The single identifiers that are recognised (`parsing/payload/attr/mod.rs:37-49`). -/
def payloadWord (s : Bytes) : Option PayloadAttr :=
  if s = ascii "no_default_sig" then some .noDefaultSig
  else if s = ascii "bincode" then some .bincode
  else if s = ascii "hooks" then some .hooks
  else if s = ascii "no_auto_crc" then some .noAutoCrc
  else if s = ascii "no_crc" then some .noCrc
  else none

/-- `Parse for PayloadAttrs` (`parsing/payload/attr/mod.rs:10-58`); `none` is a compile error. A key that is not an identifier and a
value of `path` that is neither a path nor a string are `AttrExpr.other` here. -/
def parsePayloadAttrs : List AttrExpr → Option (List PayloadAttr)
  | [] => some []
  | .assign key p :: es => if key = ascii "path" then (parsePayloadAttrs es).map (.path p :: ·) else none
  | .path [s] :: es =>
    match payloadWord s with
    | some a => (parsePayloadAttrs es).map (a :: ·)
    | none => parsePayloadAttrs es
  | .path p :: es => (parsePayloadAttrs es).map (.path p :: ·)
  | .other :: _ => none

/-- The first `Path` attribute (`entities/payload/attr/mod.rs:11-20`). -/
def payloadPath : List PayloadAttr → List Bytes
  | [] => []
  | .path p :: _ => p
  | _ :: as => payloadPath as

/-- `no_default_sig`, `hooks`, `is_no_auto_crc`, `is_no_crc`, `is_bincode` (`entities/payload/attr/mod.rs:38-62`). -/
def attrHas (a : PayloadAttr) (as : List PayloadAttr) : Bool := as.any fun x => x = a

/-- `Payload::new` without the derives (`parsing/payload/mod.rs:26`). -/
def PayloadDecl.ofAttrs (name : Bytes) (as : List PayloadAttr) : PayloadDecl := ⟨name, payloadPath as⟩

/-- The traits of a payload type. -/
inductive PTrait
  | hooks | encode | encodeReferred | decode | sig | staticSig | crc | size
  | read | tryRead | tryReadBuffered | write | writeVectored
  deriving DecidableEq

/-- The traits a type must also implement for the compiler to accept an `impl` of the trait: supertraits and bounds on `T`
(`payload/mod.rs:35`, `:64`, `traits/props/mod.rs:31-34`, `traits/read/mod.rs:59-61`, `:97-104`, `:139-146`, `traits/write/mod.rs:75-83`, `:115-118`). -/
def PTrait.bounds : PTrait → List PTrait
  | hooks => []
  | encode => [hooks]
  | encodeReferred => []
  | decode => [hooks]
  | sig => []
  | staticSig => []
  | crc => [encode, hooks, encodeReferred]
  | size => []
  | read => [decode, hooks, staticSig, crc]
  | tryRead => [decode, hooks, staticSig, crc, read]
  | tryReadBuffered => [decode, hooks, staticSig, crc, read]
  | write => [encode, hooks, encodeReferred, sig, crc, size]
  | writeVectored => [encode, encodeReferred, sig, crc, size]

/-- `Base for Payload` (`codegen/base/payload.rs:5-75`). -/
def genBase (as : List PayloadAttr) : List PTrait :=
  (if attrHas .noDefaultSig as then [] else [.sig, .staticSig]) ++ (if attrHas .hooks as then [] else [.hooks]) ++
    (if attrHas .bincode as then [.encode, .encodeReferred, .decode] else [])

/-- The two bodies of the generated `impl PayloadCrc` (`codegen/props/payload.rs:11-23`): the default methods, or zeros. -/
inductive CrcImpl
  | provided
  | zeros
  deriving DecidableEq

/-- `Crc for Payload` (`codegen/props/payload.rs:5-30`). -/
def genCrc (as : List PayloadAttr) : Option CrcImpl :=
  if attrHas .bincode as && !attrHas .noAutoCrc as && !attrHas .noCrc as then some .provided
  else if attrHas .bincode as && attrHas .noCrc as then some .zeros
  else none

/-- `Size for Payload` (`codegen/props/payload.rs:31-47`). -/
def genSize (as : List PayloadAttr) : List PTrait := if attrHas .bincode as then [.size] else []

/-- The traits `#[payload]` implements for the type (`Gen for Payload`, `codegen/base/payload.rs:71-92`, with `codegen/read/payload.rs` and
`codegen/write/payload.rs`). -/
def genPayload (as : List PayloadAttr) : List PTrait :=
  genBase as ++ (if (genCrc as).isSome then [.crc] else []) ++ genSize as ++ [.read, .tryRead, .tryReadBuffered, .write, .writeVectored]

/-- The traits the code of `generate!` uses for a payload type (`collector/payloads/props.rs`, `read.rs`, `write.rs`). -/
def enumUses : List PTrait :=
  [.encode, .encodeReferred, .sig, .crc, .size, .read, .tryRead, .tryReadBuffered, .write, .writeVectored]

/-- Whether rustc accepts the traits implemented for a type, some by the macro and the others by hand: no trait is implemented twice
(E0119), and what an `impl` or `generate!` requires is there (E0277). -/
def Accepted (macros byHand : List PTrait) : Prop :=
  (macros ++ byHand).Nodup ∧ (∀ t ∈ macros ++ byHand, ∀ u ∈ t.bounds, u ∈ macros ++ byHand) ∧ ∀ t ∈ enumUses, t ∈ macros ++ byHand

instance (m h : List PTrait) : Decidable (Accepted m h) := by unfold Accepted; infer_instance

/-- The four bytes in the signature of a declaration (`entities/payload/mod.rs:26-31`). -/
def PayloadDecl.sigArr (d : PayloadDecl) : Arr 4 := ⟨crcBytes d.fullname, crcBytes_length _⟩

/-- The payload type made by `#[payload(bincode, …)]` without `no_default_sig` and `hooks`; `crc` is the `impl PayloadCrc` written by hand, used
if the macro makes none (`codegen/base/payload.rs`, `codegen/props/payload.rs`). -/
@[reducible] def madeTy (name : Bytes) (as : List PayloadAttr) (Val : Type) (ser : Val → Option Bytes) (serSize : Val → Option Nat)
    (de : Bytes → Option Val) (crc : Val → Option ByteBlock) : PayloadTy :=
  { bincodeTy Val (PayloadDecl.ofAttrs name as).sigArr ser serSize de false with
    crcFn := match genCrc as with
      | some .provided => none
      | some .zeros => some fun _ => some (.len4 ⟨[0, 0, 0, 0], rfl⟩)
      | none => some crc }

/-! ## `generate!(…)` -/

/-- One item of `generate!(…)` as `syn` parses it: `key = value` (the value of a string literal, or `none` for another value), a bare path, or something
else (including a key that is not an identifier). -/
inductive CfgExpr
  | assign (key : Bytes) (str : Option Bytes)
  | path (segs : List Bytes)
  | other
  deriving DecidableEq

/-- `Setting` (`generate/config.rs:6-11`). -/
inductive Setting
  | noDefaultPayload
  | payloadsDerive (s : Bytes)
  deriving DecidableEq

/-- `Parse for Config` (`generate/parser.rs:8-53`); `none` is a compile error. -/
def parseConfig : List CfgExpr → Option (List Setting)
  | [] => some []
  | .assign key (some s) :: es => if key = ascii "payloads_derive" then (parseConfig es).map (.payloadsDerive s :: ·) else none
  | .assign _ none :: _ => none
  | .path p :: es => if p = [ascii "no_default_payload"] then (parseConfig es).map (.noDefaultPayload :: ·) else none
  | .other :: _ => none

/-- `Config::is_no_default_payloads` (`generate/config.rs:16-20`). -/
def isNoDefault (cfg : List Setting) : Bool := cfg.any fun x => x = .noDefaultPayload

/-- `str::split(',')`. -/
def splitComma : Bytes → List Bytes
  | [] => [[]]
  | c :: s =>
    if c = 0x2c then [] :: splitComma s
    else match splitComma s with
      | [] => [[c]]
      | p :: ps => (c :: p) :: ps

/-- The blanks of ASCII; `str::trim` also removes the blanks of Unicode (simplified). -/
def isBlank (c : Byte) : Bool := c = 0x20 || (9 ≤ c.toNat && c.toNat ≤ 13)

/-- `str::trim`. -/
def trim (s : Bytes) : Bytes := ((s.dropWhile isBlank).reverse.dropWhile isBlank).reverse

/-- `collect::<Result<Vec<_>, _>>()` over `parse_str::<Path>`: all of them or an error. `isPath` stands for the parser of `syn`. -/
def asPaths (isPath : Bytes → Bool) (ps : List Bytes) : Option (List Bytes) := if ps.all isPath then some ps else none

/-- `Config::get_payload_derive` (`generate/config.rs:21-38`): only the first `payloads_derive` counts. -/
def payloadDerive (isPath : Bytes → Bool) : List Setting → Option (List Bytes)
  | [] => some []
  | .payloadsDerive s :: _ => asPaths isPath ((splitComma s).map trim)
  | .noDefaultPayload :: cfg => payloadDerive isPath cfg

/-- `Derives::common` (`entities/derives/mod.rs:12-31`): the derives of the first declaration, filtered by each declaration in turn. -/
def commonDerives (isPath : Bytes → Bool) (ds : List (List Bytes)) : Option (List Bytes) :=
  asPaths isPath (ds.foldl (fun common v => common.filter fun d => v.contains d) (ds.head?.getD []))

/-- What decides whether `enum Payload` compiles: its variants, the variants named by the match arms of its impls, its derives. -/
structure EnumCode where
  variants : List Bytes
  arms : List Bytes
  derives : List Bytes

/-- The two built-in variants. -/
def builtin : List Bytes := [ascii "Bytes", ascii "String"]

/-- `payloads::gen` (`collector/payloads/mod.rs:11-37`, `enums.rs:6-46`; the arms are in `props.rs` and `write.rs`, which do not look at the
configuration). A payload is its variant name and its derives. -/
def genEnum (isPath : Bytes → Bool) (ps : List (Bytes × List Bytes)) (cfg : List Setting) : Option EnumCode :=
  match commonDerives isPath (ps.map (·.2)), payloadDerive isPath cfg with
  | some common, some own =>
    some ⟨ps.map (·.1) ++ (if isNoDefault cfg then [] else builtin), ps.map (·.1) ++ builtin, common ++ own⟩
  | _, _ => none

/-- What `generate!` puts into the crate: the block enums, the payload enum, the aliases of `packet::gen`. -/
structure Generated where
  blocks : Bool
  payload : Option EnumCode
  packet : Bool

/-- `Collector::write` (`collector/mod.rs:55-92`) for a crate with `nblocks` collected blocks. -/
def generate (isPath : Bytes → Bool) (nblocks : Nat) (ps : List (Bytes × List Bytes)) (cfg : List Setting) : Option Generated :=
  if ps.isEmpty && isNoDefault cfg then some ⟨nblocks != 0, none, false⟩
  else match genEnum isPath ps cfg with
    | some e => some ⟨nblocks != 0, some e, nblocks != 0⟩
    | none => none

/-- The rules of rustc the enum can break: variants are declared once (E0428), arms name variants (E0599), a trait is derived once
(E0119), `Default` cannot be derived for an enum without a `#[default]` variant (E0665), nor `Copy` with a `Vec` or a `String` inside (E0204).
Other derives are not looked at. -/
def EnumCode.Compiles (e : EnumCode) : Prop :=
  e.variants.Nodup ∧ (∀ a ∈ e.arms, a ∈ e.variants) ∧ e.derives.Nodup ∧ ascii "Default" ∉ e.derives ∧
    (ascii "Copy" ∈ e.derives → ascii "Bytes" ∉ e.variants ∧ ascii "String" ∉ e.variants)

instance (e : EnumCode) : Decidable e.Compiles := by unfold EnumCode.Compiles; infer_instance

end Brec
