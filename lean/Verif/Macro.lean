import Verif.Payload
import Verif.BlockRead
/-!
# Declarations: what the macros read and collect

Names are the UTF-8 bytes of Rust identifiers. From a declaration the macros compute the signature constant, the variant name and the
list of variants of the generated enum (`/repo/brec_macros/src/entities`, `parsing`, `collector`).
-/

namespace Brec

/-! ## Field types -/

/-- A field type as written: an identifier, or `[u8; n]`. Other types are rejected by `Ty::try_from` (`parsing/ty/mod.rs:5-27`, `51-68`). -/
inductive SrcTy
  | ident (s : Bytes)
  | array (n : Nat)
  deriving DecidableEq

/-- `Ty` at macro time (`entities/ty/mod.rs:4-23`): a linked enum is known by its name only. -/
inductive MTy
  | num (n : NumTy)
  | bool
  | blob (n : Nat)
  | linked (s : Bytes)
  deriving DecidableEq

/-- `TyId::X.to_string().to_ascii_lowercase()` of the numeric types (`entities/ty/mod.rs:52-65`). -/
def NumTy.text : NumTy → Bytes
  | u8 => ascii "u8" | u16 => ascii "u16" | u32 => ascii "u32" | u64 => ascii "u64" | u128 => ascii "u128"
  | i8 => ascii "i8" | i16 => ascii "i16" | i32 => ascii "i32" | i64 => ascii "i64" | i128 => ascii "i128"
  | f32 => ascii "f32" | f64 => ascii "f64"

/-- The numeric types in the order of the match in `parsing/ty/mod.rs:29-49`. -/
def NumTy.all : List NumTy := [u8, u16, u32, u64, u128, i8, i16, i32, i64, i128, f32, f64]

/-- `Ty::try_from` (`parsing/ty/mod.rs:5-68`): known identifiers, then `bool`, every other identifier is a linked enum. -/
def MTy.ofSrc : SrcTy → MTy
  | .ident s =>
    match NumTy.all.find? (fun n => n.text = s) with
    | some n => .num n
    | none => if s = ascii "bool" then .bool else .linked s
  | .array n => .blob n

/-- `Display` of a `usize`. -/
def decimal (n : Nat) : Bytes := (Nat.toDigits 10 n).map fun c => BitVec.ofNat 8 c.toNat

/-- `Display for Ty` (`entities/ty/mod.rs:47-79`). -/
def MTy.text : MTy → Bytes
  | num n => n.text
  | bool => ascii "bool"
  | blob n => ascii "[u8;" ++ decimal n ++ ascii "]"
  | linked s => s

/-- A declared field: its name and its type as written. -/
structure SrcField where
  name : Bytes
  ty : SrcTy
  deriving DecidableEq

/-! ## Attributes -/

/-- One item of `#[block(…)]`, as `syn` parses it: `key = path`, a bare path of one or more segments, or something else. The
string-literal form of a path value (`entities/modpath/mod.rs:29-50`) is not distinguished from the path it contains. -/
inductive AttrExpr
  | assign (key : Bytes) (path : List Bytes)
  | path (segs : List Bytes)
  | other
  deriving DecidableEq

/-- `BlockAttr` (`entities/block/attr/mod.rs:43-48`). -/
inductive BlockAttr
  | path (segs : List Bytes)
  | noCrc
  deriving DecidableEq

/-- `Parse for BlockAttrs` (`parsing/block/attr/mod.rs:10-50`); `none` is a compile error. A bare path that is a single identifier
is compared with `no_crc` and otherwise ignored. -/
def parseBlockAttrs : List AttrExpr → Option (List BlockAttr)
  | [] => some []
  | .assign key p :: es => if key = ascii "path" then (parseBlockAttrs es).map (.path p :: ·) else none
  | .path [s] :: es => if s = ascii "no_crc" then (parseBlockAttrs es).map (.noCrc :: ·) else parseBlockAttrs es
  | .path p :: es => (parseBlockAttrs es).map (.path p :: ·)
  | .other :: _ => none

/-- The path of a declaration: the first `Path` attribute, if any (`entities/block/attr/mod.rs:11-20`). -/
def attrPath : List BlockAttr → List Bytes
  | [] => []
  | .path p :: _ => p
  | .noCrc :: as => attrPath as

/-- `BlockAttrs::is_no_crc` (`entities/block/attr/mod.rs:38-40`). -/
def attrNoCrc (as : List BlockAttr) : Bool := as.any fun a => a = .noCrc

/-! ## Names and signatures -/

/-- `first.to_uppercase().chain(chars)` (`entities/block/attr/mod.rs:27-33`); only ASCII letters are changed here, other letters are
left alone (simplified). -/
def capital : Bytes → Bytes
  | [] => []
  | c :: cs => (if 97 ≤ c.toNat ∧ c.toNat ≤ 122 then BitVec.ofNat 8 (c.toNat - 32) else c) :: cs

/-- `BlockAttrs::fullname` (`entities/block/attr/mod.rs:21-37`) and `PayloadAttrs::fullname` (`entities/payload/attr/mod.rs:21-37`): the
segments of `path::name`, each with a capital first letter, without separators. -/
def fullname (path : List Bytes) (name : Bytes) : Bytes := ((path ++ [name]).map capital).flatten

/-- A `#[block]` declaration after parsing (`entities/block/mod.rs:14-21`, without derives and visibility); `fields` are the declared
ones. -/
structure BlockDecl where
  name : Bytes
  path : List Bytes
  fields : List SrcField
  noCrc : Bool
  deriving DecidableEq

/-- The attributes and the struct put together (`parsing/block/mod.rs:11-50`). -/
def BlockDecl.ofAttrs (name : Bytes) (fields : List SrcField) (as : List BlockAttr) : BlockDecl := ⟨name, attrPath as, fields, attrNoCrc as⟩

/-- `Field::is_reserved_name` (`entities/field/mod.rs:25-27`). -/
def isReserved (name : Bytes) : Bool := name = ascii "__sig" || name = ascii "__crc"

/-- `Block::try_from` (`parsing/block/mod.rs:11-50`) on a plain struct with named fields: `none` is a compile error, among others for a
reserved field name (`parsing/field/mod.rs:11-16`). -/
def BlockDecl.parse (es : List AttrExpr) (name : Bytes) (fields : List SrcField) : Option BlockDecl :=
  if fields.any (fun f => isReserved f.name) then none else (parseBlockAttrs es).map (BlockDecl.ofAttrs name fields)

/-- The fields with the injected `__sig` and `__crc` (`parsing/block/mod.rs:36-37`). -/
def BlockDecl.allFields (d : BlockDecl) : List SrcField :=
  ⟨ascii "__sig", .array 4⟩ :: d.fields ++ [⟨ascii "__crc", .array 4⟩]

/-- `format!("{}:{}", f.name, f.ty)` (`entities/block/mod.rs:47`). -/
def SrcField.text (f : SrcField) : Bytes := f.name ++ ascii ":" ++ (MTy.ofSrc f.ty).text

/-- `.join(";")` (`entities/block/mod.rs:49`). -/
def joinSemi : List Bytes → Bytes
  | [] => []
  | [x] => x
  | x :: y :: xs => x ++ ascii ";" ++ joinSemi (y :: xs)

/-- The text that is hashed (`entities/block/mod.rs:42-50`). The path is not part of it. -/
def BlockDecl.snap (d : BlockDecl) : Bytes := d.name ++ ascii ";" ++ joinSemi (d.allFields.map SrcField.text)

/-- `Block::sig` (`entities/block/mod.rs:39-54`). -/
def BlockDecl.sig (d : BlockDecl) : Bytes := crcBytes d.snap

/-- `Block::fullname` (`entities/block/mod.rs:76-78`). -/
def BlockDecl.fullname (d : BlockDecl) : Bytes := Brec.fullname d.path d.name

/-- A field type of the generated code; `env` resolves the names of linked enums at the declaration. -/
def MTy.fty (env : Bytes → Linked) : MTy → FTy
  | num n => .num n
  | bool => .bool
  | blob n => .blob n
  | linked s => .linked (env s)

/-- The generated block type. -/
def BlockDecl.ty (env : Bytes → Linked) (d : BlockDecl) : BlockTy :=
  ⟨d.sig, d.fields.map fun f => (MTy.ofSrc f.ty).fty env, d.noCrc⟩

/-- A `#[payload]` declaration (`entities/payload/mod.rs:11-16`), without the other attributes and derives. -/
structure PayloadDecl where
  name : Bytes
  path : List Bytes
  deriving DecidableEq

/-- `Payload::fullname` (`entities/payload/mod.rs:35-37`). -/
def PayloadDecl.fullname (d : PayloadDecl) : Bytes := Brec.fullname d.path d.name

/-- `Payload::sig` (`entities/payload/mod.rs:26-31`). -/
def PayloadDecl.sig (d : PayloadDecl) : ByteBlock := PayloadTy.crcBlock d.fullname

/-! ## The collector -/

/-- `entry(key).or_insert(value)` on the map of the package (`collector/mod.rs:37-48`); the map is kept as a list. -/
def orInsert {α : Type} (m : List (Bytes × α)) (k : Bytes) (v : α) : List (Bytes × α) :=
  if m.any (fun e => e.1 = k) then m else m ++ [(k, v)]

/-- `Collector::add_block` / `add_payload` for each declaration in the order the macros run (`collector/mod.rs:37-48`). -/
def collect {α : Type} (key : α → Bytes) (ds : List α) : List (Bytes × α) := ds.foldl (fun m d => orInsert m (key d) d) []

/-- The variants of the generated enum (`collector/mod.rs:55-80`): `HashMap::values`, in no particular order. -/
def IsVariants {α : Type} (key : α → Bytes) (ds vs : List α) : Prop := vs.Perm ((collect key ds).map (·.2))

end Brec
