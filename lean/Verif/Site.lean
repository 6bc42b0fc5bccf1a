import Verif.MacroPayload
/-!
# The names `generate!` writes down

`generate!` writes an `include!` at the place of its call (`generate/mod.rs:9-20`), so every name in the generated file is looked up in the scope of that place. What a
path stands for there is given by an arbitrary function: modules, `use` declarations, globs and visibility are not modelled. Here is which paths the generated code
mentions and what it needs them to be.
-/

namespace Brec

/-- What a path can stand for: the struct of the block declaration number `k`, the view `…Referred` that `#[block]` puts beside it (`codegen/base/block.rs:47-53`), the type
of the payload declaration number `k`, anything else. (Types for which somebody has implemented all the traits by hand are not considered.) -/
inductive Item
  | block (k : Nat)
  | view (k : Nat)
  | payload (k : Nat)
  | other
  deriving DecidableEq

/-- What each path stands for at the place of `generate!()`, without the generated items. -/
abbrev Site := List Bytes → Option Item

/-- The items `generate!` itself puts there (`collector/blocks/enums.rs:18-22`, `:37-39`, `collector/payloads/enums.rs:38-41`, `collector/packet.rs:6-38`), for a crate with blocks and
payloads; `locked` is the feature `locked_storage`. -/
def siteItems (locked : Bool) : List Bytes :=
  [ascii "Block", ascii "BlockReferred", ascii "Payload", ascii "Packet", ascii "PacketBufReader", ascii "Rules", ascii "Rule", ascii "RuleFnDef", ascii "Reader",
    ascii "Writer"] ++ if locked then [ascii "FileStorage"] else []

/-- Name lookup in the generated file: its own items hide what a glob brings in. (Against a plain `use` of the same name the compiler raises E0255.) -/
def Site.inside (site : Site) (locked : Bool) : Site := fun p =>
  if p.length = 1 ∧ p.head? ∈ (siteItems locked).map some then some .other else site p

/-- `Block::fullpath` (`entities/block/mod.rs:79-81`, `entities/block/attr/mod.rs:11-20`): the path given in the attribute, if any, and the name. -/
def BlockDecl.fullpath (d : BlockDecl) : List Bytes := d.path ++ [d.name]

/-- `Block::referred_name` (`entities/block/mod.rs:73-75`): a name without a path. -/
def BlockDecl.referredName (d : BlockDecl) : List Bytes := [d.name ++ ascii "Referred"]

/-- `Payload::fullpath` (`entities/payload/mod.rs:38-40`, `entities/payload/attr/mod.rs:11-20`). -/
def PayloadDecl.fullpath (d : PayloadDecl) : List Bytes := d.path ++ [d.name]

/-- What the generated code can demand of the paths in it. -/
inductive Need
  /-- a type -/
  | type (p : List Bytes)
  /-- a type with the traits `#[block]` implements for the struct: `ReadBlockFrom`, `TryReadFrom`, `TryReadFromBuffered`, `StaticSize`, `WriteTo`, `WriteVectoredTo` -/
  | block (p : List Bytes)
  /-- a type with a lifetime and an associated function `read_from_slice` -/
  | view (p : List Bytes)
  /-- `impl From<v<'_>> for p` -/
  | into (v p : List Bytes)
  /-- a type with the traits of a payload -/
  | payload (p : List Bytes)

/-- Whether a demand is met. The only conversions are those of `codegen/base/block.rs:55-61`, from the view of a block to that block. -/
def Need.Met (r : Site) : Need → Prop
  | type p => (r p).isSome
  | block p => ∃ k, r p = some (.block k)
  | view p => ∃ k, r p = some (.view k)
  | into v p => ∃ k, r v = some (.view k) ∧ r p = some (.block k)
  | payload p => ∃ k, r p = some (.payload k)

/-- What `blocks::gen` (`collector/blocks/mod.rs:11-39`) writes for one block, in its order: `enum Block` (`enums.rs:6-27`), `enum BlockReferred` (`:29-43`), `Size` of both
(`props.rs:6-23`, `:25-42`), `From<BlockReferred>` (`:44-59`), the readers of `Block` (`read.rs:6-132`), the reader of `BlockReferred` (`:134-161`), the writers (`write.rs`). -/
def BlockDecl.needs (d : BlockDecl) : List Need :=
  [.type d.fullpath, .type d.referredName, .block d.fullpath, .block d.fullpath, .into d.referredName d.fullpath, .block d.fullpath, .view d.referredName, .block d.fullpath]

/-- What `payloads::gen` (`collector/payloads/mod.rs`) writes for one payload: `enum Payload` (`enums.rs:6-46`), and its properties, readers and writers (`props.rs`, `read.rs`,
`write.rs`). -/
def PayloadDecl.needs (d : PayloadDecl) : List Need := [.type d.fullpath, .payload d.fullpath]

/-- Whether the generated file compiles with these blocks and payloads, as far as the names in it matter. -/
def SiteCompiles (site : Site) (locked : Bool) (bs : List BlockDecl) (ps : List PayloadDecl) : Prop :=
  (∀ d ∈ bs, ∀ n ∈ d.needs, n.Met (site.inside locked)) ∧ ∀ d ∈ ps, ∀ n ∈ d.needs, n.Met (site.inside locked)

/-- The type inside the variant of a block in `enum Block` (`collector/blocks/enums.rs:8-13`); `tys` are the types of the declarations. -/
def BlockDecl.ownTy (r : Site) (tys : Nat → BlockTy) (d : BlockDecl) : Option BlockTy :=
  match r d.fullpath with
  | some (.block k) => some (tys k)
  | _ => none

/-- The type whose view is inside the variant in `enum BlockReferred` (`collector/blocks/enums.rs:30-36`). -/
def BlockDecl.viewTy (r : Site) (tys : Nat → BlockTy) (d : BlockDecl) : Option BlockTy :=
  match r d.referredName with
  | some (.view k) => some (tys k)
  | _ => none

end Brec
