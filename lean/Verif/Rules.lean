import Verif.Io
/-!
# Rules

Model of `/repo/brec/src/packet/rules.rs`. `BR` is the type of referred blocks, `Pk` of packets.
Static and dynamic callbacks (`RuleFnDef`, `rules.rs:11-17`) are both functions here. Filter callbacks are pure; the
`Ignored` callback is modelled by the list of byte runs it is called with.
-/

namespace Brec

/-- `RuleDef` (`rules.rs:48-66`). `tag` distinguishes different callbacks of an `Ignored` rule. -/
inductive Rule (BR Pk : Type) where
  | ignored (tag : Nat)
  | byBlocks (f : List BR → Bool)
  | byPayload (f : Bytes → Bool)
  | filter (f : Pk → Bool)

/-- `RuleDefId` generated by `enum_ids` (`rules.rs:48`). -/
inductive RuleId
  | ignored | byBlocks | byPayload | filter
  deriving DecidableEq, Repr

namespace RuleId

/-- `Display for RuleDefId` generated by `#[enum_ids(display)]`: the variant names. -/
def toStr : RuleId → String
  | ignored => "Ignored"
  | byBlocks => "FilterByBlocks"
  | byPayload => "FilterByPayload"
  | filter => "Filter"

end RuleId

/-- `RuleDef::id()` generated by `enum_ids`. -/
def Rule.id {BR Pk} : Rule BR Pk → RuleId
  | ignored _ => .ignored
  | byBlocks _ => .byBlocks
  | byPayload _ => .byPayload
  | filter _ => .filter

/-- `matches!(r, RuleDef::X(..))` of `add_rule` (`rules.rs:98-124`). -/
def Rule.isByBlocks {BR Pk} : Rule BR Pk → Bool
  | byBlocks _ => true
  | _ => false
def Rule.isByPayload {BR Pk} : Rule BR Pk → Bool
  | byPayload _ => true
  | _ => false
def Rule.isFilter {BR Pk} : Rule BR Pk → Bool
  | filter _ => true
  | _ => false
def Rule.isIgnored {BR Pk} : Rule BR Pk → Bool
  | ignored _ => true
  | _ => false

abbrev Rules (BR Pk : Type) := List (Rule BR Pk)

namespace Rules

variable {BR Pk : Type}

/-- `RulesDef::add_rule` (`rules.rs:96-129`). -/
def add (rs : Rules BR Pk) (r : Rule BR Pk) : Out Unit × Rules BR Pk :=
  match r with
  | .byBlocks f =>
    if rs.any Rule.isByBlocks then (.err .ruleDuplicate, rs)
    else (.ok (), rs ++ [.byBlocks f])
  | .byPayload f =>
    if rs.any Rule.isByPayload then (.err .ruleDuplicate, rs)
    else (.ok (), rs ++ [.byPayload f])
  | .filter f =>
    if rs.any Rule.isFilter then (.err .ruleDuplicate, rs)
    else (.ok (), rs ++ [.filter f])
  | .ignored t =>
    if rs.any Rule.isIgnored then (.err .ruleDuplicate, rs)
    else (.ok (), rs ++ [.ignored t])

/-- `RulesDef::remove_rule` (`rules.rs:132-135`). -/
def remove (rs : Rules BR Pk) (id : RuleId) : Rules BR Pk :=
  List.filter (fun r => r.id.toStr ≠ id.toStr) rs

/-- `RulesDef::ignore` (`rules.rs:138-149`): the calls made to `Ignored` callbacks. -/
def ignore : Rules BR Pk → Bytes → List Bytes
  | [], _ => []
  | .ignored _ :: rs, b => b :: ignore rs b
  | .byBlocks _ :: rs, b => ignore rs b
  | .byPayload _ :: rs, b => ignore rs b
  | .filter _ :: rs, b => ignore rs b

/-- `RulesDef::filter_by_blocks` (`rules.rs:152-166`). -/
def filterByBlocks (rs : Rules BR Pk) (blocks : List BR) : Bool :=
  match rs.findSome? (fun r => match r with | .byBlocks f => some f | _ => none) with
  | some f => f blocks
  | none => true

/-- `RulesDef::filter_by_payload` (`rules.rs:169-183`). -/
def filterByPayload (rs : Rules BR Pk) (buffer : Bytes) : Bool :=
  match rs.findSome? (fun r => match r with | .byPayload f => some f | _ => none) with
  | some f => f buffer
  | none => true

/-- `RulesDef::filter` (`rules.rs:186-200`). -/
def filter (rs : Rules BR Pk) (p : Pk) : Bool :=
  match rs.findSome? (fun r => match r with | .filter f => some f | _ => none) with
  | some f => f p
  | none => true

end Rules

end Brec
