import Verif.Rules
/-!
# What a set of rules says, apart from how the code finds out

Specification for C28 and the properties of readers. `C27_at_most_one`: a rule set has at most one rule of each kind. If it had more, the first would decide.
-/

namespace Brec

variable {BR Pk : Type}

/-- The rule about blocks, if there is one. -/
def blocksRule : List (Rule BR Pk) → Option (List BR → Bool)
  | [] => none
  | .byBlocks f :: _ => some f
  | .ignored _ :: rs | .byPayload _ :: rs | .filter _ :: rs => blocksRule rs

/-- The rule about the payload's bytes, if there is one. -/
def payloadRule : List (Rule BR Pk) → Option (Bytes → Bool)
  | [] => none
  | .byPayload f :: _ => some f
  | .ignored _ :: rs | .byBlocks _ :: rs | .filter _ :: rs => payloadRule rs

/-- The rule about the packet, if there is one. -/
def packetRule : List (Rule BR Pk) → Option (Pk → Bool)
  | [] => none
  | .filter f :: _ => some f
  | .ignored _ :: rs | .byBlocks _ :: rs | .byPayload _ :: rs => packetRule rs

/-- The rules let these blocks pass: there is no rule about blocks, or it says yes. -/
def passBlocks (rules : List (Rule BR Pk)) (bs : List BR) : Bool := (blocksRule rules).all (· bs)

/-- The rules let this payload pass. -/
def passPayload (rules : List (Rule BR Pk)) (b : Bytes) : Bool := (payloadRule rules).all (· b)

/-- The rules let this packet pass. -/
def passPacket (rules : List (Rule BR Pk)) (p : Pk) : Bool := (packetRule rules).all (· p)

/-- How many `Ignored` rules there are. -/
def ignoredRules : List (Rule BR Pk) → Nat
  | [] => 0
  | .ignored _ :: rs => ignoredRules rs + 1
  | .byBlocks _ :: rs | .byPayload _ :: rs | .filter _ :: rs => ignoredRules rs

theorem ignore_eq (rules : Rules BR Pk) (b : Bytes) : rules.ignore b = List.replicate (ignoredRules rules) b := by
  induction rules with
  | nil => rfl
  | cons r rs ih => cases r <;> simp only [Rules.ignore, ignoredRules, List.replicate_succ, ih]

theorem filterByBlocks_eq (rules : Rules BR Pk) (bs : List BR) : rules.filterByBlocks bs = passBlocks rules bs := by
  unfold passBlocks
  induction rules with
  | nil => rfl
  | cons r rs ih => cases r <;> first | rfl | exact ih

theorem filterByPayload_eq (rules : Rules BR Pk) (b : Bytes) : rules.filterByPayload b = passPayload rules b := by
  unfold passPayload
  induction rules with
  | nil => rfl
  | cons r rs ih => cases r <;> first | rfl | exact ih

theorem filter_eq (rules : Rules BR Pk) (p : Pk) : rules.filter p = passPacket rules p := by
  unfold passPacket
  induction rules with
  | nil => rfl
  | cons r rs ih => cases r <;> first | rfl | exact ih

end Brec
