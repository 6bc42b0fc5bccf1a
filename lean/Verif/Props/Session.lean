import Verif.Props.Reader
import Verif.RuleSpec
/-!
# C93: changing the rules of a reader while it is in use

The user of a `PacketBufReader` calls `read`, `add_rule` (`/repo/brec/src/packet/reader.rs:265-267`) and `remove_rule` (`:270-272`) in any order.
-/

namespace Brec.Props

open Rd

variable {O : BlockOps} {Q : PayloadOps} {S : BlockSpec O}

/-! ## The calls -/

inductive Do (O : BlockOps) (Q : PayloadOps) where
  | read
  | add (r : Rule O.BR (Packet O Q))
  | remove (id : RuleId)

/-- What a call returns. -/
inductive Saw (O : BlockOps) (Q : PayloadOps) where
  | gave (o : Out (Next (Packet O Q)))
  | added (o : Out Unit)
  | removed

/-- Call after call (`reader.rs:265-281`); none after a panic. -/
def callsOf (chk : Bool) : List (Do O Q) → Rules O.BR (Packet O Q) → Rd → List (Saw O Q) × Rd
  | [], _, r => ([], r)
  | .read :: as, rules, r =>
    match Rd.read rules chk r with
    | (.panic, r') => ([.gave .panic], r')
    | (o, r') => (.gave o :: (callsOf chk as rules r').1, (callsOf chk as rules r').2)
  | .add x :: as, rules, r => (.added (rules.add x).1 :: (callsOf chk as (rules.add x).2 r).1, (callsOf chk as (rules.add x).2 r).2)
  | .remove id :: as, rules, r => (.removed :: (callsOf chk as (rules.remove id) r).1, (callsOf chk as (rules.remove id) r).2)

/-! ## Specification -/

/-- The rules in force: at most one of each kind. -/
structure Force (O : BlockOps) (Q : PayloadOps) where
  blocks : Option (List O.BR → Bool) := none
  payload : Option (Bytes → Bool) := none
  packet : Option (Packet O Q → Bool) := none
  ignored : Option Nat := none

namespace Force

/-- A rule of this kind is in force. -/
def has (F : Force O Q) : RuleId → Bool
  | .byBlocks => F.blocks.isSome
  | .byPayload => F.payload.isSome
  | .filter => F.packet.isSome
  | .ignored => F.ignored.isSome

/-- `add_rule`: nothing changes if there is a rule of the kind already. -/
def add (F : Force O Q) (r : Rule O.BR (Packet O Q)) : Force O Q :=
  if F.has r.id then F
  else match r with
    | .byBlocks f => { F with blocks := some f }
    | .byPayload f => { F with payload := some f }
    | .filter f => { F with packet := some f }
    | .ignored t => { F with ignored := some t }

/-- `remove_rule` -/
def remove (F : Force O Q) : RuleId → Force O Q
  | .byBlocks => { F with blocks := none }
  | .byPayload => { F with payload := none }
  | .filter => { F with packet := none }
  | .ignored => { F with ignored := none }

/-- All rules in force let the packet pass. The rule about payloads is asked only if there is one. -/
def accepts (S : BlockSpec O) (F : Force O Q) (p : Packet O Q) : Bool :=
  F.blocks.all (· (p.blocks.map S.ref)) && ((bodyOf p).all fun x => F.payload.all (· x)) && F.packet.all (· p)

end Force

/-- What the calls must return if these packets are still to come: a `read` asks for another call, or says `Found` or `Skipped` as the rules in force at this moment want it for the
next packet, or `NoData` when there is none; `add_rule` fails exactly if there is a rule of the kind. -/
def Tells (S : BlockSpec O) : Force O Q → List (Do O Q) → List (Saw O Q) → List (Packet O Q) → Prop
  | _, [], [], _ => True
  | F, .add x :: as, .added o :: ss, ps => o = (if F.has x.id then .err .ruleDuplicate else .ok ()) ∧ Tells S (F.add x) as ss ps
  | F, .remove id :: as, .removed :: ss, ps => Tells S (F.remove id) as ss ps
  | F, .read :: as, .gave o :: ss, ps => (Quiet o ∧ Tells S F as ss ps) ∨
    match ps with
    | [] => o = .ok .noData ∧ Tells S F as ss []
    | p :: ps => o = .ok (if F.accepts S p then .found p else .skipped) ∧ Tells S F as ss ps
  | _, _, _, _ => False

/-- How many of the calls are `read`s. -/
def readsIn : List (Do O Q) → Nat
  | [] => 0
  | .read :: as => readsIn as + 1
  | .add _ :: as | .remove _ :: as => readsIn as

/-- How many results are not merely "call again". -/
def louds : List (Saw O Q) → Nat
  | [] => 0
  | .gave o :: ss => louds ss + if isQuiet o then 0 else 1
  | .added _ :: ss | .removed :: ss => louds ss

/-- The calls of the `Ignored` callback: with pieces of the litter, in order, none twice; all of it if the rule is always in force and the stream is read to its end. -/
def Overheard (F : Force O Q) (as : List (Do O Q)) (atEnd : Prop) (log log' : List Bytes) (litter : Bytes) : Prop :=
  ∃ xs ys : List Bytes, log' = log ++ ys ∧ ys.Sublist xs ∧ xs.flatten <+: litter ∧ (∀ x ∈ xs, x ≠ []) ∧
    (F.ignored.isSome → (∀ a ∈ as, a ≠ .remove .ignored) → ys = xs) ∧ (atEnd → xs.flatten = litter)

/-! ## The list of rules -/

/-- The rules of the reader are these. -/
structure InForce (rules : Rules O.BR (Packet O Q)) (F : Force O Q) : Prop where
  blocks : blocksRule rules = F.blocks
  payload : payloadRule rules = F.payload
  packet : packetRule rules = F.packet
  ignored : ignoredRules rules = if F.ignored.isSome then 1 else 0

section
variable {BR Pk : Type} (rules : Rules BR Pk) (x : Rule BR Pk)

theorem any_byBlocks : rules.any Rule.isByBlocks = (blocksRule rules).isSome := by
  induction rules with
  | nil => rfl
  | cons r rs ih => cases r <;> simp [Rule.isByBlocks, blocksRule, ih]

theorem any_byPayload : rules.any Rule.isByPayload = (payloadRule rules).isSome := by
  induction rules with
  | nil => rfl
  | cons r rs ih => cases r <;> simp [Rule.isByPayload, payloadRule, ih]

theorem any_filter : rules.any Rule.isFilter = (packetRule rules).isSome := by
  induction rules with
  | nil => rfl
  | cons r rs ih => cases r <;> simp [Rule.isFilter, packetRule, ih]

theorem any_ignored : rules.any Rule.isIgnored = (ignoredRules rules != 0) := by
  induction rules with
  | nil => rfl
  | cons r rs ih =>
    cases r with
    | ignored t => simp [Rule.isIgnored, ignoredRules]
    | byBlocks f => simpa [Rule.isIgnored, ignoredRules] using ih
    | byPayload f => simpa [Rule.isIgnored, ignoredRules] using ih
    | filter f => simpa [Rule.isIgnored, ignoredRules] using ih

theorem blocksRule_snoc : blocksRule (rules ++ [x]) = (blocksRule rules).or (blocksRule [x]) := by
  induction rules with
  | nil => rfl
  | cons r rs ih => cases r <;> simp [blocksRule] <;> exact ih

theorem payloadRule_snoc : payloadRule (rules ++ [x]) = (payloadRule rules).or (payloadRule [x]) := by
  induction rules with
  | nil => rfl
  | cons r rs ih => cases r <;> simp [payloadRule] <;> exact ih

theorem packetRule_snoc : packetRule (rules ++ [x]) = (packetRule rules).or (packetRule [x]) := by
  induction rules with
  | nil => rfl
  | cons r rs ih => cases r <;> simp [packetRule] <;> exact ih

theorem ignoredRules_snoc : ignoredRules (rules ++ [x]) = ignoredRules rules + ignoredRules [x] := by
  induction rules with
  | nil => simp [ignoredRules]
  | cons r rs ih => cases r <;> simp [ignoredRules] at ih ⊢ <;> omega

theorem toStr_inj {a b : RuleId} : a.toStr = b.toStr ↔ a = b := by cases a <;> cases b <;> decide

theorem remove_cons (r : Rule BR Pk) (id : RuleId) : Rules.remove (r :: rules) id = if r.id = id then rules.remove id else r :: rules.remove id := by
  unfold Rules.remove
  rw [List.filter_cons]
  by_cases h : r.id = id
  · rw [if_neg (by simp [h]), if_pos h]
  · rw [if_pos (by simp [toStr_inj, h]), if_neg h]

theorem blocksRule_remove (id : RuleId) : blocksRule (rules.remove id) = if id = .byBlocks then none else blocksRule rules := by
  induction rules with
  | nil => cases id <;> rfl
  | cons r rs ih => rw [remove_cons]; cases r <;> cases id <;> simp [Rule.id, blocksRule] at ih ⊢ <;> exact ih

theorem payloadRule_remove (id : RuleId) : payloadRule (rules.remove id) = if id = .byPayload then none else payloadRule rules := by
  induction rules with
  | nil => cases id <;> rfl
  | cons r rs ih => rw [remove_cons]; cases r <;> cases id <;> simp [Rule.id, payloadRule] at ih ⊢ <;> exact ih

theorem packetRule_remove (id : RuleId) : packetRule (rules.remove id) = if id = .filter then none else packetRule rules := by
  induction rules with
  | nil => cases id <;> rfl
  | cons r rs ih => rw [remove_cons]; cases r <;> cases id <;> simp [Rule.id, packetRule] at ih ⊢ <;> exact ih

theorem ignoredRules_remove (id : RuleId) : ignoredRules (rules.remove id) = if id = .ignored then 0 else ignoredRules rules := by
  induction rules with
  | nil => cases id <;> rfl
  | cons r rs ih => rw [remove_cons]; cases r <;> cases id <;> simp [Rule.id, ignoredRules] at ih ⊢ <;> exact ih

end

theorem InForce.remove {rules : Rules O.BR (Packet O Q)} {F : Force O Q} (h : InForce rules F) (id : RuleId) : InForce (rules.remove id) (F.remove id) := by
  constructor
  · rw [blocksRule_remove, h.blocks]; cases id <;> rfl
  · rw [payloadRule_remove, h.payload]; cases id <;> rfl
  · rw [packetRule_remove, h.packet]; cases id <;> rfl
  · rw [ignoredRules_remove, h.ignored]; cases id <;> rfl

theorem InForce.snoc {rules : Rules O.BR (Packet O Q)} {F : Force O Q} (h : InForce rules F) (x : Rule O.BR (Packet O Q)) (hx : F.has x.id = false) :
    InForce (rules ++ [x]) (F.add x) := by
  unfold Force.add
  rw [hx]
  constructor
  · rw [blocksRule_snoc, h.blocks]; cases x <;> simp [blocksRule, Force.has, Rule.id] at hx ⊢ <;> simp [hx]
  · rw [payloadRule_snoc, h.payload]; cases x <;> simp [payloadRule, Force.has, Rule.id] at hx ⊢ <;> simp [hx]
  · rw [packetRule_snoc, h.packet]; cases x <;> simp [packetRule, Force.has, Rule.id] at hx ⊢ <;> simp [hx]
  · rw [ignoredRules_snoc, h.ignored]; cases x <;> simp [ignoredRules, Force.has, Rule.id] at hx ⊢ <;> simp [hx]

theorem InForce.add {rules : Rules O.BR (Packet O Q)} {F : Force O Q} (h : InForce rules F) (x : Rule O.BR (Packet O Q)) :
    (rules.add x).1 = (if F.has x.id then .err .ruleDuplicate else .ok ()) ∧ InForce (rules.add x).2 (F.add x) := by
  have hadd : rules.add x = if F.has x.id then (.err .ruleDuplicate, rules) else (.ok (), rules ++ [x]) := by
    cases hx : F.has x.id with
    | true =>
      rw [if_pos rfl]
      cases x with
      | byBlocks f => have e : rules.any Rule.isByBlocks = true := by rw [any_byBlocks, h.blocks]; exact hx
                      simp [Rules.add, e]
      | byPayload f => have e : rules.any Rule.isByPayload = true := by rw [any_byPayload, h.payload]; exact hx
                       simp [Rules.add, e]
      | filter f => have e : rules.any Rule.isFilter = true := by rw [any_filter, h.packet]; exact hx
                    simp [Rules.add, e]
      | ignored t => have hx : F.ignored.isSome = true := hx
                     have e : rules.any Rule.isIgnored = true := by rw [any_ignored, h.ignored, if_pos hx]; rfl
                     simp [Rules.add, e]
    | false =>
      rw [if_neg (by simp)]
      cases x with
      | byBlocks f => have e : rules.any Rule.isByBlocks = false := by rw [any_byBlocks, h.blocks]; exact hx
                      simp [Rules.add, e]
      | byPayload f => have e : rules.any Rule.isByPayload = false := by rw [any_byPayload, h.payload]; exact hx
                       simp [Rules.add, e]
      | filter f => have e : rules.any Rule.isFilter = false := by rw [any_filter, h.packet]; exact hx
                    simp [Rules.add, e]
      | ignored t => have hx : F.ignored.isSome = false := hx
                     have e : rules.any Rule.isIgnored = false := by rw [any_ignored, h.ignored, if_neg (by simp [hx])]; rfl
                     simp [Rules.add, e]
  rw [hadd]
  cases hx : F.has x.id with
  | true =>
    refine ⟨rfl, ?_⟩
    have : F.add x = F := by unfold Force.add; rw [hx]; rfl
    rw [this]
    exact h
  | false => exact ⟨rfl, h.snoc x hx⟩

theorem InForce.verdict {rules : Rules O.BR (Packet O Q)} {F : Force O Q} (h : InForce rules F) (p : Packet O Q) :
    Rd.verdict S rules p = if F.accepts S p then .found p else .skipped := by
  unfold Rd.verdict Brec.Props.accepts Force.accepts passBlocks passPayload passPacket
  rw [h.blocks, h.payload, h.packet]
  cases bodyOf p <;> simp [Bool.and_assoc]

/-! ## Runs -/

theorem callsOf_read {chk : Bool} {rules : Rules O.BR (Packet O Q)} {r : Rd} (h : (read rules chk r).1 ≠ .panic) (as : List (Do O Q)) :
    callsOf chk (.read :: as) rules r =
      (.gave (read rules chk r).1 :: (callsOf chk as rules (read rules chk r).2).1, (callsOf chk as rules (read rules chk r).2).2) := by
  rw [callsOf]
  match hx : read rules chk r with
  | (.panic, r') => rw [hx] at h; exact absurd rfl h
  | (.ok a, r') => rfl
  | (.err e, r') => rfl

theorem Overheard.empty {F : Force O Q} {as : List (Do O Q)} {e e' : Prop} {a b : List Bytes} (h : Overheard F as e a b []) : Overheard F as e' a b [] := by
  obtain ⟨xs, ys, h1, h2, h3, h4, h5, h6⟩ := h
  exact ⟨xs, ys, h1, h2, h3, h4, h5, fun _ => List.prefix_nil.mp h3⟩

theorem Overheard.read {rules : Rules O.BR (Packet O Q)} {F : Force O Q} {as : List (Do O Q)} {e e' : Prop} {a b c : List Bytes} {x y : Bytes}
    (hF : InForce rules F) (h : LogAdd rules a b x) (h' : Overheard F as e b c y) (he : e' → e) : Overheard F (.read :: as) e' a c (x ++ y) := by
  obtain ⟨zs, z1, z2, z3⟩ := h
  obtain ⟨xs, ys, h1, h2, h3, h4, h5, h6⟩ := h'
  have hi : zs.flatMap rules.ignore = if F.ignored.isSome then zs else [] := by
    have : rules.ignore = fun b => if F.ignored.isSome then [b] else [] := by
      funext b
      rw [ignore_eq, hF.ignored]
      cases F.ignored <;> rfl
    rw [this]
    cases F.ignored <;> simp
  refine ⟨zs ++ xs, (if F.ignored.isSome then zs else []) ++ ys, ?_, ?_, ?_, ?_, ?_, ?_⟩
  · rw [h1, z3, hi, List.append_assoc]
  · refine List.Sublist.append ?_ h2
    cases F.ignored <;> simp
  · rw [List.flatten_append, z1]
    exact (List.prefix_append_right_inj x).mpr h3
  · intro w hw
    rcases List.mem_append.mp hw with hw | hw
    · exact z2 w hw
    · exact h4 w hw
  · intro hi' ha
    rw [if_pos hi', h5 hi' fun a ha' => ha a (List.mem_cons_of_mem _ ha')]
  · intro hx
    rw [List.flatten_append, z1, h6 (he hx)]

theorem Overheard.add {F : Force O Q} {as : List (Do O Q)} {e : Prop} {a b : List Bytes} {y : Bytes} {x : Rule O.BR (Packet O Q)}
    (h : Overheard (F.add x) as e a b y) : Overheard F (.add x :: as) e a b y := by
  obtain ⟨xs, ys, h1, h2, h3, h4, h5, h6⟩ := h
  refine ⟨xs, ys, h1, h2, h3, h4, fun hi ha => h5 ?_ fun a ha' => ha a (List.mem_cons_of_mem _ ha'), h6⟩
  unfold Force.add
  split
  · exact hi
  · cases x <;> first | exact hi | rfl

theorem Overheard.remove {F : Force O Q} {as : List (Do O Q)} {e : Prop} {a b : List Bytes} {y : Bytes} {id : RuleId}
    (h : Overheard (F.remove id) as e a b y) : Overheard F (.remove id :: as) e a b y := by
  obtain ⟨xs, ys, h1, h2, h3, h4, h5, h6⟩ := h
  refine ⟨xs, ys, h1, h2, h3, h4, fun hi ha => h5 ?_ fun a ha' => ha a (List.mem_cons_of_mem _ ha'), h6⟩
  cases id with
  | ignored => exact absurd rfl (ha _ List.mem_cons_self)
  | byBlocks => exact hi
  | byPayload => exact hi
  | filter => exact hi

theorem map_dropItems (k : Nat) (is : List (Bytes × Packet O Q)) : (dropItems k is).map (·.2) = is.map (·.2) := snd_dropItems is k

/-- What the calls return, how many of the `read`s are more than "call again", and what the callback is told. -/
theorem callsOf_run {chk : Bool} (G : Rd → List (Bytes × Packet O Q) → Prop)
    (hbad : ∀ r is t, Inv S r is t → G r is → ¬ Bad r is)
    (hnext : ∀ (rules : Rules O.BR (Packet O Q)) r is t is', Inv S r is t → G r is → (is' = is.tail ∨ ∃ k, is' = dropItems k is) →
      (read rules chk r).1 ≠ .panic → G (read rules chk r).2 is')
    (as : List (Do O Q)) (F : Force O Q) (rules : Rules O.BR (Packet O Q)) (hF : InForce rules F)
    (r : Rd) (is : List (Bytes × Packet O Q)) (t : Bytes) (inv : Inv S r is t) (hG : G r is) :
    Tells S F as (callsOf chk as rules r).1 (is.map (·.2)) ∧
      readsIn as ≤ louds (callsOf chk as rules r).1 + meas r ∧
      Overheard F as (is.length < louds (callsOf chk as rules r).1) r.log (callsOf chk as rules r).2.log (litters is t) := by
  induction as generalizing F rules r is t with
  | nil => exact ⟨trivial, Nat.zero_le _, [], [], by simp [callsOf], List.Sublist.refl _, List.nil_prefix, by simp, fun _ _ => rfl, fun h => absurd h (by simp [callsOf, louds])⟩
  | cons a as ih =>
    cases a with
    | add x =>
      obtain ⟨e, hF'⟩ := hF.add x
      obtain ⟨h1, h2, h3⟩ := ih _ _ hF' _ _ _ inv hG
      exact ⟨⟨e, h1⟩, h2, h3.add⟩
    | remove id =>
      obtain ⟨h1, h2, h3⟩ := ih _ _ (hF.remove id) _ _ _ inv hG
      exact ⟨h1, h2, h3.remove⟩
    | read =>
      cases step (rules := rules) (chk := chk) inv (hbad r is t inv hG) with
      | quiet k q hk inv' log lt =>
        have hnp : (read rules chk r).1 ≠ .panic := by rcases q with ⟨n, q⟩ | q <;> rw [q] <;> simp
        have hq : isQuiet (read rules chk r).1 = true := by rcases q with ⟨n, q⟩ | q <;> rw [q] <;> rfl
        obtain ⟨h1, h2, h3⟩ := ih _ _ hF _ _ _ inv' (hnext rules r is t _ inv hG (.inr ⟨k, rfl⟩) hnp)
        rw [map_dropItems] at h1
        have hlen : (dropItems k is).length = is.length := by
          have := congrArg List.length (map_dropItems k is)
          simpa using this
        rw [callsOf_read hnp]
        refine ⟨.inl ⟨q, h1⟩, ?_, ?_⟩
        · simp only [readsIn, louds, hq, if_true]; omega
        · rw [litters_drop is t k]
          refine Overheard.read hF log h3 ?_
          simp only [louds, hq, if_true, hlen]
          exact id
      | packet l p rest e res inv' log lt =>
        subst e
        have hnp : (read rules chk r).1 ≠ .panic := by rw [res]; simp
        have hq : isQuiet (read rules chk r).1 = false := by rw [res]; unfold verdict; split <;> rfl
        obtain ⟨h1, h2, h3⟩ := ih _ _ hF _ _ _ inv' (hnext rules r _ t _ inv hG (.inl rfl) hnp)
        rw [callsOf_read hnp]
        refine ⟨.inr ⟨?_, h1⟩, ?_, ?_⟩
        · rw [res, hF.verdict]
        · simp only [readsIn, louds, hq]; simp; omega
        · have : litters ((l, p) :: rest) t = l ++ litters rest t := by simp [litters]
          rw [this]
          refine Overheard.read hF log h3 ?_
          simp only [louds, hq, List.length_cons]
          simp
      | done e res log src recent =>
        subst e
        have hnp : (read rules chk r).1 ≠ .panic := by rw [res]; simp
        have hq : isQuiet (read rules chk r).1 = false := by rw [res]; rfl
        have inv' : Inv S (read rules chk r).2 ([] : List (Bytes × Packet O Q)) [] := by
          refine ⟨?_, by simp, by intro _ j; simp [PACKET_SIG], ?_⟩
          · rw [src]; intro e he; cases he
          · rw [recent, src]; rfl
        obtain ⟨h1, h2, h3⟩ := ih _ _ hF _ _ _ inv' (hnext rules r _ t _ inv hG (.inl rfl) hnp)
        rw [callsOf_read hnp]
        have hm : meas (read rules chk r).2 = 0 := by simp [meas, rank, src, recent, Events.bytes]
        refine ⟨.inr ⟨res, h1⟩, ?_, ?_⟩
        · simp only [readsIn, louds, hq]; simp; omega
        · have : litters ([] : List (Bytes × Packet O Q)) t = t ++ litters ([] : List (Bytes × Packet O Q)) [] := by simp [litters]
          rw [this]
          exact Overheard.read hF log (Overheard.empty (e' := True) h3) fun _ => trivial

theorem noRules_agree : InForce ([] : Rules O.BR (Packet O Q)) {} := ⟨rfl, rfl, rfl, rfl⟩

/-! ## C93 -/

/-- **C93**. A stream of serialized packets, cut into reads in any way, and calls of `read`, `add_rule` and `remove_rule` in any order. Each packet is judged by exactly the rules that are in
force when the `read` that gives its result is called; `add_rule` fails exactly if a rule of the kind is in force, and then changes nothing; every packet gets its result if `read` is called often
enough, and then `NoData` for ever; no panic, no error, and the `Ignored` callback is never called. -/
theorem C93_session (ps : List (Packet O Q)) (hp : ∀ p ∈ ps, p.Ok S ∧ p.blocks.length ≤ 255) (chk : Bool)
    (cs : Chunks) (hc : Cuts cs (ps.map wire).flatten) (as : List (Do O Q)) :
    Tells S {} as (callsOf chk as [] (.new (cs.map some))).1 ps ∧
      (ps.length + 3 * cs.flatten.length < readsIn as → ps.length < louds (callsOf chk as [] (.new (cs.map some))).1) ∧
      (callsOf chk as [] (.new (cs.map some))).2.log = [] := by
  have hs : (ps.map wire).flatten = stream (ps.map fun p => ([], p)) [] := by
    clear hc hp
    induction ps with
    | nil => rfl
    | cons p ps ih => simp [stream, ih]
  have hg : ∀ x ∈ ps.map (fun p => (([] : Bytes), p)), GoodItem S x := by
    intro x hx
    obtain ⟨p, hp', rfl⟩ := List.mem_map.mp hx
    exact ⟨free_nil, (hp p hp').1, (hp p hp').2, .inl rfl⟩
  have inv := inv_new (S := S) hc.2 (hc.1.trans hs) hg (by intro j; simp [PACKET_SIG])
  obtain ⟨h1, h2, h3⟩ := callsOf_run (chk := chk) (fun _ is => ∀ x ∈ is, x.1 = [])
    (fun r is t inv hG => not_bad_pure inv hG)
    (fun rules r is t is' _ hG hi _ => by
      rcases hi with rfl | ⟨k, rfl⟩
      · exact fun x hx => hG x (List.mem_of_mem_tail hx)
      · cases is with
        | nil => simp [dropItems]
        | cons y is =>
          obtain ⟨l, p⟩ := y
          intro x hx
          rcases List.mem_cons.mp hx with rfl | hx
          · have := hG (l, p) List.mem_cons_self
            simp only at this
            simp [this]
          · exact hG x (List.mem_cons_of_mem _ hx))
    as {} [] noRules_agree _ _ _ inv (by intro x hx; obtain ⟨p, _, rfl⟩ := List.mem_map.mp hx; rfl)
  refine ⟨?_, ?_, ?_⟩
  · simpa [List.map_map, Function.comp_def] using h1
  · intro hn
    have hm : meas (Rd.new (cs.map some)) = 3 * cs.flatten.length := by
      have : (Events.bytes (cs.map some)) = cs.flatten := by
        rw [hc.1.trans hs]; simpa [Rd.new] using inv.state
      simp [meas, Rd.new, rank, this]
    omega
  · obtain ⟨xs, ys, e1, e2, e3, e4, _⟩ := h3
    have hl : litters (ps.map fun p => (([] : Bytes), p)) [] = [] := by
      simp [litters, List.map_map, Function.comp_def]
    rw [hl] at e3
    have : xs = [] := by
      have e3 := List.prefix_nil.mp e3
      cases xs with
      | nil => rfl
      | cons x xs => rw [List.flatten_cons, List.append_eq_nil_iff] at e3; exact absurd e3.1 (e4 x List.mem_cons_self)
    subst this
    rw [e1, List.sublist_nil.mp e2]
    rfl

/-- With litter between the packets, under the conditions of `C23_long_reads_partial`: the same, and the callback is called with pieces of the litter, in order and none twice, as long as it is
in force; with all of it if it always is and the stream is read to its end. -/
theorem C93_litter (chk : Bool) (is : List (Bytes × Packet O Q)) (t : Bytes) (cs : Chunks) (hi : ∀ x ∈ is, GoodItem S x) (ht : NoSig t)
    (hc : Cuts cs (stream is t)) (hl : ∀ c ∈ cs.dropLast, 29 ≤ c.length) (tag : Nat) (as : List (Do O Q)) :
    Tells S { ignored := some tag } as (callsOf chk as [.ignored tag] (.new (cs.map some))).1 (is.map (·.2)) ∧
      (is.length + 3 * cs.flatten.length < readsIn as → is.length < louds (callsOf chk as [.ignored tag] (.new (cs.map some))).1) ∧
      Overheard ({ ignored := some tag } : Force O Q) as (is.length < louds (callsOf chk as [.ignored tag] (.new (cs.map some))).1) []
        (callsOf chk as [.ignored tag] (.new (cs.map some))).2.log (litters is t) := by
  have inv := inv_new (S := S) hc.2 hc.1 hi ht
  have hlong : Events.Long (cs.map some) := by
    intro c h
    rw [← List.map_dropLast] at h
    obtain ⟨c', h', e⟩ := List.mem_map.mp h
    rw [← Option.some.inj e]
    exact hl _ h'
  obtain ⟨h1, h2, h3⟩ := callsOf_run (chk := chk) (fun r _ => LongInv r ∧ Sane r)
    (fun r is t _ hG => not_bad_long hG.1)
    (fun rules r is t is' _ hG _ _ => ⟨hG.1.read hG.2 rules chk, hG.2.read rules chk⟩)
    as { ignored := some tag } [.ignored tag] ⟨rfl, rfl, rfl, rfl⟩ _ _ _ inv ⟨⟨Long_tail hlong, fun b n e => by cases e⟩, ⟨trivial⟩⟩
  refine ⟨h1, fun hn => ?_, h3⟩
  have hm : meas (Rd.new (cs.map some)) = 3 * cs.flatten.length := by
    have : (Events.bytes (cs.map some)) = cs.flatten := by
      rw [hc.1]; simpa [Rd.new] using inv.state
    simp [meas, Rd.new, rank, this]
  omega

/-- What came back, in short. -/
def brief : List (Saw O Q) → List Nat
  | [] => []
  | .gave (.ok (.found _)) :: ss => 1 :: brief ss
  | .gave (.ok .skipped) :: ss => 2 :: brief ss
  | .gave (.ok .noData) :: ss => 3 :: brief ss
  | .gave (.ok _) :: ss => 4 :: brief ss
  | .gave _ :: ss => 5 :: brief ss
  | .added (.ok _) :: ss => 6 :: brief ss
  | .added _ :: ss => 7 :: brief ss
  | .removed :: ss => 8 :: brief ss

/-- Non-vacuity: three packets; a rule that lets none pass stands while the first is read, a second rule of the kind is refused; the rule is gone for the second packet, and another one is there
for the third. -/
example : let as : List (Do (blockEnum sampleTypes) (PEnum.ops [])) :=
      [.add (.filter fun _ => false), .read, .add (.filter fun _ => true), .remove .filter, .read, .remove .byBlocks, .add (.byBlocks fun bs => bs.isEmpty), .read, .read]
    let cs := [([samplePacket, samplePacket, samplePacket].map wire).flatten]
    Tells sampleSpec {} as (callsOf true as [] (.new (cs.map some))).1 [samplePacket, samplePacket, samplePacket] ∧
      brief (callsOf true as [] (.new (cs.map some))).1 = [6, 2, 7, 8, 1, 8, 6, 2, 3] := by
  intro as cs
  refine ⟨(C93_session (S := sampleSpec) [samplePacket, samplePacket, samplePacket]
    (by intro p hp; simp at hp; subst hp; exact ⟨samplePacket_ok, by decide⟩) true cs ⟨by simp [cs], ?_⟩ as).1, by decide +kernel⟩
  intro c hc
  simp only [cs, List.mem_singleton] at hc
  subst hc
  exact ⟨by decide +kernel, by decide +kernel⟩

end Brec.Props
