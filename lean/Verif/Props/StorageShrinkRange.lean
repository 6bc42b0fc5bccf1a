import Verif.Props.StorageShrinkRead
/-!
# Ranges of a file that has become shorter (C112)
-/

namespace Brec.Props

open Rd

variable {O : BlockOps} {Q : PayloadOps} {S : BlockSpec O}

/-- Nothing comes after a panic. -/
def untilPanic {α : Type} : List (Out α) → List (Out α)
  | [] => []
  | .panic :: _ => [.panic]
  | .ok a :: l => .ok a :: untilPanic l
  | .err e :: l => .err e :: untilPanic l

/-- What a loop over a range shows of packet `i` of a file cut to `k` bytes. `missing i` is the number that comes with the error for a packet whose end is missing. -/
def itemCut (cap : Nat) (chk : Bool) (k : Nat) (ps : List (Packet O Q)) (missing : Nat → Nat) (i : Nat) : List (Out (Packet O Q)) :=
  if endOf cap ps i ≤ k then ps[i]?.toList.map .ok
  else if startOf cap ps i ≤ k then [.err (.notEnoughData (missing i))]
  else if chk then [.panic] else [.err .io]

/-- **C112, `range`.** A loop over a range of the shortened file gives each packet of the range that is whole, an error for one whose end is missing, and an error for one of
which nothing is left; in a debug build the loop panics there. -/
theorem C112_range {cap : Nat} (hc : 0 < cap) {chk : Bool} {ops : List (Op O Q)} {s s0 : Storage} {data : Bytes} (h : Watching cap chk ops s)
    (hr : Reached cap chk ops data s0) (hok : ∀ p ∈ log ops, Storable S p) (hs : Small cap (log ops)) {k : Nat} (hk : k ≤ data.length) :
    ∃ missing : Nat → Nat, (∀ i, 0 < missing i) ∧ ∀ len start,
      Loops (fun i r => Range.next (O := O) (Q := Q) cap chk s (data.take k) i = r) ⟨start, len⟩
        (untilPanic ((List.range' start (min len ((log ops).length - start))).flatMap (itemCut cap chk k (log ops) missing))) := by
  have all := C112_nth (S := S) hc h hr hok hs hk
  have hex : ∀ i, ∃ n, 0 < n ∧ (i < (log ops).length → startOf cap (log ops) i ≤ k → k < endOf cap (log ops) i →
      s.nth (O := O) (Q := Q) cap chk (data.take k) i = .err (.notEnoughData n)) := by
    intro i
    by_cases hx : i < (log ops).length ∧ startOf cap (log ops) i ≤ k ∧ k < endOf cap (log ops) i
    · obtain ⟨n, hn, e⟩ := (all i).2.1 hx.1 hx.2.1 hx.2.2
      exact ⟨n, hn, fun _ _ _ => e⟩
    · exact ⟨1, by omega, fun h1 h2 h3 => absurd ⟨h1, h2, h3⟩ hx⟩
  obtain ⟨missing, hm⟩ := Classical.axiomOfChoice hex
  have hmiss := fun i => (hm i).2
  refine ⟨missing, fun i => (hm i).1, fun len => ?_⟩
  induction len with
  | zero =>
    intro start
    rw [Nat.zero_min]
    exact .done (s' := ⟨start, 0⟩) rfl
  | succ len ih =>
    intro start
    have e : Range.next (O := O) (Q := Q) cap chk s (data.take k) ⟨start, len + 1⟩ = match (s.nth cap chk (data.take k) start : Out (Option (Packet O Q))) with
      | .ok none => (none, ⟨start + 1, len⟩)
      | .ok (some p) => (some (.ok p), ⟨start + 1, len⟩)
      | .err e => (some (.err e), ⟨start + 1, len⟩)
      | .panic => (some .panic, ⟨start + 1, len⟩) := by
      rw [Range.next, if_neg (by simp)]
      simp only [Nat.add_sub_cancel]
      rfl
    by_cases hi : start < (log ops).length
    · have ih := ih (start + 1)
      rw [show min (len + 1) ((log ops).length - start) = min len ((log ops).length - (start + 1)) + 1 by omega, List.range'_succ, List.flatMap_cons]
      obtain ⟨p, hp⟩ : ∃ p, (log ops)[start]? = some p := ⟨_, List.getElem?_eq_getElem hi⟩
      by_cases h1 : endOf cap (log ops) start ≤ k
      · rw [itemCut, if_pos h1, hp]
        rw [(all start).1 hi h1, hp] at e
        exact .step e (fun h => nomatch h) ih
      · by_cases h2 : startOf cap (log ops) start ≤ k
        · rw [itemCut, if_neg h1, if_pos h2]
          rw [hmiss start hi h2 (by omega)] at e
          exact .step e (fun h => nomatch h) ih
        · rw [itemCut, if_neg h1, if_neg h2]
          rw [(all start).2.2.1 hi (by omega)] at e
          cases chk with
          | true => exact .panic e
          | false => exact .step e (fun h => nomatch h) ih
    · rw [show min (len + 1) ((log ops).length - start) = 0 by omega]
      rw [(all start).2.2.2 (by omega)] at e
      exact .done e

/-- Two packets in a slot for two, and only 100 bytes are left: an error for the first packet, and an error or a panic for the second. -/
example (chk : Bool) : ∃ data s n, Reached 2 chk twoPackets data s ∧ 0 < n ∧
    Loops (fun i r => Range.next (O := blockEnum sampleTypes) (Q := PEnum.ops []) 2 chk s (data.take 100) i = r) ⟨0, 5⟩
      [.err (.notEnoughData n), if chk then .panic else .err .io] := by
  have hok : ∀ p ∈ log twoPackets, p.Ok sampleSpec := fun p hp => (twoPackets_storable p hp).ok
  obtain ⟨data, s, hr⟩ := Reached.exists (S := sampleSpec) (cap := 2) (by decide) chk twoPackets twoPackets_storable twoPackets_small_two
  have e0 : endOf 2 [samplePacket, otherPacket] 0 = 161 := by simp [endOf, wire_sample_length]
  have e1 : endOf 2 [samplePacket, otherPacket] 1 = 286 := by simp [endOf, wire_sample_length, wire_other_length]
  have s0 : startOf 2 [samplePacket, otherPacket] 0 = 36 := by simp [startOf]
  have s1 : startOf 2 [samplePacket, otherPacket] 1 = 161 := by simp [startOf, wire_sample_length]
  have hlen : endOf 2 (log twoPackets) 1 = data.length := by
    obtain ⟨gs, v, hd, f, _⟩ := hr.view (S := sampleSpec) (by decide) hok twoPackets_small_two
    have := endOf_last (by decide) v.groups f (by rw [twoPackets_log]; simp)
    rw [hd, ← this, twoPackets_log]
    rfl
  rw [twoPackets_log, e1] at hlen
  obtain ⟨missing, hm, all⟩ := C112_range (S := sampleSpec) (by decide) (.opened hr) hr twoPackets_storable twoPackets_small_two (k := 100) (by omega)
  have := all 5 0
  rw [twoPackets_log, show List.range' 0 (min 5 ([samplePacket, otherPacket].length - 0)) = [0, 1] from rfl, List.flatMap_cons, List.flatMap_cons, List.flatMap_nil, itemCut, itemCut,
    e0, e1, s0, s1, if_neg (by decide), if_pos (by decide), if_neg (by decide), if_neg (by decide)] at this
  refine ⟨data, s, missing 0, hr, hm 0, ?_⟩
  cases chk <;> exact this

end Brec.Props
