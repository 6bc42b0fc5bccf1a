import Verif.Props.StorageShrinkTail
import Verif.Props.Unique
/-!
# C118: following a storage with a filter

The program of C98 and C117, which reads on with `range_filtered`.
-/

namespace Brec.Props

open Brec Rd

variable {O : BlockOps} {Q : PayloadOps} {S : BlockSpec O}

/-! ## Specification -/

/-- `range_filtered(n, count() - n)` and the loop over it. -/
def byRangeFiltered (cap : Nat) (rules : Rules O.BR (Packet O Q)) (s : Storage) (data : Bytes) (n : Nat) (l : List (Out (Packet O Q))) : Prop :=
  Yields (fun r x => ∃ fuel, Range.nextFiltered cap rules s data fuel r = some x) ⟨n, s.count cap - n⟩ l

/-- **C118, full statement** (false): after every batch exactly its accepted packets are shown, and `reload` returns the number of all its packets; nothing is shown while the file is not all
there. -/
def C118_full (Q : PayloadOps) (S : BlockSpec O) (cap : Nat) (chk : Bool) : Prop :=
  ∀ (rules : Rules O.BR (Packet O Q)) (ops : List (Op O Q)) (data : Bytes) (s : Storage) (rs : List (Round O Q)), Reached cap chk ops data s →
    (∀ p ∈ log (ops ++ (batchesOf rs).flatten), Storable S p) → Small cap (log (ops ++ (batchesOf rs).flatten)) →
    Through cap chk (byRangeFiltered cap rules) ops s rs (newsOf (fun qs => (qs.filter (accepted S rules)).map .ok) rs)

/-! ## Lemmas -/

theorem rangeFiltered_mono {cap : Nat} {rules : Rules O.BR (Packet O Q)} {s : Storage} {data : Bytes} : ∀ {n m : Nat} {r : Range} {x}, Range.nextFiltered cap rules s data n r = some x →
    n ≤ m → Range.nextFiltered cap rules s data m r = some x
  | 0, _, _, _, h, _ => by cases h
  | n + 1, 0, _, _, _, hle => by omega
  | n + 1, m + 1, r, x, h, hle => by
    rw [Range.nextFiltered.eq_def] at h ⊢
    simp only at h ⊢
    by_cases hz : r.len = 0
    · rw [if_pos hz] at h ⊢; exact h
    · rw [if_neg hz] at h ⊢
      split at h
      · exact h
      · exact h
      · exact rangeFiltered_mono h (by omega)
      · exact h
      · exact h
      · exact h

theorem rangeFiltered_det {cap : Nat} {rules : Rules O.BR (Packet O Q)} {s : Storage} {data : Bytes} {r : Range} {a b : List (Out (Packet O Q))}
    (h : Yields (fun r x => ∃ fuel, Range.nextFiltered cap rules s data fuel r = some x) r a)
    (h' : Yields (fun r x => ∃ fuel, Range.nextFiltered cap rules s data fuel r = some x) r b) : a = b :=
  Yields.det_fuel (f := fun n r => Range.nextFiltered cap rules s data n r) (fun h hle => rangeFiltered_mono h hle) h h'

theorem filtered_rest {cap : Nat} (hc : 0 < cap) (rules : Rules O.BR (Packet O Q)) {gs : List (List Bytes)} {s : Storage} {ps qs : List (Packet O Q)} (v : View cap gs s)
    (f : gs.flatten = (ps ++ qs).map wire) (hok : ∀ p ∈ ps ++ qs, Storable S p) (l : List (Out (Packet O Q))) :
    byRangeFiltered cap rules s (fileOf cap gs) ps.length l ↔ l = (qs.filter (accepted S rules)).map .ok := by
  unfold byRangeFiltered
  have hy := rangeFiltered_yields (S := S) (fun n => nthFiltered_log hc v f (fun p hp => (hok p hp).ok) rules n) _ ps.length (s.count cap - ps.length) (Nat.le_refl _)
  rw [List.drop_left, List.take_of_length_le (Nat.le_trans (List.length_filter_le _ _) (by rw [v.count, f, List.length_map, List.length_append]; omega))] at hy
  exact ⟨fun h => rangeFiltered_det h hy, fun h => by rw [h]; exact hy⟩

theorem filtered_none {cap : Nat} (rules : Rules O.BR (Packet O Q)) {gs : List (List Bytes)} {s : Storage} {ps : List (Packet O Q)} (v : View cap gs s) (f : gs.flatten = ps.map wire)
    (data : Bytes) (l : List (Out (Packet O Q))) : byRangeFiltered cap rules s data ps.length l ↔ l = [] := by
  unfold byRangeFiltered
  rw [show s.count cap - ps.length = 0 by rw [v.count, f, List.length_map, Nat.sub_self]]
  have hn : Yields (fun r x => ∃ fuel, Range.nextFiltered cap rules s data fuel r = some x) ⟨ps.length, 0⟩ [] := .done (s' := ⟨ps.length, 0⟩) ⟨1, by simp [Range.nextFiltered]⟩
  exact ⟨fun h => rangeFiltered_det h hn, fun h => by rw [h]; exact hn⟩

/-! ## What holds -/

/-- **C118.** If every batch is counted (C98), the program shows after every batch exactly those of its packets that the rules accept, and nothing while the file is not all there. The number
of packets that were refused does not matter. Missing: the batches that are missing in C98 (`C118_not`). -/
theorem C118_filtered_partial {cap : Nat} (hc : 2 ≤ cap) {chk : Bool} (rules : Rules O.BR (Packet O Q)) {ops : List (Op O Q)} {s : Storage} (h : Watching cap chk ops s)
    (rs : List (Round O Q)) (hok : ∀ p ∈ log (ops ++ (batchesOf rs).flatten), Storable S p) (hs : Small cap (log (ops ++ (batchesOf rs).flatten)))
    (hb : AllOf (Counted cap) (log ops) (batchesOf rs)) (a : List (Option Nat × List (Out (Packet O Q)))) :
    Through cap chk (byRangeFiltered cap rules) ops s rs a ↔ a = newsOf (fun qs => (qs.filter (accepted S rules)).map .ok) rs := by
  obtain ⟨gs, v, f⟩ := h.view (S := S) (by omega) (fun p hp => (hok p (by rw [log_append]; exact List.mem_append_left _ hp)).ok) (by rw [log_append] at hs; exact hs.left)
  exact through_iff (S := S) hc (ok := Counted cap) (news := fun qs => (qs.filter (accepted S rules)).map .ok) id (fun v f _ hok _ l => filtered_rest (by omega) rules v f hok l)
    (fun v f data l => filtered_none rules v f data l) rs ops gs s v f hok hs hb a

/-- **C118, one packet at a time.** A program that sees all of the file at least once between any two inserts is shown every accepted packet once, in the first round after its insert with all
of the file, and no other packet, if no packet has 4 GiB. -/
theorem C118_each_partial {cap : Nat} (hc : 2 ≤ cap) {chk : Bool} (rules : Rules O.BR (Packet O Q)) {ops : List (Op O Q)} {s : Storage} (h : Watching cap chk ops s)
    (rs : List (Round O Q)) (hok : ∀ p ∈ log (ops ++ (batchesOf rs).flatten), Storable S p) (hs : Small cap (log (ops ++ (batchesOf rs).flatten)))
    (h32 : ∀ p ∈ log (batchesOf rs).flatten, (wire p).length < 2 ^ 32) (h1 : ∀ b ∈ batchesOf rs, (log b).length ≤ 1) (a : List (Option Nat × List (Out (Packet O Q)))) :
    Through cap chk (byRangeFiltered cap rules) ops s rs a ↔ a = newsOf (fun qs => (qs.filter (accepted S rules)).map .ok) rs := by
  have hb := small_batches (S := S) hc (batchesOf rs) (log ops) h1 fun b hb q hq =>
    ⟨hok q (by rw [log_append]; exact List.mem_append_right _ (mem_log_flatten hb hq)), h32 q (mem_log_flatten hb hq)⟩
  exact C118_filtered_partial hc rules h rs hok hs (hb.mono And.left) a

/-! ## What goes wrong -/

/-- **C118 is false of the code**: `reload` says that there are no packets if exactly one slot has been filled (C98). -/
theorem C118_not (chk : Bool) : ¬ C118_full (PEnum.ops []) sampleSpec SLOT_CAPACITY chk := by
  intro hfull
  obtain ⟨data, s, h⟩ := nothing_reached chk
  have hl2 : log ((List.replicate 500 samplePacket).map Op.insert) = List.replicate 500 samplePacket := log_inserts _
  have hok : ∀ p ∈ log ([] ++ (List.replicate 500 samplePacket).map Op.insert), Storable sampleSpec p := by
    rw [List.nil_append, hl2]; intro p hp; rw [(List.mem_replicate.mp hp).2]; exact sample_storable
  have hs : Small SLOT_CAPACITY (log ([] ++ (List.replicate 500 samplePacket).map Op.insert)) := by
    have := sample_small
    rw [List.replicate_succ'] at this
    rw [List.nil_append, hl2]
    exact this.left
  have h1 := hfull [] [] data s [.batch ((List.replicate 500 samplePacket).map Op.insert)] h
    (by rw [batchesOf, batchesOf, List.flatten_cons, List.flatten_nil, List.append_nil]; exact hok)
    (by rw [batchesOf, batchesOf, List.flatten_cons, List.flatten_nil, List.append_nil]; exact hs)
  simp only [newsOf, List.map_cons, List.map_nil] at h1
  cases h1 with
  | batch hw hre _ _ =>
    obtain ⟨s2, e2, _⟩ := C37_reload_partial (S := sampleSpec) (cap := SLOT_CAPACITY) (by decide) (.opened h) hw hok hs (.inl rfl)
    rw [hre, if_pos (by
      rw [List.nil_append, hl2, List.length_replicate]
      exact ⟨rfl, fun h => absurd (congrArg List.length h) (by rw [List.length_replicate]; decide), rfl⟩), hl2, List.length_replicate] at e2
    injection e2 with e2
    injection e2 with e2 _
    injection e2 with e2
    exact absurd e2 (by decide)

/-- A rule that refuses one of the two packets. -/
def noSample : Rules (blockEnum sampleTypes).BR (Packet (blockEnum sampleTypes) (PEnum.ops [])) := [.filter fun p => wire p != wire samplePacket]

/-- The hypotheses are met: a packet that is refused, a round with five bytes of the file, and a packet that is accepted. -/
example (chk : Bool) : ∃ data s, Reached SLOT_CAPACITY chk ([] : List (Op (blockEnum sampleTypes) (PEnum.ops []))) data s ∧
    Through SLOT_CAPACITY chk (byRangeFiltered SLOT_CAPACITY noSample) [] s [.batch [.insert samplePacket], .part 5, .batch [.reopen, .insert otherPacket]]
      [(some 1, []), (none, []), (some 1, [.ok otherPacket])] := by
  obtain ⟨data, s, h⟩ := nothing_reached chk
  refine ⟨data, s, h, ?_⟩
  have h1 : accepted sampleSpec noSample samplePacket = false := by decide +kernel
  have h2 : accepted sampleSpec noSample otherPacket = true := by decide +kernel
  refine (C118_each_partial (S := sampleSpec) (by decide) noSample (.opened h) _ ?_ ?_ ?_ ?_ _).mpr ?_
  · intro p hp
    simp only [batchesOf, log, List.flatten_cons, List.flatten_nil, List.nil_append, List.cons_append, List.append_nil, List.mem_cons, List.not_mem_nil, or_false] at hp
    rcases hp with rfl | rfl
    · exact sample_storable
    · exact otherPacket_storable
  · simp [Small, batchesOf, log, wire_sample_length, wire_other_length, SLOT_CAPACITY]
  · intro p hp
    simp only [batchesOf, log, List.flatten_cons, List.flatten_nil, List.nil_append, List.cons_append, List.append_nil, List.mem_cons, List.not_mem_nil, or_false] at hp
    rcases hp with rfl | rfl
    · rw [wire_sample_length]; decide
    · rw [wire_other_length]; decide
  · decide
  · simp only [newsOf, List.map_cons, List.map_nil, log, List.filter_cons, List.filter_nil, h1, h2]
    rfl

end Brec.Props
