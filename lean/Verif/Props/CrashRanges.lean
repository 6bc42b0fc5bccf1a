import Verif.Props.StorageCrash
import Verif.Props.Tail
/-!
# C35: ranges of a storage after an interrupted insert
-/

namespace Brec.Props

open Brec Rd

variable {O : BlockOps} {Q : PayloadOps} {S : BlockSpec O}

/-- A range that lies in the packets that `nth` shows. -/
theorem range_within {cap : Nat} {chk : Bool} {s : Storage} {data : Bytes} {ps : List (Packet O Q)} (hn : ∀ i, i < ps.length → s.nth cap chk data i = .ok ps[i]?) :
    ∀ (len start : Nat), start + len ≤ ps.length → Yields (fun r x => Range.next cap chk s data r = x) ⟨start, len⟩ (((ps.drop start).take len).map .ok)
  | 0, start, _ => by
    rw [List.take_zero]
    exact Yields.done (s' := ⟨start, 0⟩) rfl
  | len + 1, start, h => by
    have hlt : start < ps.length := by omega
    rw [List.drop_eq_getElem_cons hlt, List.take_succ_cons, List.map_cons]
    refine Yields.step (s' := ⟨start + 1, len⟩) ?_ (range_within hn len (start + 1) (by omega))
    unfold Range.next
    rw [if_neg (by simp)]
    dsimp only
    rw [hn _ hlt, List.getElem?_eq_getElem hlt]
    rfl

/-- **C35, ranges.** If the process died in an insert into a slot in use at one of the points that are survived, `range` over any part of the packets inserted before shows exactly this part, in the
order of the inserts and without an error. Missing: the other points, at which nothing can be read (`C35_exact_partial`). -/
theorem C35_range_partial {cap : Nat} (hc : 0 < cap) {chk : Bool} {ops : List (Op O Q)} {w : Writer} {p : Packet O Q} (hw : runOps cap chk ops emptyWriter = some w)
    (hok : ∀ q ∈ log ops, Storable S q) (hp : Storable S p) (hs : Small cap (log ops ++ [p])) (hidx : (log ops).length % cap ≠ 0) (h32 : (wire p).length < 2 ^ 32) {k : Nat}
    (hk : (wire p).length % 256 ^ (k - (16 + 8 * ((log ops).length % cap))) = 0 ∨ 20 + 8 * cap + (wire p).length ≤ k) :
    ∃ s, openReader chk (crashed cap w p k) = some (.ok s) ∧ ∀ (start len : Nat), start + len ≤ (log ops).length → ∀ l : List (Out (Packet O Q)),
      Yields (fun r x => Range.next cap chk s (crashed cap w p k) r = x) ⟨start, len⟩ l ↔ l = (((log ops).drop start).take len).map .ok := by
  obtain ⟨s, e, hn⟩ := ((C35_exact_partial hc hw hok hp hs hidx h32 k).mpr hk).reader
  exact ⟨s, e, fun start len hl l => ⟨fun h => Yields.det h (range_within hn len start hl), fun h => by rw [h]; exact range_within hn len start hl⟩⟩

/-- **C35, ranges, a new slot.** The same if the packet starts a new slot. Missing: the other points (`C35_exact_new_partial`). -/
theorem C35_range_new_partial {cap : Nat} (hc : 2 ≤ cap) {chk : Bool} {ops : List (Op O Q)} {w : Writer} {p : Packet O Q} (hw : runOps cap chk ops emptyWriter = some w)
    (hok : ∀ q ∈ log ops, Storable S q) (hp : Storable S p) (hs : Small cap (log ops ++ [p])) (hidx : (log ops).length % cap = 0) {k : Nat}
    (hk : k < 16 ∨ (chk = false ∧ k < 20 + 8 * cap) ∨ 20 + 8 * cap + (wire p).length ≤ k) :
    ∃ s, openReader chk (crashed cap w p k) = some (.ok s) ∧ ∀ (start len : Nat), start + len ≤ (log ops).length → ∀ l : List (Out (Packet O Q)),
      Yields (fun r x => Range.next cap chk s (crashed cap w p k) r = x) ⟨start, len⟩ l ↔ l = (((log ops).drop start).take len).map .ok := by
  obtain ⟨s, e, hn⟩ := ((C35_exact_new_partial hc hw hok hp hs hidx k).mpr hk).reader
  exact ⟨s, e, fun start len hl l => ⟨fun h => Yields.det h (range_within hn len start hl), fun h => by rw [h]; exact range_within hn len start hl⟩⟩

/-- The hypotheses are met: one packet stored, and the process dies after 24 bytes of the insert of a second one. -/
example : ∃ w s, runOps SLOT_CAPACITY true [.insert samplePacket] emptyWriter = some w ∧ openReader true (crashed SLOT_CAPACITY w samplePacket 24) = some (.ok s) ∧
    Yields (fun r x => Range.next SLOT_CAPACITY true s (crashed SLOT_CAPACITY w samplePacket 24) r = x) ⟨0, 1⟩ [.ok samplePacket] := by
  have hok : ∀ q ∈ log [Op.insert samplePacket], Storable sampleSpec q := by
    intro q hq; rw [List.mem_singleton.mp hq]; exact sample_storable
  obtain ⟨w, _, e, _⟩ := C30_reopen (S := sampleSpec) (cap := SLOT_CAPACITY) (by decide) true [.insert samplePacket] hok sample_small2.left
  obtain ⟨s, o, h⟩ := C35_range_partial (k := 24) (by decide) e hok sample_storable sample_small2 (by decide) (by rw [wire_sample_length]; decide)
    (.inl (by rw [wire_sample_length]; decide))
  exact ⟨w, s, e, o, (h 0 1 (by decide) _).mpr rfl⟩

end Brec.Props
