import Verif.Props.Cut
import Verif.Props.Tail
import Verif.Props.StorageTailFilter
/-!
# C102: ranges of a storage file that was cut short

`range` and `range_filtered` of a file that opens after a cut, from any packet and of any length.
-/

namespace Brec.Props

open Brec Rd

variable {O : BlockOps} {Q : PayloadOps} {S : BlockSpec O}

/-- **C102, ranges.** Where a cut leaves a file that opens, `range` gives the packets of the slots before the cut from `start` on, at most `len` of them, and `range_filtered` the first `len` of
those that the rules accept; nothing else, and no error. This holds also for ranges that reach beyond the cut. Missing: the cuts that are missing in `C102_opens_partial`. -/
theorem C102_ranges_partial {cap : Nat} (hc : 2 ≤ cap) {chk : Bool} {ops : List (Op O Q)} {data : Bytes} {s : Storage} (h : Reached cap chk ops data s)
    (hok : ∀ p ∈ log ops, Storable S p) (hs : Small cap (log ops)) {j k : Nat} (hj : j * cap < (log ops).length) (h1 : slotAt cap (log ops) j ≤ k)
    (h2 : k < slotAt cap (log ops) j + 16 ∨ (chk = false ∧ k < slotAt cap (log ops) j + (20 + 8 * cap))) :
    ∃ s', openReader chk (data.take k) = some (.ok s') ∧ ∀ (start len : Nat) (l : List (Out (Packet O Q))),
      (Yields (fun r x => Range.next cap chk s' (data.take k) r = x) ⟨start, len⟩ l ↔ l = ((((log ops).take (j * cap)).drop start).take len).map .ok) ∧
      ∀ rules : Rules O.BR (Packet O Q), Yields (fun r x => ∃ fuel, Range.nextFiltered cap rules s' (data.take k) fuel r = some x) ⟨start, len⟩ l ↔
        l = (((((log ops).take (j * cap)).drop start).filter (accepted S rules)).take len).map .ok := by
  obtain ⟨s', e, _, hn, _, _, hf⟩ := (C102_opens_partial hc h hok hs hj h1 h2).reader
  refine ⟨s', e, fun start len l => ⟨range_det hn start len l, fun rules => ?_⟩⟩
  have hy := rangeFiltered_yields (S := S) (hf rules) _ start len (Nat.le_refl _)
  exact ⟨fun h => rangeFiltered_det h hy, fun h => by rw [h]; exact hy⟩

/-- The hypotheses are met: three packets in slots of two and a cut 15 bytes into the second slot; a range from the second packet on that reaches beyond the cut. -/
example (chk : Bool) : ∃ data s s', Reached 2 chk threeOps data s ∧ openReader chk (data.take (slotAt 2 (log threeOps) 1 + 15)) = some (.ok s') ∧
    Yields (fun r x => Range.next 2 chk s' (data.take (slotAt 2 (log threeOps) 1 + 15)) r = x) ⟨1, 5⟩ [.ok samplePacket] := by
  obtain ⟨data, s, hr⟩ := Reached.exists (S := sampleSpec) (cap := 2) (by decide) chk _ threeOps_storable threeOps_small
  obtain ⟨s', e, h⟩ := C102_ranges_partial (S := sampleSpec) (j := 1) (k := slotAt 2 (log threeOps) 1 + 15) (by decide) hr threeOps_storable threeOps_small
    (by rw [threeOps_log]; decide) (by omega) (.inl (by omega))
  refine ⟨data, s, s', hr, e, (h 1 5 _).1.mpr ?_⟩
  rw [threeOps_log]
  rfl

end Brec.Props
