import Verif.Props.StorageCareful
import Verif.Props.StorageTailFilter
/-!
# C121: following a storage by opening whatever is there of it, with a filter

The program of `StorageCareful`, which reads on with `range_filtered`.
-/

namespace Brec.Props

open Brec Rd

variable {O : BlockOps} {Q : PayloadOps} {S : BlockSpec O}

/-! ## Specification -/

/-- The program: as `Careful`, but it reads with `range_filtered` from `n`, the number of packets it has gone through, to `count()`. -/
inductive CarefulFiltered (cap : Nat) (chk : Bool) (rules : Rules O.BR (Packet O Q)) : List (Op O Q) → Nat → List (Out (Packet O Q)) → Prop
  | start : CarefulFiltered cap chk rules [] 0 []
  | failed {ops b : List (Op O Q)} {n k : Nat} {w : Writer} {shown : List (Out (Packet O Q))} : CarefulFiltered cap chk rules ops n shown →
      runOps cap chk (ops ++ b) emptyWriter = some w → (∀ s, openReader chk (w.data.take k) ≠ some (.ok s)) → CarefulFiltered cap chk rules (ops ++ b) n shown
  | opened {ops b : List (Op O Q)} {n k : Nat} {w : Writer} {s : Storage} {shown l : List (Out (Packet O Q))} : CarefulFiltered cap chk rules ops n shown →
      runOps cap chk (ops ++ b) emptyWriter = some w → openReader chk (w.data.take k) = some (.ok s) → byRangeFiltered cap rules s (w.data.take k) n l →
      CarefulFiltered cap chk rules (ops ++ b) (max n (s.count cap)) (shown ++ l)

/-! ## Lemmas -/

/-- What `range_filtered` gives on a file that shows the packets `ps`. -/
theorem filtered_part {cap : Nat} {rules : Rules O.BR (Packet O Q)} {s : Storage} {data : Bytes} {ps : List (Packet O Q)} (hcnt : s.count cap = ps.length)
    (hn : ∀ i, (ps[i]? = none ∧ s.nthFiltered cap rules data i = .ok none) ∨
      ∃ p n, ps[i]? = some p ∧ s.nthFiltered cap rules data i = .ok (some (if accepted S rules p then .accepted n p else .denied n)))
    (n : Nat) (l : List (Out (Packet O Q))) : byRangeFiltered cap rules s data n l ↔ l = ((ps.drop n).filter (accepted S rules)).map .ok := by
  unfold byRangeFiltered
  have hy := rangeFiltered_yields (S := S) hn _ n (s.count cap - n) (Nat.le_refl _)
  rw [List.take_of_length_le (Nat.le_trans (List.length_filter_le _ _) (by rw [hcnt, List.length_drop]; omega))] at hy
  exact ⟨fun h => rangeFiltered_det h hy, fun h => by rw [h]; exact hy⟩

/-! ## What holds -/

/-- **C121, filtered.** Whatever the batches are and whatever part of the file was there in each round: all that has been shown are those packets of the beginning of the log that the rules
accept, none twice, none left out, none out of order, and no error. -/
theorem C121_filtered {cap : Nat} (hc : 2 ≤ cap) {chk : Bool} {rules : Rules O.BR (Packet O Q)} {ops : List (Op O Q)} {n : Nat} {shown : List (Out (Packet O Q))}
    (h : CarefulFiltered cap chk rules ops n shown) :
    (∀ p ∈ log ops, Storable S p) → Small cap (log ops) → n ≤ (log ops).length ∧ shown = (((log ops).take n).filter (accepted S rules)).map .ok := by
  induction h with
  | start => exact fun _ _ => ⟨Nat.zero_le _, rfl⟩
  | failed _ _ _ ih =>
    intro hok hs
    rw [log_append] at hok hs ⊢
    obtain ⟨h1, h2⟩ := ih (fun p hp => hok p (by simp [hp])) hs.left
    exact ⟨by rw [List.length_append]; omega, by rw [h2, List.take_append_of_le_length h1]⟩
  | @opened ops b n k w s shown l _ hw ho hl ih =>
    intro hok hs
    obtain ⟨m, hm, _, hcnt, _, hn⟩ := open_part (S := S) hc hw hok hs ho
    rw [log_append] at hok hs
    obtain ⟨h1, h2⟩ := ih (fun p hp => hok p (by simp [hp])) hs.left
    have h3 : n ≤ (log (ops ++ b)).length := by rw [log_append, List.length_append]; omega
    have h4 : (log ops).take n = (log (ops ++ b)).take n := by rw [log_append, List.take_append_of_le_length h1]
    rw [filtered_part (S := S) (by rw [hcnt, List.length_take]; omega) (hn _)] at hl
    refine ⟨by omega, ?_⟩
    rw [hl, h2, h4, ← List.map_append, ← List.filter_append, hcnt]
    congr 2
    by_cases hle : n ≤ m
    · rw [Nat.max_eq_right hle]
      conv => rhs; rw [← List.take_append_drop n ((log (ops ++ b)).take m), List.take_take, Nat.min_eq_left hle]
    · rw [Nat.max_eq_left (by omega), List.drop_eq_nil_of_le (by rw [List.length_take]; omega), List.append_nil]

/-- **C121, filtered, the whole file.** In a round with all of the file opening succeeds, and afterwards every packet that the rules accept has been shown. -/
theorem C121_filtered_whole {cap : Nat} (hc : 2 ≤ cap) {chk : Bool} {rules : Rules O.BR (Packet O Q)} {ops b : List (Op O Q)} {n k : Nat} {w : Writer}
    {shown : List (Out (Packet O Q))} (h : CarefulFiltered cap chk rules ops n shown) (hw : runOps cap chk (ops ++ b) emptyWriter = some w) (hk : w.data.length ≤ k)
    (hok : ∀ p ∈ log (ops ++ b), Storable S p) (hs : Small cap (log (ops ++ b))) :
    ∃ s l, openReader chk (w.data.take k) = some (.ok s) ∧ byRangeFiltered cap rules s (w.data.take k) n l ∧ max n (s.count cap) = (log (ops ++ b)).length ∧
      shown ++ l = ((log (ops ++ b)).filter (accepted S rules)).map .ok := by
  obtain ⟨data, s, hr⟩ := Reached.exists (S := S) (by omega : 0 < cap) chk (ops ++ b) hok hs
  obtain ⟨w', e, hd⟩ := hr.run
  rw [hw] at e
  injection e with e
  subst e
  subst hd
  have ho : openReader chk (w.data.take k) = some (.ok s) := by rw [List.take_of_length_le hk]; exact hr.read
  obtain ⟨m, _, hm, hcnt, _, hn⟩ := open_part (S := S) hc hw hok hs ho
  have hm := hm hk
  have hl := (filtered_part (S := S) (by rw [hcnt, List.length_take]; omega) (hn rules) n _).mpr rfl
  have hc2 := CarefulFiltered.opened h hw ho hl
  obtain ⟨h1, h2⟩ := C121_filtered (S := S) hc hc2 hok hs
  have hmax : max n (s.count cap) = (log (ops ++ b)).length := by omega
  rw [hmax, List.take_length] at h2
  exact ⟨s, _, ho, hl, hmax, h2⟩

/-- The hypotheses are met: two packets, one of which is refused. -/
example (chk : Bool) : ∃ ops : List (Op (blockEnum sampleTypes) (PEnum.ops [])), CarefulFiltered 2 chk noSample ops 2 [.ok otherPacket] := by
  have hlog : log ([] ++ [.insert samplePacket, .insert otherPacket] : List (Op (blockEnum sampleTypes) (PEnum.ops []))) = [samplePacket, otherPacket] := rfl
  have hok : ∀ p ∈ log ([] ++ [.insert samplePacket, .insert otherPacket] : List (Op (blockEnum sampleTypes) (PEnum.ops []))), Storable sampleSpec p := by
    rw [hlog]
    intro p hp
    simp only [List.mem_cons, List.not_mem_nil, or_false] at hp
    rcases hp with rfl | rfl
    · exact sample_storable
    · exact otherPacket_storable
  have hs : Small 2 (log ([] ++ [.insert samplePacket, .insert otherPacket] : List (Op (blockEnum sampleTypes) (PEnum.ops [])))) := by
    rw [hlog]; simp [Small, wire_sample_length, wire_other_length]
  have a1 : accepted sampleSpec noSample samplePacket = false := by decide +kernel
  have a2 : accepted sampleSpec noSample otherPacket = true := by decide +kernel
  obtain ⟨data, s, hr⟩ := Reached.exists (S := sampleSpec) (by decide : 0 < 2) chk _ hok hs
  obtain ⟨w, hw, rfl⟩ := hr.run
  obtain ⟨s1, l, o1, b1, m1, h1⟩ := C121_filtered_whole (S := sampleSpec) (rules := noSample) (by decide) .start hw (Nat.le_refl _) hok hs
  have c1 := CarefulFiltered.opened .start hw o1 b1
  have hf : ([samplePacket, otherPacket].filter (accepted sampleSpec noSample)) = [otherPacket] := by
    simp only [List.filter_cons, List.filter_nil, a1, a2]
    rfl
  rw [m1, h1, hlog, hf] at c1
  exact ⟨_, c1⟩

end Brec.Props
