import Verif.Props.Cut
import Verif.Props.Tail
/-!
# C121: following a storage by opening whatever is there of it

As in C120 the program opens the storage anew in each round; but it may find only the beginning of the file (a copy under way), of packets it has shown and of packets it has not.
-/

namespace Brec.Props

open Brec Rd

variable {O : BlockOps} {Q : PayloadOps} {S : BlockSpec O}

/-! ## Specification -/

/-- The program: after any batch of the writer it opens the first `k` bytes of the file (all of it, if `k` is large). If that fails, in whatever way, it waits for the next round. If not, it reads
with `range` from `n`, the number of packets it has shown, to `count()`. The last argument is all that has been shown. -/
inductive Careful (cap : Nat) (chk : Bool) : List (Op O Q) → Nat → List (Out (Packet O Q)) → Prop
  | start : Careful cap chk [] 0 []
  | failed {ops b : List (Op O Q)} {n k : Nat} {w : Writer} {shown : List (Out (Packet O Q))} : Careful cap chk ops n shown → runOps cap chk (ops ++ b) emptyWriter = some w →
      (∀ s, openReader chk (w.data.take k) ≠ some (.ok s)) → Careful cap chk (ops ++ b) n shown
  | opened {ops b : List (Op O Q)} {n k : Nat} {w : Writer} {s : Storage} {shown l : List (Out (Packet O Q))} : Careful cap chk ops n shown →
      runOps cap chk (ops ++ b) emptyWriter = some w → openReader chk (w.data.take k) = some (.ok s) → byRange cap chk s (w.data.take k) n l →
      Careful cap chk (ops ++ b) (max n (s.count cap)) (shown ++ l)

/-! ## Lemmas -/

/-- The beginning of a file, if it opens, shows the beginning of the log. -/
theorem open_part {cap : Nat} (hc : 2 ≤ cap) {chk : Bool} {ops : List (Op O Q)} {w : Writer} {s : Storage} {k : Nat} (hw : runOps cap chk ops emptyWriter = some w)
    (hok : ∀ p ∈ log ops, Storable S p) (hs : Small cap (log ops)) (h : openReader chk (w.data.take k) = some (.ok s)) :
    ∃ m, m ≤ (log ops).length ∧ (w.data.length ≤ k → m = (log ops).length) ∧ s.count cap = m ∧
      (∀ i, s.nth cap chk (w.data.take k) i = .ok ((log ops).take m)[i]?) ∧
      ∀ (rules : Rules O.BR (Packet O Q)) (i : Nat), (((log ops).take m)[i]? = none ∧ s.nthFiltered cap rules (w.data.take k) i = .ok none) ∨
        ∃ p n, ((log ops).take m)[i]? = some p ∧ s.nthFiltered cap rules (w.data.take k) i = .ok (some (if accepted S rules p then .accepted n p else .denied n)) := by
  obtain ⟨data, s0, hr⟩ := Reached.exists (S := S) (by omega : 0 < cap) chk ops hok hs
  obtain ⟨w', e, hd⟩ := hr.run
  rw [hw] at e
  injection e with e
  subst e
  subst hd
  by_cases hk : k < w.data.length
  · obtain ⟨j, hj, h1, h2⟩ := C102_cases (S := S) (by omega) hr (fun p hp => (hok p hp).ok) hs hk
    by_cases h3 : slotAt cap (log ops) j + (if chk then 16 else 20 + 8 * cap) ≤ k
    · have := (C102_lost (S := S) hc hr (fun p hp => (hok p hp).ok) hs hj h3 h2).1
      rw [h] at this
      cases chk <;> simp at this
    · have hp := C102_opens_partial (S := S) hc hr hok hs hj h1 (by
        cases chk
        · exact .inr ⟨rfl, by simpa using h3⟩
        · exact .inl (by simpa using h3))
      obtain ⟨s', e1, e2, e3, _, _, e4⟩ := hp.reader
      rw [h] at e1
      injection e1 with e1
      injection e1 with e1
      subst e1
      refine ⟨j * cap, by omega, fun h => absurd h (by omega), ?_, e3, e4⟩
      rw [e2, List.length_take]
      omega
  · have hall : w.data.take k = w.data := List.take_of_length_le (by omega)
    rw [hall] at h ⊢
    obtain ⟨gs, v, hd, f, _⟩ := (show Reached cap chk ops w.data s from ⟨⟨w, hw, rfl⟩, h⟩).view (by omega) (fun p hp => (hok p hp).ok) hs
    refine ⟨(log ops).length, Nat.le_refl _, fun _ => rfl, by rw [v.count, f, List.length_map], fun i => ?_, fun rules i => ?_⟩
    · rw [List.take_length, hd]
      exact view_log (by omega) chk v f hok i
    · rw [List.take_length, hd]
      exact nthFiltered_log (by omega) v f (fun p hp => (hok p hp).ok) rules i

/-! ## What holds -/

/-- **C121.** Whatever the batches are and whatever part of the file was there in each round: all that has been shown is the beginning of the log, no packet twice, none left out, none out of
order, and no error. -/
theorem C121_shown {cap : Nat} (hc : 2 ≤ cap) {chk : Bool} {ops : List (Op O Q)} {n : Nat} {shown : List (Out (Packet O Q))} (h : Careful cap chk ops n shown) :
    (∀ p ∈ log ops, Storable S p) → Small cap (log ops) → n ≤ (log ops).length ∧ shown = ((log ops).take n).map .ok := by
  induction h with
  | start => exact fun _ _ => ⟨Nat.zero_le _, rfl⟩
  | failed _ _ _ ih =>
    intro hok hs
    rw [log_append] at hok hs ⊢
    obtain ⟨h1, h2⟩ := ih (fun p hp => hok p (by simp [hp])) hs.left
    exact ⟨by rw [List.length_append]; omega, by rw [h2, List.take_append_of_le_length h1]⟩
  | @opened ops b n k w s shown l _ hw ho hl ih =>
    intro hok hs
    obtain ⟨m, hm, _, hcnt, hn, _⟩ := open_part (S := S) hc hw hok hs ho
    rw [log_append] at hok hs
    obtain ⟨h1, h2⟩ := ih (fun p hp => hok p (by simp [hp])) hs.left
    have h3 : n ≤ (log (ops ++ b)).length := by rw [log_append, List.length_append]; omega
    have h4 : (log ops).take n = (log (ops ++ b)).take n := by rw [log_append, List.take_append_of_le_length h1]
    unfold byRange at hl
    rw [range_det hn, hcnt] at hl
    refine ⟨by omega, ?_⟩
    rw [hl, h2, h4, ← List.map_append, hcnt]
    congr 1
    by_cases hle : n ≤ m
    · rw [Nat.max_eq_right hle, List.take_of_length_le (l := List.drop n _) (by rw [List.length_drop, List.length_take]; omega)]
      conv => rhs; rw [← List.take_append_drop n ((log (ops ++ b)).take m), List.take_take, Nat.min_eq_left hle]
    · rw [Nat.max_eq_left (by omega), show m - n = 0 by omega, List.take_zero, List.append_nil]

/-- **C121, the whole file.** In a round with all of the file opening succeeds, and afterwards everything has been shown. -/
theorem C121_whole {cap : Nat} (hc : 2 ≤ cap) {chk : Bool} {ops b : List (Op O Q)} {n k : Nat} {w : Writer} {shown : List (Out (Packet O Q))} (h : Careful cap chk ops n shown)
    (hw : runOps cap chk (ops ++ b) emptyWriter = some w) (hk : w.data.length ≤ k) (hok : ∀ p ∈ log (ops ++ b), Storable S p) (hs : Small cap (log (ops ++ b))) :
    ∃ s l, openReader chk (w.data.take k) = some (.ok s) ∧ byRange cap chk s (w.data.take k) n l ∧ max n (s.count cap) = (log (ops ++ b)).length ∧
      shown ++ l = (log (ops ++ b)).map .ok := by
  obtain ⟨data, s, hr⟩ := Reached.exists (S := S) (by omega : 0 < cap) chk (ops ++ b) hok hs
  obtain ⟨w', e, hd⟩ := hr.run
  rw [hw] at e
  injection e with e
  subst e
  subst hd
  have ho : openReader chk (w.data.take k) = some (.ok s) := by rw [List.take_of_length_le hk]; exact hr.read
  obtain ⟨m, _, hm, hcnt, hn, _⟩ := open_part (S := S) hc hw hok hs ho
  have hm := hm hk
  have hl := (range_det hn n (s.count cap - n) _).mpr rfl
  have hc2 := Careful.opened h hw ho hl
  obtain ⟨h1, h2⟩ := C121_shown (S := S) hc hc2 hok hs
  have hmax : max n (s.count cap) = (log (ops ++ b)).length := by omega
  rw [hmax, List.take_length] at h2
  exact ⟨s, _, ho, hl, hmax, h2⟩

/-- The hypotheses are met: slots of two packets; of the file of three packets only the first slot is there in the first round, and all of it in the second. -/
example (chk : Bool) : ∃ ops : List (Op (blockEnum sampleTypes) (PEnum.ops [])), Careful 2 chk ops 2 [.ok samplePacket, .ok otherPacket] ∧
    Careful 2 chk (ops ++ []) 3 [.ok samplePacket, .ok otherPacket, .ok samplePacket] := by
  have hlog : log ([] ++ [.insert samplePacket, .insert otherPacket, .insert samplePacket] : List (Op (blockEnum sampleTypes) (PEnum.ops []))) = [samplePacket, otherPacket, samplePacket] := rfl
  have hok : ∀ p ∈ log ([] ++ [.insert samplePacket, .insert otherPacket, .insert samplePacket] : List (Op (blockEnum sampleTypes) (PEnum.ops []))), Storable sampleSpec p := by
    rw [hlog]
    intro p hp
    simp only [List.mem_cons, List.not_mem_nil, or_false] at hp
    rcases hp with rfl | rfl | rfl
    · exact sample_storable
    · exact otherPacket_storable
    · exact sample_storable
  have hs : Small 2 (log ([] ++ [.insert samplePacket, .insert otherPacket, .insert samplePacket] : List (Op (blockEnum sampleTypes) (PEnum.ops [])))) := by
    rw [hlog]; simp [Small, wire_sample_length, wire_other_length]
  obtain ⟨data, s, hr⟩ := Reached.exists (S := sampleSpec) (by decide : 0 < 2) chk _ hok hs
  obtain ⟨w, hw, rfl⟩ := hr.run
  obtain ⟨s1, e1, e2, e3, _⟩ := (C102_opens_partial (S := sampleSpec) (by decide) hr hok hs (j := 1) (k := slotAt 2 _ 1) (by rw [hlog]; decide) (Nat.le_refl _) (.inl (by omega))).reader
  have e2' : s1.count 2 = 2 := by rw [e2, hlog]; rfl
  have c1 := Careful.opened .start hw e1 ((range_det e3 0 (s1.count 2 - 0) _).mpr rfl)
  have hmax : max 0 (s1.count 2) = 2 := by omega
  rw [hmax] at c1
  have hsh := (C121_shown (S := sampleSpec) (by decide) c1 hok hs).2
  rw [hsh, hlog] at c1
  refine ⟨_, c1, ?_⟩
  have hw2 := hw
  rw [← List.append_nil ([] ++ _)] at hw2
  obtain ⟨s2, l, o2, b2, m2, h2⟩ := C121_whole (S := sampleSpec) (by decide) c1 hw2 (Nat.le_refl _) (by rw [List.append_nil]; exact hok) (by rw [List.append_nil]; exact hs)
  have c2 := Careful.opened c1 hw2 o2 b2
  rw [m2, h2, List.append_nil, hlog] at c2
  rw [List.append_nil]
  exact c2

end Brec.Props
