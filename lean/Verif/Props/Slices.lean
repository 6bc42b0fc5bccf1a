import Verif.Sink
/-!
# Property C21: vectored writing
-/

namespace Brec.Props

open Brec

/-- **C21**. For any slices, any sink and any schedule of partial vectored writes:
success means the sink received exactly the concatenation of the slices; in every case what was received is
a prefix of it; and the call never panics. -/
theorem C21_vectored_write (src : List Bytes) (s : Sink) :
    ((writeVectoredAll src).run s).1 ≠ .panic ∧
    (((writeVectoredAll src).run s).1 = .ok () → ((writeVectoredAll src).run s).2.got = s.got ++ src.flatten) ∧
    (∃ k, ((writeVectoredAll src).run s).2.got = s.got ++ src.flatten.take k) := by
  obtain ⟨sched, got⟩ := s
  suffices H : ∀ (sched : List Resp) (w : Nat), w ≤ src.flatten.length →
      (writeVectoredAllAux src sched w (got ++ src.flatten.take w)).1 ≠ .panic ∧
      ((writeVectoredAllAux src sched w (got ++ src.flatten.take w)).1 = .ok () →
        (writeVectoredAllAux src sched w (got ++ src.flatten.take w)).2.got = got ++ src.flatten) ∧
      (∃ k, (writeVectoredAllAux src sched w (got ++ src.flatten.take w)).2.got = got ++ src.flatten.take k) by
    have := H sched 0 (Nat.zero_le _)
    simpa [writeVectoredAll] using this
  intro sched
  induction sched with
  | nil =>
    intro w hw
    simp only [writeVectoredAllAux, inWork_flatten, Nat.sub_zero, List.append_assoc, List.take_append_drop]
    exact ⟨by simp, by simp, src.flatten.length, by rw [List.take_length]⟩
  | cons r rs ih =>
    intro w hw
    rw [writeVectoredAllAux.eq_def]
    simp only
    split
    · rename_i h
      rw [inWork_eq_nil] at h
      exact ⟨by simp, fun _ => by simp [List.take_of_length_le h], w, rfl⟩
    · cases r with
      | accept n =>
        simp only [inWork_flatten, Nat.sub_zero]
        split
        · rename_i h
          have : (src.flatten.drop w).take n = [] := List.length_eq_zero_iff.mp h
          exact ⟨by simp, by simp, w, by simp [this]⟩
        · have hl : ((src.flatten.drop w).take n).length = min n (src.flatten.length - w) := by simp
          have e : got ++ src.flatten.take w ++ (src.flatten.drop w).take n =
              got ++ src.flatten.take (w + ((src.flatten.drop w).take n).length) := by
            rw [List.append_assoc, List.take_add, hl]
            congr 2
            rcases Nat.le_total n (src.flatten.length - w) with h | h
            · rw [Nat.min_eq_left h]
            · rw [Nat.min_eq_right h, List.take_of_length_le (by simpa using h),
                List.take_of_length_le (by simp)]
          rw [e]
          exact ih _ (by rw [hl]; omega)
      | interrupted => exact ⟨by simp, by simp, w, rfl⟩
      | fail => exact ⟨by simp, by simp, w, rfl⟩

/-- **C21**, stalling: a sink that answers `Ok(0)` while bytes are left makes the call fail. -/
theorem C21_stall (src : List Bytes) (rs : List Resp) (got : Bytes) (h : src.flatten ≠ []) :
    ((writeVectoredAll src).run ⟨.accept 0 :: rs, got⟩).1 = .err .io := by
  show (writeVectoredAllAux src (.accept 0 :: rs) 0 got).1 = _
  rw [writeVectoredAllAux, if_neg]
  · simp
  · rw [inWork_eq_nil]
    intro hl
    exact h (List.length_eq_zero_iff.mp (by omega))

/-- **C21**, completeness: a sink that takes at least one byte per call (and never fails) gets everything. -/
theorem C21_progress (src : List Bytes) (s : Sink) (h : ∀ r ∈ s.sched, ∃ n, r = .accept (n + 1)) :
    ((writeVectoredAll src).run s).1 = .ok () := by
  obtain ⟨sched, got⟩ := s
  show (writeVectoredAllAux src sched 0 got).1 = _
  suffices H : ∀ (sched : List Resp) (w : Nat) (got : Bytes), (∀ r ∈ sched, ∃ n, r = .accept (n + 1)) →
      (writeVectoredAllAux src sched w got).1 = .ok () from H sched 0 got h
  intro sched
  induction sched with
  | nil => intro w got _; rfl
  | cons r rs ih =>
    intro w got h
    obtain ⟨n, rfl⟩ := h r (by simp)
    rw [writeVectoredAllAux.eq_def]
    simp only
    split
    · rfl
    · rename_i hne
      rw [if_neg]
      · exact ih _ _ fun r hr => h r (by simp [hr])
      · intro hl
        rw [inWork_eq_nil] at hne
        rw [inWork_flatten] at hl
        simp only [Nat.sub_zero, List.length_take, List.length_drop] at hl
        omega

example : ((writeVectoredAll [[1, 2], [], [3, 4, 5]]).run ⟨[.accept 1, .accept 2, .accept 1], [9]⟩) =
    (.ok (), ⟨[], [9, 1, 2, 3, 4, 5]⟩) := by decide
example : ((writeVectoredAll [[1, 2], [3]]).run ⟨[.accept 1, .fail], []⟩) = (.err .io, ⟨[], [1]⟩) := by decide
example : ([[1, 2], [3]] : List Bytes).flatten ≠ [] := by decide

end Brec.Props
