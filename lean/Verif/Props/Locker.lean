import Verif.Locker
/-!
# The lock of `FileWriterDef`: C41
-/

namespace Brec.Props

open Brec.Lock

/-- Full statement of C41: two programs with a writer for the same file have never both one at the same time; a locked file without a timeout is reported at
once; with a timeout the error comes no earlier than that, and if the lock is free from some moment within the timeout on, it is obtained. -/
def C41_full : Prop :=
  (∀ (ps : List Prog), Reach ps → ∀ (i j : Nat) (p q : Prog), ps[i]? = some p → ps[j]? = some q → p.phase = .live → q.phase = .live → (p.dir, p.name) = (q.dir, q.name) → i = j) ∧
  (∀ t ts, t.outcome = .busy → loop none (t :: ts) = some (.isLocked, t)) ∧
  (∀ timeout interval held ts t r, Timed interval ts → Fits held ts → loop (some timeout) ts = some (r, t) →
    (r = .timeout → timeout ≤ t.checked) ∧ ∀ T, T ≤ timeout → (∀ x, T ≤ x → held x = false) → r ≠ .timeout)

/-! ## Exclusion -/

/-- Everyone who holds a lock holds it alone. -/
def Excl (ps : List Prog) : Prop := ps.Pairwise fun p q => p.holds = true → q.holds = true → p.lock ≠ q.lock

theorem excl_replace {a b : List Prog} {p p' : Prog} (h : Excl (a ++ p :: b)) (hp : p'.holds = true → ∀ q ∈ a ++ b, q.holds = true → q.lock ≠ p'.lock) :
    Excl (a ++ p' :: b) := by
  unfold Excl at *
  rw [List.pairwise_append, List.pairwise_cons] at h ⊢
  obtain ⟨h1, ⟨_, h3⟩, h4⟩ := h
  refine ⟨h1, ⟨fun q hq h5 h6 => Ne.symm (hp h5 q (List.mem_append_right _ hq) h6), h3⟩, fun q hq r hr => ?_⟩
  rcases List.mem_cons.mp hr with rfl | hr
  · exact fun h5 h6 => hp h6 q (List.mem_append_left _ hq) h5
  · exact h4 q hq r (List.mem_cons_of_mem _ hr)

theorem excl_step {ps ps' : List Prog} (h : Excl ps) (hs : Step ps ps') : Excl ps' := by
  cases hs with
  | call a b p dir name hp => exact excl_replace h (by simp [Prog.holds])
  | lock a b p hp hf => exact excl_replace h (fun _ => hf)
  | giveUp a b p hp => exact excl_replace h (by simp [Prog.holds])
  | opened a b p hp =>
    have hh : p.holds = true := by simp [Prog.holds, hp]
    refine excl_replace h (fun _ q hq h6 => ?_)
    show q.lock ≠ p.lock
    unfold Excl at h
    rw [List.pairwise_append, List.pairwise_cons] at h
    rcases List.mem_append.mp hq with hq | hq
    · exact h.2.2 q hq p (by simp) h6 hh
    · exact Ne.symm (h.2.1.1 q hq hh h6)
  | failed a b p hp => exact excl_replace h (by simp [Prog.holds])
  | dropped a b p hp => exact excl_replace h (by simp [Prog.holds])
  | dies a b p => exact excl_replace h (by simp [Prog.holds])

theorem excl_reach {ps : List Prog} (h : Reach ps) : Excl ps := by
  induction h with
  | init ps h =>
    unfold Excl
    refine List.Pairwise.imp_of_mem (R := fun _ _ => True) ?_ (List.pairwise_of_forall (fun _ _ => trivial))
    intro p q hp hq _ h1
    simp [Prog.holds, h p hp] at h1
  | step _ hs ih => exact excl_step ih hs

/-- **C41, exclusion.** In every run of any number of programs (some of which may fail or die at any moment), two different programs never hold the same lock; so two
writers that exist at the same time have files with different lock files. -/
theorem C41_exclusive {ps : List Prog} (h : Reach ps) {i j : Nat} {p q : Prog} (hi : ps[i]? = some p) (hj : ps[j]? = some q)
    (hp : p.holds = true) (hq : q.holds = true) (hl : p.lock = q.lock) : i = j := by
  have he := excl_reach h
  unfold Excl at he
  rw [List.pairwise_iff_getElem] at he
  obtain ⟨hi', rfl⟩ := List.getElem?_eq_some_iff.mp hi
  obtain ⟨hj', rfl⟩ := List.getElem?_eq_some_iff.mp hj
  rcases Nat.lt_trichotomy i j with h | h | h
  · exact absurd hl (he i j hi' hj' h hp hq)
  · exact h
  · exact absurd hl.symm (he j i hj' hi' h hq hp)

/-- In particular two live writers never have the same file name in the same directory. -/
theorem C41_exclusive_path {ps : List Prog} (h : Reach ps) {i j : Nat} {p q : Prog} (hi : ps[i]? = some p) (hj : ps[j]? = some q)
    (hp : p.phase = .live) (hq : q.phase = .live) (hd : p.dir = q.dir) (hn : p.name = q.name) : i = j :=
  C41_exclusive h hi hj (by simp [Prog.holds, hp]) (by simp [Prog.holds, hq]) (by rw [Prog.lock, Prog.lock, hd, hn])

/-- When two names have the same lock file. -/
theorem C41_lock_name (a b : List Char) : lockName a = lockName b ↔ stem a = stem b :=
  ⟨fun h => List.append_cancel_right h, fun h => by rw [lockName, lockName, h]⟩

theorem dropWhile_dot : ∀ (l r : List Char), '.' ∉ l → (l ++ '.' :: r).dropWhile (· ≠ '.') = '.' :: r
  | [], r, _ => by simp
  | c :: l, r, h => by
    have hc : c ≠ '.' := fun e => h (by simp [e])
    rw [List.cons_append, List.dropWhile_cons_of_pos (by simpa using hc)]
    exact dropWhile_dot l r fun hm => h (List.mem_cons_of_mem _ hm)

theorem dropWhile_none : ∀ l : List Char, '.' ∉ l → l.dropWhile (· ≠ '.') = []
  | [], _ => rfl
  | c :: l, h => by
    have hc : c ≠ '.' := fun e => h (by simp [e])
    rw [List.dropWhile_cons_of_pos (by simpa using hc)]
    exact dropWhile_none l fun hm => h (List.mem_cons_of_mem _ hm)

/-- **C41, the lock file.** The extension of the storage is replaced by `lock`; a name without an extension gets one. -/
theorem C41_lock_file (base ext : List Char) (he : '.' ∉ ext) :
    (base ≠ [] → lockName (base ++ '.' :: ext) = base ++ ".lock".toList) ∧ lockName ext = ext ++ ".lock".toList ∧
      lockName ('.' :: ext) = '.' :: ext ++ ".lock".toList := by
  have key : ∀ b : List Char, (b ++ '.' :: ext).reverse.dropWhile (· ≠ '.') = '.' :: b.reverse := by
    intro b
    rw [List.reverse_append, List.reverse_cons, List.append_assoc]
    exact dropWhile_dot _ _ (by simpa using he)
  refine ⟨fun hb => ?_, ?_, ?_⟩
  · unfold lockName stem
    rw [key base]
    cases hr : base.reverse with
    | nil => exact absurd (List.reverse_eq_nil_iff.mp hr) hb
    | cons c r =>
      simp only
      rw [← hr, List.reverse_reverse]
  · have : ext.reverse.dropWhile (· ≠ '.') = [] := by
      exact dropWhile_none _ (by simpa using he)
    unfold lockName stem
    rw [this]
  · have := key []
    rw [List.nil_append] at this
    unfold lockName stem
    rw [this]
    rfl

example : '.' ∉ "bin".toList ∧ lockName ("data".toList ++ '.' :: "bin".toList) = "data.lock".toList := by decide

/-- Files that differ in their extension only, or have none, exclude each other although they are different storages; and a storage called `*.lock` is its own
lock file. -/
theorem C41_shared_lock : lockName "data.bin".toList = lockName "data.brec".toList ∧ lockName "data".toList = lockName "data.bin".toList ∧
    lockName "data.lock".toList = "data.lock".toList := by decide

/-- Exclusion goes by name: two names of one file (a hard link) can have a writer each. -/
theorem C41_alias : ∃ ps, Reach ps ∧ ∃ p q, ps = [p, q] ∧ p.phase = .live ∧ q.phase = .live ∧ p.name = "a.bin".toList ∧ q.name = "b.bin".toList := by
  have h0 : Reach [⟨[], "a.bin".toList, .out⟩, ⟨[], "b.bin".toList, .out⟩] := .init _ (by decide)
  have h1 := h0.step (.call [] [_] _ [] "a.bin".toList rfl)
  have h2 := h1.step (.call [_] [] _ [] "b.bin".toList rfl)
  have h3 := h2.step (.lock [] [_] _ rfl (by decide))
  have h4 := h3.step (.lock [_] [] _ rfl (by decide))
  have h5 := h4.step (.opened [] [_] _ rfl)
  have h6 := h5.step (.opened [_] [] _ rfl)
  exact ⟨_, h6, _, _, rfl, rfl, rfl, rfl, rfl⟩

/-- Non-vacuity: one writer after the other for the same file. -/
example : ∃ ps, Reach ps ∧ ∃ p q, ps = [p, q] ∧ p.phase = .out ∧ q.phase = .live ∧ p.lock = q.lock := by
  have h0 : Reach [⟨[], "a.bin".toList, .out⟩, ⟨[], "a.bin".toList, .out⟩] := .init _ (by decide)
  have h1 := h0.step (.call [] [_] _ [] "a.bin".toList rfl)
  have h2 := h1.step (.call [_] [] _ [] "a.bin".toList rfl)
  have h3 := h2.step (.lock [] [_] _ rfl (by decide))
  have h4 := h3.step (.opened [] [_] _ rfl)
  have h5 := h4.step (.dropped [] [_] _ rfl)
  have h6 := h5.step (.lock [_] [] _ rfl (by decide))
  have h7 := h6.step (.opened [_] [] _ rfl)
  exact ⟨_, h7, _, _, rfl, rfl, rfl, rfl⟩

/-! ## Waiting -/

/-- **C41, no timeout**: the first attempt decides, and a lock held by somebody else is `FileIsLocked`. -/
theorem C41_no_timeout (t : Turn) (ts : List Turn) :
    loop none (t :: ts) = some (match t.outcome with | .got => .locked | .busy => .isLocked | .failed => .failed, t) := by
  cases h : t.outcome <;> simp [loop, h, waitOrFail]

/-- Where the loop with a timeout ends. -/
theorem loop_cases {timeout : Nat} : ∀ {ts : List Turn} {r : Res} {t : Turn}, loop (some timeout) ts = some (r, t) →
    ∃ a b, ts = a ++ t :: b ∧ (∀ u ∈ a, u.outcome = .busy ∧ u.checked < timeout) ∧
      (r = .locked ∧ t.outcome = .got ∨ r = .failed ∧ t.outcome = .failed ∨ r = .timeout ∧ t.outcome = .busy ∧ timeout ≤ t.checked)
  | [], _, _, h => by simp [loop] at h
  | u :: ts, r, t, h => by
    unfold loop at h
    match hu : u.outcome with
    | .got =>
      rw [hu] at h
      simp only [Option.some.injEq, Prod.mk.injEq] at h
      obtain ⟨rfl, rfl⟩ := h
      exact ⟨[], ts, rfl, by simp, .inl ⟨rfl, hu⟩⟩
    | .failed =>
      rw [hu] at h
      simp only [Option.some.injEq, Prod.mk.injEq] at h
      obtain ⟨rfl, rfl⟩ := h
      exact ⟨[], ts, rfl, by simp, .inr (.inl ⟨rfl, hu⟩)⟩
    | .busy =>
      rw [hu] at h
      simp only [waitOrFail] at h
      by_cases hc : u.checked ≥ timeout
      · rw [if_pos hc] at h
        simp only [Option.some.injEq, Prod.mk.injEq] at h
        obtain ⟨rfl, rfl⟩ := h
        exact ⟨[], ts, rfl, by simp, .inr (.inr ⟨rfl, hu, hc⟩)⟩
      · rw [if_neg hc] at h
        simp only at h
        obtain ⟨a, b, rfl, h2, h3⟩ := loop_cases h
        refine ⟨u :: a, b, rfl, ?_, h3⟩
        intro v hv
        rcases List.mem_cons.mp hv with rfl | hv
        · exact ⟨hu, by omega⟩
        · exact h2 v hv

/-- **C41, timeout**: `TimeoutToWaitLockedFile` is reported when the timeout has passed, not before, after an attempt that found the lock held; all attempts
before found it held, too. -/
theorem C41_not_before {timeout : Nat} {ts : List Turn} {t : Turn} (h : loop (some timeout) ts = some (.timeout, t)) :
    timeout ≤ t.checked ∧ t.outcome = .busy := by
  obtain ⟨a, b, _, _, h | h | h⟩ := loop_cases h
  · cases h.1
  · cases h.1
  · exact ⟨h.2.2, h.2.1⟩

/-- With a timeout `FileIsLocked` is never reported. -/
theorem C41_error_kind {timeout : Nat} {ts : List Turn} {t : Turn} {r : Res} (h : loop (some timeout) ts = some (r, t)) : r ≠ .isLocked := by
  obtain ⟨a, b, _, _, h | h | h⟩ := loop_cases h <;> rw [h.1] <;> decide

/-- **C41 (partial), released in time**: if the lock is free from `T` on, and never more than `gap` passes between an attempt and the look at the clock that follows, and
`T + gap ≤ timeout`, then the wait does not end in a timeout. Missing from the full claim: `gap = 0` cannot be had (`C41_missed`). -/
theorem C41_in_time_partial {timeout T gap : Nat} {held : Nat → Bool} {ts : List Turn} {t : Turn} {r : Res} (hf : Fits held ts)
    (hg : ∀ u ∈ ts, u.checked ≤ u.tried + gap) (hT : ∀ x, T ≤ x → held x = false) (hle : T + gap ≤ timeout) (h : loop (some timeout) ts = some (r, t)) :
    r ≠ .timeout := by
  rintro rfl
  have h1 := C41_not_before h
  obtain ⟨a, b, rfl, _, _⟩ := loop_cases h
  have hm : t ∈ a ++ t :: b := by simp
  have h2 := (hf t hm).2 h1.2
  have h3 := hg t hm
  rw [hT t.tried (by omega)] at h2
  cases h2

/-- The wait goes on beyond the timeout by at most one sleep and one attempt. -/
theorem C41_not_much_later {timeout late : Nat} {ts : List Turn} {t : Turn} {r : Res}
    (hfirst : ∀ u, ts.head? = some u → u.checked ≤ late) (hlate : ∀ a b u v, ts = a ++ u :: v :: b → v.checked ≤ u.checked + late)
    (h : loop (some timeout) ts = some (r, t)) : t.checked ≤ timeout + late := by
  obtain ⟨a, b, rfl, ha, _⟩ := loop_cases h
  by_cases hne : a = []
  · subst hne
    have := hfirst t rfl
    omega
  · obtain ⟨a', u, rfl⟩ : ∃ a' u, a = a' ++ [u] := ⟨a.dropLast, a.getLast hne, (List.dropLast_concat_getLast hne).symm⟩
    have h1 := hlate a' b u t (by simp)
    have h2 := (ha u (by simp)).2
    omega

/-- Non-vacuity: with a timeout of 100 and an interval of 50, a lock released at 60 is obtained at 102. -/
example : loop (some 100) [⟨0, .busy, 0⟩, ⟨51, .busy, 51⟩, ⟨102, .got, 102⟩] = some (.locked, ⟨102, .got, 102⟩) ∧
    Timed 50 [⟨0, .busy, 0⟩, ⟨51, .busy, 51⟩, ⟨102, .got, 102⟩] ∧ Fits (fun x => decide (x < 60)) [⟨0, .busy, 0⟩, ⟨51, .busy, 51⟩, ⟨102, .got, 102⟩] := by
  refine ⟨by decide, by simp [Timed], ?_⟩
  unfold Fits
  decide

/-- **C41 is false of the code**: the lock is tried at 51 and found held, it is released at 60, the clock is looked at at 101: a timeout after 100 although the lock has been free
since 60. -/
theorem C41_missed : Timed 50 [⟨0, .busy, 0⟩, ⟨51, .busy, 101⟩] ∧ Fits (fun x => decide (x < 60)) [⟨0, .busy, 0⟩, ⟨51, .busy, 101⟩] ∧
    loop (some 100) [⟨0, .busy, 0⟩, ⟨51, .busy, 101⟩] = some (.timeout, ⟨51, .busy, 101⟩) := by
  refine ⟨by simp [Timed], ?_, by decide⟩
  unfold Fits
  decide

/-- The timeout is not the longest time `new` takes: the sleep is not cut short. With an interval of 1000 the error for a timeout of 10 comes after 1000. -/
theorem C41_overshoot {t u : Turn} {ts : List Turn} (ht : t.outcome = .busy) (hu : u.outcome = .busy) (hc : t.checked < 10) (h : Timed 1000 (t :: u :: ts)) :
    loop (some 10) (t :: u :: ts) = some (.timeout, u) ∧ 1000 ≤ u.checked := by
  have h1 : u.tried ≤ u.checked := by
    cases ts with
    | nil => exact h.2.2
    | cons v ts => exact h.2.2.1
  have h2 := h.2.1
  refine ⟨?_, by omega⟩
  simp only [loop, ht, hu, waitOrFail]
  rw [if_neg (by omega), if_pos (by omega)]

theorem C41_not : ¬ C41_full := by
  rintro ⟨_, _, h⟩
  obtain ⟨h1, h2, h3⟩ := C41_missed
  exact (h 100 50 _ _ _ _ h1 h2 h3).2 60 (by decide) (by intro x hx; simpa using hx) rfl

end Brec.Props
