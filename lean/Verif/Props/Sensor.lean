import Verif.Sensor
/-!
# The sensor under every interleaving: C40
-/

namespace Brec.Props

open Brec.Sensor

/-- Some thread is inside `emit` or `processed`. -/
def Busy (s : St) : Prop := ∃ p ∈ s.pcs, p ≠ .idle

/-- The wakes that have been sent and not yet acknowledged. -/
def outstanding (s : St) : Nat := (if s.chan = none then 0 else 1) + s.handling

/-- Full statement of C40, for every interleaving of watcher calls, `processed` calls and file growth: once the watcher has been called for some growth and no
call is under way, that growth has been processed, or a wake is in the channel or being handled; and never is more than one wake outstanding. -/
def C40_full : Prop :=
  ∀ (failing : Bool) (s : St), Reach false failing s → (¬ Busy s → s.processed < s.noted → s.chan ≠ none ∨ 0 < s.handling) ∧ outstanding s ≤ 1

/-! ## No growth is lost -/

/-- A thread that will take care of the growth noted. -/
def Responsible (s : St) : Pc → Prop
  | .idle => False
  | .sized n => s.noted ≤ n
  | _ => True

structure Safe (s : St) : Prop where
  noted_le : s.noted ≤ s.size
  /-- the lock is held for a reason -/
  lock : s.locked = true → s.chan ≠ none ∨ 0 < s.handling ∨ ∃ n, Pc.won n ∈ s.pcs
  alive : s.noted ≤ s.processed ∨ s.chan ≠ none ∨ 0 < s.handling ∨ ∃ p ∈ s.pcs, Responsible s p

theorem resp_congr {s s' : St} (h : s'.noted = s.noted) (p : Pc) : Responsible s' p ↔ Responsible s p := by
  cases p <;> simp [Responsible, h]

/-- The other threads stay where they are. -/
theorem mem_other {a b : List Pc} {x y p : Pc} (h : p ∈ a ++ x :: b) (hne : p ≠ x) : p ∈ a ++ y :: b := by
  simp only [List.mem_append, List.mem_cons] at h ⊢
  rcases h with h | h | h
  · exact .inl h
  · exact absurd h hne
  · exact .inr (.inr h)

theorem mem_self {a b : List Pc} {y : Pc} : y ∈ a ++ y :: b := by simp

theorem safe_step {strict : Bool} {s s' : St} (i : Safe s) (h : Step strict false s s') : Safe s' := by
  cases h with
  | grow n hn =>
    refine ⟨Nat.le_trans i.noted_le hn, i.lock, ?_⟩
    rcases i.alive with h | h | h | ⟨p, hp, hr⟩
    · exact .inl h
    · exact .inr (.inl h)
    · exact .inr (.inr (.inl h))
    · exact .inr (.inr (.inr ⟨p, hp, (resp_congr (by rfl) p).mpr hr⟩))
  | notify =>
    refine ⟨Nat.le_refl _, fun hl => ?_, .inr (.inr (.inr ⟨.start, by simp, trivial⟩))⟩
    rcases i.lock hl with h | h | ⟨n, h⟩
    · exact .inl h
    · exact .inr (.inl h)
    · exact .inr (.inr ⟨n, by simp [h]⟩)
  | recv n hc => exact ⟨i.noted_le, fun _ => .inr (.inl (Nat.succ_pos _)), .inr (.inr (.inl (Nat.succ_pos _)))⟩
  | ack u _ =>
    refine ⟨i.noted_le, fun hl => ?_, .inr (.inr (.inr ⟨.ackLoad u, by simp, trivial⟩))⟩
    rcases i.lock hl with h | h | ⟨n, h⟩
    · exact .inl h
    · exact .inr (.inl h)
    · exact .inr (.inr ⟨n, by simp [h]⟩)
  | fail a b hf _ => cases hf
  | go t a b x y hp hl =>
    have lock := i.lock
    have alive := i.alive
    rw [hp] at lock alive
    -- the other threads, when nothing shared changes
    have keepLock : (∀ n, x ≠ .won n) → s.locked = true → s.chan ≠ none ∨ 0 < s.handling ∨ ∃ n, Pc.won n ∈ a ++ y :: b := by
      intro hx hk
      rcases lock hk with h | h | ⟨n, h⟩
      · exact .inl h
      · exact .inr (.inl h)
      · exact .inr (.inr ⟨n, mem_other h (Ne.symm (hx n))⟩)
    cases hl with
    | metadata =>
      refine ⟨i.noted_le, keepLock (by simp), .inr (.inr (.inr ⟨.sized s.size, mem_self, ?_⟩))⟩
      exact i.noted_le
    | stop n hn =>
      refine ⟨i.noted_le, keepLock (by simp), ?_⟩
      rcases alive with h | h | h | ⟨p, hp', hr⟩
      · exact .inl h
      · exact .inr (.inl h)
      · exact .inr (.inr (.inl h))
      · by_cases hpx : p = .sized n
        · subst hpx
          exact .inl (Nat.le_trans hr hn)
        · exact .inr (.inr (.inr ⟨p, mem_other hp' hpx, (resp_congr (by rfl) p).mpr hr⟩))
    | goOn n hn => exact ⟨i.noted_le, keepLock (by simp), .inr (.inr (.inr ⟨.checked n, mem_self, trivial⟩))⟩
    | lost n hk =>
      have hk' := keepLock (by simp) hk
      refine ⟨i.noted_le, keepLock (by simp), ?_⟩
      rcases hk' with h | h | ⟨m, h⟩
      · exact .inr (.inl h)
      · exact .inr (.inr (.inl h))
      · exact .inr (.inr (.inr ⟨.won m, h, trivial⟩))
    | win n hk => exact ⟨i.noted_le, fun _ => .inr (.inr ⟨n, mem_self⟩), .inr (.inr (.inr ⟨.won n, mem_self, trivial⟩))⟩
    | send n hc => exact ⟨i.noted_le, fun _ => .inl (by simp), .inr (.inl (by simp))⟩
    | full n hc => exact ⟨i.noted_le, fun _ => .inl hc, .inr (.inl hc)⟩
    | load u => exact ⟨i.noted_le, keepLock (by simp), .inr (.inr (.inr ⟨_, mem_self, trivial⟩))⟩
    | noNeed u c hu => exact ⟨i.noted_le, keepLock (by simp), .inr (.inr (.inr ⟨_, mem_self, trivial⟩))⟩
    | swap u c hu hc => exact ⟨i.noted_le, keepLock (by simp), .inr (.inr (.inr ⟨_, mem_self, trivial⟩))⟩
    | again u c hu => exact ⟨i.noted_le, keepLock (by simp), .inr (.inr (.inr ⟨_, mem_self, trivial⟩))⟩
    | unlock u => exact ⟨i.noted_le, (by intro h; cases h), .inr (.inr (.inr ⟨.start, mem_self, trivial⟩))⟩

theorem safe_reach {strict : Bool} {s : St} (h : Reach strict false s) : Safe s := by
  induction h with
  | init n => exact ⟨Nat.zero_le _, (by intro h; cases h), .inl (Nat.le_refl _)⟩
  | step _ hs ih => exact safe_step ih hs

/-- **C40, no growth is lost**, whether or not `processed` is called properly, as long as the length of the file can be read: at any moment of any interleaving,
growth the watcher has been called for is processed, or a wake is in the channel or being handled, or some call is under way. -/
theorem C40_no_loss_partial {strict : Bool} {s : St} (h : Reach strict false s) (hp : s.processed < s.noted) : s.chan ≠ none ∨ 0 < s.handling ∨ Busy s := by
  rcases (safe_reach h).alive with h | h | h | ⟨p, hp', hr⟩
  · omega
  · exact .inl h
  · exact .inr (.inl h)
  · refine .inr (.inr ⟨p, hp', ?_⟩)
    rintro rfl
    exact hr

/-! ## At most one wake -/

def isWon : Pc → Bool
  | .won _ => true
  | _ => false

structure One (s : St) : Prop where
  one : s.pcs.countP isWon + outstanding s = if s.locked then 1 else 0
  acks : acking s.pcs ≤ s.handling

theorem one_step {failing : Bool} {s s' : St} (i : One s) (h : Step true failing s s') : One s' := by
  obtain ⟨i1, i2⟩ := i
  simp only [outstanding, acking] at i1 i2
  cases h with
  | grow n hn => exact ⟨i1, i2⟩
  | notify => exact ⟨by simpa [outstanding, isWon] using i1, by simpa [acking, isAck] using i2⟩
  | recv n hc =>
    simp only [hc] at i1
    refine ⟨?_, by simp only [acking]; omega⟩
    simp only [outstanding]
    rw [if_neg (by simp)] at i1
    simp only [if_pos]
    omega
  | ack u hu =>
    have := hu rfl
    refine ⟨by simpa [outstanding, isWon] using i1, ?_⟩
    simp only [acking] at this ⊢
    simp only [List.countP_append, List.countP_cons, List.countP_nil] at this ⊢
    simp only [isAck, if_pos]; omega
  | fail a b hf hp =>
    rw [hp] at i1 i2
    exact ⟨by simpa [outstanding, isWon] using i1, by simpa [acking, isAck] using i2⟩
  | go t a b x y hp hl =>
    rw [hp] at i1 i2
    simp only [List.countP_append, List.countP_cons] at i1 i2
    have hb : (if s.locked then 1 else 0) ≤ 1 := by split <;> omega
    cases hl with
    | unlock u =>
      simp only [isWon, isAck, if_pos, Bool.false_eq_true, if_neg, not_false_eq_true] at i1 i2
      refine ⟨?_, ?_⟩
      · simp only [outstanding, List.countP_append, List.countP_cons, isWon, Bool.false_eq_true, if_neg, not_false_eq_true]
        omega
      · simp only [acking, List.countP_append, List.countP_cons, isAck, Bool.false_eq_true, if_neg, not_false_eq_true]
        omega
    | win n hk =>
      simp only [isWon, isAck, hk, Bool.false_eq_true, if_neg, not_false_eq_true] at i1 i2
      refine ⟨?_, ?_⟩
      · simp only [outstanding, List.countP_append, List.countP_cons, isWon, if_pos]
        omega
      · simp only [acking, List.countP_append, List.countP_cons, isAck, Bool.false_eq_true, if_neg, not_false_eq_true]
        omega
    | _ => refine ⟨?_, ?_⟩ <;> simp only [outstanding, acking, List.countP_append, List.countP_cons, isWon, isAck] <;> simp_all [isWon, isAck] <;> omega

theorem one_reach {failing : Bool} {s : St} (h : Reach true failing s) : One s := by
  induction h with
  | init n => exact ⟨rfl, Nat.le_refl _⟩
  | step _ hs ih => exact one_step ih hs

/-- **C40, at most one wake is outstanding**, if `processed` is called once for each wake received: also counting the wakes about to be sent, and whether or not
the length of the file can be read. The lock is held exactly while there is one. -/
theorem C40_one_wake_partial {failing : Bool} {s : St} (h : Reach true failing s) :
    s.pcs.countP isWon + outstanding s = (if s.locked then 1 else 0) ∧ outstanding s ≤ 1 := by
  have := (one_reach h).one
  refine ⟨this, ?_⟩
  split at this <;> omega

/-! ## What a call comes to -/

/-- Steps of threads inside `emit` and `processed` only. -/
inductive Threads : St → St → Prop where
  | refl (s : St) : Threads s s
  | step {s s' s'' : St} {a b : List Pc} {x y : Pc} (hp : s.pcs = a ++ x :: b) (h : Local s x s' y) (hr : Threads { s' with pcs := a ++ y :: b } s'') : Threads s s''

theorem Threads.trans {s t u : St} (h : Threads s t) (h' : Threads t u) : Threads s u := by
  induction h with
  | refl => exact h'
  | step hp hl _ ih => exact .step hp hl (ih h')

theorem Threads.reach {strict failing : Bool} {s t : St} (h : Threads s t) (hr : Reach strict failing s) : Reach strict failing t := by
  induction h with
  | refl => exact hr
  | step hp hl _ ih => exact ih (.step hr (.go _ _ _ _ _ _ hp hl))

theorem Local.noted {s s' : St} {x y : Pc} (h : Local s x s' y) : s'.noted = s.noted ∧ s'.pcs = s.pcs := by cases h <;> exact ⟨rfl, rfl⟩

theorem Threads.noted {s t : St} (h : Threads s t) : t.noted = s.noted := by
  induction h with
  | refl => rfl
  | step hp hl _ ih => rw [ih]; exact (Local.noted hl).1

/-- How far a thread running alone is from its end. -/
def rank (s : St) : Pc → Nat
  | .idle => 0
  | .won _ => 1
  | .checked _ => 2
  | .sized _ => 3
  | .start => 4
  | .ackUnlock _ => 5
  | .ackTest u c => if u ≤ c then 6 else if s.processed = c then 6 else 7
  | .ackLoad _ => 8

/-- A thread inside a call can always go on, and alone it gets closer to the end. -/
theorem advance (s : St) (x : Pc) (hx : x ≠ .idle) : ∃ s' y, Local s x s' y ∧ rank s' y < rank s x := by
  cases x with
  | idle => exact absurd rfl hx
  | start => exact ⟨_, _, .metadata s, by simp [rank]⟩
  | sized n =>
    by_cases h : n ≤ s.processed
    · exact ⟨_, _, .stop s n h, by simp [rank]⟩
    · exact ⟨_, _, .goOn s n (by omega), by simp [rank]⟩
  | checked n =>
    by_cases h : s.locked = true
    · exact ⟨_, _, .lost s n h, by simp [rank]⟩
    · exact ⟨_, _, .win s n (by simpa using h), by simp [rank]⟩
  | won n =>
    by_cases h : s.chan = none
    · exact ⟨_, _, .send s n h, by simp [rank]⟩
    · exact ⟨_, _, .full s n h, by simp [rank]⟩
  | ackLoad u => exact ⟨_, _, .load s u, by simp only [rank]; split <;> simp⟩
  | ackTest u c =>
    by_cases h : u ≤ c
    · exact ⟨_, _, .noNeed s u c h, by simp [rank, h]⟩
    · by_cases hc : s.processed = c
      · exact ⟨_, _, .swap s u c (by omega) hc, by simp [rank, h, hc]⟩
      · exact ⟨_, _, .again s u c (by omega), by simp only [rank, if_neg h, if_neg hc]; split <;> simp⟩
  | ackUnlock u => exact ⟨_, _, .unlock s u, by simp [rank]⟩

theorem finish_one : ∀ (n : Nat) (s : St) (a b : List Pc) (x : Pc), rank s x ≤ n → s.pcs = a ++ x :: b → ∃ t, Threads s t ∧ t.pcs = a ++ .idle :: b := by
  intro n
  induction n with
  | zero =>
    intro s a b x hn hp
    by_cases hx : x = .idle
    · subst hx; exact ⟨s, .refl s, hp⟩
    · obtain ⟨_, _, _, hr⟩ := advance s x hx
      omega
  | succ n ih =>
    intro s a b x hn hp
    by_cases hx : x = .idle
    · subst hx; exact ⟨s, .refl s, hp⟩
    · obtain ⟨s', y, hl, hr⟩ := advance s x hx
      have hr' : rank { s' with pcs := a ++ y :: b } y ≤ n := by
        have : rank { s' with pcs := a ++ y :: b } y = rank s' y := by cases y <;> rfl
        omega
      obtain ⟨t, ht, hp'⟩ := ih _ a b y hr' rfl
      exact ⟨t, .step hp hl ht, hp'⟩

theorem finish_all : ∀ (b a : List Pc) (s : St), s.pcs = a ++ b → (∀ p ∈ a, p = .idle) → ∃ t, Threads s t ∧ ¬ Busy t
  | [], a, s, hp, ha => ⟨s, .refl s, by rintro ⟨p, h1, h2⟩; rw [hp, List.append_nil] at h1; exact h2 (ha p h1)⟩
  | x :: b, a, s, hp, ha => by
    obtain ⟨t, ht, hp'⟩ := finish_one _ s a b x (Nat.le_refl _) hp
    obtain ⟨u, hu, hb⟩ := finish_all b (a ++ [.idle]) t (by rw [hp']; simp) (by
      intro p h
      rcases List.mem_append.mp h with h | h
      · exact ha p h
      · exact List.mem_singleton.mp h)
    exact ⟨u, ht.trans hu, hb⟩

/-- **C40, no growth is lost (2).** No call ever gets stuck: from every state the calls under way can run to their end, and wherever they are all at
their end, growth the watcher has been called for is processed, or a wake is in the channel or being handled. -/
theorem C40_delivered_partial {strict : Bool} {s : St} (h : Reach strict false s) :
    (∃ t, Threads s t ∧ ¬ Busy t) ∧
    ∀ t, Threads s t → ¬ Busy t → s.noted ≤ t.processed ∨ t.chan ≠ none ∨ 0 < t.handling := by
  refine ⟨finish_all s.pcs [] s rfl (by simp), fun t ht hb => ?_⟩
  by_cases hp : t.processed < t.noted
  · rcases C40_no_loss_partial (ht.reach h) hp with h | h | h
    · exact .inr (.inl h)
    · exact .inr (.inr h)
    · exact absurd h hb
  · rw [← ht.noted]; exact .inl (by omega)

/-- The length reported as processed never goes down, and it is at least `until` when `processed(until)` gives up the lock. -/
theorem C40_processed {strict failing : Bool} :
    (∀ s s', Step strict failing s s' → s.processed ≤ s'.processed) ∧
    ∀ s, Reach strict failing s → ∀ u, Pc.ackUnlock u ∈ s.pcs → u ≤ s.processed := by
  have mono : ∀ s s' x y, Local s x s' y → s.processed ≤ s'.processed := by
    intro s s' x y h
    cases h with
    | swap u c hu hc => dsimp only; omega
    | _ => exact Nat.le_refl _
  have h1 : ∀ s s', Step strict failing s s' → s.processed ≤ s'.processed := by
    intro s s' h
    cases h with
    | go t a b x y hp hl => exact mono _ t _ _ hl
    | _ => exact Nat.le_refl _
  refine ⟨h1, ?_⟩
  -- what `fetch_max_u64` has seen is never more than there is
  have key : ∀ s, Reach strict failing s → (∀ u, Pc.ackUnlock u ∈ s.pcs → u ≤ s.processed) ∧ (∀ u c, Pc.ackTest u c ∈ s.pcs → c ≤ s.processed) := by
    intro s h
    induction h with
    | init n => exact ⟨by simp [St.init], by simp [St.init]⟩
    | @step s s' _ hs ih =>
      obtain ⟨ih1, ih2⟩ := ih
      have hle := h1 s s' hs
      cases hs with
      | grow n hn => exact ⟨ih1, ih2⟩
      | notify => exact ⟨fun u h => ih1 u (by simpa using h), fun u c h => ih2 u c (by simpa using h)⟩
      | recv n hc => exact ⟨ih1, ih2⟩
      | ack v hv => exact ⟨fun u h => ih1 u (by simpa using h), fun u c h => ih2 u c (by simpa using h)⟩
      | fail a b hf hp =>
        rw [hp] at ih1 ih2
        exact ⟨fun u h => ih1 u (by simp at h ⊢; exact h), fun u c h => ih2 u c (by simp at h ⊢; exact h)⟩
      | go t a b x y hp hl =>
        rw [hp] at ih1 ih2
        have old1 : ∀ u, y ≠ .ackUnlock u → Pc.ackUnlock u ∈ a ++ y :: b → u ≤ s.processed := fun u hy h => ih1 u (mem_other h (Ne.symm hy))
        have old2 : ∀ u c, y ≠ .ackTest u c → Pc.ackTest u c ∈ a ++ y :: b → c ≤ s.processed := fun u c hy h => ih2 u c (mem_other h (Ne.symm hy))
        dsimp only at hle ⊢
        refine ⟨fun u h => ?_, fun u c h => ?_⟩
        · by_cases hy : y = .ackUnlock u
          · subst hy
            cases hl with
            | noNeed _ c hu =>
              have := ih2 u c mem_self
              omega
            | swap _ c hu hc => exact Nat.le_refl _
          · exact Nat.le_trans (old1 u hy h) hle
        · by_cases hy : y = .ackTest u c
          · subst hy
            cases hl with
            | load _ => exact Nat.le_refl _
            | again _ _ _ => exact Nat.le_refl _
          · exact Nat.le_trans (old2 u c hy h) hle
  exact fun s h => (key s h).1

/-- The file length a thread has in hand. -/
def inHand : Pc → Nat
  | .sized n => n
  | .checked n => n
  | .won n => n
  | _ => 0

/-- The size a wake carries is never more than the length of the file. -/
theorem C40_wake_size {strict failing : Bool} {s : St} (h : Reach strict failing s) : ∀ n, s.chan = some n → n ≤ s.size := by
  have key : (∀ n, s.chan = some n → n ≤ s.size) ∧ ∀ p ∈ s.pcs, inHand p ≤ s.size := by
    induction h with
    | init n => exact ⟨by simp [St.init], by simp [St.init]⟩
    | @step s s' _ hs ih =>
      obtain ⟨ih1, ih2⟩ := ih
      have new : ∀ p, inHand p = 0 → ∀ q ∈ s.pcs ++ [p], inHand q ≤ s.size := by
        intro p hp q hq
        rcases List.mem_append.mp hq with hq | hq
        · exact ih2 q hq
        · rw [List.mem_singleton.mp hq]; omega
      have upd : ∀ {a b x y}, s.pcs = a ++ x :: b → inHand y ≤ s.size → ∀ p ∈ a ++ y :: b, inHand p ≤ s.size := by
        intro a b x y hp hy p h
        by_cases hpy : p = y
        · rw [hpy]; exact hy
        · exact ih2 p (by rw [hp]; exact mem_other h hpy)
      cases hs with
      | grow n hn => exact ⟨fun m h => Nat.le_trans (ih1 m h) hn, fun m h => Nat.le_trans (ih2 m h) hn⟩
      | notify => exact ⟨ih1, new _ rfl⟩
      | recv n hc => exact ⟨by simp, ih2⟩
      | ack v hv => exact ⟨ih1, new _ rfl⟩
      | fail a b hf hp => exact ⟨ih1, upd hp (Nat.zero_le _)⟩
      | go t a b x y hp hl =>
        have hx : inHand x ≤ s.size := ih2 x (by rw [hp]; exact mem_self)
        cases hl with
        | metadata => exact ⟨ih1, upd hp (Nat.le_refl _)⟩
        | goOn n hn => exact ⟨ih1, upd hp hx⟩
        | win n hk => exact ⟨ih1, upd hp hx⟩
        | send n hc => exact ⟨fun m h => by rw [← Option.some.inj h]; exact hx, upd hp (Nat.zero_le _)⟩
        | _ => exact ⟨ih1, upd hp (Nat.zero_le _)⟩
  exact key.1

/-! ## Runs -/

/-- The watcher calls and its thread runs through: a wake is sent. -/
theorem run_emit {strict failing : Bool} {s : St} (h : Reach strict failing s) (hl : s.locked = false) (hc : s.chan = none) (hp : s.processed < s.size) :
    Reach strict failing { s with pcs := s.pcs ++ [.idle], noted := s.size, locked := true, chan := some s.size } := by
  have h1 := h.step (.notify s)
  have h2 := h1.step (.go _ _ s.pcs [] .start _ rfl (.metadata _))
  have h3 := h2.step (.go _ _ s.pcs [] (.sized s.size) _ rfl (.goOn _ _ hp))
  have h4 := h3.step (.go _ _ s.pcs [] (.checked s.size) _ rfl (.win _ _ (by exact hl)))
  exact h4.step (.go _ _ s.pcs [] (.won s.size) _ rfl (.send _ _ (by exact hc)))

/-- Non-vacuity: a file grows while a wake is handled; after `processed` the next wake is there. -/
example : ∃ s, Reach true false s ∧ ¬ Busy s ∧ s.processed = 10 ∧ s.noted = 20 ∧ s.chan = some 20 := by
  have h1 := run_emit (strict := true) (failing := false) (.init 10) rfl rfl (by decide)
  have h2 := h1.step (.recv _ 10 rfl)
  have h3 := h2.step (.grow _ 20 (by decide))
  have h4 := h3.step (.notify _)
  have h5 := h4.step (.go _ _ [.idle] [] .start _ rfl (.metadata _))
  have h6 := h5.step (.go _ _ [.idle] [] (.sized 20) _ rfl (.goOn _ _ (by decide)))
  have h7 := h6.step (.go _ _ [.idle] [] (.checked 20) _ rfl (.lost _ _ rfl))
  have h8 := h7.step (.ack _ 10 (by decide))
  have h9 := h8.step (.go _ _ [.idle, .idle] [] (.ackLoad 10) _ rfl (.load _ _))
  have h10 := h9.step (.go _ _ [.idle, .idle] [] (.ackTest 10 0) _ rfl (.swap _ _ _ (by decide) rfl))
  have h11 := h10.step (.go _ _ [.idle, .idle] [] (.ackUnlock 10) _ rfl (.unlock _ _))
  have h12 := h11.step (.go _ _ [.idle, .idle] [] .start _ rfl (.metadata _))
  have h13 := h12.step (.go _ _ [.idle, .idle] [] (.sized 20) _ rfl (.goOn _ _ (by decide)))
  have h14 := h13.step (.go _ _ [.idle, .idle] [] (.checked 20) _ rfl (.win _ _ rfl))
  have h15 := h14.step (.go _ _ [.idle, .idle] [] (.won 20) _ rfl (.send _ _ rfl))
  exact ⟨_, h15, by rintro ⟨p, hp, hne⟩; simp at hp; exact hne hp, rfl, rfl, rfl⟩

/-- A wake can be late: everything up to its size has been processed already (`emit` reads `processed_len` before it takes the lock). -/
theorem C40_stale_wake : ∃ s, Reach true false s ∧ ¬ Busy s ∧ s.processed = s.size ∧ s.chan = some s.size := by
  have h1 := (Reach.init (strict := true) (failing := false) 10).step (.notify _)
  have h2 := h1.step (.go _ _ [] [] .start _ rfl (.metadata _))
  have h3 := h2.step (.go _ _ [] [] (.sized 10) _ rfl (.goOn _ _ (by decide)))
  have h4 := run_emit h3 rfl rfl (by decide)
  have h5 := h4.step (.recv _ 10 rfl)
  have h6 := h5.step (.ack _ 10 (by decide))
  have h7 := h6.step (.go _ _ [.checked 10, .idle] [] (.ackLoad 10) _ rfl (.load _ _))
  have h8 := h7.step (.go _ _ [.checked 10, .idle] [] (.ackTest 10 0) _ rfl (.swap _ _ _ (by decide) rfl))
  have h9 := h8.step (.go _ _ [.checked 10, .idle] [] (.ackUnlock 10) _ rfl (.unlock _ _))
  have h10 := h9.step (.go _ _ [.checked 10, .idle] [] .start _ rfl (.metadata _))
  have h11 := h10.step (.go _ _ [.checked 10, .idle] [] (.sized 10) _ rfl (.stop _ _ (by decide)))
  have h12 := h11.step (.go _ _ [] [.idle, .idle] (.checked 10) _ rfl (.win _ _ rfl))
  have h13 := h12.step (.go _ _ [] [.idle, .idle] (.won 10) _ rfl (.send _ _ rfl))
  exact ⟨_, h13, by rintro ⟨p, hp, hne⟩; simp at hp; exact hne hp, rfl, rfl⟩

/-- **C40 is false of the code** for a `processed` call made before the wake has been received: two wakes are outstanding. -/
theorem C40_two_wakes : ∃ s, Reach false false s ∧ outstanding s = 2 := by
  have h1 := run_emit (strict := false) (failing := false) (.init 10) rfl rfl (by decide)
  have h2 := h1.step (.ack _ 0 (by simp))
  have h3 := h2.step (.go _ _ [.idle] [] (.ackLoad 0) _ rfl (.load _ _))
  have h4 := h3.step (.go _ _ [.idle] [] (.ackTest 0 0) _ rfl (.noNeed _ _ _ (by decide)))
  have h5 := h4.step (.go _ _ [.idle] [] (.ackUnlock 0) _ rfl (.unlock _ _))
  have h6 := h5.step (.recv _ 10 rfl)
  have h7 := h6.step (.go _ _ [.idle] [] .start _ rfl (.metadata _))
  have h8 := h7.step (.go _ _ [.idle] [] (.sized 10) _ rfl (.goOn _ _ (by decide)))
  have h9 := h8.step (.go _ _ [.idle] [] (.checked 10) _ rfl (.win _ _ rfl))
  have h10 := h9.step (.go _ _ [.idle] [] (.won 10) _ rfl (.send _ _ rfl))
  exact ⟨_, h10, rfl⟩

/-- **C40 is false of the code** when `fs::metadata` fails in the callback: the growth is noticed by nobody until the watcher is called again. -/
theorem C40_metadata_error : ∃ s, Reach true true s ∧ ¬ Busy s ∧ s.processed < s.noted ∧ s.chan = none ∧ s.handling = 0 := by
  have h1 := (Reach.init (strict := true) (failing := true) 10).step (.notify _)
  have h2 := h1.step (.fail _ [] [] rfl rfl)
  exact ⟨_, h2, by rintro ⟨p, hp, hne⟩; simp at hp; exact hne hp, by decide, rfl, rfl⟩

theorem C40_not : ¬ C40_full := by
  intro h
  obtain ⟨s, hr, h2⟩ := C40_two_wakes
  have := (h false s hr).2
  omega

end Brec.Props
