import Verif.Rules
/-!
# Property C27: rule set discipline
-/

namespace Brec.Props

open Brec

variable {BR Pk : Type}

/-- The calls a user can make on the rule set of a reader. -/
inductive RuleOp (BR Pk : Type)
  | add (r : Rule BR Pk)
  | remove (id : RuleId)

def RuleOp.apply (rs : Rules BR Pk) : RuleOp BR Pk → Rules BR Pk
  | .add r => (rs.add r).2
  | .remove id => rs.remove id

/-- Rule sets that can be reached from the empty one. -/
def reach (ops : List (RuleOp BR Pk)) : Rules BR Pk := ops.foldl RuleOp.apply []

/-- Specification: a partial map from kind to rule. -/
def find (rs : Rules BR Pk) (k : RuleId) : List (Rule BR Pk) := List.filter (fun r => decide (r.id = k)) rs

theorem add_eq (rs : Rules BR Pk) (r : Rule BR Pk) :
    rs.add r = if find rs r.id = [] then (.ok (), rs ++ [r]) else (.err .ruleDuplicate, rs) := by
  have key : ∀ (p : Rule BR Pk → Bool) (k : RuleId), (∀ x, p x = decide (x.id = k)) →
      (rs.any p = true ↔ ¬ find rs k = []) := by
    intro p k hp
    simp only [find, List.filter_eq_nil_iff, List.any_eq_true, hp]
    constructor
    · rintro ⟨x, h1, h2⟩ h3; exact h3 x h1 h2
    · intro h
      apply Classical.byContradiction
      intro h'
      exact h fun a ha hx => h' ⟨a, ha, hx⟩
  cases r with
  | ignored t =>
    have := key Rule.isIgnored .ignored (by intro x; cases x <;> rfl)
    simp only [Rules.add]
    by_cases h : find rs .ignored = []
    · rw [if_neg (fun hc => this.mp hc h), if_pos (by exact h)]
    · rw [if_pos (this.mpr h), if_neg (by exact h)]
  | byBlocks f =>
    have := key Rule.isByBlocks .byBlocks (by intro x; cases x <;> rfl)
    simp only [Rules.add]
    by_cases h : find rs .byBlocks = []
    · rw [if_neg (fun hc => this.mp hc h), if_pos (by exact h)]
    · rw [if_pos (this.mpr h), if_neg (by exact h)]
  | byPayload f =>
    have := key Rule.isByPayload .byPayload (by intro x; cases x <;> rfl)
    simp only [Rules.add]
    by_cases h : find rs .byPayload = []
    · rw [if_neg (fun hc => this.mp hc h), if_pos (by exact h)]
    · rw [if_pos (this.mpr h), if_neg (by exact h)]
  | filter f =>
    have := key Rule.isFilter .filter (by intro x; cases x <;> rfl)
    simp only [Rules.add]
    by_cases h : find rs .filter = []
    · rw [if_neg (fun hc => this.mp hc h), if_pos (by exact h)]
    · rw [if_pos (this.mpr h), if_neg (by exact h)]

theorem toStr_inj {a b : RuleId} : a.toStr = b.toStr ↔ a = b := by
  constructor
  · cases a <;> cases b <;> first | (intro; rfl) | (intro h; exact absurd h (by decide))
  · rintro rfl; rfl

theorem remove_eq (rs : Rules BR Pk) (k : RuleId) :
    rs.remove k = List.filter (fun r => decide (¬ r.id = k)) rs := by
  unfold Rules.remove
  congr 1
  funext r
  simp only [ne_eq, toStr_inj]

/-- **C27** (invariant): in every reachable rule set there is at most one rule of each kind. -/
theorem C27_at_most_one (ops : List (RuleOp BR Pk)) (k : RuleId) : (find (reach ops) k).length ≤ 1 := by
  suffices H : ∀ (ops : List (RuleOp BR Pk)) (rs : Rules BR Pk), (∀ k, (find rs k).length ≤ 1) →
      ∀ k, (find (ops.foldl RuleOp.apply rs) k).length ≤ 1 from H ops [] (by simp [find]) k
  intro ops
  induction ops with
  | nil => intro rs h; exact h
  | cons op ops ih =>
    intro rs h
    apply ih
    intro k
    cases op with
    | add r =>
      simp only [RuleOp.apply, add_eq]
      split
      · rename_i he
        simp only [find, List.filter_append, List.length_append]
        by_cases hk : r.id = k
        · subst hk
          rw [find] at he
          rw [he]
          simp
        · simp only [List.filter_cons, hk, decide_false, List.filter_nil]
          have := h k
          rw [find] at this
          simpa using this
      · exact h k
    | remove id =>
      simp only [RuleOp.apply, remove_eq, find, List.filter_filter]
      refine Nat.le_trans ?_ (h k)
      rw [find]
      rw [show (fun a : Rule BR Pk => decide (a.id = k) && decide (¬ a.id = id)) =
        fun a => (fun b : Rule BR Pk => decide (¬ b.id = id)) a && (fun b : Rule BR Pk => decide (b.id = k)) a by
          funext a; simp [Bool.and_comm]]
      rw [← List.filter_filter]
      exact (List.length_filter_le _ _)

/-- **C27**: adding a rule of a kind that is present fails and changes nothing; otherwise it succeeds, the rule is there and the
other kinds are as before. -/
theorem C27_add (rs : Rules BR Pk) (r : Rule BR Pk) :
    (find rs r.id ≠ [] → rs.add r = (.err .ruleDuplicate, rs)) ∧
    (find rs r.id = [] → (rs.add r).1 = .ok () ∧ find (rs.add r).2 r.id = [r] ∧
      ∀ k, k ≠ r.id → find (rs.add r).2 k = find rs k) := by
  constructor
  · intro h; rw [add_eq, if_neg h]
  · intro h
    rw [add_eq, if_pos h]
    refine ⟨rfl, ?_, ?_⟩
    · simp only [find] at h ⊢
      rw [List.filter_append, h]; simp
    · intro k hk
      simp only [find, List.filter_append]
      simp [hk.symm]

/-- **C27**: removing a kind removes exactly the rules of that kind; afterwards it can be added again. -/
theorem C27_remove (rs : Rules BR Pk) (k : RuleId) :
    find (rs.remove k) k = [] ∧ (∀ k', k' ≠ k → find (rs.remove k) k' = find rs k') ∧
    ∀ r : Rule BR Pk, r.id = k → ((rs.remove k).add r).1 = .ok () := by
  have h0 : find (rs.remove k) k = [] := by
    rw [remove_eq]
    simp only [find, List.filter_filter, List.filter_eq_nil_iff]
    intro a _; simp
  refine ⟨h0, ?_, ?_⟩
  · intro k' hk
    rw [remove_eq]
    simp only [find, List.filter_filter]
    congr 1
    funext a
    by_cases h : a.id = k'
    · simp [h, hk]
    · simp [h]
  · rintro r rfl
    rw [add_eq, if_pos h0]

/-- **C27**, effect: a filter decides alone and only for its kind; without a rule everything passes. -/
theorem C27_filters (rs : Rules BR Pk) (bl : List BR) (pl : Bytes) (p : Pk) :
    (find rs .byBlocks = [] → rs.filterByBlocks bl = true) ∧
    (∀ f, find rs .byBlocks = [.byBlocks f] → rs.filterByBlocks bl = f bl) ∧
    (find rs .byPayload = [] → rs.filterByPayload pl = true) ∧
    (∀ f, find rs .byPayload = [.byPayload f] → rs.filterByPayload pl = f pl) ∧
    (find rs .filter = [] → rs.filter p = true) ∧
    (∀ f, find rs .filter = [.filter f] → rs.filter p = f p) ∧
    (find rs .ignored = [] → rs.ignore pl = []) ∧
    (∀ t, find rs .ignored = [.ignored t] → rs.ignore pl = [pl]) := by
  unfold find Rules.filterByBlocks Rules.filterByPayload Rules.filter
  induction rs with
  | nil => simp [Rules.ignore]
  | cons r rs ih =>
    obtain ⟨a, b, c, d, e, f, g, h⟩ := ih
    cases r <;>
      simp_all [Rule.id, Rules.ignore]

example : (reach (BR := Nat) (Pk := Nat) [.add (.ignored 1), .add (.filter fun _ => false), .add (.ignored 2),
    .remove .ignored, .add (.ignored 3)]).length = 2 := by decide
example : find (reach (BR := Nat) (Pk := Nat) [.add (.ignored 1), .add (.ignored 2)]) .ignored = [.ignored 1] := rfl
example : find ([.filter fun _ => false] : Rules Nat Nat) (Rule.filter (BR := Nat) (Pk := Nat) fun _ => true).id ≠ [] := by
  simp [find, Rule.id]

end Brec.Props
