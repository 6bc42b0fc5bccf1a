import Verif.Macro
/-!
# Lemmas on declarations
-/

namespace Brec

/-! ## Cutting text at a separator -/

theorem cut_sep {α : Type} {c : α} : ∀ {x x' r r' : List α}, c ∉ x → c ∉ x' → x ++ c :: r = x' ++ c :: r' → x = x' ∧ r = r'
  | [], [], _, _, _, _, h => by simpa using h
  | [], y :: x', _, _, _, h', h => by
    simp only [List.nil_append, List.cons_append, List.cons.injEq] at h
    exact absurd (by rw [h.1]; simp) h'
  | y :: x, [], _, _, h', _, h => by
    simp only [List.nil_append, List.cons_append, List.cons.injEq] at h
    exact absurd (by rw [h.1]; simp) h'
  | y :: x, z :: x', r, r', h1, h2, h => by
    simp only [List.cons_append, List.cons.injEq] at h
    have := cut_sep (x := x) (x' := x') (fun hc => h1 (List.mem_cons_of_mem _ hc)) (fun hc => h2 (List.mem_cons_of_mem _ hc)) h.2
    exact ⟨by rw [h.1, this.1], this.2⟩

theorem decimal_inj {m n : Nat} (h : decimal m = decimal n) : m = n := by
  have hd : ∀ k, ∀ c ∈ Nat.toDigits 10 k, c.isDigit = true := fun k c hc => Nat.isDigit_of_mem_toDigits (by decide) (by decide) hc
  have key : ∀ a b : List Char, (∀ c ∈ a, c.isDigit = true) → (∀ c ∈ b, c.isDigit = true) →
      a.map (fun c => BitVec.ofNat 8 c.toNat) = b.map (fun c => BitVec.ofNat 8 c.toNat) → a = b := by
    intro a
    induction a with
    | nil => intro b _ _ e; cases b with
      | nil => rfl
      | cons y b => simp at e
    | cons x a ih =>
      intro b ha hb e
      cases b with
      | nil => simp at e
      | cons y b =>
        simp only [List.map_cons, List.cons.injEq] at e
        have hx := ha x (by simp)
        have hy := hb y (by simp)
        simp only [Char.isDigit, Bool.and_eq_true, decide_eq_true_eq] at hx hy
        have hx2 : x.toNat ≤ 57 := hx.2
        have hy2 : y.toNat ≤ 57 := hy.2
        have e1 := congrArg BitVec.toNat e.1
        simp only [BitVec.toNat_ofNat] at e1
        rw [Nat.mod_eq_of_lt (by omega), Nat.mod_eq_of_lt (by omega)] at e1
        rw [Char.toNat_inj.mp e1, ih b (fun c hc => ha c (by simp [hc])) (fun c hc => hb c (by simp [hc])) e.2]
  have e := key _ _ (hd m) (hd n) h
  rw [← Nat.ofDigitChars_toDigits (b := 10) (n := m) (by decide) (by decide), e, Nat.ofDigitChars_toDigits (by decide) (by decide)]

theorem decimal_digit {n : Nat} {b : Byte} (h : b ∈ decimal n) : 48 ≤ b.toNat ∧ b.toNat ≤ 57 := by
  obtain ⟨c, hc, rfl⟩ := List.mem_map.mp h
  have hx := Nat.isDigit_of_mem_toDigits (by decide) (by decide) hc
  simp only [Char.isDigit, Bool.and_eq_true, decide_eq_true_eq] at hx
  have h1 : 48 ≤ c.toNat := hx.1
  have h2 : c.toNat ≤ 57 := hx.2
  rw [BitVec.toNat_ofNat, Nat.mod_eq_of_lt (by omega)]
  exact ⟨h1, h2⟩

/-- The text of a type written as an identifier is that identifier. -/
theorem MTy.text_ident (s : Bytes) : (MTy.ofSrc (.ident s)).text = s := by
  simp only [MTy.ofSrc]
  split
  · rename_i n hn
    have := List.find?_some hn
    simpa [MTy.text] using this
  · split
    · rename_i h; rw [h]; rfl
    · rfl

theorem MTy.text_array (n : Nat) : (MTy.ofSrc (.array n)).text = ascii "[u8;" ++ decimal n ++ ascii "]" := rfl

/-! ## The collector -/

section collector

variable {α : Type} {key : α → Bytes}

theorem orInsert_keys {m : List (Bytes × α)} {k : Bytes} {v : α} (h : (m.map (·.1)).Nodup) : ((orInsert m k v).map (·.1)).Nodup := by
  unfold orInsert
  split
  · exact h
  · rename_i hk
    simp only [List.any_eq_true, decide_eq_true_eq, not_exists, not_and] at hk
    rw [List.map_append, List.nodup_append]
    refine ⟨h, by simp, ?_⟩
    intro a ha b hb e
    simp only [List.map_cons, List.map_nil, List.mem_singleton] at hb
    obtain ⟨x, hx, rfl⟩ := List.mem_map.mp ha
    exact hk x hx (e.trans hb)

theorem collect_snoc (ds : List α) (d : α) : collect key (ds ++ [d]) = orInsert (collect key ds) (key d) d := by
  simp [collect]

/-- The declarations that open their key. -/
def firsts (key : α → Bytes) (ds : List α) : List α := (collect key ds).map (·.2)

theorem snoc_induction {P : List α → Prop} (h0 : P []) (hs : ∀ ds d, P ds → P (ds ++ [d])) (ds : List α) : P ds := by
  have : ∀ n (ds : List α), ds.length = n → P ds := by
    intro n
    induction n with
    | zero => intro ds h; rw [List.length_eq_zero_iff.mp h]; exact h0
    | succ n ih =>
      intro ds h
      have hne : ds ≠ [] := by intro e; rw [e] at h; simp at h
      rw [← List.dropLast_concat_getLast hne]
      exact hs _ _ (ih _ (by rw [List.length_dropLast]; omega))
  exact this _ ds rfl

theorem collect_nodup (ds : List α) : ((collect key ds).map (·.1)).Nodup := by
  induction ds using snoc_induction with
  | h0 => simp [collect]
  | hs ds d ih => rw [collect_snoc]; exact orInsert_keys ih

theorem orInsert_sub {m : List (Bytes × α)} {k : Bytes} {v : α} {e : Bytes × α} (h : e ∈ orInsert m k v) : e ∈ m ∨ e = (k, v) := by
  unfold orInsert at h
  split at h
  · exact Or.inl h
  · simpa using h

theorem collect_key (ds : List α) : ∀ e ∈ collect key ds, e.1 = key e.2 ∧ e.2 ∈ ds := by
  induction ds using snoc_induction with
  | h0 => simp [collect]
  | hs ds d ih =>
    intro e he
    rw [collect_snoc] at he
    rcases orInsert_sub he with h | rfl
    · exact ⟨(ih e h).1, List.mem_append_left _ (ih e h).2⟩
    · exact ⟨rfl, by simp⟩

theorem collect_has (ds : List α) : ∀ d ∈ ds, ∃ e ∈ collect key ds, e.1 = key d := by
  induction ds using snoc_induction with
  | h0 => simp
  | hs ds d ih =>
    intro x hx
    rw [collect_snoc]
    unfold orInsert
    rcases List.mem_append.mp hx with hx | hx
    · obtain ⟨e, he, hk⟩ := ih x hx
      split
      · exact ⟨e, he, hk⟩
      · exact ⟨e, List.mem_append_left _ he, hk⟩
    · have hx : x = d := by simpa using hx
      subst hx
      split
      · rename_i h
        simpa [List.any_eq_true] using h
      · exact ⟨(key x, x), by simp, rfl⟩

/-- Kept: exactly the declarations no earlier one shares the key with. -/
theorem collect_iff (ds : List α) (e : Bytes × α) :
    e ∈ collect key ds ↔ e.1 = key e.2 ∧ ∃ pre post, ds = pre ++ e.2 :: post ∧ ∀ x ∈ pre, key x ≠ key e.2 := by
  induction ds using snoc_induction with
  | h0 => simp [collect]
  | hs ds d ih =>
    rw [collect_snoc]
    constructor
    · intro h
      unfold orInsert at h
      split at h
      · obtain ⟨h1, pre, post, h2, h3⟩ := ih.mp h
        exact ⟨h1, pre, post ++ [d], by rw [h2]; simp, h3⟩
      · rename_i hk
        rcases List.mem_append.mp h with h | h
        · obtain ⟨h1, pre, post, h2, h3⟩ := ih.mp h
          exact ⟨h1, pre, post ++ [d], by rw [h2]; simp, h3⟩
        · have h : e = (key d, d) := by simpa using h
          subst h
          refine ⟨rfl, ds, [], rfl, ?_⟩
          intro x hx hxk
          obtain ⟨y, hy, hyk⟩ := collect_has (key := key) ds x hx
          apply hk
          rw [List.any_eq_true]
          exact ⟨y, hy, by simp [hyk, hxk]⟩
    · rintro ⟨h1, pre, post, h2, h3⟩
      rcases List.eq_nil_or_concat post with rfl | ⟨post', z, rfl⟩
      · have h2' : ds = pre ∧ d = e.2 := by
          have := List.append_inj' h2 rfl
          exact ⟨this.1, by simpa using this.2⟩
        unfold orInsert
        rw [if_neg]
        · apply List.mem_append_right
          rw [h2'.2, ← h1]; simp
        · simp only [List.any_eq_true, decide_eq_true_eq, not_exists, not_and]
          intro y hy hyk
          have := collect_key (key := key) ds y hy
          rw [h2'.1] at this
          exact h3 y.2 this.2 (by rw [← this.1, hyk, h2'.2])
      · have h2' : ds = pre ++ e.2 :: post' := by
          have : ds ++ [d] = (pre ++ e.2 :: post') ++ [z] := by rw [h2]; simp
          exact (List.append_inj' this rfl).1
        have he := ih.mpr ⟨h1, pre, post', h2', h3⟩
        unfold orInsert
        split
        · exact he
        · exact List.mem_append_left _ he

/-- With pairwise different keys nothing is dropped. -/
theorem collect_all (ds : List α) (h : (ds.map key).Nodup) : (collect key ds).map (·.2) = ds := by
  induction ds using snoc_induction with
  | h0 => simp [collect]
  | hs ds d ih =>
    rw [List.map_append, List.nodup_append] at h
    rw [collect_snoc, orInsert, if_neg]
    · rw [List.map_append, ih h.1]; rfl
    · simp only [List.any_eq_true, decide_eq_true_eq, not_exists, not_and]
      intro y hy hyk
      have := collect_key (key := key) ds y hy
      exact h.2.2 (key y.2) (List.mem_map.mpr ⟨y.2, this.2, rfl⟩) (key d) (by simp) (by rw [← this.1, hyk])

end collector

end Brec
