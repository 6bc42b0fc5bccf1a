import Verif.Io
/-!
# UTF-8

`String` values are valid UTF-8 byte strings; `String::from_utf8_lossy` as specified by the Rust
standard library (`core::str::lossy::Utf8Chunks`): every maximal invalid chunk becomes U+FFFD.
-/

namespace Brec

/-- Continuation byte. -/
def isCont (b : Byte) : Bool := decide (0x80 ≤ b.toNat) && decide (b.toNat ≤ 0xBF)

/-- Allowed second byte of a three-byte sequence starting with `n`. -/
def second3 (n : Nat) (b : Byte) : Bool :=
  if n = 0xE0 then decide (0xA0 ≤ b.toNat) && decide (b.toNat ≤ 0xBF)
  else if n = 0xED then decide (0x80 ≤ b.toNat) && decide (b.toNat ≤ 0x9F)
  else isCont b

/-- Allowed second byte of a four-byte sequence starting with `n`. -/
def second4 (n : Nat) (b : Byte) : Bool :=
  if n = 0xF0 then decide (0x90 ≤ b.toNat) && decide (b.toNat ≤ 0xBF)
  else if n = 0xF4 then decide (0x80 ≤ b.toNat) && decide (b.toNat ≤ 0x8F)
  else isCont b

/-- `safe_get`: a missing byte reads as 0 (never a continuation). -/
def byteAt (s : Bytes) (i : Nat) : Byte := s[i]?.getD 0

/-- Length of the first chunk of a non-empty string and whether it is a valid character
(`Utf8Chunks::next`). -/
def utf8Chunk (s : Bytes) : Nat × Bool :=
  let n := (byteAt s 0).toNat
  if n < 0x80 then (1, true)
  else if 0xC2 ≤ n ∧ n ≤ 0xDF then
    if isCont (byteAt s 1) then (2, true) else (1, false)
  else if 0xE0 ≤ n ∧ n ≤ 0xEF then
    if second3 n (byteAt s 1) then
      if isCont (byteAt s 2) then (3, true) else (2, false)
    else (1, false)
  else if 0xF0 ≤ n ∧ n ≤ 0xF4 then
    if second4 n (byteAt s 1) then
      if isCont (byteAt s 2) then
        if isCont (byteAt s 3) then (4, true) else (3, false)
      else (2, false)
    else (1, false)
  else (1, false)

/-- U+FFFD in UTF-8. -/
def REPLACEMENT : Bytes := [0xEF, 0xBF, 0xBD]

def lossyAux : Nat → Bytes → Bytes
  | 0, _ => []
  | _ + 1, [] => []
  | f + 1, s =>
    (if (utf8Chunk s).2 then s.take (utf8Chunk s).1 else REPLACEMENT) ++
      lossyAux f (s.drop (utf8Chunk s).1)

/-- `String::from_utf8_lossy` as bytes. Every step drops at least one byte, so the length is fuel
enough (`lossyAux_fuel`). -/
def lossy (s : Bytes) : Bytes := lossyAux s.length s

def validAux : Nat → Bytes → Bool
  | 0, s => s.isEmpty
  | _ + 1, [] => true
  | f + 1, s => (utf8Chunk s).2 && validAux f (s.drop (utf8Chunk s).1)

/-- Well-formed UTF-8: what a Rust `String` holds. -/
def validUtf8 (s : Bytes) : Bool := validAux s.length s

theorem utf8Chunk_pos (s : Bytes) : 1 ≤ (utf8Chunk s).1 := by
  unfold utf8Chunk
  simp only
  repeat' split
  all_goals simp

theorem utf8Chunk_le4 (s : Bytes) : (utf8Chunk s).1 ≤ 4 := by
  unfold utf8Chunk
  simp only
  repeat' split
  all_goals simp

theorem lossyAux_fuel {f g : Nat} {s : Bytes} (hf : s.length ≤ f) (hg : s.length ≤ g) :
    lossyAux f s = lossyAux g s := by
  induction f generalizing g s with
  | zero =>
    have : s = [] := List.length_eq_zero_iff.mp (by omega)
    subst this
    cases g <;> rfl
  | succ f ih =>
    cases s with
    | nil => cases g <;> rfl
    | cons b s =>
      cases g with
      | zero => simp at hg
      | succ g =>
        have := utf8Chunk_pos (b :: s)
        simp only [lossyAux]
        rw [ih (g := g)] <;> simp only [List.length_drop, List.length_cons] at * <;> omega

theorem lossy_valid_aux {f : Nat} {s : Bytes} (hf : s.length ≤ f) (h : validAux f s = true) :
    lossyAux f s = s := by
  induction f generalizing s with
  | zero =>
    have : s = [] := List.length_eq_zero_iff.mp (by omega)
    subst this; rfl
  | succ f ih =>
    cases s with
    | nil => rfl
    | cons b s =>
      have := utf8Chunk_pos (b :: s)
      simp only [validAux, Bool.and_eq_true] at h
      simp only [lossyAux, h.1, if_true]
      rw [ih (by simp only [List.length_drop, List.length_cons] at *; omega) h.2]
      simp

/-- Decoding a valid string returns it. -/
theorem lossy_valid {s : Bytes} (h : validUtf8 s = true) : lossy s = s :=
  lossy_valid_aux (Nat.le_refl _) h

theorem byteAt_append {a x : Bytes} {i : Nat} (h : i < a.length) : byteAt (a ++ x) i = byteAt a i := by
  simp [byteAt, List.getElem?_append_left h]

theorem byteAt_take {s : Bytes} {i n : Nat} (h : i < n) : byteAt (s.take n) i = byteAt s i := by
  simp [byteAt, h]

theorem isCont_zero : isCont 0 = false := by decide
theorem second3_zero (m : Nat) : second3 m 0 = false := by
  unfold second3
  split
  · decide
  · split <;> decide
theorem second4_zero (m : Nat) : second4 m 0 = false := by
  unfold second4
  split
  · decide
  · split <;> decide

theorem utf8Chunk_le_length {s : Bytes} (hs : s ≠ []) (h : (utf8Chunk s).2 = true) :
    (utf8Chunk s).1 ≤ s.length := by
  -- otherwise a 0 (missing byte) would have been accepted as a continuation byte
  apply Nat.le_of_not_lt
  intro hlt
  have hpos : 0 < s.length := List.length_pos_iff.mpr hs
  have get : ∀ j, s.length ≤ j → byteAt s j = 0 := by
    intro j hj
    simp [byteAt, List.getElem?_eq_none hj]
  have h4 := utf8Chunk_le4 s
  obtain ⟨n, e⟩ : ∃ n, utf8Chunk s = (n, true) := ⟨_, Prod.ext rfl h⟩
  rw [e] at hlt h4
  simp only at hlt h4
  unfold utf8Chunk at e
  simp only at e
  by_cases i1 : s.length ≤ 1
  · rw [get 1 i1, isCont_zero, second3_zero, second4_zero] at e
    simp only [Bool.false_eq_true, if_false] at e
    repeat' split at e
    all_goals first | (cases e; done) | (injection e with e1 _; omega)
  · by_cases i2 : s.length ≤ 2
    · rw [get 2 i2, isCont_zero] at e
      simp only [Bool.false_eq_true, if_false] at e
      repeat' split at e
      all_goals first | (cases e; done) | (injection e with e1 _; omega)
    · rw [get 3 (by omega), isCont_zero] at e
      simp only [Bool.false_eq_true, if_false] at e
      repeat' split at e
      all_goals first | (cases e; done) | (injection e with e1 _; omega)

/-- A valid character stays one whatever follows. -/
theorem utf8Chunk_take {s : Bytes} (hs : s ≠ []) (h : (utf8Chunk s).2 = true) (x : Bytes) :
    utf8Chunk (s.take (utf8Chunk s).1 ++ x) = ((utf8Chunk s).1, true) := by
  obtain ⟨n, e⟩ : ∃ n, utf8Chunk s = (n, true) := ⟨_, Prod.ext rfl h⟩
  rw [e]
  simp only
  -- all bytes the chunk looked at are there
  have key : ∀ i, i < n → byteAt (s.take n ++ x) i = byteAt s i := by
    intro i hi
    have hl := utf8Chunk_le_length hs h
    rw [e] at hl
    simp only at hl
    rw [byteAt_append (by simp; omega), byteAt_take hi]
  unfold utf8Chunk at e ⊢
  simp only at e ⊢
  have hn1 : 1 ≤ n := by
    repeat' split at e
    all_goals first | (cases e; done) | (injection e with e1 _; omega)
  rw [key 0 (by omega)]
  by_cases c1 : (byteAt s 0).toNat < 0x80
  · rw [if_pos c1] at e ⊢; exact e
  rw [if_neg c1] at e ⊢
  by_cases c2 : 0xC2 ≤ (byteAt s 0).toNat ∧ (byteAt s 0).toNat ≤ 0xDF
  · rw [if_pos c2] at e ⊢
    split at e
    · rename_i h1
      injection e with e1 _
      rw [key 1 (by omega), if_pos h1, e1]
    · cases e
  rw [if_neg c2] at e ⊢
  by_cases c3 : 0xE0 ≤ (byteAt s 0).toNat ∧ (byteAt s 0).toNat ≤ 0xEF
  · rw [if_pos c3] at e ⊢
    split at e
    · rename_i h1
      split at e
      · rename_i h2
        injection e with e1 _
        rw [key 1 (by omega), key 2 (by omega), if_pos h1, if_pos h2, e1]
      · cases e
    · cases e
  rw [if_neg c3] at e ⊢
  by_cases c4 : 0xF0 ≤ (byteAt s 0).toNat ∧ (byteAt s 0).toNat ≤ 0xF4
  · rw [if_pos c4] at e ⊢
    split at e
    · rename_i h1
      split at e
      · rename_i h2
        split at e
        · rename_i h3
          injection e with e1 _
          rw [key 1 (by omega), key 2 (by omega), key 3 (by omega), if_pos h1, if_pos h2, if_pos h3, e1]
        · cases e
      · cases e
    · cases e
  rw [if_neg c4] at e
  cases e

theorem validAux_fuel {f g : Nat} {s : Bytes} (hf : s.length ≤ f) (hg : s.length ≤ g) :
    validAux f s = validAux g s := by
  induction f generalizing g s with
  | zero =>
    have : s = [] := List.length_eq_zero_iff.mp (by omega)
    subst this
    cases g <;> rfl
  | succ f ih =>
    cases s with
    | nil => cases g <;> rfl
    | cons b s =>
      cases g with
      | zero => simp at hg
      | succ g =>
        have := utf8Chunk_pos (b :: s)
        simp only [validAux]
        rw [ih (g := g)] <;> simp only [List.length_drop, List.length_cons] at * <;> omega

/-- One valid character in front of a valid string. -/
theorem validUtf8_cons {s x : Bytes} (hs : s ≠ []) (h : (utf8Chunk s).2 = true)
    (hlen : (utf8Chunk s).1 ≤ s.length) (hx : validUtf8 x = true) :
    validUtf8 (s.take (utf8Chunk s).1 ++ x) = true := by
  have hc := utf8Chunk_take hs h x
  have hp := utf8Chunk_pos s
  unfold validUtf8
  match hl : s.take (utf8Chunk s).1 ++ x with
  | [] =>
    have := congrArg List.length hl
    simp only [List.length_append, List.length_take, List.length_nil] at this
    have h2 : s.length ≠ 0 := by simpa using hs
    omega
  | b :: r =>
    rw [hl] at hc
    show validAux ((b :: r).length) (b :: r) = true
    simp only [List.length_cons, validAux, hc, Bool.true_and]
    have hd : (b :: r).drop (utf8Chunk s).1 = x := by
      rw [← hl, List.drop_append_of_le_length (by simp; omega)]
      simp
    rw [hd]
    have hlx := congrArg List.length hl
    simp only [List.length_append, List.length_take, List.length_cons] at hlx
    rw [validAux_fuel (g := x.length) (by omega) (Nat.le_refl _)]
    exact hx

theorem lossy_isValid_aux {f : Nat} {s : Bytes} : validUtf8 (lossyAux f s) = true := by
  induction f generalizing s with
  | zero => rfl
  | succ f ih =>
    cases s with
    | nil => rfl
    | cons b s =>
      simp only [lossyAux]
      split
      · rename_i h
        exact validUtf8_cons (by simp) h (utf8Chunk_le_length (by simp) h) ih
      · have hr : utf8Chunk REPLACEMENT = (3, true) := by decide
        have := validUtf8_cons (s := REPLACEMENT) (x := lossyAux f ((b :: s).drop (utf8Chunk (b :: s)).1))
          (by simp [REPLACEMENT]) (by rw [hr]) (by rw [hr]; decide) ih
        rw [hr] at this
        exact this

/-- The result of the lossy decoding is always a valid string. -/
theorem lossy_isValid (s : Bytes) : validUtf8 (lossy s) = true := lossy_isValid_aux

/-- A Rust `String`. -/
abbrev Utf8 := { b : Bytes // validUtf8 b = true }

/-- `String::from_utf8_lossy(buf).to_string()`. -/
def Utf8.ofLossy (s : Bytes) : Utf8 := ⟨lossy s, lossy_isValid s⟩

theorem Utf8.ofLossy_val (u : Utf8) : Utf8.ofLossy u.1 = u := Subtype.ext (lossy_valid u.2)

/-- Euro sign, then an incomplete sequence: one replacement character for the maximal invalid part. -/
example : lossy [0xE2, 0x82, 0xAC, 0xE2, 0x82] = [0xE2, 0x82, 0xAC, 0xEF, 0xBF, 0xBD] := by decide
example : validUtf8 [0xE2, 0x82, 0xAC, 0x41] = true ∧ validUtf8 [0xC0, 0x80] = false := by decide

end Brec
