import Verif.Utf8
/-!
# Text as a sequence of characters

The specification of text, independent of `Verif.Utf8`: Lean's own characters (the Unicode scalar values) and their encoding in UTF-8, and the replacement of what is not
text as Unicode recommends it (chapter 3.9, "U+FFFD Substitution of Maximal Subparts"). Then the lemmas that connect it with the model of the standard library.
-/

namespace Brec

/-- The bytes of a character: Lean's `String.utf8EncodeChar`. -/
def utf8 (c : Char) : Bytes := (String.utf8EncodeChar c).map (·.toBitVec)

/-- The bytes of a text. -/
def text (cs : List Char) : Bytes := cs.flatMap utf8

/-- Bytes with which the encoding of some character starts. -/
def Starts (p : Bytes) : Prop := ∃ c, p <+: utf8 c

/-- Bytes read as text: characters where there are characters; elsewhere the longest piece with which the encoding of some character starts, or one byte if there is none,
is replaced by U+FFFD. -/
inductive Decodes : Bytes → List Char → Prop where
  | nil : Decodes [] []
  | char (c : Char) {s : Bytes} {cs : List Char} : Decodes s cs → Decodes (utf8 c ++ s) (c :: cs)
  | bad (p : Bytes) {s : Bytes} {cs : List Char} : p ≠ [] → (Starts p ∨ p.length = 1) → (∀ c, ¬ utf8 c <+: p ++ s) →
      (∀ q, q <+: p ++ s → Starts q → q.length ≤ p.length) → Decodes s cs → Decodes (p ++ s) ('�' :: cs)

/-! ## The bytes of a character -/

/-- The four forms (Unicode, table 3-7). -/
def Form (l : Bytes) : Prop :=
  (∃ a, l = [a] ∧ a.toNat < 0x80) ∨
  (∃ a b, l = [a, b] ∧ 0xC2 ≤ a.toNat ∧ a.toNat ≤ 0xDF ∧ isCont b = true) ∨
  (∃ a b c, l = [a, b, c] ∧ 0xE0 ≤ a.toNat ∧ a.toNat ≤ 0xEF ∧ second3 a.toNat b = true ∧ isCont c = true) ∨
  (∃ a b c d, l = [a, b, c, d] ∧ 0xF0 ≤ a.toNat ∧ a.toNat ≤ 0xF4 ∧ second4 a.toNat b = true ∧ isCont c = true ∧ isCont d = true)

theorem isCont_iff {b : Byte} : isCont b = true ↔ 0x80 ≤ b.toNat ∧ b.toNat ≤ 0xBF := by
  simp [isCont]

theorem second3_iff {n : Nat} {b : Byte} : second3 n b = true ↔
    0x80 ≤ b.toNat ∧ b.toNat ≤ 0xBF ∧ (n = 0xE0 → 0xA0 ≤ b.toNat) ∧ (n = 0xED → b.toNat ≤ 0x9F) := by
  unfold second3
  split
  · simp; omega
  · split
    · simp; omega
    · rw [isCont_iff]; omega

theorem second4_iff {n : Nat} {b : Byte} : second4 n b = true ↔
    0x80 ≤ b.toNat ∧ b.toNat ≤ 0xBF ∧ (n = 0xF0 → 0x90 ≤ b.toNat) ∧ (n = 0xF4 → b.toNat ≤ 0x8F) := by
  unfold second4
  split
  · simp; omega
  · split
    · simp; omega
    · rw [isCont_iff]; omega

/-- The value of a character. -/
theorem char_range (c : Char) : c.val.toNat < 0xD800 ∨ 0xDFFF < c.val.toNat ∧ c.val.toNat < 0x110000 := c.valid

theorem utf8_eq (c : Char) : utf8 c =
    if c.val.toNat ≤ 0x7f then [BitVec.ofNat 8 c.val.toNat]
    else if c.val.toNat ≤ 0x7ff then [BitVec.ofNat 8 (c.val.toNat / 64 % 0x20 + 0xc0), BitVec.ofNat 8 (c.val.toNat % 0x40 + 0x80)]
    else if c.val.toNat ≤ 0xffff then
      [BitVec.ofNat 8 (c.val.toNat / 4096 % 0x10 + 0xe0), BitVec.ofNat 8 (c.val.toNat / 64 % 0x40 + 0x80), BitVec.ofNat 8 (c.val.toNat % 0x40 + 0x80)]
    else
      [BitVec.ofNat 8 (c.val.toNat / 262144 % 0x08 + 0xf0), BitVec.ofNat 8 (c.val.toNat / 4096 % 0x40 + 0x80), BitVec.ofNat 8 (c.val.toNat / 64 % 0x40 + 0x80),
        BitVec.ofNat 8 (c.val.toNat % 0x40 + 0x80)] := by
  unfold utf8 String.utf8EncodeChar
  dsimp only
  by_cases h1 : c.val.toNat ≤ 0x7f
  · rw [if_pos h1, if_pos h1]; rfl
  rw [if_neg h1, if_neg h1]
  by_cases h2 : c.val.toNat ≤ 0x7ff
  · rw [if_pos h2, if_pos h2]; rfl
  rw [if_neg h2, if_neg h2]
  by_cases h3 : c.val.toNat ≤ 0xffff
  · rw [if_pos h3, if_pos h3]; rfl
  rw [if_neg h3, if_neg h3]; rfl

theorem utf8_form (c : Char) : Form (utf8 c) := by
  have hr := char_range c
  rw [utf8_eq]
  generalize c.val.toNat = v at *
  split
  · exact .inl ⟨_, rfl, by rw [BitVec.toNat_ofNat]; omega⟩
  · split
    · refine .inr (.inl ⟨_, _, rfl, ?_, ?_, ?_⟩)
      · rw [BitVec.toNat_ofNat]; omega
      · rw [BitVec.toNat_ofNat]; omega
      · rw [isCont_iff, BitVec.toNat_ofNat]; omega
    · split
      · refine .inr (.inr (.inl ⟨_, _, _, rfl, ?_, ?_, ?_, ?_⟩))
        · rw [BitVec.toNat_ofNat]; omega
        · rw [BitVec.toNat_ofNat]; omega
        · rw [second3_iff, BitVec.toNat_ofNat, BitVec.toNat_ofNat]; omega
        · rw [isCont_iff, BitVec.toNat_ofNat]; omega
      · refine .inr (.inr (.inr ⟨_, _, _, _, rfl, ?_, ?_, ?_, ?_, ?_⟩))
        · rw [BitVec.toNat_ofNat]; omega
        · rw [BitVec.toNat_ofNat]; omega
        · rw [second4_iff, BitVec.toNat_ofNat, BitVec.toNat_ofNat]; omega
        · rw [isCont_iff, BitVec.toNat_ofNat]; omega
        · rw [isCont_iff, BitVec.toNat_ofNat]; omega

theorem byte_eq {b : Byte} {n : Nat} (h : b.toNat = n % 256) : BitVec.ofNat 8 n = b := by
  apply BitVec.eq_of_toNat_eq
  rw [BitVec.toNat_ofNat, h]

theorem char_of {v : Nat} (h : v < 0xD800 ∨ 0xDFFF < v ∧ v < 0x110000) : ∃ c : Char, c.val.toNat = v := by
  refine ⟨⟨UInt32.ofNatLT v (by have : UInt32.size = 4294967296 := rfl; omega), ?_⟩, ?_⟩
  · exact h
  · rfl

theorem form_utf8 {l : Bytes} (h : Form l) : ∃ c, utf8 c = l := by
  rcases h with ⟨a, rfl, h1⟩ | ⟨a, b, rfl, h1, h2, h3⟩ | ⟨a, b, c, rfl, h1, h2, h3, h4⟩ | ⟨a, b, c, d, rfl, h1, h2, h3, h4, h5⟩
  · obtain ⟨x, hx⟩ := char_of (v := a.toNat) (by omega)
    refine ⟨x, ?_⟩
    rw [utf8_eq, hx, if_pos (by omega), byte_eq (b := a) (by omega)]
  · rw [isCont_iff] at h3
    obtain ⟨x, hx⟩ := char_of (v := (a.toNat - 0xC0) * 64 + (b.toNat - 0x80)) (by omega)
    refine ⟨x, ?_⟩
    rw [utf8_eq, hx, if_neg (by omega), if_pos (by omega), byte_eq (b := a) (by omega), byte_eq (b := b) (by omega)]
  · rw [second3_iff] at h3
    rw [isCont_iff] at h4
    obtain ⟨x, hx⟩ := char_of (v := (a.toNat - 0xE0) * 4096 + (b.toNat - 0x80) * 64 + (c.toNat - 0x80)) (by omega)
    refine ⟨x, ?_⟩
    rw [utf8_eq, hx, if_neg (by omega), if_neg (by omega), if_pos (by omega), byte_eq (b := a) (by omega), byte_eq (b := b) (by omega), byte_eq (b := c) (by omega)]
  · rw [second4_iff] at h3
    rw [isCont_iff] at h4 h5
    obtain ⟨x, hx⟩ := char_of (v := (a.toNat - 0xF0) * 262144 + (b.toNat - 0x80) * 4096 + (c.toNat - 0x80) * 64 + (d.toNat - 0x80)) (by omega)
    refine ⟨x, ?_⟩
    rw [utf8_eq, hx, if_neg (by omega), if_neg (by omega), if_neg (by omega), byte_eq (b := a) (by omega), byte_eq (b := b) (by omega), byte_eq (b := c) (by omega),
      byte_eq (b := d) (by omega)]

/-- Different characters have different bytes. -/
theorem utf8_inj {c c' : Char} (h : utf8 c = utf8 c') : c = c' := by
  have hv : c.val.toNat = c'.val.toNat := by
    have h1 := char_range c
    have h2 := char_range c'
    rw [utf8_eq, utf8_eq] at h
    generalize c.val.toNat = v at *
    generalize c'.val.toNat = v' at *
    have num : ∀ {m n : Nat}, BitVec.ofNat 8 m = BitVec.ofNat 8 n → m % 256 = n % 256 := by
      intro m n e
      have := congrArg BitVec.toNat e
      simpa using this
    repeat' split at h
    all_goals simp only [List.cons.injEq, reduceCtorEq, and_false, and_true] at h
    · have := num h; omega
    · have a := num h.1; have b := num h.2; omega
    · have a := num h.1; have b := num h.2.1; have d := num h.2.2; omega
    · have a := num h.1; have b := num h.2.1; have d := num h.2.2.1; have e := num h.2.2.2; omega
  exact Char.ext (UInt32.toNat_inj.mp hv)

/-! ## The first piece -/

theorem byteAt_zero (a : Byte) (s : Bytes) : byteAt (a :: s) 0 = a := by simp [byteAt]
theorem byteAt_succ (a : Byte) (s : Bytes) (i : Nat) : byteAt (a :: s) (i + 1) = byteAt s i := by simp [byteAt]

theorem form_chunk {l : Bytes} (h : Form l) (x : Bytes) : utf8Chunk (l ++ x) = (l.length, true) := by
  unfold utf8Chunk
  rcases h with ⟨a, rfl, h1⟩ | ⟨a, b, rfl, h1, h2, h3⟩ | ⟨a, b, c, rfl, h1, h2, h3, h4⟩ | ⟨a, b, c, d, rfl, h1, h2, h3, h4, h5⟩
  · simp only [List.cons_append, List.nil_append, byteAt_zero]
    rw [if_pos h1]; rfl
  · simp only [List.cons_append, List.nil_append, byteAt_zero, show byteAt (a :: b :: x) 1 = b from rfl]
    rw [if_neg (by omega), if_pos (by omega), if_pos h3]; rfl
  · simp only [List.cons_append, List.nil_append, byteAt_zero, show byteAt (a :: b :: c :: x) 1 = b from rfl, show byteAt (a :: b :: c :: x) 2 = c from rfl]
    rw [if_neg (by omega), if_neg (by omega), if_pos (by omega), if_pos h3, if_pos h4]; rfl
  · simp only [List.cons_append, List.nil_append, byteAt_zero, show byteAt (a :: b :: c :: d :: x) 1 = b from rfl, show byteAt (a :: b :: c :: d :: x) 2 = c from rfl,
      show byteAt (a :: b :: c :: d :: x) 3 = d from rfl]
    rw [if_neg (by omega), if_neg (by omega), if_neg (by omega), if_pos (by omega), if_pos h3, if_pos h4, if_pos h5]; rfl

theorem utf8_chunk (c : Char) (x : Bytes) : utf8Chunk (utf8 c ++ x) = ((utf8 c).length, true) := form_chunk (utf8_form c) x

theorem utf8_ne_nil (c : Char) : utf8 c ≠ [] := by
  rcases utf8_form c with ⟨a, h, _⟩ | ⟨a, b, h, _⟩ | ⟨a, b, d, h, _⟩ | ⟨a, b, d, e, h, _⟩ <;> rw [h] <;> simp

/-- A byte read where there is one. -/
theorem byteAt_pos {s : Bytes} {i : Nat} (h : byteAt s i ≠ 0) : i < s.length := by
  apply Nat.lt_of_not_le
  intro hc
  exact h (by simp [byteAt, List.getElem?_eq_none hc])

theorem isCont_ne {b : Byte} (h : isCont b = true) : b ≠ 0 := fun e => by rw [e, isCont_zero] at h; cases h
theorem second3_ne {n : Nat} {b : Byte} (h : second3 n b = true) : b ≠ 0 := fun e => by rw [e, second3_zero] at h; cases h
theorem second4_ne {n : Nat} {b : Byte} (h : second4 n b = true) : b ≠ 0 := fun e => by rw [e, second4_zero] at h; cases h

/-- What the first piece is: a character, or the beginning of one, or one byte. -/
theorem chunk_piece {s : Bytes} (hs : s ≠ []) :
    ((utf8Chunk s).2 = true ∧ Form (s.take (utf8Chunk s).1)) ∨
    ((utf8Chunk s).2 = false ∧ (utf8Chunk s).1 ≤ s.length ∧ (Starts (s.take (utf8Chunk s).1) ∨ (utf8Chunk s).1 = 1)) := by
  match s, hs with
  | a :: s, _ =>
    have cc : isCont 0x80 = true := by decide
    generalize e : utf8Chunk (a :: s) = k
    unfold utf8Chunk at e
    simp only [byteAt_zero] at e
    have one : (1, false) = k → k.2 = true ∧ Form ((a :: s).take k.1) ∨ k.2 = false ∧ k.1 ≤ (a :: s).length ∧ (Starts ((a :: s).take k.1) ∨ k.1 = 1) := by
      intro e
      subst e
      exact .inr ⟨rfl, by simp, .inr rfl⟩
    by_cases h0 : a.toNat < 0x80
    · rw [if_pos h0] at e
      subst e
      exact .inl ⟨rfl, .inl ⟨a, rfl, h0⟩⟩
    rw [if_neg h0] at e
    by_cases h1 : 0xC2 ≤ a.toNat ∧ a.toNat ≤ 0xDF
    · rw [if_pos h1] at e
      by_cases h2 : isCont (byteAt (a :: s) 1) = true
      · rw [if_pos h2] at e
        subst e
        match s with
        | [] => exact absurd (isCont_ne h2) (by simp [byteAt])
        | b :: s => exact .inl ⟨rfl, .inr (.inl ⟨a, b, rfl, h1.1, h1.2, h2⟩)⟩
      · rw [if_neg h2] at e
        exact one e
    rw [if_neg h1] at e
    by_cases h1 : 0xE0 ≤ a.toNat ∧ a.toNat ≤ 0xEF
    · rw [if_pos h1] at e
      by_cases h2 : second3 a.toNat (byteAt (a :: s) 1) = true
      · rw [if_pos h2] at e
        match s with
        | [] => exact absurd (second3_ne h2) (by simp [byteAt])
        | b :: s =>
          by_cases h3 : isCont (byteAt (a :: b :: s) 2) = true
          · rw [if_pos h3] at e
            subst e
            match s with
            | [] => exact absurd (isCont_ne h3) (by simp [byteAt])
            | c :: s => exact .inl ⟨rfl, .inr (.inr (.inl ⟨a, b, c, rfl, h1.1, h1.2, h2, h3⟩))⟩
          · rw [if_neg h3] at e
            subst e
            refine .inr ⟨rfl, by simp, .inl ?_⟩
            obtain ⟨x, hx⟩ := form_utf8 (l := [a, b, 0x80]) (.inr (.inr (.inl ⟨a, b, 0x80, rfl, h1.1, h1.2, h2, cc⟩)))
            exact ⟨x, by rw [hx]; exact ⟨[0x80], rfl⟩⟩
      · rw [if_neg h2] at e
        exact one e
    rw [if_neg h1] at e
    by_cases h1 : 0xF0 ≤ a.toNat ∧ a.toNat ≤ 0xF4
    · rw [if_pos h1] at e
      by_cases h2 : second4 a.toNat (byteAt (a :: s) 1) = true
      · rw [if_pos h2] at e
        match s with
        | [] => exact absurd (second4_ne h2) (by simp [byteAt])
        | b :: s =>
          by_cases h3 : isCont (byteAt (a :: b :: s) 2) = true
          · rw [if_pos h3] at e
            match s with
            | [] => exact absurd (isCont_ne h3) (by simp [byteAt])
            | c :: s =>
              by_cases h4 : isCont (byteAt (a :: b :: c :: s) 3) = true
              · rw [if_pos h4] at e
                subst e
                match s with
                | [] => exact absurd (isCont_ne h4) (by simp [byteAt])
                | d :: s => exact .inl ⟨rfl, .inr (.inr (.inr ⟨a, b, c, d, rfl, h1.1, h1.2, h2, h3, h4⟩))⟩
              · rw [if_neg h4] at e
                subst e
                refine .inr ⟨rfl, by simp, .inl ?_⟩
                obtain ⟨x, hx⟩ := form_utf8 (l := [a, b, c, 0x80]) (.inr (.inr (.inr ⟨a, b, c, 0x80, rfl, h1.1, h1.2, h2, h3, cc⟩)))
                exact ⟨x, by rw [hx]; exact ⟨[0x80], rfl⟩⟩
          · rw [if_neg h3] at e
            subst e
            refine .inr ⟨rfl, by simp, .inl ?_⟩
            obtain ⟨x, hx⟩ := form_utf8 (l := [a, b, 0x80, 0x80]) (.inr (.inr (.inr ⟨a, b, 0x80, 0x80, rfl, h1.1, h1.2, h2, cc, cc⟩)))
            exact ⟨x, by rw [hx]; exact ⟨[0x80, 0x80], rfl⟩⟩
      · rw [if_neg h2] at e
        exact one e
    · rw [if_neg h1] at e
      exact one e

/-- The first piece, where there is no character, is the longest possible. -/
theorem chunk_longest {s : Bytes} (h : (utf8Chunk s).2 = false) {q : Bytes} (hq : q <+: s) (hst : Starts q) : q.length ≤ (utf8Chunk s).1 := by
  obtain ⟨c, r, hr⟩ := hst
  obtain ⟨t, rfl⟩ := hq
  have hp := utf8Chunk_pos (q ++ t)
  apply Nat.le_of_not_lt
  intro hlt
  have hf := utf8_form c
  rw [← hr] at hf
  -- the bytes of `q` and of the character agree
  match q with
  | [] => simp at hlt
  | [_] => rw [List.length_singleton] at hlt; omega
  | [a, b] =>
    unfold utf8Chunk at h hlt
    simp only [List.cons_append, List.nil_append, byteAt_zero, show byteAt (a :: b :: t) 1 = b from rfl] at h hlt
    rcases hf with ⟨a', e, h1⟩ | ⟨a', b', e, h1, h2, h3⟩ | ⟨a', b', c', e, h1, h2, h3, h4⟩ | ⟨a', b', c', d', e, h1, h2, h3, h4, h5⟩
    · simp at e
    · simp only [List.cons_append, List.nil_append, List.cons.injEq] at e
      obtain ⟨rfl, rfl, rfl⟩ := e
      rw [if_neg (by omega), if_pos (by omega), if_pos h3] at h
      cases h
    · simp only [List.cons_append, List.nil_append, List.cons.injEq] at e
      obtain ⟨rfl, rfl, e⟩ := e
      rw [if_neg (by omega), if_neg (by omega), if_pos (by omega), if_pos h3] at h hlt
      split at hlt <;> simp at hlt
    · simp only [List.cons_append, List.nil_append, List.cons.injEq] at e
      obtain ⟨rfl, rfl, e⟩ := e
      rw [if_neg (by omega), if_neg (by omega), if_neg (by omega), if_pos (by omega), if_pos h3] at h hlt
      repeat' split at hlt
      all_goals simp at hlt
  | [a, b, d] =>
    unfold utf8Chunk at h hlt
    simp only [List.cons_append, List.nil_append, byteAt_zero, show byteAt (a :: b :: d :: t) 1 = b from rfl, show byteAt (a :: b :: d :: t) 2 = d from rfl] at h hlt
    rcases hf with ⟨a', e, h1⟩ | ⟨a', b', e, h1, h2, h3⟩ | ⟨a', b', c', e, h1, h2, h3, h4⟩ | ⟨a', b', c', d', e, h1, h2, h3, h4, h5⟩
    · simp at e
    · simp at e
    · simp only [List.cons_append, List.nil_append, List.cons.injEq] at e
      obtain ⟨rfl, rfl, rfl, rfl⟩ := e
      rw [if_neg (by omega), if_neg (by omega), if_pos (by omega), if_pos h3, if_pos h4] at h
      cases h
    · simp only [List.cons_append, List.nil_append, List.cons.injEq] at e
      obtain ⟨rfl, rfl, rfl, e⟩ := e
      rw [if_neg (by omega), if_neg (by omega), if_neg (by omega), if_pos (by omega), if_pos h3, if_pos h4] at h hlt
      split at hlt <;> simp at hlt
  | [a, b, d, f] =>
    rcases hf with ⟨a', e, h1⟩ | ⟨a', b', e, h1, h2, h3⟩ | ⟨a', b', c', e, h1, h2, h3, h4⟩ | ⟨a', b', c', d', e, h1, h2, h3, h4, h5⟩
    · simp at e
    · simp at e
    · simp at e
    · have e2 : [a, b, d, f] = [a', b', c', d'] := by
        simp only [List.cons_append, List.nil_append, List.cons.injEq] at e
        obtain ⟨rfl, rfl, rfl, rfl, _⟩ := e
        rfl
      rw [form_chunk (.inr (.inr (.inr ⟨a', b', c', d', e2, h1, h2, h3, h4, h5⟩)))] at h
      cases h
  | a :: b :: d :: f :: g :: q =>
    rcases hf with ⟨a', e, h1⟩ | ⟨a', b', e, h1, h2, h3⟩ | ⟨a', b', c', e, h1, h2, h3, h4⟩ | ⟨a', b', c', d', e, h1, h2, h3, h4, h5⟩ <;> simp at e

/-- Where the first piece is not a character, no character stands. -/
theorem chunk_no_char {s : Bytes} (h : (utf8Chunk s).2 = false) (c : Char) : ¬ utf8 c <+: s := by
  rintro ⟨t, rfl⟩
  rw [utf8_chunk] at h
  cases h

/-! ## All of it -/

theorem lossy_nil : lossy [] = [] := rfl

theorem lossy_step {s : Bytes} (hs : s ≠ []) :
    lossy s = (if (utf8Chunk s).2 then s.take (utf8Chunk s).1 else REPLACEMENT) ++ lossy (s.drop (utf8Chunk s).1) := by
  match s, hs with
  | b :: s, _ =>
    have := utf8Chunk_pos (b :: s)
    show lossyAux (s.length + 1) (b :: s) = _
    rw [lossyAux, lossyAux_fuel (f := s.length) (g := ((b :: s).drop (utf8Chunk (b :: s)).1).length)
      (by rw [List.length_drop, List.length_cons]; omega) (Nat.le_refl _)]
    · rfl
    · simp

theorem replacement_eq : REPLACEMENT = utf8 '�' := by decide

/-- Every string of bytes is decoded in some way. -/
theorem decodes_exists (s : Bytes) : ∃ cs, Decodes s cs := by
  induction hn : s.length using Nat.strongRecOn generalizing s with
  | ind n ih =>
    by_cases hs : s = []
    · subst hs; exact ⟨[], .nil⟩
    · have hp := utf8Chunk_pos s
      have hl : 0 < s.length := List.length_pos_iff.mpr hs
      obtain ⟨cs, hcs⟩ := ih (s.drop (utf8Chunk s).1).length (by rw [List.length_drop]; omega) _ rfl
      have split := List.take_append_drop (utf8Chunk s).1 s
      rcases chunk_piece hs with ⟨h1, h2⟩ | ⟨h1, h2, h3⟩
      · obtain ⟨c, hc⟩ := form_utf8 h2
        refine ⟨c :: cs, ?_⟩
        rw [← split, ← hc]
        exact .char c hcs
      · have htl : (s.take (utf8Chunk s).1).length = (utf8Chunk s).1 := by rw [List.length_take]; omega
        refine ⟨'�' :: cs, ?_⟩
        have := Decodes.bad (s.take (utf8Chunk s).1) (s := s.drop (utf8Chunk s).1) (cs := cs) (by intro e; rw [e] at htl; simp at htl; omega)
          (by rw [htl]; exact h3) (by rw [split]; exact chunk_no_char h1) (by rw [split, htl]; exact fun q => chunk_longest h1) hcs
        rwa [split] at this

/-- The model of the standard library decodes as specified. -/
theorem lossy_decodes {s : Bytes} {cs : List Char} (h : Decodes s cs) : lossy s = text cs := by
  induction h with
  | nil => rfl
  | @char c s cs h ih =>
    have hne : utf8 c ++ s ≠ [] := by
      intro e
      exact utf8_ne_nil c (List.append_eq_nil_iff.mp e).1
    rw [lossy_step hne, utf8_chunk, if_pos rfl, List.take_left, List.drop_left, ih]
    simp [text]
  | @bad p s cs hp hst hno hmax h ih =>
    have hne : p ++ s ≠ [] := by
      intro e
      exact hp (List.append_eq_nil_iff.mp e).1
    have hf : (utf8Chunk (p ++ s)).2 = false := by
      rcases chunk_piece hne with ⟨_, h2⟩ | ⟨h1, _⟩
      · obtain ⟨c, hc⟩ := form_utf8 h2
        exact absurd (hc ▸ List.take_prefix _ _) (hno c)
      · exact h1
    have hpl : 1 ≤ p.length := List.length_pos_iff.mpr hp
    have hlen : (utf8Chunk (p ++ s)).1 = p.length := by
      have hc := utf8Chunk_pos (p ++ s)
      apply Nat.le_antisymm
      · rcases chunk_piece hne with ⟨h1, _⟩ | ⟨_, h2, h3⟩
        · rw [hf] at h1; cases h1
        · rcases h3 with h3 | h3
          · have := hmax _ (List.take_prefix _ _) h3
            rw [List.length_take] at this
            omega
          · omega
      · rcases hst with hst | hst
        · exact chunk_longest hf ⟨s, rfl⟩ hst
        · omega
    rw [lossy_step hne, hf, hlen, if_neg (by simp), List.drop_left, ih, replacement_eq]
    simp [text]

/-- Two texts with the same bytes are the same. -/
theorem text_inj {cs cs' : List Char} (h : text cs = text cs') : cs = cs' := by
  induction cs generalizing cs' with
  | nil =>
    match cs' with
    | [] => rfl
    | c :: cs' => exact absurd (List.append_eq_nil_iff.mp (by simpa [text] using h.symm : utf8 c ++ text cs' = [])).1 (utf8_ne_nil c)
  | cons c cs ih =>
    match cs' with
    | [] => exact absurd (List.append_eq_nil_iff.mp (by simpa [text] using h : utf8 c ++ text cs = [])).1 (utf8_ne_nil c)
    | c' :: cs' =>
      have h : utf8 c ++ text cs = utf8 c' ++ text cs' := by simpa [text] using h
      have hl : (utf8 c).length = (utf8 c').length := by
        have h1 := utf8_chunk c (text cs)
        rw [h, utf8_chunk] at h1
        injection h1 with h1 _
        exact h1.symm
      obtain ⟨h1, h2⟩ := List.append_inj h hl
      rw [utf8_inj h1, ih h2]

/-- Text is decoded to itself. -/
theorem decodes_text (cs : List Char) : Decodes (text cs) cs := by
  induction cs with
  | nil => exact .nil
  | cons c cs ih =>
    have := Decodes.char c ih
    simpa [text] using this

theorem lossy_text (cs : List Char) : lossy (text cs) = text cs := lossy_decodes (decodes_text cs)

theorem valid_text (cs : List Char) : validUtf8 (text cs) = true := by
  have := lossy_isValid (text cs)
  rwa [lossy_text] at this

/-- What a Rust `String` holds. -/
theorem valid_iff {s : Bytes} : validUtf8 s = true ↔ ∃ cs, s = text cs := by
  constructor
  · intro h
    obtain ⟨cs, hcs⟩ := decodes_exists s
    exact ⟨cs, by rw [← lossy_decodes hcs, lossy_valid h]⟩
  · rintro ⟨cs, rfl⟩
    exact valid_text cs

end Brec
