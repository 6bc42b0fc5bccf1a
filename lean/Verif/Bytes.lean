/-!
# Bytes and little-endian integers

Bytes are `BitVec 8`.  `u16/u32/u64/u128::to_le_bytes` and `from_le_bytes` (Rust core library)
are modelled by `leBytes`/`leNat`; signed integers and floats use the same functions on their
two's-complement / IEEE bit pattern, which is what `to_le_bytes` does.
-/

namespace Brec

abbrev Byte := BitVec 8
abbrev Bytes := List Byte

/-- `uN::to_le_bytes` for a value of `n` bytes (Rust core; used all over `/repo/brec/src`, e.g.
`packet/header/write.rs:16-27`). Higher bits of `v` are dropped, as for `as uN`. -/
def leBytes : Nat → Nat → Bytes
  | 0, _ => []
  | n + 1, v => BitVec.ofNat 8 v :: leBytes n (v / 256)

/-- `uN::from_le_bytes` (Rust core; e.g. `packet/header/read.rs:18-55`). -/
def leNat : Bytes → Nat
  | [] => 0
  | b :: bs => b.toNat + 256 * leNat bs

@[simp] theorem leBytes_length (n v : Nat) : (leBytes n v).length = n := by
  induction n generalizing v with
  | zero => rfl
  | succ n ih => simp [leBytes, ih]

theorem leNat_lt (bs : Bytes) : leNat bs < 256 ^ bs.length := by
  induction bs with
  | nil => simp [leNat]
  | cons b bs ih =>
    have hb := b.isLt
    simp only [leNat, List.length_cons, Nat.pow_succ]
    omega

theorem leNat_leBytes (n v : Nat) : leNat (leBytes n v) = v % 256 ^ n := by
  induction n generalizing v with
  | zero => simp [leBytes, leNat, Nat.mod_one]
  | succ n ih =>
    simp only [leBytes, leNat, ih, BitVec.toNat_ofNat]
    have e : 256 ^ (n + 1) = 256 * 256 ^ n := by rw [Nat.pow_succ, Nat.mul_comm]
    rw [e, Nat.mod_mul]

@[simp] theorem leNat_leBytes_of_lt {n v : Nat} (h : v < 256 ^ n) : leNat (leBytes n v) = v := by
  rw [leNat_leBytes, Nat.mod_eq_of_lt h]

@[simp] theorem leBytes_leNat (bs : Bytes) : leBytes bs.length (leNat bs) = bs := by
  induction bs with
  | nil => rfl
  | cons b bs ih =>
    have hb := b.isLt
    simp only [List.length_cons, leBytes, leNat]
    have h1 : (b.toNat + 256 * leNat bs) / 256 = leNat bs := by omega
    rw [h1, ih]
    congr 1
    apply BitVec.eq_of_toNat_eq
    simp only [BitVec.toNat_ofNat]
    omega

theorem leBytes_leNat' {n : Nat} {bs : Bytes} (h : bs.length = n) : leBytes n (leNat bs) = bs := by
  subst h; simp

theorem leNat_inj {a b : Bytes} (hl : a.length = b.length) (h : leNat a = leNat b) : a = b := by
  rw [← leBytes_leNat a, ← leBytes_leNat b, hl, h]

theorem leBytes_inj {n a b : Nat} (ha : a < 256 ^ n) (hb : b < 256 ^ n)
    (h : leBytes n a = leBytes n b) : a = b := by
  have := congrArg leNat h
  rwa [leNat_leBytes_of_lt ha, leNat_leBytes_of_lt hb] at this

/-- Two byte strings of the same length that differ at most inside a window of four consecutive
bytes (independent notion of a "burst" used by the corruption properties). -/
def Burst4 (a b : Bytes) : Prop :=
  a.length = b.length ∧ ∃ k, ∀ i, (i < k ∨ k + 4 ≤ i) → a[i]? = b[i]?

theorem Burst4.refl (a : Bytes) : Burst4 a a := ⟨rfl, 0, fun _ _ => rfl⟩

theorem Burst4.symm {a b : Bytes} (h : Burst4 a b) : Burst4 b a :=
  ⟨h.1.symm, h.2.imp fun _ hk i hi => (hk i hi).symm⟩

/-- A burst splits into common prefix, two windows of equal length at most 4, common suffix. -/
theorem Burst4.split {a b : Bytes} (h : Burst4 a b) :
    ∃ p x y q, a = p ++ x ++ q ∧ b = p ++ y ++ q ∧ x.length = y.length ∧ x.length ≤ 4 := by
  obtain ⟨hl, k, hk⟩ := h
  refine ⟨a.take k, (a.drop k).take 4, (b.drop k).take 4, a.drop (k + 4), ?_, ?_, ?_, ?_⟩
  · rw [List.append_assoc, ← List.drop_drop, List.take_append_drop, List.take_append_drop]
  · have h1 : a.take k = b.take k := by
      apply List.ext_getElem?
      intro i
      by_cases hi : i < k
      · simp [hi, hk i (Or.inl hi)]
      · simp [List.getElem?_take, hi]
    have h2 : a.drop (k + 4) = b.drop (k + 4) := by
      apply List.ext_getElem?
      intro i
      simp only [List.getElem?_drop]
      exact hk _ (Or.inr (by omega))
    rw [h1, h2, List.append_assoc, ← List.drop_drop, List.take_append_drop, List.take_append_drop]
  · simp [hl]
  · simp; omega

theorem Burst4.of_split (p x y q : Bytes) (hl : x.length = y.length) (h4 : x.length ≤ 4) :
    Burst4 (p ++ x ++ q) (p ++ y ++ q) := by
  refine ⟨by simp [hl], p.length, fun i hi => ?_⟩
  rcases hi with hi | hi
  · simp [List.getElem?_append_left, hi, List.append_assoc]
  · rw [List.getElem?_append_right (by simp; omega), List.getElem?_append_right (by simp; omega)]
    simp [hl]

/-- A burst, seen through a sub-window. -/
theorem Burst4.drop {a b : Bytes} (h : Burst4 a b) (n : Nat) : Burst4 (a.drop n) (b.drop n) := by
  obtain ⟨hl, k, hk⟩ := h
  by_cases hn : n ≤ k
  · refine ⟨by simp [hl], k - n, fun i hi => ?_⟩
    simp only [List.getElem?_drop]
    exact hk _ (by omega)
  · -- the window may be cut by the drop: keep the part that is left
    refine ⟨by simp [hl], 0, fun i hi => ?_⟩
    simp only [List.getElem?_drop]
    exact hk _ (by omega)

theorem Burst4.take {a b : Bytes} (h : Burst4 a b) (n : Nat) : Burst4 (a.take n) (b.take n) := by
  obtain ⟨hl, k, hk⟩ := h
  refine ⟨by simp [hl], k, fun i hi => ?_⟩
  simp only [List.getElem?_take]
  split
  · exact hk _ hi
  · rfl

/-- `c` is a re-encoding of `b` that keeps every byte where `b` still agrees with the original `a`.
(Readers re-encode what they decoded before checking a CRC.) -/
def Canon (a b c : Bytes) : Prop :=
  a.length = b.length ∧ c.length = b.length ∧ ∀ i : Nat, a[i]? = b[i]? → c[i]? = b[i]?

theorem Canon.refl {a b : Bytes} (h : a.length = b.length) : Canon a b b := ⟨h, rfl, fun _ _ => rfl⟩

theorem Canon.single {x f g : Byte} (h : x = f → g = f) : Canon [x] [f] [g] := by
  refine ⟨rfl, rfl, fun i hi => ?_⟩
  cases i with
  | zero => simp at hi ⊢; exact h hi
  | succ i => simp

theorem Canon.append {a b c a' b' c' : Bytes} (h : Canon a b c) (h' : Canon a' b' c') :
    Canon (a ++ a') (b ++ b') (c ++ c') := by
  obtain ⟨h1, h2, h3⟩ := h
  obtain ⟨h1', h2', h3'⟩ := h'
  refine ⟨by simp [h1, h1'], by simp [h2, h2'], fun i hi => ?_⟩
  by_cases hlt : i < a.length
  · rw [List.getElem?_append_left hlt, List.getElem?_append_left (by omega)] at hi
    rw [List.getElem?_append_left (by omega), List.getElem?_append_left (by omega)]
    exact h3 i hi
  · rw [List.getElem?_append_right (by omega), List.getElem?_append_right (by omega)] at hi
    rw [List.getElem?_append_right (by omega), List.getElem?_append_right (by omega)]
    rw [h1] at hi
    rw [h2]
    exact h3' _ hi

theorem Canon.burst {a b c : Bytes} (h : Canon a b c) (hb : Burst4 a b) : Burst4 a c := by
  obtain ⟨_, k, hk⟩ := hb
  exact ⟨by rw [h.1, h.2.1], k, fun i hi => by rw [h.2.2 i (hk i hi)]; exact hk i hi⟩

end Brec
