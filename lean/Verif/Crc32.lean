import Verif.Bytes
/-!
# CRC-32 as computed by `crc32fast`

`crc32fast::Hasher::{new, update, finalize}` (external crate) computes the usual reflected CRC-32
(polynomial 0xEDB88320, initial value and final xor 0xFFFFFFFF).  It is modelled bit by bit; the
crate's table/SIMD implementation is not modelled.

Used in `/repo/brec/src/packet/header/mod.rs:158-164`, `/repo/brec/src/storage/slot/mod.rs`,
`/repo/brec/src/traits/props/mod.rs:41-49`, `/repo/brec_macros/src/codegen/props/block.rs`.
-/

namespace Brec

/-- One bit of the reflected CRC-32 register. -/
def crcBit (s : BitVec 32) : BitVec 32 :=
  if s.getLsbD 0 then (s >>> 1) ^^^ 0xEDB88320#32 else s >>> 1

/-- `n` bit steps. -/
def crcBits : Nat → BitVec 32 → BitVec 32
  | 0, s => s
  | n + 1, s => crcBits n (crcBit s)

/-- One byte. -/
def crcByte (s : BitVec 32) (b : Byte) : BitVec 32 := crcBits 8 (s ^^^ b.setWidth 32)

/-- `Hasher::update`. -/
def crcState (s : BitVec 32) (bs : Bytes) : BitVec 32 := bs.foldl crcByte s

/-- `Hasher::new(); update(bs); finalize()`. -/
def crc32 (bs : Bytes) : BitVec 32 := crcState 0xFFFFFFFF#32 bs ^^^ 0xFFFFFFFF#32

/-- `finalize().to_le_bytes()`. -/
def crcBytes (bs : Bytes) : Bytes := leBytes 4 (crc32 bs).toNat

/-! ## Linear algebra of the register -/

theorem crcBit_xor (a b : BitVec 32) : crcBit (a ^^^ b) = crcBit a ^^^ crcBit b := by
  unfold crcBit
  rw [BitVec.getLsbD_xor]
  cases ha : a.getLsbD 0 <;> cases hb : b.getLsbD 0 <;> simp <;>
    rw [BitVec.ushiftRight_xor_distrib]
  · rw [BitVec.xor_assoc]
  · rw [BitVec.xor_assoc, BitVec.xor_assoc]
    congr 1
    rw [BitVec.xor_comm]
  · ext i hi
    simp only [BitVec.getElem_xor]
    cases (a >>> 1)[i] <;> cases (b >>> 1)[i] <;> cases (0xEDB88320#32)[i] <;> rfl

theorem crcBits_xor (n : Nat) (a b : BitVec 32) :
    crcBits n (a ^^^ b) = crcBits n a ^^^ crcBits n b := by
  induction n generalizing a b with
  | zero => rfl
  | succ n ih => simp only [crcBits, crcBit_xor, ih]

theorem crcBit_inj {a b : BitVec 32} (h : crcBit a = crcBit b) : a = b := by
  have key : ∀ s : BitVec 32, (crcBit s).getLsbD 31 = s.getLsbD 0 := by
    intro s
    unfold crcBit
    cases hs : s.getLsbD 0 <;> simp
  have h0 : a.getLsbD 0 = b.getLsbD 0 := by rw [← key a, ← key b, h]
  have hsh : a >>> 1 = b >>> 1 := by
    unfold crcBit at h
    rw [h0] at h
    cases hb : b.getLsbD 0
    · simp only [hb, Bool.false_eq_true, if_false] at h
      exact h
    · simp only [hb, if_true] at h
      have := congrArg (· ^^^ 0xEDB88320#32) h
      simpa [BitVec.xor_assoc] using this
  apply BitVec.eq_of_getLsbD_eq
  intro i hi
  cases i with
  | zero => exact h0
  | succ i =>
    have := congrArg (fun v => BitVec.getLsbD v i) hsh
    simp only [BitVec.getLsbD_ushiftRight] at this
    rwa [Nat.add_comm] at this

theorem crcBits_inj (n : Nat) {a b : BitVec 32} (h : crcBits n a = crcBits n b) : a = b := by
  induction n generalizing a b with
  | zero => exact h
  | succ n ih => exact crcBit_inj (ih h)

theorem crcByte_inj {s t : BitVec 32} {b : Byte} (h : crcByte s b = crcByte t b) : s = t := by
  have := crcBits_inj 8 h
  have := congrArg (· ^^^ b.setWidth 32) this
  simpa [BitVec.xor_assoc] using this

theorem crcState_append (s : BitVec 32) (a b : Bytes) :
    crcState s (a ++ b) = crcState (crcState s a) b := by
  simp [crcState, List.foldl_append]

/-- For fixed input bytes the register map is injective. -/
theorem crcState_inj (bs : Bytes) {s t : BitVec 32} (h : crcState s bs = crcState t bs) : s = t := by
  induction bs generalizing s t with
  | nil => exact h
  | cons b bs ih => exact crcByte_inj (ih h)

theorem crcBits_add (m n : Nat) (s : BitVec 32) : crcBits (m + n) s = crcBits n (crcBits m s) := by
  induction m generalizing s with
  | zero => simp [crcBits]
  | succ m ih => rw [Nat.succ_add]; simp only [crcBits]; exact ih _

/-- Shifting out zero bits only shifts. -/
theorem crcBit_shl (x : BitVec 32) (h : x.getLsbD 31 = false) : crcBit (x <<< 1) = x := by
  have h0 : (x <<< 1).getLsbD 0 = false := by simp
  unfold crcBit
  rw [h0]
  simp only [Bool.false_eq_true, if_false]
  apply BitVec.eq_of_getLsbD_eq
  intro i hi
  simp only [BitVec.getLsbD_ushiftRight, BitVec.getLsbD_shiftLeft]
  by_cases h31 : i = 31
  · subst h31; rw [h]; simp
  · have : 1 + i < 32 := by omega
    simp [this]

theorem crcBits_shl (n : Nat) (x : BitVec 32)
    (h : ∀ i, 32 - n ≤ i → x.getLsbD i = false) : crcBits n (x <<< n) = x := by
  induction n with
  | zero => simp [crcBits]
  | succ n ih =>
    have e : x <<< (n + 1) = (x <<< n) <<< 1 := by rw [BitVec.shiftLeft_add]
    rw [e]
    simp only [crcBits]
    rw [crcBit_shl]
    · exact ih (fun i hi => h i (by omega))
    · simp only [BitVec.getLsbD_shiftLeft]
      by_cases hn : 31 < n
      · simp [hn]
      · rw [h (31 - n) (by omega)]; simp

/-- Up to four bytes packed little-endian into the register. -/
def pack : Bytes → BitVec 32
  | [] => 0
  | b :: bs => b.setWidth 32 ^^^ (pack bs <<< 8)

theorem pack_high : ∀ (bs : Bytes) (i : Nat), 8 * bs.length ≤ i → (pack bs).getLsbD i = false
  | [], i, _ => by simp [pack]
  | b :: bs, i, h => by
    simp only [List.length_cons] at h
    simp only [pack, BitVec.getLsbD_xor, BitVec.getLsbD_setWidth, BitVec.getLsbD_shiftLeft]
    have h1 : b.getLsbD i = false := BitVec.getLsbD_of_ge b i (by omega)
    rw [h1, pack_high bs (i - 8) (by omega)]
    simp

/-- The register after at most four bytes is a linear injective function of state xor bytes. -/
theorem crcState_pack : ∀ (bs : Bytes) (s : BitVec 32), bs.length ≤ 4 →
    crcState s bs = crcBits (8 * bs.length) (s ^^^ pack bs)
  | [], s, _ => by simp [crcState, crcBits, pack]
  | b :: bs, s, h => by
    simp only [List.length_cons] at h
    have h1 : crcState s (b :: bs) = crcState (crcByte s b) bs := rfl
    rw [h1, crcState_pack bs _ (by omega)]
    have e : 8 * (b :: bs).length = 8 + 8 * bs.length := by simp; omega
    rw [e, crcBits_add, pack, ← BitVec.xor_assoc, crcBits_xor 8]
    rw [crcBits_shl 8 (pack bs) (fun i hi => pack_high bs i (by omega))]
    rfl

theorem pack_inj : ∀ (a b : Bytes), a.length = b.length → a.length ≤ 4 → pack a = pack b → a = b
  | [], [], _, _, _ => rfl
  | [], _ :: _, h, _, _ => by simp at h
  | _ :: _, [], h, _, _ => by simp at h
  | x :: a, y :: b, h, h4, e => by
    simp only [List.length_cons] at h h4
    have bit : ∀ i, (pack (x :: a)).getLsbD i = (pack (y :: b)).getLsbD i := by intro i; rw [e]
    simp only [pack, BitVec.getLsbD_xor, BitVec.getLsbD_setWidth, BitVec.getLsbD_shiftLeft] at bit
    have hxy : x = y := by
      apply BitVec.eq_of_getLsbD_eq
      intro i hi
      have := bit i
      have h32 : i < 32 := by omega
      simpa [hi, h32] using this
    subst hxy
    have hab : pack a = pack b := by
      apply BitVec.eq_of_getLsbD_eq
      intro i hi
      by_cases hi24 : i < 24
      · have := bit (i + 8)
        have h1 : i + 8 < 32 := by omega
        have h2 : x.getLsbD (i + 8) = false := BitVec.getLsbD_of_ge x _ (by omega)
        have h3 : ¬ i + 8 < 8 := by omega
        simpa [h1, h2, h3] using this
      · rw [pack_high a i (by omega), pack_high b i (by omega)]
    rw [pack_inj a b (by omega) (by omega) hab]

/-- **Burst detection, register form**: inputs that lead from one state to the same state and
differ inside at most four consecutive bytes are equal. -/
theorem crcState_burst {a b : Bytes} (s : BitVec 32) (h : Burst4 a b)
    (e : crcState s a = crcState s b) : a = b := by
  obtain ⟨p, x, y, q, rfl, rfl, hl, h4⟩ := h.split
  simp only [crcState_append] at e
  have e2 := crcState_inj q e
  rw [crcState_pack x _ h4, crcState_pack y _ (by omega), ← hl] at e2
  have e3 := crcBits_inj _ e2
  have e4 : pack x = pack y := by
    have := congrArg (crcState s p ^^^ ·) e3
    simpa [← BitVec.xor_assoc] using this
  rw [pack_inj x y hl h4 e4]

theorem pack_leBytes (v : BitVec 32) : pack (leBytes 4 v.toNat) = v := by
  apply BitVec.eq_of_getLsbD_eq
  intro i hi
  have hb : ∀ m j, (BitVec.ofNat 8 m).getLsbD j = (decide (j < 8) && m.testBit j) := by
    intro m j; simp [BitVec.getLsbD_ofNat]
  have hd : ∀ m j, (m / 256).testBit j = m.testBit (j + 8) := by
    intro m j
    have : m / 256 = m >>> 8 := by rw [Nat.shiftRight_eq_div_pow]
    rw [this, Nat.testBit_shiftRight, Nat.add_comm]
  simp only [leBytes, pack, BitVec.getLsbD_xor, BitVec.getLsbD_setWidth, BitVec.getLsbD_shiftLeft,
    hb, hd]
  have hv : v.getLsbD i = v.toNat.testBit i := rfl
  rw [hv]
  rcases Nat.lt_or_ge i 8 with h1 | h1
  · simp [hi, h1]
  · rcases Nat.lt_or_ge i 16 with h2 | h2
    · have a1 : ¬ i < 8 := by omega
      have a2 : i - 8 < 8 := by omega
      have a3 : i - 8 < 32 := by omega
      have a4 : i - 8 + 8 = i := by omega
      simp [hi, a1, a2, a3, a4]
    · rcases Nat.lt_or_ge i 24 with h3 | h3
      · have a1 : ¬ i < 8 := by omega
        have a2 : ¬ i - 8 < 8 := by omega
        have a3 : i - 8 - 8 < 8 := by omega
        have a4 : i - 8 - 8 + 8 + 8 = i := by omega
        have a5 : i - 8 < 32 := by omega
        have a6 : i - 8 - 8 < 32 := by omega
        simp [hi, a1, a2, a3, a4, a5, a6]
      · have a1 : ¬ i < 8 := by omega
        have a2 : ¬ i - 8 < 8 := by omega
        have a3 : ¬ i - 8 - 8 < 8 := by omega
        have a4 : i - 8 - 8 - 8 < 8 := by omega
        have a5 : i - 8 < 32 := by omega
        have a6 : i - 8 - 8 < 32 := by omega
        have a7 : i - 8 - 8 - 8 < 32 := by omega
        have a8 : i - 8 - 8 - 8 + 8 + 8 + 8 = i := by omega
        simp [hi, a1, a2, a3, a4, a5, a6, a7, a8]

@[simp] theorem crcBytes_length (bs : Bytes) : (crcBytes bs).length = 4 := by simp [crcBytes]

/-- The register after a message followed by its own CRC is a constant. -/
theorem crcState_residue (m : Bytes) :
    crcState 0xFFFFFFFF#32 (m ++ crcBytes m) = crcBits 32 0xFFFFFFFF#32 := by
  rw [crcState_append, crcState_pack _ _ (by simp), crcBytes, pack_leBytes]
  simp [crc32, ← BitVec.xor_assoc]

/-- **Burst detection, message form**: two messages, each followed by its own CRC-32, that differ
in at most four consecutive bytes (message, CRC, or across the boundary) are equal. -/
theorem crc_burst {m m' : Bytes} (h : Burst4 (m ++ crcBytes m) (m' ++ crcBytes m')) : m = m' := by
  have e := crcState_burst _ h ((crcState_residue m).trans (crcState_residue m').symm)
  have hl : m.length = m'.length := by
    have := h.1; simpa using this
  exact (List.append_inj e hl).1

/-- The check value of CRC-32 ("123456789" ↦ 0xCBF43926): a test that the bitwise model is the
standard function, not a proof. -/
example : crc32 [0x31, 0x32, 0x33, 0x34, 0x35, 0x36, 0x37, 0x38, 0x39] = 0xCBF43926#32 := by
  decide +kernel

end Brec
