import Verif.Crc32
/-!
# C51: the checksum is CRC-32

The register of `Verif/Crc32.lean` against the definition of CRC-32 (ISO-HDLC, as in zlib and PNG): the remainder of a polynomial division over GF(2).
-/

namespace Brec.Props

open Brec

/-! ## Definition -/

/-- The coefficients of the generator `x^32 + x^26 + x^23 + x^22 + x^16 + x^12 + x^11 + x^10 + x^8 + x^7 + x^5 + x^4 + x^2 + x + 1` below `x^32`, highest first. -/
def generator : List Bool :=
  (List.range 32).map fun i => [26, 23, 22, 16, 12, 11, 10, 8, 7, 5, 4, 2, 1, 0].contains (31 - i)

/-- Addition of a polynomial to the leading coefficients of another. -/
def addTop : List Bool → List Bool → List Bool
  | a :: as, b :: bs => (a != b) :: addTop as bs
  | as, [] => as
  | [], _ => []

/-- Long division by the generator: the remainder of the polynomial with these coefficients, highest first. -/
def remainder : List Bool → List Bool
  | [] => []
  | a :: as => if as.length < 32 then a :: as else remainder (if a then addTop as generator else as)
  termination_by l => l.length
  decreasing_by
    have hl : ∀ x y : List Bool, (addTop x y).length = x.length := by
      intro x
      induction x with
      | nil => intro y; cases y <;> rfl
      | cons b x ih => intro y; cases y with
        | nil => rfl
        | cons c y => simp [addTop, ih]
    split <;> simp [hl]

/-- The bits of a message: bytes in order, each from its lowest bit on. -/
def messageBits (bs : Bytes) : List Bool := bs.flatMap fun b => (List.range 8).map b.getLsbD

/-- A number from its bits, lowest first. -/
def ofBits : List Bool → Nat
  | [] => 0
  | b :: bs => b.toNat + 2 * ofBits bs

/-- CRC-32: append 32 zeros, invert the first 32 bits, divide, invert the remainder; its first bit is the lowest one of the result. -/
def specCrc (bs : Bytes) : Nat :=
  ofBits ((remainder (addTop (messageBits bs ++ List.replicate 32 false) (List.replicate 32 true))).map (!·))

/-! ## Proof -/

theorem addTop_length (x y : List Bool) : (addTop x y).length = x.length := by
  induction x generalizing y with
  | nil => cases y <;> rfl
  | cons b x ih => cases y with
    | nil => rfl
    | cons c y => simp [addTop, ih]

theorem addTop_getElem? (x y : List Bool) (i : Nat) : (addTop x y)[i]? = x[i]?.map fun b => b != (y[i]?.getD false) := by
  induction x generalizing y i with
  | nil => cases y <;> simp [addTop]
  | cons b x ih =>
    cases y with
    | nil => simp [addTop]
    | cons c y =>
      cases i with
      | zero => simp [addTop]
      | succ i => simp [addTop, ih]

/-- The bits of the register, lowest (highest coefficient) first. -/
def regBits (s : BitVec 32) : List Bool := (List.range 32).map s.getLsbD

theorem regBits_length (s : BitVec 32) : (regBits s).length = 32 := by simp [regBits]

theorem regBits_getElem? (s : BitVec 32) (i : Nat) : (regBits s)[i]? = if i < 32 then some (s.getLsbD i) else none := by
  unfold regBits
  by_cases h : i < 32
  · simp [h]
  · simp [h]

theorem generator_getElem? (i : Nat) : generator[i]? = if i < 32 then some ((0xEDB88320#32).getLsbD i) else none := by
  have : generator = regBits 0xEDB88320#32 := by decide +kernel
  rw [this, regBits_getElem?]

/-- The polynomial still to be divided: the message bits to come, 32 zeros, the register added on top. -/
def dividend (s : BitVec 32) (m : List Bool) : List Bool := addTop (m ++ List.replicate 32 false) (regBits s)

theorem dividend_length (s : BitVec 32) (m : List Bool) : (dividend s m).length = m.length + 32 := by simp [dividend, addTop_length]

/-- One bit of the message. -/
def feed (s : BitVec 32) (b : Bool) : BitVec 32 := crcBit (s ^^^ (BitVec.ofBool b).setWidth 32)

theorem feed_bit (s : BitVec 32) (b : Bool) (i : Nat) :
    (feed s b).getLsbD i = ((if s.getLsbD 0 != b then (0xEDB88320#32).getLsbD i else false) != s.getLsbD (i + 1)) := by
  unfold feed crcBit
  have h0 : (s ^^^ (BitVec.ofBool b).setWidth 32).getLsbD 0 = (s.getLsbD 0 != b) := by
    rw [BitVec.getLsbD_xor, BitVec.getLsbD_setWidth]
    cases b <;> cases s.getLsbD 0 <;> rfl
  have h1 : ((BitVec.ofBool b).setWidth 32).getLsbD (i + 1) = false := by
    rw [BitVec.getLsbD_setWidth]
    simp
  rw [h0]
  split
  · rw [BitVec.getLsbD_xor, BitVec.getLsbD_ushiftRight, BitVec.getLsbD_xor, Nat.add_comm 1 i, h1]
    cases s.getLsbD (i + 1) <;> cases (0xEDB88320#32).getLsbD i <;> rfl
  · rw [BitVec.getLsbD_ushiftRight, BitVec.getLsbD_xor, Nat.add_comm 1 i, h1]
    simp

theorem remainder_step (s : BitVec 32) (b : Bool) (m : List Bool) : remainder (dividend s (b :: m)) = remainder (dividend (feed s b) m) := by
  have hd : dividend s (b :: m) = (b != s.getLsbD 0) :: (dividend s (b :: m)).drop 1 := by
    have hr : regBits s = s.getLsbD 0 :: (regBits s).drop 1 := by simp [regBits, List.range_succ_eq_map]
    rw [dividend, List.cons_append, hr]
    simp [addTop]
  rw [hd, remainder]
  have hl : ((dividend s (b :: m)).drop 1).length = m.length + 32 := by rw [List.length_drop, dividend_length]; simp
  rw [if_neg (by omega)]
  congr 1
  apply List.ext_getElem?
  intro i
  have hi0 : ((dividend s (b :: m)).drop 1)[i]? = (m ++ List.replicate 32 false)[i]?.map fun x => x != (if i + 1 < 32 then s.getLsbD (i + 1) else false) := by
    rw [List.getElem?_drop, dividend, addTop_getElem?, regBits_getElem?]
    rw [Nat.add_comm 1 i]
    simp only [List.cons_append, List.getElem?_cons_succ]
    congr 1
    funext x
    split <;> rfl
  have hi1 : (dividend (feed s b) m)[i]? = (m ++ List.replicate 32 false)[i]?.map fun x => x != (if i < 32 then (feed s b).getLsbD i else false) := by
    rw [dividend, addTop_getElem?, regBits_getElem?]
    congr 1
    funext x
    split <;> rfl
  have hs : s.getLsbD (i + 1) = if i + 1 < 32 then s.getLsbD (i + 1) else false := by
    split
    · rfl
    · exact BitVec.getLsbD_of_ge s _ (by omega)
  rw [hi1]
  by_cases hh : (b != s.getLsbD 0) = true
  · rw [if_pos hh, addTop_getElem?, hi0, generator_getElem?]
    have hh' : (s.getLsbD 0 != b) = true := by rw [← hh]; cases b <;> cases s.getLsbD 0 <;> rfl
    rw [Option.map_map]
    congr 1
    funext x
    simp only [Function.comp]
    rw [← hs]
    by_cases hi : i < 32
    · rw [if_pos hi, if_pos hi, feed_bit s b i, if_pos hh']
      simp only [Option.getD_some]
      cases x <;> cases s.getLsbD (i + 1) <;> cases (0xEDB88320#32).getLsbD i <;> rfl
    · rw [if_neg hi, if_neg hi, hs, if_neg (by omega)]
      simp
  · rw [if_neg hh, hi0]
    have hh' : ¬ (s.getLsbD 0 != b) = true := by intro h; apply hh; rw [← h]; cases b <;> cases s.getLsbD 0 <;> rfl
    congr 1
    funext x
    rw [← hs]
    by_cases hi : i < 32
    · rw [if_pos hi, feed_bit s b i, if_neg hh']
      simp
    · rw [if_neg hi, hs, if_neg (by omega)]

theorem remainder_dividend (s : BitVec 32) (m : List Bool) : remainder (dividend s m) = regBits (m.foldl feed s) := by
  induction m generalizing s with
  | nil =>
    have : dividend s [] = regBits s := by
      apply List.ext_getElem?
      intro i
      rw [dividend, addTop_getElem?, regBits_getElem?, List.nil_append, List.getElem?_replicate]
      by_cases h : i < 32 <;> simp [h]
    rw [this, List.foldl_nil]
    cases hr : regBits s with
    | nil => rw [remainder]
    | cons a as =>
      have := regBits_length s
      rw [hr] at this
      simp at this
      rw [remainder, if_pos (by omega)]
  | cons b m ih => rw [remainder_step, ih, List.foldl_cons]

/-- Feeding the lowest `n` bits of a number one by one or all at once. -/
theorem feed_bits (n : Nat) (v s : BitVec 32) (hn : n ≤ 32) (hv : ∀ i, n ≤ i → v.getLsbD i = false) :
    ((List.range n).map v.getLsbD).foldl feed s = crcBits n (s ^^^ v) := by
  induction n generalizing v s with
  | zero =>
    have : v = 0 := by
      apply BitVec.eq_of_getLsbD_eq
      intro i _
      rw [hv i (by omega)]; simp
    subst this
    simp [crcBits]
  | succ n ih =>
    have e : v = (BitVec.ofBool (v.getLsbD 0)).setWidth 32 ^^^ ((v >>> 1) <<< 1) := by
      apply BitVec.eq_of_getLsbD_eq
      intro i hi
      rw [BitVec.getLsbD_xor, BitVec.getLsbD_setWidth, BitVec.getLsbD_shiftLeft, BitVec.getLsbD_ushiftRight]
      cases i with
      | zero => simp
      | succ i =>
        simp [hi, Nat.add_comm 1 i]
    have h31 : (v >>> 1).getLsbD 31 = false := by
      rw [BitVec.getLsbD_ushiftRight]
      exact BitVec.getLsbD_of_ge v _ (by omega)
    rw [List.range_succ_eq_map, List.map_cons, List.foldl_cons, List.map_map]
    have hm : List.map (v.getLsbD ∘ Nat.succ) (List.range n) = (List.range n).map (v >>> 1).getLsbD := by
      apply List.map_congr_left
      intro i _
      simp [Nat.add_comm 1 i]
    rw [hm, ih (v >>> 1) (feed s (v.getLsbD 0)) (by omega) (fun i hi => by rw [BitVec.getLsbD_ushiftRight]; exact hv _ (by omega))]
    rw [crcBits]
    congr 1
    conv => rhs; rw [e]
    rw [← BitVec.xor_assoc, crcBit_xor, crcBit_shl _ h31]
    rfl

theorem feed_byte (b : Byte) (s : BitVec 32) : ((List.range 8).map b.getLsbD).foldl feed s = crcByte s b := by
  have h := feed_bits 8 (b.setWidth 32) s (by decide) (fun i hi => by
    rw [BitVec.getLsbD_setWidth, BitVec.getLsbD_of_ge b i hi]; simp)
  rw [crcByte, ← h]
  congr 1

theorem feed_message (bs : Bytes) (s : BitVec 32) : (messageBits bs).foldl feed s = crcState s bs := by
  induction bs generalizing s with
  | nil => rfl
  | cons b bs ih =>
    rw [messageBits, List.flatMap_cons, List.foldl_append, feed_byte]
    exact ih _

theorem ofBits_range (n : Nat) (f : Nat → Bool) (v : Nat) (hf : ∀ i, i < n → f i = v.testBit i) (hv : v < 2 ^ n) : ofBits ((List.range n).map f) = v := by
  induction n generalizing f v with
  | zero => simp [ofBits] at *; omega
  | succ n ih =>
    rw [List.range_succ_eq_map, List.map_cons, List.map_map, ofBits]
    rw [ih (f ∘ Nat.succ) (v / 2) (fun i hi => by
      rw [Function.comp, hf _ (by omega), Nat.testBit_succ]) (by rw [Nat.pow_succ] at hv; omega)]
    rw [hf 0 (by omega), Nat.testBit_zero]
    by_cases h : v % 2 = 1
    · simp [h]; omega
    · simp [h]; omega

/-- **C51.** The checksum of every message is its CRC-32. -/
theorem C51_crc32 (bs : Bytes) : (crc32 bs).toNat = specCrc bs := by
  have h1 : List.replicate 32 true = regBits 0xFFFFFFFF#32 := by decide +kernel
  have h2 : remainder (addTop (messageBits bs ++ List.replicate 32 false) (List.replicate 32 true)) = regBits (crcState 0xFFFFFFFF#32 bs) := by
    rw [h1, ← feed_message]
    exact remainder_dividend _ _
  rw [specCrc, h2, regBits, List.map_map]
  symm
  apply ofBits_range
  · intro i hi
    have : (crc32 bs).toNat.testBit i = (crc32 bs).getLsbD i := rfl
    rw [this, crc32, BitVec.getLsbD_xor]
    have hone : (0xFFFFFFFF#32).getLsbD i = true := by
      have : 0xFFFFFFFF#32 = BitVec.allOnes 32 := by decide
      rw [this, BitVec.getLsbD_allOnes]; simp [hi]
    rw [hone]
    simp
  · exact (crc32 bs).isLt

/-- The usual check value, of the ASCII digits 1 to 9. -/
example : specCrc [0x31, 0x32, 0x33, 0x34, 0x35, 0x36, 0x37, 0x38, 0x39] = 0xCBF43926 := by rw [← C51_crc32]; decide +kernel

end Brec.Props
