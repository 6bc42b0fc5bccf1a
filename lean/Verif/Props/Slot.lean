import Verif.SlotLemmas
/-!
# Slot tables: C33, C34
-/

namespace Brec.Props

open Slot

/-- A slot as `Slot::default` followed by inserts produces it: capacity 500, the lengths `ls` first, zeros behind. -/
def usedSlot (ls : List Nat) : Slot :=
  ⟨ls ++ List.replicate (SLOT_CAPACITY - ls.length) 0, SLOT_CAPACITY,
    crcOf SLOT_CAPACITY (ls ++ List.replicate (SLOT_CAPACITY - ls.length) 0)⟩

theorem usedSlot_wf {ls : List Nat} (h : ls.length ≤ SLOT_CAPACITY) (hs : ∀ l ∈ ls, l < 2 ^ 64) : (usedSlot ls).WF where
  len := by simp only [usedSlot, List.length_append, List.length_replicate]; omega
  small := by
    intro l hl
    simp only [usedSlot, List.mem_append, List.mem_replicate] at hl
    rcases hl with hl | ⟨_, rfl⟩
    · exact hs l hl
    · decide
  cap := by simp [usedSlot, SLOT_CAPACITY]
  crc := rfl

/-- Six packets are stored. -/
def sixSlot : Slot := usedSlot [121, 115, 68, 119, 70, 64]

theorem sixSlot_wf : sixSlot.WF := usedSlot_wf (by decide) (by decide)

/-! ## C33 -/

/-- **C33, first half.** A slot table written and read back is identical, with the stream reader and the seekable reader, wherever it stands
in the source; the bytes consumed are exactly `size()`. -/
theorem C33_slot_roundtrip (s : Slot) (w : s.WF) :
    ∃ b, s.bytes = .ok b ∧ b.length = 20 + 8 * s.capacity ∧
      (∀ t, Slot.read.run (b ++ t) = (.ok s, t)) ∧
      (∀ pre t chk, Slot.tryRead ⟨pre ++ b ++ t, pre.length, chk⟩ = (.ok (.success s), ⟨pre ++ b ++ t, pre.length + b.length, chk⟩)) := by
  refine ⟨s.enc, w.bytes, ?_, read_enc w, fun pre t chk => ?_⟩
  · rw [w.enc_length, Slot.size, SLOT_HSIZE]; omega
  · rw [tryRead_enc w (t := t) (by simp) (by simp [Cur.rest]), w.enc_length]

example : ∃ b, sixSlot.bytes = .ok b ∧ b.length = 4020 ∧ ∀ t, Slot.read.run (b ++ t) = (.ok sixSlot, t) := by
  obtain ⟨b, e, l, r, _⟩ := C33_slot_roundtrip sixSlot sixSlot_wf
  exact ⟨b, e, l, r⟩

/-- Full statement of the second half of C33: a damaged slot table is never accepted. -/
def C33_full : Prop :=
  ∀ (s : Slot) (b b' t : Bytes) (chk : Bool), s.WF → s.bytes = .ok b → Burst4 b b' → b' ≠ b →
    ∀ s' c', Slot.tryRead ⟨b' ++ t, 0, chk⟩ ≠ (.ok (.success s'), c')

/-- **C33, second half (partial).** If at most four consecutive bytes of a slot table are changed, what either reader accepts has
another capacity: with the capacity field intact a damaged table is always refused. Missing: damage of the capacity field itself, see
`C33_capacity_not_protected`. -/
theorem C33_corruption_partial (s : Slot) (w : s.WF) (b b' t : Bytes) (e : s.bytes = .ok b) (hb : Burst4 b b') (hne : b' ≠ b) (s' : Slot) :
    ((Slot.read.run (b' ++ t)).1 = .ok s' → s'.capacity ≠ s.capacity) ∧
    (∀ c : Cur, c.rest = b' ++ t → (Slot.tryRead c).1 = .ok (.success s') → s'.capacity ≠ s.capacity) := by
  rw [w.bytes] at e
  injection e with e
  subst e
  have key : ∀ x, s'.WF → b' ++ t = s'.enc ++ x → s'.capacity ≠ s.capacity := by
    intro x w' he hcap
    have hlen : b'.length = s'.enc.length := by
      rw [← hb.1, w.enc_length, w'.enc_length, Slot.size, Slot.size, hcap]
    obtain ⟨he, _⟩ := List.append_inj he hlen
    subst he
    have h8 := hb.drop 8
    have e1 : ∀ q : Slot, q.WF → q.enc.drop 8 = body q.capacity q.lengths ++ crcBytes (body q.capacity q.lengths) := by
      intro q wq
      have : q.enc = SLOT_SIG ++ (body q.capacity q.lengths ++ crcBytes (body q.capacity q.lengths)) := by
        rw [enc, wq.crc, crcOf, body]; simp
      rw [this]; exact List.drop_left' (by rfl)
    rw [e1 s w, e1 s' w'] at h8
    have := crc_burst h8
    rw [body, body, hcap] at this
    have h1 := List.append_cancel_left this
    have : s.enc = s'.enc := by
      rw [enc, enc, w.crc, w'.crc, crcOf, crcOf, body, body, hcap, h1]
    exact hne this.symm
  constructor
  · intro h
    have hx : Slot.read.run (b' ++ t) = (.ok s', (Slot.read.run (b' ++ t)).2) := Prod.ext h rfl
    obtain ⟨w', he⟩ := read_inv hx
    exact key _ w' he
  · intro c hc h
    have hx : Slot.tryRead c = (.ok (.success s'), (Slot.tryRead c).2) := Prod.ext h rfl
    obtain ⟨w', x, he, _⟩ := tryRead_inv hx
    exact key x w' (hc ▸ he)

/-- The hypotheses are met: one byte of the first length is changed. -/
example : ∃ b b', sixSlot.bytes = .ok b ∧ Burst4 b b' ∧ b' ≠ b := by
  have h : ∃ r, sixSlot.enc = (SLOT_SIG ++ leBytes 8 500) ++ ([121] ++ r) := by
    refine ⟨(sixSlot.lengths.flatMap (leBytes 8)).drop 1 ++ sixSlot.crc, ?_⟩
    rw [enc, show sixSlot.lengths.flatMap (leBytes 8) = [121] ++ (sixSlot.lengths.flatMap (leBytes 8)).drop 1 by rfl]
    simp only [List.append_assoc]
    rfl
  obtain ⟨r, h⟩ := h
  have h1 : sixSlot.bytes = .ok ((SLOT_SIG ++ leBytes 8 500) ++ [121] ++ r) := by
    rw [sixSlot_wf.bytes, h, List.append_assoc _ [121]]
  exact ⟨_, (SLOT_SIG ++ leBytes 8 500) ++ [120] ++ r, h1, Burst4.of_split _ _ _ _ rfl (by decide), by simp⟩

/-- **C33 is false of the code.** The CRC does not protect the capacity: with six packets of 121, 115, 68, 119, 70 and 64 bytes stored, two
damaged bytes turn capacity 500 into 6, and the table is accepted. (The CRC of the capacity 6 and these lengths is zero, and so
are the four bytes that are now taken for the stored CRC.) -/
theorem C33_capacity_not_protected : ¬ C33_full := by
  intro hf
  have h : ∃ r, sixSlot.enc = SLOT_SIG ++ [244, 1] ++ ([0, 0, 0, 0, 0, 0] ++ ([121, 115, 68, 119, 70, 64].flatMap (leBytes 8) ++ ([0, 0, 0, 0] ++ r))) := by
    refine ⟨((sixSlot.lengths.drop 6).flatMap (leBytes 8)).drop 4 ++ sixSlot.crc, ?_⟩
    rw [enc, show sixSlot.lengths.flatMap (leBytes 8) =
      [121, 115, 68, 119, 70, 64].flatMap (leBytes 8) ++ ([0, 0, 0, 0] ++ ((sixSlot.lengths.drop 6).flatMap (leBytes 8)).drop 4) by rfl]
    rw [show leBytes 8 sixSlot.capacity = [244, 1] ++ [0, 0, 0, 0, 0, 0] by decide +kernel]
    simp only [List.append_assoc]
  obtain ⟨r, h⟩ := h
  let small : Slot := ⟨[121, 115, 68, 119, 70, 64], 6, [0, 0, 0, 0]⟩
  have hw : small.WF := ⟨rfl, by decide, by decide, by decide +kernel⟩
  have hs : sixSlot.bytes = .ok (SLOT_SIG ++ [244, 1] ++ ([0, 0, 0, 0, 0, 0] ++ ([121, 115, 68, 119, 70, 64].flatMap (leBytes 8) ++ ([0, 0, 0, 0] ++ r)))) := by
    rw [sixSlot_wf.bytes, h]
  have ht := hf sixSlot _ (SLOT_SIG ++ [6, 0] ++ ([0, 0, 0, 0, 0, 0] ++ ([121, 115, 68, 119, 70, 64].flatMap (leBytes 8) ++ ([0, 0, 0, 0] ++ r))))
    [] true sixSlot_wf hs (Burst4.of_split _ _ _ _ rfl (by decide)) (by simp) small
  refine ht _ (tryRead_enc hw (t := r) (Nat.zero_le _) ?_)
  simp only [Cur.rest, List.drop_zero, List.append_nil, enc, small]
  rw [show leBytes 8 6 = [6, 0] ++ [0, 0, 0, 0, 0, 0] by decide +kernel]
  simp only [List.append_assoc]

/-! ## C34 -/

/-- Full statement of C34: a cut slot table is reported with the number of missing bytes, and the position is restored. -/
def C34_full : Prop :=
  ∀ (s : Slot) (b pre : Bytes) (n : Nat) (chk : Bool), s.WF → s.bytes = .ok b → n < b.length →
    Slot.tryRead ⟨pre ++ b.take n, pre.length, chk⟩ = (.ok (.notEnough (b.length - n)), ⟨pre ++ b.take n, pre.length, chk⟩)

/-- What `try_read` answers for a table of `size` bytes cut inside its body. -/
theorem tryRead_cut {s : Slot} (w : s.WF) {c : Cur} {n : Nat} (hc : c.pos ≤ c.data.length) (hr : c.rest = s.enc.take n)
    (h16 : 16 ≤ n) (hn : n < s.size) :
    Slot.tryRead c = ((missing c.chk s.size).map .notEnough, c) := by
  have hl : c.rest.length = n := by rw [hr, List.length_take, w.enc_length]; omega
  have hs : s.size = 20 + s.capacity * 8 := by simp only [Slot.size, SLOT_HSIZE]; omega
  have hcap := w.cap
  obtain ⟨m, rfl⟩ : ∃ m, n = 16 + m := ⟨n - 16, by omega⟩
  have hr' : c.rest = SLOT_SIG ++ (leBytes 8 s.capacity ++ (s.lengths.flatMap (leBytes 8) ++ s.crc).take m) := by
    rw [hr, enc]
    simp only [List.append_assoc]
    rw [← List.append_assoc, ← List.append_assoc SLOT_SIG,
      show 16 + m = (SLOT_SIG ++ leBytes 8 s.capacity).length + m by simp [SLOT_SIG], List.take_length_add_append]
  unfold Slot.tryRead
  rw [Cur.remaining_ok hc]
  simp only
  rw [tryReadHeader_eq w.cap64 hc hr']
  simp only
  rw [u64_ok (by simp only [SLOT_HSIZE]; omega)]
  simp only
  rw [if_pos (by rw [hl, SLOT_HSIZE]; omega)]
  rfl

/-- **C34 (partial).** What a source cut inside the slot table is answered, for every table and every cut point: below 16 bytes
`NotEnoughData(16)` with the position restored (the number is the size of the header, not what is missing). From 16 bytes on, `29 - size` is computed: a panic with overflow checks when the capacity is at
least 2, a meaningless number without; the position is restored unless it panics. Missing: the number of missing bytes, and the absence of a panic. -/
theorem C34_truncated_partial (s : Slot) (w : s.WF) (b pre : Bytes) (n : Nat) (chk : Bool) (e : s.bytes = .ok b) (hn : n < b.length) :
    Slot.tryRead ⟨pre ++ b.take n, pre.length, chk⟩ =
      (if n < 16 then .ok (.notEnough 16)
       else if s.capacity ≤ 1 then .ok (.notEnough (9 - 8 * s.capacity))
       else if chk then .panic else .ok (.notEnough (2 ^ 64 + 9 - 8 * s.capacity)),
       ⟨pre ++ b.take n, pre.length, chk⟩) := by
  rw [w.bytes] at e
  injection e with e
  subst e
  have hs : s.size = 20 + s.capacity * 8 := by simp only [Slot.size, SLOT_HSIZE]; omega
  rw [w.enc_length] at hn
  by_cases h16 : n < 16
  · rw [if_pos h16]
    have hrem : (⟨pre ++ s.enc.take n, pre.length, chk⟩ : Cur).remaining = .ok n := by
      rw [Cur.remaining_ok (by simp)]
      simp only [Cur.rest, List.drop_left, List.length_take, w.enc_length]
      rw [Nat.min_eq_left (by omega)]
    unfold Slot.tryRead
    rw [hrem]
    simp only
    unfold Slot.tryReadHeader
    rw [hrem]
    simp only
    rw [if_pos (by simpa [SLOT_HSIZE] using h16)]
    rfl
  · rw [if_neg h16, tryRead_cut w (by simp) (by simp [Cur.rest]) (by omega) hn]
    simp only [missing, hs, HSIZE]
    by_cases h1 : s.capacity ≤ 1
    · rw [if_pos (by omega), if_pos h1]
      simp only [Out.map_ok]
      congr 3; omega
    · rw [if_neg (by omega), if_neg h1]
      cases chk
      · simp only [Bool.false_eq_true, if_false, Out.map_ok]
        congr 3; omega
      · rfl

/-- **C34 is false of the code.** Every table the crate writes, cut anywhere from byte 16 on, makes a debug build panic. -/
theorem C34_panics (s : Slot) (w : s.WF) (hcap : s.capacity = SLOT_CAPACITY) (b pre : Bytes) (n : Nat) (e : s.bytes = .ok b) (h16 : 16 ≤ n) (hn : n < 4020) :
    (Slot.tryRead ⟨pre ++ b.take n, pre.length, true⟩).1 = .panic := by
  have hb : b.length = 4020 := by
    rw [w.bytes] at e; injection e with e; subst e
    rw [w.enc_length, Slot.size, hcap]; rfl
  rw [C34_truncated_partial s w b pre n true e (by omega), if_neg (by omega), hcap]
  rfl

/-- C34 fails also below 16 bytes and in release builds. -/
theorem C34_not : ¬ C34_full := by
  intro hf
  obtain ⟨b, e, l, _⟩ := C33_slot_roundtrip sixSlot sixSlot_wf
  have h1 := hf sixSlot b [] 100 true sixSlot_wf e (by rw [l]; decide)
  have h2 := C34_panics sixSlot sixSlot_wf rfl b [] 100 e (by decide) (by decide)
  rw [h1] at h2
  cases h2

example : ∃ b, sixSlot.bytes = .ok b ∧ (Slot.tryRead ⟨b.take 100, 0, true⟩).1 = .panic ∧
    (Slot.tryRead ⟨b.take 15, 0, true⟩).1 = .ok (.notEnough 16) ∧
    (Slot.tryRead ⟨b.take 100, 0, false⟩).1 = .ok (.notEnough 18446744073709547625) := by
  obtain ⟨b, e, l, _⟩ := C33_slot_roundtrip sixSlot sixSlot_wf
  refine ⟨b, e, C34_panics sixSlot sixSlot_wf rfl b [] 100 e (by decide) (by decide), ?_, ?_⟩
  · have := C34_truncated_partial sixSlot sixSlot_wf b [] 15 true e (by rw [l]; decide)
    rw [List.nil_append] at this
    rw [show (0 : Nat) = ([] : Bytes).length from rfl, this]; rfl
  · have := C34_truncated_partial sixSlot sixSlot_wf b [] 100 false e (by rw [l]; decide)
    rw [List.nil_append] at this
    rw [show (0 : Nat) = ([] : Bytes).length from rfl, this]; rfl

end Brec.Props
