import Verif.Props.Payload
import Verif.Props.Block
/-!
# Properties C61, C62: `no_crc`, and payloads whose encoding is not stable
-/

namespace Brec.Props

open Brec

/-! ## C61: `no_crc` -/

/-- The four zero bytes that the documentation announces. -/
def zero4 : Bytes := [0, 0, 0, 0]

/-- **C61, full statement** (false): with `no_crc` the CRC field is written as zeros and not looked at when reading. -/
def C61_full : Prop :=
  (∀ (b : BlockTy) (v : Vals b.fields) (c s : Bytes), b.WF → b.noCrc = true → c.length = 4 →
    b.buffer v = .ok (b.sig ++ specFields b.fields v ++ zero4) ∧
    (b.read false).run (b.sig ++ specFields b.fields v ++ c ++ s) = (.ok v, s)) ∧
  (∀ (V : Type) (sig : Arr 4) (ser : V → Option Bytes) (size : V → Option Nat) (de : Bytes → Option V) (v : V) (x s : Bytes) (c : ByteBlock),
    ser v = some x → size v = some x.length → de x = some v → x.length < 2 ^ 32 →
    (bincodeTy V sig ser size de true).header v = .ok ⟨.len4 sig, .len4 ⟨zero4, rfl⟩, x.length⟩ ∧
    ((bincodeTy V sig ser size de true).read ⟨.len4 sig, c, x.length⟩).run (x ++ s) = (.ok v, s))

/-! ### Lemmas -/

theorem readBody_crc {b : BlockTy} (w : b.WF) (v : Vals b.fields) {c : Bytes} (hc : c.length = 4) (s : Bytes) :
    b.readBody.run (layout b.fields v ++ (c ++ s)) = (if c = b.crc v then .ok v else .err .crcDismatch, s) := by
  rw [BlockTy.readBody, P.bind_ok (Vals.read_layout w.lawful v _), P.bind_ok (P.readExact_append' hc s)]
  by_cases h : c = b.crc v
  · rw [if_neg (by simp [h]), if_pos h]; rfl
  · rw [if_pos (fun e => h e.symm), if_neg h]; rfl

theorem Cur.run_exact {α} {x : P α} {c : Cur} {m s : Bytes} {o : Out α} (hr : c.rest = m ++ s) (h : x.run (m ++ s) = (o, s)) :
    c.run x = (o, { c with pos := c.pos + m.length }) := by
  rw [← hr] at h
  simp only [Cur.run, h]
  rw [hr]
  simp

theorem Chunks.run_exact {α} {x : P α} {cs : Chunks} {m s : Bytes} {o : Out α} (hr : cs.flatten = m ++ s) (h : x.run (m ++ s) = (o, s)) :
    Chunks.run x cs = (o, Chunks.skip m.length cs) := by
  simp [Chunks.run, hr, h]

/-- What each reader of a block does with the CRC field, whatever stands in it: it is compared with the CRC of the value (zeros under `no_crc`), by all
four readers, and all of them stand behind the block afterwards. -/
theorem block_crc_exact {b : BlockTy} (w : b.WF) (v : Vals b.fields) {c : Bytes} (hc : c.length = 4) (s : Bytes) :
    (b.read false).run (b.sig ++ specFields b.fields v ++ c ++ s) = (if c = b.crc v then .ok v else .err .crcDismatch, s) ∧
    b.readSlice (b.sig ++ specFields b.fields v ++ c ++ s) false = (if c = b.crc v then .ok ⟨b.sig, v, c⟩ else .err .crcDismatch) ∧
    (∀ cu : Cur, cu.pos ≤ cu.data.length → cu.rest = b.sig ++ specFields b.fields v ++ c ++ s →
      b.tryRead cu = (if c = b.crc v then .ok (.success v) else .err .crcDismatch, { cu with pos := cu.pos + b.ssize })) ∧
    (∀ cs : Chunks, 4 ≤ (Chunks.fill cs).length → cs.flatten = b.sig ++ specFields b.fields v ++ c ++ s →
      b.tryBuf cs = (if c = b.crc v then .ok (.success v) else .err .crcDismatch, Chunks.skip b.ssize cs)) := by
  rw [specFields_eq]
  have body := readBody_crc w v hc s
  have fsz := layout_length b.fields v
  refine ⟨?_, ?_, fun cu hp hr => ?_, fun cs hf hr => ?_⟩
  · rw [show b.sig ++ layout b.fields v ++ c ++ s = b.sig ++ (layout b.fields v ++ (c ++ s)) by simp, BlockTy.read_false_eq b w.sig_len, if_pos rfl]
    simpa only [BlockTy.read, if_true] using body
  · have hl : (b.sig ++ layout b.fields v ++ c ++ s).length = b.ssize + s.length := by
      simp [w.sig_len, fsz, hc, BlockTy.ssize]; omega
    have h8 : 8 ≤ b.ssize := by rw [BlockTy.ssize]; omega
    have t4 : (b.sig ++ layout b.fields v ++ c ++ s).take 4 = b.sig := by
      rw [List.append_assoc, List.append_assoc, ← w.sig_len, List.take_left]
    unfold BlockTy.readSlice
    rw [if_neg (by simp only [hl]; simp; omega), if_neg (by rw [t4]; simp)]
    simp only [Bool.false_eq_true, if_false]
    rw [if_neg (by omega)]
    have c0 : cut (b.sig ++ layout b.fields v ++ c ++ s) 0 4 = .ok b.sig := by
      have := cut_append (a := []) (b := b.sig) (c := layout b.fields v ++ (c ++ s)) (i := 0) (j := 4) rfl (by rw [w.sig_len])
      simpa using this
    rw [c0, Out.bind_ok]
    have c1 := Vals.ofSlice_layout w.lawful v b.sig (c ++ s) w.sig_len
    rw [← List.append_assoc] at c1
    rw [c1, Out.bind_ok]
    have c2 : cut (b.sig ++ layout b.fields v ++ c ++ s) (4 + fieldsSize b.fields) (4 + fieldsSize b.fields + 4) = .ok c :=
      cut_append (by simp [w.sig_len, fsz]) (by rw [hc])
    rw [c2, Out.bind_ok]
    by_cases h : c = b.crc v
    · rw [if_neg (by simp [h]), if_pos h]
    · rw [if_pos (fun e => h e.symm), if_neg h]
  · have h8 : b.ssize = 4 + fieldsSize b.fields + 4 := rfl
    have hrl : cu.rest.length = b.ssize + s.length := by
      rw [hr]; simp [w.sig_len, fsz, hc, BlockTy.ssize]; omega
    have r0 : cu.rest = b.sig ++ (layout b.fields v ++ (c ++ s)) := by rw [hr]; simp
    unfold BlockTy.tryRead
    rw [Cur.remaining_ok hp]
    simp only
    rw [if_neg (by omega), Cur.run_take r0 (P.readExact_append' w.sig_len _)]
    simp only [ne_eq, not_true_eq_false, if_false]
    rw [if_neg (by omega)]
    have r1 := Cur.rest_add r0
    rw [← List.append_assoc] at r1 body
    rw [Cur.run_exact r1 (by simpa only [BlockTy.read, if_true] using body)]
    refine Prod.ext ?_ ?_
    · dsimp only; split <;> rfl
    · simp [w.sig_len, fsz, hc, BlockTy.ssize, Nat.add_assoc]
  · have ht : cs.flatten.take 4 = b.sig := by
      rw [hr, List.append_assoc, List.append_assoc, ← w.sig_len, List.take_left]
    have hpre := BlockTy.sig_prefix hf (Chunks.fill_prefix cs) ht
    have hle := (Chunks.fill_prefix cs).length_le
    unfold BlockTy.tryBuf
    rw [if_neg (by omega), if_neg (by simp [hpre])]
    simp only
    rw [← List.append_assoc] at body
    have hfl : (Chunks.consume 4 cs).flatten = layout b.fields v ++ c ++ s := by
      rw [Chunks.flatten_consume hf, hr]
      simp only [List.append_assoc]
      rw [← w.sig_len, List.drop_left]
    rw [Chunks.run_exact hfl (by simpa only [BlockTy.read, if_true] using body)]
    refine Prod.ext ?_ ?_
    · dsimp only; split <;> rfl
    · rw [Chunks.consume, Nat.min_eq_left hf, Chunks.skip_skip _ _ _ (by omega)]
      simp [fsz, hc, BlockTy.ssize, Nat.add_assoc]

theorem payload_read_none {T : PayloadTy} {x : Bytes} (hd : T.decode x = none) (s : Bytes) (c : ByteBlock) :
    (T.read ⟨T.ssig, c, x.length⟩).run (x ++ s) = (.err .io, s) := by
  unfold PayloadTy.read
  rw [if_neg (by simp), P.bind_ok (P.readExact_append' rfl s), P.bind_err (e := .io) (s' := s) (by rw [P.lift_run, hd]; rfl)]

theorem payload_read_err {T : PayloadTy} {x : Bytes} {w : T.Val} {e : Err} (hd : T.decode x = some w) (hc : T.crc w = .err e) (s : Bytes) (c : ByteBlock) :
    (T.read ⟨T.ssig, c, x.length⟩).run (x ++ s) = (.err e, s) := by
  unfold PayloadTy.read
  rw [if_neg (by simp), P.bind_ok (P.readExact_append' rfl s), P.bind_ok (a := w) (s' := s) (by rw [P.lift_run, hd]; rfl),
    P.bind_err (e := e) (s' := s) (by rw [P.lift_run, hc])]

theorem payload_read_some {T : PayloadTy} {x : Bytes} {w : T.Val} {c' : ByteBlock} (hd : T.decode x = some w) (hc : T.crc w = .ok c') (s : Bytes) (c : ByteBlock) :
    (T.read ⟨T.ssig, c, x.length⟩).run (x ++ s) = (if c = c' then .ok w else .err .crcDismatch, s) := by
  unfold PayloadTy.read
  rw [if_neg (by simp), P.bind_ok (P.readExact_append' rfl s), P.bind_ok (a := w) (s' := s) (by rw [P.lift_run, hd]; rfl),
    P.bind_ok (a := c') (s' := s) (by rw [P.lift_run, hc])]
  by_cases h : c = c'
  · rw [if_neg (by simp [h]), if_pos h]; rfl
  · rw [if_pos (by simp [h]), if_neg h]; rfl

theorem payload_header_eq {T : PayloadTy} {x : Bytes} {v : T.Val} {c : ByteBlock} (hz : T.size v = some x.length) (hl : x.length < 2 ^ 32)
    (hc : T.crc v = .ok c) : T.header v = .ok ⟨T.sig v, c, x.length⟩ := by
  unfold PayloadTy.header
  rw [hz]
  simp only [ioOut, Out.bind_ok]
  rw [if_neg (by omega), hc]
  rfl

theorem payload_writeAll_eq {T : PayloadTy} {x : Bytes} {v : T.Val} {c : ByteBlock} (hz : T.size v = some x.length) (hl : x.length < 2 ^ 32)
    (hc : T.crc v = .ok c) (hb : T.body v = .ok x) : T.writeAll v = .ok (PayloadHeader.asVec ⟨T.sig v, c, x.length⟩ ++ x) := by
  rw [PayloadTy.writeAll, PayloadTy.parts, payload_header_eq hz hl hc, Out.bind_ok, hb]; rfl

/-! ### The theorems -/

/-- **C61 for blocks, what holds.** Under `no_crc` the block is written with four zeros as CRC. Whatever the field values, and whatever stands in the CRC field, each
of the four readers returns the value if the field is zero and `CrcDismatch` otherwise. So the content is not checked (damage of the fields goes unnoticed), but
the field is. Missing: that any CRC field is accepted. -/
theorem C61_block_partial (b : BlockTy) (w : b.WF) (hn : b.noCrc = true) (v : Vals b.fields) (c s : Bytes) (hc : c.length = 4) :
    b.buffer v = .ok (b.sig ++ specFields b.fields v ++ zero4) ∧
    (b.read false).run (b.sig ++ specFields b.fields v ++ c ++ s) = (if c = zero4 then .ok v else .err .crcDismatch, s) ∧
    b.readSlice (b.sig ++ specFields b.fields v ++ c ++ s) false = (if c = zero4 then .ok ⟨b.sig, v, c⟩ else .err .crcDismatch) ∧
    (∀ cu : Cur, cu.pos ≤ cu.data.length → cu.rest = b.sig ++ specFields b.fields v ++ c ++ s →
      b.tryRead cu = (if c = zero4 then .ok (.success v) else .err .crcDismatch, { cu with pos := cu.pos + b.ssize })) ∧
    (∀ cs : Chunks, 4 ≤ (Chunks.fill cs).length → cs.flatten = b.sig ++ specFields b.fields v ++ c ++ s →
      b.tryBuf cs = (if c = zero4 then .ok (.success v) else .err .crcDismatch, Chunks.skip b.ssize cs)) := by
  have hz : b.crc v = zero4 := by simp [BlockTy.crc, hn, zero4]
  have := block_crc_exact w v hc s
  rw [hz] at this
  refine ⟨?_, this⟩
  rw [(C03_block_layout b w v).1, specBlock, hn]
  rfl

/-- **C61 for blocks with CRC**: the same with the CRC-32 of the fields, so a CRC field is accepted if and only if it is this CRC. -/
theorem C61_block_crc (b : BlockTy) (w : b.WF) (hn : b.noCrc = false) (v : Vals b.fields) (c s : Bytes) (hc : c.length = 4) :
    (b.read false).run (b.sig ++ specFields b.fields v ++ c ++ s) =
      (if c = leBytes 4 (specCrc (specFields b.fields v)) then .ok v else .err .crcDismatch, s) ∧
    b.readSlice (b.sig ++ specFields b.fields v ++ c ++ s) false =
      (if c = leBytes 4 (specCrc (specFields b.fields v)) then .ok ⟨b.sig, v, c⟩ else .err .crcDismatch) := by
  have hz : b.crc v = leBytes 4 (specCrc (specFields b.fields v)) := by
    rw [BlockTy.crc_eq hn, crcBytes, C51_crc32, specFields_eq]
  have := block_crc_exact w v hc s
  rw [hz] at this
  exact ⟨this.1, this.2.1⟩

/-- **C61 for payloads, what holds.** A `#[payload(bincode, no_crc)]` writes a header with four zeros as CRC. Any body that decodes is returned if the header says four
zeros and refused with `CrcDismatch` otherwise, whatever the CRC field and its width. Missing: that any CRC is accepted. -/
theorem C61_payload_partial (V : Type) (sig : Arr 4) (ser : V → Option Bytes) (size : V → Option Nat) (de : Bytes → Option V) (x s : Bytes) (c : ByteBlock) :
    (∀ v, size v = some x.length → x.length < 2 ^ 32 →
      (bincodeTy V sig ser size de true).header v = .ok ⟨.len4 sig, .len4 ⟨zero4, rfl⟩, x.length⟩) ∧
    ((bincodeTy V sig ser size de true).read ⟨.len4 sig, c, x.length⟩).run (x ++ s) =
      (match de x with
        | none => .err .io
        | some v => if c = .len4 ⟨zero4, rfl⟩ then .ok v else .err .crcDismatch, s) := by
  constructor
  · intro v hs hl
    exact payload_header_eq (T := bincodeTy V sig ser size de true) hs hl rfl
  · cases hd : de x with
    | none => exact payload_read_none (T := bincodeTy V sig ser size de true) hd s c
    | some v => exact payload_read_some (T := bincodeTy V sig ser size de true) (w := v) hd rfl s c

/-- A block without CRC. -/
def uncheckedBlock : BlockTy := ⟨[1, 2, 3, 4], [.num .u16, .bool], true⟩

theorem uncheckedBlock_wf : uncheckedBlock.WF where
  sig_len := rfl
  lawful := by
    intro t ht
    simp only [uncheckedBlock, List.mem_cons, List.not_mem_nil, or_false] at ht
    rcases ht with rfl | rfl <;> trivial

/-- **C61 is false**: one bit in the CRC field of a `no_crc` block, and it is refused. -/
theorem C61_not : ¬ C61_full := by
  intro h
  have h1 := ((h.1 uncheckedBlock (5#16, true, ()) [1, 0, 0, 0] [] uncheckedBlock_wf rfl rfl)).2
  have h2 := (C61_block_partial uncheckedBlock uncheckedBlock_wf rfl (5#16, true, ()) [1, 0, 0, 0] [] rfl).2.1
  rw [h1] at h2
  injection h2 with h2
  rw [if_neg (by decide)] at h2
  cases h2

/-- The same for payloads: a `no_crc` reader refuses what a peer that computes CRCs has written, unless the CRC happens to be zero. -/
theorem C61_payload_peer (V : Type) (sig : Arr 4) (ser : V → Option Bytes) (size : V → Option Nat) (de : Bytes → Option V) (v : V) (x s : Bytes)
    (hd : de x = some v) (hc : specCrc x ≠ 0) :
    ((bincodeTy V sig ser size de true).read ⟨.len4 sig, .len4 ⟨leBytes 4 (specCrc x), leBytes_length ..⟩, x.length⟩).run (x ++ s) = (.err .crcDismatch, s) := by
  have := (C61_payload_partial V sig ser size de x s (.len4 ⟨leBytes 4 (specCrc x), leBytes_length ..⟩)).2
  rw [hd] at this
  refine this.trans (congrArg (·, s) (if_neg ?_))
  intro e
  injection e with e
  have e2 : leBytes 4 (specCrc x) = zero4 := congrArg Subtype.val e
  have e3 := congrArg leNat e2
  rw [leNat_leBytes_of_lt (by rw [← C51_crc32]; exact (crc32 x).isLt)] at e3
  exact hc e3

example : specCrc [1, 2, 3] ≠ 0 := by decide +kernel

/-- Both cases occur: zeros are accepted, with any field values; anything else is not. -/
example : (uncheckedBlock.read false).run [1, 2, 3, 4, 5, 0, 1, 0, 0, 0, 0, 77] = (.ok (5#16, true, ()), [77]) ∧
    (uncheckedBlock.read false).run [1, 2, 3, 4, 6, 0, 1, 0, 0, 0, 0, 77] = (.ok (6#16, true, ()), [77]) ∧
    (uncheckedBlock.read false).run [1, 2, 3, 4, 5, 0, 1, 1, 0, 0, 0, 77] = (.err .crcDismatch, [77]) := by
  have e1 := (C61_block_partial uncheckedBlock uncheckedBlock_wf rfl (5#16, true, ()) [0, 0, 0, 0] [77] rfl).2.1
  have e2 := (C61_block_partial uncheckedBlock uncheckedBlock_wf rfl (6#16, true, ()) [0, 0, 0, 0] [77] rfl).2.1
  have e3 := (C61_block_partial uncheckedBlock uncheckedBlock_wf rfl (5#16, true, ()) [1, 0, 0, 0] [77] rfl).2.1
  exact ⟨e1, e2, e3⟩

/-! ## C62: payloads whose encoding is not stable -/

/-- **C62, full statement** (false): a payload type that decodes what it encodes, up to the user's notion of equality, is read back from what was written. -/
def C62_full : Prop := ∀ (V : Type) (eqv : V → V → Prop) (sig : Arr 4) (ser : V → Option Bytes) (size : V → Option Nat) (de : Bytes → Option V) (v : V) (x : Bytes),
  (∀ v x, ser v = some x → ∃ w, de x = some w ∧ eqv v w) → ser v = some x → size v = some x.length → x.length < 2 ^ 32 →
  ∃ w, (PayloadHeader.read >>= (bincodeTy V sig ser size de false).read).run
    (match (bincodeTy V sig ser size de false).writeAll v with | .ok b => b | _ => []) = (.ok w, []) ∧ eqv v w

/-- What all readers make of a written payload that decodes to `w`. -/
structure ReadsBack (T : PayloadTy) (h : PayloadHeader) (x : Bytes) (o : Out T.Val) : Prop where
  len : h.len = x.length
  stream : ∀ s, (T.read h).run (x ++ s) = (o, s)
  seek : ∀ (cu : Cur) s, cu.pos ≤ cu.data.length → cu.rest = x ++ s → T.tryRead h cu = (o.map .success, { cu with pos := cu.pos + x.length })
  buffered : ∀ (cs : Chunks) s, cs.flatten = x ++ s → T.tryBuf h cs = (o.map .success, Chunks.skip x.length cs)

theorem ReadsBack.of_stream {T : PayloadTy} {h : PayloadHeader} {x : Bytes} {o : Out T.Val} (hl : h.len = x.length)
    (e : ∀ s, (T.read h).run (x ++ s) = (o, s)) : ReadsBack T h x o where
  len := hl
  stream := e
  seek cu s hp hr := by
    unfold PayloadTy.tryRead
    rw [Cur.remaining_ok hp]
    simp only
    rw [if_neg (by rw [hr, hl]; simp), Cur.run_exact hr (e s)]
  buffered cs s hr := by
    unfold PayloadTy.tryBuf
    rw [Chunks.run_exact hr (e s)]

/-- **C62, exactly.** Let `v` be written as `x` and let `x` decode to `w` (any value; the types may be as unstable as they like). With `#[payload(bincode)]` the readers
return `w` if and only if the CRC-32 of the encoding of `w` is the CRC-32 of `x`; else they fail with `CrcDismatch` (or with the error of encoding `w`). -/
theorem C62_exact (V : Type) (sig : Arr 4) (ser : V → Option Bytes) (size : V → Option Nat) (de : Bytes → Option V) (v w : V) (x : Bytes)
    (hs : ser v = some x) (hz : size v = some x.length) (hl : x.length < 2 ^ 32) (hd : de x = some w) :
    ∃ h, (bincodeTy V sig ser size de false).writeAll v = .ok (PayloadHeader.asVec h ++ x) ∧
      ReadsBack (bincodeTy V sig ser size de false) h x (match ser w with
        | none => .err .io
        | some y => if specCrc y = specCrc x then .ok w else .err .crcDismatch) := by
  have hcrc : ∀ v x, ser v = some x → (bincodeTy V sig ser size de false).crc v = .ok (PayloadTy.crcBlock x) := by
    intro v x hs
    show ((ioOut (ser v)).map _) = _
    rw [hs]; rfl
  have hcrc0 : ∀ v, ser v = none → (bincodeTy V sig ser size de false).crc v = .err .io := by
    intro v hs
    show ((ioOut (ser v)).map _) = _
    rw [hs]; rfl
  have hbody : (bincodeTy V sig ser size de false).body v = .ok x := by
    show ioOut (ser v) = _
    rw [hs]; rfl
  refine ⟨⟨.len4 sig, PayloadTy.crcBlock x, x.length⟩, payload_writeAll_eq (T := bincodeTy V sig ser size de false) hz hl (hcrc v x hs) hbody,
    .of_stream rfl fun s => ?_⟩
  · cases hw : ser w with
    | none => exact payload_read_err (T := bincodeTy V sig ser size de false) hd (hcrc0 w hw) s _
    | some y =>
      have e := payload_read_some (T := bincodeTy V sig ser size de false) hd (hcrc w y hw) s (PayloadTy.crcBlock x)
      have : PayloadTy.crcBlock x = PayloadTy.crcBlock y ↔ specCrc y = specCrc x := by
        rw [← C51_crc32, ← C51_crc32]
        have hlt : ∀ z : Bytes, (crc32 z).toNat < 256 ^ 4 := fun z => (crc32 z).isLt
        constructor
        · intro e
          have e2 : crcBytes x = crcBytes y := by simpa [PayloadTy.crcBlock] using e
          have := congrArg leNat e2
          rw [crcBytes, crcBytes, leNat_leBytes_of_lt (hlt x), leNat_leBytes_of_lt (hlt y)] at this
          exact this.symm
        · intro e
          have : crcBytes x = crcBytes y := by rw [crcBytes, crcBytes, e]
          simp [PayloadTy.crcBlock, this]
      refine e.trans (congrArg (·, s) ?_)
      show _ = if specCrc y = specCrc x then Out.ok w else _
      by_cases h : PayloadTy.crcBlock x = PayloadTy.crcBlock y
      · rw [if_pos h, if_pos (this.mp h)]
      · rw [if_neg h, if_neg (fun e => h (this.mpr e))]

/-- **C62, the documented way out.** If encoding what was decoded gives the same bytes again, the payload is read back; with `no_crc` it always is; and so it is with a
manual `PayloadCrc` (`no_auto_crc`) that gives equal CRCs to the value written and the value read. -/
theorem C62_ways_out_partial (V : Type) (sig : Arr 4) (ser : V → Option Bytes) (size : V → Option Nat) (de : Bytes → Option V) (v w : V) (x : Bytes)
    (hs : ser v = some x) (hz : size v = some x.length) (hl : x.length < 2 ^ 32) (hd : de x = some w) :
    (ser w = some x → ∃ h, (bincodeTy V sig ser size de false).writeAll v = .ok (PayloadHeader.asVec h ++ x) ∧
      ReadsBack (bincodeTy V sig ser size de false) h x (.ok w)) ∧
    (∃ h, (bincodeTy V sig ser size de true).writeAll v = .ok (PayloadHeader.asVec h ++ x) ∧
      ReadsBack (bincodeTy V sig ser size de true) h x (.ok w)) ∧
    (∀ (f : V → Option ByteBlock) (c : ByteBlock), f v = some c → f w = some c →
      ∃ h, ({ bincodeTy V sig ser size de false with crcFn := some f } : PayloadTy).writeAll v = .ok (PayloadHeader.asVec h ++ x) ∧
      ReadsBack { bincodeTy V sig ser size de false with crcFn := some f } h x (.ok w)) := by
  have manual : ∀ (f : V → Option ByteBlock) (c : ByteBlock), f v = some c → f w = some c →
      ∃ h, ({ bincodeTy V sig ser size de false with crcFn := some f } : PayloadTy).writeAll v = .ok (PayloadHeader.asVec h ++ x) ∧
      ReadsBack { bincodeTy V sig ser size de false with crcFn := some f } h x (.ok w) := by
    intro f c hv hw
    have hc : ∀ u, f u = some c → ({ bincodeTy V sig ser size de false with crcFn := some f } : PayloadTy).crc u = .ok c := by
      intro u hu
      show ioOut (f u) = _
      rw [hu]; rfl
    have hbody : ({ bincodeTy V sig ser size de false with crcFn := some f } : PayloadTy).body v = .ok x := by
      show ioOut (ser v) = _
      rw [hs]; rfl
    refine ⟨⟨.len4 sig, c, x.length⟩, payload_writeAll_eq (T := { bincodeTy V sig ser size de false with crcFn := some f }) hz hl (hc v hv) hbody,
      .of_stream rfl fun s => ?_⟩
    have := payload_read_some (T := { bincodeTy V sig ser size de false with crcFn := some f }) hd (hc w hw) s c
    rwa [if_pos rfl] at this
  refine ⟨fun hw => ?_, ?_, manual⟩
  · obtain ⟨h, e, r⟩ := C62_exact V sig ser size de v w x hs hz hl hd
    rw [hw] at r
    simp only [if_true] at r
    exact ⟨h, e, r⟩
  · exact manual (fun _ => some (.len4 ⟨zero4, rfl⟩)) _ rfl rfl

/-- A set of bytes that comes out in the opposite order of how it went in, as a hash set may. -/
theorem unstable_decodes : ∀ (v x : Bytes), (some v : Option Bytes) = some x → ∃ w, (some x.reverse : Option Bytes) = some w ∧ ∀ b, b ∈ v ↔ b ∈ w := by
  intro v x h
  injection h with h
  exact ⟨x.reverse, rfl, by simp [h]⟩

/-- **C62 is false**: the set {1, 2}, equal to itself whatever the order, is written and cannot be read back. -/
theorem C62_not : ¬ C62_full := by
  intro h
  obtain ⟨w, e, _⟩ := h Bytes (fun v w => ∀ b, b ∈ v ↔ b ∈ w) ⟨[9, 9, 9, 9], rfl⟩ some (fun v => some v.length) (fun x => some x.reverse) [1, 2] [1, 2]
    unstable_decodes rfl rfl (by decide)
  obtain ⟨hd, e1, r⟩ := C62_exact Bytes ⟨[9, 9, 9, 9], rfl⟩ some (fun v => some v.length) (fun x => some x.reverse) [1, 2] [2, 1] [1, 2] rfl rfl (by decide) rfl
  rw [e1] at e
  simp only at e
  rw [P.bind_ok (PayloadHeader.read_asVec hd (by rw [r.len]; decide) _)] at e
  have := r.stream []
  rw [List.append_nil] at this
  rw [this] at e
  injection e with e
  have hne : specCrc [2, 1] ≠ specCrc [1, 2] := by decide +kernel
  simp only [hne, if_false] at e
  cases e

/-- The hypotheses of `C62_exact` and of the way out are met by the set {1, 2}. -/
example : ∃ h, (bincodeTy Bytes ⟨[9, 9, 9, 9], rfl⟩ some (fun v => some v.length) (fun x => some x.reverse) true).writeAll ([1, 2] : Bytes) =
      .ok (PayloadHeader.asVec h ++ [1, 2]) ∧
    ((bincodeTy Bytes ⟨[9, 9, 9, 9], rfl⟩ some (fun v => some v.length) (fun x => some x.reverse) true).read h).run [1, 2, 77] = (.ok ([2, 1] : Bytes), [77]) := by
  obtain ⟨h, e, r⟩ := (C62_ways_out_partial Bytes ⟨[9, 9, 9, 9], rfl⟩ some (fun v => some v.length) (fun x => some x.reverse) [1, 2] [2, 1] [1, 2]
    rfl rfl (by decide) rfl).2.1
  exact ⟨h, e, r.stream [77]⟩

end Brec.Props
