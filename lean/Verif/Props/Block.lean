import Verif.BlockRead
import Verif.Props.Crc
/-!
# Properties C01–C06, C43, C44, C46: blocks
-/

namespace Brec.Props

open Brec

/-! ## A sample block type (non-vacuity) -/

/-- A two-valued enum linked to `u8` 10 and 20. -/
def sampleEnum : Linked where
  card := 2
  enc v := if v = 0 then 10 else 20
  dec b := if b = 10 then some 0 else if b = 20 then some 1 else none

def sampleBlock : BlockTy where
  sig := [11, 22, 33, 44]
  fields := [.num .u8, .num .i32, .bool, .blob 3, .num .f64, .linked sampleEnum]
  noCrc := false

def sampleVals : Vals sampleBlock.fields :=
  (7#8, 0xFFFFFFFE#32, true, ⟨[1, 2, 3], rfl⟩, 0x3FF0000000000000#64, (1 : Fin 2), ())

theorem sampleBlock_wf : sampleBlock.WF where
  sig_len := rfl
  lawful := by
    intro t ht
    simp only [sampleBlock, List.mem_cons, List.not_mem_nil, or_false] at ht
    rcases ht with rfl | rfl | rfl | rfl | rfl | rfl <;> try trivial
    exact (by decide : ∀ v : Fin 2,
      (if (if v = 0 then (10 : Byte) else 20) = 10 then some (0 : Fin 2)
        else if (if v = 0 then (10 : Byte) else 20) = 20 then some 1 else none) = some v)

example : sampleBlock.bytes sampleVals =
    [11, 22, 33, 44, 7, 0xFE, 0xFF, 0xFF, 0xFF, 1, 1, 2, 3, 0, 0, 0, 0, 0, 0, 0xF0, 0x3F, 20] ++
      sampleBlock.crc sampleVals := by decide +kernel

/-! ## C03 -/

/-- Documented little-endian encoding of a field, byte by byte. -/
def specField : (t : FTy) → t.Val → Bytes
  | .num n, v => (List.range n.size).map fun i => BitVec.ofNat 8 (BitVec.toNat v / 256 ^ i)
  | .bool, v => match (v : Bool) with | true => [1] | false => [0]
  | .blob _, v => v.1
  | .linked e, v => [e.enc v]

def specFields : (ts : List FTy) → Vals ts → Bytes
  | [], _ => []
  | t :: ts, (v, vs) => specField t v ++ specFields ts vs

/-- Documented widths. -/
def specWidth : FTy → Nat
  | .num .u8 => 1 | .num .u16 => 2 | .num .u32 => 4 | .num .u64 => 8 | .num .u128 => 16
  | .num .i8 => 1 | .num .i16 => 2 | .num .i32 => 4 | .num .i64 => 8 | .num .i128 => 16
  | .num .f32 => 4 | .num .f64 => 8 | .bool => 1 | .blob n => n | .linked _ => 1

/-- Documented block layout: signature, fields, CRC-32 of the fields (zeros under `no_crc`). -/
def specBlock (b : BlockTy) (v : Vals b.fields) : Bytes :=
  b.sig ++ specFields b.fields v ++
    (if b.noCrc then [0, 0, 0, 0] else leBytes 4 (specCrc (specFields b.fields v)))

theorem leBytes_eq_map (n v : Nat) :
    leBytes n v = (List.range n).map fun i => BitVec.ofNat 8 (v / 256 ^ i) := by
  induction n generalizing v with
  | zero => rfl
  | succ n ih =>
    rw [leBytes, ih, List.range_succ_eq_map]
    simp only [List.map_cons, Nat.pow_zero, Nat.div_one, List.map_map, List.cons.injEq, true_and]
    apply List.map_congr_left
    intro i _
    simp only [Function.comp]
    rw [Nat.div_div_eq_div_mul, Nat.pow_succ, Nat.mul_comm]

theorem specFields_eq (ts : List FTy) (v : Vals ts) : specFields ts v = layout ts v := by
  induction ts with
  | nil => rfl
  | cons t ts ih =>
    obtain ⟨v, vs⟩ := v
    rw [specFields, layout_cons, ih]
    congr 1
    cases t with
    | num n => exact (leBytes_eq_map ..).symm
    | bool =>
      have : ∀ v : Bool, specField .bool v = [flagByte v] := by intro v; cases v <;> rfl
      exact this v
    | blob n => rfl
    | linked e => rfl

theorem specBlock_eq (b : BlockTy) (v : Vals b.fields) : specBlock b v = b.bytes v := by
  rw [specBlock, BlockTy.bytes, specFields_eq, ← C51_crc32]
  congr 1
  cases hb : b.noCrc with
  | true => simp [BlockTy.crc, hb]
  | false => rw [BlockTy.crc_eq hb, crcBytes]; simp

/-- **C03.** The buffer that `write`/`write_all` hand to the sink and the concatenation of `slices()`
are the same bytes: the documented layout, whose length is `ssize()` = 4 + widths + 4. -/
theorem C03_block_layout (b : BlockTy) (w : b.WF) (v : Vals b.fields) :
    b.buffer v = .ok (specBlock b v) ∧
    (∃ sl, b.slices v = .ok sl ∧ sl.flatten = specBlock b v) ∧
    (specBlock b v).length = b.ssize ∧
    b.ssize = 4 + (b.fields.map specWidth).sum + 4 := by
  rw [specBlock_eq]
  refine ⟨BlockTy.buffer_eq w v, BlockTy.slices_flatten b v, BlockTy.bytes_length w v, ?_⟩
  rw [BlockTy.ssize]
  congr 2
  induction b.fields with
  | nil => rfl
  | cons t ts ih =>
    rw [fieldsSize, ih, List.map_cons, List.sum_cons]
    congr 1
    cases t with
    | num n => cases n <;> rfl
    | _ => rfl

example : ∃ sl, sampleBlock.slices sampleVals = .ok sl ∧ sl.length = 5 := by
  refine ⟨_, rfl, by decide +kernel⟩

/-! ## C01, C02 -/

/-- **C01.** Whatever block value is written, `write_all` produces `ssize()` bytes and the stream reader
returns the same value and leaves exactly the bytes that follow. -/
theorem C01_block_roundtrip (b : BlockTy) (w : b.WF) (v : Vals b.fields) (s : Bytes) :
    ∃ x, b.buffer v = .ok x ∧ x.length = b.ssize ∧ (b.read false).run (x ++ s) = (.ok v, s) :=
  ⟨b.bytes v, BlockTy.buffer_eq w v, BlockTy.bytes_length w v, BlockTy.read_bytes w v s⟩

example : ∃ x, sampleBlock.buffer sampleVals = .ok x ∧ x.length = 26 :=
  let ⟨x, h1, h2, _⟩ := C01_block_roundtrip sampleBlock sampleBlock_wf sampleVals []
  ⟨x, h1, h2⟩

/-- **C02.** On written bytes followed by anything the slice reader returns a view that converts to the
value the stream reader returns. -/
theorem C02_block_slice (b : BlockTy) (w : b.WF) (v : Vals b.fields) (s : Bytes) :
    ∃ x r, b.buffer v = .ok x ∧ b.readSlice (x ++ s) false = .ok r ∧
      ((b.read false).run (x ++ s)).1 = .ok r.into ∧ r.into = v := by
  refine ⟨b.bytes v, _, BlockTy.buffer_eq w v, BlockTy.readSlice_bytes w v s, ?_, rfl⟩
  rw [BlockTy.read_bytes w v s]
  rfl

/-! ## C04 -/

/-- What the stream reader accepts after a burst. -/
theorem body_burst {b : BlockTy} (w : b.WF) (hc : b.noCrc = false) {v v' : Vals b.fields}
    {x s s' : Bytes} (hb : Burst4 (layout b.fields v ++ b.crc v) x)
    (e : b.readBody.run (x ++ s) = (.ok v', s')) : v' = v := by
  obtain ⟨raw, e1, hl, can⟩ := BlockTy.readBody_inv w e
  have hxl : x.length = fieldsSize b.fields + 4 := by rw [← hb.1]; simp [layout_length]
  have hx : x = raw ++ b.crc v' := (List.append_inj e1 (by simp [hl, hxl])).1
  subst hx
  have hb2 := ((can v).append (Canon.refl (by simp))).burst hb
  rw [BlockTy.crc_eq hc, BlockTy.crc_eq hc] at hb2
  exact (layout_inj w.lawful (crc_burst hb2)).symm

theorem slice_burst {b : BlockTy} (w : b.WF) (hc : b.noCrc = false) {v : Vals b.fields}
    {r : Referred b.fields} {x s : Bytes} (hb : Burst4 (b.bytes v) x)
    (e : b.readSlice (x ++ s) false = .ok r) : r.into = v := by
  obtain ⟨_, _, _, hcrc, _, can⟩ := BlockTy.readSlice_inv w e
  have hxl : x.length = 4 + fieldsSize b.fields + 4 := by
    rw [← hb.1, BlockTy.bytes_length w, BlockTy.ssize]
  have hx : x.drop 4 = slice (x ++ s) 4 (fieldsSize b.fields) ++ b.crc r.vals := by
    rw [← hcrc, ← slice_add]
    unfold slice
    rw [List.drop_append_of_le_length (by omega), List.take_append_of_le_length (by simp; omega),
      List.take_of_length_le (by simp; omega)]
  have hd := hb.drop 4
  rw [hx] at hd
  have : (b.bytes v).drop 4 = layout b.fields v ++ b.crc v := by
    rw [BlockTy.bytes, List.append_assoc, ← w.sig_len, List.drop_left]
  rw [this] at hd
  have hb2 := ((can v).append (Canon.refl (by simp))).burst hd
  rw [BlockTy.crc_eq hc, BlockTy.crc_eq hc] at hb2
  exact (layout_inj w.lawful (crc_burst hb2)).symm

/-- **C04.** Change at most four consecutive bytes of a written CRC-protected block (anywhere, signature
included). Then each of the four readers fails or returns the original value, and no reader accepts the
block when its signature is changed. -/
theorem C04_block_corruption (b : BlockTy) (w : b.WF) (hc : b.noCrc = false) (v : Vals b.fields)
    (x s : Bytes) (hb : Burst4 (b.bytes v) x) :
    (∀ v', ((b.read false).run (x ++ s)).1 = .ok v' → v' = v ∧ x.take 4 = b.sig) ∧
    (∀ r, b.readSlice (x ++ s) false = .ok r → r.into = v ∧ x.take 4 = b.sig) ∧
    (∀ c v', c.rest = x ++ s → (b.tryRead c).1 = .ok (.success v') → v' = v ∧ x.take 4 = b.sig) ∧
    (∀ cs v', cs.flatten = x ++ s → (b.tryBuf cs).1 = .ok (.success v') →
      v' = v ∧ x.take 4 = b.sig) := by
  have hxl : x.length = 4 + fieldsSize b.fields + 4 := by
    rw [← hb.1, BlockTy.bytes_length w, BlockTy.ssize]
  have hd : Burst4 (layout b.fields v ++ b.crc v) (x.drop 4) := by
    have := hb.drop 4
    rwa [BlockTy.bytes, List.append_assoc, ← w.sig_len, List.drop_left, w.sig_len] at this
  have t4 : (x ++ s).take 4 = x.take 4 := List.take_append_of_le_length (by omega)
  have d4 : (x ++ s).drop 4 = x.drop 4 ++ s := List.drop_append_of_le_length (by omega)
  refine ⟨fun v' e => ?_, fun r e => ⟨slice_burst w hc hb e, ?_⟩, fun c v' hr e => ?_,
    fun cs v' hr e => ?_⟩
  · have hsp : x ++ s = x.take 4 ++ (x.drop 4 ++ s) := by rw [← d4, ← t4, List.take_append_drop]
    rw [hsp, BlockTy.read_false_eq b (by simp; omega)] at e
    split at e
    · rename_i hs
      exact ⟨body_burst w hc hd (s := s) (s' := (b.readBody.run (x.drop 4 ++ s)).2)
        (Prod.ext e rfl), hs⟩
    · cases e
  · have := (BlockTy.readSlice_inv w e).2.1
    rwa [t4] at this
  · unfold BlockTy.tryRead at e
    split at e
    · cases e
    · cases e
    · split at e
      · cases e
      · rw [Cur.run_readExact4 (by rw [hr]; simp; omega)] at e
        simp only at e
        split at e
        · cases e
        rename_i hs
        rw [Decidable.not_not, hr, t4] at hs
        split at e
        · cases e
        · simp only [Cur.run, BlockTy.read, if_true] at e
          have hre : ({ c with pos := c.pos + 4 } : Cur).rest = x.drop 4 ++ s := by
            simp only [Cur.rest] at hr ⊢
            rw [← List.drop_drop, hr, d4]
          rw [hre] at e
          obtain ⟨a, e1, e2⟩ := Out.map_eq_ok e
          injection e2 with e2
          subst e2
          exact ⟨body_burst w hc hd (s := s) (s' := (b.readBody.run (x.drop 4 ++ s)).2)
            (Prod.ext e1 rfl), hs⟩
  · unfold BlockTy.tryBuf at e
    split at e
    · cases e
    rename_i hf
    split at e
    · cases e
    rename_i hs
    rw [List.isPrefixOf_iff_prefix, Decidable.not_not] at hs
    have hs' : x.take 4 = b.sig := by
      have hp := hs.trans (Chunks.fill_prefix cs)
      obtain ⟨r, e⟩ := hp
      rw [← t4, ← hr, ← e, ← w.sig_len, List.take_left]
    simp only [Chunks.run, BlockTy.read, if_true] at e
    rw [Chunks.flatten_consume (by omega), hr, d4] at e
    obtain ⟨a, e1, e2⟩ := Out.map_eq_ok e
    injection e2 with e2
    subst e2
    exact ⟨body_burst w hc hd (s := s) (s' := (b.readBody.run (x.drop 4 ++ s)).2)
      (Prod.ext e1 rfl), hs'⟩

/-- The hypotheses of C04 are met by a really changed block. -/
example : sampleBlock.noCrc = false ∧ Burst4 (sampleBlock.bytes sampleVals)
    ((sampleBlock.bytes sampleVals).take 8 ++ [9, 9, 9, 9] ++ (sampleBlock.bytes sampleVals).drop 12) := by
  have : sampleBlock.bytes sampleVals = (sampleBlock.bytes sampleVals).take 8 ++
      ((sampleBlock.bytes sampleVals).drop 8).take 4 ++ (sampleBlock.bytes sampleVals).drop 12 := by
    decide +kernel
  refine ⟨rfl, ?_⟩
  conv => lhs; rw [this]
  exact Burst4.of_split _ _ _ _ (by decide +kernel) (by decide +kernel)

/-! ## C05 -/

/-- Full statement of C05: on a proper prefix of a written block the seekable reader reports exactly
the missing number of bytes and does not move. -/
def C05_full : Prop := ∀ (b : BlockTy) (_ : b.WF) (v : Vals b.fields) (k : Nat) (pre : Bytes) (chk : Bool),
  k < b.ssize →
  b.tryRead ⟨pre ++ (b.bytes v).take k, pre.length, chk⟩ =
    (.ok (.notEnough (b.ssize - k)), ⟨pre ++ (b.bytes v).take k, pre.length, chk⟩)

/-- Exactly what happens on a proper prefix. -/
theorem tryRead_prefix (b : BlockTy) (w : b.WF) (v : Vals b.fields) (k : Nat) (pre : Bytes) (chk : Bool)
    (hk : k < b.ssize) :
    b.tryRead ⟨pre ++ (b.bytes v).take k, pre.length, chk⟩ =
      if k < 4 then
        (.ok (.notEnough (4 - k)), ⟨pre ++ (b.bytes v).take k, pre.length, chk⟩)
      else
        (.ok (.notEnough (b.ssize - k)), ⟨pre ++ (b.bytes v).take k, pre.length + 4, chk⟩) := by
  have hl := BlockTy.bytes_length w v
  have hrl : ((b.bytes v).take k).length = k := by simp; omega
  have hr : (⟨pre ++ (b.bytes v).take k, pre.length, chk⟩ : Cur).rest = (b.bytes v).take k := by
    simp [Cur.rest]
  by_cases h4 : k < 4
  · rw [if_pos h4, BlockTy.tryRead_short (by simp) (by rw [hr, hrl]; exact h4), hr, hrl]
  · rw [if_neg h4]
    unfold BlockTy.tryRead
    rw [Cur.remaining_ok (by simp), hr, hrl]
    simp only
    rw [if_neg h4, Cur.run_readExact4 (by rw [hr, hrl]; omega), hr]
    have hs : ((b.bytes v).take k).take 4 = b.sig := by
      rw [List.take_take, Nat.min_eq_left (by omega)]
      have := b.bytes_take w v []
      simpa using this
    simp only [hs, ne_eq, not_true_eq_false, if_false, hk, if_true]

/-- **C05 is false of the code.** Once the four signature bytes are there, a short read leaves the
source four bytes further (witness: a block without fields cut after 5 of its 8 bytes). A second
`try_read` then sees the block body as a signature. -/
theorem C05_moves_past_signature : ¬ C05_full := by
  intro h
  have := h ⟨[1, 2, 3, 4], [], false⟩ ⟨rfl, by simp⟩ () 5 [] true (by decide)
  have h2 := tryRead_prefix ⟨[1, 2, 3, 4], [], false⟩ ⟨rfl, by simp⟩ () 5 [] true (by decide)
  have h3 := congrArg (fun q => q.2.pos) (h2.symm.trans this)
  revert h3
  decide +kernel

/-- **C05 (partial).** No byte is lost from the source and more data is requested, never more than what is
missing; the position is kept when fewer than four bytes are there and is advanced by exactly the four
signature bytes otherwise; the reported number is exact in the second case and only completes the
signature in the first. Missing from the full statement: the position reset after the signature. -/
theorem C05_block_short_partial (b : BlockTy) (w : b.WF) (v : Vals b.fields) (k : Nat) (pre : Bytes)
    (chk : Bool) (hk : k < b.ssize) :
    ∃ n p, b.tryRead ⟨pre ++ (b.bytes v).take k, pre.length, chk⟩ =
        (.ok (.notEnough n), ⟨pre ++ (b.bytes v).take k, pre.length + p, chk⟩) ∧
      0 < n ∧ n ≤ b.ssize - k ∧ (k < 4 → p = 0) ∧ (4 ≤ k → p = 4 ∧ n = b.ssize - k) := by
  have h8 : 8 ≤ b.ssize := by rw [BlockTy.ssize]; omega
  rw [tryRead_prefix b w v k pre chk hk]
  by_cases h4 : k < 4
  · exact ⟨4 - k, 0, by rw [if_pos h4]; rfl, by omega, by omega, fun _ => rfl, fun h => by omega⟩
  · exact ⟨b.ssize - k, 4, by rw [if_neg h4], by omega, by omega, fun h => by omega, fun _ => ⟨rfl, rfl⟩⟩

example : 5 < sampleBlock.ssize := by decide

/-! ## C06 -/

/-- **C06 (seekable, buffered and slice readers).** With pairwise distinct signatures: any two orders of
the variants give the same result on every input whatsoever, and the bytes of a written variant are read
as that variant. -/
theorem C06_enum_dispatch_partial (vs : List BlockTy) (hd : DistinctSigs vs) (hw : ∀ b ∈ vs, b.WF) :
    (∀ vs', vs.Perm vs' → ∀ (buf : Bytes) (c : Cur) (cs : Chunks), c.pos ≤ c.data.length →
      enumReadSlice false vs buf = enumReadSlice false vs' buf ∧
      enumTryRead vs c = enumTryRead vs' c ∧
      enumTryBuf vs cs = enumTryBuf vs' cs) ∧
    (∀ b ∈ vs, ∀ (v : Vals b.fields) (s pre : Bytes) (chk : Bool),
      (∃ r, enumReadSlice false vs (b.bytes v ++ s) = .ok r ∧ r.into = ⟨b, v⟩ ∧ r.size = (b.bytes v).length) ∧
      enumTryRead vs ⟨pre ++ (b.bytes v ++ s), pre.length, chk⟩ =
        (.ok (.success ⟨b, v⟩), ⟨pre ++ (b.bytes v ++ s), pre.length + (b.bytes v).length, chk⟩) ∧
      ∀ cs : Chunks, cs.flatten = b.bytes v ++ s → 4 ≤ (Chunks.fill cs).length →
        (enumTryBuf vs cs).1 = .ok (.success ⟨b, v⟩) ∧ (enumTryBuf vs cs).2.flatten = s) := by
  constructor
  · intro vs' p buf c cs hp
    exact ⟨enumReadSlice_perm p hd buf, enumTryRead_perm p hd hp,
      enumTryBuf_perm p hd (fun a ha => (hw a ha).sig_len) cs⟩
  · intro b hb v s pre chk
    have w := hw b hb
    refine ⟨⟨_, enumReadSlice_bytes hd hb w v s, rfl, (BlockTy.bytes_length w v).symm⟩, ?_, ?_⟩
    · rw [BlockTy.bytes_length w]
      exact enumTryRead_bytes hd hb w v (s := s) (by simp) (by simp [Cur.rest])
    · intro cs hr hf
      rw [enumTryBuf_bytes hd (fun a ha => (hw a ha).sig_len) hb w v hf hr]
      refine ⟨rfl, ?_⟩
      simp only
      rw [Chunks.flatten_skip, hr, ← BlockTy.bytes_length w v, List.drop_left]

/-- A second block type, without fields. -/
def otherBlock : BlockTy := ⟨[5, 6, 7, 8], [], false⟩

example : DistinctSigs [sampleBlock, otherBlock] ∧ ∀ b ∈ [sampleBlock, otherBlock], b.WF := by
  refine ⟨by simp [DistinctSigs, sampleBlock, otherBlock], ?_⟩
  intro b hb
  simp only [List.mem_cons, List.not_mem_nil, or_false] at hb
  rcases hb with rfl | rfl
  · exact sampleBlock_wf
  · exact ⟨rfl, by simp [otherBlock]⟩

/-- Full statement of C06 for the plain stream reader `ReadFrom for Block`. -/
def C06_stream_full : Prop := ∀ (vs : List BlockTy), DistinctSigs vs → (∀ b ∈ vs, b.WF) →
  ∀ b ∈ vs, ∀ (v : Vals b.fields) (s : Bytes),
    (enumRead false vs).run (b.bytes v ++ s) = (.ok ⟨b, v⟩, s)

/-- **C06 is false of the plain stream reader**: every variant that does not match has already taken four
bytes, so only the first variant can be read. -/
theorem C06_stream_reader_false : ¬ C06_stream_full := by
  intro h
  have := h [sampleBlock, otherBlock] (by simp [DistinctSigs, sampleBlock, otherBlock])
    (by
      intro b hb
      simp only [List.mem_cons, List.not_mem_nil, or_false] at hb
      rcases hb with rfl | rfl
      · exact sampleBlock_wf
      · exact ⟨rfl, by simp [otherBlock]⟩)
    otherBlock (by simp) () []
  have h2 := congrArg Prod.snd this
  have h3 : ((enumRead false [sampleBlock, otherBlock]).run (otherBlock.bytes () ++ [])).1.map
      (fun _ => ()) = .err .sigDismatch := by decide +kernel
  rw [this] at h3
  cases h3

/-- What the plain stream reader does give: the first variant is read correctly. -/
theorem C06_stream_first (b : BlockTy) (bs : List BlockTy) (w : b.WF) (v : Vals b.fields) (s : Bytes) :
    (enumRead false (b :: bs)).run (b.bytes v ++ s) = (.ok ⟨b, v⟩, s) := by
  simp only [enumRead]
  rw [BlockTy.read_bytes w]

/-! ## C43 -/

/-- The bytes at the positions of `bool` fields are 0 or 1. -/
def BoolsOk : List FTy → Bytes → Prop
  | [], _ => True
  | .bool :: ts, s => (s.take 1 = [0] ∨ s.take 1 = [1]) ∧ BoolsOk ts (s.drop 1)
  | t :: ts, s => BoolsOk ts (s.drop t.size)

theorem BoolsOk.tail {t : FTy} {ts : List FTy} {s : Bytes} (h : BoolsOk (t :: ts) s) :
    BoolsOk ts (s.drop t.size) := by
  cases t with
  | bool => exact h.2
  | num n => exact h
  | blob n => exact h
  | linked e => exact h

theorem field_read_eq {t : FTy} {ts : List FTy} {s : Bytes} (hl : t.size ≤ s.length)
    (hb : BoolsOk (t :: ts) s) : t.read.run s = (t.ofSlice (s.take t.size), s.drop t.size) := by
  cases t with
  | num n =>
    simp only [FTy.read]
    rw [P.bind_ok (P.readExact_ok (n := n.size) hl)]; rfl
  | bool =>
    simp only [FTy.read]
    rw [P.bind_ok (P.readExact_ok (n := 1) hl)]
    simp only [P.pure_run, FTy.ofSlice, FTy.size, Prod.mk.injEq, Out.ok.injEq, and_true]
    rcases hb.1 with e | e <;> rw [e] <;> decide
  | blob n =>
    simp only [FTy.read]
    rw [P.bind_ok (P.readExact_ok (n := n) hl)]; rfl
  | linked e =>
    simp only [FTy.read]
    rw [P.bind_ok (P.readExact_ok (n := 1) hl)]; rfl

theorem fields_read_eq (ts : List FTy) (pre s : Bytes) {off : Nat} (ho : pre.length = off)
    (hl : fieldsSize ts ≤ s.length) (hb : BoolsOk ts s) :
    ((Vals.read ts).run s).1 = (Vals.ofSlice ts (pre ++ s) off).map Prod.fst ∧
    (∀ v, ((Vals.read ts).run s).1 = .ok v → ((Vals.read ts).run s).2 = s.drop (fieldsSize ts)) := by
  induction ts generalizing pre s off with
  | nil => exact ⟨rfl, fun _ _ => rfl⟩
  | cons t ts ih =>
    rw [fieldsSize] at hl
    have hc : cut (pre ++ s) off (off + t.size) = .ok (s.take t.size) := by
      rw [cut_ok (by omega) (by simp; omega)]
      subst ho
      simp [slice]
    have h1 := field_read_eq (by omega) hb
    obtain ⟨i1, i2⟩ := ih (pre ++ s.take t.size) (s.drop t.size) (off := off + t.size)
      (by simp; omega) (by simp; omega) hb.tail
    have e : pre ++ s.take t.size ++ s.drop t.size = pre ++ s := by simp
    rw [e] at i1
    rw [Vals.read, Vals.ofSlice, hc, Out.bind_ok]
    match hx : t.ofSlice (s.take t.size) with
    | .panic => rw [P.bind_run, h1, hx]; exact ⟨rfl, fun _ h => by cases h⟩
    | .err e => rw [P.bind_run, h1, hx]; exact ⟨rfl, fun _ h => by cases h⟩
    | .ok v =>
      rw [P.bind_ok (h1.trans (by rw [hx])), Out.bind_ok]
      match hy : (Vals.read ts).run (s.drop t.size) with
      | (.ok vs, s') =>
        rw [P.bind_ok hy]
        rw [hy] at i1 i2
        obtain ⟨q, e1, e2⟩ := Out.map_eq_ok i1.symm
        rw [e1]
        refine ⟨by simp [← e2], fun _ _ => ?_⟩
        simp only [P.pure_run]
        have := i2 vs rfl
        simp only at this
        rw [this, List.drop_drop, fieldsSize]
      | (.err e, s') =>
        rw [P.bind_err hy]
        rw [hy] at i1
        refine ⟨?_, fun _ h => by cases h⟩
        cases hz : Vals.ofSlice ts (pre ++ s) (off + t.size) with
        | ok q => rw [hz] at i1; cases i1
        | err e' => rw [hz] at i1; simpa using i1
        | panic => rw [hz] at i1; cases i1
      | (.panic, s') =>
        rw [P.bind_run, hy]
        rw [hy] at i1
        refine ⟨?_, fun _ h => by cases h⟩
        cases hz : Vals.ofSlice ts (pre ++ s) (off + t.size) with
        | ok q => rw [hz] at i1; cases i1
        | err e' => rw [hz] at i1; cases i1
        | panic => rfl

/-- Full statement of C43: stream and slice reader accept the same inputs with the same value. -/
def C43_full : Prop := ∀ (b : BlockTy) (_ : b.WF) (buf : Bytes) (v : Vals b.fields),
  ((b.read false).run buf).1 = .ok v ↔ ∃ r, b.readSlice buf false = .ok r ∧ r.into = v

/-- **C43 is false of the code**: a `bool` byte 2 is `true` for the stream reader (`!= 0`) and `false` for
the slice reader (`== 1`); here with a `no_crc` block both accept and disagree. -/
theorem C43_bool_disagree : ¬ C43_full := by
  intro h
  have := (h ⟨[1, 2, 3, 4], [.bool], true⟩ ⟨rfl, by simp [FTy.Lawful]⟩ [1, 2, 3, 4, 2, 0, 0, 0, 0]
    (true, ())).mp rfl
  obtain ⟨r, h1, h2⟩ := this
  have h3 : (BlockTy.readSlice ⟨[1, 2, 3, 4], [.bool], true⟩ [1, 2, 3, 4, 2, 0, 0, 0, 0] false).map
    (fun r => (r.into : Bool × Unit)) = .ok (false, ()) := by decide +kernel
  rw [h1] at h3
  simp only [Out.map_ok, Out.ok.injEq] at h3
  rw [h2] at h3
  injection h3 with h3
  cases h3

/-- **C43 (partial).** The two readers accept the same inputs with the same value whenever the bytes of the
`bool` fields (if any) are 0 or 1; on inputs long enough for the block even the errors agree. -/
theorem C43_readers_agree_partial (b : BlockTy) (w : b.WF) (buf : Bytes)
    (hb : BoolsOk b.fields (buf.drop 4)) :
    (∀ v, ((b.read false).run buf).1 = .ok v ↔ ∃ r, b.readSlice buf false = .ok r ∧ r.into = v) ∧
    (b.ssize ≤ buf.length → ((b.read false).run buf).1 = (b.readSlice buf false).map Referred.into) := by
  have long : b.ssize ≤ buf.length →
      ((b.read false).run buf).1 = (b.readSlice buf false).map Referred.into := by
    intro hl
    rw [BlockTy.ssize] at hl
    have h4 : (buf.take 4).length = 4 := by simp; omega
    have hsp : buf = buf.take 4 ++ buf.drop 4 := by simp
    conv => lhs; rw [hsp, BlockTy.read_false_eq b h4]
    by_cases hs : buf.take 4 = b.sig
    · rw [if_pos hs]
      unfold BlockTy.readSlice
      rw [if_neg (by omega), if_neg (by simp [hs])]
      simp only [Bool.false_eq_true, if_false]
      rw [if_neg (by rw [BlockTy.ssize]; omega), cut_ok (by omega) (by omega), Out.bind_ok]
      simp only [BlockTy.read, if_true, BlockTy.readBody]
      obtain ⟨i1, i2⟩ := fields_read_eq b.fields (buf.take 4) (buf.drop 4) h4 (by simp; omega) hb
      rw [← hsp] at i1
      have np := (Vals.ofSlice_no_panic (ts := b.fields) (buf := buf) (off := 4) (by omega)).2
      match hx : (Vals.read b.fields).run (buf.drop 4) with
      | (.ok v, s') =>
        rw [P.bind_ok hx]
        rw [hx] at i1 i2
        obtain ⟨q, e1, e2⟩ := Out.map_eq_ok i1.symm
        have hs' : s' = (buf.drop 4).drop (fieldsSize b.fields) := i2 v rfl
        have hq := np q e1
        rw [e1, Out.bind_ok, hq, cut_ok (by omega) (by omega), Out.bind_ok, hs',
          P.bind_ok (P.readExact_ok (by simp; omega)), e2]
        have : slice buf (4 + fieldsSize b.fields)
            (4 + fieldsSize b.fields + 4 - (4 + fieldsSize b.fields)) =
            ((buf.drop 4).drop (fieldsSize b.fields)).take 4 := by
          simp only [slice, List.drop_drop]; congr 1; omega
        rw [this]
        split
        · rfl
        · simp [Referred.into]
      | (.err e, s') =>
        rw [P.bind_err hx]
        rw [hx] at i1
        cases hz : Vals.ofSlice b.fields buf 4 with
        | ok q => rw [hz] at i1; cases i1
        | err e' => rw [hz] at i1; simpa using i1
        | panic => rw [hz] at i1; cases i1
      | (.panic, s') =>
        rw [P.bind_run, hx]
        rw [hx] at i1
        cases hz : Vals.ofSlice b.fields buf 4 with
        | ok q => rw [hz] at i1; cases i1
        | err e' => rw [hz] at i1; cases i1
        | panic => rfl
    · rw [if_neg hs]
      unfold BlockTy.readSlice
      rw [if_neg (by omega), if_pos ⟨by simp, hs⟩]; rfl
  refine ⟨fun v => ?_, long⟩
  by_cases hl : b.ssize ≤ buf.length
  · rw [long hl]
    constructor
    · intro h
      obtain ⟨r, h1, h2⟩ := Out.map_eq_ok h
      exact ⟨r, h1, h2⟩
    · rintro ⟨r, h1, rfl⟩
      rw [h1]; rfl
  · constructor
    · intro h
      exfalso
      apply hl
      -- a successful stream read has consumed a whole block
      by_cases h4 : buf.length < 4
      · simp only [BlockTy.read, Bool.false_eq_true, if_false] at h
        rw [P.bind_err (P.readExact_short h4)] at h
        cases h
      · have hl4 : (buf.take 4).length = 4 := by simp; omega
        rw [show buf = buf.take 4 ++ buf.drop 4 by simp, BlockTy.read_false_eq b hl4] at h
        split at h
        · obtain ⟨raw, e1, e2, _⟩ := BlockTy.readBody_inv w
            (s := buf.drop 4) (v := v) (s' := (b.readBody.run (buf.drop 4)).2) (Prod.ext h rfl)
          have := congrArg List.length e1
          simp only [List.length_drop, List.length_append, e2, BlockTy.crc_length] at this
          rw [BlockTy.ssize]; omega
        · cases h
    · rintro ⟨r, h1, _⟩
      exact absurd (BlockTy.readSlice_inv w h1).1 hl

example : BoolsOk sampleBlock.fields ((sampleBlock.bytes sampleVals).drop 4) := by
  simp only [sampleBlock, BoolsOk, FTy.size, NumTy.size]
  refine ⟨Or.inr ?_, trivial⟩
  decide +kernel

/-! ## C44 -/

/-- Full statement of C44: both readers honour `skip_sig`. -/
def C44_full : Prop := ∀ (b : BlockTy) (_ : b.WF) (v : Vals b.fields) (s : Bytes),
  (b.read true).run ((b.bytes v).drop 4 ++ s) = (.ok v, s) ∧
  ∃ r, b.readSlice ((b.bytes v).drop 4 ++ s) true = .ok r ∧ r.into = v

/-- **C44 is false of the slice reader**, for *every* block: given exactly the bytes after the signature it
never succeeds (field offsets still count the signature, so the CRC is cut out of range and the code
panics unless a field conversion fails first). -/
theorem C44_slice_skip_never_ok (b : BlockTy) (w : b.WF) (v : Vals b.fields) :
    ∀ r, b.readSlice ((b.bytes v).drop 4) true ≠ .ok r := by
  intro r h
  have hlen : ((b.bytes v).drop 4).length = fieldsSize b.fields + 4 := by
    rw [List.length_drop, BlockTy.bytes_length w, BlockTy.ssize]; omega
  unfold BlockTy.readSlice at h
  simp only [not_true_eq_false, false_and, if_false, if_true] at h
  split at h
  · cases h
  rw [Out.bind_ok] at h
  obtain ⟨q, e1, e2⟩ := Out.bind_eq_ok h
  obtain ⟨crc, e3, _⟩ := Out.bind_eq_ok e2
  obtain ⟨ho, _⟩ := Vals.ofSlice_canon w.lawful e1
  obtain ⟨_, _, _, hle⟩ := cut_eq_ok e3
  omega

theorem C44_slice_skip_false : ¬ C44_full := by
  intro h
  obtain ⟨r, h1, _⟩ := (h otherBlock ⟨rfl, by simp [otherBlock]⟩ () []).2
  rw [List.append_nil] at h1
  exact C44_slice_skip_never_ok otherBlock ⟨rfl, by simp [otherBlock]⟩ () r h1

/-- In the smallest case the failure is a panic. -/
theorem C44_slice_skip_panics : otherBlock.readSlice ((otherBlock.bytes ()).drop 4) true matches .panic := by
  decide +kernel

/-- **C44 (partial).** The stream reader honours `skip_sig`. Missing: the slice reader. -/
theorem C44_skip_sig_partial (b : BlockTy) (w : b.WF) (v : Vals b.fields) (s : Bytes) :
    (b.read true).run ((b.bytes v).drop 4 ++ s) = (.ok v, s) := by
  have : (b.bytes v).drop 4 = layout b.fields v ++ b.crc v := by
    rw [BlockTy.bytes, List.append_assoc, ← w.sig_len, List.drop_left]
  rw [this, BlockTy.read_true w]

/-! ## C46: the signature is not protected -/

/-- Full statement of C46: the enum readers never turn a damaged block into another variant. -/
def C46_full : Prop := ∀ (vs : List BlockTy), DistinctSigs vs → (∀ b ∈ vs, b.WF ∧ b.noCrc = false) →
  ∀ b ∈ vs, ∀ (v : Vals b.fields) (x : Bytes), Burst4 (b.bytes v) x →
    ∀ r, enumReadSlice false vs x = .ok r → r.into = ⟨b, v⟩

/-- **C46 is false of the code**: the CRC covers the fields only, so four changed signature bytes turn a
block into another variant with the same field layout. -/
theorem C46_signature_confusion : ¬ C46_full := by
  intro h
  have := h [⟨[1, 2, 3, 4], [], false⟩, otherBlock] (by simp [DistinctSigs, otherBlock])
    (by
      intro b hb
      simp only [List.mem_cons, List.not_mem_nil, or_false] at hb
      rcases hb with rfl | rfl
      · exact ⟨⟨rfl, by simp⟩, rfl⟩
      · exact ⟨⟨rfl, by simp [otherBlock]⟩, rfl⟩)
    otherBlock (by simp) () (BlockTy.bytes ⟨[1, 2, 3, 4], [], false⟩ ())
    (by
      have := Burst4.of_split [] otherBlock.sig [1, 2, 3, 4] (otherBlock.crc ()) rfl (by decide)
      exact this)
    _ (enumReadSlice_bytes (b := ⟨[1, 2, 3, 4], [], false⟩) (s := []) (by simp [DistinctSigs, otherBlock])
        (by simp) ⟨rfl, by simp⟩ ())
  have h2 := congrArg (fun (q : BlockVal) => q.1.sig) this
  revert h2
  decide

/-- What a reader may make of a damaged block `v` of type `b`, when the damaged bytes start with `sig`: the original, or a block of another
type, the one whose signature is now in front. -/
def Undamaged (b : BlockTy) (v : Vals b.fields) (sig : Bytes) (r : BlockVal) : Prop :=
  r = ⟨b, v⟩ ∨ (sig ≠ b.sig ∧ r.1.sig = sig)

theorem tag_eq_success {b : BlockTy} {o : Out (Status (Vals b.fields))} {r : BlockVal} (h : tag b o = .ok (.success r)) :
    ∃ q, o = .ok (.success q) ∧ r = ⟨b, q⟩ := by
  match o, h with
  | .ok (.success q), h =>
    injection Out.ok.inj h with h
    exact ⟨q, rfl, h.symm⟩
  | .ok (.notEnough n), h => simp [tag] at h
  | .err e, h => cases h
  | .panic, h => cases h

/-- **C46 (partial).** No damage of up to four consecutive bytes is read by the slice, seekable or buffered reader of the enum as
another value of the same type; as a value of another type only if the signature itself was changed into the one of that type. Missing
from the full statement: that last case (`C46_signature_confusion`). -/
theorem C46_enum_corruption_partial (vs : List BlockTy) (hd : DistinctSigs vs)
    (hw : ∀ b ∈ vs, b.WF ∧ b.noCrc = false) (b : BlockTy) (hb : b ∈ vs) (v : Vals b.fields) (x s : Bytes)
    (hx : Burst4 (b.bytes v) x) :
    (∀ r, enumReadSlice false vs (x ++ s) = .ok r → Undamaged b v (x.take 4) r.into) ∧
    (∀ c r, c.pos ≤ c.data.length → c.rest = x ++ s → (enumTryRead vs c).1 = .ok (.success r) → Undamaged b v (x.take 4) r) ∧
    (∀ cs r, cs.flatten = x ++ s → (enumTryBuf vs cs).1 = .ok (.success r) → Undamaged b v (x.take 4) r) := by
  have w := (hw b hb).1
  have hxl : x.length = b.ssize := by rw [← hx.1, BlockTy.bytes_length w]
  have h4 : 4 ≤ x.length := by rw [hxl, BlockTy.ssize]; omega
  have t4 : (x ++ s).take 4 = x.take 4 := List.take_append_of_le_length h4
  obtain ⟨_, k1, k2, k3⟩ := C04_block_corruption b w (hw b hb).2 v x s hx
  have found : ∀ {a : BlockTy}, bySig vs (x.take 4) = some a → a ≠ b → x.take 4 ≠ b.sig ∧ a.sig = x.take 4 := by
    intro a ha hab
    have := (bySig_eq_some hd).mp ha
    refine ⟨fun e => hab ?_, this.2⟩
    have h2 := (bySig_eq_some hd (x := x.take 4) (b := b)).mpr ⟨hb, e.symm⟩
    rw [ha] at h2
    exact Option.some.inj h2
  refine ⟨fun r h => ?_, fun c r hp hr h => ?_, fun cs r hr h => ?_⟩
  · rw [enumReadSlice_bySig (by simp; omega), t4] at h
    cases ha : bySig vs (x.take 4) with
    | none => rw [ha] at h; cases h
    | some a =>
      rw [ha] at h
      obtain ⟨q, h1, rfl⟩ := Out.map_eq_ok h
      by_cases hab : a = b
      · subst hab
        left
        simp only [BlockRef.into]
        rw [(k1 q h1).1]
      · exact .inr (found ha hab)
  · rw [enumTryRead_bySig hp (by rw [hr]; simp; omega), hr, t4] at h
    cases ha : bySig vs (x.take 4) with
    | none => rw [ha] at h; cases h
    | some a =>
      rw [ha] at h
      obtain ⟨q, h1, rfl⟩ := tag_eq_success h
      by_cases hab : a = b
      · subst hab
        left
        rw [(k2 c q hr h1).1]
      · exact .inr (found ha hab)
  · by_cases hf : 4 ≤ (Chunks.fill cs).length
    · have hft : (Chunks.fill cs).take 4 = x.take 4 := by
        obtain ⟨r, hpre⟩ := Chunks.fill_prefix cs
        rw [← t4, ← hr, ← hpre, List.take_append_of_le_length hf]
      rw [enumTryBuf_bySig (fun a ha => (hw a ha).1.sig_len) hf, hft] at h
      cases ha : bySig vs (x.take 4) with
      | none => rw [ha] at h; cases h
      | some a =>
        rw [ha] at h
        obtain ⟨q, h1, rfl⟩ := tag_eq_success h
        by_cases hab : a = b
        · subst hab
          left
          rw [(k3 cs q hr h1).1]
        · exact .inr (found ha hab)
    · cases vs with
      | nil => cases hb
      | cons a vs =>
        rw [enumTryBuf, BlockTy.tryBuf_short (by omega)] at h
        cases h

/-- The hypotheses are met: two block types, four changed bytes in the fields. -/
example : DistinctSigs [otherBlock, sampleBlock] ∧ (∀ b ∈ [otherBlock, sampleBlock], b.WF ∧ b.noCrc = false) ∧
    ∃ x, Burst4 (sampleBlock.bytes sampleVals) x ∧ x ≠ sampleBlock.bytes sampleVals := by
  refine ⟨by simp [DistinctSigs, sampleBlock, otherBlock], ?_,
    (sampleBlock.bytes sampleVals).take 5 ++ [1, 2, 3, 4] ++ (sampleBlock.bytes sampleVals).drop 9, ?_, by decide +kernel⟩
  · intro b hb
    simp only [List.mem_cons, List.not_mem_nil, or_false] at hb
    rcases hb with rfl | rfl
    · exact ⟨⟨rfl, by simp [otherBlock]⟩, rfl⟩
    · exact ⟨sampleBlock_wf, rfl⟩
  · have : sampleBlock.bytes sampleVals = (sampleBlock.bytes sampleVals).take 5 ++ ((sampleBlock.bytes sampleVals).drop 5).take 4 ++
        (sampleBlock.bytes sampleVals).drop 9 := by decide +kernel
    conv => lhs; rw [this]
    exact Burst4.of_split _ _ _ _ (by decide +kernel) (by decide +kernel)

end Brec.Props
