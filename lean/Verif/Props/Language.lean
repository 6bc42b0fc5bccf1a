import Verif.Grammar
import Verif.Props.Forward
import Verif.Props.Payload
/-!
# Properties C69, C70: which bytes are packets

C70: the bytes each reader accepts, and where the readers differ. C69: how the bytes that are passed on relate to the bytes that came in.
-/

namespace Brec.Props

open Brec Packet Rd

variable {vs : List BlockTy} {ps : List PayloadTy}

/-! ## What stands for a packet -/

/-- `x` stands for the packet `p`, with `size` in its header: header with its checksum and any flag byte (1 if and only if there is a
payload), then bytes that stand for the blocks, then the payload. `view`: with the zero-copy readers' idea of a `bool`. -/
def Stands (view : Bool) (p : Packet (blockEnum vs) (PEnum.ops ps)) (size : Nat) (x : Bytes) : Prop :=
  ∃ (flag : Byte) (bl pb : Bytes),
    x = PacketHeader.raw size bl.length flag (PacketHeader.crcOf size bl.length (flag == 1)) ++ (bl ++ pb) ∧
    size < 2 ^ 64 ∧ bl.length < 2 ^ 64 ∧ (flag == 1) = p.payload.isSome ∧
    AllTook (EnumTook vs view) p.blocks bl ∧ PartTook (PTook (ps ++ [bytesTy, stringTy])) p.payload pb

theorem stands_iff {view : Bool} {p : Packet (blockEnum vs) (PEnum.ops ps)} {size : Nat} {x : Bytes} :
    Stands view p size x ↔ ∃ (h : PacketHeader) (flag : Byte) (bl pb : Bytes), h.WF ∧ h.payload = (flag == 1) ∧ h.size = size ∧
      x = h.rawOf flag ++ (bl ++ pb) ∧ Taken (EnumTook vs view) (PTook (ps ++ [bytesTy, stringTy])) h p bl pb := by
  constructor
  · rintro ⟨flag, bl, pb, rfl, hs, hb, hf, h1, h2⟩
    exact ⟨⟨size, bl.length, flag == 1, leNat (PacketHeader.crcOf size bl.length (flag == 1))⟩, flag, bl, pb, ⟨hs, hb, rfl⟩, rfl, rfl,
      rfl, h1, h2, rfl, hf⟩
  · rintro ⟨h, flag, bl, pb, w, hf, rfl, rfl, t⟩
    refine ⟨flag, bl, pb, ?_, w.size_lt, ?_, ?_, t.blocks, t.payload⟩
    · rw [PacketHeader.rawOf, hf, t.blocksLen]
    · rw [← t.blocksLen]; exact w.blocks_lt
    · rw [← hf]; exact t.flag

/-! ## C70 -/

/-- Block types with distinct signatures of four bytes. -/
structure Signed (vs : List BlockTy) : Prop where
  distinct : DistinctSigs vs
  four : ∀ b ∈ vs, b.sig.length = 4

variable (hv : Signed vs) {p : Packet (blockEnum vs) (PEnum.ops ps)}
include hv

/-- **C70**, the language of `ReadFrom`: bytes that stand for the packet, then filler up to the size announced. -/
theorem C70_read {s s' : Bytes} : (Packet.read (PEnum.ops ps)).run s = (.ok p, s') ↔
    ∃ size x junk, Stands false p size x ∧ s = x ++ junk ++ s' ∧ x.length + junk.length = 29 + size ∧ size < 2 ^ 63 ∧
      p.blocks.length ≤ 256 := by
  constructor
  · intro e
    obtain ⟨h, flag, bl, pb, junk, hf, w, rfl, hs, t, hn, hm⟩ := read_took (blockEnum_inv hv.four) (PEnum.ops_inv ps) e
    refine ⟨h.size, h.rawOf flag ++ (bl ++ pb), junk, stands_iff.mpr ⟨h, flag, bl, pb, w, hf, rfl, rfl, t⟩, ?_, ?_, hm, hn⟩
    · simp [PacketHeader.rawOf]
    · simp only [List.length_append, PacketHeader.rawOf_length, HSIZE] at hs ⊢; omega
  · rintro ⟨size, x, junk, hx, rfl, hs, hm, hn⟩
    obtain ⟨h, flag, bl, pb, w, hf, rfl, rfl, t⟩ := stands_iff.mp hx
    simp only [List.length_append, PacketHeader.rawOf_length, HSIZE] at hs
    have := Packet.read_of (blockEnum_fwd hv.distinct hv.four) (PEnum.ops_fwd ps) w hf (junk := junk)
      (by simp only [List.length_append]; omega) t hn hm s'
    simpa using this

/-- **C70**, the language of `filtered` (no rules): the same with the other idea of a `bool`, and without a limit on the blocks. -/
theorem C70_filtered {s s' : Bytes} {n : Nat} :
    (Packet.filtered (PEnum.ops ps) ([] : Rules (blockEnum vs).BR (Packet (blockEnum vs) (PEnum.ops ps)))).run s = (.ok (.accepted n p), s') ↔
    ∃ x junk, Stands true p n x ∧ s = x ++ junk ++ s' ∧ x.length + junk.length = 29 + n ∧ n < 2 ^ 63 := by
  have fwd : ∀ {n x junk}, Stands true p n x → x.length + junk.length = 29 + n → n < 2 ^ 63 →
      (Packet.filtered (PEnum.ops ps) ([] : Rules (blockEnum vs).BR (Packet (blockEnum vs) (PEnum.ops ps)))).run (x ++ junk ++ s') =
        (.ok (.accepted n p), s') := by
    intro n x junk hx hs hm
    obtain ⟨h, flag, bl, pb, w, hf, rfl, rfl, t⟩ := stands_iff.mp hx
    simp only [List.length_append, PacketHeader.rawOf_length, HSIZE] at hs
    have := Packet.filtered_of (blockEnum_fwd hv.distinct hv.four) (PEnum.ops_fwd ps) w hf (junk := junk)
      (by simp only [List.length_append]; omega) t hm s'
    simpa using this
  constructor
  · intro e
    obtain ⟨h, flag, bl, pb, junk, hf, w, rfl, hs, t, hm⟩ := filtered_took (blockEnum_inv hv.four) (PEnum.ops_inv ps) e
    have hx : Stands true p h.size (h.rawOf flag ++ (bl ++ pb)) := stands_iff.mpr ⟨h, flag, bl, pb, w, hf, rfl, rfl, t⟩
    have hl : (h.rawOf flag ++ (bl ++ pb)).length + junk.length = 29 + h.size := by
      simp only [List.length_append, PacketHeader.rawOf_length, HSIZE] at hs ⊢; omega
    have e' := fwd hx hl hm
    have hb : PacketHeader.raw h.size h.blocksLen flag (PacketHeader.crcOf h.size h.blocksLen h.payload) ++ (bl ++ pb ++ junk) ++ s' =
        h.rawOf flag ++ (bl ++ pb) ++ junk ++ s' := by simp [PacketHeader.rawOf]
    rw [hb] at e ⊢
    rw [e] at e'
    simp only [Prod.mk.injEq, Out.ok.injEq, Look.accepted.injEq, and_true] at e'
    subst e'
    exact ⟨_, junk, hx, rfl, hl, hm⟩
  · rintro ⟨x, junk, hx, rfl, hs, hm⟩
    exact fwd hx hs hm

/-- **C70**, the language of `TryReadFrom`: bytes that stand for the packet. The size in the header only has to be no more than the bytes there
are, header included. -/
theorem C70_tryRead {c c' : Cur} (hp : c.pos ≤ c.data.length) : Packet.tryRead (PEnum.ops ps) c = (.ok (.success p), c') ↔
    ∃ size x s', Stands false p size x ∧ c.rest = x ++ s' ∧ c' = { c with pos := c.pos + x.length } ∧ size ≤ c.rest.length ∧
      p.blocks.length ≤ 256 := by
  have fwd : ∀ {size x s'}, Stands false p size x → c.rest = x ++ s' → size ≤ c.rest.length → p.blocks.length ≤ 256 →
      Packet.tryRead (PEnum.ops ps) c = (.ok (.success p), { c with pos := c.pos + x.length }) := by
    intro size x s' hx hr hs hn
    obtain ⟨h, flag, bl, pb, w, hf, rfl, rfl, t⟩ := stands_iff.mp hx
    rw [Packet.tryRead_of (blockEnum_fwd hv.distinct hv.four) (PEnum.ops_fwd ps) w hf t hn hp hr hs]
    simp [PacketHeader.rawOf_length]
  constructor
  · intro e
    obtain ⟨h, flag, bl, pb, hf, w, hr, t, hn, hs⟩ := tryRead_took (blockEnum_inv hv.four) (PEnum.ops_inv ps) hp e
    have hx : Stands false p h.size (h.rawOf flag ++ (bl ++ pb)) := stands_iff.mpr ⟨h, flag, bl, pb, w, hf, rfl, rfl, t⟩
    have e' := fwd hx hr hs hn
    rw [e] at e'
    injection e' with _ e'
    exact ⟨_, _, _, hx, hr, e', hs, hn⟩
  · rintro ⟨size, x, s', hx, hr, rfl, hs, hn⟩
    exact fwd hx hr hs hn

/-- **C70**, the language of `TryReadFromBuffered` with all bytes in its buffer: that of `TryReadFrom`. -/
theorem C70_tryBuf {s s' : Bytes} : (∃ cs', Packet.tryBuf (PEnum.ops ps) [s] = (.ok (.success p), cs') ∧ cs'.flatten = s') ↔
    ∃ size x, Stands false p size x ∧ s = x ++ s' ∧ size ≤ s.length ∧ p.blocks.length ≤ 256 := by
  constructor
  · rintro ⟨cs', e, rfl⟩
    obtain ⟨h, flag, bl, pb, hf, w, hr, t, hn, hs⟩ := tryBuf_took (blockEnum_inv hv.four) (PEnum.ops_inv ps) e
    refine ⟨h.size, h.rawOf flag ++ (bl ++ pb), stands_iff.mpr ⟨h, flag, bl, pb, w, hf, rfl, rfl, t⟩, ?_, ?_, hn⟩
    · rw [PacketHeader.rawOf]; simpa using hr
    · rwa [Chunks.fill_single] at hs
  · rintro ⟨size, x, hx, rfl, hs, hn⟩
    obtain ⟨h, flag, bl, pb, w, hf, rfl, rfl, t⟩ := stands_iff.mp hx
    exact Packet.tryBuf_of (blockEnum_fwd hv.distinct hv.four) (PEnum.ops_fwd ps) w hf t hn (s := s') (by simp)
      (by rw [Chunks.fill_single]; exact hs) (by rw [Chunks.fill_single]; simp [PacketHeader.rawOf_length])

omit hv in
theorem getPos_zero {s : Bytes} (hs : PACKET_SIG <+: s) (h8 : 8 < s.length) : getPos s = some 0 := by
  cases s with
  | nil => simp at h8
  | cons b s =>
    rw [getPos, if_pos h8, if_pos (List.isPrefixOf_iff_prefix.mpr hs)]

omit hv in
theorem consume_bytes (n : Nat) (s : Bytes) : (Events.consume n [some s]).bytes = s.drop n := by
  show Events.bytes (if n = 0 then [some s] else if n < s.length then [some (s.drop n)] else []) = _
  split
  · rename_i h; simp [Events.bytes, h]
  · split
    · simp [Events.bytes]
    · rw [List.drop_eq_nil_of_le (by omega)]; rfl

/-- **C70**, the language of `PacketBufReader` (no rules) at the beginning of a packet that is wholly in the buffer of its source: that of
`filtered`, up to 255 blocks. -/
theorem C70_reader {s s' : Bytes} {log : List Bytes} {chk : Bool} (hl : s.length < 2 ^ 63) :
    (∃ r', Rd.read ([] : Rules (blockEnum vs).BR (Packet (blockEnum vs) (PEnum.ops ps))) chk ⟨[some s], .empty, [], log⟩ =
      (.ok (.found p), r') ∧ r'.src.bytes = s') ∧ PACKET_SIG <+: s ↔
    ∃ size x junk, Stands true p size x ∧ s = x ++ junk ++ s' ∧ x.length + junk.length = 29 + size ∧ p.blocks.length ≤ 255 := by
  have key : ∀ h rest, PacketHeader.read.run s = (.ok h, rest) → h.size ≤ rest.length →
      Rd.read ([] : Rules (blockEnum vs).BR (Packet (blockEnum vs) (PEnum.ops ps))) chk ⟨[some s], .empty, [], log⟩ =
        finish [] h (rest.take h.size) (29 + h.size) ⟨[some s], .empty, [], log⟩ := by
    intro h rest e hle
    have hsl := PacketHeader.readSlice_of_read e
    obtain ⟨flag, hf, w, hs⟩ := PacketHeader.read_eq_ok e
    have hb : PacketHeader.raw h.size h.blocksLen flag (PacketHeader.crcOf h.size h.blocksLen h.payload) = h.rawOf flag := rfl
    rw [hb] at hs
    have hlen : s.length = 29 + rest.length := by rw [hs, List.length_append, PacketHeader.rawOf_length]; rfl
    have hsig : PACKET_SIG <+: s := by
      refine ⟨leBytes 8 h.size ++ leBytes 8 h.blocksLen ++ [flag] ++ PacketHeader.crcOf h.size h.blocksLen h.payload ++ rest, ?_⟩
      rw [hs]
      simp [PacketHeader.rawOf, PacketHeader.raw]
    have hh : readHeader s = .ok (.found h 0 29) := by
      unfold readHeader
      rw [getPos_zero hsig (by omega)]
      simp only [List.drop_zero, isNotEnough, HSIZE]
      rw [if_pos (by omega)]
      simp only
      rw [hsl]; rfl
    have hdrop : slice s 29 h.size = rest.take h.size := by
      unfold slice
      rw [hs, ← show (h.rawOf flag).length = 29 from PacketHeader.rawOf_length h flag, List.drop_left]
    cases hsc : s with
    | nil => rw [hsc] at hlen; simp at hlen; omega
    | cons a t =>
      rw [← hsc]
      unfold Rd.read
      simp only
      unfold readEmpty
      have hfill : Events.fill [some s] = (some s, [some s]) := by rw [hsc]; rfl
      rw [hfill]
      rw [hsc]
      simp only
      rw [← hsc, if_neg (by simp only [HSIZE]; omega), hh]
      simp only [ignoreTo, gt_iff_lt, Nat.lt_irrefl, if_false]
      rw [if_neg (by omega), if_neg (by omega), hdrop]
  constructor
  · rintro ⟨⟨r', e, rfl⟩, hsig⟩
    have hs0 : s ≠ [] := by rintro rfl; simp [PACKET_SIG] at hsig
    have hfill : Events.fill [some s] = (some s, [some s]) := by
      cases s with
      | nil => exact absurd rfl hs0
      | cons a t => rfl
    by_cases h29 : s.length < 29
    · exfalso
      unfold Rd.read at e
      simp only at e
      unfold readEmpty at e
      rw [hfill] at e
      cases s with
      | nil => exact hs0 rfl
      | cons a t =>
        simp only at e
        rw [if_pos (by simp only [HSIZE]; exact h29)] at e
        cases e
    · have hh : readHeader s = (PacketHeader.readSlice s).map fun h => .found h 0 29 := by
        unfold readHeader
        rw [getPos_zero hsig (by omega)]
        simp only [List.drop_zero, isNotEnough, HSIZE]
        rw [if_pos (by omega)]
      cases hsl : PacketHeader.readSlice s with
      | err x =>
        exfalso
        unfold Rd.read at e
        simp only at e
        unfold readEmpty at e
        rw [hfill] at e
        cases s with
        | nil => exact hs0 rfl
        | cons a t =>
          simp only at e
          rw [if_neg (by simp only [HSIZE]; exact h29), hh, hsl] at e
          cases e
      | panic =>
        exfalso
        unfold Rd.read at e
        simp only at e
        unfold readEmpty at e
        rw [hfill] at e
        cases s with
        | nil => exact hs0 rfl
        | cons a t =>
          simp only at e
          rw [if_neg (by simp only [HSIZE]; exact h29), hh, hsl] at e
          cases e
      | ok h =>
        have hrd := PacketHeader.readSlice_eq_read hsl
        have hle : h.size ≤ (s.drop HSIZE).length := by
          refine Decidable.byContradiction fun hgt => ?_
          rw [List.length_drop] at hgt
          simp only [HSIZE] at hgt
          unfold Rd.read at e
          simp only at e
          unfold readEmpty at e
          rw [hfill] at e
          cases s with
          | nil => exact hs0 rfl
          | cons a t =>
            simp only at e
            rw [if_neg (by simp only [HSIZE]; exact h29), hh, hsl] at e
            simp only [Out.map_ok] at e
            split at e
            · cases e
            · rw [if_pos (by omega)] at e
              cases e
        rw [key h _ hrd hle] at e
        obtain ⟨flag, hf, w, hs⟩ := PacketHeader.read_eq_ok hrd
        have hb : PacketHeader.raw h.size h.blocksLen flag (PacketHeader.crcOf h.size h.blocksLen h.payload) = h.rawOf flag := rfl
        rw [hb] at hs
        generalize s.drop HSIZE = rest at *
        have hp1 : (parse ([] : Rules (blockEnum vs).BR (Packet (blockEnum vs) (PEnum.ops ps))) h (rest.take h.size)).1 = .ok (.found p) := by
          unfold finish at e
          simp only at e
          split at e <;> exact congrArg Prod.fst e
        obtain ⟨bl, pb, junk, hbuf, t, hn⟩ := parse_took (blockEnum_inv hv.four) (PEnum.ops_inv ps) (Prod.ext hp1 rfl)
        have hfin := Rd.parse_of (blockEnum_fwd hv.distinct hv.four) (PEnum.ops_fwd ps) t hn junk
        unfold finish at e
        rw [hbuf, hfin] at e
        simp only [Prod.mk.injEq, true_and] at e
        subst e
        have hjl : (bl ++ pb ++ junk).length = h.size := by rw [← hbuf, List.length_take]; omega
        refine ⟨h.size, h.rawOf flag ++ (bl ++ pb), junk, stands_iff.mpr ⟨h, flag, bl, pb, w, hf, rfl, rfl, t⟩, ?_, ?_, hn⟩
        · have h1 : (Events.consume (29 + h.size) [some s]).bytes = rest.drop h.size := by
            rw [consume_bytes]
            conv => lhs; rw [hs]
            rw [← List.drop_drop, ← show (h.rawOf flag).length = 29 from PacketHeader.rawOf_length h flag, List.drop_left]
          simp only
          rw [h1]
          conv => lhs; rw [hs, ← List.take_append_drop h.size rest, hbuf]
          simp
        · simp only [List.length_append, PacketHeader.rawOf_length, HSIZE] at hjl ⊢; omega
  · rintro ⟨size, x, junk, hx, rfl, hs, hn⟩
    obtain ⟨h, flag, bl, pb, w, hf, rfl, rfl, t⟩ := stands_iff.mp hx
    simp only [List.length_append, PacketHeader.rawOf_length, HSIZE] at hs
    have hrd := PacketHeader.read_rawOf w hf (bl ++ pb ++ junk ++ s')
    have hj : (bl ++ pb ++ junk).length = h.size := by simp only [List.length_append]; omega
    have htake : (bl ++ pb ++ junk ++ s').take h.size = bl ++ pb ++ junk := by rw [← hj, List.take_left]
    have hsh : h.rawOf flag ++ (bl ++ pb) ++ junk ++ s' = h.rawOf flag ++ (bl ++ pb ++ junk ++ s') := by simp
    refine ⟨⟨⟨Events.consume (29 + h.size) [some (h.rawOf flag ++ (bl ++ pb) ++ junk ++ s')], .empty, [], log⟩, ?_, ?_⟩, ?_⟩
    · rw [key h _ (by rw [hsh]; exact hrd) (by rw [List.length_append, hj]; omega), htake]
      unfold finish
      rw [Rd.parse_of (blockEnum_fwd hv.distinct hv.four) (PEnum.ops_fwd ps) t hn junk]
    · simp only [consume_bytes]
      rw [hsh, ← List.drop_drop, ← show (h.rawOf flag).length = 29 from PacketHeader.rawOf_length h flag, List.drop_left, ← hj, List.drop_left]
    · refine ⟨leBytes 8 h.size ++ leBytes 8 h.blocksLen ++ [flag] ++ PacketHeader.crcOf h.size h.blocksLen h.payload ++
        (bl ++ pb ++ junk ++ s'), ?_⟩
      rw [hsh]
      simp [PacketHeader.rawOf, PacketHeader.raw]

/-- **C70**, what holds between the readers. (1) What `ReadFrom` returns, `TryReadFrom` and `TryReadFromBuffered` return too; they stop at the same
byte unless the packet was padded, and then before it. (2) `TryReadFrom` and `TryReadFromBuffered` agree in everything. (3) What
`PacketBufReader` finds at the beginning of its buffer, `filtered` accepts, and both stop at the same byte. -/
theorem C70_agree_partial :
    (∀ s s', (Packet.read (PEnum.ops ps)).run s = (.ok p, s') → ∀ chk, ∃ x junk, s = x ++ (junk ++ s') ∧
      Packet.tryRead (PEnum.ops ps) ⟨s, 0, chk⟩ = (.ok (.success p), ⟨s, x.length, chk⟩) ∧
      (∃ cs', Packet.tryBuf (PEnum.ops ps) [s] = (.ok (.success p), cs') ∧ cs'.flatten = junk ++ s')) ∧
    (∀ (c : Cur) (s' : Bytes), c.pos ≤ c.data.length →
      ((∃ c', Packet.tryRead (PEnum.ops ps) c = (.ok (.success p), c') ∧ c'.rest = s') ↔
        ∃ cs', Packet.tryBuf (PEnum.ops ps) [c.rest] = (.ok (.success p), cs') ∧ cs'.flatten = s')) ∧
    (∀ (s s' : Bytes) (chk : Bool) (log : List Bytes), s.length < 2 ^ 63 → PACKET_SIG <+: s →
      ((∃ r', Rd.read ([] : Rules (blockEnum vs).BR (Packet (blockEnum vs) (PEnum.ops ps))) chk ⟨[some s], .empty, [], log⟩ =
          (.ok (.found p), r') ∧ r'.src.bytes = s') ↔
        p.blocks.length ≤ 255 ∧ ∃ n, (Packet.filtered (PEnum.ops ps)
          ([] : Rules (blockEnum vs).BR (Packet (blockEnum vs) (PEnum.ops ps)))).run s = (.ok (.accepted n p), s'))) := by
  refine ⟨fun s s' e chk => ?_, fun c s' hp => ?_, fun s s' chk log hl hsig => ?_⟩
  · obtain ⟨size, x, junk, hx, rfl, hs, hm, hn⟩ := (C70_read hv).mp e
    have hle : size ≤ (x ++ junk ++ s').length := by
      have h29 : 29 ≤ x.length := by
        obtain ⟨h, flag, bl, pb, _, _, _, rfl, _⟩ := stands_iff.mp hx
        rw [List.length_append, PacketHeader.rawOf_length, HSIZE]; omega
      simp only [List.length_append]; omega
    refine ⟨x, junk, by simp, ?_, ?_⟩
    · refine (C70_tryRead hv (by simp)).mpr ⟨size, x, junk ++ s', hx, by simp [Cur.rest], by simp, ?_, hn⟩
      simpa [Cur.rest] using hle
    · exact (C70_tryBuf hv).mpr ⟨size, x, hx, by simp, hle, hn⟩
  · constructor
    · rintro ⟨c', e, rfl⟩
      obtain ⟨size, x, s', hx, hr, rfl, hs, hn⟩ := (C70_tryRead hv hp).mp e
      exact (C70_tryBuf hv).mpr ⟨size, x, hx, by rw [Cur.rest_add hr]; exact hr, hs, hn⟩
    · intro h
      obtain ⟨size, x, hx, hr, hs, hn⟩ := (C70_tryBuf hv).mp h
      exact ⟨_, (C70_tryRead hv hp).mpr ⟨size, x, s', hx, hr, rfl, hs, hn⟩, Cur.rest_add hr⟩
  · constructor
    · intro h
      obtain ⟨size, x, junk, hx, rfl, hs, hn⟩ := (C70_reader hv hl).mp ⟨h, hsig⟩
      refine ⟨hn, size, (C70_filtered hv).mpr ⟨x, junk, hx, rfl, hs, ?_⟩⟩
      have h29 : 29 ≤ x.length := by
        obtain ⟨h, flag, bl, pb, _, _, _, rfl, _⟩ := stands_iff.mp hx
        rw [List.length_append, PacketHeader.rawOf_length, HSIZE]; omega
      simp only [List.length_append] at hl
      omega
    · rintro ⟨hn, n, e⟩
      obtain ⟨x, junk, hx, rfl, hs, _⟩ := (C70_filtered hv).mp e
      exact ((C70_reader hv hl).mpr ⟨n, x, junk, hx, rfl, hs, hn⟩).1

omit hv in
/-- Without `bool` fields there is only one idea of what bytes stand for. -/
theorem means_view {ts : List FTy} (h : ∀ t ∈ ts, t ≠ .bool) {a b : Bool} {raw : Bytes} {v : Vals ts} (hm : Vals.Means a ts raw v) :
    Vals.Means b ts raw v := by
  induction ts generalizing raw with
  | nil => exact hm
  | cons t ts ih =>
    obtain ⟨x, y, rfl, h1, h2⟩ := hm
    refine ⟨x, y, rfl, ?_, ih (fun t ht => h t (by simp [ht])) h2⟩
    cases t with
    | bool => exact absurd rfl (h .bool (by simp))
    | num n => exact h1
    | blob n => exact h1
    | linked e => exact h1

omit hv in
theorem stands_view (h : ∀ b ∈ vs, ∀ t ∈ b.fields, t ≠ .bool) {a b : Bool} {size : Nat} {x : Bytes} (hx : Stands a p size x) :
    Stands b p size x := by
  obtain ⟨flag, bl, pb, h1, h2, h3, h4, h5, h6⟩ := hx
  refine ⟨flag, bl, pb, h1, h2, h3, h4, ?_, h6⟩
  clear h1 h3 h4 h6
  generalize p.blocks = bs at h5
  induction h5 with
  | nil => exact .nil
  | cons g _ ih =>
    obtain ⟨hm, raw, rfl, hr⟩ := g
    exact .cons ⟨hm, raw, rfl, means_view (h _ hm) hr⟩ ih

/-- **C70**, in a protocol without `bool` fields: `ReadFrom` and `filtered` take the same bytes for the same packets and stop at the same byte, up
to 256 blocks. -/
theorem C70_no_bool_partial (hb : ∀ b ∈ vs, ∀ t ∈ b.fields, t ≠ .bool) (s s' : Bytes) :
    (Packet.read (PEnum.ops ps)).run s = (.ok p, s') ↔ p.blocks.length ≤ 256 ∧ ∃ n, (Packet.filtered (PEnum.ops ps)
      ([] : Rules (blockEnum vs).BR (Packet (blockEnum vs) (PEnum.ops ps)))).run s = (.ok (.accepted n p), s') := by
  constructor
  · intro e
    obtain ⟨size, x, junk, hx, rfl, hs, hm, hn⟩ := (C70_read hv).mp e
    exact ⟨hn, size, (C70_filtered hv).mpr ⟨x, junk, stands_view hb hx, rfl, hs, hm⟩⟩
  · rintro ⟨hn, n, e⟩
    obtain ⟨x, junk, hx, rfl, hs, hm⟩ := (C70_filtered hv).mp e
    exact (C70_read hv).mpr ⟨n, x, junk, stands_view hb hx, rfl, hs, hm, hn⟩

omit hv

/-! ## What the writer makes -/

theorem means_layout {ts : List FTy} (h : ∀ t ∈ ts, t.Lawful) (view : Bool) (v : Vals ts) : Vals.Means view ts (layout ts v) v := by
  induction ts with
  | nil => rfl
  | cons t ts ih =>
    refine ⟨t.toBytes v.1, layout ts v.2, rfl, ?_, ih (fun t ht => h t (by simp [ht])) v.2⟩
    cases t with
    | num n => rfl
    | blob n => rfl
    | bool => exact ⟨_, rfl, by rcases v.1 <;> cases view <;> rfl⟩
    | linked e => exact ⟨_, rfl, h (.linked e) (by simp) v.1⟩

theorem _root_.Brec.PVal.At.mem {T : PayloadTy} {u : T.Val} {Ts : List PayloadTy} {w : PVal Ts} (h : PVal.At T u Ts w) : T ∈ Ts := by
  induction h with
  | here => simp
  | there _ _ _ _ _ ih => simp [ih]

/-- The parts of what is written stand for the packet under any header that fits. -/
theorem declared_taken (d : Declared p) (view : Bool) : ∃ (h : PacketHeader) (bl pb : Bytes), p.header = .ok h ∧ h.WF ∧ h.size < 2 ^ 63 ∧
    h.size = (bl ++ pb).length ∧ h.blocksLen = bl.length ∧ h.payload = p.payload.isSome ∧ p.serialize = .ok (h.bytes ++ (bl ++ pb)) ∧
    ∀ h', h'.blocksLen = bl.length → h'.payload = p.payload.isSome →
      Taken (EnumTook vs view) (PTook (ps ++ [bytesTy, stringTy])) h' p bl pb := by
  obtain ⟨h, pb, sh⟩ := d.ok.shape
  have hser := serialize_eq d.ok.blocks sh
  refine ⟨h, d.spec.encs p.blocks, pb, sh.header, sh.wf, sh.small, by rw [sh.size, List.length_append], sh.blocksLen, sh.flag,
    by rw [hser, List.append_assoc], fun h' h1 h2 => ⟨?_, ?_, h1, h2⟩⟩
  · have := d.blocks
    generalize p.blocks = bs at this
    induction bs with
    | nil => exact .nil
    | cons b bs ih =>
      rw [BlockSpec.encs_cons]
      refine .cons ⟨this b (by simp), layout b.1.fields b.2, rfl, ?_⟩ (ih fun b hb => this b (by simp [hb]))
      exact means_layout (d.wf _ (this b (by simp))).lawful view b.2
  · have hpay := d.payload
    have hpt := sh.part
    generalize p.payload = pl at hpay hpt
    cases hpt with
    | none => rfl
    | @some v ph x g =>
      obtain ⟨T, u, y, c, ha, gT, hc⟩ := hpay v rfl
      have g' := PEnum.ops_good ha gT hc
      have e := g.parts_eq
      rw [g'.parts_eq] at e
      injection e with e
      injection e with e1 e2
      subst e2
      refine ⟨_, y, by rw [← e1], g'.len_lt, T, u, ?_, ha, rfl, rfl, gT.decode_eq, gT.crc_eq⟩
      exact ha.mem

/-- A header with its checksum. -/
def headerFor (size blocksLen : Nat) (payload : Bool) : PacketHeader :=
  ⟨size, blocksLen, payload, leNat (PacketHeader.crcOf size blocksLen payload)⟩

theorem headerFor_wf {size blocksLen : Nat} {payload : Bool} (h1 : size < 2 ^ 64) (h2 : blocksLen < 2 ^ 64) :
    (headerFor size blocksLen payload).WF := ⟨h1, h2, rfl⟩

theorem rawOf_flagByte {h : PacketHeader} (w : h.WF) : h.rawOf (flagByte h.payload) = h.bytes := by
  have hc : leBytes 4 h.crc = PacketHeader.crcOf h.size h.blocksLen h.payload := by
    rw [w.crc_eq]; exact leBytes_leNat' (PacketHeader.crcOf_length ..)
  rw [PacketHeader.rawOf, PacketHeader.raw, PacketHeader.bytes, hc]

theorem flagByte_one (b : Bool) : b = (flagByte b == 1) := by cases b <;> rfl

theorem Declared.signed (d : Declared p) : Signed vs := ⟨d.distinct, fun b hb => (d.wf b hb).sig_len⟩

/-- What is written, with another size in its header. -/
theorem resized (d : Declared p) (view : Bool) : ∃ w : Bytes, p.serialize = .ok w ∧ 29 ≤ w.length ∧ w.length < 2 ^ 63 + 29 ∧
    ∀ size, size < 2 ^ 64 → ∃ x, x.length = w.length ∧ x.drop 29 = w.drop 29 ∧ Stands view p size x ∧
      PacketHeader.read.run x = (.ok (headerFor size ((p.blocks.map (blockEnum vs).size).sum) p.payload.isSome), x.drop 29) := by
  obtain ⟨h, bl, pb, hh, w, hm, hs, hb, hf, hser, ht⟩ := declared_taken d view
  have hl : (h.bytes ++ (bl ++ pb)).length = 29 + h.size := by rw [List.length_append, ← hs]; simp [HSIZE]
  have hbl : (p.blocks.map (blockEnum vs).size).sum = bl.length :=
    AllTook.sum (blockEnum_inv d.signed.four).length (ht h hb hf).blocks
  have hlt : bl.length < 2 ^ 64 := by rw [List.length_append] at hs; omega
  refine ⟨_, hser, by omega, by omega, fun size h64 => ?_⟩
  have hw := headerFor_wf (payload := p.payload.isSome) h64 hlt
  have hlr := (headerFor size bl.length p.payload.isSome).rawOf_length (flagByte p.payload.isSome)
  refine ⟨(headerFor size bl.length p.payload.isSome).rawOf (flagByte p.payload.isSome) ++ (bl ++ pb), ?_, ?_, ?_, ?_⟩
  · simp [PacketHeader.rawOf_length]
  · rw [List.drop_left' (by rw [hlr]; rfl), List.drop_left' (by simp [HSIZE])]
  · exact stands_iff.mpr ⟨_, _, bl, pb, hw, flagByte_one _, rfl, rfl, ht _ rfl rfl⟩
  · rw [hbl, List.drop_left' (by rw [hlr]; rfl)]
    exact PacketHeader.read_rawOf hw (flagByte_one _) _

/-- **C70**, what does not hold: where a packet ends. A packet `q` can be hidden in the padding of a packet `p`: `ReadFrom` sees one packet, `TryReadFrom`
and `TryReadFromBuffered` see two. -/
theorem C70_hidden {q : Packet (blockEnum vs) (PEnum.ops ps)} (dp : Declared p) (dq : Declared q) (hp : p.blocks.length ≤ 256)
    (hq : q.blocks.length ≤ 256) {wp wq : Bytes} (ep : p.serialize = .ok wp) (eq : q.serialize = .ok wq)
    (hm : wp.length + wq.length < 2 ^ 63) (chk : Bool) :
    ∃ s, (Packet.read (PEnum.ops ps)).run s = (.ok p, []) ∧ s.length = wp.length + wq.length ∧
      Packet.tryRead (PEnum.ops ps) ⟨s, 0, chk⟩ = (.ok (.success p), ⟨s, wp.length, chk⟩) ∧
      Packet.tryRead (PEnum.ops ps) ⟨s, wp.length, chk⟩ = (.ok (.success q), ⟨s, s.length, chk⟩) := by
  obtain ⟨w, e, h29, _, hx⟩ := resized dp false
  rw [ep] at e
  injection e with e
  subst e
  obtain ⟨x, hl, _, hst, _⟩ := hx (wp.length - 29 + wq.length) (by omega)
  refine ⟨x ++ wq, ?_, by rw [List.length_append, hl], ?_, ?_⟩
  · exact (C70_read dp.signed).mpr ⟨_, x, wq, hst, by simp, by omega, by omega, hp⟩
  · refine (C70_tryRead dp.signed (by simp)).mpr ⟨_, x, wq, hst, by simp [Cur.rest], by simp [hl], ?_, hp⟩
    simp only [Cur.rest, List.drop_zero, List.length_append]; omega
  · rw [C16_tryRead dq.ok hq eq ⟨x ++ wq, wp.length, chk⟩ [] (by simp only [List.length_append]; omega) (by simp [Cur.rest, ← hl])]
    simp [hl]

/-- **C70**, what does not hold: the size in the header. With 0 in place of the size, `TryReadFrom` and `TryReadFromBuffered` still return the
packet; `ReadFrom` returns nothing. -/
theorem C70_understated (dp : Declared p) (hp : p.blocks.length ≤ 256) {wp : Bytes} (ep : p.serialize = .ok wp) (hne : 29 < wp.length)
    (chk : Bool) :
    ∃ s, s.length = wp.length ∧ s.drop 29 = wp.drop 29 ∧
      Packet.tryRead (PEnum.ops ps) ⟨s, 0, chk⟩ = (.ok (.success p), ⟨s, s.length, chk⟩) ∧
      (∃ cs', Packet.tryBuf (PEnum.ops ps) [s] = (.ok (.success p), cs') ∧ cs'.flatten = []) ∧
      ∀ (q : Packet (blockEnum vs) (PEnum.ops ps)) s', (Packet.read (PEnum.ops ps)).run s ≠ (.ok q, s') := by
  obtain ⟨w, e, h29, _, hx⟩ := resized dp false
  rw [ep] at e
  injection e with e
  subst e
  obtain ⟨x, hl, hd, hst, hh⟩ := hx 0 (by omega)
  refine ⟨x, hl, hd, ?_, ?_, ?_⟩
  · exact (C70_tryRead dp.signed (by simp)).mpr ⟨0, x, [], hst, by simp [Cur.rest], by simp, by simp, hp⟩
  · exact (C70_tryBuf dp.signed).mpr ⟨0, x, hst, by simp, by simp, hp⟩
  · intro q s' eq
    obtain ⟨h, flag, bl, pb, junk, hf, w, hs, hsz, t, hn, _⟩ := read_took (blockEnum_inv dp.signed.four) (PEnum.ops_inv ps) eq
    have hr := PacketHeader.read_rawOf w hf (bl ++ pb ++ junk ++ s')
    rw [PacketHeader.rawOf, ← List.append_assoc, ← hs, hh] at hr
    injection hr with hr _
    injection hr with hr
    subst hr
    simp only [headerFor] at hsz
    have hb := t.blocksLen
    have hfl := t.flag
    simp only [headerFor] at hb hfl
    simp only [List.length_append] at hsz
    -- no blocks, no payload: then `p` is empty
    have hpb : q.payload = none := by
      have hpt := t.payload
      cases hq : q.payload with
      | none => rfl
      | some v =>
        exfalso
        rw [hq] at hpt
        obtain ⟨ph, y, rfl, _⟩ := hpt
        have := ph.size_eq
        simp only [PayloadHeader.size] at this
        simp only [List.length_append] at hsz
        omega
    obtain ⟨h0, bl0, pb0, hh0, w0, hm0, hs0, hb0, hf0, hser0, ht0⟩ := declared_taken dp false
    rw [ep] at hser0
    injection hser0 with hser0
    have hbl : (p.blocks.map (blockEnum vs).size).sum = bl0.length :=
      AllTook.sum (blockEnum_inv dp.signed.four).length (ht0 h0 hb0 hf0).blocks
    have hpt := (ht0 h0 hb0 hf0).payload
    have hnone : p.payload = none := by
      rw [hpb] at hfl
      cases hpp : p.payload with
      | none => rfl
      | some v => rw [hpp] at hfl; cases hfl
    rw [hnone] at hpt
    have hpt : pb0 = [] := hpt
    subst hpt
    have := congrArg List.length hser0
    simp [HSIZE] at this
    omega

/-- **C70**, what does not hold: how much has to be there. Up to 29 of the bytes a header announces may be missing for `TryReadFrom` and
`TryReadFromBuffered`; `ReadFrom` wants them all. -/
theorem C70_missing (dp : Declared p) (hp : p.blocks.length ≤ 256) {wp : Bytes} (ep : p.serialize = .ok wp) (k : Nat) (hk : 0 < k) (hk' : k ≤ 29)
    (chk : Bool) :
    ∃ s, s.length = wp.length ∧ (∃ h rest, PacketHeader.read.run s = (.ok h, rest) ∧ h.size = rest.length + k) ∧
      Packet.tryRead (PEnum.ops ps) ⟨s, 0, chk⟩ = (.ok (.success p), ⟨s, s.length, chk⟩) ∧
      (∃ cs', Packet.tryBuf (PEnum.ops ps) [s] = (.ok (.success p), cs') ∧ cs'.flatten = []) ∧
      ∀ (q : Packet (blockEnum vs) (PEnum.ops ps)) s', (Packet.read (PEnum.ops ps)).run s ≠ (.ok q, s') := by
  obtain ⟨w, e, h29, hlt, hx⟩ := resized dp false
  rw [ep] at e
  injection e with e
  subst e
  obtain ⟨x, hl, hd, hst, hh⟩ := hx (wp.length - 29 + k) (by omega)
  have hle : wp.length - 29 + k ≤ x.length := by omega
  refine ⟨x, hl, ⟨_, _, hh, ?_⟩, ?_, ?_, ?_⟩
  · simp only [headerFor, List.length_drop]; omega
  · exact (C70_tryRead dp.signed (by simp)).mpr ⟨_, x, [], hst, by simp [Cur.rest], by simp, by simpa [Cur.rest] using hle, hp⟩
  · exact (C70_tryBuf dp.signed).mpr ⟨_, x, hst, by simp, hle, hp⟩
  · intro q s' eq
    obtain ⟨h, flag, bl, pb, junk, hf, w, hs, hsz, t, hn, _⟩ := read_took (blockEnum_inv dp.signed.four) (PEnum.ops_inv ps) eq
    have hr := PacketHeader.read_rawOf w hf (bl ++ pb ++ junk ++ s')
    rw [PacketHeader.rawOf, ← List.append_assoc, ← hs, hh] at hr
    injection hr with hr _
    injection hr with hr
    have hxl := congrArg List.length hs
    rw [List.length_append, List.length_append, ← hsz, ← show h.rawOf flag = PacketHeader.raw h.size h.blocksLen flag _ from rfl,
      PacketHeader.rawOf_length, HSIZE, ← hr] at hxl
    simp only [headerFor] at hxl
    omega

/-- A protocol with one block of one `bool`. -/
def boolBlock : BlockTy := ⟨[1, 2, 3, 4], [.bool], false⟩

theorem boolBlock_wf : ∀ b ∈ [boolBlock], b.WF := by
  intro b hb
  simp only [List.mem_singleton] at hb
  subst hb
  refine ⟨rfl, ?_⟩
  intro t ht
  simp only [boolBlock, List.mem_singleton] at ht
  subst ht
  trivial

theorem boolBlock_signed : Signed [boolBlock] := ⟨by simp [DistinctSigs], fun b hb => (boolBlock_wf b hb).sig_len⟩

def boolPacket (v : Bool) : Packet (blockEnum [boolBlock]) (PEnum.ops []) := ⟨[⟨boolBlock, (v, ())⟩], none⟩

/-- The packet `boolPacket v`, with the byte `b` for the value. -/
def boolBytes (v : Bool) (b : Byte) : Bytes :=
  PacketHeader.raw 9 9 0 (PacketHeader.crcOf 9 9 false) ++ ([1, 2, 3, 4] ++ [b] ++ boolBlock.crc (v, ()))

theorem boolBytes_length (v : Bool) (b : Byte) : (boolBytes v b).length = 38 := by
  cases v <;> simp [boolBytes, PacketHeader.raw, PACKET_SIG, PacketHeader.crcOf_length] <;> decide +kernel

theorem boolBytes_stands (view v : Bool) (b : Byte) (h : v = if view then b == 1 else b != 0) : Stands view (boolPacket v) 9 (boolBytes v b) := by
  have hl : ([1, 2, 3, 4] ++ [b] ++ boolBlock.crc (v, ()) : Bytes).length = 9 := by cases v <;> simp <;> decide +kernel
  refine ⟨0, [1, 2, 3, 4] ++ [b] ++ boolBlock.crc (v, ()), [], ?_, by omega, by omega, rfl, ?_, rfl⟩
  · rw [hl, List.append_nil]; rfl
  · exact .single ⟨by simp, [b], rfl, ⟨[b], [], rfl, ⟨b, rfl, h⟩, rfl⟩⟩

theorem crc_bool : boolBlock.crc (true, ()) ≠ boolBlock.crc (false, ()) := by decide +kernel

theorem boolBytes_not (view v : Bool) (b : Byte) (h : v ≠ if view then b == 1 else b != 0) (q : Packet (blockEnum [boolBlock]) (PEnum.ops []))
    (size : Nat) (junk s' : Bytes) (x : Bytes) (hs : boolBytes v b = x ++ junk ++ s') : ¬ Stands view q size x := by
  intro hx
  obtain ⟨h0, flag, bl, pb, w, hf, hsz, rfl, t⟩ := stands_iff.mp hx
  have h1 := PacketHeader.read_rawOf w hf ((bl ++ pb) ++ junk ++ s')
  have h2 := PacketHeader.read_rawOf (h := headerFor 9 9 false) (flag := 0) (headerFor_wf (by omega) (by omega)) rfl
    ([1, 2, 3, 4] ++ [b] ++ boolBlock.crc (v, ()))
  have h3 : boolBytes v b = (headerFor 9 9 false).rawOf 0 ++ ([1, 2, 3, 4] ++ [b] ++ boolBlock.crc (v, ())) := rfl
  rw [← h3, hs] at h2
  simp only [List.append_assoc] at h1 h2
  rw [h1] at h2
  injection h2 with h2 h4
  injection h2 with h2
  subst h2
  have hb : bl.length = 9 := t.blocksLen.symm
  have hblk := t.blocks
  generalize q.blocks = bs at hblk
  cases hblk with
  | nil => simp at hb
  | @cons c y bs z hc hz =>
    obtain ⟨hm, raw, rfl, hr⟩ := hc
    simp only [List.mem_singleton] at hm
    obtain ⟨T, u⟩ := c
    simp only at hm
    subst hm
    obtain ⟨r1, r2, rfl, ⟨b', rfl, hu⟩, rfl⟩ := hr
    simp only at hu h4
    have hsig : boolBlock.sig = [1, 2, 3, 4] := rfl
    have hc4 : ∀ w : Vals boolBlock.fields, (boolBlock.crc w).length = 4 := fun w => boolBlock.crc_length w
    have h4u := hc4 u
    have h4v := hc4 (v, ())
    have hz0 : z = [] := by
      simp only [hsig, List.length_append, List.length_cons, List.length_nil] at hb
      exact List.length_eq_zero_iff.mp (by omega)
    subst hz0
    simp only [hsig, List.cons_append, List.nil_append, List.append_nil, List.cons.injEq, true_and] at h4
    obtain ⟨e1, e2⟩ := h4
    subst e1
    have e3 : boolBlock.crc u = boolBlock.crc (v, ()) :=
      (List.append_inj (t₂ := []) (e2.trans (List.append_nil _).symm) (h4u.trans h4v.symm)).1
    obtain ⟨uv, u0⟩ := u
    simp only at hu
    rw [hu] at e3
    have hne : boolBlock.crc (v, ()) ≠ boolBlock.crc (!v, ()) := by
      cases v
      · exact Ne.symm crc_bool
      · exact crc_bool
    have : (if view = true then b' == 1 else b' != 0) = !v := by
      cases v <;> cases hq : (if view = true then b' == 1 else b' != 0)
      · exact absurd hq.symm h
      · rfl
      · rfl
      · exact absurd hq.symm h
    rw [this] at e3
    exact hne e3.symm

/-- **C70**, what does not hold: what a byte means. A `bool` with the byte 2 is `true` for `ReadFrom`, `TryReadFrom` and `TryReadFromBuffered` and `false`
for `filtered` and `PacketBufReader`; with a checksum for one of them, the packet is returned by the readers of one kind only. -/
theorem C70_bool_byte :
    ((Packet.read (PEnum.ops [])).run (boolBytes true 2) = (.ok (boolPacket true), []) ∧
      ∀ (q : Packet (blockEnum [boolBlock]) (PEnum.ops [])) n s', (Packet.filtered (PEnum.ops [])
        ([] : Rules (blockEnum [boolBlock]).BR (Packet (blockEnum [boolBlock]) (PEnum.ops [])))).run (boolBytes true 2) ≠ (.ok (.accepted n q), s')) ∧
    ((∃ n, (Packet.filtered (PEnum.ops [])
        ([] : Rules (blockEnum [boolBlock]).BR (Packet (blockEnum [boolBlock]) (PEnum.ops [])))).run (boolBytes false 2) =
          (.ok (.accepted n (boolPacket false)), [])) ∧
      ∀ (q : Packet (blockEnum [boolBlock]) (PEnum.ops [])) s', (Packet.read (PEnum.ops [])).run (boolBytes false 2) ≠ (.ok q, s')) := by
  refine ⟨⟨?_, ?_⟩, ⟨9, ?_⟩, ?_⟩
  · exact (C70_read boolBlock_signed).mpr ⟨9, _, [], boolBytes_stands false true 2 rfl, by simp, by simp [boolBytes_length], by omega, by decide⟩
  · intro q n s' e
    obtain ⟨x, junk, hx, hs, _⟩ := (C70_filtered boolBlock_signed).mp e
    exact boolBytes_not true true 2 (by decide) q n junk s' x hs hx
  · exact (C70_filtered boolBlock_signed).mpr ⟨_, [], boolBytes_stands true false 2 rfl, by simp, by simp [boolBytes_length], by omega⟩
  · intro q s' e
    obtain ⟨size, x, junk, hx, hs, _⟩ := (C70_read boolBlock_signed).mp e
    exact boolBytes_not false false 2 (by decide) q size junk s' x hs hx

/-- The full claim: all readers return the same packet and stop at the same byte. -/
def C70_full : Prop := ∀ (vs : List BlockTy) (ps : List PayloadTy) (p : Packet (blockEnum vs) (PEnum.ops ps)) (s s' : Bytes) (chk : Bool),
  Signed vs → p.blocks.length ≤ 255 → s.length < 2 ^ 30 →
    ((Packet.read (PEnum.ops ps)).run s = (.ok p, s') ↔ ∃ c', Packet.tryRead (PEnum.ops ps) ⟨s, 0, chk⟩ = (.ok (.success p), c') ∧ c'.rest = s') ∧
    ((Packet.read (PEnum.ops ps)).run s = (.ok p, s') ↔ ∃ n, (Packet.filtered (PEnum.ops ps)
      ([] : Rules (blockEnum vs).BR (Packet (blockEnum vs) (PEnum.ops ps)))).run s = (.ok (.accepted n p), s'))

/-- **C70** does not hold in full. -/
theorem C70_not : ¬ C70_full := by
  intro h
  obtain ⟨_, h2⟩ := h _ _ (boolPacket true) (boolBytes true 2) [] true boolBlock_signed (by decide) (by rw [boolBytes_length]; omega)
  obtain ⟨n, e⟩ := h2.mp C70_bool_byte.1.1
  exact C70_bool_byte.1.2 _ n _ e

/-- The two sample packets meet the hypotheses: one hidden in the other. -/
example : ∃ s, (Packet.read (PEnum.ops [])).run s = (.ok samplePacket, []) ∧ s.length = 250 ∧
    Packet.tryRead (PEnum.ops []) ⟨s, 0, true⟩ = (.ok (.success samplePacket), ⟨s, 125, true⟩) ∧
    Packet.tryRead (PEnum.ops []) ⟨s, 125, true⟩ = (.ok (.success samplePacket), ⟨s, s.length, true⟩) := by
  obtain ⟨w, _, e, _⟩ := C15_packet_roundtrip samplePacket_ok (by decide) []
  have hw : wire samplePacket = w := by unfold wire; rw [e]
  have hl : w.length = 125 := by rw [← hw]; decide +kernel
  obtain ⟨s, h1, h2, h3, h4⟩ := C70_hidden samplePacket_declared samplePacket_declared (by decide) (by decide) e e (by omega) true
  rw [hl] at h2 h3 h4
  exact ⟨s, h1, h2, h3, h4⟩

/-! ## C69 -/

/-- The full claim: a packet that was read and is written again gives the bytes it was read from. -/
def C69_full : Prop := ∀ (vs : List BlockTy) (ps : List PayloadTy) (p : Packet (blockEnum vs) (PEnum.ops ps)) (s s' w : Bytes),
  Protocol vs ps → s.length < 2 ^ 30 → (Packet.read (PEnum.ops ps)).run s = (.ok p, s') → p.serialize = .ok w → s = w ++ s'

theorem rawOf_getFlag (h : PacketHeader) (flag : Byte) (r : Bytes) : (h.rawOf flag ++ r)[24]? = some flag := by
  have : h.rawOf flag ++ r = (PACKET_SIG ++ leBytes 8 h.size ++ leBytes 8 h.blocksLen) ++
      flag :: (PacketHeader.crcOf h.size h.blocksLen h.payload ++ r) := by
    simp [PacketHeader.rawOf, PacketHeader.raw]
  rw [this, List.getElem?_append_right (by simp [PACKET_SIG])]
  simp [PACKET_SIG]

theorem flag_of {flag : Byte} (h : flag = 0 ∨ flag = 1) : flag = flagByte (flag == 1) := by
  rcases h with rfl | rfl <;> rfl

theorem allTook_encs {p : Packet (blockEnum vs) (PEnum.ops ps)} (d : Declared p) (hfields : ∀ b ∈ vs, ∀ t ∈ b.fields, t.Rigid)
    {bs : List (blockEnum vs).B} {bl : Bytes} (hall : AllTook (EnumTook vs false) bs bl) : bl = d.spec.encs bs := by
  induction hall with
  | nil => rfl
  | cons hx _ ih =>
    obtain ⟨hmem, hx⟩ := hx
    rw [BlockSpec.encs_cons, hx.rigid (hfields _ hmem), ih]
    rfl

/-- **C69**, what holds: the bytes are the same if nothing but the packet was taken (no padding), the flag byte is 0 or 1, no field type has
several encodings of a value, and neither has the payload type. -/
theorem C69_same_bytes_partial (P : Protocol vs ps) {s s' w : Bytes} (hs : s.length < 2 ^ 30)
    (e : (Packet.read (PEnum.ops ps)).run s = (.ok p, s')) (hw : p.serialize = .ok w)
    (hlen : s.length = w.length + s'.length) (hflag : s[24]? = some 0 ∨ s[24]? = some 1)
    (hfields : ∀ b ∈ vs, ∀ t ∈ b.fields, t.Rigid)
    (hpay : ∀ v, p.payload = some v → ∀ (T : PayloadTy) (u : T.Val), PVal.At T u (ps ++ [bytesTy, stringTy]) v → Canonical T) :
    s = w ++ s' := by
  obtain ⟨h, flag, bl, pb, junk, hf, wf, rfl, hsz, t, hn, hm⟩ := read_took (blockEnum_inv P.sigs) (PEnum.ops_inv ps) e
  have hb : PacketHeader.raw h.size h.blocksLen flag (PacketHeader.crcOf h.size h.blocksLen h.payload) = h.rawOf flag := rfl
  rw [hb] at hs hlen hflag ⊢
  simp only [List.length_append] at hs
  have d := taken_declared P t (by rw [List.length_append]; omega)
  obtain ⟨h0, pb0, sh⟩ := d.ok.shape
  have hser := serialize_eq d.ok.blocks sh
  rw [hw] at hser
  injection hser with hser
  subst hser
  -- the blocks
  have hblocks : bl = d.spec.encs p.blocks := allTook_encs d hfields t.blocks
  -- the payload
  have hpayload : pb = pb0 := by
    have h1 := t.payload
    have h2 := sh.part
    have hpb : pb.length < 2 ^ 30 := by omega
    generalize p.payload = pl at h1 h2 hpay
    cases h2 with
    | none => exact h1
    | @some v ph x g =>
      obtain ⟨ph', x', rfl, hl', T, u, hT, ha, hsig, hxl, hd, hc⟩ := h1
      have can := hpay v rfl T u ha
      rw [List.length_append] at hpb
      obtain ⟨y, c, gT, hc4⟩ := P.all T hT x' u (by omega) hd
      have g' := PEnum.ops_good ha gT hc4
      have e1 := g.parts_eq
      rw [g'.parts_eq] at e1
      injection e1 with e1
      injection e1 with e1 e2
      subst e2
      have hy : x' = y := by
        have := can.body_decode _ _ hd
        rw [gT.body_eq] at this
        exact (Out.ok.inj this).symm
      subst hy
      have hcc : c = ph'.crc := by
        have := gT.crc_eq
        rw [hc] at this
        exact (Out.ok.inj this).symm
      subst hcc
      rw [← e1]
      congr 2
      obtain ⟨a, b, c⟩ := ph'
      simp only at hsig hxl
      subst hsig; subst hxl
      rfl
  subst hblocks; subst hpayload
  -- no padding
  have hh0 : h0.bytes.length = 29 := by simp [HSIZE]
  have hr0 : (h.rawOf flag).length = 29 := PacketHeader.rawOf_length h flag
  have hjunk : junk = [] := by
    simp only [List.length_append] at hlen
    exact List.length_eq_zero_iff.mp (by omega)
  subst hjunk
  -- the flag
  have hfl : flag = flagByte h.payload := by
    rw [List.append_assoc, rawOf_getFlag] at hflag
    rw [hf]
    exact flag_of (hflag.imp Option.some.inj Option.some.inj)
  -- the header
  have hh : h = h0 := by
    have e1 : h.size = h0.size := by rw [hsz, sh.size]; simp
    have e2 : h.blocksLen = h0.blocksLen := by rw [t.blocksLen, sh.blocksLen]
    have e3 : h.payload = h0.payload := by rw [t.flag, sh.flag]
    have e4 : h.crc = h0.crc := by rw [wf.crc_eq, sh.wf.crc_eq, e1, e2, e3]
    cases h; cases h0
    simp only at e1 e2 e3 e4
    subst e1; subst e2; subst e3; subst e4
    rfl
  subst hh
  rw [hfl, rawOf_flagByte wf]
  simp

/-- **C69**, what does not hold: padding. Whatever follows the blocks and the payload inside the announced size is dropped. -/
theorem C69_padding (d : Declared p) (hn : p.blocks.length ≤ 256) {w : Bytes} (ew : p.serialize = .ok w) (junk : Bytes)
    (hm : w.length + junk.length < 2 ^ 63) :
    ∃ s, (Packet.read (PEnum.ops ps)).run s = (.ok p, []) ∧ s.length = w.length + junk.length ∧ s.drop 29 = w.drop 29 ++ junk := by
  obtain ⟨w', e, h29, _, hx⟩ := resized d false
  rw [ew] at e
  injection e with e
  subst e
  obtain ⟨x, hl, hd, hst, _⟩ := hx (w.length - 29 + junk.length) (by omega)
  refine ⟨x ++ junk, ?_, by rw [List.length_append, hl], ?_⟩
  · exact (C70_read d.signed).mpr ⟨_, x, junk, hst, by simp, by omega, by omega, hn⟩
  · rw [List.drop_append_of_le_length (by omega), hd]

/-- **C69**, what does not hold: the flag. Any byte but 1 says that there is no payload; it becomes a 0. -/
theorem C69_flag_byte (d : Declared p) (hn : p.blocks.length ≤ 256) (hp : p.payload = none) {w : Bytes} (ew : p.serialize = .ok w)
    (flag : Byte) (hf : flag ≠ 1) : (Packet.read (PEnum.ops ps)).run (w.set 24 flag) = (.ok p, []) := by
  obtain ⟨h, bl, pb, _, wf, hm, hs, hb, hfl, hser, ht⟩ := declared_taken d false
  rw [ew] at hser
  injection hser with hser
  subst hser
  have hset : (h.bytes ++ (bl ++ pb)).set 24 flag = h.rawOf flag ++ (bl ++ pb) := by
    rw [← rawOf_flagByte wf]
    have : ∀ f, h.rawOf f ++ (bl ++ pb) = (PACKET_SIG ++ leBytes 8 h.size ++ leBytes 8 h.blocksLen) ++
        f :: (PacketHeader.crcOf h.size h.blocksLen h.payload ++ (bl ++ pb)) := by
      intro f; simp [PacketHeader.rawOf, PacketHeader.raw]
    rw [this, this, List.set_append_right _ _ (by simp [PACKET_SIG])]
    simp [PACKET_SIG]
  rw [hset]
  have hpf : h.payload = (flag == 1) := by
    rw [hfl, hp]
    exact (beq_eq_false_iff_ne.mpr hf).symm
  have := Packet.read_of (blockEnum_fwd d.signed.distinct d.signed.four) (PEnum.ops_fwd ps) wf hpf (junk := []) (by rw [hs]; simp)
    (ht h hb hfl) hn hm []
  simpa using this

/-- **C69**, what does not hold: text. Bytes that are not UTF-8, with the checksum of what they are replaced by, are read as the
replacement. -/
theorem C69_text (hv : Signed vs) (x : Bytes) (hx : x.length < 2 ^ 29) :
    ∃ s, (Packet.read (PEnum.ops ([] : List PayloadTy))).run s = (.ok (⟨[], some (.inr (.inl (Utf8.ofLossy x)))⟩ : Packet (blockEnum vs) (PEnum.ops [])), []) ∧
      s.drop (s.length - x.length) = x := by
  let ph : PayloadHeader := { sig := stringTy.ssig, crc := PayloadTy.crcBlock (lossy x), len := x.length }
  have hl : ph.asVec.length = ph.size := ph.size_eq
  have hsz : ph.size = 1 + 4 + 1 + 4 + 4 := rfl
  have hst : Stands false (⟨[], some (.inr (.inl (Utf8.ofLossy x)))⟩ : Packet (blockEnum vs) (PEnum.ops [])) (14 + x.length)
      (PacketHeader.raw (14 + x.length) 0 1 (PacketHeader.crcOf (14 + x.length) 0 true) ++ (ph.asVec ++ x)) := by
    refine ⟨1, [], ph.asVec ++ x, rfl, by omega, by simp, rfl, .nil, ph, x, rfl, by show x.length < _; omega, stringTy, Utf8.ofLossy x, by simp,
      ?_, rfl, rfl, rfl, rfl⟩
    exact .there _ _ _ (by decide +kernel) (.here _)
  refine ⟨PacketHeader.raw (14 + x.length) 0 1 (PacketHeader.crcOf (14 + x.length) 0 true) ++ (ph.asVec ++ x),
    (C70_read hv).mpr ⟨_, _, [], hst, by simp, ?_, by omega, by simp⟩, ?_⟩
  · rw [List.length_append, List.length_append, hl, hsz]
    simp [PacketHeader.raw, PACKET_SIG, PacketHeader.crcOf_length]
  · rw [List.length_append, List.length_append, ← List.append_assoc, ← Nat.add_assoc, Nat.add_sub_cancel, ← List.length_append, List.drop_left]

theorem samplePacket_length {w : Bytes} (e : samplePacket.serialize = .ok w) : w.length = 125 := by
  have hw : wire samplePacket = w := by unfold wire; rw [e]
  rw [← hw]; decide +kernel

/-- **C69** does not hold in full. -/
theorem C69_not : ¬ C69_full := by
  intro h
  obtain ⟨w, _, e, _⟩ := C15_packet_roundtrip samplePacket_ok (by decide) []
  have hl := samplePacket_length e
  obtain ⟨s, h1, h2, _⟩ := C69_padding samplePacket_declared (by decide) e [0] (by rw [hl]; decide)
  have := h _ _ samplePacket s [] w sampleProtocol (by rw [h2, hl]; decide) h1 e
  rw [this] at h2
  simp at h2

/-- A packet of a block with a number and a payload of bytes meets the hypotheses of `C69_same_bytes_partial`. -/
example : ∃ (vs : List BlockTy) (p : Packet (blockEnum vs) (PEnum.ops [])) (w : Bytes), Protocol vs [] ∧ w.length < 2 ^ 30 ∧
    (Packet.read (PEnum.ops [])).run w = (.ok p, []) ∧ p.serialize = .ok w ∧ w[24]? = some 1 ∧ p.blocks ≠ [] ∧
    (∀ b ∈ vs, ∀ t ∈ b.fields, t.Rigid) ∧
    (∀ v, p.payload = some v → ∀ (T : PayloadTy) (u : T.Val), PVal.At T u ([] ++ [bytesTy, stringTy]) v → Canonical T) := by
  let b : BlockTy := ⟨[1, 2, 3, 4], [.num .u8], false⟩
  let p : Packet (blockEnum [b]) (PEnum.ops []) := ⟨[⟨b, (7#8, ())⟩], some (.inl [1, 2, 3])⟩
  have P : Protocol [b] [] := by
    refine ⟨by simp [DistinctSigs], ?_, by simp⟩
    intro b' hb
    simp only [List.mem_singleton] at hb
    subst hb
    refine ⟨rfl, ?_⟩
    intro t ht
    simp only [b, List.mem_singleton] at ht
    subst ht
    trivial
  have d : Declared p := by
    refine ⟨P.distinct, P.wf, ?_, ?_, ?_⟩
    · intro c hc
      cases hc with
      | head => simp
      | tail _ h => cases h
    · intro v hv
      injection hv with hv
      subst hv
      exact ⟨bytesTy, [1, 2, 3], [1, 2, 3], _, .here _, bytesTy_good _ (by decide), rfl⟩
    · intro h hh
      have : p.header = .ok (PacketHeader.ofSizes 9 (some 17)) := rfl
      rw [this] at hh
      injection hh with hh
      subst hh
      decide
  obtain ⟨w, _, e, r⟩ := C15_generated d (by decide) []
  have hw : p.serialize = .ok (wire p) := by unfold wire; rw [e]
  have hww : w = wire p := Out.ok.inj (e.symm.trans hw)
  refine ⟨[b], p, w, P, ?_, by simpa using r, e, ?_, by simp [p], ?_, ?_⟩
  · rw [hww]
    have : (wire p).length = 55 := by decide +kernel
    omega
  · rw [hww]; decide +kernel
  · intro b' hb t ht
    simp only [List.mem_singleton] at hb
    subst hb
    simp only [b, List.mem_singleton] at ht
    subst ht
    trivial
  · intro v hv T u ha
    injection hv with hv
    subst hv
    cases ha
    exact bytesTy_canonical

end Brec.Props
