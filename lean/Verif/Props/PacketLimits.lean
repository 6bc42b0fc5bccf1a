import Verif.Props.Packet
/-!
# Properties C17, C18, C45: limits of the packet readers
-/

namespace Brec.Props

open Brec Packet

variable {O : BlockOps} {Q : PayloadOps} {S : BlockSpec O} {p : Packet O Q}

/-! ## C17 -/

/-- The claim for the four readers that take a complete packet (the `PacketBufReader` is treated with the reader):
up to 255 blocks are accepted, more are rejected. -/
def C17_full : Prop :=
  ∀ (O : BlockOps) (Q : PayloadOps) (S : BlockSpec O) (p : Packet O Q) (w : Bytes), p.Ok S → p.serialize = .ok w →
    (p.blocks.length ≤ 255 →
      ((Packet.read Q).run w).1 = .ok p ∧
      (Packet.tryRead (O := O) Q ⟨w, 0, true⟩).1 = .ok (.success p) ∧
      (Packet.tryBuf (O := O) Q [w]).1 = .ok (.success p) ∧
      ∃ n, ((Packet.filtered Q ([] : Rules O.BR (Packet O Q))).run w).1 = .ok (.accepted n p)) ∧
    (255 < p.blocks.length →
      (∃ e, ((Packet.read (O := O) Q).run w).1 = .err e) ∧
      (∃ e, (Packet.tryRead (O := O) Q ⟨w, 0, true⟩).1 = .err e) ∧
      (∃ e, (Packet.tryBuf (O := O) Q [w]).1 = .err e) ∧
      ∃ e, ((Packet.filtered Q ([] : Rules O.BR (Packet O Q))).run w).1 = .err e)

/-- 256 blocks without fields. -/
def packet256 : Packet (blockEnum sampleTypes) (PEnum.ops []) := ⟨List.replicate 256 ⟨otherBlock, ()⟩, none⟩

theorem packet256_length : packet256.blocks.length = 256 := List.length_replicate

theorem packet256_ok : packet256.Ok sampleSpec where
  blocks := by
    intro b hb
    rw [(List.mem_replicate.mp hb).2]
    show otherBlock ∈ sampleTypes
    simp [sampleTypes]
  payload := by intro v hv; cases hv
  size := by
    intro h hh
    have : packet256.header = .ok (PacketHeader.ofSizes 2048 none) := by
      have key : ∀ n (b : BlockVal), ((List.replicate n b).map BlockVal.size).sum = n * b.size := by
        intro n b; rw [List.map_replicate, List.sum_replicate_nat]
      exact congrArg (fun n => Out.ok (PacketHeader.ofSizes n none)) (key 256 ⟨otherBlock, ()⟩)
    rw [this] at hh
    injection hh with hh
    subst hh
    decide

/-- The claim is false of the code: `ReadFrom` accepts 256 blocks. -/
theorem C17_not_uniform : ¬ C17_full := by
  intro h
  obtain ⟨w, _, e, _, _, r⟩ := C15_packet_roundtrip packet256_ok (by rw [packet256_length]; omega) []
  obtain ⟨_, h2⟩ := h _ _ _ _ w packet256_ok e
  obtain ⟨⟨x, hx⟩, _⟩ := h2 (by rw [packet256_length]; omega)
  rw [List.append_nil] at r
  rw [r] at hx
  cases hx

/-- **C17**, what holds instead: up to 256 blocks every reader returns the packet; beyond that `ReadFrom`,
`TryReadFrom` and `TryReadFromBuffered` report `MaxBlocksCount` while `filtered` still accepts. Missing from the full claim: the
limit is 256 and not 255, and `filtered` has none. -/
theorem C17_limit_partial (hp : p.Ok S) {w : Bytes} (hw : p.serialize = .ok w) (s : Bytes) :
    (p.blocks.length ≤ 256 →
      (Packet.read Q).run (w ++ s) = (.ok p, s) ∧
      (Packet.tryRead (O := O) Q ⟨w ++ s, 0, true⟩).1 = .ok (.success p) ∧
      (Packet.tryBuf (O := O) Q [w ++ s]).1 = .ok (.success p)) ∧
    (256 < p.blocks.length →
      ((Packet.read (O := O) Q).run (w ++ s)).1 = .err .maxBlocksCount ∧
      (Packet.tryRead (O := O) Q ⟨w ++ s, 0, true⟩).1 = .err .maxBlocksCount ∧
      (Packet.tryBuf (O := O) Q [w ++ s]).1 = .err .maxBlocksCount) ∧
    ∃ n, (Packet.filtered Q ([] : Rules O.BR (Packet O Q))).run (w ++ s) = (.ok (.accepted n p), s) := by
  refine ⟨fun hn => ⟨?_, ?_, ?_⟩, fun hn => ?_, ?_⟩
  · obtain ⟨w', _, e, _, _, r⟩ := C15_packet_roundtrip hp hn s
    rw [hw] at e; injection e with e; subst e; exact r
  · rw [C16_tryRead hp hn hw ⟨w ++ s, 0, true⟩ s (by simp) (by simp [Cur.rest])]
  · exact (C16_tryBuf hp hn hw [w ++ s] s (by simp [Chunks.fill_single]) (by simp)).1
  · obtain ⟨h, pb, sh⟩ := hp.shape
    rw [serialize_eq hp.blocks sh] at hw
    injection hw with hw
    subst hw
    have hne : p.blocks ≠ [] := by intro h; rw [h] at hn; simp at hn
    have hpos := S.encs_pos hp.blocks hne
    refine ⟨?_, ?_, ?_⟩
    · unfold Packet.read
      rw [List.append_assoc, List.append_assoc, P.bind_ok (PacketHeader.read_bytes sh.wf _),
        P.bind_ok (a := ()) (s' := S.encs p.blocks ++ (pb ++ s)) (by simp [allocZeroed, sh.small]),
        ← List.append_assoc, P.bind_ok (P.readExact_append' (by rw [sh.size]; simp) s), P.lift_run]
      unfold ofInner
      simp only
      rw [sh.blocksLen, if_pos hpos,
        blocksBuf_max hp.blocks (s := pb) (by simp) (by simp) (by simp [MAX_BLOCKS]; omega) (by simp)]
    · unfold Packet.tryRead
      rw [Cur.remaining_ok (by simp)]
      simp only
      have hr : ({ data := h.bytes ++ S.encs p.blocks ++ pb ++ s, pos := 0, chk := true } : Cur).rest =
          h.bytes ++ (S.encs p.blocks ++ (pb ++ s)) := by simp [Cur.rest]
      rw [PacketHeader.tryRead_bytes sh.wf (by simp) hr]
      simp only
      rw [if_neg (by rw [sh.size, hr]; simp; omega), sh.blocksLen, if_pos hpos]
      have hr1 := Cur.rest_add hr
      rw [PacketHeader.bytes_length] at hr1
      rw [blocksCur_max hp.blocks (s := pb ++ s) (by simp) hr1 (by simp [MAX_BLOCKS]; omega) (by simp)]
    · unfold Packet.tryBuf
      simp only [Chunks.fill_single]
      rw [if_neg (by simp only [List.length_append, PacketHeader.bytes_length]; omega)]
      have : PacketHeader.readSlice (h.bytes ++ S.encs p.blocks ++ pb ++ s) = .ok h := by
        rw [List.append_assoc, List.append_assoc]; exact PacketHeader.readSlice_bytes sh.wf _
      rw [this]
      simp only
      rw [if_neg (by rw [sh.size]; simp; omega), sh.blocksLen, if_pos hpos]
      have hc1 : (Chunks.consume HSIZE [h.bytes ++ S.encs p.blocks ++ pb ++ s]).flatten = S.encs p.blocks ++ (pb ++ s) := by
        rw [Chunks.flatten_consume (by simp only [Chunks.fill_single, List.length_append, PacketHeader.bytes_length]; omega)]
        simp only [List.flatten_cons, List.flatten_nil, List.append_nil, List.append_assoc]
        rw [List.drop_append_of_le_length (by simp), List.drop_of_length_le (by simp)]
        rfl
      have hf1 : (S.encs p.blocks).length ≤
          (Chunks.fill (Chunks.consume HSIZE [h.bytes ++ S.encs p.blocks ++ pb ++ s])).length := by
        rw [Chunks.consume, Nat.min_eq_left (by simp [Chunks.fill_single]),
          Chunks.fill_skip (by simp [Chunks.fill_single]; omega), List.length_drop, Chunks.fill_single]
        simp
      rw [blocksBuf_max hp.blocks hc1 hf1 (by simp [MAX_BLOCKS]; omega) (by simp)]
  · obtain ⟨w', h, e, _, r⟩ := C16_filtered hp s
    rw [hw] at e; injection e with e; subst e; exact ⟨_, r⟩

example : ∃ w, packet256.serialize = .ok w ∧ (Packet.read (PEnum.ops [])).run (w ++ []) = (.ok packet256, []) := by
  obtain ⟨w, _, e, _, _, r⟩ := C15_packet_roundtrip packet256_ok (by rw [packet256_length]; omega) []
  exact ⟨w, e, ((C17_limit_partial packet256_ok e []).1 (by rw [packet256_length]; omega)).1⟩

/-! ## C18 -/

/-- The documented behaviour on incomplete input: `NotEnoughData` and the source as before. -/
def C18_full : Prop :=
  ∀ (O : BlockOps) (Q : PayloadOps) (S : BlockSpec O) (p : Packet O Q) (w : Bytes) (k : Nat), p.Ok S → p.blocks.length ≤ 255 →
    p.serialize = .ok w → k < w.length →
    (∃ n, Packet.tryRead (O := O) Q ⟨w.take k, 0, true⟩ = (.ok (.notEnough n), ⟨w.take k, 0, true⟩)) ∧
    ∃ n cs, Packet.tryBuf (O := O) Q [w.take k] = (.ok (.notEnough n), cs) ∧ cs.flatten = w.take k

/-- **C18**, what the seekable reader does on the first `k` bytes of a packet. Missing from the full claim: a cut after
the header and before `header.size` leaves the position 29 bytes further, and a cut in the payload header is an error. -/
theorem C18_tryRead_partial (hp : p.Ok S) (hn : p.blocks.length ≤ 256) {w : Bytes} (hw : p.serialize = .ok w)
    {h : PacketHeader} (hh : p.header = .ok h) {k : Nat} (hk : k < w.length) {c : Cur} (hc : c.pos ≤ c.data.length)
    (hr : c.rest = w.take k) :
    (k < 29 → Packet.tryRead (O := O) Q c = (.ok (.notEnough (29 - k)), c)) ∧
    (29 ≤ k → k < h.size →
      Packet.tryRead (O := O) Q c = (.ok (.notEnough (h.size - k)), { c with pos := c.pos + 29 })) ∧
    (29 ≤ k → h.size ≤ k → k < 29 + h.blocksLen →
      ∃ n, 0 < n ∧ n + k ≤ w.length ∧ Packet.tryRead (O := O) Q c = (.ok (.notEnough n), c)) ∧
    (∀ v ph x, p.payload = some v → Q.Good v ph x →
      (29 ≤ k → h.size ≤ k → 29 + h.blocksLen ≤ k → k < 29 + h.blocksLen + ph.size →
        ∃ n, 0 < n ∧ n + k ≤ w.length ∧ Packet.tryRead (O := O) Q c = (.err (.notEnoughData n), c)) ∧
      (29 ≤ k → h.size ≤ k → 29 + h.blocksLen + ph.size ≤ k →
        Packet.tryRead (O := O) Q c = (.ok (.notEnough (w.length - k)), c))) := by
  obtain ⟨h', pb, sh⟩ := hp.shape
  have : h' = h := by have := sh.header; rw [hh] at this; injection this with this; exact this.symm
  subst this
  rw [serialize_eq hp.blocks sh] at hw
  injection hw with hw
  subst hw
  have hrl : c.rest.length = k := by rw [hr, List.length_take]; omega
  have hlen : k < 29 + (S.encs p.blocks).length + pb.length := by
    simp [PacketHeader.bytes_length, HSIZE] at hk; omega
  have hrl' := hrl
  simp only [Cur.rest, List.length_drop] at hrl'
  have hsz := sh.size
  have hbl := sh.blocksLen
  -- past the header
  have head : 29 ≤ k → c.rest = h'.bytes ++ (S.encs p.blocks ++ pb).take (k - 29) := by
    intro h29
    rw [hr, List.append_assoc, List.take_append, List.take_of_length_le (by simp [HSIZE]; omega), PacketHeader.bytes_length]
    rfl
  have run : 29 ≤ k → h'.size ≤ k → Packet.tryRead (O := O) Q c =
      (let r := if h'.blocksLen > 0 then blocksCur O h'.blocksLen MAX_BLOCKS 0 [] { c with pos := c.pos + 29 }
          else (.ok (.success []), { c with pos := c.pos + 29 })
        match r.1 with
        | .ok (.success bs) => payloadCur Q c.pos h'.payload bs r.2
        | .ok (.notEnough n) => (.ok (.notEnough n), r.2.seek c.pos)
        | .err e => (.err e, r.2.seek c.pos)
        | .panic => (.panic, r.2)) := by
    intro h29 hs
    unfold Packet.tryRead
    rw [Cur.remaining_ok hc]
    simp only
    rw [PacketHeader.tryRead_bytes sh.wf hc (head h29)]
    simp only
    rw [if_neg (by omega)]
    rfl
  have rest1 : 29 ≤ k → ({ c with pos := c.pos + 29 } : Cur).rest = (S.encs p.blocks ++ pb).take (k - 29) := by
    intro h29
    have := Cur.rest_add (head h29)
    rwa [PacketHeader.bytes_length] at this
  have rest2 : 29 + h'.blocksLen ≤ k →
      ({ c with pos := c.pos + 29 } : Cur).rest = S.encs p.blocks ++ pb.take (k - 29 - h'.blocksLen) := by
    intro h29
    rw [rest1 (by omega), List.take_append, List.take_of_length_le (by omega), hbl]
  have blk : 29 + h'.blocksLen ≤ k →
      (if h'.blocksLen > 0 then blocksCur O h'.blocksLen MAX_BLOCKS 0 [] { c with pos := c.pos + 29 }
          else (.ok (.success []), { c with pos := c.pos + 29 })) =
      (.ok (.success p.blocks), { c with pos := c.pos + 29 + h'.blocksLen }) := by
    intro hk2
    by_cases hne : p.blocks = []
    · have h0 : h'.blocksLen = 0 := by rw [hbl, hne]; rfl
      rw [if_neg (by omega), hne, h0]
    · have := S.encs_pos hp.blocks hne
      rw [if_pos (by omega), blocksCur_eq hp.blocks hne (by simp only; omega) (rest2 hk2)
        (by simp [MAX_BLOCKS]; omega) (by omega), hbl]
      simp
  have rest3 : 29 + h'.blocksLen ≤ k →
      ({ c with pos := c.pos + 29 + h'.blocksLen } : Cur).rest = pb.take (k - 29 - h'.blocksLen) := by
    intro hk2
    have := Cur.rest_add (rest2 hk2)
    rw [← hbl] at this
    exact this
  refine ⟨fun hlt => ?_, fun h29 hlt => ?_, fun h29 hs hlt => ?_, fun v ph x hv g => ⟨fun h29 hs h1 h2 => ?_, fun h29 hs h1 => ?_⟩⟩
  · unfold Packet.tryRead
    rw [Cur.remaining_ok hc]
    simp only
    have : PacketHeader.tryRead c = (.ok (.notEnough (29 - k)), c) := by
      unfold PacketHeader.tryRead
      rw [Cur.remaining_ok hc]
      simp only
      rw [if_pos (by simp [HSIZE]; omega), hrl]
      rfl
    rw [this]
  · unfold Packet.tryRead
    rw [Cur.remaining_ok hc]
    simp only
    rw [PacketHeader.tryRead_bytes sh.wf hc (head h29)]
    simp only
    rw [if_pos (by omega), hrl]
    rfl
  · rw [run h29 hs]
    have hpos : h'.blocksLen > 0 := by omega
    rw [if_pos hpos]
    have hr1 := rest1 h29
    rw [List.take_append_of_le_length (by omega)] at hr1
    obtain ⟨n, q, e, hn0, hn1⟩ := blocksCur_short (left := MAX_BLOCKS) (read := 0) (acc := []) (blocksLen := h'.blocksLen) hp.blocks
      (by simp only; omega) (by omega) hr1 (by simp [MAX_BLOCKS]; omega) (by omega)
    rw [e]
    exact ⟨n, hn0, by simp only [List.length_append, PacketHeader.bytes_length, HSIZE]; omega, rfl⟩
  · rw [run h29 hs, blk h1]
    simp only
    have hpt := sh.part
    have hf := sh.flag
    have hr3 := rest3 h1
    obtain ⟨blocks, payload⟩ := p
    simp only at hv
    subst hv
    simp only [Option.isSome_some] at hf
    cases hpt with
    | @some v ph' x' g' =>
      have hpe : (ph'.asVec, x') = (ph.asVec, x) := by
        have := g'.parts_eq; rw [g.parts_eq] at this; injection this with this; exact this.symm
      injection hpe with e1 e2
      have e3 : ph'.size = ph.size := by rw [← PayloadHeader.size_eq, ← PayloadHeader.size_eq, e1]
      rw [List.take_append_of_le_length (by rw [PayloadHeader.size_eq]; omega)] at hr3
      obtain ⟨n, e, hn0, hn1⟩ := PayloadHeader.tryRead_prefix ph' (k := k - 29 - h'.blocksLen)
        (by rw [PayloadHeader.size_eq]; omega) (c := { c with pos := c.pos + 29 + h'.blocksLen }) (by simp only; omega) hr3
      refine ⟨n, hn0, by
        simp only [List.length_append, PacketHeader.bytes_length, HSIZE]
        rw [PayloadHeader.size_eq] at hn1; have := PayloadHeader.size_eq ph'; dsimp only at hbl ⊢; omega, ?_⟩
      unfold payloadCur
      rw [if_pos hf, e]
      rfl
  · rw [run h29 hs, blk (by omega)]
    simp only
    have hpt := sh.part
    have hf := sh.flag
    have hr3 := rest3 (by omega)
    obtain ⟨blocks, payload⟩ := p
    simp only at hv
    subst hv
    simp only [Option.isSome_some] at hf
    cases hpt with
    | @some v ph' x' g' =>
      have hpe : (ph'.asVec, x') = (ph.asVec, x) := by
        have := g'.parts_eq; rw [g.parts_eq] at this; injection this with this; exact this.symm
      injection hpe with e1 e2
      have e3 : ph'.size = ph.size := by rw [← PayloadHeader.size_eq, ← PayloadHeader.size_eq, e1]
      have e4 := PayloadHeader.size_eq ph'
      simp only [List.length_append] at hlen hk hsz
      rw [List.take_append, List.take_of_length_le (by omega)] at hr3
      unfold payloadCur
      rw [if_pos hf, PayloadHeader.tryRead_asVec ph' g'.len_lt (by simp only; omega) hr3]
      simp only
      have hr4 := Cur.rest_add hr3
      rw [e4] at hr4
      have hl4 := congrArg List.length hr4
      rw [List.length_take] at hl4
      dsimp only at hl4 hlen hk hsz hbl
      rw [g'.tryRead_short _ (by simp only; omega) (by omega), hl4]
      simp only [Cur.seek, List.length_append, PacketHeader.bytes_length, HSIZE]
      refine Prod.ext ?_ rfl
      simp only
      congr 2
      omega

/-- **C18**, the buffered reader, cut before `header.size` bytes are there: nothing is consumed. Missing from the full claim: a
cut behind that (the header has been consumed by then, see `C18_not`). -/
theorem C18_tryBuf_partial (hp : p.Ok S) {w : Bytes} (hw : p.serialize = .ok w) {h : PacketHeader} (hh : p.header = .ok h)
    {cs : Chunks} {k : Nat} (hk : k < w.length) (hf : Chunks.fill cs = w.take k) :
    (k < 29 → Packet.tryBuf (O := O) Q cs = (.ok (.notEnough (29 - k)), cs)) ∧
    (29 ≤ k → k < h.size → Packet.tryBuf (O := O) Q cs = (.ok (.notEnough (h.size - k)), cs)) := by
  obtain ⟨h', pb, sh⟩ := hp.shape
  have : h' = h := by have := sh.header; rw [hh] at this; injection this with this; exact this.symm
  subst this
  rw [serialize_eq hp.blocks sh] at hw
  injection hw with hw
  subst hw
  have hl : (Chunks.fill cs).length = k := by rw [hf, List.length_take]; omega
  refine ⟨fun hlt => ?_, fun h29 hlt => ?_⟩
  · unfold Packet.tryBuf
    simp only [hl]
    rw [if_pos (by simp only [HSIZE]; omega)]; rfl
  · unfold Packet.tryBuf
    simp only [hl]
    rw [if_neg (by simp only [HSIZE]; omega)]
    have : PacketHeader.readSlice (Chunks.fill cs) = .ok h' := by
      rw [hf, List.append_assoc, List.take_append, List.take_of_length_le (by simp [HSIZE]; omega)]
      exact PacketHeader.readSlice_bytes sh.wf _
    rw [this]
    simp only
    rw [if_pos (by omega)]

/-- The claim is false of the code: 30 bytes of the sample packet leave the source behind the header. -/
theorem C18_not : ¬ C18_full := by
  intro hf
  obtain ⟨w, h, e, hh, hl, _⟩ := C15_packet_roundtrip samplePacket_ok (by decide) []
  have hs : h.size = 96 := by
    have : samplePacket.header = .ok (PacketHeader.ofSizes 78 (some 18)) := by rfl
    rw [this] at hh; injection hh with hh; rw [← hh]; rfl
  obtain ⟨⟨n, h1⟩, _⟩ := hf _ _ _ _ w 30 samplePacket_ok (by decide) e (by omega)
  have h2 := (C18_tryRead_partial samplePacket_ok (by decide) e hh (k := 30) (by omega) (c := ⟨w.take 30, 0, true⟩)
    (by simp) (by simp [Cur.rest])).2.1 (by omega) (by omega)
  rw [h1] at h2
  have := congrArg (fun x => x.2.pos) h2
  simp at this

/-- An empty packet with an empty `Vec<u8>` payload. -/
def emptyPayloadPacket : Packet (blockEnum sampleTypes) (PEnum.ops []) := ⟨[], some (.inl [])⟩

/-- The buffered reader on the 29 header bytes of such a packet: an error instead of `NotEnoughData`, header gone. -/
theorem C18_tryBuf_consumes : (match emptyPayloadPacket.serialize with
    | .ok w => ((Packet.tryBuf (O := blockEnum sampleTypes) (PEnum.ops []) [w.take 29]).1 matches .err (.notEnoughData 1)) &&
        (Packet.tryBuf (O := blockEnum sampleTypes) (PEnum.ops []) [w.take 29]).2.flatten.isEmpty
    | _ => false) = true := by decide +kernel

/-! ## C45 -/

/-- A payload type with a CRC of eight bytes: its trait implementations are consistent. -/
@[reducible] def wideTy : PayloadTy where
  Val := Bytes
  ssig := .len4 ⟨[9, 9, 9, 9], rfl⟩
  sig _ := .len4 ⟨[9, 9, 9, 9], rfl⟩
  encode v := some v
  encodeRef v := some (some v)
  decode b := some b
  size v := some v.length
  crcFn := some fun _ => some (.len8 ⟨[1, 2, 3, 4, 5, 6, 7, 8], rfl⟩)
  crcSize := 8

theorem wideTy_good (v : Bytes) (h : v.length ≤ 2 ^ 32 - 1) :
    wideTy.Good v v (.len8 ⟨[1, 2, 3, 4, 5, 6, 7, 8], rfl⟩) where
  sig_eq := rfl
  body_eq := rfl
  size_eq := rfl
  len_le := h
  crc_eq := rfl
  decode_eq := rfl

/-- The claim: packets with a payload whose CRC has any legal width round-trip. -/
def C45_full : Prop :=
  ∀ (vs : List PayloadTy) (T : PayloadTy) (v : T.Val) (x : Bytes) (c : ByteBlock) (pv : (PEnum.ops vs).V),
    T.Good v x c → PVal.At T v (vs ++ [bytesTy, stringTy]) pv →
    ∃ w, (⟨[], some pv⟩ : Packet (blockEnum sampleTypes) (PEnum.ops vs)).serialize = .ok w ∧
      ((Packet.read (O := blockEnum sampleTypes) (PEnum.ops vs)).run w).1 = .ok ⟨[], some pv⟩

/-- It is false of the code: the generated enum reports a CRC size of 4 whatever the variant says, so `header.size` is too small
and the payload is cut. -/
theorem C45_wide_crc_breaks : ¬ C45_full := by
  intro h
  obtain ⟨w, e, r⟩ := h [wideTy] wideTy [1, 2, 3, 4] _ _ (.inl [1, 2, 3, 4]) (wideTy_good _ (by decide)) (.here _)
  have key : (match (⟨[], some (.inl [1, 2, 3, 4])⟩ : Packet (blockEnum sampleTypes) (PEnum.ops [wideTy])).serialize with
    | .ok w => (((Packet.read (O := blockEnum sampleTypes) (PEnum.ops [wideTy])).run w).1 matches .err _)
    | _ => false) = true := by decide +kernel
  rw [e] at key
  simp only at key
  rw [r] at key
  cases key

/-- **C45** for the CRC width the enum assumes. Missing from the full claim: the other legal widths. -/
theorem C45_four_byte_crc_partial (vs : List PayloadTy) (T : PayloadTy) (v : T.Val) (x : Bytes) (c : ByteBlock)
    (pv : (PEnum.ops vs).V) (g : T.Good v x c) (ha : PVal.At T v (vs ++ [bytesTy, stringTy]) pv) (hc : c.size = 4)
    {bs : List O.B} (hb : ∀ b ∈ bs, S.ok b) (hn : bs.length ≤ 256)
    (hsz : ∀ h, (⟨bs, some pv⟩ : Packet O (PEnum.ops vs)).header = .ok h → h.size < 2 ^ 63) (s : Bytes) :
    ∃ w, (⟨bs, some pv⟩ : Packet O (PEnum.ops vs)).serialize = .ok w ∧
      (Packet.read (PEnum.ops vs)).run (w ++ s) = (.ok ⟨bs, some pv⟩, s) := by
  have hp : (⟨bs, some pv⟩ : Packet O (PEnum.ops vs)).Ok S :=
    ⟨hb, fun v hv => by
      have := Option.some.inj hv
      subst this
      exact ⟨_, _, PEnum.ops_good ha g hc⟩, hsz⟩
  obtain ⟨w, _, e, _, _, r⟩ := C15_packet_roundtrip hp hn s
  exact ⟨w, e, r⟩

example : wideTy.Good [1, 2] [1, 2] (.len8 ⟨[1, 2, 3, 4, 5, 6, 7, 8], rfl⟩) := wideTy_good _ (by decide)

/-- A user payload type with a four byte CRC, in front of the default variants. -/
example : PVal.At bytesTy [5] ([wideTy] ++ [bytesTy, stringTy]) (.inr (.inl [5])) ∧ bytesTy.Good [5] [5] (PayloadTy.crcBlock [5]) ∧
    (PayloadTy.crcBlock [5]).size = 4 :=
  ⟨.there _ _ _ (by decide +kernel) (.here _), bytesTy_good _ (by decide), rfl⟩

end Brec.Props
