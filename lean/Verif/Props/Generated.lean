import Verif.Props.PacketHeader
import Verif.Props.PayloadHeader
import Verif.Props.PacketLimits
import Verif.Props.PacketWrite
import Verif.Props.NoPanic
import Verif.Props.ReaderLimits
import Verif.Props.StorageIter
/-!
# C52 and the packet, reader and storage properties for generated protocols

The theorems on packets hold for any block codec with a `BlockSpec` and any safe payload codec. Here they are stated for what the
macros generate: a list of block types and a list of payload types. Packets are described by their declaration (`Declared`), their
bytes by the documented layout (`IsWire`).
-/

namespace Brec.Props

open Brec Packet Rd

/-- A packet of a generated protocol: its block types are declared, well formed and have distinct signatures; its payload, if any,
is the first declared variant with its signature, its codec is consistent and its CRC has four bytes. -/
structure Declared {vs : List BlockTy} {ps : List PayloadTy} (p : Packet (blockEnum vs) (PEnum.ops ps)) : Prop where
  distinct : DistinctSigs vs
  wf : ∀ b ∈ vs, b.WF
  blocks : ∀ b ∈ p.blocks, b.1 ∈ vs
  payload : ∀ v, p.payload = some v → ∃ (T : PayloadTy) (u : T.Val) (x : Bytes) (c : ByteBlock),
    PVal.At T u (ps ++ [bytesTy, stringTy]) v ∧ T.Good u x c ∧ c.size = 4
  size : ∀ h, p.header = .ok h → h.size < 2 ^ 63

/-- Documented bytes of a payload: header, body. The checksum is the one the type defines, by default CRC-32 of the body. -/
def IsPayload (ps : List PayloadTy) : Option (PEnum.ops ps).V → Bytes → Prop
  | none, pb => pb = []
  | some v, pb => ∃ (T : PayloadTy) (u : T.Val) (x crc : Bytes),
      PVal.At T u (ps ++ [bytesTy, stringTy]) v ∧ T.body u = .ok x ∧ T.decode x = some u ∧
      (T.crcFn = none → crc = leBytes 4 (specCrc x)) ∧
      pb = specPayloadHeader T.ssig.asSlice crc x.length ++ x

/-- Documented bytes of a packet (`site/docs/specification.md`): header, blocks, payload. -/
def IsWire {vs : List BlockTy} {ps : List PayloadTy} (p : Packet (blockEnum vs) (PEnum.ops ps)) (w : Bytes) : Prop :=
  ∃ pb, IsPayload ps p.payload pb ∧
    w = specHeader ((p.blocks.map fun b => (specBlock b.1 b.2).length).sum + pb.length)
          (p.blocks.map fun b => (specBlock b.1 b.2).length).sum p.payload.isSome ++
        ((p.blocks.map fun b => specBlock b.1 b.2).flatten ++ pb)

variable {vs : List BlockTy} {ps : List PayloadTy} {p : Packet (blockEnum vs) (PEnum.ops ps)}

/-- The codec of a generated protocol. -/
abbrev Declared.spec (d : Declared p) : BlockSpec (blockEnum vs) := blockEnumSpec vs d.distinct d.wf

theorem Declared.ok (d : Declared p) : p.Ok d.spec where
  blocks := d.blocks
  payload := by
    intro v hv
    obtain ⟨T, u, x, c, ha, g, hc⟩ := d.payload v hv
    exact ⟨_, x, PEnum.ops_good ha g hc⟩
  size := d.size

theorem encs_spec (d : Declared p) (bs : List (blockEnum vs).B) :
    d.spec.encs bs = (bs.map fun b => specBlock b.1 b.2).flatten := by
  rw [BlockSpec.encs, List.flatMap_def]
  congr 1
  apply List.map_congr_left
  intro b _
  rw [specBlock_eq]; rfl

theorem length_flatten_map {α : Type} (f : α → Bytes) (l : List α) : (l.map f).flatten.length = (l.map fun a => (f a).length).sum := by
  induction l with
  | nil => rfl
  | cons a l ih => simp [ih]

theorem header_spec {h : PacketHeader} (w : h.WF) : h.bytes = specHeader h.size h.blocksLen h.payload := by
  have hc : leBytes 4 h.crc = PacketHeader.crcOf h.size h.blocksLen h.payload := by
    rw [w.crc_eq]; exact leBytes_leNat' (PacketHeader.crcOf_length ..)
  rw [PacketHeader.bytes, hc, PacketHeader.crcOf, crcBytes]
  simp only [specHeader, ← C51_crc32]
  simp [PACKET_SIG, flagByte]

/-- **C52.** What `write_all` puts on the wire for a packet of a generated protocol has the documented layout. -/
theorem C52_packet_layout (d : Declared p) : ∃ w, p.serialize = .ok w ∧ IsWire p w := by
  obtain ⟨h, pb, sh⟩ := d.ok.shape
  have hs := serialize_eq d.ok.blocks sh
  refine ⟨_, hs, ?_⟩
  have he := encs_spec d p.blocks
  have hl : (d.spec.encs p.blocks).length = (p.blocks.map fun b => (specBlock b.1 b.2).length).sum := by
    rw [he, length_flatten_map]
  cases hp : p.payload with
  | none =>
    have hpb : pb = [] := by have := sh.part; rw [hp] at this; cases this; rfl
    subst hpb
    refine ⟨[], by rw [hp]; rfl, ?_⟩
    rw [header_spec sh.wf, sh.size, sh.blocksLen, sh.flag, hl, he, List.append_assoc]
  | some v =>
    obtain ⟨T, u, x, c, ha, g, hc⟩ := d.payload v hp
    have hpb : pb = specPayloadHeader T.ssig.asSlice c.asSlice x.length ++ x := by
      have hpt := sh.part
      rw [hp] at hpt
      cases hpt with
      | @some _ ph y g' =>
        have e := g'.parts_eq
        rw [(PEnum.ops_good ha g hc).parts_eq] at e
        have e := Out.ok.inj e
        obtain ⟨e1, e2⟩ := Prod.mk.inj e
        rw [← e1, ← e2]
        simp [PayloadHeader.asVec, specPayloadHeader, leBytes]
    refine ⟨pb, ?_, ?_⟩
    · rw [hp]
      refine ⟨T, u, x, c.asSlice, ha, g.body_eq, g.decode_eq, ?_, hpb⟩
      intro hn
      have e := g.crc_eq
      rw [PayloadTy.crc, hn] at e
      simp only [g.body_eq, Out.map_ok] at e
      rw [← Out.ok.inj e, ← C51_crc32]
      rfl
    · rw [header_spec sh.wf, sh.size, sh.blocksLen, sh.flag, hl, he, List.append_assoc]

/-- The sample packet is declared. -/
theorem samplePacket_declared : Declared samplePacket where
  distinct := sampleTypes_distinct
  wf := sampleTypes_wf
  blocks := samplePacket_ok.blocks
  payload := by
    intro v hv
    have : v = .inr (.inl ⟨ascii "brec", by decide⟩) := (Option.some.inj hv).symm
    subst this
    exact ⟨stringTy, ⟨ascii "brec", by decide⟩, _, _, .there _ _ _ (by decide +kernel) (.here _), stringTy_good _ (by decide), rfl⟩
  size := samplePacket_ok.size

example : ∃ w, samplePacket.serialize = .ok w ∧ IsWire samplePacket w := C52_packet_layout samplePacket_declared

/-! ## Packets -/

/-- **C15** for generated protocols: reading gives the packet back, from bytes of the documented layout. -/
theorem C15_generated (d : Declared p) (hn : p.blocks.length ≤ 256) (s : Bytes) :
    ∃ w, IsWire p w ∧ p.serialize = .ok w ∧ (Packet.read (PEnum.ops ps)).run (w ++ s) = (.ok p, s) := by
  obtain ⟨w, h, e, _, _, r⟩ := C15_packet_roundtrip d.ok hn s
  obtain ⟨w', e', i⟩ := C52_packet_layout d
  obtain rfl : w = w' := by rw [e] at e'; exact Out.ok.inj e'
  exact ⟨w, i, e, r⟩

example : Declared samplePacket ∧ samplePacket.blocks.length ≤ 256 := ⟨samplePacket_declared, by decide⟩

/-- **C16** for generated protocols: the other reading paths return the same packet and leave the same bytes. -/
theorem C16_generated (d : Declared p) (hn : p.blocks.length ≤ 255) (s pre : Bytes) (chk : Bool) (log : List Bytes) :
    ∃ w, IsWire p w ∧ p.serialize = .ok w ∧
      Packet.tryRead (PEnum.ops ps) ⟨pre ++ (w ++ s), pre.length, chk⟩ = (.ok (.success p), ⟨pre ++ (w ++ s), pre.length + w.length, chk⟩) ∧
      (Packet.tryBuf (PEnum.ops ps) [w ++ s]).1 = .ok (.success p) ∧
      (Packet.tryBuf (O := blockEnum vs) (PEnum.ops ps) [w ++ s]).2.flatten = s ∧
      (∃ n, (Packet.filtered (PEnum.ops ps) ([] : Rules (blockEnum vs).BR (Packet (blockEnum vs) (PEnum.ops ps)))).run (w ++ s) =
        (.ok (.accepted n p), s)) ∧
      ∃ src, Rd.read ([] : Rules (blockEnum vs).BR (Packet (blockEnum vs) (PEnum.ops ps))) chk ⟨[some (w ++ s)], .empty, [], log⟩ =
        (.ok (.found p), ⟨src, .empty, [], log⟩) ∧ src.bytes = s := by
  obtain ⟨w, e, i⟩ := C52_packet_layout d
  refine ⟨w, i, e, ?_, ?_⟩
  · exact C16_tryRead d.ok (by omega) e _ s (by simp) (by simp [Cur.rest])
  obtain ⟨h1, h2⟩ := C16_tryBuf d.ok (by omega) e [w ++ s] s (by cases hw : w ++ s <;> simp [Chunks.fill, ← hw] ) (by simp)
  refine ⟨h1, h2, ?_, ?_⟩
  · obtain ⟨w', h, e', _, r⟩ := C16_filtered d.ok s
    obtain rfl : w = w' := by rw [e] at e'; exact Out.ok.inj e'
    exact ⟨_, r⟩
  · have hw : wire p = w := by rw [wire, e]
    have := C16_reader d.ok hn chk s [] [] log
    rw [hw] at this
    obtain ⟨src, r1, r2⟩ := this
    exact ⟨src, r1, by rw [r2]; simp [Events.bytes]⟩

example : Declared samplePacket ∧ samplePacket.blocks.length ≤ 255 := ⟨samplePacket_declared, by decide⟩

/-- **C18** for generated protocols, the part that holds: a cut before the end of the blocks makes the seekable reader ask for more. -/
theorem C18_generated_partial (d : Declared p) (hn : p.blocks.length ≤ 256) {w : Bytes} (hw : p.serialize = .ok w)
    {h : PacketHeader} (hh : p.header = .ok h) {k : Nat} (hk : k < w.length) (hb : k < 29 + h.blocksLen) (pre : Bytes) (chk : Bool) :
    ∃ n pos, 0 < n ∧ Packet.tryRead (O := blockEnum vs) (PEnum.ops ps) ⟨pre ++ w.take k, pre.length, chk⟩ =
      (.ok (.notEnough n), ⟨pre ++ w.take k, pos, chk⟩) := by
  obtain ⟨h1, h2, h3, _⟩ := C18_tryRead_partial d.ok hn hw hh hk (c := ⟨pre ++ w.take k, pre.length, chk⟩) (by simp) (by simp [Cur.rest])
  by_cases c1 : k < 29
  · exact ⟨_, _, by omega, h1 c1⟩
  by_cases c2 : k < h.size
  · exact ⟨_, _, by omega, h2 (by omega) c2⟩
  · obtain ⟨n, hn, _, e⟩ := h3 (by omega) (by omega) hb
    exact ⟨n, _, hn, e⟩

example : Declared samplePacket ∧ samplePacket.blocks.length ≤ 256 := ⟨samplePacket_declared, by decide⟩

/-- **C19** for generated protocols: `slices` and one unlimited `write` hand out the documented bytes. -/
theorem C19_generated (d : Declared p) :
    ∃ w ss, IsWire p w ∧ p.serialize = .ok w ∧ p.slices = .ok ss ∧ ss.flatten = w ∧ p.write.run ⟨[], []⟩ = (.ok w.length, ⟨[], w⟩) := by
  obtain ⟨w, e, i⟩ := C52_packet_layout d
  obtain ⟨w', h, ss, e', _, h1, h2, h3, _⟩ := C19_write_forms d.ok
  obtain rfl : w = w' := by rw [e] at e'; exact Out.ok.inj e'
  exact ⟨w, ss, i, e, h1, h2, h3⟩

example : Declared samplePacket := samplePacket_declared

/-- **C20** for generated protocols: whatever the sink does, the count `write` reports is the number of documented bytes it took, and they
are a prefix. -/
theorem C20_generated (d : Declared p) (s : Sink) : ∃ w, IsWire p w ∧ Honest w 0 s (p.write.run s) := by
  obtain ⟨w, e, i⟩ := C52_packet_layout d
  obtain ⟨w', e', h⟩ := C20_partial_write d.ok s
  obtain rfl : w = w' := by rw [e] at e'; exact Out.ok.inj e'
  exact ⟨w, i, h⟩

example : Declared samplePacket := samplePacket_declared

/-- **C28** for generated protocols: the rules see the blocks (as zero-copy views), the payload body and the packet. -/
theorem C28_generated (d : Declared p) (rules : Rules (blockEnum vs).BR (Packet (blockEnum vs) (PEnum.ops ps))) (s : Bytes) :
    ∃ w n, IsWire p w ∧
      (Packet.filtered (PEnum.ops ps) rules).run (w ++ s) =
        (if passBlocks rules (p.blocks.map fun b => ⟨b.1, ⟨b.1.sig, b.2, b.1.crc b.2⟩⟩) &&
            ((match bodyOf p with | some x => passPayload rules x | none => true) && passPacket rules p)
          then .ok (.accepted n p) else .ok (.denied n), s) := by
  obtain ⟨w, e, i⟩ := C52_packet_layout d
  obtain ⟨w', h, body, e', _, hb, r⟩ := C28_filtered d.ok rules s
  obtain rfl : w = w' := by rw [e] at e'; exact Out.ok.inj e'
  have : body = bodyOf p := by
    unfold bodyOf
    cases hp : p.payload with
    | none => cases body with
      | none => rfl
      | some x => rw [hp] at hb; exact absurd hb id
    | some v => cases body with
      | none => rw [hp] at hb; exact absurd hb id
      | some x =>
        rw [hp] at hb
        obtain ⟨ph, hb⟩ := hb
        simp only [hb]
  subst this
  exact ⟨w, h.size, i, r⟩

example : Declared samplePacket := samplePacket_declared

/-! ## The stream reader -/

/-- **C22, C24** for generated protocols: a stream of packets in documented layout, in any reads, comes out packet by packet:
`Found` what the rules accept, `Skipped` what they do not, then `NoData`. -/
theorem C24_generated (hd : DistinctSigs vs) (hw : ∀ b ∈ vs, b.WF) (qs : List (Packet (blockEnum vs) (PEnum.ops ps)))
    (hp : ∀ p ∈ qs, Declared p ∧ p.blocks.length ≤ 255) (rules : Rules (blockEnum vs).BR (Packet (blockEnum vs) (PEnum.ops ps)))
    (chk : Bool) (cs : Chunks) (hc : Cuts cs (qs.map wire).flatten) :
    (∀ p ∈ qs, IsWire p (wire p)) ∧
    ∃ n, loud (reads rules chk n (.new (cs.map some))).1 =
        qs.map (fun p => .ok (if passBlocks rules (p.blocks.map fun b => ⟨b.1, ⟨b.1.sig, b.2, b.1.crc b.2⟩⟩) &&
            ((match bodyOf p with | some x => passPayload rules x | none => true) && passPacket rules p)
          then .found p else .skipped)) ++ [.ok .noData] ∧
      (reads rules chk n (.new (cs.map some))).2.log = [] := by
  constructor
  · intro p h
    obtain ⟨w, e, i⟩ := C52_packet_layout (hp p h).1
    rw [wire, e]; exact i
  · obtain ⟨n, h1, h2, _⟩ := C24_rules (S := blockEnumSpec vs hd hw) qs (fun p h => ⟨(hp p h).1.ok, (hp p h).2⟩) rules chk cs hc
    exact ⟨n, h1, h2⟩

example : DistinctSigs sampleTypes ∧ (∀ b ∈ sampleTypes, b.WF) ∧ (Declared samplePacket ∧ samplePacket.blocks.length ≤ 255) ∧
    Cuts [wire samplePacket] ([samplePacket].map wire).flatten :=
  ⟨sampleTypes_distinct, sampleTypes_wf, ⟨samplePacket_declared, by decide⟩, by decide +kernel, by decide +kernel⟩

/-- **C26, C49** for generated protocols: no reader of a generated protocol panics, on any bytes, under the conditions of the partial theorems. -/
theorem C49_generated_partial (vs : List BlockTy) (ps : List PayloadTy) (s : Bytes) (pos : Nat) (hpos : pos ≤ s.length) (chk : Bool) (cs : Chunks)
    (rules : Rules (blockEnum vs).BR (Packet (blockEnum vs) (PEnum.ops ps))) :
    ((∀ h s', PacketHeader.read.run s = (.ok h, s') → h.size < 2 ^ 63) →
      ((Packet.read (O := blockEnum vs) (PEnum.ops ps)).run s).1 ≠ .panic ∧ ((Packet.filtered (PEnum.ops ps) rules).run s).1 ≠ .panic) ∧
    (Packet.tryRead (O := blockEnum vs) (PEnum.ops ps) ⟨s, pos, chk⟩).1 ≠ .panic ∧
    (Packet.tryBuf (O := blockEnum vs) (PEnum.ops ps) cs).1 ≠ .panic :=
  ⟨fun h => ⟨C49_read_partial (blockEnum_safe vs) (PEnum.ops_safe ps) s h, C49_filtered_partial (blockEnum_safe vs) (PEnum.ops_safe ps) rules s h⟩,
    C49_tryRead (blockEnum_safe vs) (PEnum.ops_safe ps) hpos, C49_tryBuf (blockEnum_safe vs) (PEnum.ops_safe ps) cs⟩

example : ∀ h s', PacketHeader.read.run [] = (.ok h, s') → h.size < 2 ^ 63 := by
  intro h s' e
  have : (PacketHeader.read.run []).1 = .ok h := by rw [e]
  revert this
  have : ((PacketHeader.read.run []).1 matches .err _) = true := by decide +kernel
  intro e'
  rw [e'] at this
  cases this

theorem C26_generated_partial (vs : List BlockTy) (ps : List PayloadTy) (rules : Rules (blockEnum vs).BR (Packet (blockEnum vs) (PEnum.ops ps)))
    (chk : Bool) (es : Events) (hlen : ∀ c, some c ∈ es → c.length < 2 ^ 63)
    (hh : ∀ k h, PacketHeader.readSlice (es.bytes.drop k) = .ok h → h.blocksLen ≤ h.size ∧ h.size < 2 ^ 63)
    (hl : chk = false ∨ ∀ c, some c ∈ es.dropLast → 29 ≤ c.length) (n : Nat) :
    Out.panic ∉ (reads rules chk n (.new es)).1 :=
  C26_no_panic_partial (blockEnum_safe vs) (PEnum.ops_safe ps) rules chk es hlen hh hl n

/-! ## The storage -/

/-- **C29, C30** for generated protocols: packets inserted in any number of sessions are read back, in order, by number and by
iteration. -/
theorem C30_generated (hd : DistinctSigs vs) (hw : ∀ b ∈ vs, b.WF) {cap : Nat} (hc : 0 < cap) (chk : Bool)
    (ops : List (Op (blockEnum vs) (PEnum.ops ps))) (hok : ∀ p ∈ log ops, Declared p ∧ p.blocks.length ≤ 256) (hs : Small cap (log ops)) :
    ∃ w s, runOps cap chk ops emptyWriter = some w ∧ openReader chk w.data = some (.ok s) ∧
      s.count cap = (log ops).length ∧
      (∀ i, s.nth cap chk w.data i = .ok (log ops)[i]?) ∧
      IterYields s w.data ((log ops).map .ok) :=
  C30_reopen (S := blockEnumSpec vs hd hw) hc chk ops (fun p h => ⟨(hok p h).1.ok, (hok p h).2⟩) hs

example : ∀ p ∈ log [Op.insert samplePacket, .reopen, .insert samplePacket], Declared p ∧ p.blocks.length ≤ 256 := by
  intro p hp
  have : p = samplePacket := by
    simp only [log, List.mem_cons, List.not_mem_nil, or_false] at hp
    rcases hp with h | h <;> exact h
  subst this
  exact ⟨samplePacket_declared, by decide⟩

/-- The table of a slot: signature, capacity, lengths (zero for a free place), CRC-32 of capacity and lengths. -/
def specSlot (cap : Nat) (g : List Bytes) : Bytes :=
  let body := leBytes 8 cap ++ (g.map (fun w => leBytes 8 w.length)).flatten ++ List.replicate (8 * (cap - g.length)) 0
  [166, 177, 188, 199, 199, 188, 177, 166] ++ body ++ leBytes 4 (specCrc body)

/-- A storage file: slots of `cap` packets, the last one possibly with fewer; each is a table followed by its packets. -/
def specFile (cap : Nat) : List Bytes → Bytes
  | [] => []
  | w :: ws => specSlot cap ((w :: ws).take cap) ++ ((w :: ws).take cap).flatten ++ specFile cap (ws.drop (cap - 1))
  termination_by l => l.length
  decreasing_by simp; omega

theorem enc_table {cap : Nat} (g : List Bytes) : (table cap g).enc = specSlot cap g := by
  have hz : ∀ n, ((List.replicate n 0).flatMap (leBytes 8)) = List.replicate (8 * n) (0 : Byte) := by
    intro n
    induction n with
    | zero => rfl
    | succ n ih =>
      rw [List.replicate_succ, List.flatMap_cons, ih, Nat.mul_succ, Nat.add_comm, ← List.replicate_append_replicate]
      rfl
  have hl : (lens cap g).flatMap (leBytes 8) =
      (g.map (fun w => leBytes 8 w.length)).flatten ++ List.replicate (8 * (cap - g.length)) 0 := by
    rw [lens, List.flatMap_append, hz, List.flatMap_map, List.flatMap_def]
  simp only [Slot.enc, table, Slot.crcOf, Slot.body, crcBytes, specSlot, ← C51_crc32, hl, SLOT_SIG, List.append_assoc]

theorem fileOf_spec {cap : Nat} (hc : 0 < cap) : ∀ {gs : List (List Bytes)}, Groups cap gs → fileOf cap gs = specFile cap gs.flatten
  | [], _ => by simp [fileOf, specFile]
  | g :: gs, h => by
    have hg := (h.group g (by simp)).le
    obtain ⟨w, t, rfl⟩ := List.exists_cons_of_ne_nil (h.ne g (by simp))
    have htk : ((w :: t) ++ gs.flatten).take cap = w :: t ∧ ((w :: t) ++ gs.flatten).drop cap = gs.flatten := by
      by_cases hgs : gs = []
      · subst hgs
        simp only [List.flatten_nil, List.append_nil]
        exact ⟨List.take_of_length_le hg, List.drop_of_length_le hg⟩
      · have := h.head_full hgs
        exact ⟨by rw [← this, List.take_left], by rw [← this, List.drop_left]⟩
    have ih := fileOf_spec hc h.tail
    rw [fileOf, List.flatMap_cons, ← fileOf, ih, List.flatten_cons, region, enc_table, List.cons_append, specFile, ← List.cons_append, htk.1]
    congr 2
    obtain ⟨c, rfl⟩ := Nat.exists_eq_succ_of_ne_zero (Nat.ne_of_gt hc)
    have := htk.2
    rw [List.cons_append, List.drop_succ_cons] at this
    exact this.symm

/-- **C53.** The file of a storage holds, for the packets inserted in any number of sessions, slots in the documented layout and
nothing else; the packets are those of C52. -/
theorem C53_file_layout (hd : DistinctSigs vs) (hw : ∀ b ∈ vs, b.WF) {cap : Nat} (hc : 0 < cap) (chk : Bool)
    (ops : List (Op (blockEnum vs) (PEnum.ops ps))) (hok : ∀ p ∈ log ops, Declared p) (hs : Small cap (log ops)) :
    ∃ w, runOps cap chk ops emptyWriter = some w ∧ w.data = specFile cap ((log ops).map wire) ∧ ∀ p ∈ log ops, IsWire p (wire p) := by
  obtain ⟨w, gs, e, i, f⟩ := runOps_inv (S := blockEnumSpec vs hd hw) hc chk ops (ps := []) (empty_inv cap) rfl (fun p h => (hok p h).ok) hs
  refine ⟨w, e, ?_, ?_⟩
  · rw [i.data, fileOf_spec hc i.groups, f]; rfl
  · intro p h
    obtain ⟨w, e, i⟩ := C52_packet_layout (hok p h)
    rw [wire, e]; exact i

example : DistinctSigs sampleTypes ∧ (∀ b ∈ sampleTypes, b.WF) ∧ (∀ p ∈ log [Op.insert samplePacket], Declared p) ∧ Small 500 (log [Op.insert samplePacket]) := by
  refine ⟨sampleTypes_distinct, sampleTypes_wf, ?_, ?_⟩
  · intro p hp
    have : p = samplePacket := by
      simp only [log, List.mem_cons, List.not_mem_nil, or_false] at hp
      exact hp
    subst this
    exact samplePacket_declared
  · show Small 500 [samplePacket]
    have : (wire samplePacket).length = 125 := by decide +kernel
    unfold Small
    simp [this]

theorem specSlot_length {cap : Nat} {g : List Bytes} (h : g.length ≤ cap) : (specSlot cap g).length = 20 + 8 * cap := by
  have hf : ∀ l : List Bytes, (l.map fun w => leBytes 8 w.length).flatten.length = 8 * l.length := by
    intro l
    induction l with
    | nil => rfl
    | cons a l ih => rw [List.map_cons, List.flatten_cons, List.length_append, ih, leBytes_length, List.length_cons]; omega
  simp only [specSlot, List.length_append, leBytes_length, hf, List.length_replicate, List.length_cons, List.length_nil]
  omega

theorem specFile_length {cap : Nat} (hc : 0 < cap) (ws : List Bytes) :
    (specFile cap ws).length = (20 + 8 * cap) * ((ws.length + cap - 1) / cap) + ws.flatten.length := by
  induction hn : ws.length using Nat.strongRecOn generalizing ws with
  | ind n ih =>
    match ws with
    | [] =>
      subst hn
      rw [specFile, Nat.div_eq_of_lt (by rw [List.length_nil]; omega)]
      simp
    | w :: ws =>
      rw [List.length_cons] at hn
      have hd : ws.drop (cap - 1) = (w :: ws).drop cap := by
        obtain ⟨c, rfl⟩ := Nat.exists_eq_succ_of_ne_zero (Nat.ne_of_gt hc)
        rfl
      have hlen : ((w :: ws).take cap).flatten.length + ((w :: ws).drop cap).flatten.length = (w :: ws).flatten.length := by
        rw [← List.length_append, ← List.flatten_append, List.take_append_drop]
      rw [specFile, List.length_append, List.length_append, specSlot_length (by rw [List.length_take]; omega), hd,
        ih ((w :: ws).drop cap).length (by rw [List.length_drop, List.length_cons]; omega) _ rfl, List.length_drop, List.length_cons, hn]
      have hdiv : (n + cap - 1) / cap = (n - cap + cap - 1) / cap + 1 := by
        rcases Nat.lt_or_ge n cap with h | h
        · rw [show n - cap + cap - 1 = cap - 1 by omega, Nat.div_eq_of_lt (show cap - 1 < cap by omega), show n + cap - 1 = (n - 1) + cap by omega, Nat.add_div_right _ hc,
            Nat.div_eq_of_lt (by omega)]
        · rw [show n - cap + cap - 1 = n - 1 by omega, show n + cap - 1 = (n - 1) + cap by omega, Nat.add_div_right _ hc]
      rw [hdiv, Nat.mul_succ]
      omega

/-- **C53.** How long the file is: a table for every slot begun, and the packets. -/
theorem C53_size (hd : DistinctSigs vs) (hw : ∀ b ∈ vs, b.WF) {cap : Nat} (hc : 0 < cap) (chk : Bool)
    (ops : List (Op (blockEnum vs) (PEnum.ops ps))) (hok : ∀ p ∈ log ops, Declared p) (hs : Small cap (log ops)) :
    ∃ w, runOps cap chk ops emptyWriter = some w ∧
      w.data.length = (20 + 8 * cap) * (((log ops).length + cap - 1) / cap) + ((log ops).map wire).flatten.length := by
  obtain ⟨w, e, f, _⟩ := C53_file_layout hd hw hc chk ops hok hs
  exact ⟨w, e, by rw [f, specFile_length hc, List.length_map]⟩

/-- **C53.** The crate's own capacity: every slot has 500 places, its table takes 4020 bytes, and the file begins with the signature of a slot and the number 500. -/
theorem C53_default (hd : DistinctSigs vs) (hw : ∀ b ∈ vs, b.WF) (chk : Bool)
    (ops : List (Op (blockEnum vs) (PEnum.ops ps))) (hok : ∀ p ∈ log ops, Declared p) (hs : Small SLOT_CAPACITY (log ops)) (hne : log ops ≠ []) :
    ∃ w, runOps SLOT_CAPACITY chk ops emptyWriter = some w ∧
      w.data.length = 4020 * (((log ops).length + 499) / 500) + ((log ops).map wire).flatten.length ∧
      w.data.take 16 = [166, 177, 188, 199, 199, 188, 177, 166, 244, 1, 0, 0, 0, 0, 0, 0] := by
  obtain ⟨w, e, f, _⟩ := C53_file_layout hd hw (show 0 < SLOT_CAPACITY by decide) chk ops hok hs
  refine ⟨w, e, by rw [f, specFile_length (by decide), List.length_map]; rfl, ?_⟩
  rw [f]
  obtain ⟨p, l, hl⟩ := List.exists_cons_of_ne_nil hne
  rw [hl, List.map_cons, specFile]
  simp only [specSlot]
  rw [show leBytes 8 SLOT_CAPACITY = [244, 1, 0, 0, 0, 0, 0, 0] from by decide]
  rfl

end Brec.Props
