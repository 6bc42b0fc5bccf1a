import Verif.PacketLemmas
import Verif.RuleSpec
import Verif.Props.Block
/-!
# Properties C15–C20, C28, C45: packets

The theorems hold for every block codec with a `BlockSpec` and every payload codec; `blockEnumSpec` and
`PEnum.ops_good` give these for the generated enums.
-/

namespace Brec.Props

open Brec Packet

variable {O : BlockOps} {Q : PayloadOps} {S : BlockSpec O} {p : Packet O Q}

/-! ## Sample codec (non-vacuity): two block types, payload enum with `Bytes` and `String` -/

def sampleTypes : List BlockTy := [otherBlock, sampleBlock]

theorem sampleTypes_wf : ∀ b ∈ sampleTypes, b.WF := by
  intro b hb
  simp only [sampleTypes, List.mem_cons, List.not_mem_nil, or_false] at hb
  rcases hb with rfl | rfl
  · exact ⟨rfl, by intro t ht; cases ht⟩
  · exact sampleBlock_wf

theorem sampleTypes_distinct : DistinctSigs sampleTypes := by
  simp [DistinctSigs, sampleTypes, otherBlock, sampleBlock]

def sampleSpec : BlockSpec (blockEnum sampleTypes) := blockEnumSpec sampleTypes sampleTypes_distinct sampleTypes_wf

/-- Three blocks and a string payload. -/
def samplePacket : Packet (blockEnum sampleTypes) (PEnum.ops []) :=
  ⟨[⟨sampleBlock, sampleVals⟩, ⟨sampleBlock, sampleVals⟩, ⟨sampleBlock, sampleVals⟩],
    some (.inr (.inl ⟨ascii "brec", by decide⟩))⟩

theorem samplePayload_good : ∃ ph, (PEnum.ops []).Good (.inr (.inl ⟨ascii "brec", by decide⟩)) ph (ascii "brec") :=
  ⟨_, PEnum.ops_good (T := stringTy) (v := ⟨ascii "brec", by decide⟩) (vs := [])
    (.there _ _ _ (by decide +kernel) (.here _)) (stringTy_good _ (by decide)) rfl⟩

theorem samplePacket_ok : samplePacket.Ok sampleSpec where
  blocks := by
    intro b hb
    have hb : b = ⟨sampleBlock, sampleVals⟩ := by
      rcases List.mem_cons.mp hb with e | hb
      · exact e
      rcases List.mem_cons.mp hb with e | hb
      · exact e
      rcases List.mem_cons.mp hb with e | hb
      · exact e
      cases hb
    subst hb
    show sampleBlock ∈ sampleTypes
    simp [sampleTypes]
  payload := by
    intro v hv
    obtain ⟨ph, g⟩ := samplePayload_good
    have : v = .inr (.inl ⟨ascii "brec", by decide⟩) := (Option.some.inj hv).symm
    subst this
    exact ⟨ph, _, g⟩
  size := by
    intro h hh
    obtain ⟨ph, g⟩ := samplePayload_good
    have : samplePacket.header = .ok (PacketHeader.ofSizes 78 (some 18)) := by rfl
    rw [this] at hh
    injection hh with hh
    subst hh
    decide

/-! ## C15 -/

/-- The reading core shared by C15: what `ReadFrom` makes of the inner bytes. -/
theorem ofInner_eq {h : PacketHeader} {pb : Bytes} (hb : ∀ b ∈ p.blocks, S.ok b) (sh : Shape S p h pb)
    (hn : p.blocks.length ≤ 256) : ofInner Q h (S.encs p.blocks ++ pb) = .ok p := by
  have hblk : (if h.blocksLen > 0 then blocksBuf O h.blocksLen MAX_BLOCKS 0 [] [S.encs p.blocks ++ pb]
      else (.ok (.success []), [S.encs p.blocks ++ pb])).1 = .ok (.success p.blocks) ∧
      (if h.blocksLen > 0 then blocksBuf O h.blocksLen MAX_BLOCKS 0 [] [S.encs p.blocks ++ pb]
      else (.ok (.success []), [S.encs p.blocks ++ pb])).2.flatten = pb := by
    rw [sh.blocksLen]
    by_cases hne : p.blocks = []
    · simp [hne, BlockSpec.encs]
    · rw [if_pos (S.encs_pos hb hne), blocksBuf_eq hb hne (s := pb) (by simp) (by simp) (by simp [MAX_BLOCKS]; omega) (by simp)]
      simp [Chunks.flatten_skip]
  unfold ofInner
  simp only
  rw [hblk.1]
  simp only
  obtain ⟨blocks, payload⟩ := p
  have hf := sh.flag
  have hp := sh.part
  cases hp with
  | none => simp [hf]
  | @some v ph x g =>
    simp only [hf, Option.isSome_some, if_true]
    rw [Chunks.run_take hblk.2 (PayloadHeader.read_asVec ph g.len_lt x)]
    simp only
    rw [Chunks.run_take (m := x) (s := []) (by rw [Chunks.flatten_skip, hblk.2]; simp) (g.read_eq [])]
    rfl

/-- **C15**. A packet (of up to 256 blocks) written with `write_all` and read with `ReadFrom` comes back, exactly
`29 + header.size` bytes are used and what follows is untouched. -/
theorem C15_packet_roundtrip (hp : p.Ok S) (hn : p.blocks.length ≤ 256) (s : Bytes) :
    ∃ w h, p.serialize = .ok w ∧ p.header = .ok h ∧ w.length = 29 + h.size ∧
      (Packet.read Q).run (w ++ s) = (.ok p, s) := by
  obtain ⟨h, pb, sh⟩ := hp.shape
  refine ⟨_, h, serialize_eq hp.blocks sh, sh.header, ?_, ?_⟩
  · simp only [List.length_append, PacketHeader.bytes_length, sh.size, HSIZE]; omega
  · unfold Packet.read
    rw [List.append_assoc, List.append_assoc, P.bind_ok (PacketHeader.read_bytes sh.wf _),
      P.bind_ok (a := ()) (s' := S.encs p.blocks ++ (pb ++ s)) (by simp [allocZeroed, sh.small]),
      ← List.append_assoc, P.bind_ok (P.readExact_append' (by rw [sh.size]; simp) s), P.lift_run,
      ofInner_eq hp.blocks sh hn]

example : ∃ w, samplePacket.serialize = .ok w ∧ (Packet.read (PEnum.ops [])).run (w ++ [1, 2]) = (.ok samplePacket, [1, 2]) := by
  obtain ⟨w, h, e, _, _, r⟩ := C15_packet_roundtrip samplePacket_ok (by decide) [1, 2]
  exact ⟨w, e, r⟩

/-! ## C16 -/

/-- **C16**, seekable reader. -/
theorem C16_tryRead (hp : p.Ok S) (hn : p.blocks.length ≤ 256) {w : Bytes} (hw : p.serialize = .ok w) (c : Cur) (s : Bytes)
    (hc : c.pos ≤ c.data.length) (hr : c.rest = w ++ s) :
    Packet.tryRead Q c = (.ok (.success p), { c with pos := c.pos + w.length }) := by
  obtain ⟨h, pb, sh⟩ := hp.shape
  rw [serialize_eq hp.blocks sh] at hw
  injection hw with hw
  subst hw
  have hrl := congrArg List.length hr
  simp only [List.append_assoc] at hr
  simp only [Cur.rest, List.length_drop, List.length_append, PacketHeader.bytes_length] at hrl
  unfold Packet.tryRead
  rw [Cur.remaining_ok hc]
  simp only
  rw [PacketHeader.tryRead_bytes sh.wf hc hr]
  simp only
  rw [if_neg (by rw [sh.size]; simp only [Cur.rest, List.length_drop]; omega)]
  have hr1 : ({ c with pos := c.pos + HSIZE } : Cur).rest = S.encs p.blocks ++ (pb ++ s) := by
    have := Cur.rest_add hr
    rwa [PacketHeader.bytes_length] at this
  have hblk : (if h.blocksLen > 0 then blocksCur O h.blocksLen MAX_BLOCKS 0 [] { c with pos := c.pos + HSIZE }
      else (.ok (.success []), { c with pos := c.pos + HSIZE })) =
      (.ok (.success p.blocks), { c with pos := c.pos + HSIZE + (S.encs p.blocks).length }) := by
    rw [sh.blocksLen]
    by_cases hne : p.blocks = []
    · simp [hne, BlockSpec.encs]
    · rw [if_pos (S.encs_pos hp.blocks hne),
        blocksCur_eq hp.blocks hne (s := pb ++ s) (by simp only; omega) hr1 (by simp [MAX_BLOCKS]; omega) (by simp)]
      simp
  rw [hblk]
  simp only
  have hr2 : ({ c with pos := c.pos + HSIZE + (S.encs p.blocks).length } : Cur).rest = pb ++ s := by
    have := Cur.rest_add hr1
    exact this
  unfold payloadCur
  have hf := sh.flag
  have hpt := sh.part
  obtain ⟨blocks, payload⟩ := p
  cases hpt with
  | none =>
    simp only [hf, Option.isSome_none, Bool.false_eq_true, if_false]
    simp [Nat.add_assoc]
  | @some v ph x g =>
    simp only [hf, Option.isSome_some, if_true]
    rw [List.append_assoc] at hr2
    simp only [List.length_append] at hrl
    rw [PayloadHeader.tryRead_asVec ph g.len_lt (by simp only; omega) hr2]
    simp only
    have hr3 := Cur.rest_add hr2
    rw [PayloadHeader.size_eq] at hr3 hrl
    rw [g.tryRead_eq _ s (by simp only; omega) hr3]
    simp [Nat.add_assoc, PayloadHeader.size_eq]

/-- **C16**, buffered reader with the whole packet in its current buffer. -/
theorem C16_tryBuf (hp : p.Ok S) (hn : p.blocks.length ≤ 256) {w : Bytes} (hw : p.serialize = .ok w) (cs : Chunks) (s : Bytes)
    (hf : w.length ≤ (Chunks.fill cs).length) (hr : cs.flatten = w ++ s) :
    (Packet.tryBuf Q cs).1 = .ok (.success p) ∧ (Packet.tryBuf (O := O) Q cs).2.flatten = s := by
  obtain ⟨h, pb, sh⟩ := hp.shape
  rw [serialize_eq hp.blocks sh] at hw
  injection hw with hw
  subst hw
  obtain ⟨r, hpre⟩ := Chunks.fill_prefix cs
  obtain ⟨t, ht⟩ : ∃ t, Chunks.fill cs = h.bytes ++ S.encs p.blocks ++ pb ++ t := by
    have hx : h.bytes ++ S.encs p.blocks ++ pb <+: Chunks.fill cs :=
      List.prefix_of_prefix_length_le (l₃ := cs.flatten) ⟨s, hr.symm⟩ ⟨r, hpre⟩ hf
    obtain ⟨t, ht⟩ := hx
    exact ⟨t, ht.symm⟩
  simp only [List.append_assoc] at hr ht
  have hlf := congrArg List.length ht
  simp only [List.length_append, PacketHeader.bytes_length, HSIZE] at hlf
  unfold Packet.tryBuf
  simp only
  rw [if_neg (by simp only [HSIZE]; omega)]
  have : PacketHeader.readSlice (Chunks.fill cs) = .ok h := by
    rw [ht]; exact PacketHeader.readSlice_bytes sh.wf _
  rw [this]
  simp only
  rw [if_neg (by rw [sh.size]; omega)]
  have hc1 : (Chunks.consume HSIZE cs).flatten = S.encs p.blocks ++ (pb ++ s) := by
    rw [Chunks.flatten_consume (by simp only [HSIZE]; omega), hr]
    rw [List.drop_append_of_le_length (by simp)]
    rw [List.drop_of_length_le (by simp)]
    rfl
  have hfill1 : (S.encs p.blocks).length + pb.length ≤ (Chunks.fill (Chunks.consume HSIZE cs)).length ∨
      S.encs p.blocks ++ pb = [] := by
    by_cases he : S.encs p.blocks ++ pb = []
    · exact .inr he
    · left
      have hpos : 0 < (S.encs p.blocks ++ pb).length := List.length_pos_iff.mpr he
      simp only [List.length_append] at hpos
      rw [Chunks.consume, Nat.min_eq_left (by simp only [HSIZE]; omega), Chunks.fill_skip (by simp only [HSIZE]; omega),
        List.length_drop]
      simp only [HSIZE]; omega
  have hblk : ∃ cs', (if h.blocksLen > 0 then blocksBuf O h.blocksLen MAX_BLOCKS 0 [] (Chunks.consume HSIZE cs)
      else (.ok (.success []), Chunks.consume HSIZE cs)) = (.ok (.success p.blocks), cs') ∧
      cs'.flatten = pb ++ s ∧ (pb = [] ∨ pb.length ≤ (Chunks.fill cs').length) := by
    rw [sh.blocksLen]
    by_cases hne : p.blocks = []
    · refine ⟨Chunks.consume HSIZE cs, by simp [hne, BlockSpec.encs], by simp [hc1, hne, BlockSpec.encs], ?_⟩
      rcases hfill1 with h1 | h1
      · right; omega
      · left; simp at h1; exact h1.2
    · have hpos := S.encs_pos hp.blocks hne
      rcases hfill1 with h1 | h1
      · rw [if_pos hpos, blocksBuf_eq hp.blocks hne hc1 (by omega) (by simp [MAX_BLOCKS]; omega) (by simp)]
        refine ⟨_, by simp; rfl, by rw [Chunks.flatten_skip, hc1]; simp, ?_⟩
        by_cases hpb : pb = []
        · exact .inl hpb
        · right
          have := List.length_pos_iff.mpr hpb
          rw [Chunks.fill_skip (by omega), List.length_drop]; omega
      · rw [List.append_eq_nil_iff] at h1
        rw [h1.1] at hpos; simp at hpos
  obtain ⟨cs', e, hfl, hpb⟩ := hblk
  rw [e]
  simp only
  have hflag := sh.flag
  have hpt := sh.part
  obtain ⟨blocks, payload⟩ := p
  cases hpt with
  | none => simp only [hflag, Option.isSome_none, Bool.false_eq_true, if_false]; exact ⟨trivial, by simpa using hfl⟩
  | @some v ph x g =>
    simp only [hflag, Option.isSome_some, if_true]
    have hl : (ph.asVec ++ x).length ≤ (Chunks.fill cs').length := by
      rcases hpb with h0 | h0
      · rw [h0]; simp
      · exact h0
    have hpk : PayloadHeader.tryBuf cs' = (.ok (.success ph), cs') := by
      obtain ⟨r', hpre'⟩ := Chunks.fill_prefix cs'
      obtain ⟨t', ht'⟩ : ph.asVec ++ x <+: Chunks.fill cs' :=
        List.prefix_of_prefix_length_le (l₃ := cs'.flatten) ⟨s, hfl.symm⟩ ⟨r', hpre'⟩ hl
      rw [PayloadHeader.tryBuf, ← ht', List.append_assoc, PayloadHeader.peek_asVec ph g.len_lt]
    rw [hpk]
    simp only
    have hfl2 : (Chunks.consume ph.size cs').flatten = x ++ s := by
      rw [List.length_append, PayloadHeader.size_eq] at hl
      rw [Chunks.flatten_consume (by omega), hfl, List.append_assoc, ← PayloadHeader.size_eq]
      simp
    rw [g.tryBuf_eq _ s hfl2]
    simp only
    exact ⟨trivial, by rw [Chunks.flatten_skip, hfl2]; simp⟩

/-! ## C28 and the `filtered` part of C16 -/

/-- What the rules say about a packet: referred blocks, raw payload body, packet. -/
def accepts (S : BlockSpec O) (rules : Rules O.BR (Packet O Q)) (p : Packet O Q) (body : Option Bytes) : Bool :=
  passBlocks rules (p.blocks.map S.ref) &&
    ((match body with | some x => passPayload rules x | none => true) && passPacket rules p)

theorem accepts_eq (S : BlockSpec O) (rules : Rules O.BR (Packet O Q)) (p : Packet O Q) (body : Option Bytes) :
    accepts S rules p body = (rules.filterByBlocks (p.blocks.map S.ref) &&
      ((match body with | some x => rules.filterByPayload x | none => true) && rules.filter p)) := by
  unfold accepts
  cases body <;> simp only [filterByBlocks_eq, filterByPayload_eq, filter_eq]

theorem map_into {bs : List O.B} (h : ∀ b ∈ bs, S.ok b) : (bs.map S.ref).map O.into = bs := by
  induction bs with
  | nil => rfl
  | cons b bs ih =>
    simp only [List.map_cons]
    rw [S.into_eq b (h b (by simp)), ih fun b hb => h b (by simp [hb])]

/-- **C28**. `filtered` returns `Accepted` exactly when all rules accept and `Denied` otherwise; in both cases it reports
`header.size` and leaves the source exactly at the end of the packet. (No limit on the number of blocks.) -/
theorem C28_filtered (hp : p.Ok S) (rules : Rules O.BR (Packet O Q)) (s : Bytes) :
    ∃ w h body, p.serialize = .ok w ∧ p.header = .ok h ∧
      (match p.payload, body with
        | none, none => True
        | some v, some x => ∃ ph, Q.parts v = .ok (ph, x)
        | _, _ => False) ∧
      (Packet.filtered Q rules).run (w ++ s) =
        (if accepts S rules p body then .ok (.accepted h.size p) else .ok (.denied h.size), s) := by
  obtain ⟨h, pb, sh⟩ := hp.shape
  have hblk : (if h.blocksLen > 0 then slicesLoop O (S.encs p.blocks ++ pb) h.blocksLen ((S.encs p.blocks ++ pb).length + 1) 0 []
      else .ok []) = .ok (p.blocks.map S.ref) := by
    rw [sh.blocksLen]
    by_cases hne : p.blocks = []
    · simp [hne, BlockSpec.encs]
    · rw [if_pos (S.encs_pos hp.blocks hne), slicesLoop_eq hp.blocks hne (s := pb) (by omega) (by simp)
        (by have := S.length_le hp.blocks; simp only [List.length_append]; omega) (by simp)]
      simp
  have hrun : ∀ o, look Q rules h (S.encs p.blocks ++ pb) = o →
      (Packet.filtered Q rules).run (h.bytes ++ S.encs p.blocks ++ pb ++ s) = (o, s) := by
    intro o ho
    unfold filtered
    rw [List.append_assoc, List.append_assoc, P.bind_ok (PacketHeader.read_bytes sh.wf _),
      P.bind_ok (a := ()) (s' := S.encs p.blocks ++ (pb ++ s)) (by simp [allocZeroed, sh.small]),
      ← List.append_assoc, P.bind_ok (P.readExact_append' (by rw [sh.size]; simp) s), P.lift_run, ho]
  have hser := serialize_eq hp.blocks sh
  have hhd := sh.header
  have hflag := sh.flag
  have hpt := sh.part
  have hbl := sh.blocksLen
  have hinto := map_into hp.blocks
  obtain ⟨blocks, payload⟩ := p
  cases hpt with
  | none =>
    refine ⟨_, h, none, hser, hhd, trivial, hrun _ ?_⟩
    unfold look
    rw [hblk, Out.bind_ok]
    simp only [hflag, Option.isSome_none, Bool.false_eq_true, if_false, accepts_eq, hinto, Bool.true_and]
    by_cases h1 : rules.filterByBlocks (blocks.map S.ref) = true
    · simp [h1]
    · simp [h1]
  | @some v ph x g =>
    refine ⟨_, h, some x, hser, hhd, ⟨_, g.parts_eq⟩, hrun _ ?_⟩
    unfold look
    rw [hblk, Out.bind_ok]
    simp only [hflag, Option.isSome_some, if_true, accepts_eq, hinto, hbl]
    have hd1 : List.drop (S.encs blocks).length (S.encs blocks ++ (ph.asVec ++ x)) = ph.asVec ++ x := by simp
    have hd2 : List.drop ((S.encs blocks).length + ph.size) (S.encs blocks ++ (ph.asVec ++ x)) = x := by
      rw [← List.drop_drop, hd1, ← PayloadHeader.size_eq]; simp
    rw [hd1, Chunks.fill_single, PayloadHeader.peek_asVec ph g.len_lt]
    simp only
    rw [hd2, g.tryBuf_eq [x] [] (by simp)]
    simp only
    by_cases h1 : rules.filterByBlocks (blocks.map S.ref) = true
    · rw [if_neg (by simp [h1]), if_neg (by simp), if_neg (by rw [← PayloadHeader.size_eq]; simp)]
      by_cases h2 : rules.filterByPayload x = true
      · simp [h1, h2]
      · simp [h1, h2]
    · simp [h1]

/-- **C16**, `filtered` without rules. -/
theorem C16_filtered (hp : p.Ok S) (s : Bytes) :
    ∃ w h, p.serialize = .ok w ∧ p.header = .ok h ∧
      (Packet.filtered Q ([] : Rules O.BR (Packet O Q))).run (w ++ s) = (.ok (.accepted h.size p), s) := by
  obtain ⟨w, h, body, e1, e2, _, e3⟩ := C28_filtered hp [] s
  refine ⟨w, h, e1, e2, ?_⟩
  rw [e3]
  have : accepts S ([] : Rules O.BR (Packet O Q)) p body = true := by
    unfold accepts
    cases body <;> rfl
  rw [if_pos this]

end Brec.Props
