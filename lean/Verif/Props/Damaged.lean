import Verif.ReaderFrames
import Verif.Props.Reader
/-!
# Property C63: `PacketBufReader` on a stream with damaged packets

The headers are intact; the bytes behind a header (blocks and payload) are replaced by any bytes of the same length. What a program that reads packets in a
loop relies on is that such a packet costs an error and not the packets behind it.
-/

namespace Brec.Props

open Brec Rd

variable {O : BlockOps} {Q : PayloadOps} {S : BlockSpec O}

/-- The bytes of a packet behind its header. -/
def body (p : Packet O Q) : Bytes := (wire p).drop 29

/-- The packet with other bytes behind the header. -/
def hit (p : Packet O Q) (d : Bytes) : Bytes := (wire p).take 29 ++ d

/-- A well-formed packet and bytes that can stand in the place of its body. -/
structure Damage (S : BlockSpec O) (x : Packet O Q × Bytes) : Prop where
  ok : x.1.Ok S
  blocks : x.1.blocks.length ≤ 255
  len : x.2.length = (body x.1).length

/-- One result for each packet; the right one for each packet that is not damaged. -/
def Reported (S : BlockSpec O) (rules : Rules O.BR (Packet O Q)) : List (Packet O Q × Bytes) → List (Out (Next (Packet O Q))) → Prop
  | [], os => os = []
  | _ :: _, [] => False
  | (p, d) :: ps, o :: os => (d = body p → o = .ok (verdict S rules p)) ∧ o ≠ .panic ∧ Reported S rules ps os

/-- **C63, full statement** (false): whatever stands in the damaged packets, all others are found. -/
def C63_full : Prop :=
  ∀ (O : BlockOps) (Q : PayloadOps) (S : BlockSpec O) (rules : Rules O.BR (Packet O Q)) (chk : Bool) (ps : List (Packet O Q × Bytes)) (cs : Chunks),
    O.Safe → Q.Safe → (∀ x ∈ ps, Damage S x) → Cuts cs (ps.map fun x => hit x.1 x.2).flatten →
    ∃ n os, loud (reads rules chk n (.new (cs.map some))).1 = os ++ [.ok .noData] ∧ Reported S rules ps os

/-! ### From packets to frames -/

def hdr (p : Packet O Q) : PacketHeader :=
  match p.header with
  | .ok h => h
  | _ => PacketHeader.ofSizes 0 none

def frame (x : Packet O Q × Bytes) : Frame := (hdr x.1, x.2)

theorem frame_facts {x : Packet O Q × Bytes} (dm : Damage S x) :
    ∃ h pb, Packet.Shape S x.1 h pb ∧ Frames.Shape (frame x) h x.2 ∧ Frames.wire (frame x) = hit x.1 x.2 ∧ body x.1 = S.encs x.1.blocks ++ pb := by
  obtain ⟨h, pb, sh⟩ := dm.ok.shape
  have hh : hdr x.1 = h := by rw [hdr, sh.header]
  have hw := wire_eq dm.ok.blocks sh
  have hb : body x.1 = S.encs x.1.blocks ++ pb := by rw [body, hw, List.drop_left' (by simp [HSIZE])]
  have hlen := dm.len
  rw [hb] at hlen
  refine ⟨h, pb, sh, ⟨by rw [frame, hh], sh.wf, by rw [sh.blocksLen, sh.size]; omega, ?_, sh.small⟩, ?_, hb⟩
  · rw [hlen, sh.size]; simp
  · rw [Frames.wire, frame, hh, hit, hw, List.take_left' (by simp [HSIZE])]

theorem frame_intact {x : Packet O Q × Bytes} (dm : Damage S x) (rules : Rules O.BR (Packet O Q)) (h : x.2 = body x.1) :
    parse rules (frame x).1 (frame x).2 = (.ok (verdict S rules x.1), .dropConsume) := by
  obtain ⟨hd, pb, sh, fs, _, hb⟩ := frame_facts dm
  have : frame x = (hd, S.encs x.1.blocks ++ pb) := by rw [fs.eq, h, hb]
  rw [this]
  exact parse_eq dm.ok.blocks sh dm.blocks rules

theorem reported_verdicts (hO : O.Safe) (hQ : Q.Safe) (rules : Rules O.BR (Packet O Q)) (ps : List (Packet O Q × Bytes)) (hd : ∀ x ∈ ps, Damage S x) :
    Reported S rules ps (ps.map fun x => Frames.verdict rules (frame x)) := by
  induction ps with
  | nil => rfl
  | cons x ps ih =>
    have dm := hd x List.mem_cons_self
    obtain ⟨h, pb, sh, fs, _, hb⟩ := frame_facts dm
    refine ⟨fun e => ?_, Frames.verdict_np hO hQ fs, ih fun y hy => hd y (List.mem_cons_of_mem _ hy)⟩
    exact congrArg Prod.fst (frame_intact dm rules e)

theorem frames_stream (ps : List (Packet O Q × Bytes)) (hd : ∀ x ∈ ps, Damage S x) :
    (ps.map fun x => hit x.1 x.2).flatten = Frames.stream (ps.map fun x => ([], frame x)) [] := by
  induction ps with
  | nil => rfl
  | cons x ps ih =>
    obtain ⟨h, pb, sh, fs, hw, hb⟩ := frame_facts (hd x List.mem_cons_self)
    simp only [List.map_cons, List.flatten_cons, Frames.stream, List.nil_append]
    rw [hw, ih fun y hy => hd y (List.mem_cons_of_mem _ hy)]

theorem frames_good (ps : List (Packet O Q × Bytes)) (hd : ∀ x ∈ ps, Damage S x) :
    ∀ x ∈ ps.map (fun x => (([] : Bytes), frame x)), Frames.GoodFrame x := by
  intro x hx
  obtain ⟨y, hy, rfl⟩ := List.mem_map.mp hx
  obtain ⟨h, pb, sh, fs, hw, hb⟩ := frame_facts (hd y hy)
  exact ⟨free_nil, ⟨h, y.2, fs⟩, .inl rfl⟩

/-- Damaged packets, cut into reads in any way: the end is reached, or the reader stops for good. -/
theorem damaged_run (hO : O.Safe) (hQ : Q.Safe) (rules : Rules O.BR (Packet O Q)) (chk : Bool) (ps : List (Packet O Q × Bytes))
    (hd : ∀ x ∈ ps, Damage S x) (cs : Chunks) (hc : Cuts cs (ps.map fun x => hit x.1 x.2).flatten) :
    Frames.Ends rules chk (.new (cs.map some)) (ps.map fun x => (([] : Bytes), frame x)) [] ∨
    Frames.Stops rules chk (.new (cs.map some)) (ps.map fun x => (([] : Bytes), frame x)) := by
  have inv := Frames.inv_new hc.2 (hc.1.trans (frames_stream ps hd)) (frames_good ps hd) (by intro j; simp [PACKET_SIG])
  refine Frames.run hO hQ (fun _ is => ∀ x ∈ is, x.1 = []) (fun r is t inv hG => Frames.not_bad_pure inv hG) (fun r is t is' _ hG hi _ => ?_) _ _ _ inv ?_
  · rcases hi with rfl | ⟨k, rfl⟩
    · exact fun x hx => hG x (List.mem_of_mem_tail hx)
    · cases is with
      | nil => simp [Frames.dropItems]
      | cons y is =>
        obtain ⟨l, p⟩ := y
        intro x hx
        rcases List.mem_cons.mp hx with rfl | hx
        · have := hG (l, p) List.mem_cons_self
          simp only at this
          simp [this]
        · exact hG x (List.mem_cons_of_mem _ hx)
  · intro x hx
    obtain ⟨y, _, rfl⟩ := List.mem_map.mp hx
    rfl

theorem ends_reported (hO : O.Safe) (hQ : Q.Safe) {rules : Rules O.BR (Packet O Q)} {chk : Bool} {ps : List (Packet O Q × Bytes)} {cs : Chunks}
    (hd : ∀ x ∈ ps, Damage S x) (h : Frames.Ends rules chk (.new (cs.map some)) (ps.map fun x => (([] : Bytes), frame x)) []) :
    ∃ n os, loud (reads rules chk n (.new (cs.map some))).1 = os ++ [.ok .noData] ∧ Reported S rules ps os := by
  obtain ⟨n, h1, _⟩ := h
  refine ⟨n, ps.map fun x => Frames.verdict rules (frame x), ?_, reported_verdicts hO hQ rules ps hd⟩
  rw [h1, List.map_map]
  rfl

theorem stays_error (hO : O.Safe) (hQ : Q.Safe) {rules : Rules O.BR (Packet O Q)} {x : Packet O Q × Bytes} (dm : Damage S x) (np : ¬ Frames.Passes rules (frame x)) :
    ∃ e, Frames.verdict rules (frame x) = .err e := by
  obtain ⟨h, pb, sh, fs, _, hb⟩ := frame_facts dm
  cases hv : Frames.verdict rules (frame x) with
  | ok y => exact absurd (parse_ok hv) np
  | err e => exact ⟨e, rfl⟩
  | panic => exact absurd hv (Frames.verdict_np hO hQ fs)

/-! ### The theorems -/

/-- **C63, what always holds.** Either every packet is reported, or the reader stops for good at a damaged packet: the packets before are reported, and from
then on every call returns one and the same error. Never a panic. -/
theorem C63_dichotomy (hO : O.Safe) (hQ : Q.Safe) (rules : Rules O.BR (Packet O Q)) (chk : Bool) (ps : List (Packet O Q × Bytes))
    (hd : ∀ x ∈ ps, Damage S x) (cs : Chunks) (hc : Cuts cs (ps.map fun x => hit x.1 x.2).flatten) :
    (∃ n os, loud (reads rules chk n (.new (cs.map some))).1 = os ++ [.ok .noData] ∧ Reported S rules ps os) ∨
    (∃ n pre p d post e, ps = pre ++ (p, d) :: post ∧ d ≠ body p ∧ Reported S rules pre (loud (reads rules chk n (.new (cs.map some))).1) ∧
      ∀ m, (reads rules chk m (reads rules chk n (.new (cs.map some))).2).1 = List.replicate m (.err e)) := by
  rcases damaged_run hO hQ rules chk ps hd cs hc with h | ⟨n, pre, f, post, e, np, h1, _, h2⟩
  · exact .inl (ends_reported hO hQ hd h)
  · right
    rw [List.map_map] at e
    obtain ⟨pre', l2, e1, e2, e3⟩ := List.map_eq_append_iff.mp e
    obtain ⟨x, post', e4, e5, e6⟩ := List.map_eq_cons_iff.mp e3
    subst e1 e4
    have dm := hd x (by simp)
    have hf : frame x = f := e5
    subst hf
    obtain ⟨er, he⟩ := stays_error hO hQ dm np
    refine ⟨n, pre', x.1, x.2, post', er, rfl, ?_, ?_, fun m => by rw [h2 m, he]⟩
    · intro hb
      apply np
      rw [Frames.Passes, frame_intact dm rules hb]
    · rw [h1, ← e2, List.map_map]
      exact reported_verdicts hO hQ rules pre' fun y hy => hd y (by simp [hy])

/-- **C63 (partial), small reads.** If no read of the source gives as many bytes as a damaged packet has, everything is reported, whatever the damage. Missing: larger
reads (`C63_not`). -/
theorem C63_small_reads_partial (hO : O.Safe) (hQ : Q.Safe) (rules : Rules O.BR (Packet O Q)) (chk : Bool) (ps : List (Packet O Q × Bytes))
    (hd : ∀ x ∈ ps, Damage S x) (cs : Chunks) (hc : Cuts cs (ps.map fun x => hit x.1 x.2).flatten)
    (hs : ∀ x ∈ ps, x.2 ≠ body x.1 → ∀ c ∈ cs, c.length < (wire x.1).length) :
    ∃ n os, loud (reads rules chk n (.new (cs.map some))).1 = os ++ [.ok .noData] ∧ Reported S rules ps os := by
  rcases damaged_run hO hQ rules chk ps hd cs hc with h | ⟨n, pre, f, post, e, np, h1, ⟨b, es, hb, hf⟩, h2⟩
  · exact ends_reported hO hQ hd h
  · exfalso
    rw [List.map_map] at e
    obtain ⟨x, hx, e5⟩ : ∃ x ∈ ps, frame x = f := by
      have : f ∈ List.map (Prod.snd ∘ fun x => (([] : Bytes), frame x)) ps := by rw [e]; simp
      obtain ⟨x, hx, e⟩ := List.mem_map.mp this
      exact ⟨x, hx, e⟩
    subst e5
    have dm := hd x hx
    obtain ⟨h, pb, sh, fs, hw, hbd⟩ := frame_facts dm
    have hne : x.2 ≠ body x.1 := by
      intro hb
      apply np
      rw [Frames.Passes, frame_intact dm rules hb]
    have hl : (wire x.1).length = 29 + (frame x).1.size := by
      have : (frame x).1 = h := congrArg Prod.fst fs.eq
      rw [this]
      exact wire_length dm.ok.blocks sh
    have hshort : Frames.Short (wire x.1).length (Events.consume 0 (cs.map some)) := by
      rw [Events.consume_zero]
      intro c hc
      obtain ⟨c', hc', e⟩ := List.mem_map.mp hc
      rw [← Option.some.inj e]
      exact hs x hx hne c' hc'
    rw [Events.consume_zero] at hshort
    have hall := Frames.Short.reads (r := .new (cs.map some)) hshort rules chk n
    have := hall b (by rw [hb]; exact List.mem_cons_self)
    omega

/-! ### Damage in the blocks -/

theorem blocksLoop_fin {buf : Bytes} {m : Nat} (hO : O.Safe) (hm : ∀ x r, O.readSlice x = .ok r → m ≤ O.rsize r) (left processed : Nat) (acc : List O.BR)
    (hp : processed ≤ buf.length) (hl : buf.length ≤ processed + left * m) (h0 : 0 < left) :
    (blocksLoop O buf left processed acc).2 = .dropConsume := by
  induction left generalizing processed acc with
  | zero => omega
  | succ left ih =>
    rw [blocksLoop, if_neg (by omega)]
    cases hr : O.readSlice (buf.drop processed) with
    | panic => exact absurd hr (hO.readSlice_np _)
    | err e => rfl
    | ok r =>
      simp only
      obtain ⟨h1, h2⟩ := hO.readSlice_size _ r hr
      have h3 := hm _ r hr
      simp only [List.length_drop] at h2
      rw [if_neg (by omega)]
      split
      · rfl
      · rename_i hne
        have hmul : (left + 1) * m = left * m + m := by rw [Nat.add_mul]; simp
        refine ih _ _ (by omega) (by omega) ?_
        rcases Nat.eq_zero_or_pos left with e | h
        · subst e; simp at hmul hl; omega
        · exact h

theorem parsePayload_intact {rules : Rules O.BR (Packet O Q)} {p : Packet O Q} {h : PacketHeader} {pb a : Bytes} (sh : Packet.Shape S p h pb)
    (ha : a.length = h.blocksLen) (rs : List O.BR) : (parsePayload rules h (a ++ pb) rs).2 = .dropConsume := by
  unfold parsePayload
  have hflag := sh.flag
  have hpt := sh.part
  obtain ⟨blocks, payload⟩ := p
  cases hpt with
  | none =>
    simp only [hflag, Option.isSome_none, Bool.false_eq_true, if_false]
    split
    · rfl
    · split <;> rfl
  | @some v ph x g =>
    simp only [hflag, Option.isSome_some, if_true]
    have hd1 : List.drop h.blocksLen (a ++ (ph.asVec ++ x)) = ph.asVec ++ x := by rw [← ha]; simp
    have hd2 : List.drop (h.blocksLen + ph.size) (a ++ (ph.asVec ++ x)) = x := by
      rw [← List.drop_drop, hd1, ← PayloadHeader.size_eq]; simp
    rw [hd1, PayloadHeader.tryBuf, Chunks.fill_single, PayloadHeader.peek_asVec ph g.len_lt]
    simp only
    rw [hd2, g.tryBuf_eq [x] [] (by simp)]
    simp only
    split
    · rfl
    · rw [if_neg (by rw [← PayloadHeader.size_eq, ← ha]; simp)]
      split
      · rfl
      · split <;> rfl

/-- The damage is confined to the blocks: the bytes behind them (the payload) are those of the packet. The blocks have so few bytes that 255 blocks of the smallest size
`m` fill them. -/
def InBlocks (m : Nat) (x : Packet O Q × Bytes) : Prop :=
  ∃ k, k ≤ 255 * m ∧ x.2.drop k = (body x.1).drop k ∧ (body x.1).drop k = (match x.1.payload with
    | none => []
    | some v => match Q.parts v with
      | .ok y => y.1 ++ y.2
      | _ => [])

theorem inBlocks_passes (hO : O.Safe) {m : Nat} (hm : ∀ x r, O.readSlice x = .ok r → m ≤ O.rsize r) (rules : Rules O.BR (Packet O Q))
    {x : Packet O Q × Bytes} (dm : Damage S x) (hb : InBlocks m x) : Frames.Passes rules (frame x) := by
  obtain ⟨h, pb, sh, fs, _, hbody⟩ := frame_facts dm
  obtain ⟨k, hk, e1, e2⟩ := hb
  have hpb : (match x.1.payload with
    | none => ([] : Bytes)
    | some v => match Q.parts v with
      | .ok y => y.1 ++ y.2
      | _ => []) = pb := by
    have := sh.part
    obtain ⟨⟨blocks, payload⟩, d⟩ := x
    simp only at this ⊢
    cases this with
    | none => rfl
    | some g => simp only [g.parts_eq]
  rw [hpb] at e2
  have hlen := dm.len
  rw [hbody] at e2 hlen
  have hl2 := congrArg List.length e2
  simp only [List.length_drop, List.length_append] at hl2 hlen
  rw [hbody, e2] at e1
  -- the part of the blocks
  have hd : ∃ a, x.2 = a ++ pb ∧ a.length = h.blocksLen ∧ h.blocksLen ≤ 255 * m := by
    by_cases hle : k ≤ (S.encs x.1.blocks).length + pb.length
    · refine ⟨x.2.take k, by rw [← e1, List.take_append_drop], ?_, ?_⟩
      · rw [List.length_take, sh.blocksLen]; omega
      · rw [sh.blocksLen]; omega
    · have hp0 : pb = [] := List.length_eq_zero_iff.mp (by omega)
      subst hp0
      exact ⟨x.2, by simp, by rw [sh.blocksLen]; simpa using hlen, by rw [sh.blocksLen]; simp at *; omega⟩
  obtain ⟨a, ea, hal, hsmall⟩ := hd
  rw [Frames.Passes, fs.eq]
  simp only
  rw [ea]
  unfold parse
  rw [if_neg (by simp; omega)]
  simp only
  have htake : (a ++ pb).take h.blocksLen = a := by rw [← hal]; simp
  rw [htake]
  by_cases ha : a = []
  · rw [if_pos ha]
    exact parsePayload_intact sh hal _
  · rw [if_neg ha]
    have hfin := blocksLoop_fin (buf := a) hO hm MAX_BLOCKS 0 [] (by omega) (by simp only [MAX_BLOCKS]; omega) (by decide)
    have hnp := blocksLoop_np hO a MAX_BLOCKS 0 [] (by omega)
    cases hr : (blocksLoop O a MAX_BLOCKS 0 []).1 with
    | ok rs => exact parsePayload_intact sh hal _
    | err e => exact hfin
    | panic => exact absurd hr hnp

/-- **C63 (partial), damaged blocks.** If the damage is confined to the blocks (of a packet whose blocks could not hold more than 255 of the smallest size), every packet is
reported, for any number of damaged packets, any damage and any cutting into reads. Missing: damage in the payload (`C63_payload_stuck`, `C63_not`). -/
theorem C63_blocks_partial (hO : O.Safe) (hQ : Q.Safe) (m : Nat) (hm : ∀ x r, O.readSlice x = .ok r → m ≤ O.rsize r) (rules : Rules O.BR (Packet O Q)) (chk : Bool)
    (ps : List (Packet O Q × Bytes)) (hd : ∀ x ∈ ps, Damage S x) (hb : ∀ x ∈ ps, x.2 ≠ body x.1 → InBlocks m x)
    (cs : Chunks) (hc : Cuts cs (ps.map fun x => hit x.1 x.2).flatten) :
    ∃ n os, loud (reads rules chk n (.new (cs.map some))).1 = os ++ [.ok .noData] ∧ Reported S rules ps os := by
  rcases damaged_run hO hQ rules chk ps hd cs hc with h | ⟨n, pre, f, post, e, np, _⟩
  · exact ends_reported hO hQ hd h
  · exfalso
    rw [List.map_map] at e
    obtain ⟨x, hx, e5⟩ : ∃ x ∈ ps, frame x = f := by
      have : f ∈ List.map (Prod.snd ∘ fun x => (([] : Bytes), frame x)) ps := by rw [e]; simp
      obtain ⟨x, hx, e⟩ := List.mem_map.mp this
      exact ⟨x, hx, e⟩
    subst e5
    have dm := hd x hx
    by_cases hne : x.2 = body x.1
    · apply np
      rw [Frames.Passes, frame_intact dm rules hne]
    · exact np (inBlocks_passes hO hm rules dm (hb x hx hne))

/-- The same for generated blocks: no block has fewer than 8 bytes. -/
theorem C63_generated_partial (vs : List BlockTy) (ds : DistinctSigs vs) (wf : ∀ b ∈ vs, b.WF) (pvs : List PayloadTy)
    (rules : Rules (blockEnum vs).BR (Packet (blockEnum vs) (PEnum.ops pvs))) (chk : Bool)
    (ps : List (Packet (blockEnum vs) (PEnum.ops pvs) × Bytes)) (hd : ∀ x ∈ ps, Damage (blockEnumSpec vs ds wf) x) (hb : ∀ x ∈ ps, x.2 ≠ body x.1 → InBlocks 8 x)
    (cs : Chunks) (hc : Cuts cs (ps.map fun x => hit x.1 x.2).flatten) :
    ∃ n os, loud (reads rules chk n (.new (cs.map some))).1 = os ++ [.ok .noData] ∧ Reported (blockEnumSpec vs ds wf) rules ps os := by
  refine C63_blocks_partial (blockEnum_safe vs) (PEnum.ops_safe pvs) 8 (fun x r _ => ?_) rules chk ps hd hb cs hc
  show 8 ≤ r.1.ssize
  simp only [BlockTy.ssize]
  omega

/-- Non-vacuity: all three blocks of a packet are overwritten, its payload is not; the packet behind it is intact. -/
def wiped : Bytes := List.replicate 78 0 ++ (body samplePacket).drop 78

theorem wiped_damage : Damage sampleSpec (samplePacket, wiped) ∧ InBlocks 8 (samplePacket, wiped) ∧ wiped ≠ body samplePacket :=
  ⟨⟨samplePacket_ok, by decide, by decide +kernel⟩, ⟨78, by decide, by decide +kernel, by decide +kernel⟩, by decide +kernel⟩

example : ∃ n o, loud (reads ([] : Rules _ (Packet (blockEnum sampleTypes) (PEnum.ops []))) true n
    (.new [some (hit samplePacket wiped ++ hit samplePacket (body samplePacket))])).1 = [o, .ok (.found samplePacket), .ok .noData] := by
  obtain ⟨n, os, h1, h2⟩ := C63_generated_partial sampleTypes sampleTypes_distinct sampleTypes_wf [] [] true
    [(samplePacket, wiped), (samplePacket, body samplePacket)]
    (by
      intro x hx
      simp only [List.mem_cons, List.not_mem_nil, or_false] at hx
      rcases hx with rfl | rfl
      · exact wiped_damage.1
      · exact ⟨samplePacket_ok, by decide, rfl⟩)
    (by
      intro x hx
      simp only [List.mem_cons, List.not_mem_nil, or_false] at hx
      rcases hx with rfl | rfl
      · exact fun _ => wiped_damage.2.1
      · exact fun h => absurd rfl h)
    [hit samplePacket wiped ++ hit samplePacket (body samplePacket)]
    ⟨by simp, by
      intro c hc
      simp only [List.mem_singleton] at hc
      subst hc
      decide +kernel⟩
  match os, h2 with
  | [o, o'], h2 =>
    obtain ⟨_, _, h3, _⟩ := h2
    have hv : verdict sampleSpec ([] : Rules _ (Packet (blockEnum sampleTypes) (PEnum.ops []))) samplePacket = .found samplePacket := by
      unfold verdict accepts
      cases bodyOf samplePacket <;> rfl
    refine ⟨n, o, ?_⟩
    have h4 : o' = .ok (verdict sampleSpec [] samplePacket) := h3 rfl
    rw [← hv, ← h4]
    exact h1
  | [_], h2 => exact absurd h2.2.2 id
  | _ :: _ :: _ :: _, h2 => obtain ⟨_, _, _, _, h3⟩ := h2; cases h3

/-! ### Damage in the payload -/

/-- **C63 fails for the payload.** A packet whose payload does not decode (wrong CRC, say) and which lies whole in the buffer of the source: `read` returns the error
and takes nothing, so that it returns it forever, and nothing behind the packet is ever reached. -/
theorem C63_payload_stuck {p : Packet O Q} (hp : p.Ok S) (hn : p.blocks.length ≤ 255) {v : Q.V} (hv : p.payload = some v) {ph : PayloadHeader} {y : Bytes}
    (g : Q.Good v ph y) (y' : Bytes) (hl : y'.length = y.length) {e : Err} (he : (Q.tryBuf ph [y']).1 = .err e) (rules : Rules O.BR (Packet O Q))
    (h1 : passBlocks rules (p.blocks.map S.ref) = true) (h2 : passPayload rules y' = true) (chk : Bool) (s : Bytes) (es : Events) (buffered : Bytes)
    (log : List Bytes) (n : Nat) :
    (reads rules chk n ⟨some (hit p (S.encs p.blocks ++ (ph.asVec ++ y')) ++ s) :: es, .empty, buffered, log⟩).1 = List.replicate n (.err e) := by
  rw [← filterByBlocks_eq] at h1
  rw [← filterByPayload_eq] at h2
  obtain ⟨h, pb, sh⟩ := hp.shape
  have hpb : pb = ph.asVec ++ y := by
    have hpt := sh.part
    rw [hv] at hpt
    cases hpt with
    | some g' =>
      have := g'.parts_eq.symm.trans g.parts_eq
      injection this with this
      injection this with a b
      rw [a, b]
  subst hpb
  have dm : Damage S (p, S.encs p.blocks ++ (ph.asVec ++ y')) := ⟨hp, hn, by
    rw [body, wire_eq hp.blocks sh, List.drop_left' (by simp [HSIZE])]; simp [hl]⟩
  obtain ⟨h', pb', sh', fs, hw, _⟩ := frame_facts dm
  have heq : h' = h := by
    have := sh'.header.symm.trans sh.header
    injection this
  subst heq
  have hparse : parse rules h' (S.encs p.blocks ++ (ph.asVec ++ y')) = (.err e, .leave) := by
    have hbl := sh.blocksLen
    have hflag := sh.flag
    unfold parse
    rw [if_neg (by rw [hbl]; simp)]
    have hr : (if (S.encs p.blocks ++ (ph.asVec ++ y')).take h'.blocksLen = [] then ((.ok [], .dropConsume) : Out (List O.BR) × Fin)
        else blocksLoop O ((S.encs p.blocks ++ (ph.asVec ++ y')).take h'.blocksLen) MAX_BLOCKS 0 []) =
        (.ok (p.blocks.map S.ref), .dropConsume) := by
      rw [hbl, List.take_left' rfl]
      by_cases hne : p.blocks = []
      · simp [hne, BlockSpec.encs]
      · have hpos := S.encs_pos hp.blocks hne
        rw [if_neg (by intro e; rw [e] at hpos; simp at hpos),
          blocksLoop_eq hp.blocks hne (by omega) (by simp) (by simpa [MAX_BLOCKS] using hn)]
        simp
    rw [hr]
    simp only
    unfold parsePayload
    have hd1 : List.drop (S.encs p.blocks).length (S.encs p.blocks ++ (ph.asVec ++ y')) = ph.asVec ++ y' := by simp
    have hd2 : List.drop ((S.encs p.blocks).length + ph.size) (S.encs p.blocks ++ (ph.asVec ++ y')) = y' := by
      rw [← List.drop_drop, hd1, ← PayloadHeader.size_eq]; simp
    simp only [hflag, hv, Option.isSome_some, if_true, h1, hbl, not_true, if_false]
    rw [hd1, PayloadHeader.tryBuf, Chunks.fill_single, PayloadHeader.peek_asVec ph g.len_lt]
    simp only
    rw [hd2, if_neg (by rw [← PayloadHeader.size_eq]; simp), if_neg (by simp [h2])]
    rcases hq : Q.tryBuf ph [y'] with ⟨o, c⟩
    rw [hq] at he
    simp only at he
    subst he
    rfl
  have hnp : ¬ Frames.Passes rules (frame (p, S.encs p.blocks ++ (ph.asVec ++ y'))) := by
    rw [Frames.Passes, fs.eq]
    simp only
    rw [hparse]
    simp
  have hverd : Frames.verdict rules (frame (p, S.encs p.blocks ++ (ph.asVec ++ y'))) = .err e := by
    rw [Frames.verdict, fs.eq]
    simp only
    rw [hparse]
  have key : ∀ bu lg, ∃ bu', Rd.read rules chk ⟨some (hit p (S.encs p.blocks ++ (ph.asVec ++ y')) ++ s) :: es, .empty, bu, lg⟩ =
      (.err e, ⟨some (hit p (S.encs p.blocks ++ (ph.asVec ++ y')) ++ s) :: es, .empty, bu', lg⟩) := by
    intro bu lg
    rw [← hw, Frames.read_frame fs s es bu lg]
    obtain ⟨bu', hf⟩ := Frames.finish_stay (rules := rules) fs hnp (Frames.wire (frame (p, S.encs p.blocks ++ (ph.asVec ++ y')))).length
      ⟨some (Frames.wire (frame (p, S.encs p.blocks ++ (ph.asVec ++ y'))) ++ s) :: es, .empty, [], lg⟩
    exact ⟨bu', by rw [hf, hverd]⟩
  induction n generalizing buffered with
  | zero => rfl
  | succ n ih =>
    obtain ⟨bu', hk⟩ := key buffered log
    rw [reads_succ (by rw [hk]; simp), hk, List.replicate_succ]
    simp only
    rw [ih bu']

/-- A packet without blocks and with one byte of payload. -/
def oneByte : Packet (blockEnum sampleTypes) (PEnum.ops []) := ⟨[], some (.inl [1])⟩

def oneByteHeader : PayloadHeader := ⟨PayloadTy.crcBlock (ascii "Vec<u8>"), PayloadTy.crcBlock [1], 1⟩

theorem oneByte_good : (PEnum.ops []).Good (.inl [1]) oneByteHeader [1] :=
  PEnum.ops_good (T := bytesTy) (v := [1]) (vs := []) (.here _) (bytesTy_good _ (by decide)) rfl

def isCrc {α} : Out α → Bool
  | .err .crcDismatch => true
  | _ => false

theorem isCrc_eq {α} {o : Out α} (h : isCrc o = true) : o = .err .crcDismatch := by
  unfold isCrc at h
  split at h
  · rfl
  · cases h

/-- Another byte in the place of the payload is noticed. -/
theorem oneByte_crc : ((PEnum.ops []).tryBuf oneByteHeader [[2]]).1 = .err .crcDismatch := isCrc_eq (by decide +kernel)

theorem oneByte_ok : oneByte.Ok sampleSpec where
  blocks := by intro b hb; cases hb
  payload := by
    intro v hv
    have : v = .inl [1] := (Option.some.inj hv).symm
    subst this
    exact ⟨_, _, oneByte_good⟩
  size := by
    intro h hh
    have : oneByte.header = .ok (PacketHeader.ofSizes 0 (some 15)) := by decide +kernel
    rw [this] at hh
    injection hh with hh
    subst hh
    decide

/-- One packet with one wrong byte in its payload, then an intact one, in one read. -/
theorem oneByte_stuck (chk : Bool) (s : Bytes) (n : Nat) :
    (reads ([] : Rules _ (Packet (blockEnum sampleTypes) (PEnum.ops []))) chk n ⟨[some (hit oneByte (oneByteHeader.asVec ++ [2]) ++ s)], .empty, [], []⟩).1 = List.replicate n (.err .crcDismatch) := by
  have := C63_payload_stuck (S := sampleSpec) oneByte_ok (by decide) (v := .inl [1]) rfl oneByte_good [2] rfl oneByte_crc [] rfl rfl chk s [] [] [] n
  exact this

theorem oneByte_damage : Damage sampleSpec (oneByte, oneByteHeader.asVec ++ [2]) := ⟨oneByte_ok, by decide, by decide +kernel⟩

/-- The same two packets read byte by byte: the intact one is found. -/
example : ∃ n o, loud (reads ([] : Rules _ (Packet (blockEnum sampleTypes) (PEnum.ops []))) true n
    (.new (((hit oneByte (oneByteHeader.asVec ++ [2]) ++ hit oneByte (body oneByte)).map fun b => some [b])))).1 = [o, .ok (.found oneByte), .ok .noData] := by
  obtain ⟨n, os, h1, h2⟩ := C63_small_reads_partial (S := sampleSpec) (blockEnum_safe sampleTypes) (PEnum.ops_safe []) [] true
    [(oneByte, oneByteHeader.asVec ++ [2]), (oneByte, body oneByte)]
    (by
      intro x hx
      simp only [List.mem_cons, List.not_mem_nil, or_false] at hx
      rcases hx with rfl | rfl
      · exact oneByte_damage
      · exact ⟨oneByte_ok, by decide, rfl⟩)
    ((hit oneByte (oneByteHeader.asVec ++ [2]) ++ hit oneByte (body oneByte)).map fun b => [b])
    ⟨by
      simp only [List.map_cons, List.map_nil, List.flatten_cons, List.flatten_nil, List.append_nil]
      generalize hit oneByte (oneByteHeader.asVec ++ [2]) ++ hit oneByte (body oneByte) = x
      induction x with
      | nil => rfl
      | cons a x ih => simp [ih], by
      intro c hc
      obtain ⟨b, _, rfl⟩ := List.mem_map.mp hc
      exact ⟨by simp, by simp⟩⟩
    (by
      intro x hx _ c hc
      obtain ⟨b, _, rfl⟩ := List.mem_map.mp hc
      have h44 : 1 < (wire oneByte).length := by decide +kernel
      simp only [List.mem_cons, List.not_mem_nil, or_false] at hx
      rcases hx with rfl | rfl <;> exact h44)
  match os, h2 with
  | [o, o'], h2 =>
    obtain ⟨_, _, h3, _⟩ := h2
    have hv : verdict sampleSpec ([] : Rules _ (Packet (blockEnum sampleTypes) (PEnum.ops []))) oneByte = .found oneByte := by
      unfold verdict accepts
      cases bodyOf oneByte <;> rfl
    refine ⟨n, o, ?_⟩
    rw [List.map_map] at h1
    rw [← hv, ← h3 rfl]
    exact h1
  | [_], h2 => exact absurd h2.2.2 id
  | _ :: _ :: _ :: _, h2 => obtain ⟨_, _, _, _, h3⟩ := h2; cases h3

/-- **C63 is false**: the intact packet behind the damaged one is never found, however often `read` is called. -/
theorem C63_not : ¬ C63_full := by
  intro h
  obtain ⟨n, os, e, r⟩ := h (blockEnum sampleTypes) (PEnum.ops []) sampleSpec [] true [(oneByte, oneByteHeader.asVec ++ [2]), (oneByte, body oneByte)]
    [hit oneByte (oneByteHeader.asVec ++ [2]) ++ hit oneByte (body oneByte)] (blockEnum_safe _) (PEnum.ops_safe _)
    (by
      intro x hx
      simp only [List.mem_cons, List.not_mem_nil, or_false] at hx
      rcases hx with rfl | rfl
      · exact oneByte_damage
      · exact ⟨oneByte_ok, by decide, rfl⟩)
    ⟨by simp, by
      intro c hc
      simp only [List.mem_singleton] at hc
      subst hc
      decide +kernel⟩
  have h2 := oneByte_stuck true (hit oneByte (body oneByte)) n
  simp only [List.map_cons, List.map_nil, Rd.new] at e
  rw [h2] at e
  have hm : (.ok .noData : Out (Next (Packet (blockEnum sampleTypes) (PEnum.ops [])))) ∈ loud (List.replicate n (.err .crcDismatch)) := by rw [e]; simp
  have := List.eq_of_mem_replicate (List.mem_filter.mp hm).1
  cases this

end Brec.Props
