import Verif.ReaderLemmas
import Verif.Props.Reader
import Verif.Props.ReaderLimits
import Verif.Props.Damaged
/-!
# C90: joining a stream in the middle of a packet

A reader that is connected to a running stream gets the rest of a packet first. `PacketBufReader` looks for the packet signature, so it is expected to skip the rest
and to deliver the packets behind it. It does so if the rest does not contain the signature and does not end in its first half; but a packet may carry any bytes.
-/

namespace Brec.Props

open Brec Packet Rd

variable {O : BlockOps} {Q : PayloadOps} {S : BlockSpec O}

/-! ## The claim -/

/-- What is left of a stream for a reader that missed the first `k` bytes of its first packet `p`. -/
def joined (p : Packet O Q) (k : Nat) (ps : List (Packet O Q)) : Bytes := (wire p).drop k ++ (ps.map wire).flatten

/-- The loud results of a loop of `read` over the source are those for the packets `ps`, then the end. -/
def Receives (S : BlockSpec O) (rules : Rules O.BR (Packet O Q)) (chk : Bool) (cs : Chunks) (ps : List (Packet O Q)) : Prop :=
  ∃ n, loud (reads rules chk n (.new (cs.map some))).1 = ps.map (fun p => .ok (verdict S rules p)) ++ [.ok .noData]

/-- Full statement of C90 (false): whoever joins in the middle of a packet gets all packets behind it, and nothing else, however the bytes are cut into reads of at
least 29 bytes. (The packet behind the rest has a body of at least 8 bytes, and reads are not shorter, or else it is `C23` that fails.) -/
def C90_full (S : BlockSpec O) (Q : PayloadOps) : Prop :=
  ∀ (rules : Rules O.BR (Packet O Q)) (chk : Bool) (p : Packet O Q) (k : Nat) (ps : List (Packet O Q)) (cs : Chunks), 0 < k → k < (wire p).length →
    (∀ q ∈ p :: ps, q.Ok S ∧ q.blocks.length ≤ 255) → (∀ q, ps.head? = some q → ∀ h, q.header = .ok h → 8 ≤ h.size) → Cuts cs (joined p k ps) →
    (∀ c ∈ cs.dropLast, 29 ≤ c.length) → Receives S rules chk cs ps

/-! ## When it holds -/

/-- Bytes behind which a packet is found: those that do not contain the signature and do not end in half of it. -/
theorem free_iff {l : Bytes} : Free l ↔ NoSig l ∧ ¬ PACKET_SIG.take 4 <:+ l := by
  have hl8 : PACKET_SIG.length = 8 := rfl
  constructor
  · intro h
    refine ⟨fun j hp => ?_, fun ⟨a, ha⟩ => ?_⟩
    · have hle := hp.length_le
      simp only [List.length_drop, hl8] at hle
      refine h j (by omega) ?_
      rw [List.drop_append_of_le_length (by omega)]
      exact hp.trans (List.prefix_append _ _)
    · refine h a.length (by rw [← ha]; simp [PACKET_SIG]) ?_
      rw [← ha, List.append_assoc, List.drop_left]
      exact ⟨PACKET_SIG.drop 4, by decide⟩
  · rintro ⟨h1, h2⟩ j hj hp
    rw [List.drop_append_of_le_length (Nat.le_of_lt hj)] at hp
    by_cases hlong : 8 ≤ (l.drop j).length
    · exact h1 j (List.prefix_of_prefix_length_le hp (List.prefix_append _ _) (by rw [hl8]; exact hlong))
    · obtain ⟨s, hs⟩ := hp
      have hr : (l.drop j).length = l.length - j := List.length_drop
      generalize hx : l.drop j = x at *
      have hx1 : x = PACKET_SIG.take x.length := by
        have := congrArg (List.take x.length) hs
        rw [List.take_append_of_le_length (by rw [hl8]; omega), List.take_left] at this
        exact this.symm
      have hx2 : PACKET_SIG.drop x.length <+: PACKET_SIG := by
        have := congrArg (List.drop x.length) hs
        rw [List.drop_append_of_le_length (by rw [hl8]; omega), List.drop_left] at this
        exact ⟨s, this⟩
      have h4 : x.length = 4 := by
        have h0 : 0 < x.length := by omega
        have h8 : x.length < 8 := by omega
        generalize x.length = r at hx2 h0 h8
        match r, h0, h8 with
        | 1, _, _ => revert hx2; decide
        | 2, _, _ => revert hx2; decide
        | 3, _, _ => revert hx2; decide
        | 4, _, _ => rfl
        | 5, _, _ => revert hx2; decide
        | 6, _, _ => revert hx2; decide
        | 7, _, _ => revert hx2; decide
      rw [h4] at hx1
      exact h2 ⟨l.take j, by rw [← hx1, ← hx]; exact List.take_append_drop _ _⟩

/-- The joined stream as litter and packets. -/
theorem joined_stream {t : Bytes} {p : Packet O Q} {ps : List (Packet O Q)} :
    t ++ ((p :: ps).map wire).flatten = stream ((t, p) :: ps.map fun q => ([], q)) [] := by
  have : ∀ ps : List (Packet O Q), (ps.map wire).flatten = stream (ps.map fun q => ([], q)) [] := by
    intro ps
    induction ps with
    | nil => rfl
    | cons p ps ih => simp [stream, ih]
  simp [stream, this]

/-- **C90 (partial)**. Every packet behind the one that was cut is delivered, and nothing else, and an `Ignored` rule is given the rest of the cut one, if this rest does not
contain the packet signature and does not end in its first half. Missing: rests that do (`C90_smuggled`, `C90_stuck`, `C90_half`). -/
theorem C90_joins_partial (rules : Rules O.BR (Packet O Q)) (chk : Bool) {p q : Packet O Q} {k : Nat} {ps : List (Packet O Q)} {cs : Chunks}
    (hp : ∀ r ∈ q :: ps, r.Ok S ∧ r.blocks.length ≤ 255) (hq : ∀ h, q.header = .ok h → 8 ≤ h.size) (hc : Cuts cs (joined p k (q :: ps)))
    (hl : ∀ c ∈ cs.dropLast, 29 ≤ c.length) (h1 : NoSig ((wire p).drop k)) (h2 : ¬ PACKET_SIG.take 4 <:+ (wire p).drop k) :
    Receives S rules chk cs (q :: ps) ∧
    (ignoredRules rules = 1 → ∃ n, (reads rules chk n (.new (cs.map some))).2.log.flatten = (wire p).drop k ∧
      loud (reads rules chk n (.new (cs.map some))).1 = (q :: ps).map (fun p => .ok (verdict S rules p)) ++ [.ok .noData]) := by
  unfold joined at hc
  rw [joined_stream] at hc
  have hn : NoSig ([] : Bytes) := by
    intro j hj
    rw [List.drop_nil] at hj
    exact absurd hj.length_le (by decide)
  have hmap : ∀ ps : List (Packet O Q), List.map (fun x : Bytes × Packet O Q => (.ok (verdict S rules x.2) : Out (Next (Packet O Q)))) (List.map (fun r => ([], r)) ps) =
      ps.map fun p => .ok (verdict S rules p) := by
    intro ps; rw [List.map_map]; rfl
  obtain ⟨n, e1, e2⟩ := C23_long_reads_partial (S := S) rules chk _ [] cs
    (by
      intro x hx
      rcases List.mem_cons.mp hx with rfl | hx
      · have := hp q (by simp)
        exact ⟨free_iff.mpr ⟨h1, h2⟩, this.1, this.2, .inr hq⟩
      · obtain ⟨r, hr, rfl⟩ := List.mem_map.mp hx
        have := hp r (List.mem_cons_of_mem _ hr)
        exact ⟨free_nil, this.1, this.2, .inl rfl⟩) hn hc hl
  rw [List.map_cons, hmap] at e1
  refine ⟨⟨n, e1⟩, fun hi => ⟨n, ?_, e1⟩⟩
  rw [e2 hi]
  simp [litters, List.map_map, Function.comp_def]

/-! ## When it does not -/

/-- A packet that carries nothing but the bytes `x` as its payload, in any protocol whose own payloads are not called `Vec<u8>`. -/
theorem bytesCarrier (S : BlockSpec O) {vs : List PayloadTy} (hv : ∀ T ∈ vs, T.ssig ≠ bytesTy.ssig) {x : Bytes} (hx : x.length < 2 ^ 32) :
    ∃ p : Packet O (PEnum.ops vs), p.Ok S ∧ p.blocks = [] ∧ ∃ a : Bytes, a.length = 43 ∧ wire p = a ++ x := by
  obtain ⟨w, hw⟩ : ∃ w, PVal.At bytesTy x (vs ++ [bytesTy, stringTy]) w := by
    induction vs with
    | nil => exact ⟨_, .here _⟩
    | cons T vs ih =>
      obtain ⟨w, hw⟩ := ih fun T' h => hv T' (List.mem_cons_of_mem _ h)
      exact ⟨_, .there T _ w (hv T (by simp)) hw⟩
  have g := PEnum.ops_good hw (bytesTy_good x (by omega)) rfl
  have hh : (⟨[], some w⟩ : Packet O (PEnum.ops vs)).header = .ok (PacketHeader.ofSizes 0 (some (x.length + 14))) := by
    rw [Packet.header]
    simp only [g.size_eq, g.hsize_eq, Out.map, List.map_nil, List.sum_nil]
    rfl
  have ok : (⟨[], some w⟩ : Packet O (PEnum.ops vs)).Ok S := by
    refine ⟨by simp, fun v e => ?_, fun h e => ?_⟩
    · injection e with e
      subst e
      exact ⟨_, _, g⟩
    · rw [hh] at e
      injection e with e
      subst e
      simp [PacketHeader.ofSizes]
      omega
  refine ⟨_, ok, rfl, ?_⟩
  obtain ⟨h, pb, sh⟩ := ok.shape
  have hpb : pb = PayloadHeader.asVec ⟨bytesTy.ssig, PayloadTy.crcBlock x, x.length⟩ ++ x := by
    have hpt := sh.part
    cases hpt with
    | some g' =>
      have := g'.parts_eq.symm.trans g.parts_eq
      injection this with this
      injection this with a b
      rw [a, b]
  refine ⟨h.bytes ++ PayloadHeader.asVec ⟨bytesTy.ssig, PayloadTy.crcBlock x, x.length⟩, ?_, ?_⟩
  · simp only [List.length_append, PacketHeader.bytes_length, PayloadHeader.size_eq]
    rfl
  · rw [wire_eq ok.blocks sh, hpb]
    simp [BlockSpec.encs]

/-- **C90 fails**: a packet that was never sent is delivered. Whatever the packet `q`, there is a packet whose payload is the bytes of `q`; whoever joins a stream behind its header gets `q`,
however the stream is cut into reads. -/
theorem C90_smuggled (S : BlockSpec O) {vs : List PayloadTy} (hv : ∀ T ∈ vs, T.ssig ≠ bytesTy.ssig) {q : Packet O (PEnum.ops vs)} (hq : q.Ok S) (hn : q.blocks.length ≤ 255)
    (hl : (wire q).length < 2 ^ 32) :
    ∃ p : Packet O (PEnum.ops vs), p.Ok S ∧ p.blocks = [] ∧ (wire p).length = 43 + (wire q).length ∧
      ∀ (rules : Rules O.BR (Packet O (PEnum.ops vs))) (chk : Bool) (ps : List (Packet O (PEnum.ops vs))) (cs : Chunks),
        (∀ r ∈ ps, r.Ok S ∧ r.blocks.length ≤ 255) → Cuts cs (joined p 43 ps) → Receives S rules chk cs (q :: ps) := by
  obtain ⟨p, hp, hb, a, ha, hw⟩ := bytesCarrier S hv hl
  refine ⟨p, hp, hb, by rw [hw, List.length_append, ha], fun rules chk ps cs hps hc => ?_⟩
  have hj : joined p 43 ps = ((q :: ps).map wire).flatten := by
    rw [joined, hw, List.drop_left' ha]
    rfl
  rw [hj] at hc
  obtain ⟨n, h, _⟩ := C24_rules (S := S) (q :: ps) (by
    intro r hr
    rcases List.mem_cons.mp hr with rfl | hr
    · exact ⟨hq, hn⟩
    · exact hps r hr) rules chk cs hc
  exact ⟨n, h⟩

/-- A signature with nothing behind it that could be a header. -/
def bareSig : Bytes := PACKET_SIG ++ List.replicate 21 0

theorem bareSig_err (s : Bytes) : PacketHeader.readSlice (bareSig ++ s) = .err .crcDismatch := by
  have h : PacketHeader.check ⟨0, 0, false, 0⟩ = .err .crcDismatch := by decide +kernel
  rw [PacketHeader.readSlice, if_neg (by simp [bareSig, PACKET_SIG, HSIZE]), if_neg (by simp [bareSig, List.append_assoc])]
  have e : ∀ i n, i + n ≤ 29 → slice (bareSig ++ s) i n = slice bareSig i n := by
    intro i n hi
    have hb : bareSig.length = 29 := rfl
    rw [slice, slice, List.drop_append_of_le_length (by omega), List.take_append_of_le_length (by simp; omega)]
  rw [e 8 8 (by omega), e 16 8 (by omega), e 24 1 (by omega), e 25 4 (by omega)]
  exact h

/-- **C90 fails**: there is a packet such that whoever joins a stream behind its header is stuck for good. Its payload begins with the packet signature; `read` returns the same
error forever and none of the packets behind is delivered, whatever they are. -/
theorem C90_stuck (S : BlockSpec O) {vs : List PayloadTy} (hv : ∀ T ∈ vs, T.ssig ≠ bytesTy.ssig) :
    ∃ p : Packet O (PEnum.ops vs), p.Ok S ∧ p.blocks = [] ∧ (wire p).length = 72 ∧
      ∀ (rules : Rules O.BR (Packet O (PEnum.ops vs))) (chk : Bool) (s : Bytes) (es : Events) (n : Nat),
        (reads rules chk n (.new (some ((wire p).drop 43 ++ s) :: es))).1 = List.replicate n (.err .crcDismatch) := by
  obtain ⟨p, hp, hb, a, ha, hw⟩ := bytesCarrier S hv (x := bareSig) (by decide)
  refine ⟨p, hp, hb, by rw [hw, List.length_append, ha]; rfl, fun rules chk s es n => ?_⟩
  rw [hw, List.drop_left' ha]
  have := C25_bad_header rules chk (bareSig ++ s) .crcDismatch (by rw [bareSig, List.append_assoc]; exact List.prefix_append _ _) (by simp [bareSig, PACKET_SIG])
    (bareSig_err s) es [] n
  rw [Rd.new, this]

/-- **C90 fails** for packets without a signature in them too: if the rest of the cut packet ends in half a signature, it makes one together with the first bytes of the
next packet, and unless a header happens to be there, `read` returns the same error forever. -/
theorem C90_half (S : BlockSpec O) {vs : List PayloadTy} (hv : ∀ T ∈ vs, T.ssig ≠ bytesTy.ssig) :
    ∃ p : Packet O (PEnum.ops vs), p.Ok S ∧ p.blocks = [] ∧ (wire p).length = 47 ∧ NoSig ((wire p).drop 43) ∧
      ∀ (rules : Rules O.BR (Packet O (PEnum.ops vs))) (chk : Bool) (q : Packet O (PEnum.ops vs)) (s : Bytes) (es : Events) (n : Nat) (e : Err), q.Ok S →
        PacketHeader.readSlice (PACKET_SIG.take 4 ++ (wire q ++ s)) = .err e →
        (reads rules chk n (.new (some ((wire p).drop 43 ++ (wire q ++ s)) :: es))).1 = List.replicate n (.err e) := by
  obtain ⟨p, hp, hb, a, ha, hw⟩ := bytesCarrier S hv (x := PACKET_SIG.take 4) (by decide)
  refine ⟨p, hp, hb, by rw [hw, List.length_append, ha]; rfl, ?_, fun rules chk q s es n e hq he => ?_⟩
  · rw [hw, List.drop_left' ha]
    intro j hj
    have := hj.length_le
    simp only [List.length_drop, PACKET_SIG] at this
    simp at this
    omega
  · rw [hw, List.drop_left' ha]
    obtain ⟨h, pb, sh⟩ := hq.shape
    have hwq : wire q = PACKET_SIG ++ (wire q).drop 8 := by
      rw [wire_eq hq.blocks sh]
      simp [PacketHeader.bytes, PACKET_SIG]
    have hl : 29 ≤ (wire q).length := by
      rw [wire_length hq.blocks sh]; simp
    have := C25_bad_header rules chk (PACKET_SIG.take 4 ++ (wire q ++ s)) e
      (by rw [hwq]; exact ⟨PACKET_SIG.drop 4 ++ ((wire q).drop 8 ++ s), by simp [PACKET_SIG]⟩)
      (by simp only [List.length_append]; omega) he es [] n
    rw [Rd.new, this]

/-- Nor does one have to join late: damage to the header of the packet `p` that carries the bytes of `q` has the same effect on a reader that got everything. -/
theorem C90_damaged (S : BlockSpec O) {vs : List PayloadTy} (hv : ∀ T ∈ vs, T.ssig ≠ bytesTy.ssig) {q : Packet O (PEnum.ops vs)} (hq : q.Ok S) (hn : q.blocks.length ≤ 255)
    (hl : (wire q).length < 2 ^ 32) (h8 : ∀ h, q.header = .ok h → 8 ≤ h.size) :
    ∃ p : Packet O (PEnum.ops vs), p.Ok S ∧ p.blocks = [] ∧ (wire p).length = 43 + (wire q).length ∧
      ∀ (d : Bytes), Free d → ∀ (rules : Rules O.BR (Packet O (PEnum.ops vs))) (chk : Bool) (ps : List (Packet O (PEnum.ops vs))) (cs : Chunks),
        (∀ r ∈ ps, r.Ok S ∧ r.blocks.length ≤ 255) → Cuts cs (d ++ joined p 43 ps) → (∀ c ∈ cs.dropLast, 29 ≤ c.length) → Receives S rules chk cs (q :: ps) := by
  obtain ⟨p, hp, hb, a, ha, hw⟩ := bytesCarrier S hv hl
  refine ⟨p, hp, hb, by rw [hw, List.length_append, ha], fun d hd rules chk ps cs hps hc hc29 => ?_⟩
  have hj : d ++ joined p 43 ps = d ++ ((q :: ps).map wire).flatten := by
    rw [joined, hw, List.drop_left' ha]
    rfl
  have hmap : ∀ ps : List (Packet O (PEnum.ops vs)), List.map (fun x : Bytes × Packet O (PEnum.ops vs) => (.ok (verdict S rules x.2) : Out (Next (Packet O (PEnum.ops vs)))))
      (List.map (fun r => ([], r)) ps) = ps.map fun p => .ok (verdict S rules p) := by
    intro ps; rw [List.map_map]; rfl
  rw [hj, joined_stream] at hc
  obtain ⟨n, e1, _⟩ := C23_long_reads_partial (S := S) rules chk _ [] cs
    (by
      intro x hx
      rcases List.mem_cons.mp hx with rfl | hx
      · exact ⟨hd, hq, hn, .inr h8⟩
      · obtain ⟨r, hr, rfl⟩ := List.mem_map.mp hx
        have := hps r hr
        exact ⟨free_nil, this.1, this.2, .inl rfl⟩)
    (by
      intro j hj
      rw [List.drop_nil] at hj
      exact absurd hj.length_le (by decide)) hc hc29
  rw [List.map_cons, hmap] at e1
  exact ⟨n, e1⟩

/-- **C90 is false of the code**, in every protocol. -/
theorem C90_not (S : BlockSpec O) {vs : List PayloadTy} (hv : ∀ T ∈ vs, T.ssig ≠ bytesTy.ssig) : ¬ C90_full S (PEnum.ops vs) := by
  intro hf
  obtain ⟨p, hp, hb, hl, h⟩ := C90_stuck S hv
  obtain ⟨n, e⟩ := hf [] true p 43 [] [(wire p).drop 43] (by decide) (by omega)
    (by intro r hr; rw [List.mem_singleton.mp hr]; exact ⟨hp, by simp [hb]⟩) (by simp)
    ⟨by simp [joined], by
      intro c hc
      rw [List.mem_singleton.mp hc]
      constructor
      · intro h0; have := congrArg List.length h0; simp [hl] at this
      · simp [hl]⟩ (by simp)
  have := h [] true [] [] n
  rw [List.append_nil] at this
  rw [List.map_cons, List.map_nil, this] at e
  simp only [List.map_nil, List.nil_append] at e
  have hm : (.ok .noData : Out (Next (Packet O (PEnum.ops vs)))) ∈ List.replicate n (.err .crcDismatch) := by
    have : (.ok .noData : Out (Next (Packet O (PEnum.ops vs)))) ∈ loud (List.replicate n (.err .crcDismatch)) := by rw [e]; simp
    exact (List.mem_filter.mp this).1
  have := (List.mem_replicate.mp hm).2
  cases this

/-! ## Examples -/

/-- The bytesCarrier of `oneByte` in the sample protocol, with one bit of its signature changed: the header is no longer found, the packet inside is. -/
example : ∃ (p : Packet (blockEnum sampleTypes) (PEnum.ops [])), p.Ok sampleSpec ∧ Free (((wire p).take 43).set 0 237) := by
  refine ⟨⟨[], some (.inl (wire oneByte))⟩, ?_, ?_⟩
  · refine ⟨by simp, fun v e => ?_, fun h e => ?_⟩
    · injection e with e
      subst e
      exact ⟨_, _, PEnum.ops_good (.here _) (bytesTy_good (wire oneByte) (by decide +kernel)) rfl⟩
    · have : (⟨[], some (.inl (wire oneByte))⟩ : Packet (blockEnum sampleTypes) (PEnum.ops [])).header = .ok (PacketHeader.ofSizes 0 (some 58)) := by decide +kernel
      rw [this] at e
      injection e with e
      subst e
      decide
  · unfold Free
    decide +kernel

example (rules : Rules _ (Packet (blockEnum sampleTypes) (PEnum.ops []))) (chk : Bool) :
    Receives sampleSpec rules chk [joined samplePacket 50 [oneByte, samplePacket]] [oneByte, samplePacket] := by
  refine (C90_joins_partial (p := samplePacket) (k := 50) rules chk ?_ ?_ ⟨by simp, ?_⟩ (by simp) ?_ ?_).1
  · intro r hr
    simp only [List.mem_cons, List.not_mem_nil, or_false] at hr
    rcases hr with rfl | rfl
    · exact ⟨oneByte_ok, by decide⟩
    · exact ⟨samplePacket_ok, by decide⟩
  · intro h hh
    have : oneByte.header = .ok (PacketHeader.ofSizes 0 (some 15)) := by decide +kernel
    rw [this] at hh
    injection hh with hh
    subst hh
    decide
  · intro c hc
    rw [List.mem_singleton.mp hc]
    decide +kernel
  · have h : Free ((wire samplePacket).drop 50) := by unfold Free; decide +kernel
    exact (free_iff.mp h).1
  · decide +kernel

/-- The header behind half a signature is not one. -/
example : PacketHeader.readSlice (PACKET_SIG.take 4 ++ (wire oneByte ++ [])) = .err .crcDismatch := by decide +kernel

example : ∀ T ∈ ([] : List PayloadTy), T.ssig ≠ bytesTy.ssig := by simp

end Brec.Props
