import Verif.Props.StorageDamage
import Verif.Props.Damaged
/-!
# C97: what a rule refuses by its blocks or by the bytes of its payload is never decoded

A program adds a rule because parsing the payload is expensive, or because it cannot make anything of it. `PacketBufReader`, `Packet::filtered` and the
`filtered()` iterator of a storage then have to step over such a packet whatever stands in its payload.
-/

namespace Brec.Props

open Brec Rd

variable {O : BlockOps} {Q : PayloadOps} {S : BlockSpec O}

/-! ## Specification -/

/-- The header in front of these blocks and these further bytes. -/
def packedHeader (S : BlockSpec O) (bs : List O.B) (flag : Bool) (rest : Bytes) : PacketHeader :=
  ⟨(S.encs bs).length + rest.length, (S.encs bs).length, flag,
    leNat (PacketHeader.crcOf ((S.encs bs).length + rest.length) (S.encs bs).length flag)⟩

/-- Something that has the header and the blocks of a packet, and any bytes in the place of the payload. -/
def packed (S : BlockSpec O) (bs : List O.B) (flag : Bool) (rest : Bytes) : Bytes := (packedHeader S bs flag rest).bytes ++ (S.encs bs ++ rest)

/-- The rules refuse it by its blocks, or by the bytes behind the header of its payload. Nothing is said about these bytes otherwise. -/
inductive Shut (S : BlockSpec O) (rules : Rules O.BR (Packet O Q)) (bs : List O.B) : Bool → Bytes → Prop
  | blocks {flag : Bool} {rest : Bytes} : passBlocks rules (bs.map S.ref) = false → Shut S rules bs flag rest
  | payload {ph : PayloadHeader} {y : Bytes} : ph.len < 2 ^ 32 → passPayload rules y = false → Shut S rules bs true (ph.asVec ++ y)

/-- What is sent: a packet, or something the rules refuse. -/
inductive Sent (O : BlockOps) (Q : PayloadOps) where
  | packet (p : Packet O Q)
  | other (bs : List O.B) (flag : Bool) (rest : Bytes)

/-- The bytes of what is sent. -/
def Sent.bytes (S : BlockSpec O) : Sent O Q → Bytes
  | packet p => wire p
  | other bs flag rest => packed S bs flag rest

/-- What may be sent. -/
def Sent.Fair (S : BlockSpec O) (rules : Rules O.BR (Packet O Q)) : Sent O Q → Prop
  | packet p => p.Ok S ∧ p.blocks.length ≤ 255
  | other bs flag rest => (∀ b ∈ bs, S.ok b) ∧ bs.length ≤ 255 ∧ (S.encs bs).length + rest.length < 2 ^ 63 ∧ Shut S rules bs flag rest

/-- What the program is to hear of it. -/
def Sent.said (S : BlockSpec O) (rules : Rules O.BR (Packet O Q)) : Sent O Q → Next (Packet O Q)
  | packet p => verdict S rules p
  | other _ _ _ => .skipped

/-! ## One packet -/

theorem packedHeader_wf {bs : List O.B} {flag : Bool} {rest : Bytes} (hl : (S.encs bs).length + rest.length < 2 ^ 63) : (packedHeader S bs flag rest).WF :=
  ⟨by simp only [packedHeader]; omega, by simp only [packedHeader]; omega, rfl⟩

theorem shut_parse {rules : Rules O.BR (Packet O Q)} {bs : List O.B} {flag : Bool} {rest : Bytes} (hok : ∀ b ∈ bs, S.ok b) (hn : bs.length ≤ 255)
    (h : Shut S rules bs flag rest) : parse rules (packedHeader S bs flag rest) (S.encs bs ++ rest) = (.ok .skipped, .dropConsume) := by
  unfold parse
  rw [if_neg (by simp [packedHeader])]
  have hr : (if (S.encs bs ++ rest).take (packedHeader S bs flag rest).blocksLen = [] then ((.ok [], .dropConsume) : Out (List O.BR) × Fin)
      else blocksLoop O ((S.encs bs ++ rest).take (packedHeader S bs flag rest).blocksLen) MAX_BLOCKS 0 []) = (.ok (bs.map S.ref), .dropConsume) := by
    rw [show (packedHeader S bs flag rest).blocksLen = (S.encs bs).length from rfl, List.take_left' rfl]
    by_cases hne : bs = []
    · simp [hne, BlockSpec.encs]
    · have hpos := S.encs_pos hok hne
      rw [if_neg (by intro e; rw [e] at hpos; simp at hpos), blocksLoop_eq hok hne (by omega) (by simp) (by simpa [MAX_BLOCKS] using hn)]
      simp
  rw [hr]
  simp only
  unfold parsePayload
  cases h with
  | blocks h =>
    rw [← filterByBlocks_eq] at h
    rw [if_pos (by simp [h])]
  | @payload ph y hlen h =>
    rw [← filterByPayload_eq] at h
    by_cases hb : rules.filterByBlocks (bs.map S.ref) = true
    · rw [if_neg (by simp [hb])]
      have hd1 : List.drop (S.encs bs).length (S.encs bs ++ (ph.asVec ++ y)) = ph.asVec ++ y := by simp
      have hd2 : List.drop ((S.encs bs).length + ph.size) (S.encs bs ++ (ph.asVec ++ y)) = y := by
        rw [← List.drop_drop, hd1, ← PayloadHeader.size_eq]; simp
      rw [if_pos (show (packedHeader S bs true (ph.asVec ++ y)).payload = true from rfl),
        show (packedHeader S bs true (ph.asVec ++ y)).blocksLen = (S.encs bs).length from rfl, hd1, PayloadHeader.tryBuf, Chunks.fill_single, PayloadHeader.peek_asVec ph hlen]
      simp only
      rw [hd2, if_neg (by rw [← PayloadHeader.size_eq]; simp), if_pos (by simp [h])]
    · rw [if_pos hb]

theorem shut_look {rules : Rules O.BR (Packet O Q)} {bs : List O.B} {flag : Bool} {rest : Bytes} (hok : ∀ b ∈ bs, S.ok b) (h : Shut S rules bs flag rest) :
    Packet.look Q rules (packedHeader S bs flag rest) (S.encs bs ++ rest) = .ok (.denied ((S.encs bs).length + rest.length)) := by
  have hblk : (if (packedHeader S bs flag rest).blocksLen > 0 then
      Packet.slicesLoop O (S.encs bs ++ rest) (packedHeader S bs flag rest).blocksLen ((S.encs bs ++ rest).length + 1) 0 [] else .ok []) = .ok (bs.map S.ref) := by
    rw [show (packedHeader S bs flag rest).blocksLen = (S.encs bs).length from rfl]
    by_cases hne : bs = []
    · simp [hne, BlockSpec.encs]
    · rw [if_pos (S.encs_pos hok hne), Packet.slicesLoop_eq hok hne (s := rest) (by omega) (by simp)
        (by have := S.length_le hok; simp only [List.length_append]; omega) (by simp)]
      simp
  unfold Packet.look
  rw [hblk, Out.bind_ok]
  cases h with
  | blocks h =>
    rw [← filterByBlocks_eq] at h
    rw [if_pos (by simp [h])]
    rfl
  | @payload ph y hlen h =>
    rw [← filterByPayload_eq] at h
    by_cases hb : rules.filterByBlocks (bs.map S.ref) = true
    · rw [if_neg (by simp [hb])]
      have hd1 : List.drop (S.encs bs).length (S.encs bs ++ (ph.asVec ++ y)) = ph.asVec ++ y := by simp
      have hd2 : List.drop ((S.encs bs).length + ph.size) (S.encs bs ++ (ph.asVec ++ y)) = y := by
        rw [← List.drop_drop, hd1, ← PayloadHeader.size_eq]; simp
      rw [if_pos (show (packedHeader S bs true (ph.asVec ++ y)).payload = true from rfl),
        show (packedHeader S bs true (ph.asVec ++ y)).blocksLen = (S.encs bs).length from rfl, if_neg (by simp), hd1, Chunks.fill_single, PayloadHeader.peek_asVec ph hlen]
      simp only
      rw [hd2, if_neg (by rw [← PayloadHeader.size_eq]; simp), if_pos (by simp [h])]
      rfl
    · rw [if_pos hb]
      rfl

/-- **C97, `Packet::filtered`.** What the rules refuse by its blocks or by the bytes of its payload is denied, and the source stands behind it, whatever the payload is and whatever
payloads the program knows. -/
theorem C97_filtered (rules : Rules O.BR (Packet O Q)) {bs : List O.B} {flag : Bool} {rest : Bytes} (hok : ∀ b ∈ bs, S.ok b)
    (hl : (S.encs bs).length + rest.length < 2 ^ 63) (h : Shut S rules bs flag rest) (s : Bytes) :
    (Packet.filtered Q rules).run (packed S bs flag rest ++ s) = (.ok (.denied ((S.encs bs).length + rest.length)), s) := by
  unfold Packet.filtered packed
  rw [List.append_assoc, P.bind_ok (PacketHeader.read_bytes (packedHeader_wf hl) _),
    P.bind_ok (a := ()) (s' := S.encs bs ++ rest ++ s) (by simp [allocZeroed, packedHeader, hl]),
    P.bind_ok (P.readExact_append' (by simp [packedHeader]) s), P.lift_run, shut_look hok h]

/-! ## The stream -/

def Sent.frame (S : BlockSpec O) : Sent O Q → Frame
  | packet p => (hdr p, body p)
  | other bs flag rest => (packedHeader S bs flag rest, S.encs bs ++ rest)

theorem hit_body {p : Packet O Q} : hit p (body p) = wire p := by
  rw [hit, body, List.take_append_drop]

theorem sent_frame {rules : Rules O.BR (Packet O Q)} {x : Sent O Q} (h : x.Fair S rules) :
    (∃ hd, Frames.Shape (x.frame S) hd (x.frame S).2) ∧ Frames.wire (x.frame S) = x.bytes S ∧
      parse rules (x.frame S).1 (x.frame S).2 = (.ok (x.said S rules), .dropConsume) := by
  cases x with
  | packet p =>
    have dm : Damage S (p, body p) := ⟨h.1, h.2, rfl⟩
    obtain ⟨hd, pb, sh, fs, hw, hb⟩ := frame_facts dm
    refine ⟨⟨hd, fs⟩, ?_, frame_intact dm rules rfl⟩
    rw [show (Sent.packet p).frame S = Props.frame (p, body p) from rfl, hw]
    exact hit_body
  | other bs flag rest =>
    obtain ⟨hok, hn, hl, hs⟩ := h
    exact ⟨⟨_, ⟨rfl, packedHeader_wf hl, by simp [packedHeader], by simp [Sent.frame, packedHeader], hl⟩⟩, rfl, shut_parse hok hn hs⟩

theorem sent_stream {rules : Rules O.BR (Packet O Q)} : ∀ (xs : List (Sent O Q)), (∀ x ∈ xs, x.Fair S rules) →
    (xs.map (·.bytes S)).flatten = Frames.stream (xs.map fun x => ([], x.frame S)) []
  | [], _ => rfl
  | x :: xs, h => by
    simp only [List.map_cons, List.flatten_cons, Frames.stream, List.nil_append]
    rw [(sent_frame (h x List.mem_cons_self)).2.1, sent_stream xs fun y hy => h y (List.mem_cons_of_mem _ hy)]

/-- **C97, `PacketBufReader`.** A stream of packets, among them any number of such that the rules refuse by their blocks or by the bytes of their payload, cut into reads in any way: every
packet is reported as the rules say, the refused ones as skipped, then there is no more data. What stands in the payloads of the refused packets makes no difference: no error, nothing
lost, nothing given to `Ignored`. -/
theorem C97_stream (hO : O.Safe) (hQ : Q.Safe) (rules : Rules O.BR (Packet O Q)) (chk : Bool) (xs : List (Sent O Q)) (hx : ∀ x ∈ xs, x.Fair S rules)
    (cs : Chunks) (hc : Cuts cs (xs.map (·.bytes S)).flatten) :
    ∃ n, loud (reads rules chk n (.new (cs.map some))).1 = xs.map (fun x => .ok (x.said S rules)) ++ [.ok .noData] ∧
      (reads rules chk n (.new (cs.map some))).2.log = [] := by
  have hg : ∀ x ∈ xs.map (fun x => (([] : Bytes), x.frame S)), Frames.GoodFrame x := by
    intro x hm
    obtain ⟨y, hy, rfl⟩ := List.mem_map.mp hm
    obtain ⟨⟨hd, fs⟩, _⟩ := sent_frame (hx y hy)
    exact ⟨free_nil, ⟨hd, _, fs⟩, .inl rfl⟩
  have inv := Frames.inv_new hc.2 (hc.1.trans (sent_stream xs hx)) hg (by intro j; simp [PACKET_SIG])
  have hrun : Frames.Ends rules chk (.new (cs.map some)) (xs.map fun x => (([] : Bytes), x.frame S)) [] ∨
      Frames.Stops rules chk (.new (cs.map some)) (xs.map fun x => (([] : Bytes), x.frame S)) := by
    refine Frames.run hO hQ (fun _ is => ∀ x ∈ is, x.1 = []) (fun r is t inv hG => Frames.not_bad_pure inv hG) (fun r is t is' _ hG hi _ => ?_) _ _ _ inv ?_
    · rcases hi with rfl | ⟨k, rfl⟩
      · exact fun x hx => hG x (List.mem_of_mem_tail hx)
      · cases is with
        | nil => simp [Frames.dropItems]
        | cons y is =>
          obtain ⟨l, p⟩ := y
          intro x hx
          rcases List.mem_cons.mp hx with rfl | hx
          · have := hG (l, p) List.mem_cons_self
            simp only at this
            simp [this]
          · exact hG x (List.mem_cons_of_mem _ hx)
    · intro x hx
      obtain ⟨y, _, rfl⟩ := List.mem_map.mp hx
      rfl
  rcases hrun with ⟨n, h1, h2, _⟩ | ⟨n, pre, f, post, e, np, _⟩
  · refine ⟨n, ?_, ?_⟩
    · rw [h1, List.map_map]
      congr 1
      refine List.map_congr_left fun x hm => ?_
      exact congrArg Prod.fst (sent_frame (hx x hm)).2.2
    · obtain ⟨ys, e1, e2, e3⟩ := h2
      have hl : Frames.litters (xs.map fun x => (([] : Bytes), x.frame S)) [] = [] := by
        simp [Frames.litters, List.map_map, Function.comp_def]
      rw [hl] at e1
      have : ys = [] := by
        cases ys with
        | nil => rfl
        | cons x xs => rw [List.flatten_cons, List.append_eq_nil_iff] at e1; exact absurd e1.1 (e2 x List.mem_cons_self)
      subst this
      simpa [Rd.new] using e3
  · exfalso
    rw [List.map_map] at e
    obtain ⟨x, hm, e5⟩ : ∃ x ∈ xs, x.frame S = f := by
      have : f ∈ List.map (Prod.snd ∘ fun x : Sent O Q => (([] : Bytes), x.frame S)) xs := by rw [e]; simp
      obtain ⟨x, hm, e⟩ := List.mem_map.mp this
      exact ⟨x, hm, e⟩
    apply np
    rw [← e5, Frames.Passes, (sent_frame (hx x hm)).2.2]

/-- Refuses one payload by its bytes. -/
def notTwo : Rules (blockEnum sampleTypes).BR (Packet (blockEnum sampleTypes) (PEnum.ops [])) := [.byPayload fun y => y != [2]]

/-- The packet with a wrong CRC in its payload header, which keeps the reader for ever without the rule (`oneByte_stuck`), is skipped, and the packet behind it is found. -/
example : (∃ n, loud (reads notTwo true n (.new [some (packed sampleSpec [] true (oneByteHeader.asVec ++ [2]) ++ wire samplePacket)])).1 =
      [.ok .skipped, .ok (.found samplePacket), .ok .noData]) ∧
    packed sampleSpec [] true (oneByteHeader.asVec ++ [2]) = hit oneByte (oneByteHeader.asVec ++ [2]) := by
  refine ⟨?_, by decide +kernel⟩
  obtain ⟨n, h, _⟩ := C97_stream (S := sampleSpec) (blockEnum_safe sampleTypes) (PEnum.ops_safe []) notTwo true
    [.other [] true (oneByteHeader.asVec ++ [2]), .packet samplePacket]
    (by
      intro x hx
      simp only [List.mem_cons, List.not_mem_nil, or_false] at hx
      rcases hx with rfl | rfl
      · exact ⟨by intro b hb; exact absurd hb (List.not_mem_nil), by decide, by decide +kernel, .payload (by decide) (by decide)⟩
      · exact ⟨samplePacket_ok, by decide⟩)
    [packed sampleSpec [] true (oneByteHeader.asVec ++ [2]) ++ wire samplePacket]
    ⟨by simp [Sent.bytes], by
      intro c hc
      simp only [List.mem_singleton] at hc
      subst hc
      decide +kernel⟩
  have hv : verdict sampleSpec notTwo samplePacket = .found samplePacket := by
    have : accepts sampleSpec notTwo samplePacket (bodyOf samplePacket) = true := by decide +kernel
    unfold verdict
    rw [this]; rfl
  refine ⟨n, ?_⟩
  rw [← hv]
  exact h

/-! ## The storage -/

/-- Each of these replaces a stored packet by something with its header and its blocks that the rules refuse. -/
def Veiled (S : BlockSpec O) (rules : Rules O.BR (Packet O Q)) (ps : List (Packet O Q)) (hits : List (Nat × Bytes)) : Prop :=
  ∀ h ∈ hits, ∃ p rest, ps[h.1]? = some p ∧ h.2 = packed S p.blocks p.payload.isSome rest ∧ h.2.length = (wire p).length ∧ Shut S rules p.blocks p.payload.isSome rest

/-- Reading one after the other with `Packet::filtered` meets only packets the rules accept or refuse; the former are listed. -/
inductive Sifts (rules : Rules O.BR (Packet O Q)) : Bytes → List (Packet O Q) → Prop
  | nil : Sifts rules [] []
  | take {b b' : Bytes} {l : List (Packet O Q)} {n : Nat} {p : Packet O Q} : b ≠ [] → (Packet.filtered Q rules).run b = (.ok (.accepted n p), b') →
      Sifts rules b' l → Sifts rules b (p :: l)
  | skip {b b' : Bytes} {l : List (Packet O Q)} {n : Nat} : b ≠ [] → (Packet.filtered Q rules).run b = (.ok (.denied n), b') →
      Sifts rules b' l → Sifts rules b l

theorem sifts_yield {rules : Rules O.BR (Packet O Q)} {data : Bytes} {spans : Spans} {L : List (Out (Packet O Q))}
    (h : Yields (fun it r => ∃ fuel, Iter.nextFiltered rules data fuel it = some r) ⟨spans, []⟩ L) {b : Bytes} {l : List (Packet O Q)} (hb : Sifts rules b l) :
    Yields (fun it r => ∃ fuel, Iter.nextFiltered rules data fuel it = some r) ⟨spans, b⟩ (l.map Out.ok ++ L) := by
  induction hb with
  | nil => exact h
  | @take b b' l n p hne hf _ ih =>
    refine Yields.step (s' := ⟨spans, b'⟩) ⟨1, ?_⟩ ih
    unfold Iter.nextFiltered Iter.refill
    rw [if_pos hne]
    simp only
    rw [hf]
  | @skip b b' l n hne hf _ ih =>
    have hstep : ∀ fuel, Iter.nextFiltered rules data (fuel + 1) ⟨spans, b⟩ = Iter.nextFiltered rules data fuel ⟨spans, b'⟩ := by
      intro fuel
      conv => lhs; unfold Iter.nextFiltered Iter.refill
      rw [if_pos hne]
      simp only
      rw [hf]
    generalize l.map Out.ok ++ L = M at ih
    cases ih with
    | done h => obtain ⟨fuel, h⟩ := h; exact .done ⟨fuel + 1, (hstep fuel).trans h⟩
    | step h hy => obtain ⟨fuel, h⟩ := h; exact .step ⟨fuel + 1, (hstep fuel).trans h⟩ hy

/-- Slot after slot. -/
inductive SlotSifts (rules : Rules O.BR (Packet O Q)) : List (List Bytes) → List (Packet O Q) → Prop
  | nil : SlotSifts rules [] []
  | cons {g : List Bytes} {gs : List (List Bytes)} {l l' : List (Packet O Q)} : Sifts rules g.flatten l → SlotSifts rules gs l' → SlotSifts rules (g :: gs) (l ++ l')

theorem slots_sift {cap : Nat} {rules : Rules O.BR (Packet O Q)} {data : Bytes} (hl : data.length < 2 ^ 63) {gs : List (List Bytes)} {l : List (Packet O Q)}
    (h : SlotSifts rules gs l) : ∀ (pre : Bytes), data = pre ++ fileOf cap gs → (∀ g ∈ gs, Group cap g ∧ g ≠ []) →
    Yields (fun it r => ∃ fuel, Iter.nextFiltered rules data fuel it = some r) ⟨⟨pre.length, gs.map (table cap)⟩, []⟩ (l.map Out.ok) := by
  induction h with
  | nil =>
    intro pre _ _
    exact Yields.done (s' := ⟨⟨pre.length, []⟩, []⟩) ⟨1, rfl⟩
  | @cons g gs l l' hr _ ih =>
    intro pre hd hg
    obtain ⟨hgr, hgne⟩ := hg g (by simp)
    have hreg := region_length (cap := cap) hgr.le
    have hen : (table cap g).enc.length = 20 + 8 * cap := by
      rw [region, List.length_append] at hreg; omega
    have hfne : g.flatten ≠ [] := by
      cases g with
      | nil => exact absurd rfl hgne
      | cons w g =>
        have := hgr.pos w (by simp)
        simp [this]
    have hw : 0 < g.flatten.length := List.length_pos_iff.mpr hfne
    rw [fileOf_cons, region] at hd
    have hdl := congrArg List.length hd
    simp only [List.length_append] at hdl
    have key := sifts_yield (spans := ⟨(pre ++ ((table cap g).enc ++ g.flatten)).length, gs.map (table cap)⟩)
      (ih (pre ++ ((table cap g).enc ++ g.flatten)) (by rw [hd]; simp only [List.append_assoc]) fun x hx => hg x (by simp [hx])) hr
    have e1 : Iter.refill data ⟨⟨pre.length, (g :: gs).map (table cap)⟩, []⟩ =
        some (.ok ⟨⟨(pre ++ ((table cap g).enc ++ g.flatten)).length, gs.map (table cap)⟩, g.flatten⟩) := by
      unfold Iter.refill
      rw [if_neg (by simp)]
      simp only [List.map_cons, Spans.next]
      rw [table_width hgr, if_neg (by omega), table_size]
      simp only
      unfold fetch
      have hsub : pre.length + g.flatten.length + (20 + 8 * cap) - (pre.length + (20 + 8 * cap)) = g.flatten.length := by omega
      simp only
      rw [hsub, allocZeroed, if_pos (by omega)]
      simp only
      have hdrop : data.drop (pre.length + (20 + 8 * cap)) = g.flatten ++ fileOf cap gs := by
        rw [hd, ← List.drop_drop, List.drop_left, ← hen, List.append_assoc, List.drop_left]
      rw [hdrop, if_pos (by simp), List.take_left, Out.map_ok, List.length_append, List.length_append, hen]
      congr 4
      omega
    have e2 : Iter.refill data ⟨⟨(pre ++ ((table cap g).enc ++ g.flatten)).length, gs.map (table cap)⟩, g.flatten⟩ =
        some (.ok ⟨⟨(pre ++ ((table cap g).enc ++ g.flatten)).length, gs.map (table cap)⟩, g.flatten⟩) := by
      unfold Iter.refill
      rw [if_pos hfne]
    have hnext : ∀ fuel, Iter.nextFiltered rules data (fuel + 1) ⟨⟨pre.length, (g :: gs).map (table cap)⟩, []⟩ =
        Iter.nextFiltered rules data (fuel + 1) ⟨⟨(pre ++ ((table cap g).enc ++ g.flatten)).length, gs.map (table cap)⟩, g.flatten⟩ := by
      intro fuel
      conv => lhs; unfold Iter.nextFiltered
      conv => rhs; unfold Iter.nextFiltered
      rw [e1, e2]
    rw [List.map_append]
    generalize l.map Out.ok ++ l'.map Out.ok = L at key
    have lift : ∀ {r}, (∃ fuel, Iter.nextFiltered rules data fuel ⟨⟨(pre ++ ((table cap g).enc ++ g.flatten)).length, gs.map (table cap)⟩, g.flatten⟩ = some r) →
        ∃ fuel, Iter.nextFiltered rules data fuel ⟨⟨pre.length, (g :: gs).map (table cap)⟩, []⟩ = some r := by
      rintro r ⟨fuel, h⟩
      cases fuel with
      | zero => cases h
      | succ fuel => exact ⟨fuel + 1, (hnext fuel).trans h⟩
    cases key with
    | done h => exact .done (lift h)
    | step h hy => exact .step (lift h) hy

/-- What stands in the place of a packet: the packet itself, or something refused. -/
def Chunk (S : BlockSpec O) (rules : Rules O.BR (Packet O Q)) (struck : Nat → Bool) (x : Bytes × (Packet O Q × Nat)) : Prop :=
  x.2.1.Ok S ∧ ((struck x.2.2 = false ∧ x.1 = wire x.2.1) ∨ (struck x.2.2 = true ∧
    ∃ rest, x.1 = packed S x.2.1.blocks x.2.1.payload.isSome rest ∧ x.1.length = (wire x.2.1).length ∧ Shut S rules x.2.1.blocks x.2.1.payload.isSome rest))

theorem packed_small {p : Packet O Q} (hp : p.Ok S) {rest : Bytes} (hl : (packed S p.blocks p.payload.isSome rest).length = (wire p).length) :
    (S.encs p.blocks).length + rest.length < 2 ^ 63 := by
  obtain ⟨h, pb, sh⟩ := hp.shape
  have hs := sh.small
  rw [wire_eq hp.blocks sh, packed] at hl
  simp only [List.length_append, PacketHeader.bytes_length] at hl
  rw [sh.size] at hs
  omega

theorem chunks_sift {rules : Rules O.BR (Packet O Q)} {struck : Nat → Bool} : ∀ (xs : List (Bytes × (Packet O Q × Nat))), (∀ x ∈ xs, Chunk S rules struck x) →
    Sifts rules (xs.map (·.1)).flatten (((xs.map (·.2)).filter fun x => accepted S rules x.1 && !struck x.2).map (·.1))
  | [], _ => .nil
  | (c, p, k) :: xs, h => by
    have ih := chunks_sift xs fun x hx => h x (by simp [hx])
    obtain ⟨hp, hc⟩ : p.Ok S ∧ _ := h _ List.mem_cons_self
    have hpos := wire_pos hp
    have hne : ∀ t : Bytes, c.length = (wire p).length → c ++ t ≠ [] := by
      intro t hl h0
      have := congrArg List.length h0
      simp only [List.length_append, List.length_nil] at this
      omega
    rw [List.map_cons, List.flatten_cons, List.map_cons]
    rcases hc with ⟨hf, hc⟩ | ⟨hf, rest, hc, hcl, hs⟩
    · simp only at hf hc
      obtain ⟨n, hr⟩ := filtered_wire hp rules (xs.map (·.1)).flatten
      rw [← hc] at hr
      by_cases ha : accepted S rules p = true
      · rw [if_pos ha] at hr
        rw [List.filter_cons_of_pos (by simp [ha, hf])]
        exact .take (hne _ (by rw [hc])) hr ih
      · rw [if_neg ha] at hr
        rw [List.filter_cons_of_neg (by simp [ha])]
        exact .skip (hne _ (by rw [hc])) hr ih
    · simp only at hf hc hcl
      rw [List.filter_cons_of_neg (by simp [hf])]
      have hr := C97_filtered (Q := Q) rules hp.blocks (packed_small hp (by rw [← hc]; exact hcl)) hs (xs.map (·.1)).flatten
      rw [← hc] at hr
      exact .skip (hne _ hcl) hr ih

theorem groups_sift {rules : Rules O.BR (Packet O Q)} {struck : Nat → Bool} : ∀ (ts : List (List (Bytes × (Packet O Q × Nat)))), (∀ x ∈ ts.flatten, Chunk S rules struck x) →
    SlotSifts rules (ts.map (List.map (·.1))) (((ts.flatten.map (·.2)).filter fun x => accepted S rules x.1 && !struck x.2).map (·.1))
  | [], _ => .nil
  | t :: ts, h => by
    rw [List.flatten_cons, List.map_append, List.filter_append, List.map_append, List.map_cons]
    exact .cons (chunks_sift t fun x hx => h x (by simp [hx])) (groups_sift ts fun x hx => h x (by rw [List.flatten_cons]; exact List.mem_append_right _ hx))

theorem chunk_filtered {rules : Rules O.BR (Packet O Q)} {struck : Nat → Bool} {c : Bytes} {p : Packet O Q} {k : Nat} (h : Chunk S rules struck (c, p, k)) (t : Bytes) :
    ∃ n, (Packet.filtered Q rules).run (c ++ t) = (.ok (if accepted S rules p && !struck k then .accepted n p else .denied n), t) := by
  obtain ⟨hp, ⟨hf, hc⟩ | ⟨hf, rest, hc, hcl, hs⟩⟩ := h
  · obtain ⟨n, hr⟩ := filtered_wire hp rules t
    refine ⟨n, ?_⟩
    simp only at hc hf
    rw [hc, hr, hf, Bool.not_false, Bool.and_true]
  · simp only at hc hcl hf
    refine ⟨(S.encs p.blocks).length + rest.length, ?_⟩
    rw [hc, C97_filtered (Q := Q) rules hp.blocks (packed_small hp (by rw [← hc]; exact hcl)) hs t, hf, Bool.not_true, Bool.and_false]
    rfl

/-- **C97, a storage.** The payloads of stored packets are replaced by anything, as long as the rules refuse what is there then, by the blocks or by the bytes of the
payload: the loop over `filtered()` gives exactly the packets that are accepted and were not replaced, in their order, and no error; `nth_filtered` accepts the same. -/
theorem C97_storage {cap : Nat} (hc : 0 < cap) {chk : Bool} {ops : List (Op O Q)} {data : Bytes} {s : Storage} (h : Reached cap chk ops data s)
    (hok : ∀ p ∈ log ops, p.Ok S) (hs : Small cap (log ops)) (rules : Rules O.BR (Packet O Q)) :
    ∃ place : Nat → Nat, (∀ i p, (log ops)[i]? = some p → s.offsetOf cap i = .ok (some (place i)) ∧ wire p <+: data.drop (place i)) ∧
      ∀ hits, Veiled S rules (log ops) hits →
        Yields (fun it r => ∃ fuel, Iter.nextFiltered rules (patches place data hits) fuel it = some r) (Iter.new s)
          (((log ops).zipIdx.filter fun x => accepted S rules x.1 && !hits.any (·.1 == x.2)).map fun x => .ok x.1) ∧
        ∀ (j : Nat) (p : Packet O Q), (log ops)[j]? = some p → ∃ k,
          s.nthFiltered cap rules (patches place data hits) j = .ok (some (if accepted S rules p && !hits.any (·.1 == j) then .accepted k p else .denied k)) := by
  obtain ⟨gs, v, hd, f, hl⟩ := h.view hc hok hs
  subst hd
  refine ⟨placeOf cap gs, ?_, ?_⟩
  · intro i p hp
    obtain ⟨a, t, ho, e, hlen⟩ := offsetOf_some hc v.groups v.inner (n := i) (x := wire p) (by rw [f, List.getElem?_map, hp]; rfl)
    refine ⟨by rw [ho, placeOf, hlen], t, ?_⟩
    rw [e, placeOf, ← hlen, List.drop_left]
  · intro hits hh
    obtain ⟨gs', hg', hm, e, hj, hj'⟩ := patches_file hc hits v.groups (by
      intro x hx
      obtain ⟨p, _, hp, _, hpl, _⟩ := hh x hx
      exact ⟨wire p, by rw [f, List.getElem?_map, hp]; rfl, hpl⟩)
    rw [e]
    have hl' : (fileOf cap gs').length < 2 ^ 63 := by rw [fileOf_congr hm]; exact hl
    have htab : s.slots.map (·.inner) = gs'.map (table cap) := by
      rw [v.inner, tables_congr hm]
    have hfl : gs'.flatten.length = (log ops).zipIdx.length := by
      have := congrArg (fun x : List (List Nat) => x.flatten.length) hm
      simp only [← List.map_flatten, List.length_map] at this
      rw [this, f, List.length_map, List.length_zipIdx]
    obtain ⟨ts, t1, t2⟩ := pair_up gs' (log ops).zipIdx hfl
    have hch' : ∀ (k : Nat) x, ts.flatten[k]? = some x → Chunk S rules (fun k => hits.any (·.1 == k)) x := by
      intro k x hk
      have a1 : gs'.flatten[k]? = some x.1 := by rw [← t1, ← List.map_flatten, List.getElem?_map, hk]; rfl
      have a2 : (log ops).zipIdx[k]? = some x.2 := by rw [← t2, List.getElem?_map, hk]; rfl
      rw [List.getElem?_zipIdx] at a2
      obtain ⟨p, hp, hpx⟩ := Option.map_eq_some_iff.mp a2
      have hpk := hok p (List.mem_of_getElem? hp)
      obtain ⟨c, q⟩ := x
      simp only at hpx a1
      rw [Nat.zero_add] at hpx
      subst hpx
      refine ⟨hpk, ?_⟩
      by_cases hst : hits.any (·.1 == k) = true
      · right
        refine ⟨by simpa using hst, ?_⟩
        have : ∃ y ∈ hits, y.1 = k ∧ y.2 = c := by
          rcases hj' k with ⟨h0, _⟩ | ⟨y, hy, hyk, h⟩
          · obtain ⟨y, hy, hyk⟩ := List.any_eq_true.mp hst
            exact absurd (by simpa using hyk) (h0 y hy)
          · exact ⟨y, hy, hyk, by rw [a1] at h; injection h with h; exact h.symm⟩
        obtain ⟨y, hy, hyk, hyc⟩ := this
        obtain ⟨p', rest, hp', h1, h2, h3⟩ := hh y hy
        rw [hyk, hp] at hp'
        injection hp' with hp'
        subst hp'
        exact ⟨rest, by rw [← hyc]; exact h1, by rw [← hyc]; exact h2, h3⟩
      · left
        refine ⟨Bool.eq_false_iff.mpr hst, ?_⟩
        have := hj k (by intro y hy hyk; exact hst (List.any_eq_true.mpr ⟨y, hy, by simp [hyk]⟩))
        rw [a1, f, List.getElem?_map, hp] at this
        simpa using this
    have hch : ∀ x ∈ ts.flatten, Chunk S rules (fun k => hits.any (·.1 == k)) x := by
      intro x hx
      obtain ⟨k, hk⟩ := List.getElem?_of_mem hx
      exact hch' k x hk
    have hsift := groups_sift ts hch
    rw [t1, t2] at hsift
    have key := slots_sift (cap := cap) hl' hsift [] rfl (fun g hg => ⟨hg'.group g hg, hg'.ne g hg⟩)
    rw [List.map_map] at key
    refine ⟨by unfold Iter.new; rw [htab]; exact key, ?_⟩
    intro j p hp
    have hz : (log ops).zipIdx[j]? = some (p, j) := by rw [List.getElem?_zipIdx, hp, Option.map_some, Nat.zero_add]
    rw [← t2, List.getElem?_map] at hz
    obtain ⟨⟨c, q⟩, hx, hq⟩ := Option.map_eq_some_iff.mp hz
    simp only at hq
    subst hq
    obtain ⟨a, t, ho, e', _⟩ := offsetOf_some hc hg' htab (n := j) (x := c) (by rw [← t1, ← List.map_flatten, List.getElem?_map, hx]; rfl)
    obtain ⟨n, hr⟩ := chunk_filtered (hch' j _ hx) t
    refine ⟨n, ?_⟩
    unfold Storage.nthFiltered
    rw [ho]
    simp only
    rw [e', List.drop_left, hr]
    cases accepted S rules p && !hits.any (·.1 == j) <;> rfl

/-- Refuses the packets without blocks. -/
def someBlocks : Rules (blockEnum sampleTypes).BR (Packet (blockEnum sampleTypes) (PEnum.ops [])) := [.byBlocks fun bs => !bs.isEmpty]

def refusedFirst : List (Op (blockEnum sampleTypes) (PEnum.ops [])) := [oneByte, samplePacket].map Op.insert

theorem refusedFirst_log : log refusedFirst = [oneByte, samplePacket] := log_inserts _

theorem oneByte_length : (wire oneByte).length = 44 := by decide +kernel

theorem refusedFirst_small : Small 2 (log refusedFirst) := by
  rw [refusedFirst_log]
  unfold Small
  simp only [List.map_cons, List.map_nil, wire_sample_length, oneByte_length]
  decide

/-- The hypotheses are met: the payload of the first of two packets is overwritten by zeros, the header of the payload included; `filtered()` gives the second one and nothing else. -/
example (chk : Bool) : ∃ data s, Reached 2 chk refusedFirst data s ∧ ∃ data', data' ≠ data ∧
    Yields (fun it r => ∃ fuel, Iter.nextFiltered someBlocks data' fuel it = some r) (Iter.new s) [.ok samplePacket] := by
  have hcap : (0 : Nat) < 2 := by decide
  have hst : ∀ p ∈ log refusedFirst, Storable sampleSpec p := by
    rw [refusedFirst_log]
    intro p hp
    rcases List.mem_cons.mp hp with rfl | hp
    · exact ⟨oneByte_ok, by decide⟩
    · rw [List.mem_singleton.mp hp]; exact sample_storable
  obtain ⟨data, s, h⟩ := Reached.exists (S := sampleSpec) (cap := 2) hcap chk refusedFirst hst refusedFirst_small
  obtain ⟨place, hp, hy⟩ := C97_storage (S := sampleSpec) hcap h (fun p hp => (hst p hp).ok) refusedFirst_small someBlocks
  have hv : Veiled sampleSpec someBlocks (log refusedFirst) [(0, packed sampleSpec [] true (List.replicate 15 0))] := by
    intro x hx
    rw [List.mem_singleton.mp hx, refusedFirst_log]
    exact ⟨oneByte, _, rfl, rfl, by rw [oneByte_length]; decide +kernel, .blocks (by decide)⟩
  have hw := (hy _ hv).1
  rw [refusedFirst_log] at hw
  have ha : accepted sampleSpec someBlocks samplePacket = true := by decide +kernel
  have hb : accepted sampleSpec someBlocks oneByte = false := by decide +kernel
  simp only [List.zipIdx_cons, List.zipIdx_nil, List.filter_cons, ha, hb] at hw
  refine ⟨data, s, h, _, ?_, hw⟩
  obtain ⟨_, t, ht⟩ := hp 0 oneByte (by rw [refusedFirst_log]; rfl)
  intro he
  have h1 := congrArg (fun d => (d.drop (place 0)).take 44) he
  simp only [patches, List.foldl_cons, List.foldl_nil, patch] at h1
  have hlt : place 0 < data.length := by
    apply Nat.lt_of_not_le
    intro hle
    rw [List.drop_eq_nil_of_le hle] at ht
    have := congrArg List.length ht
    simp only [List.length_append, oneByte_length, List.length_nil] at this
    omega
  rw [← ht, List.take_left' oneByte_length, List.append_assoc, List.drop_left' (by rw [List.length_take]; omega),
    List.take_left' (by decide +kernel)] at h1
  exact absurd h1 (by decide +kernel)

end Brec.Props
