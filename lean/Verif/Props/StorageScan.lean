import Verif.Props.StorageReload
import Verif.Props.ReaderLimits
/-!
# Scanning a storage file with `PacketBufReader`: C38
-/

namespace Brec.Props

open Rd Slot

variable {O : BlockOps} {Q : PayloadOps} {S : BlockSpec O}

/-- Full statement of C38: on the file of any history, read in any pieces, `PacketBufReader` gives all packets in order and ends. -/
def C38_full : Prop :=
  ∀ (O : BlockOps) (Q : PayloadOps) (S : BlockSpec O) (cap : Nat) (chk chk' : Bool) (ops : List (Op O Q)) (w : Writer)
    (rules : Rules O.BR (Packet O Q)) (cs : Chunks), 0 < cap → (∀ p ∈ log ops, Storable S p) → Small cap (log ops) →
    runOps cap chk ops emptyWriter = some w → Cuts cs w.data →
    ∃ n, loud (reads rules chk' n (.new (cs.map some))).1 = (log ops).map (fun p => .ok (verdict S rules p)) ++ [.ok .noData]

/-! ## Where the signature of a packet can occur in a slot table -/

theorem top_zero {ls : List Nat} (h : ∀ l ∈ ls, l < 2 ^ 56) {k : Nat} (hk : k < ls.length) : (ls.flatMap (leBytes 8))[8 * k + 7]? = some 0#8 := by
  induction ls generalizing k with
  | nil => simp at hk
  | cons l ls ih =>
    rw [List.flatMap_cons]
    cases k with
    | zero =>
      have hl := h l (by simp)
      rw [List.getElem?_append_left (by simp)]
      have : (leBytes 8 l)[7]? = some (BitVec.ofNat 8 (l / 256 / 256 / 256 / 256 / 256 / 256 / 256)) := rfl
      rw [show 8 * 0 + 7 = 7 from rfl, this, show l / 256 / 256 / 256 / 256 / 256 / 256 / 256 = 0 by omega]
    | succ k =>
      rw [List.getElem?_append_right (by simp; omega), leBytes_length, show 8 * (k + 1) + 7 - 8 = 8 * k + 7 by omega]
      exact ih (fun x hx => h x (by simp [hx])) (by simpa using hk)

theorem sig_getElem {l : Bytes} {j : Nat} (h : PACKET_SIG <+: l.drop j) {i : Nat} (hi : i < 8) : l[j + i]? = PACKET_SIG[i]? := by
  obtain ⟨t, ht⟩ := h
  have : (l.drop j)[i]? = PACKET_SIG[i]? := by rw [← ht, List.getElem?_append_left (by simpa [PACKET_SIG] using hi)]
  rwa [List.getElem?_drop] at this

theorem flatMap_le_length (x : List Nat) : (x.flatMap (leBytes 8)).length = 8 * x.length := by
  induction x with
  | nil => rfl
  | cons a x ih => simp [ih]; omega

theorem enc_split (s : Slot) (t : Bytes) : s.enc ++ t = SLOT_SIG ++ ((s.capacity :: s.lengths).flatMap (leBytes 8) ++ (s.crc ++ t)) := by
  simp [enc]

/-- Sizes below 2^56: before the CRC there is no signature. -/
theorem enc_no_sig {s : Slot} (hc : s.capacity < 2 ^ 56) (hl : ∀ l ∈ s.lengths, l < 2 ^ 56) (t : Bytes) {j : Nat} (hj : j < 16 + 8 * s.lengths.length) :
    ¬ PACKET_SIG <+: (s.enc ++ t).drop j := by
  intro hp
  rw [enc_split] at hp
  have hlen := flatMap_le_length (s.capacity :: s.lengths)
  by_cases h8 : j < 8
  · have := sig_getElem hp (i := 0) (by omega)
    rw [List.getElem?_append_left (by simpa [SLOT_SIG] using h8)] at this
    clear hp hj
    revert this
    revert h8
    revert j
    decide
  · have := sig_getElem hp (i := 7 - j % 8) (by omega)
    have e : j + (7 - j % 8) = 8 + (8 * ((j - 8) / 8) + 7) := by omega
    rw [e, List.getElem?_append_right (by simp [SLOT_SIG]), show 8 + (8 * ((j - 8) / 8) + 7) - SLOT_SIG.length = 8 * ((j - 8) / 8) + 7 by simp [SLOT_SIG],
      List.getElem?_append_left (by rw [hlen, List.length_cons]; omega), top_zero (by
        intro l hl'
        rcases List.mem_cons.mp hl' with rfl | hl'
        · exact hc
        · exact hl l hl') (by rw [List.length_cons]; omega)] at this
    have h7 : 7 - j % 8 < 8 := by omega
    clear hp
    revert this h7
    generalize 7 - j % 8 = i
    intro h1 h2
    revert h1
    revert i
    decide

/-- Sizes below 2^56 leave only the place at the CRC. -/
theorem enc_free {s : Slot} (hc : s.capacity < 2 ^ 56) (hl : ∀ l ∈ s.lengths, l < 2 ^ 56) (h4 : s.crc.length = 4) (hcrc : s.crc ≠ PACKET_SIG.take 4) :
    Free s.enc := by
  intro j hj hp
  have hsl : s.enc.length = 16 + 8 * s.lengths.length + 4 := by
    have := congrArg List.length (enc_split s [])
    simp only [List.length_append, flatMap_le_length, h4, List.length_cons, List.length_nil] at this
    simp [SLOT_SIG] at this
    omega
  by_cases hin : j < 16 + 8 * s.lengths.length
  · exact enc_no_sig hc hl _ hin hp
  · obtain ⟨i, rfl⟩ : ∃ i, j = 8 + 8 * (s.lengths.length + 1) + i := ⟨j - (8 + 8 * (s.lengths.length + 1)), by omega⟩
    have hd : (s.enc ++ PACKET_SIG).drop (8 + 8 * (s.lengths.length + 1) + i) = (s.crc ++ PACKET_SIG).drop i := by
      rw [enc_split, ← List.drop_drop, ← List.drop_drop, List.drop_left' (by rfl), List.drop_left' (by rw [flatMap_le_length]; rfl)]
    rw [hd] at hp
    match hx : s.crc, h4 with
    | [a, b, c, d], _ =>
      rw [hx] at hp hcrc
      have hi : i < 4 := by omega
      match i, hi with
      | 0, _ => simp [PACKET_SIG] at hp hcrc; exact hcrc hp.1.symm hp.2.1.symm hp.2.2.1.symm hp.2.2.2.symm
      | 1, _ => simp [PACKET_SIG] at hp
      | 2, _ => simp [PACKET_SIG] at hp
      | 3, _ => simp [PACKET_SIG] at hp

/-! ## A storage file as a stream -/

/-- The packets of a slot, the first behind the slot table. -/
def items (cap : Nat) : List (Packet O Q) → List (Bytes × Packet O Q)
  | [] => []
  | p :: ps => ((table cap ((p :: ps).map wire)).enc, p) :: ps.map fun q => ([], q)

theorem stream_append (a b : List (Bytes × Packet O Q)) (t : Bytes) : stream (a ++ b) t = stream a (stream b t) := by
  induction a with
  | nil => rfl
  | cons x a ih => obtain ⟨l, p⟩ := x; simp [stream, ih]

theorem stream_plain (ps : List (Packet O Q)) (t : Bytes) : stream (ps.map fun q => ([], q)) t = (ps.map wire).flatten ++ t := by
  induction ps with
  | nil => rfl
  | cons p ps ih => simp [stream, ih]

theorem stream_items {cap : Nat} {ps : List (Packet O Q)} (h : ps ≠ []) (t : Bytes) : stream (items cap ps) t = region cap (ps.map wire) ++ t := by
  cases ps with
  | nil => exact absurd rfl h
  | cons p ps => simp only [items, stream, stream_plain, region, List.map_cons, List.flatten_cons, List.append_assoc]

theorem stream_file {cap : Nat} : ∀ {pss : List (List (Packet O Q))}, (∀ ps ∈ pss, ps ≠ []) →
    stream (pss.flatMap (items cap)) [] = fileOf cap (pss.map (·.map wire))
  | [], _ => rfl
  | ps :: pss, h => by
    rw [List.flatMap_cons, stream_append, stream_items (h ps (by simp)), stream_file (fun x hx => h x (by simp [hx])), List.map_cons, fileOf_cons]

theorem items_snd (cap : Nat) (ps : List (Packet O Q)) : (items cap ps).map Prod.snd = ps := by
  cases ps with
  | nil => rfl
  | cons p ps => simp only [items, List.map_cons, List.map_map]; congr 1; exact List.map_id' ps

theorem unwire : ∀ {gs : List (List Bytes)} {ps : List (Packet O Q)}, gs.flatten = ps.map wire →
    ∃ pss : List (List (Packet O Q)), pss.flatten = ps ∧ pss.map (·.map wire) = gs
  | [], ps, h => ⟨[], by simpa using h.symm, rfl⟩
  | g :: gs, ps, h => by
    rw [List.flatten_cons] at h
    obtain ⟨a, b, rfl, h1, h2⟩ := List.map_eq_append_iff.mp h.symm
    obtain ⟨pss, rfl, h4⟩ := unwire h2.symm
    exact ⟨a :: pss, by simp, by simp [h1, h4]⟩

/-- The file of the packets `qs` as a stream of packets with slot tables between them. -/
theorem file_items {cap : Nat} {gs : List (List Bytes)} (hg : Groups cap gs) {qs : List (Packet O Q)} (f : gs.flatten = qs.map wire)
    (hok : ∀ p ∈ qs, Storable S p) (hblk : ∀ p ∈ qs, p.blocks.length ≤ 255) (h56 : (fileOf cap gs).length < 2 ^ 56)
    (hb : ∀ k p, qs[k * cap]? = some p → ∀ h, p.header = .ok h → 8 ≤ h.size)
    (hcrc : ∀ k, k * cap < qs.length → slotCrc cap k qs ≠ PACKET_SIG.take 4) :
    ∃ pss : List (List (Packet O Q)), pss.flatten = qs ∧ pss.map (·.map wire) = gs ∧ (∀ ps ∈ pss, ps ≠ []) ∧
      (pss.flatMap (items cap)).map Prod.snd = qs ∧ ∀ x ∈ pss.flatMap (items cap), GoodItem S x := by
  obtain ⟨pss, hps, hgs⟩ := unwire f
  have hne : ∀ ps ∈ pss, ps ≠ [] := by
    rintro ps hp rfl
    exact hg.ne [] (by rw [← hgs]; exact List.mem_map.mpr ⟨[], hp, rfl⟩) rfl
  have hsnd : (pss.flatMap (items cap)).map Prod.snd = qs := by
    rw [← hps, List.map_flatMap, List.flatten_eq_flatMap]
    congr 1
    funext ps
    exact items_snd cap ps
  have hgood : ∀ x ∈ pss.flatMap (items cap), GoodItem S x := by
    intro x hx
    have hxl : x.2 ∈ qs := by rw [← hsnd]; exact List.mem_map.mpr ⟨x, hx, rfl⟩
    have hst := hok _ hxl
    obtain ⟨ps, hp, hxi⟩ := List.mem_flatMap.mp hx
    obtain ⟨pre, post, rfl⟩ := List.append_of_mem hp
    cases ps with
    | nil => simp [items] at hxi
    | cons p ps =>
      rw [items] at hxi
      rcases List.mem_cons.mp hxi with rfl | hxi
      · have hfull : AllFull cap (pre.map (·.map wire)) := by
          intro y hy
          have hy' : y ∈ gs := by rw [← hgs]; simp only [List.map_append]; exact List.mem_append_left _ hy
          refine ⟨hg.group y hy', hg.full y ?_⟩
          rw [← hgs, List.map_append, List.dropLast_append_of_ne_nil (by simp)]
          exact List.mem_append_left _ hy
        have hpl : pre.flatten.length = pre.length * cap := by
          have := length_flatten_full hfull
          rw [← List.map_flatten, List.length_map, List.length_map] at this
          exact this
        have hlog : qs = pre.flatten ++ ((p :: ps) ++ post.flatten) := by rw [← hps]; simp
        have hmem : (p :: ps).map wire ∈ gs := by rw [← hgs]; simp
        have hgl := fileOf_mem_length (cap := cap) hmem
        rw [region_length (hg.group _ hmem).le] at hgl
        have hsc : slotCrc cap pre.length (qs) = (table cap ((p :: ps).map wire)).crc := by
          have h1 : ((qs).drop (pre.length * cap)).take cap = p :: ps := by
            rw [hlog, ← hpl, List.drop_left]
            by_cases hpost : post = []
            · subst hpost
              rw [List.flatten_nil, List.append_nil]
              have := (hg.group _ hmem).le
              rw [List.length_map] at this
              exact List.take_of_length_le this
            · have : ((p :: ps).map wire).length = cap := by
                refine hg.full _ ?_
                rw [← hgs, List.map_append, List.dropLast_append_of_ne_nil (by simp), List.map_cons, List.dropLast_cons_of_ne_nil (by simpa using hpost)]
                simp
              rw [List.length_map] at this
              rw [← this, List.take_left]
          unfold slotCrc
          rw [h1]
          simp only [table, lens, List.map_map, List.length_map]
          rfl
        refine ⟨enc_free (by simp only [table_capacity]; omega) ?_ ?_ ?_, hst.ok, hblk _ hxl, .inr ?_⟩
        · intro l hl'
          simp only [table, lens] at hl'
          rcases List.mem_append.mp hl' with h | h
          · obtain ⟨y, hy, rfl⟩ := List.mem_map.mp h
            have := mem_flatten_length hy
            omega
          · rw [(List.mem_replicate.mp h).2]; decide
        · simp [table, crcOf, crcBytes]
        · rw [← hsc]
          refine hcrc _ ?_
          rw [hlog, List.length_append, hpl]
          simp
        · refine hb pre.length p ?_
          rw [hlog, ← hpl, List.getElem?_append_right (Nat.le_refl _), Nat.sub_self]
          rfl
      · obtain ⟨q, hq, rfl⟩ := List.mem_map.mp hxi
        exact ⟨free_nil, hst.ok, hblk _ hxl, .inl rfl⟩
  exact ⟨pss, hps, hgs, hne, hsnd, hgood⟩

/-- **C38 (partial).** On the file of any history, `PacketBufReader` gives for every packet in order what the rules say, then ends, if the file is shorter than
2^56 bytes, no packet has 256 blocks, no slot table happens to have the first half of the packet signature as its CRC, the first packet of every slot has a body of at least 8 bytes,
and every read but the last gives at least 29 bytes. -/
theorem C38_scan_partial {cap : Nat} (hc : 0 < cap) {chk : Bool} {ops : List (Op O Q)} {w : Writer} (hok : ∀ p ∈ log ops, Storable S p)
    (hblk : ∀ p ∈ log ops, p.blocks.length ≤ 255)
    (hs : Small cap (log ops)) (hw : runOps cap chk ops emptyWriter = some w) (h56 : w.data.length < 2 ^ 56)
    (hb : ∀ k p, (log ops)[k * cap]? = some p → ∀ h, p.header = .ok h → 8 ≤ h.size)
    (hcrc : ∀ k, k * cap < (log ops).length → slotCrc cap k (log ops) ≠ PACKET_SIG.take 4)
    (rules : Rules O.BR (Packet O Q)) (chk' : Bool) {cs : Chunks} (hcut : Cuts cs w.data) (hl : ∀ c ∈ cs.dropLast, 29 ≤ c.length) :
    ∃ n, loud (reads rules chk' n (.new (cs.map some))).1 = (log ops).map (fun p => .ok (verdict S rules p)) ++ [.ok .noData] := by
  obtain ⟨w', gs, e, i, f⟩ := runOps_inv (S := S) hc chk ops (ps := []) (empty_inv cap) rfl (fun p hp => (hok p hp).ok) hs
  rw [hw] at e
  cases e
  rw [List.nil_append] at f
  obtain ⟨pss, hps, hgs, hne, hsnd, hgood⟩ := file_items i.groups f hok hblk (by rw [← i.data]; exact h56) hb hcrc
  have hstream : stream (pss.flatMap (items cap)) [] = w.data := by rw [stream_file hne, hgs, i.data]
  obtain ⟨n, h1, _⟩ := C23_long_reads_partial rules chk' _ [] cs hgood (by intro j; simp [PACKET_SIG]) (by rw [hstream]; exact hcut) hl
  refine ⟨n, ?_⟩
  rw [h1, ← hsnd, List.map_map]
  rfl

/-- Non-vacuity: three packets in slots of two, the file read in one piece. -/
example (chk : Bool) : ∃ w n, runOps 2 chk ([samplePacket, samplePacket, samplePacket].map Op.insert) emptyWriter = some w ∧
    loud (reads ([] : Rules _ _) chk n (.new [some w.data])).1 = [samplePacket, samplePacket, samplePacket].map (fun p => .ok (verdict sampleSpec [] p)) ++ [.ok .noData] := by
  have hok : ∀ p ∈ log ([samplePacket, samplePacket, samplePacket].map Op.insert), p = samplePacket := by
    rw [log_inserts]; intro p hp; simpa using hp
  have hs : Small 2 (log ([samplePacket, samplePacket, samplePacket].map Op.insert)) := by
    rw [log_inserts]
    simp only [Small, List.map_cons, List.map_nil, wire_sample_length]
    decide
  obtain ⟨w, gs, e, i, f⟩ := runOps_inv (S := sampleSpec) (cap := 2) (by decide) chk ([samplePacket, samplePacket, samplePacket].map Op.insert) (ps := [])
    (empty_inv _) rfl (fun p hp => by rw [hok p hp]; exact samplePacket_ok) hs
  have hlen : w.data.length = 447 := by
    have hg : gs = [[wire samplePacket, wire samplePacket], [wire samplePacket]] := by
      refine groups_unique (cap := 2) (by decide) i.groups ?_ (by rw [f, List.nil_append, log_inserts]; rfl)
      have hne := wire_ne samplePacket_ok
      refine ⟨?_, by simp, by simp⟩
      intro g hg
      simp only [List.mem_cons, List.not_mem_nil, or_false] at hg
      rcases hg with rfl | rfl <;> exact ⟨by simpa using hne, by simp⟩
    rw [i.data, hg]
    simp only [fileOf_cons, fileOf_nil, List.length_append, region_length (cap := 2) (g := [wire samplePacket, wire samplePacket]) (by simp),
      region_length (cap := 2) (g := [wire samplePacket]) (by simp), List.flatten_cons, List.flatten_nil, wire_sample_length, List.length_nil]
  obtain ⟨n, h⟩ := C38_scan_partial (S := sampleSpec) (cap := 2) (by decide) (w := w) (chk := chk) (ops := [samplePacket, samplePacket, samplePacket].map Op.insert)
    (fun p hp => by rw [hok p hp]; exact sample_storable) (fun p hp => by rw [hok p hp]; decide) hs e (by rw [hlen]; decide)
    (fun k p hk h hh => by
      rw [hok p (List.mem_of_getElem? hk)] at hh
      have : samplePacket.header = .ok (PacketHeader.ofSizes 78 (some 18)) := by rfl
      rw [this] at hh
      rw [← Out.ok.inj hh]
      show 8 ≤ 78 + 18
      decide)
    (by
      rw [log_inserts]
      intro k hk
      have hk : k < 2 := by have : k * 2 < 3 := hk; omega
      have : slotCrc 2 0 [samplePacket, samplePacket, samplePacket] = crcOf 2 [125, 125] ∧ slotCrc 2 1 [samplePacket, samplePacket, samplePacket] = crcOf 2 [125, 0] := by
        simp [slotCrc, wire_sample_length]
      match k, hk with
      | 0, _ => rw [this.1]; decide +kernel
      | 1, _ => rw [this.2]; decide +kernel)
    [] chk (cs := [w.data]) ⟨by simp, by
      intro c hc
      rw [List.mem_singleton.mp hc]
      exact ⟨by intro h; rw [h] at hlen; simp at hlen, by rw [hlen]; decide⟩⟩ (by simp)
  rw [log_inserts] at h
  exact ⟨w, n, e, h⟩

/-! ## Where it goes wrong -/

theorem slice_left {x : Bytes} (t : Bytes) {i n : Nat} (h : i + n ≤ x.length) : slice (x ++ t) i n = slice x i n := by
  unfold slice
  rw [List.drop_append_of_le_length (by omega), List.take_append_of_le_length (by rw [List.length_drop]; omega)]

theorem readSlice_left {x : Bytes} (t : Bytes) (h : 29 ≤ x.length) : PacketHeader.readSlice (x ++ t) = PacketHeader.readSlice x := by
  have hp : PACKET_SIG.isPrefixOf (x ++ t) = PACKET_SIG.isPrefixOf x := by
    rw [Bool.eq_iff_iff, List.isPrefixOf_iff_prefix, List.isPrefixOf_iff_prefix]
    exact ⟨fun hs => List.prefix_of_prefix_length_le hs (List.prefix_append x t) (by simp [PACKET_SIG]; omega), fun hs => hs.trans (List.prefix_append x t)⟩
  unfold PacketHeader.readSlice
  rw [hp, slice_left t (by omega), slice_left t (by omega), slice_left t (by omega), slice_left t (by omega), List.length_append,
    if_neg (show ¬ x.length + t.length < HSIZE by simp only [HSIZE]; omega), if_neg (show ¬ x.length < HSIZE by simp only [HSIZE]; omega)]

/-- A buffer in which the first signature is followed by a header that does not check is never left. -/
theorem stuck (rules : Rules O.BR (Packet O Q)) (chk : Bool) {b : Bytes} {e : Err} (h29 : 29 ≤ b.length) (hr : readHeader b = .err e) (es : Events) (n : Nat) :
    (reads rules chk n (.new (some b :: es))).1 = List.replicate n (.err e) := by
  have hne : b ≠ [] := by rintro rfl; simp at h29
  have key : Rd.read rules chk (.new (some b :: es)) = (.err e, .new (some b :: es)) := by
    unfold Rd.read
    simp only [Rd.new]
    unfold readEmpty
    simp only [Events.fill_some hne]
    obtain ⟨c, cs, hb⟩ : ∃ c cs, b = c :: cs := by
      cases b with
      | nil => exact absurd rfl hne
      | cons c cs => exact ⟨c, cs, rfl⟩
    rw [hb]
    simp only
    rw [← hb, if_neg (by simp only [HSIZE]; omega), hr]
  induction n with
  | zero => rfl
  | succ n ih => rw [reads_succ (by rw [key]; simp), key, ih]; rfl

/-- Four packets of 102, 94, 188 and 399 bytes. -/
def unlucky : List (Packet (blockEnum sampleTypes) (PEnum.ops [])) := [zeroPacket 59, zeroPacket 51, zeroPacket 145, zeroPacket 356]

set_option maxRecDepth 1000000 in
theorem unlucky_crc : Slot.crcOf SLOT_CAPACITY ([102, 94, 188, 399] ++ List.replicate 496 0) = PACKET_SIG.take 4 := by decide +kernel

theorem unlucky_lengths : (unlucky.map wire).map List.length = [102, 94, 188, 399] := by
  simp only [unlucky, List.map_cons, List.map_nil, wire_zero_length (show 59 < 2 ^ 32 by decide), wire_zero_length (show 51 < 2 ^ 32 by decide),
    wire_zero_length (show 145 < 2 ^ 32 by decide), wire_zero_length (show 356 < 2 ^ 32 by decide)]

theorem unlucky_lens : lens SLOT_CAPACITY (unlucky.map wire) = [102, 94, 188, 399] ++ List.replicate 496 0 := by
  rw [lens, unlucky_lengths]; rfl

theorem unlucky_ok : ∀ p ∈ unlucky, Storable sampleSpec p := by
  intro p hp
  simp only [unlucky, List.mem_cons, List.not_mem_nil, or_false] at hp
  rcases hp with rfl | rfl | rfl | rfl <;> exact zeroPacket_storable (by decide)

theorem unlucky_small : Small SLOT_CAPACITY unlucky := by
  have : unlucky.map (fun p => (wire p).length) = [102, 94, 188, 399] := by
    rw [← unlucky_lengths, List.map_map]; rfl
  rw [Small, this]
  decide

/-- **C38 is false of the code**: the CRC of the slot table of these four packets is the first half of the packet signature. Together with the beginning of the
first packet it makes a signature, behind which no header is found; `read` reports the same error forever, and none of the packets is
recovered. `nth` and `iter` give all four (`C29_log`). -/
theorem C38_crc_signature (chk : Bool) :
    ∃ w, runOps SLOT_CAPACITY chk (unlucky.map Op.insert) emptyWriter = some w ∧ w.data.length = 4803 ∧
      ∀ (rules : Rules _ _) (chk' : Bool) (n : Nat), (reads (O := blockEnum sampleTypes) (Q := PEnum.ops []) rules chk' n (.new [some w.data])).1 =
        List.replicate n (.err .crcDismatch) := by
  obtain ⟨w, gs, e, i, f⟩ := runOps_inv (S := sampleSpec) (cap := SLOT_CAPACITY) (by decide) chk (unlucky.map Op.insert) (ps := []) (empty_inv _) rfl
    (fun p hp => (unlucky_ok p (by rw [log_inserts] at hp; exact hp)).ok) (by rw [log_inserts]; exact unlucky_small)
  rw [List.nil_append, log_inserts] at f
  have hg : gs = [unlucky.map wire] := by
    refine groups_unique (by decide) i.groups ?_ (by rw [f]; simp)
    refine ⟨?_, ?_, by simp⟩
    · intro g hg
      rw [List.mem_singleton.mp hg]
      refine ⟨?_, by simp [unlucky, SLOT_CAPACITY]⟩
      intro x hx
      obtain ⟨p, hp, rfl⟩ := List.mem_map.mp hx
      exact wire_ne (unlucky_ok p hp).ok
    · intro g hg
      rw [List.mem_singleton.mp hg]
      simp [unlucky]
  refine ⟨w, e, ?_, fun rules chk' n => ?_⟩
  · rw [i.data, hg, fileOf_cons, fileOf_nil, List.append_nil, region_length (by simp [unlucky, SLOT_CAPACITY]), List.length_flatten, unlucky_lengths]
    decide
  have hdata : w.data = (table SLOT_CAPACITY (unlucky.map wire)).enc ++ (unlucky.map wire).flatten := by
    rw [i.data, hg, fileOf_cons, fileOf_nil, List.append_nil, region]
  have hcrc : (table SLOT_CAPACITY (unlucky.map wire)).crc = PACKET_SIG.take 4 := by
    rw [table, unlucky_lens]; exact unlucky_crc
  obtain ⟨x, t, hx, hx29, hxs, hxe⟩ : ∃ x t, (table SLOT_CAPACITY (unlucky.map wire)).crc ++ (unlucky.map wire).flatten = x ++ t ∧ x.length = 29 ∧
      PACKET_SIG <+: x ∧ PacketHeader.readSlice x = .err .crcDismatch := by
    refine ⟨PACKET_SIG.take 4 ++ (wire (zeroPacket 59)).take 25, (wire (zeroPacket 59)).drop 25 ++ ([zeroPacket 51, zeroPacket 145, zeroPacket 356].map wire).flatten, ?_, ?_, ?_, ?_⟩
    · rw [hcrc, List.append_assoc, ← List.append_assoc (as := List.take 25 _), List.take_append_drop]
      rfl
    · decide +kernel
    · decide +kernel
    · decide +kernel
  have hll : (table SLOT_CAPACITY (unlucky.map wire)).lengths.length = 500 := by
    show (lens SLOT_CAPACITY (unlucky.map wire)).length = 500
    rw [lens_len (by simp [unlucky, SLOT_CAPACITY])]; rfl
  have hdrop : w.data.drop 4016 = x ++ t := by
    rw [hdata, enc_split, show 4016 = 8 + 4008 from rfl, ← List.drop_drop, List.drop_left' (by rfl),
      List.drop_left' (by rw [flatMap_le_length, List.length_cons, hll]), hx]
  have hlen : 4016 + 29 ≤ w.data.length := by
    have := congrArg List.length hdrop
    rw [List.length_drop, List.length_append, hx29] at this
    omega
  refine stuck rules chk' (by omega) ?_ [] n
  have hpos : getPos w.data = some 4016 := by
    refine (C12_get_pos_partial _ _).mpr ⟨⟨by rw [hdrop]; exact hxs.trans (List.prefix_append _ _), fun j hj => ?_⟩, by omega⟩
    rw [hdata]
    refine enc_no_sig (by decide) ?_ _ (by rw [hll]; omega)
    intro l hl
    have hl : l ∈ lens SLOT_CAPACITY (unlucky.map wire) := hl
    rw [unlucky_lens] at hl
    rcases List.mem_append.mp hl with h | h
    · simp at h; omega
    · rw [(List.mem_replicate.mp h).2]; decide
  rw [readHeader, hpos]
  simp only
  rw [isNotEnough, if_pos (by rw [List.length_drop]; simp only [HSIZE]; omega), hdrop, readSlice_left _ (by omega), hxe]
  rfl

theorem C38_not : ¬ C38_full := by
  intro h
  obtain ⟨w, e, hlen, hr⟩ := C38_crc_signature true
  obtain ⟨n, hn⟩ := h _ _ sampleSpec SLOT_CAPACITY true true (unlucky.map Op.insert) w [] [w.data] (by decide)
    (by rw [log_inserts]; exact unlucky_ok) (by rw [log_inserts]; exact unlucky_small) e
    ⟨by simp, by
      intro c hc
      rw [List.mem_singleton.mp hc]
      exact ⟨by intro h; rw [h] at hlen; simp at hlen, by omega⟩⟩
  have h2 := hr [] true n
  rw [List.map_cons, List.map_nil, h2, log_inserts] at hn
  have h3 : Out.ok Next.noData ∈ loud (List.replicate n (.err .crcDismatch : Out (Next (Packet (blockEnum sampleTypes) (PEnum.ops []))))) := by rw [hn]; simp
  have := (List.mem_replicate.mp ((List.mem_filter.mp h3).1)).2
  cases this

end Brec.Props
