import Verif.Props.StorageDamageRange
import Verif.Props.StorageShrinkRead
/-!
# Filtered reading from a file that has become shorter (C116)
-/

namespace Brec.Props

open Rd

variable {O : BlockOps} {Q : PayloadOps} {S : BlockSpec O}

/-- Reading a packet header whose end is missing. -/
theorem header_cut {s : Bytes} (hs : s.length < 29) (hsig : 8 ≤ s.length → s.take 8 = PACKET_SIG) : (PacketHeader.read.run s).1 = .err .io := by
  unfold PacketHeader.read
  by_cases h1 : s.length < 8
  · rw [P.bind_err (P.readExact_short h1)]
  rw [P.bind_ok (P.readExact_ok (by omega)), if_neg (by simp [hsig (by omega)])]
  by_cases h2 : s.length < 16
  · rw [P.bind_err (P.readExact_short (by rw [List.length_drop]; omega))]
  rw [P.bind_ok (P.readExact_ok (by rw [List.length_drop]; omega))]
  by_cases h3 : s.length < 24
  · rw [P.bind_err (P.readExact_short (by rw [List.length_drop, List.length_drop]; omega))]
  rw [P.bind_ok (P.readExact_ok (by rw [List.length_drop, List.length_drop]; omega))]
  by_cases h4 : s.length < 25
  · rw [P.bind_err (P.readExact_short (by rw [List.length_drop, List.length_drop, List.length_drop]; omega))]
  rw [P.bind_ok (P.readExact_ok (by rw [List.length_drop, List.length_drop, List.length_drop]; omega))]
  rw [P.bind_err (P.readExact_short (by rw [List.length_drop, List.length_drop, List.length_drop, List.length_drop]; omega))]

/-- `filtered` on a packet whose end is missing. -/
theorem filtered_cut {p : Packet O Q} (hp : p.Ok S) (rules : Rules O.BR (Packet O Q)) {k : Nat} (hk : k < (wire p).length) :
    ((Packet.filtered Q rules).run ((wire p).take k)).1 = .err .io := by
  obtain ⟨hd, pb, sh⟩ := hp.shape
  have hw := wire_eq hp.blocks sh
  have hbl : hd.bytes.length = 29 := by rw [PacketHeader.bytes_length]; rfl
  unfold Packet.filtered
  by_cases h1 : k < 29
  · have h2 : (PacketHeader.read.run ((wire p).take k)).1 = .err .io := by
      refine header_cut (by rw [List.length_take]; omega) fun h8 => ?_
      rw [List.length_take] at h8
      rw [List.take_take, Nat.min_eq_left (by omega), hw, List.take_append_of_le_length (by omega)]
      rfl
    revert h2
    generalize hr : PacketHeader.read.run ((wire p).take k) = r
    obtain ⟨o, c⟩ := r
    rintro rfl
    rw [P.bind_err hr]
  · rw [hw, List.length_append, hbl] at hk
    rw [hw, List.take_append, List.take_of_length_le (by omega), P.bind_ok (PacketHeader.read_bytes sh.wf _),
      P.bind_ok (a := ()) (s' := (S.encs p.blocks ++ pb).take (k - hd.bytes.length)) (by simp [allocZeroed, sh.small]), P.bind_err (P.readExact_short (by
        rw [sh.size, List.length_take, ← List.length_append]; omega))]

theorem filtered_end (rules : Rules O.BR (Packet O Q)) : ((Packet.filtered Q rules).run ([] : Bytes)).1 = .err .io := by
  have h2 : (PacketHeader.read.run ([] : Bytes)).1 = .err .io := header_cut (by simp) (by simp)
  unfold Packet.filtered
  revert h2
  generalize hr : PacketHeader.read.run ([] : Bytes) = r
  obtain ⟨o, c⟩ := r
  rintro rfl
  rw [P.bind_err hr]

/-- **C116.** A reader has loaded all packets of a file, which is then cut to `k` bytes. `nth_filtered` answers as before for a packet that is whole, and fails for
any other; it does not panic, also where `nth` does (C112). -/
theorem C116_nth {cap : Nat} (hc : 0 < cap) {chk : Bool} {ops : List (Op O Q)} {s s0 : Storage} {data : Bytes} (h : Watching cap chk ops s)
    (hr : Reached cap chk ops data s0) (hok : ∀ p ∈ log ops, Storable S p) (hs : Small cap (log ops)) (rules : Rules O.BR (Packet O Q)) {k : Nat} (hk : k ≤ data.length)
    (i : Nat) :
    (∀ p, (log ops)[i]? = some p → endOf cap (log ops) i ≤ k →
      ∃ n, s.nthFiltered cap rules (data.take k) i = .ok (some (if accepted S rules p then .accepted n p else .denied n))) ∧
    (i < (log ops).length → k < endOf cap (log ops) i → s.nthFiltered cap rules (data.take k) i = .err .io) ∧
    ((log ops).length ≤ i → s.nthFiltered cap rules (data.take k) i = .ok none) := by
  obtain ⟨gs, v1, hd, f, hl⟩ := hr.view hc (fun p hp => (hok p hp).ok) hs
  obtain ⟨gs', v, f'⟩ := h.view (S := S) hc (fun p hp => (hok p hp).ok) hs
  have hgg : gs' = gs := groups_unique hc v.groups v1.groups (by rw [f, f'])
  subst hgg
  rw [hd] at hl hk ⊢
  generalize log ops = ps at *
  refine ⟨fun p hp hle => ?_, fun hi hlt => ?_, fun hi => ?_⟩
  · obtain ⟨a, t, ho, hal, hf⟩ := offsetOf_start hc v f hp
    have hen := endOf_start (cap := cap) hp
    obtain ⟨n, hn⟩ := filtered_wire (hok p (List.mem_of_getElem? hp)).ok rules (t.take (k - endOf cap ps i))
    refine ⟨n, ?_⟩
    unfold Storage.nthFiltered
    rw [ho]
    simp only
    rw [show ((fileOf cap gs').take k).drop (startOf cap ps i) = wire p ++ t.take (k - endOf cap ps i) by
      rw [List.drop_take, hf, List.drop_left' hal, List.take_append, List.take_of_length_le (by omega)]; congr 2; omega, hn]
    by_cases ha : accepted S rules p = true
    · rw [if_pos ha]
    · rw [if_neg ha]
  · obtain ⟨p, hp⟩ : ∃ p, ps[i]? = some p := ⟨_, List.getElem?_eq_getElem hi⟩
    obtain ⟨a, t, ho, hal, hf⟩ := offsetOf_start hc v f hp
    have hen := endOf_start (cap := cap) hp
    have key : ((Packet.filtered Q rules).run (((fileOf cap gs').take k).drop (startOf cap ps i))).1 = .err .io := by
      by_cases h1 : startOf cap ps i ≤ k
      · rw [List.drop_take, hf, List.drop_left' hal, List.take_append_of_le_length (by omega)]
        exact filtered_cut (S := S) (hok p (List.mem_of_getElem? hp)).ok rules (by omega)
      · rw [List.drop_eq_nil_of_le (by rw [List.length_take]; omega)]
        exact filtered_end rules
    unfold Storage.nthFiltered
    rw [ho]
    simp only
    rw [key]
  · unfold Storage.nthFiltered
    rw [offsetOf_none hc v.groups v.inner (by rw [f, List.getElem?_map, List.getElem?_eq_none (by omega)]; rfl)]

theorem filterMap_on {α β : Type} {f g : α → Option β} : ∀ (l : List α), (∀ x ∈ l, f x = g x) → l.filterMap f = l.filterMap g
  | [], _ => rfl
  | x :: l, h => by rw [List.filterMap_cons, List.filterMap_cons, h x (by simp), filterMap_on l fun y hy => h y (by simp [hy])]

/-- What a filtered reader shows for packet `i` of a file cut to `k` bytes: the packet if it is whole and accepted, nothing if it is whole and denied, and
else an error. -/
def shownCut (S : BlockSpec O) (rules : Rules O.BR (Packet O Q)) (cap k : Nat) (ps : List (Packet O Q)) (i : Nat) : Option (Out (Packet O Q)) :=
  if endOf cap ps i ≤ k then (ps[i]?.filter (accepted S rules)).map .ok else some (.err .io)

/-- **C116, `range_filtered`.** A loop over a range of the shortened file gives the accepted packets that are whole and an error for each packet that is not, in their
order, up to as many packets as were asked for; then it ends. -/
theorem C116_range {cap : Nat} (hc : 0 < cap) {chk : Bool} {ops : List (Op O Q)} {s s0 : Storage} {data : Bytes} (h : Watching cap chk ops s)
    (hr : Reached cap chk ops data s0) (hok : ∀ p ∈ log ops, Storable S p) (hs : Small cap (log ops)) (rules : Rules O.BR (Packet O Q)) {k : Nat} (hk : k ≤ data.length)
    (start len : Nat) :
    Loops (fun i r => ∃ fuel, Range.nextFiltered cap rules s (data.take k) fuel i = some r) ⟨start, len⟩
      (upto len ((List.range' start ((log ops).length - start)).filterMap (shownCut S rules cap k (log ops)))) := by
  have all := C116_nth (S := S) hc h hr hok hs rules hk
  have hin : ∀ j, j < (log ops).length → s.nthFiltered cap rules (data.take k) j ≠ .ok none ∧ s.nthFiltered cap rules (data.take k) j ≠ .panic ∧
      lookReply (s.nthFiltered cap rules (data.take k) j) = shownCut S rules cap k (log ops) j := by
    intro j hj
    obtain ⟨p, hp⟩ : ∃ p, (log ops)[j]? = some p := ⟨_, List.getElem?_eq_getElem hj⟩
    unfold shownCut
    by_cases hle : endOf cap (log ops) j ≤ k
    · obtain ⟨n, e⟩ := (all j).1 p hp hle
      rw [e, if_pos hle, hp]
      by_cases ha : accepted S rules p = true <;> simp [ha, lookReply, Option.filter]
    · rw [(all j).2.1 hj (by omega), if_neg hle]
      simp [lookReply]
  have hout : ∀ j, (log ops).length ≤ j → s.nthFiltered cap rules (data.take k) j = .ok none := fun j hj => (all j).2.2 hj
  have := range_filtered_over (fun j hj => (hin j hj).1) (fun j => by
    by_cases hj : j < (log ops).length
    · exact (hin j hj).2.1
    · rw [hout j (by omega)]; simp) hout ((log ops).length - start) start len rfl
  rwa [filterMap_on _ fun j hj => (hin j (by have := List.mem_range'_1.mp hj; omega)).2.2] at this

/-! ## The iterator -/

theorem keep_buffer {rules : Rules O.BR (Packet O Q)} {data : Bytes} {spans : Spans} {l : List (Out (Packet O Q))}
    (h : Loops (fun i r => ∃ fuel, Iter.nextFiltered rules data fuel i = some r) ⟨spans, []⟩ l) : ∀ (cur : List (Packet O Q)), (∀ p ∈ cur, Storable S p) →
      Loops (fun i r => ∃ fuel, Iter.nextFiltered rules data fuel i = some r) ⟨spans, (cur.map wire).flatten⟩ ((cur.filter (accepted S rules)).map .ok ++ l)
  | [], _ => h
  | p :: cur, hok => by
    have hp := hok p (by simp)
    have ih := keep_buffer h cur fun x hx => hok x (by simp [hx])
    obtain ⟨n, hf⟩ := filtered_wire hp.ok rules (cur.map wire).flatten
    have e : ∀ fuel, Iter.nextFiltered rules data (fuel + 1) ⟨spans, ((p :: cur).map wire).flatten⟩ =
        if accepted S rules p then some (some (.ok p), ⟨spans, (cur.map wire).flatten⟩) else Iter.nextFiltered rules data fuel ⟨spans, (cur.map wire).flatten⟩ := by
      intro fuel
      rw [Iter.nextFiltered, Iter.refill, if_pos]
      · simp only [List.map_cons, List.flatten_cons]
        rw [hf]
        by_cases ha : accepted S rules p = true
        · rw [if_pos ha, if_pos ha]
        · rw [if_neg ha, if_neg ha]
      · simp only [List.map_cons, List.flatten_cons, ne_eq, List.append_eq_nil_iff, not_and]
        exact fun h0 => absurd h0 (Brec.wire_ne hp.ok)
    by_cases ha : accepted S rules p = true
    · rw [List.filter_cons_of_pos ha]
      exact .step (s' := ⟨spans, (cur.map wire).flatten⟩) ⟨1, by rw [e 0, if_pos ha]⟩ (fun h => nomatch h) ih
    · rw [List.filter_cons_of_neg ha]
      have hf : ∀ {r}, (∃ fuel, Iter.nextFiltered rules data fuel ⟨spans, (cur.map wire).flatten⟩ = some r) →
          ∃ fuel, Iter.nextFiltered rules data fuel ⟨spans, ((p :: cur).map wire).flatten⟩ = some r := by
        rintro r ⟨fuel, h⟩
        exact ⟨fuel + 1, by rw [e fuel, if_neg ha]; exact h⟩
      generalize (cur.filter (accepted S rules)).map Out.ok ++ l = l1 at ih ⊢
      cases ih with
      | done h => exact .done (hf h)
      | panic h => exact .panic (hf h)
      | step h hp ht => exact .step (hf h) hp ht

theorem keep_refill {rules : Rules O.BR (Packet O Q)} {data : Bytes} {it it1 : Iter} {l : List (Out (Packet O Q))} (hr : it.refill data = some (.ok it1)) (hne : it1.buffer ≠ [])
    (h : Loops (fun i r => ∃ fuel, Iter.nextFiltered rules data fuel i = some r) it1 l) : Loops (fun i r => ∃ fuel, Iter.nextFiltered rules data fuel i = some r) it l := by
  have same : ∀ {r}, (∃ fuel, Iter.nextFiltered rules data fuel it1 = some r) → ∃ fuel, Iter.nextFiltered rules data fuel it = some r := by
    rintro r ⟨fuel, h⟩
    refine ⟨fuel, ?_⟩
    have h1 : it1.refill data = some (.ok it1) := by rw [Iter.refill, if_pos hne]
    cases fuel with
    | zero => exact h
    | succ fuel =>
      rw [Iter.nextFiltered, h1] at h
      rw [Iter.nextFiltered, hr]
      exact h
  cases h with
  | done h => exact .done (same h)
  | panic h => exact .panic (same h)
  | step h hp hl => exact .step (same h) hp hl

/-- An iterator in front of a slot that is not all there. -/
theorem refill_lost {cap : Nat} {g : List Bytes} {rest : List Slot} (hg : Group cap g) (hne : g ≠ []) (h63 : g.flatten.length < 2 ^ 63) {pre tail : Bytes}
    (ht : tail.length < 20 + 8 * cap + g.flatten.length) : Iter.refill (pre ++ tail) ⟨⟨pre.length, table cap g :: rest⟩, []⟩ = some .panic := by
  have hpos : 0 < g.flatten.length := by
    obtain ⟨x, g', rfl⟩ := List.exists_cons_of_ne_nil hne
    have := List.length_pos_iff.mpr (hg.pos x (by simp))
    rw [List.flatten_cons, List.length_append]
    omega
  unfold Iter.refill
  simp only [ne_eq, not_true_eq_false, if_false, Spans.next]
  rw [table_width hg, if_neg (by omega), table_size]
  simp only
  unfold fetch
  simp only
  rw [show pre.length + g.flatten.length + (20 + 8 * cap) - (pre.length + (20 + 8 * cap)) = g.flatten.length by omega, allocZeroed, if_pos h63]
  simp only
  rw [if_neg (by rw [← List.drop_drop, List.drop_left, List.length_drop]; omega)]
  rfl

/-- An iterator in front of a slot that is. -/
theorem refill_whole {cap : Nat} {g : List Bytes} {rest : List Slot} (hg : Group cap g) (hne : g ≠ []) (h63 : g.flatten.length < 2 ^ 63) {pre tail : Bytes} :
    Iter.refill (pre ++ (region cap g ++ tail)) ⟨⟨pre.length, table cap g :: rest⟩, []⟩ = some (.ok ⟨⟨(pre ++ region cap g).length, rest⟩, g.flatten⟩) := by
  have hpos : 0 < g.flatten.length := by
    obtain ⟨x, g', rfl⟩ := List.exists_cons_of_ne_nil hne
    have := List.length_pos_iff.mpr (hg.pos x (by simp))
    rw [List.flatten_cons, List.length_append]
    omega
  unfold Iter.refill
  simp only [ne_eq, not_true_eq_false, if_false, Spans.next]
  rw [table_width hg, if_neg (by omega), table_size]
  simp only
  unfold fetch
  simp only
  rw [show pre.length + g.flatten.length + (20 + 8 * cap) - (pre.length + (20 + 8 * cap)) = g.flatten.length by omega, allocZeroed, if_pos h63]
  simp only
  have hdrop : (pre ++ (region cap g ++ tail)).drop (pre.length + (20 + 8 * cap)) = g.flatten ++ tail := by
    rw [← List.drop_drop, List.drop_left, region, List.append_assoc, List.drop_left' (table_enc_length hg.le)]
  rw [hdrop, if_pos (by simp), List.take_left, Out.map_ok, List.length_append, region_length hg.le]
  congr 4
  omega

theorem keep_cut {rules : Rules O.BR (Packet O Q)} {cap : Nat} {g : List Bytes} {rest : List Slot} (hg : Group cap g) (hne : g ≠ []) (h63 : g.flatten.length < 2 ^ 63)
    {tail : Bytes} (ht : tail.length < 20 + 8 * cap + g.flatten.length) : ∀ (A : List (List (Packet O Q))) (pre : Bytes),
    (∀ a ∈ A, a ≠ [] ∧ Group cap (a.map wire) ∧ ∀ p ∈ a, Storable S p) → (fileOf cap (A.map (List.map wire))).length < 2 ^ 63 →
    Loops (fun i r => ∃ fuel, Iter.nextFiltered rules (pre ++ (fileOf cap (A.map (List.map wire)) ++ tail)) fuel i = some r)
      ⟨⟨pre.length, (A.map (List.map wire)).map (table cap) ++ table cap g :: rest⟩, []⟩ ((A.flatten.filter (accepted S rules)).map .ok ++ [.panic])
  | [], pre, _, _ => by
    refine .panic (s' := ⟨⟨pre.length, table cap g :: rest⟩, []⟩) ⟨1, ?_⟩
    simp only [List.map_nil, List.nil_append, fileOf_nil]
    rw [Iter.nextFiltered, refill_lost hg hne h63 ht]
  | a :: A, pre, hA, hl => by
    obtain ⟨hane, hag, hok⟩ := hA a (by simp)
    have hreg := region_length (cap := cap) hag.le
    rw [List.map_cons, fileOf_cons, List.length_append] at hl
    have hbuf : ((a.map wire).flatten : Bytes) ≠ [] := by
      obtain ⟨p, a', rfl⟩ := List.exists_cons_of_ne_nil hane
      simp only [List.map_cons, List.flatten_cons, ne_eq, List.append_eq_nil_iff, not_and]
      exact fun h0 => absurd h0 (Brec.wire_ne (hok p (by simp)).ok)
    have ih := keep_cut (rules := rules) hg hne h63 (rest := rest) ht A (pre ++ region cap (a.map wire)) (fun x hx => hA x (by simp [hx])) (by omega)
    rw [List.append_assoc] at ih
    rw [List.flatten_cons, List.filter_append, List.map_append, List.append_assoc, List.map_cons, fileOf_cons, List.append_assoc, List.map_cons, List.cons_append]
    exact keep_refill (refill_whole hag (by simpa using hane) (by omega)) hbuf (keep_buffer ih a hok)

/-- **C116, `filtered`.** If the cut lies in slot `j`, a loop over `filtered()` yields the accepted packets of the slots in front of it and panics. -/
theorem C116_iter {cap : Nat} (hc : 0 < cap) {chk : Bool} {ops : List (Op O Q)} {s s0 : Storage} {data : Bytes} (h : Watching cap chk ops s)
    (hr : Reached cap chk ops data s0) (hok : ∀ p ∈ log ops, Storable S p) (hs : Small cap (log ops)) (rules : Rules O.BR (Packet O Q)) {k j : Nat}
    (hj : j * cap < (log ops).length) (h1 : slotAt cap (log ops) j ≤ k) (h2 : k < slotAt cap (log ops) (j + 1)) :
    Loops (fun i r => ∃ fuel, Iter.nextFiltered rules (data.take k) fuel i = some r) (Iter.new s)
      ((((log ops).take (j * cap)).filter (accepted S rules)).map .ok ++ [.panic]) := by
  obtain ⟨gs, v1, hd, f, hl⟩ := hr.view hc (fun p hp => (hok p hp).ok) hs
  obtain ⟨gs', v, f'⟩ := h.view (S := S) hc (fun p hp => (hok p hp).ok) hs
  have hgg : gs' = gs := groups_unique hc v.groups v1.groups (by rw [f, f'])
  subst hgg
  rw [hd] at hl ⊢
  generalize log ops = ps at *
  obtain ⟨a, g, b, e, hfull, hg, hne, haf, ha, hag⟩ := slot_split hc v.groups f hj
  obtain ⟨A, hA, hAf⟩ := wired_groups haf
  have hreg := region_length (cap := cap) hg.le
  have hlen : (fileOf cap (a ++ [g])).length = (fileOf cap a).length + (20 + 8 * cap + g.flatten.length) := by
    rw [fileOf_append, fileOf_cons, fileOf_nil, List.append_nil, List.length_append, hreg]
  have hfile : fileOf cap gs' = fileOf cap a ++ (region cap g ++ fileOf cap b) := by rw [e, fileOf_append, fileOf_cons]
  have hfl := congrArg List.length hfile
  simp only [List.length_append] at hfl
  have key := keep_cut (S := S) (rules := rules) (cap := cap) (g := g) (rest := b.map (table cap)) hg hne (by omega) (tail := (region cap g).take (k - (fileOf cap a).length))
    (by rw [List.length_take]; omega) A [] (fun x hx => ?_) (by rw [hA]; omega)
  · rw [hA, hAf, List.nil_append] at key
    rw [hfile, List.take_append, List.take_of_length_le (by omega), List.take_append_of_le_length (by omega)]
    unfold Iter.new
    rw [v.inner, e, List.map_append, List.map_cons]
    exact key
  · have hm : x.map wire ∈ a := by rw [← hA]; exact List.mem_map_of_mem hx
    have hxg := v.groups.group (x.map wire) (by rw [e]; exact List.mem_append_left _ hm)
    refine ⟨?_, hxg, fun p hp => hok p (List.mem_of_mem_take (by rw [← hAf]; exact List.mem_flatten_of_mem hx hp))⟩
    rintro rfl
    exact v.groups.ne _ (by rw [e]; exact List.mem_append_left _ hm) rfl

/-- Two packets in a slot for two, cut behind the first. Without rules the range has the first packet and an error. With a rule that denies all packets it has the
error only. `filtered()` panics at once. -/
example (chk : Bool) : ∃ data s, Reached 2 chk twoPackets data s ∧
    Loops (fun i r => ∃ fuel, Range.nextFiltered 2 ([] : Rules _ (Packet (blockEnum sampleTypes) (PEnum.ops []))) s (data.take 161) fuel i = some r) ⟨0, 5⟩
      [.ok samplePacket, .err .io] ∧
    Loops (fun i r => ∃ fuel, Range.nextFiltered 2 ([.filter fun _ => false] : Rules _ (Packet (blockEnum sampleTypes) (PEnum.ops []))) s (data.take 161) fuel i = some r) ⟨0, 5⟩
      [.err .io] ∧
    Loops (fun i r => ∃ fuel, Iter.nextFiltered ([] : Rules _ (Packet (blockEnum sampleTypes) (PEnum.ops []))) (data.take 161) fuel i = some r) (Iter.new s) [.panic] := by
  have hok : ∀ p ∈ log twoPackets, p.Ok sampleSpec := fun p hp => (twoPackets_storable p hp).ok
  obtain ⟨data, s, hr⟩ := Reached.exists (S := sampleSpec) (cap := 2) (by decide) chk twoPackets twoPackets_storable twoPackets_small_two
  have e0 : endOf 2 [samplePacket, otherPacket] 0 = 161 := by simp [endOf, wire_sample_length]
  have e1 : endOf 2 [samplePacket, otherPacket] 1 = 286 := by simp [endOf, wire_sample_length, wire_other_length]
  have hlen : endOf 2 (log twoPackets) 1 = data.length := by
    obtain ⟨gs, v, hd, f, _⟩ := hr.view (S := sampleSpec) (by decide) hok twoPackets_small_two
    have := endOf_last (by decide) v.groups f (by rw [twoPackets_log]; simp)
    rw [hd, ← this, twoPackets_log]
    rfl
  rw [twoPackets_log, e1] at hlen
  have all := fun rules => C116_range (S := sampleSpec) (by decide) (.opened hr) hr twoPackets_storable twoPackets_small_two rules (k := 161) (by omega) 0 5
  simp only [twoPackets_log] at all
  have shown : ∀ rules b, accepted sampleSpec rules samplePacket = b → (List.range' 0 ([samplePacket, otherPacket].length - 0)).filterMap
      (shownCut sampleSpec rules 2 161 [samplePacket, otherPacket]) = if b then [.ok samplePacket, .err .io] else [.err .io] := by
    intro rules b hb
    have h0 : shownCut sampleSpec rules 2 161 [samplePacket, otherPacket] 0 = if b then some (.ok samplePacket) else none := by
      rw [shownCut, e0, if_pos (Nat.le_refl _), List.getElem?_cons_zero, Option.filter_some, hb]
      cases b <;> rfl
    have h1 : shownCut sampleSpec rules 2 161 [samplePacket, otherPacket] 1 = some (.err .io) := by
      rw [shownCut, e1, if_neg (by decide)]
    show List.filterMap _ [0, 1] = _
    rw [List.filterMap_cons, List.filterMap_cons, List.filterMap_nil, h0, h1]
    cases b <;> rfl
  refine ⟨data, s, hr, ?_, ?_, ?_⟩
  · have := all []
    rw [shown [] true rfl] at this
    exact this
  · have := all [.filter fun _ => false]
    rw [shown _ false (by decide +kernel)] at this
    exact this
  · have hs1 : slotAt 2 (log twoPackets) 1 = 286 := by rw [twoPackets_log]; simp [slotAt, wire_sample_length, wire_other_length]
    exact C116_iter (S := sampleSpec) (by decide) (.opened hr) hr twoPackets_storable twoPackets_small_two [] (k := 161) (j := 0)
      (by rw [twoPackets_log]; decide) (by simp [slotAt]) (by rw [Nat.zero_add, hs1]; omega)

end Brec.Props
