import Verif.Props.Repair
import Verif.Props.StorageShrink
/-!
# Reading from a file that has become shorter (C112)
-/

namespace Brec.Props

open Rd

variable {O : BlockOps} {Q : PayloadOps} {S : BlockSpec O}

/-- Where packet `i` begins: behind the tables of its slot and of the slots in front, and behind the packets in front. -/
def startOf (cap : Nat) (ps : List (Packet O Q)) (i : Nat) : Nat := (i / cap + 1) * (20 + 8 * cap) + ((ps.take i).map fun p => (wire p).length).sum

theorem endOf_start {cap : Nat} {ps : List (Packet O Q)} {i : Nat} {p : Packet O Q} (hp : ps[i]? = some p) :
    endOf cap ps i = startOf cap ps i + (wire p).length := by
  rw [endOf, startOf, List.take_add_one, hp, Option.toList_some, List.map_append, List.sum_append]
  simp
  omega

/-- The offset a reader computes is where the packet begins. -/
theorem offsetOf_start {cap : Nat} (hc : 0 < cap) {gs : List (List Bytes)} {s : Storage} (v : View cap gs s) {ps : List (Packet O Q)}
    (f : gs.flatten = ps.map wire) {i : Nat} {p : Packet O Q} (hp : ps[i]? = some p) :
    ∃ a t, s.offsetOf cap i = .ok (some (startOf cap ps i)) ∧ a.length = startOf cap ps i ∧ fileOf cap gs = a ++ (wire p ++ t) := by
  obtain ⟨a, t, ho, hf, hl⟩ := offsetOf_some hc v.groups v.inner (n := i) (x := wire p) (by rw [f, List.getElem?_map, hp]; rfl)
  have hi : i < ps.length := (List.getElem?_eq_some_iff.mp hp).1
  have hdm := Nat.div_add_mod i cap
  have hmul : i / cap * cap = cap * (i / cap) := Nat.mul_comm ..
  have hfl := congrArg List.length f
  rw [List.length_map] at hfl
  obtain ⟨A, g, B, e, hfull, hg, hne, haf, hA, hAg⟩ := slot_split hc v.groups f (j := i / cap) (by omega)
  have hal : A.length = i / cap := by
    have h1 := congrArg List.length haf
    rw [length_flatten_full hfull, List.length_map, List.length_take, Nat.min_eq_left (by omega)] at h1
    exact Nat.eq_of_mul_eq_mul_right hc h1
  have hget : gs[i / cap]? = some g := by rw [e, ← hal]; simp
  have hlt : i % cap < g.length := by
    have h1 := v.groups.get hc i
    rw [hget, Option.bind_some, f, List.getElem?_map, hp] at h1
    exact (List.getElem?_eq_some_iff.mp h1.symm).1
  have htk : (ps.take i).map wire = A.flatten ++ g.take (i % cap) := by
    have h1 : A.flatten.length = i / cap * cap := by rw [haf, List.length_map, List.length_take, Nat.min_eq_left (by omega)]
    rw [List.map_take, ← f, e, List.flatten_append, List.flatten_cons, List.take_append, List.take_of_length_le (by omega),
      show i - A.flatten.length = i % cap by omega, List.take_append_of_le_length (by omega)]
  have hstart : a.length = startOf cap ps i := by
    rw [hl, hget, Option.getD_some, e, List.take_left' hal, hA, slotAt, startOf, ← wire_lengths, ← wire_lengths, htk, ← haf, List.flatten_append, List.length_append, Nat.add_mul]
    omega
  exact ⟨a, t, by rw [ho, hstart], hstart, hf⟩

/-- `try_read` of a packet behind the end of the file. -/
theorem packet_behind {chk : Bool} {data : Bytes} {pos : Nat} (h : data.length < pos) (hp : pos < 2 ^ 63) :
    (Packet.tryRead (O := O) Q ⟨data, pos, chk⟩).1 = if chk then .panic else .err .io := by
  cases chk with
  | true =>
    unfold Packet.tryRead Cur.remaining
    simp only
    rw [if_neg (by omega)]
    rfl
  | false =>
    have hrem : (⟨data, pos, false⟩ : Cur).remaining = .ok (2 ^ 64 + data.length - pos) := by
      unfold Cur.remaining
      simp only
      rw [if_neg (by omega)]
      rfl
    have hrun : ((⟨data, pos, false⟩ : Cur).run PacketHeader.read).1 = .err .io := by
      unfold Cur.run PacketHeader.read
      rw [show (⟨data, pos, false⟩ : Cur).rest = [] by simp [Cur.rest]; omega, P.bind_err (P.readExact_short (by simp))]
    have hhd : (PacketHeader.tryRead ⟨data, pos, false⟩).1 = .err .io := by
      unfold PacketHeader.tryRead
      rw [hrem]
      simp only
      rw [if_neg (by simp only [HSIZE]; omega)]
      revert hrun
      generalize (⟨data, pos, false⟩ : Cur).run PacketHeader.read = r
      obtain ⟨o, c⟩ := r
      rintro rfl
      rfl
    unfold Packet.tryRead
    rw [hrem]
    revert hhd
    generalize PacketHeader.tryRead ⟨data, pos, false⟩ = r
    obtain ⟨o, c⟩ := r
    rintro rfl
    rfl

/-- `try_read` on a packet whose end is missing says how much is missing, or fails with `NotEnoughData`. -/
theorem packet_torn {p : Packet O Q} (h : Storable S p) {k : Nat} (hk : k < (wire p).length) {c : Cur} (hc : c.pos ≤ c.data.length) (hr : c.rest = (wire p).take k) :
    ∃ n, 0 < n ∧ ((Packet.tryRead (O := O) Q c).1 = .ok (.notEnough n) ∨ (Packet.tryRead (O := O) Q c).1 = .err (.notEnoughData n)) := by
  obtain ⟨hd, pb, sh⟩ := h.ok.shape
  obtain ⟨h1, h2, h3, h4⟩ := C18_tryRead_partial h.ok h.blocks (serialize_wire h.ok) sh.header hk hc hr
  by_cases k1 : k < 29
  · exact ⟨29 - k, by omega, .inl (by rw [h1 k1])⟩
  by_cases k2 : k < hd.size
  · exact ⟨hd.size - k, by omega, .inl (by rw [h2 (by omega) k2])⟩
  by_cases k3 : k < 29 + hd.blocksLen
  · obtain ⟨n, hn, _, e⟩ := h3 (by omega) (by omega) k3
    exact ⟨n, hn, .inl (by rw [e])⟩
  have hlen : (wire p).length = 29 + hd.blocksLen + pb.length := by
    rw [wire_eq h.ok.blocks sh, sh.blocksLen]
    simp [PacketHeader.bytes_length, HSIZE]
    omega
  have part := sh.part
  generalize hpay : p.payload = pay at part
  cases part with
  | none => simp at hlen; omega
  | @some v ph x g =>
    obtain ⟨h5, h6⟩ := h4 _ _ _ hpay g
    by_cases k4 : k < 29 + hd.blocksLen + ph.size
    · obtain ⟨n, hn, _, e⟩ := h5 (by omega) (by omega) (by omega) k4
      exact ⟨n, hn, .inr (by rw [e])⟩
    · exact ⟨_, Nat.sub_pos_of_lt hk, .inl (by rw [h6 (by omega) (by omega) (by omega)])⟩

/-- **C112.** A reader has loaded all packets of a file, and the file is cut to `k` bytes. `nth` gives each packet that is still whole. For a packet whose end is
missing it returns `NotEnoughData`. For one of which nothing is left (it would begin behind the end) it returns an I/O error in a release build and panics in a debug
build. For an index out of range it returns nothing. -/
theorem C112_nth {cap : Nat} (hc : 0 < cap) {chk : Bool} {ops : List (Op O Q)} {s s0 : Storage} {data : Bytes} (h : Watching cap chk ops s)
    (hr : Reached cap chk ops data s0) (hok : ∀ p ∈ log ops, Storable S p) (hs : Small cap (log ops)) {k : Nat} (hk : k ≤ data.length) (i : Nat) :
    (i < (log ops).length → endOf cap (log ops) i ≤ k → s.nth cap chk (data.take k) i = .ok (log ops)[i]?) ∧
    (i < (log ops).length → startOf cap (log ops) i ≤ k → k < endOf cap (log ops) i →
      ∃ n, 0 < n ∧ s.nth (O := O) (Q := Q) cap chk (data.take k) i = .err (.notEnoughData n)) ∧
    (i < (log ops).length → k < startOf cap (log ops) i → s.nth (O := O) (Q := Q) cap chk (data.take k) i = if chk then .panic else .err .io) ∧
    ((log ops).length ≤ i → s.nth (O := O) (Q := Q) cap chk (data.take k) i = .ok none) := by
  obtain ⟨gs, v1, hd, f, hl⟩ := hr.view hc (fun p hp => (hok p hp).ok) hs
  obtain ⟨gs', v, f'⟩ := h.view (S := S) hc (fun p hp => (hok p hp).ok) hs
  have hgg : gs' = gs := groups_unique hc v.groups v1.groups (by rw [f, f'])
  subst hgg
  rw [hd] at hl hk ⊢
  generalize log ops = ps at *
  by_cases hi : i < ps.length
  · obtain ⟨p, hp⟩ : ∃ p, ps[i]? = some p := ⟨_, List.getElem?_eq_getElem hi⟩
    have hst := hok p (List.mem_of_getElem? hp)
    obtain ⟨a, t, ho, hal, hf⟩ := offsetOf_start hc v f hp
    have hen := endOf_start (cap := cap) hp
    have hlen : (fileOf cap gs').length = a.length + ((wire p).length + t.length) := by rw [hf]; simp
    refine ⟨fun _ hle => ?_, fun _ h1 h2 => ?_, fun _ hlt => ?_, fun _ => by omega⟩
    · unfold Storage.nth
      rw [ho, hp]
      simp only
      rw [tryRead_wire (S := S) hst (t := t.take (k - endOf cap ps i)) (by rw [List.length_take]; omega)
        (by rw [List.drop_take, hf, List.drop_left' hal, List.take_append, List.take_of_length_le (by omega)]; congr 2; omega)]
    · obtain ⟨n, hn, e⟩ := packet_torn (S := S) hst (k := k - startOf cap ps i) (by omega) (c := ⟨(fileOf cap gs').take k, startOf cap ps i, chk⟩)
        (by simp only [List.length_take]; omega)
        (by simp only [Cur.rest]; rw [List.drop_take, hf, List.drop_left' hal, List.take_append_of_le_length (by omega)])
      refine ⟨n, hn, ?_⟩
      unfold Storage.nth
      rw [ho]
      simp only
      rcases e with e | e <;> rw [e]
    · unfold Storage.nth
      rw [ho]
      simp only
      rw [packet_behind (by rw [List.length_take]; omega) (by omega)]
      cases chk <;> rfl
  · refine ⟨fun h => absurd h hi, fun h => absurd h hi, fun h => absurd h hi, fun _ => ?_⟩
    unfold Storage.nth
    rw [offsetOf_none hc v.groups v.inner (by rw [f, List.getElem?_map, List.getElem?_eq_none (by omega)]; rfl)]

/-- **C112, nothing else.** On a file that has become shorter `nth` never gives another packet than the one that was stored under this index. -/
theorem C112_honest {cap : Nat} (hc : 0 < cap) {chk : Bool} {ops : List (Op O Q)} {s s0 : Storage} {data : Bytes} (h : Watching cap chk ops s)
    (hr : Reached cap chk ops data s0) (hok : ∀ p ∈ log ops, Storable S p) (hs : Small cap (log ops)) {k : Nat} (hk : k ≤ data.length) {i : Nat}
    {r : Option (Packet O Q)} (e : s.nth cap chk (data.take k) i = .ok r) : r = (log ops)[i]? ∧ (i < (log ops).length → endOf cap (log ops) i ≤ k) := by
  obtain ⟨h1, h2, h3, h4⟩ := C112_nth hc h hr hok hs hk i
  by_cases hi : i < (log ops).length
  · by_cases hle : endOf cap (log ops) i ≤ k
    · rw [h1 hi hle] at e
      injection e with e
      exact ⟨e.symm, fun _ => hle⟩
    · by_cases hst : startOf cap (log ops) i ≤ k
      · obtain ⟨n, _, e2⟩ := h2 hi hst (by omega)
        rw [e2] at e; cases e
      · rw [h3 hi (by omega)] at e
        cases chk <;> cases e
  · rw [h4 (by omega)] at e
    injection e with e
    exact ⟨by rw [← e, List.getElem?_eq_none (by omega)], fun h => absurd h hi⟩

/-! ## The iterator -/

theorem loops_buffer {data : Bytes} {spans : Spans} {l : List (Out (Packet O Q))} (h : Loops (fun i r => Iter.next (O := O) (Q := Q) data i = r) ⟨spans, []⟩ l) :
    ∀ (cur : List (Packet O Q)), (∀ p ∈ cur, Storable S p) →
      Loops (fun i r => Iter.next (O := O) (Q := Q) data i = r) ⟨spans, (cur.map wire).flatten⟩ (cur.map .ok ++ l)
  | [], _ => h
  | p :: cur, hok => by
    refine .step (s' := ⟨spans, (cur.map wire).flatten⟩) ?_ (fun h => nomatch h) (loops_buffer h cur fun x hx => hok x (by simp [hx]))
    have hp := hok p (by simp)
    unfold Iter.next Iter.refill
    rw [if_pos]
    · simp only [List.map_cons, List.flatten_cons]
      rw [read_wire hp]
    · simp only [List.map_cons, List.flatten_cons, ne_eq, List.append_eq_nil_iff, not_and]
      exact fun h0 => absurd h0 (wire_ne hp.ok)

theorem loops_refill {data : Bytes} {it it1 : Iter} {l : List (Out (Packet O Q))} (hr : it.refill data = some (.ok it1)) (hne : it1.buffer ≠ [])
    (h : Loops (fun i r => Iter.next (O := O) (Q := Q) data i = r) it1 l) : Loops (fun i r => Iter.next (O := O) (Q := Q) data i = r) it l := by
  have same : Iter.next (O := O) (Q := Q) data it = Iter.next (O := O) (Q := Q) data it1 := by
    have : it1.refill data = some (.ok it1) := by rw [Iter.refill, if_pos hne]
    unfold Iter.next
    rw [hr, this]
  cases h with
  | done h => exact .done (same.trans h)
  | panic h => exact .panic (same.trans h)
  | step h hp hl => exact .step (same.trans h) hp hl

/-- An iterator in front of whole slots with the packets `A`, and a slot of which a part is missing. -/
theorem loops_cut {cap : Nat} {g : List Bytes} {rest : List Slot} (hg : Group cap g) (hne : g ≠ []) (h63 : g.flatten.length < 2 ^ 63) {tail : Bytes}
    (ht : tail.length < 20 + 8 * cap + g.flatten.length) : ∀ (A : List (List (Packet O Q))) (pre : Bytes),
    (∀ a ∈ A, a ≠ [] ∧ Group cap (a.map wire) ∧ ∀ p ∈ a, Storable S p) → (fileOf cap (A.map (List.map wire))).length < 2 ^ 63 →
    Loops (fun i r => Iter.next (O := O) (Q := Q) (pre ++ (fileOf cap (A.map (List.map wire)) ++ tail)) i = r)
      ⟨⟨pre.length, (A.map (List.map wire)).map (table cap) ++ table cap g :: rest⟩, []⟩ (A.flatten.map .ok ++ [.panic])
  | [], pre, _, _ => by
    refine .panic (s' := ⟨⟨pre.length, table cap g :: rest⟩, []⟩) ?_
    have hpos : 0 < g.flatten.length := by
      obtain ⟨x, g', rfl⟩ := List.exists_cons_of_ne_nil hne
      have := List.length_pos_iff.mpr (hg.pos x (by simp))
      rw [List.flatten_cons, List.length_append]
      omega
    unfold Iter.next Iter.refill
    simp only [List.map_nil, List.nil_append, ne_eq, not_true_eq_false, if_false, Spans.next]
    rw [table_width hg, if_neg (by omega), table_size]
    simp only
    unfold fetch
    simp only
    rw [show pre.length + g.flatten.length + (20 + 8 * cap) - (pre.length + (20 + 8 * cap)) = g.flatten.length by omega, allocZeroed, if_pos h63]
    simp only
    rw [if_neg (by rw [← List.drop_drop, List.drop_left, fileOf_nil, List.nil_append, List.length_drop]; omega)]
    rfl
  | a :: A, pre, hA, hl => by
    obtain ⟨hane, hag, hok⟩ := hA a (by simp)
    have hreg := region_length (cap := cap) hag.le
    rw [List.map_cons, fileOf_cons, List.length_append] at hl
    have hbuf : ((a.map wire).flatten : Bytes) ≠ [] := by
      obtain ⟨p, a', rfl⟩ := List.exists_cons_of_ne_nil hane
      simp only [List.map_cons, List.flatten_cons, ne_eq, List.append_eq_nil_iff, not_and]
      exact fun h0 => absurd h0 (wire_ne (hok p (by simp)).ok)
    have hpos := List.length_pos_iff.mpr hbuf
    have ih := loops_cut hg hne h63 (rest := rest) ht A (pre ++ region cap (a.map wire)) (fun x hx => hA x (by simp [hx])) (by omega)
    have hdata : pre ++ (fileOf cap ((a :: A).map (List.map wire)) ++ tail) = pre ++ region cap (a.map wire) ++ (fileOf cap (A.map (List.map wire)) ++ tail) := by
      rw [List.map_cons, fileOf_cons]; simp
    rw [hdata, List.flatten_cons, List.map_append, List.append_assoc (as := a.map Out.ok)]
    refine loops_refill (it1 := ⟨⟨(pre ++ region cap (a.map wire)).length, (A.map (List.map wire)).map (table cap) ++ table cap g :: rest⟩, (a.map wire).flatten⟩) ?_ hbuf
      (loops_buffer ih a hok)
    unfold Iter.refill
    rw [if_neg (by simp)]
    simp only [List.map_cons, List.cons_append, Spans.next]
    rw [table_width hag, if_neg (by omega), table_size]
    simp only
    unfold fetch
    simp only
    rw [show pre.length + (a.map wire).flatten.length + (20 + 8 * cap) - (pre.length + (20 + 8 * cap)) = (a.map wire).flatten.length by omega, allocZeroed,
      if_pos (by omega)]
    simp only
    have hdrop : (pre ++ region cap (a.map wire) ++ (fileOf cap (A.map (List.map wire)) ++ tail)).drop (pre.length + (20 + 8 * cap)) =
        (a.map wire).flatten ++ (fileOf cap (A.map (List.map wire)) ++ tail) := by
      rw [List.append_assoc, ← List.drop_drop, List.drop_left, region, List.append_assoc, List.drop_left' (table_enc_length hag.le)]
    rw [hdrop, if_pos (by simp), List.take_left, Out.map_ok, List.length_append, hreg]
    congr 4
    omega

theorem wired_groups {gs : List (List Bytes)} {ps : List (Packet O Q)} (f : gs.flatten = ps.map wire) : ∃ A : List (List (Packet O Q)), A.map (List.map wire) = gs ∧ A.flatten = ps := by
  induction gs generalizing ps with
  | nil =>
    cases ps with
    | nil => exact ⟨[], rfl, rfl⟩
    | cons p ps => cases f
  | cons g gs ih =>
    rw [List.flatten_cons] at f
    obtain ⟨r1, r2, rfl, h1, h2⟩ := List.map_eq_append_iff.mp f.symm
    obtain ⟨A, e1, e2⟩ := ih h2.symm
    exact ⟨r1 :: A, by rw [List.map_cons, h1, e1], by rw [List.flatten_cons, e2]⟩

/-- **C112, the iterator.** If the cut lies in slot `j`, a loop over `iter()` yields the packets of the slots in front of it and panics: also if packets of slot `j`
are still whole and `nth` gives them. -/
theorem C112_iter {cap : Nat} (hc : 0 < cap) {chk : Bool} {ops : List (Op O Q)} {s s0 : Storage} {data : Bytes} (h : Watching cap chk ops s)
    (hr : Reached cap chk ops data s0) (hok : ∀ p ∈ log ops, Storable S p) (hs : Small cap (log ops)) {k j : Nat} (hj : j * cap < (log ops).length)
    (h1 : slotAt cap (log ops) j ≤ k) (h2 : k < slotAt cap (log ops) (j + 1)) :
    Loops (fun i r => Iter.next (O := O) (Q := Q) (data.take k) i = r) (Iter.new s) (((log ops).take (j * cap)).map .ok ++ [.panic]) := by
  obtain ⟨gs, v1, hd, f, hl⟩ := hr.view hc (fun p hp => (hok p hp).ok) hs
  obtain ⟨gs', v, f'⟩ := h.view (S := S) hc (fun p hp => (hok p hp).ok) hs
  have hgg : gs' = gs := groups_unique hc v.groups v1.groups (by rw [f, f'])
  subst hgg
  rw [hd] at hl ⊢
  generalize log ops = ps at *
  obtain ⟨a, g, b, e, hfull, hg, hne, haf, ha, hag⟩ := slot_split hc v.groups f hj
  obtain ⟨A, hA, hAf⟩ := wired_groups haf
  have hreg := region_length (cap := cap) hg.le
  have hlen : (fileOf cap (a ++ [g])).length = (fileOf cap a).length + (20 + 8 * cap + g.flatten.length) := by
    rw [fileOf_append, fileOf_cons, fileOf_nil, List.append_nil, List.length_append, hreg]
  have hfile : fileOf cap gs' = fileOf cap a ++ (region cap g ++ fileOf cap b) := by rw [e, fileOf_append, fileOf_cons]
  have hfl := congrArg List.length hfile
  simp only [List.length_append] at hfl
  have key := loops_cut (S := S) (cap := cap) (g := g) (rest := b.map (table cap)) hg hne (by omega) (tail := (region cap g).take (k - (fileOf cap a).length))
    (by rw [List.length_take]; omega) A [] (fun x hx => ?_) (by rw [hA]; omega)
  · rw [hA, hAf, List.nil_append] at key
    rw [hfile, List.take_append, List.take_of_length_le (by omega), List.take_append_of_le_length (by omega)]
    unfold Iter.new
    rw [v.inner, e, List.map_append, List.map_cons]
    exact key
  · have hm : x.map wire ∈ a := by rw [← hA]; exact List.mem_map_of_mem hx
    have hxg := v.groups.group (x.map wire) (by rw [e]; exact List.mem_append_left _ hm)
    refine ⟨?_, hxg, fun p hp => hok p (List.mem_of_mem_take (by rw [← hAf]; exact List.mem_flatten_of_mem hx hp))⟩
    rintro rfl
    exact v.groups.ne _ (by rw [e]; exact List.mem_append_left _ hm) rfl

/-- Two packets in a slot for two, cut in front of the last byte: the first is given and the second is refused. `iter()` panics at once. -/
example (chk : Bool) : ∃ data s, Reached 2 chk twoPackets data s ∧ s.nth 2 chk (data.take (data.length - 1)) 0 = .ok (some samplePacket) ∧
    (∃ n, 0 < n ∧ s.nth (O := blockEnum sampleTypes) (Q := PEnum.ops []) 2 chk (data.take (data.length - 1)) 1 = .err (.notEnoughData n)) ∧
    Loops (fun i r => Iter.next (O := blockEnum sampleTypes) (Q := PEnum.ops []) (data.take (data.length - 1)) i = r) (Iter.new s) [.panic] := by
  have hok : ∀ p ∈ log twoPackets, p.Ok sampleSpec := fun p hp => (twoPackets_storable p hp).ok
  obtain ⟨data, s, hr⟩ := Reached.exists (S := sampleSpec) (cap := 2) (by decide) chk twoPackets twoPackets_storable twoPackets_small_two
  have hlen : endOf 2 (log twoPackets) 1 = data.length := by
    obtain ⟨gs, v, hd, f, _⟩ := hr.view (S := sampleSpec) (by decide) hok twoPackets_small_two
    have := endOf_last (by decide) v.groups f (by rw [twoPackets_log]; simp)
    rw [hd, ← this, twoPackets_log]
    rfl
  have h1 : endOf 2 (log twoPackets) 1 = startOf 2 (log twoPackets) 1 + (wire otherPacket).length := endOf_start (by rw [twoPackets_log]; rfl)
  have h0 : endOf 2 (log twoPackets) 0 = startOf 2 (log twoPackets) 1 := by rw [twoPackets_log]; simp [endOf, startOf]
  have hw : 0 < (wire otherPacket).length := by
    obtain ⟨hd, pb, sh⟩ := (hok otherPacket (by rw [twoPackets_log]; simp)).shape
    rw [wire_eq (hok otherPacket (by rw [twoPackets_log]; simp)).blocks sh]
    simp [PacketHeader.bytes_length, HSIZE]
    omega
  refine ⟨data, s, hr, ?_, ?_, ?_⟩
  · rw [(C112_nth (S := sampleSpec) (by decide) (.opened hr) hr twoPackets_storable twoPackets_small_two (k := data.length - 1) (by omega) 0).1
      (by rw [twoPackets_log]; decide) (by omega), twoPackets_log]
    rfl
  · exact (C112_nth (S := sampleSpec) (by decide) (.opened hr) hr twoPackets_storable twoPackets_small_two (k := data.length - 1) (by omega) 1).2.1
      (by rw [twoPackets_log]; decide) (by omega) (by omega)
  · have hs1 : slotAt 2 (log twoPackets) 1 = endOf 2 (log twoPackets) 1 := by rw [twoPackets_log]; simp [endOf, slotAt]
    exact C112_iter (S := sampleSpec) (by decide) (.opened hr) hr twoPackets_storable twoPackets_small_two (k := data.length - 1) (j := 0)
      (by rw [twoPackets_log]; decide) (by simp [slotAt]) (by rw [Nat.zero_add, hs1]; omega)

end Brec.Props
