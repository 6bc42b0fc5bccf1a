import Verif.Props.StorageIter
/-!
# C32, `seek`, with any number of slots behind the one sought

`ReaderIterator::seek` leaves the offset of the spans at the beginning of the slot it found (`iters.rs:28-60`), so each of the slots behind
it is looked for one slot too early. If the packets of each slot are as long as those of the slot before, this gives whole packets, and the
sequence of packets shown can be stated for any number of slots.
-/

namespace Brec.Props

open Brec Brec.Rd

variable {O : BlockOps} {Q : PayloadOps} {S : BlockSpec O}

/-- The slots `b` behind the slot `g`, looked for from the beginning of `g`: what is shown are the packets of `g` and of `b`, from the first of
`g`, as many as there are in `b`. -/
theorem shifted_yields {cap : Nat} {data : Bytes} (hl : data.length < 2 ^ 63) : ∀ (b a : List (List Bytes)) (g : List Bytes) (qs : List (Packet O Q)),
    Groups cap (g :: b) → data = fileOf cap (a ++ g :: b) → (g :: b).flatten = qs.map wire → (∀ p ∈ qs, Storable S p) →
    (∀ i, i + cap < qs.length → (qs[i + cap]?.map fun p => (wire p).length) = qs[i]?.map fun p => (wire p).length) →
    Yields (fun it r => Iter.next (O := O) (Q := Q) data it = r) ⟨⟨(fileOf cap a).length, b.map (table cap)⟩, []⟩ ((qs.take b.flatten.length).map .ok)
  | [], a, g, qs, _, _, _, _, _ => by
    simp only [List.flatten_nil, List.length_nil, List.take_zero, List.map_nil]
    exact Yields.done (s' := ⟨⟨(fileOf cap a).length, []⟩, []⟩) rfl
  | h :: b, a, g, qs, hgs, hd, hf, hok, hlen => by
    have hgc : g.length = cap := hgs.head_full (by simp)
    have hG := hgs.group g (by simp)
    have hH := hgs.group h (by simp)
    have hHne := hgs.ne h (by simp)
    -- the packets of the two slots
    have hgq : g = (qs.take cap).map wire := by
      rw [List.map_take, ← hf, List.flatten_cons, ← hgc, List.take_left]
    have hrq : (h :: b).flatten = (qs.drop cap).map wire := by
      rw [List.map_drop, ← hf, List.flatten_cons (l := g), ← hgc, List.drop_left]
    have hhq : h = ((qs.drop cap).take h.length).map wire := by
      rw [List.map_take, ← hrq, List.flatten_cons, List.take_left]
    have hql : qs.length = cap + (h.length + b.flatten.length) := by
      have := congrArg List.length hf
      rw [List.length_map, List.flatten_cons, List.flatten_cons, List.length_append, List.length_append] at this
      omega
    have hhl := hH.le
    have hlens : h.map List.length = (g.take h.length).map List.length := by
      rw [hgq, ← List.map_take, List.take_take, Nat.min_eq_left hhl]
      conv => lhs; rw [hhq]
      apply List.ext_getElem?
      intro i
      rw [List.map_map, List.map_map, List.getElem?_map, List.getElem?_map, List.getElem?_take, List.getElem?_take, List.getElem?_drop]
      by_cases hi : i < h.length
      · rw [if_pos hi, if_pos hi, Nat.add_comm cap i]
        exact hlen i (by omega)
      · rw [if_neg hi, if_neg hi]
    have htake : g.flatten.take h.flatten.length = ((qs.take h.length).map wire).flatten := by
      rw [flatten_take_lengths _ _ hlens, hgq, ← List.map_take, List.take_take, Nat.min_eq_left hhl]
    have hle : h.flatten.length ≤ g.flatten.length := by
      have h1 := congrArg List.sum hlens
      rw [← List.length_flatten, ← List.length_flatten] at h1
      have h2 : g.flatten = (g.take h.length).flatten ++ (g.drop h.length).flatten := by
        rw [← List.flatten_append, List.take_append_drop]
      have h3 := congrArg List.length h2
      rw [List.length_append] at h3
      omega
    have hpos : 0 < h.flatten.length := by
      obtain ⟨x, l, rfl⟩ := List.exists_cons_of_ne_nil hHne
      have := List.length_pos_iff.mpr (hH.pos x (by simp))
      simp only [List.flatten_cons, List.length_append]
      omega
    have hen : (table cap g).enc.length = 20 + 8 * cap := by
      have := region_length (cap := cap) hG.le
      rw [region, List.length_append] at this
      omega
    have hdata : data = fileOf cap a ++ ((table cap g).enc ++ (g.flatten ++ fileOf cap (h :: b))) := by
      rw [hd, fileOf_append, fileOf_cons, region]
      simp only [List.append_assoc]
    have hdl := congrArg List.length hdata
    simp only [List.length_append] at hdl
    have hrefill : Iter.refill data ⟨⟨(fileOf cap a).length, (h :: b).map (table cap)⟩, []⟩ =
        some (.ok ⟨⟨(fileOf cap a).length + h.flatten.length + (20 + 8 * cap), b.map (table cap)⟩, ((qs.take h.length).map wire).flatten⟩) := by
      unfold Iter.refill
      rw [if_neg (by simp)]
      simp only [List.map_cons, Spans.next]
      rw [table_width hH, if_neg (by omega), table_size]
      simp only
      unfold fetch
      simp only
      rw [show (fileOf cap a).length + h.flatten.length + (20 + 8 * cap) - ((fileOf cap a).length + (20 + 8 * cap)) = h.flatten.length by omega,
        allocZeroed, if_pos (by omega)]
      simp only
      have hdrop : data.drop ((fileOf cap a).length + (20 + 8 * cap)) = g.flatten ++ fileOf cap (h :: b) := by
        rw [hdata, ← List.drop_drop, List.drop_left, ← hen, List.drop_left]
      rw [hdrop, if_pos (by rw [List.length_append]; omega), List.take_append_of_le_length hle, htake, Out.map_ok]
    -- what comes behind them
    have hrest : Yields (fun it r => Iter.next (O := O) (Q := Q) data it = r)
        ⟨⟨(fileOf cap a).length + h.flatten.length + (20 + 8 * cap), b.map (table cap)⟩, []⟩
        (((qs.drop h.length).take b.flatten.length).map .ok) := by
      cases b with
      | nil =>
        simp only [List.flatten_nil, List.length_nil, List.take_zero, List.map_nil]
        exact Yields.done (s' := ⟨⟨(fileOf cap a).length + h.flatten.length + (20 + 8 * cap), []⟩, []⟩) rfl
      | cons k b =>
        have hhc : h.length = cap := hgs.tail.head_full (by simp)
        have hsame : h.flatten.length = g.flatten.length := by
          rw [List.length_flatten, List.length_flatten, hlens, hhc, ← hgc, List.take_length]
        have hoff : (fileOf cap a).length + h.flatten.length + (20 + 8 * cap) = (fileOf cap (a ++ [g])).length := by
          rw [fileOf_append, fileOf_cons, fileOf_nil, List.append_nil, List.length_append, region_length hG.le, hsame]
          omega
        rw [hoff, hhc]
        refine shifted_yields hl (k :: b) (a ++ [g]) h (qs.drop cap) hgs.tail (by rw [hd]; simp) hrq (fun p hp => hok p (List.mem_of_mem_drop hp)) ?_
        intro i hi
        rw [List.length_drop] at hi
        rw [List.getElem?_drop, List.getElem?_drop, ← Nat.add_assoc]
        exact hlen (cap + i) (by omega)
    have hb := buffer_yields (S := S) hrest (qs.take h.length) (fun p hp => hok p (List.mem_of_mem_take hp))
    have hall : (qs.take h.length).map (Out.ok : Packet O Q → Out (Packet O Q)) ++ ((qs.drop h.length).take b.flatten.length).map .ok =
        (qs.take (h :: b).flatten.length).map .ok := by
      rw [← List.map_append, List.flatten_cons, List.length_append, List.take_add]
    rw [hall] at hb
    generalize (qs.take (h :: b).flatten.length).map Out.ok = l at hb
    have hne : ((qs.take h.length).map wire).flatten ≠ [] := by
      rw [← htake, ← List.length_pos_iff, List.length_take]
      omega
    have same : ∀ {x : Option (Out (Packet O Q)) × Iter},
        Iter.next data ⟨⟨(fileOf cap a).length + h.flatten.length + (20 + 8 * cap), b.map (table cap)⟩, ((qs.take h.length).map wire).flatten⟩ = x →
        Iter.next data ⟨⟨(fileOf cap a).length, (h :: b).map (table cap)⟩, []⟩ = x := by
      intro x hx
      rw [← hx]
      unfold Iter.next
      rw [hrefill]
      unfold Iter.refill
      rw [if_pos (by simpa using hne)]
    cases hb with
    | done h => exact Yields.done (same h)
    | step h t => exact Yields.step (same h) t

/-- Groups with a place in them split at that place. -/
theorem Groups.at {cap : Nat} (hc : 0 < cap) : ∀ {gs : List (List Bytes)}, Groups cap gs → ∀ n, n < gs.flatten.length →
    ∃ a g b, gs = a ++ g :: b ∧ a.flatten.length = n / cap * cap ∧ n - n / cap * cap < g.length ∧ Groups cap (g :: b) ∧ ∀ x ∈ a, Group cap x
  | [], _, n, hn => by simp at hn
  | g :: gs, h, n, hn => by
    have hle := (h.group g (by simp)).le
    by_cases hg : n < g.length
    · have h0 : n / cap = 0 := Nat.div_eq_of_lt (by omega)
      exact ⟨[], g, gs, rfl, by simp [h0], by rw [h0]; omega, h, by simp⟩
    · have hne : gs ≠ [] := by
        rintro rfl
        simp at hn
        omega
      have hgc := h.head_full hne
      rw [List.flatten_cons, List.length_append] at hn
      obtain ⟨a, k, b, e, e1, e2, e3, e4⟩ := Groups.at hc h.tail (n - cap) (by omega)
      have hdiv : n / cap = (n - cap) / cap + 1 := by
        rw [← Nat.add_div_right _ hc]
        congr 1
        omega
      refine ⟨g :: a, k, b, by rw [e]; rfl, ?_, ?_, e3, ?_⟩
      · rw [List.flatten_cons, List.length_append, e1, hdiv, Nat.add_mul]
        omega
      · rw [hdiv, Nat.add_mul]
        omega
      · intro x hx
        rcases List.mem_cons.mp hx with rfl | hx
        · exact h.group x (by simp)
        · exact e4 x hx

/-- **C32, `seek`, any number of slots.** If from the slot of packet `n` on each packet is as long as the one a slot earlier (so in particular
if all packets have one length), `seek(n)` shows the packets from `n` to the end of their slot, and then begins again with the *first* packet
of that slot: it goes on from there for as many packets as there are in the slots behind. In the last slot this is the log from `n`; in any
other, packets are shown twice and the last ones never. -/
theorem C32_seek_shifted_partial {cap : Nat} (hc : 0 < cap) {chk : Bool} {ops : List (Op O Q)} {data : Bytes} {s : Storage} (h : Reached cap chk ops data s)
    (hok : ∀ p ∈ log ops, Storable S p) (hs : Small cap (log ops)) {n : Nat} (hn : n < (log ops).length)
    (hlen : ∀ i, n / cap * cap ≤ i → i + cap < (log ops).length →
      ((log ops)[i + cap]?.map fun p => (wire p).length) = (log ops)[i]?.map fun p => (wire p).length) :
    ∃ it, (Iter.new s).seek cap data n = .ok it ∧
      Yields (fun it r => Iter.next (O := O) (Q := Q) data it = r) it
        ((((log ops).drop n).take ((n / cap + 1) * cap - n) ++
          ((log ops).drop (n / cap * cap)).take ((log ops).length - (n / cap + 1) * cap)).map .ok) := by
  obtain ⟨gs, v, hd, f, hl⟩ := h.view hc (fun p hp => (hok p hp).ok) hs
  generalize log ops = ps at *
  have hfl := congrArg List.length f
  rw [List.length_map] at hfl
  obtain ⟨a, g, b, rfl, ha, hk, hg, hag⟩ := Groups.at hc v.groups n (by omega)
  have hdm := Nat.div_mul_le_self n cap
  have hseek := seek_eq (a := a) (b := b) (g := g) (s := s) v.inner hag (hg.group g (by simp)) hd hl hk
  rw [ha, show n / cap * cap + (n - n / cap * cap) = n by omega] at hseek
  refine ⟨_, hseek, ?_⟩
  have hgb : (g :: b).flatten = (ps.drop (n / cap * cap)).map wire := by
    rw [List.map_drop, ← f, List.flatten_append, ← ha, List.drop_left]
  have hgd : g.drop (n - n / cap * cap) = ((ps.drop n).take (g.length - (n - n / cap * cap))).map wire := by
    have h1 : ps.drop n = (ps.drop (n / cap * cap)).drop (n - n / cap * cap) := by
      rw [List.drop_drop]; congr 1; omega
    rw [h1, List.map_take, List.map_drop, ← hgb, List.flatten_cons, List.drop_append_of_le_length (by omega),
      List.take_append_of_le_length (by rw [List.length_drop]; omega), ← List.length_drop, List.take_length]
  have hsum : n / cap * cap + (g.length + b.flatten.length) = ps.length := by
    rw [List.flatten_append, List.length_append, List.flatten_cons, List.length_append, ha] at hfl
    exact hfl
  have hle := (hg.group g (by simp)).le
  have hbl : b.flatten.length = ps.length - (n / cap + 1) * cap := by
    rw [Nat.add_mul]
    rcases b with _ | ⟨k, b⟩
    · simp at hsum ⊢; omega
    · have := hg.head_full (by simp)
      omega
  have htk : (ps.drop n).take (g.length - (n - n / cap * cap)) = (ps.drop n).take ((n / cap + 1) * cap - n) := by
    rw [Nat.add_mul]
    rcases b with _ | ⟨k, b⟩
    · simp at hsum
      rw [List.take_of_length_le (by rw [List.length_drop]; omega), List.take_of_length_le (by rw [List.length_drop]; omega)]
    · have := hg.head_full (by simp)
      congr 1
      omega
  have hsh := shifted_yields (S := S) hl b a g (ps.drop (n / cap * cap)) hg hd hgb (fun p hp => hok p (List.mem_of_mem_drop hp)) (by
    intro i hi
    rw [List.length_drop] at hi
    rw [List.getElem?_drop, List.getElem?_drop, ← Nat.add_assoc]
    exact hlen _ (by omega) (by omega))
  rw [hbl] at hsh
  rw [hgd, htk, List.map_append]
  exact buffer_yields (S := S) hsh _ (fun p hp => hok p (List.mem_of_mem_drop (List.mem_of_mem_take hp)))

/-- Packets of one length fulfil the condition of `C32_seek_shifted_partial`. -/
theorem oneLength_shifts {ps : List (Packet O Q)} {l : Nat} (h : ∀ p ∈ ps, (wire p).length = l) (cap i : Nat) (hi : i + cap < ps.length) :
    (ps[i + cap]?.map fun p => (wire p).length) = ps[i]?.map fun p => (wire p).length := by
  rw [List.getElem?_eq_getElem hi, List.getElem?_eq_getElem (show i < ps.length by omega), Option.map_some, Option.map_some,
    h _ (List.getElem_mem hi), h _ (List.getElem_mem _)]

/-- Three slots of the crate's capacity: two of them full of packets of one text and of another, and one packet. -/
def threeSlots : List (Op (blockEnum sampleTypes) (PEnum.ops [])) :=
  (List.replicate 500 samplePacket ++ (List.replicate 500 otherPacket ++ [samplePacket])).map Op.insert

theorem threeSlots_log : log threeSlots = List.replicate 500 samplePacket ++ (List.replicate 500 otherPacket ++ [samplePacket]) := log_inserts _

theorem threeSlots_mem : ∀ p ∈ log threeSlots, p = samplePacket ∨ p = otherPacket := by
  rw [threeSlots_log]
  intro p hp
  rcases List.mem_append.mp hp with hp | hp
  · exact .inl (List.mem_replicate.mp hp).2
  · rcases List.mem_append.mp hp with hp | hp
    · exact .inr (List.mem_replicate.mp hp).2
    · exact .inl (List.mem_singleton.mp hp)

/-- `seek(499)` there: packet 499, then the whole first slot again, then the first packet of the second slot. 499 packets of the second slot
and the packet in the third are never shown. -/
example : ∃ data s it, Reached SLOT_CAPACITY true threeSlots data s ∧ (Iter.new s).seek SLOT_CAPACITY data 499 = .ok it ∧
    Yields (fun it r => Iter.next (O := blockEnum sampleTypes) (Q := PEnum.ops []) data it = r) it
      (([samplePacket] ++ (List.replicate 500 samplePacket ++ [otherPacket])).map .ok) := by
  have hlenlog : (log threeSlots).length = 1001 := by
    rw [threeSlots_log, List.length_append, List.length_append, List.length_replicate, List.length_replicate]; rfl
  have hst : ∀ p ∈ log threeSlots, Storable sampleSpec p := by
    intro p hp
    rcases threeSlots_mem p hp with rfl | rfl
    · exact sample_storable
    · exact otherPacket_storable
  have hone : ∀ p ∈ log threeSlots, (wire p).length = 125 := by
    intro p hp
    rcases threeSlots_mem p hp with rfl | rfl
    · exact wire_sample_length
    · exact wire_other_length
  have hsm : Small SLOT_CAPACITY (log threeSlots) := by
    rw [threeSlots_log]
    unfold Small
    rw [List.map_append, List.map_append, List.map_replicate, List.map_replicate, List.sum_append_nat, List.sum_append_nat, List.sum_replicate_nat,
      List.sum_replicate_nat, wire_sample_length, wire_other_length, List.length_append, List.length_append, List.length_replicate,
      List.length_replicate, List.map_cons, List.map_nil, wire_sample_length]
    decide
  obtain ⟨data, s, hr⟩ := Reached.exists (S := sampleSpec) (cap := SLOT_CAPACITY) (by decide) true threeSlots hst hsm
  obtain ⟨it, e, y⟩ := C32_seek_shifted_partial (S := sampleSpec) (cap := SLOT_CAPACITY) (by decide) hr hst hsm (n := 499) (by omega)
    (fun i _ hi => oneLength_shifts hone _ i hi)
  refine ⟨data, s, it, hr, e, ?_⟩
  rw [hlenlog, show (499 / SLOT_CAPACITY + 1) * SLOT_CAPACITY = 500 from rfl, show 499 / SLOT_CAPACITY * SLOT_CAPACITY = 0 from rfl, threeSlots_log,
    List.drop_zero, List.drop_append_of_le_length (by rw [List.length_replicate]; omega), List.drop_replicate, List.take_append_of_le_length (by rw [List.length_replicate]; omega),
    List.take_replicate, List.take_append, List.take_append_of_le_length (by rw [List.length_replicate, List.length_replicate]; omega),
    List.length_replicate, List.take_replicate, List.take_replicate] at y
  exact y

end Brec.Props
