import Verif.Props.Cut
import Verif.Props.StorageDamageTable
/-!
# Reloading a file that has become shorter (C111)
-/

namespace Brec.Props

open Rd

variable {O : BlockOps} {Q : PayloadOps} {S : BlockSpec O}

/-- Full statement of C111 (false): a reader has loaded all packets of a file. If the file is cut short, `reload` returns an error. -/
def C111_full (Q : PayloadOps) (S : BlockSpec O) (cap : Nat) (chk : Bool) : Prop :=
  ∀ (ops : List (Op O Q)) (s s0 : Storage) (data : Bytes), Watching cap chk ops s → Reached cap chk ops data s0 → (∀ p ∈ log ops, Storable S p) →
    Small cap (log ops) → ∀ k, k < data.length → ∃ e s', reloadReader cap chk s (data.take k) = some (.err e, s')

/-- What `reload` returns when the file ends after `k` bytes; `start` is where the slot begins at which the reader stopped. -/
def shrunk (cap : Nat) (chk : Bool) (start k : Nat) : Out Nat :=
  if k < start then (if chk then .panic else .err .io)
  else if k < start + 16 then .ok 0
  else if k < start + (20 + 8 * cap) then (if chk then .panic else .err (.damagedSlot (.notEnoughData (2 ^ 64 + 9 - 8 * cap))))
  else .ok 0

theorem shrunk_view {cap : Nat} (hc : 2 ≤ cap) {chk : Bool} {gs' : List (List Bytes)} {s : Storage} {ps : List (Packet O Q)} (v : View cap gs' s)
    (f : gs'.flatten = ps.map wire) (hl : (fileOf cap gs').length < 2 ^ 63) {k : Nat} (hk : k < (fileOf cap gs').length) :
    ∃ s', reloadReader cap chk s ((fileOf cap gs').take k) = some (shrunk cap chk (slotAt cap ps (ps.length / cap)) k, s') ∧
      s'.slots = s.slots ∧ s'.loc.next = s.loc.next := by
  have hc0 : 0 < cap := by omega
  have before : s.lastInfo.2 = slotAt cap ps (ps.length / cap) → slotAt cap ps (ps.length / cap) < 2 ^ 63 → k < slotAt cap ps (ps.length / cap) →
      ∃ s', reloadReader cap chk s ((fileOf cap gs').take k) = some (shrunk cap chk (slotAt cap ps (ps.length / cap)) k, s') ∧
        s'.slots = s.slots ∧ s'.loc.next = s.loc.next := by
    intro hpos h63 hlt
    refine ⟨s, ?_, rfl, rfl⟩
    unfold reloadReader Storage.reload shrunk
    rw [hpos, Storage.reloadLoop, tryRead_behind (by rw [List.length_take]; omega) h63, if_pos hlt]
    cases chk <;> rfl
  rcases List.eq_nil_or_concat gs' with rfl | ⟨init, g, rfl⟩
  · simp at hk
  rw [List.concat_eq_append] at *
  have hsp := v.groups.split
  have hle := hsp.2.1.le
  have hfl := congrArg List.length f
  rw [List.flatten_append, List.length_append, length_flatten_full hsp.1, List.length_map] at hfl
  simp only [List.flatten_cons, List.flatten_nil, List.append_nil] at hfl
  have hgpos := List.length_pos_iff.mpr hsp.2.2
  -- where the last slot begins and ends
  obtain ⟨hst, hen⟩ : (fileOf cap init).length = slotAt cap ps init.length ∧ (fileOf cap (init ++ [g])).length = slotAt cap ps (init.length + 1) := by
    obtain ⟨a, g', b, e, hfull, hg', hne, haf, ha, hag⟩ := slot_split hc0 v.groups f (j := init.length) (by omega)
    have hal : a.length = init.length := by
      have h1 := congrArg List.length haf
      rw [length_flatten_full hfull, List.length_map, List.length_take, Nat.min_eq_left (by omega)] at h1
      exact Nat.eq_of_mul_eq_mul_right hc0 h1
    obtain ⟨e1, e2⟩ := List.append_inj e hal.symm
    injection e2 with e2 _
    subst e1 e2
    exact ⟨ha, hag⟩
  by_cases hfull : g.length = cap
  · have hdiv : ps.length / cap = init.length + 1 := by
      rw [← hfl, hfull, ← Nat.succ_mul, Nat.mul_div_cancel _ hc0]
    refine before ?_ ?_ ?_
    · rw [lastInfo_full v.slots hsp.2.1 hfull, hdiv, ← hen]
    · rw [hdiv, ← hen]; exact hl
    · rw [hdiv, ← hen]; exact hk
  · have hlt : g.length < cap := by omega
    obtain ⟨_, hdiv, _⟩ := part_mod v.groups hlt f
    have hli := lastInfo_part v.slots hsp.2.1 hlt
    have hlen : (fileOf cap (init ++ [g])).length = (fileOf cap init).length + (20 + 8 * cap + g.flatten.length) := by
      rw [fileOf_append, fileOf_cons, fileOf_nil, List.append_nil, List.length_append, region_length hle]
    by_cases h1 : k < (fileOf cap init).length
    · exact before (by rw [hli, hdiv, hst]) (by rw [hdiv, ← hst]; omega) (by rw [hdiv, ← hst]; exact h1)
    rw [hdiv, ← hst, cut_eq (b := []) (by omega) hk]
    have hcount : (s.slots.length == s.slots.length) = true := by simp
    unfold reloadReader Storage.reload shrunk
    rw [hli, if_neg h1]
    by_cases h2 : k < (fileOf cap init).length + (20 + 8 * cap)
    · have key := cut_table (chk := chk) hc hsp.2.1 hl (r := k - (fileOf cap init).length) (by omega)
      rw [Storage.reloadLoop, key]
      by_cases h3 : k < (fileOf cap init).length + 16
      · rw [if_pos (by omega), if_pos h3]
        refine ⟨⟨s.slots, s.loc.setup (s.slots.map (·.inner))⟩, ?_, rfl, ?_⟩
        · have hlast : s.slots.getLast? = some ⟨table cap g, (fileOf cap init).length⟩ := by rw [v.slots, anchor_concat, List.getLast?_concat]
          have hfree : (table cap g).freeIndex = some g.length := by rw [table_freeIndex hsp.2.1, if_pos hlt]
          simp only [Option.isNone_some, hcount, SLOT_HSIZE, if_true, Option.map_some, Storage.fresh, hlast, hfree, Nat.sub_self]
        · show (Locator.setup s.loc (s.slots.map (·.inner))).next = _
          rw [v.inner, setup_next hc0 v.groups, v.loc]
      · rw [if_neg (by omega), if_neg h3, if_pos h2]
        refine ⟨s, ?_, rfl, rfl⟩
        cases chk with
        | true => rfl
        | false =>
          have hcap63 : cap * 8 < 2 ^ 63 := by omega
          have : ¬ (2 ^ 64 + 9 - 8 * cap = SLOT_HSIZE) := by simp only [SLOT_HSIZE]; omega
          simp only [Option.isNone_some, hcount, Bool.false_eq_true, if_false, if_neg this, Option.map_some]
    · rw [if_neg (by omega), if_neg h2]
      refine ⟨s, ?_, rfl, rfl⟩
      have hwf : (table cap g).WF := table_wf_of_file hl (g := g) (by simp) hle
      have hel := table_enc_length hle
      obtain ⟨i, hi⟩ : ∃ i, k - (fileOf cap init).length = (table cap g).enc.length + i := ⟨k - (fileOf cap init).length - (20 + 8 * cap), by omega⟩
      rw [hi, region, List.take_length_add_append, Storage.reloadLoop,
        Slot.tryRead_enc hwf (t := g.flatten.take i) (by simp) (by simp [Cur.rest])]
      simp only [hcount, if_true, Option.map_some]

/-- **C111, exactly.** What `reload` does when the file has been cut anywhere: if the cut is in front of the slot the reader stopped at, or in its table behind the header,
it fails (release build) or panics (debug build). If the cut is in the first 16 bytes of that slot, or among its packets, it says that there is nothing new. The reader
keeps its slots in all cases. -/
theorem C111_exact {cap : Nat} (hc : 2 ≤ cap) {chk : Bool} {ops : List (Op O Q)} {s s0 : Storage} {data : Bytes} (h : Watching cap chk ops s)
    (hr : Reached cap chk ops data s0) (hok : ∀ p ∈ log ops, p.Ok S) (hs : Small cap (log ops)) {k : Nat} (hk : k < data.length) :
    ∃ s', reloadReader cap chk s (data.take k) = some (shrunk cap chk (slotAt cap (log ops) ((log ops).length / cap)) k, s') ∧
      s'.slots = s.slots ∧ s'.loc.next = s.loc.next := by
  have hc0 : 0 < cap := by omega
  obtain ⟨gs, v1, hd, f, hl⟩ := hr.view hc0 hok hs
  obtain ⟨gs', v, f'⟩ := h.view (S := S) hc0 hok hs
  have hgg : gs' = gs := groups_unique hc0 v.groups v1.groups (by rw [f, f'])
  subst hgg
  rw [hd] at hl hk ⊢
  exact shrunk_view hc v f hl hk

theorem slotAt_mono (cap : Nat) (ps : List (Packet O Q)) {i j : Nat} (h : i ≤ j) : slotAt cap ps i ≤ slotAt cap ps j := by
  have h1 : i * (20 + 8 * cap) ≤ j * (20 + 8 * cap) := Nat.mul_le_mul_right _ h
  obtain ⟨d, hd⟩ : ∃ d, j * cap = i * cap + d := ⟨j * cap - i * cap, by have := Nat.mul_le_mul_right cap h; omega⟩
  unfold slotAt
  rw [hd, List.take_add, List.map_append, List.sum_append]
  omega

/-- **C111 (partial).** In a release build `reload` reports the cut if it is in front of the slot the reader stopped at, and this is so for every cut if the packets
fill their slots. Missing: see `C111_unnoticed`. -/
theorem C111_reported_partial {cap : Nat} (hc : 2 ≤ cap) {ops : List (Op O Q)} {s s0 : Storage} {data : Bytes} (h : Watching cap false ops s)
    (hr : Reached cap false ops data s0) (hok : ∀ p ∈ log ops, p.Ok S) (hs : Small cap (log ops)) {k : Nat} (hk : k < data.length)
    (hcut : (log ops).length % cap = 0 ∨ k < slotAt cap (log ops) ((log ops).length / cap)) :
    ∃ s', reloadReader cap false s (data.take k) = some (.err .io, s') ∧ s'.slots = s.slots := by
  have hc0 : 0 < cap := by omega
  have hlt : k < slotAt cap (log ops) ((log ops).length / cap) := by
    rcases hcut with h0 | h0
    · obtain ⟨j, hj, _, h2⟩ := C102_cases (S := S) hc0 hr hok hs hk
      refine Nat.lt_of_lt_of_le h2 (slotAt_mono cap _ ?_)
      have hdm := Nat.div_add_mod (log ops).length cap
      rw [h0, Nat.add_zero, Nat.mul_comm] at hdm
      rw [← hdm] at hj
      exact Nat.lt_of_mul_lt_mul_right hj
    · exact h0
  obtain ⟨s', e, h1, _⟩ := C111_exact (S := S) hc h hr hok hs hk
  refine ⟨s', ?_, h1⟩
  rw [e, shrunk, if_pos hlt]
  rfl

/-- **C111, unnoticed.** If the last slot is not full, the loss of the last byte is not noticed: `reload` returns 0 and the reader still counts all packets. -/
theorem C111_unnoticed {cap : Nat} (hc : 2 ≤ cap) {chk : Bool} {ops : List (Op O Q)} {s s0 : Storage} {data : Bytes} (h : Watching cap chk ops s)
    (hr : Reached cap chk ops data s0) (hok : ∀ p ∈ log ops, p.Ok S) (hs : Small cap (log ops)) (hmod : (log ops).length % cap ≠ 0) :
    ∃ s', reloadReader cap chk s data.dropLast = some (.ok 0, s') ∧ s'.count cap = (log ops).length := by
  have hc0 : 0 < cap := by omega
  have hdm := Nat.div_add_mod (log ops).length cap
  have hlong : slotAt cap (log ops) ((log ops).length / cap) + (20 + 8 * cap) < data.length := by
    obtain ⟨gs, v, hd, f, hl⟩ := hr.view hc0 hok hs
    obtain ⟨a, g, b, e, _, hg, hne, _, ha, _⟩ := slot_split hc0 v.groups f (j := (log ops).length / cap) (by rw [Nat.mul_comm]; omega)
    obtain ⟨x, g', rfl⟩ := List.exists_cons_of_ne_nil hne
    have hx := List.length_pos_iff.mpr (hg.pos x (by simp))
    rw [hd, e, fileOf_append, fileOf_cons, List.length_append, List.length_append, region_length hg.le, ← ha, List.flatten_cons, List.length_append]
    omega
  obtain ⟨s', e, h1, h2⟩ := C111_exact (S := S) hc h hr hok hs (k := data.length - 1) (by omega)
  obtain ⟨gs, v, f⟩ := h.view (S := S) hc0 hok hs
  refine ⟨s', ?_, ?_⟩
  · rw [List.dropLast_eq_take, e, shrunk, if_neg (by omega), if_neg (by omega), if_neg (by omega)]
  · have v' : View cap gs s' := ⟨v.groups, by rw [h1, v.slots], by rw [h2, v.loc]⟩
    rw [v'.count, f, List.length_map]

theorem C111_not (chk : Bool) : ¬ C111_full (PEnum.ops []) sampleSpec SLOT_CAPACITY chk := by
  intro hf
  have hok : ∀ p ∈ log [Op.insert samplePacket], Storable sampleSpec p := by
    intro p hp; rw [List.mem_singleton.mp hp]; exact sample_storable
  have hs : Small SLOT_CAPACITY (log [Op.insert samplePacket]) := sample_small2.left
  obtain ⟨data, s, hr⟩ := Reached.exists (S := sampleSpec) (cap := SLOT_CAPACITY) (by decide) chk [Op.insert samplePacket] hok hs
  obtain ⟨s', e, _⟩ := C111_unnoticed (S := sampleSpec) (by decide) (.opened hr) hr (fun p hp => (hok p hp).ok) hs (by decide)
  have hpos : 0 < data.length := by
    obtain ⟨gs, v, hd, f, _⟩ := hr.view (S := sampleSpec) (by decide) (fun p hp => (hok p hp).ok) hs
    rcases gs with _ | ⟨g, gs⟩
    · cases f
    · rw [hd, fileOf_cons, List.length_append, region_length (v.groups.group g (by simp)).le]; omega
  obtain ⟨x, s2, e2⟩ := hf _ s s data (.opened hr) hr hok hs (data.length - 1) (by omega)
  rw [← List.dropLast_eq_take, e] at e2
  cases e2

/-- Two packets in a slot for two: any cut is reported (release build). -/
example : ∃ data s, Reached 2 false twoPackets data s ∧ 0 < data.length ∧ ∀ k, k < data.length → ∃ s', reloadReader 2 false s (data.take k) = some (.err .io, s') := by
  have hok : ∀ p ∈ log twoPackets, p.Ok sampleSpec := fun p hp => (twoPackets_storable p hp).ok
  obtain ⟨data, s, hr⟩ := Reached.exists (S := sampleSpec) (cap := 2) (by decide) false twoPackets twoPackets_storable twoPackets_small_two
  refine ⟨data, s, hr, ?_, ?_⟩
  · obtain ⟨gs, v, hd, f, _⟩ := hr.view (S := sampleSpec) (by decide) hok twoPackets_small_two
    rcases gs with _ | ⟨g, gs⟩
    · cases f
    · rw [hd, fileOf_cons, List.length_append, region_length (v.groups.group g (by simp)).le]; omega
  · intro k hk
    obtain ⟨s', e, _⟩ := C111_reported_partial (S := sampleSpec) (by decide) (.opened hr) hr hok twoPackets_small_two hk (.inl (by rw [twoPackets_log]; rfl))
    exact ⟨s', e⟩

end Brec.Props
