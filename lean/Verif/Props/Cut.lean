import Verif.Props.StorageSeek
import Verif.Props.Joined
import Verif.Props.StorageHostile
import Verif.Props.StorageScan
import Verif.Props.Before
/-!
# A storage file that has been cut short: C102

A copy that was not finished, a full disk, a file system that lost the end of a file: what is left is the first `k` bytes of a storage file.
-/

namespace Brec.Props

open Brec Brec.Rd

variable {O : BlockOps} {Q : PayloadOps} {S : BlockSpec O}

/-- Where slot `j` of the file of the packets `ps` begins: behind `j` slot tables and the packets of `j` full slots. -/
def slotAt (cap : Nat) (ps : List (Packet O Q)) (j : Nat) : Nat := j * (20 + 8 * cap) + ((ps.take (j * cap)).map fun p => (wire p).length).sum

/-- Where packet `i` ends. -/
def endOf (cap : Nat) (ps : List (Packet O Q)) (i : Nat) : Nat := (i / cap + 1) * (20 + 8 * cap) + ((ps.take (i + 1)).map fun p => (wire p).length).sum

/-- The file opens, for reading and for writing, and shows the packets `ps` and nothing else, by all means. -/
structure Presents (S : BlockSpec O) (cap : Nat) (chk : Bool) (data : Bytes) (ps : List (Packet O Q)) : Prop where
  writer : ∃ w, openWriter chk data = some (.ok w)
  reader : ∃ s, openReader chk data = some (.ok s) ∧ s.count cap = ps.length ∧ (∀ i, s.nth cap chk data i = .ok ps[i]?) ∧
    IterYields s data (ps.map .ok) ∧
    (∀ rules, Yields (fun it r => ∃ fuel, Iter.nextFiltered rules data fuel it = some r) (Iter.new s) ((ps.filter (accepted S rules)).map .ok)) ∧
    ∀ (rules : Rules O.BR (Packet O Q)) (i : Nat), (ps[i]? = none ∧ s.nthFiltered cap rules data i = .ok none) ∨
      ∃ p k, ps[i]? = some p ∧ s.nthFiltered cap rules data i = .ok (some (if accepted S rules p then .accepted k p else .denied k))

/-- **C102, full statement** (false): of a storage file of which only the first `k` bytes are left, all packets that lie in these bytes can still be read. -/
def C102_full (Q : PayloadOps) (S : BlockSpec O) (cap : Nat) (chk : Bool) : Prop :=
  ∀ (ops : List (Op O Q)) (data : Bytes) (s : Storage) (k : Nat), Reached cap chk ops data s → (∀ p ∈ log ops, Storable S p) → Small cap (log ops) →
    ∃ s', openReader chk (data.take k) = some (.ok s') ∧
      ∀ i, i < (log ops).length → endOf cap (log ops) i ≤ k → s'.nth cap chk (data.take k) i = .ok (log ops)[i]?

/-! ## The slots on both sides of the cut -/

theorem wire_lengths (ps : List (Packet O Q)) : (ps.map wire).flatten.length = (ps.map fun p => (wire p).length).sum := by
  rw [List.length_flatten, List.map_map]; rfl

theorem slot_split {cap : Nat} (hc : 0 < cap) {gs : List (List Bytes)} (hg : Groups cap gs) {ps : List (Packet O Q)} (f : gs.flatten = ps.map wire) {j : Nat}
    (hj : j * cap < ps.length) :
    ∃ a g b, gs = a ++ g :: b ∧ AllFull cap a ∧ Group cap g ∧ g ≠ [] ∧ a.flatten = (ps.take (j * cap)).map wire ∧
      (fileOf cap a).length = slotAt cap ps j ∧ (fileOf cap (a ++ [g])).length = slotAt cap ps (j + 1) := by
  have hfl := congrArg List.length f
  rw [List.length_map] at hfl
  obtain ⟨a, g, b, rfl, ha, hk, hgb, hag⟩ := Groups.at hc hg (j * cap) (by omega)
  rw [Nat.mul_div_cancel _ hc] at ha
  have hfull : AllFull cap a := by
    intro x hx
    refine ⟨hag x hx, hg.full x ?_⟩
    rw [List.dropLast_append_of_ne_nil (by simp)]
    exact List.mem_append_left _ hx
  have hgg := hg.group g (by simp)
  have haf : a.flatten = (ps.take (j * cap)).map wire := by
    rw [List.map_take, ← f, List.flatten_append, ← ha, List.take_left]
  have hal : a.length = j := by
    have := length_flatten_full hfull
    rw [ha] at this
    exact (Nat.eq_of_mul_eq_mul_right hc this).symm
  have hga : ∀ x ∈ a ++ [g], Group cap x := by
    intro x hx
    rcases List.mem_append.mp hx with hx | hx
    · exact hag x hx
    · rw [List.mem_singleton.mp hx]; exact hgg
  refine ⟨a, g, b, rfl, hfull, hgg, hg.ne g (by simp), haf, ?_, ?_⟩
  · rw [length_fileOf hag, haf, wire_lengths, hal, slotAt]
    omega
  · have h1 : (a ++ [g]).flatten = (ps.take ((j + 1) * cap)).map wire := by
      have hle := hgg.le
      rw [List.map_take, ← f, List.flatten_append, List.flatten_append, List.flatten_cons, List.flatten_cons, List.flatten_nil, List.append_nil, Nat.add_mul, Nat.one_mul]
      rw [show j * cap + cap = a.flatten.length + cap by rw [ha], List.take_length_add_append]
      congr 1
      rcases b with _ | ⟨k, b⟩
      · rw [List.flatten_nil, List.append_nil, List.take_of_length_le hle]
      · have := hgb.head_full (by simp)
        rw [← this, List.take_left]
    rw [length_fileOf hga, h1, wire_lengths, List.length_append, hal, slotAt, List.length_singleton]
    omega

/-- `nth_filtered` does not depend on what follows the file. -/
theorem nthFiltered_log_tail {cap : Nat} (hc : 0 < cap) {gs : List (List Bytes)} {s : Storage} (v : View cap gs s) {ps : List (Packet O Q)}
    (hp : gs.flatten = ps.map wire) (hok : ∀ p ∈ ps, p.Ok S) (rules : Rules O.BR (Packet O Q)) (tail : Bytes) (n : Nat) :
    (ps[n]? = none ∧ s.nthFiltered cap rules (fileOf cap gs ++ tail) n = .ok none) ∨
    ∃ p k, ps[n]? = some p ∧ s.nthFiltered cap rules (fileOf cap gs ++ tail) n = .ok (some (if accepted S rules p then .accepted k p else .denied k)) := by
  unfold Storage.nthFiltered
  cases hn : ps[n]? with
  | none =>
    left
    rw [offsetOf_none hc v.groups v.inner (by rw [hp, List.getElem?_map, hn]; rfl)]
    exact ⟨rfl, rfl⟩
  | some p =>
    right
    obtain ⟨a, t, e, hf, _⟩ := offsetOf_some hc v.groups v.inner (n := n) (x := wire p) (by rw [hp, List.getElem?_map, hn]; rfl)
    obtain ⟨k, hk⟩ := filtered_wire (hok p (List.mem_of_getElem? hn)) rules (t ++ tail)
    refine ⟨p, k, rfl, ?_⟩
    rw [e]
    simp only
    rw [hf, List.append_assoc, List.drop_left, List.append_assoc, hk]
    by_cases ha : accepted S rules p = true
    · rw [if_pos ha]
    · rw [if_neg ha]

/-- Whole slots followed by something in which `try_read` finds too little: the whole slots are shown. -/
theorem shows_tail {cap : Nat} (hc : 0 < cap) {chk : Bool} {gs : List (List Bytes)} (hg : Groups cap gs) {tail : Bytes} (hl : (fileOf cap gs ++ tail).length < 2 ^ 63)
    {ps : List (Packet O Q)} (hp : gs.flatten = ps.map wire) (hok : ∀ p ∈ ps, Storable S p)
    (ht : ∃ n, (Slot.tryRead ⟨fileOf cap gs ++ tail, (fileOf cap gs).length, chk⟩).1 = .ok (.notEnough n)) :
    loadLoop chk (fileOf cap gs ++ tail) ((fileOf cap gs ++ tail).length + 1) 0 [] = some (.ok (anchor cap 0 gs)) ∧
    Presents S cap chk (fileOf cap gs ++ tail) ps := by
  obtain ⟨n, ht⟩ := ht
  have hle := groups_le hg.group
  have hload : loadLoop chk (fileOf cap gs ++ tail) ((fileOf cap gs ++ tail).length + 1) 0 [] = some (.ok (anchor cap 0 gs)) := by
    obtain ⟨f, hf⟩ : ∃ f, (fileOf cap gs ++ tail).length + 1 = (f + 1) + gs.length :=
      ⟨(fileOf cap gs ++ tail).length - gs.length, by rw [List.length_append]; omega⟩
    rw [hf, load_then chk tail hg.group (by rw [List.length_append] at hl; omega), loadLoop.eq_def]
    simp only
    rw [ht]
  have v : View cap gs (⟨anchor cap 0 gs, Locator.setup {} ((anchor cap 0 gs).map (·.inner))⟩ : Storage) := by
    refine ⟨hg, rfl, ?_⟩
    dsimp only
    rw [anchor_inner]
    exact setup_next hc hg _
  have hb : Before cap (fileOf cap gs ++ tail) (Iter.new ⟨anchor cap 0 gs, Locator.setup {} ((anchor cap 0 gs).map (·.inner))⟩) ps :=
    ⟨[], _, gs, [], ps, rfl, Bodies.file hg.group tail, by simp [Iter.new, v.inner], by simp [Iter.new], hp, rfl, fun g h => ⟨hg.group g h, hg.ne g h⟩⟩
  refine ⟨hload, ⟨⟨_, by unfold openWriter Writer.open_; rw [hload]; rfl⟩, _, by unfold openReader Storage.open_; rw [hload]; rfl, ?_, ?_, ?_, ?_, ?_⟩⟩
  · rw [v.count, hp, List.length_map]
  · exact fun i => view_log_tail hc chk v hp hok tail i
  · exact Before.yields hl ps hb hok
  · exact fun rules => Before.yields_filtered (cap := cap) hl rules ps hb fun p hp => (hok p hp).ok
  · exact fun rules i => nthFiltered_log_tail hc v hp (fun p hp => (hok p hp).ok) rules tail i

/-- The file up to the cut, in slot `j`. -/
theorem cut_eq {cap : Nat} {a b : List (List Bytes)} {g : List Bytes} {k : Nat} (h1 : (fileOf cap a).length ≤ k) (h2 : k < (fileOf cap (a ++ [g])).length) :
    (fileOf cap (a ++ g :: b)).take k = fileOf cap a ++ (region cap g).take (k - (fileOf cap a).length) := by
  rw [fileOf_append, fileOf_cons, fileOf_nil, List.append_nil, List.length_append] at h2
  conv => lhs; rw [show k = (fileOf cap a).length + (k - (fileOf cap a).length) by omega, fileOf_append, fileOf_cons, List.take_length_add_append,
    List.take_append_of_le_length (by omega)]

/-- What `load` finds behind the whole slots when the table of the slot with the cut is not whole. -/
theorem cut_table {cap : Nat} (hc : 2 ≤ cap) {chk : Bool} {a : List (List Bytes)} {g : List Bytes} (hg : Group cap g) (hl : (fileOf cap (a ++ [g])).length < 2 ^ 63)
    {r : Nat} (hr : r < 20 + 8 * cap) :
    (Slot.tryRead ⟨fileOf cap a ++ (region cap g).take r, (fileOf cap a).length, chk⟩).1 =
      (if r < 16 then .ok (.notEnough 16) else if chk then .panic else .ok (.notEnough (2 ^ 64 + 9 - 8 * cap))) := by
  have hwf : (table cap g).WF := table_wf_of_file hl (g := g) (by simp) hg.le
  have hen := table_enc_length hg.le
  have key := C34_truncated_partial (table cap g) hwf _ (fileOf cap a) r chk hwf.bytes (by rw [hen]; exact hr)
  rw [table_capacity] at key
  rw [region, List.take_append_of_le_length (by omega), key]
  by_cases h : r < 16
  · rw [if_pos h, if_pos h]
  · rw [if_neg h, if_neg h, if_neg (by omega)]

/-! ## C102 -/

/-- **C102, what holds.** If the cut is not more than 15 bytes into a slot, or anywhere in its table in a build without overflow checks, the
file opens and shows exactly the packets of the slots before it. Missing: all other cuts (`C102_lost`), and the packets of the slot itself. -/
theorem C102_opens_partial {cap : Nat} (hc : 2 ≤ cap) {chk : Bool} {ops : List (Op O Q)} {data : Bytes} {s : Storage} (h : Reached cap chk ops data s)
    (hok : ∀ p ∈ log ops, Storable S p) (hs : Small cap (log ops)) {j k : Nat} (hj : j * cap < (log ops).length) (h1 : slotAt cap (log ops) j ≤ k)
    (h2 : k < slotAt cap (log ops) j + 16 ∨ (chk = false ∧ k < slotAt cap (log ops) j + (20 + 8 * cap))) :
    Presents S cap chk (data.take k) ((log ops).take (j * cap)) := by
  have hc0 : 0 < cap := by omega
  obtain ⟨gs, v, rfl, f, hl⟩ := h.view hc0 (fun p hp => (hok p hp).ok) hs
  generalize log ops = ps at *
  obtain ⟨a, g, b, rfl, hfull, hg, hne, haf, ha, hag⟩ := slot_split hc0 v.groups f hj
  have hsm : (fileOf cap (a ++ [g])).length < 2 ^ 63 := by
    rw [show a ++ g :: b = (a ++ [g]) ++ b by simp, fileOf_append, List.length_append] at hl
    omega
  have hlen : (fileOf cap (a ++ [g])).length = (fileOf cap a).length + (20 + 8 * cap + g.flatten.length) := by
    rw [fileOf_append, fileOf_cons, fileOf_nil, List.append_nil, List.length_append, region_length hg.le]
  rw [← ha] at h1 h2
  rw [cut_eq h1 (by omega)]
  have key := cut_table (chk := chk) hc hg hsm (r := k - (fileOf cap a).length) (by omega)
  refine (shows_tail hc0 (hfull.groups hc0) ?_ haf (fun p hp => hok p (List.mem_of_mem_take hp)) ?_).2
  · rw [List.length_append, List.length_take]; omega
  · rw [key]
    rcases h2 with h2 | ⟨h2, _⟩
    · rw [if_pos (by omega)]; exact ⟨_, rfl⟩
    · subst h2
      by_cases h : k - (fileOf cap a).length < 16
      · rw [if_pos h]; exact ⟨_, rfl⟩
      · rw [if_neg h]; exact ⟨_, rfl⟩

/-- **C102, what goes wrong.** At any other cut nothing can be read or written any more: with overflow checks opening the file panics; without
them, it fails. This is so for a file that has lost only its very last byte. -/
theorem C102_lost {cap : Nat} (hc : 2 ≤ cap) {chk : Bool} {ops : List (Op O Q)} {data : Bytes} {s : Storage} (h : Reached cap chk ops data s)
    (hok : ∀ p ∈ log ops, p.Ok S) (hs : Small cap (log ops)) {j k : Nat} (hj : j * cap < (log ops).length)
    (h1 : slotAt cap (log ops) j + (if chk then 16 else 20 + 8 * cap) ≤ k) (h2 : k < slotAt cap (log ops) (j + 1)) :
    openReader chk (data.take k) = some (if chk then .panic else .err .io) ∧ openWriter chk (data.take k) = some (if chk then .panic else .err .io) := by
  have hc0 : 0 < cap := by omega
  obtain ⟨gs, v, rfl, f, hl⟩ := h.view hc0 hok hs
  generalize log ops = ps at *
  obtain ⟨a, g, b, rfl, hfull, hg, hne, haf, ha, hag⟩ := slot_split hc0 v.groups f hj
  have hsm : (fileOf cap (a ++ [g])).length < 2 ^ 63 := by
    rw [show a ++ g :: b = (a ++ [g]) ++ b by simp, fileOf_append, List.length_append] at hl
    omega
  have hlen : (fileOf cap (a ++ [g])).length = (fileOf cap a).length + (20 + 8 * cap + g.flatten.length) := by
    rw [fileOf_append, fileOf_cons, fileOf_nil, List.append_nil, List.length_append, region_length hg.le]
  rw [← ha] at h1
  rw [← hag] at h2
  have hge : (fileOf cap a).length + 16 ≤ k := by
    cases chk
    · simp at h1; omega
    · simpa using h1
  rw [cut_eq (by omega) h2]
  have hi : ∀ x ∈ a, Group cap x := fun x hx => (hfull x hx).1
  have hload : loadLoop chk (fileOf cap a ++ (region cap g).take (k - (fileOf cap a).length))
      ((fileOf cap a ++ (region cap g).take (k - (fileOf cap a).length)).length + 1) 0 [] = some (if chk then .panic else .err .io) := by
    rcases Nat.lt_or_ge (k - (fileOf cap a).length) (20 + 8 * cap) with hr | hr
    · have hchk : chk = true := by
        cases chk
        · simp at h1; omega
        · rfl
      subst hchk
      have key := cut_table (chk := true) hc hg hsm hr
      rw [if_neg (by omega)] at key
      rw [load_panics hi (by omega) (by rw [key]; rfl)]
      rfl
    · have hen := table_enc_length hg.le
      obtain ⟨i, e⟩ : ∃ i, k - (fileOf cap a).length = (table cap g).enc.length + i := ⟨k - (fileOf cap a).length - (20 + 8 * cap), by omega⟩
      rw [e, region, List.take_length_add_append]
      exact load_behind hi hg hsm (by rw [List.length_take]; omega)
  unfold openReader Storage.open_ openWriter Writer.open_
  rw [hload]
  cases chk <;> exact ⟨rfl, rfl⟩

/-- Every cut falls into a slot. -/
theorem C102_cases {cap : Nat} (hc : 0 < cap) {chk : Bool} {ops : List (Op O Q)} {data : Bytes} {s : Storage} (h : Reached cap chk ops data s)
    (hok : ∀ p ∈ log ops, p.Ok S) (hs : Small cap (log ops)) {k : Nat} (hk : k < data.length) :
    ∃ j, j * cap < (log ops).length ∧ slotAt cap (log ops) j ≤ k ∧ k < slotAt cap (log ops) (j + 1) := by
  obtain ⟨gs, v, rfl, f, hl⟩ := h.view hc hok hs
  generalize log ops = ps at *
  have hfl := congrArg List.length f
  rw [List.length_map] at hfl
  -- the last slot that begins at or before the cut
  have step : ∀ n j, ps.length - j * cap ≤ n → j * cap < ps.length → slotAt cap ps j ≤ k →
      ∃ j, j * cap < ps.length ∧ slotAt cap ps j ≤ k ∧ k < slotAt cap ps (j + 1) := by
    intro n
    induction n with
    | zero => intro j h1 h2; omega
    | succ n ih =>
      intro j h1 h2 h3
      rcases Nat.lt_or_ge k (slotAt cap ps (j + 1)) with h4 | h4
      · exact ⟨j, h2, h3, h4⟩
      · by_cases h5 : (j + 1) * cap < ps.length
        · exact ih (j + 1) (by rw [Nat.add_mul] at h5 ⊢; omega) h5 h4
        · exfalso
          obtain ⟨a, g, b, rfl, hfull, hg, hne, haf, ha, hag⟩ := slot_split hc v.groups f h2
          have hb : b = [] := by
            rcases b with _ | ⟨x, b⟩
            · rfl
            · exfalso
              have hx := List.length_pos_iff.mpr (v.groups.ne x (by simp))
              have hgl : g.length = cap := v.groups.full g (by
                rw [List.dropLast_append_of_ne_nil (by simp)]
                exact List.mem_append_right _ (by simp))
              have hal := congrArg List.length haf
              rw [List.length_map, List.length_take] at hal
              simp only [List.flatten_append, List.flatten_cons, List.length_append] at hfl
              rw [Nat.add_mul] at h5
              omega
          subst hb
          omega
  have hne : 0 < ps.length := by
    rcases Nat.eq_zero_or_pos ps.length with h0 | h0
    · rw [h0] at hfl
      have : gs = [] := by
        rcases gs with _ | ⟨g, gs⟩
        · rfl
        · exfalso
          have hx := List.length_pos_iff.mpr (v.groups.ne g (by simp))
          rw [List.flatten_cons, List.length_append] at hfl
          omega
      subst this
      simp at hk
    · exact h0
  exact step ps.length 0 (by omega) (by omega) (by simp [slotAt])

/-- **C102, exactly when a cut file opens.** -/
theorem C102_exact {cap : Nat} (hc : 2 ≤ cap) {chk : Bool} {ops : List (Op O Q)} {data : Bytes} {s : Storage} (h : Reached cap chk ops data s)
    (hok : ∀ p ∈ log ops, Storable S p) (hs : Small cap (log ops)) {k : Nat} (hk : k < data.length) :
    (∃ s', openReader chk (data.take k) = some (.ok s')) ↔
      ∃ j, j * cap < (log ops).length ∧ slotAt cap (log ops) j ≤ k ∧ k < slotAt cap (log ops) j + (if chk then 16 else 20 + 8 * cap) := by
  constructor
  · rintro ⟨s', hs'⟩
    obtain ⟨j, hj, h1, h2⟩ := C102_cases (S := S) (by omega) h (fun p hp => (hok p hp).ok) hs hk
    refine ⟨j, hj, h1, ?_⟩
    rcases Nat.lt_or_ge k (slotAt cap (log ops) j + (if chk then 16 else 20 + 8 * cap)) with h3 | h3
    · exact h3
    · exfalso
      have := (C102_lost (S := S) hc h (fun p hp => (hok p hp).ok) hs hj h3 h2).1
      rw [hs'] at this
      cases chk <;> cases this
  · rintro ⟨j, hj, h1, h2⟩
    obtain ⟨s', e, _⟩ := (C102_opens_partial hc h hok hs hj h1 (by
      cases chk
      · exact .inr ⟨rfl, by simpa using h2⟩
      · exact .inl (by simpa using h2))).reader
    exact ⟨s', e⟩

/-- A storage that is not empty cannot be opened any more if its file loses a single byte at the end. -/
theorem C102_last_byte {cap : Nat} (hc : 2 ≤ cap) {chk : Bool} {ops : List (Op O Q)} {data : Bytes} {s : Storage} (h : Reached cap chk ops data s)
    (hok : ∀ p ∈ log ops, p.Ok S) (hs : Small cap (log ops)) (hne : log ops ≠ []) :
    openReader chk data.dropLast = some (if chk then .panic else .err .io) ∧ openWriter chk data.dropLast = some (if chk then .panic else .err .io) := by
  have hc0 : 0 < cap := by omega
  have hpos : 0 < data.length := by
    obtain ⟨gs, v, rfl, f, hl⟩ := h.view hc0 hok hs
    rcases gs with _ | ⟨g, gs⟩
    · exact absurd (List.map_eq_nil_iff.mp f.symm) hne
    · rw [fileOf_cons, List.length_append, region_length (v.groups.group g (by simp)).le]; omega
  obtain ⟨j, hj, h1, h2⟩ := C102_cases (S := S) hc0 h hok hs (k := data.length - 1) (by omega)
  rw [List.dropLast_eq_take]
  refine C102_lost (S := S) hc h hok hs hj ?_ h2
  obtain ⟨gs, v, rfl, f, hl⟩ := h.view hc0 hok hs
  generalize log ops = ps at *
  obtain ⟨a, g, b, rfl, hfull, hg, hgne, haf, ha, hag⟩ := slot_split hc0 v.groups f hj
  rw [← hag] at h2
  rw [← ha]
  have hle : (fileOf cap (a ++ [g])).length ≤ (fileOf cap (a ++ g :: b)).length := by
    rw [show a ++ g :: b = (a ++ [g]) ++ b by simp, fileOf_append (a := a ++ [g]), List.length_append]
    omega
  have hlen : (fileOf cap (a ++ [g])).length = (fileOf cap a).length + (20 + 8 * cap + g.flatten.length) := by
    rw [fileOf_append, fileOf_cons, fileOf_nil, List.append_nil, List.length_append, region_length hg.le]
  have hgl : 0 < g.flatten.length := by
    obtain ⟨x, l, rfl⟩ := List.exists_cons_of_ne_nil hgne
    have := List.length_pos_iff.mpr (hg.pos x (by simp))
    simp only [List.flatten_cons, List.length_append]
    omega
  cases chk
  · simp; omega
  · simp; omega

/-- **C102, going on.** Where a cut file opens it can be written again: after the next insert it is, byte for byte, the file of the packets shown and the new one,
whatever was left of the slot with the cut. -/
theorem C102_insert {cap : Nat} (hc : 2 ≤ cap) {chk : Bool} {ops : List (Op O Q)} {data : Bytes} {s : Storage} (h : Reached cap chk ops data s)
    (hok : ∀ p ∈ log ops, Storable S p) (hs : Small cap (log ops)) {j k : Nat} (hj : j * cap < (log ops).length) (h1 : slotAt cap (log ops) j ≤ k)
    (h2 : k < slotAt cap (log ops) j + 16 ∨ (chk = false ∧ k < slotAt cap (log ops) j + (20 + 8 * cap)))
    {p : Packet O Q} (hp : p.Ok S) (hsp : Small cap ((log ops).take (j * cap) ++ [p])) :
    ∃ w w', openWriter chk (data.take k) = some (.ok w) ∧ w.insert cap p none = (.ok (), w') ∧ FileOf cap chk ((log ops).take (j * cap) ++ [p]) w'.data := by
  have hc0 : 0 < cap := by omega
  obtain ⟨gs, v, rfl, f, hl⟩ := h.view hc0 (fun p hp => (hok p hp).ok) hs
  generalize log ops = ps at *
  obtain ⟨a, g, b, rfl, hfull, hg, hne, haf, ha, hag⟩ := slot_split hc0 v.groups f hj
  have hsm : (fileOf cap (a ++ [g])).length < 2 ^ 63 := by
    rw [show a ++ g :: b = (a ++ [g]) ++ b by simp, fileOf_append, List.length_append] at hl
    omega
  have hlen : (fileOf cap (a ++ [g])).length = (fileOf cap a).length + (20 + 8 * cap + g.flatten.length) := by
    rw [fileOf_append, fileOf_cons, fileOf_nil, List.append_nil, List.length_append, region_length hg.le]
  rw [← ha] at h1 h2
  have hr : k - (fileOf cap a).length < 20 + 8 * cap := by omega
  rw [cut_eq h1 (by omega)]
  have key := cut_table (chk := chk) hc hg hsm hr
  obtain ⟨hload, _⟩ := shows_tail (S := S) (chk := chk) hc0 (hfull.groups hc0) (tail := (region cap g).take (k - (fileOf cap a).length))
    (by rw [List.length_append, List.length_take]; omega) haf (fun p hp => hok p (List.mem_of_mem_take hp)) (by
      rw [key]
      rcases h2 with h2 | ⟨h2, _⟩
      · rw [if_pos (by omega)]; exact ⟨_, rfl⟩
      · subst h2
        by_cases h : k - (fileOf cap a).length < 16
        · rw [if_pos h]; exact ⟨_, rfl⟩
        · rw [if_neg h]; exact ⟨_, rfl⟩)
  have htl : ((region cap g).take (k - (fileOf cap a).length)).length ≤ 20 + 8 * cap := by rw [List.length_take]; omega
  generalize (region cap g).take (k - (fileOf cap a).length) = tail at hload htl
  -- the writer
  have hgs : Groups cap (a ++ [[] ++ [wire p]]) := Groups.mk' hfull hc0 ((Group.nil cap).concat (by simpa using hc0) (wire_ne hp)) (by simp)
  obtain ⟨w0, gs0, e0, i0, f0⟩ := runOps_inv (S := S) hc0 chk ((ps.take (j * cap) ++ [p]).map Op.insert) (ps := []) (empty_inv cap) rfl
    (by rw [log_inserts]; intro q hq
        rcases List.mem_append.mp hq with hq | hq
        · exact (hok q (List.mem_of_mem_take hq)).ok
        · rw [List.mem_singleton.mp hq]; exact hp) (by rw [log_inserts]; exact hsp)
  rw [log_inserts, List.nil_append] at f0
  have hgu : gs0 = a ++ [[] ++ [wire p]] := groups_unique hc0 i0.groups hgs (by rw [f0, List.map_append, ← haf]; simp)
  have hsm' : (fileOf cap (a ++ [[] ++ [wire p]])).length < 2 ^ 63 := by
    rw [← hgu]
    exact small_file hc0 i0.groups f0 hsp
  have hloc : Locator.setup {} (a.map (table cap)) = ⟨a.length, (fileOf cap a).length⟩ := by
    have := walk_full a {} [] hfull
    rw [List.append_nil] at this
    unfold Locator.setup
    rw [this]
    simp [Locator.walk]
  have hopen : openWriter chk (fileOf cap a ++ tail) = some (.ok ⟨a.map (table cap), fileOf cap a ++ tail, ⟨a.length, (fileOf cap a).length⟩⟩) := by
    unfold openWriter Writer.open_
    rw [hload]
    simp only [Option.map_some, Out.map_ok]
    rw [anchor_inner, hloc]
  have hdef : a.map (table cap) ++ [Slot.default cap] = (a ++ [[]]).map (table cap) := by rw [default_eq]; simp
  have hplace : Writer.place cap ⟨a.map (table cap), fileOf cap a ++ tail, ⟨a.length, (fileOf cap a).length⟩⟩ =
      (some (spot cap a []), ⟨(a ++ [[]]).map (table cap), fileOf cap a ++ tail, ⟨a.length, (fileOf cap a).length⟩⟩) := by
    have hst : Locator.step ⟨a.length, (fileOf cap a).length⟩ (a.map (table cap)) = (none, ⟨a.length, (fileOf cap a).length⟩) := by
      unfold Locator.step
      simp
    unfold Writer.place
    simp only
    rw [hst]
    simp only
    rw [hdef, step_ready (Group.nil cap) (by simpa using hc0)]
  have hget : ((a ++ [[]]).map (table cap))[a.length]? = some (table cap []) := by simp
  have hwf : (table cap ([] ++ [wire p])).WF := table_wf_of_file hsm' (by simp) (by simp; omega)
  have hel : (table cap ([] ++ [wire p])).enc.length = 20 + 8 * cap := table_enc_length (by simp; omega)
  refine ⟨_, ⟨((a ++ [[]]).map (table cap)).set a.length (table cap ([] ++ [wire p])), fileOf cap (a ++ [[] ++ [wire p]]), ⟨a.length, (fileOf cap a).length⟩⟩, hopen, ?_,
    ⟨w0, e0, by rw [i0.data, hgu]⟩⟩
  unfold Writer.insert
  rw [hplace]
  simp only
  rw [serialize_wire hp]
  simp only
  rw [hget]
  simp only
  rw [table_insert (Group.nil cap) (by simpa using hc0)]
  simp only
  rw [hwf.bytes]
  simp only
  have e1 : overwrite (fileOf cap a ++ tail) (fileOf cap a).length (table cap ([] ++ [wire p])).enc = fileOf cap a ++ (table cap ([] ++ [wire p])).enc := by
    rw [drop_overwrite, List.drop_eq_nil_of_le (by omega), List.append_nil]
  have e2 : spot cap a [] = (fileOf cap a ++ (table cap ([] ++ [wire p])).enc).length := by
    rw [List.length_append, hel]; simp [spot]
  have e3 := drop_overwrite (f := fileOf cap a ++ (table cap ([] ++ [wire p])).enc) (b := wire p) (r := [])
  rw [List.append_nil, List.drop_nil, List.append_nil] at e3
  rw [e1, e2, e3]
  congr 2
  rw [fileOf_append, fileOf_cons, fileOf_nil, region]
  simp

/-! ## Looking for packets in what is left -/

/-- A slot up to its packet `r`, as a stream. -/
theorem stream_items_take {cap : Nat} {P : List (Packet O Q)} (hP : P ≠ []) (r : Nat) (t : Bytes) :
    stream ((items cap P).take (r + 1)) t = (table cap (P.map wire)).enc ++ (((P.take (r + 1)).map wire).flatten ++ t) := by
  cases P with
  | nil => exact absurd rfl hP
  | cons p ps =>
    rw [items, List.take_succ_cons, List.take_succ_cons, stream, ← List.map_take, stream_plain, List.map_cons, List.map_cons, List.flatten_cons, List.append_assoc]

theorem stream_slots {cap : Nat} (t : Bytes) : ∀ {pss : List (List (Packet O Q))}, (∀ ps ∈ pss, ps ≠ []) →
    stream (pss.flatMap (items cap)) t = fileOf cap (pss.map (·.map wire)) ++ t
  | [], _ => rfl
  | ps :: pss, h => by
    rw [List.flatMap_cons, stream_append, stream_items (h ps (by simp)), stream_slots t (fun x hx => h x (by simp [hx])), List.map_cons, fileOf_cons, List.append_assoc]

/-- The beginning of the file up to the end of packet `i`, as a stream. -/
theorem scan_items {cap : Nat} (hc : 0 < cap) {gs : List (List Bytes)} (hg : Groups cap gs) {pss : List (List (Packet O Q))} (hgs : pss.map (·.map wire) = gs)
    (hne : ∀ ps ∈ pss, ps ≠ []) {ps : List (Packet O Q)} (hps : pss.flatten = ps) {i : Nat} (hi : i < ps.length) :
    ∃ is, is <+: pss.flatMap (items cap) ∧ is.map Prod.snd = ps.take (i + 1) ∧
      (∀ t, stream is t = (fileOf cap gs).take (endOf cap ps i) ++ t) ∧ endOf cap ps i ≤ (fileOf cap gs).length := by
  have f : gs.flatten = ps.map wire := by rw [← hgs, ← hps, List.map_flatten]
  have hj : i / cap * cap < ps.length := Nat.lt_of_le_of_lt (Nat.div_mul_le_self ..) hi
  obtain ⟨a, g, b, e, hfull, hgg, hgne, haf, hal, _⟩ := slot_split hc hg f hj
  rw [e] at hgs
  obtain ⟨A, PB, rfl, hA, hPB⟩ := List.map_eq_append_iff.mp hgs
  obtain ⟨P, B, rfl, hP, hB⟩ := List.map_eq_cons_iff.mp hPB
  have hPne := hne P (by simp)
  have hl : A.flatten.length = i / cap * cap := by
    have := congrArg List.length haf
    rw [← hA, ← List.map_flatten, List.length_map, List.length_map, List.length_take] at this
    omega
  have hcat : ps = A.flatten ++ (P ++ B.flatten) := by rw [← hps, List.flatten_append, List.flatten_cons]
  have hdm := Nat.div_add_mod' i cap
  have hr : i % cap < P.length := by
    by_cases hb : B = []
    · subst hb
      rw [hcat, List.flatten_nil, List.append_nil, List.length_append] at hi
      omega
    · have : g.length = cap := by
        refine hg.full g ?_
        rw [e, List.dropLast_append_of_ne_nil (by simp), List.dropLast_cons_of_ne_nil (by rw [← hB]; simpa using hb)]
        simp
      rw [← hP, List.length_map] at this
      rw [this]
      exact Nat.mod_lt _ hc
  have htk : ps.take (i + 1) = A.flatten ++ P.take (i % cap + 1) := by
    rw [hcat, show i + 1 = A.flatten.length + (i % cap + 1) by omega, List.take_length_add_append, List.take_append_of_le_length (by omega)]
  have hsp : g.flatten = ((P.take (i % cap + 1)).map wire).flatten ++ ((P.drop (i % cap + 1)).map wire).flatten := by
    rw [← hP, ← List.flatten_append, ← List.map_append, List.take_append_drop]
  have hlen : (fileOf cap a ++ ((table cap g).enc ++ ((P.take (i % cap + 1)).map wire).flatten)).length = endOf cap ps i := by
    rw [List.length_append, hal, List.length_append, table_enc_length hgg.le, wire_lengths, endOf, htk, slotAt, Nat.add_mul, List.map_append, List.sum_append, ← hl,
      show ps.take A.flatten.length = A.flatten by rw [hcat, List.take_left]]
    omega
  have hfile : fileOf cap (a ++ g :: b) = (fileOf cap a ++ ((table cap g).enc ++ ((P.take (i % cap + 1)).map wire).flatten)) ++
      (((P.drop (i % cap + 1)).map wire).flatten ++ fileOf cap b) := by
    rw [fileOf_append, fileOf_cons, region, hsp]
    simp
  refine ⟨A.flatMap (items cap) ++ (items cap P).take (i % cap + 1), ?_, ?_, fun t => ?_, ?_⟩
  · rw [List.flatMap_append, List.flatMap_cons]
    exact (List.prefix_append_right_inj _).mpr ((List.take_prefix ..).trans (List.prefix_append ..))
  · rw [List.map_append, List.map_take, items_snd, htk, List.map_flatMap, List.flatten_eq_flatMap]
    congr 2
    funext ps
    exact items_snd cap ps
  · rw [stream_append, stream_items_take hPne, stream_slots _ (fun x hx => hne x (List.mem_append_left _ hx)), hA, hP, e, hfile, List.take_left' hlen]
    simp
  · rw [e, hfile, List.length_append, hlen]
    omega

/-- **C102, scanning (partial).** All packets that lie wholly in what is left can be found by `PacketBufReader`: on any bytes `d` that begin like a storage file up to the end of packet `i`,
its first results are what the rules say about packets 0 to `i`. The conditions are those of `C38_scan_partial`. -/
theorem C102_scan_partial {cap : Nat} (hc : 0 < cap) {chk : Bool} {ops : List (Op O Q)} {data : Bytes} {s : Storage} (h : Reached cap chk ops data s)
    (hok : ∀ p ∈ log ops, Storable S p) (hblk : ∀ p ∈ log ops, p.blocks.length ≤ 255) (hs : Small cap (log ops)) (h56 : data.length < 2 ^ 56)
    (hb : ∀ k p, (log ops)[k * cap]? = some p → ∀ h, p.header = .ok h → 8 ≤ h.size)
    (hcrc : ∀ k, k * cap < (log ops).length → slotCrc cap k (log ops) ≠ PACKET_SIG.take 4)
    {i : Nat} (hi : i < (log ops).length) {d : Bytes} (hd : data.take (endOf cap (log ops) i) <+: d)
    (rules : Rules O.BR (Packet O Q)) (chk' : Bool) {cs : Chunks} (hcut : Cuts cs d) (hl : ∀ c ∈ cs.dropLast, 29 ≤ c.length) :
    ∃ n, loud (reads rules chk' n (.new (cs.map some))).1 = ((log ops).take (i + 1)).map (fun p => .ok (verdict S rules p)) := by
  obtain ⟨gs, v, rfl, f, _⟩ := h.view hc (fun p hp => (hok p hp).ok) hs
  obtain ⟨pss, hps, hgs, hne, _, hgood⟩ := file_items v.groups f hok hblk h56 hb hcrc
  obtain ⟨is, hpre, hsnd, hst, _⟩ := scan_items hc v.groups hgs hne hps hi
  obtain ⟨t, rfl⟩ := hd
  obtain ⟨n, _, _, h1, _⟩ := C103_litter is (fun x hx => hgood x (hpre.subset hx)) t rules chk' cs (by rw [hst]; exact hcut) hl
  exact ⟨n, by rw [h1, ← hsnd, List.map_map]; rfl⟩

/-- Every cut falls between the ends of two neighbouring packets: `C102_scan_cut_partial` speaks about all of them. -/
theorem C102_which {cap : Nat} (hc : 0 < cap) {chk : Bool} {ops : List (Op O Q)} {data : Bytes} {s : Storage} (h : Reached cap chk ops data s)
    (hok : ∀ p ∈ log ops, p.Ok S) (hs : Small cap (log ops)) {k : Nat} (hk : k < data.length) :
    ∃ i, i < (log ops).length ∧ (i = 0 ∨ endOf cap (log ops) (i - 1) ≤ k) ∧ k < endOf cap (log ops) i := by
  obtain ⟨j, hj, _, hlt⟩ := C102_cases (S := S) hc h hok hs hk
  generalize log ops = ps at *
  -- the last packet of the slot that is cut ends behind the cut
  have hm : ∃ i, i < ps.length ∧ k < endOf cap ps i := by
    refine ⟨min ((j + 1) * cap) ps.length - 1, by rw [Nat.add_mul]; omega, ?_⟩
    have hdiv : (min ((j + 1) * cap) ps.length - 1) / cap = j := by
      refine Nat.div_eq_of_lt_le ?_ ?_
      · rw [Nat.add_mul]; omega
      · rw [Nat.add_mul]; omega
    have htk : ps.take (min ((j + 1) * cap) ps.length - 1 + 1) = ps.take ((j + 1) * cap) := by
      rw [show min ((j + 1) * cap) ps.length - 1 + 1 = min ((j + 1) * cap) ps.length by rw [Nat.add_mul]; omega]
      rcases Nat.le_total ((j + 1) * cap) ps.length with h | h
      · rw [Nat.min_eq_left h]
      · rw [Nat.min_eq_right h, List.take_length, List.take_of_length_le h]
    rw [endOf, hdiv, htk]
    exact hlt
  obtain ⟨i, hi, hki⟩ := hm
  induction i with
  | zero => exact ⟨0, hi, .inl rfl, hki⟩
  | succ i ih =>
    rcases Nat.lt_or_ge k (endOf cap ps i) with h | h
    · exact ih (by omega) h
    · exact ⟨i + 1, hi, .inr h, hki⟩

/-- **C102, scanning a cut file (partial).** If the cut falls between the end of packet `i - 1` and the end of packet `i`, in the slot table or inside the packet, `PacketBufReader` gives
what the rules say about packets 0 to `i - 1`, and nothing else however often it is called. The conditions are those of `C38_scan_partial`. -/
theorem C102_scan_cut_partial {cap : Nat} (hc : 0 < cap) {chk : Bool} {ops : List (Op O Q)} {data : Bytes} {s : Storage} (h : Reached cap chk ops data s)
    (hok : ∀ p ∈ log ops, Storable S p) (hblk : ∀ p ∈ log ops, p.blocks.length ≤ 255) (hs : Small cap (log ops)) (h56 : data.length < 2 ^ 56)
    (hb : ∀ k p, (log ops)[k * cap]? = some p → ∀ h, p.header = .ok h → 8 ≤ h.size)
    (hcrc : ∀ k, k * cap < (log ops).length → slotCrc cap k (log ops) ≠ PACKET_SIG.take 4)
    {i k : Nat} (hi : i < (log ops).length) (h1 : i = 0 ∨ endOf cap (log ops) (i - 1) ≤ k) (h2 : k < endOf cap (log ops) i)
    (rules : Rules O.BR (Packet O Q)) (chk' : Bool) {cs : Chunks} (hcut : Cuts cs (data.take k)) (hl : ∀ c ∈ cs.dropLast, 29 ≤ c.length) :
    ∃ n, ∀ m, news (reads rules chk' (n + m) (.new (cs.map some))).1 = ((log ops).take i).map (fun p => .ok (verdict S rules p)) := by
  obtain ⟨gs, v, rfl, f, _⟩ := h.view hc (fun p hp => (hok p hp).ok) hs
  obtain ⟨pss, hps, hgs, hne, hsn, hgood⟩ := file_items v.groups f hok hblk h56 hb hcrc
  generalize log ops = ps at *
  -- the packets before the cut
  obtain ⟨is, e, hpre, hsnd, hst, he⟩ : ∃ is e, is <+: pss.flatMap (items cap) ∧ is.map Prod.snd = ps.take i ∧
      (∀ t, stream is t = (fileOf cap gs).take e ++ t) ∧ e ≤ k := by
    cases i with
    | zero => exact ⟨[], 0, List.nil_prefix, rfl, fun t => by simp [stream], Nat.zero_le _⟩
    | succ i =>
      obtain ⟨is, a, b, c, _⟩ := scan_items hc v.groups hgs hne hps (i := i) (by omega)
      refine ⟨is, _, a, b, c, ?_⟩
      rcases h1 with h1 | h1
      · omega
      · exact h1
  obtain ⟨is1, hpre1, hsnd1, hst1, hle⟩ := scan_items hc v.groups hgs hne hps hi
  -- and the one it goes through
  have hn : is.length = i := by
    have := congrArg List.length hsnd
    rw [List.length_map, List.length_take] at this
    omega
  have hn1 : is1.length = i + 1 := by
    have := congrArg List.length hsnd1
    rw [List.length_map, List.length_take] at this
    omega
  obtain ⟨x, hx⟩ : ∃ x, is1 = is ++ [x] := by
    have h := List.prefix_of_prefix_length_le hpre hpre1 (by omega)
    obtain ⟨t, rfl⟩ := h
    rw [List.length_append] at hn1
    match t, hn1 with
    | [x], _ => exact ⟨x, rfl⟩
    | [], h => simp at h; omega
    | _ :: _ :: _, h => simp at h; omega
  obtain ⟨l, p⟩ := x
  have hall : ∀ x ∈ is1, GoodItem S x := fun x hx => hgood x (hpre1.subset hx)
  have hX : (fileOf cap gs).take (endOf cap ps i) = (fileOf cap gs).take e ++ (l ++ wire p) := by
    have := hst1 []
    rw [hx, stream_append, hst] at this
    simpa [stream] using this.symm
  have hXl := congrArg List.length hX
  rw [List.length_take, List.length_append, List.length_take, Nat.min_eq_left hle] at hXl
  have hel : min e (fileOf cap gs).length = e := Nat.min_eq_left (by omega)
  rw [hel] at hXl
  have hd : (fileOf cap gs).take k = stream is ((l ++ wire p).take (k - e)) := by
    rw [hst, show (fileOf cap gs).take k = ((fileOf cap gs).take (endOf cap ps i)).take k by rw [List.take_take, Nat.min_eq_left (by omega)], hX,
      List.take_append, List.length_take, hel, List.take_take, Nat.min_eq_right he]
  rw [hd] at hcut
  obtain ⟨n, h⟩ := news_cut is (fun x h => hall x (by rw [hx]; exact List.mem_append_left _ h)) l p (hall _ (by rw [hx]; simp)) (k - e) (by omega) rules chk' cs hcut hl
  refine ⟨n, fun m => ?_⟩
  rw [h m, ← hsnd, List.map_map]
  rfl

/-- Three packets, to be put into slots of two. -/
def threeOps : List (Op (blockEnum sampleTypes) (PEnum.ops [])) := [samplePacket, samplePacket, samplePacket].map Op.insert

theorem threeOps_log : log threeOps = [samplePacket, samplePacket, samplePacket] := by rw [threeOps, log_inserts]

theorem threeOps_sample : ∀ p ∈ log threeOps, p = samplePacket := by
  intro p hp
  rw [threeOps_log] at hp
  simpa using hp

theorem threeOps_storable : ∀ p ∈ log threeOps, Storable sampleSpec p := fun p hp => by rw [threeOps_sample p hp]; exact sample_storable

theorem threeOps_small : Small 2 (log threeOps) := by
  rw [threeOps_log]
  simp only [Small, List.map_cons, List.map_nil, wire_sample_length]
  decide

theorem threeOps_length {chk : Bool} {data : Bytes} {s : Storage} (hr : Reached 2 chk threeOps data s) : data.length = 447 := by
  obtain ⟨gs, v, rfl, f, _⟩ := hr.view (S := sampleSpec) (by decide) (fun p hp => (threeOps_storable p hp).ok) threeOps_small
  have hg : gs = [[wire samplePacket, wire samplePacket], [wire samplePacket]] := by
    refine groups_unique (cap := 2) (by decide) v.groups ?_ (by rw [f, threeOps_log]; rfl)
    have hne := wire_ne samplePacket_ok
    refine ⟨?_, by simp, by simp⟩
    intro g hg
    simp only [List.mem_cons, List.not_mem_nil, or_false] at hg
    rcases hg with rfl | rfl <;> exact ⟨by simpa using hne, by simp⟩
  rw [hg]
  simp only [fileOf_cons, fileOf_nil, List.length_append, region_length (cap := 2) (g := [wire samplePacket, wire samplePacket]) (by simp),
    region_length (cap := 2) (g := [wire samplePacket]) (by simp), List.flatten_cons, List.flatten_nil, wire_sample_length, List.length_nil]

theorem threeOps_body : ∀ k p, (log threeOps)[k * 2]? = some p → ∀ h, p.header = .ok h → 8 ≤ h.size := by
  intro k p hk h hh
  rw [threeOps_sample p (List.mem_of_getElem? hk)] at hh
  exact body_of_blocks (by decide) h hh

theorem threeOps_crc : ∀ k, k * 2 < (log threeOps).length → slotCrc 2 k (log threeOps) ≠ PACKET_SIG.take 4 := by
  rw [threeOps_log]
  intro k hk
  have hk : k < 2 := by have : k * 2 < 3 := hk; omega
  have : slotCrc 2 0 [samplePacket, samplePacket, samplePacket] = Slot.crcOf 2 [125, 125] ∧ slotCrc 2 1 [samplePacket, samplePacket, samplePacket] = Slot.crcOf 2 [125, 0] := by
    simp [slotCrc, wire_sample_length]
  match k, hk with
  | 0, _ => rw [this.1]; decide +kernel
  | 1, _ => rw [this.2]; decide +kernel

theorem threeOps_cuts {chk : Bool} {data : Bytes} {s : Storage} (hr : Reached 2 chk threeOps data s) : Cuts [data.take 300] (data.take 300) := ⟨by simp, by
  intro c hc
  rw [List.mem_singleton.mp hc]
  have : (data.take 300).length = 300 := by rw [List.length_take, threeOps_length hr]; rfl
  exact ⟨by intro h; rw [h] at this; simp at this, by rw [this]; decide⟩⟩

/-- Three packets in slots of two, of which the first 300 bytes are left: the two packets of the first slot are found, and nothing else is ever
reported. -/
example (chk chk' : Bool) : ∃ data s n, Reached 2 chk threeOps data s ∧
    loud (reads ([] : Rules _ (Packet (blockEnum sampleTypes) (PEnum.ops []))) chk' n (.new [some (data.take 300)])).1 = [.ok (.found samplePacket), .ok (.found samplePacket)] ∧
    ∃ n, ∀ m, news (reads ([] : Rules _ (Packet (blockEnum sampleTypes) (PEnum.ops []))) chk' (n + m) (.new [some (data.take 300)])).1 =
      [.ok (.found samplePacket), .ok (.found samplePacket)] := by
  obtain ⟨data, s, hr⟩ := Reached.exists (S := sampleSpec) (cap := 2) (by decide) chk _ threeOps_storable threeOps_small
  obtain ⟨n, h⟩ := C102_scan_partial (S := sampleSpec) (cap := 2) (by decide) hr threeOps_storable (fun p hp => by rw [threeOps_sample p hp]; decide) threeOps_small
    (by rw [threeOps_length hr]; decide) threeOps_body threeOps_crc
    (i := 1) (by rw [threeOps_log]; decide) (d := data.take 300) (List.take_prefix_take_left (by rw [threeOps_log]; simp [endOf, wire_sample_length]))
    [] chk' (threeOps_cuts hr) (by simp)
  obtain ⟨n', h'⟩ := C102_scan_cut_partial (S := sampleSpec) (cap := 2) (by decide) hr threeOps_storable (fun p hp => by rw [threeOps_sample p hp]; decide) threeOps_small
    (by rw [threeOps_length hr]; decide) threeOps_body threeOps_crc
    (i := 2) (k := 300) (by rw [threeOps_log]; decide) (.inr (by rw [threeOps_log]; simp [endOf, wire_sample_length])) (by rw [threeOps_log]; simp [endOf, wire_sample_length])
    [] chk' (threeOps_cuts hr) (by simp)
  refine ⟨data, s, n, hr, ?_, n', fun m => ?_⟩
  · rw [threeOps_log] at h
    exact h
  · have := h' m
    rw [threeOps_log] at this
    exact this

/-- **C102 is false** in both builds: two packets, and a file that has lost its last byte. The first packet is whole and nobody can read it. -/
theorem C102_not (chk : Bool) : ¬ C102_full (PEnum.ops []) sampleSpec SLOT_CAPACITY chk := by
  intro hf
  obtain ⟨data, s, hr⟩ := Reached.exists (S := sampleSpec) (cap := SLOT_CAPACITY) (by decide) chk twoPackets twoPackets_storable twoPackets_small
  obtain ⟨s', e, _⟩ := hf twoPackets data s (data.length - 1) hr twoPackets_storable twoPackets_small
  have := (C102_last_byte (S := sampleSpec) (cap := SLOT_CAPACITY) (by decide) hr (fun p hp => (twoPackets_storable p hp).ok) twoPackets_small (by
    rw [twoPackets_log]; simp)).1
  rw [List.dropLast_eq_take, e] at this
  cases chk <;> cases this

/-- 501 packets in two slots, and a cut ten bytes into the second: the 500 packets of the first slot are shown, and a packet can be put behind them. -/
example : ∃ data s, Reached SLOT_CAPACITY true twoSlots data s ∧
    Presents sampleSpec SLOT_CAPACITY true (data.take (slotAt SLOT_CAPACITY (log twoSlots) 1 + 10)) (List.replicate 500 samplePacket) ∧
    ∃ w w', openWriter true (data.take (slotAt SLOT_CAPACITY (log twoSlots) 1 + 10)) = some (.ok w) ∧ w.insert SLOT_CAPACITY otherPacket none = (.ok (), w') ∧
      w'.data = data := by
  obtain ⟨data, s, hr⟩ := Reached.exists (S := sampleSpec) (cap := SLOT_CAPACITY) (by decide) true twoSlots twoSlots_storable twoSlots_small
  have hlen : (log twoSlots).length = 501 := by rw [twoSlots_log, List.length_append, List.length_replicate]; rfl
  have htk : (log twoSlots).take (1 * SLOT_CAPACITY) = List.replicate 500 samplePacket := by
    rw [twoSlots_log, List.take_left' (by rw [List.length_replicate]; rfl)]
  refine ⟨data, s, hr, ?_, ?_⟩
  · rw [← htk]
    exact C102_opens_partial (by decide) hr twoSlots_storable twoSlots_small (by rw [hlen]; decide) (by omega) (.inl (by omega))
  · have hlog : (log twoSlots).take (1 * SLOT_CAPACITY) ++ [otherPacket] = log twoSlots := by rw [htk, twoSlots_log]
    obtain ⟨w, w', e1, e2, w0, e3, e4⟩ := C102_insert (p := otherPacket) (j := 1) (k := slotAt SLOT_CAPACITY (log twoSlots) 1 + 10) (by decide) hr twoSlots_storable
      twoSlots_small (by rw [hlen]; decide) (by omega) (.inl (by omega)) otherPacket_ok (by rw [hlog]; exact twoSlots_small)
    refine ⟨w, w', e1, e2, ?_⟩
    obtain ⟨w1, e5, rfl⟩ := hr.run
    rw [hlog, twoSlots_log] at e3
    unfold twoSlots at e5
    rw [e3] at e5
    have := Option.some.inj e5
    rw [← this, e4]

end Brec.Props
