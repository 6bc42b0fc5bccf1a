import Verif.SlotLemmas
import Verif.Storage
/-!
# Lemmas about the storage: the file as groups of packets
-/

namespace Brec

/-! ## Tables -/

/-- Lengths of the packets of a group, filled up to the capacity. -/
def lens (cap : Nat) (g : List Bytes) : List Nat := g.map List.length ++ List.replicate (cap - g.length) 0

/-- The slot table of a group. -/
def table (cap : Nat) (g : List Bytes) : Slot := ⟨lens cap g, cap, Slot.crcOf cap (lens cap g)⟩

/-- A slot in the file: its table and its packets. -/
def region (cap : Nat) (g : List Bytes) : Bytes := (table cap g).enc ++ g.flatten

/-- The file of a list of groups. -/
def fileOf (cap : Nat) (gs : List (List Bytes)) : Bytes := gs.flatMap (region cap)

/-- A group that fits: no empty packet, at most `cap` packets. -/
structure Group (cap : Nat) (g : List Bytes) : Prop where
  pos : ∀ w ∈ g, w ≠ []
  le : g.length ≤ cap

/-- All groups are full except possibly the last, which is not empty. -/
structure Groups (cap : Nat) (gs : List (List Bytes)) : Prop where
  group : ∀ g ∈ gs, Group cap g
  ne : ∀ g ∈ gs, g ≠ []
  full : ∀ g ∈ gs.dropLast, g.length = cap

theorem lens_len {cap : Nat} {g : List Bytes} (h : g.length ≤ cap) : (lens cap g).length = cap := by
  simp [lens]; omega

theorem sum_lens_take {cap : Nat} {g : List Bytes} {k : Nat} (hk : k ≤ g.length) :
    ((lens cap g).take k).sum = ((g.take k).flatten).length := by
  rw [lens, List.take_append_of_le_length (by simpa using hk), ← List.map_take, List.length_flatten]

theorem sum_lens {cap : Nat} {g : List Bytes} : (lens cap g).sum = g.flatten.length := by
  rw [lens, List.sum_append_nat, List.length_flatten]
  simp

@[simp] theorem table_capacity (cap : Nat) (g : List Bytes) : (table cap g).capacity = cap := rfl

theorem table_size (cap : Nat) (g : List Bytes) : (table cap g).size = 20 + 8 * cap := by
  simp only [Slot.size, table_capacity, SLOT_HSIZE]; omega

theorem table_wf {cap : Nat} {g : List Bytes} (hc : cap * 8 < 2 ^ 63) (h : g.length ≤ cap) (hl : ∀ w ∈ g, w.length < 2 ^ 64) :
    (table cap g).WF where
  len := lens_len h
  small := by
    intro l hl'
    simp only [table, lens, List.mem_append, List.mem_map, List.mem_replicate] at hl'
    rcases hl' with ⟨w, hw, rfl⟩ | ⟨_, rfl⟩
    · exact hl w hw
    · decide
  cap := hc
  crc := rfl

theorem table_freePos {cap : Nat} {g : List Bytes} (h : Group cap g) :
    (table cap g).freePos = if g.length < cap then some g.length else none := by
  unfold Slot.freePos
  show (lens cap g).findIdx? (· == 0) = _
  rw [lens, List.findIdx?_append]
  have h1 : (g.map List.length).findIdx? (· == 0) = none := by
    rw [List.findIdx?_eq_none_iff]
    intro x hx
    obtain ⟨w, hw, rfl⟩ := List.mem_map.mp hx
    have := h.pos w hw
    simpa using this
  rw [h1]
  by_cases hlt : g.length < cap
  · obtain ⟨m, hm⟩ : ∃ m, cap - g.length = m + 1 := ⟨cap - g.length - 1, by omega⟩
    rw [hm, if_pos hlt]
    simp [List.replicate_succ, List.findIdx?_cons]
  · rw [if_neg hlt, show cap - g.length = 0 by omega]
    simp

theorem table_isFull {cap : Nat} {g : List Bytes} (h : Group cap g) :
    (table cap g).isFull = (decide (g.length = cap) && decide (0 < cap)) := by
  unfold Slot.isFull
  show (match (lens cap g).getLast? with | some ln => decide (ln > 0) | none => false) = _
  have hle := h.le
  by_cases hlt : g.length < cap
  · obtain ⟨m, hm⟩ : ∃ m, cap - g.length = m + 1 := ⟨cap - g.length - 1, by omega⟩
    rw [lens, hm, List.replicate_succ', ← List.append_assoc, List.getLast?_concat]
    simp only [gt_iff_lt, Nat.lt_irrefl, decide_false]
    rw [decide_eq_false (show ¬ g.length = cap by omega)]; rfl
  · rw [lens, show cap - g.length = 0 by omega]
    simp only [List.replicate_zero, List.append_nil]
    rcases List.eq_nil_or_concat g with rfl | ⟨g', w, rfl⟩
    · simp only [List.length_nil] at *
      have : cap = 0 := by omega
      subst this
      rfl
    · have hw := h.pos w (by simp)
      have : 0 < w.length := List.length_pos_iff.mpr hw
      simp only [List.concat_eq_append, List.length_append, List.length_cons, List.length_nil] at hlt hle
      simp only [List.concat_eq_append, List.map_append, List.map_cons, List.map_nil, List.getLast?_concat, List.length_append,
        List.length_cons, List.length_nil]
      rw [decide_eq_true this, decide_eq_true (show g'.length + (0 + 1) = cap by omega), decide_eq_true (show 0 < cap by omega)]
      rfl

theorem table_width {cap : Nat} {g : List Bytes} (h : Group cap g) : (table cap g).width = g.flatten.length := by
  unfold Slot.width
  split
  · exact sum_lens
  · rw [table_freePos h]
    by_cases hlt : g.length < cap
    · rw [if_pos hlt]
      simp only
      show ((lens cap g).take g.length).sum = _
      rw [sum_lens_take (Nat.le_refl _), List.take_length]
    · rw [if_neg hlt]
      exact sum_lens

theorem table_freeIndex {cap : Nat} {g : List Bytes} (h : Group cap g) :
    (table cap g).freeIndex = if g.length < cap then some g.length else none := by
  unfold Slot.freeIndex
  rw [table_isFull h, table_freePos h]
  by_cases hlt : g.length < cap
  · rw [if_pos hlt, decide_eq_false (show ¬ g.length = cap by omega)]; rfl
  · rw [if_neg hlt]; split <;> rfl

theorem table_freeOffset {cap : Nat} {g : List Bytes} (h : Group cap g) :
    (table cap g).freeOffset = if g.length < cap then some (g.flatten.length + (20 + 8 * cap)) else none := by
  unfold Slot.freeOffset
  rw [table_isFull h, table_freePos h, table_size]
  by_cases hlt : g.length < cap
  · rw [if_pos hlt, if_pos hlt, decide_eq_false (show ¬ g.length = cap by omega)]
    simp only [Bool.false_and, Bool.false_eq_true, if_false, Option.map_some]
    congr 2
    show ((lens cap g).take g.length).sum = _
    rw [sum_lens_take (Nat.le_refl _), List.take_length]
  · rw [if_neg hlt, if_neg hlt]; split <;> rfl

theorem table_insert {cap : Nat} {g : List Bytes} (h : Group cap g) (hlt : g.length < cap) (w : Bytes) :
    (table cap g).insert w.length = .ok (table cap (g ++ [w])) := by
  unfold Slot.insert
  rw [table_freePos h, if_pos hlt]
  simp only
  have : (table cap g).lengths.set g.length w.length = lens cap (g ++ [w]) := by
    show (lens cap g).set g.length w.length = _
    obtain ⟨m, hm⟩ : ∃ m, cap - g.length = m + 1 := ⟨cap - g.length - 1, by omega⟩
    have hm' : cap - (g ++ [w]).length = m := by simp; omega
    rw [lens, lens, hm, hm', List.replicate_succ]
    rw [List.set_append_right _ _ (by simp)]
    simp
  rw [this]
  rfl

theorem default_eq (cap : Nat) : Slot.default cap = table cap [] := by simp [Slot.default, table, lens]

theorem table_isEmpty {cap : Nat} {g : List Bytes} (h : Group cap g) {i : Nat} (hi : i < cap) :
    (table cap g).isEmpty i = .ok (decide (g.length ≤ i)) := by
  unfold Slot.isEmpty
  show (match (lens cap g)[i]? with | some ln => Out.ok (ln == 0) | none => _) = _
  by_cases hg : i < g.length
  · have : (lens cap g)[i]? = some (g[i]).length := by
      rw [lens, List.getElem?_append_left (by simpa using hg)]
      simp [hg]
    rw [this]
    have hw := h.pos g[i] (List.getElem_mem hg)
    have : (g[i]).length ≠ 0 := by simpa using hw
    simp only
    rw [beq_eq_false_iff_ne.mpr this, decide_eq_false (by omega)]
  · have : (lens cap g)[i]? = some 0 := by
      rw [lens, List.getElem?_append_right (by simpa using hg)]
      simp only [List.length_map]
      rw [List.getElem?_replicate, if_pos (by omega)]
    rw [this]
    simp; omega

theorem table_slotOffset {cap : Nat} {g : List Bytes} (hle : g.length ≤ cap) {i : Nat} (hi : i < cap) (hg : i ≤ g.length) :
    (table cap g).slotOffset i = some ((g.take i).flatten.length + (20 + 8 * cap)) := by
  unfold Slot.slotOffset
  rw [if_neg (by show ¬ i ≥ (lens cap g).length; rw [lens_len hle]; omega), table_size]
  congr 2
  exact sum_lens_take hg

theorem table_isUsed {cap : Nat} {g : List Bytes} (h : Group cap g) (i : Nat) : (table cap g).isUsed i = decide (i < g.length) := by
  unfold Slot.isUsed
  show (match (lens cap g)[i]? with | some ln => decide (0 < ln) | none => false) = _
  by_cases hg : i < g.length
  · have : (lens cap g)[i]? = some (g[i]).length := by
      rw [lens, List.getElem?_append_left (by simpa using hg)]
      simp [hg]
    rw [this]
    have hw := h.pos g[i] (List.getElem_mem hg)
    have : 0 < (g[i]).length := List.length_pos_iff.mpr hw
    simp only
    rw [decide_eq_true this, decide_eq_true hg]
  · rw [decide_eq_false hg]
    rw [lens, List.getElem?_append_right (by simpa using hg), List.getElem?_replicate]
    split
    · rename_i h1
      split at h1
      · injection h1 with h1; subst h1; rfl
      · cases h1
    · rfl

theorem table_count {cap : Nat} {g : List Bytes} (h : Group cap g) : (table cap g).count = g.length := by
  unfold Slot.count
  show ((lens cap g).filter (0 < ·)).length = _
  rw [lens, List.filter_append]
  have h1 : (g.map List.length).filter (0 < ·) = g.map List.length := by
    rw [List.filter_eq_self]
    intro x hx
    obtain ⟨w, hw, rfl⟩ := List.mem_map.mp hx
    have := List.length_pos_iff.mpr (h.pos w hw)
    simpa using this
  have h2 : (List.replicate (cap - g.length) 0).filter (fun x : Nat => decide (0 < x)) = [] := by
    rw [List.filter_eq_nil_iff]
    intro x hx
    rw [List.mem_replicate] at hx
    simp [hx.2]
  rw [h1, h2]
  simp

theorem table_offsetOf {cap : Nat} {g : List Bytes} (h : Group cap g) {i : Nat} (hi : i < g.length) :
    (table cap g).offsetOf i = some (g.take i).flatten.length := by
  unfold Slot.offsetOf
  by_cases h0 : i = 0
  · subst h0; simp
  · rw [if_neg h0]
    have : (table cap g).lengths.length = cap := lens_len h.le
    have hle := h.le
    rw [if_neg (by rw [this, table_isUsed h, decide_eq_true hi]; simp; omega)]
    congr 1
    exact sum_lens_take (Nat.le_of_lt hi)

theorem region_length {cap : Nat} {g : List Bytes} (h : g.length ≤ cap) : (region cap g).length = 20 + 8 * cap + g.flatten.length := by
  rw [region, List.length_append]
  have : (table cap g).enc.length = 20 + 8 * cap := by
    simp only [Slot.enc, List.length_append, leBytes_length, Slot.lens_length, table, lens_len h, Slot.crcOf, crcBytes_length,
      SLOT_SIG, List.length_cons, List.length_nil]
    omega
  rw [this]

/-! ## Groups -/

theorem fileOf_append (cap : Nat) (a b : List (List Bytes)) : fileOf cap (a ++ b) = fileOf cap a ++ fileOf cap b := by
  simp [fileOf]

@[simp] theorem fileOf_nil (cap : Nat) : fileOf cap [] = [] := rfl

theorem fileOf_cons (cap : Nat) (g : List Bytes) (gs : List (List Bytes)) : fileOf cap (g :: gs) = region cap g ++ fileOf cap gs := by
  simp [fileOf]

theorem Group.nil (cap : Nat) : Group cap [] := ⟨by simp, by simp⟩

theorem Group.concat {cap : Nat} {g : List Bytes} (h : Group cap g) (hlt : g.length < cap) {w : Bytes} (hw : w ≠ []) : Group cap (g ++ [w]) where
  pos := by
    intro x hx
    rcases List.mem_append.mp hx with hx | hx
    · exact h.pos x hx
    · simp only [List.mem_singleton] at hx; subst hx; exact hw
  le := by simp; omega

theorem Groups.nil (cap : Nat) : Groups cap [] := ⟨by simp, by simp, by simp⟩

theorem Groups.tail {cap : Nat} {g : List Bytes} {gs : List (List Bytes)} (h : Groups cap (g :: gs)) : Groups cap gs where
  group := fun x hx => h.group x (by simp [hx])
  ne := fun x hx => h.ne x (by simp [hx])
  full := by
    intro x hx
    cases gs with
    | nil => simp at hx
    | cons a l => exact h.full x (by simp only [List.dropLast_cons_cons]; exact List.mem_cons_of_mem _ hx)

theorem Groups.head_full {cap : Nat} {g : List Bytes} {gs : List (List Bytes)} (h : Groups cap (g :: gs)) (hne : gs ≠ []) : g.length = cap := by
  refine h.full g ?_
  cases gs with
  | nil => exact absurd rfl hne
  | cons a l => simp

/-- Full groups followed by one more. -/
theorem Groups.mk' {cap : Nat} {init : List (List Bytes)} {g : List Bytes} (hi : ∀ x ∈ init, Group cap x ∧ x.length = cap) (hc : 0 < cap)
    (hg : Group cap g) (hne : g ≠ []) : Groups cap (init ++ [g]) where
  group := by
    intro x hx
    rcases List.mem_append.mp hx with hx | hx
    · exact (hi x hx).1
    · simp only [List.mem_singleton] at hx; subst hx; exact hg
  ne := by
    intro x hx
    rcases List.mem_append.mp hx with hx | hx
    · have := (hi x hx).2
      intro h0; subst h0; simp at this; omega
    · simp only [List.mem_singleton] at hx; subst hx; exact hne
  full := by
    intro x hx
    rw [List.dropLast_concat] at hx
    exact (hi x hx).2

theorem Groups.split {cap : Nat} {init : List (List Bytes)} {g : List Bytes} (h : Groups cap (init ++ [g])) :
    (∀ x ∈ init, Group cap x ∧ x.length = cap) ∧ Group cap g ∧ g ≠ [] := by
  refine ⟨fun x hx => ⟨h.group x (by simp [hx]), h.full x (by rw [List.dropLast_concat]; exact hx)⟩, h.group g (by simp), h.ne g (by simp)⟩

/-- All groups full. -/
def AllFull (cap : Nat) (gs : List (List Bytes)) : Prop := ∀ x ∈ gs, Group cap x ∧ x.length = cap

theorem AllFull.groups {cap : Nat} {gs : List (List Bytes)} (h : AllFull cap gs) (hc : 0 < cap) : Groups cap gs where
  group := fun x hx => (h x hx).1
  ne := fun x hx h0 => by have := (h x hx).2; subst h0; simp at this; omega
  full := fun x hx => (h x (List.dropLast_subset _ hx)).2

/-- Packet `i` is packet `i % cap` of group `i / cap`. -/
theorem Groups.get {cap : Nat} (hc : 0 < cap) : ∀ {gs : List (List Bytes)}, Groups cap gs → ∀ i,
    gs.flatten[i]? = (gs[i / cap]?).bind fun g => g[i % cap]?
  | [], _, i => by simp
  | g :: gs, h, i => by
    rw [List.flatten_cons]
    have hle := (h.group g (by simp)).le
    by_cases hi : i < g.length
    · rw [List.getElem?_append_left hi, Nat.div_eq_of_lt (by omega), Nat.mod_eq_of_lt (by omega)]
      rfl
    · rw [List.getElem?_append_right (by omega)]
      by_cases hne : gs = []
      · subst hne
        simp only [List.flatten_nil, List.getElem?_nil]
        by_cases hic : i < cap
        · rw [Nat.div_eq_of_lt hic, Nat.mod_eq_of_lt hic]
          simp only [List.getElem?_cons_zero, Option.bind_some]
          rw [List.getElem?_eq_none (by omega)]
        · have : 0 < i / cap := Nat.div_pos (by omega) hc
          obtain ⟨q, hq⟩ : ∃ q, i / cap = q + 1 := ⟨i / cap - 1, by omega⟩
          rw [hq]; simp
      · have hg := h.head_full hne
        rw [hg, Groups.get hc h.tail (i - cap)]
        obtain ⟨j, rfl⟩ : ∃ j, i = j + cap := ⟨i - cap, by omega⟩
        rw [Nat.add_sub_cancel, Nat.add_div_right _ hc, Nat.add_mod_right]
        rfl

theorem fileOf_mem_length {cap : Nat} {gs : List (List Bytes)} {g : List Bytes} (hg : g ∈ gs) : (region cap g).length ≤ (fileOf cap gs).length := by
  obtain ⟨a, b, rfl⟩ := List.append_of_mem hg
  rw [fileOf_append, fileOf_cons]
  simp only [List.length_append]; omega

theorem mem_flatten_length {g : List Bytes} {w : Bytes} (hw : w ∈ g) : w.length ≤ g.flatten.length := by
  obtain ⟨a, b, rfl⟩ := List.append_of_mem hw
  simp only [List.flatten_append, List.flatten_cons, List.length_append]; omega

/-- Table well-formedness from the length of the file. -/
theorem table_wf_of_file {cap : Nat} {gs : List (List Bytes)} {g : List Bytes} (hl : (fileOf cap gs).length < 2 ^ 63) (hg : g ∈ gs) (hle : g.length ≤ cap) :
    (table cap g).WF := by
  have h1 := fileOf_mem_length (cap := cap) hg
  rw [region_length hle] at h1
  refine table_wf (by omega) hle fun w hw => ?_
  have := mem_flatten_length hw
  omega

/-! ## Loading -/

/-- The slots of the groups, the first of them at `off`. -/
def anchor (cap : Nat) : Nat → List (List Bytes) → List Anchored
  | _, [] => []
  | off, g :: gs => ⟨table cap g, off⟩ :: anchor cap (off + (region cap g).length) gs

theorem anchor_append (cap : Nat) : ∀ (off : Nat) (a b : List (List Bytes)),
    anchor cap off (a ++ b) = anchor cap off a ++ anchor cap (off + (fileOf cap a).length) b
  | off, [], b => by simp [anchor]
  | off, g :: a, b => by
    simp only [List.cons_append, anchor, anchor_append cap _ a b, fileOf_cons, List.length_append]
    rw [Nat.add_assoc]

theorem anchor_inner (cap : Nat) : ∀ (off : Nat) (gs : List (List Bytes)), (anchor cap off gs).map (·.inner) = gs.map (table cap)
  | _, [] => rfl
  | off, g :: gs => by simp [anchor, anchor_inner cap _ gs]

theorem anchor_length (cap : Nat) (off : Nat) (gs : List (List Bytes)) : (anchor cap off gs).length = gs.length := by
  rw [← List.length_map (f := (·.inner)), anchor_inner, List.length_map]

/-- One slot of a load. -/
theorem tryRead_region {cap : Nat} {g : List Bytes} (w : (table cap g).WF) (chk : Bool) (pre t : Bytes) :
    (Slot.tryRead ⟨pre ++ (region cap g ++ t), pre.length, chk⟩).1 = .ok (.success (table cap g)) := by
  rw [Slot.tryRead_enc w (t := g.flatten ++ t) (by simp) (by simp [Cur.rest, region])]

/-- `load` passes over whole slots. -/
theorem loadLoop_skip {cap : Nat} (chk : Bool) (tail : Bytes) : ∀ (gs : List (List Bytes)) (pre : Bytes) (acc : List Anchored) (fuel : Nat),
    (∀ g ∈ gs, Group cap g) → (pre ++ fileOf cap gs).length < 2 ^ 63 →
    loadLoop chk (pre ++ (fileOf cap gs ++ tail)) (fuel + gs.length) pre.length acc =
      loadLoop chk (pre ++ (fileOf cap gs ++ tail)) fuel (pre.length + (fileOf cap gs).length) (acc ++ anchor cap pre.length gs)
  | [], pre, acc, fuel, _, _ => by simp [anchor]
  | g :: gs, pre, acc, fuel, hg, hl => by
    have hgg := hg g (by simp)
    have hgl := hgg.le
    rw [fileOf_cons, List.length_append, List.length_append] at hl
    have hw : (table cap g).WF := table_wf_of_file (gs := [g]) (by rw [fileOf_cons]; simp; omega) (by simp) hgl
    rw [fileOf_cons, List.append_assoc]
    rw [show fuel + (g :: gs).length = (fuel + gs.length) + 1 from rfl]
    rw [loadLoop.eq_def]
    simp only
    rw [tryRead_region hw]
    simp only
    have hr := region_length (cap := cap) hgl
    rw [u64_ok (by rw [table_size, table_width hgg]; omega)]
    simp only
    have ih := loadLoop_skip chk tail gs (pre ++ region cap g) (acc ++ [⟨table cap g, pre.length⟩]) fuel
      (fun x hx => hg x (by simp [hx])) (by simp only [List.length_append]; omega)
    rw [List.append_assoc] at ih
    rw [table_size, table_width hgg, show pre.length + (20 + 8 * cap) + g.flatten.length = (pre ++ region cap g).length by
      rw [List.length_append, hr]; omega, ih]
    simp only [List.length_append, anchor, List.append_assoc, List.singleton_append, Nat.add_assoc]

/-- Nothing behind the last slot. -/
theorem loadLoop_end (chk : Bool) (data : Bytes) (acc : List Anchored) (fuel : Nat) :
    loadLoop chk data (fuel + 1) data.length acc = some (.ok acc) := by
  have hrem : (⟨data, data.length, chk⟩ : Cur).remaining = .ok 0 := by simp [Cur.remaining]
  have : (Slot.tryRead ⟨data, data.length, chk⟩).1 = .ok (.notEnough 16) := by
    unfold Slot.tryRead
    rw [hrem]
    simp only
    unfold Slot.tryReadHeader
    rw [hrem]
    simp [SLOT_HSIZE]
  rw [loadLoop, this]

theorem load_file {cap : Nat} (chk : Bool) {gs : List (List Bytes)} (hg : ∀ g ∈ gs, Group cap g) (hl : (fileOf cap gs).length < 2 ^ 63)
    {fuel : Nat} (hf : gs.length < fuel) : loadLoop chk (fileOf cap gs) fuel 0 [] = some (.ok (anchor cap 0 gs)) := by
  obtain ⟨k, rfl⟩ : ∃ k, fuel = (k + 1) + gs.length := ⟨fuel - gs.length - 1, by omega⟩
  have := loadLoop_skip chk [] gs [] [] (k + 1) hg (by simpa using hl)
  simp only [List.nil_append, List.append_nil, List.length_nil] at this
  rw [this, Nat.zero_add, loadLoop_end]

/-! ## Locator -/

theorem walk_full {cap : Nat} : ∀ (gs : List (List Bytes)) (l : Locator) (rest : List Slot), AllFull cap gs →
    Locator.walk l (gs.map (table cap) ++ rest) = Locator.walk ⟨l.next + gs.length, l.slotOffset + (fileOf cap gs).length⟩ rest
  | [], l, rest, _ => by simp
  | g :: gs, l, rest, h => by
    obtain ⟨hg, hgl⟩ := h g (by simp)
    simp only [List.map_cons, List.cons_append, Locator.walk]
    rw [table_freeOffset hg, if_neg (show ¬ g.length < cap by omega)]
    simp only [Option.isSome_none, Bool.false_eq_true, if_false]
    rw [walk_full gs _ rest (fun x hx => h x (by simp [hx]))]
    congr 2
    · simp; omega
    · rw [fileOf_cons, List.length_append, region_length hg.le, table_size, table_width hg]; dsimp only; omega

/-- Where the locator stands after opening. -/
theorem setup_eq {cap : Nat} {init : List (List Bytes)} (hi : AllFull cap init) {g : List Bytes} (hg : Group cap g) (l : Locator) :
    Locator.setup l ((init ++ [g]).map (table cap)) =
      if g.length < cap then ⟨init.length, l.slotOffset + (fileOf cap init).length⟩
      else ⟨(init ++ [g]).length, l.slotOffset + (fileOf cap (init ++ [g])).length⟩ := by
  have hle := hg.le
  unfold Locator.setup
  rw [List.map_append, walk_full init _ _ hi]
  simp only [List.map_cons, List.map_nil, Locator.walk, table_freeOffset hg]
  by_cases hlt : g.length < cap
  · rw [if_pos hlt, if_pos hlt]
    simp
  · rw [if_neg hlt, if_neg hlt]
    simp only [Option.isSome_none, Bool.false_eq_true, if_false]
    rw [fileOf_append, fileOf_cons, fileOf_nil, List.append_nil, List.length_append, List.length_append, region_length hle, table_size,
      table_width hg]
    congr 1
    · simp
    · omega

theorem setup_nil (l : Locator) : Locator.setup l [] = ⟨0, l.slotOffset⟩ := rfl

end Brec
