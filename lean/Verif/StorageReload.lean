import Verif.StorageCrash
import Verif.StorageRead
/-!
# `reload` over the file of a log: lemmas for C37
-/

namespace Brec

/-! ## Groups of a longer log -/

theorem AllFull.append {cap : Nat} : ∀ {a b : List (List Bytes)}, 0 < cap → AllFull cap a → Groups cap b → Groups cap (a ++ b)
  | [], b, _, _, hb => by simpa using hb
  | g :: a, b, hc, ha, hb => by
    have ih := AllFull.append (a := a) hc (fun x hx => ha x (by simp [hx])) hb
    obtain ⟨h1, h2⟩ := ha g (by simp)
    constructor
    · intro x hx
      rw [List.cons_append] at hx
      rcases List.mem_cons.mp hx with rfl | hx
      · exact h1
      · exact ih.group x hx
    · intro x hx
      rw [List.cons_append] at hx
      rcases List.mem_cons.mp hx with rfl | hx
      · intro h; subst h; simp at h2; omega
      · exact ih.ne x hx
    · intro x hx
      rw [List.cons_append] at hx
      cases hab : a ++ b with
      | nil => rw [hab] at hx; simp at hx
      | cons y l =>
        rw [hab, List.dropLast_cons_of_ne_nil (by simp)] at hx
        rcases List.mem_cons.mp hx with rfl | hx
        · exact h2
        · rw [← hab] at hx; exact ih.full x hx

/-- Every list of packets can be put into groups. -/
theorem chunks {cap : Nat} (hc : 0 < cap) : ∀ (n : Nat) (l : List Bytes), l.length ≤ n → (∀ w ∈ l, w ≠ []) → ∃ gs, Groups cap gs ∧ gs.flatten = l
  | 0, l, h, _ => by
    have : l = [] := List.length_eq_zero_iff.mp (by omega)
    subst this
    exact ⟨[], Groups.nil cap, rfl⟩
  | n + 1, l, h, hw => by
    by_cases h0 : l = []
    · subst h0; exact ⟨[], Groups.nil cap, rfl⟩
    by_cases hl : l.length ≤ cap
    · have hg : Groups cap ([] ++ [l]) := Groups.mk' (init := []) (by simp) hc ⟨hw, hl⟩ h0
      exact ⟨[l], by simpa using hg, by simp⟩
    · obtain ⟨gs, hg, hf⟩ := chunks hc n (l.drop cap) (by simp; omega) (fun w hx => hw w (List.mem_of_mem_drop hx))
      have := AllFull.append (cap := cap) (a := [l.take cap]) (b := gs) hc (by
        intro x hx
        rw [List.mem_singleton.mp hx]
        exact ⟨⟨fun w hx => hw w (List.mem_of_mem_take hx), by simp; omega⟩, by simp; omega⟩) hg
      exact ⟨[l.take cap] ++ gs, this, by simp [hf]⟩

/-! ## The loop -/

theorem tryRead_end (chk : Bool) (data : Bytes) : (Slot.tryRead ⟨data, data.length, chk⟩).1 = .ok (.notEnough 16) := by
  have hrem : (⟨data, data.length, chk⟩ : Cur).remaining = .ok 0 := by simp [Cur.remaining]
  unfold Slot.tryRead
  rw [hrem]
  simp only
  unfold Slot.tryReadHeader
  rw [hrem]
  simp [SLOT_HSIZE]

/-- The sum that moves `source_pos` over a slot. -/
theorem u64_region {cap : Nat} {g : List Bytes} {chk : Bool} {pos : Nat} (hg : Group cap g) (hl : pos + (region cap g).length < 2 ^ 63) :
    u64 chk (pos + (table cap g).size + (table cap g).width) = .ok (pos + (region cap g).length) := by
  rw [region_length hg.le] at hl ⊢
  rw [table_size, table_width hg, u64_ok (by omega)]
  congr 1
  omega

/-- Nothing was in the last slot when the file was loaded, or it was full: new slots are appended. -/
theorem reload_append {cap : Nat} (chk : Bool) (count : Nat) : ∀ (gs : List (List Bytes)) (pre : Bytes) (acc : List Anchored) (fuel : Nat),
    (∀ g ∈ gs, Group cap g) → (pre ++ fileOf cap gs).length < 2 ^ 63 →
    Storage.reloadLoop chk (pre ++ fileOf cap gs) none count (fuel + gs.length) pre.length acc =
      Storage.reloadLoop chk (pre ++ fileOf cap gs) none count fuel (pre ++ fileOf cap gs).length (acc ++ anchor cap pre.length gs)
  | [], pre, acc, fuel, _, _ => by simp [anchor]
  | g :: gs, pre, acc, fuel, hg, hl => by
    have hgg := hg g (by simp)
    have hl0 := hl
    rw [fileOf_cons] at hl
    have hw : (table cap g).WF := table_wf_of_file (gs := g :: gs) (by simp only [fileOf_cons, List.length_append] at hl ⊢; omega) (by simp) hgg.le
    rw [List.length_cons, ← Nat.add_assoc]
    conv => lhs; rw [Storage.reloadLoop.eq_def]
    simp only
    have e1 := tryRead_region hw chk pre (fileOf cap gs)
    rw [← fileOf_cons] at e1
    rw [e1]
    simp only
    rw [u64_region hgg (by simp only [List.length_append] at hl; omega)]
    simp only
    have := reload_append chk count gs (pre ++ region cap g) (acc ++ [⟨table cap g, pre.length⟩]) fuel (fun x hx => hg x (by simp [hx]))
      (by simpa only [List.append_assoc] using hl)
    rw [List.append_assoc, ← fileOf_cons] at this
    rw [List.length_append] at this
    rw [this]
    simp [anchor]

/-- The last slot was in use, and the loop goes on after it: slots are put in its place, one after the other. -/
theorem reload_stuck {cap : Nat} (chk : Bool) (index count : Nat) (crc : Bytes) : ∀ (gs : List (List Bytes)) (pre : Bytes) (slots : List Anchored) (fuel : Nat),
    (∀ g ∈ gs, Group cap g) → (pre ++ fileOf cap gs).length < 2 ^ 63 → slots.length = count → 0 < count → gs.length < fuel →
    (∀ a ∈ slots, ∀ i, a.inner.freeIndex = some i → i ≤ cap) →
    ∃ r slots', Storage.reloadLoop chk (pre ++ fileOf cap gs) (some (index, crc)) count fuel pre.length slots = some (.ok r, slots') ∧
      slots'.length = count ∧ ∀ a ∈ slots', ∀ i, a.inner.freeIndex = some i → i ≤ cap
  | [], pre, slots, fuel, _, _, hs, _, hf, hb => by
    obtain ⟨f, rfl⟩ : ∃ f, fuel = f + 1 := ⟨fuel - 1, by simp at hf; omega⟩
    refine ⟨.inr (), slots, ?_, hs, hb⟩
    rw [Storage.reloadLoop.eq_def]
    simp only
    rw [fileOf_nil, List.append_nil, tryRead_end]
    simp only
    rw [show (slots.length == count) = true by simpa using hs]
    simp [SLOT_HSIZE]
  | g :: gs, pre, slots, fuel, hg, hl, hs, h0, hf, hb => by
    have hgg := hg g (by simp)
    have hle := hgg.le
    have hl0 := hl
    rw [fileOf_cons] at hl
    have hw : (table cap g).WF := table_wf_of_file (gs := g :: gs) (by simp only [fileOf_cons, List.length_append] at hl ⊢; omega) (by simp) hgg.le
    obtain ⟨f, rfl⟩ : ∃ f, fuel = f + 1 := ⟨fuel - 1, by simp at hf; omega⟩
    have hlast : slots[count - 1]? = some (slots[count - 1]'(by omega)) := List.getElem?_eq_getElem (by omega)
    have hb' : ∀ (x : Anchored), ∀ a ∈ slots.set (count - 1) { x with inner := table cap g }, ∀ i, a.inner.freeIndex = some i → i ≤ cap := by
      intro x a ha i hi
      rcases List.mem_or_eq_of_mem_set ha with ha | rfl
      · exact hb a ha i hi
      · dsimp only at hi
        rw [table_freeIndex hgg] at hi
        split at hi
        · injection hi with hi; omega
        · cases hi
    have e1 := tryRead_region hw chk pre (fileOf cap gs)
    rw [← fileOf_cons] at e1
    rw [Storage.reloadLoop.eq_def]
    simp only
    rw [e1]
    simp only
    rw [show (slots.length == count) = true by simpa using hs]
    simp only
    by_cases hcrc : crc = (table cap g).crc
    · rw [if_pos hcrc]
      exact ⟨_, _, rfl, hs, hb⟩
    · rw [if_neg hcrc, hlast]
      simp only
      by_cases hfi : (table cap g).freeIndex.isNone = true
      · rw [if_pos hfi, u64_region hgg (by simp only [List.length_append] at hl; omega)]
        simp only
        have := reload_stuck chk index count crc gs (pre ++ region cap g) _ f (fun x hx => hg x (by simp [hx]))
          (by simpa only [List.append_assoc] using hl) (by rw [List.length_set]; exact hs) h0 (by simp at hf; omega) (hb' (slots[count - 1]'(by omega)))
        rw [List.append_assoc, ← fileOf_cons, List.length_append] at this
        exact this
      · rw [if_neg hfi]
        exact ⟨_, _, rfl, by rw [List.length_set]; exact hs, hb' _⟩

theorem count_le {cap : Nat} {s : Storage} (h : ∀ a ∈ s.slots, ∀ i, a.inner.freeIndex = some i → i ≤ cap) : s.count cap ≤ s.slots.length * cap := by
  unfold Storage.count
  cases hx : s.slots[s.loc.next]? with
  | none => exact Nat.le_refl _
  | some a =>
    simp only
    cases hy : a.inner.freeIndex with
    | none => exact Nat.le_refl _
    | some i =>
      have h1 := h a (List.mem_of_getElem? hx) i hy
      obtain ⟨h2, _⟩ := List.getElem?_eq_some_iff.mp hx
      have h3 := Nat.mul_le_mul_right cap (show s.loc.next + 1 ≤ s.slots.length from h2)
      rw [Nat.add_mul] at h3
      simp only
      omega

/-! ## The beginning -/

theorem anchor_concat (cap : Nat) (init : List (List Bytes)) (g : List Bytes) :
    anchor cap 0 (init ++ [g]) = anchor cap 0 init ++ [⟨table cap g, (fileOf cap init).length⟩] := by
  rw [anchor_append]
  simp [anchor]

theorem lastInfo_nil {s : Storage} (h : s.slots = []) : s.lastInfo = (none, 0) := by
  unfold Storage.lastInfo
  rw [h]; rfl

theorem lastInfo_full {cap : Nat} {init : List (List Bytes)} {g : List Bytes} {s : Storage} (h : s.slots = anchor cap 0 (init ++ [g])) (hg : Group cap g)
    (hl : g.length = cap) : s.lastInfo = (none, (fileOf cap (init ++ [g])).length) := by
  unfold Storage.lastInfo
  rw [h, anchor_concat, List.getLast?_concat]
  simp only
  rw [table_freeOffset hg, table_freeIndex hg, if_neg (by omega), if_neg (by omega)]
  simp only
  rw [table_width hg, table_size, fileOf_append, fileOf_cons, fileOf_nil, List.append_nil, List.length_append, region_length hg.le]
  congr 1
  omega

theorem lastInfo_part {cap : Nat} {init : List (List Bytes)} {g : List Bytes} {s : Storage} (h : s.slots = anchor cap 0 (init ++ [g])) (hg : Group cap g)
    (hl : g.length < cap) : s.lastInfo = (some (g.length, (table cap g).crc), (fileOf cap init).length) := by
  unfold Storage.lastInfo
  rw [h, anchor_concat, List.getLast?_concat]
  simp only
  rw [table_freeOffset hg, table_freeIndex hg, if_pos hl, if_pos hl]

/-! ## One reload -/

/-- Loaded up to a slot boundary, whatever the locator says. -/
theorem reload_from_boundary {cap : Nat} (hc : 0 < cap) {gs more : List (List Bytes)} {s : Storage} (hsl : s.slots = anchor cap 0 gs) (hf : AllFull cap gs) (hm : Groups cap more)
    (hl : (fileOf cap (gs ++ more)).length < 2 ^ 63) {chk : Bool} {fuel : Nat} (hfu : more.length < fuel) :
    ∃ s', s.reload cap chk fuel (fileOf cap (gs ++ more)) =
        some (.ok (if (more.getLast?.getD []).length < cap then more.flatten.length else more.flatten.length - cap), s') ∧ (more = [] → s' = s) ∧
        (more ≠ [] → View cap (gs ++ more) s') := by
  have hgs : Groups cap (gs ++ more) := hf.append hc hm
  have hinfo : s.lastInfo = (none, (fileOf cap gs).length) := by
    rcases List.eq_nil_or_concat gs with rfl | ⟨init, g, rfl⟩
    · rw [lastInfo_nil (by rw [hsl]; rfl)]; rfl
    · rw [List.concat_eq_append] at *
      obtain ⟨h1, h2⟩ := hf g (by simp)
      exact lastInfo_full hsl h1 h2
  have hlen : s.slots.length = gs.length := by rw [hsl, anchor_length]
  obtain ⟨f, rfl⟩ : ∃ f, fuel = (f + 1) + more.length := ⟨fuel - more.length - 1, by omega⟩
  rw [fileOf_append] at hl
  have hloop := reload_append chk s.slots.length more (fileOf cap gs) s.slots (f + 1) hm.group hl
  have hend : Storage.reloadLoop chk (fileOf cap gs ++ fileOf cap more) none s.slots.length (f + 1) (fileOf cap gs ++ fileOf cap more).length
      (s.slots ++ anchor cap (fileOf cap gs).length more) =
      if more = [] then some (.ok (.inl 0), s.slots) else some (.ok (.inr ()), anchor cap 0 (gs ++ more)) := by
    rw [Storage.reloadLoop.eq_def]
    simp only
    rw [tryRead_end]
    simp only [Option.isNone_none]
    by_cases hm0 : more = []
    · rw [if_pos hm0]
      subst hm0
      rw [show ((s.slots ++ anchor cap (fileOf cap gs).length []).length == s.slots.length) = true by simp [anchor]]
      simp [anchor]
    · rw [if_neg hm0]
      have : 0 < more.length := List.length_pos_iff.mpr hm0
      rw [show ((s.slots ++ anchor cap (fileOf cap gs).length more).length == s.slots.length) = false by
        rw [List.length_append, anchor_length]; simp; exact hm0]
      simp only
      rw [hsl, anchor_append, Nat.zero_add]
  rw [← hloop] at hend
  unfold Storage.reload
  rw [hinfo]
  simp only
  rw [fileOf_append, hend]
  by_cases hm0 : more = []
  · rw [if_pos hm0]
    subst hm0
    refine ⟨s, by simp only [Option.map_some, List.getLast?_nil, Option.getD_none, List.length_nil, List.flatten_nil, Nat.zero_sub, ite_self], fun _ => rfl, fun h => absurd rfl h⟩
  · rw [if_neg hm0]
    have hv : View cap (gs ++ more) (⟨anchor cap 0 (gs ++ more), s.loc.setup ((anchor cap 0 (gs ++ more)).map (·.inner))⟩ : Storage) := by
      refine ⟨hgs, rfl, ?_⟩
      dsimp only
      rw [anchor_inner]
      exact setup_next hc hgs _
    refine ⟨_, ?_, fun h => absurd h hm0, fun _ => hv⟩
    simp only [Option.map_some]
    congr 3
    obtain ⟨mi, g, rfl⟩ : ∃ mi g, more = mi ++ [g] := by
      rcases List.eq_nil_or_concat more with h | ⟨mi, g, h⟩
      · exact absurd h hm0
      · exact ⟨mi, g, by rw [h, List.concat_eq_append]⟩
    have hsp := hm.split
    have hle := hsp.2.1.le
    unfold Storage.fresh
    rw [anchor_length, hlen]
    rw [show ((gs ++ (mi ++ [g])).length == gs.length) = false by simp]
    rw [← List.append_assoc, anchor_concat, List.getLast?_concat, List.getLast?_concat]
    simp only [Option.getD_some]
    rw [table_freeIndex hsp.2.1, List.flatten_append, List.length_append (as := mi.flatten), length_flatten_full hsp.1]
    simp only [List.length_append, List.length_cons, List.length_nil, List.flatten_cons, List.flatten_nil, List.append_nil]
    have e : gs.length + mi.length + (0 + 1) - (gs.length + 1) = mi.length := by omega
    rw [e]
    by_cases hlt : g.length < cap
    · rw [if_pos hlt, if_pos hlt]; simp; omega
    · rw [if_neg hlt, if_neg hlt]; simp; omega

/-- Loaded up to a slot boundary. -/
theorem View.reload_boundary {cap : Nat} (hc : 0 < cap) {gs more : List (List Bytes)} {s : Storage} (v : View cap gs s) (hf : AllFull cap gs) (hm : Groups cap more)
    (hl : (fileOf cap (gs ++ more)).length < 2 ^ 63) {chk : Bool} {fuel : Nat} (hfu : more.length < fuel) :
    ∃ s', s.reload cap chk fuel (fileOf cap (gs ++ more)) =
        some (.ok (if (more.getLast?.getD []).length < cap then more.flatten.length else more.flatten.length - cap), s') ∧ View cap (gs ++ more) s' := by
  obtain ⟨s', e, h1, h2⟩ := reload_from_boundary hc v.slots hf hm hl (chk := chk) hfu
  refine ⟨s', e, ?_⟩
  by_cases hm0 : more = []
  · rw [h1 hm0]; subst hm0; simpa using v
  · exact h2 hm0

/-- The new packets went into the last slot, and its CRC has changed. -/
theorem View.reload_slot {cap : Nat} (hc : 0 < cap) {init : List (List Bytes)} {g ext : List Bytes} {s : Storage} (v : View cap (init ++ [g]) s) (hlt : g.length < cap)
    (hg : Group cap (g ++ ext)) (hcrc : (table cap g).crc ≠ (table cap (g ++ ext)).crc)
    (hl : (fileOf cap (init ++ [g ++ ext])).length < 2 ^ 63) {chk : Bool} {fuel : Nat} (hfu : 2 ≤ fuel) :
    ∃ s', s.reload cap chk fuel (fileOf cap (init ++ [g ++ ext])) = some (.ok ext.length, s') ∧ View cap (init ++ [g ++ ext]) s' := by
  have hsp := v.groups.split
  have hgs : Groups cap (init ++ [g ++ ext]) := Groups.mk' hsp.1 hc hg (by simp [hsp.2.2])
  have hlen : s.slots.length = init.length + 1 := by rw [v.slots, anchor_length]; simp
  have hle := hg.le
  rw [List.length_append] at hle
  obtain ⟨f, rfl⟩ : ∃ f, fuel = f + 1 + 1 := ⟨fuel - 2, by omega⟩
  have hw : (table cap (g ++ ext)).WF := table_wf_of_file hl (by simp) hg.le
  have hfile : fileOf cap (init ++ [g ++ ext]) = fileOf cap init ++ (region cap (g ++ ext) ++ []) := by simp [fileOf_append, fileOf_cons]
  have e1 := tryRead_region hw chk (fileOf cap init) []
  rw [← hfile] at e1
  have hslots : s.slots.set (s.slots.length - 1) ⟨table cap (g ++ ext), (fileOf cap init).length⟩ = anchor cap 0 (init ++ [g ++ ext]) := by
    rw [hlen, v.slots, anchor_concat, anchor_concat]
    have : init.length + 1 - 1 = (anchor cap 0 init).length := by rw [anchor_length]; omega
    rw [this, List.set_append_right _ _ (Nat.le_refl _)]
    simp
  have hloop : Storage.reloadLoop chk (fileOf cap (init ++ [g ++ ext])) (some (g.length, (table cap g).crc)) s.slots.length (f + 1 + 1) (fileOf cap init).length s.slots =
      some (.ok (.inr ()), anchor cap 0 (init ++ [g ++ ext])) := by
    have hlast : s.slots[s.slots.length - 1]? = some ⟨table cap g, (fileOf cap init).length⟩ := by
      rw [hlen, v.slots, anchor_concat]
      have : init.length + 1 - 1 = (anchor cap 0 init).length := by rw [anchor_length]; omega
      rw [this, List.getElem?_append_right (Nat.le_refl _)]
      simp
    rw [Storage.reloadLoop.eq_def]
    simp only
    rw [e1]
    simp only [beq_self_eq_true]
    rw [if_neg hcrc, hlast]
    simp only
    rw [hslots]
    by_cases hfull : (g ++ ext).length < cap
    · rw [if_neg (by rw [table_freeIndex hg, if_pos hfull]; simp)]
    · rw [if_pos (by rw [table_freeIndex hg, if_neg hfull]; rfl)]
      have hend : (fileOf cap init).length + (region cap (g ++ ext)).length = (fileOf cap (init ++ [g ++ ext])).length := by
        rw [hfile]; simp
      rw [u64_region hg (by omega), hend]
      simp only
      rw [Storage.reloadLoop.eq_def]
      simp only
      rw [tryRead_end]
      simp only [Option.isNone_some]
      rw [show ((anchor cap 0 (init ++ [g ++ ext])).length == s.slots.length) = true by rw [anchor_length, hlen]; simp]
      simp [SLOT_HSIZE]
  unfold Storage.reload
  rw [lastInfo_part v.slots hsp.2.1 hlt]
  simp only
  rw [hloop]
  have hv : View cap (init ++ [g ++ ext]) (⟨anchor cap 0 (init ++ [g ++ ext]), s.loc.setup ((anchor cap 0 (init ++ [g ++ ext])).map (·.inner))⟩ : Storage) := by
    refine ⟨hgs, rfl, ?_⟩
    dsimp only
    rw [anchor_inner]
    exact setup_next hc hgs _
  refine ⟨_, ?_, hv⟩
  simp only [Option.map_some]
  congr 3
  unfold Storage.fresh
  rw [show ((anchor cap 0 (init ++ [g ++ ext])).length == s.slots.length) = true by rw [anchor_length, hlen]; simp]
  rw [anchor_concat, List.getLast?_concat]
  simp only
  rw [table_freeIndex hg]
  by_cases hfull : (g ++ ext).length < cap
  · rw [if_pos hfull]; simp
  · rw [if_neg hfull]
    rw [List.length_append] at hfull
    simp only
    omega

/-- The last slot has the CRC it had. -/
theorem View.reload_same {cap : Nat} {init : List (List Bytes)} {g g' : List Bytes} {s : Storage} (v : View cap (init ++ [g]) s) (hlt : g.length < cap)
    (hg : g'.length ≤ cap) (hcrc : (table cap g).crc = (table cap g').crc) {rest : Bytes}
    (hl : (fileOf cap (init ++ [g'])).length < 2 ^ 63) {chk : Bool} {fuel : Nat} (hfu : 0 < fuel) :
    s.reload cap chk fuel (fileOf cap (init ++ [g']) ++ rest) = some (.ok 0, s) := by
  have hsp := v.groups.split
  obtain ⟨f, rfl⟩ : ∃ f, fuel = f + 1 := ⟨fuel - 1, by omega⟩
  have hw : (table cap g').WF := table_wf_of_file hl (by simp) hg
  have hfile : fileOf cap (init ++ [g']) ++ rest = fileOf cap init ++ (region cap g' ++ rest) := by simp [fileOf_append, fileOf_cons]
  have e1 := tryRead_region hw chk (fileOf cap init) rest
  rw [← hfile] at e1
  unfold Storage.reload
  rw [lastInfo_part v.slots hsp.2.1 hlt]
  simp only
  rw [Storage.reloadLoop.eq_def]
  simp only
  rw [e1]
  simp only [beq_self_eq_true]
  rw [if_pos hcrc]
  rfl

end Brec
