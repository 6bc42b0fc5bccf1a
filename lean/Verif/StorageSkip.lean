import Verif.StorageReload
/-!
# `reload` past the end of the slot in use: lemmas for C84
-/

namespace Brec

theorem groups_right {cap : Nat} {b : List (List Bytes)} : ∀ {a : List (List Bytes)}, Groups cap (a ++ b) → Groups cap b
  | [], h => h
  | _ :: _, h => groups_right h.tail

/-- The table of the last of these groups; `t` if there is none. -/
def lastTable (cap : Nat) (t : Slot) : List (List Bytes) → Slot
  | [] => t
  | g :: gs => lastTable cap (table cap g) gs

theorem lastTable_concat (cap : Nat) (t : Slot) : ∀ (gs : List (List Bytes)) (g : List Bytes), lastTable cap t (gs ++ [g]) = table cap g
  | [], _ => rfl
  | x :: gs, g => lastTable_concat cap (table cap x) gs g

/-- The last entry is replaced. -/
theorem set_end {front : List Anchored} {a b : Anchored} {count : Nat} (h : (front ++ [a]).length = count) : (front ++ [a]).set (count - 1) b = front ++ [b] := by
  subst h
  rw [List.length_append, List.length_singleton, Nat.add_sub_cancel, List.set_append_right _ _ (Nat.le_refl _)]
  simp

theorem get_end {front : List Anchored} {a : Anchored} {count : Nat} (h : (front ++ [a]).length = count) : (front ++ [a])[count - 1]? = some a := by
  subst h
  rw [List.length_append, List.length_singleton, Nat.add_sub_cancel, List.getElem?_append_right (Nat.le_refl _)]
  simp

/-- One step over a slot that is not the one known. -/
theorem reload_replace {cap : Nat} (chk : Bool) {index count off : Nat} {crc : Bytes} {g : List Bytes} {pre rest : Bytes} {front : List Anchored} {t : Slot} {fuel : Nat}
    (hg : Group cap g) (hl : (pre ++ (region cap g ++ rest)).length < 2 ^ 63) (hs : (front ++ [(⟨t, off⟩ : Anchored)]).length = count)
    (hcrc : crc ≠ (table cap g).crc) :
    Storage.reloadLoop chk (pre ++ (region cap g ++ rest)) (some (index, crc)) count (fuel + 1) pre.length (front ++ [⟨t, off⟩]) =
      if g.length < cap then some (.ok (.inr ()), front ++ [⟨table cap g, off⟩])
      else Storage.reloadLoop chk (pre ++ (region cap g ++ rest)) (some (index, crc)) count fuel (pre ++ region cap g).length (front ++ [⟨table cap g, off⟩]) := by
  have hw : (table cap g).WF := table_wf_of_file (gs := [g]) (by simp only [fileOf_cons, fileOf_nil, List.length_append, List.length_nil] at hl ⊢; omega) (by simp) hg.le
  conv => lhs; rw [Storage.reloadLoop.eq_def]
  simp only
  rw [tryRead_region hw chk pre rest]
  simp only
  rw [show ((front ++ [(⟨t, off⟩ : Anchored)]).length == count) = true by simpa using hs]
  simp only
  rw [if_neg hcrc, get_end hs]
  simp only
  rw [set_end hs, table_freeIndex hg]
  by_cases hlt : g.length < cap
  · rw [if_pos hlt, if_pos hlt, if_neg (by simp)]
  · rw [if_neg hlt, if_neg hlt, if_pos (by simp), u64_region hg (by simp only [List.length_append] at hl; omega)]
    simp only [List.length_append]

/-- The slot known is found again: nothing is reported, and what has been replaced stays replaced. -/
theorem reload_found {cap : Nat} (chk : Bool) {index count : Nat} {crc : Bytes} {g : List Bytes} {pre rest : Bytes} {slots : List Anchored} {fuel : Nat}
    (hg : Group cap g) (hl : (pre ++ (region cap g ++ rest)).length < 2 ^ 63) (hs : slots.length = count)
    (hcrc : crc = (table cap g).crc) :
    Storage.reloadLoop chk (pre ++ (region cap g ++ rest)) (some (index, crc)) count (fuel + 1) pre.length slots = some (.ok (.inl 0), slots) := by
  have hw : (table cap g).WF := table_wf_of_file (gs := [g]) (by simp only [fileOf_cons, fileOf_nil, List.length_append, List.length_nil] at hl ⊢; omega) (by simp) hg.le
  rw [Storage.reloadLoop.eq_def]
  simp only
  rw [tryRead_region hw chk pre rest]
  simp only
  rw [show (slots.length == count) = true by simpa using hs]
  simp only
  rw [if_pos hcrc]

/-- The loop runs over all slots up to the end of the file. -/
theorem reload_over {cap : Nat} (chk : Bool) {index count off : Nat} {crc : Bytes} : ∀ (gs : List (List Bytes)) (pre : Bytes) (front : List Anchored) (t : Slot) (fuel : Nat),
    Groups cap gs → (pre ++ fileOf cap gs).length < 2 ^ 63 → (front ++ [(⟨t, off⟩ : Anchored)]).length = count → gs.length < fuel →
    (∀ g ∈ gs, crc ≠ (table cap g).crc) →
    Storage.reloadLoop chk (pre ++ fileOf cap gs) (some (index, crc)) count fuel pre.length (front ++ [⟨t, off⟩]) =
      some (.ok (.inr ()), front ++ [⟨lastTable cap t gs, off⟩])
  | [], pre, front, t, fuel, _, _, hs, hf, _ => by
    obtain ⟨f, rfl⟩ : ∃ f, fuel = f + 1 := ⟨fuel - 1, by simp at hf; omega⟩
    rw [Storage.reloadLoop.eq_def]
    simp only
    rw [fileOf_nil, List.append_nil, tryRead_end]
    simp only
    rw [show ((front ++ [(⟨t, off⟩ : Anchored)]).length == count) = true by simpa using hs]
    simp [SLOT_HSIZE, lastTable]
  | g :: gs, pre, front, t, fuel, hg, hl, hs, hf, hcrc => by
    obtain ⟨f, rfl⟩ : ∃ f, fuel = f + 1 := ⟨fuel - 1, by simp at hf; omega⟩
    rw [fileOf_cons] at hl ⊢
    rw [reload_replace chk (hg.group g (by simp)) hl hs (hcrc g (by simp))]
    cases gs with
    | nil =>
      by_cases hlt : g.length < cap
      · rw [if_pos hlt]; rfl
      · rw [if_neg hlt]
        have := reload_over (cap := cap) chk (index := index) (count := count) (off := off) (crc := crc) [] (pre ++ region cap g) front (table cap g) f (Groups.nil cap)
          (by simpa using hl) (by simpa using hs) (by simp at hf ⊢; omega) (by simp)
        rw [List.append_assoc] at this
        exact this
    | cons x l =>
      have hfull : g.length = cap := hg.full g (by simp)
      rw [if_neg (by omega)]
      have := reload_over (cap := cap) chk (index := index) (count := count) (off := off) (crc := crc) (x :: l) (pre ++ region cap g) front (table cap g) f hg.tail
        (by simpa only [List.append_assoc] using hl) (by simpa using hs) (by simp at hf ⊢; omega) (fun y hy => hcrc y (by simp [hy]))
      rw [List.append_assoc] at this
      exact this

/-- Two tables with one packet each have different CRCs. -/
theorem single_crc {cap a b : Nat} {l : List Nat} (ha : a < 2 ^ 32) (hb : b < 2 ^ 32) (h : Slot.crcOf cap (a :: l) = Slot.crcOf cap (b :: l)) : a = b := by
  simp only [Slot.crcOf, Slot.body, List.flatMap_cons] at h
  have hsp : ∀ v, v < 2 ^ 32 → leBytes 8 v = leBytes 4 v ++ [0, 0, 0, 0] := by
    intro v hv
    have : v / 256 / 256 / 256 / 256 = 0 := by omega
    simp [leBytes, this]
  rw [hsp a ha, hsp b hb] at h
  have key := crc_burst (m := leBytes 8 cap ++ (leBytes 4 a ++ [0, 0, 0, 0] ++ l.flatMap (leBytes 8)))
    (m' := leBytes 8 cap ++ (leBytes 4 b ++ [0, 0, 0, 0] ++ l.flatMap (leBytes 8))) (by
    rw [h]
    generalize crcBytes _ = c
    have := Burst4.of_split (leBytes 8 cap) (leBytes 4 a) (leBytes 4 b) ([0, 0, 0, 0] ++ (l.flatMap (leBytes 8) ++ c)) (by simp) (by simp)
    simpa only [List.append_assoc] using this)
  have k1 := List.append_cancel_left key
  rw [List.append_assoc, List.append_assoc] at k1
  exact leBytes_inj (n := 4) (by omega) (by omega) (List.append_inj k1 (by simp)).1

end Brec
