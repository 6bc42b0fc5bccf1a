import Verif.Props.Cut
import Verif.Props.StorageDamageWrite
import Verif.Props.StorageFail
import Verif.Props.StorageShrinkRead
/-!
# Inserting into a file that has become shorter (C114)
-/

namespace Brec.Props

open Rd

variable {O : BlockOps} {Q : PayloadOps} {S : BlockSpec O}

/-- Full statement of C114 (false): the file of a writer is cut short behind its back. The next insert succeeds, and a reader then opens the file and finds all packets that
were left whole, and the new one. -/
def C114_full (Q : PayloadOps) (S : BlockSpec O) (cap : Nat) (chk : Bool) : Prop :=
  ∀ (ops : List (Op O Q)) (w : Writer) (q : Packet O Q) (k : Nat), runOps cap chk ops emptyWriter = some w → k ≤ w.data.length → (∀ p ∈ log ops ++ [q], Storable S p) →
    Small cap (log ops ++ [q]) → ∃ w' s, Writer.insert cap { w with data := w.data.take k } q none = (.ok (), w') ∧ openReader chk w'.data = some (.ok s) ∧
      s.count cap = (log ops).length + 1 ∧ (∀ i, i < (log ops).length → endOf cap (log ops) i ≤ k → s.nth cap chk w'.data i = .ok (log ops)[i]?) ∧
      (∀ i, i < (log ops).length → k ≤ startOf cap (log ops) i → s.nth (O := O) (Q := Q) cap chk w'.data i = .err .sigDismatch) ∧
      s.nth cap chk w'.data (log ops).length = .ok (some q)

/-! ## Packets of which a part is zero -/

/-- The packets of a slot, everything behind the first `m` bytes set to zero. -/
def blank : Nat → List Bytes → List Bytes
  | _, [] => []
  | m, x :: g => (x.take m ++ List.replicate (x.length - m) 0) :: blank (m - x.length) g

theorem blank_lengths : ∀ (m : Nat) (g : List Bytes), (blank m g).map List.length = g.map List.length
  | _, [] => rfl
  | m, x :: g => by
    rw [blank, List.map_cons, List.map_cons, blank_lengths, List.length_append, List.length_take, List.length_replicate]
    congr 1
    omega

theorem blank_length (m : Nat) (g : List Bytes) : (blank m g).length = g.length := by
  have := congrArg List.length (blank_lengths m g)
  rwa [List.length_map, List.length_map] at this

theorem blank_flatten : ∀ (m : Nat) (g : List Bytes), (blank m g).flatten = g.flatten.take m ++ List.replicate (g.flatten.length - m) 0
  | _, [] => by simp [blank]
  | m, x :: g => by
    rw [blank, List.flatten_cons, List.flatten_cons, blank_flatten, List.take_append, List.length_append]
    by_cases h : x.length ≤ m
    · rw [show x.length - m = 0 by omega, List.replicate_zero, List.append_nil, List.append_assoc]
      congr 3
      omega
    · rw [show m - x.length = 0 by omega, List.take_zero, List.nil_append, List.append_nil, List.append_assoc, List.replicate_append_replicate]
      congr 2
      omega

theorem blank_get : ∀ (g : List Bytes) (m i : Nat), ((g.take (i + 1)).map List.length).sum ≤ m → (blank m g)[i]? = g[i]?
  | [], _, _, _ => rfl
  | x :: g, m, 0, h => by
    simp at h
    rw [blank, List.getElem?_cons_zero, List.getElem?_cons_zero, List.take_of_length_le h, show x.length - m = 0 by omega]
    simp
  | x :: g, m, i + 1, h => by
    rw [List.take_succ_cons, List.map_cons, List.sum_cons] at h
    rw [blank, List.getElem?_cons_succ, List.getElem?_cons_succ, blank_get g _ i (by omega)]

theorem blank_group {cap m : Nat} {g : List Bytes} (h : Group cap g) : Group cap (blank m g) := by
  refine ⟨fun w hw h0 => ?_, by rw [blank_length]; exact h.le⟩
  have : (0 : Nat) ∈ (blank m g).map List.length := List.mem_map.mpr ⟨w, hw, by rw [h0]; rfl⟩
  rw [blank_lengths] at this
  obtain ⟨x, hx, e⟩ := List.mem_map.mp this
  exact h.pos x hx (List.length_eq_zero_iff.mp e)

/-- Packets that end in front of the cut are as they were. -/
theorem blank_same {cap : Nat} {A : List (List Bytes)} {g : List Bytes} (hA : AllFull cap A) (hg : Group cap g) {ps : List (Packet O Q)}
    (f : (A ++ [g]).flatten = ps.map wire) {i k : Nat} (hi : i < ps.length) (h : endOf cap ps i ≤ k) :
    (A.flatten ++ blank (k - (fileOf cap A).length - (20 + 8 * cap)) g)[i]? = (ps.map wire)[i]? := by
  have hf : ps.map wire = A.flatten ++ g := by rw [← f]; simp
  have hlen := congrArg List.length hf
  have hal := length_flatten_full hA
  rw [List.length_append, List.length_map] at hlen
  rw [hf]
  by_cases h1 : i < A.flatten.length
  · rw [List.getElem?_append_left h1, List.getElem?_append_left h1]
  · rw [List.getElem?_append_right (by omega), List.getElem?_append_right (by omega)]
    refine blank_get _ _ _ ?_
    have hle := hg.le
    have hdiv : i / cap = A.length := by
      rw [show i = A.length * cap + (i - A.flatten.length) by omega, Nat.mul_comm, Nat.mul_add_div (by omega), Nat.div_eq_of_lt (by omega)]
      omega
    have hsum : ((ps.take (i + 1)).map fun p => (wire p).length).sum = A.flatten.flatten.length + ((g.take (i - A.flatten.length + 1)).map List.length).sum := by
      rw [← wire_lengths, List.map_take, hf, List.take_append, List.take_of_length_le (by omega), List.flatten_append, List.length_append, ← List.length_flatten]
      congr 4
      omega
    rw [endOf, hdiv, hsum, Nat.add_mul] at h
    rw [length_fileOf fun x hx => (hA x hx).1]
    omega

theorem blank_zero : ∀ (g : List Bytes) (m i : Nat), m ≤ ((g.take i).map List.length).sum → (blank m g)[i]? = g[i]?.map fun x => List.replicate x.length 0
  | [], _, _, _ => rfl
  | x :: g, m, 0, h => by
    have h0 : m = 0 := by simpa using h
    subst h0
    simp [blank]
  | x :: g, m, i + 1, h => by
    rw [List.take_succ_cons, List.map_cons, List.sum_cons] at h
    rw [blank, List.getElem?_cons_succ, List.getElem?_cons_succ, blank_zero g _ i (by omega)]

/-- Of packets that begin behind the cut nothing is left. -/
theorem blank_gone {cap : Nat} {A : List (List Bytes)} {g : List Bytes} (hA : AllFull cap A) (hg : Group cap g) {ps : List (Packet O Q)}
    (f : (A ++ [g]).flatten = ps.map wire) {i k : Nat} {p : Packet O Q} (hi : ps[i]? = some p) (hp : 0 < (wire p).length) (hk : (fileOf cap A).length ≤ k)
    (h : k ≤ startOf cap ps i) :
    (A.flatten ++ blank (k - (fileOf cap A).length - (20 + 8 * cap)) g)[i]? = some (List.replicate (wire p).length 0) := by
  have hf : ps.map wire = A.flatten ++ g := by rw [← f]; simp
  have hlen := congrArg List.length hf
  have hal := length_flatten_full hA
  have hin := (List.getElem?_eq_some_iff.mp hi).1
  have hle := hg.le
  rw [List.length_append, List.length_map] at hlen
  have hfile := length_fileOf (cap := cap) fun x hx => (hA x hx).1
  by_cases h1 : i < A.flatten.length
  · exfalso
    have hdiv : i / cap + 1 ≤ A.length := Nat.div_lt_of_lt_mul (by rw [Nat.mul_comm]; omega)
    have hmul := Nat.mul_le_mul_right (20 + 8 * cap) hdiv
    have he := endOf_start (cap := cap) hi
    have hsum : ((ps.take (i + 1)).map fun p => (wire p).length).sum ≤ A.flatten.flatten.length := by
      rw [← wire_lengths, List.map_take, hf, List.take_append_of_le_length (by omega)]
      conv => rhs; rw [← List.take_append_drop (i + 1) A.flatten, List.flatten_append, List.length_append]
      omega
    rw [endOf] at he
    omega
  · rw [List.getElem?_append_right (by omega), blank_zero]
    · have h2 : (ps.map wire)[i]? = some (wire p) := by rw [List.getElem?_map, hi]; rfl
      rw [hf, List.getElem?_append_right (by omega)] at h2
      rw [h2]
      rfl
    · have hdiv : i / cap = A.length := by
        rw [show i = A.length * cap + (i - A.flatten.length) by omega, Nat.mul_comm, Nat.mul_add_div (by omega), Nat.div_eq_of_lt (by omega)]
        omega
      have hsum : ((ps.take i).map fun p => (wire p).length).sum = A.flatten.flatten.length + ((g.take (i - A.flatten.length)).map List.length).sum := by
        rw [← wire_lengths, List.map_take, hf, List.take_append, List.take_of_length_le (by omega), List.flatten_append, List.length_append, ← List.length_flatten]
      rw [startOf, hdiv, hsum, Nat.add_mul] at h
      omega

/-! ## The insert -/

theorem overwrite_hole {d b : Bytes} {pos : Nat} (h : d.length ≤ pos) : overwrite d pos b = d ++ (List.replicate (pos - d.length) 0 ++ b) := by
  rw [overwrite, List.take_of_length_le (by rw [List.length_append, List.length_replicate]; omega), List.drop_eq_nil_of_le (by omega)]
  simp

theorem overwrite_from {f r b : Bytes} : overwrite (f ++ r) f.length b = f ++ (b ++ r.drop b.length) := by
  rw [overwrite, show f.length - (f ++ r).length = 0 by simp, List.replicate_zero, List.append_nil, List.take_left, ← List.drop_drop, List.drop_left]
  simp

theorem place_data (cap : Nat) (w : Writer) (d : Bytes) : Writer.place cap { w with data := d } = ((w.place cap).1, { (w.place cap).2 with data := d }) := by
  unfold Writer.place
  simp only
  rcases w.loc.step w.slots with ⟨_ | off, l⟩ <;> rfl

theorem insert_data {cap : Nat} {init : List (List Bytes)} {g : List Bytes} {w w1 : Writer} (h : Ready cap init g w1)
    (hp : w.place cap = (some (spot cap init g), w1)) {p : Packet O Q} {x : Bytes} (hs : p.serialize = .ok x)
    (hl : (fileOf cap (init ++ [g ++ [x]])).length < 2 ^ 63) (d : Bytes) :
    Writer.insert cap { w with data := d } p none =
      (.ok (), { w1 with slots := w1.slots.set w1.loc.next (table cap (g ++ [x])),
                         data := overwrite (overwrite d (fileOf cap init).length (table cap (g ++ [x])).enc) (spot cap init g) x }) := by
  have hlt := h.lt
  have hw : (table cap (g ++ [x])).WF := table_wf_of_file hl (g := g ++ [x]) (by simp) (by simp; omega)
  have e1 : w1.slots[w1.loc.next]? = some (table cap g) := by rw [h.slots, h.loc]; simp
  unfold Writer.insert
  rw [place_data, hp]
  simp only
  rw [hs]
  simp only
  rw [e1]
  simp only
  rw [table_insert h.group hlt]
  simp only
  rw [hw.bytes, h.loc]

/-- The cut is among the packets of the last slot, or in its table, and the slot has room: the new table replaces the old one. -/
theorem written_part {cap : Nat} {init : List (List Bytes)} {g : List Bytes} (hg : g.length < cap) {x : Bytes} {k : Nat} (hk : (fileOf cap init).length ≤ k) :
    overwrite (overwrite ((fileOf cap (init ++ [g])).take k) (fileOf cap init).length (table cap (g ++ [x])).enc) (spot cap init g) x =
      fileOf cap (init ++ [blank (k - (fileOf cap init).length - (20 + 8 * cap)) g ++ [x]]) := by
  have hT := table_enc_length (cap := cap) (g := g ++ [x]) (by simp; omega)
  have hT' := table_enc_length (cap := cap) (g := g) (by omega)
  have htab : table cap (blank (k - (fileOf cap init).length - (20 + 8 * cap)) g ++ [x]) = table cap (g ++ [x]) :=
    table_congr (by rw [List.map_append, List.map_append, blank_lengths])
  rw [fileOf_append, fileOf_cons, fileOf_nil, List.append_nil, List.take_append, List.take_of_length_le hk, overwrite_from, hT, region, List.drop_take,
    List.drop_left' hT', fileOf_append, fileOf_cons, fileOf_nil, List.append_nil, region, htab, List.flatten_append, blank_flatten]
  generalize k - (fileOf cap init).length - (20 + 8 * cap) = m
  have hd : (fileOf cap init ++ ((table cap (g ++ [x])).enc ++ g.flatten.take m)).length = (fileOf cap init).length + (20 + 8 * cap + min m g.flatten.length) := by
    rw [List.length_append, List.length_append, hT, List.length_take]
  rw [overwrite_hole (by rw [hd, spot]; omega), hd, show spot cap init g - ((fileOf cap init).length + (20 + 8 * cap + min m g.flatten.length)) = g.flatten.length - m by
    rw [spot]; omega]
  simp

/-- The cut is among the packets of the last slot, and the slot is full: a new slot is put where it would have been. -/
theorem written_full {cap : Nat} (hc : 0 < cap) {init : List (List Bytes)} {g : List Bytes} (hg : g.length ≤ cap) {x : Bytes} {k : Nat}
    (hk : (fileOf cap init).length + (20 + 8 * cap) ≤ k) (hk2 : k ≤ (fileOf cap (init ++ [g])).length) :
    overwrite (overwrite ((fileOf cap (init ++ [g])).take k) (fileOf cap (init ++ [g])).length (table cap ([] ++ [x])).enc) (spot cap (init ++ [g]) []) x =
      fileOf cap ((init ++ [blank (k - (fileOf cap init).length - (20 + 8 * cap)) g]) ++ [[] ++ [x]]) := by
  have hT := table_enc_length (cap := cap) (g := [x]) (by simp; omega)
  have hT' := table_enc_length (cap := cap) (g := g) hg
  have htab : table cap (blank (k - (fileOf cap init).length - (20 + 8 * cap)) g) = table cap g := table_congr (blank_lengths ..)
  have hlen : (fileOf cap (init ++ [g])).length = (fileOf cap init).length + (20 + 8 * cap + g.flatten.length) := by
    rw [fileOf_append, fileOf_cons, fileOf_nil, List.append_nil, List.length_append, region_length hg]
  have htk : (fileOf cap (init ++ [g])).take k = fileOf cap init ++ ((table cap g).enc ++ g.flatten.take (k - (fileOf cap init).length - (20 + 8 * cap))) := by
    rw [fileOf_append, fileOf_cons, fileOf_nil, List.append_nil, List.take_append, List.take_of_length_le (by omega), region, List.take_append,
      List.take_of_length_le (by omega), hT']
  have hl : ((fileOf cap (init ++ [g])).take k).length = k := by rw [List.length_take]; omega
  rw [overwrite_hole (d := (fileOf cap (init ++ [g])).take k) (by omega), hl]
  have hd : ((fileOf cap (init ++ [g])).take k ++ (List.replicate ((fileOf cap (init ++ [g])).length - k) 0 ++ (table cap ([] ++ [x])).enc)).length = spot cap (init ++ [g]) [] := by
    rw [List.length_append, List.length_append, List.length_replicate, hl, List.nil_append, hT, spot]
    simp
    omega
  rw [← hd, overwrite_end, htk, hlen, fileOf_append, fileOf_append, fileOf_cons, fileOf_cons, fileOf_nil, List.append_nil, List.append_nil, region, region, htab, blank_flatten,
    show (fileOf cap init).length + (20 + 8 * cap + g.flatten.length) - k = g.flatten.length - (k - (fileOf cap init).length - (20 + 8 * cap)) by omega]
  simp

/-- What a cut must leave, so that every table is there after the next insert: the tables of all slots, except that of a slot that has room (the insert writes it again). -/
def TablesLeft (cap : Nat) (ps : List (Packet O Q)) (k : Nat) : Prop :=
  (ps.length % cap ≠ 0 → slotAt cap ps (ps.length / cap) ≤ k) ∧
  (ps.length % cap = 0 → ps ≠ [] → slotAt cap ps (ps.length / cap - 1) + (20 + 8 * cap) ≤ k)

theorem fileOf_slotAt {cap : Nat} {A : List (List Bytes)} {r : List Bytes} (hA : AllFull cap A) {ps : List (Packet O Q)} (f : ps.map wire = A.flatten ++ r) :
    (fileOf cap A).length = slotAt cap ps A.length := by
  rw [length_fileOf fun x hx => (hA x hx).1, slotAt, ← wire_lengths, List.map_take, f, List.take_left' (length_flatten_full hA)]
  omega

theorem insert_cut {cap : Nat} (hc : 0 < cap) {gs : List (List Bytes)} {w : Writer} (h : Inv cap gs w) {ps : List (Packet O Q)} (f : gs.flatten = ps.map wire)
    {q : Packet O Q} (hq : q.Ok S) (hs : Small cap (ps ++ [q])) {k : Nat} (hk : k ≤ w.data.length) (ht : TablesLeft cap ps k) :
    ∃ w' gs2, Writer.insert cap { w with data := w.data.take k } q none = (.ok (), w') ∧ Inv cap gs2 w' ∧
      gs2.flatten.map List.length = ((ps ++ [q]).map fun p => (wire p).length) ∧
      (∀ i p, ps[i]? = some p → 0 < (wire p).length → k ≤ startOf cap ps i → gs2.flatten[i]? = some (List.replicate (wire p).length 0)) ∧
      (∀ i, i < ps.length → endOf cap ps i ≤ k → gs2.flatten[i]? = (ps.map wire)[i]?) ∧ gs2.flatten[ps.length]? = some (wire q) := by
  obtain ⟨init, g, w1, hgs, hpl, hr, _⟩ := h.place hc
  have hfl : (init ++ [g ++ [wire q]]).flatten = gs.flatten ++ [wire q] := by
    rw [hgs, opt]
    by_cases hg : g = []
    · subst hg; simp
    · simp [hg]
  have hgr : Groups cap (init ++ [g ++ [wire q]]) := Groups.mk' hr.full hc (hr.group.concat hr.lt (wire_ne hq)) (by simp)
  have hl := small_lengths hc hgr (ps := ps ++ [q]) (by rw [hfl, f]; simp) hs
  have ei := insert_data hr hpl (serialize_wire hq) hl (w.data.take k)
  have hfa : gs.flatten = init.flatten ++ g := by
    have := hfl
    rw [List.flatten_append] at this
    simp only [List.flatten_cons, List.flatten_nil, List.append_nil] at this
    rw [← List.append_assoc] at this
    exact (List.append_inj' this rfl).1.symm
  have hnum := congrArg List.length (f.symm.trans hfa)
  rw [List.length_map, List.length_append, length_flatten_full hr.full] at hnum
  have hglt := hr.lt
  -- the writer knows the new file
  have next : ∀ init2 g2, AllFull cap init2 → Group cap g2 → g2.map List.length = g.map List.length → init2.map (List.map List.length) = init.map (List.map List.length) →
      (init2 ++ [g2]).map (table cap) = (init ++ [g]).map (table cap) →
      overwrite (overwrite (w.data.take k) (fileOf cap init).length (table cap (g ++ [wire q])).enc) (spot cap init g) (wire q) = fileOf cap (init2 ++ [g2 ++ [wire q]]) →
      (∀ i, i < ps.length → endOf cap ps i ≤ k → (init2.flatten ++ g2)[i]? = (ps.map wire)[i]?) →
      (∀ i p, ps[i]? = some p → 0 < (wire p).length → k ≤ startOf cap ps i → (init2.flatten ++ g2)[i]? = some (List.replicate (wire p).length 0)) →
      ∃ w' gs2, Writer.insert cap { w with data := w.data.take k } q none = (.ok (), w') ∧ Inv cap gs2 w' ∧
        gs2.flatten.map List.length = ((ps ++ [q]).map fun p => (wire p).length) ∧
        (∀ i p, ps[i]? = some p → 0 < (wire p).length → k ≤ startOf cap ps i → gs2.flatten[i]? = some (List.replicate (wire p).length 0)) ∧
        (∀ i, i < ps.length → endOf cap ps i ≤ k → gs2.flatten[i]? = (ps.map wire)[i]?) ∧ gs2.flatten[ps.length]? = some (wire q) := by
    intro init2 g2 h1 h2 h3 h4 h5 h6 h7 h8
    have hn1 : g2.length = g.length := by simpa using congrArg List.length h3
    have hn2 : init2.length = init.length := by simpa using congrArg List.length h4
    have hr2 : Ready cap init2 g2 { w1 with data := fileOf cap (init2 ++ opt g2) } :=
      ⟨h1, h2, by omega, rfl, by rw [h5]; exact hr.slots, by rw [hn2, fileOf_congr h4]; exact hr.loc⟩
    have hlast : (init2 ++ [g2 ++ [wire q]]).flatten = (init2.flatten ++ g2) ++ [wire q] := by simp
    have hlen2 : (init2.flatten ++ g2).length = ps.length := by rw [List.length_append, length_flatten_full h1, hn1, hn2, hnum]
    refine ⟨_, init2 ++ [g2 ++ [wire q]], ei, hr2.next_inv hc (wire_ne hq) ?_ rfl h6, ?_, fun i p hi hp he => ?_, fun i hi he => ?_, ?_⟩
    · show _ = w1.slots.set w1.loc.next _
      have htab : table cap (g2 ++ [wire q]) = table cap (g ++ [wire q]) := table_congr (by rw [List.map_append, List.map_append, h3])
      rw [htab]
    · rw [hlast, List.map_append, List.map_append, List.map_flatten, h4, ← List.map_flatten, h3, ← List.map_append, ← hfa, f, List.map_append, List.map_map]
      rfl
    · rw [hlast, List.getElem?_append_left (by rw [hlen2]; exact (List.getElem?_eq_some_iff.mp hi).1)]
      exact h8 i p hi hp he
    · rw [hlast, List.getElem?_append_left (by omega)]
      exact h7 i hi he
    · rw [hlast, ← hlen2, List.getElem?_concat_length]
  rw [h.data] at hk next ⊢
  by_cases hg : g = []
  · subst hg
    have hgi : gs = init := by rw [hgs]; simp [opt]
    subst hgi
    rcases List.eq_nil_or_concat gs with rfl | ⟨i', g', rfl⟩
    · have hw := hr.written (wire q)
      rw [hr.data, hr.loc] at hw
      refine next [] [] (by simp [AllFull]) (Group.nil cap) rfl rfl rfl ?_ ?_ ?_
      · rw [← hw]
        simp [opt]
      · intro i hi
        have h0 : ps = [] := by simpa using hnum
        rw [h0] at hi
        exact absurd hi (by simp)
      · intro i p hi
        have h0 : ps = [] := by simpa using hnum
        rw [h0] at hi
        cases hi
    · rw [List.concat_eq_append] at *
      have hfull := hr.full
      have hA : AllFull cap i' := fun x hx => hfull x (by simp [hx])
      obtain ⟨hgg, hgl⟩ := hfull g' (by simp)
      have hsl := fileOf_slotAt (r := g') hA (ps := ps) (by rw [← f]; simp)
      rw [List.length_append] at hnum
      simp only [List.length_cons, List.length_nil, Nat.add_zero, Nat.zero_add] at hnum
      have hk1 : (fileOf cap i').length + (20 + 8 * cap) ≤ k := by
        rw [hsl]
        have := ht.2 (by rw [hnum, Nat.mul_mod_left]) (by rintro rfl; simp [Nat.add_mul] at hnum; omega)
        rwa [hnum, Nat.mul_div_cancel _ hc, Nat.add_sub_cancel] at this
      refine next _ [] ?_ (Group.nil cap) rfl ?_ ?_ (written_full hc hgg.le hk1 hk) ?_ ?_
      · intro x hx
        rcases List.mem_append.mp hx with hx | hx
        · exact hA x hx
        · rw [List.mem_singleton.mp hx]
          exact ⟨blank_group hgg, by rw [blank_length, hgl]⟩
      · rw [List.map_append, List.map_append, List.map_cons, List.map_cons, blank_lengths]
      · simp only [List.map_append, List.map_cons, table_congr (blank_lengths ..)]
      · intro i hi he
        rw [← blank_same hA hgg f hi he]
        simp
      · intro i p hi hp he
        rw [← blank_gone hA hgg f hi hp (by omega) he]
        simp
  · have hgi : gs = init ++ [g] := by rw [hgs]; simp [opt, hg]
    subst hgi
    have hpm := part_mod h.groups hglt f
    have hpos := List.length_pos_iff.mpr hg
    have hsl := fileOf_slotAt (r := g) hr.full (ps := ps) (by rw [← f]; simp)
    have hk1 : (fileOf cap init).length ≤ k := by
      rw [hsl]
      have := ht.1 (by omega)
      rwa [hpm.2.1] at this
    refine next init _ hr.full (blank_group hr.group) (blank_lengths ..) rfl ?_ (written_part hglt hk1) (fun i hi he => blank_same hr.full hr.group f hi he)
      fun i p hi hp he => blank_gone hr.full hr.group f hi hp hk1 he
    simp only [List.map_append, List.map_cons, table_congr (blank_lengths ..)]

/-- The file after a cut and an insert, and what a reader gives that has its slots. -/
theorem cut_file {cap : Nat} (hc : 0 < cap) {chk : Bool} {ops more : List (Op O Q)} {w : Writer} {q : Packet O Q} (hw : runOps cap chk ops emptyWriter = some w)
    (hok : ∀ p ∈ log ops ++ q :: log more, Storable S p) (hs : Small cap (log ops ++ q :: log more)) {k : Nat} (hk : k ≤ w.data.length) (ht : TablesLeft cap (log ops) k) :
    ∃ w1 w2 gs, Writer.insert cap { w with data := w.data.take k } q none = (.ok (), w1) ∧ runOps cap chk more w1 = some w2 ∧ Inv cap gs w2 ∧
      gs.flatten.map List.length = ((log ops ++ q :: log more).map fun p => (wire p).length) ∧ ∀ s, View cap gs s →
        s.count cap = (log ops ++ q :: log more).length ∧
        (∀ i, i < (log ops).length → endOf cap (log ops) i ≤ k → s.nth cap chk w2.data i = .ok (log ops)[i]?) ∧
        (∀ i, i < (log ops).length → k ≤ startOf cap (log ops) i → s.nth (O := O) (Q := Q) cap chk w2.data i = .err .sigDismatch) ∧
        ∀ i, (log ops).length ≤ i → s.nth cap chk w2.data i = .ok (log ops ++ q :: log more)[i]? := by
  have hsplit : log ops ++ q :: log more = (log ops ++ [q]) ++ log more := by simp
  obtain ⟨w', gs, e', inv, f⟩ := runOps_inv (S := S) hc chk ops (ps := []) (empty_inv cap) rfl (fun p hp => (hok p (by simp [hp])).ok) (by
    rw [List.nil_append]; exact hs.left)
  rw [hw] at e'
  injection e' with e'
  subst e'
  rw [List.nil_append] at f
  have hqo := hok q (by simp)
  obtain ⟨w1, gs2, e1, i1, hlen, hgone, hold, hnew⟩ := insert_cut (S := S) hc inv f hqo.ok (by rw [hsplit] at hs; exact hs.left) hk ht
  obtain ⟨w2, gs3, e2, i2, f2⟩ := runOps_raw (S := S) hc chk more i1 hlen (fun p hp => (hok p (by simp [hp])).ok) (by rw [← hsplit]; exact hs)
  have hlen3 : gs3.flatten.map List.length = (log ops ++ q :: log more).map fun p => (wire p).length := by
    rw [f2, List.map_append, hlen, hsplit, List.map_append (l₁ := log ops ++ [q]), List.map_map]
    rfl
  have hn3 : gs3.flatten.length = (log ops ++ q :: log more).length := by
    have := congrArg List.length hlen3
    rwa [List.length_map, List.length_map] at this
  have hn2 : gs2.flatten.length = (log ops).length + 1 := by
    have := congrArg List.length hlen
    rwa [List.length_map, List.length_map, List.length_append] at this
  refine ⟨w1, w2, gs3, e1, e2, i2, hlen3, fun s v => ?_⟩
  have read : ∀ i (p : Packet O Q), gs3.flatten[i]? = some (wire p) → Storable S p → s.nth cap chk w2.data i = .ok (some p) := by
    intro i p hi hp
    obtain ⟨a, t, ho, hf, _⟩ := offsetOf_some hc v.groups v.inner hi
    unfold Storage.nth
    rw [ho, i2.data]
    simp only
    rw [tryRead_wire (S := S) hp (t := t) (by rw [hf]; simp) (by rw [hf, List.drop_left])]
  refine ⟨by rw [v.count, hn3], fun i hi he => ?_, fun i hi he => ?_, fun i hi => ?_⟩
  · obtain ⟨p, hp⟩ : ∃ p, (log ops)[i]? = some p := ⟨_, List.getElem?_eq_getElem hi⟩
    rw [hp]
    refine read i p ?_ (hok p (List.mem_append_left _ (List.mem_of_getElem? hp)))
    rw [f2, List.getElem?_append_left (by omega), hold i hi he, List.getElem?_map, hp]
    rfl
  · obtain ⟨p, hp⟩ : ∃ p, (log ops)[i]? = some p := ⟨_, List.getElem?_eq_getElem hi⟩
    have hpo := hok p (List.mem_append_left _ (List.mem_of_getElem? hp))
    have h29 : HSIZE ≤ (wire p).length := by
      obtain ⟨hd, pb, sh⟩ := hpo.ok.shape
      rw [wire_eq hpo.ok.blocks sh]
      simp [PacketHeader.bytes_length]
    have h3 : gs3.flatten[i]? = some (List.replicate (wire p).length 0) := by
      rw [f2, List.getElem?_append_left (by omega)]
      exact hgone i p hp (by simp only [HSIZE] at h29; omega) he
    obtain ⟨a, t, ho, hf, _⟩ := offsetOf_some hc v.groups v.inner h3
    unfold Storage.nth
    rw [ho, i2.data]
    simp only
    rw [tryRead_zeros (t := t) h29 (by rw [hf]; simp) (by rw [hf, List.drop_left])]
  · cases hp : (log ops ++ q :: log more)[i]? with
    | none =>
      unfold Storage.nth
      rw [offsetOf_none hc v.groups v.inner (List.getElem?_eq_none (by rw [hn3]; exact List.getElem?_eq_none_iff.mp hp))]
    | some p =>
      refine read i p ?_ (hok p (List.mem_of_getElem? hp))
      rw [List.getElem?_append_right hi] at hp
      by_cases h0 : i = (log ops).length
      · subst h0
        rw [Nat.sub_self, List.getElem?_cons_zero] at hp
        injection hp with hp
        rw [f2, List.getElem?_append_left (by omega), hnew, hp]
      · obtain ⟨d, hd⟩ : ∃ d, i - (log ops).length = d + 1 := ⟨i - (log ops).length - 1, by omega⟩
        rw [hd, List.getElem?_cons_succ] at hp
        rw [f2, List.getElem?_append_right (by omega), show i - gs2.flatten.length = d by omega, List.getElem?_map, hp]
        rfl

/-- **C114 (partial).** The file of a writer is cut to `k` bytes behind its back, and the cut leaves the tables that are not written again. The next insert succeeds and so do
further ones, and reopening; a reader then opens the file, counts all packets, and finds those that were left whole and the new ones. For a packet of which nothing was left it
returns an error. Missing: see `C114_lost`. -/
theorem C114_insert_partial {cap : Nat} (hc : 0 < cap) {chk : Bool} {ops more : List (Op O Q)} {w : Writer} {q : Packet O Q} (hw : runOps cap chk ops emptyWriter = some w)
    (hok : ∀ p ∈ log ops ++ q :: log more, Storable S p) (hs : Small cap (log ops ++ q :: log more)) {k : Nat} (hk : k ≤ w.data.length) (ht : TablesLeft cap (log ops) k) :
    ∃ w1 w2 s, Writer.insert cap { w with data := w.data.take k } q none = (.ok (), w1) ∧ runOps cap chk more w1 = some w2 ∧ openReader chk w2.data = some (.ok s) ∧
      s.count cap = (log ops ++ q :: log more).length ∧
      (∀ i, i < (log ops).length → endOf cap (log ops) i ≤ k → s.nth cap chk w2.data i = .ok (log ops)[i]?) ∧
      (∀ i, i < (log ops).length → k ≤ startOf cap (log ops) i → s.nth (O := O) (Q := Q) cap chk w2.data i = .err .sigDismatch) ∧
      ∀ i, (log ops).length ≤ i → s.nth cap chk w2.data i = .ok (log ops ++ q :: log more)[i]? := by
  obtain ⟨w1, w2, gs, e1, e2, i2, hlen, all⟩ := cut_file (S := S) hc hw hok hs hk ht
  obtain ⟨s, es, v⟩ := open_reader hc i2.groups (small_lengths hc i2.groups hlen hs) chk
  exact ⟨w1, w2, s, e1, e2, by rw [i2.data]; exact es, all s v⟩

/-! ## Counterexample -/

theorem tryRead_wiped {chk : Bool} {n : Nat} {r : Bytes} (h : 16 ≤ n) : (Slot.tryRead ⟨List.replicate n 0 ++ r, 0, chk⟩).1 = .err .sigDismatch := by
  have hrem : (⟨List.replicate n 0 ++ r, 0, chk⟩ : Cur).remaining = .ok (n + r.length) := by
    unfold Cur.remaining
    simp
  have hrun : ((⟨List.replicate n 0 ++ r, 0, chk⟩ : Cur).run (P.readExact 8)).1 = .ok (List.replicate 8 0) := by
    unfold Cur.run
    rw [show (⟨List.replicate n 0 ++ r, 0, chk⟩ : Cur).rest = List.replicate n 0 ++ r by simp [Cur.rest], P.readExact_ok (by simp; omega)]
    simp only
    rw [List.take_append_of_le_length (by simp; omega), List.take_replicate, Nat.min_eq_left (by omega)]
  unfold Slot.tryRead
  rw [hrem]
  simp only
  unfold Slot.tryReadHeader
  rw [hrem]
  simp only
  rw [if_neg (by simp only [SLOT_HSIZE]; omega)]
  revert hrun
  generalize (⟨List.replicate n 0 ++ r, 0, chk⟩ : Cur).run (P.readExact 8) = o
  obtain ⟨o, c⟩ := o
  rintro rfl
  simp only
  rw [if_pos (by decide)]

/-- **C114, tables lost.** All slots of a writer's file are full, and the file is emptied behind its back. The next insert succeeds, but the file cannot be opened any more: the new
packet is lost, too. -/
theorem C114_lost {cap : Nat} (hc : 0 < cap) {chk : Bool} {ops : List (Op O Q)} {w : Writer} {q : Packet O Q} (hw : runOps cap chk ops emptyWriter = some w)
    (hok : ∀ p ∈ log ops ++ [q], p.Ok S) (hs : Small cap (log ops ++ [q])) (h0 : (log ops).length % cap = 0) (hne : log ops ≠ []) :
    ∃ w', Writer.insert cap { w with data := w.data.take 0 } q none = (.ok (), w') ∧ openReader chk w'.data = some (.err (.damagedSlot .sigDismatch)) := by
  obtain ⟨w', gs, e', inv, f⟩ := runOps_inv (S := S) hc chk ops (ps := []) (empty_inv cap) rfl (fun p hp => hok p (by simp [hp])) (by
    rw [List.nil_append]; exact hs.left)
  rw [hw] at e'
  injection e' with e'
  subst e'
  rw [List.nil_append] at f
  have hq := hok q (by simp)
  obtain ⟨init, g, w1, hgs, hpl, hr, _⟩ := inv.place hc
  have hfl : (init ++ [g ++ [wire q]]).flatten = gs.flatten ++ [wire q] := by
    rw [hgs, opt]
    by_cases hg : g = []
    · subst hg; simp
    · simp [hg]
  have hgr : Groups cap (init ++ [g ++ [wire q]]) := Groups.mk' hr.full hc (hr.group.concat hr.lt (wire_ne hq)) (by simp)
  have hl := small_lengths hc hgr (ps := log ops ++ [q]) (by rw [hfl, f]; simp) hs
  have hg : g = [] := by
    by_cases hg : g = []
    · exact hg
    · have hgi : gs = init ++ [g] := by rw [hgs]; simp [opt, hg]
      subst hgi
      have := (part_mod inv.groups hr.lt f).1
      have hpos := List.length_pos_iff.mpr hg
      omega
  subst hg
  have hgi : gs = init := by rw [hgs]; simp [opt]
  subst hgi
  have hlong : 16 ≤ (fileOf cap gs).length := by
    rcases gs with _ | ⟨x, gs⟩
    · exact absurd (List.map_eq_nil_iff.mp f.symm) hne
    · rw [fileOf_cons, List.length_append, region_length (hr.full x (by simp)).1.le]
      omega
  refine ⟨_, insert_data hr hpl (serialize_wire hq) hl _, ?_⟩
  simp only
  rw [List.take_zero, overwrite_hole (d := []) (by simp), overwrite_hole (by
    rw [List.nil_append, List.length_append, List.length_replicate, List.nil_append, table_enc_length (by simp; omega), spot]; simp)]
  unfold openReader Storage.open_
  rw [List.nil_append, List.append_assoc, List.length_nil, Nat.sub_zero, loadLoop, tryRead_wiped hlong]
  rfl

/-- One slot's worth of packets. -/
def slotful (cap : Nat) : List (Op (blockEnum sampleTypes) (PEnum.ops [])) := (List.replicate cap samplePacket).map Op.insert

theorem C114_not (chk : Bool) : ¬ C114_full (PEnum.ops []) sampleSpec SLOT_CAPACITY chk := by
  intro hf
  have hlog : log (slotful SLOT_CAPACITY) = List.replicate SLOT_CAPACITY samplePacket := log_inserts _
  have hok : ∀ p ∈ log (slotful SLOT_CAPACITY) ++ [samplePacket], Storable sampleSpec p := by
    intro p hp
    rw [hlog, ← List.replicate_succ'] at hp
    rw [List.eq_of_mem_replicate hp]
    exact sample_storable
  have hs : Small SLOT_CAPACITY (log (slotful SLOT_CAPACITY) ++ [samplePacket]) := by
    unfold Small
    rw [hlog, ← List.replicate_succ', List.map_replicate, List.sum_replicate_nat, List.length_replicate, wire_sample_length]
    decide
  obtain ⟨w, _, hw, _, _⟩ := runOps_inv (S := sampleSpec) (cap := SLOT_CAPACITY) (by decide) chk (slotful SLOT_CAPACITY) (ps := []) (empty_inv _) rfl
    (fun p hp => (hok p (by simp [hp])).ok) (by rw [List.nil_append]; exact hs.left)
  obtain ⟨w', e1, e2⟩ := C114_lost (S := sampleSpec) (by decide) hw (fun p hp => (hok p hp).ok) hs (by rw [hlog, List.length_replicate]; decide)
    (by rw [hlog]; exact List.ne_nil_of_length_pos (by rw [List.length_replicate]; decide))
  obtain ⟨w2, s, e3, e4, _⟩ := hf _ w samplePacket 0 hw (Nat.zero_le _) hok hs
  rw [e1] at e3
  injection e3 with _ e3
  subst e3
  rw [e2] at e4
  cases e4

/-- Two packets in a slot for three. The file is cut in the slot's table, or right behind the first packet; a third packet is inserted and found, and in the second case so is
the first. -/
example (chk : Bool) (k : Nat) : ∃ w, runOps 3 chk twoPackets emptyWriter = some w ∧ (k ≤ w.data.length →
    ∃ w1 s, Writer.insert 3 { w with data := w.data.take k } samplePacket none = (.ok (), w1) ∧ openReader chk w1.data = some (.ok s) ∧ s.count 3 = 3 ∧
      s.nth 3 chk w1.data 2 = .ok (some samplePacket) ∧ (44 + 125 ≤ k → s.nth 3 chk w1.data 0 = .ok (some samplePacket))) := by
  have hok : ∀ p ∈ log twoPackets ++ samplePacket :: log ([] : List (Op (blockEnum sampleTypes) (PEnum.ops []))), Storable sampleSpec p := by
    intro p hp
    rcases List.mem_append.mp hp with hp | hp
    · exact twoPackets_storable p hp
    · rw [List.mem_singleton.mp hp]; exact sample_storable
  have hs : Small 3 (log twoPackets ++ samplePacket :: log ([] : List (Op (blockEnum sampleTypes) (PEnum.ops [])))) := by
    rw [twoPackets_log]
    unfold Small
    simp only [log, List.map_append, List.map_cons, List.map_nil, wire_sample_length, wire_other_length]
    decide
  obtain ⟨w, _, hw, _, _⟩ := runOps_inv (S := sampleSpec) (cap := 3) (by decide) chk twoPackets (ps := []) (empty_inv _) rfl
    (fun p hp => (twoPackets_storable p hp).ok) (by rw [List.nil_append]; exact hs.left)
  refine ⟨w, hw, fun hk => ?_⟩
  obtain ⟨w1, w2, s, e1, e2, e3, h1, h2, _, h3⟩ := C114_insert_partial (S := sampleSpec) (by decide) hw hok hs hk (by
    rw [twoPackets_log]
    exact ⟨fun _ => by simp [slotAt], fun h => absurd h (by decide)⟩)
  have e2 : w1 = w2 := by injection e2
  subst e2
  refine ⟨w1, s, e1, e3, by rw [h1, twoPackets_log]; rfl, ?_, fun h => ?_⟩
  · rw [h3 2 (by rw [twoPackets_log]; decide), twoPackets_log]; rfl
  · rw [h2 0 (by rw [twoPackets_log]; decide) (by rw [twoPackets_log]; simp [endOf, wire_sample_length]; omega), twoPackets_log]; rfl

end Brec.Props
