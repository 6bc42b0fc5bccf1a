import Verif.Props.StorageReload
import Verif.Props.StorageDamage
/-!
# Reloading a damaged storage (C109)

`reload` looks at slot tables only, so damage inside packets makes no difference to it.
-/

namespace Brec.Props

open Rd

variable {O : BlockOps} {Q : PayloadOps} {S : BlockSpec O}

/-- From the start of a slot on the loop of `reload` sees the same in files that differ in their packets only. -/
theorem reloadLoop_congr {cap : Nat} (chk : Bool) (last : Option (Nat × Bytes)) (count : Nat) : ∀ (B B' : List (List Bytes)) (pre pre' : Bytes) (fuel : Nat) (slots : List Anchored),
    B'.map (List.map List.length) = B.map (List.map List.length) → pre'.length = pre.length → (∀ g ∈ B, Group cap g) → (∀ g ∈ B', Group cap g) →
    (pre ++ fileOf cap B).length < 2 ^ 63 →
    Storage.reloadLoop chk (pre' ++ fileOf cap B') last count fuel pre.length slots = Storage.reloadLoop chk (pre ++ fileOf cap B) last count fuel pre.length slots
  | _, _, _, _, 0, _, _, _, _, _, _ => rfl
  | [], g' :: B', _, _, _ + 1, _, h, _, _, _, _ => by simp at h
  | g :: B, [], _, _, _ + 1, _, h, _, _, _, _ => by simp at h
  | [], [], pre, pre', fuel + 1, slots, _, hp, _, _, _ => by
    rw [fileOf_nil, List.append_nil, List.append_nil, Storage.reloadLoop, Storage.reloadLoop, tryRead_end chk pre, ← hp, tryRead_end chk pre']
  | g :: B, g' :: B', pre, pre', fuel + 1, slots, h, hp, hg, hg', hl => by
    simp only [List.map_cons, List.cons.injEq] at h
    have hgr := hg g (by simp)
    have hgr' := hg' g' (by simp)
    have ht : table cap g' = table cap g := table_congr h.1
    have hr : (region cap g').length = (region cap g).length := region_congr h.1
    rw [fileOf_cons] at hl
    have hw : (table cap g).WF := table_wf_of_file (gs := [g]) (by
      simp only [fileOf_cons, fileOf_nil, List.length_append, List.length_nil] at hl ⊢; omega) (by simp) hgr.le
    have hu : u64 chk (pre.length + (table cap g).size + (table cap g).width) = .ok (pre ++ region cap g).length := by
      rw [u64_region hgr (by simp only [List.length_append] at hl; omega), List.length_append]
    have ih : ∀ sl, Storage.reloadLoop chk (pre' ++ (region cap g' ++ fileOf cap B')) last count fuel (pre ++ region cap g).length sl =
        Storage.reloadLoop chk (pre ++ (region cap g ++ fileOf cap B)) last count fuel (pre ++ region cap g).length sl := by
      intro sl
      have := reloadLoop_congr chk last count B B' (pre ++ region cap g) (pre' ++ region cap g') fuel sl h.2 (by simp only [List.length_append]; omega)
        (fun x hx => hg x (by simp [hx])) (fun x hx => hg' x (by simp [hx])) (by rw [List.append_assoc]; exact hl)
      rwa [List.append_assoc, List.append_assoc] at this
    have h1 := tryRead_region hw chk pre (fileOf cap B)
    have h2 := tryRead_region (g := g') (ht ▸ hw) chk pre' (fileOf cap B')
    rw [hp, ht] at h2
    rw [fileOf_cons, fileOf_cons, Storage.reloadLoop, Storage.reloadLoop, h1, h2]
    simp only [hu, ih]

/-- `reload` of a reader that has the slots of an earlier state of the file. -/
theorem reload_congr {cap : Nat} (hc : 0 < cap) (chk : Bool) {gs0 gs gs' : List (List Bytes)} {ext : List Bytes} {s : Storage} (v : View cap gs0 s) (hg : Groups cap gs)
    (hg' : Groups cap gs') (hf : gs.flatten = gs0.flatten ++ ext) (hm : gs'.map (List.map List.length) = gs.map (List.map List.length))
    (hl : (fileOf cap gs).length < 2 ^ 63) : reloadReader cap chk s (fileOf cap gs') = reloadReader cap chk s (fileOf cap gs) := by
  have key : ∀ (A B : List (List Bytes)), gs = A ++ B → s.lastInfo.2 = (fileOf cap A).length →
      reloadReader cap chk s (fileOf cap gs') = reloadReader cap chk s (fileOf cap gs) := by
    intro A B hAB hpos
    have hlen := fileOf_congr (cap := cap) hm
    have hsplit : gs' = gs'.take A.length ++ gs'.drop A.length := (List.take_append_drop _ _).symm
    have hmA : (gs'.take A.length).map (List.map List.length) = A.map (List.map List.length) := by
      rw [List.map_take, hm, hAB, List.map_append, List.take_left' (by simp)]
    have hmB : (gs'.drop A.length).map (List.map List.length) = B.map (List.map List.length) := by
      rw [List.map_drop, hm, hAB, List.map_append, List.drop_left' (by simp)]
    unfold reloadReader Storage.reload
    rw [hlen, hpos]
    congr 1
    conv => lhs; rw [hsplit, fileOf_append]
    conv => rhs; rw [hAB, fileOf_append]
    rw [hAB, fileOf_append]
    rw [hAB, fileOf_append] at hl
    exact reloadLoop_congr chk _ _ B _ (fileOf cap A) _ _ _ hmB (fileOf_congr hmA) (fun x hx => hg.group x (by rw [hAB]; simp [hx]))
      (fun x hx => hg'.group x (List.mem_of_mem_drop hx)) hl
  rcases grown hc v.groups hg hf with ⟨more, haf, hm, hgs, hfm⟩ | ⟨init, g, h0, hlt, hgs⟩ | ⟨init, more, g, a, h0, hlt, hga, hgs, hne⟩
  · refine key gs0 more hgs ?_
    rcases List.eq_nil_or_concat gs0 with rfl | ⟨init, g, rfl⟩
    · rw [lastInfo_nil (by rw [v.slots]; rfl)]; rfl
    · rw [List.concat_eq_append] at *
      rw [lastInfo_full v.slots v.groups.split.2.1 (haf g (by simp)).2]
  · subst h0
    exact key init [g ++ ext] hgs (by rw [lastInfo_part v.slots v.groups.split.2.1 hlt])
  · subst h0
    exact key init ((g ++ a) :: more) (by rw [hgs]; simp) (by rw [lastInfo_part v.slots v.groups.split.2.1 hlt])

/-- **C109.** A reader was opened, and reloaded now and then (calmly). Packets were appended, and bytes of packets destroyed. `reload` does what it would have
done without the damage: it returns the same and leaves the same reader. -/
theorem C109_reload {cap : Nat} (hc : 0 < cap) {chk : Bool} {ops ops2 : List (Op O Q)} {s s0 : Storage} {data : Bytes} (h : Watching cap chk ops s)
    (hr : Reached cap chk (ops ++ ops2) data s0) (hok : ∀ p ∈ log (ops ++ ops2), Storable S p) (hs : Small cap (log (ops ++ ops2))) :
    ∃ place : Nat → Nat, (∀ i p, (log (ops ++ ops2))[i]? = some p → s0.offsetOf cap i = .ok (some (place i)) ∧ wire p <+: data.drop (place i)) ∧
      ∀ hits, Hits (log (ops ++ ops2)) hits → reloadReader cap chk s (patches place data hits) = reloadReader cap chk s data := by
  obtain ⟨gs, v, hd, f, hl⟩ := hr.view hc (fun p hp => (hok p hp).ok) hs
  subst hd
  have hlog : log (ops ++ ops2) = log ops ++ log ops2 := log_append ops ops2
  obtain ⟨gs0, v0, f0⟩ := h.view (S := S) hc (fun p hp => (hok p (by rw [hlog]; simp [hp])).ok) (by rw [hlog] at hs; exact hs.left)
  refine ⟨placeOf cap gs, ?_, ?_⟩
  · intro i p hp
    obtain ⟨a, t, ho, e, hlen⟩ := offsetOf_some hc v.groups v.inner (n := i) (x := wire p) (by rw [f, List.getElem?_map, hp]; rfl)
    refine ⟨by rw [ho, placeOf, hlen], t, ?_⟩
    rw [e, placeOf, ← hlen, List.drop_left]
  · intro hits hh
    obtain ⟨gs', hg', hm, e, _, _⟩ := patches_file hc hits v.groups (by
      intro x hx
      obtain ⟨p, hp, hpl⟩ := hh x hx
      exact ⟨wire p, by rw [f, List.getElem?_map, hp]; rfl, hpl⟩)
    rw [e]
    exact reload_congr hc chk v0 v.groups hg' (ext := (log ops2).map wire) (by rw [f, f0, hlog, List.map_append]) hm hl

/-- **C109, what the reader then shows.** After a calm reload the reader has all packets, and finds each that was not destroyed. It has
the slots and the place of a reader that opens the damaged file now, so C58 tells what loops over it give. -/
theorem C109_shows {cap : Nat} (hc : 0 < cap) {chk : Bool} {ops ops2 : List (Op O Q)} {s s0 : Storage} {data : Bytes} (h : Watching cap chk ops s)
    (hr : Reached cap chk (ops ++ ops2) data s0) (hok : ∀ p ∈ log (ops ++ ops2), Storable S p) (hs : Small cap (log (ops ++ ops2)))
    (hcalm : Calm cap (log ops) (log ops2)) :
    ∃ place : Nat → Nat, (∀ i p, (log (ops ++ ops2))[i]? = some p → s0.offsetOf cap i = .ok (some (place i)) ∧ wire p <+: data.drop (place i)) ∧
      ∀ hits, Hits (log (ops ++ ops2)) hits → ∃ s', reloadReader cap chk s (patches place data hits) =
          some (.ok (if (log ops).length % cap = 0 ∧ log ops2 ≠ [] ∧ (log (ops ++ ops2)).length % cap = 0 then (log ops2).length - cap else (log ops2).length), s') ∧
        s'.count cap = (log (ops ++ ops2)).length ∧
        (openReader chk (patches place data hits) = some (.ok s0) ∧ s'.slots = s0.slots ∧ s'.loc.next = s0.loc.next) ∧
        ∀ j, (∀ h ∈ hits, h.1 ≠ j) → s'.nth cap chk (patches place data hits) j = .ok (log (ops ++ ops2))[j]? := by
  obtain ⟨place, hp, hrel⟩ := C109_reload hc h hr hok hs
  obtain ⟨place', hp', hall⟩ := C58_confined_partial (S := S) hc hr hok hs
  refine ⟨place, hp, ?_⟩
  intro hits hh
  have hpp : patches place' data hits = patches place data hits := by
    have : ∀ (l : List (Nat × Bytes)) (d : Bytes), (∀ x ∈ l, place' x.1 = place x.1) → patches place' d l = patches place d l := by
      intro l
      induction l with
      | nil => intro d _; rfl
      | cons x l ih =>
        intro d hx
        have := ih (patch d (place x.1) x.2) fun y hy => hx y (by simp [hy])
        unfold patches at *
        rw [List.foldl_cons, List.foldl_cons, hx x (by simp)]
        exact this
    refine this hits data ?_
    intro x hx
    obtain ⟨p, h1, _⟩ := hh x hx
    have e1 := (hp x.1 p h1).1
    have e2 := (hp' x.1 p h1).1
    rw [e1] at e2
    injection e2 with e2
    injection e2 with e2
    exact e2.symm
  obtain ⟨hopen, _, hnth⟩ := hall hits hh
  rw [hpp] at hnth hopen
  obtain ⟨gs, v, hd, f, hl⟩ := hr.view hc (fun p hp => (hok p hp).ok) hs
  have hlog : log (ops ++ ops2) = log ops ++ log ops2 := log_append ops ops2
  obtain ⟨gs0, v0, f0⟩ := h.view (S := S) hc (fun p hp => (hok p (by rw [hlog]; simp [hp])).ok) (by rw [hlog] at hs; exact hs.left)
  obtain ⟨s', e', v'⟩ := reload_step hc (chk := chk) v0 v.groups f0 (by rw [f, hlog]) hcalm (by rw [← hd]; exact hl)
  refine ⟨s', by rw [hrel hits hh, hd, hlog]; exact e', by rw [v'.count, f, List.length_map], ⟨hopen, by rw [v'.slots, v.slots], by rw [v'.loc, v.loc]⟩, ?_⟩
  intro j hj
  rw [← hnth j hj]
  have hslots : s'.slots = s0.slots := by rw [v'.slots, v.slots]
  unfold Storage.nth Storage.offsetOf
  rw [hslots]

/-- A reader was opened on one packet. A second is appended and the first destroyed: `reload` reports one new packet, and the second is found. -/
example (chk : Bool) : ∃ data s s0 s' place, Watching 2 chk [Op.insert samplePacket] s ∧
    Reached 2 chk ([Op.insert samplePacket] ++ [Op.insert otherPacket]) data s0 ∧
    reloadReader 2 chk s (patches place data [(0, List.replicate 125 0)]) = some (.ok 1, s') ∧ s'.count 2 = 2 ∧
    s'.nth 2 chk (patches place data [(0, List.replicate 125 0)]) 1 = .ok (some otherPacket) := by
  have hcap : (0 : Nat) < 2 := by decide
  have hok := twoPackets_storable
  have hs := twoPackets_small_two
  have hl := twoPackets_log
  obtain ⟨data, s0, hr⟩ := Reached.exists (S := sampleSpec) (cap := 2) hcap chk twoPackets hok hs
  obtain ⟨d1, s, h1⟩ := Reached.exists (S := sampleSpec) (cap := 2) hcap chk [Op.insert samplePacket]
    (by intro p hp; rw [List.mem_singleton.mp hp]; exact sample_storable) (by simp [Small, log, wire_sample_length])
  obtain ⟨place, _, hall⟩ := C109_shows (S := sampleSpec) hcap (ops := [Op.insert samplePacket]) (ops2 := [Op.insert otherPacket]) (.opened h1) hr hok hs
    (C37_single (S := sampleSpec) hcap _ (hok otherPacket (by rw [hl]; simp)).ok (by rw [wire_other_length]; decide))
  obtain ⟨s', h2, h3, _, h4⟩ := hall _ twoPackets_hits
  exact ⟨data, s, s0, s', place, .opened h1, hr, h2, h3, h4 1 (by simp)⟩

end Brec.Props
