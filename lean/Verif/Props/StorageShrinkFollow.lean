import Verif.Props.StorageDamageReload
import Verif.Props.StorageShrinkBack
import Verif.Props.StorageShrinkWrite
/-!
# Following a file that was cut short and written to again (C115)
-/

namespace Brec.Props

open Rd

variable {O : BlockOps} {Q : PayloadOps} {S : BlockSpec O}

/-- Stretches of the same lengths, of zeros. -/
def zeroed (gs : List (List Bytes)) : List (List Bytes) := gs.map (List.map fun x => List.replicate x.length 0)

theorem zeroed_groups {cap : Nat} {gs : List (List Bytes)} (h : Groups cap gs) : Groups cap (zeroed gs) := by
  refine ⟨fun g hg => ?_, fun g hg => ?_, fun g hg => ?_⟩
  · obtain ⟨g0, h0, rfl⟩ := List.mem_map.mp hg
    refine ⟨fun x hx => ?_, by rw [List.length_map]; exact (h.group g0 h0).le⟩
    obtain ⟨x0, hx0, rfl⟩ := List.mem_map.mp hx
    have := (h.group g0 h0).pos x0 hx0
    simpa using this
  · obtain ⟨g0, h0, rfl⟩ := List.mem_map.mp hg
    simpa using h.ne g0 h0
  · rw [zeroed, ← List.map_dropLast] at hg
    obtain ⟨g0, h0, rfl⟩ := List.mem_map.mp hg
    rw [List.length_map]
    exact h.full g0 h0

theorem zeroed_lengths (gs : List (List Bytes)) : (zeroed gs).map (List.map List.length) = gs.map (List.map List.length) := by
  rw [zeroed, List.map_map]
  refine List.map_congr_left fun g _ => ?_
  simp [Function.comp_def]

theorem zeroed_flatten (gs : List (List Bytes)) : (zeroed gs).flatten = (gs.flatten.map List.length).map fun n => List.replicate n 0 := by
  rw [zeroed, ← List.map_flatten, List.map_map]
  rfl

/-- How packets fall into slots depends on how many there are, not on what they are. -/
theorem groups_lengths {cap : Nat} (hc : 0 < cap) {a b : List (List Bytes)} (ha : Groups cap a) (hb : Groups cap b)
    (h : a.flatten.map List.length = b.flatten.map List.length) : a.map (List.map List.length) = b.map (List.map List.length) := by
  rw [← zeroed_lengths a, ← zeroed_lengths b, groups_unique hc (zeroed_groups ha) (zeroed_groups hb) (by rw [zeroed_flatten, zeroed_flatten, h])]

theorem view_congr {cap : Nat} {a b : List (List Bytes)} {s : Storage} (v : View cap a s) (hb : Groups cap b) (h : a.map (List.map List.length) = b.map (List.map List.length)) :
    View cap b s := by
  have hlen : a.length = b.length := by simpa using congrArg List.length h
  have hlast : (a.getLast?.getD []).length = (b.getLast?.getD []).length := by
    have := congrArg (fun l => (l.getLast?.getD []).length) h
    simp only [List.getLast?_map] at this
    cases ha : a.getLast? <;> cases hb : b.getLast? <;> simp_all
  exact ⟨hb, by rw [v.slots, anchor_congr 0 h], by rw [v.loc, hlast, hlen]⟩

/-- **C115.** A reader has loaded all packets of a file. The file is cut short (the cut leaves the tables that are not written again) while its writer is open; the reader may be
reloaded in between, with whatever result. Then packets are inserted, calmly. The next `reload` succeeds and counts what is new, and the reader then has all packets:
it finds those that were left whole and the new ones, and returns an error for one of which nothing was left. -/
theorem C115_follow {cap : Nat} (hc : 2 ≤ cap) {chk : Bool} {ops more : List (Op O Q)} {s s' : Storage} {w : Writer} {q : Packet O Q} (h : Watching cap chk ops s)
    (hw : runOps cap chk ops emptyWriter = some w) (hsk : Shaken cap chk w.data s s') (hok : ∀ p ∈ log ops ++ q :: log more, Storable S p)
    (hs : Small cap (log ops ++ q :: log more)) {k : Nat} (hk : k ≤ w.data.length) (ht : TablesLeft cap (log ops) k) (hcalm : Calm cap (log ops) (q :: log more)) :
    ∃ w1 w2 s'', Writer.insert cap { w with data := w.data.take k } q none = (.ok (), w1) ∧ runOps cap chk more w1 = some w2 ∧
      reloadReader cap chk s' w2.data =
        some (.ok (if (log ops).length % cap = 0 ∧ (log ops ++ q :: log more).length % cap = 0 then (log more).length + 1 - cap else (log more).length + 1), s'') ∧
      s''.count cap = (log ops ++ q :: log more).length ∧
      (∀ i, i < (log ops).length → endOf cap (log ops) i ≤ k → s''.nth cap chk w2.data i = .ok (log ops)[i]?) ∧
      (∀ i, i < (log ops).length → k ≤ startOf cap (log ops) i → s''.nth (O := O) (Q := Q) cap chk w2.data i = .err .sigDismatch) ∧
      ∀ i, (log ops).length ≤ i → s''.nth cap chk w2.data i = .ok (log ops ++ q :: log more)[i]? := by
  have hc0 : 0 < cap := by omega
  have hok0 : ∀ p ∈ log ops, p.Ok S := fun p hp => (hok p (by simp [hp])).ok
  -- the reader before the inserts
  obtain ⟨w', gs, e', inv, f⟩ := runOps_inv (S := S) hc0 chk ops (ps := []) (empty_inv cap) rfl hok0 (by rw [List.nil_append]; exact hs.left)
  rw [hw] at e'
  injection e' with e'
  subst e'
  rw [List.nil_append] at f
  obtain ⟨gs1, v, f1⟩ := h.view (S := S) hc0 hok0 hs.left
  have hgg : gs1 = gs := groups_unique hc0 v.groups inv.groups (by rw [f, f1])
  subst hgg
  rw [inv.data] at hsk
  have v' := hsk.view hc v f (small_file hc0 inv.groups f hs.left)
  -- the file had it not been cut
  obtain ⟨u, gu, _, iu, fu⟩ := runOps_inv (S := S) hc0 chk (Op.insert q :: more) inv f (fun p hp => (hok p (by rw [log] at hp; exact List.mem_append_right _ hp)).ok) hs
  rw [log] at fu
  have hlu := small_file hc0 iu.groups fu hs
  obtain ⟨s'', er, vu⟩ := reload_step hc0 (chk := chk) v' iu.groups f fu hcalm hlu
  -- the file as it is
  obtain ⟨w1, w2, gs3, e1, e2, i2, hlen, all⟩ := cut_file (S := S) hc0 hw hok hs hk ht
  have hm : gs3.map (List.map List.length) = gu.map (List.map List.length) := groups_lengths hc0 i2.groups iu.groups (by
    rw [hlen, fu, List.map_map]
    rfl)
  refine ⟨w1, w2, s'', e1, e2, ?_, all s'' (view_congr vu i2.groups hm.symm)⟩
  rw [i2.data, reload_congr hc0 chk v' iu.groups i2.groups (ext := (q :: log more).map wire) (by rw [fu, f, List.map_append]) hm hlu, er]
  simp

/-- **C115, before the reload.** Until it is reloaded the reader has the packets it had: it finds those that were left whole, returns an error for one of which nothing was left,
and knows nothing of the new ones. -/
theorem C115_before {cap : Nat} (hc : 2 ≤ cap) {chk : Bool} {ops more : List (Op O Q)} {s s' : Storage} {w : Writer} {q : Packet O Q} (h : Watching cap chk ops s)
    (hw : runOps cap chk ops emptyWriter = some w) (hsk : Shaken cap chk w.data s s') (hok : ∀ p ∈ log ops ++ q :: log more, Storable S p)
    (hs : Small cap (log ops ++ q :: log more)) {k : Nat} (hk : k ≤ w.data.length) (ht : TablesLeft cap (log ops) k) :
    ∃ w1 w2, Writer.insert cap { w with data := w.data.take k } q none = (.ok (), w1) ∧ runOps cap chk more w1 = some w2 ∧ s'.count cap = (log ops).length ∧
      (∀ i, i < (log ops).length → endOf cap (log ops) i ≤ k → s'.nth cap chk w2.data i = .ok (log ops)[i]?) ∧
      (∀ i, i < (log ops).length → k ≤ startOf cap (log ops) i → s'.nth (O := O) (Q := Q) cap chk w2.data i = .err .sigDismatch) ∧
      ∀ i, (log ops).length ≤ i → s'.nth (O := O) (Q := Q) cap chk w2.data i = .ok none := by
  have hc0 : 0 < cap := by omega
  have hok0 : ∀ p ∈ log ops, p.Ok S := fun p hp => (hok p (by simp [hp])).ok
  obtain ⟨w', gs, e', inv, f⟩ := runOps_inv (S := S) hc0 chk ops (ps := []) (empty_inv cap) rfl hok0 (by rw [List.nil_append]; exact hs.left)
  rw [hw] at e'
  injection e' with e'
  subst e'
  rw [List.nil_append] at f
  obtain ⟨gs1, v, f1⟩ := h.view (S := S) hc0 hok0 hs.left
  have hgg : gs1 = gs := groups_unique hc0 v.groups inv.groups (by rw [f, f1])
  subst hgg
  rw [inv.data] at hsk
  have v' := hsk.view hc v f (small_file hc0 inv.groups f hs.left)
  have hn : gs1.flatten.length = (log ops).length := by rw [f, List.length_map]
  obtain ⟨w1, w2, gs3, e1, e2, i2, hlen, all⟩ := cut_file (S := S) hc0 hw hok hs hk ht
  have hn3 : gs3.flatten.length = (log ops ++ q :: log more).length := by
    have := congrArg List.length hlen
    rwa [List.length_map, List.length_map] at this
  rw [List.length_append] at hn3
  obtain ⟨s3, _, v3⟩ := open_reader hc0 i2.groups (small_lengths hc0 i2.groups hlen hs) chk
  -- a packet is where it was
  have same : ∀ i, i < (log ops).length → s'.nth (O := O) (Q := Q) cap chk w2.data i = s3.nth cap chk w2.data i := by
    intro i hi
    have h1 : i < gs1.flatten.length := by omega
    have h3 : i < gs3.flatten.length := by omega
    obtain ⟨a, _, ho, _, ha⟩ := offsetOf_some hc0 v'.groups v'.inner (List.getElem?_eq_getElem h1)
    obtain ⟨b, _, ho3, _, hb⟩ := offsetOf_some hc0 v3.groups v3.inner (List.getElem?_eq_getElem h3)
    have hpa : a.length = placeOf cap gs1 i := ha
    have hpb : b.length = placeOf cap gs3 i := hb
    have hab : a.length = b.length := by
      rw [hpa, hpb, placeOf_closed hc0 v'.groups h1, placeOf_closed hc0 v3.groups h3, List.length_flatten, List.length_flatten, List.map_take, List.map_take, hlen, f,
        List.map_append, List.take_append_of_le_length (by rw [List.length_map]; omega), List.map_map]
      rfl
    unfold Storage.nth
    rw [ho, ho3, hab]
  obtain ⟨_, hwhole, hgone, _⟩ := all s3 v3
  refine ⟨w1, w2, e1, e2, by rw [v'.count, hn], fun i hi he => by rw [same i hi, hwhole i hi he], fun i hi he => by rw [same i hi, hgone i hi he], fun i hi => ?_⟩
  unfold Storage.nth
  rw [offsetOf_none hc0 v'.groups v'.inner (List.getElem?_eq_none (by omega))]

/-- Two packets in a slot for three, and a reader. The file is emptied for a moment, in which the reader is reloaded; then it has its table and the first packet, and a third packet
is inserted. The reader still has two packets, and finds the first. Reloaded, it finds one new packet. It has the first and the third, and returns an error for the second. -/
example (chk : Bool) : ∃ w s s1 w1 s2, runOps 3 chk twoPackets emptyWriter = some w ∧ openReader chk w.data = some (.ok s) ∧
    (∃ r, reloadReader 3 chk s [] = some (r, s1)) ∧ Writer.insert 3 { w with data := w.data.take 169 } samplePacket none = (.ok (), w1) ∧
    (s1.count 3 = 2 ∧ s1.nth 3 chk w1.data 0 = .ok (some samplePacket)) ∧ reloadReader 3 chk s1 w1.data = some (.ok 1, s2) ∧ s2.count 3 = 3 ∧ s2.nth 3 chk w1.data 0 = .ok (some samplePacket) ∧
    s2.nth (O := blockEnum sampleTypes) (Q := PEnum.ops []) 3 chk w1.data 1 = .err .sigDismatch ∧ s2.nth 3 chk w1.data 2 = .ok (some samplePacket) := by
  have hok : ∀ p ∈ log twoPackets ++ samplePacket :: log ([] : List (Op (blockEnum sampleTypes) (PEnum.ops []))), Storable sampleSpec p := by
    intro p hp
    rcases List.mem_append.mp hp with hp | hp
    · exact twoPackets_storable p hp
    · rw [List.mem_singleton.mp hp]; exact sample_storable
  have hs : Small 3 (log twoPackets ++ samplePacket :: log ([] : List (Op (blockEnum sampleTypes) (PEnum.ops [])))) := by
    rw [twoPackets_log]
    unfold Small
    simp only [log, List.map_append, List.map_cons, List.map_nil, wire_sample_length, wire_other_length]
    decide
  obtain ⟨w, gs, hw, inv, f⟩ := runOps_inv (S := sampleSpec) (cap := 3) (by decide) chk twoPackets (ps := []) (empty_inv _) rfl
    (fun p hp => (twoPackets_storable p hp).ok) (by rw [List.nil_append]; exact hs.left)
  rw [List.nil_append] at f
  have hl := small_file (by decide) inv.groups f hs.left
  obtain ⟨s, es, v⟩ := open_reader (by decide) inv.groups hl chk
  have hlen : 169 ≤ (fileOf 3 gs).length := by
    have hne : gs ≠ [] := by rintro rfl; rw [twoPackets_log] at f; cases f
    have := List.length_pos_iff.mpr hne
    rw [length_fileOf inv.groups.group, f, twoPackets_log]
    simp only [List.map_cons, List.map_nil, List.flatten_cons, List.flatten_nil, List.length_append, wire_sample_length, wire_other_length]
    omega
  obtain ⟨s1, e1, _⟩ := shrunk_view (chk := chk) (by decide) v f hl (k := 0) (by omega)
  have hr : Reached 3 chk twoPackets w.data s := ⟨⟨w, hw, rfl⟩, by rw [inv.data]; exact es⟩
  have hsk : Shaken 3 chk w.data s s1 := .reloaded .none (k := 0) (by rw [inv.data]; omega) (by rw [inv.data]; exact e1)
  have hk : 169 ≤ w.data.length := by rw [inv.data]; exact hlen
  have ht : TablesLeft 3 (log twoPackets) 169 := by
    rw [twoPackets_log]
    exact ⟨fun _ => by simp [slotAt], fun h => absurd h (by decide)⟩
  obtain ⟨w3, w4, e5, e6, b1, b2, _⟩ := C115_before (S := sampleSpec) (more := []) (by decide) (.opened hr) hw hsk hok hs hk ht
  obtain ⟨w1, w2, s2, e2, e3, e4, h1, h2, h3, h4⟩ := C115_follow (S := sampleSpec) (more := []) (by decide) (.opened hr) hw hsk hok hs hk ht
    (C37_single (S := sampleSpec) (by decide) _ sample_storable.ok (by rw [wire_sample_length]; decide))
  have e3 : w1 = w2 := by injection e3
  subst e3
  have e7 : w3 = w1 := by
    rw [e5] at e2
    injection e2
  subst e7
  have e6 : w3 = w4 := by injection e6
  subst e6
  rw [twoPackets_log] at b1 b2 e4 h1 h2 h3 h4
  refine ⟨w, s, s1, w3, s2, hw, by rw [inv.data]; exact es, ⟨_, e1⟩, e2, ⟨b1, b2 0 (by decide) ?_⟩, e4, h1, h2 0 (by decide) ?_, h3 1 (by decide) ?_, h4 2 (by decide)⟩
  · simp [endOf, wire_sample_length]
  · simp [endOf, wire_sample_length]
  · simp [startOf, wire_sample_length]

end Brec.Props
