import Verif.Props.StorageShrink
/-!
# Reloading while a file is shorter, and after it is back (C113)
-/

namespace Brec.Props

open Rd

variable {O : BlockOps} {Q : PayloadOps} {S : BlockSpec O}

/-- A reader was reloaded any number of times while only the beginning of the file was there: each time another part of it. Results do not matter, also panics do not. -/
inductive Shaken (cap : Nat) (chk : Bool) (data : Bytes) : Storage → Storage → Prop
  | none {s : Storage} : Shaken cap chk data s s
  | reloaded {s s1 s2 : Storage} {k : Nat} {r : Out Nat} : Shaken cap chk data s s1 → k < data.length → reloadReader cap chk s1 (data.take k) = some (r, s2) →
      Shaken cap chk data s s2

theorem Shaken.view {cap : Nat} (hc : 2 ≤ cap) {chk : Bool} {gs : List (List Bytes)} {s s' : Storage} {ps : List (Packet O Q)} (v : View cap gs s)
    (f : gs.flatten = ps.map wire) (hl : (fileOf cap gs).length < 2 ^ 63) (h : Shaken cap chk (fileOf cap gs) s s') : View cap gs s' := by
  induction h with
  | none => exact v
  | reloaded _ hk hr ih =>
    obtain ⟨s'', e, h1, h2⟩ := shrunk_view (chk := chk) hc ih f hl hk
    rw [e] at hr
    injection hr with hr
    injection hr with _ hr
    subst hr
    exact ⟨v.groups, by rw [h1, ih.slots], by rw [h2, ih.loc]⟩

/-- **C113.** A reader has loaded all packets of a file. Then it is reloaded any number of times while only a part of the file is there. Once the file is back the reader shows
all packets, whatever the reloads returned, and without another one. If the file has grown (calmly, in the sense of C37), the next `reload` succeeds and the reader
shows all packets. -/
theorem C113_back {cap : Nat} (hc : 2 ≤ cap) {chk : Bool} {ops : List (Op O Q)} {s s0 s' : Storage} {data : Bytes} (h : Watching cap chk ops s)
    (hr : Reached cap chk ops data s0) (hk : Shaken cap chk data s s') :
    ((∀ p ∈ log ops, Storable S p) → Small cap (log ops) → Shows cap chk s' data (log ops)) ∧
    ∀ (ops2 : List (Op O Q)) (w : Writer), runOps cap chk (ops ++ ops2) emptyWriter = some w → (∀ p ∈ log (ops ++ ops2), Storable S p) →
      Small cap (log (ops ++ ops2)) → Calm cap (log ops) (log ops2) →
      ∃ s'', reloadReader cap chk s' w.data =
          some (.ok (if (log ops).length % cap = 0 ∧ log ops2 ≠ [] ∧ (log (ops ++ ops2)).length % cap = 0 then (log ops2).length - cap else (log ops2).length), s'') ∧
        Shows cap chk s'' w.data (log (ops ++ ops2)) := by
  have hc0 : 0 < cap := by omega
  have key : (∀ p ∈ log ops, Storable S p) → Small cap (log ops) →
      ∃ gs, View cap gs s' ∧ data = fileOf cap gs ∧ gs.flatten = (log ops).map wire ∧ (fileOf cap gs).length < 2 ^ 63 := by
    intro hok hs
    obtain ⟨gs, v1, hd, f, hl⟩ := hr.view hc0 (fun p hp => (hok p hp).ok) hs
    obtain ⟨gs', v, f'⟩ := h.view (S := S) hc0 (fun p hp => (hok p hp).ok) hs
    have hgg : gs' = gs := groups_unique hc0 v.groups v1.groups (by rw [f, f'])
    subst hgg
    rw [hd] at hk hl
    exact ⟨gs', hk.view hc v f hl, hd, f, hl⟩
  refine ⟨fun hok hs => ?_, fun ops2 w hw hok hs hcalm => ?_⟩
  · obtain ⟨gs, v, hd, f, hl⟩ := key hok hs
    rw [hd]
    exact view_shows hc0 chk v f hok hl
  · obtain ⟨w', gs', e', i, f'⟩ := runOps_inv (S := S) hc0 chk (ops ++ ops2) (ps := []) (empty_inv cap) rfl (fun p hp => (hok p hp).ok) hs
    rw [hw] at e'
    injection e' with e'
    subst e'
    rw [List.nil_append] at f'
    have hl := small_file hc0 i.groups f' hs
    have hsh : ∀ s', View cap gs' s' → Shows cap chk s' w.data (log (ops ++ ops2)) := fun s' v => by
      rw [i.data]; exact view_shows hc0 chk v f' hok hl
    rw [log_append] at hok hs f' hsh ⊢
    obtain ⟨gs, v, _, f, _⟩ := key (fun p hp => hok p (by simp [hp])) hs.left
    obtain ⟨s'', e, v'⟩ := reload_step hc0 (chk := chk) v i.groups f f' hcalm hl
    exact ⟨s'', by rw [i.data]; exact e, hsh s'' v'⟩

/-- Two packets in a slot for two; a reload fails on the empty file, and another one on the file without its last byte. The reader still shows both packets of the
whole file. -/
example (chk : Bool) : ∃ data s s1 s', Reached 2 chk twoPackets data s ∧ s.slots ≠ [] ∧
    reloadReader 2 chk s [] = some (if chk then .panic else .err .io, s1) ∧ reloadReader 2 chk s1 (data.take (data.length - 1)) = some (if chk then .panic else .err .io, s') ∧
    Shows 2 chk s' data [samplePacket, otherPacket] := by
  have hok : ∀ p ∈ log twoPackets, p.Ok sampleSpec := fun p hp => (twoPackets_storable p hp).ok
  obtain ⟨data, s, hr⟩ := Reached.exists (S := sampleSpec) (cap := 2) (by decide) chk twoPackets twoPackets_storable twoPackets_small_two
  obtain ⟨gs, v, hd, f, hl⟩ := hr.view (S := sampleSpec) (by decide) hok twoPackets_small_two
  have hne : gs ≠ [] := by rintro rfl; rw [twoPackets_log] at f; cases f
  have hpos : 0 < data.length := by
    obtain ⟨g, gs', rfl⟩ := List.exists_cons_of_ne_nil hne
    rw [hd, fileOf_cons, List.length_append, region_length (v.groups.group g (by simp)).le]; omega
  have hcut : ∀ k, k < data.length → k < slotAt 2 (log twoPackets) ((log twoPackets).length / 2) := by
    intro k hk
    obtain ⟨j, hj, _, h2⟩ := C102_cases (S := sampleSpec) (by decide) hr hok twoPackets_small_two hk
    refine Nat.lt_of_lt_of_le h2 (slotAt_mono 2 _ ?_)
    rw [twoPackets_log] at hj ⊢
    simp only [List.length_cons, List.length_nil] at hj ⊢
    omega
  have step : ∀ {s : Storage}, View 2 gs s → ∀ k, k < data.length → ∃ s', reloadReader 2 chk s (data.take k) = some (if chk then .panic else .err .io, s') ∧ View 2 gs s' := by
    intro s v k hk
    have h0 := hcut k hk
    rw [hd] at hk ⊢
    obtain ⟨s', e, h1, h2⟩ := shrunk_view (chk := chk) (by decide) v f (by rw [← hd]; exact hl) hk
    rw [shrunk, if_pos h0] at e
    exact ⟨s', e, v.groups, by rw [h1, v.slots], by rw [h2, v.loc]⟩
  obtain ⟨s1, e1, v1⟩ := step v 0 hpos
  obtain ⟨s2, e2, _⟩ := step v1 (data.length - 1) (by omega)
  refine ⟨data, s, s1, s2, hr, ?_, e1, e2, ?_⟩
  · intro h0
    have := v.inner
    rw [h0] at this
    exact hne (List.map_eq_nil_iff.mp this.symm)
  · have := (C113_back (S := sampleSpec) (by decide) (.opened hr) hr (.reloaded (.reloaded .none hpos e1) (by omega) e2)).1 twoPackets_storable twoPackets_small_two
    rwa [twoPackets_log] at this

end Brec.Props
