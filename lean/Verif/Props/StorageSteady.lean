import Verif.Props.StorageTailFilter
/-!
# C119: following a storage without looking at what `reload` returns

`reload` may return too small a number (C98) and may fail to notice new packets (C37, equal checksums). A program that looks at neither, and reads on from what it has shown to
what the reader knows, is right all the same, as long as no slot is begun behind one that the reader knows in part.
-/

namespace Brec.Props

open Brec Rd

variable {O : BlockOps} {Q : PayloadOps} {S : BlockSpec O}

/-! ## Specification -/

/-- A program opens a storage, whose packets count as shown, and then in each round, after any batch of the writer, calls `reload`, and reads on (`read`: with
`range` or `range_filtered`) from the number of packets that the reader knew to the number it knows. The last argument is all that has been shown; `news` says what of the packets counts as
shown at first. The writer stays within the slot in which the packets known to the reader end, unless that slot is full. -/
inductive Steady (cap : Nat) (chk : Bool) (read : Storage → Bytes → Nat → List (Out (Packet O Q)) → Prop) (news : List (Packet O Q) → List (Out (Packet O Q))) :
    List (Op O Q) → Storage → List (Out (Packet O Q)) → Prop
  | opened {ops : List (Op O Q)} {data : Bytes} {s : Storage} : Reached cap chk ops data s → Steady cap chk read news ops s (news (log ops))
  | round {ops b : List (Op O Q)} {s s' : Storage} {w : Writer} {r : Out Nat} {l shown : List (Out (Packet O Q))} : Steady cap chk read news ops s shown →
      runOps cap chk (ops ++ b) emptyWriter = some w → (s.count cap % cap = 0 ∨ (log (ops ++ b)).length ≤ (s.count cap / cap + 1) * cap) →
      reloadReader cap chk s w.data = some (r, s') → read s' w.data (s.count cap) l → Steady cap chk read news (ops ++ b) s' (shown ++ l)

/-! ## Lemmas -/

/-- `reload` does not notice packets in the slot in use if its checksum has not changed. -/
theorem quiet_same {cap : Nat} (hc : 0 < cap) {chk : Bool} {gs gs' : List (List Bytes)} {s : Storage} (v : View cap gs s) (hg' : Groups cap gs') {ps qs : List (Packet O Q)}
    (f : gs.flatten = ps.map wire) (f' : gs'.flatten = (ps ++ qs).map wire) (hl : (fileOf cap gs').length < 2 ^ 63) (h0 : ps.length % cap ≠ 0) (hb : ps.length % cap + qs.length ≤ cap)
    (hcrc : slotCrc cap (ps.length / cap) ps = slotCrc cap (ps.length / cap) (ps ++ qs)) : reloadReader cap chk s (fileOf cap gs') = some (.ok 0, s) := by
  have hext : gs'.flatten = gs.flatten ++ qs.map wire := by rw [f', f, List.map_append]
  rcases grown hc v.groups hg' hext with ⟨more, haf, _, _, _⟩ | ⟨init, g, rfl, hlt, rfl⟩ | ⟨init, more, g, a, rfl, hlt, hga, rfl, hne⟩
  · exact absurd (full_mod haf f) h0
  · have hpm := part_mod v.groups hlt f
    rw [hpm.2.1, slotCrc_eq v.groups f, slotCrc_eq hg' f'] at hcrc
    have := v.reload_same hlt (hg'.group _ (by simp)).le hcrc (rest := []) hl (chk := chk) (fuel := (fileOf cap (init ++ [g ++ qs.map wire])).length + 1) (by omega)
    rw [List.append_nil] at this
    exact this
  · exfalso
    have hpm := part_mod v.groups hlt f
    have haf : AllFull cap (init ++ [g ++ a]) := by
      intro x hx
      rcases List.mem_append.mp hx with hx | hx
      · exact v.groups.split.1 x hx
      · rw [List.mem_singleton.mp hx]; exact ⟨hg'.group _ (by simp), hga⟩
    have h1 := congrArg List.length hext
    obtain ⟨x, l, rfl⟩ := List.exists_cons_of_ne_nil hne
    have hx := List.length_pos_iff.mpr (hg'.ne x (by simp))
    rw [List.flatten_append, List.length_append, length_flatten_full haf, List.length_append (bs := List.map wire _), List.flatten_append (L₁ := init), List.length_append (as := init.flatten), length_flatten_full v.groups.split.1] at h1
    simp only [List.length_append, List.length_cons, List.length_nil, List.flatten_cons, List.flatten_nil, List.append_nil, Nat.add_mul, List.length_map] at h1
    rw [hpm.1] at hb
    omega

/-- What one round does: everything is known afterwards, or the reader is as it was. -/
theorem steady_round {cap : Nat} (hc : 0 < cap) {chk : Bool} {gs gs' : List (List Bytes)} {s : Storage} (v : View cap gs s) (hg' : Groups cap gs') {ps qs : List (Packet O Q)}
    (f : gs.flatten = ps.map wire) (f' : gs'.flatten = (ps ++ qs).map wire) (hl : (fileOf cap gs').length < 2 ^ 63)
    (hfit : ps.length % cap = 0 ∨ (ps ++ qs).length ≤ (ps.length / cap + 1) * cap) :
    ∃ n s', reloadReader cap chk s (fileOf cap gs') = some (.ok n, s') ∧
      (View cap gs' s' ∨ (s' = s ∧ ps.length % cap ≠ 0 ∧ slotCrc cap (ps.length / cap) ps = slotCrc cap (ps.length / cap) (ps ++ qs))) := by
  by_cases hcalm : Calm cap ps qs
  · obtain ⟨s', e, v'⟩ := reload_step hc (chk := chk) v hg' f f' hcalm hl
    exact ⟨_, s', e, .inl v'⟩
  · have h0 : ps.length % cap ≠ 0 := fun h => hcalm (.inl h)
    have hb : ps.length % cap + qs.length ≤ cap := by
      have h1 := hfit.resolve_left h0
      have h2 := Nat.div_add_mod ps.length cap
      rw [List.length_append, Nat.add_mul, Nat.one_mul, Nat.mul_comm] at h1
      omega
    have hcrc : slotCrc cap (ps.length / cap) ps = slotCrc cap (ps.length / cap) (ps ++ qs) := Classical.byContradiction fun h => hcalm (.inr ⟨hb, h⟩)
    exact ⟨0, s, quiet_same hc v hg' f f' hl h0 hb hcrc, .inr ⟨rfl, h0, hcrc⟩⟩

/-- Reading on with `read` shows `news` of the packets that follow, and nothing if none do. -/
structure ReadsOn (S : BlockSpec O) (cap : Nat) (read : Storage → Bytes → Nat → List (Out (Packet O Q)) → Prop) (news : List (Packet O Q) → List (Out (Packet O Q))) : Prop where
  append : ∀ a b, news (a ++ b) = news a ++ news b
  rest : ∀ {gs : List (List Bytes)} {s : Storage} {ps qs : List (Packet O Q)}, View cap gs s → gs.flatten = (ps ++ qs).map wire → (∀ p ∈ ps ++ qs, Storable S p) →
    ∀ l, read s (fileOf cap gs) ps.length l ↔ l = news qs
  none : ∀ {gs : List (List Bytes)} {s : Storage} {ps : List (Packet O Q)}, View cap gs s → gs.flatten = ps.map wire → ∀ data l, read s data ps.length l ↔ l = []

theorem reads_range {cap : Nat} (hc : 0 < cap) (chk : Bool) : ReadsOn (O := O) (Q := Q) S cap (byRange cap chk) (fun qs => qs.map .ok) where
  append a b := List.map_append
  rest := by
    intro gs s ps qs v f hok l
    unfold byRange
    have hcnt : s.count cap = (ps ++ qs).length := by rw [v.count, f, List.length_map]
    rw [range_det (view_log hc chk v f hok), hcnt, List.drop_left, List.take_of_length_le (by simp)]
  none v f data l := range_none v f data l

theorem reads_filtered {cap : Nat} (hc : 0 < cap) (rules : Rules O.BR (Packet O Q)) : ReadsOn S cap (byRangeFiltered cap rules) (fun qs => (qs.filter (accepted S rules)).map .ok) where
  append a b := by simp only [List.filter_append, List.map_append]
  rest v f hok l := filtered_rest hc rules v f hok l
  none v f data l := filtered_none rules v f data l

theorem Steady.view {cap : Nat} (hc : 0 < cap) {chk : Bool} {read : Storage → Bytes → Nat → List (Out (Packet O Q)) → Prop} {news : List (Packet O Q) → List (Out (Packet O Q))}
    (hR : ReadsOn S cap read news) {ops : List (Op O Q)} {s : Storage} {shown : List (Out (Packet O Q))} (h : Steady cap chk read news ops s shown) :
    (∀ p ∈ log ops, Storable S p) → Small cap (log ops) → ∃ gs ps qs, View cap gs s ∧ gs.flatten = ps.map wire ∧ log ops = ps ++ qs ∧ shown = news ps := by
  induction h with
  | opened h =>
    intro hok hs
    obtain ⟨gs, v, _, f, _⟩ := h.view hc (fun p hp => (hok p hp).ok) hs
    exact ⟨gs, _, [], v, f, (List.append_nil _).symm, rfl⟩
  | @round ops b s s' w r l shown _ hw hfit hr hl ih =>
    intro hok hs
    have hok0 := hok
    have hs0 := hs
    rw [log_append] at hok hs
    obtain ⟨gs, ps, qs, v, f, e, hsh⟩ := ih (fun p hp => hok p (by simp [hp])) hs.left
    obtain ⟨w', gs', e', i, f'⟩ := runOps_inv (S := S) hc chk (ops ++ b) (ps := []) (empty_inv cap) rfl (fun p hp => (hok0 p hp).ok) hs0
    rw [hw] at e'
    injection e' with e'
    subst e'
    rw [List.nil_append] at f'
    have hlen := small_file hc i.groups f' hs0
    have hcnt : s.count cap = ps.length := by rw [v.count, f, List.length_map]
    have eall : log (ops ++ b) = ps ++ (qs ++ log b) := by rw [log_append, e, List.append_assoc]
    rw [eall] at f' hfit
    rw [hcnt] at hfit hl
    obtain ⟨n, s2, er, hv⟩ := steady_round hc (chk := chk) v i.groups f f' hlen hfit
    rw [i.data, er] at hr
    injection hr with hr
    injection hr with _ hr
    subst hr
    rcases hv with v' | ⟨rfl, _, _⟩
    · refine ⟨gs', ps ++ (qs ++ log b), [], v', f', by rw [eall, List.append_nil], ?_⟩
      rw [i.data] at hl
      rw [hsh, (hR.rest v' f' (fun p hp => hok0 p (by rw [eall]; exact hp)) l).mp hl, ← hR.append]
    · refine ⟨gs, ps, qs ++ log b, v, f, eall, ?_⟩
      rw [(hR.none v f _ l).mp hl, List.append_nil, hsh]

theorem Steady.prefix {cap : Nat} (hc : 0 < cap) {chk : Bool} {read : Storage → Bytes → Nat → List (Out (Packet O Q)) → Prop} {news : List (Packet O Q) → List (Out (Packet O Q))}
    (hR : ReadsOn S cap read news) {ops : List (Op O Q)} {s : Storage} {shown : List (Out (Packet O Q))} (h : Steady cap chk read news ops s shown)
    (hok : ∀ p ∈ log ops, Storable S p) (hs : Small cap (log ops)) : s.count cap ≤ (log ops).length ∧ shown = news ((log ops).take (s.count cap)) := by
  obtain ⟨gs, ps, qs, v, f, e, rfl⟩ := h.view (S := S) hc hR hok hs
  have hcnt : s.count cap = ps.length := by rw [v.count, f, List.length_map]
  rw [hcnt, e, List.take_left]
  exact ⟨by simp, rfl⟩

theorem Steady.next {cap : Nat} (hc : 0 < cap) {chk : Bool} {read : Storage → Bytes → Nat → List (Out (Packet O Q)) → Prop} {news : List (Packet O Q) → List (Out (Packet O Q))}
    (hR : ReadsOn S cap read news) {ops b : List (Op O Q)} {s : Storage} {w : Writer} {shown : List (Out (Packet O Q))} (h : Steady cap chk read news ops s shown)
    (hw : runOps cap chk (ops ++ b) emptyWriter = some w) (hok : ∀ p ∈ log (ops ++ b), Storable S p) (hs : Small cap (log (ops ++ b)))
    (hfit : s.count cap % cap = 0 ∨ (log (ops ++ b)).length ≤ (s.count cap / cap + 1) * cap) :
    ∃ n s', reloadReader cap chk s w.data = some (.ok n, s') ∧ s.count cap ≤ s'.count cap ∧
      read s' w.data (s.count cap) (news (((log (ops ++ b)).take (s'.count cap)).drop (s.count cap))) ∧
      (s.count cap % cap = 0 ∨ slotCrc cap (s.count cap / cap) ((log ops).take (s.count cap)) ≠ slotCrc cap (s.count cap / cap) (log (ops ++ b)) →
        s'.count cap = (log (ops ++ b)).length) := by
  have hok0 := hok
  have hs0 := hs
  rw [log_append] at hok hs
  obtain ⟨gs, ps, qs, v, f, e, rfl⟩ := h.view (S := S) hc hR (fun p hp => hok p (by simp [hp])) hs.left
  obtain ⟨w', gs', e', i, f'⟩ := runOps_inv (S := S) hc chk (ops ++ b) (ps := []) (empty_inv cap) rfl (fun p hp => (hok0 p hp).ok) hs0
  rw [hw] at e'
  injection e' with e'
  subst e'
  rw [List.nil_append] at f'
  have hlen := small_file hc i.groups f' hs0
  have hcnt : s.count cap = ps.length := by rw [v.count, f, List.length_map]
  have eall : log (ops ++ b) = ps ++ (qs ++ log b) := by rw [log_append, e, List.append_assoc]
  rw [eall] at f' hfit
  rw [hcnt] at hfit
  obtain ⟨n, s', er, hv⟩ := steady_round hc (chk := chk) v i.groups f f' hlen hfit
  refine ⟨n, s', by rw [i.data]; exact er, ?_⟩
  rw [hcnt, e, List.take_left, eall]
  rcases hv with v' | ⟨rfl, h0, hcrc⟩
  · have hc2 : s'.count cap = (ps ++ (qs ++ log b)).length := by rw [v'.count, f', List.length_map]
    refine ⟨by rw [hc2]; simp, ?_, fun _ => hc2⟩
    rw [i.data, hc2, List.take_length, List.drop_left]
    exact (hR.rest v' f' (fun p hp => hok0 p (by rw [eall]; exact hp)) _).mpr rfl
  · refine ⟨by rw [hcnt]; exact Nat.le_refl _, ?_, ?_⟩
    · rw [hcnt, List.drop_eq_nil_of_le (by rw [List.length_take]; omega)]
      refine (hR.none v f _ _).mpr ?_
      have := hR.append [] []
      rw [List.append_nil] at this
      exact List.self_eq_append_left.mp this
    · rintro (h | h)
      · exact absurd h h0
      · exact absurd hcrc h

/-! ## What holds -/

/-- **C119.** All that has been shown is the beginning of the log, as far as the reader knows it: no packet twice, none left out, none out of order. Whatever `reload` returned, and whether or
not it has noticed all packets. -/
theorem C119_shown {cap : Nat} (hc : 0 < cap) {chk : Bool} {ops : List (Op O Q)} {s : Storage} {shown : List (Out (Packet O Q))}
    (h : Steady cap chk (byRange cap chk) (fun qs => qs.map .ok) ops s shown) (hok : ∀ p ∈ log ops, Storable S p) (hs : Small cap (log ops)) :
    s.count cap ≤ (log ops).length ∧ shown = ((log ops).take (s.count cap)).map .ok :=
  h.prefix hc (reads_range hc chk) hok hs

/-- **C119, with a filter.** The same with `range_filtered`: of the packets that the reader knows, exactly the accepted ones have been shown, once and in order. -/
theorem C119_filtered {cap : Nat} (hc : 0 < cap) {chk : Bool} {rules : Rules O.BR (Packet O Q)} {ops : List (Op O Q)} {s : Storage} {shown : List (Out (Packet O Q))}
    (h : Steady cap chk (byRangeFiltered cap rules) (fun qs => (qs.filter (accepted S rules)).map .ok) ops s shown)
    (hok : ∀ p ∈ log ops, Storable S p) (hs : Small cap (log ops)) :
    s.count cap ≤ (log ops).length ∧ shown = (((log ops).take (s.count cap)).filter (accepted S rules)).map .ok :=
  h.prefix hc (reads_filtered hc rules) hok hs

/-- **C119, the next round.** `reload` succeeds, and the packets that have become known are read; and afterwards the reader knows the whole log, unless the slot in which the packets known to
it end is not full and has the same checksum as before. -/
theorem C119_next {cap : Nat} (hc : 0 < cap) {chk : Bool} {ops b : List (Op O Q)} {s : Storage} {w : Writer} {shown : List (Out (Packet O Q))}
    (h : Steady cap chk (byRange cap chk) (fun qs => qs.map .ok) ops s shown)
    (hw : runOps cap chk (ops ++ b) emptyWriter = some w) (hok : ∀ p ∈ log (ops ++ b), Storable S p) (hs : Small cap (log (ops ++ b)))
    (hfit : s.count cap % cap = 0 ∨ (log (ops ++ b)).length ≤ (s.count cap / cap + 1) * cap) :
    ∃ n s', reloadReader cap chk s w.data = some (.ok n, s') ∧ s.count cap ≤ s'.count cap ∧
      byRange cap chk s' w.data (s.count cap) ((((log (ops ++ b)).take (s'.count cap)).drop (s.count cap)).map .ok) ∧
      (s.count cap % cap = 0 ∨ slotCrc cap (s.count cap / cap) ((log ops).take (s.count cap)) ≠ slotCrc cap (s.count cap / cap) (log (ops ++ b)) →
        s'.count cap = (log (ops ++ b)).length) :=
  h.next hc (reads_range hc chk) hw hok hs hfit

/-- **C119, the next round, with a filter.** -/
theorem C119_next_filtered {cap : Nat} (hc : 0 < cap) {chk : Bool} {rules : Rules O.BR (Packet O Q)} {ops b : List (Op O Q)} {s : Storage} {w : Writer} {shown : List (Out (Packet O Q))}
    (h : Steady cap chk (byRangeFiltered cap rules) (fun qs => (qs.filter (accepted S rules)).map .ok) ops s shown)
    (hw : runOps cap chk (ops ++ b) emptyWriter = some w) (hok : ∀ p ∈ log (ops ++ b), Storable S p) (hs : Small cap (log (ops ++ b)))
    (hfit : s.count cap % cap = 0 ∨ (log (ops ++ b)).length ≤ (s.count cap / cap + 1) * cap) :
    ∃ n s', reloadReader cap chk s w.data = some (.ok n, s') ∧ s.count cap ≤ s'.count cap ∧
      byRangeFiltered cap rules s' w.data (s.count cap) (((((log (ops ++ b)).take (s'.count cap)).drop (s.count cap)).filter (accepted S rules)).map .ok) ∧
      (s.count cap % cap = 0 ∨ slotCrc cap (s.count cap / cap) ((log ops).take (s.count cap)) ≠ slotCrc cap (s.count cap / cap) (log (ops ++ b)) →
        s'.count cap = (log (ops ++ b)).length) :=
  h.next hc (reads_filtered hc rules) hw hok hs hfit

/-- The hypotheses are met, where the number that `reload` returns is wrong: a slot of two packets is filled at once, `reload` says that there is nothing new (C37), and both packets are shown. -/
example (chk : Bool) : ∃ s s' w, Steady 2 chk (byRange 2 chk) (fun qs => qs.map .ok) ([] : List (Op (blockEnum sampleTypes) (PEnum.ops []))) s [] ∧ reloadReader 2 chk s (Writer.data w) = some (.ok 0, s') ∧
    Steady 2 chk (byRange 2 chk) (fun qs => qs.map .ok) [.insert samplePacket, .insert otherPacket] s' [.ok samplePacket, .ok otherPacket] := by
  obtain ⟨data, s, h⟩ := Reached.exists (S := sampleSpec) (cap := 2) (by decide) chk ([] : List (Op (blockEnum sampleTypes) (PEnum.ops []))) (by intro p hp; cases hp) (by simp [Small, log])
  have hok : ∀ p ∈ log ([] ++ [.insert samplePacket, .insert otherPacket] : List (Op (blockEnum sampleTypes) (PEnum.ops []))), Storable sampleSpec p := by
    intro p hp
    simp only [log, List.nil_append, List.mem_cons, List.not_mem_nil, or_false] at hp
    rcases hp with rfl | rfl
    · exact sample_storable
    · exact otherPacket_storable
  have hs : Small 2 (log ([] ++ [.insert samplePacket, .insert otherPacket] : List (Op (blockEnum sampleTypes) (PEnum.ops [])))) := by
    simp [Small, log, wire_sample_length, wire_other_length]
  obtain ⟨w, gs', ew, _, _⟩ := runOps_inv (S := sampleSpec) (by decide : 0 < 2) chk ([] ++ [.insert samplePacket, .insert otherPacket]) (ps := []) (empty_inv 2) (by simp) (fun p hp => (hok p hp).ok) (by rw [List.nil_append]; exact hs)
  have hst : Steady 2 chk (byRange 2 chk) (fun qs => qs.map .ok) ([] : List (Op (blockEnum sampleTypes) (PEnum.ops []))) s [] := .opened h
  have hcnt : s.count 2 = 0 := by
    have := (C119_shown (S := sampleSpec) (by decide) hst (by intro p hp; cases hp) (by simp [Small, log])).1
    simpa [log] using this
  obtain ⟨n, s', er, _, hb, hall⟩ := C119_next (S := sampleSpec) (by decide) hst ew hok hs (.inl (by rw [hcnt]))
  have hall := hall (.inl (by rw [hcnt]))
  obtain ⟨s2, e2, _⟩ := C37_reload_partial (S := sampleSpec) (cap := 2) (by decide) (.opened h) ew hok hs (.inl rfl)
  rw [er, if_pos (by rw [List.nil_append]; exact ⟨rfl, List.cons_ne_nil _ _, rfl⟩)] at e2
  have hn : n = 0 := by
    have e3 := Option.some.inj e2
    have e4 := Out.ok.inj (Prod.mk.inj e3).1
    rw [e4]
    rfl
  subst hn
  refine ⟨s, s', w, hst, er, ?_⟩
  have := Steady.round hst ew (.inl (by rw [hcnt])) er hb
  rwa [hall, hcnt] at this

/-- The same with a rule that refuses the first packet. -/
example (chk : Bool) : ∃ s s' w, Steady 2 chk (byRangeFiltered 2 noSample) (fun qs => (qs.filter (accepted sampleSpec noSample)).map .ok) ([] : List (Op (blockEnum sampleTypes) (PEnum.ops []))) s [] ∧ reloadReader 2 chk s (Writer.data w) = some (.ok 0, s') ∧
    Steady 2 chk (byRangeFiltered 2 noSample) (fun qs => (qs.filter (accepted sampleSpec noSample)).map .ok) [.insert samplePacket, .insert otherPacket] s' [.ok otherPacket] := by
  obtain ⟨data, s, h⟩ := Reached.exists (S := sampleSpec) (cap := 2) (by decide) chk ([] : List (Op (blockEnum sampleTypes) (PEnum.ops []))) (by intro p hp; cases hp) (by simp [Small, log])
  have hok : ∀ p ∈ log ([] ++ [.insert samplePacket, .insert otherPacket] : List (Op (blockEnum sampleTypes) (PEnum.ops []))), Storable sampleSpec p := by
    intro p hp
    simp only [log, List.nil_append, List.mem_cons, List.not_mem_nil, or_false] at hp
    rcases hp with rfl | rfl
    · exact sample_storable
    · exact otherPacket_storable
  have hs : Small 2 (log ([] ++ [.insert samplePacket, .insert otherPacket] : List (Op (blockEnum sampleTypes) (PEnum.ops [])))) := by
    simp [Small, log, wire_sample_length, wire_other_length]
  obtain ⟨w, gs', ew, _, _⟩ := runOps_inv (S := sampleSpec) (by decide : 0 < 2) chk ([] ++ [.insert samplePacket, .insert otherPacket]) (ps := []) (empty_inv 2) (by simp) (fun p hp => (hok p hp).ok) (by rw [List.nil_append]; exact hs)
  have hst : Steady 2 chk (byRangeFiltered 2 noSample) (fun qs => (qs.filter (accepted sampleSpec noSample)).map .ok) ([] : List (Op (blockEnum sampleTypes) (PEnum.ops []))) s [] := .opened h
  have hcnt : s.count 2 = 0 := by
    have := (C119_filtered (S := sampleSpec) (by decide) hst (by intro p hp; cases hp) (by simp [Small, log])).1
    simpa [log] using this
  obtain ⟨n, s', er, _, hb, hall⟩ := C119_next_filtered (S := sampleSpec) (by decide) hst ew hok hs (.inl (by rw [hcnt]))
  have hall := hall (.inl (by rw [hcnt]))
  obtain ⟨s2, e2, _⟩ := C37_reload_partial (S := sampleSpec) (cap := 2) (by decide) (.opened h) ew hok hs (.inl rfl)
  rw [er, if_pos (by rw [List.nil_append]; exact ⟨rfl, List.cons_ne_nil _ _, rfl⟩)] at e2
  have hn : n = 0 := by
    have e3 := Option.some.inj e2
    have e4 := Out.ok.inj (Prod.mk.inj e3).1
    rw [e4]
    rfl
  subst hn
  refine ⟨s, s', w, hst, er, ?_⟩
  have := Steady.round hst ew (.inl (by rw [hcnt])) er hb
  have h1 : accepted sampleSpec noSample samplePacket = false := by decide +kernel
  have h2 : accepted sampleSpec noSample otherPacket = true := by decide +kernel
  rw [hall, hcnt, List.take_length, List.drop_zero] at this
  simp only [log, List.nil_append, List.filter_cons, List.filter_nil, h1, h2] at this
  exact this

end Brec.Props
