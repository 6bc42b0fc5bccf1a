import Verif.StorageReload
import Verif.Props.StorageIter
/-!
# Reloading: C37
-/

namespace Brec.Props

open Rd

variable {O : BlockOps} {Q : PayloadOps} {S : BlockSpec O}

/-- `reload()` of a reader when the file holds `data`. Every slot takes at least 20 bytes, so more iterations than bytes are never needed. -/
def reloadReader (cap : Nat) (chk : Bool) (s : Storage) (data : Bytes) : Option (Out Nat × Storage) := s.reload cap chk (data.length + 1) data

/-- The reader shows exactly these packets. -/
structure Shows (cap : Nat) (chk : Bool) (s : Storage) (data : Bytes) (ps : List (Packet O Q)) : Prop where
  count : s.count cap = ps.length
  nth : ∀ i, s.nth cap chk data i = .ok ps[i]?
  iter : IterYields s data (ps.map .ok)

/-- **C37, full statement** (false): whatever has been appended since the reader was opened, `reload` returns the number of new packets and the reader shows all of
them. -/
def C37_full (Q : PayloadOps) (S : BlockSpec O) (cap : Nat) (chk : Bool) : Prop :=
  ∀ (ops ops2 : List (Op O Q)) (data : Bytes) (s : Storage) (w : Writer), Reached cap chk ops data s → runOps cap chk (ops ++ ops2) emptyWriter = some w →
    (∀ p ∈ log (ops ++ ops2), Storable S p) → Small cap (log (ops ++ ops2)) →
    ∃ s', reloadReader cap chk s w.data = some (.ok (log ops2).length, s') ∧ Shows cap chk s' w.data (log (ops ++ ops2))

/-- The CRC of slot `k` of the file of the packets `ps`. -/
def slotCrc (cap k : Nat) (ps : List (Packet O Q)) : Bytes :=
  let ls := ((ps.drop (k * cap)).take cap).map fun p => (wire p).length
  Slot.crcOf cap (ls ++ List.replicate (cap - ls.length) 0)

/-- When `reload` finds the packets `qs` appended to `ps`: the packets loaded fill their slots, or the new ones fit into the slot in use and its
CRC has changed. -/
def Calm (cap : Nat) (ps qs : List (Packet O Q)) : Prop :=
  ps.length % cap = 0 ∨ (ps.length % cap + qs.length ≤ cap ∧ slotCrc cap (ps.length / cap) ps ≠ slotCrc cap (ps.length / cap) (ps ++ qs))

/-- A reader opened after a history and reloaded now and then, each time calmly. -/
inductive Watching (cap : Nat) (chk : Bool) : List (Op O Q) → Storage → Prop
  | opened {ops : List (Op O Q)} {data : Bytes} {s : Storage} : Reached cap chk ops data s → Watching cap chk ops s
  | reloaded {ops ops2 : List (Op O Q)} {s s' : Storage} {w : Writer} {r : Out Nat} : Watching cap chk ops s → Calm cap (log ops) (log ops2) →
      runOps cap chk (ops ++ ops2) emptyWriter = some w → reloadReader cap chk s w.data = some (r, s') → Watching cap chk (ops ++ ops2) s'

theorem log_append (a b : List (Op O Q)) : log (a ++ b) = log a ++ log b := by
  induction a with
  | nil => rfl
  | cons x a ih => cases x <;> simp [log, ih]

/-! ## The groups before and after -/

/-- How the groups of a log go on. -/
inductive Grown (cap : Nat) (gs gs' : List (List Bytes)) (ext : List Bytes) : Prop
  | boundary (more : List (List Bytes)) : AllFull cap gs → Groups cap more → gs' = gs ++ more → more.flatten = ext → Grown cap gs gs' ext
  | slot (init : List (List Bytes)) (g : List Bytes) : gs = init ++ [g] → g.length < cap → gs' = init ++ [g ++ ext] → Grown cap gs gs' ext
  | beyond (init more : List (List Bytes)) (g a : List Bytes) : gs = init ++ [g] → g.length < cap → (g ++ a).length = cap → gs' = init ++ [g ++ a] ++ more → more ≠ [] →
      Grown cap gs gs' ext

theorem grown {cap : Nat} (hc : 0 < cap) {gs gs' : List (List Bytes)} (h : Groups cap gs) (h' : Groups cap gs') {ext : List Bytes} (hf : gs'.flatten = gs.flatten ++ ext) :
    Grown cap gs gs' ext := by
  have hne : ∀ w ∈ ext, w ≠ [] := by
    intro w hw
    have : w ∈ gs'.flatten := by rw [hf]; simp [hw]
    obtain ⟨g, hg, hw⟩ := List.mem_flatten.mp this
    exact (h'.group g hg).pos w hw
  have bound : AllFull cap gs → Grown cap gs gs' ext := by
    intro haf
    obtain ⟨more, hm, hfm⟩ := chunks hc ext.length ext (Nat.le_refl _) hne
    refine .boundary more haf hm (groups_unique hc h' (haf.append hc hm) ?_) hfm
    rw [hf, List.flatten_append, hfm]
  rcases List.eq_nil_or_concat gs with rfl | ⟨init, g, rfl⟩
  · exact bound (by simp [AllFull])
  · rw [List.concat_eq_append] at *
    have hsp := h.split
    have hle := hsp.2.1.le
    by_cases hlt : g.length < cap
    · have hpos : ∀ w ∈ g ++ ext, w ≠ [] := by
        intro w hw
        rcases List.mem_append.mp hw with hw | hw
        · exact hsp.2.1.pos w hw
        · exact hne w hw
      by_cases hfit : g.length + ext.length ≤ cap
      · refine .slot init g rfl hlt (groups_unique hc h' (Groups.mk' hsp.1 hc ⟨hpos, by simpa using hfit⟩ (by simp [hsp.2.2])) ?_)
        rw [hf]; simp
      · obtain ⟨more, hm, hfm⟩ := chunks hc ext.length (ext.drop (cap - g.length)) (by simp) (fun w hw => hne w (List.mem_of_mem_drop hw))
        have hga : AllFull cap (init ++ [g ++ ext.take (cap - g.length)]) := by
          intro x hx
          rcases List.mem_append.mp hx with hx | hx
          · exact hsp.1 x hx
          · rw [List.mem_singleton.mp hx]
            have hl : (g ++ ext.take (cap - g.length)).length = cap := by simp; omega
            refine ⟨⟨fun w hw => hpos w ?_, by omega⟩, hl⟩
            rcases List.mem_append.mp hw with hw | hw
            · simp [hw]
            · simp [List.mem_of_mem_take hw]
        refine .beyond init more g (ext.take (cap - g.length)) rfl hlt (hga _ (by simp)).2 (groups_unique hc h' (hga.append hc hm) ?_) ?_
        · rw [hf, List.flatten_append (L₁ := init ++ [g ++ ext.take (cap - g.length)]), hfm]
          simp
        · intro h0
          subst h0
          have := congrArg List.length hfm
          simp at this
          omega
    · refine bound fun x hx => ?_
      rcases List.mem_append.mp hx with hx | hx
      · exact hsp.1 x hx
      · rw [List.mem_singleton.mp hx]; exact ⟨hsp.2.1, by omega⟩

theorem full_mod {cap : Nat} {gs : List (List Bytes)} (h : AllFull cap gs) {ps : List (Packet O Q)} (hf : gs.flatten = ps.map wire) : ps.length % cap = 0 := by
  have h1 := congrArg List.length hf
  rw [length_flatten_full h, List.length_map] at h1
  rw [← h1, Nat.mul_mod_left]

theorem part_mod {cap : Nat} {init : List (List Bytes)} {g : List Bytes} (h : Groups cap (init ++ [g])) (hlt : g.length < cap) {ps : List (Packet O Q)}
    (hf : (init ++ [g]).flatten = ps.map wire) : ps.length % cap = g.length ∧ ps.length / cap = init.length ∧ g ≠ [] := by
  have h1 := congrArg List.length hf
  have hsp := h.split
  rw [List.flatten_append, List.length_append, length_flatten_full hsp.1, List.length_map] at h1
  simp only [List.flatten_cons, List.flatten_nil, List.append_nil] at h1
  rw [← h1]
  exact ⟨by rw [Nat.mul_add_mod_self_right, Nat.mod_eq_of_lt hlt], by rw [Nat.mul_comm, Nat.mul_add_div (by omega), Nat.div_eq_of_lt hlt]; simp, hsp.2.2⟩

/-- The CRC of the last slot. -/
theorem slotCrc_eq {cap : Nat} {init : List (List Bytes)} {g : List Bytes} (h : Groups cap (init ++ [g])) {ps : List (Packet O Q)}
    (hf : (init ++ [g]).flatten = ps.map wire) : slotCrc cap init.length ps = (table cap g).crc := by
  have hsp := h.split
  have h1 : ((ps.drop (init.length * cap)).take cap).map (fun p => (wire p).length) = g.map List.length := by
    have : (ps.map wire).drop (init.length * cap) = g := by
      rw [← hf, List.flatten_append, ← length_flatten_full hsp.1, List.drop_left]
      simp
    have e : (fun p : Packet O Q => (wire p).length) = List.length ∘ wire := rfl
    rw [e, ← List.map_map, List.map_take, List.map_drop, this, List.take_of_length_le hsp.2.1.le]
  unfold slotCrc
  simp only [h1, List.length_map]
  rfl

/-! ## What holds -/

theorem view_shows {cap : Nat} (hc : 0 < cap) (chk : Bool) {gs : List (List Bytes)} {s : Storage} (v : View cap gs s) {ps : List (Packet O Q)}
    (hf : gs.flatten = ps.map wire) (hok : ∀ p ∈ ps, Storable S p) (hl : (fileOf cap gs).length < 2 ^ 63) : Shows cap chk s (fileOf cap gs) ps :=
  ⟨by rw [v.count, hf, List.length_map], view_log hc chk v hf hok, Before.yields hl ps (view_before v hf) hok⟩

/-- One calm reload. -/
theorem reload_step {cap : Nat} (hc : 0 < cap) {chk : Bool} {gs gs' : List (List Bytes)} {s : Storage} (v : View cap gs s) (hg' : Groups cap gs')
    {ps qs : List (Packet O Q)} (hf : gs.flatten = ps.map wire) (hf' : gs'.flatten = (ps ++ qs).map wire) (hcalm : Calm cap ps qs)
    (hl : (fileOf cap gs').length < 2 ^ 63) :
    ∃ s', reloadReader cap chk s (fileOf cap gs') =
        some (.ok (if ps.length % cap = 0 ∧ qs ≠ [] ∧ (ps ++ qs).length % cap = 0 then qs.length - cap else qs.length), s') ∧ View cap gs' s' := by
  have hext : gs'.flatten = gs.flatten ++ qs.map wire := by rw [hf', hf, List.map_append]
  have hle := groups_le hg'.group
  unfold reloadReader
  rcases grown hc v.groups hg' hext with ⟨more, haf, hm, rfl, hfm⟩ | ⟨init, g, rfl, hlt, rfl⟩ | ⟨init, more, g, a, rfl, hlt, hga, rfl, hne⟩
  · rw [List.length_append] at hle
    obtain ⟨s', e, v'⟩ := v.reload_boundary hc haf hm hl (chk := chk) (fuel := (fileOf cap (gs ++ more)).length + 1) (by omega)
    refine ⟨s', ?_, v'⟩
    rw [e]
    congr 3
    have hmod := full_mod haf hf
    have hml : more.flatten.length = qs.length := by rw [hfm, List.length_map]
    have hadd : (ps ++ qs).length % cap = qs.length % cap := by rw [List.length_append, Nat.add_mod, hmod, Nat.zero_add, Nat.mod_mod]
    rw [hml, hadd]
    rcases List.eq_nil_or_concat more with rfl | ⟨mi, g, rfl⟩
    · have : qs = [] := by
        simp only [List.flatten_nil, List.length_nil] at hml
        exact List.length_eq_zero_iff.mp hml.symm
      subst this
      rw [if_pos (by simpa using hc), if_neg (by simp)]
    · rw [List.concat_eq_append] at *
      have hsp := hm.split
      have hgle := hsp.2.1.le
      simp only [List.getLast?_concat, Option.getD_some]
      have hql : qs.length = mi.length * cap + g.length := by
        rw [← hml, List.flatten_append, List.length_append, length_flatten_full hsp.1]; simp
      have hgpos : 0 < g.length := List.length_pos_iff.mpr hsp.2.2
      have hq : qs ≠ [] := by intro h; subst h; simp at hql; omega
      by_cases hlt : g.length < cap
      · rw [if_pos hlt, if_neg]
        rintro ⟨_, _, h⟩
        rw [hql, Nat.mul_add_mod_self_right, Nat.mod_eq_of_lt hlt] at h
        omega
      · rw [if_neg hlt, if_pos ⟨hmod, hq, by rw [hql, show g.length = cap by omega, ← Nat.succ_mul, Nat.mul_mod_left]⟩]
  · have hpm := part_mod v.groups hlt hf
    have hgpos : 0 < g.length := List.length_pos_iff.mpr hpm.2.2
    rcases hcalm with h0 | ⟨_, hcrc⟩
    · rw [hpm.1] at h0; omega
    rw [hpm.2.1, slotCrc_eq v.groups hf, slotCrc_eq hg' hf'] at hcrc
    obtain ⟨s', e, v'⟩ := v.reload_slot hc hlt (hg'.group _ (by simp)) hcrc hl (chk := chk) (fuel := (fileOf cap (init ++ [g ++ qs.map wire])).length + 1) (by
      rw [List.length_append] at hle; simp only [List.length_cons, List.length_nil] at hle; omega)
    refine ⟨s', ?_, v'⟩
    rw [e, if_neg (by rintro ⟨h, _⟩; rw [hpm.1] at h; omega), List.length_map]
  · exfalso
    have hpm := part_mod v.groups hlt hf
    have hgpos : 0 < g.length := List.length_pos_iff.mpr hpm.2.2
    rcases hcalm with h0 | ⟨hfit, _⟩
    · rw [hpm.1] at h0; omega
    · have h1 := congrArg List.length hext
      have haf : AllFull cap (init ++ [g ++ a]) := by
        intro x hx
        exact ⟨hg'.group x (by simp at hx ⊢; rcases hx with h | h <;> simp [h]), by
          rcases List.mem_append.mp hx with hx | hx
          · exact (v.groups.split.1 x hx).2
          · rw [List.mem_singleton.mp hx]; exact hga⟩
      obtain ⟨x, l, rfl⟩ := List.exists_cons_of_ne_nil hne
      have hx := List.length_pos_iff.mpr (hg'.ne x (by simp))
      rw [List.flatten_append, List.length_append, length_flatten_full haf, List.length_append (bs := List.map wire _), List.flatten_append (L₁ := init), List.length_append (as := init.flatten), length_flatten_full v.groups.split.1] at h1
      simp only [List.length_append, List.length_cons, List.length_nil, List.flatten_cons, List.flatten_nil, List.append_nil, Nat.add_mul, List.length_map] at h1
      rw [hpm.1] at hfit
      omega

theorem Watching.view {cap : Nat} (hc : 0 < cap) {chk : Bool} {ops : List (Op O Q)} {s : Storage} (h : Watching cap chk ops s) :
    (∀ p ∈ log ops, p.Ok S) → Small cap (log ops) → ∃ gs, View cap gs s ∧ gs.flatten = (log ops).map wire := by
  induction h with
  | opened h =>
    intro hok hs
    obtain ⟨gs, v, _, f, _⟩ := h.view hc hok hs
    exact ⟨gs, v, f⟩
  | @reloaded ops ops2 s s' w r _ hcalm hw hr ih =>
    intro hok hs
    rw [log_append] at hs hok
    obtain ⟨gs, v, f⟩ := ih (fun p hp => hok p (by simp [hp])) hs.left
    obtain ⟨w', gs', e', i, f'⟩ := runOps_inv (S := S) hc chk (ops ++ ops2) (ps := []) (empty_inv cap) rfl (by rw [log_append]; exact hok) (by rw [log_append]; exact hs)
    rw [hw] at e'
    injection e' with e'
    subst e'
    rw [List.nil_append, log_append] at f'
    obtain ⟨s2, e2, v2⟩ := reload_step hc (chk := chk) v i.groups f f' hcalm (small_file hc i.groups f' hs)
    rw [i.data, e2] at hr
    injection hr with hr
    injection hr with _ hr
    subst hr
    exact ⟨gs', v2, by rw [log_append, f']⟩

/-- **C37, calm reloads.** For a reader opened after any history and reloaded any number of times, when the packets appended since are calm: `reload` succeeds and the
reader shows all packets. The number returned is that of the new packets, except when they begin and end at a slot boundary: then it is the capacity of a slot
too small. -/
theorem C37_reload_partial {cap : Nat} (hc : 0 < cap) {chk : Bool} {ops ops2 : List (Op O Q)} {s : Storage} {w : Writer} (h : Watching cap chk ops s)
    (hw : runOps cap chk (ops ++ ops2) emptyWriter = some w) (hok : ∀ p ∈ log (ops ++ ops2), Storable S p) (hs : Small cap (log (ops ++ ops2)))
    (hcalm : Calm cap (log ops) (log ops2)) :
    ∃ s', reloadReader cap chk s w.data =
        some (.ok (if (log ops).length % cap = 0 ∧ log ops2 ≠ [] ∧ (log (ops ++ ops2)).length % cap = 0 then (log ops2).length - cap else (log ops2).length), s') ∧
      Shows cap chk s' w.data (log (ops ++ ops2)) := by
  obtain ⟨w', gs', e', i, f'⟩ := runOps_inv (S := S) hc chk (ops ++ ops2) (ps := []) (empty_inv cap) rfl (fun p hp => (hok p hp).ok) hs
  rw [hw] at e'
  injection e' with e'
  subst e'
  rw [List.nil_append] at f'
  have hl := small_file hc i.groups f' hs
  have hsh : ∀ s', View cap gs' s' → Shows cap chk s' w.data (log (ops ++ ops2)) := fun s' v => by
    rw [i.data]; exact view_shows hc chk v f' hok hl
  rw [log_append] at hok hs f' ⊢
  rw [log_append] at hsh
  obtain ⟨gs, v, f⟩ := h.view (S := S) hc (fun p hp => (hok p (by simp [hp])).ok) hs.left
  obtain ⟨s', e, v'⟩ := reload_step hc (chk := chk) v i.groups f f' hcalm hl
  exact ⟨s', by rw [i.data]; exact e, hsh s' v'⟩

/-- A single packet below 4 GiB is always calm: reloading after every insert never misses anything. -/
theorem C37_single {cap : Nat} (hc : 0 < cap) (ps : List (Packet O Q)) {q : Packet O Q} (hq : q.Ok S) (h32 : (wire q).length < 2 ^ 32) : Calm cap ps [q] := by
  by_cases h0 : ps.length % cap = 0
  · exact .inl h0
  · have hmod := Nat.mod_lt ps.length hc
    refine .inr ⟨by simp; omega, ?_⟩
    have hdl : (ps.drop (ps.length / cap * cap)).length = ps.length % cap := by
      rw [List.length_drop]
      have := Nat.div_add_mod ps.length cap
      rw [Nat.mul_comm] at this
      omega
    have hle : ps.length / cap * cap ≤ ps.length := Nat.div_mul_le_self _ _
    unfold slotCrc
    simp only
    rw [List.drop_append_of_le_length hle, List.take_of_length_le (by omega), List.take_of_length_le (by rw [List.length_append, hdl]; simp; omega)]
    generalize ps.drop (ps.length / cap * cap) = l at hdl
    intro h
    have hl : l.length < cap := by omega
    have hpos := wire_pos hq
    have e1 : (l.map fun p => (wire p).length) ++ List.replicate (cap - (l.map fun p => (wire p).length).length) 0 =
        (l.map wire).map List.length ++ 0 :: List.replicate (cap - (l.map wire).length - 1) 0 := by
      rw [List.length_map, List.length_map, List.map_map, ← List.replicate_succ, show cap - l.length - 1 + 1 = cap - l.length by omega]
      rfl
    have e2 : ((l ++ [q]).map fun p => (wire p).length) ++ List.replicate (cap - ((l ++ [q]).map fun p => (wire p).length).length) 0 =
        (l.map wire).map List.length ++ (wire q).length :: List.replicate (cap - (l.map wire).length - 1) 0 := by
      rw [List.length_map, List.length_map, List.map_map, List.length_append, List.map_append, List.append_assoc]
      simp only [List.map_cons, List.map_nil, List.length_cons, List.length_nil, List.singleton_append, ← Nat.sub_sub]
      rfl
    rw [e1, e2] at h
    have := mixed_crc h32 h.symm
    omega

/-! ## What goes wrong -/

/-- **C37, what goes wrong at the end of a slot.** The last slot loaded was in use and not full, and since then packets have been written into a further slot: `reload`
reports success, but the reader then shows fewer packets than there are. -/
theorem C37_beyond {cap : Nat} (hc : 0 < cap) {chk : Bool} {ops ops2 : List (Op O Q)} {s : Storage} {w : Writer} (h : Watching cap chk ops s)
    (hw : runOps cap chk (ops ++ ops2) emptyWriter = some w) (hok : ∀ p ∈ log (ops ++ ops2), p.Ok S) (hs : Small cap (log (ops ++ ops2)))
    (h0 : (log ops).length % cap ≠ 0) (hb : cap < (log ops).length % cap + (log ops2).length) :
    ∃ n s', reloadReader cap chk s w.data = some (.ok n, s') ∧ s'.count cap < (log (ops ++ ops2)).length := by
  obtain ⟨w', gs', e', i, f'⟩ := runOps_inv (S := S) hc chk (ops ++ ops2) (ps := []) (empty_inv cap) rfl hok hs
  rw [hw] at e'
  injection e' with e'
  subst e'
  rw [List.nil_append] at f'
  have hl := small_file hc i.groups f' hs
  have hle := groups_le i.groups.group
  rw [i.data]
  rw [log_append] at hok hs f' ⊢
  obtain ⟨gs, v, f⟩ := h.view (S := S) hc (fun p hp => hok p (by simp [hp])) hs.left
  have hext : gs'.flatten = gs.flatten ++ (log ops2).map wire := by rw [f', f, List.map_append]
  rcases grown hc v.groups i.groups hext with ⟨more, haf, _, _, _⟩ | ⟨init, g, rfl, hlt, rfl⟩ | ⟨init, more, g, a, rfl, hlt, hga, rfl, hne⟩
  · exact absurd (full_mod haf f) h0
  · exfalso
    have hpm := part_mod v.groups hlt f
    have h2 := (i.groups.group (g ++ (log ops2).map wire) (by simp)).le
    rw [List.length_append, List.length_map] at h2
    rw [hpm.1] at hb
    omega
  · have hsp := v.groups.split
    have hlen : s.slots.length = init.length + 1 := by rw [v.slots, anchor_length]; simp
    have hall : ∀ x ∈ [g ++ a] ++ more, Group cap x := fun x hx => i.groups.group x (by rw [List.append_assoc]; exact List.mem_append_right init hx)
    rw [List.append_assoc] at hl hle ⊢
    have hbound : ∀ x ∈ s.slots, ∀ j, x.inner.freeIndex = some j → j ≤ cap := by
      intro x hx j hj
      have : x.inner ∈ s.slots.map (·.inner) := List.mem_map.mpr ⟨x, hx, rfl⟩
      rw [v.inner] at this
      obtain ⟨y, hy, he⟩ := List.mem_map.mp this
      have hgy := v.groups.group y hy
      rw [← he, table_freeIndex hgy] at hj
      split at hj
      · injection hj with hj; omega
      · cases hj
    rw [fileOf_append] at hl
    obtain ⟨r, slots', er, hlr, hbr⟩ := reload_stuck (cap := cap) chk g.length s.slots.length (table cap g).crc ([g ++ a] ++ more) (fileOf cap init) s.slots
      ((fileOf cap (init ++ ([g ++ a] ++ more))).length + 1) hall hl rfl (by omega) (by rw [List.length_append (as := init)] at hle; omega) hbound
    rw [← fileOf_append] at er
    have haf : AllFull cap (init ++ [g ++ a]) := by
      intro x hx
      rcases List.mem_append.mp hx with hx | hx
      · exact hsp.1 x hx
      · rw [List.mem_singleton.mp hx]; exact ⟨hall _ (by simp), hga⟩
    have htot : (init.length + 1) * cap < (log ops ++ log ops2).length := by
      have h1 := congrArg List.length f'
      obtain ⟨x, l, rfl⟩ := List.exists_cons_of_ne_nil hne
      have hx := List.length_pos_iff.mpr (i.groups.ne x (by simp))
      rw [List.flatten_append, List.length_append, length_flatten_full haf, List.length_map] at h1
      simp only [List.length_append (as := init), List.length_cons, List.length_nil, List.flatten_cons, List.length_append (as := x)] at h1
      rw [Nat.zero_add] at h1
      omega
    unfold reloadReader Storage.reload
    rw [lastInfo_part v.slots hsp.2.1 hlt]
    simp only
    rw [er]
    simp only [Option.map_some]
    have hcl : ∀ s' : Storage, s'.slots = slots' → s'.count cap < (log ops ++ log ops2).length := by
      intro s' hs'
      have := count_le (s := s') (cap := cap) (by rw [hs']; exact hbr)
      rw [hs', hlr, hlen] at this
      omega
    cases r with
    | inl n => exact ⟨_, _, rfl, hcl _ rfl⟩
    | inr u => exact ⟨_, _, rfl, hcl _ rfl⟩

/-- **C37, what goes wrong when the CRC of the slot in use has not changed.** `reload` reports that there is nothing new and leaves the reader as it was. -/
theorem C37_same_crc {cap : Nat} (hc : 0 < cap) {chk : Bool} {ops ops2 : List (Op O Q)} {s : Storage} {w : Writer} (h : Watching cap chk ops s)
    (hw : runOps cap chk (ops ++ ops2) emptyWriter = some w) (hok : ∀ p ∈ log (ops ++ ops2), p.Ok S) (hs : Small cap (log (ops ++ ops2)))
    (h0 : (log ops).length % cap ≠ 0) (hb : (log ops).length % cap + (log ops2).length ≤ cap)
    (hcrc : slotCrc cap ((log ops).length / cap) (log ops) = slotCrc cap ((log ops).length / cap) (log ops ++ log ops2)) :
    reloadReader cap chk s w.data = some (.ok 0, s) := by
  obtain ⟨w', gs', e', i, f'⟩ := runOps_inv (S := S) hc chk (ops ++ ops2) (ps := []) (empty_inv cap) rfl hok hs
  rw [hw] at e'
  injection e' with e'
  subst e'
  rw [List.nil_append] at f'
  have hl := small_file hc i.groups f' hs
  rw [i.data]
  rw [log_append] at hok hs f'
  obtain ⟨gs, v, f⟩ := h.view (S := S) hc (fun p hp => hok p (by simp [hp])) hs.left
  have hext : gs'.flatten = gs.flatten ++ (log ops2).map wire := by rw [f', f, List.map_append]
  rcases grown hc v.groups i.groups hext with ⟨more, haf, _, _, _⟩ | ⟨init, g, rfl, hlt, rfl⟩ | ⟨init, more, g, a, rfl, hlt, hga, rfl, hne⟩
  · exact absurd (full_mod haf f) h0
  · have hpm := part_mod v.groups hlt f
    rw [hpm.2.1, slotCrc_eq v.groups f, slotCrc_eq i.groups f'] at hcrc
    have := v.reload_same hlt (i.groups.group _ (by simp)).le hcrc (rest := []) hl (chk := chk) (fuel := (fileOf cap (init ++ [g ++ (log ops2).map wire])).length + 1) (by omega)
    rw [List.append_nil] at this
    exact this
  · exfalso
    have hpm := part_mod v.groups hlt f
    have haf : AllFull cap (init ++ [g ++ a]) := by
      intro x hx
      rcases List.mem_append.mp hx with hx | hx
      · exact v.groups.split.1 x hx
      · rw [List.mem_singleton.mp hx]; exact ⟨i.groups.group _ (by simp), hga⟩
    have h1 := congrArg List.length hext
    obtain ⟨x, l, rfl⟩ := List.exists_cons_of_ne_nil hne
    have hx := List.length_pos_iff.mpr (i.groups.ne x (by simp))
    rw [List.flatten_append, List.length_append, length_flatten_full haf, List.length_append (bs := List.map wire _), List.flatten_append (L₁ := init), List.length_append (as := init.flatten), length_flatten_full v.groups.split.1] at h1
    simp only [List.length_append, List.length_cons, List.length_nil, List.flatten_cons, List.flatten_nil, List.append_nil, Nat.add_mul, List.length_map] at h1
    rw [hpm.1] at hb
    omega

/-- One packet, the reader is opened, then 500 more. -/
theorem C37_not (chk : Bool) : ¬ C37_full (PEnum.ops []) sampleSpec SLOT_CAPACITY chk := by
  intro h
  have hl2 := log_inserts (List.replicate 500 samplePacket)
  have hl : log ([Op.insert samplePacket] ++ (List.replicate 500 samplePacket).map Op.insert) = List.replicate 501 samplePacket := by
    rw [log_append, hl2, List.replicate_succ]; rfl
  have hok : ∀ p ∈ log ([Op.insert samplePacket] ++ (List.replicate 500 samplePacket).map Op.insert), Storable sampleSpec p := by
    rw [hl]; intro p hp; rw [(List.mem_replicate.mp hp).2]; exact sample_storable
  have hs : Small SLOT_CAPACITY (log ([Op.insert samplePacket] ++ (List.replicate 500 samplePacket).map Op.insert)) := by rw [hl]; exact sample_small
  obtain ⟨data, s, hr⟩ := Reached.exists (S := sampleSpec) (cap := SLOT_CAPACITY) (by decide) chk [Op.insert samplePacket]
    (by intro p hp; exact hok p (by rw [log_append]; exact List.mem_append_left _ hp)) (by rw [log_append] at hs; exact hs.left)
  obtain ⟨w, _, hw, _⟩ := C30_reopen (S := sampleSpec) (cap := SLOT_CAPACITY) (by decide) chk _ hok hs
  obtain ⟨n, s1, e1, h1⟩ := C37_beyond (S := sampleSpec) (cap := SLOT_CAPACITY) (by decide) (.opened hr) hw (fun p hp => (hok p hp).ok) hs (by decide) (by
    rw [hl2, List.length_replicate]; decide)
  obtain ⟨s2, e2, h2⟩ := h _ _ data s w hr hw hok hs
  rw [e1] at e2
  injection e2 with e2
  injection e2 with _ e2
  subst e2
  rw [h2.count] at h1
  exact Nat.lt_irrefl _ h1

/-- `C37_reload_partial` applies: one packet is read, another is appended. -/
example : ∃ w s s', Watching SLOT_CAPACITY true [Op.insert samplePacket] s ∧
    runOps SLOT_CAPACITY true ([Op.insert samplePacket] ++ [Op.insert samplePacket]) emptyWriter = some w ∧
    reloadReader SLOT_CAPACITY true s w.data = some (.ok 1, s') ∧ s'.count SLOT_CAPACITY = 2 := by
  have hok : ∀ p ∈ log ([Op.insert samplePacket] ++ [Op.insert samplePacket]), Storable sampleSpec p := by
    intro p hp
    simp only [log, List.cons_append, List.nil_append, List.mem_cons, List.not_mem_nil, or_false, or_self] at hp
    rw [hp]; exact sample_storable
  have hs : Small SLOT_CAPACITY (log ([Op.insert samplePacket] ++ [Op.insert samplePacket])) := by
    simp [Small, log, wire_sample_length, SLOT_CAPACITY]
  obtain ⟨data, s, hr⟩ := Reached.exists (S := sampleSpec) (cap := SLOT_CAPACITY) (by decide) true [Op.insert samplePacket]
    (by intro p hp; exact hok p (by rw [log_append]; exact List.mem_append_left _ hp)) (by rw [log_append] at hs; exact hs.left)
  obtain ⟨w, _, hw, _⟩ := C30_reopen (S := sampleSpec) (cap := SLOT_CAPACITY) (by decide) true _ hok hs
  obtain ⟨s', e, h⟩ := C37_reload_partial (S := sampleSpec) (cap := SLOT_CAPACITY) (by decide) (.opened hr) hw hok hs
    (C37_single (S := sampleSpec) (by decide) _ samplePacket_ok (by rw [wire_sample_length]; decide))
  exact ⟨w, s, s', .opened hr, hw, e, h.count⟩

/-! ### A slot whose CRC has not changed -/

/-- A packet without blocks whose payload is `n` zero bytes. -/
def zeroPacket (n : Nat) : Packet (blockEnum sampleTypes) (PEnum.ops []) := ⟨[], some (.inl (List.replicate n 0 : Bytes))⟩

theorem zeroPacket_header (n : Nat) : (zeroPacket n).header = .ok (PacketHeader.ofSizes 0 (some (n + 14))) := by
  have : (zeroPacket n).header = .ok (PacketHeader.ofSizes 0 (some ((List.replicate n 0 : Bytes).length + 14))) := rfl
  rw [this, List.length_replicate]

theorem zeroPacket_ok {n : Nat} (hn : n < 2 ^ 32) : (zeroPacket n).Ok sampleSpec where
  blocks := by intro b hb; cases hb
  payload := by
    intro v hv
    have : v = .inl (List.replicate n 0 : Bytes) := (Option.some.inj hv).symm
    subst this
    exact ⟨_, _, PEnum.ops_good (T := bytesTy) (v := (List.replicate n 0 : Bytes)) (vs := []) (.here _)
      (bytesTy_good _ (by rw [List.length_replicate]; omega)) rfl⟩
  size := by
    intro h hh
    rw [zeroPacket_header] at hh
    injection hh with hh
    subst hh
    simp only [PacketHeader.ofSizes, Option.getD_some]
    omega

theorem zeroPacket_storable {n : Nat} (hn : n < 2 ^ 32) : Storable sampleSpec (zeroPacket n) := ⟨zeroPacket_ok hn, by simp [zeroPacket]⟩

theorem wire_zero_length {n : Nat} (hn : n < 2 ^ 32) : (wire (zeroPacket n)).length = n + 43 := by
  have hok := zeroPacket_ok hn
  obtain ⟨h, pb, sh⟩ := hok.shape
  have hl : (wire (zeroPacket n)).length = 29 + h.size := by
    rw [wire_eq hok.blocks sh, sh.size]; simp [HSIZE]
  rw [hl]
  have := sh.header
  rw [zeroPacket_header] at this
  injection this with this
  subst this
  simp only [PacketHeader.ofSizes, Option.getD_some]
  omega

theorem crcOf_prefix {cap : Nat} {a b : List Nat} (c : List Nat) (h : crcState 0xFFFFFFFF#32 (Slot.body cap a) = crcState 0xFFFFFFFF#32 (Slot.body cap b)) :
    Slot.crcOf cap (a ++ c) = Slot.crcOf cap (b ++ c) := by
  have e : ∀ x, Slot.body cap (x ++ c) = Slot.body cap x ++ c.flatMap (leBytes 8) := by
    intro x; simp only [Slot.body, List.flatMap_append, List.append_assoc]
  simp only [Slot.crcOf, crcBytes, crc32, e, crcState_append, h]

/-- **C37 is also false within a slot**: after one packet, packets of 34151 and 27895 bytes leave the CRC of the slot table as it was. -/
theorem C37_crc_collision (chk : Bool) :
    ∃ data s w, Reached SLOT_CAPACITY chk [Op.insert samplePacket] data s ∧
      runOps SLOT_CAPACITY chk ([Op.insert samplePacket] ++ [Op.insert (zeroPacket 34108), Op.insert (zeroPacket 27852)]) emptyWriter = some w ∧
      reloadReader SLOT_CAPACITY chk s w.data = some (.ok 0, s) := by
  have hlog : log ([Op.insert samplePacket] ++ [Op.insert (zeroPacket 34108), Op.insert (zeroPacket 27852)]) =
      [samplePacket, zeroPacket 34108, zeroPacket 27852] := rfl
  have hok : ∀ p ∈ log ([Op.insert samplePacket] ++ [Op.insert (zeroPacket 34108), Op.insert (zeroPacket 27852)]), Storable sampleSpec p := by
    rw [hlog]
    intro p hp
    rcases List.mem_cons.mp hp with rfl | hp
    · exact sample_storable
    rcases List.mem_cons.mp hp with rfl | hp
    · exact zeroPacket_storable (by decide)
    rw [List.mem_singleton.mp hp]
    exact zeroPacket_storable (by decide)
  have hs : Small SLOT_CAPACITY (log ([Op.insert samplePacket] ++ [Op.insert (zeroPacket 34108), Op.insert (zeroPacket 27852)])) := by
    rw [hlog]
    simp only [Small, List.map_cons, List.map_nil, wire_sample_length, wire_zero_length (show 34108 < 2 ^ 32 by decide), wire_zero_length (show 27852 < 2 ^ 32 by decide)]
    decide
  obtain ⟨data, s, hr⟩ := Reached.exists (S := sampleSpec) (cap := SLOT_CAPACITY) (by decide) chk [Op.insert samplePacket]
    (by intro p hp; exact hok p (by rw [log_append]; exact List.mem_append_left _ hp)) (by rw [log_append] at hs; exact hs.left)
  obtain ⟨w, _, hw, _⟩ := C30_reopen (S := sampleSpec) (cap := SLOT_CAPACITY) (by decide) chk _ hok hs
  refine ⟨data, s, w, hr, hw, C37_same_crc (S := sampleSpec) (by decide) (.opened hr) hw (fun p hp => (hok p hp).ok) hs (by decide) (by decide) ?_⟩
  have e1 : slotCrc SLOT_CAPACITY 0 [samplePacket] = Slot.crcOf SLOT_CAPACITY ([125] ++ List.replicate 499 0) := by
    unfold slotCrc
    simp only [Nat.zero_mul, List.drop_zero]
    rw [List.take_of_length_le (by decide)]
    simp only [List.map_cons, List.map_nil, wire_sample_length, List.length_cons, List.length_nil]
    rfl
  have e2 : slotCrc SLOT_CAPACITY 0 [samplePacket, zeroPacket 34108, zeroPacket 27852] = Slot.crcOf SLOT_CAPACITY ([125, 34151, 27895] ++ List.replicate 497 0) := by
    unfold slotCrc
    simp only [Nat.zero_mul, List.drop_zero]
    rw [List.take_of_length_le (show List.length [samplePacket, zeroPacket 34108, zeroPacket 27852] ≤ SLOT_CAPACITY by simp [SLOT_CAPACITY])]
    simp only [List.map_cons, List.map_nil, wire_sample_length, wire_zero_length (show 34108 < 2 ^ 32 by decide), wire_zero_length (show 27852 < 2 ^ 32 by decide),
      List.length_cons, List.length_nil]
    rfl
  show slotCrc SLOT_CAPACITY 0 [samplePacket] = slotCrc SLOT_CAPACITY 0 [samplePacket, zeroPacket 34108, zeroPacket 27852]
  rw [e1, e2, show [125] ++ List.replicate 499 0 = [125, 0, 0] ++ List.replicate 497 0 from rfl]
  exact crcOf_prefix _ (by decide +kernel)

end Brec.Props
