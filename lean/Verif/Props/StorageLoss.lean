import Verif.StorageSkip
import Verif.Props.StorageFollow
/-!
# What `reload` takes away: C84
-/

namespace Brec.Props

open Rd

variable {O : BlockOps} {Q : PayloadOps} {S : BlockSpec O}

/-- **C84, full statement** (false): whatever has been appended, and whatever `reload` returns, the reader still has the packets it had. -/
def C84_full (Q : PayloadOps) (S : BlockSpec O) (cap : Nat) (chk : Bool) : Prop :=
  ∀ (ops ops2 : List (Op O Q)) (s s' : Storage) (w : Writer) (r : Out Nat), Watching cap chk ops s → runOps cap chk (ops ++ ops2) emptyWriter = some w →
    (∀ p ∈ log (ops ++ ops2), Storable S p) → Small cap (log (ops ++ ops2)) → reloadReader cap chk s w.data = some (r, s') →
    s.count cap ≤ s'.count cap ∧ ∀ i < (log ops).length, s'.nth cap chk w.data i = .ok (log ops)[i]?

/-- The slot in use when `ps` had been stored has been filled by the packets `qs`, and a further slot has been begun. -/
def Beyond (cap : Nat) (ps qs : List (Packet O Q)) : Prop := ps.length % cap ≠ 0 ∧ cap < ps.length % cap + qs.length

/-- No slot written since has the CRC that the slot in use had. -/
def Unlike (cap : Nat) (ps qs : List (Packet O Q)) : Prop :=
  ∀ k, ps.length / cap ≤ k → k * cap < (ps ++ qs).length → slotCrc cap (ps.length / cap) ps ≠ slotCrc cap k (ps ++ qs)

/-- The number of packets in the last slot of a storage of `n` packets. -/
def inLast (cap n : Nat) : Nat := if n % cap = 0 then cap else n % cap

/-! ## Lemmas -/

theorem slotCrc_at {cap : Nat} {init rest : List (List Bytes)} {g : List Bytes} (hi : AllFull cap init) (hg : g.length ≤ cap) (hr : g.length = cap ∨ rest = [])
    {ps : List (Packet O Q)} (hf : (init ++ g :: rest).flatten = ps.map wire) : slotCrc cap init.length ps = (table cap g).crc := by
  have h1 : ((ps.drop (init.length * cap)).take cap).map (fun p => (wire p).length) = g.map List.length := by
    have : ((ps.map wire).drop (init.length * cap)).take cap = g := by
      rw [← hf, List.flatten_append, ← length_flatten_full hi, List.drop_left, List.flatten_cons]
      rcases hr with h | rfl
      · rw [← h, List.take_left]
      · rw [List.flatten_nil, List.append_nil, List.take_of_length_le hg]
    have e : (fun p : Packet O Q => (wire p).length) = List.length ∘ wire := rfl
    rw [e, ← List.map_map, List.map_take, List.map_drop, this]
  unfold slotCrc
  simp only [h1, List.length_map]
  rfl

/-- The packets of the slots that have not been touched. -/
theorem nth_before {cap : Nat} (hc : 0 < cap) {chk : Bool} {init : List (List Bytes)} {g : List Bytes} {s : Storage} (hs : s.slots = anchor cap 0 (init ++ [g]))
    (hi : AllFull cap init) (tail : Bytes) {ps : List (Packet O Q)} {more : List Bytes} (hf : ps.map wire = init.flatten ++ more) (hok : ∀ p ∈ ps, Storable S p)
    {i : Nat} (h : i < init.length * cap) :
    s.nth cap chk (fileOf cap init ++ tail) i = .ok ps[i]? := by
  have hlt : i / cap < init.length := Nat.div_lt_of_lt_mul (by rw [Nat.mul_comm]; exact h)
  have hgs : Groups cap init := by simpa using hi.append hc (Groups.nil cap)
  have hoff : s.offsetOf cap i = Storage.offsetOf cap ⟨anchor cap 0 init, s.loc⟩ i := by
    unfold Storage.offsetOf
    rw [hs, anchor_concat]
    simp only
    rw [List.getElem?_append_left (by rw [anchor_length]; exact hlt), List.take_append_of_le_length (by rw [anchor_length]; omega)]
  have hlen : init.flatten.length = init.length * cap := length_flatten_full hi
  have hx : init.flatten[i]? = (ps[i]?).map wire := by
    rw [← List.getElem?_map, hf, List.getElem?_append_left (by omega)]
  cases hn : ps[i]? with
  | none =>
    rw [hn] at hx
    have := List.getElem?_eq_none_iff.mp hx
    omega
  | some p =>
    rw [hn] at hx
    obtain ⟨off, t, e, hle, hd⟩ := (Bodies.file hgs.group tail).offset hc hgs (s := ⟨anchor cap 0 init, s.loc⟩) (anchor_inner cap 0 init) (n := i) (x := wire p) hx
    unfold Storage.nth
    rw [hoff, e]
    simp only
    rw [tryRead_wire (hok p (List.mem_of_getElem? hn)) hle hd]

theorem nth_after {cap : Nat} (hc : 0 < cap) {chk : Bool} {gs : List (List Bytes)} {s : Storage} (v : View cap gs s) (data : Bytes) {i : Nat} (h : s.count cap ≤ i) :
    s.nth (O := O) (Q := Q) cap chk data i = .ok none := by
  rw [v.count] at h
  unfold Storage.nth
  rw [offsetOf_none hc v.groups v.inner (List.getElem?_eq_none_iff.mpr h)]

/-- Where a storage stands after `ops` and `ops2` if a further slot has been begun. -/
structure Further (cap : Nat) (ps qs : List (Packet O Q)) (init more : List (List Bytes)) (g a l : List Bytes) (s : Storage) (w : Writer) : Prop where
  view : View cap (init ++ [g]) s
  known : (init ++ [g]).flatten = ps.map wire
  lt : g.length < cap
  full : AllFull cap (init ++ [g ++ a])
  more_ne : more ≠ []
  groups : Groups cap (init ++ [g ++ a] ++ more)
  data : w.data = fileOf cap (init ++ [g ++ a] ++ more)
  flat : (init ++ [g ++ a] ++ more).flatten = (ps ++ qs).map wire
  small : (fileOf cap (init ++ [g ++ a] ++ more)).length < 2 ^ 63
  index : ps.length % cap = g.length
  slot : ps.length / cap = init.length
  last : more.getLast? = some l
  last_len : l.length = inLast cap (ps ++ qs).length

theorem further {cap : Nat} (hc : 0 < cap) {chk : Bool} {ops ops2 : List (Op O Q)} {s : Storage} {w : Writer} (h : Watching cap chk ops s)
    (hw : runOps cap chk (ops ++ ops2) emptyWriter = some w) (hok : ∀ p ∈ log (ops ++ ops2), p.Ok S) (hs : Small cap (log (ops ++ ops2)))
    (hb : Beyond cap (log ops) (log ops2)) : ∃ init more g a l, Further cap (log ops) (log ops2) init more g a l s w := by
  obtain ⟨w', gs', e', i, f'⟩ := runOps_inv (S := S) hc chk (ops ++ ops2) (ps := []) (empty_inv cap) rfl hok hs
  rw [hw] at e'
  injection e' with e'
  subst e'
  rw [List.nil_append] at f'
  have hl := small_file hc i.groups f' hs
  rw [log_append] at hok hs f'
  obtain ⟨gs, v, f⟩ := h.view (S := S) hc (fun p hp => hok p (by simp [hp])) hs.left
  have hext : gs'.flatten = gs.flatten ++ (log ops2).map wire := by rw [f', f, List.map_append]
  obtain ⟨h0, hb⟩ := hb
  rcases grown hc v.groups i.groups hext with ⟨more, haf, _, _, _⟩ | ⟨init, g, rfl, hlt, rfl⟩ | ⟨init, more, g, a, rfl, hlt, hga, rfl, hne⟩
  · exact absurd (full_mod haf f) h0
  · exfalso
    have hpm := part_mod v.groups hlt f
    have h2 := (i.groups.group (g ++ (log ops2).map wire) (by simp)).le
    rw [List.length_append, List.length_map] at h2
    rw [hpm.1] at hb
    omega
  · have hpm := part_mod v.groups hlt f
    have haf : AllFull cap (init ++ [g ++ a]) := by
      intro x hx
      rcases List.mem_append.mp hx with hx | hx
      · exact v.groups.split.1 x hx
      · rw [List.mem_singleton.mp hx]; exact ⟨i.groups.group _ (by simp), hga⟩
    obtain ⟨mi, l, rfl⟩ : ∃ mi l, more = mi ++ [l] := by
      rcases List.eq_nil_or_concat more with h | ⟨mi, l, h⟩
      · exact absurd h hne
      · exact ⟨mi, l, by rw [h, List.concat_eq_append]⟩
    refine ⟨init, mi ++ [l], g, a, l, v, f, hlt, haf, hne, i.groups, i.data, f', hl, hpm.1, hpm.2.1, by simp, ?_⟩
    have hg' := i.groups
    rw [← List.append_assoc] at hg' f'
    have hsp := hg'.split
    have hle := hsp.2.1.le
    have hpos := List.length_pos_iff.mpr hsp.2.2
    have h1 := congrArg List.length f'
    rw [List.flatten_append, List.length_append, length_flatten_full hsp.1, List.length_map] at h1
    simp only [List.flatten_cons, List.flatten_nil, List.append_nil] at h1
    unfold inLast
    rw [← h1, Nat.mul_add_mod_self_right]
    by_cases hll : l.length = cap
    · rw [hll, Nat.mod_self, if_pos rfl]
    · rw [Nat.mod_eq_of_lt (by omega), if_neg (by omega)]

variable {cap : Nat} {ps qs : List (Packet O Q)} {init more : List (List Bytes)} {g a l : List Bytes} {s : Storage} {w : Writer}

namespace Further

theorem unlike (f : Further cap ps qs init more g a l s w) (hu : Unlike cap ps qs) : ∀ x ∈ (g ++ a) :: more, (table cap g).crc ≠ (table cap x).crc := by
  intro x hx
  obtain ⟨u, v, huv⟩ := List.append_of_mem hx
  have hall : init ++ [g ++ a] ++ more = (init ++ u) ++ x :: v := by rw [List.append_assoc, List.append_assoc, ← huv]; rfl
  have hg := f.groups
  have hf := f.flat
  rw [hall] at hg hf
  have hfull : AllFull cap (init ++ u) := by
    intro y hy
    refine ⟨hg.group y (by simp at hy ⊢; rcases hy with h | h <;> simp [h]), hg.full y ?_⟩
    rw [List.dropLast_append_of_ne_nil (by simp)]
    exact List.mem_append_left _ hy
  have hxg := hg.group x (by simp)
  have hlast : x.length = cap ∨ v = [] := by
    rcases List.eq_nil_or_concat v with h | ⟨vi, y, h⟩
    · exact .inr h
    · left
      refine hg.full x ?_
      rw [h, List.concat_eq_append, ← List.cons_append, ← List.append_assoc, List.dropLast_concat]
      simp
  have h1 := slotCrc_at hfull hxg.le hlast hf
  have h2 := slotCrc_eq f.view.groups f.known
  have hpos := List.length_pos_iff.mpr (hg.ne x (by simp))
  have h3 := congrArg List.length hf
  rw [List.flatten_append, List.length_append, length_flatten_full hfull, List.length_map, List.flatten_cons, List.length_append (as := x)] at h3
  have := hu (init ++ u).length (by rw [f.slot]; simp) (by omega)
  rw [f.slot, h2, h1] at this
  exact this

/-- The slots of the reader after `reload`. -/
theorem reload_over (f : Further cap ps qs init more g a l s w) (hc : 0 < cap) (hu : ∀ x ∈ (g ++ a) :: more, (table cap g).crc ≠ (table cap x).crc) (chk : Bool) :
    ∃ s', reloadReader cap chk s w.data = some (.ok (l.length - g.length), s') ∧ View cap (init ++ [l]) s' := by
  have hsp := f.view.groups.split
  have hgs : Groups cap ((g ++ a) :: more) := by
    have := f.groups
    rw [List.append_assoc] at this
    exact groups_right this
  obtain ⟨mi, hmi⟩ : ∃ mi, more = mi ++ [l] := by
    rcases List.eq_nil_or_concat more with h | ⟨mi, y, h⟩
    · exact absurd h f.more_ne
    · have := f.last
      rw [h, List.concat_eq_append, List.getLast?_concat] at this
      injection this with this
      exact ⟨mi, by rw [h, List.concat_eq_append, this]⟩
  have hl : Group cap l := f.groups.group l (by rw [hmi]; simp)
  have hlne : l ≠ [] := f.groups.ne l (by rw [hmi]; simp)
  have hdata : fileOf cap (init ++ [g ++ a] ++ more) = fileOf cap init ++ fileOf cap ((g ++ a) :: more) := by
    rw [List.append_assoc, fileOf_append]; rfl
  have hle := groups_le f.groups.group
  have hsmall := f.small
  rw [hdata] at hsmall
  have hlen : s.slots.length = init.length + 1 := by rw [f.view.slots, anchor_length]; simp
  have hloop := Brec.reload_over (cap := cap) chk (index := g.length) (count := s.slots.length) (off := (fileOf cap init).length) (crc := (table cap g).crc)
    ((g ++ a) :: more) (fileOf cap init) (anchor cap 0 init) (table cap g) (w.data.length + 1) hgs hsmall (by rw [hlen, List.length_append, anchor_length]; rfl)
    (by rw [f.data]; simp only [List.length_append, List.length_cons, List.length_nil] at hle ⊢; omega) hu
  have hlt : lastTable cap (table cap g) ((g ++ a) :: more) = table cap l := by rw [hmi, ← List.cons_append, lastTable_concat]
  rw [hlt, ← hdata, ← anchor_concat, ← anchor_concat, ← f.data, ← f.view.slots] at hloop
  have hv : View cap (init ++ [l]) (⟨anchor cap 0 (init ++ [l]), s.loc.setup ((anchor cap 0 (init ++ [l])).map (·.inner))⟩ : Storage) := by
    have hgl : Groups cap (init ++ [l]) := Groups.mk' hsp.1 hc hl hlne
    refine ⟨hgl, rfl, ?_⟩
    dsimp only
    rw [anchor_inner]
    exact setup_next hc hgl _
  refine ⟨_, ?_, hv⟩
  unfold reloadReader Storage.reload
  rw [lastInfo_part f.view.slots hsp.2.1 f.lt]
  simp only
  rw [hloop]
  simp only [Option.map_some]
  congr 3
  unfold Storage.fresh
  rw [show ((anchor cap 0 (init ++ [l])).length == s.slots.length) = true by rw [anchor_length, hlen]; simp]
  rw [anchor_concat, List.getLast?_concat]
  simp only
  rw [table_freeIndex hl]
  have := hl.le
  by_cases h : l.length < cap
  · rw [if_pos h]
  · rw [if_neg h]
    simp only
    omega

theorem reload (f : Further cap ps qs init more g a l s w) (hc : 0 < cap) (hu : Unlike cap ps qs) (chk : Bool) :
    ∃ s', reloadReader cap chk s w.data = some (.ok (l.length - g.length), s') ∧ View cap (init ++ [l]) s' := f.reload_over hc (f.unlike hu) chk

end Further

/-! ## What stays -/

/-- **C84, as long as no further slot has been begun.** Whatever has been appended within the slot in use, or from a slot boundary on, and whatever `reload` returns:
the reader has the packets it had. -/
theorem C84_keeps_partial {cap : Nat} (hc : 0 < cap) {chk : Bool} {ops ops2 : List (Op O Q)} {s s' : Storage} {w : Writer} {r : Out Nat} (h : Watching cap chk ops s)
    (hw : runOps cap chk (ops ++ ops2) emptyWriter = some w) (hok : ∀ p ∈ log (ops ++ ops2), Storable S p) (hs : Small cap (log (ops ++ ops2)))
    (hb : ¬ Beyond cap (log ops) (log ops2)) (hr : reloadReader cap chk s w.data = some (r, s')) :
    s.count cap ≤ s'.count cap ∧ ∀ i < (log ops).length, s'.nth cap chk w.data i = .ok (log ops)[i]? := by
  have hb' : (log ops).length % cap = 0 ∨ (log ops).length % cap ≠ 0 ∧ (log ops).length % cap + (log ops2).length ≤ cap := by
    by_cases h0 : (log ops).length % cap = 0
    · exact .inl h0
    · exact .inr ⟨h0, Nat.not_lt.mp fun hlt => hb ⟨h0, hlt⟩⟩
  obtain ⟨gs, v, f⟩ := h.view (S := S) hc (fun p hp => (hok p (by rw [log_append]; simp [hp])).ok) (by rw [log_append] at hs; exact hs.left)
  have hcount : s.count cap = (log ops).length := by rw [v.count, f, List.length_map]
  have calm : Calm cap (log ops) (log ops2) → s.count cap ≤ s'.count cap ∧ ∀ i < (log ops).length, s'.nth cap chk w.data i = .ok (log ops)[i]? := by
    intro hcalm
    obtain ⟨s2, e2, sh⟩ := C37_reload_partial hc h hw hok hs hcalm
    rw [hr] at e2
    injection e2 with e2
    injection e2 with _ e2
    subst e2
    refine ⟨by rw [hcount, sh.count, log_append]; simp, fun i hi => ?_⟩
    rw [sh.nth, log_append, List.getElem?_append_left hi]
  rcases hb' with h0 | ⟨h0, hfit⟩
  · exact calm (.inl h0)
  · by_cases hcrc : slotCrc cap ((log ops).length / cap) (log ops) = slotCrc cap ((log ops).length / cap) (log ops ++ log ops2)
    · have e2 := C37_same_crc hc h hw (fun p hp => (hok p hp).ok) hs h0 hfit hcrc
      rw [hr] at e2
      injection e2 with e2
      injection e2 with _ e2
      subst e2
      refine ⟨Nat.le_refl _, fun i _ => ?_⟩
      obtain ⟨w', gs', e', inv, f'⟩ := runOps_inv (S := S) hc chk (ops ++ ops2) (ps := []) (empty_inv cap) rfl (fun p hp => (hok p hp).ok) hs
      rw [hw] at e'
      injection e' with e'
      subst e'
      rw [List.nil_append] at f'
      have hl := small_file hc inv.groups f' hs
      rw [log_append] at f' hok
      have hext : gs'.flatten = gs.flatten ++ (log ops2).map wire := by rw [f', f, List.map_append]
      refine (seen_shows (S := S) hc chk v.seen (data := w.data) ?_ f (fun p hp => hok p (by simp [hp])) (by rw [inv.data]; exact hl)).nth i
      rw [inv.data]
      rcases grown hc v.groups inv.groups hext with ⟨more, haf, _, _, _⟩ | ⟨init, g, rfl, hlt, rfl⟩ | ⟨init, more, g, a, rfl, hlt, hga, rfl, hne⟩
      · exact absurd (full_mod haf f) h0
      · have hgg := inv.groups.split.2.1
        rw [fileOf_append, fileOf_cons, fileOf_nil, List.append_nil, region, List.flatten_append]
        refine Bodies.append (.cons (table_enc_length hgg.le) (.nil _)) fun x hx => (v.groups.split.1 x hx).1
      · have hgg := inv.groups.group (g ++ a) (by simp)
        rw [List.append_assoc, fileOf_append, List.singleton_append, fileOf_cons, region, List.flatten_append, List.append_assoc, List.append_assoc]
        refine Bodies.append (.cons (table_enc_length hgg.le) (.nil _)) fun x hx => (v.groups.split.1 x hx).1
    · exact calm (.inr ⟨hfit, hcrc⟩)

/-! ## What is taken away -/

/-- **C84, exactly.** When a further slot has been begun, and no CRC happens to be the old one, `reload` reports success and puts the table of the last slot in the
place of the one that was in use: the reader then counts the full slots before it and the packets of the last slot. The packets of the full slots before are still
there, and `nth` finds nothing at or after the new count. -/
theorem C84_exact {cap : Nat} (hc : 0 < cap) {chk : Bool} {ops ops2 : List (Op O Q)} {s : Storage} {w : Writer} (h : Watching cap chk ops s)
    (hw : runOps cap chk (ops ++ ops2) emptyWriter = some w) (hok : ∀ p ∈ log (ops ++ ops2), Storable S p) (hs : Small cap (log (ops ++ ops2)))
    (hb : Beyond cap (log ops) (log ops2)) (hu : Unlike cap (log ops) (log ops2)) :
    ∃ s', reloadReader cap chk s w.data = some (.ok (inLast cap (log (ops ++ ops2)).length - (log ops).length % cap), s') ∧
      s'.count cap = (log ops).length / cap * cap + inLast cap (log (ops ++ ops2)).length ∧
      (∀ i < (log ops).length / cap * cap, s'.nth cap chk w.data i = .ok (log ops)[i]?) ∧
      ∀ i, s'.count cap ≤ i → s'.nth (O := O) (Q := Q) cap chk w.data i = .ok none := by
  obtain ⟨init, more, g, a, l, f⟩ := further (S := S) hc h hw (fun p hp => (hok p hp).ok) hs hb
  obtain ⟨s', e, v⟩ := f.reload hc hu chk
  have hfull : AllFull cap init := f.view.groups.split.1
  rw [log_append] at hok ⊢
  refine ⟨s', ?_, ?_, fun i hi => ?_, fun i hi => nth_after hc v _ hi⟩
  · rw [e, f.last_len, f.index]
  · rw [v.count, List.flatten_append, List.length_append, length_flatten_full hfull, f.slot, ← f.last_len]
    simp
  · rw [f.data, List.append_assoc, fileOf_append]
    rw [f.slot] at hi
    refine nth_before hc v.slots hfull _ (more := g) (by rw [← f.known]; simp) (fun p hp => hok p (by simp [hp])) hi

/-- **C84, the reader loses packets.** If the last slot has fewer packets than the one in use had, `reload` reports that there is nothing new, and the reader has fewer
packets than before: those between the new count and the old one are no longer found. -/
theorem C84_loses {cap : Nat} (hc : 0 < cap) {chk : Bool} {ops ops2 : List (Op O Q)} {s : Storage} {w : Writer} (h : Watching cap chk ops s)
    (hw : runOps cap chk (ops ++ ops2) emptyWriter = some w) (hok : ∀ p ∈ log (ops ++ ops2), Storable S p) (hs : Small cap (log (ops ++ ops2)))
    (hb : Beyond cap (log ops) (log ops2)) (hu : Unlike cap (log ops) (log ops2)) (hl : inLast cap (log (ops ++ ops2)).length < (log ops).length % cap) :
    ∃ s', reloadReader cap chk s w.data = some (.ok 0, s') ∧ s'.count cap < s.count cap ∧
      ∀ i, s'.count cap ≤ i → i < (log ops).length → (log ops)[i]? ≠ none ∧ s'.nth (O := O) (Q := Q) cap chk w.data i = .ok none := by
  obtain ⟨s', e, hcnt, _, ha⟩ := C84_exact hc h hw hok hs hb hu
  obtain ⟨init, more, g, a, l, f⟩ := further (S := S) hc h hw (fun p hp => (hok p hp).ok) hs hb
  refine ⟨s', by rw [e, Nat.sub_eq_zero_of_le (by omega)], ?_, fun i hi hlt => ⟨by simp; omega, ha i hi⟩⟩
  rw [hcnt, f.view.count, f.known, List.length_map]
  have := Nat.div_add_mod (log ops).length cap
  rw [Nat.mul_comm] at this
  omega

/-- **C84, two more reloads.** If just one further slot has been begun and it is not full, then, provided nothing is inserted meanwhile and no CRCs happen to agree,
the second `reload` returns 0, and after the third the reader shows everything. -/
theorem C84_third {cap : Nat} (hc : 0 < cap) {chk : Bool} {ops ops2 : List (Op O Q)} {s : Storage} {w : Writer} (h : Watching cap chk ops s)
    (hw : runOps cap chk (ops ++ ops2) emptyWriter = some w) (hok : ∀ p ∈ log (ops ++ ops2), Storable S p) (hs : Small cap (log (ops ++ ops2)))
    (hb : Beyond cap (log ops) (log ops2)) (hu : Unlike cap (log ops) (log ops2)) (h2 : (log (ops ++ ops2)).length < ((log ops).length / cap + 2) * cap)
    (hne : slotCrc cap ((log ops).length / cap) (log (ops ++ ops2)) ≠ slotCrc cap ((log ops).length / cap + 1) (log (ops ++ ops2))) :
    ∃ n s1 s2 s3, reloadReader cap chk s w.data = some (.ok n, s1) ∧ reloadReader cap chk s1 w.data = some (.ok 0, s2) ∧
      reloadReader cap chk s2 w.data = some (.ok (inLast cap (log (ops ++ ops2)).length), s3) ∧ Shows cap chk s3 w.data (log (ops ++ ops2)) := by
  obtain ⟨init, more, g, a, l, f⟩ := further (S := S) hc h hw (fun p hp => (hok p hp).ok) hs hb
  obtain ⟨s1, e1, v1⟩ := f.reload hc hu chk
  rw [log_append] at *
  have haf := f.full
  have hga : (g ++ a).length = cap := (haf _ (by simp)).2
  have hgg : Group cap (g ++ a) := (haf _ (by simp)).1
  obtain rfl : more = [l] := by
    have hlen := congrArg List.length f.flat
    have hm := groups_right f.groups
    have hlast := f.last
    rcases List.eq_nil_or_concat more with rfl | ⟨mi, y, rfl⟩
    · exact absurd rfl f.more_ne
    · rw [List.concat_eq_append] at *
      rw [List.getLast?_concat] at hlast
      injection hlast with hlast
      subst hlast
      cases mi with
      | nil => rfl
      | cons z mi =>
        exfalso
        have hz := hm.split.1
        rw [List.flatten_append, List.length_append, length_flatten_full haf, List.flatten_append, List.length_append (as := List.flatten _), length_flatten_full hz, List.length_map] at hlen
        rw [f.slot] at h2
        simp only [List.length_append (as := init), List.length_cons, List.length_nil, Nat.add_mul] at hlen h2
        omega
  have hlg : Group cap l := f.groups.group l (by simp)
  have hlt : l.length < cap := by
    have hlen := congrArg List.length f.flat
    rw [List.flatten_append, List.length_append, length_flatten_full haf, List.length_map] at hlen
    rw [f.slot] at h2
    simp only [List.length_append (as := init), List.length_cons, List.length_nil, Nat.add_mul, List.flatten_cons, List.flatten_nil, List.append_nil] at hlen h2
    omega
  have hcrc : (table cap l).crc ≠ (table cap (g ++ a)).crc := by
    have hf := f.flat
    rw [List.append_assoc] at hf
    have c1 := slotCrc_at f.view.groups.split.1 hgg.le (.inl hga) hf
    rw [← List.append_assoc] at hf
    have c2 := slotCrc_at haf hlg.le (.inr rfl) hf
    rw [List.length_append, List.length_singleton] at c2
    rw [f.slot, c1, c2] at hne
    exact Ne.symm hne
  have hdata : w.data = fileOf cap init ++ (region cap (g ++ a) ++ region cap l) := by
    rw [f.data, List.append_assoc, fileOf_append, List.singleton_append, fileOf_cons, fileOf_cons, fileOf_nil, List.append_nil]
  have hsmall : w.data.length < 2 ^ 63 := by rw [f.data]; exact f.small
  have hlen1 : s1.slots.length = init.length + 1 := by rw [v1.slots, anchor_length]; simp
  have e2 : reloadReader cap chk s1 w.data = some (.ok 0, { s1 with slots := anchor cap 0 (init ++ [g ++ a]) }) := by
    unfold reloadReader Storage.reload
    rw [lastInfo_part v1.slots hlg hlt]
    simp only
    have hcnt : ∀ t, (anchor cap 0 init ++ [(⟨t, (fileOf cap init).length⟩ : Anchored)]).length = s1.slots.length := by
      intro t; rw [hlen1, List.length_append, anchor_length]; rfl
    have hfu : ∃ n, w.data.length + 1 = n + 1 + 1 := by
      refine ⟨w.data.length - 1, ?_⟩
      have : 0 < w.data.length := by
        rw [hdata]
        simp only [List.length_append, region_length hgg.le]
        omega
      omega
    obtain ⟨n, hn⟩ := hfu
    have hloop := reload_replace chk (index := l.length) (count := s1.slots.length) (off := (fileOf cap init).length) (t := table cap l) (front := anchor cap 0 init)
      (pre := fileOf cap init) (rest := region cap l) (fuel := n + 1) hgg (by rw [← hdata]; exact hsmall) (hcnt _) hcrc
    rw [if_neg (by omega)] at hloop
    have hfound := reload_found chk (index := l.length) (count := s1.slots.length) (pre := fileOf cap init ++ region cap (g ++ a)) (rest := [])
      (slots := anchor cap 0 init ++ [(⟨table cap (g ++ a), (fileOf cap init).length⟩ : Anchored)]) (fuel := n) hlg
      (by rw [List.append_nil, List.append_assoc, ← hdata]; exact hsmall) (hcnt _) rfl
    rw [List.append_nil, List.append_assoc] at hfound
    rw [hfound, ← hdata, ← anchor_concat, ← anchor_concat, ← v1.slots, ← hn] at hloop
    rw [hloop]
    rfl
  have hml : Groups cap [l] := groups_right f.groups
  obtain ⟨s3, e3, _, v3⟩ := reload_from_boundary hc (gs := init ++ [g ++ a]) (more := [l]) (s := { s1 with slots := anchor cap 0 (init ++ [g ++ a]) }) rfl haf hml f.small
    (chk := chk) (fuel := w.data.length + 1) (by
      have hle := groups_le f.groups.group
      rw [f.data]
      simp only [List.length_append, List.length_cons, List.length_nil] at hle ⊢
      omega)
  refine ⟨_, s1, _, s3, e1, e2, ?_, ?_⟩
  · unfold reloadReader
    rw [← f.data] at e3
    rw [e3, ← f.last_len]
    simp [hlt]
  · rw [f.data]
    exact view_shows hc chk (v3 (by simp)) f.flat hok f.small

/-! ### A sample: 499 packets, and two more -/

/-- Of three different things, one is neither of two given ones. -/
theorem pick {α : Type} (f : Nat → α) (hf : ∀ a b, a < 3 → b < 3 → a ≠ b → f a ≠ f b) (c1 c2 : α) : ∃ n, n < 3 ∧ c1 ≠ f n ∧ c2 ≠ f n := by
  refine Classical.byContradiction fun h => ?_
  have key : ∀ n, n < 3 → c1 = f n ∨ c2 = f n := by
    intro n hn
    refine Classical.byContradiction fun h' => h ⟨n, hn, fun e => h' (.inl e), fun e => h' (.inr e)⟩
  have h01 := hf 0 1 (by omega) (by omega) (by omega)
  have h02 := hf 0 2 (by omega) (by omega) (by omega)
  have h12 := hf 1 2 (by omega) (by omega) (by omega)
  rcases key 0 (by omega) with a | a <;> rcases key 1 (by omega) with b | b <;> rcases key 2 (by omega) with c | c <;>
    first
    | exact h01 (a.symm.trans b)
    | exact h02 (a.symm.trans c)
    | exact h12 (b.symm.trans c)

/-- 499 packets. -/
@[irreducible] def lots : List (Packet (blockEnum sampleTypes) (PEnum.ops [])) := List.replicate 499 samplePacket

theorem lots_length : lots.length = 499 := by unfold lots; rw [List.length_replicate]

theorem lots_wire : (lots.map fun p => (wire p).length).sum = 499 * 125 := by
  unfold lots; rw [List.map_replicate, List.sum_replicate_nat, wire_sample_length]

theorem lots_mem {p : Packet (blockEnum sampleTypes) (PEnum.ops [])} (h : p ∈ lots) : p = samplePacket := by
  unfold lots at h; exact (List.mem_replicate.mp h).2

abbrev most : List (Op (blockEnum sampleTypes) (PEnum.ops [])) := lots.map Op.insert

/-- The reader has read 499 packets, then the slot is filled and one packet goes into the next. -/
theorem sample_beyond (chk : Bool) : ∃ n w s, n < 3 ∧ Watching SLOT_CAPACITY chk most s ∧
    runOps SLOT_CAPACITY chk (most ++ [Op.insert samplePacket, Op.insert (zeroPacket n)]) emptyWriter = some w ∧
    log (most ++ [Op.insert samplePacket, Op.insert (zeroPacket n)]) = lots ++ [samplePacket, zeroPacket n] ∧
    (∀ p ∈ log (most ++ [Op.insert samplePacket, Op.insert (zeroPacket n)]), Storable sampleSpec p) ∧
    Small SLOT_CAPACITY (log (most ++ [Op.insert samplePacket, Op.insert (zeroPacket n)])) ∧
    Unlike SLOT_CAPACITY lots [samplePacket, zeroPacket n] ∧
    slotCrc SLOT_CAPACITY 0 (lots ++ [samplePacket, zeroPacket n]) ≠
      slotCrc SLOT_CAPACITY 1 (lots ++ [samplePacket, zeroPacket n]) := by
  have hfull : ∀ x : Packet (blockEnum sampleTypes) (PEnum.ops []), slotCrc SLOT_CAPACITY 0 (lots ++ [samplePacket, x]) =
      slotCrc SLOT_CAPACITY 0 (lots ++ [samplePacket]) := by
    intro x
    unfold slotCrc
    simp only [Nat.zero_mul, List.drop_zero]
    rw [show lots ++ [samplePacket, x] = (lots ++ [samplePacket]) ++ [x] by simp,
      List.take_append_of_le_length (by simp [SLOT_CAPACITY, lots_length])]
  have hone : ∀ n, n < 3 → slotCrc SLOT_CAPACITY 1 (lots ++ [samplePacket, zeroPacket n]) =
      Slot.crcOf SLOT_CAPACITY ((n + 43) :: List.replicate 499 0) := by
    intro n hn
    unfold slotCrc
    rw [show lots ++ [samplePacket, zeroPacket n] = (lots ++ [samplePacket]) ++ [zeroPacket n] by simp,
      List.drop_append_of_le_length (by simp [SLOT_CAPACITY, lots_length]), List.drop_eq_nil_of_le (by simp [SLOT_CAPACITY, lots_length]), List.nil_append,
      List.take_of_length_le (by simp [SLOT_CAPACITY])]
    simp only [List.map_cons, List.map_nil, List.length_cons, List.length_nil, wire_zero_length (show n < 2 ^ 32 by omega)]
    rfl
  obtain ⟨n, hn, h1, h2⟩ := pick (fun n => Slot.crcOf SLOT_CAPACITY ((n + 43) :: List.replicate 499 0)) (fun a b ha hb hab he => hab (by
      have := single_crc (by omega) (by omega) he
      omega)) (slotCrc SLOT_CAPACITY 0 lots) (slotCrc SLOT_CAPACITY 0 (lots ++ [samplePacket]))
  have hlog : log (most ++ [Op.insert samplePacket, Op.insert (zeroPacket n)]) = lots ++ [samplePacket, zeroPacket n] := by
    rw [log_append, log_inserts]; rfl
  have hok : ∀ p ∈ log (most ++ [Op.insert samplePacket, Op.insert (zeroPacket n)]), Storable sampleSpec p := by
    rw [hlog]
    intro p hp
    rcases List.mem_append.mp hp with hp | hp
    · rw [lots_mem hp]; exact sample_storable
    · rcases List.mem_cons.mp hp with rfl | hp
      · exact sample_storable
      · rw [List.mem_singleton.mp hp]; exact zeroPacket_storable (by omega)
  have hs : Small SLOT_CAPACITY (log (most ++ [Op.insert samplePacket, Op.insert (zeroPacket n)])) := by
    rw [hlog]
    unfold Small
    have hsum := lots_wire
    simp only [List.map_append, List.map_cons, List.map_nil, wire_sample_length, wire_zero_length (show n < 2 ^ 32 by omega), List.sum_append,
      List.sum_cons, List.sum_nil, List.length_append, lots_length, List.length_cons, List.length_nil, SLOT_CAPACITY]
    omega
  obtain ⟨data, s, hr⟩ := Reached.exists (S := sampleSpec) (cap := SLOT_CAPACITY) (by decide) chk most
    (by intro p hp; exact hok p (by rw [log_append]; exact List.mem_append_left _ hp)) (by rw [log_append] at hs; exact hs.left)
  obtain ⟨w, _, hw, _⟩ := C30_reopen (S := sampleSpec) (cap := SLOT_CAPACITY) (by decide) chk _ hok hs
  refine ⟨n, w, s, hn, .opened hr, hw, hlog, hok, hs, ?_, ?_⟩
  · intro k _ hk
    have hk2 : k < 2 := by
      simp only [List.length_append, lots_length, List.length_cons, List.length_nil, SLOT_CAPACITY] at hk
      omega
    rw [lots_length, show 499 / SLOT_CAPACITY = 0 by decide]
    rcases (show k = 0 ∨ k = 1 by omega) with rfl | rfl
    · rw [hfull]
      rcases C37_single (S := sampleSpec) (cap := SLOT_CAPACITY) (by decide) lots samplePacket_ok (by rw [wire_sample_length]; decide) with h | ⟨_, h⟩
      · rw [lots_length] at h; exact absurd h (by decide)
      · rw [lots_length] at h; exact h
    · rw [hone n hn]; exact h1
  · rw [hone n hn, hfull]; exact h2

/-- **C84 is false**, in debug and release builds: a reader that has shown 499 packets shows one, after two more have been inserted and `reload` has reported success. -/
theorem C84_not (chk : Bool) : ¬ C84_full (PEnum.ops []) sampleSpec SLOT_CAPACITY chk := by
  intro h
  obtain ⟨n, w, s, _, hwa, hw, hlog, hok, hs, hu, _⟩ := sample_beyond chk
  have hmost : log most = lots := log_inserts _
  obtain ⟨s', e, hlt, _⟩ := C84_loses (S := sampleSpec) (cap := SLOT_CAPACITY) (by decide) hwa hw hok hs (by
      rw [hmost]; refine ⟨?_, ?_⟩ <;> simp [log, SLOT_CAPACITY, lots_length]) (by rw [hmost]; exact hu) (by rw [hlog, hmost]; simp [inLast, SLOT_CAPACITY, lots_length])
  have := (h _ _ s s' w _ hwa hw hok hs e).1
  omega

/-- `C84_loses` and `C84_third` apply to the same reader: it has 499 packets, then 1, then 501. -/
example (chk : Bool) : ∃ (w : Writer) (s s1 s2 s3 : Storage), Watching SLOT_CAPACITY chk most s ∧ s.count SLOT_CAPACITY = 499 ∧
    reloadReader SLOT_CAPACITY chk s w.data = some (.ok 0, s1) ∧ s1.count SLOT_CAPACITY = 1 ∧ reloadReader SLOT_CAPACITY chk s1 w.data = some (.ok 0, s2) ∧
    reloadReader SLOT_CAPACITY chk s2 w.data = some (.ok 1, s3) ∧ s3.count SLOT_CAPACITY = 501 := by
  obtain ⟨n, w, s, _, hwa, hw, hlog, hok, hs, hu, hne⟩ := sample_beyond chk
  have hmost : log most = lots := log_inserts _
  have hb : Beyond SLOT_CAPACITY (log most) (log [Op.insert samplePacket, Op.insert (zeroPacket n)]) := by
    rw [hmost]; refine ⟨?_, ?_⟩ <;> simp [log, SLOT_CAPACITY, lots_length]
  obtain ⟨s1, e1, hc1, _⟩ := C84_exact (S := sampleSpec) (cap := SLOT_CAPACITY) (by decide) hwa hw hok hs hb (by rw [hmost]; exact hu)
  obtain ⟨_, s1', s2, s3, e1', e2, e3, sh⟩ := C84_third (S := sampleSpec) (cap := SLOT_CAPACITY) (by decide) hwa hw hok hs hb (by rw [hmost]; exact hu)
    (by rw [hlog, hmost]; simp [SLOT_CAPACITY, lots_length]) (by rw [hlog, hmost, lots_length]; exact hne)
  rw [e1] at e1'
  injection e1' with e1'
  injection e1' with _ e1'
  subst e1'
  obtain ⟨gs, v, f⟩ := hwa.view (S := sampleSpec) (by decide) (fun p hp => (hok p (by rw [log_append]; exact List.mem_append_left _ hp)).ok) (by
    rw [log_append] at hs; exact hs.left)
  rw [hlog] at hc1 e1 e3 sh
  rw [hmost] at hc1 e1
  refine ⟨w, s, s1, s2, s3, hwa, by rw [v.count, f, hmost]; simp [lots_length], ?_, ?_, e2, ?_, ?_⟩
  · rw [e1]; simp [inLast, SLOT_CAPACITY, lots_length]
  · rw [hc1]; simp [inLast, SLOT_CAPACITY, lots_length]
  · rw [e3]; simp [inLast, SLOT_CAPACITY, lots_length]
  · rw [sh.count]; simp [lots_length]

end Brec.Props
