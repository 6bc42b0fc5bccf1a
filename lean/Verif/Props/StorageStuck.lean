import Verif.Props.StorageLoss
/-!
# A reader that never catches up: C87
-/

namespace Brec.Props

open Rd

variable {O : BlockOps} {Q : PayloadOps} {S : BlockSpec O}

/-- `reload` called `n` times, whatever it returns; `none` if a call does not end. -/
def again (cap : Nat) (chk : Bool) (data : Bytes) : Nat → Storage → Option Storage
  | 0, s => some s
  | n + 1, s =>
    match reloadReader cap chk s data with
    | none => none
    | some (_, s') => again cap chk data n s'

/-- **C87, full statement** (false): a reader that keeps calling `reload` while nothing is inserted shows everything in the end. -/
def C87_full (Q : PayloadOps) (S : BlockSpec O) (cap : Nat) (chk : Bool) : Prop :=
  ∀ (ops ops2 : List (Op O Q)) (s : Storage) (w : Writer), Watching cap chk ops s → runOps cap chk (ops ++ ops2) emptyWriter = some w →
    (∀ p ∈ log (ops ++ ops2), Storable S p) → Small cap (log (ops ++ ops2)) →
    ∃ n s', again cap chk w.data n s = some s' ∧ Shows cap chk s' w.data (log (ops ++ ops2))

/-- Where the next `reload` begins to read after one that met the packets `qs` beyond the slot in use after `ps`: the slots known before, and then as much as the *last*
slot takes. -/
def resumeAt (cap : Nat) (ps qs : List (Packet O Q)) : Nat :=
  ((ps.take (ps.length / cap * cap)).map fun p => (wire p).length).sum + (((ps ++ qs).drop ((ps ++ qs).length - cap)).map fun p => (wire p).length).sum +
    (ps.length / cap + 1) * (20 + 8 * cap)

/-! ## Lemmas -/

/-- No slot begins here. -/
theorem tryRead_noSig {chk : Bool} {data : Bytes} {pos : Nat} (hl : pos + 16 ≤ data.length) (hsig : (data.drop pos).take 8 ≠ SLOT_SIG) :
    (Slot.tryRead ⟨data, pos, chk⟩).1 = .err .sigDismatch := by
  have hrem : (⟨data, pos, chk⟩ : Cur).remaining = .ok (data.length - pos) := by
    unfold Cur.remaining
    rw [if_pos (show pos ≤ data.length by omega)]
  have hrun : ((⟨data, pos, chk⟩ : Cur).run (P.readExact 8)).1 = .ok ((data.drop pos).take 8) := by
    unfold Cur.run
    rw [show (⟨data, pos, chk⟩ : Cur).rest = data.drop pos from rfl, P.readExact_ok (by rw [List.length_drop]; omega)]
  unfold Slot.tryRead
  rw [hrem]
  simp only
  unfold Slot.tryReadHeader
  rw [hrem]
  simp only
  rw [if_neg (by simp [SLOT_HSIZE]; omega)]
  generalize (⟨data, pos, chk⟩ : Cur).run (P.readExact 8) = x at hrun
  obtain ⟨r, c1⟩ := x
  dsimp only at hrun
  subst hrun
  simp only
  rw [if_pos hsig]

/-- A reader whose last slot is full, in front of something that is no slot. -/
theorem reload_noSig {cap : Nat} {init : List (List Bytes)} {l : List Bytes} {s : Storage} (v : View cap (init ++ [l]) s) (hl : l.length = cap) {chk : Bool} {data : Bytes}
    (hd : (fileOf cap (init ++ [l])).length + 16 ≤ data.length) (hsig : (data.drop (fileOf cap (init ++ [l])).length).take 8 ≠ SLOT_SIG) :
    reloadReader cap chk s data = some (.err (.damagedSlot .sigDismatch), s) := by
  unfold reloadReader Storage.reload
  rw [lastInfo_full v.slots v.groups.split.2.1 hl]
  simp only
  rw [Storage.reloadLoop.eq_def]
  simp only
  rw [tryRead_noSig hd hsig]
  rfl

theorem again_fixed {cap : Nat} {chk : Bool} {data : Bytes} {s : Storage} {r : Out Nat} (h : reloadReader cap chk s data = some (r, s)) : ∀ n, again cap chk data n s = some s
  | 0 => rfl
  | n + 1 => by rw [again, h]; exact again_fixed h n

variable {cap : Nat} {ps qs : List (Packet O Q)} {init more : List (List Bytes)} {g a l : List Bytes} {s : Storage} {w : Writer}

theorem sum_wires {ps : List (Packet O Q)} {x : List Bytes} (h : x = ps.map wire) : (ps.map fun p => (wire p).length).sum = x.flatten.length := by
  rw [h, List.length_flatten, List.map_map]; rfl

theorem Further.resume (f : Further cap ps qs init more g a l s w) (hl : l.length = cap) : resumeAt cap ps qs = (fileOf cap (init ++ [l])).length := by
  have hi := f.view.groups.split.1
  have h1 : init.flatten = (ps.take (ps.length / cap * cap)).map wire := by
    rw [List.map_take, ← f.known, f.slot, List.flatten_append, ← length_flatten_full hi, List.take_left]
  obtain ⟨mi, hmi⟩ : ∃ mi, more = mi ++ [l] := by
    rcases List.eq_nil_or_concat more with h | ⟨mi, y, h⟩
    · exact absurd h f.more_ne
    · have := f.last
      rw [h, List.concat_eq_append, List.getLast?_concat] at this
      injection this with this
      exact ⟨mi, by rw [h, List.concat_eq_append, this]⟩
  have h2 : l = ((ps ++ qs).drop ((ps ++ qs).length - cap)).map wire := by
    have := f.flat
    rw [hmi, ← List.append_assoc, List.flatten_append] at this
    simp only [List.flatten_cons, List.flatten_nil, List.append_nil] at this
    rw [List.map_drop, ← this]
    have hlen := congrArg List.length this
    rw [List.length_map, List.length_append] at hlen
    rw [← hlen, hl, Nat.add_sub_cancel, List.drop_left]
  have hgr : ∀ x ∈ init ++ [l], Group cap x := by
    intro x hx
    rcases List.mem_append.mp hx with hx | hx
    · exact (hi x hx).1
    · rw [List.mem_singleton.mp hx]; exact f.groups.group l (by rw [hmi]; simp)
  unfold resumeAt
  rw [length_fileOf hgr, sum_wires h1, sum_wires h2, f.slot]
  simp

/-- The file goes on from a slot boundary. -/
theorem full_more {cap : Nat} (hc : 0 < cap) {chk : Bool} {ops ops2 : List (Op O Q)} {w w2 : Writer} (hw : runOps cap chk ops emptyWriter = some w)
    (hw2 : runOps cap chk (ops ++ ops2) emptyWriter = some w2) (hok : ∀ p ∈ log (ops ++ ops2), p.Ok S) (hs : Small cap (log (ops ++ ops2)))
    (hfull : (log ops).length % cap = 0) : ∃ x, w2.data = w.data ++ x := by
  obtain ⟨w', gs', e', i', f'⟩ := runOps_inv (S := S) hc chk (ops ++ ops2) (ps := []) (empty_inv cap) rfl hok hs
  rw [hw2] at e'
  injection e' with e'
  subst e'
  rw [log_append] at hok hs f'
  obtain ⟨w1, gs, e, i, f⟩ := runOps_inv (S := S) hc chk ops (ps := []) (empty_inv cap) rfl (fun p hp => hok p (by simp [hp])) hs.left
  rw [hw] at e
  injection e with e
  subst e
  rw [List.nil_append] at f f'
  have hext : gs'.flatten = gs.flatten ++ (log ops2).map wire := by rw [f', f, List.map_append]
  rcases grown hc i.groups i'.groups hext with ⟨more, _, _, rfl, _⟩ | ⟨init, g, rfl, hlt, rfl⟩ | ⟨init, more, g, a, rfl, hlt, hga, rfl, hne⟩
  · exact ⟨_, by rw [i'.data, i.data, fileOf_append]⟩
  · have := part_mod i.groups hlt f
    exact absurd (List.length_eq_zero_iff.mp (this.1.symm.trans hfull)) this.2.2
  · have := part_mod i.groups hlt f
    exact absurd (List.length_eq_zero_iff.mp (this.1.symm.trans hfull)) this.2.2

/-! ## The reader is stuck -/

/-- **C87, stuck.** A further slot has been begun, the last slot is full, no CRC happens to be the old one, and no slot begins where the next `reload` looks. Then the
first `reload` reports success, and from then on every `reload` reports a damaged slot and leaves the reader as it is – whatever is inserted afterwards (`ops3`). The
reader has the packets of as many slots as it had begun to read, not more. -/
theorem C87_stuck {cap : Nat} (hc : 0 < cap) {chk : Bool} {ops ops2 : List (Op O Q)} {s : Storage} {w : Writer} (h : Watching cap chk ops s)
    (hw : runOps cap chk (ops ++ ops2) emptyWriter = some w) (hok : ∀ p ∈ log (ops ++ ops2), Storable S p) (hs : Small cap (log (ops ++ ops2)))
    (hb : Beyond cap (log ops) (log ops2)) (hu : Unlike cap (log ops) (log ops2)) (hfull : (log (ops ++ ops2)).length % cap = 0)
    (hsig : (w.data.drop (resumeAt cap (log ops) (log ops2))).take 8 ≠ SLOT_SIG) :
    ∃ s1, reloadReader cap chk s w.data = some (.ok (cap - (log ops).length % cap), s1) ∧ s1.count cap = ((log ops).length / cap + 1) * cap ∧
      s1.count cap < (log (ops ++ ops2)).length ∧
      ∀ (ops3 : List (Op O Q)) (w3 : Writer), runOps cap chk (ops ++ ops2 ++ ops3) emptyWriter = some w3 → (∀ p ∈ log (ops ++ ops2 ++ ops3), Storable S p) →
        Small cap (log (ops ++ ops2 ++ ops3)) → reloadReader cap chk s1 w3.data = some (.err (.damagedSlot .sigDismatch), s1) := by
  obtain ⟨init, more, g, a, l, f⟩ := further (S := S) hc h hw (fun p hp => (hok p hp).ok) hs hb
  obtain ⟨s1, e, v⟩ := f.reload hc hu chk
  have hl : l.length = cap := by
    have := f.last_len
    rw [← log_append] at this
    rw [this, inLast, if_pos hfull]
  have hcount : s1.count cap = ((log ops).length / cap + 1) * cap := by
    rw [v.count, List.flatten_append, List.length_append, length_flatten_full f.view.groups.split.1, f.slot]
    simp [hl, Nat.add_mul]
  have hlt : s1.count cap < (log (ops ++ ops2)).length := by
    rw [hcount, log_append]
    have h1 := congrArg List.length f.flat
    rw [List.flatten_append, List.length_append, length_flatten_full f.full, List.length_map, List.length_append, List.length_singleton, ← f.slot] at h1
    have : 0 < more.flatten.length := by
      cases hm : more with
      | nil => exact absurd hm f.more_ne
      | cons x m =>
        have := List.length_pos_iff.mpr (f.groups.ne x (by rw [hm]; simp))
        simp only [List.flatten_cons, List.length_append]
        omega
    omega
  refine ⟨s1, by rw [e, hl, f.index], hcount, hlt, fun ops3 w3 hw3 hok3 hs3 => ?_⟩
  obtain ⟨x, hx⟩ := full_more (S := S) hc hw hw3 (fun p hp => (hok3 p hp).ok) hs3 hfull
  have hfit : (fileOf cap (init ++ [l])).length + 16 ≤ w.data.length := by
    rw [f.data, List.append_assoc, fileOf_append, fileOf_append, List.length_append, List.length_append (as := fileOf cap init)]
    have hgl := (f.full (g ++ a) (by simp)).1
    have hmem : l ∈ more := List.mem_of_getLast? f.last
    obtain ⟨u, t, hut⟩ := List.append_of_mem hmem
    simp only [List.singleton_append, fileOf_cons, fileOf_nil, List.append_nil, List.length_append, hut, fileOf_append, region_length hgl.le]
    omega
  have hr := f.resume hl
  rw [hr] at hsig
  refine reload_noSig v hl (by rw [hx, List.length_append]; omega) ?_
  rw [hx, List.drop_append_of_le_length (by omega), List.take_append_of_le_length (by rw [List.length_drop]; omega)]
  exact hsig

/-! ## Packets of one size -/

/-- The loop runs over full slots. -/
theorem reload_walk {cap : Nat} (chk : Bool) {index count off : Nat} {crc : Bytes} : ∀ (gs : List (List Bytes)) (pre rest : Bytes) (front : List Anchored) (t : Slot) (fuel : Nat),
    AllFull cap gs → (pre ++ (fileOf cap gs ++ rest)).length < 2 ^ 63 → (front ++ [(⟨t, off⟩ : Anchored)]).length = count → (∀ g ∈ gs, crc ≠ (table cap g).crc) →
    Storage.reloadLoop chk (pre ++ (fileOf cap gs ++ rest)) (some (index, crc)) count (fuel + gs.length) pre.length (front ++ [⟨t, off⟩]) =
      Storage.reloadLoop chk (pre ++ (fileOf cap gs ++ rest)) (some (index, crc)) count fuel (pre ++ fileOf cap gs).length (front ++ [⟨lastTable cap t gs, off⟩])
  | [], pre, rest, front, t, fuel, _, _, _, _ => by simp [lastTable]
  | g :: gs, pre, rest, front, t, fuel, hg, hl, hs, hcrc => by
    rw [fileOf_cons, List.append_assoc] at hl ⊢
    rw [List.length_cons, ← Nat.add_assoc, reload_replace chk (hg g (by simp)).1 hl hs (hcrc g (by simp)), if_neg (by rw [(hg g (by simp)).2]; omega)]
    have := reload_walk (cap := cap) chk (index := index) (count := count) (off := off) (crc := crc) gs (pre ++ region cap g) rest front (table cap g) fuel
      (fun x hx => hg x (by simp [hx])) (by simpa only [List.append_assoc] using hl) (by simpa using hs) (fun x hx => hcrc x (by simp [hx]))
    rw [List.append_assoc, List.append_assoc] at this
    exact this

/-- Slots with packets of the same sizes have the same tables. -/
theorem table_congr {cap : Nat} {g h : List Bytes} (e : g.map List.length = h.map List.length) : table cap g = table cap h := by
  have hl := congrArg List.length e
  simp only [List.length_map] at hl
  unfold table lens
  simp only [e, hl]

/-- All packets take the same number of bytes. -/
def OneSize (ps : List (Packet O Q)) : Prop := ∃ z, ∀ p ∈ ps, (wire p).length = z

theorem oneSize_tables {cap : Nat} {gs : List (List Bytes)} {ps : List (Packet O Q)} (h : OneSize ps) (hf : gs.flatten = ps.map wire) {x y : List Bytes} (hx : x ∈ gs) (hy : y ∈ gs)
    (hl : x.length = y.length) : table cap x = table cap y := by
  obtain ⟨z, hz⟩ := h
  have key : ∀ u ∈ gs, u.map List.length = List.replicate u.length z := by
    intro u hu
    refine List.eq_replicate_iff.mpr ⟨by simp, fun n hn => ?_⟩
    obtain ⟨b, hb, rfl⟩ := List.mem_map.mp hn
    have : b ∈ ps.map wire := by rw [← hf]; exact List.mem_flatten.mpr ⟨u, hu, hb⟩
    obtain ⟨p, hp, rfl⟩ := List.mem_map.mp this
    exact hz p hp
  exact table_congr (by rw [key x hx, key y hy, hl])

/-- One call of `reload` that walks over full slots until it meets the CRC it knows, at the last slot: nothing is reported, and the last table known is replaced. -/
theorem Further.reload_met (f : Further cap ps qs init (more ++ [l]) g a l s w) (h1 : OneSize (ps ++ qs)) {t : Storage} {x : List Bytes} (hx : Group cap x) (hxl : x.length < cap)
    (ht : t.slots = anchor cap 0 (init ++ [x])) (hcl : (table cap x).crc = (table cap l).crc) (hcf : (table cap x).crc ≠ (table cap (g ++ a)).crc) (chk : Bool) :
    reloadReader cap chk t w.data = some (.ok 0, { t with slots := anchor cap 0 (init ++ [g ++ a]) }) := by
  have haf := f.full
  have hi := f.view.groups.split.1
  have hga : (g ++ a).length = cap := (haf _ (by simp)).2
  have hgg : Group cap (g ++ a) := (haf _ (by simp)).1
  have hlg : Group cap l := f.groups.group l (by simp)
  have hmore : Groups cap (more ++ [l]) := groups_right f.groups
  have hmf : AllFull cap ((g ++ a) :: more) := by
    intro x hx
    rcases List.mem_cons.mp hx with rfl | hx
    · exact ⟨hgg, hga⟩
    · exact ⟨f.groups.group x (by simp [hx]), hmore.full x (by rw [List.dropLast_concat]; exact hx)⟩
  have htab : ∀ x ∈ (g ++ a) :: more, table cap x = table cap (g ++ a) := by
    intro x hx
    refine oneSize_tables h1 f.flat ?_ (by simp) (by rw [(hmf x hx).2, hga])
    rcases List.mem_cons.mp hx with rfl | hx <;> simp [*]
  have hdata : w.data = fileOf cap init ++ (fileOf cap ((g ++ a) :: more) ++ region cap l) := by
    rw [f.data, List.append_assoc, fileOf_append, List.singleton_append, ← List.cons_append, fileOf_append, fileOf_cons cap l, fileOf_nil, List.append_nil]
  have hsmall : w.data.length < 2 ^ 63 := by rw [f.data]; exact f.small
  have hlen1 : t.slots.length = init.length + 1 := by rw [ht, anchor_length]; simp
  have hcnt : ∀ u, (anchor cap 0 init ++ [(⟨u, (fileOf cap init).length⟩ : Anchored)]).length = t.slots.length := by
    intro u; rw [hlen1, List.length_append, anchor_length]; rfl
  have hlastT : lastTable cap (table cap x) ((g ++ a) :: more) = table cap (g ++ a) := by
    rcases List.eq_nil_or_concat more with rfl | ⟨u, y, rfl⟩
    · rfl
    · rw [List.concat_eq_append, ← List.cons_append, lastTable_concat]
      exact htab y (by simp)
  obtain ⟨n, hn⟩ : ∃ n, w.data.length + 1 = (n + 1) + ((g ++ a) :: more).length := by
    refine ⟨w.data.length - ((g ++ a) :: more).length, ?_⟩
    have hle := groups_le f.groups.group
    rw [← f.data] at hle
    simp only [List.length_append, List.length_cons, List.length_nil] at hle ⊢
    omega
  have hloop := reload_walk chk (index := x.length) (count := t.slots.length) (off := (fileOf cap init).length) (crc := (table cap x).crc) ((g ++ a) :: more)
    (fileOf cap init) (region cap l) (anchor cap 0 init) (table cap x) (n + 1) hmf (by rw [← hdata]; exact hsmall) (hcnt _)
    (fun y hy => by rw [htab y hy]; exact hcf)
  have hfound := reload_found chk (index := x.length) (count := t.slots.length) (pre := fileOf cap init ++ fileOf cap ((g ++ a) :: more)) (rest := [])
    (slots := anchor cap 0 init ++ [(⟨table cap (g ++ a), (fileOf cap init).length⟩ : Anchored)]) (fuel := n) hlg
    (by rw [List.append_nil, List.append_assoc, ← hdata]; exact hsmall) (hcnt _) hcl
  rw [List.append_nil, List.append_assoc] at hfound
  rw [hlastT, hfound, ← hdata, ← anchor_concat, ← anchor_concat, ← ht, ← hn] at hloop
  unfold reloadReader Storage.reload
  rw [lastInfo_part ht hx hxl]
  simp only
  rw [hloop]
  rfl

/-- **C87, packets of one size.** If all packets take the same number of bytes, and neither the slot in use nor the last one happens to have the CRC of a full one, a
reader that falls behind by any number of slots shows everything after at most three calls of `reload`. -/
theorem C87_oneSize_partial {cap : Nat} (hc : 0 < cap) {chk : Bool} {ops ops2 : List (Op O Q)} {s : Storage} {w : Writer} (h : Watching cap chk ops s)
    (hw : runOps cap chk (ops ++ ops2) emptyWriter = some w) (hok : ∀ p ∈ log (ops ++ ops2), Storable S p) (hs : Small cap (log (ops ++ ops2)))
    (h1 : OneSize (log (ops ++ ops2)))
    (hu : (log ops).length % cap ≠ 0 → (log ops2) ≠ [] →
      slotCrc cap ((log ops).length / cap) (log ops) ≠ slotCrc cap ((log ops).length / cap) (log (ops ++ ops2)))
    (hne : (log (ops ++ ops2)).length % cap ≠ 0 → (log ops).length / cap < (log (ops ++ ops2)).length / cap →
      slotCrc cap ((log ops).length / cap) (log (ops ++ ops2)) ≠ slotCrc cap ((log (ops ++ ops2)).length / cap) (log (ops ++ ops2))) :
    ∃ n s', n ≤ 3 ∧ again cap chk w.data n s = some s' ∧ Shows cap chk s' w.data (log (ops ++ ops2)) := by
  by_cases hb : Beyond cap (log ops) (log ops2)
  case neg =>
    by_cases h2 : log ops2 = []
    · obtain ⟨gs, v, f⟩ := h.view (S := S) hc (fun p hp => (hok p (by rw [log_append]; simp [hp])).ok) (by rw [log_append] at hs; exact hs.left)
      obtain ⟨w', gs', e', i, f'⟩ := runOps_inv (S := S) hc chk (ops ++ ops2) (ps := []) (empty_inv cap) rfl (fun p hp => (hok p hp).ok) hs
      rw [hw] at e'
      injection e' with e'
      subst e'
      rw [List.nil_append] at f'
      rw [log_append, h2, List.append_nil] at f' hs hok ⊢
      have : gs' = gs := groups_unique hc i.groups v.groups (by rw [f', f])
      subst this
      refine ⟨0, s, by omega, rfl, ?_⟩
      rw [i.data]
      exact view_shows hc chk v f hok (small_file hc v.groups f hs)
    · have hcalm : Calm cap (log ops) (log ops2) := by
        by_cases h0 : (log ops).length % cap = 0
        · exact .inl h0
        · refine .inr ⟨Nat.not_lt.mp fun hlt => hb ⟨h0, hlt⟩, ?_⟩
          have := hu h0 h2
          rw [log_append] at this
          exact this
      obtain ⟨s2, e2, sh⟩ := C37_reload_partial hc h hw hok hs hcalm
      exact ⟨1, s2, by omega, by simp only [again, e2], sh⟩
  case pos =>
  obtain ⟨init, more, g, a, l, f⟩ := further (S := S) hc h hw (fun p hp => (hok p hp).ok) hs hb
  have hu := hu hb.1 (by intro h; have := hb.2; rw [h] at this; have := Nat.mod_lt (log ops).length hc; simp at *; omega)
  rw [log_append] at *
  have haf := f.full
  have hi := f.view.groups.split.1
  have hga : (g ++ a).length = cap := (haf _ (by simp)).2
  have hgg : Group cap (g ++ a) := (haf _ (by simp)).1
  obtain ⟨mi, rfl⟩ : ∃ mi, more = mi ++ [l] := by
    rcases List.eq_nil_or_concat more with h | ⟨mi, y, h⟩
    · exact absurd h f.more_ne
    · have := f.last
      rw [h, List.concat_eq_append, List.getLast?_concat] at this
      injection this with this
      exact ⟨mi, by rw [h, List.concat_eq_append, this]⟩
  have hlg : Group cap l := f.groups.group l (by simp)
  have hmore : Groups cap (mi ++ [l]) := groups_right f.groups
  have hfuel : (mi ++ [l]).length < w.data.length + 1 := by
    have hle := groups_le f.groups.group
    rw [f.data]
    simp only [List.length_append, List.length_cons, List.length_nil] at hle ⊢
    omega
  -- from the boundary on
  have go : ∀ t : Storage, t.slots = anchor cap 0 (init ++ [g ++ a]) → ∃ t', again cap chk w.data 1 t = some t' ∧ Shows cap chk t' w.data (log ops ++ log ops2) := by
    intro t ht
    obtain ⟨s3, e3, _, v3⟩ := reload_from_boundary hc (gs := init ++ [g ++ a]) (more := mi ++ [l]) (s := t) ht haf hmore f.small (chk := chk) hfuel
    rw [← f.data] at e3
    refine ⟨s3, ?_, ?_⟩
    · simp only [again, reloadReader, e3]
    · rw [f.data]; exact view_shows hc chk (v3 f.more_ne) f.flat hok f.small
  have hmf : ∀ x ∈ (g ++ a) :: mi, x.length = cap := by
    intro x hx
    rcases List.mem_cons.mp hx with rfl | hx
    · exact hga
    · exact hmore.full x (by rw [List.dropLast_concat]; exact hx)
  have htab : ∀ x ∈ (g ++ a) :: (mi ++ [l]), x.length = cap → table cap x = table cap (g ++ a) := by
    intro x hx hl
    refine oneSize_tables h1 f.flat ?_ (by simp) (by rw [hl, hga])
    simpa [List.append_assoc] using Or.inr hx
  have hf := f.flat
  rw [List.append_assoc] at hf
  have c1 := slotCrc_at hi hgg.le (.inl hga) hf
  have c0 := slotCrc_eq f.view.groups f.known
  have hcg : (table cap g).crc ≠ (table cap (g ++ a)).crc := by
    rw [f.slot, c1, c0] at hu
    exact hu
  by_cases hgl : l.length < cap ∧ (table cap g).crc = (table cap l).crc
  · have e1 := f.reload_met h1 f.view.groups.split.2.1 f.lt f.view.slots hgl.2 hcg chk
    obtain ⟨t', ht', sh⟩ := go { s with slots := anchor cap 0 (init ++ [g ++ a]) } rfl
    refine ⟨2, t', by omega, ?_, sh⟩
    rw [again, e1]
    exact ht'
  have hun : ∀ x ∈ (g ++ a) :: (mi ++ [l]), (table cap g).crc ≠ (table cap x).crc := by
    intro x hx
    by_cases hl : x.length = cap
    · rw [htab x hx hl]; exact hcg
    · have : x = l := by
        rw [← List.cons_append] at hx
        rcases List.mem_append.mp hx with hx | hx
        · exact absurd (hmf x hx) hl
        · exact List.mem_singleton.mp hx
      subst this
      exact fun e => hgl ⟨by have := hlg.le; omega, e⟩
  obtain ⟨s1, e1, v1⟩ := f.reload_over hc hun chk
  by_cases hl : l.length = cap
  · have ht : table cap l = table cap (g ++ a) := htab l (by simp) hl
    obtain ⟨t', ht', sh⟩ := go s1 (by rw [v1.slots, anchor_concat, anchor_concat, ht])
    refine ⟨2, t', by omega, ?_, sh⟩
    rw [again, e1]
    exact ht'
  · have hlt : l.length < cap := by have := hlg.le; omega
    have hcrc : (table cap l).crc ≠ (table cap (g ++ a)).crc := by
      rw [show init ++ ([g ++ a] ++ (mi ++ [l])) = (init ++ (g ++ a) :: mi) ++ l :: [] by simp] at hf
      have hfull' : AllFull cap (init ++ (g ++ a) :: mi) := by
        intro x hx
        rcases List.mem_append.mp hx with hx | hx
        · exact hi x hx
        · refine ⟨f.groups.group x ?_, hmf x hx⟩
          rw [List.append_assoc, List.singleton_append, ← List.cons_append]
          simp only [List.mem_append]
          exact .inr (.inl hx)
      have c2 := slotCrc_at hfull' hlg.le (.inr rfl) hf
      have hlen := congrArg List.length hf
      rw [List.flatten_append, List.length_append, length_flatten_full hfull', List.length_map] at hlen
      simp only [List.flatten_cons, List.flatten_nil, List.append_nil] at hlen
      have hpos := List.length_pos_iff.mpr (f.groups.ne l (by simp))
      have hd : (log ops ++ log ops2).length / cap = (init ++ (g ++ a) :: mi).length := by
        rw [← hlen, Nat.mul_comm, Nat.mul_add_div hc, Nat.div_eq_of_lt hlt, Nat.add_zero]
      have hm : (log ops ++ log ops2).length % cap ≠ 0 := by
        rw [← hlen, Nat.mul_add_mod_self_right, Nat.mod_eq_of_lt hlt]
        omega
      have := hne hm (by rw [hd, f.slot, List.length_append, List.length_cons]; omega)
      rw [hd, f.slot, c1, c2] at this
      exact Ne.symm this
    have e2 := f.reload_met h1 hlg hlt v1.slots rfl hcrc chk
    obtain ⟨t', ht', sh⟩ := go { s1 with slots := anchor cap 0 (init ++ [g ++ a]) } rfl
    refine ⟨3, t', by omega, ?_, sh⟩
    rw [again, e1]
    simp only
    rw [again, e2]
    exact ht'

/-- `C87_oneSize_partial` applies, here with slots of two packets: the reader has one packet, and four more are inserted. -/
example (chk : Bool) : ∃ (w : Writer) (s : Storage) (n : Nat) (s' : Storage), Watching 2 chk [Op.insert samplePacket] s ∧ s.count 2 = 1 ∧
    runOps 2 chk ([Op.insert samplePacket] ++ List.replicate 4 (.insert samplePacket)) emptyWriter = some w ∧ again 2 chk w.data n s = some s' ∧ s'.count 2 = 5 := by
  have hlog : log ([Op.insert samplePacket] ++ List.replicate 4 (.insert samplePacket)) = List.replicate 5 samplePacket := rfl
  have hok : ∀ p ∈ log ([Op.insert samplePacket] ++ List.replicate 4 (.insert samplePacket)), Storable sampleSpec p := by
    rw [hlog]
    intro p hp
    rw [(List.mem_replicate.mp hp).2]; exact sample_storable
  have hs : Small 2 (log ([Op.insert samplePacket] ++ List.replicate 4 (.insert samplePacket))) := by
    rw [hlog]
    unfold Small
    simp [wire_sample_length]
  obtain ⟨data, s, hr⟩ := Reached.exists (S := sampleSpec) (cap := 2) (by decide) chk [Op.insert samplePacket]
    (by intro p hp; exact hok p (by rw [log_append]; exact List.mem_append_left _ hp)) (by rw [log_append] at hs; exact hs.left)
  obtain ⟨w, _, hw, _⟩ := C30_reopen (S := sampleSpec) (cap := 2) (by decide) chk _ hok hs
  have hwa : Watching 2 chk [Op.insert samplePacket] s := .opened hr
  obtain ⟨n, s', _, e, sh⟩ := C87_oneSize_partial (S := sampleSpec) (cap := 2) (by decide) hwa hw hok hs
    ⟨125, by rw [hlog]; intro p hp; rw [(List.mem_replicate.mp hp).2]; exact wire_sample_length⟩ 
    (by intro _ _; simp only [slotCrc]; decide +kernel)
    (by intro _ _; simp only [slotCrc]; decide +kernel)
  obtain ⟨gs, v, f⟩ := hwa.view (S := sampleSpec) (by decide) (fun p hp => (hok p (by rw [log_append]; exact List.mem_append_left _ hp)).ok)
    (by rw [log_append] at hs; exact hs.left)
  exact ⟨w, s, n, s', hwa, by rw [v.count, f]; rfl, hw, e, by rw [sh.count, hlog]; rfl⟩

/-! ### A sample: 499 packets, one more, and then a slot of smaller ones -/

/-- 500 packets, of which the first has `n` bytes of payload and the others none. -/
@[irreducible] def smaller (n : Nat) : List (Packet (blockEnum sampleTypes) (PEnum.ops [])) := zeroPacket n :: List.replicate 499 (zeroPacket 0)

theorem smaller_length (n : Nat) : (smaller n).length = 500 := by unfold smaller; rw [List.length_cons, List.length_replicate]

theorem smaller_lengths {n : Nat} (hn : n < 2 ^ 32) : (smaller n).map (fun p => (wire p).length) = (n + 43) :: List.replicate 499 43 := by
  unfold smaller
  rw [List.map_cons, List.map_replicate, wire_zero_length hn, wire_zero_length (show 0 < 2 ^ 32 by omega)]

theorem smaller_sum {n : Nat} (hn : n < 2 ^ 32) : ((smaller n).map (fun p => (wire p).length)).sum = n + 172 * 125 := by
  have h : (List.replicate 499 43).sum = 499 * 43 := List.sum_replicate_nat
  rw [smaller_lengths hn, List.sum_cons]
  omega

theorem smaller_storable {n : Nat} (hn : n < 2 ^ 32) {p : Packet (blockEnum sampleTypes) (PEnum.ops [])} (h : p ∈ smaller n) : Storable sampleSpec p := by
  unfold smaller at h
  rcases List.mem_cons.mp h with rfl | h
  · exact zeroPacket_storable hn
  · rw [(List.mem_replicate.mp h).2]; exact zeroPacket_storable (by omega)

/-- The next 500 packets. -/
abbrev next (n : Nat) : List (Op (blockEnum sampleTypes) (PEnum.ops [])) := Op.insert samplePacket :: (smaller n).map Op.insert

theorem next_log (n : Nat) : log (next n) = samplePacket :: smaller n := by
  show samplePacket :: log _ = _
  rw [log_inserts]

theorem sample_sig (n : Nat) (hn : n < 2) (t : Bytes) : ((wire samplePacket ++ t).drop n).take 8 ≠ SLOT_SIG := by
  have hl := wire_sample_length
  rw [List.drop_append_of_le_length (by omega), List.take_append_of_le_length (by rw [List.length_drop]; omega)]
  rcases (show n = 0 ∨ n = 1 by omega) with rfl | rfl <;> decide +kernel

theorem sample_stuck (chk : Bool) : ∃ n w s, n < 2 ∧ Watching SLOT_CAPACITY chk most s ∧
    runOps SLOT_CAPACITY chk (most ++ next n) emptyWriter = some w ∧
    (∀ p ∈ log (most ++ next n), Storable sampleSpec p) ∧
    Small SLOT_CAPACITY (log (most ++ next n)) ∧ Beyond SLOT_CAPACITY (log most) (log (next n)) ∧
    Unlike SLOT_CAPACITY (log most) (log (next n)) ∧ (log (most ++ next n)).length % SLOT_CAPACITY = 0 ∧
    (w.data.drop (resumeAt SLOT_CAPACITY (log most) (log (next n)))).take 8 ≠ SLOT_SIG := by
  have hmost : log most = lots := log_inserts _
  have hone : ∀ n, n < 2 → slotCrc SLOT_CAPACITY 1 (lots ++ samplePacket :: smaller n) = Slot.crcOf SLOT_CAPACITY ((n + 43) :: List.replicate 499 43) := by
    intro n hn
    unfold slotCrc
    rw [show lots ++ samplePacket :: smaller n = (lots ++ [samplePacket]) ++ smaller n by simp,
      List.drop_left' (by simp [SLOT_CAPACITY, lots_length]), List.take_of_length_le (by rw [smaller_length]; decide), smaller_lengths (by omega)]
    dsimp only
    rw [show SLOT_CAPACITY - ((n + 43) :: List.replicate 499 43).length = 0 by rw [List.length_cons, List.length_replicate]; rfl, List.replicate_zero, List.append_nil]
  obtain ⟨n, hn, h1⟩ : ∃ n, n < 2 ∧ slotCrc SLOT_CAPACITY 0 lots ≠ Slot.crcOf SLOT_CAPACITY ((n + 43) :: List.replicate 499 43) := by
    by_cases h : slotCrc SLOT_CAPACITY 0 lots = Slot.crcOf SLOT_CAPACITY ((0 + 43) :: List.replicate 499 43)
    · refine ⟨1, by omega, fun h' => ?_⟩
      have := single_crc (by omega) (by omega) (h.symm.trans h')
      omega
    · exact ⟨0, by omega, h⟩
  have hlog : log (most ++ next n) = lots ++ samplePacket :: smaller n := by rw [log_append, next_log, hmost]
  have hok : ∀ p ∈ log (most ++ next n), Storable sampleSpec p := by
    rw [hlog]
    intro p hp
    rcases List.mem_append.mp hp with hp | hp
    · rw [lots_mem hp]; exact sample_storable
    · rcases List.mem_cons.mp hp with rfl | hp
      · exact sample_storable
      · exact smaller_storable (by omega) hp
  have hs : Small SLOT_CAPACITY (log (most ++ next n)) := by
    rw [hlog]
    unfold Small
    have hsum := lots_wire
    have hsum2 := smaller_sum (n := n) (by omega)
    simp only [List.map_append, List.map_cons, wire_sample_length, List.sum_append,
      List.sum_cons, List.length_append, lots_length, List.length_cons, smaller_length, SLOT_CAPACITY]
    omega
  obtain ⟨data, s, hr⟩ := Reached.exists (S := sampleSpec) (cap := SLOT_CAPACITY) (by decide) chk most
    (by intro p hp; exact hok p (by rw [log_append]; exact List.mem_append_left _ hp)) (by rw [log_append] at hs; exact hs.left)
  obtain ⟨w, _, hw, _⟩ := C30_reopen (S := sampleSpec) (cap := SLOT_CAPACITY) (by decide) chk _ hok hs
  have hb : Beyond SLOT_CAPACITY (log most) (log (next n)) := by
    rw [hmost, next_log]
    refine ⟨?_, ?_⟩ <;> simp [SLOT_CAPACITY, lots_length, smaller_length]
  refine ⟨n, w, s, hn, .opened hr, hw, hok, hs, hb, ?_, ?_, ?_⟩
  · rw [hmost, next_log]
    intro k _ hk
    have hk2 : k < 2 := by
      simp only [List.length_append, lots_length, List.length_cons, smaller_length, SLOT_CAPACITY] at hk
      omega
    rw [lots_length, show 499 / SLOT_CAPACITY = 0 by decide]
    rcases (show k = 0 ∨ k = 1 by omega) with rfl | rfl
    · have hfull : slotCrc SLOT_CAPACITY 0 (lots ++ samplePacket :: smaller n) = slotCrc SLOT_CAPACITY 0 (lots ++ [samplePacket]) := by
        unfold slotCrc
        simp only [Nat.zero_mul, List.drop_zero]
        rw [show lots ++ samplePacket :: smaller n = (lots ++ [samplePacket]) ++ smaller n by simp,
          List.take_append_of_le_length (by simp [SLOT_CAPACITY, lots_length])]
      rw [hfull]
      rcases C37_single (S := sampleSpec) (cap := SLOT_CAPACITY) (by decide) lots samplePacket_ok (by rw [wire_sample_length]; decide) with h | ⟨_, h⟩
      · rw [lots_length] at h; exact absurd h (by decide)
      · rw [lots_length] at h; exact h
    · rw [hone n hn]; exact h1
  · rw [hlog, List.length_append, List.length_cons, lots_length, smaller_length]; rfl
  · obtain ⟨init, more, g, a, l, f⟩ := further (S := sampleSpec) (by decide) (.opened hr) hw (fun p hp => (hok p hp).ok) hs hb
    have hi : init = [] := by
      have := f.slot
      rw [hmost, lots_length] at this
      exact List.length_eq_zero_iff.mp this.symm
    subst hi
    have hga := (f.full (g ++ a) (by simp)).2
    have hgg := (f.full (g ++ a) (by simp)).1
    have hflat := f.flat
    rw [hmost, next_log] at hflat ⊢
    have hw' : g ++ a = List.replicate 172 (wire samplePacket) ++ wire samplePacket :: List.replicate 327 (wire samplePacket) := by
      have h1 : g ++ a = ((lots ++ samplePacket :: smaller n).map wire).take SLOT_CAPACITY := by
        rw [← hflat, List.nil_append, List.singleton_append, List.flatten_cons, ← hga, List.take_left]
      have h2 : ((lots ++ samplePacket :: smaller n).map wire).take SLOT_CAPACITY = lots.map wire ++ [wire samplePacket] := by
        rw [show lots ++ samplePacket :: smaller n = (lots ++ [samplePacket]) ++ smaller n by simp, List.map_append, List.map_append, List.map_cons, List.map_nil,
          List.take_left' (by simp [SLOT_CAPACITY, lots_length])]
      have h3 : lots.map wire = List.replicate 499 (wire samplePacket) := by unfold lots; rw [List.map_replicate]
      rw [h1, h2, h3, ← List.replicate_succ, ← List.replicate_succ', List.replicate_append_replicate]
    have hres : resumeAt SLOT_CAPACITY lots (samplePacket :: smaller n) = (table SLOT_CAPACITY (g ++ a)).enc.length + ((List.replicate 172 (wire samplePacket)).flatten.length + n) := by
      unfold resumeAt
      have e1 : (lots ++ samplePacket :: smaller n).drop ((lots ++ samplePacket :: smaller n).length - SLOT_CAPACITY) = smaller n := by
        rw [show lots ++ samplePacket :: smaller n = (lots ++ [samplePacket]) ++ smaller n by simp]
        exact List.drop_left' (by simp [SLOT_CAPACITY, lots_length, smaller_length])
      rw [e1, smaller_sum (by omega), lots_length, show 499 / SLOT_CAPACITY = 0 by decide, table_enc_length hgg.le, List.length_flatten, List.map_replicate,
        List.sum_replicate_nat, wire_sample_length]
      simp
      omega
    have hdata : w.data = (table SLOT_CAPACITY (g ++ a)).enc ++ ((List.replicate 172 (wire samplePacket)).flatten ++
        (wire samplePacket ++ ((List.replicate 327 (wire samplePacket)).flatten ++ fileOf SLOT_CAPACITY more))) := by
      rw [f.data, List.nil_append, List.singleton_append, fileOf_cons, region]
      rw [show (g ++ a).flatten = (List.replicate 172 (wire samplePacket)).flatten ++ (wire samplePacket ++ (List.replicate 327 (wire samplePacket)).flatten) by
        rw [hw', List.flatten_append, List.flatten_cons]]
      simp only [List.append_assoc]
    rw [hres, hdata, ← List.drop_drop, List.drop_left, ← List.drop_drop, List.drop_left]
    exact sample_sig n hn _

/-- **C87 is false**, in debug and release builds: the reader that had 499 packets keeps 500, for ever, of the 1000 there are. -/
theorem C87_not (chk : Bool) : ¬ C87_full (PEnum.ops []) sampleSpec SLOT_CAPACITY chk := by
  intro hall
  obtain ⟨n, w, s, hn, hwa, hw, hok, hs, hb, hu, hf, hsig⟩ := sample_stuck chk
  obtain ⟨m, s', hm, sh⟩ := hall _ _ s w hwa hw hok hs
  obtain ⟨s1, e, _, hlt, hstuck⟩ := C87_stuck (S := sampleSpec) (cap := SLOT_CAPACITY) (by decide) hwa hw hok hs hb hu hf hsig
  have h3 := hstuck [] w (by rw [List.append_nil]; exact hw) (by rw [List.append_nil]; exact hok) (by rw [List.append_nil]; exact hs)
  have hcount := sh.count
  cases m with
  | zero =>
    injection hm with hm
    subst hm
    obtain ⟨gs, v, f⟩ := hwa.view (S := sampleSpec) (by decide) (fun p hp => (hok p (by rw [log_append]; exact List.mem_append_left _ hp)).ok)
      (by rw [log_append] at hs; exact hs.left)
    rw [v.count, f, List.length_map, log_append, List.length_append] at hcount
    have := hb.2
    have : (log (next n)).length = 501 := by rw [next_log, List.length_cons, smaller_length]
    omega
  | succ m =>
    rw [again, e] at hm
    simp only at hm
    rw [again_fixed h3] at hm
    injection hm with hm
    subst hm
    omega

/-- `C87_stuck` applies: the reader had 499 packets and has 500 after the first `reload`. -/
example (chk : Bool) : ∃ (n : Nat) (w : Writer) (s s1 : Storage), Watching SLOT_CAPACITY chk most s ∧ runOps SLOT_CAPACITY chk (most ++ next n) emptyWriter = some w ∧
    (log (most ++ next n)).length = 1000 ∧ reloadReader SLOT_CAPACITY chk s w.data = some (.ok 1, s1) ∧ s1.count SLOT_CAPACITY = 500 ∧
    reloadReader SLOT_CAPACITY chk s1 w.data = some (.err (.damagedSlot .sigDismatch), s1) := by
  obtain ⟨n, w, s, hn, hwa, hw, hok, hs, hb, hu, hf, hsig⟩ := sample_stuck chk
  have hmost : log most = lots := log_inserts _
  obtain ⟨s1, e, hc, _, hstuck⟩ := C87_stuck (S := sampleSpec) (cap := SLOT_CAPACITY) (by decide) hwa hw hok hs hb hu hf hsig
  have h3 := hstuck [] w (by rw [List.append_nil]; exact hw) (by rw [List.append_nil]; exact hok) (by rw [List.append_nil]; exact hs)
  rw [hmost, lots_length] at e hc
  exact ⟨n, w, s, s1, hwa, hw, by rw [log_append, next_log, hmost, List.length_append, List.length_cons, lots_length, smaller_length], e, hc, h3⟩

end Brec.Props
