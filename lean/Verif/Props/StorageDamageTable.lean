import Verif.Props.StorageStuck
import Verif.Props.StorageDamageReload
/-!
# Reloading a storage with a damaged slot table (C110)
-/

namespace Brec.Props

open Rd

variable {O : BlockOps} {Q : PayloadOps} {S : BlockSpec O}

/-- Full statement of C110 (false): the reader has loaded the packets of `ops`. If up to four consecutive bytes are changed in the table of the slot it stopped
at, or of one behind it, `reload` reports a damaged slot. -/
def C110_full (Q : PayloadOps) (S : BlockSpec O) (cap : Nat) (chk : Bool) : Prop :=
  ∀ (ops ops2 : List (Op O Q)) (s s0 : Storage) (data : Bytes), Watching cap chk ops s → Reached cap chk (ops ++ ops2) data s0 →
    (∀ p ∈ log (ops ++ ops2), p.Ok S) → Small cap (log (ops ++ ops2)) →
    ∀ k a, s0.slots[k]? = some a → (log ops).length / cap ≤ k →
      ∀ pre tbl post tbl', data = pre ++ tbl ++ post → pre.length = a.offset → tbl.length = 20 + 8 * cap → Burst4 tbl tbl' → tbl' ≠ tbl →
        ∃ e s', reloadReader cap chk s (pre ++ tbl' ++ post) = some (.err (.damagedSlot e), s')

/-- A damaged table as `try_read` sees it. -/
theorem tryRead_maimed {cap : Nat} {g : List Bytes} (hwf : (table cap g).WF) (hle : g.length ≤ cap) {tbl' : Bytes} (hb : Burst4 (table cap g).enc tbl')
    (hne : tbl' ≠ (table cap g).enc) (hcapB : (tbl'.drop 8).take 8 = ((table cap g).enc.drop 8).take 8) (chk : Bool) (pre post : Bytes) :
    (Slot.tryRead ⟨pre ++ (tbl' ++ post), pre.length, chk⟩).1 = .err (if tbl'.take 8 = (table cap g).enc.take 8 then .crcDismatch else .sigDismatch) := by
  have hencl : (table cap g).enc.length = 20 + 8 * cap := by rw [hwf.enc_length, table_size]
  have htl : tbl'.length = 20 + 8 * cap := by rw [← hb.1, hencl]
  have h8 : (table cap g).enc.take 8 = SLOT_SIG := by
    rw [Slot.enc, List.append_assoc, List.append_assoc]; exact List.take_left' rfl
  have h16 : ((table cap g).enc.drop 8).take 8 = leBytes 8 cap := by
    rw [Slot.enc, List.append_assoc, List.append_assoc, List.drop_left' (by rfl)]; exact List.take_left' (leBytes_length 8 cap)
  rw [h16] at hcapB
  rw [h8]
  have hrest : tbl' = tbl'.take 8 ++ (leBytes 8 cap ++ tbl'.drop 16) := by
    rw [← hcapB, show tbl'.drop 16 = (tbl'.drop 8).drop 8 by rw [List.drop_drop], List.take_append_drop, List.take_append_drop]
  have hcap63 := hwf.cap
  rw [table_capacity] at hcap63
  have hcr : (⟨pre ++ (tbl' ++ post), pre.length, chk⟩ : Cur).rest = tbl' ++ post := by simp [Cur.rest]
  refine Slot.tryRead_damaged (cap := cap) (t := tbl'.drop 16 ++ post) (by simp) hcap63 (by rw [List.length_take]; omega) ?_ ?_ ?_
  · rw [hcr]
    conv => lhs; rw [hrest]
    simp only [List.append_assoc]
  · rw [List.length_append, List.length_drop]; omega
  · intro q hq
    exact (C33_corruption_partial (table cap g) hwf _ tbl' post hwf.bytes hb hne q).2 _ hcr hq

/-- The loop of `reload` over full slots up to a table that is refused. -/
theorem reloadLoop_refused {cap : Nat} {chk : Bool} {last : Option (Nat × Bytes)} {count : Nat} {sig : Bool} {X : Bytes} : ∀ (A : List (List Bytes)) (pre : Bytes)
    (fuel : Nat) (slots : List Anchored),
    AllFull cap A → (pre ++ (fileOf cap A ++ X)).length < 2 ^ 63 → A.length < fuel →
    (last = none ∨ ∃ i crc, last = some (i, crc) ∧ slots.length = count ∧ 0 < count ∧ ∀ g ∈ A, (table cap g).crc ≠ crc) →
    (Slot.tryRead ⟨pre ++ (fileOf cap A ++ X), (pre ++ fileOf cap A).length, chk⟩).1 = .err (if sig then .crcDismatch else .sigDismatch) →
    ∃ slots', Storage.reloadLoop chk (pre ++ (fileOf cap A ++ X)) last count fuel pre.length slots =
        some (.err (.damagedSlot (if sig then .crcDismatch else .sigDismatch)), slots') ∧ (A = [] → slots' = slots) ∧
      (last = none → slots' = slots ++ anchor cap pre.length A)
  | _, _, 0, _, _, _, h, _, _ => absurd h (by omega)
  | [], pre, fuel + 1, slots, _, _, _, _, hx => by
    refine ⟨slots, ?_, fun _ => rfl, fun _ => by simp [anchor]⟩
    rw [fileOf_nil, List.append_nil] at hx
    rw [fileOf_nil, Storage.reloadLoop, hx]
    cases sig <;> rfl
  | g :: A, pre, fuel + 1, slots, hA, hl, hfu, hlast, hx => by
    obtain ⟨hgr, hgl⟩ := hA g (by simp)
    rw [fileOf_cons, List.append_assoc] at hl
    have hw : (table cap g).WF := table_wf_of_file (gs := [g]) (by
      simp only [fileOf_cons, fileOf_nil, List.length_append, List.length_nil] at hl ⊢; omega) (by simp) hgr.le
    have hu : u64 chk (pre.length + (table cap g).size + (table cap g).width) = .ok (pre ++ region cap g).length := by
      rw [u64_region hgr (by simp only [List.length_append] at hl; omega), List.length_append]
    have hfree : (table cap g).freeIndex = none := by rw [table_freeIndex hgr, if_neg (by omega)]
    have ih : ∀ sl, (last = none ∨ sl.length = slots.length) → ∃ slots', Storage.reloadLoop chk (pre ++ (region cap g ++ (fileOf cap A ++ X))) last count fuel (pre ++ region cap g).length sl =
        some (.err (.damagedSlot (if sig then .crcDismatch else .sigDismatch)), slots') ∧ (last = none → slots' = sl ++ anchor cap (pre ++ region cap g).length A) := by
      intro sl hsl
      obtain ⟨slots', e, _, e2⟩ := reloadLoop_refused (last := last) (count := count) (sig := sig) (chk := chk) (X := X) A (pre ++ region cap g) fuel sl
        (fun x hx => hA x (by simp [hx])) (by rw [List.append_assoc]; exact hl) (by simp only [List.length_cons] at hfu; omega) (by
          rcases hlast with h | ⟨i, crc, h, h1, h2, h3⟩
          · exact .inl h
          · refine .inr ⟨i, crc, h, ?_, h2, fun x hx => h3 x (by simp [hx])⟩
            rcases hsl with h' | h'
            · rw [h] at h'; cases h'
            · omega) (by
          rw [fileOf_cons, List.append_assoc, ← List.append_assoc pre (region cap g) (fileOf cap A)] at hx
          rw [List.append_assoc]; exact hx)
      rw [List.append_assoc] at e
      exact ⟨slots', e, e2⟩
    have h1 := tryRead_region hw chk pre (fileOf cap A ++ X)
    rw [fileOf_cons, List.append_assoc, Storage.reloadLoop, h1]
    rcases hlast with rfl | ⟨i, crc, rfl, hlen, h0, hcrc⟩
    · obtain ⟨slots', e, e2⟩ := ih (slots ++ [⟨table cap g, pre.length⟩]) (.inl rfl)
      refine ⟨slots', ?_, (fun h => nomatch h), fun _ => by rw [e2 rfl, List.length_append]; simp [anchor]⟩
      simp only [hu]
      exact e
    · have hb : (slots.length == count) = true := by simpa using hlen
      have hlst : slots[count - 1]? = some (slots[count - 1]'(by omega)) := List.getElem?_eq_getElem (by omega)
      obtain ⟨slots', e, _⟩ := ih (slots.set (count - 1) { slots[count - 1]'(by omega) with inner := table cap g }) (.inr (by simp))
      refine ⟨slots', ?_, (fun h => nomatch h), fun h => nomatch h⟩
      simp only [hb]
      rw [if_neg (fun h => hcrc g (by simp) h.symm), hlst]
      simp only [hfree, Option.isNone_none, if_true, hu]
      exact e

/-- Where `reload` starts. -/
theorem reload_start {cap : Nat} (hc : 0 < cap) {gs0 gs : List (List Bytes)} {s : Storage} (v : View cap gs0 s) (hg : Groups cap gs) {ps qs : List (Packet O Q)}
    (hf0 : gs0.flatten = ps.map wire) (hf : gs.flatten = (ps ++ qs).map wire) :
    ∃ A B, gs = A ++ B ∧ A.length = ps.length / cap ∧ s.lastInfo.2 = (fileOf cap A).length ∧
      (s.lastInfo.1 = none ∧ s.slots = anchor cap 0 A ∨ ∃ i, ps.length % cap ≠ 0 ∧ s.lastInfo.1 = some (i, slotCrc cap (ps.length / cap) ps) ∧ 0 < s.slots.length) := by
  have part : ∀ init g, gs0 = init ++ [g] → g.length < cap → init.length = ps.length / cap ∧ s.lastInfo.2 = (fileOf cap init).length ∧
      ∃ i, ps.length % cap ≠ 0 ∧ s.lastInfo.1 = some (i, slotCrc cap (ps.length / cap) ps) ∧ 0 < s.slots.length := by
    intro init g h0 hlt
    subst h0
    obtain ⟨h1, h2, h3⟩ := part_mod v.groups hlt hf0
    have hgp := List.length_pos_iff.mpr h3
    have hli := lastInfo_part v.slots v.groups.split.2.1 hlt
    refine ⟨h2.symm, by rw [hli], g.length, by omega, ?_, by rw [v.slots, anchor_length]; simp⟩
    rw [hli, h2, slotCrc_eq v.groups hf0]
  rcases grown hc v.groups hg (ext := qs.map wire) (by rw [hf, hf0, List.map_append]) with ⟨more, haf, hm, hgs, hfm⟩ | ⟨init, g, h0, hlt, hgs⟩ | ⟨init, more, g, a, h0, hlt, hga, hgs, hne⟩
  · have hlen : gs0.length = ps.length / cap := by
      have h1 := congrArg List.length hf0
      rw [length_flatten_full haf, List.length_map] at h1
      rw [← h1, Nat.mul_div_cancel _ hc]
    refine ⟨gs0, more, hgs, hlen, ?_⟩
    rcases List.eq_nil_or_concat gs0 with rfl | ⟨init, g, rfl⟩
    · rw [lastInfo_nil (by rw [v.slots]; rfl)]; exact ⟨rfl, .inl ⟨rfl, v.slots⟩⟩
    · rw [List.concat_eq_append] at *
      rw [lastInfo_full v.slots v.groups.split.2.1 (haf g (by simp)).2]
      exact ⟨rfl, .inl ⟨rfl, v.slots⟩⟩
  · obtain ⟨h1, h2, h3⟩ := part init g h0 hlt
    exact ⟨init, _, hgs, h1, h2, .inr h3⟩
  · obtain ⟨h1, h2, h3⟩ := part init g h0 hlt
    exact ⟨init, [g ++ a] ++ more, by rw [hgs, List.append_assoc], h1, h2, .inr h3⟩

/-- **C110 (partial).** The reader has loaded the packets of `ops`; slot `k` is the one it stopped at, or one behind it. If up to four consecutive bytes of the table
of slot `k` are changed, but not the capacity, `reload` reports a damaged slot: by its signature if that was hit, by its CRC otherwise. If `k` is the first slot
`reload` looks at, the reader stays as it was. If the packets loaded filled their slots, the reader has all slots in front of the damaged one. Missing: damage of the capacity (`C110_not`), and slots behind one that has the CRC the reader remembers, where
`reload` stops (C37). -/
theorem C110_damaged_table_partial {cap : Nat} (hc : 0 < cap) {chk : Bool} {ops ops2 : List (Op O Q)} {s s0 : Storage} {data : Bytes} (h : Watching cap chk ops s)
    (hr : Reached cap chk (ops ++ ops2) data s0) (hok : ∀ p ∈ log (ops ++ ops2), p.Ok S) (hs : Small cap (log (ops ++ ops2)))
    {k : Nat} {a : Anchored} (ha : s0.slots[k]? = some a) (hk : (log ops).length / cap ≤ k)
    (hcrc : (log ops).length % cap ≠ 0 → ∀ j, (log ops).length / cap ≤ j → j < k →
      slotCrc cap j (log (ops ++ ops2)) ≠ slotCrc cap ((log ops).length / cap) (log ops))
    {pre tbl post tbl' : Bytes} (hd : data = pre ++ tbl ++ post) (hpre : pre.length = a.offset) (ht : tbl.length = 20 + 8 * cap) (hb : Burst4 tbl tbl')
    (hne : tbl' ≠ tbl) (hcapB : (tbl'.drop 8).take 8 = (tbl.drop 8).take 8) :
    ∃ s', reloadReader cap chk s (pre ++ tbl' ++ post) =
        some (.err (.damagedSlot (if tbl'.take 8 = tbl.take 8 then .crcDismatch else .sigDismatch)), s') ∧ (k = (log ops).length / cap → s' = s) ∧
      ((log ops).length % cap = 0 → s'.slots = s0.slots.take k) := by
  obtain ⟨gs, v, hd', f, hl⟩ := hr.view hc hok hs
  have hlog : log (ops ++ ops2) = log ops ++ log ops2 := log_append ops ops2
  obtain ⟨gs0, v0, f0⟩ := h.view (S := S) hc (fun p hp => hok p (by rw [hlog]; simp [hp])) (by rw [hlog] at hs; exact hs.left)
  -- slot `k` in the groups
  have hkl : k < gs.length := by
    obtain ⟨hlt, _⟩ := List.getElem?_eq_some_iff.mp ha
    rw [v.slots, anchor_length] at hlt; exact hlt
  obtain ⟨A, g, B, hgs, hAl⟩ : ∃ A g B, gs = A ++ g :: B ∧ A.length = k :=
    ⟨gs.take k, gs[k], gs.drop (k + 1), by rw [List.getElem_cons_drop, List.take_append_drop], by rw [List.length_take]; omega⟩
  have hae : a.offset = (fileOf cap A).length := by
    rw [v.slots, hgs, anchor_append, List.getElem?_append_right (by rw [anchor_length]; omega), anchor_length, hAl, Nat.sub_self] at ha
    simp only [anchor, List.getElem?_cons_zero, Option.some.injEq] at ha
    rw [← ha]; simp
  subst hgs
  have hgr := v.groups.group g (by simp)
  have hwf := table_wf_of_file (g := g) (by rw [← hd']; exact hl) (by simp) hgr.le
  have hencl : (table cap g).enc.length = 20 + 8 * cap := by rw [hwf.enc_length, table_size]
  have hfullA : AllFull cap A := by
    intro x hx
    refine ⟨v.groups.group x (by simp [hx]), v.groups.full x ?_⟩
    rw [List.dropLast_append_of_ne_nil (by simp)]
    simp [hx]
  have hsplit : pre = fileOf cap A ∧ tbl = (table cap g).enc ∧ post = g.flatten ++ fileOf cap B := by
    have e : pre ++ (tbl ++ post) = fileOf cap A ++ ((table cap g).enc ++ (g.flatten ++ fileOf cap B)) := by
      rw [← List.append_assoc, ← hd, hd', fileOf_append, fileOf_cons, region, List.append_assoc]
    obtain ⟨e1, e2⟩ := List.append_inj e (by rw [hpre, hae])
    obtain ⟨e2, e3⟩ := List.append_inj e2 (by rw [ht, hencl])
    exact ⟨e1, e2, e3⟩
  obtain ⟨rfl, rfl, rfl⟩ := hsplit
  generalize hP : g.flatten ++ fileOf cap B = post at *
  have hfl : (fileOf cap A ++ (tbl' ++ post)).length < 2 ^ 63 := by
    have e := congrArg List.length hd
    have := hb.1
    simp only [List.length_append] at e this ⊢
    omega
  -- where the reader starts
  obtain ⟨A0, B0, hsp, hA0, hpos, hli⟩ := reload_start hc v0 v.groups f0 (by rw [f, hlog])
  obtain ⟨A2, hA2⟩ : ∃ A2, A = A0 ++ A2 := by
    refine ⟨A.drop A0.length, ?_⟩
    have h1 := congrArg (List.take A0.length) hsp
    rw [List.take_left, List.take_append_of_le_length (by omega)] at h1
    conv => lhs; rw [← List.take_append_drop A0.length A, h1]
  have hcrcs : ∀ j x, A[j]? = some x → slotCrc cap j (log (ops ++ ops2)) = (table cap x).crc := by
    intro j x hx
    obtain ⟨hj, rfl⟩ := List.getElem?_eq_some_iff.mp hx
    have hpart : A ++ g :: B = A.take j ++ A[j] :: (A.drop (j + 1) ++ g :: B) := by
      conv => lhs; rw [← List.take_append_drop j A, ← List.getElem_cons_drop (h := hj)]
      simp only [List.append_assoc, List.cons_append]
    have hx' := hfullA A[j] (List.getElem_mem hj)
    have := slotCrc_at (ps := log (ops ++ ops2)) (fun y hy => hfullA y (List.mem_of_mem_take hy) : AllFull cap (A.take j)) hx'.1.le (.inl hx'.2) (hpart ▸ f)
    rwa [List.length_take, Nat.min_eq_left (by omega)] at this
  subst hA2
  have htry := tryRead_maimed hwf hgr.le hb hne hcapB chk (fileOf cap (A0 ++ A2)) post
  obtain ⟨slots', e, hsame, hmore⟩ := reloadLoop_refused (cap := cap) (chk := chk) (last := s.lastInfo.1) (count := s.slots.length)
    (sig := decide (tbl'.take 8 = (table cap g).enc.take 8)) (X := tbl' ++ post) A2 (fileOf cap A0)
    ((fileOf cap (A0 ++ A2) ++ (tbl' ++ post)).length + 1) s.slots (fun x hx => hfullA x (by simp [hx]))
    (by rw [← List.append_assoc, ← fileOf_append]; exact hfl) (by
      have := groups_le (cap := cap) (gs := A0 ++ A2) fun x hx => (hfullA x hx).1
      rw [List.length_append] at this ⊢
      omega) (by
      rcases hli with ⟨hli, _⟩ | ⟨i, hmod, hli, h0⟩
      · exact .inl hli
      · refine .inr ⟨i, _, hli, rfl, h0, ?_⟩
        intro x hx
        obtain ⟨j, hj, rfl⟩ := List.mem_iff_getElem.mp hx
        rw [← hcrcs (A0.length + j) A2[j] (by rw [List.getElem?_append_right (by omega), Nat.add_sub_cancel_left, List.getElem?_eq_getElem hj])]
        exact hcrc hmod _ (by omega) (by rw [← hAl, List.length_append]; omega)) (by
      rw [← List.append_assoc, ← fileOf_append, htry]
      simp only [decide_eq_true_eq])
  rw [← List.append_assoc, ← fileOf_append] at e
  simp only [decide_eq_true_eq] at e
  refine ⟨{ s with slots := slots' }, ?_, ?_, ?_⟩
  · unfold reloadReader Storage.reload
    rw [List.append_assoc, hpos, e]
    rfl
  · intro hk'
    rw [hsame (List.length_eq_zero_iff.mp (by rw [List.length_append] at hAl; omega))]
  · intro h0
    rcases hli with ⟨hli, hsl⟩ | ⟨_, hmod, _⟩
    · show slots' = _
      rw [hmore hli, hsl, v.slots, anchor_append cap 0 (A0 ++ A2), List.take_left' (by rw [anchor_length, hAl]), anchor_append, Nat.zero_add]
    · exact absurd h0 hmod

/-- **C110, what is left.** As before, and the packets loaded filled their slots. After the failed `reload` the reader has the packets in front of the damaged slot, and
a `reload` of the undamaged file gives it all. -/
theorem C110_rest {cap : Nat} (hc : 0 < cap) {chk : Bool} {ops ops2 : List (Op O Q)} {s s0 : Storage} {data : Bytes} (h : Watching cap chk ops s)
    (hr : Reached cap chk (ops ++ ops2) data s0) (hok : ∀ p ∈ log (ops ++ ops2), Storable S p) (hs : Small cap (log (ops ++ ops2)))
    {k : Nat} {a : Anchored} (ha : s0.slots[k]? = some a) (hk : (log ops).length / cap ≤ k) (hfull : (log ops).length % cap = 0)
    {pre tbl post tbl' : Bytes} (hd : data = pre ++ tbl ++ post) (hpre : pre.length = a.offset) (ht : tbl.length = 20 + 8 * cap) (hb : Burst4 tbl tbl')
    (hne : tbl' ≠ tbl) (hcapB : (tbl'.drop 8).take 8 = (tbl.drop 8).take 8) :
    ∃ s', reloadReader cap chk s (pre ++ tbl' ++ post) =
        some (.err (.damagedSlot (if tbl'.take 8 = tbl.take 8 then .crcDismatch else .sigDismatch)), s') ∧
      s'.count cap = k * cap ∧ (∀ j, s'.nth cap chk (pre ++ tbl' ++ post) j = .ok ((log (ops ++ ops2)).take (k * cap))[j]?) ∧
      ∃ n s'', reloadReader cap chk s' data = some (.ok n, s'') ∧ Shows cap chk s'' data (log (ops ++ ops2)) := by
  obtain ⟨s', e, _, hsl⟩ := C110_damaged_table_partial (S := S) hc h hr (fun p hp => (hok p hp).ok) hs ha hk (fun h => absurd hfull h) hd hpre ht hb hne hcapB
  have hsl := hsl hfull
  obtain ⟨gs, v, hd', f, hl⟩ := hr.view hc (fun p hp => (hok p hp).ok) hs
  have hkl : k < gs.length := by
    obtain ⟨hlt, _⟩ := List.getElem?_eq_some_iff.mp ha
    rw [v.slots, anchor_length] at hlt; exact hlt
  obtain ⟨A, B, hgs, hAl, hB⟩ : ∃ A B, gs = A ++ B ∧ A.length = k ∧ B ≠ [] :=
    ⟨gs.take k, gs.drop k, (List.take_append_drop _ _).symm, by rw [List.length_take]; omega, by
      intro h0; have := congrArg List.length h0; rw [List.length_drop, List.length_nil] at this; omega⟩
  subst hgs
  have hfullA : AllFull cap A := by
    intro x hx
    refine ⟨v.groups.group x (by simp [hx]), v.groups.full x ?_⟩
    rw [List.dropLast_append_of_ne_nil hB]
    simp [hx]
  have hsl' : s'.slots = anchor cap 0 A := by rw [hsl, v.slots, anchor_append, List.take_left' (by rw [anchor_length, hAl])]
  have hpreA : pre = fileOf cap A := by
    have hae : a.offset = (fileOf cap A).length := by
      rw [v.slots, anchor_append, List.getElem?_append_right (by rw [anchor_length]; omega), anchor_length, hAl, Nat.sub_self] at ha
      obtain ⟨g, B', rfl⟩ := List.exists_cons_of_ne_nil hB
      simp only [anchor, List.getElem?_cons_zero, Option.some.injEq] at ha
      rw [← ha]; simp
    have e2 : pre ++ (tbl ++ post) = fileOf cap A ++ fileOf cap B := by rw [← List.append_assoc, ← hd, hd', fileOf_append]
    exact (List.append_inj e2 (by rw [hpre, hae])).1
  have hAlen : A.flatten.length = k * cap := by rw [length_flatten_full hfullA, hAl]
  have htake : A.flatten = ((log (ops ++ ops2)).take (k * cap)).map wire := by
    rw [List.map_take, ← f, List.flatten_append, List.take_left' hAlen]
  have hGA : Groups cap A := hfullA.groups hc
  refine ⟨s', e, ?_, ?_, ?_⟩
  · unfold Storage.count
    have hlen : s'.slots.length = k := by rw [hsl', anchor_length, hAl]
    cases hx : s'.slots[s'.loc.next]? with
    | none => simp only [hlen]
    | some b =>
      have hbm := List.mem_of_getElem? hx
      rw [hsl'] at hbm
      obtain ⟨A1, g, A2, hA, hbe⟩ := mem_anchor hbm
      obtain ⟨hgr, hgl⟩ := hfullA g (by rw [hA]; simp)
      have : b.inner.freeIndex = none := by rw [hbe, table_freeIndex hgr, if_neg (by omega)]
      simp only [this, hlen]
  · intro j
    have vA : View cap A { s' with loc := Locator.setup s'.loc (A.map (table cap)) } := ⟨hGA, hsl', setup_next hc hGA _⟩
    have := view_log_tail hc chk vA htake (fun p hp => hok p (List.mem_of_mem_take hp)) (tbl' ++ post) j
    rw [hpreA, List.append_assoc, ← this]
    rfl
  · have hGB : Groups cap B := by
      refine ⟨fun x hx => v.groups.group x (by simp [hx]), fun x hx => v.groups.ne x (by simp [hx]), fun x hx => v.groups.full x ?_⟩
      rw [List.dropLast_append_of_ne_nil hB]
      simp [hx]
    have hle := groups_le (cap := cap) (gs := A ++ B) v.groups.group
    obtain ⟨s'', e3, _, v3⟩ := reload_from_boundary hc hsl' hfullA hGB (by rw [← hd']; exact hl) (chk := chk) (fuel := (fileOf cap (A ++ B)).length + 1) (by
      rw [List.length_append] at hle; omega)
    rw [hd'] at hl ⊢
    exact ⟨_, s'', e3, view_shows hc chk (v3 hB) f hok hl⟩

/-- With slots for one packet each: a reader of the empty storage, two packets, the table of the second slot damaged. The reader gets the first packet, and both once the
damage is undone. -/
example (chk : Bool) : ∃ data s s0 pre tbl post tbl' s', Watching 1 chk ([] : List (Op (blockEnum sampleTypes) (PEnum.ops []))) s ∧ Reached 1 chk twoPackets data s0 ∧
    data = pre ++ tbl ++ post ∧ reloadReader 1 chk s (pre ++ tbl' ++ post) = some (.err (.damagedSlot .crcDismatch), s') ∧ s'.count 1 = 1 ∧
    s'.nth 1 chk (pre ++ tbl' ++ post) 0 = .ok (some samplePacket) ∧
    ∃ n s'', reloadReader 1 chk s' data = some (.ok n, s'') ∧ Shows 1 chk s'' data [samplePacket, otherPacket] := by
  have hcap : (0 : Nat) < 1 := by decide
  have hs : Small 1 (log twoPackets) := by
    rw [twoPackets_log]
    unfold Small
    simp only [List.map_cons, List.map_nil, wire_sample_length, wire_other_length]
    decide
  obtain ⟨data, s0, hr⟩ := Reached.exists (S := sampleSpec) (cap := 1) hcap chk twoPackets twoPackets_storable hs
  obtain ⟨d1, s, h1⟩ := Reached.exists (S := sampleSpec) (Q := PEnum.ops []) (cap := 1) hcap chk [] (by intro p hp; cases hp) (by simp [Small, log])
  obtain ⟨gs, v, hd, f, _⟩ := hr.view (S := sampleSpec) hcap (fun p hp => (twoPackets_storable p hp).ok) hs
  have hgs : gs = [[wire samplePacket], [wire otherPacket]] := by
    refine groups_unique hcap v.groups ⟨?_, ?_, ?_⟩ (by rw [f, twoPackets_log]; rfl)
    · intro g hg
      rcases List.mem_cons.mp hg with rfl | hg
      · exact ⟨by intro w hw; rw [List.mem_singleton.mp hw]; exact wire_ne samplePacket_ok, by decide⟩
      · rw [List.mem_singleton.mp hg]
        exact ⟨by intro w hw; rw [List.mem_singleton.mp hw]; exact wire_ne otherPacket_ok, by decide⟩
    · intro g hg
      rcases List.mem_cons.mp hg with rfl | hg
      · simp
      · rw [List.mem_singleton.mp hg]; simp
    · intro g hg
      rw [List.mem_singleton.mp hg]; rfl
  subst hgs
  have hgr := v.groups.group [wire otherPacket] (by simp)
  have hl := enc_table_length (cap := 1) hgr.le
  have hdata : data = region 1 [wire samplePacket] ++ (table 1 [wire otherPacket]).enc ++ wire otherPacket := by
    rw [hd, fileOf_cons, fileOf_one, List.append_assoc]
  have ha : s0.slots[1]? = some ⟨table 1 [wire otherPacket], (region 1 [wire samplePacket]).length⟩ := by
    rw [v.slots]; simp [anchor]
  generalize (table 1 [wire otherPacket]).enc = tbl at hdata hl
  obtain ⟨u, c, t, hu, rfl⟩ : ∃ u c t, u.length = 16 ∧ tbl = u ++ [c] ++ t := by
    have hlt : 16 < tbl.length := by rw [hl]; decide
    refine ⟨tbl.take 16, tbl[16]'hlt, tbl.drop 17, by rw [List.length_take]; omega, ?_⟩
    rw [List.append_assoc, List.singleton_append, List.getElem_cons_drop, List.take_append_drop]
  have hd16 : ∀ z : Byte, ((u ++ [z] ++ t).drop 8).take 8 = u.drop 8 := by
    intro z
    rw [List.append_assoc, List.drop_append_of_le_length (by omega), List.take_left' (by rw [List.length_drop]; omega)]
  have h8 : ∀ z : Byte, (u ++ [z] ++ t).take 8 = u.take 8 := by
    intro z
    rw [List.append_assoc, List.take_append_of_le_length (by omega)]
  obtain ⟨s', e, h2, h3, h4⟩ := C110_rest (S := sampleSpec) hcap (ops := []) (ops2 := twoPackets) (.opened h1) hr twoPackets_storable hs ha (by simp [log]) (by simp [log])
    hdata rfl hl (tbl' := u ++ [c + 1] ++ t) (Burst4.of_split _ _ _ _ rfl (by simp)) (by
      intro he
      have : c + 1 = c := by simp at he
      revert this
      exact (show ∀ c : Byte, c + 1 ≠ c by decide) c) (by rw [hd16, hd16])
  rw [h8, h8, if_pos rfl] at e
  exact ⟨data, s, s0, _, _, _, _, s', .opened h1, hr, hdata, e, h2, h3 0, h4⟩

/-- A byte of the first length in the table of the slot in use is changed, while a second packet arrives: `reload` reports it. -/
example (chk : Bool) : ∃ data s s0 pre tbl post tbl', Watching 2 chk [Op.insert samplePacket] s ∧
    Reached 2 chk ([Op.insert samplePacket] ++ [Op.insert otherPacket]) data s0 ∧ data = pre ++ tbl ++ post ∧
    reloadReader 2 chk s (pre ++ tbl' ++ post) = some (.err (.damagedSlot .crcDismatch), s) := by
  have hcap : (0 : Nat) < 2 := by decide
  have hok : ∀ p ∈ log ([Op.insert samplePacket] ++ [Op.insert otherPacket]), p.Ok sampleSpec := fun p hp => (twoPackets_storable p hp).ok
  have hs : Small 2 (log ([Op.insert samplePacket] ++ [Op.insert otherPacket])) := twoPackets_small_two
  obtain ⟨data, s0, hr⟩ := Reached.exists (S := sampleSpec) (cap := 2) hcap chk ([Op.insert samplePacket] ++ [Op.insert otherPacket]) twoPackets_storable hs
  obtain ⟨d1, s, h1⟩ := Reached.exists (S := sampleSpec) (cap := 2) hcap chk [Op.insert samplePacket]
    (by intro p hp; rw [List.mem_singleton.mp hp]; exact sample_storable) (by simp [Small, log, wire_sample_length])
  obtain ⟨gs, v, hd, f, _⟩ := hr.view (S := sampleSpec) hcap hok hs
  obtain ⟨g, B, rfl⟩ : ∃ g B, gs = g :: B := by
    cases gs with
    | nil => cases f
    | cons g B => exact ⟨g, B, rfl⟩
  have hgr := v.groups.group g (by simp)
  have hl := enc_table_length (cap := 2) hgr.le
  have hdata : data = [] ++ (table 2 g).enc ++ (g.flatten ++ fileOf 2 B) := by rw [hd, fileOf_cons, region]; simp only [List.nil_append, List.append_assoc]
  generalize (table 2 g).enc = tbl at hdata hl
  obtain ⟨u, c, t, hu, rfl⟩ : ∃ u c t, u.length = 16 ∧ tbl = u ++ [c] ++ t := by
    have hlt : 16 < tbl.length := by rw [hl]; decide
    refine ⟨tbl.take 16, tbl[16]'hlt, tbl.drop 17, by rw [List.length_take]; omega, ?_⟩
    rw [List.append_assoc, List.singleton_append, List.getElem_cons_drop, List.take_append_drop]
  have hd16 : ∀ z : Byte, ((u ++ [z] ++ t).drop 8).take 8 = u.drop 8 := by
    intro z
    rw [List.append_assoc, List.drop_append_of_le_length (by omega), List.take_left' (by rw [List.length_drop]; omega)]
  have h8 : ∀ z : Byte, (u ++ [z] ++ t).take 8 = u.take 8 := by
    intro z
    rw [List.append_assoc, List.take_append_of_le_length (by omega)]
  have ha : s0.slots[0]? = some ⟨table 2 g, 0⟩ := by rw [v.slots]; rfl
  obtain ⟨s', e, hsame, _⟩ := C110_damaged_table_partial (S := sampleSpec) hcap (.opened h1) hr hok hs ha (by decide) (by intro _ j _ hj; omega) hdata rfl hl
    (tbl' := u ++ [c + 1] ++ t) (Burst4.of_split _ _ _ _ rfl (by simp)) (by
      intro he
      have : c + 1 = c := by simp at he
      revert this
      exact (show ∀ c : Byte, c + 1 ≠ c by decide) c) (by rw [hd16, hd16])
  rw [h8, h8, if_pos rfl, hsame rfl] at e
  exact ⟨data, s, s0, [], _, _, _, .opened h1, hr, hdata, e⟩

/-- **C110, what damage of the capacity does.** A reader is open on the empty storage and one packet arrives. One changed byte in the capacity of its
slot makes `reload` say that there is nothing new (release build), or panic (debug build). -/
theorem C110_one_byte (chk : Bool) : ∃ data s s0 a u x y t post, Watching SLOT_CAPACITY chk ([] : List (Op (blockEnum sampleTypes) (PEnum.ops []))) s ∧
    Reached SLOT_CAPACITY chk ([] ++ [Op.insert samplePacket]) data s0 ∧ s0.slots[0]? = some a ∧ a.offset = 0 ∧ data = (u ++ [x] ++ t) ++ post ∧
    (u ++ [x] ++ t).length = 20 + 8 * SLOT_CAPACITY ∧ x ≠ y ∧ reloadReader SLOT_CAPACITY chk s ((u ++ [y] ++ t) ++ post) = some (if chk then .panic else .ok 0, s) := by
  have hok : ∀ p ∈ log ([] ++ [Op.insert samplePacket]), Storable sampleSpec p := by
    intro p hp; rw [List.mem_singleton.mp hp]; exact sample_storable
  have hs : Small SLOT_CAPACITY (log ([] ++ [Op.insert samplePacket])) := by
    show Small SLOT_CAPACITY [samplePacket]
    simp [Small, wire_sample_length, SLOT_CAPACITY]
  obtain ⟨data, s0, hr⟩ := Reached.exists (S := sampleSpec) (cap := SLOT_CAPACITY) (by decide) chk _ hok hs
  obtain ⟨d1, s, h1⟩ := Reached.exists (S := sampleSpec) (Q := PEnum.ops []) (cap := SLOT_CAPACITY) (by decide) chk [] (by intro p hp; cases hp)
    (by simp [Small, log, SLOT_CAPACITY])
  obtain ⟨gs1, v1, _, f1, _⟩ := h1.view (S := sampleSpec) (by decide) (by intro p hp; cases hp) (by simp [Small, log, SLOT_CAPACITY])
  have hnil : s.slots = [] := by
    rw [v1.slots]
    cases gs1 with
    | nil => rfl
    | cons g B =>
      exfalso
      have hne := v1.groups.ne g (by simp)
      have := congrArg List.length f1
      simp only [List.flatten_cons, List.length_append, log, List.map_nil, List.length_nil] at this
      exact hne (List.length_eq_zero_iff.mp (by omega))
  obtain ⟨gs, v, hd, f, _⟩ := hr.view (S := sampleSpec) (by decide) (fun p hp => (hok p hp).ok) hs
  have hgs : gs = [[wire samplePacket]] := by
    refine groups_unique (by decide) v.groups ⟨?_, ?_, ?_⟩ (by rw [f]; rfl)
    · intro g hg
      rw [List.mem_singleton.mp hg]
      exact ⟨by intro w hw; rw [List.mem_singleton.mp hw]; exact wire_ne samplePacket_ok, by decide⟩
    · intro g hg
      rw [List.mem_singleton.mp hg]; simp
    · simp
  subst hgs
  have hgr := v.groups.group [wire samplePacket] (by simp)
  have henl : (table SLOT_CAPACITY [wire samplePacket]).enc.length = 20 + 8 * SLOT_CAPACITY := enc_table_length hgr.le
  have hdata : data = (table SLOT_CAPACITY [wire samplePacket]).enc ++ wire samplePacket := by rw [hd, fileOf_one]
  have htk : (table SLOT_CAPACITY [wire samplePacket]).enc = SLOT_SIG ++ (leBytes 8 500 ++ (table SLOT_CAPACITY [wire samplePacket]).enc.drop 16) :=
    enc_capacity _
  have ha : s0.slots[0]? = some ⟨table SLOT_CAPACITY [wire samplePacket], 0⟩ := by rw [v.slots]; rfl
  clear hd
  generalize (table SLOT_CAPACITY [wire samplePacket]).enc = T at hdata henl htk
  have e0 : T = [166, 177, 188, 199, 199, 188, 177, 166, 244, 1] ++ [0] ++ ([0, 0, 0, 0, 0] ++ T.drop 16) := by
    conv => lhs; rw [htk]
    rw [← List.append_assoc SLOT_SIG, show SLOT_SIG ++ leBytes 8 500 = [166, 177, 188, 199, 199, 188, 177, 166, 244, 1] ++ ([0] ++ [0, 0, 0, 0, 0]) from by decide]
    simp only [List.append_assoc]
  refine ⟨data, s, s0, _, [166, 177, 188, 199, 199, 188, 177, 166, 244, 1], 0, 1, [0, 0, 0, 0, 0] ++ T.drop 16, wire samplePacket, .opened h1, hr, ha, rfl, ?_, ?_,
    by decide, ?_⟩
  · rw [← e0, hdata]
  · rw [← e0, henl]
  · have e1 : ([166, 177, 188, 199, 199, 188, 177, 166, 244, 1] ++ [1] ++ ([0, 0, 0, 0, 0] ++ T.drop 16)) ++ wire samplePacket =
        SLOT_SIG ++ (leBytes 8 (500 + 65536) ++ (T.drop 16 ++ wire samplePacket)) := by
      rw [← List.append_assoc SLOT_SIG, show SLOT_SIG ++ leBytes 8 (500 + 65536) = [166, 177, 188, 199, 199, 188, 177, 166, 244, 1] ++ ([1] ++ [0, 0, 0, 0, 0]) from by decide]
      simp only [List.append_assoc]
    rw [e1]
    have htry : ∀ D, D = SLOT_SIG ++ (leBytes 8 (500 + 65536) ++ (T.drop 16 ++ wire samplePacket)) →
        (Slot.tryRead ⟨D, 0, chk⟩).1 = if chk then .panic else .ok (.notEnough (2 ^ 64 + 9 - 8 * (500 + 65536))) := by
      intro D hD
      have := tryRead_beyond (c := ⟨D, 0, chk⟩) (cap' := 500 + 65536) (t := T.drop 16 ++ wire samplePacket) (by simp) (by decide) (by decide) (by rw [Cur.rest]; exact hD)
        (by rw [List.length_append, List.length_drop, henl, wire_sample_length]; decide)
      simpa using this
    generalize SLOT_SIG ++ (leBytes 8 (500 + 65536) ++ (T.drop 16 ++ wire samplePacket)) = D at htry
    unfold reloadReader Storage.reload
    rw [lastInfo_nil hnil, hnil, Storage.reloadLoop, htry D rfl]
    cases chk <;> simp only [Option.isNone_none, List.length_nil, beq_self_eq_true, Option.map_some, if_true, Bool.false_eq_true, if_false] <;> rw [← hnil]

/-- **C110 is false of the code.** -/
theorem C110_not (chk : Bool) : ¬ C110_full (PEnum.ops []) sampleSpec SLOT_CAPACITY chk := by
  intro hf
  obtain ⟨data, s, s0, a, u, x, y, t, post, h, hr, ha, h0, hd, hl, hxy, ho⟩ := C110_one_byte chk
  have hok : ∀ p ∈ log ([] ++ [Op.insert samplePacket]), p.Ok sampleSpec := by
    intro p hp; rw [List.mem_singleton.mp hp]; exact samplePacket_ok
  have hs : Small SLOT_CAPACITY (log ([] ++ [Op.insert samplePacket])) := by
    show Small SLOT_CAPACITY [samplePacket]
    simp [Small, wire_sample_length, SLOT_CAPACITY]
  obtain ⟨e, s', he⟩ := hf [] _ s s0 data h hr hok hs 0 a ha (by simp [log]) [] (u ++ [x] ++ t) post (u ++ [y] ++ t) hd h0.symm hl
    (Burst4.of_split u [x] [y] t rfl (by simp)) (by simp [hxy.symm])
  rw [List.nil_append, ho] at he
  cases chk <;> cases he

end Brec.Props
