import Verif.Props.StorageFollow
import Verif.Props.StorageLoss
/-!
# A reader that reloads while packets are being inserted, again and again: C88
-/

namespace Brec.Props

open Rd

variable {O : BlockOps} {Q : PayloadOps} {S : BlockSpec O}

/-- What the reader went through while `p` was being inserted: `reload` was called any number of times, at times when at most `k` bytes had been written. It may
have failed, but it has not panicked. -/
inductive Polls (cap : Nat) (chk : Bool) (w : Writer) (p : Packet O Q) (s : Storage) : Nat → Storage → Prop
  | start : Polls cap chk w p s 0 s
  | poll {k k' : Nat} {s1 s2 : Storage} {r : Out Nat} : Polls cap chk w p s k s1 → k ≤ k' →
      reloadReader cap chk s1 (crashed cap w p k') = some (r, s2) → r ≠ .panic → Polls cap chk w p s k' s2

/-- A reader that follows a file: it is reloaded after every insert, and as often as one likes while a packet is being inserted. Between two inserts the writer
may be opened anew. -/
inductive Following (cap : Nat) (chk : Bool) : List (Op O Q) → Storage → Prop
  | opened {ops : List (Op O Q)} {s : Storage} : Watching cap chk ops s → Following cap chk ops s
  | reopened {ops : List (Op O Q)} {s : Storage} : Following cap chk ops s → Following cap chk (ops ++ [.reopen]) s
  | inserted {ops : List (Op O Q)} {p : Packet O Q} {s s1 s2 : Storage} {w w' : Writer} {k : Nat} {r : Out Nat} : Following cap chk ops s →
      runOps cap chk ops emptyWriter = some w → Polls cap chk w p s k s1 → runOps cap chk (ops ++ [.insert p]) emptyWriter = some w' →
      reloadReader cap chk s1 w'.data = some (r, s2) → Following cap chk (ops ++ [.insert p]) s2

/-- **C88, full statement** (true with overflow checks, false without): a reader that is reloaded after every insert shows all packets, however often it has been
reloaded in the middle of inserts. -/
def C88_full (Q : PayloadOps) (S : BlockSpec O) (cap : Nat) (chk : Bool) : Prop :=
  ∀ (ops : List (Op O Q)) (s : Storage) (w : Writer), Following cap chk ops s → runOps cap chk ops emptyWriter = some w →
    (∀ q ∈ log ops, Storable S q ∧ (wire q).length < 2 ^ 32) → Small cap (log ops) → Shows cap chk s w.data (log ops)

/-! ## Lemmas -/

/-- The tables are those of the file. The locator may point to a full slot instead of where it should; that happens without overflow checks only, while the last slot is
full or has one packet. -/
structure Loose (cap : Nat) (chk : Bool) (gs : List (List Bytes)) (s : Storage) : Prop where
  groups : Groups cap gs
  slots : s.slots = anchor cap 0 gs
  loc : s.loc.next = (if (gs.getLast?.getD []).length < cap then gs.length - 1 else gs.length) ∨
    (chk = false ∧ gs.flatten.length % cap ≤ 1 ∧ ∃ g, gs[s.loc.next]? = some g ∧ g.length = cap)

theorem Loose.of_view {cap : Nat} {chk : Bool} {gs : List (List Bytes)} {s : Storage} (v : View cap gs s) : Loose cap chk gs s := ⟨v.groups, v.slots, .inl v.loc⟩

theorem Loose.count {cap : Nat} (hc : 0 < cap) {chk : Bool} {gs : List (List Bytes)} {s : Storage} (v : Loose cap chk gs s) :
    s.count cap = gs.flatten.length ∨ (chk = false ∧ gs.flatten.length % cap = 1 % cap ∧ s.count cap = (gs.flatten.length / cap + 1) * cap) := by
  rcases v.loc with h | ⟨h1, h2, g, h3, h4⟩
  · exact .inl (View.count ⟨v.groups, v.slots, h⟩)
  have hcnt : s.count cap = gs.length * cap := by
    have hin : s.slots.map (·.inner) = gs.map (table cap) := by rw [v.slots, anchor_inner]
    have hget := getElem?_map_inner hin s.loc.next
    rw [h3] at hget
    unfold Storage.count
    have hlen : s.slots.length = gs.length := by rw [v.slots, anchor_length]
    cases hx : s.slots[s.loc.next]? with
    | none => rw [hx] at hget; simp at hget
    | some a =>
      rw [hx] at hget
      simp only [Option.map_some, Option.some.injEq] at hget
      simp only
      rw [hget, table_freeIndex (v.groups.group g (List.mem_of_getElem? h3)), if_neg (by omega)]
      simp only
      rw [hlen]
  rcases List.eq_nil_or_concat gs with rfl | ⟨init, l, rfl⟩
  · simp at h3
  rw [List.concat_eq_append] at *
  have hsp := v.groups.split
  have hle := hsp.2.1.le
  have hne : l ≠ [] := v.groups.ne l (by simp)
  have hpos : 0 < l.length := List.length_pos_iff.mpr hne
  have hfl : (init ++ [l]).flatten.length = cap * init.length + l.length := by
    rw [List.flatten_append, List.length_append, length_flatten_full hsp.1, Nat.mul_comm]; simp
  have hsz : (init ++ [l]).length = init.length + 1 := by simp
  rw [hcnt, hfl, hsz]
  rw [hfl, Nat.mul_add_mod] at h2
  by_cases hf : l.length = cap
  · left
    rw [Nat.add_mul, Nat.mul_comm init.length, hf, Nat.one_mul]
  · have hlt : l.length < cap := by omega
    rw [Nat.mod_eq_of_lt hlt] at h2
    have h1l : l.length = 1 := by omega
    right
    rw [Nat.mul_add_mod, h1l, Nat.mul_add_div hc, Nat.div_eq_of_lt (by omega), Nat.add_zero]
    exact ⟨h1, rfl, rfl⟩

/-- The tables settle what `nth` and `iter` give. -/
theorem Loose.shows {cap : Nat} (hc : 0 < cap) {chk : Bool} {gs : List (List Bytes)} {s : Storage} (v : Loose cap chk gs s) {ps : List (Packet O Q)}
    (hf : gs.flatten = ps.map wire) (hok : ∀ p ∈ ps, Storable S p) (hl : (fileOf cap gs).length < 2 ^ 63) :
    (∀ i, s.nth cap chk (fileOf cap gs) i = .ok ps[i]?) ∧ IterYields s (fileOf cap gs) (ps.map .ok) := by
  have v0 : View cap gs { s with loc := { s.loc with next := if (gs.getLast?.getD []).length < cap then gs.length - 1 else gs.length } } := ⟨v.groups, v.slots, rfl⟩
  have h := view_shows hc chk v0 hf hok hl
  exact ⟨fun i => h.nth i, h.iter⟩

/-- One `reload` by a reader that has not seen the new table. -/
theorem Loose.poll {cap : Nat} {chk : Bool} {init : List (List Bytes)} {g : List Bytes} {x : Bytes} (m : Midway cap init g x) {s : Storage}
    (v : Loose cap chk (init ++ opt g) s) (k : Nat) :
    (∃ r, reloadReader cap chk s (midFile cap init g x k) = some (r, s) ∧ k < 20 + 8 * cap) ∨
    (∃ r s', reloadReader cap chk s (midFile cap init g x k) = some (r, s') ∧ midTable cap g x k = (table cap (g ++ [x])).enc ∧
      (20 + 8 * cap + x.length ≤ k → r = .ok 1 ∧ View cap (init ++ [g ++ [x]]) s') ∧ (r ≠ .panic → Loose cap chk (init ++ [g ++ [x]]) s')) := by
  have h2 := m.two
  unfold reloadReader
  rcases m.reload_slots v.slots chk k (Nat.lt_succ_self _) with ⟨r, e, h, _⟩ | ⟨r, s', e, hs, ht, _, hr, hv, hl⟩
  · exact .inl ⟨r, e, h⟩
  refine .inr ⟨r, s', e, ht, fun h => ⟨by rw [hr, if_pos (.inr h)], hv (.inr h)⟩, fun hp => ?_⟩
  by_cases hcond : (g ≠ [] ∧ g.length + 1 < cap) ∨ 20 + 8 * cap + x.length ≤ k
  · exact .of_view (hv hcond)
  have hchk : chk = false := by
    rw [if_neg hcond] at hr
    cases chk
    · rfl
    · exact absurd hr hp
  have hlt := m.lt
  have hfl : (init ++ [g ++ [x]]).flatten.length = cap * init.length + (g.length + 1) := by
    rw [List.flatten_append, List.length_append, length_flatten_full m.full, Nat.mul_comm]; simp
  refine ⟨m.groups', hs, ?_⟩
  rw [hl hcond]
  have hb : g = [] ∨ (g ≠ [] ∧ g.length + 1 = cap) := by
    by_cases hg : g = []
    · exact .inl hg
    · refine .inr ⟨hg, ?_⟩
      have : ¬ (g.length + 1 < cap) := fun h => hcond (.inl ⟨hg, h⟩)
      omega
  have hstale : (∃ y, (init ++ opt g)[s.loc.next]? = some y ∧ y.length = cap) → ∃ y, (init ++ [g ++ [x]])[s.loc.next]? = some y ∧ y.length = cap := by
    rintro ⟨y, h1, h3⟩
    refine ⟨y, ?_, h3⟩
    rcases Nat.lt_or_ge s.loc.next init.length with h | h
    · rw [List.getElem?_append_left h] at h1 ⊢; exact h1
    · exfalso
      rw [List.getElem?_append_right h] at h1
      have := List.mem_of_getElem? h1
      unfold opt at this
      split at this
      · simp at this
      · rw [List.mem_singleton.mp this] at h3; omega
  rcases hb with hg | ⟨hg, hfill⟩
  · subst hg
    rcases v.loc with h | ⟨_, _, h⟩
    · left
      rw [h]
      simp only [opt, List.append_nil, if_true, List.nil_append, List.getLast?_concat, Option.getD_some, List.length_singleton, List.length_append]
      rw [if_pos (show 1 < cap by omega)]
      rcases List.eq_nil_or_concat init with h0 | ⟨i0, l, h0⟩
      · rw [h0]; simp
      · rw [h0, List.concat_eq_append, List.getLast?_concat, Option.getD_some]
        have := (m.full l (by rw [h0]; simp)).2
        rw [if_neg (by omega)]
        simp
    · right
      refine ⟨hchk, ?_, hstale h⟩
      rw [hfl, Nat.mul_add_mod, List.length_nil, Nat.mod_eq_of_lt (by omega)]
      omega
  · right
    refine ⟨hchk, ?_, ?_⟩
    · rw [hfl, Nat.mul_add_mod, hfill, Nat.mod_self]; omega
    · rcases v.loc with h | ⟨_, _, h⟩
      · refine ⟨g ++ [x], ?_, by simp; omega⟩
        rw [h]
        simp only [opt, if_neg hg, List.getLast?_concat, Option.getD_some]
        rw [if_pos hlt, List.length_append, List.length_singleton, Nat.add_sub_cancel, List.getElem?_concat_length]
      · exact hstale h

/-- What a reader has after reloading during the insert. -/
theorem Polls.loose {cap : Nat} {chk : Bool} {w w1 : Writer} {ps : List (Packet O Q)} {p : Packet O Q} {init : List (List Bytes)} {g : List Bytes}
    (a : Ahead cap w ps p init g w1) (m : Midway cap init g (wire p)) {s : Storage} (v : Loose cap chk (init ++ opt g) s) {k : Nat} {s' : Storage}
    (h : Polls cap chk w p s k s') :
    Loose cap chk (init ++ opt g) s' ∨ (Loose cap chk (init ++ [g ++ [wire p]]) s' ∧ midTable cap g (wire p) k = (table cap (g ++ [wire p])).enc) := by
  induction h with
  | start => exact .inl v
  | @poll k k' s1 s2 r hp hk e hr ih =>
    rw [a.file] at e
    rcases ih with v1 | ⟨v1, ht⟩
    · rcases v1.poll m k' with ⟨r1, e1, _⟩ | ⟨r1, s3, e1, h2, _, h3⟩
      · rw [e1] at e
        injection e with e
        injection e with _ e
        subst e
        exact .inl v1
      · rw [e1] at e
        injection e with e
        injection e with e0 e
        subst e e0
        exact .inr ⟨h3 hr, h2⟩
    · have hm := midTable_mono hk ht
      rw [reloadReader, m.reload_seen v1.slots chk hm (by omega)] at e
      injection e with e
      injection e with _ e
      subst e
      exact .inr ⟨v1, hm⟩

/-- The file after the insert. -/
theorem Ahead.after {cap : Nat} (hc : 0 < cap) {chk : Bool} {ops : List (Op O Q)} {w w1 w' : Writer} {p : Packet O Q} {init : List (List Bytes)} {g : List Bytes}
    (a : Ahead cap w (log ops) p init g w1) (hok : ∀ q ∈ log (ops ++ [.insert p]), q.Ok S) (hs : Small cap (log (ops ++ [.insert p])))
    (hw' : runOps cap chk (ops ++ [.insert p]) emptyWriter = some w') : w'.data = fileOf cap (init ++ [g ++ [wire p]]) := by
  obtain ⟨w2, gs, e, inv, f⟩ := runOps_inv (S := S) hc chk (ops ++ [.insert p]) (ps := []) (empty_inv cap) rfl hok (by rw [List.nil_append]; exact hs)
  rw [hw'] at e
  injection e with e
  subst e
  rw [inv.data]
  congr 1
  refine groups_unique hc inv.groups a.groups' ?_
  rw [f, a.flat', List.nil_append, log_append]
  rfl

/-- The reload after the insert. -/
theorem Loose.settle {cap : Nat} {chk : Bool} {w w1 : Writer} {ps : List (Packet O Q)} {p : Packet O Q} {init : List (List Bytes)} {g : List Bytes}
    (a : Ahead cap w ps p init g w1) (m : Midway cap init g (wire p)) {s : Storage} (v : Loose cap chk (init ++ opt g) s) {k : Nat} {s1 : Storage}
    (h : Polls cap chk w p s k s1) :
    (∃ s2, reloadReader cap chk s1 (fileOf cap (init ++ [g ++ [wire p]])) = some (.ok 1, s2) ∧ View cap (init ++ [g ++ [wire p]]) s2) ∨
    (reloadReader cap chk s1 (fileOf cap (init ++ [g ++ [wire p]])) = some (.ok 0, s1) ∧ Loose cap chk (init ++ [g ++ [wire p]]) s1) := by
  have hlt := m.lt
  rw [← midFile_all hlt (Nat.le_refl (20 + 8 * cap + (wire p).length))]
  rcases h.loose a m v with v1 | ⟨v1, _⟩
  · left
    rcases v1.poll m (20 + 8 * cap + (wire p).length) with ⟨r1, e1, h1⟩ | ⟨r1, s3, e1, _, h3, _⟩
    · omega
    · obtain ⟨rfl, h4⟩ := h3 (Nat.le_refl _)
      exact ⟨s3, e1, h4⟩
  · right
    refine ⟨?_, v1⟩
    rw [reloadReader, m.reload_seen v1.slots chk (midTable_all hlt (by omega)) (by omega), if_pos (.inr (Nat.le_refl _))]

/-- What a reader that follows the file has. -/
theorem Following.loose {cap : Nat} (hc : 2 ≤ cap) {chk : Bool} {ops : List (Op O Q)} {s : Storage} (h : Following cap chk ops s) :
    (∀ q ∈ log ops, q.Ok S ∧ (wire q).length < 2 ^ 32) → Small cap (log ops) → ∃ gs, Loose cap chk gs s ∧ gs.flatten = (log ops).map wire := by
  induction h with
  | opened h =>
    intro hok hs
    obtain ⟨gs, v, f⟩ := h.view (S := S) (by omega) (fun q hq => (hok q hq).1) hs
    exact ⟨gs, .of_view v, f⟩
  | reopened _ ih =>
    intro hok hs
    rw [log_append, show log [Op.reopen (O := O) (Q := Q)] = [] from rfl, List.append_nil] at hok hs ⊢
    exact ih hok hs
  | @inserted ops p s s1 s2 w w' k r _ hw hp hw' e ih =>
    intro hok hs
    have hlog : log (ops ++ [Op.insert p]) = log ops ++ [p] := by rw [log_append]; rfl
    have hok' := hok
    have hs' := hs
    rw [hlog] at hok' hs' ⊢
    have hpo := hok' p (by simp)
    obtain ⟨gs, v, f⟩ := ih (fun q hq => hok' q (by simp [hq])) hs'.left
    obtain ⟨init, g, w1, a⟩ := ahead (S := S) (by omega) hw (fun q hq => (hok' q (by simp [hq])).1) hpo.1 hs'
    have m := a.midway hc hpo.1 hpo.2
    have hgs : gs = init ++ opt g := groups_unique (by omega) v.groups a.groups (by rw [f, a.flat])
    subst hgs
    rw [a.after (S := S) (by omega) (fun q hq => (hok q hq).1) hs hw'] at e
    refine ⟨_, ?_, a.flat'⟩
    rcases v.settle a m hp with ⟨s3, e3, v3⟩ | ⟨e3, v3⟩
    · rw [e] at e3
      injection e3 with e3
      injection e3 with _ e3
      subst e3
      exact .of_view v3
    · rw [e] at e3
      injection e3 with e3
      injection e3 with _ e3
      subst e3
      exact v3

theorem file_of_log {cap : Nat} (hc : 0 < cap) {chk : Bool} {ops : List (Op O Q)} {w : Writer} (hw : runOps cap chk ops emptyWriter = some w)
    (hok : ∀ q ∈ log ops, q.Ok S) (hs : Small cap (log ops)) {gs : List (List Bytes)} (hg : Groups cap gs) (f : gs.flatten = (log ops).map wire) :
    w.data = fileOf cap gs ∧ (fileOf cap gs).length < 2 ^ 63 := by
  obtain ⟨w2, gs2, e, inv, f2⟩ := runOps_inv (S := S) hc chk ops (ps := []) (empty_inv cap) rfl hok (by rw [List.nil_append]; exact hs)
  rw [hw] at e
  injection e with e
  subst e
  have : gs2 = gs := groups_unique hc inv.groups hg (by rw [f2, f, List.nil_append])
  subst this
  exact ⟨inv.data, small_file hc hg f hs⟩

/-! ## What holds -/

/-- **C88, what always holds.** The reload after an insert returns `Ok(1)`, or `Ok(0)` if the reader had seen the table of the new packet before. -/
theorem C88_settles {cap : Nat} (hc : 2 ≤ cap) {chk : Bool} {ops : List (Op O Q)} {s : Storage} (h : Following cap chk ops s) {w w' : Writer} {p : Packet O Q}
    (hw : runOps cap chk ops emptyWriter = some w) (hw' : runOps cap chk (ops ++ [.insert p]) emptyWriter = some w')
    (hok : ∀ q ∈ log (ops ++ [.insert p]), q.Ok S ∧ (wire q).length < 2 ^ 32) (hs : Small cap (log (ops ++ [.insert p]))) {k : Nat} {s1 : Storage}
    (hp : Polls cap chk w p s k s1) : ∃ n s2, reloadReader cap chk s1 w'.data = some (.ok n, s2) ∧ n ≤ 1 ∧ Following cap chk (ops ++ [.insert p]) s2 := by
  have hlog : log (ops ++ [Op.insert p]) = log ops ++ [p] := by rw [log_append]; rfl
  have hok' := hok
  have hs' := hs
  rw [hlog] at hok' hs'
  have hpo := hok' p (by simp)
  obtain ⟨gs, v, f⟩ := h.loose hc (S := S) (fun q hq => hok' q (by simp [hq])) hs'.left
  obtain ⟨init, g, w1, a⟩ := ahead (S := S) (by omega) hw (fun q hq => (hok' q (by simp [hq])).1) hpo.1 hs'
  have m := a.midway hc hpo.1 hpo.2
  have hgs : gs = init ++ opt g := groups_unique (by omega) v.groups a.groups (by rw [f, a.flat])
  subst hgs
  have hd := a.after (S := S) (by omega) (fun q hq => (hok q hq).1) hs hw'
  rcases v.settle a m hp with ⟨s3, e3, _⟩ | ⟨e3, _⟩
  · rw [← hd] at e3
    exact ⟨1, s3, e3, Nat.le_refl _, .inserted h hw hp hw' e3⟩
  · rw [← hd] at e3
    exact ⟨0, s1, e3, Nat.zero_le _, .inserted h hw hp hw' e3⟩

/-- **C88, with what is wrong without overflow checks.** `nth` and `iter` give all packets. `count` is their number, or, without overflow checks and with one packet
in the last slot, what it would be if that slot were full. -/
theorem C88_partial {cap : Nat} (hc : 2 ≤ cap) {chk : Bool} {ops : List (Op O Q)} {s : Storage} (h : Following cap chk ops s) {w : Writer}
    (hw : runOps cap chk ops emptyWriter = some w) (hok : ∀ q ∈ log ops, Storable S q ∧ (wire q).length < 2 ^ 32) (hs : Small cap (log ops)) :
    (∀ i, s.nth cap chk w.data i = .ok (log ops)[i]?) ∧ IterYields s w.data ((log ops).map .ok) ∧
      (s.count cap = (log ops).length ∨
        (chk = false ∧ (log ops).length % cap = 1 ∧ s.count cap = ((log ops).length / cap + 1) * cap)) := by
  obtain ⟨gs, v, f⟩ := h.loose hc (S := S) (fun q hq => ⟨(hok q hq).1.ok, (hok q hq).2⟩) hs
  obtain ⟨hd, hl⟩ := file_of_log (S := S) (by omega) hw (fun q hq => (hok q hq).1.ok) hs v.groups f
  obtain ⟨h1, h2⟩ := v.shows (S := S) (by omega) f (fun q hq => (hok q hq).1) hl
  have hcount := v.count (by omega)
  have hlen : gs.flatten.length = (log ops).length := by rw [f, List.length_map]
  rw [hlen, Nat.mod_eq_of_lt (show 1 < cap by omega)] at hcount
  rw [hd]
  exact ⟨h1, h2, hcount⟩

/-- **C88, with overflow checks.** A reader that is reloaded after every insert shows all packets, however often it has been reloaded in the middle of inserts. -/
theorem C88_checked {cap : Nat} (hc : 2 ≤ cap) : C88_full Q S cap true := by
  intro ops s w h hw hok hs
  obtain ⟨h1, h2, h3⟩ := C88_partial hc h hw hok hs
  refine ⟨?_, h1, h2⟩
  rcases h3 with h3 | ⟨h3, _⟩
  · exact h3
  · cases h3

/-! ## What goes wrong -/

/-- **C88, how `count` gets wrong.** The file is one packet short of a full slot. The reader is reloaded when the table of the packet that fills the slot has been
written and the packet has not, and after the insert; then, in the same way, during and after the next insert. It has been reloaded twice after the last change, and
`count` is still too large by `cap - 1`. -/
theorem C88_overcounts {cap : Nat} (hc : 2 ≤ cap) {ops : List (Op O Q)} {s : Storage} (h : Watching cap false ops s) {w w1 w2 : Writer} {p q : Packet O Q}
    (hw : runOps cap false ops emptyWriter = some w) (hw1 : runOps cap false (ops ++ [.insert p]) emptyWriter = some w1)
    (hw2 : runOps cap false (ops ++ [.insert p] ++ [.insert q]) emptyWriter = some w2)
    (hok : ∀ x ∈ log ops ++ [p] ++ [q], x.Ok S ∧ (wire x).length < 2 ^ 32) (hs : Small cap (log ops ++ [p] ++ [q])) (hlast : (log ops).length % cap + 1 = cap)
    {k k' : Nat} (hk : 20 + 8 * cap ≤ k) (hkp : k < 20 + 8 * cap + (wire p).length) (hk' : 20 + 8 * cap ≤ k') (hkq : k' < 20 + 8 * cap + (wire q).length) :
    ∃ s1 s2, reloadReader cap false s (crashed cap w p k) = some (.err .io, s1) ∧ reloadReader cap false s1 w1.data = some (.ok 0, s1) ∧
      reloadReader cap false s1 (crashed cap w1 q k') = some (.err .io, s2) ∧ reloadReader cap false s2 w2.data = some (.ok 0, s2) ∧
      s2.count cap = (log ops).length + 1 + cap ∧ Following cap false (ops ++ [.insert p] ++ [.insert q]) s2 := by
  have hlog : log (ops ++ [Op.insert p]) = log ops ++ [p] := by rw [log_append]; rfl
  have hlog2 : log (ops ++ [Op.insert p] ++ [Op.insert q]) = log ops ++ [p] ++ [q] := by rw [log_append, hlog]; rfl
  have hpo := hok p (by simp)
  have hqo := hok q (by simp)
  have ho0 : ∀ x ∈ log ops, x.Ok S := fun x hx => (hok x (by simp [hx])).1
  have ho1 : ∀ x ∈ log (ops ++ [Op.insert p]), x.Ok S := by
    intro x hx; rw [hlog] at hx; exact (hok x (by rw [List.append_assoc]; rcases List.mem_append.mp hx with hx | hx <;> simp_all)).1
  obtain ⟨init, g, w', a⟩ := ahead (S := S) (by omega) hw ho0 hpo.1 hs.left
  have m := a.midway hc hpo.1 hpo.2
  have hidx := a.idx
  have hg : g ≠ [] := by intro h0; rw [h0, List.length_nil] at hidx; omega
  have v : View cap (init ++ opt g) s := watch_view (by omega) h ho0 hs.left.left a
  have hd1 := a.after (S := S) (by omega) ho1 (by rw [hlog]; exact hs.left) hw1
  -- the packet that fills the slot
  obtain ⟨s1, e1, sl1, lc1⟩ : ∃ s1, reloadReader cap false s (midFile cap init g (wire p) k) = some (.err .io, s1) ∧
      s1.slots = anchor cap 0 (init ++ [g ++ [wire p]]) ∧ s1.loc = s.loc := by
    unfold reloadReader
    rcases m.reload_slots v.slots false k (Nat.lt_succ_self _) with ⟨r, _, h1, _⟩ | ⟨r, s', e, h1, _, _, hr, _, hl⟩
    · omega
    · have hn : ¬ ((g ≠ [] ∧ g.length + 1 < cap) ∨ 20 + 8 * cap + (wire p).length ≤ k) := by omega
      rw [if_neg hn] at hr
      subst hr
      exact ⟨s', e, h1, hl hn⟩
  have e2 : reloadReader cap false s1 w1.data = some (.ok 0, s1) := by
    rw [hd1, ← midFile_all m.lt (Nat.le_refl (20 + 8 * cap + (wire p).length)), reloadReader,
      m.reload_seen sl1 false (midTable_all m.lt (by omega)) (by omega), if_pos (.inr (Nat.le_refl _))]
  -- the packet that begins the next
  obtain ⟨init2, g2, w'', a2⟩ := ahead (S := S) (ops := ops ++ [Op.insert p]) (by omega) hw1 ho1 hqo.1 (by rw [hlog]; exact hs)
  have m2 := a2.midway hc hqo.1 hqo.2
  have hg2 : g2 = [] := by
    refine a2.nil_iff.mpr ?_
    rw [hlog, List.length_append, List.length_singleton, Nat.add_mod, Nat.mod_eq_of_lt (show 1 < cap by omega), hlast, Nat.mod_self]
  subst hg2
  have hinit : init2 ++ opt [] = init ++ [g ++ [wire p]] := groups_unique (by omega) a2.groups a.groups' (by rw [a2.flat, a.flat', hlog])
  have hinit' : init2 = init ++ [g ++ [wire p]] := by simpa [opt] using hinit
  have hd2 := a2.after (S := S) (by omega) (ops := ops ++ [Op.insert p]) (by rw [hlog2]; exact fun x hx => (hok x hx).1) (by rw [hlog2]; exact hs) hw2
  obtain ⟨s2, e3, sl2, lc2⟩ : ∃ s2, reloadReader cap false s1 (midFile cap init2 [] (wire q) k') = some (.err .io, s2) ∧
      s2.slots = anchor cap 0 (init2 ++ [[] ++ [wire q]]) ∧ s2.loc = s1.loc := by
    unfold reloadReader
    rcases m2.reload_slots (by rw [hinit]; exact sl1) false k' (Nat.lt_succ_self _) with ⟨r, _, h1, _⟩ | ⟨r, s', e, h1, _, _, hr, _, hl⟩
    · omega
    · have hn : ¬ ((([] : List Bytes) ≠ [] ∧ ([] : List Bytes).length + 1 < cap) ∨ 20 + 8 * cap + (wire q).length ≤ k') := by simp; omega
      rw [if_neg hn] at hr
      subst hr
      exact ⟨s', e, h1, hl hn⟩
  have e4 : reloadReader cap false s2 w2.data = some (.ok 0, s2) := by
    rw [hd2, ← midFile_all m2.lt (Nat.le_refl (20 + 8 * cap + (wire q).length)), reloadReader,
      m2.reload_seen sl2 false (midTable_all m2.lt (by omega)) (by omega), if_pos (.inr (Nat.le_refl _))]
  rw [← a.file] at e1
  rw [← a2.file] at e3
  have fol1 : Following cap false (ops ++ [.insert p]) s1 := .inserted (.opened h) hw (.poll .start (Nat.zero_le k) e1 (by simp)) hw1 e2
  refine ⟨s1, s2, e1, e2, e3, e4, ?_, .inserted fol1 hw1 (.poll .start (Nat.zero_le k') e3 (by simp)) hw2 e4⟩
  have hloc : s2.loc.next = init.length := by
    rw [lc2, lc1, v.loc]
    simp only [opt, if_neg hg, List.getLast?_concat, Option.getD_some]
    rw [if_pos m.lt]
    simp
  have hin : s2.slots.map (·.inner) = (init2 ++ [[] ++ [wire q]]).map (table cap) := by rw [sl2, anchor_inner]
  have hget := getElem?_map_inner hin s2.loc.next
  have hat : (init2 ++ [[] ++ [wire q]])[s2.loc.next]? = some (g ++ [wire p]) := by
    rw [hloc, hinit', List.append_assoc, List.getElem?_append_right (Nat.le_refl _)]
    simp
  rw [hat] at hget
  have hlen : (log ops).length = init.length * cap + g.length := by
    have := congrArg List.length a.flat
    rw [List.length_map, List.flatten_append, List.length_append, length_flatten_full m.full] at this
    rw [← this, opt, if_neg hg]
    simp
  unfold Storage.count
  cases hx : s2.slots[s2.loc.next]? with
  | none => rw [hx] at hget; simp at hget
  | some b =>
    rw [hx] at hget
    simp only [Option.map_some, Option.some.injEq] at hget
    simp only
    rw [hget, table_freeIndex m.group, if_neg (by simp; omega)]
    simp only
    rw [sl2, anchor_length, hinit', hlen]
    simp only [List.length_append, List.length_singleton]
    rw [Nat.add_mul, Nat.add_mul]
    omega

/-- A reader of 499 packets, and two more to come. -/
theorem sample_live (chk : Bool) : ∃ w w1 w2 s, Watching SLOT_CAPACITY chk most s ∧ runOps SLOT_CAPACITY chk most emptyWriter = some w ∧
    runOps SLOT_CAPACITY chk (most ++ [.insert samplePacket]) emptyWriter = some w1 ∧
    runOps SLOT_CAPACITY chk (most ++ [.insert samplePacket] ++ [.insert samplePacket]) emptyWriter = some w2 ∧
    (∀ x ∈ lots ++ [samplePacket] ++ [samplePacket], Storable sampleSpec x ∧ (wire x).length < 2 ^ 32) ∧
    Small SLOT_CAPACITY (lots ++ [samplePacket] ++ [samplePacket]) := by
  have hok : ∀ x ∈ lots ++ [samplePacket] ++ [samplePacket], Storable sampleSpec x ∧ (wire x).length < 2 ^ 32 := by
    intro x hx
    have : x = samplePacket := by
      rcases List.mem_append.mp hx with hx | hx
      · rcases List.mem_append.mp hx with hx | hx
        · exact lots_mem hx
        · exact List.mem_singleton.mp hx
      · exact List.mem_singleton.mp hx
    rw [this]
    exact ⟨sample_storable, by rw [wire_sample_length]; decide⟩
  have hs : Small SLOT_CAPACITY (lots ++ [samplePacket] ++ [samplePacket]) := by
    unfold Small
    have hsum := lots_wire
    simp only [List.map_append, List.map_cons, List.map_nil, wire_sample_length, List.sum_append,
      List.sum_cons, List.sum_nil, List.length_append, lots_length, List.length_cons, List.length_nil, SLOT_CAPACITY]
    omega
  have h0 : log most = lots := log_inserts _
  have h1 : log (most ++ [Op.insert samplePacket]) = lots ++ [samplePacket] := by rw [log_append, h0]; rfl
  have h2 : log (most ++ [Op.insert samplePacket] ++ [Op.insert samplePacket]) = lots ++ [samplePacket] ++ [samplePacket] := by rw [log_append, h1]; rfl
  obtain ⟨data, s, hr⟩ := Reached.exists (S := sampleSpec) (cap := SLOT_CAPACITY) (by decide) chk most
    (by rw [h0]; intro p hp; exact (hok p (by simp [hp])).1) (by rw [h0]; exact hs.left.left)
  obtain ⟨w, e, _⟩ := hr.run
  obtain ⟨w1, _, hw1, _⟩ := C30_reopen (S := sampleSpec) (cap := SLOT_CAPACITY) (by decide) chk (most ++ [Op.insert samplePacket])
    (by rw [h1]; intro p hp; exact (hok p (List.mem_append_left _ hp)).1) (by rw [h1]; exact hs.left)
  obtain ⟨w2, _, hw2, _⟩ := C30_reopen (S := sampleSpec) (cap := SLOT_CAPACITY) (by decide) chk (most ++ [Op.insert samplePacket] ++ [Op.insert samplePacket])
    (by rw [h2]; intro p hp; exact (hok p hp).1) (by rw [h2]; exact hs)
  exact ⟨w, w1, w2, s, .opened hr, e, hw1, hw2, hok, hs⟩

/-- **C88 is false** without overflow checks: 501 packets in the file, nothing being written, the reader just reloaded, and `count` is 1000. -/
theorem C88_not : ¬ C88_full (PEnum.ops []) sampleSpec SLOT_CAPACITY false := by
  intro h
  obtain ⟨w, w1, w2, s, hwa, hw, hw1, hw2, hok, hs⟩ := sample_live false
  have h0 : log most = lots := log_inserts _
  have h2 : log (most ++ [Op.insert samplePacket] ++ [Op.insert samplePacket]) = lots ++ [samplePacket] ++ [samplePacket] := by rw [log_append, log_append, h0]; rfl
  obtain ⟨s1, s2, _, _, _, _, hcount, hfol⟩ := C88_overcounts (S := sampleSpec) (by decide) hwa hw hw1 hw2 (by
      rw [h0]; exact fun x hx => ⟨(hok x hx).1.ok, (hok x hx).2⟩) (by rw [h0]; exact hs) (by rw [h0, lots_length]; decide)
    (k := 4020) (k' := 4020) (by decide) (by rw [wire_sample_length]; decide) (by decide) (by rw [wire_sample_length]; decide)
  have := (h _ s2 w2 hfol hw2 (by rw [h2]; exact hok) (by rw [h2]; exact hs)).count
  rw [h2, hcount, h0] at this
  simp only [List.length_append, List.length_singleton, lots_length, SLOT_CAPACITY] at this
  omega

/-- The theorems apply: the reader of 499 packets counts 1000 and still has all 501 packets. -/
example : ∃ (w2 : Writer) (s2 : Storage), Following SLOT_CAPACITY false (most ++ [.insert samplePacket] ++ [.insert samplePacket]) s2 ∧
    runOps SLOT_CAPACITY false (most ++ [.insert samplePacket] ++ [.insert samplePacket]) emptyWriter = some w2 ∧
    reloadReader SLOT_CAPACITY false s2 w2.data = some (.ok 0, s2) ∧ s2.count SLOT_CAPACITY = 1000 ∧
    s2.nth SLOT_CAPACITY false w2.data 500 = .ok (some samplePacket) ∧
    s2.nth (O := blockEnum sampleTypes) (Q := PEnum.ops []) SLOT_CAPACITY false w2.data 501 = .ok none := by
  obtain ⟨w, w1, w2, s, hwa, hw, hw1, hw2, hok, hs⟩ := sample_live false
  have h0 : log most = lots := log_inserts _
  have h2 : log (most ++ [Op.insert samplePacket] ++ [Op.insert samplePacket]) = lots ++ [samplePacket] ++ [samplePacket] := by rw [log_append, log_append, h0]; rfl
  obtain ⟨s1, s2, _, _, _, e4, hcount, hfol⟩ := C88_overcounts (S := sampleSpec) (by decide) hwa hw hw1 hw2 (by
      rw [h0]; exact fun x hx => ⟨(hok x hx).1.ok, (hok x hx).2⟩) (by rw [h0]; exact hs) (by rw [h0, lots_length]; decide)
    (k := 4020) (k' := 4020) (by decide) (by rw [wire_sample_length]; decide) (by decide) (by rw [wire_sample_length]; decide)
  obtain ⟨hn, _, _⟩ := C88_partial (S := sampleSpec) (by decide) hfol hw2 (by rw [h2]; exact hok) (by rw [h2]; exact hs)
  refine ⟨w2, s2, hfol, hw2, e4, by rw [hcount, h0, lots_length]; rfl, ?_, ?_⟩
  · rw [hn, h2, List.getElem?_append_right (by simp [lots_length])]
    simp [lots_length]
  · rw [hn, h2, List.getElem?_eq_none (by simp [lots_length])]

/-- `C88_checked` and `C88_settles` apply: with overflow checks, a reader of 499 packets is reloaded when 100 bytes of the next insert are there, and after the insert. -/
example : ∃ (w1 : Writer) (s2 : Storage), Following SLOT_CAPACITY true (most ++ [.insert samplePacket]) s2 ∧
    Shows SLOT_CAPACITY true s2 w1.data (lots ++ [samplePacket]) := by
  obtain ⟨w, w1, w2, s, hwa, hw, hw1, hw2, hok, hs⟩ := sample_live true
  have h0 : log most = lots := log_inserts _
  have h1 : log (most ++ [Op.insert samplePacket]) = lots ++ [samplePacket] := by rw [log_append, h0]; rfl
  have hok1 : ∀ x ∈ lots ++ [samplePacket], Storable sampleSpec x ∧ (wire x).length < 2 ^ 32 := fun x hx => hok x (List.mem_append_left _ hx)
  obtain ⟨r, s', e, hr⟩ := C60_reload_partial (S := sampleSpec) (by decide) hwa hw (by rw [h0]; exact fun x hx => (hok1 x (by simp [hx])).1.ok) samplePacket_ok
    (by rw [h0]; exact hs.left) (by rw [wire_sample_length]; decide) 100
  have hr' : r ≠ .panic := by
    rcases hr with ⟨_, _, h3⟩ | ⟨_, h3, _⟩
    · rw [h3, h0, lots_length, if_neg (by decide)]
      split <;> simp
    · exact absurd h3 (by decide)
  obtain ⟨n, s2, e2, _, hf⟩ := C88_settles (S := sampleSpec) (by decide) (.opened hwa) hw hw1 (by rw [h1]; exact fun x hx => ⟨(hok1 x hx).1.ok, (hok1 x hx).2⟩)
    (by rw [h1]; exact hs.left) (.poll .start (Nat.zero_le 100) e hr')
  refine ⟨w1, s2, hf, ?_⟩
  have := C88_checked (S := sampleSpec) (by decide) _ _ _ hf hw1 (by rw [h1]; exact hok1) (by rw [h1]; exact hs.left)
  rwa [h1] at this

end Brec.Props
