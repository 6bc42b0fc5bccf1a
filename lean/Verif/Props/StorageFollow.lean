import Verif.StorageFollow
import Verif.Props.PacketLimits
/-!
# Reading a storage while a packet is being inserted: C60
-/

namespace Brec.Props

open Rd

variable {O : BlockOps} {Q : PayloadOps} {S : BlockSpec O}

/-- **C60, full statement** (false): at any moment of an insert, `reload` succeeds and the reader shows the packets before it, or those and the new
one. `crashed cap w p k` is the file when `k` bytes have been written. -/
def C60_full (Q : PayloadOps) (S : BlockSpec O) (cap : Nat) (chk : Bool) : Prop :=
  ∀ (ops : List (Op O Q)) (s : Storage) (w : Writer) (p : Packet O Q) (k : Nat), Watching cap chk ops s → runOps cap chk ops emptyWriter = some w →
    (∀ q ∈ log ops, Storable S q) → Storable S p → Small cap (log ops ++ [p]) →
    ∃ n s', reloadReader cap chk s (crashed cap w p k) = some (.ok n, s') ∧
      (Shows cap chk s' (crashed cap w p k) (log ops) ∨ Shows cap chk s' (crashed cap w p k) (log ops ++ [p]))

/-- What the reader went through while `p` was being inserted: `reload` was called any number of times, at times when at most `k` bytes had
been written, with whatever results. -/
inductive Polled (cap : Nat) (chk : Bool) (w : Writer) (p : Packet O Q) (s : Storage) : Nat → Storage → Prop
  | start : Polled cap chk w p s 0 s
  | poll {k k' : Nat} {s1 s2 : Storage} {r : Out Nat} : Polled cap chk w p s k s1 → k ≤ k' →
      reloadReader cap chk s1 (crashed cap w p k') = some (r, s2) → Polled cap chk w p s k' s2

/-! ## Lemmas -/

/-- What a reader shows of a file that holds its packets. -/
theorem seen_shows {cap : Nat} (hc : 0 < cap) (chk : Bool) {gs : List (List Bytes)} {s : Storage} (v : Seen cap gs s) {data : Bytes} (b : Bodies cap gs data)
    {ps : List (Packet O Q)} (hf : gs.flatten = ps.map wire) (hok : ∀ p ∈ ps, Storable S p) (hl : data.length < 2 ^ 63) : Shows cap chk s data ps := by
  have hin : s.slots.map (·.inner) = gs.map (table cap) := by rw [v.slots, anchor_inner]
  refine ⟨by rw [v.count, hf, List.length_map], fun n => ?_, ?_⟩
  · unfold Storage.nth
    cases hn : ps[n]? with
    | none => rw [offsetOf_none hc v.groups hin (by rw [hf, List.getElem?_map, hn]; rfl)]
    | some p =>
      obtain ⟨off, t, e, hle, hd⟩ := b.offset hc v.groups hin (n := n) (x := wire p) (by rw [hf, List.getElem?_map, hn]; rfl)
      rw [e]
      simp only
      rw [tryRead_wire (hok p (List.mem_of_getElem? hn)) hle hd]
  · refine Before.yields (cap := cap) hl ps ⟨[], data, gs, [], ps, rfl, b, by simp [Iter.new, hin], by simp [Iter.new], hf, rfl, fun g hg => ⟨v.groups.group g hg, v.groups.ne g hg⟩⟩ hok

theorem Ahead.midway {cap : Nat} (hc : 2 ≤ cap) {w w1 : Writer} {ps : List (Packet O Q)} {p : Packet O Q} {init : List (List Bytes)} {g : List Bytes}
    (a : Ahead cap w ps p init g w1) (hp : p.Ok S) (h32 : (wire p).length < 2 ^ 32) : Midway cap init g (wire p) :=
  ⟨hc, a.ready.full, a.ready.lt, a.groups, a.groups', a.small, by have := wire_pos hp; omega, h32⟩

theorem Ahead.file {cap : Nat} {w w1 : Writer} {ps : List (Packet O Q)} {p : Packet O Q} {init : List (List Bytes)} {g : List Bytes}
    (a : Ahead cap w ps p init g w1) (k : Nat) : crashed cap w p k = midFile cap init g (wire p) k := by
  rw [a.insert k, a.ready.midFile]

theorem Ahead.nil_iff {cap : Nat} {w w1 : Writer} {ps : List (Packet O Q)} {p : Packet O Q} {init : List (List Bytes)} {g : List Bytes}
    (a : Ahead cap w ps p init g w1) : g = [] ↔ ps.length % cap = 0 := by
  rw [← a.idx]
  exact List.length_eq_zero_iff.symm

/-- The view of the file that a watching reader has. -/
theorem watch_view {cap : Nat} (hc : 0 < cap) {chk : Bool} {ops : List (Op O Q)} {s : Storage} (h : Watching cap chk ops s) {w w1 : Writer} {p : Packet O Q}
    (hok : ∀ q ∈ log ops, q.Ok S) (hs : Small cap (log ops)) {init : List (List Bytes)} {g : List Bytes} (a : Ahead cap w (log ops) p init g w1) :
    View cap (init ++ opt g) s := by
  obtain ⟨gs, v, f⟩ := h.view (S := S) hc hok hs
  have : gs = init ++ opt g := groups_unique hc v.groups a.groups (by rw [f, a.flat])
  rwa [this] at v

/-- What a reader knows after reloading during the insert. -/
theorem Polled.known {cap : Nat} {chk : Bool} {w w1 : Writer} {ps : List (Packet O Q)} {p : Packet O Q} {init : List (List Bytes)} {g : List Bytes}
    (a : Ahead cap w ps p init g w1) (m : Midway cap init g (wire p)) {s : Storage} (v : View cap (init ++ opt g) s) {k : Nat} {s' : Storage}
    (h : Polled cap chk w p s k s') :
    View cap (init ++ opt g) s' ∨ (Seen cap (init ++ [g ++ [wire p]]) s' ∧ midTable cap g (wire p) k = (table cap (g ++ [wire p])).enc) := by
  induction h with
  | start => exact .inl v
  | @poll k k' s1 s2 r hp hk e ih =>
    rw [a.file, reloadReader] at e
    rcases ih with v1 | ⟨v1, ht⟩
    · rcases m.reload_view v1 chk k' (Nat.lt_succ_self _) with ⟨r1, e1, _, _⟩ | ⟨r1, s3, e1, h1, h2, _, _⟩
      · rw [e1] at e
        injection e with e
        injection e with _ e
        subst e
        exact .inl v1
      · rw [e1] at e
        injection e with e
        injection e with _ e
        subst e
        exact .inr ⟨h1, h2⟩
    · have hm := midTable_mono hk ht
      rw [m.reload_seen v1.slots chk hm (by omega)] at e
      injection e with e
      injection e with _ e
      subst e
      exact .inr ⟨v1, hm⟩

/-! ## What holds -/

/-- **C60, a reader that does not reload.** At every moment of an insert it shows exactly the packets it was opened with: `count`, `nth` and `iter` do
not notice the insert. -/
theorem C60_undisturbed {cap : Nat} (hc : 2 ≤ cap) {chk : Bool} {ops : List (Op O Q)} {s : Storage} (h : Watching cap chk ops s) {w : Writer}
    (hw : runOps cap chk ops emptyWriter = some w) (hok : ∀ q ∈ log ops, Storable S q) {p : Packet O Q} (hp : p.Ok S) (hs : Small cap (log ops ++ [p])) (k : Nat) :
    Shows cap chk s (crashed cap w p k) (log ops) := by
  obtain ⟨init, g, w1, a⟩ := ahead (by omega) hw (fun q hq => (hok q hq).ok) hp hs
  have v := watch_view (by omega) h (fun q hq => (hok q hq).ok) hs.left a
  rw [a.file]
  have hlt := a.ready.lt
  have hsm := a.small
  refine seen_shows (by omega) chk v.seen (midFile_bodies (fun x hx => (a.ready.full x hx).1) hlt _ _) a.flat hok ?_
  have := midFile_length_le (init := init) (x := wire p) (k := k) hlt
  omega

/-- **C60, `nth` of the packets before.** However often the reader reloads during the insert, and whatever `reload` returns, the packets inserted before
are still there, at every later moment. -/
theorem C60_nth_partial {cap : Nat} (hc : 2 ≤ cap) {chk : Bool} {ops : List (Op O Q)} {s : Storage} (h : Watching cap chk ops s) {w : Writer}
    (hw : runOps cap chk ops emptyWriter = some w) (hok : ∀ q ∈ log ops, Storable S q) {p : Packet O Q} (hp : p.Ok S) (hs : Small cap (log ops ++ [p]))
    (h32 : (wire p).length < 2 ^ 32) {k : Nat} {s' : Storage} (hq : Polled cap chk w p s k s') (k' : Nat) {i : Nat} (hi : i < (log ops).length) :
    s'.nth cap chk (crashed cap w p k') i = .ok (log ops)[i]? := by
  obtain ⟨init, g, w1, a⟩ := ahead (by omega) hw (fun q hq => (hok q hq).ok) hp hs
  have v := watch_view (by omega) h (fun q hq => (hok q hq).ok) hs.left a
  have m := a.midway hc hp h32
  have hold : s.nth cap chk (crashed cap w p k') i = .ok (log ops)[i]? := (C60_undisturbed (S := S) hc h hw hok hp hs k').nth i
  have hlen : (init ++ opt g).flatten.length = (log ops).length := by rw [a.flat, List.length_map]
  have hin : s.slots.map (·.inner) = (init ++ opt g).map (table cap) := v.inner
  rw [← hold]
  unfold Storage.nth
  rcases hq.known a m v with v' | ⟨v', _⟩
  · have : s'.offsetOf cap i = s.offsetOf cap i := by
      unfold Storage.offsetOf
      rw [v.slots, v'.slots]
    rw [this]
  · rw [m.offset_same hin (by rw [v'.slots, anchor_inner]) (by omega)]

/-- **C60, after the insert.** However often the reader has reloaded while the packet was being inserted, and whatever the results: one more `reload` after
the insert succeeds, and then the reader shows all packets. It returns 1, or 0 if the reader had seen the new table before. -/
theorem C60_settles {cap : Nat} (hc : 2 ≤ cap) {chk : Bool} {ops : List (Op O Q)} {s : Storage} (h : Watching cap chk ops s) {w w' : Writer}
    (hw : runOps cap chk ops emptyWriter = some w) {p : Packet O Q} (hw' : runOps cap chk (ops ++ [.insert p]) emptyWriter = some w')
    (hok : ∀ q ∈ log ops, Storable S q) (hp : Storable S p) (hs : Small cap (log ops ++ [p])) (h32 : (wire p).length < 2 ^ 32)
    {k : Nat} {s1 : Storage} (hq : Polled cap chk w p s k s1) :
    ∃ n s2, reloadReader cap chk s1 w'.data = some (.ok n, s2) ∧ Shows cap chk s2 w'.data (log ops ++ [p]) ∧
      (n = 1 ∧ s1.count cap = (log ops).length ∨ n = 0 ∧ s1.count cap = (log ops).length + 1) := by
  obtain ⟨init, g, w1, a⟩ := ahead (by omega) hw (fun q hq => (hok q hq).ok) hp.ok hs
  have v := watch_view (by omega) h (fun q hq => (hok q hq).ok) hs.left a
  have m := a.midway hc hp.ok h32
  have hlt := a.ready.lt
  have hlog : log (ops ++ [Op.insert p]) = log ops ++ [p] := by rw [log_append]; rfl
  have hokp : ∀ q ∈ log ops ++ [p], Storable S q := by
    intro q hq
    rcases List.mem_append.mp hq with hq | hq
    · exact hok q hq
    · rw [List.mem_singleton.mp hq]; exact hp
  have hd : w'.data = midFile cap init g (wire p) (20 + 8 * cap + (wire p).length) := by
    obtain ⟨w2, gs, e, inv, f⟩ := runOps_inv (S := S) (by omega) chk (ops ++ [.insert p]) (ps := []) (empty_inv cap) rfl (by
      rw [hlog]; exact fun q hq => (hokp q hq).ok) (by rw [hlog]; exact hs)
    rw [hw'] at e
    injection e with e
    subst e
    rw [inv.data, midFile_all hlt (Nat.le_refl _)]
    congr 1
    refine groups_unique (by omega) inv.groups a.groups' ?_
    rw [f, a.flat', List.nil_append, hlog]
  have hall := midFile_all (init := init) (x := wire p) hlt (Nat.le_refl _)
  have hcount : (init ++ opt g).flatten.length = (log ops).length := by rw [a.flat, List.length_map]
  have hcount' : (init ++ [g ++ [wire p]]).flatten.length = (log ops).length + 1 := by rw [a.flat', List.length_map]; simp
  have shows_ : ∀ {s2 : Storage}, Seen cap (init ++ [g ++ [wire p]]) s2 →
      Shows cap chk s2 (midFile cap init g (wire p) (20 + 8 * cap + (wire p).length)) (log ops ++ [p]) := by
    intro s2 hs2
    have hb := Bodies.file a.groups'.group []
    rw [List.append_nil] at hb
    rw [hall]
    exact seen_shows (by omega) chk hs2 hb a.flat' hokp a.small
  rw [hd]
  unfold reloadReader
  rcases hq.known a m v with v1 | ⟨v1, ht⟩
  · rcases m.reload_view v1 chk (20 + 8 * cap + (wire p).length) (Nat.lt_succ_self _) with ⟨r1, e1, hlt', _⟩ | ⟨r1, s3, e1, h1, h2, _, hr⟩
    · omega
    · rw [if_pos (.inr (Nat.le_refl _))] at hr
      subst hr
      exact ⟨1, s3, e1, shows_ h1, .inl ⟨rfl, by rw [v1.seen.count, hcount]⟩⟩
  · have hm : midTable cap g (wire p) (20 + 8 * cap + (wire p).length) = (table cap (g ++ [wire p])).enc := midTable_all hlt (by omega)
    have e := m.reload_seen v1.slots chk hm (fuel := (midFile cap init g (wire p) (20 + 8 * cap + (wire p).length)).length + 1) (by omega)
    rw [if_pos (.inr (Nat.le_refl _))] at e
    exact ⟨0, s1, e, shows_ v1, .inr ⟨rfl, by rw [v1.count, hcount']⟩⟩

/-! ## What goes wrong -/

/-- Calling `next` again and again gives these results and leads to this state. -/
inductive Steps {σ α : Type} (next : σ → Option α × σ) : σ → List α → σ → Prop
  | nil (s : σ) : Steps next s [] s
  | cons {s s1 s2 : σ} {a : α} {l : List α} : next s = (some a, s1) → Steps next s1 l s2 → Steps next s (a :: l) s2

theorem steps_append {σ α : Type} {next : σ → Option α × σ} {s s1 s2 : σ} {l l' : List α} (h : Steps next s l s1) (h' : Steps next s1 l' s2) :
    Steps next s (l ++ l') s2 := by
  induction h with
  | nil => exact h'
  | cons e _ ih => exact .cons e (ih h')

theorem steps_buffer (data : Bytes) (sp : Spans) : ∀ {cur : List (Packet O Q)}, (∀ p ∈ cur, Storable S p) →
    Steps (Iter.next data) ⟨sp, (cur.map wire).flatten⟩ (cur.map Out.ok) ⟨sp, []⟩
  | [], _ => by simpa using Steps.nil _
  | p :: cur, hok => by
    refine .cons (s1 := ⟨sp, (cur.map wire).flatten⟩) ?_ (steps_buffer data sp fun x hx => hok x (by simp [hx]))
    have hne : ((p :: cur).map wire).flatten ≠ [] := by
      simp only [List.map_cons, List.flatten_cons, ne_eq, List.append_eq_nil_iff, not_and]
      intro h0
      exact absurd h0 (wire_ne (hok p (by simp)).ok)
    unfold Iter.next Iter.refill
    rw [if_pos hne]
    simp only [List.map_cons, List.flatten_cons]
    rw [read_wire (hok p (by simp))]

/-- The first slot of the rest goes into the buffer. -/
theorem next_slot {cap : Nat} {data pre t d : Bytes} {g : List Bytes} (hd : data = pre ++ (t ++ (g.flatten ++ d))) (ht : t.length = 20 + 8 * cap) (hg : Group cap g)
    (hne : 0 < g.flatten.length) (hl : data.length < 2 ^ 63) (more : List Slot) :
    Iter.next (O := O) (Q := Q) data ⟨⟨pre.length, table cap g :: more⟩, []⟩ = Iter.next data ⟨⟨(pre ++ (t ++ g.flatten)).length, more⟩, g.flatten⟩ := by
  have hdl := congrArg List.length hd
  simp only [List.length_append] at hdl
  have e : Iter.refill data ⟨⟨pre.length, table cap g :: more⟩, []⟩ = some (.ok ⟨⟨(pre ++ (t ++ g.flatten)).length, more⟩, g.flatten⟩) := by
    unfold Iter.refill
    rw [if_neg (by simp)]
    simp only [Spans.next]
    rw [table_width hg, if_neg (by omega), table_size]
    simp only
    unfold fetch
    simp only
    rw [show pre.length + g.flatten.length + (20 + 8 * cap) - (pre.length + (20 + 8 * cap)) = g.flatten.length by omega, allocZeroed, if_pos (by omega)]
    simp only
    have hdrop : data.drop (pre.length + (20 + 8 * cap)) = g.flatten ++ d := by
      rw [hd, ← List.drop_drop, List.drop_left, ← ht, List.drop_left]
    rw [hdrop, if_pos (by simp), List.take_left, Out.map_ok, List.length_append, List.length_append, ht]
    congr 4
    omega
  have e2 : Iter.refill data ⟨⟨(pre ++ (t ++ g.flatten)).length, more⟩, g.flatten⟩ = some (.ok ⟨⟨(pre ++ (t ++ g.flatten)).length, more⟩, g.flatten⟩) := by
    unfold Iter.refill
    rw [if_pos (by intro h; dsimp only at h; rw [h] at hne; simp at hne)]
  unfold Iter.next
  rw [e, e2]

theorem steps_slots {cap : Nat} {data : Bytes} (hl : data.length < 2 ^ 63) (more : List Slot) : ∀ {gs : List (List Bytes)} {pre d : Bytes} {ps : List (Packet O Q)},
    data = pre ++ (fileOf cap gs ++ d) → (∀ g ∈ gs, Group cap g ∧ g ≠ []) → gs.flatten = ps.map wire → (∀ p ∈ ps, Storable S p) →
    Steps (Iter.next data) ⟨⟨pre.length, gs.map (table cap) ++ more⟩, []⟩ (ps.map Out.ok) ⟨⟨(pre ++ fileOf cap gs).length, more⟩, []⟩
  | [], pre, d, ps, hd, hg, hf, hok => by
    have : ps = [] := by simpa using hf.symm
    subst this
    rw [fileOf_nil, List.append_nil]
    exact Steps.nil _
  | g :: gs, pre, d, ps, hd, hg, hf, hok => by
    obtain ⟨hgg, hgne⟩ := hg g (by simp)
    rw [List.flatten_cons] at hf
    obtain ⟨r1, r2, rfl, h1, h2⟩ := List.map_eq_append_iff.mp hf.symm
    have hr := region_length (cap := cap) hgg.le
    have ht : (table cap g).enc.length = 20 + 8 * cap := by rw [region, List.length_append] at hr; omega
    have hd2 : data = pre ++ ((table cap g).enc ++ (g.flatten ++ (fileOf cap gs ++ d))) := by
      rw [hd, fileOf_cons, region]; simp only [List.append_assoc]
    have ih := steps_slots hl more (gs := gs) (pre := pre ++ ((table cap g).enc ++ g.flatten)) (d := d) (ps := r2) (by rw [hd2]; simp only [List.append_assoc])
      (fun x hx => hg x (by simp [hx])) h2.symm (fun p hp => hok p (by simp [hp]))
    have hfin : pre ++ ((table cap g).enc ++ g.flatten) ++ fileOf cap gs = pre ++ fileOf cap (g :: gs) := by
      rw [fileOf_cons, region]; simp only [List.append_assoc]
    rw [hfin] at ih
    cases r1 with
    | nil => exact absurd (by simpa using h1.symm) hgne
    | cons p r1 =>
      have hpos : 0 < g.flatten.length := by
        rw [← h1]
        have := wire_pos (hok p (by simp)).ok
        simp only [List.map_cons, List.flatten_cons, List.length_append]
        omega
      have hbuf := steps_buffer (S := S) data ⟨(pre ++ ((table cap g).enc ++ g.flatten)).length, gs.map (table cap) ++ more⟩ (cur := p :: r1)
        (fun q hq => hok q (List.mem_append_left _ hq))
      rw [h1] at hbuf
      rw [List.map_append]
      cases hbuf with
      | cons hn hrest =>
        rw [← next_slot hd2 ht hgg hpos hl] at hn
        refine .cons hn ?_
        exact steps_append hrest ih

/-- **C60, exactly what one `reload` during an insert does.** Either the reader stays as it was, or it knows the new table and counts the new
packet. When the packet goes into a slot in use, the first case lasts until all of the table, up to bytes of the CRC that happen to
agree, has been written: `reload` returns `Ok(0)` as long as the bytes of the new length written so far are zero, then it fails with
`DamagedSlot`. When it starts a slot, an incomplete table of which 16 bytes are there makes `reload` panic with overflow checks. In the second
case `reload` returns `Ok(1)` whether or not the packet is there, unless the packet starts or fills a slot: then, until the last byte is
there, `reload` panics with overflow checks and fails with an I/O error without. -/
theorem C60_reload_partial {cap : Nat} (hc : 2 ≤ cap) {chk : Bool} {ops : List (Op O Q)} {s : Storage} (h : Watching cap chk ops s) {w : Writer}
    (hw : runOps cap chk ops emptyWriter = some w) (hok : ∀ q ∈ log ops, q.Ok S) {p : Packet O Q} (hp : p.Ok S) (hs : Small cap (log ops ++ [p]))
    (h32 : (wire p).length < 2 ^ 32) (k : Nat) :
    ∃ r s', reloadReader cap chk s (crashed cap w p k) = some (r, s') ∧
      ((s' = s ∧ k < 20 + 8 * cap ∧
          r = (if (log ops).length % cap = 0 then (if k < 16 ∨ chk = false then .ok 0 else .panic)
            else if (wire p).length % 256 ^ (k - (16 + 8 * ((log ops).length % cap))) = 0 then .ok 0 else .err (.damagedSlot .crcDismatch))) ∨
       (s'.count cap = (log ops).length + 1 ∧ 16 + 8 * cap < k ∧
          r = (if ((log ops).length % cap ≠ 0 ∧ (log ops).length % cap + 1 < cap) ∨ 20 + 8 * cap + (wire p).length ≤ k then .ok 1
            else if chk then .panic else .err .io))) := by
  obtain ⟨init, g, w1, a⟩ := ahead (by omega) hw hok hp hs
  have v := watch_view (by omega) h hok hs.left a
  have m := a.midway hc hp h32
  have hcount' : (init ++ [g ++ [wire p]]).flatten.length = (log ops).length + 1 := by rw [a.flat', List.length_map]; simp
  have hg : (g = []) = ((log ops).length % cap = 0) := propext a.nil_iff
  rw [a.file]
  unfold reloadReader
  rcases m.reload_view v chk k (Nat.lt_succ_self _) with ⟨r1, e1, h1, h2⟩ | ⟨r1, s3, e1, h1, _, h3, h4⟩
  · refine ⟨r1, s, e1, .inl ⟨rfl, h1, ?_⟩⟩
    rw [h2, a.idx]
    simp only [hg]
  · refine ⟨r1, s3, e1, .inr ⟨by rw [h1.count, hcount'], h3, ?_⟩⟩
    rw [h4, a.idx]
    simp only [ne_eq, hg]

/-- **C60, what goes wrong when the table is written and the packet is not.** `reload` reports one new packet and counts it. `nth` of it fails with
`NotEnoughData`. Iterating gives the packets of the full slots before and then panics: it does not get to the packets of the slot in
use, although they are all there. -/
theorem C60_torn {cap : Nat} (hc : 2 ≤ cap) {chk : Bool} {ops : List (Op O Q)} {s : Storage} (h : Watching cap chk ops s) {w : Writer}
    (hw : runOps cap chk ops emptyWriter = some w) (hok : ∀ q ∈ log ops, Storable S q) {p : Packet O Q} (hp : Storable S p) (hs : Small cap (log ops ++ [p]))
    (h32 : (wire p).length < 2 ^ 32) (h0 : (log ops).length % cap ≠ 0) (h1 : (log ops).length % cap + 1 < cap) {k : Nat}
    (hk : 20 + 8 * cap ≤ k) (hk' : k < 20 + 8 * cap + (wire p).length) :
    ∃ s', reloadReader cap chk s (crashed cap w p k) = some (.ok 1, s') ∧ s'.count cap = (log ops).length + 1 ∧
      (∃ m, s'.nth (Q := Q) (O := O) cap chk (crashed cap w p k) (log ops).length = .err (.notEnoughData m)) ∧
      ∃ it, Steps (Iter.next (crashed cap w p k)) (Iter.new s') (((log ops).take ((log ops).length / cap * cap)).map Out.ok) it ∧
        (Iter.next (O := O) (Q := Q) (crashed cap w p k) it).1 = some .panic := by
  obtain ⟨init, g, w1, a⟩ := ahead (by omega) hw (fun q hq => (hok q hq).ok) hp.ok hs
  have v := watch_view (by omega) h (fun q hq => (hok q hq).ok) hs.left a
  have m := a.midway hc hp.ok h32
  have hlt := m.lt
  have hg : g ≠ [] := fun h => h0 (a.nil_iff.mp h)
  have hcount' : (init ++ [g ++ [wire p]]).flatten.length = (log ops).length + 1 := by rw [a.flat', List.length_map]; simp
  have hopt : opt g = [g] := by simp [opt, hg]
  have hfl := a.flat
  rw [hopt] at hfl
  have hpm := part_mod (by rw [← hopt]; exact a.groups) hlt hfl
  rw [a.file]
  unfold reloadReader
  rcases m.reload_view v chk k (Nat.lt_succ_self _) with ⟨r1, e1, h3, _⟩ | ⟨r1, s', e1, hse, ht, _, hr⟩
  · omega
  rw [if_pos (.inl ⟨hg, by rw [hpm.1] at h1; exact h1⟩)] at hr
  subst hr
  have hin : s'.slots.map (·.inner) = (init ++ [g ++ [wire p]]).map (table cap) := by rw [hse.slots, anchor_inner]
  have hen : (table cap (g ++ [wire p])).enc.length = 20 + 8 * cap := table_enc_length m.group.le
  have hfile : midFile cap init g (wire p) k = fileOf cap init ++ ((table cap (g ++ [wire p])).enc ++ (g.flatten ++ (wire p).take (k - (20 + 8 * cap)))) := by
    rw [midFile, ht]
  have hsm : (midFile cap init g (wire p) k).length < 2 ^ 63 := Nat.lt_of_le_of_lt (midFile_length_le hlt) m.small
  refine ⟨s', e1, by rw [hse.count, hcount'], ?_, ?_⟩
  · obtain ⟨b, _, eo, _, hb⟩ := offsetOf_some (by omega) m.groups' hin (n := (log ops).length) (x := wire p) (by rw [a.flat', List.getElem?_map]; simp)
    rw [hpm.2.1, hpm.1, List.take_left, List.getElem?_concat_length, Option.getD_some, List.take_left] at hb
    have hbl : b.length ≤ (midFile cap init g (wire p) k).length := by
      rw [hfile, hb]; simp only [List.length_append, hen]; omega
    have hrest : (⟨midFile cap init g (wire p) k, b.length, chk⟩ : Cur).rest = (wire p).take (k - (20 + 8 * cap)) := by
      unfold Cur.rest
      dsimp only
      rw [hfile, hb, ← hen, ← List.length_append, ← List.length_append]
      rw [show fileOf cap init ++ ((table cap (g ++ [wire p])).enc ++ (g.flatten ++ (wire p).take (k - (table cap (g ++ [wire p])).enc.length))) =
        (fileOf cap init ++ (table cap (g ++ [wire p])).enc ++ g.flatten) ++ (wire p).take (k - (table cap (g ++ [wire p])).enc.length) by
          simp only [List.append_assoc], List.drop_left]
    unfold Storage.nth
    rw [eo]
    simp only
    obtain ⟨hd, pb, sh⟩ := hp.ok.shape
    obtain ⟨c1, c2, c3, c4⟩ := C18_tryRead_partial hp.ok hp.blocks (serialize_wire hp.ok) sh.header (k := k - (20 + 8 * cap)) (by omega)
      (c := ⟨midFile cap init g (wire p) k, b.length, chk⟩) hbl hrest
    by_cases d1 : k - (20 + 8 * cap) < 29
    · exact ⟨_, by rw [c1 d1]⟩
    by_cases d2 : k - (20 + 8 * cap) < hd.size
    · exact ⟨_, by rw [c2 (by omega) d2]⟩
    by_cases d3 : k - (20 + 8 * cap) < 29 + hd.blocksLen
    · obtain ⟨n, _, _, e⟩ := c3 (by omega) (by omega) d3
      exact ⟨n, by rw [e]⟩
    cases hpl : p.payload with
    | none =>
      exfalso
      have hpart := sh.part
      rw [hpl] at hpart
      have hwl : (wire p).length = 29 + hd.size := by
        rw [wire_eq hp.ok.blocks sh]; simp only [List.length_append, PacketHeader.bytes_length, sh.size, HSIZE]
      have hpb : pb.length = 0 := by
        cases hpart; rfl
      have h5 := sh.size
      have h6 := sh.blocksLen
      omega
    | some y =>
      obtain ⟨ph, x, good⟩ := hp.ok.payload y hpl
      obtain ⟨f1, f2⟩ := c4 y ph x hpl good
      by_cases d4 : k - (20 + 8 * cap) < 29 + hd.blocksLen + ph.size
      · obtain ⟨n, _, _, e⟩ := f1 (by omega) (by omega) (by omega) d4
        exact ⟨n, by rw [e]⟩
      · exact ⟨_, by rw [f2 (by omega) (by omega) (by omega)]⟩
  · have htake : init.flatten = ((log ops).take ((log ops).length / cap * cap)).map wire := by
      rw [hpm.2.1, List.map_take, ← hfl, List.flatten_append, ← length_flatten_full m.full, List.take_left]
    have st := steps_slots (S := S) (cap := cap) hsm [table cap (g ++ [wire p])] (gs := init) (pre := []) (d := (table cap (g ++ [wire p])).enc ++ (g.flatten ++ (wire p).take (k - (20 + 8 * cap))))
      (by rw [hfile, List.nil_append]) (fun y hy => ⟨(m.full y hy).1, m.groups'.ne y (by simp [hy])⟩) htake (fun q hq => hok q (List.mem_of_mem_take hq))
    refine ⟨⟨⟨([] ++ fileOf cap init).length, [table cap (g ++ [wire p])]⟩, []⟩, ?_, ?_⟩
    · have : Iter.new s' = ⟨⟨([] : Bytes).length, init.map (table cap) ++ [table cap (g ++ [wire p])]⟩, []⟩ := by
        unfold Iter.new
        rw [hin]
        simp
      rw [this]
      exact st
    · unfold Iter.next Iter.refill
      rw [if_neg (by simp)]
      have hw0 : 0 < (g ++ [wire p]).flatten.length := by simp; have := m.pos; omega
      simp only [Spans.next]
      rw [table_width m.group, if_neg (by omega), table_size]
      simp only
      unfold fetch
      simp only [List.nil_append]
      rw [show (fileOf cap init).length + (g ++ [wire p]).flatten.length + (20 + 8 * cap) - ((fileOf cap init).length + (20 + 8 * cap)) = (g ++ [wire p]).flatten.length by omega]
      have hbound : (g ++ [wire p]).flatten.length < 2 ^ 63 := by
        have h5 := m.small
        rw [fileOf_append, fileOf_cons, fileOf_nil, List.append_nil, List.length_append, region_length m.group.le] at h5
        omega
      rw [allocZeroed, if_pos hbound]
      simp only
      rw [if_neg]
      · rfl
      · rw [List.length_drop, hfile]
        simp only [List.length_append, hen, List.length_take, List.flatten_append, List.flatten_cons, List.flatten_nil, List.append_nil]
        omega

/-- One packet in the file, a reader of it, and a writer about to insert another. -/
theorem sample_follow (chk : Bool) : ∃ w s, Watching SLOT_CAPACITY chk [Op.insert samplePacket] s ∧
    runOps SLOT_CAPACITY chk [Op.insert samplePacket] emptyWriter = some w ∧ (∀ q ∈ log [Op.insert samplePacket], Storable sampleSpec q) ∧
    Small SLOT_CAPACITY (log [Op.insert samplePacket] ++ [samplePacket]) := by
  have hok : ∀ q ∈ log [Op.insert samplePacket], Storable sampleSpec q := by
    intro q hq; rw [List.mem_singleton.mp hq]; exact sample_storable
  obtain ⟨data, s, hr⟩ := Reached.exists (S := sampleSpec) (cap := SLOT_CAPACITY) (by decide) chk [Op.insert samplePacket] hok sample_small2.left
  obtain ⟨w, e, _⟩ := hr.run
  exact ⟨w, s, .opened hr, e, hok, sample_small2⟩

/-- **C60 is false**, in debug and release builds: the table of the second packet is written, the packet is not; a reader that reloads now reports a new
packet, and iterating panics. -/
theorem C60_not (chk : Bool) : ¬ C60_full (PEnum.ops []) sampleSpec SLOT_CAPACITY chk := by
  intro h
  obtain ⟨w, s, hwa, hw, hok, hs⟩ := sample_follow chk
  obtain ⟨n, s', e, hsh⟩ := h _ s w samplePacket 4020 hwa hw hok sample_storable hs
  obtain ⟨s2, e2, hcnt, ⟨m, hn⟩, _⟩ := C60_torn (by decide) hwa hw hok sample_storable hs (by rw [wire_sample_length]; decide) (by decide) (by decide) (k := 4020)
    (by decide) (by rw [wire_sample_length]; decide)
  rw [e] at e2
  injection e2 with e2
  injection e2 with _ e2
  subst e2
  rcases hsh with hsh | hsh
  · have := hsh.count
    rw [hcnt] at this
    omega
  · have := hsh.nth (log [Op.insert samplePacket]).length
    rw [hn] at this
    cases this

/-- The theorems apply: a reader of one packet reloads when the table of the second is half written, when it is written, and after the insert. -/
example (chk : Bool) : ∃ (w w' : Writer) (s s1 s2 : Storage), Watching SLOT_CAPACITY chk [Op.insert samplePacket] s ∧
    Shows SLOT_CAPACITY chk s (crashed SLOT_CAPACITY w samplePacket 100) [samplePacket] ∧
    reloadReader SLOT_CAPACITY chk s (crashed SLOT_CAPACITY w samplePacket 100) = some (.err (.damagedSlot .crcDismatch), s) ∧
    reloadReader SLOT_CAPACITY chk s (crashed SLOT_CAPACITY w samplePacket 4100) = some (.ok 1, s1) ∧
    s1.nth SLOT_CAPACITY chk (crashed SLOT_CAPACITY w samplePacket 4110) 0 = .ok (some samplePacket) ∧
    reloadReader SLOT_CAPACITY chk s1 w'.data = some (.ok 0, s2) ∧ Shows SLOT_CAPACITY chk s2 w'.data [samplePacket, samplePacket] := by
  obtain ⟨w, s, hwa, hw, hok, hs⟩ := sample_follow chk
  have h32 : (wire samplePacket).length < 2 ^ 32 := by rw [wire_sample_length]; decide
  obtain ⟨w', _, hw', _⟩ := C30_reopen (S := sampleSpec) (cap := SLOT_CAPACITY) (by decide) chk ([Op.insert samplePacket] ++ [Op.insert samplePacket]) (by
    intro q hq
    simp only [log, List.cons_append, List.nil_append, List.mem_cons, List.not_mem_nil, or_false, or_self] at hq
    rw [hq]; exact sample_storable) (by rw [log_append]; exact hs)
  obtain ⟨s1, e1, hc1, _⟩ := C60_torn (by decide) hwa hw hok sample_storable hs h32 (by decide) (by decide) (k := 4100)
    (by decide) (by rw [wire_sample_length]; decide)
  obtain ⟨r, s', e, hr⟩ := C60_reload_partial (by decide) hwa hw (fun q hq => (hok q hq).ok) samplePacket_ok hs h32 100
  have hr : s' = s ∧ r = .err (.damagedSlot .crcDismatch) := by
    rcases hr with ⟨h1, _, h3⟩ | ⟨_, h2, _⟩
    · refine ⟨h1, ?_⟩
      rw [h3, wire_sample_length, if_neg (by decide), if_neg (by decide)]
    · exact absurd h2 (by decide)
  obtain ⟨rfl, rfl⟩ := hr
  have hpoll : Polled SLOT_CAPACITY chk w samplePacket s' 4100 s1 := .poll .start (by decide) e1
  obtain ⟨n, s2, e2, hsh, hn⟩ := C60_settles (by decide) hwa hw hw' hok sample_storable hs h32 hpoll
  rcases hn with ⟨_, hn⟩ | ⟨rfl, _⟩
  · rw [hc1] at hn; omega
  exact ⟨w, w', s', s1, s2, hwa, C60_undisturbed (by decide) hwa hw hok samplePacket_ok hs 100, e, e1,
    C60_nth_partial (by decide) hwa hw hok samplePacket_ok hs h32 hpoll 4110 (i := 0) (by decide), e2, hsh⟩

end Brec.Props
