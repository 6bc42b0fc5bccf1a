import Verif.Props.Storage
/-!
# Iterating over a storage: C32
-/

namespace Brec.Props

open Rd

variable {O : BlockOps} {Q : PayloadOps} {S : BlockSpec O}

/-- The file and the reader that a history leads to. -/
structure Reached (cap : Nat) (chk : Bool) (ops : List (Op O Q)) (data : Bytes) (s : Storage) : Prop where
  run : ∃ w, runOps cap chk ops emptyWriter = some w ∧ w.data = data
  read : openReader chk data = some (.ok s)

theorem Reached.view {cap : Nat} (hc : 0 < cap) {chk : Bool} {ops : List (Op O Q)} {data : Bytes} {s : Storage} (h : Reached cap chk ops data s)
    (hok : ∀ p ∈ log ops, p.Ok S) (hs : Small cap (log ops)) :
    ∃ gs, View cap gs s ∧ data = fileOf cap gs ∧ gs.flatten = (log ops).map wire ∧ data.length < 2 ^ 63 := by
  obtain ⟨w, e, hd⟩ := h.run
  obtain ⟨w', gs, e', i, f⟩ := runOps_inv (S := S) hc chk ops (ps := []) (empty_inv cap) rfl hok hs
  rw [e] at e'
  injection e' with e'
  subst e'
  rw [List.nil_append] at f
  have hl := small_file hc i.groups f hs
  obtain ⟨s', e2, v⟩ := open_reader hc i.groups hl chk
  have hd' : data = fileOf cap gs := by rw [← hd, i.data]
  have := h.read
  rw [hd', e2] at this
  injection this with this
  injection this with this
  subst this
  exact ⟨gs, v, hd', f, by rw [hd']; exact hl⟩

/-- Every history of storable packets leads somewhere (C30). -/
theorem Reached.exists {cap : Nat} (hc : 0 < cap) (chk : Bool) (ops : List (Op O Q)) (hok : ∀ p ∈ log ops, Storable S p) (hs : Small cap (log ops)) :
    ∃ data s, Reached cap chk ops data s := by
  obtain ⟨w, s, e1, e2, _⟩ := C30_reopen (S := S) hc chk ops hok hs
  exact ⟨w.data, s, ⟨w, e1, rfl⟩, e2⟩

/-! ## Ranges and filters -/

/-- **C32, `filtered()`.** Exactly the accepted packets, in order. -/
theorem C32_filtered {cap : Nat} (hc : 0 < cap) {chk : Bool} {ops : List (Op O Q)} {data : Bytes} {s : Storage} (h : Reached cap chk ops data s)
    (hok : ∀ p ∈ log ops, p.Ok S) (hs : Small cap (log ops)) (rules : Rules O.BR (Packet O Q)) :
    Yields (fun it r => ∃ fuel, Iter.nextFiltered rules data fuel it = some r) (Iter.new s) (((log ops).filter (accepted S rules)).map .ok) := by
  obtain ⟨gs, v, hd, f, hl⟩ := h.view hc hok hs
  refine Before.yields_filtered (cap := cap) hl rules (log ops) ?_ hok
  rw [hd]
  exact view_before v f

theorem range_yields {cap : Nat} {chk : Bool} {s : Storage} {data : Bytes} {ps : List (Packet O Q)}
    (hn : ∀ i, s.nth cap chk data i = .ok ps[i]?) : ∀ (len start : Nat),
    Yields (fun r x => Range.next cap chk s data r = x) ⟨start, len⟩ (((ps.drop start).take len).map .ok)
  | 0, start => by
    rw [List.take_zero]
    exact Yields.done (s' := ⟨start, 0⟩) rfl
  | len + 1, start => by
    cases e : ps[start]? with
    | none =>
      rw [List.drop_eq_nil_of_le (List.getElem?_eq_none_iff.mp e), List.take_nil]
      refine Yields.done (s' := ⟨start + 1, len⟩) ?_
      unfold Range.next
      rw [if_neg (by simp)]
      dsimp only
      rw [hn, e]
      rfl
    | some p =>
      obtain ⟨hlt, hp⟩ := List.getElem?_eq_some_iff.mp e
      rw [List.drop_eq_getElem_cons hlt, List.take_succ_cons, hp, List.map_cons]
      refine Yields.step (s' := ⟨start + 1, len⟩) ?_ (range_yields hn len (start + 1))
      unfold Range.next
      rw [if_neg (by simp)]
      dsimp only
      rw [hn, e]
      rfl

/-- **C32, `range(from, len)`.** -/
theorem C32_range {cap : Nat} (hc : 0 < cap) {chk : Bool} {ops : List (Op O Q)} {data : Bytes} {s : Storage} (h : Reached cap chk ops data s)
    (hok : ∀ p ∈ log ops, Storable S p) (hs : Small cap (log ops)) (start len : Nat) :
    Yields (fun r x => Range.next cap chk s data r = x) ⟨start, len⟩ ((((log ops).drop start).take len).map .ok) := by
  obtain ⟨gs, v, hd, f, _⟩ := h.view hc (fun p hp => (hok p hp).ok) hs
  refine range_yields (fun i => ?_) len start
  rw [hd]
  exact view_log hc chk v f hok i

theorem nthFiltered_log {cap : Nat} (hc : 0 < cap) {gs : List (List Bytes)} {s : Storage} (v : View cap gs s) {ps : List (Packet O Q)}
    (hp : gs.flatten = ps.map wire) (hok : ∀ p ∈ ps, p.Ok S) (rules : Rules O.BR (Packet O Q)) (n : Nat) :
    (ps[n]? = none ∧ s.nthFiltered cap rules (fileOf cap gs) n = .ok none) ∨
    (∃ p k, ps[n]? = some p ∧ s.nthFiltered cap rules (fileOf cap gs) n = .ok (some (if accepted S rules p then .accepted k p else .denied k))) := by
  unfold Storage.nthFiltered
  cases hn : ps[n]? with
  | none =>
    left
    rw [offsetOf_none hc v.groups v.inner (by rw [hp, List.getElem?_map, hn]; rfl)]
    exact ⟨rfl, rfl⟩
  | some p =>
    right
    obtain ⟨a, t, e, hf, _⟩ := offsetOf_some hc v.groups v.inner (n := n) (x := wire p) (by rw [hp, List.getElem?_map, hn]; rfl)
    obtain ⟨k, hk⟩ := filtered_wire (hok p (List.mem_of_getElem? hn)) rules t
    refine ⟨p, k, rfl, ?_⟩
    rw [e]
    simp only
    rw [hf, List.drop_left, hk]
    by_cases ha : accepted S rules p = true
    · rw [if_pos ha]
    · rw [if_neg ha]

theorem rangeFiltered_yields {cap : Nat} {s : Storage} {data : Bytes} {ps : List (Packet O Q)} {rules : Rules O.BR (Packet O Q)}
    (hn : ∀ n, (ps[n]? = none ∧ s.nthFiltered cap rules data n = .ok none) ∨
      (∃ p k, ps[n]? = some p ∧ s.nthFiltered cap rules data n = .ok (some (if accepted S rules p then .accepted k p else .denied k)))) :
    ∀ (m start len : Nat), ps.length - start ≤ m →
    Yields (fun r x => ∃ fuel, Range.nextFiltered cap rules s data fuel r = some x) ⟨start, len⟩
      ((((ps.drop start).filter (accepted S rules)).take len).map .ok)
  | _, start, 0, _ => by
    rw [List.take_zero]
    exact Yields.done ⟨1, rfl⟩
  | m, start, len + 1, hm => by
    rcases hn start with ⟨e, hr⟩ | ⟨p, k, e, hr⟩
    · rw [List.drop_eq_nil_of_le (List.getElem?_eq_none_iff.mp e)]
      refine Yields.done (s' := ⟨start + 1, len + 1⟩) ⟨1, ?_⟩
      rw [Range.nextFiltered.eq_def]
      simp only
      rw [if_neg (by simp), hr]
    · obtain ⟨hlt, hp⟩ := List.getElem?_eq_some_iff.mp e
      rw [List.drop_eq_getElem_cons hlt, hp]
      cases m with
      | zero => omega
      | succ m =>
        by_cases ha : accepted S rules p = true
        · rw [List.filter_cons_of_pos ha, List.take_succ_cons, List.map_cons]
          refine Yields.step (s' := ⟨start + 1, len⟩) ⟨1, ?_⟩ (rangeFiltered_yields hn m (start + 1) len (by omega))
          rw [Range.nextFiltered.eq_def]
          simp only
          rw [if_neg (by simp), hr, if_pos ha]
          rfl
        · rw [List.filter_cons_of_neg ha]
          have ih := rangeFiltered_yields hn m (start + 1) (len + 1) (by omega)
          have step : ∀ {x}, (∃ fuel, Range.nextFiltered cap rules s data fuel ⟨start + 1, len + 1⟩ = some x) →
              ∃ fuel, Range.nextFiltered cap rules s data fuel ⟨start, len + 1⟩ = some x := by
            rintro x ⟨fuel, hx⟩
            refine ⟨fuel + 1, ?_⟩
            rw [Range.nextFiltered.eq_def]
            simp only
            rw [if_neg (by simp), hr, if_neg ha]
            exact hx
          revert ih
          generalize (((ps.drop (start + 1)).filter (accepted S rules)).take (len + 1)).map Out.ok = l
          intro ih
          cases ih with
          | done h => exact Yields.done (step h)
          | step h t => exact Yields.step (step h) t

/-- **C32, `range_filtered(from, len)`.** The first `len` accepted packets at or after `from`. -/
theorem C32_range_filtered {cap : Nat} (hc : 0 < cap) {chk : Bool} {ops : List (Op O Q)} {data : Bytes} {s : Storage} (h : Reached cap chk ops data s)
    (hok : ∀ p ∈ log ops, p.Ok S) (hs : Small cap (log ops)) (rules : Rules O.BR (Packet O Q)) (start len : Nat) :
    Yields (fun r x => ∃ fuel, Range.nextFiltered cap rules s data fuel r = some x) ⟨start, len⟩
      (((((log ops).drop start).filter (accepted S rules)).take len).map .ok) := by
  obtain ⟨gs, v, hd, f, _⟩ := h.view hc hok hs
  refine rangeFiltered_yields (fun n => ?_) _ start len (Nat.le_refl _)
  rw [hd]
  exact nthFiltered_log hc v f hok rules n

/-! ## `seek` -/

/-- **C32, `seek`, full statement** (false): `seek(n)` iterates over the log from packet `n`. -/
def C32_seek_full (S : BlockSpec O) (cap : Nat) : Prop :=
  ∀ (chk : Bool) (ops : List (Op O Q)) (data : Bytes) (s : Storage), Reached cap chk ops data s → (∀ p ∈ log ops, Storable S p) →
    Small cap (log ops) → ∀ n, n < (log ops).length →
    ∃ it, (Iter.new s).seek cap data n = .ok it ∧
      Yields (fun it r => Iter.next (O := O) (Q := Q) data it = r) it (((log ops).drop n).map .ok)

/-- Whole slots before the target are passed. -/
theorem fromLoop_skip (cap packet : Nat) : ∀ (a : List (List Bytes)) (b : List Slot) (idx target off : Nat), (∀ g ∈ a, Group cap g) →
    a.flatten.length ≤ target →
    Spans.fromLoop cap packet idx target ⟨off, a.map (table cap) ++ b⟩ =
      Spans.fromLoop cap packet (idx + a.length) (target - a.flatten.length) ⟨off + (fileOf cap a).length, b⟩
  | [], b, idx, target, off, _, _ => by simp
  | g :: a, b, idx, target, off, hg, ht => by
    have hgg := hg g (by simp)
    rw [List.flatten_cons, List.length_append] at ht
    rw [List.map_cons, List.cons_append, Spans.fromLoop, table_count hgg, if_pos (by omega), table_size, table_width hgg,
      fromLoop_skip cap packet a b _ _ _ (fun x hx => hg x (by simp [hx])) (by omega)]
    rw [fileOf_cons, List.length_append, region_length hgg.le, List.flatten_cons, List.length_append, List.length_cons]
    congr 1
    · omega
    · omega
    · congr 1; omega

/-- `seek` into slot `g`, behind the slots `a` and before the slots `b`: the rest of `g` is in the buffer, the offset is that of `g`. -/
theorem seek_eq {cap : Nat} {a b : List (List Bytes)} {g : List Bytes} {s : Storage} (hs : s.slots.map (·.inner) = (a ++ g :: b).map (table cap))
    (ha : ∀ x ∈ a, Group cap x) (hg : Group cap g) {data : Bytes} (hd : data = fileOf cap (a ++ g :: b)) (hl : data.length < 2 ^ 63)
    {k : Nat} (hk : k < g.length) :
    (Iter.new s).seek cap data (a.flatten.length + k) = .ok ⟨⟨(fileOf cap a).length, b.map (table cap)⟩, (g.drop k).flatten⟩ := by
  have hen : (table cap g).enc.length = 20 + 8 * cap := by
    have := region_length (cap := cap) hg.le
    rw [region, List.length_append] at this
    omega
  have hsplit : g.flatten = (g.take k).flatten ++ (g.drop k).flatten := by
    conv => lhs; rw [← List.take_append_drop k g]
    exact List.flatten_append
  have hsl := congrArg List.length hsplit
  rw [List.length_append] at hsl
  have hdata : data = fileOf cap a ++ ((table cap g).enc ++ ((g.take k).flatten ++ ((g.drop k).flatten ++ fileOf cap b))) := by
    rw [hd, fileOf_append, fileOf_cons, region, hsplit]
    simp only [List.append_assoc]
  have hdl := congrArg List.length hdata
  simp only [List.length_append] at hdl
  unfold Iter.seek Iter.new
  rw [hs, List.map_append, List.map_cons, fromLoop_skip cap _ a _ 0 _ 0 ha (by omega)]
  rw [show a.flatten.length + k - a.flatten.length = k by omega, Spans.fromLoop, table_count hg, if_neg (by omega), table_isUsed hg,
    if_neg (by simp [hk]), table_offsetOf hg hk, table_size, table_width hg]
  simp only
  unfold fetch
  simp only
  rw [show 0 + (fileOf cap a).length + (20 + 8 * cap) + g.flatten.length - (0 + (fileOf cap a).length + (20 + 8 * cap) + (g.take k).flatten.length) =
    (g.drop k).flatten.length by omega]
  have hdrop : data.drop (0 + (fileOf cap a).length + (20 + 8 * cap) + (g.take k).flatten.length) = (g.drop k).flatten ++ fileOf cap b := by
    rw [hdata, ← List.drop_drop, ← List.drop_drop, Nat.zero_add, List.drop_left, ← hen, List.drop_left, List.drop_left]
  rw [hdrop, allocZeroed, if_pos (by omega)]
  simp only
  rw [if_pos (by simp), List.take_left, Out.map_ok, Nat.zero_add]

/-- The packets in the buffer come first. -/
theorem buffer_yields {data : Bytes} {spans : Spans} {l : List (Out (Packet O Q))}
    (h : Yields (fun it r => Iter.next (O := O) (Q := Q) data it = r) ⟨spans, []⟩ l) : ∀ (cur : List (Packet O Q)), (∀ p ∈ cur, Storable S p) →
    Yields (fun it r => Iter.next (O := O) (Q := Q) data it = r) ⟨spans, (cur.map wire).flatten⟩ (cur.map .ok ++ l)
  | [], _ => h
  | p :: cur, hok => by
    have hp := hok p (by simp)
    refine Yields.step (s' := ⟨spans, (cur.map wire).flatten⟩) ?_ (buffer_yields h cur fun x hx => hok x (by simp [hx]))
    unfold Iter.next Iter.refill
    rw [if_pos (by
      have := wire_ne hp.ok
      simp [this])]
    simp only [List.map_cons, List.flatten_cons]
    rw [read_wire hp]

theorem seek_view {cap : Nat} {gs : List (List Bytes)} {data : Bytes} {s : Storage} (v : View cap gs s) (hd : data = fileOf cap gs) {ps : List (Packet O Q)}
    (f : gs.flatten = ps.map wire) (hl : data.length < 2 ^ 63) (hok : ∀ p ∈ ps, Storable S p) {n : Nat} (hn : n < ps.length) (hlast : n / cap = (ps.length - 1) / cap) :
    ∃ it, (Iter.new s).seek cap data n = .ok it ∧
      Yields (fun it r => Iter.next (O := O) (Q := Q) data it = r) it ((ps.drop n).map .ok) := by
  have hfl := congrArg List.length f
  rw [List.length_map] at hfl
  rcases List.eq_nil_or_concat gs with rfl | ⟨init, g, rfl⟩
  · simp at hfl; omega
  rw [List.concat_eq_append] at *
  obtain ⟨hfull, hgr, _⟩ := v.groups.split
  have hil := length_flatten_full hfull
  have hfl' : init.flatten.length + g.length = ps.length := by rw [← hfl]; simp
  have hle := hgr.le
  have hpos := List.length_pos_iff.mpr (v.groups.ne g (by simp))
  have hlq : (ps.length - 1) / cap = init.length := by
    apply Nat.div_eq_of_lt_le
    · omega
    · rw [Nat.add_mul]; omega
  have hn1 : init.length * cap ≤ n := by
    rw [hlq] at hlast
    have := Nat.div_mul_le_self n cap
    rw [hlast] at this
    omega
  have hk : n - init.flatten.length < g.length := by omega
  have hseek := seek_eq (a := init) (b := []) (g := g) (s := s) v.inner (fun x hx => (hfull x hx).1) hgr hd hl hk
  rw [show init.flatten.length + (n - init.flatten.length) = n by omega] at hseek
  refine ⟨_, hseek, ?_⟩
  have hg2 : g.drop (n - init.flatten.length) = (ps.drop n).map wire := by
    rw [List.map_drop, ← f]
    simp only [List.flatten_append, List.flatten_cons, List.flatten_nil, List.append_nil]
    rw [List.drop_append, List.drop_eq_nil_of_le (as := init.flatten) (by omega), List.nil_append]
  rw [hg2]
  have := buffer_yields (S := S) (data := data) (spans := ⟨(fileOf cap init).length, []⟩) (l := [])
    (Yields.done (s' := ⟨⟨(fileOf cap init).length, []⟩, []⟩) rfl) (ps.drop n) (fun p hp => hok p (List.mem_of_mem_drop hp))
  rw [List.append_nil] at this
  exact this

/-- **C32, `seek`, what holds.** If the packet sought lies in the last slot, `seek(n)` iterates over the log from `n`. Missing: packets in
earlier slots, where the iteration goes wrong behind the end of the slot (`C32_seek_wrong`). -/
theorem C32_seek_partial {cap : Nat} (hc : 0 < cap) {chk : Bool} {ops : List (Op O Q)} {data : Bytes} {s : Storage} (h : Reached cap chk ops data s)
    (hok : ∀ p ∈ log ops, Storable S p) (hs : Small cap (log ops)) {n : Nat} (hn : n < (log ops).length)
    (hlast : n / cap = ((log ops).length - 1) / cap) :
    ∃ it, (Iter.new s).seek cap data n = .ok it ∧
      Yields (fun it r => Iter.next (O := O) (Q := Q) data it = r) it (((log ops).drop n).map .ok) := by
  obtain ⟨gs, v, hd, f, hl⟩ := h.view hc (fun p hp => (hok p hp).ok) hs
  exact seek_view v hd f hl hok hn hlast

theorem seek_beyond {cap : Nat} {gs : List (List Bytes)} {s : Storage} (v : View cap gs s) (data : Bytes) {ps : List (Packet O Q)}
    (f : gs.flatten = ps.map wire) {n : Nat} (hn : ps.length ≤ n) :
    ∃ e, (Iter.new s).seek cap data n = .err e ∧ (ps = [] → e = .emptySource) ∧ (ps ≠ [] → ∃ m, e = .outOfBounds m n) := by
  have hfl := congrArg List.length f
  rw [List.length_map] at hfl
  have key := fromLoop_skip cap n gs [] 0 n 0 v.groups.group (by omega)
  rw [List.append_nil, Spans.fromLoop] at key
  unfold Iter.seek Iter.new
  rw [v.inner, key]
  by_cases h0 : gs = []
  · subst h0
    have : ps = [] := by simpa using f.symm
    exact ⟨.emptySource, rfl, fun _ => rfl, fun h => absurd this h⟩
  · have hlen := List.length_pos_iff.mpr h0
    rw [if_neg (by omega)]
    refine ⟨_, rfl, fun h => ?_, fun _ => ⟨_, rfl⟩⟩
    obtain ⟨g, l, rfl⟩ := List.exists_cons_of_ne_nil h0
    rw [h] at f
    rw [List.flatten_cons, List.map_nil] at f
    exact absurd (List.append_eq_nil_iff.mp f).1 (v.groups.ne g (by simp))

/-- **C32, `seek` past the end.** -/
theorem C32_seek_out_of_bounds {cap : Nat} (hc : 0 < cap) {chk : Bool} {ops : List (Op O Q)} {data : Bytes} {s : Storage} (h : Reached cap chk ops data s)
    (hok : ∀ p ∈ log ops, p.Ok S) (hs : Small cap (log ops)) {n : Nat} (hn : (log ops).length ≤ n) :
    ∃ e, (Iter.new s).seek cap data n = .err e ∧ (log ops = [] → e = .emptySource) ∧
      (log ops ≠ [] → ∃ m, e = .outOfBounds m n) := by
  obtain ⟨gs, v, hd, f, hl⟩ := h.view hc hok hs
  exact seek_beyond v data f hn

theorem flatten_take_lengths {α : Type} : ∀ (a b : List (List α)), a.map List.length = (b.take a.length).map List.length →
    b.flatten.take a.flatten.length = (b.take a.length).flatten := by
  intro a b h
  have h1 : a.flatten.length = (b.take a.length).flatten.length := by
    rw [List.length_flatten, List.length_flatten, h]
  rw [h1]
  have h2 : b.flatten = (b.take a.length).flatten ++ (b.drop a.length).flatten := by
    rw [← List.flatten_append, List.take_append_drop]
  rw [h2, List.take_left]

theorem seek_wrong_view {cap : Nat} (hc : 0 < cap) {gs : List (List Bytes)} {data : Bytes} {s : Storage} (v : View cap gs s) (hd : data = fileOf cap gs) {ps : List (Packet O Q)}
    (f : gs.flatten = ps.map wire) (hl : data.length < 2 ^ 63) (hok : ∀ p ∈ ps, Storable S p) {fst snd : List (Packet O Q)} (hlog : ps = fst ++ snd)
    (hf : fst.length = cap) (hsn : 0 < snd.length) (hsc : snd.length ≤ cap)
    (hlen : snd.map (fun p => (wire p).length) = (fst.take snd.length).map (fun p => (wire p).length)) {n : Nat} (hn : n < cap) :
    ∃ it, (Iter.new s).seek cap data n = .ok it ∧
      Yields (fun it r => Iter.next (O := O) (Q := Q) data it = r) it ((fst.drop n ++ fst.take snd.length).map .ok) := by
  have hgs : gs = [fst.map wire, snd.map wire] := by
    refine groups_unique hc v.groups ⟨?_, ?_, ?_⟩ (by rw [f, hlog]; simp)
    · intro g hg
      rcases List.mem_cons.mp hg with rfl | hg
      · refine ⟨?_, by simp; omega⟩
        intro w hw
        obtain ⟨p, hp, rfl⟩ := List.mem_map.mp hw
        exact wire_ne (hok p (by rw [hlog]; simp [hp])).ok
      · rw [List.mem_singleton.mp hg]
        refine ⟨?_, by simp; omega⟩
        intro w hw
        obtain ⟨p, hp, rfl⟩ := List.mem_map.mp hw
        exact wire_ne (hok p (by rw [hlog]; simp [hp])).ok
    · intro g hg
      rcases List.mem_cons.mp hg with rfl | hg
      · simp only [ne_eq, List.map_eq_nil_iff]; intro h0; simp [h0] at hf; omega
      · rw [List.mem_singleton.mp hg]
        simp only [ne_eq, List.map_eq_nil_iff]; intro h0; simp [h0] at hsn
    · intro g hg
      simp only [List.dropLast_cons_cons, List.dropLast_singleton, List.mem_singleton] at hg
      rw [hg, List.length_map, hf]
  subst hgs
  have h1 := v.groups.group (fst.map wire) (by simp)
  have h2 := v.groups.group (snd.map wire) (by simp)
  have hseek := seek_eq (a := []) (b := [snd.map wire]) (g := fst.map wire) (s := s) v.inner (by simp) h1 hd hl (k := n) (by simp; omega)
  rw [show ([] : List (List Bytes)).flatten.length + n = n by simp] at hseek
  refine ⟨_, hseek, ?_⟩
  rw [← List.map_drop, List.map_append]
  refine buffer_yields (S := S) ?_ _ (fun p hp => hok p (by rw [hlog]; simp [List.mem_of_mem_drop hp]))
  -- the second slot is looked for behind the table of the first
  have hen : (table cap (fst.map wire)).enc.length = 20 + 8 * cap := by
    have := region_length (cap := cap) h1.le
    rw [region, List.length_append] at this
    omega
  have hdata : data = (table cap (fst.map wire)).enc ++ ((fst.map wire).flatten ++ region cap (snd.map wire)) := by
    rw [hd, fileOf_cons, fileOf_cons, fileOf_nil, region]
    simp
  have hwl : (snd.map wire).flatten.length = (((fst.map wire).take snd.length)).flatten.length := by
    rw [List.length_flatten, List.length_flatten, ← List.map_take, List.map_map, List.map_map]
    exact congrArg List.sum hlen
  have htake : ((fst.map wire).flatten).take (snd.map wire).flatten.length = ((fst.take snd.length).map wire).flatten := by
    rw [flatten_take_lengths _ _ (by
      rw [List.length_map, ← List.map_take, List.map_map, List.map_map]
      exact hlen), List.length_map, List.map_take]
  have hle : (snd.map wire).flatten.length ≤ (fst.map wire).flatten.length := by
    have := congrArg List.length htake
    rw [List.length_take, List.map_take, ← hwl] at this
    omega
  have hpos : 0 < (snd.map wire).flatten.length := by
    obtain ⟨p, l, rfl⟩ := List.exists_cons_of_ne_nil (List.length_pos_iff.mp hsn)
    have := wire_pos (hok p (by rw [hlog]; simp)).ok
    simp only [List.map_cons, List.flatten_cons, List.length_append]
    omega
  have hdl := congrArg List.length hdata
  simp only [List.length_append] at hdl
  have hrefill : Iter.refill data ⟨⟨(fileOf cap []).length, [snd.map wire].map (table cap)⟩, []⟩ =
      some (.ok ⟨⟨(snd.map wire).flatten.length + (20 + 8 * cap), []⟩, ((fst.take snd.length).map wire).flatten⟩) := by
    unfold Iter.refill
    rw [if_neg (by simp)]
    simp only [List.map_cons, List.map_nil, Spans.next, fileOf_nil, List.length_nil, Nat.zero_add]
    rw [table_width h2, if_neg (by omega), table_size]
    simp only
    unfold fetch
    simp only
    rw [show (snd.map wire).flatten.length + (20 + 8 * cap) - (20 + 8 * cap) = (snd.map wire).flatten.length by omega,
      allocZeroed, if_pos (by omega)]
    simp only
    have hdrop : data.drop (20 + 8 * cap) = (fst.map wire).flatten ++ region cap (snd.map wire) := by
      rw [hdata, ← hen, List.drop_left]
    rw [hdrop, if_pos (by rw [List.length_append]; omega), List.take_append_of_le_length hle, htake, Out.map_ok]
  have hb := buffer_yields (S := S) (data := data) (spans := ⟨(snd.map wire).flatten.length + (20 + 8 * cap), []⟩) (l := [])
    (Yields.done (s' := ⟨⟨(snd.map wire).flatten.length + (20 + 8 * cap), []⟩, []⟩) rfl) (fst.take snd.length)
    (fun p hp => hok p (by rw [hlog]; simp [List.mem_of_mem_take hp]))
  rw [List.append_nil] at hb
  generalize (fst.take snd.length).map Out.ok = l at hb
  have same : ∀ {x : Option (Out (Packet O Q)) × Iter},
      Iter.next data ⟨⟨(snd.map wire).flatten.length + (20 + 8 * cap), []⟩, ((fst.take snd.length).map wire).flatten⟩ = x →
      Iter.next data ⟨⟨(fileOf cap []).length, [snd.map wire].map (table cap)⟩, []⟩ = x := by
    intro x hx
    rw [← hx]
    unfold Iter.next
    rw [hrefill]
    have hne : ((fst.take snd.length).map wire).flatten ≠ [] := by
      rw [List.map_take, ← List.length_pos_iff, ← hwl]; exact hpos
    unfold Iter.refill
    rw [if_pos (by simpa using hne)]
  cases hb with
  | done h => exact Yields.done (same h)
  | step h t => exact Yields.step (same h) t

/-- **C32, `seek`, what goes wrong.** Two slots, the packets in the second as long as the first packets of the first: after the rest of the
first slot, `seek` returns packets of the *first* slot again, in place of those of the second. -/
theorem C32_seek_wrong {cap : Nat} (hc : 0 < cap) {chk : Bool} {ops : List (Op O Q)} {data : Bytes} {s : Storage} (h : Reached cap chk ops data s)
    (hok : ∀ p ∈ log ops, Storable S p) (hs : Small cap (log ops)) {fst snd : List (Packet O Q)} (hlog : log ops = fst ++ snd)
    (hf : fst.length = cap) (hsn : 0 < snd.length) (hsc : snd.length ≤ cap)
    (hlen : snd.map (fun p => (wire p).length) = (fst.take snd.length).map (fun p => (wire p).length)) {n : Nat} (hn : n < cap) :
    ∃ it, (Iter.new s).seek cap data n = .ok it ∧
      Yields (fun it r => Iter.next (O := O) (Q := Q) data it = r) it ((fst.drop n ++ fst.take snd.length).map .ok) := by
  obtain ⟨gs, v, hd, f, hl⟩ := h.view hc (fun p hp => (hok p hp).ok) hs
  exact seek_wrong_view hc v hd f hl hok hlog hf hsn hsc hlen hn

theorem Yields.det {σ α : Type} {f : σ → Option α × σ} : ∀ {s : σ} {a b : List α}, Yields (fun s r => f s = r) s a → Yields (fun s r => f s = r) s b → a = b
  | _, _, _, .done h, .done _ => rfl
  | _, _, _, .done h, .step h' _ => by rw [h] at h'; cases h'
  | _, _, _, .step h _, .done h' => by rw [h] at h'; cases h'
  | _, _, _, .step h t, .step h' t' => by
    rw [h] at h'
    cases h'
    rw [Yields.det t t']

/-- A packet of the length of `samplePacket` with another text. -/
def otherPacket : Packet (blockEnum sampleTypes) (PEnum.ops []) := { samplePacket with payload := some (.inr (.inl ⟨ascii "Brec", by decide⟩)) }

theorem otherPacket_ok : otherPacket.Ok sampleSpec where
  blocks := samplePacket_ok.blocks
  payload := by
    intro v hv
    have : v = .inr (.inl ⟨ascii "Brec", by decide⟩) := (Option.some.inj hv).symm
    subst this
    exact ⟨_, _, PEnum.ops_good (T := stringTy) (v := ⟨ascii "Brec", by decide⟩) (vs := [])
      (.there _ _ _ (by decide +kernel) (.here _)) (stringTy_good _ (by decide)) rfl⟩
  size := by
    intro h hh
    have : otherPacket.header = .ok (PacketHeader.ofSizes 78 (some 18)) := by rfl
    rw [this] at hh
    injection hh with hh
    subst hh
    decide

theorem otherPacket_storable : Storable sampleSpec otherPacket := ⟨otherPacket_ok, by decide⟩

/-- 500 packets and one more. -/
def twoSlots : List (Op (blockEnum sampleTypes) (PEnum.ops [])) :=
  (List.replicate 500 samplePacket ++ [otherPacket]).map Op.insert

theorem twoSlots_log : log twoSlots = List.replicate 500 samplePacket ++ [otherPacket] := log_inserts _

theorem twoSlots_storable : ∀ p ∈ log twoSlots, Storable sampleSpec p := by
  rw [twoSlots_log]
  intro p hp
  rcases List.mem_append.mp hp with hp | hp
  · rw [(List.mem_replicate.mp hp).2]; exact sample_storable
  · rw [List.mem_singleton.mp hp]; exact otherPacket_storable

theorem wire_sample_length : (wire samplePacket).length = 125 := by decide +kernel

theorem wire_other_length : (wire otherPacket).length = 125 := by decide +kernel

theorem twoSlots_small : Small SLOT_CAPACITY (log twoSlots) := by
  rw [twoSlots_log]
  unfold Small
  rw [List.map_append, List.map_replicate, List.sum_append_nat, List.sum_replicate_nat, wire_sample_length, List.length_append, List.length_replicate,
    List.map_cons, List.map_nil, wire_other_length]
  decide

/-- **C32 is false for `seek`**, with the crate's capacity: 500 packets of one text and one of another; `seek(499)` yields the packet 499
and then the packet 0. -/
theorem C32_seek_not : ¬ C32_seek_full (Q := PEnum.ops []) sampleSpec SLOT_CAPACITY := by
  intro hfull
  obtain ⟨data, s, hr⟩ := Reached.exists (S := sampleSpec) (cap := SLOT_CAPACITY) (by decide) true twoSlots twoSlots_storable twoSlots_small
  obtain ⟨it, e, y⟩ := hfull true twoSlots data s hr twoSlots_storable twoSlots_small 499 (by
    rw [twoSlots_log, List.length_append, List.length_replicate]; decide)
  obtain ⟨it', e', y'⟩ := C32_seek_wrong (S := sampleSpec) (cap := SLOT_CAPACITY) (by decide) hr twoSlots_storable twoSlots_small twoSlots_log
    (List.length_replicate) (by decide) (by decide) (by
      rw [List.take_replicate, List.map_replicate, List.map_cons, wire_other_length, wire_sample_length]; rfl) (n := 499) (by decide)
  rw [e] at e'
  injection e' with e'
  subst e'
  have := Yields.det y y'
  rw [twoSlots_log, List.map_inj_right (by intro a b h; injection h), List.drop_append, List.drop_replicate] at this
  have h2 := (List.append_cancel_left (this))
  rw [List.take_replicate, List.length_replicate] at h2
  have h3 : otherPacket = samplePacket := by
    have := congrArg List.head? h2
    simpa using this
  exact absurd (by rw [h3] : wire otherPacket = wire samplePacket) (by decide +kernel)

/-- The hypotheses of C32 are met. -/
example : ∃ data s, Reached SLOT_CAPACITY true twoSlots data s ∧
    Yields (fun r x => Range.next SLOT_CAPACITY true s data r = x) ⟨499, 2⟩ [.ok samplePacket, .ok otherPacket] := by
  obtain ⟨data, s, hr⟩ := Reached.exists (S := sampleSpec) (cap := SLOT_CAPACITY) (by decide) true twoSlots twoSlots_storable twoSlots_small
  refine ⟨data, s, hr, ?_⟩
  have := C32_range (S := sampleSpec) (by decide) hr twoSlots_storable twoSlots_small 499 2
  rw [twoSlots_log, List.drop_append, List.drop_replicate, List.length_replicate] at this
  exact this

end Brec.Props
