import Verif.Props.Tail
import Verif.Props.StorageShrinkBack
/-!
# C117: following a storage whose file is at times not all there

The program of C98 shows what is appended to a storage. Between its rounds it may find only the beginning of the file (a copy under way, a network drive). It goes on whatever `reload` returns.
-/

namespace Brec.Props

open Brec Rd

variable {O : BlockOps} {Q : PayloadOps} {S : BlockSpec O}

/-! ## Specification -/

/-- A round of the program comes after a batch of the writer, with all of the file, or while only `k` bytes of the file are there. -/
inductive Round (O : BlockOps) (Q : PayloadOps) where
  | batch (b : List (Op O Q))
  | part (k : Nat)

/-- The program: in each round it calls `reload`, and reads on from where it was. When the file is not all there, it reads on whatever `reload` has returned (`r`), also if it has panicked.
For each round with all of the file, what `reload` has returned; for each round, what has been read. -/
inductive Through (cap : Nat) (chk : Bool) (rest : Storage → Bytes → Nat → List (Out (Packet O Q)) → Prop) :
    List (Op O Q) → Storage → List (Round O Q) → List (Option Nat × List (Out (Packet O Q))) → Prop
  | done {ops : List (Op O Q)} {s : Storage} : Through cap chk rest ops s [] []
  | batch {ops b : List (Op O Q)} {s s' : Storage} {w : Writer} {n : Nat} {l : List (Out (Packet O Q))} {rs : List (Round O Q)} {a : List (Option Nat × List (Out (Packet O Q)))} :
      runOps cap chk (ops ++ b) emptyWriter = some w → reloadReader cap chk s w.data = some (.ok n, s') → rest s' w.data (s.count cap) l →
      Through cap chk rest (ops ++ b) s' rs a → Through cap chk rest ops s (.batch b :: rs) ((some n, l) :: a)
  | part {ops : List (Op O Q)} {s s' : Storage} {w : Writer} {k : Nat} {r : Out Nat} {l : List (Out (Packet O Q))} {rs : List (Round O Q)}
      {a : List (Option Nat × List (Out (Packet O Q)))} :
      runOps cap chk ops emptyWriter = some w → reloadReader cap chk s (w.data.take k) = some (r, s') → rest s' (w.data.take k) (s.count cap) l →
      Through cap chk rest ops s' rs a → Through cap chk rest ops s (.part k :: rs) ((none, l) :: a)

/-- What the writer has done in these rounds. -/
def batchesOf : List (Round O Q) → List (List (Op O Q))
  | [] => []
  | .batch b :: rs => b :: batchesOf rs
  | .part _ :: rs => batchesOf rs

/-- After a batch, what is to be shown of its packets; nothing while the file is not all there. -/
def newsOf (news : List (Packet O Q) → List (Out (Packet O Q))) (rs : List (Round O Q)) : List (Option Nat × List (Out (Packet O Q))) := rs.map fun
  | .batch b => (some (log b).length, news (log b))
  | .part _ => (none, [])

/-- What the program is to show: after a batch its packets. -/
def roundNews (rs : List (Round O Q)) : List (Option Nat × List (Out (Packet O Q))) := newsOf (fun qs => qs.map .ok) rs

/-- **C117, full statement** (false for both ways of reading on, as C98 is): after every batch exactly its packets are shown, and `reload` returns their number; nothing is shown while the file
is not all there. -/
def C117_full (Q : PayloadOps) (S : BlockSpec O) (cap : Nat) (chk : Bool) (rest : Storage → Bytes → Nat → List (Out (Packet O Q)) → Prop) : Prop :=
  ∀ (ops : List (Op O Q)) (data : Bytes) (s : Storage) (rs : List (Round O Q)), Reached cap chk ops data s → (∀ p ∈ log (ops ++ (batchesOf rs).flatten), Storable S p) →
    Small cap (log (ops ++ (batchesOf rs).flatten)) → Through cap chk rest ops s rs (roundNews rs)

/-! ## Lemmas -/

/-- A `reload` with any part of the file, or with all of it, leaves the view as it was. -/
theorem part_view {cap : Nat} (hc : 2 ≤ cap) {chk : Bool} {gs : List (List Bytes)} {s : Storage} {ps : List (Packet O Q)} (v : View cap gs s) (f : gs.flatten = ps.map wire)
    (hl : (fileOf cap gs).length < 2 ^ 63) (k : Nat) : ∃ r s', reloadReader cap chk s ((fileOf cap gs).take k) = some (r, s') ∧ View cap gs s' := by
  by_cases hk : k < (fileOf cap gs).length
  · obtain ⟨s', e, h1, h2⟩ := shrunk_view (chk := chk) hc v f hl hk
    exact ⟨_, s', e, v.groups, by rw [h1, v.slots], by rw [h2, v.loc]⟩
  · rw [List.take_of_length_le (by omega)]
    obtain ⟨s', e, v'⟩ := reload_nothing (by omega) (chk := chk) v f hl
    exact ⟨_, s', e, v'⟩

theorem through_iff {cap : Nat} (hc : 2 ≤ cap) {chk : Bool} {rest : Storage → Bytes → Nat → List (Out (Packet O Q)) → Prop} {ok : List (Packet O Q) → List (Packet O Q) → Prop}
    {news : List (Packet O Q) → List (Out (Packet O Q))} (hcount : ∀ {ps qs}, ok ps qs → Counted cap ps qs)
    (hrest : ∀ {gs : List (List Bytes)} {s : Storage} {ps qs : List (Packet O Q)}, View cap gs s → gs.flatten = (ps ++ qs).map wire → (fileOf cap gs).length < 2 ^ 63 →
      (∀ p ∈ ps ++ qs, Storable S p) → ok ps qs → ∀ l, rest s (fileOf cap gs) ps.length l ↔ l = news qs)
    (hnone : ∀ {gs : List (List Bytes)} {s : Storage} {ps : List (Packet O Q)}, View cap gs s → gs.flatten = ps.map wire → ∀ data l, rest s data ps.length l ↔ l = []) :
    ∀ (rs : List (Round O Q)) (ops : List (Op O Q)) (gs : List (List Bytes)) (s : Storage), View cap gs s → gs.flatten = (log ops).map wire →
      (∀ p ∈ log (ops ++ (batchesOf rs).flatten), Storable S p) → Small cap (log (ops ++ (batchesOf rs).flatten)) → AllOf ok (log ops) (batchesOf rs) →
      ∀ a, Through cap chk rest ops s rs a ↔ a = newsOf news rs
  | [], ops, gs, s, _, _, _, _, _, a => by
    constructor
    · intro h; cases h; rfl
    · intro h; rw [h]; exact .done
  | .batch b :: rs, ops, gs, s, v, hf, hok, hs, ha, a => by
    obtain ⟨h1, h2⟩ := ha
    have e := log_flatten_left (ops := ops) (b := b) (bs := batchesOf rs)
    rw [batchesOf] at hok hs
    have hok1 : ∀ p ∈ log (ops ++ b), Storable S p := fun p hp => hok p (by rw [e]; exact List.mem_append_left _ hp)
    have hs1 : Small cap (log (ops ++ b)) := by rw [e] at hs; exact hs.left
    obtain ⟨w, s', gs', ew, er, v', ed, f', hl⟩ := follows_round (by omega) (chk := chk) v hf hok1 hs1 (hcount h1)
    have hcnt : s.count cap = (log ops).length := by rw [v.count, hf, List.length_map]
    have hr := hrest v' (by rw [f', log_append]) (by rw [← ed]; exact hl) (by rw [← log_append]; exact hok1) h1
    rw [← ed, ← hcnt] at hr
    have ih := through_iff hc (chk := chk) hcount hrest hnone rs (ops ++ b) gs' s' v' f' (by rw [List.append_assoc, ← List.flatten_cons]; exact hok)
      (by rw [List.append_assoc, ← List.flatten_cons]; exact hs) (by rw [log_append]; exact h2)
    constructor
    · intro h
      cases h with
      | batch hw hre hre2 hfo =>
        rw [ew] at hw
        injection hw with hw
        subst hw
        rw [er] at hre
        injection hre with hre
        injection hre with hn hs'
        injection hn with hn
        subst hn hs'
        rw [(hr _).mp hre2, (ih _).mp hfo]
        rfl
    · intro h
      rw [h]
      exact .batch ew er ((hr _).mpr rfl) ((ih _).mpr rfl)
  | .part k :: rs, ops, gs, s, v, hf, hok, hs, ha, a => by
    rw [batchesOf] at hok hs ha
    have hok1 : ∀ p ∈ log ops, Storable S p := fun p hp => hok p (by rw [log_append]; exact List.mem_append_left _ hp)
    have hs1 : Small cap (log ops) := by rw [log_append] at hs; exact hs.left
    obtain ⟨w, gs', ew, i, f'⟩ := runOps_inv (S := S) (by omega : 0 < cap) chk ops (ps := []) (empty_inv cap) rfl (fun p hp => (hok1 p hp).ok) hs1
    rw [List.nil_append] at f'
    have hg : gs' = gs := groups_unique (by omega) i.groups v.groups (by rw [f', hf])
    subst hg
    obtain ⟨r, s', er, v'⟩ := part_view hc (chk := chk) v hf (small_file (by omega) i.groups f' hs1) k
    rw [← i.data] at er
    have hcnt : s.count cap = (log ops).length := by rw [v.count, hf, List.length_map]
    have hr := hnone v' hf (w.data.take k)
    rw [← hcnt] at hr
    have ih := through_iff hc (chk := chk) hcount hrest hnone rs ops gs' s' v' hf hok hs ha
    constructor
    · intro h
      cases h with
      | part hw hre hre2 hfo =>
        rw [ew] at hw
        injection hw with hw
        subst hw
        rw [er] at hre
        injection hre with hre
        injection hre with _ hs'
        subst hs'
        rw [(hr _).mp hre2, (ih _).mp hfo]
        rfl
    · intro h
      rw [h]
      exact .part ew er ((hr _).mpr rfl) ((ih _).mpr rfl)

theorem range_none {cap : Nat} {chk : Bool} {gs : List (List Bytes)} {s : Storage} {ps : List (Packet O Q)} (v : View cap gs s) (f : gs.flatten = ps.map wire) (data : Bytes)
    (l : List (Out (Packet O Q))) : byRange cap chk s data ps.length l ↔ l = [] := by
  unfold byRange
  rw [show s.count cap - ps.length = 0 by rw [v.count, f, List.length_map, Nat.sub_self]]
  have hn : Yields (fun r x => Range.next (O := O) (Q := Q) cap chk s data r = x) ⟨ps.length, 0⟩ [] := .done (s' := ⟨ps.length, 0⟩) (by simp [Range.next])
  exact ⟨fun h => Yields.det h hn, fun h => by rw [h]; exact hn⟩

theorem seek_none {cap : Nat} {gs : List (List Bytes)} {s : Storage} {ps : List (Packet O Q)} (v : View cap gs s) (f : gs.flatten = ps.map wire) (data : Bytes)
    (l : List (Out (Packet O Q))) : bySeek cap s data ps.length l ↔ l = [] := by
  unfold bySeek
  obtain ⟨e, he, h1, h2⟩ := seek_beyond v data f (Nat.le_refl _)
  constructor
  · rintro (⟨it, hit, _⟩ | ⟨_, hl⟩)
    · rw [he] at hit; cases hit
    · exact hl
  · intro hl
    refine .inr ⟨⟨e, he, ?_⟩, hl⟩
    by_cases hp : ps = []
    · exact .inl (h1 hp)
    · exact .inr (h2 hp)

/-! ## What holds -/

/-- **C117, with `range`.** If every batch is counted (C98), the program shows after every batch exactly its packets, and nothing while the file is not all there. Missing: the batches
that are missing in C98 (`C117_range_not`). -/
theorem C117_range_partial {cap : Nat} (hc : 2 ≤ cap) {chk : Bool} {ops : List (Op O Q)} {s : Storage} (h : Watching cap chk ops s) (rs : List (Round O Q))
    (hok : ∀ p ∈ log (ops ++ (batchesOf rs).flatten), Storable S p) (hs : Small cap (log (ops ++ (batchesOf rs).flatten))) (hb : AllOf (Counted cap) (log ops) (batchesOf rs))
    (a : List (Option Nat × List (Out (Packet O Q)))) : Through cap chk (byRange cap chk) ops s rs a ↔ a = roundNews rs := by
  obtain ⟨gs, v, f⟩ := h.view (S := S) (by omega) (fun p hp => (hok p (by rw [log_append]; exact List.mem_append_left _ hp)).ok) (by rw [log_append] at hs; exact hs.left)
  refine through_iff (S := S) hc (ok := Counted cap) (news := fun qs => qs.map .ok) id ?_ (fun v f data l => range_none v f data l) rs ops gs s v f hok hs hb a
  intro gs s ps qs v f hl hok _ l
  unfold byRange
  have hcnt : s.count cap = (ps ++ qs).length := by rw [v.count, f, List.length_map]
  rw [range_det (view_log (by omega) chk v f hok), hcnt, List.drop_left, List.take_of_length_le (by simp)]

/-- **C117, with `seek`.** The same, if in addition the packets of each batch lie in one slot. -/
theorem C117_seek_partial {cap : Nat} (hc : 2 ≤ cap) {chk : Bool} {ops : List (Op O Q)} {s : Storage} (h : Watching cap chk ops s) (rs : List (Round O Q))
    (hok : ∀ p ∈ log (ops ++ (batchesOf rs).flatten), Storable S p) (hs : Small cap (log (ops ++ (batchesOf rs).flatten)))
    (hb : AllOf (fun ps qs => Counted cap ps qs ∧ OneSlot cap ps qs) (log ops) (batchesOf rs))
    (a : List (Option Nat × List (Out (Packet O Q)))) : Through cap chk (bySeek cap) ops s rs a ↔ a = roundNews rs := by
  obtain ⟨gs, v, f⟩ := h.view (S := S) (by omega) (fun p hp => (hok p (by rw [log_append]; exact List.mem_append_left _ hp)).ok) (by rw [log_append] at hs; exact hs.left)
  refine through_iff (S := S) hc (ok := fun ps qs => Counted cap ps qs ∧ OneSlot cap ps qs) (news := fun qs => qs.map .ok) And.left ?_ (fun v f data l => seek_none v f data l) rs ops gs s v f hok hs hb a
  intro gs s ps qs v f hl hok hone l
  by_cases hq : qs = []
  · subst hq
    rw [List.append_nil] at f
    exact seek_none v f _ l
  · unfold bySeek
    have hone := hone.2.resolve_left hq
    have hlt : ps.length < (ps ++ qs).length := by
      have := List.length_pos_iff.mpr hq
      rw [List.length_append]; omega
    obtain ⟨it, hit, hy⟩ := seek_view v rfl f hl hok hlt hone
    rw [List.drop_left] at hy
    constructor
    · rintro (⟨it', hit', hy'⟩ | ⟨⟨e, he, _⟩, _⟩)
      · rw [hit] at hit'
        injection hit' with hit'
        subst hit'
        exact Yields.det hy' hy
      · rw [hit] at he; cases he
    · intro hl
      exact .inl ⟨it, hit, by rw [hl]; exact hy⟩

/-- **C117, one packet at a time.** A program that sees all of the file at least once between any two inserts is shown every packet once, in the first round after its insert with all of the
file, however often and with whatever part of the file it has called `reload` in between, with `seek` as with `range`, if no packet has 4 GiB. -/
theorem C117_each_partial {cap : Nat} (hc : 2 ≤ cap) {chk : Bool} {ops : List (Op O Q)} {s : Storage} (h : Watching cap chk ops s) (rs : List (Round O Q))
    (hok : ∀ p ∈ log (ops ++ (batchesOf rs).flatten), Storable S p) (hs : Small cap (log (ops ++ (batchesOf rs).flatten)))
    (h32 : ∀ p ∈ log (batchesOf rs).flatten, (wire p).length < 2 ^ 32) (h1 : ∀ b ∈ batchesOf rs, (log b).length ≤ 1) (a : List (Option Nat × List (Out (Packet O Q)))) :
    (Through cap chk (bySeek cap) ops s rs a ↔ a = roundNews rs) ∧ (Through cap chk (byRange cap chk) ops s rs a ↔ a = roundNews rs) := by
  have hb := small_batches (S := S) hc (batchesOf rs) (log ops) h1 fun b hb q hq =>
    ⟨hok q (by rw [log_append]; exact List.mem_append_right _ (mem_log_flatten hb hq)), h32 q (mem_log_flatten hb hq)⟩
  exact ⟨C117_seek_partial hc h rs hok hs hb a, C117_range_partial hc h rs hok hs (hb.mono And.left) a⟩

/-! ## What goes wrong -/

theorem batchesOf_map : ∀ bs : List (List (Op O Q)), batchesOf (bs.map .batch) = bs
  | [] => rfl
  | b :: bs => by rw [List.map_cons, batchesOf, batchesOf_map bs]

theorem Through.follows {cap : Nat} {chk : Bool} {rest : Storage → Bytes → Nat → List (Out (Packet O Q)) → Prop} : ∀ {bs : List (List (Op O Q))} {ops : List (Op O Q)} {s : Storage},
    Through cap chk rest ops s (bs.map .batch) (roundNews (bs.map .batch)) → Follows cap chk rest ops s bs (batchNews bs)
  | [], _, _, _ => .done
  | _ :: _, _, _, .batch h1 h2 h3 h4 => .round h1 h2 h3 h4.follows

theorem C117_full.follows {cap : Nat} {chk : Bool} {rest : Storage → Bytes → Nat → List (Out (Packet O Q)) → Prop} (h : C117_full Q S cap chk rest) : C98_full Q S cap chk rest :=
  fun ops data s bs hr hok hs => (h ops data s (bs.map .batch) hr (by rw [batchesOf_map]; exact hok) (by rw [batchesOf_map]; exact hs)).follows

/-- **C117 is false of the code, with `seek`**, already if the file is always all there (C98). -/
theorem C117_seek_not (chk : Bool) : ¬ C117_full (PEnum.ops []) sampleSpec SLOT_CAPACITY chk (bySeek SLOT_CAPACITY) := fun h => C98_seek_not chk h.follows

/-- **C117 is false of the code, with `range`**, for the same reason. -/
theorem C117_range_not (chk : Bool) : ¬ C117_full (PEnum.ops []) sampleSpec SLOT_CAPACITY chk (byRange SLOT_CAPACITY chk) := fun h => C98_range_not chk h.follows

/-- The hypotheses are met: a packet, a round with an empty file and one with five bytes of it, and another packet. -/
example (chk : Bool) : ∃ data s, Reached SLOT_CAPACITY chk ([] : List (Op (blockEnum sampleTypes) (PEnum.ops []))) data s ∧
    Through SLOT_CAPACITY chk (bySeek SLOT_CAPACITY) [] s [.batch [.insert samplePacket], .part 0, .part 5, .batch [.reopen, .insert otherPacket]]
      [(some 1, [.ok samplePacket]), (none, []), (none, []), (some 1, [.ok otherPacket])] := by
  obtain ⟨data, s, h⟩ := nothing_reached chk
  refine ⟨data, s, h, ?_⟩
  refine ((C117_each_partial (S := sampleSpec) (by decide) (.opened h) _ ?_ ?_ ?_ ?_ _).1).mpr rfl
  · intro p hp
    simp only [batchesOf, log, List.flatten_cons, List.flatten_nil, List.nil_append, List.cons_append, List.append_nil, List.mem_cons, List.not_mem_nil, or_false] at hp
    rcases hp with rfl | rfl
    · exact sample_storable
    · exact otherPacket_storable
  · simp [Small, batchesOf, log, wire_sample_length, wire_other_length, SLOT_CAPACITY]
  · intro p hp
    simp only [batchesOf, log, List.flatten_cons, List.flatten_nil, List.nil_append, List.cons_append, List.append_nil, List.mem_cons, List.not_mem_nil, or_false] at hp
    rcases hp with rfl | rfl
    · rw [wire_sample_length]; decide
    · rw [wire_other_length]; decide
  · decide

end Brec.Props
