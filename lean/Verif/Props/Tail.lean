import Verif.Props.StorageReload
/-!
# C98: following a storage

A program that shows what is appended to a storage keeps the number of packets it has shown, calls `reload` now and then, and reads on from there: with
`seek` (as `tests/observer/src/test.rs` does) or with `range`.
-/

namespace Brec.Props

open Brec Rd

variable {O : BlockOps} {Q : PayloadOps} {S : BlockSpec O}

/-! ## Specification -/

/-- `seek(n)` and the loop over the iterator: the packets, or nothing if `seek` says that there is no packet `n`. -/
def bySeek (cap : Nat) (s : Storage) (data : Bytes) (n : Nat) (l : List (Out (Packet O Q))) : Prop :=
  (∃ it, (Iter.new s).seek cap data n = .ok it ∧ Yields (fun it r => Iter.next (O := O) (Q := Q) data it = r) it l) ∨
  ((∃ e, (Iter.new s).seek cap data n = .err e ∧ (e = .emptySource ∨ ∃ m, e = .outOfBounds m n)) ∧ l = [])

/-- `range(n, count() - n)` and the loop over it. -/
def byRange (cap : Nat) (chk : Bool) (s : Storage) (data : Bytes) (n : Nat) (l : List (Out (Packet O Q))) : Prop :=
  Yields (fun r x => Range.next cap chk s data r = x) ⟨n, s.count cap - n⟩ l

/-- The program: after each of the batches it calls `reload`, and reads on from where it was. For each round, what `reload` has returned and what has been read. -/
inductive Follows (cap : Nat) (chk : Bool) (rest : Storage → Bytes → Nat → List (Out (Packet O Q)) → Prop) :
    List (Op O Q) → Storage → List (List (Op O Q)) → List (Nat × List (Out (Packet O Q))) → Prop
  | done {ops : List (Op O Q)} {s : Storage} : Follows cap chk rest ops s [] []
  | round {ops b : List (Op O Q)} {s s' : Storage} {w : Writer} {n : Nat} {l : List (Out (Packet O Q))} {bs : List (List (Op O Q))} {r : List (Nat × List (Out (Packet O Q)))} :
      runOps cap chk (ops ++ b) emptyWriter = some w → reloadReader cap chk s w.data = some (.ok n, s') → rest s' w.data (s.count cap) l →
      Follows cap chk rest (ops ++ b) s' bs r → Follows cap chk rest ops s (b :: bs) ((n, l) :: r)

/-- What the program is to show: in each round the packets inserted since. -/
def batchNews (bs : List (List (Op O Q))) : List (Nat × List (Out (Packet O Q))) := bs.map fun b => ((log b).length, (log b).map .ok)

/-- **C98, full statement** (false for both ways of reading on): in every round exactly the packets inserted since the last one are shown, and `reload` returns their number. -/
def C98_full (Q : PayloadOps) (S : BlockSpec O) (cap : Nat) (chk : Bool) (rest : Storage → Bytes → Nat → List (Out (Packet O Q)) → Prop) : Prop :=
  ∀ (ops : List (Op O Q)) (data : Bytes) (s : Storage) (bs : List (List (Op O Q))), Reached cap chk ops data s → (∀ p ∈ log (ops ++ bs.flatten), Storable S p) →
    Small cap (log (ops ++ bs.flatten)) → Follows cap chk rest ops s bs (batchNews bs)

/-- A batch that `reload` counts correctly: it is empty, or `reload` notices it (`Calm`) and it does not begin and end with a slot. -/
def Counted (cap : Nat) (ps qs : List (Packet O Q)) : Prop :=
  qs = [] ∨ (Calm cap ps qs ∧ ¬ (ps.length % cap = 0 ∧ (ps ++ qs).length % cap = 0))

/-- All of these batches are, one after the other. -/
def AllOf (ok : List (Packet O Q) → List (Packet O Q) → Prop) : List (Packet O Q) → List (List (Op O Q)) → Prop
  | _, [] => True
  | ps, b :: bs => ok ps (log b) ∧ AllOf ok (ps ++ log b) bs

/-- The packets of the batch lie in one slot. -/
def OneSlot (cap : Nat) (ps qs : List (Packet O Q)) : Prop := qs = [] ∨ ps.length / cap = ((ps ++ qs).length - 1) / cap

/-! ## Lemmas -/

theorem reload_nothing {cap : Nat} (hc : 0 < cap) {chk : Bool} {gs : List (List Bytes)} {s : Storage} (v : View cap gs s) {ps : List (Packet O Q)} (hf : gs.flatten = ps.map wire)
    (hl : (fileOf cap gs).length < 2 ^ 63) : ∃ s', reloadReader cap chk s (fileOf cap gs) = some (.ok 0, s') ∧ View cap gs s' := by
  by_cases h0 : ps.length % cap = 0
  · obtain ⟨s', e, v'⟩ := reload_step hc (chk := chk) v v.groups (ps := ps) (qs := []) hf (by rw [List.append_nil]; exact hf) (.inl h0) hl
    refine ⟨s', ?_, v'⟩
    rw [e, if_neg (by simp)]
    rfl
  · rcases List.eq_nil_or_concat gs with rfl | ⟨init, g, rfl⟩
    · have : ps = [] := by simpa using hf.symm
      subst this
      simp at h0
    · rw [List.concat_eq_append] at *
      have hsp := v.groups.split
      have hle := hsp.2.1.le
      have hlt : g.length < cap := by
        apply Nat.lt_of_le_of_ne hle
        intro he
        apply h0
        refine full_mod (gs := init ++ [g]) ?_ hf
        intro x hx
        rcases List.mem_append.mp hx with hx | hx
        · exact hsp.1 x hx
        · rw [List.mem_singleton.mp hx]; exact ⟨hsp.2.1, he⟩
      have := v.reload_same hlt hle rfl (rest := []) hl (chk := chk) (fuel := (fileOf cap (init ++ [g])).length + 1) (by omega)
      rw [List.append_nil] at this
      exact ⟨s, this, v⟩

theorem follows_round {cap : Nat} (hc : 0 < cap) {chk : Bool} {ops b : List (Op O Q)} {gs : List (List Bytes)} {s : Storage} (v : View cap gs s) (hf : gs.flatten = (log ops).map wire)
    (hok : ∀ p ∈ log (ops ++ b), Storable S p) (hs : Small cap (log (ops ++ b))) (hcalm : Counted cap (log ops) (log b)) :
    ∃ w s' gs', runOps cap chk (ops ++ b) emptyWriter = some w ∧ reloadReader cap chk s w.data = some (.ok (log b).length, s') ∧ View cap gs' s' ∧ w.data = fileOf cap gs' ∧
      gs'.flatten = (log (ops ++ b)).map wire ∧ w.data.length < 2 ^ 63 := by
  obtain ⟨w, gs', e', i, f'⟩ := runOps_inv (S := S) hc chk (ops ++ b) (ps := []) (empty_inv cap) rfl (fun p hp => (hok p hp).ok) hs
  rw [List.nil_append] at f'
  have hl := small_file hc i.groups f' hs
  rcases hcalm with hb | ⟨hcalm, hnb⟩
  · have hg : gs' = gs := groups_unique hc i.groups v.groups (by rw [f', hf, log_append, hb, List.append_nil])
    subst hg
    obtain ⟨s', e, v'⟩ := reload_nothing hc (chk := chk) v hf hl
    exact ⟨w, s', gs', e', by rw [i.data, e, hb]; rfl, v', i.data, f', by rw [i.data]; exact hl⟩
  · have f'' := f'
    rw [log_append] at f''
    obtain ⟨s', e, v'⟩ := reload_step hc (chk := chk) v i.groups hf f'' hcalm hl
    rw [if_neg (fun h => hnb ⟨h.1, h.2.2⟩)] at e
    exact ⟨w, s', gs', e', by rw [i.data]; exact e, v', i.data, f', by rw [i.data]; exact hl⟩

theorem log_flatten_left {ops b : List (Op O Q)} {bs : List (List (Op O Q))} : log (ops ++ (b :: bs).flatten) = log (ops ++ b) ++ log bs.flatten := by
  rw [List.flatten_cons, ← List.append_assoc, log_append (ops ++ b)]

/-- A way of reading on that shows the rest of what is known, after batches of a kind, decides the whole run. -/
theorem follows_iff {cap : Nat} (hc : 0 < cap) {chk : Bool} {rest : Storage → Bytes → Nat → List (Out (Packet O Q)) → Prop} {ok : List (Packet O Q) → List (Packet O Q) → Prop}
    (hcount : ∀ {ps qs}, ok ps qs → Counted cap ps qs)
    (hrest : ∀ {gs : List (List Bytes)} {s : Storage} {ps qs : List (Packet O Q)}, View cap gs s → gs.flatten = (ps ++ qs).map wire → (fileOf cap gs).length < 2 ^ 63 →
      (∀ p ∈ ps ++ qs, Storable S p) → ok ps qs → ∀ l, rest s (fileOf cap gs) ps.length l ↔ l = qs.map .ok) :
    ∀ (bs : List (List (Op O Q))) (ops : List (Op O Q)) (gs : List (List Bytes)) (s : Storage), View cap gs s → gs.flatten = (log ops).map wire →
      (∀ p ∈ log (ops ++ bs.flatten), Storable S p) → Small cap (log (ops ++ bs.flatten)) → AllOf ok (log ops) bs →
      ∀ r, Follows cap chk rest ops s bs r ↔ r = batchNews bs
  | [], ops, gs, s, _, _, _, _, _, r => by
    constructor
    · intro h; cases h; rfl
    · intro h; rw [h]; exact .done
  | b :: bs, ops, gs, s, v, hf, hok, hs, ha, r => by
    obtain ⟨h1, h2⟩ := ha
    have e := log_flatten_left (ops := ops) (b := b) (bs := bs)
    have hok1 : ∀ p ∈ log (ops ++ b), Storable S p := fun p hp => hok p (by rw [e]; exact List.mem_append_left _ hp)
    have hs1 : Small cap (log (ops ++ b)) := by rw [e] at hs; exact hs.left
    obtain ⟨w, s', gs', ew, er, v', ed, f', hl⟩ := follows_round hc (chk := chk) v hf hok1 hs1 (hcount h1)
    have hcnt : s.count cap = (log ops).length := by rw [v.count, hf, List.length_map]
    have hr := hrest v' (by rw [f', log_append]) (by rw [← ed]; exact hl) (by rw [← log_append]; exact hok1) h1
    rw [← ed, ← hcnt] at hr
    have ih := follows_iff hc (chk := chk) hcount hrest bs (ops ++ b) gs' s' v' f' (by rw [List.append_assoc, ← List.flatten_cons]; exact hok)
      (by rw [List.append_assoc, ← List.flatten_cons]; exact hs) (by rw [log_append]; exact h2)
    constructor
    · intro h
      cases h with
      | round hw hre hre2 hfo =>
        rw [ew] at hw
        injection hw with hw
        subst hw
        rw [er] at hre
        injection hre with hre
        injection hre with hn hs'
        injection hn with hn
        subst hn hs'
        rw [(hr _).mp hre2, (ih _).mp hfo]
        rfl
    · intro h
      rw [h]
      exact .round ew er ((hr _).mpr rfl) ((ih _).mpr rfl)

/-! ## What holds -/

theorem range_det {cap : Nat} {chk : Bool} {s : Storage} {data : Bytes} {ps : List (Packet O Q)} (hn : ∀ i, s.nth cap chk data i = .ok ps[i]?) (start len : Nat) (l : List (Out (Packet O Q))) :
    Yields (fun r x => Range.next cap chk s data r = x) ⟨start, len⟩ l ↔ l = ((ps.drop start).take len).map .ok :=
  ⟨fun h => Yields.det h (range_yields hn len start), fun h => by rw [h]; exact range_yields hn len start⟩

/-- **C98, reading on with `range`.** If every batch is counted, every round shows exactly the packets inserted since the last one, and `reload` returns their number. Missing: batches that
`reload` does not notice, and batches that begin and end with a slot, which it counts wrongly (`C98_range_not`). -/
theorem C98_range_partial {cap : Nat} (hc : 0 < cap) {chk : Bool} {ops : List (Op O Q)} {s : Storage} (h : Watching cap chk ops s) (bs : List (List (Op O Q)))
    (hok : ∀ p ∈ log (ops ++ bs.flatten), Storable S p) (hs : Small cap (log (ops ++ bs.flatten))) (hb : AllOf (Counted cap) (log ops) bs) (r : List (Nat × List (Out (Packet O Q)))) :
    Follows cap chk (byRange cap chk) ops s bs r ↔ r = batchNews bs := by
  obtain ⟨gs, v, f⟩ := h.view (S := S) hc (fun p hp => (hok p (by rw [log_append]; exact List.mem_append_left _ hp)).ok) (by rw [log_append] at hs; exact hs.left)
  refine follows_iff (S := S) hc (ok := Counted cap) id ?_ bs ops gs s v f hok hs hb r
  intro gs s ps qs v f hl hok _ l
  unfold byRange
  have hcnt : s.count cap = (ps ++ qs).length := by rw [v.count, f, List.length_map]
  rw [range_det (view_log hc chk v f hok), hcnt, List.drop_left, List.take_of_length_le (by simp)]

/-- **C98, reading on with `seek`.** The same, if in addition the packets of each batch lie in one slot. -/
theorem C98_seek_partial {cap : Nat} (hc : 0 < cap) {chk : Bool} {ops : List (Op O Q)} {s : Storage} (h : Watching cap chk ops s) (bs : List (List (Op O Q)))
    (hok : ∀ p ∈ log (ops ++ bs.flatten), Storable S p) (hs : Small cap (log (ops ++ bs.flatten)))
    (hb : AllOf (fun ps qs => Counted cap ps qs ∧ OneSlot cap ps qs) (log ops) bs) (r : List (Nat × List (Out (Packet O Q)))) :
    Follows cap chk (bySeek cap) ops s bs r ↔ r = batchNews bs := by
  obtain ⟨gs, v, f⟩ := h.view (S := S) hc (fun p hp => (hok p (by rw [log_append]; exact List.mem_append_left _ hp)).ok) (by rw [log_append] at hs; exact hs.left)
  refine follows_iff (S := S) hc (ok := fun ps qs => Counted cap ps qs ∧ OneSlot cap ps qs) And.left ?_ bs ops gs s v f hok hs hb r
  intro gs s ps qs v f hl hok hone l
  unfold bySeek
  by_cases hq : qs = []
  · subst hq
    rw [List.append_nil] at f
    obtain ⟨e, he, h1, h2⟩ := seek_beyond v (fileOf cap gs) f (Nat.le_refl _)
    constructor
    · rintro (⟨it, hit, _⟩ | ⟨_, hl⟩)
      · rw [he] at hit; cases hit
      · exact hl
    · intro hl
      refine .inr ⟨⟨e, he, ?_⟩, hl⟩
      by_cases hp : ps = []
      · exact .inl (h1 hp)
      · exact .inr (h2 hp)
  · have hone := hone.2.resolve_left hq
    have hlt : ps.length < (ps ++ qs).length := by
      have := List.length_pos_iff.mpr hq
      rw [List.length_append]; omega
    obtain ⟨it, hit, hy⟩ := seek_view v rfl f hl hok hlt hone
    rw [List.drop_left] at hy
    constructor
    · rintro (⟨it', hit', hy'⟩ | ⟨⟨e, he, _⟩, _⟩)
      · rw [hit] at hit'
        injection hit' with hit'
        subst hit'
        exact Yields.det hy' hy
      · rw [hit] at he; cases he
    · intro hl
      exact .inl ⟨it, hit, by rw [hl]; exact hy⟩

theorem small_batch {cap : Nat} (hc : 2 ≤ cap) {ps qs : List (Packet O Q)} (hok : ∀ q ∈ qs, Storable S q ∧ (wire q).length < 2 ^ 32) (hq : qs.length ≤ 1) :
    Counted cap ps qs ∧ OneSlot cap ps qs := by
  match qs, hq with
  | [], _ => exact ⟨.inl rfl, .inl rfl⟩
  | [q], _ =>
    obtain ⟨h1, h2⟩ := hok q (by simp)
    refine ⟨.inr ⟨C37_single (S := S) (by omega) ps h1.ok h2, ?_⟩, .inr (by rw [List.length_append]; rfl)⟩
    rintro ⟨h3, h4⟩
    rw [List.length_append, List.length_singleton, Nat.add_mod, h3, Nat.zero_add, Nat.mod_mod, Nat.mod_eq_of_lt (by omega)] at h4
    omega
  | _ :: _ :: _, h => exact absurd h (by simp)

theorem small_batches {cap : Nat} (hc : 2 ≤ cap) : ∀ (bs : List (List (Op O Q))) (ps : List (Packet O Q)), (∀ b ∈ bs, (log b).length ≤ 1) →
    (∀ b ∈ bs, ∀ q ∈ log b, Storable S q ∧ (wire q).length < 2 ^ 32) → AllOf (fun ps qs => Counted cap ps qs ∧ OneSlot cap ps qs) ps bs
  | [], _, _, _ => trivial
  | b :: bs, ps, h1, h2 => ⟨small_batch hc (h2 b (by simp)) (h1 b (by simp)), small_batches hc bs _ (fun x hx => h1 x (by simp [hx])) fun x hx => h2 x (by simp [hx])⟩

theorem AllOf.mono {ok ok' : List (Packet O Q) → List (Packet O Q) → Prop} (h : ∀ {ps qs}, ok ps qs → ok' ps qs) : ∀ {bs : List (List (Op O Q))} {ps : List (Packet O Q)},
    AllOf ok ps bs → AllOf ok' ps bs
  | [], _, _ => trivial
  | _ :: _, _, h1 => ⟨h h1.1, AllOf.mono h h1.2⟩

theorem mem_log_flatten : ∀ {bs : List (List (Op O Q))} {b : List (Op O Q)} {q : Packet O Q}, b ∈ bs → q ∈ log b → q ∈ log bs.flatten
  | c :: bs, b, q, hb, hq => by
    rw [List.flatten_cons, log_append]
    rcases List.mem_cons.mp hb with rfl | hb
    · exact List.mem_append_left _ hq
    · exact List.mem_append_right _ (mem_log_flatten hb hq)

/-- **C98, one packet at a time.** A program that reloads at least once between any two inserts (however often in between, whenever the writer is reopened) is shown every packet once, in
the round after its insert, with `seek` as with `range`, if no packet has 4 GiB. -/
theorem C98_each_partial {cap : Nat} (hc : 2 ≤ cap) {chk : Bool} {ops : List (Op O Q)} {s : Storage} (h : Watching cap chk ops s) (bs : List (List (Op O Q)))
    (hok : ∀ p ∈ log (ops ++ bs.flatten), Storable S p) (hs : Small cap (log (ops ++ bs.flatten))) (h32 : ∀ p ∈ log bs.flatten, (wire p).length < 2 ^ 32)
    (h1 : ∀ b ∈ bs, (log b).length ≤ 1) (r : List (Nat × List (Out (Packet O Q)))) :
    (Follows cap chk (bySeek cap) ops s bs r ↔ r = batchNews bs) ∧ (Follows cap chk (byRange cap chk) ops s bs r ↔ r = batchNews bs) := by
  have hb := small_batches (S := S) hc bs (log ops) h1 fun b hb q hq => ⟨hok q (by rw [log_append]; exact List.mem_append_right _ (mem_log_flatten hb hq)), h32 q (mem_log_flatten hb hq)⟩
  exact ⟨C98_seek_partial (by omega) h bs hok hs hb r, C98_range_partial (by omega) h bs hok hs (hb.mono And.left) r⟩

/-! ## What goes wrong -/

/-- **C98, a batch that runs into a further slot, with `seek`.** The storage was empty, then a slot was filled with `fst` and packets `snd` of the same sizes were put into the next one: `reload`
counts them all, but `seek` and the loop show the first packets again in place of the last ones. -/
theorem C98_seek_wrong {cap : Nat} (hc : 0 < cap) {chk : Bool} {ops b : List (Op O Q)} {s : Storage} (h : Watching cap chk ops s) (h0 : log ops = [])
    (hok : ∀ p ∈ log (ops ++ b), Storable S p) (hs : Small cap (log (ops ++ b))) {fst snd : List (Packet O Q)} (hlog : log b = fst ++ snd)
    (hf : fst.length = cap) (hsn : 0 < snd.length) (hsc : snd.length < cap)
    (hlen : snd.map (fun p => (wire p).length) = (fst.take snd.length).map (fun p => (wire p).length)) (r : List (Nat × List (Out (Packet O Q)))) :
    Follows cap chk (bySeek cap) ops s [b] r ↔ r = [((log b).length, (fst ++ fst.take snd.length).map .ok)] := by
  obtain ⟨gs, v, f⟩ := h.view (S := S) hc (fun p hp => (hok p (by rw [log_append]; exact List.mem_append_left _ hp)).ok) (by rw [log_append] at hs; exact hs.left)
  have hcount : Counted cap (log ops) (log b) := by
    refine .inr ⟨.inl (by rw [h0]; simp), ?_⟩
    rintro ⟨_, h2⟩
    rw [h0, hlog, List.nil_append, List.length_append, hf, Nat.add_mod_left, Nat.mod_eq_of_lt hsc] at h2
    omega
  obtain ⟨w, s', gs', ew, er, v', ed, f', hl⟩ := follows_round hc (chk := chk) v f hok hs hcount
  have hcnt : s.count cap = 0 := by rw [v.count, f, List.length_map, h0]; rfl
  obtain ⟨it, hit, hy⟩ := seek_wrong_view (n := 0) hc v' ed f' hl hok (by rw [log_append, h0, hlog]; rfl) hf hsn (by omega) hlen hc
  rw [List.drop_zero] at hy
  constructor
  · intro h
    cases h with
    | round hw hre hre2 hfo =>
      rw [ew] at hw
      injection hw with hw
      subst hw
      rw [er] at hre
      injection hre with hre
      injection hre with hn hs'
      injection hn with hn
      subst hn hs'
      cases hfo
      rw [hcnt] at hre2
      rcases hre2 with ⟨it', hit', hy'⟩ | ⟨⟨e, he, _⟩, _⟩
      · rw [hit] at hit'
        injection hit' with hit'
        subst hit'
        rw [Yields.det hy' hy]
      · rw [hit] at he; cases he
  · intro hr
    rw [hr]
    exact .round ew er (by rw [hcnt]; exact .inl ⟨it, hit, hy⟩) .done

theorem nothing_reached (chk : Bool) : ∃ data s, Reached SLOT_CAPACITY chk ([] : List (Op (blockEnum sampleTypes) (PEnum.ops []))) data s :=
  Reached.exists (S := sampleSpec) (by decide) chk [] (by intro p hp; cases hp) (by simp [Small, log, SLOT_CAPACITY])

/-- **C98 is false of the code, with `seek`**: 501 packets are inserted before the first `reload`; the first one is shown twice and the last one not at all. -/
theorem C98_seek_not (chk : Bool) : ¬ C98_full (PEnum.ops []) sampleSpec SLOT_CAPACITY chk (bySeek SLOT_CAPACITY) := by
  intro hfull
  obtain ⟨data, s, h⟩ := nothing_reached chk
  have h1 := hfull [] data s [twoSlots] h (by simpa using twoSlots_storable) (by simpa using twoSlots_small)
  have h2 := (C98_seek_wrong (S := sampleSpec) (cap := SLOT_CAPACITY) (by decide) (.opened h) rfl (b := twoSlots) twoSlots_storable twoSlots_small twoSlots_log
    List.length_replicate (by decide) (by decide) (by
      rw [List.take_replicate, List.map_replicate, List.map_cons, wire_other_length, wire_sample_length]; rfl) _).mp h1
  simp only [batchNews, List.map_cons, List.map_nil] at h2
  injection h2 with h2 _
  injection h2 with _ h2
  rw [twoSlots_log, List.map_inj_right (by intro a b h; injection h)] at h2
  have h3 := List.append_cancel_left h2
  rw [List.take_replicate] at h3
  have h4 : otherPacket = samplePacket := by
    have := congrArg List.head? h3
    simpa using this
  exact absurd (by rw [h4] : wire otherPacket = wire samplePacket) (by decide +kernel)

/-- **C98 is false of the code, with `range`**: the packets are shown, but `reload` has said that there are none, if exactly one slot has been filled. -/
theorem C98_range_not (chk : Bool) : ¬ C98_full (PEnum.ops []) sampleSpec SLOT_CAPACITY chk (byRange SLOT_CAPACITY chk) := by
  intro hfull
  obtain ⟨data, s, h⟩ := nothing_reached chk
  have hl2 : log ((List.replicate 500 samplePacket).map Op.insert) = List.replicate 500 samplePacket := log_inserts _
  have hok : ∀ p ∈ log ([] ++ (List.replicate 500 samplePacket).map Op.insert), Storable sampleSpec p := by
    rw [List.nil_append, hl2]; intro p hp; rw [(List.mem_replicate.mp hp).2]; exact sample_storable
  have hs : Small SLOT_CAPACITY (log ([] ++ (List.replicate 500 samplePacket).map Op.insert)) := by
    have := sample_small
    rw [List.replicate_succ'] at this
    rw [List.nil_append, hl2]
    exact this.left
  have h1 := hfull [] data s [(List.replicate 500 samplePacket).map Op.insert] h (by rw [List.flatten_cons, List.flatten_nil, List.append_nil]; exact hok)
    (by rw [List.flatten_cons, List.flatten_nil, List.append_nil]; exact hs)
  simp only [batchNews, List.map_cons, List.map_nil] at h1
  cases h1 with
  | round hw hre _ _ =>
    obtain ⟨s2, e2, _⟩ := C37_reload_partial (S := sampleSpec) (cap := SLOT_CAPACITY) (by decide) (.opened h) hw hok hs (.inl rfl)
    rw [hre, if_pos (by
      rw [List.nil_append, hl2, List.length_replicate]
      exact ⟨rfl, fun h => absurd (congrArg List.length h) (by rw [List.length_replicate]; decide), rfl⟩), hl2, List.length_replicate] at e2
    injection e2 with e2
    injection e2 with e2 _
    injection e2 with e2
    exact absurd e2 (by decide)

/-- The hypotheses are met: two rounds with a packet each, one of them after the writer has been reopened, and one without. -/
example (chk : Bool) : ∃ data s, Reached SLOT_CAPACITY chk ([] : List (Op (blockEnum sampleTypes) (PEnum.ops []))) data s ∧
    Follows SLOT_CAPACITY chk (bySeek SLOT_CAPACITY) [] s [[.insert samplePacket], [], [.reopen, .insert otherPacket]] [(1, [.ok samplePacket]), (0, []), (1, [.ok otherPacket])] := by
  obtain ⟨data, s, h⟩ := nothing_reached chk
  refine ⟨data, s, h, ?_⟩
  refine ((C98_each_partial (S := sampleSpec) (by decide) (.opened h) _ ?_ ?_ ?_ ?_ _).1).mpr rfl
  · intro p hp
    simp only [log, List.flatten_cons, List.flatten_nil, List.nil_append, List.cons_append, List.append_nil, List.mem_cons, List.not_mem_nil, or_false] at hp
    rcases hp with rfl | rfl
    · exact sample_storable
    · exact otherPacket_storable
  · simp [Small, log, wire_sample_length, wire_other_length, SLOT_CAPACITY]
  · intro p hp
    simp only [log, List.flatten_cons, List.flatten_nil, List.nil_append, List.cons_append, List.append_nil, List.mem_cons, List.not_mem_nil, or_false] at hp
    rcases hp with rfl | rfl
    · rw [wire_sample_length]; decide
    · rw [wire_other_length]; decide
  · decide

end Brec.Props
