import Verif.StorageWrite
/-!
# Lemmas about the reader and its iterators
-/

namespace Brec

open Brec.Props Rd

/-! ## Packets -/

/-- A packet that the storage can give back. -/
structure Storable {O : BlockOps} {Q : PayloadOps} (S : BlockSpec O) (p : Packet O Q) : Prop where
  ok : p.Ok S
  blocks : p.blocks.length ≤ 256

/-- What the rules say about a packet. -/
def accepted {O : BlockOps} {Q : PayloadOps} (S : BlockSpec O) (rules : Rules O.BR (Packet O Q)) (p : Packet O Q) : Bool :=
  accepts S rules p (bodyOf p)

section
variable {O : BlockOps} {Q : PayloadOps} {S : BlockSpec O} {p : Packet O Q}

theorem serialize_wire (h : p.Ok S) : p.serialize = .ok (wire p) := by
  obtain ⟨hd, pb, sh⟩ := h.shape
  rw [wire_eq h.blocks sh, Packet.serialize_eq h.blocks sh, List.append_assoc]

theorem wire_pos (h : p.Ok S) : 29 ≤ (wire p).length := by
  obtain ⟨hd, pb, sh⟩ := h.shape
  rw [wire_eq h.blocks sh, List.length_append, PacketHeader.bytes_length, HSIZE]
  omega

theorem wire_ne (h : p.Ok S) : wire p ≠ [] := by
  have := wire_pos h
  intro h0
  rw [h0] at this
  simp at this

theorem read_wire (h : Storable S p) (t : Bytes) : (Packet.read Q).run (wire p ++ t) = (.ok p, t) := by
  obtain ⟨w, hd, e, _, _, r⟩ := C15_packet_roundtrip h.ok h.blocks t
  rw [serialize_wire h.ok] at e
  injection e with e
  rw [e]
  exact r

theorem tryRead_wire (h : Storable S p) {data : Bytes} {off : Nat} {chk : Bool} {t : Bytes} (ho : off ≤ data.length) (hr : data.drop off = wire p ++ t) :
    (Packet.tryRead Q ⟨data, off, chk⟩).1 = .ok (.success p) := by
  rw [C16_tryRead h.ok h.blocks (serialize_wire h.ok) ⟨data, off, chk⟩ t ho hr]

theorem filtered_wire (h : p.Ok S) (rules : Rules O.BR (Packet O Q)) (t : Bytes) :
    ∃ n, (Packet.filtered Q rules).run (wire p ++ t) = (.ok (if accepted S rules p then .accepted n p else .denied n), t) := by
  obtain ⟨w, hd, body, e, _, hb, r⟩ := C28_filtered h rules t
  rw [serialize_wire h] at e
  injection e with e
  have : body = bodyOf p := by
    unfold bodyOf
    cases hpl : p.payload with
    | none => rw [hpl] at hb; cases body with
      | none => rfl
      | some x => exact hb.elim
    | some v => rw [hpl] at hb; cases body with
      | none => exact hb.elim
      | some x =>
        obtain ⟨ph, hx⟩ := hb
        simp only [hx]
  refine ⟨hd.size, ?_⟩
  rw [e, r, accepted, this]
  split <;> rfl

end

/-! ## Finding a packet -/

theorem sum_take (cap : Nat) {gs : List (List Bytes)} (hg : ∀ g ∈ gs, Group cap g) {as : List Anchored} (ha : as.map (·.inner) = gs.map (table cap)) (j : Nat) :
    ((as.take j).map fun b => b.inner.width + b.inner.size).sum = (fileOf cap (gs.take j)).length := by
  have : (as.take j).map (fun b => b.inner.width + b.inner.size) = ((gs.take j).map (table cap)).map fun s => s.width + s.size := by
    rw [List.map_take (f := table cap), ← ha, ← List.map_take, List.map_map]
    rfl
  rw [this]
  have hg' : ∀ g ∈ gs.take j, Group cap g := fun g h => hg g (List.mem_of_mem_take h)
  revert hg'
  generalize gs.take j = l
  intro hl
  induction l with
  | nil => rfl
  | cons g l ih =>
    have h1 := hl g (by simp)
    simp only [List.map_cons, List.sum_cons, fileOf_cons, List.length_append]
    rw [ih fun x hx => hl x (by simp [hx]), table_width h1, table_size, region_length h1.le]
    omega

theorem getElem?_map_inner {as : List Anchored} {gs : List (List Bytes)} {cap : Nat} (ha : as.map (·.inner) = gs.map (table cap)) (j : Nat) :
    (as[j]?).map (·.inner) = (gs[j]?).map (table cap) := by
  rw [← List.getElem?_map, ha, List.getElem?_map]

/-- Any groups, also such that are not full before the last. -/
theorem offsetOf_none_of {cap : Nat} (hc : 0 < cap) {gs : List (List Bytes)} (hg : ∀ g ∈ gs, Group cap g) {s : Storage}
    (hs : s.slots.map (·.inner) = gs.map (table cap)) {n : Nat} (hn : ((gs[n / cap]?).bind fun g => g[n % cap]?) = none) : s.offsetOf cap n = .ok none := by
  have h1 := getElem?_map_inner hs (n / cap)
  unfold Storage.offsetOf
  cases hx : s.slots[n / cap]? with
  | none => rfl
  | some a =>
    rw [hx] at h1
    cases hy : gs[n / cap]? with
    | none => rw [hy] at h1; simp at h1
    | some g =>
      rw [hy] at h1 hn
      simp only [Option.map_some, Option.some.injEq] at h1
      simp only [Option.bind_some] at hn
      have hgr := hg g (List.mem_of_getElem? hy)
      simp only
      rw [h1, table_isEmpty hgr (Nat.mod_lt _ hc), decide_eq_true (List.getElem?_eq_none_iff.mp hn)]

theorem offsetOf_none {cap : Nat} (hc : 0 < cap) {gs : List (List Bytes)} (hg : Groups cap gs) {s : Storage}
    (hs : s.slots.map (·.inner) = gs.map (table cap)) {n : Nat} (hn : gs.flatten[n]? = none) : s.offsetOf cap n = .ok none :=
  offsetOf_none_of hc hg.group hs (by rw [← hg.get hc]; exact hn)

theorem offsetOf_some_of {cap : Nat} (hc : 0 < cap) {gs : List (List Bytes)} (hg : ∀ g ∈ gs, Group cap g) {s : Storage}
    (hs : s.slots.map (·.inner) = gs.map (table cap)) {n : Nat} {x : Bytes} (hn : ((gs[n / cap]?).bind fun g => g[n % cap]?) = some x) :
    ∃ a t, s.offsetOf cap n = .ok (some (List.length a)) ∧ fileOf cap gs = a ++ (x ++ t) ∧
      a.length = (fileOf cap (gs.take (n / cap))).length + (20 + 8 * cap) + ((gs[n / cap]?.getD []).take (n % cap)).flatten.length := by
  have h1 := getElem?_map_inner hs (n / cap)
  cases hy : gs[n / cap]? with
  | none => rw [hy] at hn; simp at hn
  | some g =>
    rw [hy] at h1 hn
    simp only [Option.bind_some] at hn
    have hgr := hg g (List.mem_of_getElem? hy)
    have hle := hgr.le
    obtain ⟨hk, hgk⟩ := List.getElem?_eq_some_iff.mp hn
    obtain ⟨hj, hgj⟩ := List.getElem?_eq_some_iff.mp hy
    have hsp : gs = gs.take (n / cap) ++ (g :: gs.drop (n / cap + 1)) := by
      rw [← hgj, ← List.drop_eq_getElem_cons hj, List.take_append_drop]
    have hsg : g = g.take (n % cap) ++ (x :: g.drop (n % cap + 1)) := by
      rw [← hgk, ← List.drop_eq_getElem_cons hk, List.take_append_drop]
    have hen : (table cap g).enc.length = 20 + 8 * cap := by
      have := region_length (cap := cap) hle
      rw [region, List.length_append] at this
      omega
    refine ⟨fileOf cap (gs.take (n / cap)) ++ ((table cap g).enc ++ (g.take (n % cap)).flatten),
      (g.drop (n % cap + 1)).flatten ++ fileOf cap (gs.drop (n / cap + 1)), ?_, ?_, ?_⟩
    · unfold Storage.offsetOf
      cases hx : s.slots[n / cap]? with
      | none => rw [hx] at h1; simp at h1
      | some a =>
        rw [hx] at h1
        simp only [Option.map_some, Option.some.injEq] at h1
        simp only
        rw [h1, table_isEmpty hgr (Nat.mod_lt _ hc), decide_eq_false (by omega)]
        simp only
        rw [table_slotOffset hle (Nat.mod_lt _ hc) (by omega)]
        simp only
        rw [sum_take cap hg hs]
        simp only [List.length_append, hen]
        congr 2
        omega
    · conv => lhs; rw [hsp]
      rw [fileOf_append, fileOf_cons, region]
      conv => lhs; rw [show g.flatten = (g.take (n % cap)).flatten ++ (x ++ (g.drop (n % cap + 1)).flatten) by
        conv => lhs; rw [hsg]
        simp]
      simp only [List.append_assoc]
    · simp only [List.length_append, hen, Option.getD_some]
      omega

theorem offsetOf_some {cap : Nat} (hc : 0 < cap) {gs : List (List Bytes)} (hg : Groups cap gs) {s : Storage}
    (hs : s.slots.map (·.inner) = gs.map (table cap)) {n : Nat} {x : Bytes} (hn : gs.flatten[n]? = some x) :
    ∃ a t, s.offsetOf cap n = .ok (some (List.length a)) ∧ fileOf cap gs = a ++ (x ++ t) ∧
      a.length = (fileOf cap (gs.take (n / cap))).length + (20 + 8 * cap) + ((gs[n / cap]?.getD []).take (n % cap)).flatten.length :=
  offsetOf_some_of hc hg.group hs (by rw [← hg.get hc]; exact hn)

/-! ## Storage over a file -/

/-- A reader that knows the slots of the file. -/
structure View (cap : Nat) (gs : List (List Bytes)) (s : Storage) : Prop where
  groups : Groups cap gs
  slots : s.slots = anchor cap 0 gs
  loc : s.loc.next = (if (gs.getLast?.getD []).length < cap then gs.length - 1 else gs.length)

theorem View.inner {cap : Nat} {gs : List (List Bytes)} {s : Storage} (h : View cap gs s) : s.slots.map (·.inner) = gs.map (table cap) := by
  rw [h.slots, anchor_inner]

theorem setup_next {cap : Nat} (hc : 0 < cap) {gs : List (List Bytes)} (hg : Groups cap gs) (l : Locator) :
    (Locator.setup l (gs.map (table cap))).next = (if (gs.getLast?.getD []).length < cap then gs.length - 1 else gs.length) := by
  rcases List.eq_nil_or_concat gs with rfl | ⟨init, g, rfl⟩
  · rw [if_pos (by simpa using hc)]; rfl
  · rw [List.concat_eq_append] at *
    have hsp := hg.split
    rw [setup_eq hsp.1 hsp.2.1]
    simp only [List.getLast?_concat, Option.getD_some]
    by_cases hlt : g.length < cap
    · rw [if_pos hlt, if_pos hlt]; simp
    · rw [if_neg hlt, if_neg hlt]

theorem open_view {cap : Nat} (hc : 0 < cap) (chk : Bool) {gs : List (List Bytes)} (hg : Groups cap gs) (hl : (fileOf cap gs).length < 2 ^ 63)
    {fuel : Nat} (hf : gs.length < fuel) : ∃ s, Storage.open_ chk fuel (fileOf cap gs) = some (.ok s) ∧ View cap gs s := by
  refine ⟨_, by rw [Storage.open_, load_file chk hg.group hl hf]; rfl, hg, rfl, ?_⟩
  dsimp only
  rw [anchor_inner]
  exact setup_next hc hg _

theorem length_flatten_full {cap : Nat} : ∀ {gs : List (List Bytes)}, AllFull cap gs → gs.flatten.length = gs.length * cap
  | [], _ => by simp
  | g :: gs, h => by
    rw [List.flatten_cons, List.length_append, (h g (by simp)).2, length_flatten_full fun x hx => h x (by simp [hx])]
    simp only [List.length_cons, Nat.succ_mul]
    omega

theorem View.count {cap : Nat} {gs : List (List Bytes)} {s : Storage} (h : View cap gs s) : s.count cap = gs.flatten.length := by
  have hlen : s.slots.length = gs.length := by rw [h.slots, anchor_length]
  have hl := h.loc
  rcases List.eq_nil_or_concat gs with rfl | ⟨init, g, rfl⟩
  · unfold Storage.count
    rw [h.slots]
    simp [anchor]
  · rw [List.concat_eq_append] at *
    have hsp := h.groups.split
    have hle := hsp.2.1.le
    simp only [List.getLast?_concat, Option.getD_some] at hl
    have hfl : (init ++ [g]).flatten.length = init.length * cap + g.length := by
      rw [List.flatten_append, List.length_append, length_flatten_full hsp.1]; simp
    rw [hfl]
    have hget := getElem?_map_inner h.inner s.loc.next
    unfold Storage.count
    by_cases hlt : g.length < cap
    · rw [if_pos hlt] at hl
      have hl' : s.loc.next = init.length := by simpa using hl
      rw [hl'] at hget
      simp only [List.getElem?_concat_length, Option.map_some] at hget
      cases hx : s.slots[s.loc.next]? with
      | none => rw [hl'] at hx; rw [hx] at hget; simp at hget
      | some a =>
        rw [hl'] at hx
        rw [hx] at hget
        simp only [Option.map_some, Option.some.injEq] at hget
        simp only
        rw [hget, table_freeIndex hsp.2.1, if_pos hlt, hl']
    · rw [if_neg hlt] at hl
      rw [hl, List.getElem?_eq_none (by rw [hlen]; exact Nat.le_refl _), hlen]
      simp only [List.length_append, List.length_cons, List.length_nil, Nat.add_mul]
      omega

/-! ## Iterators -/

/-- Calling `next` repeatedly gives the items of the list, then `None`. `next s r`: called in state `s` it returns `r.1` and leaves `r.2`. -/
inductive Yields {σ α : Type} (next : σ → Option α × σ → Prop) : σ → List α → Prop
  | done {s s' : σ} : next s (none, s') → Yields next s []
  | step {s s' : σ} {a : α} {l : List α} : next s (some a, s') → Yields next s' l → Yields next s (a :: l)

/-- The file holds the packets of these slots at their places. Nothing is said about the bytes of the tables, nor about what follows. -/
inductive Bodies (cap : Nat) : List (List Bytes) → Bytes → Prop
  | nil (d : Bytes) : Bodies cap [] d
  | cons {t d : Bytes} {g : List Bytes} {gs : List (List Bytes)} : t.length = 20 + 8 * cap → Bodies cap gs d → Bodies cap (g :: gs) (t ++ (g.flatten ++ d))

theorem Bodies.append {cap : Nat} {b : List (List Bytes)} {d : Bytes} (h : Bodies cap b d) : ∀ {a : List (List Bytes)}, (∀ g ∈ a, Group cap g) →
    Bodies cap (a ++ b) (fileOf cap a ++ d)
  | [], _ => by simpa using h
  | g :: a, hg => by
    have hle := (hg g (by simp)).le
    have hr := region_length (cap := cap) hle
    rw [List.cons_append, fileOf_cons, region, List.append_assoc, List.append_assoc]
    refine .cons ?_ (h.append fun x hx => hg x (by simp [hx]))
    rw [region, List.length_append] at hr
    omega

theorem Bodies.file {cap : Nat} {gs : List (List Bytes)} (hg : ∀ g ∈ gs, Group cap g) (tail : Bytes) : Bodies cap gs (fileOf cap gs ++ tail) := by
  have := (Bodies.nil (cap := cap) tail).append hg
  rwa [List.append_nil] at this

/-- Where the packets of a slot are. -/
theorem Bodies.at_ {cap : Nat} : ∀ {gs : List (List Bytes)} {data : Bytes}, Bodies cap gs data → (∀ g ∈ gs, Group cap g) → ∀ {j : Nat} {g : List Bytes}, gs[j]? = some g →
    (fileOf cap (gs.take j)).length + (20 + 8 * cap) ≤ data.length ∧
    ∃ t, data.drop ((fileOf cap (gs.take j)).length + (20 + 8 * cap)) = g.flatten ++ t
  | _, _, .nil _, _, j, g, hj => by simp at hj
  | _, _, .cons (t := t) (d := d) (g := g') ht h, hg, 0, g, hj => by
    simp only [List.getElem?_cons_zero, Option.some.injEq] at hj
    subst hj
    simp only [List.take_zero, fileOf_nil, List.length_nil, Nat.zero_add, List.length_append]
    exact ⟨by omega, d, by rw [← ht, List.drop_left]⟩
  | _, _, .cons (t := t) (d := d) (g := g') (gs := gs) ht h, hg, j + 1, g, hj => by
    rw [List.getElem?_cons_succ] at hj
    obtain ⟨h1, t', h2⟩ := Bodies.at_ h (fun x hx => hg x (by simp [hx])) hj
    have hr := region_length (cap := cap) (hg g' (by simp)).le
    rw [List.take_succ_cons, fileOf_cons, List.length_append, hr]
    simp only [List.length_append]
    refine ⟨by omega, t', ?_⟩
    rw [← List.append_assoc, ← h2, show 20 + 8 * cap + g'.flatten.length + (fileOf cap (gs.take j)).length + (20 + 8 * cap) =
      (t ++ g'.flatten).length + ((fileOf cap (gs.take j)).length + (20 + 8 * cap)) by rw [List.length_append]; omega, List.drop_length_add_append]

/-- `Storage::nth` finds its packet. -/
theorem Bodies.offset {cap : Nat} (hc : 0 < cap) {gs : List (List Bytes)} {data : Bytes} (h : Bodies cap gs data) (hg : Groups cap gs) {s : Storage}
    (hs : s.slots.map (·.inner) = gs.map (table cap)) {n : Nat} {x : Bytes} (hn : gs.flatten[n]? = some x) :
    ∃ off t, s.offsetOf cap n = .ok (some off) ∧ off ≤ data.length ∧ data.drop off = x ++ t := by
  obtain ⟨a, _, e, _, hal⟩ := offsetOf_some hc hg hs hn
  rw [hg.get hc] at hn
  cases hy : gs[n / cap]? with
  | none => rw [hy] at hn; simp at hn
  | some g =>
    rw [hy] at hn hal
    simp only [Option.bind_some, Option.getD_some] at hn hal
    obtain ⟨hk, hgk⟩ := List.getElem?_eq_some_iff.mp hn
    have hsg : g.flatten = (g.take (n % cap)).flatten ++ (x ++ (g.drop (n % cap + 1)).flatten) := by
      conv => lhs; rw [← List.take_append_drop (n % cap) g, List.drop_eq_getElem_cons hk, hgk]
      simp
    obtain ⟨h1, t, h2⟩ := h.at_ hg.group hy
    have hlen := congrArg List.length h2
    rw [hsg] at h2 hlen
    simp only [List.length_drop, List.length_append] at hlen
    refine ⟨a.length, (g.drop (n % cap + 1)).flatten ++ t, e, by omega, ?_⟩
    rw [hal, ← List.drop_drop, h2, List.append_assoc, List.drop_left, List.append_assoc]

section
variable {O : BlockOps} {Q : PayloadOps} {S : BlockSpec O}

/-- An iterator that has `ps` before it: the rest of a slot in the buffer, then whole slots. -/
def Before (cap : Nat) (data : Bytes) (it : Iter) (ps : List (Packet O Q)) : Prop :=
  ∃ pre d todo cur rest, data = pre ++ d ∧ Bodies cap todo d ∧ it.spans = ⟨pre.length, todo.map (table cap)⟩ ∧
    it.buffer = (cur.map wire).flatten ∧ todo.flatten = rest.map wire ∧ ps = cur ++ rest ∧ (∀ g ∈ todo, Group cap g ∧ g ≠ [])

theorem flatten_wire_nil {cur : List (Packet O Q)} (h : ∀ p ∈ cur, p.Ok S) (h0 : (cur.map wire).flatten = []) : cur = [] := by
  cases cur with
  | nil => rfl
  | cons p cur =>
    simp only [List.map_cons, List.flatten_cons, List.append_eq_nil_iff] at h0
    exact absurd h0.1 (wire_ne (h p (by simp)))

/-- The buffer is refilled when it is empty. -/
theorem Before.refill {cap : Nat} {data : Bytes} {it : Iter} {ps : List (Packet O Q)} (h : Before cap data it ps) (hl : data.length < 2 ^ 63)
    (hok : ∀ p ∈ ps, p.Ok S) :
    (ps = [] ∧ it.refill data = none) ∨
    (∃ it1 p cur, it.refill data = some (.ok it1) ∧ it1.buffer = wire p ++ (List.map wire cur).flatten ∧ ∃ rest, ps = p :: (cur ++ rest) ∧
      ∀ b, b = (List.map wire cur).flatten → Before cap data { it1 with buffer := b } (cur ++ rest)) := by
  obtain ⟨pre, d, todo, cur, rest, hd, hbd, hs, hb, ht, hps, hg⟩ := h
  cases cur with
  | cons p cur =>
    right
    refine ⟨it, p, cur, ?_, by rw [hb]; simp, rest, by rw [hps]; rfl, ?_⟩
    · unfold Iter.refill
      rw [if_pos]
      rw [hb]
      simp only [List.map_cons, List.flatten_cons, ne_eq, List.append_eq_nil_iff, not_and]
      intro h0
      exact absurd h0 (wire_ne (hok p (by rw [hps]; simp)))
    · intro b hb'
      exact ⟨pre, d, todo, cur, rest, hd, hbd, hs, hb', ht, rfl, hg⟩
  | nil =>
    cases todo with
    | nil =>
      left
      have hr : rest = [] := by simpa using ht
      refine ⟨by rw [hps, hr]; rfl, ?_⟩
      unfold Iter.refill
      rw [if_neg (by simp [hb]), hs]
      rfl
    | cons g todo =>
      right
      obtain ⟨hgr, hgne⟩ := hg g (by simp)
      rw [List.flatten_cons] at ht
      obtain ⟨r1, r2, hr, h1, h2⟩ := List.map_eq_append_iff.mp ht.symm
      cases r1 with
      | nil => exact absurd (by simpa using h1.symm) hgne
      | cons p r1 =>
        have hw : 0 < g.flatten.length := by
          rw [← h1]
          have := wire_pos (hok p (by rw [hps, hr]; simp))
          simp only [List.map_cons, List.flatten_cons, List.length_append]
          omega
        have hreg := region_length (cap := cap) hgr.le
        have hen : (table cap g).enc.length = 20 + 8 * cap := by
          rw [region, List.length_append] at hreg; omega
        have hdl := congrArg List.length hd
        cases hbd with
        | @cons t d' _ _ ht' hbd' =>
        simp only [List.length_append] at hdl
        refine ⟨⟨⟨(pre ++ (t ++ g.flatten)).length, todo.map (table cap)⟩, g.flatten⟩, p, r1, ?_, ?_, r2, ?_, ?_⟩
        · unfold Iter.refill
          rw [if_neg (by simp [hb]), hs]
          simp only [List.map_cons, Spans.next]
          rw [table_width hgr, if_neg (by omega), table_size]
          simp only
          unfold fetch
          have hsub : pre.length + g.flatten.length + (20 + 8 * cap) - (pre.length + (20 + 8 * cap)) = g.flatten.length := by omega
          simp only
          rw [hsub, allocZeroed, if_pos (by omega)]
          simp only
          have hdrop : data.drop (pre.length + (20 + 8 * cap)) = g.flatten ++ d' := by
            rw [hd, ← List.drop_drop, List.drop_left, ← ht', List.drop_left]
          rw [hdrop, if_pos (by simp), List.take_left, Out.map_ok, List.length_append, List.length_append, ht']
          congr 4
          omega
        · rw [← h1]; simp
        · rw [hps, hr]; rfl
        · intro b hb'
          exact ⟨pre ++ (t ++ g.flatten), d', todo, r1, r2, by rw [hd]; simp only [List.append_assoc], hbd', rfl, hb', h2.symm, rfl, fun x hx => hg x (by simp [hx])⟩

theorem Before.yields {cap : Nat} {data : Bytes} (hl : data.length < 2 ^ 63) : ∀ (ps : List (Packet O Q)) {it : Iter}, Before cap data it ps →
    (∀ p ∈ ps, Storable S p) → Yields (fun it r => Iter.next (O := O) (Q := Q) data it = r) it (ps.map Out.ok)
  | [], it, h, hok => by
    rcases h.refill (S := S) hl (by simp) with ⟨_, e⟩ | ⟨_, _, _, _, _, _, e, _⟩
    · refine Yields.done (s' := ⟨it.spans.next.2, it.buffer⟩) ?_
      unfold Iter.next
      rw [e]
    · cases e
  | p :: ps, it, h, hok => by
    rcases h.refill (S := S) hl (fun x hx => (hok x hx).ok) with ⟨e, _⟩ | ⟨it1, q, cur, e, hb, rest, hps, hB⟩
    · cases e
    · injection hps with h1 h2
      subst h1 h2
      refine Yields.step (s' := { it1 with buffer := (cur.map wire).flatten }) ?_ (Before.yields hl (cur ++ rest) (hB _ rfl) fun x hx => hok x (by simp [hx]))
      unfold Iter.next
      rw [e]
      simp only
      rw [hb, read_wire (hok p (by simp))]

theorem nextFiltered_mono (rules : Rules O.BR (Packet O Q)) (data : Bytes) : ∀ {fuel : Nat} {it : Iter} {r}, Iter.nextFiltered rules data fuel it = some r →
    ∀ {fuel'}, fuel ≤ fuel' → Iter.nextFiltered rules data fuel' it = some r
  | 0, it, r, h, fuel', _ => by cases h
  | fuel + 1, it, r, h, 0, hle => by omega
  | fuel + 1, it, r, h, fuel' + 1, hle => by
    rw [Iter.nextFiltered.eq_def] at h ⊢
    simp only at h ⊢
    split at h
    · exact h
    · exact h
    · exact h
    · split at h
      · exact h
      · exact nextFiltered_mono rules data h (by omega)
      · exact h
      · exact h
      · exact h

/-- The filtered iterator, until the first accepted packet. -/
theorem Before.nextFiltered {cap : Nat} {data : Bytes} (hl : data.length < 2 ^ 63) (rules : Rules O.BR (Packet O Q)) : ∀ (ps : List (Packet O Q)) {it : Iter},
    Before cap data it ps → (∀ p ∈ ps, p.Ok S) →
    ∃ it', match ps.dropWhile (fun p => !accepted S rules p) with
      | [] => Iter.nextFiltered rules data (ps.length + 1) it = some (none, it')
      | p :: rest => Iter.nextFiltered rules data (ps.length + 1) it = some (some (.ok p), it') ∧ Before cap data it' rest
  | [], it, h, hok => by
    rcases h.refill (S := S) hl (by simp) with ⟨_, e⟩ | ⟨_, _, _, _, _, _, e, _⟩
    · refine ⟨⟨it.spans.next.2, it.buffer⟩, ?_⟩
      simp only [List.dropWhile_nil, Iter.nextFiltered]
      rw [e]
    · cases e
  | p :: ps, it, h, hok => by
    rcases h.refill (S := S) hl hok with ⟨e, _⟩ | ⟨it1, q, cur, e, hb, rest, hps, hB⟩
    · cases e
    · injection hps with h1 h2
      subst h1 h2
      obtain ⟨n, hf⟩ := filtered_wire (hok p (by simp)) rules (cur.map wire).flatten
      by_cases ha : accepted S rules p = true
      · refine ⟨{ it1 with buffer := (cur.map wire).flatten }, ?_⟩
        rw [List.dropWhile_cons_of_neg (by simp [ha])]
        refine ⟨?_, hB _ rfl⟩
        rw [Iter.nextFiltered.eq_def]
        simp only
        rw [e]
        simp only
        rw [hb, hf, if_pos ha]
      · obtain ⟨it', ih⟩ := Before.nextFiltered hl rules (cur ++ rest) (hB _ rfl) fun x hx => hok x (by simp [hx])
        refine ⟨it', ?_⟩
        rw [List.dropWhile_cons_of_pos (by simp [ha])]
        have hstep : Iter.nextFiltered rules data ((p :: (cur ++ rest)).length + 1) it =
            Iter.nextFiltered rules data ((cur ++ rest).length + 1) { it1 with buffer := (cur.map wire).flatten } := by
          rw [Iter.nextFiltered.eq_def]
          simp only
          rw [e]
          simp only
          rw [hb, hf, if_neg ha]
          rfl
        rw [hstep]
        exact ih

theorem filter_eq_dropWhile {α : Type} (f : α → Bool) (l : List α) :
    l.filter f = (match l.dropWhile (fun x => !f x) with | [] => [] | a :: r => a :: r.filter f) := by
  induction l with
  | nil => rfl
  | cons a l ih =>
    by_cases h : f a = true
    · rw [List.filter_cons_of_pos h, List.dropWhile_cons_of_neg (by simp [h])]
    · rw [List.filter_cons_of_neg h, List.dropWhile_cons_of_pos (by simp [h]), ih]

theorem Before.yields_filtered {cap : Nat} {data : Bytes} (hl : data.length < 2 ^ 63) (rules : Rules O.BR (Packet O Q)) (ps : List (Packet O Q)) {it : Iter}
    (h : Before cap data it ps) (hok : ∀ p ∈ ps, p.Ok S) :
    Yields (fun it r => ∃ fuel, Iter.nextFiltered rules data fuel it = some r) it ((ps.filter (accepted S rules)).map Out.ok) := by
  obtain ⟨n, hn⟩ : ∃ n, ps.length ≤ n := ⟨_, Nat.le_refl _⟩
  induction n generalizing ps it with
  | zero =>
    have : ps = [] := List.length_eq_zero_iff.mp (by omega)
    subst this
    obtain ⟨it', e⟩ := h.nextFiltered (S := S) hl rules [] hok
    exact Yields.done ⟨_, e⟩
  | succ n ih =>
    obtain ⟨it', e⟩ := h.nextFiltered (S := S) hl rules ps hok
    rw [filter_eq_dropWhile]
    have hsub := (List.dropWhile_sublist (l := ps) (fun p => !accepted S rules p))
    match hd : ps.dropWhile (fun p => !accepted S rules p) with
    | [] =>
      rw [hd] at e
      exact Yields.done ⟨_, e⟩
    | p :: rest =>
      rw [hd] at e hsub
      have hlen := hsub.length_le
      simp only [List.length_cons] at hlen
      exact Yields.step ⟨_, e.1⟩ (ih rest e.2 (fun x hx => hok x (hsub.subset (by simp [hx]))) (by omega))

end

end Brec
