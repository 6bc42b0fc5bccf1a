import Verif.Props.StorageEnds
/-!
# C58: iterating over a damaged storage
-/

namespace Brec.Props

open Rd

variable {O : BlockOps} {Q : PayloadOps} {S : BlockSpec O}

/-! ## Specification -/

/-- The damage spares the packet: it is not hit itself, and the packets in front of it in its slot keep their headers. -/
def Spared (cap : Nat) (ps : List (Packet O Q)) (hits : List (Nat × Bytes)) (j : Nat) : Prop :=
  (∀ h ∈ hits, h.1 ≠ j) ∧ ∀ h ∈ hits, ∀ p, h.1 < j → h.1 / cap = j / cap → ps[h.1]? = some p → h.2.take 29 = (wire p).take 29

/-! ## One slot -/

/-- Reading packet after packet from these bytes until there are none left gives these results. -/
inductive InTurn : Bytes → List (Out (Packet O Q)) → Prop
  | nil : InTurn [] []
  | cons {b : Bytes} {l : List (Out (Packet O Q))} : b ≠ [] → InTurn ((Packet.read (O := O) Q).run b).2 l → InTurn b (((Packet.read Q).run b).1 :: l)

theorem reads_exists : ∀ (n : Nat) (b : Bytes), b.length ≤ n → ∃ l : List (Out (Packet O Q)), InTurn b l
  | n, [], _ => ⟨[], .nil⟩
  | 0, c :: b, h => by simp at h
  | n + 1, c :: b, h => by
    obtain ⟨l, hl⟩ := reads_exists n ((Packet.read (O := O) Q).run (c :: b)).2 (by
      have := read_takes (O := O) (Q := Q) (c :: b) (by simp)
      omega)
    exact ⟨_, .cons (by simp) hl⟩

/-- With its header, a packet takes its own bytes, whatever has become of the rest of it. -/
theorem read_framed {p : Packet O Q} (hp : p.Ok S) {c : Bytes} (h29 : c.take 29 = (wire p).take 29) (hl : c.length = (wire p).length) (t : Bytes) :
    ((Packet.read (O := O) Q).run (c ++ t)).2 = t := by
  obtain ⟨h, pb, sh⟩ := hp.shape
  have hw := wire_eq hp.blocks sh
  have hb : h.bytes.length = 29 := PacketHeader.bytes_length h
  have ht : (h.bytes ++ (S.encs p.blocks ++ pb)).take 29 = h.bytes := by rw [← hb, List.take_left]
  rw [hw, ht] at h29
  obtain ⟨d, hd⟩ : ∃ d, c = h.bytes ++ d := ⟨c.drop 29, by rw [← h29, List.take_append_drop]⟩
  have hdl : d.length = h.size := by
    have := congrArg List.length hd
    rw [hl, hw, List.length_append, List.length_append, List.length_append] at this
    rw [sh.size]; omega
  unfold Packet.read
  rw [hd, List.append_assoc, P.bind_ok (PacketHeader.read_bytes sh.wf _), P.bind_ok (show (P.lift (allocZeroed h.size)).run (d ++ t) = (.ok (), d ++ t) by
    rw [allocZeroed, if_pos sh.small]; rfl)]
  rw [P.bind_ok (P.readExact_append' hdl t)]
  rfl

/-- A slot: what is spared comes up, in order. `xs` are the bytes as they are now, with the packets that were written. -/
theorem slot_reads {good : Nat → Bool} : ∀ (xs : List (Bytes × Packet O Q)) (i : Nat), (∀ x ∈ xs, Storable S x.2 ∧ x.1.length = (wire x.2).length) →
    (∀ k x, xs[k]? = some x → good (i + k) = true → x.1 = wire x.2 ∧ ∀ k' y, k' < k → xs[k']? = some y → y.1.take 29 = (wire y.2).take 29) →
    ∃ l : List (Out (Packet O Q)), InTurn (xs.map (·.1)).flatten l ∧ (((xs.map (·.2)).zipIdx i).filter (good ·.2) |>.map fun x => Out.ok x.1).Sublist l
  | [], _, _, _ => ⟨[], .nil, .refl _⟩
  | (c, p) :: xs, i, hx, hg => by
    obtain ⟨hp, hcl⟩ : Storable S p ∧ c.length = (wire p).length := hx (c, p) (by simp)
    by_cases h29 : c.take 29 = (wire p).take 29
    · obtain ⟨l, hl, hs⟩ := slot_reads (good := good) xs (i + 1) (fun x h => hx x (by simp [h])) (by
        intro k x hk hgd
        obtain ⟨h1, h2⟩ := hg (k + 1) x (by simpa using hk) (by rw [← hgd]; congr 1; omega)
        exact ⟨h1, fun k' y hlt hy => h2 (k' + 1) y (by omega) (by simpa using hy)⟩)
      have hne : c ++ (xs.map (·.1)).flatten ≠ [] := by
        have := wire_pos hp.ok
        intro h0
        have := congrArg List.length h0
        rw [List.length_append, hcl] at this
        simp only [List.length_nil] at this
        omega
      refine ⟨((Packet.read Q).run (c ++ (xs.map (·.1)).flatten)).1 :: l, ?_, ?_⟩
      · rw [List.map_cons, List.flatten_cons]
        refine .cons hne ?_
        rw [read_framed hp.ok h29 hcl]
        exact hl
      · rw [List.map_cons, List.zipIdx_cons]
        by_cases hgi : good i = true
        · rw [List.filter_cons_of_pos (by exact hgi), List.map_cons]
          have hcw : c = wire p := (hg 0 (c, p) rfl hgi).1
          rw [hcw, read_wire hp]
          exact hs.cons_cons _
        · rw [List.filter_cons_of_neg (by exact hgi)]
          exact hs.cons _
    · obtain ⟨l, hl⟩ := reads_exists (O := O) (Q := Q) _ (((c, p) :: xs).map (·.1)).flatten (Nat.le_refl _)
      refine ⟨l, hl, ?_⟩
      have : ((((c, p) :: xs).map (·.2)).zipIdx i).filter (good ·.2) = [] := by
        rw [List.filter_eq_nil_iff]
        intro x hxm hgd
        obtain ⟨k, hk, hxk⟩ : ∃ k, (((c, p) :: xs).map (·.2))[k]? = some x.1 ∧ x.2 = i + k := by
          obtain ⟨k, hk, e⟩ := List.mem_iff_getElem.mp hxm
          rw [List.getElem_zipIdx] at e
          rw [List.length_zipIdx] at hk
          exact ⟨k, by rw [← e, List.getElem?_eq_getElem hk], by rw [← e]⟩
        rw [List.getElem?_map] at hk
        cases hy : ((c, p) :: xs)[k]? with
        | none => rw [hy] at hk; simp at hk
        | some y =>
          obtain ⟨h1, h2⟩ := hg k y hy (by rw [← hxk]; exact hgd)
          cases k with
          | zero =>
            simp only [List.getElem?_cons_zero, Option.some.injEq] at hy
            subst hy
            exact h29 (congrArg (List.take 29) h1)
          | succ k => exact h29 (h2 0 (c, p) (by omega) rfl)
      rw [this]
      exact List.nil_sublist _

/-! ## All slots -/

/-- Slot after slot. -/
inductive SlotReads : List (List Bytes) → List (Out (Packet O Q)) → Prop
  | nil : SlotReads [] []
  | cons {g : List Bytes} {gs : List (List Bytes)} {l l' : List (Out (Packet O Q))} : InTurn g.flatten l → SlotReads gs l' → SlotReads (g :: gs) (l ++ l')

theorem slots_read {cap : Nat} (hc : 0 < cap) {good : Nat → Bool} : ∀ (ts : List (List (Bytes × Packet O Q))) (m : Nat),
    (∀ x ∈ ts.flatten, Storable S x.2 ∧ x.1.length = (wire x.2).length) → (∀ t ∈ ts, t.length ≤ cap) → (∀ t ∈ ts.dropLast, t.length = cap) →
    (∀ k x, ts.flatten[k]? = some x → good (m * cap + k) = true → x.1 = wire x.2 ∧
      ∀ k' y, k' < k → k' / cap = k / cap → ts.flatten[k']? = some y → y.1.take 29 = (wire y.2).take 29) →
    ∃ l : List (Out (Packet O Q)), SlotReads (ts.map (List.map (·.1))) l ∧
      (((ts.flatten.map (·.2)).zipIdx (m * cap)).filter (good ·.2) |>.map fun x => Out.ok x.1).Sublist l
  | [], _, _, _, _, _ => ⟨[], .nil, .refl _⟩
  | t :: ts, m, hx, hle, hfull, hg => by
    have htl := hle t (by simp)
    obtain ⟨l, hl, hs⟩ := slot_reads (good := good) t (m * cap) (fun x h => hx x (by simp [h])) (by
      intro k x hk hgd
      have hlt := (List.getElem?_eq_some_iff.mp hk).1
      obtain ⟨h1, h2⟩ := hg k x (by rw [List.flatten_cons, List.getElem?_append_left hlt]; exact hk) hgd
      refine ⟨h1, fun k' y hlt' hy => h2 k' y hlt' ?_ ?_⟩
      · rw [Nat.div_eq_of_lt (by omega), Nat.div_eq_of_lt (by omega)]
      · rw [List.flatten_cons, List.getElem?_append_left (by omega)]; exact hy)
    by_cases hts : ts = []
    · subst hts
      refine ⟨l ++ [], .cons hl .nil, ?_⟩
      simpa using hs
    · have ht : t.length = cap := hfull t (by rw [List.dropLast_cons_of_ne_nil hts]; simp)
      obtain ⟨l', hl', hs'⟩ := slots_read hc (good := good) ts (m + 1) (fun x h => hx x (by rw [List.flatten_cons]; exact List.mem_append_right _ h))
        (fun x h => hle x (by simp [h])) (fun x h => hfull x (by rw [List.dropLast_cons_of_ne_nil hts]; exact List.mem_cons_of_mem _ h)) (by
          intro k x hk hgd
          obtain ⟨h1, h2⟩ := hg (cap + k) x (by rw [List.flatten_cons, List.getElem?_append_right (by omega), ht, Nat.add_sub_cancel_left]; exact hk)
            (by rw [← hgd]; congr 1; rw [Nat.add_mul]; omega)
          refine ⟨h1, fun k' y hlt hd hy => h2 (cap + k') y (by omega) ?_ ?_⟩
          · rw [Nat.add_div_left _ hc, Nat.add_div_left _ hc, hd]
          · rw [List.flatten_cons, List.getElem?_append_right (by omega), ht, Nat.add_sub_cancel_left]; exact hy)
      refine ⟨l ++ l', .cons hl hl', ?_⟩
      rw [List.flatten_cons, List.map_append, List.zipIdx_append, List.filter_append, List.map_append, List.length_map, ht]
      have : m * cap + cap = (m + 1) * cap := by rw [Nat.add_mul]; omega
      rw [this]
      exact hs.append hs'

/-! ## The iterator -/

theorem buffer_reads {data : Bytes} {spans : Spans} {l : List (Out (Packet O Q))}
    (h : Yields (fun it r => Iter.next (O := O) (Q := Q) data it = r) ⟨spans, []⟩ l) {b : Bytes} {l0 : List (Out (Packet O Q))} (hb : InTurn b l0) :
    Yields (fun it r => Iter.next (O := O) (Q := Q) data it = r) ⟨spans, b⟩ (l0 ++ l) := by
  induction hb with
  | nil => exact h
  | @cons b l' hne _ ih =>
    refine Yields.step (s' := ⟨spans, ((Packet.read (O := O) Q).run b).2⟩) ?_ ih
    unfold Iter.next Iter.refill
    rw [if_pos hne]

theorem slots_yield {cap : Nat} {data : Bytes} (hl : data.length < 2 ^ 63) {gs : List (List Bytes)} {l : List (Out (Packet O Q))} (h : SlotReads gs l) :
    ∀ (pre : Bytes), data = pre ++ fileOf cap gs → (∀ g ∈ gs, Group cap g ∧ g ≠ []) →
    Yields (fun it r => Iter.next (O := O) (Q := Q) data it = r) ⟨⟨pre.length, gs.map (table cap)⟩, []⟩ l := by
  induction h with
  | nil =>
    intro pre _ _
    refine Yields.done (s' := ⟨⟨pre.length, []⟩, []⟩) ?_
    rfl
  | @cons g gs l l' hr _ ih =>
    intro pre hd hg
    obtain ⟨hgr, hgne⟩ := hg g (by simp)
    have hreg := region_length (cap := cap) hgr.le
    have hen : (table cap g).enc.length = 20 + 8 * cap := by
      rw [region, List.length_append] at hreg; omega
    have hfne : g.flatten ≠ [] := by
      cases g with
      | nil => exact absurd rfl hgne
      | cons w g =>
        have := hgr.pos w (by simp)
        simp [this]
    have hw : 0 < g.flatten.length := List.length_pos_iff.mpr hfne
    rw [fileOf_cons, region] at hd
    have hdl := congrArg List.length hd
    simp only [List.length_append] at hdl
    have key := buffer_reads (spans := ⟨(pre ++ ((table cap g).enc ++ g.flatten)).length, gs.map (table cap)⟩)
      (ih (pre ++ ((table cap g).enc ++ g.flatten)) (by rw [hd]; simp only [List.append_assoc]) fun x hx => hg x (by simp [hx])) hr
    have hnext : Iter.next (O := O) (Q := Q) data ⟨⟨pre.length, (g :: gs).map (table cap)⟩, []⟩ =
        Iter.next (O := O) (Q := Q) data ⟨⟨(pre ++ ((table cap g).enc ++ g.flatten)).length, gs.map (table cap)⟩, g.flatten⟩ := by
      have e1 : Iter.refill data ⟨⟨pre.length, (g :: gs).map (table cap)⟩, []⟩ =
          some (.ok ⟨⟨(pre ++ ((table cap g).enc ++ g.flatten)).length, gs.map (table cap)⟩, g.flatten⟩) := by
        unfold Iter.refill
        rw [if_neg (by simp)]
        simp only [List.map_cons, Spans.next]
        rw [table_width hgr, if_neg (by omega), table_size]
        simp only
        unfold fetch
        have hsub : pre.length + g.flatten.length + (20 + 8 * cap) - (pre.length + (20 + 8 * cap)) = g.flatten.length := by omega
        simp only
        rw [hsub, allocZeroed, if_pos (by omega)]
        simp only
        have hdrop : data.drop (pre.length + (20 + 8 * cap)) = g.flatten ++ fileOf cap gs := by
          rw [hd, ← List.drop_drop, List.drop_left, ← hen, List.append_assoc, List.drop_left]
        rw [hdrop, if_pos (by simp), List.take_left, Out.map_ok, List.length_append, List.length_append, hen]
        congr 4
        omega
      have e2 : Iter.refill data ⟨⟨(pre ++ ((table cap g).enc ++ g.flatten)).length, gs.map (table cap)⟩, g.flatten⟩ =
          some (.ok ⟨⟨(pre ++ ((table cap g).enc ++ g.flatten)).length, gs.map (table cap)⟩, g.flatten⟩) := by
        unfold Iter.refill
        rw [if_pos hfne]
      unfold Iter.next
      rw [e1, e2]
    generalize l ++ l' = L at key
    cases key with
    | done h => exact .done (hnext.trans h)
    | step h hy => exact .step (hnext.trans h) hy

theorem Loops.yields {σ α : Type} {f : σ → Option (Out α) × σ} {s : σ} {l : List (Out α)} (h : Loops (fun s r => f s = r) s l) (hp : .panic ∉ l) :
    Yields (fun s r => f s = r) s l := by
  induction h with
  | done h => exact .done h
  | panic => simp at hp
  | step h _ _ ih => exact .step h (ih fun hm => hp (List.mem_cons_of_mem _ hm))

theorem tables_congr {cap : Nat} : ∀ {gs gs' : List (List Bytes)}, gs'.map (List.map List.length) = gs.map (List.map List.length) →
    gs.map (table cap) = gs'.map (table cap)
  | [], [], _ => rfl
  | [], _ :: _, h => by simp at h
  | _ :: _, [], h => by simp at h
  | g :: gs, g' :: gs', h => by
    simp only [List.map_cons, List.cons.injEq] at h
    rw [List.map_cons, List.map_cons, tables_congr h.2, table_congr h.1]

/-- Chunks and packets in pairs. -/
theorem pair_up {α β : Type} : ∀ (gs : List (List α)) (ps : List β), gs.flatten.length = ps.length →
    ∃ ts : List (List (α × β)), ts.map (List.map (·.1)) = gs ∧ ts.flatten.map (·.2) = ps
  | [], ps, h => ⟨[], rfl, by
      have : ps = [] := List.length_eq_zero_iff.mp (by simpa using h.symm)
      rw [this]; rfl⟩
  | g :: gs, ps, h => by
    rw [List.flatten_cons, List.length_append] at h
    obtain ⟨ts, h1, h2⟩ := pair_up gs (ps.drop g.length) (by rw [List.length_drop]; omega)
    have hz : g.length = (ps.take g.length).length := by rw [List.length_take]; omega
    refine ⟨(g.zip (ps.take g.length)) :: ts, ?_, ?_⟩
    · rw [List.map_cons, h1, List.map_fst_zip (Nat.le_of_eq hz)]
    · rw [List.flatten_cons, List.map_append, h2, List.map_snd_zip (Nat.le_of_eq hz.symm), List.take_append_drop]

/-- **C58, `iter()`, the part that holds.** Whatever is done to the bytes of any of the packets: the loop over `iter()` ends without a panic, and all packets come up that are not
hit themselves and have no packet with a damaged header in front of them in their slot, in their order. Damage to a header costs no packet of another slot, damage behind a
header no other packet at all. (The damage must not make up a header that announces 2^63 bytes, see `C67_huge`.) -/
theorem C58_iter_partial (hO : O.Safe) (hQ : Q.Safe) {cap : Nat} (hc : 0 < cap) {chk : Bool} {ops : List (Op O Q)} {data : Bytes} {s : Storage} (h : Reached cap chk ops data s)
    (hok : ∀ p ∈ log ops, Storable S p) (hs : Small cap (log ops)) :
    ∃ place : Nat → Nat, (∀ i p, (log ops)[i]? = some p → s.offsetOf cap i = .ok (some (place i)) ∧ wire p <+: data.drop (place i)) ∧
      ∀ hits, Hits (log ops) hits → (∀ n, Announced (patches place data hits) n → n < 2 ^ 63) →
        ∃ l, Loops (fun i r => Iter.next (O := O) (Q := Q) (patches place data hits) i = r) (Iter.new s) l ∧ .panic ∉ l ∧
          ∀ good : Nat → Bool, (∀ j, good j = true → Spared cap (log ops) hits j) →
            ((((log ops).zipIdx.filter (good ·.2)).map fun x => Out.ok x.1)).Sublist l := by
  obtain ⟨gs, v, hd, f, hl⟩ := h.view hc (fun p hp => (hok p hp).ok) hs
  subst hd
  refine ⟨placeOf cap gs, ?_, ?_⟩
  · intro i p hp
    obtain ⟨a, t, ho, e, hlen⟩ := offsetOf_some hc v.groups v.inner (n := i) (x := wire p) (by rw [f, List.getElem?_map, hp]; rfl)
    refine ⟨by rw [ho, placeOf, hlen], t, ?_⟩
    rw [e, placeOf, ← hlen, List.drop_left]
  · intro hits hh ha
    obtain ⟨gs', hg', hm, e, hj, hj'⟩ := patches_file hc hits v.groups (by
      intro x hx
      obtain ⟨p, hp, hpl⟩ := hh x hx
      exact ⟨wire p, by rw [f, List.getElem?_map, hp]; rfl, hpl⟩)
    rw [e] at ha
    rw [e]
    have hl' : (fileOf cap gs').length < 2 ^ 63 := by rw [fileOf_congr hm]; exact hl
    have htab : s.slots.map (·.inner) = gs'.map (table cap) := by
      rw [v.inner, tables_congr hm]
    obtain ⟨l, h1, _⟩ := C67_iter (O := O) (Q := Q) (fileOf cap gs') (Iter.new s)
    have hin : Iter.Within (fileOf cap gs') (Iter.new s) := by
      refine ⟨?_, 0, by simp [Iter.new]⟩
      simp only [Iter.new, htab, Nat.zero_add]
      rw [extent_tables hg'.group]
      exact Nat.le_refl _
    have hnp := iter_no_panic hO hQ hl' ha h1 hin
    refine ⟨l, h1, hnp, ?_⟩
    intro good hgood
    have hfl : gs'.flatten.length = (log ops).length := by
      have := congrArg (fun x : List (List Nat) => x.flatten.length) hm
      simp only [← List.map_flatten, List.length_map] at this
      rw [this, f, List.length_map]
    obtain ⟨ts, t1, t2⟩ := pair_up gs' (log ops) hfl
    have hat : ∀ {k : Nat} {x : Bytes × Packet O Q}, ts.flatten[k]? = some x → gs'.flatten[k]? = some x.1 ∧ (log ops)[k]? = some x.2 := by
      intro k x hx
      refine ⟨?_, ?_⟩
      · rw [← t1, ← List.map_flatten, List.getElem?_map, hx]; rfl
      · rw [← t2, List.getElem?_map, hx]; rfl
    have hcur : ∀ {k : Nat} {x : Bytes × Packet O Q}, ts.flatten[k]? = some x → x.1 = wire x.2 ∨ ∃ y ∈ hits, y.1 = k ∧ y.2 = x.1 := by
      intro k x hx
      obtain ⟨a1, a2⟩ := hat hx
      rcases hj' k with ⟨_, h⟩ | ⟨y, hy, hyk, h⟩
      · left
        rw [a1, f, List.getElem?_map, a2] at h
        simpa using h
      · right
        rw [a1] at h
        injection h with h
        exact ⟨y, hy, hyk, h.symm⟩
    have A1 : ∀ x ∈ ts.flatten, Storable S x.2 ∧ x.1.length = (wire x.2).length := by
      intro x hx
      obtain ⟨k, hk⟩ := List.getElem?_of_mem hx
      obtain ⟨_, a2⟩ := hat hk
      refine ⟨hok _ (List.mem_of_getElem? a2), ?_⟩
      rcases hcur hk with h | ⟨y, hy, hyk, h⟩
      · rw [h]
      · obtain ⟨p, hp, hpl⟩ := hh y hy
        rw [hyk, a2] at hp
        injection hp with hp
        rw [← h, hpl, hp]
    have A2 : ∀ t ∈ ts, t.length ≤ cap := by
      intro t ht
      have := (hg'.group (t.map (·.1)) (by rw [← t1]; exact List.mem_map_of_mem ht)).le
      simpa using this
    have A3 : ∀ t ∈ ts.dropLast, t.length = cap := by
      intro t ht
      have := hg'.full (t.map (·.1)) (by rw [← t1, ← List.map_dropLast]; exact List.mem_map_of_mem ht)
      simpa using this
    have A4 : ∀ (k : Nat) (x : Bytes × Packet O Q), ts.flatten[k]? = some x → good (0 * cap + k) = true → x.1 = wire x.2 ∧
        ∀ (k' : Nat) (y : Bytes × Packet O Q), k' < k → k' / cap = k / cap → ts.flatten[k']? = some y → y.1.take 29 = (wire y.2).take 29 := by
      intro k x hk hgd
      rw [Nat.zero_mul, Nat.zero_add] at hgd
      obtain ⟨g1, g2⟩ := hgood k hgd
      refine ⟨?_, ?_⟩
      · rcases hcur hk with h | ⟨y, hy, hyk, h⟩
        · exact h
        · exact absurd hyk (g1 y hy)
      · intro k' y hlt hdiv hy
        rcases hcur hy with h | ⟨z, hz, hzk, h⟩
        · rw [h]
        · rw [← h]
          exact g2 z hz y.2 (by omega) (by rw [hzk, hdiv]) (by rw [hzk]; exact (hat hy).2)
    obtain ⟨l2, hl2, hsub⟩ := slots_read (S := S) hc (good := good) ts 0 A1 A2 A3 A4
    rw [t1] at hl2
    have hy := slots_yield (cap := cap) hl' hl2 [] rfl fun g hg => ⟨hg'.group g hg, hg'.ne g hg⟩
    have hy1 := h1.yields hnp
    have hit : Iter.new s = ⟨⟨([] : Bytes).length, gs'.map (table cap)⟩, []⟩ := by rw [Iter.new, htab]; rfl
    rw [hit] at hy1
    rw [Yields.det hy1 hy]
    rw [t2, Nat.zero_mul] at hsub
    exact hsub

/-! The hypotheses are met: two packets in a slot; the bytes behind the header of the first are overwritten by zeros, the second comes up. -/

/-- The first packet, with zeros behind its header. -/
def maimed : Bytes := (wire samplePacket).take 29 ++ List.replicate 96 0

theorem maimed_length : maimed.length = (wire samplePacket).length := by decide +kernel

theorem announced_at {data : Bytes} {n : Nat} (h : Announced data n) :
    ∃ pos, pos < data.length ∧ (data.drop pos).take 8 = PACKET_SIG ∧ leNat ((data.drop (pos + 8)).take 8) = n := by
  obtain ⟨hn, pos, bl, flag, t, ht⟩ := h
  refine ⟨pos, ?_, ?_, ?_⟩
  · apply Nat.lt_of_not_le
    intro hle
    rw [List.drop_eq_nil_of_le hle, PacketHeader.raw] at ht
    simp [PACKET_SIG] at ht
  · rw [← ht, PacketHeader.raw]
    rfl
  · rw [← List.drop_drop, ← ht, PacketHeader.raw]
    simp only [List.append_assoc]
    rw [List.drop_left' (show PACKET_SIG.length = 8 from rfl), List.take_left' (leBytes_length 8 n)]
    exact leNat_leBytes_of_lt (by omega)

theorem twoPackets_small_two : Small 2 (log twoPackets) := by
  rw [twoPackets_log]
  unfold Small
  simp only [List.map_cons, List.map_nil, wire_sample_length, wire_other_length]
  decide

example (chk : Bool) : ∃ data s l, Reached 2 chk twoPackets data s ∧ ∃ data', openReader chk data' = some (.ok s) ∧
    Loops (fun i r => Iter.next (O := blockEnum sampleTypes) (Q := PEnum.ops []) data' i = r) (Iter.new s) l ∧ .panic ∉ l ∧ .ok otherPacket ∈ l ∧ data' ≠ data := by
  have hcap : (0 : Nat) < 2 := by decide
  obtain ⟨data, s, h⟩ := Reached.exists (S := sampleSpec) (cap := 2) hcap chk twoPackets twoPackets_storable twoPackets_small_two
  have hh : Hits (log twoPackets) [(0, maimed)] := by
    intro h hh
    rw [List.mem_singleton.mp hh, twoPackets_log]
    exact ⟨samplePacket, rfl, maimed_length⟩
  obtain ⟨place, hp, ho⟩ := C58_confined_partial (S := sampleSpec) hcap h twoPackets_storable twoPackets_small_two
  obtain ⟨place', hp', hi⟩ := C58_iter_partial (S := sampleSpec) (blockEnum_safe _) (PEnum.ops_safe _) hcap h twoPackets_storable twoPackets_small_two
  obtain ⟨gs, v, hd, f, hlen⟩ := h.view (S := sampleSpec) hcap (fun p hp => (twoPackets_storable p hp).ok) twoPackets_small_two
  rw [twoPackets_log] at f
  have hgs : gs = [[wire samplePacket, wire otherPacket]] := by
    refine groups_unique hcap v.groups ⟨?_, ?_, ?_⟩ (by rw [f]; rfl)
    · intro g hg
      rw [List.mem_singleton.mp hg]
      refine ⟨?_, by simp⟩
      intro w hw
      rcases List.mem_cons.mp hw with rfl | hw
      · decide +kernel
      · rw [List.mem_singleton.mp hw]; decide +kernel
    · intro g hg
      rw [List.mem_singleton.mp hg]; simp
    · simp
  have hoff : s.offsetOf 2 0 = .ok (some 36) := by
    obtain ⟨a, t, ho, _, hl⟩ := offsetOf_some hcap v.groups v.inner (n := 0) (x := wire samplePacket) (by rw [hgs]; rfl)
    rw [ho, hl, hgs]
    rfl
  have h0 : (log twoPackets)[0]? = some samplePacket := by rw [twoPackets_log]; rfl
  have e1 : place 0 = 36 := by
    have := (hp 0 _ h0).1
    rw [hoff] at this
    injection this with this; injection this with this; exact this.symm
  have e2 : place' 0 = 36 := by
    have := (hp' 0 _ h0).1
    rw [hoff] at this
    injection this with this; injection this with this; exact this.symm
  have hpl : ∀ q : Nat → Nat, q 0 = 36 → patches q data [(0, maimed)] = (table 2 [wire samplePacket, wire otherPacket]).enc ++ (maimed ++ wire otherPacket) := by
    intro q hq
    have : patches q data [(0, maimed)] = patch data 36 maimed := by
      simp only [patches, List.foldl_cons, List.foldl_nil, hq]
    rw [this, hd, hgs]
    decide +kernel
  have ha : ∀ n, Announced (patches place' data [(0, maimed)]) n → n < 2 ^ 63 := by
    intro n hn
    rw [hpl _ e2] at hn
    obtain ⟨pos, hlt, h8, hv⟩ := announced_at hn
    have hall : ∀ pos < 286, (((table 2 [wire samplePacket, wire otherPacket]).enc ++ (maimed ++ wire otherPacket)).drop pos).take 8 = PACKET_SIG →
        leNat ((((table 2 [wire samplePacket, wire otherPacket]).enc ++ (maimed ++ wire otherPacket)).drop (pos + 8)).take 8) < 2 ^ 63 := by
      decide +kernel
    have hll : ((table 2 [wire samplePacket, wire otherPacket]).enc ++ (maimed ++ wire otherPacket)).length = 286 := by decide +kernel
    rw [← hv]
    exact hall pos (by rw [← hll]; exact hlt) h8
  obtain ⟨l, hl, hnp, hsub⟩ := hi _ hh ha
  refine ⟨data, s, l, h, _, ?_, hl, hnp, ?_, ?_⟩
  · rw [hpl _ e2, ← hpl _ e1]
    exact (ho _ hh).1
  · have := hsub (· == 1) (by
      intro j hj
      have hj : j = 1 := by simpa using hj
      subst hj
      refine ⟨by simp, ?_⟩
      intro x hx p _ _ hxp
      rw [List.mem_singleton.mp hx] at hxp ⊢
      rw [h0] at hxp
      injection hxp with hxp
      rw [← hxp]
      decide +kernel)
    refine this.subset ?_
    rw [twoPackets_log]
    simp [List.zipIdx_cons]
  · rw [hpl _ e2, hd, hgs]
    decide +kernel

end Brec.Props
