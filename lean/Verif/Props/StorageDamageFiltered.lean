import Verif.Props.StorageDamage
import Verif.Props.Unique
/-!
# C58: the other ways to go over a damaged storage
-/

namespace Brec.Props

open Rd

variable {O : BlockOps} {Q : PayloadOps} {S : BlockSpec O}

/-! ## One slot, with rules -/

/-- What a caller of `filtered()` gets to see of a packet. -/
def lookShown : Out (Packet.Look (Packet O Q)) → List (Out (Packet O Q))
  | .ok (.accepted _ p) => [.ok p]
  | .ok (.denied _) => []
  | .ok (.notEnough n) => [.err (.notEnoughData n)]
  | .err e => [.err e]
  | .panic => [.panic]

/-- Looking at packet after packet of these bytes until there are none left shows these results. -/
inductive LookTurn (rules : Rules O.BR (Packet O Q)) : Bytes → List (Out (Packet O Q)) → Prop
  | nil : LookTurn rules [] []
  | cons {b : Bytes} {l : List (Out (Packet O Q))} : b ≠ [] → LookTurn rules ((Packet.filtered Q rules).run b).2 l →
      LookTurn rules b (lookShown ((Packet.filtered Q rules).run b).1 ++ l)

theorem looks_exists (rules : Rules O.BR (Packet O Q)) : ∀ (n : Nat) (b : Bytes), b.length ≤ n → ∃ l, LookTurn rules b l
  | n, [], _ => ⟨[], .nil⟩
  | 0, c :: b, h => by simp at h
  | n + 1, c :: b, h => by
    obtain ⟨l, hl⟩ := looks_exists rules n ((Packet.filtered Q rules).run (c :: b)).2 (by
      have := filtered_takes rules (c :: b) (by simp)
      omega)
    exact ⟨_, .cons (by simp) hl⟩

/-- With its header, a packet takes its own bytes, whatever has become of the rest of it and whatever the rules say. -/
theorem filtered_framed (rules : Rules O.BR (Packet O Q)) {p : Packet O Q} (hp : p.Ok S) {c : Bytes} (h29 : c.take 29 = (wire p).take 29) (hl : c.length = (wire p).length)
    (t : Bytes) : ((Packet.filtered Q rules).run (c ++ t)).2 = t := by
  obtain ⟨h, pb, sh⟩ := hp.shape
  have hw := wire_eq hp.blocks sh
  have hb : h.bytes.length = 29 := PacketHeader.bytes_length h
  have ht : (h.bytes ++ (S.encs p.blocks ++ pb)).take 29 = h.bytes := by rw [← hb, List.take_left]
  rw [hw, ht] at h29
  obtain ⟨d, hd⟩ : ∃ d, c = h.bytes ++ d := ⟨c.drop 29, by rw [← h29, List.take_append_drop]⟩
  have hdl : d.length = h.size := by
    have := congrArg List.length hd
    rw [hl, hw, List.length_append, List.length_append, List.length_append] at this
    rw [sh.size]; omega
  unfold Packet.filtered
  rw [hd, List.append_assoc, P.bind_ok (PacketHeader.read_bytes sh.wf _), P.bind_ok (show (P.lift (allocZeroed h.size)).run (d ++ t) = (.ok (), d ++ t) by
    rw [allocZeroed, if_pos sh.small]; rfl)]
  rw [P.bind_ok (P.readExact_append' hdl t)]
  rfl

/-- A slot: what is spared and accepted comes up, in order. -/
theorem slot_looks (rules : Rules O.BR (Packet O Q)) {good : Nat → Bool} : ∀ (xs : List (Bytes × Packet O Q)) (i : Nat),
    (∀ x ∈ xs, Storable S x.2 ∧ x.1.length = (wire x.2).length) →
    (∀ k x, xs[k]? = some x → good (i + k) = true → x.1 = wire x.2 ∧ ∀ k' y, k' < k → xs[k']? = some y → y.1.take 29 = (wire y.2).take 29) →
    ∃ l : List (Out (Packet O Q)), LookTurn rules (xs.map (·.1)).flatten l ∧
      ((((xs.map (·.2)).zipIdx i).filter (good ·.2) |>.map (·.1)).filter (accepted S rules) |>.map Out.ok).Sublist l
  | [], _, _, _ => ⟨[], .nil, .refl _⟩
  | (c, p) :: xs, i, hx, hg => by
    obtain ⟨hp, hcl⟩ : Storable S p ∧ c.length = (wire p).length := hx (c, p) (by simp)
    by_cases h29 : c.take 29 = (wire p).take 29
    · obtain ⟨l, hl, hs⟩ := slot_looks rules (good := good) xs (i + 1) (fun x h => hx x (by simp [h])) (by
        intro k x hk hgd
        obtain ⟨h1, h2⟩ := hg (k + 1) x (by simpa using hk) (by rw [← hgd]; congr 1; omega)
        exact ⟨h1, fun k' y hlt hy => h2 (k' + 1) y (by omega) (by simpa using hy)⟩)
      have hne : c ++ (xs.map (·.1)).flatten ≠ [] := by
        have := wire_pos hp.ok
        intro h0
        have := congrArg List.length h0
        rw [List.length_append, hcl] at this
        simp only [List.length_nil] at this
        omega
      refine ⟨lookShown ((Packet.filtered Q rules).run (c ++ (xs.map (·.1)).flatten)).1 ++ l, ?_, ?_⟩
      · rw [List.map_cons, List.flatten_cons]
        refine .cons hne ?_
        rw [filtered_framed rules hp.ok h29 hcl]
        exact hl
      · rw [List.map_cons, List.zipIdx_cons]
        by_cases hgi : good i = true
        · rw [List.filter_cons_of_pos (by exact hgi), List.map_cons]
          have hcw : c = wire p := (hg 0 (c, p) rfl hgi).1
          obtain ⟨n, hf⟩ := filtered_wire hp.ok rules (xs.map (·.1)).flatten
          rw [hcw, hf]
          by_cases ha : accepted S rules p = true
          · rw [List.filter_cons_of_pos ha, if_pos ha]
            exact hs.cons_cons _
          · rw [List.filter_cons_of_neg ha, if_neg ha]
            exact hs
        · rw [List.filter_cons_of_neg (by exact hgi)]
          exact hs.trans (List.sublist_append_right _ _)
    · obtain ⟨l, hl⟩ := looks_exists rules _ (((c, p) :: xs).map (·.1)).flatten (Nat.le_refl _)
      refine ⟨l, hl, ?_⟩
      have : ((((c, p) :: xs).map (·.2)).zipIdx i).filter (good ·.2) = [] := by
        rw [List.filter_eq_nil_iff]
        intro x hxm hgd
        obtain ⟨k, hk, hxk⟩ : ∃ k, (((c, p) :: xs).map (·.2))[k]? = some x.1 ∧ x.2 = i + k := by
          obtain ⟨k, hk, e⟩ := List.mem_iff_getElem.mp hxm
          rw [List.getElem_zipIdx] at e
          rw [List.length_zipIdx] at hk
          exact ⟨k, by rw [← e, List.getElem?_eq_getElem hk], by rw [← e]⟩
        rw [List.getElem?_map] at hk
        cases hy : ((c, p) :: xs)[k]? with
        | none => rw [hy] at hk; simp at hk
        | some y =>
          obtain ⟨h1, h2⟩ := hg k y hy (by rw [← hxk]; exact hgd)
          cases k with
          | zero =>
            simp only [List.getElem?_cons_zero, Option.some.injEq] at hy
            subst hy
            exact h29 (congrArg (List.take 29) h1)
          | succ k => exact h29 (h2 0 (c, p) (by omega) rfl)
      rw [this]
      exact List.nil_sublist _

/-! ## All slots -/

/-- Slot after slot. -/
inductive SlotLooks (rules : Rules O.BR (Packet O Q)) : List (List Bytes) → List (Out (Packet O Q)) → Prop
  | nil : SlotLooks rules [] []
  | cons {g : List Bytes} {gs : List (List Bytes)} {l l' : List (Out (Packet O Q))} : LookTurn rules g.flatten l → SlotLooks rules gs l' → SlotLooks rules (g :: gs) (l ++ l')

theorem slots_look (rules : Rules O.BR (Packet O Q)) {cap : Nat} (hc : 0 < cap) {good : Nat → Bool} : ∀ (ts : List (List (Bytes × Packet O Q))) (m : Nat),
    (∀ x ∈ ts.flatten, Storable S x.2 ∧ x.1.length = (wire x.2).length) → (∀ t ∈ ts, t.length ≤ cap) → (∀ t ∈ ts.dropLast, t.length = cap) →
    (∀ k x, ts.flatten[k]? = some x → good (m * cap + k) = true → x.1 = wire x.2 ∧
      ∀ k' y, k' < k → k' / cap = k / cap → ts.flatten[k']? = some y → y.1.take 29 = (wire y.2).take 29) →
    ∃ l : List (Out (Packet O Q)), SlotLooks rules (ts.map (List.map (·.1))) l ∧
      ((((ts.flatten.map (·.2)).zipIdx (m * cap)).filter (good ·.2) |>.map (·.1)).filter (accepted S rules) |>.map Out.ok).Sublist l
  | [], _, _, _, _, _ => ⟨[], .nil, .refl _⟩
  | t :: ts, m, hx, hle, hfull, hg => by
    have htl := hle t (by simp)
    obtain ⟨l, hl, hs⟩ := slot_looks rules (good := good) t (m * cap) (fun x h => hx x (by simp [h])) (by
      intro k x hk hgd
      have hlt := (List.getElem?_eq_some_iff.mp hk).1
      obtain ⟨h1, h2⟩ := hg k x (by rw [List.flatten_cons, List.getElem?_append_left hlt]; exact hk) hgd
      refine ⟨h1, fun k' y hlt' hy => h2 k' y hlt' ?_ ?_⟩
      · rw [Nat.div_eq_of_lt (by omega), Nat.div_eq_of_lt (by omega)]
      · rw [List.flatten_cons, List.getElem?_append_left (by omega)]; exact hy)
    by_cases hts : ts = []
    · subst hts
      refine ⟨l ++ [], .cons hl .nil, ?_⟩
      simpa using hs
    · have ht : t.length = cap := hfull t (by rw [List.dropLast_cons_of_ne_nil hts]; simp)
      obtain ⟨l', hl', hs'⟩ := slots_look rules hc (good := good) ts (m + 1) (fun x h => hx x (by rw [List.flatten_cons]; exact List.mem_append_right _ h))
        (fun x h => hle x (by simp [h])) (fun x h => hfull x (by rw [List.dropLast_cons_of_ne_nil hts]; exact List.mem_cons_of_mem _ h)) (by
          intro k x hk hgd
          obtain ⟨h1, h2⟩ := hg (cap + k) x (by rw [List.flatten_cons, List.getElem?_append_right (by omega), ht, Nat.add_sub_cancel_left]; exact hk)
            (by rw [← hgd]; congr 1; rw [Nat.add_mul]; omega)
          refine ⟨h1, fun k' y hlt hd hy => h2 (cap + k') y (by omega) ?_ ?_⟩
          · rw [Nat.add_div_left _ hc, Nat.add_div_left _ hc, hd]
          · rw [List.flatten_cons, List.getElem?_append_right (by omega), ht, Nat.add_sub_cancel_left]; exact hy)
      refine ⟨l ++ l', .cons hl hl', ?_⟩
      rw [List.flatten_cons, List.map_append, List.zipIdx_append, List.filter_append, List.map_append, List.filter_append, List.map_append, List.length_map, ht]
      have : m * cap + cap = (m + 1) * cap := by rw [Nat.add_mul]; omega
      rw [this]
      exact hs.append hs'

/-! ## The iterator -/

theorem nextFiltered_first {rules : Rules O.BR (Packet O Q)} {data : Bytes} {spans : Spans} {b : Bytes} (hne : b ≠ []) :
    (∃ a, lookShown ((Packet.filtered Q rules).run b).1 = [a] ∧ ∃ fuel, Iter.nextFiltered rules data fuel ⟨spans, b⟩ = some (some a, ⟨spans, ((Packet.filtered Q rules).run b).2⟩)) ∨
    (lookShown ((Packet.filtered Q rules).run b).1 = [] ∧
      ∀ r fuel, Iter.nextFiltered rules data fuel ⟨spans, ((Packet.filtered Q rules).run b).2⟩ = some r → Iter.nextFiltered rules data (fuel + 1) ⟨spans, b⟩ = some r) := by
  have e : Iter.refill data ⟨spans, b⟩ = some (.ok ⟨spans, b⟩) := by
    unfold Iter.refill
    rw [if_pos hne]
  have hstep : ∀ fuel, Iter.nextFiltered rules data (fuel + 1) ⟨spans, b⟩ =
      (match ((Packet.filtered Q rules).run b).1 with
      | .ok (.accepted _ p) => some (some (.ok p), ⟨spans, ((Packet.filtered Q rules).run b).2⟩)
      | .ok (.denied _) => Iter.nextFiltered rules data fuel ⟨spans, ((Packet.filtered Q rules).run b).2⟩
      | .ok (.notEnough n) => some (some (.err (.notEnoughData n)), ⟨spans, ((Packet.filtered Q rules).run b).2⟩)
      | .err e => some (some (.err e), ⟨spans, ((Packet.filtered Q rules).run b).2⟩)
      | .panic => some (some .panic, ⟨spans, ((Packet.filtered Q rules).run b).2⟩)) := by
    intro fuel
    rw [Iter.nextFiltered, e]
    rfl
  generalize ((Packet.filtered Q rules).run b).2 = t at *
  generalize ((Packet.filtered Q rules).run b).1 = x at *
  match x with
  | .ok (.accepted n p) => exact .inl ⟨_, rfl, 1, hstep 0⟩
  | .ok (.denied n) => exact .inr ⟨rfl, fun r fuel h => (hstep fuel).trans h⟩
  | .ok (.notEnough n) => exact .inl ⟨_, rfl, 1, hstep 0⟩
  | .err e => exact .inl ⟨_, rfl, 1, hstep 0⟩
  | .panic => exact .inl ⟨_, rfl, 1, hstep 0⟩

theorem buffer_looks {rules : Rules O.BR (Packet O Q)} {data : Bytes} {spans : Spans} {l : List (Out (Packet O Q))}
    (h : Yields (fun it r => ∃ fuel, Iter.nextFiltered rules data fuel it = some r) ⟨spans, []⟩ l) {b : Bytes} {l0 : List (Out (Packet O Q))} (hb : LookTurn rules b l0) :
    Yields (fun it r => ∃ fuel, Iter.nextFiltered rules data fuel it = some r) ⟨spans, b⟩ (l0 ++ l) := by
  induction hb with
  | nil => exact h
  | @cons b l' hne _ ih =>
    rcases nextFiltered_first (rules := rules) (data := data) (spans := spans) hne with ⟨a, e, hf⟩ | ⟨e, hf⟩
    · rw [e]
      exact .step hf ih
    · rw [e, List.nil_append]
      generalize l' ++ l = L at ih
      cases ih with
      | done h =>
        obtain ⟨fuel, h⟩ := h
        exact .done ⟨_, hf _ _ h⟩
      | step h hy =>
        obtain ⟨fuel, h⟩ := h
        exact .step ⟨_, hf _ _ h⟩ hy

theorem slots_show {rules : Rules O.BR (Packet O Q)} {cap : Nat} {data : Bytes} (hl : data.length < 2 ^ 63) {gs : List (List Bytes)} {l : List (Out (Packet O Q))}
    (h : SlotLooks rules gs l) : ∀ (pre : Bytes), data = pre ++ fileOf cap gs → (∀ g ∈ gs, Group cap g ∧ g ≠ []) →
    Yields (fun it r => ∃ fuel, Iter.nextFiltered rules data fuel it = some r) ⟨⟨pre.length, gs.map (table cap)⟩, []⟩ l := by
  induction h with
  | nil =>
    intro pre _ _
    refine Yields.done (s' := ⟨⟨pre.length, []⟩, []⟩) ⟨1, ?_⟩
    rfl
  | @cons g gs l l' hr _ ih =>
    intro pre hd hg
    obtain ⟨hgr, hgne⟩ := hg g (by simp)
    have hreg := region_length (cap := cap) hgr.le
    have hen : (table cap g).enc.length = 20 + 8 * cap := by
      rw [region, List.length_append] at hreg; omega
    have hfne : g.flatten ≠ [] := by
      cases g with
      | nil => exact absurd rfl hgne
      | cons w g =>
        have := hgr.pos w (by simp)
        simp [this]
    have hw : 0 < g.flatten.length := List.length_pos_iff.mpr hfne
    rw [fileOf_cons, region] at hd
    have hdl := congrArg List.length hd
    simp only [List.length_append] at hdl
    have key := buffer_looks (spans := ⟨(pre ++ ((table cap g).enc ++ g.flatten)).length, gs.map (table cap)⟩)
      (ih (pre ++ ((table cap g).enc ++ g.flatten)) (by rw [hd]; simp only [List.append_assoc]) fun x hx => hg x (by simp [hx])) hr
    have hnext : ∀ fuel, Iter.nextFiltered rules data fuel ⟨⟨pre.length, (g :: gs).map (table cap)⟩, []⟩ =
        Iter.nextFiltered rules data fuel ⟨⟨(pre ++ ((table cap g).enc ++ g.flatten)).length, gs.map (table cap)⟩, g.flatten⟩ := by
      have e1 : Iter.refill data ⟨⟨pre.length, (g :: gs).map (table cap)⟩, []⟩ =
          some (.ok ⟨⟨(pre ++ ((table cap g).enc ++ g.flatten)).length, gs.map (table cap)⟩, g.flatten⟩) := by
        unfold Iter.refill
        rw [if_neg (by simp)]
        simp only [List.map_cons, Spans.next]
        rw [table_width hgr, if_neg (by omega), table_size]
        simp only
        unfold fetch
        have hsub : pre.length + g.flatten.length + (20 + 8 * cap) - (pre.length + (20 + 8 * cap)) = g.flatten.length := by omega
        simp only
        rw [hsub, allocZeroed, if_pos (by omega)]
        simp only
        have hdrop : data.drop (pre.length + (20 + 8 * cap)) = g.flatten ++ fileOf cap gs := by
          rw [hd, ← List.drop_drop, List.drop_left, ← hen, List.append_assoc, List.drop_left]
        rw [hdrop, if_pos (by simp), List.take_left, Out.map_ok, List.length_append, List.length_append, hen]
        congr 4
        omega
      have e2 : Iter.refill data ⟨⟨(pre ++ ((table cap g).enc ++ g.flatten)).length, gs.map (table cap)⟩, g.flatten⟩ =
          some (.ok ⟨⟨(pre ++ ((table cap g).enc ++ g.flatten)).length, gs.map (table cap)⟩, g.flatten⟩) := by
        unfold Iter.refill
        rw [if_pos hfne]
      intro fuel
      cases fuel with
      | zero => rfl
      | succ fuel => rw [Iter.nextFiltered, Iter.nextFiltered, e1, e2]
    generalize l ++ l' = L at key
    cases key with
    | done h =>
      obtain ⟨fuel, h⟩ := h
      exact .done ⟨fuel, (hnext fuel).trans h⟩
    | step h hy =>
      obtain ⟨fuel, h⟩ := h
      exact .step ⟨fuel, (hnext fuel).trans h⟩ hy

theorem Loops.yields_rel {σ α : Type} {R : σ → Option (Out α) × σ → Prop} {s : σ} {l : List (Out α)} (h : Loops R s l) (hp : .panic ∉ l) : Yields R s l := by
  induction h with
  | done h => exact .done h
  | panic => simp at hp
  | step h _ _ ih => exact .step h (ih fun hm => hp (List.mem_cons_of_mem _ hm))

/-- **C58, `filtered()`, the part that holds.** As `C58_iter_partial`: of the packets that are spared, those the rules accept come up, in their order. -/
theorem C58_filtered_partial (hO : O.Safe) (hQ : Q.Safe) (rules : Rules O.BR (Packet O Q)) {cap : Nat} (hc : 0 < cap) {chk : Bool} {ops : List (Op O Q)} {data : Bytes}
    {s : Storage} (h : Reached cap chk ops data s) (hok : ∀ p ∈ log ops, Storable S p) (hs : Small cap (log ops)) :
    ∃ place : Nat → Nat, (∀ i p, (log ops)[i]? = some p → s.offsetOf cap i = .ok (some (place i)) ∧ wire p <+: data.drop (place i)) ∧
      ∀ hits, Hits (log ops) hits → (∀ n, Announced (patches place data hits) n → n < 2 ^ 63) →
        ∃ l, Loops (fun i r => ∃ fuel, Iter.nextFiltered rules (patches place data hits) fuel i = some r) (Iter.new s) l ∧ .panic ∉ l ∧
          ∀ good : Nat → Bool, (∀ j, good j = true → Spared cap (log ops) hits j) →
            ((((log ops).zipIdx.filter (good ·.2)).map (·.1)).filter (accepted S rules) |>.map Out.ok).Sublist l := by
  obtain ⟨gs, v, hd, f, hl⟩ := h.view hc (fun p hp => (hok p hp).ok) hs
  subst hd
  refine ⟨placeOf cap gs, ?_, ?_⟩
  · intro i p hp
    obtain ⟨a, t, ho, e, hlen⟩ := offsetOf_some hc v.groups v.inner (n := i) (x := wire p) (by rw [f, List.getElem?_map, hp]; rfl)
    refine ⟨by rw [ho, placeOf, hlen], t, ?_⟩
    rw [e, placeOf, ← hlen, List.drop_left]
  · intro hits hh ha
    obtain ⟨gs', hg', hm, e, hj, hj'⟩ := patches_file hc hits v.groups (by
      intro x hx
      obtain ⟨p, hp, hpl⟩ := hh x hx
      exact ⟨wire p, by rw [f, List.getElem?_map, hp]; rfl, hpl⟩)
    rw [e] at ha
    rw [e]
    have hl' : (fileOf cap gs').length < 2 ^ 63 := by rw [fileOf_congr hm]; exact hl
    have htab : s.slots.map (·.inner) = gs'.map (table cap) := by
      rw [v.inner, tables_congr hm]
    obtain ⟨l, h1, _⟩ := C67_filtered (O := O) (Q := Q) rules (fileOf cap gs') (Iter.new s)
    have hin : Iter.Within (fileOf cap gs') (Iter.new s) := by
      refine ⟨?_, 0, by simp [Iter.new]⟩
      simp only [Iter.new, htab, Nat.zero_add]
      rw [extent_tables hg'.group]
      exact Nat.le_refl _
    have hnp := filtered_no_panic hO hQ hl' ha h1 hin
    refine ⟨l, h1, hnp, ?_⟩
    intro good hgood
    have hfl : gs'.flatten.length = (log ops).length := by
      have := congrArg (fun x : List (List Nat) => x.flatten.length) hm
      simp only [← List.map_flatten, List.length_map] at this
      rw [this, f, List.length_map]
    obtain ⟨ts, t1, t2⟩ := pair_up gs' (log ops) hfl
    have hat : ∀ {k : Nat} {x : Bytes × Packet O Q}, ts.flatten[k]? = some x → gs'.flatten[k]? = some x.1 ∧ (log ops)[k]? = some x.2 := by
      intro k x hx
      refine ⟨?_, ?_⟩
      · rw [← t1, ← List.map_flatten, List.getElem?_map, hx]; rfl
      · rw [← t2, List.getElem?_map, hx]; rfl
    have hcur : ∀ {k : Nat} {x : Bytes × Packet O Q}, ts.flatten[k]? = some x → x.1 = wire x.2 ∨ ∃ y ∈ hits, y.1 = k ∧ y.2 = x.1 := by
      intro k x hx
      obtain ⟨a1, a2⟩ := hat hx
      rcases hj' k with ⟨_, h⟩ | ⟨y, hy, hyk, h⟩
      · left
        rw [a1, f, List.getElem?_map, a2] at h
        simpa using h
      · right
        rw [a1] at h
        injection h with h
        exact ⟨y, hy, hyk, h.symm⟩
    have A1 : ∀ x ∈ ts.flatten, Storable S x.2 ∧ x.1.length = (wire x.2).length := by
      intro x hx
      obtain ⟨k, hk⟩ := List.getElem?_of_mem hx
      obtain ⟨_, a2⟩ := hat hk
      refine ⟨hok _ (List.mem_of_getElem? a2), ?_⟩
      rcases hcur hk with h | ⟨y, hy, hyk, h⟩
      · rw [h]
      · obtain ⟨p, hp, hpl⟩ := hh y hy
        rw [hyk, a2] at hp
        injection hp with hp
        rw [← h, hpl, hp]
    have A2 : ∀ t ∈ ts, t.length ≤ cap := by
      intro t ht
      have := (hg'.group (t.map (·.1)) (by rw [← t1]; exact List.mem_map_of_mem ht)).le
      simpa using this
    have A3 : ∀ t ∈ ts.dropLast, t.length = cap := by
      intro t ht
      have := hg'.full (t.map (·.1)) (by rw [← t1, ← List.map_dropLast]; exact List.mem_map_of_mem ht)
      simpa using this
    have A4 : ∀ (k : Nat) (x : Bytes × Packet O Q), ts.flatten[k]? = some x → good (0 * cap + k) = true → x.1 = wire x.2 ∧
        ∀ (k' : Nat) (y : Bytes × Packet O Q), k' < k → k' / cap = k / cap → ts.flatten[k']? = some y → y.1.take 29 = (wire y.2).take 29 := by
      intro k x hk hgd
      rw [Nat.zero_mul, Nat.zero_add] at hgd
      obtain ⟨g1, g2⟩ := hgood k hgd
      refine ⟨?_, ?_⟩
      · rcases hcur hk with h | ⟨y, hy, hyk, h⟩
        · exact h
        · exact absurd hyk (g1 y hy)
      · intro k' y hlt hdiv hy
        rcases hcur hy with h | ⟨z, hz, hzk, h⟩
        · rw [h]
        · rw [← h]
          exact g2 z hz y.2 (by omega) (by rw [hzk, hdiv]) (by rw [hzk]; exact (hat hy).2)
    obtain ⟨l2, hl2, hsub⟩ := slots_look (S := S) rules hc (good := good) ts 0 A1 A2 A3 A4
    rw [t1] at hl2
    have hy := slots_show (cap := cap) hl' hl2 [] rfl fun g hg => ⟨hg'.group g hg, hg'.ne g hg⟩
    have hy1 := h1.yields_rel hnp
    have hit : Iter.new s = ⟨⟨([] : Bytes).length, gs'.map (table cap)⟩, []⟩ := by rw [Iter.new, htab]; rfl
    rw [hit] at hy1
    rw [Yields.det_fuel (f := fun fuel it => Iter.nextFiltered rules (fileOf cap gs') fuel it) (fun h hle => nextFiltered_mono rules _ h hle) hy1 hy]
    rw [t2, Nat.zero_mul] at hsub
    exact hsub

/-! ## Ranges -/

theorem patches_length {place : Nat → Nat} : ∀ (hits : List (Nat × Bytes)) (data : Bytes), (∀ x ∈ hits, place x.1 + x.2.length ≤ data.length) →
    (patches place data hits).length = data.length
  | [], _, _ => rfl
  | x :: hits, data, h => by
    have hx := h x (by simp)
    have hl : (patch data (place x.1) x.2).length = data.length := by
      unfold patch
      simp only [List.length_append, List.length_take, List.length_drop]
      omega
    have := patches_length (place := place) hits (patch data (place x.1) x.2) (fun y hy => by rw [hl]; exact h y (by simp [hy]))
    rw [hl] at this
    exact this

theorem range_over {cap : Nat} {chk : Bool} {s : Storage} {data : Bytes} {n : Nat} (hin : ∀ j < n, (s.nth cap chk data j : Out (Option (Packet O Q))) ≠ .ok none)
    (hnp : ∀ j, (s.nth cap chk data j : Out (Option (Packet O Q))) ≠ .panic) (hout : ∀ j, n ≤ j → (s.nth cap chk data j : Out (Option (Packet O Q))) = .ok none) :
    ∀ (len start : Nat), ∃ l, Loops (fun i r => Range.next (O := O) (Q := Q) cap chk s data i = r) ⟨start, len⟩ l ∧ .panic ∉ l ∧ l.length = min len (n - start) ∧
      ∀ k p, k < len → s.nth cap chk data (start + k) = .ok (some p) → l[k]? = some (.ok p)
  | 0, start => ⟨[], .done (s' := ⟨start, 0⟩) rfl, by simp, by simp, by intro k p h; omega⟩
  | len + 1, start => by
    have e : Range.next (O := O) (Q := Q) cap chk s data ⟨start, len + 1⟩ = match (s.nth cap chk data start : Out (Option (Packet O Q))) with
      | .ok none => (none, ⟨start + 1, len⟩)
      | .ok (some p) => (some (.ok p), ⟨start + 1, len⟩)
      | .err e => (some (.err e), ⟨start + 1, len⟩)
      | .panic => (some .panic, ⟨start + 1, len⟩) := by
      rw [Range.next, if_neg (by simp)]
      simp only [Nat.add_sub_cancel]
      rfl
    by_cases hs : n ≤ start
    · refine ⟨[], .done (e.trans (by rw [hout start hs])), by simp, by simp; omega, ?_⟩
      intro k p _ hp
      rw [hout (start + k) (by omega)] at hp
      cases hp
    · obtain ⟨l, h1, h2, h3, h4⟩ := range_over hin hnp hout len (start + 1)
      have i1 := hin start (by omega)
      have i2 := hnp start
      have later : ∀ (a : Out (Packet O Q)) (k : Nat) (p : Packet O Q), k + 1 < len + 1 → s.nth cap chk data (start + (k + 1)) = .ok (some p) → (a :: l)[k + 1]? = some (.ok p) := by
        intro a k p hk hp
        rw [List.getElem?_cons_succ]
        exact h4 k p (by omega) (by rw [← hp]; congr 1; omega)
      cases hn : (s.nth cap chk data start : Out (Option (Packet O Q))) with
      | ok o =>
        cases o with
        | none => exact absurd hn i1
        | some q =>
          refine ⟨.ok q :: l, .step (e.trans (by rw [hn])) (by simp) h1, by simp [h2], by rw [List.length_cons, h3]; omega, ?_⟩
          intro k p hk hp
          cases k with
          | zero =>
            rw [Nat.add_zero, hn] at hp
            injection hp with hp; injection hp with hp
            rw [hp]; rfl
          | succ k => exact later _ k p hk hp
      | err x =>
        refine ⟨.err x :: l, .step (e.trans (by rw [hn])) (by simp) h1, by simp [h2], by rw [List.length_cons, h3]; omega, ?_⟩
        intro k p hk hp
        cases k with
        | zero => rw [Nat.add_zero, hn] at hp; cases hp
        | succ k => exact later _ k p hk hp
      | panic => exact absurd hn i2

/-- **C58, `range()`.** Ranges hold up under any damage to packets: each packet of the range has its place in the result, those that are not hit are there, and there
is no panic. -/
theorem C58_range (hO : O.Safe) (hQ : Q.Safe) {cap : Nat} (hc : 0 < cap) {chk : Bool} {ops : List (Op O Q)} {data : Bytes} {s : Storage} (h : Reached cap chk ops data s)
    (hok : ∀ p ∈ log ops, Storable S p) (hs : Small cap (log ops)) :
    ∃ place : Nat → Nat, (∀ i p, (log ops)[i]? = some p → s.offsetOf cap i = .ok (some (place i)) ∧ wire p <+: data.drop (place i)) ∧
      ∀ hits, Hits (log ops) hits → ∀ start len,
        ∃ l, Loops (fun i r => Range.next (O := O) (Q := Q) cap chk s (patches place data hits) i = r) ⟨start, len⟩ l ∧ .panic ∉ l ∧
          l.length = min len ((log ops).length - start) ∧
          ∀ k p, k < len → (log ops)[start + k]? = some p → (∀ h ∈ hits, h.1 ≠ start + k) → l[k]? = some (.ok p) := by
  obtain ⟨place, hp, hh⟩ := C58_confined_partial (S := S) hc h hok hs
  refine ⟨place, hp, ?_⟩
  intro hits hits_ok start len
  obtain ⟨_, _, hnth⟩ := hh hits hits_ok
  have hfit : ∀ i p, (log ops)[i]? = some p → place i + (wire p).length ≤ data.length := by
    intro i p hi
    have hpos := wire_pos (hok p (List.mem_of_getElem? hi)).ok
    have := (hp i p hi).2.length_le
    rw [List.length_drop] at this
    omega
  have hlen : (patches place data hits).length = data.length := patches_length hits data (by
    intro x hx
    obtain ⟨p, h1, h2⟩ := hits_ok x hx
    rw [h2]
    exact hfit _ _ h1)
  have hin : ∀ j p, (log ops)[j]? = some p → ∃ x, (s.nth cap chk (patches place data hits) j : Out (Option (Packet O Q))) = x ∧ x ≠ .panic ∧ x ≠ .ok none := by
    intro j p hj
    refine ⟨_, rfl, ?_⟩
    unfold Storage.nth
    rw [(hp j p hj).1]
    simp only
    have := C49_tryRead (O := O) (Q := Q) hO hQ (c := ⟨patches place data hits, place j, chk⟩) (by
      show place j ≤ (patches place data hits).length
      rw [hlen]
      have := hfit j p hj
      omega)
    revert this
    generalize (Packet.tryRead (O := O) Q ⟨patches place data hits, place j, chk⟩).1 = x
    rcases x with (q | n) | e | _ <;> simp
  have hout : ∀ j, (log ops).length ≤ j → (s.nth cap chk (patches place data hits) j : Out (Option (Packet O Q))) = .ok none := by
    intro j hj
    rw [hnth j, List.getElem?_eq_none hj]
    intro x hx
    obtain ⟨p, h1, _⟩ := hits_ok x hx
    have := (List.getElem?_eq_some_iff.mp h1).1
    omega
  obtain ⟨l, h1, h2, h3, h4⟩ := range_over (n := (log ops).length)
    (fun j hj => by
      obtain ⟨x, e, _, h⟩ := hin j _ (List.getElem?_eq_getElem hj)
      rw [e]; exact h)
    (fun j => by
      by_cases hj : j < (log ops).length
      · obtain ⟨x, e, h, _⟩ := hin j _ (List.getElem?_eq_getElem hj)
        rw [e]; exact h
      · rw [hout j (by omega)]; simp)
    hout len start
  refine ⟨l, h1, h2, h3, ?_⟩
  intro k p hk hj hno
  exact h4 k p hk (by rw [hnth _ hno, hj])

/-! The hypotheses are met: as for `C58_iter_partial`, and for ranges with the whole first packet overwritten. -/

example (chk : Bool) : ∃ data s l, Reached 2 chk twoPackets data s ∧ ∃ data', openReader chk data' = some (.ok s) ∧
    Loops (fun i r => ∃ fuel, Iter.nextFiltered ([.byBlocks fun bs => !bs.isEmpty] : Rules _ (Packet (blockEnum sampleTypes) (PEnum.ops []))) data' fuel i = some r) (Iter.new s) l ∧ .panic ∉ l ∧ .ok otherPacket ∈ l ∧ data' ≠ data := by
  have hcap : (0 : Nat) < 2 := by decide
  obtain ⟨data, s, h⟩ := Reached.exists (S := sampleSpec) (cap := 2) hcap chk twoPackets twoPackets_storable twoPackets_small_two
  have hh : Hits (log twoPackets) [(0, maimed)] := by
    intro h hh
    rw [List.mem_singleton.mp hh, twoPackets_log]
    exact ⟨samplePacket, rfl, maimed_length⟩
  obtain ⟨place, hp, ho⟩ := C58_confined_partial (S := sampleSpec) hcap h twoPackets_storable twoPackets_small_two
  obtain ⟨place', hp', hi⟩ := C58_filtered_partial (S := sampleSpec) (blockEnum_safe _) (PEnum.ops_safe _)
    ([.byBlocks fun bs => !bs.isEmpty] : Rules _ (Packet (blockEnum sampleTypes) (PEnum.ops []))) hcap h twoPackets_storable twoPackets_small_two
  obtain ⟨gs, v, hd, f, hlen⟩ := h.view (S := sampleSpec) hcap (fun p hp => (twoPackets_storable p hp).ok) twoPackets_small_two
  rw [twoPackets_log] at f
  have hgs : gs = [[wire samplePacket, wire otherPacket]] := by
    refine groups_unique hcap v.groups ⟨?_, ?_, ?_⟩ (by rw [f]; rfl)
    · intro g hg
      rw [List.mem_singleton.mp hg]
      refine ⟨?_, by simp⟩
      intro w hw
      rcases List.mem_cons.mp hw with rfl | hw
      · decide +kernel
      · rw [List.mem_singleton.mp hw]; decide +kernel
    · intro g hg
      rw [List.mem_singleton.mp hg]; simp
    · simp
  have hoff : s.offsetOf 2 0 = .ok (some 36) := by
    obtain ⟨a, t, ho, _, hl⟩ := offsetOf_some hcap v.groups v.inner (n := 0) (x := wire samplePacket) (by rw [hgs]; rfl)
    rw [ho, hl, hgs]
    rfl
  have h0 : (log twoPackets)[0]? = some samplePacket := by rw [twoPackets_log]; rfl
  have e1 : place 0 = 36 := by
    have := (hp 0 _ h0).1
    rw [hoff] at this
    injection this with this; injection this with this; exact this.symm
  have e2 : place' 0 = 36 := by
    have := (hp' 0 _ h0).1
    rw [hoff] at this
    injection this with this; injection this with this; exact this.symm
  have hpl : ∀ q : Nat → Nat, q 0 = 36 → patches q data [(0, maimed)] = (table 2 [wire samplePacket, wire otherPacket]).enc ++ (maimed ++ wire otherPacket) := by
    intro q hq
    have : patches q data [(0, maimed)] = patch data 36 maimed := by
      simp only [patches, List.foldl_cons, List.foldl_nil, hq]
    rw [this, hd, hgs]
    decide +kernel
  have ha : ∀ n, Announced (patches place' data [(0, maimed)]) n → n < 2 ^ 63 := by
    intro n hn
    rw [hpl _ e2] at hn
    obtain ⟨pos, hlt, h8, hv⟩ := announced_at hn
    have hall : ∀ pos < 286, (((table 2 [wire samplePacket, wire otherPacket]).enc ++ (maimed ++ wire otherPacket)).drop pos).take 8 = PACKET_SIG →
        leNat ((((table 2 [wire samplePacket, wire otherPacket]).enc ++ (maimed ++ wire otherPacket)).drop (pos + 8)).take 8) < 2 ^ 63 := by
      decide +kernel
    have hll : ((table 2 [wire samplePacket, wire otherPacket]).enc ++ (maimed ++ wire otherPacket)).length = 286 := by decide +kernel
    rw [← hv]
    exact hall pos (by rw [← hll]; exact hlt) h8
  obtain ⟨l, hl, hnp, hsub⟩ := hi _ hh ha
  refine ⟨data, s, l, h, _, ?_, hl, hnp, ?_, ?_⟩
  · rw [hpl _ e2, ← hpl _ e1]
    exact (ho _ hh).1
  · have := hsub (· == 1) (by
      intro j hj
      have hj : j = 1 := by simpa using hj
      subst hj
      refine ⟨by simp, ?_⟩
      intro x hx p _ _ hxp
      rw [List.mem_singleton.mp hx] at hxp ⊢
      rw [h0] at hxp
      injection hxp with hxp
      rw [← hxp]
      decide +kernel)
    refine this.subset ?_
    rw [twoPackets_log]
    have : accepted sampleSpec ([.byBlocks fun bs => !bs.isEmpty] : Rules _ (Packet (blockEnum sampleTypes) (PEnum.ops []))) otherPacket = true := by decide +kernel
    simp [List.zipIdx_cons, this]
  · rw [hpl _ e2, hd, hgs]
    decide +kernel

example (chk : Bool) : ∃ data s, Reached 2 chk twoPackets data s ∧ ∃ data' l, Loops (fun i r => Range.next (O := blockEnum sampleTypes) (Q := PEnum.ops []) 2 chk s data' i = r) ⟨0, 2⟩ l ∧
    .panic ∉ l ∧ l.length = 2 ∧ l[1]? = some (.ok otherPacket) := by
  obtain ⟨data, s, h⟩ := Reached.exists (S := sampleSpec) (cap := 2) (by decide) chk twoPackets twoPackets_storable twoPackets_small_two
  obtain ⟨place, _, hr⟩ := C58_range (S := sampleSpec) (blockEnum_safe _) (PEnum.ops_safe _) (by decide) h twoPackets_storable twoPackets_small_two
  obtain ⟨l, h1, h2, h3, h4⟩ := hr [(0, List.replicate (wire samplePacket).length 0)] (by
    intro x hx
    rw [List.mem_singleton.mp hx, twoPackets_log]
    exact ⟨samplePacket, rfl, by simp⟩) 0 2
  refine ⟨data, s, h, _, l, h1, h2, by rw [h3, twoPackets_log]; rfl, h4 1 _ (by decide) (by rw [twoPackets_log]; rfl) (by simp)⟩

end Brec.Props
