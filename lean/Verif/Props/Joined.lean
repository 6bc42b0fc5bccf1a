import Verif.Props.Copy
import Verif.Props.StorageReload
import Verif.Props.StorageCrash
/-!
# C95: a storage file appended to another one

`cat a b > c`, `b` not empty.
-/

namespace Brec.Props

open Rd

variable {O : BlockOps} {Q : PayloadOps} {S : BlockSpec O}

/-- **C95, full statement** (false): one storage file appended to another is a storage file with the packets of both. -/
def C95_full (Q : PayloadOps) (S : BlockSpec O) (cap : Nat) (chk : Bool) : Prop :=
  ∀ (opsA opsB : List (Op O Q)) (dataA dataB : Bytes) (sA sB : Storage), Reached cap chk opsA dataA sA → Reached cap chk opsB dataB sB →
    (∀ p ∈ log opsA ++ log opsB, Storable S p) → Small cap (log opsA) → Small cap (log opsB) → (dataA ++ dataB).length < 2 ^ 63 →
    ∃ s, openReader chk (dataA ++ dataB) = some (.ok s) ∧ Shows cap chk s (dataA ++ dataB) (log opsA ++ log opsB)

/-- So many places are in the slots that `n` packets need. -/
def places (cap n : Nat) : Nat := (n + cap - 1) / cap * cap

theorem groups_count {cap : Nat} (hc : 0 < cap) {gs : List (List Bytes)} (hg : Groups cap gs) : gs.length = (gs.flatten.length + cap - 1) / cap := by
  rcases List.eq_nil_or_concat gs with rfl | ⟨init, g, rfl⟩
  · simp only [List.flatten_nil, List.length_nil, Nat.zero_add]
    exact (Nat.div_eq_of_lt (by omega)).symm
  · rw [List.concat_eq_append] at *
    have hsp := hg.split
    have hle := hsp.2.1.le
    have hpos := List.length_pos_iff.mpr hsp.2.2
    have hfl : (init ++ [g]).flatten.length = init.length * cap + g.length := by
      rw [List.flatten_append, List.length_append, length_flatten_full hsp.1]; simp
    rw [hfl]
    symm
    simp only [List.length_append, List.length_cons, List.length_nil]
    apply Nat.div_eq_of_lt_le
    · rw [Nat.add_mul]; omega
    · rw [Nat.add_mul, Nat.add_mul]; omega

theorem all_full {cap : Nat} (_hc : 0 < cap) {gs : List (List Bytes)} (hg : Groups cap gs) (h : gs.flatten.length % cap = 0) : AllFull cap gs := by
  rcases List.eq_nil_or_concat gs with rfl | ⟨init, g, rfl⟩
  · intro x hx; cases hx
  · rw [List.concat_eq_append] at *
    have hsp := hg.split
    have hle := hsp.2.1.le
    have hpos := List.length_pos_iff.mpr hsp.2.2
    have hfl : (init ++ [g]).flatten.length = g.length + init.length * cap := by
      rw [List.flatten_append, List.length_append, length_flatten_full hsp.1]; simp; omega
    rw [hfl, Nat.add_mul_mod_self_right] at h
    intro x hx
    rcases List.mem_append.mp hx with hx | hx
    · exact hsp.1 x hx
    · rw [List.mem_singleton.mp hx]
      refine ⟨hsp.2.1, ?_⟩
      by_cases hlt : g.length < cap
      · rw [Nat.mod_eq_of_lt hlt] at h; omega
      · omega

theorem Groups.append {cap : Nat} (hc : 0 < cap) {a b : List (List Bytes)} (ha : AllFull cap a) (hb : Groups cap b) : Groups cap (a ++ b) := by
  rcases List.eq_nil_or_concat b with rfl | ⟨init, g, rfl⟩
  · rw [List.append_nil]; exact ha.groups hc
  · rw [List.concat_eq_append] at *
    have hsp := hb.split
    rw [← List.append_assoc]
    refine Groups.mk' ?_ hc hsp.2.1 hsp.2.2
    intro x hx
    rcases List.mem_append.mp hx with hx | hx
    · exact ha x hx
    · exact hsp.1 x hx

theorem places_full {cap n : Nat} (hc : 0 < cap) (h : n % cap = 0) : places cap n = n := by
  obtain ⟨k, rfl⟩ := Nat.dvd_of_mod_eq_zero h
  unfold places
  rw [Nat.mul_comm]
  congr 1
  apply Nat.div_eq_of_lt_le
  · rw [Nat.mul_comm]; omega
  · rw [Nat.succ_mul, Nat.mul_comm k]; omega

theorem joined_get {cap : Nat} (hc : 0 < cap) {a b : List (List Bytes)} (ha : Groups cap a) (hb : Groups cap b) (n : Nat) :
    (((a ++ b)[n / cap]?).bind fun g => g[n % cap]?) = if n < places cap a.flatten.length then a.flatten[n]? else b.flatten[n - places cap a.flatten.length]? := by
  have hp : places cap a.flatten.length = a.length * cap := by rw [places, ← groups_count hc ha]
  rw [hp]
  by_cases h : n < a.length * cap
  · rw [if_pos h, ha.get hc, List.getElem?_append_left ((Nat.div_lt_iff_lt_mul hc).mpr h)]
  · rw [if_neg h, hb.get hc, List.getElem?_append_right ((Nat.le_div_iff_mul_le hc).mpr (by omega))]
    obtain ⟨k, rfl⟩ : ∃ k, n = k + a.length * cap := ⟨n - a.length * cap, by omega⟩
    rw [Nat.add_sub_cancel, Nat.add_mul_div_right _ _ hc, Nat.add_mul_mod_self_right, Nat.add_sub_cancel]

/-- **C95, exactly what a reader shows of two storage files one behind the other**: `iter()` and `filtered()` give the packets of both. The packets of the second have their numbers only behind
the free places of the last slot of the first, and `count()` counts them only if there are no such places. -/
theorem C95_exact {cap : Nat} (hc : 0 < cap) {chk : Bool} {opsA opsB : List (Op O Q)} {dataA dataB : Bytes} {sA sB : Storage} (hA : Reached cap chk opsA dataA sA)
    (hB : Reached cap chk opsB dataB sB) (hok : ∀ p ∈ log opsA ++ log opsB, Storable S p) (hsA : Small cap (log opsA)) (hsB : Small cap (log opsB))
    (hl : (dataA ++ dataB).length < 2 ^ 63) :
    ∃ s, openReader chk (dataA ++ dataB) = some (.ok s) ∧ IterYields s (dataA ++ dataB) ((log opsA ++ log opsB).map .ok) ∧
      (∀ rules, Yields (fun it r => ∃ fuel, Iter.nextFiltered rules (dataA ++ dataB) fuel it = some r) (Iter.new s) (((log opsA ++ log opsB).filter (accepted S rules)).map .ok)) ∧
      s.count cap = (if (log opsA).length % cap = 0 then (log opsA).length + (log opsB).length else (log opsA).length) ∧
      ∀ i, s.nth cap chk (dataA ++ dataB) i =
        .ok (if i < places cap (log opsA).length then (log opsA)[i]? else (log opsB)[i - places cap (log opsA).length]?) := by
  obtain ⟨a, vA, rfl, fA, _⟩ := hA.view hc (fun p hp => (hok p (List.mem_append_left _ hp)).ok) hsA
  obtain ⟨b, vB, rfl, fB, _⟩ := hB.view hc (fun p hp => (hok p (List.mem_append_right _ hp)).ok) hsB
  rw [← fileOf_append] at hl ⊢
  have hg : ∀ g ∈ a ++ b, Group cap g := by
    intro g hg
    rcases List.mem_append.mp hg with hg | hg
    · exact vA.groups.group g hg
    · exact vB.groups.group g hg
  have hne : ∀ g ∈ a ++ b, Group cap g ∧ g ≠ [] := by
    intro g hg'
    refine ⟨hg g hg', ?_⟩
    rcases List.mem_append.mp hg' with hg | hg
    · exact vA.groups.ne g hg
    · exact vB.groups.ne g hg
  have hf : (a ++ b).flatten = (log opsA ++ log opsB).map wire := by rw [List.flatten_append, fA, fB, List.map_append]
  have hopen : openReader chk (fileOf cap (a ++ b)) = some (.ok ⟨anchor cap 0 (a ++ b), Locator.setup {} ((a ++ b).map (table cap))⟩) := by
    unfold openReader Storage.open_
    rw [load_file chk hg hl (Nat.lt_succ_of_le (groups_le hg))]
    simp only [Option.map_some, Out.map_ok]
    rw [anchor_inner]
  have hin : (Storage.mk (anchor cap 0 (a ++ b)) (Locator.setup {} ((a ++ b).map (table cap)))).slots.map (·.inner) = (a ++ b).map (table cap) := anchor_inner ..
  have hB4 : Before cap (fileOf cap (a ++ b)) (Iter.new ⟨anchor cap 0 (a ++ b), Locator.setup {} ((a ++ b).map (table cap))⟩) (log opsA ++ log opsB) :=
    ⟨[], _, a ++ b, [], _, rfl, by have := Bodies.file hg []; rwa [List.append_nil] at this, by simp [Iter.new, anchor_inner], rfl, hf, rfl, hne⟩
  have lA : a.flatten.length = (log opsA).length := by rw [fA, List.length_map]
  have lB : b.flatten.length = (log opsB).length := by rw [fB, List.length_map]
  refine ⟨_, hopen, Before.yields hl _ hB4 hok, fun rules => Before.yields_filtered (cap := cap) hl rules _ hB4 fun p hp => (hok p hp).ok, ?_, fun i => ?_⟩
  · by_cases h0 : (log opsA).length % cap = 0
    · rw [if_pos h0]
      have hgs := Groups.append hc (all_full hc vA.groups (by rw [lA]; exact h0)) vB.groups
      have v : View cap (a ++ b) ⟨anchor cap 0 (a ++ b), Locator.setup {} ((a ++ b).map (table cap))⟩ := ⟨hgs, rfl, setup_next hc hgs _⟩
      rw [v.count, List.flatten_append, List.length_append, lA, lB]
    · rw [if_neg h0]
      rcases List.eq_nil_or_concat a with rfl | ⟨init, g, rfl⟩
      · rw [← lA] at h0; simp at h0
      · rw [List.concat_eq_append] at *
        have hsp := vA.groups.split
        have hle := hsp.2.1.le
        have hfl : (init ++ [g]).flatten.length = g.length + init.length * cap := by
          rw [List.flatten_append, List.length_append, length_flatten_full hsp.1]; simp; omega
        have hlt : g.length < cap := by
          rcases Nat.lt_or_ge g.length cap with h | h
          · exact h
          · exfalso
            apply h0
            rw [← lA, hfl, show g.length = cap by omega, Nat.add_mul_mod_self_right, Nat.mod_self]
        have hloc : (Locator.setup {} (((init ++ [g]) ++ b).map (table cap))).next = init.length := by
          unfold Locator.setup
          rw [List.append_assoc, List.map_append, walk_full init _ _ hsp.1, List.singleton_append, List.map_cons, Locator.walk, table_freeOffset hsp.2.1, if_pos hlt]
          simp
        have hget : (anchor cap 0 ((init ++ [g]) ++ b))[init.length]?.map (·.inner) = some (table cap g) := by
          rw [getElem?_map_inner hin]
          simp
        unfold Storage.count
        simp only
        rw [hloc]
        cases hx : (anchor cap 0 ((init ++ [g]) ++ b))[init.length]? with
        | none => rw [hx] at hget; cases hget
        | some x =>
          rw [hx] at hget
          simp only [Option.map_some, Option.some.injEq] at hget
          simp only
          rw [hget, table_freeIndex hsp.2.1, if_pos hlt, ← lA, hfl]
          simp only
          omega
  · have hj := joined_get hc vA.groups vB.groups i
    rw [lA, fA, fB, List.getElem?_map, List.getElem?_map] at hj
    have hj' : (((a ++ b)[i / cap]?).bind fun g => g[i % cap]?) =
        (if i < places cap (log opsA).length then (log opsA)[i]? else (log opsB)[i - places cap (log opsA).length]?).map wire := by
      rw [hj]
      by_cases h : i < places cap (log opsA).length
      · rw [if_pos h, if_pos h]
      · rw [if_neg h, if_neg h]
    have hmem : ∀ p, (if i < places cap (log opsA).length then (log opsA)[i]? else (log opsB)[i - places cap (log opsA).length]?) = some p → Storable S p := by
      intro p hp
      by_cases h : i < places cap (log opsA).length
      · rw [if_pos h] at hp; exact hok p (List.mem_append_left _ (List.mem_of_getElem? hp))
      · rw [if_neg h] at hp; exact hok p (List.mem_append_right _ (List.mem_of_getElem? hp))
    revert hj' hmem
    generalize (if i < places cap (log opsA).length then (log opsA)[i]? else (log opsB)[i - places cap (log opsA).length]?) = o
    intro hj' hmem
    unfold Storage.nth
    cases o with
    | none => rw [offsetOf_none_of hc hg hin hj']
    | some p =>
      obtain ⟨x, t, e, hx, _⟩ := offsetOf_some_of hc hg hin hj'
      rw [e]
      simp only
      rw [tryRead_wire (hmem p rfl) (t := t) (by rw [hx]; simp) (by rw [hx]; simp)]

/-- **C95 (partial).** If the slots of the first storage are full (the number of its packets is a multiple of the capacity), then the two files one behind the other are, byte for byte, the file
that the packets of both make, so all that is proved about storages holds of it. Missing from the full claim: any other number of packets (`C95_exact`, `C95_unopenable`). -/
theorem C95_joins_partial {cap : Nat} (hc : 0 < cap) {chk : Bool} {opsA opsB : List (Op O Q)} {dataA dataB : Bytes} {sA sB : Storage} (hA : Reached cap chk opsA dataA sA)
    (hB : Reached cap chk opsB dataB sB) (hok : ∀ p ∈ log opsA ++ log opsB, p.Ok S) (hs : Small cap (log opsA ++ log opsB)) (h0 : (log opsA).length % cap = 0) :
    FileOf cap chk (log opsA ++ log opsB) (dataA ++ dataB) := by
  obtain ⟨a, vA, rfl, fA, _⟩ := hA.view hc (fun p hp => hok p (List.mem_append_left _ hp)) hs.left
  obtain ⟨b, vB, rfl, fB, _⟩ := hB.view hc (fun p hp => hok p (List.mem_append_right _ hp)) (Small.sublist (List.sublist_append_right _ _) hs)
  obtain ⟨w, gs, e, i, f⟩ := runOps_inv (S := S) hc chk ((log opsA ++ log opsB).map Op.insert) (ps := []) (empty_inv cap) rfl
    (by rw [log_inserts]; exact hok) (by rw [log_inserts]; exact hs)
  rw [log_inserts, List.nil_append] at f
  refine ⟨w, e, ?_⟩
  have hgs := Groups.append hc (all_full hc vA.groups (by rw [fA, List.length_map]; exact h0)) vB.groups
  rw [i.data, groups_unique hc i.groups hgs (by rw [f, List.flatten_append, fA, fB, List.map_append]), fileOf_append]

/-! ## Writing behind the joint -/

theorem drop_overwrite {f b r : Bytes} : overwrite (f ++ r) f.length b = f ++ (b ++ r.drop b.length) := by
  have h1 : f.length - (f ++ r).length = 0 := by simp
  rw [overwrite, h1, ← List.drop_drop, List.drop_left]
  simp

/-- **C95, what an insert does**: if the first storage has a free place in its last slot, a writer that opens the two files one behind the other puts the packet over the beginning of the second. -/
theorem C95_insert {cap : Nat} (hc : 0 < cap) {chk : Bool} {opsA opsB : List (Op O Q)} {dataA dataB : Bytes} {sA sB : Storage} (hA : Reached cap chk opsA dataA sA)
    (hB : Reached cap chk opsB dataB sB) (hok : ∀ p ∈ log opsA ++ log opsB, p.Ok S) (hsB : Small cap (log opsB)) {p : Packet O Q} (hp : p.Ok S)
    (hs : Small cap (log opsA ++ [p])) (hl : (dataA ++ dataB).length < 2 ^ 63) (h0 : (log opsA).length % cap ≠ 0) :
    ∃ w w' dataAp, openWriter chk (dataA ++ dataB) = some (.ok w) ∧ w.insert cap p none = (.ok (), w') ∧ FileOf cap chk (log opsA ++ [p]) dataAp ∧
      w'.data = dataAp ++ dataB.drop (wire p).length := by
  obtain ⟨a, vA, rfl, fA, _⟩ := hA.view hc (fun p hp => hok p (List.mem_append_left _ hp)) hs.left
  obtain ⟨b, vB, rfl, fB, _⟩ := hB.view hc (fun p hp => hok p (List.mem_append_right _ hp)) hsB
  have lA : a.flatten.length = (log opsA).length := by rw [fA, List.length_map]
  obtain ⟨w0, gs0, e0, i0, f0⟩ := runOps_inv (S := S) hc chk ((log opsA ++ [p]).map Op.insert) (ps := []) (empty_inv cap) rfl
    (by rw [log_inserts]; intro q hq
        rcases List.mem_append.mp hq with hq | hq
        · exact hok q (List.mem_append_left _ hq)
        · rw [List.mem_singleton.mp hq]; exact hp) (by rw [log_inserts]; exact hs)
  rw [log_inserts, List.nil_append] at f0
  rcases List.eq_nil_or_concat a with rfl | ⟨init, g, rfl⟩
  · rw [← lA] at h0; simp at h0
  · rw [List.concat_eq_append] at *
    have hsp := vA.groups.split
    have hle := hsp.2.1.le
    have hfl : (init ++ [g]).flatten.length = g.length + init.length * cap := by
      rw [List.flatten_append, List.length_append, length_flatten_full hsp.1]; simp; omega
    have hlt : g.length < cap := by
      rcases Nat.lt_or_ge g.length cap with h | h
      · exact h
      · exfalso
        apply h0
        rw [← lA, hfl, show g.length = cap by omega, Nat.add_mul_mod_self_right, Nat.mod_self]
    have hgs : Groups cap (init ++ [g ++ [wire p]]) := Groups.mk' hsp.1 hc (hsp.2.1.concat hlt (wire_ne hp)) (by simp)
    have hgu : gs0 = init ++ [g ++ [wire p]] := groups_unique hc i0.groups hgs (by
      rw [f0, List.map_append, ← fA]; simp)
    have hsm : (fileOf cap (init ++ [g ++ [wire p]])).length < 2 ^ 63 := by
      rw [← hgu]
      exact small_file hc i0.groups f0 hs
    have hg : ∀ x ∈ (init ++ [g]) ++ b, Group cap x := by
      intro x hx
      rcases List.mem_append.mp hx with hx | hx
      · exact vA.groups.group x hx
      · exact vB.groups.group x hx
    rw [← fileOf_append] at hl
    have hloc : Locator.setup {} (((init ++ [g]) ++ b).map (table cap)) = ⟨init.length, (fileOf cap init).length⟩ := by
      unfold Locator.setup
      rw [List.append_assoc, List.map_append, walk_full init _ _ hsp.1, List.singleton_append, List.map_cons, Locator.walk, table_freeOffset hsp.2.1, if_pos hlt]
      simp
    have hopen : openWriter chk (fileOf cap (init ++ [g]) ++ fileOf cap b) =
        some (.ok ⟨((init ++ [g]) ++ b).map (table cap), fileOf cap (init ++ [g]) ++ fileOf cap b, ⟨init.length, (fileOf cap init).length⟩⟩) := by
      unfold openWriter Writer.open_
      rw [← fileOf_append, load_file chk hg hl (Nat.lt_succ_of_le (groups_le hg))]
      simp only [Option.map_some, Out.map_ok]
      rw [anchor_inner, hloc]
    have hget : (((init ++ [g]) ++ b).map (table cap))[init.length]? = some (table cap g) := by simp
    have hplace : Writer.place cap ⟨((init ++ [g]) ++ b).map (table cap), fileOf cap (init ++ [g]) ++ fileOf cap b, ⟨init.length, (fileOf cap init).length⟩⟩ =
        (some (spot cap init g), ⟨((init ++ [g]) ++ b).map (table cap), fileOf cap (init ++ [g]) ++ fileOf cap b, ⟨init.length, (fileOf cap init).length⟩⟩) := by
      unfold Writer.place Locator.step
      simp only
      rw [hget]
      simp only
      rw [table_freeOffset hsp.2.1, if_pos hlt]
      rfl
    have hwf : (table cap (g ++ [wire p])).WF := table_wf_of_file hsm (by simp) (by simp; omega)
    have hel : (table cap (g ++ [wire p])).enc.length = 20 + 8 * cap := table_enc_length (by simp; omega)
    refine ⟨_, ⟨(((init ++ [g]) ++ b).map (table cap)).set init.length (table cap (g ++ [wire p])), fileOf cap (init ++ [g ++ [wire p]]) ++ (fileOf cap b).drop (wire p).length,
        ⟨init.length, (fileOf cap init).length⟩⟩, w0.data, hopen, ?_, ⟨w0, e0, rfl⟩, ?_⟩
    · unfold Writer.insert
      rw [hplace]
      simp only
      rw [serialize_wire hp]
      simp only
      rw [hget]
      simp only
      rw [table_insert hsp.2.1 hlt]
      simp only
      rw [hwf.bytes]
      simp only
      have e1 : overwrite (fileOf cap (init ++ [g]) ++ fileOf cap b) (fileOf cap init).length (table cap (g ++ [wire p])).enc =
          (fileOf cap init ++ ((table cap (g ++ [wire p])).enc ++ g.flatten)) ++ fileOf cap b := by
        rw [fileOf_append, fileOf_cons, fileOf_nil, List.append_nil, region, List.append_assoc, List.append_assoc, overwrite_mid _ _ _ _ (by rw [hel, table_enc_length hle])]
        simp only [List.append_assoc]
      have e2 : spot cap init g = (fileOf cap init ++ ((table cap (g ++ [wire p])).enc ++ g.flatten)).length := by
        simp only [List.length_append, hel, spot]; omega
      rw [e1, e2, drop_overwrite]
      congr 2
      rw [fileOf_append, fileOf_cons, fileOf_nil, region]
      simp only [List.flatten_append, List.flatten_cons, List.flatten_nil, List.append_nil, List.append_assoc]
    · simp only
      rw [i0.data, hgu]

theorem FileOf.groups {cap : Nat} (hc : 0 < cap) {chk : Bool} {ps : List (Packet O Q)} {data : Bytes} (h : FileOf cap chk ps data) (hok : ∀ p ∈ ps, p.Ok S) (hs : Small cap ps) :
    ∃ gs, Groups cap gs ∧ data = fileOf cap gs ∧ gs.flatten = ps.map wire ∧ data.length < 2 ^ 63 := by
  obtain ⟨w, e, rfl⟩ := h
  obtain ⟨w', gs, e', i, f⟩ := runOps_inv (S := S) hc chk (ps.map Op.insert) (ps := []) (empty_inv cap) rfl (by rw [log_inserts]; exact hok) (by rw [log_inserts]; exact hs)
  rw [log_inserts, List.nil_append] at f
  rw [e] at e'
  cases e'
  exact ⟨gs, i.groups, i.data, f, by rw [i.data]; exact small_file hc i.groups f hs⟩

theorem zeros_flat : ∀ n : Nat, (List.replicate n 0).flatMap (leBytes 8) = List.replicate (8 * n) 0
  | 0 => rfl
  | n + 1 => by
    rw [List.replicate_succ, List.flatMap_cons, zeros_flat n, show leBytes 8 0 = List.replicate 8 0 by decide, List.replicate_append_replicate]
    congr 1
    omega

/-- In the table of a slot that is not full there are zeros behind the lengths. -/
theorem table_zeros {cap : Nat} {g : List Bytes} {k : Nat} (hg : g.length ≤ cap) (h1 : 16 + 8 * g.length ≤ k) (h2 : k + 8 ≤ 16 + 8 * cap) :
    ∃ r, (table cap g).enc.drop k = List.replicate 8 0 ++ r ∧ 8 ≤ r.length + 4 := by
  have hl := tablePre_length cap g
  have e : (table cap g).enc = tablePre cap g ++ (List.replicate (8 * (cap - g.length)) 0 ++ (table cap g).crc) := by
    rw [← zeros_flat, tablePre]
    simp only [table, lens, Slot.enc, List.flatMap_append, List.append_assoc]
  have hlen := congrArg List.length e
  rw [table_enc_length hg] at hlen
  simp only [List.length_append, hl, List.length_replicate] at hlen
  obtain ⟨j, rfl⟩ : ∃ j, k = (tablePre cap g).length + j := ⟨k - (tablePre cap g).length, by omega⟩
  refine ⟨List.replicate (8 * (cap - g.length) - j - 8) 0 ++ (table cap g).crc, ?_, by simp; omega⟩
  rw [e, ← List.drop_drop, List.drop_left, List.drop_append_of_le_length (by simp; omega), List.drop_replicate, ← List.append_assoc, List.replicate_append_replicate]
  congr 2
  omega

/-- **C95, what an insert costs**: if the packet so written ends among the zeros of the first table of the second storage, nobody can open the file any more. -/
theorem C95_unopenable {cap : Nat} (hc : 0 < cap) {chk : Bool} {opsA opsB : List (Op O Q)} {dataA dataB : Bytes} {sA sB : Storage} (hA : Reached cap chk opsA dataA sA)
    (hB : Reached cap chk opsB dataB sB) (hok : ∀ p ∈ log opsA ++ log opsB, p.Ok S) (hsB : Small cap (log opsB)) {p : Packet O Q} (hp : p.Ok S)
    (hs : Small cap (log opsA ++ [p])) (hl : (dataA ++ dataB).length < 2 ^ 63) (h0 : (log opsA).length % cap ≠ 0) (hne : log opsB ≠ [])
    (h1 : 16 + 8 * (log opsB).length ≤ (wire p).length) (h2 : (wire p).length + 8 ≤ 16 + 8 * cap) :
    ∃ w w', openWriter chk (dataA ++ dataB) = some (.ok w) ∧ w.insert cap p none = (.ok (), w') ∧
      openReader chk w'.data = some (.err (.damagedSlot .sigDismatch)) ∧ openWriter chk w'.data = some (.err (.damagedSlot .sigDismatch)) := by
  obtain ⟨w, w', dataAp, e1, e2, e3, e4⟩ := C95_insert hc hA hB hok hsB hp hs hl h0
  refine ⟨w, w', e1, e2, ?_⟩
  obtain ⟨gs, hgs, rfl, _, hl'⟩ := e3.groups (S := S) hc (by
    intro q hq
    rcases List.mem_append.mp hq with hq | hq
    · exact hok q (List.mem_append_left _ hq)
    · rw [List.mem_singleton.mp hq]; exact hp) hs
  obtain ⟨b, vB, rfl, fB, _⟩ := hB.view hc (fun p hp => hok p (List.mem_append_right _ hp)) hsB
  have lB : b.flatten.length = (log opsB).length := by rw [fB, List.length_map]
  obtain ⟨r, hr, hr8⟩ : ∃ r, (fileOf cap b).drop (wire p).length = List.replicate 8 0 ++ r ∧ 8 ≤ r.length := by
    cases b with
    | nil =>
      exfalso
      apply hne
      rw [← List.length_eq_zero_iff, ← lB]; rfl
    | cons g b' =>
      have hg := vB.groups.group g (by simp)
      have hle : g.length ≤ (log opsB).length := by rw [← lB, List.flatten_cons, List.length_append]; omega
      obtain ⟨r, hr, h4⟩ := table_zeros hg.le (k := (wire p).length) (by omega) h2
      have hfl : 4 ≤ g.flatten.length := by
        cases g with
        | nil => exact absurd rfl (vB.groups.ne [] (by simp))
        | cons x g' =>
          have hx : x ∈ (log opsB).map wire := by rw [← fB]; simp
          obtain ⟨q, hq, rfl⟩ := List.mem_map.mp hx
          have := wire_pos (hok q (List.mem_append_right _ hq))
          rw [List.flatten_cons, List.length_append]
          omega
      refine ⟨r ++ (g.flatten ++ fileOf cap b'), ?_, by rw [List.length_append, List.length_append]; omega⟩
      rw [fileOf_cons, region, List.append_assoc, List.drop_append_of_le_length (by rw [table_enc_length hg.le]; omega), hr, List.append_assoc]
  rw [hr] at e4
  have hload := load_refused (chk := chk) hgs.group (tail := List.replicate 8 0 ++ r) hl' (e := .sigDismatch) (.inr rfl) (by
    have hrest : (⟨fileOf cap gs ++ (List.replicate 8 0 ++ r), (fileOf cap gs).length, chk⟩ : Cur).rest = List.replicate 8 0 ++ r := by simp [Cur.rest]
    have hrem := Cur.remaining_ok (c := ⟨fileOf cap gs ++ (List.replicate 8 0 ++ r), (fileOf cap gs).length, chk⟩) (by simp)
    unfold Slot.tryRead
    rw [hrem]
    simp only
    unfold Slot.tryReadHeader
    rw [hrem]
    simp only
    rw [if_neg (by rw [hrest]; simp only [List.length_append, List.length_replicate, SLOT_HSIZE]; omega)]
    rw [Cur.run_ok (a := List.replicate 8 0) (s' := r) (by rw [hrest]; exact P.readExact_append' (by simp) _)]
    simp only
    rw [if_pos (by decide)])
  rw [e4]
  constructor
  · unfold openReader Storage.open_
    rw [hload]; rfl
  · unfold openWriter Writer.open_
    rw [hload]; rfl

theorem sample_small1 : Small SLOT_CAPACITY (log [Op.insert samplePacket]) := by simp [Small, log, wire_sample_length, SLOT_CAPACITY]

theorem sample_ok1 : ∀ p ∈ log [Op.insert samplePacket], Storable sampleSpec p := by
  simp only [log, List.mem_singleton]; rintro p rfl; exact sample_storable

/-- One packet in a storage. -/
theorem sample_one (chk : Bool) : ∃ data s, Reached SLOT_CAPACITY chk [Op.insert samplePacket] data s ∧ data.length = 4145 := by
  obtain ⟨w, s, e, h, _⟩ := C30_reopen (S := sampleSpec) (cap := SLOT_CAPACITY) (by decide) chk [Op.insert samplePacket] sample_ok1 sample_small1
  have hr : Reached SLOT_CAPACITY chk [Op.insert samplePacket] w.data s := ⟨⟨w, e, rfl⟩, h⟩
  obtain ⟨gs, v, hd, f, _⟩ := hr.view (S := sampleSpec) (by decide) (fun p hp => (sample_ok1 p hp).ok) sample_small1
  have hg : gs = [[wire samplePacket]] := groups_unique (cap := SLOT_CAPACITY) (by decide) v.groups
    (Groups.mk' (init := []) (by intro x hx; cases hx) (by decide) ((Group.nil _).concat (by decide) (wire_ne samplePacket_ok)) (by simp)) (by rw [f]; rfl)
  refine ⟨w.data, s, hr, ?_⟩
  rw [hd, hg, fileOf_cons, fileOf_nil, List.append_nil, region_length (by decide)]
  simp [wire_sample_length, SLOT_CAPACITY]

/-- **C95 is false**: two storages with one packet each; the reader of the two files one behind the other counts one packet. -/
theorem C95_not (chk : Bool) : ¬ C95_full (PEnum.ops []) sampleSpec SLOT_CAPACITY chk := by
  intro h
  obtain ⟨data, s, hr, hl⟩ := sample_one chk
  have hok : ∀ p ∈ log [Op.insert samplePacket] ++ log [Op.insert samplePacket], Storable sampleSpec p := by
    intro p hp
    rcases List.mem_append.mp hp with hp | hp <;> exact sample_ok1 p hp
  have hl2 : (data ++ data).length < 2 ^ 63 := by rw [List.length_append, hl]; decide
  obtain ⟨s1, e1, h1⟩ := h _ _ _ _ _ _ hr hr hok sample_small1 sample_small1 hl2
  obtain ⟨s2, e2, _, _, h2, _⟩ := C95_exact (S := sampleSpec) (by decide) hr hr hok sample_small1 sample_small1 hl2
  rw [e1] at e2
  injection e2 with e2
  injection e2 with e2
  subst e2
  have := h1.1.symm.trans h2
  revert this
  decide

/-- `C95_exact` and `C95_unopenable` apply: the joined file shows both packets, and one insert makes it a file nobody can open. -/
example (chk : Bool) : ∃ data s w w', openReader chk (data ++ data) = some (.ok s) ∧ IterYields s (data ++ data) [.ok samplePacket, .ok samplePacket] ∧
    s.nth SLOT_CAPACITY chk (data ++ data) 1 = (.ok none : Out (Option (Packet (blockEnum sampleTypes) (PEnum.ops [])))) ∧
    s.nth SLOT_CAPACITY chk (data ++ data) 500 = .ok (some samplePacket) ∧
    openWriter chk (data ++ data) = some (.ok w) ∧ w.insert SLOT_CAPACITY samplePacket none = (.ok (), w') ∧
    openReader chk w'.data = some (.err (.damagedSlot .sigDismatch)) := by
  obtain ⟨data, s, hr, hl⟩ := sample_one chk
  have hok : ∀ p ∈ log [Op.insert samplePacket] ++ log [Op.insert samplePacket], Storable sampleSpec p := by
    intro p hp
    rcases List.mem_append.mp hp with hp | hp <;> exact sample_ok1 p hp
  have hl2 : (data ++ data).length < 2 ^ 63 := by rw [List.length_append, hl]; decide
  obtain ⟨s2, e2, i2, _, _, n2⟩ := C95_exact (S := sampleSpec) (by decide) hr hr hok sample_small1 sample_small1 hl2
  obtain ⟨w, w', e3, e4, e5, _⟩ := C95_unopenable (S := sampleSpec) (by decide) hr hr (fun p hp => (hok p hp).ok) sample_small1 samplePacket_ok sample_small2 hl2 (by decide) (by simp [log])
    (by rw [wire_sample_length]; decide) (by rw [wire_sample_length]; decide)
  exact ⟨data, s2, w, w', e2, i2, (by rw [n2, if_pos (by decide)]; rfl), (by
    rw [n2, if_neg (by decide), show 500 - places SLOT_CAPACITY (log [Op.insert samplePacket]).length = 0 by decide]; rfl), e3, e4, e5⟩

/-- `C95_joins_partial` applies: a storage that is full (one slot of one packet), and another one behind it. -/
example (chk : Bool) : ∃ dataA dataB, FileOf 1 chk [samplePacket] dataA ∧ FileOf 1 chk [samplePacket, samplePacket] dataB ∧
    FileOf 1 chk [samplePacket, samplePacket, samplePacket] (dataA ++ dataB) := by
  have ok : ∀ n, ∀ p ∈ log ((List.replicate n samplePacket).map Op.insert), Storable sampleSpec p := by
    intro n p hp; rw [log_inserts] at hp; rw [(List.mem_replicate.mp hp).2]; exact sample_storable
  obtain ⟨wA, sA, eA, rA, _⟩ := C30_reopen (S := sampleSpec) (cap := 1) Nat.one_pos chk _ (ok 1) (by simp [Small, log, wire_sample_length])
  obtain ⟨wB, sB, eB, rB, _⟩ := C30_reopen (S := sampleSpec) (cap := 1) Nat.one_pos chk _ (ok 2) (by simp [Small, log, wire_sample_length])
  have h := C95_joins_partial (S := sampleSpec) Nat.one_pos ⟨⟨wA, eA, rfl⟩, rA⟩ ⟨⟨wB, eB, rfl⟩, rB⟩
    (by intro p hp
        rcases List.mem_append.mp hp with hp | hp
        · exact (ok 1 p hp).ok
        · exact (ok 2 p hp).ok) (by simp [Small, log, wire_sample_length]) (Nat.mod_one _)
  rw [log_inserts, log_inserts] at h
  exact ⟨wA.data, wB.data, ⟨wA, eA, rfl⟩, ⟨wB, eB, rfl⟩, h⟩

end Brec.Props
