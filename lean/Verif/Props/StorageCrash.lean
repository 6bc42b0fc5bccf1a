import Verif.StorageCrash
import Verif.Props.StorageIter
/-!
# Interrupted and failed inserts: C35, C36
-/

namespace Brec.Props

open Rd

variable {O : BlockOps} {Q : PayloadOps} {S : BlockSpec O}

/-! ## C35 -/

/-- The file after the process died in `insert(p)` when `k` bytes had been written. -/
def crashed (cap : Nat) (w : Writer) (p : Packet O Q) (k : Nat) : Bytes := (w.insert cap p (some k)).2.data

/-- The file can be opened by reader and writer, and `nth` returns the packets `ps` (there may be more). -/
structure Survives (cap : Nat) (chk : Bool) (data : Bytes) (ps : List (Packet O Q)) : Prop where
  writer : ∃ w, openWriter chk data = some (.ok w)
  reader : ∃ s, openReader chk data = some (.ok s) ∧ ∀ i, i < ps.length → s.nth cap chk data i = .ok ps[i]?

/-- **C35, full statement** (false): a crash at any point of an insert loses none of the packets inserted before. -/
def C35_full (Q : PayloadOps) (S : BlockSpec O) (cap : Nat) (chk : Bool) : Prop :=
  ∀ (ops : List (Op O Q)) (w : Writer) (p : Packet O Q) (k : Nat), runOps cap chk ops emptyWriter = some w → (∀ q ∈ log ops, Storable S q) →
    Storable S p → Small cap (log ops ++ [p]) → Survives cap chk (crashed cap w p k) (log ops)

/-- `nth` does not depend on what follows the file. -/
theorem view_log_tail {cap : Nat} (hc : 0 < cap) (chk : Bool) {gs : List (List Bytes)} {s : Storage} (v : View cap gs s) {ps : List (Packet O Q)}
    (hp : gs.flatten = ps.map wire) (hok : ∀ p ∈ ps, Storable S p) (tail : Bytes) (n : Nat) :
    s.nth cap chk (fileOf cap gs ++ tail) n = .ok ps[n]? := by
  unfold Storage.nth
  cases hn : ps[n]? with
  | none =>
    rw [offsetOf_none hc v.groups v.inner (by rw [hp, List.getElem?_map, hn]; rfl)]
  | some p =>
    obtain ⟨a, t, e, hf, _⟩ := offsetOf_some hc v.groups v.inner (n := n) (x := wire p) (by rw [hp, List.getElem?_map, hn]; rfl)
    rw [e]
    simp only
    rw [tryRead_wire (hok p (List.mem_of_getElem? hn)) (t := t ++ tail) (by rw [hf]; simp) (by rw [hf]; simp)]

/-- Whole slots followed by something in which `try_read` finds too little. -/
theorem survives_tail {cap : Nat} (hc : 0 < cap) {chk : Bool} {gs : List (List Bytes)} (hg : Groups cap gs) (hl : (fileOf cap gs).length < 2 ^ 63)
    {ps qs : List (Packet O Q)} (hp : gs.flatten = (ps ++ qs).map wire) (hok : ∀ p ∈ ps ++ qs, Storable S p) {tail : Bytes}
    (ht : ∃ n, (Slot.tryRead ⟨fileOf cap gs ++ tail, (fileOf cap gs).length, chk⟩).1 = .ok (.notEnough n)) :
    Survives cap chk (fileOf cap gs ++ tail) ps := by
  obtain ⟨n, ht⟩ := ht
  have hle := groups_le hg.group
  have hload : loadLoop chk (fileOf cap gs ++ tail) ((fileOf cap gs ++ tail).length + 1) 0 [] = some (.ok (anchor cap 0 gs)) := by
    obtain ⟨f, hf⟩ : ∃ f, (fileOf cap gs ++ tail).length + 1 = (f + 1) + gs.length :=
      ⟨(fileOf cap gs ++ tail).length - gs.length, by rw [List.length_append]; omega⟩
    rw [hf, load_then chk tail hg.group hl, loadLoop.eq_def]
    simp only
    rw [ht]
  refine ⟨⟨_, by unfold openWriter Writer.open_; rw [hload]; rfl⟩, _, by unfold openReader Storage.open_; rw [hload]; rfl, fun i hi => ?_⟩
  have v : View cap gs (⟨anchor cap 0 gs, Locator.setup {} ((anchor cap 0 gs).map (·.inner))⟩ : Storage) := by
    refine ⟨hg, rfl, ?_⟩
    dsimp only
    rw [anchor_inner]
    exact setup_next hc hg _
  rw [view_log_tail hc chk v hp hok tail i, List.getElem?_append_left hi]

theorem survives_file {cap : Nat} (hc : 0 < cap) {chk : Bool} {gs : List (List Bytes)} (hg : Groups cap gs) (hl : (fileOf cap gs).length < 2 ^ 63)
    {ps qs : List (Packet O Q)} (hp : gs.flatten = (ps ++ qs).map wire) (hok : ∀ p ∈ ps ++ qs, Storable S p) : Survives cap chk (fileOf cap gs) ps := by
  have := survives_tail hc hg hl hp hok (chk := chk) (tail := []) ⟨16, by
    rw [List.append_nil]
    have hrem : (⟨fileOf cap gs, (fileOf cap gs).length, chk⟩ : Cur).remaining = .ok 0 := by simp [Cur.remaining]
    unfold Slot.tryRead
    rw [hrem]
    simp only
    unfold Slot.tryReadHeader
    rw [hrem]
    simp [SLOT_HSIZE]⟩
  rwa [List.append_nil] at this

/-- Whole slots followed by something that makes `load` fail. -/
theorem not_survives {cap : Nat} {chk : Bool} {data : Bytes} {ps : List (Packet O Q)}
    (h : loadLoop chk data (data.length + 1) 0 [] = some .panic ∨ ∃ e, loadLoop chk data (data.length + 1) 0 [] = some (.err e)) :
    ¬ Survives cap chk data ps := by
  intro hs
  obtain ⟨w, hw⟩ := hs.writer
  unfold openWriter Writer.open_ at hw
  rcases h with h | ⟨e, h⟩
  · rw [h] at hw; cases hw
  · rw [h] at hw; cases hw

/-- The state in which an insert finds the writer. -/
structure Ahead (cap : Nat) (w : Writer) (ps : List (Packet O Q)) (p : Packet O Q) (init : List (List Bytes)) (g : List Bytes) (w1 : Writer) : Prop where
  place : w.place cap = (some (spot cap init g), w1)
  ready : Ready cap init g w1
  flat : (init ++ opt g).flatten = ps.map wire
  flat' : (init ++ [g ++ [wire p]]).flatten = (ps ++ [p]).map wire
  groups : Groups cap (init ++ opt g)
  groups' : Groups cap (init ++ [g ++ [wire p]])
  small : (fileOf cap (init ++ [g ++ [wire p]])).length < 2 ^ 63
  data : w1.data = w.data
  idx : g.length = ps.length % cap
  insert : ∀ k, crashed cap w p k = Writer.torn w1.data w1.loc.slotOffset (table cap (g ++ [wire p])).enc (spot cap init g) (wire p) k

theorem inv_ahead {cap : Nat} (hc : 0 < cap) {gs : List (List Bytes)} {w : Writer} (inv : Inv cap gs w) {ps : List (Packet O Q)} {p : Packet O Q}
    (f : gs.flatten = ps.map wire) (hp : p.Ok S) (hs : Small cap (ps ++ [p])) :
    ∃ init g w1, Ahead cap w ps p init g w1 := by
  obtain ⟨init, g, w1, hgs, hpl, hr, hd⟩ := inv.place hc
  have hfl : (init ++ [g ++ [wire p]]).flatten = (ps ++ [p]).map wire := by
    rw [List.map_append, ← f, hgs, opt]
    by_cases hg : g = []
    · subst hg; simp
    · simp [hg]
  have hgr : Groups cap (init ++ [g ++ [wire p]]) := Groups.mk' hr.full hc (hr.group.concat hr.lt (wire_ne hp)) (by simp)
  have hsm := small_file hc hgr hfl hs
  refine ⟨init, g, w1, hpl, hr, by rw [← hgs, f], hfl, by rw [← hgs]; exact inv.groups, hgr, hsm, hd, ?_, ?_⟩
  · have h1 := congrArg List.length f
    have h2 := length_flatten_full hr.full
    have hlt := hr.lt
    have h3 : (opt g).flatten = g := by
      unfold opt
      by_cases hg : g = [] <;> simp [hg]
    rw [hgs, List.flatten_append, h3, List.length_append, h2, List.length_map] at h1
    rw [← h1, Nat.mul_add_mod_self_right, Nat.mod_eq_of_lt hlt]
  · intro k
    unfold crashed
    rw [hr.insert hpl (serialize_wire hp) hsm (some k)]

theorem ahead {cap : Nat} (hc : 0 < cap) {chk : Bool} {ops : List (Op O Q)} {w : Writer} {p : Packet O Q} (hw : runOps cap chk ops emptyWriter = some w)
    (hok : ∀ q ∈ log ops, q.Ok S) (hp : p.Ok S) (hs : Small cap (log ops ++ [p])) :
    ∃ init g w1, Ahead cap w (log ops) p init g w1 := by
  obtain ⟨w', gs, e, inv, f⟩ := runOps_inv (S := S) hc chk ops (ps := []) (empty_inv cap) rfl hok hs.left
  rw [hw] at e
  injection e with e
  subst e
  rw [List.nil_append] at f
  exact inv_ahead hc inv f hp hs

/-- A table refused after the full slots. -/
theorem load_refused {cap : Nat} {chk : Bool} {gs : List (List Bytes)} (hg : ∀ g ∈ gs, Group cap g) (hl : (fileOf cap gs).length < 2 ^ 63) {tail : Bytes}
    {e : Err} (he : e = .crcDismatch ∨ e = .sigDismatch) (ht : (Slot.tryRead ⟨fileOf cap gs ++ tail, (fileOf cap gs).length, chk⟩).1 = .err e) :
    loadLoop chk (fileOf cap gs ++ tail) ((fileOf cap gs ++ tail).length + 1) 0 [] = some (.err (.damagedSlot e)) := by
  have hle := groups_le hg
  obtain ⟨f, hf⟩ : ∃ f, (fileOf cap gs ++ tail).length + 1 = (f + 1) + gs.length :=
    ⟨(fileOf cap gs ++ tail).length - gs.length, by rw [List.length_append]; omega⟩
  rw [hf, load_then chk tail hg hl, loadLoop.eq_def]
  simp only
  rw [ht]
  rcases he with rfl | rfl <;> rfl

theorem load_panics {cap : Nat} {chk : Bool} {gs : List (List Bytes)} (hg : ∀ g ∈ gs, Group cap g) (hl : (fileOf cap gs).length < 2 ^ 63) {tail : Bytes}
    (ht : (Slot.tryRead ⟨fileOf cap gs ++ tail, (fileOf cap gs).length, chk⟩).1 = .panic) :
    loadLoop chk (fileOf cap gs ++ tail) ((fileOf cap gs ++ tail).length + 1) 0 [] = some .panic := by
  have hle := groups_le hg
  obtain ⟨f, hf⟩ : ∃ f, (fileOf cap gs ++ tail).length + 1 = (f + 1) + gs.length :=
    ⟨(fileOf cap gs ++ tail).length - gs.length, by rw [List.length_append]; omega⟩
  rw [hf, load_then chk tail hg hl, loadLoop.eq_def]
  simp only
  rw [ht]

/-- The table promises more than the file holds. -/
theorem load_behind {cap : Nat} {chk : Bool} {init : List (List Bytes)} {g : List Bytes} (hi : ∀ x ∈ init, Group cap x) (hg : Group cap g)
    (hl : (fileOf cap (init ++ [g])).length < 2 ^ 63) {rest : Bytes} (hr : rest.length < g.flatten.length) :
    loadLoop chk (fileOf cap init ++ ((table cap g).enc ++ rest)) ((fileOf cap init ++ ((table cap g).enc ++ rest)).length + 1) 0 [] =
      some (if chk then .panic else .err .io) := by
  have hle := groups_le hi
  have hw : (table cap g).WF := table_wf_of_file hl (by simp) hg.le
  have hen := table_enc_length hg.le
  rw [fileOf_append, fileOf_cons, fileOf_nil, List.append_nil, List.length_append, region_length hg.le] at hl
  obtain ⟨f, hf⟩ : ∃ f, (fileOf cap init ++ ((table cap g).enc ++ rest)).length + 1 = (f + 1 + 1) + init.length :=
    ⟨(fileOf cap init ++ ((table cap g).enc ++ rest)).length - init.length - 1, by simp only [List.length_append]; omega⟩
  rw [hf, load_then chk _ hi (by omega), loadLoop.eq_def]
  simp only
  rw [Slot.tryRead_enc hw (t := rest) (by simp) (by simp [Cur.rest])]
  simp only
  rw [u64_ok (by rw [table_size, table_width hg]; omega)]
  simp only
  rw [loadLoop.eq_def]
  simp only
  rw [tryRead_behind (by rw [table_size, table_width hg]; simp only [List.length_append, hen]; omega) (by rw [table_size, table_width hg]; omega)]
  cases chk <;> rfl

/-- **C35, exactly, when the packet goes into a slot already in the file** (`count % cap ≠ 0`; packets below 4 GiB). With `off` the number of bytes
written beyond the start of the new length in the table, everything survives if and only if the bytes of the length written so far are all
zero, or everything has been written. In all other cases neither reader nor writer can open the file again: all packets are lost. -/
theorem C35_exact_partial {cap : Nat} (hc : 0 < cap) {chk : Bool} {ops : List (Op O Q)} {w : Writer} {p : Packet O Q} (hw : runOps cap chk ops emptyWriter = some w)
    (hok : ∀ q ∈ log ops, Storable S q) (hp : Storable S p) (hs : Small cap (log ops ++ [p])) (hidx : (log ops).length % cap ≠ 0)
    (h32 : (wire p).length < 2 ^ 32) (k : Nat) :
    Survives cap chk (crashed cap w p k) (log ops) ↔
      ((wire p).length % 256 ^ (k - (16 + 8 * ((log ops).length % cap))) = 0 ∨ 20 + 8 * cap + (wire p).length ≤ k) := by
  obtain ⟨init, g, w1, a⟩ := ahead hc hw (fun q hq => (hok q hq).ok) hp.ok hs
  have hlt := a.ready.lt
  have hix := a.idx
  rw [← hix] at hidx ⊢
  have hg : g ≠ [] := by intro h; simp [h] at hidx
  have hopt : opt g = [g] := by simp [opt, hg]
  have hpos := wire_pos hp.ok
  have hi : ∀ x ∈ init, Group cap x := fun x hx => (a.ready.full x hx).1
  have hsm := a.small
  have hfi : (fileOf cap init).length < 2 ^ 63 := by
    rw [fileOf_append, List.length_append] at hsm; omega
  have hcw : cap * 8 < 2 ^ 63 := (table_wf_of_file hsm (g := g ++ [wire p]) (by simp) (by simp; omega)).cap
  have hsmg : (fileOf cap (init ++ [g])).length < 2 ^ 63 := by
    rw [fileOf_append, fileOf_cons, fileOf_nil, List.append_nil, List.length_append, region_length (by simp; omega)] at hsm
    rw [fileOf_append, fileOf_cons, fileOf_nil, List.append_nil, List.length_append, region_length (by omega)]
    simp only [List.flatten_append, List.length_append] at hsm
    omega
  have hgs := a.groups
  have hfl := a.flat
  rw [hopt] at hgs hfl
  have hsurv : Survives cap chk (fileOf cap (init ++ [g])) (log ops) :=
    survives_file hc hgs hsmg (ps := log ops) (qs := []) (by rw [List.append_nil]; exact hfl) (by rw [List.append_nil]; exact hok)
  have hfile : fileOf cap (init ++ [g]) = fileOf cap init ++ ((table cap g).enc ++ g.flatten) := by
    rw [fileOf_append, fileOf_cons, fileOf_nil, List.append_nil, region]
  have hsmall : ∀ v, v < 2 ^ 64 → ∀ l ∈ g.map List.length ++ v :: List.replicate (cap - g.length - 1) 0, l < 2 ^ 64 := by
    intro v hv l hl
    have hw := table_wf_of_file hsmg (g := g) (by simp) (by omega)
    rcases List.mem_append.mp hl with hl | hl
    · exact hw.small l (by simp only [table, lens]; exact List.mem_append_left _ hl)
    · rcases List.mem_cons.mp hl with rfl | hl
      · exact hv
      · rw [(List.mem_replicate.mp hl).2]; decide
  have hmlen : ∀ v, (g.map List.length ++ v :: List.replicate (cap - g.length - 1) 0).length = cap := by
    intro v; simp; omega
  have refuse : ∀ v c, v < 2 ^ 64 → c.length = 4 → c ≠ Slot.crcOf cap (g.map List.length ++ v :: List.replicate (cap - g.length - 1) 0) →
      ¬ Survives cap chk (fileOf cap init ++ ((mixed cap g v c).enc ++ g.flatten)) (log ops) := by
    intro v c hv hcl hne
    refine not_survives (.inr ⟨_, load_refused hi hfi (e := .crcDismatch) (.inl rfl) ?_⟩)
    exact Slot.tryRead_bad (s := mixed cap g v c) (hmlen v) (hsmall v hv) hcw hcl hne (t := g.flatten) (by simp) (by simp [Cur.rest])
  have behind : ∀ r : Bytes, r.length < (wire p).length →
      ¬ Survives cap chk (fileOf cap init ++ ((table cap (g ++ [wire p])).enc ++ (g.flatten ++ r))) (log ops) := by
    intro r hr
    have := load_behind (chk := chk) hi (a.ready.group.concat hlt (wire_ne hp.ok)) hsm (rest := g.flatten ++ r) (by simp; omega)
    refine not_survives ?_
    rw [this]
    cases chk
    · exact .inr ⟨_, rfl⟩
    · exact .inl rfl
  have hmod : ∀ j, 4 ≤ j → (wire p).length % 256 ^ j = (wire p).length := by
    intro j hj
    apply Nat.mod_eq_of_lt
    have : (256 : Nat) ^ 4 ≤ 256 ^ j := Nat.pow_le_pow_right (by decide) hj
    have h3 : (256 : Nat) ^ 4 = 2 ^ 32 := by decide
    omega
  rw [a.insert k]
  rcases Nat.lt_or_ge k (20 + 8 * cap) with hk | hk
  · rw [a.ready.torn_table (wire p) hk, if_neg hg]
    have hT := table_concat (wire p) hlt
    have hT0 := table_free (g := g) hlt
    rcases Nat.le_total k (16 + 8 * g.length) with h1 | h1
    · rw [hT, hT0, mix_low h1, ← hT0, ← hfile]
      exact ⟨fun _ => .inl (by rw [Nat.sub_eq_zero_of_le h1, Nat.pow_zero, Nat.mod_one]), fun _ => hsurv⟩
    · rcases Nat.le_total k (16 + 8 * cap) with h2 | h2
      · rw [hT, hT0, mix_mid hlt h1 h2 (by omega)]
        by_cases hv : (wire p).length % 256 ^ (k - (16 + 8 * g.length)) = 0
        · rw [hv, ← hT0, ← hfile]
          exact ⟨fun _ => .inl rfl, fun _ => hsurv⟩
        · refine ⟨fun h => absurd h (refuse _ _ (Nat.lt_of_le_of_lt (Nat.mod_le _ _) (by omega)) (by simp [table, Slot.crcOf]) ?_), ?_⟩
          · intro he
            refine hv (mixed_crc (cap := cap) (g := g) (Nat.lt_of_le_of_lt (Nat.mod_le _ _) h32) ?_)
            rw [← he, table, lens_free hlt]
          · rintro (h | h)
            · exact absurd h hv
            · omega
      · obtain ⟨i, rfl⟩ : ∃ i, k = 16 + 8 * cap + i := ⟨k - (16 + 8 * cap), by omega⟩
        have hcl : (table cap (g ++ [wire p])).crc.length = 4 := by simp [table, Slot.crcOf]
        have hcl0 : (table cap g).crc.length = 4 := by simp [table, Slot.crcOf]
        have hright : ¬ ((wire p).length % 256 ^ (16 + 8 * cap + i - (16 + 8 * g.length)) = 0 ∨ 20 + 8 * cap + (wire p).length ≤ 16 + 8 * cap + i) := by
          rintro (h | h)
          · rw [hmod _ (by omega)] at h; omega
          · omega
        have hmix : (table cap (g ++ [wire p])).enc.take (16 + 8 * cap + i) ++ (table cap g).enc.drop (16 + 8 * cap + i) =
            (mixed cap g (wire p).length ((table cap (g ++ [wire p])).crc.take i ++ (table cap g).crc.drop i)).enc := by
          conv => lhs; rw [hT, hT0]
          exact mix_high hlt (by omega)
        rw [hmix]
        refine ⟨fun h => ?_, fun h => absurd h hright⟩
        by_cases he : (table cap (g ++ [wire p])).crc.take i ++ (table cap g).crc.drop i = (table cap (g ++ [wire p])).crc
        · rw [he, ← hT] at h
          have := behind [] (by rw [List.length_nil]; omega)
          rw [List.append_nil] at this
          exact absurd h this
        · refine absurd h (refuse _ _ (by omega) (by simp [hcl, hcl0]; omega) ?_)
          intro h2
          apply he
          rw [h2, table, lens_concat _ hlt]
  · rw [a.ready.torn_packet (wire p) hk]
    rcases Nat.lt_or_ge k (20 + 8 * cap + (wire p).length) with h1 | h1
    · refine ⟨fun h => absurd h (behind _ (by rw [List.length_take]; omega)), ?_⟩
      rintro (h | h)
      · rw [hmod _ (by omega)] at h; omega
      · omega
    · rw [torn_all h1]
      refine ⟨fun _ => .inr h1, fun _ => survives_file (S := S) hc a.groups' hsm a.flat' ?_⟩
      intro q hq
      rcases List.mem_append.mp hq with hq | hq
      · exact hok q hq
      · rw [List.mem_singleton.mp hq]; exact hp

/-- **C35, exactly, when the packet starts a new slot** (`count % cap = 0`). Everything survives if fewer than 16 bytes, or all, have been
written; without overflow checks also while the table is being written. With overflow checks an incomplete table makes opening panic, and
with a complete table and an incomplete packet the file cannot be opened at all. -/
theorem C35_exact_new_partial {cap : Nat} (hc : 2 ≤ cap) {chk : Bool} {ops : List (Op O Q)} {w : Writer} {p : Packet O Q} (hw : runOps cap chk ops emptyWriter = some w)
    (hok : ∀ q ∈ log ops, Storable S q) (hp : Storable S p) (hs : Small cap (log ops ++ [p])) (hidx : (log ops).length % cap = 0) (k : Nat) :
    Survives cap chk (crashed cap w p k) (log ops) ↔
      (k < 16 ∨ (chk = false ∧ k < 20 + 8 * cap) ∨ 20 + 8 * cap + (wire p).length ≤ k) := by
  have hc0 : 0 < cap := by omega
  obtain ⟨init, g, w1, a⟩ := ahead hc0 hw (fun q hq => (hok q hq).ok) hp.ok hs
  have hix := a.idx
  rw [hidx] at hix
  have hg : g = [] := List.length_eq_zero_iff.mp hix
  subst hg
  have hlt := a.ready.lt
  have hpos := wire_pos hp.ok
  have hi : ∀ x ∈ init, Group cap x := fun x hx => (a.ready.full x hx).1
  have hsm := a.small
  have hfi : (fileOf cap init).length < 2 ^ 63 := by
    rw [fileOf_append, List.length_append] at hsm; omega
  have hwf : (table cap [wire p]).WF := table_wf_of_file hsm (g := [wire p]) (by simp) (by simp; omega)
  have hgs := a.groups
  have hfl := a.flat
  simp only [opt, if_true, List.append_nil] at hgs hfl
  rw [a.insert k]
  rcases Nat.lt_or_ge k (20 + 8 * cap) with hk | hk
  · rw [a.ready.torn_table (wire p) hk, if_pos rfl]
    have key := C34_truncated_partial (table cap [wire p]) hwf _ (fileOf cap init) k chk hwf.bytes (by rw [table_enc_length (by simp; omega)]; exact hk)
    rw [table_capacity] at key
    by_cases h16 : k < 16
    · rw [if_pos h16] at key
      exact ⟨fun _ => .inl h16, fun _ => survives_tail hc0 hgs hfi (qs := []) (by rw [List.append_nil]; exact hfl) (by rw [List.append_nil]; exact hok)
        ⟨_, by rw [key]⟩⟩
    · rw [if_neg h16, if_neg (by omega)] at key
      cases chk with
      | false =>
        exact ⟨fun _ => .inr (.inl ⟨rfl, hk⟩), fun _ => survives_tail hc0 hgs hfi (qs := []) (by rw [List.append_nil]; exact hfl)
          (by rw [List.append_nil]; exact hok) ⟨_, by rw [key]; rfl⟩⟩
      | true =>
        refine ⟨fun h => absurd h (not_survives (.inl (load_panics hi hfi (by rw [key]; rfl)))), ?_⟩
        rintro (h | ⟨h, _⟩ | h)
        · omega
        · cases h
        · omega
  · rw [a.ready.torn_packet (wire p) hk]
    rcases Nat.lt_or_ge k (20 + 8 * cap + (wire p).length) with h1 | h1
    · have := load_behind (chk := chk) hi (a.ready.group.concat hlt (wire_ne hp.ok)) hsm
        (rest := ([] : List Bytes).flatten ++ (wire p).take (k - (20 + 8 * cap))) (by simp; omega)
      refine ⟨fun h => absurd h (not_survives ?_), ?_⟩
      · rw [this]
        cases chk
        · exact .inr ⟨_, rfl⟩
        · exact .inl rfl
      · rintro (h | ⟨_, h⟩ | h) <;> omega
    · rw [torn_all h1]
      refine ⟨fun _ => .inr (.inr h1), fun _ => survives_file (S := S) hc0 a.groups' hsm a.flat' ?_⟩
      intro q hq
      rcases List.mem_append.mp hq with hq | hq
      · exact hok q hq
      · rw [List.mem_singleton.mp hq]; exact hp

theorem sample_small2 : Small SLOT_CAPACITY ([samplePacket] ++ [samplePacket]) := by
  simp [Small, wire_sample_length, SLOT_CAPACITY]

/-- **C35 is false**, in debug and release builds: one packet stored, the process dies when half of the second packet is written; afterwards
nothing can be read. -/
theorem C35_not (chk : Bool) : ¬ C35_full (PEnum.ops []) sampleSpec SLOT_CAPACITY chk := by
  intro h
  have hok : ∀ q ∈ log [Op.insert samplePacket], Storable sampleSpec q := by
    intro q hq; rw [List.mem_singleton.mp hq]; exact sample_storable
  obtain ⟨w, _, e, _⟩ := C30_reopen (S := sampleSpec) (cap := SLOT_CAPACITY) (by decide) chk [.insert samplePacket] hok sample_small2.left
  have h1 := h [.insert samplePacket] w samplePacket 4080 e hok sample_storable sample_small2
  rcases (C35_exact_partial (by decide) e hok sample_storable sample_small2 (by decide) (by rw [wire_sample_length]; decide) 4080).mp h1 with h2 | h2
  · rw [wire_sample_length] at h2
    have : (256 : Nat) ^ 2 ≤ 256 ^ (4080 - (16 + 8 * ((log [Op.insert samplePacket]).length % SLOT_CAPACITY))) :=
      Nat.pow_le_pow_right (by decide) (by decide)
    rw [Nat.mod_eq_of_lt (by have : (256 : Nat) ^ 2 = 65536 := by decide
                             omega)] at h2
    cases h2
  · rw [wire_sample_length] at h2
    exact absurd h2 (by decide)

/-- Both theorems apply: a second packet, and a first one. -/
example : ∃ w, runOps SLOT_CAPACITY true [.insert samplePacket] emptyWriter = some w ∧
    Survives SLOT_CAPACITY true (crashed SLOT_CAPACITY w samplePacket 24) [samplePacket] ∧
    ¬ Survives SLOT_CAPACITY true (crashed SLOT_CAPACITY w samplePacket 25) [samplePacket] ∧
    Survives SLOT_CAPACITY true (crashed SLOT_CAPACITY emptyWriter samplePacket 15) ([] : List (Packet (blockEnum sampleTypes) (PEnum.ops []))) ∧
    ¬ Survives SLOT_CAPACITY true (crashed SLOT_CAPACITY emptyWriter samplePacket 16) ([] : List (Packet (blockEnum sampleTypes) (PEnum.ops []))) := by
  have hok : ∀ q ∈ log [Op.insert samplePacket], Storable sampleSpec q := by
    intro q hq; rw [List.mem_singleton.mp hq]; exact sample_storable
  obtain ⟨w, _, e, _⟩ := C30_reopen (S := sampleSpec) (cap := SLOT_CAPACITY) (by decide) true [.insert samplePacket] hok sample_small2.left
  have key := C35_exact_partial (by decide) e hok sample_storable sample_small2 (by decide) (by rw [wire_sample_length]; decide)
  have key2 := C35_exact_new_partial (S := sampleSpec) (cap := SLOT_CAPACITY) (by decide) (chk := true) (ops := []) (w := emptyWriter) (p := samplePacket)
    rfl (by simp [log]) sample_storable (by simp [Small, log, wire_sample_length, SLOT_CAPACITY]) rfl
  rw [wire_sample_length] at key key2
  refine ⟨w, e, (key 24).mpr (.inl (by decide)), fun h => ?_, (key2 15).mpr (.inl (by decide)), fun h => ?_⟩
  · have := (key 25).mp h
    revert this
    decide
  · have := (key2 16).mp h
    revert this
    decide

end Brec.Props
