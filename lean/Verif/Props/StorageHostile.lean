import Verif.SlotRobust
import Verif.Props.StorageIter
import Verif.Props.Slot
import Verif.Props.StorageCrash
/-!
# Files that are not what a writer left: C57, C58, C59
-/

namespace Brec.Props

open Rd

variable {O : BlockOps} {Q : PayloadOps} {S : BlockSpec O}

/-! ## C57 -/

/-- Opening ends, in `Ok` or an error. -/
def Settles (chk : Bool) (data : Bytes) : Prop :=
  ∃ fuel r, Storage.open_ chk fuel data = some r ∧ r ≠ .panic

/-- Full statement of C57 (false): opening any file ends in `Ok` or an error. -/
def C57_full (chk : Bool) : Prop := ∀ data : Bytes, data.length < 2 ^ 63 → Settles chk data

/-- A slot table with a matching CRC, whatever the lengths. -/
def rawTable (ls : List Nat) : Bytes := (⟨ls, ls.length, Slot.crcOf ls.length ls⟩ : Slot).enc

/-- 20 bytes: a slot signature, the capacity 2^61 and four zeros. -/
def hugeTable : Bytes := SLOT_SIG ++ leBytes 8 (2 ^ 61) ++ [0, 0, 0, 0]

theorem load_huge (chk : Bool) (fuel : Nat) : loadLoop chk hugeTable (fuel + 1) 0 [] = some .panic := by
  have : (Slot.tryRead ⟨hugeTable, 0, chk⟩).1 = .panic := by cases chk <;> decide +kernel
  rw [loadLoop, this]

/-- **C57 is false of the code**, in debug and in release builds: a file of 20 bytes makes `open` panic. In a release build the size of the
table, `20 + 8 * capacity`, wraps around to 20 and the vector of lengths cannot be allocated. -/
theorem C57_panics (chk : Bool) : ¬ C57_full chk := by
  intro h
  obtain ⟨fuel, r, e, hr⟩ := h hugeTable (by decide)
  cases fuel with
  | zero => simp [Storage.open_, loadLoop] at e
  | succ fuel =>
    rw [Storage.open_, load_huge] at e
    simp only [Option.map_some, Out.map, Option.some.injEq] at e
    exact hr e.symm

/-- 28 bytes: a table with one length, 2^64 - 28. -/
def loopTable : Bytes := rawTable [2 ^ 64 - 28]

/-- **C57**, release builds: a file of 28 bytes, with a matching CRC, on which `open` runs for ever (adding the slot to its list again and
again). -/
theorem C57_hangs : ∀ fuel, Storage.open_ false fuel loopTable = none := by
  have h1 : (Slot.tryRead ⟨loopTable, 0, false⟩).1 = .ok (.success ⟨[2 ^ 64 - 28], 1, Slot.crcOf 1 [2 ^ 64 - 28]⟩) := by decide +kernel
  have : ∀ fuel acc, loadLoop false loopTable fuel 0 acc = none := by
    intro fuel
    induction fuel with
    | zero => intro acc; rfl
    | succ fuel ih =>
      intro acc
      rw [loadLoop, h1]
      simp only
      rw [show u64 false (0 + Slot.size ⟨[2 ^ 64 - 28], 1, Slot.crcOf 1 [2 ^ 64 - 28]⟩ + Slot.width ⟨[2 ^ 64 - 28], 1, Slot.crcOf 1 [2 ^ 64 - 28]⟩) = .ok 0 by rfl]
      exact ih _
  intro fuel
  rw [Storage.open_, this]
  rfl

example : loopTable.length = 28 := by decide +kernel

/-- A complete slot table, with a matching CRC, at `pos`. -/
def TableAt (data : Bytes) (pos : Nat) (s : Slot) : Prop :=
  s.WF ∧ ∃ t, data.drop pos = s.enc ++ t

/-- The positions at which a reader looks for a table: the start and the end of each slot found. -/
inductive Visited (data : Bytes) : Nat → Prop where
  | start : Visited data 0
  | next {pos : Nat} {s : Slot} : Visited data pos → TableAt data pos s → Visited data (pos + s.size + s.width)

theorem success_table {data : Bytes} {pos : Nat} {chk : Bool} {s : Slot} (h : (Slot.tryRead ⟨data, pos, chk⟩).1 = .ok (.success s)) :
    TableAt data pos s ∧ pos + s.size ≤ data.length := by
  obtain ⟨w, t, hr, _⟩ := Slot.tryRead_inv (c' := (Slot.tryRead ⟨data, pos, chk⟩).2) (Prod.ext h rfl)
  have hr' : data.drop pos = s.enc ++ t := hr
  refine ⟨⟨w, t, hr'⟩, ?_⟩
  have hl := congrArg List.length hr'
  have hs : 20 ≤ s.size := by simp only [Slot.size, SLOT_HSIZE]; omega
  rw [List.length_append, w.enc_length, List.length_drop] at hl
  omega

/-- If no end of a slot exceeds 64 bits, loading ends. -/
theorem load_ends {chk : Bool} {data : Bytes} (hw : chk = false → ∀ pos s, Visited data pos → TableAt data pos s → pos + s.size + s.width < 2 ^ 64) :
    ∀ (fuel : Nat) {pos : Nat} {acc : List Anchored}, Visited data pos → data.length + 1 ≤ pos + fuel → 0 < fuel →
      ∃ r, loadLoop chk data fuel pos acc = some r
  | 0, _, _, _, _, h => by omega
  | fuel + 1, pos, acc, hv, hf, _ => by
    unfold loadLoop
    split
    · rename_i s hs
      obtain ⟨ht, hle⟩ := success_table hs
      have h20 : 20 ≤ s.size := by simp only [Slot.size, SLOT_HSIZE]; omega
      have key : ∃ r, loadLoop chk data fuel (pos + s.size + s.width) (acc ++ [⟨s, pos⟩]) = some r :=
        load_ends hw fuel (.next hv ht) (by omega) (by omega)
      cases chk with
      | true =>
        unfold u64
        split
        · rename_i h; split at h
          · injection h with h; subst h; exact key
          · simp at h
        · exact ⟨_, rfl⟩
        · exact ⟨_, rfl⟩
      | false =>
        rw [u64_ok (hw rfl pos s hv ht)]
        exact key
    · exact ⟨_, rfl⟩
    · exact ⟨_, rfl⟩
    · exact ⟨_, rfl⟩
    · exact ⟨_, rfl⟩
    · exact ⟨_, rfl⟩

/-- **C57**, debug builds: opening any file ends (with `Ok`, an error or a panic) — it reads at most one table per 20 bytes. -/
theorem C57_debug_ends (data : Bytes) : ∃ r, openReader true data = some r := by
  obtain ⟨r, e⟩ := load_ends (chk := true) (data := data) (by simp) (data.length + 1) (pos := 0) (acc := []) .start (by omega) (by omega)
  exact ⟨_, by rw [openReader, Storage.open_, e]; rfl⟩

/-- A slot signature and a capacity at `pos`. -/
def HeaderAt (data : Bytes) (pos cap : Nat) : Prop :=
  cap < 2 ^ 64 ∧ SLOT_SIG ++ leBytes 8 cap <+: data.drop pos

/-- **C57 (partial).** Opening a file ends in `Ok` or an error, if, wherever the reader looks for a table,
* debug builds: the bytes announced are there — those of a table by its capacity (or the capacity is at most 1), those of the packets by the lengths;
* release builds: the sizes announced do not exceed 64 bits.

The CRC, the lengths and everything else in the file are arbitrary. Missing: the other files, on which it panics or does not end
(`C57_panics`, `C57_hangs`, `C34_panics`, `C35_not`). -/
theorem C57_opens_partial (chk : Bool) (data : Bytes) (hl : data.length < 2 ^ 63)
    (hcap : ∀ pos cap, Visited data pos → HeaderAt data pos cap →
      if chk then cap ≤ 1 ∨ pos + 20 + 8 * cap ≤ data.length else 20 + 8 * cap < 2 ^ 64)
    (hpk : ∀ pos s, Visited data pos → TableAt data pos s →
      pos + s.size + s.width < 2 ^ 64 ∧ (chk = true → pos + s.size + s.width ≤ data.length)) :
    (∃ r, openReader chk data = some r ∧ r ≠ .panic) ∧ ∃ r, openWriter chk data = some r ∧ r ≠ .panic := by
  obtain ⟨r, e⟩ := load_ends (chk := chk) (data := data) (fun _ pos s hv ht => (hpk pos s hv ht).1) (data.length + 1) (pos := 0) (acc := [])
    .start (by omega) (by omega)
  have np : ∀ (fuel : Nat) {pos : Nat} {acc : List Anchored}, Visited data pos → (chk = true → pos ≤ data.length) →
      loadLoop chk data fuel pos acc ≠ some .panic := by
    intro fuel
    induction fuel with
    | zero => intro pos acc _ _; simp [loadLoop]
    | succ fuel ih =>
      intro pos acc hv hp
      have h0 : (Slot.tryRead ⟨data, pos, chk⟩).1 ≠ .panic := by
        refine Slot.tryRead_np ?_ hl ?_
        · cases chk with
          | true => exact .inl (hp rfl)
          | false => exact .inr rfl
        · intro cap t h64 hr
          have hr' : data.drop pos = SLOT_SIG ++ (leBytes 8 cap ++ t) := hr
          have := hcap pos cap hv ⟨h64, t, by rw [hr', List.append_assoc]⟩
          have hlen := congrArg List.length hr'
          simp only [List.length_drop, List.length_append, leBytes_length, SLOT_SIG, List.length_cons, List.length_nil] at hlen
          dsimp only
          split
          · rename_i hc
            rw [if_pos hc] at this
            simp only [Cur.rest, List.length_drop]
            omega
          · rename_i hc
            rw [if_neg hc] at this
            exact this
      unfold loadLoop
      split
      · rename_i s hs
        obtain ⟨ht, _⟩ := success_table hs
        rw [u64_ok (hpk pos s hv ht).1]
        exact ih (.next hv ht) (hpk pos s hv ht).2
      · simp
      · simp
      · simp
      · simp
      · rename_i hx; exact absurd hx h0
  have hr : r ≠ .panic := by
    intro h0
    rw [h0] at e
    exact np _ .start (by simp) e
  exact ⟨⟨_, by rw [openReader, Storage.open_, e]; rfl, Out.map_ne_panic hr⟩, ⟨_, by rw [openWriter, Writer.open_, e]; rfl, Out.map_ne_panic hr⟩⟩

/-- A table with two packets in it and four damaged bytes for its CRC, followed by 5 bytes. -/
def badCrc : Bytes := SLOT_SIG ++ leBytes 8 2 ++ leBytes 8 3 ++ leBytes 8 2 ++ [1, 2, 3, 4] ++ [0, 0, 0, 0, 0]

/-- The hypotheses are met by it: the only position visited is 0. -/
example (chk : Bool) : ∃ r, openReader chk badCrc = some r ∧ r ≠ .panic := by
  have hno : ∀ s, ¬ TableAt badCrc 0 s := by
    rintro s ⟨w, t, h⟩
    have h1 := Slot.tryRead_enc w (c := ⟨badCrc, 0, true⟩) (t := t) (by simp) h
    have h2 : (Slot.tryRead ⟨badCrc, 0, true⟩).1 = .err .crcDismatch := by decide +kernel
    rw [h1] at h2
    cases h2
  have hv : ∀ pos, Visited badCrc pos → pos = 0 := by
    intro pos h
    induction h with
    | start => rfl
    | next hv ht ih => subst ih; exact absurd ht (hno _)
  refine (C57_opens_partial chk badCrc (by decide) ?_ ?_).1
  · intro pos cap h1 ⟨h64, h2⟩
    rw [hv pos h1] at h2 ⊢
    obtain ⟨t, h2⟩ := h2
    have h3 := congrArg (fun l => leNat ((l.drop 8).take 8)) h2
    simp only [List.append_assoc] at h3
    rw [List.drop_left' (by rfl), List.take_left' (leBytes_length 8 cap), leNat_leBytes_of_lt (show cap < 256 ^ 8 by omega)] at h3
    have : cap = 2 := by rw [h3]; decide
    subst this
    cases chk <;> decide
  · intro pos s h1 h2
    rw [hv pos h1] at h2
    exact absurd h2 (hno s)

/-- 52 bytes: a table with a free place before two used ones. -/
def holeTable : Bytes := rawTable [0, 100, 5, 0]

/-- **C57**, debug builds: opening a file can succeed, and `nth` panics — the place of a packet behind a free place is beyond the
end of the file. (In a release build it is an error.) -/
theorem C57_nth_panics : ∃ s, openReader true holeTable = some (.ok s) ∧
    (s.nth SLOT_CAPACITY true holeTable 2 : Out (Option (Packet (blockEnum sampleTypes) (PEnum.ops [])))) = .panic ∧
    (s.nth SLOT_CAPACITY false holeTable 2 : Out (Option (Packet (blockEnum sampleTypes) (PEnum.ops [])))) = .err .io := by
  refine ⟨⟨[⟨⟨[0, 100, 5, 0], 4, Slot.crcOf 4 [0, 100, 5, 0]⟩, 0⟩], ⟨0, 0⟩⟩, by decide +kernel, ?_, ?_⟩
  · rfl
  · rfl

/-! ## C58 -/

/-- Bytes at `pos` replaced by as many others. -/
def patch (data : Bytes) (pos : Nat) (x : Bytes) : Bytes := data.take pos ++ x ++ data.drop (pos + x.length)

/-- Several stretches replaced; `place` says where the `i`-th packet is. -/
def patches (place : Nat → Nat) (data : Bytes) (hits : List (Nat × Bytes)) : Bytes :=
  hits.foldl (fun d h => patch d (place h.1) h.2) data

/-- Each hit replaces a stored packet by as many arbitrary bytes. -/
def Hits (ps : List (Packet O Q)) (hits : List (Nat × Bytes)) : Prop :=
  ∀ h ∈ hits, ∃ p, ps[h.1]? = some p ∧ h.2.length = (wire p).length

/-- Full statement of C58 (false for `iter`): whatever is done to the bytes of some packets, the storage opens as before and the other
packets are found by index and by iterating. -/
def C58_full (Q : PayloadOps) (S : BlockSpec O) (cap : Nat) : Prop :=
  ∀ (chk : Bool) (ops : List (Op O Q)) (data : Bytes) (s : Storage), Reached cap chk ops data s → (∀ p ∈ log ops, Storable S p) → Small cap (log ops) →
    ∃ place : Nat → Nat, (∀ i p, (log ops)[i]? = some p → s.offsetOf cap i = .ok (some (place i)) ∧ wire p <+: data.drop (place i)) ∧
      ∀ hits, Hits (log ops) hits →
        openReader chk (patches place data hits) = some (.ok s) ∧
        (∀ j, (∀ h ∈ hits, h.1 ≠ j) → s.nth cap chk (patches place data hits) j = .ok (log ops)[j]?) ∧
        ∃ l, IterYields s (patches place data hits) l ∧ ∀ j p, (log ops)[j]? = some p → (∀ h ∈ hits, h.1 ≠ j) → .ok p ∈ l

theorem lens_congr {cap : Nat} {g g' : List Bytes} (h : g.map List.length = g'.map List.length) : lens cap g = lens cap g' := by
  have := congrArg List.length h
  simp only [List.length_map] at this
  rw [lens, lens, h, this]

theorem table_congr {cap : Nat} {g g' : List Bytes} (h : g.map List.length = g'.map List.length) : table cap g = table cap g' := by
  rw [table, table, lens_congr h]

theorem region_congr {cap : Nat} {g g' : List Bytes} (h : g.map List.length = g'.map List.length) : (region cap g).length = (region cap g').length := by
  rw [region, region, table_congr h, List.length_append, List.length_append, List.length_flatten, List.length_flatten, h]

theorem anchor_congr {cap : Nat} : ∀ {gs gs' : List (List Bytes)} (off : Nat), gs.map (List.map List.length) = gs'.map (List.map List.length) →
    anchor cap off gs = anchor cap off gs'
  | [], [], _, _ => rfl
  | [], _ :: _, _, h => by simp at h
  | _ :: _, [], _, h => by simp at h
  | g :: gs, g' :: gs', off, h => by
    simp only [List.map_cons, List.cons.injEq] at h
    rw [anchor, anchor, table_congr h.1, region_congr h.1, anchor_congr _ h.2]

/-- Where packet `n` of the groups is. -/
def placeOf (cap : Nat) (gs : List (List Bytes)) (n : Nat) : Nat :=
  (fileOf cap (gs.take (n / cap))).length + (20 + 8 * cap) + ((gs[n / cap]?.getD []).take (n % cap)).flatten.length

theorem fileOf_congr {cap : Nat} : ∀ {gs gs' : List (List Bytes)}, gs.map (List.map List.length) = gs'.map (List.map List.length) →
    (fileOf cap gs).length = (fileOf cap gs').length
  | [], [], _ => rfl
  | [], _ :: _, h => by simp at h
  | _ :: _, [], h => by simp at h
  | g :: gs, g' :: gs', h => by
    simp only [List.map_cons, List.cons.injEq] at h
    rw [fileOf_cons, fileOf_cons, List.length_append, List.length_append, region_congr h.1, fileOf_congr h.2]

theorem placeOf_congr {cap : Nat} {gs gs' : List (List Bytes)} (h : gs.map (List.map List.length) = gs'.map (List.map List.length)) (n : Nat) :
    placeOf cap gs n = placeOf cap gs' n := by
  have h1 : (gs.take (n / cap)).map (List.map List.length) = (gs'.take (n / cap)).map (List.map List.length) := by
    rw [List.map_take, List.map_take, h]
  have h2 : (gs[n / cap]?.getD []).map List.length = (gs'[n / cap]?.getD []).map List.length := by
    have := congrArg (fun l => l[n / cap]?) h
    simp only [List.getElem?_map] at this
    cases hx : gs[n / cap]? <;> cases hy : gs'[n / cap]? <;> rw [hx, hy] at this <;> simp_all
  rw [placeOf, placeOf, fileOf_congr h1, List.length_flatten, List.length_flatten, List.map_take, List.map_take, h2]

/-- One packet replaced. -/
theorem patch_file {cap : Nat} (hc : 0 < cap) {gs : List (List Bytes)} (hg : Groups cap gs) {n : Nat} {w x : Bytes} (hn : gs.flatten[n]? = some w)
    (hx : x.length = w.length) :
    ∃ gs', Groups cap gs' ∧ gs'.map (List.map List.length) = gs.map (List.map List.length) ∧
      patch (fileOf cap gs) (placeOf cap gs n) x = fileOf cap gs' ∧ gs'.flatten = gs.flatten.set n x := by
  have hn' := hn
  rw [hg.get hc] at hn'
  cases hy : gs[n / cap]? with
  | none => rw [hy] at hn'; simp at hn'
  | some g =>
    rw [hy] at hn'
    simp only [Option.bind_some] at hn'
    obtain ⟨hi, e1⟩ := List.getElem?_eq_some_iff.mp hy
    obtain ⟨hj, e2⟩ := List.getElem?_eq_some_iff.mp hn'
    have hgs : gs = gs.take (n / cap) ++ g :: gs.drop (n / cap + 1) := by
      rw [← e1, List.getElem_cons_drop, List.take_append_drop]
    have hgg : g = g.take (n % cap) ++ w :: g.drop (n % cap + 1) := by
      rw [← e2, List.getElem_cons_drop, List.take_append_drop]
    have hA : (gs.take (n / cap)).length = n / cap := by rw [List.length_take]; omega
    have hU : (g.take (n % cap)).length = n % cap := by rw [List.length_take]; omega
    have hpl : placeOf cap gs n = (fileOf cap (gs.take (n / cap))).length + (20 + 8 * cap) + (g.take (n % cap)).flatten.length := by
      rw [placeOf, hy, Option.getD_some]
    have hAfull : ∀ y ∈ gs.take (n / cap), y.length = cap := by
      intro y hy'
      apply hg.full
      obtain ⟨k, hk, rfl⟩ := List.mem_iff_getElem.mp hy'
      rw [List.length_take] at hk
      rw [List.getElem_take]
      exact List.mem_iff_getElem.mpr ⟨k, by rw [List.length_dropLast]; omega, by rw [List.getElem_dropLast]⟩
    have hwne := (hg.group g (List.mem_of_getElem? hy)).pos w (List.mem_of_getElem? hn')
    have hdiv : n = (gs.take (n / cap)).flatten.length + n % cap := by
      have : (gs.take (n / cap)).flatten.length = (n / cap) * cap := by
        conv => rhs; rw [← hA]
        exact length_flatten_full fun y hy' => ⟨hg.group y (List.mem_of_mem_take hy'), hAfull y hy'⟩
      rw [this]
      have := Nat.div_add_mod n cap
      rw [Nat.mul_comm] at this
      omega
    generalize gs.take (n / cap) = A at *
    generalize gs.drop (n / cap + 1) = B at *
    generalize g.take (n % cap) = u at *
    generalize g.drop (n % cap + 1) = v at *
    have hlen : (u ++ x :: v).map List.length = (u ++ w :: v).map List.length := by simp [hx]
    subst hgg
    subst hgs
    have hxne : x ≠ [] := by
      rw [← List.length_pos_iff, hx, List.length_pos_iff]; exact hwne
    have hgr := hg.group (u ++ w :: v) (by simp)
    refine ⟨A ++ (u ++ x :: v) :: B, ⟨?_, ?_, ?_⟩, by simp [hx], ?_, ?_⟩
    · intro y hy'
      rcases List.mem_append.mp hy' with h | h
      · exact hg.group y (by simp [h])
      · rcases List.mem_cons.mp h with rfl | h
        · refine ⟨?_, by have := hgr.le; simp only [List.length_append, List.length_cons] at this ⊢; exact this⟩
          intro z hz
          rcases List.mem_append.mp hz with h | h
          · exact hgr.pos z (by simp [h])
          · rcases List.mem_cons.mp h with rfl | h
            · exact hxne
            · exact hgr.pos z (by simp [h])
        · exact hg.group y (by simp [h])
    · intro y hy'
      rcases List.mem_append.mp hy' with h | h
      · exact hg.ne y (by simp [h])
      · rcases List.mem_cons.mp h with rfl | h
        · simp
        · exact hg.ne y (by simp [h])
    · intro y hy'
      by_cases hB : B = []
      · subst hB
        rw [List.dropLast_concat] at hy'
        exact hAfull y hy'
      · have hf := hg.full
        rw [List.dropLast_append_of_ne_nil (by simp), List.dropLast_cons_of_ne_nil hB] at hf hy'
        rcases List.mem_append.mp hy' with h | h
        · exact hf y (by simp [h])
        · rcases List.mem_cons.mp h with rfl | h
          · have := hf (u ++ w :: v) (by simp)
            simp only [List.length_append, List.length_cons] at this ⊢
            exact this
          · exact hf y (by simp [h])
    · have hen : (table cap (u ++ w :: v)).enc.length = 20 + 8 * cap := by
        have := region_length (cap := cap) hgr.le
        rw [region, List.length_append] at this
        omega
      have hf : ∀ y : Bytes, fileOf cap (A ++ (u ++ y :: v) :: B) =
          (fileOf cap A ++ (table cap (u ++ y :: v)).enc ++ u.flatten) ++ (y ++ (v.flatten ++ fileOf cap B)) := by
        intro y
        rw [fileOf_append, fileOf_cons, region]
        simp
      rw [hf w, hf x, table_congr hlen, patch]
      have hpre : placeOf cap (A ++ (u ++ w :: v) :: B) n = (fileOf cap A ++ (table cap (u ++ w :: v)).enc ++ u.flatten).length := by
        rw [hpl, List.length_append, List.length_append, hen]
      rw [hpre, List.take_left, ← List.drop_drop, List.drop_left, hx, List.drop_left, List.append_assoc]
    · simp only [List.flatten_append, List.flatten_cons, List.append_assoc, List.cons_append]
      rw [hdiv, List.set_append_right _ _ (by omega), Nat.add_sub_cancel_left]
      rw [← hU, List.set_append_right _ _ (by omega), Nat.sub_self]
      rfl

/-- Several packets replaced. -/
theorem patches_file {cap : Nat} (hc : 0 < cap) : ∀ (hits : List (Nat × Bytes)) {gs : List (List Bytes)}, Groups cap gs →
    (∀ h ∈ hits, ∃ w, gs.flatten[h.1]? = some w ∧ h.2.length = w.length) →
    ∃ gs', Groups cap gs' ∧ gs'.map (List.map List.length) = gs.map (List.map List.length) ∧
      patches (placeOf cap gs) (fileOf cap gs) hits = fileOf cap gs' ∧ (∀ j, (∀ h ∈ hits, h.1 ≠ j) → gs'.flatten[j]? = gs.flatten[j]?) ∧
      ∀ (j : Nat), ((∀ h ∈ hits, h.1 ≠ j) ∧ gs'.flatten[j]? = gs.flatten[j]?) ∨ ∃ h ∈ hits, h.1 = j ∧ gs'.flatten[j]? = some h.2
  | [], gs, hg, _ => ⟨gs, hg, rfl, rfl, fun _ _ => rfl, fun _ => .inl ⟨by simp, rfl⟩⟩
  | (n, x) :: hits, gs, hg, hh => by
    obtain ⟨w, hw, hx⟩ := hh (n, x) (by simp)
    obtain ⟨g1, hg1, hm1, e1, f1⟩ := patch_file hc hg hw hx
    obtain ⟨g2, hg2, hm2, e2, f2, f3⟩ := patches_file hc hits hg1 (by
      intro h hmem
      obtain ⟨w', hw', hx'⟩ := hh h (by simp [hmem])
      rw [f1]
      by_cases hn : n = h.1
      · refine ⟨x, ?_, ?_⟩
        · rw [← hn, List.getElem?_set_self (List.getElem?_eq_some_iff.mp hw).1]
        · rw [← hn] at hw'
          rw [hw'] at hw
          injection hw with hw
          rw [hx', hw, ← hx]
      · exact ⟨w', by rw [List.getElem?_set_ne hn]; exact hw', hx'⟩)
    have hp : placeOf cap g1 = placeOf cap gs := funext fun i => placeOf_congr hm1 i
    refine ⟨g2, hg2, hm2.trans hm1, ?_, ?_, ?_⟩
    · rw [← e2, hp, ← e1]; rfl
    · intro j hj
      rw [f2 j fun h hm => hj h (by simp [hm]), f1, List.getElem?_set_ne (hj (n, x) (by simp))]
    · intro j
      rcases f3 j with ⟨h0, h⟩ | ⟨y, hy, h1, h2⟩
      · by_cases hn : n = j
        · refine .inr ⟨(n, x), by simp, hn, ?_⟩
          rw [h, f1, ← hn, List.getElem?_set_self (List.getElem?_eq_some_iff.mp hw).1]
        · rw [f1, List.getElem?_set_ne hn] at h
          refine .inl ⟨?_, h⟩
          intro y hy
          rcases List.mem_cons.mp hy with rfl | hy
          · exact hn
          · exact h0 y hy
      · exact .inr ⟨y, by simp [hy], h1, h2⟩

/-- **C58 (partial).** Whatever is done to the bytes of any of the packets, the storage opens as before — same slots, same `count()` — and
`nth` finds every other packet. Missing: `iter()`, see `C58_iter_not` and `C58_iter_partial`. -/
theorem C58_confined_partial {cap : Nat} (hc : 0 < cap) {chk : Bool} {ops : List (Op O Q)} {data : Bytes} {s : Storage} (h : Reached cap chk ops data s)
    (hok : ∀ p ∈ log ops, Storable S p) (hs : Small cap (log ops)) :
    ∃ place : Nat → Nat, (∀ i p, (log ops)[i]? = some p → s.offsetOf cap i = .ok (some (place i)) ∧ wire p <+: data.drop (place i)) ∧
      ∀ hits, Hits (log ops) hits →
        openReader chk (patches place data hits) = some (.ok s) ∧ s.count cap = (log ops).length ∧
        (∀ j, (∀ h ∈ hits, h.1 ≠ j) → s.nth cap chk (patches place data hits) j = .ok (log ops)[j]?) := by
  obtain ⟨gs, v, hd, f, hl⟩ := h.view hc (fun p hp => (hok p hp).ok) hs
  subst hd
  refine ⟨placeOf cap gs, ?_, ?_⟩
  · intro i p hp
    obtain ⟨a, t, ho, e, hlen⟩ := offsetOf_some hc v.groups v.inner (n := i) (x := wire p) (by rw [f, List.getElem?_map, hp]; rfl)
    refine ⟨by rw [ho, placeOf, hlen], t, ?_⟩
    rw [e, placeOf, ← hlen, List.drop_left]
  · intro hits hh
    obtain ⟨gs', hg', hm, e, hj, _⟩ := patches_file hc hits v.groups (by
      intro x hx
      obtain ⟨p, hp, hpl⟩ := hh x hx
      exact ⟨wire p, by rw [f, List.getElem?_map, hp]; rfl, hpl⟩)
    have hl' : (fileOf cap gs').length < 2 ^ 63 := by rw [fileOf_congr hm]; exact hl
    have hlen : gs'.length = gs.length := by simpa using congrArg List.length hm
    have hread := h.read
    have hsame : openReader chk (fileOf cap gs') = openReader chk (fileOf cap gs) := by
      rw [openReader, Storage.open_, load_file chk hg'.group hl' (Nat.lt_succ_of_le (groups_le hg'.group)), openReader, Storage.open_,
        load_file chk v.groups.group hl (Nat.lt_succ_of_le (groups_le v.groups.group)), anchor_congr 0 hm]
    have v' : View cap gs' s := by
      obtain ⟨s', e', v'⟩ := open_reader hc hg' hl' chk
      rw [hsame, hread] at e'
      injection e' with e'
      injection e' with e'
      rw [e']; exact v'
    refine ⟨by rw [e, hsame, hread], by rw [v.count, f, List.length_map], ?_⟩
    intro j hne
    rw [e]
    have hjj := hj j hne
    unfold Storage.nth
    cases hn : (log ops)[j]? with
    | none =>
      rw [offsetOf_none hc v'.groups v'.inner (by rw [hjj, f, List.getElem?_map, hn]; rfl)]
    | some p =>
      obtain ⟨a, t, e, hf, _⟩ := offsetOf_some hc v'.groups v'.inner (n := j) (x := wire p) (by rw [hjj, f, List.getElem?_map, hn]; rfl)
      rw [e]
      simp only
      rw [tryRead_wire (hok p (List.mem_of_getElem? hn)) (t := t) (by rw [hf]; simp) (by rw [hf]; simp)]

/-- Two packets. -/
def twoPackets : List (Op (blockEnum sampleTypes) (PEnum.ops [])) := [samplePacket, otherPacket].map Op.insert

theorem twoPackets_log : log twoPackets = [samplePacket, otherPacket] := log_inserts _

theorem twoPackets_storable : ∀ p ∈ log twoPackets, Storable sampleSpec p := by
  rw [twoPackets_log]
  intro p hp
  rcases List.mem_cons.mp hp with rfl | hp
  · exact sample_storable
  · rw [List.mem_singleton.mp hp]; exact otherPacket_storable

theorem twoPackets_small : Small SLOT_CAPACITY (log twoPackets) := by
  rw [twoPackets_log]
  unfold Small
  simp only [List.map_cons, List.map_nil, wire_sample_length, wire_other_length]
  decide

theorem twoPackets_hits : Hits (log twoPackets) [(0, List.replicate 125 0)] := by
  intro h hh
  rw [List.mem_singleton.mp hh, twoPackets_log]
  exact ⟨samplePacket, rfl, by rw [wire_sample_length, List.length_replicate]⟩

/-- The hypotheses are met: the first of two packets is overwritten by zeros, the second is found. -/
example (chk : Bool) : ∃ data s, Reached SLOT_CAPACITY chk twoPackets data s ∧ ∃ data', data' ≠ data ∧ openReader chk data' = some (.ok s) ∧
    s.nth SLOT_CAPACITY chk data' 1 = .ok (some otherPacket) := by
  obtain ⟨data, s, h⟩ := Reached.exists (S := sampleSpec) (cap := SLOT_CAPACITY) (by decide) chk twoPackets twoPackets_storable twoPackets_small
  obtain ⟨place, hp, hh⟩ := C58_confined_partial (S := sampleSpec) (by decide) h twoPackets_storable twoPackets_small
  obtain ⟨h1, _, h3⟩ := hh _ twoPackets_hits
  refine ⟨data, s, h, _, ?_, h1, by rw [h3 1 (by simp), twoPackets_log]; rfl⟩
  obtain ⟨_, t, ht⟩ := hp 0 samplePacket (by rw [twoPackets_log]; rfl)
  intro he
  have hlt : place 0 < data.length := by
    apply Nat.lt_of_not_le
    intro hle
    rw [List.drop_eq_nil_of_le hle] at ht
    have := congrArg List.length ht
    rw [List.length_append, wire_sample_length] at this
    simp at this
  have h5 := congrArg (fun d => (d.drop (place 0)).take 8) he
  simp only [patches, List.foldl_cons, List.foldl_nil, patch] at h5
  rw [← ht, List.append_assoc, List.drop_left' (by rw [List.length_take]; omega)] at h5
  have h6 : (wire samplePacket ++ t).take 8 = PACKET_SIG := by
    rw [List.take_append_of_le_length (by rw [wire_sample_length]; omega)]
    decide +kernel
  rw [h6, List.take_append_of_le_length (by simp), List.take_replicate] at h5
  exact absurd h5 (by decide)

/-- Reading packet after packet from `b`, all attempts fail. -/
def allFail : Nat → Bytes → Bool
  | 0, _ => false
  | n + 1, b =>
    if b = [] then true
    else match (Packet.read (O := blockEnum sampleTypes) (PEnum.ops [])).run b with
      | (.err _, b') => allFail n b'
      | _ => false

theorem allFail_yields {data : Bytes} {spans spans' : Spans} (hsp : spans.next = (none, spans')) : ∀ (n : Nat) {b : Bytes}, allFail n b = true →
    ∃ l, Yields (fun it r => Iter.next (O := blockEnum sampleTypes) (Q := PEnum.ops []) data it = r) ⟨spans, b⟩ l ∧ ∀ x ∈ l, ∃ e, x = .err e
  | 0, b, h => by simp [allFail] at h
  | n + 1, b, h => by
    unfold allFail at h
    split at h
    · rename_i hb
      subst hb
      refine ⟨[], Yields.done (s' := ⟨spans', []⟩) ?_, by simp⟩
      unfold Iter.next Iter.refill
      rw [if_neg (by simp)]
      simp only [hsp]
    · rename_i hb
      split at h
      · rename_i e b' hr
        obtain ⟨l, hy, hl⟩ := allFail_yields (data := data) hsp n h
        refine ⟨.err e :: l, Yields.step (s' := ⟨spans, b'⟩) ?_ hy, ?_⟩
        · unfold Iter.next Iter.refill
          rw [if_pos hb]
          simp only [hr]
        · intro x hx
          rcases List.mem_cons.mp hx with rfl | hx
          · exact ⟨e, rfl⟩
          · exact hl x hx
      · simp at h

theorem allFail_sample : allFail 40 (List.replicate 125 0 ++ wire otherPacket) = true := by decide +kernel

/-- **C58 is false for `iter`**: with the first of two packets overwritten by zeros, `iter()` yields only errors; the second packet, which is
intact, does not come up. (It takes 8 bytes per attempt, a signature, and misses the start of the second packet.) -/
theorem C58_iter_not : ¬ C58_full (PEnum.ops []) sampleSpec SLOT_CAPACITY := by
  intro hfull
  obtain ⟨data, s, h⟩ := Reached.exists (S := sampleSpec) (cap := SLOT_CAPACITY) (by decide) true twoPackets twoPackets_storable twoPackets_small
  obtain ⟨place, hp, hh⟩ := hfull true twoPackets data s h twoPackets_storable twoPackets_small
  obtain ⟨_, _, l, hy, hl⟩ := hh _ twoPackets_hits
  have hmem := hl 1 otherPacket (by rw [twoPackets_log]; rfl) (by simp)
  obtain ⟨gs, v, hd, f, hlen⟩ := h.view (S := sampleSpec) (by decide) (fun p hp => (twoPackets_storable p hp).ok) twoPackets_small
  subst hd
  rw [twoPackets_log] at f
  have hcap : (0 : Nat) < SLOT_CAPACITY := by decide
  have hw0 : gs.flatten[0]? = some (wire samplePacket) := by rw [f]; rfl
  obtain ⟨a, t, ho, _, hlen0⟩ := offsetOf_some hcap v.groups v.inner hw0
  have hplace : place 0 = placeOf SLOT_CAPACITY gs 0 := by
    have := (hp 0 samplePacket (by rw [twoPackets_log]; rfl)).1
    rw [ho] at this
    injection this with this
    injection this with this
    rw [← this, placeOf, hlen0]
  obtain ⟨gs', hg', hm, e, hf⟩ := patch_file hcap v.groups (x := List.replicate 125 0) hw0 (by rw [wire_sample_length, List.length_replicate])
  rw [f] at hf
  have hzne : List.replicate 125 (0 : Byte) ≠ [] := by simp
  have hgs' : gs' = [[List.replicate 125 0, wire otherPacket]] := by
    refine groups_unique hcap hg' ⟨?_, ?_, ?_⟩ (by rw [hf]; rfl)
    · intro g hg
      rw [List.mem_singleton.mp hg]
      refine ⟨?_, by simp [SLOT_CAPACITY]⟩
      intro w hw
      rcases List.mem_cons.mp hw with rfl | hw
      · exact hzne
      · rw [List.mem_singleton.mp hw]; exact wire_ne otherPacket_ok
    · intro g hg
      rw [List.mem_singleton.mp hg]; simp
    · simp
  have hdata : patches place (fileOf SLOT_CAPACITY gs) [(0, List.replicate 125 0)] = fileOf SLOT_CAPACITY gs' := by
    rw [← e, ← hplace]; rfl
  rw [hdata] at hy
  have hl' : (fileOf SLOT_CAPACITY gs').length < 2 ^ 63 := by rw [fileOf_congr hm]; exact hlen
  have hinner : s.slots.map (·.inner) = gs'.map (table SLOT_CAPACITY) := by
    rw [v.slots, anchor_congr 0 hm.symm, anchor_inner]
  have hgr := hg'.group [List.replicate 125 0, wire otherPacket] (by rw [hgs']; simp)
  have hw250 : [List.replicate 125 0, wire otherPacket].flatten.length = 250 := by
    simp only [List.flatten_cons, List.flatten_nil, List.append_nil, List.length_append, List.length_replicate, wire_other_length]
  have hen : (table SLOT_CAPACITY [List.replicate 125 0, wire otherPacket]).enc.length = 4020 := by
    have := region_length (cap := SLOT_CAPACITY) hgr.le
    rw [region, List.length_append] at this
    simp only [SLOT_CAPACITY] at this ⊢
    omega
  have hfile : fileOf SLOT_CAPACITY gs' = (table SLOT_CAPACITY [List.replicate 125 0, wire otherPacket]).enc ++ (List.replicate 125 0 ++ wire otherPacket) := by
    rw [hgs', fileOf_cons, fileOf_nil, region]
    simp
  -- the first call fills the buffer
  have hrefill : Iter.refill (fileOf SLOT_CAPACITY gs') (Iter.new s) = some (.ok ⟨⟨4270, []⟩, List.replicate 125 0 ++ wire otherPacket⟩) := by
    unfold Iter.refill Iter.new
    rw [if_neg (by simp), hinner, hgs']
    simp only [List.map_cons, List.map_nil, Spans.next, Nat.zero_add]
    rw [table_width hgr, hw250, if_neg (by decide), table_size]
    simp only
    unfold fetch
    rw [← hgs', hfile]
    have h250 : (List.replicate 125 (0 : Byte) ++ wire otherPacket).length = 250 := by
      rw [List.length_append, List.length_replicate, wire_other_length]
    have hdr : ((table SLOT_CAPACITY [List.replicate 125 0, wire otherPacket]).enc ++ (List.replicate 125 0 ++ wire otherPacket)).drop
        (20 + 8 * SLOT_CAPACITY) = List.replicate 125 0 ++ wire otherPacket := List.drop_left' hen
    simp only
    rw [hdr, Nat.add_sub_cancel, h250, allocZeroed, if_pos (by decide)]
    simp only
    rw [if_pos (Nat.le_refl _), List.take_of_length_le (Nat.le_of_eq h250)]
    rfl
  obtain ⟨l2, hy2, he2⟩ := allFail_yields (data := fileOf SLOT_CAPACITY gs') (spans := ⟨4270, []⟩) (spans' := ⟨4270, []⟩) rfl 40 allFail_sample
  have same : ∀ {x : Option (Out (Packet (blockEnum sampleTypes) (PEnum.ops []))) × Iter},
      Iter.next (fileOf SLOT_CAPACITY gs') ⟨⟨4270, []⟩, List.replicate 125 0 ++ wire otherPacket⟩ = x →
      Iter.next (fileOf SLOT_CAPACITY gs') (Iter.new s) = x := by
    intro x hx
    rw [← hx]
    unfold Iter.next
    rw [hrefill]
    unfold Iter.refill
    rw [if_pos (by simp)]
  have hy3 : IterYields s (fileOf SLOT_CAPACITY gs') l2 := by
    cases hy2 with
    | done h => exact Yields.done (same h)
    | step h t => exact Yields.step (same h) t
  rw [Yields.det hy hy3] at hmem
  obtain ⟨e, he⟩ := he2 _ hmem
  cases he

/-! ## C59 -/

/-- Full statement of C59 (false): if up to four consecutive bytes of any slot table are changed, opening the storage reports a damaged slot. -/
def C59_full (Q : PayloadOps) (S : BlockSpec O) (cap : Nat) : Prop :=
  ∀ (chk : Bool) (ops : List (Op O Q)) (data : Bytes) (s : Storage), Reached cap chk ops data s → (∀ p ∈ log ops, p.Ok S) → Small cap (log ops) →
    ∀ a ∈ s.slots, ∀ pre tbl post tbl', data = pre ++ tbl ++ post → pre.length = a.offset → tbl.length = 20 + 8 * cap → Burst4 tbl tbl' → tbl' ≠ tbl →
      ∃ e, openReader chk (pre ++ tbl' ++ post) = some (.err (.damagedSlot e))

theorem mem_anchor {cap : Nat} : ∀ {gs : List (List Bytes)} {off : Nat} {a : Anchored}, a ∈ anchor cap off gs →
    ∃ A g B, gs = A ++ g :: B ∧ a = ⟨table cap g, off + (fileOf cap A).length⟩
  | [], _, _, h => by simp [anchor] at h
  | g :: gs, off, a, h => by
    rcases List.mem_cons.mp h with h | h
    · exact ⟨[], g, gs, rfl, by simp [h]⟩
    · obtain ⟨A, g', B, e, ha⟩ := mem_anchor h
      refine ⟨g :: A, g', B, by rw [e]; rfl, ?_⟩
      rw [ha, fileOf_cons, List.length_append, Nat.add_assoc]

/-- **C59 (partial).** If up to four consecutive bytes of any slot table are changed, but not the capacity, opening the storage reports a damaged
slot: by its signature if that was hit, by its CRC otherwise. Missing: damage of the capacity (`C59_not`). -/
theorem C59_damaged_table_partial {cap : Nat} (hc : 0 < cap) {chk : Bool} {ops : List (Op O Q)} {data : Bytes} {s : Storage} (h : Reached cap chk ops data s)
    (hok : ∀ p ∈ log ops, p.Ok S) (hs : Small cap (log ops)) {a : Anchored} (ha : a ∈ s.slots) {pre tbl post tbl' : Bytes}
    (hd : data = pre ++ tbl ++ post) (hpre : pre.length = a.offset) (ht : tbl.length = 20 + 8 * cap) (hb : Burst4 tbl tbl') (hne : tbl' ≠ tbl)
    (hcapB : (tbl'.drop 8).take 8 = (tbl.drop 8).take 8) :
    openReader chk (pre ++ tbl' ++ post) =
      some (.err (.damagedSlot (if tbl'.take 8 = tbl.take 8 then .crcDismatch else .sigDismatch))) := by
  obtain ⟨gs, v, hd', f, hl⟩ := h.view hc hok hs
  rw [v.slots] at ha
  obtain ⟨A, g, B, rfl, hae⟩ := mem_anchor ha
  have hgr := v.groups.group g (by simp)
  have hwf := table_wf_of_file (g := g) (by rw [← hd']; exact hl) (by simp) hgr.le
  have hencl : (table cap g).enc.length = 20 + 8 * cap := by rw [hwf.enc_length, table_size]
  have hpre' : pre.length = (fileOf cap A).length := by rw [hpre, hae]; simp
  have hsplit : pre = fileOf cap A ∧ tbl = (table cap g).enc ∧ post = g.flatten ++ fileOf cap B := by
    have e : pre ++ (tbl ++ post) = fileOf cap A ++ ((table cap g).enc ++ (g.flatten ++ fileOf cap B)) := by
      rw [← List.append_assoc, ← hd, hd', fileOf_append, fileOf_cons, region, List.append_assoc]
    obtain ⟨e1, e2⟩ := List.append_inj e hpre'
    obtain ⟨e2, e3⟩ := List.append_inj e2 (by rw [ht, hencl])
    exact ⟨e1, e2, e3⟩
  obtain ⟨rfl, rfl, rfl⟩ := hsplit
  have htl : tbl'.length = 20 + 8 * cap := by rw [← hb.1, ht]
  have h8 : (table cap g).enc.take 8 = SLOT_SIG := by
    rw [Slot.enc, List.append_assoc, List.append_assoc]; exact List.take_left' rfl
  have h16 : ((table cap g).enc.drop 8).take 8 = leBytes 8 cap := by
    rw [Slot.enc, List.append_assoc, List.append_assoc, List.drop_left' (by rfl)]; exact List.take_left' (leBytes_length 8 cap)
  rw [h16] at hcapB
  rw [h8]
  have hrest : tbl' = tbl'.take 8 ++ (leBytes 8 cap ++ tbl'.drop 16) := by
    rw [← hcapB, show tbl'.drop 16 = (tbl'.drop 8).drop 8 by rw [List.drop_drop], List.take_append_drop, List.take_append_drop]
  have hcap63 := hwf.cap
  rw [table_capacity] at hcap63
  have hfl : (fileOf cap A ++ tbl' ++ (g.flatten ++ fileOf cap B)).length < 2 ^ 63 := by
    have e := congrArg List.length hd
    simp only [List.length_append] at e ⊢
    rw [htl]
    rw [hencl] at e
    omega
  have hdam : (Slot.tryRead ⟨fileOf cap A ++ (tbl' ++ (g.flatten ++ fileOf cap B)), (fileOf cap A).length, chk⟩).1 =
      .err (if tbl'.take 8 = SLOT_SIG then .crcDismatch else .sigDismatch) := by
    have hcr : (⟨fileOf cap A ++ (tbl' ++ (g.flatten ++ fileOf cap B)), (fileOf cap A).length, chk⟩ : Cur).rest = tbl' ++ (g.flatten ++ fileOf cap B) := by
      simp [Cur.rest]
    refine Slot.tryRead_damaged (cap := cap) (t := tbl'.drop 16 ++ (g.flatten ++ fileOf cap B)) (by simp) hcap63 (by rw [List.length_take]; omega) ?_ ?_ ?_
    · rw [hcr]
      conv => lhs; rw [hrest]
      simp only [List.append_assoc]
    · rw [List.length_append, List.length_drop]; omega
    · intro q hq
      exact (C33_corruption_partial (table cap g) hwf _ tbl' (g.flatten ++ fileOf cap B) hwf.bytes hb hne q).2 _ hcr hq
  have hload : ∀ fuel, loadLoop chk (fileOf cap A ++ (tbl' ++ (g.flatten ++ fileOf cap B))) (fuel + 1) (fileOf cap A).length (anchor cap 0 A) =
      some (.err (.damagedSlot (if tbl'.take 8 = SLOT_SIG then .crcDismatch else .sigDismatch))) := by
    intro fuel
    rw [loadLoop, hdam]
    by_cases hx : tbl'.take 8 = SLOT_SIG
    · rw [if_pos hx]
    · rw [if_neg hx]
  obtain ⟨k, hk⟩ : ∃ k, (fileOf cap A ++ (tbl' ++ (g.flatten ++ fileOf cap B))).length + 1 = (k + 1) + A.length := by
    have := groups_le (cap := cap) (gs := A) fun x hx => v.groups.group x (by simp [hx])
    exact ⟨(fileOf cap A ++ (tbl' ++ (g.flatten ++ fileOf cap B))).length - A.length, by
      rw [List.length_append]; omega⟩
  have hskip := loadLoop_skip chk (tbl' ++ (g.flatten ++ fileOf cap B)) A [] [] (k + 1) (fun x hx => v.groups.group x (by simp [hx])) (by
    simp only [List.length_append, List.nil_append] at hfl ⊢; omega)
  simp only [List.nil_append, List.length_nil, Nat.zero_add] at hskip
  rw [List.append_assoc, openReader, Storage.open_, hk, hskip, hload]
  rfl

/-- A table that announces more lengths than there are bytes. -/
theorem tryRead_beyond {c : Cur} {cap' : Nat} (hpos : c.pos ≤ c.data.length) (h2 : 2 ≤ cap') (h64 : 20 + 8 * cap' < 2 ^ 64) {t : Bytes}
    (hr : c.rest = SLOT_SIG ++ (leBytes 8 cap' ++ t)) (hl : t.length < 8 * cap' + 4) :
    (Slot.tryRead c).1 = if c.chk then .panic else .ok (.notEnough (2 ^ 64 + 9 - 8 * cap')) := by
  have hlen : c.rest.length = 16 + t.length := by rw [hr]; simp [SLOT_SIG]; omega
  unfold Slot.tryRead
  rw [Cur.remaining_ok hpos]
  simp only
  rw [Slot.tryReadHeader_eq (by omega) hpos hr]
  simp only
  rw [u64_ok (by simp only [SLOT_HSIZE]; omega)]
  simp only
  rw [if_pos (by simp only [SLOT_HSIZE]; omega)]
  unfold Slot.missing
  rw [if_neg (by simp only [SLOT_HSIZE, HSIZE]; omega)]
  cases c.chk with
  | true => rfl
  | false =>
    simp only [Bool.false_eq_true, if_false, Out.map, SLOT_HSIZE, HSIZE]
    congr 2
    omega

/-- **C59, what damage of the capacity does.** If the capacity of the slot `a` is changed so that its table would end behind the end of the file,
a release build opens the storage without an error and silently drops that slot and all behind it; a debug build panics. -/
theorem C59_capacity {cap : Nat} (hc : 0 < cap) {chk : Bool} {ops : List (Op O Q)} {data : Bytes} {s : Storage} (h : Reached cap chk ops data s)
    (hok : ∀ p ∈ log ops, p.Ok S) (hs : Small cap (log ops)) {a : Anchored} (ha : a ∈ s.slots) {pre tbl post : Bytes}
    (hd : data = pre ++ tbl ++ post) (hpre : pre.length = a.offset) (ht : tbl.length = 20 + 8 * cap) {cap' : Nat} (h2 : 2 ≤ cap')
    (h64 : 20 + 8 * cap' < 2 ^ 64) (hbig : data.length < pre.length + 20 + 8 * cap') :
    ∃ before behind, s.slots = before ++ a :: behind ∧
      (chk = true → openReader chk (pre ++ (tbl.take 8 ++ leBytes 8 cap' ++ tbl.drop 16) ++ post) = some .panic) ∧
      (chk = false → ∃ s', openReader chk (pre ++ (tbl.take 8 ++ leBytes 8 cap' ++ tbl.drop 16) ++ post) = some (.ok s') ∧ s'.slots = before) := by
  obtain ⟨gs, v, hd', f, hl⟩ := h.view hc hok hs
  rw [v.slots] at ha ⊢
  obtain ⟨A, g, B, rfl, hae⟩ := mem_anchor ha
  have hgr := v.groups.group g (by simp)
  have hwf := table_wf_of_file (g := g) (by rw [← hd']; exact hl) (by simp) hgr.le
  have hencl : (table cap g).enc.length = 20 + 8 * cap := by rw [hwf.enc_length, table_size]
  have hpre' : pre.length = (fileOf cap A).length := by rw [hpre, hae]; simp
  have hsplit : pre = fileOf cap A ∧ tbl = (table cap g).enc ∧ post = g.flatten ++ fileOf cap B := by
    have e : pre ++ (tbl ++ post) = fileOf cap A ++ ((table cap g).enc ++ (g.flatten ++ fileOf cap B)) := by
      rw [← List.append_assoc, ← hd, hd', fileOf_append, fileOf_cons, region, List.append_assoc]
    obtain ⟨e1, e2⟩ := List.append_inj e hpre'
    obtain ⟨e2, e3⟩ := List.append_inj e2 (by rw [ht, hencl])
    exact ⟨e1, e2, e3⟩
  obtain ⟨rfl, rfl, rfl⟩ := hsplit
  have h8 : (table cap g).enc.take 8 = SLOT_SIG := by
    rw [Slot.enc, List.append_assoc, List.append_assoc]; exact List.take_left' rfl
  rw [h8]
  have hdl := congrArg List.length hd
  simp only [List.length_append] at hdl
  have hdam := tryRead_beyond (c := ⟨fileOf cap A ++ ((SLOT_SIG ++ leBytes 8 cap' ++ (table cap g).enc.drop 16) ++ (g.flatten ++ fileOf cap B)),
      (fileOf cap A).length, chk⟩) (cap' := cap') (by simp) h2 h64 (t := (table cap g).enc.drop 16 ++ (g.flatten ++ fileOf cap B))
    (by simp [Cur.rest]) (by simp only [List.length_append, List.length_drop]; omega)
  obtain ⟨k, hk⟩ : ∃ k, (fileOf cap A ++ ((SLOT_SIG ++ leBytes 8 cap' ++ (table cap g).enc.drop 16) ++ (g.flatten ++ fileOf cap B))).length + 1 =
      (k + 1) + A.length := by
    have := groups_le (cap := cap) (gs := A) fun x hx => v.groups.group x (by simp [hx])
    exact ⟨(fileOf cap A ++ ((SLOT_SIG ++ leBytes 8 cap' ++ (table cap g).enc.drop 16) ++ (g.flatten ++ fileOf cap B))).length - A.length, by
      rw [List.length_append]; omega⟩
  have hskip := loadLoop_skip chk ((SLOT_SIG ++ leBytes 8 cap' ++ (table cap g).enc.drop 16) ++ (g.flatten ++ fileOf cap B)) A [] [] (k + 1)
    (fun x hx => v.groups.group x (by simp [hx])) (by simp only [List.nil_append]; omega)
  simp only [List.nil_append, List.length_nil, Nat.zero_add] at hskip
  rw [← List.append_assoc (fileOf cap A)] at hskip hdam hk
  refine ⟨anchor cap 0 A, anchor cap (0 + (fileOf cap A).length + (region cap g).length) B, ?_, ?_⟩
  · rw [anchor_append, anchor, hae]
  · rw [openReader, Storage.open_, hk, hskip, loadLoop, hdam]
    cases chk with
    | true => exact ⟨fun _ => rfl, by simp⟩
    | false => exact ⟨by simp, fun _ => ⟨_, rfl, rfl⟩⟩

theorem enc_table_length {cap : Nat} {g : List Bytes} (h : g.length ≤ cap) : (table cap g).enc.length = 20 + 8 * cap := by
  have := region_length (cap := cap) h
  rw [region, List.length_append] at this
  omega

theorem fileOf_one (cap : Nat) (w : Bytes) : fileOf cap [[w]] = (table cap [w]).enc ++ w := by
  rw [fileOf_cons, fileOf_nil, region]; simp

theorem enc_capacity (q : Slot) : q.enc = SLOT_SIG ++ (leBytes 8 q.capacity ++ q.enc.drop 16) := by
  have : q.enc = SLOT_SIG ++ (leBytes 8 q.capacity ++ (q.lengths.flatMap (leBytes 8) ++ q.crc)) := by rw [Slot.enc]; simp only [List.append_assoc]
  have h16 : q.enc.drop 16 = q.lengths.flatMap (leBytes 8) ++ q.crc := by
    rw [this, ← List.append_assoc]
    exact List.drop_left' (by simp [SLOT_SIG])
  rw [h16]
  exact this

/-- One packet, with the crate's capacity: changing one byte of the capacity makes the storage look empty (release build). -/
theorem C59_one_byte : ∃ data s s' a pre mid x y post, Reached SLOT_CAPACITY false [Op.insert samplePacket] data s ∧ s.count SLOT_CAPACITY = 1 ∧
    a ∈ s.slots ∧ a.offset = 0 ∧ data = (pre ++ [x] ++ mid) ++ post ∧ (pre ++ [x] ++ mid).length = 20 + 8 * SLOT_CAPACITY ∧ x ≠ y ∧
    openReader false ((pre ++ [y] ++ mid) ++ post) = some (.ok s') ∧ s'.count SLOT_CAPACITY = 0 := by
  have hlog : log [Op.insert samplePacket] = [samplePacket] := rfl
  have hst : ∀ p ∈ log [Op.insert samplePacket], Storable sampleSpec p := by
    intro p hp; rw [List.mem_singleton.mp hp]; exact sample_storable
  have hsm : Small SLOT_CAPACITY (log [Op.insert samplePacket]) := by
    unfold Small
    simp only [hlog, List.map_cons, List.map_nil, wire_sample_length]
    decide
  obtain ⟨w, s, e1, e2, e3, _⟩ := C30_reopen (S := sampleSpec) (cap := SLOT_CAPACITY) (by decide) false [.insert samplePacket] hst hsm
  have hr : Reached SLOT_CAPACITY false [Op.insert samplePacket] w.data s := ⟨⟨w, e1, rfl⟩, e2⟩
  obtain ⟨gs, v, hd, f, hl⟩ := hr.view (S := sampleSpec) (by decide) (fun p hp => (hst p hp).ok) hsm
  have hgs : gs = [[wire samplePacket]] := by
    refine groups_unique (by decide) v.groups ⟨?_, ?_, ?_⟩ (by rw [f]; rfl)
    · intro g hg
      rw [List.mem_singleton.mp hg]
      exact ⟨by intro w hw; rw [List.mem_singleton.mp hw]; exact wire_ne samplePacket_ok, by decide⟩
    · intro g hg
      rw [List.mem_singleton.mp hg]; simp
    · simp
  subst hgs
  have hgr := v.groups.group [wire samplePacket] (by simp)
  have henl : (table SLOT_CAPACITY [wire samplePacket]).enc.length = 20 + 8 * SLOT_CAPACITY := enc_table_length hgr.le
  have hdata : w.data = [] ++ (table SLOT_CAPACITY [wire samplePacket]).enc ++ wire samplePacket := by
    rw [hd, fileOf_one, List.nil_append]
  have hdl : w.data.length = 4145 := by
    rw [hdata, List.nil_append, List.length_append, henl, wire_sample_length]; rfl
  have hmem : (⟨table SLOT_CAPACITY [wire samplePacket], 0⟩ : Anchored) ∈ s.slots := by rw [v.slots]; simp [anchor]
  obtain ⟨before, behind, hb, _, ho⟩ := C59_capacity (S := sampleSpec) (by decide) hr (fun p hp => (hst p hp).ok) hsm hmem hdata rfl henl
    (cap' := 500 + 65536) (by decide) (by decide) (by rw [hdl]; decide)
  obtain ⟨s', ho, hs'⟩ := ho rfl
  have hbe : before = [] := by
    have hl1 := congrArg List.length hb
    rw [v.slots, anchor_length] at hl1
    simp only [List.length_append, List.length_cons, List.length_nil] at hl1
    exact List.length_eq_zero_iff.mp (by omega)
  have htk : (table SLOT_CAPACITY [wire samplePacket]).enc = SLOT_SIG ++ (leBytes 8 500 ++ (table SLOT_CAPACITY [wire samplePacket]).enc.drop 16) :=
    enc_capacity _
  have h8 : (table SLOT_CAPACITY [wire samplePacket]).enc.take 8 = SLOT_SIG := by rw [htk]; exact List.take_left' (by rfl)
  clear hd
  generalize (table SLOT_CAPACITY [wire samplePacket]).enc = T at hdata henl ho htk h8
  have e0 : T = [166, 177, 188, 199, 199, 188, 177, 166, 244, 1] ++ [0] ++
      ([0, 0, 0, 0, 0] ++ T.drop 16) := by
    conv => lhs; rw [htk]
    rw [← List.append_assoc SLOT_SIG, show SLOT_SIG ++ leBytes 8 500 = [166, 177, 188, 199, 199, 188, 177, 166, 244, 1] ++ ([0] ++ [0, 0, 0, 0, 0]) from by decide]
    simp only [List.append_assoc]
  rw [h8, show SLOT_SIG ++ leBytes 8 (500 + 65536) = [166, 177, 188, 199, 199, 188, 177, 166, 244, 1] ++ ([1] ++ [0, 0, 0, 0, 0]) from by decide] at ho
  refine ⟨w.data, s, s', _, [166, 177, 188, 199, 199, 188, 177, 166, 244, 1], [0, 0, 0, 0, 0] ++ T.drop 16, 0, 1,
    wire samplePacket, hr, e3, hmem, rfl, ?_, ?_, by decide, ?_, by simp [Storage.count, hs', hbe]⟩
  · rw [← e0, hdata, List.nil_append]
  · rw [← e0, henl]
  · rw [← ho]
    simp only [List.append_assoc, List.nil_append]

/-- **C59 is false of the code** (release build). -/
theorem C59_not : ¬ C59_full (PEnum.ops []) sampleSpec SLOT_CAPACITY := by
  intro hf
  obtain ⟨data, s, s', a, pre, mid, x, y, post, hr, _, ha, h0, hd, hl, hxy, ho, _⟩ := C59_one_byte
  have hst : ∀ p ∈ log [Op.insert samplePacket], Storable sampleSpec p := by
    intro p hp; rw [List.mem_singleton.mp hp]; exact sample_storable
  obtain ⟨e, he⟩ := hf false _ data s hr (fun p hp => (hst p hp).ok) sample_small2.left a ha [] (pre ++ [x] ++ mid) post (pre ++ [y] ++ mid) hd h0.symm hl
    (Burst4.of_split pre [x] [y] mid rfl (by simp)) (by simp [hxy.symm])
  rw [List.nil_append, ho] at he
  cases he

/-- The hypotheses of `C59_damaged_table_partial` are met: a byte of the first length is changed. -/
example : ∃ data s a pre tbl post tbl', Reached SLOT_CAPACITY false [Op.insert samplePacket] data s ∧ a ∈ s.slots ∧ data = pre ++ tbl ++ post ∧
    pre.length = a.offset ∧ tbl.length = 20 + 8 * SLOT_CAPACITY ∧ Burst4 tbl tbl' ∧ tbl' ≠ tbl ∧ (tbl'.drop 8).take 8 = (tbl.drop 8).take 8 := by
  obtain ⟨data, s, _, a, pre, mid, x, _, post, hr, _, ha, h0, hd, hl, _⟩ := C59_one_byte
  generalize pre ++ [x] ++ mid = tbl at hd hl
  have hlt : 16 < tbl.length := by rw [hl]; decide
  obtain ⟨u, c, v, hu, rfl⟩ : ∃ u c v, u.length = 16 ∧ tbl = u ++ [c] ++ v := by
    refine ⟨tbl.take 16, tbl[16], tbl.drop 17, by rw [List.length_take]; omega, ?_⟩
    rw [List.append_assoc, List.singleton_append, List.getElem_cons_drop, List.take_append_drop]
  have hd16 : ∀ z : Byte, ((u ++ [z] ++ v).drop 8).take 8 = u.drop 8 := by
    intro z
    rw [List.append_assoc, List.drop_append_of_le_length (by omega), List.take_left' (by rw [List.length_drop]; omega)]
  refine ⟨data, s, a, [], u ++ [c] ++ v, post, u ++ [c + 1] ++ v, hr, ha, hd, h0.symm, hl, Burst4.of_split _ _ _ _ rfl (by simp), ?_, ?_⟩
  · intro he
    have : c + 1 = c := by simp at he
    revert this
    exact (show ∀ c : Byte, c + 1 ≠ c by decide) c
  · rw [hd16, hd16]

end Brec.Props
