import Verif.StorageReload
import Verif.Props.StorageCrash
import Verif.Props.StorageReload
/-!
# Lemmas about a reader that follows a file while a packet is being inserted
-/

namespace Brec

open Brec.Props Rd

/-- A reader whose slots are those of the file. (`View` also fixes the locator.) -/
structure Seen (cap : Nat) (gs : List (List Bytes)) (s : Storage) : Prop where
  groups : Groups cap gs
  slots : s.slots = anchor cap 0 gs
  count : s.count cap = gs.flatten.length

theorem View.seen {cap : Nat} {gs : List (List Bytes)} {s : Storage} (v : View cap gs s) : Seen cap gs s := ⟨v.groups, v.slots, v.count⟩

/-- The table of the slot in use in the file; nothing if the slot is not there yet. -/
def oldTable (cap : Nat) (g : List Bytes) : Bytes := if g = [] then [] else (table cap g).enc

/-- The table in the file when `k` bytes of an insert of `x` have been written. -/
def midTable (cap : Nat) (g : List Bytes) (x : Bytes) (k : Nat) : Bytes := (table cap (g ++ [x])).enc.take k ++ (oldTable cap g).drop k

/-- The file when `k` bytes of an insert of `x` have been written. -/
def midFile (cap : Nat) (init : List (List Bytes)) (g : List Bytes) (x : Bytes) (k : Nat) : Bytes :=
  fileOf cap init ++ (midTable cap g x k ++ (g.flatten ++ x.take (k - (20 + 8 * cap))))

theorem oldTable_length {cap : Nat} {g : List Bytes} (hlt : g.length < cap) : (oldTable cap g).length = if g = [] then 0 else 20 + 8 * cap := by
  unfold oldTable
  split
  · rfl
  · exact table_enc_length (by omega)

theorem Ready.midFile {cap : Nat} {init : List (List Bytes)} {g : List Bytes} {w : Writer} (h : Ready cap init g w) (x : Bytes) (k : Nat) :
    Writer.torn w.data w.loc.slotOffset (table cap (g ++ [x])).enc (spot cap init g) x k = Brec.midFile cap init g x k := by
  have hlt := h.lt
  have hen : (table cap (g ++ [x])).enc.length = 20 + 8 * cap := table_enc_length (by simp; omega)
  have hol := oldTable_length hlt
  unfold Brec.midFile midTable
  rcases Nat.lt_or_ge k (20 + 8 * cap) with hk | hk
  · rw [h.torn_table x hk, Nat.sub_eq_zero_of_le (by omega), List.take_zero, List.append_nil]
    by_cases hg : g = []
    · subst hg; simp [oldTable]
    · rw [if_neg hg, oldTable, if_neg hg]
  · rw [h.torn_packet x hk, List.take_of_length_le (l := (table cap (g ++ [x])).enc) (by omega), List.drop_eq_nil_of_le (by rw [hol]; split <;> omega), List.append_nil]

/-- Once the table is complete it stays complete. -/
theorem midTable_mono {cap : Nat} {g : List Bytes} {x : Bytes} {k k' : Nat} (hk : k ≤ k') (h : midTable cap g x k = (table cap (g ++ [x])).enc) :
    midTable cap g x k' = (table cap (g ++ [x])).enc := by
  unfold midTable at *
  have h1 : (oldTable cap g).drop k = (table cap (g ++ [x])).enc.drop k := by
    have : (table cap (g ++ [x])).enc.take k ++ (oldTable cap g).drop k = (table cap (g ++ [x])).enc.take k ++ (table cap (g ++ [x])).enc.drop k := by
      rw [h, List.take_append_drop]
    exact List.append_cancel_left this
  obtain ⟨j, rfl⟩ : ∃ j, k' = k + j := ⟨k' - k, by omega⟩
  rw [← List.drop_drop, h1, List.drop_drop, List.take_append_drop]

theorem midTable_all {cap : Nat} {g : List Bytes} {x : Bytes} {k : Nat} (hlt : g.length < cap) (hk : 20 + 8 * cap ≤ k) :
    midTable cap g x k = (table cap (g ++ [x])).enc := by
  have hen : (table cap (g ++ [x])).enc.length = 20 + 8 * cap := table_enc_length (by simp; omega)
  have hol := oldTable_length hlt
  unfold midTable
  rw [List.take_of_length_le (by omega), List.drop_eq_nil_of_le (by rw [hol]; split <;> omega), List.append_nil]

theorem midFile_all {cap : Nat} {init : List (List Bytes)} {g : List Bytes} {x : Bytes} {k : Nat} (hlt : g.length < cap) (hk : 20 + 8 * cap + x.length ≤ k) :
    midFile cap init g x k = fileOf cap (init ++ [g ++ [x]]) := by
  unfold midFile
  rw [midTable_all hlt (by omega), torn_all hk]

theorem midTable_length_le {cap : Nat} {g : List Bytes} {x : Bytes} {k : Nat} (hlt : g.length < cap) : (midTable cap g x k).length ≤ 20 + 8 * cap := by
  have hen : (table cap (g ++ [x])).enc.length = 20 + 8 * cap := table_enc_length (by simp; omega)
  have hol := oldTable_length hlt
  unfold midTable
  rw [List.length_append, List.length_take, List.length_drop, hen, hol]
  split <;> omega

theorem midFile_length_le {cap : Nat} {init : List (List Bytes)} {g : List Bytes} {x : Bytes} {k : Nat} (hlt : g.length < cap) :
    (midFile cap init g x k).length ≤ (fileOf cap (init ++ [g ++ [x]])).length := by
  have := midTable_length_le (x := x) (k := k) hlt
  rw [fileOf_append, fileOf_cons, fileOf_nil, List.append_nil, List.length_append, region_length (by simp; omega)]
  unfold midFile
  simp only [List.length_append, List.length_take, List.flatten_append, List.flatten_cons, List.flatten_nil, List.append_nil]
  omega

/-- The packets inserted before stay where they are. -/
theorem midFile_bodies {cap : Nat} {init : List (List Bytes)} {g : List Bytes} (hi : ∀ y ∈ init, Group cap y) (hlt : g.length < cap) (x : Bytes) (k : Nat) :
    Bodies cap (init ++ opt g) (midFile cap init g x k) := by
  unfold midFile opt
  by_cases hg : g = []
  · rw [if_pos hg, List.append_nil]
    exact Bodies.file hi _
  · rw [if_neg hg]
    refine Bodies.append (.cons ?_ (.nil _)) hi
    have hen : (table cap (g ++ [x])).enc.length = 20 + 8 * cap := table_enc_length (by simp; omega)
    have hol := oldTable_length hlt
    rw [if_neg hg] at hol
    unfold midTable
    rw [List.length_append, List.length_take, List.length_drop, hen, hol]
    omega

/-- What the table in the file is, when the slot was there before. -/
theorem midTable_cases {cap : Nat} {g : List Bytes} {x : Bytes} (hg : g ≠ []) (hlt : g.length < cap) (hx : 0 < x.length) (h32 : x.length < 2 ^ 32) (k : Nat) :
    (x.length % 256 ^ (k - (16 + 8 * g.length)) = 0 ∧ k < 20 + 8 * cap ∧ midTable cap g x k = (table cap g).enc) ∨
    (x.length % 256 ^ (k - (16 + 8 * g.length)) ≠ 0 ∧ 16 + 8 * cap < k ∧ midTable cap g x k = (table cap (g ++ [x])).enc) ∨
    (x.length % 256 ^ (k - (16 + 8 * g.length)) ≠ 0 ∧ k < 20 + 8 * cap ∧ ∃ v c, v < 2 ^ 64 ∧ c.length = 4 ∧
      c ≠ Slot.crcOf cap (g.map List.length ++ v :: List.replicate (cap - g.length - 1) 0) ∧ midTable cap g x k = (mixed cap g v c).enc) := by
  have hmod : ∀ j, 4 ≤ j → x.length % 256 ^ j = x.length := by
    intro j hj
    apply Nat.mod_eq_of_lt
    have : (256 : Nat) ^ 4 ≤ 256 ^ j := Nat.pow_le_pow_right (by decide) hj
    have h3 : (256 : Nat) ^ 4 = 2 ^ 32 := by decide
    omega
  have hT := table_concat x hlt
  have hT0 := table_free (g := g) hlt
  have hO : oldTable cap g = (table cap g).enc := by rw [oldTable, if_neg hg]
  rcases Nat.lt_or_ge k (20 + 8 * cap) with hk | hk
  · rcases Nat.le_total k (16 + 8 * g.length) with h1 | h1
    · left
      refine ⟨by rw [Nat.sub_eq_zero_of_le h1, Nat.pow_zero, Nat.mod_one], hk, ?_⟩
      unfold midTable
      rw [hO, hT, hT0, mix_low h1]
    · rcases Nat.le_total k (16 + 8 * cap) with h2 | h2
      · have hm : midTable cap g x k = (mixed cap g (x.length % 256 ^ (k - (16 + 8 * g.length))) (table cap g).crc).enc := by
          unfold midTable
          rw [hO, hT]
          conv => lhs; arg 2; rw [hT0]
          rw [mix_mid hlt h1 h2 (by omega)]
        by_cases hv : x.length % 256 ^ (k - (16 + 8 * g.length)) = 0
        · left
          refine ⟨hv, hk, ?_⟩
          rw [hm, hv, ← hT0]
        · right; right
          refine ⟨hv, hk, _, _, Nat.lt_of_le_of_lt (Nat.mod_le _ _) (by omega), by simp [table, Slot.crcOf], ?_, hm⟩
          intro he
          refine hv (mixed_crc (cap := cap) (g := g) (Nat.lt_of_le_of_lt (Nat.mod_le _ _) h32) ?_)
          rw [← he, table, lens_free hlt]
      · obtain ⟨i, rfl⟩ : ∃ i, k = 16 + 8 * cap + i := ⟨k - (16 + 8 * cap), by omega⟩
        have hcl : (table cap (g ++ [x])).crc.length = 4 := by simp [table, Slot.crcOf]
        have hcl0 : (table cap g).crc.length = 4 := by simp [table, Slot.crcOf]
        have hne : x.length % 256 ^ (16 + 8 * cap + i - (16 + 8 * g.length)) ≠ 0 := by rw [hmod _ (by omega)]; omega
        have hmix : midTable cap g x (16 + 8 * cap + i) = (mixed cap g x.length ((table cap (g ++ [x])).crc.take i ++ (table cap g).crc.drop i)).enc := by
          unfold midTable
          rw [hO]
          conv => lhs; rw [hT, hT0]
          exact mix_high hlt (by omega)
        rw [hmix]
        by_cases he : (table cap (g ++ [x])).crc.take i ++ (table cap g).crc.drop i = (table cap (g ++ [x])).crc
        · right; left
          refine ⟨hne, ?_, by rw [he, ← hT]⟩
          rcases Nat.eq_zero_or_pos i with rfl | hi
          · exfalso
            rw [List.take_zero, List.nil_append, List.drop_zero] at he
            have : x.length = 0 := mixed_crc (cap := cap) (g := g) h32 (by
              have h1 : (table cap (g ++ [x])).crc = Slot.crcOf cap (g.map List.length ++ x.length :: List.replicate (cap - g.length - 1) 0) := by
                rw [table, lens_concat _ hlt]
              have h2 : (table cap g).crc = Slot.crcOf cap (g.map List.length ++ 0 :: List.replicate (cap - g.length - 1) 0) := by
                rw [table, lens_free hlt]
              rw [← h1, ← h2, he])
            omega
          · omega
        · right; right
          refine ⟨hne, hk, _, _, by omega, by simp [hcl, hcl0]; omega, ?_, rfl⟩
          intro h2
          apply he
          rw [h2, table, lens_concat _ hlt]
  · right; left
    refine ⟨by rw [hmod _ (by omega)]; omega, by omega, midTable_all hlt hk⟩

theorem table_crc_ne {cap : Nat} {g : List Bytes} {x : Bytes} (hlt : g.length < cap) (hx : 0 < x.length) (h32 : x.length < 2 ^ 32) :
    (table cap g).crc ≠ (table cap (g ++ [x])).crc := by
  intro he
  have : x.length = 0 := mixed_crc (cap := cap) (g := g) h32 (by
    have h1 : (table cap (g ++ [x])).crc = Slot.crcOf cap (g.map List.length ++ x.length :: List.replicate (cap - g.length - 1) 0) := by
      rw [table, lens_concat _ hlt]
    have h2 : (table cap g).crc = Slot.crcOf cap (g.map List.length ++ 0 :: List.replicate (cap - g.length - 1) 0) := by
      rw [table, lens_free hlt]
    rw [← h1, ← h2, he])
  omega

/-! ## One `reload` -/

/-- Everything an insert of `x` into slot `g` behind the slots `init` relies on. -/
structure Midway (cap : Nat) (init : List (List Bytes)) (g : List Bytes) (x : Bytes) : Prop where
  two : 2 ≤ cap
  full : AllFull cap init
  lt : g.length < cap
  groups : Groups cap (init ++ opt g)
  groups' : Groups cap (init ++ [g ++ [x]])
  small : (fileOf cap (init ++ [g ++ [x]])).length < 2 ^ 63
  pos : 0 < x.length
  h32 : x.length < 2 ^ 32

namespace Midway

variable {cap : Nat} {init : List (List Bytes)} {g : List Bytes} {x : Bytes}

theorem group (m : Midway cap init g x) : Group cap (g ++ [x]) := m.groups'.group _ (by simp)

theorem wf (m : Midway cap init g x) : (table cap (g ++ [x])).WF := table_wf_of_file m.small (by simp) m.group.le

theorem end_ (m : Midway cap init g x) : (fileOf cap (init ++ [g ++ [x]])).length = (fileOf cap init).length + (table cap (g ++ [x])).size + (table cap (g ++ [x])).width := by
  rw [fileOf_append, fileOf_cons, fileOf_nil, List.append_nil, List.length_append, region_length m.group.le, table_size, table_width m.group]
  omega

/-- `try_read` of the table when it is complete. -/
theorem read_new (m : Midway cap init g x) (chk : Bool) {k : Nat} (h : midTable cap g x k = (table cap (g ++ [x])).enc) :
    (Slot.tryRead ⟨midFile cap init g x k, (fileOf cap init).length, chk⟩).1 = .ok (.success (table cap (g ++ [x]))) := by
  rw [midFile, h, Slot.tryRead_enc m.wf (t := g.flatten ++ x.take (k - (20 + 8 * cap))) (by simp) (by simp [Cur.rest])]

/-- Behind the slot: the file ends there if everything has been written, before that if not. -/
theorem read_end (m : Midway cap init g x) (chk : Bool) (k : Nat) :
    (Slot.tryRead ⟨midFile cap init g x k, (fileOf cap (init ++ [g ++ [x]])).length, chk⟩).1 =
      if 20 + 8 * cap + x.length ≤ k then .ok (.notEnough SLOT_HSIZE) else if chk then .panic else .err .io := by
  have hlt := m.lt
  by_cases hk : 20 + 8 * cap + x.length ≤ k
  · rw [if_pos hk, midFile_all hlt hk, tryRead_end]
    rfl
  · rw [if_neg hk]
    refine tryRead_behind ?_ m.small
    have := midTable_length_le (x := x) (k := k) hlt
    rw [fileOf_append, fileOf_cons, fileOf_nil, List.append_nil, List.length_append, region_length m.group.le]
    unfold midFile
    simp only [List.length_append, List.length_take, List.flatten_append, List.flatten_cons, List.flatten_nil, List.append_nil]
    have := m.pos
    omega

/-- A reader that already knows the new table. -/
theorem reload_seen (m : Midway cap init g x) {s : Storage} (v : s.slots = anchor cap 0 (init ++ [g ++ [x]])) (chk : Bool) {k : Nat}
    (h : midTable cap g x k = (table cap (g ++ [x])).enc) {fuel : Nat} (hf : 0 < fuel) :
    s.reload cap chk fuel (midFile cap init g x k) =
      some (if g.length + 1 < cap ∨ 20 + 8 * cap + x.length ≤ k then .ok 0 else if chk then .panic else .err .io, s) := by
  obtain ⟨f, rfl⟩ : ∃ f, fuel = f + 1 := ⟨fuel - 1, by omega⟩
  have hlen : (g ++ [x]).length = g.length + 1 := by simp
  have hle := m.group.le
  unfold Storage.reload
  by_cases hfull : g.length + 1 < cap
  · rw [lastInfo_part v m.group (by omega), Storage.reloadLoop.eq_def, if_pos (.inl hfull)]
    simp only
    rw [m.read_new chk h]
    simp
  · rw [lastInfo_full v m.group (by omega), Storage.reloadLoop.eq_def]
    simp only
    rw [m.read_end chk k]
    by_cases hk : 20 + 8 * cap + x.length ≤ k
    · rw [if_pos hk, if_pos (.inr hk)]
      simp
    · rw [if_neg hk, if_neg (show ¬ (g.length + 1 < cap ∨ 20 + 8 * cap + x.length ≤ k) by omega)]
      cases chk <;> rfl

theorem set_last {s : Storage} (hs : s.slots = anchor cap 0 (init ++ [g])) :
    s.slots.length = init.length + 1 ∧ s.slots[s.slots.length - 1]? = some ⟨table cap g, (fileOf cap init).length⟩ ∧
      s.slots.set (s.slots.length - 1) ⟨table cap (g ++ [x]), (fileOf cap init).length⟩ = anchor cap 0 (init ++ [g ++ [x]]) := by
  have hlen : s.slots.length = init.length + 1 := by rw [hs, anchor_length]; simp
  have he : init.length + 1 - 1 = (anchor cap 0 init).length := by rw [anchor_length]; omega
  refine ⟨hlen, ?_, ?_⟩
  · rw [hlen, hs, anchor_concat, he, List.getElem?_append_right (Nat.le_refl _)]
    simp
  · rw [hlen, hs, anchor_concat, anchor_concat, he, List.set_append_right _ _ (Nat.le_refl _)]
    simp

theorem seen_of_view (m : Midway cap init g x) {s : Storage} (v : View cap (init ++ opt g) s) (hc : g = [] ∨ g.length + 1 = cap) :
    Seen cap (init ++ [g ++ [x]]) { s with slots := anchor cap 0 (init ++ [g ++ [x]]) } := by
  refine ⟨m.groups', rfl, ?_⟩
  have h2 := m.two
  have hl := v.loc
  have hnext : s.loc.next = init.length := by
    rw [hl]
    unfold opt
    by_cases hg : g = []
    · rw [if_pos hg, List.append_nil]
      rcases List.eq_nil_or_concat init with rfl | ⟨a, b, rfl⟩
      · simp
      · rw [List.concat_eq_append, List.getLast?_concat, Option.getD_some, if_neg]
        have := (m.full b (by simp)).2
        omega
    · rw [if_neg hg, List.getLast?_concat, Option.getD_some, if_pos m.lt]
      simp
  have hfl : (init ++ [g ++ [x]]).flatten.length = init.length * cap + (g.length + 1) := by
    rw [List.flatten_append, List.length_append, length_flatten_full m.full]; simp
  have hget : (anchor cap 0 (init ++ [g ++ [x]]))[init.length]? = some ⟨table cap (g ++ [x]), (fileOf cap init).length⟩ := by
    rw [anchor_concat]
    have : init.length = (anchor cap 0 init).length := by rw [anchor_length]
    conv => lhs; arg 2; rw [this]
    rw [List.getElem?_append_right (Nat.le_refl _)]
    simp
  unfold Storage.count
  dsimp only
  rw [hnext, hget]
  simp only
  rw [table_freeIndex m.group, hfl, anchor_length]
  have hlen : (g ++ [x]).length = g.length + 1 := by simp
  rcases hc with rfl | hc
  · rw [if_pos (by simp; omega)]
    simp
  · rw [if_neg (by omega)]
    simp only [List.length_append, List.length_cons, List.length_nil, Nat.add_mul]
    omega

/-- A reader that has the tables of the packets inserted before, whatever its locator says. What `reload` returns, and what the reader knows afterwards. -/
theorem reload_slots (m : Midway cap init g x) {s : Storage} (v : s.slots = anchor cap 0 (init ++ opt g)) (chk : Bool) (k : Nat) {fuel : Nat} (hf : (midFile cap init g x k).length < fuel) :
    (∃ r, s.reload cap chk fuel (midFile cap init g x k) = some (r, s) ∧ k < 20 + 8 * cap ∧
      r = (if g = [] then (if k < 16 ∨ chk = false then .ok 0 else .panic)
        else if x.length % 256 ^ (k - (16 + 8 * g.length)) = 0 then .ok 0 else .err (.damagedSlot .crcDismatch))) ∨
    (∃ r s', s.reload cap chk fuel (midFile cap init g x k) = some (r, s') ∧ s'.slots = anchor cap 0 (init ++ [g ++ [x]]) ∧
      midTable cap g x k = (table cap (g ++ [x])).enc ∧ 16 + 8 * cap < k ∧
      r = (if (g ≠ [] ∧ g.length + 1 < cap) ∨ 20 + 8 * cap + x.length ≤ k then .ok 1 else if chk then .panic else .err .io) ∧
      ((g ≠ [] ∧ g.length + 1 < cap) ∨ 20 + 8 * cap + x.length ≤ k → View cap (init ++ [g ++ [x]]) s') ∧
      (¬ ((g ≠ [] ∧ g.length + 1 < cap) ∨ 20 + 8 * cap + x.length ≤ k) → s'.loc = s.loc)) := by
  have h2 := m.two
  have hlt := m.lt
  have hpos := m.pos
  have hfuel : ¬ (g = [] ∧ k < 20 + 8 * cap) → 2 ≤ fuel := by
    intro hn
    have h1 : (midFile cap init g x k).length = (fileOf cap init).length + ((midTable cap g x k).length + (g.flatten ++ x.take (k - (20 + 8 * cap))).length) := by
      rw [midFile, List.length_append, List.length_append]
    have h3 : 20 + 8 * cap ≤ (midTable cap g x k).length := by
      rcases Nat.lt_or_ge k (20 + 8 * cap) with hk | hk
      · have hg : g ≠ [] := fun h => hn ⟨h, hk⟩
        have hol := oldTable_length hlt
        rw [if_neg hg] at hol
        rw [midTable, List.length_append, List.length_take, List.length_drop, hol, table_enc_length m.group.le]
        omega
      · rw [midTable_all hlt hk, table_enc_length m.group.le]
        omega
    omega
  have hlen : (g ++ [x]).length = g.length + 1 := by simp
  have hgr := m.group
  have hend := m.end_
  have hsm := m.small
  have hu : u64 chk ((fileOf cap init).length + (table cap (g ++ [x])).size + (table cap (g ++ [x])).width) = .ok (fileOf cap (init ++ [g ++ [x]])).length := by
    rw [← hend, u64_ok (by omega)]
  have hv' : View cap (init ++ [g ++ [x]]) (⟨anchor cap 0 (init ++ [g ++ [x]]), s.loc.setup ((anchor cap 0 (init ++ [g ++ [x]])).map (·.inner))⟩ : Storage) := by
    refine ⟨m.groups', rfl, ?_⟩
    dsimp only
    rw [anchor_inner]
    exact setup_next (by omega) m.groups' _
  by_cases hg : g = []
  · subst hg
    have hopt : init ++ opt ([] : List Bytes) = init := by simp [opt]
    rw [hopt] at v
    have hinfo : s.lastInfo = (none, (fileOf cap init).length) := by
      rcases List.eq_nil_or_concat init with rfl | ⟨a, b, rfl⟩
      · rw [lastInfo_nil (by rw [v]; rfl)]; rfl
      · rw [List.concat_eq_append] at *
        obtain ⟨h1, h2⟩ := m.full b (by simp)
        exact lastInfo_full v h1 h2
    rcases Nat.lt_or_ge k (20 + 8 * cap) with hk | hk
    · left
      have hfile : midFile cap init [] x k = fileOf cap init ++ (table cap [x]).enc.take k := by
        unfold midFile midTable oldTable
        rw [Nat.sub_eq_zero_of_le (by omega)]
        simp
      have hwf := m.wf
      rw [List.nil_append] at hwf
      have key := C34_truncated_partial (table cap [x]) hwf _ (fileOf cap init) k chk hwf.bytes (by rw [table_enc_length (by simp; omega)]; exact hk)
      rw [table_capacity] at key
      rw [← hfile] at key
      refine ⟨_, ?_, hk, rfl⟩
      obtain ⟨f, rfl⟩ : ∃ f, fuel = f + 1 := ⟨fuel - 1, by omega⟩
      unfold Storage.reload
      rw [hinfo, Storage.reloadLoop.eq_def]
      simp only
      rw [key, if_true]
      by_cases h16 : k < 16
      · rw [if_pos h16, if_pos (.inl h16)]
        simp
      · rw [if_neg h16, if_neg (by omega)]
        cases chk
        · simp
        · simp [h16]
    · right
      obtain ⟨f, rfl⟩ : ∃ f, fuel = f + 1 + 1 := ⟨fuel - 2, by have := hfuel (by omega); omega⟩
      have ht := midTable_all (g := []) (x := x) hlt hk
      have hrd := m.read_new chk ht
      have hap : s.slots ++ [⟨table cap ([] ++ [x]), (fileOf cap init).length⟩] = anchor cap 0 (init ++ [[] ++ [x]]) := by
        rw [anchor_concat, v]
      have hcnt : s.slots.length = init.length := by rw [v, anchor_length]
      by_cases hall : 20 + 8 * cap + x.length ≤ k
      · refine ⟨.ok 1, _, ?_, hv'.slots, ht, by omega, by rw [if_pos (.inr hall)], fun _ => hv', fun h => absurd (.inr hall) h⟩
        unfold Storage.reload
        rw [hinfo, Storage.reloadLoop.eq_def]
        simp only
        rw [hrd]
        simp only
        rw [hu]
        simp only
        rw [hap, Storage.reloadLoop.eq_def]
        simp only
        rw [m.read_end chk k, if_pos hall]
        simp only
        rw [show ((anchor cap 0 (init ++ [[] ++ [x]])).length == s.slots.length) = false by rw [anchor_length, hcnt]; simp]
        simp only [Option.map_some]
        unfold Storage.fresh
        rw [show ((anchor cap 0 (init ++ [[] ++ [x]])).length == s.slots.length) = false by rw [anchor_length, hcnt]; simp]
        rw [anchor_concat, List.getLast?_concat]
        simp only
        rw [table_freeIndex hgr, if_pos (by simp; omega)]
        simp [anchor_length, hcnt]
      · refine ⟨if chk then .panic else .err .io, { s with slots := anchor cap 0 (init ++ [[] ++ [x]]) }, ?_, rfl, ht, by omega,
          (if_neg (by simp; omega)).symm, fun h => absurd h (by simp; omega), fun _ => rfl⟩
        unfold Storage.reload
        rw [hinfo, Storage.reloadLoop.eq_def]
        simp only
        rw [hrd]
        simp only
        rw [hu]
        simp only
        rw [hap, Storage.reloadLoop.eq_def]
        simp only
        rw [m.read_end chk k, if_neg hall]
        cases chk <;> rfl
  · have hopt : init ++ opt g = init ++ [g] := by simp [opt, hg]
    rw [hopt] at v
    have hgg := m.groups.group g (by rw [hopt]; simp)
    have hinfo := lastInfo_part v hgg hlt
    obtain ⟨f, rfl⟩ : ∃ f, fuel = f + 1 + 1 := ⟨fuel - 2, by have := hfuel (by simp [hg]); omega⟩
    rcases midTable_cases hg hlt hpos m.h32 k with ⟨hv0, hk, hm⟩ | ⟨hv0, hk, hm⟩ | ⟨hv0, hk, vv, c, hvv, hcl, hne, hm⟩
    · left
      refine ⟨.ok 0, ?_, hk, by rw [if_neg hg, if_pos hv0]⟩
      have hfile : midFile cap init g x k = fileOf cap (init ++ [g]) := by
        unfold midFile
        rw [hm, Nat.sub_eq_zero_of_le (by omega), fileOf_append, fileOf_cons, fileOf_nil, region]
        simp
      have hsmg : (fileOf cap (init ++ [g])).length < 2 ^ 63 := by
        have := midFile_length_le (init := init) (x := x) (k := k) hlt
        rw [hfile] at this
        omega
      have hw : (table cap g).WF := table_wf_of_file hsmg (by simp) hgg.le
      have e1 := tryRead_region hw chk (fileOf cap init) []
      rw [show fileOf cap init ++ (region cap g ++ []) = fileOf cap (init ++ [g]) by simp [fileOf_append, fileOf_cons]] at e1
      rw [hfile]
      unfold Storage.reload
      rw [hinfo, Storage.reloadLoop.eq_def]
      simp only
      rw [e1]
      simp only [beq_self_eq_true, if_true]
      rfl
    · right
      obtain ⟨hcnt, hget, hset⟩ := set_last (x := x) v
      have hcrc := table_crc_ne hlt hpos m.h32
      have hrd := m.read_new chk hm
      by_cases hfull : g.length + 1 < cap
      · refine ⟨.ok 1, _, ?_, hv'.slots, hm, hk, by rw [if_pos (.inl ⟨hg, hfull⟩)], fun _ => hv', fun h => absurd (.inl ⟨hg, hfull⟩) h⟩
        unfold Storage.reload
        rw [hinfo, Storage.reloadLoop.eq_def]
        simp only
        rw [hrd]
        simp only [beq_self_eq_true]
        rw [if_neg hcrc, hget]
        simp only
        rw [hset, if_neg (by rw [table_freeIndex hgr, if_pos (by omega)]; simp)]
        simp only [Option.map_some]
        unfold Storage.fresh
        rw [show ((anchor cap 0 (init ++ [g ++ [x]])).length == s.slots.length) = true by rw [anchor_length, hcnt]; simp]
        rw [anchor_concat, List.getLast?_concat]
        simp only
        rw [table_freeIndex hgr, if_pos (by omega)]
        simp
      · have hstep : Storage.reloadLoop chk (midFile cap init g x k) (some (g.length, (table cap g).crc)) s.slots.length (f + 1 + 1) (fileOf cap init).length s.slots =
            Storage.reloadLoop chk (midFile cap init g x k) (some (g.length, (table cap g).crc)) s.slots.length (f + 1) (fileOf cap (init ++ [g ++ [x]])).length
              (anchor cap 0 (init ++ [g ++ [x]])) := by
          rw [Storage.reloadLoop.eq_def]
          simp only
          rw [hrd]
          simp only [beq_self_eq_true]
          rw [if_neg hcrc, hget]
          simp only
          rw [hset, if_pos (by rw [table_freeIndex hgr, if_neg (by omega)]; rfl), hu]
        by_cases hall : 20 + 8 * cap + x.length ≤ k
        · refine ⟨.ok 1, _, ?_, hv'.slots, hm, by omega, by rw [if_pos (.inr hall)], fun _ => hv', fun h => absurd (.inr hall) h⟩
          unfold Storage.reload
          rw [hinfo]
          simp only
          rw [hstep, Storage.reloadLoop.eq_def]
          simp only
          rw [m.read_end chk k, if_pos hall]
          simp only [Option.isNone_some]
          rw [show ((anchor cap 0 (init ++ [g ++ [x]])).length == s.slots.length) = true by rw [anchor_length, hcnt]; simp]
          simp only [if_true, Option.map_some]
          unfold Storage.fresh
          rw [show ((anchor cap 0 (init ++ [g ++ [x]])).length == s.slots.length) = true by rw [anchor_length, hcnt]; simp]
          rw [anchor_concat, List.getLast?_concat]
          simp only
          rw [table_freeIndex hgr, if_neg (by omega)]
          simp only
          rw [show cap - g.length = 1 by omega]
        · refine ⟨if chk then .panic else .err .io, { s with slots := anchor cap 0 (init ++ [g ++ [x]]) }, ?_, rfl, hm, by omega,
            (if_neg (by omega)).symm, fun h => absurd h (by omega), fun _ => rfl⟩
          unfold Storage.reload
          rw [hinfo]
          simp only
          rw [hstep, Storage.reloadLoop.eq_def]
          simp only
          rw [m.read_end chk k, if_neg hall]
          cases chk <;> rfl
    · left
      refine ⟨.err (.damagedSlot .crcDismatch), ?_, hk, by rw [if_neg hg, if_neg hv0]⟩
      have hcw : cap * 8 < 2 ^ 63 := m.wf.cap
      have hsmg : (fileOf cap (init ++ [g])).length < 2 ^ 63 := by
        rw [fileOf_append, fileOf_cons, fileOf_nil, List.append_nil, List.length_append, region_length (by simp; omega)] at hsm
        rw [fileOf_append, fileOf_cons, fileOf_nil, List.append_nil, List.length_append, region_length (by omega)]
        simp only [List.flatten_append, List.length_append] at hsm
        omega
      have hsmall : ∀ l ∈ g.map List.length ++ vv :: List.replicate (cap - g.length - 1) 0, l < 2 ^ 64 := by
        intro l hl
        have hw := table_wf_of_file hsmg (g := g) (by simp) (by omega)
        rcases List.mem_append.mp hl with hl | hl
        · exact hw.small l (by simp only [table, lens]; exact List.mem_append_left _ hl)
        · rcases List.mem_cons.mp hl with rfl | hl
          · exact hvv
          · rw [(List.mem_replicate.mp hl).2]; decide
      have hmlen : (g.map List.length ++ vv :: List.replicate (cap - g.length - 1) 0).length = cap := by
        simp; omega
      have hrd : (Slot.tryRead ⟨midFile cap init g x k, (fileOf cap init).length, chk⟩).1 = .err .crcDismatch := by
        rw [midFile, hm]
        exact Slot.tryRead_bad (s := mixed cap g vv c) hmlen hsmall hcw hcl hne (t := g.flatten ++ x.take (k - (20 + 8 * cap))) (by simp) (by simp [Cur.rest])
      unfold Storage.reload
      rw [hinfo, Storage.reloadLoop.eq_def]
      simp only
      rw [hrd]
      rfl

/-- The packets before the new one have the place they had. -/
theorem offset_same (m : Midway cap init g x) {s s' : Storage} (hs : s.slots.map (·.inner) = (init ++ opt g).map (table cap))
    (hs' : s'.slots.map (·.inner) = (init ++ [g ++ [x]]).map (table cap)) {i : Nat} (hi : i < (init ++ opt g).flatten.length) :
    s'.offsetOf cap i = s.offsetOf cap i := by
  have hc : 0 < cap := by have := m.two; omega
  have hopt : (opt g).flatten = g := by
    unfold opt
    by_cases hg : g = [] <;> simp [hg]
  have hfl : (init ++ opt g).flatten = init.flatten ++ g := by rw [List.flatten_append, hopt]
  have hfl' : (init ++ [g ++ [x]]).flatten = init.flatten ++ (g ++ [x]) := by rw [List.flatten_append]; simp
  obtain ⟨y, hy⟩ : ∃ y, (init ++ opt g).flatten[i]? = some y := ⟨_, List.getElem?_eq_getElem hi⟩
  have hy' : (init ++ [g ++ [x]]).flatten[i]? = some y := by
    rw [hfl', ← List.append_assoc, List.getElem?_append_left (by rw [← hfl]; exact hi), ← hfl, hy]
  obtain ⟨a, _, e, _, ha⟩ := offsetOf_some hc m.groups hs hy
  obtain ⟨b, _, e', _, hb⟩ := offsetOf_some hc m.groups' hs' hy'
  rw [e, e', ha, hb]
  have hlen := length_flatten_full m.full
  rw [hfl, List.length_append, hlen] at hi
  have hdm := Nat.div_add_mod i cap
  have hml := Nat.mod_lt i hc
  rcases Nat.lt_or_ge (i / cap) init.length with h | h
  · rw [List.take_append_of_le_length (by omega), List.take_append_of_le_length (by omega), List.getElem?_append_left h, List.getElem?_append_left h]
  · have hlt := m.lt
    have hq : i / cap = init.length := by
      have : i < (init.length + 1) * cap := by rw [Nat.add_mul]; omega
      have := (Nat.div_lt_iff_lt_mul hc).mpr this
      omega
    rw [hq] at hdm ⊢
    rw [Nat.mul_comm] at hdm
    have hg : g ≠ [] := by
      intro h0
      subst h0
      simp at hi
      omega
    rw [opt, if_neg hg, List.take_left, List.take_left, List.getElem?_concat_length, List.getElem?_concat_length, Option.getD_some, Option.getD_some,
      List.take_append_of_le_length (by omega)]

/-- A reader that knows the packets inserted before. What `reload` returns, and what the reader knows afterwards. -/
theorem reload_view (m : Midway cap init g x) {s : Storage} (v : View cap (init ++ opt g) s) (chk : Bool) (k : Nat) {fuel : Nat} (hf : (midFile cap init g x k).length < fuel) :
    (∃ r, s.reload cap chk fuel (midFile cap init g x k) = some (r, s) ∧ k < 20 + 8 * cap ∧
      r = (if g = [] then (if k < 16 ∨ chk = false then .ok 0 else .panic)
        else if x.length % 256 ^ (k - (16 + 8 * g.length)) = 0 then .ok 0 else .err (.damagedSlot .crcDismatch))) ∨
    (∃ r s', s.reload cap chk fuel (midFile cap init g x k) = some (r, s') ∧ Seen cap (init ++ [g ++ [x]]) s' ∧
      midTable cap g x k = (table cap (g ++ [x])).enc ∧ 16 + 8 * cap < k ∧
      r = (if (g ≠ [] ∧ g.length + 1 < cap) ∨ 20 + 8 * cap + x.length ≤ k then .ok 1 else if chk then .panic else .err .io)) := by
  rcases m.reload_slots v.slots chk k hf with h | ⟨r, s', e, hs, ht, hk, hr, h1, h2⟩
  · exact .inl h
  · refine .inr ⟨r, s', e, ?_, ht, hk, hr⟩
    by_cases hc : (g ≠ [] ∧ g.length + 1 < cap) ∨ 20 + 8 * cap + x.length ≤ k
    · exact (h1 hc).seen
    · have hb : g = [] ∨ g.length + 1 = cap := by
        by_cases hg : g = []
        · exact .inl hg
        · refine .inr ?_
          have := m.lt
          have : ¬ (g.length + 1 < cap) := fun h => hc (.inl ⟨hg, h⟩)
          omega
      have := m.seen_of_view v hb
      rw [← hs, ← h2 hc] at this
      exact this

end Midway

end Brec
