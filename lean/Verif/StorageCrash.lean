import Verif.StorageWrite
import Verif.Props.Slot
/-!
# Lemmas about interrupted inserts
-/

namespace Brec

/-! ## Part of a slot table overwritten -/

theorem leBytes_zero (n : Nat) : leBytes n 0 = List.replicate n 0 := by
  induction n with
  | zero => rfl
  | succ n ih => simp [leBytes, ih, List.replicate_succ]

theorem leBytes_take : ∀ (n v j : Nat), j ≤ n → (leBytes n v).take j ++ (leBytes n 0).drop j = leBytes n (v % 256 ^ j)
  | n, v, 0, _ => by simp [Nat.mod_one]
  | 0, v, j + 1, h => by omega
  | n + 1, v, j + 1, h => by
    have h1 : BitVec.ofNat 8 (v % 256 ^ (j + 1)) = BitVec.ofNat 8 v := by
      apply BitVec.eq_of_toNat_eq
      simp only [BitVec.toNat_ofNat]
      rw [Nat.pow_succ, Nat.mul_comm, Nat.mod_mul_right_mod]
    have h2 : v % 256 ^ (j + 1) / 256 = v / 256 % 256 ^ j := by
      rw [Nat.pow_succ, Nat.mul_comm, Nat.mod_mul_right_div_self]
    simp only [leBytes, List.take_succ_cons, List.drop_succ_cons, List.cons_append, h1, h2, Nat.zero_div]
    rw [leBytes_take n (v / 256) j (by omega)]

/-- A table that has `v` as the length behind those of `g`, and some CRC. -/
def mixed (cap : Nat) (g : List Bytes) (v : Nat) (crc : Bytes) : Slot :=
  ⟨g.map List.length ++ v :: List.replicate (cap - g.length - 1) 0, cap, crc⟩

theorem lens_concat {cap : Nat} {g : List Bytes} (x : Bytes) (hlt : g.length < cap) :
    lens cap (g ++ [x]) = g.map List.length ++ x.length :: List.replicate (cap - g.length - 1) 0 := by
  simp only [lens, List.map_append, List.map_cons, List.map_nil, List.length_append, List.length_cons, List.length_nil]
  rw [show cap - (g.length + (0 + 1)) = cap - g.length - 1 by omega]
  simp

theorem lens_free {cap : Nat} {g : List Bytes} (hlt : g.length < cap) :
    lens cap g = g.map List.length ++ 0 :: List.replicate (cap - g.length - 1) 0 := by
  rw [lens, ← List.replicate_succ, show cap - g.length - 1 + 1 = cap - g.length by omega]

theorem table_concat {cap : Nat} {g : List Bytes} (x : Bytes) (hlt : g.length < cap) :
    table cap (g ++ [x]) = mixed cap g x.length (table cap (g ++ [x])).crc := by
  rw [table, mixed, lens_concat x hlt]

theorem table_free {cap : Nat} {g : List Bytes} (hlt : g.length < cap) : table cap g = mixed cap g 0 (table cap g).crc := by
  rw [table, mixed, lens_free hlt]

/-- Everything before the first free length. -/
def tablePre (cap : Nat) (g : List Bytes) : Bytes := SLOT_SIG ++ leBytes 8 cap ++ (g.map List.length).flatMap (leBytes 8)

theorem tablePre_length (cap : Nat) (g : List Bytes) : (tablePre cap g).length = 16 + 8 * g.length := by
  simp only [tablePre, List.length_append, leBytes_length, Slot.lens_length, List.length_map, SLOT_SIG, List.length_cons, List.length_nil]

theorem mixed_enc (cap : Nat) (g : List Bytes) (v : Nat) (crc : Bytes) :
    (mixed cap g v crc).enc = tablePre cap g ++ (leBytes 8 v ++ ((List.replicate (cap - g.length - 1) 0).flatMap (leBytes 8) ++ crc)) := by
  simp only [mixed, Slot.enc, tablePre, List.flatMap_append, List.flatMap_cons, List.append_assoc]

theorem zeros_length (n : Nat) : ((List.replicate n 0).flatMap (leBytes 8)).length = 8 * n := by
  rw [Slot.lens_length, List.length_replicate]

/-- Stopped before the free length. -/
theorem mix_low {cap : Nat} {g : List Bytes} {v : Nat} {c c' : Bytes} {k : Nat} (h : k ≤ 16 + 8 * g.length) :
    (mixed cap g v c).enc.take k ++ (mixed cap g 0 c').enc.drop k = (mixed cap g 0 c').enc := by
  have hl := tablePre_length cap g
  rw [mixed_enc, mixed_enc, List.take_append_of_le_length (by omega), List.drop_append_of_le_length (by omega), ← List.append_assoc, List.take_append_drop]

/-- Stopped inside the lengths. -/
theorem mix_mid {cap : Nat} {g : List Bytes} {v : Nat} {c c' : Bytes} {k : Nat} (hlt : g.length < cap) (h1 : 16 + 8 * g.length ≤ k) (h2 : k ≤ 16 + 8 * cap)
    (hv : v < 2 ^ 64) :
    (mixed cap g v c).enc.take k ++ (mixed cap g 0 c').enc.drop k = (mixed cap g (v % 256 ^ (k - (16 + 8 * g.length))) c').enc := by
  have hl := tablePre_length cap g
  have hz := zeros_length (cap - g.length - 1)
  obtain ⟨j, rfl⟩ : ∃ j, k = (tablePre cap g).length + j := ⟨k - (tablePre cap g).length, by omega⟩
  rw [mixed_enc, mixed_enc, mixed_enc, List.take_length_add_append, ← List.drop_drop, List.drop_left, List.append_assoc,
    show (tablePre cap g).length + j - (16 + 8 * g.length) = j by omega]
  congr 1
  generalize (List.replicate (cap - g.length - 1) 0).flatMap (leBytes 8) = Z at hz
  rcases Nat.le_total j 8 with hj | hj
  · rw [List.take_append_of_le_length (by simpa using hj), List.drop_append_of_le_length (by simpa using hj), ← List.append_assoc, leBytes_take 8 v j hj]
  · obtain ⟨i, rfl⟩ : ∃ i, j = 8 + i := ⟨j - 8, by omega⟩
    have e : v % 256 ^ (8 + i) = v := by
      apply Nat.mod_eq_of_lt
      have : (256 : Nat) ^ 8 ≤ 256 ^ (8 + i) := Nat.pow_le_pow_right (by decide) (by omega)
      have h3 : (256 : Nat) ^ 8 = 2 ^ 64 := by decide
      omega
    rw [e, show 8 + i = (leBytes 8 v).length + i by simp, List.take_length_add_append, ← List.drop_drop,
      show (leBytes 8 v).length = (leBytes 8 0).length by simp, List.drop_left, List.append_assoc]
    congr 1
    rw [List.take_append_of_le_length (by omega), List.drop_append_of_le_length (by omega), ← List.append_assoc, List.take_append_drop]

/-- Stopped inside the CRC. -/
theorem mix_high {cap : Nat} {g : List Bytes} {v : Nat} {c c' : Bytes} {i : Nat} (hlt : g.length < cap) (hi : i ≤ c.length) :
    (mixed cap g v c).enc.take (16 + 8 * cap + i) ++ (mixed cap g 0 c').enc.drop (16 + 8 * cap + i) = (mixed cap g v (c.take i ++ c'.drop i)).enc := by
  have hl := tablePre_length cap g
  have hz := zeros_length (cap - g.length - 1)
  rw [mixed_enc, mixed_enc, mixed_enc]
  generalize (List.replicate (cap - g.length - 1) 0).flatMap (leBytes 8) = Z at hz
  have e : ∀ v c, tablePre cap g ++ (leBytes 8 v ++ (Z ++ c)) = (tablePre cap g ++ (leBytes 8 v ++ Z)) ++ c := by
    intro v c; simp only [List.append_assoc]
  have hlen : ∀ v, 16 + 8 * cap = (tablePre cap g ++ (leBytes 8 v ++ Z)).length := by
    intro v; simp only [List.length_append, leBytes_length, hl, hz]; omega
  rw [e, e, e]
  conv => lhs; arg 1; rw [hlen v, List.take_length_add_append]
  conv => lhs; arg 2; rw [hlen 0, ← List.drop_drop, List.drop_left]
  simp only [List.append_assoc]

/-- A table whose CRC does not fit is refused. -/
theorem Slot.tryRead_bad {s : Slot} (hlen : s.lengths.length = s.capacity) (hsm : ∀ l ∈ s.lengths, l < 2 ^ 64) (hcap : s.capacity * 8 < 2 ^ 63)
    (hcl : s.crc.length = 4) (hne : s.crc ≠ crcOf s.capacity s.lengths) {c : Cur} {t : Bytes} (hc : c.pos ≤ c.data.length) (hr : c.rest = s.enc ++ t) :
    (Slot.tryRead c).1 = .err .crcDismatch := by
  have hl : c.rest.length = 20 + s.capacity * 8 + t.length := by
    rw [hr, List.length_append, enc]
    simp only [List.length_append, leBytes_length, lens_length, hlen, hcl, SLOT_SIG, List.length_cons, List.length_nil]
    omega
  unfold tryRead
  rw [Cur.remaining_ok hc]
  simp only
  simp only [enc, List.append_assoc] at hr
  rw [tryReadHeader_eq (by omega) hc hr]
  simp only
  rw [u64_ok (by simp only [SLOT_HSIZE]; omega)]
  simp only
  rw [if_neg (by rw [hl, SLOT_HSIZE]; omega)]
  have hr2 : ({ c with pos := c.pos + 16 } : Cur).rest = (s.lengths.flatMap (leBytes 8) ++ (s.crc ++ t)) := by
    rw [← List.append_assoc] at hr
    have := Cur.rest_add hr
    simp only [List.length_append, leBytes_length, SLOT_SIG, List.length_cons, List.length_nil] at this
    rw [this]
  have hb : ((readBody s.capacity).run (s.lengths.flatMap (leBytes 8) ++ (s.crc ++ t))).1 = .err .crcDismatch := by
    unfold readBody
    rw [P.bind_ok (a := ()) (s' := s.lengths.flatMap (leBytes 8) ++ (s.crc ++ t)) (by simp [alloc, hcap])]
    have hr := readLengths_run s.lengths hsm (s.crc ++ t)
    rw [hlen] at hr
    rw [P.bind_ok hr, P.bind_ok (P.readExact_append' hcl t), if_neg hne]
    rfl
  have hrun : (Cur.run (readBody s.capacity) { c with pos := c.pos + 16 }).1 = .err .crcDismatch := by
    unfold Cur.run
    rw [hr2]
    exact hb
  revert hrun
  generalize Cur.run (readBody s.capacity) { c with pos := c.pos + 16 } = r
  obtain ⟨o, c'⟩ := r
  rintro rfl
  rfl

/-- Putting a length below 2^32 where 0 was changes the CRC. -/
theorem mixed_crc {cap : Nat} {g : List Bytes} {v : Nat} (hv : v < 2 ^ 32)
    (h : Slot.crcOf cap (g.map List.length ++ v :: List.replicate (cap - g.length - 1) 0) =
      Slot.crcOf cap (g.map List.length ++ 0 :: List.replicate (cap - g.length - 1) 0)) : v = 0 := by
  simp only [Slot.crcOf, Slot.body, List.flatMap_append, List.flatMap_cons] at h
  have hsp : leBytes 8 v = leBytes 4 v ++ [0, 0, 0, 0] ∧ leBytes 8 0 = leBytes 4 0 ++ [0, 0, 0, 0] := by
    have : v / 256 / 256 / 256 / 256 = 0 := by omega
    simp [leBytes, this]
  rw [hsp.1, hsp.2] at h
  have key := crc_burst (m := leBytes 8 cap ++ ((g.map List.length).flatMap (leBytes 8) ++ (leBytes 4 v ++ [0, 0, 0, 0] ++
      (List.replicate (cap - g.length - 1) 0).flatMap (leBytes 8))))
    (m' := leBytes 8 cap ++ ((g.map List.length).flatMap (leBytes 8) ++ (leBytes 4 0 ++ [0, 0, 0, 0] ++
      (List.replicate (cap - g.length - 1) 0).flatMap (leBytes 8)))) (by
    rw [h]
    generalize crcBytes _ = c
    have := Burst4.of_split (leBytes 8 cap ++ (g.map List.length).flatMap (leBytes 8)) (leBytes 4 v) (leBytes 4 0)
      ([0, 0, 0, 0] ++ ((List.replicate (cap - g.length - 1) 0).flatMap (leBytes 8) ++ c)) (by simp) (by simp)
    simpa only [List.append_assoc] using this)
  have k1 := List.append_cancel_left (List.append_cancel_left key)
  rw [List.append_assoc, List.append_assoc] at k1
  exact leBytes_inj (n := 4) (by omega) (by decide) (List.append_inj k1 (by simp)).1

/-! ## What reaches the file -/

theorem table_enc_length {cap : Nat} {g : List Bytes} (hle : g.length ≤ cap) : (table cap g).enc.length = 20 + 8 * cap := by
  have := region_length (cap := cap) hle
  rw [region, List.length_append] at this
  omega

/-- Stopped inside the table. -/
theorem Ready.torn_table {cap : Nat} {init : List (List Bytes)} {g : List Bytes} {w : Writer} (h : Ready cap init g w) (x : Bytes) {k : Nat} (hk : k < 20 + 8 * cap) :
    Writer.torn w.data w.loc.slotOffset (table cap (g ++ [x])).enc (spot cap init g) x k =
      if g = [] then fileOf cap init ++ (table cap [x]).enc.take k
      else fileOf cap init ++ (((table cap (g ++ [x])).enc.take k ++ (table cap g).enc.drop k) ++ g.flatten) := by
  have hlt := h.lt
  have hen : (table cap (g ++ [x])).enc.length = 20 + 8 * cap := table_enc_length (by simp; omega)
  have heg : (table cap g).enc.length = 20 + 8 * cap := table_enc_length (by omega)
  unfold Writer.torn
  rw [if_pos (by omega), h.data, h.loc, fileOf_append]
  unfold opt
  by_cases hg : g = []
  · subst hg
    simp only [if_true, fileOf_nil, List.append_nil, List.nil_append]
    exact overwrite_end _ _
  · simp only [hg, if_false, fileOf_cons, fileOf_nil, List.append_nil, region]
    have : (table cap g).enc ++ g.flatten = (table cap g).enc.take k ++ ((table cap g).enc.drop k ++ g.flatten) := by
      rw [← List.append_assoc, List.take_append_drop]
    rw [this, overwrite_mid _ _ _ _ (by rw [List.length_take, List.length_take, hen, heg])]
    simp only [List.append_assoc]

/-- Stopped inside the packet, or not at all. -/
theorem Ready.torn_packet {cap : Nat} {init : List (List Bytes)} {g : List Bytes} {w : Writer} (h : Ready cap init g w) (x : Bytes) {k : Nat} (hk : 20 + 8 * cap ≤ k) :
    Writer.torn w.data w.loc.slotOffset (table cap (g ++ [x])).enc (spot cap init g) x k =
      fileOf cap init ++ ((table cap (g ++ [x])).enc ++ (g.flatten ++ x.take (k - (20 + 8 * cap)))) := by
  have hlt := h.lt
  have hen : (table cap (g ++ [x])).enc.length = 20 + 8 * cap := table_enc_length (by simp; omega)
  unfold Writer.torn
  rw [if_neg (by omega), hen]
  by_cases he : k = 20 + 8 * cap
  · rw [if_pos he, he, Nat.sub_self, List.take_zero, List.append_nil, h.table_written hen]
  · rw [if_neg he, h.table_written hen]
    have : spot cap init g = (fileOf cap init ++ ((table cap (g ++ [x])).enc ++ g.flatten)).length := by
      simp only [List.length_append, hen, spot]; omega
    rw [this, overwrite_end]
    simp only [List.append_assoc]

theorem torn_all {cap : Nat} {init : List (List Bytes)} {g : List Bytes} {x : Bytes} {k : Nat} (hk : 20 + 8 * cap + x.length ≤ k) :
    fileOf cap init ++ ((table cap (g ++ [x])).enc ++ (g.flatten ++ x.take (k - (20 + 8 * cap)))) = fileOf cap (init ++ [g ++ [x]]) := by
  rw [List.take_of_length_le (by omega), fileOf_append, fileOf_cons, fileOf_nil, region]
  simp

/-! ## Opening such a file -/

/-- `try_read` behind the end of the file. -/
theorem tryRead_behind {chk : Bool} {data : Bytes} {pos : Nat} (h : data.length < pos) (hp : pos < 2 ^ 63) :
    (Slot.tryRead ⟨data, pos, chk⟩).1 = if chk then .panic else .err .io := by
  cases chk with
  | true =>
    unfold Slot.tryRead Cur.remaining
    simp only
    rw [if_neg (by omega)]
    rfl
  | false =>
    have hrem : (⟨data, pos, false⟩ : Cur).remaining = .ok (2 ^ 64 + data.length - pos) := by
      unfold Cur.remaining
      simp only
      rw [if_neg (by omega)]
      rfl
    have hrun : ((⟨data, pos, false⟩ : Cur).run (P.readExact 8)).1 = .err .io := by
      unfold Cur.run
      rw [show (⟨data, pos, false⟩ : Cur).rest = [] by simp [Cur.rest]; omega, P.readExact_short (by simp)]
    unfold Slot.tryRead
    rw [hrem]
    simp only
    unfold Slot.tryReadHeader
    rw [hrem]
    simp only
    rw [if_neg (by simp only [SLOT_HSIZE]; omega)]
    revert hrun
    generalize (⟨data, pos, false⟩ : Cur).run (P.readExact 8) = r
    obtain ⟨o, c⟩ := r
    rintro rfl
    rfl

/-- What `load` makes of whole slots followed by something. -/
theorem load_then {cap : Nat} (chk : Bool) {gs : List (List Bytes)} (tail : Bytes) (hg : ∀ g ∈ gs, Group cap g)
    (hl : (fileOf cap gs).length < 2 ^ 63) (fuel : Nat) :
    loadLoop chk (fileOf cap gs ++ tail) (fuel + gs.length) 0 [] =
      loadLoop chk (fileOf cap gs ++ tail) fuel (fileOf cap gs).length (anchor cap 0 gs) := by
  have := loadLoop_skip chk tail gs [] [] fuel hg (by simpa using hl)
  simpa using this

end Brec
