import Verif.Block
/-!
# Lemmas about the block codec
-/

namespace Brec

/-- The user's conversions of a linked enum are inverse to each other in the direction needed. -/
def Linked.Lawful (e : Linked) : Prop := ∀ v, e.dec (e.enc v) = some v

def FTy.Lawful : FTy → Prop
  | linked e => e.Lawful
  | _ => True

/-- A usable block type: four signature bytes, lawful linked enums. -/
structure BlockTy.WF (b : BlockTy) : Prop where
  sig_len : b.sig.length = 4
  lawful : ∀ t ∈ b.fields, t.Lawful

/-- The field bytes. -/
def layout (ts : List FTy) (v : Vals ts) : Bytes := (Vals.parts ts v).flatten

/-- The serialized block. -/
def BlockTy.bytes (b : BlockTy) (v : Vals b.fields) : Bytes := b.sig ++ layout b.fields v ++ b.crc v

/-! ## Fields -/

theorem FTy.toBytes_length (t : FTy) (v : t.Val) : (t.toBytes v).length = t.size := by
  cases t with
  | num n => exact leBytes_length ..
  | bool => rfl
  | blob n => exact v.2
  | linked e => rfl

@[simp] theorem byteOf_single (b : Byte) : byteOf [b] = b := by simp [byteOf, leNat]

theorem NumTy.pow_size (n : NumTy) : (256 : Nat) ^ n.size = 2 ^ (8 * n.size) := by
  rw [show (256 : Nat) = 2 ^ 8 from rfl, ← Nat.pow_mul]

theorem num_roundtrip (n : NumTy) (v : BitVec (8 * n.size)) :
    BitVec.ofNat (8 * n.size) (leNat (leBytes n.size v.toNat)) = v := by
  rw [leNat_leBytes_of_lt (by rw [n.pow_size]; exact v.isLt)]
  simp

theorem num_reencode (n : NumTy) {b : Bytes} (h : b.length = n.size) :
    leBytes n.size (BitVec.ofNat (8 * n.size) (leNat b)).toNat = b := by
  have hlt := leNat_lt b
  rw [h, n.pow_size] at hlt
  rw [BitVec.toNat_ofNat, Nat.mod_eq_of_lt hlt]
  exact leBytes_leNat' h

theorem toArr_val {n : Nat} (v : Arr n) : toArr n v.1 = .ok v := by simp [toArr, v.2]

theorem toArr_eq_ok {n : Nat} {b : Bytes} {v : Arr n} (h : toArr n b = .ok v) : v.1 = b := by
  unfold toArr at h
  split at h
  · injection h with h; rw [← h]
  · cases h

theorem Linked.decode_enc {e : Linked} (h : e.Lawful) (v : Fin e.card) :
    e.decode (e.enc v) = .ok v := by simp [Linked.decode, h v]

theorem flagByte_ne_zero (v : Bool) : (flagByte v != 0) = v := by cases v <;> decide
theorem flagByte_eq_one (v : Bool) : (flagByte v == 1) = v := by cases v <;> decide

theorem FTy.read_toBytes {t : FTy} (h : t.Lawful) (v : t.Val) (s : Bytes) :
    t.read.run (t.toBytes v ++ s) = (.ok v, s) := by
  cases t with
  | num n =>
    simp only [FTy.read, FTy.toBytes]
    rw [P.bind_ok (P.readExact_append' (leBytes_length ..) _), num_roundtrip]
    rfl
  | bool =>
    simp only [FTy.read, FTy.toBytes]
    rw [P.bind_ok (P.readExact_append' (n := 1) (a := [_]) rfl _), byteOf_single, flagByte_ne_zero]
    rfl
  | blob n =>
    simp only [FTy.read, FTy.toBytes]
    rw [P.bind_ok (P.readExact_append' v.2 _), P.lift_run, toArr_val]
  | linked e =>
    simp only [FTy.read, FTy.toBytes]
    rw [P.bind_ok (P.readExact_append' (n := 1) (a := [_]) rfl _), byteOf_single, P.lift_run,
      Linked.decode_enc h]

theorem FTy.ofSlice_toBytes {t : FTy} (h : t.Lawful) (v : t.Val) : t.ofSlice (t.toBytes v) = .ok v := by
  cases t with
  | num n => simp only [FTy.ofSlice, FTy.toBytes]; rw [num_roundtrip]
  | bool => simp only [FTy.ofSlice, FTy.toBytes]; rw [byteOf_single, flagByte_eq_one]
  | blob n => exact toArr_val v
  | linked e => simp only [FTy.ofSlice, FTy.toBytes]; rw [byteOf_single, Linked.decode_enc h]

/-! ## Field lists -/

theorem layout_cons (t : FTy) (ts : List FTy) (v : t.Val) (vs : Vals ts) :
    layout (t :: ts) (v, vs) = t.toBytes v ++ layout ts vs := rfl

theorem layout_length (ts : List FTy) (v : Vals ts) : (layout ts v).length = fieldsSize ts := by
  induction ts with
  | nil => rfl
  | cons t ts ih =>
    obtain ⟨v, vs⟩ := v
    rw [layout_cons, List.length_append, FTy.toBytes_length, ih, fieldsSize]

theorem foldl_crcState (parts : List Bytes) (s : BitVec 32) :
    parts.foldl crcState s = crcState s parts.flatten := by
  induction parts generalizing s with
  | nil => rfl
  | cons p ps ih => rw [List.foldl_cons, ih, List.flatten_cons, crcState_append]

theorem BlockTy.crc_eq {b : BlockTy} (h : b.noCrc = false) (v : Vals b.fields) :
    b.crc v = crcBytes (layout b.fields v) := by
  simp [BlockTy.crc, h, crcBytes, crc32, layout, foldl_crcState]

@[simp] theorem BlockTy.crc_length (b : BlockTy) (v : Vals b.fields) : (b.crc v).length = 4 := by
  unfold BlockTy.crc; split <;> simp

theorem BlockTy.bytes_length {b : BlockTy} (w : b.WF) (v : Vals b.fields) :
    (b.bytes v).length = b.ssize := by
  simp [BlockTy.bytes, w.sig_len, layout_length, BlockTy.ssize]; omega

theorem Vals.read_layout {ts : List FTy} (h : ∀ t ∈ ts, t.Lawful) (v : Vals ts) (s : Bytes) :
    (Vals.read ts).run (layout ts v ++ s) = (.ok v, s) := by
  induction ts with
  | nil => rfl
  | cons t ts ih =>
    obtain ⟨v, vs⟩ := v
    rw [layout_cons, List.append_assoc, Vals.read]
    rw [P.bind_ok (FTy.read_toBytes (h t (by simp)) v _)]
    rw [P.bind_ok (ih (fun u hu => h u (by simp [hu])) vs)]
    rfl

theorem layout_inj {ts : List FTy} (h : ∀ t ∈ ts, t.Lawful) {u v : Vals ts}
    (e : layout ts u = layout ts v) : u = v := by
  have h1 := Vals.read_layout h u []
  rw [e, Vals.read_layout h v []] at h1
  simpa using h1.symm

theorem cut_append {a b c : Bytes} {i j : Nat} (hi : a.length = i) (hj : i + b.length = j) :
    cut (a ++ b ++ c) i j = .ok b := by
  subst hi; subst hj
  rw [cut, if_pos (by simp), slice_append_mid rfl (by omega)]

theorem Vals.ofSlice_layout {ts : List FTy} (h : ∀ t ∈ ts, t.Lawful) (v : Vals ts) (pre s : Bytes)
    {off : Nat} (hoff : pre.length = off) :
    Vals.ofSlice ts (pre ++ layout ts v ++ s) off = .ok (v, off + fieldsSize ts) := by
  induction ts generalizing pre off with
  | nil => rfl
  | cons t ts ih =>
    obtain ⟨v, vs⟩ := v
    have hl := t.toBytes_length v
    rw [layout_cons, Vals.ofSlice]
    have e1 : pre ++ (t.toBytes v ++ layout ts vs) ++ s = pre ++ t.toBytes v ++ (layout ts vs ++ s) := by
      simp
    have e2 : pre ++ (t.toBytes v ++ layout ts vs) ++ s = (pre ++ t.toBytes v) ++ layout ts vs ++ s := by
      simp
    rw [e1, cut_append hoff (by omega), ← e1, Out.bind_ok, FTy.ofSlice_toBytes (h t (by simp)),
      Out.bind_ok, e2, ih (fun u hu => h u (by simp [hu])) vs _ (by simp; omega)]
    simp [fieldsSize, Nat.add_assoc]

/-! ## Reading a whole block -/

theorem BlockTy.read_true {b : BlockTy} (w : b.WF) (v : Vals b.fields) (s : Bytes) :
    (b.read true).run (layout b.fields v ++ b.crc v ++ s) = (.ok v, s) := by
  simp only [BlockTy.read, BlockTy.readBody, if_true]
  rw [List.append_assoc, P.bind_ok (Vals.read_layout w.lawful v _),
    P.bind_ok (P.readExact_append' (b.crc_length v) _)]
  simp

theorem BlockTy.read_false_eq (b : BlockTy) {sig s : Bytes} (h : sig.length = 4) :
    (b.read false).run (sig ++ s) =
      if sig = b.sig then (b.read true).run s else (.err .sigDismatch, s) := by
  simp only [BlockTy.read, Bool.false_eq_true, if_false, if_true]
  rw [P.bind_ok (P.readExact_append' h s)]
  by_cases hs : sig = b.sig
  · simp [hs]
  · simp [hs]

theorem BlockTy.read_bytes {b : BlockTy} (w : b.WF) (v : Vals b.fields) (s : Bytes) :
    (b.read false).run (b.bytes v ++ s) = (.ok v, s) := by
  have : b.bytes v ++ s = b.sig ++ (layout b.fields v ++ b.crc v ++ s) := by simp [BlockTy.bytes]
  rw [this, BlockTy.read_false_eq b w.sig_len, if_pos rfl, BlockTy.read_true w]

theorem BlockTy.readSlice_bytes {b : BlockTy} (w : b.WF) (v : Vals b.fields) (s : Bytes) :
    b.readSlice (b.bytes v ++ s) false = .ok ⟨b.sig, v, b.crc v⟩ := by
  have hl := BlockTy.bytes_length w v
  have h4 : 4 ≤ (b.bytes v).length := by rw [hl, BlockTy.ssize]; omega
  unfold BlockTy.readSlice
  rw [if_neg (by simp; omega), if_neg]
  · simp only [Bool.false_eq_true, if_false]
    rw [if_neg (by simp; omega)]
    have e0 : b.bytes v ++ s = [] ++ b.sig ++ (layout b.fields v ++ b.crc v ++ s) := by
      simp [BlockTy.bytes]
    have e1 : b.bytes v ++ s = b.sig ++ layout b.fields v ++ (b.crc v ++ s) := by
      simp [BlockTy.bytes]
    have e2 : b.bytes v ++ s = (b.sig ++ layout b.fields v) ++ b.crc v ++ s := by
      simp [BlockTy.bytes]
    rw [e0, cut_append (i := 0) rfl (by simp [w.sig_len]), ← e0, Out.bind_ok, e1,
      Vals.ofSlice_layout w.lawful v _ _ w.sig_len, ← e1, Out.bind_ok, e2,
      cut_append (by simp [w.sig_len, layout_length]) (by simp), Out.bind_ok]
    simp
  · rintro ⟨_, h⟩
    apply h
    rw [List.take_append_of_le_length h4, BlockTy.bytes, List.append_assoc,
      List.take_append_of_le_length (by rw [w.sig_len]; omega),
      List.take_of_length_le (by simp [w.sig_len])]

/-! ## Writing -/

theorem copyAt_fill {acc src : Bytes} {k n off : Nat} (ho : acc.length = off)
    (hn : n = src.length + k) :
    copyAt (acc ++ List.replicate n 0) off src = .ok (acc ++ src ++ List.replicate k 0) := by
  subst ho; subst hn
  rw [copyAt, if_pos (by simp)]
  simp [List.drop_append]

theorem fillFields_eq (ts : List FTy) (v : Vals ts) (acc : Bytes) {k n off : Nat}
    (ho : acc.length = off) (hn : n = fieldsSize ts + k) :
    fillFields ts v (acc ++ List.replicate n 0) off =
      .ok (acc ++ layout ts v ++ List.replicate k 0, off + fieldsSize ts) := by
  induction ts generalizing acc n off with
  | nil => subst hn; simp [fillFields, layout, Vals.parts, fieldsSize]
  | cons t ts ih =>
    obtain ⟨v, vs⟩ := v
    have hl := t.toBytes_length v
    rw [fillFields, copyAt_fill (k := fieldsSize ts + k) ho (by rw [hn, hl, fieldsSize]; omega), Out.bind_ok,
      ih vs _ (by simp; omega) rfl, layout_cons]
    simp [fieldsSize, Nat.add_assoc]

/-- The generated buffer filling never goes out of range and produces the documented layout. -/
theorem BlockTy.buffer_eq {b : BlockTy} (w : b.WF) (v : Vals b.fields) :
    b.buffer v = .ok (b.bytes v) := by
  unfold BlockTy.buffer
  have e : (List.replicate b.ssize 0 : Bytes) = [] ++ List.replicate b.ssize 0 := rfl
  rw [e, copyAt_fill (off := 0) (k := fieldsSize b.fields + 4) rfl (by simp [w.sig_len, BlockTy.ssize]; omega),
    Out.bind_ok, List.nil_append, fillFields_eq b.fields v b.sig w.sig_len rfl, Out.bind_ok]
  simp only
  rw [copyAt_fill (k := 0) (by simp [w.sig_len, layout_length]) (by simp)]
  simp [BlockTy.bytes]

/-! ### Slices -/

def FV.ok (f : FV) : Prop := f.bytes.length = f.size

theorem Vals.fvs_ok (ts : List FTy) (v : Vals ts) : ∀ f ∈ Vals.fvs ts v, f.ok := by
  induction ts with
  | nil => intro f hf; cases hf
  | cons t ts ih =>
    obtain ⟨v, vs⟩ := v
    intro f hf
    rcases List.mem_cons.mp hf with rfl | hf
    · exact t.toBytes_length v
    · exact ih vs f hf

theorem Vals.fvs_flatten (ts : List FTy) (v : Vals ts) :
    ((Vals.fvs ts v).map FV.bytes).flatten = layout ts v := by
  induction ts with
  | nil => rfl
  | cons t ts ih =>
    obtain ⟨v, vs⟩ := v
    simp [Vals.fvs, ih, layout_cons]

/-- A group is homogeneous, non-empty, and made of well-formed fields. -/
structure GroupOk (g : List FV) : Prop where
  ne : g ≠ []
  ok : ∀ f ∈ g, f.ok
  hom : (∀ f ∈ g, f.blob = true) ∨ (∀ f ∈ g, f.blob = false)

/-- Invariant of the grouping loop: at most one of the two open groups is non-empty. -/
structure GroupingInv (g : Grouping) (seen : List FV) : Prop where
  groups : ∀ x ∈ g.groups, GroupOk x
  slices_ok : ∀ f ∈ g.slices, f.ok ∧ f.blob = true
  fields_ok : ∀ f ∈ g.fields, f.ok ∧ f.blob = false
  one : g.slices = [] ∨ g.fields = []
  all : g.groups.flatten ++ g.slices ++ g.fields = seen

theorem Grouping.step_inv {g : Grouping} {seen : List FV} (h : GroupingInv g seen) {f : FV} (hf : f.ok) :
    GroupingInv (g.step f) (seen ++ [f]) := by
  obtain ⟨gr, sl, fl⟩ := g
  obtain ⟨h1, h2, h3, h4, h5⟩ := h
  simp only at h1 h2 h3 h4 h5
  unfold Grouping.step
  split
  · rename_i hb
    cases fl with
    | nil =>
      refine ⟨h1, ?_, by simp, Or.inr rfl, ?_⟩
      · intro x hx
        simp only [List.isEmpty_nil, if_true, List.mem_append, List.mem_singleton] at hx
        rcases hx with hx | rfl
        · exact h2 x hx
        · exact ⟨hf, hb⟩
      · simp only [List.isEmpty_nil, if_true, ← h5]; simp
    | cons a fl =>
      rcases h4 with h4 | h4
      · subst h4
        refine ⟨?_, ?_, by simp, Or.inr rfl, ?_⟩
        · intro x hx
          simp only [List.isEmpty_cons, Bool.false_eq_true, if_false, List.mem_append,
            List.mem_singleton] at hx
          rcases hx with hx | rfl
          · exact h1 x hx
          · exact ⟨by simp, fun f hf => (h3 f hf).1, Or.inr fun f hf => (h3 f hf).2⟩
        · intro x hx
          simp only [List.isEmpty_cons, Bool.false_eq_true, if_false, List.nil_append,
            List.mem_singleton] at hx
          subst hx; exact ⟨hf, hb⟩
        · simp only [List.isEmpty_cons, Bool.false_eq_true, if_false, ← h5]; simp
      · cases h4
  · rename_i hb
    cases sl with
    | nil =>
      refine ⟨h1, by simp, ?_, Or.inl rfl, ?_⟩
      · intro x hx
        simp only [List.isEmpty_nil, if_true, List.mem_append, List.mem_singleton] at hx
        rcases hx with hx | rfl
        · exact h3 x hx
        · exact ⟨hf, by simpa using hb⟩
      · simp only [List.isEmpty_nil, if_true, ← h5]; simp
    | cons a sl =>
      rcases h4 with h4 | h4
      · cases h4
      · subst h4
        refine ⟨?_, by simp, ?_, Or.inl rfl, ?_⟩
        · intro x hx
          simp only [List.isEmpty_cons, Bool.false_eq_true, if_false, List.mem_append,
            List.mem_singleton] at hx
          rcases hx with hx | rfl
          · exact h1 x hx
          · exact ⟨by simp, fun f hf => (h2 f hf).1, Or.inl fun f hf => (h2 f hf).2⟩
        · intro x hx
          simp only [List.isEmpty_cons, Bool.false_eq_true, if_false, List.nil_append,
            List.mem_singleton] at hx
          subst hx; exact ⟨hf, by simpa using hb⟩
        · simp only [List.isEmpty_cons, Bool.false_eq_true, if_false, ← h5]; simp

theorem Grouping.fold_inv (fs : List FV) (hfs : ∀ f ∈ fs, f.ok) {g : Grouping} {seen : List FV}
    (h : GroupingInv g seen) : GroupingInv (fs.foldl Grouping.step g) (seen ++ fs) := by
  induction fs generalizing g seen with
  | nil => simpa using h
  | cons f fs ih =>
    have := ih (fun x hx => hfs x (by simp [hx])) (Grouping.step_inv h (hfs f (by simp)))
    simpa using this

theorem Grouping.finish_ok {g : Grouping} {seen : List FV} (h : GroupingInv g seen) :
    (∀ x ∈ g.finish, GroupOk x) ∧ g.finish.flatten = seen := by
  obtain ⟨gr, sl, fl⟩ := g
  obtain ⟨h1, h2, h3, h4, h5⟩ := h
  simp only at h1 h2 h3 h4 h5
  unfold Grouping.finish
  have okS : sl ≠ [] → GroupOk sl := fun hne =>
    ⟨hne, fun f hf => (h2 f hf).1, Or.inl fun f hf => (h2 f hf).2⟩
  have okF : fl ≠ [] → GroupOk fl := fun hne =>
    ⟨hne, fun f hf => (h3 f hf).1, Or.inr fun f hf => (h3 f hf).2⟩
  cases sl with
  | nil =>
    cases fl with
    | nil => simp at h5 ⊢; exact ⟨h1, h5⟩
    | cons a fl =>
      have hF := okF (by simp)
      simp at h5 ⊢
      refine ⟨fun x hx => ?_, h5⟩
      rcases hx with hx | rfl
      · exact h1 x hx
      · exact hF
  | cons a sl =>
    rcases h4 with h4 | h4
    · cases h4
    · subst h4
      have hS := okS (by simp)
      simp at h5 ⊢
      refine ⟨fun x hx => ?_, h5⟩
      rcases hx with hx | rfl
      · exact h1 x hx
      · exact hS

theorem emitGroup_blobs {len last : Nat} (fs : List FV) (h : ∀ f ∈ fs, f.blob = true) (n : Nat) (e : Emit) :
    emitGroup len last n fs e = .ok { e with slots := e.slots ++ fs.map FV.bytes } := by
  induction fs generalizing n e with
  | nil => simp [emitGroup]
  | cons f fs ih =>
    rw [emitGroup, if_pos (h f (by simp)), ih (fun x hx => h x (by simp [hx]))]
    simp

theorem sum_sizes {fs : List FV} (h : ∀ f ∈ fs, f.ok) :
    ((fs.map FV.bytes).flatten).length = (fs.map FV.size).sum := by
  induction fs with
  | nil => rfl
  | cons f fs ih =>
    have : f.bytes.length = f.size := h f (by simp)
    simp [ih (fun x hx => h x (by simp [hx])), this]

/-- The middle of a plain group: the buffer is filled up to `offset`. -/
theorem emitGroup_fields_aux {len last : Nat} (fs : List FV) (hb : ∀ f ∈ fs, f.blob = false)
    (hok : ∀ f ∈ fs, f.ok) (n : Nat) (acc : Bytes) (slots : List Bytes) (off : Nat)
    (hn : n ≠ 0) (hlast : n + fs.length = last + 1) (hne : fs ≠ []) (hoff : acc.length = off) :
    ∃ b o, emitGroup len last n fs ⟨slots, acc ++ List.replicate ((fs.map FV.size).sum) 0, off⟩ =
      .ok ⟨slots ++ [acc ++ (fs.map FV.bytes).flatten], b, o⟩ := by
  induction fs generalizing n acc off with
  | nil => exact absurd rfl hne
  | cons f fs ih =>
    have hf : f.bytes.length = f.size := hok f (by simp)
    rw [emitGroup, if_neg (by simp [hb f (by simp)])]
    simp only [hn, if_false]
    rw [copyAt_fill (k := (fs.map FV.size).sum) hoff (by simp [hf]), Out.bind_ok]
    by_cases hl : n = last
    · have : fs = [] := by
        simp only [List.length_cons] at hlast
        exact List.length_eq_zero_iff.mp (by omega)
      subst this
      simp [hl, emitGroup]
    · have hfs : fs ≠ [] := by
        intro h0; subst h0; simp at hlast; omega
      obtain ⟨b, o, e⟩ := ih (fun x hx => hb x (by simp [hx])) (fun x hx => hok x (by simp [hx]))
        (n + 1) (acc ++ f.bytes) (off + f.size) (by omega) (by simp at hlast; omega) hfs
        (by simp; omega)
      refine ⟨b, o, ?_⟩
      simp only [ne_eq, hl, not_false_eq_true, if_true]
      rw [e]
      simp

theorem emitGroup_fields (fs : List FV) (hb : ∀ f ∈ fs, f.blob = false) (hok : ∀ f ∈ fs, f.ok)
    (hne : fs ≠ []) (e : Emit) :
    ∃ b o, emitGroup ((fs.map FV.size).sum) (fs.length - 1) 0 fs e =
      .ok ⟨e.slots ++ [(fs.map FV.bytes).flatten], b, o⟩ := by
  cases fs with
  | nil => exact absurd rfl hne
  | cons f fs =>
    have hf : f.bytes.length = f.size := hok f (by simp)
    rw [emitGroup, if_neg (by simp [hb f (by simp)])]
    simp only [if_true]
    have e0 : (List.replicate ((List.map FV.size (f :: fs)).sum) 0 : Bytes) =
      [] ++ List.replicate ((List.map FV.size (f :: fs)).sum) 0 := rfl
    rw [e0, copyAt_fill (off := 0) (k := (fs.map FV.size).sum) rfl (by simp [hf]), Out.bind_ok]
    by_cases hl : fs = []
    · subst hl; simp [emitGroup]
    · have hpos := List.length_pos_iff.mpr hl
      have hx : (0 : Nat) ≠ (f :: fs).length - 1 := by simp; omega
      simp only [ne_eq, hx, not_false_eq_true, if_true]
      obtain ⟨b, o, e'⟩ := emitGroup_fields_aux (len := (List.map FV.size (f :: fs)).sum)
        (last := (f :: fs).length - 1) fs (fun x hx => hb x (by simp [hx]))
        (fun x hx => hok x (by simp [hx])) (0 + 1) ([] ++ f.bytes) e.slots (0 + f.size) (by omega)
        (by simp; omega) hl (by simp; omega)
      refine ⟨b, o, ?_⟩
      rw [e']
      simp

theorem emitGroups_flatten (gs : List (List FV)) (h : ∀ g ∈ gs, GroupOk g) (e : Emit) :
    ∃ e', emitGroups gs e = .ok e' ∧
      e'.slots.flatten = e.slots.flatten ++ (gs.flatten.map FV.bytes).flatten := by
  induction gs generalizing e with
  | nil => exact ⟨e, rfl, by simp⟩
  | cons g gs ih =>
    have hg := h g (by simp)
    rw [emitGroups]
    rcases hg.hom with hb | hb
    · rw [emitGroup_blobs g hb, Out.bind_ok]
      obtain ⟨e', h1, h2⟩ := ih (fun x hx => h x (by simp [hx])) { e with slots := e.slots ++ g.map FV.bytes }
      exact ⟨e', h1, by rw [h2]; simp⟩
    · obtain ⟨b, o, he⟩ := emitGroup_fields g hb hg.ok hg.ne e
      rw [he, Out.bind_ok]
      obtain ⟨e', h1, h2⟩ := ih (fun x hx => h x (by simp [hx])) _
      exact ⟨e', h1, by rw [h2]; simp⟩

/-- The vectored form: the slices, concatenated, are the serialized block. -/
theorem BlockTy.slices_flatten (b : BlockTy) (v : Vals b.fields) :
    ∃ sl, b.slices v = .ok sl ∧ sl.flatten = b.bytes v := by
  have inv := Grouping.fold_inv (Vals.fvs b.fields v) (Vals.fvs_ok _ _) (g := ⟨[], [], []⟩) (seen := [])
    ⟨by simp, by simp, by simp, Or.inl rfl, rfl⟩
  obtain ⟨h1, h2⟩ := Grouping.finish_ok inv
  obtain ⟨e', h3, h4⟩ := emitGroups_flatten _ h1 ⟨[b.sig], [], 0⟩
  refine ⟨e'.slots ++ [b.crc v], ?_, ?_⟩
  · unfold BlockTy.slices; simp only; rw [h3]; rfl
  · rw [List.flatten_append, h4, h2, List.nil_append, Vals.fvs_flatten]
    simp [BlockTy.bytes]

end Brec
