import Verif.ReaderSafe
/-!
# What a successful read tells about the bytes

Lemmas: whenever one of the packet readers returns a packet, the bytes it took are a packet header, blocks and a payload, each of
which belongs to the returned value. The bytes need not be the ones the value is written as: `Rigid` says for which fields they are.
-/

namespace Brec

/-! ## Fields -/

/-- A field type with one encoding per value: the bytes that are accepted for a value are the bytes of the value. Not the case for `bool`
(several bytes read as `true`, or as `false`). -/
def FTy.Rigid : FTy → Prop
  | .bool => False
  | .linked e => ∀ x v, e.decode x = .ok v → e.enc v = x
  | _ => True

/-- The value that the bytes `raw` of a field stand for. `view` is `true` for the zero-copy readers: they take a `bool` for `true` when the byte
is 1, the other readers when it is not 0. -/
def FTy.Means (view : Bool) : (t : FTy) → Bytes → t.Val → Prop
  | .num n, raw, v => raw = leBytes n.size (BitVec.toNat v)
  | .bool, raw, v => ∃ b : Byte, raw = [b] ∧ v = if view then b == 1 else b != 0
  | .blob _, raw, v => raw = v.1
  | .linked e, raw, v => ∃ b : Byte, raw = [b] ∧ e.dec b = some v

/-- The same for a list of fields. -/
def Vals.Means (view : Bool) : (ts : List FTy) → Bytes → Vals ts → Prop
  | [], raw, _ => raw = []
  | t :: ts, raw, v => ∃ x y, raw = x ++ y ∧ t.Means view x v.1 ∧ Vals.Means view ts y v.2

theorem FTy.Means.length {view : Bool} {t : FTy} {raw : Bytes} {v : t.Val} (h : t.Means view raw v) : raw.length = t.size := by
  cases t with
  | num n => simp only [FTy.Means] at h; rw [h]; simp [FTy.size]
  | bool => obtain ⟨b, rfl, _⟩ := h; rfl
  | blob n => simp only [FTy.Means] at h; rw [h, v.2]; rfl
  | linked e => obtain ⟨b, rfl, _⟩ := h; rfl

theorem FTy.Means.rigid {view : Bool} {t : FTy} {raw : Bytes} {v : t.Val} (h : t.Means view raw v) (hr : t.Rigid) : raw = t.toBytes v := by
  cases t with
  | num n => exact h
  | bool => exact hr.elim
  | blob n => exact h
  | linked e =>
    obtain ⟨b, rfl, hd⟩ := h
    have : e.decode b = .ok v := by rw [Linked.decode, hd]
    simp only [FTy.toBytes, hr b v this]

theorem Linked.decode_eq_ok {e : Linked} {b : Byte} {v : Fin e.card} : e.decode b = .ok v ↔ e.dec b = some v := by
  unfold Linked.decode
  split
  · rename_i u hu; rw [hu]; simp
  · rename_i hu; rw [hu]; simp

/-- A field is read from a stream exactly from the bytes that stand for it. -/
theorem FTy.read_iff {t : FTy} {s s' : Bytes} {v : t.Val} : t.read.run s = (.ok v, s') ↔ ∃ raw, s = raw ++ s' ∧ t.Means false raw v := by
  constructor
  · intro e
    cases t with
    | num n =>
      obtain ⟨raw, s1, e1, e2⟩ := P.bind_eq_ok e
      obtain ⟨rfl, hl⟩ := P.readExact_eq_ok e1
      simp only [P.pure_run, Prod.mk.injEq, Out.ok.injEq] at e2
      obtain ⟨rfl, rfl⟩ := e2
      exact ⟨raw, rfl, (num_reencode n hl).symm⟩
    | bool =>
      obtain ⟨raw, s1, e1, e2⟩ := P.bind_eq_ok e
      obtain ⟨rfl, hl⟩ := P.readExact_eq_ok e1
      simp only [P.pure_run, Prod.mk.injEq, Out.ok.injEq] at e2
      obtain ⟨rfl, rfl⟩ := e2
      obtain ⟨x, rfl⟩ := single_of_length hl
      exact ⟨_, rfl, x, rfl, by simp⟩
    | blob n =>
      obtain ⟨raw, s1, e1, e2⟩ := P.bind_eq_ok e
      obtain ⟨rfl, hl⟩ := P.readExact_eq_ok e1
      simp only [P.lift_run, Prod.mk.injEq] at e2
      obtain ⟨e2, rfl⟩ := e2
      exact ⟨raw, rfl, (toArr_eq_ok e2).symm⟩
    | linked l =>
      obtain ⟨raw, s1, e1, e2⟩ := P.bind_eq_ok e
      obtain ⟨rfl, hl⟩ := P.readExact_eq_ok e1
      simp only [P.lift_run, Prod.mk.injEq] at e2
      obtain ⟨e2, rfl⟩ := e2
      obtain ⟨x, rfl⟩ := single_of_length hl
      rw [byteOf_single, Linked.decode_eq_ok] at e2
      exact ⟨_, rfl, x, rfl, e2⟩
  · rintro ⟨raw, rfl, h⟩
    have hl := h.length
    cases t with
    | num n =>
      simp only [FTy.Means] at h
      subst h
      simp only [FTy.read, FTy.size] at hl ⊢
      rw [P.bind_ok (P.readExact_append' hl s'), P.pure_run, num_roundtrip]
    | bool =>
      obtain ⟨b, rfl, rfl⟩ := h
      simp only [FTy.read, FTy.size] at hl ⊢
      rw [P.bind_ok (P.readExact_append' hl s'), P.pure_run, byteOf_single]
      rfl
    | blob n =>
      simp only [FTy.Means] at h
      subst h
      simp only [FTy.read, FTy.size] at hl ⊢
      rw [P.bind_ok (P.readExact_append' hl s'), P.lift_run, toArr_val]
    | linked l =>
      obtain ⟨b, rfl, hd⟩ := h
      simp only [FTy.read, FTy.size] at hl ⊢
      rw [P.bind_ok (P.readExact_append' hl s'), P.lift_run, byteOf_single, Linked.decode_eq_ok.mpr hd]

theorem FTy.ofSlice_iff {t : FTy} {raw : Bytes} (hl : raw.length = t.size) {v : t.Val} : t.ofSlice raw = .ok v ↔ t.Means true raw v := by
  cases t with
  | num n =>
    simp only [FTy.ofSlice, FTy.Means, Out.ok.injEq]
    constructor
    · rintro rfl; exact (num_reencode n hl).symm
    · intro h; rw [h, num_roundtrip]
  | bool =>
    obtain ⟨x, rfl⟩ := single_of_length hl
    simp only [FTy.ofSlice, FTy.Means, Out.ok.injEq, byteOf_single, if_true]
    constructor
    · rintro rfl; exact ⟨x, rfl, rfl⟩
    · rintro ⟨b, hb, rfl⟩; injection hb with hb; rw [hb]
  | blob n =>
    simp only [FTy.ofSlice, FTy.Means]
    constructor
    · intro e; exact (toArr_eq_ok e).symm
    · rintro rfl; exact toArr_val v
  | linked l =>
    obtain ⟨x, rfl⟩ := single_of_length hl
    simp only [FTy.ofSlice, FTy.Means, byteOf_single, Linked.decode_eq_ok]
    constructor
    · intro h; exact ⟨x, rfl, h⟩
    · rintro ⟨b, hb, h⟩; injection hb with hb; rw [hb]; exact h

theorem Vals.Means.length {view : Bool} {ts : List FTy} {raw : Bytes} {v : Vals ts} (h : Vals.Means view ts raw v) :
    raw.length = fieldsSize ts := by
  induction ts generalizing raw with
  | nil => simp only [Vals.Means] at h; subst h; rfl
  | cons t ts ih =>
    obtain ⟨x, y, rfl, h1, h2⟩ := h
    rw [List.length_append, h1.length, ih h2, fieldsSize]

theorem Vals.Means.rigid {view : Bool} {ts : List FTy} {raw : Bytes} {v : Vals ts} (h : Vals.Means view ts raw v)
    (hr : ∀ t ∈ ts, t.Rigid) : raw = layout ts v := by
  induction ts generalizing raw with
  | nil => simp only [Vals.Means] at h; subst h; rfl
  | cons t ts ih =>
    obtain ⟨v, vs⟩ := v
    obtain ⟨x, y, rfl, h1, h2⟩ := h
    rw [layout_cons, ← h1.rigid (hr t (by simp)), ← ih h2 fun t ht => hr t (by simp [ht])]

theorem Vals.read_iff {ts : List FTy} {s s' : Bytes} {v : Vals ts} :
    (Vals.read ts).run s = (.ok v, s') ↔ ∃ raw, s = raw ++ s' ∧ Vals.Means false ts raw v := by
  induction ts generalizing s s' with
  | nil =>
    simp only [Vals.read, P.pure_run, Prod.mk.injEq, Vals.Means]
    constructor
    · rintro ⟨_, h⟩; exact ⟨[], by simpa using h, rfl⟩
    · rintro ⟨raw, rfl, rfl⟩; exact ⟨trivial, rfl⟩
  | cons t ts ih =>
    obtain ⟨v, vs⟩ := v
    constructor
    · intro e
      obtain ⟨v', s1, e1, e2⟩ := P.bind_eq_ok e
      obtain ⟨vs', s2, e3, e4⟩ := P.bind_eq_ok e2
      simp only [P.pure_run, Prod.mk.injEq, Out.ok.injEq] at e4
      obtain ⟨⟨rfl, rfl⟩, rfl⟩ := e4
      obtain ⟨r1, rfl, c1⟩ := FTy.read_iff.mp e1
      obtain ⟨r2, rfl, c2⟩ := ih.mp e3
      exact ⟨r1 ++ r2, by simp, r1, r2, rfl, c1, c2⟩
    · rintro ⟨raw, rfl, x, y, rfl, h1, h2⟩
      unfold Vals.read
      rw [List.append_assoc, P.bind_ok (FTy.read_iff.mpr ⟨x, rfl, h1⟩), P.bind_ok (ih.mpr ⟨y, rfl, h2⟩)]
      rfl

theorem Vals.ofSlice_inv {ts : List FTy} {buf : Bytes} {off o' : Nat} {v : Vals ts} (e : Vals.ofSlice ts buf off = .ok (v, o')) :
    o' = off + fieldsSize ts ∧ Vals.Means true ts (slice buf off (fieldsSize ts)) v := by
  induction ts generalizing off o' with
  | nil =>
    simp only [Vals.ofSlice, Out.ok.injEq, Prod.mk.injEq] at e
    exact ⟨by simp [fieldsSize, ← e.2], by simp [slice, fieldsSize, Vals.Means]⟩
  | cons t ts ih =>
    obtain ⟨v, vs⟩ := v
    simp only [Vals.ofSlice] at e
    obtain ⟨raw, e1, e2⟩ := Out.bind_eq_ok e
    obtain ⟨v', e3, e4⟩ := Out.bind_eq_ok e2
    obtain ⟨⟨vs', o⟩, e5, e6⟩ := Out.map_eq_ok e4
    simp only [Prod.mk.injEq] at e6
    obtain ⟨⟨rfl, rfl⟩, rfl⟩ := e6
    obtain ⟨hraw, _, _, hl⟩ := cut_eq_ok e1
    obtain ⟨ho, hc⟩ := ih e5
    have h1 : off + t.size - off = t.size := by omega
    rw [h1] at hraw
    refine ⟨by rw [ho, fieldsSize]; omega, ?_⟩
    rw [fieldsSize, slice_add]
    refine ⟨_, _, rfl, ?_, hc⟩
    rw [← hraw]
    exact (FTy.ofSlice_iff (by omega)).mp e3

/-- The other direction. -/
theorem Vals.ofSlice_of {ts : List FTy} {raw : Bytes} {v : Vals ts} (h : Vals.Means true ts raw v) (pre s : Bytes) :
    Vals.ofSlice ts (pre ++ raw ++ s) pre.length = .ok (v, pre.length + fieldsSize ts) := by
  induction ts generalizing raw pre with
  | nil => rfl
  | cons t ts ih =>
    obtain ⟨v, vs⟩ := v
    obtain ⟨x, y, rfl, h1, h2⟩ := h
    have hx := h1.length
    have := ih h2 (pre ++ x)
    unfold Vals.ofSlice
    have e1 : cut (pre ++ (x ++ y) ++ s) pre.length (pre.length + t.size) = .ok x := by
      have : pre ++ (x ++ y) ++ s = pre ++ x ++ (y ++ s) := by simp
      rw [this]
      exact cut_append rfl (by rw [hx])
    rw [e1, Out.bind_ok, (FTy.ofSlice_iff hx).mpr h1, Out.bind_ok]
    have e2 : pre ++ (x ++ y) ++ s = pre ++ x ++ y ++ s := by simp
    rw [e2, ← hx, ← List.length_append, this]
    simp [fieldsSize, hx, Nat.add_assoc]

/-! ## Blocks -/

/-- `x` are bytes that stand for the block `v`: its signature, bytes that stand for its fields, the checksum of the *value*. -/
def Took (view : Bool) (v : BlockVal) (x : Bytes) : Prop :=
  ∃ raw, x = v.1.sig ++ raw ++ v.1.crc v.2 ∧ Vals.Means view v.1.fields raw v.2

theorem Took.rigid {view : Bool} {v : BlockVal} {x : Bytes} (h : Took view v x) (hr : ∀ t ∈ v.1.fields, t.Rigid) : x = v.1.bytes v.2 := by
  obtain ⟨raw, rfl, hm⟩ := h
  rw [hm.rigid hr]; rfl

theorem BlockTy.readBody_iff {b : BlockTy} {s s' : Bytes} {v : Vals b.fields} :
    b.readBody.run s = (.ok v, s') ↔ ∃ raw, s = raw ++ b.crc v ++ s' ∧ Vals.Means false b.fields raw v := by
  constructor
  · intro e
    obtain ⟨v', s1, e1, e2⟩ := P.bind_eq_ok e
    obtain ⟨crc, s2, e3, e4⟩ := P.bind_eq_ok e2
    obtain ⟨raw, rfl, hc⟩ := Vals.read_iff.mp e1
    obtain ⟨rfl, hl4⟩ := P.readExact_eq_ok e3
    split at e4
    · cases e4
    · rename_i hx
      rw [Decidable.not_not] at hx
      simp only [P.pure_run, Prod.mk.injEq, Out.ok.injEq] at e4
      obtain ⟨rfl, rfl⟩ := e4
      exact ⟨raw, by rw [hx]; simp, hc⟩
  · rintro ⟨raw, rfl, h⟩
    unfold BlockTy.readBody
    rw [List.append_assoc, P.bind_ok (Vals.read_iff.mpr ⟨raw, rfl, h⟩), P.bind_ok (P.readExact_append' (BlockTy.crc_length b v) s'),
      if_neg (by simp), P.pure_run]

theorem Chunks.flatten_run {α} {x : P α} {cs : Chunks} {m : Bytes} (h : cs.flatten = m ++ (x.run cs.flatten).2) :
    (Chunks.run x cs).2.flatten = (x.run cs.flatten).2 := by
  simp only [Chunks.run, Chunks.flatten_skip]
  have : cs.flatten.length - (x.run cs.flatten).2.length = m.length := by
    have := congrArg List.length h
    rw [List.length_append] at this; omega
  rw [this]
  conv => lhs; rw [h]
  simp

/-- A successful buffered read. -/
theorem Chunks.run_ok_inv {α} {x : P α} {cs cs' : Chunks} {a : α} (e : Chunks.run x cs = (.ok a, cs'))
    (hm : ∀ s', x.run cs.flatten = (.ok a, s') → ∃ m, cs.flatten = m ++ s') : x.run cs.flatten = (.ok a, cs'.flatten) := by
  have e1 : (x.run cs.flatten).1 = .ok a := congrArg Prod.fst e
  have e2 : (Chunks.run x cs).2 = cs' := congrArg Prod.snd e
  obtain ⟨m, hm⟩ := hm _ (Prod.ext e1 rfl)
  rw [← e2, Chunks.flatten_run hm, ← e1]

theorem BlockTy.tryBuf_took {b : BlockTy} (w : b.sig.length = 4) {cs cs' : Chunks} {v : Vals b.fields}
    (e : b.tryBuf cs = (.ok (.success v), cs')) : ∃ x, cs.flatten = x ++ cs'.flatten ∧ Took false ⟨b, v⟩ x := by
  unfold BlockTy.tryBuf at e
  split at e
  · cases e
  rename_i hl
  split at e
  · cases e
  rename_i hs
  rw [List.isPrefixOf_iff_prefix, Decidable.not_not] at hs
  simp only [BlockTy.read, if_true, Prod.mk.injEq] at e
  obtain ⟨e1, e2⟩ := e
  obtain ⟨v', e3, hv⟩ := Out.map_eq_ok e1
  injection hv with hv
  subst hv
  have e3 := Chunks.run_ok_inv (Prod.ext e3 e2) fun s' hs' => by
    obtain ⟨raw, h1, _⟩ := BlockTy.readBody_iff.mp hs'
    exact ⟨_, h1⟩
  obtain ⟨raw, h1, h2⟩ := BlockTy.readBody_iff.mp e3
  rw [Chunks.flatten_consume (by omega)] at h1
  refine ⟨b.sig ++ raw ++ b.crc v', ?_, ⟨raw, rfl, h2⟩⟩
  have h4 : cs.flatten.take 4 = b.sig := by
    have hp := List.prefix_iff_eq_take.mp (hs.trans (Chunks.fill_prefix cs))
    rw [w] at hp
    exact hp.symm
  rw [← List.take_append_drop 4 cs.flatten, h1, h4]
  simp

theorem enumTryBuf_took {vs : List BlockTy} (hv : ∀ a ∈ vs, a.sig.length = 4) {cs cs' : Chunks} {v : BlockVal}
    (e : enumTryBuf vs cs = (.ok (.success v), cs')) : v.1 ∈ vs ∧ ∃ x, cs.flatten = x ++ cs'.flatten ∧ Took false v x := by
  induction vs with
  | nil => cases e
  | cons b bs ih =>
    unfold enumTryBuf at e
    split at e
    · rename_i u c' hq
      injection e with e1 e2
      injection e1 with e1
      injection e1 with e1
      subst e1; subst e2
      exact ⟨by simp, BlockTy.tryBuf_took (hv b (by simp)) hq⟩
    · cases e
    · rename_i c' hq
      have : c' = cs := by
        unfold BlockTy.tryBuf at hq
        split at hq
        · cases hq
        split at hq
        · injection hq with _ hq; exact hq.symm
        · simp only [BlockTy.read, if_true, Prod.mk.injEq] at hq
          exfalso
          have := BlockTy.readBody_noSig b (Chunks.consume 4 cs).flatten
          cases hz : (Chunks.run b.readBody (Chunks.consume 4 cs)).1 with
          | ok a => rw [hz] at hq; cases hq.1
          | err e =>
            rw [hz] at hq
            simp only [Out.map] at hq
            injection hq.1 with hq'
            subst hq'
            exact this hz
          | panic => rw [hz] at hq; cases hq.1
      subst this
      obtain ⟨h1, h2⟩ := ih (fun a ha => hv a (by simp [ha])) e
      exact ⟨by simp [h1], h2⟩
    · cases e
    · cases e

theorem Cur.run_ok_inv {α} {x : P α} {c c' : Cur} {a : α} (e : c.run x = (.ok a, c'))
    (hm : ∀ s', x.run c.rest = (.ok a, s') → ∃ m, c.rest = m ++ s') :
    x.run c.rest = (.ok a, c'.rest) ∧ c'.data = c.data ∧ (c.pos ≤ c.data.length → c'.pos ≤ c'.data.length) := by
  rcases hx : x.run c.rest with ⟨o, z⟩
  simp only [Cur.run, hx, Prod.mk.injEq] at e
  obtain ⟨rfl, rfl⟩ := e
  obtain ⟨m, hm⟩ := hm _ hx
  have hlen : c.rest.length - z.length = m.length := by
    have := congrArg List.length hm
    rw [List.length_append] at this; omega
  rw [hlen]
  refine ⟨Prod.ext rfl ?_, rfl, fun h => ?_⟩
  · show z = List.drop (c.pos + m.length) c.data
    rw [← List.drop_drop]
    show z = List.drop m.length c.rest
    rw [hm]
    simp
  · have := congrArg List.length hm
    simp only [Cur.rest, List.length_append, List.length_drop] at this ⊢
    omega

theorem BlockTy.tryRead_took {b : BlockTy} {c c' : Cur} (hp : c.pos ≤ c.data.length) {v : Vals b.fields}
    (e : b.tryRead c = (.ok (.success v), c')) :
    (c'.data = c.data ∧ c'.pos ≤ c'.data.length) ∧ ∃ x, c.rest = x ++ c'.rest ∧ Took false ⟨b, v⟩ x := by
  unfold BlockTy.tryRead at e
  rw [Cur.remaining_ok hp] at e
  simp only at e
  split at e
  · cases e
  rename_i hl
  rw [Cur.run_readExact4 (by omega)] at e
  simp only at e
  split at e
  · cases e
  rename_i hs
  rw [Decidable.not_not] at hs
  split at e
  · cases e
  simp only [BlockTy.read, if_true, Prod.mk.injEq] at e
  obtain ⟨e1, e2⟩ := e
  obtain ⟨v', e3, hv⟩ := Out.map_eq_ok e1
  injection hv with hv
  subst hv
  obtain ⟨e4, hd, hp'⟩ := Cur.run_ok_inv (Prod.ext e3 e2) fun s' hs' => by
    obtain ⟨raw, h1, _⟩ := BlockTy.readBody_iff.mp hs'
    exact ⟨_, h1⟩
  obtain ⟨raw, h1, h2⟩ := BlockTy.readBody_iff.mp e4
  refine ⟨⟨hd, hp' ?_⟩, b.sig ++ raw ++ b.crc v', ?_, ⟨raw, rfl, h2⟩⟩
  · simp only [Cur.rest, List.length_drop] at hl ⊢; omega
  · have h5 : ({ c with pos := c.pos + 4 } : Cur).rest = c.rest.drop 4 := by simp [Cur.rest]
    rw [h5] at h1
    rw [← List.take_append_drop 4 c.rest, h1, hs]
    simp

theorem BlockTy.tryRead_sig_back {b : BlockTy} {c c' : Cur} (hp : c.pos ≤ c.data.length)
    (e : b.tryRead c = (.err .sigDismatch, c')) : c' = c := by
  unfold BlockTy.tryRead at e
  rw [Cur.remaining_ok hp] at e
  simp only at e
  split at e
  · cases e
  rename_i hl
  rw [Cur.run_readExact4 (by omega)] at e
  simp only at e
  split at e
  · injection e with _ e
    rw [← e]; rfl
  split at e
  · cases e
  simp only [BlockTy.read, if_true, Prod.mk.injEq] at e
  exfalso
  have := BlockTy.readBody_noSig b ({ c with pos := c.pos + 4 } : Cur).rest
  cases hz : (Cur.run b.readBody { c with pos := c.pos + 4 }).1 with
  | ok a => rw [hz] at e; cases e.1
  | err x =>
    rw [hz] at e
    simp only [Out.map] at e
    injection e.1 with e'
    subst e'
    exact this hz
  | panic => rw [hz] at e; cases e.1

theorem enumTryRead_took {vs : List BlockTy} {c c' : Cur} (hp : c.pos ≤ c.data.length) {v : BlockVal}
    (e : enumTryRead vs c = (.ok (.success v), c')) :
    v.1 ∈ vs ∧ (c'.data = c.data ∧ c'.pos ≤ c'.data.length) ∧ ∃ x, c.rest = x ++ c'.rest ∧ Took false v x := by
  induction vs with
  | nil => cases e
  | cons b bs ih =>
    unfold enumTryRead at e
    split at e
    · rename_i u c1 hq
      injection e with e1 e2
      injection e1 with e1
      injection e1 with e1
      subst e1; subst e2
      exact ⟨by simp, BlockTy.tryRead_took hp hq⟩
    · cases e
    · rename_i c1 hq
      have : c1 = c := BlockTy.tryRead_sig_back hp hq
      subst this
      obtain ⟨h1, h2⟩ := ih e
      exact ⟨by simp [h1], h2⟩
    · cases e
    · cases e

theorem BlockTy.readSlice_took {b : BlockTy} {buf : Bytes} {r : Referred b.fields}
    (e : b.readSlice buf false = .ok r) : ∃ x, buf = x ++ buf.drop b.ssize ∧ Took true ⟨b, r.vals⟩ x ∧ b.ssize ≤ buf.length := by
  unfold BlockTy.readSlice at e
  split at e
  · cases e
  split at e
  · cases e
  rename_i hs
  simp only [Bool.false_eq_true, not_false_eq_true, true_and, ne_eq, Decidable.not_not] at hs
  simp only [Bool.false_eq_true, if_false] at e
  split at e
  · cases e
  rename_i hl
  obtain ⟨sig, e1, e2⟩ := Out.bind_eq_ok e
  obtain ⟨⟨v, o⟩, e3, e4⟩ := Out.bind_eq_ok e2
  obtain ⟨crc, e5, e6⟩ := Out.bind_eq_ok e4
  obtain ⟨ho, hc⟩ := Vals.ofSlice_inv e3
  subst ho
  obtain ⟨hcrc, _, _, _⟩ := cut_eq_ok e5
  split at e6
  · cases e6
  rename_i hx
  rw [Decidable.not_not] at hx
  injection e6 with e6
  subst e6
  have h4 : 4 + fieldsSize b.fields + 4 - (4 + fieldsSize b.fields) = 4 := by omega
  simp only at hcrc hx ⊢
  rw [h4] at hcrc
  rw [BlockTy.ssize] at hl ⊢
  refine ⟨b.sig ++ slice buf 4 (fieldsSize b.fields) ++ b.crc v, ?_, ⟨_, rfl, hc⟩, by omega⟩
  · rw [hx, hcrc, ← hs]
    conv => lhs; rw [← List.take_append_drop 4 buf, ← List.take_append_drop (fieldsSize b.fields) (buf.drop 4),
      ← List.take_append_drop 4 ((buf.drop 4).drop (fieldsSize b.fields))]
    simp only [slice, List.drop_drop, List.append_assoc]

theorem enumReadSlice_took {vs : List BlockTy} {buf : Bytes} {r : BlockRef}
    (e : enumReadSlice false vs buf = .ok r) :
    r.1 ∈ vs ∧ ∃ x, buf = x ++ buf.drop r.size ∧ Took true r.into x ∧ r.size ≤ buf.length := by
  induction vs with
  | nil => cases e
  | cons b bs ih =>
    unfold enumReadSlice at e
    split at e
    · rename_i u hq
      injection e with e
      subst e
      exact ⟨by simp, BlockTy.readSlice_took hq⟩
    · obtain ⟨h1, h2⟩ := ih e
      exact ⟨by simp [h1], h2⟩
    · cases e
    · cases e

theorem Took.length {view : Bool} {v : BlockVal} (hv : v.1.sig.length = 4) {x : Bytes} (h : Took view v x) : x.length = v.size := by
  obtain ⟨raw, rfl, hl⟩ := h
  have : (v.1.crc v.2).length = 4 := BlockTy.crc_length _ _
  simp only [List.length_append, hv, hl.length, this, BlockVal.size, BlockTy.ssize]

/-- What the packet readers need: `In view b x` says that `x` are bytes a block reader takes for the block `b` (`view`: the zero-copy reader). -/
structure BlockOps.Inv (O : BlockOps) (In : Bool → O.B → Bytes → Prop) : Prop where
  length : ∀ {view b x}, In view b x → x.length = O.size b
  tryBuf : ∀ {cs cs' b}, O.tryBuf cs = (.ok (.success b), cs') → ∃ x, cs.flatten = x ++ cs'.flatten ∧ In false b x
  tryRead : ∀ {c c' b}, c.pos ≤ c.data.length → O.tryRead c = (.ok (.success b), c') →
    (c'.data = c.data ∧ c'.pos ≤ c'.data.length) ∧ ∃ x, c.rest = x ++ c'.rest ∧ In false b x
  readSlice : ∀ {buf r}, O.readSlice buf = .ok r →
    O.rsize r ≤ buf.length ∧ O.size (O.into r) = O.rsize r ∧ ∃ x, buf = x ++ buf.drop (O.rsize r) ∧ In true (O.into r) x

/-- Bytes of a block of a generated enum. -/
def EnumTook (vs : List BlockTy) (view : Bool) (b : BlockVal) (x : Bytes) : Prop := b.1 ∈ vs ∧ Took view b x

/-- The readers of a generated enum. -/
theorem blockEnum_inv {vs : List BlockTy} (hv : ∀ a ∈ vs, a.sig.length = 4) : (blockEnum vs).Inv (EnumTook vs) where
  length h := h.2.length (hv _ h.1)
  tryBuf e := by
    obtain ⟨h1, x, h2, h3⟩ := enumTryBuf_took hv e
    exact ⟨x, h2, h1, h3⟩
  tryRead hp e := by
    obtain ⟨h1, h0, x, h2, h3⟩ := enumTryRead_took hp e
    exact ⟨h0, x, h2, h1, h3⟩
  readSlice e := by
    obtain ⟨h1, x, h2, h3, h4⟩ := enumReadSlice_took e
    exact ⟨h4, rfl, x, h2, h1, h3⟩

/-- `x` are bytes that were taken for the blocks, one after the other. -/
inductive AllTook {B : Type} (In : B → Bytes → Prop) : List B → Bytes → Prop
  | nil : AllTook In [] []
  | cons {v x vs y} : In v x → AllTook In vs y → AllTook In (v :: vs) (x ++ y)

theorem AllTook.single {B : Type} {In : B → Bytes → Prop} {v : B} {x : Bytes} (h : In v x) : AllTook In [v] x := by
  have := AllTook.cons h .nil
  simpa using this

variable {O : BlockOps} {In : Bool → O.B → Bytes → Prop}

theorem Packet.blocksBuf_took (I : O.Inv In) {L left rd : Nat} {acc bs : List O.B}
    {cs cs' : Chunks} (e : blocksBuf O L left rd acc cs = (.ok (.success bs), cs')) :
    ∃ new x, bs = acc ++ new ∧ cs.flatten = x ++ cs'.flatten ∧ AllTook (In false) new x ∧
      rd + x.length = L ∧ new.length ≤ left + 1 := by
  induction left generalizing rd acc cs with
  | zero =>
    rw [blocksBuf.eq_def] at e
    simp only at e
    split at e
    · rename_i b c1 hq
      obtain ⟨x, hx, ht⟩ := I.tryBuf hq
      split at e
      · rename_i hL
        simp only [Prod.mk.injEq, Out.ok.injEq, Status.success.injEq] at e
        obtain ⟨rfl, rfl⟩ := e
        exact ⟨[b], x, rfl, hx, .single ht, by rw [I.length ht]; exact hL, by simp⟩
      · cases e
    · cases e
    · cases e
    · cases e
  | succ left ih =>
    rw [blocksBuf.eq_def] at e
    simp only at e
    split at e
    · rename_i b c1 hq
      obtain ⟨x, hx, ht⟩ := I.tryBuf hq
      split at e
      · rename_i hL
        simp only [Prod.mk.injEq, Out.ok.injEq, Status.success.injEq] at e
        obtain ⟨rfl, rfl⟩ := e
        exact ⟨[b], x, rfl, hx, .single ht, by rw [I.length ht]; exact hL, by simp⟩
      · obtain ⟨new, y, h1, h2, h3, h5, h6⟩ := ih e
        refine ⟨b :: new, x ++ y, by simp [h1], by rw [hx, h2]; simp, .cons ht h3, ?_, by simp; omega⟩
        rw [List.length_append, I.length ht]; omega
    · cases e
    · cases e
    · cases e

theorem Packet.blocksCur_took (I : O.Inv In) {L left rd : Nat} {acc bs : List O.B}
    {c c' : Cur} (hp : c.pos ≤ c.data.length) (e : blocksCur O L left rd acc c = (.ok (.success bs), c')) :
    (c'.data = c.data ∧ c'.pos ≤ c'.data.length) ∧
    ∃ new x, bs = acc ++ new ∧ c.rest = x ++ c'.rest ∧ AllTook (In false) new x ∧
      rd + x.length = L ∧ new.length ≤ left + 1 := by
  induction left generalizing rd acc c with
  | zero =>
    rw [blocksCur.eq_def] at e
    simp only at e
    split at e
    · rename_i b c1 hq
      obtain ⟨hp', x, hx, ht⟩ := I.tryRead hp hq
      split at e
      · rename_i hL
        simp only [Prod.mk.injEq, Out.ok.injEq, Status.success.injEq] at e
        obtain ⟨rfl, rfl⟩ := e
        exact ⟨hp', [b], x, rfl, hx, .single ht, by rw [I.length ht]; exact hL, by simp⟩
      · cases e
    · cases e
    · cases e
    · cases e
  | succ left ih =>
    rw [blocksCur.eq_def] at e
    simp only at e
    split at e
    · rename_i b c1 hq
      obtain ⟨hp', x, hx, ht⟩ := I.tryRead hp hq
      split at e
      · rename_i hL
        simp only [Prod.mk.injEq, Out.ok.injEq, Status.success.injEq] at e
        obtain ⟨rfl, rfl⟩ := e
        exact ⟨hp', [b], x, rfl, hx, .single ht, by rw [I.length ht]; exact hL, by simp⟩
      · obtain ⟨hp'', new, y, h1, h2, h3, h5, h6⟩ := ih hp'.2 e
        refine ⟨⟨hp''.1.trans hp'.1, hp''.2⟩, b :: new, x ++ y, by simp [h1], by rw [hx, h2]; simp, .cons ht h3, ?_,
          by simp; omega⟩
        rw [List.length_append, I.length ht]; omega
    · cases e
    · cases e
    · cases e

theorem Packet.slicesLoop_took (I : O.Inv In) {buf : Bytes} {L fuel rd : Nat}
    {acc rs : List O.BR} (e : slicesLoop O buf L fuel rd acc = .ok rs) :
    ∃ new x, rs = acc ++ new ∧ buf.drop rd = x ++ buf.drop L ∧ AllTook (In true) (new.map O.into) x ∧
      rd + x.length = L ∧ L ≤ buf.length := by
  induction fuel generalizing rd acc with
  | zero => cases e
  | succ fuel ih =>
    unfold slicesLoop at e
    split at e
    · cases e
    rename_i hrd
    split at e
    · rename_i r hq
      obtain ⟨hle, hsz, x, hx, ht⟩ := I.readSlice hq
      have hxl := I.length ht
      rw [List.drop_drop] at hx
      rw [List.length_drop] at hle
      split at e
      · rename_i hL
        injection e with e
        subst e
        exact ⟨[r], x, rfl, by rw [← hL]; exact hx, .single ht, by omega, by omega⟩
      · obtain ⟨new, y, h1, h2, h3, h5, h6⟩ := ih e
        refine ⟨r :: new, x ++ y, by simp [h1], by rw [hx, h2]; simp, .cons ht h3, ?_, h6⟩
        rw [List.length_append]; omega
    · cases e
    · cases e

theorem Rd.blocksLoop_took (I : O.Inv In) {buf : Bytes} {left rd : Nat}
    {acc rs : List O.BR} {f : Fin} (e : blocksLoop O buf left rd acc = (.ok rs, f)) :
    ∃ new, rs = acc ++ new ∧ AllTook (In true) (new.map O.into) (buf.drop rd) ∧ new.length ≤ left := by
  induction left generalizing rd acc with
  | zero => cases e
  | succ left ih =>
    unfold blocksLoop at e
    split at e
    · cases e
    rename_i hrd
    split at e
    · cases e
    · cases e
    · rename_i r hq
      obtain ⟨hle, hsz, x, hx, ht⟩ := I.readSlice hq
      rw [List.drop_drop] at hx
      split at e
      · cases e
      split at e
      · rename_i hL
        injection e with e
        injection e with e
        subst e
        refine ⟨[r], rfl, .single ?_, by simp⟩
        rw [hL] at hx
        rw [hx]
        simpa using ht
      · obtain ⟨new, h1, h3, h6⟩ := ih e
        exact ⟨r :: new, by simp [h1], by rw [hx]; exact .cons ht h3, by simp; omega⟩

/-! ## Payloads -/

theorem PayloadTy.read_sig {T : PayloadTy} {h : PayloadHeader} {s s' : Bytes} (e : (T.read h).run s = (.err .sigDismatch, s')) :
    h.sig ≠ T.ssig ∧ s' = s := by
  unfold PayloadTy.read at e
  split at e
  · rename_i hs
    injection e with _ e
    exact ⟨hs, e.symm⟩
  · exfalso
    have io : ∀ {α} (x : Option α), ioOut x ≠ .err .sigDismatch := by intro α x; cases x <;> simp [ioOut]
    have lift : ∀ {α} {x : Out α}, x ≠ .err .sigDismatch → (P.lift x).NoSig := fun hx s => by rw [P.lift_run]; exact hx
    have body : ∀ v, T.body v ≠ .err .sigDismatch := by
      intro v
      unfold PayloadTy.body
      cases hr : T.encodeRef v with
      | none => simp [ioOut]
      | some r => cases r with
        | none => exact io _
        | some b => simp [ioOut]
    have crc : ∀ v, T.crc v ≠ .err .sigDismatch := by
      intro v
      unfold PayloadTy.crc
      split
      · exact io _
      · have := body v
        cases hb : T.body v with
        | ok a => simp
        | err e => rw [hb] at this; simpa using this
        | panic => simp
    have : P.NoSig (do
        let bytes ← P.readExact h.len
        let value ← P.lift (ioOut (T.decode bytes))
        let crc ← P.lift (T.crc value)
        if h.crc ≠ crc then P.fail .crcDismatch else pure value) := by
      refine (P.readExact_noSig _).bind fun b => (lift (io _)).bind fun v => (lift (crc v)).bind fun c s => ?_
      split <;> simp
    exact this s (congrArg Prod.fst e)

theorem PayloadTy.read_ok {T : PayloadTy} {h : PayloadHeader} {s s' : Bytes} {v : T.Val}
    (e : (T.read h).run s = (.ok v, s')) :
    h.sig = T.ssig ∧ ∃ x, s = x ++ s' ∧ x.length = h.len ∧ T.decode x = some v ∧ T.crc v = .ok h.crc := by
  unfold PayloadTy.read at e
  split at e
  · cases e
  rename_i hs
  obtain ⟨x, t, e1, e⟩ := P.bind_eq_ok e
  obtain ⟨v', t', e2, e⟩ := P.bind_eq_ok e
  obtain ⟨c, t'', e3, e⟩ := P.bind_eq_ok e
  obtain ⟨hx, hl⟩ := P.readExact_eq_ok e1
  rw [P.lift_run] at e2 e3
  injection e2 with e2 e2'
  injection e3 with e3 e3'
  subst e2'; subst e3'
  split at e
  · cases e
  rename_i hc
  injection e with e e'
  injection e with e
  subst e; subst e'
  refine ⟨Decidable.not_not.mp hs, x, hx, hl, ?_, ?_⟩
  · cases hd : T.decode x with
    | none => rw [hd] at e2; cases e2
    | some w => rw [hd] at e2; injection e2 with e2; rw [e2]
  · rw [e3, Decidable.not_not.mp hc]

/-- `x` are bytes that were taken, behind the payload header `h`, for the payload `w` of an enum with variants `vs`: `w` is the first
variant with the signature of the header, the bytes decode to it and its checksum is the one of the header. -/
def PTook (vs : List PayloadTy) (w : PVal vs) (h : PayloadHeader) (x : Bytes) : Prop :=
  ∃ (T : PayloadTy) (u : T.Val), T ∈ vs ∧ PVal.At T u vs w ∧ h.sig = T.ssig ∧ x.length = h.len ∧ T.decode x = some u ∧
    T.crc u = .ok h.crc

theorem PTook.there {T : PayloadTy} {vs : List PayloadTy} {w : PVal vs} {h : PayloadHeader} {x : Bytes} (hs : h.sig ≠ T.ssig)
    (p : PTook vs w h x) : PTook (T :: vs) (.inr w) h x := by
  obtain ⟨T', u, h1, h2, h3, h4⟩ := p
  exact ⟨T', u, by simp [h1], .there _ _ _ (by rw [← h3]; exact hs.symm) h2, h3, h4⟩

theorem PEnum.read_took {vs : List PayloadTy} {h : PayloadHeader} {s s' : Bytes} {w : PVal vs}
    (e : (PEnum.read h vs).run s = (.ok w, s')) : ∃ x, s = x ++ s' ∧ PTook vs w h x := by
  induction vs with
  | nil => cases e
  | cons T Ts ih =>
    unfold PEnum.read at e
    simp only at e
    split at e
    · rename_i v t hq
      injection e with e1 e2
      injection e1 with e1
      subst e1; subst e2
      obtain ⟨hs, x, hx, hl, hd, hc⟩ := PayloadTy.read_ok hq
      exact ⟨x, hx, T, v, by simp, .here _, hs, hl, hd, hc⟩
    · rename_i t hq
      obtain ⟨hs, rfl⟩ := PayloadTy.read_sig hq
      simp only [Prod.mk.injEq] at e
      obtain ⟨e1, e2⟩ := e
      obtain ⟨w', e3, rfl⟩ := Out.map_eq_ok e1
      obtain ⟨x, hx, hp⟩ := ih (Prod.ext e3 e2)
      exact ⟨x, hx, hp.there hs⟩
    · cases e
    · cases e

theorem PEnum.tryBuf_took {vs : List PayloadTy} {h : PayloadHeader} {cs cs' : Chunks} {w : PVal vs}
    (e : PEnum.tryBuf h vs cs = (.ok (.success w), cs')) : ∃ x, cs.flatten = x ++ cs'.flatten ∧ PTook vs w h x := by
  induction vs generalizing cs with
  | nil => cases e
  | cons T Ts ih =>
    unfold PEnum.tryBuf at e
    split at e
    · rename_i v t hq
      injection e with e1 e2
      injection e1 with e1
      injection e1 with e1
      subst e1; subst e2
      simp only [PayloadTy.tryBuf, Prod.mk.injEq] at hq
      obtain ⟨v', e3, e4⟩ := Out.map_eq_ok hq.1
      injection e4 with e4
      subst e4
      have e5 := Chunks.run_ok_inv (Prod.ext e3 hq.2) fun s' hs' => by
        obtain ⟨_, x, hx, _⟩ := PayloadTy.read_ok hs'
        exact ⟨x, hx⟩
      obtain ⟨hs, x, hx, hl, hd, hc⟩ := PayloadTy.read_ok e5
      exact ⟨x, hx, T, v', by simp, .here _, hs, hl, hd, hc⟩
    · cases e
    · rename_i t hq
      simp only [PayloadTy.tryBuf, Prod.mk.injEq, Chunks.run] at hq
      have hq1 : ((T.read h).run cs.flatten).1 = .err .sigDismatch := by
        cases hz : ((T.read h).run cs.flatten).1 with
        | ok a => rw [hz] at hq; cases hq.1
        | err x => rw [hz] at hq; simpa using hq.1
        | panic => rw [hz] at hq; cases hq.1
      have hs := (PayloadTy.read_sig (Prod.ext hq1 rfl)).1
      have he : ((T.read h).run cs.flatten).snd = cs.flatten := (PayloadTy.read_sig (Prod.ext hq1 rfl)).2
      have hf : t.flatten = cs.flatten := by
        rw [← hq.2, Chunks.flatten_skip, he]
        simp
      simp only [Prod.mk.injEq] at e
      obtain ⟨e1, e2⟩ := e
      split at e1
      · rename_i w' hw
        injection e1 with e1
        injection e1 with e1
        subst e1
        obtain ⟨x, hx, hp⟩ := ih (Prod.ext hw e2)
        exact ⟨x, by rw [← hf]; exact hx, hp.there hs⟩
      · cases e1
      · cases e1
      · cases e1
    · cases e
    · cases e

theorem PEnum.tryRead_took {vs : List PayloadTy} {h : PayloadHeader} {c c' : Cur} (hp : c.pos ≤ c.data.length) {w : PVal vs}
    (e : PEnum.tryRead h vs c = (.ok (.success w), c')) : ∃ x, c.rest = x ++ c'.rest ∧ PTook vs w h x := by
  induction vs generalizing c with
  | nil => cases e
  | cons T Ts ih =>
    unfold PEnum.tryRead at e
    split at e
    · rename_i v t hq
      injection e with e1 e2
      injection e1 with e1
      injection e1 with e1
      subst e1; subst e2
      unfold PayloadTy.tryRead at hq
      rw [Cur.remaining_ok hp] at hq
      simp only at hq
      split at hq
      · cases hq
      simp only [Prod.mk.injEq] at hq
      obtain ⟨v', e3, e4⟩ := Out.map_eq_ok hq.1
      injection e4 with e4
      subst e4
      obtain ⟨e5, _⟩ := Cur.run_ok_inv (Prod.ext e3 hq.2) fun s' hs' => by
        obtain ⟨_, x, hx, _⟩ := PayloadTy.read_ok hs'
        exact ⟨x, hx⟩
      obtain ⟨hs, x, hx, hl, hd, hc⟩ := PayloadTy.read_ok e5
      exact ⟨x, hx, T, v', by simp, .here _, hs, hl, hd, hc⟩
    · cases e
    · rename_i t hq
      unfold PayloadTy.tryRead at hq
      rw [Cur.remaining_ok hp] at hq
      simp only at hq
      split at hq
      · cases hq
      simp only [Prod.mk.injEq, Cur.run] at hq
      have hq1 : ((T.read h).run c.rest).1 = .err .sigDismatch := by
        cases hz : ((T.read h).run c.rest).1 with
        | ok a => rw [hz] at hq; cases hq.1
        | err x => rw [hz] at hq; simpa using hq.1
        | panic => rw [hz] at hq; cases hq.1
      have hs := (PayloadTy.read_sig (Prod.ext hq1 rfl)).1
      have he : ((T.read h).run c.rest).snd = c.rest := (PayloadTy.read_sig (Prod.ext hq1 rfl)).2
      have hf : t = c := by
        rw [← hq.2, he]
        simp
      subst hf
      simp only [Prod.mk.injEq] at e
      obtain ⟨e1, e2⟩ := e
      split at e1
      · rename_i w' hw
        injection e1 with e1
        injection e1 with e1
        subst e1
        obtain ⟨x, hx, hp⟩ := ih hp (Prod.ext hw e2)
        exact ⟨x, hx, hp.there hs⟩
      · cases e1
      · cases e1
      · cases e1
    · cases e
    · cases e

namespace PayloadHeader

theorem Safe.next_inv {n : Nat} {r r' : Safe} {b : Bytes} (e : Safe.next n r = (.ok (.success b), r')) :
    r.buf.rest = b ++ r'.buf.rest ∧ b.length = n ∧ r'.buf.data = r.buf.data ∧
      (r.buf.pos ≤ r.buf.data.length → r'.buf.pos ≤ r'.buf.data.length) := by
  unfold Safe.next at e
  split at e
  · cases e
  split at e
  · rename_i b' buf hq
    injection e with e1 e2
    injection e1 with e1
    injection e1 with e1
    subst e1; subst e2
    obtain ⟨h1, h2, h3⟩ := Cur.run_ok_inv hq fun s' hs' => ⟨b', (P.readExact_eq_ok hs').1⟩
    obtain ⟨h4, h5⟩ := P.readExact_eq_ok h1
    exact ⟨h4, h5, h2, h3⟩
  · cases e
  · cases e

theorem Safe.andThen_inv {α β} {x : Out (Status α) × Safe} {f : α → Safe → Out (Status β) × Safe} {b : β} {r' : Safe}
    (e : Safe.andThen x f = (.ok (.success b), r')) : ∃ a r, x = (.ok (.success a), r) ∧ f a r = (.ok (.success b), r') := by
  unfold Safe.andThen at e
  split at e
  · exact ⟨_, _, rfl, e⟩
  · cases e
  · cases e
  · cases e

theorem Safe.orErr_inv {α β} {x : Out α} {r : Safe} {f : α → Out (Status β) × Safe} {b : β} {r' : Safe}
    (e : Safe.orErr x r f = (.ok (.success b), r')) : ∃ a, x = .ok a ∧ f a = (.ok (.success b), r') := by
  unfold Safe.orErr at e
  split at e
  · exact ⟨_, rfl, e⟩
  · cases e
  · cases e

theorem tryRead_canon {c c' : Cur} (hp : c.pos ≤ c.data.length) {h : PayloadHeader} (e : tryRead c = (.ok (.success h), c')) :
    c.rest = h.asVec ++ c'.rest ∧ h.len < 2 ^ 32 ∧ c'.data = c.data ∧ c'.pos ≤ c'.data.length := by
  unfold tryRead at e
  rw [Cur.remaining_ok hp] at e
  simp only [Prod.mk.injEq] at e
  obtain ⟨e1, e2⟩ := e
  generalize ho : Safe.andThen _ _ = out at e1 e2
  obtain ⟨o, r'⟩ := out
  simp only at e1 e2
  subst e1; subst e2
  obtain ⟨sl, r1, e1, ho⟩ := Safe.andThen_inv ho
  obtain ⟨_, v1, ho⟩ := Safe.orErr_inv ho
  obtain ⟨sig, r2, e2, ho⟩ := Safe.andThen_inv ho
  obtain ⟨cl, r3, e3, ho⟩ := Safe.andThen_inv ho
  obtain ⟨_, v2, ho⟩ := Safe.orErr_inv ho
  obtain ⟨crc, r4, e4, ho⟩ := Safe.andThen_inv ho
  obtain ⟨ln, r5, e5, ho⟩ := Safe.andThen_inv ho
  obtain ⟨crcB, v3, ho⟩ := Safe.orErr_inv ho
  obtain ⟨sigB, v4, ho⟩ := Safe.orErr_inv ho
  simp only [Prod.mk.injEq, Out.ok.injEq, Status.success.injEq] at ho
  obtain ⟨rfl, rfl⟩ := ho
  obtain ⟨f1, l1, d1, p1⟩ := Safe.next_inv e1
  obtain ⟨f2, l2, d2, p2⟩ := Safe.next_inv e2
  obtain ⟨f3, l3, d3, p3⟩ := Safe.next_inv e3
  obtain ⟨f4, l4, d4, p4⟩ := Safe.next_inv e4
  obtain ⟨f5, l5, d5, p5⟩ := Safe.next_inv e5
  simp only at f1 d1 p1
  have tf : ∀ {v : Bytes} {b : ByteBlock}, ByteBlock.tryFrom v = .ok b → b.asSlice = v := by
    intro v b hb
    by_cases hl : ByteBlock.Legal v.length
    · obtain ⟨b', e, h⟩ := ByteBlock.tryFrom_legal hl
      rw [hb] at e; injection e with e; rw [e]; exact h
    · rw [ByteBlock.tryFrom_illegal hl] at hb; cases hb
  have h8 := tf v3
  have h9 := tf v4
  obtain ⟨x1, rfl⟩ := single_of_length l1
  obtain ⟨x3, rfl⟩ := single_of_length l3
  rw [byte0_single] at l2 l4
  refine ⟨?_, ?_, ?_, p5 (p4 (p3 (p2 (p1 hp))))⟩
  · simp only [asVec, h8, h9, l2, l4]
    rw [f1, f2, f3, f4, f5, leBytes_leNat' l5]
    simp
  · have := leNat_lt ln
    rw [l5] at this
    simpa using this
  · rw [d5, d4, d3, d2, d1]

end PayloadHeader

/-! ## Packets -/

/-- What the packet readers need: `PIn w h x` says that `x` are bytes a payload reader takes for `w` behind the header `h`. -/
structure PayloadOps.Inv (Q : PayloadOps) (PIn : Q.V → PayloadHeader → Bytes → Prop) : Prop where
  read : ∀ {h s s' w}, (Q.read h).run s = (.ok w, s') → ∃ x, s = x ++ s' ∧ PIn w h x
  tryBuf : ∀ {h cs cs' w}, Q.tryBuf h cs = (.ok (.success w), cs') → ∃ x, cs.flatten = x ++ cs'.flatten ∧ PIn w h x
  tryRead : ∀ {h c c' w}, c.pos ≤ c.data.length → Q.tryRead h c = (.ok (.success w), c') → ∃ x, c.rest = x ++ c'.rest ∧ PIn w h x

theorem PEnum.ops_inv (ps : List PayloadTy) : (PEnum.ops ps).Inv (PTook (ps ++ [bytesTy, stringTy])) where
  read e := PEnum.read_took e
  tryBuf e := PEnum.tryBuf_took e
  tryRead hp e := PEnum.tryRead_took hp e

/-- `pb` are bytes that were taken for the payload part of a packet. -/
def PartTook {Q : PayloadOps} (PIn : Q.V → PayloadHeader → Bytes → Prop) : Option Q.V → Bytes → Prop
  | none, pb => pb = []
  | some w, pb => ∃ ph x, pb = ph.asVec ++ x ∧ ph.len < 2 ^ 32 ∧ PIn w ph x

namespace Packet

variable {Q : PayloadOps} {PIn : Q.V → PayloadHeader → Bytes → Prop}

/-- `bl` and `pb` are bytes that were taken for the blocks and the payload of `p` under the packet header `h`. -/
structure Taken (In : O.B → Bytes → Prop) (PIn : Q.V → PayloadHeader → Bytes → Prop) (h : PacketHeader) (p : Packet O Q)
    (bl pb : Bytes) : Prop where
  blocks : AllTook In p.blocks bl
  payload : PartTook PIn p.payload pb
  blocksLen : h.blocksLen = bl.length
  flag : h.payload = p.payload.isSome

theorem ofInner_took (I : O.Inv In) (J : Q.Inv PIn) {h : PacketHeader} {inner : Bytes} {p : Packet O Q}
    (e : ofInner Q h inner = .ok p) :
    ∃ bl pb junk, inner = bl ++ pb ++ junk ∧ Taken (In false) PIn h p bl pb ∧ p.blocks.length ≤ 256 := by
  unfold ofInner at e
  simp only at e
  generalize hr : (if h.blocksLen > 0 then blocksBuf O h.blocksLen MAX_BLOCKS 0 [] [inner] else (.ok (.success []), [inner])) = r at e
  obtain ⟨o, cs⟩ := r
  simp only at e
  split at e
  · rename_i bs
    have hb : ∃ bl, inner = bl ++ cs.flatten ∧ AllTook (In false) bs bl ∧ h.blocksLen = bl.length ∧ bs.length ≤ 256 := by
      split at hr
      · obtain ⟨new, x, h1, h2, h3, h4, h5⟩ := blocksBuf_took I hr
        rw [List.nil_append] at h1
        subst h1
        exact ⟨x, by simpa using h2, h3, by omega, h5⟩
      · simp only [Prod.mk.injEq, Out.ok.injEq, Status.success.injEq] at hr
        obtain ⟨rfl, rfl⟩ := hr
        exact ⟨[], by simp, .nil, by simp; omega, by simp⟩
    obtain ⟨bl, h1, h2, h3, h4⟩ := hb
    split at e
    · rename_i hf
      split at e
      · rename_i ph cs1 hq
        have hq1 := Chunks.run_ok_inv hq fun s' hs' => ⟨_, (PayloadHeader.read_canon hs').1⟩
        obtain ⟨h5, h6⟩ := PayloadHeader.read_canon hq1
        obtain ⟨w, e1, rfl⟩ := Out.map_eq_ok e
        obtain ⟨x, h7, h8⟩ := J.read (s' := ((Q.read ph).run cs1.flatten).2) (Prod.ext e1 rfl)
        refine ⟨bl, ph.asVec ++ x, ((Q.read ph).run cs1.flatten).2, ?_, ⟨h2, ⟨ph, x, rfl, h6, h8⟩, h3, hf⟩, h4⟩
        rw [h1, h5]
        conv => lhs; rw [h7]
        simp
      · cases e
      · cases e
    · rename_i hf
      injection e with e
      subst e
      exact ⟨bl, [], cs.flatten, by rw [h1]; simp, ⟨h2, rfl, h3, by simpa using hf⟩, h4⟩
  · cases e
  · cases e
  · cases e

/-- What `read` took. -/
theorem read_took (I : O.Inv In) (J : Q.Inv PIn) {s s' : Bytes} {p : Packet O Q} (e : (Packet.read Q).run s = (.ok p, s')) :
    ∃ (h : PacketHeader) (flag : Byte) (bl pb junk : Bytes), h.payload = (flag == 1) ∧ h.WF ∧
      s = PacketHeader.raw h.size h.blocksLen flag (PacketHeader.crcOf h.size h.blocksLen h.payload) ++ (bl ++ pb ++ junk) ++ s' ∧
      h.size = (bl ++ pb ++ junk).length ∧ Taken (In false) PIn h p bl pb ∧ p.blocks.length ≤ 256 ∧ h.size < 2 ^ 63 := by
  obtain ⟨h, s1, e1, f1⟩ := P.bind_eq_ok e
  obtain ⟨_, s2, e2, f2⟩ := P.bind_eq_ok f1
  obtain ⟨inner, s3, e3, f3⟩ := P.bind_eq_ok f2
  clear e f1 f2
  have e := f3
  clear f3
  obtain ⟨flag, h1, h2, h3⟩ := PacketHeader.read_eq_ok e1
  rw [P.lift_run] at e2 e
  injection e2 with e2' e2
  have hsm : h.size < 2 ^ 63 := by
    unfold allocZeroed at e2'
    split at e2'
    · assumption
    · cases e2'
  injection e with e e4
  subst e2; subst e4
  obtain ⟨h4, h5⟩ := P.readExact_eq_ok e3
  obtain ⟨bl, pb, junk, h6, h7, h8⟩ := ofInner_took I J e
  subst h6
  exact ⟨h, flag, bl, pb, junk, h1, h2, by rw [h3, h4]; simp, h5.symm, h7, h8, hsm⟩

theorem look_took (I : O.Inv In) (J : Q.Inv PIn) {rules : Rules O.BR (Packet O Q)} {h : PacketHeader} {buf : Bytes} {n : Nat} {p : Packet O Q}
    (e : look Q rules h buf = .ok (.accepted n p)) : ∃ bl pb junk, buf = bl ++ pb ++ junk ∧ Taken (In true) PIn h p bl pb ∧ n = h.size := by
  unfold look at e
  obtain ⟨rs, e1, e⟩ := Out.bind_eq_ok e
  have hb : ∃ bl, buf = bl ++ buf.drop h.blocksLen ∧ AllTook (In true) (rs.map O.into) bl ∧ h.blocksLen = bl.length := by
    split at e1
    · obtain ⟨new, x, h1, h2, h3, h4, h5⟩ := slicesLoop_took I e1
      rw [List.nil_append] at h1
      subst h1
      exact ⟨x, by simpa using h2, h3, by omega⟩
    · injection e1 with e1
      subst e1
      have : h.blocksLen = 0 := by omega
      exact ⟨[], by simp [this], .nil, by simp; omega⟩
  obtain ⟨bl, h1, h2, h3⟩ := hb
  have fin : ∀ {q : Packet O Q}, (if rules.filter q = true then (.ok (.accepted h.size q) : Out (Look (Packet O Q))) else .ok (.denied h.size)) =
      .ok (.accepted n p) → p = q ∧ n = h.size := by
    intro q hq
    split at hq
    · injection hq with hq
      injection hq with a b
      exact ⟨b.symm, a.symm⟩
    · cases hq
  split at e
  · cases e
  simp only at e
  split at e
  · rename_i hf
    split at e
    · cases e
    split at e
    · rename_i ph hq
      have hfc : Chunks.fill [buf.drop h.blocksLen] = buf.drop h.blocksLen := by
        cases buf.drop h.blocksLen <;> rfl
      rw [hfc] at hq
      obtain ⟨s, h5, h6⟩ := PayloadHeader.peek_canon hq
      split at e
      · cases e
      split at e
      · cases e
      split at e
      · rename_i w hw
        obtain ⟨rfl, rfl⟩ := fin e
        obtain ⟨x, h7, h8⟩ := J.tryBuf (cs' := (Q.tryBuf ph [buf.drop (h.blocksLen + ph.size)]).2) (Prod.ext hw rfl)
        rw [← List.drop_drop, h5, ← PayloadHeader.size_eq] at h7
        simp only [List.drop_left, List.flatten_cons, List.flatten_nil, List.append_nil] at h7
        refine ⟨bl, ph.asVec ++ x, (Q.tryBuf ph [s]).2.flatten, ?_, ⟨h2, ⟨ph, x, rfl, h6, h8⟩, h3, hf⟩, rfl⟩
        rw [h1, h5]
        conv => lhs; rw [h7]
        simp
      · cases e
      · cases e
      · cases e
    · cases e
    · cases e
    · cases e
  · rename_i hf
    obtain ⟨rfl, rfl⟩ := fin e
    exact ⟨bl, [], buf.drop h.blocksLen, by simpa using h1, ⟨h2, rfl, h3, by simpa using hf⟩, rfl⟩

theorem filtered_took (I : O.Inv In) (J : Q.Inv PIn) {rules : Rules O.BR (Packet O Q)} {s s' : Bytes} {n : Nat} {p : Packet O Q}
    (e : (Packet.filtered Q rules).run s = (.ok (.accepted n p), s')) :
    ∃ (h : PacketHeader) (flag : Byte) (bl pb junk : Bytes), h.payload = (flag == 1) ∧ h.WF ∧
      s = PacketHeader.raw h.size h.blocksLen flag (PacketHeader.crcOf h.size h.blocksLen h.payload) ++ (bl ++ pb ++ junk) ++ s' ∧
      h.size = (bl ++ pb ++ junk).length ∧ Taken (In true) PIn h p bl pb ∧ h.size < 2 ^ 63 := by
  obtain ⟨h, s1, e1, f1⟩ := P.bind_eq_ok e
  obtain ⟨_, s2, e2, f2⟩ := P.bind_eq_ok f1
  obtain ⟨inner, s3, e3, f3⟩ := P.bind_eq_ok f2
  clear e f1 f2
  have e := f3
  clear f3
  obtain ⟨flag, h1, h2, h3⟩ := PacketHeader.read_eq_ok e1
  rw [P.lift_run] at e2 e
  injection e2 with e2' e2
  have hsm : h.size < 2 ^ 63 := by
    unfold allocZeroed at e2'
    split at e2'
    · assumption
    · cases e2'
  injection e with e e4
  subst e2; subst e4
  obtain ⟨h4, h5⟩ := P.readExact_eq_ok e3
  obtain ⟨bl, pb, junk, h6, h7, _⟩ := look_took I J e
  subst h6
  exact ⟨h, flag, bl, pb, junk, h1, h2, by rw [h3, h4]; simp, h5.symm, h7, hsm⟩

theorem tryBuf_took (I : O.Inv In) (J : Q.Inv PIn) {cs cs' : Chunks} {p : Packet O Q}
    (e : Packet.tryBuf Q cs = (.ok (.success p), cs')) :
    ∃ (h : PacketHeader) (flag : Byte) (bl pb : Bytes), h.payload = (flag == 1) ∧ h.WF ∧
      cs.flatten = PacketHeader.raw h.size h.blocksLen flag (PacketHeader.crcOf h.size h.blocksLen h.payload) ++ (bl ++ pb) ++ cs'.flatten ∧
      Taken (In false) PIn h p bl pb ∧ p.blocks.length ≤ 256 ∧ h.size ≤ (Chunks.fill cs).length := by
  unfold Packet.tryBuf at e
  simp only at e
  split at e
  · cases e
  rename_i hl
  split at e
  · cases e
  · cases e
  rename_i h hh
  split at e
  · cases e
  rename_i hsz
  obtain ⟨flag, k1, k2, k3⟩ := PacketHeader.read_eq_ok (PacketHeader.readSlice_eq_read hh)
  have k4 : cs.flatten = PacketHeader.raw h.size h.blocksLen flag (PacketHeader.crcOf h.size h.blocksLen h.payload) ++
      (Chunks.consume HSIZE cs).flatten := by
    rw [Chunks.flatten_consume (by omega)]
    obtain ⟨t, ht⟩ := Chunks.fill_prefix cs
    have hr : (PacketHeader.raw h.size h.blocksLen flag (PacketHeader.crcOf h.size h.blocksLen h.payload)).length = HSIZE := by
      simp [PacketHeader.raw, PACKET_SIG_length, PacketHeader.crcOf_length, HSIZE]
    rw [← ht, k3, List.append_assoc, ← hr, List.drop_left]
  generalize hr : (if h.blocksLen > 0 then blocksBuf O h.blocksLen MAX_BLOCKS 0 [] (Chunks.consume HSIZE cs)
    else (.ok (.success []), Chunks.consume HSIZE cs)) = r at e
  obtain ⟨o, cs1⟩ := r
  simp only at e
  split at e
  · rename_i bs
    have hb : ∃ bl, (Chunks.consume HSIZE cs).flatten = bl ++ cs1.flatten ∧ AllTook (In false) bs bl ∧ h.blocksLen = bl.length ∧ bs.length ≤ 256 := by
      split at hr
      · obtain ⟨new, x, h1, h2, h3, h4, h5⟩ := blocksBuf_took I hr
        rw [List.nil_append] at h1
        subst h1
        exact ⟨x, h2, h3, by omega, h5⟩
      · simp only [Prod.mk.injEq, Out.ok.injEq, Status.success.injEq] at hr
        obtain ⟨rfl, rfl⟩ := hr
        exact ⟨[], by simp, .nil, by simp; omega, by simp⟩
    obtain ⟨bl, h1, h2, h3, h4⟩ := hb
    split at e
    · rename_i hf
      split at e
      · rename_i ph cs2 hq
        simp only [PayloadHeader.tryBuf, Prod.mk.injEq] at hq
        obtain ⟨hq, rfl⟩ := hq
        obtain ⟨s, h5, h6⟩ := PayloadHeader.peek_canon hq
        have h5' : cs1.flatten = ph.asVec ++ (Chunks.consume ph.size cs1).flatten := by
          have hfl := congrArg List.length h5
          rw [List.length_append, PayloadHeader.size_eq] at hfl
          rw [Chunks.flatten_consume (by omega)]
          obtain ⟨t, ht⟩ := Chunks.fill_prefix cs1
          rw [← ht, h5, List.append_assoc, ← PayloadHeader.size_eq, List.drop_left]
        split at e
        · rename_i w cs3 hw
          simp only [Prod.mk.injEq, Out.ok.injEq, Status.success.injEq] at e
          obtain ⟨rfl, rfl⟩ := e
          obtain ⟨x, h7, h8⟩ := J.tryBuf hw
          exact ⟨h, flag, bl, ph.asVec ++ x, k1, k2, by rw [k4, h1, h5', h7]; simp, ⟨h2, ⟨ph, x, rfl, h6, h8⟩, h3, hf⟩, h4, by omega⟩
        · cases e
        · cases e
        · cases e
      · cases e
      · cases e
      · cases e
    · rename_i hf
      simp only [Prod.mk.injEq, Out.ok.injEq, Status.success.injEq] at e
      obtain ⟨rfl, rfl⟩ := e
      exact ⟨h, flag, bl, [], k1, k2, by rw [k4, h1]; simp, ⟨h2, rfl, h3, by simpa using hf⟩, h4, by omega⟩
  · cases e
  · cases e
  · cases e

theorem tryRead_took (I : O.Inv In) (J : Q.Inv PIn) {c c' : Cur} (hp : c.pos ≤ c.data.length) {p : Packet O Q}
    (e : Packet.tryRead Q c = (.ok (.success p), c')) :
    ∃ (h : PacketHeader) (flag : Byte) (bl pb : Bytes), h.payload = (flag == 1) ∧ h.WF ∧
      c.rest = PacketHeader.raw h.size h.blocksLen flag (PacketHeader.crcOf h.size h.blocksLen h.payload) ++ (bl ++ pb) ++ c'.rest ∧
      Taken (In false) PIn h p bl pb ∧ p.blocks.length ≤ 256 ∧ h.size ≤ c.rest.length := by
  unfold Packet.tryRead at e
  rw [Cur.remaining_ok hp] at e
  simp only at e
  split at e
  · cases e
  · cases e
  · cases e
  rename_i h c1 hh
  split at e
  · cases e
  rename_i hsz
  have hhdr : ∃ flag : Byte, h.payload = (flag == 1) ∧ h.WF ∧ c.rest = PacketHeader.raw h.size h.blocksLen flag
      (PacketHeader.crcOf h.size h.blocksLen h.payload) ++ c1.rest ∧ c1.pos ≤ c1.data.length := by
    unfold PacketHeader.tryRead at hh
    rw [Cur.remaining_ok hp] at hh
    simp only at hh
    split at hh
    · cases hh
    simp only [Prod.mk.injEq] at hh
    obtain ⟨v', e3, e4⟩ := Out.map_eq_ok hh.1
    injection e4 with e4
    subst e4
    obtain ⟨e5, _, hp1⟩ := Cur.run_ok_inv (Prod.ext e3 hh.2) fun s' hs' => by
      obtain ⟨f, _, _, hx⟩ := PacketHeader.read_eq_ok hs'
      exact ⟨_, hx⟩
    obtain ⟨f, h1, h2, h3⟩ := PacketHeader.read_eq_ok e5
    exact ⟨f, h1, h2, h3, hp1 hp⟩
  obtain ⟨flag, k1, k2, k4, hp1⟩ := hhdr
  generalize hr : (if h.blocksLen > 0 then blocksCur O h.blocksLen MAX_BLOCKS 0 [] c1 else (.ok (.success []), c1)) = r at e
  obtain ⟨o, c2⟩ := r
  simp only at e
  split at e
  · rename_i bs
    have hb : ∃ bl, c1.rest = bl ++ c2.rest ∧ AllTook (In false) bs bl ∧ h.blocksLen = bl.length ∧ bs.length ≤ 256 ∧ c2.pos ≤ c2.data.length := by
      split at hr
      · obtain ⟨hp2, new, x, h1, h2, h3, h4, h5⟩ := blocksCur_took I hp1 hr
        rw [List.nil_append] at h1
        subst h1
        exact ⟨x, h2, h3, by omega, h5, hp2.2⟩
      · simp only [Prod.mk.injEq, Out.ok.injEq, Status.success.injEq] at hr
        obtain ⟨rfl, rfl⟩ := hr
        exact ⟨[], by simp, .nil, by simp; omega, by simp, hp1⟩
    obtain ⟨bl, h1, h2, h3, h4, hp2⟩ := hb
    unfold payloadCur at e
    split at e
    · rename_i hf
      split at e
      · rename_i ph c3 hq
        obtain ⟨h5, h6, _, hp3⟩ := PayloadHeader.tryRead_canon hp2 hq
        split at e
        · rename_i w c4 hw
          simp only [Prod.mk.injEq, Out.ok.injEq, Status.success.injEq] at e
          obtain ⟨rfl, rfl⟩ := e
          obtain ⟨x, h7, h8⟩ := J.tryRead hp3 hw
          exact ⟨h, flag, bl, ph.asVec ++ x, k1, k2, by rw [k4, h1, h5, h7]; simp, ⟨h2, ⟨ph, x, rfl, h6, h8⟩, h3, hf⟩, h4, by omega⟩
        · cases e
        · cases e
        · cases e
      · cases e
      · cases e
      · cases e
    · rename_i hf
      simp only [Prod.mk.injEq, Out.ok.injEq, Status.success.injEq] at e
      obtain ⟨rfl, rfl⟩ := e
      exact ⟨h, flag, bl, [], k1, k2, by rw [k4, h1]; simp, ⟨h2, rfl, h3, by simpa using hf⟩, h4, by omega⟩
  · cases e
  · cases e
  · cases e

end Packet

namespace Rd

variable {Q : PayloadOps} {PIn : Q.V → PayloadHeader → Bytes → Prop}

theorem parse_took (I : O.Inv In) (J : Q.Inv PIn) {rules : Rules O.BR (Packet O Q)} {h : PacketHeader} {buf : Bytes} {p : Packet O Q} {f : Fin}
    (e : parse rules h buf = (.ok (.found p), f)) :
    ∃ bl pb junk, buf = bl ++ pb ++ junk ∧ Packet.Taken (In true) PIn h p bl pb ∧ p.blocks.length ≤ 255 := by
  unfold parse at e
  split at e
  · cases e
  rename_i hle
  simp only at e
  generalize hr : (if buf.take h.blocksLen = [] then (.ok [], .dropConsume) else blocksLoop O (buf.take h.blocksLen) MAX_BLOCKS 0 []) = r at e
  obtain ⟨o, f1⟩ := r
  simp only at e
  split at e
  · rename_i rs
    have hb : AllTook (In true) (rs.map O.into) (buf.take h.blocksLen) ∧ rs.length ≤ 255 := by
      split at hr
      · rename_i hn
        simp only [Prod.mk.injEq, Out.ok.injEq] at hr
        obtain ⟨rfl, rfl⟩ := hr
        rw [hn]
        exact ⟨.nil, by simp⟩
      · obtain ⟨new, h1, h2, h3⟩ := blocksLoop_took I hr
        rw [List.nil_append] at h1
        subst h1
        exact ⟨by simpa using h2, h3⟩
    obtain ⟨h2, h4⟩ := hb
    have h3 : h.blocksLen = (buf.take h.blocksLen).length := by simp; omega
    have h4' : (rs.map O.into).length ≤ 255 := by simpa using h4
    unfold parsePayload at e
    have fin : ∀ {q : Packet O Q}, (if rules.filter q = true then ((.ok (.found q), .dropConsume) : Out (Next (Packet O Q)) × Fin)
        else (.ok .skipped, .dropConsume)) = (.ok (.found p), f) → p = q := by
      intro q hq
      split at hq
      · simp only [Prod.mk.injEq, Out.ok.injEq, Next.found.injEq] at hq
        exact hq.1.symm
      · cases hq
    split at e
    · cases e
    simp only at e
    split at e
    · rename_i hf
      split at e
      · rename_i ph cs hq
        simp only [PayloadHeader.tryBuf, Prod.mk.injEq] at hq
        have hfc : Chunks.fill [buf.drop h.blocksLen] = buf.drop h.blocksLen := by
          cases buf.drop h.blocksLen <;> rfl
        rw [hfc] at hq
        obtain ⟨s, h5, h6⟩ := PayloadHeader.peek_canon hq.1
        split at e
        · cases e
        split at e
        · cases e
        split at e
        · rename_i w cs' hw
          have := fin e
          subst this
          obtain ⟨x, h7, h8⟩ := J.tryBuf hw
          rw [← List.drop_drop, h5, ← PayloadHeader.size_eq] at h7
          simp only [List.drop_left, List.flatten_cons, List.flatten_nil, List.append_nil] at h7
          refine ⟨_, ph.asVec ++ x, cs'.flatten, ?_, ⟨h2, ⟨ph, x, rfl, h6, h8⟩, h3, hf⟩, h4'⟩
          conv => lhs; rw [← List.take_append_drop h.blocksLen buf, h5, h7]
          simp
        · cases e
        · cases e
        · cases e
      · cases e
      · cases e
      · cases e
    · rename_i hf
      have := fin e
      subst this
      exact ⟨_, [], buf.drop h.blocksLen, by simp, ⟨h2, rfl, h3, by simpa using hf⟩, h4'⟩
  · cases e
  · cases e

/-- Whatever state the buffered reader is in: a packet it returns was parsed from some buffer. -/
theorem read_found {rules : Rules O.BR (Packet O Q)} {chk : Bool} {r r' : Rd} {p : Packet O Q}
    (e : Rd.read rules chk r = (.ok (.found p), r')) : ∃ h buf f, parse rules h buf = (.ok (.found p), f) ∧ buf.length = h.size ∧
      (r.recent = .ready h ∨ ∃ all start stop, r.src.fill.1 = some all ∧ readHeader all = .ok (.found h start stop)) := by
  have fin : ∀ {h : PacketHeader} {buf : Bytes} {n : Nat} {q : Rd}, finish rules h buf n q = (.ok (.found p), r') →
      parse rules h buf = (.ok (.found p), (parse rules h buf).2) := by
    intro h buf n q hq
    unfold finish at hq
    simp only at hq
    have : (parse rules h buf).1 = .ok (.found p) := by
      split at hq <;> exact congrArg Prod.fst hq
    exact Prod.ext this rfl
  unfold Rd.read at e
  split at e
  · rename_i h hrec
    unfold readReady at e
    split at e
    · cases e
    simp only at e
    split at e
    · cases e
    split at e
    · cases e
    exact ⟨_, _, _, fin e, by simp; omega, .inl hrec⟩
  · unfold readRefill at e
    split at e
    · cases e
    · cases e
    simp only at e
    split at e
    · cases e
    split at e
    · cases e
    · cases e
    · split at e <;> cases e
    · unfold refillAll at e
      split at e
      · cases e
      · cases e
      · split at e <;> cases e
      · cases e
      · cases e
  · unfold readEmpty at e
    split at e
    · cases e
    · cases e
    rename_i hfill
    simp only at e
    split at e
    · cases e
    split at e
    · cases e
    · cases e
    · cases e
    · cases e
    · rename_i hrh
      split at e
      · cases e
      split at e
      · cases e
      refine ⟨_, _, _, fin e, ?_, .inr ⟨_, _, _, congrArg Prod.fst hfill, hrh⟩⟩
      simp only [slice, List.length_take, List.length_drop]; omega

end Rd

end Brec
