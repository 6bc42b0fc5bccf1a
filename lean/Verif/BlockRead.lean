import Verif.BlockLemmas
/-!
# More about block readers: inversion, incomplete input, dispatch
-/

namespace Brec

/-! ## Inversion: what was read is a re-encoding of the raw bytes -/

theorem single_of_length {b : Bytes} (h : b.length = 1) : ∃ x, b = [x] := by
  match b, h with
  | [x], _ => exact ⟨x, rfl⟩

theorem Linked.canon {e : Linked} (h : e.Lawful) {x : Byte} {v : Fin e.card} (hv : e.decode x = .ok v)
    (u : Fin e.card) : Canon [e.enc u] [x] [e.enc v] := by
  apply Canon.single
  intro hx
  subst hx
  rw [Linked.decode_enc h] at hv
  injection hv with hv
  rw [hv]

theorem FTy.ofSlice_canon {t : FTy} (h : t.Lawful) {raw : Bytes} (hl : raw.length = t.size) {v : t.Val}
    (e : t.ofSlice raw = .ok v) (u : t.Val) : Canon (t.toBytes u) raw (t.toBytes v) := by
  cases t with
  | num n =>
    simp only [FTy.ofSlice, Out.ok.injEq] at e
    subst e
    simp only [FTy.toBytes]
    rw [num_reencode n hl]
    exact Canon.refl (by rw [leBytes_length]; exact hl.symm)
  | bool =>
    obtain ⟨x, rfl⟩ := single_of_length hl
    simp only [FTy.ofSlice, Out.ok.injEq, byteOf_single] at e
    subst e
    apply Canon.single
    intro hx; subst hx
    rw [flagByte_eq_one]
  | blob n =>
    have : v.1 = raw := toArr_eq_ok e
    simp only [FTy.toBytes]
    rw [this]
    exact Canon.refl (by rw [u.2]; exact hl.symm)
  | linked l =>
    obtain ⟨x, rfl⟩ := single_of_length hl
    simp only [FTy.ofSlice, byteOf_single] at e
    exact Linked.canon h e u

theorem FTy.read_canon {t : FTy} (h : t.Lawful) {s s' : Bytes} {v : t.Val}
    (e : t.read.run s = (.ok v, s')) :
    ∃ raw, s = raw ++ s' ∧ raw.length = t.size ∧ ∀ u, Canon (t.toBytes u) raw (t.toBytes v) := by
  cases t with
  | num n =>
    obtain ⟨raw, s1, e1, e2⟩ := P.bind_eq_ok e
    obtain ⟨rfl, hl⟩ := P.readExact_eq_ok e1
    simp only [P.pure_run, Prod.mk.injEq, Out.ok.injEq] at e2
    obtain ⟨rfl, rfl⟩ := e2
    exact ⟨raw, rfl, hl, fun u => FTy.ofSlice_canon (t := .num n) h hl rfl u⟩
  | bool =>
    obtain ⟨raw, s1, e1, e2⟩ := P.bind_eq_ok e
    obtain ⟨rfl, hl⟩ := P.readExact_eq_ok e1
    simp only [P.pure_run, Prod.mk.injEq, Out.ok.injEq] at e2
    obtain ⟨rfl, rfl⟩ := e2
    refine ⟨raw, rfl, hl, fun u => ?_⟩
    obtain ⟨x, rfl⟩ := single_of_length hl
    apply Canon.single
    intro hx; subst hx
    rw [byteOf_single, flagByte_ne_zero]
  | blob n =>
    obtain ⟨raw, s1, e1, e2⟩ := P.bind_eq_ok e
    obtain ⟨rfl, hl⟩ := P.readExact_eq_ok e1
    simp only [P.lift_run, Prod.mk.injEq] at e2
    obtain ⟨e2, rfl⟩ := e2
    exact ⟨raw, rfl, hl, fun u => FTy.ofSlice_canon (t := .blob n) h hl e2 u⟩
  | linked l =>
    obtain ⟨raw, s1, e1, e2⟩ := P.bind_eq_ok e
    obtain ⟨rfl, hl⟩ := P.readExact_eq_ok e1
    simp only [P.lift_run, Prod.mk.injEq] at e2
    obtain ⟨e2, rfl⟩ := e2
    exact ⟨raw, rfl, hl, fun u => FTy.ofSlice_canon (t := .linked l) h hl e2 u⟩

theorem Vals.read_canon {ts : List FTy} (h : ∀ t ∈ ts, t.Lawful) {s s' : Bytes} {v : Vals ts}
    (e : (Vals.read ts).run s = (.ok v, s')) :
    ∃ raw, s = raw ++ s' ∧ raw.length = fieldsSize ts ∧ ∀ u, Canon (layout ts u) raw (layout ts v) := by
  induction ts generalizing s s' with
  | nil =>
    simp only [Vals.read, P.pure_run, Prod.mk.injEq] at e
    exact ⟨[], by simp [e.2], rfl, fun u => Canon.refl rfl⟩
  | cons t ts ih =>
    obtain ⟨v, vs⟩ := v
    obtain ⟨v', s1, e1, e2⟩ := P.bind_eq_ok e
    obtain ⟨vs', s2, e3, e4⟩ := P.bind_eq_ok e2
    simp only [P.pure_run, Prod.mk.injEq, Out.ok.injEq] at e4
    obtain ⟨⟨rfl, rfl⟩, rfl⟩ := e4
    obtain ⟨r1, rfl, hl1, c1⟩ := FTy.read_canon (h t (by simp)) e1
    obtain ⟨r2, rfl, hl2, c2⟩ := ih (fun u hu => h u (by simp [hu])) e3
    refine ⟨r1 ++ r2, by simp, by simp [hl1, hl2, fieldsSize], fun u => ?_⟩
    obtain ⟨u, us⟩ := u
    exact (c1 u).append (c2 us)

theorem cut_eq_ok {buf r : Bytes} {a b : Nat} (h : cut buf a b = .ok r) :
    r = slice buf a (b - a) ∧ r.length = b - a ∧ a ≤ b ∧ b ≤ buf.length := by
  unfold cut at h
  split at h
  · rename_i hc
    injection h with h
    subst h
    refine ⟨rfl, ?_, hc.1, hc.2⟩
    simp [slice]; omega
  · cases h

theorem Out.bind_eq_ok {α β} {x : Out α} {f : α → Out β} {b : β} (h : x.bind f = .ok b) :
    ∃ a, x = .ok a ∧ f a = .ok b := by
  cases x with
  | ok a => exact ⟨a, rfl, h⟩
  | err e => cases h
  | panic => cases h

theorem Out.map_eq_ok {α β} {x : Out α} {f : α → β} {b : β} (h : x.map f = .ok b) :
    ∃ a, x = .ok a ∧ f a = b := by
  cases x with
  | ok a => exact ⟨a, rfl, by simpa using h⟩
  | err e => cases h
  | panic => cases h

theorem slice_add (buf : Bytes) (a m n : Nat) :
    slice buf a (m + n) = slice buf a m ++ slice buf (a + m) n := by
  simp [slice, List.take_add]

theorem Vals.ofSlice_canon {ts : List FTy} (h : ∀ t ∈ ts, t.Lawful) {buf : Bytes} {off o' : Nat}
    {v : Vals ts} (e : Vals.ofSlice ts buf off = .ok (v, o')) :
    o' = off + fieldsSize ts ∧
    ∀ u, Canon (layout ts u) (slice buf off (fieldsSize ts)) (layout ts v) := by
  induction ts generalizing off o' with
  | nil =>
    simp only [Vals.ofSlice, Out.ok.injEq, Prod.mk.injEq] at e
    exact ⟨by simp [e.2, fieldsSize], fun u => by simp [fieldsSize, slice]; exact Canon.refl rfl⟩
  | cons t ts ih =>
    obtain ⟨v, vs⟩ := v
    rw [Vals.ofSlice] at e
    obtain ⟨r, e1, e2⟩ := Out.bind_eq_ok e
    obtain ⟨v', e3, e4⟩ := Out.bind_eq_ok e2
    obtain ⟨⟨vs', o''⟩, e5, e6⟩ := Out.map_eq_ok e4
    simp only [Prod.mk.injEq] at e6
    obtain ⟨⟨rfl, rfl⟩, rfl⟩ := e6
    obtain ⟨rfl, hl, _, _⟩ := cut_eq_ok e1
    obtain ⟨ho, hc⟩ := ih (fun u hu => h u (by simp [hu])) e5
    have hsz : off + t.size - off = t.size := by omega
    rw [hsz] at hl e3
    refine ⟨by rw [ho, fieldsSize]; omega, fun u => ?_⟩
    obtain ⟨u, us⟩ := u
    rw [fieldsSize, slice_add]
    exact (FTy.ofSlice_canon (h t (by simp)) hl e3 u).append (hc us)

/-- A successful stream read (after the signature). -/
theorem BlockTy.readBody_inv {b : BlockTy} (w : b.WF) {s s' : Bytes} {v : Vals b.fields}
    (e : b.readBody.run s = (.ok v, s')) :
    ∃ raw, s = raw ++ b.crc v ++ s' ∧ raw.length = fieldsSize b.fields ∧
      ∀ u, Canon (layout b.fields u) raw (layout b.fields v) := by
  obtain ⟨v', s1, e1, e2⟩ := P.bind_eq_ok e
  obtain ⟨crc, s2, e3, e4⟩ := P.bind_eq_ok e2
  obtain ⟨raw, rfl, hl, hc⟩ := Vals.read_canon w.lawful e1
  obtain ⟨rfl, hl4⟩ := P.readExact_eq_ok e3
  split at e4
  · cases e4
  · rename_i hx
    rw [Decidable.not_not] at hx
    simp only [P.pure_run, Prod.mk.injEq, Out.ok.injEq] at e4
    obtain ⟨rfl, rfl⟩ := e4
    exact ⟨raw, by rw [hx]; simp, hl, hc⟩

/-- A successful slice read. -/
theorem BlockTy.readSlice_inv {b : BlockTy} (w : b.WF) {buf : Bytes} {r : Referred b.fields}
    (e : b.readSlice buf false = .ok r) :
    b.ssize ≤ buf.length ∧ buf.take 4 = b.sig ∧ r.sig = b.sig ∧
    slice buf (4 + fieldsSize b.fields) 4 = b.crc r.vals ∧ r.crc = b.crc r.vals ∧
      ∀ u, Canon (layout b.fields u) (slice buf 4 (fieldsSize b.fields)) (layout b.fields r.vals) := by
  unfold BlockTy.readSlice at e
  split at e
  · cases e
  split at e
  · cases e
  rename_i hs
  simp only [Bool.false_eq_true, not_false_eq_true, true_and, ne_eq, Decidable.not_not] at hs
  simp only [Bool.false_eq_true, if_false] at e
  split at e
  · cases e
  rename_i hl
  obtain ⟨sig, e1, e2⟩ := Out.bind_eq_ok e
  obtain ⟨⟨v, o⟩, e3, e4⟩ := Out.bind_eq_ok e2
  obtain ⟨crc, e5, e6⟩ := Out.bind_eq_ok e4
  obtain ⟨ho, hc⟩ := Vals.ofSlice_canon w.lawful e3
  subst ho
  obtain ⟨hcrc, _, _, _⟩ := cut_eq_ok e5
  obtain ⟨hsig, _, _, _⟩ := cut_eq_ok e1
  split at e6
  · cases e6
  rename_i hx
  rw [Decidable.not_not] at hx
  injection e6 with e6
  subst e6
  have h4 : 4 + fieldsSize b.fields + 4 - (4 + fieldsSize b.fields) = 4 := by omega
  simp only at hcrc ⊢
  rw [h4] at hcrc
  refine ⟨Nat.not_lt.mp hl, hs, ?_, ?_, hx.symm, hc⟩
  · rw [hsig, ← hs]; simp [slice]
  · rw [← hcrc]; exact hx.symm

/-! ## Slice reading never panics when the signature is checked -/

theorem FTy.ofSlice_no_panic {t : FTy} {raw : Bytes} (hl : raw.length = t.size) :
    t.ofSlice raw ≠ .panic := by
  cases t with
  | num n => simp [FTy.ofSlice]
  | bool => simp [FTy.ofSlice]
  | blob n => simp only [FTy.ofSlice, toArr]; rw [dif_pos (show raw.length = n from hl)]; simp
  | linked e => simp only [FTy.ofSlice, Linked.decode]; split <;> simp

theorem Out.bind_ne_panic {α β} {x : Out α} {f : α → Out β} (hx : x ≠ .panic)
    (hf : ∀ a, x = .ok a → f a ≠ .panic) : x.bind f ≠ .panic := by
  cases x with
  | ok a => exact hf a rfl
  | err e => simp
  | panic => exact absurd rfl hx

theorem cut_ok {buf : Bytes} {a b : Nat} (h1 : a ≤ b) (h2 : b ≤ buf.length) :
    cut buf a b = .ok (slice buf a (b - a)) := by simp [cut, h1, h2]

theorem Vals.ofSlice_no_panic {ts : List FTy} {buf : Bytes} {off : Nat}
    (h : off + fieldsSize ts ≤ buf.length) :
    Vals.ofSlice ts buf off ≠ .panic ∧
    ∀ r, Vals.ofSlice ts buf off = .ok r → r.2 = off + fieldsSize ts := by
  induction ts generalizing off with
  | nil =>
    simp only [Vals.ofSlice, fieldsSize]
    refine ⟨by simp, fun r hr => ?_⟩
    injection hr with hr; subst hr; rfl
  | cons t ts ih =>
    rw [fieldsSize] at h
    rw [Vals.ofSlice, cut_ok (by omega) (by omega), Out.bind_ok]
    have hsz : off + t.size - off = t.size := by omega
    obtain ⟨i1, i2⟩ := ih (off := off + t.size) (by omega)
    constructor
    · apply Out.bind_ne_panic
      · apply FTy.ofSlice_no_panic
        simp [slice]; omega
      · intro a _ hp
        cases hx : Vals.ofSlice ts buf (off + t.size) with
        | panic => exact i1 hx
        | err e => rw [hx] at hp; cases hp
        | ok r => rw [hx] at hp; cases hp
    · intro r hr
      obtain ⟨v, _, e2⟩ := Out.bind_eq_ok hr
      obtain ⟨q, e3, e4⟩ := Out.map_eq_ok e2
      subst e4
      simp only
      rw [i2 q e3, fieldsSize]; omega

theorem BlockTy.readSlice_no_panic (b : BlockTy) (buf : Bytes) : b.readSlice buf false ≠ .panic := by
  unfold BlockTy.readSlice
  split
  · simp
  split
  · simp
  simp only [Bool.false_eq_true, if_false]
  split
  · simp
  rename_i hl
  rw [BlockTy.ssize] at hl
  obtain ⟨i1, i2⟩ := Vals.ofSlice_no_panic (ts := b.fields) (buf := buf) (off := 4) (by omega)
  apply Out.bind_ne_panic
  · rw [cut_ok (by omega) (by omega)]; simp
  intro sig _
  apply Out.bind_ne_panic i1
  intro r hr
  apply Out.bind_ne_panic
  · rw [cut_ok (by omega) (by rw [i2 r hr]; omega)]; simp
  intro crc _
  split <;> simp

/-! ## Seekable and buffered readers on complete input -/

theorem Chunks.skip_skip (m n : Nat) (cs : Chunks) (h : m ≤ cs.flatten.length) :
    Chunks.skip n (Chunks.skip m cs) = Chunks.skip (m + n) cs := by
  induction cs generalizing m with
  | nil => rfl
  | cons c cs ih =>
    by_cases hm : m < c.length
    · rw [Chunks.skip, if_pos hm, Chunks.skip, Chunks.skip]
      by_cases hn : n < (c.drop m).length
      · rw [if_pos hn, if_pos (by simp at hn; omega), List.drop_drop]
      · rw [if_neg hn, if_neg (by simp at hn; omega)]
        congr 1
        simp; omega
    · conv => lhs; arg 2; rw [Chunks.skip, if_neg hm]
      simp only [List.flatten_cons, List.length_append] at h
      rw [ih _ (by omega)]
      conv => rhs; rw [Chunks.skip, if_neg (by omega)]
      congr 1; omega

theorem BlockTy.sig_prefix {b : BlockTy} {s t : Bytes} (h : 4 ≤ s.length) (hp : s <+: t)
    (ht : t.take 4 = b.sig) : b.sig.isPrefixOf s := by
  rw [List.isPrefixOf_iff_prefix]
  obtain ⟨r, rfl⟩ := hp
  rw [List.take_append_of_le_length h] at ht
  rw [← ht]
  exact List.take_prefix _ _

theorem BlockTy.bytes_take (b : BlockTy) (w : b.WF) (v : Vals b.fields) (s : Bytes) :
    (b.bytes v ++ s).take 4 = b.sig := by
  rw [BlockTy.bytes]
  simp only [List.append_assoc]
  rw [List.take_append_of_le_length (by simp [w.sig_len]), List.take_of_length_le (by simp [w.sig_len])]

theorem BlockTy.tryRead_bytes {b : BlockTy} (w : b.WF) (v : Vals b.fields) {c : Cur} {s : Bytes}
    (hp : c.pos ≤ c.data.length) (hr : c.rest = b.bytes v ++ s) :
    b.tryRead c = (.ok (.success v), { c with pos := c.pos + b.ssize }) := by
  have hl := BlockTy.bytes_length w v
  have hrl : c.rest.length = b.ssize + s.length := by rw [hr]; simp [hl]
  have h8 : 8 ≤ b.ssize := by rw [BlockTy.ssize]; omega
  unfold BlockTy.tryRead
  rw [Cur.remaining_ok hp]
  simp only
  rw [if_neg (by omega)]
  have r0 : c.rest = b.sig ++ (layout b.fields v ++ b.crc v ++ s) := by
    rw [hr]; simp [BlockTy.bytes]
  rw [Cur.run_take r0 (P.readExact_append' w.sig_len _)]
  simp only [ne_eq, not_true_eq_false, if_false]
  rw [if_neg (by omega)]
  have r1 := Cur.rest_add r0
  rw [Cur.run_take (m := layout b.fields v ++ b.crc v) (s := s) r1 (BlockTy.read_true w v s)]
  simp [w.sig_len, layout_length, BlockTy.ssize, Nat.add_assoc]

theorem BlockTy.tryBuf_bytes {b : BlockTy} (w : b.WF) (v : Vals b.fields) {cs : Chunks} {s : Bytes}
    (hf : 4 ≤ (Chunks.fill cs).length) (hr : cs.flatten = b.bytes v ++ s) :
    b.tryBuf cs = (.ok (.success v), Chunks.skip b.ssize cs) := by
  have ht : cs.flatten.take 4 = b.sig := by rw [hr]; exact b.bytes_take w v s
  have hpre := BlockTy.sig_prefix hf (Chunks.fill_prefix cs) ht
  have hle := (Chunks.fill_prefix cs).length_le
  unfold BlockTy.tryBuf
  rw [if_neg (by omega), if_neg (by simp [hpre])]
  simp only
  have hfl : (Chunks.consume 4 cs).flatten = layout b.fields v ++ b.crc v ++ s := by
    rw [Chunks.flatten_consume hf, hr, BlockTy.bytes]
    simp only [List.append_assoc]
    rw [← w.sig_len, List.drop_left]
  rw [Chunks.run_take (m := layout b.fields v ++ b.crc v) (s := s) hfl (BlockTy.read_true w v s)]
  rw [Chunks.consume, Nat.min_eq_left hf, Chunks.skip_skip _ _ _ (by omega)]
  simp [layout_length, BlockTy.ssize, Nat.add_assoc]

/-! ## Dispatch over the variants of the generated enum -/

/-- Signature mismatch leaves the seekable source where it was. -/
theorem BlockTy.tryRead_sig {b : BlockTy} {c c' : Cur} (h : b.tryRead c = (.err .sigDismatch, c')) :
    c.rest.length < 4 ∨ c.rest.take 4 = b.sig ∨ c' = c := by
  unfold BlockTy.tryRead at h
  split at h
  · cases h; exact Or.inr (Or.inr rfl)
  · cases h
  · split at h
    · cases h
    · by_cases hl : c.rest.length < 4
      · exact Or.inl hl
      · have : c.run (P.readExact 4) = (.ok (c.rest.take 4), { c with pos := c.pos + 4 }) := by
          have := Cur.run_take (c := c) (m := c.rest.take 4) (s := c.rest.drop 4) (by simp)
            (P.readExact_append' (n := 4) (by simp; omega) _)
          rw [this]; simp; omega
        rw [this] at h
        simp only at h
        split at h
        · injection h with _ h2
          subst h2
          exact Or.inr (Or.inr rfl)
        · rename_i hs
          rw [Decidable.not_not] at hs
          exact Or.inr (Or.inl hs)

theorem BlockTy.tryRead_other {b : BlockTy} {c : Cur} (hp : c.pos ≤ c.data.length)
    (hl : 4 ≤ c.rest.length) (hs : c.rest.take 4 ≠ b.sig) : b.tryRead c = (.err .sigDismatch, c) := by
  unfold BlockTy.tryRead
  rw [Cur.remaining_ok hp]
  simp only
  rw [if_neg (by omega)]
  have : c.run (P.readExact 4) = (.ok (c.rest.take 4), { c with pos := c.pos + 4 }) := by
    have := Cur.run_take (c := c) (m := c.rest.take 4) (s := c.rest.drop 4) (by simp)
      (P.readExact_append' (n := 4) (by simp; omega) _)
    rw [this]; simp; omega
  rw [this]
  simp only [ne_eq, hs, not_false_eq_true, if_true]
  rfl

theorem BlockTy.tryBuf_other {b : BlockTy} (w : b.sig.length = 4) {cs : Chunks}
    (hl : 4 ≤ (Chunks.fill cs).length) (hs : (Chunks.fill cs).take 4 ≠ b.sig) :
    b.tryBuf cs = (.err .sigDismatch, cs) := by
  unfold BlockTy.tryBuf
  rw [if_neg (by omega), if_pos]
  rw [List.isPrefixOf_iff_prefix]
  intro hp
  apply hs
  obtain ⟨r, hr⟩ := hp
  rw [← hr, List.take_append_of_le_length (by omega), List.take_of_length_le (by omega)]

theorem BlockTy.readSlice_other {b : BlockTy} {buf : Bytes} (hl : 4 ≤ buf.length)
    (hs : buf.take 4 ≠ b.sig) : b.readSlice buf false = .err .sigDismatch := by
  unfold BlockTy.readSlice
  rw [if_neg (by simp; omega), if_pos ⟨by simp, hs⟩]

/-- The variants have pairwise different signatures. -/
def DistinctSigs (vs : List BlockTy) : Prop := vs.Pairwise fun a b => a.sig ≠ b.sig

theorem enumReadSlice_bytes {vs : List BlockTy} (hd : DistinctSigs vs) {b : BlockTy} (hb : b ∈ vs)
    (w : b.WF) (v : Vals b.fields) (s : Bytes) :
    enumReadSlice false vs (b.bytes v ++ s) = .ok ⟨b, ⟨b.sig, v, b.crc v⟩⟩ := by
  have h4 : 4 ≤ (b.bytes v ++ s).length := by
    simp [BlockTy.bytes_length w, BlockTy.ssize]; omega
  induction vs with
  | nil => cases hb
  | cons a vs ih =>
    rw [enumReadSlice]
    rcases List.mem_cons.mp hb with rfl | hb
    · rw [BlockTy.readSlice_bytes w]
    · have hne : a.sig ≠ b.sig := (List.pairwise_cons.mp hd).1 b hb
      rw [BlockTy.readSlice_other h4 (by rw [b.bytes_take w]; exact Ne.symm hne)]
      exact ih (List.pairwise_cons.mp hd).2 hb

theorem enumTryRead_bytes {vs : List BlockTy} (hd : DistinctSigs vs) {b : BlockTy} (hb : b ∈ vs)
    (w : b.WF) (v : Vals b.fields) {c : Cur} {s : Bytes} (hp : c.pos ≤ c.data.length)
    (hr : c.rest = b.bytes v ++ s) :
    enumTryRead vs c = (.ok (.success ⟨b, v⟩), { c with pos := c.pos + b.ssize }) := by
  have h4 : 4 ≤ c.rest.length := by
    rw [hr]; simp [BlockTy.bytes_length w, BlockTy.ssize]; omega
  induction vs with
  | nil => cases hb
  | cons a vs ih =>
    rw [enumTryRead]
    rcases List.mem_cons.mp hb with rfl | hb
    · rw [BlockTy.tryRead_bytes w v hp hr]
    · have hne : a.sig ≠ b.sig := (List.pairwise_cons.mp hd).1 b hb
      rw [BlockTy.tryRead_other hp h4 (by rw [hr, b.bytes_take w]; exact Ne.symm hne)]
      exact ih (List.pairwise_cons.mp hd).2 hb

theorem enumTryBuf_bytes {vs : List BlockTy} (hd : DistinctSigs vs) (hv : ∀ a ∈ vs, a.sig.length = 4)
    {b : BlockTy} (hb : b ∈ vs) (w : b.WF) (v : Vals b.fields) {cs : Chunks} {s : Bytes}
    (hf : 4 ≤ (Chunks.fill cs).length) (hr : cs.flatten = b.bytes v ++ s) :
    enumTryBuf vs cs = (.ok (.success ⟨b, v⟩), Chunks.skip b.ssize cs) := by
  have ht : (Chunks.fill cs).take 4 = b.sig := by
    obtain ⟨r, e⟩ := Chunks.fill_prefix cs
    rw [← b.bytes_take w v s, ← hr, ← e, List.take_append_of_le_length hf]
  induction vs with
  | nil => cases hb
  | cons a vs ih =>
    rw [enumTryBuf]
    rcases List.mem_cons.mp hb with rfl | hb
    · rw [BlockTy.tryBuf_bytes w v hf hr]
    · have hne : a.sig ≠ b.sig := (List.pairwise_cons.mp hd).1 b hb
      rw [BlockTy.tryBuf_other (hv a (by simp)) hf (by rw [ht]; exact Ne.symm hne)]
      exact ih (List.pairwise_cons.mp hd).2 (fun x hx => hv x (by simp [hx])) hb

/-! ### The order of the variants does not matter, on any input -/

theorem DistinctSigs.perm {vs vs' : List BlockTy} (p : vs.Perm vs') (h : DistinctSigs vs) :
    DistinctSigs vs' := (p.pairwise_iff (fun h => Ne.symm h)).mp h

/-- The variant with a given signature. -/
def bySig (vs : List BlockTy) (x : Bytes) : Option BlockTy := vs.find? fun b => b.sig == x

theorem bySig_eq_some {vs : List BlockTy} (hd : DistinctSigs vs) {x : Bytes} {b : BlockTy} :
    bySig vs x = some b ↔ b ∈ vs ∧ b.sig = x := by
  induction vs with
  | nil => simp [bySig]
  | cons a vs ih =>
    have hd' := List.pairwise_cons.mp hd
    unfold bySig at ih ⊢
    rw [List.find?_cons]
    by_cases ha : a.sig = x
    · simp only [ha, beq_self_eq_true, Option.some.injEq, List.mem_cons]
      constructor
      · rintro rfl; exact ⟨Or.inl rfl, ha⟩
      · rintro ⟨rfl | hb, hx⟩
        · rfl
        · exact absurd (ha.trans hx.symm) (hd'.1 b hb)
    · have : (a.sig == x) = false := by simpa using ha
      rw [this]
      simp only
      rw [ih hd'.2]
      constructor
      · rintro ⟨h1, h2⟩; exact ⟨by simp [h1], h2⟩
      · rintro ⟨h1, h2⟩
        rcases List.mem_cons.mp h1 with rfl | h1
        · exact absurd h2 ha
        · exact ⟨h1, h2⟩

theorem bySig_perm {vs vs' : List BlockTy} (p : vs.Perm vs') (hd : DistinctSigs vs) (x : Bytes) :
    bySig vs x = bySig vs' x := by
  apply Option.ext
  intro b
  rw [bySig_eq_some hd, bySig_eq_some (hd.perm p), p.mem_iff]

/-- A reader that never fails with a signature mismatch. -/
def P.NoSig {α} (x : P α) : Prop := ∀ s, (x.run s).1 ≠ .err .sigDismatch

theorem P.NoSig.bind {α β} {x : P α} {f : α → P β} (hx : x.NoSig) (hf : ∀ a, (f a).NoSig) :
    (x >>= f).NoSig := by
  intro s
  rw [P.bind_run]
  have := hx s
  match hr : x.run s with
  | (.ok a, t) => exact hf a t
  | (.err e, t) => rw [hr] at this; simpa using this
  | (.panic, t) => simp

theorem P.readExact_noSig (n : Nat) : (P.readExact n).NoSig := by
  intro s
  simp only [P.readExact]
  split <;> simp

theorem FTy.read_noSig (t : FTy) : t.read.NoSig := by
  cases t with
  | num n => exact (P.readExact_noSig _).bind fun _ _ => by simp
  | bool => exact (P.readExact_noSig _).bind fun _ _ => by simp
  | blob n =>
    refine (P.readExact_noSig _).bind fun a _ => ?_
    simp only [P.lift_run, toArr]; split <;> simp
  | linked e =>
    refine (P.readExact_noSig _).bind fun a _ => ?_
    simp only [P.lift_run, Linked.decode]; split <;> simp

theorem Vals.read_noSig (ts : List FTy) : (Vals.read ts).NoSig := by
  induction ts with
  | nil => intro s; simp [Vals.read]
  | cons t ts ih => exact (FTy.read_noSig t).bind fun _ => ih.bind fun _ _ => by simp

theorem BlockTy.readBody_noSig (b : BlockTy) : b.readBody.NoSig := by
  refine (Vals.read_noSig _).bind fun v => (P.readExact_noSig _).bind fun crc s => ?_
  split <;> simp

/-- Tag a result with its variant. -/
def tag (b : BlockTy) : Out (Status (Vals b.fields)) → Out (Status BlockVal)
  | .ok (.success v) => .ok (.success ⟨b, v⟩)
  | .ok (.notEnough n) => .ok (.notEnough n)
  | .err e => .err e
  | .panic => .panic

theorem Cur.run_readExact4 {c : Cur} (hl : 4 ≤ c.rest.length) :
    c.run (P.readExact 4) = (.ok (c.rest.take 4), { c with pos := c.pos + 4 }) := by
  have := Cur.run_take (c := c) (m := c.rest.take 4) (s := c.rest.drop 4) (by simp)
    (P.readExact_append' (n := 4) (by simp; omega) _)
  rw [this]; simp; omega

theorem BlockTy.tryRead_match {b : BlockTy} {c : Cur} (hp : c.pos ≤ c.data.length)
    (hl : 4 ≤ c.rest.length) (hs : c.rest.take 4 = b.sig) : (b.tryRead c).1 ≠ .err .sigDismatch := by
  unfold BlockTy.tryRead
  rw [Cur.remaining_ok hp]
  simp only
  rw [if_neg (by omega), Cur.run_readExact4 hl]
  simp only [hs, ne_eq, not_true_eq_false, if_false]
  split
  · simp
  · have := b.readBody_noSig ({ c with pos := c.pos + 4 } : Cur).rest
    simp only [Cur.run, BlockTy.read, if_true]
    intro hx
    cases hr : (b.readBody.run ({ c with pos := c.pos + 4 } : Cur).rest).1 with
    | ok a => rw [hr] at hx; cases hx
    | err e => rw [hr] at hx this; simp at hx; exact this (by rw [hx])
    | panic => rw [hr] at hx; cases hx

theorem BlockTy.tryBuf_match {b : BlockTy} {cs : Chunks}
    (hl : 4 ≤ (Chunks.fill cs).length) (hs : (Chunks.fill cs).take 4 = b.sig) :
    (b.tryBuf cs).1 ≠ .err .sigDismatch := by
  have hpre := BlockTy.sig_prefix hl (List.prefix_refl _) hs
  unfold BlockTy.tryBuf
  rw [if_neg (by omega), if_neg (by simp [hpre])]
  have := b.readBody_noSig (Chunks.consume 4 cs).flatten
  simp only [Chunks.run, BlockTy.read, if_true]
  intro hx
  cases hr : (b.readBody.run (Chunks.consume 4 cs).flatten).1 with
  | ok a => rw [hr] at hx; cases hx
  | err e => rw [hr] at hx this; simp at hx; exact this (by rw [hx])
  | panic => rw [hr] at hx; cases hx

theorem BlockTy.readSlice_match {b : BlockTy} {buf : Bytes}
    (hl : 4 ≤ buf.length) (hs : buf.take 4 = b.sig) : b.readSlice buf false ≠ .err .sigDismatch := by
  have noSlice : ∀ (ts : List FTy) (off : Nat), Vals.ofSlice ts buf off ≠ .err .sigDismatch := by
    intro ts
    induction ts with
    | nil => intro off; simp [Vals.ofSlice]
    | cons t ts ih =>
      intro off hx
      rw [Vals.ofSlice] at hx
      unfold cut at hx
      split at hx
      · rw [Out.bind_ok] at hx
        cases hr : t.ofSlice (slice buf off (off + t.size - off)) with
        | ok v =>
          rw [hr, Out.bind_ok] at hx
          cases hq : Vals.ofSlice ts buf (off + t.size) with
          | ok a => rw [hq] at hx; cases hx
          | err e => rw [hq] at hx; simp at hx; exact ih _ (by rw [hq, hx])
          | panic => rw [hq] at hx; cases hx
        | err e =>
          rw [hr, Out.bind_err] at hx
          injection hx with hx
          subst hx
          cases t with
          | num n => cases hr
          | bool => cases hr
          | blob n => simp only [FTy.ofSlice, toArr] at hr; split at hr <;> cases hr
          | linked e => simp only [FTy.ofSlice, Linked.decode] at hr; split at hr <;> cases hr
        | panic => rw [hr] at hx; cases hx
      · cases hx
  unfold BlockTy.readSlice
  rw [if_neg (by simp; omega), if_neg (by simp [hs])]
  simp only [Bool.false_eq_true, if_false]
  split
  · simp
  · rename_i h8
    rw [BlockTy.ssize] at h8
    rw [cut_ok (by omega) (by omega), Out.bind_ok]
    have h1 := noSlice b.fields 4
    have h2 := (Vals.ofSlice_no_panic (ts := b.fields) (buf := buf) (off := 4) (by omega)).2
    cases hr : Vals.ofSlice b.fields buf 4 with
    | ok r =>
      rw [Out.bind_ok, cut_ok (by omega) (by rw [h2 r hr]; omega), Out.bind_ok]
      split <;> simp
    | err e => rw [hr] at h1; simpa using h1
    | panic => simp

theorem enumTryRead_bySig {vs : List BlockTy} {c : Cur} (hp : c.pos ≤ c.data.length)
    (hl : 4 ≤ c.rest.length) :
    enumTryRead vs c = match bySig vs (c.rest.take 4) with
      | none => (.err .sigDismatch, c)
      | some b => (tag b (b.tryRead c).1, (b.tryRead c).2) := by
  induction vs with
  | nil => rfl
  | cons a vs ih =>
    rw [enumTryRead, bySig, List.find?_cons]
    by_cases ha : a.sig = c.rest.take 4
    · simp only [ha, beq_self_eq_true]
      have := BlockTy.tryRead_match hp hl ha.symm
      split <;> rename_i hx <;> rw [hx] at this ⊢ <;> first | rfl | exact absurd rfl this
    · have hb : (a.sig == c.rest.take 4) = false := by simpa using ha
      rw [hb, BlockTy.tryRead_other hp hl (Ne.symm ha)]
      exact ih

theorem enumTryBuf_bySig {vs : List BlockTy} (hv : ∀ a ∈ vs, a.sig.length = 4) {cs : Chunks}
    (hl : 4 ≤ (Chunks.fill cs).length) :
    enumTryBuf vs cs = match bySig vs ((Chunks.fill cs).take 4) with
      | none => (.err .sigDismatch, cs)
      | some b => (tag b (b.tryBuf cs).1, (b.tryBuf cs).2) := by
  induction vs with
  | nil => rfl
  | cons a vs ih =>
    rw [enumTryBuf, bySig, List.find?_cons]
    by_cases ha : a.sig = (Chunks.fill cs).take 4
    · simp only [ha, beq_self_eq_true]
      have := BlockTy.tryBuf_match hl ha.symm
      split <;> rename_i hx <;> rw [hx] at this ⊢ <;> first | rfl | exact absurd rfl this
    · have hb : (a.sig == (Chunks.fill cs).take 4) = false := by simpa using ha
      rw [hb, BlockTy.tryBuf_other (hv a (by simp)) hl (Ne.symm ha)]
      exact ih fun x hx => hv x (by simp [hx])

theorem enumReadSlice_bySig {vs : List BlockTy} {buf : Bytes} (hl : 4 ≤ buf.length) :
    enumReadSlice false vs buf = match bySig vs (buf.take 4) with
      | none => .err .sigDismatch
      | some b => (b.readSlice buf false).map fun r => ⟨b, r⟩ := by
  induction vs with
  | nil => rfl
  | cons a vs ih =>
    rw [enumReadSlice, bySig, List.find?_cons]
    by_cases ha : a.sig = buf.take 4
    · simp only [ha, beq_self_eq_true]
      have := BlockTy.readSlice_match hl ha.symm
      split <;> rename_i hx <;> rw [hx] at this ⊢ <;> first | rfl | exact absurd rfl this
    · have hb : (a.sig == buf.take 4) = false := by simpa using ha
      rw [hb, BlockTy.readSlice_other hl (Ne.symm ha)]
      exact ih

theorem BlockTy.readSlice_short {b : BlockTy} {buf : Bytes} (hl : buf.length < 4) :
    b.readSlice buf false = .err (.notEnoughSig buf.length 4) := by
  unfold BlockTy.readSlice
  rw [if_pos ⟨by simp, hl⟩]

theorem BlockTy.tryRead_short {b : BlockTy} {c : Cur} (hp : c.pos ≤ c.data.length)
    (hl : c.rest.length < 4) : b.tryRead c = (.ok (.notEnough (4 - c.rest.length)), c) := by
  unfold BlockTy.tryRead
  rw [Cur.remaining_ok hp]
  simp only
  rw [if_pos hl]

theorem BlockTy.tryBuf_short {b : BlockTy} {cs : Chunks} (hl : (Chunks.fill cs).length < 4) :
    b.tryBuf cs = (.ok (.notEnough (4 - (Chunks.fill cs).length)), cs) := by
  unfold BlockTy.tryBuf
  rw [if_pos hl]

theorem enumReadSlice_perm {vs vs' : List BlockTy} (p : vs.Perm vs') (hd : DistinctSigs vs)
    (buf : Bytes) : enumReadSlice false vs buf = enumReadSlice false vs' buf := by
  by_cases hl : buf.length < 4
  · cases vs with
    | nil => rw [List.nil_perm.mp p]
    | cons a vs =>
      cases vs' with
      | nil => exact absurd p (by simp)
      | cons b vs' => simp only [enumReadSlice, BlockTy.readSlice_short hl]
  · rw [enumReadSlice_bySig (by omega), enumReadSlice_bySig (by omega), bySig_perm p hd]

theorem enumTryRead_perm {vs vs' : List BlockTy} (p : vs.Perm vs') (hd : DistinctSigs vs)
    {c : Cur} (hp : c.pos ≤ c.data.length) : enumTryRead vs c = enumTryRead vs' c := by
  by_cases hl : c.rest.length < 4
  · cases vs with
    | nil => rw [List.nil_perm.mp p]
    | cons a vs =>
      cases vs' with
      | nil => exact absurd p (by simp)
      | cons b vs' => simp only [enumTryRead, BlockTy.tryRead_short hp hl]
  · rw [enumTryRead_bySig hp (by omega), enumTryRead_bySig hp (by omega), bySig_perm p hd]

theorem enumTryBuf_perm {vs vs' : List BlockTy} (p : vs.Perm vs') (hd : DistinctSigs vs)
    (hv : ∀ a ∈ vs, a.sig.length = 4) (cs : Chunks) : enumTryBuf vs cs = enumTryBuf vs' cs := by
  by_cases hl : (Chunks.fill cs).length < 4
  · cases vs with
    | nil => rw [List.nil_perm.mp p]
    | cons a vs =>
      cases vs' with
      | nil => exact absurd p (by simp)
      | cons b vs' => simp only [enumTryBuf, BlockTy.tryBuf_short hl]
  · rw [enumTryBuf_bySig hv (by omega), enumTryBuf_bySig (fun a ha => hv a (p.mem_iff.mpr ha)) (by omega),
      bySig_perm p hd]

/-- A block cut short, through the enum: shortage, and the store is untouched (the position may move). -/
theorem enumTryRead_prefix {vs : List BlockTy} (hd : DistinctSigs vs) {b : BlockTy} (hb : b ∈ vs) (w : b.WF)
    (v : Vals b.fields) {c : Cur} {k : Nat} (hp : c.pos ≤ c.data.length) (hk : k < b.ssize)
    (hr : c.rest = (b.bytes v).take k) :
    ∃ n p, enumTryRead vs c = (.ok (.notEnough n), { c with pos := p }) ∧ 0 < n ∧ n + k ≤ b.ssize := by
  have hl := BlockTy.bytes_length w v
  have hrl : c.rest.length = k := by rw [hr]; simp; omega
  by_cases h4 : k < 4
  · cases vs with
    | nil => cases hb
    | cons a vs =>
      have : 4 ≤ b.ssize := by simp [BlockTy.ssize]
      refine ⟨4 - k, c.pos, ?_, by omega, by omega⟩
      rw [enumTryRead, BlockTy.tryRead_short hp (by omega), hrl]
  · refine ⟨b.ssize - k, c.pos + 4, ?_, by omega, by omega⟩
    have hs : c.rest.take 4 = b.sig := by
      rw [hr, List.take_take, Nat.min_eq_left (by omega)]
      have := b.bytes_take w v []
      simpa using this
    rw [enumTryRead_bySig hp (by omega), (bySig_eq_some hd).mpr ⟨hb, hs.symm⟩]
    simp only
    have : b.tryRead c = (.ok (.notEnough (b.ssize - k)), { c with pos := c.pos + 4 }) := by
      unfold BlockTy.tryRead
      rw [Cur.remaining_ok hp, hrl]
      simp only
      rw [if_neg h4, Cur.run_readExact4 (by omega)]
      simp only [hs, ne_eq, not_true_eq_false, if_false, hk, if_true]
    rw [this]; rfl

end Brec
