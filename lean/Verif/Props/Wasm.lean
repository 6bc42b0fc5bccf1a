import Verif.Wasm
import Verif.Props.Generated
import Verif.Props.Payload
import Verif.Props.PayloadDispatch
/-!
# C85: the functions exported to JavaScript invert each other

For payloads and packets this holds. For blocks it does not: `decode_block` reads the enum from a stream, where every variant that is
tried takes four bytes, so only the first variant (in the order of `generate!`) is found at its place.
-/

namespace Brec.Props

open Brec Wasm

/-! ## Reading an input that ends too early -/

/-- `x` never puts bytes back, and if it succeeds on `s ++ t` then on `s` alone it either does the same or fails for lack of bytes. -/
structure Whole {α : Type} (x : P α) : Prop where
  shrinks : ∀ s, (x.run s).2.length ≤ s.length
  cut : ∀ s t a r, x.run (s ++ t) = (.ok a, r) →
    (∃ r', r = r' ++ t ∧ x.run s = (.ok a, r')) ∨ (r.length < t.length ∧ (x.run s).1 = .err .io)

theorem Whole.pure {α : Type} (a : α) : Whole (Pure.pure a : P α) where
  shrinks s := Nat.le_refl _
  cut s t b r e := by
    rw [P.pure_run] at e
    cases e
    exact .inl ⟨s, rfl, rfl⟩

theorem Whole.fail {α : Type} (e : Err) : Whole (P.fail e : P α) where
  shrinks s := Nat.le_refl _
  cut s t b r h := by rw [P.fail_run] at h; cases h

theorem Whole.lift {α : Type} (o : Out α) : Whole (P.lift o : P α) where
  shrinks s := Nat.le_refl _
  cut s t b r h := by
    rw [P.lift_run] at h
    cases h
    exact .inl ⟨s, rfl, rfl⟩

theorem Whole.readExact (n : Nat) : Whole (P.readExact n) where
  shrinks s := by
    by_cases h : s.length < n
    · rw [P.readExact_short h]; exact Nat.zero_le _
    · rw [P.readExact_ok (by omega)]
      show (s.drop n).length ≤ _
      rw [List.length_drop]; omega
  cut s t a r e := by
    by_cases h : s.length < n
    · right
      by_cases h2 : (s ++ t).length < n
      · rw [P.readExact_short h2] at e; cases e
      · rw [P.readExact_ok (by omega)] at e
        cases e
        refine ⟨?_, by rw [P.readExact_short h]⟩
        rw [List.length_drop, List.length_append]
        rw [List.length_append] at h2
        omega
    · left
      rw [P.readExact_ok (by rw [List.length_append]; omega)] at e
      cases e
      exact ⟨s.drop n, by rw [List.drop_append_of_le_length (by omega)],
        by rw [P.readExact_ok (by omega), List.take_append_of_le_length (by omega)]⟩

theorem Whole.bind {α β : Type} {x : P α} {f : α → P β} (hx : Whole x) (hf : ∀ a, Whole (f a)) : Whole (x >>= f) where
  shrinks s := by
    have h1 := hx.shrinks s
    rw [P.bind_run]
    rcases h : x.run s with ⟨o, r⟩
    rw [h] at h1
    cases o with
    | ok a => exact Nat.le_trans ((hf a).shrinks r) h1
    | err e => exact h1
    | panic => exact h1
  cut s t b r e := by
    rw [P.bind_run] at e
    rcases h : x.run (s ++ t) with ⟨o, r1⟩
    rw [h] at e
    cases o with
    | err e' => cases e
    | panic => cases e
    | ok a =>
      simp only at e
      rcases hx.cut s t a r1 h with ⟨r', rfl, h'⟩ | ⟨hl, h'⟩
      · rcases (hf a).cut r' t b r e with ⟨r2, rfl, h2⟩ | ⟨hl, h2⟩
        · exact .inl ⟨r2, rfl, by rw [P.bind_ok h', h2]⟩
        · exact .inr ⟨hl, by rw [P.bind_ok h', h2]⟩
      · right
        refine ⟨?_, ?_⟩
        · have := (hf a).shrinks r1
          rw [e] at this
          exact Nat.lt_of_le_of_lt this hl
        · rcases h2 : x.run s with ⟨o, r2⟩
          rw [h2] at h'
          simp only at h'
          subst h'
          rw [P.bind_err h2]

theorem Whole.ite {α : Type} {c : Prop} [Decidable c] {x y : P α} (hx : Whole x) (hy : Whole y) : Whole (if c then x else y) := by
  split
  · exact hx
  · exact hy

/-- A reader that uses up all of `w` fails on every beginning of `w`. -/
theorem Whole.early {α : Type} {x : P α} (hx : Whole x) {w : Bytes} {a : α} (e : x.run w = (.ok a, [])) {k : Nat} (hk : k < w.length) :
    (x.run (w.take k)).1 = .err .io := by
  have e' : x.run (w.take k ++ w.drop k) = (.ok a, []) := by rw [List.take_append_drop]; exact e
  rcases hx.cut _ _ _ _ e' with ⟨r, h, _⟩ | ⟨_, h⟩
  · have := congrArg List.length h
    rw [List.length_append, List.length_drop] at this
    simp at this
    omega
  · exact h

theorem whole_header : Whole PayloadHeader.read := by
  unfold PayloadHeader.read
  exact .bind (.readExact _) fun _ => .bind (.lift _) fun _ => .bind (.readExact _) fun _ => .bind (.readExact _) fun _ =>
    .bind (.lift _) fun _ => .bind (.readExact _) fun _ => .bind (.readExact _) fun _ => .bind (.lift _) fun _ =>
    .bind (.lift _) fun _ => .pure _

theorem whole_payload (T : PayloadTy) (h : PayloadHeader) : Whole (T.read h) := by
  unfold PayloadTy.read
  exact .ite (.fail _) (.bind (.readExact _) fun _ => .bind (.lift _) fun _ => .bind (.lift _) fun _ => .ite (.fail _) (.pure _))

theorem whole_penum (h : PayloadHeader) : ∀ vs, Whole (PEnum.read h vs)
  | [] => Whole.fail _
  | T :: Ts => by
    have ih := whole_penum h Ts
    have hT := whole_payload T h
    by_cases hs : T.ssig = h.sig
    · have key : ∀ s, (PEnum.read h (T :: Ts)).run s = (((T.read h).run s).1.map .inl, ((T.read h).run s).2) := by
        intro s
        have := read_not_sig hs s
        rw [PEnum.read]
        simp only
        rcases hx : (T.read h).run s with ⟨_ | e | _, s'⟩
        · rfl
        · rw [hx] at this
          cases e <;> first | rfl | exact absurd rfl this
        · rfl
      constructor
      · intro s; rw [key]; exact hT.shrinks s
      · intro s t a r e
        rw [key] at e
        rcases hr : (T.read h).run (s ++ t) with ⟨o, r'⟩
        rw [hr] at e
        cases o with
        | err e' => cases e
        | panic => cases e
        | ok v =>
          cases e
          rcases hT.cut _ _ _ _ hr with ⟨q, e1, e2⟩ | ⟨e1, e2⟩
          · exact .inl ⟨q, e1, by rw [key, e2]; rfl⟩
          · exact .inr ⟨e1, by rw [key, e2]; rfl⟩
    · have key : ∀ s, (PEnum.read h (T :: Ts)).run s = (((PEnum.read h Ts).run s).1.map .inr, ((PEnum.read h Ts).run s).2) := by
        intro s
        rw [PEnum.read]
        simp only [read_other hs]
      constructor
      · intro s; rw [key]; exact ih.shrinks s
      · intro s t a r e
        rw [key] at e
        rcases hr : (PEnum.read h Ts).run (s ++ t) with ⟨o, r'⟩
        rw [hr] at e
        cases o with
        | err e' => cases e
        | panic => cases e
        | ok v =>
          cases e
          rcases ih.cut _ _ _ _ hr with ⟨q, e1, e2⟩ | ⟨e1, e2⟩
          · exact .inl ⟨q, e1, by rw [key, e2]; rfl⟩
          · exact .inr ⟨e1, by rw [key, e2]; rfl⟩

theorem whole_packet_header : Whole PacketHeader.read := by
  unfold PacketHeader.read
  exact .bind (.readExact _) fun _ => .ite (.fail _) (.bind (.readExact _) fun _ => .bind (.readExact _) fun _ =>
    .bind (.readExact _) fun _ => .bind (.readExact _) fun _ => .lift _)

theorem whole_packet (O : BlockOps) (Q : PayloadOps) : Whole (Packet.read (O := O) Q) := by
  unfold Packet.read
  exact .bind whole_packet_header fun _ => .bind (.lift _) fun _ => .bind (.readExact _) fun _ => .lift _

theorem whole_field (t : FTy) : Whole t.read := by
  cases t with
  | num n => exact .bind (.readExact _) fun _ => .pure _
  | bool => exact .bind (.readExact _) fun _ => .pure _
  | blob n => exact .bind (.readExact _) fun _ => .lift _
  | linked e => exact .bind (.readExact _) fun _ => .lift _

theorem whole_vals : ∀ ts, Whole (Vals.read ts)
  | [] => .pure _
  | t :: ts => .bind (whole_field t) fun _ => .bind (whole_vals ts) fun _ => .pure _

theorem whole_body (b : BlockTy) : Whole b.readBody := by
  unfold BlockTy.readBody
  exact .bind (whole_vals _) fun _ => .bind (.readExact _) fun _ => .ite (.fail _) (.pure _)

/-! ## Payloads and packets -/

/-- **C85 (payloads).** What `encode_payload` returned is decoded to the payload it was given, whatever follows; a beginning of it is
an error. -/
theorem C85_payload (ps : List PayloadTy) (T : PayloadTy) (u : T.Val) (x : Bytes) (c : ByteBlock) (g : T.Good u x c)
    (v : PVal (ps ++ [bytesTy, stringTy])) (ha : PVal.At T u (ps ++ [bytesTy, stringTy]) v) :
    ∃ w, encodePayload ps v = .ok w ∧ (∀ t, decodePayload ps (w ++ t) = .ok v) ∧
      ∀ k < w.length, decodePayload ps (w.take k) = .err .io := by
  obtain ⟨h, hp, _, _⟩ := C13_enum_roundtrip T u x c g _ v ha []
  have hr : ∀ t, (PayloadHeader.read >>= fun h => PEnum.read h (ps ++ [bytesTy, stringTy])).run (h.asVec ++ x ++ t) = (.ok v, t) := by
    intro t
    obtain ⟨h', hp', _, r⟩ := C13_enum_roundtrip T u x c g _ v ha t
    rw [hp] at hp'
    have e := (Prod.mk.inj (Out.ok.inj hp')).1
    rw [e]; exact r
  refine ⟨h.asVec ++ x, by rw [encodePayload, hp]; rfl, fun t => by rw [decodePayload, hr], fun k hk => ?_⟩
  have hw : Whole (PayloadHeader.read >>= fun h => PEnum.read h (ps ++ [bytesTy, stringTy])) :=
    .bind whole_header fun h => whole_penum h _
  have := hr []
  rw [List.append_nil] at this
  exact hw.early this hk

/-- A string, behind `Bytes` in the enum. -/
example : PVal.At stringTy ⟨ascii "brec", by decide⟩ [bytesTy, stringTy] (.inr (.inl ⟨ascii "brec", by decide⟩)) ∧
    stringTy.Good ⟨ascii "brec", by decide⟩ (ascii "brec") (PayloadTy.crcBlock (ascii "brec")) :=
  ⟨.there _ _ _ (by decide +kernel) (.here _), stringTy_good _ (by decide)⟩

/-- **C85 (packets).** What `encode_packet` returned is decoded to the blocks and the payload it was given, whatever follows; a
beginning of it is an error, as the documentation of `decode_packet` says. -/
theorem C85_packet {vs : List BlockTy} {ps : List PayloadTy} (blocks : List BlockVal) (payload : Option (PVal (ps ++ [bytesTy, stringTy])))
    (d : Declared (vs := vs) (ps := ps) ⟨blocks, payload⟩) (hn : blocks.length ≤ 256) :
    ∃ w, encodePacket vs ps blocks payload = .ok w ∧ (∀ t, decodePacket vs ps (w ++ t) = .ok (blocks, payload)) ∧
      ∀ k < w.length, decodePacket vs ps (w.take k) = .err .io := by
  obtain ⟨w, _, e, r0⟩ := C15_generated d hn []
  have hr : ∀ t, (Packet.read (O := blockEnum vs) (PEnum.ops ps)).run (w ++ t) = (.ok ⟨blocks, payload⟩, t) := by
    intro t
    obtain ⟨w', _, e', r⟩ := C15_generated d hn t
    rw [e] at e'
    rw [Out.ok.inj e']; exact r
  refine ⟨w, e, fun t => by rw [decodePacket, hr]; rfl, fun k hk => ?_⟩
  rw [List.append_nil] at r0
  rw [decodePacket, (whole_packet (blockEnum vs) (PEnum.ops ps)).early r0 hk]
  rfl

example : Declared samplePacket ∧ samplePacket.blocks.length ≤ 256 := ⟨samplePacket_declared, by decide⟩

/-! ## Blocks -/

/-- Full statement of C85 for blocks: encoding and decoding gives the block back. -/
def C85_full : Prop := ∀ (vs : List BlockTy), DistinctSigs vs → (∀ b ∈ vs, b.WF) → ∀ b ∈ vs, ∀ v : Vals b.fields,
  ∃ w, encodeBlock ⟨b, v⟩ = .ok w ∧ decodeBlock vs w = .ok ⟨b, v⟩

/-- The four bytes at place `4 * i`. -/
def four (s : Bytes) (i : Nat) : Bytes := (s.drop (4 * i)).take 4

/-- `b` is the first variant whose signature stands four times its own index into the input. -/
def Lands (vs : List BlockTy) (s : Bytes) (i : Nat) (b : BlockTy) : Prop :=
  vs[i]? = some b ∧ four s i = b.sig ∧ ∀ (j : Nat) (c : BlockTy), j < i → vs[j]? = some c → four s j ≠ c.sig

theorem four_succ (s : Bytes) (i : Nat) : four (s.drop 4) i = four s (i + 1) := by
  rw [four, four, List.drop_drop, Nat.mul_add, Nat.add_comm]

theorem four_zero (s : Bytes) : four s 0 = s.take 4 := rfl

/-- A read that succeeds takes at least `n` bytes. -/
def AtLeast {α : Type} (n : Nat) (x : P α) : Prop := ∀ s a r, x.run s = (.ok a, r) → r.length + n ≤ s.length

theorem AtLeast.bind {α β : Type} {n m : Nat} {x : P α} {f : α → P β} (hx : AtLeast n x) (hf : ∀ a, AtLeast m (f a)) : AtLeast (n + m) (x >>= f) := by
  intro s b r e
  obtain ⟨a, t, e1, e2⟩ := P.bind_eq_ok e
  have := hx s a t e1
  have := hf a t b r e2
  omega

theorem AtLeast.exact (n : Nat) : AtLeast n (P.readExact n) := by
  intro s a r e
  obtain ⟨rfl, hl⟩ := P.readExact_eq_ok e
  rw [List.length_append]; omega

theorem AtLeast.of_whole {α : Type} {x : P α} (h : Whole x) : AtLeast 0 x := by
  intro s a r e
  have := h.shrinks s
  rw [e] at this
  exact this

theorem atLeast_field (t : FTy) : AtLeast t.size t.read := by
  cases t with
  | num n => exact (AtLeast.exact _).bind (m := 0) fun _ => .of_whole (.pure _)
  | bool => exact (AtLeast.exact _).bind (m := 0) fun _ => .of_whole (.pure _)
  | blob n => exact (AtLeast.exact _).bind (m := 0) fun _ => .of_whole (.lift _)
  | linked e => exact (AtLeast.exact _).bind (m := 0) fun _ => .of_whole (.lift _)

theorem atLeast_vals : ∀ ts, AtLeast (fieldsSize ts) (Vals.read ts)
  | [] => .of_whole (.pure _)
  | t :: ts => (atLeast_field t).bind (m := fieldsSize ts) fun _ => (atLeast_vals ts).bind (m := 0) fun _ => .of_whole (.pure _)

theorem atLeast_body (b : BlockTy) : AtLeast (fieldsSize b.fields + 4) b.readBody :=
  (atLeast_vals _).bind fun _ => (AtLeast.exact 4).bind (m := 0) fun _ => .of_whole (.ite (.fail _) (.pure _))

/-- A value of the enum. -/
def variant (b : BlockTy) (v : Vals b.fields) : BlockVal := ⟨b, v⟩

theorem enumRead_cons (b : BlockTy) (bs : List BlockTy) (s : Bytes) :
    (enumRead false (b :: bs)).run s = match (b.read false).run s with
      | (.ok v, s') => (.ok (variant b v), s')
      | (.err .sigDismatch, s') => (enumRead false bs).run s'
      | (.err e, s') => (.err e, s')
      | (.panic, s') => (.panic, s') := by
  rw [enumRead]; rfl

theorem read_short (b : BlockTy) {s : Bytes} (h : s.length < 4) : (b.read false).run s = (.err .io, []) := by
  show (P.readExact 4 >>= _).run s = _
  rw [P.bind_err (P.readExact_short h)]

theorem read_hit (b : BlockTy) {s : Bytes} (h : ¬ s.length < 4) (hs : s.take 4 = b.sig) :
    (b.read false).run s = b.readBody.run (s.drop 4) := by
  show (P.readExact 4 >>= fun sig => if sig ≠ b.sig then P.fail .sigDismatch else b.readBody).run s = _
  rw [P.bind_ok (P.readExact_ok (by omega)), hs, if_neg (fun h => h rfl)]

theorem read_miss (b : BlockTy) {s : Bytes} (h : ¬ s.length < 4) (hs : s.take 4 ≠ b.sig) :
    (b.read false).run s = (.err .sigDismatch, s.drop 4) := by
  show (P.readExact 4 >>= fun sig => if sig ≠ b.sig then P.fail .sigDismatch else b.readBody).run s = _
  rw [P.bind_ok (P.readExact_ok (by omega)), if_pos hs, P.fail_run]

theorem decode_short (b : BlockTy) (bs : List BlockTy) {s : Bytes} (h : s.length < 4) : decodeBlock (b :: bs) s = .err .io := by
  rw [decodeBlock, enumRead_cons, read_short b h]

theorem decode_hit (b : BlockTy) (bs : List BlockTy) {s : Bytes} (h : ¬ s.length < 4) (hs : s.take 4 = b.sig) :
    decodeBlock (b :: bs) s = (b.readBody.run (s.drop 4)).1.map (variant b) := by
  rw [decodeBlock, enumRead_cons, read_hit b h hs]
  have hn := BlockTy.readBody_noSig b (s.drop 4)
  rcases hb : b.readBody.run (s.drop 4) with ⟨_ | e | _, r⟩
  · rfl
  · rw [hb] at hn
    cases e <;> first | rfl | exact absurd rfl hn
  · rfl

theorem decode_miss (b : BlockTy) (bs : List BlockTy) {s : Bytes} (h : ¬ s.length < 4) (hs : s.take 4 ≠ b.sig) :
    decodeBlock (b :: bs) s = decodeBlock bs (s.drop 4) := by
  rw [decodeBlock, enumRead_cons, read_miss b h hs]
  rfl

theorem Lands.cons {a b : BlockTy} {vs : List BlockTy} {s : Bytes} {i : Nat} (h : Lands (a :: vs) s (i + 1) b) :
    Lands vs (s.drop 4) i b ∧ s.take 4 ≠ a.sig := by
  obtain ⟨h1, h2, h3⟩ := h
  refine ⟨⟨by simpa using h1, by rw [four_succ]; exact h2, fun j c hj hc => ?_⟩, h3 0 a (by omega) rfl⟩
  rw [four_succ]
  exact h3 (j + 1) c (by omega) (by simpa using hc)

theorem Lands.up {a b : BlockTy} {vs : List BlockTy} {s : Bytes} {i : Nat} (ha : s.take 4 ≠ a.sig) (h : Lands vs (s.drop 4) i b) :
    Lands (a :: vs) s (i + 1) b := by
  obtain ⟨h1, h2, h3⟩ := h
  refine ⟨by simpa using h1, by rw [← four_succ]; exact h2, fun j c hj hc => ?_⟩
  cases j with
  | zero =>
    have : a = c := by simpa using hc
    rw [← this]; exact ha
  | succ j =>
    rw [← four_succ]
    exact h3 j c (by omega) (by simpa using hc)

/-- What `decode_block` does: if some variant finds its signature at four times its own index, the first
such variant is read from there; otherwise there is an error: too short for all the variants, or no signature found. -/
theorem decode_cases (vs : List BlockTy) (hw : ∀ b ∈ vs, b.WF) (s : Bytes) :
    (∀ i b, Lands vs s i b → decodeBlock vs s = ((b.readBody).run (s.drop (4 * i + 4))).1.map (variant b)) ∧
    ((∀ i b, ¬ Lands vs s i b) → decodeBlock vs s = if s.length < 4 * vs.length then .err .io else .err .sigDismatch) := by
  induction vs generalizing s with
  | nil => exact ⟨fun i b h => by simp [Lands] at h, fun _ => rfl⟩
  | cons a vs ih =>
    have ih := ih (fun b hb => hw b (.tail _ hb)) (s.drop 4)
    have wa := hw a (.head _)
    by_cases h4 : s.length < 4
    · have hd : decodeBlock (a :: vs) s = .err .io := decode_short a vs h4
      constructor
      · intro i b h
        exfalso
        have hl := congrArg List.length h.2.1
        rw [(hw b (List.mem_of_getElem? h.1)).sig_len, four, List.length_take, List.length_drop] at hl
        omega
      · intro _
        rw [hd, if_pos (by simp only [List.length_cons]; omega)]
    by_cases hs : s.take 4 = a.sig
    · have hd : decodeBlock (a :: vs) s = ((a.readBody).run (s.drop 4)).1.map (variant a) := decode_hit a vs h4 hs
      constructor
      · intro i b h
        cases i with
        | zero =>
          obtain rfl : a = b := by simpa using h.1
          exact hd
        | succ i => exact absurd hs h.cons.2
      · intro h
        exact absurd ⟨rfl, hs, fun j c hj => absurd hj (by omega)⟩ (h 0 a)
    · have hd : decodeBlock (a :: vs) s = decodeBlock vs (s.drop 4) := decode_miss a vs h4 hs
      rw [hd]
      constructor
      · intro i b h
        cases i with
        | zero =>
          obtain rfl : a = b := by simpa using h.1
          exact absurd h.2.1 hs
        | succ i =>
          rw [ih.1 i b h.cons.1, List.drop_drop, show 4 + (4 * i + 4) = 4 * (i + 1) + 4 by omega]
      · intro h
        rw [ih.2 fun i b hl => h (i + 1) b (hl.up hs), List.length_drop, List.length_cons]
        by_cases hc : s.length < 4 * (vs.length + 1)
        · rw [if_pos (by omega), if_pos hc]
        · rw [if_neg (by omega), if_neg hc]

/-- **C85 (blocks), exactly when `decode_block` returns a block.** The block of variant `b` with fields `v` is returned if and only if `b`
is the first variant that finds its signature at four times its own index, and what follows there are bytes of the fields and their CRC. -/
theorem C85_block_exact (vs : List BlockTy) (hw : ∀ b ∈ vs, b.WF) (s : Bytes) (b : BlockTy) (v : Vals b.fields) :
    decodeBlock vs s = .ok ⟨b, v⟩ ↔
      ∃ i raw t, Lands vs s i b ∧ s.drop (4 * i + 4) = raw ++ b.crc v ++ t ∧ Vals.Means false b.fields raw v := by
  constructor
  · intro h
    by_cases hex : ∃ i c, Lands vs s i c
    · obtain ⟨i, c, hc⟩ := hex
      rw [(decode_cases _ hw _).1 i c hc] at h
      rcases hr : c.readBody.run (s.drop (4 * i + 4)) with ⟨o, r⟩
      rw [hr] at h
      cases o with
      | err e => cases h
      | panic => cases h
      | ok q =>
        have h1 : (⟨c, q⟩ : (b : BlockTy) × Vals b.fields) = ⟨b, v⟩ := Out.ok.inj h
        cases h1
        obtain ⟨raw, e, m⟩ := BlockTy.readBody_iff.mp hr
        exact ⟨i, raw, r, hc, e, m⟩
    · rw [(decode_cases _ hw _).2 fun i c h => hex ⟨i, c, h⟩] at h
      split at h <;> cases h
  · rintro ⟨i, raw, t, hl, e, m⟩
    rw [(decode_cases _ hw _).1 i b hl, BlockTy.readBody_iff.mpr ⟨raw, e, m⟩]
    rfl

/-- **C85 (blocks), what holds.** The first variant is encoded and decoded, whatever follows; a beginning of it is an error. Missing
from the full claim: all the other variants. -/
theorem C85_block_partial (b : BlockTy) (bs : List BlockTy) (w : b.WF) (v : Vals b.fields) :
    ∃ x, encodeBlock ⟨b, v⟩ = .ok x ∧ (∀ t, decodeBlock (b :: bs) (x ++ t) = .ok ⟨b, v⟩) ∧
      ∀ k < x.length, decodeBlock (b :: bs) (x.take k) = .err .io := by
  refine ⟨b.bytes v, BlockTy.buffer_eq w v, fun t => by rw [decodeBlock, C06_stream_first b bs w v t], fun k hk => ?_⟩
  have hl := BlockTy.bytes_length w v
  by_cases h4 : k < 4
  · exact decode_short b bs (by rw [List.length_take]; omega)
  · have e : b.bytes v = b.sig ++ (layout b.fields v ++ b.crc v) := List.append_assoc ..
    have ht : ((b.bytes v).take k).take 4 = b.sig := by
      rw [List.take_take, Nat.min_eq_left (by omega), e, List.take_append_of_le_length (by rw [w.sig_len]; omega),
        List.take_of_length_le (by rw [w.sig_len]; omega)]
    have hd : ((b.bytes v).take k).drop 4 = (layout b.fields v ++ b.crc v).take (k - 4) := by
      rw [List.drop_take, e, List.drop_append_of_le_length (by rw [w.sig_len]; omega), List.drop_of_length_le (by rw [w.sig_len]; omega)]
      rfl
    rw [decode_hit b bs (by rw [List.length_take]; omega) ht, hd]
    have hr := BlockTy.read_bytes w v []
    rw [List.append_nil, read_hit b (by rw [hl, BlockTy.ssize]; omega) (by
      rw [e, List.take_append_of_le_length (by rw [w.sig_len]; omega), List.take_of_length_le (by rw [w.sig_len]; omega)])] at hr
    have hd2 : (b.bytes v).drop 4 = layout b.fields v ++ b.crc v := by
      rw [e, List.drop_append_of_le_length (by rw [w.sig_len]; omega), List.drop_of_length_le (by rw [w.sig_len]; omega)]
      rfl
    rw [hd2] at hr
    rw [(whole_body b).early hr (k := k - 4) (by
        have := congrArg List.length e
        rw [List.length_append, w.sig_len] at this
        omega)]
    rfl

example : sampleBlock.WF := sampleBlock_wf

/-- **C85 (blocks), what fails.** What `encode_block` returned for a variant that is not the first is never decoded as that variant:
`decode_block` ends in an error or returns a block of another type. -/
theorem C85_block_never (a : BlockTy) (vs : List BlockTy) (hw : ∀ c ∈ a :: vs, c.WF) (b : BlockTy) (hb : b ∈ vs) (hs : a.sig ≠ b.sig)
    (v : Vals b.fields) : ∃ x, encodeBlock ⟨b, v⟩ = .ok x ∧ ∀ u : Vals b.fields, decodeBlock (a :: vs) x ≠ .ok ⟨b, u⟩ := by
  have w := hw b (.tail _ hb)
  refine ⟨b.bytes v, BlockTy.buffer_eq w v, fun u hu => ?_⟩
  have hl := BlockTy.bytes_length w v
  have e : b.bytes v = b.sig ++ (layout b.fields v ++ b.crc v) := List.append_assoc ..
  have ht : (b.bytes v).take 4 = b.sig := by
    rw [e, List.take_append_of_le_length (by rw [w.sig_len]; omega), List.take_of_length_le (by rw [w.sig_len]; omega)]
  by_cases hex : ∃ i c, Lands (a :: vs) (b.bytes v) i c
  · obtain ⟨i, c, hc⟩ := hex
    rw [(decode_cases _ hw _).1 i c hc] at hu
    cases i with
    | zero =>
      have h1 : a = c := by simpa using hc.1
      exact hs (by rw [h1, ← hc.2.1, four_zero, ht])
    | succ i =>
      rcases hr : c.readBody.run ((b.bytes v).drop (4 * (i + 1) + 4)) with ⟨o, r⟩
      rw [hr] at hu
      cases o with
      | err e => cases hu
      | panic => cases hu
      | ok q =>
        have h1 : (⟨c, q⟩ : (b : BlockTy) × Vals b.fields) = ⟨b, u⟩ := Out.ok.inj hu
        cases h1
        have := atLeast_body _ _ _ _ hr
        rw [List.length_drop, hl, BlockTy.ssize] at this
        omega
  · rw [(decode_cases _ hw _).2 fun i c h => hex ⟨i, c, h⟩] at hu
    split at hu <;> cases hu

example : otherBlock ∈ [otherBlock] ∧ sampleBlock.sig ≠ otherBlock.sig := ⟨.head _, by decide⟩

/-- A block with eight bytes. -/
def carrier : BlockTy := ⟨[9, 9, 9, 9], [.blob 8], false⟩

/-- **C85 is false of blocks.** -/
theorem C85_not : ¬ C85_full := by
  intro h
  have hw : ∀ b ∈ [sampleBlock, otherBlock], b.WF := by
    intro b hb
    simp only [List.mem_cons, List.not_mem_nil, or_false] at hb
    rcases hb with rfl | rfl
    · exact sampleBlock_wf
    · exact ⟨rfl, by simp [otherBlock]⟩
  obtain ⟨x, e, r⟩ := h [sampleBlock, otherBlock] (by simp [DistinctSigs, sampleBlock, otherBlock]) hw otherBlock (by simp) ()
  obtain ⟨x', e', r'⟩ := C85_block_never sampleBlock [otherBlock] hw otherBlock (by simp) (by decide) ()
  rw [e] at e'
  cases e'
  exact r' () r

/-- … and the other block can be returned: here the bytes carried by one block are taken for the block `otherBlock`. -/
theorem C85_confused : ∃ x, encodeBlock ⟨carrier, (⟨[5, 6, 7, 8, 0, 0, 0, 0], rfl⟩, ())⟩ = .ok x ∧
    decodeBlock [sampleBlock, otherBlock, carrier] x = .ok ⟨otherBlock, ()⟩ := by
  have w : carrier.WF := ⟨rfl, by simp [carrier, FTy.Lawful]⟩
  refine ⟨carrier.bytes (⟨[5, 6, 7, 8, 0, 0, 0, 0], rfl⟩, ()), BlockTy.buffer_eq (b := carrier) w (⟨[5, 6, 7, 8, 0, 0, 0, 0], rfl⟩, ()), ?_⟩
  have hw : ∀ b ∈ [sampleBlock, otherBlock, carrier], b.WF := by
    intro b hb
    simp only [List.mem_cons, List.not_mem_nil, or_false] at hb
    rcases hb with rfl | rfl | rfl
    · exact sampleBlock_wf
    · exact ⟨rfl, by simp [otherBlock]⟩
    · exact w
  rw [(decode_cases _ hw _).1 1 otherBlock ⟨rfl, by decide +kernel, ?_⟩]
  · have : (otherBlock.readBody.run ((carrier.bytes (⟨[5, 6, 7, 8, 0, 0, 0, 0], rfl⟩, ())).drop 8)).1.map (fun _ => ()) = .ok () := by
      decide +kernel
    rcases hr : (otherBlock.readBody.run ((carrier.bytes (⟨[5, 6, 7, 8, 0, 0, 0, 0], rfl⟩, ())).drop 8)).1 with u | e | _
    · show (otherBlock.readBody.run ((carrier.bytes (⟨[5, 6, 7, 8, 0, 0, 0, 0], rfl⟩, ())).drop 8)).1.map (variant otherBlock) = _
      rw [hr]; rfl
    · rw [hr] at this; cases this
    · rw [hr] at this; cases this
  · intro j c hj hc
    obtain rfl : j = 0 := by omega
    obtain rfl : sampleBlock = c := by simpa using hc
    decide +kernel

end Brec.Props
