import Verif.PayloadLemmas
import Verif.Props.Crc
/-!
# Properties C13, C14, C42, C47, C48: payloads
-/

namespace Brec.Props

open Brec

/-! ## C13 -/

/-- **C13.** For every payload type and value with consistent trait implementations (`Good`: decoding
inverts encoding, the sizes agree), the bytes written by `write_all` are read back — header first, then the
payload — to the same value, by the stream, the seekable and the buffered reader, leaving what follows. -/
theorem C13_payload_roundtrip (T : PayloadTy) (v : T.Val) (x : Bytes) (c : ByteBlock) (g : T.Good v x c)
    (s pre : Bytes) (chk : Bool) :
    ∃ h w, T.writeAll v = .ok w ∧ w.length = h.size + x.length ∧
      (PayloadHeader.read >>= T.read).run (w ++ s) = (.ok v, s) ∧
      PayloadHeader.tryRead ⟨pre ++ (w ++ s), pre.length, chk⟩ =
        (.ok (.success h), ⟨pre ++ (w ++ s), pre.length + h.size, chk⟩) ∧
      T.tryRead h ⟨pre ++ (w ++ s), pre.length + h.size, chk⟩ =
        (.ok (.success v), ⟨pre ++ (w ++ s), pre.length + w.length, chk⟩) ∧
      (∀ cs : Chunks, cs.flatten = x ++ s → (T.tryBuf h cs).1 = .ok (.success v) ∧
        (T.tryBuf h cs).2.flatten = s) := by
  have hl : ({ sig := T.ssig, crc := c, len := x.length } : PayloadHeader).len < 2 ^ 32 := by
    have := g.len_le
    show x.length < _
    omega
  refine ⟨{ sig := T.ssig, crc := c, len := x.length },
    ({ sig := T.ssig, crc := c, len := x.length } : PayloadHeader).asVec ++ x, ?_, ?_, ?_, ?_, ?_, ?_⟩
  · rw [PayloadTy.writeAll, PayloadTy.parts_eq g]; rfl
  · rw [List.length_append, PayloadHeader.size_eq]
  · rw [List.append_assoc, P.bind_ok (PayloadHeader.read_asVec _ hl _), PayloadTy.read_good g]
  · exact PayloadHeader.tryRead_asVec _ hl (s := x ++ s) (by simp) (by simp [Cur.rest])
  · rw [PayloadTy.tryRead_good g (s := s)]
    · simp only [List.length_append, PayloadHeader.size_eq, Nat.add_assoc]
    · simp [PayloadHeader.size_eq]
    · simp only [Cur.rest]
      rw [← PayloadHeader.size_eq, ← List.drop_drop]
      simp
  · intro cs hr
    rw [PayloadTy.tryBuf_good g hr]
    refine ⟨rfl, ?_⟩
    simp only
    rw [Chunks.flatten_skip, hr, List.drop_left]

/-- The defaults satisfy the hypotheses for every value up to the documented length limit … -/
theorem C13_defaults :
    (∀ v : Bytes, v.length ≤ 2 ^ 32 - 1 → bytesTy.Good v v (PayloadTy.crcBlock v)) ∧
    (∀ v : Utf8, v.1.length ≤ 2 ^ 32 - 1 → stringTy.Good v v.1 (PayloadTy.crcBlock v.1)) :=
  ⟨bytesTy_good, stringTy_good⟩

/-- … and longer values are refused, not truncated. -/
theorem C13_too_long (v : Bytes) (h : 2 ^ 32 ≤ v.length) : bytesTy.writeAll v = .err .io := by
  have : bytesTy.header v = .err .io := by
    show (if v.length > 2 ^ 32 - 1 then (Out.err .io : Out PayloadHeader) else _) = _
    rw [if_pos (by omega)]
  show (((bytesTy.header v).bind _).map _) = _
  rw [this]; rfl

/-- What a default payload is on the wire, byte for byte: the four bytes that name its type (the CRC-32 of `Vec<u8>` and of `String`), the
checksum and the length of the contents, and the contents as they are. A program in another language that writes these bytes is understood. -/
theorem C13_wire :
    (∀ v : Bytes, v.length ≤ 2 ^ 32 - 1 → bytesTy.writeAll v =
      .ok ([4, 117, 220, 251, 101, 4] ++ leBytes 4 (specCrc v) ++ leBytes 4 v.length ++ v)) ∧
    (∀ v : Utf8, v.1.length ≤ 2 ^ 32 - 1 → stringTy.writeAll v =
      .ok ([4, 159, 183, 18, 153, 4] ++ leBytes 4 (specCrc v.1) ++ leBytes 4 v.1.length ++ v.1)) := by
  have e1 : bytesTy.ssig.asSlice = [117, 220, 251, 101] := by decide +kernel
  have e2 : stringTy.ssig.asSlice = [159, 183, 18, 153] := by decide +kernel
  have e3 : ∀ x, (PayloadTy.crcBlock x).asSlice = leBytes 4 (specCrc x) := fun x => by rw [← C51_crc32]; rfl
  constructor
  · intro v h
    rw [PayloadTy.writeAll, PayloadTy.parts_eq (bytesTy_good v h)]
    simp only [Out.map, PayloadHeader.asVec, e1, e3, leBytes_length]
    simp
  · intro v h
    rw [PayloadTy.writeAll, PayloadTy.parts_eq (stringTy_good v h)]
    simp only [Out.map, PayloadHeader.asVec, e2, e3, leBytes_length]
    simp

example : bytesTy.writeAll [1, 2, 3] = .ok [4, 117, 220, 251, 101, 4, 29, 128, 188, 85, 3, 0, 0, 0, 1, 2, 3] := by decide +kernel

/-- The same through the generated enum, wherever the variant stands and whatever other variants (with other
signatures) are tried first. -/
theorem C13_enum_roundtrip (T : PayloadTy) (v : T.Val) (x : Bytes) (c : ByteBlock) (g : T.Good v x c)
    (vs : List PayloadTy) (w : PVal vs) (ha : PVal.At T v vs w) (s : Bytes) :
    ∃ h, PEnum.parts vs w = .ok (PayloadHeader.asVec h, x) ∧ h.len = x.length ∧
      (PayloadHeader.read >>= fun h => PEnum.read h vs).run (h.asVec ++ x ++ s) = (.ok w, s) := by
  have hl : ({ sig := T.ssig, crc := c, len := x.length } : PayloadHeader).len < 2 ^ 32 := by
    have := g.len_le
    show x.length < _
    omega
  refine ⟨{ sig := T.ssig, crc := c, len := x.length }, ?_, rfl, ?_⟩
  · rw [PEnum.parts, PEnum.dispatch_at _ ha, PayloadTy.parts_eq g]
  · rw [List.append_assoc, P.bind_ok (PayloadHeader.read_asVec _ hl _), PEnum.read_at ha g]

/-- A user payload, `Bytes` and `String`: a string is found behind two other variants. -/
example : PVal.At stringTy ⟨ascii "brec", by decide⟩
    [bincodeTy Bool ⟨[1, 2, 3, 4], rfl⟩ (fun b => some [if b then 1 else 0]) (fun _ => some 1)
      (fun b => some (b == [1])) false, bytesTy, stringTy] (.inr (.inr (.inl ⟨ascii "brec", by decide⟩))) :=
  .there _ _ _ (by decide +kernel) (.there _ _ _ (by decide +kernel) (.here _))

/-! ## C14 -/

theorem burst_crc_eq {m m' : Bytes} (hb : Burst4 m m') (hc : crcBytes m = crcBytes m') : m = m' := by
  apply crc_burst
  rw [← hc]
  obtain ⟨p, x, y, q, rfl, rfl, hl, h4⟩ := hb.split
  have := Burst4.of_split p x y (q ++ crcBytes (p ++ x ++ q)) hl h4
  simpa [List.append_assoc] using this

/-- Payload types whose CRC is the default one and for which every accepted body is the encoding of the value it
decodes to (true of `Vec<u8>`; false of `String`). -/
structure Canonical (T : PayloadTy) : Prop where
  crc_default : T.crcFn = none
  body_decode : ∀ x v, T.decode x = some v → T.body v = .ok x

theorem bytesTy_canonical : Canonical bytesTy := ⟨rfl, fun x v h => by
  injection h with h; subst h; rfl⟩

theorem read_ok_inv {T : PayloadTy} {h : PayloadHeader} {s s' : Bytes} {v : T.Val}
    (e : (T.read h).run s = (.ok v, s')) :
    h.sig = T.ssig ∧ ∃ x, s = x ++ s' ∧ x.length = h.len ∧ T.decode x = some v ∧ T.crc v = .ok h.crc := by
  unfold PayloadTy.read at e
  split at e
  · cases e
  rename_i hs
  obtain ⟨x, t, e1, e⟩ := P.bind_eq_ok e
  obtain ⟨v', t', e2, e⟩ := P.bind_eq_ok e
  obtain ⟨c, t'', e3, e⟩ := P.bind_eq_ok e
  obtain ⟨hx, hl⟩ := P.readExact_eq_ok e1
  rw [P.lift_run] at e2 e3
  injection e2 with e2 e2'
  injection e3 with e3 e3'
  subst e2'; subst e3'
  split at e
  · cases e
  rename_i hc
  injection e with e e'
  injection e with e
  subst e; subst e'
  refine ⟨Decidable.not_not.mp hs, x, hx, hl, ?_, ?_⟩
  · cases hd : T.decode x with
    | none => rw [hd] at e2; cases e2
    | some w => rw [hd] at e2; injection e2 with e2; rw [e2]
  · rw [e3, Decidable.not_not.mp hc]

theorem read_ok_inv' {T : PayloadTy} {h : PayloadHeader} {s : Bytes} {v : T.Val}
    (e : ((T.read h).run s).1 = .ok v) :
    ∃ x s', s = x ++ s' ∧ x.length = h.len ∧ T.decode x = some v ∧ T.crc v = .ok h.crc := by
  obtain ⟨_, x, h1, h2, h3, h4⟩ := read_ok_inv (s' := ((T.read h).run s).2) (Prod.ext e rfl)
  exact ⟨x, _, h1, h2, h3, h4⟩

/-- **C14.** (1) Whatever the bytes are, a payload is returned only if its own CRC (the CRC of its canonical encoding,
by default) equals the header's. (2) For payloads with canonical encoding, if at most four consecutive bytes
of the body are changed, extraction succeeds only if nothing was changed; all three readers. -/
theorem C14_payload_corruption (T : PayloadTy) (v : T.Val) (x : Bytes) (c : ByteBlock) (g : T.Good v x c) :
    (∀ (h : PayloadHeader) (s : Bytes) (v' : T.Val), ((T.read h).run s).1 = .ok v' → T.crc v' = .ok h.crc) ∧
    (Canonical T → ∀ (x' s : Bytes), Burst4 x x' → ∀ h, T.header v = .ok h →
      (∀ v', ((T.read h).run (x' ++ s)).1 = .ok v' → x' = x ∧ v' = v) ∧
      (∀ cu v', Cur.rest cu = x' ++ s → (T.tryRead h cu).1 = .ok (.success v') → x' = x ∧ v' = v) ∧
      (∀ cs v', cs.flatten = x' ++ s → (T.tryBuf h cs).1 = .ok (.success v') → x' = x ∧ v' = v)) := by
  constructor
  · intro h s v' e
    obtain ⟨_, _, _, _, _, hc⟩ := read_ok_inv (s' := ((T.read h).run s).2) (Prod.ext e rfl)
    exact hc
  · intro can x' s hb h hh
    rw [PayloadTy.header_eq g] at hh
    injection hh with hh
    subst hh
    have main : ∀ v', ((T.read { sig := T.ssig, crc := c, len := x.length }).run (x' ++ s)).1 = .ok v' →
        x' = x ∧ v' = v := by
      intro v' e
      obtain ⟨_, y, hy, hl, hd, hc⟩ := read_ok_inv
        (s' := ((T.read { sig := T.ssig, crc := c, len := x.length }).run (x' ++ s)).2) (Prod.ext e rfl)
      have hxl := hb.1
      have : x' = y := (List.append_inj hy (by rw [hl]; exact hxl.symm)).1
      subst this
      have hbody := can.body_decode _ _ hd
      have hcr : crcBytes x = crcBytes x' := by
        have h1 := g.crc_eq
        rw [PayloadTy.crc, can.crc_default, g.body_eq] at h1
        rw [PayloadTy.crc, can.crc_default, hbody] at hc
        simp only [Out.map_ok, Out.ok.injEq] at h1 hc
        have := h1.trans hc.symm
        simpa [PayloadTy.crcBlock] using this
      have hx : x = x' := burst_crc_eq hb hcr
      subst hx
      refine ⟨rfl, ?_⟩
      rw [g.decode_eq] at hd
      injection hd with hd
      exact hd.symm
    refine ⟨main, fun cu v' hr e => ?_, fun cs v' hr e => ?_⟩
    · unfold PayloadTy.tryRead at e
      split at e
      · cases e
      · cases e
      · split at e
        · cases e
        · simp only [Cur.run, hr] at e
          apply main
          cases hz : ((T.read { sig := T.ssig, crc := c, len := x.length }).run (x' ++ s)).1 with
          | ok a => rw [hz] at e; injection e with e; injection e with e; rw [e]
          | err _ => rw [hz] at e; cases e
          | panic => rw [hz] at e; cases e
    · simp only [PayloadTy.tryBuf, Chunks.run, hr] at e
      apply main
      cases hz : ((T.read { sig := T.ssig, crc := c, len := x.length }).run (x' ++ s)).1 with
      | ok a => rw [hz] at e; injection e with e; injection e with e; rw [e]
      | err _ => rw [hz] at e; cases e
      | panic => rw [hz] at e; cases e

example : Canonical bytesTy ∧ bytesTy.Good [1, 2, 3, 4, 5, 6] [1, 2, 3, 4, 5, 6]
      (PayloadTy.crcBlock [1, 2, 3, 4, 5, 6]) ∧ Burst4 [1, 2, 3, 4, 5, 6] [1, 9, 9, 9, 9, 6] :=
  ⟨bytesTy_canonical, bytesTy_good _ (by decide), Burst4.of_split [1] [2, 3, 4, 5] [9, 9, 9, 9] [6] rfl (by decide)⟩

/-! ## C47: strings -/

/-- Full statement of C47: a damaged `String` payload is never returned as a different string. -/
def C47_full : Prop := ∀ (v : Utf8) (x' : Bytes), v.1.length ≤ 2 ^ 32 - 1 → Burst4 v.1 x' →
  ∀ h, stringTy.header v = .ok h → ∀ v', ((stringTy.read h).run x').1 = .ok v' → v' = v

def damagedString : Utf8 := ⟨ascii "e2o*(", by decide⟩

/-- **C47 is false of the code**: invalid UTF-8 is replaced by U+FFFD *before* the CRC is computed, over the
replaced text. The string `e2o*(` whose last four bytes are damaged to `FF FF FF FF` is accepted as `e` followed by
four replacement characters, because that text has the same CRC-32. -/
theorem C47_string_corruption_accepted : ¬ C47_full := by
  intro h
  have := h damagedString [0x65, 0xFF, 0xFF, 0xFF, 0xFF] (by decide)
    (by
      have := Burst4.of_split [0x65] [0x32, 0x6f, 0x2a, 0x28] [0xFF, 0xFF, 0xFF, 0xFF] [] rfl (by decide)
      exact this)
    _ (PayloadTy.header_eq (stringTy_good damagedString (by decide)))
    (Utf8.ofLossy [0x65, 0xFF, 0xFF, 0xFF, 0xFF]) (by decide +kernel)
  have h2 := congrArg (fun u : Utf8 => u.1.length) this
  revert h2
  decide

/-- **C47 (partial).** Damage that leaves valid UTF-8 is always detected (missing: damage that makes the text
invalid). -/
theorem C47_string_corruption_partial (v : Utf8) (x' s : Bytes) (hl : v.1.length ≤ 2 ^ 32 - 1)
    (hb : Burst4 v.1 x') (hu : validUtf8 x' = true) (h : PayloadHeader) (hh : stringTy.header v = .ok h)
    (v' : Utf8) (e : ((stringTy.read h).run (x' ++ s)).1 = .ok v') : x' = v.1 ∧ v' = v := by
  rw [PayloadTy.header_eq (stringTy_good v hl)] at hh
  injection hh with hh
  subst hh
  obtain ⟨y, s', hy, hyl, hd, hc⟩ := read_ok_inv' e
  have hxl := hb.1
  have : x' = y := (List.append_inj hy (by rw [hyl]; exact hxl.symm)).1
  subst this
  have hv' : v' = ⟨x', hu⟩ := by
    have hd' : some (Utf8.ofLossy x') = some v' := hd
    have hd'' := Option.some.inj hd'
    rw [← hd'']
    exact Subtype.ext (lossy_valid hu)
  subst hv'
  have hcr : crcBytes x' = crcBytes v.1 := by
    have : PayloadTy.crcBlock x' = PayloadTy.crcBlock v.1 := by
      have h1 : (Out.ok (PayloadTy.crcBlock x') : Out ByteBlock) = .ok (PayloadTy.crcBlock v.1) := hc
      injection h1
    simpa [PayloadTy.crcBlock] using this
  have hx : v.1 = x' := burst_crc_eq hb hcr.symm
  exact ⟨hx.symm, Subtype.ext hx.symm⟩

/-! ## C48: damage in the payload header -/

theorem header_read_inv {s s' : Bytes} {h : PayloadHeader} (e : PayloadHeader.read.run s = (.ok h, s')) :
    s = h.asVec ++ s' ∧ h.len < 2 ^ 32 := by
  unfold PayloadHeader.read at e
  obtain ⟨sl, s1, e1, f1⟩ := P.bind_eq_ok e
  obtain ⟨_, s2, e2, f2⟩ := P.bind_eq_ok f1
  obtain ⟨sig, s3, e3, f3⟩ := P.bind_eq_ok f2
  obtain ⟨cl, s4, e4, f4⟩ := P.bind_eq_ok f3
  obtain ⟨_, s5, e5, f5⟩ := P.bind_eq_ok f4
  obtain ⟨crc, s6, e6, f6⟩ := P.bind_eq_ok f5
  obtain ⟨ln, s7, e7, f7⟩ := P.bind_eq_ok f6
  obtain ⟨cb, s8, e8, f8⟩ := P.bind_eq_ok f7
  obtain ⟨sb, s9, e9, f9⟩ := P.bind_eq_ok f8
  obtain ⟨h1, l1⟩ := P.readExact_eq_ok e1
  obtain ⟨h3, l3⟩ := P.readExact_eq_ok e3
  obtain ⟨h4, l4⟩ := P.readExact_eq_ok e4
  obtain ⟨h6, l6⟩ := P.readExact_eq_ok e6
  obtain ⟨h7, l7⟩ := P.readExact_eq_ok e7
  rw [P.lift_run] at e2 e5 e8 e9
  injection e2 with e2 e2'
  injection e5 with e5 e5'
  injection e8 with e8 e8'
  injection e9 with e9 e9'
  injection f9 with ee ee'
  injection ee with ee
  subst e2'
  subst e5'
  subst e8'
  subst e9'
  subst ee'
  have legal : ∀ {n u}, ByteBlock.isValidCapacity n = .ok u → ByteBlock.Legal n := by
    intro n u hn
    apply Classical.byContradiction
    intro hc
    rw [ByteBlock.isValidCapacity_illegal hc] at hn
    cases hn
  have k1 := legal e2
  have k2 := legal e5
  have one : ∀ {b : Bytes}, b.length = 1 → b = [BitVec.ofNat 8 (PayloadHeader.byte0 b)] := by
    intro b hb
    match b, hb with
    | [x], _ => simp [PayloadHeader.byte0_single]
  have asl : ∀ {y : Bytes} {b : ByteBlock}, ByteBlock.tryFrom y = .ok b → ByteBlock.Legal y.length →
      b.asSlice = y := by
    intro y b hy hl
    obtain ⟨b', e1, e2⟩ := ByteBlock.tryFrom_legal hl
    rw [e1] at hy
    injection hy with hy
    rw [← hy, e2]
  have a1 := asl e9 (by rw [l3]; exact k1)
  have a2 := asl e8 (by rw [l6]; exact k2)
  subst ee
  constructor
  · simp only [PayloadHeader.asVec, a1, a2]
    rw [l3, l6, ← one l1, ← one l4, leBytes_leNat' l7]
    rw [h1, h3, h4, h6, h7]
    simp
  · show leNat ln < 2 ^ 32
    have := leNat_lt ln
    rw [l7] at this
    simpa using this

/-- Full statement of C48: damage of up to four consecutive bytes anywhere in a written payload (header or body)
is never read as a different payload. -/
def C48_full : Prop := ∀ (v : Bytes) (w w' : Bytes), v.length ≤ 2 ^ 32 - 1 → bytesTy.writeAll v = .ok w →
  Burst4 w w' → ∀ v', ((PayloadHeader.read >>= bytesTy.read).run w').1 = .ok v' → v' = v

/-- **C48 is false of the code**: nothing protects the length field of the payload header. The four-byte body
`9D 0A D9 6D` has the CRC-32 of the empty string, so a length changed from 4 to 0 makes the reader return an empty
payload. -/
theorem C48_length_not_protected : ¬ C48_full := by
  intro h
  have e := PayloadTy.parts_eq (bytesTy_good [0x9D, 0x0A, 0xD9, 0x6D] (by decide))
  have := h [0x9D, 0x0A, 0xD9, 0x6D] _
    (({ sig := bytesTy.ssig, crc := PayloadTy.crcBlock [0x9D, 0x0A, 0xD9, 0x6D], len := 0 } :
        PayloadHeader).asVec ++ [0x9D, 0x0A, 0xD9, 0x6D]) (by decide)
    (by rw [PayloadTy.writeAll, e]; rfl)
    (by
      simp only [PayloadHeader.asVec]
      exact Burst4.of_split _ _ _ _ (by simp) (by simp))
    [] (by decide +kernel)
  revert this
  decide

/-- **C48 (partial).** If the length field is intact (the last four bytes of the header), no other damage of up to
four consecutive bytes — signature, CRC, their length bytes, or the body — is read as a different payload, for every
payload type with canonical encoding. -/
theorem C48_payload_damage_partial (T : PayloadTy) (can : Canonical T) (v : T.Val) (x : Bytes) (c : ByteBlock)
    (g : T.Good v x c) (h : PayloadHeader) (hh : T.header v = .ok h) (hb' x' s : Bytes)
    (hlen : hb'.length = h.size) (hfield : hb'.drop (h.size - 4) = h.asVec.drop (h.size - 4))
    (hb : Burst4 (h.asVec ++ x) (hb' ++ x')) (v' : T.Val)
    (e : ((PayloadHeader.read >>= T.read).run (hb' ++ x' ++ s)).1 = .ok v') : v' = v := by
  rw [PayloadTy.header_eq g] at hh
  injection hh with hh
  subst hh
  -- the CRC of a canonical type is four bytes wide
  have crc4 : ∀ {u : T.Val} {cu : ByteBlock}, T.crc u = .ok cu → cu.size = 4 := by
    intro u cu hu
    rw [PayloadTy.crc, can.crc_default] at hu
    obtain ⟨y, _, rfl⟩ : ∃ y, T.body u = .ok y ∧ PayloadTy.crcBlock y = cu := by
      cases hz : T.body u with
      | ok y => rw [hz] at hu; injection hu with hu; exact ⟨y, rfl, hu⟩
      | err _ => rw [hz] at hu; cases hu
      | panic => rw [hz] at hu; cases hu
    exact crcBytes_length y
  obtain ⟨h', t, e1, e2⟩ := P.bind_eq_ok (s' := ((PayloadHeader.read >>= T.read).run (hb' ++ x' ++ s)).2)
    (Prod.ext e rfl)
  obtain ⟨hs, y, hy, hyl, hd, hc⟩ := read_ok_inv e2
  obtain ⟨hi, hl'⟩ := header_read_inv e1
  have hsz : h'.size = ({ sig := T.ssig, crc := c, len := x.length } : PayloadHeader).size := by
    simp only [PayloadHeader.size, hs, crc4 hc, crc4 g.crc_eq]
  rw [List.append_assoc] at hi
  obtain ⟨p1, p2⟩ := List.append_inj hi (by rw [hlen, PayloadHeader.size_eq, hsz])
  -- the length field
  have hlenEq : h'.len = x.length := by
    have dropLen : ∀ k : PayloadHeader, k.asVec.drop (k.size - 4) = leBytes 4 k.len := by
      intro k
      have hk : k.asVec = ([BitVec.ofNat 8 k.sig.asSlice.length] ++ k.sig.asSlice ++
          [BitVec.ofNat 8 k.crc.asSlice.length] ++ k.crc.asSlice) ++ leBytes 4 k.len := rfl
      have hn : k.size - 4 = ([BitVec.ofNat 8 k.sig.asSlice.length] ++ k.sig.asSlice ++
          [BitVec.ofNat 8 k.crc.asSlice.length] ++ k.crc.asSlice).length := by
        simp only [PayloadHeader.size, ByteBlock.size, List.length_append, List.length_singleton]; omega
      rw [hk, hn, List.drop_left]
    rw [p1, ← hsz, dropLen, hsz, dropLen] at hfield
    have := congrArg leNat hfield
    have hx := g.len_le
    rw [leNat_leBytes_of_lt (by simpa using hl'), leNat_leBytes_of_lt (by
      show x.length < _
      simp only [Nat.reducePow] at *; omega)] at this
    exact this
  have hxl : x'.length = x.length := by
    have := hb.1
    simp only [List.length_append, PayloadHeader.size_eq, hlen] at this
    omega
  rw [hy] at p2
  obtain ⟨q1, _⟩ := List.append_inj p2 (by rw [hyl, hlenEq, hxl])
  subst q1
  have hbody := can.body_decode _ _ hd
  -- body part of the burst
  have hbx : Burst4 x x' := by
    have := hb.drop h'.size
    rw [hsz, ← PayloadHeader.size_eq, List.drop_left, PayloadHeader.size_eq, ← hlen, List.drop_left] at this
    exact this
  have cx : c = PayloadTy.crcBlock x := by
    have h1 := g.crc_eq
    rw [PayloadTy.crc, can.crc_default, g.body_eq] at h1
    injection h1 with h1
    exact h1.symm
  have cx' : h'.crc = PayloadTy.crcBlock x' := by
    have h1 := hc
    rw [PayloadTy.crc, can.crc_default, hbody] at h1
    injection h1 with h1
    exact h1.symm
  -- either the body or the header part is untouched
  by_cases hx : x = x'
  · subst hx
    rw [g.decode_eq] at hd
    injection hd with hd
    exact hd.symm
  · exfalso
    -- the burst touches the body, hence not the CRC, which lies at least four bytes before it
    obtain ⟨k, hk⟩ := hb.2
    have hsize : ({ sig := T.ssig, crc := c, len := x.length } : PayloadHeader).size =
        1 + T.ssig.size + 1 + c.size + 4 := rfl
    have hAl := PayloadHeader.size_eq ({ sig := T.ssig, crc := c, len := x.length } : PayloadHeader)
    have hkk : ({ sig := T.ssig, crc := c, len := x.length } : PayloadHeader).size < k + 4 := by
      apply Nat.lt_of_not_le
      intro hle
      apply hx
      apply List.ext_getElem?
      intro i
      have := hk (({ sig := T.ssig, crc := c, len := x.length } : PayloadHeader).size + i) (by right; omega)
      rw [List.getElem?_append_right (by omega), List.getElem?_append_right (by omega), hAl, hlen] at this
      simpa using this
    have hcrcEq : c = h'.crc := by
      have hh : h'.asVec.take (1 + T.ssig.size + 1 + c.size) =
          ({ sig := T.ssig, crc := c, len := x.length } : PayloadHeader).asVec.take
            (1 + T.ssig.size + 1 + c.size) := by
        rw [← p1]
        apply List.ext_getElem?
        intro i
        rw [List.getElem?_take, List.getElem?_take]
        split
        · have := hk i (by left; omega)
          rw [List.getElem?_append_left (by omega), List.getElem?_append_left (by omega)] at this
          exact this.symm
        · rfl
      have tk : ∀ k : PayloadHeader, k.asVec.take (1 + k.sig.size + 1 + k.crc.size) =
          [BitVec.ofNat 8 k.sig.asSlice.length] ++ k.sig.asSlice ++
          [BitVec.ofNat 8 k.crc.asSlice.length] ++ k.crc.asSlice := by
        intro k
        have hn : 1 + k.sig.size + 1 + k.crc.size = ([BitVec.ofNat 8 k.sig.asSlice.length] ++ k.sig.asSlice ++
          [BitVec.ofNat 8 k.crc.asSlice.length] ++ k.crc.asSlice).length := by
          simp only [ByteBlock.size, List.length_append, List.length_singleton]
        rw [PayloadHeader.asVec, hn, List.take_left]
      have t1 := tk h'
      rw [hs, crc4 hc, ← crc4 g.crc_eq] at t1
      have t2 := tk ({ sig := T.ssig, crc := c, len := x.length } : PayloadHeader)
      rw [hh, t2] at t1
      have sc : c.asSlice = h'.crc.asSlice :=
        (List.append_inj' t1 (by
          show c.asSlice.length = h'.crc.asSlice.length
          exact (crc4 g.crc_eq).trans (crc4 hc).symm)).2
      have := ByteBlock.tryFrom_asSlice c
      rw [sc, ByteBlock.tryFrom_asSlice] at this
      injection this with this
      exact this.symm
    rw [cx, cx'] at hcrcEq
    exact hx (burst_crc_eq hbx (by simpa [PayloadTy.crcBlock] using hcrcEq))

/-! ## C42 -/

/-- C42, writing: what is written is the value left by `before_encode`. -/
def C42_full_write : Prop := ∀ (T : PayloadTy) (v u : T.Val), T.beforeEncode v = some u → T.writeAll v = T.writeAll u

/-- C42, reading: what is returned is a decoded value after `after_decode`. -/
def C42_full_read : Prop := ∀ (T : PayloadTy) (h : PayloadHeader) (s : Bytes) (v' : T.Val),
  ((T.read h).run s).1 = .ok v' → ∃ x v, T.decode x = some v ∧ T.afterDecode v = some v'

/-- A payload with a hook that stamps the data before encoding and one that rejects everything after decoding. -/
@[reducible] def hookedTy : PayloadTy :=
  { bytesTy with beforeEncode := fun v => some ((v : Bytes) ++ [1]), afterDecode := fun _ => none }

/-- **C42 is false of the code**: no code path calls the hooks. -/
theorem C42_hooks_not_called : ¬ C42_full_write ∧ ¬ C42_full_read := by
  constructor
  · intro h
    have := h hookedTy ([] : Bytes) ([1] : Bytes) rfl
    revert this
    decide +kernel
  · intro h
    obtain ⟨x, v, _, h2⟩ := h hookedTy { sig := bytesTy.ssig, crc := PayloadTy.crcBlock [], len := 0 } [] ([] : Bytes)
      (by decide +kernel)
    cases h2

/-- Replace the hooks of a payload type. -/
def withHooks (T : PayloadTy) (f g : T.Val → Option T.Val) : PayloadTy :=
  { T with beforeEncode := f, afterDecode := g }

/-- **C42 (partial).** The result of writing and reading does not depend on the hooks at all; with the default (no-op)
hooks the documented behaviour therefore holds. Missing: every other hook. -/
theorem C42_hooks_ignored_partial (T : PayloadTy) (f g : T.Val → Option T.Val) :
    (∀ v, (withHooks T f g).writeAll v = T.writeAll v) ∧
    (∀ h s, ((withHooks T f g).read h).run s = (T.read h).run s) ∧
    ((∀ v, T.beforeEncode v = some v) → ∀ v u, T.beforeEncode v = some u → T.writeAll v = T.writeAll u) := by
  refine ⟨fun v => ?_, fun h s => ?_, fun hid v u hu => ?_⟩
  · obtain ⟨V, a1, a2, a3, a4, a5, a6, crcFn, a8, a9, a10⟩ := T
    cases crcFn <;> rfl
  · obtain ⟨V, a1, a2, a3, a4, a5, a6, crcFn, a8, a9, a10⟩ := T
    cases crcFn <;> rfl
  rw [hid] at hu
  injection hu with hu
  rw [hu]

end Brec.Props
