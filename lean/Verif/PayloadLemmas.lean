import Verif.Payload
/-!
# Lemmas about payloads
-/

namespace Brec

namespace PayloadTy

variable {T : PayloadTy} {v : T.Val} {x : Bytes} {c : ByteBlock}

theorem header_eq (g : T.Good v x c) : T.header v = .ok { sig := T.ssig, crc := c, len := x.length } := by
  have := g.len_le
  rw [header, g.size_eq]
  simp only [ioOut, Out.bind_ok]
  rw [if_neg (by omega), g.crc_eq, g.sig_eq]; rfl

theorem parts_eq (g : T.Good v x c) :
    T.parts v = .ok (({ sig := T.ssig, crc := c, len := x.length } : PayloadHeader).asVec, x) := by
  rw [parts, header_eq g, Out.bind_ok, g.body_eq]; rfl

theorem read_good (g : T.Good v x c) (s : Bytes) :
    (T.read { sig := T.ssig, crc := c, len := x.length }).run (x ++ s) = (.ok v, s) := by
  unfold read
  rw [if_neg (by simp), P.bind_ok (P.readExact_append' rfl s),
    P.bind_ok (a := v) (by rw [P.lift_run, g.decode_eq]; rfl),
    P.bind_ok (a := c) (by rw [P.lift_run, g.crc_eq])]
  simp

theorem read_other {h : PayloadHeader} (hs : h.sig ≠ T.ssig) (s : Bytes) :
    (T.read h).run s = (.err .sigDismatch, s) := by
  unfold read; rw [if_pos hs]; rfl

theorem tryRead_good (g : T.Good v x c) {cu : Cur} {s : Bytes} (hp : cu.pos ≤ cu.data.length)
    (hr : cu.rest = x ++ s) :
    T.tryRead { sig := T.ssig, crc := c, len := x.length } cu =
      (.ok (.success v), { cu with pos := cu.pos + x.length }) := by
  unfold tryRead
  rw [Cur.remaining_ok hp]
  simp only
  rw [if_neg (by rw [hr]; simp), Cur.run_take hr (read_good g s)]; rfl

theorem tryRead_other {h : PayloadHeader} (hs : h.sig ≠ T.ssig) {cu : Cur}
    (hp : cu.pos ≤ cu.data.length) (hl : h.len ≤ cu.rest.length) :
    T.tryRead h cu = (.err .sigDismatch, cu) := by
  unfold tryRead
  rw [Cur.remaining_ok hp]
  simp only
  rw [if_neg (by omega)]
  simp [Cur.run, read_other hs]

theorem tryBuf_good (g : T.Good v x c) {cs : Chunks} {s : Bytes} (hr : cs.flatten = x ++ s) :
    T.tryBuf { sig := T.ssig, crc := c, len := x.length } cs =
      (.ok (.success v), Chunks.skip x.length cs) := by
  unfold tryBuf
  rw [Chunks.run_take hr (read_good g s)]; rfl

/-- Dropping nothing from a chunked source only removes leading empty chunks. -/
theorem _root_.Brec.Chunks.skip_zero_flatten (cs : Chunks) : (Chunks.skip 0 cs).flatten = cs.flatten := by
  rw [Chunks.flatten_skip]; rfl

theorem _root_.Brec.Chunks.skip_skip_zero (n : Nat) (cs : Chunks) :
    Chunks.skip n (Chunks.skip 0 cs) = Chunks.skip n cs := by
  induction cs with
  | nil => rfl
  | cons c cs ih =>
    by_cases h : 0 < c.length
    · rw [Chunks.skip, if_pos h]; rfl
    · have : c = [] := List.length_eq_zero_iff.mp (by omega)
      subst this
      simp [Chunks.skip, ih]

theorem tryBuf_other {h : PayloadHeader} (hs : h.sig ≠ T.ssig) (cs : Chunks) :
    T.tryBuf h cs = (.err .sigDismatch, Chunks.skip 0 cs) := by
  unfold tryBuf
  simp [Chunks.run, read_other hs]

end PayloadTy

/-- Position of a variant in the enum, with its value. -/
inductive PVal.At (T : PayloadTy) (v : T.Val) : (vs : List PayloadTy) → PVal vs → Prop
  | here (Ts) : PVal.At T v (T :: Ts) (.inl v)
  | there (T') (Ts) (w : PVal Ts) : T'.ssig ≠ T.ssig → PVal.At T v Ts w → PVal.At T v (T' :: Ts) (.inr w)

namespace PEnum

variable {T : PayloadTy} {v : T.Val} {x : Bytes} {c : ByteBlock} {vs : List PayloadTy} {w : PVal vs}

theorem dispatch_at {α : Type} (f : (T : PayloadTy) → T.Val → α) (ha : PVal.At T v vs w) :
    dispatch f vs w = f T v := by
  induction ha with
  | here => rfl
  | there T' Ts w _ _ ih => exact ih

theorem read_at (ha : PVal.At T v vs w) (g : T.Good v x c) (s : Bytes) :
    (read { sig := T.ssig, crc := c, len := x.length } vs).run (x ++ s) = (.ok w, s) := by
  induction ha with
  | here Ts => simp only [read]; rw [PayloadTy.read_good g]
  | there T' Ts w hne _ ih =>
    simp only [read]
    rw [PayloadTy.read_other (by simpa using hne.symm)]
    simp only
    rw [ih]; rfl

theorem tryRead_at (ha : PVal.At T v vs w) (g : T.Good v x c) {cu : Cur} {s : Bytes}
    (hp : cu.pos ≤ cu.data.length) (hr : cu.rest = x ++ s) :
    tryRead { sig := T.ssig, crc := c, len := x.length } vs cu =
      (.ok (.success w), { cu with pos := cu.pos + x.length }) := by
  induction ha with
  | here Ts => simp only [tryRead]; rw [PayloadTy.tryRead_good g hp hr]
  | there T' Ts w hne _ ih =>
    simp only [tryRead]
    rw [PayloadTy.tryRead_other (by simpa using hne.symm) hp (by rw [hr]; simp)]
    simp only
    rw [ih]

theorem tryBuf_at (ha : PVal.At T v vs w) (g : T.Good v x c) {cs : Chunks} {s : Bytes}
    (hr : cs.flatten = x ++ s) :
    tryBuf { sig := T.ssig, crc := c, len := x.length } vs cs =
      (.ok (.success w), Chunks.skip x.length cs) := by
  induction ha generalizing cs with
  | here Ts => simp only [tryBuf]; rw [PayloadTy.tryBuf_good g hr]
  | there T' Ts w hne _ ih =>
    simp only [tryBuf]
    rw [PayloadTy.tryBuf_other (by simpa using hne.symm)]
    simp only
    rw [ih (cs := Chunks.skip 0 cs) (by rw [Chunks.skip_zero_flatten, hr]), Chunks.skip_skip_zero]

/-- A variant whose own laws hold and whose CRC is four bytes wide satisfies the packet code's needs. -/
theorem ops_good {vs : List PayloadTy} {w : PVal (vs ++ [bytesTy, stringTy])}
    (ha : PVal.At T v (vs ++ [bytesTy, stringTy]) w) (g : T.Good v x c) (hc : c.size = 4) :
    (PEnum.ops vs).Good w { sig := T.ssig, crc := c, len := x.length } x where
  parts_eq := by
    show dispatch PayloadTy.parts _ _ = _
    rw [dispatch_at _ ha]; exact PayloadTy.parts_eq g
  size_eq := by
    show dispatch _ _ _ = _
    rw [dispatch_at _ ha, g.size_eq]; rfl
  hsize_eq := by
    show 1 + (dispatch _ _ _ : ByteBlock).size + 1 + 4 + 4 = _
    rw [dispatch_at _ ha, g.sig_eq, PayloadHeader.size, hc]
  len_eq := rfl
  len_lt := by
    show x.length < 2 ^ 32
    have := g.len_le
    omega
  read_eq := read_at ha g
  tryRead_eq _ _ hp hr := tryRead_at ha g hp hr
  tryBuf_eq _ _ hr := tryBuf_at ha g hr
  tryRead_short c hp hl := by
    show tryRead _ (vs ++ [bytesTy, stringTy]) c = _
    cases vs with
    | nil => simp only [List.nil_append, tryRead, PayloadTy.tryRead, Cur.remaining_ok hp, hl, if_true]; rfl
    | cons T' vs => simp only [List.cons_append, tryRead, PayloadTy.tryRead, Cur.remaining_ok hp, hl, if_true]; rfl

end PEnum

end Brec
