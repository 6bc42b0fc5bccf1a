import Verif.Io
/-!
# Packet header

Model of `/repo/brec/src/packet/header/{mod,read,write}.rs`.
-/

namespace Brec

/-- `PACKET_SIG` (`/repo/brec/src/packet/header/mod.rs:10`). -/
def PACKET_SIG : Bytes := [236, 37, 94, 136, 236, 37, 94, 136]

/-- `PacketHeader::SIZE` (`header/mod.rs:42-53`): 8 + 8 + 8 + 1 + 4. -/
def HSIZE : Nat := 29

/-- `PacketHeader` (`header/mod.rs:19-31`). -/
structure PacketHeader where
  size : Nat
  blocksLen : Nat
  payload : Bool
  crc : Nat
  deriving DecidableEq, Repr

/-- `[1]` or `[0]` (`header/mod.rs:79,162`; `header/write.rs:24` `header.payload.into()`). -/
def flagByte (b : Bool) : Byte := if b then 1 else 0

/-- `<PacketHeader as CrcU32>::crc` (`header/mod.rs:158-164`). -/
def PacketHeader.crcOf (size blocksLen : Nat) (payload : Bool) : Bytes :=
  crcBytes (leBytes 8 size ++ leBytes 8 blocksLen ++ [flagByte payload])

/-- `PacketHeader::new` (`header/mod.rs:66-87`) as a function of the two sums it computes
(block bytes, and payload header + body bytes when there is a payload). `u64` overflow of the sum of
sizes is not modelled here: it needs more than 2^64 bytes of in-memory blocks. -/
def PacketHeader.ofSizes (blocksLen : Nat) (payloadLen : Option Nat) : PacketHeader :=
  let size := blocksLen + payloadLen.getD 0
  { size, blocksLen, payload := payloadLen.isSome
    crc := leNat (PacketHeader.crcOf size blocksLen payloadLen.isSome) }

/-- `fill_buf` of `header/write.rs:16-27`: the bytes that `write`/`write_all` hand to the sink. -/
def PacketHeader.bytes (h : PacketHeader) : Bytes :=
  PACKET_SIG ++ leBytes 8 h.size ++ leBytes 8 h.blocksLen ++ [flagByte h.payload] ++ leBytes 4 h.crc

/-- The final check shared by the readers (`header/read.rs:50-54`, `:95-99`). -/
def PacketHeader.check (h : PacketHeader) : Out PacketHeader :=
  if leBytes 4 h.crc = PacketHeader.crcOf h.size h.blocksLen h.payload then .ok h else .err .crcDismatch

/-- `<PacketHeader as ReadFrom>::read` (`header/read.rs:18-55`). -/
def PacketHeader.read : P PacketHeader := do
  let sig ← P.readExact 8
  if sig ≠ PACKET_SIG then P.fail .sigDismatch else
  let size ← P.readExact 8
  let blocksLen ← P.readExact 8
  let flag ← P.readExact 1
  let crc ← P.readExact 4
  P.lift (PacketHeader.check
    { size := leNat size, blocksLen := leNat blocksLen, payload := flag == [1], crc := leNat crc })

/-- `buf[a..a+n]` on a buffer known to be long enough. -/
def slice (buf : Bytes) (a n : Nat) : Bytes := (buf.drop a).take n

/-- `<PacketHeader as ReadBlockFromSlice>::read_from_slice` (`header/read.rs:68-100`); the
`_skip_sig` argument is ignored by the code. -/
def PacketHeader.readSlice (buf : Bytes) : Out PacketHeader :=
  if buf.length < HSIZE then .err (.notEnoughData HSIZE)
  else if ¬ PACKET_SIG.isPrefixOf buf then .err .sigDismatch
  else PacketHeader.check
    { size := leNat (slice buf 8 8), blocksLen := leNat (slice buf 16 8)
      payload := slice buf 24 1 == [1], crc := leNat (slice buf 25 4) }

/-- `<PacketHeader as TryReadFrom>::try_read` (`header/read.rs:111-124`). -/
def PacketHeader.tryRead (c : Cur) : Out (Status PacketHeader) × Cur :=
  match c.remaining with
  | .panic => (.panic, c)
  | .err e => (.err e, c)
  | .ok len =>
    if len < HSIZE then (.ok (.notEnough (HSIZE - len)), c)
    else
      let (r, c') := c.run PacketHeader.read
      (r.map .success, c')

/-- `<PacketHeader as TryReadFromBuffered>::try_read` (`header/read.rs:137-151`): note that
`PacketHeader::read(reader)` already takes the bytes and `consume(29)` drops 29 more. -/
def PacketHeader.tryBuf (cs : Chunks) : Out (Status PacketHeader) × Chunks :=
  if (Chunks.fill cs).length < HSIZE then (.ok (.notEnough (HSIZE - (Chunks.fill cs).length)), cs)
  else
    match Chunks.run PacketHeader.read cs with
    | (.ok h, cs') => (.ok (.success h), Chunks.consume HSIZE cs')
    | (.err e, cs') => (.err e, cs')
    | (.panic, cs') => (.panic, cs')

/-- `PacketHeader::get_pos` (`header/mod.rs:109-120`): the loop `while buffer.len() > offset + 8`,
written as recursion on `buffer[offset..]`. -/
def getPos : Bytes → Option Nat
  | [] => none
  | b :: bs =>
    if (b :: bs).length > 8 then
      if PACKET_SIG.isPrefixOf (b :: bs) then some 0 else (getPos bs).map (· + 1)
    else none

/-- `PacketHeader::is_not_enought` (`header/mod.rs:130-136`). -/
def isNotEnough (buf : Bytes) : Option Nat :=
  if buf.length ≥ HSIZE then none else some (HSIZE - buf.length)

/-- What makes a header writable/readable: the fields fit `u64` and the CRC belongs to them. -/
structure PacketHeader.WF (h : PacketHeader) : Prop where
  size_lt : h.size < 2 ^ 64
  blocks_lt : h.blocksLen < 2 ^ 64
  crc_eq : h.crc = leNat (PacketHeader.crcOf h.size h.blocksLen h.payload)

theorem PACKET_SIG_length : PACKET_SIG.length = 8 := rfl

@[simp] theorem PacketHeader.bytes_length (h : PacketHeader) : h.bytes.length = HSIZE := by
  simp [PacketHeader.bytes, PACKET_SIG, HSIZE]

theorem PacketHeader.crcOf_length (a b : Nat) (p : Bool) : (PacketHeader.crcOf a b p).length = 4 := by
  simp [PacketHeader.crcOf]

theorem flagByte_beq (b : Bool) : ([flagByte b] == [(1 : Byte)]) = b := by cases b <;> decide

theorem PacketHeader.crc_lt {h : PacketHeader} (w : h.WF) : h.crc < 256 ^ 4 := by
  rw [w.crc_eq]
  have := leNat_lt (PacketHeader.crcOf h.size h.blocksLen h.payload)
  rwa [PacketHeader.crcOf_length] at this

theorem PacketHeader.check_ok {h : PacketHeader} (w : h.WF) : h.check = .ok h := by
  unfold PacketHeader.check
  rw [if_pos]
  rw [w.crc_eq]
  exact leBytes_leNat' (PacketHeader.crcOf_length ..)

theorem PacketHeader.check_eq_ok {h h' : PacketHeader} (e : h.check = .ok h') :
    h' = h ∧ leBytes 4 h.crc = PacketHeader.crcOf h.size h.blocksLen h.payload := by
  unfold PacketHeader.check at e
  split at e
  · rename_i hc; injection e with e; exact ⟨e.symm, hc⟩
  · cases e

theorem PacketHeader.ofSizes_wf {bl : Nat} {pl : Option Nat} (h : bl + pl.getD 0 < 2 ^ 64) :
    (PacketHeader.ofSizes bl pl).WF where
  size_lt := h
  blocks_lt := by show bl < _; omega
  crc_eq := rfl

theorem PacketHeader.read_bytes {h : PacketHeader} (w : h.WF) (s : Bytes) :
    PacketHeader.read.run (h.bytes ++ s) = (.ok h, s) := by
  have hc := PacketHeader.crc_lt w
  have h1 := w.size_lt
  have h2 := w.blocks_lt
  simp only [PacketHeader.read, PacketHeader.bytes, List.append_assoc]
  rw [P.bind_ok (P.readExact_append' PACKET_SIG_length _)]
  simp only [ne_eq, not_true_eq_false, if_false]
  rw [P.bind_ok (P.readExact_append' (leBytes_length ..) _)]
  rw [P.bind_ok (P.readExact_append' (leBytes_length ..) _)]
  rw [P.bind_ok (P.readExact_append' (n := 1) (a := [flagByte h.payload]) rfl _)]
  rw [P.bind_ok (P.readExact_append' (leBytes_length ..) _)]
  rw [leNat_leBytes_of_lt (by omega), leNat_leBytes_of_lt (by omega), leNat_leBytes_of_lt hc,
    flagByte_beq]
  simp only [P.lift_run]
  rw [PacketHeader.check_ok w]

theorem slice_append_mid {a b c : Bytes} {i n : Nat} (hi : a.length = i) (hn : b.length = n) :
    slice (a ++ b ++ c) i n = b := by
  subst hi; subst hn; simp [slice]

theorem PacketHeader.readSlice_bytes {h : PacketHeader} (w : h.WF) (s : Bytes) :
    PacketHeader.readSlice (h.bytes ++ s) = .ok h := by
  have hc := PacketHeader.crc_lt w
  have h1 := w.size_lt
  have h2 := w.blocks_lt
  unfold PacketHeader.readSlice
  rw [if_neg (by simp), if_neg]
  · have e1 : slice (h.bytes ++ s) 8 8 = leBytes 8 h.size := by
      have : h.bytes ++ s = PACKET_SIG ++ leBytes 8 h.size ++
          (leBytes 8 h.blocksLen ++ [flagByte h.payload] ++ leBytes 4 h.crc ++ s) := by
        simp [PacketHeader.bytes]
      rw [this]; exact slice_append_mid rfl (leBytes_length ..)
    have e2 : slice (h.bytes ++ s) 16 8 = leBytes 8 h.blocksLen := by
      have : h.bytes ++ s = (PACKET_SIG ++ leBytes 8 h.size) ++ leBytes 8 h.blocksLen ++
          ([flagByte h.payload] ++ leBytes 4 h.crc ++ s) := by
        simp [PacketHeader.bytes]
      rw [this]; exact slice_append_mid (by simp [PACKET_SIG]) (leBytes_length ..)
    have e3 : slice (h.bytes ++ s) 24 1 = [flagByte h.payload] := by
      have : h.bytes ++ s = (PACKET_SIG ++ leBytes 8 h.size ++ leBytes 8 h.blocksLen) ++
          [flagByte h.payload] ++ (leBytes 4 h.crc ++ s) := by
        simp [PacketHeader.bytes]
      rw [this]; exact slice_append_mid (by simp [PACKET_SIG]) rfl
    have e4 : slice (h.bytes ++ s) 25 4 = leBytes 4 h.crc := by
      have : h.bytes ++ s = (PACKET_SIG ++ leBytes 8 h.size ++ leBytes 8 h.blocksLen ++
          [flagByte h.payload]) ++ leBytes 4 h.crc ++ s := by
        simp [PacketHeader.bytes]
      rw [this]; exact slice_append_mid (by simp [PACKET_SIG]) (leBytes_length ..)
    rw [e1, e2, e3, e4, leNat_leBytes_of_lt (by omega), leNat_leBytes_of_lt (by omega),
      leNat_leBytes_of_lt hc, flagByte_beq]
    exact PacketHeader.check_ok w
  · simp [PacketHeader.bytes, List.append_assoc]

theorem P.readExact_eq_ok {n : Nat} {s a s' : Bytes} (h : (P.readExact n).run s = (.ok a, s')) :
    s = a ++ s' ∧ a.length = n := by
  by_cases hl : s.length < n
  · rw [P.readExact_short hl] at h; cases h
  · rw [P.readExact_ok (Nat.not_lt.mp hl)] at h
    injection h with h1 h2
    injection h1 with h1
    subst h1; subst h2
    refine ⟨(List.take_append_drop n s).symm, ?_⟩
    simp; omega

/-- Inversion of a successful two-step read. -/
theorem P.bind_eq_ok {α β} {x : P α} {f : α → P β} {s s' : Bytes} {b : β}
    (h : (x >>= f).run s = (.ok b, s')) :
    ∃ a t, x.run s = (.ok a, t) ∧ (f a).run t = (.ok b, s') := by
  rw [P.bind_run] at h
  match hx : x.run s with
  | (.ok a, t) => rw [hx] at h; exact ⟨a, t, rfl, h⟩
  | (.err e, t) => rw [hx] at h; cases h
  | (.panic, t) => rw [hx] at h; cases h

/-- What a raw header with an arbitrary flag byte looks like. -/
def PacketHeader.raw (size blocksLen : Nat) (flag : Byte) (crc : Bytes) : Bytes :=
  PACKET_SIG ++ leBytes 8 size ++ leBytes 8 blocksLen ++ [flag] ++ crc

theorem PacketHeader.read_eq_ok {buf s' : Bytes} {h : PacketHeader}
    (e : PacketHeader.read.run buf = (.ok h, s')) :
    ∃ flag : Byte, h.payload = (flag == 1) ∧ h.WF ∧
      buf = PacketHeader.raw h.size h.blocksLen flag
        (PacketHeader.crcOf h.size h.blocksLen h.payload) ++ s' := by
  unfold PacketHeader.read at e
  obtain ⟨sig, t1, e1, f1⟩ := P.bind_eq_ok e
  obtain ⟨rfl, hl1⟩ := P.readExact_eq_ok e1
  clear e
  have e := f1; clear f1
  split at e
  · cases e
  rename_i hs
  simp only [ne_eq, Decidable.not_not] at hs
  subst hs
  obtain ⟨sz, t2, e2, f⟩ := P.bind_eq_ok e
  clear e
  have e := f; clear f
  obtain ⟨rfl, hl2⟩ := P.readExact_eq_ok e2
  obtain ⟨bl, t3, e3, f⟩ := P.bind_eq_ok e
  clear e
  have e := f; clear f
  obtain ⟨rfl, hl3⟩ := P.readExact_eq_ok e3
  obtain ⟨fl, t4, e4, f⟩ := P.bind_eq_ok e
  clear e
  have e := f; clear f
  obtain ⟨rfl, hl4⟩ := P.readExact_eq_ok e4
  obtain ⟨cr, t5, e5, f⟩ := P.bind_eq_ok e
  clear e
  have e := f; clear f
  obtain ⟨rfl, hl5⟩ := P.readExact_eq_ok e5
  simp only [P.lift_run, Prod.mk.injEq] at e
  obtain ⟨e, rfl⟩ := e
  obtain ⟨rfl, hc⟩ := PacketHeader.check_eq_ok e
  simp only at hc
  rw [leBytes_leNat' hl5] at hc
  obtain ⟨f, rfl⟩ : ∃ f, fl = [f] := by
    match fl, hl4 with
    | [f], _ => exact ⟨f, rfl⟩
  have b2 := leNat_lt sz
  have b3 := leNat_lt bl
  rw [hl2] at b2
  rw [hl3] at b3
  refine ⟨f, ?_, ⟨by simpa using b2, by simpa using b3, ?_⟩, ?_⟩
  · simp only [List.cons_beq_cons, List.nil_beq_eq, List.isEmpty_nil, Bool.and_true]
  · simp only; rw [← hc]
  · simp only
    rw [← hc, PacketHeader.raw, leBytes_leNat' hl2, leBytes_leNat' hl3]
    simp

theorem PacketHeader.readSlice_eq_read {buf : Bytes} {h : PacketHeader}
    (e : PacketHeader.readSlice buf = .ok h) :
    PacketHeader.read.run buf = (.ok h, buf.drop HSIZE) := by
  unfold PacketHeader.readSlice at e
  split at e
  · cases e
  rename_i hl
  split at e
  · cases e
  rename_i hs
  rw [List.isPrefixOf_iff_prefix, Decidable.not_not] at hs
  simp only [HSIZE, Nat.not_lt] at hl
  have hsig : buf.take 8 = PACKET_SIG := by
    obtain ⟨t, rfl⟩ := hs
    rw [List.take_append_of_le_length (by simp [PACKET_SIG])]
    rfl
  unfold PacketHeader.read
  rw [P.bind_ok (P.readExact_ok (by omega)), hsig]
  simp only [ne_eq, not_true_eq_false, if_false]
  rw [P.bind_ok (P.readExact_ok (by simp; omega)), P.bind_ok (P.readExact_ok (by simp; omega)),
    P.bind_ok (P.readExact_ok (by simp; omega)), P.bind_ok (P.readExact_ok (by simp; omega))]
  simp only [P.lift_run, List.drop_drop]
  exact Prod.ext e rfl

theorem PacketHeader.tryRead_bytes {h : PacketHeader} (w : h.WF) {c : Cur} {s : Bytes}
    (hp : c.pos ≤ c.data.length) (hr : c.rest = h.bytes ++ s) :
    PacketHeader.tryRead c = (.ok (.success h), { c with pos := c.pos + HSIZE }) := by
  unfold PacketHeader.tryRead
  rw [Cur.remaining_ok hp, hr]
  simp only [List.length_append, PacketHeader.bytes_length]
  rw [if_neg (by omega)]
  rw [Cur.run_take hr (PacketHeader.read_bytes w s)]
  simp

end Brec
