import Verif.PacketHeader
/-!
# ByteBlock and payload header

Model of `/repo/brec/src/traits/props/byte_block.rs` and `/repo/brec/src/payload/header/*`.
-/

namespace Brec

/-- `[u8; n]`. -/
abbrev Arr (n : Nat) := { l : Bytes // l.length = n }

/-- `ByteBlock` (`byte_block.rs:9-22`). -/
inductive ByteBlock
  | len4 (a : Arr 4)
  | len8 (a : Arr 8)
  | len16 (a : Arr 16)
  | len32 (a : Arr 32)
  | len64 (a : Arr 64)
  | len128 (a : Arr 128)
  deriving DecidableEq

namespace ByteBlock

/-- `ByteBlock::as_slice` (`byte_block.rs:29-38`). -/
def asSlice : ByteBlock → Bytes
  | len4 a => a.1
  | len8 a => a.1
  | len16 a => a.1
  | len32 a => a.1
  | len64 a => a.1
  | len128 a => a.1

/-- `ByteBlock::size` (`byte_block.rs:41-43`). -/
def size (b : ByteBlock) : Nat := b.asSlice.length

/-- `ByteBlock::is_valid_capacity` (`byte_block.rs:54-63`). -/
def isValidCapacity (cap : Nat) : Out Unit :=
  if [4, 8, 16, 32, 64, 128].contains cap then .ok () else .err (.invalidCapacity cap)

/-- `<[u8; n]>::try_from(Vec<u8>)`. -/
def arr? (n : Nat) (v : Bytes) : Option (Arr n) := if h : v.length = n then some ⟨v, h⟩ else none

/-- `.map(Self::LenN)`, then `.map_err(|_| FailExtractByteBlock)` (`byte_block.rs:80-93`). -/
def wrap {n} (f : Arr n → ByteBlock) : Option (Arr n) → Out ByteBlock
  | some a => .ok (f a)
  | none => .err .failExtractByteBlock

/-- `TryFrom<Vec<u8>> for ByteBlock` (`byte_block.rs:78-94`). -/
def tryFrom (v : Bytes) : Out ByteBlock :=
  match v.length with
  | 4 => wrap len4 (arr? 4 v)
  | 8 => wrap len8 (arr? 8 v)
  | 16 => wrap len16 (arr? 16 v)
  | 32 => wrap len32 (arr? 32 v)
  | 64 => wrap len64 (arr? 64 v)
  | 128 => wrap len128 (arr? 128 v)
  | n => .err (.invalidCapacity n)

/-- The legal capacities. -/
def Legal (n : Nat) : Prop := n = 4 ∨ n = 8 ∨ n = 16 ∨ n = 32 ∨ n = 64 ∨ n = 128

theorem size_legal (b : ByteBlock) : Legal b.asSlice.length := by
  cases b <;> rename_i a <;> obtain ⟨l, hl⟩ := a <;> simp [asSlice, Legal, hl]

theorem tryFrom_asSlice (b : ByteBlock) : tryFrom b.asSlice = .ok b := by
  cases b <;> rename_i a <;> obtain ⟨l, hl⟩ := a <;> simp [tryFrom, asSlice, hl, arr?, wrap]

theorem tryFrom_illegal {v : Bytes} (h : ¬ Legal v.length) :
    tryFrom v = .err (.invalidCapacity v.length) := by
  unfold tryFrom
  split <;> first | rfl | (rename_i e; exact absurd (by simp [Legal, e]) h)

theorem tryFrom_legal {v : Bytes} (h : Legal v.length) :
    ∃ b, tryFrom v = .ok b ∧ b.asSlice = v := by
  rcases h with h | h | h | h | h | h <;> simp [tryFrom, h, arr?, wrap, asSlice]

theorem isValidCapacity_legal {n : Nat} (h : Legal n) : isValidCapacity n = .ok () := by
  rcases h with rfl | rfl | rfl | rfl | rfl | rfl <;> rfl

theorem isValidCapacity_illegal {n : Nat} (h : ¬ Legal n) :
    isValidCapacity n = .err (.invalidCapacity n) := by
  unfold isValidCapacity
  rw [if_neg]
  intro hc
  apply h
  simpa [Legal] using hc

end ByteBlock

/-- `PayloadHeader` (`payload/header/mod.rs:27-36`). -/
structure PayloadHeader where
  sig : ByteBlock
  crc : ByteBlock
  len : Nat
  deriving DecidableEq

namespace PayloadHeader

/-- `PayloadHeader::size` (`payload/header/mod.rs:74-76`). -/
def size (h : PayloadHeader) : Nat := 1 + h.sig.size + 1 + h.crc.size + 4

/-- `PayloadHeader::as_vec` (`payload/header/mod.rs:94-109`). -/
def asVec (h : PayloadHeader) : Bytes :=
  [BitVec.ofNat 8 h.sig.asSlice.length] ++ h.sig.asSlice ++
  [BitVec.ofNat 8 h.crc.asSlice.length] ++ h.crc.asSlice ++ leBytes 4 h.len

/-- First byte of a one-byte array. -/
def byte0 (b : Bytes) : Nat := leNat (b.take 1)

/-- `<PayloadHeader as ReadFrom>::read` (`payload/header/read.rs:21-44`). -/
def read : P PayloadHeader := do
  let sigLen ← P.readExact 1
  let sigLen := byte0 sigLen
  P.lift (ByteBlock.isValidCapacity sigLen)
  let sig ← P.readExact sigLen
  let crcLen ← P.readExact 1
  let crcLen := byte0 crcLen
  P.lift (ByteBlock.isValidCapacity crcLen)
  let crc ← P.readExact crcLen
  let len ← P.readExact 4
  let crc ← P.lift (ByteBlock.tryFrom crc)
  let sig ← P.lift (ByteBlock.tryFrom sig)
  pure { sig, crc, len := leNat len }

/-- `SafeHeaderReader` (`payload/header/sreader.rs:40-45`). -/
structure Safe where
  buf : Cur
  spos : Nat
  read : Nat
  len : Nat

/-- `SafeHeaderReader::{next_u8, next_u32, next_bytes}` (`sreader.rs:70-112`): the three functions
differ only in the number of bytes and in how the result is decoded. `NotEnoughData` carries the
number of bytes missing and the source is put back to its start. -/
def Safe.next (n : Nat) (r : Safe) : Out (Status Bytes) × Safe :=
  if r.len < r.read + n then
    (.ok (.notEnough (r.read + n - r.len)), { r with buf := r.buf.seek r.spos })
  else
    match r.buf.run (P.readExact n) with
    | (.ok b, buf) => (.ok (.success b), { r with buf, read := r.read + n })
    | (.err e, buf) => (.err e, { r with buf })
    | (.panic, buf) => (.panic, { r with buf })

/-- The `match … { NotEnoughData(n) => return Ok(NotEnoughData(n)), … }` / `?` pattern of
`payload/header/read.rs:62-88`. -/
def Safe.andThen {α β} (x : Out (Status α) × Safe) (f : α → Safe → Out (Status β) × Safe) :
    Out (Status β) × Safe :=
  match x with
  | (.ok (.success a), r) => f a r
  | (.ok (.notEnough n), r) => (.ok (.notEnough n), r)
  | (.err e, r) => (.err e, r)
  | (.panic, r) => (.panic, r)

/-- A `?` on a pure result. -/
def Safe.orErr {α β} (x : Out α) (r : Safe) (f : α → Out (Status β) × Safe) : Out (Status β) × Safe :=
  match x with
  | .ok a => f a
  | .err e => (.err e, r)
  | .panic => (.panic, r)

/-- `<PayloadHeader as TryReadFrom>::try_read` (`payload/header/read.rs:57-94`) including
`SafeHeaderReader::new` (`sreader.rs:54-64`). -/
def tryRead (c : Cur) : Out (Status PayloadHeader) × Cur :=
  match c.remaining with
  | .err e => (.err e, c)
  | .panic => (.panic, c)
  | .ok len =>
    let out := Safe.andThen (Safe.next 1 { buf := c, spos := c.pos, read := 0, len }) fun sl r =>
      Safe.orErr (ByteBlock.isValidCapacity (byte0 sl)) r fun _ =>
      Safe.andThen (Safe.next (byte0 sl) r) fun sig r =>
      Safe.andThen (Safe.next 1 r) fun cl r =>
      Safe.orErr (ByteBlock.isValidCapacity (byte0 cl)) r fun _ =>
      Safe.andThen (Safe.next (byte0 cl) r) fun crc r =>
      Safe.andThen (Safe.next 4 r) fun ln r =>
      Safe.orErr (ByteBlock.tryFrom crc) r fun crc =>
      Safe.orErr (ByteBlock.tryFrom sig) r fun sig =>
      (.ok (.success { sig, crc, len := leNat ln }), r)
    (out.1, out.2.buf)

/-- `ensure_available` (`payload/header/read.rs:117-123`). -/
def ensure {α} (buf : Bytes) (required : Nat) (k : Unit → Out (Status α)) : Out (Status α) :=
  if buf.length < required then .ok (.notEnough (required - buf.length)) else k ()

/-- The decision made by `<PayloadHeader as TryReadFromBuffered>::try_read` on the current buffer
(`payload/header/read.rs:124-156`). -/
def peek (buf : Bytes) : Out (Status PayloadHeader) :=
  ensure buf 1 fun _ =>
  let sl := byte0 (slice buf 0 1)
  (ByteBlock.isValidCapacity sl).bind fun _ =>
  ensure buf (1 + sl) fun _ =>
  ensure buf (1 + sl + 1) fun _ =>
  let cl := byte0 (slice buf (1 + sl) 1)
  (ByteBlock.isValidCapacity cl).bind fun _ =>
  ensure buf (1 + sl + 1 + cl) fun _ =>
  ensure buf (1 + sl + 1 + cl + 4) fun _ =>
  ((read.run buf).1).map .success

/-- `<PayloadHeader as TryReadFromBuffered>::try_read`: looks at `fill_buf()` only, consumes nothing. -/
def tryBuf (cs : Chunks) : Out (Status PayloadHeader) × Chunks := (peek (Chunks.fill cs), cs)

/-! ## Round trips -/

theorem size_eq (h : PayloadHeader) : h.asVec.length = h.size := by
  simp [asVec, size, ByteBlock.size]; omega

theorem byte0_single (b : Byte) : byte0 [b] = b.toNat := by simp [byte0, leNat]

theorem byte0_len {n : Nat} (h : ByteBlock.Legal n) : byte0 [BitVec.ofNat 8 n] = n := by
  rw [byte0_single]
  rcases h with rfl | rfl | rfl | rfl | rfl | rfl <;> rfl

theorem read_asVec (h : PayloadHeader) (hl : h.len < 2 ^ 32) (s : Bytes) :
    read.run (h.asVec ++ s) = (.ok h, s) := by
  have l1 := h.sig.size_legal
  have l2 := h.crc.size_legal
  simp only [read, asVec, List.append_assoc]
  rw [P.bind_ok (P.readExact_append' (n := 1) (a := [_]) rfl _)]
  rw [byte0_len l1, P.bind_ok (a := ()) (by rw [P.lift_run, ByteBlock.isValidCapacity_legal l1])]
  rw [P.bind_ok (P.readExact_append' rfl _)]
  rw [P.bind_ok (P.readExact_append' (n := 1) (a := [_]) rfl _)]
  rw [byte0_len l2, P.bind_ok (a := ()) (by rw [P.lift_run, ByteBlock.isValidCapacity_legal l2])]
  rw [P.bind_ok (P.readExact_append' rfl _)]
  rw [P.bind_ok (P.readExact_append' (leBytes_length ..) _)]
  rw [P.bind_ok (a := h.crc) (by rw [P.lift_run, ByteBlock.tryFrom_asSlice])]
  rw [P.bind_ok (a := h.sig) (by rw [P.lift_run, ByteBlock.tryFrom_asSlice])]
  rw [leNat_leBytes_of_lt (by simpa using hl)]
  rfl

theorem ensure_ok {α} {buf : Bytes} {n : Nat} {k : Unit → Out (Status α)} (h : n ≤ buf.length) :
    ensure buf n k = k () := by simp [ensure, Nat.not_lt.mpr h]

theorem ensure_short {α} {buf : Bytes} {n : Nat} {k : Unit → Out (Status α)} (h : buf.length < n) :
    ensure buf n k = .ok (.notEnough (n - buf.length)) := by simp [ensure, h]

/-- The two length bytes of an encoded header, found in any buffer that agrees with it far enough. -/
theorem slice_sigLen (h : PayloadHeader) {buf : Bytes} {k : Nat} (hb : buf.take k = h.asVec.take k)
    (hk : 1 ≤ k) : byte0 (slice buf 0 1) = h.sig.asSlice.length := by
  have e : slice buf 0 1 = slice h.asVec 0 1 := by
    have := congrArg (List.take 1) hb
    simpa [slice, List.take_take, Nat.min_eq_left hk] using this
  rw [e]
  have : slice h.asVec 0 1 = [BitVec.ofNat 8 h.sig.asSlice.length] := by simp [slice, asVec]
  rw [this, byte0_len h.sig.size_legal]

theorem slice_crcLen (h : PayloadHeader) {buf : Bytes} {k : Nat} (hb : buf.take k = h.asVec.take k)
    (hk : 1 + h.sig.asSlice.length + 1 ≤ k) :
    byte0 (slice buf (1 + h.sig.asSlice.length) 1) = h.crc.asSlice.length := by
  have e : slice buf (1 + h.sig.asSlice.length) 1 = slice h.asVec (1 + h.sig.asSlice.length) 1 := by
    have := congrArg (fun l => slice l (1 + h.sig.asSlice.length) 1) hb
    simp only [slice, List.drop_take, List.take_take] at this ⊢
    rw [Nat.min_eq_left (by omega)] at this
    exact this
  rw [e]
  have : slice h.asVec (1 + h.sig.asSlice.length) 1 = [BitVec.ofNat 8 h.crc.asSlice.length] := by
    have : h.asVec = ([BitVec.ofNat 8 h.sig.asSlice.length] ++ h.sig.asSlice) ++
      [BitVec.ofNat 8 h.crc.asSlice.length] ++ (h.crc.asSlice ++ leBytes 4 h.len) := by
      simp [asVec]
    rw [this]; exact slice_append_mid (by simp; omega) rfl
  rw [this, byte0_len h.crc.size_legal]

theorem peek_asVec (h : PayloadHeader) (hl : h.len < 2 ^ 32) (s : Bytes) :
    peek (h.asVec ++ s) = .ok (.success h) := by
  have hsz := h.size_eq
  simp only [size, ByteBlock.size] at hsz
  have hb : (h.asVec ++ s).take h.asVec.length = h.asVec.take h.asVec.length := by simp
  unfold peek
  simp only
  rw [ensure_ok (by simp; omega), slice_sigLen h hb (by omega),
    ByteBlock.isValidCapacity_legal h.sig.size_legal, Out.bind_ok,
    ensure_ok (by simp; omega), ensure_ok (by simp; omega), slice_crcLen h hb (by omega),
    ByteBlock.isValidCapacity_legal h.crc.size_legal, Out.bind_ok,
    ensure_ok (by simp; omega), ensure_ok (by simp; omega), read_asVec h hl]
  rfl

/-- On a proper prefix of an encoded header the buffered reader asks for at least one and at most the
missing number of bytes. -/
theorem peek_prefix (h : PayloadHeader) {k : Nat} (hk : k < h.asVec.length) :
    ∃ n, peek (h.asVec.take k) = .ok (.notEnough n) ∧ 0 < n ∧ n ≤ h.asVec.length - k := by
  have hsz := h.size_eq
  simp only [size, ByteBlock.size] at hsz
  have hlen : (h.asVec.take k).length = k := by rw [List.length_take]; omega
  have hb : (h.asVec.take k).take k = h.asVec.take k := by rw [List.take_take, Nat.min_self]
  unfold peek
  dsimp only
  by_cases h1 : k < 1
  · exact ⟨_, ensure_short (by omega), by omega, by omega⟩
  rw [ensure_ok (by omega), slice_sigLen h hb (by omega),
    ByteBlock.isValidCapacity_legal h.sig.size_legal, Out.bind_ok]
  by_cases h2 : k < 1 + h.sig.asSlice.length
  · exact ⟨_, ensure_short (by omega), by omega, by omega⟩
  rw [ensure_ok (by omega)]
  by_cases h3 : k < 1 + h.sig.asSlice.length + 1
  · exact ⟨_, ensure_short (by omega), by omega, by omega⟩
  rw [ensure_ok (by omega), slice_crcLen h hb (by omega),
    ByteBlock.isValidCapacity_legal h.crc.size_legal, Out.bind_ok]
  by_cases h4 : k < 1 + h.sig.asSlice.length + 1 + h.crc.asSlice.length
  · exact ⟨_, ensure_short (by omega), by omega, by omega⟩
  rw [ensure_ok (by omega)]
  exact ⟨_, ensure_short (by omega), by omega, by omega⟩

/-! ### The seekable reader -/

theorem Safe.next_ok {r : Safe} {m s : Bytes} (hr : r.buf.rest = m ++ s)
    (hlen : r.read + m.length ≤ r.len) :
    Safe.next m.length r =
      (.ok (.success m), { r with buf := { r.buf with pos := r.buf.pos + m.length },
                                  read := r.read + m.length }) := by
  unfold Safe.next
  rw [if_neg (by omega), Cur.run_take hr (P.readExact_append' rfl s)]

theorem Safe.next_short {r : Safe} {n : Nat} (h : r.len < r.read + n) :
    Safe.next n r = (.ok (.notEnough (r.read + n - r.len)), { r with buf := r.buf.seek r.spos }) := by
  simp [Safe.next, h]

/-- State after `k` bytes of the header have been read. -/
def Safe.at (c : Cur) (len k : Nat) : Safe :=
  { buf := { c with pos := c.pos + k }, spos := c.pos, read := k, len }

theorem Safe.next_at {c : Cur} {len k : Nat} {pre m s : Bytes} (hr : c.rest = pre ++ (m ++ s))
    (hk : pre.length = k) (hlen : k + m.length ≤ len) :
    Safe.next m.length (Safe.at c len k) = (.ok (.success m), Safe.at c len (k + m.length)) := by
  subst hk
  rw [Safe.next_ok (s := s) (by exact Cur.rest_add hr) hlen]
  simp [Safe.at, Nat.add_assoc]

theorem Safe.next_at' {c : Cur} {len k n : Nat} {pre m s : Bytes} (hr : c.rest = pre ++ (m ++ s))
    (hk : pre.length = k) (hn : m.length = n) (hlen : k + n ≤ len) :
    Safe.next n (Safe.at c len k) = (.ok (.success m), Safe.at c len (k + n)) := by
  subst hn; exact Safe.next_at hr hk hlen

theorem Safe.next_at_short {c : Cur} {len k n : Nat} (h : len < k + n) :
    ∃ r, Safe.next n (Safe.at c len k) = (.ok (.notEnough (k + n - len)), r) ∧ r.buf = c := by
  refine ⟨_, Safe.next_short h, ?_⟩
  simp [Safe.at, Cur.seek]

theorem tryRead_asVec (h : PayloadHeader) (hl : h.len < 2 ^ 32) {c : Cur} {s : Bytes}
    (hp : c.pos ≤ c.data.length) (hr : c.rest = h.asVec ++ s) :
    tryRead c = (.ok (.success h), { c with pos := c.pos + h.size }) := by
  have hsz := h.size_eq
  have hrl : c.rest.length = h.asVec.length + s.length := by rw [hr]; simp
  have hs2 : h.size = 1 + h.sig.asSlice.length + 1 + h.crc.asSlice.length + 4 := rfl
  unfold tryRead
  rw [Cur.remaining_ok hp]
  simp only
  have st : ({ buf := c, spos := c.pos, read := 0, len := c.rest.length } : Safe) =
      Safe.at c c.rest.length 0 := rfl
  rw [st]
  have r0 : c.rest = [] ++ ([BitVec.ofNat 8 h.sig.asSlice.length] ++ (h.sig.asSlice ++
      ([BitVec.ofNat 8 h.crc.asSlice.length] ++ (h.crc.asSlice ++ (leBytes 4 h.len ++ s))))) := by
    rw [hr]; simp [asVec]
  rw [Safe.next_at' (n := 1) (k := 0) r0 rfl rfl (by omega)]
  simp only [Safe.andThen]
  rw [byte0_len h.sig.size_legal, ByteBlock.isValidCapacity_legal h.sig.size_legal]
  simp only [Safe.orErr]
  have r1 : c.rest = [BitVec.ofNat 8 h.sig.asSlice.length] ++ (h.sig.asSlice ++
      ([BitVec.ofNat 8 h.crc.asSlice.length] ++ (h.crc.asSlice ++ (leBytes 4 h.len ++ s)))) := by
    rw [hr]; simp [asVec]
  rw [Safe.next_at' (k := 0 + 1) r1 rfl rfl (by omega)]
  simp only
  have r2 : c.rest = ([BitVec.ofNat 8 h.sig.asSlice.length] ++ h.sig.asSlice) ++
      ([BitVec.ofNat 8 h.crc.asSlice.length] ++ (h.crc.asSlice ++ (leBytes 4 h.len ++ s))) := by
    rw [hr]; simp [asVec]
  rw [Safe.next_at' (n := 1) (k := 0 + 1 + h.sig.asSlice.length) r2 (by simp; omega) rfl (by omega)]
  simp only
  rw [byte0_len h.crc.size_legal, ByteBlock.isValidCapacity_legal h.crc.size_legal]
  simp only
  have r3 : c.rest = ([BitVec.ofNat 8 h.sig.asSlice.length] ++ h.sig.asSlice ++
      [BitVec.ofNat 8 h.crc.asSlice.length]) ++ (h.crc.asSlice ++ (leBytes 4 h.len ++ s)) := by
    rw [hr]; simp [asVec]
  rw [Safe.next_at' (k := 0 + 1 + h.sig.asSlice.length + 1) r3 (by simp; omega) rfl (by omega)]
  simp only
  have r4 : c.rest = ([BitVec.ofNat 8 h.sig.asSlice.length] ++ h.sig.asSlice ++
      [BitVec.ofNat 8 h.crc.asSlice.length] ++ h.crc.asSlice) ++ (leBytes 4 h.len ++ s) := by
    rw [hr]; simp [asVec]
  rw [Safe.next_at' (n := 4) (k := 0 + 1 + h.sig.asSlice.length + 1 + h.crc.asSlice.length) r4 (by simp; omega) (leBytes_length ..) (by omega)]
  simp only [ByteBlock.tryFrom_asSlice]
  rw [leNat_leBytes_of_lt (by simpa using hl)]
  simp only [Safe.at, Prod.mk.injEq, true_and, Cur.mk.injEq, and_true]
  omega

theorem tryRead_prefix (h : PayloadHeader) {k : Nat} (hk : k < h.asVec.length) {c : Cur}
    (hp : c.pos ≤ c.data.length) (hr : c.rest = h.asVec.take k) :
    ∃ n, tryRead c = (.ok (.notEnough n), c) ∧ 0 < n ∧ n ≤ h.asVec.length - k := by
  have hsz := h.size_eq
  have hrl : c.rest.length = k := by rw [hr]; simp; omega
  have hs2 : h.size = 1 + h.sig.asSlice.length + 1 + h.crc.asSlice.length + 4 := rfl
  unfold tryRead
  rw [Cur.remaining_ok hp, hrl]
  simp only
  have st : ({ buf := c, spos := c.pos, read := 0, len := k } : Safe) = Safe.at c k 0 := rfl
  rw [st]
  -- the pieces of the header that are still there
  have piece : ∀ (pre m post : Bytes), h.asVec = pre ++ (m ++ post) → pre.length + m.length ≤ k →
      ∃ s, c.rest = pre ++ (m ++ s) := by
    intro pre m post e hle
    refine ⟨post.take (k - pre.length - m.length), ?_⟩
    rw [hr, e, List.take_append, List.take_of_length_le (by omega), List.take_append,
      List.take_of_length_le (by omega)]
  by_cases h1 : k < 0 + 1
  · obtain ⟨r, e, hb⟩ := Safe.next_at_short (c := c) h1
    rw [e]; simp only [Safe.andThen]
    exact ⟨_, congrArg (Prod.mk _) hb, by omega, by omega⟩
  obtain ⟨s0, r0⟩ := piece [] [BitVec.ofNat 8 h.sig.asSlice.length] _
    (by simp only [asVec, List.append_assoc, List.nil_append]; rfl) (by simp; omega)
  rw [Safe.next_at' (n := 1) (k := 0) r0 rfl rfl (by omega)]
  simp only [Safe.andThen]
  rw [byte0_len h.sig.size_legal, ByteBlock.isValidCapacity_legal h.sig.size_legal]
  simp only [Safe.orErr]
  by_cases h2 : k < 0 + 1 + h.sig.asSlice.length
  · obtain ⟨r, e, hb⟩ := Safe.next_at_short (c := c) h2
    rw [e]
    exact ⟨_, congrArg (Prod.mk _) hb, by omega, by omega⟩
  obtain ⟨s1, r1⟩ := piece [BitVec.ofNat 8 h.sig.asSlice.length] h.sig.asSlice _
    (by simp only [asVec, List.append_assoc]; rfl) (by simp; omega)
  rw [Safe.next_at' (k := 0 + 1) r1 rfl rfl (by omega)]
  simp only
  by_cases h3 : k < 0 + 1 + h.sig.asSlice.length + 1
  · obtain ⟨r, e, hb⟩ := Safe.next_at_short (c := c) h3
    rw [e]
    exact ⟨_, congrArg (Prod.mk _) hb, by omega, by omega⟩
  obtain ⟨s2, r2⟩ := piece ([BitVec.ofNat 8 h.sig.asSlice.length] ++ h.sig.asSlice)
    [BitVec.ofNat 8 h.crc.asSlice.length] _
    (by simp only [asVec, List.append_assoc]; rfl) (by simp; omega)
  rw [Safe.next_at' (n := 1) (k := 0 + 1 + h.sig.asSlice.length) r2 (by simp; omega) rfl (by omega)]
  simp only
  rw [byte0_len h.crc.size_legal, ByteBlock.isValidCapacity_legal h.crc.size_legal]
  simp only
  by_cases h4 : k < 0 + 1 + h.sig.asSlice.length + 1 + h.crc.asSlice.length
  · obtain ⟨r, e, hb⟩ := Safe.next_at_short (c := c) h4
    rw [e]
    exact ⟨_, congrArg (Prod.mk _) hb, by omega, by omega⟩
  obtain ⟨s3, r3⟩ := piece ([BitVec.ofNat 8 h.sig.asSlice.length] ++ h.sig.asSlice ++
    [BitVec.ofNat 8 h.crc.asSlice.length]) h.crc.asSlice _
    (by simp only [asVec, List.append_assoc]; rfl) (by simp; omega)
  rw [Safe.next_at' (k := 0 + 1 + h.sig.asSlice.length + 1) r3 (by simp; omega) rfl (by omega)]
  simp only
  obtain ⟨r, e, hb⟩ := Safe.next_at_short (c := c) (len := k)
    (k := 0 + 1 + h.sig.asSlice.length + 1 + h.crc.asSlice.length) (n := 4) (by omega)
  rw [e]
  exact ⟨_, congrArg (Prod.mk _) hb, by omega, by omega⟩

end PayloadHeader

end Brec
