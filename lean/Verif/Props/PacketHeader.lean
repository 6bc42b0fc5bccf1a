import Verif.PacketHeader
import Verif.Props.Crc
/-!
# Properties C10, C11, C12: packet header
-/

namespace Brec.Props

open Brec

/-- Independent description of the documented header layout
(`site/docs/specification.md`, header table): signature, total size, blocks size, flag, CRC. -/
def specHeader (size blocksLen : Nat) (payload : Bool) : Bytes :=
  let body := leBytes 8 size ++ leBytes 8 blocksLen ++ [if payload then 1 else 0]
  [236, 37, 94, 136, 236, 37, 94, 136] ++ body ++ leBytes 4 (specCrc body)

/-- **C10.** A packet header made for any block bytes and any optional payload is 29 bytes long, has
the documented layout, and the stream, slice and seekable readers give it back identically and
leave exactly the bytes that follow it. -/
theorem C10_header_roundtrip (bl : Nat) (pl : Option Nat) (hsz : bl + pl.getD 0 < 2 ^ 64)
    (s : Bytes) (pre : Bytes) (chk : Bool) :
    let h := PacketHeader.ofSizes bl pl
    h.bytes = specHeader (bl + pl.getD 0) bl pl.isSome ∧
    h.bytes.length = 29 ∧
    PacketHeader.read.run (h.bytes ++ s) = (.ok h, s) ∧
    PacketHeader.readSlice (h.bytes ++ s) = .ok h ∧
    PacketHeader.tryRead ⟨pre ++ (h.bytes ++ s), pre.length, chk⟩ =
      (.ok (.success h), ⟨pre ++ (h.bytes ++ s), pre.length + 29, chk⟩) := by
  intro h
  have w : h.WF := PacketHeader.ofSizes_wf hsz
  refine ⟨?_, PacketHeader.bytes_length h, PacketHeader.read_bytes w s,
    PacketHeader.readSlice_bytes w s, ?_⟩
  · have hc : leBytes 4 h.crc = PacketHeader.crcOf h.size h.blocksLen h.payload := by
      rw [w.crc_eq]; exact leBytes_leNat' (PacketHeader.crcOf_length ..)
    rw [PacketHeader.bytes, hc, PacketHeader.crcOf, crcBytes]
    simp only [specHeader, ← C51_crc32]
    simp [PACKET_SIG, flagByte, h, PacketHeader.ofSizes]
  · exact PacketHeader.tryRead_bytes (s := s) w (by simp) (by simp [Cur.rest])

example : (3 : Nat) + (some 5).getD 0 < 2 ^ 64 := by decide
example : (PacketHeader.ofSizes 3 (some 5)).bytes.length = 29 := by decide +kernel

/-- Same observable content of two headers. -/
def SameHeader (a b : PacketHeader) : Prop :=
  a.size = b.size ∧ a.blocksLen = b.blocksLen ∧ a.payload = b.payload

theorem header_burst {h h' : PacketHeader} (w : h.WF) {b s s' : Bytes} (hb : Burst4 h.bytes b)
    (e : PacketHeader.read.run (b ++ s) = (.ok h', s')) : SameHeader h' h := by
  obtain ⟨flag, hf, w', eb⟩ := PacketHeader.read_eq_ok e
  have hbl : b.length = HSIZE := by rw [← hb.1]; simp
  have ebb : b = PacketHeader.raw h'.size h'.blocksLen flag
      (PacketHeader.crcOf h'.size h'.blocksLen h'.payload) := by
    refine (List.append_inj eb ?_).1
    rw [hbl]; simp [PacketHeader.raw, PACKET_SIG, PacketHeader.crcOf_length, HSIZE]
  have hc : leBytes 4 h.crc = PacketHeader.crcOf h.size h.blocksLen h.payload := by
    rw [w.crc_eq]; exact leBytes_leNat' (PacketHeader.crcOf_length ..)
  have hd := hb.drop 8
  rw [ebb, PacketHeader.bytes, PacketHeader.raw, hc] at hd
  simp only [List.append_assoc] at hd
  rw [show (8 : Nat) = PACKET_SIG.length from rfl, List.drop_left, List.drop_left] at hd
  simp only [PACKET_SIG_length] at hd
  have can : Canon (leBytes 8 h.size ++ (leBytes 8 h.blocksLen ++ ([flagByte h.payload] ++
      PacketHeader.crcOf h.size h.blocksLen h.payload)))
      (leBytes 8 h'.size ++ (leBytes 8 h'.blocksLen ++ ([flag] ++
      PacketHeader.crcOf h'.size h'.blocksLen h'.payload)))
      (leBytes 8 h'.size ++ (leBytes 8 h'.blocksLen ++ ([flagByte h'.payload] ++
      PacketHeader.crcOf h'.size h'.blocksLen h'.payload))) := by
    refine (Canon.refl (by simp)).append ((Canon.refl (by simp)).append
      ((Canon.single ?_).append (Canon.refl ?_)))
    · intro hx
      rw [hf, ← hx]
      cases h.payload <;> decide
    · simp [PacketHeader.crcOf_length]
  have hb2 := can.burst hd
  have re : ∀ k : PacketHeader, leBytes 8 k.size ++ (leBytes 8 k.blocksLen ++ ([flagByte k.payload] ++
      PacketHeader.crcOf k.size k.blocksLen k.payload)) =
      (leBytes 8 k.size ++ leBytes 8 k.blocksLen ++ [flagByte k.payload]) ++
      crcBytes (leBytes 8 k.size ++ leBytes 8 k.blocksLen ++ [flagByte k.payload]) := by
    intro k; simp [PacketHeader.crcOf]
  rw [re, re] at hb2
  have key := crc_burst hb2
  have k1 := List.append_inj key (by simp)
  have k2 := List.append_inj k1.1 (by simp)
  refine ⟨leBytes_inj (by simpa using w'.size_lt) (by simpa using w.size_lt) k2.1.symm,
    leBytes_inj (by simpa using w'.blocks_lt) (by simpa using w.blocks_lt) k2.2.symm, ?_⟩
  have := k1.2
  revert this
  cases h.payload <;> cases h'.payload <;> decide

/-- **C11.** If at most four consecutive bytes of a written packet header are changed, every header
reader fails or returns a header with the same size, blocks length and payload flag. -/
theorem C11_header_corruption (h : PacketHeader) (w : h.WF) (b s : Bytes)
    (hb : Burst4 h.bytes b) (h' : PacketHeader) :
    ((PacketHeader.read.run (b ++ s)).1 = .ok h' → SameHeader h' h) ∧
    (PacketHeader.readSlice (b ++ s) = .ok h' → SameHeader h' h) ∧
    (∀ c : Cur, c.rest = b ++ s → (PacketHeader.tryRead c).1 = .ok (.success h') → SameHeader h' h) := by
  refine ⟨fun e => ?_, fun e => ?_, fun c hr e => ?_⟩
  · exact header_burst w hb (s := s) (s' := (PacketHeader.read.run (b ++ s)).2) (Prod.ext e rfl)
  · exact header_burst w hb (PacketHeader.readSlice_eq_read e)
  · unfold PacketHeader.tryRead at e
    split at e
    · cases e
    · cases e
    · split at e
      · cases e
      · simp only [Cur.run, hr] at e
        match hx : PacketHeader.read.run (b ++ s) with
        | (.ok k, t) =>
          rw [hx] at e
          simp only [Out.map_ok, Out.ok.injEq, Status.success.injEq] at e
          subst e
          exact header_burst w hb hx
        | (.err _, t) => rw [hx] at e; simp at e
        | (.panic, t) => rw [hx] at e; simp at e

/-- The hypotheses of C11 are met by a really corrupted header (bytes 8..11 changed)… -/
example : Burst4 (PacketHeader.ofSizes 3 (some 5)).bytes
    ((PacketHeader.ofSizes 3 (some 5)).bytes.take 8 ++ [1, 2, 3, 4] ++
      (PacketHeader.ofSizes 3 (some 5)).bytes.drop 12) := by
  have : (PacketHeader.ofSizes 3 (some 5)).bytes =
    (PacketHeader.ofSizes 3 (some 5)).bytes.take 8 ++
      ((PacketHeader.ofSizes 3 (some 5)).bytes.drop 8).take 4 ++
      (PacketHeader.ofSizes 3 (some 5)).bytes.drop 12 := by decide +kernel
  conv => lhs; rw [this]
  exact Burst4.of_split _ _ _ _ (by decide +kernel) (by decide +kernel)
/-- … and the second alternative of C11 (accepted with the same content) really occurs: flag byte 0
read as 7 is still "no payload". -/
example : PacketHeader.readSlice ((PacketHeader.ofSizes 3 none).bytes.set 24 7) =
    .ok (PacketHeader.ofSizes 3 none) := by decide +kernel

/-! ## C12 -/

/-- `k` is the first position at which the packet signature occurs. -/
def FirstSigAt (buf : Bytes) (k : Nat) : Prop :=
  PACKET_SIG <+: buf.drop k ∧ ∀ j < k, ¬ PACKET_SIG <+: buf.drop j

/-- Full statement of C12: the search finds the first signature, and reports none only if there is
none. -/
def C12_full : Prop := ∀ buf k, getPos buf = some k ↔ FirstSigAt buf k

/-- **C12 is false of the code**: a signature in the last 8 bytes of the buffer is missed. -/
theorem C12_get_pos_misses_last : ¬ C12_full := by
  intro h
  have := (h PACKET_SIG 0).mpr ⟨by decide, by intro j hj; omega⟩
  revert this; decide

/-- **C12 (partial).** The search returns the first signature position exactly when at least one
more byte follows that signature. Missing from the full statement: a signature that ends exactly at
the end of the buffer. -/
theorem C12_get_pos_partial (buf : Bytes) (k : Nat) :
    getPos buf = some k ↔ FirstSigAt buf k ∧ k + 8 < buf.length := by
  induction buf generalizing k with
  | nil => simp [getPos]
  | cons b bs ih =>
    unfold getPos
    split
    · rename_i hl
      simp only [List.length_cons] at hl
      split
      · rename_i hp
        rw [List.isPrefixOf_iff_prefix] at hp
        constructor
        · intro e
          injection e with e; subst e
          exact ⟨⟨by simpa using hp, by intro j hj; omega⟩, by simp; omega⟩
        · rintro ⟨⟨_, h2⟩, _⟩
          cases k with
          | zero => rfl
          | succ k => exact absurd (by simpa using hp) (h2 0 (by omega))
      · rename_i hp
        rw [List.isPrefixOf_iff_prefix] at hp
        constructor
        · intro e
          simp only [Option.map_eq_some_iff] at e
          obtain ⟨m, e, rfl⟩ := e
          obtain ⟨⟨h1, h2⟩, h3⟩ := (ih m).mp e
          refine ⟨⟨by simpa using h1, ?_⟩, by simp; omega⟩
          intro j hj
          cases j with
          | zero => simpa using hp
          | succ j => simpa using h2 j (by omega)
        · rintro ⟨⟨h1, h2⟩, h3⟩
          cases k with
          | zero => exact absurd (by simpa using h1) hp
          | succ k =>
            simp only [Option.map_eq_some_iff]
            refine ⟨k, (ih k).mpr ⟨⟨by simpa using h1, ?_⟩, by simp at h3; omega⟩, rfl⟩
            intro j hj
            simpa using h2 (j + 1) (by omega)
    · rename_i hl
      simp only [List.length_cons] at hl
      constructor
      · intro e; cases e
      · rintro ⟨_, h⟩; simp at h; omega

example : FirstSigAt ([1, 2] ++ PACKET_SIG ++ [0]) 2 ∧ 2 + 8 < ([1, 2] ++ PACKET_SIG ++ [0]).length := by
  refine ⟨⟨by decide, ?_⟩, by decide⟩
  intro j hj
  match j, hj with
  | 0, _ => decide
  | 1, _ => decide

/-- Companion fact: the buffered header reader takes the header's 29 bytes *and* drops up to 29 more
bytes of what follows (double consumption), so it may not be used on its own. -/
theorem header_buffered_double_consume (h : PacketHeader) (w : h.WF) (s : Bytes) :
    (PacketHeader.tryBuf [h.bytes ++ s]).1 = .ok (.success h) ∧
    (PacketHeader.tryBuf [h.bytes ++ s]).2.flatten = s.drop 29 := by
  unfold PacketHeader.tryBuf
  rw [if_neg (by simp), Chunks.run_take (m := h.bytes) (s := s) (by simp) (PacketHeader.read_bytes w s)]
  refine ⟨rfl, ?_⟩
  simp only
  rw [PacketHeader.bytes_length]
  by_cases hs : s = []
  · subst hs
    simp [Chunks.consume, Chunks.skip, HSIZE]
  · have e : Chunks.skip HSIZE [h.bytes ++ s] = [s] := by
      rw [Chunks.skip, if_pos]
      · rw [← PacketHeader.bytes_length h]; simp
      · have := List.length_pos_iff.mpr hs; simp; omega
    rw [e, Chunks.consume, Chunks.flatten_skip]
    simp only [Chunks.fill_single, List.flatten_cons, List.flatten_nil, List.append_nil, HSIZE]
    by_cases hl : 29 ≤ s.length
    · rw [Nat.min_eq_left hl]
    · rw [Nat.min_eq_right (by omega), List.drop_length, List.drop_eq_nil_of_le (by omega)]

end Brec.Props
