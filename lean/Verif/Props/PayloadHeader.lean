import Verif.PayloadHeader
/-!
# Properties C07, C08, C09: byte blocks and the payload header
-/

namespace Brec.Props

open Brec

/-- **C07.** A byte vector converts to a `ByteBlock` exactly when its length is one of the six
documented capacities; the block then gives back the same bytes and length. Otherwise the error is
`InvalidCapacity` with that length (never `FailExtractByteBlock`, never a panic). -/
theorem C07_byteblock_capacity (v : Bytes) :
    (v.length ∈ [4, 8, 16, 32, 64, 128] →
      ∃ b, ByteBlock.tryFrom v = .ok b ∧ b.asSlice = v ∧ b.size = v.length) ∧
    (v.length ∉ [4, 8, 16, 32, 64, 128] →
      ByteBlock.tryFrom v = .err (.invalidCapacity v.length)) := by
  constructor
  · intro h
    obtain ⟨b, h1, h2⟩ := ByteBlock.tryFrom_legal (v := v) (by simpa [ByteBlock.Legal] using h)
    exact ⟨b, h1, h2, by rw [ByteBlock.size, h2]⟩
  · intro h
    exact ByteBlock.tryFrom_illegal (by simpa [ByteBlock.Legal] using h)

example : ([1, 2, 3, 4] : Bytes).length ∈ [4, 8, 16, 32, 64, 128] := by decide
example : ([1, 2, 3, 4, 5] : Bytes).length ∉ [4, 8, 16, 32, 64, 128] := by decide

/-- Documented layout (`payload/header/mod.rs:14-23`). -/
def specPayloadHeader (sig crc : Bytes) (len : Nat) : Bytes :=
  leBytes 1 sig.length ++ sig ++ leBytes 1 crc.length ++ crc ++ leBytes 4 len

/-- **C08.** For every payload header the serialized form has the documented layout and length
`size()`, and each of the three readers returns the same header. The stream and seekable readers
consume exactly the header; the buffered reader consumes nothing (the caller does). -/
theorem C08_payload_header_roundtrip (h : PayloadHeader) (hl : h.len < 2 ^ 32) (s pre : Bytes)
    (chk : Bool) (cs : Chunks) :
    h.asVec = specPayloadHeader h.sig.asSlice h.crc.asSlice h.len ∧
    h.asVec.length = h.size ∧
    PayloadHeader.read.run (h.asVec ++ s) = (.ok h, s) ∧
    PayloadHeader.tryRead ⟨pre ++ (h.asVec ++ s), pre.length, chk⟩ =
      (.ok (.success h), ⟨pre ++ (h.asVec ++ s), pre.length + h.size, chk⟩) ∧
    (Chunks.fill cs = h.asVec ++ s → PayloadHeader.tryBuf cs = (.ok (.success h), cs)) := by
  refine ⟨?_, h.size_eq, h.read_asVec hl s, ?_, ?_⟩
  · simp [PayloadHeader.asVec, specPayloadHeader, leBytes]
  · exact h.tryRead_asVec hl (s := s) (by simp) (by simp [Cur.rest])
  · intro hf; rw [PayloadHeader.tryBuf, hf, h.peek_asVec hl s]

/-- A header with an 8-byte signature and a 4-byte CRC. -/
def sampleHeader : PayloadHeader :=
  { sig := .len8 ⟨[1, 2, 3, 4, 5, 6, 7, 8], rfl⟩, crc := .len4 ⟨[9, 10, 11, 12], rfl⟩, len := 77 }

example : sampleHeader.len < 2 ^ 32 := by decide
example : sampleHeader.asVec = [8, 1, 2, 3, 4, 5, 6, 7, 8, 4, 9, 10, 11, 12, 77, 0, 0, 0] := by decide

/-- The documented range of the length of a payload header (`site/docs/specification.md`, "14 - 262 bytes"). Both ends are reached, and the
length says nothing else than the two capacities. -/
theorem C08_size (h : PayloadHeader) :
    14 ≤ h.asVec.length ∧ h.asVec.length ≤ 262 ∧
    (h.asVec.length = 14 ↔ h.sig.asSlice.length = 4 ∧ h.crc.asSlice.length = 4) ∧
    (h.asVec.length = 262 ↔ h.sig.asSlice.length = 128 ∧ h.crc.asSlice.length = 128) := by
  have key : ∀ b : ByteBlock, b.asSlice.length ∈ [4, 8, 16, 32, 64, 128] := by
    intro b; cases b <;> rename_i a <;> simp [ByteBlock.asSlice, a.2]
  have h1 := key h.sig
  have h2 := key h.crc
  have h3 : h.asVec.length = 6 + h.sig.asSlice.length + h.crc.asSlice.length := by
    rw [h.size_eq, PayloadHeader.size, ByteBlock.size, ByteBlock.size]; omega
  simp only [List.mem_cons, List.not_mem_nil, or_false] at h1 h2
  rw [h3]
  refine ⟨by omega, by omega, by omega, by omega⟩

example : ∃ h : PayloadHeader, h.asVec.length = 262 :=
  ⟨⟨.len128 ⟨List.replicate 128 0, List.length_replicate⟩, .len128 ⟨List.replicate 128 1, List.length_replicate⟩, 5⟩, (C08_size _).2.2.2.mpr ⟨List.length_replicate, List.length_replicate⟩⟩

/-- **C09.** Given only the first `k` bytes of a serialized payload header, the seekable and the
buffered readers ask for at least one and at most the missing number of bytes and leave the source
as it was. -/
theorem C09_payload_header_incomplete (h : PayloadHeader) (k : Nat) (hk : k < h.asVec.length)
    (pre : Bytes) (chk : Bool) (cs : Chunks) :
    (∃ n, PayloadHeader.tryRead ⟨pre ++ h.asVec.take k, pre.length, chk⟩ =
        (.ok (.notEnough n), ⟨pre ++ h.asVec.take k, pre.length, chk⟩) ∧
        0 < n ∧ n ≤ h.asVec.length - k) ∧
    (Chunks.fill cs = h.asVec.take k → ∃ n, PayloadHeader.tryBuf cs = (.ok (.notEnough n), cs) ∧
        0 < n ∧ n ≤ h.asVec.length - k) := by
  constructor
  · exact h.tryRead_prefix hk (by simp) (by simp [Cur.rest])
  · intro hf
    obtain ⟨n, e, h1, h2⟩ := h.peek_prefix hk
    exact ⟨n, by rw [PayloadHeader.tryBuf, hf, e], h1, h2⟩

example : 5 < sampleHeader.asVec.length := by decide

/-- Consequence of C09: a caller that keeps appending at least the requested number of bytes needs
at most `size()` rounds — each retry strictly increases the number of bytes held, and never asks
past the end of the header. -/
theorem C09_progress (h : PayloadHeader) (k : Nat) (hk : k < h.asVec.length) :
    ∃ n, PayloadHeader.peek (h.asVec.take k) = .ok (.notEnough n) ∧ k < k + n ∧
      k + n ≤ h.asVec.length := by
  obtain ⟨n, e, h1, h2⟩ := h.peek_prefix hk
  exact ⟨n, e, by omega, by omega⟩

end Brec.Props
