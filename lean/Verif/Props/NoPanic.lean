import Verif.NoPanic
import Verif.Props.Packet
/-!
# Property C49: packet readers on arbitrary bytes
-/

namespace Brec.Props

open Brec Packet

variable {O : BlockOps} {Q : PayloadOps}

/-- The claim: none of the four packet readers panics, whatever the bytes. -/
def C49_full : Prop :=
  ∀ (vs : List BlockTy) (ps : List PayloadTy) (s : Bytes),
    ((Packet.read (O := blockEnum vs) (PEnum.ops ps)).run s).1 ≠ .panic ∧
    (Packet.tryRead (O := blockEnum vs) (PEnum.ops ps) ⟨s, 0, true⟩).1 ≠ .panic ∧
    (Packet.tryBuf (O := blockEnum vs) (PEnum.ops ps) [s]).1 ≠ .panic ∧
    ∀ rules : Rules (blockEnum vs).BR (Packet (blockEnum vs) (PEnum.ops ps)),
      ((Packet.filtered (PEnum.ops ps) rules).run s).1 ≠ .panic

/-- A header that announces 2^63 bytes, with a matching CRC: 29 bytes. -/
def hugeHeader : Bytes := (PacketHeader.ofSizes (2 ^ 63) none).bytes

/-- False of the code: `ReadFrom` allocates the announced size before reading ("capacity overflow"). -/
theorem C49_huge_size_panics : ¬ C49_full := by
  intro h
  have h1 := (h [] [] hugeHeader).1
  apply h1
  have h2 := PacketHeader.read_bytes (h := PacketHeader.ofSizes (2 ^ 63) none) (PacketHeader.ofSizes_wf (by decide)) []
  rw [List.append_nil] at h2
  unfold Packet.read hugeHeader
  rw [P.bind_ok h2]
  rfl

/-- **C49** for `ReadFrom`: no panic unless the announced size is 2^63 or more. -/
theorem C49_read_partial (hO : O.Safe) (hQ : Q.Safe) (s : Bytes)
    (hs : ∀ h s', PacketHeader.read.run s = (.ok h, s') → h.size < 2 ^ 63) :
    ((Packet.read (O := O) Q).run s).1 ≠ .panic := by
  unfold Packet.read
  rw [P.bind_run]
  have h0 := PacketHeader.read_np s
  match hr : PacketHeader.read.run s with
  | (.err e, s') => simp
  | (.panic, s') => rw [hr] at h0; exact absurd rfl h0
  | (.ok h, s') =>
    simp only
    rw [P.bind_ok (a := ()) (s' := s') (by simp [allocZeroed, hs h s' hr])]
    refine (P.readExact_np h.size).bind (fun inner => P.lift_np ?_) s'
    unfold ofInner
    have hb : (if h.blocksLen > 0 then blocksBuf O h.blocksLen MAX_BLOCKS 0 [] [inner]
        else (.ok (.success []), [inner])).1 ≠ .panic := by
      split
      · exact blocksBuf_np hO _ _ _ _ _
      · simp
    simp only
    split
    · split
      · have h1 := Chunks.run_np PayloadHeader.read_np
          (if h.blocksLen > 0 then blocksBuf O h.blocksLen MAX_BLOCKS 0 [] [inner] else (.ok (.success []), [inner])).2
        split
        · exact Out.map_ne_panic (Chunks.run_np (hQ.read_np _) _)
        · simp
        · rename_i hx; rw [hx] at h1; exact absurd rfl h1
      · simp
    · simp
    · simp
    · rename_i hx; exact absurd hx hb

/-- **C49** for `TryReadFrom`: never panics (with the position inside the source). -/
theorem C49_tryRead (hO : O.Safe) (hQ : Q.Safe) {c : Cur} (hc : c.pos ≤ c.data.length) :
    (Packet.tryRead (O := O) Q c).1 ≠ .panic := by
  unfold Packet.tryRead
  rw [Cur.remaining_ok hc]
  simp only
  have h0 := PacketHeader.tryRead_safe hc
  split
  · simp
  · simp
  · rename_i hx; rw [hx] at h0; exact absurd rfl h0.1
  · rename_i h c1 hx
    rw [hx] at h0
    split
    · simp
    · have hb : CurSafe c1 (if h.blocksLen > 0 then blocksCur O h.blocksLen MAX_BLOCKS 0 [] c1 else (.ok (.success []), c1)) := by
        split
        · exact blocksCur_safe hO _ _ _ _ h0.2.1
        · exact ⟨by simp, h0.2.1, rfl⟩
      generalize (if h.blocksLen > 0 then blocksCur O h.blocksLen MAX_BLOCKS 0 [] c1 else (.ok (.success []), c1)) = r at hb
      split
      · unfold payloadCur
        split
        · have h1 := PayloadHeader.tryRead_safe hb.2.1
          split
          · rename_i ph c2 hy
            rw [hy] at h1
            have h2 := hQ.tryRead_safe ph c2 h1.2.1
            split
            · simp
            · simp
            · simp
            · rename_i hz; rw [hz] at h2; exact absurd rfl h2.1
          · simp
          · simp
          · rename_i hy; rw [hy] at h1; exact absurd rfl h1.1
        · simp
      · simp
      · simp
      · rename_i hy; exact absurd hy hb.1

/-- **C49** for `TryReadFromBuffered`: never panics. -/
theorem C49_tryBuf (hO : O.Safe) (hQ : Q.Safe) (cs : Chunks) : (Packet.tryBuf (O := O) Q cs).1 ≠ .panic := by
  unfold Packet.tryBuf
  simp only
  split
  · simp
  · have h0 := PacketHeader.readSlice_np (Chunks.fill cs)
    split
    · simp
    · rename_i hx; exact absurd hx h0
    · rename_i h hx
      split
      · simp
      · have hb : (if h.blocksLen > 0 then blocksBuf O h.blocksLen MAX_BLOCKS 0 [] (Chunks.consume HSIZE cs)
            else (.ok (.success []), Chunks.consume HSIZE cs)).1 ≠ .panic := by
          split
          · exact blocksBuf_np hO _ _ _ _ _
          · simp
        split
        · split
          · have h1 : ∀ cs, (PayloadHeader.tryBuf cs).1 ≠ .panic := fun cs => PayloadHeader.peek_np _
            split
            · rename_i ph cs2 hy
              have h2 := hQ.tryBuf_np ph (Chunks.consume ph.size cs2)
              split
              · simp
              · simp
              · simp
              · rename_i hz; rw [hz] at h2; exact absurd rfl h2
            · simp
            · simp
            · rename_i hy; exact absurd (congrArg Prod.fst hy) (h1 _)
          · simp
        · simp
        · simp
        · rename_i hy; exact absurd hy hb

/-- **C49** for `filtered`: no panic unless the announced size is 2^63 or more. -/
theorem C49_filtered_partial (hO : O.Safe) (hQ : Q.Safe) (rules : Rules O.BR (Packet O Q)) (s : Bytes)
    (hs : ∀ h s', PacketHeader.read.run s = (.ok h, s') → h.size < 2 ^ 63) :
    ((Packet.filtered Q rules).run s).1 ≠ .panic := by
  unfold Packet.filtered
  rw [P.bind_run]
  have h0 := PacketHeader.read_np s
  match hr : PacketHeader.read.run s with
  | (.err e, s') => simp
  | (.panic, s') => rw [hr] at h0; exact absurd rfl h0
  | (.ok h, s') =>
    simp only
    rw [P.bind_ok (a := ()) (s' := s') (by simp [allocZeroed, hs h s' hr])]
    refine (P.readExact_np h.size).bind (fun buf => P.lift_np ?_) s'
    unfold look
    have hl : (if h.blocksLen > 0 then slicesLoop O buf h.blocksLen (buf.length + 1) 0 [] else .ok []) ≠ .panic ∧
        ∀ rs, (if h.blocksLen > 0 then slicesLoop O buf h.blocksLen (buf.length + 1) 0 [] else .ok []) = .ok rs →
          h.blocksLen ≤ buf.length := by
      split
      · exact slicesLoop_fuel hO _ _ _ _ _ (by omega) (by omega)
      · exact ⟨by simp, fun _ _ => by omega⟩
    refine Out.bind_ne_panic hl.1 fun rs hrs => ?_
    have hle := hl.2 rs hrs
    have hfin : ∀ p : Packet O Q, (if rules.filter p = true then Out.ok (Look.accepted h.size p)
        else .ok (.denied h.size)) ≠ .panic := by
      intro p; split <;> simp
    split
    · simp
    · dsimp only
      split
      · rw [if_neg (by omega)]
        have hp := PayloadHeader.peek_np (Chunks.fill [buf.drop h.blocksLen])
        match hk : PayloadHeader.peek (Chunks.fill [buf.drop h.blocksLen]) with
        | .ok (.success ph) =>
          simp only
          rw [Chunks.fill_single] at hk
          obtain ⟨t, ht, _⟩ := PayloadHeader.peek_canon hk
          have := congrArg List.length ht
          rw [List.length_drop, List.length_append, PayloadHeader.size_eq] at this
          rw [if_neg (by omega)]
          split
          · simp
          · have hq := hQ.tryBuf_np ph [buf.drop (h.blocksLen + ph.size)]
            split
            · exact hfin _
            · simp
            · simp
            · rename_i hz; exact absurd hz hq
        | .ok (.notEnough n) => simp
        | .err e => simp
        | .panic => exact absurd hk hp
      · exact hfin _

/-- The generated enums meet the hypotheses, for every choice of block and payload types. -/
example (vs : List BlockTy) (ps : List PayloadTy) : (blockEnum vs).Safe ∧ (PEnum.ops ps).Safe :=
  ⟨blockEnum_safe vs, PEnum.ops_safe ps⟩

end Brec.Props
