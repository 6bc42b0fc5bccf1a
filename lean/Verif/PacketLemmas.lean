import Verif.Packet
/-!
# Packet lemmas
-/

namespace Brec

/-- What a block codec owes to the packet code for the blocks in `ok`: `enc` are the bytes of a block and `ref` its
zero-copy view. For generated enums this follows from C01–C03, C06 (`blockEnumSpec`). -/
structure BlockSpec (O : BlockOps) where
  ok : O.B → Prop
  enc : O.B → Bytes
  ref : O.B → O.BR
  buffer_eq : ∀ b, ok b → O.buffer b = .ok (enc b)
  slices_eq : ∀ b, ok b → ∃ ss, O.slices b = .ok ss ∧ ss.flatten = enc b
  size_eq : ∀ b, ok b → O.size b = (enc b).length
  rsize_eq : ∀ b, ok b → O.rsize (ref b) = (enc b).length
  into_eq : ∀ b, ok b → O.into (ref b) = b
  four_le : ∀ b, ok b → 4 ≤ (enc b).length
  readSlice_eq : ∀ b, ok b → ∀ s, O.readSlice (enc b ++ s) = .ok (ref b)
  tryRead_eq : ∀ b, ok b → ∀ (c : Cur) s, c.pos ≤ c.data.length → c.rest = enc b ++ s →
    O.tryRead c = (.ok (.success b), { c with pos := c.pos + (enc b).length })
  tryBuf_eq : ∀ b, ok b → ∀ (cs : Chunks) s, 4 ≤ (Chunks.fill cs).length → cs.flatten = enc b ++ s →
    O.tryBuf cs = (.ok (.success b), Chunks.skip (enc b).length cs)
  tryRead_short : ∀ b, ok b → ∀ (c : Cur) k, c.pos ≤ c.data.length → k < (enc b).length → c.rest = (enc b).take k →
    ∃ n p, O.tryRead c = (.ok (.notEnough n), { c with pos := p }) ∧ 0 < n ∧ n + k ≤ (enc b).length

/-- Blocks of a declared, well-formed type. -/
def blockEnumSpec (vs : List BlockTy) (hd : DistinctSigs vs) (hw : ∀ b ∈ vs, b.WF) :
    BlockSpec (blockEnum vs) where
  ok v := v.1 ∈ vs
  enc v := v.1.bytes v.2
  ref v := ⟨v.1, ⟨v.1.sig, v.2, v.1.crc v.2⟩⟩
  buffer_eq b h := BlockTy.buffer_eq (hw _ h) b.2
  slices_eq b h := BlockTy.slices_flatten b.1 b.2
  size_eq b h := (BlockTy.bytes_length (hw _ h) b.2).symm
  rsize_eq b h := (BlockTy.bytes_length (hw _ h) b.2).symm
  into_eq b h := rfl
  four_le b h := by rw [BlockTy.bytes_length (hw _ h)]; simp [BlockTy.ssize]
  readSlice_eq b h s := enumReadSlice_bytes hd h (hw _ h) b.2 s
  tryRead_eq b h c s hp hr := by
    rw [BlockTy.bytes_length (hw _ h)]
    exact enumTryRead_bytes hd h (hw _ h) b.2 hp hr
  tryBuf_eq b h cs s hf hr := by
    rw [BlockTy.bytes_length (hw _ h)]
    exact enumTryBuf_bytes hd (fun a ha => (hw a ha).sig_len) h (hw _ h) b.2 hf hr
  tryRead_short b h c k hp hk hr := by
    rw [BlockTy.bytes_length (hw _ h)] at hk
    rw [BlockTy.bytes_length (hw _ h)]
    exact enumTryRead_prefix hd h (hw _ h) b.2 hp hk hr

variable {O : BlockOps} {Q : PayloadOps}

namespace BlockSpec

/-- The bytes of a list of blocks. -/
def encs (S : BlockSpec O) (bs : List O.B) : Bytes := bs.flatMap S.enc

theorem encs_cons (S : BlockSpec O) (b : O.B) (bs : List O.B) : S.encs (b :: bs) = S.enc b ++ S.encs bs := by
  simp [encs]

theorem encs_pos (S : BlockSpec O) {bs : List O.B} (h : ∀ b ∈ bs, S.ok b) (hne : bs ≠ []) : 0 < (S.encs bs).length := by
  cases bs with
  | nil => exact absurd rfl hne
  | cons b bs =>
    have := S.four_le b (h b (by simp))
    rw [encs_cons, List.length_append]; omega

theorem length_le (S : BlockSpec O) {bs : List O.B} (h : ∀ b ∈ bs, S.ok b) : 4 * bs.length ≤ (S.encs bs).length := by
  induction bs with
  | nil => simp
  | cons b bs ih =>
    have := S.four_le b (h b (by simp))
    have := ih fun b hb => h b (by simp [hb])
    rw [encs_cons, List.length_append, List.length_cons]; omega

theorem sum_size (S : BlockSpec O) {bs : List O.B} (h : ∀ b ∈ bs, S.ok b) :
    (bs.map O.size).sum = (S.encs bs).length := by
  induction bs with
  | nil => simp [encs]
  | cons b bs ih =>
    rw [encs_cons, List.length_append, List.map_cons, List.sum_cons, S.size_eq b (h b (by simp)),
      ih fun b hb => h b (by simp [hb])]

end BlockSpec

/-- The payload bytes of a packet: nothing, or payload header and body. -/
inductive PayloadPart (Q : PayloadOps) : Option Q.V → Bytes → Prop
  | none : PayloadPart Q none []
  | some {v : Q.V} {ph : PayloadHeader} {x : Bytes} : Q.Good v ph x → PayloadPart Q (some v) (ph.asVec ++ x)

namespace Packet

/-- A packet all of whose parts can be serialized, of a size that can be allocated. -/
structure Ok (S : BlockSpec O) (p : Packet O Q) : Prop where
  blocks : ∀ b ∈ p.blocks, S.ok b
  payload : ∀ v, p.payload = some v → ∃ ph x, Q.Good v ph x
  size : ∀ h, p.header = .ok h → h.size < 2 ^ 63

/-- The shape of an `Ok` packet: header, header facts, payload bytes. -/
structure Shape (S : BlockSpec O) (p : Packet O Q) (h : PacketHeader) (pb : Bytes) : Prop where
  header : p.header = .ok h
  wf : h.WF
  blocksLen : h.blocksLen = (S.encs p.blocks).length
  size : h.size = (S.encs p.blocks).length + pb.length
  flag : h.payload = p.payload.isSome
  part : PayloadPart Q p.payload pb
  small : h.size < 2 ^ 63

theorem Ok.shape {S : BlockSpec O} {p : Packet O Q} (hp : p.Ok S) : ∃ h pb, Shape S p h pb := by
  obtain ⟨blocks, payload⟩ := p
  have hs := S.sum_size hp.blocks
  cases payload with
  | none =>
    have hh : (⟨blocks, none⟩ : Packet O Q).header = .ok (PacketHeader.ofSizes (S.encs blocks).length none) := by
      rw [header, hs]
    have hsz := hp.size _ hh
    simp only [PacketHeader.ofSizes] at hsz
    refine ⟨_, [], hh, PacketHeader.ofSizes_wf (by simp at hsz ⊢; omega), rfl, rfl, rfl, .none, by simpa [PacketHeader.ofSizes] using hsz⟩
  | some v =>
    obtain ⟨ph, x, g⟩ := hp.payload v rfl
    have hh : (⟨blocks, some v⟩ : Packet O Q).header =
        .ok (PacketHeader.ofSizes (S.encs blocks).length (some (ph.asVec ++ x).length)) := by
      simp only [header, hs, g.size_eq, Out.map_ok, g.hsize_eq, List.length_append, PayloadHeader.size_eq]
      rw [Nat.add_comm x.length]
    have hsz := hp.size _ hh
    simp only [PacketHeader.ofSizes, Option.getD_some] at hsz
    exact ⟨_, ph.asVec ++ x, hh, PacketHeader.ofSizes_wf (by simp only [Option.getD_some]; omega), rfl, rfl, rfl,
      .some g, hsz⟩

/-! ## Writing -/

theorem writeBlocks_unlimited {S : BlockSpec O} {bs : List O.B} (h : ∀ b ∈ bs, S.ok b) (got : Bytes) :
    (writeBlocks bs).run ⟨[], got⟩ = (.ok (), ⟨[], got ++ S.encs bs⟩) := by
  induction bs generalizing got with
  | nil => simp [writeBlocks, BlockSpec.encs]
  | cons b bs ih =>
    rw [writeBlocks, W.bind_ok (by rw [W.lift_run, S.buffer_eq b (h b (by simp))]),
      W.bind_ok (Sink.writeAll_unlimited ..), ih (fun b hb => h b (by simp [hb])), S.encs_cons,
      List.append_assoc]

theorem writeAll_unlimited {S : BlockSpec O} {p : Packet O Q} {h : PacketHeader} {pb : Bytes}
    (hok : ∀ b ∈ p.blocks, S.ok b) (sh : Shape S p h pb) (got : Bytes) :
    p.writeAll.run ⟨[], got⟩ = (.ok (), ⟨[], got ++ (h.bytes ++ S.encs p.blocks ++ pb)⟩) := by
  rw [writeAll, W.bind_ok (by rw [W.lift_run, sh.header]), W.bind_ok (Sink.writeAll_unlimited ..),
    W.bind_ok (writeBlocks_unlimited hok _)]
  have hp := sh.part
  obtain ⟨blocks, payload⟩ := p
  cases hp with
  | none => simp
  | some g =>
    simp only
    rw [W.bind_ok (by rw [W.lift_run, g.parts_eq]), W.bind_ok (Sink.writeAll_unlimited ..), Sink.writeAll_unlimited]
    simp [List.append_assoc]

theorem serialize_eq {S : BlockSpec O} {p : Packet O Q} {h : PacketHeader} {pb : Bytes}
    (hok : ∀ b ∈ p.blocks, S.ok b) (sh : Shape S p h pb) :
    p.serialize = .ok (h.bytes ++ S.encs p.blocks ++ pb) := by
  rw [serialize, writeAll_unlimited hok sh]; rfl

/-! ## The block loops -/

theorem blocksBuf_eq {S : BlockSpec O} {blocksLen : Nat} {bs : List O.B} (h : ∀ b ∈ bs, S.ok b) (hne : bs ≠ [])
    {left read : Nat} {acc : List O.B} {cs : Chunks} {s : Bytes} (hr : cs.flatten = S.encs bs ++ s)
    (hf : (S.encs bs).length ≤ (Chunks.fill cs).length) (hl : bs.length ≤ left + 1)
    (hb : read + (S.encs bs).length = blocksLen) :
    blocksBuf O blocksLen left read acc cs =
      (.ok (.success (acc ++ bs)), Chunks.skip (S.encs bs).length cs) := by
  induction bs generalizing left read acc cs with
  | nil => exact absurd rfl hne
  | cons b bs ih =>
    have hb4 := S.four_le b (h b (by simp))
    have hsz := S.size_eq b (h b (by simp))
    rw [S.encs_cons] at hr hf hb ⊢
    rw [List.append_assoc] at hr
    rw [List.length_append] at hf hb ⊢
    rw [blocksBuf.eq_def]
    simp only
    rw [S.tryBuf_eq b (h b (by simp)) cs _ (by omega) hr]
    simp only
    by_cases hbs : bs = []
    · subst hbs
      rw [if_pos (by rw [hsz]; simp [BlockSpec.encs] at hb; omega)]
      simp [BlockSpec.encs]
    · have hpos := S.encs_pos (fun b hb => h b (by simp [hb])) hbs
      rw [if_neg (by omega)]
      cases left with
      | zero =>
        exfalso
        cases bs with
        | nil => exact hbs rfl
        | cons => simp at hl
      | succ left =>
        simp only
        rw [ih (fun b hb => h b (by simp [hb])) hbs (cs := Chunks.skip (S.enc b).length cs)]
        · rw [Chunks.skip_skip _ _ _ (by rw [hr]; simp)]
          simp
        · rw [Chunks.flatten_skip, hr]; simp
        · rw [Chunks.fill_skip (by omega), List.length_drop]; omega
        · simp at hl; omega
        · rw [hsz]; omega

/-- More blocks than the loop allows. -/
theorem blocksBuf_max {S : BlockSpec O} {blocksLen : Nat} {bs : List O.B} (h : ∀ b ∈ bs, S.ok b)
    {left read : Nat} {acc : List O.B} {cs : Chunks} {s : Bytes} (hr : cs.flatten = S.encs bs ++ s)
    (hf : (S.encs bs).length ≤ (Chunks.fill cs).length) (hl : left + 1 < bs.length)
    (hb : read + (S.encs bs).length = blocksLen) :
    (blocksBuf O blocksLen left read acc cs).1 = .err .maxBlocksCount := by
  induction bs generalizing left read acc cs with
  | nil => simp at hl
  | cons b bs ih =>
    have hb4 := S.four_le b (h b (by simp))
    have hsz := S.size_eq b (h b (by simp))
    rw [S.encs_cons] at hr hf hb
    rw [List.append_assoc] at hr
    rw [List.length_append] at hf hb
    rw [blocksBuf.eq_def]
    simp only
    rw [S.tryBuf_eq b (h b (by simp)) cs _ (by omega) hr]
    simp only
    have hbs : bs ≠ [] := by rintro rfl; simp at hl
    have hpos := S.encs_pos (fun b hb => h b (by simp [hb])) hbs
    rw [if_neg (by omega)]
    cases left with
    | zero => rfl
    | succ left =>
      simp only
      apply ih (fun b hb => h b (by simp [hb]))
      · rw [Chunks.flatten_skip, hr]; simp
      · rw [Chunks.fill_skip (by omega), List.length_drop]; omega
      · simp at hl; omega
      · rw [hsz]; omega

theorem blocksCur_eq {S : BlockSpec O} {blocksLen : Nat} {bs : List O.B} (h : ∀ b ∈ bs, S.ok b) (hne : bs ≠ [])
    {left read : Nat} {acc : List O.B} {c : Cur} {s : Bytes} (hp : c.pos ≤ c.data.length)
    (hr : c.rest = S.encs bs ++ s) (hl : bs.length ≤ left + 1) (hb : read + (S.encs bs).length = blocksLen) :
    blocksCur O blocksLen left read acc c =
      (.ok (.success (acc ++ bs)), { c with pos := c.pos + (S.encs bs).length }) := by
  induction bs generalizing left read acc c with
  | nil => exact absurd rfl hne
  | cons b bs ih =>
    have hsz := S.size_eq b (h b (by simp))
    rw [S.encs_cons] at hr hb ⊢
    rw [List.append_assoc] at hr
    rw [List.length_append] at hb ⊢
    rw [blocksCur.eq_def]
    simp only
    rw [S.tryRead_eq b (h b (by simp)) c _ hp hr]
    simp only
    by_cases hbs : bs = []
    · subst hbs
      rw [if_pos (by rw [hsz]; simp [BlockSpec.encs] at hb; omega)]
      simp [BlockSpec.encs]
    · have hpos := S.encs_pos (fun b hb => h b (by simp [hb])) hbs
      rw [if_neg (by omega)]
      cases left with
      | zero =>
        exfalso
        cases bs with
        | nil => exact hbs rfl
        | cons => simp at hl
      | succ left =>
        simp only
        have hrl := congrArg List.length hr
        simp only [Cur.rest, List.length_drop, List.length_append] at hrl
        rw [ih (fun b hb => h b (by simp [hb])) hbs]
        · simp [Nat.add_assoc]
        · simp only; omega
        · exact Cur.rest_add hr
        · simp at hl; omega
        · rw [hsz]; omega

theorem blocksCur_max {S : BlockSpec O} {blocksLen : Nat} {bs : List O.B} (h : ∀ b ∈ bs, S.ok b)
    {left read : Nat} {acc : List O.B} {c : Cur} {s : Bytes} (hp : c.pos ≤ c.data.length)
    (hr : c.rest = S.encs bs ++ s) (hl : left + 1 < bs.length) (hb : read + (S.encs bs).length = blocksLen) :
    (blocksCur O blocksLen left read acc c).1 = .err .maxBlocksCount := by
  induction bs generalizing left read acc c with
  | nil => simp at hl
  | cons b bs ih =>
    have hsz := S.size_eq b (h b (by simp))
    rw [S.encs_cons] at hr hb
    rw [List.append_assoc] at hr
    rw [List.length_append] at hb
    rw [blocksCur.eq_def]
    simp only
    rw [S.tryRead_eq b (h b (by simp)) c _ hp hr]
    simp only
    have hbs : bs ≠ [] := by rintro rfl; simp at hl
    have hpos := S.encs_pos (fun b hb => h b (by simp [hb])) hbs
    rw [if_neg (by omega)]
    cases left with
    | zero => rfl
    | succ left =>
      simp only
      have hrl := congrArg List.length hr
      simp only [Cur.rest, List.length_drop, List.length_append] at hrl
      apply ih (fun b hb => h b (by simp [hb]))
      · simp only; omega
      · exact Cur.rest_add hr
      · simp at hl; omega
      · rw [hsz]; omega

theorem blocksCur_short {S : BlockSpec O} {blocksLen : Nat} {bs : List O.B} (h : ∀ b ∈ bs, S.ok b)
    {left read k : Nat} {acc : List O.B} {c : Cur} (hp : c.pos ≤ c.data.length) (hk : k < (S.encs bs).length)
    (hr : c.rest = (S.encs bs).take k) (hl : bs.length ≤ left + 1) (hb : read + (S.encs bs).length = blocksLen) :
    ∃ n p, blocksCur O blocksLen left read acc c = (.ok (.notEnough n), { c with pos := p }) ∧ 0 < n ∧ n + k ≤ (S.encs bs).length := by
  induction bs generalizing left read acc c k with
  | nil => simp [BlockSpec.encs] at hk
  | cons b bs ih =>
    have hsz := S.size_eq b (h b (by simp))
    rw [S.encs_cons] at hr hb hk
    rw [List.length_append] at hb hk
    rw [blocksCur.eq_def]
    simp only
    by_cases hkb : k < (S.enc b).length
    · rw [List.take_append_of_le_length (by omega)] at hr
      obtain ⟨n, p, e, hn⟩ := S.tryRead_short b (h b (by simp)) c k hp hkb hr
      rw [e]
      exact ⟨n, p, rfl, hn.1, by rw [S.encs_cons, List.length_append]; omega⟩
    · rw [List.take_append, List.take_of_length_le (by omega)] at hr
      rw [S.tryRead_eq b (h b (by simp)) c _ hp hr]
      simp only
      have hbs : bs ≠ [] := by rintro rfl; simp [BlockSpec.encs] at hk; omega
      have hpos := S.encs_pos (fun b hb => h b (by simp [hb])) hbs
      rw [if_neg (by omega)]
      cases left with
      | zero =>
        exfalso
        cases bs with
        | nil => exact hbs rfl
        | cons => simp at hl
      | succ left =>
        simp only
        have hrl := congrArg List.length hr
        simp only [Cur.rest, List.length_drop, List.length_append] at hrl
        obtain ⟨n, p, e, h0, h1⟩ := ih (fun b hb => h b (by simp [hb])) (left := left) (read := read + O.size b) (acc := acc ++ [b])
          (c := { c with pos := c.pos + (S.enc b).length }) (k := k - (S.enc b).length) (by simp only; omega) (by omega)
          (Cur.rest_add hr) (by simp at hl; omega) (by rw [hsz]; omega)
        exact ⟨n, p, e, h0, by rw [S.encs_cons, List.length_append]; omega⟩

theorem slicesLoop_eq {S : BlockSpec O} {blocksLen : Nat} {bs : List O.B} (h : ∀ b ∈ bs, S.ok b) (hne : bs ≠ [])
    {fuel read : Nat} {acc : List O.BR} {buf s : Bytes} (hl : read ≤ buf.length) (hr : buf.drop read = S.encs bs ++ s)
    (hf : bs.length ≤ fuel) (hb : read + (S.encs bs).length = blocksLen) :
    slicesLoop O buf blocksLen fuel read acc = .ok (acc ++ bs.map S.ref) := by
  induction bs generalizing fuel read acc with
  | nil => exact absurd rfl hne
  | cons b bs ih =>
    have hsz := S.rsize_eq b (h b (by simp))
    rw [S.encs_cons] at hr hb
    rw [List.append_assoc] at hr
    rw [List.length_append] at hb
    cases fuel with
    | zero => simp at hf
    | succ fuel =>
      rw [slicesLoop, if_neg (by omega), hr, S.readSlice_eq b (h b (by simp))]
      simp only
      by_cases hbs : bs = []
      · subst hbs
        rw [if_pos (by rw [hsz]; simp [BlockSpec.encs] at hb; omega)]
        simp
      · have hpos := S.encs_pos (fun b hb => h b (by simp [hb])) hbs
        rw [if_neg (by omega)]
        have hrl := congrArg List.length hr
        simp only [List.length_drop, List.length_append] at hrl
        rw [ih (fun b hb => h b (by simp [hb])) hbs]
        · simp
        · omega
        · rw [← List.drop_drop, hr, hsz]; simp
        · simp at hf; omega
        · rw [hsz]; omega

end Packet

end Brec
