import Verif.Props.Damaged
import Verif.Props.PayloadDispatch
import Verif.Props.Generated
/-!
# Property C75: packets of a program with another protocol

A program reads what another program has written, and the two were built with different lists of block and payload types (a newer version that has more of
them, say). The types both have are the same declarations.
-/

namespace Brec.Props

open Brec Packet Rd

/-! ## Specification -/

/-- The same packet, in the protocols of the two programs: the same blocks, and payloads of the same type with the same value. -/
structure Same {ws vs : List BlockTy} {us ps : List PayloadTy} (p : Packet (blockEnum ws) (PEnum.ops us)) (p' : Packet (blockEnum vs) (PEnum.ops ps)) : Prop where
  blocks : (p'.blocks : List BlockVal) = p.blocks
  none : p.payload = none ↔ p'.payload = none
  some : ∀ v v', p.payload = some v → p'.payload = some v' →
    ∃ (T : PayloadTy) (u : T.Val), PVal.At T u (us ++ [bytesTy, stringTy]) v ∧ PVal.At T u (ps ++ [bytesTy, stringTy]) v'

/-- The protocol of the reading program: distinct signatures, well-formed blocks. -/
structure Receiver (vs : List BlockTy) (ps : List PayloadTy) : Prop where
  distinct : DistinctSigs vs
  wf : ∀ b ∈ vs, b.WF
  payloads : (ps ++ [bytesTy, stringTy]).Pairwise fun T U => T.ssig ≠ U.ssig

/-- The reading program has the types of all blocks of the packet, and the type of its payload. -/
structure Knows (vs : List BlockTy) (ps : List PayloadTy) {ws : List BlockTy} {us : List PayloadTy} (p : Packet (blockEnum ws) (PEnum.ops us)) : Prop where
  blocks : ∀ b ∈ (p.blocks : List BlockVal), b.1 ∈ vs
  payload : ∀ v, p.payload = some v → ∀ (T : PayloadTy) (u : T.Val), PVal.At T u (us ++ [bytesTy, stringTy]) v → T ∈ ps ++ [bytesTy, stringTy]

/-- A block of the packet has a signature that no type of the reading program has, the blocks before it are known. -/
def Strange (vs : List BlockTy) {ws : List BlockTy} {us : List PayloadTy} (p : Packet (blockEnum ws) (PEnum.ops us)) : Prop :=
  ∃ (pre : List BlockVal) (b : BlockVal) (post : List BlockVal), (p.blocks : List BlockVal) = pre ++ b :: post ∧ (∀ c ∈ pre, c.1 ∈ vs) ∧ ∀ c ∈ vs, c.sig ≠ b.1.sig

/-- The blocks are known, but the type of the payload has a signature that no payload type of the reading program has. -/
structure Foreign (vs : List BlockTy) (ps : List PayloadTy) {ws : List BlockTy} {us : List PayloadTy} (p : Packet (blockEnum ws) (PEnum.ops us)) : Prop where
  blocks : ∀ b ∈ (p.blocks : List BlockVal), b.1 ∈ vs
  payload : ∃ (v : PVal (us ++ [bytesTy, stringTy])) (T : PayloadTy) (u : T.Val), p.payload = some v ∧ PVal.At T u (us ++ [bytesTy, stringTy]) v ∧
    ∀ U ∈ ps ++ [bytesTy, stringTy], U.ssig ≠ T.ssig

/-- One element of the second list for each of the first, related by `R`. -/
def Each {α : Type u} {β : Type v} (R : α → β → Prop) : List α → List β → Prop
  | [], ys => ys = []
  | _ :: _, [] => False
  | x :: xs, y :: ys => R x y ∧ Each R xs ys

/-- Packets read one after the other with `ReadFrom`, going on after an error. -/
def readMany (vs : List BlockTy) (ps : List PayloadTy) : Nat → Bytes → List (Out (Packet (blockEnum vs) (PEnum.ops ps))) × Bytes
  | 0, s => ([], s)
  | n + 1, s =>
    let r := (Packet.read (O := blockEnum vs) (PEnum.ops ps)).run s
    let rs := readMany vs ps n r.2
    (r.1 :: rs.1, rs.2)

/-- What the reading program should get for a packet. -/
structure Heard (vs : List BlockTy) (ps : List PayloadTy) {ws : List BlockTy} {us : List PayloadTy} (p : Packet (blockEnum ws) (PEnum.ops us)) (o : Out (Packet (blockEnum vs) (PEnum.ops ps))) :
    Prop where
  known : Knows vs ps p → ∃ p', Same p p' ∧ o = .ok p'
  strange : Strange vs p ∨ Foreign vs ps p → o = .err .sigDismatch

/-- What `PacketBufReader` should give for a packet. -/
structure Told (pr : Receiver vs ps) (rules : Rules (blockEnum vs).BR (Packet (blockEnum vs) (PEnum.ops ps))) {ws : List BlockTy} {us : List PayloadTy} (p : Packet (blockEnum ws) (PEnum.ops us))
    (o : Out (Next (Packet (blockEnum vs) (PEnum.ops ps)))) : Prop where
  known : Knows vs ps p → ∃ p', Same p p' ∧ o = .ok (verdict (blockEnumSpec vs pr.distinct pr.wf) rules p')
  strange : Strange vs p → o = .err .sigDismatch

/-! ## Packets of known types -/

theorem at_exists {T : PayloadTy} (u : T.Val) {L : List PayloadTy} (hd : L.Pairwise fun T U => T.ssig ≠ U.ssig) (hT : T ∈ L) : ∃ v, PVal.At T u L v := by
  induction L with
  | nil => cases hT
  | cons U Us ih =>
    rw [List.pairwise_cons] at hd
    rcases List.mem_cons.mp hT with rfl | h
    · exact ⟨_, .here Us⟩
    · obtain ⟨v, hv⟩ := ih hd.2 h
      exact ⟨_, .there U Us v (hd.1 T h) hv⟩

theorem at_unique {T T' : PayloadTy} {u : T.Val} {u' : T'.Val} {L : List PayloadTy} {v : PVal L} (a : PVal.At T u L v) (a' : PVal.At T' u' L v) :
    (⟨T, u⟩ : (T : PayloadTy) × T.Val) = ⟨T', u'⟩ := by
  induction a with
  | here Ts => cases a' with | here => rfl
  | there U Ts w _ _ ih => cases a' with | there _ _ _ _ a' => exact ih a'

variable {ws vs : List BlockTy} {us ps : List PayloadTy}

theorem same_header {p : Packet (blockEnum ws) (PEnum.ops us)} {p' : Packet (blockEnum vs) (PEnum.ops ps)} (s : Same p p') : p'.header = p.header := by
  obtain ⟨bs, pl⟩ := p
  obtain ⟨bs', pl'⟩ := p'
  obtain ⟨h1, h2, h3⟩ := s
  simp only at h1 h2 h3
  subst h1
  cases pl with
  | none =>
    obtain rfl := h2.mp rfl
    rfl
  | some v =>
    cases pl' with
    | none => exact absurd (h2.mpr rfl) (by simp)
    | some v' =>
      obtain ⟨T, u, a, a'⟩ := h3 v v' rfl rfl
      have e1 : (PEnum.ops ps).size v' = (PEnum.ops us).size v :=
        (PEnum.dispatch_at (fun T v => ioOut (T.size v)) a').trans (PEnum.dispatch_at (fun T v => ioOut (T.size v)) a).symm
      have e2 : (PEnum.ops ps).hsize v' = (PEnum.ops us).hsize v := by
        have : PEnum.sig (ps ++ [bytesTy, stringTy]) v' = PEnum.sig (us ++ [bytesTy, stringTy]) v :=
          (PEnum.dispatch_at (fun T v => T.sig v) a').trans (PEnum.dispatch_at (fun T v => T.sig v) a).symm
        show PEnum.hsize _ v' = PEnum.hsize _ v
        simp only [PEnum.hsize, this]
      simp only [Packet.header]
      rw [e1, e2]
      rfl

theorem same_exists (pr : Receiver vs ps) {p : Packet (blockEnum ws) (PEnum.ops us)} (d : Declared p) (k : Knows vs ps p) :
    ∃ p' : Packet (blockEnum vs) (PEnum.ops ps), Same p p' := by
  obtain ⟨bs, pl⟩ := p
  cases pl with
  | none => exact ⟨⟨bs, none⟩, rfl, by simp, by simp⟩
  | some v =>
    obtain ⟨T, u, x, c, ha, g, hc⟩ := d.payload v rfl
    obtain ⟨v', hv'⟩ := at_exists u pr.payloads (k.payload v rfl T u ha)
    refine ⟨⟨bs, some v'⟩, rfl, by simp, ?_⟩
    intro w w' e e'
    cases e
    cases e'
    exact ⟨T, u, ha, hv'⟩

theorem same_declared (pr : Receiver vs ps) {p : Packet (blockEnum ws) (PEnum.ops us)} (d : Declared p) (k : Knows vs ps p)
    {p' : Packet (blockEnum vs) (PEnum.ops ps)} (s : Same p p') : Declared p' where
  distinct := pr.distinct
  wf := pr.wf
  blocks := by
    intro b hb
    have h := s.blocks
    exact k.blocks b (h ▸ hb)
  payload := by
    intro v' hv'
    cases hp : p.payload with
    | none => rw [s.none.mp hp] at hv'; cases hv'
    | some v =>
      obtain ⟨T, u, x, c, ha, g, hc⟩ := d.payload v hp
      obtain ⟨T', u', a, a'⟩ := s.some v v' hp hv'
      cases at_unique ha a
      exact ⟨T, u, x, c, a', g, hc⟩
  size := by
    intro h hh
    rw [same_header s] at hh
    exact d.size h hh

theorem same_serialize {p : Packet (blockEnum ws) (PEnum.ops us)} (d : Declared p) {p' : Packet (blockEnum vs) (PEnum.ops ps)} (d' : Declared p') (s : Same p p') :
    p'.serialize = p.serialize := by
  obtain ⟨h, pb, sh⟩ := d.ok.shape
  obtain ⟨h', pb', sh'⟩ := d'.ok.shape
  rw [serialize_eq d.ok.blocks sh, serialize_eq d'.ok.blocks sh']
  have e1 : h' = h := by
    have := sh'.header.symm.trans ((same_header s).trans sh.header)
    injection this
  have e2 : d'.spec.encs p'.blocks = d.spec.encs p.blocks := congrArg (List.flatMap fun b : BlockVal => b.1.bytes b.2) s.blocks
  have e3 : pb' = pb := by
    have h1 := sh.part
    have h2 := sh'.part
    cases hp : p.payload with
    | none =>
      rw [hp] at h1
      rw [s.none.mp hp] at h2
      cases h1
      cases h2
      rfl
    | some v =>
      cases hp' : p'.payload with
      | none => rw [s.none.mpr hp'] at hp; cases hp
      | some v' =>
        obtain ⟨T, u, a, a'⟩ := s.some v v' hp hp'
        have e : (PEnum.ops ps).parts v' = (PEnum.ops us).parts v := (PEnum.dispatch_at PayloadTy.parts a').trans (PEnum.dispatch_at PayloadTy.parts a).symm
        rw [hp] at h1
        rw [hp'] at h2
        cases h1 with
        | some g1 =>
          cases h2 with
          | some g2 =>
            rw [g1.parts_eq, g2.parts_eq] at e
            injection e with e
            injection e with a b
            rw [a, b]
  rw [e1, e2, e3]

/-- **C75, known types.** A packet whose types the reading program has is read by every reader as the same packet, whatever other types either program has. -/
theorem C75_known (pr : Receiver vs ps) {p : Packet (blockEnum ws) (PEnum.ops us)} (d : Declared p) (k : Knows vs ps p) (hn : p.blocks.length ≤ 255) (s pre : Bytes) (chk : Bool)
    (log : List Bytes) :
    ∃ (w : Bytes) (p' : Packet (blockEnum vs) (PEnum.ops ps)), p.serialize = .ok w ∧ Same p p' ∧
      (Packet.read (PEnum.ops ps)).run (w ++ s) = (.ok p', s) ∧
      Packet.tryRead (PEnum.ops ps) ⟨pre ++ (w ++ s), pre.length, chk⟩ = (.ok (.success p'), ⟨pre ++ (w ++ s), pre.length + w.length, chk⟩) ∧
      (Packet.tryBuf (PEnum.ops ps) [w ++ s]).1 = .ok (.success p') ∧
      (Packet.tryBuf (O := blockEnum vs) (PEnum.ops ps) [w ++ s]).2.flatten = s ∧
      (∃ n, (Packet.filtered (PEnum.ops ps) ([] : Rules (blockEnum vs).BR (Packet (blockEnum vs) (PEnum.ops ps)))).run (w ++ s) = (.ok (.accepted n p'), s)) ∧
      ∃ src, Rd.read ([] : Rules (blockEnum vs).BR (Packet (blockEnum vs) (PEnum.ops ps))) chk ⟨[some (w ++ s)], .empty, [], log⟩ =
        (.ok (.found p'), ⟨src, .empty, [], log⟩) ∧ src.bytes = s := by
  obtain ⟨p', sm⟩ := same_exists pr d k
  have d' := same_declared pr d k sm
  have hn' : p'.blocks.length ≤ 255 := by
    have := congrArg List.length sm.blocks
    exact Nat.le_trans (Nat.le_of_eq this) hn
  obtain ⟨w, _, e, r⟩ := C15_generated d' (by omega) s
  obtain ⟨w', _, e', h⟩ := C16_generated d' hn' s pre chk log
  obtain rfl : w = w' := by rw [e] at e'; exact Out.ok.inj e'
  exact ⟨w, p', by rw [← same_serialize d d' sm, e], sm, r, h⟩

/-! ## Packets with an unknown block -/

theorem readSlice_strange {vs : List BlockTy} {x : Bytes} (h4 : 4 ≤ x.length) (h : ∀ c ∈ vs, c.sig ≠ x.take 4) : enumReadSlice false vs x = .err .sigDismatch := by
  induction vs with
  | nil => rfl
  | cons c cs ih =>
    have e : c.readSlice x false = .err .sigDismatch := by
      rw [BlockTy.readSlice, if_neg (by simp; omega), if_pos ⟨by simp, Ne.symm (h c List.mem_cons_self)⟩]
    simp only [enumReadSlice, e]
    exact ih fun c hc => h c (List.mem_cons_of_mem _ hc)

theorem tryBuf_strange {vs : List BlockTy} (hw : ∀ c ∈ vs, c.WF) {cs : Chunks} (h4 : 4 ≤ (Chunks.fill cs).length) (h : ∀ c ∈ vs, c.sig ≠ (Chunks.fill cs).take 4) :
    enumTryBuf vs cs = (.err .sigDismatch, cs) := by
  induction vs with
  | nil => rfl
  | cons c cs' ih =>
    have e : c.tryBuf cs = (.err .sigDismatch, cs) := by
      have hp : ¬ c.sig.isPrefixOf (Chunks.fill cs) = true := by
        intro hp
        have := List.prefix_iff_eq_take.mp (List.isPrefixOf_iff_prefix.mp hp)
        rw [(hw c List.mem_cons_self).sig_len] at this
        exact h c List.mem_cons_self this
      rw [BlockTy.tryBuf, if_neg (by omega), if_pos hp]
    simp only [enumTryBuf, e]
    exact ih (fun c hc => hw c (List.mem_cons_of_mem _ hc)) fun c hc => h c (List.mem_cons_of_mem _ hc)

section

variable {O : BlockOps} {Q : PayloadOps} {S : BlockSpec O}

/-- The loop of the stream reader over known blocks up to bytes that are no block. -/
theorem blocksLoop_strange {bs : List O.B} (h : ∀ b ∈ bs, S.ok b) {e : Err} {x : Bytes} (hx : O.readSlice x = .err e) (hne : x ≠ []) {left processed : Nat} {acc : List O.BR}
    {buf : Bytes} (hl : processed ≤ buf.length) (hr : buf.drop processed = S.encs bs ++ x) (hf : bs.length < left) :
    blocksLoop O buf left processed acc = (.err e, .dropConsume) := by
  induction bs generalizing left processed acc with
  | nil =>
    cases left with
    | zero => simp at hf
    | succ left =>
      have : buf.drop processed = x := by rw [hr]; rfl
      rw [blocksLoop, if_neg (by omega), this, hx]
  | cons b bs ih =>
    have hsz := S.rsize_eq b (h b (by simp))
    have h4 := S.four_le b (h b (by simp))
    rw [S.encs_cons, List.append_assoc] at hr
    have hrl := congrArg List.length hr
    simp only [List.length_drop, List.length_append] at hrl
    have hx1 : 0 < x.length := List.length_pos_iff.mpr hne
    cases left with
    | zero => simp at hf
    | succ left =>
      rw [blocksLoop, if_neg (by omega), hr, S.readSlice_eq b (h b (by simp))]
      simp only
      rw [if_neg (by omega), if_neg (by omega), ih (fun b hb => h b (by simp [hb]))]
      · omega
      · rw [← List.drop_drop, hr, hsz]; simp
      · simp at hf; omega

theorem blocksBuf_strange {blocksLen : Nat} {bs : List O.B} (h : ∀ b ∈ bs, S.ok b) {e : Err} {x : Bytes}
    (hx : ∀ cs : Chunks, cs.flatten = x → 4 ≤ (Chunks.fill cs).length → (O.tryBuf cs).1 = .err e) (h4 : 4 ≤ x.length) {left read : Nat} {acc : List O.B}
    {cs : Chunks} (hr : cs.flatten = S.encs bs ++ x) (hf : cs.flatten.length ≤ (Chunks.fill cs).length) (hl : bs.length ≤ left) (hb : read + (S.encs bs).length < blocksLen) :
    (blocksBuf O blocksLen left read acc cs).1 = .err e := by
  induction bs generalizing left read acc cs with
  | nil =>
    have hr : cs.flatten = x := by rw [hr]; rfl
    have := hx cs hr (by rw [hr] at hf; omega)
    rw [blocksBuf.eq_def]
    rcases ho : O.tryBuf cs with ⟨o, c⟩
    rw [ho] at this
    simp only at this
    subst this
    simp only [ho]
  | cons b bs ih =>
    have hb4 := S.four_le b (h b (by simp))
    have hsz := S.size_eq b (h b (by simp))
    rw [S.encs_cons] at hr hb
    rw [List.append_assoc] at hr
    rw [List.length_append] at hb
    have hrl := congrArg List.length hr
    simp only [List.length_append] at hrl
    rw [blocksBuf.eq_def]
    simp only
    rw [S.tryBuf_eq b (h b (by simp)) cs _ (by omega) hr]
    simp only
    rw [if_neg (by omega)]
    cases left with
    | zero => simp at hl
    | succ left =>
      simp only
      apply ih (fun b hb => h b (by simp [hb]))
      · rw [Chunks.flatten_skip, hr]; simp
      · rw [Chunks.fill_skip (by omega), List.length_drop, Chunks.flatten_skip, List.length_drop]; omega
      · simp at hl; omega
      · rw [hsz]; omega

theorem read_inner {h : PacketHeader} (wf : h.WF) (small : h.size < 2 ^ 63) {inner : Bytes} (hs : h.size = inner.length) (s : Bytes) :
    (Packet.read (O := O) Q).run (h.bytes ++ inner ++ s) = (ofInner Q h inner, s) := by
  unfold Packet.read
  rw [List.append_assoc, P.bind_ok (PacketHeader.read_bytes wf _), P.bind_ok (a := ()) (s' := inner ++ s) (by simp [allocZeroed, small]),
    P.bind_ok (P.readExact_append' hs.symm s), P.lift_run]

theorem ofInner_strange {h : PacketHeader} {bs : List O.B} (hb : ∀ b ∈ bs, S.ok b) {e : Err} {x : Bytes}
    (hx : ∀ cs : Chunks, cs.flatten = x → 4 ≤ (Chunks.fill cs).length → (O.tryBuf cs).1 = .err e) (h4 : 4 ≤ x.length) (hn : bs.length ≤ 255)
    (hl : (S.encs bs).length < h.blocksLen) : (ofInner Q h (S.encs bs ++ x) : Out (Packet O Q)) = .err e := by
  have hblk : (if h.blocksLen > 0 then blocksBuf O h.blocksLen MAX_BLOCKS 0 [] [S.encs bs ++ x]
      else (.ok (.success []), [S.encs bs ++ x])).1 = .err e := by
    rw [if_pos (by omega)]
    exact blocksBuf_strange hb hx h4 (by simp) (by simp) (by simpa [MAX_BLOCKS] using hn) (by omega)
  unfold ofInner
  simp only
  rw [hblk]

theorem ofInner_foreign {h : PacketHeader} {bs : List O.B} (hb : ∀ b ∈ bs, S.ok b) (hn : bs.length ≤ 256) (hl : h.blocksLen = (S.encs bs).length) (hf : h.payload = true)
    {ph : PayloadHeader} (hp : ph.len < 2 ^ 32) {e : Err} (hq : ∀ s, (Q.read ph).run s = (.err e, s)) (y : Bytes) :
    (ofInner Q h (S.encs bs ++ (ph.asVec ++ y)) : Out (Packet O Q)) = .err e := by
  have hblk : (if h.blocksLen > 0 then blocksBuf O h.blocksLen MAX_BLOCKS 0 [] [S.encs bs ++ (ph.asVec ++ y)]
      else (.ok (.success []), [S.encs bs ++ (ph.asVec ++ y)])).1 = .ok (.success bs) ∧
      (if h.blocksLen > 0 then blocksBuf O h.blocksLen MAX_BLOCKS 0 [] [S.encs bs ++ (ph.asVec ++ y)]
      else (.ok (.success []), [S.encs bs ++ (ph.asVec ++ y)])).2.flatten = ph.asVec ++ y := by
    rw [hl]
    by_cases hne : bs = []
    · simp [hne, BlockSpec.encs]
    · rw [if_pos (S.encs_pos hb hne), blocksBuf_eq hb hne (s := ph.asVec ++ y) (by simp) (by simp) (by simp [MAX_BLOCKS]; omega) (by simp)]
      simp [Chunks.flatten_skip]
  unfold ofInner
  simp only
  rw [hblk.1]
  simp only [hf, if_true]
  rw [Chunks.run_take hblk.2 (PayloadHeader.read_asVec ph hp y)]
  simp only
  rw [Chunks.run, hq]
  rfl

theorem parse_strange {h : PacketHeader} {bs : List O.B} (hb : ∀ b ∈ bs, S.ok b) {e : Err} {x z : Bytes} (hx : O.readSlice x = .err e) (hne : x ≠ [])
    (hn : bs.length < 255) (hl : h.blocksLen = (S.encs bs ++ x).length) (rules : Rules O.BR (Packet O Q)) :
    parse rules h (S.encs bs ++ x ++ z) = (.err e, .dropConsume) := by
  unfold parse
  rw [if_neg (by rw [hl]; simp), hl, List.take_left' rfl, if_neg (by simp [hne]),
    blocksLoop_strange hb hx hne (by omega) (by simp) (by simpa [MAX_BLOCKS] using hn)]

theorem parse_foreign {h : PacketHeader} {bs : List O.B} (hb : ∀ b ∈ bs, S.ok b) (hn : bs.length ≤ 255) (hbl : h.blocksLen = (S.encs bs).length) (hf : h.payload = true)
    {ph : PayloadHeader} (hp : ph.len < 2 ^ 32) {e : Err} (hq : ∀ cs, (Q.tryBuf ph cs).1 = .err e) (y : Bytes) {rules : Rules O.BR (Packet O Q)}
    (h1 : rules.filterByBlocks (bs.map S.ref) = true) (h2 : rules.filterByPayload y = true) :
    parse rules h (S.encs bs ++ (ph.asVec ++ y)) = (.err e, .leave) := by
  unfold parse
  rw [if_neg (by rw [hbl]; simp)]
  have hr : (if (S.encs bs ++ (ph.asVec ++ y)).take h.blocksLen = [] then ((.ok [], .dropConsume) : Out (List O.BR) × Fin)
      else blocksLoop O ((S.encs bs ++ (ph.asVec ++ y)).take h.blocksLen) MAX_BLOCKS 0 []) =
      (.ok (bs.map S.ref), .dropConsume) := by
    rw [hbl, List.take_left' rfl]
    by_cases hne : bs = []
    · simp [hne, BlockSpec.encs]
    · have hpos := S.encs_pos hb hne
      rw [if_neg (by intro e; rw [e] at hpos; simp at hpos), blocksLoop_eq hb hne (by omega) (by simp) (by simpa [MAX_BLOCKS] using hn)]
      simp
  rw [hr]
  simp only
  unfold parsePayload
  have hd1 : List.drop (S.encs bs).length (S.encs bs ++ (ph.asVec ++ y)) = ph.asVec ++ y := by simp
  have hd2 : List.drop ((S.encs bs).length + ph.size) (S.encs bs ++ (ph.asVec ++ y)) = y := by
    rw [← List.drop_drop, hd1, ← PayloadHeader.size_eq]; simp
  simp only [hf, if_true, h1, hbl, not_true, if_false]
  rw [hd1, PayloadHeader.tryBuf, Chunks.fill_single, PayloadHeader.peek_asVec ph hp]
  simp only
  rw [hd2, if_neg (by rw [← PayloadHeader.size_eq]; simp), if_neg (by simp [h2])]
  have he := hq [y]
  rcases hq : Q.tryBuf ph [y] with ⟨o, c⟩
  rw [hq] at he
  simp only at he
  subst he
  rfl

end

/-- The codec of the reading program. -/
abbrev Receiver.spec (pr : Receiver vs ps) : BlockSpec (blockEnum vs) := blockEnumSpec vs pr.distinct pr.wf

theorem mem_mid {α : Type} {l pre post : List α} {b : α} (e : l = pre ++ b :: post) : b ∈ l ∧ pre.length < l.length := by
  subst e
  exact ⟨by simp, by simp⟩

/-- The bytes of a packet with an unknown block, up to that block and from it on. -/
theorem strange_split (pr : Receiver vs ps) {p : Packet (blockEnum ws) (PEnum.ops us)} (d : Declared p) (st : Strange vs p) :
    ∃ (pre : List BlockVal) (x : Bytes), pre.length < p.blocks.length ∧ (∀ c ∈ pre, pr.spec.ok c) ∧ d.spec.encs p.blocks = pr.spec.encs pre ++ x ∧ 4 ≤ x.length ∧
      ∀ c ∈ vs, c.sig ≠ x.take 4 := by
  obtain ⟨pre, b, post, e, h1, h2⟩ := st
  have hb : b.1 ∈ ws := d.blocks b (mem_mid (α := BlockVal) e).1
  have hw := d.wf b.1 hb
  refine ⟨pre, b.1.bytes b.2 ++ List.flatMap (fun b : BlockVal => b.1.bytes b.2) post, (mem_mid (α := BlockVal) e).2, h1, ?_, ?_, ?_⟩
  · have : d.spec.encs p.blocks = List.flatMap (fun b : BlockVal => b.1.bytes b.2) (pre ++ b :: post) := congrArg (List.flatMap fun b : BlockVal => b.1.bytes b.2) e
    rw [this, List.flatMap_append, List.flatMap_cons]
    rfl
  · rw [List.length_append, BlockTy.bytes_length hw]
    simp only [BlockTy.ssize]
    omega
  · rw [BlockTy.bytes_take b.1 hw b.2]
    exact h2

theorem part_eq {Q : PayloadOps} {v : Q.V} {pb : Bytes} (hpt : PayloadPart Q (some v) pb) {ph : PayloadHeader} {x : Bytes} (g : Q.Good v ph x) : pb = ph.asVec ++ x := by
  cases hpt with
  | some g2 =>
    have e := g2.parts_eq.symm.trans g.parts_eq
    injection e with e
    injection e with a b
    rw [a, b]

theorem body_some {O : BlockOps} {Q : PayloadOps} {p : Packet O Q} {v : Q.V} (hv : p.payload = some v) {ph : PayloadHeader} {x : Bytes} (g : Q.Good v ph x) :
    bodyOf p = some x := by
  unfold bodyOf
  rw [hv]
  simp only [g.parts_eq]

/-- The bytes of a packet with an unknown payload. -/
theorem foreign_split {p : Packet (blockEnum ws) (PEnum.ops us)} (d : Declared p) (fo : Foreign vs ps p) {h : PacketHeader} {pb : Bytes} (sh : Packet.Shape d.spec p h pb) :
    h.payload = true ∧ ∃ (ph : PayloadHeader) (y : Bytes), pb = ph.asVec ++ y ∧ ph.len < 2 ^ 32 ∧ Unknown (ps ++ [bytesTy, stringTy]) ph ∧ ph.len = y.length ∧ bodyOf p = some y := by
  obtain ⟨v, T, u, hv, ha, hu⟩ := fo.payload
  obtain ⟨T', u', x, c, ha', g, hc⟩ := d.payload v hv
  cases at_unique ha ha'
  have g' := PEnum.ops_good ha g hc
  refine ⟨by rw [sh.flag, hv]; rfl, _, x, ?_, g'.len_lt, hu, g'.len_eq, body_some hv g'⟩
  have hpt : PayloadPart (PEnum.ops us) (some v) pb := hv ▸ sh.part
  exact part_eq hpt g'

/-- **C75, unknown types, `ReadFrom`.** A packet with a block or a payload of a type the reading program does not have gives `SignatureDismatch`, and all of it has been
taken from the source: the next packet can be read. -/
theorem C75_unknown (pr : Receiver vs ps) {p : Packet (blockEnum ws) (PEnum.ops us)} (d : Declared p) (u : Strange vs p ∨ Foreign vs ps p) (hn : p.blocks.length ≤ 256) (s : Bytes) :
    ∃ w, p.serialize = .ok w ∧ (Packet.read (O := blockEnum vs) (PEnum.ops ps)).run (w ++ s) = (.err .sigDismatch, s) := by
  obtain ⟨h, pb, sh⟩ := d.ok.shape
  refine ⟨_, serialize_eq d.ok.blocks sh, ?_⟩
  rw [List.append_assoc h.bytes, read_inner sh.wf sh.small (by rw [sh.size]; simp)]
  congr 1
  rcases u with st | fo
  · obtain ⟨pre, x, hl, hk, e, h4, hx⟩ := strange_split pr d st
    rw [e, List.append_assoc]
    refine ofInner_strange hk (e := .sigDismatch) (fun cs hc hf => ?_) (by rw [List.length_append]; omega) (Nat.le_of_lt_succ (Nat.lt_of_lt_of_le hl hn)) ?_
    · have ht : (Chunks.fill cs).take 4 = x.take 4 := by
        obtain ⟨r, hr⟩ := Chunks.fill_prefix cs
        rw [hc] at hr
        have := congrArg (List.take 4) hr
        rw [List.take_append_of_le_length hf, List.take_append_of_le_length h4] at this
        exact this
      have := tryBuf_strange pr.wf hf (by rw [ht]; exact hx)
      exact congrArg Prod.fst this
    · rw [sh.blocksLen, e, List.length_append]
      omega
  · obtain ⟨hf, ph, y, rfl, hlt, hu, _⟩ := foreign_split d fo sh
    exact ofInner_foreign (S := pr.spec) (bs := p.blocks) fo.blocks hn sh.blocksLen hf hlt (fun s => read_unknown hu s) y

theorem heard (pr : Receiver vs ps) {p : Packet (blockEnum ws) (PEnum.ops us)} (d : Declared p) (hn : p.blocks.length ≤ 255) (s : Bytes) :
    (Knows vs ps p ∨ Strange vs p ∨ Foreign vs ps p) →
    Heard vs ps p ((Packet.read (O := blockEnum vs) (PEnum.ops ps)).run (wire p ++ s)).1 ∧ ((Packet.read (O := blockEnum vs) (PEnum.ops ps)).run (wire p ++ s)).2 = s := by
  intro hk
  have hknown : Knows vs ps p → ∃ p', Same p p' ∧ (Packet.read (O := blockEnum vs) (PEnum.ops ps)).run (wire p ++ s) = (.ok p', s) := by
    intro k
    obtain ⟨w, p', e, sm, r, _⟩ := C75_known pr d k hn s [] true []
    refine ⟨p', sm, ?_⟩
    rw [wire, e]
    exact r
  have hun : (Strange vs p ∨ Foreign vs ps p) → (Packet.read (O := blockEnum vs) (PEnum.ops ps)).run (wire p ++ s) = (.err .sigDismatch, s) := by
    intro u
    obtain ⟨w, e, r⟩ := C75_unknown pr d u (by omega) s
    rw [wire, e]
    exact r
  refine ⟨⟨fun k => ?_, fun u => by rw [hun u]⟩, ?_⟩
  · obtain ⟨p', sm, r⟩ := hknown k
    exact ⟨p', sm, by rw [r]⟩
  · rcases hk with k | u
    · obtain ⟨p', sm, r⟩ := hknown k
      rw [r]
    · rw [hun u]

/-- **C75, a stream read packet by packet.** Packets of the other program one after the other: `ReadFrom` gives one result for each, the same packet if its types are
known and `SignatureDismatch` otherwise, and stays in step. -/
theorem C75_reads (pr : Receiver vs ps) (l : List (Packet (blockEnum ws) (PEnum.ops us))) (hd : ∀ p ∈ l, Declared p) (hn : ∀ p ∈ l, p.blocks.length ≤ 255)
    (hk : ∀ p ∈ l, Knows vs ps p ∨ Strange vs p ∨ Foreign vs ps p) (t : Bytes) :
    Each (Heard vs ps) l (readMany vs ps l.length ((l.map wire).flatten ++ t)).1 ∧ (readMany vs ps l.length ((l.map wire).flatten ++ t)).2 = t := by
  induction l with
  | nil => exact ⟨rfl, rfl⟩
  | cons p l ih =>
    obtain ⟨h1, h2⟩ := heard pr (hd p List.mem_cons_self) (hn p List.mem_cons_self) ((l.map wire).flatten ++ t) (hk p List.mem_cons_self)
    obtain ⟨h3, h4⟩ := ih (fun q hq => hd q (List.mem_cons_of_mem _ hq)) (fun q hq => hn q (List.mem_cons_of_mem _ hq)) (fun q hq => hk q (List.mem_cons_of_mem _ hq))
    simp only [List.map_cons, List.flatten_cons, List.append_assoc, List.length_cons, readMany]
    rw [h2]
    exact ⟨⟨h1, h3⟩, h4⟩

/-! ## `PacketBufReader` -/

theorem frame_of (d : Declared (vs := ws) (ps := us) p) (hn : p.blocks.length ≤ 255) : Damage d.spec (p, body p) := ⟨d.ok, hn, rfl⟩

theorem same_frame {p : Packet (blockEnum ws) (PEnum.ops us)} (d : Declared p) {p' : Packet (blockEnum vs) (PEnum.ops ps)} (d' : Declared p') (s : Same p p') :
    frame (p', body p') = frame (p, body p) := by
  have e := same_serialize d d' s
  simp only [frame, hdr, body, wire, same_header s, e]

theorem told_parse (pr : Receiver vs ps) (rules : Rules (blockEnum vs).BR (Packet (blockEnum vs) (PEnum.ops ps))) {p : Packet (blockEnum ws) (PEnum.ops us)} (d : Declared p)
    (hn : p.blocks.length ≤ 255) (k : Knows vs ps p ∨ Strange vs p) :
    Told pr rules p (Frames.verdict rules (frame (p, body p))) ∧ Frames.Passes rules (frame (p, body p)) := by
  have hk : Knows vs ps p → ∃ p', Same p p' ∧ parse rules (frame (p, body p)).1 (frame (p, body p)).2 = (.ok (verdict (blockEnumSpec vs pr.distinct pr.wf) rules p'), .dropConsume) := by
    intro k
    obtain ⟨p', sm⟩ := same_exists pr d k
    have d' := same_declared pr d k sm
    have hn' : p'.blocks.length ≤ 255 := by
      have := congrArg List.length sm.blocks
      exact Nat.le_trans (Nat.le_of_eq this) hn
    refine ⟨p', sm, ?_⟩
    rw [← same_frame d d' sm]
    exact frame_intact (frame_of d' hn') rules rfl
  have hs : Strange vs p → parse rules (frame (p, body p)).1 (frame (p, body p)).2 = (.err .sigDismatch, .dropConsume) := by
    intro st
    obtain ⟨h, pb, sh, fs, _, hb⟩ := frame_facts (frame_of d hn)
    obtain ⟨pre, x, hl, hkn, e, h4, hx⟩ := strange_split pr d st
    have hb : body p = d.spec.encs p.blocks ++ pb := hb
    rw [fs.eq]
    simp only
    rw [hb, e]
    refine parse_strange hkn (readSlice_strange h4 hx) (by rintro rfl; simp at h4) (Nat.lt_of_lt_of_le hl hn) ?_ rules
    rw [sh.blocksLen]
    exact congrArg List.length e
  refine ⟨⟨fun k => ?_, fun st => by rw [Frames.verdict, hs st]⟩, ?_⟩
  · obtain ⟨p', sm, e⟩ := hk k
    exact ⟨p', sm, by rw [Frames.verdict, e]⟩
  · rcases k with k | st
    · obtain ⟨p', sm, e⟩ := hk k
      rw [Frames.Passes, e]
    · rw [Frames.Passes, hs st]

theorem each_told (pr : Receiver vs ps) (rules : Rules (blockEnum vs).BR (Packet (blockEnum vs) (PEnum.ops ps))) (l : List (Packet (blockEnum ws) (PEnum.ops us))) (hd : ∀ p ∈ l, Declared p)
    (hn : ∀ p ∈ l, p.blocks.length ≤ 255) (hk : ∀ p ∈ l, Knows vs ps p ∨ Strange vs p) : Each (Told pr rules) l (l.map fun p => Frames.verdict rules (frame (p, body p))) := by
  induction l with
  | nil => rfl
  | cons p l ih =>
    exact ⟨(told_parse pr rules (hd p List.mem_cons_self) (hn p List.mem_cons_self) (hk p List.mem_cons_self)).1,
      ih (fun q hq => hd q (List.mem_cons_of_mem _ hq)) (fun q hq => hn q (List.mem_cons_of_mem _ hq)) (fun q hq => hk q (List.mem_cons_of_mem _ hq))⟩

theorem declared_stream (l : List (Packet (blockEnum ws) (PEnum.ops us))) (hd : ∀ p ∈ l, Declared p) (hn : ∀ p ∈ l, p.blocks.length ≤ 255) :
    (l.map wire).flatten = Frames.stream (l.map fun p => ([], frame (p, body p))) [] ∧ ∀ x ∈ l.map (fun p => (([] : Bytes), frame (p, body p))), Frames.GoodFrame x := by
  induction l with
  | nil => exact ⟨rfl, by simp⟩
  | cons p l ih =>
    obtain ⟨h1, h2⟩ := ih (fun q hq => hd q (List.mem_cons_of_mem _ hq)) (fun q hq => hn q (List.mem_cons_of_mem _ hq))
    obtain ⟨h, pb, sh, fs, hw, hb⟩ := frame_facts (frame_of (hd p List.mem_cons_self) (hn p List.mem_cons_self))
    refine ⟨?_, ?_⟩
    · simp only [List.map_cons, List.flatten_cons, Frames.stream, List.nil_append]
      rw [hw, ← h1, hit]
      simp only [body, List.take_append_drop]
    · intro x hx
      rcases List.mem_cons.mp hx with rfl | hx
      · exact ⟨free_nil, ⟨h, _, fs⟩, .inl rfl⟩
      · exact h2 x hx

/-- **C75 (partial), `PacketBufReader`.** Packets of the other program, cut into reads in any way: one result for each, then the end. Packets with unknown blocks cost an
error each and no others. Missing: packets with unknown payloads (`C75_stuck`, `C75_not`). -/
theorem C75_stream_partial (pr : Receiver vs ps) (rules : Rules (blockEnum vs).BR (Packet (blockEnum vs) (PEnum.ops ps))) (chk : Bool) (l : List (Packet (blockEnum ws) (PEnum.ops us)))
    (hd : ∀ p ∈ l, Declared p) (hn : ∀ p ∈ l, p.blocks.length ≤ 255) (hk : ∀ p ∈ l, Knows vs ps p ∨ Strange vs p) (cs : Chunks) (hc : Cuts cs (l.map wire).flatten) :
    ∃ n os, loud (reads rules chk n (.new (cs.map some))).1 = os ++ [.ok .noData] ∧ Each (Told pr rules) l os := by
  obtain ⟨e, hg⟩ := declared_stream l hd hn
  have inv := Frames.inv_new hc.2 (hc.1.trans e) hg (by intro j; simp [PACKET_SIG])
  have hrun : Frames.Ends rules chk (.new (cs.map some)) (l.map fun p => (([] : Bytes), frame (p, body p))) [] ∨
      Frames.Stops rules chk (.new (cs.map some)) (l.map fun p => (([] : Bytes), frame (p, body p))) := by
    refine Frames.run (blockEnum_safe vs) (PEnum.ops_safe ps) (fun _ is => ∀ x ∈ is, x.1 = []) (fun r is t inv hG => Frames.not_bad_pure inv hG) (fun r is t is' _ hG hi _ => ?_) _ _ _ inv ?_
    · rcases hi with rfl | ⟨k, rfl⟩
      · exact fun x hx => hG x (List.mem_of_mem_tail hx)
      · cases is with
        | nil => simp [Frames.dropItems]
        | cons y is =>
          obtain ⟨l, p⟩ := y
          intro x hx
          rcases List.mem_cons.mp hx with rfl | hx
          · have := hG (l, p) List.mem_cons_self
            simp only at this
            simp [this]
          · exact hG x (List.mem_cons_of_mem _ hx)
    · intro x hx
      obtain ⟨y, _, rfl⟩ := List.mem_map.mp hx
      rfl
  rcases hrun with ⟨n, h1, _⟩ | ⟨n, pre, f, post, e, np, _⟩
  · refine ⟨n, _, ?_, each_told pr rules l hd hn hk⟩
    rw [h1, List.map_map]
    rfl
  · exfalso
    rw [List.map_map] at e
    have : f ∈ List.map (Prod.snd ∘ fun p => (([] : Bytes), frame (p, body p))) l := by rw [e]; simp
    obtain ⟨p, hp, rfl⟩ := List.mem_map.mp this
    exact np (told_parse pr rules (hd p hp) (hn p hp) (hk p hp)).2

/-- **C75 fails for unknown payloads in `PacketBufReader`.** Such a packet that lies whole in the buffer of the source is never passed (unless a rule denies it): every call
returns `SignatureDismatch`, and no packet behind it is ever reached. -/
theorem C75_stuck (pr : Receiver vs ps) {p : Packet (blockEnum ws) (PEnum.ops us)} (d : Declared p) (hn : p.blocks.length ≤ 255) (fo : Foreign vs ps p) (chk : Bool) (s : Bytes)
    (es : Events) (buffered : Bytes) (log : List Bytes) (n : Nat) :
    (reads ([] : Rules (blockEnum vs).BR (Packet (blockEnum vs) (PEnum.ops ps))) chk n ⟨some (wire p ++ s) :: es, .empty, buffered, log⟩).1 =
      List.replicate n (.err .sigDismatch) := by
  obtain ⟨h, pb, sh, fs, hw, hb⟩ := frame_facts (frame_of d hn)
  obtain ⟨hf, ph, y, rfl, hlt, hu, _⟩ := foreign_split d fo sh
  have hb : body p = d.spec.encs p.blocks ++ (ph.asVec ++ y) := hb
  have hparse : parse ([] : Rules (blockEnum vs).BR (Packet (blockEnum vs) (PEnum.ops ps))) (frame (p, body p)).1 (frame (p, body p)).2 = (.err .sigDismatch, .leave) := by
    rw [fs.eq]
    simp only
    rw [hb]
    exact parse_foreign (S := pr.spec) (bs := p.blocks) fo.blocks hn sh.blocksLen hf hlt (fun cs => (tryBuf_unknown hu cs).1) y rfl rfl
  have hww : Frames.wire (frame (p, body p)) = wire p := by
    rw [hw, hit]
    simp only [body, List.take_append_drop]
  have key : ∀ bu lg, ∃ bu', Rd.read ([] : Rules (blockEnum vs).BR (Packet (blockEnum vs) (PEnum.ops ps))) chk ⟨some (wire p ++ s) :: es, .empty, bu, lg⟩ =
      (.err .sigDismatch, ⟨some (wire p ++ s) :: es, .empty, bu', lg⟩) := by
    intro bu lg
    rw [← hww, Frames.read_frame fs s es bu lg]
    obtain ⟨bu', hfin⟩ := Frames.finish_stay (rules := ([] : Rules (blockEnum vs).BR (Packet (blockEnum vs) (PEnum.ops ps)))) fs
      (by rw [Frames.Passes, hparse]; simp) (Frames.wire (frame (p, body p))).length ⟨some (Frames.wire (frame (p, body p)) ++ s) :: es, .empty, [], lg⟩
    exact ⟨bu', by rw [hfin, Frames.verdict, hparse]⟩
  induction n generalizing buffered with
  | zero => rfl
  | succ n ih =>
    obtain ⟨bu', hk⟩ := key buffered log
    rw [reads_succ (by rw [hk]; simp), hk, List.replicate_succ]
    simp only
    rw [ih bu']

/-- **C75, full statement** (false): whatever types the other program has, `PacketBufReader` gives one result for each packet and reaches the end. -/
def C75_full : Prop :=
  ∀ (ws vs : List BlockTy) (us ps : List PayloadTy) (pr : Receiver vs ps) (rules : Rules (blockEnum vs).BR (Packet (blockEnum vs) (PEnum.ops ps))) (chk : Bool)
    (l : List (Packet (blockEnum ws) (PEnum.ops us))), (∀ p ∈ l, Declared p) → (∀ p ∈ l, p.blocks.length ≤ 255) →
    (∀ p ∈ l, Knows vs ps p ∨ Strange vs p ∨ Foreign vs ps p) → ∀ (cs : Chunks), Cuts cs (l.map wire).flatten →
    ∃ n os, loud (reads rules chk n (.new (cs.map some))).1 = os ++ [.ok .noData] ∧ Each (Told pr rules) l os

/-! ## A newer and an older program -/

/-- The older program has one of the two block types, and no payload of its own. -/
theorem older : Receiver [sampleBlock] [] where
  distinct := by simp [DistinctSigs]
  wf := by
    intro b hb
    rw [List.mem_singleton.mp hb]
    exact sampleBlock_wf
  payloads := by
    have h : bytesTy.ssig ≠ stringTy.ssig := by decide +kernel
    simp [h]

abbrev Newer : Type := Packet (blockEnum sampleTypes) (PEnum.ops [flagTy])

/-- A block and a payload that the older program has. -/
def newKnown : Newer := ⟨[⟨sampleBlock, sampleVals⟩], some (.inr (.inl [1]))⟩
/-- A block it has, and one it does not. -/
def newBlock : Newer := ⟨[⟨sampleBlock, sampleVals⟩, ⟨otherBlock, ()⟩], none⟩
/-- A block it has, and a payload it does not. -/
def newPayload : Newer := ⟨[⟨sampleBlock, sampleVals⟩], some (.inl true)⟩

theorem flagTy_bytes : bytesTy.ssig ≠ flagTy.ssig := by decide +kernel
theorem flagTy_string : stringTy.ssig ≠ flagTy.ssig := by decide +kernel

theorem flagTy_good : flagTy.Good true [1] (PayloadTy.crcBlock [1]) := ⟨rfl, rfl, rfl, by decide, rfl, rfl⟩

def smallHeader {O : BlockOps} {Q : PayloadOps} (p : Packet O Q) : Bool :=
  match p.header with
  | .ok h => h.size < 2 ^ 63
  | _ => true

theorem smallHeader_spec {O : BlockOps} {Q : PayloadOps} {p : Packet O Q} (h : smallHeader p = true) : ∀ hd, p.header = .ok hd → hd.size < 2 ^ 63 := by
  intro hd e
  rw [smallHeader, e] at h
  simpa using h

theorem newKnown_declared : Declared newKnown where
  distinct := sampleTypes_distinct
  wf := sampleTypes_wf
  blocks := by
    intro b hb
    rw [List.mem_singleton.mp hb]
    simp [sampleTypes]
  payload := by
    intro v hv
    obtain rfl : v = .inr (.inl [1]) := (Option.some.inj hv).symm
    exact ⟨bytesTy, [1], _, _, .there _ _ _ flagTy_bytes.symm (.here _), bytesTy_good _ (by decide), rfl⟩
  size := smallHeader_spec (by decide +kernel)

theorem newBlock_declared : Declared newBlock where
  distinct := sampleTypes_distinct
  wf := sampleTypes_wf
  blocks := by
    intro b hb
    rcases List.mem_cons.mp hb with rfl | hb
    · simp [sampleTypes]
    · rw [List.mem_singleton.mp hb]
      simp [sampleTypes]
  payload := by intro v hv; cases hv
  size := smallHeader_spec (by decide +kernel)

theorem newPayload_declared : Declared newPayload where
  distinct := sampleTypes_distinct
  wf := sampleTypes_wf
  blocks := by
    intro b hb
    rw [List.mem_singleton.mp hb]
    simp [sampleTypes]
  payload := by
    intro v hv
    obtain rfl : v = .inl true := (Option.some.inj hv).symm
    exact ⟨flagTy, true, _, _, .here _, flagTy_good, rfl⟩
  size := smallHeader_spec (by decide +kernel)

theorem newKnown_knows : Knows [sampleBlock] [] newKnown where
  blocks := by
    intro b hb
    rw [List.mem_singleton.mp hb]
    simp
  payload := by
    intro v hv T u ha
    obtain rfl : v = .inr (.inl [1]) := (Option.some.inj hv).symm
    have : PVal.At bytesTy [1] ([flagTy] ++ [bytesTy, stringTy]) (.inr (.inl [1])) := .there _ _ _ flagTy_bytes.symm (.here _)
    cases at_unique this ha
    simp

theorem newBlock_strange : Strange [sampleBlock] newBlock :=
  ⟨[⟨sampleBlock, sampleVals⟩], ⟨otherBlock, ()⟩, [], rfl, by
    intro c hc
    rw [List.mem_singleton.mp hc]
    simp, by
    intro c hc
    rw [List.mem_singleton.mp hc]
    decide⟩

theorem newPayload_foreign : Foreign [sampleBlock] [] newPayload where
  blocks := by
    intro b hb
    rw [List.mem_singleton.mp hb]
    simp
  payload := ⟨.inl true, flagTy, true, rfl, .here _, by
    intro U hU
    simp only [List.nil_append, List.mem_cons, List.not_mem_nil, or_false] at hU
    rcases hU with rfl | rfl
    · exact flagTy_bytes
    · exact flagTy_string⟩

/-- Non-vacuity of `C75_reads`: the three packets one after the other. -/
example : Each (Heard [sampleBlock] []) [newBlock, newPayload, newKnown] (readMany [sampleBlock] [] 3 (([newBlock, newPayload, newKnown].map wire).flatten ++ [7])).1 := by
  refine (C75_reads older [newBlock, newPayload, newKnown] ?_ ?_ ?_ [7]).1 <;> intro p hp <;> simp only [List.mem_cons, List.not_mem_nil, or_false] at hp
  · rcases hp with rfl | rfl | rfl
    · exact newBlock_declared
    · exact newPayload_declared
    · exact newKnown_declared
  · rcases hp with rfl | rfl | rfl <;> decide
  · rcases hp with rfl | rfl | rfl
    · exact .inr (.inl newBlock_strange)
    · exact .inr (.inr newPayload_foreign)
    · exact .inl newKnown_knows

/-- Non-vacuity of `C75_stream_partial`: all bytes in one read. -/
example : ∃ n os, loud (reads ([] : Rules _ (Packet (blockEnum [sampleBlock]) (PEnum.ops []))) true n (.new [some ([newBlock, newKnown].map wire).flatten])).1 = os ++ [.ok .noData] ∧
    Each (Told older []) [newBlock, newKnown] os := by
  refine C75_stream_partial older [] true [newBlock, newKnown] ?_ ?_ ?_ [([newBlock, newKnown].map wire).flatten] ⟨by simp, ?_⟩
  · intro p hp
    simp only [List.mem_cons, List.not_mem_nil, or_false] at hp
    rcases hp with rfl | rfl
    · exact newBlock_declared
    · exact newKnown_declared
  · intro p hp
    simp only [List.mem_cons, List.not_mem_nil, or_false] at hp
    rcases hp with rfl | rfl <;> decide
  · intro p hp
    simp only [List.mem_cons, List.not_mem_nil, or_false] at hp
    rcases hp with rfl | rfl
    · exact .inr newBlock_strange
    · exact .inl newKnown_knows
  · intro c hc
    rw [List.mem_singleton.mp hc]
    decide +kernel

/-- **C75 is false** for `PacketBufReader`: the known packet behind one with an unknown payload is never found. -/
theorem C75_not : ¬ C75_full := by
  intro h
  obtain ⟨n, os, e, r⟩ := h sampleTypes [sampleBlock] [flagTy] [] older [] true [newPayload, newKnown]
    (by
      intro p hp
      simp only [List.mem_cons, List.not_mem_nil, or_false] at hp
      rcases hp with rfl | rfl
      · exact newPayload_declared
      · exact newKnown_declared)
    (by
      intro p hp
      simp only [List.mem_cons, List.not_mem_nil, or_false] at hp
      rcases hp with rfl | rfl <;> decide)
    (by
      intro p hp
      simp only [List.mem_cons, List.not_mem_nil, or_false] at hp
      rcases hp with rfl | rfl
      · exact .inr (.inr newPayload_foreign)
      · exact .inl newKnown_knows)
    [([newPayload, newKnown].map wire).flatten] ⟨by simp, by
      intro c hc
      rw [List.mem_singleton.mp hc]
      decide +kernel⟩
  have st := C75_stuck older newPayload_declared (by decide) newPayload_foreign true (wire newKnown) [] [] [] n
  have hm : Out.ok Next.noData ∈ loud (reads ([] : Rules _ (Packet (blockEnum [sampleBlock]) (PEnum.ops []))) true n (.new [some ([newPayload, newKnown].map wire).flatten])).1 := by
    simp only [List.map_cons, List.map_nil] at e
    simp only [List.map_cons, List.map_nil]
    rw [e]
    simp
  have hs : (Rd.new [some ([newPayload, newKnown].map wire).flatten]) = ⟨[some (wire newPayload ++ wire newKnown)], .empty, [], []⟩ := by
    simp [Rd.new]
  rw [hs] at hm
  have hm' := (List.mem_filter.mp hm).1
  rw [st] at hm'
  cases List.eq_of_mem_replicate hm'

end Brec.Props
