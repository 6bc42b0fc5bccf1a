import Verif.Inversion
/-!
# Bytes that are accepted for a packet

The other direction of `Inversion`: bytes that stand for a packet are read as this packet.
-/

namespace Brec

/-! ## Blocks -/

theorem Took.take {view : Bool} {v : BlockVal} (hv : v.1.sig.length = 4) {x : Bytes} (h : Took view v x) (s : Bytes) :
    (x ++ s).take 4 = v.1.sig := by
  obtain ⟨raw, rfl, _⟩ := h
  rw [List.append_assoc, List.append_assoc, List.take_append_of_le_length (by omega), List.take_of_length_le (by omega)]

theorem Took.eight_le {view : Bool} {v : BlockVal} (hv : v.1.sig.length = 4) {x : Bytes} (h : Took view v x) : 8 ≤ x.length := by
  rw [h.length hv, BlockVal.size, BlockTy.ssize]; omega

theorem BlockTy.tryRead_of {b : BlockTy} (w : b.sig.length = 4) {v : Vals b.fields} {x : Bytes} (h : Took false ⟨b, v⟩ x) {c : Cur} {s : Bytes}
    (hp : c.pos ≤ c.data.length) (hr : c.rest = x ++ s) :
    b.tryRead c = (.ok (.success v), { c with pos := c.pos + x.length }) := by
  have hx : x.length = b.ssize := h.length w
  have h8 := h.eight_le w
  obtain ⟨raw, rfl, hm⟩ := h
  simp only at hx hr h8 ⊢
  have hrl := congrArg List.length hr
  rw [List.length_append, hx] at hrl
  unfold BlockTy.tryRead
  rw [Cur.remaining_ok hp]
  simp only
  rw [if_neg (by omega)]
  have r0 : c.rest = b.sig ++ (raw ++ b.crc v ++ s) := by rw [hr]; simp
  rw [Cur.run_take r0 (P.readExact_append' w _)]
  simp only [ne_eq, not_true_eq_false, if_false]
  rw [if_neg (by omega)]
  have r1 := Cur.rest_add r0
  rw [Cur.run_take (m := raw ++ b.crc v) (s := s) r1 (by simp only [BlockTy.read, if_true]; exact BlockTy.readBody_iff.mpr ⟨raw, rfl, hm⟩)]
  simp [Nat.add_assoc]

theorem BlockTy.tryBuf_of {b : BlockTy} (w : b.sig.length = 4) {v : Vals b.fields} {x : Bytes} (h : Took false ⟨b, v⟩ x) {cs : Chunks} {s : Bytes}
    (hf : 4 ≤ (Chunks.fill cs).length) (hr : cs.flatten = x ++ s) :
    b.tryBuf cs = (.ok (.success v), Chunks.skip x.length cs) := by
  have ht : cs.flatten.take 4 = b.sig := by rw [hr]; exact h.take w s
  have hpre := BlockTy.sig_prefix hf (Chunks.fill_prefix cs) ht
  have hle := (Chunks.fill_prefix cs).length_le
  obtain ⟨raw, rfl, hm⟩ := h
  simp only at hr ⊢
  unfold BlockTy.tryBuf
  rw [if_neg (by omega), if_neg (by simp [hpre])]
  simp only
  have hfl : (Chunks.consume 4 cs).flatten = raw ++ b.crc v ++ s := by
    rw [Chunks.flatten_consume hf, hr]
    simp only [List.append_assoc]
    rw [← w, List.drop_left]
  rw [Chunks.run_take (m := raw ++ b.crc v) (s := s) hfl (by simp only [BlockTy.read, if_true]; exact BlockTy.readBody_iff.mpr ⟨raw, rfl, hm⟩)]
  rw [Chunks.consume, Nat.min_eq_left hf, Chunks.skip_skip _ _ _ (by omega)]
  simp [w]

theorem BlockTy.readSlice_of {b : BlockTy} (w : b.sig.length = 4) {v : Vals b.fields} {x : Bytes} (h : Took true ⟨b, v⟩ x) (s : Bytes) :
    b.readSlice (x ++ s) false = .ok ⟨b.sig, v, b.crc v⟩ := by
  have hx : x.length = b.ssize := h.length w
  have h8 := h.eight_le w
  have ht : (x ++ s).take 4 = b.sig := h.take w s
  obtain ⟨raw, rfl, hm⟩ := h
  simp only at hx ht h8 ⊢
  unfold BlockTy.readSlice
  rw [if_neg (by simp only [List.length_append] at h8 ⊢; simp; omega), if_neg (by rw [ht]; simp)]
  simp only [Bool.false_eq_true, if_false]
  rw [if_neg (by rw [List.length_append, hx]; omega)]
  have e0 : b.sig ++ raw ++ b.crc v ++ s = [] ++ b.sig ++ (raw ++ b.crc v ++ s) := by simp
  have e1 : b.sig ++ raw ++ b.crc v ++ s = b.sig ++ raw ++ (b.crc v ++ s) := by simp
  have e3 := Vals.ofSlice_of hm b.sig (b.crc v ++ s)
  rw [w] at e3
  rw [e0, cut_append (i := 0) rfl (by simp [w]), ← e0, Out.bind_ok, e1, e3, ← e1, Out.bind_ok,
    cut_append (by simp [w, hm.length]) (by simp), Out.bind_ok]
  simp

theorem enumTryRead_of {vs : List BlockTy} (hd : DistinctSigs vs) (hv : ∀ a ∈ vs, a.sig.length = 4) {b : BlockVal} (hb : b.1 ∈ vs)
    {x : Bytes} (h : Took false b x) {c : Cur} {s : Bytes} (hp : c.pos ≤ c.data.length) (hr : c.rest = x ++ s) :
    enumTryRead vs c = (.ok (.success b), { c with pos := c.pos + x.length }) := by
  have h4 : 4 ≤ c.rest.length := by
    have := h.eight_le (hv _ hb)
    rw [hr, List.length_append]; omega
  have ht : c.rest.take 4 = b.1.sig := by rw [hr]; exact h.take (hv _ hb) s
  have hw := hv _ hb
  clear hv
  induction vs with
  | nil => cases hb
  | cons a vs ih =>
    rw [enumTryRead]
    rcases List.mem_cons.mp hb with e | hb
    · subst e
      rw [BlockTy.tryRead_of hw h hp hr]
      rfl
    · have hne : a.sig ≠ b.1.sig := (List.pairwise_cons.mp hd).1 b.1 hb
      rw [BlockTy.tryRead_other hp h4 (by rw [ht]; exact Ne.symm hne)]
      exact ih (List.pairwise_cons.mp hd).2 hb

theorem enumTryBuf_of {vs : List BlockTy} (hd : DistinctSigs vs) (hv : ∀ a ∈ vs, a.sig.length = 4) {b : BlockVal} (hb : b.1 ∈ vs)
    {x : Bytes} (h : Took false b x) {cs : Chunks} {s : Bytes} (hf : 4 ≤ (Chunks.fill cs).length) (hr : cs.flatten = x ++ s) :
    enumTryBuf vs cs = (.ok (.success b), Chunks.skip x.length cs) := by
  have ht : (Chunks.fill cs).take 4 = b.1.sig := by
    obtain ⟨r, e⟩ := Chunks.fill_prefix cs
    rw [← h.take (hv _ hb) s, ← hr, ← e, List.take_append_of_le_length hf]
  have hw := hv _ hb
  induction vs with
  | nil => cases hb
  | cons a vs ih =>
    rw [enumTryBuf]
    rcases List.mem_cons.mp hb with e | hb
    · subst e
      rw [BlockTy.tryBuf_of hw h hf hr]
      rfl
    · have hne : a.sig ≠ b.1.sig := (List.pairwise_cons.mp hd).1 b.1 hb
      rw [BlockTy.tryBuf_other (hv a (by simp)) hf (by rw [ht]; exact Ne.symm hne)]
      exact ih (List.pairwise_cons.mp hd).2 (fun y hy => hv y (by simp [hy])) hb

theorem enumReadSlice_of {vs : List BlockTy} (hd : DistinctSigs vs) (hv : ∀ a ∈ vs, a.sig.length = 4) {b : BlockVal} (hb : b.1 ∈ vs)
    {x : Bytes} (h : Took true b x) (s : Bytes) :
    enumReadSlice false vs (x ++ s) = .ok ⟨b.1, ⟨b.1.sig, b.2, b.1.crc b.2⟩⟩ := by
  have h4 : 4 ≤ (x ++ s).length := by
    have := h.eight_le (hv _ hb)
    rw [List.length_append]; omega
  have hw := hv _ hb
  have ht := h.take hw s
  clear hv
  induction vs with
  | nil => cases hb
  | cons a vs ih =>
    rw [enumReadSlice]
    rcases List.mem_cons.mp hb with e | hb
    · subst e
      rw [BlockTy.readSlice_of hw h s]
    · have hne : a.sig ≠ b.1.sig := (List.pairwise_cons.mp hd).1 b.1 hb
      rw [BlockTy.readSlice_other h4 (by rw [ht]; exact Ne.symm hne)]
      exact ih (List.pairwise_cons.mp hd).2 hb

/-- Readers that take all bytes that stand for a block. -/
structure BlockOps.Fwd (O : BlockOps) (In : Bool → O.B → Bytes → Prop) : Prop where
  size_eq : ∀ {view b x}, In view b x → x.length = O.size b
  four_le : ∀ {view b x}, In view b x → 4 ≤ x.length
  tryBuf : ∀ {b x cs s}, In false b x → 4 ≤ (Chunks.fill cs).length → cs.flatten = x ++ s →
    O.tryBuf cs = (.ok (.success b), Chunks.skip x.length cs)
  tryRead : ∀ {b x c s}, In false b x → c.pos ≤ c.data.length → c.rest = x ++ s →
    O.tryRead c = (.ok (.success b), { c with pos := c.pos + x.length })
  readSlice : ∀ {b x} s, In true b x → ∃ r, O.readSlice (x ++ s) = .ok r ∧ O.into r = b ∧ O.rsize r = x.length

theorem blockEnum_fwd {vs : List BlockTy} (hd : DistinctSigs vs) (hv : ∀ a ∈ vs, a.sig.length = 4) : (blockEnum vs).Fwd (EnumTook vs) where
  size_eq h := h.2.length (hv _ h.1)
  four_le h := by have := h.2.eight_le (hv _ h.1); omega
  tryBuf h hf hr := enumTryBuf_of hd hv h.1 h.2 hf hr
  tryRead h hp hr := enumTryRead_of hd hv h.1 h.2 hp hr
  readSlice s h := ⟨_, enumReadSlice_of hd hv h.1 h.2 s, rfl, (h.2.length (hv _ h.1)).symm⟩

/-! ## The block loops -/

variable {O : BlockOps} {In : Bool → O.B → Bytes → Prop}

theorem AllTook.pos (F : O.Fwd In) {view : Bool} {bs : List O.B} {x : Bytes} (h : AllTook (In view) bs x) : bs.length ≤ x.length := by
  induction h with
  | nil => simp
  | cons h1 _ ih =>
    have := F.four_le h1
    simp only [List.length_cons, List.length_append]; omega

theorem Packet.blocksBuf_of (F : O.Fwd In) {L : Nat} {bs : List O.B} {x : Bytes} (h : AllTook (In false) bs x) (hne : bs ≠ [])
    {left rd : Nat} {acc : List O.B} {cs : Chunks} {s : Bytes} (hr : cs.flatten = x ++ s) (hf : x.length ≤ (Chunks.fill cs).length)
    (hl : bs.length ≤ left + 1) (hb : rd + x.length = L) :
    blocksBuf O L left rd acc cs = (.ok (.success (acc ++ bs)), Chunks.skip x.length cs) := by
  induction h generalizing left rd acc cs with
  | nil => exact absurd rfl hne
  | @cons b x bs y h1 h2 ih =>
    have hb4 := F.four_le h1
    have hsz := F.size_eq h1
    rw [List.append_assoc] at hr
    rw [List.length_append] at hf hb ⊢
    rw [blocksBuf.eq_def]
    simp only
    rw [F.tryBuf h1 (by omega) hr]
    simp only
    by_cases hbs : bs = []
    · subst hbs
      cases h2
      rw [if_pos (by simp at hb; omega)]
      simp
    · have hpos : 0 < y.length := by
        have := h2.pos F
        have := List.length_pos_iff.mpr hbs
        omega
      rw [if_neg (by omega)]
      cases left with
      | zero =>
        exfalso
        cases bs with
        | nil => exact hbs rfl
        | cons => simp at hl
      | succ left =>
        simp only
        rw [ih hbs (cs := Chunks.skip x.length cs)]
        · rw [Chunks.skip_skip _ _ _ (by rw [hr]; simp)]
          simp
        · rw [Chunks.flatten_skip, hr]; simp
        · rw [Chunks.fill_skip (by omega), List.length_drop]; omega
        · simp at hl; omega
        · omega

theorem Packet.blocksCur_of (F : O.Fwd In) {L : Nat} {bs : List O.B} {x : Bytes} (h : AllTook (In false) bs x) (hne : bs ≠ [])
    {left rd : Nat} {acc : List O.B} {c : Cur} {s : Bytes} (hp : c.pos ≤ c.data.length) (hr : c.rest = x ++ s)
    (hl : bs.length ≤ left + 1) (hb : rd + x.length = L) :
    blocksCur O L left rd acc c = (.ok (.success (acc ++ bs)), { c with pos := c.pos + x.length }) := by
  induction h generalizing left rd acc c with
  | nil => exact absurd rfl hne
  | @cons b x bs y h1 h2 ih =>
    have hsz := F.size_eq h1
    rw [List.append_assoc] at hr
    rw [List.length_append] at hb ⊢
    rw [blocksCur.eq_def]
    simp only
    rw [F.tryRead h1 hp hr]
    simp only
    by_cases hbs : bs = []
    · subst hbs
      cases h2
      rw [if_pos (by simp at hb; omega)]
      simp
    · have hpos : 0 < y.length := by
        have := h2.pos F
        have := List.length_pos_iff.mpr hbs
        omega
      rw [if_neg (by omega)]
      cases left with
      | zero =>
        exfalso
        cases bs with
        | nil => exact hbs rfl
        | cons => simp at hl
      | succ left =>
        simp only
        have hrl := congrArg List.length hr
        simp only [Cur.rest, List.length_drop, List.length_append] at hrl
        rw [ih hbs]
        · simp [Nat.add_assoc]
        · simp only; omega
        · exact Cur.rest_add hr
        · simp at hl; omega
        · omega

theorem Packet.slicesLoop_of (F : O.Fwd In) {L : Nat} {bs : List O.B} {x : Bytes} (h : AllTook (In true) bs x) (hne : bs ≠ [])
    {fuel rd : Nat} {acc : List O.BR} {buf s : Bytes} (hl : rd ≤ buf.length) (hr : buf.drop rd = x ++ s)
    (hf : bs.length ≤ fuel) (hb : rd + x.length = L) :
    ∃ rs, slicesLoop O buf L fuel rd acc = .ok (acc ++ rs) ∧ rs.map O.into = bs := by
  induction h generalizing fuel rd acc with
  | nil => exact absurd rfl hne
  | @cons b x bs y h1 h2 ih =>
    rw [List.append_assoc] at hr
    rw [List.length_append] at hb
    obtain ⟨r, e1, e2, hsz⟩ := F.readSlice (y ++ s) h1
    cases fuel with
    | zero => simp at hf
    | succ fuel =>
      rw [slicesLoop, if_neg (by omega), hr, e1]
      simp only
      by_cases hbs : bs = []
      · subst hbs
        cases h2
        rw [if_pos (by simp at hb; omega)]
        exact ⟨[r], by simp, by simp [e2]⟩
      · have hpos : 0 < y.length := by
          have := h2.pos F
          have := List.length_pos_iff.mpr hbs
          omega
        rw [if_neg (by omega)]
        have hrl := congrArg List.length hr
        simp only [List.length_drop, List.length_append] at hrl
        obtain ⟨rs, e3, e4⟩ := ih hbs (fuel := fuel) (rd := rd + O.rsize r) (acc := acc ++ [r]) (by omega)
          (by rw [← List.drop_drop, hr, hsz]; simp) (by simp at hf; omega) (by omega)
        exact ⟨r :: rs, by rw [e3]; simp, by simp [e2, e4]⟩

/-! ## Payloads -/

theorem PayloadTy.read_of {T : PayloadTy} {u : T.Val} {h : PayloadHeader} {x : Bytes} (hs : h.sig = T.ssig) (hl : x.length = h.len)
    (hd : T.decode x = some u) (hc : T.crc u = .ok h.crc) (s : Bytes) : (T.read h).run (x ++ s) = (.ok u, s) := by
  unfold PayloadTy.read
  rw [if_neg (by simp [hs]), P.bind_ok (P.readExact_append' hl s),
    P.bind_ok (a := u) (by rw [P.lift_run, hd]; rfl), P.bind_ok (a := h.crc) (by rw [P.lift_run, hc])]
  simp

theorem PayloadTy.tryRead_of {T : PayloadTy} {u : T.Val} {h : PayloadHeader} {x : Bytes} (hs : h.sig = T.ssig) (hl : x.length = h.len)
    (hd : T.decode x = some u) (hc : T.crc u = .ok h.crc) {c : Cur} {s : Bytes} (hp : c.pos ≤ c.data.length) (hr : c.rest = x ++ s) :
    T.tryRead h c = (.ok (.success u), { c with pos := c.pos + x.length }) := by
  unfold PayloadTy.tryRead
  rw [Cur.remaining_ok hp]
  simp only
  rw [if_neg (by rw [hr, List.length_append]; omega), Cur.run_take hr (read_of hs hl hd hc s)]; rfl

theorem PayloadTy.tryBuf_of {T : PayloadTy} {u : T.Val} {h : PayloadHeader} {x : Bytes} (hs : h.sig = T.ssig) (hl : x.length = h.len)
    (hd : T.decode x = some u) (hc : T.crc u = .ok h.crc) {cs : Chunks} {s : Bytes} (hr : cs.flatten = x ++ s) :
    T.tryBuf h cs = (.ok (.success u), Chunks.skip x.length cs) := by
  unfold PayloadTy.tryBuf
  rw [Chunks.run_take hr (read_of hs hl hd hc s)]; rfl

theorem PTook.read {vs : List PayloadTy} {w : PVal vs} {h : PayloadHeader} {x : Bytes} (p : PTook vs w h x) (s : Bytes) :
    (PEnum.read h vs).run (x ++ s) = (.ok w, s) := by
  obtain ⟨T, u, hm, ha, hs, hl, hd, hc⟩ := p
  clear hm
  induction ha with
  | here Ts => simp only [PEnum.read]; rw [PayloadTy.read_of hs hl hd hc]
  | there T' Ts w hne _ ih =>
    simp only [PEnum.read]
    rw [PayloadTy.read_other (by rw [hs]; exact hne.symm)]
    simp only
    rw [ih]; rfl

theorem PTook.tryRead {vs : List PayloadTy} {w : PVal vs} {h : PayloadHeader} {x : Bytes} (p : PTook vs w h x) {c : Cur} {s : Bytes}
    (hp : c.pos ≤ c.data.length) (hr : c.rest = x ++ s) :
    PEnum.tryRead h vs c = (.ok (.success w), { c with pos := c.pos + x.length }) := by
  obtain ⟨T, u, hm, ha, hs, hl, hd, hc⟩ := p
  clear hm
  induction ha with
  | here Ts => simp only [PEnum.tryRead]; rw [PayloadTy.tryRead_of hs hl hd hc hp hr]
  | there T' Ts w hne _ ih =>
    simp only [PEnum.tryRead]
    rw [PayloadTy.tryRead_other (by rw [hs]; exact hne.symm) hp (by rw [hr, List.length_append]; omega)]
    simp only
    rw [ih]

theorem PTook.tryBuf {vs : List PayloadTy} {w : PVal vs} {h : PayloadHeader} {x : Bytes} (p : PTook vs w h x) {cs : Chunks} {s : Bytes}
    (hr : cs.flatten = x ++ s) : PEnum.tryBuf h vs cs = (.ok (.success w), Chunks.skip x.length cs) := by
  obtain ⟨T, u, hm, ha, hs, hl, hd, hc⟩ := p
  clear hm
  induction ha generalizing cs with
  | here Ts => simp only [PEnum.tryBuf]; rw [PayloadTy.tryBuf_of hs hl hd hc hr]
  | there T' Ts w hne _ ih =>
    simp only [PEnum.tryBuf]
    rw [PayloadTy.tryBuf_other (by rw [hs]; exact hne.symm)]
    simp only
    rw [ih (cs := Chunks.skip 0 cs) (by rw [Chunks.skip_zero_flatten, hr]), Chunks.skip_skip_zero]

/-- Readers that take all bytes that stand for a payload. -/
structure PayloadOps.Fwd (Q : PayloadOps) (PIn : Q.V → PayloadHeader → Bytes → Prop) : Prop where
  read : ∀ {h x w} s, PIn w h x → (Q.read h).run (x ++ s) = (.ok w, s)
  tryBuf : ∀ {h x w cs s}, PIn w h x → cs.flatten = x ++ s → Q.tryBuf h cs = (.ok (.success w), Chunks.skip x.length cs)
  tryRead : ∀ {h x w c s}, PIn w h x → c.pos ≤ c.data.length → c.rest = x ++ s →
    Q.tryRead h c = (.ok (.success w), { c with pos := c.pos + x.length })

theorem PEnum.ops_fwd (ps : List PayloadTy) : (PEnum.ops ps).Fwd (PTook (ps ++ [bytesTy, stringTy])) where
  read s p := p.read s
  tryBuf p hr := p.tryBuf hr
  tryRead p hp hr := p.tryRead hp hr

/-! ## Packet headers -/

/-- A header with its checksum and any byte for the flag. -/
def PacketHeader.rawOf (h : PacketHeader) (flag : Byte) : Bytes :=
  PacketHeader.raw h.size h.blocksLen flag (PacketHeader.crcOf h.size h.blocksLen h.payload)

theorem PacketHeader.rawOf_length (h : PacketHeader) (flag : Byte) : (h.rawOf flag).length = HSIZE := by
  simp [PacketHeader.rawOf, PacketHeader.raw, PACKET_SIG, HSIZE, PacketHeader.crcOf_length]

theorem PacketHeader.read_rawOf {h : PacketHeader} (w : h.WF) {flag : Byte} (hf : h.payload = (flag == 1)) (s : Bytes) :
    PacketHeader.read.run (h.rawOf flag ++ s) = (.ok h, s) := by
  have h1 := w.size_lt
  have h2 := w.blocks_lt
  simp only [PacketHeader.read, PacketHeader.rawOf, PacketHeader.raw, List.append_assoc]
  rw [P.bind_ok (P.readExact_append' PACKET_SIG_length _)]
  simp only [ne_eq, not_true_eq_false, if_false]
  rw [P.bind_ok (P.readExact_append' (leBytes_length ..) _)]
  rw [P.bind_ok (P.readExact_append' (leBytes_length ..) _)]
  rw [P.bind_ok (P.readExact_append' (n := 1) (a := [flag]) rfl _)]
  rw [P.bind_ok (P.readExact_append' (PacketHeader.crcOf_length ..) _)]
  rw [leNat_leBytes_of_lt (by omega), leNat_leBytes_of_lt (by omega), ← w.crc_eq]
  have e : ([flag] == [(1 : Byte)]) = h.payload := by rw [hf]; simp
  rw [e]
  simp only [P.lift_run]
  rw [PacketHeader.check_ok w]

theorem PacketHeader.readSlice_of_read {buf s : Bytes} {h : PacketHeader} (e : PacketHeader.read.run buf = (.ok h, s)) :
    PacketHeader.readSlice buf = .ok h := by
  obtain ⟨flag, hf, w, rfl⟩ := PacketHeader.read_eq_ok e
  have hb : PacketHeader.raw h.size h.blocksLen flag (PacketHeader.crcOf h.size h.blocksLen h.payload) = h.rawOf flag := rfl
  rw [hb]
  have hlen := h.rawOf_length flag
  have hpre : PACKET_SIG.isPrefixOf (h.rawOf flag ++ s) = true := by
    rw [List.isPrefixOf_iff_prefix]
    refine ⟨leBytes 8 h.size ++ leBytes 8 h.blocksLen ++ [flag] ++ PacketHeader.crcOf h.size h.blocksLen h.payload ++ s, ?_⟩
    simp [PacketHeader.rawOf, PacketHeader.raw]
  have h1 := w.size_lt
  have h2 := w.blocks_lt
  unfold PacketHeader.readSlice
  rw [if_neg (by rw [List.length_append]; omega), if_neg (by simp [hpre])]
  have e1 : slice (h.rawOf flag ++ s) 8 8 = leBytes 8 h.size := by
    have : h.rawOf flag ++ s = PACKET_SIG ++ leBytes 8 h.size ++
        (leBytes 8 h.blocksLen ++ [flag] ++ PacketHeader.crcOf h.size h.blocksLen h.payload ++ s) := by
      simp [PacketHeader.rawOf, PacketHeader.raw]
    rw [this]; exact slice_append_mid rfl (leBytes_length ..)
  have e2 : slice (h.rawOf flag ++ s) 16 8 = leBytes 8 h.blocksLen := by
    have : h.rawOf flag ++ s = (PACKET_SIG ++ leBytes 8 h.size) ++ leBytes 8 h.blocksLen ++
        ([flag] ++ PacketHeader.crcOf h.size h.blocksLen h.payload ++ s) := by
      simp [PacketHeader.rawOf, PacketHeader.raw]
    rw [this]; exact slice_append_mid (by simp [PACKET_SIG]) (leBytes_length ..)
  have e3 : slice (h.rawOf flag ++ s) 24 1 = [flag] := by
    have : h.rawOf flag ++ s = (PACKET_SIG ++ leBytes 8 h.size ++ leBytes 8 h.blocksLen) ++
        [flag] ++ (PacketHeader.crcOf h.size h.blocksLen h.payload ++ s) := by
      simp [PacketHeader.rawOf, PacketHeader.raw]
    rw [this]; exact slice_append_mid (by simp [PACKET_SIG]) rfl
  have e4 : slice (h.rawOf flag ++ s) 25 4 = PacketHeader.crcOf h.size h.blocksLen h.payload := by
    have : h.rawOf flag ++ s = (PACKET_SIG ++ leBytes 8 h.size ++ leBytes 8 h.blocksLen ++
        [flag]) ++ PacketHeader.crcOf h.size h.blocksLen h.payload ++ s := by
      simp [PacketHeader.rawOf, PacketHeader.raw]
    rw [this]; exact slice_append_mid (by simp [PACKET_SIG]) (PacketHeader.crcOf_length ..)
  have e : ([flag] == [(1 : Byte)]) = h.payload := by rw [hf]; simp
  rw [e1, e2, e3, e4, leNat_leBytes_of_lt (by omega), leNat_leBytes_of_lt (by omega), ← w.crc_eq, e]
  exact PacketHeader.check_ok w

theorem PacketHeader.tryRead_rawOf {h : PacketHeader} (w : h.WF) {flag : Byte} (hf : h.payload = (flag == 1)) {c : Cur} {s : Bytes}
    (hp : c.pos ≤ c.data.length) (hr : c.rest = h.rawOf flag ++ s) :
    PacketHeader.tryRead c = (.ok (.success h), { c with pos := c.pos + HSIZE }) := by
  unfold PacketHeader.tryRead
  rw [Cur.remaining_ok hp, hr]
  simp only [List.length_append, PacketHeader.rawOf_length]
  rw [if_neg (by omega)]
  rw [Cur.run_take hr (PacketHeader.read_rawOf w hf s)]
  simp [PacketHeader.rawOf_length]

/-! ## Packets -/

namespace Packet

variable {Q : PayloadOps} {PIn : Q.V → PayloadHeader → Bytes → Prop}

theorem Taken.blocks_pos (F : O.Fwd In) {view : Bool} {h : PacketHeader} {p : Packet O Q} {bl pb : Bytes} (t : Taken (In view) PIn h p bl pb)
    (hne : p.blocks ≠ []) : 0 < bl.length := by
  have := t.blocks.pos F
  have := List.length_pos_iff.mpr hne
  omega

theorem Taken.blocks_nil {In : O.B → Bytes → Prop} {h : PacketHeader} {p : Packet O Q} {bl pb : Bytes} (t : Taken In PIn h p bl pb)
    (he : p.blocks = []) : bl = [] := by
  have := t.blocks
  rw [he] at this
  cases this
  rfl

theorem ofInner_of (F : O.Fwd In) (G : Q.Fwd PIn) {h : PacketHeader} {p : Packet O Q} {bl pb : Bytes} (t : Taken (In false) PIn h p bl pb)
    (hn : p.blocks.length ≤ 256) (junk : Bytes) : ofInner Q h (bl ++ pb ++ junk) = .ok p := by
  have hblk : ∃ cs', (if h.blocksLen > 0 then blocksBuf O h.blocksLen MAX_BLOCKS 0 [] [bl ++ pb ++ junk]
      else (.ok (.success []), [bl ++ pb ++ junk])) = (.ok (.success p.blocks), cs') ∧ cs'.flatten = pb ++ junk := by
    rw [t.blocksLen]
    by_cases hne : p.blocks = []
    · obtain rfl := t.blocks_nil hne
      exact ⟨[pb ++ junk], by simp [hne], by simp⟩
    · rw [if_pos (t.blocks_pos F hne), blocksBuf_of F t.blocks hne (s := pb ++ junk) (by simp) (by rw [Chunks.fill_single]; simp)
        (by simp [MAX_BLOCKS]; omega) (by simp)]
      exact ⟨_, by simp; rfl, by rw [Chunks.flatten_skip]; simp⟩
  obtain ⟨cs', e, hfl⟩ := hblk
  unfold ofInner
  simp only
  rw [e]
  simp only
  have hflag := t.flag
  have hpt := t.payload
  obtain ⟨blocks, payload⟩ := p
  cases payload with
  | none => simp [hflag]
  | some v =>
    obtain ⟨ph, x, rfl, hl, hx⟩ := hpt
    simp only [hflag, Option.isSome_some, if_true]
    rw [List.append_assoc] at hfl
    rw [Chunks.run_take hfl (PayloadHeader.read_asVec ph hl _)]
    simp only
    rw [Chunks.run_take (m := x) (s := junk) (by rw [Chunks.flatten_skip, hfl]; simp) (G.read junk hx)]
    rfl

/-- What `read` takes. -/
theorem read_of (F : O.Fwd In) (G : Q.Fwd PIn) {h : PacketHeader} (w : h.WF) {flag : Byte} (hf : h.payload = (flag == 1))
    {p : Packet O Q} {bl pb junk : Bytes} (hs : h.size = (bl ++ pb ++ junk).length) (t : Taken (In false) PIn h p bl pb)
    (hn : p.blocks.length ≤ 256) (hm : h.size < 2 ^ 63) (s : Bytes) :
    (Packet.read Q).run (h.rawOf flag ++ (bl ++ pb ++ junk) ++ s) = (.ok p, s) := by
  unfold Packet.read
  rw [List.append_assoc, P.bind_ok (PacketHeader.read_rawOf w hf _),
    P.bind_ok (a := ()) (s' := bl ++ pb ++ junk ++ s) (by simp [allocZeroed, hm]),
    P.bind_ok (P.readExact_append' hs.symm s), P.lift_run, ofInner_of F G t hn]

theorem look_of (F : O.Fwd In) (G : Q.Fwd PIn) {h : PacketHeader} {p : Packet O Q} {bl pb : Bytes} (t : Taken (In true) PIn h p bl pb)
    (junk : Bytes) : look Q ([] : Rules O.BR (Packet O Q)) h (bl ++ pb ++ junk) = .ok (.accepted h.size p) := by
  have hblk : ∃ rs, (if h.blocksLen > 0 then slicesLoop O (bl ++ pb ++ junk) h.blocksLen ((bl ++ pb ++ junk).length + 1) 0 []
      else .ok []) = .ok rs ∧ rs.map O.into = p.blocks := by
    rw [t.blocksLen]
    by_cases hne : p.blocks = []
    · obtain rfl := t.blocks_nil hne
      exact ⟨[], by simp, by simp [hne]⟩
    · rw [if_pos (t.blocks_pos F hne)]
      obtain ⟨rs, e1, e2⟩ := slicesLoop_of F (L := bl.length) t.blocks hne (fuel := (bl ++ pb ++ junk).length + 1) (rd := 0) (acc := [])
        (buf := bl ++ pb ++ junk) (s := pb ++ junk) (by omega) (by simp)
        (by have := t.blocks.pos F; simp only [List.length_append]; omega) (by simp)
      exact ⟨rs, by simpa using e1, e2⟩
  obtain ⟨rs, e, hrs⟩ := hblk
  unfold look
  rw [e, Out.bind_ok]
  have hflag := t.flag
  have hpt := t.payload
  have hbl := t.blocksLen
  obtain ⟨blocks, payload⟩ := p
  simp only at hrs
  cases payload with
  | none => simp [hflag, Rules.filterByBlocks, Rules.filter, hrs]
  | some v =>
    obtain ⟨ph, x, rfl, hl, hx⟩ := hpt
    simp only [hflag, Option.isSome_some, if_true, hbl]
    have hd1 : List.drop bl.length (bl ++ (ph.asVec ++ x) ++ junk) = ph.asVec ++ (x ++ junk) := by simp
    have hd2 : List.drop (bl.length + ph.size) (bl ++ (ph.asVec ++ x) ++ junk) = x ++ junk := by
      rw [← List.drop_drop, hd1, ← PayloadHeader.size_eq]; simp
    rw [hd1, Chunks.fill_single, PayloadHeader.peek_asVec ph hl]
    simp only
    rw [hd2, G.tryBuf (cs := [x ++ junk]) (s := junk) hx (by simp), if_neg (by simp [Rules.filterByBlocks]), if_neg (by simp), if_neg (by rw [← PayloadHeader.size_eq]; simp)]
    simp [Rules.filterByPayload, Rules.filter, hrs]

theorem filtered_of (F : O.Fwd In) (G : Q.Fwd PIn) {h : PacketHeader} (w : h.WF) {flag : Byte} (hf : h.payload = (flag == 1))
    {p : Packet O Q} {bl pb junk : Bytes} (hs : h.size = (bl ++ pb ++ junk).length) (t : Taken (In true) PIn h p bl pb)
    (hm : h.size < 2 ^ 63) (s : Bytes) :
    (Packet.filtered Q ([] : Rules O.BR (Packet O Q))).run (h.rawOf flag ++ (bl ++ pb ++ junk) ++ s) = (.ok (.accepted h.size p), s) := by
  unfold Packet.filtered
  rw [List.append_assoc, P.bind_ok (PacketHeader.read_rawOf w hf _),
    P.bind_ok (a := ()) (s' := bl ++ pb ++ junk ++ s) (by simp [allocZeroed, hm]),
    P.bind_ok (P.readExact_append' hs.symm s), P.lift_run, look_of F G t]

theorem tryRead_of (F : O.Fwd In) (G : Q.Fwd PIn) {h : PacketHeader} (w : h.WF) {flag : Byte} (hf : h.payload = (flag == 1))
    {p : Packet O Q} {bl pb : Bytes} (t : Taken (In false) PIn h p bl pb) (hn : p.blocks.length ≤ 256) {c : Cur} {s : Bytes}
    (hp : c.pos ≤ c.data.length) (hr : c.rest = h.rawOf flag ++ (bl ++ pb) ++ s) (hs : h.size ≤ c.rest.length) :
    Packet.tryRead Q c = (.ok (.success p), { c with pos := c.pos + (HSIZE + (bl ++ pb).length) }) := by
  have hrl := congrArg List.length hr
  simp only [List.append_assoc] at hr
  simp only [Cur.rest, List.length_drop, List.length_append, PacketHeader.rawOf_length] at hrl
  unfold Packet.tryRead
  rw [Cur.remaining_ok hp]
  simp only
  rw [PacketHeader.tryRead_rawOf w hf hp hr]
  simp only
  rw [if_neg (by omega)]
  have hr1 : ({ c with pos := c.pos + HSIZE } : Cur).rest = bl ++ (pb ++ s) := by
    have := Cur.rest_add hr
    rwa [PacketHeader.rawOf_length] at this
  have hblk : (if h.blocksLen > 0 then blocksCur O h.blocksLen MAX_BLOCKS 0 [] { c with pos := c.pos + HSIZE }
      else (.ok (.success []), { c with pos := c.pos + HSIZE })) =
      (.ok (.success p.blocks), { c with pos := c.pos + HSIZE + bl.length }) := by
    rw [t.blocksLen]
    by_cases hne : p.blocks = []
    · obtain rfl := t.blocks_nil hne
      simp [hne]
    · rw [if_pos (t.blocks_pos F hne),
        blocksCur_of F t.blocks hne (s := pb ++ s) (by simp only; omega) hr1 (by simp [MAX_BLOCKS]; omega) (by simp)]
      simp
  rw [hblk]
  simp only
  have hr2 : ({ c with pos := c.pos + HSIZE + bl.length } : Cur).rest = pb ++ s := Cur.rest_add hr1
  unfold payloadCur
  have hflag := t.flag
  have hpt := t.payload
  obtain ⟨blocks, payload⟩ := p
  cases payload with
  | none =>
    obtain rfl : pb = [] := hpt
    simp only [hflag, Option.isSome_none, Bool.false_eq_true, if_false]
    simp [Nat.add_assoc]
  | some v =>
    obtain ⟨ph, x, rfl, hl, hx⟩ := hpt
    simp only [hflag, Option.isSome_some, if_true]
    rw [List.append_assoc] at hr2
    simp only [List.length_append] at hrl
    rw [PayloadHeader.tryRead_asVec ph hl (by simp only; omega) hr2]
    simp only
    have hr3 := Cur.rest_add hr2
    rw [PayloadHeader.size_eq] at hr3 hrl
    rw [G.tryRead hx (by simp only; omega) hr3]
    simp [Nat.add_assoc, PayloadHeader.size_eq]

theorem tryBuf_of (F : O.Fwd In) (G : Q.Fwd PIn) {h : PacketHeader} (w : h.WF) {flag : Byte} (hf : h.payload = (flag == 1))
    {p : Packet O Q} {bl pb : Bytes} (t : Taken (In false) PIn h p bl pb) (hn : p.blocks.length ≤ 256) {cs : Chunks} {s : Bytes}
    (hr : cs.flatten = h.rawOf flag ++ (bl ++ pb) ++ s) (hs : h.size ≤ (Chunks.fill cs).length)
    (hl : HSIZE + (bl ++ pb).length ≤ (Chunks.fill cs).length) :
    ∃ cs', Packet.tryBuf Q cs = (.ok (.success p), cs') ∧ cs'.flatten = s := by
  rw [List.length_append] at hl
  obtain ⟨r, hpre⟩ := Chunks.fill_prefix cs
  obtain ⟨t1, ht⟩ : ∃ t, Chunks.fill cs = h.rawOf flag ++ t := by
    have hx : h.rawOf flag <+: Chunks.fill cs :=
      List.prefix_of_prefix_length_le (l₃ := cs.flatten) ⟨bl ++ pb ++ s, by rw [hr]; simp⟩ ⟨r, hpre⟩ (by rw [PacketHeader.rawOf_length]; omega)
    obtain ⟨t, ht⟩ := hx
    exact ⟨t, ht.symm⟩
  simp only [List.append_assoc] at hr
  unfold Packet.tryBuf
  simp only
  rw [if_neg (by omega)]
  have hh : PacketHeader.readSlice (Chunks.fill cs) = .ok h := by
    rw [ht]; exact PacketHeader.readSlice_of_read (PacketHeader.read_rawOf w hf _)
  rw [hh]
  simp only
  rw [if_neg (by omega)]
  have hc1 : (Chunks.consume HSIZE cs).flatten = bl ++ (pb ++ s) := by
    rw [Chunks.flatten_consume (by omega), hr, ← PacketHeader.rawOf_length h flag, List.drop_left]
  have hfill1 : bl.length + pb.length ≤ (Chunks.fill (Chunks.consume HSIZE cs)).length ∨ bl ++ pb = [] := by
    by_cases he : bl ++ pb = []
    · exact .inr he
    · left
      have hpos : 0 < (bl ++ pb).length := List.length_pos_iff.mpr he
      simp only [List.length_append] at hpos
      rw [Chunks.consume, Nat.min_eq_left (by omega), Chunks.fill_skip (by omega), List.length_drop]
      omega
  have hblk : ∃ cs', (if h.blocksLen > 0 then blocksBuf O h.blocksLen MAX_BLOCKS 0 [] (Chunks.consume HSIZE cs)
      else (.ok (.success []), Chunks.consume HSIZE cs)) = (.ok (.success p.blocks), cs') ∧
      cs'.flatten = pb ++ s ∧ (pb = [] ∨ pb.length ≤ (Chunks.fill cs').length) := by
    rw [t.blocksLen]
    by_cases hne : p.blocks = []
    · obtain rfl := t.blocks_nil hne
      refine ⟨Chunks.consume HSIZE cs, by simp [hne], by simpa using hc1, ?_⟩
      rcases hfill1 with h1 | h1
      · right; omega
      · left; simpa using h1
    · have hpos := t.blocks_pos F hne
      rcases hfill1 with h1 | h1
      · rw [if_pos hpos, blocksBuf_of F t.blocks hne hc1 (by omega) (by simp [MAX_BLOCKS]; omega) (by simp)]
        refine ⟨_, by simp; rfl, by rw [Chunks.flatten_skip, hc1]; simp, ?_⟩
        by_cases hpb : pb = []
        · exact .inl hpb
        · right
          have := List.length_pos_iff.mpr hpb
          rw [Chunks.fill_skip (by omega), List.length_drop]; omega
      · rw [List.append_eq_nil_iff] at h1
        rw [h1.1] at hpos; simp at hpos
  obtain ⟨cs', e, hfl, hpb⟩ := hblk
  rw [e]
  simp only
  have hflag := t.flag
  have hpt := t.payload
  obtain ⟨blocks, payload⟩ := p
  cases payload with
  | none =>
    obtain rfl : pb = [] := hpt
    simp only [hflag, Option.isSome_none, Bool.false_eq_true, if_false]
    exact ⟨_, rfl, by simpa using hfl⟩
  | some v =>
    obtain ⟨ph, x, rfl, hpl, hx⟩ := hpt
    simp only [hflag, Option.isSome_some, if_true]
    have hl : (ph.asVec ++ x).length ≤ (Chunks.fill cs').length := by
      rcases hpb with h0 | h0
      · rw [h0]; simp
      · exact h0
    have hpk : PayloadHeader.tryBuf cs' = (.ok (.success ph), cs') := by
      obtain ⟨r', hpre'⟩ := Chunks.fill_prefix cs'
      obtain ⟨t', ht'⟩ : ph.asVec ++ x <+: Chunks.fill cs' :=
        List.prefix_of_prefix_length_le (l₃ := cs'.flatten) ⟨s, hfl.symm⟩ ⟨r', hpre'⟩ hl
      rw [PayloadHeader.tryBuf, ← ht', List.append_assoc, PayloadHeader.peek_asVec ph hpl]
    rw [hpk]
    simp only
    have hfl2 : (Chunks.consume ph.size cs').flatten = x ++ s := by
      rw [List.length_append, PayloadHeader.size_eq] at hl
      rw [Chunks.flatten_consume (by omega), hfl, List.append_assoc, ← PayloadHeader.size_eq]
      simp
    rw [G.tryBuf hx hfl2]
    simp only
    exact ⟨_, rfl, by rw [Chunks.flatten_skip, hfl2]; simp⟩

end Packet

/-! ## `PacketBufReader` -/

theorem Rd.blocksLoop_of (F : O.Fwd In) {bs : List O.B} {x : Bytes} (h : AllTook (In true) bs x) (hne : bs ≠ [])
    {left rd : Nat} {acc : List O.BR} {buf : Bytes} (hl : rd ≤ buf.length) (hr : buf.drop rd = x) (hf : bs.length ≤ left) :
    ∃ rs, blocksLoop O buf left rd acc = (.ok (acc ++ rs), .dropConsume) ∧ rs.map O.into = bs := by
  induction h generalizing left rd acc with
  | nil => exact absurd rfl hne
  | @cons b x bs y h1 h2 ih =>
    obtain ⟨r, e1, e2, hsz⟩ := F.readSlice y h1
    have h4 := F.four_le h1
    have hrl := congrArg List.length hr
    simp only [List.length_drop, List.length_append] at hrl
    cases left with
    | zero => simp at hf
    | succ left =>
      rw [blocksLoop, if_neg (by omega), hr, e1]
      simp only
      rw [if_neg (by omega)]
      by_cases hbs : bs = []
      · subst hbs
        cases h2
        rw [if_pos (by simp at hrl; omega)]
        exact ⟨[r], by simp, by simp [e2]⟩
      · have hpos : 0 < y.length := by
          have := h2.pos F
          have := List.length_pos_iff.mpr hbs
          omega
        rw [if_neg (by omega)]
        obtain ⟨rs, e3, e4⟩ := ih hbs (left := left) (rd := rd + O.rsize r) (acc := acc ++ [r]) (by omega)
          (by rw [← List.drop_drop, hr, hsz]; simp) (by simp at hf; omega)
        exact ⟨r :: rs, by rw [e3]; simp, by simp [e2, e4]⟩

namespace Rd

variable {Q : PayloadOps} {PIn : Q.V → PayloadHeader → Bytes → Prop}

theorem parse_of (F : O.Fwd In) (G : Q.Fwd PIn) {h : PacketHeader} {p : Packet O Q} {bl pb : Bytes} (t : Packet.Taken (In true) PIn h p bl pb)
    (hn : p.blocks.length ≤ 255) (junk : Bytes) :
    parse ([] : Rules O.BR (Packet O Q)) h (bl ++ pb ++ junk) = (.ok (.found p), .dropConsume) := by
  have htake : (bl ++ pb ++ junk).take h.blocksLen = bl := by rw [t.blocksLen, List.append_assoc, List.take_left]
  have hblk : ∃ rs, (if (bl ++ pb ++ junk).take h.blocksLen = [] then (.ok [], .dropConsume)
      else blocksLoop O ((bl ++ pb ++ junk).take h.blocksLen) MAX_BLOCKS 0 []) = (.ok rs, .dropConsume) ∧ rs.map O.into = p.blocks := by
    rw [htake]
    by_cases hne : p.blocks = []
    · obtain rfl := t.blocks_nil hne
      exact ⟨[], by simp, by simp [hne]⟩
    · have hpos := t.blocks_pos F hne
      rw [if_neg (by intro h0; rw [h0] at hpos; simp at hpos)]
      obtain ⟨rs, e1, e2⟩ := blocksLoop_of F t.blocks hne (left := MAX_BLOCKS) (rd := 0) (acc := []) (buf := bl) (by omega) (by simp)
        (by simp only [MAX_BLOCKS]; omega)
      exact ⟨rs, by simpa using e1, e2⟩
  obtain ⟨rs, e, hrs⟩ := hblk
  unfold parse
  rw [if_neg (by rw [t.blocksLen]; simp), e]
  simp only
  unfold parsePayload
  have hflag := t.flag
  have hpt := t.payload
  have hbl := t.blocksLen
  obtain ⟨blocks, payload⟩ := p
  simp only at hrs
  cases payload with
  | none => simp [hflag, Rules.filterByBlocks, Rules.filter, hrs]
  | some v =>
    obtain ⟨ph, x, rfl, hl, hx⟩ := hpt
    simp only [hflag, Option.isSome_some, if_true, hbl]
    have hd1 : List.drop bl.length (bl ++ (ph.asVec ++ x) ++ junk) = ph.asVec ++ (x ++ junk) := by simp
    have hd2 : List.drop (bl.length + ph.size) (bl ++ (ph.asVec ++ x) ++ junk) = x ++ junk := by
      rw [← List.drop_drop, hd1, ← PayloadHeader.size_eq]; simp
    have hpk : PayloadHeader.tryBuf [ph.asVec ++ (x ++ junk)] = (.ok (.success ph), [ph.asVec ++ (x ++ junk)]) := by
      rw [PayloadHeader.tryBuf, Chunks.fill_single, PayloadHeader.peek_asVec ph hl]
    rw [hd1, hpk]
    simp only
    rw [hd2, G.tryBuf (cs := [x ++ junk]) (s := junk) hx (by simp), if_neg (by simp [Rules.filterByBlocks]),
      if_neg (by rw [← PayloadHeader.size_eq]; simp)]
    simp [Rules.filterByPayload, Rules.filter, hrs]

end Rd

end Brec
