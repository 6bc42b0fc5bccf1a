import Verif.PacketLemmas
/-!
# Readers that do not panic
-/

namespace Brec

/-! ## Plain readers -/

/-- Never panics, on any input. -/
def P.NP {α} (x : P α) : Prop := ∀ s, (x.run s).1 ≠ .panic

namespace P

theorem NP.bind {α β} {x : P α} {f : α → P β} (hx : x.NP) (hf : ∀ a, (f a).NP) : (x >>= f).NP := by
  intro s
  rw [bind_run]
  have h := hx s
  match hr : x.run s with
  | (.ok a, s') => exact hf a s'
  | (.err e, s') => simp
  | (.panic, s') => rw [hr] at h; exact absurd rfl h

theorem pure_np {α} (a : α) : (Pure.pure a : P α).NP := fun s => by simp
theorem fail_np {α} (e : Err) : (fail e : P α).NP := fun s => by simp
theorem lift_np {α} {o : Out α} (h : o ≠ .panic) : (lift o).NP := fun _ => h
theorem readExact_np (n : Nat) : (readExact n).NP := by
  intro s; unfold readExact; simp only; split <;> simp

end P

theorem Cur.run_np {α} {x : P α} (h : x.NP) (c : Cur) : (c.run x).1 ≠ .panic := h _

theorem Cur.run_pos {α} (x : P α) {c : Cur} (h : c.pos ≤ c.data.length) :
    (c.run x).2.pos ≤ (c.run x).2.data.length ∧ (c.run x).2.data = c.data := by
  refine ⟨?_, rfl⟩
  simp only [Cur.run, Cur.rest, List.length_drop]
  omega

theorem Chunks.run_np {α} {x : P α} (h : x.NP) (cs : Chunks) : (Chunks.run x cs).1 ≠ .panic := h _

theorem Out.map_ne_panic {α β} {x : Out α} {f : α → β} (h : x ≠ .panic) : x.map f ≠ .panic := by
  cases x with
  | ok => simp
  | err => simp
  | panic => exact absurd rfl h

theorem Linked.decode_np (e : Linked) (b : Byte) : e.decode b ≠ .panic := by
  unfold Linked.decode; split <;> simp

/-! ## Blocks -/

theorem FTy.read_np (t : FTy) : t.read.NP := by
  cases t with
  | num n => exact (P.readExact_np _).bind fun _ => P.pure_np _
  | bool => exact (P.readExact_np _).bind fun _ => P.pure_np _
  | blob n =>
    intro s
    simp only [FTy.read, P.bind_run]
    by_cases h : s.length < n
    · rw [P.readExact_short h]; simp
    · rw [P.readExact_ok (by omega)]
      simp only [P.lift_run, toArr]
      rw [dif_pos (by rw [List.length_take]; omega)]; simp
  | linked e => exact (P.readExact_np _).bind fun _ => P.lift_np (e.decode_np _)

theorem Vals.read_np (ts : List FTy) : (Vals.read ts).NP := by
  induction ts with
  | nil => exact P.pure_np _
  | cons t ts ih => exact t.read_np.bind fun _ => ih.bind fun _ => P.pure_np _

theorem BlockTy.read_np (b : BlockTy) (skip : Bool) : (b.read skip).NP := by
  have body : b.readBody.NP := by
    refine (Vals.read_np _).bind fun _ => (P.readExact_np _).bind fun _ => ?_
    split
    · exact P.fail_np _
    · exact P.pure_np _
  unfold BlockTy.read
  split
  · exact body
  · refine (P.readExact_np _).bind fun _ => ?_
    split
    · exact P.fail_np _
    · exact body

/-- No panic, and the cursor stays inside the same data. -/
def CurSafe {α} (c : Cur) (r : Out α × Cur) : Prop :=
  r.1 ≠ .panic ∧ r.2.pos ≤ r.2.data.length ∧ r.2.data = c.data

theorem BlockTy.tryRead_safe (b : BlockTy) {c : Cur} (h : c.pos ≤ c.data.length) : CurSafe c (b.tryRead c) := by
  unfold BlockTy.tryRead
  rw [Cur.remaining_ok h]
  simp only
  split
  · exact ⟨by simp, h, rfl⟩
  · have h1 := Cur.run_pos (P.readExact 4) h
    have h2 := Cur.run_np (P.readExact_np 4) c
    match hr : c.run (P.readExact 4) with
    | (.ok sig, c1) =>
      rw [hr] at h1
      simp only at h1 ⊢
      split
      · refine ⟨by simp, ?_, h1.2⟩
        simp only [Cur.seek, h1.2]; exact h
      · split
        · exact ⟨by simp, h1⟩
        · have h3 := Cur.run_pos (b.read true) h1.1
          exact ⟨Out.map_ne_panic (Cur.run_np (b.read_np true) _), h3.1, h3.2.trans h1.2⟩
    | (.err e, c1) => rw [hr] at h1; exact ⟨by simp, h1⟩
    | (.panic, c1) => rw [hr] at h2; exact absurd rfl h2

theorem BlockTy.tryBuf_np (b : BlockTy) (cs : Chunks) : (b.tryBuf cs).1 ≠ .panic := by
  unfold BlockTy.tryBuf
  split
  · simp
  · split
    · simp
    · exact Out.map_ne_panic (Chunks.run_np (b.read_np true) _)

/-- What the packet readers need from a block codec on arbitrary bytes. -/
structure BlockOps.Safe (O : BlockOps) : Prop where
  readSlice_np : ∀ b, O.readSlice b ≠ .panic
  readSlice_size : ∀ b r, O.readSlice b = .ok r → 0 < O.rsize r ∧ O.rsize r ≤ b.length
  tryRead_safe : ∀ c : Cur, c.pos ≤ c.data.length → CurSafe c (O.tryRead c)
  tryBuf_np : ∀ cs, (O.tryBuf cs).1 ≠ .panic

theorem enumReadSlice_size {vs : List BlockTy} {buf : Bytes} {r : BlockRef} (h : enumReadSlice false vs buf = .ok r) :
    0 < r.size ∧ r.size ≤ buf.length := by
  induction vs with
  | nil => cases h
  | cons b vs ih =>
    rw [enumReadSlice] at h
    match hr : b.readSlice buf false with
    | .ok v =>
      rw [hr] at h
      injection h with h
      subst h
      refine ⟨by simp [BlockRef.size, BlockTy.ssize], ?_⟩
      show b.ssize ≤ buf.length
      unfold BlockTy.readSlice at hr
      split at hr
      · cases hr
      · split at hr
        · cases hr
        · simp only [Bool.false_eq_true, if_false] at hr
          split at hr
          · cases hr
          · omega
    | .err .sigDismatch => rw [hr] at h; exact ih h
    | .panic => rw [hr] at h; cases h
    | .err (.notEnoughSig _ _) => rw [hr] at h; cases h
    | .err (.notEnoughData _) => rw [hr] at h; cases h
    | .err (.invalidCapacity _) => rw [hr] at h; cases h
    | .err .crcDismatch => rw [hr] at h; cases h
    | .err .ruleDuplicate => rw [hr] at h; cases h
    | .err .zeroLengthBlock => rw [hr] at h; cases h
    | .err .maxBlocksCount => rw [hr] at h; cases h
    | .err .failedConverting => rw [hr] at h; cases h
    | .err .io => rw [hr] at h; cases h
    | .err .failExtractByteBlock => rw [hr] at h; cases h
    | .err .failToReadPayloadHeader => rw [hr] at h; cases h
    | .err .invalidPacketReaderLogic => rw [hr] at h; cases h
    | .err .cannotFindFreeSlot => rw [hr] at h; cases h
    | .err .cannotFindFreePlaceInSlot => rw [hr] at h; cases h
    | .err .cannotInsertIntoSlot => rw [hr] at h; cases h
    | .err (.damagedSlot _) => rw [hr] at h; cases h
    | .err (.outOfBounds _ _) => rw [hr] at h; cases h
    | .err .fileIsLocked => rw [hr] at h; cases h
    | .err .timeoutToWaitLockedFile => rw [hr] at h; cases h
    | .err (.accessSlot _) => rw [hr] at h; cases h
    | .err .emptySource => rw [hr] at h; cases h

theorem blockEnum_safe (vs : List BlockTy) : (blockEnum vs).Safe where
  readSlice_np buf := by
    show enumReadSlice false vs buf ≠ .panic
    induction vs with
    | nil => simp [enumReadSlice]
    | cons b vs ih =>
      rw [enumReadSlice]
      have := b.readSlice_no_panic buf
      split
      · simp
      · exact ih
      · simp
      · contradiction
  readSlice_size b r h := enumReadSlice_size h
  tryRead_safe c hc := by
    show CurSafe c (enumTryRead vs c)
    induction vs generalizing c with
    | nil => exact ⟨by simp [enumTryRead], hc, rfl⟩
    | cons b vs ih =>
      rw [enumTryRead]
      have h := b.tryRead_safe hc
      split <;> rename_i hr <;> rw [hr] at h
      · exact ⟨by simp, h.2⟩
      · exact ⟨by simp, h.2⟩
      · have h3 := ih _ h.2.1
        exact ⟨h3.1, h3.2.1, h3.2.2.trans h.2.2⟩
      · exact ⟨by simp, h.2⟩
      · exact absurd rfl h.1
  tryBuf_np cs := by
    show (enumTryBuf vs cs).1 ≠ .panic
    induction vs generalizing cs with
    | nil => simp [enumTryBuf]
    | cons b vs ih =>
      rw [enumTryBuf]
      have h := b.tryBuf_np cs
      split <;> rename_i hr <;> rw [hr] at h
      · simp
      · simp
      · exact ih _
      · simp
      · exact absurd rfl h

/-! ## Headers -/

theorem ByteBlock.isValidCapacity_np (n : Nat) : isValidCapacity n ≠ .panic := by
  unfold isValidCapacity; split <;> simp

theorem ByteBlock.tryFrom_np (v : Bytes) : tryFrom v ≠ .panic := by
  by_cases h : Legal v.length
  · obtain ⟨b, e, _⟩ := tryFrom_legal h
    rw [e]; simp
  · rw [tryFrom_illegal h]; simp

namespace PayloadHeader

theorem read_np : read.NP := by
  unfold read
  refine (P.readExact_np _).bind fun _ => (P.lift_np (ByteBlock.isValidCapacity_np _)).bind fun _ =>
    (P.readExact_np _).bind fun _ => (P.readExact_np _).bind fun _ =>
    (P.lift_np (ByteBlock.isValidCapacity_np _)).bind fun _ => (P.readExact_np _).bind fun _ =>
    (P.readExact_np _).bind fun _ => (P.lift_np (ByteBlock.tryFrom_np _)).bind fun _ =>
    (P.lift_np (ByteBlock.tryFrom_np _)).bind fun _ => P.pure_np _

theorem peek_np (buf : Bytes) : peek buf ≠ .panic := by
  have e : ∀ {α} (buf : Bytes) n (k : Unit → Out (Status α)), k () ≠ .panic → ensure buf n k ≠ .panic := by
    intro α buf n k h
    unfold ensure
    split
    · simp
    · exact h
  unfold peek
  exact e _ _ _ (Out.bind_ne_panic (ByteBlock.isValidCapacity_np _) fun _ _ => e _ _ _ (e _ _ _
    (Out.bind_ne_panic (ByteBlock.isValidCapacity_np _) fun _ _ => e _ _ _ (e _ _ _ (Out.map_ne_panic (read_np _))))))

/-- The cursor inside the helper stays in range. -/
def SafeOk (c : Cur) (r : Safe) : Prop := r.buf.pos ≤ r.buf.data.length ∧ r.buf.data = c.data ∧ r.spos ≤ c.data.length

theorem next_safe {c : Cur} {n : Nat} {r : Safe} (h : SafeOk c r) : (Safe.next n r).1 ≠ .panic ∧ SafeOk c (Safe.next n r).2 := by
  unfold Safe.next
  split
  · exact ⟨by simp, by simp only [SafeOk, Cur.seek]; exact ⟨by rw [h.2.1]; exact h.2.2, h.2.1, h.2.2⟩⟩
  · have h1 := Cur.run_pos (P.readExact n) h.1
    have h2 := Cur.run_np (P.readExact_np n) r.buf
    match hr : r.buf.run (P.readExact n) with
    | (.ok b, c1) => rw [hr] at h1; exact ⟨by simp, h1.1, h1.2.trans h.2.1, h.2.2⟩
    | (.err e, c1) => rw [hr] at h1; exact ⟨by simp, h1.1, h1.2.trans h.2.1, h.2.2⟩
    | (.panic, c1) => rw [hr] at h2; exact absurd rfl h2

theorem andThen_safe {α β} {c : Cur} {x : Out (Status α) × Safe} {f : α → Safe → Out (Status β) × Safe}
    (h : x.1 ≠ .panic ∧ SafeOk c x.2) (hf : ∀ a r, SafeOk c r → (f a r).1 ≠ .panic ∧ SafeOk c (f a r).2) :
    (Safe.andThen x f).1 ≠ .panic ∧ SafeOk c (Safe.andThen x f).2 := by
  match x with
  | (.ok (.success a), r) => exact hf a r h.2
  | (.ok (.notEnough n), r) => exact ⟨by simp [Safe.andThen], h.2⟩
  | (.err e, r) => exact ⟨by simp [Safe.andThen], h.2⟩
  | (.panic, r) => exact absurd rfl h.1

theorem orErr_safe {α β} {c : Cur} {x : Out α} {r : Safe} {f : α → Out (Status β) × Safe}
    (h : x ≠ .panic) (hr : SafeOk c r) (hf : ∀ a, (f a).1 ≠ .panic ∧ SafeOk c (f a).2) :
    (Safe.orErr x r f).1 ≠ .panic ∧ SafeOk c (Safe.orErr x r f).2 := by
  match x with
  | .ok a => exact hf a
  | .err e => exact ⟨by simp [Safe.orErr], hr⟩
  | .panic => exact absurd rfl h

theorem tryRead_safe {c : Cur} (hc : c.pos ≤ c.data.length) : CurSafe c (tryRead c) := by
  unfold tryRead
  rw [Cur.remaining_ok hc]
  simp only
  generalize hs : ({ buf := c, spos := c.pos, read := 0, len := c.rest.length } : Safe) = s0
  have h0 : SafeOk c s0 := by subst hs; exact ⟨hc, rfl, hc⟩
  have key : ∀ {x : Out (Status PayloadHeader) × Safe}, x.1 ≠ .panic ∧ SafeOk c x.2 → CurSafe c (x.1, x.2.buf) :=
    fun h => ⟨h.1, h.2.1, h.2.2.1⟩
  apply key
  refine andThen_safe (next_safe h0) fun sl r hr => ?_
  refine orErr_safe (ByteBlock.isValidCapacity_np _) hr fun _ => ?_
  refine andThen_safe (next_safe hr) fun sig r hr => ?_
  refine andThen_safe (next_safe hr) fun cl r hr => ?_
  refine orErr_safe (ByteBlock.isValidCapacity_np _) hr fun _ => ?_
  refine andThen_safe (next_safe hr) fun crc r hr => ?_
  refine andThen_safe (next_safe hr) fun ln r hr => ?_
  refine orErr_safe (ByteBlock.tryFrom_np _) hr fun crc => ?_
  refine orErr_safe (ByteBlock.tryFrom_np _) hr fun sig => ?_
  exact ⟨by simp, hr⟩

/-- Whatever is accepted is the encoding of what is returned. -/
theorem read_canon {s s' : Bytes} {h : PayloadHeader} (e : read.run s = (.ok h, s')) :
    s = h.asVec ++ s' ∧ h.len < 2 ^ 32 := by
  unfold read at e
  obtain ⟨sl, s1, e1, e⟩ := P.bind_eq_ok e
  obtain ⟨_, s2, e2, e⟩ := P.bind_eq_ok e
  obtain ⟨sig, s3, e3, e⟩ := P.bind_eq_ok e
  obtain ⟨cl, s4, e4, e⟩ := P.bind_eq_ok e
  obtain ⟨_, s5, e5, e⟩ := P.bind_eq_ok e
  obtain ⟨crc, s6, e6, e⟩ := P.bind_eq_ok e
  obtain ⟨ln, s7, e7, e⟩ := P.bind_eq_ok e
  obtain ⟨crcB, s8, e8, e⟩ := P.bind_eq_ok e
  obtain ⟨sigB, s9, e9, ez⟩ := P.bind_eq_ok e
  obtain ⟨f1, l1⟩ := P.readExact_eq_ok e1
  obtain ⟨f3, l3⟩ := P.readExact_eq_ok e3
  obtain ⟨f4, l4⟩ := P.readExact_eq_ok e4
  obtain ⟨f6, l6⟩ := P.readExact_eq_ok e6
  obtain ⟨f7, l7⟩ := P.readExact_eq_ok e7
  simp only [P.lift_run, Prod.mk.injEq] at e2 e5 e8 e9
  obtain ⟨e2, rfl⟩ := e2
  obtain ⟨e5, rfl⟩ := e5
  obtain ⟨e8, rfl⟩ := e8
  obtain ⟨e9, rfl⟩ := e9
  simp only [P.pure_run, Prod.mk.injEq] at ez
  obtain ⟨ez, rfl⟩ := ez
  rw [← Out.ok.inj ez]
  have tf : ∀ {v : Bytes} {b : ByteBlock}, ByteBlock.tryFrom v = .ok b → b.asSlice = v := by
    intro v b hb
    by_cases hl : ByteBlock.Legal v.length
    · obtain ⟨b', e, h⟩ := ByteBlock.tryFrom_legal hl
      rw [hb] at e; injection e with e; rw [e]; exact h
    · rw [ByteBlock.tryFrom_illegal hl] at hb; cases hb
  have h8 := tf e8
  have h9 := tf e9
  obtain ⟨x1, rfl⟩ := single_of_length l1
  obtain ⟨x4, rfl⟩ := single_of_length l4
  rw [byte0_single] at l3 l6
  constructor
  · simp only [asVec, h8, h9, l3, l6]
    rw [f1, f3, f4, f6, f7, leBytes_leNat' l7]
    simp
  · have := leNat_lt ln
    rw [l7] at this
    simpa using this

theorem peek_canon {buf : Bytes} {h : PayloadHeader} (e : peek buf = .ok (.success h)) :
    ∃ s, buf = h.asVec ++ s ∧ h.len < 2 ^ 32 := by
  have key : (read.run buf).1.map Status.success = .ok (.success h) := by
    have en : ∀ {n} {k : Unit → Out (Status PayloadHeader)}, ensure buf n k = .ok (.success h) → k () = .ok (.success h) := by
      intro n k hk
      unfold ensure at hk
      split at hk
      · simp at hk
      · exact hk
    unfold peek at e
    have e := en e
    obtain ⟨_, _, e⟩ := Out.bind_eq_ok e
    have e := en (en e)
    obtain ⟨_, _, e⟩ := Out.bind_eq_ok e
    exact en (en e)
  obtain ⟨a, h1, h2⟩ := Out.map_eq_ok key
  injection h2 with h2
  subst h2
  obtain ⟨h3, h4⟩ := read_canon (s' := (read.run buf).2) (Prod.ext h1 rfl)
  exact ⟨_, h3, h4⟩

end PayloadHeader

theorem PacketHeader.check_np (h : PacketHeader) : h.check ≠ .panic := by
  unfold PacketHeader.check; split <;> simp

theorem PacketHeader.read_np : PacketHeader.read.NP := by
  unfold PacketHeader.read
  refine (P.readExact_np _).bind fun _ => ?_
  split
  · exact P.fail_np _
  · exact (P.readExact_np _).bind fun _ => (P.readExact_np _).bind fun _ => (P.readExact_np _).bind fun _ =>
      (P.readExact_np _).bind fun _ => P.lift_np (PacketHeader.check_np _)

theorem PacketHeader.readSlice_np (b : Bytes) : PacketHeader.readSlice b ≠ .panic := by
  unfold PacketHeader.readSlice
  split
  · simp
  · split
    · simp
    · exact check_np _

theorem PacketHeader.tryRead_safe {c : Cur} (h : c.pos ≤ c.data.length) : CurSafe c (PacketHeader.tryRead c) := by
  unfold PacketHeader.tryRead
  rw [Cur.remaining_ok h]
  simp only
  split
  · exact ⟨by simp, h, rfl⟩
  · have h1 := Cur.run_pos PacketHeader.read h
    exact ⟨Out.map_ne_panic (Cur.run_np read_np c), h1.1, h1.2⟩

/-! ## Payloads -/

/-- What the packet readers need from a payload codec on arbitrary bytes. -/
structure PayloadOps.Safe (Q : PayloadOps) : Prop where
  read_np : ∀ h, (Q.read h).NP
  tryRead_safe : ∀ h (c : Cur), c.pos ≤ c.data.length → CurSafe c (Q.tryRead h c)
  tryBuf_np : ∀ h cs, (Q.tryBuf h cs).1 ≠ .panic

theorem ioOut_np {α} (x : Option α) : ioOut x ≠ .panic := by cases x <;> simp [ioOut]

theorem PayloadTy.body_np (T : PayloadTy) (v : T.Val) : T.body v ≠ .panic := by
  refine Out.bind_ne_panic (ioOut_np _) fun r _ => ?_
  cases r with
  | none => exact ioOut_np _
  | some b => simp

theorem PayloadTy.crc_np (T : PayloadTy) (v : T.Val) : T.crc v ≠ .panic := by
  unfold PayloadTy.crc
  split
  · exact ioOut_np _
  · exact Out.map_ne_panic (T.body_np v)

theorem PayloadTy.read_np (T : PayloadTy) (h : PayloadHeader) : (T.read h).NP := by
  unfold PayloadTy.read
  split
  · exact P.fail_np _
  · refine (P.readExact_np _).bind fun _ => (P.lift_np (ioOut_np _)).bind fun _ => (P.lift_np (T.crc_np _)).bind fun _ => ?_
    split
    · exact P.fail_np _
    · exact P.pure_np _

theorem PayloadTy.tryRead_safe (T : PayloadTy) (h : PayloadHeader) {c : Cur} (hc : c.pos ≤ c.data.length) :
    CurSafe c (T.tryRead h c) := by
  unfold PayloadTy.tryRead
  rw [Cur.remaining_ok hc]
  simp only
  split
  · exact ⟨by simp, hc, rfl⟩
  · have h1 := Cur.run_pos (T.read h) hc
    exact ⟨Out.map_ne_panic (Cur.run_np (T.read_np h) c), h1.1, h1.2⟩

theorem PEnum.ops_safe (vs : List PayloadTy) : (PEnum.ops vs).Safe where
  read_np h := by
    show (PEnum.read h (vs ++ [bytesTy, stringTy])).NP
    generalize vs ++ [bytesTy, stringTy] = ts
    induction ts with
    | nil => exact P.fail_np _
    | cons T ts ih =>
      intro s
      simp only [PEnum.read]
      have := T.read_np h s
      split <;> rename_i hr <;> rw [hr] at this
      · simp
      · exact Out.map_ne_panic (ih _)
      · simp
      · exact absurd rfl this
  tryRead_safe h c hc := by
    show CurSafe c (PEnum.tryRead h (vs ++ [bytesTy, stringTy]) c)
    generalize vs ++ [bytesTy, stringTy] = ts
    induction ts generalizing c with
    | nil => exact ⟨by simp [PEnum.tryRead], hc, rfl⟩
    | cons T ts ih =>
      rw [PEnum.tryRead]
      have h1 := T.tryRead_safe h hc
      split <;> rename_i hr <;> rw [hr] at h1
      · exact ⟨by simp, h1.2⟩
      · exact ⟨by simp, h1.2⟩
      · have h3 := ih _ h1.2.1
        refine ⟨?_, h3.2.1, h3.2.2.trans h1.2.2⟩
        have h4 := h3.1
        simp only
        split
        · simp
        · simp
        · simp
        · rename_i e; exact absurd e h4
      · exact ⟨by simp, h1.2⟩
      · exact absurd rfl h1.1
  tryBuf_np h cs := by
    show (PEnum.tryBuf h (vs ++ [bytesTy, stringTy]) cs).1 ≠ .panic
    generalize vs ++ [bytesTy, stringTy] = ts
    induction ts generalizing cs with
    | nil => simp [PEnum.tryBuf]
    | cons T ts ih =>
      rw [PEnum.tryBuf]
      have h1 : (T.tryBuf h cs).1 ≠ .panic := Out.map_ne_panic (Chunks.run_np (T.read_np h) cs)
      split <;> rename_i hr <;> rw [hr] at h1
      · simp
      · simp
      · have h4 := ih
        simp only
        split
        · simp
        · simp
        · simp
        · rename_i e; exact absurd e (h4 _)
      · simp
      · exact absurd rfl h1

/-! ## The block loops -/

namespace Packet

variable {O : BlockOps} {Q : PayloadOps}

theorem blocksBuf_np (hO : O.Safe) (blocksLen left read : Nat) (acc : List O.B) (cs : Chunks) :
    (blocksBuf O blocksLen left read acc cs).1 ≠ .panic := by
  induction left generalizing read acc cs with
  | zero =>
    rw [blocksBuf.eq_def]
    simp only
    have h := hO.tryBuf_np cs
    split <;> rename_i hr <;> rw [hr] at h
    · split <;> simp
    · simp
    · simp
    · exact absurd rfl h
  | succ left ih =>
    rw [blocksBuf.eq_def]
    simp only
    have h := hO.tryBuf_np cs
    split <;> rename_i hr <;> rw [hr] at h
    · split
      · simp
      · exact ih _ _ _
    · simp
    · simp
    · exact absurd rfl h

theorem blocksCur_safe (hO : O.Safe) (blocksLen left read : Nat) (acc : List O.B) {c : Cur} (hc : c.pos ≤ c.data.length) :
    CurSafe c (blocksCur O blocksLen left read acc c) := by
  induction left generalizing read acc c with
  | zero =>
    rw [blocksCur.eq_def]
    simp only
    have h := hO.tryRead_safe c hc
    split <;> rename_i hr <;> rw [hr] at h
    · split <;> exact ⟨by simp, h.2⟩
    · exact ⟨by simp, h.2⟩
    · exact ⟨by simp, h.2⟩
    · exact absurd rfl h.1
  | succ left ih =>
    rw [blocksCur.eq_def]
    simp only
    have h := hO.tryRead_safe c hc
    split <;> rename_i hr <;> rw [hr] at h
    · split
      · exact ⟨by simp, h.2⟩
      · rename_i b c' _
        have h3 := ih (read + O.size b) (acc ++ [b]) h.2.1
        exact ⟨h3.1, h3.2.1, h3.2.2.trans h.2.2⟩
    · exact ⟨by simp, h.2⟩
    · exact ⟨by simp, h.2⟩
    · exact absurd rfl h.1

/-- The loop of `filtered` neither runs out of fuel nor leaves the buffer; on success it stopped exactly at `blocksLen`. -/
theorem slicesLoop_fuel (hO : O.Safe) (buf : Bytes) (blocksLen fuel read : Nat) (acc : List O.BR)
    (hr : read ≤ buf.length) (hf : buf.length < read + fuel) :
    slicesLoop O buf blocksLen fuel read acc ≠ .panic ∧
    ∀ rs, slicesLoop O buf blocksLen fuel read acc = .ok rs → blocksLen ≤ buf.length := by
  induction fuel generalizing read acc with
  | zero => omega
  | succ fuel ih =>
    rw [slicesLoop, if_neg (by omega)]
    have h1 := hO.readSlice_np (buf.drop read)
    match hs : O.readSlice (buf.drop read) with
    | .ok r =>
      have h2 := hO.readSlice_size _ _ hs
      rw [List.length_drop] at h2
      simp only
      split
      · exact ⟨by simp, fun _ _ => by omega⟩
      · exact ih _ _ (by omega) (by omega)
    | .err e => exact ⟨by simp, fun _ h => by cases h⟩
    | .panic => exact absurd hs h1

end Packet

end Brec
