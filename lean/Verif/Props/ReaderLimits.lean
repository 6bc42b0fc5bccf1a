import Verif.Props.Reader
/-!
# Properties C25, C26 and C50: `PacketBufReader` on arbitrary sources
-/

namespace Brec.Props

open Brec Rd

variable {O : BlockOps} {Q : PayloadOps} {S : BlockSpec O} {p : Packet O Q}

/-! ## C25 -/

/-- The claim: on every finite source the reading loop of the documentation (`site/docs/tools/buffer.md`), which stops at `NoData` and
at an error, stops. -/
def C25_full : Prop :=
  ∀ (vs : List BlockTy) (ps : List PayloadTy) (rules : Rules (blockEnum vs).BR (Packet (blockEnum vs) (PEnum.ops ps))) (chk : Bool) (cs : Chunks),
    ∃ n, ∃ o ∈ (reads rules chk n (.new (cs.map some))).1, isEnd o = true

/-- A source that ends inside a packet, behind its header: `NotEnoughData` forever. -/
theorem C25_truncated (hp : p.Ok S) (rules : Rules O.BR (Packet O Q)) (chk : Bool) {k : Nat} (h1 : 29 ≤ k) (h2 : k < (wire p).length)
    (h3 : (wire p).length < 2 ^ 63) (n : Nat) :
    ∀ o ∈ (reads rules chk n (.new [some ((wire p).take k)])).1, ∃ m, o = .ok (.notEnough m) := by
  obtain ⟨h, pb, sh⟩ := hp.shape
  have hw := wire_eq hp.blocks sh
  have hwl := wire_length hp.blocks sh
  have hbl : h.bytes.length = 29 := by simp [HSIZE]
  obtain ⟨t, ht⟩ : ∃ t, (wire p).take k = h.bytes ++ t := by
    refine ⟨(S.encs p.blocks ++ pb).take (k - 29), ?_⟩
    rw [hw, List.take_append, hbl, List.take_of_length_le (by omega)]
  have htl : (h.bytes ++ t).length = k := by rw [← ht, List.length_take]; omega
  have hne : h.bytes ++ t ≠ [] := by intro e; rw [e] at htl; simp at htl; omega
  have first : Rd.read rules chk (.new [some ((wire p).take k)]) =
      (.ok (.notEnough (h.size + 29 - k)), ⟨[], .ready h, (h.bytes ++ t).drop 29, []⟩) := by
    rw [ht]
    unfold Rd.read Rd.new
    simp only
    unfold readEmpty
    simp only [Events.fill_some hne]
    obtain ⟨c, cs, hb⟩ : ∃ c cs, h.bytes ++ t = c :: cs := by
      cases hx : h.bytes ++ t with
      | nil => exact absurd hx hne
      | cons c cs => exact ⟨c, cs, rfl⟩
    rw [hb]
    simp only
    rw [← hb, if_neg (by rw [htl]; simp only [HSIZE]; omega), readHeader_bytes sh.wf]
    simp only
    rw [if_neg (by omega), if_pos (by omega), Events.consume_all hne, htl]
    rfl
  have hw : Waits (⟨[], .ready h, (h.bytes ++ t).drop 29, []⟩ : Rd) := ⟨h, rfl, rfl, by rw [List.length_drop, htl]; omega⟩
  have tail : ∀ n {r : Rd}, Waits r → ∀ o ∈ (reads rules chk n r).1, ∃ m, o = .ok (.notEnough m) := by
    intro n
    induction n with
    | zero => intro r _ o ho; simp [reads] at ho
    | succ n ih =>
      intro r hr o ho
      obtain ⟨m, e⟩ := waits_read (rules := rules) (chk := chk) hr
      rw [reads_succ (by rw [e]; simp), e] at ho
      rcases List.mem_cons.mp ho with rfl | ho
      · exact ⟨m, rfl⟩
      · exact ih hr o ho
  cases n with
  | zero => intro o ho; simp [reads] at ho
  | succ n =>
    intro o ho
    rw [reads_succ (by rw [first]; simp), first] at ho
    rcases List.mem_cons.mp ho with rfl | ho
    · exact ⟨_, rfl⟩
    · exact tail n hw o ho

/-- **C25 is false of the code**: `samplePacket` without its last byte. -/
theorem C25_not : ¬ C25_full := by
  intro h
  obtain ⟨n, o, ho, he⟩ := h sampleTypes [] [] true [(wire samplePacket).take 124]
  obtain ⟨m, e⟩ := C25_truncated (S := sampleSpec) samplePacket_ok [] true (k := 124) (by omega) (by decide +kernel) (by decide +kernel) n o ho
  rw [e] at he
  cases he

/-- The claim for a loop that reads on after an error (as `Skipped` packets suggest) fails for another reason: behind a
signature whose header does not check nothing is consumed, and the same error comes back forever. -/
theorem C25_bad_header (rules : Rules O.BR (Packet O Q)) (chk : Bool) (b : Bytes) (e : Err) (hs : PACKET_SIG <+: b) (h29 : 29 ≤ b.length)
    (he : PacketHeader.readSlice b = .err e) (es : Events) (log : List Bytes) (n : Nat) :
    reads rules chk n ⟨some b :: es, .empty, [], log⟩ = (List.replicate n (.err e), ⟨some b :: es, .empty, [], log⟩) := by
  have hne : b ≠ [] := by rintro rfl; simp at h29
  have key : Rd.read rules chk ⟨some b :: es, .empty, [], log⟩ = (.err e, ⟨some b :: es, .empty, [], log⟩) := by
    unfold Rd.read
    simp only
    unfold readEmpty
    simp only [Events.fill_some hne]
    have hr : readHeader b = .err e := by
      rw [readHeader, (C12_get_pos_partial b 0).mpr ⟨⟨by simpa using hs, by omega⟩, by omega⟩]
      simp only [isNotEnough, List.drop_zero]
      rw [if_pos (by simp only [HSIZE]; omega), he]
      rfl
    obtain ⟨c, cs, hb⟩ : ∃ c cs, b = c :: cs := by
      cases b with
      | nil => exact absurd rfl hne
      | cons c cs => exact ⟨c, cs, rfl⟩
    rw [hb]
    simp only
    rw [← hb, if_neg (by simp only [HSIZE]; omega), hr]
  induction n with
  | zero => rfl
  | succ n ih => rw [reads_succ (by rw [key]; simp), key, ih]; rfl

/-- The header of `samplePacket` with one byte of its CRC changed, then an undamaged packet. -/
def badHeader : Bytes := (wire samplePacket).set 28 0

example (n : Nat) : (reads ([] : Rules _ (Packet (blockEnum sampleTypes) (PEnum.ops []))) true n
      ⟨[some (badHeader ++ wire samplePacket)], .empty, [], []⟩).1 = List.replicate n (.err .crcDismatch) := by
  rw [C25_bad_header (b := badHeader ++ wire samplePacket) (e := .crcDismatch)] <;> decide +kernel

/-- **C25 (partial)**. On every source (any reads, failing and empty ones included), any rules, either build: after at most three calls per
byte and read, some call has ended the loop (`NoData`, error or panic), or the source has ended inside a packet and every further call
says that the same number of bytes is missing. -/
theorem C25_progress_partial (rules : Rules O.BR (Packet O Q)) (chk : Bool) (es : Events) :
    ∃ n, n ≤ 3 * es.weight + 1 ∧
      ((∃ o ∈ (reads rules chk n (.new es)).1, isEnd o = true) ∨
        (reads rules chk n (.new es)).2.src = [] ∧ ∃ k, 0 < k ∧ ∀ m,
          reads rules chk m (reads rules chk n (.new es)).2 = (List.replicate m (.ok (.notEnough k)), (reads rules chk n (.new es)).2)) := by
  have key : ∀ (w : Nat) (r : Rd), load r = w → Sane r → ∃ n, n ≤ w + 1 ∧
      ((∃ o ∈ (reads rules chk n r).1, isEnd o = true) ∨ Waits (reads rules chk n r).2) := by
    intro w
    induction w using Nat.strongRecOn with
    | _ w ih =>
      intro r hw hs
      rcases progress rules chk hs with h | h | h
      · refine ⟨1, by omega, .inl ⟨(Rd.read rules chk r).1, ?_, h⟩⟩
        rw [reads]
        match hx : Rd.read rules chk r with
        | (.panic, r') => simp
        | (.ok a, r') => simp
        | (.err e, r') => simp
      · by_cases hp : (Rd.read rules chk r).1 = .panic
        · refine ⟨1, by omega, .inl ⟨.panic, ?_, rfl⟩⟩
          rw [reads]
          match hx : Rd.read rules chk r with
          | (.panic, r') => simp
          | (.ok a, r') => rw [hx] at hp; cases hp
          | (.err e, r') => rw [hx] at hp; cases hp
        · obtain ⟨n, h1, h2⟩ := ih _ (by omega) _ rfl (hs.read rules chk)
          refine ⟨n + 1, by omega, ?_⟩
          rw [reads_succ hp]
          rcases h2 with ⟨o, ho, he⟩ | h2
          · exact .inl ⟨o, List.mem_cons_of_mem _ ho, he⟩
          · exact .inr h2
      · exact ⟨0, by omega, .inr h⟩
  obtain ⟨n, h1, h2⟩ := key _ (Rd.new es) rfl ⟨trivial⟩
  refine ⟨n, by simpa [load, Rd.new, rank] using h1, ?_⟩
  rcases h2 with h2 | h2
  · exact .inl h2
  · right
    generalize (reads rules chk n (Rd.new es)).2 = r at h2
    have hw := h2
    obtain ⟨h, hn, hr, hl⟩ := h2
    refine ⟨hn, h.size - r.buffered.length, by omega, fun m => ?_⟩
    have e : Rd.read rules chk r = (.ok (.notEnough (h.size - r.buffered.length)), r) := by
      obtain ⟨src, recent, buffered, log⟩ := r
      dsimp only at hn hr hl ⊢
      subst hn hr
      unfold Rd.read readReady
      simp only [Events.fill, List.length_nil, Nat.add_zero, List.append_nil, Events.consume]
      rw [if_pos hl]
    induction m with
    | zero => rfl
    | succ m ih => rw [reads_succ (by rw [e]; simp), e, ih]; rfl

/-! ## C26 -/

/-- The claim: `read` never panics. -/
def C26_full (chk : Bool) : Prop :=
  ∀ (vs : List BlockTy) (ps : List PayloadTy) (rules : Rules (blockEnum vs).BR (Packet (blockEnum vs) (PEnum.ops ps))) (cs : Chunks) (n : Nat),
    Out.panic ∉ (reads rules chk n (.new (cs.map some))).1

/-- A header with a correct CRC that announces one byte of blocks in a packet of no bytes. -/
def blocksPastEnd : PacketHeader :=
  let h : PacketHeader := { size := 0, blocksLen := 1, payload := false, crc := 0 }
  { h with crc := leNat (PacketHeader.crcOf 0 1 false) }

/-- **C26 is false of the code**: `&packet_buffer[..blocks_len]` (`reader.rs:364`) panics when the header says that the blocks are longer
than the packet; 29 bytes. -/
theorem C26_blocks_past_end (chk : Bool) : ¬ C26_full chk := by
  intro h
  refine h [] [] [] [blocksPastEnd.bytes] 1 ?_
  have : ((reads ([] : Rules _ (Packet (blockEnum []) (PEnum.ops []))) chk 1 (.new ([blocksPastEnd.bytes].map some))).1 matches [.panic]) = true := by
    cases chk <;> decide +kernel
  split at this
  · rename_i e; rw [e]; simp
  · cases this

/-- Announced sizes near 2^64 overflow `packet_size + end` (`reader.rs:340`). -/
theorem C26_size_overflow (chk : Bool) :
    ((reads ([] : Rules _ (Packet (blockEnum []) (PEnum.ops []))) chk 1
      (.new [some (PacketHeader.ofSizes (2 ^ 64 - 1) none).bytes])).1 matches [.panic]) = true := by
  cases chk <;> decide +kernel

/-- Even a valid packet behind litter can make `read` panic in a debug build (`C23_underflow_panics`). -/
theorem C26_underflow : ∃ n, Out.panic ∈ (reads ([.ignored 0] : Rules _ (Packet (blockEnum sampleTypes) (PEnum.ops []))) true n
    (.new (shortCut.map some))).1 := by
  refine ⟨3, ?_⟩
  have := C23_underflow_panics
  split at this
  · rename_i e; rw [e]; simp
  · cases this

/-- **C26 (partial)**. `read` never panics, on any source (failing reads included), any rules, any number of calls, if every header
with a correct CRC that occurs anywhere in the bytes of the source announces blocks no longer than the packet and a packet smaller
than 2^63, and if in debug builds every successful read but the last gives at least 29 bytes. -/
theorem C26_no_panic_partial (hO : O.Safe) (hQ : Q.Safe) (rules : Rules O.BR (Packet O Q)) (chk : Bool) (es : Events)
    (hlen : ∀ c, some c ∈ es → c.length < 2 ^ 63)
    (hh : ∀ k h, PacketHeader.readSlice (es.bytes.drop k) = .ok h → h.blocksLen ≤ h.size ∧ h.size < 2 ^ 63)
    (hl : chk = false ∨ ∀ c, some c ∈ es.dropLast → 29 ≤ c.length) (n : Nat) :
    Out.panic ∉ (reads rules chk n (.new es)).1 := by
  have key : ∀ (n : Nat) (r : Rd), Fit r → Sane r → (chk = false ∨ LongInv r) → Out.panic ∉ (reads rules chk n r).1 := by
    intro n
    induction n with
    | zero => intro r _ _ _; simp [reads]
    | succ n ih =>
      intro r hf hs hl
      obtain ⟨h1, h2⟩ := hf.read hO hQ rules chk hs hl
      rw [reads_succ h1]
      intro hm
      rcases List.mem_cons.mp hm with e | hm
      · exact h1 e.symm
      · exact ih _ h2 (hs.read rules chk) (hl.imp_right fun hl => hl.read hs rules chk) hm
  refine key n _ (.of_empty hlen hh rfl) ⟨trivial⟩ (hl.imp_right fun hl => ⟨Long_tail hl, fun b n e => by cases e⟩)

/-- The hypothesis on headers of `C26_no_panic_partial`, computed. -/
def headersFit (x : Bytes) : Bool :=
  (List.range x.length).all fun k =>
    match PacketHeader.readSlice (x.drop k) with
    | .ok h => decide (h.blocksLen ≤ h.size) && decide (h.size < 2 ^ 63)
    | _ => true

theorem headersFit_ok {x : Bytes} (hx : headersFit x = true) (k : Nat) (h : PacketHeader) (e : PacketHeader.readSlice (x.drop k) = .ok h) :
    h.blocksLen ≤ h.size ∧ h.size < 2 ^ 63 := by
  by_cases hk : k < x.length
  · have := List.all_eq_true.mp hx k (List.mem_range.mpr hk)
    rw [e] at this
    simpa using this
  · rw [List.drop_eq_nil_of_le (by omega)] at e
    cases e

/-- Non-vacuity: generated codecs; litter, a packet, a failing read, an empty one and half of a packet. -/
example (rules : Rules _ (Packet (blockEnum sampleTypes) (PEnum.ops []))) (n : Nat) :
    Out.panic ∉ (reads rules true n (.new [some (litter21 ++ wire samplePacket), none, some (wire samplePacket), some ((wire samplePacket).take 60)])).1 := by
  refine C26_no_panic_partial (blockEnum_safe sampleTypes) (PEnum.ops_safe []) rules true _ ?_ (headersFit_ok ?_) (.inr ?_) n
  · intro c hc
    have : ∀ e ∈ ([some (litter21 ++ wire samplePacket), none, some (wire samplePacket), some ((wire samplePacket).take 60)] : Events),
        (e.getD []).length < 2 ^ 63 := by decide +kernel
    exact this _ hc
  · decide +kernel
  · intro c hc
    have : ∀ e ∈ ([some (litter21 ++ wire samplePacket), none, some (wire samplePacket), some ((wire samplePacket).take 60)] : Events).dropLast,
        e.isNone ∨ 29 ≤ (e.getD []).length := by decide +kernel
    simpa using this _ hc

/-! ## C50: failing reads -/

/-- The claim: a source whose reads sometimes fail (as non-blocking and interrupted ones do) loses nothing: leaving out the errors, `read`
gives the packets and then `NoData`. -/
def C50_full : Prop :=
  ∀ (ps : List (Packet (blockEnum sampleTypes) (PEnum.ops []))), (∀ p ∈ ps, p.Ok sampleSpec ∧ p.blocks.length ≤ 255) → ∀ (es : Events),
    (∀ c, some c ∈ es → c ≠ [] ∧ c.length < 2 ^ 63) → es.bytes = (ps.map wire).flatten →
    ∃ n, (loud (reads [] true n (.new es)).1).filter (fun o => !(o matches .err _)) = ps.map (fun p => .ok (.found p)) ++ [.ok .noData]

/-- **C50 is false of the code**: one failing read between the halves of a packet, and the packet is lost: the pending state
has been taken out of `self.recent` (`reader.rs:282`) before `fill_buf()?` fails. -/
theorem C50_error_loses_packet : ¬ C50_full := by
  intro h
  obtain ⟨n, h1⟩ := h [samplePacket] (by intro p hp; simp at hp; subst hp; exact ⟨samplePacket_ok, by decide⟩)
    [some ((wire samplePacket).take 60), none, some ((wire samplePacket).drop 60)]
    (by
      intro c hc
      have : ∀ e ∈ ([some ((wire samplePacket).take 60), none, some ((wire samplePacket).drop 60)] : Events),
        e.isNone ∨ e.getD [] ≠ [] ∧ (e.getD []).length < 2 ^ 63 := by decide +kernel
      simpa using this _ hc)
    (by decide +kernel)
  have hd : ((loud (reads ([] : Rules _ (Packet (blockEnum sampleTypes) (PEnum.ops []))) true 4
      (.new [some ((wire samplePacket).take 60), none, some ((wire samplePacket).drop 60)])).1).filter (fun o => !(o matches .err _))).map isFound =
      [false] := by decide +kernel
  have pre : ∀ {a b : List (Out (Next (Packet (blockEnum sampleTypes) (PEnum.ops []))))}, a <+: b →
      ((loud a).filter (fun o => !(o matches .err _))).map isFound <+: ((loud b).filter (fun o => !(o matches .err _))).map isFound :=
    fun h => ((h.filter _).filter _).map _
  rcases Nat.le_total n 4 with hn | hn
  · have h2 := pre (reads_take ([] : Rules _ (Packet (blockEnum sampleTypes) (PEnum.ops []))) true hn
      (.new [some ((wire samplePacket).take 60), none, some ((wire samplePacket).drop 60)]))
    rw [hd, h1] at h2
    simp [isFound] at h2
  · have h2 := pre (reads_take ([] : Rules _ (Packet (blockEnum sampleTypes) (PEnum.ops []))) true hn
      (.new [some ((wire samplePacket).take 60), none, some ((wire samplePacket).drop 60)]))
    rw [hd, h1] at h2
    simp [isFound] at h2

/-- One read of the source: it fails, or gives whole packets. -/
def wholeReads (xs : List (Option (List (Packet O Q)))) : Events := xs.map (Option.map fun ps => (ps.map wire).flatten)

/-- What the calls of `read` should give. -/
def wholeResults (S : BlockSpec O) (rules : Rules O.BR (Packet O Q)) : Option (List (Packet O Q)) → List (Out (Next (Packet O Q)))
  | none => [.err .io]
  | some ps => ps.map fun p => .ok (verdict S rules p)

/-- **C50 (partial)**. Reads that fail at the boundary of packets lose nothing: if each successful read gives whole packets, the results are
one error for each failing read and the packets in order. Missing: reads that fail inside a packet
(`C50_error_loses_packet`). -/
theorem C50_boundary_partial (xs : List (Option (List (Packet O Q)))) (hx : ∀ ps, some ps ∈ xs → ps ≠ [] ∧ ∀ p ∈ ps, p.Ok S ∧ p.blocks.length ≤ 255)
    (rules : Rules O.BR (Packet O Q)) (chk : Bool) :
    ∃ n, reads rules chk n (.new (wholeReads xs)) = (xs.flatMap (wholeResults S rules), .new []) := by
  suffices h : ∀ (xs : List (Option (List (Packet O Q)))), (∀ ps, some ps ∈ xs → ps ≠ [] ∧ ∀ p ∈ ps, p.Ok S ∧ p.blocks.length ≤ 255) → ∀ buffered,
      ∃ n, ∃ b', reads rules chk n ⟨wholeReads xs, .empty, buffered, []⟩ = (xs.flatMap (wholeResults S rules), ⟨[], .empty, b', []⟩) ∧
        (buffered = [] → b' = []) by
    obtain ⟨n, b', h1, h2⟩ := h xs hx []
    rw [h2 rfl] at h1
    exact ⟨n, h1⟩
  intro xs
  induction xs with
  | nil => intro _ b; exact ⟨0, b, rfl, id⟩
  | cons x xs ih =>
    intro hx b
    have ih := ih (fun ps hps => hx ps (List.mem_cons_of_mem _ hps))
    cases x with
    | none =>
      obtain ⟨n, b', h1, h2⟩ := ih []
      have e : Rd.read rules chk ⟨wholeReads (none :: xs), .empty, b, []⟩ = (.err .io, ⟨wholeReads xs, .empty, [], []⟩) := rfl
      refine ⟨n + 1, b', ?_, fun _ => h2 rfl⟩
      rw [reads_succ (by rw [e]; simp), e, h1]
      rfl
    | some ps =>
      obtain ⟨hne, hps⟩ := hx ps List.mem_cons_self
      suffices h : ∀ (ps : List (Packet O Q)) (b : Bytes), ps ≠ [] → (∀ p ∈ ps, p.Ok S ∧ p.blocks.length ≤ 255) → ∃ n, ∃ b',
          reads rules chk n ⟨some (ps.map wire).flatten :: wholeReads xs, .empty, b, []⟩ =
            ((ps.map fun p => .ok (verdict S rules p)) ++ xs.flatMap (wholeResults S rules), ⟨[], .empty, b', []⟩) ∧ b' = [] by
        obtain ⟨n, b', h1, h2⟩ := h ps b hne hps
        exact ⟨n, b', h1, fun _ => h2⟩
      intro ps
      induction ps with
      | nil => intro b h; exact absurd rfl h
      | cons p ps ihp =>
        intro b _ hps
        obtain ⟨hp, hb⟩ := hps p List.mem_cons_self
        obtain ⟨h, pb, sh⟩ := hp.shape
        have hwl := wire_length hp.blocks sh
        have e : Rd.read rules chk ⟨some ((p :: ps).map wire).flatten :: wholeReads xs, .empty, b, []⟩ =
            (.ok (verdict S rules p), ⟨Events.consume (wire p).length (some ((p :: ps).map wire).flatten :: wholeReads xs), .empty, [], []⟩) := by
          rw [List.map_cons, List.flatten_cons, read_whole hp _ _ b [] sh, finish_eq hp.blocks sh hb]
        by_cases hnil : ps = []
        · subst hnil
          obtain ⟨n, b', h1, h2⟩ := ih []
          refine ⟨n + 1, b', ?_, h2 rfl⟩
          rw [reads_succ (by rw [e]; simp), e]
          have hc : Events.consume (wire p).length (some ([p].map wire).flatten :: wholeReads xs) = wholeReads xs := by
            simp only [Events.consume]
            rw [if_neg (by omega), if_neg (by simp)]
          rw [hc, h1]
          rfl
        · obtain ⟨n, b', h1, h2⟩ := ihp [] hnil (fun q hq => hps q (List.mem_cons_of_mem _ hq))
          refine ⟨n + 1, b', ?_, h2⟩
          rw [reads_succ (by rw [e]; simp), e]
          have hpos : 0 < ((ps.map wire).flatten).length := by
            cases ps with
            | nil => exact absurd rfl hnil
            | cons q qs =>
              obtain ⟨h', pb', sh'⟩ := (hps q (by simp)).1.shape
              have := wire_length (hps q (by simp)).1.blocks sh'
              simp only [List.map_cons, List.flatten_cons, List.length_append]; omega
          have hc : Events.consume (wire p).length (some ((p :: ps).map wire).flatten :: wholeReads xs) =
              some (ps.map wire).flatten :: wholeReads xs := by
            simp only [Events.consume, List.map_cons, List.flatten_cons]
            rw [if_neg (by omega), if_pos (by rw [List.length_append]; omega), List.drop_left' rfl]
          rw [hc, h1]
          rfl

example : ∃ n, reads ([] : Rules _ (Packet (blockEnum sampleTypes) (PEnum.ops []))) true n
    (.new (wholeReads [none, some [samplePacket, samplePacket], none, none, some [samplePacket]])) =
      ([.err .io, .ok (verdict sampleSpec [] samplePacket), .ok (verdict sampleSpec [] samplePacket), .err .io, .err .io,
        .ok (verdict sampleSpec [] samplePacket)], .new []) := by
  refine C50_boundary_partial (S := sampleSpec) _ ?_ [] true
  intro ps hps
  have : ps = [samplePacket, samplePacket] ∨ ps = [samplePacket] := by simpa using hps
  rcases this with rfl | rfl <;> refine ⟨by simp, fun p hp => ?_⟩ <;> simp at hp <;> subst hp <;> exact ⟨samplePacket_ok, by decide⟩

end Brec.Props
