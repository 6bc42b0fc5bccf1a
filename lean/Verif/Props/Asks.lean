import Verif.Asks
import Verif.ReaderLemmas
import Verif.Props.NoPanic
import Verif.Props.Reader
import Verif.Props.StorageEnds
/-!
# Property C89: readers ask for no more memory than there are bytes
-/

namespace Brec.Props

open Brec Packet

variable {O : BlockOps} {S : BlockSpec O} {vs : List PayloadTy}

/-! ## The claim -/

/-- The iterators a loop over `iter()` goes through. -/
inductive Iterated (O : BlockOps) (vs : List PayloadTy) (data : Bytes) (st : Storage) : Iter → Prop
  | new : Iterated O vs data st (Iter.new st)
  | next {it : Iter} : Iterated O vs data st it → Iterated O vs data st (Iter.next (O := O) (Q := PEnum.ops vs) data it).2

/-- Full statement of C89 (false): whatever the bytes, no reader asks the allocator for a buffer longer than what it was given to read. -/
def C89_full (O : BlockOps) (vs : List PayloadTy) : Prop :=
  (∀ s, ∀ n ∈ readAsks O vs s, n ≤ s.length) ∧
  (∀ rules s, ∀ n ∈ filteredAsks (O := O) vs rules s, n ≤ s.length) ∧
  (∀ c : Cur, c.pos ≤ c.data.length → ∀ n ∈ tryAsks O vs c, n ≤ c.data.length) ∧
  (∀ cs, ∀ n ∈ bufAsks O vs cs, n ≤ cs.flatten.length) ∧
  (∀ rules r, ∀ n ∈ Rd.readAsks (O := O) vs rules r, n ≤ r.buffered.length + r.src.bytes.length) ∧
  (∀ s, ∀ n ∈ Slot.readAsks s, n ≤ s.length) ∧
  (∀ c : Cur, c.pos ≤ c.data.length → ∀ n ∈ Slot.tryAsks c, n ≤ c.data.length) ∧
  (∀ es : Events, ∀ n ∈ Rd.newAsks, n ≤ es.bytes.length) ∧
  ∀ chk data st, openReader chk data = some (.ok st) → ∀ it, Iterated O vs data st it → ∀ n ∈ Iter.refillAsks it, n ≤ data.length

/-! ## Requests and results -/

theorem crc_not_sig (T : PayloadTy) (v : T.Val) : T.crc v ≠ .err .sigDismatch := by
  have hio : ∀ {α} (x : Option α), ioOut x ≠ .err .sigDismatch := by intro α x; cases x <;> simp [ioOut]
  unfold PayloadTy.crc PayloadTy.body
  split
  · exact hio _
  · cases e : ioOut (T.encodeRef v) with
    | panic => simp [Out.bind, Out.map]
    | err x => have := hio (T.encodeRef v); rw [e] at this; simpa [Out.bind, Out.map] using this
    | ok r =>
      cases r with
      | some b => simp [Out.bind, Out.map]
      | none =>
        have := hio (T.encode v)
        cases e' : ioOut (T.encode v) <;> simp_all [Out.bind, Out.map]

/-- A variant says `SignatureDismatch` only for another signature. -/
theorem read_sig {T : PayloadTy} {h : PayloadHeader} (hs : h.sig = T.ssig) (s : Bytes) : ((T.read h).run s).1 ≠ .err .sigDismatch := by
  unfold PayloadTy.read
  rw [if_neg (by simp [hs])]
  by_cases hl : h.len ≤ s.length
  · rw [P.bind_ok (P.readExact_ok hl)]
    cases e : T.decode (s.take h.len) with
    | none => rw [P.bind_err (e := .io) (by rw [P.lift_run]; rfl)]; simp
    | some v =>
      rw [P.bind_ok (a := v) (by rw [P.lift_run]; rfl)]
      cases e2 : T.crc v with
      | err x =>
        have := crc_not_sig T v
        rw [e2] at this
        rw [P.bind_err (e := x) (by rw [P.lift_run])]
        intro h
        injection h with h
        exact this (by rw [h])
      | panic => rw [P.bind_run, P.lift_run]; simp
      | ok c =>
        rw [P.bind_ok (a := c) (by rw [P.lift_run])]
        split <;> simp
  · rw [P.bind_err (P.readExact_short (by omega))]; simp

/-- Nothing is asked for: no variant has the signature, and nothing is read. -/
theorem asks_none {h : PayloadHeader} : ∀ {ts : List PayloadTy}, PEnum.asks h ts = [] → ∀ s, (PEnum.read h ts).run s = (.err .sigDismatch, s)
  | [], _, s => rfl
  | T :: Ts, e, s => by
    rw [PEnum.asks] at e
    by_cases hs : h.sig ≠ T.ssig
    · rw [if_pos hs] at e
      have h1 : (T.read h).run s = (.err .sigDismatch, s) := by rw [PayloadTy.read, if_pos hs]; rfl
      rw [PEnum.read]
      simp only
      rw [h1]
      simp only
      rw [asks_none e s]
      rfl
    · rw [if_neg hs] at e; simp at e

/-- One request at most: for the length announced. -/
theorem asks_cases (h : PayloadHeader) : ∀ ts : List PayloadTy, PEnum.asks h ts = [] ∨ PEnum.asks h ts = [h.len]
  | [] => .inl rfl
  | T :: Ts => by
    rw [PEnum.asks]
    split
    · exact asks_cases h Ts
    · exact .inr rfl

/-- A payload that was written is asked for. -/
theorem asks_good {ps : List PayloadTy} {v : (PEnum.ops ps).V} {ph : PayloadHeader} {x : Bytes} (g : (PEnum.ops ps).Good v ph x) (n : Nat) :
    PEnum.asks { ph with len := n } (ps ++ [bytesTy, stringTy]) = [n] := by
  have key : ∀ ts : List PayloadTy, PEnum.asks ph ts = [ph.len] → PEnum.asks { ph with len := n } ts = [n] := by
    intro ts
    induction ts with
    | nil => intro h; simp [PEnum.asks] at h
    | cons T Ts ih =>
      rw [PEnum.asks, PEnum.asks]
      by_cases hs : ph.sig ≠ T.ssig
      · rw [if_pos hs, if_pos hs]; exact ih
      · rw [if_neg hs, if_neg hs]; intro _; rfl
  refine key _ ((asks_cases ph _).resolve_left fun e => ?_)
  have h1 := g.read_eq []
  have h2 : ((PEnum.ops ps).read ph).run (x ++ []) = (.err .sigDismatch, x ++ []) := asks_none e _
  rw [h2] at h1
  simp at h1

theorem asks_bytes (n : Nat) (c : ByteBlock) : ∀ ps : List PayloadTy,
    PEnum.asks ⟨bytesTy.ssig, c, n⟩ (ps ++ [bytesTy, stringTy]) = [n]
  | [] => by simp [PEnum.asks]
  | T :: Ts => by
    rw [List.cons_append, PEnum.asks]
    split
    · exact asks_bytes n c Ts
    · rfl

/-! ## A packet whose payload announces any length -/

/-- The four readers on a packet that is whole as far as its header goes. -/
theorem asks_packet {h : PacketHeader} {bs : List O.B} {ph : PayloadHeader} {y : Bytes} (hb : ∀ b ∈ bs, S.ok b) (hn : bs.length ≤ 255) (w : h.WF)
    (hbl : h.blocksLen = (S.encs bs).length) (hsz : h.size = (S.encs bs).length + (ph.asVec ++ y).length) (hf : h.payload = true) (hsm : h.size < 2 ^ 63)
    (hl : ph.len < 2 ^ 32) :
    readAsks O vs (h.bytes ++ (S.encs bs ++ (ph.asVec ++ y))) = h.size :: PEnum.asks ph (vs ++ [bytesTy, stringTy]) ∧
    filteredAsks (O := O) vs [] (h.bytes ++ (S.encs bs ++ (ph.asVec ++ y))) = h.size :: PEnum.asks ph (vs ++ [bytesTy, stringTy]) ∧
    bufAsks O vs [h.bytes ++ (S.encs bs ++ (ph.asVec ++ y))] = PEnum.asks ph (vs ++ [bytesTy, stringTy]) ∧
    Rd.readAsks (O := O) vs [] (Rd.new [some (h.bytes ++ (S.encs bs ++ (ph.asVec ++ y)))]) = PEnum.asks ph (vs ++ [bytesTy, stringTy]) := by
  have h14 : 0 < ph.asVec.length := by simp [PayloadHeader.asVec]
  have hblk : ∃ cs, (if h.blocksLen > 0 then blocksBuf O h.blocksLen MAX_BLOCKS 0 [] [S.encs bs ++ (ph.asVec ++ y)]
      else (.ok (.success []), [S.encs bs ++ (ph.asVec ++ y)])) = (.ok (.success bs), cs) ∧ cs.flatten = ph.asVec ++ y ∧ Chunks.fill cs = ph.asVec ++ y := by
    rw [hbl]
    by_cases hne : bs = []
    · exact ⟨[ph.asVec ++ y], by simp [hne, BlockSpec.encs], by simp, by simp⟩
    · rw [if_pos (S.encs_pos hb hne), blocksBuf_eq hb hne (s := ph.asVec ++ y) (by simp) (by simp) (by simp [MAX_BLOCKS]; omega) (by simp)]
      refine ⟨_, by rfl, by simp [Chunks.flatten_skip], ?_⟩
      rw [Chunks.fill_skip (by simp; omega)]
      simp
  have hrefs : (if h.blocksLen > 0 then slicesLoop O (S.encs bs ++ (ph.asVec ++ y)) h.blocksLen ((S.encs bs ++ (ph.asVec ++ y)).length + 1) 0 []
      else .ok []) = .ok (bs.map S.ref) := by
    rw [hbl]
    by_cases hne : bs = []
    · simp [hne, BlockSpec.encs]
    · rw [if_pos (S.encs_pos hb hne), slicesLoop_eq hb hne (s := ph.asVec ++ y) (by omega) (by simp)
        (by have := S.length_le hb; simp only [List.length_append]; omega) (by simp)]
      simp
  have hpas : PayloadHeader.peek (ph.asVec ++ y) = .ok (.success ph) := PayloadHeader.peek_asVec ph hl y
  have hd : (S.encs bs ++ (ph.asVec ++ y)).drop h.blocksLen = ph.asVec ++ y := by rw [hbl]; simp
  have hfit : ¬ h.blocksLen + ph.size > (S.encs bs ++ (ph.asVec ++ y)).length := by
    rw [hbl, ← PayloadHeader.size_eq]; simp only [List.length_append]; omega
  obtain ⟨cs, e, hfl, hfi⟩ := hblk
  have hx : (P.readExact h.size).run (S.encs bs ++ (ph.asVec ++ y)) = (.ok (S.encs bs ++ (ph.asVec ++ y)), []) := by
    have := P.readExact_append' (n := h.size) (a := S.encs bs ++ (ph.asVec ++ y)) (by rw [hsz]; simp) []
    simpa using this
  refine ⟨?_, ?_, ?_, ?_⟩
  · unfold readAsks
    rw [PacketHeader.read_bytes w]
    simp only
    rw [askZeroed, if_pos hsm, if_pos hsm, hx]
    simp only [List.singleton_append, List.cons.injEq, true_and]
    unfold innerAsks
    rw [e]
    simp only
    rw [if_pos hf, Chunks.run_take hfl (PayloadHeader.read_asVec ph hl y)]
  · unfold filteredAsks
    rw [PacketHeader.read_bytes w]
    simp only
    rw [askZeroed, if_pos hsm, if_pos hsm, hx]
    simp only [List.singleton_append, List.cons.injEq, true_and]
    unfold lookAsks
    rw [hrefs]
    simp only
    rw [if_neg (by simp [filterByBlocks_eq, passBlocks, blocksRule]), if_pos hf, hd, Chunks.fill_single, hpas]
    simp only
    rw [if_neg hfit, if_neg (by simp [filterByPayload_eq, passPayload, payloadRule])]
  · unfold bufAsks
    rw [Chunks.fill_single, if_neg (by simp [HSIZE]), PacketHeader.readSlice_bytes w]
    simp only
    have hc : Chunks.consume HSIZE [h.bytes ++ (S.encs bs ++ (ph.asVec ++ y))] = [S.encs bs ++ (ph.asVec ++ y)] := by
      rw [Chunks.consume, Chunks.fill_single, Nat.min_eq_left (by simp [HSIZE]), Chunks.skip,
        if_pos (by simp only [List.length_append, PacketHeader.bytes_length]; omega), List.drop_left' (PacketHeader.bytes_length h)]
    rw [if_neg (by rw [hsz]; simp only [List.length_append]; omega), hc, e]
    simp only
    rw [if_pos hf, PayloadHeader.tryBuf, hfi, hpas]
  · have hne : h.bytes ++ (S.encs bs ++ (ph.asVec ++ y)) ≠ [] := by
      intro e0
      have := congrArg List.length e0
      simp [HSIZE] at this
    have hfill : ∀ b : Bytes, b ≠ [] → Events.fill [some b] = (some b, [some b]) := by
      intro b hb
      cases b with
      | nil => exact absurd rfl hb
      | cons => rfl
    unfold Rd.readAsks Rd.new
    simp only
    rw [hfill _ hne]
    simp only
    rw [if_neg (by simp [HSIZE]), readHeader_bytes w]
    simp only
    rw [if_neg (by omega), if_neg (by rw [hsz]; simp only [List.length_append, PacketHeader.bytes_length, HSIZE]; omega)]
    have hsl : slice (h.bytes ++ (S.encs bs ++ (ph.asVec ++ y))) 29 h.size = S.encs bs ++ (ph.asVec ++ y) := by
      have := slice_append_mid (a := h.bytes) (b := S.encs bs ++ (ph.asVec ++ y)) (c := []) (i := 29) (n := h.size) (by simp [HSIZE]) (by rw [hsz]; simp)
      rwa [List.append_nil] at this
    rw [hsl, Rd.parseAsks, if_neg (by rw [hbl]; simp only [List.length_append]; omega)]
    have htk : (S.encs bs ++ (ph.asVec ++ y)).take h.blocksLen = S.encs bs := by rw [hbl]; simp
    have hr2 : (if S.encs bs = [] then ((.ok [], .dropConsume) : Out (List O.BR) × Rd.Fin) else Rd.blocksLoop O (S.encs bs) MAX_BLOCKS 0 []).1 = .ok (bs.map S.ref) := by
      by_cases hbs : bs = []
      · simp [hbs, BlockSpec.encs]
      · have := S.encs_pos hb hbs
        rw [if_neg (by intro e0; rw [e0] at this; simp at this), Rd.blocksLoop_eq hb hbs (by omega) (by simp) (by simpa [MAX_BLOCKS] using hn)]
        simp
    rw [htk, hr2]
    simp only
    rw [if_neg (by simp [filterByBlocks_eq, passBlocks, blocksRule]), if_pos hf, hd, PayloadHeader.tryBuf, Chunks.fill_single, hpas]
    simp only
    rw [if_neg hfit, if_neg (by simp [filterByPayload_eq, passPayload, payloadRule])]

/-! ## Counterexamples -/

/-- **C89**, false of the code: 29 bytes are enough to make `ReadFrom` and `filtered` ask for any amount of memory, up to 2^63 - 1 bytes. -/
theorem C89_announced {n : Nat} (h0 : 0 < n) (hn : n < 2 ^ 63) : ∃ s, s.length = 29 ∧ readAsks O vs s = [n] ∧
    ∀ rules, filteredAsks (O := O) vs rules s = [n] := by
  have w : (PacketHeader.ofSizes n none).WF := PacketHeader.ofSizes_wf (by simp; omega)
  have h1 : PacketHeader.read.run (PacketHeader.ofSizes n none).bytes = (.ok (PacketHeader.ofSizes n none), []) := by
    have := PacketHeader.read_bytes w []
    rwa [List.append_nil] at this
  have h2 : (PacketHeader.ofSizes n none).size = n := by simp [PacketHeader.ofSizes]
  have h3 : (P.readExact n).run [] = (.err .io, []) := P.readExact_short (by simpa using h0)
  refine ⟨(PacketHeader.ofSizes n none).bytes, by simp [HSIZE], ?_, fun rules => ?_⟩
  · rw [readAsks, h1]
    simp only
    rw [h2, h3, askZeroed, if_pos hn]
    simp
  · rw [filteredAsks, h1]
    simp only
    rw [h2, h3, askZeroed, if_pos hn]
    simp

/-- **C89**, false of the code: 43 bytes — a complete packet — are enough to make every reader but `TryReadFrom` ask for any amount of memory up to 4 GiB. The length
of a payload is not compared with what there is. -/
theorem C89_payload (S : BlockSpec O) (vs : List PayloadTy) {n : Nat} (hn : n < 2 ^ 32) : ∃ s, s.length = 43 ∧
    n ∈ readAsks O vs s ∧ n ∈ filteredAsks (O := O) vs [] s ∧ n ∈ bufAsks O vs [s] ∧ n ∈ Rd.readAsks (O := O) vs [] (Rd.new [some s]) := by
  have key := asks_packet (S := S) (vs := vs) (h := PacketHeader.ofSizes 0 (some 14)) (bs := []) (ph := ⟨bytesTy.ssig, PayloadTy.crcBlock [], n⟩) (y := []) (by simp) (by simp)
    (PacketHeader.ofSizes_wf (by simp)) (by simp [PacketHeader.ofSizes, BlockSpec.encs]) (by rfl) (by rfl) (by decide) hn
  rw [asks_bytes] at key
  obtain ⟨k1, k2, k3, k4⟩ := key
  refine ⟨_, ?_, by rw [k1]; simp, by rw [k2]; simp, by rw [k3]; simp, by rw [k4]; simp⟩
  simp [HSIZE, BlockSpec.encs]
  rfl

/-- **C89**, false of the code: a packet reader asks for almost 4 GiB when it is made, before it has read a byte. -/
theorem C89_new (es : Events) (h : es.bytes.length < 2 ^ 32 - 1) : ∃ n ∈ Rd.newAsks, n = 4294967295 ∧ es.bytes.length < n :=
  ⟨4294967295, List.mem_singleton_self _, rfl, h⟩

/-- A source of five bytes. -/
example : Events.bytes [some [1, 2, 3, 4, 5]] = [1, 2, 3, 4, 5] ∧ (5 : Nat) < 2 ^ 32 - 1 := by decide

/-- **C89**, false of the code: 16 bytes are enough to make `Slot::read` ask for any amount of memory. -/
theorem C89_slot {n : Nat} (hn : n * 8 < 2 ^ 63) : ∃ s, s.length = 16 ∧ Slot.readAsks s = [n * 8] := by
  refine ⟨SLOT_SIG ++ leBytes 8 n, by simp [SLOT_SIG], ?_⟩
  have h := Slot.readHeader_run n (by omega) []
  simp only [List.append_nil] at h
  rw [Slot.readAsks, h]
  simp only
  rw [Slot.askLengths, if_pos hn]

/-- **C89**, false of the code: damage will do. In a packet as it was written, four bytes say how long the body of the payload is; with anything else in their
place, all readers but `TryReadFrom` ask for that. -/
theorem C89_damaged {p : Packet O (PEnum.ops vs)} (hp : p.Ok S) (hn : p.blocks.length ≤ 255) (hpl : p.payload.isSome) :
    ∃ a m b, p.serialize = .ok (a ++ (leBytes 4 m ++ b)) ∧ m = b.length ∧ ∀ n, n < 2 ^ 32 →
      n ∈ readAsks O vs (a ++ (leBytes 4 n ++ b)) ∧ n ∈ filteredAsks (O := O) vs [] (a ++ (leBytes 4 n ++ b)) ∧
      n ∈ bufAsks O vs [a ++ (leBytes 4 n ++ b)] ∧ n ∈ Rd.readAsks (O := O) vs [] (Rd.new [some (a ++ (leBytes 4 n ++ b))]) := by
  obtain ⟨h, pb, sh⟩ := hp.shape
  have hser := serialize_eq hp.blocks sh
  obtain ⟨bs, payload⟩ := p
  have hf := sh.flag
  have hbl := sh.blocksLen
  have hsz := sh.size
  have hpt := sh.part
  cases hpt with
  | none => simp at hpl
  | @some v ph x g =>
    obtain ⟨a, split⟩ : ∃ a, ∀ k : Nat, h.bytes ++ (S.encs bs ++ (({ ph with len := k } : PayloadHeader).asVec ++ x)) = a ++ (leBytes 4 k ++ x) :=
      ⟨h.bytes ++ S.encs bs ++ ([BitVec.ofNat 8 ph.sig.asSlice.length] ++ ph.sig.asSlice ++ [BitVec.ofNat 8 ph.crc.asSlice.length] ++ ph.crc.asSlice),
        fun k => by simp [PayloadHeader.asVec]⟩
    refine ⟨a, ph.len, x, by rw [hser, ← split ph.len, List.append_assoc], g.len_eq, fun n hn32 => ?_⟩
    · have hlen : (({ ph with len := n } : PayloadHeader).asVec ++ x).length = (ph.asVec ++ x).length := by simp [PayloadHeader.asVec]
      have key := asks_packet (S := S) (vs := vs) (h := h) (bs := bs) (ph := { ph with len := n }) (y := x) hp.blocks hn sh.wf hbl
        (by rw [hlen]; exact hsz) hf sh.small hn32
      rw [asks_good g n, split n] at key
      obtain ⟨k1, k2, k3, k4⟩ := key
      exact ⟨by rw [k1]; simp, by rw [k2]; simp, by rw [k3]; simp, by rw [k4]; simp⟩

/-- One byte will do: the highest of the length. -/
theorem C89_one_byte {p : Packet O (PEnum.ops vs)} (hp : p.Ok S) (hn : p.blocks.length ≤ 255) (hpl : p.payload.isSome) :
    ∃ w i n, p.serialize = .ok w ∧ i < w.length ∧ 255 * 2 ^ 24 ≤ n ∧
      n ∈ readAsks O vs (w.set i 255) ∧ n ∈ bufAsks O vs [w.set i 255] ∧ n ∈ Rd.readAsks (O := O) vs [] (Rd.new [some (w.set i 255)]) := by
  obtain ⟨a, m, b, hs, _, key⟩ := C89_damaged hp hn hpl
  have hset : (a ++ (leBytes 4 m ++ b)).set (a.length + 3) 255 = a ++ (leBytes 4 (m % 2 ^ 24 + 255 * 2 ^ 24) ++ b) := by
    rw [List.set_append_right _ _ (by omega), Nat.add_sub_cancel_left, List.set_append_left _ _ (by simp)]
    congr 2
    simp only [leBytes, List.set]
    simp only [List.cons.injEq, and_true]
    refine ⟨?_, ?_, ?_, ?_⟩ <;> apply BitVec.eq_of_toNat_eq <;> simp only [BitVec.toNat_ofNat, show (255 : Byte).toNat = 255 from rfl] <;> omega
  obtain ⟨k1, _, k3, k4⟩ := key (m % 2 ^ 24 + 255 * 2 ^ 24) (by omega)
  exact ⟨_, a.length + 3, _, hs, by simp; omega, Nat.le_add_left _ _, by rw [hset]; exact k1, by rw [hset]; exact k3, by rw [hset]; exact k4⟩

/-- **C89** is false of the code. -/
theorem C89_not (O : BlockOps) (vs : List PayloadTy) : ¬ C89_full O vs := by
  intro h
  obtain ⟨s, hl, e, _⟩ := C89_announced (O := O) (vs := vs) (n := 30) (by decide) (by decide)
  have := h.1 s 30 (by rw [e]; simp)
  omega

/-! ## What holds -/

theorem asks_le {h : PayloadHeader} {ts : List PayloadTy} {n : Nat} (hn : n ∈ PEnum.asks h ts) : n = h.len := by
  rcases asks_cases h ts with e | e
  · rw [e] at hn; simp at hn
  · rw [e] at hn; simpa using hn

theorem asks_length (h : PayloadHeader) (ts : List PayloadTy) : (PEnum.asks h ts).length ≤ 1 := by
  rcases asks_cases h ts with e | e <;> rw [e] <;> simp

/-- **C89 (partial)**, `TryReadFrom`: it never asks for more than the source has. -/
theorem C89_tryRead_partial (hO : O.Safe) {c : Cur} (hc : c.pos ≤ c.data.length) {n : Nat} (hn : n ∈ tryAsks O vs c) : n ≤ c.data.length := by
  unfold tryAsks at hn
  split at hn
  · rename_i available h c1 _ e1
    have s1 := PacketHeader.tryRead_safe hc
    rw [e1] at s1
    split at hn
    · simp at hn
    · have s2 : ∀ r : Out (Status (List O.B)) × Cur, r = (if h.blocksLen > 0 then blocksCur O h.blocksLen MAX_BLOCKS 0 [] c1 else (.ok (.success []), c1)) →
          r.2.pos ≤ r.2.data.length ∧ r.2.data = c.data := by
        intro r hr
        subst hr
        split
        · have := blocksCur_safe hO h.blocksLen MAX_BLOCKS 0 [] s1.2.1
          exact ⟨this.2.1, this.2.2.trans s1.2.2⟩
        · exact ⟨s1.2.1, s1.2.2⟩
      have s2 := s2 _ rfl
      revert hn s2
      generalize (if h.blocksLen > 0 then blocksCur O h.blocksLen MAX_BLOCKS 0 [] c1 else (.ok (.success []), c1)) = r
      intro hn s2
      simp only at hn
      split at hn
      · split at hn
        · split at hn
          · rename_i ph c2 e2
            have s3 := PayloadHeader.tryRead_safe s2.1
            rw [e2] at s3
            unfold PEnum.tryAsks at hn
            rw [Cur.remaining_ok s3.2.1] at hn
            simp only at hn
            split at hn
            · simp at hn
            · have := asks_le hn
              have hd : c2.data = c.data := s3.2.2.trans s2.2
              have : c2.rest.length ≤ c.data.length := by rw [← hd]; simp [Cur.rest]
              omega
          · simp at hn
        · simp at hn
      · simp at hn
  · simp at hn

/-- **C89 (partial)**, tables of a storage: `TryReadFrom for Slot` never asks for more than the source has, in both builds. -/
theorem C89_slot_tryRead_partial {c : Cur} (hc : c.pos ≤ c.data.length) {n : Nat} (hn : n ∈ Slot.tryAsks c) : n ≤ c.data.length := by
  unfold Slot.tryAsks at hn
  rw [Cur.remaining_ok hc] at hn
  split at hn
  · rename_i len cap c1 e0 e1
    injection e0 with e0
    unfold Slot.askLengths at hn
    split at hn
    · rename_i needed hu
      split at hn
      · simp at hn
      · split at hn
        · rename_i hlt hsm
          rw [u64_ok (by simp only [SLOT_HSIZE]; omega)] at hu
          injection hu with hu
          have : c.rest.length ≤ c.data.length := by simp [Cur.rest]
          simp only [List.mem_singleton] at hn
          simp only [SLOT_HSIZE] at hu
          omega
        · simp at hn
    · simp at hn
  · simp at hn

/-- A length announced in a payload header is a `u32`. -/
theorem parse_u32 {rules : Rules O.BR (Packet O (PEnum.ops vs))} {h : PacketHeader} {pb : Bytes} {n : Nat} (hn : n ∈ Rd.parseAsks vs rules h pb) : n < 2 ^ 32 := by
  unfold Rd.parseAsks at hn
  split at hn
  · simp at hn
  · split at hn
    · split at hn
      · simp at hn
      · split at hn
        · split at hn
          · rename_i ph _ e
            simp only [PayloadHeader.tryBuf, Prod.mk.injEq] at e
            obtain ⟨_, _, hl⟩ := PayloadHeader.peek_canon e.1
            split at hn
            · simp at hn
            · split at hn
              · simp at hn
              · rw [asks_le hn]; exact hl
          · simp at hn
        · simp at hn
    · simp at hn

/-- **C89 (partial)**, buffered readers: whatever the bytes, `TryReadFromBuffered` and each call of `PacketBufReader::read` ask for less than 4 GiB. -/
theorem C89_buffered_partial : (∀ cs, ∀ n ∈ bufAsks O vs cs, n < 2 ^ 32) ∧ ∀ rules r, ∀ n ∈ Rd.readAsks (O := O) vs rules r, n < 2 ^ 32 := by
  refine ⟨fun cs n hn => ?_, fun rules r n hn => ?_⟩
  · unfold bufAsks at hn
    split at hn
    · simp at hn
    · split at hn
      · split at hn
        · simp at hn
        · simp only at hn
          split at hn
          · split at hn
            · split at hn
              · rename_i ph _ e
                simp only [PayloadHeader.tryBuf, Prod.mk.injEq] at e
                obtain ⟨_, _, hl⟩ := PayloadHeader.peek_canon e.1
                rw [asks_le hn]; exact hl
              · simp at hn
            · simp at hn
          · simp at hn
      · simp at hn
  · unfold Rd.readAsks at hn
    split at hn
    · split at hn
      · split at hn
        · simp at hn
        · split at hn
          · simp at hn
          · exact parse_u32 hn
      · simp at hn
    · simp at hn
    · split at hn
      · split at hn
        · simp at hn
        · split at hn
          · split at hn
            · simp at hn
            · split at hn
              · simp at hn
              · exact parse_u32 hn
          · simp at hn
      · simp at hn

/-- **C89 (partial)**, packets as they were written: no reader asks for a buffer longer than the packet. -/
theorem C89_written_partial {p : Packet O (PEnum.ops vs)} (hp : p.Ok S) (hn : p.blocks.length ≤ 255) : ∃ w, p.serialize = .ok w ∧
    (∀ n ∈ readAsks O vs w, n ≤ w.length) ∧ (∀ n ∈ filteredAsks (O := O) vs [] w, n ≤ w.length) ∧
    (∀ n ∈ bufAsks O vs [w], n ≤ w.length) ∧ ∀ n ∈ Rd.readAsks (O := O) vs [] (Rd.new [some w]), n ≤ w.length := by
  obtain ⟨h, pb, sh⟩ := hp.shape
  have hser := serialize_eq hp.blocks sh
  have hl : (h.bytes ++ S.encs p.blocks ++ pb).length = 29 + h.size := by
    simp only [List.length_append, PacketHeader.bytes_length, sh.size, HSIZE]; omega
  refine ⟨_, hser, ?_⟩
  rw [hl]
  obtain ⟨bs, payload⟩ := p
  have hf := sh.flag
  have hbl := sh.blocksLen
  have hsz := sh.size
  have hpt := sh.part
  have hz : ∀ n ∈ askZeroed h.size, n ≤ 29 + h.size := by
    intro n hn
    rw [askZeroed, if_pos sh.small] at hn
    simp only [List.mem_singleton] at hn
    omega
  cases hpt with
  | none =>
    simp only [Option.isSome_none] at hf
    rw [List.append_assoc]
    refine ⟨fun n hn => ?_, fun n hn => ?_, fun n hn => ?_, fun n hn => ?_⟩
    · rw [readAsks, PacketHeader.read_bytes sh.wf] at hn
      simp only [List.mem_append] at hn
      rcases hn with hn | hn
      · exact hz n hn
      · split at hn
        · split at hn
          · unfold innerAsks at hn
            rw [hf] at hn
            simp only [Bool.false_eq_true, if_false] at hn
            split at hn <;> simp at hn
          · simp at hn
        · simp at hn
    · rw [filteredAsks, PacketHeader.read_bytes sh.wf] at hn
      simp only [List.mem_append] at hn
      rcases hn with hn | hn
      · exact hz n hn
      · split at hn
        · split at hn
          · unfold lookAsks at hn
            rw [hf] at hn
            simp only [Bool.false_eq_true, if_false] at hn
            split at hn
            · split at hn <;> simp at hn
            · simp at hn
          · simp at hn
        · simp at hn
    · unfold bufAsks at hn
      rw [Chunks.fill_single, PacketHeader.readSlice_bytes sh.wf] at hn
      simp only [hf, Bool.false_eq_true, if_false] at hn
      split at hn
      · simp at hn
      · split at hn
        · simp at hn
        · split at hn <;> simp at hn
    · have hnil : ∀ pb, Rd.parseAsks (O := O) vs [] h pb = [] := by
        intro pb
        unfold Rd.parseAsks
        rw [hf]
        simp only [Bool.false_eq_true, if_false]
        split
        · rfl
        · split
          · split <;> rfl
          · rfl
      unfold Rd.readAsks Rd.new at hn
      simp only at hn
      split at hn
      · rename_i buf _ e
        have hb : h.bytes ++ (S.encs bs ++ []) = buf := by
          have hne : h.bytes ++ (S.encs bs ++ []) ≠ [] := by
            intro e0
            have := congrArg List.length e0
            simp [HSIZE] at this
          revert e hne
          generalize h.bytes ++ (S.encs bs ++ []) = z
          intro e hne
          cases z with
          | nil => exact absurd rfl hne
          | cons => simp only [Events.fill, Prod.mk.injEq, Option.some.injEq] at e; exact e.1
        split at hn
        · simp at hn
        · split at hn
          · split at hn
            · simp at hn
            · split at hn
              · simp at hn
              · rename_i e2 _ _
                rw [← hb, readHeader_bytes sh.wf] at e2
                simp only [Out.ok.injEq, HeaderState.found.injEq] at e2
                rw [← e2.1, hnil] at hn
                simp at hn
          · simp at hn
      · simp at hn
  | @some v ph x g =>
    have key := asks_packet (S := S) (vs := vs) (h := h) (bs := bs) (ph := ph) (y := x) hp.blocks hn sh.wf hbl hsz hf sh.small g.len_lt
    have ha := asks_good g ph.len
    have : ph.len ≤ 29 + h.size := by
      rw [hsz, g.len_eq]; simp only [List.length_append]; omega
    rw [show ({ ph with len := ph.len } : PayloadHeader) = ph from rfl] at ha
    rw [ha] at key
    obtain ⟨k1, k2, k3, k4⟩ := key
    simp only [List.append_assoc] at *
    rw [k1, k2, k3, k4]
    simp only [List.mem_cons, List.not_mem_nil, or_false, forall_eq_or_imp, forall_eq]
    exact ⟨⟨by omega, this⟩, ⟨by omega, this⟩, this, this⟩

theorem iterated_within {data : Bytes} (hl : data.length < 2 ^ 63) {st : Storage} (h : Iter.Within data (Iter.new st)) {it : Iter} (hi : Iterated O vs data st it) :
    Iter.Within data it := by
  induction hi with
  | new => exact h
  | @next it _ ih =>
    unfold Iter.next
    rcases refill_within hl ih with h1 | ⟨it1, h1, hw1⟩
    · rw [h1]
      simp only
      obtain ⟨⟨off, ss⟩, buf⟩ := it
      refine ⟨?_, ih.2⟩
      have h2 := ih.1
      cases ss with
      | nil => exact h2
      | cons s ss =>
        simp only [Spans.next]
        simp only [extent_cons] at h2
        split <;> simp only <;> omega
    · rw [h1]
      exact ⟨hw1.1, hw1.2.suffix (read_leaves _)⟩

/-- **C89 (partial)**, looping over a storage that could be opened: no buffer for the packets of a slot is longer than the file. -/
theorem C89_iter_partial {chk : Bool} {data : Bytes} {st : Storage} (hl : data.length < 2 ^ 63) (ho : openReader chk data = some (.ok st))
    (hw : chk = false → ∀ pos t, Visited data pos → TableAt data pos t → pos + t.size + t.width < 2 ^ 63) {it : Iter} (hi : Iterated O vs data st it) {n : Nat}
    (hn : n ∈ Iter.refillAsks it) : n ≤ data.length := by
  have h := iterated_within hl (open_within ho hw) hi
  obtain ⟨⟨off, ss⟩, buf⟩ := it
  unfold Iter.refillAsks at hn
  split at hn
  · simp at hn
  · cases ss with
    | nil => simp [Spans.next] at hn
    | cons s ss =>
      have h1 := h.1
      simp only [extent_cons] at h1
      simp only [Spans.next] at hn
      by_cases hz : s.width = 0
      · rw [if_pos hz] at hn; simp at hn
      · rw [if_neg hz] at hn
        simp only [askZeroed] at hn
        split at hn
        · simp only [List.mem_singleton] at hn; omega
        · simp at hn

/-! ## Examples -/

example : ∃ s : Bytes, s.length = 29 ∧ readAsks (blockEnum sampleTypes) [] s = [2 ^ 62] := by
  obtain ⟨s, h, e, _⟩ := C89_announced (O := blockEnum sampleTypes) (vs := []) (n := 2 ^ 62) (by decide) (by decide)
  exact ⟨s, h, e⟩

example : ∃ w i n, samplePacket.serialize = .ok w ∧ i < w.length ∧ 255 * 2 ^ 24 ≤ n ∧ n ∈ bufAsks (blockEnum sampleTypes) [] [w.set i 255] := by
  obtain ⟨w, i, n, h1, h2, h3, _, h4, _⟩ := C89_one_byte samplePacket_ok (by decide) (by rfl)
  exact ⟨w, i, n, h1, h2, h3, h4⟩

example : ∃ w, samplePacket.serialize = .ok w ∧ ∀ n ∈ bufAsks (blockEnum sampleTypes) [] [w], n ≤ w.length := by
  obtain ⟨w, h1, _, _, h2, _⟩ := C89_written_partial samplePacket_ok (by decide)
  exact ⟨w, h1, h2⟩

example (s : Bytes) : ∀ n ∈ tryAsks (blockEnum sampleTypes) [] ⟨s, 0, true⟩, n ≤ s.length :=
  fun _ hn => C89_tryRead_partial (blockEnum_safe sampleTypes) (Nat.zero_le _) hn

/-- The request of `Slot::read` that `TryReadFrom for Slot` does not make. -/
example : Slot.readAsks (SLOT_SIG ++ leBytes 8 (2 ^ 40)) = [2 ^ 43] ∧ Slot.tryAsks ⟨SLOT_SIG ++ leBytes 8 (2 ^ 40), 0, true⟩ = [] := by decide

example : ∃ st, openReader true hugeStored = some (.ok st) ∧ Iter.refillAsks (Iter.new st) = [29] ∧
    ∀ it, Iterated (blockEnum sampleTypes) [] hugeStored st it → ∀ n ∈ Iter.refillAsks it, n ≤ 57 := by
  have ho : openReader true hugeStored = some (.ok ⟨[⟨⟨[29], 1, Slot.crcOf 1 [29]⟩, 0⟩], ⟨1, 57⟩⟩) := by decide +kernel
  refine ⟨_, ho, by decide +kernel, fun it hi n hn => ?_⟩
  have := C89_iter_partial (by decide +kernel) ho (by intro h; cases h) hi hn
  rwa [show hugeStored.length = 57 by decide +kernel] at this

end Brec.Props
