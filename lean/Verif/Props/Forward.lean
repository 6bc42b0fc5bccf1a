import Verif.Inversion
import Verif.Props.Generated
import Verif.Props.ReaderMemory
import Verif.Props.PacketLimits
/-!
# Properties C68, C69: passing on what was read

C68: whatever a reader returns, from whatever bytes, can be written, read back and stored. C69: how the bytes that are passed on relate to
the bytes that came in.
-/

namespace Brec.Props

open Brec Packet Rd

variable {vs : List BlockTy} {ps : List PayloadTy}

/-! ## C68 -/

/-- What C68 expects of a payload type of the user: a value that was decoded (from less than 1 GiB) can be encoded, its encoding decodes to
it, the size it reports is the one of its encoding, and the checksum has four bytes. -/
def Faithful (T : PayloadTy) : Prop := ∀ x u, x.length < 2 ^ 30 → T.decode x = some u → ∃ y c, T.Good u y c ∧ c.size = 4

/-- A generated protocol with faithful payload types. -/
structure Protocol (vs : List BlockTy) (ps : List PayloadTy) : Prop where
  distinct : DistinctSigs vs
  wf : ∀ b ∈ vs, b.WF
  faithful : ∀ T ∈ ps, Faithful T

theorem bytesTy_faithful : Faithful bytesTy := by
  intro x u hx hu
  injection hu with hu
  subst hu
  exact ⟨_, _, bytesTy_good x (by omega), rfl⟩

theorem lossyAux_length (f : Nat) (s : Bytes) : (lossyAux f s).length ≤ 3 * s.length := by
  induction f generalizing s with
  | zero => simp [lossyAux]
  | succ f ih =>
    cases s with
    | nil => simp [lossyAux]
    | cons b s =>
      have h1 := utf8Chunk_pos (b :: s)
      have h2 := ih ((b :: s).drop (utf8Chunk (b :: s)).1)
      rw [List.length_drop] at h2
      simp only [lossyAux, List.length_append]
      have h3 : (if (utf8Chunk (b :: s)).2 then (b :: s).take (utf8Chunk (b :: s)).1 else REPLACEMENT).length ≤
          3 * min (utf8Chunk (b :: s)).1 (b :: s).length := by
        split
        · rw [List.length_take]; omega
        · simp only [REPLACEMENT, List.length_cons, List.length_nil]; omega
      omega

/-- Replacing what is not UTF-8 at most triples the length. -/
theorem lossy_length (s : Bytes) : (lossy s).length ≤ 3 * s.length := lossyAux_length _ s

theorem stringTy_faithful : Faithful stringTy := by
  intro x u hx hu
  injection hu with hu
  subst hu
  refine ⟨_, _, stringTy_good _ ?_, rfl⟩
  have := lossy_length x
  show (lossy x).length ≤ _
  omega

theorem Protocol.all (P : Protocol vs ps) : ∀ T ∈ ps ++ [bytesTy, stringTy], Faithful T := by
  intro T hT
  simp only [List.mem_append, List.mem_cons, List.not_mem_nil, or_false] at hT
  rcases hT with h | h | h
  · exact P.faithful T h
  · subst h; exact bytesTy_faithful
  · subst h; exact stringTy_faithful

theorem AllTook.mem {B : Type} {In : B → Bytes → Prop} {bs : List B} {x : Bytes} (h : AllTook In bs x) : ∀ b ∈ bs, ∃ y, In b y := by
  induction h with
  | nil => simp
  | cons h1 _ ih =>
    intro b hb
    rcases List.mem_cons.mp hb with rfl | hb
    · exact ⟨_, h1⟩
    · exact ih b hb

theorem AllTook.sum {O : BlockOps} {In : O.B → Bytes → Prop} (hl : ∀ {b x}, In b x → x.length = O.size b) {bs : List O.B} {x : Bytes}
    (h : AllTook In bs x) : (bs.map O.size).sum = x.length := by
  induction h with
  | nil => rfl
  | cons h1 _ ih => rw [List.map_cons, List.sum_cons, ih, List.length_append, hl h1]

/-- What was taken is a declared packet. -/
theorem taken_declared (P : Protocol vs ps) {view : Bool} {h : PacketHeader} {p : Packet (blockEnum vs) (PEnum.ops ps)} {bl pb : Bytes}
    (t : Taken (EnumTook vs view) (PTook (ps ++ [bytesTy, stringTy])) h p bl pb)
    (hs : (bl ++ pb).length < 2 ^ 30) : Declared p := by
  have hsig : ∀ a ∈ vs, a.sig.length = 4 := fun a ha => (P.wf a ha).sig_len
  have hsum := AllTook.sum (blockEnum_inv hsig).length t.blocks
  rw [List.length_append] at hs
  have hpay : ∀ v, p.payload = some v → ∃ (T : PayloadTy) (u : T.Val) (x : Bytes) (c : ByteBlock),
      PVal.At T u (ps ++ [bytesTy, stringTy]) v ∧ T.Good u x c ∧ c.size = 4 := by
    intro v hv
    have hp := t.payload
    rw [hv] at hp
    obtain ⟨ph, x, rfl, hlen, T, u, hT, ha, _, _, hd, _⟩ := hp
    rw [List.length_append] at hs
    obtain ⟨y, c, g, hc⟩ := P.all T hT x u (by omega) hd
    exact ⟨T, u, y, c, ha, g, hc⟩
  refine ⟨P.distinct, P.wf, fun b hb => ?_, hpay, fun h' hh => ?_⟩
  · obtain ⟨y, hy, _⟩ := AllTook.mem t.blocks b hb
    exact hy
  · obtain ⟨bs, pl⟩ := p
    cases pl with
    | none =>
      rw [header] at hh
      simp only [Out.ok.injEq] at hh
      subst hh
      simp only [PacketHeader.ofSizes, Option.getD_none]
      simp only at hsum
      omega
    | some v =>
      obtain ⟨T, u, x, c, ha, g, hc⟩ := hpay v rfl
      have g' := PEnum.ops_good ha g hc
      rw [header] at hh
      simp only [g'.size_eq, g'.hsize_eq, Out.map_ok, Out.ok.injEq] at hh
      subst hh
      simp only [PacketHeader.ofSizes, Option.getD_some]
      simp only at hsum
      have h1 := g.len_le
      have h2 : PayloadHeader.size { sig := T.ssig, crc := c, len := x.length } ≤ 1 + 128 + 1 + 4 + 4 := by
        have := T.ssig.size_legal
        simp only [PayloadHeader.size, hc]
        simp only [ByteBlock.Legal] at this
        simp only [ByteBlock.size]
        omega
      omega

/-- `p` can be passed on: it is declared, is written in the documented layout, and what is written reads as `p`. -/
def PassesOn (p : Packet (blockEnum vs) (PEnum.ops ps)) : Prop :=
  Declared p ∧ ∃ w, IsWire p w ∧ p.serialize = .ok w ∧ ∀ t, (Packet.read (PEnum.ops ps)).run (w ++ t) = (.ok p, t)

theorem Declared.passesOn {p : Packet (blockEnum vs) (PEnum.ops ps)} (d : Declared p) (hn : p.blocks.length ≤ 256) : PassesOn p := by
  refine ⟨d, ?_⟩
  obtain ⟨w, i, e, _⟩ := C15_generated d hn []
  refine ⟨w, i, e, fun t => ?_⟩
  obtain ⟨w', i', e', r⟩ := C15_generated d hn t
  obtain rfl : w = w' := by rw [e] at e'; exact Out.ok.inj e'
  exact r

theorem Protocol.sigs (P : Protocol vs ps) : ∀ a ∈ vs, a.sig.length = 4 := fun a ha => (P.wf a ha).sig_len

/-- **C68.** Whatever bytes they came from (less than 1 GiB), packets returned by the stream reader, the seekable reader and the buffered
reader can be written, read back and stored. -/
theorem C68_passes_on (P : Protocol vs ps) {p : Packet (blockEnum vs) (PEnum.ops ps)} :
    (∀ s s', s.length < 2 ^ 30 → (Packet.read (PEnum.ops ps)).run s = (.ok p, s') → PassesOn p ∧ p.blocks.length ≤ 256) ∧
    (∀ (c c' : Cur), c.pos ≤ c.data.length → c.data.length < 2 ^ 30 → Packet.tryRead (PEnum.ops ps) c = (.ok (.success p), c') →
      PassesOn p ∧ p.blocks.length ≤ 256) ∧
    (∀ (cs cs' : Chunks), cs.flatten.length < 2 ^ 30 → Packet.tryBuf (PEnum.ops ps) cs = (.ok (.success p), cs') →
      PassesOn p ∧ p.blocks.length ≤ 256) := by
  refine ⟨fun s s' hs e => ?_, fun c c' hp hs e => ?_, fun cs cs' hs e => ?_⟩
  · obtain ⟨h, flag, bl, pb, junk, _, _, rfl, _, t, hn, _⟩ := read_took (blockEnum_inv P.sigs) (PEnum.ops_inv ps) e
    simp only [List.length_append] at hs
    have d := taken_declared P t (by rw [List.length_append]; omega)
    exact ⟨d.passesOn hn, hn⟩
  · obtain ⟨h, flag, bl, pb, _, _, hr, t, hn, _⟩ := tryRead_took (blockEnum_inv P.sigs) (PEnum.ops_inv ps) hp e
    have hl := congrArg List.length hr
    simp only [List.length_append, Cur.rest, List.length_drop] at hl
    have d := taken_declared P t (by rw [List.length_append]; omega)
    exact ⟨d.passesOn hn, hn⟩
  · obtain ⟨h, flag, bl, pb, _, _, hr, t, hn, _⟩ := tryBuf_took (blockEnum_inv P.sigs) (PEnum.ops_inv ps) e
    rw [hr] at hs
    simp only [List.length_append] at hs
    have d := taken_declared P t (by rw [List.length_append]; omega)
    exact ⟨d.passesOn hn, hn⟩

/-- A packet the buffered reader finds, in a stream in which no header announces 1 GiB. -/
theorem found_declared (P : Protocol vs ps) {rules : Rules (blockEnum vs).BR (Packet (blockEnum vs) (PEnum.ops ps))} {chk : Bool} {r r' : Rd}
    {N : Nat} (hN : N < 2 ^ 30) (hr : Hold N r) {p : Packet (blockEnum vs) (PEnum.ops ps)}
    (e : Rd.read rules chk r = (.ok (.found p), r')) : Declared p ∧ p.blocks.length ≤ 255 := by
  obtain ⟨h, buf, f, e1, hl, hor⟩ := read_found e
  have hsz : h.size ≤ N := by
    rcases hor with hrec | ⟨all, start, stop, hfill, hh⟩
    · have := hr.pending
      rw [hrec] at this
      exact this
    · refine readHeader_announced ?_ hh
      have hb := hr.bytes
      rcases fill_cases r.src with ⟨b, es, he, hne⟩ | ⟨x, es, hf, hx, ht⟩
      · rw [he, Events.fill_some hne] at hfill
        injection hfill with hfill
        subst hfill
        rw [he] at hb
        exact Announces.prefix (s := Events.bytes es) hb
      · rw [hf] at hfill
        simp only at hfill
        rcases hx with hx | hx
        · rw [hx] at hfill; cases hfill
        · rw [hx] at hfill
          injection hfill with hfill
          subst hfill
          exact Announces.prefix (x := []) (s := r.src.bytes) hb
  obtain ⟨bl, pb, junk, rfl, t, hn⟩ := parse_took (blockEnum_inv P.sigs) (PEnum.ops_inv ps) e1
  refine ⟨taken_declared P t ?_, hn⟩
  rw [List.length_append] at hl
  omega

/-- The packets among the results of a reader. -/
def foundIn {O : BlockOps} {Q : PayloadOps} : List (Out (Next (Packet O Q))) → List (Packet O Q)
  | [] => []
  | .ok (.found p) :: os => p :: foundIn os
  | _ :: os => foundIn os

theorem foundIn_cons {O : BlockOps} {Q : PayloadOps} (o : Out (Next (Packet O Q))) (os : List (Out (Next (Packet O Q)))) {p : Packet O Q}
    (h : p ∈ foundIn (o :: os)) : o = .ok (.found p) ∨ p ∈ foundIn os := by
  unfold foundIn at h
  split at h
  · cases h
  · rename_i q os' heq
    injection heq with h1 h2
    subst h1; subst h2
    rcases List.mem_cons.mp h with rfl | h
    · exact .inl rfl
    · exact .inr h
  · rename_i heq
    injection heq with h1 h2
    subst h2
    exact .inr h

theorem reads_declared (P : Protocol vs ps) (rules : Rules (blockEnum vs).BR (Packet (blockEnum vs) (PEnum.ops ps))) (chk : Bool) {N : Nat}
    (hN : N < 2 ^ 30) (n : Nat) {r : Rd} (hr : Hold N r) (hs : Sane r) :
    ∀ p ∈ foundIn (reads rules chk n r).1, Declared p ∧ p.blocks.length ≤ 255 := by
  induction n generalizing r with
  | zero => intro p hp; cases hp
  | succ n ih =>
    intro p hp
    have h1 := hr.read hs rules chk
    have h2 := (Hold.reads hr hs rules chk 1).2
    unfold Rd.reads at hp
    rcases hq : Rd.read rules chk r with ⟨o, r1⟩
    rw [hq] at hp h1
    have hs1 : Sane r1 := by
      simp only [Rd.reads] at h2
      rw [hq] at h2
      cases o <;> exact h2
    cases o with
    | panic => simp [foundIn] at hp
    | ok x =>
      simp only at hp
      rcases foundIn_cons _ _ hp with h | h
      · injection h with h
        subst h
        exact found_declared P hN hr hq
      · exact ih h1 hs1 p h
    | err x =>
      simp only at hp
      rcases foundIn_cons _ _ hp with h | h
      · cases h
      · exact ih h1 hs1 p h

/-- **C68**, recording a stream: whatever the bytes are and however they arrive, all packets a `PacketBufReader` finds can be inserted into
a new storage, which then has exactly them. (No header in the bytes announces 1 GiB; the storage stays below 8 EiB.) -/
theorem C68_record (P : Protocol vs ps) (rules : Rules (blockEnum vs).BR (Packet (blockEnum vs) (PEnum.ops ps))) (chk : Bool) (es : Events)
    {N : Nat} (hN : N < 2 ^ 30) (ha : Announces N es.bytes) (n : Nat) {cap : Nat} (hc : 0 < cap)
    (hs : Small cap (foundIn (reads rules chk n (.new es)).1)) :
    ∃ w st, runOps cap chk ((foundIn (reads rules chk n (.new es)).1).map Op.insert) emptyWriter = some w ∧
      openReader chk w.data = some (.ok st) ∧ st.count cap = (foundIn (reads rules chk n (.new es)).1).length ∧
      (∀ i, st.nth cap chk w.data i = .ok (foundIn (reads rules chk n (.new es)).1)[i]?) ∧
      IterYields st w.data ((foundIn (reads rules chk n (.new es)).1).map .ok) := by
  have hd := reads_declared P rules chk hN n (r := .new es) ⟨ha, trivial, by simp [Rd.new]⟩ ⟨trivial⟩
  exact C29_log (S := blockEnumSpec vs P.distinct P.wf) hc chk _ (fun p hp => ⟨(hd p hp).1.ok, by have := (hd p hp).2; omega⟩) hs

theorem sampleProtocol : Protocol sampleTypes [] := ⟨sampleTypes_distinct, sampleTypes_wf, by simp⟩

/-- A packet of the sample protocol is found, and recorded. -/
example : ∃ w : Bytes, (Packet.read (PEnum.ops [])).run w = (.ok samplePacket, []) ∧ w.length < 2 ^ 30 := by
  obtain ⟨w, h, e, _, _, r⟩ := C15_packet_roundtrip samplePacket_ok (by decide) []
  refine ⟨w, by simpa using r, ?_⟩
  have h1 : wire samplePacket = w := by unfold wire; rw [e]
  have h2 : (wire samplePacket).length = 125 := by decide +kernel
  rw [← h1, h2]
  omega

/-- A payload type of the user with a codec that gives back what it took is faithful. -/
example (V : Type) (sig : Arr 4) (ser : V → Option Bytes) (de : Bytes → Option V)
    (h : ∀ x v, x.length < 2 ^ 30 → de x = some v → ∃ y, ser v = some y ∧ de y = some v ∧ y.length < 2 ^ 32) :
    Faithful (bincodeTy V sig ser (fun v => (ser v).map List.length) de false) := by
  intro x u hx hu
  obtain ⟨y, h1, h2, h3⟩ := h x u hx hu
  refine ⟨y, PayloadTy.crcBlock y, ⟨rfl, ?_, ?_, by omega, ?_, h2⟩, rfl⟩
  · simp [PayloadTy.body, h1, ioOut, Out.bind]
  · simp [h1]
  · simp [PayloadTy.crc, PayloadTy.body, h1, ioOut, Out.bind]

/-- **C68** for `filtered`: what it accepts can be written and is accepted again; up to 256 blocks it can be passed on like any other packet. -/
theorem C68_filtered (P : Protocol vs ps) {p : Packet (blockEnum vs) (PEnum.ops ps)} {n : Nat} {s s' : Bytes}
    {rules : Rules (blockEnum vs).BR (Packet (blockEnum vs) (PEnum.ops ps))} (hs : s.length < 2 ^ 30)
    (e : (Packet.filtered (PEnum.ops ps) rules).run s = (.ok (.accepted n p), s')) :
    (∃ w m, IsWire p w ∧ p.serialize = .ok w ∧ ∀ t, (Packet.filtered (PEnum.ops ps) ([] : Rules (blockEnum vs).BR (Packet (blockEnum vs) (PEnum.ops ps)))).run (w ++ t) =
      (.ok (.accepted m p), t)) ∧ (p.blocks.length ≤ 256 → PassesOn p) := by
  obtain ⟨h, flag, bl, pb, junk, _, _, rfl, _, t, _⟩ := filtered_took (blockEnum_inv P.sigs) (PEnum.ops_inv ps) e
  simp only [List.length_append] at hs
  have d := taken_declared P t (by rw [List.length_append]; omega)
  refine ⟨?_, d.passesOn⟩
  obtain ⟨w, hw, i⟩ := C52_packet_layout d
  obtain ⟨w0, h0, e0, k0, _⟩ := C16_filtered d.ok []
  refine ⟨w, h0.size, i, hw, fun t => ?_⟩
  obtain ⟨w', h', e', k, r⟩ := C16_filtered d.ok t
  rw [hw] at e'
  injection e' with e'
  subst e'
  rw [k0] at k
  injection k with k
  subst k
  exact r

/-- 257 blocks without fields. -/
def packet257 : Packet (blockEnum sampleTypes) (PEnum.ops []) := ⟨List.replicate 257 ⟨otherBlock, ()⟩, none⟩

theorem packet257_length : packet257.blocks.length = 257 := List.length_replicate

theorem packet257_header : packet257.header = .ok (PacketHeader.ofSizes 2056 none) := by
  have key : ∀ n (b : BlockVal), ((List.replicate n b).map BlockVal.size).sum = n * b.size := by
    intro n b; rw [List.map_replicate, List.sum_replicate_nat]
  exact congrArg (fun n => Out.ok (PacketHeader.ofSizes n none)) (key 257 ⟨otherBlock, ()⟩)

theorem packet257_declared : Declared packet257 where
  distinct := sampleTypes_distinct
  wf := sampleTypes_wf
  blocks := by
    intro b hb
    rw [packet257] at hb
    rw [List.eq_of_mem_replicate hb]
    simp [sampleTypes]
  payload := by intro v hv; cases hv
  size := by
    intro h hh
    rw [packet257_header] at hh
    injection hh with hh
    subst hh
    decide

/-- **C68**, what does not hold: `filtered` returns packets that, written again, none of the other readers takes. -/
theorem C68_filtered_not : ¬ ∀ (s s' : Bytes) (n : Nat) (p : Packet (blockEnum sampleTypes) (PEnum.ops [])), s.length < 2 ^ 30 →
    (Packet.filtered (PEnum.ops []) ([] : Rules (blockEnum sampleTypes).BR (Packet (blockEnum sampleTypes) (PEnum.ops [])))).run s = (.ok (.accepted n p), s') →
    PassesOn p := by
  intro H
  have d := packet257_declared
  obtain ⟨w, hw, i⟩ := C52_packet_layout d
  obtain ⟨_, h2, m, h3⟩ := C17_limit_partial d.ok hw []
  have hl : w.length < 2 ^ 30 := by
    have h1 : wire packet257 = w := by unfold wire; rw [hw]
    obtain ⟨h', pb, sh⟩ := d.ok.shape
    rw [← h1, wire_eq d.ok.blocks sh, List.length_append, PacketHeader.bytes_length, List.length_append, ← sh.size]
    have := packet257_header
    rw [sh.header] at this
    injection this with this
    subst this
    decide
  rw [List.append_nil] at h3
  obtain ⟨_, w', _, e', r⟩ := H w [] m packet257 hl h3
  rw [hw] at e'
  injection e' with e'
  subst e'
  have := (h2 (by rw [packet257_length]; omega)).1
  rw [r []] at this
  cases this

end Brec.Props
