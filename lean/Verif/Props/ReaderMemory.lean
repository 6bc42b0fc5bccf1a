import Verif.ReaderSafe
/-!
# Property C64: how much `PacketBufReader` keeps between calls

Between two calls the reader keeps `buffered` (the beginning of a packet body) and, inside `HeaderReadState::Refill`, the bytes that may be the beginning of a header. The
buffer of the `BufReader` itself has a fixed size. Capacity is not modelled: `new` reserves room for 2^32 - 1 bytes (`reader.rs:260`).
-/

namespace Brec.Props

open Brec Rd

variable {O : BlockOps} {Q : PayloadOps}

/-- The bytes kept between two calls. -/
def kept (r : Rd) : Nat := r.buffered.length + match r.recent with
  | .refill b _ => b.length
  | _ => 0

/-- No packet header that stands anywhere in `x` (also inside other data) announces more than `N` bytes. -/
def Announces (N : Nat) (x : Bytes) : Prop := ∀ k h, PacketHeader.readSlice (x.drop k) = .ok h → h.size ≤ N

theorem Announces.drop {N : Nat} {x : Bytes} (h : Announces N x) (k : Nat) : Announces N (x.drop k) := by
  intro j hd e
  rw [List.drop_drop] at e
  exact h _ hd e

theorem Announces.prefix {N : Nat} {x s : Bytes} (h : Announces N (x ++ s)) : Announces N x := by
  intro k hd e
  by_cases hk : k ≤ x.length
  · refine h k hd ?_
    rw [List.drop_append_of_le_length hk]
    exact PacketHeader.readSlice_append e s
  · rw [List.drop_eq_nil_of_le (by omega)] at e
    cases e

theorem Announces.suffix {N : Nat} {x s : Bytes} (h : Announces N (x ++ s)) : Announces N s := by
  have := h.drop x.length
  rwa [List.drop_left' rfl] at this

theorem Announces.drop_suffix {N : Nat} {b s : Bytes} (h : Announces N (b ++ s)) (k : Nat) : Announces N (b.drop k ++ s) := by
  by_cases hk : k ≤ b.length
  · have := h.drop k
    rwa [List.drop_append_of_le_length hk] at this
  · rw [List.drop_eq_nil_of_le (by omega)]
    exact h.suffix

theorem Announces.consume {N : Nat} {es : Events} (h : Announces N es.bytes) (n : Nat) : Announces N (es.consume n).bytes := by
  obtain ⟨k, e⟩ := Events.bytes_consume_drop n es
  rw [e]; exact h.drop k

theorem readHeader_announced {N : Nat} {b : Bytes} {h : PacketHeader} {start stop : Nat} (hb : Announces N b)
    (e : readHeader b = .ok (.found h start stop)) : h.size ≤ N := by
  unfold readHeader at e
  split at e
  · cases e
  · rename_i o _
    split at e
    · cases e
    · cases hx : PacketHeader.readSlice (b.drop o) with
      | ok k =>
        rw [hx, Out.map_ok] at e
        have := Out.ok.inj e
        injection this with h1
        subst h1
        exact hb _ _ hx
      | err _ => rw [hx] at e; cases e
      | panic => rw [hx] at e; cases e

/-- The invariant. -/
structure Hold (N : Nat) (r : Rd) : Prop where
  bytes : Announces N r.src.bytes
  pending : match r.recent with
    | .refill b _ => Announces N (b ++ r.src.bytes)
    | .ready h => h.size ≤ N
    | .empty => True
  buffered : r.buffered.length ≤ N

theorem Hold.finish {N : Nat} {r : Rd} (hr : Hold N r) (he : r.recent = .empty) (rules : Rules O.BR (Packet O Q)) (h : PacketHeader) (pb : Bytes) (c : Nat) :
    Hold N (finish rules h pb c r).2 := by
  refine ⟨?_, by rw [finish_recent, he]; trivial, ?_⟩
  · rcases finish_src rules h pb c r with e | e <;> rw [e]
    · exact hr.bytes
    · exact hr.bytes.consume c
  · unfold Rd.finish
    simp only
    split
    · simp
    · simp
    · exact hr.buffered

theorem Announces.diff {N : Nat} {es src : Events} (hs : Announces N es.bytes) {chk : Bool} {stop n : Nat} (h : consumeDiff chk stop n es = some src) :
    Announces N src.bytes := by
  unfold Rd.consumeDiff at h
  split at h
  · rw [← Option.some.inj h]; exact hs.consume _
  · split at h
    · cases h
    · rw [← Option.some.inj h]; exact hs.consume _

theorem hold_empty {N : Nat} {r : Rd} (hr : r.recent = .empty) {buf : Bytes} {es : Events} (hs : r.src = some buf :: es) (hne : buf ≠ []) (hf : Hold N r)
    (rules : Rules O.BR (Packet O Q)) : Hold N (readEmpty rules r).2 := by
  have hb : Announces N (buf ++ Events.bytes es) := by have := hf.bytes; rwa [hs] at this
  have hz : ∀ log, Hold N { r with src := some buf :: es, buffered := [], log := log } := fun log =>
    ⟨hb, by simp only [hr], by simp⟩
  unfold readEmpty
  rw [hs, Events.fill_some hne]
  obtain ⟨c, cs, rfl⟩ : ∃ c cs, buf = c :: cs := by
    cases buf with
    | nil => exact absurd rfl hne
    | cons c cs => exact ⟨c, cs, rfl⟩
  simp only
  generalize (c :: cs : Bytes) = b at *
  split
  · rw [Events.consume_all hne]
    exact ⟨hb.suffix, hb, by simp⟩
  · split
    · exact hz _
    · exact hz _
    · rw [Events.consume_all hne]
      exact ⟨hb.suffix, hb.drop_suffix _, by simp⟩
    · rw [Events.consume_all hne]
      exact ⟨hb.suffix, hb.drop_suffix _, by simp⟩
    · rename_i h start stop e
      have hN := readHeader_announced hb.prefix e
      split
      · exact hz _
      · split
        · rw [Events.consume_all hne]
          refine ⟨hb.suffix, hN, ?_⟩
          simp only [List.length_drop]; omega
        · exact (hz _).finish hr ..

theorem hold_ready {N : Nat} {r : Rd} {h : PacketHeader} (hr : r.recent = .empty) {buf : Bytes} {es : Events} (hs : r.src = some buf :: es) (hne : buf ≠ [])
    (hf : Hold N r) (hN : h.size ≤ N) (rules : Rules O.BR (Packet O Q)) : Hold N (readReady rules h r).2 := by
  have hb : Announces N (buf ++ Events.bytes es) := by have := hf.bytes; rwa [hs] at this
  unfold readReady
  rw [hs, Events.fill_some hne]
  simp only
  split
  · rw [Events.consume_all hne]
    refine ⟨hb.suffix, hN, ?_⟩
    simp only [List.length_append]; omega
  · split
    · exact ⟨hb, by simp only [hr], hf.buffered⟩
    · refine Hold.finish (r := { r with src := Events.consume (h.size - r.buffered.length) (some buf :: es)
                                        buffered := r.buffered ++ buf.take (h.size - r.buffered.length) })
        ⟨Announces.consume (es := some buf :: es) hb _, by simp only [hr], ?_⟩ hr rules h _ 0
      simp only [List.length_append, List.length_take]; omega

theorem hold_refill {N : Nat} {r : Rd} {b0 : Bytes} {n : Nat} (hr : r.recent = .empty) {buf : Bytes} {es : Events} (hs : r.src = some buf :: es) (hne : buf ≠ [])
    (hf : Hold N r) (h0 : Announces N (b0 ++ r.src.bytes)) (rules : Rules O.BR (Packet O Q)) (chk : Bool) : Hold N (readRefill rules chk b0 n r).2 := by
  have hb : Announces N (b0 ++ buf ++ Events.bytes es) := by
    have := h0; rw [hs] at this; rw [List.append_assoc]; exact this
  have hb' : Announces N (buf ++ Events.bytes es) := by rw [List.append_assoc] at hb; exact hb.suffix
  have hz : ∀ log, Hold N { r with src := some buf :: es, log := log } := fun log => ⟨hb', by simp only [hr], hf.buffered⟩
  unfold readRefill
  rw [hs, Events.fill_some hne]
  obtain ⟨c, cs, rfl⟩ : ∃ c cs, buf = c :: cs := by
    cases buf with
    | nil => exact absurd rfl hne
    | cons c cs => exact ⟨c, cs, rfl⟩
  simp only
  generalize (c :: cs : Bytes) = b at *
  split
  · rw [Events.consume_all hne]
    exact ⟨hb'.suffix, hb, hf.buffered⟩
  · have hpre : Announces N (b0 ++ b.take n) := by
      have h1 : b0 ++ b = (b0 ++ b.take n) ++ b.drop n := by rw [List.append_assoc, List.take_append_drop]
      have h2 := hb.prefix
      rw [h1] at h2
      exact h2.prefix
    split
    · exact hz _
    · exact hz _
    · rename_i h start stop e
      split
      · exact hz _
      · rename_i src' en
        exact ⟨Announces.diff (es := some b :: es) hb' en, readHeader_announced hpre e, hf.buffered⟩
    · unfold refillAll
      split
      · exact hz _
      · exact hz _
      · rename_i h start stop e
        simp only
        split
        · exact hz _
        · rename_i src' en
          exact ⟨Announces.diff (es := some b :: es) hb' en, readHeader_announced hb.prefix e, hf.buffered⟩
      · simp only [Events.consume_all hne]
        exact ⟨hb'.suffix, hb.drop_suffix _, hf.buffered⟩
      · simp only [Events.consume_all hne]
        exact ⟨hb'.suffix, hb.drop_suffix _, hf.buffered⟩

theorem Hold.read {N : Nat} {r : Rd} (hf : Hold N r) (hs : Sane r) (rules : Rules O.BR (Packet O Q)) (chk : Bool) : Hold N (read rules chk r).2 := by
  have hz : Hold N { r with recent := .empty } := ⟨hf.bytes, trivial, hf.buffered⟩
  rcases fill_cases r.src with ⟨buf, es, he, hne⟩ | ⟨x, es, hfill, hx, ht⟩
  · have hp := hf.pending
    unfold Rd.read
    cases e : r.recent with
    | empty => exact hold_empty e he hne hf rules
    | ready hd =>
      rw [e] at hp
      exact hold_ready (r := { r with recent := .empty }) rfl he hne hz hp rules
    | refill b n =>
      rw [e] at hp
      exact hold_refill (r := { r with recent := .empty }) rfl he hne hz hp rules chk
  · obtain ⟨hby, hmem⟩ := fill_tail_bytes hx hfill
    obtain ⟨a1, _, a2⟩ := after_nothing rules chk hfill hx hs
    have hb : Announces N (Rd.read rules chk r).2.src.bytes := by rw [a1, hby]; exact hf.bytes
    have hp := hf.pending
    refine ⟨hb, ?_, ?_⟩
    · rcases a2 with a2 | ⟨hd, e, a2⟩
      · rw [a2]; trivial
      · rw [a2]
        rw [e] at hp
        exact hp
    · have hbuf := hf.buffered
      unfold Rd.read
      cases e : r.recent with
      | empty =>
        simp only
        unfold readEmpty
        rw [hfill]
        rcases hx with rfl | rfl <;> simp
      | refill b n =>
        simp only
        unfold readRefill
        simp only [hfill]
        rcases hx with rfl | rfl <;> exact hbuf
      | ready hd =>
        rw [e] at hp
        simp only
        unfold readReady
        simp only [hfill]
        rcases hx with rfl | rfl
        · exact hbuf
        · simp only
          split
          · simpa using hbuf
          · split
            · exact hbuf
            · unfold Rd.finish
              simp only
              split
              · simp
              · simp
              · simpa using hbuf

theorem Hold.reads {N : Nat} {r : Rd} (hf : Hold N r) (hs : Sane r) (rules : Rules O.BR (Packet O Q)) (chk : Bool) (n : Nat) :
    Hold N (reads rules chk n r).2 ∧ Sane (reads rules chk n r).2 := by
  induction n generalizing r with
  | zero => exact ⟨hf, hs⟩
  | succ n ih =>
    have h := hf.read hs rules chk
    have h' := hs.read rules chk
    rw [Rd.reads]
    split
    · rename_i e; rw [e] at h h'; exact ⟨h, h'⟩
    · rename_i e; rw [e] at h h'; exact ih h h'

/-- **C64**. Whatever the source delivers, in whatever reads, with errors and ends in between: after any number of calls the reader keeps at most as many bytes as the largest
packet announces whose header stands in the data, or 57 if that is less. In data without headers it never keeps more than 57 bytes, however long the data. -/
theorem C64_memory (rules : Rules O.BR (Packet O Q)) (chk : Bool) (es : Events) (N : Nat) (h : Announces N es.bytes) (n : Nat) :
    kept (reads rules chk n (.new es)).2 ≤ max N 57 := by
  obtain ⟨a, b⟩ := Hold.reads (r := .new es) (N := N) ⟨h, trivial, by simp [Rd.new]⟩ ⟨trivial⟩ rules chk n
  have hb := b.state
  have ha := a.buffered
  unfold kept
  cases e : (Rd.reads rules chk n (.new es)).2.recent with
  | empty => simp only; omega
  | ready hd => simp only; omega
  | refill c m =>
    rw [e] at hb
    obtain ⟨h1, h2, h3⟩ := hb
    simp only [h1, List.length_nil]
    rcases h3 with h3 | h3 <;> omega

/-- The packet in progress is kept whole but for its last byte: at a boundary of reads inside the body the bound is reached up to one byte. -/
theorem C64_reached {h : PacketHeader} (w : h.WF) (hs : h.size < 2 ^ 63) (x : Bytes) (hx : x.length < h.size) (rules : Rules O.BR (Packet O Q)) (chk : Bool) :
    kept (reads rules chk 1 (.new [some (h.bytes ++ x)])).2 = x.length := by
  have hne : h.bytes ++ x ≠ [] := by
    intro e; have := congrArg List.length e; simp [HSIZE] at this
  have hg : getPos (h.bytes ++ x) = some 0 := by
    refine (C12_get_pos_partial _ 0).mpr ⟨⟨?_, by omega⟩, ?_⟩
    · obtain ⟨R, hR⟩ := sig_bytes h
      rw [List.drop_zero, hR, List.append_assoc]; exact List.prefix_append _ _
    · simp [HSIZE]; omega
  have hr : readHeader (h.bytes ++ x) = .ok (.found h 0 29) := by
    rw [readHeader, hg]
    simp only [isNotEnough, List.drop_zero]
    rw [if_pos (by simp), PacketHeader.readSlice_bytes w]
    rfl
  have key : Rd.read rules chk (.new [some (h.bytes ++ x)]) =
      (.ok (.notEnough (h.size - x.length)), ⟨[], .ready h, x, []⟩) := by
    unfold Rd.read Rd.new
    simp only
    unfold readEmpty
    simp only [Events.fill_some hne]
    obtain ⟨c, cs, hb⟩ : ∃ c cs, h.bytes ++ x = c :: cs := by
      cases hx : h.bytes ++ x with
      | nil => exact absurd hx hne
      | cons c cs => exact ⟨c, cs, rfl⟩
    rw [hb]
    simp only
    rw [← hb, hr]
    rw [if_neg (by simp)]
    simp only
    rw [if_neg (by omega), if_pos (by simp [HSIZE]; omega), Events.consume_all hne]
    have : (h.bytes ++ x).drop 29 = x := List.drop_left' (by simp [HSIZE])
    rw [this]
    simp only [ignoreTo, Nat.lt_irrefl, if_false, gt_iff_lt]
    have h29 : h.size + 29 - (h.bytes ++ x).length = h.size - x.length := by simp [HSIZE]; omega
    rw [h29]
  rw [reads_succ (by rw [key]; simp), key]
  rfl

/-- Non-vacuity: data without any header, of any length. -/
example (n m : Nat) (rules : Rules O.BR (Packet O Q)) : kept (reads rules true m (.new [some (List.replicate n 0), none, some (List.replicate n 0)])).2 ≤ 57 := by
  refine C64_memory rules true _ 0 ?_ m
  intro k h e
  exfalso
  have hz : ∀ b ∈ (Events.bytes [some (List.replicate n 0), none, some (List.replicate n 0)]).drop k, b = 0 := by
    intro b hb
    have := List.mem_of_mem_drop hb
    simp [Events.bytes, List.mem_replicate] at this
    exact this.2
  generalize List.drop k _ = x at e hz
  unfold PacketHeader.readSlice at e
  split at e
  · cases e
  · split at e
    · cases e
    · rename_i hs
      rw [List.isPrefixOf_iff_prefix, Decidable.not_not] at hs
      obtain ⟨r, hr⟩ := hs
      have := hz _ (by rw [← hr]; simp only [PACKET_SIG, List.cons_append]; exact List.mem_cons_self)
      revert this
      decide

/-- A header that announces 100 bytes. -/
example (rules : Rules O.BR (Packet O Q)) : kept (reads rules true 1 (.new [some ((PacketHeader.ofSizes 100 none).bytes ++ List.replicate 99 0)])).2 = 99 := by
  have := C64_reached (PacketHeader.ofSizes_wf (bl := 100) (pl := none) (by decide)) (by decide) (List.replicate 99 0) (by decide) rules true
  simpa using this

end Brec.Props
