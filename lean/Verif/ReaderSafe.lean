import Verif.ReaderSane
/-!
# Progress and panics of `PacketBufReader` on arbitrary input
-/

namespace Brec

open Brec.Props

variable {O : BlockOps} {Q : PayloadOps}

namespace Events

/-- Size of a source: its bytes and its reads. -/
def weight : Events → Nat
  | [] => 0
  | none :: es => 1 + weight es
  | some b :: es => b.length + 1 + weight es

theorem weight_consume_le (n : Nat) (es : Events) : weight (es.consume n) ≤ weight es := by
  rcases es with _ | ⟨_ | b, es⟩
  · exact Nat.le_refl _
  · exact Nat.le_refl _
  · simp only [consume]
    split
    · exact Nat.le_refl _
    · split <;> simp only [weight, List.length_drop] <;> omega

theorem weight_consume_lt {n : Nat} (h : 0 < n) {b : Bytes} (hb : b ≠ []) (es : Events) :
    weight (consume n (some b :: es)) < weight (some b :: es) := by
  have := List.length_pos_iff.mpr hb
  simp only [consume]
  rw [if_neg (by omega)]
  split <;> simp only [weight, List.length_drop] <;> omega

theorem bytes_consume_drop (n : Nat) (es : Events) : ∃ k, bytes (es.consume n) = (bytes es).drop k := by
  rcases es with _ | ⟨_ | b, es⟩
  · exact ⟨0, rfl⟩
  · exact ⟨0, rfl⟩
  · simp only [consume]
    split
    · exact ⟨0, rfl⟩
    · split
      · rename_i h
        refine ⟨n, ?_⟩
        simp only [bytes, List.map_cons, List.flatten_cons, Option.getD_some]
        rw [List.drop_append_of_le_length (by omega)]
      · refine ⟨b.length, ?_⟩
        simp [bytes]

end Events

namespace Rd

/-! ## Progress -/

/-- The loop of the documentation stops: `NoData`, an error or a panic. -/
def isEnd : Out (Next (Packet O Q)) → Bool
  | .ok .noData => true
  | .err _ => true
  | .panic => true
  | _ => false

def load (r : Rd) : Nat := 3 * r.src.weight + rank r.recent

/-- Waiting for the body of a packet at the end of the source. -/
def Waits (r : Rd) : Prop := ∃ h, r.src = [] ∧ r.recent = .ready h ∧ r.buffered.length < h.size

theorem parsePayload_ok {rules : Rules O.BR (Packet O Q)} {h : PacketHeader} {pb : Bytes} {rs : List O.BR} {x : Next (Packet O Q)}
    (e : (parsePayload rules h pb rs).1 = .ok x) : (parsePayload rules h pb rs).2 = .dropConsume := by
  unfold parsePayload at e ⊢
  split
  · rfl
  · rename_i h0
    rw [if_neg h0] at e
    simp only at e ⊢
    have fin : ∀ p : Packet O Q, (if rules.filter p = true then ((.ok (.found p), .dropConsume) : Out (Next (Packet O Q)) × Fin)
        else (.ok .skipped, .dropConsume)).2 = .dropConsume := by intro p; split <;> rfl
    split
    · rename_i hp
      rw [if_pos hp] at e
      split
      · rename_i ph _ ht
        rw [ht] at e
        simp only at e
        split
        · rename_i hc; rw [if_pos hc] at e; cases e
        · rename_i hc
          rw [if_neg hc] at e
          split
          · rfl
          · rename_i hf
            rw [if_neg hf] at e
            split
            · exact fin _
            · rfl
            · rename_i hq; rw [hq] at e; cases e
            · rename_i hq; rw [hq] at e; cases e
      · rfl
      · rfl
      · rename_i ht; rw [ht] at e; cases e
    · exact fin _

theorem parse_ok {rules : Rules O.BR (Packet O Q)} {h : PacketHeader} {pb : Bytes} {x : Next (Packet O Q)}
    (e : (parse rules h pb).1 = .ok x) : (parse rules h pb).2 = .dropConsume := by
  unfold parse at e ⊢
  split
  · rename_i hc; rw [if_pos hc] at e; cases e
  · rename_i hc
    rw [if_neg hc] at e
    simp only at e ⊢
    split
    · rename_i rs hr
      rw [hr] at e
      exact parsePayload_ok e
    · rename_i hr; rw [hr] at e; cases e
    · rename_i hr; rw [hr] at e; cases e

/-- A packet of the current buffer is found or skipped only together with its bytes. -/
theorem finish_ok {rules : Rules O.BR (Packet O Q)} {h : PacketHeader} {pb : Bytes} {c : Nat} {r : Rd} {x : Next (Packet O Q)}
    (e : (finish rules h pb c r).1 = .ok x) : (finish rules h pb c r).2.src = r.src.consume c := by
  unfold finish at e ⊢
  have h1 : (parse rules h pb).1 = .ok x := by
    simp only at e
    split at e <;> exact e
  simp only [parse_ok h1]

theorem finish_weight (rules : Rules O.BR (Packet O Q)) (h : PacketHeader) (pb : Bytes) (c : Nat) (r : Rd) :
    (finish rules h pb c r).2.src.weight ≤ r.src.weight := by
  rcases finish_src rules h pb c r with e | e
  · rw [e]; exact Nat.le_refl _
  · rw [e]; exact Events.weight_consume_le _ _

theorem isEnd_false {o : Out (Next (Packet O Q))} (h : isEnd o = false) : ∃ x, o = .ok x := by
  cases o with
  | ok x => exact ⟨x, rfl⟩
  | err e => cases h
  | panic => cases h

theorem rank_le (x : Recent) : rank x ≤ 2 := by cases x <;> simp [rank]

theorem progress_empty (rules : Rules O.BR (Packet O Q)) (r : Rd) (buf : Bytes) (es : Events)
    (hr : r.recent = .empty) (hs : r.src = some buf :: es) (hne : buf ≠ []) :
    isEnd (readEmpty rules r).1 = true ∨ load (readEmpty rules r).2 < load r := by
  have hb := List.length_pos_iff.mpr hne
  have hw : load r = 3 * (buf.length + 1 + es.weight) := by simp [load, hs, hr, rank, Events.weight]
  unfold readEmpty
  rw [hs, Events.fill_some hne]
  obtain ⟨c, cs, rfl⟩ : ∃ c cs, buf = c :: cs := by
    cases buf with
    | nil => exact absurd rfl hne
    | cons c cs => exact ⟨c, cs, rfl⟩
  simp only
  generalize (c :: cs : Bytes) = b at *
  have all : ∀ r' : Rd, r'.src = es → load r' < load r := by
    intro r' e
    have := rank_le r'.recent
    rw [hw, load, e]; omega
  split
  · exact .inr (all _ (Events.consume_all hne ..))
  · split
    · exact .inl rfl
    · exact .inl rfl
    · exact .inr (all _ (Events.consume_all hne ..))
    · exact .inr (all _ (Events.consume_all hne ..))
    · rename_i h start stop e
      have hst := (readHeader_ok e).1
      split
      · exact .inl rfl
      · split
        · exact .inr (all _ (Events.consume_all hne ..))
        · generalize hf : finish rules h (slice b stop h.size) (stop + h.size)
            { src := some b :: es, recent := r.recent, buffered := [], log := ignoreTo rules start b r.log } = f
          cases he : isEnd f.1 with
          | true => exact .inl rfl
          | false =>
            right
            obtain ⟨x, hx⟩ := isEnd_false he
            have h1 : f.2.src = Events.consume (stop + h.size) (some b :: es) := by
              rw [← hf] at hx ⊢; exact finish_ok hx
            have h2 : f.2.recent = .empty := by rw [← hf, finish_recent]; exact hr
            have h3 := Events.weight_consume_lt (n := stop + h.size) (by omega) hne es
            rw [hw, load, h1, h2]
            simp only [Events.weight, rank] at *
            omega

theorem progress_ready (rules : Rules O.BR (Packet O Q)) (r : Rd) (h : PacketHeader) (buf : Bytes) (es : Events)
    (hr : r.recent = .empty) (hs : r.src = some buf :: es) (hne : buf ≠ []) :
    isEnd (readReady rules h r).1 = true ∨ load (readReady rules h r).2 < 3 * r.src.weight + 1 := by
  have hb := List.length_pos_iff.mpr hne
  have hw : r.src.weight = buf.length + 1 + es.weight := by simp [hs, Events.weight]
  unfold readReady
  rw [hs, Events.fill_some hne]
  simp only
  rw [hs] at hw
  split
  · right
    rw [hw, load, Events.consume_all hne]
    simp only [rank]; omega
  · split
    · exact .inl rfl
    · right
      have h1 := finish_weight rules h (r.buffered ++ buf.take (h.size - r.buffered.length)) 0
        { src := Events.consume (h.size - r.buffered.length) (some buf :: es), recent := r.recent
          buffered := r.buffered ++ buf.take (h.size - r.buffered.length), log := r.log }
      have h2 := Events.weight_consume_le (h.size - r.buffered.length) (some buf :: es)
      rw [load, finish_recent]
      simp only [hr, rank] at h1 ⊢
      omega

theorem consumeDiff_weight {chk : Bool} {stop n : Nat} {es src : Events} (h : consumeDiff chk stop n es = some src) :
    src.weight ≤ es.weight := by
  unfold consumeDiff at h
  split at h
  · rw [← Option.some.inj h]; exact Events.weight_consume_le _ _
  · split at h
    · cases h
    · rw [← Option.some.inj h]; exact Events.weight_consume_le _ _

theorem progress_refill (rules : Rules O.BR (Packet O Q)) (chk : Bool) (r : Rd) (b0 : Bytes) (n : Nat) (buf : Bytes) (es : Events)
    (hs : r.src = some buf :: es) (hne : buf ≠ []) :
    isEnd (readRefill rules chk b0 n r).1 = true ∨ load (readRefill rules chk b0 n r).2 < 3 * r.src.weight + 2 := by
  have hb := List.length_pos_iff.mpr hne
  unfold readRefill
  rw [hs, Events.fill_some hne]
  obtain ⟨c, cs, rfl⟩ : ∃ c cs, buf = c :: cs := by
    cases buf with
    | nil => exact absurd rfl hne
    | cons c cs => exact ⟨c, cs, rfl⟩
  simp only
  generalize (c :: cs : Bytes) = b at *
  have all : ∀ r' : Rd, r'.src = es → load r' < 3 * Events.weight (some b :: es) + 2 := by
    intro r' e
    have := rank_le r'.recent
    simp only [load, e, Events.weight]; omega
  have diff : ∀ (r' : Rd) (h : PacketHeader) (stop m : Nat), r'.recent = .ready h → consumeDiff chk stop m (some b :: es) = some r'.src →
      load r' < 3 * Events.weight (some b :: es) + 2 := by
    intro r' h stop m e1 e2
    have := consumeDiff_weight e2
    simp only [load, e1, rank]; omega
  split
  · exact .inr (all _ (Events.consume_all hne ..))
  · split
    · exact .inl rfl
    · exact .inl rfl
    · split
      · exact .inl rfl
      · rename_i src' e
        exact .inr (diff _ _ _ _ rfl e)
    · unfold refillAll
      split
      · exact .inl rfl
      · exact .inl rfl
      · simp only
        split
        · exact .inl rfl
        · rename_i src' e
          exact .inr (diff _ _ _ _ rfl e)
      · exact .inr (all _ (Events.consume_all hne ..))
      · exact .inr (all _ (Events.consume_all hne ..))

/-- Every `read` ends the loop, makes the load smaller, or waits for the rest of a packet at the end of the source. -/
theorem progress (rules : Rules O.BR (Packet O Q)) (chk : Bool) {r : Rd} (hr : Sane r) :
    isEnd (read rules chk r).1 = true ∨ load (read rules chk r).2 < load r ∨ Waits r := by
  rcases fill_cases r.src with ⟨buf, es, hs, hne⟩ | ⟨x, es, hf, hx, ht⟩
  · unfold read
    cases e : r.recent with
    | empty =>
      rcases progress_empty rules r buf es e hs hne with h | h
      · exact .inl h
      · exact .inr (.inl h)
    | ready hd =>
      rcases progress_ready rules { r with recent := .empty } hd buf es rfl hs hne with h | h
      · exact .inl h
      · refine .inr (.inl ?_)
        simp only [load, e, rank] at h ⊢
        exact h
    | refill b n =>
      rcases progress_refill rules chk { r with recent := .empty } b n buf es hs hne with h | h
      · exact .inl h
      · refine .inr (.inl ?_)
        simp only [load, e, rank] at h ⊢
        exact h
  · have hs := hr.state
    have hsrc := after_nothing rules chk hf hx hr
    cases e : r.recent with
    | empty =>
      left
      unfold read; rw [e]; simp only
      unfold readEmpty
      rw [hf]
      rcases hx with rfl | rfl <;> rfl
    | refill b n =>
      left
      unfold read; rw [e]; simp only
      unfold readRefill
      simp only [hf]
      rcases hx with rfl | rfl <;> rfl
    | ready hd =>
      by_cases hw : Waits r
      · exact .inr (.inr hw)
      right; left
      rcases hsrc.2.2 with h1 | ⟨h, h0, h1⟩
      · have h3 : es.weight ≤ r.src.weight := by
          rw [ht]
          rcases r.src with _ | ⟨_ | b, es⟩ <;> simp [Events.weight]
        simp only [load, hsrc.1, h1, e, rank]
        omega
      · by_cases hnil : r.src = []
        · exfalso
          rw [e] at hs
          simp only at hs
          have hlt : ¬ r.buffered.length < hd.size := fun hlt => hw ⟨hd, hnil, e, hlt⟩
          unfold read at h1
          rw [e] at h1
          unfold readReady at h1
          simp only [hf] at h1
          rcases hx with rfl | rfl
          · cases h1
          · simp only [List.length_nil, Nat.add_zero] at h1
            rw [if_neg (by omega), if_neg (by omega), finish_recent] at h1
            cases h1
        · have h3 : es.weight < r.src.weight := by
            rw [ht]
            rcases hq : r.src with _ | ⟨_ | b, es⟩
            · exact absurd hq hnil
            · simp [Events.weight]
            · simp [Events.weight]
          simp only [load, hsrc.1, h1, e, rank]
          omega

/-! ## Panics -/

theorem blocksLoop_np (hO : O.Safe) (buf : Bytes) (left processed : Nat) (acc : List O.BR) (h : processed ≤ buf.length) :
    (blocksLoop O buf left processed acc).1 ≠ .panic := by
  induction left generalizing processed acc with
  | zero => simp [blocksLoop]
  | succ left ih =>
    rw [blocksLoop, if_neg (by omega)]
    have h1 := hO.readSlice_np (buf.drop processed)
    split
    · contradiction
    · simp
    · rename_i x hx
      have h2 := hO.readSlice_size _ _ hx
      rw [List.length_drop] at h2
      split
      · simp
      · split
        · simp
        · exact ih _ _ (by omega)

theorem parsePayload_np (hQ : Q.Safe) (rules : Rules O.BR (Packet O Q)) (h : PacketHeader) (pb : Bytes) (rs : List O.BR)
    (hl : h.blocksLen ≤ pb.length) : (parsePayload rules h pb rs).1 ≠ .panic := by
  unfold parsePayload
  split
  · simp
  · simp only
    have fin : ∀ p : Packet O Q, (if rules.filter p = true then ((.ok (.found p), .dropConsume) : Out (Next (Packet O Q)) × Fin)
        else (.ok .skipped, .dropConsume)).1 ≠ .panic := by intro p; split <;> simp
    split
    · have h1 : (PayloadHeader.tryBuf [pb.drop h.blocksLen]).1 ≠ .panic := PayloadHeader.peek_np _
      split
      · rename_i ph _ ht
        have h2 : PayloadHeader.peek (pb.drop h.blocksLen) = .ok (.success ph) := by
          have := congrArg Prod.fst ht
          simpa [PayloadHeader.tryBuf, Chunks.fill] using this
        obtain ⟨s, h3, _⟩ := PayloadHeader.peek_canon h2
        have h4 := congrArg List.length h3
        rw [List.length_append, PayloadHeader.size_eq, List.length_drop] at h4
        rw [if_neg (by omega)]
        split
        · simp
        · have h5 := hQ.tryBuf_np ph [pb.drop (h.blocksLen + ph.size)]
          split
          · exact fin _
          · simp
          · simp
          · rename_i hq; rw [hq] at h5; exact absurd rfl h5
      · simp
      · simp
      · rename_i ht; rw [ht] at h1; exact absurd rfl h1
    · exact fin _

theorem parse_np (hO : O.Safe) (hQ : Q.Safe) (rules : Rules O.BR (Packet O Q)) (h : PacketHeader) (pb : Bytes)
    (hl : h.blocksLen ≤ pb.length) : (parse rules h pb).1 ≠ .panic := by
  unfold parse
  rw [if_neg (by omega)]
  simp only
  have hb : (if pb.take h.blocksLen = [] then ((.ok [], .dropConsume) : Out (List O.BR) × Fin)
      else blocksLoop O (pb.take h.blocksLen) MAX_BLOCKS 0 []).1 ≠ .panic := by
    split
    · simp
    · exact blocksLoop_np hO _ _ _ _ (by omega)
  split
  · exact parsePayload_np hQ _ _ _ _ hl
  · simp
  · rename_i hx; exact absurd hx hb

theorem finish_np (hO : O.Safe) (hQ : Q.Safe) (rules : Rules O.BR (Packet O Q)) (h : PacketHeader) (pb : Bytes) (c : Nat) (r : Rd)
    (hl : h.blocksLen ≤ pb.length) : (finish rules h pb c r).1 ≠ .panic := by
  have := parse_np hO hQ rules h pb hl
  unfold finish
  simp only
  split <;> exact this

end Rd

theorem slice_append {b s : Bytes} {a n : Nat} (h : a + n ≤ b.length) : slice (b ++ s) a n = slice b a n := by
  unfold slice
  rw [List.drop_append_of_le_length (by omega), List.take_append_of_le_length (by simp; omega)]

theorem PacketHeader.readSlice_append {b : Bytes} {h : PacketHeader} (e : PacketHeader.readSlice b = .ok h) (s : Bytes) :
    PacketHeader.readSlice (b ++ s) = .ok h := by
  unfold PacketHeader.readSlice at e ⊢
  split at e
  · cases e
  · rename_i hl
    simp only [HSIZE] at hl
    split at e
    · cases e
    · rename_i hs
      rw [if_neg (by simp [HSIZE]; omega), if_neg, slice_append (by omega), slice_append (by omega), slice_append (by omega),
        slice_append (by omega)]
      · exact e
      · rw [List.isPrefixOf_iff_prefix, Decidable.not_not] at hs ⊢
        exact hs.trans (List.prefix_append _ _)

namespace Rd

/-- A header whose sizes the reader can handle. -/
def Fits (h : PacketHeader) : Prop := h.blocksLen ≤ h.size ∧ h.size < 2 ^ 63

/-- Every header that can be found in `x` fits. -/
def HeadersOk (x : Bytes) : Prop := ∀ k h, PacketHeader.readSlice (x.drop k) = .ok h → Fits h

theorem HeadersOk.drop {x : Bytes} (h : HeadersOk x) (k : Nat) : HeadersOk (x.drop k) := by
  intro j hd e
  rw [List.drop_drop] at e
  exact h _ hd e

theorem HeadersOk.prefix {x s : Bytes} (h : HeadersOk (x ++ s)) : HeadersOk x := by
  intro k hd e
  by_cases hk : k ≤ x.length
  · refine h k hd ?_
    rw [List.drop_append_of_le_length hk]
    exact PacketHeader.readSlice_append e s
  · rw [List.drop_eq_nil_of_le (by omega)] at e
    cases e

theorem HeadersOk.suffix {x s : Bytes} (h : HeadersOk (x ++ s)) : HeadersOk s := by
  have := h.drop x.length
  rwa [List.drop_left' rfl] at this

theorem HeadersOk.consume {es : Events} (h : HeadersOk es.bytes) (n : Nat) : HeadersOk (es.consume n).bytes := by
  obtain ⟨k, e⟩ := Events.bytes_consume_drop n es
  rw [e]; exact h.drop k

theorem readHeader_fits {b : Bytes} {h : PacketHeader} {start stop : Nat} (hb : HeadersOk b)
    (e : readHeader b = .ok (.found h start stop)) : Fits h := by
  unfold readHeader at e
  split at e
  · cases e
  · rename_i o _
    split at e
    · cases e
    · cases hx : PacketHeader.readSlice (b.drop o) with
      | ok k =>
        rw [hx, Out.map_ok] at e
        have := Out.ok.inj e
        injection this with h1
        subst h1
        exact hb _ _ hx
      | err _ => rw [hx] at e; cases e
      | panic => rw [hx] at e; cases e

/-- What keeps `read` from panicking. -/
structure Fit (r : Rd) : Prop where
  short : ∀ c, some c ∈ r.src → c.length < 2 ^ 63
  bytes : HeadersOk r.src.bytes
  refill : ∀ b n, r.recent = .refill b n → HeadersOk (b ++ r.src.bytes)
  ready : ∀ h, r.recent = .ready h → Fits h

theorem short_consume {es : Events} (h : ∀ c, some c ∈ es → c.length < 2 ^ 63) (n : Nat) :
    ∀ c, some c ∈ es.consume n → c.length < 2 ^ 63 := by
  rcases es with _ | ⟨_ | b, es⟩
  · exact h
  · exact h
  · simp only [Events.consume]
    split
    · exact h
    · split
      · intro c hc
        rcases List.mem_cons.mp hc with e | hc
        · have := h b List.mem_cons_self
          obtain rfl := Option.some.inj e
          rw [List.length_drop]; omega
        · exact h c (List.mem_cons_of_mem _ hc)
      · exact fun c hc => h c (List.mem_cons_of_mem _ hc)

/-- With nothing pending only the source matters. -/
theorem Fit.of_empty {r : Rd} (h1 : ∀ c, some c ∈ r.src → c.length < 2 ^ 63) (h2 : HeadersOk r.src.bytes) (h3 : r.recent = .empty) : Fit r :=
  ⟨h1, h2, fun b n e => (by rw [h3] at e; cases e), fun h e => by rw [h3] at e; cases e⟩

theorem Fit.of_ready {r : Rd} {h : PacketHeader} (h1 : ∀ c, some c ∈ r.src → c.length < 2 ^ 63) (h2 : HeadersOk r.src.bytes)
    (h3 : r.recent = .ready h) (h4 : Fits h) : Fit r :=
  ⟨h1, h2, fun b n e => (by rw [h3] at e; cases e), fun h' e => by rw [h3] at e; injection e with e; rw [← e]; exact h4⟩

theorem Fit.of_refill {r : Rd} {b : Bytes} {n : Nat} (h1 : ∀ c, some c ∈ r.src → c.length < 2 ^ 63) (h2 : HeadersOk (b ++ r.src.bytes))
    (h3 : r.recent = .refill b n) : Fit r :=
  ⟨h1, h2.suffix, fun b' n' e => by rw [h3] at e; injection e with e1 e2; rw [← e1]; exact h2, fun h' e => by rw [h3] at e; cases e⟩

/-- The sources `finish` leaves. -/
theorem finish_fit (rules : Rules O.BR (Packet O Q)) (h : PacketHeader) (pb : Bytes) (c : Nat) {r : Rd} (hr : Fit r) (e : r.recent = .empty) :
    Fit (finish rules h pb c r).2 := by
  rcases finish_src rules h pb c r with h1 | h1
  · exact .of_empty (by rw [h1]; exact hr.short) (by rw [h1]; exact hr.bytes) (by rw [finish_recent]; exact e)
  · exact .of_empty (by rw [h1]; exact short_consume hr.short _) (by rw [h1]; exact hr.bytes.consume _) (by rw [finish_recent]; exact e)

theorem drop_suffix_ok {b : Bytes} {s : Bytes} (h : HeadersOk (b ++ s)) (k : Nat) : HeadersOk (b.drop k ++ s) := by
  by_cases hk : k ≤ b.length
  · have := h.drop k
    rwa [List.drop_append_of_le_length hk] at this
  · rw [List.drop_eq_nil_of_le (by omega)]
    exact h.suffix

theorem fit_empty (hO : O.Safe) (hQ : Q.Safe) (rules : Rules O.BR (Packet O Q)) (r : Rd) (buf : Bytes) (es : Events)
    (hr : r.recent = .empty) (hs : r.src = some buf :: es) (hne : buf ≠ []) (hf : Fit r) :
    (readEmpty rules r).1 ≠ .panic ∧ Fit (readEmpty rules r).2 := by
  have hb : HeadersOk (buf ++ Events.bytes es) := by have := hf.bytes; rwa [hs] at this
  have hsh := hf.short
  rw [hs] at hsh
  have hlt := hsh buf List.mem_cons_self
  have hes : ∀ c, some c ∈ es → c.length < 2 ^ 63 := fun c hc => hsh c (List.mem_cons_of_mem _ hc)
  unfold readEmpty
  rw [hs, Events.fill_some hne]
  obtain ⟨c, cs, rfl⟩ : ∃ c cs, buf = c :: cs := by
    cases buf with
    | nil => exact absurd rfl hne
    | cons c cs => exact ⟨c, cs, rfl⟩
  simp only
  generalize (c :: cs : Bytes) = b at *
  split
  · rw [Events.consume_all hne]
    exact ⟨by simp, .of_refill hes hb rfl⟩
  · have hnp := readHeader_not_panic b
    split
    · exact ⟨by simp, .of_empty hsh hb hr⟩
    · contradiction
    · rw [Events.consume_all hne]
      exact ⟨by simp, .of_refill hes (drop_suffix_ok hb _) rfl⟩
    · rw [Events.consume_all hne]
      exact ⟨by simp, .of_refill hes (drop_suffix_ok hb _) rfl⟩
    · rename_i h start stop e
      have hfit := readHeader_fits hb.prefix e
      have hst := readHeader_ok e
      simp only at hst
      obtain ⟨hf1, hf2⟩ := hfit
      rw [if_neg (by omega)]
      split
      · rw [Events.consume_all hne]
        exact ⟨by simp, .of_ready hes hb.suffix rfl ⟨hf1, hf2⟩⟩
      · refine ⟨finish_np hO hQ _ _ _ _ _ ?_, finish_fit rules _ _ _ (.of_empty hsh hb hr) hr⟩
        simp only [slice, List.length_take, List.length_drop]; omega

theorem fit_ready (hO : O.Safe) (hQ : Q.Safe) (rules : Rules O.BR (Packet O Q)) (r : Rd) (h : PacketHeader) (buf : Bytes) (es : Events)
    (hr : r.recent = .empty) (hs : r.src = some buf :: es) (hne : buf ≠ []) (hf : Fit r) (hfit : Fits h) (hl : r.buffered.length ≤ h.size) :
    (readReady rules h r).1 ≠ .panic ∧ Fit (readReady rules h r).2 := by
  have hb : HeadersOk (buf ++ Events.bytes es) := by have := hf.bytes; rwa [hs] at this
  have hsh := hf.short
  rw [hs] at hsh
  have hes : ∀ c, some c ∈ es → c.length < 2 ^ 63 := fun c hc => hsh c (List.mem_cons_of_mem _ hc)
  unfold readReady
  rw [hs, Events.fill_some hne]
  simp only
  split
  · rw [Events.consume_all hne]
    exact ⟨by simp, .of_ready hes hb.suffix rfl hfit⟩
  · rw [if_neg (by omega)]
    refine ⟨finish_np hO hQ _ _ _ _ _ ?_, finish_fit rules _ _ _ (.of_empty (short_consume hsh _) (HeadersOk.consume (es := some buf :: es) hb _) hr) hr⟩
    have := hfit.1
    simp only [List.length_append, List.length_take]; omega

theorem consumeDiff_fit {chk : Bool} {stop n : Nat} {es src : Events} (h : consumeDiff chk stop n es = some src)
    (h1 : ∀ c, some c ∈ es → c.length < 2 ^ 63) (h2 : HeadersOk es.bytes) :
    (∀ c, some c ∈ src → c.length < 2 ^ 63) ∧ HeadersOk src.bytes := by
  unfold consumeDiff at h
  split at h
  · rw [← Option.some.inj h]; exact ⟨short_consume h1 _, h2.consume _⟩
  · split at h
    · cases h
    · rw [← Option.some.inj h]; exact ⟨short_consume h1 _, h2.consume _⟩

theorem fit_refill (rules : Rules O.BR (Packet O Q)) (chk : Bool) (r : Rd) (b0 : Bytes) (n : Nat) (buf : Bytes) (es : Events)
    (hr : r.recent = .empty) (hs : r.src = some buf :: es) (hne : buf ≠ []) (hf : Fit r) (hb0 : HeadersOk (b0 ++ r.src.bytes))
    (hl : chk = false ∨ b0.length ≤ 29) :
    (readRefill rules chk b0 n r).1 ≠ .panic ∧ Fit (readRefill rules chk b0 n r).2 := by
  have hb : HeadersOk (b0 ++ buf ++ Events.bytes es) := by
    have := hb0; rw [hs] at this; rw [List.append_assoc]; exact this
  have hb' : HeadersOk (buf ++ Events.bytes es) := by rw [List.append_assoc] at hb; exact hb.suffix
  have hsh := hf.short
  rw [hs] at hsh
  have hes : ∀ c, some c ∈ es → c.length < 2 ^ 63 := fun c hc => hsh c (List.mem_cons_of_mem _ hc)
  unfold readRefill
  rw [hs, Events.fill_some hne]
  obtain ⟨c, cs, rfl⟩ : ∃ c cs, buf = c :: cs := by
    cases buf with
    | nil => exact absurd rfl hne
    | cons c cs => exact ⟨c, cs, rfl⟩
  simp only
  generalize (c :: cs : Bytes) = b at *
  have diff : ∀ {stop : Nat}, 29 ≤ stop → consumeDiff chk stop b0.length (some b :: es) ≠ none := by
    intro stop h29 e
    unfold consumeDiff at e
    split at e
    · cases e
    · rcases hl with rfl | hl
      · cases e
      · omega
  split
  · rw [Events.consume_all hne]
    exact ⟨by simp, .of_refill hes hb rfl⟩
  · have hnp := readHeader_not_panic (b0 ++ b.take n)
    have hpre : HeadersOk (b0 ++ b.take n) := by
      have h1 : b0 ++ b = (b0 ++ b.take n) ++ b.drop n := by rw [List.append_assoc, List.take_append_drop]
      have h2 := hb.prefix
      rw [h1] at h2
      exact h2.prefix
    split
    · exact ⟨by simp, .of_empty hsh hb' hr⟩
    · contradiction
    · rename_i h start stop e
      have hst := readHeader_ok e
      simp only at hst
      split
      · rename_i en; exact absurd en (diff (by omega))
      · rename_i src' en
        have h1 := consumeDiff_fit en hsh hb'
        exact ⟨by simp, .of_ready h1.1 h1.2 rfl (readHeader_fits hpre e)⟩
    · unfold refillAll
      have hnp := readHeader_not_panic (b0 ++ b)
      split
      · exact ⟨by simp, .of_empty hsh hb' hr⟩
      · contradiction
      · rename_i h start stop e
        have hst := readHeader_ok e
        simp only at hst ⊢
        split
        · rename_i en; exact absurd en (diff (by omega))
        · rename_i src' en
          have h1 := consumeDiff_fit en hsh hb'
          exact ⟨by simp, .of_ready h1.1 h1.2 rfl (readHeader_fits hb.prefix e)⟩
      · simp only [Events.consume_all hne]
        exact ⟨by simp, .of_refill hes (drop_suffix_ok hb _) rfl⟩
      · simp only [Events.consume_all hne]
        exact ⟨by simp, .of_refill hes (drop_suffix_ok hb _) rfl⟩

theorem fill_tail_bytes {es es' : Events} {x : Option Bytes} (hx : x = none ∨ x = some []) (hf : es.fill = (x, es')) :
    es'.bytes = es.bytes ∧ ∀ e ∈ es', e ∈ es := by
  match es with
  | [] =>
    simp only [Events.fill, Prod.mk.injEq] at hf
    obtain ⟨_, rfl⟩ := hf
    exact ⟨rfl, fun e h => h⟩
  | none :: es =>
    simp only [Events.fill, Prod.mk.injEq] at hf
    obtain ⟨_, rfl⟩ := hf
    exact ⟨by simp [Events.bytes], fun e h => List.mem_cons_of_mem _ h⟩
  | some [] :: es =>
    simp only [Events.fill, Prod.mk.injEq] at hf
    obtain ⟨_, rfl⟩ := hf
    exact ⟨by simp [Events.bytes], fun e h => List.mem_cons_of_mem _ h⟩
  | some (b :: bs) :: es =>
    simp only [Events.fill, Prod.mk.injEq] at hf
    rcases hx with rfl | rfl <;> simp at hf

/-- One `read` from a state that fits. -/
theorem Fit.read (hO : O.Safe) (hQ : Q.Safe) (rules : Rules O.BR (Packet O Q)) (chk : Bool) {r : Rd} (hf : Fit r) (hs : Sane r)
    (hl : chk = false ∨ LongInv r) : (read rules chk r).1 ≠ .panic ∧ Fit (read rules chk r).2 := by
  have hst := hs.state
  rcases fill_cases r.src with ⟨buf, es, he, hne⟩ | ⟨x, es, hfill, hx, ht⟩
  · unfold Rd.read
    cases e : r.recent with
    | empty => exact fit_empty hO hQ rules r buf es e he hne hf
    | ready hd =>
      rw [e] at hst
      exact fit_ready hO hQ rules { r with recent := .empty } hd buf es rfl he hne (.of_empty hf.short hf.bytes rfl) (hf.ready hd e) hst
    | refill b n =>
      refine fit_refill rules chk { r with recent := .empty } b n buf es rfl he hne (.of_empty hf.short hf.bytes rfl) (hf.refill b n e) ?_
      rcases hl with hl | hl
      · exact .inl hl
      · right
        by_cases h29 : b.length ≤ 29
        · exact h29
        · have := (hl.refill b n e).2 (by omega)
          rw [he] at this; cases this
  · obtain ⟨hby, hmem⟩ := fill_tail_bytes hx hfill
    have h1 : ∀ c, some c ∈ es → c.length < 2 ^ 63 := fun c hc => hf.short c (hmem _ hc)
    have h2 : HeadersOk es.bytes := by rw [hby]; exact hf.bytes
    obtain ⟨a1, _, a2⟩ := after_nothing rules chk hfill hx hs
    constructor
    · unfold Rd.read
      cases e : r.recent with
      | empty =>
        simp only
        unfold readEmpty
        rw [hfill]
        rcases hx with rfl | rfl <;> simp
      | refill b n =>
        simp only
        unfold readRefill
        simp only [hfill]
        rcases hx with rfl | rfl <;> simp
      | ready hd =>
        rw [e] at hst
        simp only
        unfold readReady
        simp only [hfill]
        rcases hx with rfl | rfl
        · simp
        · simp only
          split
          · simp
          · split
            · simp
            · refine finish_np hO hQ _ _ _ _ _ ?_
              have := (hf.ready hd e).1
              simp only [List.length_nil, Nat.add_zero] at *
              simp only [List.length_append, List.length_take, List.length_nil]
              omega
    · rcases a2 with a2 | ⟨hd, e, a2⟩
      · exact .of_empty (by rw [a1]; exact h1) (by rw [a1]; exact h2) a2
      · exact .of_ready (by rw [a1]; exact h1) (by rw [a1]; exact h2) a2 (hf.ready hd e)

end Rd

end Brec
