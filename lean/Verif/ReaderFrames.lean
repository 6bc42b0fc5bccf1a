import Verif.ReaderSafe
/-!
# `PacketBufReader` on streams of litter and frames: packet headers with arbitrary bytes behind them
-/

namespace Brec

open Brec.Props Rd

variable {O : BlockOps} {Q : PayloadOps}

/-- A packet header and the bytes in the place of the blocks and the payload. -/
abbrev Frame := PacketHeader × Bytes

namespace Frames

/-- The parts of a frame: the header is a valid one and announces the length of the bytes behind it. -/
structure Shape (p : Frame) (h : PacketHeader) (pb : Bytes) : Prop where
  eq : p = (h, pb)
  wf : h.WF
  fits : h.blocksLen ≤ h.size
  size : h.size = pb.length
  small : h.size < 2 ^ 63

/-- Requirements on a stream element: the header is valid and, when litter precedes it, the body has at least 8 bytes. The content of the body is
arbitrary. -/
structure GoodFrame (x : Bytes × Frame) : Prop where
  free : Free x.1
  shape : ∃ h pb, Shape x.2 h pb
  body : x.1 = [] ∨ 8 ≤ x.2.1.size

/-- The bytes of a frame. -/
def wire (p : Frame) : Bytes := p.1.bytes ++ p.2

theorem wire_eq {p : Frame} {h : PacketHeader} {pb : Bytes} (sh : Shape p h pb) : wire p = h.bytes ++ pb := by
  rw [sh.eq]; rfl

/-- Litter and frames in turn, then litter `t`. -/
def stream : List (Bytes × Frame) → Bytes → Bytes
  | [], t => t
  | (l, p) :: is, t => l ++ (wire p ++ stream is t)

/-- The litter of a stream, in order. -/
def litters (is : List (Bytes × Frame)) (t : Bytes) : Bytes := (is.map Prod.fst).flatten ++ t

/-- What the reader makes of the body. -/
def verdict (rules : Rules O.BR (Packet O Q)) (p : Frame) : Out (Next (Packet O Q)) := (parse rules p.1 p.2).1

/-- Whether the reader leaves a frame behind when it was found whole in the buffer of the source. -/
def Passes (rules : Rules O.BR (Packet O Q)) (p : Frame) : Prop := (parse rules p.1 p.2).2 = .dropConsume

def litOf : List (Bytes × Frame) → Bytes → Bytes
  | [], t => t
  | (l, _) :: _, _ => l

def dropItems (k : Nat) : List (Bytes × Frame) → List (Bytes × Frame)
  | [] => []
  | (l, p) :: is => (l.drop k, p) :: is

def dropTail (k : Nat) : List (Bytes × Frame) → Bytes → Bytes
  | [], t => t.drop k
  | _ :: _, t => t

theorem stream_drop {is : List (Bytes × Frame)} {t : Bytes} {k : Nat} (hk : k ≤ (litOf is t).length) :
    stream (dropItems k is) (dropTail k is t) = (stream is t).drop k := by
  cases is with
  | nil => rfl
  | cons x is =>
    obtain ⟨l, p⟩ := x
    simp only [dropItems, dropTail, stream, litOf] at *
    rw [List.drop_append_of_le_length hk]

theorem stream_take {is : List (Bytes × Frame)} {t : Bytes} {k : Nat} (hk : k ≤ (litOf is t).length) :
    (stream is t).take k = (litOf is t).take k := by
  cases is with
  | nil => rfl
  | cons x is =>
    obtain ⟨l, p⟩ := x
    simp only [litOf, stream] at *
    rw [List.take_append_of_le_length hk]

theorem litters_drop (is : List (Bytes × Frame)) (t : Bytes) (k : Nat) :
    litters is t = (litOf is t).take k ++ litters (dropItems k is) (dropTail k is t) := by
  cases is with
  | nil => simp [litters, litOf, dropItems, dropTail]
  | cons x is =>
    obtain ⟨l, p⟩ := x
    simp only [litters, litOf, dropItems, dropTail, List.map_cons, List.flatten_cons]
    rw [← List.append_assoc, ← List.append_assoc, List.take_append_drop]

theorem snd_dropItems (is : List (Bytes × Frame)) (k : Nat) : (dropItems k is).map Prod.snd = is.map Prod.snd := by
  cases is <;> rfl

theorem GoodFrame.drop {l : Bytes} {p : Frame} (h : GoodFrame (l, p)) (k : Nat) : GoodFrame (l.drop k, p) := by
  refine ⟨h.free.drop k, h.shape, ?_⟩
  rcases h.body with h | h
  · left; simp only at h; simp [h]
  · exact .inr h

theorem good_drop {is : List (Bytes × Frame)} (h : ∀ x ∈ is, GoodFrame x) (k : Nat) :
    ∀ x ∈ dropItems k is, GoodFrame x := by
  cases is with
  | nil => simp [dropItems]
  | cons x is =>
    obtain ⟨l, p⟩ := x
    intro y hy
    rcases List.mem_cons.mp hy with rfl | hy
    · exact (h _ (by simp)).drop k
    · exact h _ (by simp [hy])

theorem noSig_drop {is : List (Bytes × Frame)} {t : Bytes} (h : NoSig t) (k : Nat) : NoSig (dropTail k is t) := by
  cases is with
  | nil => exact h.drop k
  | cons => exact h

/-- What `read_header` says about a prefix of a stream. -/
theorem readHeader_stream {is : List (Bytes × Frame)} {t B : Bytes} (hg : ∀ x ∈ is, GoodFrame x) (ht : NoSig t)
    (hB : B <+: stream is t) :
    (readHeader B = .ok .notFound ∧ getPos B = none ∧ B.length ≤ (litOf is t).length + 8) ∨
    (∃ l p rest h pb, is = (l, p) :: rest ∧ GoodFrame (l, p) ∧ Shape p h pb ∧ l.length + 8 < B.length ∧
      (B.length < l.length + 29 ∧ readHeader B = .ok (.notEnough l.length (l.length + 29 - B.length)) ∨
        l.length + 29 ≤ B.length ∧ readHeader B = .ok (.found h l.length (l.length + 29)))) := by
  cases is with
  | nil =>
    left
    have := getPos_noSig hB ht
    have hl := hB.length_le
    simp only [stream] at hl
    exact ⟨by rw [readHeader, this], this, by simp only [litOf]; omega⟩
  | cons x rest =>
    obtain ⟨l, p⟩ := x
    have g := hg _ List.mem_cons_self
    obtain ⟨h, pb, sh⟩ := g.shape
    obtain ⟨R, hR⟩ := sig_bytes h
    have hX : stream ((l, p) :: rest) t = l ++ (h.bytes ++ (pb ++ stream rest t)) := by
      simp only [stream]; rw [wire_eq sh]; simp
    have hfs := firstSig (X := stream ((l, p) :: rest) t) (R := R ++ (pb ++ stream rest t)) g.free
      (by rw [hX, hR]; simp)
    have hpos := getPos_prefix hB hfs
    by_cases hk : l.length + 8 < B.length
    · right
      refine ⟨l, p, rest, h, pb, rfl, g, sh, hk, ?_⟩
      rw [if_pos hk] at hpos
      by_cases h29 : B.length < l.length + 29
      · left
        refine ⟨h29, ?_⟩
        rw [readHeader, hpos]
        simp only [isNotEnough, HSIZE, List.length_drop]
        rw [if_neg (by omega)]
        simp only
        congr 2; omega
      · right
        refine ⟨by omega, ?_⟩
        have hpre : l ++ h.bytes <+: B :=
          List.prefix_of_prefix_length_le (l₃ := stream ((l, p) :: rest) t)
            ⟨pb ++ stream rest t, by rw [hX]; simp⟩ hB
            (by simp [HSIZE]; omega)
        obtain ⟨r, hr⟩ := hpre
        rw [readHeader, hpos]
        simp only [isNotEnough, HSIZE, List.length_drop]
        rw [if_pos (by omega)]
        simp only
        have : B.drop l.length = h.bytes ++ r := by rw [← hr]; simp
        rw [this, PacketHeader.readSlice_bytes sh.wf]
        rfl
    · left
      rw [if_neg hk] at hpos
      exact ⟨by rw [readHeader, hpos], hpos, by simp only [litOf]; omega⟩


/-- What the state of the reader says about the rest of the stream. -/
structure Inv (r : Rd) (is : List (Bytes × Frame)) (t : Bytes) : Prop where
  plain : r.src.Plain
  good : ∀ x ∈ is, GoodFrame x
  noSig : NoSig t
  state : match r.recent with
    | .empty => r.src.bytes = stream is t
    | .refill b n => b ≠ [] ∧ r.buffered = [] ∧ b ++ r.src.bytes = stream is t ∧ 0 < n ∧
        (b.length + n = 29 ∨ b.length + n = 58 ∧ 29 ≤ b.length ∧ getPos (b.take 29) = none)
    | .ready h => ∃ p rest pb, is = ([], p) :: rest ∧ Shape p h pb ∧
        r.buffered ++ r.src.bytes = pb ++ stream rest t ∧ r.buffered.length ≤ h.size

/-- The state in which `sgmt.end() - buffered` underflows: a whole packet header is already in the refill buffer. -/
def Bad (r : Rd) (is : List (Bytes × Frame)) : Prop :=
  ∃ b n c es l p rest, r.recent = .refill b n ∧ r.src = some c :: es ∧ n ≤ c.length ∧ is = (l, p) :: rest ∧
    l.length + 29 < b.length

/-- What one `read` does on a stream. -/
inductive Step (rules : Rules O.BR (Packet O Q)) (r : Rd) (is : List (Bytes × Frame)) (t : Bytes)
    (o : Out (Next (Packet O Q))) (r' : Rd) : Prop
  | quiet (k : Nat) (q : Quiet o) (hk : k ≤ (litOf is t).length) (inv : Inv r' (dropItems k is) (dropTail k is t))
      (log : LogAdd rules r.log r'.log ((litOf is t).take k)) (lt : meas r' < meas r)
  | packet (l : Bytes) (p : Frame) (rest : List (Bytes × Frame)) (e : is = (l, p) :: rest)
      (res : o = verdict rules p) (inv : Inv r' rest t) (log : LogAdd rules r.log r'.log l) (lt : meas r' < meas r)
  /-- The frame lies whole in the buffer, is not passed, and will be read again. -/
  | stuck (l : Bytes) (p : Frame) (rest : List (Bytes × Frame)) (e : is = (l, p) :: rest) (np : ¬ Passes rules p)
      (res : o = verdict rules p) (src : r'.src = r.src) (recent : r'.recent = .empty) (before : r.recent = .empty)
      (fit : ∃ b es, r.src = some b :: es ∧ 29 + p.1.size ≤ b.length)
  | done (e : is = []) (res : o = .ok .noData) (log : LogAdd rules r.log r'.log t) (src : r'.src = [])
      (recent : r'.recent = .empty)

theorem wire_length {p : Frame} {h : PacketHeader} {pb : Bytes}
    (sh : Shape p h pb) : (wire p).length = 29 + h.size := by
  rw [wire_eq sh, sh.size]; simp [HSIZE]

theorem stream_cons {l : Bytes} {p : Frame} {h : PacketHeader} {pb : Bytes}
    (sh : Shape p h pb) (rest : List (Bytes × Frame)) (t : Bytes) :
    stream ((l, p) :: rest) t = l ++ (h.bytes ++ (pb ++ stream rest t)) := by
  simp only [stream]; rw [wire_eq sh]; simp

theorem stream_after {l : Bytes} {p : Frame} {h : PacketHeader} {pb : Bytes}
    (sh : Shape p h pb) (rest : List (Bytes × Frame)) (t : Bytes) :
    (stream ((l, p) :: rest) t).drop (l.length + 29) = pb ++ stream rest t := by
  rw [stream_cons sh, ← List.drop_drop, List.drop_left' rfl, List.drop_left' (by simp [HSIZE])]

theorem finish_pass {rules : Rules O.BR (Packet O Q)} {p : Frame} {h : PacketHeader} {pb : Bytes} (sh : Shape p h pb) (hp : Passes rules p) (c : Nat) (r : Rd) :
    finish rules h pb c r = (verdict rules p, { r with buffered := [], src := r.src.consume c }) := by
  rw [sh.eq] at hp ⊢
  unfold Passes at hp
  unfold finish verdict
  simp only at hp ⊢
  rw [hp]

theorem finish_stay {rules : Rules O.BR (Packet O Q)} {p : Frame} {h : PacketHeader} {pb : Bytes} (sh : Shape p h pb) (hp : ¬ Passes rules p) (c : Nat) (r : Rd) :
    ∃ bu, finish rules h pb c r = (verdict rules p, { r with buffered := bu }) := by
  rw [sh.eq] at hp ⊢
  unfold Passes at hp
  unfold finish verdict
  simp only at hp ⊢
  match e : (parse rules h pb).2 with
  | .dropConsume => exact absurd e hp
  | .clear => exact ⟨[], rfl⟩
  | .leave => exact ⟨r.buffered, rfl⟩

theorem consume_zero (es : Events) : es.consume 0 = es := by rcases es with _ | ⟨_ | _, _⟩ <;> rfl

/-- Once the header and part of the body are taken from the source, the frame is passed in any case. -/
theorem finish_zero {rules : Rules O.BR (Packet O Q)} {p : Frame} {h : PacketHeader} {pb : Bytes} (sh : Shape p h pb) (r : Rd) :
    ∃ bu, finish rules h pb 0 r = (verdict rules p, { r with buffered := bu }) := by
  by_cases hp : Passes rules p
  · exact ⟨[], by rw [finish_pass sh hp, consume_zero]⟩
  · exact finish_stay sh hp 0 r

/-! ## `Ready` -/

theorem step_ready {rules : Rules O.BR (Packet O Q)} {chk : Bool} {r : Rd} {is : List (Bytes × Frame)} {t : Bytes}
    {h : PacketHeader} (hr : r.recent = .ready h) (inv : Inv r is t) :
    Step rules r is t (read rules chk r).1 (read rules chk r).2 := by
  obtain ⟨pl, hg, ht, st⟩ := inv
  rw [hr] at st
  obtain ⟨p, rest, pb, rfl, sh, hb, hle⟩ := st
  have g := hg _ List.mem_cons_self
  have hbl := congrArg List.length hb
  simp only [List.length_append] at hbl
  have hsz := sh.size
  have hgr : ∀ x ∈ rest, GoodFrame x := fun x hx => hg x (List.mem_cons_of_mem _ hx)
  -- the packet is complete with `buf.take rest`
  have full : ∀ buf tail : Bytes, r.buffered ++ (buf ++ tail) = pb ++ stream rest t →
      h.size ≤ r.buffered.length + buf.length →
      r.buffered ++ buf.take (h.size - r.buffered.length) = pb ∧
        buf.drop (h.size - r.buffered.length) ++ tail = stream rest t := by
    intro buf tail e hl
    have e' : (r.buffered ++ buf.take (h.size - r.buffered.length)) ++ (buf.drop (h.size - r.buffered.length) ++ tail) =
        pb ++ stream rest t := by
      rw [← e, List.append_assoc]
      congr 1
      rw [← List.append_assoc, List.take_append_drop]
    exact List.append_inj e' (by simp; omega)
  unfold Rd.read
  rw [hr]
  simp only
  unfold readReady
  rcases pl.cases with hs | ⟨b, es, hs, hne, hlt, pl'⟩
  · -- end of the source
    simp only [hs, Events.fill]
    rw [hs] at hbl hb
    simp only [Events.bytes_nil, List.length_nil, List.append_nil] at hbl hb
    obtain ⟨f1, f2⟩ := full [] [] (by simpa using hb) (by simp; omega)
    rw [if_neg (by simp; omega), if_neg (by omega), f1]
    obtain ⟨bu, hf⟩ := finish_zero (rules := rules) sh
      ({ r with src := Events.consume (h.size - r.buffered.length) [], recent := .empty, buffered := pb } : Rd)
    rw [hf]
    refine .packet [] p rest rfl rfl ⟨?_, hgr, ht, ?_⟩ (.refl ..) ?_
    · simp [Events.consume, Events.Plain]
    · simpa [Events.consume] using f2
    · simp [meas, rank, hr, Events.consume]
  · simp only [hs, Events.fill_some hne]
    rw [hs] at hbl hb
    simp only [Events.bytes_cons, List.length_append] at hbl hb
    have hlen : r.src.bytes.length = b.length + (Events.bytes es).length := by rw [hs]; simp
    have hpos := List.length_pos_iff.mpr hne
    by_cases hlong : h.size > r.buffered.length + b.length
    · rw [if_pos hlong, Events.consume_all hne]
      refine .quiet 0 (.inl ⟨_, rfl⟩) (by simp) ⟨pl', ?_, ht, ?_⟩ (by simpa using LogAdd.refl ..) ?_
      · exact good_drop hg 0
      · simp only [dropItems, dropTail]
        refine ⟨p, rest, pb, rfl, sh, ?_, ?_⟩
        · rw [List.append_assoc]; exact hb
        · simp; omega
      · simp only [meas, rank, hr, hlen]; omega
    · obtain ⟨f1, f2⟩ := full b (Events.bytes es) hb (by omega)
      rw [if_neg hlong, if_neg (by omega), f1]
      obtain ⟨bu, hf⟩ := finish_zero (rules := rules) sh
        ({ r with src := Events.consume (h.size - r.buffered.length) (some b :: es), recent := .empty, buffered := pb } : Rd)
      rw [hf]
      refine .packet [] p rest rfl rfl ⟨?_, hgr, ht, ?_⟩ (.refl ..) ?_
      · exact Events.plain_consume (hs ▸ pl) _
      · simp only
        rw [Events.bytes_consume (by omega)]
        exact f2
      · have h2 := Events.length_bytes_consume_le (hs ▸ pl) (h.size - r.buffered.length)
        rw [hs] at hlen
        simp only [meas, rank, hr, hs] at *
        omega

/-! ## `Empty` -/

theorem stream_nil {is : List (Bytes × Frame)} {t : Bytes} (hg : ∀ x ∈ is, GoodFrame x) (h : stream is t = []) :
    is = [] ∧ t = [] := by
  cases is with
  | nil => exact ⟨rfl, h⟩
  | cons x rest =>
    obtain ⟨l, p⟩ := x
    have g := hg _ List.mem_cons_self
    obtain ⟨h', pb, sh⟩ := g.shape
    have := congrArg List.length h
    simp only [stream, List.length_append, wire_length sh, List.length_nil] at this
    omega

/-- The 29 bytes kept when nothing was found. -/
theorem keep_getPos {is : List (Bytes × Frame)} {t B : Bytes} (hg : ∀ x ∈ is, GoodFrame x) (ht : NoSig t)
    (hB : B <+: stream is t) (hl : B.length ≤ (litOf is t).length + 8) (h29 : 29 ≤ B.length) :
    getPos ((B.drop (B.length - 29)).take 29) = none := by
  have hk : B.length - 29 ≤ (litOf is t).length := by omega
  have hB' : B.drop (B.length - 29) <+: stream (dropItems (B.length - 29) is) (dropTail (B.length - 29) is t) := by
    rw [stream_drop hk]
    obtain ⟨r, hr⟩ := hB
    rw [← hr, List.drop_append_of_le_length (by omega)]
    exact List.prefix_append _ _
  rw [List.take_of_length_le (by simp; omega)]
  rcases readHeader_stream (good_drop hg _) (noSig_drop ht _) hB' with ⟨_, e, _⟩ | ⟨l, p, rest, h, pb, e, _, _, hlt, _⟩
  · exact e
  · exfalso
    cases is with
    | nil => simp [dropItems] at e
    | cons x is =>
      obtain ⟨l0, p0⟩ := x
      simp only [dropItems, List.cons.injEq, Prod.mk.injEq] at e
      obtain ⟨⟨rfl, _⟩, _⟩ := e
      simp only [litOf, List.length_drop] at *
      omega

theorem step_empty {rules : Rules O.BR (Packet O Q)} {chk : Bool} {r : Rd} {is : List (Bytes × Frame)} {t : Bytes}
    (hr : r.recent = .empty) (inv : Inv r is t) :
    Step rules r is t (read rules chk r).1 (read rules chk r).2 := by
  obtain ⟨pl, hg, ht, st⟩ := inv
  rw [hr] at st
  simp only at st
  unfold Rd.read
  rw [hr]
  simp only
  unfold readEmpty
  rcases pl.cases with hs | ⟨b, es, hs, hne, hlt, pl'⟩
  · simp only [hs, Events.fill]
    rw [hs] at st
    obtain ⟨rfl, rfl⟩ := stream_nil hg st.symm
    exact .done rfl rfl (.refl ..) rfl hr
  · simp only [hs, Events.fill_some hne]
    have hpos := List.length_pos_iff.mpr hne
    have hlen : r.src.bytes.length = b.length + (Events.bytes es).length := by rw [hs]; simp
    rw [hs, Events.bytes_cons] at st
    have hB : b <+: stream is t := ⟨_, st⟩
    obtain ⟨c, cs, rfl⟩ : ∃ c cs, b = c :: cs := by
      cases b with
      | nil => exact absurd rfl hne
      | cons c cs => exact ⟨c, cs, rfl⟩
    simp only
    generalize hbe : (c :: cs : Bytes) = b at *
    by_cases h29 : b.length < HSIZE
    · rw [if_pos h29, Events.consume_all hne]
      simp only [HSIZE] at h29
      refine .quiet 0 (.inl ⟨_, rfl⟩) (by simp) ⟨pl', good_drop hg 0, noSig_drop ht 0, ?_⟩ (by simpa using LogAdd.refl ..) ?_
      · simp only
        rw [stream_drop (by simp)]
        refine ⟨hne, trivial, by simpa using st, by simp only [HSIZE]; omega, .inl (by simp only [HSIZE]; omega)⟩
      · simp only [meas, rank, hr, hlen]; omega
    · rw [if_neg h29]
      simp only [HSIZE] at h29
      rcases readHeader_stream hg ht hB with ⟨e, _, hl⟩ | ⟨l, p, rest, h, pb, rfl, g, sh, hlb, hh⟩
      · rw [e]
        simp only [Events.consume_all hne]
        have hk : b.length - 29 ≤ (litOf is t).length := by omega
        refine .quiet (b.length - 29) (.inr rfl) hk ⟨pl', good_drop hg _, noSig_drop ht _, ?_⟩ ?_ ?_
        · simp only
          rw [stream_drop hk, ← st]
          refine ⟨by intro e; have := congrArg List.length e; simp only [HSIZE, List.length_drop, List.length_nil] at *; omega, trivial, by rw [List.drop_append_of_le_length (by omega)]; rfl, by simp [HSIZE], .inr ⟨?_, ?_, ?_⟩⟩
          · simp only [HSIZE, List.length_drop]; omega
          · simp only [HSIZE, List.length_drop]; omega
          · exact keep_getPos hg ht hB hl (by omega)
        · rw [← stream_take hk, ← take_prefix hB (by omega)]
          exact .ignoreTo _ _ (by simp only [HSIZE]; omega)
        · simp only [meas, rank, hr, hlen]; omega
      · have hdi : dropItems l.length ((l, p) :: rest) = ([], p) :: rest := by simp [dropItems]
        have hdt : dropTail l.length ((l, p) :: rest) t = t := rfl
        have hlit : litOf ((l, p) :: rest) t = l := rfl
        have hlog : LogAdd rules r.log (ignoreTo rules l.length b r.log) l := by
          have h1 := LogAdd.ignoreTo rules r.log (n := l.length) (buf := b) (by omega)
          rw [take_prefix hB (by omega), stream_take (by simp [hlit]), hlit] at h1
          simpa using h1
        rcases hh with ⟨hlt', e⟩ | ⟨hle, e⟩
        · rw [e]
          simp only [Events.consume_all hne]
          refine .quiet l.length (.inl ⟨_, rfl⟩) (by simp [hlit]) ⟨pl', good_drop hg _, noSig_drop ht _, ?_⟩
            (by simpa [hlit] using hlog) ?_
          · simp only
            rw [stream_drop (by simp [hlit]), ← st]
            refine ⟨by intro e; have := congrArg List.length e; simp only [List.length_drop, List.length_nil] at *; omega, trivial, by rw [List.drop_append_of_le_length (by omega)], by omega, .inl ?_⟩
            simp only [List.length_drop]; omega
          · simp only [meas, rank, hr, hlen]; omega
        · rw [e]
          simp only
          have hsm := sh.small
          rw [if_neg (by omega)]
          have haft : b.drop (l.length + 29) ++ Events.bytes es = pb ++ stream rest t := by
            rw [← stream_after sh, ← st, List.drop_append_of_le_length hle]
          by_cases hav : h.size + (l.length + 29) > b.length
          · rw [if_pos hav, Events.consume_all hne]
            refine .quiet l.length (.inl ⟨_, rfl⟩) (by simp [hlit]) ⟨pl', good_drop hg _, noSig_drop ht _, ?_⟩
              (by simpa [hlit] using hlog) ?_
            · simp only [hdi, hdt]
              refine ⟨p, rest, pb, rfl, sh, haft, ?_⟩
              simp only [List.length_drop]; omega
            · simp only [meas, rank, hr, hlen]; omega
          · rw [if_neg hav]
            have hsl : slice b (l.length + 29) h.size = pb := by
              have h1 := congrArg (List.take h.size) haft
              rw [List.take_append_of_le_length (by simp; omega), List.take_left' sh.size.symm] at h1
              exact h1
            rw [hsl]
            by_cases hp : Passes rules p
            case neg =>
              obtain ⟨bu, hf⟩ := finish_stay sh hp (l.length + 29 + h.size)
                ({ r with src := some b :: es, buffered := [], log := ignoreTo rules l.length b r.log } : Rd)
              rw [hf]
              have h1 : p.1 = h := congrArg Prod.fst sh.eq
              exact .stuck l p rest rfl hp rfl hs.symm hr hr ⟨b, es, hs, by rw [h1]; omega⟩
            rw [finish_pass sh hp]
            have hrest : b.drop (l.length + 29 + h.size) ++ Events.bytes es = stream rest t := by
              have h1 := congrArg (List.drop h.size) haft
              rw [List.drop_append_of_le_length (by simp; omega), List.drop_drop, List.drop_left' sh.size.symm] at h1
              exact h1
            have hbc := Events.bytes_consume (b := b) (n := l.length + 29 + h.size) (by omega) es
            refine .packet l p rest rfl rfl ⟨Events.plain_consume (hs ▸ pl) _, fun x hx => hg x (List.mem_cons_of_mem _ hx), ht, ?_⟩
              hlog ?_
            · simp only [hr]
              rw [hbc]
              exact hrest
            · simp only [meas, rank, hr, hlen]
              rw [hbc]
              simp only [List.length_append, List.length_drop]
              omega

/-! ## `Refill` -/

theorem step_refill {rules : Rules O.BR (Packet O Q)} {chk : Bool} {r : Rd} {is : List (Bytes × Frame)} {t : Bytes}
    {b0 : Bytes} {n : Nat} (hr : r.recent = .refill b0 n) (inv : Inv r is t) (hbad : ¬ Bad r is) :
    Step rules r is t (read rules chk r).1 (read rules chk r).2 := by
  obtain ⟨pl, hg, ht, st⟩ := inv
  rw [hr] at st
  simp only at st
  obtain ⟨hb0, hbuf, st, hn, hlens⟩ := st
  unfold Rd.read
  rw [hr]
  simp only
  unfold readRefill
  rcases pl.cases with hs | ⟨b, es, hs, hne, hlt, pl'⟩
  · simp only [hs, Events.fill]
    rw [hs, Events.bytes_nil, List.append_nil] at st
    have his : is = [] := by
      cases is with
      | nil => rfl
      | cons x rest =>
        exfalso
        obtain ⟨l, p⟩ := x
        have g := hg _ List.mem_cons_self
        obtain ⟨h, pb, sh⟩ := g.shape
        have hl := congrArg List.length st
        simp only [stream, List.length_append, wire_length sh] at hl
        rcases hlens with h1 | ⟨h1, h2, h3⟩
        · omega
        · obtain ⟨R, hR⟩ := sig_bytes h
          have hfs := firstSig (X := b0) (R := R ++ (pb ++ stream rest t)) g.free
            (by rw [st, stream_cons sh, hR]; simp)
          have hgp := getPos_prefix (B := b0.take 29) (List.take_prefix _ _) hfs
          rw [h3] at hgp
          have hnl : ¬ (l.length + 8 < (b0.take 29).length) := by
            intro hc; rw [if_pos hc] at hgp; cases hgp
          simp only [List.length_take] at hnl
          rcases g.body with hb | hb
          · simp only at hb; rw [hb] at hnl; simp at hnl; omega
          · have h1 : p.1 = h := congrArg Prod.fst sh.eq
            simp only [h1] at hb
            omega
    subst his
    simp only [stream] at st
    subst st
    exact .done rfl rfl ⟨[b0], by simp, by simpa using hb0, by simp⟩ rfl rfl
  · simp only [hs, Events.fill_some hne]
    have hpos := List.length_pos_iff.mpr hne
    have hlen : r.src.bytes.length = b.length + (Events.bytes es).length := by rw [hs]; simp
    rw [hs, Events.bytes_cons] at st
    obtain ⟨c, cs, rfl⟩ : ∃ c cs, b = c :: cs := by
      cases b with
      | nil => exact absurd rfl hne
      | cons c cs => exact ⟨c, cs, rfl⟩
    simp only
    generalize hbe : (c :: cs : Bytes) = b at *
    by_cases hshort : b.length < n
    · rw [if_pos hshort, Events.consume_all hne]
      refine .quiet 0 (.inl ⟨_, rfl⟩) (by simp) ⟨pl', good_drop hg 0, noSig_drop ht 0, ?_⟩ (by simpa using LogAdd.refl ..) ?_
      · simp only
        rw [stream_drop (by simp)]
        refine ⟨by simp [hb0], hbuf, by simpa using st, by omega, ?_⟩
        rcases hlens with h1 | ⟨h1, h2, h3⟩
        · left; simp; omega
        · right
          refine ⟨by simp; omega, by simp; omega, ?_⟩
          rw [List.take_append_of_le_length h2]; exact h3
      · simp only [meas, rank, hr, hlen]; omega
    · rw [if_neg hshort]
      have hB2 : b0 ++ b <+: stream is t := ⟨_, by rw [List.append_assoc]; exact st⟩
      have hB1 : b0 ++ b.take n <+: stream is t :=
        List.IsPrefix.trans ⟨b.drop n, by rw [List.append_assoc, List.take_append_drop]⟩ hB2
      have hl1 : (b0 ++ b.take n).length = b0.length + n := by simp; omega
      have hl2 : (b0 ++ b).length = b0.length + b.length := by simp
      -- what both successful attempts do
      have found : ∀ (l : Bytes) (p : Frame) (rest : List (Bytes × Frame)) (h : PacketHeader) (pb B : Bytes),
          is = (l, p) :: rest → GoodFrame (l, p) → Shape p h pb → B <+: stream is t → l.length + 29 ≤ B.length →
          l.length + 29 ≤ b0.length + b.length → b0.length ≤ l.length + 29 →
          Step rules r is t (.ok (.notEnough 0))
            { r with log := ignoreTo rules l.length B r.log
                     src := Events.consume (l.length + 29 - b0.length) (some b :: es), recent := .ready h } := by
        rintro l p rest h pb B rfl g sh hB hle hle2 hge
        have hlit : litOf ((l, p) :: rest) t = l := rfl
        have hlog : LogAdd rules r.log (ignoreTo rules l.length B r.log) l := by
          have h1 := LogAdd.ignoreTo rules r.log (n := l.length) (buf := B) (by omega)
          rw [take_prefix hB (by omega), stream_take (by simp [hlit]), hlit] at h1
          simpa using h1
        have hbc := Events.bytes_consume (b := b) (n := l.length + 29 - b0.length) (by omega) es
        refine .quiet l.length (.inl ⟨_, rfl⟩) (by simp [hlit])
          ⟨Events.plain_consume (hs ▸ pl) _, good_drop hg _, noSig_drop ht _, ?_⟩ (by simpa [hlit] using hlog) ?_
        · simp only [dropItems, dropTail]
          refine ⟨p, rest, pb, by simp, sh, ?_, by rw [hbuf]; simp⟩
          rw [hbuf, hbc, List.nil_append, ← stream_after sh, ← st,
            List.drop_append, List.drop_of_length_le hge, List.nil_append, List.drop_append_of_le_length (by omega)]
        · simp only [meas, rank, hr, hlen, hbc, List.length_append, List.length_drop]; omega
      have second : (∀ l p rest, is = (l, p) :: rest → b0.length ≤ l.length + 29) →
          Step rules r is t (refillAll rules chk (b0 ++ b) b0.length b.length { r with src := some b :: es, recent := .empty }).1
            (refillAll rules chk (b0 ++ b) b0.length b.length { r with src := some b :: es, recent := .empty }).2 := by
        intro hge
        unfold refillAll
        rcases readHeader_stream hg ht hB2 with ⟨e, _, hl⟩ | ⟨l, p, rest, h, pb, hie, g, sh, hlb, hh⟩
        · rw [e]
          simp only [Events.consume_all hne]
          have h29 : 29 ≤ (b0 ++ b).length := by rcases hlens with h1 | ⟨h1, h2, h3⟩ <;> omega
          have hk : (b0 ++ b).length - 29 ≤ (litOf is t).length := by omega
          refine .quiet ((b0 ++ b).length - 29) (.inr rfl) hk ⟨pl', good_drop hg _, noSig_drop ht _, ?_⟩ ?_ ?_
          · simp only
            rw [stream_drop hk, ← st, ← List.append_assoc]
            refine ⟨by intro e; have := congrArg List.length e; simp only [HSIZE, List.length_drop, List.length_append, List.length_nil] at *; omega, hbuf, by rw [List.drop_append_of_le_length (l₁ := b0 ++ b) (by omega)]; rfl, by simp [HSIZE], .inr ⟨?_, ?_, ?_⟩⟩
            · simp only [HSIZE, List.length_drop]; omega
            · simp only [HSIZE, List.length_drop]; omega
            · exact keep_getPos hg ht hB2 hl h29
          · rw [← stream_take hk, ← take_prefix hB2 (by omega)]
            exact .ignoreTo _ _ (by simp only [HSIZE]; omega)
          · simp only [meas, rank, hr, hlen]; omega
        · subst hie
          have hlit : litOf ((l, p) :: rest) t = l := rfl
          rcases hh with ⟨hlt', e⟩ | ⟨hle, e⟩
          · rw [e]
            simp only [Events.consume_all hne]
            refine .quiet l.length (.inl ⟨_, rfl⟩) (by simp [hlit]) ⟨pl', good_drop hg _, noSig_drop ht _, ?_⟩ ?_ ?_
            · simp only
              rw [stream_drop (by simp [hlit]), ← st, ← List.append_assoc]
              refine ⟨by intro e; have := congrArg List.length e; simp only [List.length_drop, List.length_append, List.length_nil] at *; omega, hbuf, by rw [List.drop_append_of_le_length (l₁ := b0 ++ b) (by omega)], by omega, .inl ?_⟩
              simp only [List.length_drop]; omega
            · have h1 := LogAdd.ignoreTo rules r.log (n := l.length) (buf := b0 ++ b) (by omega)
              rw [take_prefix hB2 (by omega), stream_take (by simp [hlit]), hlit] at h1
              simpa [hlit] using h1
            · simp only [meas, rank, hr, hlen]; omega
          · rw [e]
            simp only [consumeDiff]
            rw [if_pos (hge l p rest rfl)]
            exact found l p rest h pb _ rfl g sh hB2 hle (by omega) (hge l p rest rfl)
      have hge : ∀ l p rest, is = (l, p) :: rest → b0.length ≤ l.length + 29 := by
        intro l p rest e
        by_cases hc : b0.length ≤ l.length + 29
        · exact hc
        · exact absurd ⟨b0, n, b, es, l, p, rest, hr, hs, by omega, e, by omega⟩ hbad
      rcases readHeader_stream hg ht hB1 with ⟨e, _, hl⟩ | ⟨l, p, rest, h, pb, hie, g, sh, hlb, hh⟩
      · rw [e]
        exact second hge
      · rcases hh with ⟨hlt', e⟩ | ⟨hle, e⟩
        · rw [e]
          exact second hge
        · rw [e]
          simp only [consumeDiff]
          rw [if_pos (hge l p rest hie)]
          exact found l p rest h pb _ hie g sh hB1 hle (by omega) (hge l p rest hie)

theorem step {rules : Rules O.BR (Packet O Q)} {chk : Bool} {r : Rd} {is : List (Bytes × Frame)} {t : Bytes}
    (inv : Inv r is t) (hbad : ¬ Bad r is) : Step rules r is t (read rules chk r).1 (read rules chk r).2 := by
  cases hr : r.recent with
  | ready h => exact step_ready hr inv
  | refill b n => exact step_refill hr inv hbad
  | empty => exact step_empty hr inv


/-! ## Whole runs -/

theorem verdict_np (hO : O.Safe) (hQ : Q.Safe) {rules : Rules O.BR (Packet O Q)} {p : Frame} {h : PacketHeader} {pb : Bytes} (sh : Shape p h pb) :
    verdict rules p ≠ .panic := by
  rw [sh.eq]
  exact parse_np hO hQ rules h pb (by rw [← sh.size]; exact sh.fits)

theorem parsePayload_loud (rules : Rules O.BR (Packet O Q)) (h : PacketHeader) (pb : Bytes) (rs : List O.BR) :
    isQuiet (parsePayload rules h pb rs).1 = false := by
  unfold parsePayload
  split
  · rfl
  · simp only
    split
    · split
      · split
        · rfl
        · split
          · rfl
          · split
            · split <;> rfl
            · rfl
            · rfl
            · rfl
      · rfl
      · rfl
      · rfl
    · split <;> rfl

theorem verdict_loud (rules : Rules O.BR (Packet O Q)) (p : Frame) : isQuiet (verdict rules p) = false := by
  unfold verdict parse
  split
  · rfl
  · simp only
    split
    · exact parsePayload_loud ..
    · rfl
    · rfl

/-- With nothing buffered, what `read` gives depends on the source alone. -/
theorem read_same {rules : Rules O.BR (Packet O Q)} {chk : Bool} {r r' : Rd} (h : r.recent = .empty) (h' : r'.recent = .empty) (e : r'.src = r.src) :
    (read rules chk r').1 = (read rules chk r).1 ∧ (read rules chk r').2.src = (read rules chk r).2.src ∧
      (read rules chk r').2.recent = (read rules chk r).2.recent := by
  obtain ⟨src, rec, bu, log⟩ := r
  obtain ⟨src', rec', bu', log'⟩ := r'
  simp only at h h' e
  subst h h' e
  unfold Rd.read
  simp only
  unfold readEmpty
  simp only
  split
  · exact ⟨rfl, rfl, rfl⟩
  · exact ⟨rfl, rfl, rfl⟩
  · split
    · exact ⟨rfl, rfl, rfl⟩
    · split
      · exact ⟨rfl, rfl, rfl⟩
      · exact ⟨rfl, rfl, rfl⟩
      · exact ⟨rfl, rfl, rfl⟩
      · exact ⟨rfl, rfl, rfl⟩
      · split
        · exact ⟨rfl, rfl, rfl⟩
        · split
          · exact ⟨rfl, rfl, rfl⟩
          · unfold finish
            simp only
            split <;> exact ⟨rfl, rfl, rfl⟩

/-- A `read` that leaves the source as it was is repeated forever. -/
theorem forever {rules : Rules O.BR (Packet O Q)} {chk : Bool} {r : Rd} (h : r.recent = .empty) (h1 : (read rules chk r).2.src = r.src)
    (h2 : (read rules chk r).2.recent = .empty) (hnp : (read rules chk r).1 ≠ .panic) (r' : Rd) (h' : r'.recent = .empty) (e : r'.src = r.src) (m : Nat) :
    (reads rules chk m r').1 = List.replicate m (read rules chk r).1 := by
  induction m generalizing r' with
  | zero => rfl
  | succ m ih =>
    obtain ⟨a, b, c⟩ := read_same (rules := rules) (chk := chk) h h' e
    rw [reads_succ (by rw [a]; exact hnp), a, List.replicate_succ]
    simp only
    rw [ih _ (c.trans h2) (b.trans h1)]

/-- All frames were seen and all litter reported. -/
def Ends (rules : Rules O.BR (Packet O Q)) (chk : Bool) (r : Rd) (is : List (Bytes × Frame)) (t : Bytes) : Prop :=
  ∃ n, loud (reads rules chk n r).1 = is.map (fun x => verdict rules x.2) ++ [.ok .noData] ∧
    LogAdd rules r.log (reads rules chk n r).2.log (litters is t) ∧ (reads rules chk n r).2.src = [] ∧ (reads rules chk n r).2.recent = .empty

/-- At a frame that is not passed the reader stops for good. -/
def Stops (rules : Rules O.BR (Packet O Q)) (chk : Bool) (r : Rd) (is : List (Bytes × Frame)) : Prop :=
  ∃ n pre p post, is.map Prod.snd = pre ++ p :: post ∧ ¬ Passes rules p ∧ loud (reads rules chk n r).1 = pre.map (verdict rules) ∧
    (∃ b es, (reads rules chk n r).2.src = some b :: es ∧ 29 + p.1.size ≤ b.length) ∧
    ∀ m, (reads rules chk m (reads rules chk n r).2).1 = List.replicate m (verdict rules p)

/-- From any state that satisfies the invariant, and as long as a guard excludes the underflow, repeated `read` gives what stands in the frames, up to the end or up
to a frame where the reader stops. -/
theorem run (hO : O.Safe) (hQ : Q.Safe) {rules : Rules O.BR (Packet O Q)} {chk : Bool} (G : Rd → List (Bytes × Frame) → Prop)
    (hbad : ∀ r is t, Inv r is t → G r is → ¬ Bad r is)
    (hnext : ∀ r is t is', Inv r is t → G r is → (is' = is.tail ∨ ∃ k, is' = dropItems k is) →
      (read rules chk r).1 ≠ .panic → G (read rules chk r).2 is')
    (r : Rd) (is : List (Bytes × Frame)) (t : Bytes) (inv : Inv r is t) (hG : G r is) :
    Ends rules chk r is t ∨ Stops rules chk r is := by
  induction hm : meas r using Nat.strongRecOn generalizing r is t with
  | _ m ih =>
    subst hm
    cases step (rules := rules) (chk := chk) inv (hbad r is t inv hG) with
    | quiet k q hk inv' log lt =>
      have hnp : (read rules chk r).1 ≠ .panic := by rcases q with ⟨n, q⟩ | q <;> rw [q] <;> simp
      have hq : isQuiet (read rules chk r).1 = true := by rcases q with ⟨n, q⟩ | q <;> rw [q] <;> rfl
      rcases ih _ lt _ _ _ inv' (hnext r is t _ inv hG (.inr ⟨k, rfl⟩) hnp) rfl with ⟨n, h1, h2, h3, h4⟩ | ⟨n, pre, p, post, e, np, h1, hfit, h2⟩
      · refine .inl ⟨n + 1, ?_, ?_, ?_, ?_⟩
        · rw [reads_succ hnp, loud, List.filter_cons, hq]
          simp only [Bool.not_true, Bool.false_eq_true, if_false]
          have : (dropItems k is).map (fun x => verdict rules x.2) = is.map (fun x => verdict rules x.2) := by
            have h := congrArg (List.map fun p => verdict rules p) (snd_dropItems is k)
            simpa [List.map_map, Function.comp_def] using h
          rw [this] at h1
          exact h1
        · rw [reads_succ hnp, litters_drop is t k]
          exact log.trans h2
        · rw [reads_succ hnp]; exact h3
        · rw [reads_succ hnp]; exact h4
      · refine .inr ⟨n + 1, pre, p, post, by rw [← snd_dropItems is k]; exact e, np, ?_, ?_, ?_⟩
        · rw [reads_succ hnp, loud, List.filter_cons, hq]
          simp only [Bool.not_true, Bool.false_eq_true, if_false]
          exact h1
        · rw [reads_succ hnp]; exact hfit
        · rw [reads_succ hnp]; exact h2
    | packet l p rest e res inv' log lt =>
      subst e
      obtain ⟨h, pb, sh⟩ := (inv.good _ List.mem_cons_self).shape
      have hnp : (read rules chk r).1 ≠ .panic := by rw [res]; exact verdict_np hO hQ sh
      have hq := verdict_loud rules p
      rcases ih _ lt _ _ _ inv' (hnext r _ t _ inv hG (.inl rfl) hnp) rfl with ⟨n, h1, h2, h3, h4⟩ | ⟨n, pre, p', post, e, np, h1, hfit, h2⟩
      · refine .inl ⟨n + 1, ?_, ?_, ?_, ?_⟩
        · rw [reads_succ hnp, loud, List.filter_cons, res, hq]
          simp only [Bool.not_false, if_true, List.map_cons, List.cons_append]
          congr 1
        · rw [reads_succ hnp]
          have : litters ((l, p) :: rest) t = l ++ litters rest t := by simp [litters]
          rw [this]
          exact log.trans h2
        · rw [reads_succ hnp]; exact h3
        · rw [reads_succ hnp]; exact h4
      · refine .inr ⟨n + 1, p :: pre, p', post, by simp [e], np, ?_, ?_, ?_⟩
        · rw [reads_succ hnp, loud, List.filter_cons, res, hq]
          simp only [Bool.not_false, if_true, List.map_cons]
          congr 1
        · rw [reads_succ hnp]; exact hfit
        · rw [reads_succ hnp]; exact h2
    | stuck l p rest e np res src recent before fit =>
      subst e
      obtain ⟨h, pb, sh⟩ := (inv.good _ List.mem_cons_self).shape
      have hnp : (read rules chk r).1 ≠ .panic := by rw [res]; exact verdict_np hO hQ sh
      refine .inr ⟨0, [], p, rest.map Prod.snd, rfl, np, rfl, fit, fun m => ?_⟩
      rw [← res]
      exact forever before src recent hnp r before rfl m
    | done e res log src recent =>
      subst e
      have hnp : (read rules chk r).1 ≠ .panic := by rw [res]; simp
      refine .inl ⟨1, ?_, ?_, ?_, ?_⟩
      · rw [reads_succ hnp, loud, List.filter_cons, res]; rfl
      · rw [reads_succ hnp]; simpa [litters, reads] using log
      · rw [reads_succ hnp]; exact src
      · rw [reads_succ hnp]; exact recent

/-! ## Short reads -/

/-- All reads of the source give fewer than `N` bytes. -/
def Short (N : Nat) (es : Events) : Prop := ∀ b, some b ∈ es → b.length < N

theorem Short.consume {N : Nat} {es : Events} (h : Short N es) (n : Nat) : Short N (es.consume n) := by
  rcases es with _ | ⟨_ | c, es⟩
  · exact h
  · exact h
  · simp only [Events.consume]
    split
    · exact h
    · split
      · intro b hb
        rcases List.mem_cons.mp hb with e | hb
        · have := h c List.mem_cons_self
          rw [Option.some.inj e]; simp; omega
        · exact h b (List.mem_cons_of_mem _ hb)
      · exact fun b hb => h b (List.mem_cons_of_mem _ hb)

theorem Short.fill {N : Nat} {es : Events} (h : Short N es) : Short N es.fill.2 := by
  unfold Events.fill
  split
  · exact h
  · exact fun b hb => h b (List.mem_cons_of_mem _ hb)
  · exact fun b hb => h b (List.mem_cons_of_mem _ hb)
  · exact h

theorem Short.finish {N : Nat} {r : Rd} (hs : Short N r.src) (rules : Rules O.BR (Packet O Q)) (h : PacketHeader) (pb : Bytes) (c : Nat) :
    Short N (finish rules h pb c r).2.src := by
  rcases finish_src rules h pb c r with e | e <;> rw [e]
  · exact hs
  · exact hs.consume c

theorem Short.consumeDiff {N : Nat} {es src : Events} (hs : Short N es) {chk : Bool} {stop n : Nat} (h : consumeDiff chk stop n es = some src) : Short N src := by
  unfold Rd.consumeDiff at h
  split at h
  · rw [← Option.some.inj h]; exact hs.consume _
  · split at h
    · cases h
    · rw [← Option.some.inj h]; exact hs.consume _

theorem Short.refillAll {N : Nat} {r : Rd} (hs : Short N r.src) (rules : Rules O.BR (Packet O Q)) (chk : Bool) (buf : Bytes) (a b : Nat) :
    Short N (refillAll rules chk buf a b r).2.src := by
  unfold Rd.refillAll
  split
  · exact hs
  · exact hs
  · split
    · exact hs
    · rename_i e; exact hs.consumeDiff e
  · exact hs.consume _
  · exact hs.consume _

theorem Short.read {N : Nat} {r : Rd} (hs : Short N r.src) (rules : Rules O.BR (Packet O Q)) (chk : Bool) : Short N (read rules chk r).2.src := by
  have hf := hs.fill
  unfold Rd.read
  split
  · unfold readReady
    simp only
    split
    · rename_i e; rw [e] at hf; exact hf
    · rename_i e
      rw [e] at hf
      split
      · exact hf.consume _
      · split
        · exact hf
        · apply Short.finish
          exact hf.consume _
  · unfold readRefill
    simp only
    split
    · rename_i e; rw [e] at hf; exact hf
    · rename_i e; rw [e] at hf; exact hf
    · rename_i e
      rw [e] at hf
      split
      · exact hf.consume _
      · split
        · exact hf
        · exact hf
        · split
          · exact hf
          · rename_i e; exact hf.consumeDiff e
        · apply Short.refillAll
          exact hf
  · unfold readEmpty
    simp only
    split
    · rename_i e; rw [e] at hf; exact hf
    · rename_i e; rw [e] at hf; exact hf
    · rename_i e
      rw [e] at hf
      split
      · exact hf.consume _
      · split
        · exact hf
        · exact hf
        · exact hf.consume _
        · exact hf.consume _
        · split
          · exact hf
          · split
            · exact hf.consume _
            · apply Short.finish
              exact hf

theorem Short.reads {N : Nat} {r : Rd} (hs : Short N r.src) (rules : Rules O.BR (Packet O Q)) (chk : Bool) (n : Nat) :
    Short N (reads rules chk n r).2.src := by
  induction n generalizing r with
  | zero => exact hs
  | succ n ih =>
    have h := hs.read rules chk
    rw [Rd.reads]
    split
    · rename_i e; rw [e] at h; exact h
    · rename_i e; rw [e] at h; exact ih h

/-- A fresh read with a whole frame at the front of the buffer. -/
theorem read_frame {rules : Rules O.BR (Packet O Q)} {chk : Bool} {p : Frame} {h : PacketHeader} {pb : Bytes} (sh : Shape p h pb) (s : Bytes) (es : Events)
    (buffered : Bytes) (log : List Bytes) :
    Rd.read rules chk ⟨some (wire p ++ s) :: es, .empty, buffered, log⟩ =
      finish rules h pb (wire p).length ⟨some (wire p ++ s) :: es, .empty, [], log⟩ := by
  have hw := wire_eq sh
  have hwl := wire_length sh
  have hne : wire p ++ s ≠ [] := by
    intro e; have := congrArg List.length e; simp only [List.length_append, List.length_nil] at this; omega
  unfold Rd.read
  simp only
  unfold readEmpty
  simp only [Events.fill_some hne]
  obtain ⟨c, cs, hb⟩ : ∃ c cs, wire p ++ s = c :: cs := by
    cases hx : wire p ++ s with
    | nil => exact absurd hx hne
    | cons c cs => exact ⟨c, cs, rfl⟩
  have hlen := congrArg List.length hb
  simp only [List.length_append] at hlen
  rw [hb]
  simp only
  rw [← hb, if_neg (by simp only [List.length_append, HSIZE]; omega)]
  have hr : readHeader (wire p ++ s) = .ok (.found h 0 29) := by
    have hg : getPos (h.bytes ++ (pb ++ s)) = some 0 := by
      refine (C12_get_pos_partial _ 0).mpr ⟨⟨?_, by omega⟩, ?_⟩
      · obtain ⟨R, hR⟩ := sig_bytes h
        rw [List.drop_zero, hR, List.append_assoc]; exact List.prefix_append _ _
      · simp [HSIZE]; omega
    rw [hw, List.append_assoc, readHeader, hg]
    simp only [isNotEnough, List.drop_zero]
    rw [if_pos (by simp), PacketHeader.readSlice_bytes sh.wf]
    rfl
  rw [hr]
  have hsm := sh.small
  simp only
  rw [if_neg (by omega), if_neg (by simp only [List.length_append]; omega)]
  have hsl : slice (wire p ++ s) 29 h.size = pb := by
    unfold slice
    rw [hw, List.append_assoc, List.drop_left' (by simp [HSIZE]), List.take_left' sh.size.symm]
  rw [hsl, hwl]
  rfl

theorem inv_new {cs : Chunks} {is : List (Bytes × Frame)} {t : Bytes} (hc : ∀ c ∈ cs, c ≠ [] ∧ c.length < 2 ^ 63)
    (hs : cs.flatten = stream is t) (hg : ∀ x ∈ is, GoodFrame x) (ht : NoSig t) : Inv (new (cs.map some)) is t := by
  refine ⟨?_, hg, ht, ?_⟩
  · intro e he
    obtain ⟨c, hc', rfl⟩ := List.mem_map.mp he
    exact ⟨c, rfl, hc c hc'⟩
  · simp only [new, Events.bytes, List.map_map]
    rw [← hs]
    congr 1
    conv => rhs; rw [← List.map_id cs]
    rfl

/-- Streams without litter in front of packets never meet the underflow. -/
theorem not_bad_pure {r : Rd} {is : List (Bytes × Frame)} {t : Bytes} (inv : Inv r is t)
    (h : ∀ x ∈ is, x.1 = []) : ¬ Bad r is := by
  rintro ⟨b, n, c, es, l, p, rest, hr, hs, hc, rfl, hl⟩
  have hl0 : l = [] := h (l, p) List.mem_cons_self
  subst hl0
  have st := inv.state
  rw [hr] at st
  obtain ⟨_, _, st, _, hh⟩ := st
  simp only [List.length_nil] at hl
  rcases hh with hh | ⟨hh, h29, hp⟩
  · omega
  · have g := inv.good _ List.mem_cons_self
    obtain ⟨h, pb, sh⟩ := g.shape
    obtain ⟨R, hR⟩ := sig_bytes h
    have hfs := firstSig (X := stream (([], p) :: rest) t) (R := R ++ (pb ++ stream rest t)) g.free
      (by rw [stream_cons sh, hR]; simp)
    have hpre : b.take 29 <+: stream (([], p) :: rest) t := by
      rw [← st]
      exact (List.take_prefix _ _).trans (List.prefix_append _ _)
    have := getPos_prefix hpre hfs
    rw [hp, if_pos (by simp; omega)] at this
    cases this


end Frames

end Brec
