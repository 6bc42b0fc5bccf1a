import Verif.ReaderLemmas
/-!
# `PacketBufReader` on streams of packets and litter
-/

namespace Brec

open Brec.Props

variable {O : BlockOps} {Q : PayloadOps} {S : BlockSpec O}

namespace Rd

/-- `log'` is `log` and calls of the `Ignored` callback, none with an empty slice, whose bytes together are `x`. -/
def LogAdd (rules : Rules O.BR (Packet O Q)) (log log' : List Bytes) (x : Bytes) : Prop :=
  ∃ xs : List Bytes, xs.flatten = x ∧ (∀ y ∈ xs, y ≠ []) ∧ log' = log ++ xs.flatMap rules.ignore

theorem LogAdd.refl (rules : Rules O.BR (Packet O Q)) (log : List Bytes) : LogAdd rules log log [] :=
  ⟨[], rfl, by simp, by simp⟩

theorem LogAdd.ignoreTo (rules : Rules O.BR (Packet O Q)) (log : List Bytes) {n : Nat} {buf : Bytes}
    (hn : n ≤ buf.length) : LogAdd rules log (ignoreTo rules n buf log) (buf.take n) := by
  unfold Rd.ignoreTo
  split
  · refine ⟨[buf.take n], by simp, ?_, by simp⟩
    intro y hy e
    simp only [List.mem_singleton] at hy
    rw [e] at hy
    have := congrArg List.length hy
    simp at this; omega
  · have : n = 0 := by omega
    subst this
    exact ⟨[], by simp, by simp, by simp⟩

theorem LogAdd.trans {rules : Rules O.BR (Packet O Q)} {a b c : List Bytes} {x y : Bytes} (h : LogAdd rules a b x)
    (h' : LogAdd rules b c y) : LogAdd rules a c (x ++ y) := by
  obtain ⟨xs, e1, n1, e2⟩ := h
  obtain ⟨ys, e3, n2, e4⟩ := h'
  refine ⟨xs ++ ys, by simp [e1, e3], fun y hy => ?_, by simp [e4, e2]⟩
  rcases List.mem_append.mp hy with hy | hy
  · exact n1 y hy
  · exact n2 y hy

/-- What the state of the reader says about the rest of the stream: items and a tail, of which `E` says that there is no signature in it. -/
structure InvE (S : BlockSpec O) (E : Prop) (r : Rd) (is : List (Bytes × Packet O Q)) (t : Bytes) : Prop where
  plain : r.src.Plain
  good : ∀ x ∈ is, GoodItem S x
  noSig : E → NoSig t
  state : match r.recent with
    | .empty => r.src.bytes = stream is t
    | .refill b n => b ≠ [] ∧ r.buffered = [] ∧ b ++ r.src.bytes = stream is t ∧ 0 < n ∧
        (b.length + n = 29 ∨ b.length + n = 58 ∧ 29 ≤ b.length ∧ getPos (b.take 29) = none)
    | .ready h => ∃ p rest pb, is = ([], p) :: rest ∧ Packet.Shape S p h pb ∧
        r.buffered ++ r.src.bytes = S.encs p.blocks ++ pb ++ stream rest t ∧ r.buffered.length ≤ h.size

/-- The same with a tail in which there is no signature. -/
abbrev Inv (S : BlockSpec O) : Rd → List (Bytes × Packet O Q) → Bytes → Prop := InvE S True

/-- The state in which `sgmt.end() - buffered` underflows: a whole packet header is already in the refill buffer. -/
def Bad (r : Rd) (is : List (Bytes × Packet O Q)) : Prop :=
  ∃ b n c es l p rest, r.recent = .refill b n ∧ r.src = some c :: es ∧ n ≤ c.length ∧ is = (l, p) :: rest ∧
    l.length + 29 < b.length

def rank : Recent → Nat
  | .refill .. => 2
  | .ready _ => 1
  | .empty => 0

/-- Every `read` on a stream makes this smaller. -/
def meas (r : Rd) : Nat := 3 * r.src.bytes.length + rank r.recent

def Quiet (o : Out (Next (Packet O Q))) : Prop := (∃ n, o = .ok (.notEnough n)) ∨ o = .ok .notFound

/-- What one `read` does on a stream. -/
inductive StepE (S : BlockSpec O) (E : Prop) (rules : Rules O.BR (Packet O Q)) (r : Rd) (is : List (Bytes × Packet O Q)) (t : Bytes)
    (o : Out (Next (Packet O Q))) (r' : Rd) : Prop
  | quiet (k : Nat) (q : Quiet o) (hk : k ≤ (litOf is t).length) (inv : InvE S E r' (dropItems k is) (dropTail k is t))
      (log : LogAdd rules r.log r'.log ((litOf is t).take k)) (lt : meas r' < meas r)
  | packet (l : Bytes) (p : Packet O Q) (rest : List (Bytes × Packet O Q)) (e : is = (l, p) :: rest)
      (res : o = .ok (verdict S rules p)) (inv : InvE S E r' rest t) (log : LogAdd rules r.log r'.log l) (lt : meas r' < meas r)
      (idle : r'.recent = .empty)
  | done (e : is = []) (res : o = .ok .noData) (log : LogAdd rules r.log r'.log t) (src : r'.src = [])
      (recent : r'.recent = .empty)

theorem take_prefix {B X : Bytes} {k : Nat} (h : B <+: X) (hk : k ≤ B.length) : B.take k = X.take k := by
  obtain ⟨r, rfl⟩ := h
  rw [List.take_append_of_le_length hk]

theorem wire_length {p : Packet O Q} {h : PacketHeader} {pb : Bytes} (hok : ∀ b ∈ p.blocks, S.ok b)
    (sh : Packet.Shape S p h pb) : (wire p).length = 29 + h.size := by
  rw [wire_eq hok sh, sh.size]; simp [HSIZE]

theorem stream_cons {l : Bytes} {p : Packet O Q} {h : PacketHeader} {pb : Bytes} (hok : ∀ b ∈ p.blocks, S.ok b)
    (sh : Packet.Shape S p h pb) (rest : List (Bytes × Packet O Q)) (t : Bytes) :
    stream ((l, p) :: rest) t = l ++ (h.bytes ++ (S.encs p.blocks ++ pb ++ stream rest t)) := by
  simp only [stream]; rw [wire_eq hok sh]; simp

theorem stream_after {l : Bytes} {p : Packet O Q} {h : PacketHeader} {pb : Bytes} (hok : ∀ b ∈ p.blocks, S.ok b)
    (sh : Packet.Shape S p h pb) (rest : List (Bytes × Packet O Q)) (t : Bytes) :
    (stream ((l, p) :: rest) t).drop (l.length + 29) = S.encs p.blocks ++ pb ++ stream rest t := by
  rw [stream_cons hok sh, ← List.drop_drop, List.drop_left' rfl, List.drop_left' (by simp [HSIZE])]

/-! ## `Ready` -/

theorem step_ready {rules : Rules O.BR (Packet O Q)} {chk : Bool} {r : Rd} {is : List (Bytes × Packet O Q)} {t : Bytes}
    {h : PacketHeader} (hr : r.recent = .ready h) (inv : InvE S E r is t) (hE : is = [] → E) :
    StepE S E rules r is t (read rules chk r).1 (read rules chk r).2 := by
  obtain ⟨pl, hg, ht, st⟩ := inv
  have hns := fun e => ht (hE e)
  rw [hr] at st
  obtain ⟨p, rest, pb, rfl, sh, hb, hle⟩ := st
  have g := hg _ List.mem_cons_self
  have hbl := congrArg List.length hb
  simp only [List.length_append] at hbl
  have hsz := sh.size
  have hgr : ∀ x ∈ rest, GoodItem S x := fun x hx => hg x (List.mem_cons_of_mem _ hx)
  -- the packet is complete with `buf.take rest`
  have full : ∀ buf tail : Bytes, r.buffered ++ (buf ++ tail) = S.encs p.blocks ++ pb ++ stream rest t →
      h.size ≤ r.buffered.length + buf.length →
      r.buffered ++ buf.take (h.size - r.buffered.length) = S.encs p.blocks ++ pb ∧
        buf.drop (h.size - r.buffered.length) ++ tail = stream rest t := by
    intro buf tail e hl
    have e' : (r.buffered ++ buf.take (h.size - r.buffered.length)) ++ (buf.drop (h.size - r.buffered.length) ++ tail) =
        (S.encs p.blocks ++ pb) ++ stream rest t := by
      rw [← e, List.append_assoc]
      congr 1
      rw [← List.append_assoc, List.take_append_drop]
    exact List.append_inj e' (by simp; omega)
  unfold read
  rw [hr]
  simp only
  unfold readReady
  rcases pl.cases with hs | ⟨b, es, hs, hne, hlt, pl'⟩
  · -- end of the source
    simp only [hs, Events.fill]
    rw [hs] at hbl hb
    simp only [Events.bytes_nil, List.length_nil, List.append_nil] at hbl hb
    obtain ⟨f1, f2⟩ := full [] [] (by simpa using hb) (by simp; omega)
    rw [if_neg (by simp; omega), if_neg (by omega), f1, finish_eq g.ok.blocks sh g.blocks]
    refine .packet [] p rest rfl rfl ⟨?_, hgr, ht, ?_⟩ (.refl ..) ?_ rfl
    · simp [Events.consume, Events.Plain]
    · simpa [Events.consume] using f2
    · simp [meas, rank, hr, Events.consume]
  · simp only [hs, Events.fill_some hne]
    rw [hs] at hbl hb
    simp only [Events.bytes_cons, List.length_append] at hbl hb
    have hlen : r.src.bytes.length = b.length + (Events.bytes es).length := by rw [hs]; simp
    have hpos := List.length_pos_iff.mpr hne
    by_cases hlong : h.size > r.buffered.length + b.length
    · rw [if_pos hlong, Events.consume_all hne]
      refine .quiet 0 (.inl ⟨_, rfl⟩) (by simp) ⟨pl', ?_, ht, ?_⟩ (by simpa using LogAdd.refl ..) ?_
      · exact good_drop hg 0
      · simp only [dropItems, dropTail]
        refine ⟨p, rest, pb, rfl, sh, ?_, ?_⟩
        · rw [List.append_assoc]; exact hb
        · simp; omega
      · simp only [meas, rank, hr, hlen]; omega
    · obtain ⟨f1, f2⟩ := full b (Events.bytes es) hb (by omega)
      rw [if_neg hlong, if_neg (by omega), f1, finish_eq g.ok.blocks sh g.blocks]
      refine .packet [] p rest rfl rfl ⟨?_, hgr, ht, ?_⟩ (.refl ..) ?_ rfl
      · exact Events.plain_consume (Events.plain_consume (hs ▸ pl) _) _
      · have : ∀ es : Events, es.consume 0 = es := by
          intro es; rcases es with _ | ⟨_ | _, _⟩ <;> rfl
        simp only [this]
        rw [Events.bytes_consume (by omega)]
        exact f2
      · have h1 := Events.length_bytes_consume_le (Events.plain_consume (hs ▸ pl) (h.size - r.buffered.length)) 0
        have h2 := Events.length_bytes_consume_le (hs ▸ pl) (h.size - r.buffered.length)
        rw [hs] at hlen
        simp only [meas, rank, hr, hs] at *
        omega

/-! ## `Empty` -/

theorem stream_nil {is : List (Bytes × Packet O Q)} {t : Bytes} (hg : ∀ x ∈ is, GoodItem S x) (h : stream is t = []) :
    is = [] ∧ t = [] := by
  cases is with
  | nil => exact ⟨rfl, h⟩
  | cons x rest =>
    obtain ⟨l, p⟩ := x
    have g := hg _ List.mem_cons_self
    obtain ⟨h', pb, sh⟩ := g.ok.shape
    have := congrArg List.length h
    simp only [stream, List.length_append, wire_length g.ok.blocks sh, List.length_nil] at this
    omega

/-- The 29 bytes kept when nothing was found. -/
theorem keep_getPos {is : List (Bytes × Packet O Q)} {t B : Bytes} (hg : ∀ x ∈ is, GoodItem S x) (ht : is = [] → NoSig t)
    (hB : B <+: stream is t) (hl : B.length ≤ (litOf is t).length + 8) (h29 : 29 ≤ B.length) :
    getPos ((B.drop (B.length - 29)).take 29) = none := by
  have hk : B.length - 29 ≤ (litOf is t).length := by omega
  have hB' : B.drop (B.length - 29) <+: stream (dropItems (B.length - 29) is) (dropTail (B.length - 29) is t) := by
    rw [stream_drop hk]
    obtain ⟨r, hr⟩ := hB
    rw [← hr, List.drop_append_of_le_length (by omega)]
    exact List.prefix_append _ _
  rw [List.take_of_length_le (by simp; omega)]
  rcases readHeader_stream (good_drop hg _) (fun e => noSig_drop (ht (by cases is with | nil => rfl | cons => cases e)) _) hB' with ⟨_, e, _⟩ | ⟨l, p, rest, h, pb, e, _, _, hlt, _⟩
  · exact e
  · exfalso
    cases is with
    | nil => simp [dropItems] at e
    | cons x is =>
      obtain ⟨l0, p0⟩ := x
      simp only [dropItems, List.cons.injEq, Prod.mk.injEq] at e
      obtain ⟨⟨rfl, _⟩, _⟩ := e
      simp only [litOf, List.length_drop] at *
      omega

theorem step_empty {rules : Rules O.BR (Packet O Q)} {chk : Bool} {r : Rd} {is : List (Bytes × Packet O Q)} {t : Bytes}
    (hr : r.recent = .empty) (inv : InvE S E r is t) (hE : is = [] → E) :
    StepE S E rules r is t (read rules chk r).1 (read rules chk r).2 := by
  obtain ⟨pl, hg, ht, st⟩ := inv
  have hns := fun e => ht (hE e)
  rw [hr] at st
  simp only at st
  unfold read
  rw [hr]
  simp only
  unfold readEmpty
  rcases pl.cases with hs | ⟨b, es, hs, hne, hlt, pl'⟩
  · simp only [hs, Events.fill]
    rw [hs] at st
    obtain ⟨rfl, rfl⟩ := stream_nil hg st.symm
    exact .done rfl rfl (.refl ..) rfl hr
  · simp only [hs, Events.fill_some hne]
    have hpos := List.length_pos_iff.mpr hne
    have hlen : r.src.bytes.length = b.length + (Events.bytes es).length := by rw [hs]; simp
    rw [hs, Events.bytes_cons] at st
    have hB : b <+: stream is t := ⟨_, st⟩
    obtain ⟨c, cs, rfl⟩ : ∃ c cs, b = c :: cs := by
      cases b with
      | nil => exact absurd rfl hne
      | cons c cs => exact ⟨c, cs, rfl⟩
    simp only
    generalize hbe : (c :: cs : Bytes) = b at *
    by_cases h29 : b.length < HSIZE
    · rw [if_pos h29, Events.consume_all hne]
      simp only [HSIZE] at h29
      refine .quiet 0 (.inl ⟨_, rfl⟩) (by simp) ⟨pl', good_drop hg 0, fun e => noSig_drop (ht e) 0, ?_⟩ (by simpa using LogAdd.refl ..) ?_
      · simp only
        rw [stream_drop (by simp)]
        refine ⟨hne, trivial, by simpa using st, by simp only [HSIZE]; omega, .inl (by simp only [HSIZE]; omega)⟩
      · simp only [meas, rank, hr, hlen]; omega
    · rw [if_neg h29]
      simp only [HSIZE] at h29
      rcases readHeader_stream hg hns hB with ⟨e, _, hl⟩ | ⟨l, p, rest, h, pb, rfl, g, sh, hlb, hh⟩
      · rw [e]
        simp only [Events.consume_all hne]
        have hk : b.length - 29 ≤ (litOf is t).length := by omega
        refine .quiet (b.length - 29) (.inr rfl) hk ⟨pl', good_drop hg _, fun e => noSig_drop (ht e) _, ?_⟩ ?_ ?_
        · simp only
          rw [stream_drop hk, ← st]
          refine ⟨by intro e; have := congrArg List.length e; simp only [HSIZE, List.length_drop, List.length_nil] at *; omega, trivial, by rw [List.drop_append_of_le_length (by omega)]; rfl, by simp [HSIZE], .inr ⟨?_, ?_, ?_⟩⟩
          · simp only [HSIZE, List.length_drop]; omega
          · simp only [HSIZE, List.length_drop]; omega
          · exact keep_getPos hg hns hB hl (by omega)
        · rw [← stream_take hk, ← take_prefix hB (by omega)]
          exact .ignoreTo _ _ (by simp only [HSIZE]; omega)
        · simp only [meas, rank, hr, hlen]; omega
      · have hdi : dropItems l.length ((l, p) :: rest) = ([], p) :: rest := by simp [dropItems]
        have hdt : dropTail l.length ((l, p) :: rest) t = t := rfl
        have hlit : litOf ((l, p) :: rest) t = l := rfl
        have hlog : LogAdd rules r.log (ignoreTo rules l.length b r.log) l := by
          have h1 := LogAdd.ignoreTo rules r.log (n := l.length) (buf := b) (by omega)
          rw [take_prefix hB (by omega), stream_take (by simp [hlit]), hlit] at h1
          simpa using h1
        rcases hh with ⟨hlt', e⟩ | ⟨hle, e⟩
        · rw [e]
          simp only [Events.consume_all hne]
          refine .quiet l.length (.inl ⟨_, rfl⟩) (by simp [hlit]) ⟨pl', good_drop hg _, fun e => noSig_drop (ht e) _, ?_⟩
            (by simpa [hlit] using hlog) ?_
          · simp only
            rw [stream_drop (by simp [hlit]), ← st]
            refine ⟨by intro e; have := congrArg List.length e; simp only [List.length_drop, List.length_nil] at *; omega, trivial, by rw [List.drop_append_of_le_length (by omega)], by omega, .inl ?_⟩
            simp only [List.length_drop]; omega
          · simp only [meas, rank, hr, hlen]; omega
        · rw [e]
          simp only
          have hsm := sh.small
          rw [if_neg (by omega)]
          have haft : b.drop (l.length + 29) ++ Events.bytes es = S.encs p.blocks ++ pb ++ stream rest t := by
            rw [← stream_after g.ok.blocks sh, ← st, List.drop_append_of_le_length hle]
          by_cases hav : h.size + (l.length + 29) > b.length
          · rw [if_pos hav, Events.consume_all hne]
            refine .quiet l.length (.inl ⟨_, rfl⟩) (by simp [hlit]) ⟨pl', good_drop hg _, fun e => noSig_drop (ht e) _, ?_⟩
              (by simpa [hlit] using hlog) ?_
            · simp only [hdi, hdt]
              refine ⟨p, rest, pb, rfl, sh, haft, ?_⟩
              simp only [List.length_drop]; omega
            · simp only [meas, rank, hr, hlen]; omega
          · rw [if_neg hav]
            have hsl : slice b (l.length + 29) h.size = S.encs p.blocks ++ pb := by
              have h1 := congrArg (List.take h.size) haft
              rw [List.take_append_of_le_length (by simp; omega), List.take_left' (by rw [sh.size]; simp)] at h1
              exact h1
            rw [hsl, finish_eq g.ok.blocks sh g.blocks]
            have hrest : b.drop (l.length + 29 + h.size) ++ Events.bytes es = stream rest t := by
              have h1 := congrArg (List.drop h.size) haft
              rw [List.drop_append_of_le_length (by simp; omega), List.drop_drop, List.drop_left' (by rw [sh.size]; simp)] at h1
              exact h1
            have hbc := Events.bytes_consume (b := b) (n := l.length + 29 + h.size) (by omega) es
            refine .packet l p rest rfl rfl ⟨Events.plain_consume (hs ▸ pl) _, fun x hx => hg x (List.mem_cons_of_mem _ hx), ht, ?_⟩
              hlog ?_ hr
            · simp only [hr]
              rw [hbc]
              exact hrest
            · simp only [meas, rank, hr, hlen]
              rw [hbc]
              simp only [List.length_append, List.length_drop]
              omega

/-! ## `Refill` -/

theorem step_refill {rules : Rules O.BR (Packet O Q)} {chk : Bool} {r : Rd} {is : List (Bytes × Packet O Q)} {t : Bytes}
    {b0 : Bytes} {n : Nat} (hr : r.recent = .refill b0 n) (inv : InvE S E r is t) (hE : is = [] → E) (hbad : ¬ Bad r is) :
    StepE S E rules r is t (read rules chk r).1 (read rules chk r).2 := by
  obtain ⟨pl, hg, ht, st⟩ := inv
  have hns := fun e => ht (hE e)
  rw [hr] at st
  simp only at st
  obtain ⟨hb0, hbuf, st, hn, hlens⟩ := st
  unfold read
  rw [hr]
  simp only
  unfold readRefill
  rcases pl.cases with hs | ⟨b, es, hs, hne, hlt, pl'⟩
  · simp only [hs, Events.fill]
    rw [hs, Events.bytes_nil, List.append_nil] at st
    have his : is = [] := by
      cases is with
      | nil => rfl
      | cons x rest =>
        exfalso
        obtain ⟨l, p⟩ := x
        have g := hg _ List.mem_cons_self
        obtain ⟨h, pb, sh⟩ := g.ok.shape
        have hl := congrArg List.length st
        simp only [stream, List.length_append, wire_length g.ok.blocks sh] at hl
        rcases hlens with h1 | ⟨h1, h2, h3⟩
        · omega
        · obtain ⟨R, hR⟩ := sig_bytes h
          have hfs := firstSig (X := b0) (R := R ++ (S.encs p.blocks ++ pb ++ stream rest t)) g.free
            (by rw [st, stream_cons g.ok.blocks sh, hR]; simp)
          have hgp := getPos_prefix (B := b0.take 29) (List.take_prefix _ _) hfs
          rw [h3] at hgp
          have hnl : ¬ (l.length + 8 < (b0.take 29).length) := by
            intro hc; rw [if_pos hc] at hgp; cases hgp
          simp only [List.length_take] at hnl
          rcases g.body with hb | hb
          · simp only at hb; rw [hb] at hnl; simp at hnl; omega
          · have := hb h sh.header
            omega
    subst his
    simp only [stream] at st
    subst st
    exact .done rfl rfl ⟨[b0], by simp, by simpa using hb0, by simp⟩ rfl rfl
  · simp only [hs, Events.fill_some hne]
    have hpos := List.length_pos_iff.mpr hne
    have hlen : r.src.bytes.length = b.length + (Events.bytes es).length := by rw [hs]; simp
    rw [hs, Events.bytes_cons] at st
    obtain ⟨c, cs, rfl⟩ : ∃ c cs, b = c :: cs := by
      cases b with
      | nil => exact absurd rfl hne
      | cons c cs => exact ⟨c, cs, rfl⟩
    simp only
    generalize hbe : (c :: cs : Bytes) = b at *
    by_cases hshort : b.length < n
    · rw [if_pos hshort, Events.consume_all hne]
      refine .quiet 0 (.inl ⟨_, rfl⟩) (by simp) ⟨pl', good_drop hg 0, fun e => noSig_drop (ht e) 0, ?_⟩ (by simpa using LogAdd.refl ..) ?_
      · simp only
        rw [stream_drop (by simp)]
        refine ⟨by simp [hb0], hbuf, by simpa using st, by omega, ?_⟩
        rcases hlens with h1 | ⟨h1, h2, h3⟩
        · left; simp; omega
        · right
          refine ⟨by simp; omega, by simp; omega, ?_⟩
          rw [List.take_append_of_le_length h2]; exact h3
      · simp only [meas, rank, hr, hlen]; omega
    · rw [if_neg hshort]
      have hB2 : b0 ++ b <+: stream is t := ⟨_, by rw [List.append_assoc]; exact st⟩
      have hB1 : b0 ++ b.take n <+: stream is t :=
        List.IsPrefix.trans ⟨b.drop n, by rw [List.append_assoc, List.take_append_drop]⟩ hB2
      have hl1 : (b0 ++ b.take n).length = b0.length + n := by simp; omega
      have hl2 : (b0 ++ b).length = b0.length + b.length := by simp
      -- what both successful attempts do
      have found : ∀ (l : Bytes) (p : Packet O Q) (rest : List (Bytes × Packet O Q)) (h : PacketHeader) (pb B : Bytes),
          is = (l, p) :: rest → GoodItem S (l, p) → Packet.Shape S p h pb → B <+: stream is t → l.length + 29 ≤ B.length →
          l.length + 29 ≤ b0.length + b.length → b0.length ≤ l.length + 29 →
          StepE S E rules r is t (.ok (.notEnough 0))
            { r with log := ignoreTo rules l.length B r.log
                     src := Events.consume (l.length + 29 - b0.length) (some b :: es), recent := .ready h } := by
        rintro l p rest h pb B rfl g sh hB hle hle2 hge
        have hlit : litOf ((l, p) :: rest) t = l := rfl
        have hlog : LogAdd rules r.log (ignoreTo rules l.length B r.log) l := by
          have h1 := LogAdd.ignoreTo rules r.log (n := l.length) (buf := B) (by omega)
          rw [take_prefix hB (by omega), stream_take (by simp [hlit]), hlit] at h1
          simpa using h1
        have hbc := Events.bytes_consume (b := b) (n := l.length + 29 - b0.length) (by omega) es
        refine .quiet l.length (.inl ⟨_, rfl⟩) (by simp [hlit])
          ⟨Events.plain_consume (hs ▸ pl) _, good_drop hg _, fun e => noSig_drop (ht e) _, ?_⟩ (by simpa [hlit] using hlog) ?_
        · simp only [dropItems, dropTail]
          refine ⟨p, rest, pb, by simp, sh, ?_, by rw [hbuf]; simp⟩
          rw [hbuf, hbc, List.nil_append, ← stream_after g.ok.blocks sh, ← st,
            List.drop_append, List.drop_of_length_le hge, List.nil_append, List.drop_append_of_le_length (by omega)]
        · simp only [meas, rank, hr, hlen, hbc, List.length_append, List.length_drop]; omega
      have second : (∀ l p rest, is = (l, p) :: rest → b0.length ≤ l.length + 29) →
          StepE S E rules r is t (refillAll rules chk (b0 ++ b) b0.length b.length { r with src := some b :: es, recent := .empty }).1
            (refillAll rules chk (b0 ++ b) b0.length b.length { r with src := some b :: es, recent := .empty }).2 := by
        intro hge
        unfold refillAll
        rcases readHeader_stream hg hns hB2 with ⟨e, _, hl⟩ | ⟨l, p, rest, h, pb, hie, g, sh, hlb, hh⟩
        · rw [e]
          simp only [Events.consume_all hne]
          have h29 : 29 ≤ (b0 ++ b).length := by rcases hlens with h1 | ⟨h1, h2, h3⟩ <;> omega
          have hk : (b0 ++ b).length - 29 ≤ (litOf is t).length := by omega
          refine .quiet ((b0 ++ b).length - 29) (.inr rfl) hk ⟨pl', good_drop hg _, fun e => noSig_drop (ht e) _, ?_⟩ ?_ ?_
          · simp only
            rw [stream_drop hk, ← st, ← List.append_assoc]
            refine ⟨by intro e; have := congrArg List.length e; simp only [HSIZE, List.length_drop, List.length_append, List.length_nil] at *; omega, hbuf, by rw [List.drop_append_of_le_length (l₁ := b0 ++ b) (by omega)]; rfl, by simp [HSIZE], .inr ⟨?_, ?_, ?_⟩⟩
            · simp only [HSIZE, List.length_drop]; omega
            · simp only [HSIZE, List.length_drop]; omega
            · exact keep_getPos hg hns hB2 hl h29
          · rw [← stream_take hk, ← take_prefix hB2 (by omega)]
            exact .ignoreTo _ _ (by simp only [HSIZE]; omega)
          · simp only [meas, rank, hr, hlen]; omega
        · subst hie
          have hlit : litOf ((l, p) :: rest) t = l := rfl
          rcases hh with ⟨hlt', e⟩ | ⟨hle, e⟩
          · rw [e]
            simp only [Events.consume_all hne]
            refine .quiet l.length (.inl ⟨_, rfl⟩) (by simp [hlit]) ⟨pl', good_drop hg _, fun e => noSig_drop (ht e) _, ?_⟩ ?_ ?_
            · simp only
              rw [stream_drop (by simp [hlit]), ← st, ← List.append_assoc]
              refine ⟨by intro e; have := congrArg List.length e; simp only [List.length_drop, List.length_append, List.length_nil] at *; omega, hbuf, by rw [List.drop_append_of_le_length (l₁ := b0 ++ b) (by omega)], by omega, .inl ?_⟩
              simp only [List.length_drop]; omega
            · have h1 := LogAdd.ignoreTo rules r.log (n := l.length) (buf := b0 ++ b) (by omega)
              rw [take_prefix hB2 (by omega), stream_take (by simp [hlit]), hlit] at h1
              simpa [hlit] using h1
            · simp only [meas, rank, hr, hlen]; omega
          · rw [e]
            simp only [consumeDiff]
            rw [if_pos (hge l p rest rfl)]
            exact found l p rest h pb _ rfl g sh hB2 hle (by omega) (hge l p rest rfl)
      have hge : ∀ l p rest, is = (l, p) :: rest → b0.length ≤ l.length + 29 := by
        intro l p rest e
        by_cases hc : b0.length ≤ l.length + 29
        · exact hc
        · exact absurd ⟨b0, n, b, es, l, p, rest, hr, hs, by omega, e, by omega⟩ hbad
      rcases readHeader_stream hg hns hB1 with ⟨e, _, hl⟩ | ⟨l, p, rest, h, pb, hie, g, sh, hlb, hh⟩
      · rw [e]
        exact second hge
      · rcases hh with ⟨hlt', e⟩ | ⟨hle, e⟩
        · rw [e]
          exact second hge
        · rw [e]
          simp only [consumeDiff]
          rw [if_pos (hge l p rest hie)]
          exact found l p rest h pb _ hie g sh hB1 hle (by omega) (hge l p rest hie)

/-- What one `read` does on a stream without a signature in its tail. -/
abbrev Step (S : BlockSpec O) (rules : Rules O.BR (Packet O Q)) := StepE S True rules

theorem stepE {E : Prop} {rules : Rules O.BR (Packet O Q)} {chk : Bool} {r : Rd} {is : List (Bytes × Packet O Q)} {t : Bytes}
    (inv : InvE S E r is t) (hE : is = [] → E) (hbad : ¬ Bad r is) : StepE S E rules r is t (read rules chk r).1 (read rules chk r).2 := by
  cases hr : r.recent with
  | ready h => exact step_ready hr inv hE
  | refill b n => exact step_refill hr inv hE hbad
  | empty => exact step_empty hr inv hE

theorem step {rules : Rules O.BR (Packet O Q)} {chk : Bool} {r : Rd} {is : List (Bytes × Packet O Q)} {t : Bytes}
    (inv : Inv S r is t) (hbad : ¬ Bad r is) : Step S rules r is t (read rules chk r).1 (read rules chk r).2 :=
  stepE inv (fun _ => trivial) hbad

end Rd

end Brec
