import Verif.Stateful
import Verif.Props.Damaged
/-!
# C105: rules that remember
-/

namespace Brec.Props

open Brec Rd

variable {O : BlockOps} {Q : PayloadOps} {S : BlockSpec O} {σ : Type}

/-- The rules are asked about one packet: the blocks, then the body of the payload if there is one, then the packet, and nothing more after the first `false`. -/
def judge (S : BlockSpec O) (A : Asker σ O.BR (Packet O Q)) (s : σ) (p : Packet O Q) : Bool × σ :=
  match A.blocks, s with
  | some f, s => if (f s (p.blocks.map S.ref)).1 then rest (f s (p.blocks.map S.ref)).2 else (false, (f s (p.blocks.map S.ref)).2)
  | none, s => rest s
where
  /-- The payload and the packet. -/
  rest (s : σ) : Bool × σ :=
    match bodyOf p, A.payload with
    | some x, some f => if (f s x).1 then last (f s x).2 else (false, (f s x).2)
    | _, _ => last s
  /-- The packet. -/
  last (s : σ) : Bool × σ :=
    match A.packet with
    | some f => f s p
    | none => (true, s)

/-- One packet after the other. -/
def judgeAll (S : BlockSpec O) (A : Asker σ O.BR (Packet O Q)) : σ → List (Packet O Q) → List (Next (Packet O Q)) × σ
  | s, [] => ([], s)
  | s, p :: ps => ((if (judge S A s p).1 then .found p else .skipped) :: (judgeAll S A (judge S A s p).2 ps).1, (judgeAll S A (judge S A s p).2 ps).2)

/-! ## One call -/

/-- Rules that always give the same answers. -/
def constant (A : Asker σ O.BR (Packet O Q)) (a b c : Bool) : Rules O.BR (Packet O Q) :=
  A.base ++ [.byBlocks fun _ => a, .byPayload fun _ => b, .filter fun _ => c]

theorem constant_blocks (A : Asker σ O.BR (Packet O Q)) (a b c : Bool) (rs : List O.BR) : (constant A a b c).filterByBlocks rs = a := by
  unfold constant Asker.base
  cases A.ignored <;> rfl

theorem constant_payload (A : Asker σ O.BR (Packet O Q)) (a b c : Bool) (x : Bytes) : (constant A a b c).filterByPayload x = b := by
  unfold constant Asker.base
  cases A.ignored <;> rfl

theorem constant_packet (A : Asker σ O.BR (Packet O Q)) (a b c : Bool) (p : Packet O Q) : (constant A a b c).filter p = c := by
  unfold constant Asker.base
  cases A.ignored <;> rfl

theorem constant_ignore (A : Asker σ O.BR (Packet O Q)) (a b c : Bool) : (constant A a b c).ignore = A.base.ignore := by
  funext x
  unfold constant Asker.base
  cases A.ignored <;> rfl

theorem finalS_const (A : Asker σ O.BR (Packet O Q)) (s : σ) (p : Packet O Q) :
    (finalS A s p).1 = if (Asker.ask A.packet s p).1 then (.ok (.found p), .dropConsume) else (.ok .skipped, .dropConsume) := by
  unfold finalS
  rcases Asker.ask A.packet s p with ⟨_ | _, s'⟩ <;> rfl

theorem parsePayloadS_const (A : Asker σ O.BR (Packet O Q)) (s : σ) (h : PacketHeader) (pb : Bytes) (rs : List O.BR) :
    ∃ a b c, parsePayload (constant A a b c) h pb rs = (parsePayloadS A s h pb rs).1 := by
  unfold parsePayload parsePayloadS
  simp only [constant_blocks, constant_payload, constant_packet]
  rcases Asker.ask A.blocks s rs with ⟨_ | _, s1⟩
  · exact ⟨false, true, true, by simp⟩
  · simp only
    by_cases hp : h.payload = true
    · simp only [hp, if_true]
      rcases PayloadHeader.tryBuf [pb.drop h.blocksLen] with ⟨(ph | n) | e | _, y⟩
      · simp only
        by_cases hl : h.blocksLen + ph.size > pb.length
        · exact ⟨true, true, true, by simp [hl]⟩
        · simp only [hl, if_false]
          rcases Asker.ask A.payload s1 (pb.drop (h.blocksLen + ph.size)) with ⟨_ | _, s2⟩
          · exact ⟨true, false, true, by simp⟩
          · simp only
            rcases Q.tryBuf ph [pb.drop (h.blocksLen + ph.size)] with ⟨(v | n) | e | _, z⟩
            · refine ⟨true, true, (Asker.ask A.packet s2 ⟨rs.map O.into, some v⟩).1, ?_⟩
              simp [finalS_const]
            · exact ⟨true, true, true, by simp⟩
            · exact ⟨true, true, true, by simp⟩
            · exact ⟨true, true, true, by simp⟩
      · exact ⟨true, true, true, by simp⟩
      · exact ⟨true, true, true, by simp⟩
      · exact ⟨true, true, true, by simp⟩
    · refine ⟨true, true, (Asker.ask A.packet s1 ⟨rs.map O.into, none⟩).1, ?_⟩
      simp [hp, finalS_const]

theorem parseS_const (A : Asker σ O.BR (Packet O Q)) (s : σ) (h : PacketHeader) (pb : Bytes) :
    ∃ a b c, parse (constant A a b c) h pb = (parseS A s h pb).1 := by
  unfold parse parseS
  by_cases hl : h.blocksLen > pb.length
  · exact ⟨true, true, true, by simp [hl]⟩
  · simp only [hl, if_false]
    generalize (if pb.take h.blocksLen = [] then ((.ok [], .dropConsume) : Out (List O.BR) × Fin) else blocksLoop O (pb.take h.blocksLen) MAX_BLOCKS 0 []) = r
    rcases r with ⟨rs | e | _, f⟩
    · exact parsePayloadS_const A s h pb rs
    · exact ⟨true, true, true, rfl⟩
    · exact ⟨true, true, true, rfl⟩

theorem finishS_const (A : Asker σ O.BR (Packet O Q)) (s : σ) (h : PacketHeader) (pb : Bytes) :
    ∃ a b c, (∀ n r, finish (constant A a b c) h pb n r = (finishS A s h pb n r).1) ∧ ∀ n r, (finishS A s h pb n r).2 = (parseS A s h pb).2 := by
  obtain ⟨a, b, c, e⟩ := parseS_const A s h pb
  refine ⟨a, b, c, fun n r => ?_, fun n r => ?_⟩
  · unfold finish finishS
    simp only [e]
    cases (parseS A s h pb).1.2 <;> rfl
  · unfold finishS
    simp only
    cases (parseS A s h pb).1.2 <;> rfl

/-- The packet about which this call of `read` asks the rules: header and body. -/
def askedOf (r : Rd) : Option (PacketHeader × Bytes) :=
  match r.recent with
  | .ready h =>
    match r.src.fill with
    | (some buf, _) =>
      if h.size > r.buffered.length + buf.length then none
      else if h.size < r.buffered.length then none
      else some (h, r.buffered ++ buf.take (h.size - r.buffered.length))
    | _ => none
  | .refill _ _ => none
  | .empty =>
    match r.src.fill with
    | (some buf, _) =>
      if buf.length < HSIZE then none
      else
        match readHeader buf with
        | .ok (.found h _ stop) =>
          if h.size + stop ≥ 2 ^ 64 then none
          else if h.size + stop > buf.length then none
          else some (h, slice buf stop h.size)
        | _ => none
    | _ => none

theorem ignoreTo_const (A : Asker σ O.BR (Packet O Q)) (a b c : Bool) (n : Nat) (buf : Bytes) (log : List Bytes) :
    ignoreTo (constant A a b c) n buf log = ignoreTo A.base n buf log := by
  unfold ignoreTo
  rw [constant_ignore]

theorem readRefill_const (A : Asker σ O.BR (Packet O Q)) (a b c chk : Bool) (x : Bytes) (n : Nat) (r : Rd) :
    readRefill (constant A a b c) chk x n r = readRefill A.base chk x n r := by
  unfold readRefill refillAll
  simp only [ignoreTo_const, constant_ignore]

/-- Refilling gives no packet. -/
theorem readRefill_quiet (rules : Rules O.BR (Packet O Q)) (chk : Bool) (x : Bytes) (n : Nat) (r : Rd) (p : Packet O Q) :
    (readRefill rules chk x n r).1 ≠ .ok (.found p) ∧ (readRefill rules chk x n r).1 ≠ .ok .skipped := by
  have all : ∀ buf k e r', (refillAll rules chk buf k e r').1 ≠ .ok (.found p) ∧ (refillAll rules chk buf k e r').1 ≠ .ok .skipped := by
    intro buf k e r'
    unfold refillAll
    cases readHeader buf with
    | ok y =>
      cases y with
      | found h a b => simp only; cases consumeDiff chk b k r'.src <;> simp
      | notEnough a b => simp
      | notFound => simp
    | err e => simp
    | panic => simp
  unfold readRefill
  rcases r.src.fill with ⟨_ | (_ | ⟨c, cs⟩), src⟩
  · simp
  · simp
  · simp only
    by_cases hl : (c :: cs).length < n
    · rw [if_pos hl]; simp
    · rw [if_neg hl]
      cases readHeader (x ++ (c :: cs).take n) with
      | ok y =>
        cases y with
        | found h a b => simp only; cases consumeDiff chk b x.length src <;> simp
        | notEnough a b => exact all _ _ _ _
        | notFound => exact all _ _ _ _
      | err e => simp
      | panic => simp

/-- A call that asks nothing. -/
theorem readS_none (A : Asker σ O.BR (Packet O Q)) (chk : Bool) (s : σ) {r : Rd} (h : askedOf r = none) (a b c : Bool) :
    readS A chk s r = (read (constant A a b c) chk r, s) ∧ ∀ p, (read (constant A a b c) chk r).1 ≠ .ok (.found p) ∧ (read (constant A a b c) chk r).1 ≠ .ok .skipped := by
  unfold readS Rd.read
  unfold askedOf at h
  cases hr : r.recent with
  | refill x n =>
    simp only
    rw [readRefill_const]
    exact ⟨rfl, readRefill_quiet _ _ _ _ _⟩
  | ready hd =>
    rw [hr] at h
    simp only at h ⊢
    unfold readReadyS readReady
    simp only
    rcases hf : r.src.fill with ⟨_ | buf, src⟩
    · simp
    · rw [hf] at h
      simp only at h ⊢
      by_cases h1 : hd.size > r.buffered.length + buf.length
      · simp [h1]
      · by_cases h2 : hd.size < r.buffered.length
        · simp [h1, h2]
        · rw [if_neg h1, if_neg h2] at h; cases h
  | empty =>
    rw [hr] at h
    simp only at h ⊢
    unfold readEmptyS readEmpty
    simp only [ignoreTo_const]
    rcases hf : r.src.fill with ⟨_ | (_ | ⟨c, cs⟩), src⟩
    · simp
    · simp
    · rw [hf] at h
      simp only at h ⊢
      by_cases h1 : (c :: cs).length < HSIZE
      · rw [if_pos h1, if_pos h1]; simp
      · rw [if_neg h1] at h ⊢
        rw [if_neg h1]
        cases hh : readHeader (c :: cs) with
        | ok y =>
          rw [hh] at h
          cases y with
          | found hd x y =>
            simp only at h ⊢
            by_cases h2 : hd.size + y ≥ 2 ^ 64
            · rw [if_pos h2, if_pos h2]; simp
            · rw [if_neg h2] at h ⊢
              rw [if_neg h2]
              by_cases h3 : hd.size + y > (c :: cs).length
              · rw [if_pos h3, if_pos h3]; simp
              · rw [if_neg h3] at h; cases h
          | notEnough x y => simp
          | notFound => simp
        | err e => simp
        | panic => simp

theorem finish_fst (rules : Rules O.BR (Packet O Q)) (h : PacketHeader) (pb : Bytes) (n : Nat) (r : Rd) :
    (finish rules h pb n r).1 = (parse rules h pb).1 := by
  unfold finish
  simp only
  cases (parse rules h pb).2 <;> rfl

/-- A call that asks about a packet. -/
theorem readS_some (A : Asker σ O.BR (Packet O Q)) (chk : Bool) (s : σ) {r : Rd} {h : PacketHeader} {pb : Bytes} (ht : askedOf r = some (h, pb)) :
    ∃ a b c, readS A chk s r = (read (constant A a b c) chk r, (parseS A s h pb).2) ∧ (read (constant A a b c) chk r).1 = (parseS A s h pb).1.1 := by
  obtain ⟨a, b, c, e1, e2⟩ := finishS_const A s h pb
  have e3 : ∀ n r, (finish (constant A a b c) h pb n r).1 = (parseS A s h pb).1.1 := by
    intro n r
    rw [e1]
    unfold finishS
    simp only
    cases (parseS A s h pb).1.2 <;> rfl
  have e4 : ∀ n r, finishS A s h pb n r = (finish (constant A a b c) h pb n r, (parseS A s h pb).2) := by
    intro n r
    rw [e1, ← e2 n r]
  refine ⟨a, b, c, ?_⟩
  unfold readS Rd.read
  unfold askedOf at ht
  cases hr : r.recent with
  | refill x n => rw [hr] at ht; cases ht
  | ready hd =>
    rw [hr] at ht
    simp only at ht ⊢
    unfold readReadyS readReady
    simp only
    rcases hf : r.src.fill with ⟨_ | buf, src⟩
    · rw [hf] at ht; cases ht
    · rw [hf] at ht
      simp only at ht ⊢
      by_cases h1 : hd.size > r.buffered.length + buf.length
      · rw [if_pos h1] at ht; cases ht
      · rw [if_neg h1] at ht ⊢
        rw [if_neg h1]
        by_cases h2 : hd.size < r.buffered.length
        · rw [if_pos h2] at ht; cases ht
        · rw [if_neg h2] at ht ⊢
          rw [if_neg h2]
          have ht := Option.some.inj ht
          obtain ⟨rfl, rfl⟩ := Prod.mk.inj ht
          exact ⟨e4 _ _, e3 _ _⟩
  | empty =>
    rw [hr] at ht
    simp only at ht ⊢
    unfold readEmptyS readEmpty
    simp only [ignoreTo_const]
    rcases hf : r.src.fill with ⟨_ | (_ | ⟨x, xs⟩), src⟩
    · rw [hf] at ht; cases ht
    · rw [hf] at ht; simp [HSIZE] at ht
    · rw [hf] at ht
      simp only at ht ⊢
      by_cases h1 : (x :: xs).length < HSIZE
      · rw [if_pos h1] at ht; cases ht
      · rw [if_neg h1] at ht ⊢
        rw [if_neg h1]
        cases hh : readHeader (x :: xs) with
        | ok y =>
          rw [hh] at ht
          cases y with
          | found hd u v =>
            simp only at ht ⊢
            by_cases h2 : hd.size + v ≥ 2 ^ 64
            · rw [if_pos h2] at ht; cases ht
            · rw [if_neg h2] at ht ⊢
              rw [if_neg h2]
              by_cases h3 : hd.size + v > (x :: xs).length
              · rw [if_pos h3] at ht; cases ht
              · rw [if_neg h3] at ht ⊢
                rw [if_neg h3]
                have ht := Option.some.inj ht
                obtain ⟨rfl, rfl⟩ := Prod.mk.inj ht
                exact ⟨e4 _ _, e3 _ _⟩
          | notEnough u v => cases ht
          | notFound => cases ht
        | err e => rw [hh] at ht; cases ht
        | panic => rw [hh] at ht; cases ht

/-! ## One packet -/

/-- On a whole packet the rules are asked as `judge` says. -/
theorem parseS_eq {p : Packet O Q} {h : PacketHeader} {pb : Bytes} (hok : ∀ b ∈ p.blocks, S.ok b) (sh : Packet.Shape S p h pb) (hn : p.blocks.length ≤ 255)
    (A : Asker σ O.BR (Packet O Q)) (s : σ) :
    parseS A s h (S.encs p.blocks ++ pb) = ((.ok (if (judge S A s p).1 then .found p else .skipped), .dropConsume), (judge S A s p).2) := by
  have hbl := sh.blocksLen
  unfold parseS
  rw [if_neg (by rw [hbl]; simp)]
  have hr : (if (S.encs p.blocks ++ pb).take h.blocksLen = [] then ((.ok [], .dropConsume) : Out (List O.BR) × Fin)
      else blocksLoop O ((S.encs p.blocks ++ pb).take h.blocksLen) MAX_BLOCKS 0 []) =
      (.ok (p.blocks.map S.ref), .dropConsume) := by
    rw [hbl, List.take_left' rfl]
    by_cases hne : p.blocks = []
    · simp [hne, BlockSpec.encs]
    · have hpos := S.encs_pos hok hne
      rw [if_neg (by intro e; rw [e] at hpos; simp at hpos),
        blocksLoop_eq hok hne (by omega) (by simp) (by simpa [MAX_BLOCKS] using hn)]
      simp
  rw [hr]
  simp only
  have hfin : ∀ s (p : Packet O Q), finalS A s p = ((.ok (if (judge.last A p s).1 then .found p else .skipped), .dropConsume), (judge.last A p s).2) := by
    intro s p
    unfold finalS judge.last Asker.ask
    cases A.packet with
    | none => simp
    | some f =>
      obtain ⟨b, s', hx⟩ : ∃ b s', f s p = (b, s') := ⟨_, _, rfl⟩
      simp only [hx]
      cases b <;> simp
  have hinto := map_into hok
  have hflag := sh.flag
  have hpt := sh.part
  have hrest : ∀ s, (if h.payload then
      match PayloadHeader.tryBuf [(S.encs p.blocks ++ pb).drop h.blocksLen] with
      | (.ok (.success ph), _) =>
        if h.blocksLen + ph.size > (S.encs p.blocks ++ pb).length then ((.panic, .leave), s)
        else
          match Asker.ask A.payload s ((S.encs p.blocks ++ pb).drop (h.blocksLen + ph.size)) with
          | (false, s2) => ((.ok .skipped, .dropConsume), s2)
          | (true, s2) =>
            match Q.tryBuf ph [(S.encs p.blocks ++ pb).drop (h.blocksLen + ph.size)] with
            | (.ok (.success v), _) => finalS A s2 ⟨(p.blocks.map S.ref).map O.into, some v⟩
            | (.ok (.notEnough n), _) => ((.err (.notEnoughData n), .dropConsume), s2)
            | (.err e, _) => ((.err e, .leave), s2)
            | (.panic, _) => ((.panic, .leave), s2)
      | (.ok (.notEnough n), _) => ((.err (.notEnoughData n), .dropConsume), s)
      | (.err e, _) => ((.err e, .dropConsume), s)
      | (.panic, _) => ((.panic, .leave), s)
    else finalS A s ⟨(p.blocks.map S.ref).map O.into, none⟩) =
      (((.ok (if (judge.rest A p s).1 then .found p else .skipped), .dropConsume), (judge.rest A p s).2) : (Out (Next (Packet O Q)) × Fin) × σ) := by
    intro s
    unfold judge.rest bodyOf
    obtain ⟨blocks, payload⟩ := p
    cases hpt with
    | none =>
      simp only [hflag, Option.isSome_none, Bool.false_eq_true, if_false, hinto]
      exact hfin s _
    | @some v ph x g =>
      simp only [hflag, Option.isSome_some, if_true, hinto, hbl, g.parts_eq]
      have hd1 : List.drop (S.encs blocks).length (S.encs blocks ++ (ph.asVec ++ x)) = ph.asVec ++ x := by simp
      have hd2 : List.drop ((S.encs blocks).length + ph.size) (S.encs blocks ++ (ph.asVec ++ x)) = x := by
        rw [← List.drop_drop, hd1, ← PayloadHeader.size_eq]; simp
      rw [hd1, PayloadHeader.tryBuf, Chunks.fill_single, PayloadHeader.peek_asVec ph g.len_lt]
      simp only
      rw [hd2, g.tryBuf_eq [x] [] (by simp)]
      rw [if_neg (by rw [← PayloadHeader.size_eq]; simp)]
      simp only
      unfold Asker.ask
      cases A.payload with
      | none => exact hfin s _
      | some f =>
        obtain ⟨b, s', hx⟩ : ∃ b s', f s x = (b, s') := ⟨_, _, rfl⟩
        simp only [hx]
        cases b
        · simp
        · simpa using hfin s' _
  unfold parsePayloadS judge
  have hask : ∀ f, A.blocks = some f → Asker.ask A.blocks s (p.blocks.map S.ref) = f s (p.blocks.map S.ref) := by
    intro f e; rw [e]; rfl
  cases hA : A.blocks with
  | none => exact hrest s
  | some f =>
    rw [hA] at hask
    rw [hask f rfl]
    obtain ⟨b, s', hx⟩ : ∃ b s', f s (p.blocks.map S.ref) = (b, s') := ⟨_, _, rfl⟩
    simp only [hx]
    cases b
    · simp
    · exact hrest s'

/-- On a stream the rules are only asked about the next packet. -/
theorem askedOf_stream {E : Prop} {r : Rd} {is : List (Bytes × Packet O Q)} {t : Bytes} (inv : InvE S E r is t) (hE : is = [] → E) {h : PacketHeader} {x : Bytes}
    (ht : askedOf r = some (h, x)) : ∃ l p rest pb, is = (l, p) :: rest ∧ Packet.Shape S p h pb ∧ x = S.encs p.blocks ++ pb := by
  obtain ⟨pl, hg, hns, st⟩ := inv
  have hns := fun e => hns (hE e)
  unfold askedOf at ht
  cases hr : r.recent with
  | refill b n => rw [hr] at ht; cases ht
  | ready hd =>
    rw [hr] at ht st
    simp only at ht
    obtain ⟨p, rest, pb, rfl, sh, hb, hle⟩ := st
    have hsz := sh.size
    refine ⟨[], p, rest, pb, rfl, ?_⟩
    have key : ∀ buf tail : Bytes, r.src.bytes = buf ++ tail →
        (if hd.size > r.buffered.length + buf.length then none else if hd.size < r.buffered.length then none
          else some (hd, r.buffered ++ buf.take (hd.size - r.buffered.length))) = some (h, x) → Packet.Shape S p h pb ∧ x = S.encs p.blocks ++ pb := by
      intro buf tail e ht
      by_cases h1 : hd.size > r.buffered.length + buf.length
      · rw [if_pos h1] at ht; cases ht
      · rw [if_neg h1, if_neg (by omega)] at ht
        obtain ⟨rfl, rfl⟩ := Prod.mk.inj (Option.some.inj ht)
        refine ⟨sh, ?_⟩
        rw [e] at hb
        have e' : (r.buffered ++ buf.take (hd.size - r.buffered.length)) ++ (buf.drop (hd.size - r.buffered.length) ++ tail) =
            (S.encs p.blocks ++ pb) ++ stream rest t := by
          rw [← hb, List.append_assoc]
          congr 1
          rw [← List.append_assoc, List.take_append_drop]
        exact (List.append_inj e' (by simp; omega)).1
    rcases pl.cases with hs | ⟨b, es, hs, hne, hlt, pl'⟩
    · rw [hs] at ht
      exact key [] [] (by rw [hs]; rfl) ht
    · rw [hs, Events.fill_some hne] at ht
      exact key b (Events.bytes es) (by rw [hs]; simp) ht
  | empty =>
    rw [hr] at ht st
    simp only at ht st
    rcases pl.cases with hs | ⟨b, es, hs, hne, hlt, pl'⟩
    · rw [hs] at ht
      simp [Events.fill, HSIZE] at ht
    · rw [hs, Events.fill_some hne] at ht
      rw [hs, Events.bytes_cons] at st
      simp only at ht
      have hB : b <+: stream is t := ⟨_, st⟩
      by_cases h29 : b.length < HSIZE
      · rw [if_pos h29] at ht; cases ht
      · rw [if_neg h29] at ht
        rcases readHeader_stream hg hns hB with ⟨e, _, hl⟩ | ⟨l, p, rest, hd, pb, rfl, g, sh, hlb, hh⟩
        · rw [e] at ht; cases ht
        · rcases hh with ⟨_, e⟩ | ⟨hl, e⟩
          · rw [e] at ht; cases ht
          · rw [e] at ht
            simp only at ht
            by_cases h2 : hd.size + (l.length + 29) ≥ 2 ^ 64
            · rw [if_pos h2] at ht; cases ht
            · rw [if_neg h2] at ht
              by_cases h3 : hd.size + (l.length + 29) > b.length
              · rw [if_pos h3] at ht; cases ht
              · rw [if_neg h3] at ht
                obtain ⟨rfl, rfl⟩ := Prod.mk.inj (Option.some.inj ht)
                refine ⟨l, p, rest, pb, rfl, sh, ?_⟩
                have hsz := sh.size
                have e2 := stream_after (l := l) g.ok.blocks sh rest t
                rw [← st, List.drop_append_of_le_length (by omega)] at e2
                unfold slice
                have e3 := congrArg (List.take hd.size) e2
                rw [List.take_append_of_le_length (by simp; omega), List.append_assoc, ← List.append_assoc, List.take_left' (by simp; omega)] at e3
                exact e3

/-! ## Runs -/

theorem readsS_succ {A : Asker σ O.BR (Packet O Q)} {chk : Bool} {s : σ} {r : Rd} (h : (readS A chk s r).1.1 ≠ .panic) (n : Nat) :
    readsS A chk (n + 1) s r =
      ((readS A chk s r).1.1 :: (readsS A chk n (readS A chk s r).2 (readS A chk s r).1.2).1, (readsS A chk n (readS A chk s r).2 (readS A chk s r).1.2).2) := by
  rw [readsS]
  match hx : readS A chk s r with
  | ((.panic, r'), s') => rw [hx] at h; exact absurd rfl h
  | ((.ok a, r'), s') => rfl
  | ((.err e, r'), s') => rfl

/-- The results of the calls: what was asked. -/
def answers (S : BlockSpec O) (A : Asker σ O.BR (Packet O Q)) (s : σ) (ps : List (Packet O Q)) : List (Out (Next (Packet O Q))) :=
  (judgeAll S A s ps).1.map Out.ok ++ [.ok .noData]

/-- Whole runs, as long as a guard excludes the underflow, cf. `Rd.run`. -/
theorem runS {A : Asker σ O.BR (Packet O Q)} {chk : Bool} (G : Rd → List (Bytes × Packet O Q) → Prop)
    (hbad : ∀ r is t, Inv S r is t → G r is → ¬ Bad r is)
    (hnext : ∀ (rules : Rules O.BR (Packet O Q)) r is t is', Inv S r is t → G r is → (is' = is.tail ∨ ∃ k, is' = dropItems k is) →
      (read rules chk r).1 ≠ .panic → G (read rules chk r).2 is')
    (s : σ) (r : Rd) (is : List (Bytes × Packet O Q)) (t : Bytes) (inv : Inv S r is t) (hG : G r is) :
    ∃ n, loud (readsS A chk n s r).1 = answers S A s (is.map Prod.snd) ∧ (readsS A chk n s r).2.2 = (judgeAll S A s (is.map Prod.snd)).2 ∧
      LogAdd A.base r.log (readsS A chk n s r).2.1.log (litters is t) ∧
      (readsS A chk n s r).2.1.src = [] ∧ (readsS A chk n s r).2.1.recent = .empty := by
  have hlog : ∀ {a b c : Bool} {x y : List Bytes} {z : Bytes}, LogAdd (constant A a b c) x y z → LogAdd A.base x y z := by
    intro a b c x y z h
    unfold LogAdd at *
    rwa [constant_ignore] at h
  induction hm : meas r using Nat.strongRecOn generalizing s r is t with
  | _ m ih =>
    subst hm
    cases htg : askedOf r with
    | none =>
      obtain ⟨e, hno⟩ := readS_none A chk s htg true true true
      have st := step (rules := constant A true true true) (chk := chk) inv (hbad r is t inv hG)
      have hr' : (readS A chk s r).1.2 = (read (constant A true true true) chk r).2 := by rw [e]
      have hs' : (readS A chk s r).2 = s := by rw [e]
      have ho' : (readS A chk s r).1.1 = (read (constant A true true true) chk r).1 := by rw [e]
      cases st with
      | quiet k q hk inv' log lt =>
        have hnp : (read (constant A true true true) chk r).1 ≠ .panic := by rcases q with ⟨n, q⟩ | q <;> rw [q] <;> simp
        have hq : isQuiet (read (constant A true true true) chk r).1 = true := by rcases q with ⟨n, q⟩ | q <;> rw [q] <;> rfl
        obtain ⟨n, h1, h2, h3, h4, h5⟩ := ih _ lt s _ _ _ inv' (hnext _ r is t _ inv hG (.inr ⟨k, rfl⟩) hnp) rfl
        rw [snd_dropItems] at h1 h2
        refine ⟨n + 1, ?_, ?_, ?_, ?_, ?_⟩ <;> rw [readsS_succ (by rw [ho']; exact hnp), hr', hs', ho']
        · rw [loud, List.filter_cons, hq]
          exact h1
        · exact h2
        · rw [litters_drop is t k]; exact (hlog log).trans h3
        · exact h4
        · exact h5
      | packet l p rest e' res inv' log lt =>
        exfalso
        unfold verdict at res
        split at res
        · exact (hno p).1 res
        · exact (hno p).2 res
      | done e' res log src recent =>
        subst e'
        have hnp : (read (constant A true true true) chk r).1 ≠ .panic := by rw [res]; simp
        refine ⟨1, ?_, ?_, ?_, ?_, ?_⟩ <;> rw [readsS_succ (by rw [ho']; exact hnp), hr', hs', ho']
        · rw [loud, List.filter_cons, res]; rfl
        · rfl
        · simpa [litters, readsS] using hlog log
        · exact src
        · exact recent
    | some y =>
      obtain ⟨h, x⟩ := y
      obtain ⟨l, p, rest, pb, rfl, sh, rfl⟩ := askedOf_stream inv (fun _ => trivial) htg
      have g := inv.good _ List.mem_cons_self
      obtain ⟨a, b, c, e, hres⟩ := readS_some A chk s htg
      rw [parseS_eq g.ok.blocks sh g.blocks] at e hres
      have st := step (rules := constant A a b c) (chk := chk) inv (hbad r _ t inv hG)
      have hr' : (readS A chk s r).1.2 = (read (constant A a b c) chk r).2 := by rw [e]
      have hs' : (readS A chk s r).2 = (judge S A s p).2 := by rw [e]
      have ho' : (readS A chk s r).1.1 = .ok (if (judge S A s p).1 then .found p else .skipped) := by rw [e]; exact hres
      have hnp : (readS A chk s r).1.1 ≠ .panic := by rw [ho']; simp
      have hq : isQuiet (.ok (if (judge S A s p).1 then .found p else .skipped) : Out (Next (Packet O Q))) = false := by split <;> rfl
      cases st with
      | quiet k q hk inv' log lt =>
        exfalso
        have : isQuiet (read (constant A a b c) chk r).1 = true := by rcases q with ⟨n, q⟩ | q <;> rw [q] <;> rfl
        rw [hres, hq] at this
        cases this
      | packet l' p' rest' e' res inv' log lt =>
        obtain ⟨⟨rfl, rfl⟩, rfl⟩ : (l = l' ∧ p = p') ∧ rest = rest' := by simpa using e'
        obtain ⟨n, h1, h2, h3, h4, h5⟩ := ih _ lt (judge S A s p).2 _ _ _ inv' (hnext _ r _ t _ inv hG (.inl rfl) (by rw [hres]; simp)) rfl
        refine ⟨n + 1, ?_, ?_, ?_, ?_, ?_⟩ <;> rw [readsS_succ hnp, hr', hs', ho']
        · rw [loud, List.filter_cons, hq]
          simp only [Bool.not_false, if_true, answers, List.map_cons, judgeAll, List.cons_append]
          congr 1
        · exact h2
        · have : litters ((l, p) :: rest) t = l ++ litters rest t := by simp [litters]
          rw [this]
          exact (hlog log).trans h3
        · exact h4
        · exact h5
      | done e' => cases e'

/-- At the end nothing is asked any more. -/
theorem readsS_end {A : Asker σ O.BR (Packet O Q)} {chk : Bool} (k : Nat) (s : σ) {r : Rd} (h1 : r.src = []) (h2 : r.recent = .empty) :
    (readsS A chk k s r).1 = List.replicate k (.ok .noData) ∧ (readsS A chk k s r).2.2 = s := by
  have key : ∀ r : Rd, r.src = [] → r.recent = .empty → readS A chk s r = ((.ok .noData, { r with buffered := [] }), s) := by
    intro r h1 h2
    have ha : askedOf r = none := by
      unfold askedOf
      simp [h1, h2, Events.fill, HSIZE]
    rw [(readS_none A chk s ha true true true).1, noData_forever h1 h2]
  induction k generalizing r with
  | zero => exact ⟨rfl, rfl⟩
  | succ k ih =>
    rw [readsS_succ (by rw [key r h1 h2]; simp), key r h1 h2]
    obtain ⟨e1, e2⟩ := ih (r := { r with buffered := [] }) h1 h2
    exact ⟨by rw [List.replicate_succ]; simp only; rw [e1], e2⟩

/-! ## The rules without memory are those of the other models -/

/-- Filters that do not look at the state. -/
def forgetful (ig : Bool) (fb : Option (List O.BR → Bool)) (fp : Option (Bytes → Bool)) (fq : Option (Packet O Q → Bool)) : Asker σ O.BR (Packet O Q) where
  ignored := ig
  blocks := fb.map fun f s x => (f x, s)
  payload := fp.map fun f s x => (f x, s)
  packet := fq.map fun f s x => (f x, s)

/-- The same as rules. -/
def forgetfulRules (ig : Bool) (fb : Option (List O.BR → Bool)) (fp : Option (Bytes → Bool)) (fq : Option (Packet O Q → Bool)) : Rules O.BR (Packet O Q) :=
  (if ig then [.ignored 0] else []) ++ (fb.map Rule.byBlocks).toList ++ (fp.map Rule.byPayload).toList ++ (fq.map Rule.filter).toList

/-- **C105**. The reader with rules that remember is the reader of the other properties if they do not. -/
theorem C105_forgetful (ig : Bool) (fb : Option (List O.BR → Bool)) (fp : Option (Bytes → Bool)) (fq : Option (Packet O Q → Bool)) (chk : Bool) (n : Nat) (s : σ) (r : Rd) :
    readsS (forgetful ig fb fp fq) chk n s r = ((reads (forgetfulRules ig fb fp fq) chk n r).1, (reads (forgetfulRules ig fb fp fq) chk n r).2, s) := by
  generalize hA : (forgetful ig fb fp fq : Asker σ O.BR (Packet O Q)) = A
  generalize hR : forgetfulRules ig fb fp fq = R
  have hb : ∀ s x, Asker.ask A.blocks s x = (R.filterByBlocks x, s) := by
    subst hA hR; intro s x; cases ig <;> cases fb <;> cases fp <;> cases fq <;> rfl
  have hp : ∀ s x, Asker.ask A.payload s x = (R.filterByPayload x, s) := by
    subst hA hR; intro s x; cases ig <;> cases fb <;> cases fp <;> cases fq <;> rfl
  have hq : ∀ s x, Asker.ask A.packet s x = (R.filter x, s) := by
    subst hA hR; intro s x; cases ig <;> cases fb <;> cases fp <;> cases fq <;> rfl
  have hi : A.base.ignore = R.ignore := by
    subst hA hR; funext x; cases ig <;> cases fb <;> cases fp <;> cases fq <;> rfl
  have hto : ∀ n b l, ignoreTo A.base n b l = ignoreTo R n b l := by
    intro n b l; unfold ignoreTo; rw [hi]
  have hfin : ∀ s p, finalS A s p = ((if R.filter p then (.ok (.found p), .dropConsume) else (.ok .skipped, .dropConsume)), s) := by
    intro s p
    unfold finalS
    rw [hq]
    cases R.filter p <;> rfl
  have hpp : ∀ s h pb rs, parsePayloadS A s h pb rs = (parsePayload R h pb rs, s) := by
    intro s h pb rs
    unfold parsePayloadS parsePayload
    rw [hb]
    cases R.filterByBlocks rs with
    | false => rfl
    | true =>
      simp only [not_true, if_false]
      cases h.payload with
      | false => exact hfin _ _
      | true =>
        simp only [if_true]
        rcases PayloadHeader.tryBuf [pb.drop h.blocksLen] with ⟨(ph | n) | e | _, y⟩
        · simp only
          by_cases hl : h.blocksLen + ph.size > pb.length
          · rw [if_pos hl, if_pos hl]
          · rw [if_neg hl, if_neg hl, hp]
            cases R.filterByPayload (pb.drop (h.blocksLen + ph.size)) with
            | false => rfl
            | true =>
              simp only [not_true, if_false]
              rcases Q.tryBuf ph [pb.drop (h.blocksLen + ph.size)] with ⟨(v | n) | e | _, z⟩
              · exact hfin _ _
              · rfl
              · rfl
              · rfl
        · rfl
        · rfl
        · rfl
  have hparse : ∀ s h pb, parseS A s h pb = (parse R h pb, s) := by
    intro s h pb
    unfold parseS parse
    by_cases hl : h.blocksLen > pb.length
    · rw [if_pos hl, if_pos hl]
    · rw [if_neg hl, if_neg hl]
      simp only
      generalize (if pb.take h.blocksLen = [] then ((.ok [], .dropConsume) : Out (List O.BR) × Fin) else blocksLoop O (pb.take h.blocksLen) MAX_BLOCKS 0 []) = r
      rcases r with ⟨rs | e | _, f⟩
      · exact hpp _ _ _ _
      · rfl
      · rfl
  have hfinish : ∀ s h pb n r, finishS A s h pb n r = (finish R h pb n r, s) := by
    intro s h pb n r
    unfold finishS finish
    simp only [hparse]
    cases (parse R h pb).2 <;> rfl
  have hrefill : ∀ x n r, readRefill A.base chk x n r = readRefill R chk x n r := by
    intro x n r
    unfold readRefill refillAll
    simp only [hto, hi]
  have hread : ∀ s r, readS A chk s r = (read R chk r, s) := by
    intro s r
    unfold readS Rd.read
    cases r.recent with
    | refill x n => simp only; rw [hrefill]
    | ready h =>
      simp only
      unfold readReadyS readReady
      simp only [hfinish]
      rcases r.src.fill with ⟨_ | buf, src⟩
      · rfl
      · simp only
        by_cases h1 : h.size > r.buffered.length + buf.length
        · rw [if_pos h1, if_pos h1]
        · rw [if_neg h1, if_neg h1]
          by_cases h2 : h.size < r.buffered.length
          · rw [if_pos h2, if_pos h2]
          · rw [if_neg h2, if_neg h2]
    | empty =>
      simp only
      unfold readEmptyS readEmpty
      simp only [hfinish, hto]
      rcases r.src.fill with ⟨_ | (_ | ⟨c, cs⟩), src⟩
      · rfl
      · rfl
      · simp only
        by_cases h1 : (c :: cs).length < HSIZE
        · rw [if_pos h1, if_pos h1]
        · rw [if_neg h1, if_neg h1]
          cases readHeader (c :: cs) with
          | err e => rfl
          | panic => rfl
          | ok y =>
            cases y with
            | notFound => rfl
            | notEnough u v => rfl
            | found h u v =>
              simp only
              by_cases h2 : h.size + v ≥ 2 ^ 64
              · rw [if_pos h2, if_pos h2]
              · rw [if_neg h2, if_neg h2]
                by_cases h3 : h.size + v > (c :: cs).length
                · rw [if_pos h3, if_pos h3]
                · rw [if_neg h3, if_neg h3]
  clear hA hR
  induction n generalizing r with
  | zero => rfl
  | succ n ih =>
    rw [readsS, reads, hread]
    rcases read R chk r with ⟨o | e | _, r'⟩
    · simp only; rw [ih]
    · simp only; rw [ih]
    · rfl

/-! ## C105 -/

/-- **C105**. Over a stream of packets, read in any portions, the rules are asked once about each packet, in the order of the packets; the results and what
the rules remember at the end are those of asking them in turn, and the calls behind the end ask nothing. -/
theorem C105_stream_partial (A : Asker σ O.BR (Packet O Q)) (chk : Bool) (s : σ) (ps : List (Packet O Q)) (hp : ∀ p ∈ ps, p.Ok S ∧ p.blocks.length ≤ 255) (cs : Chunks)
    (hc : Cuts cs (ps.map wire).flatten) :
    ∃ n, loud (readsS A chk n s (.new (cs.map some))).1 = (judgeAll S A s ps).1.map Out.ok ++ [.ok .noData] ∧
      (readsS A chk n s (.new (cs.map some))).2.2 = (judgeAll S A s ps).2 ∧
      (readsS A chk n s (.new (cs.map some))).2.1.log = [] ∧
      ∀ k, (readsS A chk k (judgeAll S A s ps).2 (readsS A chk n s (.new (cs.map some))).2.1).1 = List.replicate k (.ok .noData) ∧
        (readsS A chk k (judgeAll S A s ps).2 (readsS A chk n s (.new (cs.map some))).2.1).2.2 = (judgeAll S A s ps).2 := by
  have hs : (ps.map wire).flatten = stream (ps.map fun p => ([], p)) [] := by
    clear hc hp
    induction ps with
    | nil => rfl
    | cons p ps ih => simp [stream, ih]
  have hg : ∀ x ∈ ps.map (fun p => (([] : Bytes), p)), GoodItem S x := by
    intro x hx
    obtain ⟨p, hp', rfl⟩ := List.mem_map.mp hx
    exact ⟨free_nil, (hp p hp').1, (hp p hp').2, .inl rfl⟩
  have inv := inv_new (S := S) hc.2 (hc.1.trans hs) hg (by intro j; simp [PACKET_SIG])
  obtain ⟨n, h1, h2, h3, h4, h5⟩ := runS (chk := chk) (A := A) (fun _ is => ∀ x ∈ is, x.1 = [])
    (fun r is t inv hG => not_bad_pure inv hG)
    (fun rules r is t is' _ hG hi _ => by
      rcases hi with rfl | ⟨k, rfl⟩
      · exact fun x hx => hG x (List.mem_of_mem_tail hx)
      · cases is with
        | nil => simp [dropItems]
        | cons y is =>
          obtain ⟨l, p⟩ := y
          intro x hx
          rcases List.mem_cons.mp hx with rfl | hx
          · have := hG (l, p) List.mem_cons_self
            simp only at this
            simp [this]
          · exact hG x (List.mem_cons_of_mem _ hx))
    s _ _ _ inv (by intro x hx; obtain ⟨p, _, rfl⟩ := List.mem_map.mp hx; rfl)
  have hsnd : (ps.map fun p => (([] : Bytes), p)).map Prod.snd = ps := by
    rw [List.map_map]; exact List.map_id _
  rw [hsnd] at h1 h2
  refine ⟨n, h1, h2, ?_, fun k => readsS_end k _ h4 h5⟩
  obtain ⟨xs, e1, e2, e3⟩ := h3
  have hl : litters (ps.map fun p => (([] : Bytes), p)) [] = [] := by
    simp [litters, List.map_map, Function.comp_def]
  rw [hl] at e1
  have : xs = [] := by
    cases xs with
    | nil => rfl
    | cons x xs => rw [List.flatten_cons, List.append_eq_nil_iff] at e1; exact absurd e1.1 (e2 x List.mem_cons_self)
  subst this
  simpa [Rd.new] using e3

/-- **C105**. The same with other bytes between the packets, under the conditions of `C23_long_reads_partial`. -/
theorem C105_litter_partial (A : Asker σ O.BR (Packet O Q)) (chk : Bool) (s : σ) (is : List (Bytes × Packet O Q)) (t : Bytes) (cs : Chunks)
    (hi : ∀ x ∈ is, GoodItem S x) (ht : NoSig t) (hc : Cuts cs (stream is t)) (hl : ∀ c ∈ cs.dropLast, 29 ≤ c.length) :
    ∃ n, loud (readsS A chk n s (.new (cs.map some))).1 = (judgeAll S A s (is.map Prod.snd)).1.map Out.ok ++ [.ok .noData] ∧
      (readsS A chk n s (.new (cs.map some))).2.2 = (judgeAll S A s (is.map Prod.snd)).2 ∧
      ∀ k, (readsS A chk k (judgeAll S A s (is.map Prod.snd)).2 (readsS A chk n s (.new (cs.map some))).2.1).2.2 = (judgeAll S A s (is.map Prod.snd)).2 := by
  have inv := inv_new (S := S) hc.2 hc.1 hi ht
  have hlong : Events.Long (cs.map some) := by
    intro c h
    rw [← List.map_dropLast] at h
    obtain ⟨c', h', e⟩ := List.mem_map.mp h
    rw [← Option.some.inj e]
    exact hl _ h'
  obtain ⟨n, h1, h2, _, h4, h5⟩ := runS (chk := chk) (A := A) (fun r _ => LongInv r ∧ Sane r)
    (fun r is t _ hG => not_bad_long hG.1)
    (fun rules r is t is' _ hG _ _ => ⟨hG.1.read hG.2 rules chk, hG.2.read rules chk⟩)
    s _ _ _ inv ⟨⟨Long_tail hlong, fun b n e => by cases e⟩, ⟨trivial⟩⟩
  exact ⟨n, h1, h2, fun k => (readsS_end k _ h4 h5).2⟩

/-- A rule that counts how often it is asked. -/
def counting : Asker Nat O.BR (Packet O Q) := ⟨false, some fun n _ => (true, n + 1), none, none⟩

/-- The rest of C105: also when the bodies of packets are damaged, no rule is asked more than once about a packet. -/
def C105_full : Prop :=
  ∀ (O : BlockOps) (Q : PayloadOps) (S : BlockSpec O) (chk : Bool) (xs : List (Packet O Q × Bytes)), (∀ x ∈ xs, Damage S x) →
    ∀ cs, Cuts cs (xs.map fun x => hit x.1 x.2).flatten → ∀ n, (readsS (counting : Asker Nat O.BR (Packet O Q)) chk n 0 (.new (cs.map some))).2.2 ≤ xs.length

/-- **C105** fails for damaged payloads: each call asks about the same packet again. -/
theorem C105_not : ¬ C105_full := by
  intro h
  have := h (blockEnum sampleTypes) (PEnum.ops []) sampleSpec true [(oneByte, oneByteHeader.asVec ++ [2])]
    (by intro x hx; rw [List.mem_singleton.mp hx]; exact oneByte_damage) [hit oneByte (oneByteHeader.asVec ++ [2])]
    ⟨by simp, by
      intro c hc
      rw [List.mem_singleton.mp hc]
      decide +kernel⟩ 2
  revert this
  decide +kernel

/-- Non-vacuity: a rule that takes every other packet. -/
def everyOther : Asker Bool (blockEnum sampleTypes).BR (Packet (blockEnum sampleTypes) (PEnum.ops [])) := ⟨true, none, none, some fun b _ => (b, !b)⟩

example : ∃ n, loud (readsS everyOther true n true (.new ([samplePacket, samplePacket, samplePacket].map fun p => some (wire p)))).1 =
    [.ok (.found samplePacket), .ok .skipped, .ok (.found samplePacket), .ok .noData] := by
  obtain ⟨n, h, _⟩ := C105_stream_partial (S := sampleSpec) everyOther true true [samplePacket, samplePacket, samplePacket]
    (by intro p hp; simp at hp; subst hp; exact ⟨samplePacket_ok, by decide⟩) ([samplePacket, samplePacket, samplePacket].map wire)
    ⟨rfl, by
      intro c hc
      have : c = wire samplePacket := by simpa using hc
      rw [this]
      exact ⟨by decide +kernel, by decide +kernel⟩⟩
  refine ⟨n, ?_⟩
  rw [List.map_map] at h
  refine h.trans ?_
  simp [judgeAll, judge, judge.rest, judge.last, everyOther]

end Brec.Props
