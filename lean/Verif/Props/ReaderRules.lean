import Verif.Props.ReaderLimits
import Verif.Props.Damaged
/-!
# Property C71: what rules can do to a `PacketBufReader`

Two readers in the same state, one with rules and one without, on whatever bytes: what a single call of `read` gives, and what any number of
calls give if the rules are changed between the calls.
-/

namespace Brec.Props

open Brec Rd

variable {O : BlockOps} {Q : PayloadOps}

/-- Two readers that differ in what the `Ignored` callback was called with only. -/
structure Alike (a b : Rd) : Prop where
  src : a.src = b.src
  recent : a.recent = b.recent
  buffered : a.buffered = b.buffered

theorem Alike.refl (r : Rd) : Alike r r := ⟨rfl, rfl, rfl⟩

/-- All rules that are there accept the packet: `rs` is what the blocks rule is shown, `body` what the payload rule is shown. -/
def Agrees (rules : Rules O.BR (Packet O Q)) (rs : List O.BR) (body : Option Bytes) (p : Packet O Q) : Bool :=
  passBlocks rules rs && (match body with | none => true | some b => passPayload rules b) && passPacket rules p

theorem Agrees_eq (rules : Rules O.BR (Packet O Q)) (rs : List O.BR) (body : Option Bytes) (p : Packet O Q) :
    Agrees rules rs body p = (rules.filterByBlocks rs && (match body with | none => true | some b => rules.filterByPayload b) && rules.filter p) := by
  unfold Agrees
  cases body <;> simp only [filterByBlocks_eq, filterByPayload_eq, filter_eq]

/-- What a call with rules gives, compared with what it gives without (`o`): the same; or, for a packet that is found, `Found` or `Skipped` as the
rules say, where they are shown the blocks of that packet and the bytes its payload is decoded from; or, where reading the payload fails, `Skipped`. -/
inductive Chosen (rules : Rules O.BR (Packet O Q)) (o : Out (Next (Packet O Q))) : Out (Next (Packet O Q)) → Prop
  | same (h : ∀ p, o ≠ .ok (.found p)) (h' : o ≠ .ok .skipped) : Chosen rules o o
  | packet (p : Packet O Q) (rs : List O.BR) (body : Option Bytes) (e : o = .ok (.found p)) (hb : rs.map O.into = p.blocks)
      (hp : match p.payload, body with
        | none, none => True
        | some v, some b => ∃ ph, (Q.tryBuf ph [b]).1 = .ok (.success v)
        | _, _ => False) : Chosen rules o (.ok (if Agrees rules rs body p then .found p else .skipped))
  | passedOver (h : (∃ e, o = .err e) ∨ o = .panic) : Chosen rules o (.ok .skipped)

theorem filterByBlocks_nil (rs : List O.BR) : Rules.filterByBlocks ([] : Rules O.BR (Packet O Q)) rs = true := rfl
theorem filterByPayload_nil (b : Bytes) : Rules.filterByPayload ([] : Rules O.BR (Packet O Q)) b = true := rfl
theorem filter_nil (p : Packet O Q) : Rules.filter ([] : Rules O.BR (Packet O Q)) p = true := rfl

/-- The same for one packet, with what becomes of the buffers. -/
inductive Judged (rules : Rules O.BR (Packet O Q)) : Out (Next (Packet O Q)) × Fin → Out (Next (Packet O Q)) × Fin → Prop
  | same (o f) (h : ∀ n, o ≠ .ok n) : Judged rules (o, f) (o, f)
  | packet (p : Packet O Q) (rs : List O.BR) (body : Option Bytes) (hb : rs.map O.into = p.blocks)
      (hp : match p.payload, body with
        | none, none => True
        | some v, some b => ∃ ph, (Q.tryBuf ph [b]).1 = .ok (.success v)
        | _, _ => False) :
      Judged rules (.ok (.found p), .dropConsume) (.ok (if Agrees rules rs body p then .found p else .skipped), .dropConsume)
  | passedOver (o f) (h : ∀ n, o ≠ .ok n) : Judged rules (o, f) (.ok .skipped, .dropConsume)

theorem parsePayload_judged (rules : Rules O.BR (Packet O Q)) (h : PacketHeader) (pb : Bytes) (rs : List O.BR) :
    Judged rules (parsePayload ([] : Rules O.BR (Packet O Q)) h pb rs) (parsePayload rules h pb rs) := by
  unfold parsePayload
  simp only [filterByBlocks_nil, filterByPayload_nil, filter_nil, not_true, if_false, if_true]
  by_cases hpl : h.payload = true
  · simp only [hpl, if_true]
    rcases hh : PayloadHeader.tryBuf [pb.drop h.blocksLen] with ⟨o, cs⟩
    rcases o with (ph | n) | e | _
    · simp only
      by_cases hsz : h.blocksLen + ph.size > pb.length
      · simp only [hsz, if_true]
        by_cases hbl : rules.filterByBlocks rs = true
        · simp only [hbl, not_true, if_false]
          exact .same _ _ (by simp)
        · simp only [hbl]
          exact .passedOver _ _ (by simp)
      · simp only [hsz, if_false]
        rcases hq : Q.tryBuf ph [pb.drop (h.blocksLen + ph.size)] with ⟨o, cs'⟩
        rcases o with (v | n) | e | _
        · simp only
          have := Judged.packet (rules := rules) ⟨rs.map O.into, some v⟩ rs (some (pb.drop (h.blocksLen + ph.size))) rfl ⟨ph, by rw [hq]⟩
          rw [Agrees_eq] at this
          by_cases hbl : rules.filterByBlocks rs = true
          · by_cases hpp : rules.filterByPayload (pb.drop (h.blocksLen + ph.size)) = true
            · by_cases hf : rules.filter ⟨rs.map O.into, some v⟩ = true
              · simpa [hbl, hpp, hf] using this
              · simpa [hbl, hpp, hf] using this
            · simpa [hbl, hpp] using this
          · simpa [hbl] using this
        all_goals
          simp only
          by_cases hbl : rules.filterByBlocks rs = true
          · simp only [hbl, not_true, if_false]
            by_cases hpp : rules.filterByPayload (pb.drop (h.blocksLen + ph.size)) = true
            · simp only [hpp, not_true, if_false]
              exact .same _ _ (by simp)
            · simp only [hpp]
              exact .passedOver _ _ (by simp)
          · simp only [hbl]
            exact .passedOver _ _ (by simp)
    all_goals
      simp only
      by_cases hbl : rules.filterByBlocks rs = true
      · simp only [hbl, not_true, if_false]
        exact .same _ _ (by simp)
      · simp only [hbl]
        exact .passedOver _ _ (by simp)
  · simp only [hpl]
    have := Judged.packet (rules := rules) ⟨rs.map O.into, none⟩ rs none rfl trivial
    rw [Agrees_eq] at this
    by_cases hbl : rules.filterByBlocks rs = true
    · by_cases hf : rules.filter ⟨rs.map O.into, none⟩ = true
      · simpa [hbl, hf] using this
      · simpa [hbl, hf] using this
    · simpa [hbl] using this

theorem parse_judged (rules : Rules O.BR (Packet O Q)) (h : PacketHeader) (pb : Bytes) :
    Judged rules (parse ([] : Rules O.BR (Packet O Q)) h pb) (parse rules h pb) := by
  unfold parse
  split
  · exact .same _ _ (by simp)
  · simp only
    generalize (if pb.take h.blocksLen = [] then (.ok [], .dropConsume) else blocksLoop O (pb.take h.blocksLen) MAX_BLOCKS 0 [] :
      Out (List O.BR) × Fin) = r
    obtain ⟨o, f⟩ := r
    cases o with
    | ok rs => exact parsePayload_judged rules h pb rs
    | err e => exact .same _ _ (by simp)
    | panic => exact .same _ _ (by simp)

/-- What a call of `read` with rules (`b`) does, compared with one without (`a`). -/
structure Guided (rules : Rules O.BR (Packet O Q)) (a b : Out (Next (Packet O Q)) × Rd) : Prop where
  /-- the result -/
  result : Chosen rules a.1 b.1
  /-- the reader is left in the same state, unless the call would have failed and did not -/
  state : (∃ n, a.1 = .ok n) ∨ (∀ n, b.1 ≠ .ok n) → Alike a.2 b.2

theorem finish_guided (rules : Rules O.BR (Packet O Q)) (h : PacketHeader) (pb : Bytes) (k : Nat) {r r' : Rd} (hr : Alike r r') :
    Guided rules (finish ([] : Rules O.BR (Packet O Q)) h pb k r) (finish rules h pb k r') := by
  have key := parse_judged rules h pb
  unfold finish
  simp only
  generalize hx : parse ([] : Rules O.BR (Packet O Q)) h pb = x at key
  generalize hy : parse rules h pb = y at key
  cases key with
  | same o f hn =>
    have hc : Chosen rules o o := .same (fun p => hn _) (hn _)
    cases f
    · exact ⟨hc, fun _ => ⟨by simp [hr.src], hr.recent, rfl⟩⟩
    · exact ⟨hc, fun _ => ⟨hr.src, hr.recent, rfl⟩⟩
    · exact ⟨hc, fun _ => hr⟩
  | packet p rs body hb hp => exact ⟨.packet p rs body rfl hb hp, fun _ => ⟨by simp [hr.src], hr.recent, rfl⟩⟩
  | passedOver o f hn =>
    have hc : Chosen rules o (.ok .skipped) := by
      refine .passedOver ?_
      cases o with
      | ok n => exact absurd rfl (hn n)
      | err e => exact .inl ⟨e, rfl⟩
      | panic => exact .inr rfl
    have hno : ¬ ((∃ n, o = .ok n) ∨ (∀ n, (Out.ok .skipped : Out (Next (Packet O Q))) ≠ .ok n)) := by
      rintro (⟨n, h⟩ | h)
      · exact hn n h
      · exact h _ rfl
    cases f <;> exact ⟨hc, fun h => absurd h hno⟩

theorem guided_same (rules : Rules O.BR (Packet O Q)) {o : Out (Next (Packet O Q))} (h : ∀ p, o ≠ .ok (.found p)) (h' : o ≠ .ok .skipped)
    {r r' : Rd} (hr : Alike r r') : Guided rules (o, r) (o, r') := ⟨.same h h', fun _ => hr⟩

theorem read_guided (rules : Rules O.BR (Packet O Q)) (chk : Bool) {r r' : Rd} (hr : Alike r r') :
    Guided rules (read ([] : Rules O.BR (Packet O Q)) chk r) (read rules chk r') := by
  obtain ⟨src, recent, buffered, log⟩ := r
  obtain ⟨src', recent', buffered', log'⟩ := r'
  obtain ⟨h1, h2, h3⟩ := hr
  simp only at h1 h2 h3
  subst h1; subst h2; subst h3
  unfold Rd.read
  cases recent with
  | ready h =>
    unfold readReady
    rcases src.fill with ⟨_ | buf, es⟩
    · exact guided_same rules (by simp) (by simp) ⟨rfl, rfl, rfl⟩
    · simp only
      split
      · exact guided_same rules (by simp) (by simp) ⟨rfl, rfl, rfl⟩
      · split
        · exact guided_same rules (by simp) (by simp) ⟨rfl, rfl, rfl⟩
        · exact finish_guided rules _ _ _ ⟨rfl, rfl, rfl⟩
  | empty =>
    unfold readEmpty
    rcases src.fill with ⟨_ | _ | ⟨c, cs⟩, es⟩
    · exact guided_same rules (by simp) (by simp) ⟨rfl, rfl, rfl⟩
    · exact guided_same rules (by simp) (by simp) ⟨rfl, rfl, rfl⟩
    · simp only
      split
      · exact guided_same rules (by simp) (by simp) ⟨rfl, rfl, rfl⟩
      · rcases readHeader (c :: cs) with (_ | ⟨a, n⟩ | ⟨h, a, z⟩) | e | _
        · exact guided_same rules (by simp) (by simp) ⟨rfl, rfl, rfl⟩
        · exact guided_same rules (by simp) (by simp) ⟨rfl, rfl, rfl⟩
        · simp only
          split
          · exact guided_same rules (by simp) (by simp) ⟨rfl, rfl, rfl⟩
          · split
            · exact guided_same rules (by simp) (by simp) ⟨rfl, rfl, rfl⟩
            · exact finish_guided rules _ _ _ ⟨rfl, rfl, rfl⟩
        · exact guided_same rules (by simp) (by simp) ⟨rfl, rfl, rfl⟩
        · exact guided_same rules (by simp) (by simp) ⟨rfl, rfl, rfl⟩
  | refill b n =>
    unfold readRefill
    rcases src.fill with ⟨_ | _ | ⟨c, cs⟩, es⟩
    · exact guided_same rules (by simp) (by simp) ⟨rfl, rfl, rfl⟩
    · exact guided_same rules (by simp) (by simp) ⟨rfl, rfl, rfl⟩
    · simp only
      have hall : ∀ (buf : Bytes) (k m : Nat), Guided rules
          (refillAll ([] : Rules O.BR (Packet O Q)) chk buf k m ⟨es, .empty, buffered, log⟩) (refillAll rules chk buf k m ⟨es, .empty, buffered, log'⟩) := by
        intro buf k m
        unfold refillAll
        rcases readHeader buf with (_ | ⟨a, n⟩ | ⟨h, a, z⟩) | e | _
        · exact guided_same rules (by simp) (by simp) ⟨rfl, rfl, rfl⟩
        · exact guided_same rules (by simp) (by simp) ⟨rfl, rfl, rfl⟩
        · simp only
          rcases consumeDiff chk z k es with _ | es'
          · exact guided_same rules (by simp) (by simp) ⟨rfl, rfl, rfl⟩
          · exact guided_same rules (by simp) (by simp) ⟨rfl, rfl, rfl⟩
        · exact guided_same rules (by simp) (by simp) ⟨rfl, rfl, rfl⟩
        · exact guided_same rules (by simp) (by simp) ⟨rfl, rfl, rfl⟩
      split
      · exact guided_same rules (by simp) (by simp) ⟨rfl, rfl, rfl⟩
      · rcases readHeader (b ++ (c :: cs).take n) with (_ | ⟨a, n⟩ | ⟨h, a, z⟩) | e | _
        · exact hall _ _ _
        · exact hall _ _ _
        · simp only
          rcases consumeDiff chk z b.length es with _ | es'
          · exact guided_same rules (by simp) (by simp) ⟨rfl, rfl, rfl⟩
          · exact guided_same rules (by simp) (by simp) ⟨rfl, rfl, rfl⟩
        · exact guided_same rules (by simp) (by simp) ⟨rfl, rfl, rfl⟩
        · exact guided_same rules (by simp) (by simp) ⟨rfl, rfl, rfl⟩

/-- **C71**, one call: whatever the bytes and the state of the reader, rules only choose between `Found` and `Skipped`. Without rules nothing is skipped;
with rules the call gives what it would give without, except that a packet that the rules do not accept is skipped, and that a packet whose payload
cannot be read is skipped if it is denied before its payload is read. The reader is left in the same state, except in the last case. -/
theorem C71_one_call (rules : Rules O.BR (Packet O Q)) (chk : Bool) (r : Rd) :
    Guided rules (read ([] : Rules O.BR (Packet O Q)) chk r) (read rules chk r) := read_guided rules chk (Alike.refl r)

theorem finish_log (rules : Rules O.BR (Packet O Q)) (h : PacketHeader) (pb : Bytes) (k : Nat) (r : Rd) : (finish rules h pb k r).2.log = r.log := by
  unfold finish
  simp only
  split <;> rfl

theorem ignoreTo_calls (n : Nat) (buf : Bytes) : ∃ xs : List Bytes, ∀ (log : List Bytes) (rules : Rules O.BR (Packet O Q)),
    ignoreTo rules n buf log = log ++ xs.flatMap rules.ignore := by
  unfold ignoreTo
  by_cases h : n > 0
  · exact ⟨[buf.take n], fun log rules => by simp [h]⟩
  · exact ⟨[], fun log rules => by simp [h]⟩

/-- The calls of `ignore` do not depend on the rules. -/
theorem read_calls (chk : Bool) (r : Rd) : ∃ xs : List Bytes, ∀ rules : Rules O.BR (Packet O Q),
    (read rules chk r).2.log = r.log ++ xs.flatMap rules.ignore := by
  obtain ⟨src, recent, buffered, log⟩ := r
  have none : ∃ xs : List Bytes, ∀ rules : Rules O.BR (Packet O Q), log = log ++ xs.flatMap rules.ignore := ⟨[], fun _ => by simp⟩
  unfold Rd.read
  cases recent with
  | ready h =>
    unfold readReady
    rcases src.fill with ⟨_ | buf, es⟩
    · exact none
    · simp only
      split
      · exact none
      · split
        · exact none
        · simp only [finish_log]; exact none
  | empty =>
    unfold readEmpty
    rcases src.fill with ⟨_ | _ | ⟨c, cs⟩, es⟩
    · exact none
    · exact none
    · simp only
      split
      · exact none
      · rcases readHeader (c :: cs) with (_ | ⟨a, n⟩ | ⟨h, a, z⟩) | e | _
        · obtain ⟨xs, hx⟩ := ignoreTo_calls (O := O) (Q := Q) ((c :: cs).length - HSIZE) (c :: cs)
          exact ⟨xs, fun rules => hx log rules⟩
        · obtain ⟨xs, hx⟩ := ignoreTo_calls (O := O) (Q := Q) a (c :: cs)
          exact ⟨xs, fun rules => hx log rules⟩
        · obtain ⟨xs, hx⟩ := ignoreTo_calls (O := O) (Q := Q) a (c :: cs)
          refine ⟨xs, fun rules => ?_⟩
          simp only
          split
          · exact hx log rules
          · split
            · exact hx log rules
            · rw [finish_log]; exact hx log rules
        · exact none
        · exact none
  | refill b n =>
    unfold readRefill
    rcases src.fill with ⟨_ | _ | ⟨c, cs⟩, es⟩
    · exact none
    · exact ⟨[b], fun rules => by simp⟩
    · simp only
      have hall : ∀ (buf : Bytes) (k m : Nat), ∃ xs : List Bytes, ∀ rules : Rules O.BR (Packet O Q),
          (refillAll rules chk buf k m ⟨es, .empty, buffered, log⟩).2.log = log ++ xs.flatMap rules.ignore := by
        intro buf k m
        unfold refillAll
        rcases readHeader buf with (_ | ⟨a, n⟩ | ⟨h, a, z⟩) | e | _
        · obtain ⟨xs, hx⟩ := ignoreTo_calls (O := O) (Q := Q) (buf.length - HSIZE) buf
          exact ⟨xs, fun rules => hx log rules⟩
        · obtain ⟨xs, hx⟩ := ignoreTo_calls (O := O) (Q := Q) a buf
          exact ⟨xs, fun rules => hx log rules⟩
        · obtain ⟨xs, hx⟩ := ignoreTo_calls (O := O) (Q := Q) a buf
          simp only
          rcases consumeDiff chk z k es with _ | es'
          · exact ⟨xs, fun rules => hx log rules⟩
          · exact ⟨xs, fun rules => hx log rules⟩
        · exact none
        · exact none
      split
      · exact none
      · rcases readHeader (b ++ (c :: cs).take n) with (_ | ⟨a, n⟩ | ⟨h, a, z⟩) | e | _
        · exact hall _ _ _
        · exact hall _ _ _
        · obtain ⟨xs, hx⟩ := ignoreTo_calls (O := O) (Q := Q) a (b ++ (c :: cs).take n)
          simp only
          rcases consumeDiff chk z b.length es with _ | es'
          · exact ⟨xs, fun rules => hx log rules⟩
          · exact ⟨xs, fun rules => hx log rules⟩
        · exact none
        · exact none

/-- **C71**, one call: the `Ignored` callback is called with the same bytes whatever the other rules are. -/
theorem C71_ignored (chk : Bool) (r : Rd) : ∃ xs : List Bytes, ∀ rules : Rules O.BR (Packet O Q),
    (read rules chk r).2.log = r.log ++ xs.flatMap fun x => List.replicate (ignoredRules rules) x := by
  obtain ⟨xs, h⟩ := read_calls (O := O) (Q := Q) chk r
  refine ⟨xs, fun rules => ?_⟩
  rw [h, show rules.ignore = fun x => List.replicate (ignoredRules rules) x from funext (ignore_eq rules)]

/-! ## Rules that change between the calls -/

/-- What the user does between the calls: the rules for the next call, chosen in view of all results so far. -/
abbrev Strategy (O : BlockOps) (Q : PayloadOps) := List (Out (Next (Packet O Q))) → Rules O.BR (Packet O Q)

/-- `n` calls of `read`, each with the rules chosen for it: the rules and the result of every call, and the reader in the end. `past` are the results of
earlier calls. After a panic there are no more calls. -/
def session (σ : Strategy O Q) (chk : Bool) : Nat → List (Out (Next (Packet O Q))) → Rd →
    List (Rules O.BR (Packet O Q) × Out (Next (Packet O Q))) × Rd
  | 0, _, r => ([], r)
  | n + 1, past, r =>
    match read (σ past) chk r with
    | (.panic, r') => ([(σ past, .panic)], r')
    | (o, r') => ((σ past, o) :: (session σ chk n (past ++ [o]) r').1, (session σ chk n (past ++ [o]) r').2)

theorem session_succ {σ : Strategy O Q} {chk : Bool} {past : List (Out (Next (Packet O Q)))} {r : Rd} (h : (read (σ past) chk r).1 ≠ .panic) (n : Nat) :
    session σ chk (n + 1) past r =
      ((σ past, (read (σ past) chk r).1) :: (session σ chk n (past ++ [(read (σ past) chk r).1]) (read (σ past) chk r).2).1,
        (session σ chk n (past ++ [(read (σ past) chk r).1]) (read (σ past) chk r).2).2) := by
  rw [session]
  match hx : read (σ past) chk r with
  | (.panic, r') => rw [hx] at h; exact absurd rfl h
  | (.ok a, r') => rfl
  | (.err e, r') => rfl

/-- Pointwise: `b` is what the rules that were in force make of `a`. -/
inductive AllChosen : List (Out (Next (Packet O Q))) → List (Rules O.BR (Packet O Q) × Out (Next (Packet O Q))) → Prop
  | nil : AllChosen [] []
  | cons {a b as bs} : Chosen b.1 a b.2 → AllChosen as bs → AllChosen (a :: as) (b :: bs)

/-- **C71**, any number of calls, whatever the bytes: if reading without rules meets no error, then whatever rules are set and however they are
changed between the calls, call by call the result is that of reading without rules with some packets skipped, those that the rules of that call
do not accept; and the reader ends in the same state. -/
theorem C71_session_partial (σ : Strategy O Q) (chk : Bool) (n : Nat) {r r' : Rd} (hr : Alike r r') (past : List (Out (Next (Packet O Q))))
    (hok : ∀ o ∈ (reads ([] : Rules O.BR (Packet O Q)) chk n r).1, ∃ x, o = .ok x) :
    AllChosen (reads ([] : Rules O.BR (Packet O Q)) chk n r).1 (session σ chk n past r').1 ∧
      Alike (reads ([] : Rules O.BR (Packet O Q)) chk n r).2 (session σ chk n past r').2 := by
  induction n generalizing r r' past with
  | zero => exact ⟨.nil, hr⟩
  | succ n ih =>
    have g := read_guided (σ past) chk hr
    have hnp : (read ([] : Rules O.BR (Packet O Q)) chk r).1 ≠ .panic := by
      intro e
      rw [reads] at hok
      match hx : read ([] : Rules O.BR (Packet O Q)) chk r with
      | (.panic, r'') =>
        rw [hx] at hok
        obtain ⟨x, h⟩ := hok .panic (by simp)
        cases h
      | (.ok a, r'') => rw [hx] at e; cases e
      | (.err a, r'') => rw [hx] at e; cases e
    rw [reads_succ hnp] at hok ⊢
    obtain ⟨x, hx⟩ := hok _ List.mem_cons_self
    have hnp' : (read (σ past) chk r').1 ≠ .panic := by
      have := g.result
      generalize (read (σ past) chk r').1 = o' at this
      cases this with
      | same h h' => rw [hx]; simp
      | packet p rs body e hb hp => simp
      | passedOver h => simp
    rw [session_succ hnp']
    obtain ⟨h1, h2⟩ := ih (g.state (.inl ⟨x, hx⟩)) (past ++ [(read (σ past) chk r').1]) fun o ho => hok o (List.mem_cons_of_mem _ ho)
    exact ⟨.cons g.result h1, h2⟩

/-! ## Streams of packets -/

/-- One result for every packet, `Found` or `Skipped` as the rules in force at that call say, then `NoData`. -/
inductive Verdicts (S : BlockSpec O) : List (Packet O Q) → List (Rules O.BR (Packet O Q) × Out (Next (Packet O Q))) → Prop
  | nil (ρ : Rules O.BR (Packet O Q)) : Verdicts S [] [(ρ, .ok .noData)]
  | cons (ρ : Rules O.BR (Packet O Q)) {p ps os} : Verdicts S ps os → Verdicts S (p :: ps) ((ρ, .ok (verdict S ρ p)) :: os)

theorem session_run {S : BlockSpec O} (σ : Strategy O Q) {chk : Bool} (r : Rd) (past : List (Out (Next (Packet O Q)))) (is : List (Bytes × Packet O Q)) (t : Bytes)
    (inv : Inv S r is t) (hG : ∀ x ∈ is, x.1 = []) :
    ∃ n, Verdicts S (is.map (·.2)) ((session σ chk n past r).1.filter fun x => !isQuiet x.2) := by
  induction hm : meas r using Nat.strongRecOn generalizing r is t past with
  | _ m ih =>
    subst hm
    cases step (rules := σ past) (chk := chk) inv (not_bad_pure inv hG) with
    | quiet k q hk inv' log lt =>
      have hnp : (read (σ past) chk r).1 ≠ .panic := by rcases q with ⟨n, q⟩ | q <;> rw [q] <;> simp
      have hq : isQuiet (read (σ past) chk r).1 = true := by rcases q with ⟨n, q⟩ | q <;> rw [q] <;> rfl
      obtain ⟨n, h1⟩ := ih _ lt _ (past ++ [(read (σ past) chk r).1]) _ _ inv' (by
        cases is with
        | nil => simp [dropItems]
        | cons y is =>
          obtain ⟨l, p⟩ := y
          intro x hx
          rcases List.mem_cons.mp hx with rfl | hx
          · have := hG (l, p) List.mem_cons_self
            simp only at this
            simp [this]
          · exact hG x (List.mem_cons_of_mem _ hx)) rfl
      refine ⟨n + 1, ?_⟩
      rw [session_succ hnp, List.filter_cons, hq]
      simp only [Bool.not_true, Bool.false_eq_true, if_false]
      rw [snd_dropItems is k] at h1
      exact h1
    | packet l p rest e res inv' log lt =>
      subst e
      have hnp : (read (σ past) chk r).1 ≠ .panic := by rw [res]; simp
      obtain ⟨n, h1⟩ := ih _ lt _ (past ++ [(read (σ past) chk r).1]) _ _ inv' (fun x hx => hG x (List.mem_cons_of_mem _ hx)) rfl
      refine ⟨n + 1, ?_⟩
      have hq : isQuiet (.ok (verdict S (σ past) p)) = false := by
        unfold verdict; split <;> rfl
      rw [session_succ hnp, List.filter_cons]
      rw [res] at h1 ⊢
      rw [hq]
      simp only [Bool.not_false, if_true, List.map_cons]
      exact .cons (σ past) h1
    | done e res log src recent =>
      subst e
      have hnp : (read (σ past) chk r).1 ≠ .panic := by rw [res]; simp
      refine ⟨1, ?_⟩
      rw [session_succ hnp, List.filter_cons, res]
      exact .nil (σ past)

/-- **C71**, a stream of packets cut into reads in any way: the rules may be changed between any two calls, with knowledge of all that was read so far, and
still every packet is reported once and in order, `Found` or `Skipped` as the rules of its call say. -/
theorem C71_stream (S : BlockSpec O) (ps : List (Packet O Q)) (hp : ∀ p ∈ ps, p.Ok S ∧ p.blocks.length ≤ 255) (σ : Strategy O Q) (chk : Bool)
    (cs : Chunks) (hc : Cuts cs (ps.map wire).flatten) :
    ∃ n, Verdicts S ps ((session σ chk n [] (.new (cs.map some))).1.filter fun x => !isQuiet x.2) := by
  have hs : (ps.map wire).flatten = stream (ps.map fun p => ([], p)) [] := by
    clear hc hp
    induction ps with
    | nil => rfl
    | cons p ps ih => simp [stream, ih]
  have hg : ∀ x ∈ ps.map (fun p => (([] : Bytes), p)), GoodItem S x := by
    intro x hx
    obtain ⟨p, hp', rfl⟩ := List.mem_map.mp hx
    exact ⟨free_nil, (hp p hp').1, (hp p hp').2, .inl rfl⟩
  have inv := inv_new (S := S) hc.2 (hc.1.trans hs) hg (by intro j; simp [PACKET_SIG])
  obtain ⟨n, h⟩ := session_run σ (chk := chk) _ [] _ _ inv (by intro x hx; obtain ⟨p, _, rfl⟩ := List.mem_map.mp hx; rfl)
  refine ⟨n, ?_⟩
  rw [List.map_map] at h
  have : ps.map ((·.2) ∘ fun p => (([] : Bytes), p)) = ps := by simp [Function.comp_def]
  rwa [this] at h

/-! ## Damaged packets -/

/-- **C71**, the rule that helps: a packet whose blocks are intact and whose payload is damaged in any way, all in one read. Rules that do not accept its
blocks make `read` pass over it, to the byte. (Without rules it is not passed, `C63_payload_stuck`.) -/
theorem C71_gets_past {S : BlockSpec O} {p : Packet O Q} (hp : p.Ok S) (hn : p.blocks.length ≤ 255) (z : Bytes)
    (hz : (S.encs p.blocks ++ z).length = (body p).length) (rules : Rules O.BR (Packet O Q))
    (hr : passBlocks rules (p.blocks.map S.ref) = false) (chk : Bool) (s : Bytes) (es : Events) (buffered : Bytes) (log : List Bytes) :
    Rd.read rules chk ⟨some (hit p (S.encs p.blocks ++ z) ++ s) :: es, .empty, buffered, log⟩ =
      (.ok .skipped, ⟨if s = [] then es else some s :: es, .empty, [], log⟩) := by
  rw [← filterByBlocks_eq] at hr
  obtain ⟨h, pb, sh⟩ := hp.shape
  have dm : Damage S (p, S.encs p.blocks ++ z) := ⟨hp, hn, hz⟩
  obtain ⟨h', pb', sh', fs, hw, _⟩ := frame_facts dm
  have heq : h' = h := by
    have := sh'.header.symm.trans sh.header
    injection this
  subst heq
  have hparse : parse rules h' (S.encs p.blocks ++ z) = (.ok .skipped, .dropConsume) := by
    have hbl := sh.blocksLen
    have hflag := sh.flag
    unfold parse
    rw [if_neg (by rw [hbl]; simp)]
    have hr' : (if (S.encs p.blocks ++ z).take h'.blocksLen = [] then ((.ok [], .dropConsume) : Out (List O.BR) × Fin)
        else blocksLoop O ((S.encs p.blocks ++ z).take h'.blocksLen) MAX_BLOCKS 0 []) =
        (.ok (p.blocks.map S.ref), .dropConsume) := by
      rw [hbl, List.take_left' rfl]
      by_cases hne : p.blocks = []
      · simp [hne, BlockSpec.encs]
      · have hpos := S.encs_pos hp.blocks hne
        rw [if_neg (by intro e; rw [e] at hpos; simp at hpos),
          blocksLoop_eq hp.blocks hne (by omega) (by simp) (by simpa [MAX_BLOCKS] using hn)]
        simp
    rw [hr']
    simp only
    unfold parsePayload
    simp [hr]
  have hpass : Frames.Passes rules (frame (p, S.encs p.blocks ++ z)) := by
    rw [Frames.Passes, fs.eq]
    simp only
    rw [hparse]
  have hverd : Frames.verdict rules (frame (p, S.encs p.blocks ++ z)) = .ok .skipped := by
    rw [Frames.verdict, fs.eq]
    simp only
    rw [hparse]
  have hpos : (Frames.wire (frame (p, S.encs p.blocks ++ z))).length ≠ 0 := by
    have := Frames.wire_length fs
    omega
  rw [← hw, Frames.read_frame fs s es buffered log, Frames.finish_pass fs hpass, hverd]
  simp only [Events.consume, if_neg hpos]
  by_cases hs : s = []
  · subst hs; simp
  · have : 0 < s.length := List.length_pos_iff.mpr hs
    rw [if_pos (by simp; omega), if_neg hs]
    simp

/-- A rule that denies packets without blocks. -/
def denyEmpty : Rules (blockEnum sampleTypes).BR (Packet (blockEnum sampleTypes) (PEnum.ops [])) := [.byBlocks fun rs => !rs.isEmpty]

/-- Deny packets without blocks in the first call, no rules afterwards. -/
def denyOnce : Strategy (blockEnum sampleTypes) (PEnum.ops []) := fun past => if past.isEmpty then denyEmpty else []

/-- A packet with one wrong byte in its payload and an intact packet, in one read. -/
def damagedFirst : Rd := ⟨[some (hit oneByte (oneByteHeader.asVec ++ [2]) ++ wire samplePacket)], .empty, [], []⟩

/-- Non-vacuity of `C71_gets_past` and `C71_one_call` in a case where the two readers part: without rules an error, with the rule `Skipped`. -/
theorem damagedFirst_skipped (chk : Bool) : Rd.read denyEmpty chk damagedFirst = (.ok .skipped, ⟨[some (wire samplePacket)], .empty, [], []⟩) := by
  have h := C71_gets_past (S := sampleSpec) oneByte_ok (by decide) (oneByteHeader.asVec ++ [2]) (by decide +kernel) denyEmpty rfl chk
    (wire samplePacket) [] [] []
  rw [if_neg (by decide +kernel)] at h
  exact h

theorem damagedFirst_error (chk : Bool) (n : Nat) :
    (reads ([] : Rules _ (Packet (blockEnum sampleTypes) (PEnum.ops []))) chk n damagedFirst).1 = List.replicate n (.err .crcDismatch) :=
  oneByte_stuck chk (wire samplePacket) n

/-- The claim without the condition that reading without rules meets no error. -/
def C71_full : Prop :=
  ∀ (O : BlockOps) (Q : PayloadOps) (σ : Strategy O Q) (chk : Bool) (n : Nat) (r : Rd),
    AllChosen (reads ([] : Rules O.BR (Packet O Q)) chk n r).1 (session σ chk n [] r).1

theorem denyOnce_finds (chk : Bool) :
    (session denyOnce chk 2 [] damagedFirst).1 = [(denyEmpty, .ok .skipped), ([], .ok (.found samplePacket))] := by
  have h1 : Rd.read (denyOnce []) chk damagedFirst = (.ok .skipped, ⟨[some (wire samplePacket)], .empty, [], []⟩) := damagedFirst_skipped chk
  obtain ⟨src, h2, -⟩ := C16_reader (S := sampleSpec) samplePacket_ok (by decide) chk [] [] [] []
  rw [List.append_nil] at h2
  rw [session_succ (by rw [h1]; simp), h1]
  simp only [List.nil_append]
  have h3 : Rd.read (denyOnce [.ok .skipped]) chk ⟨[some (wire samplePacket)], .empty, [], []⟩ = (.ok (.found samplePacket), ⟨src, .empty, [], []⟩) := h2
  rw [session_succ (by rw [h3]; simp), h3]
  rfl

theorem Chosen.of_err {rules : Rules O.BR (Packet O Q)} {e : Err} {o : Out (Next (Packet O Q))} (h : Chosen rules (.err e) o) :
    o = .err e ∨ o = .ok .skipped := by
  cases h with
  | same => exact .inl rfl
  | packet p rs body e => cases e
  | passedOver => exact .inr rfl

/-- **C71 is false in full**: the packet behind a damaged one is never reached without rules and is found in the second call if the first call has a rule that
denies the damaged one. -/
theorem C71_not : ¬ C71_full := by
  intro h
  have := h (blockEnum sampleTypes) (PEnum.ops []) denyOnce true 2 damagedFirst
  rw [denyOnce_finds, damagedFirst_error] at this
  cases this with
  | cons _ t =>
    cases t with
    | cons c _ =>
      rcases c.of_err with h | h <;> cases h

/-- Non-vacuity of `C71_session_partial` and of `C71_stream`: two packets in reads of one byte; the first packet without blocks is denied. -/
example : ∃ n, Verdicts sampleSpec [oneByte, samplePacket]
    ((session denyOnce true n [] (.new ((([oneByte, samplePacket].map wire).flatten.map fun b => [b]).map some))).1.filter fun x => !isQuiet x.2) :=
  C71_stream sampleSpec [oneByte, samplePacket]
    (by
      intro p hp
      simp only [List.mem_cons, List.not_mem_nil, or_false] at hp
      rcases hp with rfl | rfl
      · exact ⟨oneByte_ok, by decide⟩
      · exact ⟨samplePacket_ok, by decide⟩)
    denyOnce true _
    ⟨by
      generalize ([oneByte, samplePacket].map wire).flatten = x
      induction x with
      | nil => rfl
      | cons a x ih => simp [ih], by
      intro c hc
      obtain ⟨b, _, rfl⟩ := List.mem_map.mp hc
      exact ⟨by simp, by simp⟩⟩

example : AllChosen [.ok (.found samplePacket)] (session denyOnce true 1 [] ⟨[some (wire samplePacket)], .empty, [], []⟩).1 := by
  obtain ⟨src, h2, -⟩ := C16_reader (S := sampleSpec) samplePacket_ok (by decide) true [] [] [] []
  rw [List.append_nil] at h2
  have e : (reads ([] : Rules _ (Packet (blockEnum sampleTypes) (PEnum.ops []))) true 1 ⟨[some (wire samplePacket)], .empty, [], []⟩).1 = [.ok (.found samplePacket)] := by
    rw [reads_succ (by rw [h2]; simp), h2]
    rfl
  have := (C71_session_partial denyOnce true 1 (Alike.refl ⟨[some (wire samplePacket)], .empty, [], []⟩) [] (by
    rw [e]
    intro o ho
    exact ⟨_, List.mem_singleton.mp ho⟩)).1
  rwa [e] at this

end Brec.Props
