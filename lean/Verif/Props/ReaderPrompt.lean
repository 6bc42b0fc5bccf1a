import Verif.Props.ReaderLimits
/-!
# Property C72: packets are delivered as soon as they have arrived

A source that has given its reads `cs` and has not yet given anything else: what `PacketBufReader` returns before it asks the source for more. Everything is
stated for all continuations `es` of the source at once; since the calls leave `es` as it is, none of them has read from it.
-/

namespace Brec.Props

open Brec Rd

variable {O : BlockOps} {Q : PayloadOps} {S : BlockSpec O}

/-! ## A call looks at one read of the source only -/

/-- The reader with more to come. -/
def More (es : Events) (r : Rd) : Rd := { r with src := r.src ++ es }

theorem consume_zero' (es : Events) : es.consume 0 = es := by rcases es with _ | ⟨_ | _, _⟩ <;> rfl

theorem consume_more (n : Nat) (b : Bytes) (X es : Events) :
    Events.consume n (some b :: (X ++ es)) = Events.consume n (some b :: X) ++ es := by
  simp only [Events.consume]
  split
  · rfl
  · split <;> rfl

theorem finish_more (rules : Rules O.BR (Packet O Q)) (h : PacketHeader) (pb : Bytes) (k : Nat) (b : Bytes) (X es : Events) (re : Recent) (bu : Bytes) (lg : List Bytes) :
    finish rules h pb k ⟨some b :: (X ++ es), re, bu, lg⟩ =
      ((finish rules h pb k ⟨some b :: X, re, bu, lg⟩).1, More es (finish rules h pb k ⟨some b :: X, re, bu, lg⟩).2) := by
  unfold finish
  simp only
  split
  · simp only [More, consume_more]
  · rfl
  · rfl

theorem finish_zero_more (rules : Rules O.BR (Packet O Q)) (h : PacketHeader) (pb : Bytes) (X es : Events) (re : Recent) (bu : Bytes) (lg : List Bytes) :
    finish rules h pb 0 ⟨X ++ es, re, bu, lg⟩ =
      ((finish rules h pb 0 ⟨X, re, bu, lg⟩).1, More es (finish rules h pb 0 ⟨X, re, bu, lg⟩).2) := by
  unfold finish
  simp only
  split
  · simp only [More, consume_zero']
  · rfl
  · rfl

theorem consumeDiff_more (chk : Bool) (n k : Nat) (b : Bytes) (X es : Events) :
    consumeDiff chk n k (some b :: (X ++ es)) = (consumeDiff chk n k (some b :: X)).map (· ++ es) := by
  unfold consumeDiff
  split
  · rw [consume_more]; rfl
  · split
    · rfl
    · rw [consume_more]; rfl

theorem refillAll_more (rules : Rules O.BR (Packet O Q)) (chk : Bool) (buf : Bytes) (k m : Nat) (b : Bytes) (X es : Events) (re : Recent) (bu : Bytes) (lg : List Bytes) :
    refillAll rules chk buf k m ⟨some b :: (X ++ es), re, bu, lg⟩ =
      ((refillAll rules chk buf k m ⟨some b :: X, re, bu, lg⟩).1, More es (refillAll rules chk buf k m ⟨some b :: X, re, bu, lg⟩).2) := by
  unfold refillAll
  rcases readHeader buf with (_ | ⟨a, n⟩ | ⟨h, a, z⟩) | e | _
  · simp only [More, consume_more]
  · simp only [More, consume_more]
  · simp only [consumeDiff_more]
    rcases consumeDiff chk z k (some b :: X) with _ | src
    · rfl
    · rfl
  · rfl
  · rfl

/-- A call of `read` depends on the current read of the source only, and leaves what comes behind it alone. -/
theorem read_more (rules : Rules O.BR (Packet O Q)) (chk : Bool) (b : Bytes) (hb : b ≠ []) (X es : Events) (re : Recent) (bu : Bytes) (lg : List Bytes) :
    read rules chk ⟨some b :: (X ++ es), re, bu, lg⟩ =
      ((read rules chk ⟨some b :: X, re, bu, lg⟩).1, More es (read rules chk ⟨some b :: X, re, bu, lg⟩).2) := by
  obtain ⟨c, cs, rfl⟩ : ∃ c cs, b = c :: cs := by
    cases b with
    | nil => exact absurd rfl hb
    | cons c cs => exact ⟨c, cs, rfl⟩
  unfold Rd.read
  cases re with
  | ready h =>
    unfold readReady
    simp only [Events.fill]
    split
    · simp only [More, consume_more]
    · split
      · rfl
      · rw [consume_more, finish_zero_more]
  | empty =>
    unfold readEmpty
    simp only [Events.fill]
    split
    · simp only [More, consume_more]
    · rcases readHeader (c :: cs) with (_ | ⟨a, n⟩ | ⟨h, a, z⟩) | e | _
      · simp only [More, consume_more]
      · simp only [More, consume_more]
      · simp only
        split
        · rfl
        · split
          · simp only [More, consume_more]
          · rw [finish_more]
      · rfl
      · rfl
  | refill buf n =>
    unfold readRefill
    simp only [Events.fill]
    split
    · simp only [More, consume_more]
    · rcases readHeader (buf ++ (c :: cs).take n) with (_ | ⟨a, n⟩ | ⟨h, a, z⟩) | e | _
      · simp only [refillAll_more]
      · simp only [refillAll_more]
      · simp only [consumeDiff_more]
        rcases consumeDiff chk z buf.length (some (c :: cs) :: X) with _ | src
        · rfl
        · rfl
      · rfl
      · rfl

/-! ## The bytes of a packet in progress -/

/-- A packet is only waited for if a part of it is missing; the exception is a packet that ends with its header. -/
def Waits (r : Rd) : Prop := ∀ h, r.recent = .ready h → r.buffered.length < h.size ∨ h.size = 0

theorem finish_recent (rules : Rules O.BR (Packet O Q)) (h : PacketHeader) (pb : Bytes) (k : Nat) (r : Rd) : (finish rules h pb k r).2.recent = r.recent := by
  unfold finish
  simp only
  split <;> rfl

theorem refillAll_waits (rules : Rules O.BR (Packet O Q)) (chk : Bool) (buf : Bytes) (k m : Nat) {r : Rd} (hr : r.recent = .empty) (hb : r.buffered = []) :
    Waits (refillAll rules chk buf k m r).2 := by
  obtain ⟨src, re, bu, lg⟩ := r
  simp only at hr hb
  subst hr hb
  unfold refillAll Waits
  rcases readHeader buf with (_ | ⟨a, n⟩ | ⟨h, a, z⟩) | e | _
  · intro h e; simp at e
  · intro h e; simp at e
  · simp only
    rcases consumeDiff chk z k src with _ | src'
    · intro h e; simp at e
    · intro h e
      show (0 : Nat) < h.size ∨ h.size = 0
      omega
  · intro h e; simp at e
  · intro h e; simp at e

theorem read_waits (rules : Rules O.BR (Packet O Q)) (chk : Bool) (b : Bytes) (hb : b ≠ []) (X : Events) (re : Recent) (bu : Bytes) (lg : List Bytes)
    (hr : ∀ x n, re = .refill x n → bu = []) : Waits (read rules chk ⟨some b :: X, re, bu, lg⟩).2 := by
  obtain ⟨c, cs, rfl⟩ : ∃ c cs, b = c :: cs := by
    cases b with
    | nil => exact absurd rfl hb
    | cons c cs => exact ⟨c, cs, rfl⟩
  unfold Rd.read
  cases re with
  | ready h =>
    unfold readReady
    simp only [Events.fill]
    split
    · rename_i hlt
      intro h' e
      simp only [Recent.ready.injEq] at e
      subst e
      simp only [List.length_append]
      omega
    · split
      · intro h' e; simp at e
      · intro h' e; rw [finish_recent] at e; simp at e
  | empty =>
    unfold readEmpty
    simp only [Events.fill]
    split
    · intro h' e; simp at e
    · rcases readHeader (c :: cs) with (_ | ⟨a, n⟩ | ⟨h, a, z⟩) | e | _
      · intro h' e; simp at e
      · intro h' e; simp at e
      · simp only
        split
        · intro h' e; simp at e
        · split
          · rename_i hlt
            intro h' e
            simp only [Recent.ready.injEq] at e
            subst e
            simp only [List.length_drop]
            omega
          · intro h' e; rw [finish_recent] at e; simp at e
      · intro h' e; simp at e
      · intro h' e; simp at e
  | refill buf n =>
    have hbu := hr buf n rfl
    subst hbu
    unfold readRefill
    simp only [Events.fill]
    split
    · intro h' e; simp at e
    · rcases readHeader (buf ++ (c :: cs).take n) with (_ | ⟨a, n⟩ | ⟨h, a, z⟩) | e | _
      · exact refillAll_waits _ _ _ _ _ rfl rfl
      · exact refillAll_waits _ _ _ _ _ rfl rfl
      · simp only
        rcases consumeDiff chk z buf.length (some (c :: cs) :: X) with _ | src
        · intro h' e; simp at e
        · intro h' e
          show (0 : Nat) < h'.size ∨ h'.size = 0
          omega
      · intro h' e; simp at e
      · intro h' e; simp at e

theorem logAdd_nil {rules : Rules O.BR (Packet O Q)} {a b : List Bytes} (h : LogAdd rules a b []) : b = a := by
  obtain ⟨xs, e1, e2, e3⟩ := h
  have : xs = [] := by
    cases xs with
    | nil => rfl
    | cons x xs =>
      have := e2 x List.mem_cons_self
      simp only [List.flatten_cons, List.append_eq_nil_iff] at e1
      exact absurd (by simp [e1.1]) this
  subst this
  simpa using e3

/-- Calls until all reads of the source that have been made are used up. `E` is a possible continuation; the calls are the same for all of them. -/
theorem prompt_run {rules : Rules O.BR (Packet O Q)} {chk : Bool} (E : Events) (r : Rd) (is : List (Bytes × Packet O Q))
    (inv : Inv S (More E r) is []) (hG : ∀ x ∈ is, x.1 = []) (hw : Waits r) :
    ∃ n os r' done is', (∀ es, reads rules chk n (More es r) = (os, More es r')) ∧ r'.src = [] ∧ r'.log = r.log ∧ Inv S (More E r') is' [] ∧ (∀ x ∈ is', x.1 = []) ∧
      Waits r' ∧ is.map (·.2) = done ++ is'.map (·.2) ∧ loud os = done.map (fun p => .ok (verdict S rules p)) := by
  induction hm : meas (More E r) using Nat.strongRecOn generalizing r is with
  | _ m ih =>
    subst hm
    obtain ⟨src, re, bu, lg⟩ := r
    cases src with
    | nil => exact ⟨0, [], _, [], is, fun es => rfl, rfl, rfl, inv, hG, hw, rfl, rfl⟩
    | cons e X =>
      obtain ⟨b, rfl, hb, hbl⟩ := inv.plain e (by simp [More])
      have hmore : ∀ es, read rules chk (More es ⟨some b :: X, re, bu, lg⟩) =
          ((read rules chk ⟨some b :: X, re, bu, lg⟩).1, More es (read rules chk ⟨some b :: X, re, bu, lg⟩).2) := fun es => read_more rules chk b hb X es re bu lg
      have hw' : Waits (read rules chk ⟨some b :: X, re, bu, lg⟩).2 := by
        refine read_waits rules chk b hb X re bu lg fun x n e => ?_
        have st := inv.state
        simp only [More, e] at st
        exact st.2.1
      have st := step (rules := rules) (chk := chk) inv (not_bad_pure inv hG)
      rw [hmore] at st
      generalize hq : read rules chk ⟨some b :: X, re, bu, lg⟩ = y at hmore hw' st
      obtain ⟨o, r1⟩ := y
      simp only at hmore hw' st
      have next : ∀ n, o ≠ .panic → ∀ es, reads rules chk (n + 1) (More es ⟨some b :: X, re, bu, lg⟩) =
          (o :: (reads rules chk n (More es r1)).1, (reads rules chk n (More es r1)).2) := by
        intro n ho es
        rw [reads_succ (by rw [hmore]; exact ho), hmore]
      cases st with
      | quiet k q hk inv' log lt =>
        have hl : (litOf is ([] : Bytes)).take k = [] := by
          cases is with
          | nil => simp [litOf]
          | cons y is =>
            have := hG y List.mem_cons_self
            obtain ⟨l, p⟩ := y
            simp only at this
            simp [litOf, this]
        rw [hl] at log
        have hlog := logAdd_nil log
        have hdt : dropTail k is ([] : Bytes) = [] := by cases is <;> simp [dropTail]
        rw [hdt] at inv'
        have hG' : ∀ x ∈ dropItems k is, x.1 = [] := by
          cases is with
          | nil => simp [dropItems]
          | cons y is =>
            obtain ⟨l, p⟩ := y
            intro x hx
            rcases List.mem_cons.mp hx with rfl | hx
            · have := hG (l, p) List.mem_cons_self
              simp only at this
              simp [this]
            · exact hG x (List.mem_cons_of_mem _ hx)
        obtain ⟨n, os, r', done, is', h1, h2, h3, h4, h5, h6, h7, h8⟩ := ih _ lt r1 _ inv' hG' hw' rfl
        have hnp : o ≠ .panic := by rcases q with ⟨n, q⟩ | q <;> rw [q] <;> simp
        have hq : isQuiet o = true := by rcases q with ⟨n, q⟩ | q <;> rw [q] <;> rfl
        refine ⟨n + 1, o :: os, r', done, is', fun es => by rw [next n hnp, h1], h2, h3.trans hlog, h4, h5, h6, ?_, ?_⟩
        · rw [← snd_dropItems is k]; exact h7
        · rw [loud, List.filter_cons, hq]; exact h8
      | packet l p rest e res inv' log lt =>
        subst e
        have hl : l = [] := hG _ List.mem_cons_self
        subst hl
        have hlog := logAdd_nil log
        obtain ⟨n, os, r', done, is', h1, h2, h3, h4, h5, h6, h7, h8⟩ := ih _ lt r1 _ inv' (fun x hx => hG x (List.mem_cons_of_mem _ hx)) hw' rfl
        have hnp : o ≠ .panic := by rw [res]; simp
        have hq : isQuiet o = false := by rw [res]; unfold verdict; split <;> rfl
        refine ⟨n + 1, o :: os, r', p :: done, is', fun es => by rw [next n hnp, h1], h2, h3.trans hlog, h4, h5, h6, ?_, ?_⟩
        · simp [h7]
        · rw [loud, List.filter_cons, hq]
          simp only [Bool.not_false, if_true, List.map_cons, res]
          exact congrArg _ h8
      | done e res log src recent =>
        exfalso
        subst e
        have st := inv.state
        have hby : (More E ⟨some b :: X, re, bu, lg⟩).src.bytes ≠ [] := by
          simp only [More, Events.bytes, List.cons_append, List.map_cons, Option.getD_some, List.flatten_cons]
          intro e
          exact hb (List.append_eq_nil_iff.mp e).1
        simp only [More] at st hby
        cases re with
        | empty => exact hby st
        | refill x n => exact hby (List.append_eq_nil_iff.mp st.2.2.1).2
        | ready h => obtain ⟨p, rest, pb, e, _⟩ := st; cases e

theorem stream_pure {is : List (Bytes × Packet O Q)} (h : ∀ x ∈ is, x.1 = []) : stream is [] = ((is.map (·.2)).map wire).flatten := by
  induction is with
  | nil => rfl
  | cons x is ih =>
    obtain ⟨l, p⟩ := x
    have : l = [] := h (l, p) List.mem_cons_self
    subst this
    simp [stream, ih fun x hx => h x (List.mem_cons_of_mem _ hx)]

/-- In a stream of packets the bytes kept for the next header are fewer than a header. -/
theorem refill_below {r : Rd} {p : Packet O Q} {rest : List (Bytes × Packet O Q)} (inv : Inv S r (([], p) :: rest) []) {b : Bytes} {n : Nat}
    (hr : r.recent = .refill b n) : b.length < 29 := by
  have st := inv.state
  rw [hr] at st
  obtain ⟨_, _, st, _, hh⟩ := st
  rcases hh with hh | ⟨hh, h29, hp⟩
  · omega
  · exfalso
    have g := inv.good _ List.mem_cons_self
    obtain ⟨h, pb, sh⟩ := g.ok.shape
    obtain ⟨R, hR⟩ := sig_bytes h
    have hfs := firstSig (X := stream (([], p) :: rest) []) (R := R ++ (S.encs p.blocks ++ pb ++ stream rest [])) g.free
      (by rw [stream_cons g.ok.blocks sh, hR]; simp)
    have hpre : b.take 29 <+: stream (([], p) :: rest) [] := by
      rw [← st]
      exact (List.take_prefix _ _).trans (List.prefix_append _ _)
    have := getPos_prefix hpre hfs
    rw [hp, if_pos (by simp; omega)] at this
    cases this

/-- What a source may have given: packets, then nothing or a part of another packet. -/
structure Arrived (S : BlockSpec O) (ps : List (Packet O Q)) (t : Bytes) : Prop where
  good : ∀ p ∈ ps, p.Ok S ∧ p.blocks.length ≤ 255
  tail : t = [] ∨ ∃ (q : Packet O Q) (u : Bytes), q.Ok S ∧ q.blocks.length ≤ 255 ∧ wire q = t ++ u ∧ t ≠ [] ∧ u ≠ []

/-- **C72**. A source has given the packets `ps` and a part `t` of the next one (or nothing of it), in any reads, and nothing else yet. Then calls of `read` that ask
the source for nothing more return all of these packets: the results are the same for all continuations `es`, which are left as they are. The one exception is a
packet without blocks and payload at the very end. -/
theorem C72_prompt_partial {ps : List (Packet O Q)} {t : Bytes} (a : Arrived S ps t) (hl : t ≠ [] ∨ ∀ p, ps.getLast? = some p → (wire p).length ≠ 29)
    (rules : Rules O.BR (Packet O Q)) (chk : Bool) (cs : Chunks) (hc : Cuts cs ((ps.map wire).flatten ++ t)) :
    ∃ n os r', (∀ es, reads rules chk n (.new (cs.map some ++ es)) = (os, More es r')) ∧ r'.src = [] ∧ r'.log = [] ∧
      (∀ h, r'.recent = .ready h → r'.buffered.length < h.size) ∧ loud os = ps.map (fun p => .ok (verdict S rules p)) := by
  -- the packet in progress and the bytes that are missing
  obtain ⟨qs, u, hq, hqu, hu⟩ : ∃ (qs : List (Packet O Q)) (u : Bytes), (∀ q ∈ qs, q.Ok S ∧ q.blocks.length ≤ 255) ∧ (qs.map wire).flatten = t ++ u ∧
      (t = [] ∧ u = [] ∧ qs = [] ∨ t ≠ [] ∧ u ≠ [] ∧ ∃ q, qs = [q]) := by
    rcases a.tail with ht | ⟨q, u, h1, h2, h3, h4, h5⟩
    · exact ⟨[], [], by simp, by simp [ht], .inl ⟨ht, rfl, rfl⟩⟩
    · refine ⟨[q], u, ?_, by simpa using h3, .inr ⟨h4, h5, q, rfl⟩⟩
      intro q' hq'
      rw [List.mem_singleton] at hq'
      subst hq'
      exact ⟨h1, h2⟩
  have hgood : ∀ p ∈ ps ++ qs, p.Ok S ∧ p.blocks.length ≤ 255 := by
    intro p hp
    rcases List.mem_append.mp hp with hp | hp
    · exact a.good p hp
    · exact hq p hp
  have hpure : ∀ x ∈ (ps ++ qs).map (fun p => (([] : Bytes), p)), x.1 = [] := by
    intro x hx; obtain ⟨p, _, rfl⟩ := List.mem_map.mp hx; rfl
  have hstream : stream ((ps ++ qs).map fun p => (([] : Bytes), p)) [] = (ps.map wire).flatten ++ t ++ u := by
    rw [stream_pure hpure, List.map_map (f := fun p => (([] : Bytes), p))]
    have : (ps ++ qs).map ((·.2) ∘ fun p => (([] : Bytes), p)) = ps ++ qs := by simp [Function.comp_def]
    rw [this, List.map_append, List.flatten_append, hqu, List.append_assoc]
  have hbytes : (u.map fun b => [b]).flatten = u := by
    clear hqu hu hstream
    induction u with
    | nil => rfl
    | cons b u ih => simp [ih]
  have inv : Inv S (new ((cs ++ u.map fun b => [b]).map some)) ((ps ++ qs).map fun p => (([] : Bytes), p)) [] := by
    refine inv_new ?_ ?_ ?_ (by intro j; simp [PACKET_SIG])
    · intro c hc'
      rcases List.mem_append.mp hc' with h | h
      · exact hc.2 c h
      · obtain ⟨b, _, rfl⟩ := List.mem_map.mp h
        exact ⟨by simp, by simp⟩
    · rw [hstream, List.flatten_append, hc.1, hbytes]
    · intro x hx
      obtain ⟨p, hp', rfl⟩ := List.mem_map.mp hx
      exact ⟨free_nil, (hgood p hp').1, (hgood p hp').2, .inl rfl⟩
  have e0 : new ((cs ++ u.map fun b => [b]).map some) = More (u.map fun b => some [b]) (new (cs.map some)) := by
    simp [new, More, Function.comp_def]
  rw [e0] at inv
  obtain ⟨n, os, r', done, is', h1, h2, h3, h4, h5, h6, h7, h8⟩ := prompt_run (rules := rules) (chk := chk) _ _ _ inv hpure (by intro h e; simp [new] at e)
  rw [List.map_map] at h7
  have h7' : ps ++ qs = done ++ is'.map (·.2) := by rw [← h7]; simp [Function.comp_def]
  have hsrc : (More (u.map fun b => some [b]) r').src.bytes = u := by
    simp only [More, h2, List.nil_append, Events.bytes, List.map_map]
    rw [← hbytes]
    congr 1
    simp [Function.comp_def, hbytes]
  suffices hdone : done = ps by
    refine ⟨n, os, r', fun es => h1 es, h2, h3, ?_, by rw [h8, hdone]⟩
    intro h hr
    rw [hdone] at h7'
    have hz := List.append_cancel_left h7'
    have st := h4.state
    rw [show (More (u.map fun b => some [b]) r').recent = .ready h from hr] at st
    obtain ⟨p, rest, pb, e, sh, st, hle⟩ := st
    subst e
    rcases hu with ⟨_, _, rfl⟩ | ⟨_, hu, q, rfl⟩
    · cases hz
    · simp only [List.map_cons, List.cons.injEq, List.nil_eq, List.map_eq_nil_iff] at hz
      obtain ⟨_, rfl⟩ := hz
      rw [hsrc] at st
      have := congrArg List.length st
      have hsz := sh.size
      have hup := List.length_pos_iff.mpr hu
      simp only [List.length_append, stream, List.length_nil, More] at this
      omega
  have st := h4.state
  have hus : u.length + t.length = ((qs.map wire).flatten).length := by rw [hqu, List.length_append, Nat.add_comm]
  rcases List.append_eq_append_iff.mp h7' with ⟨c, hd, hz⟩ | ⟨x, hd, hz⟩
  · -- packets of `qs` done
    rcases hu with ⟨rfl, rfl, rfl⟩ | ⟨ht, hu, q, rfl⟩
    · have hc0 : c = [] := by
        cases c with
        | nil => rfl
        | cons y c => simp at hz
      rw [hd, hc0]; simp
    · cases c with
      | nil => rw [hd]; simp
      | cons y c =>
        exfalso
        have : is' = [] := by
          cases is' with
          | nil => rfl
          | cons w is' => have := congrArg List.length hz; simp at this
        subst this
        cases hr : r'.recent with
        | empty =>
          rw [show (More (u.map fun b => some [b]) r').recent = .empty from hr] at st
          simp only [hsrc, stream] at st
          exact hu st
        | refill b m =>
          rw [show (More (u.map fun b => some [b]) r').recent = .refill b m from hr] at st
          obtain ⟨_, _, st, _⟩ := st
          rw [hsrc] at st
          exact hu (List.append_eq_nil_iff.mp st).2
        | ready h =>
          rw [show (More (u.map fun b => some [b]) r').recent = .ready h from hr] at st
          obtain ⟨p, rest, pb, e, _⟩ := st
          cases e
  · cases x with
    | nil => rw [hd]; simp
    | cons p0 x =>
      exfalso
      obtain ⟨l0, is1, rfl⟩ : ∃ l0 is1, is' = (l0, p0) :: is1 := by
        cases is' with
        | nil => simp at hz
        | cons w is1 =>
          simp only [List.map_cons, List.cons_append, List.cons.injEq] at hz
          exact ⟨w.1, is1, by rw [← hz.1]⟩
      have hl0 : l0 = [] := h5 _ List.mem_cons_self
      subst hl0
      have hz1 : is1.map (·.2) = x ++ qs := by simpa using hz
      have hs1 : (stream is1 []).length = ((x.map wire).flatten).length + (u.length + t.length) := by
        rw [stream_pure fun y hy => h5 y (List.mem_cons_of_mem _ hy), hz1, List.map_append, List.flatten_append, List.length_append, ← hus]
      have g := h4.good _ List.mem_cons_self
      obtain ⟨h0, pb0, sh0⟩ := g.ok.shape
      have hs0 : (stream (([], p0) :: is1) []).length = 29 + h0.size + (stream is1 []).length := by
        simp only [stream, List.nil_append, List.length_append, wire_length g.ok.blocks sh0]
      have htu : t = [] ∧ u = [] ∧ qs = [] ∨ 0 < t.length := by
        rcases hu with h | ⟨h, _⟩
        · exact .inl h
        · exact .inr (List.length_pos_iff.mpr h)
      cases hr : r'.recent with
      | empty =>
        rw [show (More (u.map fun b => some [b]) r').recent = .empty from hr] at st
        simp only [hsrc] at st
        have := congrArg List.length st
        omega
      | refill b m =>
        have hb29 := refill_below h4 hr
        rw [show (More (u.map fun b => some [b]) r').recent = .refill b m from hr] at st
        obtain ⟨_, _, st, _⟩ := st
        rw [hsrc] at st
        have := congrArg List.length st
        rw [List.length_append] at this
        omega
      | ready h =>
        rw [show (More (u.map fun b => some [b]) r').recent = .ready h from hr] at st
        obtain ⟨p, rest, pb, e, sh, st, hle⟩ := st
        simp only [List.cons.injEq, Prod.mk.injEq, true_and] at e
        obtain ⟨rfl, rfl⟩ := e
        rw [hsrc] at st
        have hlen := congrArg List.length st
        have hsz := sh.size
        simp only [List.length_append] at hlen
        simp only [More] at hle hlen
        rcases htu with ⟨rfl, rfl, rfl⟩ | htu
        · simp only [List.length_nil, Nat.add_zero] at hs1 hlen
          have hx : x = [] := by
            cases x with
            | nil => rfl
            | cons y x =>
              exfalso
              have gy : y.Ok S := (a.good y (by rw [hd]; simp)).1
              obtain ⟨hy, pby, shy⟩ := gy.shape
              have := wire_length gy.blocks shy
              simp only [List.map_cons, List.flatten_cons, List.length_append] at hs1
              omega
          subst hx
          rcases hl with hl | hl
          · exact hl rfl
          · have hn := hl p0 (by rw [hd]; simp)
            rw [wire_length g.ok.blocks sh] at hn
            rcases h6 h hr with hw | hw
            · simp at hs1; omega
            · omega
        · omega

theorem reads_at_end (rules : Rules O.BR (Packet O Q)) (chk : Bool) (n : Nat) (r : Rd) (hs : r.src = []) (hr : ∀ h, r.recent = .ready h → r.buffered.length < h.size) :
    ∀ o ∈ (reads rules chk n r).1, o = .ok .noData ∨ ∃ k, 0 < k ∧ o = .ok (.notEnough k) := by
  induction n generalizing r with
  | zero => intro o ho; cases ho
  | succ n ih =>
    obtain ⟨src, re, bu, lg⟩ := r
    simp only at hs
    subst hs
    have hread : (read rules chk ⟨[], re, bu, lg⟩).1 = .ok .noData ∧ (read rules chk ⟨[], re, bu, lg⟩).2.src = [] ∧ (read rules chk ⟨[], re, bu, lg⟩).2.recent = .empty ∨
        ∃ k, 0 < k ∧ (read rules chk ⟨[], re, bu, lg⟩).1 = .ok (.notEnough k) ∧ (read rules chk ⟨[], re, bu, lg⟩).2 = ⟨[], re, bu, lg⟩ := by
      unfold Rd.read
      cases re with
      | empty => left; unfold readEmpty; simp [Events.fill]
      | refill b m => left; unfold readRefill; simp [Events.fill]
      | ready h =>
        right
        have hlt := hr h rfl
        simp only at hlt
        unfold readReady
        simp only [Events.fill, List.length_nil, Nat.add_zero, List.append_nil]
        rw [if_pos hlt]
        exact ⟨_, by omega, rfl, rfl⟩
    have hnp : (read rules chk ⟨[], re, bu, lg⟩).1 ≠ .panic := by
      rcases hread with ⟨h, _⟩ | ⟨k, _, h, _⟩ <;> rw [h] <;> simp
    rw [reads_succ hnp]
    intro o ho
    rcases List.mem_cons.mp ho with rfl | ho
    · rcases hread with ⟨h, _⟩ | ⟨k, hk, h, _⟩
      · exact .inl h
      · exact .inr ⟨k, hk, h⟩
    · rcases hread with ⟨_, h1, h2⟩ | ⟨k, hk, _, h1⟩
      · exact ih _ h1 (fun h e => by rw [h2] at e; cases e) o ho
      · rw [h1] at ho
        exact ih _ rfl hr o ho

theorem reads_add {rules : Rules O.BR (Packet O Q)} {chk : Bool} {n m : Nat} {r : Rd} (h : Out.panic ∉ (reads rules chk n r).1) :
    reads rules chk (n + m) r = ((reads rules chk n r).1 ++ (reads rules chk m (reads rules chk n r).2).1, (reads rules chk m (reads rules chk n r).2).2) := by
  induction n generalizing r with
  | zero => simp [reads]
  | succ n ih =>
    have hnp : (read rules chk r).1 ≠ .panic := by
      intro e
      rw [reads] at h
      match hx : read rules chk r with
      | (.panic, r'') => rw [hx] at h; simp at h
      | (.ok a, r'') => rw [hx] at e; cases e
      | (.err a, r'') => rw [hx] at e; cases e
    rw [show n + 1 + m = n + m + 1 by omega, reads_succ hnp]
    rw [reads_succ hnp] at h ⊢
    simp only [List.mem_cons, not_or] at h
    rw [ih h.2]
    rfl

/-- **C72**, a source that ends inside a packet (the sender was cut off): every packet that was sent whole is returned, in order, and then every call says
`NoData` or `NotEnoughData`. Nothing else is ever returned. -/
theorem C72_cut_off {ps : List (Packet O Q)} {t : Bytes} (a : Arrived S ps t) (hl : t ≠ [] ∨ ∀ p, ps.getLast? = some p → (wire p).length ≠ 29)
    (rules : Rules O.BR (Packet O Q)) (chk : Bool) (cs : Chunks) (hc : Cuts cs ((ps.map wire).flatten ++ t)) :
    ∃ n, ∀ m, ∃ os, (reads rules chk (n + m) (.new (cs.map some))).1 = (reads rules chk n (.new (cs.map some))).1 ++ os ∧
      loud (reads rules chk n (.new (cs.map some))).1 = ps.map (fun p => .ok (verdict S rules p)) ∧
      ∀ o ∈ os, o = .ok .noData ∨ ∃ k, 0 < k ∧ o = .ok (.notEnough k) := by
  obtain ⟨n, os, r', h1, h2, h3, h4, h5⟩ := C72_prompt_partial a hl rules chk cs hc
  have h1' := h1 []
  simp only [List.append_nil, More] at h1'
  refine ⟨n, fun m => ⟨(reads rules chk m (reads rules chk n (.new (cs.map some))).2).1, ?_, by rw [h1']; exact h5, ?_⟩⟩
  · rw [reads_add]
    intro hp
    rw [h1'] at hp
    have : Out.panic ∈ loud os := List.mem_filter.mpr ⟨hp, rfl⟩
    rw [h5] at this
    obtain ⟨p, _, e⟩ := List.mem_map.mp this
    cases e
  · rw [h1']
    exact reads_at_end rules chk m _ h2 h4

/-! ## A packet that ends with its header -/

/-- The claim for all packets. -/
def C72_full : Prop :=
  ∀ (O : BlockOps) (Q : PayloadOps) (S : BlockSpec O) (ps : List (Packet O Q)) (rules : Rules O.BR (Packet O Q)) (chk : Bool) (cs : Chunks),
    (∀ p ∈ ps, p.Ok S ∧ p.blocks.length ≤ 255) → Cuts cs (ps.map wire).flatten →
    ∃ n os r', (∀ es, reads rules chk n (.new (cs.map some ++ es)) = (os, More es r')) ∧ loud os = ps.map (fun p => .ok (verdict S rules p))

/-- A packet without blocks and payload whose 29 bytes arrive in two reads, the first one ending with its signature. -/
def twoReads : Chunks := [(wire emptyPacket).take 8, (wire emptyPacket).drop 8]

/-- All bytes of the packet are there after two calls, and it has not been returned; the third call reads from the source again. If that read fails the packet is
lost altogether, if it gives nothing the packet comes. -/
theorem C72_header_only (chk : Bool) :
    (match (reads ([] : Rules _ (Packet (blockEnum sampleTypes) (PEnum.ops []))) chk 2 (.new (twoReads.map some))) with
      | ([.ok (.notEnough 21), .ok (.notEnough 0)], ⟨[], .ready _, [], []⟩) => true | _ => false) = true ∧
    (match (reads ([] : Rules _ (Packet (blockEnum sampleTypes) (PEnum.ops []))) chk 4 (.new (twoReads.map some))).1 with
      | [.ok (.notEnough 21), .ok (.notEnough 0), .ok (.found ⟨[], none⟩), .ok .noData] => true | _ => false) = true ∧
    (match (reads ([] : Rules _ (Packet (blockEnum sampleTypes) (PEnum.ops []))) chk 4 (.new (twoReads.map some ++ [none]))).1 with
      | [.ok (.notEnough 21), .ok (.notEnough 0), .err .io, .ok .noData] => true | _ => false) = true := by
  cases chk <;> decide +kernel

/-- Without reading again the packet is not returned, however often `read` is called: the third call meets the failing read. -/
theorem twoReads_never (n : Nat) : ∀ o ∈ (reads ([] : Rules _ (Packet (blockEnum sampleTypes) (PEnum.ops []))) true n (.new (twoReads.map some ++ [none]))).1,
    (match o with | .ok (.found _) => false | _ => true) = true := by
  have h4 : ((reads ([] : Rules _ (Packet (blockEnum sampleTypes) (PEnum.ops []))) true 4 (.new (twoReads.map some ++ [none]))).1.all fun o =>
      (match o with | .ok (.found _) => false | .panic => false | _ => true)) = true := by decide +kernel
  have hst : (match (reads ([] : Rules _ (Packet (blockEnum sampleTypes) (PEnum.ops []))) true 4 (.new (twoReads.map some ++ [none]))).2 with
      | ⟨[], .empty, [], []⟩ => true | _ => false) = true := by decide +kernel
  by_cases hn : n < 4
  · have : ∀ m : Fin 4, ((reads ([] : Rules _ (Packet (blockEnum sampleTypes) (PEnum.ops []))) true m.1 (.new (twoReads.map some ++ [none]))).1.all fun o =>
      (match o with | .ok (.found _) => false | _ => true)) = true := by decide +kernel
    exact List.all_eq_true.mp (this ⟨n, hn⟩)
  · obtain ⟨m, rfl⟩ : ∃ m, n = 4 + m := ⟨n - 4, by omega⟩
    rw [reads_add (by intro hp; have := List.all_eq_true.mp h4 _ hp; simp at this)]
    intro o ho
    rcases List.mem_append.mp ho with ho | ho
    · have := List.all_eq_true.mp h4 _ ho
      split at this <;> simp_all
    · generalize (reads ([] : Rules _ (Packet (blockEnum sampleTypes) (PEnum.ops []))) true 4 (.new (twoReads.map some ++ [none]))).2 = r at hst ho
      split at hst
      · rcases reads_at_end _ _ _ _ rfl (by intro h e; simp at e) o ho with rfl | ⟨k, _, rfl⟩ <;> rfl
      · cases hst

/-- **C72 is false in full**: a packet without blocks and payload that has arrived with a cut inside its header is only returned when the source is read once more. -/
theorem C72_not : ¬ C72_full := by
  intro h
  obtain ⟨n, os, r', h1, h2⟩ := h (blockEnum sampleTypes) (PEnum.ops []) sampleSpec [emptyPacket] [] true twoReads
    (by intro p hp; rw [List.mem_singleton] at hp; subst hp; exact ⟨emptyPacket_ok, by decide⟩) ⟨by decide +kernel, by decide +kernel⟩
  have hm : (.ok (.found emptyPacket) : Out (Next (Packet (blockEnum sampleTypes) (PEnum.ops [])))) ∈ os := by
    have hv : verdict sampleSpec ([] : Rules _ (Packet (blockEnum sampleTypes) (PEnum.ops []))) emptyPacket = .found emptyPacket := by
      unfold verdict accepts
      cases bodyOf emptyPacket <;> rfl
    have : (.ok (.found emptyPacket) : Out (Next (Packet (blockEnum sampleTypes) (PEnum.ops [])))) ∈ loud os := by rw [h2]; simp [hv]
    exact (List.mem_filter.mp this).1
  have := twoReads_never n (.ok (.found emptyPacket)) (by rw [h1 [none]]; exact hm)
  cases this

/-- Non-vacuity of `C72_prompt_partial` and `C72_cut_off`: a packet without blocks and payload, one with, and the first half of another one, in reads of one byte. -/
example (chk : Bool) : ∃ n os r', (∀ es, reads ([] : Rules _ (Packet (blockEnum sampleTypes) (PEnum.ops []))) chk n
    (.new (((([emptyPacket, samplePacket].map wire).flatten ++ (wire samplePacket).take 60).map fun b => [b]).map some ++ es)) = (os, More es r')) ∧ r'.src = [] ∧
      loud os = [.ok (.found emptyPacket), .ok (.found samplePacket)] := by
  have hv : ∀ p, verdict sampleSpec ([] : Rules _ (Packet (blockEnum sampleTypes) (PEnum.ops []))) p = .found p := by
    intro p
    unfold verdict accepts
    cases bodyOf p <;> rfl
  obtain ⟨n, os, r', h1, h2, _, _, h3⟩ := C72_prompt_partial (S := sampleSpec) (ps := [emptyPacket, samplePacket]) (t := (wire samplePacket).take 60)
    ⟨by
      intro p hp
      simp only [List.mem_cons, List.not_mem_nil, or_false] at hp
      rcases hp with rfl | rfl
      · exact ⟨emptyPacket_ok, by decide⟩
      · exact ⟨samplePacket_ok, by decide⟩,
     .inr ⟨samplePacket, (wire samplePacket).drop 60, samplePacket_ok, by decide, (List.take_append_drop _ _).symm, by decide +kernel, by decide +kernel⟩⟩
    (.inl (by decide +kernel)) [] chk ((([emptyPacket, samplePacket].map wire).flatten ++ (wire samplePacket).take 60).map fun b => [b])
    ⟨by
      generalize ([emptyPacket, samplePacket].map wire).flatten ++ (wire samplePacket).take 60 = x
      induction x with
      | nil => rfl
      | cons a x ih => simp [ih], by
      intro c hc
      obtain ⟨b, _, rfl⟩ := List.mem_map.mp hc
      exact ⟨by simp, by simp⟩⟩
  exact ⟨n, os, r', h1, h2, by rw [h3]; simp [hv]⟩

end Brec.Props
