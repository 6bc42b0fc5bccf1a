import Verif.Props.ReaderPrompt
import Verif.Props.PacketWrite
import Verif.Props.Slices
/-!
# Property C73: what one side sends the other side receives

The writers of packets on one end, `PacketBufReader` on the other end, and in between a connection that takes and gives bytes in whatever portions it likes and may
break at any byte.
-/

namespace Brec.Props

open Brec Rd

variable {O : BlockOps} {Q : PayloadOps} {S : BlockSpec O}

/-! ## Sending -/

/-- The two ways to send a whole packet: `write_all`, and `write_vectored_all`, which is `slices()?.write_vectored_all(…)` (`traits/write/mod.rs:67-69`). -/
def send (vectored : Bool) (p : Packet O Q) : W Unit :=
  if vectored then W.lift p.slices >>= fun ss => writeVectoredAll ss else p.writeAll

/-- Packets sent one after the other until one call fails: the number of calls that returned `Ok`, and the connection. -/
def sendAll : List (Bool × Packet O Q) → Sink → Nat × Sink
  | [], s => (0, s)
  | (v, p) :: xs, s =>
    match (send v p).run s with
    | (.ok _, s') => ((sendAll xs s').1 + 1, (sendAll xs s').2)
    | (_, s') => (0, s')

/-- `Ok` means that all of `w` was delivered, an error that some of it was and some of it was not. -/
def Delivers (f : W Unit) (w : Bytes) : Prop :=
  ∀ s, ((f.run s).1 = .ok () ∧ (f.run s).2.got = s.got ++ w) ∨
    ((∃ e, (f.run s).1 = .err e) ∧ ∃ t u, w = t ++ u ∧ u ≠ [] ∧ (f.run s).2.got = s.got ++ t)

theorem Delivers.nil : Delivers (pure ()) [] := fun s => .inl ⟨rfl, by simp⟩

theorem Delivers.lift {α : Type} {o : Out α} {a : α} (h : o = .ok a) {f : α → W Unit} {w : Bytes} (d : Delivers (f a) w) : Delivers (W.lift o >>= f) w := by
  intro s
  rw [W.bind_ok (by rw [W.lift_run, h])]
  exact d s

theorem Delivers.seq {f : W Unit} {g : Unit → W Unit} {w x : Bytes} (hf : Delivers f w) (hg : Delivers (g ()) x) : Delivers (f >>= g) (w ++ x) := by
  intro s
  rcases hr : f.run s with ⟨o, s'⟩
  have h := hf s
  rw [hr] at h
  rcases h with ⟨h1, h2⟩ | ⟨⟨e, h1⟩, t, u, h2, h3, h4⟩
  · simp only at h1 h2
    subst h1
    rw [W.bind_ok hr]
    rcases hg s' with ⟨h3, h4⟩ | ⟨h3, t, u, h4, h5, h6⟩
    · exact .inl ⟨h3, by rw [h4, h2]; simp⟩
    · exact .inr ⟨h3, w ++ t, u, by rw [h4]; simp, h5, by rw [h6, h2]; simp⟩
  · simp only at h1 h4
    subst h1
    rw [W.bind_run, hr]
    exact .inr ⟨⟨e, rfl⟩, t, u ++ x, by rw [h2]; simp, by simp [h3], h4⟩

theorem writeAllAux_delivers (sched : List Resp) (b got : Bytes) :
    ((Sink.writeAllAux sched b got).1 = .ok () ∧ (Sink.writeAllAux sched b got).2.got = got ++ b) ∨
      ((∃ e, (Sink.writeAllAux sched b got).1 = .err e) ∧ ∃ t u, b = t ++ u ∧ u ≠ [] ∧ (Sink.writeAllAux sched b got).2.got = got ++ t) := by
  induction sched generalizing b got with
  | nil => exact .inl ⟨rfl, rfl⟩
  | cons r rs ih =>
    by_cases hb : b = []
    · have : Sink.writeAllAux (r :: rs) b got = (.ok (), ⟨r :: rs, got⟩) := by cases r <;> rw [Sink.writeAllAux, if_pos hb]
      rw [this]
      exact .inl ⟨rfl, by simp [hb]⟩
    · cases r with
      | accept n =>
        rw [Sink.writeAllAux, if_neg hb]
        by_cases hn : n = 0
        · rw [if_pos hn]
          exact .inr ⟨⟨_, rfl⟩, [], b, rfl, hb, by simp⟩
        · rw [if_neg hn]
          rcases ih (b.drop n) (got ++ b.take n) with ⟨h1, h2⟩ | ⟨h1, t, u, h2, h3, h4⟩
          · exact .inl ⟨h1, by rw [h2, List.append_assoc, List.take_append_drop]⟩
          · exact .inr ⟨h1, b.take n ++ t, u, by rw [List.append_assoc, ← h2, List.take_append_drop], h3, by rw [h4, List.append_assoc]⟩
      | interrupted =>
        rw [Sink.writeAllAux, if_neg hb]
        exact ih b got
      | fail =>
        rw [Sink.writeAllAux, if_neg hb]
        exact .inr ⟨⟨_, rfl⟩, [], b, rfl, hb, by simp⟩

theorem writeAll_delivers (b : Bytes) : Delivers (Sink.writeAll b) b := fun s => writeAllAux_delivers s.sched b s.got

theorem writeVectored_delivers (src : List Bytes) : Delivers (writeVectoredAll src) src.flatten := by
  intro s
  obtain ⟨sched, got⟩ := s
  suffices H : ∀ (sched : List Resp) (w : Nat), w ≤ src.flatten.length →
      ((writeVectoredAllAux src sched w (got ++ src.flatten.take w)).1 = .ok () ∧
        (writeVectoredAllAux src sched w (got ++ src.flatten.take w)).2.got = got ++ src.flatten) ∨
      ((∃ e, (writeVectoredAllAux src sched w (got ++ src.flatten.take w)).1 = .err e) ∧ ∃ t u, src.flatten = t ++ u ∧ u ≠ [] ∧
        (writeVectoredAllAux src sched w (got ++ src.flatten.take w)).2.got = got ++ t) by
    have := H sched 0 (Nat.zero_le _)
    simp only [List.take_zero, List.append_nil] at this
    exact this
  intro sched
  induction sched with
  | nil =>
    intro w hw
    rw [writeVectoredAllAux]
    refine .inl ⟨rfl, ?_⟩
    simp only [inWork_flatten, List.append_assoc]
    rw [show w - 0 = w by omega, List.take_append_drop]
  | cons r rs ih =>
    intro w hw
    by_cases h0 : inWork w 0 src = []
    · have e : writeVectoredAllAux src (r :: rs) w (got ++ src.flatten.take w) = (.ok (), ⟨r :: rs, got ++ src.flatten.take w⟩) := by
        cases r <;> rw [writeVectoredAllAux, if_pos h0]
      rw [e]
      rw [inWork_eq_nil] at h0
      refine .inl ⟨rfl, ?_⟩
      simp only
      rw [List.take_of_length_le (by omega)]
    · have hlt : w < src.flatten.length := by
        rw [inWork_eq_nil] at h0
        omega
      have part : ∃ t u, src.flatten = t ++ u ∧ u ≠ [] ∧ got ++ src.flatten.take w = got ++ t :=
        ⟨src.flatten.take w, src.flatten.drop w, (List.take_append_drop _ _).symm, by
          intro e; have := congrArg List.length e; simp only [List.length_drop, List.length_nil] at this; omega, rfl⟩
      cases r with
      | accept n =>
        rw [writeVectoredAllAux, if_neg h0]
        simp only [inWork_flatten, Nat.sub_zero]
        by_cases hn : ((src.flatten.drop w).take n).length = 0
        · rw [if_pos hn]
          have : (src.flatten.drop w).take n = [] := List.length_eq_zero_iff.mp hn
          rw [this, List.append_nil]
          exact .inr ⟨⟨_, rfl⟩, part⟩
        · rw [if_neg hn]
          have hle : w + ((src.flatten.drop w).take n).length ≤ src.flatten.length := by
            simp only [List.length_take, List.length_drop]; omega
          have h2 := ih (w + ((src.flatten.drop w).take n).length) hle
          have : got ++ src.flatten.take (w + ((src.flatten.drop w).take n).length) = got ++ src.flatten.take w ++ (src.flatten.drop w).take n := by
            rw [List.take_add, List.append_assoc]
            congr 2
            rw [List.length_take, List.take_eq_take_iff]
            omega
          rw [this] at h2
          exact h2
      | interrupted =>
        rw [writeVectoredAllAux, if_neg h0]
        exact .inr ⟨⟨_, rfl⟩, part⟩
      | fail =>
        rw [writeVectoredAllAux, if_neg h0]
        exact .inr ⟨⟨_, rfl⟩, part⟩

theorem writeBlocks_delivers {bs : List O.B} (h : ∀ b ∈ bs, S.ok b) : Delivers (Packet.writeBlocks bs) (S.encs bs) := by
  induction bs with
  | nil => exact Delivers.nil
  | cons b bs ih =>
    rw [Packet.writeBlocks, S.encs_cons]
    exact Delivers.lift (S.buffer_eq b (h b (by simp))) ((writeAll_delivers _).seq (ih fun b' hb => h b' (by simp [hb])))

/-- Both ways of sending a packet deliver all of its bytes, or fail and have delivered a proper part. -/
theorem send_delivers (v : Bool) {p : Packet O Q} (hp : p.Ok S) : Delivers (send v p) (wire p) := by
  obtain ⟨h, pb, sh⟩ := hp.shape
  cases v with
  | true =>
    obtain ⟨w, h', ss, e1, _, e3, e4, _⟩ := C19_write_forms hp
    have hw : wire p = w := by rw [wire, e1]
    unfold send
    rw [if_pos rfl, hw, ← e4]
    exact Delivers.lift e3 (writeVectored_delivers ss)
  | false =>
    unfold send
    rw [if_neg (by simp), wire_eq hp.blocks sh]
    unfold Packet.writeAll
    refine Delivers.lift sh.header ((writeAll_delivers _).seq ((writeBlocks_delivers hp.blocks).seq ?_))
    have hpt := sh.part
    obtain ⟨bl, payload⟩ := p
    cases hpt with
    | none => exact Delivers.nil
    | some g => exact Delivers.lift g.parts_eq ((writeAll_delivers _).seq (writeAll_delivers _))

/-- What the connection has taken: the packets whose calls returned `Ok`, and of the next one nothing or a part that is not all of it. -/
theorem sendAll_got (xs : List (Bool × Packet O Q)) (hx : ∀ x ∈ xs, x.2.Ok S) (s : Sink) :
    ∃ t, (sendAll xs s).2.got = s.got ++ (((xs.take (sendAll xs s).1).map fun x => wire x.2).flatten ++ t) ∧
      ((sendAll xs s).1 = xs.length ∧ t = [] ∨ ∃ x u, xs[(sendAll xs s).1]? = some x ∧ wire x.2 = t ++ u ∧ u ≠ []) := by
  induction xs generalizing s with
  | nil => exact ⟨[], by simp [sendAll], .inl ⟨rfl, rfl⟩⟩
  | cons x xs ih =>
    obtain ⟨v, p⟩ := x
    have d := send_delivers v (hx (v, p) List.mem_cons_self) s
    simp only at d
    rw [sendAll]
    rcases hr : (send v p).run s with ⟨o, s'⟩
    rw [hr] at d
    rcases d with ⟨h1, h2⟩ | ⟨⟨e, h1⟩, t, u, h2, h3, h4⟩
    · simp only at h1 h2
      subst h1
      obtain ⟨t, h3, h4⟩ := ih (fun x hx' => hx x (List.mem_cons_of_mem _ hx')) s'
      refine ⟨t, ?_, ?_⟩
      · simp only [List.take_succ_cons, List.map_cons, List.flatten_cons]
        rw [h3, h2]; simp
      · rcases h4 with ⟨h4, h5⟩ | ⟨x, u, h4, h5, h6⟩
        · exact .inl ⟨by simp [h4], h5⟩
        · exact .inr ⟨x, u, by simpa using h4, h5, h6⟩
    · simp only at h1 h4
      subst h1
      exact ⟨t, by simp [h4], .inr ⟨(v, p), u, by simp, h2, h3⟩⟩

/-! ## Receiving -/

/-- The results that tell something: neither "call again" nor "nothing there". -/
def news (os : List (Out (Next (Packet O Q)))) : List (Out (Next (Packet O Q))) :=
  os.filter fun o => match o with | .ok .noData => false | .ok (.notEnough _) => false | .ok .notFound => false | _ => true

theorem news_loud (os : List (Out (Next (Packet O Q)))) : news (loud os) = news os := by
  rw [news, loud, List.filter_filter]
  refine List.filter_congr fun o _ => ?_
  rcases o with a | e | _
  · cases a <;> rfl
  · rfl
  · rfl

theorem news_append (as bs : List (Out (Next (Packet O Q)))) : news (as ++ bs) = news as ++ news bs := List.filter_append ..

theorem news_none {os : List (Out (Next (Packet O Q)))} (h : ∀ o ∈ os, o = .ok .noData ∨ ∃ k, 0 < k ∧ o = .ok (.notEnough k)) : news os = [] := by
  refine List.filter_eq_nil_iff.mpr fun o ho => ?_
  rcases h o ho with rfl | ⟨k, _, rfl⟩ <;> simp

theorem news_verdicts (rules : Rules O.BR (Packet O Q)) (ps : List (Packet O Q)) :
    news (ps.map fun p => (.ok (verdict S rules p) : Out (Next (Packet O Q)))) = ps.map fun p => .ok (verdict S rules p) := by
  refine List.filter_eq_self.mpr fun o ho => ?_
  obtain ⟨p, _, rfl⟩ := List.mem_map.mp ho
  simp only [verdict]
  split <;> simp_all [apply_ite]
  all_goals grind

/-- A stream of packets and nothing else is read to its end; after that there is only `NoData`. -/
theorem whole_stream (ps : List (Packet O Q)) (hp : ∀ p ∈ ps, p.Ok S ∧ p.blocks.length ≤ 255) (rules : Rules O.BR (Packet O Q)) (chk : Bool)
    (cs : Chunks) (hc : Cuts cs (ps.map wire).flatten) :
    ∃ n, loud (reads rules chk n (.new (cs.map some))).1 = ps.map (fun p => .ok (verdict S rules p)) ++ [.ok .noData] ∧
      (reads rules chk n (.new (cs.map some))).2.src = [] ∧ (reads rules chk n (.new (cs.map some))).2.recent = .empty := by
  have hpure : ∀ x ∈ ps.map (fun p => (([] : Bytes), p)), x.1 = [] := by
    intro x hx; obtain ⟨p, _, rfl⟩ := List.mem_map.mp hx; rfl
  have hs : (ps.map wire).flatten = stream (ps.map fun p => ([], p)) [] := by
    rw [stream_pure hpure]; simp [Function.comp_def]
  have hg : ∀ x ∈ ps.map (fun p => (([] : Bytes), p)), GoodItem S x := by
    intro x hx
    obtain ⟨p, hp', rfl⟩ := List.mem_map.mp hx
    exact ⟨free_nil, (hp p hp').1, (hp p hp').2, .inl rfl⟩
  have inv := inv_new (S := S) hc.2 (hc.1.trans hs) hg (by intro j; simp [PACKET_SIG])
  obtain ⟨n, h1, h2, h3, h4⟩ := run (chk := chk) (rules := rules) (fun _ is => ∀ x ∈ is, x.1 = [])
    (fun r is t inv hG => not_bad_pure inv hG)
    (fun r is t is' _ hG hi _ => by
      rcases hi with rfl | ⟨k, rfl⟩
      · exact fun x hx => hG x (List.mem_of_mem_tail hx)
      · cases is with
        | nil => simp [dropItems]
        | cons y is =>
          obtain ⟨l, p⟩ := y
          intro x hx
          rcases List.mem_cons.mp hx with rfl | hx
          · have := hG (l, p) List.mem_cons_self
            simp only at this
            simp [this]
          · exact hG x (List.mem_cons_of_mem _ hx))
    _ _ _ inv hpure
  exact ⟨n, by rw [h1]; simp [List.map_map, Function.comp_def], h3, h4⟩

/-- **C73**. Packets are sent one after the other, each with `write_all` or `write_vectored_all`, over a connection that takes and gives bytes in any portions
and may break at any byte; sending stops at the first error. The reader on the other end returns the packets whose sending returned `Ok`, all of them, in order,
each as the rules say, and never anything else. -/
theorem C73_send_receive (xs : List (Bool × Packet O Q)) (hx : ∀ x ∈ xs, x.2.Ok S ∧ x.2.blocks.length ≤ 255) (sched : List Resp)
    (rules : Rules O.BR (Packet O Q)) (chk : Bool) (cs : Chunks) (hc : Cuts cs (sendAll xs ⟨sched, []⟩).2.got) :
    ∃ n, ∀ m, news (reads rules chk (n + m) (.new (cs.map some))).1 =
      (xs.take (sendAll xs ⟨sched, []⟩).1).map fun x => .ok (verdict S rules x.2) := by
  obtain ⟨t, h1, h2⟩ := sendAll_got xs (fun x h => (hx x h).1) ⟨sched, []⟩
  generalize hk : (sendAll xs ⟨sched, []⟩).1 = k at h1 h2 ⊢
  have hw : (sendAll xs ⟨sched, []⟩).2.got = ((((xs.take k).map (·.2)).map wire).flatten ++ t) := by
    rw [h1]; simp [List.map_map, Function.comp_def]
  rw [hw] at hc
  have hgood : ∀ p ∈ (xs.take k).map (·.2), p.Ok S ∧ p.blocks.length ≤ 255 := by
    intro p hp
    obtain ⟨x, hx', rfl⟩ := List.mem_map.mp hp
    exact hx x (List.mem_of_mem_take hx')
  have hmap : (xs.take k).map (fun x => (.ok (verdict S rules x.2) : Out (Next (Packet O Q)))) = ((xs.take k).map (·.2)).map fun p => .ok (verdict S rules p) := by
    simp [List.map_map, Function.comp_def]
  rw [hmap]
  by_cases ht : t = []
  · subst ht
    rw [List.append_nil] at hc
    obtain ⟨n, h3, h4, h5⟩ := whole_stream _ hgood rules chk cs hc
    refine ⟨n, fun m => ?_⟩
    rw [reads_add, news_append, news_none (reads_at_end rules chk m _ h4 (by rw [h5]; intro h e; cases e)), List.append_nil, ← news_loud, h3, news_append,
      news_verdicts, news_none (by simp), List.append_nil]
    intro hp
    have : Out.panic ∈ loud (reads rules chk n (.new (cs.map some))).1 := List.mem_filter.mpr ⟨hp, rfl⟩
    rw [h3, List.mem_append] at this
    rcases this with this | this
    · obtain ⟨p, _, e⟩ := List.mem_map.mp this
      cases e
    · cases this with | tail _ h => cases h
  · have ha : Arrived S ((xs.take k).map (·.2)) t := by
      refine ⟨hgood, .inr ?_⟩
      rcases h2 with ⟨_, h2⟩ | ⟨x, u, h2, h3, h4⟩
      · exact absurd h2 ht
      · have := hx x (List.mem_of_getElem? h2)
        exact ⟨x.2, u, this.1, this.2, h3, ht, h4⟩
    obtain ⟨n, h3⟩ := C72_cut_off ha (.inl ht) rules chk cs hc
    refine ⟨n, fun m => ?_⟩
    obtain ⟨os, h4, h5, h6⟩ := h3 m
    rw [h4, news_append, news_none h6, List.append_nil, ← news_loud, h5, news_verdicts]

/-! ## Sending again after an error -/

/-- Packets sent one after the other whatever the calls return: which calls returned `Ok`, and the connection. -/
def sendEach : List (Bool × Packet O Q) → Sink → List Bool × Sink
  | [], s => ([], s)
  | (v, p) :: xs, s =>
    let o := (send v p).run s
    ((match o.1 with | .ok _ => true | _ => false) :: (sendEach xs o.2).1, (sendEach xs o.2).2)

/-- A sender that goes on after an error: every packet whose sending returned `Ok` is received. -/
def C73_going_on : Prop :=
  ∀ (O : BlockOps) (Q : PayloadOps) (S : BlockSpec O) (xs : List (Bool × Packet O Q)) (sched : List Resp) (chk : Bool) (cs : Chunks),
    (∀ x ∈ xs, x.2.Ok S ∧ x.2.blocks.length ≤ 255) → Cuts cs (sendEach xs ⟨sched, []⟩).2.got →
    ∀ (i : Nat) (x : Bool × Packet O Q), xs[i]? = some x → (sendEach xs ⟨sched, []⟩).1[i]? = some true →
      ∃ n, (.ok (.found x.2) : Out (Next (Packet O Q))) ∈ (reads ([] : Rules O.BR (Packet O Q)) chk n (.new (cs.map some))).1

theorem found_late {rules : Rules O.BR (Packet O Q)} {r : Rd} {p : Packet O Q}
    (h : ∃ o a b, (reads rules true 3 r) = ([.err o, .ok .notFound, .ok .noData], ⟨[], .empty, a, b⟩)) {n : Nat} :
    ¬ (.ok (.found p) : Out (Next (Packet O Q))) ∈ (reads rules true n r).1 := by
  obtain ⟨o, a, b, h⟩ := h
  intro hn
  have hn3 : (.ok (.found p) : Out (Next (Packet O Q))) ∈ (reads rules true (3 + n) r).1 :=
    (reads_take rules true (by omega : n ≤ 3 + n) r).subset hn
  rw [reads_add (by rw [h]; simp), h] at hn3
  rcases List.mem_append.mp hn3 with h1 | h1
  · simp at h1
  · rcases reads_at_end rules true n _ rfl (by intro h e; cases e) _ h1 with e | ⟨k, _, e⟩ <;> cases e

/-- A packet whose sending breaks after 40 bytes and which is then sent once more. -/
def twice : List (Bool × Packet (blockEnum sampleTypes) (PEnum.ops [])) := [(false, samplePacket), (false, samplePacket)]

/-- The first call fails, the second one returns `Ok`; the reader takes the beginning of the second copy for the rest of the first one, fails, and has thrown
away the packet. If the connection breaks inside the header, the reader fails for ever. -/
theorem C73_again (v w : Bool) :
    (sendEach [(v, samplePacket), (w, samplePacket)] ⟨[.accept 29, .accept 11, .fail], []⟩).1 = [false, true] ∧
    (sendEach [(v, samplePacket), (w, samplePacket)] ⟨[.accept 20, .fail], []⟩).1 = [false, true] ∧
    (match (reads ([] : Rules _ (Packet (blockEnum sampleTypes) (PEnum.ops []))) true 3
        (.new [some (sendEach [(v, samplePacket), (w, samplePacket)] ⟨[.accept 29, .accept 11, .fail], []⟩).2.got])) with
      | ([.err _, .ok .notFound, .ok .noData], ⟨[], .empty, _, _⟩) => true | _ => false) = true ∧
    (match (reads ([] : Rules _ (Packet (blockEnum sampleTypes) (PEnum.ops []))) true 3
        (.new [some (sendEach [(v, samplePacket), (w, samplePacket)] ⟨[.accept 20, .fail], []⟩).2.got])).1 with
      | [.err _, .err _, .err _] => true | _ => false) = true := by
  cases v <;> cases w <;> decide +kernel

/-- `C73_send_receive` does not extend to a sender that goes on after an error: a packet whose sending returned `Ok` may never be received. -/
theorem C73_not : ¬ C73_going_on := by
  intro h
  have hs := C73_again false false
  obtain ⟨n, hn⟩ := h _ _ sampleSpec twice [.accept 29, .accept 11, .fail] true [(sendEach twice ⟨[.accept 29, .accept 11, .fail], []⟩).2.got]
    (by intro x hx; simp only [twice, List.mem_cons, List.not_mem_nil, or_false, or_self] at hx; subst hx; exact ⟨samplePacket_ok, by decide⟩)
    ⟨by simp, by decide +kernel⟩ 1 (false, samplePacket) rfl (by unfold twice; rw [hs.1]; rfl)
  have h3 := hs.2.2.1
  simp only [List.map_cons, List.map_nil] at hn
  change _ ∈ (reads ([] : Rules _ (Packet (blockEnum sampleTypes) (PEnum.ops []))) true n
    (.new [some (sendEach [(false, samplePacket), (false, samplePacket)] ⟨[.accept 29, .accept 11, .fail], []⟩).2.got])).1 at hn
  generalize hr : (.new [some (sendEach [(false, samplePacket), (false, samplePacket)] ⟨[.accept 29, .accept 11, .fail], []⟩).2.got] : Rd) = r at h3 hn
  exact found_late (by split at h3 <;> simp_all) hn

/-- Non-vacuity of `C73_send_receive`: three packets, the first vectored, portions of ten bytes, and a break inside the third one. The first two arrive. -/
example (chk : Bool) : ∃ n, ∀ m, news (reads ([] : Rules _ (Packet (blockEnum sampleTypes) (PEnum.ops []))) chk (n + m)
    (.new ([(sendAll [(true, samplePacket), (false, emptyPacket), (false, samplePacket)] ⟨List.replicate 13 (.accept 10) ++ [.interrupted, .accept 29, .accept 29, .accept 7, .fail], []⟩).2.got].map some))).1 =
      [.ok (.found samplePacket), .ok (.found emptyPacket)] := by
  have hv : ∀ p, verdict sampleSpec ([] : Rules _ (Packet (blockEnum sampleTypes) (PEnum.ops []))) p = .found p := by
    intro p
    unfold verdict accepts
    cases bodyOf p <;> rfl
  have hk : (sendAll [(true, samplePacket), (false, emptyPacket), (false, samplePacket)] ⟨List.replicate 13 (.accept 10) ++ [.interrupted, .accept 29, .accept 29, .accept 7, .fail], []⟩).1 = 2 := by
    decide +kernel
  obtain ⟨n, hn⟩ := C73_send_receive (S := sampleSpec) [(true, samplePacket), (false, emptyPacket), (false, samplePacket)] (by
      intro x hx
      simp only [List.mem_cons, List.not_mem_nil, or_false] at hx
      rcases hx with rfl | rfl | rfl
      · exact ⟨samplePacket_ok, by decide⟩
      · exact ⟨emptyPacket_ok, by decide⟩
      · exact ⟨samplePacket_ok, by decide⟩)
    (List.replicate 13 (.accept 10) ++ [.interrupted, .accept 29, .accept 29, .accept 7, .fail]) [] chk _ ⟨List.flatten_singleton, by decide +kernel⟩
  refine ⟨n, fun m => ?_⟩
  rw [hn m, hk]
  simp [hv]

end Brec.Props
