import Verif.Props.Packet
/-!
# Properties C19, C20: writing packets
-/

namespace Brec.Props

open Brec Packet

variable {O : BlockOps} {Q : PayloadOps} {S : BlockSpec O} {p : Packet O Q}

theorem blockSlices_flatten {bs : List O.B} (h : ∀ b ∈ bs, S.ok b) :
    ∃ ss, blockSlices bs = .ok ss ∧ ss.flatten = S.encs bs := by
  induction bs with
  | nil => exact ⟨[], rfl, rfl⟩
  | cons b bs ih =>
    obtain ⟨ss, e1, e2⟩ := ih fun b hb => h b (by simp [hb])
    obtain ⟨s, f1, f2⟩ := S.slices_eq b (h b (by simp))
    refine ⟨s ++ ss, by rw [blockSlices, f1, Out.bind_ok, e1]; rfl, ?_⟩
    rw [List.flatten_append, e2, f2, S.encs_cons]

/-- One `write` of `w` whose `Ok(n)` result is compared with `w.length`. -/
theorem write_cases (b : Bytes) (s : Sink) :
    (∃ n s', (Sink.write b).run s = (.ok n, s') ∧ n ≤ b.length ∧ s'.got = s.got ++ b.take n) ∨
    (∃ s', (Sink.write b).run s = (.err .io, s') ∧ s'.got = s.got) := by
  obtain ⟨sched, got⟩ := s
  match sched with
  | [] => exact .inl ⟨_, _, rfl, Nat.le_refl _, by simp⟩
  | .accept m :: rs =>
    exact .inl ⟨min m b.length, _, rfl, Nat.min_le_right .., (Sink.write_ok (s := ⟨.accept m :: rs, got⟩) rfl).2⟩
  | .interrupted :: rs => exact .inr ⟨_, rfl, rfl⟩
  | .fail :: rs => exact .inr ⟨_, rfl, rfl⟩

/-- One `write_all` of `w`. -/
theorem writeAll_cases (b : Bytes) (s : Sink) :
    (∃ s', (Sink.writeAll b).run s = (.ok (), s') ∧ s'.got = s.got ++ b) ∨
    (∃ s' k, (Sink.writeAll b).run s = (.err .io, s') ∧ s'.got = s.got ++ b.take k) := by
  obtain ⟨k, hk⟩ := Sink.writeAllAux_prefix s.sched b s.got
  have he : (Sink.writeAllAux s.sched b s.got).1 = .ok () ∨ (Sink.writeAllAux s.sched b s.got).1 = .err .io := by
    obtain ⟨sched, got⟩ := s
    simp only
    clear hk
    induction sched generalizing b got with
    | nil => exact .inl rfl
    | cons r rs ih =>
      rw [Sink.writeAllAux.eq_def]
      simp only
      split
      · exact .inl rfl
      · cases r with
        | accept n =>
          simp only
          split
          · exact .inr rfl
          · exact ih _ _
        | interrupted => exact ih _ _
        | fail => exact .inr rfl
  rcases he with h | h
  · refine .inl ⟨(Sink.writeAllAux s.sched b s.got).2, Prod.ext h rfl, ?_⟩
    exact Sink.writeAllAux_ok (u := ()) (Prod.ext h rfl)
  · exact .inr ⟨(Sink.writeAllAux s.sched b s.got).2, k, Prod.ext h rfl, hk⟩

/-- What a (partial) writer of `w` may do: `Ok(base + k)` with exactly the first `k` bytes taken by the sink,
or an error with some prefix taken. -/
def Honest (w : Bytes) (base : Nat) (s : Sink) : Out Nat × Sink → Prop
  | (.ok n, s') => ∃ k, k ≤ w.length ∧ n = base + k ∧ s'.got = s.got ++ w.take k
  | (.err _, s') => ∃ k, k ≤ w.length ∧ s'.got = s.got ++ w.take k
  | (.panic, _) => False

theorem Honest.extend {w1 w2 : Bytes} {base : Nat} {s t : Sink} {r : Out Nat × Sink}
    (ht : t.got = s.got ++ w1) (h : Honest w2 (base + w1.length) t r) : Honest (w1 ++ w2) base s r := by
  obtain ⟨o, s'⟩ := r
  cases o with
  | ok n =>
    obtain ⟨k, h1, h2, h3⟩ := h
    refine ⟨w1.length + k, by simp; omega, by omega, ?_⟩
    rw [h3, ht, List.append_assoc]
    rw [List.take_length_add_append]
  | err e =>
    obtain ⟨k, h1, h3⟩ := h
    refine ⟨w1.length + k, by simp; omega, ?_⟩
    rw [h3, ht, List.append_assoc]
    rw [List.take_length_add_append]
  | panic => exact h

theorem Honest.weaken {w1 w2 : Bytes} {base : Nat} {s : Sink} {r : Out Nat × Sink}
    (h : Honest w1 base s r) : Honest (w1 ++ w2) base s r := by
  obtain ⟨o, s'⟩ := r
  cases o with
  | ok n =>
    obtain ⟨k, h1, h2, h3⟩ := h
    exact ⟨k, by simp; omega, h2, by rw [h3, List.take_append_of_le_length h1]⟩
  | err e =>
    obtain ⟨k, h1, h3⟩ := h
    exact ⟨k, by simp; omega, by rw [h3, List.take_append_of_le_length h1]⟩
  | panic => exact h

/-- The block loop of `write`, followed by the rest of the function. -/
theorem writeBlocksPartial_honest {bs : List O.B} (h : ∀ b ∈ bs, S.ok b) (total : Nat) (s : Sink)
    (k : Nat → W Nat) (w2 : Bytes) (hk : ∀ t, Honest w2 (total + (S.encs bs).length) t
      ((k (total + (S.encs bs).length)).run t)) :
    Honest (S.encs bs ++ w2) total s
      ((writeBlocksPartial total bs >>= fun r => match r with | .inl n => pure n | .inr t => k t).run s) := by
  induction bs generalizing total s with
  | nil =>
    simp only [BlockSpec.encs, List.flatMap_nil, List.nil_append, List.length_nil, Nat.add_zero] at hk ⊢
    rw [writeBlocksPartial, W.bind_ok (W.pure_run ..)]
    exact hk s
  | cons b bs ih =>
    have hb := S.buffer_eq b (h b (by simp))
    have hsz := S.size_eq b (h b (by simp))
    rw [S.encs_cons, List.append_assoc]
    simp only [writeBlocksPartial]
    have run_eq : ∀ (X : W (Nat ⊕ Nat)) s, ((do
        let x ← W.lift (O.buffer b)
        let written ← Sink.write x
        if written < O.size b then pure (.inl (total + written)) else writeBlocksPartial (total + written) bs) >>=
          fun r => match r with | .inl n => pure n | .inr t => k t : W Nat).run s =
        match (Sink.write (S.enc b)).run s with
        | (.ok n, s') => if n < O.size b then (.ok (total + n), s') else
            (writeBlocksPartial (total + n) bs >>= fun r => match r with | .inl n => pure n | .inr t => k t).run s'
        | (.err e, s') => (.err e, s')
        | (.panic, s') => (.panic, s') := by
      intro X s
      rw [W.bind_run, W.bind_ok (by rw [W.lift_run, hb]), W.bind_run]
      match (Sink.write (S.enc b)).run s with
      | (.ok n, s') =>
        simp only
        by_cases hn : n < O.size b
        · simp only [hn, if_true]; rfl
        · simp only [hn, if_false]; rfl
      | (.err e, s') => rfl
      | (.panic, s') => rfl
    rw [run_eq (writeBlocksPartial total bs)]
    rcases write_cases (S.enc b) s with ⟨n, s', e, hn, hg⟩ | ⟨s', e, hg⟩
    · rw [e]
      simp only
      by_cases hlt : n < O.size b
      · rw [if_pos hlt]
        exact ⟨n, by simp; omega, rfl, by rw [hg, List.take_append_of_le_length hn]⟩
      · rw [if_neg hlt]
        have hn' : n = (S.enc b).length := by omega
        rw [hn', List.take_length] at hg
        refine Honest.extend hg ?_
        rw [hn']
        apply ih (fun b hb => h b (by simp [hb]))
        intro t
        have := hk t
        rw [S.encs_cons, List.length_append, ← Nat.add_assoc] at this
        exact this
    · rw [e]
      exact ⟨0, by simp, by simp [hg]⟩

/-- **C20**. `write` to a sink with any schedule of partial acceptances and failures: `Ok(n)` means the sink took exactly the
first `n` bytes of the full serialization; on an error it took some prefix; it never panics. -/
theorem C20_partial_write (hp : p.Ok S) (s : Sink) :
    ∃ w, p.serialize = .ok w ∧ Honest w 0 s (p.write.run s) := by
  obtain ⟨h, pb, sh⟩ := hp.shape
  refine ⟨_, serialize_eq hp.blocks sh, ?_⟩
  unfold Packet.write
  rw [W.bind_ok (by rw [W.lift_run, sh.header]), List.append_assoc]
  rw [W.bind_run]
  rcases write_cases h.bytes s with ⟨n, s', e, hn, hg⟩ | ⟨s', e, hg⟩
  · rw [e]
    simp only
    by_cases hlt : n < HSIZE
    · rw [if_pos hlt]
      exact ⟨n, by simp at hn ⊢; omega, by omega, by rw [hg, List.take_append_of_le_length hn]⟩
    · rw [if_neg hlt]
      rw [PacketHeader.bytes_length] at hn
      have hn' : n = HSIZE := by omega
      subst hn'
      rw [List.take_of_length_le (by simp)] at hg
      refine Honest.extend hg ?_
      rw [PacketHeader.bytes_length, Nat.zero_add]
      refine writeBlocksPartial_honest hp.blocks HSIZE s' _ pb ?_
      intro t
      have hpt := sh.part
      obtain ⟨blocks, payload⟩ := p
      cases hpt with
      | none => exact ⟨0, by simp, by simp, by simp⟩
      | @some v ph x g =>
        simp only
        have hw : (writePayload v >>= fun written => W.lift (Q.size v) >>= fun size =>
            if written < size + Q.hsize v then pure (HSIZE + (S.encs blocks).length + written)
            else pure (HSIZE + (S.encs blocks).length + written) : W Nat).run t =
          match (writePayload v).run t with
          | (.ok n, t') => (.ok (HSIZE + (S.encs blocks).length + n), t')
          | (.err e, t') => (.err e, t')
          | (.panic, t') => (.panic, t') := by
          rw [W.bind_run]
          match (writePayload v).run t with
          | (.ok n, t') =>
            simp only
            rw [W.bind_ok (by rw [W.lift_run, g.size_eq])]
            split <;> rfl
          | (.err e, t') => rfl
          | (.panic, t') => rfl
        rw [hw]
        unfold writePayload
        rw [W.bind_ok (by rw [W.lift_run, g.parts_eq]), W.bind_run]
        rcases writeAll_cases ph.asVec t with ⟨t', e1, hg1⟩ | ⟨t', k, e1, hg1⟩
        · rw [e1]
          simp only
          rw [W.bind_run]
          rcases write_cases x t' with ⟨m, t2, e2, hm, hg2⟩ | ⟨t2, e2, hg2⟩
          · rw [e2]
            simp only [W.pure_run]
            refine ⟨ph.asVec.length + m, by simp; omega, by omega, ?_⟩
            rw [hg2, hg1, List.append_assoc]
            rw [List.take_length_add_append]
          · rw [e2]
            simp only
            refine ⟨ph.asVec.length, by simp, ?_⟩
            rw [hg2, hg1]; simp
        · rw [e1]
          simp only
          refine Honest.weaken (w1 := ph.asVec) (r := (.err .io, t')) ?_
          refine ⟨min k ph.asVec.length, by omega, ?_⟩
          rw [hg1]
          rcases Nat.le_total k ph.asVec.length with h | h
          · rw [Nat.min_eq_left h]
          · rw [Nat.min_eq_right h, List.take_of_length_le h, List.take_length]
  · rw [e]
    exact ⟨0, by simp, by simp [hg]⟩

/-- **C19**. `write_all`, `write` to an unlimited sink and the concatenation of `slices()` produce the same bytes; `write` reports
their number; the header is honest about the sizes. -/
theorem C19_write_forms (hp : p.Ok S) :
    ∃ w h ss, p.serialize = .ok w ∧ p.header = .ok h ∧
      p.slices = .ok ss ∧ ss.flatten = w ∧
      p.write.run ⟨[], []⟩ = (.ok w.length, ⟨[], w⟩) ∧
      h.size = w.length - 29 ∧ w.take 29 = h.bytes ∧
      (∃ pb, w.drop 29 = (p.blocks.map fun b => S.enc b).flatten ++ pb ∧
        h.blocksLen = ((p.blocks.map fun b => S.enc b).flatten).length ∧ (h.payload = false → pb = [])) := by
  obtain ⟨h, pb, sh⟩ := hp.shape
  obtain ⟨bs, e1, e2⟩ := blockSlices_flatten hp.blocks
  have hsl : ∃ ss, p.slices = .ok ss ∧ ss.flatten = h.bytes ++ S.encs p.blocks ++ pb := by
    have hpt := sh.part
    have hhd := sh.header
    obtain ⟨blocks, payload⟩ := p
    cases hpt with
    | none => exact ⟨_, by rw [Packet.slices, hhd, Out.bind_ok, e1, Out.bind_ok], by simp [e2]⟩
    | some g =>
      refine ⟨_, by rw [Packet.slices, hhd, Out.bind_ok, e1, Out.bind_ok]; simp only; rw [g.parts_eq]; rfl, ?_⟩
      simp [e2]
  obtain ⟨ss, hs1, hs2⟩ := hsl
  refine ⟨_, h, ss, serialize_eq hp.blocks sh, sh.header, hs1, hs2, ?_, ?_, ?_, pb, ?_, ?_, ?_⟩
  · have writeBlocks : ∀ (bs : List O.B) (total : Nat) (got : Bytes), (∀ b ∈ bs, S.ok b) →
        (writeBlocksPartial total bs).run ⟨[], got⟩ =
          (.ok (.inr (total + (S.encs bs).length)), ⟨[], got ++ S.encs bs⟩) := by
      intro bs
      induction bs with
      | nil => intro total got _; simp [writeBlocksPartial, BlockSpec.encs]
      | cons b bs ih =>
        intro total got hb
        rw [writeBlocksPartial, W.bind_ok (by rw [W.lift_run, S.buffer_eq b (hb b (by simp))]),
          W.bind_ok (Sink.write_unlimited ..), S.size_eq b (hb b (by simp)), if_neg (by omega),
          ih _ _ (fun b h => hb b (by simp [h])), S.encs_cons]
        simp [Nat.add_assoc]
    unfold Packet.write
    rw [W.bind_ok (by rw [W.lift_run, sh.header]), W.bind_ok (Sink.write_unlimited ..), if_neg (by simp),
      W.bind_ok (writeBlocks p.blocks _ _ hp.blocks)]
    simp only
    have hpt := sh.part
    obtain ⟨blocks, payload⟩ := p
    cases hpt with
    | none => simp
    | @some v ph x g =>
      simp only
      rw [W.bind_ok (a := x.length + ph.asVec.length)
        (s' := ⟨[], [] ++ h.bytes ++ S.encs blocks ++ ph.asVec ++ x⟩), W.bind_ok (by rw [W.lift_run, g.size_eq])]
      · split <;> simp [List.append_assoc, Nat.add_assoc, Nat.add_comm x.length]
      · unfold writePayload
        rw [W.bind_ok (by rw [W.lift_run, g.parts_eq]), W.bind_ok (Sink.writeAll_unlimited ..),
          W.bind_ok (Sink.write_unlimited ..)]
        rfl
  · simp only [List.length_append, PacketHeader.bytes_length, sh.size, HSIZE]; omega
  · rw [List.append_assoc, List.take_append_of_le_length (by simp [HSIZE]), List.take_of_length_le (by simp [HSIZE])]
  · rw [List.append_assoc, List.drop_append_of_le_length (by simp [HSIZE]), List.drop_of_length_le (by simp [HSIZE])]
    simp [BlockSpec.encs, List.flatMap_def]
  · rw [sh.blocksLen]; simp [BlockSpec.encs, List.flatMap_def]
  · intro hfl
    have hpt := sh.part
    have hf := sh.flag
    obtain ⟨blocks, payload⟩ := p
    cases hpt with
    | none => rfl
    | some g => rw [hf] at hfl; cases hfl

/-- `write_all` to any sink: `Ok` means everything was delivered, otherwise a prefix was. -/
theorem C19_write_all_any_sink (hp : p.Ok S) (s : Sink) :
    ∃ w, p.serialize = .ok w ∧
      ((p.writeAll.run s).1 = .ok () → (p.writeAll.run s).2.got = s.got ++ w) ∧
      ∃ k, (p.writeAll.run s).2.got = s.got ++ w.take k := by
  obtain ⟨h, pb, sh⟩ := hp.shape
  refine ⟨_, serialize_eq hp.blocks sh, ?_⟩
  -- one `write_all` followed by a writer of the rest
  have step : ∀ (b w : Bytes) (f : W Unit) (s : Sink),
      (∀ t, ((f.run t).1 = .ok () → (f.run t).2.got = t.got ++ w) ∧ ∃ k, (f.run t).2.got = t.got ++ w.take k) →
      (((Sink.writeAll b >>= fun _ => f).run s).1 = .ok () →
        ((Sink.writeAll b >>= fun _ => f).run s).2.got = s.got ++ (b ++ w)) ∧
      ∃ k, ((Sink.writeAll b >>= fun _ => f).run s).2.got = s.got ++ (b ++ w).take k := by
    intro b w f s hf
    rw [W.bind_run]
    rcases writeAll_cases b s with ⟨t, e, hg⟩ | ⟨t, k, e, hg⟩
    · rw [e]
      simp only
      obtain ⟨h1, k, h2⟩ := hf t
      refine ⟨fun h => by rw [h1 h, hg, List.append_assoc], b.length + k, ?_⟩
      rw [h2, hg, List.append_assoc]; rw [List.take_length_add_append]
    · rw [e]
      refine ⟨by simp, ?_⟩
      rcases Nat.le_total k b.length with h | h
      · exact ⟨k, by rw [hg, List.take_append_of_le_length h]⟩
      · exact ⟨b.length, by rw [hg, List.take_of_length_le h]; simp⟩
  have blocks : ∀ (bs : List O.B) (w : Bytes) (f : W Unit), (∀ b ∈ bs, S.ok b) →
      (∀ t, ((f.run t).1 = .ok () → (f.run t).2.got = t.got ++ w) ∧ ∃ k, (f.run t).2.got = t.got ++ w.take k) →
      ∀ s, (((writeBlocks bs >>= fun _ => f).run s).1 = .ok () →
        ((writeBlocks bs >>= fun _ => f).run s).2.got = s.got ++ (S.encs bs ++ w)) ∧
      ∃ k, ((writeBlocks bs >>= fun _ => f).run s).2.got = s.got ++ (S.encs bs ++ w).take k := by
    intro bs
    induction bs with
    | nil =>
      intro w f _ hf s
      simp only [BlockSpec.encs, List.flatMap_nil, List.nil_append, writeBlocks]
      rw [W.bind_ok (W.pure_run ..)]
      exact hf s
    | cons b bs ih =>
      intro w f hb hf s
      have e : (writeBlocks (b :: bs) >>= fun _ => f).run s =
          (Sink.writeAll (S.enc b) >>= fun _ => (writeBlocks bs >>= fun _ => f)).run s := by
        rw [writeBlocks, W.bind_run, W.bind_ok (by rw [W.lift_run, S.buffer_eq b (hb b (by simp))]), W.bind_run,
          W.bind_run (Sink.writeAll (S.enc b))]
        match (Sink.writeAll (S.enc b)).run s with
        | (.ok n, s') => rfl
        | (.err e, s') => rfl
        | (.panic, s') => rfl
      rw [e, S.encs_cons, List.append_assoc]
      exact step _ _ _ s (ih w f (fun b h => hb b (by simp [h])) hf)
  unfold Packet.writeAll
  rw [W.bind_ok (by rw [W.lift_run, sh.header]), List.append_assoc]
  refine step _ _ _ s fun t => blocks p.blocks pb _ hp.blocks ?_ t
  intro t
  have hpt := sh.part
  obtain ⟨bl, payload⟩ := p
  cases hpt with
  | none => exact ⟨by simp, 0, by simp⟩
  | @some v ph x g =>
    simp only
    rw [W.bind_ok (by rw [W.lift_run, g.parts_eq])]
    refine step _ _ _ t fun t => ?_
    rcases writeAll_cases x t with ⟨t', e, hg⟩ | ⟨t', k, e, hg⟩
    · simp only [e]
      exact ⟨fun _ => hg, x.length, by rw [hg, List.take_length]⟩
    · simp only [e]
      exact ⟨by simp, k, hg⟩

/-- A sink that takes 10 bytes of the header, and one that cuts a block. -/
example : ∃ w, samplePacket.serialize = .ok w ∧
    Honest w 0 ⟨[.accept 40, .accept 7], [1]⟩ (samplePacket.write.run ⟨[.accept 40, .accept 7], [1]⟩) :=
  C20_partial_write samplePacket_ok _

end Brec.Props
