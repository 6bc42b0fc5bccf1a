import Verif.Props.SendReceive
/-!
# C103: packets are received whatever follows them

A file whose end is damaged, a connection on which a faulty peer begins to talk nonsense: all packets before that place are received, and the reader then stands exactly as a new one
would at this place. What follows, a signature in it included, has no influence on what was received before it.
-/

namespace Brec.Props

open Brec Packet Rd

variable {O : BlockOps} {Q : PayloadOps} {S : BlockSpec O}

/-! ## A reader between two packets is like a new one -/

/-- What was reported earlier plays no part. -/
theorem read_log (rules : Rules O.BR (Packet O Q)) (chk : Bool) (r : Rd) (L : List Bytes) :
    read rules chk { r with log := L ++ r.log } = ((read rules chk r).1, { (read rules chk r).2 with log := L ++ (read rules chk r).2.log }) := by
  have hi : ∀ n buf log, ignoreTo rules n buf (L ++ log) = L ++ ignoreTo rules n buf log := by
    intro n buf log
    unfold ignoreTo
    split <;> simp
  have hf : ∀ (h : PacketHeader) pb c (r : Rd), finish rules h pb c { r with log := L ++ r.log } =
      ((finish rules h pb c r).1, { (finish rules h pb c r).2 with log := L ++ (finish rules h pb c r).2.log }) := by
    intro h pb c r
    unfold finish
    simp only
    split <;> rfl
  obtain ⟨src, rec, bu, lg⟩ := r
  unfold Rd.read
  cases rec with
  | ready h =>
    simp only
    unfold readReady
    simp only
    split
    · rfl
    · split
      · rfl
      · split
        · rfl
        · exact hf _ _ _ ⟨_, _, _, lg⟩
  | refill b n =>
    simp only
    unfold readRefill
    simp only
    split
    · rfl
    · simp
    · split
      · rfl
      · split
        · rfl
        · rfl
        · split
          · simp [hi]
          · simp [hi]
        · unfold refillAll
          simp only
          split
          · rfl
          · rfl
          · split <;> simp [hi]
          · simp [hi]
          · simp [hi]
  | empty =>
    simp only
    unfold readEmpty
    simp only
    split
    · rfl
    · rfl
    · split
      · rfl
      · split
        · rfl
        · rfl
        · simp [hi]
        · simp [hi]
        · rw [hi]
          split
          · rfl
          · split
            · rfl
            · exact hf _ _ _ ⟨_, _, _, _⟩

theorem reads_log (rules : Rules O.BR (Packet O Q)) (chk : Bool) (m : Nat) (r : Rd) (L : List Bytes) :
    reads rules chk m { r with log := L ++ r.log } = ((reads rules chk m r).1, { (reads rules chk m r).2 with log := L ++ (reads rules chk m r).2.log }) := by
  induction m generalizing r with
  | zero => rfl
  | succ m ih =>
    by_cases hp : (read rules chk r).1 = .panic
    · have e := read_log rules chk r L
      rw [reads, reads]
      rcases hr : read rules chk r with ⟨o, r'⟩
      rw [hr] at hp e
      simp only at hp
      subst hp
      rw [e]
    · have e := read_log rules chk r L
      rw [reads_succ hp, reads_succ (by rw [e]; exact hp), e]
      simp only
      rw [ih]

/-- A reader between two packets gives what a new one on the rest gives. -/
theorem reads_fresh (rules : Rules O.BR (Packet O Q)) (chk : Bool) {r : Rd} (h : r.recent = .empty) (m : Nat) :
    (reads rules chk m r).1 = (reads rules chk m (.new r.src)).1 ∧
      (reads rules chk m r).2.log = r.log ++ (reads rules chk m (.new r.src)).2.log := by
  obtain ⟨src, rec, bu, lg⟩ := r
  simp only at h
  subst h
  have e := reads_log rules chk m ⟨src, .empty, [], []⟩ lg
  simp only [List.append_nil] at e
  have hb : (reads rules chk m ⟨src, .empty, bu, lg⟩).1 = (reads rules chk m ⟨src, .empty, [], lg⟩).1 ∧
      (reads rules chk m ⟨src, .empty, bu, lg⟩).2.log = (reads rules chk m ⟨src, .empty, [], lg⟩).2.log := by
    cases m with
    | zero => exact ⟨rfl, rfl⟩
    | succ m =>
      have : read rules chk ⟨src, .empty, bu, lg⟩ = read rules chk ⟨src, .empty, [], lg⟩ := by
        unfold Rd.read
        rfl
      rw [reads, reads, this]
      exact ⟨rfl, rfl⟩
  rw [hb.1, hb.2, e]
  exact ⟨rfl, rfl⟩

/-! ## Up to the last packet -/

theorem run_before {rules : Rules O.BR (Packet O Q)} {chk : Bool} (G : Rd → List (Bytes × Packet O Q) → Prop)
    (hbad : ∀ r is t, InvE S False r is t → G r is → ¬ Bad r is)
    (hnext : ∀ r is t is', InvE S False r is t → G r is → (is' = is.tail ∨ ∃ k, is' = dropItems k is) →
      (read rules chk r).1 ≠ .panic → G (read rules chk r).2 is')
    (r : Rd) (is : List (Bytes × Packet O Q)) (t : Bytes) (inv : InvE S False r is t) (hG : G r is) (hne : is ≠ []) :
    ∃ n, loud (reads rules chk n r).1 = is.map (fun x => .ok (verdict S rules x.2)) ∧ Out.panic ∉ (reads rules chk n r).1 ∧
      LogAdd rules r.log (reads rules chk n r).2.log (litters is []) ∧
      (reads rules chk n r).2.recent = .empty ∧ (reads rules chk n r).2.src.Plain ∧ (reads rules chk n r).2.src.bytes = t := by
  induction hm : meas r using Nat.strongRecOn generalizing r is with
  | _ m ih =>
    subst hm
    cases stepE (rules := rules) (chk := chk) inv (fun e => absurd e hne) (hbad r is t inv hG) with
    | quiet k q hk inv' log lt =>
      have hnp : (read rules chk r).1 ≠ .panic := by rcases q with ⟨n, q⟩ | q <;> rw [q] <;> simp
      have hq : isQuiet (read rules chk r).1 = true := by rcases q with ⟨n, q⟩ | q <;> rw [q] <;> rfl
      have hdt : dropTail k is t = t := by cases is with | nil => exact absurd rfl hne | cons => rfl
      have hlit : (litOf is t) = litOf is [] := by cases is with | nil => exact absurd rfl hne | cons => rfl
      rw [hdt] at inv'
      rw [hlit] at log
      obtain ⟨n, h1, h2, h3, h4⟩ := ih _ lt _ _ inv' (hnext r is t _ inv hG (.inr ⟨k, rfl⟩) hnp)
        (by cases is with | nil => exact absurd rfl hne | cons x is => obtain ⟨l, p⟩ := x; simp [dropItems]) rfl
      have hdt' : dropTail k is [] = [] := by cases is with | nil => exact absurd rfl hne | cons => rfl
      refine ⟨n + 1, ?_, ?_, ?_, ?_⟩
      · rw [reads_succ hnp, loud, List.filter_cons, hq]
        simp only [Bool.not_true, Bool.false_eq_true, if_false]
        have : (dropItems k is).map (fun x => Out.ok (verdict S rules x.2)) =
            is.map (fun x => Out.ok (verdict S rules x.2)) := by
          have h := congrArg (List.map fun p => Out.ok (verdict S rules p)) (snd_dropItems is k)
          simpa [List.map_map, Function.comp_def] using h
        rw [this] at h1
        exact h1
      · rw [reads_succ hnp]
        intro hm
        rcases List.mem_cons.mp hm with hm | hm
        · exact hnp hm.symm
        · exact h2 hm
      · rw [reads_succ hnp, litters_drop is [] k]
        rw [hdt']
        exact log.trans h3
      · rw [reads_succ hnp]; exact h4
    | packet l p rest e res inv' log lt idle =>
      subst e
      have hnp : (read rules chk r).1 ≠ .panic := by rw [res]; simp
      have hq : isQuiet (.ok (verdict S rules p)) = false := by
        unfold verdict; split <;> rfl
      by_cases hr : rest = []
      · subst hr
        refine ⟨1, ?_, ?_, ?_, ?_, ?_, ?_⟩
        · rw [reads_succ hnp, loud, List.filter_cons, res, hq]; rfl
        · rw [reads_succ hnp, res]; simp [reads]
        · rw [reads_succ hnp]; simpa [litters, reads] using log
        · rw [reads_succ hnp]; exact idle
        · rw [reads_succ hnp]; exact inv'.plain
        · rw [reads_succ hnp]
          have st := inv'.state
          rw [idle] at st
          exact st
      · obtain ⟨n, h1, h2, h3, h4⟩ := ih _ lt _ _ inv' (hnext r _ t _ inv hG (.inl rfl) hnp) hr rfl
        refine ⟨n + 1, ?_, ?_, ?_, ?_⟩
        · rw [reads_succ hnp, loud, List.filter_cons, res, hq]
          simp only [Bool.not_false, if_true, List.map_cons]
          congr 1
        · rw [reads_succ hnp]
          intro hm
          rcases List.mem_cons.mp hm with hm | hm
          · exact hnp hm.symm
          · exact h2 hm
        · rw [reads_succ hnp]
          have : litters ((l, p) :: rest) [] = l ++ litters rest [] := by simp [litters]
          rw [this]
          exact log.trans h3
        · rw [reads_succ hnp]; exact h4
    | done e => exact absurd e hne

/-! ## The claim -/

/-- The packets and the litter in front of them are received and reported, and after that the reader gives, and reports, what a new one on the rest would. -/
def Unhindered (S : BlockSpec O) (rules : Rules O.BR (Packet O Q)) (chk : Bool) (cs : Chunks) (is : List (Bytes × Packet O Q)) (t : Bytes) : Prop :=
  ∃ n cs', Cuts cs' t ∧ loud (reads rules chk n (.new (cs.map some))).1 = is.map (fun x => .ok (verdict S rules x.2)) ∧
    (∃ calls : List Bytes, (∀ c ∈ calls, c ≠ []) ∧ calls.flatten = (is.map Prod.fst).flatten ∧
      (reads rules chk n (.new (cs.map some))).2.log = calls.flatMap rules.ignore) ∧
    ∀ m, (reads rules chk (n + m) (.new (cs.map some))).1 = (reads rules chk n (.new (cs.map some))).1 ++ (reads rules chk m (.new (cs'.map some))).1 ∧
      (reads rules chk (n + m) (.new (cs.map some))).2.log = (reads rules chk n (.new (cs.map some))).2.log ++ (reads rules chk m (.new (cs'.map some))).2.log

theorem plain_chunks {es : Events} (h : es.Plain) : ∃ cs : Chunks, es = cs.map some ∧ Cuts cs es.bytes := by
  induction es with
  | nil => exact ⟨[], rfl, rfl, by simp⟩
  | cons e es ih =>
    obtain ⟨c, rfl, h1, h2⟩ := h e List.mem_cons_self
    obtain ⟨cs, rfl, h3, h4⟩ := ih fun e he => h e (List.mem_cons_of_mem _ he)
    refine ⟨c :: cs, rfl, by rw [List.flatten_cons, h3, Events.bytes_cons], ?_⟩
    intro x hx
    rcases List.mem_cons.mp hx with rfl | hx
    · exact ⟨h1, h2⟩
    · exact h4 x hx

theorem unhindered (rules : Rules O.BR (Packet O Q)) (chk : Bool) (is : List (Bytes × Packet O Q)) (t : Bytes) (cs : Chunks)
    (hi : ∀ x ∈ is, GoodItem S x) (hc : Cuts cs (stream is t)) (hl : (∀ x ∈ is, x.1 = []) ∨ ∀ c ∈ cs.dropLast, 29 ≤ c.length) :
    Unhindered S rules chk cs is t := by
  by_cases hne : is = []
  · subst hne
    refine ⟨0, cs, hc, rfl, ⟨[], by simp, rfl, rfl⟩, fun m => ?_⟩
    rw [Nat.zero_add]
    exact ⟨rfl, rfl⟩
  have inv : InvE S False (new (cs.map some)) is t := inv_newE hc.2 hc.1 hi False.elim
  have fin : (∃ n, loud (reads rules chk n (.new (cs.map some))).1 = is.map (fun x => .ok (verdict S rules x.2)) ∧ Out.panic ∉ (reads rules chk n (.new (cs.map some))).1 ∧
      LogAdd rules [] (reads rules chk n (.new (cs.map some))).2.log (litters is []) ∧
      (reads rules chk n (.new (cs.map some))).2.recent = .empty ∧ (reads rules chk n (.new (cs.map some))).2.src.Plain ∧
      (reads rules chk n (.new (cs.map some))).2.src.bytes = t) → Unhindered S rules chk cs is t := by
    rintro ⟨n, h1, h2, ⟨calls, h3, h4, h5⟩, h6, h7, h8⟩
    obtain ⟨cs', e, hc'⟩ := plain_chunks h7
    rw [h8] at hc'
    refine ⟨n, cs', hc', h1, ⟨calls, h4, by rw [h3, litters, List.append_nil], by rw [h5, List.nil_append]⟩, fun m => ?_⟩
    obtain ⟨f1, f2⟩ := reads_fresh rules chk h6 m
    rw [reads_add h2]
    simp only
    rw [f1, f2, e]
    exact ⟨rfl, rfl⟩
  apply fin
  rcases hl with hl | hl
  · refine run_before (fun _ is => ∀ x ∈ is, x.1 = []) (fun r is t inv hG => not_bad_pure inv hG) (fun r is t is' _ hG hi _ => ?_) _ _ _ inv hl hne
    rcases hi with rfl | ⟨k, rfl⟩
    · exact fun x hx => hG x (List.mem_of_mem_tail hx)
    · cases is with
      | nil => simp [dropItems]
      | cons y is =>
        obtain ⟨l, p⟩ := y
        intro x hx
        rcases List.mem_cons.mp hx with rfl | hx
        · have := hG (l, p) List.mem_cons_self
          simp only at this
          simp [this]
        · exact hG x (List.mem_cons_of_mem _ hx)
  · have hlong : Events.Long (cs.map some) := by
      intro c h
      rw [← List.map_dropLast] at h
      obtain ⟨c', h', e⟩ := List.mem_map.mp h
      rw [← Option.some.inj e]
      exact hl _ h'
    exact run_before (fun r _ => LongInv r ∧ Sane r) (fun r is t _ hG => not_bad_long hG.1)
      (fun r is t is' _ hG _ _ => ⟨hG.1.read hG.2 rules chk, hG.2.read rules chk⟩) _ _ _ inv ⟨⟨Long_tail hlong, fun b n e => by cases e⟩, ⟨trivial⟩⟩ hne

/-- **C103**. Packets one behind the other are received, each as the rules say, however the source cuts the stream and whatever follows them; after the last of them the reader goes on as
a new one would. -/
theorem C103_whatever_follows (ps : List (Packet O Q)) (hp : ∀ p ∈ ps, p.Ok S ∧ p.blocks.length ≤ 255) (t : Bytes) (rules : Rules O.BR (Packet O Q)) (chk : Bool) (cs : Chunks)
    (hc : Cuts cs ((ps.map wire).flatten ++ t)) : Unhindered S rules chk cs (ps.map fun p => ([], p)) t := by
  have hpure : ∀ x ∈ ps.map (fun p => (([] : Bytes), p)), x.1 = [] := by
    intro x hx; obtain ⟨p, _, rfl⟩ := List.mem_map.mp hx; rfl
  have hst : ∀ ps : List (Packet O Q), stream (ps.map fun p => (([] : Bytes), p)) t = (ps.map wire).flatten ++ t := by
    intro ps
    induction ps with
    | nil => rfl
    | cons p ps ih => simp [stream, ih]
  refine unhindered rules chk _ t cs ?_ (by rw [hst]; exact hc) (.inl hpure)
  intro x hx
  obtain ⟨p, hp', rfl⟩ := List.mem_map.mp hx
  exact ⟨free_nil, (hp p hp').1, (hp p hp').2, .inl rfl⟩

/-- **C103 with litter** between the packets, under the conditions of `C23_long_reads_partial`, but for the one on what follows the last packet. -/
theorem C103_litter (is : List (Bytes × Packet O Q)) (hi : ∀ x ∈ is, GoodItem S x) (t : Bytes) (rules : Rules O.BR (Packet O Q)) (chk : Bool) (cs : Chunks)
    (hc : Cuts cs (stream is t)) (hl : ∀ c ∈ cs.dropLast, 29 ≤ c.length) : Unhindered S rules chk cs is t :=
  unhindered rules chk is t cs hi hc (.inr hl)

/-! ## A stream that breaks off -/

/-- Calls until all reads of the source are used up, on a stream that would go on with `E`. -/
theorem prompt_long {rules : Rules O.BR (Packet O Q)} {chk : Bool} (E : Events) (r : Rd) (is : List (Bytes × Packet O Q))
    (inv : Inv S (More E r) is []) (hL : LongInv r) (hS : Sane r) :
    ∃ n done is', Out.panic ∉ (reads rules chk n r).1 ∧ (reads rules chk n r).2.src = [] ∧ Inv S (More E (reads rules chk n r).2) is' [] ∧ is'.tail <:+ is.tail ∧
      is.map (·.2) = done ++ is'.map (·.2) ∧ loud (reads rules chk n r).1 = done.map (fun p => .ok (verdict S rules p)) := by
  induction hm : meas (More E r) using Nat.strongRecOn generalizing r is with
  | _ m ih =>
    subst hm
    obtain ⟨src, re, bu, lg⟩ := r
    cases src with
    | nil => exact ⟨0, [], is, by simp [reads], rfl, inv, List.suffix_refl _, rfl, rfl⟩
    | cons e X =>
      obtain ⟨b, rfl, hb, hbl⟩ := inv.plain e (by simp [More])
      have hmore := read_more rules chk b hb X E re bu lg
      have hbad : ¬ Bad (More E ⟨some b :: X, re, bu, lg⟩) is := by
        rintro ⟨x, n, c, es, l, p, rest, hr, hs, hc, _, hl⟩
        have := (hL.refill x n hr).2 (by omega)
        cases this
      have st := step (rules := rules) (chk := chk) inv hbad
      have hL' := hL.read hS rules chk
      have hS' := hS.read rules chk
      have hmore' : read rules chk (More E ⟨some b :: X, re, bu, lg⟩) =
        ((read rules chk ⟨some b :: X, re, bu, lg⟩).1, More E (read rules chk ⟨some b :: X, re, bu, lg⟩).2) := hmore
      rw [hmore'] at st
      generalize hr : (⟨some b :: X, re, bu, lg⟩ : Rd) = r0 at *
      cases st with
      | quiet k q hk inv' log lt =>
        have hdt : dropTail k is ([] : Bytes) = [] := by cases is <;> simp [dropTail]
        rw [hdt] at inv'
        obtain ⟨n, done, is', h0, h1, h2, h3, h4, h5⟩ := ih _ lt _ _ inv' hL' hS' rfl
        have hnp : (read rules chk r0).1 ≠ .panic := by rcases q with ⟨n, q⟩ | q <;> simp only at q <;> rw [q] <;> simp
        have hq : isQuiet (read rules chk r0).1 = true := by rcases q with ⟨n, q⟩ | q <;> simp only at q <;> rw [q] <;> rfl
        refine ⟨n + 1, done, is', ?_, ?_, ?_, ?_, ?_, ?_⟩
        · rw [reads_succ hnp]
          intro hm
          rcases List.mem_cons.mp hm with hm | hm
          · exact hnp hm.symm
          · exact h0 hm
        · rw [reads_succ hnp]; exact h1
        · rw [reads_succ hnp]; exact h2
        · refine h3.trans ?_
          cases is with
          | nil => exact List.suffix_refl _
          | cons x is => obtain ⟨l, p⟩ := x; exact List.suffix_refl _
        · rw [← snd_dropItems is k]; exact h4
        · rw [reads_succ hnp, loud, List.filter_cons, hq]; exact h5
      | packet l p rest e res inv' log lt =>
        subst e
        obtain ⟨n, done, is', h0, h1, h2, h3, h4, h5⟩ := ih _ lt _ _ inv' hL' hS' rfl
        simp only at res
        have hnp : (read rules chk r0).1 ≠ .panic := by rw [res]; simp
        have hq : isQuiet (read rules chk r0).1 = false := by rw [res]; unfold verdict; split <;> rfl
        refine ⟨n + 1, p :: done, is', ?_, ?_, ?_, ?_, ?_, ?_⟩
        · rw [reads_succ hnp]
          intro hm
          rcases List.mem_cons.mp hm with hm | hm
          · exact hnp hm.symm
          · exact h0 hm
        · rw [reads_succ hnp]; exact h1
        · rw [reads_succ hnp]; exact h2
        · exact h3.trans (List.tail_suffix _)
        · simp [h4]
        · rw [reads_succ hnp, loud, List.filter_cons, hq]
          simp only [Bool.not_false, if_true, List.map_cons, res]
          exact congrArg _ h5
      | done e res log src recent =>
        exfalso
        subst e
        have st := inv.state
        have hby : (More E r0).src.bytes ≠ [] := by
          rw [← hr]
          simp only [More, Events.bytes, List.cons_append, List.map_cons, Option.getD_some, List.flatten_cons]
          intro e
          exact hb (List.append_eq_nil_iff.mp e).1
        cases hre : (More E r0).recent with
        | empty => rw [hre] at st; exact hby st
        | refill x n => rw [hre] at st; exact hby (List.append_eq_nil_iff.mp st.2.2.1).2
        | ready h => rw [hre] at st; obtain ⟨p, rest, pb, e, _⟩ := st; cases e

/-- **C103, a stream that breaks off** in the litter in front of a packet or inside of it: the packets before are received, and nothing else ever. -/
theorem C103_cut (is : List (Bytes × Packet O Q)) (hi : ∀ x ∈ is, GoodItem S x) (l : Bytes) (p : Packet O Q) (hp : GoodItem S (l, p)) (k : Nat) (hk : 0 < k)
    (hk' : k < (l ++ wire p).length) (rules : Rules O.BR (Packet O Q)) (chk : Bool) (cs : Chunks) (hc : Cuts cs (stream is ((l ++ wire p).take k)))
    (hl : ∀ c ∈ cs.dropLast, 29 ≤ c.length) :
    ∃ n, ∀ m, ∃ os, (∀ o ∈ os, o = .ok .noData ∨ ∃ j, 0 < j ∧ o = .ok (.notEnough j)) ∧
      loud (reads rules chk n (.new (cs.map some))).1 = is.map (fun x => .ok (verdict S rules x.2)) ∧
      (reads rules chk (n + m) (.new (cs.map some))).1 = (reads rules chk n (.new (cs.map some))).1 ++ os := by
  obtain ⟨u, hu⟩ : ∃ u, u = (l ++ wire p).drop k := ⟨_, rfl⟩
  have hul : u.length + k = (l ++ wire p).length := by rw [hu, List.length_drop]; omega
  have hune : u ≠ [] := by intro e; rw [e] at hul; simp at hul; simp at hk'; omega
  have hbytes : ∀ u : Bytes, (u.map fun b => [b]).flatten = u := by
    intro u
    induction u with
    | nil => rfl
    | cons b u ih => simp [ih]
  have hst : ∀ (is : List (Bytes × Packet O Q)) (x y : Bytes), stream is (x ++ y) = stream is x ++ y := by
    intro is x y
    induction is with
    | nil => rfl
    | cons z is ih => obtain ⟨a, b⟩ := z; simp [stream, ih]
  have hsa : ∀ (a b : List (Bytes × Packet O Q)) (t : Bytes), stream (a ++ b) t = stream a (stream b t) := by
    intro a b t
    induction a with
    | nil => rfl
    | cons x a ih => obtain ⟨l, p⟩ := x; simp [stream, ih]
  have inv : Inv S (new ((cs ++ u.map fun b => [b]).map some)) (is ++ [(l, p)]) [] := by
    refine inv_new ?_ ?_ ?_ (by intro j; simp [PACKET_SIG])
    · intro c hc'
      rcases List.mem_append.mp hc' with h | h
      · exact hc.2 c h
      · obtain ⟨b, _, rfl⟩ := List.mem_map.mp h
        exact ⟨by simp, by simp⟩
    · rw [hsa, List.flatten_append, hc.1, hbytes, ← hst, hu, List.take_append_drop]
      simp [stream]
    · intro x hx
      rcases List.mem_append.mp hx with hx | hx
      · exact hi x hx
      · rw [List.mem_singleton.mp hx]; exact hp
  have e0 : new ((cs ++ u.map fun b => [b]).map some) = More (u.map fun b => some [b]) (new (cs.map some)) := by
    simp [new, More, Function.comp_def]
  rw [e0] at inv
  have hlong : Events.Long (cs.map some) := by
    intro c h
    rw [← List.map_dropLast] at h
    obtain ⟨c', h', e⟩ := List.mem_map.mp h
    rw [← Option.some.inj e]
    exact hl _ h'
  obtain ⟨n, done, is', h0, h1, h2, h3, h4, h5⟩ := prompt_long (rules := rules) (chk := chk) _ _ _ inv ⟨Long_tail hlong, fun b n e => by cases e⟩ ⟨trivial⟩
  generalize hr' : (reads rules chk n (new (cs.map some))).2 = r' at *
  have hsrc : (More (u.map fun b => some [b]) r').src.bytes = u := by
    simp only [More, h1, List.nil_append, Events.bytes, List.map_map]
    conv => rhs; rw [← hbytes u]
    congr 1
  have st := h2.state
  -- the packet in progress is the one that breaks off
  obtain ⟨l0, hls, hle0⟩ : ∃ l0, is' = [(l0, p)] ∧ done = is.map (·.2) := by
    rw [List.map_append, List.map_singleton] at h4
    rcases is' with _ | ⟨⟨l0, p0⟩, is1⟩
    · exfalso
      cases hr : (More (u.map fun b => some [b]) r').recent with
      | empty => rw [hr] at st; rw [hsrc] at st; exact hune st
      | refill b m =>
        rw [hr] at st
        obtain ⟨_, _, st, _⟩ := st
        rw [hsrc] at st
        exact hune (List.append_eq_nil_iff.mp st).2
      | ready h => rw [hr] at st; obtain ⟨p, rest, pb, e, _⟩ := st; cases e
    · rcases List.eq_nil_or_concat is1 with rfl | ⟨is2, y, rfl⟩
      · refine ⟨l0, ?_, ?_⟩
        · have := congrArg List.getLast? h4
          simp at this
          rw [this]
        · have := congrArg List.dropLast h4
          simpa using this.symm
      · exfalso
        have hy : y = (l, p) := by
          simp only [List.tail_cons, List.concat_eq_append] at h3
          obtain ⟨z, hz⟩ := h3.trans (List.tail_suffix _)
          have := congrArg List.getLast? hz
          rw [← List.append_assoc] at this
          simpa using this
        subst hy
        simp only [List.concat_eq_append] at *
        have hlast : u.length + k ≤ (stream (is2 ++ [(l, p)]) []).length := by
          rw [hsa, hul, show stream [(l, p)] [] = [] ++ (l ++ wire p) by simp [stream], hst, List.length_append (as := stream is2 [])]
          omega
        have g := h2.good _ List.mem_cons_self
        obtain ⟨h0', pb0, sh0⟩ := g.ok.shape
        have hs0 : (stream ((l0, p0) :: (is2 ++ [(l, p)])) []).length = l0.length + (29 + h0'.size) + (stream (is2 ++ [(l, p)]) []).length := by
          simp only [stream, List.length_append, wire_length g.ok.blocks sh0]; omega
        cases hr : (More (u.map fun b => some [b]) r').recent with
        | empty =>
          rw [hr] at st
          simp only at st
          have := congrArg List.length st
          rw [hsrc, hs0] at this
          omega
        | refill b m =>
          rw [hr] at st
          obtain ⟨_, _, st, hm, hh⟩ := st
          rw [hsrc] at st
          have hlen := congrArg List.length st
          rw [List.length_append, hs0] at hlen
          rcases hh with hh | ⟨hh, h29, hpos⟩
          · omega
          · obtain ⟨R, hR⟩ := sig_bytes h0'
            have hfs := firstSig (X := stream ((l0, p0) :: (is2 ++ [(l, p)])) []) (R := R ++ (S.encs p0.blocks ++ pb0 ++ stream (is2 ++ [(l, p)]) [])) g.free
              (by rw [stream_cons g.ok.blocks sh0, hR]; simp)
            have hpre : b.take 29 <+: stream ((l0, p0) :: (is2 ++ [(l, p)])) [] := by
              rw [← st]
              exact (List.take_prefix _ _).trans (List.prefix_append _ _)
            have hf := getPos_prefix hpre hfs
            have hbt : (b.take 29).length = 29 := by rw [List.length_take]; omega
            rw [hpos, hbt] at hf
            split at hf
            · cases hf
            · rename_i hf'
              simp only at hf'
              rcases g.body with hb | hb
              · simp only at hb
                subst hb
                simp at *
              · have := hb h0' sh0.header
                omega
        | ready h =>
          rw [hr] at st
          obtain ⟨q, rest, pb, e, sh, st, hle⟩ := st
          simp only [List.cons.injEq, Prod.mk.injEq] at e
          obtain ⟨⟨rfl, rfl⟩, rfl⟩ := e
          rw [hsrc] at st
          have hlen := congrArg List.length st
          have hsz := sh.size
          simp only [More] at hle hlen
          rw [List.length_append, List.length_append (as := S.encs _ ++ pb), List.length_append] at hlen
          omega
  subst hls hle0
  refine ⟨n, fun m => ⟨(reads rules chk m r').1, reads_at_end rules chk m r' h1 ?_, by rw [h5, List.map_map]; rfl, by rw [reads_add h0, hr']⟩⟩
  intro h hr
  rw [show (More (u.map fun b => some [b]) r').recent = .ready h from hr] at st
  obtain ⟨q, rest, pb, e, sh, st, hle⟩ := st
  simp only [List.cons.injEq, Prod.mk.injEq] at e
  obtain ⟨⟨rfl, rfl⟩, rfl⟩ := e
  rw [hsrc] at st
  have hlen := congrArg List.length st
  have hsz := sh.size
  have := List.length_pos_iff.mpr hune
  simp only [List.length_append, stream, List.length_nil, More] at hlen hsz
  omega

theorem news_all (rules : Rules O.BR (Packet O Q)) (is : List (Bytes × Packet O Q)) :
    news (is.map fun x => (.ok (verdict S rules x.2) : Out (Next (Packet O Q)))) = is.map (fun x => .ok (verdict S rules x.2)) := by
  have := news_verdicts (S := S) rules (is.map (·.2))
  simpa [List.map_map, Function.comp_def] using this

/-- What there is to see of a stream that ends behind a packet. -/
theorem news_whole (is : List (Bytes × Packet O Q)) (hi : ∀ x ∈ is, GoodItem S x) (rules : Rules O.BR (Packet O Q)) (chk : Bool) (cs : Chunks) (hc : Cuts cs (stream is []))
    (hl : ∀ c ∈ cs.dropLast, 29 ≤ c.length) :
    ∃ n, ∀ m, news (reads rules chk (n + m) (.new (cs.map some))).1 = is.map (fun x => .ok (verdict S rules x.2)) := by
  have inv := inv_new (S := S) hc.2 hc.1 hi (by intro j; simp [PACKET_SIG])
  have hlong : Events.Long (cs.map some) := by
    intro c h
    rw [← List.map_dropLast] at h
    obtain ⟨c', h', e⟩ := List.mem_map.mp h
    rw [← Option.some.inj e]
    exact hl _ h'
  obtain ⟨n, h1, _, h2, h3⟩ := run (chk := chk) (rules := rules) (fun r _ => LongInv r ∧ Sane r)
    (fun r is t _ hG => not_bad_long hG.1)
    (fun r is t is' _ hG _ _ => ⟨hG.1.read hG.2 rules chk, hG.2.read rules chk⟩)
    _ _ _ inv ⟨⟨Long_tail hlong, fun b n e => by cases e⟩, ⟨trivial⟩⟩
  refine ⟨n, fun m => ?_⟩
  rw [reads_add, news_append, news_none (reads_at_end rules chk m _ h2 (by rw [h3]; intro h e; cases e)), List.append_nil, ← news_loud, h1, news_append,
    news_all, news_none (by simp), List.append_nil]
  intro hp
  have : Out.panic ∈ loud (reads rules chk n (.new (cs.map some))).1 := List.mem_filter.mpr ⟨hp, rfl⟩
  rw [h1, List.mem_append] at this
  rcases this with this | this
  · obtain ⟨p, _, e⟩ := List.mem_map.mp this
    cases e
  · cases this with | tail _ h => cases h

/-- What there is to see of a stream that breaks off anywhere: `C103_cut`, and streams that end behind a packet. -/
theorem news_cut (is : List (Bytes × Packet O Q)) (hi : ∀ x ∈ is, GoodItem S x) (l : Bytes) (p : Packet O Q) (hp : GoodItem S (l, p)) (k : Nat)
    (hk : k < (l ++ wire p).length) (rules : Rules O.BR (Packet O Q)) (chk : Bool) (cs : Chunks) (hc : Cuts cs (stream is ((l ++ wire p).take k)))
    (hl : ∀ c ∈ cs.dropLast, 29 ≤ c.length) :
    ∃ n, ∀ m, news (reads rules chk (n + m) (.new (cs.map some))).1 = is.map (fun x => .ok (verdict S rules x.2)) := by
  by_cases hk0 : k = 0
  · subst hk0
    rw [List.take_zero] at hc
    exact news_whole is hi rules chk cs hc hl
  · obtain ⟨n, h⟩ := C103_cut is hi l p hp k (by omega) hk rules chk cs hc hl
    refine ⟨n, fun m => ?_⟩
    obtain ⟨os, h1, h2, h3⟩ := h m
    rw [h3, news_append, news_none h1, List.append_nil, ← news_loud, h2, news_all]

/-- Two packets, the second behind litter, and then a signature with a header that does not check: both packets are received, and then comes the error, as from a new reader. -/
example (chk : Bool) : Unhindered sampleSpec ([] : Rules _ (Packet (blockEnum sampleTypes) (PEnum.ops []))) chk
    [wire samplePacket ++ [1, 2, 3] ++ wire samplePacket ++ badHeader] [([], samplePacket), ([1, 2, 3], samplePacket)] badHeader := by
  refine C103_litter _ ?_ _ _ _ _ ⟨by simp [stream], ?_⟩ (by simp)
  · intro x hx
    simp only [List.mem_cons, List.not_mem_nil, or_false] at hx
    rcases hx with rfl | rfl
    · exact ⟨free_nil, samplePacket_ok, by decide, .inl rfl⟩
    · exact ⟨show ∀ j < 3, ¬ PACKET_SIG <+: (([1, 2, 3] : Bytes) ++ PACKET_SIG).drop j by decide, samplePacket_ok, by decide, .inr fun h hh => body_of_blocks (by decide) h hh⟩
  · decide +kernel

end Brec.Props
