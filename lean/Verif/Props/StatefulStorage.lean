import Verif.Props.Stateful
import Verif.Props.StorageIter
import Verif.Props.Cut
/-!
# C106: rules that remember, over a storage
-/

namespace Brec.Props

open Brec Rd Packet

variable {O : BlockOps} {Q : PayloadOps} {S : BlockSpec O} {σ : Type}

/-- What an iterator gives until it ends, and the state it ends in. -/
inductive Collects {τ α : Type} (next : τ → Option α × τ → Prop) : τ → List α → τ → Prop
  | done {s s' : τ} : next s (none, s') → Collects next s [] s'
  | step {s s' s'' : τ} {a : α} {l : List α} : next s (some a, s') → Collects next s' l s'' → Collects next s (a :: l) s''

/-- The packets that are taken when the rules are asked about one after the other, and what they remember then. -/
def takeAll (S : BlockSpec O) (A : Asker σ O.BR (Packet O Q)) : σ → List (Packet O Q) → List (Packet O Q) × σ
  | s, [] => ([], s)
  | s, p :: ps => (if (judge S A s p).1 then p :: (takeAll S A (judge S A s p).2 ps).1 else (takeAll S A (judge S A s p).2 ps).1, (takeAll S A (judge S A s p).2 ps).2)

/-- The same until `n` packets are taken; the rules are not asked about the packets after these. -/
def takeFew (S : BlockSpec O) (A : Asker σ O.BR (Packet O Q)) : σ → Nat → List (Packet O Q) → List (Packet O Q) × σ
  | s, 0, _ => ([], s)
  | s, _, [] => ([], s)
  | s, n + 1, p :: ps =>
    if (judge S A s p).1 then (p :: (takeFew S A (judge S A s p).2 n ps).1, (takeFew S A (judge S A s p).2 n ps).2)
    else takeFew S A (judge S A s p).2 (n + 1) ps

/-! ## One packet -/

theorem lookS_eq {p : Packet O Q} {h : PacketHeader} {pb : Bytes} (hok : ∀ b ∈ p.blocks, S.ok b) (sh : Packet.Shape S p h pb) (A : Asker σ O.BR (Packet O Q)) (s : σ) :
    Packet.lookS A s h (S.encs p.blocks ++ pb) = (.ok (if (judge S A s p).1 then .accepted h.size p else .denied h.size), (judge S A s p).2) := by
  have hblk : (if h.blocksLen > 0 then Packet.slicesLoop O (S.encs p.blocks ++ pb) h.blocksLen ((S.encs p.blocks ++ pb).length + 1) 0 []
      else .ok []) = .ok (p.blocks.map S.ref) := by
    rw [sh.blocksLen]
    by_cases hne : p.blocks = []
    · simp [hne, BlockSpec.encs]
    · rw [if_pos (S.encs_pos hok hne), slicesLoop_eq hok hne (s := pb) (by omega) (by simp)
        (by have := S.length_le hok; simp only [List.length_append]; omega) (by simp)]
      simp
  have hfin : ∀ s (p : Packet O Q), Packet.lastLookS A s h.size p = (.ok (if (judge.last A p s).1 then .accepted h.size p else .denied h.size), (judge.last A p s).2) := by
    intro s p
    unfold Packet.lastLookS judge.last Asker.ask
    cases A.packet with
    | none => simp
    | some f =>
      obtain ⟨b, s', hx⟩ : ∃ b s', f s p = (b, s') := ⟨_, _, rfl⟩
      simp only [hx]
      cases b <;> simp
  have hrest : ∀ s, Packet.lookPayloadS A s h (S.encs p.blocks ++ pb) (p.blocks.map S.ref) =
      (.ok (if (judge.rest A p s).1 then .accepted h.size p else .denied h.size), (judge.rest A p s).2) := by
    intro s
    have hinto := map_into hok
    have hflag := sh.flag
    have hpt := sh.part
    have hbl := sh.blocksLen
    unfold Packet.lookPayloadS judge.rest bodyOf
    obtain ⟨blocks, payload⟩ := p
    cases hpt with
    | none =>
      simp only [hflag, Option.isSome_none, Bool.false_eq_true, if_false, hinto]
      exact hfin s _
    | @some v ph x g =>
      simp only [hflag, Option.isSome_some, if_true, hinto, hbl, g.parts_eq]
      have hd1 : List.drop (S.encs blocks).length (S.encs blocks ++ (ph.asVec ++ x)) = ph.asVec ++ x := by simp
      have hd2 : List.drop ((S.encs blocks).length + ph.size) (S.encs blocks ++ (ph.asVec ++ x)) = x := by
        rw [← List.drop_drop, hd1, ← PayloadHeader.size_eq]; simp
      rw [if_neg (by simp), hd1, Chunks.fill_single, PayloadHeader.peek_asVec ph g.len_lt]
      simp only
      rw [hd2, g.tryBuf_eq [x] [] (by simp), if_neg (by rw [← PayloadHeader.size_eq]; simp)]
      simp only
      unfold Asker.ask
      cases A.payload with
      | none => exact hfin s _
      | some f =>
        obtain ⟨b, s', hx⟩ : ∃ b s', f s x = (b, s') := ⟨_, _, rfl⟩
        simp only [hx]
        cases b
        · simp
        · simpa using hfin s' _
  unfold Packet.lookS judge
  rw [hblk]
  simp only
  have hask : ∀ f, A.blocks = some f → Asker.ask A.blocks s (p.blocks.map S.ref) = f s (p.blocks.map S.ref) := by
    intro f e; rw [e]; rfl
  cases hA : A.blocks with
  | none => exact hrest s
  | some f =>
    rw [hA] at hask
    rw [hask f rfl]
    obtain ⟨b, s', hx⟩ : ∃ b s', f s (p.blocks.map S.ref) = (b, s') := ⟨_, _, rfl⟩
    simp only [hx]
    cases b
    · simp
    · exact hrest s'

theorem filteredS_wire {p : Packet O Q} (hp : p.Ok S) (A : Asker σ O.BR (Packet O Q)) (s : σ) (t : Bytes) :
    ∃ n, Packet.filteredS A s (wire p ++ t) = ((.ok (if (judge S A s p).1 then .accepted n p else .denied n), t), (judge S A s p).2) := by
  obtain ⟨h, pb, sh⟩ := hp.shape
  refine ⟨h.size, ?_⟩
  have hf : Packet.fetchWhole.run (wire p ++ t) = (.ok (h, S.encs p.blocks ++ pb), t) := by
    rw [wire_eq hp.blocks sh]
    unfold Packet.fetchWhole
    rw [List.append_assoc, List.append_assoc, P.bind_ok (PacketHeader.read_bytes sh.wf _),
      P.bind_ok (a := ()) (s' := S.encs p.blocks ++ (pb ++ t)) (by simp [allocZeroed, sh.small]),
      ← List.append_assoc, P.bind_ok (P.readExact_append' (by rw [sh.size]; simp) t), P.pure_run]
  unfold Packet.filteredS
  rw [hf]
  simp only
  rw [lookS_eq hp.blocks sh]

/-! ## `filtered()` -/

theorem collects_filtered {cap : Nat} {data : Bytes} (hl : data.length < 2 ^ 63) (A : Asker σ O.BR (Packet O Q)) : ∀ (n : Nat) (ps : List (Packet O Q)), ps.length ≤ n →
    ∀ (s : σ) {it : Iter}, Before cap data it ps → (∀ p ∈ ps, p.Ok S) →
    ∃ it', Collects (fun x r => ∃ fuel, Iter.nextFilteredS A data fuel x = some r) (s, it) ((takeAll S A s ps).1.map Out.ok) ((takeAll S A s ps).2, it')
  | _, [], _, s, it, h, hok => by
    rcases h.refill (S := S) hl (by simp) with ⟨_, e⟩ | ⟨_, _, _, _, _, _, e, _⟩
    · refine ⟨⟨it.spans.next.2, it.buffer⟩, .done ⟨1, ?_⟩⟩
      simp only [Iter.nextFilteredS]
      rw [e]
      rfl
    · cases e
  | 0, _ :: _, hn, s, it, h, hok => by simp at hn
  | n + 1, p :: ps, hn, s, it, h, hok => by
    rcases h.refill (S := S) hl hok with ⟨e, _⟩ | ⟨it1, q, cur, e, hb, rest, hps, hB⟩
    · cases e
    · injection hps with h1 h2
      subst h1 h2
      obtain ⟨k, hf⟩ := filteredS_wire (hok p (by simp)) A s (cur.map wire).flatten
      obtain ⟨it', ih⟩ := collects_filtered hl A n (cur ++ rest) (by simpa using hn) (judge S A s p).2 (hB _ rfl) fun x hx => hok x (by simp [hx])
      refine ⟨it', ?_⟩
      rw [takeAll]
      by_cases ha : (judge S A s p).1 = true
      · simp only [ha, if_true, List.map_cons]
        refine .step ⟨1, ?_⟩ ih
        rw [Iter.nextFilteredS.eq_def]
        simp only
        rw [e]
        simp only
        rw [hb, hf, if_pos ha]
      · simp only [ha]
        have step : ∀ {x}, (∃ fuel, Iter.nextFilteredS A data fuel ((judge S A s p).2, { it1 with buffer := (cur.map wire).flatten }) = some x) →
            ∃ fuel, Iter.nextFilteredS A data fuel (s, it) = some x := by
          rintro x ⟨fuel, hx⟩
          refine ⟨fuel + 1, ?_⟩
          rw [Iter.nextFilteredS.eq_def]
          simp only
          rw [e]
          simp only
          rw [hb, hf, if_neg ha]
          exact hx
        simp only [Bool.false_eq_true, if_false]
        revert ih
        generalize (takeAll S A (judge S A s p).2 (cur ++ rest)).1.map Out.ok = l
        intro ih
        cases ih with
        | done h => exact .done (step h)
        | step h t => exact .step (step h) t

/-- **C106, `filtered()`.** One pass over the storage asks the rules once about each packet, in the order in which they were inserted, and gives the
packets they take. -/
theorem C106_filtered {cap : Nat} (hc : 0 < cap) {chk : Bool} {ops : List (Op O Q)} {data : Bytes} {st : Storage} (h : Reached cap chk ops data st)
    (hok : ∀ p ∈ log ops, p.Ok S) (hs : Small cap (log ops)) (A : Asker σ O.BR (Packet O Q)) (s : σ) :
    ∃ it', Collects (fun x r => ∃ fuel, Iter.nextFilteredS A data fuel x = some r) (s, Iter.new st) ((takeAll S A s (log ops)).1.map .ok)
      ((takeAll S A s (log ops)).2, it') := by
  obtain ⟨gs, v, hd, f, hl⟩ := h.view hc hok hs
  refine collects_filtered (cap := cap) hl A _ (log ops) (Nat.le_refl _) s ?_ hok
  rw [hd]
  exact view_before v f

/-! ## `range_filtered()` -/

theorem nthFilteredS_log {cap : Nat} (hc : 0 < cap) {gs : List (List Bytes)} {st : Storage} (v : View cap gs st) {ps : List (Packet O Q)}
    (hp : gs.flatten = ps.map wire) (hok : ∀ p ∈ ps, p.Ok S) (A : Asker σ O.BR (Packet O Q)) (s : σ) (n : Nat) :
    (ps[n]? = none ∧ st.nthFilteredS cap A (fileOf cap gs) s n = (.ok none, s)) ∨
    (∃ p k, ps[n]? = some p ∧ st.nthFilteredS cap A (fileOf cap gs) s n =
      (.ok (some (if (judge S A s p).1 then .accepted k p else .denied k)), (judge S A s p).2)) := by
  unfold Storage.nthFilteredS
  cases hn : ps[n]? with
  | none =>
    left
    rw [offsetOf_none hc v.groups v.inner (by rw [hp, List.getElem?_map, hn]; rfl)]
    exact ⟨rfl, rfl⟩
  | some p =>
    right
    obtain ⟨a, t, e, hf, _⟩ := offsetOf_some hc v.groups v.inner (n := n) (x := wire p) (by rw [hp, List.getElem?_map, hn]; rfl)
    obtain ⟨k, hk⟩ := filteredS_wire (hok p (List.mem_of_getElem? hn)) A s t
    refine ⟨p, k, rfl, ?_⟩
    rw [e]
    simp only
    rw [hf, List.drop_left, hk]
    by_cases ha : (judge S A s p).1 = true
    · rw [if_pos ha]
    · rw [if_neg ha]

theorem collects_range {cap : Nat} {st : Storage} {data : Bytes} {ps : List (Packet O Q)} {A : Asker σ O.BR (Packet O Q)}
    (hn : ∀ s n, (ps[n]? = none ∧ st.nthFilteredS cap A data s n = (.ok none, s)) ∨
      (∃ p k, ps[n]? = some p ∧ st.nthFilteredS cap A data s n = (.ok (some (if (judge S A s p).1 then .accepted k p else .denied k)), (judge S A s p).2))) :
    ∀ (m start len : Nat) (s : σ), ps.length - start ≤ m →
    ∃ r', Collects (fun x r => ∃ fuel, Range.nextFilteredS cap A st data fuel x = some r) (s, ⟨start, len⟩)
      ((takeFew S A s len (ps.drop start)).1.map .ok) ((takeFew S A s len (ps.drop start)).2, r')
  | _, start, 0, s, _ => by
    refine ⟨⟨start, 0⟩, ?_⟩
    rw [takeFew]
    exact .done ⟨1, rfl⟩
  | m, start, len + 1, s, hm => by
    rcases hn s start with ⟨e, hr⟩ | ⟨p, k, e, hr⟩
    · rw [List.drop_eq_nil_of_le (List.getElem?_eq_none_iff.mp e)]
      refine ⟨⟨start + 1, len + 1⟩, .done ⟨1, ?_⟩⟩
      rw [Range.nextFilteredS.eq_def]
      simp only
      rw [if_neg (by simp), hr]
      rfl
    · obtain ⟨hlt, hp⟩ := List.getElem?_eq_some_iff.mp e
      rw [List.drop_eq_getElem_cons hlt, hp, takeFew]
      cases m with
      | zero => omega
      | succ m =>
        by_cases ha : (judge S A s p).1 = true
        · obtain ⟨r', ih⟩ := collects_range hn m (start + 1) len (judge S A s p).2 (by omega)
          rw [if_pos ha]
          refine ⟨r', .step (s' := ((judge S A s p).2, ⟨start + 1, len⟩)) ⟨1, ?_⟩ ih⟩
          rw [Range.nextFilteredS.eq_def]
          simp only
          rw [if_neg (by simp), hr, if_pos ha]
          rfl
        · obtain ⟨r', ih⟩ := collects_range hn m (start + 1) (len + 1) (judge S A s p).2 (by omega)
          rw [if_neg ha]
          refine ⟨r', ?_⟩
          have step : ∀ {x}, (∃ fuel, Range.nextFilteredS cap A st data fuel ((judge S A s p).2, ⟨start + 1, len + 1⟩) = some x) →
              ∃ fuel, Range.nextFilteredS cap A st data fuel (s, ⟨start, len + 1⟩) = some x := by
            rintro x ⟨fuel, hx⟩
            refine ⟨fuel + 1, ?_⟩
            rw [Range.nextFilteredS.eq_def]
            simp only
            rw [if_neg (by simp), hr, if_neg ha]
            exact hx
          revert ih
          generalize (takeFew S A (judge S A s p).2 (len + 1) (ps.drop (start + 1))).1.map Out.ok = l
          intro ih
          cases ih with
          | done h => exact .done (step h)
          | step h t => exact .step (step h) t

/-- **C106, `range_filtered(from, len)`.** The rules are asked about the packets from `from` on, once about each and in order, until `len` are taken;
about the packets behind these they are not asked. -/
theorem C106_range_filtered {cap : Nat} (hc : 0 < cap) {chk : Bool} {ops : List (Op O Q)} {data : Bytes} {st : Storage} (h : Reached cap chk ops data st)
    (hok : ∀ p ∈ log ops, p.Ok S) (hs : Small cap (log ops)) (A : Asker σ O.BR (Packet O Q)) (s : σ) (start len : Nat) :
    ∃ r', Collects (fun x r => ∃ fuel, Range.nextFilteredS cap A st data fuel x = some r) (s, ⟨start, len⟩)
      ((takeFew S A s len ((log ops).drop start)).1.map .ok) ((takeFew S A s len ((log ops).drop start)).2, r') := by
  obtain ⟨gs, v, hd, f, _⟩ := h.view hc hok hs
  refine collects_range (fun s n => ?_) _ start len s (Nat.le_refl _)
  rw [hd]
  exact nthFilteredS_log hc v f hok A s n

/-! ## The rules without memory are those of the other models -/

theorem lookS_forgetful (ig : Bool) (fb : Option (List O.BR → Bool)) (fp : Option (Bytes → Bool)) (fq : Option (Packet O Q → Bool)) (s : σ) (h : PacketHeader) (buf : Bytes) :
    Packet.lookS (forgetful ig fb fp fq) s h buf = (Packet.look Q (forgetfulRules ig fb fp fq) h buf, s) := by
  generalize hA : (forgetful ig fb fp fq : Asker σ O.BR (Packet O Q)) = A
  generalize hR : forgetfulRules ig fb fp fq = R
  have hb : ∀ s x, Asker.ask A.blocks s x = (R.filterByBlocks x, s) := by
    subst hA hR; intro s x; cases ig <;> cases fb <;> cases fp <;> cases fq <;> rfl
  have hp : ∀ s x, Asker.ask A.payload s x = (R.filterByPayload x, s) := by
    subst hA hR; intro s x; cases ig <;> cases fb <;> cases fp <;> cases fq <;> rfl
  have hq : ∀ s x, Asker.ask A.packet s x = (R.filter x, s) := by
    subst hA hR; intro s x; cases ig <;> cases fb <;> cases fp <;> cases fq <;> rfl
  have hfin : ∀ s n p, Packet.lastLookS A s n p = ((if R.filter p then .ok (.accepted n p) else .ok (.denied n)), s) := by
    intro s n p
    unfold Packet.lastLookS
    rw [hq]
    cases R.filter p <;> rfl
  unfold Packet.lookS Packet.look
  generalize (if h.blocksLen > 0 then Packet.slicesLoop O buf h.blocksLen (buf.length + 1) 0 [] else .ok []) = o
  cases o with
  | err e => rfl
  | panic => rfl
  | ok rs =>
    simp only [Out.bind_ok]
    rw [hb]
    cases R.filterByBlocks rs with
    | false => rfl
    | true =>
      simp only [not_true, if_false]
      unfold Packet.lookPayloadS
      cases h.payload with
      | false => exact hfin _ _ _
      | true =>
        simp only [if_true]
        by_cases h1 : h.blocksLen > buf.length
        · rw [if_pos h1, if_pos h1]
        · rw [if_neg h1, if_neg h1]
          rcases PayloadHeader.peek (Chunks.fill [buf.drop h.blocksLen]) with (ph | n) | e | _
          · simp only
            by_cases h2 : h.blocksLen + ph.size > buf.length
            · rw [if_pos h2, if_pos h2]
            · rw [if_neg h2, if_neg h2, hp]
              cases R.filterByPayload (buf.drop (h.blocksLen + ph.size)) with
              | false => rfl
              | true =>
                simp only [not_true, if_false]
                rcases (Q.tryBuf ph [buf.drop (h.blocksLen + ph.size)]).1 with (v | n) | e | _
                · exact hfin _ _ _
                · rfl
                · rfl
                · rfl
          · rfl
          · rfl
          · rfl

theorem filteredS_forgetful (ig : Bool) (fb : Option (List O.BR → Bool)) (fp : Option (Bytes → Bool)) (fq : Option (Packet O Q → Bool)) (s : σ) (src : Bytes) :
    Packet.filteredS (forgetful ig fb fp fq) s src = ((Packet.filtered Q (forgetfulRules ig fb fp fq)).run src, s) := by
  unfold Packet.filteredS Packet.fetchWhole Packet.filtered
  rw [P.bind_run, P.bind_run]
  rcases PacketHeader.read.run src with ⟨h | e | _, t⟩
  · simp only
    rw [P.bind_run, P.bind_run]
    rcases (P.lift (allocZeroed h.size)).run t with ⟨u | e | _, t'⟩
    · simp only
      rw [P.bind_run, P.bind_run]
      rcases (P.readExact h.size).run t' with ⟨b | e | _, t''⟩
      · simp only [P.pure_run, P.lift_run]
        rw [lookS_forgetful]
      · rfl
      · rfl
    · rfl
    · rfl
  · rfl
  · rfl

/-- **C106**. The iterators with rules that remember are those of the other properties if they do not. -/
theorem C106_forgetful (ig : Bool) (fb : Option (List O.BR → Bool)) (fp : Option (Bytes → Bool)) (fq : Option (Packet O Q → Bool)) (cap : Nat) (st : Storage) (data : Bytes)
    (fuel : Nat) (s : σ) :
    (∀ it, Iter.nextFilteredS (forgetful ig fb fp fq) data fuel (s, it) = (Iter.nextFiltered (forgetfulRules ig fb fp fq) data fuel it).map fun x => (x.1, s, x.2)) ∧
    ∀ r, Range.nextFilteredS cap (forgetful ig fb fp fq) st data fuel (s, r) = (Range.nextFiltered cap (forgetfulRules ig fb fp fq) st data fuel r).map fun x => (x.1, s, x.2) := by
  have hn : ∀ n, st.nthFilteredS cap (forgetful ig fb fp fq) data s n = (st.nthFiltered cap (forgetfulRules ig fb fp fq) data n, s) := by
    intro n
    unfold Storage.nthFilteredS Storage.nthFiltered
    rcases st.offsetOf cap n with (_ | off) | e | _
    · rfl
    · simp only [filteredS_forgetful]
      rcases (Packet.filtered Q (forgetfulRules ig fb fp fq)).run (data.drop off) with ⟨(_ | _ | _) | e | _, t⟩ <;> rfl
    · rfl
    · rfl
  induction fuel with
  | zero => exact ⟨fun _ => rfl, fun _ => rfl⟩
  | succ fuel ih =>
    constructor
    · intro it
      rw [Iter.nextFilteredS, Iter.nextFiltered]
      rcases it.refill data with _ | (it1 | e | _)
      · rfl
      · simp only [filteredS_forgetful]
        rcases (Packet.filtered Q (forgetfulRules ig fb fp fq)).run it1.buffer with ⟨(_ | _ | _) | e | _, t⟩
        · rfl
        · exact ih.1 _
        · rfl
        · rfl
        · rfl
      · rfl
      · rfl
    · intro r
      rw [Range.nextFilteredS, Range.nextFiltered]
      by_cases h0 : r.len = 0
      · rw [if_pos h0, if_pos h0]; rfl
      · rw [if_neg h0, if_neg h0, hn]
        rcases st.nthFiltered cap (forgetfulRules ig fb fp fq) data r.start with (_ | (_ | _ | _)) | e | _
        · rfl
        · rfl
        · exact ih.2 _
        · rfl
        · rfl
        · rfl

/-! ## Counting -/

theorem takeAll_counting (n : Nat) (ps : List (Packet O Q)) : takeAll S counting n ps = (ps, n + ps.length) := by
  induction ps generalizing n with
  | nil => rfl
  | cons p ps ih =>
    have hj : judge S counting n p = (true, n + 1) := by
      unfold judge judge.rest judge.last counting
      cases bodyOf p <;> simp
    rw [takeAll, hj]
    simp only [if_true]
    rw [ih]
    simp only [List.length_cons]
    congr 1
    omega

theorem takeFew_counting (n len : Nat) (ps : List (Packet O Q)) : takeFew S counting n len ps = (ps.take len, n + min len ps.length) := by
  induction ps generalizing n len with
  | nil => cases len <;> simp [takeFew]
  | cons p ps ih =>
    cases len with
    | zero => simp [takeFew]
    | succ len =>
      have hj : judge S counting n p = (true, n + 1) := by
        unfold judge judge.rest judge.last counting
        cases bodyOf p <;> simp
      rw [takeFew, hj]
      simp only [if_true]
      rw [ih]
      simp only [List.length_cons, List.take_succ_cons]
      congr 1
      omega

/-- **C106**, in numbers: a rule that counts and takes everything has counted every packet once after a pass over the storage, and after a range every packet of
the range. -/
theorem C106_counts {cap : Nat} (hc : 0 < cap) {chk : Bool} {ops : List (Op O Q)} {data : Bytes} {st : Storage} (h : Reached cap chk ops data st)
    (hok : ∀ p ∈ log ops, p.Ok S) (hs : Small cap (log ops)) (n : Nat) :
    (∃ it', Collects (fun x r => ∃ fuel, Iter.nextFilteredS counting data fuel x = some r) (n, Iter.new st) ((log ops).map .ok) (n + (log ops).length, it')) ∧
    ∀ start len, ∃ r', Collects (fun x r => ∃ fuel, Range.nextFilteredS cap counting st data fuel x = some r) (n, ⟨start, len⟩)
      ((((log ops).drop start).take len).map .ok) (n + min len ((log ops).length - start), r') := by
  constructor
  · have := C106_filtered hc h hok hs counting n
    rwa [takeAll_counting] at this
  · intro start len
    have := C106_range_filtered hc h hok hs counting n start len
    rwa [takeFew_counting, List.length_drop] at this

/-- Non-vacuity: a storage with three packets and the rule that takes every other one; `range_filtered(0, 1)` leaves the rule asked once. -/
example : ∃ data st it' r', Reached 2 true threeOps data st ∧
    Collects (fun x r => ∃ fuel, Iter.nextFilteredS everyOther data fuel x = some r) (true, Iter.new st) [.ok samplePacket, .ok samplePacket] (false, it') ∧
    Collects (fun x r => ∃ fuel, Range.nextFilteredS 2 everyOther st data fuel x = some r) (true, ⟨0, 1⟩) [.ok samplePacket] (false, r') := by
  obtain ⟨data, st, h⟩ := Reached.exists (S := sampleSpec) (cap := 2) (by decide) true threeOps threeOps_storable threeOps_small
  obtain ⟨it', h1⟩ := C106_filtered (by decide) h (fun p hp => (threeOps_storable p hp).ok) threeOps_small everyOther true
  obtain ⟨r', h2⟩ := C106_range_filtered (by decide) h (fun p hp => (threeOps_storable p hp).ok) threeOps_small everyOther true 0 1
  rw [threeOps_log] at h1 h2
  refine ⟨data, st, it', r', h, ?_, ?_⟩
  · simpa [takeAll, judge, judge.rest, judge.last, everyOther] using h1
  · simpa [takeFew, judge, judge.rest, judge.last, everyOther] using h2

end Brec.Props
