import Verif.Props.Evolution
import Verif.Props.StorageIter
/-!
# Property C77: a storage file of a program with another protocol

A program opens a storage file that another program has written, and the two were built with different lists of block and payload types. The types both have are
the same declarations.
-/

namespace Brec.Props

open Brec Packet Rd

/-! ## Specification -/

/-- What `nth` should answer, given the results for all packets of the file. -/
def answer {α : Type} : Option (Out α) → Out (Option α)
  | none => .ok none
  | some (.ok p) => .ok (some p)
  | some (.err e) => .err e
  | some .panic => .panic

/-- What the filtered readers should give for a packet; `none`: it is left out. A packet with an unknown payload has to be left out if the rules deny its blocks or
the bytes of its payload already. -/
structure Sifted (pr : Receiver vs ps) (rules : Rules (blockEnum vs).BR (Packet (blockEnum vs) (PEnum.ops ps))) {ws : List BlockTy} {us : List PayloadTy}
    (p : Packet (blockEnum ws) (PEnum.ops us)) (o : Option (Out (Packet (blockEnum vs) (PEnum.ops ps)))) : Prop where
  known : Knows vs ps p → ∃ p', Same p p' ∧ o = if accepted pr.spec rules p' then some (.ok p') else none
  strange : Strange vs p → o = some (.err .sigDismatch)
  foreign : Foreign vs ps p → ∃ body, bodyOf p = some body ∧
    o = if passBlocks rules ((p.blocks : List BlockVal).map pr.spec.ref) && passPayload rules body then some (.err .sigDismatch) else none

/-- What a filtered range should give, `len` packets long: errors do not count. -/
def sift {α : Type} : Nat → List (Option (Out α)) → List (Out α)
  | 0, _ => []
  | _ + 1, [] => []
  | n + 1, none :: os => sift (n + 1) os
  | n + 1, some (.ok p) :: os => .ok p :: sift n os
  | n + 1, some o :: os => o :: sift (n + 1) os

/-! ## The seekable reader -/

theorem tryRead_strange {vs : List BlockTy} {c : Cur} (hp : c.pos ≤ c.data.length) (h4 : 4 ≤ c.rest.length) (h : ∀ b ∈ vs, b.sig ≠ c.rest.take 4) :
    enumTryRead vs c = (.err .sigDismatch, c) := by
  induction vs with
  | nil => rfl
  | cons b bs ih =>
    simp only [enumTryRead, BlockTy.tryRead_other hp h4 (Ne.symm (h b List.mem_cons_self))]
    exact ih fun b hb => h b (List.mem_cons_of_mem _ hb)

section

variable {O : BlockOps} {Q : PayloadOps} {S : BlockSpec O}

theorem blocksCur_strange {blocksLen : Nat} {bs : List O.B} (h : ∀ b ∈ bs, S.ok b) {e : Err} {x : Bytes}
    (hx : ∀ c : Cur, c.pos ≤ c.data.length → c.rest = x → (O.tryRead c).1 = .err e) {left read : Nat} {acc : List O.B} {c : Cur} (hp : c.pos ≤ c.data.length)
    (hr : c.rest = S.encs bs ++ x) (hl : bs.length ≤ left) (hb : read + (S.encs bs).length < blocksLen) : (blocksCur O blocksLen left read acc c).1 = .err e := by
  induction bs generalizing left read acc c with
  | nil =>
    have := hx c hp (by rw [hr]; rfl)
    rw [blocksCur.eq_def]
    rcases ho : O.tryRead c with ⟨o, c'⟩
    rw [ho] at this
    simp only at this
    subst this
    simp only [ho]
  | cons b bs ih =>
    have hsz := S.size_eq b (h b (by simp))
    rw [S.encs_cons] at hr hb
    rw [List.append_assoc] at hr
    rw [List.length_append] at hb
    rw [blocksCur.eq_def]
    simp only
    rw [S.tryRead_eq b (h b (by simp)) c _ hp hr]
    simp only
    rw [if_neg (by omega)]
    cases left with
    | zero => simp at hl
    | succ left =>
      simp only
      have hrl := congrArg List.length hr
      simp only [Cur.rest, List.length_drop, List.length_append] at hrl
      refine ih (fun b hb => h b (by simp [hb])) ?_ ?_ ?_ ?_
      · simp only; omega
      · exact Cur.rest_add hr
      · simp at hl; omega
      · rw [hsz]; omega

/-- The header of a packet that is all there has been read. -/
theorem tryRead_header {h : PacketHeader} (wf : h.WF) {inner : Bytes} (hs : h.size = inner.length) {c : Cur} {s : Bytes} (hc : c.pos ≤ c.data.length)
    (hr : c.rest = h.bytes ++ (inner ++ s)) :
    (Packet.tryRead Q c : Out (Status (Packet O Q)) × Cur) =
      (let r := if h.blocksLen > 0 then blocksCur O h.blocksLen MAX_BLOCKS 0 [] { c with pos := c.pos + HSIZE } else (.ok (.success []), { c with pos := c.pos + HSIZE })
       match r.1 with
       | .ok (.success bs) => payloadCur Q c.pos h.payload bs r.2
       | .ok (.notEnough n) => (.ok (.notEnough n), r.2.seek c.pos)
       | .err e => (.err e, r.2.seek c.pos)
       | .panic => (.panic, r.2)) ∧
    ({ c with pos := c.pos + HSIZE } : Cur).rest = inner ++ s ∧ c.pos + HSIZE ≤ c.data.length := by
  have hrl := congrArg List.length hr
  simp only [Cur.rest, List.length_drop, List.length_append, PacketHeader.bytes_length] at hrl
  have hr1 : ({ c with pos := c.pos + HSIZE } : Cur).rest = inner ++ s := by
    have := Cur.rest_add hr
    rwa [PacketHeader.bytes_length] at this
  refine ⟨?_, hr1, by omega⟩
  unfold Packet.tryRead
  rw [Cur.remaining_ok hc]
  simp only
  rw [PacketHeader.tryRead_bytes wf hc hr]
  simp only
  rw [if_neg (by rw [hs]; simp only [Cur.rest, List.length_drop]; omega)]
  rfl

theorem tryRead_bad_block {h : PacketHeader} (wf : h.WF) {bs : List O.B} (hb : ∀ b ∈ bs, S.ok b) {e : Err} {x : Bytes} (hs : h.size = (S.encs bs ++ x).length) {c : Cur} {s : Bytes}
    (hx : ∀ c : Cur, c.pos ≤ c.data.length → c.rest = x ++ s → (O.tryRead c).1 = .err e) (hc : c.pos ≤ c.data.length)
    (hr : c.rest = h.bytes ++ ((S.encs bs ++ x) ++ s)) (hn : bs.length ≤ 255) (hl : (S.encs bs).length < h.blocksLen) :
    (Packet.tryRead Q c : Out (Status (Packet O Q)) × Cur).1 = .err e := by
  obtain ⟨h1, h2, h3⟩ := tryRead_header (O := O) (Q := Q) wf hs hc hr
  rw [h1]
  have hblk : (if h.blocksLen > 0 then blocksCur O h.blocksLen MAX_BLOCKS 0 [] { c with pos := c.pos + HSIZE }
      else (.ok (.success []), { c with pos := c.pos + HSIZE })).1 = .err e := by
    rw [if_pos (by omega)]
    exact blocksCur_strange hb hx h3 (by rw [h2, List.append_assoc]) (by simpa [MAX_BLOCKS] using hn) (by omega)
  simp only
  rw [hblk]

theorem tryRead_bad_payload {h : PacketHeader} (wf : h.WF) {bs : List O.B} (hb : ∀ b ∈ bs, S.ok b) {ph : PayloadHeader} {y : Bytes} {e : Err}
    (hs : h.size = (S.encs bs ++ (ph.asVec ++ y)).length) {c : Cur} {s : Bytes} (hp : ph.len < 2 ^ 32)
    (hq : ∀ c : Cur, c.pos ≤ c.data.length → c.rest = y ++ s → (Q.tryRead ph c).1 = .err e) (hc : c.pos ≤ c.data.length)
    (hr : c.rest = h.bytes ++ ((S.encs bs ++ (ph.asVec ++ y)) ++ s)) (hn : bs.length ≤ 256) (hl : h.blocksLen = (S.encs bs).length) (hf : h.payload = true) :
    (Packet.tryRead Q c : Out (Status (Packet O Q)) × Cur).1 = .err e := by
  obtain ⟨h1, h2, h3⟩ := tryRead_header (O := O) (Q := Q) wf hs hc hr
  rw [h1]
  have hr1 : ({ c with pos := c.pos + HSIZE } : Cur).rest = S.encs bs ++ (ph.asVec ++ (y ++ s)) := by rw [h2]; simp
  have hblk : (if h.blocksLen > 0 then blocksCur O h.blocksLen MAX_BLOCKS 0 [] { c with pos := c.pos + HSIZE }
      else (.ok (.success []), { c with pos := c.pos + HSIZE })) = (.ok (.success bs), { c with pos := c.pos + HSIZE + (S.encs bs).length }) := by
    rw [hl]
    by_cases hne : bs = []
    · simp [hne, BlockSpec.encs]
    · rw [if_pos (S.encs_pos hb hne), blocksCur_eq hb hne (s := ph.asVec ++ (y ++ s)) h3 hr1 (by simp [MAX_BLOCKS]; omega) (by simp)]
      simp
  rw [hblk]
  have hrl := congrArg List.length hr1
  simp only [Cur.rest, List.length_drop, List.length_append] at hrl
  have hr2 : ({ c with pos := c.pos + HSIZE + (S.encs bs).length } : Cur).rest = ph.asVec ++ (y ++ s) := Cur.rest_add hr1
  have hr3 := Cur.rest_add hr2
  rw [PayloadHeader.size_eq] at hr3 hrl
  have := hq _ (by simp only; omega) hr3
  simp only
  unfold payloadCur
  rw [if_pos hf, PayloadHeader.tryRead_asVec ph hp (by simp only; omega) hr2]
  simp only
  rcases ho : Q.tryRead ph { c with pos := c.pos + HSIZE + (S.encs bs).length + ph.size } with ⟨o, c'⟩
  rw [ho] at this
  simp only at this
  subst this
  rfl

/-! ## `filtered` -/

theorem filtered_inner {h : PacketHeader} (wf : h.WF) (small : h.size < 2 ^ 63) {inner : Bytes} (hs : h.size = inner.length) (rules : Rules O.BR (Packet O Q)) (s : Bytes) :
    (Packet.filtered Q rules).run (h.bytes ++ inner ++ s) = (Packet.look Q rules h inner, s) := by
  unfold Packet.filtered
  rw [List.append_assoc, P.bind_ok (PacketHeader.read_bytes wf _), P.bind_ok (a := ()) (s' := inner ++ s) (by simp [allocZeroed, small]),
    P.bind_ok (P.readExact_append' hs.symm s), P.lift_run]

theorem slicesLoop_strange {blocksLen : Nat} {bs : List O.B} (h : ∀ b ∈ bs, S.ok b) {e : Err} {x : Bytes} (hx : O.readSlice x = .err e)
    {fuel read : Nat} {acc : List O.BR} {buf : Bytes} (hl : read ≤ buf.length) (hr : buf.drop read = S.encs bs ++ x)
    (hf : bs.length < fuel) (hb : read + (S.encs bs).length < blocksLen) : slicesLoop O buf blocksLen fuel read acc = .err e := by
  induction bs generalizing fuel read acc with
  | nil =>
    cases fuel with
    | zero => simp at hf
    | succ fuel =>
      have : buf.drop read = x := by rw [hr]; rfl
      rw [slicesLoop, if_neg (by omega), this, hx]
  | cons b bs ih =>
    have hsz := S.rsize_eq b (h b (by simp))
    rw [S.encs_cons] at hr hb
    rw [List.append_assoc] at hr
    rw [List.length_append] at hb
    have hrl := congrArg List.length hr
    simp only [List.length_drop, List.length_append] at hrl
    cases fuel with
    | zero => simp at hf
    | succ fuel =>
      rw [slicesLoop, if_neg (by omega), hr, S.readSlice_eq b (h b (by simp))]
      simp only
      rw [if_neg (by omega), ih (fun b hb => h b (by simp [hb]))]
      · omega
      · rw [← List.drop_drop, hr, hsz]; simp
      · simp at hf; omega
      · rw [hsz]; omega

theorem look_strange {h : PacketHeader} {bs : List O.B} (hb : ∀ b ∈ bs, S.ok b) {e : Err} {x z : Bytes} (hx : O.readSlice (x ++ z) = .err e)
    (hl : (S.encs bs).length < h.blocksLen) (rules : Rules O.BR (Packet O Q)) : Packet.look Q rules h (S.encs bs ++ x ++ z) = .err e := by
  unfold Packet.look
  rw [if_pos (by omega), slicesLoop_strange hb hx (by omega) (by simp) (by have := S.length_le hb; simp only [List.length_append]; omega) (by omega)]
  rfl

theorem look_foreign {h : PacketHeader} {bs : List O.B} (hb : ∀ b ∈ bs, S.ok b) (hl : h.blocksLen = (S.encs bs).length) (hf : h.payload = true)
    {ph : PayloadHeader} (hp : ph.len < 2 ^ 32) {e : Err} (hq : ∀ cs, (Q.tryBuf ph cs).1 = .err e) (y : Bytes) (rules : Rules O.BR (Packet O Q)) :
    Packet.look Q rules h (S.encs bs ++ (ph.asVec ++ y)) =
      if rules.filterByBlocks (bs.map S.ref) && rules.filterByPayload y then .err e else .ok (.denied h.size) := by
  have hblk : (if h.blocksLen > 0 then slicesLoop O (S.encs bs ++ (ph.asVec ++ y)) h.blocksLen ((S.encs bs ++ (ph.asVec ++ y)).length + 1) 0 []
      else .ok []) = .ok (bs.map S.ref) := by
    rw [hl]
    by_cases hne : bs = []
    · simp [hne, BlockSpec.encs]
    · rw [if_pos (S.encs_pos hb hne), slicesLoop_eq hb hne (s := ph.asVec ++ y) (by omega) (by simp)
        (by have := S.length_le hb; simp only [List.length_append]; omega) (by simp)]
      simp
  unfold Packet.look
  rw [hblk, Out.bind_ok]
  simp only [hf, if_true, hl]
  have hd1 : List.drop (S.encs bs).length (S.encs bs ++ (ph.asVec ++ y)) = ph.asVec ++ y := by simp
  have hd2 : List.drop ((S.encs bs).length + ph.size) (S.encs bs ++ (ph.asVec ++ y)) = y := by
    rw [← List.drop_drop, hd1, ← PayloadHeader.size_eq]; simp
  rw [hd1, Chunks.fill_single, PayloadHeader.peek_asVec ph hp]
  simp only
  rw [hd2, hq [y]]
  simp only
  by_cases h1 : rules.filterByBlocks (bs.map S.ref) = true
  · rw [if_neg (by simp [h1]), if_neg (by simp), if_neg (by rw [← PayloadHeader.size_eq]; simp)]
    by_cases h2 : rules.filterByPayload y = true
    · simp [h1, h2]
    · simp [h1, h2]
  · simp [h1]

end

/-! ## One packet -/

/-- What `filtered` reports for a packet. -/
def Reports {O' : BlockOps} {Q' : PayloadOps} (rules : Rules O'.BR (Packet O' Q')) (x : Bytes) (f : Option (Out (Packet O' Q'))) : Prop :=
  ∀ s, ∃ k, (Packet.filtered Q' rules).run (x ++ s) =
    (match f with | none => .ok (.denied k) | some (.ok p) => .ok (.accepted k p) | some (.err e) => .err e | some .panic => .panic, s)

/-- Result of a reader of the reading program on a packet, wherever it stands: for the stream reader, the seekable reader, and `filtered`. -/
structure Outcome (vs : List BlockTy) (ps : List PayloadTy) (rules : Rules (blockEnum vs).BR (Packet (blockEnum vs) (PEnum.ops ps))) (x : Bytes)
    (o : Out (Packet (blockEnum vs) (PEnum.ops ps))) (f : Option (Out (Packet (blockEnum vs) (PEnum.ops ps)))) : Prop where
  read : ∀ s, (Packet.read (PEnum.ops ps)).run (x ++ s) = (o, s)
  tryRead : ∀ (c : Cur) (s : Bytes), c.pos ≤ c.data.length → c.rest = x ++ s → (Packet.tryRead (O := blockEnum vs) (PEnum.ops ps) c).1 = o.map .success
  filtered : Reports rules x f

theorem strange_not_known {p : Packet (blockEnum ws) (PEnum.ops us)} (st : Strange vs p) (h : ∀ b ∈ (p.blocks : List BlockVal), b.1 ∈ vs) : False := by
  obtain ⟨pre, b, post, e, _, h2⟩ := st
  exact h2 b.1 (h b (mem_mid (α := BlockVal) e).1) rfl

theorem foreign_not_known {p : Packet (blockEnum ws) (PEnum.ops us)} (fo : Foreign vs ps p) (k : Knows vs ps p) : False := by
  obtain ⟨v, T, u, hv, ha, hu⟩ := fo.payload
  exact hu T (k.payload v hv T u ha) rfl

theorem outcome (pr : Receiver vs ps) (rules : Rules (blockEnum vs).BR (Packet (blockEnum vs) (PEnum.ops ps))) {p : Packet (blockEnum ws) (PEnum.ops us)} (d : Declared p)
    (hn : p.blocks.length ≤ 256) (hk : Knows vs ps p ∨ Strange vs p ∨ Foreign vs ps p) :
    ∃ o f, Outcome vs ps rules (wire p) o f ∧ Heard vs ps p o ∧ Sifted pr rules p f := by
  rcases hk with k | st | fo
  · obtain ⟨p', sm⟩ := same_exists pr d k
    have d' := same_declared pr d k sm
    have hn' : p'.blocks.length ≤ 256 := by
      have := congrArg List.length sm.blocks
      exact Nat.le_trans (Nat.le_of_eq this) hn
    have e : wire p = wire p' := by unfold wire; rw [same_serialize d d' sm]
    refine ⟨.ok p', if accepted pr.spec rules p' then some (.ok p') else none, ⟨?_, ?_, ?_⟩, ⟨fun _ => ⟨p', sm, rfl⟩, ?_⟩, fun _ => ⟨p', sm, rfl⟩, ?_, ?_⟩
    · intro s
      rw [e, read_wire (S := d'.spec) ⟨d'.ok, hn'⟩]
    · intro c s hc hr
      rw [C16_tryRead d'.ok hn' (serialize_wire d'.ok) c s hc (by rw [hr, e])]
      rfl
    · intro s
      obtain ⟨n, h⟩ := filtered_wire d'.ok rules s
      refine ⟨n, ?_⟩
      rw [e, h]
      by_cases ha : accepted pr.spec rules p' = true
      · rw [if_pos ha, if_pos (show accepted d'.spec rules p' = true from ha)]
      · rw [if_neg ha, if_neg (show ¬ accepted d'.spec rules p' = true from ha)]
    · rintro (st | fo)
      · exact (strange_not_known st k.blocks).elim
      · exact (foreign_not_known fo k).elim
    · exact fun st => (strange_not_known st k.blocks).elim
    · exact fun fo => (foreign_not_known fo k).elim
  · obtain ⟨h, pb, sh⟩ := d.ok.shape
    obtain ⟨pre, x, hl, hk, e, h4, hx⟩ := strange_split pr d st
    have hw : wire p = h.bytes ++ (pr.spec.encs pre ++ x ++ pb) := by rw [wire_eq d.ok.blocks sh, e]
    have hlt : (pr.spec.encs pre).length < h.blocksLen := by rw [sh.blocksLen, e, List.length_append]; omega
    refine ⟨.err .sigDismatch, some (.err .sigDismatch), ⟨?_, ?_, ?_⟩, ⟨fun k => (strange_not_known st k.blocks).elim, fun _ => rfl⟩,
      fun k => (strange_not_known st k.blocks).elim, fun _ => rfl, fun fo => (strange_not_known st fo.blocks).elim⟩
    · intro s
      obtain ⟨w, e, r⟩ := C75_unknown pr d (.inl st) hn s
      rw [wire, e]
      exact r
    · intro c s hc hr
      refine tryRead_bad_block (S := pr.spec) sh.wf hk (x := x ++ pb) (s := s) (by rw [sh.size, e]; simp [Nat.add_assoc]) ?_ hc (by rw [hr, hw]; simp)
        (Nat.le_of_lt_succ (Nat.lt_of_lt_of_le hl hn)) hlt
      intro c hc hr
      have := congrArg List.length hr
      simp only [List.length_append] at this
      have := tryRead_strange (vs := vs) hc (by omega) (by rw [hr, List.append_assoc, List.take_append_of_le_length h4]; exact hx)
      exact congrArg Prod.fst this
    · intro s
      refine ⟨0, ?_⟩
      rw [hw, filtered_inner sh.wf sh.small (by rw [sh.size, e, ← List.length_append])]
      congr 1
      exact look_strange hk (readSlice_strange (by rw [List.length_append]; omega) (by rw [List.take_append_of_le_length h4]; exact hx)) hlt rules
  · obtain ⟨h, pb, sh⟩ := d.ok.shape
    obtain ⟨hf, ph, y, rfl, hlt, hu, hy, hbd⟩ := foreign_split d fo sh
    have hw : wire p = h.bytes ++ (d.spec.encs p.blocks ++ (ph.asVec ++ y)) := wire_eq d.ok.blocks sh
    refine ⟨.err .sigDismatch, if passBlocks rules ((p.blocks : List BlockVal).map pr.spec.ref) && passPayload rules y then some (.err .sigDismatch) else none,
      ⟨?_, ?_, ?_⟩, ⟨fun k => (foreign_not_known fo k).elim, fun _ => rfl⟩,
      fun k => (foreign_not_known fo k).elim, fun st => (strange_not_known st fo.blocks).elim, fun _ => ⟨y, hbd, rfl⟩⟩
    · intro s
      obtain ⟨w, e, r⟩ := C75_unknown pr d (.inr fo) hn s
      rw [wire, e]
      exact r
    · intro c s hc hr
      refine tryRead_bad_payload (S := pr.spec) (bs := p.blocks) sh.wf fo.blocks (ph := ph) (y := y) (s := s) (sh.size.trans List.length_append.symm) hlt ?_ hc (by rw [hr, hw]; simp; rfl) hn sh.blocksLen hf
      intro c hc hr
      have := congrArg List.length hr
      rw [List.length_append] at this
      have h2 := (C74_unknown (ps ++ [bytesTy, stringTy]) (by simp) ph hu [] c hc []).2.1
      rw [if_neg (by omega)] at h2
      exact congrArg Prod.fst h2
    · intro s
      refine ⟨h.size, ?_⟩
      rw [hw, filtered_inner sh.wf sh.small (sh.size.trans List.length_append.symm)]
      congr 1
      refine (look_foreign (S := pr.spec) (bs := p.blocks) fo.blocks sh.blocksLen hf hlt (fun cs => (tryBuf_unknown hu cs).1) y rules).trans ?_
      rw [filterByBlocks_eq, filterByPayload_eq]
      by_cases hr : (passBlocks rules ((p.blocks : List BlockVal).map pr.spec.ref) && passPayload rules y) = true
      · rw [if_pos hr, if_pos hr]
      · rw [if_neg hr, if_neg hr]

/-! ## The file -/

/-- Two lists of results for a list of packets. -/
theorem outcomes {α : Type u} {β : Type v} {γ : Type w} {A : α → β → γ → Prop} : ∀ (l : List α), (∀ p ∈ l, ∃ o f, A p o f) →
    ∃ (os : List β) (fs : List γ), os.length = l.length ∧ fs.length = l.length ∧
      ∀ (i : Nat) p, l[i]? = some p → ∃ o f, os[i]? = some o ∧ fs[i]? = some f ∧ A p o f
  | [], _ => ⟨[], [], rfl, rfl, by simp⟩
  | p :: l, h => by
    obtain ⟨o, f, a⟩ := h p (by simp)
    obtain ⟨os, fs, h1, h2, h3⟩ := outcomes l fun q hq => h q (by simp [hq])
    refine ⟨o :: os, f :: fs, by simp [h1], by simp [h2], ?_⟩
    intro i q hq
    cases i with
    | zero =>
      simp only [List.getElem?_cons_zero, Option.some.injEq] at hq
      subst hq
      exact ⟨o, f, by simp, by simp, a⟩
    | succ i => simpa using h3 i q (by simpa using hq)

theorem each_of {α : Type u} {β : Type v} {R : α → β → Prop} : ∀ (l : List α) (os : List β), os.length = l.length → (∀ (i : Nat) p, l[i]? = some p → ∃ o, os[i]? = some o ∧ R p o) → Each R l os
  | [], os, h, _ => List.length_eq_zero_iff.mp h
  | p :: l, [], h, _ => by simp at h
  | p :: l, o :: os, h, hr => by
    refine ⟨?_, each_of l os (by simpa using h) fun i q hq => ?_⟩
    · obtain ⟨o', e, r⟩ := hr 0 p (by simp)
      simp only [List.getElem?_cons_zero, Option.some.injEq] at e
      exact e ▸ r
    · simpa using hr (i + 1) q (by simpa using hq)

section

variable {O O' : BlockOps} {Q Q' : PayloadOps} {S : BlockSpec O}

/-- Iterating with another protocol. -/
theorem yields_as {cap : Nat} {data : Bytes} (hl : data.length < 2 ^ 63) : ∀ (l : List (Packet O Q)) (os : List (Out (Packet O' Q'))) {it : Iter}, Before cap data it l → (∀ p ∈ l, p.Ok S) →
    Each (fun p o => ∀ s, (Packet.read Q').run (wire p ++ s) = (o, s)) l os →
    Yields (fun it r => Iter.next (O := O') (Q := Q') data it = r) it os
  | [], os, it, h, hok, he => by
    obtain rfl : os = [] := he
    rcases h.refill (S := S) hl (by simp) with ⟨_, e⟩ | ⟨_, _, _, _, _, _, e, _⟩
    · refine Yields.done (s' := ⟨it.spans.next.2, it.buffer⟩) ?_
      unfold Iter.next
      rw [e]
    · cases e
  | p :: l, [], it, h, hok, he => he.elim
  | p :: l, o :: os, it, h, hok, he => by
    rcases h.refill (S := S) hl hok with ⟨e, _⟩ | ⟨it1, q, cur, e, hb, rest, hps, hB⟩
    · cases e
    · injection hps with h1 h2
      subst h1 h2
      refine Yields.step (s' := { it1 with buffer := (cur.map wire).flatten }) ?_ (yields_as hl (cur ++ rest) os (hB _ rfl) (fun x hx => hok x (by simp [hx])) he.2)
      unfold Iter.next
      rw [e]
      simp only
      rw [hb, he.1]

/-- Iterating with rules. -/
theorem yields_filtered_as {cap : Nat} {data : Bytes} (hl : data.length < 2 ^ 63) (rules : Rules O'.BR (Packet O' Q')) : ∀ (l : List (Packet O Q)) (fs : List (Option (Out (Packet O' Q')))) {it : Iter},
    Before cap data it l → (∀ p ∈ l, p.Ok S) → Each (fun p f => Reports rules (wire p) f) l fs →
    Yields (fun it r => ∃ fuel, Iter.nextFiltered rules data fuel it = some r) it (fs.filterMap id)
  | [], fs, it, h, hok, he => by
    obtain rfl : fs = [] := he
    rcases h.refill (S := S) hl (by simp) with ⟨_, e⟩ | ⟨_, _, _, _, _, _, e, _⟩
    · refine Yields.done (s' := ⟨it.spans.next.2, it.buffer⟩) ⟨1, ?_⟩
      simp only [Iter.nextFiltered]
      rw [e]
    · cases e
  | p :: l, [], it, h, hok, he => he.elim
  | p :: l, f :: fs, it, h, hok, he => by
    rcases h.refill (S := S) hl hok with ⟨e, _⟩ | ⟨it1, q, cur, e, hb, rest, hps, hB⟩
    · cases e
    · injection hps with h1 h2
      subst h1 h2
      have ih := yields_filtered_as hl rules (cur ++ rest) fs (hB _ rfl) (fun x hx => hok x (by simp [hx])) he.2
      obtain ⟨k, hk⟩ := he.1 (cur.map wire).flatten
      rcases f with _ | r
      · rw [List.filterMap_cons_none rfl]
        have step : ∀ {x}, (∃ fuel, Iter.nextFiltered rules data fuel { it1 with buffer := (cur.map wire).flatten } = some x) → ∃ fuel, Iter.nextFiltered rules data fuel it = some x := by
          rintro x ⟨fuel, hx⟩
          refine ⟨fuel + 1, ?_⟩
          rw [Iter.nextFiltered.eq_def]
          simp only
          rw [e]
          simp only
          rw [hb, hk]
          exact hx
        revert ih
        generalize fs.filterMap id = z
        intro ih
        cases ih with
        | done h => exact Yields.done (step h)
        | step h t => exact Yields.step (step h) t
      · refine Yields.step (l := fs.filterMap id) (s' := { it1 with buffer := (cur.map wire).flatten }) ⟨1, ?_⟩ ih
        rw [Iter.nextFiltered.eq_def]
        simp only
        rw [e]
        simp only
        rw [hb, hk]
        rcases r with p | e | _ <;> rfl

theorem range_as {cap : Nat} {chk : Bool} {s : Storage} {data : Bytes} {os : List (Out (Packet O' Q'))} (hn : ∀ i, s.nth cap chk data i = answer os[i]?) : ∀ (len start : Nat),
    Yields (fun r x => Range.next cap chk s data r = x) ⟨start, len⟩ ((os.drop start).take len)
  | 0, start => by
    rw [List.take_zero]
    exact Yields.done (s' := ⟨start, 0⟩) (by unfold Range.next; simp)
  | len + 1, start => by
    cases e : os[start]? with
    | none =>
      rw [List.drop_eq_nil_of_le (List.getElem?_eq_none_iff.mp e), List.take_nil]
      refine Yields.done (s' := ⟨start + 1, len⟩) ?_
      unfold Range.next
      rw [if_neg (by simp)]
      dsimp only
      rw [hn, e]
      rfl
    | some p =>
      obtain ⟨hlt, hp⟩ := List.getElem?_eq_some_iff.mp e
      rw [List.drop_eq_getElem_cons hlt, List.take_succ_cons, hp]
      refine Yields.step (s' := ⟨start + 1, len⟩) ?_ (range_as hn len (start + 1))
      unfold Range.next
      rw [if_neg (by simp)]
      dsimp only
      rw [hn, e]
      rcases p with p | e | _ <;> rfl

/-- What `nth_filtered` should answer. -/
def Answers (r : Out (Option (Look (Packet O' Q')))) : Option (Option (Out (Packet O' Q'))) → Prop
  | none => r = .ok none
  | some none => ∃ k, r = .ok (some (.denied k))
  | some (some (.ok p)) => ∃ k, r = .ok (some (.accepted k p))
  | some (some (.err e)) => r = .err e
  | some (some .panic) => r = .panic

theorem range_filtered_as {cap : Nat} {s : Storage} {data : Bytes} {rules : Rules O'.BR (Packet O' Q')} {fs : List (Option (Out (Packet O' Q')))}
    (hn : ∀ i, Answers (s.nthFiltered cap rules data i) fs[i]?) : ∀ (m start len : Nat), fs.length - start ≤ m →
    Yields (fun r x => ∃ fuel, Range.nextFiltered cap rules s data fuel r = some x) ⟨start, len⟩ (sift len (fs.drop start))
  | _, start, 0, _ => by
    rw [show sift 0 (fs.drop start) = [] by cases fs.drop start <;> rfl]
    exact Yields.done ⟨1, rfl⟩
  | m, start, len + 1, hm => by
    have ha := hn start
    cases e : fs[start]? with
    | none =>
      rw [e] at ha
      rw [List.drop_eq_nil_of_le (List.getElem?_eq_none_iff.mp e)]
      refine Yields.done (s' := ⟨start + 1, len + 1⟩) ⟨1, ?_⟩
      rw [Range.nextFiltered.eq_def]
      simp only
      rw [if_neg (by simp), ha]
    | some f =>
      rw [e] at ha
      obtain ⟨hlt, hp⟩ := List.getElem?_eq_some_iff.mp e
      rw [List.drop_eq_getElem_cons hlt, hp]
      cases m with
      | zero => omega
      | succ m =>
        rcases f with _ | p | er | _
        · obtain ⟨k, hr⟩ := ha
          rw [sift]
          have ih := range_filtered_as hn m (start + 1) (len + 1) (by omega)
          have step : ∀ {x}, (∃ fuel, Range.nextFiltered cap rules s data fuel ⟨start + 1, len + 1⟩ = some x) →
              ∃ fuel, Range.nextFiltered cap rules s data fuel ⟨start, len + 1⟩ = some x := by
            rintro x ⟨fuel, hx⟩
            refine ⟨fuel + 1, ?_⟩
            rw [Range.nextFiltered.eq_def]
            simp only
            rw [if_neg (by simp), hr]
            exact hx
          revert ih
          generalize sift (len + 1) (fs.drop (start + 1)) = l
          intro ih
          cases ih with
          | done h => exact Yields.done (step h)
          | step h t => exact Yields.step (step h) t
        · obtain ⟨k, hr⟩ := ha
          rw [sift]
          refine Yields.step (s' := ⟨start + 1, len⟩) ⟨1, ?_⟩ (range_filtered_as hn m (start + 1) len (by omega))
          rw [Range.nextFiltered.eq_def]
          simp only
          rw [if_neg (by simp), hr]
          rfl
        · show Yields _ _ (.err er :: sift (len + 1) (fs.drop (start + 1)))
          refine Yields.step (s' := ⟨start + 1, len + 1⟩) ⟨1, ?_⟩ (range_filtered_as hn m (start + 1) (len + 1) (by omega))
          rw [Range.nextFiltered.eq_def]
          simp only
          rw [if_neg (by simp), show _ = _ from ha]
        · show Yields _ _ (.panic :: sift (len + 1) (fs.drop (start + 1)))
          refine Yields.step (s' := ⟨start + 1, len + 1⟩) ⟨1, ?_⟩ (range_filtered_as hn m (start + 1) (len + 1) (by omega))
          rw [Range.nextFiltered.eq_def]
          simp only
          rw [if_neg (by simp), show _ = _ from ha]

end

/-! ## The property -/

variable {ws vs : List BlockTy} {us ps : List PayloadTy}

/-- **C77.** After any history of inserts and reopens by a program with other types, the file opens and `count()` is the number of packets. There is one result for
each packet of the file: the same packet if its types are known, `SignatureDismatch` if not. `nth` gives them at every index, `iter()` yields them in order, all of
them, and `range` a part of them: a packet of an unknown type hides no other packet. -/
theorem C77_storage (pr : Receiver vs ps) (dw : DistinctSigs ws) (ww : ∀ b ∈ ws, b.WF) {cap : Nat} (hc : 0 < cap) (chk : Bool) (ops : List (Op (blockEnum ws) (PEnum.ops us)))
    (hd : ∀ p ∈ log ops, Declared p) (hn : ∀ p ∈ log ops, p.blocks.length ≤ 256) (hk : ∀ p ∈ log ops, Knows vs ps p ∨ Strange vs p ∨ Foreign vs ps p) (hs : Small cap (log ops))
    (rules : Rules (blockEnum vs).BR (Packet (blockEnum vs) (PEnum.ops ps))) :
    ∃ w s, runOps cap chk ops emptyWriter = some w ∧ openReader chk w.data = some (.ok s) ∧ s.count cap = (log ops).length ∧
      (∃ os, Each (Heard vs ps) (log ops) os ∧ (∀ i, s.nth cap chk w.data i = answer os[i]?) ∧ IterYields s w.data os ∧
        ∀ start len, Yields (fun r x => Range.next cap chk s w.data r = x) ⟨start, len⟩ ((os.drop start).take len)) ∧
      ∃ fs, Each (Sifted pr rules) (log ops) fs ∧ Yields (fun it r => ∃ fuel, Iter.nextFiltered rules w.data fuel it = some r) (Iter.new s) (fs.filterMap id) ∧
        ∀ start len, Yields (fun r x => ∃ fuel, Range.nextFiltered cap rules s w.data fuel r = some x) ⟨start, len⟩ (sift len (fs.drop start)) := by
  have hok : ∀ p ∈ log ops, p.Ok (blockEnumSpec ws dw ww) := fun p hp => (hd p hp).ok
  obtain ⟨w, gs, e, i, f⟩ := runOps_inv (S := blockEnumSpec ws dw ww) hc chk ops (ps := []) (empty_inv cap) rfl hok hs
  rw [List.nil_append] at f
  have hl := small_file hc i.groups f hs
  obtain ⟨s, e2, v⟩ := open_reader hc i.groups hl chk
  obtain ⟨os, fs, h1, h2, h3⟩ := outcomes (log ops) fun p hp => outcome pr rules (hd p hp) (hn p hp) (hk p hp)
  have hr1 := each_of (log ops) os h1 fun j p hp => by
    obtain ⟨o, _, a, _, b, _, _⟩ := h3 j p hp
    exact ⟨o, a, b.read⟩
  have hr2 := each_of (R := fun p f => Reports rules (wire p) f) (log ops) fs h2 fun j p hp => by
    obtain ⟨_, o, _, a, b, _, _⟩ := h3 j p hp
    exact ⟨o, a, b.filtered⟩
  have hnth : ∀ j, s.nth cap chk (fileOf cap gs) j = answer os[j]? := by
    intro j
    unfold Storage.nth
    cases hj : (log ops)[j]? with
    | none =>
      rw [offsetOf_none hc v.groups v.inner (by rw [f, List.getElem?_map, hj]; rfl)]
      rw [List.getElem?_eq_none (by rw [h1]; exact List.getElem?_eq_none_iff.mp hj)]
      rfl
    | some p =>
      obtain ⟨o, _, ho, _, b, _, _⟩ := h3 j p hj
      obtain ⟨a, t, e, hf, _⟩ := offsetOf_some hc v.groups v.inner (n := j) (x := wire p) (by rw [f, List.getElem?_map, hj]; rfl)
      rw [e]
      simp only
      rw [b.tryRead _ t (by simp only; rw [hf]; simp) (by rw [hf]; simp [Cur.rest]), ho]
      rcases o with p | e | _ <;> rfl
  have hnf : ∀ j, Answers (s.nthFiltered cap rules (fileOf cap gs) j) fs[j]? := by
    intro j
    unfold Storage.nthFiltered
    cases hj : (log ops)[j]? with
    | none =>
      rw [offsetOf_none hc v.groups v.inner (by rw [f, List.getElem?_map, hj]; rfl)]
      rw [List.getElem?_eq_none (by rw [h2]; exact List.getElem?_eq_none_iff.mp hj)]
      rfl
    | some p =>
      obtain ⟨_, o, _, ho, b, _, _⟩ := h3 j p hj
      obtain ⟨a, t, e, hf, _⟩ := offsetOf_some hc v.groups v.inner (n := j) (x := wire p) (by rw [f, List.getElem?_map, hj]; rfl)
      obtain ⟨k, hk⟩ := b.filtered t
      rw [e]
      simp only
      rw [hf, List.drop_left, hk, ho]
      rcases o with _ | p | e | _
      · exact ⟨k, rfl⟩
      · exact ⟨k, rfl⟩
      · rfl
      · rfl
  refine ⟨w, s, e, by rw [i.data, e2], by rw [v.count, f, List.length_map], ⟨os, ?_, ?_, ?_, ?_⟩, fs, ?_, ?_, ?_⟩
  · refine each_of _ _ h1 fun j p hp => ?_
    obtain ⟨o, _, a, _, _, b, _⟩ := h3 j p hp
    exact ⟨o, a, b⟩
  · rw [i.data]
    exact hnth
  · rw [i.data]
    exact yields_as hl (log ops) os (view_before v f) hok hr1
  · rw [i.data]
    exact fun start len => range_as hnth len start
  · refine each_of _ _ h2 fun j p hp => ?_
    obtain ⟨_, o, _, a, _, _, b⟩ := h3 j p hp
    exact ⟨o, a, b⟩
  · rw [i.data]
    exact yields_filtered_as hl rules (log ops) fs (view_before v f) hok hr2
  · rw [i.data]
    exact fun start len => range_filtered_as hnf _ start len (Nat.le_refl _)

/-- A newer program wrote three packets, reopening the file in between. -/
def newerOps : List (Op (blockEnum sampleTypes) (PEnum.ops [flagTy])) := [.insert newBlock, .insert newPayload, .reopen, .insert newKnown]

theorem newer_small : Small SLOT_CAPACITY (log newerOps) := by
  have h : ((log newerOps).map fun p => (wire p).length).sum ≤ 1000 := by decide +kernel
  unfold Small
  have h2 : ((log newerOps).length / SLOT_CAPACITY + 1) * (20 + 8 * SLOT_CAPACITY) ≤ 100000 := by decide
  omega

/-- Non-vacuity: the older program of C75 opens the file. The third packet is found behind the two it cannot read. -/
example : ∃ (w : Writer) (s : Storage) (p : Packet (blockEnum [sampleBlock]) (PEnum.ops [])), runOps SLOT_CAPACITY true newerOps emptyWriter = some w ∧
    openReader true w.data = some (.ok s) ∧ s.count SLOT_CAPACITY = 3 ∧ Same newKnown p ∧ IterYields s w.data [.err .sigDismatch, .err .sigDismatch, .ok p] := by
  obtain ⟨w, s, e1, e2, e3, ⟨os, he, _, hi, _⟩, _⟩ := C77_storage (vs := [sampleBlock]) (ps := []) older sampleTypes_distinct sampleTypes_wf (by decide : 0 < SLOT_CAPACITY) true newerOps
    (by
      intro p hp
      simp only [newerOps, log, List.mem_cons, List.not_mem_nil, or_false] at hp
      rcases hp with rfl | rfl | rfl
      · exact newBlock_declared
      · exact newPayload_declared
      · exact newKnown_declared)
    (by
      intro p hp
      simp only [newerOps, log, List.mem_cons, List.not_mem_nil, or_false] at hp
      rcases hp with rfl | rfl | rfl <;> decide)
    (by
      intro p hp
      simp only [newerOps, log, List.mem_cons, List.not_mem_nil, or_false] at hp
      rcases hp with rfl | rfl | rfl
      · exact .inr (.inl newBlock_strange)
      · exact .inr (.inr newPayload_foreign)
      · exact .inl newKnown_knows)
    newer_small []
  match os, he with
  | [a, b, c], ⟨ha, hb, hc, _⟩ =>
    obtain ⟨p, sm, rfl⟩ := hc.known newKnown_knows
    obtain rfl := ha.strange (.inl newBlock_strange)
    obtain rfl := hb.strange (.inr newPayload_foreign)
    exact ⟨w, s, p, e1, e2, e3, sm, hi⟩

end Brec.Props
