import Verif.Props.StorageHostile
import Verif.Props.NoPanic
/-!
# Iterating over a storage ends: C67
-/

namespace Brec.Props

variable {O : BlockOps} {Q : PayloadOps} {S : BlockSpec O}

/-- What a loop over an iterator sees: the items up to `None`, or up to a panic. `next s r`: called in state `s` it returns `r.1` and leaves
`r.2`. -/
inductive Loops {σ α : Type} (next : σ → Option (Out α) × σ → Prop) : σ → List (Out α) → Prop
  | done {s s' : σ} : next s (none, s') → Loops next s []
  | panic {s s' : σ} : next s (some .panic, s') → Loops next s [.panic]
  | step {s s' : σ} {a : Out α} {l : List (Out α)} : next s (some a, s') → a ≠ .panic → Loops next s' l → Loops next s (a :: l)

/-! ## What is read is left behind -/

/-- A reader that leaves the rest of its source. -/
def Leaves {α : Type} (x : P α) : Prop := ∀ s, (x.run s).2 <:+ s

theorem Leaves.bind {α β : Type} {x : P α} {f : α → P β} (hx : Leaves x) (hf : ∀ a, Leaves (f a)) : Leaves (x >>= f) := by
  intro s
  rw [P.bind_run]
  have h := hx s
  split
  · rename_i e; rw [e] at h; exact (hf _ _).trans h
  · rename_i e; rw [e] at h; exact h
  · rename_i e; rw [e] at h; exact h

theorem leaves_lift {α : Type} (o : Out α) : Leaves (P.lift o) := fun s => List.suffix_refl s
theorem leaves_fail {α : Type} (e : Err) : Leaves (P.fail e : P α) := fun s => List.suffix_refl s

theorem leaves_readExact (n : Nat) : Leaves (P.readExact n) := by
  intro s
  unfold P.readExact
  dsimp only
  split
  · exact List.nil_suffix
  · exact List.drop_suffix _ _

/-- A reader that takes at least a byte. -/
def Takes {α : Type} (x : P α) : Prop := ∀ s, s ≠ [] → (x.run s).2.length < s.length

theorem Takes.bind {α β : Type} {x : P α} {f : α → P β} (hx : Takes x) (hf : ∀ a, Leaves (f a)) : Takes (x >>= f) := by
  intro s hs
  rw [P.bind_run]
  have h := hx s hs
  split
  · rename_i e; rw [e] at h; exact Nat.lt_of_le_of_lt (hf _ _).length_le h
  · rename_i e; rw [e] at h; exact h
  · rename_i e; rw [e] at h; exact h

theorem takes_readExact {n : Nat} (hn : 0 < n) : Takes (P.readExact n) := by
  intro s hs
  have : 0 < s.length := List.length_pos_iff.mpr hs
  unfold P.readExact
  dsimp only
  split
  · simpa using this
  · simp only [List.length_drop]; omega

theorem header_tail (sig : Bytes) : Leaves (if sig ≠ PACKET_SIG then P.fail .sigDismatch else do
    let size ← P.readExact 8
    let blocksLen ← P.readExact 8
    let flag ← P.readExact 1
    let crc ← P.readExact 4
    P.lift (PacketHeader.check { size := leNat size, blocksLen := leNat blocksLen, payload := flag == [1], crc := leNat crc })) := by
  split
  · exact leaves_fail _
  · exact (leaves_readExact 8).bind fun _ => (leaves_readExact 8).bind fun _ => (leaves_readExact 1).bind fun _ =>
      (leaves_readExact 4).bind fun _ => leaves_lift _

theorem header_leaves : Leaves PacketHeader.read := (leaves_readExact 8).bind header_tail
theorem header_takes : Takes PacketHeader.read := (takes_readExact (by decide)).bind header_tail

theorem read_leaves : Leaves (Packet.read (O := O) Q) :=
  header_leaves.bind fun _ => (leaves_lift _).bind fun _ => (leaves_readExact _).bind fun _ => leaves_lift _
theorem read_takes : Takes (Packet.read (O := O) Q) :=
  header_takes.bind fun _ => (leaves_lift _).bind fun _ => (leaves_readExact _).bind fun _ => leaves_lift _
theorem filtered_leaves (rules : Rules O.BR (Packet O Q)) : Leaves (Packet.filtered Q rules) :=
  header_leaves.bind fun _ => (leaves_lift _).bind fun _ => (leaves_readExact _).bind fun _ => leaves_lift _
theorem filtered_takes (rules : Rules O.BR (Packet O Q)) : Takes (Packet.filtered Q rules) :=
  header_takes.bind fun _ => (leaves_lift _).bind fun _ => (leaves_readExact _).bind fun _ => leaves_lift _

/-! ## The end of an iteration -/

/-- How many bytes an iterator can still look at. -/
def Iter.left (data : Bytes) (it : Iter) : Nat := it.buffer.length + (data.length - it.spans.offset)

theorem slot_size_pos (s : Slot) : 20 ≤ s.size := by simp only [Slot.size, SLOT_HSIZE]; omega

theorem refill_left {data : Bytes} {it it1 : Iter} (h : Iter.refill data it = some (.ok it1)) :
    it1.buffer ≠ [] ∧ Iter.left data it1 ≤ Iter.left data it := by
  unfold Iter.refill at h
  split at h
  · rename_i hb
    simp only [Option.some.injEq, Out.ok.injEq] at h
    subst h
    exact ⟨hb, Nat.le_refl _⟩
  · rename_i hb
    obtain ⟨⟨off, ss⟩, buf⟩ := it
    have hb : buf = [] := Decidable.not_not.mp hb
    subst hb
    cases ss with
    | nil => simp [Spans.next] at h
    | cons s ss =>
      simp only [Spans.next] at h
      split at h
      · simp at h
      · rename_i sp spans hsp
        split at hsp
        · simp at hsp
        · rename_i hw
          simp only [Prod.mk.injEq, Option.some.injEq] at hsp
          obtain ⟨rfl, rfl⟩ := hsp
          unfold fetch at h
          have hsub : off + s.width + s.size - (off + s.size) = s.width := by omega
          simp only [hsub] at h
          split at h
          · split at h
            · rename_i hle
              simp only [Out.map, Option.some.injEq, Out.ok.injEq] at h
              subst h
              rw [List.length_drop] at hle
              have : (List.take s.width (List.drop (off + s.size) data)).length = s.width := by simp; omega
              refine ⟨fun h0 => ?_, ?_⟩
              · simp only at h0
                rw [h0] at this
                simp at this
                omega
              · have := slot_size_pos s
                simp only [Iter.left, List.length_take, List.length_drop, List.length_nil]
                omega
            · simp [Out.map] at h
          · simp [Out.map] at h
          · simp [Out.map] at h

theorem refill_offset {data : Bytes} {it it1 : Iter} (h : Iter.refill data it = some (.ok it1)) (b : Bytes) (hb : b.length < it1.buffer.length) :
    Iter.left data { it1 with buffer := b } < Iter.left data it := by
  have h1 := (refill_left h).2
  simp only [Iter.left] at h1 ⊢
  omega

theorem refill_not_err {data : Bytes} {it : Iter} {e : Err} (h : Iter.refill data it = some (.err e)) : False := by
  unfold Iter.refill at h
  split at h
  · simp at h
  · split at h
    · simp at h
    · unfold fetch allocZeroed at h
      split at h
      · split at h <;> simp [Out.map] at h
      · rename_i hx; split at hx <;> simp at hx
      · simp [Out.map] at h

/-- **C67, `iter()` and `seek()`.** Whatever the slots are, whatever the file is: a loop over the iterator ends, after at most one item per byte. -/
theorem C67_iter (data : Bytes) : ∀ (it : Iter), ∃ l, Loops (fun i r => Iter.next (O := O) (Q := Q) data i = r) it l ∧
    l.length ≤ it.buffer.length + (data.length - it.spans.offset) + 1 := by
  suffices H : ∀ (n : Nat) (it : Iter), Iter.left data it ≤ n → ∃ l, Loops (fun i r => Iter.next (O := O) (Q := Q) data i = r) it l ∧
      l.length ≤ Iter.left data it + 1 from fun it => H _ it (Nat.le_refl _)
  intro n
  induction n with
  | zero =>
    intro it hn
    cases hr : Iter.refill data it with
    | none => exact ⟨[], .done (s' := ⟨it.spans.next.2, it.buffer⟩) (by rw [Iter.next, hr]), by simp⟩
    | some o =>
      cases o with
      | err e => exact (refill_not_err hr).elim
      | panic => exact ⟨[.panic], .panic (s' := it) (by rw [Iter.next, hr]), by simp⟩
      | ok it1 =>
        obtain ⟨h1, h2⟩ := refill_left hr
        have : 0 < it1.buffer.length := List.length_pos_iff.mpr h1
        simp only [Iter.left] at hn h2
        omega
  | succ n ih =>
    intro it hn
    cases hr : Iter.refill data it with
    | none => exact ⟨[], .done (s' := ⟨it.spans.next.2, it.buffer⟩) (by rw [Iter.next, hr]), by simp⟩
    | some o =>
      cases o with
      | err e => exact (refill_not_err hr).elim
      | panic => exact ⟨[.panic], .panic (s' := it) (by rw [Iter.next, hr]), by simp⟩
      | ok it1 =>
        have hlt := refill_offset hr _ (read_takes (O := O) (Q := Q) it1.buffer (refill_left hr).1)
        have hnext : Iter.next (O := O) (Q := Q) data it = (some ((Packet.read Q).run it1.buffer).1, { it1 with buffer := ((Packet.read (O := O) Q).run it1.buffer).2 }) := by
          rw [Iter.next, hr]
        by_cases hp : ((Packet.read (O := O) Q).run it1.buffer).1 = .panic
        · rw [hp] at hnext
          exact ⟨[.panic], .panic hnext, by simp⟩
        · obtain ⟨l, h1, h2⟩ := ih _ (Nat.le_of_lt_succ (Nat.lt_of_lt_of_le hlt hn))
          refine ⟨_ :: l, .step hnext hp h1, ?_⟩
          simp only [List.length_cons]
          omega

/-- One call of the filtering iterator ends. -/
theorem nextFiltered_ends (rules : Rules O.BR (Packet O Q)) (data : Bytes) : ∀ (n : Nat) (it : Iter), Iter.left data it ≤ n →
    ∃ r, Iter.nextFiltered rules data (n + 1) it = some r ∧
      (r.1 = none ∨ r.1 = some .panic ∨ Iter.left data r.2 < Iter.left data it) := by
  intro n
  induction n with
  | zero =>
    intro it hn
    rw [Iter.nextFiltered]
    cases hr : Iter.refill data it with
    | none => exact ⟨_, rfl, .inl rfl⟩
    | some o =>
      cases o with
      | err e => exact (refill_not_err hr).elim
      | panic => exact ⟨_, rfl, .inr (.inl rfl)⟩
      | ok it1 =>
        obtain ⟨h1, h2⟩ := refill_left hr
        have : 0 < it1.buffer.length := List.length_pos_iff.mpr h1
        simp only [Iter.left] at hn h2
        omega
  | succ n ih =>
    intro it hn
    rw [Iter.nextFiltered]
    cases hr : Iter.refill data it with
    | none => exact ⟨_, rfl, .inl rfl⟩
    | some o =>
      cases o with
      | err e => exact (refill_not_err hr).elim
      | panic => exact ⟨_, rfl, .inr (.inl rfl)⟩
      | ok it1 =>
        have hlt := refill_offset hr _ (filtered_takes rules it1.buffer (refill_left hr).1)
        simp only
        split
        · exact ⟨_, rfl, .inr (.inr hlt)⟩
        · obtain ⟨r, e, h⟩ := ih _ (Nat.le_of_lt_succ (Nat.lt_of_lt_of_le hlt hn))
          exact ⟨r, e, h.imp_right (Or.imp_right fun h => Nat.lt_trans h hlt)⟩
        · exact ⟨_, rfl, .inr (.inr hlt)⟩
        · exact ⟨_, rfl, .inr (.inr hlt)⟩
        · exact ⟨_, rfl, .inr (.inl rfl)⟩

/-- **C67, `filtered()`.** The same; in particular each single call ends, however many packets it skips. -/
theorem C67_filtered (rules : Rules O.BR (Packet O Q)) (data : Bytes) : ∀ (it : Iter),
    ∃ l, Loops (fun i r => ∃ fuel, Iter.nextFiltered rules data fuel i = some r) it l ∧
      l.length ≤ it.buffer.length + (data.length - it.spans.offset) + 1 := by
  suffices H : ∀ (n : Nat) (it : Iter), Iter.left data it ≤ n → ∃ l, Loops (fun i r => ∃ fuel, Iter.nextFiltered rules data fuel i = some r) it l ∧
      l.length ≤ Iter.left data it + 1 from fun it => H _ it (Nat.le_refl _)
  intro n
  induction n with
  | zero =>
    intro it hn
    obtain ⟨⟨o, it'⟩, e, h⟩ := nextFiltered_ends rules data _ it (Nat.le_refl _)
    rcases h with h | h | h
    · simp only at h; subst h; exact ⟨[], .done ⟨_, e⟩, by simp⟩
    · simp only at h; subst h; exact ⟨[.panic], .panic ⟨_, e⟩, by simp⟩
    · omega
  | succ n ih =>
    intro it hn
    obtain ⟨⟨o, it'⟩, e, h⟩ := nextFiltered_ends rules data _ it (Nat.le_refl _)
    rcases h with h | h | h
    · simp only at h; subst h; exact ⟨[], .done ⟨_, e⟩, by simp⟩
    · simp only at h; subst h; exact ⟨[.panic], .panic ⟨_, e⟩, by simp⟩
    · simp only at h
      cases o with
      | none => exact ⟨[], .done ⟨_, e⟩, by simp⟩
      | some o =>
        by_cases hp : o = .panic
        · subst hp; exact ⟨[.panic], .panic ⟨_, e⟩, by simp⟩
        · obtain ⟨l, h1, h2⟩ := ih it' (by omega)
          refine ⟨o :: l, .step ⟨_, e⟩ hp h1, ?_⟩
          simp only [List.length_cons]
          omega

/-- **C67, `range()`.** At most `len` items. -/
theorem C67_range (cap : Nat) (chk : Bool) (s : Storage) (data : Bytes) : ∀ (len start : Nat),
    ∃ l, Loops (fun i r => Range.next (O := O) (Q := Q) cap chk s data i = r) ⟨start, len⟩ l ∧ l.length ≤ len
  | 0, start => ⟨[], .done (s' := ⟨start, 0⟩) rfl, by simp⟩
  | len + 1, start => by
    obtain ⟨l, h1, h2⟩ := C67_range cap chk s data len (start + 1)
    have e : Range.next (O := O) (Q := Q) cap chk s data ⟨start, len + 1⟩ = match (s.nth cap chk data start : Out (Option (Packet O Q))) with
      | .ok none => (none, ⟨start + 1, len⟩)
      | .ok (some p) => (some (.ok p), ⟨start + 1, len⟩)
      | .err e => (some (.err e), ⟨start + 1, len⟩)
      | .panic => (some .panic, ⟨start + 1, len⟩) := by
      rw [Range.next, if_neg (by simp)]
      simp only [Nat.add_sub_cancel]
      rfl
    cases hn : (s.nth cap chk data start : Out (Option (Packet O Q))) with
    | ok o =>
      cases o with
      | none => exact ⟨[], .done (e.trans (by rw [hn])), by simp⟩
      | some p => exact ⟨.ok p :: l, .step (e.trans (by rw [hn])) (by simp) h1, by simp [h2]⟩
    | err x => exact ⟨.err x :: l, .step (e.trans (by rw [hn])) (by simp) h1, by simp [h2]⟩
    | panic => exact ⟨[.panic], .panic (e.trans (by rw [hn])), by simp⟩

theorem nthFiltered_beyond {cap : Nat} (hc : 0 < cap) (rules : Rules O.BR (Packet O Q)) {s : Storage} (data : Bytes) {n : Nat}
    (hn : s.slots.length * cap ≤ n) : s.nthFiltered cap rules data n = .ok none := by
  have : s.slots.length ≤ n / cap := (Nat.le_div_iff_mul_le hc).mpr hn
  unfold Storage.nthFiltered Storage.offsetOf
  rw [List.getElem?_eq_none this]

/-- One call ends. -/
theorem rangeFiltered_ends {cap : Nat} (hc : 0 < cap) (rules : Rules O.BR (Packet O Q)) (s : Storage) (data : Bytes) : ∀ (n start len : Nat),
    s.slots.length * cap - start ≤ n → ∃ o start' len', Range.nextFiltered cap rules s data (n + 1) ⟨start, len⟩ = some (o, ⟨start', len'⟩) ∧
      (o = none ∨ o = some .panic ∨ (s.slots.length * cap - start' < s.slots.length * cap - start))
  | 0, start, len, h => by
    rw [Range.nextFiltered]
    split
    · exact ⟨_, _, _, rfl, .inl rfl⟩
    · rw [nthFiltered_beyond hc rules data (by dsimp only; omega)]
      exact ⟨_, _, _, rfl, .inl rfl⟩
  | n + 1, start, len, h => by
    rw [Range.nextFiltered]
    split
    · exact ⟨_, _, _, rfl, .inl rfl⟩
    · by_cases hb : s.slots.length * cap ≤ start
      · rw [nthFiltered_beyond hc rules data hb]
        exact ⟨_, _, _, rfl, .inl rfl⟩
      · dsimp only
        split
        · exact ⟨_, _, _, rfl, .inl rfl⟩
        · exact ⟨_, _, _, rfl, .inr (.inr (by omega))⟩
        · obtain ⟨o, st, ln, e, h'⟩ := rangeFiltered_ends hc rules s data n (start + 1) len (by omega)
          exact ⟨o, st, ln, e, h'.imp_right (Or.imp_right fun h => by omega)⟩
        · exact ⟨_, _, _, rfl, .inr (.inr (by omega))⟩
        · exact ⟨_, _, _, rfl, .inr (.inr (by omega))⟩
        · exact ⟨_, _, _, rfl, .inr (.inl rfl)⟩

/-- **C67, `range_filtered()`.** At most one item per place of a slot, whatever `len` is. -/
theorem C67_range_filtered {cap : Nat} (hc : 0 < cap) (rules : Rules O.BR (Packet O Q)) (s : Storage) (data : Bytes) : ∀ (start len : Nat),
    ∃ l, Loops (fun i r => ∃ fuel, Range.nextFiltered cap rules s data fuel i = some r) ⟨start, len⟩ l ∧ l.length ≤ s.slots.length * cap - start + 1 := by
  suffices H : ∀ (n start len : Nat), s.slots.length * cap - start ≤ n →
      ∃ l, Loops (fun i r => ∃ fuel, Range.nextFiltered cap rules s data fuel i = some r) ⟨start, len⟩ l ∧ l.length ≤ s.slots.length * cap - start + 1 from
    fun start len => H _ start len (Nat.le_refl _)
  intro n
  induction n with
  | zero =>
    intro start len hn
    obtain ⟨o, st, ln, e, h⟩ := rangeFiltered_ends hc rules s data _ start len (Nat.le_refl _)
    rcases h with h | h | h
    · subst h; exact ⟨[], .done ⟨_, e⟩, by simp⟩
    · subst h; exact ⟨[.panic], .panic ⟨_, e⟩, by simp⟩
    · omega
  | succ n ih =>
    intro start len hn
    obtain ⟨o, st, ln, e, h⟩ := rangeFiltered_ends hc rules s data _ start len (Nat.le_refl _)
    rcases h with h | h | h
    · subst h; exact ⟨[], .done ⟨_, e⟩, by simp⟩
    · subst h; exact ⟨[.panic], .panic ⟨_, e⟩, by simp⟩
    · cases o with
      | none => exact ⟨[], .done ⟨_, e⟩, by simp⟩
      | some o =>
        by_cases hp : o = .panic
        · subst hp; exact ⟨[.panic], .panic ⟨_, e⟩, by simp⟩
        · obtain ⟨l, h1, h2⟩ := ih st ln (by omega)
          refine ⟨o :: l, .step ⟨_, e⟩ hp h1, ?_⟩
          simp only [List.length_cons]
          omega

/-! ## No panic on the file that was opened -/

theorem notEnough_within {data : Bytes} {pos : Nat} {chk : Bool} {n : Nat} (h : (Slot.tryRead ⟨data, pos, chk⟩).1 = .ok (.notEnough n))
    (hp : chk = false → pos < 2 ^ 63) : pos ≤ data.length := by
  refine Decidable.byContradiction fun hlt => ?_
  unfold Slot.tryRead at h
  cases chk with
  | true => simp [Cur.remaining, hlt] at h
  | false =>
    have hp := hp rfl
    have hr : Cur.remaining ⟨data, pos, false⟩ = .ok (2 ^ 64 + data.length - pos) := by simp [Cur.remaining, hlt]
    have hh : (Slot.tryReadHeader ⟨data, pos, false⟩).1 = .err .io := by
      unfold Slot.tryReadHeader
      rw [hr]
      simp only
      rw [if_neg (by simp only [SLOT_HSIZE]; omega)]
      have : (Cur.run (P.readExact 8) ⟨data, pos, false⟩).1 = .err .io := by
        simp only [Cur.run, Cur.rest, List.drop_eq_nil_of_le (by omega : data.length ≤ pos)]
        rfl
      rcases hq : Cur.run (P.readExact 8) ⟨data, pos, false⟩ with ⟨o, c⟩
      rw [hq] at this
      simp only at this
      subst this
      rfl
    rw [hr] at h
    simp only at h
    rcases hq : Slot.tryReadHeader ⟨data, pos, false⟩ with ⟨o, c⟩
    rw [hq] at h hh
    simp only at hh
    subst hh
    simp at h

/-- The bytes that slots take up. -/
def extent (ss : List Slot) : Nat := (ss.map fun s => s.size + s.width).sum

theorem extent_cons (s : Slot) (ss : List Slot) : extent (s :: ss) = s.size + s.width + extent ss := by simp [extent]

/-- The slots of a file that has been opened are in the file, with their packets. -/
theorem load_within {chk : Bool} {data : Bytes} (hw : chk = false → ∀ pos s, Visited data pos → TableAt data pos s → pos + s.size + s.width < 2 ^ 63) :
    ∀ (fuel : Nat) {pos : Nat} {acc out : List Anchored}, Visited data pos → (chk = false → pos < 2 ^ 63) → loadLoop chk data fuel pos acc = some (.ok out) →
      ∃ ss, out = acc ++ ss ∧ pos + extent (ss.map (·.inner)) ≤ data.length
  | 0, _, _, _, _, _, h => by simp [loadLoop] at h
  | fuel + 1, pos, acc, out, hv, hp, h => by
    unfold loadLoop at h
    split at h
    · rename_i s hs
      obtain ⟨ht, hle⟩ := success_table hs
      have key : loadLoop chk data fuel (pos + s.size + s.width) (acc ++ [⟨s, pos⟩]) = some (.ok out) →
          ∃ ss, out = acc ++ ss ∧ pos + extent (ss.map (·.inner)) ≤ data.length := by
        intro h
        obtain ⟨ss, e, hl⟩ := load_within hw fuel (.next hv ht) (fun hc => hw hc pos s hv ht) h
        refine ⟨⟨s, pos⟩ :: ss, by rw [e]; simp, ?_⟩
        rw [List.map_cons, extent_cons]
        simp only
        omega
      cases chk with
      | true =>
        unfold u64 at h
        split at h
        · rename_i hx; split at hx
          · injection hx with hx; subst hx; exact key h
          · simp at hx
        · simp at h
        · simp at h
      | false =>
        have := hw rfl pos s hv ht
        rw [u64_ok (by omega)] at h
        exact key h
    · rename_i hs
      simp only [Option.some.injEq, Out.ok.injEq] at h
      subst h
      exact ⟨[], by simp, by simpa [extent] using notEnough_within hs hp⟩
    all_goals simp at h

/-- A packet header, with a matching CRC, that announces `n` bytes is somewhere in the data. -/
def Announced (data : Bytes) (n : Nat) : Prop :=
  n < 2 ^ 64 ∧ ∃ pos blocksLen flag, PacketHeader.raw n blocksLen flag (PacketHeader.crcOf n blocksLen (flag == 1)) <+: data.drop pos

/-- The bytes of `b` are somewhere in `data`. -/
def Inside (b data : Bytes) : Prop := ∃ pos, b <+: data.drop pos

theorem Inside.suffix {b c data : Bytes} (h : Inside b data) (hs : c <:+ b) : Inside c data := by
  obtain ⟨pos, t, h⟩ := h
  obtain ⟨u, rfl⟩ := hs
  refine ⟨pos + u.length, t, ?_⟩
  rw [← List.drop_drop, ← h, List.append_assoc, List.drop_left]

theorem announced_header {b data : Bytes} (hb : Inside b data) {h : PacketHeader} {s' : Bytes} (e : PacketHeader.read.run b = (.ok h, s')) :
    Announced data h.size := by
  obtain ⟨flag, h1, hw, h2⟩ := PacketHeader.read_eq_ok e
  obtain ⟨pos, t, hd⟩ := hb
  refine ⟨hw.1, pos, h.blocksLen, flag, ?_⟩
  rw [← h1, ← hd, h2, List.append_assoc]
  exact List.prefix_append _ _

/-- The iterator will find the bytes it goes for. -/
def Iter.Within (data : Bytes) (it : Iter) : Prop := it.spans.offset + extent it.spans.slots ≤ data.length ∧ Inside it.buffer data

theorem refill_within {data : Bytes} (hl : data.length < 2 ^ 63) {it : Iter} (h : Iter.Within data it) :
    Iter.refill data it = none ∨ ∃ it1, Iter.refill data it = some (.ok it1) ∧ Iter.Within data it1 := by
  obtain ⟨⟨off, ss⟩, buf⟩ := it
  unfold Iter.refill
  split
  · exact .inr ⟨_, rfl, h⟩
  · cases ss with
    | nil => exact .inl rfl
    | cons s ss =>
      simp only [Spans.next]
      have h1 := h.1
      simp only [extent_cons] at h1
      by_cases hw : s.width = 0
      · rw [if_pos hw]; exact .inl rfl
      · rw [if_neg hw]
        refine .inr ⟨⟨⟨off + s.width + s.size, ss⟩, (data.drop (off + s.size)).take s.width⟩, ?_, ?_, ?_⟩
        · unfold fetch
          have hsub : off + s.width + s.size - (off + s.size) = s.width := by omega
          simp only [hsub]
          rw [allocZeroed, if_pos (by omega)]
          simp only
          rw [if_pos (by rw [List.length_drop]; omega)]
          rfl
        · simp only; omega
        · exact ⟨off + s.size, List.take_prefix _ _⟩

theorem iter_no_panic {data : Bytes} (hO : O.Safe) (hQ : Q.Safe) (hl : data.length < 2 ^ 63) (ha : ∀ n, Announced data n → n < 2 ^ 63) {it : Iter}
    {l : List (Out (Packet O Q))} (h : Loops (fun i r => Iter.next (O := O) (Q := Q) data i = r) it l) (hw : Iter.Within data it) : .panic ∉ l := by
  have key : ∀ {it it' : Iter} {a : Out (Packet O Q)}, Iter.next (O := O) (Q := Q) data it = (some a, it') → Iter.Within data it → a ≠ .panic ∧ Iter.Within data it' := by
    intro it it' a e hw
    unfold Iter.next at e
    rcases refill_within hl hw with h1 | ⟨it1, h1, hw1⟩
    · rw [h1] at e; simp at e
    · rw [h1] at e
      simp only [Prod.mk.injEq, Option.some.injEq] at e
      obtain ⟨rfl, rfl⟩ := e
      exact ⟨C49_read_partial hO hQ _ fun h s' e => ha _ (announced_header hw1.2 e), hw1.1, hw1.2.suffix (read_leaves _)⟩
  induction h with
  | done => simp
  | panic h => exact absurd rfl (key h hw).1
  | step h hp _ ih =>
    simp only [List.mem_cons, not_or]
    exact ⟨fun e => hp e.symm, ih (key h hw).2⟩

theorem nextFiltered_within {data : Bytes} (hO : O.Safe) (hQ : Q.Safe) (hl : data.length < 2 ^ 63) (ha : ∀ n, Announced data n → n < 2 ^ 63)
    (rules : Rules O.BR (Packet O Q)) : ∀ (fuel : Nat) {it it' : Iter} {a : Out (Packet O Q)}, Iter.Within data it →
      Iter.nextFiltered rules data fuel it = some (some a, it') → a ≠ .panic ∧ Iter.Within data it'
  | 0, _, _, _, _, e => by simp [Iter.nextFiltered] at e
  | fuel + 1, it, it', a, hw, e => by
    rw [Iter.nextFiltered] at e
    rcases refill_within hl hw with h1 | ⟨it1, h1, hw1⟩
    · rw [h1] at e; simp at e
    · rw [h1] at e
      simp only at e
      have hnp := C49_filtered_partial hO hQ rules _ fun h s' e => ha _ (announced_header hw1.2 e)
      have hw2 : Iter.Within data { it1 with buffer := ((Packet.filtered Q rules).run it1.buffer).2 } := ⟨hw1.1, hw1.2.suffix (filtered_leaves rules _)⟩
      split at e
      · simp only [Option.some.injEq, Prod.mk.injEq] at e; obtain ⟨rfl, rfl⟩ := e; exact ⟨by simp, hw2⟩
      · exact nextFiltered_within hO hQ hl ha rules fuel hw2 e
      · simp only [Option.some.injEq, Prod.mk.injEq] at e; obtain ⟨rfl, rfl⟩ := e; exact ⟨by simp, hw2⟩
      · simp only [Option.some.injEq, Prod.mk.injEq] at e; obtain ⟨rfl, rfl⟩ := e; exact ⟨by simp, hw2⟩
      · rename_i hx; exact absurd hx hnp

theorem filtered_no_panic {data : Bytes} (hO : O.Safe) (hQ : Q.Safe) (hl : data.length < 2 ^ 63) (ha : ∀ n, Announced data n → n < 2 ^ 63)
    {rules : Rules O.BR (Packet O Q)} {it : Iter} {l : List (Out (Packet O Q))}
    (h : Loops (fun i r => ∃ fuel, Iter.nextFiltered rules data fuel i = some r) it l) (hw : Iter.Within data it) : .panic ∉ l := by
  induction h with
  | done => simp
  | panic h =>
    obtain ⟨fuel, h⟩ := h
    exact absurd rfl (nextFiltered_within hO hQ hl ha rules fuel hw h).1
  | step h hp _ ih =>
    obtain ⟨fuel, h⟩ := h
    simp only [List.mem_cons, not_or]
    exact ⟨fun e => hp e.symm, ih (nextFiltered_within hO hQ hl ha rules fuel hw h).2⟩

/-- Opening a file and iterating over it. -/
theorem open_within {chk : Bool} {data : Bytes} {s : Storage} (h : openReader chk data = some (.ok s))
    (hw : chk = false → ∀ pos t, Visited data pos → TableAt data pos t → pos + t.size + t.width < 2 ^ 63) : Iter.Within data (Iter.new s) := by
  rw [openReader, Storage.open_] at h
  cases e : loadLoop chk data (data.length + 1) 0 [] with
  | none => rw [e] at h; simp at h
  | some r =>
    rw [e] at h
    cases r with
    | err x => simp [Out.map] at h
    | panic => simp [Out.map] at h
    | ok out =>
      simp only [Option.map_some, Out.map, Option.some.injEq, Out.ok.injEq] at h
      subst h
      obtain ⟨ss, rfl, hl⟩ := load_within hw _ .start (by intro; decide) e
      exact ⟨by simpa [Iter.new] using hl, 0, by simp [Iter.new]⟩

/-- Full statement of C67 (false): on a storage that could be opened, loops over `iter()` and `filtered()` end without a panic, whatever the
file has become. -/
def C67_full (chk : Bool) : Prop :=
  ∀ (vs : List BlockTy) (ps : List PayloadTy) (data data' : Bytes) (s : Storage), data.length < 2 ^ 63 → data'.length < 2 ^ 63 → openReader chk data = some (.ok s) →
    ∃ l, Loops (fun i r => Iter.next (O := blockEnum vs) (Q := PEnum.ops ps) data' i = r) (Iter.new s) l ∧ .panic ∉ l

/-- **C67 (partial).** On the file that was opened, `iter()` and `filtered()` end in `None`: they do not panic, if no packet header in the file
announces 2^63 bytes (and, in release builds, no slot ends beyond 2^63). The rest of the file is arbitrary. Missing: files that have become
shorter since (`C67_shortened`) and those headers (`C67_huge`). -/
theorem C67_no_panic_partial (hO : O.Safe) (hQ : Q.Safe) {chk : Bool} {data : Bytes} {s : Storage} (hl : data.length < 2 ^ 63)
    (h : openReader chk data = some (.ok s)) (ha : ∀ n, Announced data n → n < 2 ^ 63)
    (hw : chk = false → ∀ pos t, Visited data pos → TableAt data pos t → pos + t.size + t.width < 2 ^ 63) :
    (∃ l, Loops (fun i r => Iter.next (O := O) (Q := Q) data i = r) (Iter.new s) l ∧ .panic ∉ l ∧ l.length ≤ data.length + 1) ∧
    ∀ rules : Rules O.BR (Packet O Q), ∃ l, Loops (fun i r => ∃ fuel, Iter.nextFiltered rules data fuel i = some r) (Iter.new s) l ∧ .panic ∉ l ∧
      l.length ≤ data.length + 1 := by
  have hin := open_within h hw
  refine ⟨?_, fun rules => ?_⟩
  · obtain ⟨l, h1, h2⟩ := C67_iter (O := O) (Q := Q) data (Iter.new s)
    exact ⟨l, h1, iter_no_panic hO hQ hl ha h1 hin, by simpa [Iter.new] using h2⟩
  · obtain ⟨l, h1, h2⟩ := C67_filtered rules data (Iter.new s)
    exact ⟨l, h1, filtered_no_panic hO hQ hl ha h1 hin, by simpa [Iter.new] using h2⟩

/-! ## Shortened files -/

theorem refill_short {data : Bytes} {it : Iter} (hpos : ∀ s ∈ it.spans.slots, 0 < s.width) (hlong : data.length < it.spans.offset + extent it.spans.slots)
    (hoff : it.spans.slots ≠ []) : Iter.refill data it = some .panic ∨ ∃ it1, Iter.refill data it = some (.ok it1) ∧
      (∀ s ∈ it1.spans.slots, 0 < s.width) ∧ data.length < it1.spans.offset + extent it1.spans.slots ∧ it1.spans.slots ≠ [] := by
  obtain ⟨⟨off, ss⟩, buf⟩ := it
  unfold Iter.refill
  split
  · exact .inr ⟨_, rfl, hpos, hlong, hoff⟩
  · cases ss with
    | nil => exact absurd rfl hoff
    | cons s ss =>
      simp only [Spans.next]
      simp only [extent_cons] at hlong
      have hw := hpos s (by simp)
      rw [if_neg (by omega)]
      simp only
      unfold fetch
      have hsub : off + s.width + s.size - (off + s.size) = s.width := by omega
      simp only [hsub]
      unfold allocZeroed
      by_cases h63 : s.width < 2 ^ 63
      · rw [if_pos h63]
        simp only
        by_cases hle : s.width ≤ (data.drop (off + s.size)).length
        · rw [if_pos hle]
          refine .inr ⟨_, rfl, fun x hx => hpos x (by simp [hx]), ?_, ?_⟩
          · simp only; omega
          · intro h0
            simp only at h0
            subst h0
            rw [List.length_drop] at hle
            simp [extent] at hlong
            omega
        · rw [if_neg hle]; exact .inl rfl
      · rw [if_neg h63]; exact .inl rfl

theorem short_panics {data : Bytes} {it : Iter} {l : List (Out (Packet O Q))} (h : Loops (fun i r => Iter.next (O := O) (Q := Q) data i = r) it l)
    (hpos : ∀ s ∈ it.spans.slots, 0 < s.width) (hlong : data.length < it.spans.offset + extent it.spans.slots) (hoff : it.spans.slots ≠ []) : .panic ∈ l := by
  induction h with
  | done h =>
    unfold Iter.next at h
    rcases refill_short hpos hlong hoff with e | ⟨it1, e, _⟩ <;> rw [e] at h <;> simp at h
  | panic => simp
  | step h hp _ ih =>
    unfold Iter.next at h
    rcases refill_short hpos hlong hoff with e | ⟨it1, e, h1, h2, h3⟩ <;> rw [e] at h <;> simp only [Prod.mk.injEq, Option.some.injEq] at h
    · exact absurd h.1.symm hp
    · obtain ⟨_, rfl⟩ := h
      exact List.mem_cons_of_mem _ (ih h1 h2 h3)

theorem extent_tables {cap : Nat} : ∀ {gs : List (List Bytes)}, (∀ g ∈ gs, Group cap g) → extent (gs.map (table cap)) = (fileOf cap gs).length
  | [], _ => rfl
  | g :: gs, hg => by
    rw [List.map_cons, extent_cons, extent_tables fun x hx => hg x (by simp [hx]), table_width (hg g (by simp)), table_size, fileOf_cons, List.length_append,
      region_length (hg g (by simp)).le]

/-- **C67, shortened files.** A storage with packets is opened; then the file loses bytes at its end, however few. A loop over `iter()` panics. -/
theorem C67_shortened {cap : Nat} (hc : 0 < cap) {chk : Bool} {ops : List (Op O Q)} {data : Bytes} {s : Storage} (h : Reached cap chk ops data s)
    (hok : ∀ p ∈ log ops, Storable S p) (hs : Small cap (log ops)) {k : Nat} (hk : k < data.length) :
    ∃ l, Loops (fun i r => Iter.next (O := O) (Q := Q) (data.take k) i = r) (Iter.new s) l ∧ .panic ∈ l := by
  obtain ⟨gs, v, hd, hf, hl⟩ := h.view hc (fun p hp => (hok p hp).ok) hs
  obtain ⟨l, h1, _⟩ := C67_iter (O := O) (Q := Q) (data.take k) (Iter.new s)
  have hin : s.slots.map (·.inner) = gs.map (table cap) := v.inner
  have hg := v.groups
  refine ⟨l, h1, short_panics h1 ?_ ?_ ?_⟩
  · intro t ht
    simp only [Iter.new, hin, List.mem_map] at ht
    obtain ⟨g, hgm, rfl⟩ := ht
    rw [table_width (hg.group g hgm)]
    have hne := hg.ne g hgm
    cases g with
    | nil => exact absurd rfl hne
    | cons w g =>
      have := (hg.group _ hgm).pos w (by simp)
      have : 0 < w.length := List.length_pos_iff.mpr this
      simp only [List.flatten_cons, List.length_append]
      omega
  · simp only [Iter.new, hin, extent_tables hg.group, ← hd, List.length_take]
    omega
  · simp only [Iter.new, hin, ne_eq, List.map_eq_nil_iff]
    intro h0
    rw [h0, fileOf_nil] at hd
    rw [hd] at hk
    simp at hk

theorem reached_pos {cap : Nat} (hc : 0 < cap) {chk : Bool} {ops : List (Op O Q)} {data : Bytes} {s : Storage} (h : Reached cap chk ops data s)
    (hok : ∀ p ∈ log ops, Storable S p) (hs : Small cap (log ops)) (hne : log ops ≠ []) : 0 < data.length := by
  obtain ⟨gs, v, hd, hw, hl⟩ := h.view hc (fun p hp => (hok p hp).ok) hs
  cases gs with
  | nil =>
    cases hx : log ops with
    | nil => exact absurd hx hne
    | cons => rw [hx] at hw; simp at hw
  | cons g gs =>
    rw [hd, fileOf_cons, List.length_append, region_length (v.groups.group g (by simp)).le]
    omega

/-- **C67 is false of the code**: `read_exact(..).unwrap()`. -/
theorem C67_not (chk : Bool) : ¬ C67_full chk := by
  intro hf
  obtain ⟨data, s, h⟩ := Reached.exists (S := sampleSpec) (cap := SLOT_CAPACITY) (by decide) chk twoPackets twoPackets_storable twoPackets_small
  have hne := reached_pos (S := sampleSpec) (by decide) h twoPackets_storable twoPackets_small (by rw [twoPackets_log]; simp)
  have hl := (h.view (S := sampleSpec) (by decide) (fun p hp => (twoPackets_storable p hp).ok) twoPackets_small).choose_spec.2.2.2
  obtain ⟨l, h1, h2⟩ := C67_shortened (S := sampleSpec) (by decide) h twoPackets_storable twoPackets_small (k := 0) hne
  obtain ⟨l', h3, h4⟩ := hf sampleTypes [] data (data.take 0) s hl (by simp) h.read
  have : ∀ {i : Iter} {l l' : List (Out (Packet (blockEnum sampleTypes) (PEnum.ops [])))},
      Loops (fun i r => Iter.next (data.take 0) i = r) i l → Loops (fun i r => Iter.next (data.take 0) i = r) i l' → l = l' := by
    intro i l l' a
    induction a generalizing l' with
    | done a => intro b; cases b with
      | done b => rfl
      | panic b => rw [a] at b; simp at b
      | step b => rw [a] at b; simp at b
    | panic a => intro b; cases b with
      | done b => rw [a] at b; simp at b
      | panic b => rfl
      | step b hp => rw [a] at b; simp only [Prod.mk.injEq, Option.some.injEq] at b; exact absurd b.1.symm hp
    | step a hp _ ih => intro b; cases b with
      | done b => rw [a] at b; simp at b
      | panic b => rw [a] at b; simp only [Prod.mk.injEq, Option.some.injEq] at b; exact absurd b.1 hp
      | step b _ t =>
        rw [a] at b
        simp only [Prod.mk.injEq, Option.some.injEq] at b
        obtain ⟨rfl, rfl⟩ := b
        rw [ih t]
  rw [this h1 h3] at h2
  exact h4 h2

/-- 57 bytes: a slot with one packet, of which there is only a header that announces 2^63 bytes. -/
def hugeStored : Bytes := rawTable [29] ++ hugeHeader

/-- **C67**: nor is it true on a file that stays as it was opened. -/
theorem C67_huge (chk : Bool) (vs : List BlockTy) (ps : List PayloadTy) : ∃ s, openReader chk hugeStored = some (.ok s) ∧
    Loops (fun i r => Iter.next (O := blockEnum vs) (Q := PEnum.ops ps) hugeStored i = r) (Iter.new s) [.panic] := by
  refine ⟨⟨[⟨⟨[29], 1, Slot.crcOf 1 [29]⟩, 0⟩], ⟨1, 57⟩⟩, ?_, ?_⟩
  · cases chk <;> decide +kernel
  · have hr : Iter.refill hugeStored (Iter.new ⟨[⟨⟨[29], 1, Slot.crcOf 1 [29]⟩, 0⟩], ⟨1, 57⟩⟩) = some (.ok ⟨⟨57, []⟩, hugeHeader⟩) := by decide +kernel
    have h2 := PacketHeader.read_bytes (h := PacketHeader.ofSizes (2 ^ 63) none) (PacketHeader.ofSizes_wf (by decide)) []
    rw [List.append_nil] at h2
    have h3 : ((Packet.read (O := blockEnum vs) (PEnum.ops ps)).run hugeHeader).1 = .panic := by
      unfold Packet.read hugeHeader
      rw [P.bind_ok h2]
      rfl
    refine .panic (s' := ?_) ?_
    rotate_left
    · rw [Iter.next, hr]
      simp only
      rw [h3]

theorem read_no_sig {b : Bytes} (hl : 8 ≤ b.length) (h : b.take 8 ≠ PACKET_SIG) :
    (Packet.read (O := O) Q).run b = (.err .sigDismatch, b.drop 8) := by
  unfold Packet.read
  refine P.bind_err ?_
  unfold PacketHeader.read
  rw [P.bind_ok (P.readExact_ok hl), if_pos h]
  rfl

/-- A file that starts with an empty slot. -/
def emptyFirst : Bytes := rawTable [0] ++ (rawTable [(Rd.wire samplePacket).length] ++ Rd.wire samplePacket)

/-- What a reader knows about it. -/
def emptyFirstSlots : Storage := ⟨[⟨⟨[0], 1, Slot.crcOf 1 [0]⟩, 0⟩, ⟨⟨[125], 1, Slot.crcOf 1 [125]⟩, 28⟩], ⟨0, 0⟩⟩

/-- **C67, empty slots.** `PacketsLocatorIterator` is said to skip empty slots; it ends there. A loop over `iter()` sees nothing of the slot
behind an empty one, while `nth` returns its packet; and `next` called again after `None` looks for that packet in the wrong place (the table
of the empty slot has not been counted). -/
theorem C67_empty_slot (chk : Bool) : ∃ s, openReader chk emptyFirst = some (.ok s) ∧
    Loops (fun i r => Iter.next (O := blockEnum sampleTypes) (Q := PEnum.ops []) emptyFirst i = r) (Iter.new s) [] ∧
    s.nth SLOT_CAPACITY chk emptyFirst SLOT_CAPACITY = .ok (some samplePacket) ∧
    ∃ it it', Iter.next (O := blockEnum sampleTypes) (Q := PEnum.ops []) emptyFirst (Iter.new s) = (none, it) ∧
      Iter.next (O := blockEnum sampleTypes) (Q := PEnum.ops []) emptyFirst it = (some (.err .sigDismatch), it') := by
  have hn : Iter.next (O := blockEnum sampleTypes) (Q := PEnum.ops []) emptyFirst (Iter.new emptyFirstSlots) =
      (none, ⟨⟨0, [⟨[125], 1, Slot.crcOf 1 [125]⟩]⟩, []⟩) := by
    have hr : Iter.refill emptyFirst (Iter.new emptyFirstSlots) = none := by decide +kernel
    rw [Iter.next, hr]
    rfl
  refine ⟨emptyFirstSlots, by cases chk <;> decide +kernel, .done hn, ?_, _, ⟨⟨153, []⟩, ((rawTable [125] ++ Rd.wire samplePacket).take 125).drop 8⟩, hn, ?_⟩
  · have ho : emptyFirstSlots.offsetOf SLOT_CAPACITY SLOT_CAPACITY = .ok (some 56) := by decide +kernel
    have hd : emptyFirst.drop 56 = Rd.wire samplePacket ++ [] := by decide +kernel
    unfold Storage.nth
    rw [ho]
    simp only
    rw [tryRead_wire sample_storable (by decide +kernel) hd]
  · have hr : Iter.refill emptyFirst ⟨⟨0, [⟨[125], 1, Slot.crcOf 1 [125]⟩]⟩, []⟩ =
        some (.ok ⟨⟨153, []⟩, (rawTable [125] ++ Rd.wire samplePacket).take 125⟩) := by decide +kernel
    rw [Iter.next, hr]
    simp only
    rw [read_no_sig (by decide +kernel) (by decide +kernel)]

/-- The hypotheses of `C67_no_panic_partial` hold of a file with a packet (and of the file of `C67_empty_slot`). -/
example : openReader true emptyFirst = some (.ok emptyFirstSlots) ∧ emptyFirst.length < 2 ^ 63 ∧ ∀ n, Announced emptyFirst n → n < 2 ^ 63 := by
  refine ⟨by decide +kernel, by decide +kernel, ?_⟩
  rintro n ⟨hn, pos, bl, flag, t, h⟩
  have key : ∀ pos < 181, (emptyFirst.drop pos).take 8 = PACKET_SIG → leNat (((emptyFirst.drop pos).drop 8).take 8) < 2 ^ 63 := by decide +kernel
  have hlen : emptyFirst.length = 181 := by decide +kernel
  simp only [PacketHeader.raw, List.append_assoc] at h
  have hp : pos < 181 := by
    refine Decidable.byContradiction fun hp => ?_
    rw [List.drop_eq_nil_of_le (by omega)] at h
    simp [PACKET_SIG] at h
  have h1 := key pos hp (by rw [← h]; exact List.take_left' (by rfl))
  rw [← h, List.drop_left' (by rfl), List.take_left' (leBytes_length 8 n), leNat_leBytes_of_lt (show n < 256 ^ 8 by omega)] at h1
  exact h1

/-- The hypotheses of `C67_shortened` hold of two packets in one slot, from which the last byte is taken. -/
example (chk : Bool) : ∃ data s, Reached SLOT_CAPACITY chk twoPackets data s ∧ (∀ p ∈ log twoPackets, Storable sampleSpec p) ∧
    Small SLOT_CAPACITY (log twoPackets) ∧ data.length - 1 < data.length := by
  obtain ⟨data, s, h⟩ := Reached.exists (S := sampleSpec) (cap := SLOT_CAPACITY) (by decide) chk twoPackets twoPackets_storable twoPackets_small
  refine ⟨data, s, h, twoPackets_storable, twoPackets_small, ?_⟩
  have := reached_pos (S := sampleSpec) (by decide) h twoPackets_storable twoPackets_small (by rw [twoPackets_log]; simp)
  omega

end Brec.Props
