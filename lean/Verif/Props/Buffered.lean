import Verif.Buffered
/-!
# `BufferedReader` as a view of the reader inside: C39
-/

namespace Brec.Props

open Brec

/-- The calls a program can make. -/
inductive Call where
  | bufferLen
  | len
  | isEmpty
  | refill
  | fill
  | consume (n : Nat)
  | read (n : Nat)

/-- A program using the reader: what it may still consume of the last `fill_buf`, and the bytes it has obtained so far, by `read` or by looking at
`fill_buf` and consuming. -/
structure Use where
  b : Buffered
  view : Bytes
  got : Bytes

def Use.start (es : Events) : Use := ⟨.new es, [], []⟩

/-- One call. `consume` may only take what the last `fill_buf` gave, as `BufRead` demands. -/
inductive Step : Use → Call → Use → Prop where
  | bufferLen (u : Use) : Step u .bufferLen { u with b := u.b.bufferLen.2 }
  | len (u : Use) : Step u .len { u with b := u.b.len.2 }
  | isEmpty (u : Use) : Step u .isEmpty { u with b := u.b.isEmpty.2 }
  | refill (u : Use) : Step u .refill { u with b := u.b.refill.2, view := [] }
  | fill (u : Use) : Step u .fill { u with b := u.b.fillBuf.2, view := u.b.fillBuf.1.getD [] }
  | consume (u : Use) (n : Nat) (h : n ≤ u.view.length) :
      Step u (.consume n) { b := u.b.consume n, view := u.view.drop n, got := u.got ++ u.view.take n }
  | read (u : Use) (n : Nat) : Step u (.read n) { b := (u.b.read n).2, view := [], got := u.got ++ ((u.b.read n).1.getD []) }

/-- A run of calls, each of which satisfies `P` in the state it is made in. -/
inductive Runs (P : Buffered → Call → Prop) : Use → List Call → Use → Prop where
  | nil (u : Use) : Runs P u [] u
  | cons {u u' u'' : Use} {c : Call} {cs : List Call} (hp : P u.b c) (hs : Step u c u') (hr : Runs P u' cs u'') : Runs P u (c :: cs) u''

/-- Full statement of C39: whatever is called, the program obtains the bytes of the source from the beginning, without a gap, and `consumed()` is their
number. -/
def C39_full : Prop :=
  ∀ (es : Events) (cs : List Call) (u : Use), Runs (fun _ _ => True) (.start es) cs u → u.got <+: es.bytes ∧ u.b.consumed = u.got.length

/-- `refill` is called with nothing preloaded (`len() == buffer_len()`), and a `read` with something preloaded does not fail. -/
def Tame (b : Buffered) : Call → Prop
  | .refill => b.buffer = []
  | .read n => b.buffer = [] ∨ (b.read n).1 ≠ none
  | _ => True

/-- No `consume` goes beyond the preloaded bytes. -/
def Within (b : Buffered) : Call → Prop
  | .consume n => b.buffer = [] ∨ n ≤ b.buffer.length
  | _ => True

/-! ## Proofs -/

theorem fill_shape (es : Events) :
    es.fill.2.bytes = es.bytes ∧ ∀ x, es.fill.1 = some x → x = [] ∨ ∃ r, es.fill.2 = some x :: r := by
  match es with
  | [] => exact ⟨rfl, fun x h => .inl (by simpa [Events.fill] using h.symm)⟩
  | none :: es => exact ⟨rfl, fun x h => by simp [Events.fill] at h⟩
  | some [] :: es => exact ⟨rfl, fun x h => .inl (by simpa [Events.fill] using h.symm)⟩
  | some (b :: bs) :: es =>
    refine ⟨rfl, fun x h => .inr ⟨es, ?_⟩⟩
    simp only [Events.fill, Option.some.injEq] at h
    rw [← h]; rfl

/-- Consuming part of the current buffer. -/
theorem consume_shape {c : Bytes} {es : Events} (h : c = [] ∨ ∃ r, es = some c :: r) {n : Nat} (hn : n ≤ c.length) :
    es.bytes = c.take n ++ (es.consume n).bytes ∧ (c.drop n = [] ∨ ∃ r, es.consume n = some (c.drop n) :: r) := by
  rcases h with rfl | ⟨r, rfl⟩
  · have : n = 0 := by simpa using hn
    subst this
    refine ⟨?_, .inl rfl⟩
    match es with
    | [] => rfl
    | none :: es => rfl
    | some b :: es => rfl
  · by_cases h0 : n = 0
    · subst h0
      exact ⟨rfl, .inr ⟨r, rfl⟩⟩
    · by_cases hlt : n < c.length
      · simp only [Events.consume, if_neg h0, if_pos hlt]
        refine ⟨?_, .inr ⟨r, rfl⟩⟩
        simp only [Events.bytes, List.map_cons, Option.getD_some, List.flatten_cons]
        rw [← List.append_assoc, List.take_append_drop]
      · have hn' : n = c.length := by omega
        subst hn'
        simp only [Events.consume, if_neg h0, if_neg hlt]
        exact ⟨by simp [Events.bytes], .inl (by simp)⟩

/-- What holds between calls. -/
structure Good (all : Bytes) (u : Use) : Prop where
  bytes : all = u.got ++ (u.b.buffer ++ u.b.inner.bytes)
  view : u.view = [] ∨ ∃ c, u.view = u.b.buffer ++ c ∧ (c = [] ∨ ∃ r, u.b.inner = some c :: r) ∧ (u.b.buffer ≠ [] → c.length ≤ u.b.innerLen)
  count : u.b.consumed ≤ u.got.length

theorem peek_good {all : Bytes} {u : Use} (g : Good all u) {es : Events} (he : es = u.b.inner.fill.2) : Good all { u with b := { u.b with inner := es } } := by
  subst he
  have hf := fill_shape u.b.inner
  refine ⟨by rw [g.bytes, hf.1], ?_, g.count⟩
  rcases g.view with h | ⟨c, h1, h2, h3⟩
  · exact .inl h
  · refine .inr ⟨c, h1, ?_, h3⟩
    rcases h2 with rfl | ⟨r, h2⟩
    · exact .inl rfl
    · by_cases hc : c = []
      · exact .inl hc
      · right
        refine ⟨r, ?_⟩
        show u.b.inner.fill.2 = _
        rw [h2]
        match c, hc with
        | x :: xs, _ => rfl

theorem bufferLen_snd (b : Buffered) : b.bufferLen.2 = { b with inner := b.inner.fill.2 } := by
  unfold Buffered.bufferLen
  match h : b.inner.fill with
  | (none, es) => rfl
  | (some x, es) => rfl

theorem len_snd (b : Buffered) : b.len.2 = { b with inner := b.inner.fill.2 } := by
  unfold Buffered.len
  match h : b.inner.fill with
  | (none, es) => rfl
  | (some x, es) => rfl

theorem step_good {all : Bytes} {u u' : Use} {c : Call} (g : Good all u) (ht : Tame u.b c) (h : Step u c u') :
    Good all u' ∧ (Within u.b c → u.b.consumed = u.got.length → u'.b.consumed = u'.got.length) := by
  cases h with
  | bufferLen => rw [bufferLen_snd]; exact ⟨peek_good g rfl, fun _ h => h⟩
  | len => rw [len_snd]; exact ⟨peek_good g rfl, fun _ h => h⟩
  | isEmpty =>
    show Good all { u with b := u.b.len.2 } ∧ _
    rw [len_snd]; exact ⟨peek_good g rfl, fun _ h => by unfold Buffered.isEmpty; rw [len_snd]; exact h⟩
  | refill =>
    have hb : u.b.buffer = [] := ht
    have hf := fill_shape u.b.inner
    unfold Buffered.refill
    match hx : u.b.inner.fill with
    | (none, es) =>
      rw [hx] at hf
      exact ⟨⟨by rw [g.bytes]; simp only; rw [hf.1], .inl rfl, g.count⟩, fun _ h => h⟩
    | (some x, es) =>
      rw [hx] at hf
      have hc := (consume_shape (hf.2 x rfl) (Nat.le_refl x.length)).1
      rw [List.take_length] at hc
      refine ⟨⟨?_, .inl rfl, g.count⟩, fun _ h => h⟩
      simp only
      rw [g.bytes, hb, List.nil_append, ← hf.1, ← hc]
  | fill =>
    have hf := fill_shape u.b.inner
    unfold Buffered.fillBuf
    match hx : u.b.inner.fill with
    | (none, es) =>
      rw [hx] at hf
      exact ⟨⟨by rw [g.bytes]; simp only; rw [hf.1], .inl rfl, g.count⟩, fun _ h => h⟩
    | (some x, es) =>
      rw [hx] at hf
      simp only
      by_cases hb : u.b.buffer = []
      · rw [if_pos hb]
        exact ⟨⟨by rw [g.bytes]; simp only; rw [hf.1], .inr ⟨x, by simp [hb], hf.2 x rfl, fun h => absurd hb h⟩, g.count⟩, fun _ h => h⟩
      · rw [if_neg hb]
        exact ⟨⟨by rw [g.bytes]; simp only; rw [hf.1], .inr ⟨x, by simp, hf.2 x rfl, fun _ => Nat.le_refl _⟩, g.count⟩, fun _ h => h⟩
  | consume n hn =>
    have hgot : (u.got ++ u.view.take n).length = u.got.length + n := by rw [List.length_append, List.length_take]; omega
    rcases g.view with hv | ⟨c, hv, hc, hl⟩
    · have h0 : n = 0 := by rw [hv] at hn; simpa using hn
      subst h0
      have hb : u.b.consume 0 = { u.b with buffer := u.b.buffer, inner := u.b.inner.consume 0, consumed := u.b.consumed } ∨ u.b.consume 0 = u.b := by
        unfold Buffered.consume
        by_cases hb : u.b.buffer = []
        · rw [if_pos hb]; exact .inl rfl
        · rw [if_neg hb, if_pos (Nat.zero_le _)]; exact .inr rfl
      have hz : u.b.inner.consume 0 = u.b.inner := by
        match u.b.inner with
        | [] => rfl
        | none :: es => rfl
        | some b :: es => rfl
      have hb' : u.b.consume 0 = u.b := by
        rcases hb with hb | hb
        · rw [hb, hz]
        · exact hb
      rw [hb', hv]
      simp only [List.take_nil, List.append_nil, List.drop_nil]
      exact ⟨⟨g.bytes, .inl rfl, g.count⟩, fun _ h => h⟩
    · unfold Buffered.consume
      by_cases hb : u.b.buffer = []
      · rw [if_pos hb]
        rw [hb, List.nil_append] at hv
        rw [hv] at hn
        have hs := consume_shape hc hn
        refine ⟨⟨?_, ?_, ?_⟩, fun _ h => by rw [hgot]; simp only; omega⟩
        · simp only
          rw [g.bytes, hs.1, hv, hb]; simp
        · exact .inr ⟨c.drop n, by simp [hv, hb], hs.2, fun h => absurd hb h⟩
        · rw [hgot]; have := g.count; simp only; omega
      · rw [if_neg hb]
        by_cases hle : n ≤ u.b.buffer.length
        · rw [if_pos hle]
          refine ⟨⟨?_, ?_, ?_⟩, fun _ h => by rw [hgot]; simp only; omega⟩
          · simp only
            rw [g.bytes, hv, List.take_append_of_le_length hle, List.append_assoc, ← List.append_assoc (as := List.take n u.b.buffer), List.take_append_drop]
          · exact .inr ⟨c, by simp only; rw [hv, List.drop_append_of_le_length hle], hc, fun _ => hl hb⟩
          · rw [hgot]; have := g.count; simp only; omega
        · rw [if_neg hle]
          have hn' : n - u.b.buffer.length ≤ c.length := by rw [hv, List.length_append] at hn; omega
          have hs := consume_shape hc hn'
          have := hl hb
          simp only
          rw [if_pos (by omega)]
          refine ⟨⟨?_, ?_, ?_⟩, fun hw _ => ?_⟩
          · simp only
            rw [g.bytes, hs.1, hv, List.take_append, List.take_of_length_le (by omega : u.b.buffer.length ≤ n)]; simp
          · refine .inr ⟨c.drop (n - u.b.buffer.length), ?_, hs.2, fun h => absurd rfl h⟩
            simp only
            rw [hv, List.drop_append, List.drop_of_length_le (by omega)]
          · rw [hgot]; have := g.count; simp only; omega
          · rcases hw with hw | hw
            · exact absurd hw hb
            · exact absurd hw hle
  | read n =>
    simp only [Tame] at ht
    unfold Buffered.read at ht ⊢
    by_cases h0 : n = 0
    · simp only [if_pos h0, Option.getD_some, List.append_nil]
      exact ⟨⟨g.bytes, .inl rfl, g.count⟩, fun _ h => h⟩
    · simp only [if_neg h0] at ht ⊢
      by_cases hlt : (u.b.buffer.take n).length < n
      · simp only [if_pos hlt] at ht ⊢
        have hble : u.b.buffer.length < n := by rw [List.length_take] at hlt; omega
        have hd : u.b.buffer.drop n = [] := List.drop_of_length_le (by omega)
        have htk : u.b.buffer.take n = u.b.buffer := List.take_of_length_le (by omega)
        have hf := fill_shape u.b.inner
        unfold Buffered.readInner at ht ⊢
        match hx : u.b.inner.fill with
        | (none, es) =>
          rw [hx] at hf
          simp only [hx] at ht
          rcases ht with ht | ht
          · refine ⟨⟨?_, .inl rfl, by simpa using g.count⟩, fun _ h => by simpa using h⟩
            simp only [Option.getD_none, List.append_nil]
            rw [g.bytes, ht, List.drop_nil, hf.1]
          · exact absurd rfl ht
        | (some x, es) =>
          rw [hx] at hf
          simp only [Option.getD_some]
          have hm : min (n - (u.b.buffer.take n).length) x.length ≤ x.length := Nat.min_le_right _ _
          have hs := (consume_shape (hf.2 x rfl) hm).1
          have ht : x.take (min (n - (u.b.buffer.take n).length) x.length) = x.take (n - (u.b.buffer.take n).length) := by
            rw [List.take_eq_take_iff]; omega
          rw [ht] at hs
          refine ⟨⟨?_, .inl rfl, ?_⟩, fun _ h => ?_⟩
          · simp only
            rw [g.bytes, hd, List.nil_append, ← hf.1]
            show _ = u.got ++ _ ++ (Events.consume _ es).bytes
            rw [hs, htk]; simp
          · have := g.count
            simp only [List.length_append]; omega
          · simp only [List.length_append]; omega
      · simp only [if_neg hlt, Option.getD_some]
        refine ⟨⟨?_, .inl rfl, ?_⟩, fun _ h => ?_⟩
        · simp only
          rw [g.bytes, List.append_assoc, ← List.append_assoc (as := List.take n u.b.buffer), List.take_append_drop]
        · have := g.count
          simp only [List.length_append]; omega
        · simp only [List.length_append]; omega

theorem start_good (es : Events) : Good es.bytes (.start es) := ⟨rfl, .inl rfl, Nat.le_refl _⟩

theorem runs_good {all : Bytes} {P : Buffered → Call → Prop} (hP : ∀ b c, P b c → Tame b c) {u u' : Use} {cs : List Call} (g : Good all u) (h : Runs P u cs u') :
    Good all u' ∧ ((∀ b c, P b c → Within b c) → u.b.consumed = u.got.length → u'.b.consumed = u'.got.length) := by
  induction h with
  | nil => exact ⟨g, fun _ h => h⟩
  | cons hp hs _ ih =>
    have h1 := step_good g (hP _ _ hp) hs
    have h2 := ih h1.1
    exact ⟨h2.1, fun hw he => h2.2 hw (h1.2 (hw _ _ hp) he)⟩

/-- **C39 (partial).** For every source (failing and empty reads included) and every sequence of calls in which `refill` is called with nothing preloaded and no
`read` fails with something preloaded: the program obtains the bytes of the source from the beginning, without a gap; what it has not yet got is still there; and
`consumed()` is at most the number of bytes obtained. -/
theorem C39_bytes_partial (es : Events) (cs : List Call) (u : Use) (h : Runs Tame (.start es) cs u) :
    es.bytes = u.got ++ (u.b.buffer ++ u.b.inner.bytes) ∧ u.b.consumed ≤ u.got.length := by
  have := runs_good (fun _ _ h => h) (start_good es) h
  exact ⟨this.1.bytes, this.1.count⟩

/-- **C39 (partial).** If moreover no `consume` goes beyond the preloaded bytes, `consumed()` is the number of bytes obtained. -/
theorem C39_consumed_partial (es : Events) (cs : List Call) (u : Use) (h : Runs (fun b c => Tame b c ∧ Within b c) (.start es) cs u) :
    u.got <+: es.bytes ∧ u.b.consumed = u.got.length := by
  have := runs_good (fun _ _ h => h.1) (start_good es) h
  exact ⟨⟨_, this.1.bytes.symm⟩, this.2 (fun _ _ h => h.2) rfl⟩

/-- At the end of the source nothing is left: when `fill_buf` gives nothing and the source is exhausted, everything has been obtained. -/
theorem C39_complete (es : Events) (cs : List Call) (u : Use) (h : Runs Tame (.start es) cs u) (he : u.b.inner = []) (hf : u.b.fillBuf.1 = some []) :
    u.got = es.bytes := by
  have := (C39_bytes_partial es cs u h).1
  rw [Buffered.fillBuf, he] at hf
  simp only [Events.fill] at hf
  by_cases hb : u.b.buffer = []
  · rw [this, he, hb]; simp [Events.bytes]
  · rw [if_neg hb] at hf
    simp only [List.append_nil, Option.some.injEq] at hf
    exact absurd hf hb

/-- Non-vacuity: preload three bytes, look over the border, consume them, read on. -/
example : ∃ u, Runs (fun b c => Tame b c ∧ Within b c) (.start [some [1, 2, 3], none, some [4, 5]]) [.refill, .fill, .fill, .consume 3, .len, .read 1] u ∧
    u.got = [1, 2, 3, 4] ∧ u.b.consumed = 4 := by
  refine ⟨_, .cons ⟨rfl, trivial⟩ (.refill _) (.cons ⟨trivial, trivial⟩ (.fill _) (.cons ⟨trivial, trivial⟩ (.fill _)
    (.cons ⟨trivial, ?_⟩ (.consume _ 3 ?_) (.cons ⟨trivial, trivial⟩ (.len _) (.cons ⟨?_, trivial⟩ (.read _ 1) (.nil _)))))), ?_, ?_⟩
  · exact .inr (by decide)
  · decide
  · exact .inl (by decide)
  · decide
  · decide

/-! ## Where it goes wrong -/

/-- `refill` throws away whatever was preloaded. -/
theorem C39_refill_loses (b : Buffered) (h : b.refill.1 = some ()) : b.refill.2.buffer ++ b.refill.2.inner.bytes = b.inner.bytes := by
  unfold Buffered.refill at h ⊢
  have hf := fill_shape b.inner
  match hx : b.inner.fill with
  | (none, es) => rw [hx] at h; cases h
  | (some x, es) =>
    rw [hx] at hf
    have hc := (consume_shape (hf.2 x rfl) (Nat.le_refl x.length)).1
    rw [List.take_length] at hc
    simp only
    rw [← hc, hf.1]

/-- **C39 is false of the code**: two `refill`s in a row lose the first piece. -/
theorem C39_refill_twice :
    ∃ u, Runs (fun _ _ => True) (.start [some [1, 2, 3], some [4, 5, 6]]) [.refill, .refill, .read 3] u ∧ u.got = [4, 5, 6] :=
  ⟨_, .cons trivial (.refill _) (.cons trivial (.refill _) (.cons trivial (.read _ 3) (.nil _))), by decide⟩

/-- **C39 is false of the code**: a `consume` beyond the preloaded bytes does not count these. -/
theorem C39_undercount :
    ∃ u, Runs (fun _ _ => True) (.start [some [1, 2, 3], some [4, 5, 6]]) [.refill, .fill, .consume 5] u ∧ u.got = [1, 2, 3, 4, 5] ∧ u.b.consumed = 2 :=
  ⟨_, .cons trivial (.refill _) (.cons trivial (.fill _) (.cons trivial (.consume _ 5 (by decide)) (.nil _))), by decide, by decide⟩

/-- **C39 is false of the code**: a failing `read` loses the preloaded bytes. -/
theorem C39_failed_read :
    ∃ u, Runs (fun _ _ => True) (.start [some [1, 2, 3], none, some [4, 5, 6]]) [.refill, .read 4, .read 3] u ∧ u.got = [4, 5, 6] :=
  ⟨_, .cons trivial (.refill _) (.cons trivial (.read _ 4) (.cons trivial (.read _ 3) (.nil _))), by decide⟩

/-- **C39, the lengths.** `len` is the number of bytes the next `fill_buf` gives, `is_empty` says whether that gives none, and `buffer_len` counts those of them that are not preloaded. -/
theorem C39_lengths (b : Buffered) :
    b.len.1 = b.fillBuf.1.map List.length ∧ b.isEmpty.1 = b.fillBuf.1.map List.isEmpty ∧
      b.bufferLen.1 = b.fillBuf.1.map fun x => (x.drop b.buffer.length).length := by
  unfold Buffered.isEmpty Buffered.len Buffered.bufferLen Buffered.fillBuf
  rcases h : b.inner.fill with ⟨_ | x, es⟩
  · exact ⟨rfl, rfl, rfl⟩
  · by_cases hb : b.buffer = []
    · rw [hb]
      refine ⟨rfl, ?_, rfl⟩
      cases x <;> rfl
    · simp only [if_neg hb, Option.map_some, List.length_append, List.drop_left, Option.some.injEq, and_true]
      refine ⟨Nat.add_comm _ _, ?_⟩
      cases hb' : b.buffer with
      | nil => exact absurd hb' hb
      | cons c cs =>
        cases x <;> rfl

/-- Three bytes preloaded, three more in the reader inside. -/
example : (Buffered.mk [some [4, 5, 6]] [1, 2, 3] 0 0).len.1 = some 6 ∧ (Buffered.mk [some [4, 5, 6]] [1, 2, 3] 0 0).bufferLen.1 = some 3 ∧
    (Buffered.mk [some [4, 5, 6]] [1, 2, 3] 0 0).isEmpty.1 = some false := by decide

theorem C39_not : ¬ C39_full := by
  intro h
  obtain ⟨u, hr, hg⟩ := C39_refill_twice
  have := (h _ _ _ hr).1
  rw [hg] at this
  revert this
  decide

end Brec.Props
