import Verif.ReaderRun
import Verif.NoPanic
/-!
# What holds of `PacketBufReader` on arbitrary input
-/

namespace Brec

open Brec.Props

variable {O : BlockOps} {Q : PayloadOps}

namespace Events

/-- Every read but the last gives at least 29 bytes. -/
def Long (es : Events) : Prop := ∀ c, some c ∈ es.dropLast → 29 ≤ c.length

theorem Long.tail {e : Option Bytes} {es : Events} (h : Long (e :: es)) : Long es := by
  intro c hc
  cases es with
  | nil => simp at hc
  | cons e' es => exact h c (by simp; exact .inr (by simpa using hc))

theorem Long.head {c : Bytes} {es : Events} (h : Long (some c :: es)) (hne : es ≠ []) : 29 ≤ c.length := by
  cases es with
  | nil => exact absurd rfl hne
  | cons e' es => exact h c (by simp)

theorem consume_zero (es : Events) : es.consume 0 = es := by
  rcases es with _ | ⟨_ | _, _⟩ <;> rfl

/-- What `consume` leaves of a source. -/
theorem consume_tail (n : Nat) (e : Option Bytes) (es : Events) :
    (∃ e', consume n (e :: es) = e' :: es) ∨ consume n (e :: es) = es := by
  cases e with
  | none => exact .inl ⟨none, rfl⟩
  | some b =>
    simp only [consume]
    split
    · exact .inl ⟨_, rfl⟩
    · split
      · exact .inl ⟨_, rfl⟩
      · exact .inr rfl

end Events

namespace Rd

/-- What `read` keeps in its state on any input. -/
structure Sane (r : Rd) : Prop where
  state : match r.recent with
    | .empty => True
    | .refill b n => r.buffered = [] ∧ 0 < n ∧
        (b.length + n = 29 ∨ b.length + n = 58 ∧ 29 ≤ b.length ∧ getPos (b.take 29) = none)
    | .ready h => r.buffered.length ≤ h.size

/-- The current buffer may be short, later reads but the last are not; more than 29 bytes are kept back only at the
end of the source. -/
structure LongInv (r : Rd) : Prop where
  tail : Events.Long r.src.tail
  refill : ∀ b n, r.recent = .refill b n → Events.Long r.src ∧ (29 < b.length → r.src = [])

theorem finish_recent (rules : Rules O.BR (Packet O Q)) (h : PacketHeader) (pb : Bytes) (c : Nat) (r : Rd) :
    (finish rules h pb c r).2.recent = r.recent := by
  unfold finish
  simp only
  split <;> rfl

theorem finish_src (rules : Rules O.BR (Packet O Q)) (h : PacketHeader) (pb : Bytes) (c : Nat) (r : Rd) :
    (finish rules h pb c r).2.src = r.src ∨ (finish rules h pb c r).2.src = r.src.consume c := by
  unfold finish
  simp only
  split
  · exact .inr rfl
  · exact .inl rfl
  · exact .inl rfl

/-- `src` is what `es` or an event before `es` leaves. -/
def SrcFrom (es src : Events) : Prop := (∃ e', src = e' :: es) ∨ src = es

theorem SrcFrom.self (e : Option Bytes) (es : Events) : SrcFrom es (e :: es) := .inl ⟨e, rfl⟩

theorem SrcFrom.consume (n : Nat) (e : Option Bytes) (es : Events) : SrcFrom es (Events.consume n (e :: es)) :=
  Events.consume_tail n e es

theorem exists_first {P : Nat → Prop} (h : ∃ n, P n) : ∃ n, P n ∧ ∀ j < n, ¬ P j := by
  obtain ⟨n, hn⟩ := h
  induction n using Nat.strongRecOn with
  | _ n ih =>
    by_cases hx : ∃ j, j < n ∧ P j
    · obtain ⟨j, hj, hp⟩ := hx
      exact ih j hj hp
    · exact ⟨n, hn, fun j hj hp => hx ⟨j, hj, hp⟩⟩

theorem getPos_drop {b : Bytes} (h : getPos b = none) (k : Nat) : getPos (b.drop k) = none := by
  cases e : getPos (b.drop k) with
  | none => rfl
  | some j =>
    exfalso
    obtain ⟨⟨hp, _⟩, hl⟩ := (C12_get_pos_partial _ j).mp e
    rw [List.drop_drop] at hp
    rw [List.length_drop] at hl
    obtain ⟨m, hm, hmin⟩ := exists_first (P := fun m => PACKET_SIG <+: b.drop m) ⟨_, hp⟩
    have hle : m ≤ k + j := by
      by_cases hc : m ≤ k + j
      · exact hc
      · exact absurd hp (hmin _ (by omega))
    have := (C12_get_pos_partial b m).mpr ⟨⟨hm, hmin⟩, by omega⟩
    rw [h] at this; cases this

theorem readHeader_ok {b : Bytes} {x : HeaderState} (h : readHeader b = .ok x) :
    match x with
    | .notFound => getPos b = none
    | .notEnough start needed => 0 < needed ∧ (b.drop start).length + needed = 29
    | .found _ start stop => stop = start + 29 ∧ stop ≤ b.length := by
  unfold readHeader at h
  split at h
  · rename_i e
    obtain rfl := Out.ok.inj h
    exact e
  · rename_i o e
    have ho := ((C12_get_pos_partial b o).mp e).2
    split at h
    · rename_i n en
      obtain rfl := Out.ok.inj h
      simp only [isNotEnough] at en
      split at en
      · cases en
      · rename_i hlt
        obtain rfl := Option.some.inj en
        simp only [HSIZE, List.length_drop] at *
        omega
    · rename_i en
      simp only [isNotEnough, HSIZE, List.length_drop] at en
      split at en
      · cases hx : PacketHeader.readSlice (b.drop o) with
        | ok k =>
          rw [hx, Out.map_ok] at h
          obtain rfl := Out.ok.inj h
          show o + HSIZE = o + 29 ∧ o + HSIZE ≤ b.length
          simp only [HSIZE]
          exact ⟨trivial, by omega⟩
        | err e => rw [hx] at h; cases h
        | panic => rw [hx] at h; cases h
      · cases en

theorem readHeader_not_panic (b : Bytes) : readHeader b ≠ .panic := by
  unfold readHeader
  split
  · simp
  · split
    · simp
    · exact Out.map_ne_panic (PacketHeader.readSlice_np _)

/-- The result of one `read` whose current buffer is `buf`, the later reads being `es`. -/
structure After (was : Recent) (buf : Bytes) (es : Events) (r' : Rd) : Prop where
  src : SrcFrom es r'.src
  sane : Sane r'
  refill : ∀ b' n', r'.recent = .refill b' n' → r'.src = es ∧
    (b'.length ≤ 29 ∨ buf.length < 29 ∧ ∃ b n, was = .refill b n)

theorem After.empty {was : Recent} {buf : Bytes} {es : Events} {r' : Rd} (h : r'.recent = .empty) (hs : SrcFrom es r'.src) :
    After was buf es r' :=
  ⟨hs, ⟨by rw [h]; trivial⟩, fun b n e => by rw [h] at e; cases e⟩

theorem After.ready {was : Recent} {buf : Bytes} {es : Events} {r' : Rd} {h : PacketHeader} (e : r'.recent = .ready h)
    (hs : SrcFrom es r'.src) (hl : r'.buffered.length ≤ h.size) : After was buf es r' :=
  ⟨hs, ⟨by rw [e]; exact hl⟩, fun b n e' => by rw [e] at e'; cases e'⟩

/-- 29 bytes kept when no signature was found. -/
theorem keep {B : Bytes} (hp : getPos B = none) (h29 : 29 ≤ B.length) :
    (B.drop (B.length - 29)).length = 29 ∧ getPos ((B.drop (B.length - 29)).take 29) = none := by
  have h1 : (B.drop (B.length - 29)).length = 29 := by simp; omega
  exact ⟨h1, by rw [List.take_of_length_le (by omega)]; exact getPos_drop hp _⟩

theorem after_empty (rules : Rules O.BR (Packet O Q)) (r : Rd) (buf : Bytes) (es : Events)
    (hr : r.recent = .empty) (hs : r.src = some buf :: es) (hne : buf ≠ []) :
    After r.recent buf es (readEmpty rules r).2 := by
  unfold readEmpty
  rw [hs, Events.fill_some hne]
  obtain ⟨c, cs, rfl⟩ : ∃ c cs, buf = c :: cs := by
    cases buf with
    | nil => exact absurd rfl hne
    | cons c cs => exact ⟨c, cs, rfl⟩
  simp only
  generalize (c :: cs : Bytes) = b at *
  split
  · rename_i h29
    rw [Events.consume_all hne]
    simp only [HSIZE] at *
    exact ⟨.inr rfl, ⟨⟨rfl, by omega, .inl (by omega)⟩⟩, fun b' n' e => by
      simp only [Recent.refill.injEq] at e; exact ⟨rfl, .inl (by rw [← e.1]; omega)⟩⟩
  · rename_i h29
    simp only [HSIZE] at h29
    split
    · exact .empty hr (.self ..)
    · exact .empty hr (.self ..)
    · rename_i e
      have hk := keep (readHeader_ok e) (by omega)
      rw [Events.consume_all hne]
      exact ⟨.inr rfl, ⟨⟨rfl, by simp [HSIZE], .inr ⟨by simp only [HSIZE, hk.1], by simp only [HSIZE, hk.1]; omega, hk.2⟩⟩⟩, fun b' n' e => by
        simp only [Recent.refill.injEq] at e
        exact ⟨rfl, .inl (by rw [← e.1]; simp only [HSIZE, hk.1]; omega)⟩⟩
    · rename_i start needed e
      obtain ⟨h1, h2⟩ := readHeader_ok e
      rw [Events.consume_all hne]
      exact ⟨.inr rfl, ⟨⟨rfl, h1, .inl h2⟩⟩, fun b' n' e => by
        simp only [Recent.refill.injEq] at e
        exact ⟨rfl, .inl (by rw [← e.1]; omega)⟩⟩
    · rename_i h start stop e
      split
      · exact .empty hr (.self ..)
      · split
        · rename_i hgt
          rw [Events.consume_all hne]
          refine .ready rfl (.inr rfl) ?_
          simp only [List.length_drop]; omega
        · refine .empty (by rw [finish_recent]; exact hr) ?_
          rcases finish_src rules h (slice b stop h.size) (stop + h.size)
            { src := some b :: es, recent := r.recent, buffered := [], log := ignoreTo rules start b r.log } with e | e
          · rw [e]; exact .self ..
          · rw [e]; exact .consume ..

theorem after_ready (rules : Rules O.BR (Packet O Q)) (r : Rd) (h : PacketHeader) (buf : Bytes) (es : Events)
    (was : Recent) (hr : r.recent = .empty) (hs : r.src = some buf :: es) (hne : buf ≠ []) :
    After was buf es (readReady rules h r).2 := by
  unfold readReady
  rw [hs, Events.fill_some hne]
  simp only
  split
  · rw [Events.consume_all hne]
    refine .ready rfl (.inr rfl) ?_
    simp only [List.length_append]; omega
  · split
    · exact .empty hr (.self ..)
    · refine .empty (by rw [finish_recent]; exact hr) ?_
      rcases finish_src rules h (r.buffered ++ buf.take (h.size - r.buffered.length)) 0
        { src := Events.consume (h.size - r.buffered.length) (some buf :: es), recent := r.recent
          buffered := r.buffered ++ buf.take (h.size - r.buffered.length), log := r.log } with e | e
      · rw [e]; exact SrcFrom.consume (h.size - r.buffered.length) (some buf) es
      · rw [e, Events.consume_zero]; exact SrcFrom.consume (h.size - r.buffered.length) (some buf) es

theorem consumeDiff_src {chk : Bool} {stop n : Nat} {e : Option Bytes} {es src : Events}
    (h : consumeDiff chk stop n (e :: es) = some src) : SrcFrom es src := by
  unfold consumeDiff at h
  split at h
  · rw [← Option.some.inj h]; exact .consume ..
  · split at h
    · cases h
    · rw [← Option.some.inj h]; exact .consume ..

theorem after_refill (rules : Rules O.BR (Packet O Q)) (chk : Bool) (r : Rd) (b0 : Bytes) (n : Nat) (buf : Bytes) (es : Events)
    (hr : r.recent = .empty) (hs : r.src = some buf :: es) (hne : buf ≠ []) (hbuf : r.buffered = []) (hn : 0 < n)
    (hl : b0.length + n = 29 ∨ b0.length + n = 58 ∧ 29 ≤ b0.length ∧ getPos (b0.take 29) = none) :
    After (.refill b0 n) buf es (readRefill rules chk b0 n r).2 := by
  unfold readRefill
  rw [hs, Events.fill_some hne]
  obtain ⟨c, cs, rfl⟩ : ∃ c cs, buf = c :: cs := by
    cases buf with
    | nil => exact absurd rfl hne
    | cons c cs => exact ⟨c, cs, rfl⟩
  simp only
  generalize (c :: cs : Bytes) = b at *
  split
  · rename_i hlt
    rw [Events.consume_all hne]
    refine ⟨.inr rfl, ⟨⟨hbuf, by omega, ?_⟩⟩, fun b' n' e => ?_⟩
    · rcases hl with h1 | ⟨h1, h2, h3⟩
      · left; simp; omega
      · right
        refine ⟨by simp; omega, by simp; omega, ?_⟩
        rw [List.take_append_of_le_length h2]; exact h3
    · exact ⟨rfl, .inr ⟨by omega, _, _, rfl⟩⟩
  · rename_i hlt
    split
    · exact .empty hr (.self ..)
    · exact .empty hr (.self ..)
    · split
      · exact .empty hr (.self ..)
      · rename_i src' e
        exact .ready rfl (consumeDiff_src e) (by simp [hbuf])
    · unfold refillAll
      have h29 : 29 ≤ (b0 ++ b).length := by simp; omega
      split
      · exact .empty hr (.self ..)
      · exact .empty hr (.self ..)
      · simp only
        split
        · exact .empty hr (.self ..)
        · rename_i src' e
          exact .ready rfl (consumeDiff_src e) (by simp [hbuf])
      · rename_i start needed e
        obtain ⟨h1, h2⟩ := readHeader_ok e
        simp only [Events.consume_all hne]
        exact ⟨.inr rfl, ⟨⟨hbuf, h1, .inl h2⟩⟩, fun b' n' e => by
          simp only [Recent.refill.injEq] at e
          exact ⟨rfl, .inl (by rw [← e.1]; omega)⟩⟩
      · rename_i e
        have hk := keep (readHeader_ok e) h29
        simp only [Events.consume_all hne]
        exact ⟨.inr rfl, ⟨⟨hbuf, by simp [HSIZE], .inr ⟨by simp only [HSIZE, hk.1], by simp only [HSIZE, hk.1]; omega, hk.2⟩⟩⟩, fun b' n' e => by
          simp only [Recent.refill.injEq] at e
          exact ⟨rfl, .inl (by rw [← e.1]; simp only [HSIZE, hk.1]; omega)⟩⟩

/-- One `read` with a non-empty current buffer. -/
theorem after (rules : Rules O.BR (Packet O Q)) (chk : Bool) {r : Rd} {buf : Bytes} {es : Events} (hs : r.src = some buf :: es)
    (hne : buf ≠ []) (hr : Sane r) : After r.recent buf es (read rules chk r).2 := by
  have h := hr.state
  unfold read
  cases e : r.recent with
  | empty => simp only; rw [← e]; exact after_empty rules r buf es e hs hne
  | ready hd => exact after_ready rules { r with recent := .empty } hd buf es _ rfl hs hne
  | refill b n =>
    rw [e] at h
    obtain ⟨h1, h2, h3⟩ := h
    exact after_refill rules chk { r with recent := .empty } b n buf es rfl hs hne h1 h2 h3

/-- One `read` that finds no byte (end of the source or an error). -/
theorem after_nothing (rules : Rules O.BR (Packet O Q)) (chk : Bool) {r : Rd} {x : Option Bytes} {es : Events}
    (hf : r.src.fill = (x, es)) (hx : x = none ∨ x = some []) (hr : Sane r) :
    (read rules chk r).2.src = es ∧ Sane (read rules chk r).2 ∧
      ((read rules chk r).2.recent = .empty ∨ ∃ h, r.recent = .ready h ∧ (read rules chk r).2.recent = .ready h) := by
  have h := hr.state
  unfold read
  cases e : r.recent with
  | empty =>
    simp only
    unfold readEmpty
    rw [hf]
    rcases hx with rfl | rfl
    · exact ⟨rfl, ⟨by simp only [e]⟩, .inl e⟩
    · exact ⟨rfl, ⟨by simp only [e]⟩, .inl e⟩
  | refill b n =>
    simp only
    unfold readRefill
    simp only [hf]
    rcases hx with rfl | rfl
    · exact ⟨rfl, ⟨trivial⟩, .inl rfl⟩
    · exact ⟨rfl, ⟨trivial⟩, .inl rfl⟩
  | ready hd =>
    simp only
    unfold readReady
    simp only [hf]
    rw [e] at h
    rcases hx with rfl | rfl
    · exact ⟨rfl, ⟨trivial⟩, .inl rfl⟩
    · simp only
      split
      · refine ⟨by simp [Events.consume_zero], ⟨?_⟩, .inr ⟨hd, rfl, rfl⟩⟩
        simpa using h
      · split
        · exact ⟨rfl, ⟨trivial⟩, .inl rfl⟩
        · have h0 : hd.size - r.buffered.length = 0 := by rename_i h1 h2; simp at h1 h2; omega
          simp only [h0, Events.consume_zero, List.take_nil, List.append_nil]
          refine ⟨?_, ⟨by rw [finish_recent]; trivial⟩, .inl (by rw [finish_recent])⟩
          rcases finish_src rules hd r.buffered 0
            { src := es, recent := .empty, buffered := r.buffered, log := r.log } with e | e
          · rw [e]
          · rw [e, Events.consume_zero]

/-- What a source gives at its next `fill_buf`. -/
theorem fill_cases (es : Events) :
    (∃ buf es', es = some buf :: es' ∧ buf ≠ []) ∨
    (∃ x es', es.fill = (x, es') ∧ (x = none ∨ x = some []) ∧ es' = es.tail) := by
  match es with
  | [] => exact .inr ⟨some [], [], rfl, .inr rfl, rfl⟩
  | none :: es => exact .inr ⟨none, es, rfl, .inl rfl, rfl⟩
  | some [] :: es => exact .inr ⟨some [], es, rfl, .inr rfl, rfl⟩
  | some (b :: bs) :: es => exact .inl ⟨_, es, rfl, by simp⟩

theorem Sane.read {r : Rd} (h : Sane r) (rules : Rules O.BR (Packet O Q)) (chk : Bool) : Sane (read rules chk r).2 := by
  rcases fill_cases r.src with ⟨buf, es, hs, hne⟩ | ⟨x, es, hf, hx, _⟩
  · exact (after rules chk hs hne h).sane
  · exact (after_nothing rules chk hf hx h).2.1

theorem Long_tail {es : Events} (h : es.Long) : Events.Long es.tail := by
  cases es with
  | nil => exact h
  | cons e es => exact h.tail

theorem LongInv.read {r : Rd} (h : LongInv r) (hs : Sane r) (rules : Rules O.BR (Packet O Q)) (chk : Bool) :
    LongInv (read rules chk r).2 := by
  rcases fill_cases r.src with ⟨buf, es, he, hne⟩ | ⟨x, es, hf, hx, he⟩
  · have a := after rules chk he hne hs
    have hl := h.tail
    rw [he] at hl
    simp only [List.tail_cons] at hl
    refine ⟨?_, fun b n e => ?_⟩
    · rcases a.src with ⟨e', h1⟩ | h1
      · rw [h1]; exact hl
      · rw [h1]; exact Long_tail hl
    · obtain ⟨h1, h2⟩ := a.refill b n e
      rw [h1]
      refine ⟨hl, fun h29 => ?_⟩
      rcases h2 with h2 | ⟨h2, b0, n0, hr⟩
      · omega
      · have h3 := (h.refill b0 n0 hr).1
        rw [he] at h3
        by_cases hee : es = []
        · exact hee
        · have := h3.head hee; omega
  · obtain ⟨h1, _, h2⟩ := after_nothing rules chk hf hx hs
    refine ⟨?_, fun b n e => ?_⟩
    · rw [h1, he]; exact Long_tail h.tail
    · rcases h2 with h2 | ⟨hd, _, h2⟩ <;> rw [h2] at e <;> cases e

/-! ## Whole runs -/

def isQuiet : Out (Next (Packet O Q)) → Bool
  | .ok (.notEnough _) => true
  | .ok .notFound => true
  | _ => false

/-- The results that are not merely "call again" (`NotEnoughData`, `NotFound`). -/
def loud (os : List (Out (Next (Packet O Q)))) : List (Out (Next (Packet O Q))) := os.filter fun o => !isQuiet o

theorem reads_succ {rules : Rules O.BR (Packet O Q)} {chk : Bool} {r : Rd} (h : (read rules chk r).1 ≠ .panic) (n : Nat) :
    reads rules chk (n + 1) r =
      ((read rules chk r).1 :: (reads rules chk n (read rules chk r).2).1, (reads rules chk n (read rules chk r).2).2) := by
  rw [reads]
  match hx : read rules chk r with
  | (.panic, r') => rw [hx] at h; exact absurd rfl h
  | (.ok a, r') => rfl
  | (.err e, r') => rfl

/-- From any state that satisfies the invariant, and as long as a guard excludes the underflow, repeated `read`
gives the packets, then `NoData`, and the litter goes to the `Ignored` callback. -/
theorem run {S : BlockSpec O} {rules : Rules O.BR (Packet O Q)} {chk : Bool} (G : Rd → List (Bytes × Packet O Q) → Prop)
    (hbad : ∀ r is t, Inv S r is t → G r is → ¬ Bad r is)
    (hnext : ∀ r is t is', Inv S r is t → G r is → (is' = is.tail ∨ ∃ k, is' = dropItems k is) →
      (read rules chk r).1 ≠ .panic → G (read rules chk r).2 is')
    (r : Rd) (is : List (Bytes × Packet O Q)) (t : Bytes) (inv : Inv S r is t) (hG : G r is) :
    ∃ n, loud (reads rules chk n r).1 = is.map (fun x => .ok (verdict S rules x.2)) ++ [.ok .noData] ∧
      LogAdd rules r.log (reads rules chk n r).2.log (litters is t) ∧
      (reads rules chk n r).2.src = [] ∧ (reads rules chk n r).2.recent = .empty := by
  induction hm : meas r using Nat.strongRecOn generalizing r is t with
  | _ m ih =>
    subst hm
    cases step (rules := rules) (chk := chk) inv (hbad r is t inv hG) with
    | quiet k q hk inv' log lt =>
      have hnp : (read rules chk r).1 ≠ .panic := by rcases q with ⟨n, q⟩ | q <;> rw [q] <;> simp
      have hq : isQuiet (read rules chk r).1 = true := by rcases q with ⟨n, q⟩ | q <;> rw [q] <;> rfl
      obtain ⟨n, h1, h2, h3, h4⟩ := ih _ lt _ _ _ inv' (hnext r is t _ inv hG (.inr ⟨k, rfl⟩) hnp) rfl
      refine ⟨n + 1, ?_, ?_, ?_, ?_⟩
      · rw [reads_succ hnp, loud, List.filter_cons, hq]
        simp only [Bool.not_true, Bool.false_eq_true, if_false]
        have : (dropItems k is).map (fun x => Out.ok (verdict S rules x.2)) =
            is.map (fun x => Out.ok (verdict S rules x.2)) := by
          have h := congrArg (List.map fun p => Out.ok (verdict S rules p)) (snd_dropItems is k)
          simpa [List.map_map, Function.comp_def] using h
        rw [this] at h1
        exact h1
      · rw [reads_succ hnp, litters_drop is t k]
        exact log.trans h2
      · rw [reads_succ hnp]; exact h3
      · rw [reads_succ hnp]; exact h4
    | packet l p rest e res inv' log lt =>
      subst e
      have hnp : (read rules chk r).1 ≠ .panic := by rw [res]; simp
      obtain ⟨n, h1, h2, h3, h4⟩ := ih _ lt _ _ _ inv' (hnext r _ t _ inv hG (.inl rfl) hnp) rfl
      refine ⟨n + 1, ?_, ?_, ?_, ?_⟩
      · have hq : isQuiet (.ok (verdict S rules p)) = false := by
          unfold verdict; split <;> rfl
        rw [reads_succ hnp, loud, List.filter_cons, res, hq]
        simp only [Bool.not_false, if_true, List.map_cons, List.cons_append]
        congr 1
      · rw [reads_succ hnp]
        have : litters ((l, p) :: rest) t = l ++ litters rest t := by simp [litters]
        rw [this]
        exact log.trans h2
      · rw [reads_succ hnp]; exact h3
      · rw [reads_succ hnp]; exact h4
    | done e res log src recent =>
      subst e
      have hnp : (read rules chk r).1 ≠ .panic := by rw [res]; simp
      refine ⟨1, ?_, ?_, ?_, ?_⟩
      · rw [reads_succ hnp, loud, List.filter_cons, res]; rfl
      · rw [reads_succ hnp]; simpa [litters, reads] using log
      · rw [reads_succ hnp]; exact src
      · rw [reads_succ hnp]; exact recent

theorem inv_newE {S : BlockSpec O} {E : Prop} {cs : Chunks} {is : List (Bytes × Packet O Q)} {t : Bytes} (hc : ∀ c ∈ cs, c ≠ [] ∧ c.length < 2 ^ 63)
    (hs : cs.flatten = stream is t) (hg : ∀ x ∈ is, GoodItem S x) (ht : E → NoSig t) : InvE S E (new (cs.map some)) is t := by
  refine ⟨?_, hg, ht, ?_⟩
  · intro e he
    obtain ⟨c, hc', rfl⟩ := List.mem_map.mp he
    exact ⟨c, rfl, hc c hc'⟩
  · simp only [new, Events.bytes, List.map_map]
    rw [← hs]
    congr 1
    conv => rhs; rw [← List.map_id cs]
    rfl

theorem inv_new {S : BlockSpec O} {cs : Chunks} {is : List (Bytes × Packet O Q)} {t : Bytes} (hc : ∀ c ∈ cs, c ≠ [] ∧ c.length < 2 ^ 63)
    (hs : cs.flatten = stream is t) (hg : ∀ x ∈ is, GoodItem S x) (ht : NoSig t) : Inv S (new (cs.map some)) is t := inv_newE hc hs hg fun _ => ht

/-- Streams without litter in front of packets never meet the underflow. -/
theorem not_bad_pure {S : BlockSpec O} {E : Prop} {r : Rd} {is : List (Bytes × Packet O Q)} {t : Bytes} (inv : InvE S E r is t)
    (h : ∀ x ∈ is, x.1 = []) : ¬ Bad r is := by
  rintro ⟨b, n, c, es, l, p, rest, hr, hs, hc, rfl, hl⟩
  have hl0 : l = [] := h (l, p) List.mem_cons_self
  subst hl0
  have st := inv.state
  rw [hr] at st
  obtain ⟨_, _, st, _, hh⟩ := st
  simp only [List.length_nil] at hl
  rcases hh with hh | ⟨hh, h29, hp⟩
  · omega
  · have g := inv.good _ List.mem_cons_self
    obtain ⟨h, pb, sh⟩ := g.ok.shape
    obtain ⟨R, hR⟩ := sig_bytes h
    have hfs := firstSig (X := stream (([], p) :: rest) t) (R := R ++ (S.encs p.blocks ++ pb ++ stream rest t)) g.free
      (by rw [stream_cons g.ok.blocks sh, hR]; simp)
    have hpre : b.take 29 <+: stream (([], p) :: rest) t := by
      rw [← st]
      exact (List.take_prefix _ _).trans (List.prefix_append _ _)
    have := getPos_prefix hpre hfs
    rw [hp, if_pos (by simp; omega)] at this
    cases this

theorem not_bad_long {r : Rd} {is : List (Bytes × Packet O Q)} (h : LongInv r) : ¬ Bad r is := by
  rintro ⟨b, n, c, es, l, p, rest, hr, hs, hc, _, hl⟩
  have := (h.refill b n hr).2 (by omega)
  rw [hs] at this
  cases this

/-- With overflow checks the underflow is a panic. -/
theorem bad_panics {S : BlockSpec O} {rules : Rules O.BR (Packet O Q)} {r : Rd} {is : List (Bytes × Packet O Q)} {t : Bytes}
    (inv : Inv S r is t) (hb : Bad r is) : (read rules true r).1 = .panic := by
  obtain ⟨b, n, c, es, l, p, rest, hr, hs, hc, rfl, hl⟩ := hb
  have st := inv.state
  rw [hr] at st
  obtain ⟨_, _, st, hn, hlens⟩ := st
  have hne : c ≠ [] := by rintro rfl; simp at hc; omega
  rw [hs, Events.bytes_cons] at st
  unfold read
  rw [hr]
  simp only
  unfold readRefill
  simp only [hs, Events.fill_some hne]
  obtain ⟨a, as, rfl⟩ : ∃ a as, c = a :: as := by
    cases c with
    | nil => exact absurd rfl hne
    | cons a as => exact ⟨a, as, rfl⟩
  simp only
  generalize (a :: as : Bytes) = c at *
  rw [if_neg (by omega)]
  have hB1 : b ++ c.take n <+: stream ((l, p) :: rest) t :=
    ⟨c.drop n ++ Events.bytes es, by rw [← st, List.append_assoc, ← List.append_assoc (c.take n), List.take_append_drop]⟩
  have hl1 : (b ++ c.take n).length = b.length + n := by simp; omega
  rcases readHeader_stream inv.good (fun _ => inv.noSig trivial) hB1 with ⟨e, _, h⟩ | ⟨l', p', rest', h, pb, hie, g, sh, hlb, hh⟩
  · simp only [litOf] at h; omega
  · simp only [List.cons.injEq, Prod.mk.injEq] at hie
    obtain ⟨⟨rfl, rfl⟩, rfl⟩ := hie
    rcases hh with ⟨hlt', e⟩ | ⟨hle, e⟩
    · omega
    · rw [e]
      simp only [consumeDiff]
      rw [if_neg (by omega)]
      rfl

end Rd

end Brec
