import Verif.StorageRead
import Verif.Props.PacketLimits
/-!
# C92: waiting for as many bytes as one is told
-/

namespace Brec.Props

open Rd

variable {O : BlockOps} {Q : PayloadOps} {S : BlockSpec O}

/-! ## Specification -/

/-- How a program uses one of the `try_read`s: the call, and the source once more bytes have arrived, given how it was before the call and how the call left it. `lenient`: the
program also waits if `NotEnoughData` comes as an error. -/
structure Way (O : BlockOps) (Q : PayloadOps) (σ : Type) where
  call : σ → Out (Status (Packet O Q)) × σ
  feed : σ → σ → Bytes → σ
  lenient : Bool

/-- The call asks for `n` more bytes. -/
def Asked (lenient : Bool) (r : Out (Status (Packet O Q))) (n : Nat) : Prop :=
  r = .ok (.notEnough n) ∨ (lenient = true ∧ r = .err (.notEnoughData n))

/-- How the program ends: it waits for bytes that do not come, or it gives up. -/
inductive Ending where
  | waits
  | fails (e : Err)
  | panics
  deriving DecidableEq, Repr

/-- The program: it calls `try_read`; told that `n` bytes are missing it waits until at least `n` bytes have arrived (`m` of them have, when it goes on), and calls again. `net` is
what will arrive, `l` what it gets. -/
inductive Serves {σ : Type} (W : Way O Q σ) : σ → Bytes → List (Packet O Q) → Ending → Prop where
  | got {s net p l e} : (W.call s).1 = .ok (.success p) → Serves W (W.call s).2 net l e → Serves W s net (p :: l) e
  | more {s net n m l e} : Asked W.lenient (W.call s).1 n → n ≤ m → m ≤ net.length →
      Serves W (W.feed s (W.call s).2 (net.take m)) (net.drop m) l e → Serves W s net l e
  | waits {s net n} : Asked W.lenient (W.call s).1 n → net.length < n → Serves W s net [] .waits
  | fails {s net e} : (W.call s).1 = .err e → (∀ n, ¬ Asked W.lenient (W.call s).1 n) → Serves W s net [] (.fails e)
  | panics {s net} : (W.call s).1 = .panic → Serves W s net [] .panics

/-- The bytes of a packet of which the last are missing; no bytes at all are meant, too. -/
def Begun (S : BlockSpec O) (Q : PayloadOps) (t : Bytes) : Prop := ∃ q : Packet O Q, Storable S q ∧ t <+: wire q ∧ t ≠ wire q

/-- From whatever packets are sent, and maybe the beginning of another one, the program gets these packets and then waits. -/
def Way.Right {σ : Type} (W : Way O Q σ) (S : BlockSpec O) (start : σ) : Prop :=
  ∀ (ps : List (Packet O Q)) (t : Bytes), (∀ p ∈ ps, Storable S p) → Begun S Q t →
    (∃ l e, Serves W start ((ps.map wire).flatten ++ t) l e) ∧
    ∀ l e, Serves W start ((ps.map wire).flatten ++ t) l e → l = ps ∧ e = .waits

/-- `TryReadFrom`, as documented: the reader itself goes back if bytes are missing. -/
def seeking : Way O Q Cur := ⟨Packet.tryRead Q, fun _ c x => { c with data := c.data ++ x }, false⟩

/-- `TryReadFrom`, but the program goes back to where it was, and waits for errors that say `NotEnoughData`, too. -/
def seekingBack : Way O Q Cur := ⟨Packet.tryRead Q, fun c _ x => { c with data := c.data ++ x }, true⟩

/-- `TryReadFromBuffered` on the bytes that have arrived and are not consumed. -/
def buffered : Way O Q Bytes := ⟨fun b => ((Packet.tryBuf Q [b]).1, (Packet.tryBuf (O := O) Q [b]).2.flatten), fun _ b x => b ++ x, false⟩

/-- `TryReadFromBuffered`, but the program keeps the bytes itself, and waits for errors that say `NotEnoughData`, too. -/
def bufferedBack : Way O Q Bytes := ⟨fun b => ((Packet.tryBuf Q [b]).1, (Packet.tryBuf (O := O) Q [b]).2.flatten), fun b _ x => b ++ x, true⟩

/-- **C92.** Both readers can be used in this way. -/
def C92_full (S : BlockSpec O) (Q : PayloadOps) : Prop :=
  (∀ chk, (seeking : Way O Q Cur).Right S ⟨[], 0, chk⟩) ∧ (buffered : Way O Q Bytes).Right S []

/-! ## The seekable reader -/

/-- On the beginning of a packet the reader asks for something, and for no more than the packet lacks. -/
theorem asked_short {p : Packet O Q} (hp : Storable S p) {k : Nat} (hk : k < (wire p).length) {c : Cur} (hc : c.pos ≤ c.data.length)
    (hr : c.rest = (wire p).take k) : ∃ n, 0 < n ∧ n + k ≤ (wire p).length ∧ Asked true (Packet.tryRead (O := O) Q c).1 n := by
  obtain ⟨hd, pb, sh⟩ := hp.ok.shape
  obtain ⟨c1, c2, c3, c4⟩ := C18_tryRead_partial hp.ok hp.blocks (serialize_wire hp.ok) sh.header hk hc hr
  have hwl : (wire p).length = 29 + (S.encs p.blocks).length + pb.length := by
    rw [wire_eq hp.ok.blocks sh]; simp only [List.length_append, PacketHeader.bytes_length, HSIZE]; omega
  have h5 := sh.size
  have h6 := sh.blocksLen
  by_cases d1 : k < 29
  · exact ⟨29 - k, by omega, by omega, .inl (by rw [c1 d1])⟩
  by_cases d2 : k < hd.size
  · exact ⟨hd.size - k, by omega, by omega, .inl (by rw [c2 (by omega) d2])⟩
  by_cases d3 : k < 29 + hd.blocksLen
  · obtain ⟨n, h0, h1, e⟩ := c3 (by omega) (by omega) d3
    exact ⟨n, h0, h1, .inl (by rw [e])⟩
  cases hpl : p.payload with
  | none =>
    exfalso
    have hpart := sh.part
    rw [hpl] at hpart
    have hpb : pb.length = 0 := by cases hpart; rfl
    omega
  | some y =>
    obtain ⟨ph, x, good⟩ := hp.ok.payload y hpl
    obtain ⟨f1, f2⟩ := c4 y ph x hpl good
    by_cases d4 : k < 29 + hd.blocksLen + ph.size
    · obtain ⟨n, h0, h1, e⟩ := f1 (by omega) (by omega) (by omega) d4
      exact ⟨n, h0, h1, .inr ⟨rfl, by rw [e]⟩⟩
    · exact ⟨(wire p).length - k, by omega, by omega, .inl (by rw [f2 (by omega) (by omega) (by omega)])⟩

theorem Asked.det {l : Bool} {r : Out (Status (Packet O Q))} {n m : Nat} (h : Asked l r n) (h' : Asked l r m) : n = m := by
  rcases h with h | ⟨_, h⟩ <;> rcases h' with h' | ⟨_, h'⟩ <;> rw [h] at h' <;> simp at h' <;> exact h'

/-- What the next call finds: a whole packet, or the beginning of one. -/
theorem next_call {ps : List (Packet O Q)} {t net : Bytes} (hok : ∀ p ∈ ps, Storable S p) (ht : Begun S Q t) {c : Cur} (hc : c.pos ≤ c.data.length)
    (he : c.rest ++ net = (ps.map wire).flatten ++ t) :
    (∃ p ps', ps = p :: ps' ∧ Packet.tryRead (O := O) Q c = (.ok (.success p), { c with pos := c.pos + (wire p).length }) ∧
      c.pos + (wire p).length ≤ c.data.length ∧ ({ c with pos := c.pos + (wire p).length } : Cur).rest ++ net = (ps'.map wire).flatten ++ t) ∨
    ∃ n, 0 < n ∧ Asked true (Packet.tryRead (O := O) Q c).1 n ∧ (ps ≠ [] → n ≤ net.length) := by
  cases ps with
  | nil =>
    obtain ⟨q, hq, ⟨u, hu⟩, hne⟩ := ht
    simp only [List.map_nil, List.flatten_nil, List.nil_append] at he
    have hul : 0 < u.length := by
      cases u with
      | nil => exact absurd (by simpa using hu) hne
      | cons _ _ => simp
    have hl := congrArg List.length hu
    have hl' := congrArg List.length he
    rw [List.length_append] at hl hl'
    obtain ⟨n, h0, _, h2⟩ := asked_short hq (k := c.rest.length) (by omega) hc (by
      rw [← hu, ← he, List.append_assoc, List.take_left])
    exact .inr ⟨n, h0, h2, fun h => absurd rfl h⟩
  | cons p ps =>
    have hp := hok p (by simp)
    rw [List.map_cons, List.flatten_cons, List.append_assoc] at he
    have hl' := congrArg List.length he
    rw [List.length_append, List.length_append] at hl'
    by_cases hw : (wire p).length ≤ c.rest.length
    · left
      have hr : c.rest = wire p ++ c.rest.drop (wire p).length := by
        have := congrArg (List.take (wire p).length) he
        rw [List.take_append_of_le_length hw, List.take_left] at this
        exact (List.take_append_drop (wire p).length c.rest).symm.trans (by rw [this])
      refine ⟨p, ps, rfl, ?_, ?_, ?_⟩
      · exact C16_tryRead hp.ok hp.blocks (serialize_wire hp.ok) c _ hc hr
      · simp only [Cur.rest, List.length_drop] at hw; omega
      · rw [Cur.rest_add hr]
        rw [hr, List.append_assoc] at he
        exact List.append_cancel_left he
    · obtain ⟨n, h0, h1, h2⟩ := asked_short hp (k := c.rest.length) (by omega) hc (by
        have := congrArg (List.take c.rest.length) he
        rw [List.take_left, List.take_append_of_le_length (by omega)] at this
        exact this)
      exact .inr ⟨n, h0, h2, fun _ => by omega⟩

theorem serves_back {ps : List (Packet O Q)} {t net : Bytes} (hok : ∀ p ∈ ps, Storable S p) (ht : Begun S Q t) {c : Cur} (hc : c.pos ≤ c.data.length)
    (he : c.rest ++ net = (ps.map wire).flatten ++ t) {l : List (Packet O Q)} {e : Ending} (h : Serves seekingBack c net l e) : l = ps ∧ e = .waits := by
  generalize hW : (seekingBack : Way O Q Cur) = W at h
  induction h generalizing ps with
  | @got c net p l e h1 _ ih =>
    subst hW
    rcases next_call hok ht hc he with ⟨q, ps', hps, hq, hc', he'⟩ | ⟨n, _, h2, _⟩
    · have h1 : (Packet.tryRead (O := O) Q c).1 = .ok (.success p) := h1
      rw [hq] at h1
      simp only [Out.ok.injEq, Status.success.injEq] at h1
      have hcall : ((seekingBack : Way O Q Cur).call c).2 = { c with pos := c.pos + (wire q).length } := by
        show (Packet.tryRead (O := O) Q c).2 = _
        rw [hq]
      obtain ⟨h3, h4⟩ := ih (ps := ps') (fun x hx => hok x (by rw [hps]; simp [hx])) (by rw [hcall]; exact hc') (by rw [hcall]; exact he')
      exact ⟨by rw [hps, h3, h1], h4⟩
    · have h1 : (Packet.tryRead (O := O) Q c).1 = .ok (.success p) := h1
      rcases h2 with h2 | ⟨_, h2⟩ <;> rw [h1] at h2 <;> simp at h2
  | @more c net n m l e h1 h2 h3 _ ih =>
    subst hW
    refine ih hok ?_ ?_
    · show c.pos ≤ (c.data ++ net.take m).length
      rw [List.length_append]; omega
    · show (c.data ++ net.take m).drop c.pos ++ net.drop m = _
      rw [List.drop_append_of_le_length hc, List.append_assoc, List.take_append_drop]
      exact he
  | @waits c net n h1 h2 =>
    subst hW
    refine ⟨?_, rfl⟩
    rcases next_call hok ht hc he with ⟨q, ps', hps, hq, _⟩ | ⟨n', _, h3, h4⟩
    · have h1 : Asked true (Packet.tryRead (O := O) Q c).1 n := h1
      rw [hq] at h1
      rcases h1 with h1 | ⟨_, h1⟩ <;> simp at h1
    · have := Asked.det h1 h3
      subst this
      cases ps with
      | nil => rfl
      | cons p ps => have := h4 (by simp); omega
  | @fails c net e h1 h2 =>
    subst hW
    rcases next_call hok ht hc he with ⟨q, ps', hps, hq, _⟩ | ⟨n', _, h3, h4⟩
    · have h1 : (Packet.tryRead (O := O) Q c).1 = .err e := h1
      rw [hq] at h1
      simp at h1
    · exact absurd h3 (h2 n')
  | @panics c net h1 =>
    subst hW
    have h1 : (Packet.tryRead (O := O) Q c).1 = .panic := h1
    rcases next_call hok ht hc he with ⟨q, ps', hps, hq, _⟩ | ⟨n', _, h3, h4⟩
    · rw [hq] at h1
      simp at h1
    · rcases h3 with h3 | ⟨_, h3⟩ <;> rw [h1] at h3 <;> simp at h3

theorem serves_exists : ∀ (k : Nat) {ps : List (Packet O Q)} {t net : Bytes}, (∀ p ∈ ps, Storable S p) → Begun S Q t → ∀ {c : Cur}, c.pos ≤ c.data.length →
    c.rest ++ net = (ps.map wire).flatten ++ t → ps.length + net.length ≤ k → ∃ l e, Serves (seekingBack : Way O Q Cur) c net l e
  | k, ps, t, net, hok, ht, c, hc, he, hk => by
    rcases next_call hok ht hc he with ⟨q, ps', hps, hq, hc', he'⟩ | ⟨n, h0, h3, _⟩
    · cases k with
      | zero => rw [hps] at hk; simp at hk
      | succ k =>
        obtain ⟨l, e, h⟩ := serves_exists k (ps := ps') (fun x hx => hok x (by rw [hps]; simp [hx])) ht hc' he' (by
          rw [hps, List.length_cons] at hk; omega)
        refine ⟨q :: l, e, .got (by show (Packet.tryRead (O := O) Q c).1 = _; rw [hq]) ?_⟩
        have hcall : ((seekingBack : Way O Q Cur).call c).2 = { c with pos := c.pos + (wire q).length } := by
          show (Packet.tryRead (O := O) Q c).2 = _
          rw [hq]
        rw [hcall]
        exact h
    · by_cases hn : n ≤ net.length
      · cases k with
        | zero => omega
        | succ k =>
          obtain ⟨l, e, h⟩ := serves_exists k (ps := ps) (net := net.drop n) (c := { c with data := c.data ++ net.take n }) hok ht (by
              simp only [List.length_append]; omega) (by
              show (c.data ++ net.take n).drop c.pos ++ net.drop n = _
              rw [List.drop_append_of_le_length hc, List.append_assoc, List.take_append_drop]
              exact he) (by rw [List.length_drop]; omega)
          exact ⟨l, e, .more h3 (Nat.le_refl n) hn h⟩
      · exact ⟨[], .waits, .waits h3 (by omega)⟩

/-- **C92 (partial).** A program that puts the source back to where it was, and takes `NotEnoughData` as an error for a shortage, too, gets every packet, however many bytes arrive at a time
beyond those it waits for; it never waits for a byte behind the packet. Missing: that the reader goes back itself (`C92_seeking_not`), and `TryReadFromBuffered`
(`C92_buffered_not`, `C92_bufferedBack_not`). -/
theorem C92_back_partial (S : BlockSpec O) (Q : PayloadOps) (chk : Bool) : (seekingBack : Way O Q Cur).Right S ⟨[], 0, chk⟩ := by
  intro ps t hok ht
  refine ⟨?_, fun l e h => ?_⟩
  · exact serves_exists _ hok ht (c := ⟨[], 0, chk⟩) (by simp) (by simp [Cur.rest]) (Nat.le_refl _)
  · exact serves_back hok ht (c := ⟨[], 0, chk⟩) (by simp) (by simp [Cur.rest]) h

/-- The hypotheses are met: a packet, and the first 40 bytes of another one. -/
example : (∀ p ∈ [samplePacket], Storable sampleSpec p) ∧ Begun sampleSpec (PEnum.ops []) ((wire samplePacket).take 40) := by
  have hs : Storable sampleSpec samplePacket := ⟨samplePacket_ok, by decide⟩
  refine ⟨?_, samplePacket, hs, List.take_prefix _ _, by decide +kernel⟩
  intro p hp
  rw [List.mem_singleton.mp hp]
  exact hs

/-! ## What does not hold -/

/-- How many bytes a call asks for. -/
def askOf {α : Type} : Out (Status α) → Option Nat
  | .ok (.notEnough n) => some n
  | _ => none

def errOf {α : Type} : Out α → Option Err
  | .err e => some e
  | _ => none

theorem askOf_eq {α : Type} {r : Out (Status α)} {n : Nat} (h : askOf r = some n) : r = .ok (.notEnough n) := by
  unfold askOf at h
  split at h
  · injection h with h; rw [h]
  · simp at h

theorem errOf_eq {α : Type} {r : Out α} {e : Err} (h : errOf r = some e) : r = .err e := by
  unfold errOf at h
  split at h
  · injection h with h; rw [h]
  · simp at h

/-- Twice the program waits for exactly as many bytes as it is told, then it fails. -/
theorem not_right {σ : Type} {W : Way (blockEnum sampleTypes) (PEnum.ops []) σ} {s0 s1 s2 : σ} (h0 : askOf (W.call s0).1 = some 29)
    (h1 : W.feed s0 (W.call s0).2 ((wire samplePacket).take 29) = s1) (h2 : askOf (W.call s1).1 = some 67)
    (h3 : W.feed s1 (W.call s1).2 (((wire samplePacket).drop 29).take 67) = s2) {e : Err} (h4 : errOf (W.call s2).1 = some e)
    (h5 : ∀ n, e ≠ .notEnoughData n) : ¬ W.Right sampleSpec s0 := by
  intro hR
  have hs : Storable sampleSpec samplePacket := ⟨samplePacket_ok, by decide⟩
  have hlen : (wire samplePacket).length = 125 := by decide +kernel
  obtain ⟨_, hr⟩ := hR [samplePacket] [] (by intro p hp; rw [List.mem_singleton.mp hp]; exact hs)
    ⟨samplePacket, hs, List.nil_prefix, by intro h; rw [← h] at hlen; simp at hlen⟩
  simp only [List.map_cons, List.map_nil, List.flatten_cons, List.flatten_nil, List.append_nil] at hr
  have run : Serves W s0 (wire samplePacket) [] (.fails e) := by
    refine .more (.inl (askOf_eq h0)) (Nat.le_refl _) (by omega) ?_
    rw [h1]
    refine .more (.inl (askOf_eq h2)) (Nat.le_refl _) (by rw [List.length_drop]; omega) ?_
    rw [h3]
    refine .fails (errOf_eq h4) ?_
    rintro n (h | ⟨_, h⟩)
    · rw [errOf_eq h4] at h
      injection h
    · rw [errOf_eq h4] at h
      injection h with h
      exact h5 n h
  exact absurd (hr _ _ run).1 (by simp)

/-- **C92 is false of `TryReadFrom`**: told that 67 bytes are missing, with the 29 bytes of the header there, the program gets them and calls again, but the source is behind the
header now: the signature is not found. -/
theorem C92_seeking_not (chk : Bool) : ¬ (seeking : Way (blockEnum sampleTypes) (PEnum.ops []) Cur).Right sampleSpec ⟨[], 0, chk⟩ := by
  cases chk
  · exact not_right (s1 := ⟨(wire samplePacket).take 29, 0, false⟩) (s2 := ⟨(wire samplePacket).take 96, 29, false⟩) (e := .sigDismatch) (by decide +kernel)
      (by decide +kernel) (by decide +kernel) (by decide +kernel) (by decide +kernel) (by simp)
  · exact not_right (s1 := ⟨(wire samplePacket).take 29, 0, true⟩) (s2 := ⟨(wire samplePacket).take 96, 29, true⟩) (e := .sigDismatch) (by decide +kernel)
      (by decide +kernel) (by decide +kernel) (by decide +kernel) (by decide +kernel) (by simp)

/-- **C92 is false of `TryReadFromBuffered`**: once as many bytes are there as the header announces, without those of the header itself, the reader goes on and runs out of bytes
in a block; this is an I/O error. -/
theorem C92_buffered_not : ¬ (buffered : Way (blockEnum sampleTypes) (PEnum.ops []) Bytes).Right sampleSpec [] :=
  not_right (s1 := (wire samplePacket).take 29) (s2 := (wire samplePacket).take 96) (e := .io) (by decide +kernel)
    (by decide +kernel) (by decide +kernel) (by decide +kernel) (by decide +kernel) (by simp)

/-- The same if the program keeps the bytes itself. -/
theorem C92_bufferedBack_not : ¬ (bufferedBack : Way (blockEnum sampleTypes) (PEnum.ops []) Bytes).Right sampleSpec [] :=
  not_right (s1 := (wire samplePacket).take 29) (s2 := (wire samplePacket).take 96) (e := .io) (by decide +kernel)
    (by decide +kernel) (by decide +kernel) (by decide +kernel) (by decide +kernel) (by simp)

theorem C92_not : ¬ C92_full sampleSpec (PEnum.ops []) := fun h => C92_seeking_not true (h.1 true)

end Brec.Props
