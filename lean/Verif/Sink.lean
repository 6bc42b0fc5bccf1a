import Verif.Io
/-!
# Byte sinks and vectored writing

`std::io::Write` sinks driven by an arbitrary schedule of answers, and
`/repo/brec/src/traits/write/slices.rs`.
-/

namespace Brec

/-- How a sink answers one `write`/`write_vectored` call: it takes at most `n` bytes, is interrupted, or fails. -/
inductive Resp
  | accept (n : Nat)
  | interrupted
  | fail
  deriving DecidableEq, Repr

/-- A sink: the answers to the coming calls (after the last one everything is accepted) and all bytes
taken so far. `Vec<u8>` is the sink with no answers listed. -/
structure Sink where
  sched : List Resp
  got : Bytes
  deriving DecidableEq, Repr

/-- A computation that writes to a sink. -/
structure W (α : Type) where
  run : Sink → Out α × Sink

namespace W

instance : Monad W where
  pure a := ⟨fun s => (.ok a, s)⟩
  bind x f := ⟨fun s =>
    match x.run s with
    | (.ok a, s') => (f a).run s'
    | (.err e, s') => (.err e, s')
    | (.panic, s') => (.panic, s')⟩

/-- A pure computation that may fail. -/
def lift {α} (o : Out α) : W α := ⟨fun s => (o, s)⟩

@[simp] theorem pure_run {α} (a : α) (s : Sink) : (Pure.pure a : W α).run s = (.ok a, s) := rfl
@[simp] theorem lift_run {α} (o : Out α) (s : Sink) : (lift o : W α).run s = (o, s) := rfl

theorem bind_run {α β} (x : W α) (f : α → W β) (s : Sink) :
    (x >>= f).run s = match x.run s with
      | (.ok a, s') => (f a).run s'
      | (.err e, s') => (.err e, s')
      | (.panic, s') => (.panic, s') := rfl

theorem bind_ok {α β} {x : W α} {f : α → W β} {s s' : Sink} {a : α} (h : x.run s = (.ok a, s')) :
    (x >>= f).run s = (f a).run s' := by rw [bind_run, h]

theorem bind_eq_ok {α β} {x : W α} {f : α → W β} {s s' : Sink} {b : β}
    (h : (x >>= f).run s = (.ok b, s')) :
    ∃ a t, x.run s = (.ok a, t) ∧ (f a).run t = (.ok b, s') := by
  rw [bind_run] at h
  match hx : x.run s with
  | (.ok a, t) => rw [hx] at h; exact ⟨a, t, rfl, h⟩
  | (.err e, t) => rw [hx] at h; cases h
  | (.panic, t) => rw [hx] at h; cases h

end W

namespace Sink

/-- `Write::write(buf)`. -/
def writeRaw (b : Bytes) : Sink → Out Nat × Sink
  | ⟨[], got⟩ => (.ok b.length, ⟨[], got ++ b⟩)
  | ⟨.accept n :: rs, got⟩ => (.ok (min n b.length), ⟨rs, got ++ b.take n⟩)
  | ⟨.interrupted :: rs, got⟩ => (.err .io, ⟨rs, got⟩)
  | ⟨.fail :: rs, got⟩ => (.err .io, ⟨rs, got⟩)

def write (b : Bytes) : W Nat := ⟨writeRaw b⟩

/-- The loop of `Write::write_all` of std: retries on `Interrupted`, fails with `WriteZero` on `Ok(0)`. -/
def writeAllAux : List Resp → Bytes → Bytes → Out Unit × Sink
  | [], b, got => (.ok (), ⟨[], got ++ b⟩)
  | r :: rs, b, got =>
    if b = [] then (.ok (), ⟨r :: rs, got⟩)
    else match r with
      | .accept n =>
        if n = 0 then (.err .io, ⟨rs, got⟩) else writeAllAux rs (b.drop n) (got ++ b.take n)
      | .interrupted => writeAllAux rs b got
      | .fail => (.err .io, ⟨rs, got⟩)

/-- `Write::write_all(buf)`. -/
def writeAll (b : Bytes) : W Unit := ⟨fun s => writeAllAux s.sched b s.got⟩

end Sink

/-! ## `IoSlices::write_vectored_all` -/

/-- The slices still to be written when `written` bytes are done
(`/repo/brec/src/traits/write/slices.rs:81-99`); `offset` is the running `offset`. -/
def inWork (written : Nat) : (offset : Nat) → List Bytes → List Bytes
  | _, [] => []
  | offset, s :: ss =>
    let start := offset
    let stop := offset + s.length
    if written ≥ stop then inWork written stop ss
    else if written ≤ start then s :: inWork written stop ss
    else s.drop (written - start) :: inWork written stop ss

/-- The loop of `write_vectored_all` (`slices.rs:78-114`). A `write_vectored` call takes a prefix of the
concatenation of the slices it is given (contract of `std::io::Write::write_vectored`); its errors
(also `Interrupted`) are returned. The recursion is over the answers of the sink: when they
are used up the next call accepts everything. -/
def writeVectoredAllAux (src : List Bytes) : List Resp → (written : Nat) → (got : Bytes) → Out Unit × Sink
  | [], written, got => (.ok (), ⟨[], got ++ (inWork written 0 src).flatten⟩)
  | r :: rs, written, got =>
    if inWork written 0 src = [] then (.ok (), ⟨r :: rs, got⟩)
    else match r with
      | .accept n =>
        let taken := (inWork written 0 src).flatten.take n
        if taken.length = 0 then (.err .io, ⟨rs, got ++ taken⟩)
        else writeVectoredAllAux src rs (written + taken.length) (got ++ taken)
      | .interrupted => (.err .io, ⟨rs, got⟩)
      | .fail => (.err .io, ⟨rs, got⟩)

/-- `IoSlices::write_vectored_all` (`slices.rs:74-115`). -/
def writeVectoredAll (src : List Bytes) : W Unit := ⟨fun s => writeVectoredAllAux src s.sched 0 s.got⟩

/-! ## Lemmas -/

namespace Sink

theorem writeAllAux_ok {rs : List Resp} {b got : Bytes} {u : Unit} {s' : Sink}
    (h : writeAllAux rs b got = (.ok u, s')) : s'.got = got ++ b := by
  induction rs generalizing b got with
  | nil => simp only [writeAllAux] at h; injection h with _ h; rw [← h]
  | cons r rs ih =>
    rw [writeAllAux.eq_def] at h
    simp only at h
    split at h
    · rename_i hb; injection h with _ h; rw [← h, hb]; simp
    · cases r with
      | accept n =>
        simp only at h
        split at h
        · cases h
        · rw [ih h]; simp [List.append_assoc]
      | interrupted => exact ih h
      | fail => cases h

theorem writeAllAux_prefix (rs : List Resp) (b got : Bytes) :
    ∃ k, (writeAllAux rs b got).2.got = got ++ b.take k := by
  induction rs generalizing b got with
  | nil => exact ⟨b.length, by simp [writeAllAux]⟩
  | cons r rs ih =>
    rw [writeAllAux.eq_def]
    simp only
    split
    · exact ⟨0, by simp⟩
    · cases r with
      | accept n =>
        simp only
        split
        · exact ⟨0, by simp⟩
        · obtain ⟨k, hk⟩ := ih (b.drop n) (got ++ b.take n)
          refine ⟨n + k, ?_⟩
          rw [hk, List.append_assoc, List.take_add]
      | interrupted => exact ih b got
      | fail => exact ⟨0, by simp⟩

theorem writeAll_ok {b : Bytes} {s s' : Sink} {u : Unit} (h : (writeAll b).run s = (.ok u, s')) :
    s'.got = s.got ++ b := writeAllAux_ok h

theorem writeAll_unlimited (b got : Bytes) : (writeAll b).run ⟨[], got⟩ = (.ok (), ⟨[], got ++ b⟩) := rfl

theorem write_unlimited (b got : Bytes) : (write b).run ⟨[], got⟩ = (.ok b.length, ⟨[], got ++ b⟩) := rfl

theorem write_ok {b : Bytes} {s s' : Sink} {n : Nat} (h : (write b).run s = (.ok n, s')) :
    n ≤ b.length ∧ s'.got = s.got ++ b.take n := by
  obtain ⟨sched, got⟩ := s
  change writeRaw b _ = _ at h
  match sched, h with
  | [], h => simp only [writeRaw, Prod.mk.injEq, Out.ok.injEq] at h; obtain ⟨rfl, rfl⟩ := h; simp
  | .accept m :: rs, h =>
    simp only [writeRaw, Prod.mk.injEq, Out.ok.injEq] at h
    obtain ⟨rfl, rfl⟩ := h
    refine ⟨Nat.min_le_right .., ?_⟩
    rcases Nat.le_total m b.length with h | h
    · simp [Nat.min_eq_left h]
    · simp [Nat.min_eq_right h, List.take_of_length_le h]
  | .interrupted :: rs, h => simp [writeRaw] at h
  | .fail :: rs, h => simp [writeRaw] at h

end Sink

theorem inWork_flatten (written offset : Nat) (src : List Bytes) :
    (inWork written offset src).flatten = src.flatten.drop (written - offset) := by
  induction src generalizing offset with
  | nil => simp [inWork]
  | cons s ss ih =>
    simp only [inWork]
    split
    · rename_i h
      rw [ih, List.flatten_cons, List.drop_append,
        List.drop_eq_nil_of_le (by omega : s.length ≤ written - offset), List.nil_append]
      congr 1; omega
    · rename_i h
      split
      · rename_i h2
        rw [List.flatten_cons, ih, List.flatten_cons]
        rw [show written - offset = 0 by omega, show written - (offset + s.length) = 0 by omega]
        rfl
      · rename_i h2
        rw [List.flatten_cons, ih, List.flatten_cons, List.drop_append_of_le_length (by omega),
          show written - (offset + s.length) = 0 by omega]
        rfl

theorem inWork_nil_of_le {written offset : Nat} {src : List Bytes} (h : offset + src.flatten.length ≤ written) :
    inWork written offset src = [] := by
  induction src generalizing offset with
  | nil => rfl
  | cons s ss ih =>
    simp only [List.flatten_cons, List.length_append] at h
    simp only [inWork]
    rw [if_pos (by omega)]
    exact ih (by omega)

theorem inWork_eq_nil {written : Nat} {src : List Bytes} :
    inWork written 0 src = [] ↔ src.flatten.length ≤ written := by
  have h := inWork_flatten written 0 src
  constructor
  · intro e
    rw [e] at h
    have := congrArg List.length h
    simp only [List.flatten_nil, List.length_nil, Nat.sub_zero, List.length_drop] at this
    omega
  · intro hl; exact inWork_nil_of_le (by omega)

end Brec
