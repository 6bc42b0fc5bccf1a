import Verif.View
import Verif.Props.Block
/-!
# Property C81: a view is not used after its bytes are gone

A zero-copy view is safe to use as long as the buffer it was read from is as it was. Whether safe code can use it longer is decided by the lifetimes in the signature of
`read_from_slice`.
-/

namespace Brec.Props

open Brec

/-! ## Specification -/

/-- Suppose rustc accepts a call of `read_from_slice` for a view of lifetime `a` on a buffer borrowed for `l` exactly if `R a l`. Then this is safe if what the view
shows never changes as long as it can be used. -/
def Sound (R : Life → Life → Prop) (b : BlockTy) : Prop :=
  ∀ (m : Nat → Mem) (p : Span) (skip : Bool) (a l : Life) (t0 : Nat) (w : BlockView b.fields), R a l → l.live t0 → Borrowed m p.buf t0 l → b.view (m t0) p skip = .ok w →
    ∀ t, t0 ≤ t → a.live t → w.into (m t) = w.into (m t0)

/-- The claim of C81. -/
def C81_full : Prop := ∀ b : BlockTy, b.WF → Sound sliceCall b

/-! ## A view shows what `Verif.Block` says -/

theorem hold_load {m : Mem} {p : Span} {buf : Bytes} (hp : p.load m = some buf) {off : Nat} {t : FTy} {s : Bytes} (hs : cut buf off (off + t.size) = .ok s) :
    (t.hold p off s).map (t.load m) = (t.ofSlice s).map some := by
  cases t with
  | num n => rfl
  | bool => rfl
  | linked e =>
    simp only [FTy.hold, FTy.ofSlice]
    cases e.decode (byteOf s) <;> rfl
  | blob n =>
    simp only [FTy.hold, FTy.ofSlice, FTy.size] at *
    unfold cut at hs
    split at hs
    · rename_i hle
      cases hs
      unfold Span.load at hp
      split at hp
      · cases hp
      · rename_i x hx
        split at hp
        · rename_i hx2
          obtain rfl := Option.some.inj hp
          simp only [slice, List.length_take, List.length_drop] at hle
          have e : slice x (p.off + off) n = slice (slice x p.off p.len) off (off + n - off) := by
            simp only [slice, List.drop_take, List.drop_drop, List.take_take]
            congr 1
            omega
          have hl : (slice (slice x p.off p.len) off (off + n - off)).length = n := by
            simp only [slice, List.length_take, List.length_drop]
            omega
          simp only [toArr, dif_pos hl, Out.map_ok, FTy.load, Ptr.load, Span.load, hx]
          rw [if_pos (by omega), e]
          simp only [Option.bind_some, dif_pos hl]
        · cases hp
    · cases hs

theorem holds_load {m : Mem} {p : Span} {buf : Bytes} (hp : p.load m = some buf) : ∀ (ts : List FTy) (off : Nat),
    (Helds.ofSlice p ts buf off).map (fun r => (Helds.load m ts r.1, r.2)) = (Vals.ofSlice ts buf off).map fun r => (some r.1, r.2)
  | [], off => rfl
  | t :: ts, off => by
    simp only [Helds.ofSlice, Vals.ofSlice]
    cases hs : cut buf off (off + t.size) with
    | err e => rfl
    | panic => rfl
    | ok s =>
      simp only [Out.bind_ok]
      have h1 := hold_load hp hs
      have h2 := holds_load hp ts (off + t.size)
      cases hh : t.hold p off s with
      | err e => rw [hh] at h1; cases ho : t.ofSlice s <;> rw [ho] at h1 <;> simp_all
      | panic => rw [hh] at h1; cases ho : t.ofSlice s <;> rw [ho] at h1 <;> simp_all
      | ok v =>
        rw [hh] at h1
        cases ho : t.ofSlice s with
        | err e => rw [ho] at h1; cases h1
        | panic => rw [ho] at h1; cases h1
        | ok u =>
          rw [ho] at h1
          simp only [Out.map_ok, Out.ok.injEq] at h1
          simp only [Out.bind_ok]
          cases hv : Helds.ofSlice p ts buf (off + t.size) with
          | err e => rw [hv] at h2; cases hw : Vals.ofSlice ts buf (off + t.size) <;> rw [hw] at h2 <;> simp_all
          | panic => rw [hv] at h2; cases hw : Vals.ofSlice ts buf (off + t.size) <;> rw [hw] at h2 <;> simp_all
          | ok r =>
            rw [hv] at h2
            cases hw : Vals.ofSlice ts buf (off + t.size) with
            | err e => rw [hw] at h2; cases h2
            | panic => rw [hw] at h2; cases h2
            | ok q =>
              rw [hw] at h2
              simp only [Out.map_ok, Out.ok.injEq, Prod.mk.injEq] at h2
              simp only [Out.map_ok, Helds.load, h1, h2.1, h2.2]

/-- A part of a slice, by a pointer of its own. -/
theorem part_load {m : Mem} {p : Span} {buf : Bytes} (hp : p.load m = some buf) {off n : Nat} {s : Bytes} (hs : cut buf off (off + n) = .ok s) :
    (Ptr.span ⟨p.buf, p.off + off, n⟩).load m = some s := by
  have h := hold_load (t := .blob n) hp (show cut buf off (off + (FTy.blob n).size) = .ok s from hs)
  have hl : s.length = n := by
    unfold cut at hs
    split at hs
    · cases hs
      simp only [slice, List.length_take, List.length_drop]
      omega
    · cases hs
  simp only [FTy.hold, FTy.ofSlice, toArr, dif_pos hl, Out.map_ok, FTy.load, Out.ok.injEq] at h
  cases hx : (Ptr.span ⟨p.buf, p.off + off, n⟩).load m with
  | none => rw [hx] at h; cases h
  | some x =>
    rw [hx] at h
    simp only [Option.bind_some] at h
    split at h
    · cases h; rfl
    · cases h

/-- At the moment it is read, a view shows what the model of `Verif.Block` says. -/
theorem view_load (b : BlockTy) {m : Mem} {p : Span} {buf : Bytes} (hp : p.load m = some buf) (skip : Bool) :
    (b.view m p skip).map (BlockView.load m) = (b.readSlice buf skip).map some := by
  unfold BlockTy.view BlockTy.readSlice
  rw [hp]
  simp only
  split
  · rfl
  split
  · rfl
  by_cases hq : buf.length < if skip = true then b.ssize - 4 else b.ssize
  · rw [if_pos hq, if_pos hq]
    rfl
  rw [if_neg hq, if_neg hq]
  have hh := holds_load hp b.fields 4
  have key : ∀ (sp : Ptr) (sig : Bytes), sp.load m = some sig →
      (((Helds.ofSlice p b.fields buf 4).bind fun r => (cut buf r.2 (r.2 + 4)).bind fun crc =>
        match Helds.load m b.fields r.1 with
        | none => .panic
        | some v => if b.crc v ≠ crc then .err .crcDismatch else .ok (⟨sp, r.1, .span ⟨p.buf, p.off + r.2, 4⟩⟩ : BlockView b.fields)).map (BlockView.load m)) =
      ((Vals.ofSlice b.fields buf 4).bind fun r => (cut buf r.2 (r.2 + 4)).bind fun crc =>
        if b.crc r.1 ≠ crc then .err .crcDismatch else .ok (⟨sig, r.1, crc⟩ : Referred b.fields)).map some := by
    intro sp sig hsp
    cases hv : Helds.ofSlice p b.fields buf 4 with
    | err e => rw [hv] at hh; cases hw : Vals.ofSlice b.fields buf 4 <;> rw [hw] at hh <;> simp_all
    | panic => rw [hv] at hh; cases hw : Vals.ofSlice b.fields buf 4 <;> rw [hw] at hh <;> simp_all
    | ok r =>
      rw [hv] at hh
      cases hw : Vals.ofSlice b.fields buf 4 with
      | err e => rw [hw] at hh; cases hh
      | panic => rw [hw] at hh; cases hh
      | ok q =>
        rw [hw] at hh
        simp only [Out.map_ok, Out.ok.injEq, Prod.mk.injEq] at hh
        simp only [Out.bind_ok, hh.1, hh.2]
        cases hc : cut buf q.2 (q.2 + 4) with
        | err e => rfl
        | panic => rfl
        | ok crc =>
          simp only [Out.bind_ok]
          split
          · rfl
          · simp only [Out.map_ok, BlockView.load, hsp, hh.1, part_load hp hc]
  cases skip with
  | true => exact key _ _ rfl
  | false =>
    simp only [Bool.false_eq_true, if_false]
    cases hc : cut buf 0 4 with
    | err e => rfl
    | panic => rfl
    | ok sig => exact key _ _ (part_load (off := 0) hp hc)

/-! ## What a view depends on -/

theorem hold_same {p : Span} {off : Nat} {t : FTy} {s : Bytes} {v : t.Held} (h : t.hold p off s = .ok v) {m m' : Mem} (hm : m' p.buf = m p.buf) : t.load m' v = t.load m v := by
  cases t with
  | num n => rfl
  | bool => rfl
  | linked e => rfl
  | blob n =>
    simp only [FTy.hold] at h
    cases ha : toArr n s with
    | err e => rw [ha] at h; cases h
    | panic => rw [ha] at h; cases h
    | ok a =>
      rw [ha] at h
      cases h
      simp only [FTy.load, Ptr.load, Span.load, hm]

theorem holds_same {p : Span} {buf : Bytes} {m m' : Mem} (hm : m' p.buf = m p.buf) : ∀ {ts : List FTy} {off : Nat} {r : Helds ts × Nat}, Helds.ofSlice p ts buf off = .ok r →
    Helds.load m' ts r.1 = Helds.load m ts r.1
  | [], off, r, h => rfl
  | t :: ts, off, r, h => by
    simp only [Helds.ofSlice] at h
    cases hs : cut buf off (off + t.size) with
    | err e => rw [hs] at h; cases h
    | panic => rw [hs] at h; cases h
    | ok s =>
      rw [hs] at h
      simp only [Out.bind_ok] at h
      cases hh : t.hold p off s with
      | err e => rw [hh] at h; cases h
      | panic => rw [hh] at h; cases h
      | ok v =>
        rw [hh] at h
        simp only [Out.bind_ok] at h
        cases hv : Helds.ofSlice p ts buf (off + t.size) with
        | err e => rw [hv] at h; cases h
        | panic => rw [hv] at h; cases h
        | ok q =>
          rw [hv] at h
          cases h
          simp only [Helds.load, hold_same hh hm, holds_same hm hv]

/-- Nothing is left of a blob when the buffer is gone. -/
theorem holds_gone {p : Span} {buf : Bytes} {m : Mem} (hm : m p.buf = none) : ∀ {ts : List FTy} {off : Nat} {r : Helds ts × Nat}, Helds.ofSlice p ts buf off = .ok r →
    (∃ n, .blob n ∈ ts) → Helds.load m ts r.1 = none
  | [], off, r, h, ⟨n, hn⟩ => by cases hn
  | t :: ts, off, r, h, ⟨n, hn⟩ => by
    simp only [Helds.ofSlice] at h
    cases hs : cut buf off (off + t.size) with
    | err e => rw [hs] at h; cases h
    | panic => rw [hs] at h; cases h
    | ok s =>
      rw [hs] at h
      simp only [Out.bind_ok] at h
      cases hh : t.hold p off s with
      | err e => rw [hh] at h; cases h
      | panic => rw [hh] at h; cases h
      | ok v =>
        rw [hh] at h
        simp only [Out.bind_ok] at h
        cases hv : Helds.ofSlice p ts buf (off + t.size) with
        | err e => rw [hv] at h; cases h
        | panic => rw [hv] at h; cases h
        | ok q =>
          rw [hv] at h
          cases h
          rcases List.mem_cons.mp hn with rfl | hn
          · have : FTy.load m (.blob n) v = none := by
              simp only [FTy.hold] at hh
              cases ha : toArr n s with
              | err e => rw [ha] at hh; cases hh
              | panic => rw [ha] at hh; cases hh
              | ok a =>
                rw [ha] at hh
                cases hh
                simp only [FTy.load, Ptr.load, Span.load, hm, Option.bind_none]
            simp only [Helds.load, this]
          · simp only [Helds.load, holds_gone hm hv ⟨n, hn⟩]
            cases FTy.load m t v <;> rfl

/-- Without blobs there is nothing to look up. -/
theorem load_plain : ∀ {ts : List FTy} (_ : ∀ n, .blob n ∉ ts) (h : Helds ts) (m m' : Mem), Helds.load m ts h = Helds.load m' ts h
  | [], _, _, _, _ => rfl
  | t :: ts, hn, (v, vs), m, m' => by
    have h1 : t.load m v = t.load m' v := by
      cases t with
      | blob n => exact absurd List.mem_cons_self (hn n)
      | _ => rfl
    simp only [Helds.load, h1, load_plain (fun n hm => hn n (List.mem_cons_of_mem _ hm)) vs m m']

/-- The parts of a view that was read. -/
theorem view_parts {b : BlockTy} {m : Mem} {p : Span} {skip : Bool} {w : BlockView b.fields} (h : b.view m p skip = .ok w) :
    ∃ buf o, p.load m = some buf ∧ Helds.ofSlice p b.fields buf 4 = .ok (w.held, o) ∧ (w.sig = .static b.sig ∨ w.sig = .span ⟨p.buf, p.off, 4⟩) ∧
      w.crc = .span ⟨p.buf, p.off + o, 4⟩ := by
  unfold BlockTy.view at h
  cases hp : p.load m with
  | none => rw [hp] at h; cases h
  | some buf =>
    rw [hp] at h
    simp only at h
    split at h
    · cases h
    split at h
    · cases h
    by_cases hq : buf.length < if skip = true then b.ssize - 4 else b.ssize
    · rw [if_pos hq] at h
      cases h
    rw [if_neg hq] at h
    have key : ∀ sp : Ptr, (sp = .static b.sig ∨ sp = .span ⟨p.buf, p.off, 4⟩) →
        ((Helds.ofSlice p b.fields buf 4).bind fun r => (cut buf r.2 (r.2 + 4)).bind fun crc =>
          match Helds.load m b.fields r.1 with
          | none => .panic
          | some v => if b.crc v ≠ crc then .err .crcDismatch else .ok (⟨sp, r.1, .span ⟨p.buf, p.off + r.2, 4⟩⟩ : BlockView b.fields)) = .ok w →
        ∃ buf' o, some buf = some buf' ∧ Helds.ofSlice p b.fields buf' 4 = .ok (w.held, o) ∧ (w.sig = .static b.sig ∨ w.sig = .span ⟨p.buf, p.off, 4⟩) ∧
          w.crc = .span ⟨p.buf, p.off + o, 4⟩ := by
      intro sp hsp h
      cases hv : Helds.ofSlice p b.fields buf 4 with
      | err e => rw [hv] at h; cases h
      | panic => rw [hv] at h; cases h
      | ok r =>
        rw [hv] at h
        simp only [Out.bind_ok] at h
        cases hc : cut buf r.2 (r.2 + 4) with
        | err e => rw [hc] at h; cases h
        | panic => rw [hc] at h; cases h
        | ok crc =>
          rw [hc] at h
          simp only [Out.bind_ok] at h
          split at h
          · cases h
          · split at h
            · cases h
            · cases h
              exact ⟨buf, r.2, rfl, hv, hsp, rfl⟩
    cases skip with
    | true => exact key _ (.inl rfl) h
    | false =>
      simp only [Bool.false_eq_true, if_false] at h
      cases hc : cut buf 0 4 with
      | err e => rw [hc] at h; cases h
      | panic => rw [hc] at h; cases h
      | ok sig =>
        rw [hc] at h
        exact key _ (.inr rfl) h

/-! ## The property -/

/-- **C81 (partial), first part.** As long as the buffer is borrowed, a view shows at every moment what it showed when it was read, and that is what `read_from_slice` found
in the buffer (C02). In particular this holds while a rule runs that is given the view. -/
theorem C81_borrowed_partial (b : BlockTy) (m : Nat → Mem) (p : Span) (skip : Bool) (l : Life) (t0 : Nat) (w : BlockView b.fields) (hb : Borrowed m p.buf t0 l)
    (h : b.view (m t0) p skip = .ok w) (t : Nat) (ht : t0 ≤ t) (hl : l.live t) :
    ∃ buf r, p.load (m t0) = some buf ∧ b.readSlice buf skip = .ok r ∧ w.load (m t) = some r ∧ w.into (m t) = some r.into := by
  obtain ⟨buf, o, hp, hf, hs, hc⟩ := view_parts h
  have hm := hb t ht hl
  have hv := view_load b hp skip
  rw [h] at hv
  have same : ∀ q : Ptr, (q = .static b.sig ∨ ∃ off, q = .span ⟨p.buf, off, 4⟩) → q.load (m t) = q.load (m t0) := by
    rintro q (rfl | ⟨off, rfl⟩)
    · rfl
    · simp only [Ptr.load, Span.load, hm]
  have hl2 : w.load (m t) = w.load (m t0) := by
    unfold BlockView.load
    rw [same w.sig (hs.imp id fun h => ⟨_, h⟩), same w.crc (.inr ⟨_, hc⟩), holds_same hm hf]
  cases hr : b.readSlice buf skip with
  | err e => rw [hr] at hv; cases hv
  | panic => rw [hr] at hv; cases hv
  | ok r =>
    rw [hr] at hv
    simp only [Out.map_ok, Out.ok.injEq] at hv
    refine ⟨buf, r, hp, hr, hl2.trans hv, ?_⟩
    rw [← hl2] at hv
    unfold BlockView.load at hv
    split at hv
    · rename_i h1 h2 h3
      cases hv
      exact h2
    · cases hv

/-- **C81 (partial), second part.** A block without blobs is copied: whatever the lifetimes are, and whatever becomes of the buffer, the view can be turned into the block. -/
theorem C81_copied_partial (b : BlockTy) (hn : ∀ n, .blob n ∉ b.fields) (R : Life → Life → Prop) : Sound R b :=
  fun m _ _ _ _ t0 w _ _ _ _ t _ _ => load_plain hn w.held (m t) (m t0)

/-- **C81, exactly.** For a block with a blob, a signature is safe if and only if the view may not be used longer than the buffer is borrowed. -/
theorem C81_exact (b : BlockTy) (wf : b.WF) (v : Vals b.fields) (hb : ∃ n, .blob n ∈ b.fields) (R : Life → Life → Prop) :
    Sound R b ↔ ∀ a l, R a l → l.live 0 → l.outlives a := by
  constructor
  · intro hs a l hr h0 t ha
    refine Classical.byContradiction fun hl => ?_
    have ht : ∀ t', ¬ l.live t → t ≤ t' → ¬ l.live t' := by
      intro t' h hle h'
      cases l with
      | none => exact h trivial
      | some e => exact h (Nat.lt_of_le_of_lt hle h')
    let m : Nat → Mem := fun t' _ => if t' < t then some (b.bytes v) else none
    have h0t : 0 < t := by
      rcases Nat.eq_zero_or_pos t with rfl | h
      · exact absurd h0 hl
      · exact h
    have hp : (⟨0, 0, (b.bytes v).length⟩ : Span).load (m 0) = some (b.bytes v) := by
      simp [Span.load, m, h0t, slice]
    have hv := view_load b hp false
    have hrs := BlockTy.readSlice_bytes wf v []
    rw [List.append_nil] at hrs
    rw [hrs] at hv
    cases hw : b.view (m 0) ⟨0, 0, (b.bytes v).length⟩ false with
    | err e => rw [hw] at hv; cases hv
    | panic => rw [hw] at hv; cases hv
    | ok w =>
      rw [hw] at hv
      have hbor : Borrowed m 0 0 l := by
        intro t' _ hlt
        have : t' < t := Nat.lt_of_not_le fun hle => ht t' hl hle hlt
        simp only [m, if_pos this, if_pos h0t]
      have e := hs m ⟨0, 0, (b.bytes v).length⟩ false a l 0 w hr h0 hbor hw t (Nat.zero_le _) ha
      obtain ⟨buf, o, _, hf, _, _⟩ := view_parts hw
      rw [BlockView.into, holds_gone (m := m t) (by simp [m]) hf hb] at e
      obtain ⟨_, r, _, _, _, e2⟩ := C81_borrowed_partial b m _ false l 0 w hbor hw 0 (Nat.le_refl _) h0
      rw [← e] at e2
      cases e2
  · intro h m p skip a l t0 w hr h0 hbor hw t ht ha
    have hl : l.live t := h a l hr (by cases l with | none => trivial | some e => exact Nat.lt_of_le_of_lt (Nat.zero_le _) h0) t ha
    obtain ⟨_, r, h1, h2, _, e⟩ := C81_borrowed_partial b m p skip l t0 w hbor hw t ht hl
    obtain ⟨_, r', h1', h2', _, e'⟩ := C81_borrowed_partial b m p skip l t0 w hbor hw t0 (Nat.le_refl _) h0
    rw [h1] at h1'
    cases h1'
    rw [h2] at h2'
    cases h2'
    rw [e, e']

/-- **C81, repaired.** With a signature that gives the view the lifetime of the slice (`fn read_from_slice(buf: &'a [u8], _)` for `X<'a>`) all blocks are safe. -/
theorem C81_repaired (b : BlockTy) : Sound Eq b := by
  rintro m p skip a l t0 w rfl h0 hbor hw t ht ha
  obtain ⟨_, r, h1, h2, _, e⟩ := C81_borrowed_partial b m p skip a t0 w hbor hw t ht ha
  obtain ⟨_, r', h1', h2', _, e'⟩ := C81_borrowed_partial b m p skip a t0 w hbor hw t0 (Nat.le_refl _) h0
  rw [h1] at h1'
  cases h1'
  rw [h2] at h2'
  cases h2'
  rw [e, e']

/-- **C81, dangling views.** For every block with a blob: a buffer with this block is borrowed until `e` and then freed, as the buffer of a packet is when `Packet::filtered`
returns. The view has the lifetime `'static`; the call is accepted. At every later moment safe code can still use the view, and finds its memory gone. -/
theorem C81_dangling (b : BlockTy) (wf : b.WF) (v : Vals b.fields) (hb : ∃ n, .blob n ∈ b.fields) (e : Nat) (he : 0 < e) :
    ∃ (m : Nat → Mem) (p : Span) (w : BlockView b.fields), sliceCall none (some e) ∧ Borrowed m p.buf 0 (some e) ∧ b.view (m 0) p false = .ok w ∧ w.into (m 0) = some v ∧
      ∀ t, e ≤ t → Life.live none t ∧ w.into (m t) = none := by
  let m : Nat → Mem := fun t' _ => if t' < e then some (b.bytes v) else none
  have hp : (⟨0, 0, (b.bytes v).length⟩ : Span).load (m 0) = some (b.bytes v) := by simp [Span.load, m, he, slice]
  have hv := view_load b hp false
  have hrs := BlockTy.readSlice_bytes wf v []
  rw [List.append_nil] at hrs
  rw [hrs] at hv
  cases hw : b.view (m 0) ⟨0, 0, (b.bytes v).length⟩ false with
  | err e => rw [hw] at hv; cases hv
  | panic => rw [hw] at hv; cases hv
  | ok w =>
    have hbor : Borrowed m 0 0 (some e) := by
      intro t' _ hlt
      have : t' < e := hlt
      simp only [m, if_pos this, if_pos he]
    refine ⟨m, _, w, fun _ _ => trivial, hbor, hw, ?_, fun t ht => ⟨trivial, ?_⟩⟩
    · obtain ⟨_, r, h1, h2, _, e2⟩ := C81_borrowed_partial b m _ false (some e) 0 w hbor hw 0 (Nat.le_refl _) he
      rw [hp] at h1
      cases h1
      rw [hrs] at h2
      cases h2
      exact e2
    · obtain ⟨buf, o, _, hf, _, _⟩ := view_parts hw
      exact holds_gone (m := m t) (by simp [m, Nat.not_lt.mpr ht]) hf hb

theorem enumView_some {skip : Bool} {m : Mem} {p : Span} : ∀ {bs : List BlockTy} {w : EnumView}, enumView skip m p bs = .ok w → w.1 ∈ bs ∧ w.1.view m p skip = .ok w.2
  | [], w, h => by cases h
  | b :: bs, w, h => by
    unfold enumView at h
    split at h
    · rename_i x hx
      cases h
      exact ⟨List.mem_cons_self, hx⟩
    · obtain ⟨h1, h2⟩ := enumView_some h
      exact ⟨List.mem_cons_of_mem _ h1, h2⟩
    · cases h
    · cases h

theorem enumView_load {skip : Bool} {m : Mem} {p : Span} {buf : Bytes} (hp : p.load m = some buf) : ∀ {bs : List BlockTy} {w : EnumView}, enumView skip m p bs = .ok w →
    ∃ r, enumReadSlice skip bs buf = .ok r ∧ w.into m = some r.into
  | [], w, h => by cases h
  | b :: bs, w, h => by
    have hv := view_load b hp skip
    unfold enumView at h
    unfold enumReadSlice
    split at h
    · rename_i x hx
      cases h
      rw [hx] at hv
      cases hr : b.readSlice buf skip with
      | err e => rw [hr] at hv; cases hv
      | panic => rw [hr] at hv; cases hv
      | ok r =>
        rw [hr] at hv
        simp only [Out.map_ok, Out.ok.injEq, BlockView.load] at hv
        refine ⟨⟨b, r⟩, rfl, ?_⟩
        split at hv
        · rename_i h2 _
          cases hv
          simp only [EnumView.into, BlockView.into, h2]
          rfl
        · cases hv
    · rename_i hx
      rw [hx] at hv
      cases hr : b.readSlice buf skip with
      | ok r => rw [hr] at hv; cases hv
      | panic => rw [hr] at hv; cases hv
      | err e =>
        rw [hr] at hv
        cases hv
        exact enumView_load hp h
    · cases h
    · cases h

/-- **C81 for the generated enum (partial).** A `BlockReferred` that was read shows the block that `Verif.Block` says, as long as the buffer is borrowed. -/
theorem C81_enum_partial (bs : List BlockTy) (m : Nat → Mem) (p : Span) (skip : Bool) (l : Life) (t0 : Nat) (w : EnumView) (hb : Borrowed m p.buf t0 l)
    (h : enumView skip (m t0) p bs = .ok w) (t : Nat) (ht : t0 ≤ t) (hl : l.live t) :
    ∃ buf r, p.load (m t0) = some buf ∧ enumReadSlice skip bs buf = .ok r ∧ w.into (m t) = some r.into := by
  obtain ⟨_, hw⟩ := enumView_some h
  obtain ⟨buf, o, hp, hf, _, _⟩ := view_parts hw
  obtain ⟨r, h1, h2⟩ := enumView_load hp h
  refine ⟨buf, r, hp, h1, ?_⟩
  rw [← h2]
  unfold EnumView.into BlockView.into
  rw [holds_same (hb t ht hl) hf]

theorem sampleBlock_blob : ∃ n, .blob n ∈ sampleBlock.fields := ⟨3, by simp [sampleBlock]⟩

/-- **C81 is false of the code.** -/
theorem C81_not : ¬ C81_full := by
  intro h
  have := (C81_exact sampleBlock sampleBlock_wf sampleVals sampleBlock_blob sliceCall).mp (h _ sampleBlock_wf) none (some 1) (fun _ _ => trivial) Nat.zero_lt_one 1 trivial
  exact Nat.lt_irrefl 1 this

/-- A buffer with a block in the middle; it is freed at 5. -/
def sampleMem (t : Nat) : Mem := fun i => if i = 4 ∧ t < 5 then some ([9, 9] ++ (sampleBlock.bytes sampleVals ++ [5])) else none

/-- Non-vacuity of the first part: the view is read from the middle of the buffer at 1, and looked at at 3 and 4. -/
example : ∃ w, sampleBlock.view (sampleMem 1) ⟨4, 2, 27⟩ false = .ok w ∧ w.into (sampleMem 3) = some sampleVals ∧ w.into (sampleMem 4) = some sampleVals ∧ w.into (sampleMem 5) = none := by
  have hp : (⟨4, 2, 27⟩ : Span).load (sampleMem 1) = some (sampleBlock.bytes sampleVals ++ [5]) := by decide +kernel
  have hv := view_load sampleBlock hp false
  rw [BlockTy.readSlice_bytes sampleBlock_wf sampleVals] at hv
  cases hw : sampleBlock.view (sampleMem 1) ⟨4, 2, 27⟩ false with
  | err e => rw [hw] at hv; cases hv
  | panic => rw [hw] at hv; cases hv
  | ok w =>
    have hbor : Borrowed sampleMem 4 1 (some 5) := by
      intro t _ ht
      have ht : t < 5 := ht
      simp [sampleMem, ht]
    have at_ : ∀ t, 1 ≤ t → t < 5 → w.into (sampleMem t) = some sampleVals := by
      intro t h1 h5
      obtain ⟨buf, r, e1, e2, _, e3⟩ := C81_borrowed_partial sampleBlock sampleMem ⟨4, 2, 27⟩ false (some 5) 1 w hbor hw t h1 h5
      rw [hp] at e1
      cases e1
      rw [BlockTy.readSlice_bytes sampleBlock_wf sampleVals] at e2
      cases e2
      exact e3
    obtain ⟨buf, o, _, hf, _, _⟩ := view_parts hw
    exact ⟨w, rfl, at_ 3 (by decide) (by decide), at_ 4 (by decide) (by decide), holds_gone (m := sampleMem 5) (by simp [sampleMem]) hf sampleBlock_blob⟩

/-- Non-vacuity of the second part: a block without blobs. -/
example : Sound sliceCall ⟨[1, 2, 3, 4], [.num .u32, .bool], false⟩ := C81_copied_partial _ (by simp) _

end Brec.Props
