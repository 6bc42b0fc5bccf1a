import Verif.Raw
import Verif.Props.Block
/-!
# Property C82: the raw copies of the generated writers stay in bounds
-/

namespace Brec.Props

open Brec

/-! ## Specification -/

/-- The part of the buffer a copy fills. -/
def target : Copy → Nat × Nat
  | .checked off n _ => (off, n)
  | .raw off n _ => (off, n)

/-- The bytes a copy may read. -/
def source : Copy → Bytes
  | .checked _ _ src => src
  | .raw _ _ src => src

/-- The copies fill the buffer from `off` to `last` without gap or overlap. -/
def Tiles : Nat → List Copy → Nat → Prop
  | off, [], last => off = last
  | off, c :: cs, last => (target c).1 = off ∧ Tiles (off + (target c).2) cs last

/-! ## Proofs -/

theorem tiles_append : ∀ {cs ds : List Copy} {a b c : Nat}, Tiles a cs b → Tiles b ds c → Tiles a (cs ++ ds) c
  | [], _, _, _, _, h, h' => by
    cases (h : _ = _)
    exact h'
  | _ :: _, _, _, _, _, ⟨h1, h2⟩, h' => ⟨h1, tiles_append h2 h'⟩

theorem fill_tiles : ∀ (ts : List FTy) (v : Vals ts) (off : Nat), Tiles off (fillCopies ts v off) (off + fieldsSize ts)
  | [], _, _ => rfl
  | t :: ts, (v, vs), off => by
    simp only [fillCopies, fieldsSize, Tiles]
    have e : target (if t.isBlob then Copy.raw off t.size (t.toBytes v) else Copy.checked off t.size (t.toBytes v)) = (off, t.size) := by split <;> rfl
    rw [e]
    refine ⟨rfl, ?_⟩
    rw [← Nat.add_assoc]
    exact fill_tiles ts vs _

theorem fill_source : ∀ (ts : List FTy) (v : Vals ts) (off : Nat), ∀ c ∈ fillCopies ts v off, (source c).length = (target c).2
  | [], _, _, c, h => by cases h
  | t :: ts, (v, vs), off, c, h => by
    simp only [fillCopies, List.mem_cons] at h
    rcases h with rfl | h
    · split <;> exact t.toBytes_length v
    · exact fill_source ts vs _ c h

/-- Copies that fill a buffer in order, from sources of the right size, do what they should. -/
theorem run_tiles : ∀ (cs : List Copy) (acc tail : Bytes) (last : Nat), (∀ c ∈ cs, (source c).length = (target c).2) → Tiles acc.length cs last →
    acc.length + tail.length = last → runCopies cs (acc ++ tail) = .ok (acc ++ (cs.map source).flatten)
  | [], acc, tail, last, _, ht, hl => by
    cases (ht : _ = _)
    have : tail = [] := List.length_eq_zero_iff.mp (by omega)
    subst this
    simp [runCopies]
  | c :: cs, acc, tail, last, hs, ⟨h1, h2⟩, hl => by
    have hc := hs c List.mem_cons_self
    have mono : ∀ {cs a b}, Tiles a cs b → a ≤ b := by
      intro cs
      induction cs with
      | nil => intro a b h; exact Nat.le_of_eq h
      | cons c cs ih => intro a b h; exact Nat.le_trans (Nat.le_add_right _ _) (ih h.2)
    have hle := mono h2
    have step : c.run (acc ++ tail) = .ok (acc ++ source c ++ tail.drop (target c).2) := by
      cases c with
      | checked off n src =>
        simp only [target, source] at *
        subst h1
        subst hc
        rw [Copy.run, if_pos ⟨by simp only [List.length_append]; omega, rfl⟩]
        simp [List.drop_append]
      | raw off n src =>
        simp only [target, source] at *
        subst h1
        subst hc
        rw [Copy.run, if_pos ⟨by simp only [List.length_append]; omega, Nat.le_refl _⟩]
        simp [List.drop_append]
    rw [runCopies, step]
    simp only
    rw [run_tiles cs (acc ++ source c) _ last (fun c h => hs c (List.mem_cons_of_mem _ h)) (by rw [List.length_append, hc]; exact h2)
      (by simp only [List.length_append, List.length_drop, hc]; omega)]
    simp

theorem copies_tiles (b : BlockTy) (v : Vals b.fields) : Tiles 0 (b.copies v) b.ssize :=
  ⟨rfl, tiles_append (fill_tiles b.fields v 4) ⟨rfl, rfl⟩⟩

theorem copies_source (b : BlockTy) (hs : b.sig.length = 4) (v : Vals b.fields) : ∀ c ∈ b.copies v, (source c).length = (target c).2 := by
  intro c h
  simp only [BlockTy.copies, List.mem_cons, List.mem_append, List.not_mem_nil, or_false] at h
  rcases h with rfl | h | rfl
  · exact hs
  · exact fill_source _ _ _ c h
  · exact BlockTy.crc_length b v

theorem fill_flat : ∀ (ts : List FTy) (v : Vals ts) (off : Nat), ((fillCopies ts v off).map source).flatten = layout ts v
  | [], _, _ => rfl
  | t :: ts, (v, vs), off => by
    have e : source (if t.isBlob then Copy.raw off t.size (t.toBytes v) else Copy.checked off t.size (t.toBytes v)) = t.toBytes v := by split <;> rfl
    simp only [fillCopies, List.map_cons, List.flatten_cons, e, fill_flat ts vs, layout_cons]

/-! ## The property -/

/-- **C82.** Every copy of `write` and `write_all` reads exactly as many bytes as its source has, and writes inside the buffer. -/
theorem C82_bounds (b : BlockTy) (hs : b.sig.length = 4) (v : Vals b.fields) :
    ∀ c ∈ b.copies v, (source c).length = (target c).2 ∧ (target c).1 + (target c).2 ≤ b.ssize := by
  intro c hc
  refine ⟨copies_source b hs v c hc, ?_⟩
  have : ∀ {cs a z}, Tiles a cs z → a ≤ z ∧ ∀ c ∈ cs, (target c).1 + (target c).2 ≤ z := by
    intro cs
    induction cs with
    | nil => intro a z h; exact ⟨Nat.le_of_eq h, fun _ h => by cases h⟩
    | cons d cs ih =>
      rintro a z ⟨h1, h2⟩
      obtain ⟨h3, h4⟩ := ih h2
      refine ⟨Nat.le_trans (Nat.le_add_right _ _) h3, fun c hc => ?_⟩
      rcases List.mem_cons.mp hc with rfl | hc
      · rw [h1]; exact h3
      · exact h4 c hc
  exact (this (copies_tiles b v)).2 c hc

/-- **C82.** There is no undefined behaviour and no panic, and the buffer that is handed to the writer is the documented form of the block: each byte of it has been
written exactly once. -/
theorem C82_fill (b : BlockTy) (hs : b.sig.length = 4) (v : Vals b.fields) : b.fill v = .ok (specBlock b v) ∧ Tiles 0 (b.copies v) (specBlock b v).length := by
  have e : b.fill v = .ok (b.bytes v) := by
    have := run_tiles (b.copies v) [] (List.replicate b.ssize 0) b.ssize (copies_source b hs v) (copies_tiles b v) (by simp)
    rw [List.nil_append] at this
    rw [BlockTy.fill, this]
    simp [BlockTy.copies, source, fill_flat, BlockTy.bytes]
  rw [specBlock_eq]
  refine ⟨e, ?_⟩
  have hl : (b.bytes v).length = b.ssize := by
    simp only [BlockTy.bytes, List.length_append, hs, layout_length, BlockTy.crc_length, BlockTy.ssize]
  rw [hl]
  exact copies_tiles b v

/-- So the model of `Verif.Block`, in which the two kinds of copies are one, is right about the buffer. -/
theorem C82_buffer (b : BlockTy) (w : b.WF) (v : Vals b.fields) : ∃ x, b.fill v = .ok x ∧ b.buffer v = .ok x :=
  ⟨_, (C82_fill b w.sig_len v).1, by rw [specBlock_eq]; exact BlockTy.buffer_eq w v⟩

/-- Non-vacuity: the sample block has two raw copies, of three bytes at 10 and of the checksum at 22. -/
example : (sampleBlock.copies sampleVals).filterMap (fun c => match c with | .raw off n _ => some (off, n) | _ => none) = [(10, 3), (22, 4)] := by decide +kernel

example : sampleBlock.sig.length = 4 := rfl

/-- A raw copy beyond the end would be undefined behaviour, and so would be one from a source that is too short. -/
example : (Copy.raw 23 4 [1, 2, 3, 4]).run (List.replicate 26 0) = .ub ∧ (Copy.raw 22 4 [1, 2, 3]).run (List.replicate 26 0) = .ub := by decide

end Brec.Props
