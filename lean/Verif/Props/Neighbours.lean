import Verif.Props.Names
/-!
# C86: blocks declared in one module
-/

namespace Brec.Props

open Brec

/-- Full statement of C86: blocks with different names, each of which compiles on its own, compile together. -/
def C86_full : Prop := ∀ ds : List BlockDecl, (∀ d ∈ ds, ∀ n ∈ fieldNames d, isReserved n = false) → (ds.map (·.name)).Nodup →
  (∀ d ∈ ds, d.compiles = true) → moduleCompiles ds = true

/-- What must hold for blocks to compile together. -/
structure Together (ds : List BlockDecl) : Prop where
  alone : ∀ d ∈ ds, Compiles d
  /-- the names differ in more than capital letters -/
  apart : ds.Pairwise fun a b => a.name.map capital ≠ b.name.map capital
  /-- no block is named like the view of another one -/
  views : ∀ a ∈ ds, ∀ b ∈ ds, b.name ≠ a.name ++ ascii "Referred"
  /-- no field is named like a block in capital letters -/
  fields : ∀ a ∈ ds, ∀ b ∈ ds, a.name.map capital ∉ fieldNames b

theorem newTypes_nodup (ds : List BlockDecl) : (ds.flatMap BlockDecl.newTypes).Nodup ↔
    (ds.map (·.name)).Nodup ∧ ∀ a ∈ ds, ∀ b ∈ ds, b.name ≠ a.name ++ ascii "Referred" := by
  have hself : ∀ n : Bytes, n ≠ n ++ ascii "Referred" := fun n h => by
    have := congrArg List.length h
    rw [List.length_append] at this
    have e : (ascii "Referred").length = 8 := by decide
    omega
  induction ds with
  | nil => simp
  | cons d ds ih =>
    simp only [List.flatMap_cons, List.nodup_append, ih, List.map_cons, List.nodup_cons, BlockDecl.newTypes, List.mem_flatMap, List.mem_map,
      List.mem_cons, List.not_mem_nil, or_false, not_false_eq_true, List.nodup_nil, and_true, forall_exists_index, and_imp]
    constructor
    · rintro ⟨_, ⟨h2, h3⟩, h4⟩
      refine ⟨⟨fun ⟨x, hx, hn⟩ => ?_, h2⟩, ?_⟩
      · exact h4 d.name (.inl rfl) d.name x hx (.inl hn.symm) rfl
      · rintro a (rfl | ha) b (rfl | hb)
        · exact hself _
        · exact fun e => h4 (a.name ++ ascii "Referred") (.inr rfl) b.name b hb (.inl rfl) e.symm
        · exact fun e => h4 b.name (.inl rfl) (a.name ++ ascii "Referred") a ha (.inr rfl) e
        · exact h3 a ha b hb
    · rintro ⟨⟨h1, h2⟩, h3⟩
      refine ⟨hself _, ⟨h2, fun a ha b hb => h3 a (.inr ha) b (.inr hb)⟩, ?_⟩
      rintro x (rfl | rfl) y b hb (rfl | rfl)
      · exact fun e => h1 ⟨b, hb, e.symm⟩
      · exact h3 b (.inr hb) d (.inl rfl)
      · exact fun e => h3 d (.inl rfl) b (.inr hb) e.symm
      · intro e
        exact h1 ⟨b, hb, (List.append_cancel_right e).symm⟩

/-- **C86, what compiles together.** -/
theorem C86_exact (ds : List BlockDecl) (hr : ∀ d ∈ ds, ∀ n ∈ fieldNames d, isReserved n = false) : moduleCompiles ds = true ↔ Together ds := by
  have hc : ds.map BlockDecl.newConst = ds.map fun d => d.name.map capital := List.map_congr_left fun d _ => upper_capital d.name
  have hn : (ds.map fun d => d.name.map capital).Nodup ↔ ds.Pairwise fun a b => a.name.map capital ≠ b.name.map capital := List.pairwise_map
  simp only [moduleCompiles, Bool.and_eq_true, List.all_eq_true, decide_eq_true_eq, hc, newTypes_nodup, hn, Bool.not_eq_true',
    List.contains_eq_mem, decide_eq_false_iff_not, List.mem_map, not_exists, not_and]
  constructor
  · rintro ⟨⟨⟨h1, _, h2⟩, h3⟩, h4⟩
    refine ⟨fun d hd => (C76_compiles d (hr d hd)).mp (h1 d hd), h3, h2, fun a ha b hb hm => ?_⟩
    obtain ⟨f, hf, e⟩ := List.mem_map.mp hm
    exact h4 b hb f hf a ha e.symm
  · intro t
    refine ⟨⟨⟨fun d hd => (C76_compiles d (hr d hd)).mpr (t.alone d hd), ?_, t.views⟩, t.apart⟩, fun d hd f hf a ha e => ?_⟩
    · exact List.pairwise_map.mpr (t.apart.imp fun h e => h (by rw [e]))
    · exact t.fields a ha d hd (List.mem_map.mpr ⟨f, hf, e.symm⟩)

/-- A letter that is not a capital. -/
def isSmall (c : Byte) : Bool := (ascii "abcdefghijklmnopqrstuvwxyz").contains c

theorem capital_not_small : ∀ c : Byte, isSmall (capital c) = false := by decide +kernel

/-- **C86, what holds.** Blocks whose names differ in more than capital letters and do not end in `Referred`, and whose fields are named with at least one small letter,
compile together if each of them compiles on its own. Missing from the full claim: all other names. -/
theorem C86_usual_partial (ds : List BlockDecl) (hr : ∀ d ∈ ds, ∀ n ∈ fieldNames d, isReserved n = false)
    (hn : ds.Pairwise fun a b => a.name.map capital ≠ b.name.map capital) (hv : ∀ d ∈ ds, ¬ ascii "Referred" <:+ d.name)
    (hf : ∀ d ∈ ds, ∀ n ∈ fieldNames d, n.any isSmall = true) :
    moduleCompiles ds = true ↔ ∀ d ∈ ds, d.compiles = true := by
  rw [C86_exact ds hr]
  constructor
  · exact fun t d hd => (C76_compiles d (hr d hd)).mpr (t.alone d hd)
  · intro h
    refine ⟨fun d hd => (C76_compiles d (hr d hd)).mp (h d hd), hn, fun a _ b hb e => hv b hb ⟨a.name, e.symm⟩, fun a _ b hb hm => ?_⟩
    have := hf b hb _ hm
    obtain ⟨c, hc, hs⟩ := List.any_eq_true.mp this
    obtain ⟨c', _, rfl⟩ := List.mem_map.mp hc
    rw [capital_not_small] at hs
    cases hs

/-- A block with one field of type `u8`. -/
def oneField (name field : String) : BlockDecl := ⟨ascii name, [], [⟨ascii field, .ident (ascii "u8")⟩], false⟩

example : moduleCompiles [oneField "MetaData" "level", oneField "Position" "level"] = true := by
  rw [C86_usual_partial _ (by decide +kernel) (by decide +kernel) (by decide +kernel) (by decide +kernel)]
  decide +kernel

/-- **C86 is false in general**: two names that differ in capital letters only have the same signature constant; a block may be named like the view of another one; and
a field may be named like the constant of another block. Every one of these blocks compiles on its own. -/
theorem C86_not : ¬ C86_full ∧
    moduleCompiles [oneField "Foo" "a", oneField "FOo" "a"] = false ∧
    moduleCompiles [oneField "Foo" "a", oneField "FooReferred" "a"] = false ∧
    moduleCompiles [oneField "Foo" "a", oneField "Bar" "FOO"] = false := by
  refine ⟨fun h => ?_, by decide +kernel, by decide +kernel, by decide +kernel⟩
  have := h [oneField "Foo" "a", oneField "FOo" "a"] (by decide +kernel) (by decide +kernel) (by decide +kernel)
  revert this
  decide +kernel

end Brec.Props
