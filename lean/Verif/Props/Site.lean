import Verif.Site
import Verif.Props.Macro
/-!
# Property C78: finding the declared types at the place of `generate!`
-/

namespace Brec.Props

open Brec

/-- The names a crate gets from `generate!` (documentation of the macro, `brec_macros/src/lib.rs`). -/
def generatedNames (locked : Bool) : List Bytes :=
  (if locked then [ascii "FileStorage"] else []) ++ [ascii "Packet", ascii "PacketBufReader", ascii "Rules", ascii "Rule", ascii "RuleFnDef", ascii "Reader", ascii "Writer",
    ascii "Block", ascii "BlockReferred", ascii "Payload"]

theorem mem_siteItems {locked : Bool} {n : Bytes} : n ∈ siteItems locked ↔ n ∈ generatedNames locked := by
  cases locked <;> simp only [siteItems, generatedNames, List.mem_append, List.mem_cons, List.not_mem_nil, or_false, if_true, Bool.false_eq_true, if_false, false_or] <;> grind

/-- A name that stands alone and is one of the generated items. -/
def Hidden (locked : Bool) (p : List Bytes) : Prop := ∃ n ∈ generatedNames locked, p = [n]

theorem inside_hidden {site : Site} {locked : Bool} {p : List Bytes} (h : Hidden locked p) : site.inside locked p = some .other := by
  obtain ⟨n, hn, rfl⟩ := h
  rw [Site.inside, if_pos]
  exact ⟨rfl, List.mem_map.mpr ⟨n, mem_siteItems.mpr hn, rfl⟩⟩

theorem inside_plain {site : Site} {locked : Bool} {p : List Bytes} (h : ¬ Hidden locked p) : site.inside locked p = site p := by
  rw [Site.inside, if_neg]
  rintro ⟨h1, h2⟩
  apply h
  match p, h1, h2 with
  | [n], _, h2 =>
    obtain ⟨m, hm, he⟩ := List.mem_map.mp h2
    have e : m = n := Option.some.inj he
    exact ⟨n, mem_siteItems.mp (e ▸ hm), rfl⟩

/-- The path stands for this item in the generated file. -/
def StandsFor (site : Site) (locked : Bool) (p : List Bytes) (x : Item) : Prop := ¬ Hidden locked p ∧ site p = some x

theorem standsFor_iff {site : Site} {locked : Bool} {p : List Bytes} {x : Item} (hx : x ≠ .other) : site.inside locked p = some x ↔ StandsFor site locked p x := by
  by_cases h : Hidden locked p
  · rw [inside_hidden h]
    exact ⟨fun e => absurd (Option.some.inj e).symm hx, fun e => absurd h e.1⟩
  · rw [inside_plain h]
    exact ⟨fun e => ⟨h, e⟩, fun e => e.2⟩

/-- The generated file compiles exactly if for every collected block there is one declaration that both its full path and the bare name of its view lead to, and the full path
of every collected payload leads to a payload. The path of a block is of no use for its view. -/
theorem C78_exact (site : Site) (locked : Bool) (bs : List BlockDecl) (ps : List PayloadDecl) :
    SiteCompiles site locked bs ps ↔
      (∀ d ∈ bs, ∃ k, StandsFor site locked (d.path ++ [d.name]) (.block k) ∧ StandsFor site locked [d.name ++ ascii "Referred"] (.view k)) ∧
      ∀ d ∈ ps, ∃ k, StandsFor site locked (d.path ++ [d.name]) (.payload k) := by
  constructor
  · rintro ⟨hb, hp⟩
    refine ⟨?_, ?_⟩
    · intro d hd
      obtain ⟨k, h1, h2⟩ := hb d hd (.into d.referredName d.fullpath) (by simp [BlockDecl.needs])
      exact ⟨k, (standsFor_iff (by simp)).mp h2, (standsFor_iff (by simp)).mp h1⟩
    · intro d hd
      obtain ⟨k, h⟩ := hp d hd (.payload d.fullpath) (by simp [PayloadDecl.needs])
      exact ⟨k, (standsFor_iff (by simp)).mp h⟩
  · rintro ⟨hb, hp⟩
    refine ⟨?_, ?_⟩
    · intro d hd n hn
      obtain ⟨k, h1, h2⟩ := hb d hd
      have h1 : site.inside locked d.fullpath = some (.block k) := (standsFor_iff (by simp)).mpr h1
      have h2 : site.inside locked d.referredName = some (.view k) := (standsFor_iff (by simp)).mpr h2
      simp only [BlockDecl.needs, List.mem_cons, List.not_mem_nil, or_false] at hn
      rcases hn with rfl | rfl | rfl | rfl | rfl | rfl | rfl | rfl <;> simp [Need.Met, h1, h2]
    · intro d hd n hn
      obtain ⟨k, h⟩ := hp d hd
      have h : site.inside locked d.fullpath = some (.payload k) := (standsFor_iff (by simp)).mpr h
      simp only [PayloadDecl.needs, List.mem_cons, List.not_mem_nil, or_false] at hn
      rcases hn with rfl | rfl <;> simp [Need.Met, h]

/-- If it compiles, the variant of `BlockReferred` is the view of the very type in the variant of `Block` that it is converted into. -/
theorem C78_views (site : Site) (locked : Bool) (bs : List BlockDecl) (ps : List PayloadDecl) (tys : Nat → BlockTy) (h : SiteCompiles site locked bs ps) :
    ∀ d ∈ bs, ∃ T, d.ownTy (site.inside locked) tys = some T ∧ d.viewTy (site.inside locked) tys = some T := by
  intro d hd
  obtain ⟨k, h1, h2⟩ := h.1 d hd (.into d.referredName d.fullpath) (by simp [BlockDecl.needs])
  exact ⟨tys k, by rw [BlockDecl.ownTy, h2], by rw [BlockDecl.viewTy, h1]⟩

/-- The positive part: a crate in which, at the place of `generate!`, every block and its view can be reached under their own names (`use blocks::*`) or the block under its path
and the view under its own name, no name is that of a generated item, and every payload can be reached under its path. It compiles, and each variant is the declared type. -/
theorem C78_visible_partial (site : Site) (locked : Bool) (ds vs : List BlockDecl) (ps : List PayloadDecl) (tys : Nat → BlockTy)
    (hv : IsVariants BlockDecl.fullname ds vs)
    (hb : ∀ k d, ds[k]? = some d →
      StandsFor site locked (d.path ++ [d.name]) (.block k) ∧ StandsFor site locked [d.name ++ ascii "Referred"] (.view k))
    (hp : ∀ d ∈ ps, ∃ k, StandsFor site locked (d.path ++ [d.name]) (.payload k)) :
    SiteCompiles site locked vs ps ∧
    ∀ d ∈ vs, ∃ k, ds[k]? = some d ∧ d.ownTy (site.inside locked) tys = some (tys k) ∧ d.viewTy (site.inside locked) tys = some (tys k) := by
  have hm : ∀ d ∈ vs, ∃ k : Nat, ds[k]? = some d := by
    intro d hd
    obtain ⟨pre, post, e, _⟩ := ((C55_variants_partial hv).2 d).mp hd
    exact ⟨pre.length, by rw [e]; simp⟩
  refine ⟨(C78_exact site locked vs ps).mpr ⟨?_, hp⟩, ?_⟩
  · intro d hd
    obtain ⟨k, hk⟩ := hm d hd
    exact ⟨k, hb k d hk⟩
  · intro d hd
    obtain ⟨k, hk⟩ := hm d hd
    obtain ⟨h1, h2⟩ := hb k d hk
    have h1 : site.inside locked d.fullpath = some (.block k) := (standsFor_iff (by simp)).mpr h1
    have h2 : site.inside locked d.referredName = some (.view k) := (standsFor_iff (by simp)).mpr h2
    exact ⟨k, hk, by rw [BlockDecl.ownTy, h1], by rw [BlockDecl.viewTy, h2]⟩

/-- If the view of a block is not in scope, no path helps. -/
theorem C78_path_useless (site : Site) (locked : Bool) (bs : List BlockDecl) (ps : List PayloadDecl) {d : BlockDecl} (hd : d ∈ bs)
    (hv : site [d.name ++ ascii "Referred"] = none) : ¬ SiteCompiles site locked bs ps := by
  intro h
  obtain ⟨k, _, _, h2⟩ := ((C78_exact site locked bs ps).mp h).1 d hd
  rw [hv] at h2
  cases h2

/-- Two blocks of the same name in different modules cannot be in one protocol: it does not compile, if their paths lead to them. -/
theorem C78_same_name (site : Site) (locked : Bool) (bs : List BlockDecl) (ps : List PayloadDecl) {d d' : BlockDecl} (hd : d ∈ bs) (hd' : d' ∈ bs)
    (hn : d.name = d'.name) {k k' : Nat} (hk : site (d.path ++ [d.name]) = some (.block k)) (hk' : site (d'.path ++ [d'.name]) = some (.block k')) (hkk : k ≠ k') :
    ¬ SiteCompiles site locked bs ps := by
  intro h
  obtain ⟨hb, _⟩ := (C78_exact site locked bs ps).mp h
  obtain ⟨a, ⟨_, a1⟩, _, a2⟩ := hb d hd
  obtain ⟨b, ⟨_, b1⟩, _, b2⟩ := hb d' hd'
  rw [hk] at a1; rw [hk'] at b1; rw [← hn, a2] at b2
  cases a1; cases b1; cases b2
  exact hkk rfl

/-- A block or payload without a path that has the name of a generated item does not compile; a block called `Block` does not compile under any path. -/
theorem C78_generated_names (site : Site) (locked : Bool) (bs : List BlockDecl) (ps : List PayloadDecl) :
    (∀ d ∈ bs, d.path = [] → d.name ∈ generatedNames locked → ¬ SiteCompiles site locked bs ps) ∧
    (∀ d ∈ ps, d.path = [] → d.name ∈ generatedNames locked → ¬ SiteCompiles site locked bs ps) ∧
    (∀ d ∈ bs, d.name = ascii "Block" → ¬ SiteCompiles site locked bs ps) := by
  refine ⟨?_, ?_, ?_⟩
  · intro d hd hp hn h
    obtain ⟨k, ⟨h1, _⟩, _⟩ := ((C78_exact site locked bs ps).mp h).1 d hd
    exact h1 ⟨d.name, hn, by rw [hp]; rfl⟩
  · intro d hd hp hn h
    obtain ⟨k, h1, _⟩ := ((C78_exact site locked bs ps).mp h).2 d hd
    exact h1 ⟨d.name, hn, by rw [hp]; rfl⟩
  · intro d hd hn h
    obtain ⟨k, _, h1, _⟩ := ((C78_exact site locked bs ps).mp h).1 d hd
    refine h1 ⟨ascii "BlockReferred", ?_, by rw [hn]; rfl⟩
    exact List.mem_append_right _ (by decide)

/-- For payloads the path is enough: whatever else is in scope, payloads reached by paths of two or more segments compile, also two of the same name. -/
theorem C78_payload_path (site : Site) (locked : Bool) (ps : List PayloadDecl)
    (h : ∀ d ∈ ps, d.path ≠ [] ∧ ∃ k, site (d.path ++ [d.name]) = some (.payload k)) : SiteCompiles site locked [] ps := by
  refine (C78_exact site locked [] ps).mpr ⟨by simp, ?_⟩
  intro d hd
  obtain ⟨hp, k, hk⟩ := h d hd
  refine ⟨k, ?_, hk⟩
  rintro ⟨n, _, e⟩
  have h1 : d.path.length + 1 = 1 := by simpa using congrArg List.length e
  have h2 : 0 < d.path.length := List.length_pos_iff.mpr hp
  omega

/-! ### Examples -/

/-- `mod a { #[block(path = a)] pub struct Foo { x: u8 } }` -/
def aFoo : BlockDecl := ⟨ascii "Foo", [ascii "a"], [⟨ascii "x", .ident (ascii "u8")⟩], false⟩
/-- `mod b { #[block(path = b)] pub struct Foo { y: u64 } }` -/
def bFoo : BlockDecl := ⟨ascii "Foo", [ascii "b"], [⟨ascii "y", .ident (ascii "u64")⟩], false⟩

/-- A crate with these two modules; `generate!` stands outside, where `uses` lists what is imported besides. -/
def twoModules (uses : Site) : Site := fun p =>
  if p = [ascii "a", ascii "Foo"] then some (.block 0)
  else if p = [ascii "a", ascii "FooReferred"] then some (.view 0)
  else if p = [ascii "b", ascii "Foo"] then some (.block 1)
  else if p = [ascii "b", ascii "FooReferred"] then some (.view 1)
  else uses p

/-- As documented, the module path is given with `path`, and nothing is imported: does not compile. With `use a::FooReferred` it does. -/
theorem C78_not : ¬ SiteCompiles (twoModules fun _ => none) false [aFoo] [] ∧
    SiteCompiles (twoModules fun p => if p = [ascii "FooReferred"] then some (.view 0) else none) false [aFoo] [] ∧
    (∀ vs, IsVariants BlockDecl.fullname [aFoo, bFoo] vs → ∀ uses, ¬ SiteCompiles (twoModules uses) false vs []) := by
  refine ⟨?_, ?_, ?_⟩
  · exact C78_path_useless _ _ _ _ (List.mem_singleton.mpr rfl) (by decide)
  · refine (C78_exact _ _ _ _).mpr ⟨?_, by simp⟩
    intro d hd
    rw [List.mem_singleton] at hd
    subst hd
    refine ⟨0, ⟨?_, by decide⟩, ?_, by decide⟩
    · rintro ⟨n, _, e⟩
      exact absurd (congrArg List.length e) (by simp [aFoo])
    · rintro ⟨n, hn, e⟩
      have : n = ascii "FooReferred" := (List.cons.inj e).1.symm
      subst this
      exact absurd hn (by decide)
  · intro vs hv uses
    have hp := C55_complete hv (by decide)
    exact C78_same_name _ _ _ _ (hp.mem_iff.mpr (by simp)) (hp.mem_iff.mpr (by simp)) (d := aFoo) (d' := bFoo) rfl (k := 0) (k' := 1)
      (by rw [twoModules, if_pos (by decide)]) (by rw [twoModules, if_neg (by decide), if_neg (by decide), if_pos (by decide)]) (by decide)

/-- The hypotheses of `C78_visible_partial`: `use a::*; use b::*;` with blocks of different names. -/
example : ∃ (site : Site) (ds : List BlockDecl), ds.length = 2 ∧ ∀ k d, ds[k]? = some d →
    StandsFor site true (d.path ++ [d.name]) (.block k) ∧ StandsFor site true [d.name ++ ascii "Referred"] (.view k) := by
  refine ⟨fun p => if p = [ascii "Foo"] then some (.block 0) else if p = [ascii "FooReferred"] then some (.view 0)
    else if p = [ascii "Bar"] then some (.block 1) else if p = [ascii "BarReferred"] then some (.view 1) else none,
    [⟨ascii "Foo", [], [], false⟩, ⟨ascii "Bar", [], [], false⟩], rfl, ?_⟩
  intro k d h
  have hh : ∀ n : Bytes, n ∉ generatedNames true → ¬ Hidden true [n] := by
    rintro n hn ⟨m, hm, e⟩
    exact hn ((List.cons.inj e).1 ▸ hm)
  match k, h with
  | 0, h =>
    cases h
    exact ⟨⟨hh _ (by decide), by decide⟩, hh _ (by decide), by decide⟩
  | 1, h =>
    cases h
    exact ⟨⟨hh _ (by decide), by decide⟩, hh _ (by decide), by decide⟩
  | k + 2, h => simp at h

/-- The hypotheses of `C78_payload_path`: two payloads of the same name. -/
example : ∃ site : Site, ∀ d ∈ [(⟨ascii "Foo", [ascii "a"]⟩ : PayloadDecl), ⟨ascii "Foo", [ascii "b"]⟩],
    d.path ≠ [] ∧ ∃ k, site (d.path ++ [d.name]) = some (.payload k) := by
  refine ⟨fun p => if p.head? = some (ascii "a") then some (.payload 0) else some (.payload 1), ?_⟩
  intro d hd
  simp only [List.mem_cons, List.not_mem_nil, or_false] at hd
  rcases hd with rfl | rfl
  · exact ⟨by decide, 0, by decide⟩
  · exact ⟨by decide, 1, by decide⟩

end Brec.Props
