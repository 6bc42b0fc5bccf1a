import Verif.MacroPayload
import Verif.Props.Macro
import Verif.PayloadLemmas
/-!
# Properties C65, C66: the attributes of `#[payload]` and the parameters of `generate!`
-/

namespace Brec.Props

open Brec

/-! ## C65: `#[payload(…)]` -/

/-- The word stands alone between the parentheses. -/
def given (es : List AttrExpr) (w : String) : Bool := es.contains (.path [ascii w])

/-- What is left to the user: hooks if asked for, the signature if asked for, without `bincode` all of encoding, decoding, size and CRC, with
`bincode` only the CRC, and only under `no_auto_crc` without `no_crc`. -/
def byHand (es : List AttrExpr) : List PTrait :=
  (if given es "hooks" then [.hooks] else []) ++ (if given es "no_default_sig" then [.sig, .staticSig] else []) ++
    (if given es "bincode" then (if given es "no_auto_crc" && !given es "no_crc" then [.crc] else [])
    else [.encode, .encodeReferred, .decode, .size, .crc])

theorem attrHas_given {es : List AttrExpr} {as : List PayloadAttr} (h : parsePayloadAttrs es = some as) :
    attrHas .hooks as = given es "hooks" ∧ attrHas .noDefaultSig as = given es "no_default_sig" ∧ attrHas .bincode as = given es "bincode" ∧
    attrHas .noAutoCrc as = given es "no_auto_crc" ∧ attrHas .noCrc as = given es "no_crc" := by
  have hn1 : ∀ s, payloadWord s = none ↔ (s ≠ ascii "hooks" ∧ s ≠ ascii "no_default_sig" ∧ s ≠ ascii "bincode" ∧ s ≠ ascii "no_auto_crc" ∧ s ≠ ascii "no_crc") := by
    intro s
    unfold payloadWord
    repeat' split
    all_goals simp_all
  have hw : ∀ s a, payloadWord s = some a →
      (a = .hooks ∧ s = ascii "hooks") ∨ (a = .noDefaultSig ∧ s = ascii "no_default_sig") ∨ (a = .bincode ∧ s = ascii "bincode") ∨
      (a = .noAutoCrc ∧ s = ascii "no_auto_crc") ∨ (a = .noCrc ∧ s = ascii "no_crc") := by
    intro s a
    unfold payloadWord
    repeat' split
    all_goals simp_all [eq_comm]
  have hd : ∀ u v : String, u ≠ v → ascii u = ascii v → u ∈ ["hooks", "no_default_sig", "bincode", "no_auto_crc", "no_crc"] →
      v ∈ ["hooks", "no_default_sig", "bincode", "no_auto_crc", "no_crc"] → False := by
    intro u v hne he hu hv
    simp only [List.mem_cons, List.not_mem_nil, or_false] at hu hv
    rcases hu with rfl | rfl | rfl | rfl | rfl <;> rcases hv with rfl | rfl | rfl | rfl | rfl <;>
      first | exact absurd rfl hne | (revert he; decide)
  induction es generalizing as with
  | nil => injection h with h; subst h; decide
  | cons e es ih =>
    have keep : ∀ {as' : List PayloadAttr} {a}, parsePayloadAttrs es = some as' → as = a :: as' → (∃ p, a = .path p) → (∀ s, e ≠ .path [s]) →
        attrHas .hooks as = given (e :: es) "hooks" ∧ attrHas .noDefaultSig as = given (e :: es) "no_default_sig" ∧
        attrHas .bincode as = given (e :: es) "bincode" ∧ attrHas .noAutoCrc as = given (e :: es) "no_auto_crc" ∧
        attrHas .noCrc as = given (e :: es) "no_crc" := by
      rintro as' a ha rfl ⟨p, rfl⟩ he
      have := ih ha
      have hg : ∀ w, given (e :: es) w = given es w := by
        intro w
        simp only [given, List.contains_cons]
        have : (AttrExpr.path [ascii w] == e) = false := by simpa using fun x => he _ x.symm
        rw [this, Bool.false_or]
      rw [hg, hg, hg, hg, hg]
      simpa [attrHas] using this
    cases e with
    | assign key p =>
      rw [parsePayloadAttrs] at h
      split at h
      · obtain ⟨as', ha, rfl⟩ := Option.map_eq_some_iff.mp h
        exact keep ha rfl ⟨_, rfl⟩ (by simp)
      · cases h
    | other => cases h
    | path p =>
      rcases p with _ | ⟨s, _ | ⟨t, p⟩⟩
      · obtain ⟨as', ha, rfl⟩ := Option.map_eq_some_iff.mp (show (parsePayloadAttrs es).map _ = _ from h)
        exact keep ha rfl ⟨_, rfl⟩ (by simp)
      · rw [parsePayloadAttrs] at h
        cases hs : payloadWord s with
        | none =>
          rw [hs] at h
          have hq := (hn1 s).mp hs
          have := ih h
          simp only [given, List.contains_cons] at this ⊢
          have hx : ∀ w, s ≠ ascii w → (AttrExpr.path [ascii w] == AttrExpr.path [s]) = false := by
            intro w hw
            simpa using fun x => hw x.symm
          rw [hx _ hq.1, hx _ hq.2.1, hx _ hq.2.2.1, hx _ hq.2.2.2.1, hx _ hq.2.2.2.2]
          simpa only [Bool.false_or] using this
        | some a =>
          rw [hs] at h
          obtain ⟨as', ha, rfl⟩ := Option.map_eq_some_iff.mp (show (parsePayloadAttrs es).map _ = _ from h)
          have := ih ha
          have hd1 : ∀ u v : String, (AttrExpr.path [ascii u] == AttrExpr.path [ascii v]) = decide (ascii u = ascii v) := by
            intro u v
            rw [Bool.eq_iff_iff, beq_iff_eq, decide_eq_true_eq]
            simp
          rcases hw s a hs with ⟨rfl, rfl⟩ | ⟨rfl, rfl⟩ | ⟨rfl, rfl⟩ | ⟨rfl, rfl⟩ | ⟨rfl, rfl⟩ <;>
            simp only [given, List.contains_cons, hd1] at this ⊢ <;>
            simp only [attrHas, List.any_cons] at this ⊢ <;>
            rw [this.1, this.2.1, this.2.2.1, this.2.2.2.1, this.2.2.2.2] <;>
            refine ⟨?_, ?_, ?_, ?_, ?_⟩ <;> congr 1
      · obtain ⟨as', ha, rfl⟩ := Option.map_eq_some_iff.mp (show (parsePayloadAttrs es).map _ = _ from h)
        exact keep ha rfl ⟨_, rfl⟩ (by simp)

/-- The lists of traits by the five switches. -/
def genBy (hk nd bc na nc : Bool) : List PTrait :=
  ((if nd then [] else [.sig, .staticSig]) ++ (if hk then [] else [.hooks]) ++ (if bc then [.encode, .encodeReferred, .decode] else [])) ++
    (if bc && !na && !nc || bc && nc then [.crc] else []) ++ (if bc then [.size] else []) ++ [.read, .tryRead, .tryReadBuffered, .write, .writeVectored]

theorem genPayload_by (as : List PayloadAttr) :
    genPayload as = genBy (attrHas .hooks as) (attrHas .noDefaultSig as) (attrHas .bincode as) (attrHas .noAutoCrc as) (attrHas .noCrc as) := by
  unfold genPayload genBy genBase genCrc genSize
  generalize attrHas .hooks as = a
  generalize attrHas .noDefaultSig as = b
  generalize attrHas .bincode as = c
  generalize attrHas .noAutoCrc as = d
  generalize attrHas .noCrc as = e
  revert a b c d e
  decide

/-- Every trait is needed, so the traits implemented by hand must be exactly the missing ones. -/
theorem accepted_iff {g h : List PTrait} (hg : g.Nodup) : Accepted g h ↔ h.Nodup ∧ ∀ t, t ∈ h ↔ t ∉ g := by
  constructor
  · rintro ⟨h1, h2, h3⟩
    rw [List.nodup_append] at h1
    refine ⟨h1.2.1, ?_⟩
    have all : ∀ t, t ∈ g ++ h := by
      have hr := h3 .read (by decide)
      have he := h3 .encode (by decide)
      intro t
      cases t with
      | hooks => exact h2 _ he _ (by decide)
      | decode => exact h2 _ hr _ (by decide)
      | staticSig => exact h2 _ hr _ (by decide)
      | _ => exact h3 _ (by decide)
    intro t
    constructor
    · intro ht hx
      exact h1.2.2 t hx t ht rfl
    · intro ht
      exact (List.mem_append.mp (all t)).resolve_left ht
  · rintro ⟨h1, h2⟩
    have all : ∀ t, t ∈ g ++ h := by
      intro t
      rw [List.mem_append, h2 t]
      exact Classical.em _
    refine ⟨?_, fun _ _ u _ => all u, fun t _ => all t⟩
    rw [List.nodup_append]
    refine ⟨hg, h1, ?_⟩
    intro a ha b hb hab
    subst hab
    exact (h2 a).mp hb ha

/-- `byHand` by the five switches. -/
def handBy (hk nd bc na nc : Bool) : List PTrait :=
  (if hk then [.hooks] else []) ++ (if nd then [.sig, .staticSig] else []) ++
    (if bc then (if na && !nc then [.crc] else []) else [.encode, .encodeReferred, .decode, .size, .crc])

theorem genBy_hand (hk nd bc na nc : Bool) : (genBy hk nd bc na nc).Nodup ∧ (handBy hk nd bc na nc).Nodup ∧
    ∀ t, t ∈ handBy hk nd bc na nc ↔ t ∉ genBy hk nd bc na nc := by
  refine ⟨?_, ?_, ?_⟩
  · revert hk nd bc na nc; decide
  · revert hk nd bc na nc; decide
  · intro t
    cases t <;> revert hk nd bc na nc <;> decide

/-- **C65**, the division of labour: whatever attributes are given, in any order and any number of times, the payload type compiles with exactly the
traits of `byHand` implemented by hand. -/
theorem C65_by_hand {es : List AttrExpr} {as : List PayloadAttr} (h : parsePayloadAttrs es = some as) (hand : List PTrait) :
    Accepted (genPayload as) hand ↔ hand.Perm (byHand es) := by
  obtain ⟨e1, e2, e3, e4, e5⟩ := attrHas_given h
  rw [genPayload_by, e1, e2, e3, e4, e5, show byHand es = handBy (given es "hooks") (given es "no_default_sig") (given es "bincode") (given es "no_auto_crc") (given es "no_crc") from rfl]
  obtain ⟨k1, k2, k3⟩ := genBy_hand (given es "hooks") (given es "no_default_sig") (given es "bincode") (given es "no_auto_crc") (given es "no_crc")
  rw [accepted_iff k1]
  constructor
  · rintro ⟨q1, q2⟩
    rw [List.perm_ext_iff_of_nodup q1 k2]
    intro t
    rw [q2, k3]
  · intro p
    refine ⟨p.nodup_iff.mpr k2, ?_⟩
    intro t
    rw [p.mem_iff, k3]

/-- `#[payload(bincode)]`, `#[payload]` and `#[payload(path = a::b, no_auto_crc, bincode)]`. -/
example : parsePayloadAttrs [.path [ascii "bincode"]] = some [.bincode] ∧ byHand [.path [ascii "bincode"]] = [] ∧
    parsePayloadAttrs [] = some [] ∧ byHand [] = [.encode, .encodeReferred, .decode, .size, .crc] ∧
    (parsePayloadAttrs [.assign (ascii "path") [ascii "a", ascii "b"], .path [ascii "no_auto_crc"], .path [ascii "bincode"]]).isSome = true ∧
    byHand [.assign (ascii "path") [ascii "a", ascii "b"], .path [ascii "no_auto_crc"], .path [ascii "bincode"]] = [.crc] := by decide

/-- What the documentation tells the user to implement (`brec_macros/src/lib.rs:129-143`, `site/docs/parts/payloads.md`): six traits, of
which `bincode` spares all; `PayloadCrc` only under `no_auto_crc`. -/
def documented (es : List AttrExpr) : List PTrait :=
  if given es "bincode" then (if given es "no_auto_crc" then [.crc] else [])
  else [.size, .sig, .staticSig, .encode, .encodeReferred, .decode]

/-- **C65**, the claim of the documentation. -/
def C65_full : Prop := ∀ es as, parsePayloadAttrs es = some as → (∀ e ∈ es, (∃ p, e = .assign (ascii "path") p) ∨
    e = .path [ascii "bincode"] ∨ e = .path [ascii "no_crc"] ∨ e = .path [ascii "no_auto_crc"]) → Accepted (genPayload as) (documented es)

/-- With `bincode`, and not both `no_auto_crc` and `no_crc`, the documentation is right. -/
theorem C65_documented_partial {es : List AttrExpr} {as : List PayloadAttr} (h : parsePayloadAttrs es = some as) (hb : given es "bincode" = true)
    (hh : given es "hooks" = false) (hs : given es "no_default_sig" = false) (hc : given es "no_auto_crc" = false ∨ given es "no_crc" = false) :
    Accepted (genPayload as) (documented es) := by
  rw [C65_by_hand h, documented, byHand, hb, hh, hs]
  rcases hc with hc | hc <;> rw [hc] <;> simp

example : let es := [AttrExpr.path [ascii "no_auto_crc"], .path [ascii "bincode"], .path [ascii "a", ascii "b"]]
    (parsePayloadAttrs es).isSome = true ∧ given es "bincode" = true ∧ given es "hooks" = false ∧ given es "no_default_sig" = false ∧
    given es "no_crc" = false ∧ documented es = [.crc] := by decide

/-- Without `bincode` it never is: the signature is implemented twice and `PayloadCrc` is missing. With `bincode, no_auto_crc, no_crc` the `PayloadCrc`
it asks for is implemented twice. -/
theorem C65_documented_not {es : List AttrExpr} {as : List PayloadAttr} (h : parsePayloadAttrs es = some as)
    (hc : given es "bincode" = false ∨ (given es "no_auto_crc" = true ∧ given es "no_crc" = true)) : ¬ Accepted (genPayload as) (documented es) := by
  rw [C65_by_hand h, documented, byHand]
  intro p
  generalize given es "hooks" = a at p
  generalize given es "no_default_sig" = b at p
  cases hbc : given es "bincode"
  · rw [hbc] at p
    have := p.mem_iff (a := PTrait.crc)
    revert this
    cases a <;> cases b <;> simp
  · rw [hbc] at p hc
    obtain ⟨h1, h2⟩ := hc.resolve_left (by simp)
    rw [h1, h2] at p
    have := p.mem_iff (a := PTrait.crc)
    revert this
    cases a <;> cases b <;> decide

/-- **C65 is false of the code**: a plain `#[payload]` with the six documented traits does not compile. -/
theorem C65_not : ¬ C65_full := by
  intro h
  exact C65_documented_not (es := []) rfl (Or.inl (by decide)) (h [] [] rfl (by simp))

/-- `no_crc` without `bincode` (the documented `#[payload(no_crc)]`) changes nothing at all. -/
theorem C65_no_crc_alone {es : List AttrExpr} {as : List PayloadAttr} (h : parsePayloadAttrs es = some as) (hb : given es "bincode" = false) :
    genPayload (as.filter (· ≠ .noCrc)) = genPayload as ∧ genCrc as = none := by
  have hb' := (attrHas_given h).2.2.1
  rw [hb] at hb'
  have hf : ∀ a, a ≠ PayloadAttr.noCrc → attrHas a (as.filter (· ≠ .noCrc)) = attrHas a as := by
    intro a ha
    rw [Bool.eq_iff_iff]
    simp [attrHas, List.any_eq_true, ha]
  constructor
  · rw [genPayload_by, genPayload_by, hf _ (by simp), hf _ (by simp), hf _ (by simp), hf _ (by simp), hb']
    simp [genBy]
  · simp [genCrc, hb']

example : parsePayloadAttrs [.path [ascii "no_crc"]] = some [.noCrc] ∧ given [.path [ascii "no_crc"]] "bincode" = false := by decide

section made
variable {Val : Type} {ser : Val → Option Bytes} {serSize : Val → Option Nat} {de : Bytes → Option Val} {crc : Val → Option ByteBlock}

/-- With `bincode` the checksum of a value is: four zeros under `no_crc`, with or without `no_auto_crc`; otherwise the hand-written one under
`no_auto_crc`; otherwise the CRC-32 of the encoded value. -/
theorem C65_checksum {es : List AttrExpr} {as : List PayloadAttr} (h : parsePayloadAttrs es = some as) (hb : given es "bincode" = true)
    (name : Bytes) (v : Val) :
    (given es "no_crc" = true → (madeTy name as Val ser serSize de crc).crc v = .ok (.len4 ⟨[0, 0, 0, 0], rfl⟩)) ∧
    (given es "no_crc" = false → given es "no_auto_crc" = true → ∀ b, crc v = some b → (madeTy name as Val ser serSize de crc).crc v = .ok b) ∧
    (given es "no_crc" = false → given es "no_auto_crc" = false → ∀ x, ser v = some x →
      ∃ b, (madeTy name as Val ser serSize de crc).crc v = .ok b ∧ b.asSlice = leBytes 4 (specCrc x)) := by
  obtain ⟨_, _, h3, h4, h5⟩ := attrHas_given h
  rw [hb] at h3
  refine ⟨?_, ?_, ?_⟩
  · intro hn
    rw [hn] at h5
    have hg : genCrc as = some .zeros := by rw [genCrc, h3, h5]; simp
    unfold PayloadTy.crc madeTy
    rw [hg]; rfl
  · intro hn ha b hbv
    rw [hn] at h5
    rw [ha] at h4
    have hg : genCrc as = none := by rw [genCrc, h3, h4, h5]; rfl
    unfold PayloadTy.crc madeTy
    rw [hg]
    show ioOut (crc v) = _
    rw [hbv]; rfl
  · intro hn ha x hx
    rw [hn] at h5
    rw [ha] at h4
    have hg : genCrc as = some .provided := by rw [genCrc, h3, h4, h5]; rfl
    refine ⟨PayloadTy.crcBlock x, ?_, ?_⟩
    · unfold PayloadTy.crc madeTy
      rw [hg]
      show (ioOut (ser v)).map _ = _
      rw [hx]; rfl
    · rw [← C51_crc32]; rfl

example : let es := [AttrExpr.path [ascii "bincode"], .path [ascii "no_crc"], .path [ascii "no_auto_crc"]]
    parsePayloadAttrs es = some [.bincode, .noCrc, .noAutoCrc] ∧ given es "bincode" = true ∧ given es "no_crc" = true := by decide

theorem payloadWord_path {s : Bytes} {p : List Bytes} : payloadWord s ≠ some (.path p) := by
  unfold payloadWord
  repeat' split
  all_goals simp

/-- The first path given, whatever else is given before or after it. -/
theorem payloadPath_given {es : List AttrExpr} {as : List PayloadAttr} (h : parsePayloadAttrs es = some as) : payloadPath as = ((es.filterMap givesPath).head?).getD [] := by
  induction es generalizing as with
  | nil =>
    rw [parsePayloadAttrs] at h
    injection h with h
    subst h
    rfl
  | cons e es ih =>
    cases e with
    | assign key p =>
      rw [parsePayloadAttrs] at h
      split at h
      · rename_i hk
        obtain ⟨as', h1, rfl⟩ := Option.map_eq_some_iff.mp h
        simp [payloadPath, givesPath, hk]
      · cases h
    | path p =>
      rcases p with _ | ⟨s, _ | ⟨t, p⟩⟩
      · rw [parsePayloadAttrs] at h
        · obtain ⟨as', h1, rfl⟩ := Option.map_eq_some_iff.mp h
          simp [payloadPath, givesPath]
        · intro s hs; cases hs
      · rw [parsePayloadAttrs] at h
        split at h
        · rename_i a ha
          obtain ⟨as', h1, rfl⟩ := Option.map_eq_some_iff.mp h
          have hp : payloadPath (a :: as') = payloadPath as' := by
            cases a with
            | path p => exact absurd ha payloadWord_path
            | _ => rfl
          rw [hp, ih h1]
          simp [givesPath]
        · rw [ih h]
          simp [givesPath]
      · rw [parsePayloadAttrs] at h
        · obtain ⟨as', h1, rfl⟩ := Option.map_eq_some_iff.mp h
          simp [payloadPath, givesPath]
        · intro s hs; cases hs
    | other => cases h

/-- The type's signature comes from its name and the first path given. -/
theorem C65_signature {es : List AttrExpr} {as : List PayloadAttr} (h : parsePayloadAttrs es = some as) (name : Bytes) (v : Val) :
    (madeTy name as Val ser serSize de crc).ssig.asSlice = leBytes 4 (specCrc ((((es.filterMap givesPath).head?).getD [] ++ [name]).flatMap withCapital)) ∧
    (madeTy name as Val ser serSize de crc).sig v = (madeTy name as Val ser serSize de crc).ssig := by
  refine ⟨?_, rfl⟩
  rw [← C51_crc32, List.flatMap_def, List.map_congr_left fun s _ => withCapital_eq s, ← payloadPath_given h]
  rfl

example : let es := [AttrExpr.path [ascii "bincode"], .path [ascii "a", ascii "b"], .assign (ascii "path") [ascii "c"]]
    parsePayloadAttrs es = some [.bincode, .path [ascii "a", ascii "b"], .path [ascii "c"]] ∧ ((es.filterMap givesPath).head?).getD [] = [ascii "a", ascii "b"] := by decide

end made

/-- Which items are errors. -/
def Refused (e : AttrExpr) : Prop := e = .other ∨ ∃ key p, e = .assign key p ∧ key ≠ ascii "path"

/-- **C65**, errors: a list is refused exactly if it contains a refused item; in particular no misspelt word is. -/
theorem C65_refused (es : List AttrExpr) : parsePayloadAttrs es = none ↔ ∃ e ∈ es, Refused e := by
  induction es with
  | nil => simp [parsePayloadAttrs]
  | cons e es ih =>
    have hm : ∀ (f : List PayloadAttr → List PayloadAttr), (parsePayloadAttrs es).map f = none ↔ ∃ e ∈ es, Refused e := by
      intro f
      rw [Option.map_eq_none_iff, ih]
    have hs : ¬ Refused e → ((∃ x ∈ e :: es, Refused x) ↔ ∃ x ∈ es, Refused x) := by
      intro hn
      simp [hn]
    cases e with
    | assign key p =>
      rw [parsePayloadAttrs]
      split
      · rename_i hk
        rw [hs (by simp [Refused, hk]), hm]
      · rename_i hk
        simp [Refused, hk]
    | other => simp [parsePayloadAttrs, Refused]
    | path p =>
      rw [hs (by simp [Refused])]
      rcases p with _ | ⟨s, _ | ⟨t, p⟩⟩
      · exact hm _
      · rw [parsePayloadAttrs]
        split
        · exact hm _
        · exact ih
      · exact hm _

/-- The claim: a word that is none of the five is an error or has an effect. -/
def C65_words_full : Prop := ∀ s : Bytes, s ∉ [ascii "no_default_sig", ascii "bincode", ascii "hooks", ascii "no_auto_crc", ascii "no_crc"] →
  ∀ es as, parsePayloadAttrs es = some as → parsePayloadAttrs (.path [s] :: es) = none ∨ ∃ as', parsePayloadAttrs (.path [s] :: es) = some as' ∧ as' ≠ as

/-- Every other single word is ignored, wherever it stands: a module name, or a misspelt attribute. -/
theorem C65_word_ignored {s : Bytes} (hs : s ∉ [ascii "no_default_sig", ascii "bincode", ascii "hooks", ascii "no_auto_crc", ascii "no_crc"])
    (pre post : List AttrExpr) : parsePayloadAttrs (pre ++ .path [s] :: post) = parsePayloadAttrs (pre ++ post) := by
  simp only [List.mem_cons, List.not_mem_nil, or_false, not_or] at hs
  have hw : payloadWord s = none := by simp [payloadWord, hs]
  induction pre with
  | nil => rw [List.nil_append, List.nil_append, parsePayloadAttrs, hw]
  | cons e pre ih =>
    cases e with
    | assign key p => rw [List.cons_append, List.cons_append, parsePayloadAttrs, parsePayloadAttrs, ih]
    | other => rfl
    | path p =>
      rcases p with _ | ⟨t, _ | ⟨t', p⟩⟩
      · exact congrArg (Option.map _) ih
      · rw [List.cons_append, List.cons_append, parsePayloadAttrs, parsePayloadAttrs, ih]
      · exact congrArg (Option.map _) ih

theorem C65_words_not : ¬ C65_words_full := by
  intro h
  have := C65_word_ignored (s := ascii "nocrc") (by decide) [] [.path [ascii "bincode"]]
  rcases h (ascii "nocrc") (by decide) [.path [ascii "bincode"]] [.bincode] rfl with h | ⟨as', h, hne⟩
  · revert h; decide
  · rw [List.nil_append, List.nil_append] at this
    rw [this] at h
    injection h with h
    exact hne h.symm

/-! ## C66: `generate!(…)` -/

/-- **C66**, errors: only `no_default_payload` and `payloads_derive = "…"` are let through. -/
theorem C66_refused (es : List CfgExpr) :
    parseConfig es = none ↔ ∃ e ∈ es, e ≠ .path [ascii "no_default_payload"] ∧ ∀ s, e ≠ .assign (ascii "payloads_derive") (some s) := by
  induction es with
  | nil => simp [parseConfig]
  | cons e es ih =>
    cases e with
    | assign key v =>
      cases v with
      | none => simp [parseConfig]
      | some s =>
        rw [parseConfig]
        split
        · rename_i hk
          subst hk
          simp [ih]
        · rename_i hk
          simp [hk]
    | other => simp [parseConfig]
    | path p =>
      rw [parseConfig]
      split
      · rename_i hk
        subst hk
        simp [ih]
      · rename_i hk
        simp [hk]

/-- Pieces put together with commas. -/
def commas : List Bytes → Bytes
  | [] => []
  | [p] => p
  | p :: q :: ps => p ++ (0x2c : Byte) :: commas (q :: ps)

theorem splitComma_ne (s : Bytes) : splitComma s ≠ [] := by
  cases s with
  | nil => simp [splitComma]
  | cons c s =>
    rw [splitComma]
    split
    · simp
    · split <;> simp

theorem splitComma_piece {p : Bytes} (hp : (0x2c : Byte) ∉ p) : splitComma p = [p] := by
  induction p with
  | nil => rfl
  | cons c p ih =>
    simp only [List.mem_cons, not_or] at hp
    rw [splitComma, if_neg (Ne.symm hp.1), ih hp.2]

theorem splitComma_cons {p : Bytes} (hp : (0x2c : Byte) ∉ p) (s : Bytes) : splitComma (p ++ (0x2c : Byte) :: s) = p :: splitComma s := by
  induction p with
  | nil => rw [List.nil_append, splitComma, if_pos rfl]
  | cons c p ih =>
    simp only [List.mem_cons, not_or] at hp
    rw [List.cons_append, splitComma, if_neg (Ne.symm hp.1), ih hp.2]

theorem splitComma_commas : ∀ {ps : List Bytes}, ps ≠ [] → (∀ p ∈ ps, (0x2c : Byte) ∉ p) → splitComma (commas ps) = ps
  | [p], _, h => by rw [commas, splitComma_piece (h p (by simp))]
  | p :: q :: ps, _, h => by
    rw [commas, splitComma_cons (h p (by simp)), splitComma_commas (by simp) (fun x hx => h x (by simp [hx]))]

/-- Blanks around a piece. -/
def Blanks (b : Bytes) : Prop := ∀ c ∈ b, isBlank c = true

/-- The text has no blank at either end. -/
def Tight (s : Bytes) : Prop := (∀ c, s.head? = some c → isBlank c = false) ∧ ∀ c, s.getLast? = some c → isBlank c = false

theorem dropWhile_blanks {b s : Bytes} (hb : Blanks b) (hs : ∀ c, s.head? = some c → isBlank c = false) : (b ++ s).dropWhile isBlank = s := by
  induction b with
  | nil =>
    cases s with
    | nil => rfl
    | cons c s => rw [List.nil_append, List.dropWhile_cons_of_neg (by simp [hs c rfl])]
  | cons c b ih =>
    rw [List.cons_append, List.dropWhile_cons_of_pos (hb c (by simp))]
    exact ih fun x hx => hb x (by simp [hx])

theorem trim_tight {b s b' : Bytes} (hb : Blanks b) (hs : Tight s) (hb' : Blanks b') : trim (b ++ s ++ b') = s := by
  unfold trim
  cases s with
  | nil =>
    have : (b ++ [] ++ b').dropWhile isBlank = [] := by
      have := dropWhile_blanks (b := b ++ b') (s := []) (fun c hc => (List.mem_append.mp hc).elim (hb c) (hb' c)) (by simp)
      simpa using this
    rw [this]; rfl
  | cons c s =>
    rw [List.append_assoc, dropWhile_blanks hb (by simpa using hs.1), List.reverse_append, dropWhile_blanks (fun x hx => hb' x (by simpa using hx)),
      List.reverse_reverse]
    intro x hx
    exact hs.2 x (by rw [List.head?_reverse] at hx; exact hx)

/-- The first `payloads_derive` asks for the derives `ps`: they stand in its string between commas, with any blanks around them. -/
def Requests (es : List CfgExpr) (ps : List Bytes) : Prop :=
  (ps = [] ∧ ∀ s, .assign (ascii "payloads_derive") (some s) ∉ es) ∨
  (ps ≠ [] ∧ ∃ pre post, ∃ qs : List (Bytes × Bytes × Bytes), es = pre ++ .assign (ascii "payloads_derive") (some (commas (qs.map fun q => q.1 ++ q.2.1 ++ q.2.2))) :: post ∧
    (∀ s, .assign (ascii "payloads_derive") (some s) ∉ pre) ∧ ps = qs.map (·.2.1) ∧
    ∀ q ∈ qs, Blanks q.1 ∧ Blanks q.2.2 ∧ Tight q.2.1 ∧ (0x2c : Byte) ∉ q.2.1)

theorem blanks_comma {b : Bytes} (h : Blanks b) : (0x2c : Byte) ∉ b := by
  intro hm
  exact absurd (h _ hm) (by decide)

theorem payloadDerive_requests (isPath : Bytes → Bool) {es : List CfgExpr} {cfg : List Setting} {ps : List Bytes} (h : parseConfig es = some cfg)
    (hr : Requests es ps) : payloadDerive isPath cfg = asPaths isPath ps := by
  induction es generalizing cfg with
  | nil =>
    injection h with h
    subst h
    rcases hr with ⟨rfl, _⟩ | ⟨_, pre, post, qs, he, _⟩
    · simp [payloadDerive, asPaths]
    · exact absurd he (by simp)
  | cons e es ih =>
    have step : ∀ {cfg'}, e = .path [ascii "no_default_payload"] → parseConfig es = some cfg' → payloadDerive isPath cfg' = asPaths isPath ps := by
      rintro cfg' rfl hc
      apply ih hc
      rcases hr with ⟨h1, h2⟩ | ⟨h1, pre, post, qs, he, h2, h3⟩
      · exact Or.inl ⟨h1, fun s hs => h2 s (by simp [hs])⟩
      · cases pre with
        | nil => injection he with he; cases he
        | cons a pre =>
          injection he with h4 h5
          exact Or.inr ⟨h1, pre, post, qs, h5, fun s hs => h2 s (by simp [hs]), h3⟩
    cases e with
    | other => cases h
    | path p =>
      rw [parseConfig] at h
      split at h
      · rename_i hk
        subst hk
        obtain ⟨cfg', hc, rfl⟩ := Option.map_eq_some_iff.mp h
        rw [payloadDerive]
        exact step rfl hc
      · cases h
    | assign key v =>
      cases v with
      | none => cases h
      | some s =>
        rw [parseConfig] at h
        split at h
        · rename_i hk
          subst hk
          obtain ⟨cfg', hc, rfl⟩ := Option.map_eq_some_iff.mp h
          rw [payloadDerive]
          rcases hr with ⟨_, h2⟩ | ⟨h1, pre, post, qs, he, h2, h3, h4⟩
          · exact absurd (List.mem_cons_self) (h2 s)
          · cases pre with
            | cons a pre =>
              injection he with h5 h6
              exact absurd (by rw [← h5]; simp) (h2 s)
            | nil =>
              injection he with h5 h6
              injection h5 with h5 h7
              injection h7 with h7
              have hq : qs ≠ [] := by rintro rfl; exact h1 h3
              rw [h7, splitComma_commas (by simpa using hq), h3, List.map_map]
              · congr 1
                apply List.map_congr_left
                intro q hq
                obtain ⟨k1, k2, k3, _⟩ := h4 q hq
                exact trim_tight k1 k3 k2
              · intro p hp
                obtain ⟨q, hq, rfl⟩ := List.mem_map.mp hp
                obtain ⟨k1, k2, _, k4⟩ := h4 q hq
                simp only [List.mem_append, not_or]
                exact ⟨⟨blanks_comma k1, k4⟩, blanks_comma k2⟩
        · cases h

theorem splitComma_trailing (s : Bytes) : splitComma (s ++ ascii ",") = splitComma s ++ [[]] := by
  induction s with
  | nil => decide
  | cons c s ih =>
    rw [List.cons_append, splitComma, splitComma, ih]
    split
    · rfl
    · cases hs : splitComma s with
      | nil => exact absurd hs (splitComma_ne _)
      | cons p qs => rfl

/-- Only the first `payloads_derive` counts. -/
theorem payloadDerive_first (isPath : Bytes → Bool) {pre post : List CfgExpr} {s : Bytes} {cfg : List Setting}
    (hpre : ∀ s, .assign (ascii "payloads_derive") (some s) ∉ pre)
    (hc : parseConfig (pre ++ .assign (ascii "payloads_derive") (some s) :: post) = some cfg) :
    payloadDerive isPath cfg = asPaths isPath ((splitComma s).map trim) := by
  induction pre generalizing cfg with
  | nil =>
    rw [List.nil_append, parseConfig, if_pos rfl] at hc
    obtain ⟨cfg', _, rfl⟩ := Option.map_eq_some_iff.mp hc
    rfl
  | cons e pre ih =>
    have ih := fun {cfg} => ih (cfg := cfg) fun s hs => hpre s (by simp [hs])
    rw [List.cons_append] at hc
    cases e with
    | other => cases hc
    | path p =>
      rw [parseConfig] at hc
      split at hc
      · obtain ⟨cfg', h, rfl⟩ := Option.map_eq_some_iff.mp hc
        exact (show payloadDerive isPath (.noDefaultPayload :: cfg') = payloadDerive isPath cfg' from rfl).trans (ih h)
      · cases hc
    | assign key v =>
      cases v with
      | none => cases hc
      | some t =>
        rw [parseConfig] at hc
        split at hc
        · rename_i hk
          exact absurd (by simp [hk]) (hpre t)
        · cases hc

theorem mem_common {ds : List (List Bytes)} {init : List Bytes} {d : Bytes} :
    d ∈ ds.foldl (fun common v => common.filter fun d => v.contains d) init ↔ d ∈ init ∧ ∀ v ∈ ds, d ∈ v := by
  induction ds generalizing init with
  | nil => simp
  | cons v ds ih =>
    rw [List.foldl_cons, ih, List.mem_filter]
    simp [and_assoc]

theorem nodup_common {ds : List (List Bytes)} {init : List Bytes} (h : init.Nodup) :
    (ds.foldl (fun common v => common.filter fun d => v.contains d) init).Nodup := by
  induction ds generalizing init with
  | nil => exact h
  | cons v ds ih => exact ih (h.filter _)

/-- The declared payloads: variant names and derives. -/
abbrev Decls := List (Bytes × List Bytes)

/-- All payloads derive it, and there are payloads. -/
def Shared (ps : Decls) (d : Bytes) : Prop := ps ≠ [] ∧ ∀ p ∈ ps, d ∈ p.2

theorem commonDerives_spec {isPath : Bytes → Bool} {ps : Decls} (hp : ∀ p ∈ ps, ∀ d ∈ p.2, isPath d = true) :
    ∃ l, commonDerives isPath (ps.map (·.2)) = some l ∧ (∀ d, d ∈ l ↔ Shared ps d) ∧ ((∀ p ∈ ps, p.2.Nodup) → l.Nodup) := by
  have hmem : ∀ d, d ∈ (ps.map (·.2)).foldl (fun common v => common.filter fun d => v.contains d) ((ps.map (·.2)).head?.getD []) ↔ Shared ps d := by
    intro d
    rw [mem_common]
    cases ps with
    | nil => simp [Shared]
    | cons p ps =>
      simp only [Shared, List.map_cons, List.head?_cons, Option.getD_some, List.mem_cons, List.mem_map, forall_eq_or_imp, ne_eq, List.cons_ne_nil,
        not_false_eq_true, true_and]
      constructor
      · rintro ⟨_, h1, h2⟩
        exact ⟨h1, fun q hq => h2 _ ⟨q, hq, rfl⟩⟩
      · rintro ⟨h1, h2⟩
        refine ⟨h1, h1, ?_⟩
        rintro v ⟨q, hq, rfl⟩
        exact h2 q hq
  refine ⟨_, ?_, hmem, ?_⟩
  · rw [commonDerives, asPaths, if_pos]
    rw [List.all_eq_true]
    intro d hd
    have := (hmem d).mp hd
    obtain ⟨p, hpm⟩ := List.exists_mem_of_ne_nil ps this.1
    exact hp p hpm d (this.2 p hpm)
  · intro hn
    apply nodup_common
    cases ps with
    | nil => simp
    | cons p ps => exact hn p (by simp)

/-- The parameters and declarations of a crate for which the documentation's promise is kept. -/
structure Plain (isPath : Bytes → Bool) (ps : Decls) (es : List CfgExpr) (own : List Bytes) : Prop where
  paths : ∀ p ∈ ps, ∀ d ∈ p.2, isPath d = true
  once : ∀ p ∈ ps, p.2.Nodup
  requests : Requests es own
  ownPaths : ∀ d ∈ own, isPath d = true
  ownOnce : own.Nodup
  ownNew : ∀ d ∈ own, ¬ Shared ps d
  names : (ps.map (·.1)).Nodup
  notBuiltin : ∀ p ∈ ps, p.1 ≠ ascii "Bytes" ∧ p.1 ≠ ascii "String"
  noDefault : ¬ Shared ps (ascii "Default") ∧ ascii "Default" ∉ own
  noCopy : ¬ Shared ps (ascii "Copy") ∧ ascii "Copy" ∉ own
  builtins : .path [ascii "no_default_payload"] ∉ es

/-- `no_default_payload` is among the parameters. -/
theorem isNoDefault_iff {es : List CfgExpr} {cfg : List Setting} (h : parseConfig es = some cfg) :
    isNoDefault cfg = true ↔ .path [ascii "no_default_payload"] ∈ es := by
  induction es generalizing cfg with
  | nil => injection h with h; subst h; simp [isNoDefault]
  | cons e es ih =>
    cases e with
    | other => cases h
    | path p =>
      rw [parseConfig] at h
      split at h
      · rename_i hk
        subst hk
        obtain ⟨cfg', hc, rfl⟩ := Option.map_eq_some_iff.mp h
        simp [isNoDefault]
      · cases h
    | assign key v =>
      cases v with
      | none => cases h
      | some s =>
        rw [parseConfig] at h
        split at h
        · obtain ⟨cfg', hc, rfl⟩ := Option.map_eq_some_iff.mp h
          have := ih hc
          simpa [isNoDefault] using this
        · cases h

/-- **C66** for a plain crate: the payload enum compiles, its variants are the declared ones and the two built-in ones, and it derives what all
payloads derive and what the parameter asks for, nothing else. The aliases are there exactly if there are blocks. -/
theorem C66_plain_partial {isPath : Bytes → Bool} {ps : Decls} {es : List CfgExpr} {own : List Bytes} {cfg : List Setting} (hp : Plain isPath ps es own)
    (hc : parseConfig es = some cfg) (n : Nat) :
    ∃ g e, generate isPath n ps cfg = some g ∧ g.payload = some e ∧ e.Compiles ∧ e.variants = ps.map (·.1) ++ [ascii "Bytes", ascii "String"] ∧
      (∀ d, d ∈ e.derives ↔ Shared ps d ∨ d ∈ own) ∧ (g.packet = true ↔ n ≠ 0) ∧ (g.blocks = true ↔ n ≠ 0) := by
  have hnd : isNoDefault cfg = false := by
    rw [Bool.eq_false_iff]
    intro h
    exact hp.builtins ((isNoDefault_iff hc).mp h)
  obtain ⟨l, hl, hm, hn⟩ := commonDerives_spec (isPath := isPath) hp.paths
  have ho : payloadDerive isPath cfg = some own := by
    rw [payloadDerive_requests isPath hc hp.requests, asPaths, if_pos]
    rw [List.all_eq_true]
    exact hp.ownPaths
  have hg : genEnum isPath ps cfg = some ⟨ps.map (·.1) ++ builtin, ps.map (·.1) ++ builtin, l ++ own⟩ := by
    rw [genEnum, hl, ho, hnd]
    rfl
  refine ⟨⟨n != 0, some ⟨ps.map (·.1) ++ builtin, ps.map (·.1) ++ builtin, l ++ own⟩, n != 0⟩, _, ?_, rfl, ⟨?_, ?_, ?_, ?_, ?_⟩, rfl, ?_, ?_, ?_⟩
  · rw [generate, hnd, Bool.and_false, if_neg (by simp), hg]
  · show (ps.map (·.1) ++ builtin).Nodup
    rw [List.nodup_append]
    refine ⟨hp.names, by decide, ?_⟩
    intro a ha b hb hab
    subst hab
    obtain ⟨p, hpm, rfl⟩ := List.mem_map.mp ha
    have := hp.notBuiltin p hpm
    simp only [builtin, List.mem_cons, List.not_mem_nil, or_false] at hb
    exact hb.elim this.1 this.2
  · exact fun a ha => ha
  · show (l ++ own).Nodup
    rw [List.nodup_append]
    refine ⟨hn hp.once, hp.ownOnce, ?_⟩
    intro a ha b hb hab
    subst hab
    exact hp.ownNew a hb ((hm a).mp ha)
  · show _ ∉ l ++ own
    rw [List.mem_append, hm]
    exact fun h => h.elim hp.noDefault.1 hp.noDefault.2
  · intro h
    have h : _ ∈ l ++ own := h
    rw [List.mem_append, hm] at h
    exact (h.elim hp.noCopy.1 hp.noCopy.2).elim
  · intro d
    show d ∈ l ++ own ↔ _
    rw [List.mem_append, hm]
  · simp
  · simp

/-- Two payloads deriving `Debug, Clone` and `Clone, Debug, PartialEq`, and `generate!(payloads_derive = "PartialEq, Eq")`. -/
example : Plain (fun _ => true) [(ascii "A", [ascii "Debug", ascii "Clone"]), (ascii "B", [ascii "Clone", ascii "Debug", ascii "PartialEq"])]
    [.assign (ascii "payloads_derive") (some (ascii "PartialEq, Eq"))] [ascii "PartialEq", ascii "Eq"] where
  paths := by simp
  once := by decide
  requests := Or.inr ⟨by decide, [], [], [([], ascii "PartialEq", []), (ascii " ", ascii "Eq", [])], by decide, by simp, by decide, by
    intro q hq
    simp only [List.mem_cons, List.not_mem_nil, or_false] at hq
    rcases hq with rfl | rfl
    · refine ⟨by simp [Blanks], by simp [Blanks], ⟨?_, ?_⟩, by decide⟩ <;> intro c hc <;> injection hc with hc <;> subst hc <;> decide
    · refine ⟨by unfold Blanks; decide, by simp [Blanks], ⟨?_, ?_⟩, by decide⟩ <;> intro c hc <;> injection hc with hc <;> subst hc <;> decide⟩
  ownPaths := by simp
  ownOnce := by decide
  ownNew := by
    intro d hd h
    have h1 := h.2 (ascii "A", [ascii "Debug", ascii "Clone"]) (by simp)
    simp only [List.mem_cons, List.not_mem_nil, or_false] at hd
    rcases hd with rfl | rfl <;> revert h1 <;> decide
  names := by decide
  notBuiltin := by decide
  noDefault := ⟨fun h => absurd (h.2 (ascii "A", [ascii "Debug", ascii "Clone"]) (by simp)) (by decide), by decide⟩
  noCopy := ⟨fun h => absurd (h.2 (ascii "A", [ascii "Debug", ascii "Clone"]) (by simp)) (by decide), by decide⟩
  builtins := by decide

/-- The code compiles. -/
def Builds (isPath : Bytes → Bool) (n : Nat) (ps : Decls) (es : List CfgExpr) : Prop :=
  ∃ cfg g, parseConfig es = some cfg ∧ generate isPath n ps cfg = some g ∧ ∀ e, g.payload = some e → e.Compiles

/-- A crate all of whose payloads derive `Default` does not compile, whatever the parameters: the enum derives it too. (`Copy` likewise.) -/
theorem C66_shared_default (isPath : Bytes → Bool) (n : Nat) {ps : Decls} (hp : ∀ p ∈ ps, ∀ d ∈ p.2, isPath d = true) (es : List CfgExpr)
    (h : Shared ps (ascii "Default") ∨ (Shared ps (ascii "Copy") ∧ .path [ascii "no_default_payload"] ∉ es)) : ¬ Builds isPath n ps es := by
  rintro ⟨cfg, g, hc, hg, hall⟩
  have hne : ps.isEmpty = false := by
    have : ps ≠ [] := h.elim (·.1) (·.1.1)
    simpa using this
  obtain ⟨l, hl, hm, _⟩ := commonDerives_spec (isPath := isPath) hp
  rw [generate, hne, Bool.false_and, if_neg (by simp)] at hg
  unfold genEnum at hg
  rw [hl] at hg
  cases ho : payloadDerive isPath cfg with
  | none => rw [ho] at hg; cases hg
  | some own =>
    rw [ho] at hg
    injection hg with hg
    subst hg
    obtain ⟨_, _, _, h4, h5⟩ := hall _ rfl
    rcases h with h | ⟨h, hnd⟩
    · exact h4 (List.mem_append_left _ ((hm _).mpr h))
    · have hnd : isNoDefault cfg = false := by
        rw [Bool.eq_false_iff]
        exact fun h => hnd ((isNoDefault_iff hc).mp h)
      refine (h5 (List.mem_append_left _ ((hm _).mpr h))).1 ?_
      show _ ∈ _ ++ _
      rw [hnd]
      exact List.mem_append_right _ (by decide)

/-- With `no_default_payload` the code compiles only if no payload is declared at all; then there is no payload enum and there are no aliases. -/
theorem C66_no_default_payload (isPath : Bytes → Bool) (n : Nat) {ps : Decls} (hb : ∀ p ∈ ps, p.1 ≠ ascii "Bytes" ∧ p.1 ≠ ascii "String")
    {es : List CfgExpr} {cfg : List Setting} (hc : parseConfig es = some cfg) (hn : .path [ascii "no_default_payload"] ∈ es) :
    (Builds isPath n ps es ↔ ps = []) ∧ (ps = [] → generate isPath n ps cfg = some ⟨n != 0, none, false⟩) := by
  have hnd := (isNoDefault_iff hc).mpr hn
  have h2 : ps = [] → generate isPath n ps cfg = some ⟨n != 0, none, false⟩ := by
    rintro rfl
    rw [generate, hnd]
    rfl
  refine ⟨⟨?_, ?_⟩, h2⟩
  · rintro ⟨cfg', g, hc', hg, hall⟩
    rw [hc] at hc'
    injection hc' with hc'
    subst hc'
    cases ps with
    | nil => rfl
    | cons p ps =>
      exfalso
      rw [generate, List.isEmpty_cons, Bool.false_and, if_neg (by simp)] at hg
      unfold genEnum at hg
      revert hg
      cases commonDerives isPath ((p :: ps).map (·.2)) with
      | none => intro hg; cases hg
      | some l =>
        cases payloadDerive isPath cfg with
        | none => intro hg; cases hg
        | some own =>
          intro hg
          injection hg with hg
          subst hg
          have := (hall _ rfl).2.1 (ascii "Bytes") (List.mem_append_right _ (by decide))
          have this : _ ∈ _ ++ _ := this
          rw [hnd] at this
          simp only [if_true, List.append_nil] at this
          obtain ⟨q, hq, he⟩ := List.mem_map.mp this
          exact (hb q hq).1 he
  · intro h
    exact ⟨cfg, _, hc, h2 h, fun e he => by cases he⟩

example : parseConfig [.path [ascii "no_default_payload"]] = some [.noDefaultPayload] ∧
    CfgExpr.path [ascii "no_default_payload"] ∈ [CfgExpr.path [ascii "no_default_payload"]] := by decide

/-- **C66**, the claim of the documentation: any declarations with distinct names, deriving anything once, with any of the two parameters asking for paths. -/
def C66_full : Prop := ∀ (isPath : Bytes → Bool) (n : Nat) (ps : Decls) (es : List CfgExpr) (own : List Bytes),
  (∀ p ∈ ps, ∀ d ∈ p.2, isPath d = true) → (∀ p ∈ ps, p.2.Nodup) → (ps.map (·.1)).Nodup → (parseConfig es).isSome = true → Requests es own →
  own.Nodup → (∀ d ∈ own, isPath d = true) → Builds isPath n ps es

theorem C66_not : ¬ C66_full := by
  intro h
  refine C66_shared_default (fun _ => true) 1 (ps := [(ascii "A", [ascii "Default"])]) (by simp) [] (Or.inl ⟨by simp, by decide⟩) ?_
  exact h _ _ _ _ [] (by simp) (by decide) (by decide) (by decide) (Or.inl ⟨rfl, by simp⟩) (by simp) (by simp)

/-- Other crates that do not compile: a derive asked for that all payloads have already; a payload called `String`; a list of derives that ends with
a comma. -/
theorem C66_others (isPath : Bytes → Bool) (h0 : isPath [] = false) :
    ¬ Builds (fun _ => true) 1 [(ascii "A", [ascii "Debug"])] [.assign (ascii "payloads_derive") (some (ascii "Debug"))] ∧
    ¬ Builds (fun _ => true) 1 [(ascii "String", [ascii "Debug"])] [] ∧
    ∀ n ps s pre post, (∀ s, .assign (ascii "payloads_derive") (some s) ∉ pre) →
      .path [ascii "no_default_payload"] ∉ pre ++ .assign (ascii "payloads_derive") (some (s ++ ascii ",")) :: post →
      ¬ Builds isPath n (ps : Decls) (pre ++ .assign (ascii "payloads_derive") (some (s ++ ascii ",")) :: post) := by
  refine ⟨?_, ?_, ?_⟩
  · rintro ⟨cfg, g, hc, hg, hall⟩
    injection hc with hc
    subst hc
    injection hg with hg
    subst hg
    have := hall _ rfl
    revert this
    decide
  · rintro ⟨cfg, g, hc, hg, hall⟩
    injection hc with hc
    subst hc
    injection hg with hg
    subst hg
    have := hall _ rfl
    revert this
    decide
  · rintro n ps s pre post hpre hm ⟨cfg, g, hc, hg, -⟩
    have hnd : isNoDefault cfg = false := by
      rw [Bool.eq_false_iff]
      exact fun h => hm ((isNoDefault_iff hc).mp h)
    have hd := payloadDerive_first isPath hpre hc
    have hx : payloadDerive isPath cfg = none := by
      rw [hd, asPaths, if_neg]
      rw [splitComma_trailing, List.map_append, List.all_append]
      have : trim [] = [] := rfl
      simp [this, h0]
    rw [generate, hnd, Bool.and_false, if_neg (by simp), genEnum, hx] at hg
    revert hg
    cases commonDerives isPath (ps.map (·.2)) <;> intro hg <;> cases hg

end Brec.Props
