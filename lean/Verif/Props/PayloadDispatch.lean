import Verif.Inversion
/-!
# Property C74: the signature alone decides as which payload bytes are read
-/

namespace Brec.Props

open Brec

/-- An observation of the variant of a value and of what it holds. Two values of enums with different lists of variants are the same if all observations are. -/
def look {α : Type} (f : (T : PayloadTy) → T.Val → α) : (vs : List PayloadTy) → PVal vs → α
  | [], v => nomatch v
  | T :: _, .inl v => f T v
  | _ :: Ts, .inr v => look f Ts v

/-- The same inside a `ReadStatus`. -/
def seenStatus {α β : Type} (f : α → β) : Status α → Status β
  | .success a => .success (f a)
  | .notEnough n => .notEnough n

theorem map_map {α β γ : Type} (o : Out α) (f : α → β) (g : β → γ) : (o.map f).map g = o.map (g ∘ f) := by cases o <;> rfl

theorem read_other {T : PayloadTy} {h : PayloadHeader} (hs : T.ssig ≠ h.sig) (s : Bytes) : (T.read h).run s = (.err .sigDismatch, s) := by
  unfold PayloadTy.read
  rw [if_pos (Ne.symm hs)]; rfl

theorem read_not_sig {T : PayloadTy} {h : PayloadHeader} (hs : T.ssig = h.sig) (s : Bytes) : ((T.read h).run s).1 ≠ .err .sigDismatch := by
  intro e
  have := (PayloadTy.read_sig (s' := ((T.read h).run s).2) (Prod.ext e rfl)).1
  exact this hs.symm

/-- Nobody has the signature. -/
def Unknown (vs : List PayloadTy) (h : PayloadHeader) : Prop := ∀ T ∈ vs, T.ssig ≠ h.sig

/-- `T` has the signature, and nobody else. -/
def Only (vs : List PayloadTy) (h : PayloadHeader) (T : PayloadTy) : Prop := T ∈ vs ∧ T.ssig = h.sig ∧ ∀ U ∈ vs, U.ssig = h.sig → U = T

theorem unknown_cons {T : PayloadTy} {Ts : List PayloadTy} {h : PayloadHeader} (hu : Unknown (T :: Ts) h) : T.ssig ≠ h.sig ∧ Unknown Ts h :=
  ⟨hu T List.mem_cons_self, fun U hU => hu U (List.mem_cons_of_mem _ hU)⟩

theorem only_cons {T U : PayloadTy} {Ts : List PayloadTy} {h : PayloadHeader} (ho : Only (T :: Ts) h U) (hs : T.ssig ≠ h.sig) : Only Ts h U := by
  obtain ⟨h1, h2, h3⟩ := ho
  refine ⟨?_, h2, fun V hV => h3 V (List.mem_cons_of_mem _ hV)⟩
  rcases List.mem_cons.mp h1 with rfl | h1
  · exact absurd h2 hs
  · exact h1

/-! ## The stream reader -/

theorem read_unknown {vs : List PayloadTy} {h : PayloadHeader} (hu : Unknown vs h) (s : Bytes) : (PEnum.read h vs).run s = (.err .sigDismatch, s) := by
  induction vs with
  | nil => rfl
  | cons T Ts ih =>
    obtain ⟨h1, h2⟩ := unknown_cons hu
    simp only [PEnum.read, read_other h1, ih h2]
    rfl

theorem read_only {α : Type} {f : (T : PayloadTy) → T.Val → α} {vs : List PayloadTy} {h : PayloadHeader} {T : PayloadTy} (ho : Only vs h T) (s : Bytes) :
    ((PEnum.read h vs).run s).1.map (look f vs) = ((T.read h).run s).1.map (f T) ∧ ((PEnum.read h vs).run s).2 = ((T.read h).run s).2 := by
  induction vs with
  | nil => cases ho.1
  | cons U Us ih =>
    by_cases hs : U.ssig = h.sig
    · obtain rfl := ho.2.2 U List.mem_cons_self hs
      have hn := read_not_sig hs s
      simp only [PEnum.read]
      rcases hr : (U.read h).run s with ⟨o, s'⟩
      rw [hr] at hn
      rcases o with v | e | _
      · exact ⟨rfl, rfl⟩
      · cases e <;> first | exact ⟨rfl, rfl⟩ | exact absurd rfl hn
      · exact ⟨rfl, rfl⟩
    · obtain ⟨h1, h2⟩ := ih (only_cons ho hs)
      simp only [PEnum.read, read_other hs]
      exact ⟨by rw [map_map]; exact h1, h2⟩

/-! ## The buffered reader -/

theorem chunks_fail {α : Type} {x : P α} {e : Err} (h : ∀ s, x.run s = (.err e, s)) (cs : Chunks) :
    (Chunks.run x cs).1 = .err e ∧ (Chunks.run x cs).2.flatten = cs.flatten := by
  rw [Chunks.run, h]
  exact ⟨rfl, by rw [Chunks.flatten_skip]; simp⟩

theorem tryBuf_other {T : PayloadTy} {h : PayloadHeader} (hs : T.ssig ≠ h.sig) (cs : Chunks) :
    (T.tryBuf h cs).1 = .err .sigDismatch ∧ (T.tryBuf h cs).2.flatten = cs.flatten := by
  obtain ⟨h1, h2⟩ := chunks_fail (read_other hs) cs
  unfold PayloadTy.tryBuf
  exact ⟨by rw [h1]; rfl, h2⟩

theorem tryBuf_flatten (T : PayloadTy) (h : PayloadHeader) {cs cs' : Chunks} (e : cs'.flatten = cs.flatten) :
    (T.tryBuf h cs').1 = (T.tryBuf h cs).1 ∧ (T.tryBuf h cs').2.flatten = (T.tryBuf h cs).2.flatten := by
  unfold PayloadTy.tryBuf Chunks.run
  exact ⟨by rw [e], by simp only [Chunks.flatten_skip, e]⟩

theorem tryBuf_unknown {vs : List PayloadTy} {h : PayloadHeader} (hu : Unknown vs h) (cs : Chunks) :
    (PEnum.tryBuf h vs cs).1 = .err .sigDismatch ∧ (PEnum.tryBuf h vs cs).2.flatten = cs.flatten := by
  induction vs generalizing cs with
  | nil => exact ⟨rfl, rfl⟩
  | cons T Ts ih =>
    obtain ⟨h1, h2⟩ := unknown_cons hu
    obtain ⟨h3, h4⟩ := tryBuf_other h1 cs
    rw [PEnum.tryBuf]
    rcases hr : T.tryBuf h cs with ⟨o, cs'⟩
    rw [hr] at h3 h4
    simp only at h3 h4
    subst h3
    obtain ⟨h5, h6⟩ := ih h2 cs'
    exact ⟨by simp only [h5], h6.trans h4⟩

theorem tryBuf_only {α : Type} {f : (T : PayloadTy) → T.Val → α} {vs : List PayloadTy} {h : PayloadHeader} {T : PayloadTy} (ho : Only vs h T) (cs : Chunks) :
    (PEnum.tryBuf h vs cs).1.map (seenStatus (look f vs)) = (T.tryBuf h cs).1.map (seenStatus (f T)) ∧
      (PEnum.tryBuf h vs cs).2.flatten = (T.tryBuf h cs).2.flatten := by
  induction vs generalizing cs with
  | nil => cases ho.1
  | cons U Us ih =>
    rw [PEnum.tryBuf]
    by_cases hs : U.ssig = h.sig
    · obtain rfl := ho.2.2 U List.mem_cons_self hs
      have hn := read_not_sig hs cs.flatten
      have hn' : (U.tryBuf h cs).1 ≠ .err .sigDismatch := by
        unfold PayloadTy.tryBuf Chunks.run
        intro e
        simp only at e
        rcases hr : ((U.read h).run cs.flatten).1 with v | e' | _ <;> rw [hr] at e hn
        · cases e
        · simp only [Out.map_err, Out.err.injEq] at e; subst e; exact hn rfl
        · cases e
      rcases hr : U.tryBuf h cs with ⟨o, cs'⟩
      rw [hr] at hn'
      rcases o with (v | k) | e | _
      · exact ⟨rfl, rfl⟩
      · exact ⟨rfl, rfl⟩
      · cases e <;> first | exact ⟨rfl, rfl⟩ | exact absurd rfl hn'
      · exact ⟨rfl, rfl⟩
    · obtain ⟨h3, h4⟩ := tryBuf_other hs cs
      rcases hr : U.tryBuf h cs with ⟨o, cs'⟩
      rw [hr] at h3 h4
      simp only at h3 h4
      subst h3
      obtain ⟨h1, h2⟩ := ih (only_cons ho hs) cs'
      obtain ⟨h5, h6⟩ := tryBuf_flatten T h h4
      rw [h5] at h1
      refine ⟨?_, h2.trans h6⟩
      rw [← h1]
      simp only
      rcases (PEnum.tryBuf h Us cs').1 with (v | k) | e | _ <;> rfl

/-! ## The seekable reader -/

theorem tryRead_other {T : PayloadTy} {h : PayloadHeader} (hs : T.ssig ≠ h.sig) {c : Cur} (hp : c.pos ≤ c.data.length) (hl : h.len ≤ c.rest.length) :
    T.tryRead h c = (.err .sigDismatch, c) := by
  unfold PayloadTy.tryRead
  rw [Cur.remaining_ok hp]
  simp only
  rw [if_neg (by omega), Cur.run, read_other hs]
  simp

theorem tryRead_few {vs : List PayloadTy} (hne : vs ≠ []) {h : PayloadHeader} {c : Cur} (hp : c.pos ≤ c.data.length) (hl : c.rest.length < h.len) :
    PEnum.tryRead h vs c = (.ok (.notEnough (h.len - c.rest.length)), c) := by
  cases vs with
  | nil => exact absurd rfl hne
  | cons T Ts =>
    rw [PEnum.tryRead, PayloadTy.tryRead, Cur.remaining_ok hp]
    simp only
    rw [if_pos hl]

theorem tryRead_unknown {vs : List PayloadTy} {h : PayloadHeader} (hu : Unknown vs h) {c : Cur} (hp : c.pos ≤ c.data.length) (hl : h.len ≤ c.rest.length) :
    PEnum.tryRead h vs c = (.err .sigDismatch, c) := by
  induction vs with
  | nil => rfl
  | cons T Ts ih =>
    obtain ⟨h1, h2⟩ := unknown_cons hu
    rw [PEnum.tryRead, tryRead_other h1 hp hl]
    simp only [ih h2]

theorem tryRead_only {α : Type} {f : (T : PayloadTy) → T.Val → α} {vs : List PayloadTy} {h : PayloadHeader} {T : PayloadTy} (ho : Only vs h T) {c : Cur} (hp : c.pos ≤ c.data.length) :
    (PEnum.tryRead h vs c).1.map (seenStatus (look f vs)) = (T.tryRead h c).1.map (seenStatus (f T)) ∧
      (PEnum.tryRead h vs c).2 = (T.tryRead h c).2 := by
  by_cases hl : c.rest.length < h.len
  · rw [tryRead_few (List.ne_nil_of_mem ho.1) hp hl, PayloadTy.tryRead, Cur.remaining_ok hp]
    simp only
    rw [if_pos hl]
    exact ⟨rfl, rfl⟩
  · induction vs with
    | nil => cases ho.1
    | cons U Us ih =>
      rw [PEnum.tryRead]
      by_cases hs : U.ssig = h.sig
      · obtain rfl := ho.2.2 U List.mem_cons_self hs
        have hn := read_not_sig hs c.rest
        have hn' : (U.tryRead h c).1 ≠ .err .sigDismatch := by
          unfold PayloadTy.tryRead
          rw [Cur.remaining_ok hp]
          simp only
          rw [if_neg hl]
          intro e
          simp only [Cur.run] at e
          rcases hr : ((U.read h).run c.rest).1 with v | e' | _ <;> rw [hr] at e hn
          · cases e
          · simp only [Out.map_err, Out.err.injEq] at e; subst e; exact hn rfl
          · cases e
        rcases hr : U.tryRead h c with ⟨o, c'⟩
        rw [hr] at hn'
        rcases o with (v | k) | e | _
        · exact ⟨rfl, rfl⟩
        · exact ⟨rfl, rfl⟩
        · cases e <;> first | exact ⟨rfl, rfl⟩ | exact absurd rfl hn'
        · exact ⟨rfl, rfl⟩
      · rw [tryRead_other hs hp (by omega)]
        obtain ⟨h1, h2⟩ := ih (only_cons ho hs)
        refine ⟨?_, h2⟩
        rw [← h1]
        simp only
        rcases (PEnum.tryRead h Us c).1 with (v | k) | e | _ <;> rfl

/-! ## The property -/

/-- **C74, known payloads.** If one type of the protocol has the signature of the header, all three readers of the generated enum do what the reader of this type
does on the same input: the same value (as its variant) or the same error, the same bytes taken. Wherever the variant stands, and whatever the other variants are. -/
theorem C74_known {α : Type} (f : (T : PayloadTy) → T.Val → α) (vs : List PayloadTy) (h : PayloadHeader) (T : PayloadTy) (ho : Only vs h T) (s : Bytes) (c : Cur) (hp : c.pos ≤ c.data.length) (cs : Chunks) :
    (((PEnum.read h vs).run s).1.map (look f vs) = ((T.read h).run s).1.map (f T) ∧ ((PEnum.read h vs).run s).2 = ((T.read h).run s).2) ∧
    ((PEnum.tryRead h vs c).1.map (seenStatus (look f vs)) = (T.tryRead h c).1.map (seenStatus (f T)) ∧ (PEnum.tryRead h vs c).2 = (T.tryRead h c).2) ∧
    ((PEnum.tryBuf h vs cs).1.map (seenStatus (look f vs)) = (T.tryBuf h cs).1.map (seenStatus (f T)) ∧
      (PEnum.tryBuf h vs cs).2.flatten = (T.tryBuf h cs).2.flatten) :=
  ⟨read_only ho s, tryRead_only ho hp, tryBuf_only ho cs⟩

/-- **C74, unknown payloads.** If no type has the signature, all three readers report `SignatureDismatch` and take nothing; the seekable one asks for the rest of the
payload first, when it is not all there. -/
theorem C74_unknown (vs : List PayloadTy) (hne : vs ≠ []) (h : PayloadHeader) (hu : Unknown vs h) (s : Bytes) (c : Cur) (hp : c.pos ≤ c.data.length) (cs : Chunks) :
    (PEnum.read h vs).run s = (.err .sigDismatch, s) ∧
    PEnum.tryRead h vs c = ((if c.rest.length < h.len then .ok (.notEnough (h.len - c.rest.length)) else .err .sigDismatch), c) ∧
    (PEnum.tryBuf h vs cs).1 = .err .sigDismatch ∧ (PEnum.tryBuf h vs cs).2.flatten = cs.flatten := by
  refine ⟨read_unknown hu s, ?_, tryBuf_unknown hu cs⟩
  split
  · rename_i hl
    exact tryRead_few hne hp hl
  · rename_i hl
    exact tryRead_unknown hu hp (by omega)

/-- **C74, the order of the variants** (which comes from a `HashMap` and may differ from build to build) does not matter if the signatures are distinct. -/
theorem C74_order {α : Type} (f : (T : PayloadTy) → T.Val → α) (vs vs' : List PayloadTy) (hv : vs.Perm vs') (hd : vs.Pairwise fun T U => T.ssig ≠ U.ssig) (h : PayloadHeader) (s : Bytes) (c : Cur)
    (hp : c.pos ≤ c.data.length) (cs : Chunks) :
    ((PEnum.read h vs).run s).1.map (look f vs) = ((PEnum.read h vs').run s).1.map (look f vs') ∧ ((PEnum.read h vs).run s).2 = ((PEnum.read h vs').run s).2 ∧
    (PEnum.tryRead h vs c).1.map (seenStatus (look f vs)) = (PEnum.tryRead h vs' c).1.map (seenStatus (look f vs')) ∧
    (PEnum.tryRead h vs c).2 = (PEnum.tryRead h vs' c).2 ∧
    (PEnum.tryBuf h vs cs).1.map (seenStatus (look f vs)) = (PEnum.tryBuf h vs' cs).1.map (seenStatus (look f vs')) ∧
    (PEnum.tryBuf h vs cs).2.flatten = (PEnum.tryBuf h vs' cs).2.flatten := by
  by_cases hk : ∃ T ∈ vs, T.ssig = h.sig
  · obtain ⟨T, hT, hs⟩ := hk
    have uniq : ∀ U ∈ vs, U.ssig = h.sig → U = T := by
      intro U hU he
      clear hv
      induction vs with
      | nil => cases hU
      | cons V Vs ih =>
        rw [List.pairwise_cons] at hd
        rcases List.mem_cons.mp hT with rfl | hT' <;> rcases List.mem_cons.mp hU with rfl | hU'
        · rfl
        · exact absurd (hs.trans he.symm) (hd.1 U hU')
        · exact absurd (he.trans hs.symm) (hd.1 T hT')
        · exact ih hd.2 hT' hU'
    have ho : Only vs h T := ⟨hT, hs, uniq⟩
    have ho' : Only vs' h T := ⟨hv.mem_iff.mp hT, hs, fun U hU => uniq U (hv.mem_iff.mpr hU)⟩
    obtain ⟨⟨a1, a2⟩, ⟨a3, a4⟩, a5, a6⟩ := C74_known f vs h T ho s c hp cs
    obtain ⟨⟨b1, b2⟩, ⟨b3, b4⟩, b5, b6⟩ := C74_known f vs' h T ho' s c hp cs
    exact ⟨a1.trans b1.symm, a2.trans b2.symm, a3.trans b3.symm, a4.trans b4.symm, a5.trans b5.symm, a6.trans b6.symm⟩
  · have hu : Unknown vs h := fun T hT he => hk ⟨T, hT, he⟩
    have hu' : Unknown vs' h := fun T hT => hu T (hv.mem_iff.mpr hT)
    by_cases hne : vs = []
    · subst hne
      rw [List.nil_perm.mp hv]
      exact ⟨rfl, rfl, rfl, rfl, rfl, rfl⟩
    · have hne' : vs' ≠ [] := by rintro rfl; exact hne (List.perm_nil.mp hv)
      obtain ⟨a1, a2, a3, a4⟩ := C74_unknown vs hne h hu s c hp cs
      obtain ⟨b1, b2, b3, b4⟩ := C74_unknown vs' hne' h hu' s c hp cs
      rw [a1, b1, a2, b2, a3, b3, a4, b4]
      refine ⟨rfl, rfl, ?_, rfl, rfl, rfl⟩
      split <;> rfl

/-- A user payload. -/
def flagTy : PayloadTy := bincodeTy Bool ⟨[1, 2, 3, 4], rfl⟩ (fun b => some [if b then 1 else 0]) (fun _ => some 1) (fun b => some (b == [1])) false

/-- Non-vacuity of `C74_known` and `C74_order`: a protocol of three payload types, all signatures distinct, and the header of a string. -/
example : Only [flagTy, bytesTy, stringTy] ⟨stringTy.ssig, PayloadTy.crcBlock [], 0⟩ stringTy ∧
    [flagTy, bytesTy, stringTy].Pairwise (fun T U => T.ssig ≠ U.ssig) := by
  have h1 : flagTy.ssig ≠ stringTy.ssig := by decide +kernel
  have h2 : bytesTy.ssig ≠ stringTy.ssig := by decide +kernel
  have h3 : flagTy.ssig ≠ bytesTy.ssig := by decide +kernel
  refine ⟨⟨by simp, rfl, ?_⟩, by simp [h1, h2, h3]⟩
  intro U hU e
  simp only [List.mem_cons, List.not_mem_nil, or_false] at hU
  rcases hU with rfl | rfl | rfl
  · exact absurd e h1
  · exact absurd e h2
  · rfl

/-- Non-vacuity of `C74_unknown`: the same header for a reader that was built before there were strings in the protocol. -/
example : Unknown [bytesTy, flagTy] ⟨stringTy.ssig, PayloadTy.crcBlock [], 0⟩ ∧ [bytesTy, flagTy] ≠ [] := by
  refine ⟨fun T hT => ?_, by simp⟩
  simp only [List.mem_cons, List.not_mem_nil, or_false] at hT
  rcases hT with rfl | rfl <;> decide +kernel

end Brec.Props
