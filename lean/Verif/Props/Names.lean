import Verif.Names
import Verif.Props.Block
/-!
# C76: the names of the fields of a block
-/

namespace Brec.Props

variable {env : Bytes → Linked}

/-! ## Specification -/

/-- The bytes `c` as a value of a field of type `t`; a value of any other type than `[u8; 4]` stays as it is. -/
def over (c : Arr 4) : (t : MTy) → (t.fty env).Val → (t.fty env).Val
  | .blob n, v => if h : n = 4 then h ▸ c else v
  | .num _, v => v
  | .bool, v => v
  | .linked _, v => v

/-- The same block, with `c` in the place of a field named `crc`. -/
def hide (c : Arr 4) : (fs : List SrcField) → Vals (declTys env fs) → Vals (declTys env fs)
  | [], v => v
  | f :: fs, (v, vs) => (if f.name = ascii "crc" then over c (MTy.ofSrc f.ty) v else v, hide c fs vs)

/-- `hide` for the values of a declared block. -/
def hidden (d : BlockDecl) (c : Arr 4) (v : Vals (d.ty env).fields) : Vals (d.ty env).fields := hide c d.fields v

/-- The names of the fields. -/
def fieldNames (d : BlockDecl) : List Bytes := d.fields.map (·.name)

/-! ## Scopes -/

theorem find_cons (m : Bytes) (b : Bound) (s : Scope) (n : Bytes) : Scope.find ((m, b) :: s) n = if m = n then some b else Scope.find s n := rfl

theorem bindRead_other {fs : List SrcField} {i : Nat} {s s' : Scope} (h : bindRead i fs s = some s') {n : Bytes} (hn : n ∉ fs.map (·.name)) :
    Scope.find s' n = Scope.find s n := by
  induction fs generalizing i s with
  | nil => cases h; rfl
  | cons f fs ih =>
    simp only [List.map_cons, List.mem_cons, not_or] at hn
    rw [bindRead] at h
    split at h
    · rw [ih h hn.2, find_cons, if_neg (Ne.symm hn.1)]
    · cases h

theorem bindSlice_other {fs : List SrcField} {i : Nat} {s s' : Scope} (h : bindSlice i fs s = some s') {n : Bytes} (hn : n ∉ fs.map (·.name)) :
    Scope.find s' n = Scope.find s n := by
  induction fs generalizing i s with
  | nil => cases h; rfl
  | cons f fs ih =>
    simp only [List.map_cons, List.mem_cons, not_or] at hn
    rw [bindSlice] at h
    split at h
    · rw [ih h hn.2, find_cons, if_neg (Ne.symm hn.1)]
    · cases h

/-- Every name stands for the variable of its own field. -/
def Own (s : Scope) : Nat → List SrcField → Prop
  | _, [] => True
  | i, f :: fs => Scope.find s f.name = some (.field i) ∧ Own s (i + 1) fs

theorem bindRead_own {fs : List SrcField} {i : Nat} {s s' : Scope} (h : bindRead i fs s = some s') (hn : (fs.map (·.name)).Nodup) : Own s' i fs := by
  induction fs generalizing i s with
  | nil => trivial
  | cons f fs ih =>
    simp only [List.map_cons, List.nodup_cons] at hn
    rw [bindRead] at h
    split at h
    · exact ⟨by rw [bindRead_other h hn.1, find_cons, if_pos rfl], ih h hn.2⟩
    · cases h

theorem bindSlice_own {fs : List SrcField} {i : Nat} {s s' : Scope} (h : bindSlice i fs s = some s') (hn : (fs.map (·.name)).Nodup) : Own s' i fs := by
  induction fs generalizing i s with
  | nil => trivial
  | cons f fs ih =>
    simp only [List.map_cons, List.nodup_cons] at hn
    rw [bindSlice] at h
    split at h
    · exact ⟨by rw [bindSlice_other h hn.1, find_cons, if_pos rfl], ih h hn.2⟩
    · cases h

theorem bindRead_buf {fs : List SrcField} {i : Nat} {s s' : Scope} (h : bindRead i fs s = some s') : ascii "buf" ∉ fs.map (·.name) := by
  induction fs generalizing i s with
  | nil => simp
  | cons f fs ih =>
    rw [bindRead] at h
    split at h
    · rename_i hb
      simp only [List.map_cons, List.mem_cons, not_or]
      refine ⟨fun e => ?_, ih h⟩
      rw [find_cons, if_pos e.symm] at hb
      cases hb
    · cases h

theorem bindRead_some {fs : List SrcField} (hn : ascii "buf" ∉ fs.map (·.name)) (i : Nat) {s : Scope} (hs : Scope.find s (ascii "buf") = some .src) :
    ∃ s', bindRead i fs s = some s' := by
  induction fs generalizing i s with
  | nil => exact ⟨s, rfl⟩
  | cons f fs ih =>
    simp only [List.map_cons, List.mem_cons, not_or] at hn
    have : Scope.find ((f.name, .field i) :: s) (ascii "buf") = some .src := by rw [find_cons, if_neg (Ne.symm hn.1), hs]
    rw [bindRead, if_pos this]
    exact ih hn.2 _ this

theorem bindSlice_some {fs : List SrcField} (hn : ascii "buf" ∉ fs.map (·.name)) (i : Nat) {s : Scope} (hs : Scope.find s (ascii "buf") = some .src) :
    ∃ s', bindSlice i fs s = some s' := by
  induction fs generalizing i s with
  | nil => exact ⟨s, rfl⟩
  | cons f fs ih =>
    simp only [List.map_cons, List.mem_cons, not_or] at hn
    have : Scope.find ((f.name, .field i) :: s) (ascii "buf") = some .src := by rw [find_cons, if_neg (Ne.symm hn.1), hs]
    rw [bindSlice, if_pos hs]
    exact ih hn.2 _ this

/-- Every name stands for the variable of its own field, only `crc` for the stored checksum. -/
def Points (s : Scope) : Nat → List SrcField → Prop
  | _, [] => True
  | i, f :: fs => Scope.find s f.name = (if f.name = ascii "crc" then some .crc else some (.field i)) ∧ Points s (i + 1) fs

theorem Own.points {s : Scope} {i : Nat} {fs : List SrcField} (h : Own s i fs) : Points ((ascii "crc", .crc) :: s) i fs := by
  induction fs generalizing i with
  | nil => trivial
  | cons f fs ih =>
    refine ⟨?_, ih h.2⟩
    rw [find_cons]
    by_cases e : f.name = ascii "crc"
    · rw [if_pos e.symm, if_pos e]
    · rw [if_neg (Ne.symm e), if_neg e, h.1]

theorem Own.skip {s : Scope} {i : Nat} {fs : List SrcField} (h : Own s i fs) {n : Bytes} {b : Bound} (hn : n ∉ fs.map (·.name)) : Own ((n, b) :: s) i fs := by
  induction fs generalizing i with
  | nil => trivial
  | cons f fs ih =>
    simp only [List.map_cons, List.mem_cons, not_or] at hn
    refine ⟨?_, ih h.2 hn.2⟩
    rw [find_cons, if_neg hn.1, h.1]

theorem litTyped_points {s : Scope} {i : Nat} {fs : List SrcField} (h : Points s i fs) :
    litTyped s i fs = true ↔ ∀ f ∈ fs, f.name = ascii "crc" → MTy.ofSrc f.ty = .blob 4 := by
  induction fs generalizing i with
  | nil => simp [litTyped]
  | cons f fs ih =>
    rw [litTyped, Bool.and_eq_true, ih h.2, h.1]
    simp only [List.mem_cons, forall_eq_or_imp]
    by_cases e : f.name = ascii "crc"
    · rw [if_pos e]; simp [e]
    · rw [if_neg e]; simp [e]

theorem litVal_crc {t : MTy} (h : t = .blob 4) (i : Nat) (v : (t.fty env).Val) (c : Arr 4) : litVal t (some .crc) i v c = some (over c t v) := by
  subst h; rfl

theorem litVals_points {s : Scope} {i : Nat} {fs : List SrcField} (h : Points s i fs) (ht : ∀ f ∈ fs, f.name = ascii "crc" → MTy.ofSrc f.ty = .blob 4) (c : Arr 4)
    (v : Vals (declTys env fs)) : litVals s c i fs v = some (hide c fs v) := by
  induction fs generalizing i with
  | nil => rfl
  | cons f fs ih =>
    obtain ⟨v, vs⟩ := v
    have h1 := ht f List.mem_cons_self
    have hv : litVal (env := env) (MTy.ofSrc f.ty) (Scope.find s f.name) i v c = some (if f.name = ascii "crc" then over c (MTy.ofSrc f.ty) v else v) := by
      rw [h.1]
      by_cases e : f.name = ascii "crc"
      · rw [if_pos e, if_pos e]
        exact litVal_crc (h1 e) i v c
      · rw [if_neg e, if_neg e]
        simp [litVal]
    rw [litVals, hv, ih h.2 fun f hf => ht f (List.mem_cons_of_mem _ hf)]
    rfl

theorem hide_none {fs : List SrcField} (h : ascii "crc" ∉ fs.map (·.name)) (c : Arr 4) (v : Vals (declTys env fs)) : hide c fs v = v := by
  induction fs with
  | nil => rfl
  | cons f fs ih =>
    obtain ⟨v, vs⟩ := v
    simp only [List.map_cons, List.mem_cons, not_or] at h
    rw [hide, if_neg (Ne.symm h.1), ih h.2]

/-- A letter and its capital; other characters stay as they are. -/
def capital (c : Byte) : Byte :=
  match (ascii "abcdefghijklmnopqrstuvwxyz").idxOf? c with
  | some i => (ascii "ABCDEFGHIJKLMNOPQRSTUVWXYZ").getD i c
  | none => c

theorem upper_capital (s : Bytes) : upper s = s.map capital := by
  have h : ∀ c : Byte, (if 97 ≤ c.toNat ∧ c.toNat ≤ 122 then BitVec.ofNat 8 (c.toNat - 32) else c) = capital c := by decide +kernel
  exact List.map_congr_left fun c _ => h c

/-- What must hold for the readers to compile. -/
structure Compiles (d : BlockDecl) : Prop where
  nodup : (fieldNames d).Nodup
  const : d.name.map capital ∉ fieldNames d
  buf : ascii "buf" ∉ fieldNames d
  crc : ∀ f ∈ d.fields, f.name = ascii "crc" → MTy.ofSrc f.ty = .blob 4

theorem params_buf : Scope.find params (ascii "buf") = some .src := by decide +kernel

theorem readScope_some {d : BlockDecl} (hn : (fieldNames d).Nodup) (hb : ascii "buf" ∉ fieldNames d) : ∃ s, readScope d.fields = some s ∧ Points s 0 d.fields := by
  obtain ⟨s, hs⟩ := bindRead_some (fs := d.fields) hb 0 params_buf
  refine ⟨(ascii "crc", .crc) :: s, ?_, (bindRead_own hs hn).points⟩
  rw [readScope, hs]
  simp only [Option.bind_some]
  rw [if_pos]
  rw [find_cons, if_neg (by decide +kernel), bindRead_other hs hb, params_buf]

theorem sliceScope_some {d : BlockDecl} (hn : (fieldNames d).Nodup) (hb : ascii "buf" ∉ fieldNames d) (hr : ascii "__crc" ∉ fieldNames d) :
    ∃ s, sliceScope d.fields = some s ∧ Points s 0 d.fields := by
  have hp : Scope.find ((ascii "__sig", Bound.other) :: (ascii "required", .other) :: params) (ascii "buf") = some .src := by decide +kernel
  obtain ⟨s, hs⟩ := bindSlice_some (fs := d.fields) hb 0 hp
  refine ⟨(ascii "crc", .crc) :: (ascii "__crc", .other) :: s, ?_, ((bindSlice_own hs hn).skip hr).points⟩
  rw [sliceScope, hs]
  simp only [Option.bind_some]
  rw [if_pos]
  rw [bindSlice_other hs hb, hp]

/-- **C76, what compiles.** Of a declaration the macro accepts (no field is named `__sig` or `__crc`) the readers compile exactly if the names of the fields are distinct, none is
the name of the block in capital letters, none is `buf`, and a field named `crc` is a `[u8; 4]`. -/
theorem C76_compiles (d : BlockDecl) (hr : ∀ n ∈ fieldNames d, isReserved n = false) : d.compiles = true ↔ Compiles d := by
  have hr' : ascii "__crc" ∉ fieldNames d := fun h => by
    have := hr _ h
    revert this
    decide +kernel
  constructor
  · intro h
    simp only [BlockDecl.compiles, Bool.and_eq_true, decide_eq_true_eq, Bool.not_eq_true'] at h
    obtain ⟨⟨⟨h1, h2⟩, h3⟩, _⟩ := h
    rw [upper_capital] at h2
    have h2 : d.name.map capital ∉ fieldNames d := fun hm => Bool.eq_false_iff.mp h2 (List.contains_iff_mem.mpr hm)
    cases hs : readScope d.fields with
    | none => rw [hs] at h3; cases h3
    | some s =>
      have hb : ascii "buf" ∉ fieldNames d := by
        rw [readScope] at hs
        cases h4 : bindRead 0 d.fields params with
        | none => rw [h4] at hs; cases hs
        | some s' => exact bindRead_buf h4
      obtain ⟨s', e, hp⟩ := readScope_some h1 hb
      rw [e] at h3
      exact ⟨h1, h2, hb, (litTyped_points hp).mp h3⟩
  · intro c
    obtain ⟨s, e, hp⟩ := readScope_some c.nodup c.buf
    obtain ⟨s', e', hp'⟩ := sliceScope_some c.nodup c.buf hr'
    simp only [BlockDecl.compiles, Bool.and_eq_true, decide_eq_true_eq, Bool.not_eq_true', e, e', upper_capital]
    exact ⟨⟨⟨c.nodup, Bool.eq_false_iff.mpr fun h => c.const (List.contains_iff_mem.mp h)⟩, (litTyped_points hp).mpr c.crc⟩, (litTyped_points hp').mpr c.crc⟩

/-! ## What the readers do -/

theorem readExact_len {n : Nat} {s b s' : Bytes} (h : (P.readExact n).run s = (.ok b, s')) : b.length = n := by
  simp only [P.readExact] at h
  split at h
  · cases h
  · simp only [Prod.mk.injEq, Out.ok.injEq] at h
    rw [← h.1, List.length_take]
    omega

/-- The body of `read` with the scope resolved. -/
theorem namedBody_run {d : BlockDecl} {s : Scope} (hp : Points s 0 d.fields) (c : Compiles d) (x : Bytes) :
    (namedBody env d s).run x =
      match (Vals.read (declTys env d.fields)).run x with
      | (.ok v, x') =>
        if h : 4 ≤ x'.length then
          (if (d.ty env).crc (hide ⟨x'.take 4, by simp; omega⟩ d.fields v) ≠ x'.take 4 then (.err .crcDismatch, x'.drop 4)
           else (.ok (hide ⟨x'.take 4, by simp; omega⟩ d.fields v), x'.drop 4))
        else (.err .io, [])
      | (.err e, x') => (.err e, x')
      | (.panic, x') => (.panic, x') := by
  rw [namedBody, P.bind_run]
  rcases (Vals.read (declTys env d.fields)).run x with ⟨v | e | _, x'⟩
  · simp only
    rw [P.bind_run]
    by_cases h : 4 ≤ x'.length
    · rw [P.readExact_ok h, dif_pos h]
      simp only
      rw [P.bind_run]
      simp only [P.lift_run]
      have hl : (x'.take 4).length = 4 := by simp; omega
      rw [toArr, dif_pos hl]
      simp only
      rw [P.bind_run]
      simp only [P.lift_run, litVals_points hp c.crc]
      split <;> rfl
    · rw [P.readExact_short (by omega), dif_neg h]
  · rfl
  · rfl

theorem readBody_run (b : BlockTy) (x : Bytes) :
    b.readBody.run x =
      match (Vals.read b.fields).run x with
      | (.ok v, x') =>
        if 4 ≤ x'.length then (if b.crc v ≠ x'.take 4 then (.err .crcDismatch, x'.drop 4) else (.ok v, x'.drop 4))
        else (.err .io, [])
      | (.err e, x') => (.err e, x')
      | (.panic, x') => (.panic, x') := by
  rw [BlockTy.readBody, P.bind_run]
  rcases (Vals.read b.fields).run x with ⟨v | e | _, x'⟩
  · simp only
    rw [P.bind_run]
    by_cases h : 4 ≤ x'.length
    · rw [P.readExact_ok h, if_pos h]
      simp only
      split <;> rfl
    · rw [P.readExact_short (by omega), if_neg h]
  · rfl
  · rfl

theorem P.ext_run {α} {a b : P α} (h : ∀ x, a.run x = b.run x) : a = b := by
  cases a; cases b
  congr
  exact funext h

theorem namedBody_eq {d : BlockDecl} {s : Scope} (hp : Points s 0 d.fields) (c : Compiles d) (hn : ascii "crc" ∉ fieldNames d) :
    namedBody env d s = (d.ty env).readBody := by
  apply P.ext_run
  intro x
  rw [namedBody_run hp c, readBody_run]
  have e : (Vals.read (d.ty env).fields).run x = (Vals.read (declTys env d.fields)).run x := rfl
  rw [e]
  rcases (Vals.read (declTys env d.fields)).run x with ⟨v | e | _, x'⟩
  · simp only
    by_cases h : 4 ≤ x'.length
    · rw [dif_pos h, if_pos h, hide_none hn]
    · rw [dif_neg h, if_neg h]
  · rfl
  · rfl

theorem genRead_eq {d : BlockDecl} (hr : ∀ n ∈ fieldNames d, isReserved n = false) (c : Compiles d) (skip : Bool) :
    ∃ s, Points s 0 d.fields ∧ d.genRead env skip = some (if skip then namedBody env d s
      else do
        let sig ← P.readExact 4
        if sig ≠ d.sig then P.fail .sigDismatch else namedBody env d s) := by
  obtain ⟨s, e, hp⟩ := readScope_some c.nodup c.buf
  refine ⟨s, hp, ?_⟩
  rw [BlockDecl.genRead, if_pos ((C76_compiles d hr).mpr c), e]
  rfl

theorem not_crc {d : BlockDecl} (hr : ∀ n ∈ fieldNames d, isReserved n = false) : ascii "__crc" ∉ fieldNames d := fun h => by
  have := hr _ h
  revert this
  decide +kernel

/-- `read_from_slice` with the scope resolved. -/
theorem genSlice_eq {d : BlockDecl} (hr : ∀ n ∈ fieldNames d, isReserved n = false) (c : Compiles d) (skip : Bool) :
    ∃ f, d.genSlice env skip = some f ∧ ∀ buf, f buf =
      if ¬ skip ∧ buf.length < 4 then .err (.notEnoughSig buf.length 4)
      else if ¬ skip ∧ buf.take 4 ≠ d.sig then .err .sigDismatch
      else if buf.length < (if skip then (d.ty env).ssize - 4 else (d.ty env).ssize) then .err (.notEnoughData (if skip then (d.ty env).ssize - 4 else (d.ty env).ssize))
      else
        (if skip then .ok d.sig else cut buf 0 4).bind fun sig =>
        (Vals.ofSlice (declTys env d.fields) buf 4).bind fun r =>
        (cut buf r.2 (r.2 + 4)).bind fun b =>
        (toArr 4 b).bind fun crc =>
        if (d.ty env).crc (hide crc d.fields r.1) ≠ crc.1 then .err .crcDismatch else .ok ⟨sig, hide crc d.fields r.1, crc.1⟩ := by
  obtain ⟨s, e, hp⟩ := sliceScope_some c.nodup c.buf (not_crc hr)
  rw [BlockDecl.genSlice, if_pos ((C76_compiles d hr).mpr c), e]
  refine ⟨_, rfl, fun buf => ?_⟩
  simp only [litVals_points hp c.crc]

theorem cut_len {buf b : Bytes} {i : Nat} (h : cut buf i (i + 4) = .ok b) : b.length = 4 := by
  rw [cut] at h
  split at h
  · rename_i hl
    cases h
    simp [slice]
    omega
  · cases h

/-- **C76 (partial).** If the readers compile and no field is named `crc`, the names do not matter: the generated readers are those of the block type, which know the fields
by position only. (The other two readers call `read`.) So C01 to C08 hold for them. -/
theorem C76_names_partial (env : Bytes → Linked) (d : BlockDecl) (hr : ∀ n ∈ fieldNames d, isReserved n = false) (hc : d.compiles = true) (hn : ascii "crc" ∉ fieldNames d)
    (skip : Bool) :
    d.genRead env skip = some ((d.ty env).read skip) ∧ d.genSlice env skip = some (fun buf => (d.ty env).readSlice buf skip) := by
  have c := (C76_compiles d hr).mp hc
  constructor
  · obtain ⟨s, hp, e⟩ := genRead_eq (env := env) hr c skip
    rw [e, namedBody_eq hp c hn]
    rfl
  · obtain ⟨f, e, hf⟩ := genSlice_eq (env := env) hr c skip
    rw [e]
    congr 1
    funext buf
    rw [hf, BlockTy.readSlice]
    show _ = if ¬ skip ∧ buf.length < 4 then .err (.notEnoughSig buf.length 4)
      else if ¬ skip ∧ buf.take 4 ≠ d.sig then .err .sigDismatch
      else if buf.length < (if skip then (d.ty env).ssize - 4 else (d.ty env).ssize) then .err (.notEnoughData (if skip then (d.ty env).ssize - 4 else (d.ty env).ssize))
      else
        (if skip then .ok d.sig else cut buf 0 4).bind fun sig =>
        (Vals.ofSlice (declTys env d.fields) buf 4).bind fun r =>
        (cut buf r.2 (r.2 + 4)).bind fun crc =>
        if (d.ty env).crc r.1 ≠ crc then .err .crcDismatch else .ok (⟨sig, r.1, crc⟩ : Referred (d.ty env).fields)
    congr 4
    funext sig
    congr 1
    funext r
    cases hcut : cut buf r.2 (r.2 + 4) with
    | ok b =>
      simp only [Out.bind]
      rw [toArr, dif_pos (cut_len hcut)]
      simp only
      rw [hide_none hn]
    | err e => rfl
    | panic => rfl

/-! ## A field named `crc` -/

/-- The checksum of a block as an array. -/
def sum4 (b : BlockTy) (v : Vals b.fields) : Arr 4 := ⟨b.crc v, BlockTy.crc_length b v⟩

theorem genRead_bytes {d : BlockDecl} (hr : ∀ n ∈ fieldNames d, isReserved n = false) (c : Compiles d) (w : (d.ty env).WF) (v : Vals (d.ty env).fields) (s : Bytes) :
    ∃ f, d.genRead env false = some f ∧ f.run ((d.ty env).bytes v ++ s) =
      if (d.ty env).crc (hidden d (sum4 (d.ty env) v) v) ≠ (d.ty env).crc v then (.err .crcDismatch, s) else (.ok (hidden d (sum4 (d.ty env) v) v), s) := by
  obtain ⟨sc, hp, e⟩ := genRead_eq (env := env) hr c false
  refine ⟨_, e, ?_⟩
  have h1 : (d.ty env).bytes v ++ s = d.sig ++ (layout (declTys env d.fields) v ++ ((d.ty env).crc v ++ s)) := by
    simp only [BlockTy.bytes, List.append_assoc]; rfl
  have hs : d.sig.length = 4 := w.sig_len
  have hl : (Vals.read (declTys env d.fields)).run (layout (declTys env d.fields) v ++ ((d.ty env).crc v ++ s)) = (.ok v, (d.ty env).crc v ++ s) := Vals.read_layout w.lawful v _
  rw [if_neg (by simp), h1, P.bind_run, P.readExact_append' hs]
  simp only [ne_eq, not_true_eq_false, if_false]
  rw [namedBody_run hp c, hl]
  simp only
  have hc := BlockTy.crc_length (d.ty env) v
  rw [dif_pos (by simp [hc])]
  have h2 : ((d.ty env).crc v ++ s).take 4 = (d.ty env).crc v := List.take_left' hc
  have h3 : ((d.ty env).crc v ++ s).drop 4 = s := List.drop_left' hc
  simp only [h2, h3]
  rfl

theorem genSlice_bytes {d : BlockDecl} (hr : ∀ n ∈ fieldNames d, isReserved n = false) (c : Compiles d) (w : (d.ty env).WF) (v : Vals (d.ty env).fields) (s : Bytes) :
    ∃ f, d.genSlice env false = some f ∧ f ((d.ty env).bytes v ++ s) =
      if (d.ty env).crc (hidden d (sum4 (d.ty env) v) v) ≠ (d.ty env).crc v then .err .crcDismatch
      else .ok ⟨d.sig, hidden d (sum4 (d.ty env) v) v, (d.ty env).crc v⟩ := by
  obtain ⟨f, e, hf⟩ := genSlice_eq (env := env) hr c false
  refine ⟨f, e, ?_⟩
  have hl := BlockTy.bytes_length w v
  have h4 : 8 ≤ (d.ty env).ssize := by rw [BlockTy.ssize]; omega
  have hs : d.sig.length = 4 := w.sig_len
  have hc := BlockTy.crc_length (d.ty env) v
  have h1 : (d.ty env).bytes v ++ s = d.sig ++ layout (declTys env d.fields) v ++ ((d.ty env).crc v ++ s) := by
    simp only [BlockTy.bytes, List.append_assoc]; rfl
  rw [hf, if_neg (by simp; omega), if_neg, if_neg (by simp; omega)]
  · have e0 : Vals.ofSlice (declTys env d.fields) (d.sig ++ layout (declTys env d.fields) v ++ ((d.ty env).crc v ++ s)) 4 = .ok (v, 4 + fieldsSize (declTys env d.fields)) :=
      Vals.ofSlice_layout w.lawful v d.sig _ hs
    rw [if_neg (by simp), h1, e0]
    have e1 : cut (d.sig ++ layout (declTys env d.fields) v ++ ((d.ty env).crc v ++ s)) 0 4 = .ok d.sig := by
      rw [cut, if_pos (by simp [hs])]
      simp [slice, hs]
    have hll : (layout (declTys env d.fields) v).length = fieldsSize (declTys env d.fields) := layout_length _ _
    have e2 : cut (d.sig ++ layout (declTys env d.fields) v ++ ((d.ty env).crc v ++ s)) (4 + fieldsSize (declTys env d.fields)) (4 + fieldsSize (declTys env d.fields) + 4) =
        .ok ((d.ty env).crc v) := by
      rw [cut, if_pos (by simp only [List.length_append, hs, hll, hc]; omega), slice]
      rw [List.drop_left' (by simp [hs, hll]), Nat.add_sub_cancel_left, List.take_left' hc]
    rw [e1]
    simp only [Out.bind]
    rw [e2]
    simp only
    rw [toArr, dif_pos hc]
    rfl
  · rw [h1, List.append_assoc, List.take_left' hs]
    simp

/-- **C76, a field named `crc`.** If the readers compile and a field is named `crc`, this field is read as the checksum stored behind the block: the bytes written for `v` are read
as `v` only if the field happens to hold the checksum of the block it is a field of. Otherwise the result is `CrcDismatch`, or, with `no_crc`, a block with zeros in the
field, without any error. -/
theorem C76_crc_field (env : Bytes → Linked) (d : BlockDecl) (hr : ∀ n ∈ fieldNames d, isReserved n = false) (hc : d.compiles = true) (w : (d.ty env).WF)
    (v : Vals (d.ty env).fields) (s : Bytes) :
    ∃ x f g, (d.ty env).buffer v = .ok x ∧ d.genRead env false = some f ∧ d.genSlice env false = some g ∧
      (f.run (x ++ s) = (.ok v, s) ↔ hidden d (sum4 (d.ty env) v) v = v) ∧
      ((∃ r, g (x ++ s) = .ok r ∧ r.into = v) ↔ hidden d (sum4 (d.ty env) v) v = v) ∧
      (d.noCrc = true → f.run (x ++ s) = (.ok (hidden d ⟨[0, 0, 0, 0], rfl⟩ v), s) ∧ ∃ r, g (x ++ s) = .ok r ∧ r.into = hidden d ⟨[0, 0, 0, 0], rfl⟩ v) := by
  have c := (C76_compiles d hr).mp hc
  obtain ⟨f, e, hf⟩ := genRead_bytes hr c w v s
  obtain ⟨g, e', hg⟩ := genSlice_bytes hr c w v s
  refine ⟨_, f, g, BlockTy.buffer_eq w v, e, e', ?_, ?_, ?_⟩
  · rw [hf]
    constructor
    · intro h
      split at h
      · cases h
      · simp only [Prod.mk.injEq, Out.ok.injEq, and_true] at h
        exact h
    · intro h
      rw [h, if_neg (by simp)]
  · rw [hg]
    constructor
    · rintro ⟨r, h, hr⟩
      split at h
      · cases h
      · cases h
        exact hr
    · intro h
      rw [h, if_neg (by simp)]
      exact ⟨_, rfl, rfl⟩
  · intro hn
    have h0 : ∀ u : Vals (d.ty env).fields, (d.ty env).crc u = [0, 0, 0, 0] := fun u => by
      exact if_pos hn
    have h1 : sum4 (d.ty env) v = ⟨[0, 0, 0, 0], rfl⟩ := Subtype.ext (h0 v)
    rw [hf, hg, h1, h0, h0, if_neg (by simp), if_neg (by simp)]
    exact ⟨rfl, _, rfl, rfl⟩

/-- `#[block] struct Frame { crc: [u8; 4] }`. -/
def frameDecl (nc : Bool) : BlockDecl := ⟨ascii "Frame", [], [⟨ascii "crc", .array 4⟩], nc⟩

theorem frameDecl_ok (nc : Bool) : (∀ n ∈ fieldNames (frameDecl nc), isReserved n = false) ∧ (frameDecl nc).compiles = true ∧ ((frameDecl nc).ty env).WF := by
  refine ⟨fun n hn => ?_, by cases nc <;> decide +kernel, ⟨crcBytes_length _, ?_⟩⟩
  · simp only [fieldNames, frameDecl, List.map_cons, List.map_nil, List.mem_cons, List.not_mem_nil, or_false] at hn
    subst hn
    decide +kernel
  · intro t ht
    simp only [BlockDecl.ty, frameDecl, List.map_cons, List.map_nil, List.mem_cons, List.not_mem_nil, or_false] at ht
    subst ht
    trivial

/-- The claim of C76: a block whose readers compile is read back. -/
def C76_full : Prop := ∀ (env : Bytes → Linked) (d : BlockDecl), (∀ n ∈ fieldNames d, isReserved n = false) → d.compiles = true → (d.ty env).WF →
  ∀ (v : Vals (d.ty env).fields) (s : Bytes), ∃ x f, (d.ty env).buffer v = .ok x ∧ d.genRead env false = some f ∧ f.run (x ++ s) = (.ok v, s)

/-- **C76 is false of the code**: the block `Frame { crc: [1, 2, 3, 4] }` is written and cannot be read back; if it is declared with `no_crc` it is read as
`Frame { crc: [0, 0, 0, 0] }`, without an error. -/
theorem C76_not : ¬ C76_full ∧ ∀ env s, ∃ x f, ((frameDecl true).ty env).buffer (⟨[1, 2, 3, 4], rfl⟩, ()) = .ok x ∧ (frameDecl true).genRead env false = some f ∧
    f.run (x ++ s) = (.ok (⟨[0, 0, 0, 0], rfl⟩, ()), s) := by
  constructor
  · intro h
    obtain ⟨h1, h2, h3⟩ := frameDecl_ok (env := fun _ => ⟨0, Fin.elim0, fun _ => none⟩) false
    obtain ⟨x, f, e1, e2, e3⟩ := h _ (frameDecl false) h1 h2 h3 (⟨[1, 2, 3, 4], rfl⟩, ()) []
    obtain ⟨x', f', g, e1', e2', _, e3', _⟩ := C76_crc_field _ (frameDecl false) h1 h2 h3 (⟨[1, 2, 3, 4], rfl⟩, ()) []
    rw [e1] at e1'
    cases e1'
    rw [e2] at e2'
    cases e2'
    have := e3'.mp e3
    have h4 := congrArg (fun v => (v.1 : Arr 4).1) this
    revert h4
    decide +kernel
  · intro env s
    obtain ⟨h1, h2, h3⟩ := frameDecl_ok (env := env) true
    obtain ⟨x, f, g, e1, e2, _, _, _, h⟩ := C76_crc_field env (frameDecl true) h1 h2 h3 (⟨[1, 2, 3, 4], rfl⟩, ()) s
    exact ⟨x, f, e1, e2, (h rfl).1⟩

/-- Non-vacuity of `C76_names_partial`: a block with the fields `sig`, `block`, `skip_sig` and `required`, all names of variables of the generated readers. -/
example : let d : BlockDecl := ⟨ascii "Foo", [], [⟨ascii "sig", .ident (ascii "u32")⟩, ⟨ascii "block", .array 4⟩, ⟨ascii "skip_sig", .ident (ascii "bool")⟩,
      ⟨ascii "required", .ident (ascii "u8")⟩], false⟩
    (∀ n ∈ fieldNames d, isReserved n = false) ∧ d.compiles = true ∧ ascii "crc" ∉ fieldNames d := by
  decide +kernel

end Brec.Props
