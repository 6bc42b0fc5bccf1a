import Verif.MacroLemmas
import Verif.Props.Crc
import Verif.Props.Block
/-!
# Properties C54–C56: declarations, signatures, variants
-/

namespace Brec.Props

open Brec

/-! ## C54: signatures of blocks -/

/-- The bytes of a Rust identifier: ASCII letters and digits, `_`, `#` (in `r#name`), and the bytes of other characters. -/
def IsIdent (s : Bytes) : Prop :=
  s ≠ [] ∧ ∀ b ∈ s, (65 ≤ b.toNat ∧ b.toNat ≤ 90) ∨ (97 ≤ b.toNat ∧ b.toNat ≤ 122) ∨ (48 ≤ b.toNat ∧ b.toNat ≤ 57) ∨
    b.toNat = 95 ∨ b.toNat = 35 ∨ 128 ≤ b.toNat

instance (s : Bytes) : Decidable (IsIdent s) := by unfold IsIdent; infer_instance

/-- Names and types of the declaration are identifiers. -/
structure IsDecl (d : BlockDecl) : Prop where
  name : IsIdent d.name
  field : ∀ f ∈ d.fields, IsIdent f.name
  ty : ∀ f ∈ d.fields, ∀ s, f.ty = .ident s → IsIdent s
  reserved : ∀ f ∈ d.fields, f.name ≠ ascii "__sig" ∧ f.name ≠ ascii "__crc"

/-- A type as written, without blanks. -/
def tyText : SrcTy → Bytes
  | .ident s => s
  | .array n => ascii "[u8;" ++ decimal n ++ ascii "]"

/-- The text behind a signature: the name, then each field after a semicolon, between the two service fields. -/
def declText (d : BlockDecl) : Bytes :=
  d.name ++ ascii ";__sig:[u8;4]" ++ d.fields.flatMap (fun f => ascii ";" ++ f.name ++ ascii ":" ++ tyText f.ty) ++ ascii ";__crc:[u8;4]"

theorem text_src (t : SrcTy) : (MTy.ofSrc t).text = tyText t := by
  cases t with
  | ident s => exact MTy.text_ident s
  | array n => rfl

theorem joinSemi_cons (x : Bytes) (xs : List Bytes) : joinSemi (x :: xs) = x ++ xs.flatMap (ascii ";" ++ ·) := by
  induction xs generalizing x with
  | nil => simp [joinSemi]
  | cons y ys ih => rw [joinSemi, ih]; simp [List.append_assoc]

theorem snap_eq (d : BlockDecl) : d.snap = declText d := by
  have h4 : decimal 4 = ascii "4" := by decide
  have hs : SrcField.text ⟨ascii "__sig", .array 4⟩ = ascii "__sig:[u8;4]" := by decide
  have hc : SrcField.text ⟨ascii "__crc", .array 4⟩ = ascii "__crc:[u8;4]" := by decide
  have e1 : ascii ";__sig:[u8;4]" = ascii ";" ++ ascii "__sig:[u8;4]" := by decide
  have e2 : ascii ";__crc:[u8;4]" = ascii ";" ++ ascii "__crc:[u8;4]" := by decide
  rw [BlockDecl.snap, BlockDecl.allFields, List.cons_append, List.map_cons, List.map_append, joinSemi_cons, hs, declText, List.map_cons, hc, e1, e2]
  simp only [List.flatMap_append, List.map_nil, List.flatMap_cons, List.flatMap_nil, List.append_nil, List.append_assoc]
  congr 3
  rw [List.flatMap_map]
  congr 1
  congr 1
  funext f
  simp [SrcField.text, text_src, List.append_assoc]

/-- **C54**, the rule: the signature of a block is the CRC-32 of its name and of the names and types of its fields, least
significant byte first. -/
theorem C54_signature (env : Bytes → Linked) (d : BlockDecl) : (d.ty env).sig = leBytes 4 (specCrc (declText d)) := by
  show d.sig = _
  rw [BlockDecl.sig, snap_eq, crcBytes, C51_crc32]

theorem IsIdent.free {s : Bytes} (h : IsIdent s) {c : Byte} (hc : c = 0x3b ∨ c = 0x3a ∨ c = 0x5b ∨ c = 0x5d) : c ∉ s := by
  intro hm
  have := h.2 c hm
  rcases hc with rfl | rfl | rfl | rfl <;> revert this <;> decide

/-- A type's text followed by the end or a semicolon determines the type. -/
theorem tyText_cut {t t' : SrcTy} (ht : ∀ s, t = .ident s → IsIdent s) (ht' : ∀ s, t' = .ident s → IsIdent s) {r r' : Bytes}
    (h : tyText t ++ (0x3b : Byte) :: r = tyText t' ++ (0x3b : Byte) :: r') : t = t' ∧ r = r' := by
  have ea : ascii "[u8;" = [0x5b, 0x75, 0x38, 0x3b] := by decide
  have eb : ascii "]" = [0x5d] := by decide
  have hx : ∀ {s : Bytes} {n : Nat} {r r' : Bytes}, IsIdent s → s ++ (0x3b : Byte) :: r = tyText (.array n) ++ (0x3b : Byte) :: r' → False := by
    intro s n r r' hs e
    obtain ⟨c, s', rfl⟩ : ∃ c s', s = c :: s' := by
      cases s with
      | nil => exact absurd rfl hs.1
      | cons c s' => exact ⟨c, s', rfl⟩
    rw [tyText, ea] at e
    simp only [List.cons_append, List.cons.injEq] at e
    exact hs.free (c := 0x5b) (by simp) (by rw [e.1]; simp)
  cases t with
  | ident s =>
    cases t' with
    | ident s' =>
      have := cut_sep ((ht s rfl).free (by simp)) ((ht' s' rfl).free (by simp)) h
      exact ⟨by rw [this.1], this.2⟩
    | array n => exact (hx (ht s rfl) h).elim
  | array n =>
    cases t' with
    | ident s => exact (hx (ht' s rfl) h.symm).elim
    | array m =>
      rw [tyText, tyText, eb] at h
      simp only [List.append_assoc, List.append_cancel_left_eq, List.cons_append, List.nil_append] at h
      have hd : ∀ k, (0x5d : Byte) ∉ decimal k := by
        intro k hk
        have := decimal_digit hk
        revert this; decide
      have := cut_sep (hd n) (hd m) h
      rw [decimal_inj this.1]
      exact ⟨rfl, by simpa using this.2⟩

theorem fields_cut : ∀ (fs gs : List SrcField), (∀ f ∈ fs, IsIdent f.name) → (∀ f ∈ gs, IsIdent f.name) →
    (∀ f ∈ fs, ∀ s, f.ty = .ident s → IsIdent s) → (∀ f ∈ gs, ∀ s, f.ty = .ident s → IsIdent s) →
    (∀ f ∈ fs, f.name ≠ ascii "__crc") → (∀ f ∈ gs, f.name ≠ ascii "__crc") →
    fs.flatMap (fun f => ascii ";" ++ f.name ++ ascii ":" ++ tyText f.ty) ++ ascii ";__crc:[u8;4]" =
      gs.flatMap (fun f => ascii ";" ++ f.name ++ ascii ":" ++ tyText f.ty) ++ ascii ";__crc:[u8;4]" → fs = gs := by
  have es : ascii ";" = [0x3b] := by decide
  have ec : ascii ":" = [0x3a] := by decide
  have et : ascii ";__crc:[u8;4]" = (0x3b : Byte) :: (ascii "__crc" ++ (0x3a : Byte) :: ascii "[u8;4]") := by decide
  have hi : (0x3a : Byte) ∉ ascii "__crc" := by decide
  have ts : ∀ l : List SrcField, ∃ w, l.flatMap (fun f => ascii ";" ++ f.name ++ ascii ":" ++ tyText f.ty) ++ ascii ";__crc:[u8;4]" = (0x3b : Byte) :: w := by
    intro l
    cases l with
    | nil => exact ⟨_, et⟩
    | cons f l => rw [List.flatMap_cons, es]; exact ⟨_, rfl⟩
  intro fs
  induction fs with
  | nil =>
    intro gs _ h2 _ _ _ h6 h
    cases gs with
    | nil => rfl
    | cons g gs =>
      rw [List.flatMap_nil, List.nil_append, List.flatMap_cons, es, ec, et] at h
      simp only [List.append_assoc, List.cons_append, List.nil_append, List.cons.injEq, true_and] at h
      exact absurd (cut_sep hi ((h2 g (by simp)).free (by simp)) h).1.symm (h6 g (by simp))
  | cons f fs ih =>
    intro gs h1 h2 h3 h4 h5 h6 h
    cases gs with
    | nil =>
      rw [List.flatMap_nil, List.nil_append, List.flatMap_cons, es, ec, et] at h
      simp only [List.append_assoc, List.cons_append, List.nil_append, List.cons.injEq, true_and] at h
      exact absurd (cut_sep ((h1 f (by simp)).free (by simp)) hi h).1 (h5 f (by simp))
    | cons g gs =>
      rw [List.flatMap_cons, List.flatMap_cons, es, ec] at h
      simp only [List.append_assoc, List.cons_append, List.nil_append, List.cons.injEq, true_and] at h
      obtain ⟨e1, h⟩ := cut_sep ((h1 f (by simp)).free (by simp)) ((h2 g (by simp)).free (by simp)) h
      obtain ⟨w, hw⟩ := ts fs
      obtain ⟨w', hw'⟩ := ts gs
      simp only [es, ec, List.append_assoc, List.cons_append, List.nil_append] at hw hw'
      rw [hw, hw'] at h
      obtain ⟨e2, h⟩ := tyText_cut (h3 f (by simp)) (h4 g (by simp)) h
      rw [ih gs (fun f hf => h1 f (by simp [hf])) (fun f hf => h2 f (by simp [hf])) (fun f hf => h3 f (by simp [hf]))
        (fun f hf => h4 f (by simp [hf])) (fun f hf => h5 f (by simp [hf])) (fun f hf => h6 f (by simp [hf]))
        (by simp only [es, ec, List.append_assoc, List.cons_append, List.nil_append]; rw [hw, hw', h])]
      cases f; cases g
      simp only at e1 e2
      rw [e1, e2]

/-- **C54**, the text: blocks that differ in name, or in the name, type, number or order of their fields, are hashed from different
texts. -/
theorem C54_text {a b : BlockDecl} (ha : IsDecl a) (hb : IsDecl b) (h : declText a = declText b) : a.name = b.name ∧ a.fields = b.fields := by
  rw [declText, declText] at h
  have e1 : ascii ";__sig:[u8;4]" = (0x3b : Byte) :: ascii "__sig:[u8;4]" := by decide
  rw [e1] at h
  simp only [List.append_assoc, List.cons_append] at h
  obtain ⟨hn, h⟩ := cut_sep (ha.name.free (by simp)) (hb.name.free (by simp)) h
  rw [List.append_cancel_left_eq] at h
  exact ⟨hn, fields_cut _ _ ha.field hb.field ha.ty hb.ty (fun f hf => (ha.reserved f hf).2) (fun f hf => (hb.reserved f hf).2) (by simpa only [List.append_assoc] using h)⟩

/-- Both declarations of the theorem exist and their texts differ. -/
example : ∃ d, BlockDecl.parse [.path [ascii "foo", ascii "bar"], .path [ascii "no_crc"]] (ascii "Gps")
      [⟨ascii "level", .ident (ascii "Level")⟩, ⟨ascii "tag", .array 16⟩] = some d ∧
    d.path = [ascii "foo", ascii "bar"] ∧ d.noCrc = true ∧ declText d = ascii "Gps;__sig:[u8;4];level:Level;tag:[u8;16];__crc:[u8;4]" := by
  refine ⟨_, rfl, ?_, ?_, ?_⟩ <;> decide

/-- What the macro accepts is such a declaration, provided the source names are identifiers. -/
theorem parse_isDecl {es : List AttrExpr} {name : Bytes} {fields : List SrcField} {d : BlockDecl} (h : BlockDecl.parse es name fields = some d)
    (hn : IsIdent name) (hf : ∀ f ∈ fields, IsIdent f.name) (ht : ∀ f ∈ fields, ∀ s, f.ty = .ident s → IsIdent s) : IsDecl d := by
  unfold BlockDecl.parse at h
  split at h
  · cases h
  · rename_i hr
    obtain ⟨as, _, rfl⟩ := Option.map_eq_some_iff.mp h
    refine ⟨hn, hf, ht, ?_⟩
    intro f hm
    simp only [List.any_eq_true, isReserved, not_exists, not_and, Bool.or_eq_true, decide_eq_true_eq, not_or] at hr
    exact hr f hm

/-- Declarations whose texts differ within four consecutive bytes have different signatures. -/
theorem C54_burst {a b : BlockDecl} (ha : IsDecl a) (hb : IsDecl b) (h : Burst4 (declText a) (declText b))
    (hne : a.name ≠ b.name ∨ a.fields ≠ b.fields) (env env' : Bytes → Linked) : (a.ty env).sig ≠ (b.ty env').sig := by
  intro e
  have e' : crcBytes a.snap = crcBytes b.snap := e
  rw [snap_eq, snap_eq] at e'
  have e2 : crcState 0xFFFFFFFF#32 (declText a) = crcState 0xFFFFFFFF#32 (declText b) := by
    have h1 := congrArg pack e'
    rw [crcBytes, crcBytes, pack_leBytes, pack_leBytes, crc32, crc32] at h1
    have := congrArg (· ^^^ 0xFFFFFFFF#32) h1
    simpa [BitVec.xor_assoc] using this
  obtain ⟨h1, h2⟩ := C54_text ha hb (crcState_burst _ h e2)
  exact hne.elim (fun x => x h1) (fun x => x h2)

/-- The declaration with a different type for one field. -/
def retyped (name : Bytes) (path : List Bytes) (noCrc : Bool) (pre post : List SrcField) (f : Bytes) (t : SrcTy) : BlockDecl :=
  ⟨name, path, pre ++ ⟨f, t⟩ :: post, noCrc⟩

/-- **C54**, evolution: replacing a field's type by another one whose text is as long and at most four bytes (`u32` by `i32` or `f32`, `u16` by
`u64`, `u8` by `i8`, …) always changes the signature. -/
theorem C54_retyped {name : Bytes} {path path' : List Bytes} {nc nc' : Bool} {pre post : List SrcField} {f : Bytes} {t t' : SrcTy}
    (ha : IsDecl (retyped name path nc pre post f t)) (hb : IsDecl (retyped name path' nc' pre post f t'))
    (hl : (tyText t).length = (tyText t').length) (h4 : (tyText t).length ≤ 4) (hne : t ≠ t') (env env' : Bytes → Linked) :
    ((retyped name path nc pre post f t).ty env).sig ≠ ((retyped name path' nc' pre post f t').ty env').sig := by
  apply C54_burst ha hb
  · have := Burst4.of_split
      (name ++ ascii ";__sig:[u8;4]" ++ pre.flatMap (fun f => ascii ";" ++ f.name ++ ascii ":" ++ tyText f.ty) ++ (ascii ";" ++ f ++ ascii ":"))
      (tyText t) (tyText t')
      (post.flatMap (fun f => ascii ";" ++ f.name ++ ascii ":" ++ tyText f.ty) ++ ascii ";__crc:[u8;4]") hl h4
    simpa [declText, retyped, List.flatMap_append, List.append_assoc] using this
  · right
    simp [retyped, hne]

example : IsDecl (retyped (ascii "Gps") [] false [⟨ascii "id", .ident (ascii "u64")⟩] [⟨ascii "tag", .array 16⟩] (ascii "alt") (.ident (ascii "u32"))) ∧
    (tyText (.ident (ascii "u32"))).length = (tyText (.ident (ascii "f32"))).length ∧ SrcTy.ident (ascii "u32") ≠ .ident (ascii "f32") := by
  refine ⟨⟨by decide, by decide, ?_, by decide⟩, by decide, by decide⟩
  intro f hf s hs
  simp only [retyped, List.cons_append, List.nil_append, List.mem_cons, List.not_mem_nil, or_false] at hf
  rcases hf with rfl | rfl | rfl
  · injection hs with hs; subst hs; decide
  · injection hs with hs; subst hs; decide
  · cases hs

/-! ### Where signatures coincide -/

/-- The path of a block never enters its signature, whatever the documentation says. -/
theorem C54_path_ignored (d : BlockDecl) (path : List Bytes) (env : Bytes → Linked) : ({ d with path := path }.ty env).sig = (d.ty env).sig := rfl

/-- `struct PushLoan { value: u32 }`. -/
def pushLoan : BlockDecl := ⟨ascii "PushLoan", [], [⟨ascii "value", .ident (ascii "u32")⟩], false⟩

/-- `struct PoolLine { value: f32 }`. -/
def poolLine : BlockDecl := ⟨ascii "PoolLine", [], [⟨ascii "value", .ident (ascii "f32")⟩], false⟩

theorem pushLoan_isDecl : IsDecl pushLoan :=
  ⟨by decide, by decide, by
    intro f hf s hs
    simp only [pushLoan, List.mem_cons, List.not_mem_nil, or_false] at hf
    subst hf; injection hs with hs; subst hs; decide, by decide⟩

theorem poolLine_isDecl : IsDecl poolLine :=
  ⟨by decide, by decide, by
    intro f hf s hs
    simp only [poolLine, List.mem_cons, List.not_mem_nil, or_false] at hf
    subst hf; injection hs with hs; subst hs; decide, by decide⟩

/-- Block signatures are not unique: two blocks with different names and field types share one. -/
theorem C54_not : ¬ ∀ a b : BlockDecl, IsDecl a → IsDecl b → a.name ≠ b.name → a.sig ≠ b.sig := by
  intro h
  exact h pushLoan poolLine pushLoan_isDecl poolLine_isDecl (by decide) (by decide +kernel)

/-- Of two variants with one signature, only the first is ever read: bytes written by the second never come back as the second. -/
theorem C54_first_takes_all {a b : BlockTy} {pre post : List BlockTy} (w : b.WF) (hs : a.sig = b.sig) (hab : a ≠ b)
    (hp : ∀ x ∈ pre, x.sig ≠ b.sig) (v : Vals b.fields) (s : Bytes) :
    (∀ c : Cur, c.rest = b.bytes v ++ s → ∀ u, (enumTryRead (pre ++ a :: post) c).1 ≠ .ok (.success ⟨b, u⟩)) ∧
    (∀ r : Referred b.fields, enumReadSlice false (pre ++ a :: post) (b.bytes v ++ s) ≠ .ok ⟨b, r⟩) := by
  have h4 : 4 ≤ (b.bytes v ++ s).length := by simp [BlockTy.bytes_length w, BlockTy.ssize]; omega
  have ht := b.bytes_take w v s
  constructor
  · intro c hc u
    have hpos : c.pos ≤ c.data.length := by
      apply Nat.le_of_not_lt
      intro hlt
      have : c.rest = [] := by simp [Cur.rest]; omega
      rw [this] at hc
      rw [← hc] at h4
      simp at h4
    induction pre with
    | nil =>
      rw [List.nil_append, enumTryRead]
      have hm := BlockTy.tryRead_match (b := a) (c := c) hpos (by rw [hc]; exact h4) (by rw [hc, ht, hs])
      split
      · intro e
        have := Status.success.inj (Out.ok.inj e)
        exact hab (congrArg Sigma.fst this)
      · simp
      · rename_i he; rw [he] at hm; exact absurd rfl hm
      · simp
      · simp
    | cons x pre ih =>
      rw [List.cons_append, enumTryRead, BlockTy.tryRead_other hpos (by rw [hc]; exact h4) (by rw [hc, ht]; exact (hp x (by simp)).symm)]
      exact ih (fun y hy => hp y (by simp [hy]))
  · intro r
    induction pre with
    | nil =>
      rw [List.nil_append, enumReadSlice]
      have hm := BlockTy.readSlice_match (b := a) h4 (by rw [ht, hs])
      split
      · intro e
        exact hab (congrArg Sigma.fst (Out.ok.inj e))
      · rename_i he; rw [he] at hm; exact absurd rfl hm
      · simp
      · simp
    | cons x pre ih =>
      rw [List.cons_append, enumReadSlice, BlockTy.readSlice_other h4 (by rw [ht]; exact (hp x (by simp)).symm)]
      exact ih (fun y hy => hp y (by simp [hy]))

/-- The generated types of the two blocks, which link no enum. -/
def plainTy (d : BlockDecl) : BlockTy := d.ty fun _ => ⟨0, fun v => v.elim0, fun _ => none⟩

example : (plainTy pushLoan).sig = (plainTy poolLine).sig ∧ plainTy pushLoan ≠ plainTy poolLine := by
  refine ⟨by decide +kernel, ?_⟩
  intro h
  have h := congrArg BlockTy.fields h
  have e1 : (plainTy pushLoan).fields = [.num .u32] := rfl
  have e2 : (plainTy poolLine).fields = [.num .f32] := rfl
  rw [e1, e2] at h
  cases h

/-- The `PushLoan` with the value 1065353216. -/
def pushOne : Vals (plainTy pushLoan).fields := show Vals [.num .u32] from (0x3f800000#32, ())

/-- The `PoolLine` with the value 1.0. -/
def poolOne : Vals (plainTy poolLine).fields := show Vals [.num .f32] from (0x3f800000#32, ())

/-- A `PoolLine` with the value 1.0 comes back as a `PushLoan` with the value 1065353216 when that variant comes first, from every reader, with
a matching CRC; in the other order a `PushLoan` comes back as a `PoolLine`. -/
theorem C54_confused (s pre : Bytes) (chk : Bool) :
    (∃ r, enumReadSlice false [plainTy pushLoan, plainTy poolLine] ((plainTy poolLine).bytes poolOne ++ s) = .ok r ∧
      r.into = ⟨plainTy pushLoan, pushOne⟩) ∧
    (enumTryRead [plainTy pushLoan, plainTy poolLine] ⟨pre ++ ((plainTy poolLine).bytes poolOne ++ s), pre.length, chk⟩).1 =
      .ok (.success ⟨plainTy pushLoan, pushOne⟩) ∧
    (enumTryRead [plainTy poolLine, plainTy pushLoan] ⟨pre ++ ((plainTy pushLoan).bytes pushOne ++ s), pre.length, chk⟩).1 =
      .ok (.success ⟨plainTy poolLine, poolOne⟩) := by
  have e : (plainTy poolLine).bytes poolOne = (plainTy pushLoan).bytes pushOne := by decide +kernel
  have w : ∀ d, d = pushLoan ∨ d = poolLine → (plainTy d).WF := by
    intro d hd
    refine ⟨by simp [plainTy, BlockDecl.ty, BlockDecl.sig], ?_⟩
    intro t ht
    rcases hd with rfl | rfl
    · have : t = .num .u32 := by
        have hh : (plainTy pushLoan).fields = [.num .u32] := rfl
        rw [hh] at ht; simpa using ht
      subst this; trivial
    · have : t = .num .f32 := by
        have hh : (plainTy poolLine).fields = [.num .f32] := rfl
        rw [hh] at ht; simpa using ht
      subst this; trivial
  refine ⟨?_, ?_, ?_⟩
  · rw [e, enumReadSlice, BlockTy.readSlice_bytes (w _ (Or.inl rfl))]
    exact ⟨_, rfl, rfl⟩
  · rw [e, enumTryRead, BlockTy.tryRead_bytes (w _ (Or.inl rfl)) pushOne (s := s) (by simp) (by simp [Cur.rest])]
  · rw [← e, enumTryRead, BlockTy.tryRead_bytes (w _ (Or.inr rfl)) poolOne (s := s) (by simp) (by simp [Cur.rest])]

/-- The small letters, and the capitals that replace them at the beginning of a name. -/
def letters : List (Byte × Byte) := (ascii "abcdefghijklmnopqrstuvwxyz").zip (ascii "ABCDEFGHIJKLMNOPQRSTUVWXYZ")

/-- A name with a capital first letter. -/
def withCapital : Bytes → Bytes
  | [] => []
  | c :: cs => (letters.lookup c).getD c :: cs

theorem withCapital_eq (s : Bytes) : withCapital s = Brec.capital s := by
  have h : ∀ c : Byte, (letters.lookup c).getD c = if 97 ≤ c.toNat ∧ c.toNat ≤ 122 then BitVec.ofNat 8 (c.toNat - 32) else c := by decide +kernel
  cases s with
  | nil => rfl
  | cons c s => rw [withCapital, Brec.capital, h]

/-- The signature of a payload type is the CRC-32 of its variant name. -/
theorem C54_payload_signature (d : PayloadDecl) : d.sig.asSlice = leBytes 4 (specCrc ((d.path ++ [d.name]).flatMap withCapital)) := by
  rw [← C51_crc32, List.flatMap_def, List.map_congr_left fun s _ => withCapital_eq s]
  rfl

/-- The variant of a block is called by the segments of its path and its name, each with a capital letter. -/
theorem C55_names (d : BlockDecl) : d.fullname = (d.path ++ [d.name]).flatMap withCapital := by
  rw [List.flatMap_def, List.map_congr_left fun s _ => withCapital_eq s]
  rfl

/-! ## C55: variants -/

/-- **C55**, what is kept: the variant names are pairwise different, and a declaration is a variant exactly if no earlier declaration has its
variant name. (`vs` is the list of variants in any order.) -/
theorem C55_variants_partial {α : Type} {key : α → Bytes} {ds vs : List α} (h : IsVariants key ds vs) :
    (vs.map key).Nodup ∧ ∀ d, d ∈ vs ↔ ∃ pre post, ds = pre ++ d :: post ∧ ∀ x ∈ pre, key x ≠ key d := by
  have hk : (collect key ds).map (·.1) = ((collect key ds).map (·.2)).map key := by
    rw [List.map_map]
    apply List.map_congr_left
    intro e he
    exact (collect_key (key := key) ds e he).1
  constructor
  · rw [(h.map key).nodup_iff, ← hk]
    exact collect_nodup ds
  · intro d
    rw [h.mem_iff, List.mem_map]
    constructor
    · rintro ⟨e, he, rfl⟩
      exact ((collect_iff ds e).mp he).2
    · intro hd
      exact ⟨(key d, d), (collect_iff ds (key d, d)).mpr ⟨rfl, hd⟩, rfl⟩

/-- Every declaration is a variant, exactly once, if the variant names differ. -/
theorem C55_complete {α : Type} {key : α → Bytes} {ds vs : List α} (h : IsVariants key ds vs) (hn : (ds.map key).Nodup) : vs.Perm ds := by
  have := h
  rwa [IsVariants, collect_all ds hn] at this

/-- The name does not begin with a small ASCII letter. -/
def Capitalised (s : Bytes) : Prop := ∀ c, s.head? = some c → ¬ (97 ≤ c.toNat ∧ c.toNat ≤ 122)

theorem capital_eq {s : Bytes} (h : Capitalised s) : capital s = s := by
  cases s with
  | nil => rfl
  | cons c s => rw [capital, if_neg (h c rfl)]

/-- Blocks declared without a path, under different capitalised names: every one of them is a variant. -/
theorem C55_no_path {ds vs : List BlockDecl} (h : IsVariants BlockDecl.fullname ds vs) (hp : ∀ d ∈ ds, d.path = [] ∧ Capitalised d.name)
    (hn : (ds.map (·.name)).Nodup) : vs.Perm ds := by
  apply C55_complete h
  have : ds.map BlockDecl.fullname = ds.map (·.name) := by
    apply List.map_congr_left
    intro d hd
    rw [BlockDecl.fullname, fullname, (hp d hd).1]
    simp [capital_eq (hp d hd).2]
  rw [this]; exact hn

example : (∀ d ∈ [pushLoan, poolLine], d.path = [] ∧ Capitalised d.name) ∧ ([pushLoan, poolLine].map (·.name)).Nodup := by
  refine ⟨?_, by decide⟩
  intro d hd
  simp only [List.mem_cons, List.not_mem_nil, or_false] at hd
  rcases hd with rfl | rfl <;> refine ⟨rfl, ?_⟩ <;> intro c hc <;> injection hc with hc <;> subst hc <;> decide

/-- `foo::BarBaz` and `foo::bar::Baz`. -/
def barBaz : BlockDecl := ⟨ascii "BarBaz", [ascii "foo"], [⟨ascii "id", .ident (ascii "u64")⟩], false⟩
def baz : BlockDecl := ⟨ascii "Baz", [ascii "foo", ascii "bar"], [⟨ascii "name", .array 16⟩], false⟩

/-- Not every declaration becomes a variant: of two blocks in different modules one is dropped without a word, and which one depends on the
order in which the macros run. The same holds for payloads, whose signatures then coincide as well. -/
theorem C55_not : (∀ vs, IsVariants BlockDecl.fullname [barBaz, baz] vs → vs = [barBaz]) ∧
    (∀ vs, IsVariants BlockDecl.fullname [baz, barBaz] vs → vs = [baz]) ∧
    (∀ vs, IsVariants PayloadDecl.fullname [⟨ascii "BarBaz", [ascii "foo"]⟩, ⟨ascii "Baz", [ascii "foo", ascii "bar"]⟩] vs →
      vs = [⟨ascii "BarBaz", [ascii "foo"]⟩]) := by
  refine ⟨?_, ?_, ?_⟩
  · intro vs h
    have : (collect BlockDecl.fullname [barBaz, baz]).map (·.2) = [barBaz] := by decide
    rw [IsVariants, this] at h
    exact List.perm_singleton.mp h
  · intro vs h
    have : (collect BlockDecl.fullname [baz, barBaz]).map (·.2) = [baz] := by decide
    rw [IsVariants, this] at h
    exact List.perm_singleton.mp h
  · intro vs h
    have : (collect PayloadDecl.fullname [⟨ascii "BarBaz", [ascii "foo"]⟩, ⟨ascii "Baz", [ascii "foo", ascii "bar"]⟩]).map (·.2) =
        [⟨ascii "BarBaz", [ascii "foo"]⟩] := by decide
    rw [IsVariants, this] at h
    exact List.perm_singleton.mp h

/-- Two builds of the same declarations: the order of the variants may differ, the readers (slice, seekable, buffered) do not, as long as the
signatures are pairwise different. -/
theorem C55_rebuild {ds vs vs' : List BlockDecl} (h : IsVariants BlockDecl.fullname ds vs) (h' : IsVariants BlockDecl.fullname ds vs')
    (hs : ds.Pairwise fun a b => a.sig ≠ b.sig) (env : BlockDecl → Bytes → Linked) (buf : Bytes) (c : Cur) (cs : Chunks) (hc : c.pos ≤ c.data.length) :
    enumReadSlice false (vs.map fun d => d.ty (env d)) buf = enumReadSlice false (vs'.map fun d => d.ty (env d)) buf ∧
    enumTryRead (vs.map fun d => d.ty (env d)) c = enumTryRead (vs'.map fun d => d.ty (env d)) c ∧
    enumTryBuf (vs.map fun d => d.ty (env d)) cs = enumTryBuf (vs'.map fun d => d.ty (env d)) cs := by
  have p : (vs.map fun d => d.ty (env d)).Perm (vs'.map fun d => d.ty (env d)) := (h.trans h'.symm).map _
  have hd : DistinctSigs (vs.map fun d => d.ty (env d)) := by
    have hsub : ∀ {ds : List BlockDecl}, ds.Pairwise (fun a b => a.sig ≠ b.sig) →
        ((collect BlockDecl.fullname ds).map (·.2)).Pairwise (fun a b => a.sig ≠ b.sig) := by
      intro ds
      induction ds using snoc_induction with
      | h0 => intro _; simp [collect]
      | hs ds d ih =>
        intro hp
        rw [List.pairwise_append] at hp
        rw [collect_snoc, orInsert]
        split
        · exact ih hp.1
        · rw [List.map_append, List.pairwise_append]
          refine ⟨ih hp.1, by simp, ?_⟩
          intro a ha b hb
          obtain ⟨e, he, rfl⟩ := List.mem_map.mp ha
          have hb : b = d := by simpa using hb
          subst hb
          exact hp.2.2 _ (collect_key ds e he).2 _ (by simp)
    have hv : vs.Pairwise (fun a b => a.sig ≠ b.sig) := (h.pairwise_iff (fun h => Ne.symm h)).mpr (hsub hs)
    exact List.pairwise_map.mpr hv
  exact ⟨enumReadSlice_perm p hd buf, enumTryRead_perm p hd hc, enumTryBuf_perm p hd (by
    intro a ha
    obtain ⟨d, _, rfl⟩ := List.mem_map.mp ha
    exact crcBytes_length _) cs⟩

example : ([barBaz, pushLoan].Pairwise fun a b => a.sig ≠ b.sig) := by
  rw [List.pairwise_cons]
  refine ⟨?_, by simp⟩
  intro b hb
  have hb : b = pushLoan := by simpa using hb
  subst hb
  decide +kernel

/-! ## C56: attributes -/

/-- What the documentation says an attribute item means: `path = a::b` and the bare path `a::b` or `a` name the module, `no_crc` switches the CRC off,
anything else is an error. -/
def meaning : AttrExpr → Option BlockAttr
  | .assign key p => if key = ascii "path" then some (.path p) else none
  | .path p => if p = [ascii "no_crc"] then some .noCrc else some (.path p)
  | .other => none

/-- The meanings of all items; one bad item rejects the list. -/
def meanings : List AttrExpr → Option (List BlockAttr)
  | [] => some []
  | e :: es => (meaning e).bind fun a => (meanings es).map (a :: ·)

/-- **C56** holds as long as no bare path is a single identifier other than `no_crc`. -/
theorem C56_attrs_partial (es : List AttrExpr) (h : ∀ e ∈ es, ∀ s, e = .path [s] → s = ascii "no_crc") : parseBlockAttrs es = meanings es := by
  induction es with
  | nil => rfl
  | cons e es ih =>
    have ih := ih fun e he => h e (by simp [he])
    have h := h e (by simp)
    cases e with
    | assign key p =>
      rw [parseBlockAttrs, meanings, meaning, ih]
      split <;> rfl
    | path p =>
      rcases p with _ | ⟨s, _ | ⟨t, p⟩⟩
      · simp [parseBlockAttrs, meanings, meaning, ih]
      · have := h s rfl
        subst this
        rw [parseBlockAttrs, meanings, meaning, ih]; simp
      · simp [parseBlockAttrs, meanings, meaning, ih]
    | other => rfl

example : ∀ e ∈ [AttrExpr.path [ascii "foo", ascii "bar"], .path [ascii "no_crc"], .assign (ascii "path") [ascii "foo"]], ∀ s, e = .path [s] → s = ascii "no_crc" := by
  intro e he s hs
  subst hs
  simp at he
  exact he

/-- A bare module name of one segment is dropped without a word, and so is a misspelt `no_crc`: the block is then looked up in the wrong place,
or carries a CRC it should not have. -/
theorem C56_not : parseBlockAttrs [.path [ascii "blocks"]] = some [] ∧ meanings [.path [ascii "blocks"]] = some [.path [ascii "blocks"]] ∧
    (BlockDecl.parse [.path [ascii "blocks"]] (ascii "Gps") []).map BlockDecl.fullname = some (ascii "Gps") ∧
    (BlockDecl.parse [.assign (ascii "path") [ascii "blocks"]] (ascii "Gps") []).map BlockDecl.fullname = some (ascii "BlocksGps") ∧
    (BlockDecl.parse [.path [ascii "nocrc"]] (ascii "Gps") []).map (·.noCrc) = some false := by decide

/-- The module path an item of `#[block(…)]` gives, if the code takes it for one. -/
def givesPath : AttrExpr → Option (List Bytes)
  | .assign key p => if key = ascii "path" then some p else none
  | .path p => if p.length = 1 then none else some p
  | .other => none

theorem parseBlockAttrs_path {es : List AttrExpr} {as : List BlockAttr} (h : parseBlockAttrs es = some as) :
    attrPath as = ((es.filterMap givesPath).head?).getD [] ∧ (attrNoCrc as = true ↔ AttrExpr.path [ascii "no_crc"] ∈ es) := by
  induction es generalizing as with
  | nil =>
    rw [parseBlockAttrs] at h
    injection h with h
    subst h
    simp [attrPath, attrNoCrc]
  | cons e es ih =>
    cases e with
    | assign key p =>
      rw [parseBlockAttrs] at h
      split at h
      · rename_i hk
        obtain ⟨as', h1, rfl⟩ := Option.map_eq_some_iff.mp h
        have := ih h1
        refine ⟨by simp [attrPath, givesPath, hk], ?_⟩
        simpa [attrNoCrc] using this.2
      · cases h
    | path p =>
      rcases p with _ | ⟨s, _ | ⟨t, p⟩⟩
      · rw [parseBlockAttrs] at h
        · obtain ⟨as', h1, rfl⟩ := Option.map_eq_some_iff.mp h
          have := ih h1
          exact ⟨by simp [attrPath, givesPath], by simpa [attrNoCrc] using this.2⟩
        · intro s hs; cases hs
      · rw [parseBlockAttrs] at h
        split at h
        · rename_i hk
          obtain ⟨as', h1, rfl⟩ := Option.map_eq_some_iff.mp h
          have := ih h1
          exact ⟨by simp [attrPath, givesPath, this.1], by simp [attrNoCrc, hk]⟩
        · rename_i hk
          have := ih h
          refine ⟨by simp [givesPath, this.1], ?_⟩
          rw [this.2]
          simp [Ne.symm hk]
      · rw [parseBlockAttrs] at h
        · obtain ⟨as', h1, rfl⟩ := Option.map_eq_some_iff.mp h
          have := ih h1
          exact ⟨by simp [attrPath, givesPath], by simpa [attrNoCrc] using this.2⟩
        · intro s hs; cases hs
    | other => cases h

/-- **C56**: what a declaration that compiles comes to, for all attributes, in any order. The first path counts; there is no CRC exactly if `no_crc` is among the attributes; no field has a
reserved name. -/
theorem C56_declaration {es : List AttrExpr} {name : Bytes} {fields : List SrcField} {d : BlockDecl} (h : BlockDecl.parse es name fields = some d) :
    d.name = name ∧ d.fields = fields ∧ d.path = ((es.filterMap givesPath).head?).getD [] ∧ (d.noCrc = true ↔ AttrExpr.path [ascii "no_crc"] ∈ es) ∧
    ∀ f ∈ fields, f.name ≠ ascii "__sig" ∧ f.name ≠ ascii "__crc" := by
  unfold BlockDecl.parse at h
  split at h
  · cases h
  · rename_i hr
    obtain ⟨as, h1, rfl⟩ := Option.map_eq_some_iff.mp h
    have := parseBlockAttrs_path h1
    refine ⟨rfl, rfl, this.1, this.2, fun f hf => ?_⟩
    rw [Bool.not_eq_true, List.any_eq_false] at hr
    have := hr f hf
    simpa [isReserved] using this

/-- What the types written in a declaration stand for: the Rust types of these names and sizes, and any other name is an enum known under that name. -/
inductive Written (env : Bytes → Linked) : SrcTy → FTy → Prop
  | u8 : Written env (.ident (ascii "u8")) (.num .u8)
  | u16 : Written env (.ident (ascii "u16")) (.num .u16)
  | u32 : Written env (.ident (ascii "u32")) (.num .u32)
  | u64 : Written env (.ident (ascii "u64")) (.num .u64)
  | u128 : Written env (.ident (ascii "u128")) (.num .u128)
  | i8 : Written env (.ident (ascii "i8")) (.num .i8)
  | i16 : Written env (.ident (ascii "i16")) (.num .i16)
  | i32 : Written env (.ident (ascii "i32")) (.num .i32)
  | i64 : Written env (.ident (ascii "i64")) (.num .i64)
  | i128 : Written env (.ident (ascii "i128")) (.num .i128)
  | f32 : Written env (.ident (ascii "f32")) (.num .f32)
  | f64 : Written env (.ident (ascii "f64")) (.num .f64)
  | bool : Written env (.ident (ascii "bool")) .bool
  | array (n : Nat) : Written env (.array n) (.blob n)
  | linked {s : Bytes} : s ∉ [ascii "u8", ascii "u16", ascii "u32", ascii "u64", ascii "u128", ascii "i8", ascii "i16", ascii "i32", ascii "i64", ascii "i128", ascii "f32", ascii "f64",
      ascii "bool"] → Written env (.ident s) (.linked (env s))

theorem written_src (env : Bytes → Linked) : ∀ t : SrcTy, Written env t ((MTy.ofSrc t).fty env)
  | .array n => .array n
  | .ident s => by
    by_cases hs : s ∈ [ascii "u8", ascii "u16", ascii "u32", ascii "u64", ascii "u128", ascii "i8", ascii "i16", ascii "i32", ascii "i64", ascii "i128", ascii "f32", ascii "f64", ascii "bool"]
    · simp only [List.mem_cons, List.not_mem_nil, or_false] at hs
      rcases hs with rfl | rfl | rfl | rfl | rfl | rfl | rfl | rfl | rfl | rfl | rfl | rfl | rfl
      · exact .u8
      · exact .u16
      · exact .u32
      · exact .u64
      · exact .u128
      · exact .i8
      · exact .i16
      · exact .i32
      · exact .i64
      · exact .i128
      · exact .f32
      · exact .f64
      · exact .bool
    · have h1 : NumTy.all.find? (fun n => n.text = s) = none := by
        rw [List.find?_eq_none]
        intro n _ hn
        have hn : n.text = s := by simpa using hn
        apply hs
        rw [← hn]
        cases n <;> decide
      have h2 : s ≠ ascii "bool" := fun h => hs (by rw [h]; decide)
      simp only [MTy.ofSrc, h1, if_neg h2, MTy.fty]
      exact .linked hs

/-- **C56, the fields.** The block of a declaration has its fields in the order of the declaration, each of the type that is written. -/
theorem C56_fields (env : Bytes → Linked) (d : BlockDecl) :
    (d.ty env).fields.length = d.fields.length ∧
      ∀ (i : Nat) (f : SrcField), d.fields[i]? = some f → ∃ t, (d.ty env).fields[i]? = some t ∧ Written env f.ty t := by
  refine ⟨by simp [BlockDecl.ty], ?_⟩
  intro i f hf
  refine ⟨_, ?_, written_src env f.ty⟩
  simp only [BlockDecl.ty, List.getElem?_map, hf, Option.map_some]

/-- The hypotheses are met: the second field of three, of a type that is told from a byte. -/
example (env : Bytes → Linked) : (BlockDecl.ty env ⟨ascii "Gps", [], [⟨ascii "a", .ident (ascii "u16")⟩, ⟨ascii "b", .ident (ascii "bool")⟩, ⟨ascii "c", .array 3⟩], false⟩).fields[1]? = some .bool := by
  obtain ⟨t, h, w⟩ := (C56_fields env ⟨ascii "Gps", [], [⟨ascii "a", .ident (ascii "u16")⟩, ⟨ascii "b", .ident (ascii "bool")⟩, ⟨ascii "c", .array 3⟩], false⟩).2 1 _ rfl
  rw [h]
  generalize hx : SrcTy.ident (ascii "bool") = x at w
  cases w with
  | bool => rfl
  | linked hs =>
    injection hx with hx
    exact absurd (by rw [← hx]; decide) hs
  | array n => cases hx
  | _ => exact absurd hx (by decide)

/-- A second path is neither honoured nor rejected. -/
theorem C56_second_path (p q : List Bytes) (name : Bytes) :
    (BlockDecl.parse [.assign (ascii "path") p, .assign (ascii "path") q] name []).map (·.path) = some p := by
  simp [BlockDecl.parse, parseBlockAttrs, BlockDecl.ofAttrs, attrPath]

example : ∃ d, BlockDecl.parse [.path [ascii "no_crc"], .path [ascii "foo", ascii "bar"], .assign (ascii "path") [ascii "baz"]] (ascii "Gps") [] = some d ∧
    d.path = [ascii "foo", ascii "bar"] ∧ d.noCrc = true := ⟨_, rfl, by decide, by decide⟩

end Brec.Props
