import Verif.Macro
/-!
# The names in the generated readers of a block

The generated functions keep the values of the fields in local variables that have the names of the fields, next to variables of their own. `Vals.read` and
`Vals.ofSlice` (`Verif.Block`) know fields by position only. Here the two functions are written with a scope: what each name stands for at each point. All identifiers
come from `quote!` and `format_ident!` on strings, so they have the same hygiene and a later `let` of the same name hides an earlier one.
-/

namespace Brec

/-- What a name stands for inside a generated function. -/
inductive Bound
  /-- The parameter `buf`. -/
  | src
  /-- A variable with the value of the field of this number. -/
  | field (i : Nat)
  /-- The variable with the stored checksum. -/
  | crc
  /-- Any other parameter or variable. -/
  | other
  deriving DecidableEq

/-- The names in scope, the latest first. -/
abbrev Scope := List (Bytes × Bound)

/-- Name lookup: the latest binding counts. -/
def Scope.find : Scope → Bytes → Option Bound
  | [], _ => none
  | (m, b) :: s, n => if m = n then some b else Scope.find s n

/-- The parameters of `read` and `read_from_slice` (`codegen/read/block.rs:22`, `93`). -/
def params : Scope := [(ascii "skip_sig", .other), (ascii "buf", .src)]

/-- The statements `#(#fields)*` of `read` (`tokenized/block/read_exact/field/mod.rs:8-51`): `let mut #name = [0u8; len]; buf.read_exact(&mut #name)?; let #name = …;`. The
name is bound before `buf` is used. `none`: does not compile, as no field type has a method `read_exact`. -/
def bindRead : Nat → List SrcField → Scope → Option Scope
  | _, [], s => some s
  | i, f :: fs, s =>
    if Scope.find ((f.name, .field i) :: s) (ascii "buf") = some .src then bindRead (i + 1) fs ((f.name, .field i) :: s) else none

/-- The statements of `read` up to the struct literal (`codegen/read/block.rs:34-37`): the fields, then `let mut crc = [0u8; 4]; buf.read_exact(&mut crc)?;`. -/
def readScope (fs : List SrcField) : Option Scope :=
  (bindRead 0 fs params).bind fun s =>
    if Scope.find ((ascii "crc", .crc) :: s) (ascii "buf") = some .src then some ((ascii "crc", .crc) :: s) else none

/-- The field statements of `read_from_slice` (`tokenized/block/from_bytes/field/mod.rs:8-14`): `let #name = …buf[from..to]…;`. The name is bound after `buf` is used.
(A `[u8; n]` named `buf` would still compile here; `read` does not.) -/
def bindSlice : Nat → List SrcField → Scope → Option Scope
  | _, [], s => some s
  | i, f :: fs, s => if Scope.find s (ascii "buf") = some .src then bindSlice (i + 1) fs ((f.name, .field i) :: s) else none

/-- The statements of `read_from_slice` up to the struct literal (`codegen/read/block.rs:62-109`): `required`, `__sig`, the fields, `__crc` and `crc`. -/
def sliceScope (fs : List SrcField) : Option Scope :=
  (bindSlice 0 fs ((ascii "__sig", .other) :: (ascii "required", .other) :: params)).bind fun s =>
    if Scope.find s (ascii "buf") = some .src then some ((ascii "crc", .crc) :: (ascii "__crc", .other) :: s) else none

/-- Whether the declared fields of the struct literal `Name { #(#fnames,)* }` type-check: each name must stand for a variable of the type of the field. The checksum
is a `[u8; 4]` (a `&[u8; 4]` in `read_from_slice`, as is a `[u8; 4]` field of the zero-copy view). The variable of another field could only be meant if two fields had
the same name. -/
def litTyped (s : Scope) : Nat → List SrcField → Bool
  | _, [] => true
  | i, f :: fs =>
    (match Scope.find s f.name with
      | some (.field j) => j == i
      | some .crc => MTy.ofSrc f.ty = .blob 4
      | _ => false) && litTyped s (i + 1) fs

/-- `str::to_ascii_uppercase`. -/
def upper (s : Bytes) : Bytes := s.map fun c => if 97 ≤ c.toNat ∧ c.toNat ≤ 122 then BitVec.ofNat 8 (c.toNat - 32) else c

/-- Whether the two readers of a block compile, as far as the names of the fields matter: the names are distinct (as in every struct), none is the name of the
signature constant (`const_sig_name`, `entities/block/mod.rs:68-70`; a `let` cannot hide a constant), and all names stand for what the code expects. Other constants
of the module, and everything else the compiler may object to, are not looked at. -/
def BlockDecl.compiles (d : BlockDecl) : Bool :=
  decide (d.fields.map (·.name)).Nodup && !(d.fields.map (·.name)).contains (upper d.name) &&
  (match readScope d.fields with
    | some s => litTyped s 0 d.fields
    | none => false) &&
  (match sliceScope d.fields with
    | some s => litTyped s 0 d.fields
    | none => false)

/-- The types of the fields. -/
@[reducible] def declTys (env : Bytes → Linked) (fs : List SrcField) : List FTy := fs.map fun f => (MTy.ofSrc f.ty).fty env

/-- The value a name gives to the field number `i` of the struct literal, if the types agree: `v` is the value of the variable of that field, `crc` the stored checksum. -/
def litVal {env : Bytes → Linked} (t : MTy) (b : Option Bound) (i : Nat) (v : (t.fty env).Val) (crc : Arr 4) : Option (t.fty env).Val :=
  match b with
  | some (.field j) => if j = i then some v else none
  | some .crc =>
    match t with
    | .blob n => if h : n = 4 then some (h ▸ crc) else none
    | _ => none
  | _ => none

/-- The struct literal (`codegen/read/block.rs:38-40`, `110-112`): `v` are the values of the variables of the fields. -/
def litVals {env : Bytes → Linked} (s : Scope) (crc : Arr 4) : Nat → (fs : List SrcField) → Vals (declTys env fs) → Option (Vals (declTys env fs))
  | _, [], _ => some ()
  | i, f :: fs, (v, vs) =>
    match litVal (MTy.ofSrc f.ty) (Scope.find s f.name) i v crc, litVals s crc (i + 1) fs vs with
    | some w, some ws => some (w, ws)
    | _, _ => none

/-- `ReadBlockFrom::read` after the check of the signature (`codegen/read/block.rs:34-45`), with the names. A literal that has no value (it does not compile) is shown
as a panic. `block.crc() != crc`: the name `crc` was bound last. -/
def namedBody (env : Bytes → Linked) (d : BlockDecl) (s : Scope) : P (Vals (d.ty env).fields) := do
  let v ← Vals.read (declTys env d.fields)
  let b ← P.readExact 4
  let crc ← P.lift (toArr 4 b)
  let block ← P.lift (match litVals s crc 0 d.fields v with
    | some w => .ok w
    | none => .panic)
  if (d.ty env).crc block ≠ crc.1 then P.fail .crcDismatch else
  pure block

/-- `ReadBlockFrom::read` (`codegen/read/block.rs:19-46`), with the names. `none`: does not compile. -/
def BlockDecl.genRead (env : Bytes → Linked) (d : BlockDecl) (skipSig : Bool) : Option (P (Vals (d.ty env).fields)) :=
  if d.compiles then
    (readScope d.fields).map fun s =>
      if skipSig then namedBody env d s
      else do
        let sig ← P.readExact 4
        if sig ≠ d.sig then P.fail .sigDismatch else namedBody env d s
  else none

/-- `ReadBlockFromSlice::read_from_slice` (`codegen/read/block.rs:88-123`), with the names. `none`: does not compile. -/
def BlockDecl.genSlice (env : Bytes → Linked) (d : BlockDecl) (skipSig : Bool) : Option (Bytes → Out (Referred (d.ty env).fields)) :=
  if d.compiles then
    (sliceScope d.fields).map fun s buf =>
      if ¬ skipSig ∧ buf.length < 4 then .err (.notEnoughSig buf.length 4)
      else if ¬ skipSig ∧ buf.take 4 ≠ d.sig then .err .sigDismatch
      else
        let required := if skipSig then (d.ty env).ssize - 4 else (d.ty env).ssize
        if buf.length < required then .err (.notEnoughData required)
        else
          (if skipSig then .ok d.sig else cut buf 0 4).bind fun sig =>
          (Vals.ofSlice (declTys env d.fields) buf 4).bind fun r =>
          (cut buf r.2 (r.2 + 4)).bind fun b =>
          (toArr 4 b).bind fun crc =>
          match litVals s crc 0 d.fields r.1 with
          | some w => if (d.ty env).crc w ≠ crc.1 then .err .crcDismatch else .ok ⟨sig, w, crc.1⟩
          | none => .panic
  else none

/-- The types `#[block]` puts into the module of a declaration: the struct itself and its zero-copy view (`codegen/base/block.rs:47-53`, `referred_name`,
`entities/block/mod.rs:74-76`). -/
def BlockDecl.newTypes (d : BlockDecl) : List Bytes := [d.name, d.name ++ ascii "Referred"]

/-- The constant it puts there: the signature (`codegen/base/block.rs:63`, `const_sig_name`, `entities/block/mod.rs:68-70`). -/
def BlockDecl.newConst (d : BlockDecl) : Bytes := upper d.name

/-- Whether several blocks declared in one module compile, as far as names matter: every declaration on its own, no two types and no two constants of the same name
(types and constants have separate name spaces), and no `let` of a generated reader (all fields have one) names a constant of the module. Other items of the module and
imports are not looked at. -/
def moduleCompiles (ds : List BlockDecl) : Bool :=
  ds.all BlockDecl.compiles && decide (ds.flatMap BlockDecl.newTypes).Nodup && decide (ds.map BlockDecl.newConst).Nodup &&
  ds.all fun d => d.fields.all fun f => !(ds.map BlockDecl.newConst).contains f.name

end Brec
