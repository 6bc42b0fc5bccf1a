import Verif.Storage
import Verif.Props.PayloadDispatch
import Verif.Props.Macro
import Verif.NoPanic
/-!
# C96: building a program again does not change what it reads

`collector/mod.rs:29-30` keeps blocks and payloads in a `HashMap`, so the order of the variants of the generated enums changes from build to build.
-/

namespace Brec.Props

open Brec

/-- The packets of a program whose generated `Payload` has the variants `ps`, in this order. -/
abbrev Pkt (O : BlockOps) (ps : List PayloadTy) : Type := Packet O (PEnum.ops ps)

/-- The two values are the same variant with the same content: nothing that can be computed from variant and content tells them apart. -/
def SameVal {us us' : List PayloadTy} (v : PVal us) (w : PVal us') : Prop := ∀ (α : Type) (f : (T : PayloadTy) → T.Val → α), look f us v = look f us' w

/-- The two packets are the same. -/
structure SamePacket {O : BlockOps} {ps ps' : List PayloadTy} (p : Pkt O ps) (q : Pkt O ps') : Prop where
  blocks : p.blocks = q.blocks
  payload : match p.payload, q.payload with
    | none, none => True
    | some v, some w => SameVal (us := ps ++ [bytesTy, stringTy]) (us' := ps' ++ [bytesTy, stringTy]) v w
    | _, _ => False

/-- Both calls succeed with related values, or both fail with the same error, or both panic. -/
inductive Both {α β : Type} (R : α → β → Prop) : Out α → Out β → Prop
  | ok {a : α} {b : β} : R a b → Both R (.ok a) (.ok b)
  | err (e : Err) : Both R (.err e) (.err e)
  | panic : Both R .panic .panic

/-- `ReadStatus`. -/
inductive BothStatus {α β : Type} (R : α → β → Prop) : Status α → Status β → Prop
  | success {a : α} {b : β} : R a b → BothStatus R (.success a) (.success b)
  | notEnough (n : Nat) : BothStatus R (.notEnough n) (.notEnough n)

/-- `Option`. -/
inductive BothOption {α β : Type} (R : α → β → Prop) : Option α → Option β → Prop
  | some {a : α} {b : β} : R a b → BothOption R (.some a) (.some b)
  | none : BothOption R .none .none

/-- `NextPacket`. -/
inductive BothNext {α β : Type} (R : α → β → Prop) : Next α → Next β → Prop
  | found {a : α} {b : β} : R a b → BothNext R (.found a) (.found b)
  | notEnough (n : Nat) : BothNext R (.notEnough n) (.notEnough n)
  | noData : BothNext R .noData .noData
  | notFound : BothNext R .notFound .notFound
  | skipped : BothNext R .skipped .skipped

/-- `LookInStatus`. -/
inductive BothLook {α β : Type} (R : α → β → Prop) : Packet.Look α → Packet.Look β → Prop
  | accepted (n : Nat) {a : α} {b : β} : R a b → BothLook R (.accepted n a) (.accepted n b)
  | denied (n : Nat) : BothLook R (.denied n) (.denied n)
  | notEnough (n : Nat) : BothLook R (.notEnough n) (.notEnough n)

/-- Lists. -/
inductive BothList {α β : Type} (R : α → β → Prop) : List α → List β → Prop
  | nil : BothList R [] []
  | cons {a : α} {b : β} {as : List α} {bs : List β} : R a b → BothList R as bs → BothList R (a :: as) (b :: bs)

/-- A rule as the user writes it: the filter of whole packets sees the blocks and, by cases on the variant, the payload. -/
inductive RuleText (O : BlockOps) : Type 1 where
  | ignored (tag : Nat)
  | byBlocks (f : List O.BR → Bool)
  | byPayload (f : Bytes → Bool)
  | filter (f : List O.B → Bool) (g : (T : PayloadTy) → T.Val → List O.B → Bool)

/-- The rule in a build. -/
def RuleText.rule {O : BlockOps} (ps : List PayloadTy) : RuleText O → Rule O.BR (Pkt O ps)
  | .ignored t => .ignored t
  | .byBlocks f => .byBlocks f
  | .byPayload f => .byPayload f
  | .filter f g => .filter fun p => match p.payload with
    | none => f p.blocks
    | some v => look g (ps ++ [bytesTy, stringTy]) v p.blocks

/-- The rules in a build. -/
def rulesOf {O : BlockOps} (ps : List PayloadTy) (ws : List (RuleText O)) : Rules O.BR (Pkt O ps) := ws.map (RuleText.rule ps)

/-- The same payloads in some order, and no two of them, `Bytes` and `String` included, with one signature. -/
structure Shuffled (ps ps' : List PayloadTy) : Prop where
  payloads : ps.Perm ps'
  sigs : (ps ++ [bytesTy, stringTy]).Pairwise fun T U => T.ssig ≠ U.ssig

/-! ## Payloads -/

section
variable {ps ps' : List PayloadTy} {O : BlockOps}

theorem Shuffled.perm (B : Shuffled ps ps') : (ps ++ [bytesTy, stringTy]).Perm (ps' ++ [bytesTy, stringTy]) := B.payloads.append_right _

theorem payload_read (B : Shuffled ps ps') (h : PayloadHeader) (s : Bytes) :
    Both (SameVal (us := ps ++ [bytesTy, stringTy]) (us' := ps' ++ [bytesTy, stringTy])) (((PEnum.ops ps).read h).run s).1 (((PEnum.ops ps').read h).run s).1 ∧
      (((PEnum.ops ps).read h).run s).2 = (((PEnum.ops ps').read h).run s).2 := by
  have key := fun (α : Type) (f : (T : PayloadTy) → T.Val → α) => C74_order f _ _ B.perm B.sigs h s ⟨[], 0, true⟩ (Nat.le_refl _) []
  refine ⟨?_, (key Unit fun _ _ => ()).2.1⟩
  have k1 := fun α f => (key α f).1
  show Both _ ((PEnum.read h (ps ++ [bytesTy, stringTy])).run s).1 ((PEnum.read h (ps' ++ [bytesTy, stringTy])).run s).1
  generalize ((PEnum.read h (ps ++ [bytesTy, stringTy])).run s).1 = o at k1 ⊢
  generalize ((PEnum.read h (ps' ++ [bytesTy, stringTy])).run s).1 = o' at k1 ⊢
  have k0 := k1 Unit fun _ _ => ()
  cases o <;> cases o' <;> simp at k0
  · exact .ok fun α f => by simpa using k1 α f
  · subst k0; exact .err _
  · exact .panic

theorem both_status {us us' : List PayloadTy} {o : Out (Status (PVal us))} {o' : Out (Status (PVal us'))}
    (k : ∀ (α : Type) (f : (T : PayloadTy) → T.Val → α), o.map (seenStatus (look f us)) = o'.map (seenStatus (look f us'))) : Both (BothStatus SameVal) o o' := by
  have k0 := k Unit fun _ _ => ()
  rcases o with (v | n) | e | _ <;> rcases o' with (v' | n') | e' | _ <;> simp [seenStatus] at k0
  · exact .ok (.success fun α f => by simpa [seenStatus] using k α f)
  · subst k0; exact .ok (.notEnough _)
  · subst k0; exact .err _
  · exact .panic

theorem payload_tryRead (B : Shuffled ps ps') (h : PayloadHeader) {c : Cur} (hc : c.pos ≤ c.data.length) :
    Both (BothStatus (SameVal (us := ps ++ [bytesTy, stringTy]) (us' := ps' ++ [bytesTy, stringTy]))) ((PEnum.ops ps).tryRead h c).1 ((PEnum.ops ps').tryRead h c).1 ∧
      ((PEnum.ops ps).tryRead h c).2 = ((PEnum.ops ps').tryRead h c).2 := by
  have key := fun (α : Type) (f : (T : PayloadTy) → T.Val → α) => C74_order f _ _ B.perm B.sigs h [] c hc []
  exact ⟨both_status fun α f => (key α f).2.2.1, (key Unit fun _ _ => ()).2.2.2.1⟩

theorem payload_tryBuf (B : Shuffled ps ps') (h : PayloadHeader) (cs : Chunks) :
    Both (BothStatus (SameVal (us := ps ++ [bytesTy, stringTy]) (us' := ps' ++ [bytesTy, stringTy]))) ((PEnum.ops ps).tryBuf h cs).1 ((PEnum.ops ps').tryBuf h cs).1 ∧
      ((PEnum.ops ps).tryBuf h cs).2.flatten = ((PEnum.ops ps').tryBuf h cs).2.flatten := by
  have key := fun (α : Type) (f : (T : PayloadTy) → T.Val → α) => C74_order f _ _ B.perm B.sigs h [] ⟨[], 0, true⟩ (Nat.le_refl _) cs
  exact ⟨both_status fun α f => (key α f).2.2.2.2.1, (key Unit fun _ _ => ()).2.2.2.2.2⟩

theorem dispatch_look {α : Type} (f : (T : PayloadTy) → T.Val → α) : ∀ (us : List PayloadTy) (v : PVal us), PEnum.dispatch f us v = look f us v
  | [], v => nomatch v
  | _ :: _, .inl _ => rfl
  | _ :: Ts, .inr v => dispatch_look f Ts v

theorem same_dispatch {us us' : List PayloadTy} {v : PVal us} {w : PVal us'} (h : SameVal v w) {α : Type} (f : (T : PayloadTy) → T.Val → α) :
    PEnum.dispatch f us v = PEnum.dispatch f us' w := by rw [dispatch_look, dispatch_look]; exact h α f

/-! ## Blocks -/

theorem block_beyond {b : BlockTy} {c : Cur} (h : c.data.length < c.pos) :
    b.tryRead c = if c.chk then (.panic, c) else if 2 ^ 64 + c.data.length - c.pos < 4 then (.ok (.notEnough (4 - (2 ^ 64 + c.data.length - c.pos))), c) else (.err .io, c) := by
  have hr : c.rest = [] := by simp [Cur.rest]; omega
  unfold BlockTy.tryRead Cur.remaining
  rw [if_neg (by omega)]
  cases c.chk
  · simp only [Bool.false_eq_true, if_false]
    split
    · rfl
    · simp [Cur.run, hr, P.readExact]
  · rfl

theorem enumTryRead_build {vs vs' : List BlockTy} (p : vs.Perm vs') (hd : DistinctSigs vs) (c : Cur) : enumTryRead vs c = enumTryRead vs' c := by
  by_cases h : c.pos ≤ c.data.length
  · exact enumTryRead_perm p hd h
  · have key : ∀ (us : List BlockTy), us ≠ [] → enumTryRead us c =
        if c.chk then (.panic, c) else if 2 ^ 64 + c.data.length - c.pos < 4 then (.ok (.notEnough (4 - (2 ^ 64 + c.data.length - c.pos))), c) else (.err .io, c) := by
      intro us hu
      cases us with
      | nil => exact absurd rfl hu
      | cons b us =>
        rw [enumTryRead, block_beyond (by omega)]
        cases c.chk
        · simp only [Bool.false_eq_true, if_false]
          by_cases hl : 2 ^ 64 + c.data.length - c.pos < 4
          · simp only [if_pos hl]
          · simp only [if_neg hl]
        · rfl
    cases vs with
    | nil => rw [List.nil_perm.mp p]
    | cons b vs => rw [key _ (by simp), key vs' (by rintro rfl; exact absurd p (by simp))]

/-! ## Packets -/

theorem Both.mono {α β : Type} {R R' : α → β → Prop} {o : Out α} {o' : Out β} (h : Both R o o') (f : ∀ a b, R a b → R' a b) : Both R' o o' := by
  cases h with
  | ok h => exact .ok (f _ _ h)
  | err e => exact .err e
  | panic => exact .panic

theorem Both.bind {α β γ δ : Type} {R : α → β → Prop} {R' : γ → δ → Prop} {o : Out α} {o' : Out β} (h : Both R o o') {f : α → Out γ} {g : β → Out δ} (k : ∀ a b, R a b → Both R' (f a) (g b)) :
    Both R' (o.bind f) (o'.bind g) := by
  cases h with
  | ok h => exact k _ _ h
  | err e => exact .err e
  | panic => exact .panic

theorem same_none {bs : List O.B} : SamePacket (ps := ps) (ps' := ps') ⟨bs, none⟩ ⟨bs, none⟩ := ⟨rfl, trivial⟩

theorem same_some {bs : List O.B} {v : (PEnum.ops ps).V} {w : (PEnum.ops ps').V} (h : SameVal (us := ps ++ [bytesTy, stringTy]) (us' := ps' ++ [bytesTy, stringTy]) v w) :
    SamePacket (O := O) (ps := ps) (ps' := ps') ⟨bs, some v⟩ ⟨bs, some w⟩ := ⟨rfl, h⟩

/-! ### Writing -/

theorem payload_build {p : Pkt O ps} {q : Pkt O ps'} (h : SamePacket p q) :
    (p.payload = none ∧ q.payload = none) ∨ ∃ v w, p.payload = some v ∧ q.payload = some w ∧ (PEnum.ops ps).size v = (PEnum.ops ps').size w ∧
      (PEnum.ops ps).hsize v = (PEnum.ops ps').hsize w ∧ (PEnum.ops ps).parts v = (PEnum.ops ps').parts w := by
  obtain ⟨bs, x⟩ := p
  obtain ⟨bs', y⟩ := q
  have h2 := h.payload
  rcases x with _ | v <;> rcases y with _ | w <;> simp only at h2
  · exact .inl ⟨rfl, rfl⟩
  · exact .inr ⟨v, w, rfl, rfl, same_dispatch h2 _, congrArg (fun b : ByteBlock => 1 + b.size + 1 + 4 + 4) (same_dispatch h2 fun T v => T.sig v), same_dispatch h2 _⟩

theorem header_build {p : Pkt O ps} {q : Pkt O ps'} (h : SamePacket p q) : p.header = q.header := by
  have hb := h.blocks
  rcases payload_build h with ⟨e1, e2⟩ | ⟨v, w, e1, e2, e3, e4, e5⟩
  · rw [Packet.header, Packet.header, e1, e2, hb]
  · rw [Packet.header, Packet.header, e1, e2, hb]
    simp only [e3, e4]

theorem writeAll_build {p : Pkt O ps} {q : Pkt O ps'} (h : SamePacket p q) : p.writeAll = q.writeAll := by
  have hb := h.blocks
  rw [Packet.writeAll, Packet.writeAll, header_build h]
  rcases payload_build h with ⟨e1, e2⟩ | ⟨v, w, e1, e2, e3, e4, e5⟩
  · rw [e1, e2, hb]
  · rw [e1, e2, hb]
    simp only [e5]

theorem write_build {p : Pkt O ps} {q : Pkt O ps'} (h : SamePacket p q) : p.write = q.write := by
  have hb := h.blocks
  rw [Packet.write, Packet.write, header_build h]
  rcases payload_build h with ⟨e1, e2⟩ | ⟨v, w, e1, e2, e3, e4, e5⟩
  · rw [e1, e2, hb]
  · rw [e1, e2, hb]
    simp only [Packet.writePayload, e5, e3, e4]

theorem slices_build {p : Pkt O ps} {q : Pkt O ps'} (h : SamePacket p q) : p.slices = q.slices := by
  have hb := h.blocks
  rw [Packet.slices, Packet.slices, header_build h]
  rcases payload_build h with ⟨e1, e2⟩ | ⟨v, w, e1, e2, e3, e4, e5⟩
  · rw [e1, e2, hb]
  · rw [e1, e2, hb]
    simp only [e5]

theorem serialize_build {p : Pkt O ps} {q : Pkt O ps'} (h : SamePacket p q) : p.serialize = q.serialize := by
  rw [Packet.serialize, Packet.serialize, writeAll_build h]

/-! ### Reading -/

theorem ofInner_build (B : Shuffled ps ps') (h : PacketHeader) (inner : Bytes) :
    Both SamePacket (Packet.ofInner (O := O) (PEnum.ops ps) h inner) (Packet.ofInner (PEnum.ops ps') h inner) := by
  unfold Packet.ofInner
  dsimp only
  split
  · split
    · split
      · rename_i ph cs _
        obtain ⟨k, _⟩ := payload_read B ph cs.flatten
        simp only [Chunks.run]
        generalize (((PEnum.ops ps).read ph).run cs.flatten).1 = o at k ⊢
        generalize (((PEnum.ops ps').read ph).run cs.flatten).1 = o' at k ⊢
        cases k with
        | ok k => exact .ok (same_some k)
        | err e => exact .err e
        | panic => exact .panic
      · exact .err _
      · exact .panic
    · exact .ok same_none
  · exact .err _
  · exact .err _
  · exact .panic

theorem P_bind {α β : Type} (x : P α) (f : α → P β) (s : Bytes) : (x >>= f).run s = match x.run s with
    | (.ok a, s') => (f a).run s'
    | (.err e, s') => (.err e, s')
    | (.panic, s') => (.panic, s') := rfl

theorem read_build (B : Shuffled ps ps') (s : Bytes) :
    Both SamePacket ((Packet.read (O := O) (PEnum.ops ps)).run s).1 ((Packet.read (PEnum.ops ps')).run s).1 ∧
      ((Packet.read (O := O) (PEnum.ops ps)).run s).2 = ((Packet.read (O := O) (PEnum.ops ps')).run s).2 := by
  simp only [Packet.read, P_bind]
  split
  · split
    · split
      · exact ⟨ofInner_build B _ _, rfl⟩
      · exact ⟨.err _, rfl⟩
      · exact ⟨.panic, rfl⟩
    · exact ⟨.err _, rfl⟩
    · exact ⟨.panic, rfl⟩
  · exact ⟨.err _, rfl⟩
  · exact ⟨.panic, rfl⟩

theorem payloadCur_build (B : Shuffled ps ps') (start : Nat) (flag : Bool) (bs : List O.B) {c : Cur} (hc : c.pos ≤ c.data.length) :
    Both (BothStatus SamePacket) (Packet.payloadCur (PEnum.ops ps) start flag bs c).1 (Packet.payloadCur (PEnum.ops ps') start flag bs c).1 ∧
      (Packet.payloadCur (PEnum.ops ps) start flag bs c).2 = (Packet.payloadCur (PEnum.ops ps') start flag bs c).2 := by
  unfold Packet.payloadCur
  split
  · have hs := PayloadHeader.tryRead_safe hc
    split
    · rename_i ph c1 hr
      rw [hr] at hs
      obtain ⟨k1, k2⟩ := payload_tryRead B ph hs.2.1
      rcases hx : (PEnum.ops ps).tryRead ph c1 with ⟨o, c2⟩
      rcases hy : (PEnum.ops ps').tryRead ph c1 with ⟨o', c2'⟩
      rw [hx, hy] at k1 k2
      simp only at k1 k2
      subst k2
      cases k1 with
      | ok k =>
        cases k with
        | success k => exact ⟨.ok (.success (same_some k)), rfl⟩
        | notEnough n => exact ⟨.ok (.notEnough n), rfl⟩
      | err e => exact ⟨.err e, rfl⟩
      | panic => exact ⟨.panic, rfl⟩
    · exact ⟨.err _, rfl⟩
    · exact ⟨.err _, rfl⟩
    · exact ⟨.panic, rfl⟩
  · exact ⟨.ok (.success same_none), rfl⟩

/-- Nothing can be read past the end of the data. -/
theorem header_beyond {c : Cur} (h : c.data.length < c.pos) (x : PacketHeader) (c' : Cur) : PacketHeader.tryRead c ≠ (.ok (.success x), c') := by
  have hr : c.rest = [] := by simp [Cur.rest]; omega
  unfold PacketHeader.tryRead
  intro e
  split at e
  · cases e
  · cases e
  · split at e
    · cases e
    · have e1 := congrArg Prod.fst e
      simp only [Cur.run, hr] at e1
      revert e1
      simp [PacketHeader.read, P_bind, P.readExact]

theorem tryRead_build (hO : O.Safe) (B : Shuffled ps ps') (c : Cur) :
    Both (BothStatus SamePacket) (Packet.tryRead (O := O) (PEnum.ops ps) c).1 (Packet.tryRead (PEnum.ops ps') c).1 ∧
      (Packet.tryRead (O := O) (PEnum.ops ps) c).2 = (Packet.tryRead (O := O) (PEnum.ops ps') c).2 := by
  unfold Packet.tryRead
  split
  · exact ⟨.err _, rfl⟩
  · exact ⟨.panic, rfl⟩
  · split
    · exact ⟨.ok (.notEnough _), rfl⟩
    · exact ⟨.err _, rfl⟩
    · exact ⟨.panic, rfl⟩
    · rename_i h c1 hh
      have hc : c.pos ≤ c.data.length := Nat.le_of_not_lt fun hlt => header_beyond hlt _ _ hh
      have hs := PacketHeader.tryRead_safe hc
      rw [hh] at hs
      by_cases hsz : h.size > (by assumption : Nat)
      · rw [if_pos hsz, if_pos hsz]
        exact ⟨.ok (.notEnough _), rfl⟩
      · rw [if_neg hsz, if_neg hsz]
        dsimp only
        have hb : (if h.blocksLen > 0 then Packet.blocksCur O h.blocksLen MAX_BLOCKS 0 [] c1 else (.ok (.success []), c1)).2.pos ≤
            (if h.blocksLen > 0 then Packet.blocksCur O h.blocksLen MAX_BLOCKS 0 [] c1 else (.ok (.success []), c1)).2.data.length := by
          split
          · exact (Packet.blocksCur_safe hO _ _ _ _ hs.2.1).2.1
          · exact hs.2.1
        generalize (if h.blocksLen > 0 then Packet.blocksCur O h.blocksLen MAX_BLOCKS 0 [] c1 else (.ok (.success []), c1)) = r at hb ⊢
        obtain ⟨o, c2⟩ := r
        rcases o with (bs | n) | e | _
        · exact payloadCur_build B _ _ _ hb
        · exact ⟨.ok (.notEnough _), rfl⟩
        · exact ⟨.err _, rfl⟩
        · exact ⟨.panic, rfl⟩

theorem tryBuf_build (B : Shuffled ps ps') (cs : Chunks) :
    Both (BothStatus SamePacket) (Packet.tryBuf (O := O) (PEnum.ops ps) cs).1 (Packet.tryBuf (PEnum.ops ps') cs).1 ∧
      (Packet.tryBuf (O := O) (PEnum.ops ps) cs).2.flatten = (Packet.tryBuf (O := O) (PEnum.ops ps') cs).2.flatten := by
  unfold Packet.tryBuf
  dsimp only
  split
  · exact ⟨.ok (.notEnough _), rfl⟩
  · split
    · exact ⟨.err _, rfl⟩
    · exact ⟨.panic, rfl⟩
    · split
      · exact ⟨.ok (.notEnough _), rfl⟩
      · split
        · split
          · split
            · rename_i ph cs2 _
              obtain ⟨k1, k2⟩ := payload_tryBuf B ph (Chunks.consume ph.size cs2)
              rcases hx : (PEnum.ops ps).tryBuf ph (Chunks.consume ph.size cs2) with ⟨o, c2⟩
              rcases hy : (PEnum.ops ps').tryBuf ph (Chunks.consume ph.size cs2) with ⟨o', c2'⟩
              rw [hx, hy] at k1 k2
              simp only at k1 k2
              cases k1 with
              | ok k =>
                cases k with
                | success k => exact ⟨.ok (.success (same_some k)), k2⟩
                | notEnough n => exact ⟨.ok (.notEnough n), k2⟩
              | err e => exact ⟨.err e, k2⟩
              | panic => exact ⟨.panic, k2⟩
            · exact ⟨.err _, rfl⟩
            · exact ⟨.err _, rfl⟩
            · exact ⟨.panic, rfl⟩
          · exact ⟨.ok (.success same_none), rfl⟩
        · exact ⟨.ok (.notEnough _), rfl⟩
        · exact ⟨.err _, rfl⟩
        · exact ⟨.panic, rfl⟩

/-! ### Rules -/

theorem rules_ignore (ws : List (RuleText O)) (b : Bytes) : (rulesOf ps ws).ignore b = (rulesOf ps' ws).ignore b := by
  induction ws with
  | nil => rfl
  | cons w ws ih =>
    cases w <;> simp only [rulesOf, List.map_cons, RuleText.rule, Rules.ignore] at ih ⊢
    · rw [ih]
    · exact ih
    · exact ih
    · exact ih

theorem rules_byBlocks (ws : List (RuleText O)) (b : List O.BR) : (rulesOf ps ws).filterByBlocks b = (rulesOf ps' ws).filterByBlocks b := by
  induction ws with
  | nil => rfl
  | cons w ws ih =>
    cases w <;> simp only [rulesOf, List.map_cons, RuleText.rule, Rules.filterByBlocks, List.findSome?_cons] at ih ⊢ <;> exact ih

theorem rules_byPayload (ws : List (RuleText O)) (b : Bytes) : (rulesOf ps ws).filterByPayload b = (rulesOf ps' ws).filterByPayload b := by
  induction ws with
  | nil => rfl
  | cons w ws ih =>
    cases w <;> simp only [rulesOf, List.map_cons, RuleText.rule, Rules.filterByPayload, List.findSome?_cons] at ih ⊢ <;> exact ih

theorem rules_filter (ws : List (RuleText O)) {p : Pkt O ps} {q : Pkt O ps'} (h : SamePacket p q) : (rulesOf ps ws).filter p = (rulesOf ps' ws).filter q := by
  induction ws with
  | nil => rfl
  | cons w ws ih =>
    cases w <;> simp only [rulesOf, List.map_cons, RuleText.rule, Rules.filter, List.findSome?_cons] at ih ⊢
    · exact ih
    · exact ih
    · exact ih
    · obtain ⟨bs, x⟩ := p
      obtain ⟨bs', y⟩ := q
      have h1 := h.blocks
      have h2 := h.payload
      simp only at h1
      subst h1
      rcases x with _ | v <;> rcases y with _ | w <;> simp only at h2 ⊢
      exact congrFun (h2 _ _) bs

theorem look_build (B : Shuffled ps ps') (ws : List (RuleText O)) (h : PacketHeader) (buf : Bytes) :
    Both (BothLook SamePacket) (Packet.look (PEnum.ops ps) (rulesOf ps ws) h buf) (Packet.look (PEnum.ops ps') (rulesOf ps' ws) h buf) := by
  have final : ∀ {p : Pkt O ps} {q : Pkt O ps'}, SamePacket p q →
      Both (BothLook SamePacket) (if (rulesOf ps ws).filter p then .ok (.accepted h.size p) else .ok (.denied h.size)) (if (rulesOf ps' ws).filter q then .ok (.accepted h.size q) else .ok (.denied h.size)) := by
    intro p q hs
    rw [rules_filter ws hs]
    split
    · exact .ok (.accepted _ hs)
    · exact .ok (.denied _)
  unfold Packet.look
  have hb : ∀ o : Out (List O.BR), Both Eq o o := by
    intro o
    cases o with
    | ok a => exact .ok rfl
    | err e => exact .err e
    | panic => exact .panic
  refine (hb _).bind ?_
  rintro rs _ rfl
  dsimp only
  rw [rules_byBlocks (ps' := ps')]
  split
  · exact .ok (.denied _)
  · split
    · split
      · exact .panic
      · split
        · rename_i ph _
          split
          · exact .panic
          · rw [rules_byPayload (ps' := ps')]
            split
            · exact .ok (.denied _)
            · obtain ⟨k, _⟩ := payload_tryBuf B ph [buf.drop (h.blocksLen + ph.size)]
              generalize ((PEnum.ops ps).tryBuf ph [buf.drop (h.blocksLen + ph.size)]).1 = o at k ⊢
              generalize ((PEnum.ops ps').tryBuf ph [buf.drop (h.blocksLen + ph.size)]).1 = o' at k ⊢
              cases k with
              | ok k =>
                cases k with
                | success k => exact final (same_some k)
                | notEnough n => exact .err _
              | err e => exact .err e
              | panic => exact .panic
        · exact .err _
        · exact .err _
        · exact .panic
    · exact final same_none

theorem filtered_build (B : Shuffled ps ps') (ws : List (RuleText O)) (s : Bytes) :
    Both (BothLook SamePacket) ((Packet.filtered (PEnum.ops ps) (rulesOf ps ws)).run s).1 ((Packet.filtered (PEnum.ops ps') (rulesOf ps' ws)).run s).1 ∧
      ((Packet.filtered (PEnum.ops ps) (rulesOf ps ws)).run s).2 = ((Packet.filtered (PEnum.ops ps') (rulesOf ps' ws)).run s).2 := by
  simp only [Packet.filtered, P_bind]
  split
  · split
    · split
      · exact ⟨look_build B ws _ _, rfl⟩
      · exact ⟨.err _, rfl⟩
      · exact ⟨.panic, rfl⟩
    · exact ⟨.err _, rfl⟩
    · exact ⟨.panic, rfl⟩
  · exact ⟨.err _, rfl⟩
  · exact ⟨.panic, rfl⟩

/-! ### The stream reader -/

theorem parsePayload_build (B : Shuffled ps ps') (ws : List (RuleText O)) (h : PacketHeader) (pb : Bytes) (rs : List O.BR) :
    Both (BothNext SamePacket) (Rd.parsePayload (rulesOf ps ws) h pb rs).1 (Rd.parsePayload (rulesOf ps' ws) h pb rs).1 ∧
      (Rd.parsePayload (rulesOf ps ws) h pb rs).2 = (Rd.parsePayload (rulesOf ps' ws) h pb rs).2 := by
  have final : ∀ {p : Pkt O ps} {q : Pkt O ps'}, SamePacket p q →
      Both (BothNext SamePacket) (if (rulesOf ps ws).filter p then ((.ok (.found p), .dropConsume) : Out (Next (Pkt O ps)) × Rd.Fin) else (.ok .skipped, .dropConsume)).1
        (if (rulesOf ps' ws).filter q then ((.ok (.found q), .dropConsume) : Out (Next (Pkt O ps')) × Rd.Fin) else (.ok .skipped, .dropConsume)).1 ∧
      (if (rulesOf ps ws).filter p then ((.ok (.found p), .dropConsume) : Out (Next (Pkt O ps)) × Rd.Fin) else (.ok .skipped, .dropConsume)).2 =
        (if (rulesOf ps' ws).filter q then ((.ok (.found q), .dropConsume) : Out (Next (Pkt O ps')) × Rd.Fin) else (.ok .skipped, .dropConsume)).2 := by
    intro p q hs
    rw [rules_filter ws hs]
    split
    · exact ⟨.ok (.found hs), rfl⟩
    · exact ⟨.ok .skipped, rfl⟩
  unfold Rd.parsePayload
  dsimp only
  rw [rules_byBlocks (ps' := ps')]
  split
  · exact ⟨.ok .skipped, rfl⟩
  · split
    · split
      · rename_i ph _ _
        split
        · exact ⟨.panic, rfl⟩
        · rw [rules_byPayload (ps' := ps')]
          split
          · exact ⟨.ok .skipped, rfl⟩
          · obtain ⟨k, _⟩ := payload_tryBuf B ph [pb.drop (h.blocksLen + ph.size)]
            rcases hx : (PEnum.ops ps).tryBuf ph [pb.drop (h.blocksLen + ph.size)] with ⟨o, c2⟩
            rcases hy : (PEnum.ops ps').tryBuf ph [pb.drop (h.blocksLen + ph.size)] with ⟨o', c2'⟩
            rw [hx, hy] at k
            simp only at k
            cases k with
            | ok k =>
              cases k with
              | success k => exact final (same_some k)
              | notEnough n => exact ⟨.err _, rfl⟩
            | err e => exact ⟨.err e, rfl⟩
            | panic => exact ⟨.panic, rfl⟩
      · exact ⟨.err _, rfl⟩
      · exact ⟨.err _, rfl⟩
      · exact ⟨.panic, rfl⟩
    · exact final same_none

theorem parse_build (B : Shuffled ps ps') (ws : List (RuleText O)) (h : PacketHeader) (pb : Bytes) :
    Both (BothNext SamePacket) (Rd.parse (rulesOf ps ws) h pb).1 (Rd.parse (rulesOf ps' ws) h pb).1 ∧ (Rd.parse (rulesOf ps ws) h pb).2 = (Rd.parse (rulesOf ps' ws) h pb).2 := by
  unfold Rd.parse
  split
  · exact ⟨.panic, rfl⟩
  · dsimp only
    split
    · exact parsePayload_build B ws h pb _
    · exact ⟨.err _, rfl⟩
    · exact ⟨.panic, rfl⟩

theorem finish_build (B : Shuffled ps ps') (ws : List (RuleText O)) (h : PacketHeader) (pb : Bytes) (n : Nat) (r : Rd) :
    Both (BothNext SamePacket) (Rd.finish (rulesOf ps ws) h pb n r).1 (Rd.finish (rulesOf ps' ws) h pb n r).1 ∧
      (Rd.finish (rulesOf ps ws) h pb n r).2 = (Rd.finish (rulesOf ps' ws) h pb n r).2 := by
  obtain ⟨k1, k2⟩ := parse_build B ws h pb
  unfold Rd.finish
  dsimp only
  rw [k2]
  split
  · exact ⟨k1, rfl⟩
  · exact ⟨k1, rfl⟩
  · exact ⟨k1, rfl⟩

theorem ignoreTo_build (ws : List (RuleText O)) (n : Nat) (buf : Bytes) (log : List Bytes) : Rd.ignoreTo (rulesOf ps ws) n buf log = Rd.ignoreTo (rulesOf ps' ws) n buf log := by
  rw [Rd.ignoreTo, Rd.ignoreTo, rules_ignore (ps' := ps')]

theorem readReady_build (B : Shuffled ps ps') (ws : List (RuleText O)) (h : PacketHeader) (r : Rd) :
    Both (BothNext SamePacket) (Rd.readReady (rulesOf ps ws) h r).1 (Rd.readReady (rulesOf ps' ws) h r).1 ∧
      (Rd.readReady (rulesOf ps ws) h r).2 = (Rd.readReady (rulesOf ps' ws) h r).2 := by
  unfold Rd.readReady
  split
  · exact ⟨.err _, rfl⟩
  · split
    · exact ⟨.ok (.notEnough _), rfl⟩
    · split
      · exact ⟨.err _, rfl⟩
      · exact finish_build B ws _ _ _ _

theorem refillAll_build (ws : List (RuleText O)) (chk : Bool) (buf : Bytes) (n m : Nat) (r : Rd) :
    Both (BothNext (SamePacket (ps := ps) (ps' := ps'))) (Rd.refillAll (rulesOf ps ws) chk buf n m r).1 (Rd.refillAll (rulesOf ps' ws) chk buf n m r).1 ∧
      (Rd.refillAll (rulesOf ps ws) chk buf n m r).2 = (Rd.refillAll (rulesOf ps' ws) chk buf n m r).2 := by
  unfold Rd.refillAll
  simp only [ignoreTo_build (ps := ps) (ps' := ps')]
  split
  · exact ⟨.err _, rfl⟩
  · exact ⟨.panic, rfl⟩
  · split
    · exact ⟨.panic, rfl⟩
    · exact ⟨.ok (.notEnough _), rfl⟩
  · exact ⟨.ok (.notEnough _), rfl⟩
  · exact ⟨.ok .notFound, rfl⟩

theorem readRefill_build (ws : List (RuleText O)) (chk : Bool) (buf : Bytes) (n : Nat) (r : Rd) :
    Both (BothNext (SamePacket (ps := ps) (ps' := ps'))) (Rd.readRefill (rulesOf ps ws) chk buf n r).1 (Rd.readRefill (rulesOf ps' ws) chk buf n r).1 ∧
      (Rd.readRefill (rulesOf ps ws) chk buf n r).2 = (Rd.readRefill (rulesOf ps' ws) chk buf n r).2 := by
  unfold Rd.readRefill
  simp only [ignoreTo_build (ps := ps) (ps' := ps'), rules_ignore (ps := ps) (ps' := ps')]
  split
  · exact ⟨.err _, rfl⟩
  · exact ⟨.ok .noData, rfl⟩
  · split
    · exact ⟨.ok (.notEnough _), rfl⟩
    · split
      · exact ⟨.err _, rfl⟩
      · exact ⟨.panic, rfl⟩
      · split
        · exact ⟨.panic, rfl⟩
        · exact ⟨.ok (.notEnough _), rfl⟩
      · exact refillAll_build ws chk _ _ _ _

theorem readEmpty_build (B : Shuffled ps ps') (ws : List (RuleText O)) (r : Rd) :
    Both (BothNext SamePacket) (Rd.readEmpty (rulesOf ps ws) r).1 (Rd.readEmpty (rulesOf ps' ws) r).1 ∧
      (Rd.readEmpty (rulesOf ps ws) r).2 = (Rd.readEmpty (rulesOf ps' ws) r).2 := by
  unfold Rd.readEmpty
  simp only [ignoreTo_build (ps := ps) (ps' := ps')]
  split
  · exact ⟨.err _, rfl⟩
  · exact ⟨.ok .noData, rfl⟩
  · split
    · exact ⟨.ok (.notEnough _), rfl⟩
    · split
      · exact ⟨.err _, rfl⟩
      · exact ⟨.panic, rfl⟩
      · exact ⟨.ok .notFound, rfl⟩
      · exact ⟨.ok (.notEnough _), rfl⟩
      · split
        · exact ⟨.panic, rfl⟩
        · split
          · exact ⟨.ok (.notEnough _), rfl⟩
          · exact finish_build B ws _ _ _ _

theorem rd_build (B : Shuffled ps ps') (ws : List (RuleText O)) (chk : Bool) (r : Rd) :
    Both (BothNext SamePacket) (Rd.read (rulesOf ps ws) chk r).1 (Rd.read (rulesOf ps' ws) chk r).1 ∧
      (Rd.read (rulesOf ps ws) chk r).2 = (Rd.read (rulesOf ps' ws) chk r).2 := by
  unfold Rd.read
  split
  · exact readReady_build B ws _ _
  · exact readRefill_build ws _ _ _ _
  · exact readEmpty_build B ws _

/-! ### The storage -/

theorem nth_build (hO : O.Safe) (B : Shuffled ps ps') (cap : Nat) (chk : Bool) (st : Storage) (data : Bytes) (n : Nat) :
    Both (BothOption SamePacket) (st.nth (O := O) (Q := PEnum.ops ps) cap chk data n) (st.nth (O := O) (Q := PEnum.ops ps') cap chk data n) := by
  unfold Storage.nth
  split
  · exact .err _
  · exact .panic
  · exact .ok .none
  · obtain ⟨k, _⟩ := tryRead_build hO B ⟨data, by assumption, chk⟩
    revert k
    generalize (Packet.tryRead (O := O) (PEnum.ops ps) _).1 = o
    generalize (Packet.tryRead (O := O) (PEnum.ops ps') _).1 = o'
    intro k
    cases k with
    | ok k =>
      cases k with
      | success k => exact .ok (.some k)
      | notEnough n => exact .err _
    | err e => exact .err e
    | panic => exact .panic

theorem nthFiltered_build (B : Shuffled ps ps') (cap : Nat) (ws : List (RuleText O)) (st : Storage) (data : Bytes) (n : Nat) :
    Both (BothOption (BothLook SamePacket)) (st.nthFiltered cap (rulesOf ps ws) data n) (st.nthFiltered cap (rulesOf ps' ws) data n) := by
  unfold Storage.nthFiltered
  split
  · exact .err _
  · exact .panic
  · exact .ok .none
  · rename_i off _
    obtain ⟨k, _⟩ := filtered_build B ws (data.drop off)
    revert k
    generalize ((Packet.filtered (PEnum.ops ps) (rulesOf ps ws)).run (data.drop off)).1 = o
    generalize ((Packet.filtered (PEnum.ops ps') (rulesOf ps' ws)).run (data.drop off)).1 = o'
    intro k
    cases k with
    | ok k =>
      cases k with
      | accepted n k => exact .ok (.some (.accepted n k))
      | denied n => exact .ok (.some (.denied n))
      | notEnough n => exact .err _
    | err e => exact .err e
    | panic => exact .panic

theorem next_build (B : Shuffled ps ps') (data : Bytes) (it : Iter) :
    BothOption (Both SamePacket) (it.next (O := O) (Q := PEnum.ops ps) data).1 (it.next (O := O) (Q := PEnum.ops ps') data).1 ∧
      (it.next (O := O) (Q := PEnum.ops ps) data).2 = (it.next (O := O) (Q := PEnum.ops ps') data).2 := by
  unfold Iter.next
  split
  · exact ⟨.none, rfl⟩
  · exact ⟨.some (.err _), rfl⟩
  · exact ⟨.some .panic, rfl⟩
  · rename_i it1 _
    obtain ⟨k1, k2⟩ := read_build (O := O) B it1.buffer
    exact ⟨.some k1, by rw [k2]⟩

theorem nextFiltered_build (B : Shuffled ps ps') (ws : List (RuleText O)) (data : Bytes) : ∀ (fuel : Nat) (it : Iter),
    BothOption (fun x y => BothOption (Both SamePacket) x.1 y.1 ∧ x.2 = y.2) (it.nextFiltered (rulesOf ps ws) data fuel) (it.nextFiltered (rulesOf ps' ws) data fuel) := by
  intro fuel
  induction fuel with
  | zero => intro it; exact .none
  | succ fuel ih =>
    intro it
    rw [Iter.nextFiltered, Iter.nextFiltered]
    split
    · exact .some ⟨.none, rfl⟩
    · exact .some ⟨.some (.err _), rfl⟩
    · exact .some ⟨.some .panic, rfl⟩
    · rename_i it1 _
      obtain ⟨k1, k2⟩ := filtered_build B ws it1.buffer
      dsimp only
      rw [k2]
      generalize ((Packet.filtered (PEnum.ops ps) (rulesOf ps ws)).run it1.buffer).1 = o at k1 ⊢
      generalize ((Packet.filtered (PEnum.ops ps') (rulesOf ps' ws)).run it1.buffer).1 = o' at k1 ⊢
      cases k1 with
      | ok k =>
        cases k with
        | accepted n k => exact .some ⟨.some (.ok k), rfl⟩
        | denied n => exact ih _
        | notEnough n => exact .some ⟨.some (.err _), rfl⟩
      | err e => exact .some ⟨.some (.err _), rfl⟩
      | panic => exact .some ⟨.some .panic, rfl⟩

theorem range_build (hO : O.Safe) (B : Shuffled ps ps') (cap : Nat) (chk : Bool) (st : Storage) (data : Bytes) (r : Range) :
    BothOption (Both SamePacket) (r.next (O := O) (Q := PEnum.ops ps) cap chk st data).1 (r.next (O := O) (Q := PEnum.ops ps') cap chk st data).1 ∧
      (r.next (O := O) (Q := PEnum.ops ps) cap chk st data).2 = (r.next (O := O) (Q := PEnum.ops ps') cap chk st data).2 := by
  unfold Range.next
  split
  · exact ⟨.none, rfl⟩
  · have k := nth_build hO B cap chk st data r.start
    generalize st.nth (O := O) (Q := PEnum.ops ps) cap chk data r.start = o at k ⊢
    generalize st.nth (O := O) (Q := PEnum.ops ps') cap chk data r.start = o' at k ⊢
    cases k with
    | ok k =>
      cases k with
      | some k => exact ⟨.some (.ok k), rfl⟩
      | none => exact ⟨.none, rfl⟩
    | err e => exact ⟨.some (.err _), rfl⟩
    | panic => exact ⟨.some .panic, rfl⟩

theorem rangeFiltered_build (B : Shuffled ps ps') (cap : Nat) (ws : List (RuleText O)) (st : Storage) (data : Bytes) : ∀ (fuel : Nat) (r : Range),
    BothOption (fun x y => BothOption (Both SamePacket) x.1 y.1 ∧ x.2 = y.2) (r.nextFiltered cap (rulesOf ps ws) st data fuel) (r.nextFiltered cap (rulesOf ps' ws) st data fuel) := by
  intro fuel
  induction fuel with
  | zero => intro it; exact .none
  | succ fuel ih =>
    intro r
    rw [Range.nextFiltered, Range.nextFiltered]
    split
    · exact .some ⟨.none, rfl⟩
    · have k := nthFiltered_build B cap ws st data r.start
      generalize st.nthFiltered cap (rulesOf ps ws) data r.start = o at k ⊢
      generalize st.nthFiltered cap (rulesOf ps' ws) data r.start = o' at k ⊢
      cases k with
      | ok k =>
        cases k with
        | some k =>
          cases k with
          | accepted n k => exact .some ⟨.some (.ok k), rfl⟩
          | denied n => exact ih _
          | notEnough n => exact .some ⟨.some (.err _), rfl⟩
        | none => exact .some ⟨.none, rfl⟩
      | err e => exact .some ⟨.some (.err _), rfl⟩
      | panic => exact .some ⟨.some .panic, rfl⟩

end

/-! ## The property -/

/-- **C96, blocks.** With distinct signatures, what the generated `Block` and `BlockReferred` do does not depend on the order of the variants: all their operations are the same functions on all inputs, and
so is everything built on them. -/
theorem C96_blocks_partial (vs vs' : List BlockTy) (hp : vs.Perm vs') (hd : DistinctSigs vs) (h4 : ∀ a ∈ vs, a.sig.length = 4) : blockEnum vs = blockEnum vs' := by
  simp only [blockEnum, BlockOps.mk.injEq, heq_eq_eq, true_and]
  exact ⟨funext fun b => enumReadSlice_perm hp hd b, funext fun c => enumTryRead_build hp hd c, funext fun cs => enumTryBuf_perm hp hd h4 cs⟩

/-- **C96, packets.** All readers of a packet do the same in both builds: the same packet or the same error, and the same bytes taken. -/
theorem C96_packets_partial (vs : List BlockTy) (ps ps' : List PayloadTy) (B : Shuffled ps ps') :
    (∀ s, Both SamePacket ((Packet.read (O := blockEnum vs) (PEnum.ops ps)).run s).1 ((Packet.read (PEnum.ops ps')).run s).1 ∧
      ((Packet.read (O := blockEnum vs) (PEnum.ops ps)).run s).2 = ((Packet.read (O := blockEnum vs) (PEnum.ops ps')).run s).2) ∧
    (∀ c, Both (BothStatus SamePacket) (Packet.tryRead (O := blockEnum vs) (PEnum.ops ps) c).1 (Packet.tryRead (PEnum.ops ps') c).1 ∧
      (Packet.tryRead (O := blockEnum vs) (PEnum.ops ps) c).2 = (Packet.tryRead (O := blockEnum vs) (PEnum.ops ps') c).2) ∧
    (∀ cs, Both (BothStatus SamePacket) (Packet.tryBuf (O := blockEnum vs) (PEnum.ops ps) cs).1 (Packet.tryBuf (PEnum.ops ps') cs).1 ∧
      (Packet.tryBuf (O := blockEnum vs) (PEnum.ops ps) cs).2.flatten = (Packet.tryBuf (O := blockEnum vs) (PEnum.ops ps') cs).2.flatten) ∧
    (∀ (ws : List (RuleText (blockEnum vs))) (s : Bytes), Both (BothLook SamePacket) ((Packet.filtered (PEnum.ops ps) (rulesOf ps ws)).run s).1 ((Packet.filtered (PEnum.ops ps') (rulesOf ps' ws)).run s).1 ∧
      ((Packet.filtered (PEnum.ops ps) (rulesOf ps ws)).run s).2 = ((Packet.filtered (PEnum.ops ps') (rulesOf ps' ws)).run s).2) :=
  ⟨read_build B, tryRead_build (blockEnum_safe vs) B, tryBuf_build B, filtered_build B⟩

/-- **C96, streams.** A `PacketBufReader` with the same rules gives the same results, call by call, reports the same ignored bytes, and is left in the same state. -/
theorem C96_stream_partial {O : BlockOps} (ps ps' : List PayloadTy) (B : Shuffled ps ps') (ws : List (RuleText O)) (chk : Bool) (n : Nat) (r : Rd) :
    BothList (Both (BothNext SamePacket)) (Rd.reads (rulesOf ps ws) chk n r).1 (Rd.reads (rulesOf ps' ws) chk n r).1 ∧
      (Rd.reads (rulesOf ps ws) chk n r).2 = (Rd.reads (rulesOf ps' ws) chk n r).2 := by
  induction n generalizing r with
  | zero => exact ⟨.nil, rfl⟩
  | succ n ih =>
    obtain ⟨k1, k2⟩ := rd_build B ws chk r
    rw [Rd.reads, Rd.reads]
    rcases hx : Rd.read (rulesOf ps ws) chk r with ⟨o, r1⟩
    rcases hy : Rd.read (rulesOf ps' ws) chk r with ⟨o', r1'⟩
    rw [hx, hy] at k1 k2
    simp only at k1 k2
    subst k2
    obtain ⟨i1, i2⟩ := ih r1
    cases k1 with
    | ok k => exact ⟨.cons (.ok k) i1, i2⟩
    | err e => exact ⟨.cons (.err e) i1, i2⟩
    | panic => exact ⟨.cons .panic .nil, rfl⟩

/-- **C96, storages.** `nth`, `nth_filtered` and the four iterators do the same on every file. -/
theorem C96_storage_partial (vs : List BlockTy) (ps ps' : List PayloadTy) (B : Shuffled ps ps') (cap : Nat) (chk : Bool) (ws : List (RuleText (blockEnum vs))) (st : Storage) (data : Bytes) :
    (∀ n, Both (BothOption SamePacket) (st.nth (O := blockEnum vs) (Q := PEnum.ops ps) cap chk data n) (st.nth (O := blockEnum vs) (Q := PEnum.ops ps') cap chk data n)) ∧
    (∀ n, Both (BothOption (BothLook SamePacket)) (st.nthFiltered cap (rulesOf ps ws) data n) (st.nthFiltered cap (rulesOf ps' ws) data n)) ∧
    (∀ it : Iter, BothOption (Both SamePacket) (it.next (O := blockEnum vs) (Q := PEnum.ops ps) data).1 (it.next (O := blockEnum vs) (Q := PEnum.ops ps') data).1 ∧
      (it.next (O := blockEnum vs) (Q := PEnum.ops ps) data).2 = (it.next (O := blockEnum vs) (Q := PEnum.ops ps') data).2) ∧
    (∀ (fuel : Nat) (it : Iter), BothOption (fun x y => BothOption (Both SamePacket) x.1 y.1 ∧ x.2 = y.2) (it.nextFiltered (rulesOf ps ws) data fuel) (it.nextFiltered (rulesOf ps' ws) data fuel)) ∧
    (∀ r : Range, BothOption (Both SamePacket) (r.next (O := blockEnum vs) (Q := PEnum.ops ps) cap chk st data).1 (r.next (O := blockEnum vs) (Q := PEnum.ops ps') cap chk st data).1 ∧
      (r.next (O := blockEnum vs) (Q := PEnum.ops ps) cap chk st data).2 = (r.next (O := blockEnum vs) (Q := PEnum.ops ps') cap chk st data).2) ∧
    (∀ (fuel : Nat) (r : Range), BothOption (fun x y => BothOption (Both SamePacket) x.1 y.1 ∧ x.2 = y.2) (r.nextFiltered cap (rulesOf ps ws) st data fuel) (r.nextFiltered cap (rulesOf ps' ws) st data fuel)) :=
  ⟨nth_build (blockEnum_safe vs) B cap chk st data, nthFiltered_build B cap ws st data, next_build B data, nextFiltered_build B ws data, range_build (blockEnum_safe vs) B cap chk st data,
    rangeFiltered_build B cap ws st data⟩

/-- **C96, writing.** The same packet gives the same bytes in every build, through every way of writing, and makes the same storage; signatures do not matter here. -/
theorem C96_written {O : BlockOps} {ps ps' : List PayloadTy} {p : Pkt O ps} {q : Pkt O ps'} (h : SamePacket p q) :
    p.serialize = q.serialize ∧ p.writeAll = q.writeAll ∧ p.write = q.write ∧ p.slices = q.slices ∧ ∀ (cap : Nat) (w : Writer) (fault : Option Nat), w.insert cap p fault = w.insert cap q fault := by
  refine ⟨serialize_build h, writeAll_build h, write_build h, slices_build h, fun cap w fault => ?_⟩
  rw [Writer.insert, Writer.insert, serialize_build h]

/-! ## Without distinct signatures -/

/-- C96 is false of blocks whose declarations happen to share a signature: the build decides which of the two is read. -/
theorem C96_not : ¬ ∀ (a b : BlockDecl) (env : Bytes → Linked), IsDecl a → IsDecl b → a.name ≠ b.name → blockEnum [a.ty env, b.ty env] = blockEnum [b.ty env, a.ty env] := by
  intro h
  have e := h pushLoan poolLine (fun _ => ⟨0, nofun, fun _ => none⟩) pushLoan_isDecl poolLine_isDecl (by decide)
  simp only [blockEnum, BlockOps.mk.injEq, heq_eq_eq, true_and] at e
  have hb : (poolLine.ty fun _ => ⟨0, nofun, fun _ => none⟩) = ⟨poolLine.sig, [.num .f32], false⟩ := rfl
  have ha : (pushLoan.ty fun _ => ⟨0, nofun, fun _ => none⟩) = ⟨pushLoan.sig, [.num .u32], false⟩ := rfl
  rw [ha, hb] at e
  have w : BlockTy.WF ⟨poolLine.sig, [.num .f32], false⟩ := ⟨by decide +kernel, by
    intro t ht
    simp only [List.mem_cons, List.not_mem_nil, or_false] at ht
    subst ht
    trivial⟩
  let v : Vals [FTy.num .f32] := ((0 : BitVec 32), ())
  have k := congrFun e.1 (BlockTy.bytes ⟨poolLine.sig, [.num .f32], false⟩ v ++ [])
  rw [enumReadSlice.eq_def _ (⟨poolLine.sig, [.num .f32], false⟩ :: _)] at k
  simp only [BlockTy.readSlice_bytes w v []] at k
  exact (C54_first_takes_all (a := ⟨pushLoan.sig, [.num .u32], false⟩) (pre := []) (post := [_]) w (by decide +kernel) (by simp) nofun v []).2 _ k

/-- A payload type of the user that happens to have the signature of `flagTy`. -/
def byteTy : PayloadTy := bincodeTy Byte ⟨[1, 2, 3, 4], rfl⟩ (fun b => some [b]) (fun _ => some 1) (fun b => b.head?) false

/-- C96 is false of payloads that share a signature: one build reads what the other refuses. -/
theorem C96_payloads_not : ¬ ∀ (ps ps' : List PayloadTy), ps.Perm ps' → (∀ T ∈ ps, T.ssig ≠ bytesTy.ssig ∧ T.ssig ≠ stringTy.ssig) → ∀ (h : PayloadHeader) (s : Bytes),
    Both SameVal ((PEnum.read h (ps ++ [bytesTy, stringTy])).run s).1 ((PEnum.read h (ps' ++ [bytesTy, stringTy])).run s).1 := by
  intro h
  have k := h [byteTy, flagTy] [flagTy, byteTy] (.swap _ _ _) (by
    intro T hT
    simp only [List.mem_cons, List.not_mem_nil, or_false] at hT
    rcases hT with rfl | rfl <;> decide +kernel) ⟨flagTy.ssig, PayloadTy.crcBlock [2], 1⟩ [2]
  have e1 : ((PEnum.read ⟨flagTy.ssig, PayloadTy.crcBlock [2], 1⟩ ([byteTy, flagTy] ++ [bytesTy, stringTy])).run [2]).1 = .ok (.inl (2 : Byte)) := rfl
  have e2 : ((PEnum.read ⟨flagTy.ssig, PayloadTy.crcBlock [2], 1⟩ ([flagTy, byteTy] ++ [bytesTy, stringTy])).run [2]).1 = .err .crcDismatch := rfl
  rw [e1, e2] at k
  cases k

/-! ## Examples -/

/-- Another payload type of the user. -/
def wordTy : PayloadTy := bincodeTy Byte ⟨[5, 6, 7, 8], rfl⟩ (fun b => some [b]) (fun _ => some 1) (fun b => b.head?) true


/-- Non-vacuity of `C96_blocks_partial`. -/
example : sampleTypes.Perm sampleTypes.reverse ∧ DistinctSigs sampleTypes ∧ (∀ a ∈ sampleTypes, a.sig.length = 4) ∧ 1 < sampleTypes.length :=
  ⟨(List.reverse_perm _).symm, sampleTypes_distinct, fun a ha => (sampleTypes_wf a ha).sig_len, by decide⟩

/-- Non-vacuity of the others: two user payloads, in two orders. -/
example : Shuffled [flagTy, wordTy] [wordTy, flagTy] := by
  have h1 : flagTy.ssig ≠ stringTy.ssig := by decide +kernel
  have h2 : bytesTy.ssig ≠ stringTy.ssig := by decide +kernel
  have h3 : flagTy.ssig ≠ bytesTy.ssig := by decide +kernel
  have h4 : wordTy.ssig ≠ stringTy.ssig := by decide +kernel
  have h5 : wordTy.ssig ≠ bytesTy.ssig := by decide +kernel
  have h6 : flagTy.ssig ≠ wordTy.ssig := by decide +kernel
  exact ⟨.swap _ _ _, by simp [h1, h2, h3, h4, h5, h6]⟩

/-- … and one packet as both builds have it. -/
example : SamePacket (O := blockEnum []) (ps := [flagTy, wordTy]) (ps' := [wordTy, flagTy]) ⟨[], some (.inl true)⟩ ⟨[], some (.inr (.inl true))⟩ := ⟨rfl, fun _ _ => rfl⟩

end Brec.Props
