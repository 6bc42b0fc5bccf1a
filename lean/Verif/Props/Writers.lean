import Verif.Writers
import Verif.Props.StorageCrash
/-!
# Property C83: writers that respect the lock never disturb each other
-/

namespace Brec.Props

open Brec Writers Lock Packet Rd

/-! ## Specification -/

/-- The packets whose insertion into this file was confirmed, in this order. -/
def confirmed (w : World) (q : Path) : List Entry := (w.log.filter fun x => x.1 = q).map (·.2)

/-- Nobody is inserting into this file. -/
def Quiet (w : World) (q : Path) : Prop := ∀ p ∈ w.procs, p.path = q → ∀ x e t, p.stage ≠ .inserting x e t

/-! ## Writing piece by piece -/

theorem overwrite_pieces (f c d : Bytes) (pos : Nat) : overwrite (overwrite f pos c) (pos + c.length) d = overwrite f pos (c ++ d) := by
  have hA : ((f ++ List.replicate (pos - f.length) 0).take pos).length = pos := by
    rw [List.length_take, List.length_append, List.length_replicate]; omega
  unfold overwrite
  generalize (f ++ List.replicate (pos - f.length) 0).take pos = A at hA
  subst hA
  have h0 : A.length + c.length - (A ++ c ++ f.drop (A.length + c.length)).length = 0 := by
    simp only [List.length_append]; omega
  rw [h0, List.replicate_zero, List.append_nil]
  have h1 : (A ++ c ++ f.drop (A.length + c.length)).take (A.length + c.length) = A ++ c := by
    rw [← List.length_append, List.take_left]
  have h2 : (A ++ c ++ f.drop (A.length + c.length)).drop (A.length + c.length + d.length) = f.drop (A.length + (c ++ d).length) := by
    rw [← List.drop_drop, ← List.length_append, List.drop_left, List.drop_drop, List.length_append, List.length_append, Nat.add_assoc]
  rw [h1, h2]
  simp

/-- The file when everything is written. -/
def settle : Pending → Bytes → Bytes
  | [], f => f
  | (pos, x) :: t, f => settle t (overwrite f pos x)

theorem settle_piece (f c d : Bytes) (pos : Nat) (t : Pending) :
    settle (if d = [] then t else (pos + c.length, d) :: t) (overwrite f pos c) = settle ((pos, c ++ d) :: t) f := by
  split
  · rename_i h
    subst h
    rw [List.append_nil, settle]
  · rw [settle, settle, overwrite_pieces]

/-! ## One insert -/

variable {O : BlockOps} {Q : PayloadOps} {S : BlockSpec O}

theorem place_data (cap : Nat) (w : Writer) (d : Bytes) : ({ w with data := d } : Writer).place cap = ((w.place cap).1, { (w.place cap).2 with data := d }) := by
  unfold Writer.place
  simp only
  cases h : w.loc.step w.slots with
  | mk o l => cases o <;> rfl

/-- The plan of an insert does not depend on the file, and carrying it out is `Writer.insert`. -/
theorem plan_insert {cap : Nat} {w w' : Writer} {p : Packet O Q} {todo : Pending} (h : plan cap w p = some (w', todo)) (d : Bytes) :
    ({ w with data := d } : Writer).insert cap p none = (.ok (), { w' with data := settle todo d }) := by
  unfold plan at h
  unfold Writer.insert
  rw [place_data]
  cases hp : w.place cap with
  | mk o w1 =>
    rw [hp] at h
    cases o with
    | none => cases h
    | some off =>
      simp only at h ⊢
      cases hs : p.serialize with
      | err e => rw [hs] at h; cases h
      | panic => rw [hs] at h; cases h
      | ok buf =>
        rw [hs] at h
        simp only at h ⊢
        cases hg : w1.slots[w1.loc.next]? with
        | none => rw [hg] at h; cases h
        | some slot =>
          rw [hg] at h
          simp only at h ⊢
          cases hi : slot.insert buf.length with
          | err e => rw [hi] at h; cases h
          | panic => rw [hi] at h; cases h
          | ok slot' =>
            rw [hi] at h
            simp only at h ⊢
            cases hb : slot'.bytes with
            | err e => rw [hb] at h; cases h
            | panic => rw [hb] at h; cases h
            | ok sb =>
              rw [hb] at h
              cases h
              rfl

/-- An insert that succeeds has a plan. -/
theorem insert_plan {cap : Nat} {w w2 : Writer} {p : Packet O Q} {d : Bytes} (h : ({ w with data := d } : Writer).insert cap p none = (.ok (), w2)) :
    ∃ w' todo, plan cap w p = some (w', todo) := by
  unfold plan
  unfold Writer.insert at h
  rw [place_data] at h
  cases hp : w.place cap with
  | mk o w1 =>
    rw [hp] at h
    cases o with
    | none => cases h
    | some off =>
      simp only at h ⊢
      cases hs : p.serialize with
      | err e => rw [hs] at h; cases h
      | panic => rw [hs] at h; cases h
      | ok buf =>
        rw [hs] at h
        simp only at h ⊢
        cases hg : w1.slots[w1.loc.next]? with
        | none => rw [hg] at h; cases h
        | some slot =>
          rw [hg] at h
          simp only at h ⊢
          cases hi : slot.insert buf.length with
          | err e => rw [hi] at h; cases h
          | panic => rw [hi] at h; cases h
          | ok slot' =>
            rw [hi] at h
            simp only at h ⊢
            cases hb : slot'.bytes with
            | err e => rw [hb] at h; cases h
            | panic => rw [hb] at h; cases h
            | ok sb => exact ⟨_, _, rfl⟩

/-- `insert_bytes` with a bound on the file. -/
theorem insert_grows {cap : Nat} (hc : 0 < cap) {gs : List (List Bytes)} {w : Writer} (h : Inv cap gs w) {p : Packet O Q} (hok : p.Ok S)
    (hs : (fileOf cap gs).length + (20 + 8 * cap) + (wire p).length < 2 ^ 63) :
    ∃ w' gs', w.insert cap p none = (.ok (), w') ∧ Inv cap gs' w' ∧ gs'.flatten = gs.flatten ++ [wire p] ∧ (fileOf cap gs').length < 2 ^ 63 := by
  obtain ⟨init, g, w1, hgs, hpl, hr, _⟩ := h.place hc
  have hgr : Groups cap (init ++ [g ++ [wire p]]) := Groups.mk' hr.full hc (hr.group.concat hr.lt (wire_ne hok)) (by simp)
  have hfl : (init ++ [g ++ [wire p]]).flatten = gs.flatten ++ [wire p] := by
    rw [hgs, opt]
    by_cases hg : g = []
    · subst hg; simp
    · simp [hg]
  have hlen : (fileOf cap (init ++ [g ++ [wire p]])).length < 2 ^ 63 := by
    rw [length_fileOf hgr.group]
    rw [length_fileOf h.groups.group, hgs] at hs
    have e1 : ((init ++ [g ++ [wire p]]).flatten.flatten).length = ((init ++ opt g).flatten.flatten).length + (wire p).length := by
      rw [hfl, ← hgs]; simp
    have e2 : (init ++ [g ++ [wire p]]).length * (20 + 8 * cap) ≤ (init ++ opt g).length * (20 + 8 * cap) + (20 + 8 * cap) := by
      rw [← Nat.succ_mul]
      exact Nat.mul_le_mul_right _ (by simp)
    omega
  refine ⟨_, init ++ [g ++ [wire p]], hr.insert hpl (serialize_wire hok) hlen none, ?_, hfl, hlen⟩
  exact hr.next_inv hc (wire_ne hok) rfl rfl rfl

/-- An insert as the plan has it. -/
theorem plan_grows {cap : Nat} (hc : 0 < cap) {gs : List (List Bytes)} {w w' : Writer} {d : Bytes} (h : Inv cap gs { w with data := d }) {p : Packet O Q} (hok : p.Ok S)
    (hs : d.length + (20 + 8 * cap) + (wire p).length < 2 ^ 63) {todo : Pending} (hp : plan cap w p = some (w', todo)) :
    ∃ gs', settle todo d = fileOf cap gs' ∧ Inv cap gs' { w' with data := fileOf cap gs' } ∧ gs'.flatten = gs.flatten ++ [wire p] ∧ (fileOf cap gs').length < 2 ^ 63 := by
  have hd : d = fileOf cap gs := h.data
  obtain ⟨w2, gs', e, i, f, l⟩ := insert_grows hc h hok (by rw [← hd]; exact hs)
  rw [plan_insert hp d] at e
  cases e
  have : settle todo d = fileOf cap gs' := i.data
  rw [this] at i
  exact ⟨gs', this, i, f, l⟩

/-! ## The invariant -/

/-- Everyone who holds a lock holds it alone. -/
def Alone (ps : List Proc) : Prop := ps.Pairwise fun p q => p.holds = true → q.holds = true → p.lock ≠ q.lock

theorem alone_replace {a b : List Proc} {p p' : Proc} (h : Alone (a ++ p :: b)) (hp : p'.holds = true → ∀ q ∈ a ++ b, q.holds = true → q.lock ≠ p'.lock) :
    Alone (a ++ p' :: b) := by
  unfold Alone at *
  rw [List.pairwise_append, List.pairwise_cons] at h ⊢
  obtain ⟨h1, ⟨_, h3⟩, h4⟩ := h
  refine ⟨h1, ⟨fun q hq h5 h6 => Ne.symm (hp h5 q (List.mem_append_right _ hq) h6), h3⟩, fun q hq r hr => ?_⟩
  rcases List.mem_cons.mp hr with rfl | hr
  · exact fun h5 h6 => hp h6 q (List.mem_append_left _ hq) h5
  · exact h4 q hq r (List.mem_cons_of_mem _ hr)

theorem alone_others {a b : List Proc} {p : Proc} (h : Alone (a ++ p :: b)) (hp : p.holds = true) : ∀ q ∈ a ++ b, q.holds = true → q.lock ≠ p.lock := by
  intro q hq h6
  unfold Alone at h
  rw [List.pairwise_append, List.pairwise_cons] at h
  rcases List.mem_append.mp hq with hq | hq
  · exact h.2.2 q hq p (by simp) h6 hp
  · exact Ne.symm (h.2.1.1 q hq hp h6)

/-- What a program knows about its file, which holds `gs` as far as is confirmed. -/
def Knowing (cap : Nat) (gs : List (List Bytes)) (file : Bytes) : Stage → Prop
  | .live x => file = fileOf cap gs ∧ Inv cap gs { x with data := fileOf cap gs }
  | .inserting x e todo => Declared e.packet ∧ ∃ gs', settle todo file = fileOf cap gs' ∧ Inv cap gs' { x with data := fileOf cap gs' } ∧ gs'.flatten = gs.flatten ++ [e.bytes] ∧
      (fileOf cap gs').length < 2 ^ 63
  | _ => True

/-- A file as it should be. -/
structure Tidy (cap : Nat) (w : World) (q : Path) (gs : List (List Bytes)) : Prop where
  groups : Groups cap gs
  short : (fileOf cap gs).length < 2 ^ 63
  log : gs.flatten = (confirmed w q).map Entry.bytes
  declared : ∀ e ∈ confirmed w q, Declared e.packet
  procs : ∀ p ∈ w.procs, p.path = q → Knowing cap gs (w.files q) p.stage
  quiet : Quiet w q → w.files q = fileOf cap gs

theorem knowing_idle {cap : Nat} {gs : List (List Bytes)} {file : Bytes} {p : Proc} (h : p.holds = false) : Knowing cap gs file p.stage := by
  unfold Proc.holds at h
  cases hs : p.stage <;> rw [hs] at h
  · trivial
  · trivial
  all_goals cases h

/-- One program has moved on; neither the file nor the log has changed. -/
theorem tidy_move {cap : Nat} {w w' : World} {q : Path} {gs : List (List Bytes)} {a b : List Proc} {p p' : Proc} (t : Tidy cap w q gs) (hw : w.procs = a ++ p :: b)
    (hw' : w'.procs = a ++ p' :: b) (hf : w'.files q = w.files q) (hl : confirmed w' q = confirmed w q) (hk : p'.path = q → Knowing cap gs (w.files q) p'.stage)
    (hq : (∀ x e t, p.stage ≠ .inserting x e t) ∨ p.path ≠ q ∨ (p'.path = q ∧ ∃ x e t, p'.stage = .inserting x e t)) : Tidy cap w' q gs where
  groups := t.groups
  short := t.short
  log := by rw [hl]; exact t.log
  declared := by rw [hl]; exact t.declared
  procs := by
    intro r hr hrq
    rw [hf]
    rw [hw', List.mem_append, List.mem_cons] at hr
    rcases hr with hr | rfl | hr
    · exact t.procs r (by rw [hw]; simp [hr]) hrq
    · exact hk hrq
    · exact t.procs r (by rw [hw]; simp [hr]) hrq
  quiet := by
    intro hQ
    rw [hf]
    refine t.quiet fun r hr hrq => ?_
    rw [hw, List.mem_append, List.mem_cons] at hr
    rcases hr with hr | rfl | hr
    · exact hQ r (by rw [hw']; simp [hr]) hrq
    · rcases hq with hq | hq | ⟨h1, x, e, t, h2⟩
      · exact hq
      · exact absurd hrq hq
      · exact absurd h2 (hQ p' (by rw [hw']; simp) h1 x e t)
    · exact hQ r (by rw [hw']; simp [hr]) hrq

/-- The invariant: locks are held by one program, and every file in which nobody has died is tidy. -/
structure Order (cap : Nat) (w : World) : Prop where
  alone : Alone w.procs
  tidy : ∀ q, q ∉ w.hurt → ∃ gs, Tidy cap w q gs

/-- Programs at the same file as one that holds its lock are idle. -/
theorem others_idle {a b : List Proc} {p : Proc} (h : Alone (a ++ p :: b)) (hp : p.holds = true) {r : Proc} (hr : r ∈ a ++ b) (hq : r.path = p.path) : r.holds = false := by
  cases hh : r.holds with
  | false => rfl
  | true => exact absurd (show r.lock = p.lock by rw [Proc.lock, Proc.lock, hq]) (alone_others h hp r hr hh)

theorem order_step {cap : Nat} (hc : 0 < cap) {chk : Bool} {w w' : World} (o : Order cap w) (hs : Step true cap chk w w') : Order cap w' := by
  cases hs with
  | call a b p q hw h =>
    refine ⟨alone_replace (hw ▸ o.alone) (by simp [Proc.holds]), fun r hr => ?_⟩
    obtain ⟨gs, t⟩ := o.tidy r hr
    exact ⟨gs, tidy_move t hw rfl rfl rfl (fun _ => trivial) (.inl (by rw [h]; simp))⟩
  | lock a b p hw h hf =>
    refine ⟨alone_replace (hw ▸ o.alone) (fun _ => hf rfl), fun r hr => ?_⟩
    obtain ⟨gs, t⟩ := o.tidy r hr
    exact ⟨gs, tidy_move t hw rfl rfl rfl (fun _ => trivial) (.inl (by rw [h]; simp))⟩
  | leave a b p hw h =>
    refine ⟨alone_replace (hw ▸ o.alone) (by simp [Proc.holds]), fun r hr => ?_⟩
    obtain ⟨gs, t⟩ := o.tidy r hr
    exact ⟨gs, tidy_move t hw rfl rfl rfl (fun _ => trivial) (.inl h)⟩
  | opened a b p x hw h ho =>
    have hA : Alone (a ++ p :: b) := hw ▸ o.alone
    have hh : p.holds = true := by simp [Proc.holds, h]
    refine ⟨alone_replace hA (fun _ => (alone_others hA hh : ∀ q ∈ a ++ b, q.holds = true → q.lock ≠ p.lock)), fun r hr => ?_⟩
    obtain ⟨gs, t⟩ := o.tidy r hr
    refine ⟨gs, tidy_move t hw rfl rfl rfl (fun hq => ?_) (.inl (by rw [h]; simp))⟩
    have hq : p.path = r := hq
    have hquiet : Quiet w r := by
      intro s hs hsr
      rw [hw] at hs
      by_cases hsp : s ∈ a ++ b
      · have := others_idle hA hh hsp (by rw [hsr, hq])
        intro x e t hst
        simp [Proc.holds, hst] at this
      · rw [List.mem_append, List.mem_cons] at hs
        rcases hs with hs | rfl | hs
        · exact absurd (List.mem_append_left _ hs) hsp
        · rw [h]; simp
        · exact absurd (List.mem_append_right _ hs) hsp
    have hf := t.quiet hquiet
    refine ⟨hf, ?_⟩
    obtain ⟨x', e, i⟩ := open_writer t.groups t.short chk
    rw [hq, hf, e] at ho
    cases ho
    have : x.data = fileOf cap gs := i.data
    rw [← this]
    exact i
  | insert a b p x x' e todo hw h hp hd hs =>
    have hA : Alone (a ++ p :: b) := hw ▸ o.alone
    have hh : p.holds = true := by simp [Proc.holds, h]
    refine ⟨alone_replace hA (fun _ => (alone_others hA hh : ∀ q ∈ a ++ b, q.holds = true → q.lock ≠ p.lock)), fun r hr => ?_⟩
    obtain ⟨gs, t⟩ := o.tidy r hr
    refine ⟨gs, tidy_move t hw rfl rfl rfl (fun hq => ?_) (.inl (by rw [h]; simp))⟩
    have hq : p.path = r := hq
    have hk := t.procs p (by rw [hw]; simp) hq
    rw [h] at hk
    obtain ⟨hf, i⟩ := hk
    refine ⟨hd, ?_⟩
    rw [hq] at hs
    rw [hf]
    rw [hf] at hs
    exact plan_grows hc i hd.ok hs hp
  | write a b p x e pos c d todo hw h =>
    have hA : Alone (a ++ p :: b) := hw ▸ o.alone
    have hh : p.holds = true := by simp [Proc.holds, h]
    refine ⟨alone_replace hA (fun _ => (alone_others hA hh : ∀ q ∈ a ++ b, q.holds = true → q.lock ≠ p.lock)), fun r hr => ?_⟩
    obtain ⟨gs, t⟩ := o.tidy r hr
    by_cases hq : p.path = r
    · subst hq
      have hk := t.procs p (by rw [hw]; simp) rfl
      rw [h] at hk
      refine ⟨gs, t.groups, t.short, t.log, t.declared, ?_, ?_⟩
      · intro s hs hsr
        simp only [put, if_pos] at hs ⊢
        rw [List.mem_append, List.mem_cons] at hs
        rcases hs with hs | rfl | hs
        · exact knowing_idle (others_idle hA hh (List.mem_append_left _ hs) hsr)
        · refine ⟨hk.1, ?_⟩
          rw [settle_piece]
          exact hk.2
        · exact knowing_idle (others_idle hA hh (List.mem_append_right _ hs) hsr)
      · intro hQ
        exact absurd rfl (hQ ⟨p.path, .inserting x e (if d = [] then todo else (pos + c.length, d) :: todo)⟩ (by simp) rfl _ _ _)
    · exact ⟨gs, tidy_move t hw rfl (by simp [put, Ne.symm hq]) rfl (fun h' => absurd h' hq) (.inr (.inl hq))⟩
  | done a b p x e hw h =>
    have hA : Alone (a ++ p :: b) := hw ▸ o.alone
    have hh : p.holds = true := by simp [Proc.holds, h]
    refine ⟨alone_replace hA (fun _ => (alone_others hA hh : ∀ q ∈ a ++ b, q.holds = true → q.lock ≠ p.lock)), fun r hr => ?_⟩
    obtain ⟨gs, t⟩ := o.tidy r hr
    by_cases hq : p.path = r
    · subst hq
      have hk := t.procs p (by rw [hw]; simp) rfl
      rw [h] at hk
      obtain ⟨hd, gs', e1, i, f, l⟩ := hk
      have hc' : confirmed { w with procs := a ++ ⟨p.path, .live x⟩ :: b, log := w.log ++ [(p.path, e)] } p.path = confirmed w p.path ++ [e] := by
        simp [confirmed]
      refine ⟨gs', i.groups, l, ?_, ?_, ?_, ?_⟩
      · rw [hc', f, t.log]; simp
      · rw [hc']
        intro y hy
        rcases List.mem_append.mp hy with hy | hy
        · exact t.declared y hy
        · rw [List.mem_singleton.mp hy]; exact hd
      · intro s hs hsr
        rw [List.mem_append, List.mem_cons] at hs
        rcases hs with hs | rfl | hs
        · exact knowing_idle (others_idle hA hh (List.mem_append_left _ hs) hsr)
        · exact ⟨e1, i⟩
        · exact knowing_idle (others_idle hA hh (List.mem_append_right _ hs) hsr)
      · exact fun _ => e1
    · refine ⟨gs, tidy_move t hw rfl rfl ?_ (fun h' => absurd h' hq) (.inr (.inl hq))⟩
      simp [confirmed, hq]
  | dies a b p x e todo hw h =>
    refine ⟨alone_replace (hw ▸ o.alone) (by simp [Proc.holds]), fun r hr => ?_⟩
    simp only [List.mem_cons, not_or] at hr
    obtain ⟨gs, t⟩ := o.tidy r hr.2
    exact ⟨gs, tidy_move t hw rfl rfl rfl (fun _ => trivial) (.inr (.inl (Ne.symm hr.1)))⟩

theorem order_reach {cap : Nat} (hc : 0 < cap) {chk : Bool} {w : World} (h : Writers.Reach true cap chk w) : Order cap w := by
  induction h with
  | init ps h =>
    refine ⟨?_, fun q _ => ⟨[], Groups.nil cap, by simp, rfl, by simp [confirmed], fun p hp _ => by rw [h p hp]; trivial, fun _ => by simp⟩⟩
    unfold Alone
    refine List.Pairwise.imp_of_mem (R := fun _ _ => True) ?_ (List.pairwise_of_forall (fun _ _ => trivial))
    intro p q hp hq _ h1
    simp [Proc.holds, h p hp] at h1
  | step _ hs ih => exact order_step hc ih hs

/-! ## The property -/

variable {vs : List BlockTy} {ps : List PayloadTy}

/-- **C83.** Any number of programs write to any number of files, each through `FileWriterDef`; the steps of all of them, down to single writes, come in any order. At every
moment, every file into which nobody is inserting holds exactly the packets whose insertion was confirmed, in the order of confirmation: every program can open it and read
them, as C80 says. -/
theorem C83_order (pr : Receiver vs ps) {cap : Nat} (hc : 0 < cap) {chk : Bool} {w : World} (h : Writers.Reach true cap chk w) {q : Path} (hh : q ∉ w.hurt) (hq : Quiet w q)
    (hn : ∀ e ∈ confirmed w q, e.packet.blocks.length ≤ 256) (hk : ∀ e ∈ confirmed w q, Knows vs ps e.packet ∨ Strange vs e.packet ∨ Foreign vs ps e.packet)
    (rules : Rules (blockEnum vs).BR (Packet (blockEnum vs) (PEnum.ops ps))) : Reads pr cap chk (confirmed w q) rules (w.files q) := by
  obtain ⟨gs, t⟩ := (order_reach hc h).tidy q hh
  rw [t.quiet hq]
  exact file_read pr hc chk t.declared hn hk t.groups t.log t.short rules

/-- **C83, going on.** A program that has got the lock can open the file, and every insert of a writer gets as far as its writes: there is no state from which one of them
fails because of what another has done. -/
theorem C83_progress {cap : Nat} (hc : 0 < cap) {chk : Bool} {w : World} (h : Writers.Reach true cap chk w) {p : Proc} (hp : p ∈ w.procs) (hh : p.path ∉ w.hurt) :
    (p.stage = .opening → ∃ x, openWriter chk (w.files p.path) = some (.ok x)) ∧
    ∀ x, p.stage = .live x → ∀ (e : Entry), Declared e.packet → (w.files p.path).length + (20 + 8 * cap) + e.bytes.length < 2 ^ 63 → ∃ x' todo, plan cap x e.packet = some (x', todo) := by
  have o := order_reach hc h
  obtain ⟨gs, t⟩ := o.tidy p.path hh
  constructor
  · intro hs
    obtain ⟨a, b, hw⟩ := List.append_of_mem hp
    have hA : Alone (a ++ p :: b) := hw ▸ o.alone
    have hhold : p.holds = true := by simp [Proc.holds, hs]
    have hquiet : Quiet w p.path := by
      intro s hs' hsr
      rw [hw, List.mem_append, List.mem_cons] at hs'
      have idle : s ∈ a ++ b → ∀ x e t, s.stage ≠ .inserting x e t := by
        intro hsp x e t hst
        have := others_idle hA hhold hsp hsr
        simp [Proc.holds, hst] at this
      rcases hs' with h1 | rfl | h1
      · exact idle (List.mem_append_left _ h1)
      · rw [hs]; simp
      · exact idle (List.mem_append_right _ h1)
    obtain ⟨x, e, _⟩ := open_writer t.groups t.short chk
    exact ⟨x, by rw [t.quiet hquiet]; exact e⟩
  · intro x hx e hd hs
    have hk := t.procs p hp rfl
    rw [hx] at hk
    obtain ⟨hf, i⟩ := hk
    obtain ⟨w2, _, e2, _⟩ := insert_grows hc i hd.ok (by rw [← hf]; exact hs)
    exact insert_plan e2

/-! ## Without the lock -/

theorem put_put (f : Path → Bytes) (q : Path) (x y : Bytes) : put (put f q x) q y = put f q y := by
  funext r
  unfold put
  split <;> rfl

theorem put_same (f : Path → Bytes) (q : Path) (x : Bytes) : put f q x q = x := by simp [put]

theorem put_self (f : Path → Bytes) (q : Path) : put f q (f q) = f := by
  funext r
  unfold put
  split
  · rename_i h; rw [h]
  · rfl

/-- All writes of an insert without interruption. -/
theorem run_writes {lk : Bool} {cap : Nat} {chk : Bool} {a b : List Proc} {q : Path} {x : Writer} {e : Entry} : ∀ (todo : Pending) {w : World}, Writers.Reach lk cap chk w →
    w.procs = a ++ ⟨q, .inserting x e todo⟩ :: b → Writers.Reach lk cap chk ⟨a ++ ⟨q, .inserting x e []⟩ :: b, put w.files q (settle todo (w.files q)), w.log, w.hurt⟩
  | [], w, h, hw => by
    rw [settle, put_self, ← hw]
    exact h
  | (pos, c) :: todo, w, h, hw => by
    have h1 := h.step (.write w a b _ x e pos c [] todo hw (by simp))
    have h2 := run_writes (a := a) (b := b) (q := q) (x := x) (e := e) todo h1 (by simp)
    simpa [put_put, put_same, settle] using h2

/-- A whole insert without interruption. -/
theorem run_insert {lk : Bool} {cap : Nat} {chk : Bool} {w : World} (h : Writers.Reach lk cap chk w) {a b : List Proc} {q : Path} {x x' : Writer} {e : Entry} {todo : Pending}
    (hw : w.procs = a ++ ⟨q, .live x⟩ :: b) (hp : plan cap x e.packet = some (x', todo)) (hd : Declared e.packet)
    (hs : (w.files q).length + (20 + 8 * cap) + e.bytes.length < 2 ^ 63) :
    Writers.Reach lk cap chk ⟨a ++ ⟨q, .live x'⟩ :: b, put w.files q (settle todo (w.files q)), w.log ++ [(q, e)], w.hurt⟩ :=
  (run_writes (a := a) (b := b) (q := q) (x := x') (e := e) todo (h.step (.insert w a b _ x x' e _ hw rfl hp hd hs)) rfl).step
    (.done _ a b ⟨q, .inserting x' e []⟩ x' e rfl rfl)

/-- The plan of the first insert into an empty file. -/
theorem plan_first {cap : Nat} (hc : 0 < cap) {p : Packet O Q} (hok : p.Ok S) (hl : 20 + 8 * cap + (wire p).length < 2 ^ 63) (d : Bytes) :
    ∃ x', plan cap ⟨[], d, {}⟩ p = some (x', [(0, (table cap [wire p]).enc), (20 + 8 * cap, wire p)]) := by
  have hlen : (fileOf cap [[wire p]]).length < 2 ^ 63 := by
    rw [length_fileOf (by intro g hg; rw [List.mem_singleton.mp hg]; exact (Group.nil cap).concat hc (wire_ne hok))]
    simp
    omega
  have hw : (table cap [wire p]).WF := table_wf_of_file (cap := cap) hlen (g := [wire p]) (by simp) (by simp; omega)
  have e0 : Locator.step {} ([] : List Slot) = (none, {}) := rfl
  have e1 : Locator.step {} [table cap []] = (some (20 + 8 * cap), {}) := by
    have := step_ready (cap := cap) (init := []) (g := []) (Group.nil cap) hc
    simpa [spot] using this
  have hpl : Writer.place cap ⟨[], d, {}⟩ = (some (20 + 8 * cap), ⟨[table cap []], d, {}⟩) := by
    unfold Writer.place
    simp only
    rw [e0]
    simp only [List.nil_append, default_eq]
    rw [e1]
  refine ⟨⟨[table cap [wire p]], d, {}⟩, ?_⟩
  unfold plan
  rw [hpl]
  simp only
  rw [serialize_wire hok]
  simp only [List.getElem?_cons_zero]
  have hi := table_insert (w := wire p) (Group.nil cap) hc
  rw [hi]
  simp only [List.nil_append]
  rw [hw.bytes]
  rfl

theorem settle_first {cap : Nat} (hc : 0 < cap) (x : Bytes) : settle [(0, (table cap [x]).enc), (20 + 8 * cap, x)] [] = (table cap [x]).enc ++ x := by
  have t : (table cap [x]).enc.length = 20 + 8 * cap := table_enc_length (show 1 ≤ cap from hc)
  have e := overwrite_end [] (table cap [x]).enc
  simp only [List.length_nil, List.nil_append] at e
  simp only [settle, e]
  rw [← t, overwrite_end]

/-- The same file. -/
def samePath : Path := ([], "data.brec".toList)

/-- **C83 without the lock.** Two programs open the same file without looking at the lock, and insert one packet each. Both inserts are confirmed; the first packet is gone. -/
theorem C83_unlocked {cap : Nat} (hc : 0 < cap) (chk : Bool) {e1 e2 : Entry} (h1 : Declared e1.packet) (h2 : Declared e2.packet) (hl : e1.bytes.length = e2.bytes.length)
    (hs : 2 * (20 + 8 * cap) + 2 * e1.bytes.length < 2 ^ 63) :
    ∃ w, Writers.Reach false cap chk w ∧ Quiet w samePath ∧ w.hurt = [] ∧ confirmed w samePath = [e1, e2] ∧ w.files samePath = fileOf cap [[e2.bytes]] ∧
      ∃ s, openReader chk (w.files samePath) = some (.ok s) ∧ s.count cap = 1 := by
  have h0 : Writers.Reach false cap chk ⟨[⟨samePath, .out⟩, ⟨samePath, .out⟩], fun _ => [], [], []⟩ := .init _ (by simp)
  have ho : openWriter chk [] = some (.ok ⟨[], [], {}⟩) := by cases chk <;> decide +kernel
  have a1 := h0.step (.call _ [] [_] _ samePath rfl rfl)
  have a2 := a1.step (.call _ [_] [] _ samePath rfl rfl)
  have a3 := a2.step (.lock _ [] [_] _ rfl rfl (by simp))
  have a4 := a3.step (.lock _ [_] [] _ rfl rfl (by simp))
  have a5 := a4.step (.opened _ [] [_] _ _ rfl rfl ho)
  have a6 := a5.step (.opened _ [_] [] _ _ rfl rfl ho)
  have b1 : e1.bytes = wire e1.packet := rfl
  have b2 : e2.bytes = wire e2.packet := rfl
  obtain ⟨x1, p1⟩ := plan_first hc h1.ok (by rw [← b1]; omega) []
  obtain ⟨x2, p2⟩ := plan_first hc h2.ok (by rw [← b2, ← hl]; omega) []
  have a6 : Writers.Reach false cap chk ⟨[⟨samePath, .live ⟨[], [], {}⟩⟩, ⟨samePath, .live ⟨[], [], {}⟩⟩], fun _ => [], [], []⟩ := a6
  have a7 := run_insert a6 (a := []) (b := [⟨samePath, .live ⟨[], [], {}⟩⟩]) rfl p1 h1 (by simp; omega)
  have t1 : (table cap [wire e1.packet]).enc.length = 20 + 8 * cap := table_enc_length (show 1 ≤ cap from hc)
  have t2 : (table cap [wire e2.packet]).enc.length = 20 + 8 * cap := table_enc_length (show 1 ≤ cap from hc)
  have f1 := settle_first hc (wire e1.packet)
  have f2 : settle [(0, (table cap [wire e2.packet]).enc), (20 + 8 * cap, wire e2.packet)] ((table cap [wire e1.packet]).enc ++ wire e1.packet) =
      (table cap [wire e2.packet]).enc ++ wire e2.packet := by
    have e := overwrite_mid [] (table cap [wire e1.packet]).enc (wire e1.packet) (table cap [wire e2.packet]).enc (by rw [t1, t2])
    have e' := overwrite_mid (table cap [wire e2.packet]).enc (wire e1.packet) [] (wire e2.packet) hl
    simp only [List.length_nil, List.nil_append, List.append_nil] at e e'
    simp only [settle, e]
    rw [← t2, e']
  simp only [f1, List.nil_append] at a7
  have a8 := run_insert a7 (a := [⟨samePath, .live x1⟩]) (b := []) rfl p2 h2 (by
    simp only
    rw [put_same, List.length_append, t1, ← b1, ← hl]
    omega)
  simp only [put_put, put_same, f2, List.nil_append, List.cons_append] at a8
  have hf : (table cap [wire e2.packet]).enc ++ wire e2.packet = fileOf cap [[e2.bytes]] := by
    rw [fileOf_cons, fileOf_nil, region]
    simp [b2]
  rw [hf] at a8
  refine ⟨_, a8, ?_, rfl, by simp [confirmed], by simp only [put_same], ?_⟩
  · intro p hp _
    simp only [List.mem_cons, List.not_mem_nil, or_false] at hp
    rcases hp with rfl | rfl <;> simp
  simp only [put_same]
  have hg : Groups cap [[e2.bytes]] := Groups.mk' (init := []) (by simp) hc ((Group.nil cap).concat hc (wire_ne h2.ok)) (by simp)
  have hlen : (fileOf cap [[e2.bytes]]).length < 2 ^ 63 := by
    rw [length_fileOf hg.group]
    simp
    omega
  obtain ⟨s, e, v⟩ := open_reader hc hg hlen chk
  exact ⟨s, e, by rw [v.count]; rfl⟩

/-- Non-vacuity: while the first program inserts, the second waits; it is let in when the first leaves, and inserts a packet too. -/
example : ∃ w, Writers.Reach true SLOT_CAPACITY true w ∧ Quiet w samePath ∧ w.hurt = [] ∧ confirmed w samePath = [⟨_, _, oldPacket⟩, ⟨_, _, newKnown⟩] ∧
    Reads older SLOT_CAPACITY true [⟨_, _, oldPacket⟩, ⟨_, _, newKnown⟩] [] (w.files samePath) := by
  have hc : 0 < SLOT_CAPACITY := by decide
  have h0 : Writers.Reach true SLOT_CAPACITY true ⟨[⟨samePath, .out⟩, ⟨samePath, .out⟩], fun _ => [], [], []⟩ := .init _ (by simp)
  have ho : openWriter true [] = some (.ok ⟨[], [], {}⟩) := by decide +kernel
  have a1 := h0.step (.call _ [] [_] _ samePath rfl rfl)
  have a2 := a1.step (.lock _ [] [_] _ rfl rfl (by simp [Proc.holds]))
  have a3 := a2.step (.opened _ [] [_] _ _ rfl rfl ho)
  have b1 : (Entry.bytes ⟨_, _, oldPacket⟩).length ≤ 1000 := by decide +kernel
  have b2 : (Entry.bytes ⟨_, _, newKnown⟩).length ≤ 1000 := by decide +kernel
  have cap500 : SLOT_CAPACITY = 500 := rfl
  obtain ⟨x1, p1⟩ := plan_first hc oldPacket_declared.ok (by rw [show (wire oldPacket).length = (Entry.bytes ⟨_, _, oldPacket⟩).length from rfl]; omega) []
  -- the first program begins to insert, and the second one comes
  have a4 := a3.step (.insert _ [] [_] _ _ x1 ⟨_, _, oldPacket⟩ _ rfl rfl p1 oldPacket_declared (by simp only [List.length_nil]; omega))
  have a5 := a4.step (.call _ [_] [] _ samePath rfl rfl)
  have a6 := run_writes _ a5 (a := []) (b := [⟨samePath, .trying⟩]) rfl
  have a7 := a6.step (.done _ [] [_] _ x1 ⟨_, _, oldPacket⟩ rfl rfl)
  have a8 := a7.step (.leave _ [] [_] _ rfl (by simp))
  have a9 := a8.step (.lock _ [_] [] _ rfl rfl (by simp [Proc.holds]))
  obtain ⟨x2, ho2⟩ := (C83_progress hc a9 (p := ⟨samePath, .opening⟩) (by simp) (by simp)).1 rfl
  have a10 := a9.step (.opened _ [_] [] _ x2 rfl rfl ho2)
  have t1 : (table SLOT_CAPACITY [wire oldPacket]).enc.length = 20 + 8 * SLOT_CAPACITY := table_enc_length (show 1 ≤ SLOT_CAPACITY from hc)
  simp only [List.nil_append, List.cons_append, settle_first hc] at a10
  have hlen : (put (fun _ => []) samePath ((table SLOT_CAPACITY [wire oldPacket]).enc ++ wire oldPacket) samePath).length + (20 + 8 * SLOT_CAPACITY) +
      (Entry.bytes ⟨_, _, newKnown⟩).length < 2 ^ 63 := by
    rw [put_same, List.length_append, t1, show (wire oldPacket).length = (Entry.bytes ⟨_, _, oldPacket⟩).length from rfl]
    omega
  obtain ⟨x3, todo, p2⟩ := (C83_progress hc a10 (p := ⟨samePath, .live x2⟩) (by simp) (by simp)).2 x2 rfl ⟨_, _, newKnown⟩ newKnown_declared hlen
  have a11 := run_insert a10 (a := [⟨samePath, .out⟩]) (b := []) rfl p2 newKnown_declared hlen
  have key : ∀ w : World, Writers.Reach true SLOT_CAPACITY true w → Quiet w samePath → w.hurt = [] → confirmed w samePath = [⟨_, _, oldPacket⟩, ⟨_, _, newKnown⟩] →
      Reads older SLOT_CAPACITY true [⟨_, _, oldPacket⟩, ⟨_, _, newKnown⟩] [] (w.files samePath) := by
    intro w hr hq hh hl
    rw [← hl]
    refine C83_order older hc hr (by rw [hh]; simp) hq ?_ ?_ []
    · rw [hl]
      intro e he
      simp only [List.mem_cons, List.not_mem_nil, or_false] at he
      rcases he with rfl | rfl <;> decide
    · rw [hl]
      intro e he
      simp only [List.mem_cons, List.not_mem_nil, or_false] at he
      rcases he with rfl | rfl
      · exact .inl oldPacket_knows
      · exact .inl newKnown_knows
  have hq : ∀ f l h, Quiet ⟨[⟨samePath, .out⟩] ++ [⟨samePath, .live x3⟩], f, l, h⟩ samePath := by
    intro f l h p hp _
    simp only [List.cons_append, List.nil_append, List.mem_cons, List.not_mem_nil, or_false] at hp
    rcases hp with rfl | rfl <;> simp
  exact ⟨_, a11, hq _ _ _, rfl, by simp [confirmed], key _ a11 (hq _ _ _) rfl (by simp [confirmed])⟩

end Brec.Props
