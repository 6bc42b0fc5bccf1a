import Verif.Build
import Verif.Props.Macro
/-!
# Property C91: what `generate!` brings into a crate
-/

namespace Brec.Props

open Brec Build

/-! ## Specification -/

/-- The blocks declared in the crate that the run `p` compiles, in the order of their declarations. -/
def blocksOf (p : Nat) (tr : List (Nat × Act)) : List BlockDecl :=
  tr.filterMap fun x => match x with
    | (q, .block d) => if q = p then some d else none
    | _ => none

/-- The payloads declared in the crate. -/
def payloadsOf (p : Nat) (tr : List (Nat × Act)) : List PayloadDecl :=
  tr.filterMap fun x => match x with
    | (q, .payload d) => if q = p then some d else none
    | _ => none

/-- No two blocks and no two payloads of the crate have the same variant name (`C55_not` is about the others). -/
def NamesDiffer (p : Nat) (tr : List (Nat × Act)) : Prop :=
  ((blocksOf p tr).map BlockDecl.fullname).Nodup ∧ ((payloadsOf p tr).map PayloadDecl.fullname).Nodup

/-- **C91**: whatever compilers run, in whatever order they proceed, every `include!` left behind by `generate!` brings in the code for exactly the blocks and payloads of the crate. -/
def C91_full (render : List BlockDecl → List PayloadDecl → Bytes) : Prop :=
  ∀ tr w, Runs render {} tr w → ∀ p text, (p, text) ∈ w.got → NamesDiffer p tr →
    ∃ bs ps, bs.Perm (blocksOf p tr) ∧ ps.Perm (payloadsOf p tr) ∧ text = render bs ps

/-- Nobody touches the file but `p`, and `p` does not begin it anew. -/
def Undisturbed (p : Nat) (tr : List (Nat × Act)) : Prop :=
  ∀ x ∈ tr, (∀ bs ps, x.2 ≠ .generate bs ps) ∧ ∀ n, x.2 = .write n → x.1 = p

/-- How many `include!`s have been carried out. -/
def includes (tr : List (Nat × Act)) : Nat := (tr.filter fun x => match x.2 with | .incl => true | _ => false).length

/-! ## Steps -/

variable {render : List BlockDecl → List PayloadDecl → Bytes}

theorem runs_append {w w' : World} {tr tr' : List (Nat × Act)} : Runs render w (tr ++ tr') w' ↔ ∃ v, Runs render w tr v ∧ Runs render v tr' w' := by
  induction tr generalizing w with
  | nil => exact ⟨fun h => ⟨w, .nil, h⟩, fun ⟨v, h, h'⟩ => by cases h; exact h'⟩
  | cons x tr ih =>
    constructor
    · intro h
      cases h with
      | cons s h => obtain ⟨v, h1, h2⟩ := ih.mp h; exact ⟨v, .cons s h1, h2⟩
    · rintro ⟨v, h, h'⟩
      cases h with
      | cons s h => exact .cons s (ih.mpr ⟨v, h, h'⟩)

theorem collect_snoc {α : Type} (key : α → Bytes) (ds : List α) (d : α) : collect key (ds ++ [d]) = orInsert (collect key ds) (key d) d := by
  simp [collect, List.foldl_append]

/-- One step changes the collector of the run that makes it, by what it declares. -/
theorem step_collects {w w' : World} {q : Nat} {a : Act} (h : Step render w q a w') (p : Nat) :
    (w'.procs p).blocks = (blocksOf p [(q, a)]).foldl (fun m d => orInsert m d.fullname d) (w.procs p).blocks ∧
    (w'.procs p).payloads = (payloadsOf p [(q, a)]).foldl (fun m d => orInsert m d.fullname d) (w.procs p).payloads := by
  by_cases hp : p = q
  · subst hp
    cases h <;> simp [setRun, blocksOf, payloadsOf]
  · have hp' : ¬ q = p := fun e => hp e.symm
    cases h <;> simp [setRun, blocksOf, payloadsOf, hp, hp']

theorem blocksOf_append (p : Nat) (a b : List (Nat × Act)) : blocksOf p (a ++ b) = blocksOf p a ++ blocksOf p b := List.filterMap_append
theorem payloadsOf_append (p : Nat) (a b : List (Nat × Act)) : payloadsOf p (a ++ b) = payloadsOf p a ++ payloadsOf p b := List.filterMap_append

theorem runs_collects {w w' : World} {tr : List (Nat × Act)} (h : Runs render w tr w') (p : Nat) :
    (w'.procs p).blocks = (blocksOf p tr).foldl (fun m d => orInsert m d.fullname d) (w.procs p).blocks ∧
    (w'.procs p).payloads = (payloadsOf p tr).foldl (fun m d => orInsert m d.fullname d) (w.procs p).payloads := by
  induction h with
  | nil => exact ⟨rfl, rfl⟩
  | @cons w w1 w2 q a tr s _ ih =>
    have e := step_collects s p
    rw [ih.1, ih.2, e.1, e.2, ← List.foldl_append, ← List.foldl_append, ← blocksOf_append, ← payloadsOf_append]
    exact ⟨rfl, rfl⟩

theorem step_got {w w' : World} {q : Nat} {a : Act} (h : Step render w q a w') : ∃ l, w'.got = w.got ++ l ∧ l.length = includes [(q, a)] := by
  cases h
  case incl => exact ⟨_, rfl, rfl⟩
  all_goals exact ⟨[], (List.append_nil _).symm, rfl⟩

theorem includes_append (a b : List (Nat × Act)) : includes (a ++ b) = includes a + includes b := by simp [includes]

theorem runs_got {w w' : World} {tr : List (Nat × Act)} (h : Runs render w tr w') : ∃ l, w'.got = w.got ++ l ∧ l.length = includes tr := by
  induction h with
  | nil => exact ⟨[], (List.append_nil _).symm, rfl⟩
  | @cons w w1 w2 q a tr s _ ih =>
    obtain ⟨l, e, hl⟩ := ih
    obtain ⟨l', e', hl'⟩ := step_got s
    refine ⟨l' ++ l, by rw [e, e', List.append_assoc], ?_⟩
    rw [List.length_append, hl, hl', ← includes_append]; rfl

theorem overwrite_end (T : Bytes) (pos n : Nat) (h : pos ≤ T.length) : overwrite (T.take pos) pos ((T.drop pos).take n) = T.take (pos + n) := by
  have hl : (T.take pos).length = pos := by rw [List.length_take]; omega
  have hd : (T.take pos).drop (pos + ((T.drop pos).take n).length) = [] := List.drop_eq_nil_of_le (by omega)
  have ht : (T.take pos).take pos = T.take pos := List.take_of_length_le (by omega)
  rw [overwrite, hl, Nat.sub_self, List.replicate_zero, List.append_nil, ht, hd, List.append_nil, List.take_add]

/-- In the middle of writing `T`. -/
def Writing (p : Nat) (T : Bytes) (w : World) : Prop :=
  ∃ pos ≤ T.length, (w.procs p).pos = pos ∧ (w.procs p).todo = T.drop pos ∧ w.file = T.take pos

theorem step_writing {w w' : World} {q p : Nat} {a : Act} {T : Bytes} (h : Step render w q a w') (hu : Undisturbed p [(q, a)]) (hw : Writing p T w) :
    Writing p T w' := by
  obtain ⟨pos, hle, h1, h2, h3⟩ := hw
  obtain ⟨hg, hwr⟩ := hu (q, a) (by simp)
  by_cases hp : p = q
  · subst hp
    cases h with
    | generate => exact absurd rfl (hg _ _)
    | block => exact ⟨pos, hle, by simp [setRun, h1], by simp [setRun, h2], h3⟩
    | payload => exact ⟨pos, hle, by simp [setRun, h1], by simp [setRun, h2], h3⟩
    | incl => exact ⟨pos, hle, by simp [setRun, h1], by simp [setRun, h2], h3⟩
    | @write n hn hl =>
      rw [h2, List.length_drop] at hl
      refine ⟨pos + n, by omega, by simp [setRun, h1], by simp [setRun, h2, List.drop_drop], ?_⟩
      simp only [h1, h2, h3]
      exact overwrite_end T pos n hle
  · cases h with
    | generate => exact absurd rfl (hg _ _)
    | write => exact absurd (hwr _ rfl).symm hp
    | _ => exact ⟨pos, hle, by simp [setRun, hp, h1], by simp [setRun, hp, h2], h3⟩

theorem runs_writing {w w' : World} {p : Nat} {tr : List (Nat × Act)} {T : Bytes} (h : Runs render w tr w') (hu : Undisturbed p tr) (hw : Writing p T w) :
    Writing p T w' := by
  induction h with
  | nil => exact hw
  | @cons w w1 w2 q a tr s _ ih =>
    refine ih (fun x hx => hu x (List.mem_cons_of_mem _ hx)) (step_writing s ?_ hw)
    intro x hx
    rw [List.mem_singleton] at hx
    subst hx
    exact hu _ (List.mem_cons_self ..)

/-! ## C91 -/

/-- What is in the collector when the names differ. -/
theorem collected {w : World} {p : Nat} {tr : List (Nat × Act)} (h : Runs render {} tr w) (hn : NamesDiffer p tr) :
    (w.procs p).blocks.map (·.2) = blocksOf p tr ∧ (w.procs p).payloads.map (·.2) = payloadsOf p tr := by
  obtain ⟨e1, e2⟩ := runs_collects h p
  rw [e1, e2]
  exact ⟨collect_all _ hn.1, collect_all _ hn.2⟩

/-- **C91**, the part that holds: if `generate!` stands behind all declarations, and no other compiler writes the file from the moment `generate!` begins it to the moment `include!` reads it, then
this `include!` brings in the code for exactly the blocks and payloads of the crate. What the other compilers do before and after, and what they declare meanwhile, does not matter. -/
theorem C91_alone_partial {pre mid post : List (Nat × Act)} {bs : List BlockDecl} {ps : List PayloadDecl} {p : Nat} {w : World}
    (h : Runs render {} (pre ++ (p, .generate bs ps) :: (mid ++ (p, .incl) :: post)) w) (hu : Undisturbed p mid)
    (hl : blocksOf p (mid ++ post) = [] ∧ payloadsOf p (mid ++ post) = [])
    (hn : NamesDiffer p (pre ++ (p, .generate bs ps) :: (mid ++ (p, .incl) :: post))) :
    bs.Perm (blocksOf p (pre ++ (p, .generate bs ps) :: (mid ++ (p, .incl) :: post))) ∧
    ps.Perm (payloadsOf p (pre ++ (p, .generate bs ps) :: (mid ++ (p, .incl) :: post))) ∧
    w.got[includes (pre ++ mid)]? = some (p, render bs ps) := by
  have eb : blocksOf p (pre ++ (p, .generate bs ps) :: (mid ++ (p, .incl) :: post)) = blocksOf p pre := by
    have : blocksOf p ((p, .generate bs ps) :: (mid ++ (p, .incl) :: post)) = blocksOf p (mid ++ post) := by
      rw [blocksOf_append, show (p, Act.generate bs ps) :: (mid ++ (p, .incl) :: post) = [(p, .generate bs ps)] ++ (mid ++ ([(p, .incl)] ++ post)) from rfl,
        blocksOf_append, blocksOf_append, blocksOf_append]
      rfl
    rw [blocksOf_append, this, hl.1, List.append_nil]
  have ep : payloadsOf p (pre ++ (p, .generate bs ps) :: (mid ++ (p, .incl) :: post)) = payloadsOf p pre := by
    have : payloadsOf p ((p, .generate bs ps) :: (mid ++ (p, .incl) :: post)) = payloadsOf p (mid ++ post) := by
      rw [payloadsOf_append, show (p, Act.generate bs ps) :: (mid ++ (p, .incl) :: post) = [(p, .generate bs ps)] ++ (mid ++ ([(p, .incl)] ++ post)) from rfl,
        payloadsOf_append, payloadsOf_append, payloadsOf_append]
      rfl
    rw [payloadsOf_append, this, hl.2, List.append_nil]
  rw [NamesDiffer, eb, ep] at hn
  rw [eb, ep]
  obtain ⟨w1, h1, hA⟩ := runs_append.mp h
  obtain ⟨c1, c2⟩ := collected h1 hn
  cases hA with
  | @cons _ w2 _ _ _ _ s hB =>
    obtain ⟨w3, h3, hC⟩ := runs_append.mp hB
    obtain ⟨l1, g1, n1⟩ := runs_got h1
    obtain ⟨l2, g2, n2⟩ := step_got s
    obtain ⟨l3, g3, n3⟩ := runs_got h3
    have hw : Writing p (render bs ps) w2 := by
      cases s with
      | generate => exact ⟨0, Nat.zero_le _, by simp [setRun], by simp [setRun], rfl⟩
    obtain ⟨pos, hle, hpos, ht, hf⟩ := runs_writing h3 hu hw
    cases s with
    | generate _ pb pp =>
      rw [c1] at pb
      rw [c2] at pp
      refine ⟨pb, pp, ?_⟩
      cases hC with
      | @cons _ w4 _ _ _ _ s4 hD =>
        obtain ⟨l5, g5, _⟩ := runs_got hD
        cases s4 with
        | incl h0 _ =>
          rw [ht] at h0
          have : pos = (render bs ps).length := by
            have := congrArg List.length h0
            rw [List.length_drop, List.length_nil] at this
            omega
          rw [this, List.take_length] at hf
          have hlen : includes (pre ++ mid) = w3.got.length := by
            have l20 : l2.length = 0 := n2
            rw [g3, g2, g1, includes_append]
            simp only [List.length_append, n1, l20, n3, List.length_nil, Nat.zero_add, Nat.add_zero]
          rw [g5, hlen]
          simp [hf]

/-- The conditions of `C91_alone_partial` can be met: a target is compiled while another one declares a block, and the other one goes on afterwards. -/
example (h : render [pushLoan] [] ≠ []) : ∃ w, Runs render {} ([(0, .block pushLoan)] ++ (0, .generate [pushLoan] []) ::
      ([(1, .block poolLine), (0, .write (render [pushLoan] []).length)] ++ (0, .incl) :: [(1, .generate [poolLine] [])])) w ∧
    Undisturbed 0 [(1, .block poolLine), (0, .write (render [pushLoan] []).length)] := by
  have hl : 0 < (render [pushLoan] []).length := List.length_pos_iff.mpr h
  refine ⟨_, .cons (.block rfl) (.cons (.generate rfl ?_ ?_) (.cons (.block rfl) (.cons (.write hl ?_) (.cons (.incl (n := 0) ?_ rfl) (.cons (.generate rfl ?_ ?_) .nil))))), ?_⟩
  · exact List.Perm.refl _
  · exact List.Perm.refl _
  · exact Nat.le_refl _
  · exact List.drop_length
  · exact List.Perm.refl _
  · exact List.Perm.refl _
  · intro x hx
    simp only [List.mem_cons, List.not_mem_nil, or_false] at hx
    rcases hx with rfl | rfl
    · exact ⟨fun _ _ => by simp, fun _ => by simp⟩
    · exact ⟨fun _ _ => by simp, fun _ _ => rfl⟩

/-! ## Where it fails -/

theorem setRun_same (f : Nat → Rustc) (p : Nat) (r : Rustc) : setRun f p r p = r := if_pos rfl
theorem setRun_other (f : Nat → Rustc) {p q : Nat} (h : q ≠ p) (r : Rustc) : setRun f p r q = f q := if_neg h
theorem setRun_setRun (f : Nat → Rustc) (p : Nat) (r r' : Rustc) : setRun (setRun f p r) p r' = setRun f p r' := by
  funext q
  by_cases h : q = p
  · subst h; rw [setRun_same, setRun_same]
  · rw [setRun_other _ h, setRun_other _ h, setRun_other _ h]
theorem setRun_self (f : Nat → Rustc) (p : Nat) : setRun f p (f p) = f := by
  funext q
  by_cases h : q = p
  · subst h; rw [setRun_same]
  · rw [setRun_other _ h]

/-- A crate being compiled: its declarations. -/
def declares (p : Nat) (bs : List BlockDecl) (ps : List PayloadDecl) : List (Nat × Act) :=
  bs.map (fun d => (p, .block d)) ++ ps.map (fun d => (p, .payload d))

theorem runs_blocks (p : Nat) (bs : List BlockDecl) : ∀ (w : World), (w.procs p).todo = [] →
    Runs render w (bs.map fun d => (p, .block d))
      { w with procs := setRun w.procs p { w.procs p with blocks := bs.foldl (fun m d => orInsert m d.fullname d) (w.procs p).blocks } } := by
  induction bs with
  | nil => intro w _; simp only [List.map_nil, List.foldl_nil]; rw [setRun_self]; exact .nil
  | cons d bs ih =>
    intro w h
    refine .cons (.block h) ?_
    have := ih { w with procs := setRun w.procs p { w.procs p with blocks := orInsert (w.procs p).blocks d.fullname d } } (by simp only [setRun_same]; exact h)
    simp only [setRun_same, setRun_setRun] at this
    exact this

theorem runs_payloads (p : Nat) (ps : List PayloadDecl) : ∀ (w : World), (w.procs p).todo = [] →
    Runs render w (ps.map fun d => (p, .payload d))
      { w with procs := setRun w.procs p { w.procs p with payloads := ps.foldl (fun m d => orInsert m d.fullname d) (w.procs p).payloads } } := by
  induction ps with
  | nil => intro w _; simp only [List.map_nil, List.foldl_nil]; rw [setRun_self]; exact .nil
  | cons d ps ih =>
    intro w h
    refine .cons (.payload h) ?_
    have := ih { w with procs := setRun w.procs p { w.procs p with payloads := orInsert (w.procs p).payloads d.fullname d } } (by simp only [setRun_same]; exact h)
    simp only [setRun_same, setRun_setRun] at this
    exact this

/-- A write of the first `k` bytes. -/
def writes (p k : Nat) : List (Nat × Act) := if k = 0 then [] else [(p, .write k)]

/-- A crate is compiled up to the point where `k` bytes of its code are written, beside other runs. -/
theorem runs_crate (p : Nat) (bs : List BlockDecl) (ps : List PayloadDecl) (hb : (bs.map BlockDecl.fullname).Nodup)
    (hp : (ps.map PayloadDecl.fullname).Nodup) (k : Nat) (hk : k ≤ (render bs ps).length) (w : World) (h : w.procs p = {}) :
    ∃ r : Rustc, r.todo = (render bs ps).drop k ∧ r.owed = 1 ∧
      Runs render w (declares p bs ps ++ (p, .generate bs ps) :: writes p k) ⟨setRun w.procs p r, (render bs ps).take k, w.got⟩ := by
  have s1 := runs_blocks (render := render) p bs w (by rw [h])
  have s2 := runs_payloads (render := render) p ps (w := { w with procs := setRun w.procs p { w.procs p with
    blocks := bs.foldl (fun m d => orInsert m d.fullname d) (w.procs p).blocks } }) (by simp only [setRun_same]; rw [h])
  have s12 := runs_append.mpr ⟨_, s1, s2⟩
  simp only [setRun_same, setRun_setRun, h] at s12
  have eb : (bs.foldl (fun m d => orInsert m d.fullname d) ([] : List (Bytes × BlockDecl))).map (·.2) = bs := collect_all bs hb
  have ep : (ps.foldl (fun m d => orInsert m d.fullname d) ([] : List (Bytes × PayloadDecl))).map (·.2) = ps := collect_all ps hp
  generalize bs.foldl (fun m d => orInsert m d.fullname d) ([] : List (Bytes × BlockDecl)) = mb at s12 eb
  generalize ps.foldl (fun m d => orInsert m d.fullname d) ([] : List (Bytes × PayloadDecl)) = mp at s12 ep
  have s3 : Runs render ⟨setRun w.procs p { blocks := mb, payloads := mp }, w.file, w.got⟩ [(p, .generate bs ps)]
      ⟨setRun w.procs p ⟨mb, mp, render bs ps, 0, 1⟩, [], w.got⟩ := by
    have := Runs.cons (render := render) (tr := []) (.generate (w := ⟨setRun w.procs p { blocks := mb, payloads := mp }, w.file, w.got⟩) (p := p) (bs := bs) (ps := ps)
      (by simp only [setRun_same]) (by simp only [setRun_same]; rw [eb]) (by simp only [setRun_same]; rw [ep])) .nil
    simp only [setRun_same, setRun_setRun] at this
    exact this
  by_cases k0 : k = 0
  · subst k0
    exact ⟨⟨mb, mp, render bs ps, 0, 1⟩, rfl, rfl, runs_append.mpr ⟨_, s12, s3⟩⟩
  · refine ⟨⟨mb, mp, (render bs ps).drop k, 0 + k, 1⟩, rfl, rfl, runs_append.mpr ⟨_, s12, runs_append (tr := [(p, .generate bs ps)]) (tr' := writes p k).mpr ⟨_, s3, ?_⟩⟩⟩
    have ew : writes p k = [(p, .write k)] := if_neg k0
    rw [ew]
    have := Runs.cons (render := render) (p := p) (tr := []) (.write (n := k) (w := ⟨setRun w.procs p ⟨mb, mp, render bs ps, 0, 1⟩, [], w.got⟩)
      (by omega) (by simp only [setRun_same]; exact hk)) .nil
    simp only [setRun_same, setRun_setRun] at this
    have e : overwrite [] 0 ((render bs ps).take k) = (render bs ps).take k := by simp [overwrite]
    rw [e] at this
    exact this

theorem blocksOf_declares (p : Nat) (bs : List BlockDecl) (ps : List PayloadDecl) : blocksOf p (declares p bs ps) = bs ∧ payloadsOf p (declares p bs ps) = ps := by
  constructor
  · simp [declares, blocksOf, List.filterMap_map, Function.comp_def]
  · simp [declares, payloadsOf, List.filterMap_map, Function.comp_def]

theorem blocksOf_declares_other {p q : Nat} (h : q ≠ p) (bs : List BlockDecl) (ps : List PayloadDecl) :
    blocksOf p (declares q bs ps) = [] ∧ payloadsOf p (declares q bs ps) = [] := by
  constructor
  · simp [declares, blocksOf, List.filterMap_map, Function.comp_def, h]
  · simp [declares, payloadsOf, List.filterMap_map, Function.comp_def, h]

theorem blocksOf_writes (p q k : Nat) (bs : List BlockDecl) (ps : List PayloadDecl) :
    blocksOf p ((q, .generate bs ps) :: writes q k) = [] ∧ payloadsOf p ((q, .generate bs ps) :: writes q k) = [] := by
  unfold writes
  split <;> exact ⟨rfl, rfl⟩

/-- Two targets of a package compiled at the same time: the one includes what the other has written of its own code so far. This may be nothing, the first `k` bytes, or all of
it, whatever the two targets declare. -/
theorem C91_torn (bs bs' : List BlockDecl) (ps ps' : List PayloadDecl) (hb : (bs.map BlockDecl.fullname).Nodup) (hp : (ps.map PayloadDecl.fullname).Nodup)
    (hb' : (bs'.map BlockDecl.fullname).Nodup) (hp' : (ps'.map PayloadDecl.fullname).Nodup) (k : Nat) (hk : k ≤ (render bs' ps').length) :
    ∃ tr w, Runs render {} tr w ∧ blocksOf 0 tr = bs ∧ payloadsOf 0 tr = ps ∧ blocksOf 1 tr = bs' ∧ payloadsOf 1 tr = ps' ∧
      w.got = [(0, (render bs' ps').take k)] := by
  obtain ⟨r, ht, ho, h⟩ := runs_crate (render := render) 0 bs ps hb hp _ (Nat.le_refl _) {} rfl
  obtain ⟨r', ht', ho', h'⟩ := runs_crate (render := render) 1 bs' ps' hb' hp' k hk
    ⟨setRun (fun _ => {}) 0 r, (render bs ps).take (render bs ps).length, []⟩ (setRun_other (p := 0) (q := 1) (fun _ => {}) (by decide) r)
  refine ⟨_, _, runs_append.mpr ⟨_, runs_append.mpr ⟨_, h, h'⟩, .cons (.incl (p := 0) (n := 0) ?_ ?_) .nil⟩, ?_, ?_, ?_, ?_, rfl⟩
  · show (setRun (setRun (fun _ => {}) 0 r) 1 r' 0).todo = []
    rw [setRun_other (p := 1) (q := 0) _ (by decide), setRun_same, ht, List.drop_length]
  · show (setRun (setRun (fun _ => {}) 0 r) 1 r' 0).owed = 1
    rw [setRun_other (p := 1) (q := 0) _ (by decide), setRun_same, ho]
  · simp only [blocksOf_append, (blocksOf_declares 0 _ _).1, (blocksOf_declares_other (p := 0) (q := 1) (by decide) _ _).1, (blocksOf_writes _ _ _ _ _).1, List.append_nil]
    simp [blocksOf]
  · simp only [payloadsOf_append, (blocksOf_declares 0 _ _).2, (blocksOf_declares_other (p := 0) (q := 1) (by decide) _ _).2, (blocksOf_writes _ _ _ _ _).2, List.append_nil]
    simp [payloadsOf]
  · simp only [blocksOf_append, (blocksOf_declares 1 _ _).1, (blocksOf_declares_other (p := 1) (q := 0) (by decide) _ _).1, (blocksOf_writes _ _ _ _ _).1, List.append_nil]
    simp [blocksOf]
  · simp only [payloadsOf_append, (blocksOf_declares 1 _ _).2, (blocksOf_declares_other (p := 1) (q := 0) (by decide) _ _).2, (blocksOf_writes _ _ _ _ _).2, List.append_nil]
    simp [payloadsOf]

/-- Declarations behind `generate!` are not taken in, with one compiler alone. -/
theorem C91_late (bs : List BlockDecl) (ps : List PayloadDecl) (hb : (bs.map BlockDecl.fullname).Nodup) (hp : (ps.map PayloadDecl.fullname).Nodup) (d : BlockDecl) :
    ∃ tr w, Runs render {} tr w ∧ (∀ x ∈ tr, x.1 = 0) ∧ blocksOf 0 tr = bs ++ [d] ∧ payloadsOf 0 tr = ps ∧ w.got = [(0, render bs ps)] := by
  obtain ⟨r, ht, ho, h⟩ := runs_crate (render := render) 0 bs ps hb hp _ (Nat.le_refl _) {} rfl
  rw [List.drop_length] at ht
  refine ⟨_, _, runs_append.mpr ⟨_, h, .cons (.incl (p := 0) (n := 0) ?_ ?_) (.cons (.block (p := 0) (d := d) ?_) .nil)⟩, ?_, ?_, ?_, ?_⟩
  · simp only [setRun_same]; exact ht
  · simp only [setRun_same]; exact ho
  · simp only [setRun_same]; exact ht
  · intro x hx
    unfold declares writes at hx
    split at hx <;> simp only [List.mem_append, List.mem_map, List.mem_cons, List.not_mem_nil, or_false] at hx <;>
      rcases hx with ((⟨_, _, rfl⟩ | ⟨_, _, rfl⟩) | hx) | rfl | rfl <;> first | rfl | (rcases hx with rfl | rfl <;> rfl) | (subst hx; rfl)
  · simp only [blocksOf_append, (blocksOf_declares 0 _ _).1, (blocksOf_writes _ _ _ _ _).1, List.append_nil]
    simp [blocksOf]
  · simp only [payloadsOf_append, (blocksOf_declares 0 _ _).2, (blocksOf_writes _ _ _ _ _).2, List.append_nil]
    simp [payloadsOf]
  · simp [List.take_length]

/-- **C91** does not hold, even if all targets of the package declare the same. (Without declarations and with `no_default_payload` there is no code at all; `h` leaves this out.) -/
theorem C91_not (bs : List BlockDecl) (ps : List PayloadDecl) (hb : (bs.map BlockDecl.fullname).Nodup) (hp : (ps.map PayloadDecl.fullname).Nodup)
    (h : ∀ bs' ps', bs'.Perm bs → ps'.Perm ps → render bs' ps' ≠ []) : ¬ C91_full render := by
  intro hf
  obtain ⟨tr, w, hr, e1, e2, _, _, hg⟩ := C91_torn (render := render) bs bs ps ps hb hp hb hp 0 (Nat.zero_le _)
  obtain ⟨bs', ps', pb, pp, ht⟩ := hf tr w hr 0 _ (by rw [hg]; exact List.mem_singleton.mpr rfl) ⟨by rw [e1]; exact hb, by rw [e2]; exact hp⟩
  rw [e1] at pb
  rw [e2] at pp
  exact h bs' ps' pb pp ht.symm

end Brec.Props
