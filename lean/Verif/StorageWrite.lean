import Verif.StorageLemmas
import Verif.ReaderLemmas
/-!
# Lemmas about the writer
-/

namespace Brec

theorem overwrite_end (d b : Bytes) : overwrite d d.length b = d ++ b := by
  simp [overwrite]

theorem overwrite_mid (f b r b' : Bytes) (h : b.length = b'.length) : overwrite (f ++ (b ++ r)) f.length b' = f ++ (b' ++ r) := by
  have h1 : f.length - (f ++ (b ++ r)).length = 0 := by simp
  have h2 : (f ++ (b ++ r)).drop (f.length + b'.length) = r := by
    rw [← List.drop_drop, List.drop_left, ← h, List.drop_left]
  rw [overwrite, h1, h2]
  simp

/-- The state of a writer over the file of `gs`. -/
structure Inv (cap : Nat) (gs : List (List Bytes)) (w : Writer) : Prop where
  groups : Groups cap gs
  data : w.data = fileOf cap gs
  at_ : (∃ init g, gs = init ++ [g] ∧ w.slots = gs.map (table cap) ∧ w.loc = ⟨init.length, (fileOf cap init).length⟩) ∨
    (AllFull cap gs ∧ (w.slots = gs.map (table cap) ∨ w.slots = gs.map (table cap) ++ [table cap []]) ∧
      w.loc = ⟨gs.length, (fileOf cap gs).length⟩)

/-- A group, unless it is empty. -/
def opt (g : List Bytes) : List (List Bytes) := if g = [] then [] else [g]

/-- A writer that knows where the next packet goes: into group `g`, behind the full groups `init`. -/
structure Ready (cap : Nat) (init : List (List Bytes)) (g : List Bytes) (w : Writer) : Prop where
  full : AllFull cap init
  group : Group cap g
  lt : g.length < cap
  data : w.data = fileOf cap (init ++ opt g)
  slots : w.slots = (init ++ [g]).map (table cap)
  loc : w.loc = ⟨init.length, (fileOf cap init).length⟩

/-- The place in the file. -/
def spot (cap : Nat) (init : List (List Bytes)) (g : List Bytes) : Nat := (fileOf cap init).length + (g.flatten.length + (20 + 8 * cap))

theorem step_ready {cap : Nat} {init : List (List Bytes)} {g : List Bytes} (hg : Group cap g) (hlt : g.length < cap) :
    Locator.step ⟨init.length, (fileOf cap init).length⟩ ((init ++ [g]).map (table cap)) =
      (some (spot cap init g), ⟨init.length, (fileOf cap init).length⟩) := by
  have : ((init ++ [g]).map (table cap))[init.length]? = some (table cap g) := by simp
  unfold Locator.step
  simp only
  rw [this]
  simp only
  rw [table_freeOffset hg, if_pos hlt]
  rfl

theorem Inv.place {cap : Nat} {gs : List (List Bytes)} {w : Writer} (h : Inv cap gs w) (hc : 0 < cap) :
    ∃ init g w1, gs = init ++ opt g ∧ w.place cap = (some (spot cap init g), w1) ∧ Ready cap init g w1 ∧ w1.data = w.data := by
  -- a new slot behind full groups
  have fresh : ∀ l, AllFull cap gs → w.loc.step w.slots = (none, l) → l = ⟨gs.length, (fileOf cap gs).length⟩ → w.slots = gs.map (table cap) →
      ∃ init g w1, gs = init ++ opt g ∧ w.place cap = (some (spot cap init g), w1) ∧ Ready cap init g w1 ∧ w1.data = w.data := by
    intro l hf e hl hs
    have hs' : w.slots ++ [Slot.default cap] = (gs ++ [[]]).map (table cap) := by rw [hs, default_eq]; simp
    refine ⟨gs, [], ⟨(gs ++ [[]]).map (table cap), w.data, ⟨gs.length, (fileOf cap gs).length⟩⟩, by simp [opt], ?_, ?_, rfl⟩
    · unfold Writer.place
      rw [e]
      simp only
      rw [hs', hl, step_ready (Group.nil cap) hc]
    · exact ⟨hf, Group.nil cap, hc, by simp [opt, h.data], rfl, rfl⟩
  rcases h.at_ with ⟨init, g, hgs, hs, hl⟩ | ⟨hf, hs, hl⟩
  · have hsp := (hgs ▸ h.groups).split
    have hle := hsp.2.1.le
    by_cases hlt : g.length < cap
    · refine ⟨init, g, w, by simp [opt, hsp.2.2, hgs], ?_, ⟨hsp.1, hsp.2.1, hlt, by simp [opt, hsp.2.2, h.data, hgs], by rw [hs, hgs], hl⟩, rfl⟩
      unfold Writer.place
      have e : w.loc.step w.slots = (some (spot cap init g), w.loc) := by rw [hs, hl, hgs, step_ready hsp.2.1 hlt]
      rw [e]
    · have hf : AllFull cap gs := by
        intro x hx
        rw [hgs] at hx
        rcases List.mem_append.mp hx with hx | hx
        · exact hsp.1 x hx
        · simp only [List.mem_singleton] at hx; subst hx
          exact ⟨hsp.2.1, by omega⟩
      refine fresh _ hf ?_ rfl hs
      rw [hs, hl, hgs]
      have e1 : ((init ++ [g]).map (table cap))[init.length]? = some (table cap g) := by simp
      have e2 : ((init ++ [g]).map (table cap))[init.length + 1]? = none := by simp
      unfold Locator.step
      simp only
      rw [e1]
      simp only
      rw [table_freeOffset hsp.2.1, if_neg hlt]
      simp only
      rw [e2]
      simp only [fileOf_append, fileOf_cons, fileOf_nil, List.append_nil, List.length_append, region_length hle, table_size,
        table_width hsp.2.1, List.length_cons, List.length_nil, Nat.add_assoc, Nat.zero_add]
  · rcases hs with hs | hs
    · refine fresh _ hf ?_ rfl hs
      rw [hs, hl]
      unfold Locator.step
      simp
    · refine ⟨gs, [], w, by simp [opt], ?_, ⟨hf, Group.nil cap, hc, by simp [opt, h.data], by simp [hs], hl⟩, rfl⟩
      unfold Writer.place
      have e : w.loc.step w.slots = (some (spot cap gs []), w.loc) := by
        rw [hs, hl, show gs.map (table cap) ++ [table cap []] = (gs ++ [[]]).map (table cap) by simp, step_ready (Group.nil cap) hc]
      rw [e]

theorem Ready.inv {cap : Nat} {init : List (List Bytes)} {g : List Bytes} {w : Writer} (h : Ready cap init g w) (hc : 0 < cap) :
    Inv cap (init ++ opt g) w := by
  unfold opt
  by_cases hg : g = []
  · subst hg
    simp only [if_true, List.append_nil]
    exact ⟨AllFull.groups h.full hc, by rw [h.data]; simp [opt], .inr ⟨h.full, .inr (by rw [h.slots]; simp), h.loc⟩⟩
  · simp only [hg, if_false]
    exact ⟨Groups.mk' h.full hc h.group hg, by rw [h.data]; simp [opt, hg], .inl ⟨init, g, rfl, h.slots, h.loc⟩⟩

/-- Writing the new table over the old one (or behind the file). -/
theorem Ready.table_written {cap : Nat} {init : List (List Bytes)} {g : List Bytes} {w : Writer} (h : Ready cap init g w) {b : Bytes}
    (hb : b.length = 20 + 8 * cap) :
    overwrite w.data w.loc.slotOffset b = fileOf cap init ++ (b ++ g.flatten) := by
  rw [h.data, h.loc, fileOf_append]
  unfold opt
  by_cases hg : g = []
  · subst hg
    simp [overwrite_end]
  · simp only [hg, if_false, fileOf_cons, fileOf_nil, List.append_nil]
    have : (table cap g).enc.length = b.length := by
      have := region_length (cap := cap) h.group.le
      rw [region, List.length_append] at this
      omega
    rw [region, overwrite_mid _ _ _ _ this]

/-- Both writes. -/
theorem Ready.written {cap : Nat} {init : List (List Bytes)} {g : List Bytes} {w : Writer} (h : Ready cap init g w) (x : Bytes) :
    overwrite (overwrite w.data w.loc.slotOffset (table cap (g ++ [x])).enc) (spot cap init g) x = fileOf cap (init ++ [g ++ [x]]) := by
  have hlt := h.lt
  have hle : (g ++ [x]).length ≤ cap := by simp; omega
  have hl : (table cap (g ++ [x])).enc.length = 20 + 8 * cap := by
    have := region_length (cap := cap) hle
    rw [region, List.length_append] at this
    omega
  rw [h.table_written hl]
  have : spot cap init g = (fileOf cap init ++ ((table cap (g ++ [x])).enc ++ g.flatten)).length := by
    simp only [List.length_append, hl, spot]; omega
  rw [this, overwrite_end, fileOf_append, fileOf_cons, fileOf_nil, region]
  simp

/-- After the insert of `x` the writer stands at the group it went into. -/
theorem Ready.next_inv {cap : Nat} {init : List (List Bytes)} {g : List Bytes} {w : Writer} (h : Ready cap init g w) (hc : 0 < cap) {x : Bytes} (hx : x ≠ [])
    {w' : Writer} (hs : w'.slots = w.slots.set w.loc.next (table cap (g ++ [x]))) (hl : w'.loc = w.loc)
    (hd : w'.data = fileOf cap (init ++ [g ++ [x]])) : Inv cap (init ++ [g ++ [x]]) w' := by
  refine ⟨Groups.mk' h.full hc (h.group.concat h.lt hx) (by simp), hd, .inl ⟨init, g ++ [x], rfl, ?_, by rw [hl, h.loc]⟩⟩
  rw [hs, h.slots, h.loc]
  simp

variable {O : BlockOps} {Q : PayloadOps}

/-- `insert` once the place is known. -/
theorem Ready.insert {cap : Nat} {init : List (List Bytes)} {g : List Bytes} {w w1 : Writer} (h : Ready cap init g w1)
    (hp : w.place cap = (some (spot cap init g), w1)) {p : Packet O Q} {x : Bytes} (hs : p.serialize = .ok x)
    (hl : (fileOf cap (init ++ [g ++ [x]])).length < 2 ^ 63) (fault : Option Nat) :
    w.insert cap p fault =
      (match fault with | none => .ok () | some _ => .err .io,
       { w1 with slots := w1.slots.set w1.loc.next (table cap (g ++ [x])),
                 data := match fault with
                   | none => fileOf cap (init ++ [g ++ [x]])
                   | some k => Writer.torn w1.data w1.loc.slotOffset (table cap (g ++ [x])).enc (spot cap init g) x k }) := by
  have hlt := h.lt
  have hw : (table cap (g ++ [x])).WF := table_wf_of_file hl (g := g ++ [x]) (by simp) (by simp; omega)
  have e1 : w1.slots[w1.loc.next]? = some (table cap g) := by rw [h.slots, h.loc]; simp
  unfold Writer.insert
  rw [hp]
  simp only
  rw [hs]
  simp only
  rw [e1]
  simp only
  rw [table_insert h.group hlt]
  simp only
  rw [hw.bytes]
  cases fault with
  | none => simp only; rw [h.written x]
  | some k => rfl

/-! ## Opening -/

theorem open_inv {cap : Nat} (chk : Bool) {gs : List (List Bytes)} (hg : Groups cap gs) (hl : (fileOf cap gs).length < 2 ^ 63)
    {fuel : Nat} (hf : gs.length < fuel) : ∃ w, Writer.open_ chk fuel (fileOf cap gs) = some (.ok w) ∧ Inv cap gs w := by
  refine ⟨_, by rw [Writer.open_, load_file chk hg.group hl hf]; rfl, hg, rfl, ?_⟩
  dsimp only
  rw [anchor_inner]
  rcases List.eq_nil_or_concat gs with rfl | ⟨init, g, rfl⟩
  · exact .inr ⟨by simp [AllFull], .inl rfl, rfl⟩
  · rw [List.concat_eq_append] at *
    have hsp := hg.split
    have hle := hsp.2.1.le
    rw [setup_eq hsp.1 hsp.2.1]
    by_cases hlt : g.length < cap
    · rw [if_pos hlt]
      exact .inl ⟨init, g, rfl, rfl, by simp⟩
    · rw [if_neg hlt]
      refine .inr ⟨?_, .inl rfl, by simp⟩
      intro x hx
      rcases List.mem_append.mp hx with hx | hx
      · exact hsp.1 x hx
      · simp only [List.mem_singleton] at hx; subst hx
        exact ⟨hsp.2.1, by omega⟩

end Brec
