import Verif.Props.EvolutionStorage
/-!
# Property C80: programs with different protocols share a storage file

Several programs, built with different lists of block and payload types, append to the same storage file one after the other. Then one of them, or yet another one, reads it.
-/

namespace Brec.Props

open Brec Packet Rd

/-! ## Specification -/

/-- One program opens the file, inserts packets, and closes it. -/
structure Session where
  ws : List BlockTy
  us : List PayloadTy
  packets : List (Packet (blockEnum ws) (PEnum.ops us))

/-- A packet, with the types of the program that wrote it. -/
structure Entry where
  ws : List BlockTy
  us : List PayloadTy
  packet : Packet (blockEnum ws) (PEnum.ops us)

def Entry.bytes (e : Entry) : Bytes := wire e.packet

def Session.entries (s : Session) : List Entry := s.packets.map fun p => ⟨s.ws, s.us, p⟩

/-- The sessions one after the other on the same file; `none` if a program cannot open it, or an insert fails. -/
def runSessions (cap : Nat) (chk : Bool) : List Session → Bytes → Option Bytes
  | [], data => some data
  | s :: ss, data =>
    match openWriter chk data with
    | some (.ok w) =>
      match runOps cap chk (s.packets.map Op.insert) w with
      | some w' => runSessions cap chk ss w'.data
      | none => none
    | _ => none

/-- All packets of the sessions. -/
def journal : List Session → List Entry
  | [] => []
  | s :: ss => s.entries ++ journal ss

/-- The packets, with their slot tables, stay below 2^63 bytes. -/
def Fits (cap : Nat) (xs : List Bytes) : Prop :=
  (xs.map List.length).sum + (xs.length / cap + 1) * (20 + 8 * cap) < 2 ^ 63

/-! ## Files of bytes -/

theorem fits_file {cap : Nat} (hc : 0 < cap) {gs : List (List Bytes)} (h : Groups cap gs) (hs : Fits cap gs.flatten) : (fileOf cap gs).length < 2 ^ 63 := by
  have h1 := groups_length hc h
  rw [length_fileOf h.group, List.length_flatten]
  unfold Fits at hs
  have := Nat.mul_le_mul_right (20 + 8 * cap) h1
  omega

theorem Fits.left {cap : Nat} {a b : List Bytes} (h : Fits cap (a ++ b)) : Fits cap a := by
  unfold Fits at *
  have h1 : a.length / cap ≤ (a ++ b).length / cap := Nat.div_le_div_right (by simp)
  have h2 := Nat.mul_le_mul_right (20 + 8 * cap) (Nat.add_le_add_right h1 1)
  rw [List.map_append, List.sum_append_nat] at h
  omega

section

variable {O O' : BlockOps} {Q Q' : PayloadOps} {S : BlockSpec O}

/-- One insert. -/
theorem insert_bytes {cap : Nat} (hc : 0 < cap) {gs : List (List Bytes)} {w : Writer} (h : Inv cap gs w) {p : Packet O Q} (hok : p.Ok S)
    (hs : Fits cap (gs.flatten ++ [wire p])) :
    ∃ w' gs', w.insert cap p none = (.ok (), w') ∧ Inv cap gs' w' ∧ gs'.flatten = gs.flatten ++ [wire p] := by
  obtain ⟨init, g, w1, hgs, hpl, hr, _⟩ := h.place hc
  have hgr : Groups cap (init ++ [g ++ [wire p]]) := Groups.mk' hr.full hc (hr.group.concat hr.lt (wire_ne hok)) (by simp)
  have hfl : (init ++ [g ++ [wire p]]).flatten = gs.flatten ++ [wire p] := by
    rw [hgs, opt]
    by_cases hg : g = []
    · subst hg; simp
    · simp [hg]
  refine ⟨_, init ++ [g ++ [wire p]], hr.insert hpl (serialize_wire hok) (fits_file hc hgr (by rw [hfl]; exact hs)) none, ?_, hfl⟩
  exact hr.next_inv hc (wire_ne hok) rfl rfl rfl

/-- The inserts of one session. -/
theorem inserts_bytes {cap : Nat} (hc : 0 < cap) (chk : Bool) : ∀ (ps : List (Packet O Q)) {gs : List (List Bytes)} {w : Writer},
    Inv cap gs w → (∀ p ∈ ps, p.Ok S) → Fits cap (gs.flatten ++ ps.map wire) →
    ∃ w' gs', runOps cap chk (ps.map Op.insert) w = some w' ∧ Inv cap gs' w' ∧ gs'.flatten = gs.flatten ++ ps.map wire
  | [], gs, w, h, _, _ => ⟨w, gs, rfl, h, by simp⟩
  | p :: ps, gs, w, h, hok, hs => by
    rw [List.map_cons, ← List.singleton_append, ← List.append_assoc] at hs
    obtain ⟨w1, gs1, e1, i1, f1⟩ := insert_bytes hc h (hok p (by simp)) hs.left
    obtain ⟨w', gs', e2, i2, f2⟩ := inserts_bytes hc chk ps i1 (fun x hx => hok x (by simp [hx])) (by rw [f1]; exact hs)
    refine ⟨w', gs', ?_, i2, by rw [f2, f1]; simp⟩
    rw [List.map_cons]
    unfold runOps
    rw [e1]
    exact e2

/-- An iterator that has these packets before it. -/
def Awaits (cap : Nat) (data : Bytes) (it : Iter) (xs : List Bytes) : Prop :=
  ∃ pre d todo cur, data = pre ++ d ∧ Bodies cap todo d ∧ it.spans = ⟨pre.length, todo.map (table cap)⟩ ∧
    it.buffer = cur.flatten ∧ xs = cur ++ todo.flatten ∧ ∀ g ∈ todo, Group cap g ∧ g ≠ []

theorem Awaits.refill {cap : Nat} {data : Bytes} {it : Iter} {xs : List Bytes} (h : Awaits cap data it xs) (hl : data.length < 2 ^ 63) (hne : ∀ x ∈ xs, x ≠ []) :
    (xs = [] ∧ it.refill data = none) ∨
    (∃ it1 x cur rest, it.refill data = some (.ok it1) ∧ it1.buffer = x ++ cur.flatten ∧ xs = x :: (cur ++ rest) ∧
      Awaits cap data { it1 with buffer := cur.flatten } (cur ++ rest)) := by
  obtain ⟨pre, d, todo, cur, hd, hbd, hs, hb, hxs, hg⟩ := h
  cases cur with
  | cons x cur =>
    right
    refine ⟨it, x, cur, todo.flatten, ?_, by rw [hb]; simp, by rw [hxs]; rfl, pre, d, todo, cur, hd, hbd, hs, rfl, rfl, hg⟩
    unfold Iter.refill
    rw [if_pos]
    rw [hb]
    simp only [List.flatten_cons, ne_eq, List.append_eq_nil_iff, not_and]
    intro h0
    exact absurd h0 (hne x (by rw [hxs]; simp))
  | nil =>
    cases todo with
    | nil =>
      left
      refine ⟨by rw [hxs]; rfl, ?_⟩
      unfold Iter.refill
      rw [if_neg (by simp [hb]), hs]
      rfl
    | cons g todo =>
      right
      obtain ⟨hgr, hgne⟩ := hg g (by simp)
      cases g with
      | nil => exact absurd rfl hgne
      | cons x r1 =>
        have hw : 0 < (x :: r1).flatten.length := by
          have := List.length_pos_iff.mpr (hne x (by rw [hxs]; simp))
          simp only [List.flatten_cons, List.length_append]
          omega
        have hreg := region_length (cap := cap) hgr.le
        have hen : (table cap (x :: r1)).enc.length = 20 + 8 * cap := by
          rw [region, List.length_append] at hreg; omega
        have hdl := congrArg List.length hd
        cases hbd with
        | @cons t d' _ _ ht' hbd' =>
        simp only [List.length_append] at hdl
        refine ⟨⟨⟨(pre ++ (t ++ (x :: r1).flatten)).length, todo.map (table cap)⟩, (x :: r1).flatten⟩, x, r1, todo.flatten, ?_, by simp, ?_, ?_⟩
        · unfold Iter.refill
          rw [if_neg (by simp [hb]), hs]
          simp only [List.map_cons, Spans.next]
          rw [table_width hgr, if_neg (by omega), table_size]
          simp only
          unfold fetch
          have hsub : pre.length + (x :: r1).flatten.length + (20 + 8 * cap) - (pre.length + (20 + 8 * cap)) = (x :: r1).flatten.length := by omega
          simp only
          rw [hsub, allocZeroed, if_pos (by omega)]
          simp only
          have hdrop : data.drop (pre.length + (20 + 8 * cap)) = (x :: r1).flatten ++ d' := by
            rw [hd, ← List.drop_drop, List.drop_left, ← ht', List.drop_left]
          rw [hdrop, if_pos (by simp), List.take_left, Out.map_ok, List.length_append, List.length_append, ht']
          congr 4
          omega
        · rw [hxs]; simp
        · exact ⟨pre ++ (t ++ (x :: r1).flatten), d', todo, r1, by rw [hd]; simp only [List.append_assoc], hbd', rfl, rfl, rfl, fun y hy => hg y (by simp [hy])⟩

theorem view_awaits {cap : Nat} {gs : List (List Bytes)} {s : Storage} (v : View cap gs s) : Awaits cap (fileOf cap gs) (Iter.new s) gs.flatten :=
  ⟨[], _, gs, [], rfl, by have := Bodies.file v.groups.group []; rwa [List.append_nil] at this, by simp [Iter.new, v.inner], by simp [Iter.new], rfl,
    fun g hg => ⟨v.groups.group g hg, v.groups.ne g hg⟩⟩

theorem yields_awaits {cap : Nat} {data : Bytes} (hl : data.length < 2 ^ 63) : ∀ (xs : List Bytes) (os : List (Out (Packet O' Q'))) {it : Iter}, Awaits cap data it xs → (∀ x ∈ xs, x ≠ []) →
    Each (fun x o => ∀ s, (Packet.read Q').run (x ++ s) = (o, s)) xs os →
    Yields (fun it r => Iter.next (O := O') (Q := Q') data it = r) it os
  | [], os, it, h, hne, he => by
    obtain rfl : os = [] := he
    rcases h.refill hl (by simp) with ⟨_, e⟩ | ⟨_, _, _, _, _, _, e, _⟩
    · refine Yields.done (s' := ⟨it.spans.next.2, it.buffer⟩) ?_
      unfold Iter.next
      rw [e]
    · cases e
  | x :: xs, [], it, h, hne, he => he.elim
  | x :: xs, o :: os, it, h, hne, he => by
    rcases h.refill hl hne with ⟨e, _⟩ | ⟨it1, y, cur, rest, e, hb, hps, hB⟩
    · cases e
    · injection hps with h1 h2
      subst h1 h2
      refine Yields.step (s' := { it1 with buffer := cur.flatten }) ?_ (yields_awaits hl (cur ++ rest) os hB (fun x hx => hne x (by simp [hx])) he.2)
      unfold Iter.next
      rw [e]
      simp only
      rw [hb, he.1]

theorem yields_filtered_awaits {cap : Nat} {data : Bytes} (hl : data.length < 2 ^ 63) (rules : Rules O'.BR (Packet O' Q')) : ∀ (xs : List Bytes) (fs : List (Option (Out (Packet O' Q')))) {it : Iter},
    Awaits cap data it xs → (∀ x ∈ xs, x ≠ []) → Each (fun x f => Reports rules x f) xs fs →
    Yields (fun it r => ∃ fuel, Iter.nextFiltered rules data fuel it = some r) it (fs.filterMap id)
  | [], fs, it, h, hne, he => by
    obtain rfl : fs = [] := he
    rcases h.refill hl (by simp) with ⟨_, e⟩ | ⟨_, _, _, _, _, _, e, _⟩
    · refine Yields.done (s' := ⟨it.spans.next.2, it.buffer⟩) ⟨1, ?_⟩
      simp only [Iter.nextFiltered]
      rw [e]
    · cases e
  | x :: xs, [], it, h, hne, he => he.elim
  | x :: xs, f :: fs, it, h, hne, he => by
    rcases h.refill hl hne with ⟨e, _⟩ | ⟨it1, y, cur, rest, e, hb, hps, hB⟩
    · cases e
    · injection hps with h1 h2
      subst h1 h2
      have ih := yields_filtered_awaits hl rules (cur ++ rest) fs hB (fun x hx => hne x (by simp [hx])) he.2
      obtain ⟨k, hk⟩ := he.1 cur.flatten
      rcases f with _ | r
      · rw [List.filterMap_cons_none rfl]
        have step : ∀ {x}, (∃ fuel, Iter.nextFiltered rules data fuel { it1 with buffer := cur.flatten } = some x) → ∃ fuel, Iter.nextFiltered rules data fuel it = some x := by
          rintro x ⟨fuel, hx⟩
          refine ⟨fuel + 1, ?_⟩
          rw [Iter.nextFiltered.eq_def]
          simp only
          rw [e]
          simp only
          rw [hb, hk]
          exact hx
        revert ih
        generalize fs.filterMap id = z
        intro ih
        cases ih with
        | done h => exact Yields.done (step h)
        | step h t => exact Yields.step (step h) t
      · refine Yields.step (l := fs.filterMap id) (s' := { it1 with buffer := cur.flatten }) ⟨1, ?_⟩ ih
        rw [Iter.nextFiltered.eq_def]
        simp only
        rw [e]
        simp only
        rw [hb, hk]
        rcases r with p | e | _ <;> rfl

end

theorem each_map {α : Type u} {β : Type v} {γ : Type w} {R : β → γ → Prop} {f : α → β} : ∀ {l : List α} {os : List γ}, Each (fun a o => R (f a) o) l os → Each R (l.map f) os
  | [], _, h => h
  | _ :: _, [], h => h.elim
  | _ :: _, _ :: _, h => ⟨h.1, each_map h.2⟩

/-! ## The property -/

theorem sessions_inv {cap : Nat} (hc : 0 < cap) (chk : Bool) : ∀ (ss : List Session) {gs : List (List Bytes)}, Groups cap gs → (∀ e ∈ journal ss, Declared e.packet) →
    Fits cap (gs.flatten ++ (journal ss).map Entry.bytes) →
    ∃ gs', runSessions cap chk ss (fileOf cap gs) = some (fileOf cap gs') ∧ Groups cap gs' ∧ gs'.flatten = gs.flatten ++ (journal ss).map Entry.bytes
  | [], gs, hg, _, _ => ⟨gs, rfl, hg, by simp [journal]⟩
  | s :: ss, gs, hg, hd, hs => by
    have hj : (journal (s :: ss)).map Entry.bytes = s.packets.map wire ++ (journal ss).map Entry.bytes := by
      simp only [journal, Session.entries, List.map_append, List.map_map]
      rfl
    rw [hj, ← List.append_assoc] at hs
    obtain ⟨w, e1, i1⟩ := open_writer hg (fits_file hc hg hs.left.left) chk
    by_cases h0 : s.packets = []
    · rw [h0, List.map_nil, List.append_nil] at hs
      obtain ⟨gs', e2, g2, f2⟩ := sessions_inv hc chk ss hg (fun e he => hd e (by simp [journal, he])) hs
      refine ⟨gs', ?_, g2, by rw [f2, hj, h0]; rfl⟩
      unfold runSessions
      rw [e1, h0]
      simp only [List.map_nil, runOps]
      rw [i1.data]
      exact e2
    · obtain ⟨p, hp⟩ := List.exists_mem_of_ne_nil _ h0
      have hdp : ∀ p ∈ s.packets, Declared p := fun p hp => hd ⟨s.ws, s.us, p⟩ (by simp [journal, Session.entries, hp])
      obtain ⟨w', gs1, e2, i2, f2⟩ := inserts_bytes (S := (hdp p hp).spec) hc chk s.packets i1 (fun p hp => (hdp p hp).ok) hs.left
      obtain ⟨gs', e3, g3, f3⟩ := sessions_inv hc chk ss i2.groups (fun e he => hd e (by simp [journal, he])) (by rw [f2]; exact hs)
      refine ⟨gs', ?_, g3, by rw [f3, f2, hj]; simp⟩
      unfold runSessions
      rw [e1]
      simp only
      rw [e2]
      simp only
      rw [i2.data]
      exact e3

variable {vs : List BlockTy} {ps : List PayloadTy}

/-- What a program with the types `vs` and `ps` makes of a file that holds the packets `es`: it can open it and counts them all, and there is one result for each of them.
`nth` gives them at every index, `iter()` and `range` in order, and the filtered readers those that the rules let through. -/
def Reads (pr : Receiver vs ps) (cap : Nat) (chk : Bool) (es : List Entry) (rules : Rules (blockEnum vs).BR (Packet (blockEnum vs) (PEnum.ops ps))) (data : Bytes) : Prop :=
  ∃ s, openReader chk data = some (.ok s) ∧ s.count cap = es.length ∧
      (∃ os, Each (fun e o => Heard vs ps e.packet o) es os ∧ (∀ i, s.nth cap chk data i = answer os[i]?) ∧ IterYields s data os ∧
        ∀ start len, Yields (fun r x => Range.next cap chk s data r = x) ⟨start, len⟩ ((os.drop start).take len)) ∧
      ∃ fs, Each (fun e f => Sifted pr rules e.packet f) es fs ∧
        Yields (fun it r => ∃ fuel, Iter.nextFiltered rules data fuel it = some r) (Iter.new s) (fs.filterMap id) ∧
        ∀ start len, Yields (fun r x => ∃ fuel, Range.nextFiltered cap rules s data fuel r = some x) ⟨start, len⟩ (sift len (fs.drop start))

theorem file_read (pr : Receiver vs ps) {cap : Nat} (hc : 0 < cap) (chk : Bool) {es : List Entry} (hd : ∀ e ∈ es, Declared e.packet) (hn : ∀ e ∈ es, e.packet.blocks.length ≤ 256)
    (hk : ∀ e ∈ es, Knows vs ps e.packet ∨ Strange vs e.packet ∨ Foreign vs ps e.packet) {gs : List (List Bytes)} (hg : Groups cap gs) (f : gs.flatten = es.map Entry.bytes)
    (hl : (fileOf cap gs).length < 2 ^ 63) (rules : Rules (blockEnum vs).BR (Packet (blockEnum vs) (PEnum.ops ps))) : Reads pr cap chk es rules (fileOf cap gs) := by
  obtain ⟨s, e2, v⟩ := open_reader hc hg hl chk
  obtain ⟨os, fs, h1, h2, h3⟩ := outcomes es fun p hp => outcome pr rules (hd p hp) (hn p hp) (hk p hp)
  have hne : ∀ x ∈ gs.flatten, x ≠ [] := by
    intro x hx
    rw [f, List.mem_map] at hx
    obtain ⟨q, hq, rfl⟩ := hx
    exact wire_ne (hd q hq).ok
  have hr1 : Each (fun x o => ∀ s, (Packet.read (O := blockEnum vs) (PEnum.ops ps)).run (x ++ s) = (o, s)) gs.flatten os := by
    rw [f]
    refine each_map (each_of es os h1 fun j p hp => ?_)
    obtain ⟨o, _, a, _, b, _, _⟩ := h3 j p hp
    exact ⟨o, a, b.read⟩
  have hr2 : Each (fun x f => Reports rules x f) gs.flatten fs := by
    rw [f]
    refine each_map (each_of es fs h2 fun j p hp => ?_)
    obtain ⟨_, o, _, a, b, _, _⟩ := h3 j p hp
    exact ⟨o, a, b.filtered⟩
  have hnth : ∀ j, s.nth cap chk (fileOf cap gs) j = answer os[j]? := by
    intro j
    unfold Storage.nth
    cases hj : es[j]? with
    | none =>
      rw [offsetOf_none hc v.groups v.inner (by rw [f, List.getElem?_map, hj]; rfl)]
      rw [List.getElem?_eq_none (by rw [h1]; exact List.getElem?_eq_none_iff.mp hj)]
      rfl
    | some p =>
      obtain ⟨o, _, ho, _, b, _, _⟩ := h3 j p hj
      obtain ⟨a, t, e, hf, _⟩ := offsetOf_some hc v.groups v.inner (n := j) (x := p.bytes) (by rw [f, List.getElem?_map, hj]; rfl)
      rw [e]
      simp only
      rw [b.tryRead _ t (by simp only; rw [hf]; simp) (by rw [hf]; simp [Cur.rest]; rfl), ho]
      rcases o with p | e | _ <;> rfl
  have hnf : ∀ j, Answers (s.nthFiltered cap rules (fileOf cap gs) j) fs[j]? := by
    intro j
    unfold Storage.nthFiltered
    cases hj : es[j]? with
    | none =>
      rw [offsetOf_none hc v.groups v.inner (by rw [f, List.getElem?_map, hj]; rfl)]
      rw [List.getElem?_eq_none (by rw [h2]; exact List.getElem?_eq_none_iff.mp hj)]
      rfl
    | some p =>
      obtain ⟨_, o, _, ho, b, _, _⟩ := h3 j p hj
      obtain ⟨a, t, e, hf, _⟩ := offsetOf_some hc v.groups v.inner (n := j) (x := p.bytes) (by rw [f, List.getElem?_map, hj]; rfl)
      obtain ⟨k, hk⟩ := b.filtered t
      rw [e]
      simp only
      rw [hf, List.drop_left, show p.bytes = wire p.packet from rfl, hk, ho]
      rcases o with _ | p | e | _
      · exact ⟨k, rfl⟩
      · exact ⟨k, rfl⟩
      · rfl
      · rfl
  refine ⟨s, e2, by rw [v.count, f, List.length_map], ⟨os, ?_, hnth, yields_awaits hl _ os (view_awaits v) hne hr1, fun start len => range_as hnth len start⟩,
    fs, ?_, yields_filtered_awaits hl rules _ fs (view_awaits v) hne hr2, fun start len => range_filtered_as hnf _ start len (Nat.le_refl _)⟩
  · refine each_of _ _ h1 fun j p hp => ?_
    obtain ⟨o, _, a, _, _, b, _⟩ := h3 j p hp
    exact ⟨o, a, b⟩
  · refine each_of _ _ h2 fun j p hp => ?_
    obtain ⟨_, o, _, a, _, _, b⟩ := h3 j p hp
    exact ⟨o, a, b⟩

/-- **C80.** Programs with whatever types have appended to one file, in any order. Every program could open the file and insert all its packets. A program with the
types `vs` and `ps` opens the file and counts all packets. There is one result for each of them: the same packet if the reading program has its types,
`SignatureDismatch` if it does not. `nth` gives them at every index, `iter()` and `range` in order, and the filtered readers those that the rules let through. -/
theorem C80_shared (pr : Receiver vs ps) {cap : Nat} (hc : 0 < cap) (chk : Bool) (ss : List Session)
    (hd : ∀ e ∈ journal ss, Declared e.packet) (hn : ∀ e ∈ journal ss, e.packet.blocks.length ≤ 256)
    (hk : ∀ e ∈ journal ss, Knows vs ps e.packet ∨ Strange vs e.packet ∨ Foreign vs ps e.packet) (hs : Fits cap ((journal ss).map Entry.bytes))
    (rules : Rules (blockEnum vs).BR (Packet (blockEnum vs) (PEnum.ops ps))) :
    ∃ data s, runSessions cap chk ss [] = some data ∧ openReader chk data = some (.ok s) ∧ s.count cap = (journal ss).length ∧
      (∃ os, Each (fun e o => Heard vs ps e.packet o) (journal ss) os ∧ (∀ i, s.nth cap chk data i = answer os[i]?) ∧ IterYields s data os ∧
        ∀ start len, Yields (fun r x => Range.next cap chk s data r = x) ⟨start, len⟩ ((os.drop start).take len)) ∧
      ∃ fs, Each (fun e f => Sifted pr rules e.packet f) (journal ss) fs ∧
        Yields (fun it r => ∃ fuel, Iter.nextFiltered rules data fuel it = some r) (Iter.new s) (fs.filterMap id) ∧
        ∀ start len, Yields (fun r x => ∃ fuel, Range.nextFiltered cap rules s data fuel r = some x) ⟨start, len⟩ (sift len (fs.drop start)) := by
  obtain ⟨gs, e, hg, f⟩ := sessions_inv hc chk ss (Groups.nil cap) hd (by simpa using hs)
  rw [List.flatten_nil, List.nil_append] at f
  obtain ⟨s, h⟩ := file_read pr hc chk hd hn hk hg f (fits_file hc hg (by rw [f]; exact hs)) rules
  exact ⟨_, s, e, h⟩

/-- A packet of the older program. -/
def oldPacket : Packet (blockEnum [sampleBlock]) (PEnum.ops []) := ⟨[⟨sampleBlock, sampleVals⟩], none⟩

theorem oldPacket_declared : Declared oldPacket where
  distinct := older.distinct
  wf := older.wf
  blocks := by
    intro b hb
    rw [List.mem_singleton.mp hb]
    simp
  payload := by intro v hv; cases hv
  size := smallHeader_spec (by decide +kernel)

theorem oldPacket_knows : Knows [sampleBlock] [] oldPacket where
  blocks := by
    intro b hb
    rw [List.mem_singleton.mp hb]
    simp
  payload := by intro v hv; cases hv

/-- The newer program, then the older one, then the newer one again. -/
def turns : List Session := [⟨sampleTypes, [flagTy], [newBlock, newPayload]⟩, ⟨[sampleBlock], [], [oldPacket]⟩, ⟨sampleTypes, [flagTy], [newKnown]⟩]

theorem turns_fit : Fits SLOT_CAPACITY ((journal turns).map Entry.bytes) := by
  have h : (((journal turns).map Entry.bytes).map List.length).sum ≤ 1000 := by decide +kernel
  unfold Fits
  have h2 : (((journal turns).map Entry.bytes).length / SLOT_CAPACITY + 1) * (20 + 8 * SLOT_CAPACITY) ≤ 100000 := by decide
  omega

/-- Non-vacuity: both programs write, the older one reads. It finds its own packet between those of the newer program, two of which it cannot read. -/
example : ∃ (data : Bytes) (s : Storage) (p q : Packet (blockEnum [sampleBlock]) (PEnum.ops [])), runSessions SLOT_CAPACITY true turns [] = some data ∧
    openReader true data = some (.ok s) ∧ s.count SLOT_CAPACITY = 4 ∧ Same oldPacket p ∧ Same newKnown q ∧
    IterYields s data [.err .sigDismatch, .err .sigDismatch, .ok p, .ok q] := by
  obtain ⟨w, s, e1, e2, e3, ⟨os, he, _, hi, _⟩, _⟩ := C80_shared (vs := [sampleBlock]) (ps := []) older (by decide : 0 < SLOT_CAPACITY) true turns
    (by
      intro e he
      simp only [turns, journal, Session.entries, List.map_cons, List.map_nil, List.cons_append, List.nil_append, List.mem_cons, List.not_mem_nil, or_false] at he
      rcases he with rfl | rfl | rfl | rfl
      · exact newBlock_declared
      · exact newPayload_declared
      · exact oldPacket_declared
      · exact newKnown_declared)
    (by
      intro e he
      simp only [turns, journal, Session.entries, List.map_cons, List.map_nil, List.cons_append, List.nil_append, List.mem_cons, List.not_mem_nil, or_false] at he
      rcases he with rfl | rfl | rfl | rfl <;> decide)
    (by
      intro e he
      simp only [turns, journal, Session.entries, List.map_cons, List.map_nil, List.cons_append, List.nil_append, List.mem_cons, List.not_mem_nil, or_false] at he
      rcases he with rfl | rfl | rfl | rfl
      · exact .inr (.inl newBlock_strange)
      · exact .inr (.inr newPayload_foreign)
      · exact .inl oldPacket_knows
      · exact .inl newKnown_knows)
    turns_fit []
  match os, he with
  | [a, b, c, d], ⟨ha, hb, hc, hd, _⟩ =>
    obtain ⟨p, sm, rfl⟩ := hc.known oldPacket_knows
    obtain ⟨q, sm', rfl⟩ := hd.known newKnown_knows
    obtain rfl := ha.strange (.inl newBlock_strange)
    obtain rfl := hb.strange (.inr newPayload_foreign)
    exact ⟨w, s, p, q, e1, e2, e3, sm, sm', hi⟩

end Brec.Props
