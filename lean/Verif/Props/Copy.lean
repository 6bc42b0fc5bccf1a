import Verif.Props.StorageIter
/-!
# C94: copying a storage through its own interface
-/

namespace Brec.Props

open Rd

variable {O : BlockOps} {Q : PayloadOps} {S : BlockSpec O}

/-- `for p in … { writer.insert(p?)?; }`: the loop of a program that copies packets from an iterator into a writer, run to its end without an error. `next`: the iterator as in `Yields`. -/
inductive Copies {σ : Type} (cap : Nat) (next : σ → Option (Out (Packet O Q)) × σ → Prop) : σ → Writer → Writer → Prop
  | done {s s' : σ} {w : Writer} : next s (none, s') → Copies cap next s w w
  | step {s s' : σ} {p : Packet O Q} {w w' w'' : Writer} : next s (some (.ok p), s') → w.insert cap p none = (.ok (), w') → Copies cap next s' w' w'' → Copies cap next s w w''

/-- The file that these packets make, inserted one after another into an empty storage. -/
def FileOf (cap : Nat) (chk : Bool) (ps : List (Packet O Q)) (data : Bytes) : Prop :=
  ∃ w, runOps cap chk (ps.map Op.insert) emptyWriter = some w ∧ w.data = data

theorem runOps_append {cap : Nat} {chk : Bool} : ∀ (a b : List (Op O Q)) (w : Writer), runOps cap chk (a ++ b) w = (runOps cap chk a w).bind (runOps cap chk b)
  | [], b, w => rfl
  | .insert p :: a, b, w => by
    rw [List.cons_append, runOps, runOps]
    split
    · exact runOps_append a b _
    · rfl
  | .reopen :: a, b, w => by
    rw [List.cons_append, runOps, runOps]
    split
    · exact runOps_append a b _
    · rfl

theorem log_append : ∀ (a b : List (Op O Q)), log (a ++ b) = log a ++ log b
  | [], b => rfl
  | .insert p :: a, b => by simp [log, log_append a b]
  | .reopen :: a, b => by simp [log, log_append a b]

/-- Whatever the iterator gives is inserted. -/
theorem copies_of {σ : Type} {cap : Nat} {chk : Bool} {next : σ → Option (Out (Packet O Q)) × σ → Prop} : ∀ {ps : List (Packet O Q)} {s : σ}, Yields next s (ps.map .ok) →
    ∀ {w w' : Writer}, runOps cap chk (ps.map Op.insert) w = some w' → Copies cap next s w w'
  | [], s, .done h, w, w', e => by
    cases e
    exact .done h
  | p :: ps, s, .step h t, w, w', e => by
    rw [List.map_cons, runOps] at e
    split at e
    · rename_i w1 hi
      exact .step h hi (copies_of t e)
    · cases e

/-- Packets copied into a storage with any history make the file that inserting everything into one storage makes. -/
theorem copies_file {σ : Type} {cap : Nat} (hc : 0 < cap) {chk : Bool} {next : σ → Option (Out (Packet O Q)) × σ → Prop} {s : σ} {ps : List (Packet O Q)} (h : Yields next s (ps.map .ok))
    {ops : List (Op O Q)} {w : Writer} (hw : runOps cap chk ops emptyWriter = some w) (hok : ∀ p ∈ log ops ++ ps, p.Ok S) (hs : Small cap (log ops ++ ps)) :
    ∃ w', Copies cap next s w w' ∧ FileOf cap chk (log ops ++ ps) w'.data := by
  have hl : log (ops ++ ps.map Op.insert) = log ops ++ ps := by rw [log_append, log_inserts]
  obtain ⟨w1, w2, e1, e2, e⟩ := C30_no_trace (S := S) hc chk (ops ++ ps.map Op.insert) (by rw [hl]; exact hok) (by rw [hl]; exact hs)
  rw [runOps_append, hw] at e1
  rw [hl] at e2
  exact ⟨w1, copies_of h e1, w2, e2, e.symm⟩

theorem Small.sublist {cap : Nat} {a b : List (Packet O Q)} (h : a.Sublist b) (hs : Small cap b) : Small cap a := by
  unfold Small at *
  have h1 : a.length / cap ≤ b.length / cap := Nat.div_le_div_right h.length_le
  have h2 := Nat.mul_le_mul_right (20 + 8 * cap) (Nat.add_le_add_right h1 1)
  have h3 : ∀ {a b : List (Packet O Q)}, a.Sublist b → (a.map fun p => (wire p).length).sum ≤ (b.map fun p => (wire p).length).sum := by
    intro a b h
    induction h with
    | slnil => exact Nat.le_refl _
    | cons x _ ih => simp only [List.map_cons, List.sum_cons]; omega
    | cons_cons x _ ih => simp only [List.map_cons, List.sum_cons]; omega
  have := h3 h
  omega

/-- **C94.** A storage with any history is read through `iter()`, `filtered()`, `range()` or `range_filtered()`, and what comes is inserted into another storage with any history. No call fails, and
the file of the other storage is, byte for byte, the one that the packets it had and those that were read make. -/
theorem C94_copy {cap : Nat} (hc : 0 < cap) {chk : Bool} {ops ops2 : List (Op O Q)} {data : Bytes} {s : Storage} {w : Writer} (h : Reached cap chk ops data s)
    (hw : runOps cap chk ops2 emptyWriter = some w) (hok : ∀ p ∈ log ops, Storable S p) (hok2 : ∀ p ∈ log ops2, p.Ok S) (hs : Small cap (log ops2 ++ log ops)) :
    (∃ w', Copies (O := O) (Q := Q) cap (fun it r => Iter.next data it = r) (Iter.new s) w w' ∧ FileOf cap chk (log ops2 ++ log ops) w'.data) ∧
    (∀ rules, ∃ w', Copies (O := O) (Q := Q) cap (fun it r => ∃ fuel, Iter.nextFiltered rules data fuel it = some r) (Iter.new s) w w' ∧
      FileOf cap chk (log ops2 ++ (log ops).filter (accepted S rules)) w'.data) ∧
    (∀ start len, ∃ w', Copies (O := O) (Q := Q) cap (fun r x => Range.next cap chk s data r = x) ⟨start, len⟩ w w' ∧ FileOf cap chk (log ops2 ++ ((log ops).drop start).take len) w'.data) ∧
    (∀ rules start len, ∃ w', Copies (O := O) (Q := Q) cap (fun r x => ∃ fuel, Range.nextFiltered cap rules s data fuel r = some x) ⟨start, len⟩ w w' ∧
      FileOf cap chk (log ops2 ++ (((log ops).drop start).filter (accepted S rules)).take len) w'.data) := by
  have hs1 : Small cap (log ops) := Small.sublist (List.sublist_append_right _ _) hs
  have sub : ∀ {ps : List (Packet O Q)}, ps.Sublist (log ops) → (∀ p ∈ log ops2 ++ ps, p.Ok S) ∧ Small cap (log ops2 ++ ps) := by
    intro ps h
    refine ⟨fun p hp => ?_, Small.sublist (List.Sublist.append (List.Sublist.refl _) h) hs⟩
    rcases List.mem_append.mp hp with hp | hp
    · exact hok2 p hp
    · exact (hok p (h.subset hp)).ok
  have hok1 : ∀ p ∈ log ops, p.Ok S := fun p hp => (hok p hp).ok
  refine ⟨?_, fun rules => ?_, fun start len => ?_, fun rules start len => ?_⟩
  · have := sub (List.Sublist.refl _)
    obtain ⟨gs, v, hd, f, hl⟩ := h.view hc hok1 hs1
    have y : IterYields s data ((log ops).map .ok) := by
      subst hd
      exact Before.yields hl (log ops) (view_before v f) hok
    exact copies_file hc y hw this.1 this.2
  · have := sub (List.filter_sublist (p := accepted S rules))
    exact copies_file hc (C32_filtered hc h hok1 hs1 rules) hw this.1 this.2
  · have := sub ((List.take_sublist len _).trans (List.drop_sublist start (log ops)))
    exact copies_file hc (C32_range hc h hok hs1 start len) hw this.1 this.2
  · have := sub ((List.take_sublist len _).trans ((List.filter_sublist (p := accepted S rules)).trans (List.drop_sublist start (log ops))))
    exact copies_file hc (C32_range_filtered hc h hok1 hs1 rules start len) hw this.1 this.2

/-- **C94**, an empty target: the copy is the same file. -/
theorem C94_same {cap : Nat} (hc : 0 < cap) {chk : Bool} {ops ops2 : List (Op O Q)} {data : Bytes} {s : Storage} {w : Writer} (h : Reached cap chk ops data s)
    (hw : runOps cap chk ops2 emptyWriter = some w) (h2 : log ops2 = []) (hok : ∀ p ∈ log ops, Storable S p) (hs : Small cap (log ops)) :
    ∃ w', Copies (O := O) (Q := Q) cap (fun it r => Iter.next data it = r) (Iter.new s) w w' ∧ w'.data = data := by
  obtain ⟨⟨w', h1, w2, e2, hd2⟩, _⟩ := C94_copy (S := S) hc h hw hok (by simp [h2]) (by simpa [h2] using hs)
  rw [h2, List.nil_append] at e2
  obtain ⟨w3, w4, e3, e4, e⟩ := C30_no_trace (S := S) hc chk ops (fun p hp => (hok p hp).ok) hs
  obtain ⟨w5, e5, hd⟩ := h.run
  rw [e5] at e3
  cases e3
  rw [e2] at e4
  cases e4
  exact ⟨w', h1, by rw [← hd2, ← e, hd]⟩

/-- The hypotheses are met: two packets with a reopen between, copied into a storage that has one. -/
example : ∃ (data : Bytes) (s : Storage) (w w' : Writer), Reached SLOT_CAPACITY true [Op.insert samplePacket, .reopen, .insert samplePacket] data s ∧
    Copies (O := blockEnum sampleTypes) (Q := PEnum.ops []) SLOT_CAPACITY (fun it r => Iter.next data it = r) (Iter.new s) w w' ∧
    FileOf SLOT_CAPACITY true [samplePacket, samplePacket, samplePacket] w'.data := by
  have h3 : Small SLOT_CAPACITY [samplePacket, samplePacket, samplePacket] := by
    have : (wire samplePacket).length = 125 := by decide +kernel
    simp [Small, this, SLOT_CAPACITY]
  have hok : ∀ ops : List (Op (blockEnum sampleTypes) (PEnum.ops [])), (∀ o ∈ ops, o = .insert samplePacket ∨ o = .reopen) → ∀ p ∈ log ops, Storable sampleSpec p := by
    intro ops
    induction ops with
    | nil => intro _ p hp; cases hp
    | cons o ops ih =>
      intro h p hp
      rcases h o List.mem_cons_self with rfl | rfl
      · rcases List.mem_cons.mp hp with rfl | hp
        · exact sample_storable
        · exact ih (fun o ho => h o (List.mem_cons_of_mem _ ho)) p hp
      · exact ih (fun o ho => h o (List.mem_cons_of_mem _ ho)) p hp
  have ok1 := hok [Op.insert samplePacket, .reopen, .insert samplePacket] (by simp)
  have ok2 := hok [Op.insert samplePacket] (by simp)
  have hs1 : Small SLOT_CAPACITY (log [Op.insert samplePacket, .reopen, .insert samplePacket]) := Small.sublist (by simp [log]) h3
  obtain ⟨data, s, h⟩ := Reached.exists (S := sampleSpec) (cap := SLOT_CAPACITY) (by decide) true [Op.insert samplePacket, .reopen, .insert samplePacket] ok1 hs1
  obtain ⟨w, _, hw, _⟩ := C30_reopen (S := sampleSpec) (cap := SLOT_CAPACITY) (by decide) true [Op.insert samplePacket] ok2 (Small.sublist (by simp [log]) h3)
  obtain ⟨⟨w', h1, h2⟩, _⟩ := C94_copy (S := sampleSpec) (by decide) h hw ok1 (fun p hp => (ok2 p hp).ok) (by simpa [log] using h3)
  exact ⟨data, s, w, w', h, h1, h2⟩

end Brec.Props
