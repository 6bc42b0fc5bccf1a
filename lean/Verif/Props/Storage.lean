import Verif.StorageRead
/-!
# Storage: C29, C30, C31, C32

The slot capacity is a variable `cap > 0`; the crate uses 500 (`SLOT_CAPACITY`).
-/

namespace Brec.Props

open Rd

variable {O : BlockOps} {Q : PayloadOps} {S : BlockSpec O}

/-- Opening a file. Every slot takes at least 20 bytes, so more iterations than bytes are never needed. -/
def openWriter (chk : Bool) (data : Bytes) : Option (Out Writer) := Writer.open_ chk (data.length + 1) data

def openReader (chk : Bool) (data : Bytes) : Option (Out Storage) := Storage.open_ chk (data.length + 1) data

/-- What a program does with a writer. -/
inductive Op (O : BlockOps) (Q : PayloadOps) where
  | insert (p : Packet O Q)
  | reopen

/-- Runs the operations; `none` if one of them fails. -/
def runOps (cap : Nat) (chk : Bool) : List (Op O Q) → Writer → Option Writer
  | [], w => some w
  | .insert p :: ops, w =>
    match w.insert cap p none with
    | (.ok (), w') => runOps cap chk ops w'
    | _ => none
  | .reopen :: ops, w =>
    match openWriter chk w.data with
    | some (.ok w') => runOps cap chk ops w'
    | _ => none

/-- The packets inserted, in order. -/
def log : List (Op O Q) → List (Packet O Q)
  | [] => []
  | .insert p :: ops => p :: log ops
  | .reopen :: ops => log ops

/-- A writer on an empty file. -/
def emptyWriter : Writer := ⟨[], [], {}⟩

theorem openWriter_empty (chk : Bool) : openWriter chk [] = some (.ok emptyWriter) := by
  have := loadLoop_end chk [] [] 0
  unfold openWriter Writer.open_
  rw [show loadLoop chk [] (([] : Bytes).length + 1) 0 [] = some (.ok []) from this]
  rfl

/-- The packets, with their slot tables, stay below 2^63 bytes. -/
def Small (cap : Nat) (ps : List (Packet O Q)) : Prop :=
  (ps.map fun p => (wire p).length).sum + (ps.length / cap + 1) * (20 + 8 * cap) < 2 ^ 63

/-! ## The file of a history -/

theorem length_fileOf {cap : Nat} : ∀ {gs : List (List Bytes)}, (∀ g ∈ gs, Group cap g) →
    (fileOf cap gs).length = gs.flatten.flatten.length + gs.length * (20 + 8 * cap)
  | [], _ => by simp
  | g :: gs, h => by
    rw [fileOf_cons, List.length_append, region_length (h g (by simp)).le, length_fileOf fun x hx => h x (by simp [hx])]
    simp only [List.flatten_cons, List.flatten_append, List.length_append, List.length_cons, Nat.add_mul]
    omega

theorem groups_length {cap : Nat} (hc : 0 < cap) {gs : List (List Bytes)} (h : Groups cap gs) : gs.length ≤ gs.flatten.length / cap + 1 := by
  rcases List.eq_nil_or_concat gs with rfl | ⟨init, g, rfl⟩
  · simp
  · rw [List.concat_eq_append] at *
    rw [List.flatten_append, List.length_append (as := init.flatten), length_flatten_full h.split.1]
    simp only [List.length_append, List.length_cons, List.length_nil]
    have : init.length ≤ (init.length * cap + [g].flatten.length) / cap := by
      rw [Nat.le_div_iff_mul_le hc]
      omega
    omega

theorem small_file {cap : Nat} (hc : 0 < cap) {gs : List (List Bytes)} (h : Groups cap gs) {ps : List (Packet O Q)} (hp : gs.flatten = ps.map wire)
    (hs : Small cap ps) : (fileOf cap gs).length < 2 ^ 63 := by
  have h1 := groups_length hc h
  rw [length_fileOf h.group, hp, List.length_flatten, List.map_map]
  rw [hp, List.length_map] at h1
  unfold Small at hs
  have := Nat.mul_le_mul_right (20 + 8 * cap) h1
  have e : (ps.map fun p => (wire p).length) = ps.map (List.length ∘ wire) := rfl
  rw [e] at hs
  omega

theorem Small.left {cap : Nat} {a b : List (Packet O Q)} (h : Small cap (a ++ b)) : Small cap a := by
  unfold Small at *
  have h1 : a.length / cap ≤ (a ++ b).length / cap := Nat.div_le_div_right (by simp)
  have h2 := Nat.mul_le_mul_right (20 + 8 * cap) (Nat.add_le_add_right h1 1)
  rw [List.map_append, List.sum_append_nat] at h
  omega

theorem groups_le {cap : Nat} {gs : List (List Bytes)} (h : ∀ g ∈ gs, Group cap g) : gs.length ≤ (fileOf cap gs).length := by
  rw [length_fileOf h]
  have := Nat.mul_le_mul_left gs.length (show 1 ≤ 20 + 8 * cap by omega)
  omega

/-- One insert. -/
theorem insert_inv {cap : Nat} (hc : 0 < cap) {gs : List (List Bytes)} {w : Writer} (h : Inv cap gs w) {ps : List (Packet O Q)}
    (hp : gs.flatten = ps.map wire) {p : Packet O Q} (hok : p.Ok S) (hs : Small cap (ps ++ [p])) :
    ∃ w' gs', w.insert cap p none = (.ok (), w') ∧ Inv cap gs' w' ∧ gs'.flatten = (ps ++ [p]).map wire := by
  obtain ⟨init, g, w1, hgs, hpl, hr, _⟩ := h.place hc
  have hgr : Groups cap (init ++ [g ++ [wire p]]) := Groups.mk' hr.full hc (hr.group.concat hr.lt (wire_ne hok)) (by simp)
  have hfl : (init ++ [g ++ [wire p]]).flatten = (ps ++ [p]).map wire := by
    rw [List.map_append, ← hp, hgs, opt]
    by_cases hg : g = []
    · subst hg; simp
    · simp [hg]
  refine ⟨_, init ++ [g ++ [wire p]], hr.insert hpl (serialize_wire hok) (small_file hc hgr hfl hs) none, ?_, hfl⟩
  exact hr.next_inv hc (wire_ne hok) rfl rfl rfl

theorem open_writer {cap : Nat} {gs : List (List Bytes)} (hg : Groups cap gs) (hl : (fileOf cap gs).length < 2 ^ 63) (chk : Bool) :
    ∃ w, openWriter chk (fileOf cap gs) = some (.ok w) ∧ Inv cap gs w :=
  open_inv chk hg hl (Nat.lt_succ_of_le (groups_le hg.group))

theorem open_reader {cap : Nat} (hc : 0 < cap) {gs : List (List Bytes)} (hg : Groups cap gs) (hl : (fileOf cap gs).length < 2 ^ 63) (chk : Bool) :
    ∃ s, openReader chk (fileOf cap gs) = some (.ok s) ∧ View cap gs s :=
  open_view hc chk hg hl (Nat.lt_succ_of_le (groups_le hg.group))

/-- A whole history. -/
theorem runOps_inv {cap : Nat} (hc : 0 < cap) (chk : Bool) : ∀ (ops : List (Op O Q)) {gs : List (List Bytes)} {w : Writer} {ps : List (Packet O Q)},
    Inv cap gs w → gs.flatten = ps.map wire → (∀ p ∈ log ops, p.Ok S) → Small cap (ps ++ log ops) →
    ∃ w' gs', runOps cap chk ops w = some w' ∧ Inv cap gs' w' ∧ gs'.flatten = (ps ++ log ops).map wire
  | [], gs, w, ps, h, hp, _, _ => ⟨w, gs, rfl, h, by simp [log, hp]⟩
  | .insert p :: ops, gs, w, ps, h, hp, hok, hs => by
    obtain ⟨w1, gs1, e1, i1, f1⟩ := insert_inv hc h hp (hok p (by simp [log])) (by
      rw [log, ← List.singleton_append, ← List.append_assoc] at hs
      exact hs.left)
    obtain ⟨w', gs', e2, i2, f2⟩ := runOps_inv hc chk ops i1 f1 (fun x hx => hok x (by simp [log, hx])) (by
      rw [log, ← List.singleton_append, ← List.append_assoc] at hs
      exact hs)
    refine ⟨w', gs', ?_, i2, by rw [f2, log]; simp⟩
    unfold runOps
    rw [e1]
    exact e2
  | .reopen :: ops, gs, w, ps, h, hp, hok, hs => by
    obtain ⟨w1, e1, i1⟩ := open_writer h.groups (small_file hc h.groups hp hs.left) chk
    obtain ⟨w', gs', e2, i2, f2⟩ := runOps_inv hc chk ops i1 hp hok hs
    refine ⟨w', gs', ?_, i2, f2⟩
    unfold runOps
    rw [h.data, e1]
    exact e2

theorem empty_inv (cap : Nat) : Inv cap [] emptyWriter :=
  ⟨Groups.nil cap, rfl, .inr ⟨by simp [AllFull], .inl rfl, rfl⟩⟩

/-- What the reader shows of a file. -/
theorem view_log {cap : Nat} (hc : 0 < cap) (chk : Bool) {gs : List (List Bytes)} {s : Storage} (v : View cap gs s) {ps : List (Packet O Q)}
    (hp : gs.flatten = ps.map wire) (hok : ∀ p ∈ ps, Storable S p) (n : Nat) :
    s.nth cap chk (fileOf cap gs) n = .ok ps[n]? := by
  unfold Storage.nth
  cases hn : ps[n]? with
  | none =>
    rw [offsetOf_none hc v.groups v.inner (by rw [hp, List.getElem?_map, hn]; rfl)]
  | some p =>
    obtain ⟨a, t, e, hf, _⟩ := offsetOf_some hc v.groups v.inner (n := n) (x := wire p) (by rw [hp, List.getElem?_map, hn]; rfl)
    rw [e]
    simp only
    rw [tryRead_wire (hok p (List.mem_of_getElem? hn)) (t := t) (by rw [hf]; simp) (by rw [hf]; simp)]

theorem view_before {cap : Nat} {gs : List (List Bytes)} {s : Storage} (v : View cap gs s) {ps : List (Packet O Q)}
    (hp : gs.flatten = ps.map wire) : Before cap (fileOf cap gs) (Iter.new s) ps :=
  ⟨[], _, gs, [], ps, rfl, by have := Bodies.file v.groups.group []; rwa [List.append_nil] at this, by simp [Iter.new, v.inner], by simp [Iter.new], hp, rfl, fun g hg => ⟨v.groups.group g hg, v.groups.ne g hg⟩⟩

/-! ## C29, C30 -/

/-- `iter()` on the storage yields exactly these results, then ends. -/
def IterYields (s : Storage) (data : Bytes) (l : List (Out (Packet O Q))) : Prop :=
  Yields (fun it r => Iter.next data it = r) (Iter.new s) l

/-- **C29, C30.** After any history of inserts and reopens, starting with an empty file, every operation succeeds and a reader of the file
sees the log: `count()` is the number of inserts, `nth(i)` is the `i`-th inserted packet and `None` from `count()` on, and `iter()`
yields all packets in order. -/
theorem C30_reopen {cap : Nat} (hc : 0 < cap) (chk : Bool) (ops : List (Op O Q)) (hok : ∀ p ∈ log ops, Storable S p) (hs : Small cap (log ops)) :
    ∃ w s, runOps cap chk ops emptyWriter = some w ∧ openReader chk w.data = some (.ok s) ∧
      s.count cap = (log ops).length ∧
      (∀ i, s.nth cap chk w.data i = .ok (log ops)[i]?) ∧
      IterYields s w.data ((log ops).map .ok) := by
  obtain ⟨w, gs, e, i, f⟩ := runOps_inv (S := S) hc chk ops (ps := []) (empty_inv cap) rfl (fun p hp => (hok p hp).ok) hs
  rw [List.nil_append] at f
  have hl := small_file hc i.groups f hs
  obtain ⟨s, e2, v⟩ := open_reader hc i.groups hl chk
  refine ⟨w, s, e, by rw [i.data, e2], by rw [v.count, f, List.length_map], fun n => by rw [i.data]; exact view_log hc chk v f hok n, ?_⟩
  rw [i.data]
  exact Before.yields hl (log ops) (view_before v f) hok

theorem log_inserts (ps : List (Packet O Q)) : log (ps.map Op.insert) = ps := by
  induction ps with
  | nil => rfl
  | cons p ps ih => simp [log, ih]

/-- **C29.** The storage is an append-only indexed log (C30 without reopens). -/
theorem C29_log {cap : Nat} (hc : 0 < cap) (chk : Bool) (ps : List (Packet O Q)) (hok : ∀ p ∈ ps, Storable S p) (hs : Small cap ps) :
    ∃ w s, runOps cap chk (ps.map Op.insert) emptyWriter = some w ∧ openReader chk w.data = some (.ok s) ∧
      s.count cap = ps.length ∧ (∀ i, s.nth cap chk w.data i = .ok ps[i]?) ∧ IterYields s w.data (ps.map .ok) := by
  have := C30_reopen (S := S) hc chk (ps.map Op.insert) (by rw [log_inserts]; exact hok) (by rw [log_inserts]; exact hs)
  rw [log_inserts] at this
  exact this

/-- The groups of a log are unique. -/
theorem groups_unique {cap : Nat} (hc : 0 < cap) : ∀ {a b : List (List Bytes)}, Groups cap a → Groups cap b → a.flatten = b.flatten → a = b
  | [], [], _, _, _ => rfl
  | [], g :: b, _, hb, h => by
    have := hb.ne g (by simp)
    simp only [List.flatten_nil, List.flatten_cons] at h
    exact absurd (List.append_eq_nil_iff.mp h.symm).1 this
  | g :: a, [], ha, _, h => by
    have := ha.ne g (by simp)
    simp only [List.flatten_nil, List.flatten_cons] at h
    exact absurd (List.append_eq_nil_iff.mp h).1 this
  | g :: a, g' :: b, ha, hb, h => by
    have hga := (ha.group g (by simp)).le
    have hgb := (hb.group g' (by simp)).le
    simp only [List.flatten_cons] at h
    have hlen : g.length = g'.length := by
      by_cases h1 : a = []
      · subst h1
        by_cases h2 : b = []
        · subst h2
          simpa using congrArg List.length h
        · have e2 := hb.head_full h2
          obtain ⟨x, l, rfl⟩ := List.exists_cons_of_ne_nil h2
          have h3 := List.length_pos_iff.mpr (hb.ne x (by simp))
          have := congrArg List.length h
          simp only [List.flatten_nil, List.append_nil, List.length_append, List.flatten_cons] at this
          omega
      · have e1 := ha.head_full h1
        by_cases h2 : b = []
        · subst h2
          obtain ⟨x, l, rfl⟩ := List.exists_cons_of_ne_nil h1
          have h3 := List.length_pos_iff.mpr (ha.ne x (by simp))
          have := congrArg List.length h
          simp only [List.flatten_nil, List.append_nil, List.length_append, List.flatten_cons] at this
          omega
        · rw [e1, hb.head_full h2]
    obtain ⟨e1, e2⟩ := List.append_inj h hlen
    rw [e1, groups_unique hc ha.tail hb.tail e2]

/-- **C30.** Reopening leaves no trace: the file is the one that the inserts alone produce. -/
theorem C30_no_trace {cap : Nat} (hc : 0 < cap) (chk : Bool) (ops : List (Op O Q)) (hok : ∀ p ∈ log ops, p.Ok S) (hs : Small cap (log ops)) :
    ∃ w w', runOps cap chk ops emptyWriter = some w ∧ runOps cap chk ((log ops).map Op.insert) emptyWriter = some w' ∧ w.data = w'.data := by
  obtain ⟨w, gs, e, i, f⟩ := runOps_inv (S := S) hc chk ops (ps := []) (empty_inv cap) rfl hok hs
  obtain ⟨w', gs', e', i', f'⟩ := runOps_inv (S := S) hc chk ((log ops).map Op.insert) (ps := []) (empty_inv cap) rfl
    (by rw [log_inserts]; exact hok) (by rw [log_inserts]; exact hs)
  rw [log_inserts] at f'
  refine ⟨w, w', e, e', ?_⟩
  rw [i.data, i'.data, groups_unique hc i.groups i'.groups (by rw [f, f'])]

theorem sample_storable : Storable sampleSpec samplePacket := ⟨samplePacket_ok, by decide⟩

theorem sample_small : Small 500 (List.replicate 501 samplePacket) := by
  have : (wire samplePacket).length = 125 := by decide +kernel
  unfold Small
  rw [List.map_replicate, this, List.sum_replicate_nat, List.length_replicate]
  decide

/-- The hypotheses are met: 501 packets, so two slots of the crate's capacity, with a reopen between. -/
example : ∃ w s, runOps SLOT_CAPACITY true ((List.replicate 500 samplePacket).map Op.insert ++ [.reopen, .insert samplePacket]) emptyWriter = some w ∧
    openReader true w.data = some (.ok s) ∧ s.count SLOT_CAPACITY = 501 ∧
    (s.nth SLOT_CAPACITY true w.data 500 : Out (Option (Packet _ (PEnum.ops [])))) = .ok (some samplePacket) ∧
    (s.nth SLOT_CAPACITY true w.data 501 : Out (Option (Packet (blockEnum sampleTypes) (PEnum.ops [])))) = .ok none := by
  have hlog : log ((List.replicate 500 samplePacket).map Op.insert ++ [.reopen, .insert samplePacket]) = List.replicate 501 samplePacket := by
    have : ∀ (l : List (Packet (blockEnum sampleTypes) (PEnum.ops []))) r, log (l.map Op.insert ++ r) = l ++ log r := by
      intro l r
      induction l with
      | nil => rfl
      | cons a l ih => simp [log, ih]
    rw [this, show log [Op.reopen, .insert samplePacket] = [samplePacket] from rfl, ← List.replicate_succ']
  obtain ⟨w, s, e1, e2, e3, e4, _⟩ := C30_reopen (S := sampleSpec) (cap := SLOT_CAPACITY) (by decide) true
    ((List.replicate 500 samplePacket).map Op.insert ++ [.reopen, .insert samplePacket])
    (by rw [hlog]; intro p hp; rw [(List.mem_replicate.mp hp).2]; exact sample_storable) (by rw [hlog]; exact sample_small)
  rw [hlog] at e3 e4
  refine ⟨w, s, e1, e2, by rw [e3, List.length_replicate], ?_, ?_⟩
  · rw [e4, List.getElem?_replicate]; rfl
  · rw [e4, List.getElem?_replicate]; rfl

/-! ## C31 -/

/-- **C31.** An insert changes one stretch of the length of a slot table — the table of an existing slot or the place behind the end of the file
— and appends the packet; all other bytes stay. Every packet stored before lies outside that stretch and is found unchanged at its place. -/
theorem C31_no_overwrite {cap : Nat} (hc : 0 < cap) (chk : Bool) (ops : List (Op O Q)) (p : Packet O Q)
    (hok : ∀ q ∈ log ops, q.Ok S) (hp : p.Ok S) (hs : Small cap (log ops ++ [p])) :
    ∃ w w' a tbl, runOps cap chk ops emptyWriter = some w ∧ w.insert cap p none = (.ok (), w') ∧
      List.length tbl = 20 + 8 * cap ∧
      (a = w.data.length ∨ (a + tbl.length ≤ w.data.length ∧ ∃ sl, (Slot.read.run (w.data.drop a)).1 = .ok sl)) ∧
      w'.data = w.data.take a ++ tbl ++ w.data.drop (a + tbl.length) ++ wire p ∧
      ∀ (i : Nat) (q : Packet O Q), (log ops)[i]? = some q →
        ∃ off, wire q <+: w.data.drop off ∧ wire q <+: w'.data.drop off ∧ (off + (wire q).length ≤ a ∨ a + tbl.length ≤ off) := by
  obtain ⟨w, gs, e, inv, f⟩ := runOps_inv (S := S) hc chk ops (ps := []) (empty_inv cap) rfl hok hs.left
  rw [List.nil_append] at f
  obtain ⟨init, g, w1, hgs, hpl, hr, hd1⟩ := inv.place hc
  have hfl : (init ++ [g ++ [wire p]]).flatten = (log ops ++ [p]).map wire := by
    rw [List.map_append, ← f, hgs, opt]
    by_cases hg : g = []
    · subst hg; simp
    · simp [hg]
  have hgr : Groups cap (init ++ [g ++ [wire p]]) := Groups.mk' hr.full hc (hr.group.concat hr.lt (wire_ne hp)) (by simp)
  have hlt := hr.lt
  have hen : ∀ l : List Bytes, l.length ≤ cap → (table cap l).enc.length = 20 + 8 * cap := by
    intro l hl
    have := region_length (cap := cap) hl
    rw [region, List.length_append] at this
    omega
  have hen' := hen (g ++ [wire p]) (by simp; omega)
  have hw' := hr.insert hpl (serialize_wire hp) (small_file hc hgr hfl hs) none
  have hdata : w.data = fileOf cap init ++ fileOf cap (opt g) := by rw [inv.data, hgs, fileOf_append]
  have hdl : fileOf cap (opt g) = [] ∧ g = [] ∨ fileOf cap (opt g) = (table cap g).enc ++ g.flatten := by
    by_cases hg : g = []
    · left; simp [opt, hg]
    · right; simp [opt, hg, fileOf_cons, region]
  have hnew : fileOf cap (init ++ [g ++ [wire p]]) = fileOf cap init ++ ((table cap (g ++ [wire p])).enc ++ (g.flatten ++ wire p)) := by
    rw [fileOf_append, fileOf_cons, fileOf_nil, region]
    simp
  refine ⟨w, _, (fileOf cap init).length, (table cap (g ++ [wire p])).enc, e, hw', hen', ?_, ?_, ?_⟩
  · rcases hdl with ⟨h0, _⟩ | h0
    · left; rw [hdata, h0]; simp
    · right
      rw [hdata, h0, hen']
      have := hen g hr.group.le
      refine ⟨by simp only [List.length_append, this]; omega, table cap g, ?_⟩
      rw [List.drop_left]
      by_cases hg : g = []
      · subst hg
        have h2 : (fileOf cap (opt [])) = [] := rfl
        rw [h2] at h0
        have := congrArg List.length h0
        simp only [List.length_append, List.length_nil] at this
        have h3 := hen [] (by simp)
        omega
      · have hwf : (table cap g).WF := table_wf_of_file (gs := gs) (by rw [← inv.data]; rw [inv.data]; exact small_file hc inv.groups f hs.left)
          (by rw [hgs]; simp [opt, hg]) hr.group.le
        rw [Slot.read_enc hwf]
  · show fileOf cap (init ++ [g ++ [wire p]]) = _
    rw [hnew, hdata, List.take_left, hen', ← List.drop_drop, List.drop_left]
    rcases hdl with ⟨h0, hg⟩ | h0
    · rw [h0, hg]; simp
    · rw [h0, ← hen g hr.group.le, List.drop_left]; simp
  · intro i q hq
    obtain ⟨s, _, v⟩ := open_reader hc inv.groups (small_file hc inv.groups f hs.left) chk
    obtain ⟨A, t, _, hA, hAl⟩ := offsetOf_some hc inv.groups v.inner (n := i) (x := wire q) (by rw [f, List.getElem?_map, hq]; rfl)
    have hpre : wire q <+: w.data.drop A.length := by rw [inv.data, hA]; simp
    -- which group
    have hin : (gs[i / cap]?).bind (fun g => g[i % cap]?) = some (wire q) := by rw [← inv.groups.get hc, f, List.getElem?_map, hq]; rfl
    refine ⟨A.length, hpre, ?_⟩
    by_cases hj : i / cap < init.length
    · have hfit : A.length + (wire q).length ≤ (fileOf cap init).length := by
        have h1 : gs[i / cap]? = some (init[i / cap]) := by
          rw [hgs, List.getElem?_append_left hj, List.getElem?_eq_getElem hj]
        have h2 : gs.take (i / cap) = init.take (i / cap) := by
          rw [hgs, List.take_append_of_le_length (by omega)]
        rw [h1] at hin hAl
        simp only [Option.bind_some] at hin
        simp only [Option.getD_some] at hAl
        obtain ⟨hk, hgk⟩ := List.getElem?_eq_some_iff.mp hin
        have h3 : init = init.take (i / cap) ++ (init[i / cap] :: init.drop (i / cap + 1)) := by
          rw [← List.drop_eq_getElem_cons hj, List.take_append_drop]
        have h4 := congrArg (fun l => (fileOf cap l).length) h3
        simp only [fileOf_append, fileOf_cons, List.length_append] at h4
        rw [region_length (hr.full _ (List.getElem_mem hj)).1.le] at h4
        have h5 : (init[i / cap]).flatten.length = ((init[i / cap]).take (i % cap)).flatten.length +
            ((wire q).length + ((init[i / cap]).drop (i % cap + 1)).flatten.length) := by
          conv => lhs; rw [← List.take_append_drop (i % cap) (init[i / cap]), List.drop_eq_getElem_cons hk, hgk]
          simp only [List.flatten_append, List.flatten_cons, List.length_append]
        rw [h2] at hAl
        omega
      refine ⟨?_, .inl hfit⟩
      show wire q <+: (fileOf cap (init ++ [g ++ [wire p]])).drop A.length
      have h6 : (fileOf cap init).drop A.length = wire q ++ ((fileOf cap init).drop A.length).drop (wire q).length := by
        have h7 : (w.data.drop A.length).take (wire q).length = wire q := by rw [inv.data, hA]; simp
        rw [hdata, List.drop_append_of_le_length (by omega), List.take_append_of_le_length (by rw [List.length_drop]; omega)] at h7
        conv => lhs; rw [← List.take_append_drop (wire q).length ((fileOf cap init).drop A.length), h7]
      rw [hnew, List.drop_append_of_le_length (by omega), h6, List.append_assoc]
      exact List.prefix_append _ _
    · have hj' : i / cap = init.length ∧ g ≠ [] := by
        by_cases hg : g = []
        · rw [hgs, hg] at hin
          simp only [opt, if_true, List.append_nil] at hin
          rw [List.getElem?_eq_none (by omega)] at hin
          simp at hin
        · refine ⟨?_, hg⟩
          rw [hgs] at hin
          simp only [opt, hg, if_false] at hin
          by_cases h1 : i / cap = init.length
          · exact h1
          · rw [List.getElem?_eq_none (by simp only [List.length_append, List.length_cons, List.length_nil]; omega)] at hin
            simp at hin
      obtain ⟨hj1, hgne⟩ := hj'
      have h1 : gs[i / cap]? = some g := by rw [hgs, hj1]; simp [opt, hgne]
      have h2 : gs.take (i / cap) = init := by rw [hgs, hj1, List.take_left]
      rw [h1] at hin hAl
      rw [h2] at hAl
      simp only [Option.bind_some] at hin
      simp only [Option.getD_some] at hAl
      obtain ⟨hk, hgk⟩ := List.getElem?_eq_some_iff.mp hin
      have h5 : g.flatten = (g.take (i % cap)).flatten ++ (wire q ++ (g.drop (i % cap + 1)).flatten) := by
        conv => lhs; rw [← List.take_append_drop (i % cap) g, List.drop_eq_getElem_cons hk, hgk]
        simp only [List.flatten_append, List.flatten_cons]
      refine ⟨?_, .inr (by rw [hen']; omega)⟩
      show wire q <+: (fileOf cap (init ++ [g ++ [wire p]])).drop A.length
      rw [hnew, h5]
      have : A.length = (fileOf cap init ++ ((table cap (g ++ [wire p])).enc ++ (g.take (i % cap)).flatten)).length := by
        simp only [List.length_append, hen']; omega
      rw [this, show fileOf cap init ++ ((table cap (g ++ [wire p])).enc ++ ((g.take (i % cap)).flatten ++ (wire q ++ (g.drop (i % cap + 1)).flatten) ++ wire p)) =
        (fileOf cap init ++ ((table cap (g ++ [wire p])).enc ++ (g.take (i % cap)).flatten)) ++ (wire q ++ ((g.drop (i % cap + 1)).flatten ++ wire p)) by
          simp only [List.append_assoc], List.drop_left]
      exact List.prefix_append _ _

example : ∃ w w' a tbl, runOps SLOT_CAPACITY true [.insert samplePacket] emptyWriter = some w ∧ w.insert SLOT_CAPACITY samplePacket none = (.ok (), w') ∧
    List.length tbl = 4020 ∧ w'.data = w.data.take a ++ tbl ++ w.data.drop (a + tbl.length) ++ wire samplePacket := by
  have hw : (wire samplePacket).length = 125 := by decide +kernel
  obtain ⟨w, w', a, tbl, e1, e2, e3, _, e5, _⟩ := C31_no_overwrite (S := sampleSpec) (cap := SLOT_CAPACITY) (by decide) true
    [.insert samplePacket] samplePacket (by simp [log]; exact samplePacket_ok) samplePacket_ok (by simp [Small, log, hw, SLOT_CAPACITY])
  exact ⟨w, w', a, tbl, e1, e2, e3, e5⟩

end Brec.Props
