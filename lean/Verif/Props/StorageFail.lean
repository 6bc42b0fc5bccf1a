import Verif.Props.StorageCrash
/-!
# Failed inserts: C36
-/

namespace Brec.Props

open Rd

variable {O : BlockOps} {Q : PayloadOps} {S : BlockSpec O}

/-- **C36, full statement** (false): after an insert of `p` that failed with an I/O error, and a successful insert of `q`, the file shows the packets
inserted before and then `q`, or `p` and `q` if `p` got there. -/
def C36_full (Q : PayloadOps) (S : BlockSpec O) (cap : Nat) (chk : Bool) : Prop :=
  ∀ (ops : List (Op O Q)) (w w1 w2 : Writer) (p q : Packet O Q) (k : Nat), runOps cap chk ops emptyWriter = some w → (∀ r ∈ log ops, Storable S r) →
    Storable S p → Storable S q → Small cap (log ops ++ [p] ++ [q]) → w.insert cap p (some k) = (.err .io, w1) → w1.insert cap q none = (.ok (), w2) →
    ∃ s, openReader chk w2.data = some (.ok s) ∧
      ((∀ i, s.nth cap chk w2.data i = .ok (log ops ++ [q])[i]?) ∨ (∀ i, s.nth cap chk w2.data i = .ok (log ops ++ [p] ++ [q])[i]?))

/-! ## What holds -/

/-- What a reader sees after further operations of a writer in good state. -/
theorem later {cap : Nat} (hc : 0 < cap) {chk : Bool} {gs : List (List Bytes)} {w : Writer} {ps : List (Packet O Q)} (inv : Inv cap gs w)
    (f : gs.flatten = ps.map wire) (ops : List (Op O Q)) (hok : ∀ p ∈ ps ++ log ops, Storable S p) (hs : Small cap (ps ++ log ops)) :
    ∃ w' s, runOps cap chk ops w = some w' ∧ openReader chk w'.data = some (.ok s) ∧ s.count cap = (ps ++ log ops).length ∧
      (∀ i, s.nth cap chk w'.data i = .ok (ps ++ log ops)[i]?) := by
  obtain ⟨w', gs', e, i, f'⟩ := runOps_inv (S := S) hc chk ops inv f (fun p hp => (hok p (by simp [hp])).ok) hs
  obtain ⟨s, e2, v⟩ := open_reader hc i.groups (small_file hc i.groups f' hs) chk
  refine ⟨w', s, e, by rw [i.data, e2], by rw [v.count, f', List.length_map], fun n => ?_⟩
  rw [i.data]
  exact view_log hc chk v f' hok n

/-- **C36, packets that cannot be serialized.** The insert reports the error, the file is untouched, and all later operations work as if it had not
been tried. -/
theorem C36_serialize_partial {cap : Nat} (hc : 0 < cap) {chk : Bool} {ops : List (Op O Q)} {w : Writer} {p : Packet O Q} {e : Err}
    (hw : runOps cap chk ops emptyWriter = some w) (hok : ∀ r ∈ log ops, Storable S r) (hs : Small cap (log ops)) (he : p.serialize = .err e)
    (fault : Option Nat) :
    ∃ w1, w.insert cap p fault = (.err e, w1) ∧ w1.data = w.data ∧
      ∀ ops2 : List (Op O Q), (∀ r ∈ log ops2, Storable S r) → Small cap (log ops ++ log ops2) →
        ∃ w2 s, runOps cap chk ops2 w1 = some w2 ∧ openReader chk w2.data = some (.ok s) ∧ s.count cap = (log ops ++ log ops2).length ∧
          (∀ i, s.nth cap chk w2.data i = .ok (log ops ++ log ops2)[i]?) := by
  obtain ⟨w', gs, e', inv, f⟩ := runOps_inv (S := S) hc chk ops (ps := []) (empty_inv cap) rfl (fun p hp => (hok p hp).ok) hs
  rw [hw] at e'
  injection e' with e'
  subst e'
  rw [List.nil_append] at f
  obtain ⟨init, g, w1, hgs, hpl, hr, hd⟩ := inv.place hc
  refine ⟨w1, ?_, hd, fun ops2 hok2 hs2 => ?_⟩
  · unfold Writer.insert
    rw [hpl]
    simp only
    rw [he]
  · refine later (S := S) hc (hr.inv hc) (by rw [← hgs, f]) ops2 (fun r hr => ?_) hs2
    rcases List.mem_append.mp hr with hr | hr
    · exact hok r hr
    · exact hok2 r hr

/-- **C36, everything written but the final flush failed.** The error is reported, the packet is in the file, and all later operations work. -/
theorem C36_flush_partial {cap : Nat} (hc : 0 < cap) {chk : Bool} {ops : List (Op O Q)} {w : Writer} {p : Packet O Q}
    (hw : runOps cap chk ops emptyWriter = some w) (hok : ∀ r ∈ log ops, Storable S r) (hp : Storable S p) (hs : Small cap (log ops ++ [p]))
    {k : Nat} (hk : 20 + 8 * cap + (wire p).length ≤ k) :
    ∃ w1, w.insert cap p (some k) = (.err .io, w1) ∧
      ∀ ops2 : List (Op O Q), (∀ r ∈ log ops2, Storable S r) → Small cap (log ops ++ [p] ++ log ops2) →
        ∃ w2 s, runOps cap chk ops2 w1 = some w2 ∧ openReader chk w2.data = some (.ok s) ∧ s.count cap = (log ops ++ [p] ++ log ops2).length ∧
          (∀ i, s.nth cap chk w2.data i = .ok (log ops ++ [p] ++ log ops2)[i]?) := by
  obtain ⟨init, g, w1, a⟩ := ahead hc hw (fun q hq => (hok q hq).ok) hp.ok hs
  refine ⟨_, a.ready.insert a.place (serialize_wire hp.ok) a.small (some k), fun ops2 hok2 hs2 => ?_⟩
  have inv := a.ready.next_inv hc (wire_ne hp.ok) (w' := { w1 with
      slots := w1.slots.set w1.loc.next (table cap (g ++ [wire p])),
      data := Writer.torn w1.data w1.loc.slotOffset (table cap (g ++ [wire p])).enc (spot cap init g) (wire p) k }) rfl rfl (by
    show Writer.torn _ _ _ _ _ _ = _
    rw [a.ready.torn_packet (wire p) (by omega), torn_all hk])
  refine later (S := S) hc inv a.flat' ops2 (fun r hr => ?_) hs2
  rcases List.mem_append.mp hr with hr | hr
  · rcases List.mem_append.mp hr with hr | hr
    · exact hok r hr
    · rw [List.mem_singleton.mp hr]; exact hp
  · exact hok2 r hr

/-! ## What goes wrong -/

theorem overwrite_over {f r b : Bytes} (h : r.length ≤ b.length) : overwrite (f ++ r) f.length b = f ++ b := by
  have h1 : f.length - (f ++ r).length = 0 := by simp
  have h2 : (f ++ r).drop (f.length + b.length) = [] := List.drop_eq_nil_of_le (by simp; omega)
  rw [overwrite, h1, h2]
  simp

theorem overwrite_gap (d b : Bytes) (n : Nat) : overwrite d (d.length + n) b = d ++ (List.replicate n 0 ++ b) := by
  have h1 : d.length + n - d.length = n := by omega
  have h2 : d.drop (d.length + n + b.length) = [] := List.drop_eq_nil_of_le (by omega)
  rw [overwrite, h1, h2, List.take_of_length_le (by simp)]
  simp

theorem table_congr {cap : Nat} {a b : List Bytes} (h : a.map List.length = b.map List.length) : table cap a = table cap b := by
  have : a.length = b.length := by simpa using congrArg List.length h
  simp only [table, lens, h, this]

/-- What is in the place of the packet that failed: the bytes that got there, then zeros. -/
def remains (cap : Nat) (p : Packet O Q) (k : Nat) : Bytes :=
  (wire p).take (k - (20 + 8 * cap)) ++ List.replicate ((wire p).length - (k - (20 + 8 * cap))) 0

theorem remains_length (cap : Nat) (p : Packet O Q) {k : Nat} (hk : k ≤ 20 + 8 * cap + (wire p).length) : (remains cap p k).length = (wire p).length := by
  simp only [remains, List.length_append, List.length_take, List.length_replicate]
  omega

/-- A packet cannot be read from zeros. -/
theorem tryRead_zeros {data t : Bytes} {off n : Nat} {chk : Bool} (hn : HSIZE ≤ n) (ho : off ≤ data.length) (hr : data.drop off = List.replicate n 0 ++ t) :
    (Packet.tryRead (O := O) Q ⟨data, off, chk⟩).1 = .err .sigDismatch := by
  have hrem : (⟨data, off, chk⟩ : Cur).remaining = .ok (n + t.length) := by
    rw [Cur.remaining_ok ho]
    simp only [Cur.rest, hr, List.length_append, List.length_replicate]
  have hh : (PacketHeader.read.run (data.drop off)).1 = .err .sigDismatch := by
    obtain ⟨m, rfl⟩ : ∃ m, n = 8 + m := ⟨n - 8, by simp only [HSIZE] at hn; omega⟩
    rw [hr, ← List.replicate_append_replicate, List.append_assoc]
    unfold PacketHeader.read
    rw [P.bind_ok (P.readExact_append' (a := List.replicate 8 0) (by rw [List.length_replicate]) _), if_pos (by decide)]
    rfl
  have hrun : ((⟨data, off, chk⟩ : Cur).run PacketHeader.read).1 = .err .sigDismatch := by
    unfold Cur.run
    exact hh
  have htr : (PacketHeader.tryRead ⟨data, off, chk⟩).1 = .err .sigDismatch := by
    unfold PacketHeader.tryRead
    rw [hrem]
    simp only
    rw [if_neg (by omega)]
    simp only
    rw [hrun]
    rfl
  unfold Packet.tryRead
  rw [hrem]
  simp only
  revert htr
  generalize PacketHeader.tryRead ⟨data, off, chk⟩ = r
  obtain ⟨o, c⟩ := r
  rintro rfl
  rfl

/-- **C36, what goes wrong inside a slot.** The slot in use has room for two more packets; an insert of `p` fails at any point before its last
byte; then `q` is inserted successfully. The file can be opened and shows the earlier packets, but the place of `p` is counted: at the next index there is what remains
of `p`, followed by zeros (if nothing of `p` was written, reading it is a `SignatureDismatch`), and `q` is one further. -/
theorem C36_gap {cap : Nat} (hc : 0 < cap) {chk : Bool} {ops : List (Op O Q)} {w : Writer} {p q : Packet O Q} (hw : runOps cap chk ops emptyWriter = some w)
    (hok : ∀ r ∈ log ops, Storable S r) (hp : Storable S p) (hq : Storable S q) (hs : Small cap (log ops ++ [p] ++ [q]))
    (hidx : (log ops).length % cap + 1 < cap) {k : Nat} (hk : k < 20 + 8 * cap + (wire p).length) :
    ∃ w1 w2 s, w.insert cap p (some k) = (.err .io, w1) ∧ w1.insert cap q none = (.ok (), w2) ∧
      openReader chk w2.data = some (.ok s) ∧ s.count cap = (log ops).length + 2 ∧
      (∀ i, i < (log ops).length → s.nth cap chk w2.data i = .ok (log ops)[i]?) ∧
      (k ≤ 20 + 8 * cap → s.nth (O := O) (Q := Q) cap chk w2.data (log ops).length = .err .sigDismatch) ∧
      s.nth cap chk w2.data ((log ops).length + 1) = .ok (some q) := by
  obtain ⟨init, g, w1, a⟩ := ahead hc hw (fun q hq => (hok q hq).ok) hp.ok hs.left
  have hlt := a.ready.lt
  rw [← a.idx] at hidx
  let x := wire p
  let y := wire q
  have hxy : (fileOf cap (init ++ [(g ++ [wire p]) ++ [wire q]])).length < 2 ^ 63 := by
    have hg2 : Groups cap (init ++ [(g ++ [wire p]) ++ [wire q]]) :=
      Groups.mk' a.ready.full hc ((a.ready.group.concat hlt (wire_ne hp.ok)).concat (by simp; omega) (wire_ne hq.ok)) (by simp)
    refine small_file hc hg2 (ps := log ops ++ [p] ++ [q]) ?_ hs
    have := a.flat'
    simp only [List.flatten_append, List.flatten_cons, List.flatten_nil, List.append_nil, List.map_append, List.map_cons, List.map_nil] at this ⊢
    rw [← List.append_assoc, this]
  -- the state after the failure
  let w1' : Writer := { w1 with
      slots := w1.slots.set w1.loc.next (table cap (g ++ [wire p])),
      data := Writer.torn w1.data w1.loc.slotOffset (table cap (g ++ [wire p])).enc (spot cap init g) (wire p) k }
  have hslots : w1'.slots = (init ++ [g ++ [wire p]]).map (table cap) := by
    show w1.slots.set w1.loc.next _ = _
    rw [a.ready.slots, a.ready.loc]
    simp
  have hloc : w1'.loc = ⟨init.length, (fileOf cap init).length⟩ := a.ready.loc
  have hgx : Group cap (g ++ [wire p]) := a.ready.group.concat hlt (wire_ne hp.ok)
  have hltx : (g ++ [wire p]).length < cap := by simp; omega
  have hplace : w1'.place cap = (some (spot cap init (g ++ [wire p])), w1') := by
    unfold Writer.place
    have e : w1'.loc.step w1'.slots = (some (spot cap init (g ++ [wire p])), w1'.loc) := by rw [hslots, hloc, step_ready hgx hltx]
    rw [e]
  -- its file with the next table
  have hen2 : (table cap ((g ++ [wire p]) ++ [wire q])).enc.length = 20 + 8 * cap := table_enc_length (by simp; omega)
  have hdata : overwrite w1'.data (fileOf cap init).length (table cap ((g ++ [wire p]) ++ [wire q])).enc =
      fileOf cap init ++ ((table cap ((g ++ [wire p]) ++ [wire q])).enc ++ (g.flatten ++ (wire p).take (k - (20 + 8 * cap)))) := by
    show overwrite (Writer.torn _ _ _ _ _ _) _ _ = _
    rcases Nat.lt_or_ge k (20 + 8 * cap) with h1 | h1
    · rw [a.ready.torn_table (wire p) h1, show k - (20 + 8 * cap) = 0 by omega, List.take_zero, List.append_nil]
      by_cases hg : g = []
      · subst hg
        rw [if_pos rfl, overwrite_over (by rw [hen2, List.length_take]; omega)]
        simp
      · rw [if_neg hg]
        refine overwrite_mid _ _ _ _ ?_
        rw [hen2, List.length_append, List.length_take, List.length_drop, table_enc_length (by simp; omega), table_enc_length (by omega)]
        omega
    · rw [a.ready.torn_packet (wire p) h1]
      exact overwrite_mid _ _ _ _ (by rw [hen2, table_enc_length (by simp; omega)])
  have hrl := remains_length cap p (k := k) (by omega)
  have hfinal : overwrite (overwrite w1'.data (fileOf cap init).length (table cap ((g ++ [wire p]) ++ [wire q])).enc) (spot cap init (g ++ [wire p])) (wire q) =
      fileOf cap (init ++ [(g ++ [remains cap p k]) ++ [wire q]]) := by
    rw [hdata]
    have : spot cap init (g ++ [wire p]) = (fileOf cap init ++ ((table cap ((g ++ [wire p]) ++ [wire q])).enc ++ (g.flatten ++ (wire p).take (k - (20 + 8 * cap))))).length +
        ((wire p).length - (k - (20 + 8 * cap))) := by
      simp only [spot, List.length_append, List.flatten_append, List.flatten_cons, List.flatten_nil, List.append_nil, List.length_take, hen2]
      omega
    rw [this, overwrite_gap, fileOf_append, fileOf_cons, fileOf_nil, region,
      table_congr (a := (g ++ [wire p]) ++ [wire q]) (b := (g ++ [remains cap p k]) ++ [wire q]) (by simp [hrl])]
    simp only [remains, List.append_assoc, List.flatten_append, List.flatten_cons, List.flatten_nil, List.append_nil]
  have hwf : (table cap ((g ++ [wire p]) ++ [wire q])).WF := table_wf_of_file hxy (by simp) (by simp; omega)
  have hins : w1'.insert cap q none = (.ok (), { w1' with
      slots := w1'.slots.set w1'.loc.next (table cap ((g ++ [wire p]) ++ [wire q])), data := fileOf cap (init ++ [(g ++ [remains cap p k]) ++ [wire q]]) }) := by
    have e1 : w1'.slots[w1'.loc.next]? = some (table cap (g ++ [wire p])) := by rw [hslots, hloc]; simp
    unfold Writer.insert
    rw [hplace]
    simp only
    rw [serialize_wire hq.ok]
    simp only
    rw [e1]
    simp only
    rw [table_insert hgx hltx]
    simp only
    rw [hwf.bytes]
    simp only
    rw [← hfinal, hloc]
  have hpos := wire_pos hp.ok
  have hne : remains cap p k ≠ [] := by
    intro h; rw [h] at hrl; simp at hrl; omega
  have hg2 : Groups cap (init ++ [(g ++ [remains cap p k]) ++ [wire q]]) :=
    Groups.mk' a.ready.full hc ((a.ready.group.concat hlt hne).concat (by simp; omega) (wire_ne hq.ok)) (by simp)
  have hlen2 : (fileOf cap (init ++ [(g ++ [remains cap p k]) ++ [wire q]])).length < 2 ^ 63 := by
    rw [fileOf_append, fileOf_cons, fileOf_nil, List.append_nil, List.length_append, region_length (by simp; omega)] at hxy ⊢
    simp only [List.flatten_append, List.flatten_cons, List.flatten_nil, List.append_nil, List.length_append, hrl] at hxy ⊢
    exact hxy
  have hflat : (init ++ [(g ++ [remains cap p k]) ++ [wire q]]).flatten = (log ops).map wire ++ [remains cap p k, wire q] := by
    rw [← a.flat]
    have h3 : (opt g).flatten = g := by
      unfold opt
      by_cases hg : g = [] <;> simp [hg]
    rw [List.flatten_append, List.flatten_append, h3]
    simp
  obtain ⟨s, e2, v⟩ := open_reader hc hg2 hlen2 chk
  refine ⟨w1', _, s, a.ready.insert a.place (serialize_wire hp.ok) a.small (some k), hins, e2, ?_, ?_, ?_, ?_⟩
  · rw [v.count, hflat]; simp
  · intro i hi
    dsimp only
    unfold Storage.nth
    have hn : (log ops)[i]? = some (log ops)[i] := List.getElem?_eq_getElem hi
    obtain ⟨b, t, e, hf, _⟩ := offsetOf_some hc v.groups v.inner (n := i) (x := wire (log ops)[i]) (by
      rw [hflat, List.getElem?_append_left (by simpa using hi), List.getElem?_map, hn]; rfl)
    rw [e]
    simp only
    rw [tryRead_wire (hok _ (List.getElem_mem hi)) (t := t) (by rw [hf]; simp) (by rw [hf]; simp), hn]
  · intro hk2
    dsimp only
    unfold Storage.nth
    obtain ⟨b, t, e, hf, _⟩ := offsetOf_some hc v.groups v.inner (n := (log ops).length) (x := remains cap p k) (by
      rw [hflat, List.getElem?_append_right (by simp)]; simp)
    rw [e]
    simp only
    rw [tryRead_zeros (n := (wire p).length) (t := t) (by simpa [HSIZE] using hpos) (by rw [hf]; simp) (by
      rw [hf, List.drop_left]
      simp only [remains, show k - (20 + 8 * cap) = 0 by omega, List.take_zero, List.nil_append, Nat.sub_zero])]
  · dsimp only
    unfold Storage.nth
    obtain ⟨b, t, e, hf, _⟩ := offsetOf_some hc v.groups v.inner (n := (log ops).length + 1) (x := wire q) (by
      rw [hflat, List.getElem?_append_right (by simp)]; simp)
    rw [e]
    simp only
    rw [tryRead_wire hq (t := t) (by rw [hf]; simp) (by rw [hf]; simp)]

/-- **C36, what goes wrong at the end of a slot.** The slot in use has room for one more packet; an insert fails before anything that matters has been written;
the next insert succeeds. The writer has put it behind the place of the failed packet; nobody can open the file any more. -/
theorem C36_unopenable {cap : Nat} (hc : 2 ≤ cap) {chk : Bool} {ops : List (Op O Q)} {w : Writer} {p q : Packet O Q} (hw : runOps cap chk ops emptyWriter = some w)
    (hok : ∀ r ∈ log ops, r.Ok S) (hp : p.Ok S) (hq : q.Ok S) (hs : Small cap (log ops ++ [p] ++ [q]))
    (hidx : (log ops).length % cap + 1 = cap) {k : Nat} (hk : k ≤ 16 + 8 * ((log ops).length % cap)) :
    ∃ w1 w2, w.insert cap p (some k) = (.err .io, w1) ∧ w1.insert cap q none = (.ok (), w2) ∧
      openReader chk w2.data = some (.err (.damagedSlot .sigDismatch)) ∧ openWriter chk w2.data = some (.err (.damagedSlot .sigDismatch)) := by
  have hc0 : 0 < cap := by omega
  obtain ⟨init, g, w1, a⟩ := ahead hc0 hw hok hp hs.left
  have hlt := a.ready.lt
  rw [← a.idx] at hidx hk
  have hg : g ≠ [] := by intro h; simp [h] at hidx; omega
  have hgx : Group cap (g ++ [wire p]) := a.ready.group.concat hlt (wire_ne hp)
  have hfullx : AllFull cap (init ++ [g ++ [wire p]]) := by
    intro z hz
    rcases List.mem_append.mp hz with hz | hz
    · exact a.ready.full z hz
    · rw [List.mem_singleton.mp hz]; exact ⟨hgx, by simp; omega⟩
  have hxy : (fileOf cap ((init ++ [g ++ [wire p]]) ++ [[wire q]])).length < 2 ^ 63 := by
    have hg2 : Groups cap ((init ++ [g ++ [wire p]]) ++ [[wire q]]) :=
      Groups.mk' hfullx hc0 ((Group.nil cap).concat hc0 (wire_ne hq)) (by simp)
    refine small_file hc0 hg2 (ps := log ops ++ [p] ++ [q]) ?_ hs
    rw [List.flatten_append, a.flat']
    simp
  have hwfq : (table cap [wire q]).WF := table_wf_of_file hxy (by simp) (by simp; omega)
  let w1' : Writer := { w1 with
      slots := w1.slots.set w1.loc.next (table cap (g ++ [wire p])),
      data := Writer.torn w1.data w1.loc.slotOffset (table cap (g ++ [wire p])).enc (spot cap init g) (wire p) k }
  have hslots : w1'.slots = (init ++ [g ++ [wire p]]).map (table cap) := by
    show w1.slots.set w1.loc.next _ = _
    rw [a.ready.slots, a.ready.loc]
    simp
  have hloc : w1'.loc = ⟨init.length, (fileOf cap init).length⟩ := a.ready.loc
  have hdata : w1'.data = fileOf cap (init ++ [g]) := by
    show Writer.torn _ _ _ _ _ _ = _
    rw [a.ready.torn_table (wire p) (by omega), if_neg hg, table_concat (wire p) hlt, table_free (g := g) hlt, mix_low hk, ← table_free (g := g) hlt,
      fileOf_append, fileOf_cons, fileOf_nil, List.append_nil, region]
  let l' : Locator := ⟨(init ++ [g ++ [wire p]]).length, (fileOf cap (init ++ [g ++ [wire p]])).length⟩
  let w2' : Writer := { w1' with slots := ((init ++ [g ++ [wire p]]) ++ [[]]).map (table cap), loc := l' }
  have hplace : w1'.place cap = (some (spot cap (init ++ [g ++ [wire p]]) []), w2') := by
    have e : w1'.loc.step w1'.slots = (none, l') := by
      have e1 : ((init ++ [g ++ [wire p]]).map (table cap))[init.length]? = some (table cap (g ++ [wire p])) := by simp
      have e2 : ((init ++ [g ++ [wire p]]).map (table cap))[init.length + 1]? = none := by simp
      rw [hslots, hloc]
      unfold Locator.step
      simp only
      rw [e1]
      simp only
      rw [table_freeOffset hgx, if_neg (by simp; omega)]
      simp only
      rw [e2]
      simp only [l', fileOf_append, fileOf_cons, fileOf_nil, List.append_nil, List.length_append, region_length hgx.le, table_size,
        table_width hgx, List.length_cons, List.length_nil, Nat.add_assoc, Nat.zero_add]
    unfold Writer.place
    rw [e]
    simp only
    have hs' : w1'.slots ++ [Slot.default cap] = ((init ++ [g ++ [wire p]]) ++ [[]]).map (table cap) := by rw [hslots, default_eq]; simp
    rw [hs']
    show ((Locator.step l' _).1, _) = _
    rw [step_ready (Group.nil cap) hc0]
  have hlenx : (fileOf cap (init ++ [g ++ [wire p]])).length = (fileOf cap (init ++ [g])).length + (wire p).length := by
    rw [fileOf_append, fileOf_append, fileOf_cons, fileOf_cons, fileOf_nil, List.append_nil, List.append_nil, List.length_append, List.length_append,
      region_length hgx.le, region_length (by omega)]
    simp only [List.flatten_append, List.flatten_cons, List.flatten_nil, List.append_nil, List.length_append]
    omega
  have hfinal : overwrite (overwrite w2'.data l'.slotOffset (table cap [wire q]).enc) (spot cap (init ++ [g ++ [wire p]]) []) (wire q) =
      fileOf cap (init ++ [g]) ++ (List.replicate (wire p).length 0 ++ ((table cap [wire q]).enc ++ wire q)) := by
    have h1 : overwrite w2'.data l'.slotOffset (table cap [wire q]).enc =
        fileOf cap (init ++ [g]) ++ (List.replicate (wire p).length 0 ++ (table cap [wire q]).enc) := by
      show overwrite w1'.data _ _ = _
      rw [hdata, show l'.slotOffset = (fileOf cap (init ++ [g])).length + (wire p).length from hlenx, overwrite_gap]
    rw [h1]
    have h2 : spot cap (init ++ [g ++ [wire p]]) [] =
        (fileOf cap (init ++ [g]) ++ (List.replicate (wire p).length 0 ++ (table cap [wire q]).enc)).length := by
      simp only [spot, List.length_append, List.length_replicate, table_enc_length (show [wire q].length ≤ cap by simp; omega), hlenx, List.flatten_nil, List.length_nil]
      omega
    rw [h2, overwrite_end]
    simp only [List.append_assoc]
  let data2 : Bytes := fileOf cap (init ++ [g]) ++ (List.replicate (wire p).length 0 ++ ((table cap [wire q]).enc ++ wire q))
  have hins : w1'.insert cap q none = (.ok (), { w2' with slots := w2'.slots.set w2'.loc.next (table cap [wire q]), data := data2 }) := by
    have e1 : w2'.slots[w2'.loc.next]? = some (table cap []) := by
      show (((init ++ [g ++ [wire p]]) ++ [[]]).map (table cap))[(init ++ [g ++ [wire p]]).length]? = _
      rw [List.map_append, List.getElem?_append_right (by simp)]
      simp
    unfold Writer.insert
    rw [hplace]
    simp only
    rw [serialize_wire hq]
    simp only
    rw [e1]
    simp only
    rw [table_insert (Group.nil cap) hc0, List.nil_append]
    simp only
    rw [hwfq.bytes]
    simp only
    show _ = (Out.ok (), ({ w2' with slots := _, data := fileOf cap (init ++ [g]) ++ _ } : Writer))
    rw [← hfinal]
  refine ⟨w1', _, a.ready.insert a.place (serialize_wire hp) a.small (some k), hins, ?_⟩
  have hpos := wire_pos hp
  have hgs : ∀ z ∈ init ++ [g], Group cap z := by
    intro z hz
    rcases List.mem_append.mp hz with hz | hz
    · exact (a.ready.full z hz).1
    · rw [List.mem_singleton.mp hz]; exact a.ready.group
  have hload := load_refused (chk := chk) hgs (tail := List.replicate (wire p).length 0 ++ ((table cap [wire q]).enc ++ wire q)) (by
      have := a.small; omega) (e := .sigDismatch) (.inr rfl) (by
    have hrest : (⟨fileOf cap (init ++ [g]) ++ (List.replicate (wire p).length 0 ++ ((table cap [wire q]).enc ++ wire q)), (fileOf cap (init ++ [g])).length, chk⟩ : Cur).rest =
        List.replicate 8 0 ++ (List.replicate ((wire p).length - 8) 0 ++ ((table cap [wire q]).enc ++ wire q)) := by
      rw [← List.append_assoc (List.replicate 8 _), List.replicate_append_replicate, show 8 + ((wire p).length - 8) = (wire p).length by omega]
      simp [Cur.rest]
    have hrem := Cur.remaining_ok (c := ⟨fileOf cap (init ++ [g]) ++ (List.replicate (wire p).length 0 ++ ((table cap [wire q]).enc ++ wire q)),
      (fileOf cap (init ++ [g])).length, chk⟩) (by simp)
    unfold Slot.tryRead
    rw [hrem]
    simp only
    unfold Slot.tryReadHeader
    rw [hrem]
    simp only
    rw [if_neg (by rw [hrest]; simp only [List.length_append, List.length_replicate, SLOT_HSIZE]; omega)]
    rw [Cur.run_ok (a := List.replicate 8 0) (s' := List.replicate ((wire p).length - 8) 0 ++ ((table cap [wire q]).enc ++ wire q)) (by
      rw [hrest]; exact P.readExact_append' (by simp) _)]
    simp only
    rw [if_pos (by decide)])
  constructor
  · unfold openReader Storage.open_
    dsimp only [data2]
    rw [hload]; rfl
  · unfold openWriter Writer.open_
    dsimp only [data2]
    rw [hload]; rfl

theorem sample_small_one : Small SLOT_CAPACITY (log ([] : List (Op (blockEnum sampleTypes) (PEnum.ops []))) ++ [samplePacket] ++ [samplePacket]) := by
  simp [Small, log, wire_sample_length, SLOT_CAPACITY]

/-- **C36 is false**: on an empty storage one insert fails before anything is written, the next succeeds; then packet 0 is unreadable. -/
theorem C36_not (chk : Bool) : ¬ C36_full (PEnum.ops []) sampleSpec SLOT_CAPACITY chk := by
  intro h
  obtain ⟨w1, w2, s, e1, e2, e3, _, _, e4, _⟩ := C36_gap (S := sampleSpec) (cap := SLOT_CAPACITY) (by decide) (chk := chk) (ops := []) (w := emptyWriter)
    (p := samplePacket) (q := samplePacket) rfl (by simp [log]) sample_storable sample_storable sample_small_one (by show 0 % SLOT_CAPACITY + 1 < SLOT_CAPACITY; decide) (k := 0) (by rw [wire_sample_length]; decide)
  obtain ⟨s', e3', h'⟩ := h [] emptyWriter w1 w2 samplePacket samplePacket 0 rfl (by simp [log]) sample_storable sample_storable sample_small_one e1 e2
  rw [e3] at e3'
  injection e3' with e3'
  injection e3' with e3'
  subst e3'
  have e4 := e4 (Nat.zero_le _)
  rcases h' with h' | h'
  · have := (h' 0).symm.trans e4
    cases this
  · have := (h' 0).symm.trans e4
    cases this

/-- `C36_unopenable` applies, with the crate's capacity: 499 packets, then a failure, then a success. -/
example : ∃ w w1 w2, runOps SLOT_CAPACITY true ((List.replicate 499 samplePacket).map Op.insert) emptyWriter = some w ∧
    w.insert SLOT_CAPACITY samplePacket (some 0) = (.err .io, w1) ∧ w1.insert SLOT_CAPACITY samplePacket none = (.ok (), w2) ∧
    openReader true w2.data = some (.err (.damagedSlot .sigDismatch)) := by
  have hlog := log_inserts (List.replicate 499 samplePacket)
  have hok : ∀ r ∈ log ((List.replicate 499 samplePacket).map Op.insert), Storable sampleSpec r := by
    rw [hlog]; intro r hr; rw [(List.mem_replicate.mp hr).2]; exact sample_storable
  have hsm : Small SLOT_CAPACITY (log ((List.replicate 499 samplePacket).map Op.insert) ++ [samplePacket] ++ [samplePacket]) := by
    rw [hlog, ← List.replicate_succ', ← List.replicate_succ']
    exact sample_small
  obtain ⟨w, _, e, _⟩ := C30_reopen (S := sampleSpec) (cap := SLOT_CAPACITY) (by decide) true _ hok hsm.left.left
  obtain ⟨w1, w2, e1, e2, e3, _⟩ := C36_unopenable (S := sampleSpec) (cap := SLOT_CAPACITY) (by decide) e (fun r hr => (hok r hr).ok) samplePacket_ok samplePacket_ok hsm
    (by rw [hlog, List.length_replicate]; decide) (k := 0) (by omega)
  exact ⟨w, w1, w2, e, e1, e2, e3⟩

/-- A payload type whose encoder fails. -/
@[reducible] def failTy : PayloadTy := { bytesTy with encode := fun _ => none, encodeRef := fun _ => none }

/-- `C36_serialize_partial` and `C36_flush_partial` apply. -/
example : (∃ e, (⟨[], some (.inl [1, 2, 3])⟩ : Packet (blockEnum sampleTypes) (PEnum.ops [failTy])).serialize = .err e) ∧
    20 + 8 * SLOT_CAPACITY + (wire samplePacket).length ≤ 4145 :=
  ⟨⟨.io, by decide +kernel⟩, by rw [wire_sample_length]; decide⟩

end Brec.Props
