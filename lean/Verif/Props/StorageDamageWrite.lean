import Verif.Props.StorageDamage
import Verif.Props.Copy
/-!
# Inserting into a damaged storage (C108)

A writer opens a file some of whose bytes were changed, and packets are inserted.
-/

namespace Brec.Props

open Brec Rd

variable {O : BlockOps} {Q : PayloadOps} {S : BlockSpec O}

/-- Full statement of C108 (false of the code in a release build): bytes of a storage are changed, not its length. If a writer opens the file,
what is inserted through it takes no packet from the file whose bytes had not been touched. -/
def C108_full (Q : PayloadOps) (S : BlockSpec O) (cap : Nat) : Prop :=
  ∀ (chk : Bool) (ops : List (Op O Q)) (data : Bytes) (s : Storage), Reached cap chk ops data s → (∀ p ∈ log ops, Storable S p) → Small cap (log ops) →
    ∀ (damaged : Bytes), damaged.length = data.length → ∀ w, openWriter chk damaged = some (.ok w) →
      ∀ (more : List (Op O Q)) (w' : Writer), (∀ p ∈ log more, Storable S p) → Small cap (log ops ++ log more) → runOps cap chk more w = some w' →
        ∀ i p a, (log ops)[i]? = some p → s.offsetOf cap i = .ok (some a) → wire p <+: damaged.drop a → wire p <+: w'.data.drop a

/-- Only the lengths of the stored packets matter for the size of the file. -/
theorem small_lengths {cap : Nat} (hc : 0 < cap) {gs : List (List Bytes)} (h : Groups cap gs) {ps : List (Packet O Q)}
    (hp : gs.flatten.map List.length = ps.map fun p => (wire p).length) (hs : Small cap ps) : (fileOf cap gs).length < 2 ^ 63 := by
  have h1 := groups_length hc h
  have h2 : gs.flatten.length = ps.length := by
    have := congrArg List.length hp
    rwa [List.length_map, List.length_map] at this
  rw [length_fileOf h.group, List.length_flatten, hp]
  rw [h2] at h1
  unfold Small at hs
  have := Nat.mul_le_mul_right (20 + 8 * cap) h1
  omega

/-- A history over a file of whatever stretches. -/
theorem runOps_raw {cap : Nat} (hc : 0 < cap) (chk : Bool) : ∀ (ops : List (Op O Q)) {gs : List (List Bytes)} {w : Writer} {ps : List (Packet O Q)},
    Inv cap gs w → gs.flatten.map List.length = (ps.map fun p => (wire p).length) → (∀ p ∈ log ops, p.Ok S) → Small cap (ps ++ log ops) →
    ∃ w' gs', runOps cap chk ops w = some w' ∧ Inv cap gs' w' ∧ gs'.flatten = gs.flatten ++ (log ops).map wire
  | [], gs, w, ps, h, hp, _, _ => ⟨w, gs, rfl, h, by simp [log]⟩
  | .insert p :: ops, gs, w, ps, h, hp, hok, hs => by
    rw [log, ← List.singleton_append, ← List.append_assoc] at hs
    have hpk := hok p (by simp [log])
    obtain ⟨init, g, w1, hgs, hpl, hr, _⟩ := h.place hc
    have hgr : Groups cap (init ++ [g ++ [wire p]]) := Groups.mk' hr.full hc (hr.group.concat hr.lt (wire_ne hpk)) (by simp)
    have hfl : (init ++ [g ++ [wire p]]).flatten = gs.flatten ++ [wire p] := by
      rw [hgs, opt]
      by_cases hg : g = []
      · subst hg; simp
      · simp [hg]
    have hfl' : (init ++ [g ++ [wire p]]).flatten.map List.length = (ps ++ [p]).map fun p => (wire p).length := by
      rw [hfl, List.map_append, hp]; simp
    obtain ⟨w2, e1, i1⟩ : ∃ w2, w.insert cap p none = (.ok (), w2) ∧ Inv cap (init ++ [g ++ [wire p]]) w2 :=
      ⟨_, hr.insert hpl (serialize_wire hpk) (small_lengths hc hgr hfl' hs.left) none, hr.next_inv hc (wire_ne hpk) rfl rfl rfl⟩
    obtain ⟨w', gs', e2, i2, f2⟩ := runOps_raw hc chk ops i1 hfl' (fun x hx => hok x (by simp [log, hx])) hs
    refine ⟨w', gs', ?_, i2, by rw [f2, hfl, log]; simp⟩
    unfold runOps
    rw [e1]
    exact e2
  | .reopen :: ops, gs, w, ps, h, hp, hok, hs => by
    obtain ⟨w1, e1, i1⟩ := open_writer h.groups (small_lengths hc h.groups hp hs.left) chk
    obtain ⟨w', gs', e2, i2, f2⟩ := runOps_raw hc chk ops i1 hp hok hs
    refine ⟨w', gs', ?_, i2, f2⟩
    unfold runOps
    rw [h.data, e1]
    exact e2

theorem patches_congr {f g : Nat → Nat} : ∀ (hits : List (Nat × Bytes)) (d : Bytes), (∀ h ∈ hits, f h.1 = g h.1) → patches f d hits = patches g d hits
  | [], _, _ => rfl
  | h :: hits, d, hh => by
    have := patches_congr hits (patch d (g h.1) h.2) fun x hx => hh x (by simp [hx])
    unfold patches at *
    rw [List.foldl_cons, List.foldl_cons, hh h (by simp)]
    exact this

/-- The stretches after the damage, exactly. -/
theorem patches_flat {cap : Nat} (hc : 0 < cap) : ∀ (hits : List (Nat × Bytes)) {gs : List (List Bytes)}, Groups cap gs →
    (∀ h ∈ hits, gs.flatten[h.1]?.map List.length = some h.2.length) →
    ∃ gs', Groups cap gs' ∧ gs'.map (List.map List.length) = gs.map (List.map List.length) ∧
      patches (placeOf cap gs) (fileOf cap gs) hits = fileOf cap gs' ∧ gs'.flatten = hits.foldl (fun l h => l.set h.1 h.2) gs.flatten
  | [], gs, hg, _ => ⟨gs, hg, rfl, rfl, rfl⟩
  | (n, x) :: hits, gs, hg, hh => by
    have h0 := hh (n, x) (by simp)
    simp only [Option.map_eq_some_iff] at h0
    obtain ⟨w, hw, hx⟩ := h0
    obtain ⟨g1, hg1, hm1, e1, f1⟩ := patch_file hc hg hw hx.symm
    obtain ⟨g2, hg2, hm2, e2, f2⟩ := patches_flat hc hits hg1 (by
      intro h hmem
      rw [← hh h (by simp [hmem])]
      have hl : g1.flatten.map List.length = gs.flatten.map List.length := by rw [List.map_flatten, List.map_flatten, hm1]
      have := congrArg (fun l => l[h.1]?) hl
      simpa only [List.getElem?_map] using this)
    have hp : placeOf cap g1 = placeOf cap gs := funext fun i => placeOf_congr hm1 i
    refine ⟨g2, hg2, hm2.trans hm1, ?_, ?_⟩
    · rw [← e2, hp, ← e1]; rfl
    · rw [f2, f1]; rfl

theorem sets_append {α : Type} : ∀ (hits : List (Nat × α)) (a b : List α), (∀ h ∈ hits, h.1 < a.length) →
    hits.foldl (fun l h => l.set h.1 h.2) (a ++ b) = hits.foldl (fun l h => l.set h.1 h.2) a ++ b
  | [], _, _, _ => rfl
  | h :: hits, a, b, hh => by
    rw [List.foldl_cons, List.foldl_cons, List.set_append_left _ _ (hh h (by simp))]
    exact sets_append hits _ b fun x hx => by rw [List.length_set]; exact hh x (by simp [hx])

/-- Packets do not move when others are put behind them. -/
theorem placeOf_closed {cap : Nat} (hc : 0 < cap) {gs : List (List Bytes)} (hg : Groups cap gs) {n : Nat} (hn : n < gs.flatten.length) :
    placeOf cap gs n = (n / cap + 1) * (20 + 8 * cap) + (gs.flatten.take n).flatten.length := by
  obtain ⟨w, hw⟩ : ∃ w, gs.flatten[n]? = some w := ⟨_, List.getElem?_eq_getElem hn⟩
  rw [hg.get hc] at hw
  cases hy : gs[n / cap]? with
  | none => rw [hy] at hw; simp at hw
  | some g =>
    rw [hy] at hw
    simp only [Option.bind_some] at hw
    obtain ⟨hi, e1⟩ := List.getElem?_eq_some_iff.mp hy
    have hgs : gs = gs.take (n / cap) ++ g :: gs.drop (n / cap + 1) := by
      rw [← e1, List.getElem_cons_drop, List.take_append_drop]
    have hA : (gs.take (n / cap)).length = n / cap := by rw [List.length_take]; omega
    have hAfull : ∀ y ∈ gs.take (n / cap), y.length = cap := by
      intro y hy'
      apply hg.full
      obtain ⟨k, hk, rfl⟩ := List.mem_iff_getElem.mp hy'
      rw [List.length_take] at hk
      rw [List.getElem_take]
      exact List.mem_iff_getElem.mpr ⟨k, by rw [List.length_dropLast]; omega, by rw [List.getElem_dropLast]⟩
    have hlen : (gs.take (n / cap)).flatten.length = (n / cap) * cap := by
      conv => rhs; rw [← hA]
      exact length_flatten_full fun y hy' => ⟨hg.group y (List.mem_of_mem_take hy'), hAfull y hy'⟩
    have hfile := length_fileOf (cap := cap) (gs := gs.take (n / cap)) fun y hy' => hg.group y (List.mem_of_mem_take hy')
    have hmod : n = (gs.take (n / cap)).flatten.length + n % cap := by
      rw [hlen]
      have := Nat.div_add_mod n cap
      rw [Nat.mul_comm] at this
      omega
    have hlt : n % cap ≤ g.length := by
      obtain ⟨hj, _⟩ := List.getElem?_eq_some_iff.mp hw
      omega
    have htake : gs.flatten.take n = (gs.take (n / cap)).flatten ++ g.take (n % cap) := by
      conv => lhs; rw [hgs, List.flatten_append, List.flatten_cons]; arg 1; rw [hmod]
      rw [List.take_length_add_append, List.take_append_of_le_length hlt]
    rw [placeOf, hy, Option.getD_some, hfile, hA, htake, List.flatten_append, List.length_append, Nat.add_mul]
    omega

/-- Packets destroyed, their slots not: a writer opens the file, and what it then does is what it does to the undamaged file. The file it leaves is
the file it would have left, damaged as before; the reader opens it as if nothing had happened, and all packets, old and new, that were not
destroyed are found. -/
theorem C108_packets_partial {cap : Nat} (hc : 0 < cap) {chk : Bool} {ops : List (Op O Q)} {data : Bytes} {s : Storage} (h : Reached cap chk ops data s)
    (hok : ∀ p ∈ log ops, Storable S p) (hs : Small cap (log ops)) :
    ∃ place : Nat → Nat, (∀ i p, (log ops)[i]? = some p → s.offsetOf cap i = .ok (some (place i)) ∧ wire p <+: data.drop (place i)) ∧
      ∀ hits, Hits (log ops) hits → ∀ more : List (Op O Q), (∀ p ∈ log more, Storable S p) → Small cap (log ops ++ log more) →
        ∃ w w' data' s', openWriter chk (patches place data hits) = some (.ok w) ∧ runOps cap chk more w = some w' ∧
          Reached cap chk (ops ++ .reopen :: more) data' s' ∧ w'.data = patches place data' hits ∧
          openReader chk w'.data = some (.ok s') ∧ s'.count cap = (log ops ++ log more).length ∧
          ∀ j, (∀ h ∈ hits, h.1 ≠ j) → s'.nth cap chk w'.data j = .ok (log ops ++ log more)[j]? := by
  obtain ⟨gs, v, hd, f, hl⟩ := h.view hc (fun p hp => (hok p hp).ok) hs
  obtain ⟨w0, e0, hw0⟩ := h.run
  subst hd
  refine ⟨placeOf cap gs, ?_, ?_⟩
  · intro i p hp
    obtain ⟨a, t, ho, e, hlen⟩ := offsetOf_some hc v.groups v.inner (n := i) (x := wire p) (by rw [f, List.getElem?_map, hp]; rfl)
    refine ⟨by rw [ho, placeOf, hlen], t, ?_⟩
    rw [e, placeOf, ← hlen, List.drop_left]
  · intro hits hh more hmore hsm
    have hin : ∀ x ∈ hits, x.1 < gs.flatten.length := by
      intro x hx
      obtain ⟨p, hp, _⟩ := hh x hx
      rw [f, List.length_map]
      exact (List.getElem?_eq_some_iff.mp hp).1
    have hlens : ∀ x ∈ hits, gs.flatten[x.1]?.map List.length = some x.2.length := by
      intro x hx
      obtain ⟨p, hp, hpl⟩ := hh x hx
      rw [f, List.getElem?_map, hp, hpl]; rfl
    -- the damaged file
    obtain ⟨gs', hg', hm, e, f'⟩ := patches_flat hc hits v.groups hlens
    have hfl' : gs'.flatten.map List.length = (log ops).map fun p => (wire p).length := by
      rw [List.map_flatten, hm, ← List.map_flatten, f, List.map_map]; rfl
    have hl' : (fileOf cap gs').length < 2 ^ 63 := small_lengths hc hg' hfl' hs
    obtain ⟨w, ew, iw⟩ := open_writer hg' hl' chk
    obtain ⟨w', gd, er, ir, fr⟩ := runOps_raw (S := S) hc chk more iw hfl' (fun p hp => (hmore p hp).ok) hsm
    -- the undamaged file
    obtain ⟨u, eu, iu⟩ := open_writer v.groups hl chk
    obtain ⟨u', gu, eru, iru, fru⟩ := runOps_inv (S := S) hc chk more iu f (fun p hp => (hmore p hp).ok) hsm
    have hlu := small_file hc iru.groups fru hsm
    obtain ⟨s', es, vs⟩ := open_reader hc iru.groups hlu chk
    have hreach : Reached cap chk (ops ++ .reopen :: more) u'.data s' := by
      refine ⟨⟨u', ?_, rfl⟩, by rw [iru.data]; exact es⟩
      rw [runOps_append, e0]
      simp only [Option.bind_some]
      unfold runOps
      rw [hw0, eu]
      exact eru
    have hlog : log (ops ++ Op.reopen :: more) = log ops ++ log more := by rw [log_append, log]
    -- the places
    have hgu : gu.flatten = gs.flatten ++ (log more).map wire := by rw [fru, List.map_append, f]
    have hpl : ∀ x ∈ hits, placeOf cap gs x.1 = placeOf cap gu x.1 := by
      intro x hx
      have := hin x hx
      rw [placeOf_closed hc v.groups this, placeOf_closed hc iru.groups (by rw [hgu, List.length_append]; omega), hgu,
        List.take_append_of_le_length (by omega)]
    -- the damaged version of the undamaged file
    obtain ⟨gp, hgp, _, ep, fp⟩ := patches_flat hc hits iru.groups (by
      intro x hx
      rw [← hlens x hx, hgu, List.getElem?_append_left (hin x hx)])
    have heq : gd = gp := groups_unique hc ir.groups hgp (by rw [fr, fp, hgu, sets_append hits _ _ hin, f'])
    have hdata : w'.data = patches (placeOf cap gu) u'.data hits := by rw [ir.data, heq, iru.data, ep]
    have hdata' : w'.data = patches (placeOf cap gs) u'.data hits := by rw [hdata, patches_congr hits _ hpl]
    obtain ⟨place, hplace, hall⟩ := C58_confined_partial (S := S) hc hreach (by
      rw [hlog]; intro p hp; rcases List.mem_append.mp hp with hp | hp
      · exact hok p hp
      · exact hmore p hp) (by rw [hlog]; exact hsm)
    obtain ⟨ho, hcount, hnth⟩ := hall hits (by
      intro x hx
      obtain ⟨p, hp, hpl⟩ := hh x hx
      exact ⟨p, by rw [hlog, List.getElem?_append_left (List.getElem?_eq_some_iff.mp hp).1, hp], hpl⟩)
    have hpp : patches place u'.data hits = w'.data := by
      rw [hdata]
      refine patches_congr hits _ ?_
      intro x hx
      obtain ⟨p, hp, _⟩ := hh x hx
      have hp' : (log ops ++ log more)[x.1]? = some p := by rw [List.getElem?_append_left (List.getElem?_eq_some_iff.mp hp).1, hp]
      have h1 := (hplace x.1 p (by rw [hlog]; exact hp')).1
      obtain ⟨a, t, ho, e, hlen⟩ := offsetOf_some hc vs.groups vs.inner (n := x.1) (x := wire p) (by rw [fru, List.getElem?_map, hp']; rfl)
      rw [ho] at h1
      injection h1 with h1
      injection h1 with h1
      rw [← h1, hlen, placeOf]
    refine ⟨w, w', u'.data, s', by rw [e]; exact ew, er, hreach, hdata', by rw [← hpp]; exact ho, by rw [hcount, hlog], ?_⟩
    intro j hj
    rw [← hpp, hnth j hj, hlog]

/-- Of two packets the first is destroyed; the writer puts a third behind them, and the second and the third are found. -/
example (chk : Bool) : ∃ data s place w w' s', Reached 2 chk twoPackets data s ∧
    openWriter chk (patches place data [(0, List.replicate 125 0)]) = some (.ok w) ∧
    runOps 2 chk [Op.insert samplePacket, .reopen] w = some w' ∧ openReader chk w'.data = some (.ok s') ∧ s'.count 2 = 3 ∧
    s'.nth 2 chk w'.data 1 = .ok (some otherPacket) ∧ s'.nth 2 chk w'.data 2 = .ok (some samplePacket) := by
  have hcap : (0 : Nat) < 2 := by decide
  obtain ⟨data, s, h⟩ := Reached.exists (S := sampleSpec) (cap := 2) hcap chk twoPackets twoPackets_storable twoPackets_small_two
  obtain ⟨place, _, hall⟩ := C108_packets_partial (S := sampleSpec) hcap h twoPackets_storable twoPackets_small_two
  obtain ⟨w, w', _, s', h1, h2, _, _, h3, h4, h5⟩ := hall _ twoPackets_hits [.insert samplePacket, .reopen] (by
    intro p hp; rw [List.mem_singleton.mp hp]; exact sample_storable) (by
    rw [twoPackets_log]
    unfold Small
    simp only [log, List.map_append, List.map_cons, List.map_nil, wire_sample_length, wire_other_length]
    decide)
  rw [twoPackets_log] at h4 h5
  exact ⟨data, s, place, w, w', s', h, h1, h2, h3, h4, h5 1 (by simp), h5 2 (by simp)⟩

/-- The writer opens what the reader opens, with the same slots, and opening writes nothing. -/
theorem C108_opens (chk : Bool) (d : Bytes) :
    (∀ w, openWriter chk d = some (.ok w) → w.data = d ∧ ∃ s, openReader chk d = some (.ok s) ∧ w.slots = s.slots.map (·.inner)) ∧
      (∀ s, openReader chk d = some (.ok s) → ∃ w, openWriter chk d = some (.ok w) ∧ w.data = d ∧ w.slots = s.slots.map (·.inner)) := by
  unfold openWriter openReader Writer.open_ Storage.open_
  cases loadLoop chk d (d.length + 1) 0 [] with
  | none => exact ⟨by intro w h; simp at h, by intro s h; simp at h⟩
  | some r =>
    cases r with
    | ok ss =>
      refine ⟨?_, ?_⟩
      · intro w h
        simp only [Option.map_some, Out.map, Option.some.injEq, Out.ok.injEq] at h
        subst h
        exact ⟨rfl, _, rfl, rfl⟩
      · intro s h
        simp only [Option.map_some, Out.map, Option.some.injEq, Out.ok.injEq] at h
        subst h
        exact ⟨_, rfl, rfl, rfl⟩
    | err e => exact ⟨by intro w h; simp [Out.map] at h, by intro s h; simp [Out.map] at h⟩
    | panic => exact ⟨by intro w h; simp [Out.map] at h, by intro s h; simp [Out.map] at h⟩

theorem overwrite_at (f r b : Bytes) : overwrite (f ++ r) f.length b = f ++ (b ++ r.drop b.length) := by
  have h1 : f.length - (f ++ r).length = 0 := by simp
  rw [overwrite, h1, ← List.drop_drop, List.drop_left]
  simp

/-- Inserting through a writer that knows the full groups `A` only, over a file that goes on behind them. -/
theorem insert_over {cap : Nat} (hc : 0 < cap) {A : List (List Bytes)} (hA : AllFull cap A) {w : Writer} {rest : Bytes}
    (hi : Inv cap A { w with data := fileOf cap A }) (hd : w.data = fileOf cap A ++ rest) {q : Packet O Q} (hq : q.Ok S) (hs : Small cap [q]) :
    ∃ w', w.insert cap q none = (.ok (), w') ∧ w'.data = fileOf cap (A ++ [[wire q]]) ++ rest.drop (20 + 8 * cap + (wire q).length) := by
  obtain ⟨init, g, w1, hgs, hpl, hr, hd1⟩ := hi.place hc
  have hg : g = [] := by
    by_cases hg : g = []
    · exact hg
    · have := (hA g (by rw [hgs, opt, if_neg hg]; simp)).2
      have := hr.lt
      omega
  subst hg
  have hAi : A = init := by rw [hgs]; simp [opt]
  clear hgs
  subst hAi
  have hpl' : w.place cap = (some (spot cap A []), { w1 with data := w.data }) := by
    unfold Writer.place at hpl ⊢
    dsimp only at hpl
    split at hpl
    · rename_i off l e
      injection hpl with h1 h2
      rw [← h1, ← h2]
    · rename_i l e
      injection hpl with h1 h2
      rw [← h1, ← h2]
  have hgr : Groups cap [[wire q]] := Groups.mk' (init := []) (by simp) hc ((Group.nil cap).concat hc (wire_ne hq)) (by simp)
  have hl1 := small_file hc hgr (ps := [q]) (by simp) hs
  have hw : (table cap [wire q]).WF := table_wf_of_file hl1 (g := [wire q]) (by simp) (by simp; omega)
  have hel : (table cap [wire q]).enc.length = 20 + 8 * cap := enc_table_length (by simp; omega)
  have e1 : w1.slots[w1.loc.next]? = some (table cap []) := by rw [hr.slots, hr.loc]; simp
  have hti := table_insert (cap := cap) (g := []) (Group.nil cap) hc (wire q)
  rw [List.nil_append] at hti
  have hoff : w1.loc.slotOffset = (fileOf cap A).length := by rw [hr.loc]
  refine ⟨_, by
    unfold Writer.insert
    rw [hpl']
    dsimp only
    rw [serialize_wire hq]
    dsimp only
    rw [e1]
    dsimp only
    rw [hti]
    dsimp only
    rw [hw.bytes], ?_⟩
  dsimp only
  rw [hoff, hd, overwrite_at, ← List.append_assoc,
    show spot cap A [] = (fileOf cap A ++ (table cap [wire q]).enc).length by rw [List.length_append, hel, spot]; simp,
    overwrite_at, fileOf_append, fileOf_one, List.drop_drop, hel]
  simp

/-- **Inserting destroys packets** (release build): a slot's capacity is damaged so that the slot would not fit into the file. The writer opens the
file, does not know that slot or those behind it, and puts the next packet where the first packet of that slot was. -/
theorem C108_destroys {cap : Nat} (hc : 0 < cap) {ops : List (Op O Q)} {data : Bytes} {s : Storage} (h : Reached cap false ops data s)
    (hok : ∀ p ∈ log ops, p.Ok S) (hs : Small cap (log ops)) {a : Anchored} (ha : a ∈ s.slots) {pre tbl post : Bytes}
    (hd : data = pre ++ tbl ++ post) (hpre : pre.length = a.offset) (ht : tbl.length = 20 + 8 * cap) {cap' : Nat} (h2 : 2 ≤ cap')
    (h64 : 20 + 8 * cap' < 2 ^ 64) (hbig : data.length < pre.length + 20 + 8 * cap') {q : Packet O Q} (hq : q.Ok S) (hsq : Small cap [q]) :
    ∃ w w', openWriter false (pre ++ (tbl.take 8 ++ leBytes 8 cap' ++ tbl.drop 16) ++ post) = some (.ok w) ∧ w.insert cap q none = (.ok (), w') ∧
      pre <+: w'.data ∧ wire q <+: w'.data.drop (a.offset + (20 + 8 * cap)) := by
  obtain ⟨gs, v, hd', f, hl⟩ := h.view hc hok hs
  rw [v.slots] at ha
  obtain ⟨A, g, B, rfl, hae⟩ := mem_anchor ha
  have hgr := v.groups.group g (by simp)
  have hencl : (table cap g).enc.length = 20 + 8 * cap := enc_table_length hgr.le
  have hpre' : pre.length = (fileOf cap A).length := by rw [hpre, hae]; simp
  have hsplit : pre = fileOf cap A ∧ tbl = (table cap g).enc ∧ post = g.flatten ++ fileOf cap B := by
    have e : pre ++ (tbl ++ post) = fileOf cap A ++ ((table cap g).enc ++ (g.flatten ++ fileOf cap B)) := by
      rw [← List.append_assoc, ← hd, hd', fileOf_append, fileOf_cons, region, List.append_assoc]
    obtain ⟨e1, e2⟩ := List.append_inj e hpre'
    obtain ⟨e2, e3⟩ := List.append_inj e2 (by rw [ht, hencl])
    exact ⟨e1, e2, e3⟩
  obtain ⟨rfl, rfl, rfl⟩ := hsplit
  have hA : AllFull cap A := by
    intro x hx
    refine ⟨v.groups.group x (by simp [hx]), v.groups.full x ?_⟩
    rw [List.dropLast_append_of_ne_nil (by simp)]
    exact List.mem_append_left _ hx
  have h8 : (table cap g).enc.take 8 = SLOT_SIG := by
    rw [Slot.enc, List.append_assoc, List.append_assoc]; exact List.take_left' rfl
  rw [h8]
  have hdl := congrArg List.length hd
  simp only [List.length_append] at hdl
  have hdam := tryRead_beyond (c := ⟨fileOf cap A ++ ((SLOT_SIG ++ leBytes 8 cap' ++ (table cap g).enc.drop 16) ++ (g.flatten ++ fileOf cap B)),
      (fileOf cap A).length, false⟩) (cap' := cap') (by simp) h2 h64 (t := (table cap g).enc.drop 16 ++ (g.flatten ++ fileOf cap B))
    (by simp [Cur.rest]) (by simp only [List.length_append, List.length_drop]; omega)
  obtain ⟨k, hk⟩ : ∃ k, (fileOf cap A ++ ((SLOT_SIG ++ leBytes 8 cap' ++ (table cap g).enc.drop 16) ++ (g.flatten ++ fileOf cap B))).length + 1 =
      (k + 1) + A.length := by
    have := groups_le (cap := cap) (gs := A) fun x hx => v.groups.group x (by simp [hx])
    exact ⟨(fileOf cap A ++ ((SLOT_SIG ++ leBytes 8 cap' ++ (table cap g).enc.drop 16) ++ (g.flatten ++ fileOf cap B))).length - A.length, by
      rw [List.length_append]; omega⟩
  have hskip := loadLoop_skip false ((SLOT_SIG ++ leBytes 8 cap' ++ (table cap g).enc.drop 16) ++ (g.flatten ++ fileOf cap B)) A [] [] (k + 1)
    (fun x hx => v.groups.group x (by simp [hx])) (by simp only [List.nil_append]; omega)
  simp only [List.nil_append, List.length_nil, Nat.zero_add] at hskip
  have hlA : (fileOf cap A).length < 2 ^ 63 := by omega
  obtain ⟨wA, eA, iA⟩ := open_writer (AllFull.groups hA hc) hlA false
  have heA : wA = ⟨A.map (table cap), fileOf cap A, Locator.setup {} (A.map (table cap))⟩ := by
    rw [openWriter, Writer.open_, load_file false (AllFull.groups hA hc).group hlA (Nat.lt_succ_of_le (groups_le (AllFull.groups hA hc).group))] at eA
    simp only [Option.map_some, Out.map, Option.some.injEq, Out.ok.injEq] at eA
    rw [← eA, anchor_inner]
  rw [List.append_assoc (fileOf cap A)]
  have hopen : openWriter false (fileOf cap A ++ ((SLOT_SIG ++ leBytes 8 cap' ++ (table cap g).enc.drop 16) ++ (g.flatten ++ fileOf cap B))) =
      some (.ok ⟨A.map (table cap), fileOf cap A ++ ((SLOT_SIG ++ leBytes 8 cap' ++ (table cap g).enc.drop 16) ++ (g.flatten ++ fileOf cap B)),
        Locator.setup {} (A.map (table cap))⟩) := by
    rw [openWriter, Writer.open_, hk, hskip, loadLoop, hdam]
    simp only [Bool.false_eq_true, if_false, Option.map_some, Out.map, anchor_inner]
  obtain ⟨w', ew, hw'⟩ := insert_over (S := S) hc hA (w := ⟨A.map (table cap),
      fileOf cap A ++ ((SLOT_SIG ++ leBytes 8 cap' ++ (table cap g).enc.drop 16) ++ (g.flatten ++ fileOf cap B)),
      Locator.setup {} (A.map (table cap))⟩) (by rw [heA] at iA; exact iA) rfl hq hsq
  have hel : (table cap [wire q]).enc.length = 20 + 8 * cap := enc_table_length (by simp; omega)
  refine ⟨_, w', hopen, ew, ?_, ?_⟩
  · rw [hw', fileOf_append, List.append_assoc]
    exact ⟨_, rfl⟩
  · rw [hw', ← hpre, hpre', fileOf_append, List.append_assoc, ← List.drop_drop, List.drop_left, fileOf_one, List.append_assoc,
      List.drop_left' hel]
    exact ⟨_, rfl⟩

/-- **C108 is false of the code** (release build): one stored packet, one byte of the capacity changed, another packet inserted; the stored
packet is gone. -/
theorem C108_not : ¬ C108_full (PEnum.ops []) sampleSpec SLOT_CAPACITY := by
  intro hf
  have hcap : 0 < SLOT_CAPACITY := by decide
  have hlog : log [Op.insert samplePacket] = [samplePacket] := rfl
  have hst : ∀ p ∈ log [Op.insert samplePacket], Storable sampleSpec p := by
    intro p hp; rw [List.mem_singleton.mp hp]; exact sample_storable
  have hsm : Small SLOT_CAPACITY (log [Op.insert samplePacket]) := by
    unfold Small
    simp only [hlog, List.map_cons, List.map_nil, wire_sample_length]
    decide
  obtain ⟨data, s, hr⟩ := Reached.exists (S := sampleSpec) hcap false [.insert samplePacket] hst hsm
  obtain ⟨gs, v, hd, f, hl⟩ := hr.view (S := sampleSpec) hcap (fun p hp => (hst p hp).ok) hsm
  have hgs : gs = [[wire samplePacket]] :=
    groups_unique hcap v.groups (Groups.mk' (init := []) (by simp) hcap ((Group.nil _).concat hcap (wire_ne samplePacket_ok)) (by simp))
      (by rw [f]; rfl)
  subst hgs
  have henl : (table SLOT_CAPACITY [wire samplePacket]).enc.length = 20 + 8 * SLOT_CAPACITY := enc_table_length (by decide)
  have hdata : data = [] ++ (table SLOT_CAPACITY [wire samplePacket]).enc ++ wire samplePacket := by
    rw [hd, fileOf_one, List.nil_append]
  have hdl : data.length = 4145 := by
    rw [hdata, List.nil_append, List.length_append, henl, wire_sample_length]; rfl
  have hmem : (⟨table SLOT_CAPACITY [wire samplePacket], 0⟩ : Anchored) ∈ s.slots := by rw [v.slots]; simp [anchor]
  have hsq : Small SLOT_CAPACITY [otherPacket] := by
    unfold Small
    simp only [List.map_cons, List.map_nil, wire_other_length]
    decide
  obtain ⟨w, w', ho, hi, _, hq⟩ := C108_destroys (S := sampleSpec) hcap hr (fun p hp => (hst p hp).ok) hsm hmem hdata rfl henl
    (cap' := 500 + 65536) (by decide) (by decide) (by rw [hdl]; decide) otherPacket_ok hsq
  obtain ⟨a, t, hoff, e, hlen⟩ := offsetOf_some hcap v.groups v.inner (n := 0) (x := wire samplePacket) (by simp)
  have hlen' : a.length = 20 + 8 * SLOT_CAPACITY := by rw [hlen]; simp
  rw [hlen'] at hoff
  have hrun : runOps SLOT_CAPACITY false [Op.insert otherPacket] w = some w' := by
    unfold runOps
    rw [hi]
    rfl
  have hgone := hf false _ data s hr hst hsm _ (by
      rw [hdl]
      simp only [List.length_append, List.length_take, List.length_drop, henl, leBytes_length, wire_sample_length, List.length_nil]
      decide) w ho [.insert otherPacket] w' (by
      intro p hp; rw [List.mem_singleton.mp hp]; exact otherPacket_storable) (by
      unfold Small
      simp only [log, List.map_append, List.map_cons, List.map_nil, wire_sample_length, wire_other_length]
      decide) hrun 0 samplePacket _ rfl hoff (by
      rw [List.nil_append, List.drop_left' (by
        simp only [List.length_append, List.length_take, List.length_drop, henl, leBytes_length]
        decide)]
      exact List.prefix_rfl)
  rw [Nat.zero_add] at hq
  have := List.prefix_or_prefix_of_prefix hgone hq
  revert this
  decide +kernel

end Brec.Props
