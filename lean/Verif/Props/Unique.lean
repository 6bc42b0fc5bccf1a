import Verif.Props.Generated
/-!
# Property C79: bytes determine what was written
-/

namespace Brec.Props

open Brec Packet Rd

variable {vs : List BlockTy} {ps : List PayloadTy}

/-- No packet begins with another one: if the bytes of two packets, each followed by anything, are the same, then so are the packets and what follows. There is no bound on
the number of blocks. -/
theorem C79_packet {p q : Packet (blockEnum vs) (PEnum.ops ps)} (hp : Declared p) (hq : Declared q) {w w' s s' : Bytes}
    (hw : p.serialize = .ok w) (hw' : q.serialize = .ok w') (h : w ++ s = w' ++ s') : p = q ∧ w = w' ∧ s = s' := by
  obtain ⟨_, hd, e1, _, r1⟩ := C16_filtered hp.ok s
  obtain ⟨_, hd', e2, _, r2⟩ := C16_filtered hq.ok s'
  cases hw.symm.trans e1
  cases hw'.symm.trans e2
  rw [h, r2] at r1
  injection r1 with r1 r1'
  injection r1 with r1
  injection r1 with _ r1
  subst r1'
  exact ⟨r1.symm, List.append_cancel_right h, rfl⟩

/-- `qs` begins with `ps`. -/
def Begins {α : Type} (ps qs : List α) : Prop := ∃ rest, qs = ps ++ rest

theorem wire_ne {p : Packet (blockEnum vs) (PEnum.ops ps)} (hp : Declared p) : wire p ≠ [] := by
  obtain ⟨h, pb, sh⟩ := hp.ok.shape
  intro e
  have := serialize_eq hp.ok.blocks sh
  rw [wire, this] at e
  have := congrArg List.length e
  simp [PacketHeader.bytes_length, HSIZE] at this

theorem wire_ok {p : Packet (blockEnum vs) (PEnum.ops ps)} (hp : Declared p) : p.serialize = .ok (wire p) := by
  obtain ⟨w, e, _⟩ := C52_packet_layout hp
  rw [wire, e]

/-- A stream of packets that begins with another stream of packets begins with its packets. -/
theorem C79_stream : ∀ {as bs : List (Packet (blockEnum vs) (PEnum.ops ps))}, (∀ p ∈ as, Declared p) → (∀ p ∈ bs, Declared p) →
    Begins (as.map wire).flatten (bs.map wire).flatten → Begins as bs
  | [], bs, _, _, _ => ⟨bs, rfl⟩
  | a :: as, [], ha, _, ⟨rest, h⟩ => by
    exfalso
    simp only [List.map_nil, List.flatten_nil, List.map_cons, List.flatten_cons, List.append_assoc] at h
    exact wire_ne (ha a (by simp)) (List.append_eq_nil_iff.mp h.symm).1
  | a :: as, b :: bs, ha, hb, ⟨rest, h⟩ => by
    simp only [List.map_cons, List.flatten_cons, List.append_assoc] at h
    obtain ⟨rfl, _, e⟩ := C79_packet (hb b (by simp)) (ha a (by simp)) (wire_ok (hb b (by simp))) (wire_ok (ha a (by simp))) h
    obtain ⟨r, hr⟩ := C79_stream (fun p h => ha p (by simp [h])) (fun p h => hb p (by simp [h])) ⟨rest, e⟩
    exact ⟨r, by rw [hr]; rfl⟩

/-- The same stream, the same packets. -/
theorem C79_stream_eq {as bs : List (Packet (blockEnum vs) (PEnum.ops ps))} (ha : ∀ p ∈ as, Declared p) (hb : ∀ p ∈ bs, Declared p)
    (h : (as.map wire).flatten = (bs.map wire).flatten) : as = bs := by
  obtain ⟨r, hr⟩ := C79_stream ha hb ⟨[], by rw [h]; simp⟩
  obtain ⟨r', hr'⟩ := C79_stream hb ha ⟨[], by rw [h]; simp⟩
  rw [hr'] at hr
  have : r' ++ r = [] := by
    have h2 := congrArg List.length hr
    simp only [List.length_append] at h2
    exact List.length_eq_zero_iff.mp (by rw [List.length_append]; omega)
  rw [hr', (List.append_eq_nil_iff.mp this).1, List.append_nil]

theorem Yields.det_fuel {σ α : Type} {f : Nat → σ → Option (Option α × σ)} (hm : ∀ {n m s r}, f n s = some r → n ≤ m → f m s = some r) :
    ∀ {s : σ} {a b : List α}, Yields (fun s r => ∃ n, f n s = some r) s a → Yields (fun s r => ∃ n, f n s = some r) s b → a = b := by
  have huniq : ∀ {s : σ} {r r' : Option α × σ}, (∃ n, f n s = some r) → (∃ n, f n s = some r') → r = r' := by
    rintro s r r' ⟨n, h⟩ ⟨m, h'⟩
    have e1 := hm h (Nat.le_max_left n m)
    have e2 := hm h' (Nat.le_max_right n m)
    exact Option.some.inj (e1.symm.trans e2)
  intro s a b ha
  induction ha generalizing b with
  | done h =>
    intro hb
    cases hb with
    | done _ => rfl
    | step h' _ => cases huniq h h'
  | step h _ ih =>
    intro hb
    cases hb with
    | done h' => cases huniq h h'
    | step h' t' =>
      cases huniq h h'
      rw [ih t']

theorem accepted_none {O : BlockOps} {Q : PayloadOps} (S : BlockSpec O) (p : Packet O Q) : accepted S ([] : Rules O.BR (Packet O Q)) p = true := by
  unfold accepted accepts
  split <;> rfl

/-- The same file, the same packets: two histories of inserts and reopens, even with different slot capacities, that lead to the same file have inserted the same packets in
the same order. Conversely (for one capacity) the file depends on nothing else: not on the number of sessions, nor on the build. -/
theorem C79_file (hd : DistinctSigs vs) (hw : ∀ b ∈ vs, b.WF) {cap cap' : Nat} (hc : 0 < cap) (hc' : 0 < cap') (chk : Bool)
    {ops ops' : List (Op (blockEnum vs) (PEnum.ops ps))} {data data' : Bytes} {s s' : Storage}
    (h : Reached cap chk ops data s) (h' : Reached cap' chk ops' data' s')
    (hok : ∀ p ∈ log ops, Declared p) (hs : Small cap (log ops)) (hok' : ∀ p ∈ log ops', Declared p) (hs' : Small cap' (log ops')) :
    (data = data' → log ops = log ops') ∧ (log ops = log ops' → cap = cap' → data = data') := by
  constructor
  · rintro rfl
    have y := C32_filtered (S := blockEnumSpec vs hd hw) hc h (fun p hp => (hok p hp).ok) hs []
    have y' := C32_filtered (S := blockEnumSpec vs hd hw) hc' h' (fun p hp => (hok' p hp).ok) hs' []
    have es : s = s' := by
      have := h.read.symm.trans h'.read
      injection this with this
      injection this with this
    subst es
    have e := Yields.det_fuel (f := fun n it => Iter.nextFiltered ([] : Rules (blockEnum vs).BR (Packet (blockEnum vs) (PEnum.ops ps))) data n it)
      (fun h hle => nextFiltered_mono _ _ h hle) y y'
    have hf : ∀ l : List (Packet (blockEnum vs) (PEnum.ops ps)), l.filter (accepted (blockEnumSpec vs hd hw) ([] : Rules (blockEnum vs).BR _)) = l := by
      intro l
      apply List.filter_eq_self.mpr
      intro p _
      exact accepted_none _ p
    rw [hf, hf] at e
    exact (List.map_inj_right (fun a b h => Out.ok.inj h)).mp e
  · rintro e rfl
    obtain ⟨w, e1, d1, _⟩ := C53_file_layout hd hw hc chk ops hok hs
    obtain ⟨w', e2, d2, _⟩ := C53_file_layout hd hw hc chk ops' hok' hs'
    obtain ⟨x, x1, x2⟩ := h.run
    obtain ⟨x', x1', x2'⟩ := h'.run
    rw [e1] at x1; rw [e2] at x1'
    cases x1; cases x1'
    rw [← x2, ← x2', d1, d2, e]

/-- Two block types that share a signature. -/
def twins : List BlockTy := [⟨[1, 2, 3, 4], [.num .u8], true⟩, ⟨[1, 2, 3, 4], [.bool], true⟩]

/-- Distinct signatures are needed: otherwise different packets can have the same bytes. -/
theorem C79_twins : ∃ p q : Packet (blockEnum twins) (PEnum.ops []), (∀ b ∈ p.blocks, b.1 ∈ twins) ∧ (∀ b ∈ q.blocks, b.1 ∈ twins) ∧
    p.blocks.map (fun b => b.1.fields) ≠ q.blocks.map (fun b => b.1.fields) ∧ ∃ w, p.serialize = .ok w ∧ q.serialize = .ok w := by
  refine ⟨⟨[⟨⟨[1, 2, 3, 4], [.num .u8], true⟩, (1, ())⟩], none⟩, ⟨[⟨⟨[1, 2, 3, 4], [.bool], true⟩, (true, ())⟩], none⟩, ?_, ?_, ?_, ?_⟩
  · intro b hb; rw [List.mem_singleton.mp hb]; exact List.mem_cons_self
  · intro b hb; rw [List.mem_singleton.mp hb]; exact List.mem_cons_of_mem _ List.mem_cons_self
  · intro h; cases h
  · exact ⟨_, by decide +kernel, rfl⟩

/-- The hypotheses of `C79_file`: one session or two. -/
example : ∃ data s, Reached 2 true [Op.insert samplePacket, .reopen, .insert samplePacket] data s ∧
    (∀ p ∈ log [Op.insert samplePacket, .reopen, .insert samplePacket], Declared p) ∧ Small 2 (log [Op.insert samplePacket, .reopen, .insert samplePacket]) := by
  have hs : Small 2 (log [Op.insert samplePacket, .reopen, .insert samplePacket]) := by
    have hw : (wire samplePacket).length < 2 ^ 20 := by decide +kernel
    simp only [Small, log, List.map_cons, List.map_nil, List.sum_cons, List.sum_nil, List.length_cons, List.length_nil]
    omega
  have hd : ∀ p ∈ log [Op.insert samplePacket, .reopen, .insert samplePacket], Declared p ∧ p.blocks.length ≤ 256 := by
    intro p hp
    have : p = samplePacket := by
      simp only [log, List.mem_cons, List.not_mem_nil, or_false] at hp
      rcases hp with h | h <;> exact h
    subst this
    exact ⟨samplePacket_declared, by decide⟩
  obtain ⟨w, s, e, e2, _⟩ := C30_generated sampleTypes_distinct sampleTypes_wf (cap := 2) (by decide) true _ hd hs
  exact ⟨w.data, s, ⟨⟨w, e, rfl⟩, e2⟩, fun p hp => (hd p hp).1, hs⟩

end Brec.Props
