import Verif.Props.StorageDamageFiltered
/-!
# C58: `range_filtered()` over a damaged storage
-/

namespace Brec.Props

open Rd

variable {O : BlockOps} {Q : PayloadOps} {S : BlockSpec O}

/-- The items up to the `n`-th packet among them. -/
def upto {α : Type} : Nat → List (Out α) → List (Out α)
  | 0, _ => []
  | _, [] => []
  | n + 1, .ok a :: t => .ok a :: upto n t
  | n + 1, x :: t => x :: upto (n + 1) t

/-- What a look by index shows. -/
def lookReply : Out (Option (Packet.Look (Packet O Q))) → Option (Out (Packet O Q))
  | .ok none => none
  | .ok (some (.accepted _ p)) => some (.ok p)
  | .ok (some (.denied _)) => none
  | .ok (some (.notEnough n)) => some (.err (.notEnoughData n))
  | .err e => some (.err e)
  | .panic => some .panic

theorem range_filtered_over {cap : Nat} {rules : Rules O.BR (Packet O Q)} {s : Storage} {data : Bytes} {n : Nat}
    (hin : ∀ j, j < n → s.nthFiltered cap rules data j ≠ .ok none) (hnp : ∀ j, s.nthFiltered cap rules data j ≠ .panic)
    (hout : ∀ j, n ≤ j → s.nthFiltered cap rules data j = .ok none) : ∀ (m start len : Nat), n - start = m →
    Loops (fun i r => ∃ fuel, Range.nextFiltered cap rules s data fuel i = some r) ⟨start, len⟩
      (upto len ((List.range' start m).filterMap fun j => lookReply (s.nthFiltered cap rules data j)))
  | m, start, 0, _ => by
    rw [upto]
    exact .done (s' := ⟨start, 0⟩) ⟨1, rfl⟩
  | 0, start, len + 1, h => by
    rw [List.range'_zero, List.filterMap_nil, upto]
    · refine .done (s' := ⟨start + 1, len + 1⟩) ⟨1, ?_⟩
      rw [Range.nextFiltered.eq_def]
      simp only
      rw [if_neg (by simp), hout start (by omega)]
    · simp
  | m + 1, start, len + 1, h => by
    have ih1 := range_filtered_over hin hnp hout m (start + 1) (len + 1) (by omega)
    have ih0 := range_filtered_over hin hnp hout m (start + 1) len (by omega)
    rw [List.range'_succ, List.filterMap_cons]
    generalize (List.range' (start + 1) m).filterMap (fun j => lookReply (s.nthFiltered cap rules data j)) = rest at ih0 ih1 ⊢
    have i1 := hin start (by omega)
    have i2 := hnp start
    have e : ∀ fuel, Range.nextFiltered cap rules s data (fuel + 1) ⟨start, len + 1⟩ = match s.nthFiltered cap rules data start with
      | .ok none => some (none, ⟨start + 1, len + 1⟩)
      | .ok (some (.accepted _ p)) => some (some (.ok p), ⟨start + 1, len⟩)
      | .ok (some (.denied _)) => Range.nextFiltered cap rules s data fuel ⟨start + 1, len + 1⟩
      | .ok (some (.notEnough n)) => some (some (.err (.notEnoughData n)), ⟨start + 1, len + 1⟩)
      | .err e => some (some (.err e), ⟨start + 1, len + 1⟩)
      | .panic => some (some .panic, ⟨start + 1, len + 1⟩) := by
      intro fuel
      rw [Range.nextFiltered, if_neg (by simp)]
      simp only [Nat.add_sub_cancel]
      rfl
    cases hn : s.nthFiltered cap rules data start with
    | ok o =>
      cases o with
      | none => exact absurd hn i1
      | some k =>
        cases k with
        | accepted k p =>
          simp only [lookReply, upto]
          exact .step ⟨1, by rw [e 0, hn]⟩ (by simp) ih0
        | denied k =>
          simp only [lookReply]
          have hf : ∀ {r}, (∃ fuel, Range.nextFiltered cap rules s data fuel ⟨start + 1, len + 1⟩ = some r) →
              ∃ fuel, Range.nextFiltered cap rules s data fuel ⟨start, len + 1⟩ = some r := by
            rintro r ⟨fuel, h⟩
            exact ⟨fuel + 1, by rw [e fuel, hn]; exact h⟩
          generalize upto (len + 1) rest = l at ih1 ⊢
          cases ih1 with
          | done h => exact .done (hf h)
          | panic h => exact .panic (hf h)
          | step h hp ht => exact .step (hf h) hp ht
        | notEnough k =>
          simp only [lookReply, upto]
          exact .step ⟨1, by rw [e 0, hn]⟩ (by simp) ih1
    | err x =>
      simp only [lookReply, upto]
      exact .step ⟨1, by rw [e 0, hn]⟩ (by simp) ih1
    | panic => exact absurd hn i2

/-- **C58, `range_filtered()`.** Each packet has its lookReply, whatever happened to the others: one that is not hit comes up if the rules accept it, and is
passed over if not. The range shows the answers from its start on, up to as many packets as were asked for. -/
theorem C58_range_filtered (hO : O.Safe) (hQ : Q.Safe) (rules : Rules O.BR (Packet O Q)) {cap : Nat} (hc : 0 < cap) {chk : Bool} {ops : List (Op O Q)} {data : Bytes}
    {s : Storage} (h : Reached cap chk ops data s) (hok : ∀ p ∈ log ops, Storable S p) (hs : Small cap (log ops)) :
    ∃ place : Nat → Nat, (∀ i p, (log ops)[i]? = some p → s.offsetOf cap i = .ok (some (place i)) ∧ wire p <+: data.drop (place i)) ∧
      ∀ hits, Hits (log ops) hits → (∀ n, Announced (patches place data hits) n → n < 2 ^ 63) →
        ∃ ans : Nat → Option (Out (Packet O Q)), (∀ j, ans j ≠ some .panic) ∧
          (∀ j p, (log ops)[j]? = some p → (∀ h ∈ hits, h.1 ≠ j) → ans j = if accepted S rules p then some (.ok p) else none) ∧
          ∀ start len, Loops (fun i r => ∃ fuel, Range.nextFiltered cap rules s (patches place data hits) fuel i = some r) ⟨start, len⟩
            (upto len ((List.range' start ((log ops).length - start)).filterMap ans)) := by
  obtain ⟨gs, v, hd, f, hl⟩ := h.view hc (fun p hp => (hok p hp).ok) hs
  subst hd
  refine ⟨placeOf cap gs, ?_, ?_⟩
  · intro i p hp
    obtain ⟨a, t, ho, e, hlen⟩ := offsetOf_some hc v.groups v.inner (n := i) (x := wire p) (by rw [f, List.getElem?_map, hp]; rfl)
    refine ⟨by rw [ho, placeOf, hlen], t, ?_⟩
    rw [e, placeOf, ← hlen, List.drop_left]
  · intro hits hh ha
    obtain ⟨gs', hg', hm, e, hj, _⟩ := patches_file hc hits v.groups (by
      intro x hx
      obtain ⟨p, hp, hpl⟩ := hh x hx
      exact ⟨wire p, by rw [f, List.getElem?_map, hp]; rfl, hpl⟩)
    rw [e] at ha ⊢
    have htab : s.slots.map (·.inner) = gs'.map (table cap) := by
      rw [v.inner, tables_congr hm]
    have hfl : gs'.flatten.length = (log ops).length := by
      have := congrArg (fun x : List (List Nat) => x.flatten.length) hm
      simp only [← List.map_flatten, List.length_map] at this
      rw [this, f, List.length_map]
    have hat : ∀ j, j < (log ops).length → ∃ a x t, gs'.flatten[j]? = some x ∧ s.offsetOf cap j = .ok (some (List.length a)) ∧ fileOf cap gs' = a ++ (x ++ t) := by
      intro j hlt
      obtain ⟨a, t, h1, h2, _⟩ := offsetOf_some hc hg' htab (n := j) (x := gs'.flatten[j]'(by omega)) (List.getElem?_eq_getElem (by omega))
      exact ⟨a, _, t, List.getElem?_eq_getElem (by omega), h1, h2⟩
    have hnp : ∀ j, s.nthFiltered cap rules (fileOf cap gs') j ≠ .panic := by
      intro j
      unfold Storage.nthFiltered
      by_cases hlt : j < (log ops).length
      · obtain ⟨a, x, t, _, h1, h2⟩ := hat j hlt
        rw [h1]
        dsimp only
        have := C49_filtered_partial hO hQ rules (List.drop a.length (fileOf cap gs')) (fun k s' hk => ha _ (announced_header ⟨a.length, List.prefix_rfl⟩ hk))
        revert this
        generalize ((Packet.filtered Q rules).run (List.drop a.length (fileOf cap gs'))).1 = r
        rcases r with (_ | _ | _) | _ | _ <;> simp
      · rw [offsetOf_none hc hg' htab (List.getElem?_eq_none (by omega))]
        simp
    refine ⟨fun j => lookReply (s.nthFiltered cap rules (fileOf cap gs') j), ?_, ?_, ?_⟩
    · intro j
      show lookReply (s.nthFiltered cap rules (fileOf cap gs') j) ≠ some .panic
      have := hnp j
      revert this
      generalize s.nthFiltered cap rules (fileOf cap gs') j = r
      rcases r with (_ | (_ | _ | _)) | _ | _ <;> simp [lookReply]
    · intro j p hp hno
      obtain ⟨a, x, t, hx, h1, h2⟩ := hat j (List.getElem?_eq_some_iff.mp hp).1
      have hxw : x = wire p := by
        have := hj j hno
        rw [hx, f, List.getElem?_map, hp] at this
        simpa using this
      obtain ⟨k, hk⟩ := filtered_wire (hok p (List.mem_of_getElem? hp)).ok rules t
      show lookReply (s.nthFiltered cap rules (fileOf cap gs') j) = _
      unfold Storage.nthFiltered
      rw [h1]
      dsimp only
      rw [h2, List.drop_left, hxw, hk]
      by_cases hacc : accepted S rules p = true
      · rw [if_pos hacc, if_pos hacc]; rfl
      · rw [if_neg hacc, if_neg hacc]; rfl
    · intro start len
      refine range_filtered_over ?_ hnp ?_ _ start len rfl
      · intro j hlt
        obtain ⟨a, x, t, hx, h1, h2⟩ := hat j hlt
        unfold Storage.nthFiltered
        rw [h1]
        dsimp only
        generalize ((Packet.filtered Q rules).run (List.drop a.length (fileOf cap gs'))).1 = r
        rcases r with (_ | _ | _) | _ | _ <;> simp
      · intro j hge
        unfold Storage.nthFiltered
        rw [offsetOf_none hc hg' htab (List.getElem?_eq_none (by omega))]

/-- No enormous packet is announced in the damaged file of the example. -/
theorem maimed_announced {chk : Bool} {data : Bytes} {s : Storage} (h : Reached 2 chk twoPackets data s) {place : Nat → Nat}
    (hp : s.offsetOf 2 0 = .ok (some (place 0))) : ∀ n, Announced (patches place data [(0, maimed)]) n → n < 2 ^ 63 := by
  have hcap : (0 : Nat) < 2 := by decide
  obtain ⟨gs, v, hd, f, hlen⟩ := h.view (S := sampleSpec) hcap (fun p hp => (twoPackets_storable p hp).ok) twoPackets_small_two
  rw [twoPackets_log] at f
  have hgs : gs = [[wire samplePacket, wire otherPacket]] := by
    refine groups_unique hcap v.groups ⟨?_, ?_, ?_⟩ (by rw [f]; rfl)
    · intro g hg
      rw [List.mem_singleton.mp hg]
      refine ⟨?_, by simp⟩
      intro w hw
      rcases List.mem_cons.mp hw with rfl | hw
      · decide +kernel
      · rw [List.mem_singleton.mp hw]; decide +kernel
    · intro g hg
      rw [List.mem_singleton.mp hg]; simp
    · simp
  have hoff : s.offsetOf 2 0 = .ok (some 36) := by
    obtain ⟨a, t, ho, _, hl⟩ := offsetOf_some hcap v.groups v.inner (n := 0) (x := wire samplePacket) (by rw [hgs]; rfl)
    rw [ho, hl, hgs]
    rfl
  have e : place 0 = 36 := by
    rw [hoff] at hp
    injection hp with hp; injection hp with hp; exact hp.symm
  have hpl : patches place data [(0, maimed)] = (table 2 [wire samplePacket, wire otherPacket]).enc ++ (maimed ++ wire otherPacket) := by
    have : patches place data [(0, maimed)] = patch data 36 maimed := by
      simp only [patches, List.foldl_cons, List.foldl_nil, e]
    rw [this, hd, hgs]
    decide +kernel
  intro n hn
  rw [hpl] at hn
  obtain ⟨pos, hlt, h8, hv⟩ := announced_at hn
  have hall : ∀ pos < 286, (((table 2 [wire samplePacket, wire otherPacket]).enc ++ (maimed ++ wire otherPacket)).drop pos).take 8 = PACKET_SIG →
      leNat ((((table 2 [wire samplePacket, wire otherPacket]).enc ++ (maimed ++ wire otherPacket)).drop (pos + 8)).take 8) < 2 ^ 63 := by
    decide +kernel
  have hll : ((table 2 [wire samplePacket, wire otherPacket]).enc ++ (maimed ++ wire otherPacket)).length = 286 := by decide +kernel
  rw [← hv]
  exact hall pos (by rw [← hll]; exact hlt) h8

/-- The hypotheses are met: a storage of two packets, the first of them damaged; the second comes up. -/
example (chk : Bool) : ∃ data s data', Reached 2 chk twoPackets data s ∧
    Loops (fun i r => ∃ fuel, Range.nextFiltered 2 ([.byBlocks fun bs => !bs.isEmpty] : Rules _ (Packet (blockEnum sampleTypes) (PEnum.ops []))) s data' fuel i = some r)
      ⟨1, 5⟩ [.ok otherPacket] := by
  have hcap : (0 : Nat) < 2 := by decide
  obtain ⟨data, s, h⟩ := Reached.exists (S := sampleSpec) (cap := 2) hcap chk twoPackets twoPackets_storable twoPackets_small_two
  obtain ⟨place, hp, hi⟩ := C58_range_filtered (S := sampleSpec) (blockEnum_safe _) (PEnum.ops_safe _)
    ([.byBlocks fun bs => !bs.isEmpty] : Rules _ (Packet (blockEnum sampleTypes) (PEnum.ops []))) hcap h twoPackets_storable twoPackets_small_two
  obtain ⟨ans, _, hans, hl⟩ := hi [(0, maimed)] (by
    intro h hh
    rw [List.mem_singleton.mp hh, twoPackets_log]
    exact ⟨samplePacket, rfl, maimed_length⟩) (maimed_announced h (hp 0 samplePacket (by rw [twoPackets_log]; rfl)).1)
  have h1 := hans 1 otherPacket (by rw [twoPackets_log]; rfl) (by simp)
  rw [if_pos (by decide +kernel)] at h1
  have := hl 1 5
  rw [twoPackets_log] at this
  have e : (List.range' 1 ([samplePacket, otherPacket].length - 1)).filterMap ans = [.ok otherPacket] := by
    simp [h1]
  rw [e] at this
  exact ⟨data, s, _, h, this⟩

end Brec.Props
