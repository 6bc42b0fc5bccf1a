import Verif.Props.StorageSteady
/-!
# C120: following a storage by opening it anew

`reload` is wrong in some cases (C37, C84, C87, C98). A program that opens the storage anew in each round, and reads on from the number of packets it has seen, is always right.
-/

namespace Brec.Props

open Brec Rd

variable {O : BlockOps} {Q : PayloadOps} {S : BlockSpec O}

/-! ## Specification -/

/-- The program: after each of the batches it opens the storage and reads on from packet `n`, the number of packets there were before. For each round, what has been read. -/
inductive Anew (cap : Nat) (chk : Bool) (read : Storage → Bytes → Nat → List (Out (Packet O Q)) → Prop) : List (Op O Q) → Nat → List (List (Op O Q)) → List (List (Out (Packet O Q))) → Prop
  | done {ops : List (Op O Q)} {n : Nat} : Anew cap chk read ops n [] []
  | round {ops b : List (Op O Q)} {n : Nat} {data : Bytes} {s : Storage} {l : List (Out (Packet O Q))} {bs : List (List (Op O Q))} {r : List (List (Out (Packet O Q)))} :
      Reached cap chk (ops ++ b) data s → read s data n l → Anew cap chk read (ops ++ b) (s.count cap) bs r → Anew cap chk read ops n (b :: bs) (l :: r)

/-! ## Lemmas -/

theorem anew_iff {cap : Nat} (hc : 0 < cap) {chk : Bool} {read : Storage → Bytes → Nat → List (Out (Packet O Q)) → Prop} {news : List (Packet O Q) → List (Out (Packet O Q))}
    (hR : ReadsOn S cap read news) : ∀ (bs : List (List (Op O Q))) (ops : List (Op O Q)), (∀ p ∈ log (ops ++ bs.flatten), Storable S p) → Small cap (log (ops ++ bs.flatten)) →
      ∀ r, Anew cap chk read ops (log ops).length bs r ↔ r = bs.map fun b => news (log b)
  | [], ops, _, _, r => by
    constructor
    · intro h; cases h; rfl
    · intro h; rw [h]; exact .done
  | b :: bs, ops, hok, hs, r => by
    have e := log_flatten_left (ops := ops) (b := b) (bs := bs)
    have hok1 : ∀ p ∈ log (ops ++ b), Storable S p := fun p hp => hok p (by rw [e]; exact List.mem_append_left _ hp)
    have hs1 : Small cap (log (ops ++ b)) := by rw [e] at hs; exact hs.left
    have ih := anew_iff hc (chk := chk) hR bs (ops ++ b) (by rw [List.append_assoc, ← List.flatten_cons]; exact hok) (by rw [List.append_assoc, ← List.flatten_cons]; exact hs)
    have step : ∀ {data s}, Reached cap chk (ops ++ b) data s → s.count cap = (log (ops ++ b)).length ∧ ∀ l, read s data (log ops).length l ↔ l = news (log b) := by
      intro data s h
      obtain ⟨gs, v, hd, f, _⟩ := h.view hc (fun p hp => (hok1 p hp).ok) hs1
      refine ⟨by rw [v.count, f, List.length_map], fun l => ?_⟩
      rw [hd]
      exact hR.rest v (by rw [f, log_append]) (by rw [← log_append]; exact hok1) l
    constructor
    · intro h
      cases h with
      | round h1 h2 h3 =>
        rw [(step h1).1] at h3
        rw [((step h1).2 _).mp h2, (ih _).mp h3]
        rfl
    · intro h
      obtain ⟨data, s, h1⟩ := Reached.exists (S := S) hc chk (ops ++ b) hok1 hs1
      rw [h]
      exact .round h1 (((step h1).2 _).mpr rfl) (by rw [(step h1).1]; exact (ih _).mpr rfl)

/-! ## What holds -/

/-- **C120, with `range`.** In every round exactly the packets of the batch are shown, whatever the batches are: they may begin and end anywhere in a slot, fill several, and be followed by a
reopening of the writer. -/
theorem C120_range {cap : Nat} (hc : 0 < cap) {chk : Bool} (ops : List (Op O Q)) (bs : List (List (Op O Q))) (hok : ∀ p ∈ log (ops ++ bs.flatten), Storable S p)
    (hs : Small cap (log (ops ++ bs.flatten))) (r : List (List (Out (Packet O Q)))) :
    Anew cap chk (byRange cap chk) ops (log ops).length bs r ↔ r = bs.map fun b => (log b).map .ok :=
  anew_iff hc (reads_range hc chk) bs ops hok hs r

/-- **C120, with `range_filtered`.** Exactly the accepted packets of the batch. -/
theorem C120_filtered {cap : Nat} (hc : 0 < cap) {chk : Bool} (rules : Rules O.BR (Packet O Q)) (ops : List (Op O Q)) (bs : List (List (Op O Q)))
    (hok : ∀ p ∈ log (ops ++ bs.flatten), Storable S p) (hs : Small cap (log (ops ++ bs.flatten))) (r : List (List (Out (Packet O Q)))) :
    Anew cap chk (byRangeFiltered cap rules) ops (log ops).length bs r ↔ r = bs.map fun b => ((log b).filter (accepted S rules)).map .ok :=
  anew_iff hc (reads_filtered hc rules) bs ops hok hs r

/-- The hypotheses are met where `reload` loses packets (C84): slots of two packets, one packet known, and then two more, so that a further slot is begun. -/
example (chk : Bool) : Anew 2 chk (byRange 2 chk) ([.insert samplePacket] : List (Op (blockEnum sampleTypes) (PEnum.ops []))) 1 [[.insert otherPacket, .reopen, .insert samplePacket], []]
    [[.ok otherPacket, .ok samplePacket], []] := by
  refine (C120_range (S := sampleSpec) (by decide) [.insert samplePacket] _ ?_ ?_ _).mpr rfl
  · intro p hp
    simp only [log, List.flatten_cons, List.flatten_nil, List.nil_append, List.cons_append, List.append_nil, List.mem_cons, List.not_mem_nil, or_false] at hp
    rcases hp with rfl | rfl | rfl
    · exact sample_storable
    · exact otherPacket_storable
    · exact sample_storable
  · simp [Small, log, wire_sample_length, wire_other_length]

end Brec.Props
