import Verif.Props.StorageSteady
/-!
# C119 without the bound on the writer

If a slot is begun behind one that the reader knows in part, `reload` takes packets away (C84), and the program of C119 shows a packet a second time.
-/

namespace Brec.Props

open Brec Rd

variable {O : BlockOps} {Q : PayloadOps} {S : BlockSpec O}

/-- The program of C119 (`Steady`, with `range`), with any batches. -/
inductive Unsteady (cap : Nat) (chk : Bool) : List (Op O Q) → Storage → List (Out (Packet O Q)) → Prop
  | opened {ops : List (Op O Q)} {data : Bytes} {s : Storage} : Reached cap chk ops data s → Unsteady cap chk ops s ((log ops).map .ok)
  | round {ops b : List (Op O Q)} {s s' : Storage} {w : Writer} {r : Out Nat} {l shown : List (Out (Packet O Q))} : Unsteady cap chk ops s shown →
      runOps cap chk (ops ++ b) emptyWriter = some w → reloadReader cap chk s w.data = some (r, s') → byRange cap chk s' w.data (s.count cap) l →
      Unsteady cap chk (ops ++ b) s' (shown ++ l)

/-- What C119 would say of it: what has been shown is a part of the beginning of the log. -/
def C119_unbounded (Q : PayloadOps) (S : BlockSpec O) (cap : Nat) (chk : Bool) : Prop :=
  ∀ (ops : List (Op O Q)) (s : Storage) (shown : List (Out (Packet O Q))), Unsteady cap chk ops s shown → (∀ p ∈ log ops, Storable S p) → Small cap (log ops) →
    shown = ((log ops).take (s.count cap)).map .ok

/-- The packets of the example, all of one size. -/
def looseOps (n : Nat) : List (Op (blockEnum sampleTypes) (PEnum.ops [])) := List.replicate n (.insert samplePacket)

/-- Slots of three packets. The reader is opened on two packets; then there are four, then five. What it counts each time, and whether it finds packet 1 at the end. -/
def looseRun (chk : Bool) : Option (Nat × Nat × Nat × Bool) :=
  match runOps 3 chk (looseOps 2) emptyWriter, runOps 3 chk (looseOps 2 ++ looseOps 2) emptyWriter, runOps 3 chk (looseOps 2 ++ looseOps 2 ++ looseOps 1) emptyWriter with
  | some w0, some w1, some w2 =>
    match openReader chk w0.data with
    | some (.ok s0) =>
      match reloadReader 3 chk s0 w1.data with
      | some (_, s1) =>
        match reloadReader 3 chk s1 w2.data with
        | some (_, s2) => some (s0.count 3, s1.count 3, s2.count 3, match s2.nth (O := blockEnum sampleTypes) (Q := PEnum.ops []) 3 chk w2.data 1 with | .ok (some _) => true | _ => false)
        | _ => none
      | _ => none
    | _ => none
  | _, _, _ => none

theorem looseRun_eq (chk : Bool) : looseRun chk = some (2, 1, 2, true) := by
  cases chk <;> decide +kernel

/-- **C119 needs the bound on the writer**: the reader counts two packets, then one, then two again; the program has shown three packets where the reader knows two, packet 1 twice. -/
theorem C119_unbounded_not (chk : Bool) : ¬ C119_unbounded (PEnum.ops []) sampleSpec 3 chk := by
  intro hfull
  have h := looseRun_eq chk
  unfold looseRun at h
  split at h
  · rename_i w0 w1 w2 e0 e1 e2
    split at h
    · rename_i s0 eo
      split at h
      · rename_i r1 s1 er1
        split at h
        · rename_i r2 s2 er2
          have h := Option.some.inj h
          obtain ⟨h0, h⟩ := Prod.mk.inj h
          obtain ⟨h1, h⟩ := Prod.mk.inj h
          obtain ⟨h2, h3⟩ := Prod.mk.inj h
          obtain ⟨p, hp⟩ : ∃ p, s2.nth (O := blockEnum sampleTypes) (Q := PEnum.ops []) 3 chk w2.data 1 = .ok (some p) := by
            revert h3
            generalize s2.nth (O := blockEnum sampleTypes) (Q := PEnum.ops []) 3 chk w2.data 1 = x
            intro h3
            match x, h3 with
            | .ok (some p), _ => exact ⟨p, rfl⟩
          have l0 : Unsteady 3 chk (looseOps 2) s0 _ := .opened ⟨⟨w0, e0, rfl⟩, eo⟩
          have l1 := Unsteady.round (l := []) l0 e1 er1 (by
            unfold byRange
            rw [h0, h1]
            exact .done (s' := ⟨2, 0⟩) (by simp [Range.next]))
          have l2 := Unsteady.round (l := [.ok p]) l1 e2 er2 (by
            unfold byRange
            rw [h1, h2]
            refine .step (s' := ⟨2, 0⟩) ?_ (.done (s' := ⟨2, 0⟩) (by simp [Range.next]))
            unfold Range.next
            rw [if_neg (by decide)]
            simp only
            rw [hp])
          have hlog : log (looseOps 2 ++ looseOps 2 ++ looseOps 1) = List.replicate 5 samplePacket := rfl
          have := hfull _ _ _ l2 (by rw [hlog]; intro p hp; rw [(List.mem_replicate.mp hp).2]; exact sample_storable)
            (by rw [hlog]; simp [Small, wire_sample_length])
          have := congrArg List.length this
          rw [h2, hlog] at this
          have hl2 : (log (looseOps 2)).length = 2 := rfl
          simp only [List.length_append, List.length_map, List.length_take, List.length_replicate, List.length_cons, List.length_nil, hl2] at this
          omega
        · cases h
      · cases h
    · cases h
  · cases h

end Brec.Props
