import Verif.StorageLemmas
import Verif.NoPanic
/-!
# Slot tables in arbitrary bytes
-/

namespace Brec

namespace Slot

theorem run_readExact_inv {n : Nat} {c c' : Cur} {b : Bytes} (h : c.run (P.readExact n) = (.ok b, c')) :
    b.length = n ∧ c.rest = b ++ c'.rest ∧ c'.pos = c.pos + n ∧ c'.data = c.data ∧ c'.chk = c.chk := by
  by_cases hn : n ≤ c.rest.length
  · rw [Cur.run_ok (P.readExact_ok hn)] at h
    simp only [Prod.mk.injEq, Out.ok.injEq] at h
    obtain ⟨rfl, rfl⟩ := h
    refine ⟨by simp; omega, ?_, by simp only [List.length_drop]; omega, rfl, rfl⟩
    have : ({ c with pos := c.pos + (c.rest.length - (c.rest.drop n).length) } : Cur).rest = c.rest.drop n := by
      simp only [Cur.rest, List.length_drop, List.drop_drop]
      simp only [Cur.rest, List.length_drop] at hn
      congr 1; omega
    rw [this, List.take_append_drop]
  · simp [Cur.run, P.readExact_short (show c.rest.length < n by omega)] at h

theorem tryReadHeader_inv {c c1 : Cur} {cap : Nat} (h : tryReadHeader c = (.ok (.success cap), c1)) :
    cap < 2 ^ 64 ∧ (∃ t, c.rest = SLOT_SIG ++ (leBytes 8 cap ++ t) ∧ c1.rest = t) ∧ c1.chk = c.chk := by
  unfold tryReadHeader at h
  split at h
  · simp at h
  · simp at h
  · split at h
    · simp at h
    · split at h
      · simp at h
      · simp at h
      · rename_i sig c3 h3
        split at h
        · simp at h
        · rename_i hsig
          split at h
          · simp at h
          · simp at h
          · rename_i b c4 h4
            simp only [Prod.mk.injEq, Out.ok.injEq, Status.success.injEq] at h
            obtain ⟨rfl, rfl⟩ := h
            obtain ⟨l3, r3, _, _, k3⟩ := run_readExact_inv h3
            obtain ⟨l4, r4, _, _, k4⟩ := run_readExact_inv h4
            have hsig : sig = SLOT_SIG := by simpa using hsig
            refine ⟨?_, ⟨_, ?_, rfl⟩, by rw [k4, k3]⟩
            · have := leNat_lt b
              rw [l4] at this
              exact this
            · rw [r3, r4, hsig, leBytes_leNat' l4]

theorem tryReadHeader_np {c : Cur} (h : c.pos ≤ c.data.length ∨ c.chk = false) : (tryReadHeader c).1 ≠ .panic := by
  have hrem : ∃ n, c.remaining = .ok n := by
    unfold Cur.remaining
    split
    · exact ⟨_, rfl⟩
    · rcases h with h | h
      · omega
      · rw [h]; exact ⟨_, rfl⟩
  obtain ⟨n, hrem⟩ := hrem
  unfold tryReadHeader
  rw [hrem]
  simp only
  split
  · simp
  · split
    · simp
    · rename_i hx
      have := Cur.run_np (P.readExact_np 8) c
      rw [hx] at this
      exact absurd rfl this
    · split
      · simp
      · split
        · simp
        · rename_i hx
          exact absurd (congrArg Prod.fst hx) (Cur.run_np (P.readExact_np 8) _)
        · simp

theorem readLengths_np (n : Nat) : (readLengths n).NP := by
  induction n with
  | zero => exact P.pure_np _
  | succ n ih => exact P.NP.bind (P.readExact_np 8) fun _ => P.NP.bind ih fun _ => P.pure_np _

theorem readBody_np {n : Nat} (h : n * 8 < 2 ^ 63) : (readBody n).NP := by
  unfold readBody
  refine P.NP.bind (P.lift_np (by simp [alloc, h])) fun _ => P.NP.bind (readLengths_np n) fun _ => P.NP.bind (P.readExact_np 4) fun _ => ?_
  split
  · exact P.pure_np _
  · exact P.fail_np _

/-- With a capacity whose table is in reach, or (without overflow checks) just no overflow of its size, `try_read` does not panic. -/
theorem tryRead_np {c : Cur} (hpos : c.pos ≤ c.data.length ∨ c.chk = false) (hlen : c.data.length < 2 ^ 63)
    (hcap : ∀ cap t, cap < 2 ^ 64 → c.rest = SLOT_SIG ++ (leBytes 8 cap ++ t) →
      if c.chk then cap ≤ 1 ∨ 20 + 8 * cap ≤ c.rest.length else 20 + 8 * cap < 2 ^ 64) :
    (tryRead c).1 ≠ .panic := by
  have hh := tryReadHeader_np hpos
  unfold tryRead
  cases hrem : c.remaining with
  | err e => simp
  | panic =>
    unfold Cur.remaining at hrem
    split at hrem
    · simp at hrem
    · rcases hpos with h | h
      · omega
      · simp [h] at hrem
  | ok len =>
    simp only
    split
    · simp
    · rename_i hx; rw [hx] at hh; exact absurd rfl hh
    · simp
    · rename_i cap c1 hx
      obtain ⟨h64, ⟨t, hr, h1⟩, hk⟩ := tryReadHeader_inv hx
      have hc := hcap cap t h64 hr
      have hrl : c.rest.length = 16 + t.length := by rw [hr]; simp [SLOT_SIG]; omega
      have hrl2 : c.rest.length = c.data.length - c.pos := by simp [Cur.rest]
      have hple : c.pos ≤ c.data.length := by omega
      rw [Cur.remaining_ok hple] at hrem
      injection hrem with hrem
      have hu : u64 c.chk (SLOT_HSIZE + cap * 8 + 4) = .ok (SLOT_HSIZE + cap * 8 + 4) := by
        apply u64_ok
        simp only [SLOT_HSIZE]
        split at hc <;> omega
      rw [hu]
      simp only
      split
      · rename_i hlt
        simp only [SLOT_HSIZE] at hlt ⊢
        unfold missing
        split
        · simp
        · rename_i hgt
          simp only [HSIZE] at hgt
          split
          · rename_i hk
            rw [if_pos hk] at hc
            rcases hc with hc | hc <;> omega
          · simp
      · rename_i hge
        simp only [SLOT_HSIZE] at hge
        have := Cur.run_np (readBody_np (n := cap) (by omega)) c1
        split
        · simp
        · simp
        · rename_i hy; rw [hy] at this; exact absurd rfl this

theorem readLengths_total : ∀ {n : Nat} {s : Bytes}, 8 * n ≤ s.length → ∃ ls, (readLengths n).run s = (.ok ls, s.drop (8 * n))
  | 0, s, _ => ⟨[], by simp [readLengths]⟩
  | n + 1, s, h => by
    obtain ⟨ls, e⟩ := readLengths_total (n := n) (s := s.drop 8) (by simp; omega)
    refine ⟨leNat (s.take 8) :: ls, ?_⟩
    unfold readLengths
    rw [P.bind_ok (P.readExact_ok (by omega)), P.bind_ok e, List.drop_drop, show 8 + 8 * n = 8 * (n + 1) by omega]
    rfl

/-- With all its bytes there, the rest of a table is accepted or the CRC does not match. -/
theorem readBody_total {n : Nat} {s : Bytes} (hn : n * 8 < 2 ^ 63) (h : 8 * n + 4 ≤ s.length) :
    ((readBody n).run s).1 = .err .crcDismatch ∨ ∃ q, ((readBody n).run s).1 = .ok q ∧ q.capacity = n := by
  obtain ⟨ls, e⟩ := readLengths_total (n := n) (s := s) (by omega)
  unfold readBody
  rw [P.bind_ok (a := ()) (s' := s) (by simp [P.lift, alloc, hn]), P.bind_ok e, P.bind_ok (P.readExact_ok (by simp; omega))]
  split
  · exact .inr ⟨_, rfl, rfl⟩
  · exact .inl rfl

/-- A table whose bytes are all there, but whose content is damaged. -/
theorem tryRead_damaged {c : Cur} {cap : Nat} (hpos : c.pos ≤ c.data.length) (hcap : cap * 8 < 2 ^ 63) {sig t : Bytes} (hs : sig.length = 8)
    (hr : c.rest = sig ++ (leBytes 8 cap ++ t)) (hl : 8 * cap + 4 ≤ t.length)
    (hno : ∀ q, (tryRead c).1 = .ok (.success q) → q.capacity ≠ cap) :
    (tryRead c).1 = .err (if sig = SLOT_SIG then .crcDismatch else .sigDismatch) := by
  have hlen : c.rest.length = 16 + t.length := by rw [hr]; simp [hs]; omega
  by_cases hsig : sig = SLOT_SIG
  · subst hsig
    rw [if_pos rfl]
    revert hno
    unfold tryRead
    rw [Cur.remaining_ok hpos]
    simp only
    rw [tryReadHeader_eq (by omega) hpos hr]
    simp only
    rw [u64_ok (by simp only [SLOT_HSIZE]; omega)]
    simp only
    rw [if_neg (by simp only [SLOT_HSIZE]; omega)]
    have hr2 : ({ c with pos := c.pos + 16 } : Cur).rest = t := by
      rw [← List.append_assoc] at hr
      have := Cur.rest_add hr
      simpa [SLOT_SIG] using this
    have ht := readBody_total (n := cap) (s := t) hcap hl
    intro hno
    have hf : (Cur.run (readBody cap) { c with pos := c.pos + 16 }).1 = ((readBody cap).run t).1 := by
      unfold Cur.run; rw [hr2]
    generalize Cur.run (readBody cap) { c with pos := c.pos + 16 } = x at hno hf ⊢
    obtain ⟨o, c2⟩ := x
    dsimp only at hf
    subst hf
    rcases ht with ht | ⟨q, ht, hq⟩
    · rw [ht]
    · rw [ht] at hno
      exact absurd hq (hno q rfl)
  · rw [if_neg hsig]
    unfold tryRead
    rw [Cur.remaining_ok hpos]
    simp only
    unfold tryReadHeader
    rw [Cur.remaining_ok hpos]
    simp only
    rw [if_neg (by rw [hlen, SLOT_HSIZE]; omega), Cur.run_take hr (P.readExact_append' hs _)]
    simp only
    rw [if_pos hsig]

end Slot

end Brec
