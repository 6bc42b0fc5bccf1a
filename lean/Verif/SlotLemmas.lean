import Verif.Slot
/-!
# Lemmas about slots
-/

namespace Brec

theorem u64_ok {chk : Bool} {n : Nat} (h : n < 2 ^ 64) : u64 chk n = .ok n := by simp [u64, h]

namespace Slot

/-- A slot as the code creates them: as many lengths as the capacity says, all of them `u64`, the CRC of its content, and a size that
can be allocated. -/
structure WF (s : Slot) : Prop where
  len : s.lengths.length = s.capacity
  small : ∀ l ∈ s.lengths, l < 2 ^ 64
  cap : s.capacity * 8 < 2 ^ 63
  crc : s.crc = crcOf s.capacity s.lengths

/-- The bytes of a slot table. -/
def enc (s : Slot) : Bytes := SLOT_SIG ++ leBytes 8 s.capacity ++ s.lengths.flatMap (leBytes 8) ++ s.crc

theorem lens_length (ls : List Nat) : (ls.flatMap (leBytes 8)).length = 8 * ls.length := by
  induction ls with
  | nil => rfl
  | cons l ls ih => simp [ih]; omega

theorem WF.enc_length {s : Slot} (h : s.WF) : s.enc.length = s.size := by
  simp only [enc, List.length_append, leBytes_length, lens_length, h.len, h.crc, crcOf, crcBytes_length, size, SLOT_SIG, SLOT_HSIZE,
    List.length_cons, List.length_nil]
  omega

theorem WF.bytes {s : Slot} (h : s.WF) : s.bytes = .ok s.enc := by
  have := h.enc_length
  unfold Slot.bytes
  simp only [enc] at this ⊢
  rw [if_neg (by omega), this]
  simp

theorem readLengths_run (ls : List Nat) (h : ∀ l ∈ ls, l < 2 ^ 64) (s : Bytes) :
    (readLengths ls.length).run (ls.flatMap (leBytes 8) ++ s) = (.ok ls, s) := by
  induction ls with
  | nil => rfl
  | cons l ls ih =>
    have hl : l < 256 ^ 8 := by have := h l (by simp); omega
    simp only [List.length_cons, readLengths, List.flatMap_cons, List.append_assoc]
    rw [P.bind_ok (P.readExact_append' (leBytes_length 8 l) _), P.bind_ok (ih (fun x hx => h x (by simp [hx])))]
    simp [leNat_leBytes_of_lt hl]

theorem readLengths_inv : ∀ {n : Nat} {s t : Bytes} {ls : List Nat}, (readLengths n).run s = (.ok ls, t) →
    ls.length = n ∧ s = ls.flatMap (leBytes 8) ++ t ∧ ∀ l ∈ ls, l < 2 ^ 64
  | 0, s, t, ls, h => by
    simp only [readLengths, P.pure_run, Prod.mk.injEq, Out.ok.injEq] at h
    obtain ⟨rfl, rfl⟩ := h
    simp
  | n + 1, s, t, ls, h => by
    simp only [readLengths] at h
    by_cases h8 : 8 ≤ s.length
    · rw [P.bind_ok (P.readExact_ok h8), P.bind_run] at h
      match hx : (readLengths n).run (s.drop 8) with
      | (.ok ls', t') =>
        rw [hx] at h
        simp only [P.pure_run, Prod.mk.injEq, Out.ok.injEq] at h
        obtain ⟨rfl, rfl⟩ := h
        obtain ⟨e1, e2, e3⟩ := readLengths_inv hx
        have h1 : (s.take 8).length = 8 := by simp; omega
        have hlt := leNat_lt (s.take 8)
        rw [h1] at hlt
        refine ⟨by simp [e1], ?_, ?_⟩
        · rw [List.flatMap_cons, leBytes_leNat' h1, List.append_assoc, ← e2, List.take_append_drop]
        · intro l hl
          rcases List.mem_cons.mp hl with rfl | hl
          · omega
          · exact e3 l hl
      | (.err _, _) => rw [hx] at h; simp at h
      | (.panic, _) => rw [hx] at h; simp at h
    · rw [P.bind_err (P.readExact_short (by omega))] at h
      simp at h

theorem readBody_run {s : Slot} (w : s.WF) (t : Bytes) :
    (readBody s.capacity).run (s.lengths.flatMap (leBytes 8) ++ (s.crc ++ t)) = (.ok s, t) := by
  have hc : s.crc.length = 4 := by rw [w.crc]; simp [crcOf]
  unfold readBody
  rw [P.bind_ok (a := ()) (s' := s.lengths.flatMap (leBytes 8) ++ (s.crc ++ t)) (by simp [alloc, w.cap])]
  have hr := readLengths_run s.lengths w.small (s.crc ++ t)
  rw [w.len] at hr
  rw [P.bind_ok hr, P.bind_ok (P.readExact_append' hc t), if_pos w.crc]
  rfl

theorem readBody_inv {n : Nat} {b t : Bytes} {s : Slot} (h : (readBody n).run b = (.ok s, t)) :
    s.WF ∧ s.capacity = n ∧ b = s.lengths.flatMap (leBytes 8) ++ (s.crc ++ t) := by
  unfold readBody at h
  by_cases ha : n * 8 < 2 ^ 63
  · rw [P.bind_ok (a := ()) (s' := b) (by simp [alloc, ha]), P.bind_run] at h
    match hx : (readLengths n).run b with
    | (.ok ls, t') =>
      rw [hx] at h
      simp only at h
      obtain ⟨e1, e2, e3⟩ := readLengths_inv hx
      by_cases h4 : 4 ≤ t'.length
      · rw [P.bind_ok (P.readExact_ok h4)] at h
        by_cases hc : t'.take 4 = crcOf n ls
        · rw [if_pos hc] at h
          simp only [P.pure_run, Prod.mk.injEq, Out.ok.injEq] at h
          obtain ⟨rfl, rfl⟩ := h
          exact ⟨⟨e1, e3, ha, hc⟩, rfl, by simp [e2]⟩
        · rw [if_neg hc] at h
          simp at h
      · rw [P.bind_err (P.readExact_short (by omega))] at h
        simp at h
    | (.err _, _) => rw [hx] at h; simp at h
    | (.panic, _) => rw [hx] at h; simp at h
  · rw [P.bind_run, P.lift_run] at h
    simp [alloc, ha] at h

theorem readHeader_run (cap : Nat) (h : cap < 2 ^ 64) (t : Bytes) :
    readHeader.run (SLOT_SIG ++ (leBytes 8 cap ++ t)) = (.ok cap, t) := by
  unfold readHeader
  rw [P.bind_ok (P.readExact_append' (by rfl) _), if_neg (by simp), P.bind_ok (P.readExact_append' (leBytes_length 8 cap) t)]
  simp [leNat_leBytes_of_lt (show cap < 256 ^ 8 by omega)]

theorem readHeader_inv {b t : Bytes} {cap : Nat} (h : readHeader.run b = (.ok cap, t)) :
    cap < 2 ^ 64 ∧ b = SLOT_SIG ++ (leBytes 8 cap ++ t) := by
  unfold readHeader at h
  by_cases h8 : 8 ≤ b.length
  · rw [P.bind_ok (P.readExact_ok h8)] at h
    by_cases hs : b.take 8 = SLOT_SIG
    · rw [if_neg (by simp [hs])] at h
      by_cases h16 : 8 ≤ (b.drop 8).length
      · rw [P.bind_ok (P.readExact_ok h16)] at h
        simp only [P.pure_run, Prod.mk.injEq, Out.ok.injEq] at h
        obtain ⟨rfl, rfl⟩ := h
        have h1 : ((b.drop 8).take 8).length = 8 := by rw [List.length_take]; omega
        have hlt := leNat_lt ((b.drop 8).take 8)
        rw [h1] at hlt
        refine ⟨by omega, ?_⟩
        rw [leBytes_leNat' h1, List.take_append_drop, ← hs, List.take_append_drop]
      · rw [P.bind_err (P.readExact_short (by omega))] at h
        simp at h
    · rw [if_pos hs] at h
      simp at h
  · rw [P.bind_err (P.readExact_short (by omega))] at h
    simp at h

theorem WF.cap64 {s : Slot} (w : s.WF) : s.capacity < 2 ^ 64 := by have := w.cap; omega

theorem read_enc {s : Slot} (w : s.WF) (t : Bytes) : read.run (s.enc ++ t) = (.ok s, t) := by
  unfold read enc
  simp only [List.append_assoc]
  rw [P.bind_ok (readHeader_run s.capacity w.cap64 _), readBody_run w]

theorem read_inv {b t : Bytes} {s : Slot} (h : read.run b = (.ok s, t)) : s.WF ∧ b = s.enc ++ t := by
  unfold read at h
  rw [P.bind_run] at h
  match hx : readHeader.run b with
  | (.ok cap, t') =>
    rw [hx] at h
    obtain ⟨e1, e2⟩ := readHeader_inv hx
    obtain ⟨w, e3, e4⟩ := readBody_inv h
    subst e3
    exact ⟨w, by rw [e2, e4, enc]; simp⟩
  | (.err _, _) => rw [hx] at h; simp at h
  | (.panic, _) => rw [hx] at h; simp at h

theorem tryReadHeader_eq {c : Cur} {cap : Nat} (hcap : cap < 2 ^ 64) {t : Bytes} (hc : c.pos ≤ c.data.length)
    (hr : c.rest = SLOT_SIG ++ (leBytes 8 cap ++ t)) :
    tryReadHeader c = (.ok (.success cap), { c with pos := c.pos + 16 }) := by
  unfold tryReadHeader
  rw [Cur.remaining_ok hc]
  have hl : c.rest.length = 16 + t.length := by rw [hr]; simp [SLOT_SIG]; omega
  simp only
  rw [if_neg (by rw [hl, SLOT_HSIZE]; omega), Cur.run_take hr (P.readExact_append' (by rfl) _)]
  simp only
  rw [if_neg (by simp), Cur.run_take (Cur.rest_add hr) (P.readExact_append' (leBytes_length 8 cap) t)]
  simp only
  rw [leNat_leBytes_of_lt (show cap < 256 ^ 8 by omega)]
  simp [SLOT_SIG]

/-- A whole slot table at the position. -/
theorem tryRead_enc {s : Slot} (w : s.WF) {c : Cur} {t : Bytes} (hc : c.pos ≤ c.data.length) (hr : c.rest = s.enc ++ t) :
    tryRead c = (.ok (.success s), { c with pos := c.pos + s.size }) := by
  have hl : c.rest.length = s.size + t.length := by rw [hr, List.length_append, w.enc_length]
  have hs : s.size = 20 + s.capacity * 8 := by simp only [size, SLOT_HSIZE]; omega
  have hcap := w.cap
  unfold tryRead
  rw [Cur.remaining_ok hc]
  simp only
  simp only [enc, List.append_assoc] at hr
  rw [tryReadHeader_eq w.cap64 hc hr]
  simp only
  rw [u64_ok (by simp only [SLOT_HSIZE]; omega)]
  simp only
  rw [if_neg (by rw [hl, hs, SLOT_HSIZE]; omega)]
  have hr2 : ({ c with pos := c.pos + 16 } : Cur).rest = (s.lengths.flatMap (leBytes 8) ++ s.crc) ++ t := by
    rw [← List.append_assoc] at hr
    have := Cur.rest_add hr
    simp only [List.length_append, leBytes_length, SLOT_SIG, List.length_cons, List.length_nil] at this
    rw [this, List.append_assoc]
  rw [Cur.run_take hr2 (by rw [List.append_assoc]; exact readBody_run w t)]
  simp only
  have : (s.lengths.flatMap (leBytes 8) ++ s.crc).length = s.size - 16 := by
    have hcl : s.crc.length = 4 := by rw [w.crc]; simp [crcOf]
    rw [List.length_append, lens_length, w.len, hcl]; omega
  rw [this, show c.pos + 16 + (s.size - 16) = c.pos + s.size by omega]

/-- What `try_read` accepts is a slot table at the position. -/
theorem tryRead_inv {c c' : Cur} {s : Slot} (h : tryRead c = (.ok (.success s), c')) :
    s.WF ∧ ∃ t, c.rest = s.enc ++ t ∧ c'.rest = t := by
  unfold tryRead at h
  split at h
  · simp at h
  · simp at h
  · rename_i len hlen
    split at h
    · simp at h
    · simp at h
    · simp at h
    · rename_i capacity c1 hh
      split at h
      · simp at h
      · simp at h
      · rename_i needed hn
        split at h
        · simp only [Prod.mk.injEq] at h
          obtain ⟨h, _⟩ := h
          unfold missing at h
          split at h
          · simp at h
          · split at h <;> simp at h
        · split at h
          · rename_i s' c2 hb
            simp only [Prod.mk.injEq, Out.ok.injEq, Status.success.injEq] at h
            obtain ⟨rfl, rfl⟩ := h
            -- the header
            unfold tryReadHeader at hh
            split at hh
            · simp at hh
            · simp at hh
            · split at hh
              · simp at hh
              · split at hh
                · simp at hh
                · simp at hh
                · rename_i sig c3 h3
                  split at hh
                  · simp at hh
                  · rename_i hsig
                    split at hh
                    · simp at hh
                    · simp at hh
                    · rename_i b c4 h4
                      simp only [Prod.mk.injEq, Out.ok.injEq, Status.success.injEq] at hh
                      obtain ⟨rfl, rfl⟩ := hh
                      have key : ∀ {n : Nat} {c c' : Cur} {b : Bytes}, c.run (P.readExact n) = (.ok b, c') →
                          b.length = n ∧ c.rest = b ++ c'.rest := by
                        intro n c c' b h
                        by_cases hn : n ≤ c.rest.length
                        · rw [Cur.run_ok (P.readExact_ok hn)] at h
                          simp only [Prod.mk.injEq, Out.ok.injEq] at h
                          obtain ⟨rfl, rfl⟩ := h
                          refine ⟨by simp; omega, ?_⟩
                          have : ({ c with pos := c.pos + (c.rest.length - (c.rest.drop n).length) } : Cur).rest = c.rest.drop n := by
                            simp only [Cur.rest, List.length_drop, List.drop_drop]
                            simp only [Cur.rest, List.length_drop] at hn
                            congr 1; omega
                          rw [this, List.take_append_drop]
                        · simp [Cur.run, P.readExact_short (show c.rest.length < n by omega)] at h
                      obtain ⟨l3, r3⟩ := key h3
                      obtain ⟨l4, r4⟩ := key h4
                      have hsig : sig = SLOT_SIG := by simpa using hsig
                      have hb1 : (readBody (leNat b)).run c4.rest = (.ok s', ((readBody (leNat b)).run c4.rest).2) :=
                        Prod.ext (by have := congrArg Prod.fst hb; exact this) rfl
                      obtain ⟨w, e1, e2⟩ := readBody_inv hb1
                      refine ⟨w, _, ?_, rfl⟩
                      have hrest : c2.rest = ((readBody (leNat b)).run c4.rest).2 := by
                        generalize ((readBody (leNat b)).run c4.rest).2 = t at e2 hb1
                        rw [← List.append_assoc] at e2
                        rw [e2] at hb1
                        rw [Cur.run_take e2 hb1] at hb
                        have := congrArg Prod.snd hb
                        dsimp only at this
                        rw [← this]
                        exact Cur.rest_add e2
                      rw [← hrest] at e2
                      rw [r3, r4, hsig, e2, enc, e1, leBytes_leNat' l4]
                      simp
          · simp at h
          · simp at h

end Slot

end Brec
