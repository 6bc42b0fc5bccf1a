import Verif.Props.Cut
import Verif.Props.Mirror
/-!
# C104: what is left of a storage file, put into a new one

A storage file that was cut short can often not be opened (C102). A repair tool scans what is left with `PacketBufReader` and inserts what it finds into a new storage
(`loop { match reader.read()? { Found(p) => writer.insert(p)?, NoData => break, _ => {} } }`).
-/

namespace Brec.Props

open Brec Rd

variable {O : BlockOps} {Q : PayloadOps} {S : BlockSpec O}

/-- `i` packets lie wholly in the first `k` bytes of the file of the packets `ps`. -/
structure Left (cap : Nat) (ps : List (Packet O Q)) (k i : Nat) : Prop where
  le : i ≤ ps.length
  before : i = 0 ∨ endOf cap ps (i - 1) ≤ k
  next : i < ps.length → k < endOf cap ps i

/-- **C104, full statement** (false): whatever the cut, scanning what is left and inserting what is found gives a storage of exactly the packets that lie wholly in it. -/
def C104_full (Q : PayloadOps) (S : BlockSpec O) : Prop :=
  ∀ (cap : Nat) (chk chk' : Bool) (ops : List (Op O Q)) (data : Bytes) (s : Storage) (k i : Nat) (cs : Chunks), 0 < cap → Reached cap chk ops data s →
    (∀ p ∈ log ops, Storable S p) → (∀ p ∈ log ops, p.blocks.length ≤ 255) → Small cap (log ops) → Left cap (log ops) k i → Cuts cs (data.take k) →
    (∀ c ∈ cs.dropLast, 29 ≤ c.length) →
    ∃ n, ∀ m, ∃ w, runOps cap chk ((foundIn (reads ([] : Rules O.BR (Packet O Q)) chk' (n + m) (.new (cs.map some))).1).map Op.insert) emptyWriter = some w ∧
      FileOf cap chk ((log ops).take i) w.data

/-- The last packet ends where the file ends. -/
theorem endOf_last {cap : Nat} (hc : 0 < cap) {gs : List (List Bytes)} (hg : Groups cap gs) {ps : List (Packet O Q)} (f : gs.flatten = ps.map wire) (h : ps ≠ []) :
    endOf cap ps (ps.length - 1) = (fileOf cap gs).length := by
  have hpos : 0 < ps.length := List.length_pos_iff.mpr h
  obtain ⟨pss, hps, hgs⟩ := unwire f
  have hne : ∀ ps ∈ pss, ps ≠ [] := by
    rintro ps hp rfl
    exact hg.ne [] (by rw [← hgs]; exact List.mem_map.mpr ⟨[], hp, rfl⟩) rfl
  obtain ⟨is, hpre, hsnd, hst, hle⟩ := scan_items hc hg hgs hne hps (i := ps.length - 1) (by omega)
  have hall : (pss.flatMap (items cap)).map Prod.snd = ps := by
    rw [List.map_flatMap, ← hps, List.flatten_eq_flatMap]
    congr 1
    funext ps
    exact items_snd cap ps
  have hn : is.length = (pss.flatMap (items cap)).length := by
    have h1 := congrArg List.length hsnd
    have h2 := congrArg List.length hall
    rw [List.length_map] at h1 h2
    rw [List.length_take] at h1
    omega
  have he := hpre.eq_of_length hn
  have := hst []
  rw [he, stream_file hne, hgs, List.append_nil] at this
  have := congrArg List.length this
  rw [List.length_take] at this
  omega

/-- For every cut there is one number of packets that are left. -/
theorem Left.exists {cap : Nat} (hc : 0 < cap) {chk : Bool} {ops : List (Op O Q)} {data : Bytes} {s : Storage} (h : Reached cap chk ops data s)
    (hok : ∀ p ∈ log ops, p.Ok S) (hs : Small cap (log ops)) (k : Nat) : ∃ i, Left cap (log ops) (min k data.length) i := by
  rcases Nat.lt_or_ge k data.length with hk | hk
  · rw [Nat.min_eq_left (by omega)]
    obtain ⟨i, h1, h2, h3⟩ := C102_which (S := S) hc h hok hs hk
    exact ⟨i, by omega, h2, fun _ => h3⟩
  · rw [Nat.min_eq_right hk]
    refine ⟨(log ops).length, Nat.le_refl _, ?_, fun h => absurd h (Nat.lt_irrefl _)⟩
    obtain ⟨gs, v, rfl, f, _⟩ := h.view hc hok hs
    generalize log ops = ps at *
    by_cases hp : ps = []
    · exact .inl (by rw [hp]; rfl)
    · exact .inr (Nat.le_of_eq (endOf_last hc v.groups f hp))

/-- What scanning the first `k` bytes gives, whether the file was cut or not. -/
theorem scan_left {cap : Nat} (hc : 0 < cap) {chk : Bool} {ops : List (Op O Q)} {data : Bytes} {s : Storage} (h : Reached cap chk ops data s)
    (hok : ∀ p ∈ log ops, Storable S p) (hblk : ∀ p ∈ log ops, p.blocks.length ≤ 255) (hs : Small cap (log ops)) (h56 : data.length < 2 ^ 56)
    (hb : ∀ k p, (log ops)[k * cap]? = some p → ∀ h, p.header = .ok h → 8 ≤ h.size)
    (hcrc : ∀ k, k * cap < (log ops).length → slotCrc cap k (log ops) ≠ PACKET_SIG.take 4)
    {i k : Nat} (hk : Left cap (log ops) k i)
    (rules : Rules O.BR (Packet O Q)) (chk' : Bool) {cs : Chunks} (hcut : Cuts cs (data.take k)) (hl : ∀ c ∈ cs.dropLast, 29 ≤ c.length) :
    ∃ n, ∀ m, news (reads rules chk' (n + m) (.new (cs.map some))).1 = ((log ops).take i).map (fun p => .ok (verdict S rules p)) := by
  rcases Nat.lt_or_ge i (log ops).length with hi | hi
  · exact C102_scan_cut_partial hc h hok hblk hs h56 hb hcrc hi hk.before (hk.next hi) rules chk' hcut hl
  · have hie : i = (log ops).length := by have := hk.le; omega
    subst hie
    obtain ⟨gs, v, rfl, f, _⟩ := h.view hc (fun p hp => (hok p hp).ok) hs
    obtain ⟨pss, hps, hgs, hne, hsn, hgood⟩ := file_items v.groups f hok hblk h56 hb hcrc
    have hbf := hk.before
    generalize log ops = ps at *
    have hst : stream (pss.flatMap (items cap)) [] = (fileOf cap gs).take k := by
      rw [stream_file hne, hgs, List.take_of_length_le]
      by_cases hp : ps = []
      · subst hp
        have : gs = [] := by
          cases gs with
          | nil => rfl
          | cons g gs =>
            have := v.groups.ne g (by simp)
            simp at f
            exact absurd f.1 this
        rw [this]
        exact Nat.zero_le _
      · rw [← endOf_last hc v.groups f hp]
        have := List.length_pos_iff.mpr hp
        rcases hbf with h | h
        · omega
        · exact h
    rw [← hst] at hcut
    obtain ⟨n, h⟩ := news_whole _ hgood rules chk' cs hcut hl
    refine ⟨n, fun m => ?_⟩
    rw [h m, List.take_length, ← hsn, List.map_map]
    rfl

/-- The file that inserting packets one after the other into an empty storage makes shows them. -/
theorem FileOf.presents {cap : Nat} (hc : 0 < cap) {chk : Bool} {ps : List (Packet O Q)} {data : Bytes} (h : FileOf cap chk ps data) (hok : ∀ p ∈ ps, Storable S p) (hs : Small cap ps) :
    Presents S cap chk data ps := by
  obtain ⟨w, e, rfl⟩ := h
  have hlog : log (ps.map (Op.insert (O := O) (Q := Q))) = ps := log_inserts ps
  obtain ⟨data, s, hr⟩ := Reached.exists (S := S) hc chk (ps.map Op.insert) (by rw [hlog]; exact hok) (by rw [hlog]; exact hs)
  obtain ⟨w', e', hd⟩ := hr.run
  rw [e] at e'
  cases e'
  rw [hd]
  obtain ⟨gs, v, rfl, f, hl⟩ := hr.view (S := S) hc (by rw [hlog]; exact fun p hp => (hok p hp).ok) (by rw [hlog]; exact hs)
  rw [hlog] at f
  have := (shows_tail (chk := chk) (S := S) hc v.groups (tail := []) (by rw [List.append_nil]; exact hl) f hok ⟨16, by
    rw [List.append_nil]
    have : (⟨fileOf cap gs, (fileOf cap gs).length, chk⟩ : Cur).remaining = .ok 0 := by simp [Cur.remaining]
    unfold Slot.tryRead Slot.tryReadHeader
    rw [this]
    rfl⟩).2
  rwa [List.append_nil] at this

/-- **C104 (partial).** Of a storage file with any history the first `k` bytes are left. Whatever the reads give (but for short ones) and however often `read` is called behind the end, the packets that
scanning finds can all be inserted into a new storage, and make the file of the packets that lie wholly in what is left and pass the rules: it opens, and shows exactly these. Missing: slot tables with a
CRC that looks like the beginning of a packet (`C38_crc_signature`, `C104_not`), packets with a body of less than 8 bytes at the beginning of a slot, files of 2^56 bytes, reads of less than 29 bytes. -/
theorem C104_repair_partial {cap : Nat} (hc : 0 < cap) {chk : Bool} {ops : List (Op O Q)} {data : Bytes} {s : Storage} (h : Reached cap chk ops data s)
    (hok : ∀ p ∈ log ops, Storable S p) (hblk : ∀ p ∈ log ops, p.blocks.length ≤ 255) (hs : Small cap (log ops)) (h56 : data.length < 2 ^ 56)
    (hb : ∀ k p, (log ops)[k * cap]? = some p → ∀ h, p.header = .ok h → 8 ≤ h.size)
    (hcrc : ∀ k, k * cap < (log ops).length → slotCrc cap k (log ops) ≠ PACKET_SIG.take 4)
    {i k : Nat} (hk : Left cap (log ops) k i)
    (rules : Rules O.BR (Packet O Q)) (chk' : Bool) {cs : Chunks} (hcut : Cuts cs (data.take k)) (hl : ∀ c ∈ cs.dropLast, 29 ≤ c.length) :
    ∃ n, ∀ m, ∃ w, runOps cap chk ((foundIn (reads rules chk' (n + m) (.new (cs.map some))).1).map Op.insert) emptyWriter = some w ∧
      FileOf cap chk (((log ops).take i).filter (accepted S rules)) w.data ∧ Presents S cap chk w.data (((log ops).take i).filter (accepted S rules)) := by
  obtain ⟨n, hn⟩ := scan_left hc h hok hblk hs h56 hb hcrc hk rules chk' hcut hl
  refine ⟨n, fun m => ?_⟩
  have hf : foundIn (reads rules chk' (n + m) (.new (cs.map some))).1 = ((log ops).take i).filter (accepted S rules) := by
    rw [foundIn_news, hn m, foundIn_verdicts]
  rw [hf]
  have hsub : (((log ops).take i).filter (accepted S rules)).Sublist (log ops) := List.filter_sublist.trans (List.take_sublist ..)
  have hs' := Small.sublist hsub hs
  have hok' : ∀ p ∈ ((log ops).take i).filter (accepted S rules), Storable S p := fun p hp => hok p (hsub.subset hp)
  generalize ((log ops).take i).filter (accepted S rules) = ps at *
  obtain ⟨w, _, e, _⟩ := C30_no_trace (S := S) hc chk (ps.map Op.insert) (by rw [log_inserts]; exact fun p hp => (hok' p hp).ok) (by rw [log_inserts]; exact hs')
  exact ⟨w, e, ⟨w, e, rfl⟩, FileOf.presents hc ⟨w, e, rfl⟩ hok' hs'⟩

/-- **C104 (partial)**, going on: if the packets that were lost are inserted again, the file is the one that was cut, byte for byte. -/
theorem C104_resume_partial {cap : Nat} (hc : 0 < cap) {chk : Bool} {ops : List (Op O Q)} {data : Bytes} {s : Storage} (h : Reached cap chk ops data s)
    (hok : ∀ p ∈ log ops, Storable S p) (hblk : ∀ p ∈ log ops, p.blocks.length ≤ 255) (hs : Small cap (log ops)) (h56 : data.length < 2 ^ 56)
    (hb : ∀ k p, (log ops)[k * cap]? = some p → ∀ h, p.header = .ok h → 8 ≤ h.size)
    (hcrc : ∀ k, k * cap < (log ops).length → slotCrc cap k (log ops) ≠ PACKET_SIG.take 4)
    {i k : Nat} (hk : Left cap (log ops) k i) (chk' : Bool) {cs : Chunks} (hcut : Cuts cs (data.take k)) (hl : ∀ c ∈ cs.dropLast, 29 ≤ c.length) :
    ∃ n, ∀ m, ∃ w w', runOps cap chk ((foundIn (reads ([] : Rules O.BR (Packet O Q)) chk' (n + m) (.new (cs.map some))).1).map Op.insert) emptyWriter = some w ∧
      runOps cap chk (((log ops).drop i).map Op.insert) w = some w' ∧ w'.data = data := by
  obtain ⟨n, hn⟩ := scan_left hc h hok hblk hs h56 hb hcrc hk [] chk' hcut hl
  refine ⟨n, fun m => ?_⟩
  have hf : foundIn (reads ([] : Rules O.BR (Packet O Q)) chk' (n + m) (.new (cs.map some))).1 = (log ops).take i := by
    rw [foundIn_news, hn m, foundIn_verdicts, List.filter_eq_self]
    intro p _
    unfold accepted accepts
    cases bodyOf p <;> rfl
  rw [hf]
  obtain ⟨w1, w2, e1, e2, e⟩ := C30_no_trace (S := S) hc chk ops (fun p hp => (hok p hp).ok) hs
  obtain ⟨w3, e3, hd⟩ := h.run
  rw [e1] at e3
  cases e3
  rw [← List.take_append_drop i (log ops), List.map_append, runOps_append] at e2
  obtain ⟨w, h1, h2⟩ := Option.bind_eq_some_iff.mp e2
  exact ⟨w, w2, h1, h2, by rw [← e, hd]⟩

/-- **C104 is false**: four packets of 102, 94, 188 and 399 bytes; the file is not even cut, and nothing is found. -/
theorem C104_not : ¬ C104_full (PEnum.ops []) sampleSpec := by
  intro hf
  have hlog : log (unlucky.map (Op.insert (O := blockEnum sampleTypes) (Q := PEnum.ops []))) = unlucky := log_inserts unlucky
  obtain ⟨w, e, hlen, hr⟩ := C38_crc_signature true
  obtain ⟨data, s, h⟩ := Reached.exists (S := sampleSpec) (cap := SLOT_CAPACITY) (by decide) true (unlucky.map Op.insert) (by rw [hlog]; exact unlucky_ok)
    (by rw [hlog]; exact unlucky_small)
  obtain ⟨w', e', hd⟩ := h.run
  rw [e] at e'
  cases e'
  have hleft : Left SLOT_CAPACITY (log (unlucky.map (Op.insert (O := blockEnum sampleTypes) (Q := PEnum.ops [])))) data.length 4 := by
    obtain ⟨gs, v, hg, f, _⟩ := h.view (S := sampleSpec) (by decide) (by rw [hlog]; exact fun p hp => (unlucky_ok p hp).ok) (by rw [hlog]; exact unlucky_small)
    rw [hlog] at f ⊢
    refine ⟨Nat.le_refl 4, .inr ?_, fun h => absurd h (Nat.lt_irrefl 4)⟩
    have := endOf_last (by decide) v.groups f (by simp [unlucky])
    rw [hg, ← this]
    exact Nat.le_refl _
  obtain ⟨n, h1⟩ := hf SLOT_CAPACITY true true (unlucky.map Op.insert) data s data.length 4 [w.data] (by decide) h (by rw [hlog]; exact unlucky_ok)
    (by
      rw [hlog]
      intro p hp
      simp only [unlucky, List.mem_cons, List.not_mem_nil, or_false] at hp
      rcases hp with rfl | rfl | rfl | rfl <;> exact Nat.zero_le _)
    (by rw [hlog]; exact unlucky_small) hleft
    ⟨by rw [hd, List.take_length]; simp, by
      intro c hc
      rw [List.mem_singleton.mp hc]
      exact ⟨by intro h; rw [h] at hlen; simp at hlen, by omega⟩⟩ (by simp)
  obtain ⟨w1, e1, w2, e2, h2⟩ := h1 0
  have hno : ∀ n, foundIn (List.replicate n (.err .crcDismatch : Out (Next (Packet (blockEnum sampleTypes) (PEnum.ops []))))) = [] := by
    intro n
    induction n with
    | zero => rfl
    | succ n ih => rw [List.replicate_succ, foundIn, ih]; intro p h; cases h
  rw [List.map_cons, List.map_nil, hr, hno] at e1
  cases e1
  rw [hlog, show unlucky.take 4 = unlucky from rfl, e] at e2
  cases e2
  rw [h2] at hlen
  cases hlen

/-- Three packets in slots of two, and 300 of the 447 bytes: the new storage shows two packets, and with the third one it is the old file again. -/
example (chk chk' : Bool) : ∃ data s, Reached 2 chk threeOps data s ∧
    ∃ n, ∀ m, ∃ w w', runOps 2 chk ((foundIn (reads ([] : Rules _ (Packet (blockEnum sampleTypes) (PEnum.ops []))) chk' (n + m) (.new [some (data.take 300)])).1).map Op.insert) emptyWriter = some w ∧
      runOps 2 chk [.insert samplePacket] w = some w' ∧ w'.data = data := by
  obtain ⟨data, s, hr⟩ := Reached.exists (S := sampleSpec) (cap := 2) (by decide) chk _ threeOps_storable threeOps_small
  refine ⟨data, s, hr, ?_⟩
  · have hk : Left 2 (log threeOps) 300 2 := by
      rw [threeOps_log]
      exact ⟨by decide, .inr (by simp [endOf, wire_sample_length]), fun _ => by simp [endOf, wire_sample_length]⟩
    obtain ⟨n, h⟩ := C104_resume_partial (S := sampleSpec) (cap := 2) (by decide) hr threeOps_storable (fun p hp => by rw [threeOps_sample p hp]; decide) threeOps_small
      (by rw [threeOps_length hr]; decide) threeOps_body threeOps_crc hk chk' (threeOps_cuts hr) (by simp)
    refine ⟨n, fun m => ?_⟩
    obtain ⟨w, w', h1, h2, h3⟩ := h m
    rw [threeOps_log] at h2
    exact ⟨w, w', h1, h2, h3⟩

end Brec.Props
