import Verif.ReaderSafe
import Verif.Props.PacketLimits
/-!
# Properties C22–C24 and the reader part of C16, C17: `PacketBufReader` on streams

Vocabulary (`Verif/ReaderLemmas.lean`): `wire p` are the bytes `write_all` makes of `p`; `stream is t` is litter and packets in
turn followed by litter `t`; `litters is t` is all the litter in order; `verdict` is `Found` if every rule accepts the packet and
`Skipped` otherwise; `loud` drops the results `NotEnoughData` and `NotFound`, which only ask for another call. A source is a
list of reads; the byte sequence is cut into reads in an arbitrary way.
-/

namespace Brec.Props

open Brec Rd

variable {O : BlockOps} {Q : PayloadOps} {S : BlockSpec O} {p : Packet O Q}

/-- A way of cutting bytes into reads: none is empty (an empty read is the end of a file) and none longer than
a slice can be. -/
def Cuts (cs : Chunks) (x : Bytes) : Prop := cs.flatten = x ∧ ∀ c ∈ cs, c ≠ [] ∧ c.length < 2 ^ 63

/-- At the end every further call says `NoData`. -/
theorem noData_forever {rules : Rules O.BR (Packet O Q)} {chk : Bool} {r : Rd} (h1 : r.src = []) (h2 : r.recent = .empty) :
    read rules chk r = (.ok .noData, { r with buffered := [] }) := by
  unfold Rd.read
  rw [h2]
  simp only
  unfold readEmpty
  simp only [h1, h2, Events.fill]

theorem free_nil : Free [] := by intro j hj; simp at hj

/-- **C24** (and C22 with `rules = [.ignored tag]`). On a stream of serialized packets, cut into reads in any way, repeated `read`
gives for each packet in turn `Found` or `Skipped` as the rules say, then `NoData`; nothing is ever reported as ignored. -/
theorem C24_rules (ps : List (Packet O Q)) (hp : ∀ p ∈ ps, p.Ok S ∧ p.blocks.length ≤ 255) (rules : Rules O.BR (Packet O Q)) (chk : Bool)
    (cs : Chunks) (hc : Cuts cs (ps.map wire).flatten) :
    ∃ n, loud (reads rules chk n (.new (cs.map some))).1 = ps.map (fun p => .ok (verdict S rules p)) ++ [.ok .noData] ∧
      (reads rules chk n (.new (cs.map some))).2.log = [] ∧
      (read rules chk (reads rules chk n (.new (cs.map some))).2).1 = .ok .noData := by
  have hs : (ps.map wire).flatten = stream (ps.map fun p => ([], p)) [] := by
    clear hc hp
    induction ps with
    | nil => rfl
    | cons p ps ih => simp [stream, ih]
  have hg : ∀ x ∈ ps.map (fun p => (([] : Bytes), p)), GoodItem S x := by
    intro x hx
    obtain ⟨p, hp', rfl⟩ := List.mem_map.mp hx
    exact ⟨free_nil, (hp p hp').1, (hp p hp').2, .inl rfl⟩
  have inv := inv_new (S := S) hc.2 (hc.1.trans hs) hg (by intro j; simp [PACKET_SIG])
  obtain ⟨n, h1, h2, h3, h4⟩ := run (chk := chk) (rules := rules) (fun _ is => ∀ x ∈ is, x.1 = [])
    (fun r is t inv hG => not_bad_pure inv hG)
    (fun r is t is' _ hG hi _ => by
      rcases hi with rfl | ⟨k, rfl⟩
      · exact fun x hx => hG x (List.mem_of_mem_tail hx)
      · cases is with
        | nil => simp [dropItems]
        | cons y is =>
          obtain ⟨l, p⟩ := y
          intro x hx
          rcases List.mem_cons.mp hx with rfl | hx
          · have := hG (l, p) List.mem_cons_self
            simp only at this
            simp [this]
          · exact hG x (List.mem_cons_of_mem _ hx))
    _ _ _ inv (by intro x hx; obtain ⟨p, _, rfl⟩ := List.mem_map.mp hx; rfl)
  refine ⟨n, ?_, ?_, ?_⟩
  · rw [h1]; simp [List.map_map, Function.comp_def]
  · obtain ⟨xs, e1, e2, e3⟩ := h2
    have hl : litters (ps.map fun p => (([] : Bytes), p)) [] = [] := by
      simp [litters, List.map_map, Function.comp_def]
    rw [hl] at e1
    have : xs = [] := by
      cases xs with
      | nil => rfl
      | cons x xs => rw [List.flatten_cons, List.append_eq_nil_iff] at e1; exact absurd e1.1 (e2 x List.mem_cons_self)
    subst this
    simpa [Rd.new] using e3
  · rw [noData_forever h3 h4]

/-- **C22**. A stream of serialized packets, cut into reads in any way, gives back exactly the packets in order, then
`NoData`; no errors, no panics, and the `Ignored` callback is never called. -/
theorem C22_pure_stream (ps : List (Packet O Q)) (hp : ∀ p ∈ ps, p.Ok S ∧ p.blocks.length ≤ 255) (tag : Nat) (chk : Bool)
    (cs : Chunks) (hc : Cuts cs (ps.map wire).flatten) :
    ∃ n, loud (reads [.ignored tag] chk n (.new (cs.map some))).1 = ps.map (fun p => .ok (.found p)) ++ [.ok .noData] ∧
      (reads ([.ignored tag] : Rules O.BR (Packet O Q)) chk n (.new (cs.map some))).2.log = [] ∧
      (read ([.ignored tag] : Rules O.BR (Packet O Q)) chk (reads ([.ignored tag] : Rules O.BR (Packet O Q)) chk n (.new (cs.map some))).2).1 =
        .ok .noData := by
  obtain ⟨n, h1, h2, h3⟩ := C24_rules (S := S) ps hp [.ignored tag] chk cs hc
  refine ⟨n, ?_, h2, h3⟩
  rw [h1]
  have : ∀ p : Packet O Q, verdict S [.ignored tag] p = .found p := by
    intro p
    unfold verdict accepts
    cases bodyOf p <;> rfl
  simp [this]

/-- Non-vacuity: two real packets read byte by byte. -/
example : ∃ n, loud (reads ([.ignored 0] : Rules _ _) true n (.new (([samplePacket, samplePacket].map wire).flatten.map fun b => some [b]))).1 =
    [.ok (.found samplePacket), .ok (.found samplePacket), .ok .noData] := by
  obtain ⟨n, h, _⟩ := C22_pure_stream (S := sampleSpec) [samplePacket, samplePacket]
    (by intro p hp; simp at hp; subst hp; exact ⟨samplePacket_ok, by decide⟩) 0 true
    (([samplePacket, samplePacket].map wire).flatten.map fun b => [b])
    ⟨by
      generalize (List.map wire [samplePacket, samplePacket]).flatten = x
      induction x with
      | nil => rfl
      | cons a x ih => simp [ih], by
      intro c hc
      obtain ⟨b, _, rfl⟩ := List.mem_map.mp hc
      exact ⟨by simp, by simp⟩⟩
  refine ⟨n, ?_⟩
  rw [List.map_map] at h
  exact h

/-! ## C23 -/

/-- What C23 says about one source. -/
def Separates (S : BlockSpec O) (rules : Rules O.BR (Packet O Q)) (chk : Bool) (cs : Chunks) (is : List (Bytes × Packet O Q)) (t : Bytes) : Prop :=
  ∃ n, loud (reads rules chk n (.new (cs.map some))).1 = is.map (fun x => .ok (verdict S rules x.2)) ++ [.ok .noData] ∧
    (ignoredRules rules = 1 → (reads rules chk n (.new (cs.map some))).2.log.flatten = litters is t)

/-- Full statement of C23: any interleaving of packets and litter free of the signature, any cutting. -/
def C23_full : Prop :=
  ∀ (O : BlockOps) (Q : PayloadOps) (S : BlockSpec O) (rules : Rules O.BR (Packet O Q)) (chk : Bool) (is : List (Bytes × Packet O Q)) (t : Bytes)
    (cs : Chunks), (∀ x ∈ is, Free x.1 ∧ x.2.Ok S ∧ x.2.blocks.length ≤ 255) → NoSig t → Cuts cs (stream is t) →
    Separates S rules chk cs is t

/-- From the run theorem to the statement. -/
theorem separates_of_run {rules : Rules O.BR (Packet O Q)} {chk : Bool} {cs : Chunks} {is : List (Bytes × Packet O Q)} {t : Bytes}
    (h : ∃ n, loud (reads rules chk n (.new (cs.map some))).1 = is.map (fun x => .ok (verdict S rules x.2)) ++ [.ok .noData] ∧
      LogAdd rules (Rd.new (cs.map some)).log (reads rules chk n (.new (cs.map some))).2.log (litters is t)) :
    Separates S rules chk cs is t := by
  obtain ⟨n, h1, xs, e1, _, e3⟩ := h
  refine ⟨n, h1, fun hi => ?_⟩
  rw [e3]
  simp only [Rd.new, List.nil_append]
  have : xs.flatMap rules.ignore = xs := by
    have key : ∀ ys : List Bytes, ys.flatMap rules.ignore = ys := by
      intro ys
      induction ys with
      | nil => rfl
      | cons y ys ih => rw [List.flatMap_cons, ignore_eq, hi, ih]; rfl
    exact key xs
  rw [this, e1]

/-- **C23 (partial)**. Packets and litter are separated exactly, for every interleaving and all rules, if every read of the
source but the last gives at least 29 bytes and packets that follow litter have a body of at least 8 bytes. Missing from the
full claim: shorter reads inside litter (`C23_short_reads`) and header-only packets after litter (`C23_empty_packet_lost`). -/
theorem C23_long_reads_partial (rules : Rules O.BR (Packet O Q)) (chk : Bool) (is : List (Bytes × Packet O Q)) (t : Bytes) (cs : Chunks)
    (hi : ∀ x ∈ is, GoodItem S x) (ht : NoSig t) (hc : Cuts cs (stream is t)) (hl : ∀ c ∈ cs.dropLast, 29 ≤ c.length) :
    Separates S rules chk cs is t := by
  have inv := inv_new (S := S) hc.2 hc.1 hi ht
  have hlong : Events.Long (cs.map some) := by
    intro c h
    rw [← List.map_dropLast] at h
    obtain ⟨c', h', e⟩ := List.mem_map.mp h
    rw [← Option.some.inj e]
    exact hl _ h'
  obtain ⟨n, h1, h2, _⟩ := run (chk := chk) (rules := rules) (fun r _ => LongInv r ∧ Sane r)
    (fun r is t _ hG => not_bad_long hG.1)
    (fun r is t is' _ hG _ _ => ⟨hG.1.read hG.2 rules chk, hG.2.read rules chk⟩)
    _ _ _ inv ⟨⟨Long_tail hlong, fun b n e => by cases e⟩, ⟨trivial⟩⟩
  exact separates_of_run ⟨n, h1, h2⟩

theorem reads_no_panic_next {rules : Rules O.BR (Packet O Q)} {r : Rd} (h : ∀ n, Out.panic ∉ (reads rules true n r).1)
    (hnp : (read rules true r).1 ≠ .panic) (n : Nat) : Out.panic ∉ (reads rules true n (read rules true r).2).1 := by
  intro hm
  apply h (n + 1)
  rw [reads_succ hnp]
  exact List.mem_cons_of_mem _ hm

/-- **C23 (partial)**, any cutting at all: with overflow checks on, either some call panics or packets and litter are separated
exactly. -/
theorem C23_any_reads_partial (rules : Rules O.BR (Packet O Q)) (is : List (Bytes × Packet O Q)) (t : Bytes) (cs : Chunks)
    (hi : ∀ x ∈ is, GoodItem S x) (ht : NoSig t) (hc : Cuts cs (stream is t)) :
    (∃ n, Out.panic ∈ (reads rules true n (.new (cs.map some))).1) ∨ Separates S rules true cs is t := by
  by_cases hpan : ∃ n, Out.panic ∈ (reads rules true n (.new (cs.map some))).1
  · exact .inl hpan
  · right
    have inv := inv_new (S := S) hc.2 hc.1 hi ht
    obtain ⟨n, h1, h2, _⟩ := run (chk := true) (rules := rules) (fun r _ => ∀ n, Out.panic ∉ (reads rules true n r).1)
      (fun r is t inv hG hb => by
        have hp := bad_panics (rules := rules) inv hb
        apply hG 1
        rw [reads]
        match hx : read rules true r with
        | (.panic, r') => simp
        | (.ok a, r') => rw [hx] at hp; cases hp
        | (.err e, r') => rw [hx] at hp; cases hp)
      (fun r is t is' _ hG _ hnp n => reads_no_panic_next hG hnp n)
      _ _ _ inv (fun n hm => hpan ⟨n, hm⟩)
    exact separates_of_run ⟨n, h1, h2⟩

/-- The body requirement holds for every packet of generated blocks that has at least one. -/
theorem body_of_blocks {vs : List BlockTy} {Q : PayloadOps} {p : Packet (blockEnum vs) Q} (hne : p.blocks ≠ []) (h : PacketHeader)
    (hh : p.header = .ok h) : 8 ≤ h.size := by
  have hb : 8 ≤ (p.blocks.map (blockEnum vs).size).sum := by
    cases hp : p.blocks with
    | nil => exact absurd hp hne
    | cons b bs =>
      rw [List.map_cons, List.sum_cons]
      have : 8 ≤ (blockEnum vs).size b := by
        show 8 ≤ b.size
        simp only [BlockVal.size, BlockTy.ssize]; omega
      omega
  obtain ⟨blocks, payload⟩ := p
  dsimp only at hb
  cases payload with
  | none =>
    simp only [Packet.header] at hh
    obtain rfl := Out.ok.inj hh
    simp only [PacketHeader.ofSizes]; omega
  | some v =>
    simp only [Packet.header] at hh
    match hs : Q.size v with
    | .ok n =>
      rw [hs, Out.map_ok] at hh
      obtain rfl := Out.ok.inj hh
      simp only [PacketHeader.ofSizes]; omega
    | .err e => rw [hs] at hh; cases hh
    | .panic => rw [hs] at hh; cases hh

/-! ### Where C23 fails -/

theorem reads_take (rules : Rules O.BR (Packet O Q)) (chk : Bool) {n m : Nat} (h : n ≤ m) (r : Rd) :
    (reads rules chk n r).1 <+: (reads rules chk m r).1 := by
  induction n generalizing m r with
  | zero => simp [reads]
  | succ n ih =>
    obtain ⟨m, rfl⟩ : ∃ k, m = k + 1 := ⟨m - 1, by omega⟩
    by_cases hp : (Rd.read rules chk r).1 = .panic
    · have : ∀ k, (reads rules chk (k + 1) r).1 = [.panic] := by
        intro k
        rw [reads]
        match hx : Rd.read rules chk r with
        | (.panic, r') => rfl
        | (.ok a, r') => rw [hx] at hp; cases hp
        | (.err e, r') => rw [hx] at hp; cases hp
      rw [this, this]
      exact List.prefix_refl _
    · rw [reads_succ hp, reads_succ hp]
      exact List.cons_prefix_cons.mpr ⟨rfl, ih (by omega) _⟩

/-- The first loud result does not depend on how many calls are made. -/
theorem loud_head {rules : Rules O.BR (Packet O Q)} {chk : Bool} {k : Nat} {r : Rd} {o : Out (Next (Packet O Q))}
    (h : (loud (reads rules chk k r).1).head? = some o) (n : Nat) (hne : loud (reads rules chk n r).1 ≠ []) :
    (loud (reads rules chk n r).1).head? = some o := by
  have pre : ∀ {a b : List (Out (Next (Packet O Q)))}, a <+: b → loud a <+: loud b := fun h => List.IsPrefix.filter _ h
  have hd : ∀ {a b : List (Out (Next (Packet O Q)))}, a <+: b → a ≠ [] → b.head? = a.head? := by
    intro a b hab ha
    obtain ⟨t, rfl⟩ := hab
    cases a with
    | nil => exact absurd rfl ha
    | cons => rfl
  rcases Nat.le_total n k with hnk | hnk
  · rw [← h]; exact (hd (pre (reads_take rules chk hnk r)) hne).symm
  · rw [← h]
    refine hd (pre (reads_take rules chk hnk r)) ?_
    intro e; rw [e] at h; cases h

def isFound : Out (Next (Packet O Q)) → Bool
  | .ok (.found _) => true
  | _ => false

/-- If the first loud result is not `Found`, the first packet was not delivered. -/
theorem not_separates {rules : Rules O.BR (Packet O Q)} {chk : Bool} {cs : Chunks} {l t : Bytes} {is : List (Bytes × Packet O Q)} (k : Nat)
    (h : ((loud (reads rules chk k (.new (cs.map some))).1).head?.map isFound) = some false)
    (hv : verdict S rules p = .found p) : ¬ Separates S rules chk cs ((l, p) :: is) t := by
  rintro ⟨n, h1, _⟩
  match ho : (loud (reads rules chk k (.new (cs.map some))).1).head? with
  | none => rw [ho] at h; cases h
  | some o =>
    have := loud_head ho n (by rw [h1]; simp)
    rw [h1] at this
    simp only [List.map_cons, List.cons_append, List.head?_cons, hv, Option.some.injEq] at this
    rw [ho, ← this] at h
    cases h

theorem waits_read {rules : Rules O.BR (Packet O Q)} {chk : Bool} {r : Rd} (h : Waits r) :
    ∃ n, Rd.read rules chk r = (.ok (.notEnough n), r) := by
  obtain ⟨src, recent, buffered, log⟩ := r
  obtain ⟨h, h1, h2, h3⟩ := h
  dsimp only at h1 h2 h3
  subst h1 h2
  refine ⟨h.size - buffered.length, ?_⟩
  unfold Rd.read readReady
  simp only [Events.fill, List.length_nil, Nat.add_zero, List.append_nil, Events.consume]
  rw [if_pos h3]

theorem waits_forever {rules : Rules O.BR (Packet O Q)} {chk : Bool} (k : Nat) {r : Rd} (hq : ∀ o ∈ (reads rules chk k r).1, isQuiet o = true)
    (hw : Waits (reads rules chk k r).2) (n : Nat) : loud (reads rules chk n r).1 = [] := by
  have tail : ∀ n {r : Rd}, Waits r → loud (reads rules chk n r).1 = [] := by
    intro n
    induction n with
    | zero => intro r _; rfl
    | succ n ih =>
      intro r hr
      obtain ⟨m, e⟩ := waits_read (rules := rules) (chk := chk) hr
      rw [reads_succ (by rw [e]; simp), e]
      exact ih hr
  induction k generalizing n r with
  | zero => exact tail n hw
  | succ k ih =>
    cases n with
    | zero => rfl
    | succ n =>
      by_cases hp : (Rd.read rules chk r).1 = .panic
      · exfalso
        have : Out.panic ∈ (reads rules chk (k + 1) r).1 := by
          rw [reads]
          match hx : Rd.read rules chk r with
          | (.panic, r') => simp
          | (.ok a, r') => rw [hx] at hp; cases hp
          | (.err e, r') => rw [hx] at hp; cases hp
        exact absurd (hq _ this) (by simp [isQuiet])
      · rw [reads_succ hp] at hq hw ⊢
        have h0 := hq _ List.mem_cons_self
        have := ih (fun o ho => hq o (List.mem_cons_of_mem _ ho)) hw n
        rw [loud, List.filter_cons, h0]
        exact this

/-- 21 zero bytes. -/
def litter21 : Bytes := List.replicate 21 0

/-- A read that ends right after the signature of the packet, a short one of 25 bytes, the rest. -/
def shortCut : Chunks :=
  [litter21 ++ (wire samplePacket).take 8, ((wire samplePacket).drop 8).take 25, (wire samplePacket).drop 33]

theorem shortCut_cuts : Cuts shortCut (stream [(litter21, samplePacket)] []) := by
  constructor
  · decide +kernel
  · decide +kernel

theorem litter21_free : Free litter21 := by unfold Free; decide +kernel

/-- Without overflow checks no number of calls gives more than `NotEnoughData`. -/
theorem C23_release_waits (n : Nat) :
    loud (reads ([.ignored 0] : Rules _ (Packet (blockEnum sampleTypes) (PEnum.ops []))) false n (.new (shortCut.map some))).1 = [] := by
  refine waits_forever 4 (by decide +kernel) ?_ n
  refine ⟨PacketHeader.ofSizes 78 (some 18), ?_, ?_, ?_⟩ <;> decide +kernel

/-- **C23 is false of the code**: 21 bytes of litter and one packet, delivered in reads of 29, 25 and 92 bytes. With overflow
checks `read` panics (`sgmt.end() - buffered`, `reader.rs:236`), without them the packet is lost: every further `read` asks
for more data. -/
theorem C23_short_reads : ¬ C23_full ∧ ∀ chk, ¬ Separates sampleSpec [.ignored 0] chk shortCut [(litter21, samplePacket)] [] := by
  have h2 : ∀ chk, ¬ Separates sampleSpec [.ignored 0] chk shortCut [(litter21, samplePacket)] [] := by
    intro chk
    cases chk with
    | true =>
      refine not_separates 6 (by decide +kernel) ?_
      unfold verdict; rw [if_pos (by decide +kernel)]
    | false =>
      rintro ⟨n, h1, _⟩
      rw [C23_release_waits] at h1
      simp at h1
  refine ⟨fun h => h2 true (h _ _ sampleSpec [.ignored 0] true _ _ _ ?_ (by intro j; simp [PACKET_SIG]) shortCut_cuts), h2⟩
  intro x hx
  simp only [List.mem_singleton] at hx
  subst hx
  exact ⟨litter21_free, samplePacket_ok, by decide⟩

/-- The panic of `C23_short_reads`, by call. -/
theorem C23_underflow_panics :
    ((reads ([.ignored 0] : Rules _ (Packet (blockEnum sampleTypes) (PEnum.ops []))) true 3 (.new (shortCut.map some))).1 matches
      [.ok .notFound, .ok (.notEnough 4), .panic]) = true := by decide +kernel

/-- A packet without blocks and payload. -/
def emptyPacket : Packet (blockEnum sampleTypes) (PEnum.ops []) := ⟨[], none⟩

theorem emptyPacket_ok : emptyPacket.Ok sampleSpec where
  blocks := by intro b hb; cases hb
  payload := by intro v hv; cases hv
  size := by
    intro h hh
    have : emptyPacket.header = .ok (PacketHeader.ofSizes 0 none) := rfl
    rw [this] at hh
    injection hh with hh
    subst hh
    decide

/-- **C23 is false of the code** even with long reads: litter, then a packet without blocks and payload, the first read
ending in its signature. The packet is reported as litter. -/
theorem C23_empty_packet_lost (chk : Bool) :
    Cuts [litter21 ++ (wire emptyPacket).take 8, (wire emptyPacket).drop 8] (stream [(litter21, emptyPacket)] []) ∧
    emptyPacket.Ok sampleSpec ∧
    (∀ c ∈ ([litter21 ++ (wire emptyPacket).take 8, (wire emptyPacket).drop 8] : Chunks).dropLast, 29 ≤ c.length) ∧
    ¬ Separates sampleSpec [.ignored 0] chk [litter21 ++ (wire emptyPacket).take 8, (wire emptyPacket).drop 8]
      [(litter21, emptyPacket)] [] := by
  refine ⟨⟨by decide +kernel, by decide +kernel⟩, emptyPacket_ok, by decide +kernel, not_separates 6 ?_ ?_⟩
  · cases chk <;> decide +kernel
  · unfold verdict; rw [if_pos (by decide +kernel)]

/-- Non-vacuity of `C23_long_reads_partial`: litter, packet, litter with a partial signature, packet, litter. -/
example (chk : Bool) : Separates sampleSpec [.ignored 0] chk [stream [(litter21, samplePacket), ([236, 37, 94, 136, 1], samplePacket)] [236, 37]]
    [(litter21, samplePacket), ([236, 37, 94, 136, 1], samplePacket)] [236, 37] := by
  refine C23_long_reads_partial _ _ _ _ _ ?_ ?_ ⟨by simp, by decide +kernel⟩ (by simp)
  · intro x hx
    have hb : ∀ h, samplePacket.header = .ok h → 8 ≤ h.size := fun h e => body_of_blocks (by decide) h e
    rcases List.mem_cons.mp hx with rfl | hx
    · exact ⟨litter21_free, samplePacket_ok, by decide, .inr hb⟩
    · simp only [List.mem_singleton] at hx
      subst hx
      exact ⟨by unfold Free; decide +kernel, samplePacket_ok, by decide, .inr hb⟩
  · intro j hj
    have := hj.length_le
    simp [PACKET_SIG] at this
    omega

/-! ## C16 and C17, `PacketBufReader` -/

theorem getPos_bytes (h : PacketHeader) (s : Bytes) : getPos (h.bytes ++ s) = some 0 := by
  refine (C12_get_pos_partial _ 0).mpr ⟨⟨?_, by omega⟩, ?_⟩
  · obtain ⟨R, hR⟩ := sig_bytes h
    rw [List.drop_zero, hR, List.append_assoc]; exact List.prefix_append _ _
  · simp [HSIZE]; omega

theorem readHeader_bytes {h : PacketHeader} (w : h.WF) (s : Bytes) : readHeader (h.bytes ++ s) = .ok (.found h 0 29) := by
  rw [readHeader, getPos_bytes]
  simp only [isNotEnough, List.drop_zero]
  rw [if_pos (by simp), PacketHeader.readSlice_bytes w]
  rfl

/-- A fresh read with a whole packet at the front of the buffer. -/
theorem read_whole {rules : Rules O.BR (Packet O Q)} {chk : Bool} (hp : p.Ok S) (s : Bytes) (es : Events) (buffered : Bytes) (log : List Bytes)
    {h : PacketHeader} {pb : Bytes} (sh : Packet.Shape S p h pb) :
    Rd.read rules chk ⟨some (wire p ++ s) :: es, .empty, buffered, log⟩ =
      finish rules h (S.encs p.blocks ++ pb) (wire p).length ⟨some (wire p ++ s) :: es, .empty, [], log⟩ := by
  have hw := wire_eq hp.blocks sh
  have hwl := wire_length hp.blocks sh
  have hne : wire p ++ s ≠ [] := by
    intro e; have := congrArg List.length e; simp only [List.length_append, List.length_nil] at this; omega
  unfold Rd.read
  simp only
  unfold readEmpty
  simp only [Events.fill_some hne]
  obtain ⟨c, cs, hb⟩ : ∃ c cs, wire p ++ s = c :: cs := by
    cases hx : wire p ++ s with
    | nil => exact absurd hx hne
    | cons c cs => exact ⟨c, cs, rfl⟩
  have hlen := congrArg List.length hb
  simp only [List.length_append] at hlen
  rw [hb]
  simp only
  rw [← hb, if_neg (by simp only [List.length_append, HSIZE]; omega)]
  have hr : readHeader (wire p ++ s) = .ok (.found h 0 29) := by
    rw [hw, List.append_assoc]; exact readHeader_bytes sh.wf _
  rw [hr]
  have hsm := sh.small
  simp only
  rw [if_neg (by omega), if_neg (by simp only [List.length_append]; omega)]
  have hsl : slice (wire p ++ s) 29 h.size = S.encs p.blocks ++ pb := by
    unfold slice
    rw [hw, List.append_assoc, List.drop_left' (by simp [HSIZE]), List.take_left' (by rw [sh.size]; simp)]
  rw [hsl, hwl]
  rfl

/-- **C16**, `PacketBufReader`: a complete packet in the current buffer of the source comes back from one `read`, and exactly its bytes
are taken, whatever follows. -/
theorem C16_reader (hp : p.Ok S) (hn : p.blocks.length ≤ 255) (chk : Bool) (s : Bytes) (es : Events) (buffered : Bytes) (log : List Bytes) :
    ∃ src, Rd.read ([] : Rules O.BR (Packet O Q)) chk ⟨some (wire p ++ s) :: es, .empty, buffered, log⟩ =
      (.ok (.found p), ⟨src, .empty, [], log⟩) ∧ src.bytes = s ++ Events.bytes es := by
  obtain ⟨h, pb, sh⟩ := hp.shape
  refine ⟨Events.consume (wire p).length (some (wire p ++ s) :: es), ?_, ?_⟩
  · rw [read_whole hp s es buffered log sh, finish_eq hp.blocks sh hn]
    have : verdict S ([] : Rules O.BR (Packet O Q)) p = .found p := by
      unfold verdict accepts
      cases bodyOf p <;> rfl
    rw [this]
  · rw [Events.bytes_consume (by simp)]
    simp

example : ∃ src, Rd.read ([] : Rules _ (Packet (blockEnum sampleTypes) (PEnum.ops []))) true ⟨[some (wire samplePacket ++ [1, 2])], .empty, [], []⟩ =
    (.ok (.found samplePacket), ⟨src, .empty, [], []⟩) ∧ src.bytes = [1, 2] := by
  obtain ⟨src, h1, h2⟩ := C16_reader (S := sampleSpec) samplePacket_ok (by decide) true [1, 2] [] [] []
  exact ⟨src, h1, by rw [h2]; rfl⟩

theorem blocksLoop_max {bs : List O.B} (h : ∀ b ∈ bs, S.ok b) {left processed : Nat} {acc : List O.BR}
    {buf : Bytes} (hl : processed ≤ buf.length) (hr : buf.drop processed = S.encs bs) (hf : left < bs.length) :
    blocksLoop O buf left processed acc = (.err .maxBlocksCount, .clear) := by
  induction bs generalizing left processed acc with
  | nil => simp at hf
  | cons b bs ih =>
    have hsz := S.rsize_eq b (h b (by simp))
    have h4 := S.four_le b (h b (by simp))
    rw [S.encs_cons] at hr
    have hrl := congrArg List.length hr
    simp only [List.length_drop, List.length_append] at hrl
    cases left with
    | zero => rfl
    | succ left =>
      have hbs : bs ≠ [] := by rintro rfl; simp at hf
      have hpos := S.encs_pos (fun b hb => h b (by simp [hb])) hbs
      rw [blocksLoop, if_neg (by omega), hr, S.readSlice_eq b (h b (by simp))]
      simp only
      rw [if_neg (by omega), if_neg (by omega), ih (fun b hb => h b (by simp [hb]))]
      · omega
      · rw [← List.drop_drop, hr, hsz]; simp
      · simp at hf; omega

/-- **C17**, `PacketBufReader` beyond 255 blocks: `MaxBlocksCount`, and the packet stays in the buffer, so that every further
`read` gives the same error and nothing behind the packet can be reached. -/
theorem C17_reader_stuck (hp : p.Ok S) (hn : 255 < p.blocks.length) (rules : Rules O.BR (Packet O Q)) (chk : Bool) (s : Bytes) (es : Events)
    (log : List Bytes) (n : Nat) :
    reads rules chk n ⟨some (wire p ++ s) :: es, .empty, [], log⟩ =
      (List.replicate n (.err .maxBlocksCount), ⟨some (wire p ++ s) :: es, .empty, [], log⟩) := by
  obtain ⟨h, pb, sh⟩ := hp.shape
  have hne : p.blocks ≠ [] := by intro e; rw [e] at hn; simp at hn
  have hpos := S.encs_pos hp.blocks hne
  have key : Rd.read rules chk ⟨some (wire p ++ s) :: es, .empty, [], log⟩ =
      (.err .maxBlocksCount, ⟨some (wire p ++ s) :: es, .empty, [], log⟩) := by
    rw [read_whole hp s es [] log sh]
    have : parse rules h (S.encs p.blocks ++ pb) = (.err .maxBlocksCount, .clear) := by
      unfold parse
      rw [if_neg (by rw [sh.blocksLen]; simp), sh.blocksLen, List.take_left' rfl]
      simp only
      rw [if_neg (by intro e; rw [e] at hpos; simp at hpos),
        blocksLoop_max hp.blocks (by omega) (by simp) (by simpa [MAX_BLOCKS] using hn)]
    unfold finish
    rw [this]
  induction n with
  | zero => rfl
  | succ n ih =>
    rw [reads_succ (by rw [key]; simp), key, ih]
    rfl

example (n : Nat) : (reads ([] : Rules _ (Packet (blockEnum sampleTypes) (PEnum.ops []))) true n ⟨[some (wire packet256 ++ wire samplePacket)], .empty, [], []⟩).1 =
    List.replicate n (.err .maxBlocksCount) := by
  rw [C17_reader_stuck (S := sampleSpec) packet256_ok (by rw [packet256_length]; omega)]

end Brec.Props
