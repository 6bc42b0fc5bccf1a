import Verif.Props.Copy
import Verif.Props.SendReceive
import Verif.Props.Forward
/-!
# C101: a storage sent over a connection arrives as the same file

One program loops over a storage and sends what comes (`for p in storage.iter() { p?.write_all(&mut connection)?; }`), another one receives packets and inserts them
(`loop { match reader.read()? { Found(p) => writer.insert(p)?, NoData => break, _ => {} } }`).
-/

namespace Brec.Props

open Brec Rd

variable {O : BlockOps} {Q : PayloadOps} {S : BlockSpec O}

/-- The sending loop, run to its end without an error. `next`: the iterator as in `Yields`; `v`: which of the two ways to send is taken. -/
inductive Pours {σ : Type} (next : σ → Option (Out (Packet O Q)) × σ → Prop) (v : Bool) : σ → Sink → Sink → Prop
  | done {s s' : σ} {k : Sink} : next s (none, s') → Pours next v s k k
  | step {s s' : σ} {p : Packet O Q} {k k' k'' : Sink} : next s (some (.ok p), s') → (send v p).run k = (.ok (), k') → Pours next v s' k' k'' → Pours next v s k k''

/-- The receiving loop up to the next packet, the end or an error: `read` again and again. Nothing is said of a panic. -/
inductive Fetches (rules : Rules O.BR (Packet O Q)) (chk : Bool) : Rd → Option (Out (Packet O Q)) × Rd → Prop
  | found {r r' : Rd} {p : Packet O Q} : read rules chk r = (.ok (.found p), r') → Fetches rules chk r (some (.ok p), r')
  | more {r r' : Rd} {n : Nat} {y : Option (Out (Packet O Q)) × Rd} : read rules chk r = (.ok (.notEnough n), r') → Fetches rules chk r' y → Fetches rules chk r y
  | nothing {r r' : Rd} {y : Option (Out (Packet O Q)) × Rd} : read rules chk r = (.ok .notFound, r') → Fetches rules chk r' y → Fetches rules chk r y
  | skipped {r r' : Rd} {y : Option (Out (Packet O Q)) × Rd} : read rules chk r = (.ok .skipped, r') → Fetches rules chk r' y → Fetches rules chk r y
  | err {r r' : Rd} {e : Err} : read rules chk r = (.err e, r') → Fetches rules chk r (some (.err e), r')
  | done {r r' : Rd} : read rules chk r = (.ok .noData, r') → Fetches rules chk r (none, r')

/-- What the sending loop puts on the connection. -/
theorem pours_got {σ : Type} {next : σ → Option (Out (Packet O Q)) × σ → Prop} (hdet : ∀ s a b, next s a → next s b → a = b) {v : Bool} {s : σ} {k k' : Sink} (h : Pours next v s k k') :
    ∀ {ps : List (Packet O Q)}, Yields next s (ps.map .ok) → (∀ p ∈ ps, p.Ok S) → k'.got = k.got ++ (ps.map wire).flatten := by
  induction h with
  | done h =>
    intro ps hy hok
    cases ps with
    | nil => simp
    | cons p ps => cases hy with | step h' _ => cases hdet _ _ _ h h'
  | step h hs _ ih =>
    intro ps hy hok
    cases ps with
    | nil => cases hy with | done h' => cases hdet _ _ _ h h'
    | cons p ps =>
      cases hy with
      | step h' hy =>
        cases hdet _ _ _ h h'
        rw [ih hy fun p hp => hok p (List.mem_cons_of_mem _ hp)]
        rcases send_delivers (S := S) v (hok _ List.mem_cons_self) _ with ⟨_, h2⟩ | ⟨⟨e, h2⟩, _⟩
        · rw [hs] at h2
          rw [h2]
          simp
        · rw [hs] at h2
          cases h2

/-- Results of a loop of `read` that ended: the packets that were found. -/
theorem fetches_of {rules : Rules O.BR (Packet O Q)} {chk : Bool} : ∀ (n : Nat) (r : Rd) (ps : List (Packet O Q)),
    loud (reads rules chk n r).1 = ps.map (fun p => .ok (verdict S rules p)) ++ [.ok .noData] →
    Yields (Fetches rules chk) r ((ps.filter (accepted S rules)).map .ok)
  | 0, r, ps, h => by
    simp [reads, loud] at h
  | n + 1, r, ps, h => by
    have more : ∀ {o : Out (Next (Packet O Q))} {r' : Rd}, (∀ y, Fetches rules chk r' y → Fetches rules chk r y) →
        Yields (Fetches rules chk) r' ((ps.filter (accepted S rules)).map .ok) → Yields (Fetches rules chk) r ((ps.filter (accepted S rules)).map .ok) := by
      intro o r' hf hy
      generalize (ps.filter (accepted S rules)).map Out.ok = l at hy ⊢
      cases hy with
      | done h => exact .done (hf _ h)
      | step h t => exact .step (hf _ h) t
    match hr : read rules chk r with
    | (.panic, r') =>
      rw [reads, hr] at h
      simp only [loud, List.filter_cons, isQuiet, Bool.not_false, if_true, List.filter_nil] at h
      cases ps with
      | nil => cases h
      | cons p ps => cases h
    | (.err e, r') =>
      rw [reads, hr] at h
      simp only [loud, List.filter_cons, isQuiet, Bool.not_false, if_true] at h
      cases ps with
      | nil => cases h
      | cons p ps => cases h
    | (.ok (.notEnough m), r') =>
      rw [reads, hr] at h
      exact more (o := .ok .notFound) (fun y hy => .more hr hy) (fetches_of n r' ps (by simpa [loud, List.filter_cons, isQuiet] using h))
    | (.ok .notFound, r') =>
      rw [reads, hr] at h
      exact more (o := .ok .notFound) (fun y hy => .nothing hr hy) (fetches_of n r' ps (by simpa [loud, List.filter_cons, isQuiet] using h))
    | (.ok .noData, r') =>
      rw [reads, hr] at h
      simp only [loud, List.filter_cons, isQuiet, Bool.not_false, if_true] at h
      cases ps with
      | nil => exact .done (.done hr)
      | cons p ps =>
        simp only [List.map_cons, List.cons_append, List.cons.injEq] at h
        have := h.1
        unfold verdict at this
        split at this <;> cases this
    | (.ok .skipped, r') =>
      rw [reads, hr] at h
      simp only [loud, List.filter_cons, isQuiet, Bool.not_false, if_true] at h
      cases ps with
      | nil => cases h
      | cons p ps =>
        simp only [List.map_cons, List.cons_append, List.cons.injEq] at h
        have ha : accepted S rules p = false := by
          have := h.1
          unfold verdict at this
          split at this
          · cases this
          · rename_i hx
            simpa [accepted] using hx
        have hy := fetches_of n r' ps (by rw [← h.2]; rfl)
        rw [List.filter_cons, ha] at more ⊢
        exact more (o := .ok .notFound) (fun y hy => .skipped hr hy) hy
    | (.ok (.found q), r') =>
      rw [reads, hr] at h
      simp only [loud, List.filter_cons, isQuiet, Bool.not_false, if_true] at h
      cases ps with
      | nil => cases h
      | cons p ps =>
        simp only [List.map_cons, List.cons_append, List.cons.injEq] at h
        have ha : accepted S rules p = true ∧ q = p := by
          have := h.1
          unfold verdict at this
          split at this
          · rename_i hx
            injection this with this
            injection this with this
            exact ⟨by simpa [accepted] using hx, this⟩
          · cases this
        have hy := fetches_of n r' ps (by rw [← h.2]; rfl)
        rw [List.filter_cons, ha.1]
        obtain ⟨_, rfl⟩ := ha
        exact .step (.found hr) hy

/-- Full statement of C101 (false). -/
def C101_full (S : BlockSpec O) (Q : PayloadOps) : Prop :=
  ∀ (cap : Nat) (chk chk' : Bool) (ops ops2 : List (Op O Q)) (data : Bytes) (s : Storage) (w : Writer) (v : Bool) (sched : List Resp) (k : Sink) (rules : Rules O.BR (Packet O Q)) (cs : Chunks),
    0 < cap → Reached cap chk ops data s → runOps cap chk ops2 emptyWriter = some w → (∀ p ∈ log ops, Storable S p) → (∀ p ∈ log ops2, p.Ok S) → Small cap (log ops2 ++ log ops) →
    Pours (O := O) (Q := Q) (fun it r => Iter.next data it = r) v (Iter.new s) ⟨sched, []⟩ k → Cuts cs k.got →
    ∃ w', Copies cap (Fetches rules chk') (.new (cs.map some)) w w' ∧ FileOf cap chk (log ops2 ++ (log ops).filter (accepted S rules)) w'.data

/-- **C101 (partial).** A storage with any history is sent over a connection, in either way and in whatever portions the connection takes the bytes; a program on the other side, whatever the portions in which the
bytes arrive, inserts what it receives into a storage with any history. If the sending loop ends without an error, so does the receiving loop, and the file on the other side is, byte for byte, the one that the
packets it had and the sent ones, but for those that the rules of the receiver refuse, make. Missing: packets with 256 blocks, which
a storage takes and gives back and `PacketBufReader` does not (`C101_blocked`, `C101_not`). -/
theorem C101_mirror_partial {cap : Nat} (hc : 0 < cap) {chk : Bool} {ops ops2 : List (Op O Q)} {data : Bytes} {s : Storage} {w : Writer} (h : Reached cap chk ops data s)
    (hw : runOps cap chk ops2 emptyWriter = some w) (hok : ∀ p ∈ log ops, Storable S p) (hn : ∀ p ∈ log ops, p.blocks.length ≤ 255)
    (hok2 : ∀ p ∈ log ops2, p.Ok S) (hs : Small cap (log ops2 ++ log ops))
    {v : Bool} {sched : List Resp} {k : Sink} (hp : Pours (O := O) (Q := Q) (fun it r => Iter.next data it = r) v (Iter.new s) ⟨sched, []⟩ k)
    (rules : Rules O.BR (Packet O Q)) (chk' : Bool) {cs : Chunks} (hcut : Cuts cs k.got) :
    ∃ w', Copies cap (Fetches rules chk') (.new (cs.map some)) w w' ∧ FileOf cap chk (log ops2 ++ (log ops).filter (accepted S rules)) w'.data := by
  have hs1 : Small cap (log ops) := Small.sublist (List.sublist_append_right _ _) hs
  have hok1 : ∀ p ∈ log ops, p.Ok S := fun p hp => (hok p hp).ok
  obtain ⟨gs, vw, hd, f, hl⟩ := h.view hc hok1 hs1
  have y : IterYields s data ((log ops).map .ok) := by
    subst hd
    exact Before.yields hl (log ops) (view_before vw f) hok
  have hgot := pours_got (S := S) (fun s a b h1 h2 => h1.symm.trans h2) hp y hok1
  rw [List.nil_append] at hgot
  rw [hgot] at hcut
  obtain ⟨n, e, _⟩ := C24_rules (S := S) (log ops) (fun p hp => ⟨(hok p hp).ok, hn p hp⟩) rules chk' cs hcut
  refine copies_file (S := S) hc (fetches_of n _ _ e) hw (fun p hp => ?_) (Small.sublist (List.Sublist.append (List.Sublist.refl _) List.filter_sublist) hs)
  rcases List.mem_append.mp hp with hp | hp
  · exact hok2 p hp
  · exact hok1 p (List.mem_filter.mp hp).1

/-- **C101 (partial)**, the same file: no rules, and an empty storage on the other side. -/
theorem C101_same_partial {cap : Nat} (hc : 0 < cap) {chk : Bool} {ops : List (Op O Q)} {data : Bytes} {s : Storage} (h : Reached cap chk ops data s)
    (hok : ∀ p ∈ log ops, Storable S p) (hn : ∀ p ∈ log ops, p.blocks.length ≤ 255) (hs : Small cap (log ops))
    {v : Bool} {sched : List Resp} {k : Sink} (hp : Pours (O := O) (Q := Q) (fun it r => Iter.next data it = r) v (Iter.new s) ⟨sched, []⟩ k) (chk' : Bool) {cs : Chunks} (hcut : Cuts cs k.got) :
    ∃ w', Copies cap (Fetches (Q := Q) ([] : Rules O.BR (Packet O Q)) chk') (.new (cs.map some)) emptyWriter w' ∧ w'.data = data := by
  obtain ⟨w', h1, w2, e2, hd2⟩ := C101_mirror_partial (S := S) hc (ops2 := []) h rfl hok hn (by simp [log]) (by simpa [log] using hs) hp [] chk' hcut
  have hf : (log ops).filter (accepted S ([] : Rules O.BR (Packet O Q))) = log ops := by
    rw [List.filter_eq_self]
    intro p _
    unfold accepted accepts
    cases bodyOf p <;> rfl
  rw [hf, show log ([] : List (Op O Q)) = [] from rfl, List.nil_append] at e2
  obtain ⟨w3, w4, e3, e4, e⟩ := C30_no_trace (S := S) hc chk ops (fun p hp => (hok p hp).ok) hs
  obtain ⟨w5, e5, hd⟩ := h.run
  rw [e5] at e3
  cases e3
  rw [e2] at e4
  cases e4
  exact ⟨w', h1, by rw [← hd2, ← e, hd]⟩

/-! ## A connection that breaks -/

theorem foundIn_news : ∀ os : List (Out (Next (Packet O Q))), foundIn os = foundIn (news os)
  | [] => rfl
  | o :: os => by
    have ih := foundIn_news os
    rcases o with (_ | _ | _ | _ | _) | _ | _ <;> simp only [foundIn, news, List.filter_cons, if_true] <;> first | exact ih | (rw [ih]; rfl)

theorem foundIn_verdicts (rules : Rules O.BR (Packet O Q)) : ∀ ps : List (Packet O Q), foundIn (ps.map fun p => .ok (verdict S rules p)) = ps.filter (accepted S rules)
  | [] => rfl
  | p :: ps => by
    have ih := foundIn_verdicts rules ps
    rw [List.map_cons, List.filter_cons, verdict, accepted]
    cases accepts S rules p (bodyOf p) with
    | true => simpa [foundIn] using ih
    | false => simpa [foundIn] using ih

/-- **C101 (partial)**, a connection that breaks at any byte. `sendAll`: the sending loop with its calls as they come, each of the two ways for each packet; its first component is the number of
calls that returned `Ok`. From some call of `read` on, the packets that the receiver has found and inserted are those, and the file on the other side is the one that they make with the packets it had: a part of
the storage from its beginning, and never half a packet. -/
theorem C101_broken_partial {cap : Nat} (hc : 0 < cap) {chk : Bool} {ops2 : List (Op O Q)} {w : Writer} (hw : runOps cap chk ops2 emptyWriter = some w) (xs : List (Bool × Packet O Q))
    (hok : ∀ x ∈ xs, x.2.Ok S ∧ x.2.blocks.length ≤ 255) (hok2 : ∀ p ∈ log ops2, p.Ok S) (hs : Small cap (log ops2 ++ xs.map (·.2))) (sched : List Resp) (rules : Rules O.BR (Packet O Q)) (chk' : Bool)
    {cs : Chunks} (hcut : Cuts cs (sendAll xs ⟨sched, []⟩).2.got) :
    ∃ n, ∀ m, ∃ w', runOps cap chk ((foundIn (reads rules chk' (n + m) (.new (cs.map some))).1).map Op.insert) w = some w' ∧
      FileOf cap chk (log ops2 ++ ((xs.take (sendAll xs ⟨sched, []⟩).1).map (·.2)).filter (accepted S rules)) w'.data := by
  obtain ⟨n, hn⟩ := C73_send_receive (S := S) xs hok sched rules chk' cs hcut
  refine ⟨n, fun m => ?_⟩
  generalize (sendAll xs ⟨sched, []⟩).1 = k at hn ⊢
  have hf : foundIn (reads rules chk' (n + m) (.new (cs.map some))).1 = ((xs.take k).map (·.2)).filter (accepted S rules) := by
    rw [foundIn_news, hn m, ← foundIn_verdicts, List.map_map]
    rfl
  rw [hf]
  have hsub : (((xs.take k).map (·.2)).filter (accepted S rules)).Sublist (xs.map (·.2)) := List.filter_sublist.trans ((List.take_sublist k xs).map _)
  generalize (((xs.take k).map (·.2)).filter (accepted S rules)) = ps at hsub ⊢
  have hl : log (ops2 ++ ps.map Op.insert) = log ops2 ++ ps := by rw [log_append, log_inserts]
  obtain ⟨w1, w2, e1, e2, e⟩ := C30_no_trace (S := S) hc chk (ops2 ++ ps.map Op.insert)
    (by
      rw [hl]
      intro p hp
      rcases List.mem_append.mp hp with hp | hp
      · exact hok2 p hp
      · obtain ⟨x, hx, rfl⟩ := List.mem_map.mp (hsub.subset hp)
        exact (hok x hx).1)
    (by rw [hl]; exact Small.sublist (List.Sublist.append (List.Sublist.refl _) hsub) hs)
  rw [runOps_append, hw] at e1
  rw [hl] at e2
  exact ⟨w1, e1, w2, e2, e.symm⟩

/-! ## Packets with 256 blocks -/

/-- **C101 fails** for packets with more than 255 blocks: if such a packet comes first and lies whole in the buffer of the receiver, the receiving loop never gets past it, whatever is behind it and whatever the
rules are. -/
theorem C101_blocked {p : Packet O Q} (hp : p.Ok S) (hn : 255 < p.blocks.length) (rules : Rules O.BR (Packet O Q)) (chk : Bool) (s : Bytes) (es : Events) (cap : Nat) (w w' : Writer) :
    ¬ Copies cap (Fetches rules chk) (.new (some (wire p ++ s) :: es)) w w' := by
  have h1 := C17_reader_stuck (S := S) hp hn rules chk s es [] 1
  have hr : ∃ r', read rules chk (.new (some (wire p ++ s) :: es)) = (.err .maxBlocksCount, r') := by
    have h1 := congrArg Prod.fst h1
    rw [reads] at h1
    rcases hx : read rules chk ⟨some (wire p ++ s) :: es, .empty, [], []⟩ with ⟨o, r'⟩
    rw [hx] at h1
    cases o with
    | ok x => simp [reads] at h1
    | panic => simp at h1
    | err e =>
      simp [reads] at h1
      subst h1
      exact ⟨r', hx⟩
  obtain ⟨r', hr⟩ := hr
  generalize Rd.new (some (wire p ++ s) :: es) = r at hr
  have key : ∀ y, Fetches rules chk r y → y = (some (.err .maxBlocksCount), r') := by
    intro y hy
    cases hy with
    | found h => rw [hr] at h; cases h
    | more h _ => rw [hr] at h; cases h
    | nothing h _ => rw [hr] at h; cases h
    | skipped h _ => rw [hr] at h; cases h
    | err h => rw [hr] at h; cases h; rfl
    | done h => rw [hr] at h; cases h
  intro hc
  cases hc with
  | done h => cases key _ h
  | step h _ _ => cases key _ h

/-- A connection that takes whatever it is given. -/
theorem send_free {p : Packet O Q} (hp : p.Ok S) (g : Bytes) : (send true p).run ⟨[], g⟩ = (.ok (), ⟨[], g ++ wire p⟩) := by
  obtain ⟨w, h', ss, e1, _, e3, e4, _⟩ := C19_write_forms hp
  have e : (send true p).run ⟨[], g⟩ = (.ok (), ⟨[], g ++ (inWork 0 0 ss).flatten⟩) := by
    unfold send
    rw [if_pos rfl, W.bind_ok (by rw [W.lift_run, e3])]
    rfl
  rcases send_delivers (S := S) true hp ⟨[], g⟩ with ⟨_, h2⟩ | ⟨⟨er, h2⟩, _⟩
  · rw [e] at h2 ⊢
    simp only at h2
    rw [h2]
  · rw [e] at h2
    cases h2

theorem pours_free {σ : Type} {next : σ → Option (Out (Packet O Q)) × σ → Prop} : ∀ {ps : List (Packet O Q)} {s : σ}, Yields next s (ps.map .ok) → (∀ p ∈ ps, p.Ok S) → ∀ g : Bytes,
    Pours next true s ⟨[], g⟩ ⟨[], g ++ (ps.map wire).flatten⟩
  | [], s, .done h, _, g => by
    simp only [List.map_nil, List.flatten_nil, List.append_nil]
    exact .done h
  | p :: ps, s, .step h t, hok, g => by
    have := pours_free t (fun p hp => hok p (List.mem_cons_of_mem _ hp)) (g ++ wire p)
    rw [List.append_assoc] at this
    exact .step h (send_free (hok p (by simp)) g) this

/-- What a storage holds goes over a connection that takes whatever it is given. -/
theorem pours_storage {cap : Nat} (hc : 0 < cap) {chk : Bool} {ops : List (Op O Q)} {data : Bytes} {s : Storage} (h : Reached cap chk ops data s)
    (hok : ∀ p ∈ log ops, Storable S p) (hs : Small cap (log ops)) :
    Pours (O := O) (Q := Q) (fun it r => Iter.next data it = r) true (Iter.new s) ⟨[], []⟩ ⟨[], ((log ops).map wire).flatten⟩ := by
  have hok1 : ∀ p ∈ log ops, p.Ok S := fun p hp => (hok p hp).ok
  obtain ⟨gs, vw, hd, f, hl⟩ := h.view hc hok1 hs
  have y : IterYields s data ((log ops).map .ok) := by
    subst hd
    exact Before.yields hl (log ops) (view_before vw f) hok
  exact pours_free y hok1 []

theorem packet256_storable : Storable sampleSpec packet256 := ⟨packet256_ok, Nat.le_of_eq packet256_length⟩

theorem packet256_wire : (wire packet256).length = 29 + 2048 := by
  obtain ⟨h, pb, sh⟩ := packet256_ok.shape
  have : packet256.header = .ok (PacketHeader.ofSizes 2048 none) := by
    have key : ∀ n (b : BlockVal), ((List.replicate n b).map BlockVal.size).sum = n * b.size := by
      intro n b; rw [List.map_replicate, List.sum_replicate_nat]
    exact congrArg (fun n => Out.ok (PacketHeader.ofSizes n none)) (key 256 ⟨otherBlock, ()⟩)
  rw [wire_length packet256_ok.blocks sh]
  have := sh.header.symm.trans this
  injection this with this
  rw [this]
  rfl

theorem packet256_cuts : Cuts [wire packet256 ++ []] (wire packet256 ++ []) := by
  refine ⟨by rw [List.flatten_cons, List.flatten_nil, List.append_nil], fun c hc => ?_⟩
  have hl := packet256_wire
  rw [List.append_nil] at hc
  generalize wire packet256 = x at hl hc
  rw [List.mem_singleton.mp hc]
  refine ⟨fun e => ?_, by omega⟩
  rw [e, List.length_nil] at hl
  omega

/-- **C101 is false**: a storage with one packet of 256 blocks. -/
theorem C101_not : ¬ C101_full sampleSpec (PEnum.ops []) := by
  intro h
  have hs : Small SLOT_CAPACITY [packet256] := by
    simp [Small, packet256_wire, SLOT_CAPACITY]
  have hok : ∀ p ∈ log [Op.insert packet256], Storable sampleSpec p := by
    intro p hp
    simp only [log, List.mem_cons, List.not_mem_nil, or_false] at hp
    subst hp
    exact packet256_storable
  obtain ⟨data, s, hr⟩ := Reached.exists (S := sampleSpec) (cap := SLOT_CAPACITY) (by decide) true [Op.insert packet256] hok hs
  have hp := pours_storage (S := sampleSpec) (by decide) hr hok hs
  simp only [log, List.map_cons, List.map_nil, List.flatten_cons, List.flatten_nil] at hp
  obtain ⟨w', hc, _⟩ := h SLOT_CAPACITY true true [Op.insert packet256] [] data s emptyWriter true [] _ [] [wire packet256 ++ []] (by decide) hr rfl hok
    (by simp [log]) (by simpa [log] using hs) hp
    packet256_cuts
  exact C101_blocked packet256_ok (by rw [packet256_length]; omega) [] true [] [] SLOT_CAPACITY emptyWriter w' hc

/-! ## The hypotheses can be met -/

/-- Two packets with a reopen between go over a connection, arrive in reads of 100 bytes, and make the same file. -/
example (chk' : Bool) : ∃ data w', FileOf SLOT_CAPACITY true [samplePacket, samplePacket] data ∧ (∃ cs : Chunks, cs.length = 3 ∧
    Copies SLOT_CAPACITY (Fetches ([] : Rules _ (Packet (blockEnum sampleTypes) (PEnum.ops []))) chk') (.new (cs.map some)) emptyWriter w') ∧ w'.data = data := by
  have hwl : (wire samplePacket).length = 125 := by decide +kernel
  have hs : Small SLOT_CAPACITY [samplePacket, samplePacket] := by simp [Small, hwl, SLOT_CAPACITY]
  have hok : ∀ p ∈ log [Op.insert samplePacket, .reopen, .insert samplePacket], Storable sampleSpec p := by
    intro p hp
    simp only [log, List.mem_cons, List.not_mem_nil, or_false, or_self] at hp
    subst hp
    exact sample_storable
  obtain ⟨data, s, h⟩ := Reached.exists (S := sampleSpec) (cap := SLOT_CAPACITY) (by decide) true [Op.insert samplePacket, .reopen, .insert samplePacket] hok hs
  have hp := pours_storage (S := sampleSpec) (by decide) h hok hs
  have hn : ∀ p ∈ log [Op.insert samplePacket, .reopen, .insert samplePacket], p.blocks.length ≤ 255 := by
    intro p hp
    simp only [log, List.mem_cons, List.not_mem_nil, or_false, or_self] at hp
    subst hp
    decide
  let x := ((log [Op.insert samplePacket, .reopen, .insert samplePacket]).map wire).flatten
  obtain ⟨w', h1, h2⟩ := C101_same_partial (S := sampleSpec) (by decide) h hok hn hs hp chk' (cs := [x.take 100, (x.drop 100).take 100, x.drop 200]) ⟨by decide +kernel, by decide +kernel⟩
  refine ⟨data, w', ?_, ⟨_, rfl, h1⟩, h2⟩
  obtain ⟨w3, w4, e3, e4, e⟩ := C30_no_trace (S := sampleSpec) (cap := SLOT_CAPACITY) (by decide) true [Op.insert samplePacket, .reopen, .insert samplePacket] (fun p hp => (hok p hp).ok) hs
  obtain ⟨w5, e5, hd⟩ := h.run
  rw [e5] at e3
  cases e3
  exact ⟨w4, e4, by rw [← e, hd]⟩

/-- A connection that takes portions of 29 bytes and breaks inside the second packet. -/
def flaky : List Resp := List.replicate 8 (.accept 29) ++ [.fail]

/-- Non-vacuity of `C101_broken_partial`: of two packets the first one arrives, although 55 bytes of the second one were taken. -/
example (chk' : Bool) : (sendAll [(false, samplePacket), (false, samplePacket)] ⟨flaky, []⟩).2.got.length = 180 ∧
    ∃ n, ∀ m, ∃ w', runOps SLOT_CAPACITY true ((foundIn (reads ([] : Rules _ (Packet (blockEnum sampleTypes) (PEnum.ops []))) chk' (n + m)
      (.new ([(sendAll [(false, samplePacket), (false, samplePacket)] ⟨flaky, []⟩).2.got].map some))).1).map Op.insert) emptyWriter = some w' ∧
      FileOf SLOT_CAPACITY true [samplePacket] w'.data := by
  refine ⟨by decide +kernel, ?_⟩
  have hwl : (wire samplePacket).length = 125 := by decide +kernel
  have hk : (sendAll [(false, samplePacket), (false, samplePacket)] ⟨flaky, []⟩).1 = 1 := by decide +kernel
  obtain ⟨n, h⟩ := C101_broken_partial (S := sampleSpec) (cap := SLOT_CAPACITY) (by decide) (chk := true) (ops2 := []) rfl [(false, samplePacket), (false, samplePacket)]
    (by
      intro x hx
      simp only [List.mem_cons, List.not_mem_nil, or_false, or_self] at hx
      subst hx
      exact ⟨samplePacket_ok, by decide⟩)
    (by simp [log]) (by simp [log, Small, hwl, SLOT_CAPACITY]) flaky [] chk' (cs := [(sendAll [(false, samplePacket), (false, samplePacket)] ⟨flaky, []⟩).2.got])
    ⟨by simp, by decide +kernel⟩
  refine ⟨n, fun m => ?_⟩
  obtain ⟨w', h1, h2⟩ := h m
  refine ⟨w', h1, ?_⟩
  rw [hk] at h2
  have ha : accepted sampleSpec ([] : Rules _ (Packet (blockEnum sampleTypes) (PEnum.ops []))) samplePacket = true := by
    unfold accepted accepts
    cases bodyOf samplePacket <;> rfl
  simpa [log, ha] using h2

end Brec.Props
