import Verif.Props.Join
import Verif.Props.SendReceive
/-!
# C100: a stream that goes on behind a packet of which only the beginning was written

A writer breaks off inside a packet (a crash, a connection that fails) and then goes on with the next packets on the same stream: a log file that is opened for appending again, a
sender that ignores an error. One expects this to cost the torn packet. What it does cost depends on the number `k` of bytes that were written:

* 1, 2, 3, 5, 6 or 7 bytes: nothing else (`C100_signature_partial`);
* 4 bytes, or the signature and a part of the header: all packets behind, because `read` returns the same error for ever (`C100_header`, `C100_half`);
* the whole header: the packets into which the missing bytes reach (`C100_swallows_partial`), always at least one (`C100_next_lost`), and all packets behind if what comes about lies
  whole in the buffer of the source and is not passed.
-/

namespace Brec.Props

open Brec Packet Rd

variable {O : BlockOps} {Q : PayloadOps} {S : BlockSpec O}

/-! ## The claim -/

/-- The packets `pre`, the first `k` bytes of `p`, and the packets `qs`. -/
def torn (pre : List (Packet O Q)) (p : Packet O Q) (k : Nat) (qs : List (Packet O Q)) : Bytes :=
  (pre.map wire).flatten ++ ((wire p).take k ++ (qs.map wire).flatten)

/-- Full statement of C100 (false): a torn packet costs itself. There is at most one result for it, and all other packets are received. -/
def C100_full (S : BlockSpec O) (Q : PayloadOps) : Prop :=
  ∀ (rules : Rules O.BR (Packet O Q)) (chk : Bool) (pre : List (Packet O Q)) (p : Packet O Q) (k : Nat) (qs : List (Packet O Q)) (cs : Chunks), 0 < k → k < (wire p).length →
    (∀ q ∈ pre ++ p :: qs, q.Ok S ∧ q.blocks.length ≤ 255) → (∀ q ∈ qs, ∀ h, q.header = .ok h → 8 ≤ h.size) → Cuts cs (torn pre p k qs) → (∀ c ∈ cs.dropLast, 29 ≤ c.length) →
    ∃ n os, os.length ≤ 1 ∧ loud (reads rules chk n (.new (cs.map some))).1 =
      pre.map (fun q => .ok (verdict S rules q)) ++ (os ++ qs.map (fun q => .ok (verdict S rules q))) ++ [.ok .noData]

/-! ## Frames -/

theorem frames_not_bad_long {r : Rd} {is : List (Bytes × Frame)} (h : LongInv r) : ¬ Frames.Bad r is := by
  rintro ⟨b, n, c, es, l, p, rest, hr, hs, hc, _, hl⟩
  have := (h.refill b n hr).2 (by omega)
  rw [hs] at this
  cases this

/-- Frames and litter: the end is reached, or the reader stops for good, if there is no litter in front of frames or the reads are long. -/
theorem frames_run (hO : O.Safe) (hQ : Q.Safe) (rules : Rules O.BR (Packet O Q)) (chk : Bool) (is : List (Bytes × Frame)) (t : Bytes) (cs : Chunks)
    (hg : ∀ x ∈ is, Frames.GoodFrame x) (ht : NoSig t) (hc : Cuts cs (Frames.stream is t)) (hl : (∀ x ∈ is, x.1 = []) ∨ ∀ c ∈ cs.dropLast, 29 ≤ c.length) :
    Frames.Ends rules chk (.new (cs.map some)) is t ∨ Frames.Stops rules chk (.new (cs.map some)) is := by
  have inv := Frames.inv_new hc.2 hc.1 hg ht
  rcases hl with hl | hl
  · refine Frames.run hO hQ (fun _ is => ∀ x ∈ is, x.1 = []) (fun r is t inv hG => Frames.not_bad_pure inv hG) (fun r is t is' _ hG hi _ => ?_) _ _ _ inv hl
    rcases hi with rfl | ⟨k, rfl⟩
    · exact fun x hx => hG x (List.mem_of_mem_tail hx)
    · cases is with
      | nil => simp [Frames.dropItems]
      | cons y is =>
        obtain ⟨l, p⟩ := y
        intro x hx
        rcases List.mem_cons.mp hx with rfl | hx
        · have := hG (l, p) List.mem_cons_self
          simp only at this
          simp [this]
        · exact hG x (List.mem_cons_of_mem _ hx)
  · have hlong : Events.Long (cs.map some) := by
      intro c h
      rw [← List.map_dropLast] at h
      obtain ⟨c', h', e⟩ := List.mem_map.mp h
      rw [← Option.some.inj e]
      exact hl _ h'
    exact Frames.run hO hQ (fun r _ => LongInv r ∧ Sane r) (fun r is t _ hG => frames_not_bad_long hG.1)
      (fun r is t is' _ hG _ _ => ⟨hG.1.read hG.2 rules chk, hG.2.read rules chk⟩) _ _ _ inv ⟨⟨Long_tail hlong, fun b n e => by cases e⟩, ⟨trivial⟩⟩

/-- A packet as it was written. -/
def whole (q : Packet O Q) : Packet O Q × Bytes := (q, body q)

theorem whole_damage {q : Packet O Q} (h : q.Ok S ∧ q.blocks.length ≤ 255) : Damage S (whole q) := ⟨h.1, h.2, rfl⟩

theorem hit_whole (q : Packet O Q) : hit (whole q).1 (whole q).2 = wire q := List.take_append_drop 29 _

/-- Litter and packets behind it: items and the tail. -/
def behind (l : Bytes) : List (Packet O Q) → List (Bytes × Frame) × Bytes
  | [] => ([], l)
  | q :: qs => ((l, frame (whole q)) :: qs.map fun q => (([] : Bytes), frame (whole q)), [])

theorem whole_stream_frames (t : Bytes) (is : List (Bytes × Frame)) (qs : List (Packet O Q)) (h : ∀ q ∈ qs, q.Ok S ∧ q.blocks.length ≤ 255) :
    Frames.stream ((qs.map fun q => (([] : Bytes), frame (whole q))) ++ is) t = (qs.map wire).flatten ++ Frames.stream is t := by
  induction qs with
  | nil => rfl
  | cons q qs ih =>
    obtain ⟨_, _, _, _, hw, _⟩ := frame_facts (whole_damage (h q (by simp)))
    rw [hit_whole] at hw
    simp only [List.map_cons, List.cons_append, Frames.stream, List.nil_append, List.flatten_cons, List.append_assoc]
    rw [ih fun q hq => h q (List.mem_cons_of_mem _ hq), hw]

theorem behind_stream (l : Bytes) (qs : List (Packet O Q)) (h : ∀ q ∈ qs, q.Ok S ∧ q.blocks.length ≤ 255) :
    Frames.stream (behind l qs).1 (behind l qs).2 = l ++ (qs.map wire).flatten := by
  cases qs with
  | nil => simp [behind, Frames.stream]
  | cons q qs =>
    obtain ⟨_, _, _, _, hw, _⟩ := frame_facts (whole_damage (h q (by simp)))
    rw [hit_whole] at hw
    have := whole_stream_frames [] [] qs (fun q hq => h q (List.mem_cons_of_mem _ hq))
    rw [List.append_nil] at this
    simp only [behind, Frames.stream, List.map_cons, List.flatten_cons]
    rw [this, hw]
    simp [Frames.stream]

theorem behind_verdicts (rules : Rules O.BR (Packet O Q)) (l : Bytes) (qs : List (Packet O Q)) (h : ∀ q ∈ qs, q.Ok S ∧ q.blocks.length ≤ 255) :
    (behind l qs).1.map (fun x => Frames.verdict rules x.2) = qs.map fun q => .ok (verdict S rules q) := by
  have e : ∀ q ∈ qs, Frames.verdict rules (frame (whole q)) = .ok (verdict S rules q) := fun q hq =>
    congrArg Prod.fst (frame_intact (whole_damage (h q hq)) rules rfl)
  cases qs with
  | nil => rfl
  | cons q qs =>
    simp only [behind, List.map_cons, List.map_map]
    rw [e q (by simp)]
    congr 1
    exact List.map_congr_left fun q hq => e q (List.mem_cons_of_mem _ hq)

theorem behind_litters (l : Bytes) (qs : List (Packet O Q)) : Frames.litters (behind l qs).1 (behind l qs).2 = l := by
  cases qs with
  | nil => simp [behind, Frames.litters]
  | cons q qs => simp [behind, Frames.litters, List.map_map, Function.comp_def]

theorem behind_snd (l : Bytes) (qs : List (Packet O Q)) : (behind l qs).1.map Prod.snd = qs.map fun q => frame (whole q) := by
  cases qs with
  | nil => rfl
  | cons q qs => simp [behind, List.map_map, Function.comp_def]

theorem behind_good {l : Bytes} {qs : List (Packet O Q)} (h : ∀ q ∈ qs, q.Ok S ∧ q.blocks.length ≤ 255) (hf : Free l)
    (h8 : l = [] ∨ ∀ q, qs.head? = some q → ∀ h, q.header = .ok h → 8 ≤ h.size) :
    (∀ x ∈ (behind l qs).1, Frames.GoodFrame x) ∧ NoSig (behind l qs).2 := by
  have hn : NoSig ([] : Bytes) := by
    intro j hj
    rw [List.drop_nil] at hj
    exact absurd hj.length_le (by decide)
  cases qs with
  | nil => exact ⟨fun x hx => absurd hx List.not_mem_nil, (free_iff.mp hf).1⟩
  | cons q qs =>
    refine ⟨fun x hx => ?_, hn⟩
    rcases List.mem_cons.mp hx with rfl | hx
    · obtain ⟨hd, pb, sh, fs, _, _⟩ := frame_facts (whole_damage (h q (by simp)))
      refine ⟨hf, ⟨hd, _, fs⟩, ?_⟩
      rcases h8 with h8 | h8
      · exact .inl h8
      · right
        have := h8 q rfl hd sh.header
        have e : (frame (whole q)).1 = hd := congrArg Prod.fst fs.eq
        simp only [e]
        exact this
    · obtain ⟨r, hr, rfl⟩ := List.mem_map.mp hx
      obtain ⟨hd, pb, sh, fs, _, _⟩ := frame_facts (whole_damage (h r (List.mem_cons_of_mem _ hr)))
      exact ⟨free_nil, ⟨hd, _, fs⟩, .inl rfl⟩

/-! ## The header was written -/

/-- What stands behind the header of the torn packet: the rest of what was written, and the beginning of the packets behind. -/
def filled (p : Packet O Q) (k : Nat) (sw : List (Packet O Q)) : Bytes := ((wire p).take k).drop 29 ++ ((sw.map wire).flatten).take ((wire p).length - k)

/-- What is left of the packets into which the missing bytes reach. -/
def left (p : Packet O Q) (k : Nat) (sw : List (Packet O Q)) : Bytes := ((sw.map wire).flatten).drop ((wire p).length - k)

theorem torn_eq {p : Packet O Q} {k : Nat} (pre sw post : List (Packet O Q)) (h29 : 29 ≤ k) :
    torn pre p k (sw ++ post) = (pre.map wire).flatten ++ (hit p (filled p k sw) ++ (left p k sw ++ (post.map wire).flatten)) := by
  have h : (wire p).take k = (wire p).take 29 ++ ((wire p).take k).drop 29 := by
    have := List.take_append_drop 29 ((wire p).take k)
    rw [List.take_take, Nat.min_eq_left h29] at this
    exact this.symm
  have hs := List.take_append_drop ((wire p).length - k) (sw.map wire).flatten
  rw [torn, hit, filled, left, List.map_append, List.flatten_append]
  conv => lhs; rw [h, ← hs]
  simp only [List.append_assoc]

theorem flat_nil {p : Packet O Q} {k : Nat} {sw : List (Packet O Q)} (hk : k < (wire p).length) (hm : (wire p).length - k ≤ (sw.map wire).flatten.length) : sw ≠ [] := by
  rintro rfl
  simp at hm
  omega

theorem filled_damage {p : Packet O Q} {k : Nat} {sw : List (Packet O Q)} (hp : p.Ok S ∧ p.blocks.length ≤ 255) (h29 : 29 ≤ k) (hk : k < (wire p).length)
    (hm : (wire p).length - k ≤ (sw.map wire).flatten.length) : Damage S (p, filled p k sw) := by
  refine ⟨hp.1, hp.2, ?_⟩
  simp only [filled, body, List.length_append, List.length_drop, List.length_take]
  omega

/-- The stream as frames. -/
def tornItems (pre : List (Packet O Q)) (p : Packet O Q) (k : Nat) (sw post : List (Packet O Q)) : List (Bytes × Frame) :=
  (pre.map fun q => (([] : Bytes), frame (whole q))) ++ ([], frame (p, filled p k sw)) :: (behind (left p k sw) post).1

theorem torn_run (hO : O.Safe) (hQ : Q.Safe) (rules : Rules O.BR (Packet O Q)) (chk : Bool) {pre sw post : List (Packet O Q)} {p : Packet O Q} {k : Nat} {cs : Chunks}
    (hp : ∀ q ∈ pre ++ p :: (sw ++ post), q.Ok S ∧ q.blocks.length ≤ 255) (h29 : 29 ≤ k) (hk : k < (wire p).length)
    (hm : (wire p).length - k ≤ (sw.map wire).flatten.length) (h1 : NoSig (left p k sw)) (h2 : ¬ PACKET_SIG.take 4 <:+ left p k sw)
    (h8 : left p k sw = [] ∨ ∀ q, post.head? = some q → ∀ h, q.header = .ok h → 8 ≤ h.size)
    (hc : Cuts cs (torn pre p k (sw ++ post))) (hl : left p k sw = [] ∨ ∀ c ∈ cs.dropLast, 29 ≤ c.length) :
    Frames.Ends rules chk (.new (cs.map some)) (tornItems pre p k sw post) (behind (left p k sw) post).2 ∨
    Frames.Stops rules chk (.new (cs.map some)) (tornItems pre p k sw post) := by
  have hd := filled_damage (S := S) (hp p (by simp)) h29 hk hm
  obtain ⟨hh, pb, sh, fs, hw, _⟩ := frame_facts hd
  have hpre : ∀ q ∈ pre, q.Ok S ∧ q.blocks.length ≤ 255 := fun q hq => hp q (by simp [hq])
  have hpost : ∀ q ∈ post, q.Ok S ∧ q.blocks.length ≤ 255 := fun q hq => hp q (by simp [hq])
  obtain ⟨g1, g2⟩ := behind_good hpost (free_iff.mpr ⟨h1, h2⟩) h8
  refine frames_run hO hQ rules chk _ _ cs (fun x hx => ?_) g2 ?_ ?_
  · rcases List.mem_append.mp hx with hx | hx
    · obtain ⟨r, hr, rfl⟩ := List.mem_map.mp hx
      obtain ⟨hd, pb, sh, fs, _, _⟩ := frame_facts (whole_damage (hpre r hr))
      exact ⟨free_nil, ⟨hd, _, fs⟩, .inl rfl⟩
    · rcases List.mem_cons.mp hx with rfl | hx
      · exact ⟨free_nil, ⟨hh, _, fs⟩, .inl rfl⟩
      · exact g1 x hx
  · rw [tornItems, whole_stream_frames _ _ _ hpre]
    simp only [Frames.stream, List.nil_append]
    rw [behind_stream _ _ hpost, hw, ← torn_eq _ _ _ h29]
    exact hc
  · rcases hl with hl | hl
    · left
      intro x hx
      rcases List.mem_append.mp hx with hx | hx
      · obtain ⟨r, hr, rfl⟩ := List.mem_map.mp hx
        rfl
      · rcases List.mem_cons.mp hx with rfl | hx
        · rfl
        · rw [hl] at hx
          cases post with
          | nil => exact absurd hx List.not_mem_nil
          | cons q qs =>
            rcases List.mem_cons.mp hx with rfl | hx
            · rfl
            · obtain ⟨r, hr, rfl⟩ := List.mem_map.mp hx
              rfl
    · exact .inr hl

theorem items_verdicts (rules : Rules O.BR (Packet O Q)) {pre sw post : List (Packet O Q)} {p : Packet O Q} {k : Nat}
    (hpre : ∀ q ∈ pre, q.Ok S ∧ q.blocks.length ≤ 255) (hpost : ∀ q ∈ post, q.Ok S ∧ q.blocks.length ≤ 255) :
    (tornItems pre p k sw post).map (fun x => Frames.verdict rules x.2) =
      pre.map (fun q => .ok (verdict S rules q)) ++ Frames.verdict rules (frame (p, filled p k sw)) :: post.map (fun q => .ok (verdict S rules q)) := by
  rw [tornItems, List.map_append, List.map_cons, behind_verdicts rules _ _ hpost, List.map_map]
  congr 1
  exact List.map_congr_left fun q hq => congrArg Prod.fst (frame_intact (whole_damage (hpre q hq)) rules rfl)

/-- The end is reached: the packets `pre`, one result that is no panic, the packets `post`, and the litter `l` given to an `Ignored` rule. -/
def GetsPast (S : BlockSpec O) (rules : Rules O.BR (Packet O Q)) (chk : Bool) (cs : Chunks) (pre : List (Packet O Q)) (l : Bytes) (post : List (Packet O Q)) : Prop :=
  ∃ n o, o ≠ .panic ∧ loud (reads rules chk n (.new (cs.map some))).1 =
      pre.map (fun q => .ok (verdict S rules q)) ++ o :: post.map (fun q => .ok (verdict S rules q)) ++ [.ok .noData] ∧
    (ignoredRules rules = 1 → (reads rules chk n (.new (cs.map some))).2.log.flatten = l)

/-- Behind the packets `pre` every call returns one and the same error. -/
def Halts (S : BlockSpec O) (rules : Rules O.BR (Packet O Q)) (chk : Bool) (es : Events) (pre : List (Packet O Q)) : Prop :=
  ∃ n e, loud (reads rules chk n (.new es)).1 = pre.map (fun q => .ok (verdict S rules q)) ∧
    ∀ m, (reads rules chk m (reads rules chk n (.new es)).2).1 = List.replicate m (.err e)

theorem log_litter {rules : Rules O.BR (Packet O Q)} {cs : Chunks} {log : List Bytes} {x : Bytes} (h : LogAdd rules (Rd.new (cs.map some)).log log x) (hi : ignoredRules rules = 1) :
    log.flatten = x := by
  obtain ⟨xs, e1, _, e2⟩ := h
  rw [e2]
  simp only [Rd.new, List.nil_append]
  have key : ∀ ys : List Bytes, ys.flatMap rules.ignore = ys := by
    intro ys
    induction ys with
    | nil => rfl
    | cons y ys ih => rw [List.flatMap_cons, ignore_eq, hi, ih]; rfl
  rw [key xs, e1]

theorem torn_ends (hO : O.Safe) (hQ : Q.Safe) {rules : Rules O.BR (Packet O Q)} {chk : Bool} {pre sw post : List (Packet O Q)} {p : Packet O Q} {k : Nat} {cs : Chunks}
    (hp : ∀ q ∈ pre ++ p :: (sw ++ post), q.Ok S ∧ q.blocks.length ≤ 255) (h29 : 29 ≤ k) (hk : k < (wire p).length)
    (hm : (wire p).length - k ≤ (sw.map wire).flatten.length)
    (h : Frames.Ends rules chk (.new (cs.map some)) (tornItems pre p k sw post) (behind (left p k sw) post).2) : GetsPast S rules chk cs pre (left p k sw) post := by
  obtain ⟨hh, pb, sh, fs, hw, _⟩ := frame_facts (filled_damage (S := S) (hp p (by simp)) h29 hk hm)
  obtain ⟨n, e1, e2, _⟩ := h
  refine ⟨n, Frames.verdict rules (frame (p, filled p k sw)), Frames.verdict_np hO hQ fs, ?_, fun hi => ?_⟩
  · rw [e1, items_verdicts (S := S) rules (fun q hq => hp q (by simp [hq])) (fun q hq => hp q (by simp [hq]))]
  · have := log_litter e2 hi
    rw [this, tornItems]
    have hb := behind_litters (left p k sw) post
    rw [Frames.litters] at hb
    rw [Frames.litters, List.map_append, List.map_cons, List.flatten_append, List.flatten_cons, List.append_assoc, List.append_assoc, hb]
    simp [List.map_map, Function.comp_def]

/-- If the reader stops, it does so at the torn packet. -/
theorem torn_stops {rules : Rules O.BR (Packet O Q)} {pre sw post : List (Packet O Q)} {p : Packet O Q} {k : Nat}
    (hpre : ∀ q ∈ pre, q.Ok S ∧ q.blocks.length ≤ 255) (hpost : ∀ q ∈ post, q.Ok S ∧ q.blocks.length ≤ 255) {a b : List Frame} {f : Frame}
    (e : (tornItems pre p k sw post).map Prod.snd = a ++ f :: b) (np : ¬ Frames.Passes rules f) :
    f = frame (p, filled p k sw) ∧ a = pre.map fun q => frame (whole q) := by
  have ok : ∀ q, (q.Ok S ∧ q.blocks.length ≤ 255) → Frames.Passes rules (frame (whole q)) := fun q hq => by
    rw [Frames.Passes, frame_intact (whole_damage hq) rules rfl]
  rw [tornItems, List.map_append, List.map_cons, behind_snd, List.map_map] at e
  change List.map (fun q => frame (whole q)) pre ++ frame (p, filled p k sw) :: List.map (fun q => frame (whole q)) post = a ++ f :: b at e
  have hpre' : ∀ x ∈ pre.map fun q => frame (whole q), x ≠ f := by
    intro x hx e
    subst e
    obtain ⟨q, hq, rfl⟩ := List.mem_map.mp hx
    exact np (ok q (hpre q hq))
  have hpost' : ∀ x ∈ post.map fun q => frame (whole q), x ≠ f := by
    intro x hx e
    subst e
    obtain ⟨q, hq, rfl⟩ := List.mem_map.mp hx
    exact np (ok q (hpost q hq))
  generalize (pre.map fun q => frame (whole q)) = A at e hpre' ⊢
  generalize (post.map fun q => frame (whole q)) = B at e hpost'
  generalize frame (p, filled p k sw) = g at e ⊢
  induction A generalizing a with
  | nil =>
    cases a with
    | nil =>
      simp only [List.nil_append, List.cons.injEq] at e
      exact ⟨e.1.symm, rfl⟩
    | cons x a =>
      simp only [List.nil_append, List.cons_append, List.cons.injEq] at e
      exact absurd rfl (hpost' f (by rw [e.2]; simp))
  | cons y A ih =>
    cases a with
    | nil =>
      simp only [List.nil_append, List.cons_append, List.cons.injEq] at e
      exact absurd e.1 (hpre' y (by simp))
    | cons x a =>
      simp only [List.cons_append, List.cons.injEq] at e
      obtain ⟨h1, h2⟩ := ih (fun x hx => hpre' x (List.mem_cons_of_mem _ hx)) e.2
      exact ⟨h1, by rw [h2, e.1]⟩

/-- **C100 (partial), the header was written.** The missing bytes of the torn packet are taken from the packets behind it. If they reach into the packets `sw` and no further, and what is left of
those does not contain the signature and does not end in its first half, there are two outcomes. Either all packets but the torn one and `sw` are received, there is one more result and it is no
panic, and an `Ignored` rule is given what is left of `sw`. Or the packets before the torn one are received, and then every call returns the same error. At least one whole
packet is lost with the torn one (`sw` is not empty). Missing: that `sw` is received too, which is false; that what is left contains a signature (compare `C90_smuggled`, `C90_stuck`). -/
theorem C100_swallows_partial (hO : O.Safe) (hQ : Q.Safe) (rules : Rules O.BR (Packet O Q)) (chk : Bool) {pre sw post : List (Packet O Q)} {p : Packet O Q} {k : Nat} {cs : Chunks}
    (hp : ∀ q ∈ pre ++ p :: (sw ++ post), q.Ok S ∧ q.blocks.length ≤ 255) (h29 : 29 ≤ k) (hk : k < (wire p).length)
    (hm : (wire p).length - k ≤ (sw.map wire).flatten.length) (h1 : NoSig (left p k sw)) (h2 : ¬ PACKET_SIG.take 4 <:+ left p k sw)
    (h8 : left p k sw = [] ∨ ∀ q, post.head? = some q → ∀ h, q.header = .ok h → 8 ≤ h.size)
    (hc : Cuts cs (torn pre p k (sw ++ post))) (hl : left p k sw = [] ∨ ∀ c ∈ cs.dropLast, 29 ≤ c.length) :
    sw ≠ [] ∧ (GetsPast S rules chk cs pre (left p k sw) post ∨ Halts S rules chk (cs.map some) pre) := by
  refine ⟨flat_nil hk hm, ?_⟩
  rcases torn_run hO hQ rules chk hp h29 hk hm h1 h2 h8 hc hl with h | ⟨n, a, f, b, e, np, e1, _, e2⟩
  · exact .inl (torn_ends hO hQ hp h29 hk hm h)
  · right
    have hpre : ∀ q ∈ pre, q.Ok S ∧ q.blocks.length ≤ 255 := fun q hq => hp q (by simp [hq])
    obtain ⟨rfl, rfl⟩ := torn_stops hpre (fun q hq => hp q (by simp [hq])) e np
    obtain ⟨er, he⟩ := stays_error hO hQ (filled_damage (S := S) (hp p (by simp)) h29 hk hm) np
    refine ⟨n, er, ?_, fun m => by rw [e2 m, he]⟩
    rw [e1, List.map_map]
    exact List.map_congr_left fun q hq => congrArg Prod.fst (frame_intact (whole_damage (hpre q hq)) rules rfl)

/-- **C100 (partial), small reads.** If no read gives as many bytes as the torn packet would have had, it is the first outcome. -/
theorem C100_small_reads_partial (hO : O.Safe) (hQ : Q.Safe) (rules : Rules O.BR (Packet O Q)) (chk : Bool) {pre sw post : List (Packet O Q)} {p : Packet O Q} {k : Nat} {cs : Chunks}
    (hp : ∀ q ∈ pre ++ p :: (sw ++ post), q.Ok S ∧ q.blocks.length ≤ 255) (h29 : 29 ≤ k) (hk : k < (wire p).length)
    (hm : (wire p).length - k ≤ (sw.map wire).flatten.length) (h1 : NoSig (left p k sw)) (h2 : ¬ PACKET_SIG.take 4 <:+ left p k sw)
    (h8 : left p k sw = [] ∨ ∀ q, post.head? = some q → ∀ h, q.header = .ok h → 8 ≤ h.size)
    (hc : Cuts cs (torn pre p k (sw ++ post))) (hl : left p k sw = [] ∨ ∀ c ∈ cs.dropLast, 29 ≤ c.length) (hs : ∀ c ∈ cs, c.length < (wire p).length) :
    GetsPast S rules chk cs pre (left p k sw) post := by
  rcases torn_run hO hQ rules chk hp h29 hk hm h1 h2 h8 hc hl with h | ⟨n, a, f, b, e, np, e1, ⟨c, es, hb, hf⟩, e2⟩
  · exact torn_ends hO hQ hp h29 hk hm h
  · exfalso
    obtain ⟨rfl, rfl⟩ := torn_stops (S := S) (fun q hq => hp q (by simp [hq])) (fun q hq => hp q (by simp [hq])) e np
    have dm := filled_damage (S := S) (hp p (by simp)) h29 hk hm
    obtain ⟨h, pb, sh, fs, hw, _⟩ := frame_facts dm
    have hl : (wire p).length = 29 + (frame (p, filled p k sw)).1.size := by
      have : (frame (p, filled p k sw)).1 = h := congrArg Prod.fst fs.eq
      rw [this]
      exact wire_length dm.ok.blocks sh
    have hshort : Frames.Short (wire p).length (cs.map some) := by
      intro c hc
      obtain ⟨c', hc', e⟩ := List.mem_map.mp hc
      rw [← Option.some.inj e]
      exact hs c' hc'
    have := Frames.Short.reads (r := .new (cs.map some)) hshort rules chk n c (by rw [hb]; exact List.mem_cons_self)
    omega

/-! ## Less than the header was written -/

theorem wire_sig {p : Packet O Q} (hp : p.Ok S) : wire p = PACKET_SIG ++ (wire p).drop 8 ∧ 29 ≤ (wire p).length := by
  obtain ⟨h, pb, sh⟩ := hp.shape
  refine ⟨?_, by rw [wire_length hp.blocks sh]; simp⟩
  rw [wire_eq hp.blocks sh]
  simp [PacketHeader.bytes, PACKET_SIG]

/-- A part of the signature behind which packets are found. -/
theorem part_free {k : Nat} (hk : k < 8) (h4 : k ≠ 4) : Free (PACKET_SIG.take k) := by
  match k, hk, h4 with
  | 0, _, _ => unfold Free; decide
  | 1, _, _ => unfold Free; decide
  | 2, _, _ => unfold Free; decide
  | 3, _, _ => unfold Free; decide
  | 5, _, _ => unfold Free; decide
  | 6, _, _ => unfold Free; decide
  | 7, _, _ => unfold Free; decide

/-- **C100 (partial), less than the signature was written**, and not exactly half of it. All other packets are received, the torn one gives no result, and an `Ignored` rule is given the part of
it that was written. Missing: the other lengths. -/
theorem C100_signature_partial (rules : Rules O.BR (Packet O Q)) (chk : Bool) {pre qs : List (Packet O Q)} {p : Packet O Q} {k : Nat} {cs : Chunks}
    (hp : ∀ q ∈ pre ++ p :: qs, q.Ok S ∧ q.blocks.length ≤ 255) (hk : k < 8) (h4 : k ≠ 4)
    (h8 : ∀ q, qs.head? = some q → ∀ h, q.header = .ok h → 8 ≤ h.size) (hc : Cuts cs (torn pre p k qs)) (hl : ∀ c ∈ cs.dropLast, 29 ≤ c.length) :
    ∃ n, loud (reads rules chk n (.new (cs.map some))).1 = (pre ++ qs).map (fun q => .ok (verdict S rules q)) ++ [.ok .noData] ∧
      (ignoredRules rules = 1 → (reads rules chk n (.new (cs.map some))).2.log.flatten = (wire p).take k) := by
  have hw : (wire p).take k = PACKET_SIG.take k := by
    rw [(wire_sig (hp p (by simp)).1).1, List.take_append_of_le_length (by simp [PACKET_SIG]; omega)]
  have hf : Free ((wire p).take k) := by rw [hw]; exact part_free hk h4
  have hn : NoSig ([] : Bytes) := by
    intro j hj
    rw [List.drop_nil] at hj
    exact absurd hj.length_le (by decide)
  have hs : ∀ (ps : List (Packet O Q)) (is : List (Bytes × Packet O Q)) (t : Bytes), stream ((ps.map fun q => (([] : Bytes), q)) ++ is) t = (ps.map wire).flatten ++ stream is t := by
    intro ps is t
    induction ps with
    | nil => rfl
    | cons p ps ih => simp only [List.map_cons, List.cons_append, stream, List.nil_append, List.flatten_cons, List.append_assoc, ih]
  have hpre : ∀ x ∈ pre.map fun q => (([] : Bytes), q), GoodItem S x := by
    intro x hx
    obtain ⟨r, hr, rfl⟩ := List.mem_map.mp hx
    have := hp r (by simp [hr])
    exact ⟨free_nil, this.1, this.2, .inl rfl⟩
  cases qs with
  | nil =>
    obtain ⟨n, e1, e2⟩ := C23_long_reads_partial (S := S) rules chk (pre.map fun q => (([] : Bytes), q)) ((wire p).take k) cs hpre (free_iff.mp hf).1
      (by
        have := hs pre [] ((wire p).take k)
        rw [List.append_nil] at this
        rw [this, stream]
        simpa [torn] using hc) hl
    refine ⟨n, by rw [e1, List.append_nil, List.map_map]; rfl, fun hi => ?_⟩
    rw [e2 hi]
    simp [litters, List.map_map, Function.comp_def]
  | cons q qs =>
    obtain ⟨n, e1, e2⟩ := C23_long_reads_partial (S := S) rules chk ((pre.map fun q => (([] : Bytes), q)) ++ ((wire p).take k, q) :: qs.map fun q => (([] : Bytes), q)) [] cs
      (by
        intro x hx
        rcases List.mem_append.mp hx with hx | hx
        · exact hpre x hx
        · rcases List.mem_cons.mp hx with rfl | hx
          · have := hp q (by simp)
            exact ⟨hf, this.1, this.2, .inr (h8 q rfl)⟩
          · obtain ⟨r, hr, rfl⟩ := List.mem_map.mp hx
            have := hp r (by simp [hr])
            exact ⟨free_nil, this.1, this.2, .inl rfl⟩) hn
      (by
        have := hs qs [] []
        rw [List.append_nil] at this
        rw [hs, stream, this]
        simpa [torn, stream] using hc) hl
    refine ⟨n, by rw [e1]; simp [List.map_map, Function.comp_def], fun hi => ?_⟩
    rw [e2 hi]
    have hz : ∀ l : List (Packet O Q), (l.map fun _ => ([] : Bytes)).flatten = [] := by
      intro l
      induction l <;> simp_all
    simp [litters, List.map_map, Function.comp_def, hz]

theorem reads_pre {rules : Rules O.BR (Packet O Q)} {chk : Bool} {pre : List (Packet O Q)} (hp : ∀ q ∈ pre, q.Ok S ∧ q.blocks.length ≤ 255) {b : Bytes}
    (h29 : 29 ≤ b.length) (es : Events) (log : List Bytes) :
    (reads rules chk pre.length ⟨some ((pre.map wire).flatten ++ b) :: es, .empty, [], log⟩) =
      (pre.map (fun q => .ok (verdict S rules q)), ⟨some b :: es, .empty, [], log⟩) := by
  induction pre with
  | nil => rfl
  | cons q pre ih =>
    have hq := hp q (by simp)
    obtain ⟨h, pb, sh⟩ := hq.1.shape
    have key : read rules chk ⟨some (wire q ++ ((pre.map wire).flatten ++ b)) :: es, .empty, [], log⟩ =
        (.ok (verdict S rules q), ⟨some ((pre.map wire).flatten ++ b) :: es, .empty, [], log⟩) := by
      rw [read_whole hq.1 _ es [] log sh, finish_eq hq.1.blocks sh hq.2]
      have h0 := (wire_sig hq.1).2
      have hc : Events.consume (wire q).length (some (wire q ++ ((pre.map wire).flatten ++ b)) :: es) = some ((pre.map wire).flatten ++ b) :: es := by
        rw [Events.consume, if_neg (by omega), if_pos (by simp only [List.length_append]; omega), List.drop_left]
      simp only [hc]
    rw [List.map_cons, List.flatten_cons, List.append_assoc, List.length_cons, reads_succ (by rw [key]; simp), key, ih fun q hq => hp q (List.mem_cons_of_mem _ hq)]
    rfl

theorem halts {rules : Rules O.BR (Packet O Q)} {chk : Bool} {pre : List (Packet O Q)} (hp : ∀ q ∈ pre, q.Ok S ∧ q.blocks.length ≤ 255) {b : Bytes} {e : Err}
    (hs : PACKET_SIG <+: b) (h29 : 29 ≤ b.length) (he : PacketHeader.readSlice b = .err e) (es : Events) :
    Halts S rules chk (some ((pre.map wire).flatten ++ b) :: es) pre := by
  refine ⟨pre.length, e, ?_, fun m => ?_⟩
  · rw [Rd.new, reads_pre hp h29 es []]
    simp only [loud]
    rw [List.filter_eq_self]
    intro o ho
    obtain ⟨q, _, rfl⟩ := List.mem_map.mp ho
    unfold verdict
    split <;> rfl
  · rw [Rd.new, reads_pre hp h29 es [], C25_bad_header rules chk b e hs h29 he es [] m]

theorem packets_length {qs : List (Packet O Q)} (hp : ∀ q ∈ qs, q.Ok S ∧ q.blocks.length ≤ 255) (hne : qs ≠ []) : 29 ≤ (qs.map wire).flatten.length := by
  cases qs with
  | nil => exact absurd rfl hne
  | cons q qs =>
    have := (wire_sig (hp q (by simp)).1).2
    simp only [List.map_cons, List.flatten_cons, List.length_append]
    omega

/-- **C100 fails if a part of the header was written.** The signature and some bytes of the header, then packets: unless the CRC of the header that comes about happens to be right, the packets before are
received and then every call returns the same error, if all lies in one read of the source. None of the packets behind is ever received. -/
theorem C100_header (rules : Rules O.BR (Packet O Q)) (chk : Bool) {pre qs : List (Packet O Q)} {p : Packet O Q} {k : Nat} (hp : ∀ q ∈ pre ++ p :: qs, q.Ok S ∧ q.blocks.length ≤ 255)
    (h8 : 8 ≤ k) (hne : qs ≠ []) {e : Err} (he : PacketHeader.readSlice ((wire p).take k ++ (qs.map wire).flatten) = .err e) (es : Events) :
    Halts S rules chk (some (torn pre p k qs) :: es) pre := by
  refine halts (fun q hq => hp q (by simp [hq])) ?_ ?_ he es
  · obtain ⟨hw, _⟩ := wire_sig (hp p (by simp)).1
    have : (wire p).take k = PACKET_SIG ++ ((wire p).drop 8).take (k - 8) := by
      conv => lhs; rw [hw, List.take_append]
      rw [List.take_of_length_le (by simp [PACKET_SIG]; omega)]
      rfl
    rw [this, List.append_assoc]
    exact List.prefix_append _ _
  · have := packets_length (S := S) (qs := qs) (fun q hq => hp q (by simp [hq])) hne
    simp only [List.length_append]
    omega

/-- **C100 fails if half of the signature was written**, in the same way: it makes a signature together with the first half of the next one. -/
theorem C100_half (rules : Rules O.BR (Packet O Q)) (chk : Bool) {pre qs : List (Packet O Q)} {p : Packet O Q} (hp : ∀ q ∈ pre ++ p :: qs, q.Ok S ∧ q.blocks.length ≤ 255)
    (hne : qs ≠ []) {e : Err} (he : PacketHeader.readSlice ((wire p).take 4 ++ (qs.map wire).flatten) = .err e) (es : Events) :
    Halts S rules chk (some (torn pre p 4 qs) :: es) pre := by
  refine halts (fun q hq => hp q (by simp [hq])) ?_ ?_ he es
  · obtain ⟨hw, _⟩ := wire_sig (hp p (by simp)).1
    cases qs with
    | nil => exact absurd rfl hne
    | cons q qs =>
      obtain ⟨hq, _⟩ := wire_sig (hp q (by simp)).1
      rw [List.map_cons, List.flatten_cons, hq, hw]
      exact ⟨PACKET_SIG.drop 4 ++ ((wire q).drop 8 ++ (qs.map wire).flatten), by simp [PACKET_SIG]⟩
  · have := packets_length (S := S) (qs := qs) (fun q hq => hp q (by simp [hq])) hne
    simp only [List.length_append]
    omega

/-! ## The full claim is false -/

theorem torn_found {rules : Rules O.BR (Packet O Q)} {r : Rd} {p : Packet O Q}
    (h : (match reads rules true 3 r with | ([.err _, .ok .notFound, .ok .noData], ⟨[], .empty, _, _⟩) => true | _ => false) = true) {n : Nat} :
    ¬ (.ok (.found p) : Out (Next (Packet O Q))) ∈ (reads rules true n r).1 :=
  found_late (by split at h <;> simp_all)

/-- **C100 is false**: the packet behind the torn one is never received. -/
theorem C100_not : ¬ C100_full sampleSpec (PEnum.ops []) := by
  intro h
  obtain ⟨n, os, _, e⟩ := h [] true [] samplePacket 40 [samplePacket] [torn [] samplePacket 40 [samplePacket]] (by omega) (by decide +kernel)
    (by intro q hq; simp only [List.nil_append, List.mem_cons, List.not_mem_nil, or_false, or_self] at hq; subst hq; exact ⟨samplePacket_ok, by decide⟩)
    (by intro q hq h; simp only [List.mem_cons, List.not_mem_nil, or_false] at hq; subst hq; exact body_of_blocks (by decide) h)
    ⟨by simp, by decide +kernel⟩ (by simp)
  refine torn_found (rules := []) (r := .new [some (torn [] samplePacket 40 [samplePacket])]) (p := samplePacket) (n := n) (by decide +kernel) ?_
  have hv : verdict sampleSpec ([] : Rules _ (Packet (blockEnum sampleTypes) (PEnum.ops []))) samplePacket = .found samplePacket := by
    unfold verdict accepts
    cases bodyOf samplePacket <;> rfl
  have hm : (.ok (.found samplePacket) : Out (Next (Packet (blockEnum sampleTypes) (PEnum.ops [])))) ∈
      loud (reads [] true n (.new ([torn [] samplePacket 40 [samplePacket]].map some))).1 := by
    rw [e, ← hv]
    simp
  exact (List.mem_filter.mp hm).1

/-! ## The hypotheses can be met -/

theorem samples_ok {qs : List (Packet (blockEnum sampleTypes) (PEnum.ops []))} (h : ∀ q ∈ qs, q = samplePacket) : ∀ q ∈ qs, q.Ok sampleSpec ∧ q.blocks.length ≤ 255 := by
  intro q hq
  rw [h q hq]
  exact ⟨samplePacket_ok, by decide⟩

/-- Non-vacuity of `C100_small_reads_partial`: a packet, 40 of the 125 bytes of a packet, then two packets, in reads of 100 bytes. The first packet and the last one are received, and the 40 bytes
that are left of the third one are given to the callback. -/
example (chk : Bool) :
    let x := torn [samplePacket] samplePacket 40 ([samplePacket] ++ [samplePacket])
    GetsPast sampleSpec [.ignored 0] chk [x.take 100, (x.drop 100).take 100, (x.drop 200).take 100, (x.drop 300).take 100, x.drop 400] [samplePacket]
      ((wire samplePacket).drop 85) [samplePacket] := by
  intro x
  have hl : left samplePacket 40 [samplePacket] = (wire samplePacket).drop 85 := by decide +kernel
  have hf : Free (left samplePacket 40 [samplePacket]) := by unfold Free; decide +kernel
  rw [← hl]
  refine C100_small_reads_partial (S := sampleSpec) (blockEnum_safe sampleTypes) (PEnum.ops_safe []) _ chk (samples_ok (by simp)) (by omega) (by decide +kernel) (by decide +kernel)
    (free_iff.mp hf).1 (free_iff.mp hf).2 (.inr fun q hq => ?_) ⟨by decide +kernel, by decide +kernel⟩ (.inr (by decide +kernel)) (by decide +kernel)
  simp only [List.head?_cons, Option.some.injEq] at hq
  subst hq
  exact body_of_blocks (by decide)

/-- The same in one read: the dichotomy applies. -/
example (chk : Bool) : GetsPast sampleSpec [] chk [torn [samplePacket] samplePacket 40 ([samplePacket] ++ [samplePacket])] [samplePacket] ((wire samplePacket).drop 85) [samplePacket] ∨
    Halts sampleSpec [] chk [some (torn [samplePacket] samplePacket 40 ([samplePacket] ++ [samplePacket]))] [samplePacket] := by
  have hl : left samplePacket 40 [samplePacket] = (wire samplePacket).drop 85 := by decide +kernel
  have hf : Free (left samplePacket 40 [samplePacket]) := by unfold Free; decide +kernel
  rw [← hl]
  refine (C100_swallows_partial (S := sampleSpec) (blockEnum_safe sampleTypes) (PEnum.ops_safe []) _ chk (samples_ok (by simp)) (by omega) (by decide +kernel) (by decide +kernel)
    (free_iff.mp hf).1 (free_iff.mp hf).2 (.inr fun q hq => ?_) ⟨by decide +kernel, by decide +kernel⟩ (.inr (by simp))).2
  simp only [List.head?_cons, Option.some.injEq] at hq
  subst hq
  exact body_of_blocks (by decide)

/-- Non-vacuity of `C100_signature_partial`: six bytes of the signature. -/
example (chk : Bool) : ∃ n, loud (reads ([.ignored 0] : Rules _ (Packet (blockEnum sampleTypes) (PEnum.ops []))) chk n (.new ([torn [samplePacket] samplePacket 6 [samplePacket, samplePacket]].map some))).1 =
      ([samplePacket] ++ [samplePacket, samplePacket]).map (fun q => .ok (verdict sampleSpec [.ignored 0] q)) ++ [.ok .noData] ∧
    (ignoredRules ([.ignored 0] : Rules (blockEnum sampleTypes).BR (Packet (blockEnum sampleTypes) (PEnum.ops []))) = 1 →
      (reads ([.ignored 0] : Rules _ (Packet (blockEnum sampleTypes) (PEnum.ops []))) chk n (.new ([torn [samplePacket] samplePacket 6 [samplePacket, samplePacket]].map some))).2.log.flatten =
        (wire samplePacket).take 6) := by
  refine C100_signature_partial (S := sampleSpec) _ chk (samples_ok (by simp)) (by omega) (by omega) (fun q hq => ?_) ⟨by simp, by decide +kernel⟩ (by simp)
  simp only [List.head?_cons, Option.some.injEq] at hq
  subst hq
  exact body_of_blocks (by decide)

/-- Non-vacuity of `C100_header` and `C100_half`: 20 bytes and 4 bytes. -/
example (chk : Bool) (es : Events) :
    Halts sampleSpec [] chk (some (torn [samplePacket] samplePacket 20 [samplePacket, samplePacket]) :: es) [samplePacket] ∧
    Halts sampleSpec [] chk (some (torn [samplePacket] samplePacket 4 [samplePacket, samplePacket]) :: es) [samplePacket] :=
  ⟨C100_header (e := .crcDismatch) [] chk (samples_ok (by simp)) (by omega) (by simp) (by decide +kernel) es,
    C100_half (e := .crcDismatch) [] chk (samples_ok (by simp)) (by simp) (by decide +kernel) es⟩

end Brec.Props
