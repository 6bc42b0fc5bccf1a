import Verif.Reader
import Verif.Props.PacketHeader
import Verif.Props.Packet
/-!
# Lemmas about `PacketBufReader`
-/

namespace Brec

open Brec.Props

variable {O : BlockOps} {Q : PayloadOps} {S : BlockSpec O}

/-! ## Sources -/

namespace Events

/-- Only successful, non-empty reads. Slices have at most `isize::MAX` bytes. -/
def Plain (es : Events) : Prop := ∀ e ∈ es, ∃ b, e = some b ∧ b ≠ [] ∧ b.length < 2 ^ 63

theorem Plain.cases {es : Events} (h : es.Plain) :
    es = [] ∨ ∃ b es', es = some b :: es' ∧ b ≠ [] ∧ b.length < 2 ^ 63 ∧ Plain es' := by
  cases es with
  | nil => exact .inl rfl
  | cons e es =>
    obtain ⟨b, rfl, hb, hl⟩ := h e (by simp)
    exact .inr ⟨b, es, rfl, hb, hl, fun e he => h e (by simp [he])⟩

theorem fill_some {b : Bytes} (hb : b ≠ []) (es : Events) : fill (some b :: es) = (some b, some b :: es) := by
  cases b with
  | nil => exact absurd rfl hb
  | cons => rfl

@[simp] theorem bytes_nil : bytes [] = [] := rfl
@[simp] theorem bytes_cons (b : Bytes) (es : Events) : bytes (some b :: es) = b ++ bytes es := rfl

theorem consume_all {b : Bytes} (hb : b ≠ []) (es : Events) : consume b.length (some b :: es) = es := by
  have := List.length_pos_iff.mpr hb
  simp only [consume]
  rw [if_neg (by omega), if_neg (by omega)]

theorem bytes_consume {b : Bytes} {n : Nat} (h : n ≤ b.length) (es : Events) :
    bytes (consume n (some b :: es)) = b.drop n ++ bytes es := by
  simp only [consume]
  split
  · rename_i h0; simp [h0]
  · split
    · simp
    · rw [List.drop_of_length_le (by omega)]; rfl

theorem plain_consume {es : Events} (h : es.Plain) (n : Nat) : (es.consume n).Plain := by
  rcases h.cases with rfl | ⟨b, es', rfl, hb, hl, hp⟩
  · simpa [consume] using h
  · simp only [consume]
    split
    · exact h
    · split
      · intro e he
        rcases List.mem_cons.mp he with rfl | he
        · refine ⟨_, rfl, ?_, ?_⟩
          · intro e0; have := congrArg List.length e0; simp at this; omega
          · simp; omega
        · exact hp e he
      · exact hp

theorem length_bytes_consume_le {es : Events} (h : es.Plain) (n : Nat) :
    (es.consume n).bytes.length ≤ es.bytes.length := by
  rcases h.cases with rfl | ⟨b, es', rfl, hb, hl, hp⟩
  · simp [consume]
  · simp only [consume]
    split
    · simp
    · split
      · simp
      · simp

end Events

/-! ## What one packet's bytes give -/

namespace Rd

/-- The raw payload body of a packet. -/
def bodyOf (p : Packet O Q) : Option Bytes :=
  match p.payload with
  | none => none
  | some v => match Q.parts v with
    | .ok x => some x.2
    | _ => none

/-- `Found` if all rules accept the packet, `Skipped` otherwise. -/
def verdict (S : BlockSpec O) (rules : Rules O.BR (Packet O Q)) (p : Packet O Q) : Next (Packet O Q) :=
  if accepts S rules p (bodyOf p) then .found p else .skipped

theorem blocksLoop_eq {bs : List O.B} (h : ∀ b ∈ bs, S.ok b) (hne : bs ≠ []) {left processed : Nat} {acc : List O.BR}
    {buf : Bytes} (hl : processed ≤ buf.length) (hr : buf.drop processed = S.encs bs) (hf : bs.length ≤ left) :
    blocksLoop O buf left processed acc = (.ok (acc ++ bs.map S.ref), .dropConsume) := by
  induction bs generalizing left processed acc with
  | nil => exact absurd rfl hne
  | cons b bs ih =>
    have hsz := S.rsize_eq b (h b (by simp))
    have h4 := S.four_le b (h b (by simp))
    rw [S.encs_cons] at hr
    have hrl := congrArg List.length hr
    simp only [List.length_drop, List.length_append] at hrl
    cases left with
    | zero => simp at hf
    | succ left =>
      rw [blocksLoop, if_neg (by omega), hr, S.readSlice_eq b (h b (by simp))]
      simp only
      rw [if_neg (by omega)]
      by_cases hbs : bs = []
      · subst hbs
        rw [if_pos (by rw [hsz]; simp [BlockSpec.encs] at hrl; omega)]
        simp
      · have hpos := S.encs_pos (fun b hb => h b (by simp [hb])) hbs
        rw [if_neg (by omega), ih (fun b hb => h b (by simp [hb])) hbs]
        · simp
        · omega
        · rw [← List.drop_drop, hr, hsz]; simp
        · simp at hf; omega

theorem parse_eq {p : Packet O Q} {h : PacketHeader} {pb : Bytes} (hok : ∀ b ∈ p.blocks, S.ok b)
    (sh : Packet.Shape S p h pb) (hn : p.blocks.length ≤ 255) (rules : Rules O.BR (Packet O Q)) :
    parse rules h (S.encs p.blocks ++ pb) = (.ok (verdict S rules p), .dropConsume) := by
  have hbl := sh.blocksLen
  unfold parse
  rw [if_neg (by rw [hbl]; simp)]
  have hr : (if (S.encs p.blocks ++ pb).take h.blocksLen = [] then ((.ok [], .dropConsume) : Out (List O.BR) × Fin)
      else blocksLoop O ((S.encs p.blocks ++ pb).take h.blocksLen) MAX_BLOCKS 0 []) =
      (.ok (p.blocks.map S.ref), .dropConsume) := by
    rw [hbl, List.take_left' rfl]
    by_cases hne : p.blocks = []
    · simp [hne, BlockSpec.encs]
    · have hpos := S.encs_pos hok hne
      rw [if_neg (by intro e; rw [e] at hpos; simp at hpos),
        blocksLoop_eq hok hne (by omega) (by simp) (by simpa [MAX_BLOCKS] using hn)]
      simp
  rw [hr]
  simp only
  unfold parsePayload verdict bodyOf
  simp only [accepts_eq]
  have hflag := sh.flag
  have hpt := sh.part
  have hinto := map_into hok
  obtain ⟨blocks, payload⟩ := p
  cases hpt with
  | none =>
    simp only [hflag, Option.isSome_none, Bool.false_eq_true, if_false, hinto, Bool.true_and]
    by_cases h1 : rules.filterByBlocks (blocks.map S.ref) = true
    · by_cases h2 : rules.filter ⟨blocks, none⟩ = true
      · simp [h1, h2]
      · simp [h1, h2]
    · simp [h1]
  | @some v ph x g =>
    simp only [hflag, Option.isSome_some, if_true, hinto, hbl, g.parts_eq]
    have hd1 : List.drop (S.encs blocks).length (S.encs blocks ++ (ph.asVec ++ x)) = ph.asVec ++ x := by simp
    have hd2 : List.drop ((S.encs blocks).length + ph.size) (S.encs blocks ++ (ph.asVec ++ x)) = x := by
      rw [← List.drop_drop, hd1, ← PayloadHeader.size_eq]; simp
    rw [hd1, PayloadHeader.tryBuf, Chunks.fill_single, PayloadHeader.peek_asVec ph g.len_lt]
    simp only
    rw [hd2, g.tryBuf_eq [x] [] (by simp)]
    simp only
    by_cases h1 : rules.filterByBlocks (blocks.map S.ref) = true
    · rw [if_neg (by simp [h1]), if_neg (by rw [← PayloadHeader.size_eq]; simp)]
      by_cases h2 : rules.filterByPayload x = true
      · by_cases h3 : rules.filter ⟨blocks, some v⟩ = true
        · simp [h1, h2, h3]
        · simp [h1, h2, h3]
      · simp [h1, h2]
    · simp [h1]

theorem finish_eq {p : Packet O Q} {h : PacketHeader} {pb : Bytes} (hok : ∀ b ∈ p.blocks, S.ok b)
    (sh : Packet.Shape S p h pb) (hn : p.blocks.length ≤ 255) (rules : Rules O.BR (Packet O Q)) (c : Nat) (r : Rd) :
    finish rules h (S.encs p.blocks ++ pb) c r =
      (.ok (verdict S rules p), { r with buffered := [], src := r.src.consume c }) := by
  unfold finish
  rw [parse_eq hok sh hn]

/-! ## Streams of litter and packets -/

/-- The bytes of a packet. -/
def wire (p : Packet O Q) : Bytes :=
  match p.serialize with
  | .ok w => w
  | _ => []

/-- Litter and packets in turn, then litter `t`. -/
def stream : List (Bytes × Packet O Q) → Bytes → Bytes
  | [], t => t
  | (l, p) :: is, t => l ++ (wire p ++ stream is t)

/-- The litter of a stream, in order. -/
def litters (is : List (Bytes × Packet O Q)) (t : Bytes) : Bytes := (is.map Prod.fst).flatten ++ t

/-- The packet signature does not occur. -/
def NoSig (t : Bytes) : Prop := ∀ j, ¬ PACKET_SIG <+: t.drop j

/-- The packet signature does not occur in the litter, and putting a packet behind it does not create an earlier
occurrence. -/
def Free (l : Bytes) : Prop := ∀ j < l.length, ¬ PACKET_SIG <+: (l ++ PACKET_SIG).drop j

/-- Requirements on a stream element: the packet is well-formed, has at most 255 blocks and, when litter precedes it, a
body of at least 8 bytes. -/
structure GoodItem (S : BlockSpec O) (x : Bytes × Packet O Q) : Prop where
  free : Free x.1
  ok : x.2.Ok S
  blocks : x.2.blocks.length ≤ 255
  body : x.1 = [] ∨ ∀ h, x.2.header = .ok h → 8 ≤ h.size

def litOf : List (Bytes × Packet O Q) → Bytes → Bytes
  | [], t => t
  | (l, _) :: _, _ => l

def dropItems (k : Nat) : List (Bytes × Packet O Q) → List (Bytes × Packet O Q)
  | [] => []
  | (l, p) :: is => (l.drop k, p) :: is

def dropTail (k : Nat) : List (Bytes × Packet O Q) → Bytes → Bytes
  | [], t => t.drop k
  | _ :: _, t => t

theorem wire_eq {p : Packet O Q} {h : PacketHeader} {pb : Bytes} (hok : ∀ b ∈ p.blocks, S.ok b)
    (sh : Packet.Shape S p h pb) : wire p = h.bytes ++ (S.encs p.blocks ++ pb) := by
  rw [wire, Packet.serialize_eq hok sh, List.append_assoc]

theorem stream_drop {is : List (Bytes × Packet O Q)} {t : Bytes} {k : Nat} (hk : k ≤ (litOf is t).length) :
    stream (dropItems k is) (dropTail k is t) = (stream is t).drop k := by
  cases is with
  | nil => rfl
  | cons x is =>
    obtain ⟨l, p⟩ := x
    simp only [dropItems, dropTail, stream, litOf] at *
    rw [List.drop_append_of_le_length hk]

theorem stream_take {is : List (Bytes × Packet O Q)} {t : Bytes} {k : Nat} (hk : k ≤ (litOf is t).length) :
    (stream is t).take k = (litOf is t).take k := by
  cases is with
  | nil => rfl
  | cons x is =>
    obtain ⟨l, p⟩ := x
    simp only [litOf, stream] at *
    rw [List.take_append_of_le_length hk]

theorem litters_drop (is : List (Bytes × Packet O Q)) (t : Bytes) (k : Nat) :
    litters is t = (litOf is t).take k ++ litters (dropItems k is) (dropTail k is t) := by
  cases is with
  | nil => simp [litters, litOf, dropItems, dropTail]
  | cons x is =>
    obtain ⟨l, p⟩ := x
    simp only [litters, litOf, dropItems, dropTail, List.map_cons, List.flatten_cons]
    rw [← List.append_assoc, ← List.append_assoc, List.take_append_drop]

theorem snd_dropItems (is : List (Bytes × Packet O Q)) (k : Nat) : (dropItems k is).map Prod.snd = is.map Prod.snd := by
  cases is <;> rfl

theorem Free.drop {l : Bytes} (h : Free l) (k : Nat) : Free (l.drop k) := by
  intro j hj hp
  rw [List.length_drop] at hj
  apply h (k + j) (by omega)
  rw [← List.drop_append_of_le_length (by omega), List.drop_drop] at hp
  exact hp

theorem NoSig.drop {l : Bytes} (h : NoSig l) (k : Nat) : NoSig (l.drop k) := by
  intro j hp
  rw [List.drop_drop] at hp
  exact h _ hp

theorem GoodItem.drop {l : Bytes} {p : Packet O Q} (h : GoodItem S (l, p)) (k : Nat) : GoodItem S (l.drop k, p) := by
  refine ⟨h.free.drop k, h.ok, h.blocks, ?_⟩
  rcases h.body with h | h
  · left; simp only at h; simp [h]
  · exact .inr h

theorem good_drop {is : List (Bytes × Packet O Q)} (h : ∀ x ∈ is, GoodItem S x) (k : Nat) :
    ∀ x ∈ dropItems k is, GoodItem S x := by
  cases is with
  | nil => simp [dropItems]
  | cons x is =>
    obtain ⟨l, p⟩ := x
    intro y hy
    rcases List.mem_cons.mp hy with rfl | hy
    · exact (h _ (by simp)).drop k
    · exact h _ (by simp [hy])

theorem noSig_drop {is : List (Bytes × Packet O Q)} {t : Bytes} (h : NoSig t) (k : Nat) : NoSig (dropTail k is t) := by
  cases is with
  | nil => exact h.drop k
  | cons => exact h

/-! ## Finding the header -/

theorem firstSig {l X R : Bytes} (h : Free l) (hX : X = l ++ (PACKET_SIG ++ R)) : FirstSigAt X l.length := by
  subst hX
  constructor
  · rw [List.drop_left' rfl]; exact List.prefix_append _ _
  · intro j hj hp
    apply h j hj
    rw [← List.append_assoc, List.drop_append_of_le_length (by simp; omega)] at hp
    refine List.prefix_of_prefix_length_le hp (List.prefix_append _ _) ?_
    simp [PACKET_SIG_length]; omega

theorem getPos_prefix {B X : Bytes} {k : Nat} (hB : B <+: X) (h : FirstSigAt X k) :
    getPos B = if k + 8 < B.length then some k else none := by
  have hd : ∀ j, B.drop j <+: X.drop j := fun j => by
    obtain ⟨r, rfl⟩ := hB
    by_cases hj : j ≤ B.length
    · rw [List.drop_append_of_le_length hj]; exact List.prefix_append _ _
    · rw [List.drop_of_length_le (by omega)]; exact List.nil_prefix
  have h1 : ∀ j < k, ¬ PACKET_SIG <+: B.drop j := fun j hj hp => h.2 j hj (hp.trans (hd j))
  split
  · rename_i hk
    refine (C12_get_pos_partial B k).mpr ⟨⟨?_, h1⟩, hk⟩
    refine List.prefix_of_prefix_length_le h.1 (hd k) ?_
    simp [PACKET_SIG_length]; omega
  · rename_i hk
    cases e : getPos B with
    | none => rfl
    | some j =>
      exfalso
      obtain ⟨⟨hp, _⟩, hl⟩ := (C12_get_pos_partial B j).mp e
      rcases Nat.lt_trichotomy j k with hj | hj | hj
      · exact h1 j hj hp
      · omega
      · have := ((C12_get_pos_partial B j).mp e).1.2 k hj
        omega

theorem getPos_noSig {B X : Bytes} (hB : B <+: X) (h : NoSig X) : getPos B = none := by
  cases e : getPos B with
  | none => rfl
  | some j =>
    exfalso
    obtain ⟨⟨hp, _⟩, hl⟩ := (C12_get_pos_partial B j).mp e
    obtain ⟨r, rfl⟩ := hB
    apply h j
    rw [List.drop_append_of_le_length (by omega)]
    exact hp.trans (List.prefix_append _ _)

theorem sig_bytes (h : PacketHeader) : ∃ R, h.bytes = PACKET_SIG ++ R := by
  simp only [PacketHeader.bytes, List.append_assoc]
  exact ⟨_, rfl⟩

/-- What `read_header` says about a prefix of a stream. -/
theorem readHeader_stream {is : List (Bytes × Packet O Q)} {t B : Bytes} (hg : ∀ x ∈ is, GoodItem S x) (ht : is = [] → NoSig t)
    (hB : B <+: stream is t) :
    (readHeader B = .ok .notFound ∧ getPos B = none ∧ B.length ≤ (litOf is t).length + 8) ∨
    (∃ l p rest h pb, is = (l, p) :: rest ∧ GoodItem S (l, p) ∧ Packet.Shape S p h pb ∧ l.length + 8 < B.length ∧
      (B.length < l.length + 29 ∧ readHeader B = .ok (.notEnough l.length (l.length + 29 - B.length)) ∨
        l.length + 29 ≤ B.length ∧ readHeader B = .ok (.found h l.length (l.length + 29)))) := by
  cases is with
  | nil =>
    left
    have := getPos_noSig hB (ht rfl)
    have hl := hB.length_le
    simp only [stream] at hl
    exact ⟨by rw [readHeader, this], this, by simp only [litOf]; omega⟩
  | cons x rest =>
    obtain ⟨l, p⟩ := x
    have g := hg _ List.mem_cons_self
    obtain ⟨h, pb, sh⟩ := g.ok.shape
    obtain ⟨R, hR⟩ := sig_bytes h
    have hX : stream ((l, p) :: rest) t = l ++ (h.bytes ++ (S.encs p.blocks ++ pb ++ stream rest t)) := by
      simp only [stream]; rw [wire_eq g.ok.blocks sh]; simp
    have hfs := firstSig (X := stream ((l, p) :: rest) t) (R := R ++ (S.encs p.blocks ++ pb ++ stream rest t)) g.free
      (by rw [hX, hR]; simp)
    have hpos := getPos_prefix hB hfs
    by_cases hk : l.length + 8 < B.length
    · right
      refine ⟨l, p, rest, h, pb, rfl, g, sh, hk, ?_⟩
      rw [if_pos hk] at hpos
      by_cases h29 : B.length < l.length + 29
      · left
        refine ⟨h29, ?_⟩
        rw [readHeader, hpos]
        simp only [isNotEnough, HSIZE, List.length_drop]
        rw [if_neg (by omega)]
        simp only
        congr 2; omega
      · right
        refine ⟨by omega, ?_⟩
        have hpre : l ++ h.bytes <+: B :=
          List.prefix_of_prefix_length_le (l₃ := stream ((l, p) :: rest) t)
            ⟨S.encs p.blocks ++ pb ++ stream rest t, by rw [hX]; simp⟩ hB
            (by simp [HSIZE]; omega)
        obtain ⟨r, hr⟩ := hpre
        rw [readHeader, hpos]
        simp only [isNotEnough, HSIZE, List.length_drop]
        rw [if_pos (by omega)]
        simp only
        have : B.drop l.length = h.bytes ++ r := by rw [← hr]; simp
        rw [this, PacketHeader.readSlice_bytes sh.wf]
        rfl
    · left
      rw [if_neg hk] at hpos
      exact ⟨by rw [readHeader, hpos], hpos, by simp only [litOf]; omega⟩

end Rd

end Brec
