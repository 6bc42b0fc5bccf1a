import Verif.TextLemmas
import Verif.Props.Payload
/-!
# Property C99: text payloads

What the default payload `String` makes of the bytes of its body, whatever they are. The specification is that of `Verif.TextLemmas` (`utf8`, `text`, `Starts`,
`Decodes`), which uses Lean's characters and not the model of the standard library.
-/

namespace Brec.Props

open Brec

/-- The Rust `String` of these characters. -/
def stringOf (cs : List Char) : Utf8 := ⟨text cs, valid_text cs⟩

/-- **C99.** The values of the payload type are the sequences of characters: every one of them is, and different ones are different. -/
theorem C99_strings : (∀ v : stringTy.Val, ∃ cs, v = stringOf cs) ∧ ∀ cs cs', stringOf cs = stringOf cs' → cs = cs' := by
  constructor
  · intro v
    obtain ⟨cs, h⟩ := valid_iff.mp v.2
    exact ⟨cs, Subtype.ext h⟩
  · intro cs cs' h
    exact text_inj (congrArg Subtype.val h)

/-- **C99.** Any bytes are read as text, in one way only. -/
theorem C99_one_way (x : Bytes) : ∃ cs, Decodes x cs ∧ ∀ cs', Decodes x cs' → cs' = cs := by
  obtain ⟨cs, h⟩ := decodes_exists x
  exact ⟨cs, h, fun cs' h' => text_inj (by rw [← lossy_decodes h, lossy_decodes h'])⟩

theorem ofLossy_decodes {x : Bytes} {cs : List Char} (h : Decodes x cs) : Utf8.ofLossy x = stringOf cs := Subtype.ext (lossy_decodes h)

/-- What reading the body gives: the text, if the checksum in the header is that of the text. -/
def textOut (h : PayloadHeader) (cs : List Char) : Out Utf8 := if h.crc = PayloadTy.crcBlock (text cs) then .ok (stringOf cs) else .err .crcDismatch

/-- **C99.** Reading a body as a `String`, in each of the three ways: the text the bytes are read as is returned if its bytes — not those that came in — have the
checksum in the header, and `CrcDismatch` if not. Nothing else can go wrong, and the body is consumed. -/
theorem C99_read {h : PayloadHeader} (hs : h.sig = stringTy.ssig) {x : Bytes} (hl : x.length = h.len) {cs : List Char} (hd : Decodes x cs) (s : Bytes) :
    (stringTy.read h).run (x ++ s) = (textOut h cs, s) ∧
    (∀ c : Cur, c.pos ≤ c.data.length → c.rest = x ++ s → stringTy.tryRead h c = ((textOut h cs).map .success, { c with pos := c.pos + x.length })) ∧
    (∀ ch : Chunks, ch.flatten = x ++ s → stringTy.tryBuf h ch = ((textOut h cs).map .success, Chunks.skip x.length ch)) := by
  have main : ∀ s, (stringTy.read h).run (x ++ s) = (textOut h cs, s) := by
    intro s
    unfold PayloadTy.read
    rw [if_neg (by simp [hs])]
    have h1 : (P.readExact h.len).run (x ++ s) = (.ok x, s) := by
      rw [← hl]
      simp [P.readExact]
    rw [P.bind_ok h1]
    have h2 : (P.lift (ioOut (stringTy.decode x))).run s = (.ok (stringOf cs), s) := by
      show (Out.ok (Utf8.ofLossy x), s) = _
      rw [ofLossy_decodes hd]
    rw [P.bind_ok h2]
    have h3 : (P.lift (stringTy.crc (stringOf cs))).run s = (.ok (PayloadTy.crcBlock (text cs)), s) := rfl
    rw [P.bind_ok h3]
    unfold textOut
    by_cases hc : h.crc = PayloadTy.crcBlock (text cs)
    · rw [if_neg (by simp [hc]), if_pos hc]; rfl
    · rw [if_pos hc, if_neg hc]; rfl
  refine ⟨main s, ?_, ?_⟩
  · intro c hp hr
    have hrem : c.remaining = .ok (x ++ s).length := by
      unfold Cur.remaining
      rw [if_pos hp, ← hr]
      simp [Cur.rest]
    unfold PayloadTy.tryRead
    rw [hrem]
    simp only
    rw [if_neg (by rw [List.length_append]; omega)]
    unfold Cur.run
    rw [hr, main s]
    simp
  · intro ch hf
    unfold PayloadTy.tryBuf Chunks.run
    rw [hf, main s]
    simp

/-- **C99.** Text comes back as it was: whatever the characters are, the body written for a `String` is their encoding, and is read as them again. -/
theorem C99_roundtrip (cs : List Char) (hl : (text cs).length ≤ 2 ^ 32 - 1) (s : Bytes) :
    ∃ h, stringTy.header (stringOf cs) = .ok h ∧ stringTy.body (stringOf cs) = .ok (text cs) ∧ (stringTy.read h).run (text cs ++ s) = (.ok (stringOf cs), s) := by
  refine ⟨_, PayloadTy.header_eq (stringTy_good (stringOf cs) hl), rfl, ?_⟩
  rw [(C99_read rfl rfl (decodes_text cs) s).1]
  unfold textOut
  rw [if_pos (show PayloadTy.crcBlock (stringOf cs).1 = PayloadTy.crcBlock (text cs) from rfl)]

/-- Text without U+FFFD is what the bytes say. -/
theorem decodes_plain {x : Bytes} {cs : List Char} (h : Decodes x cs) (hn : '�' ∉ cs) : x = text cs := by
  induction h with
  | nil => rfl
  | @char c s cs h ih =>
    rw [ih (fun hm => hn (List.mem_cons_of_mem _ hm))]
    simp [text]
  | bad p hp hst hno hmax h ih => exact absurd List.mem_cons_self hn

/-- **C99.** A text that was read without U+FFFD in it is the text whose bytes are there; bytes that are not text are never read as a text without U+FFFD. -/
theorem C99_plain {h : PayloadHeader} {x s s' : Bytes} {cs : List Char} (hl : x.length = h.len) (e : (stringTy.read h).run (x ++ s) = (.ok (stringOf cs), s'))
    (hn : '�' ∉ cs) : x = text cs := by
  obtain ⟨y, r, hy, hyl, hd, _⟩ := read_ok_inv' (show ((stringTy.read h).run (x ++ s)).1 = .ok (stringOf cs) by rw [e])
  have : x = y := (List.append_inj hy (by omega)).1
  subst this
  obtain ⟨ds, hds⟩ := decodes_exists x
  have h1 : Utf8.ofLossy x = stringOf cs := Option.some.inj hd
  rw [ofLossy_decodes hds] at h1
  have := C99_strings.2 _ _ h1
  subst this
  exact decodes_plain hds hn

/-- **C99.** Damage to text shows: a `String` whose body was damaged (in up to four adjacent bytes) and is accepted nevertheless is the one that was written, or contains
U+FFFD. (That the latter happens is `C47_string_corruption_accepted`.) -/
theorem C99_damage_shows {cs ds : List Char} {h : PayloadHeader} {x s s' : Bytes} (hl : (text cs).length ≤ 2 ^ 32 - 1) (hh : stringTy.header (stringOf cs) = .ok h)
    (hb : Burst4 (text cs) x) (e : (stringTy.read h).run (x ++ s) = (.ok (stringOf ds), s')) : ds = cs ∨ '�' ∈ ds := by
  by_cases hn : '�' ∈ ds
  · exact .inr hn
  · left
    have hlen : x.length = h.len := by
      rw [PayloadTy.header_eq (stringTy_good (stringOf cs) hl)] at hh
      injection hh with hh
      subst hh
      exact hb.1.symm
    have hx := C99_plain hlen e hn
    have := (C47_string_corruption_partial (stringOf cs) x s hl hb (hx ▸ valid_text ds) h hh (stringOf ds) (by rw [e])).2
    exact C99_strings.2 _ _ this

/-! ## Examples -/

/-- A euro sign, two bytes of an incomplete one, a surrogate (three bytes, none of which can stay) and a letter. -/
example : Decodes [0xE2, 0x82, 0xAC, 0xE2, 0x82, 0xED, 0xA0, 0x80, 0x41] ['€', '�', '�', '�', '�', 'A'] := by
  obtain ⟨cs, h⟩ := decodes_exists [0xE2, 0x82, 0xAC, 0xE2, 0x82, 0xED, 0xA0, 0x80, 0x41]
  have := lossy_decodes h
  have h2 : lossy [0xE2, 0x82, 0xAC, 0xE2, 0x82, 0xED, 0xA0, 0x80, 0x41] = text ['€', '�', '�', '�', '�', 'A'] := by decide
  rwa [text_inj (this.symm.trans h2)] at h

/-- The hypotheses of `C99_read` with bytes that are not text and a header with the checksum of what replaces them. -/
example : ∃ (h : PayloadHeader) (x : Bytes) (cs : List Char), h.sig = stringTy.ssig ∧ x.length = h.len ∧ Decodes x cs ∧ textOut h cs = .ok (stringOf cs) ∧ text cs ≠ x := by
  obtain ⟨cs, hc⟩ := decodes_exists [0x65, 0xFF]
  have h1 : text cs = [0x65, 0xEF, 0xBF, 0xBD] := by rw [← lossy_decodes hc]; decide
  refine ⟨⟨stringTy.ssig, PayloadTy.crcBlock (text cs), 2⟩, [0x65, 0xFF], cs, rfl, rfl, hc, ?_, ?_⟩
  · unfold textOut; rw [if_pos rfl]
  · rw [h1]; decide

/-- The hypotheses of `C99_damage_shows`: the string of `C47_string_corruption_accepted`. -/
example : ∃ (cs ds : List Char) (h : PayloadHeader) (x s s' : Bytes), (text cs).length ≤ 2 ^ 32 - 1 ∧ stringTy.header (stringOf cs) = .ok h ∧ Burst4 (text cs) x ∧
    (stringTy.read h).run (x ++ s) = (.ok (stringOf ds), s') ∧ ds ≠ cs := by
  have ht : text ['e', '2', 'o', '*', '('] = [0x65, 0x32, 0x6f, 0x2a, 0x28] := by decide
  refine ⟨['e', '2', 'o', '*', '('], ['e', '�', '�', '�', '�'], _, [0x65, 0xFF, 0xFF, 0xFF, 0xFF], [], [], by rw [ht]; decide,
    PayloadTy.header_eq (stringTy_good (stringOf _) (by show (text _).length ≤ _; rw [ht]; decide)), ?_, by decide +kernel, by decide⟩
  rw [ht]
  exact Burst4.of_split [0x65] [0x32, 0x6f, 0x2a, 0x28] [0xFF, 0xFF, 0xFF, 0xFF] [] rfl (by decide)

end Brec.Props
