import Verif.Listening
import Verif.Props.Stateful
/-!
# C107: the order of all callbacks
-/

namespace Brec.Props

open Brec Rd

variable {O : BlockOps} {Q : PayloadOps} {S : BlockSpec O} {σ : Type}

/-! ## What one call reports -/

def piece (n : Nat) (buf : Bytes) : List Bytes := if n > 0 then [buf.take n] else []

/-- What one call of `read` gives to the `Ignored` callback. -/
def toldBy (r : Rd) : List Bytes :=
  match r.recent with
  | .ready _ => []
  | .refill b n =>
    match r.src.fill with
    | (some [], _) => [b]
    | (some (c :: cs), _) =>
      if (c :: cs).length < n then []
      else
        match readHeader (b ++ (c :: cs).take n) with
        | .ok (.found _ start _) => piece start (b ++ (c :: cs).take n)
        | .ok _ =>
          match readHeader (b ++ (c :: cs)) with
          | .ok (.found _ start _) => piece start (b ++ (c :: cs))
          | .ok (.notEnough start _) => piece start (b ++ (c :: cs))
          | .ok .notFound => piece ((b ++ (c :: cs)).length - HSIZE) (b ++ (c :: cs))
          | _ => []
        | _ => []
    | _ => []
  | .empty =>
    match r.src.fill with
    | (some (c :: cs), _) =>
      if (c :: cs).length < HSIZE then []
      else
        match readHeader (c :: cs) with
        | .ok (.found _ start _) => piece start (c :: cs)
        | .ok (.notEnough start _) => piece start (c :: cs)
        | .ok .notFound => piece ((c :: cs).length - HSIZE) (c :: cs)
        | _ => []
    | _ => []

theorem piece_log (rules : Rules O.BR (Packet O Q)) (n : Nat) (buf : Bytes) (log : List Bytes) :
    ignoreTo rules n buf log = log ++ (piece n buf).flatMap rules.ignore := by
  unfold ignoreTo piece
  split <;> simp

theorem piece_hear (I : σ → Bytes → σ) (n : Nat) (buf : Bytes) (s : σ) : hear I n buf s = (piece n buf).foldl I s := by
  unfold hear piece
  split <;> rfl

theorem finish_log (rules : Rules O.BR (Packet O Q)) (h : PacketHeader) (pb : Bytes) (n : Nat) (r : Rd) : (finish rules h pb n r).2.log = r.log := by
  unfold finish
  simp only
  cases (parse rules h pb).2 <;> rfl

theorem toldBy_log (rules : Rules O.BR (Packet O Q)) (chk : Bool) (r : Rd) : (read rules chk r).2.log = r.log ++ (toldBy r).flatMap rules.ignore := by
  unfold Rd.read toldBy
  cases r.recent with
  | ready h =>
    simp only
    unfold readReady
    rcases r.src.fill with ⟨_ | buf, src⟩
    · simp
    · simp only
      by_cases h1 : h.size > r.buffered.length + buf.length
      · rw [if_pos h1]; simp
      · rw [if_neg h1]
        by_cases h2 : h.size < r.buffered.length
        · rw [if_pos h2]; simp
        · rw [if_neg h2, finish_log]; simp
  | refill b n =>
    simp only
    unfold readRefill
    rcases r.src.fill with ⟨_ | (_ | ⟨c, cs⟩), src⟩
    · simp
    · simp
    · simp only
      by_cases h1 : (c :: cs).length < n
      · rw [if_pos h1, if_pos h1]; simp
      · rw [if_neg h1, if_neg h1]
        have all : (refillAll rules chk (b ++ (c :: cs)) b.length (c :: cs).length { r with src := src, recent := .empty }).2.log = r.log ++ List.flatMap rules.ignore
            (match readHeader (b ++ (c :: cs)) with
              | .ok (.found _ start _) => piece start (b ++ (c :: cs))
              | .ok (.notEnough start _) => piece start (b ++ (c :: cs))
              | .ok .notFound => piece ((b ++ (c :: cs)).length - HSIZE) (b ++ (c :: cs))
              | _ => []) := by
          unfold refillAll
          cases readHeader (b ++ (c :: cs)) with
          | err e => simp
          | panic => simp
          | ok y =>
            cases y with
            | found h u v =>
              simp only
              cases consumeDiff chk v b.length src <;> exact piece_log ..
            | notEnough u v => exact piece_log ..
            | notFound => exact piece_log ..
        cases readHeader (b ++ (c :: cs).take n) with
        | err e => simp
        | panic => simp
        | ok y =>
          cases y with
          | found h u v =>
            simp only
            cases consumeDiff chk v b.length src <;> exact piece_log ..
          | notEnough u v => exact all
          | notFound => exact all
  | empty =>
    simp only
    unfold readEmpty
    rcases r.src.fill with ⟨_ | (_ | ⟨c, cs⟩), src⟩
    · simp
    · simp
    · simp only
      by_cases h1 : (c :: cs).length < HSIZE
      · rw [if_pos h1, if_pos h1]; simp
      · rw [if_neg h1, if_neg h1]
        cases readHeader (c :: cs) with
        | err e => simp
        | panic => simp
        | ok y =>
          cases y with
          | notEnough u v => exact piece_log ..
          | notFound => exact piece_log ..
          | found h u v =>
            simp only
            by_cases h2 : h.size + v ≥ 2 ^ 64
            · rw [if_pos h2]; exact piece_log ..
            · rw [if_neg h2]
              by_cases h3 : h.size + v > (c :: cs).length
              · rw [if_pos h3]; exact piece_log ..
              · rw [if_neg h3, finish_log]; exact piece_log ..

/-- One call reports first and asks then. -/
theorem readI_eq {A : Asker σ O.BR (Packet O Q)} (hA : A.ignored = true) (I : σ → Bytes → σ) (chk : Bool) (s : σ) (r : Rd) :
    readI A I chk s r = readS A chk ((toldBy r).foldl I s) r := by
  have hbase : A.base = recorder := by unfold Asker.base; rw [hA]; rfl
  unfold readI readS toldBy
  rw [hbase]
  cases r.recent with
  | ready h => rfl
  | refill b n =>
    simp only
    unfold readRefillI readRefill
    simp only
    rcases r.src.fill with ⟨_ | (_ | ⟨c, cs⟩), src⟩
    · rfl
    · rfl
    · simp only
      by_cases h1 : (c :: cs).length < n
      · rw [if_pos h1, if_pos h1, if_pos h1]; rfl
      · rw [if_neg h1, if_neg h1, if_neg h1]
        have all : refillAllI (O := O) (Q := Q) I chk (b ++ (c :: cs)) b.length (c :: cs).length s { r with src := src, recent := .empty } =
            (refillAll recorder chk (b ++ (c :: cs)) b.length (c :: cs).length { r with src := src, recent := .empty }, List.foldl I s
            (match readHeader (b ++ (c :: cs)) with
              | .ok (.found _ start _) => piece start (b ++ (c :: cs))
              | .ok (.notEnough start _) => piece start (b ++ (c :: cs))
              | .ok .notFound => piece ((b ++ (c :: cs)).length - HSIZE) (b ++ (c :: cs))
              | _ => [])) := by
          unfold refillAllI refillAll
          cases readHeader (b ++ (c :: cs)) with
          | err e => rfl
          | panic => rfl
          | ok y =>
            cases y with
            | found h u v =>
              simp only [piece_hear]
              cases consumeDiff chk v b.length src <;> rfl
            | notEnough u v => simp only [piece_hear]
            | notFound => simp only [piece_hear]
        cases readHeader (b ++ (c :: cs).take n) with
        | err e => rfl
        | panic => rfl
        | ok y =>
          cases y with
          | found h u v =>
            simp only [piece_hear]
            cases consumeDiff chk v b.length src <;> rfl
          | notEnough u v => exact all
          | notFound => exact all
  | empty =>
    simp only
    unfold readEmptyI readEmptyS
    rw [hbase]
    rcases r.src.fill with ⟨_ | (_ | ⟨c, cs⟩), src⟩
    · rfl
    · rfl
    · simp only
      by_cases h1 : (c :: cs).length < HSIZE
      · rw [if_pos h1, if_pos h1, if_pos h1]; rfl
      · rw [if_neg h1, if_neg h1, if_neg h1]
        cases readHeader (c :: cs) with
        | err e => rfl
        | panic => rfl
        | ok y =>
          cases y with
          | notEnough u v => simp only [piece_hear]
          | notFound => simp only [piece_hear]
          | found h u v => simp only [piece_hear]

theorem readsI_succ {A : Asker σ O.BR (Packet O Q)} {I : σ → Bytes → σ} {chk : Bool} {s : σ} {r : Rd} (h : (readI A I chk s r).1.1 ≠ .panic) (n : Nat) :
    readsI A I chk (n + 1) s r =
      ((readI A I chk s r).1.1 :: (readsI A I chk n (readI A I chk s r).2 (readI A I chk s r).1.2).1, (readsI A I chk n (readI A I chk s r).2 (readI A I chk s r).1.2).2) := by
  rw [readsI]
  match hx : readI A I chk s r with
  | ((.panic, r'), s') => rw [hx] at h; exact absurd rfl h
  | ((.ok a, r'), s') => rfl
  | ((.err e, r'), s') => rfl

/-! ## Whole streams -/

/-- The callbacks called in the order of the stream: the bytes in front of a packet, in any pieces, then the filters about the packet, and at the end the bytes
behind the last packet. `os`: what the reader says about the packets, `s'`: what the callbacks remember at the end. -/
inductive InOrder (S : BlockSpec O) (A : Asker σ O.BR (Packet O Q)) (I : σ → Bytes → σ) : σ → List (Bytes × Packet O Q) → Bytes → List (Out (Next (Packet O Q))) → σ → Prop
  | tail (s : σ) (xs : List Bytes) (ne : ∀ x ∈ xs, x ≠ []) : InOrder S A I s [] xs.flatten [] (xs.foldl I s)
  | packet (s : σ) (xs : List Bytes) (ne : ∀ x ∈ xs, x ≠ []) (p : Packet O Q) {rest : List (Bytes × Packet O Q)} {t : Bytes} {os : List (Out (Next (Packet O Q)))} {s' : σ}
      (h : InOrder S A I (judge S A (xs.foldl I s) p).2 rest t os s') :
      InOrder S A I s ((xs.flatten, p) :: rest) t (.ok (if (judge S A (xs.foldl I s) p).1 then .found p else .skipped) :: os) s'

/-- A first part of the bytes in front. -/
theorem InOrder.prepend {A : Asker σ O.BR (Packet O Q)} {I : σ → Bytes → σ} {s s' : σ} {is : List (Bytes × Packet O Q)} {t : Bytes} {os : List (Out (Next (Packet O Q)))} {k : Nat}
    {xs : List Bytes} (ne : ∀ x ∈ xs, x ≠ []) (hx : xs.flatten = (litOf is t).take k) (h : InOrder S A I (xs.foldl I s) (dropItems k is) (dropTail k is t) os s') :
    InOrder S A I s is t os s' := by
  have app : ∀ ys : List Bytes, (∀ y ∈ ys, y ≠ []) → ∀ z ∈ xs ++ ys, z ≠ [] := by
    intro ys hy z hz
    rcases List.mem_append.mp hz with hz | hz
    · exact ne z hz
    · exact hy z hz
  cases is with
  | nil =>
    simp only [dropItems, dropTail, litOf] at h hx
    generalize hd : t.drop k = t' at h
    cases h with
    | tail _ ys hy =>
      have : t = (xs ++ ys).flatten := by rw [List.flatten_append, hx, ← hd, List.take_append_drop]
      rw [this, ← List.foldl_append]
      exact .tail s (xs ++ ys) (app ys hy)
  | cons y is =>
    obtain ⟨l, p⟩ := y
    simp only [dropItems, dropTail, litOf] at h hx
    generalize hd : l.drop k = l' at h
    cases h with
    | packet _ ys hy _ h =>
      have : l = (xs ++ ys).flatten := by rw [List.flatten_append, hx, ← hd, List.take_append_drop]
      rw [← List.foldl_append] at h ⊢
      rw [this]
      exact .packet s (xs ++ ys) (app ys hy) p h

theorem toldBy_add {A : Asker σ O.BR (Packet O Q)} (hA : A.ignored = true) {a b c chk : Bool} {r : Rd} {x : Bytes}
    (h : LogAdd (constant A a b c) r.log (read (constant A a b c) chk r).2.log x) : (toldBy r).flatten = x ∧ ∀ y ∈ toldBy r, y ≠ [] := by
  have one : ∀ xs : List Bytes, xs.flatMap (constant A a b c).ignore = xs := by
    intro xs
    rw [constant_ignore]
    unfold Asker.base
    rw [hA]
    induction xs with
    | nil => rfl
    | cons y ys ih =>
      rw [List.flatMap_cons, ih]
      rfl
  obtain ⟨xs, h1, h2, h3⟩ := h
  rw [toldBy_log, one, one] at h3
  rw [List.append_cancel_left h3]
  exact ⟨h1, h2⟩

/-- One call is a call of the reader of the other models with some rules. -/
theorem readI_is {A : Asker σ O.BR (Packet O Q)} (hA : A.ignored = true) (I : σ → Bytes → σ) (chk : Bool) (s : σ) (r : Rd) :
    ∃ rules : Rules O.BR (Packet O Q), (readI A I chk s r).1 = read rules chk r := by
  rw [readI_eq hA]
  cases htg : askedOf r with
  | none => exact ⟨_, congrArg Prod.fst (readS_none A chk _ htg true true true).1⟩
  | some y =>
    obtain ⟨a, b, c, e, _⟩ := readS_some A chk ((toldBy r).foldl I s) htg
    exact ⟨_, congrArg Prod.fst e⟩

theorem runI {A : Asker σ O.BR (Packet O Q)} (hA : A.ignored = true) {I : σ → Bytes → σ} {chk : Bool} (G : σ → Rd → List (Bytes × Packet O Q) → Prop)
    (hbad : ∀ s r is t, Inv S r is t → G s r is → ¬ Bad r is)
    (hnext : ∀ s r is t is', Inv S r is t → G s r is → (is' = is.tail ∨ ∃ k, is' = dropItems k is) →
      (readI A I chk s r).1.1 ≠ .panic → G (readI A I chk s r).2 (readI A I chk s r).1.2 is')
    (s : σ) (r : Rd) (is : List (Bytes × Packet O Q)) (t : Bytes) (inv : Inv S r is t) (hG : G s r is) :
    ∃ n os, loud (readsI A I chk n s r).1 = os ++ [.ok .noData] ∧ InOrder S A I s is t os (readsI A I chk n s r).2.2 ∧
      (readsI A I chk n s r).2.1.src = [] ∧ (readsI A I chk n s r).2.1.recent = .empty := by
  induction hm : meas r using Nat.strongRecOn generalizing s r is t with
  | _ m ih =>
    subst hm
    have hI := readI_eq hA I chk s r
    cases htg : askedOf r with
    | none =>
      obtain ⟨e, hno⟩ := readS_none A chk ((toldBy r).foldl I s) htg true true true
      rw [e] at hI
      have st := step (rules := constant A true true true) (chk := chk) inv (hbad s r is t inv hG)
      have hr' : (readI A I chk s r).1.2 = (read (constant A true true true) chk r).2 := by rw [hI]
      have hs' : (readI A I chk s r).2 = (toldBy r).foldl I s := by rw [hI]
      have ho' : (readI A I chk s r).1.1 = (read (constant A true true true) chk r).1 := by rw [hI]
      cases st with
      | quiet k q hk inv' log lt =>
        have hnp : (read (constant A true true true) chk r).1 ≠ .panic := by rcases q with ⟨n, q⟩ | q <;> rw [q] <;> simp
        have hq : isQuiet (read (constant A true true true) chk r).1 = true := by rcases q with ⟨n, q⟩ | q <;> rw [q] <;> rfl
        obtain ⟨hx, ne⟩ := toldBy_add hA log
        obtain ⟨n, os, h1, h2, h3, h4⟩ := ih _ lt ((toldBy r).foldl I s) _ _ _ inv' (by
          have := hnext s r is t _ inv hG (.inr ⟨k, rfl⟩) (by rw [ho']; exact hnp)
          rwa [hr', hs'] at this) rfl
        refine ⟨n + 1, os, ?_, ?_, ?_, ?_⟩ <;> rw [readsI_succ (by rw [ho']; exact hnp), hr', hs']
        · rw [ho', loud, List.filter_cons, hq]
          exact h1
        · exact h2.prepend ne hx
        · exact h3
        · exact h4
      | packet l p rest e' res inv' log lt =>
        exfalso
        unfold verdict at res
        split at res
        · exact (hno p).1 res
        · exact (hno p).2 res
      | done e' res log src recent =>
        subst e'
        have hnp : (read (constant A true true true) chk r).1 ≠ .panic := by rw [res]; simp
        obtain ⟨hx, ne⟩ := toldBy_add hA log
        refine ⟨1, [], ?_, ?_, ?_, ?_⟩ <;> rw [readsI_succ (by rw [ho']; exact hnp), hr', hs']
        · rw [ho', loud, List.filter_cons, res]; rfl
        · rw [← hx]; exact .tail s (toldBy r) ne
        · exact src
        · exact recent
    | some y =>
      obtain ⟨h, x⟩ := y
      obtain ⟨l, p, rest, pb, rfl, sh, rfl⟩ := askedOf_stream inv (fun _ => trivial) htg
      have g := inv.good _ List.mem_cons_self
      obtain ⟨a, b, c, e, hres⟩ := readS_some A chk ((toldBy r).foldl I s) htg
      rw [parseS_eq g.ok.blocks sh g.blocks] at e hres
      rw [e] at hI
      have st := step (rules := constant A a b c) (chk := chk) inv (hbad s r _ t inv hG)
      have hr' : (readI A I chk s r).1.2 = (read (constant A a b c) chk r).2 := by rw [hI]
      have hs' : (readI A I chk s r).2 = (judge S A ((toldBy r).foldl I s) p).2 := by rw [hI]
      have ho' : (readI A I chk s r).1.1 = .ok (if (judge S A ((toldBy r).foldl I s) p).1 then .found p else .skipped) := by rw [hI]; exact hres
      have hnp : (readI A I chk s r).1.1 ≠ .panic := by rw [ho']; simp
      have hq : isQuiet (.ok (if (judge S A ((toldBy r).foldl I s) p).1 then .found p else .skipped) : Out (Next (Packet O Q))) = false := by split <;> rfl
      cases st with
      | quiet k q hk inv' log lt =>
        exfalso
        have : isQuiet (read (constant A a b c) chk r).1 = true := by rcases q with ⟨n, q⟩ | q <;> rw [q] <;> rfl
        rw [hres, hq] at this
        cases this
      | packet l' p' rest' e' res inv' log lt =>
        obtain ⟨⟨rfl, rfl⟩, rfl⟩ : (l = l' ∧ p = p') ∧ rest = rest' := by simpa using e'
        obtain ⟨hx, ne⟩ := toldBy_add hA log
        obtain ⟨n, os, h1, h2, h3, h4⟩ := ih _ lt (judge S A ((toldBy r).foldl I s) p).2 _ _ _ inv' (by
          have := hnext s r _ t _ inv hG (.inl rfl) hnp
          rwa [hr', hs'] at this) rfl
        refine ⟨n + 1, .ok (if (judge S A ((toldBy r).foldl I s) p).1 then .found p else .skipped) :: os, ?_, ?_, ?_, ?_⟩ <;> rw [readsI_succ hnp, hr', hs']
        · rw [ho', loud, List.filter_cons, hq]
          simp only [Bool.not_false, if_true, List.cons_append]
          congr 1
        · rw [← hx]; exact .packet s (toldBy r) ne p h2
        · exact h3
        · exact h4
      | done e' res log src recent => cases e'

/-- **C107**. Between them, the `Ignored` callback and the filters are told of all of a stream in its order, under the conditions of `C23_long_reads_partial`. -/
theorem C107_order_partial (A : Asker σ O.BR (Packet O Q)) (hA : A.ignored = true) (I : σ → Bytes → σ) (chk : Bool) (s : σ) (is : List (Bytes × Packet O Q)) (t : Bytes)
    (cs : Chunks) (hi : ∀ x ∈ is, GoodItem S x) (ht : NoSig t) (hc : Cuts cs (stream is t)) (hl : ∀ c ∈ cs.dropLast, 29 ≤ c.length) :
    ∃ n os, loud (readsI A I chk n s (.new (cs.map some))).1 = os ++ [.ok .noData] ∧
      InOrder S A I s is t os (readsI A I chk n s (.new (cs.map some))).2.2 := by
  have inv := inv_new (S := S) hc.2 hc.1 hi ht
  have hlong : Events.Long (cs.map some) := by
    intro c h
    rw [← List.map_dropLast] at h
    obtain ⟨c', h', e⟩ := List.mem_map.mp h
    rw [← Option.some.inj e]
    exact hl _ h'
  obtain ⟨n, os, h1, h2, _⟩ := runI hA (I := I) (chk := chk) (A := A) (fun _ r _ => LongInv r ∧ Sane r)
    (fun _ r is t _ hG => not_bad_long hG.1)
    (fun s r is t is' _ hG _ _ => by
      obtain ⟨rules, e⟩ := readI_is hA I chk s r
      rw [e]
      exact ⟨hG.1.read hG.2 rules chk, hG.2.read rules chk⟩)
    s _ _ _ inv ⟨⟨Long_tail hlong, fun b n e => by cases e⟩, ⟨trivial⟩⟩
  exact ⟨n, os, h1, h2⟩

theorem nil_of_flatten {xs : List Bytes} (ne : ∀ x ∈ xs, x ≠ []) (h : xs.flatten = []) : xs = [] := by
  cases xs with
  | nil => rfl
  | cons x xs => rw [List.flatten_cons, List.append_eq_nil_iff] at h; exact absurd h.1 (ne x List.mem_cons_self)

theorem InOrder.pure {A : Asker σ O.BR (Packet O Q)} {I : σ → Bytes → σ} {s s' : σ} {is : List (Bytes × Packet O Q)} {t : Bytes} {os : List (Out (Next (Packet O Q)))}
    (h : InOrder S A I s is t os s') {ps : List (Packet O Q)} (hi : is = ps.map fun p => ([], p)) (ht : t = []) :
    os = (judgeAll S A s ps).1.map Out.ok ∧ s' = (judgeAll S A s ps).2 := by
  induction h generalizing ps with
  | tail s xs ne =>
    rw [nil_of_flatten ne ht]
    cases ps with
    | nil => exact ⟨rfl, rfl⟩
    | cons p ps => cases hi
  | packet s xs ne p h ih =>
    cases ps with
    | nil => cases hi
    | cons q ps =>
      rw [List.map_cons, List.cons.injEq, Prod.mk.injEq] at hi
      obtain ⟨⟨h1, rfl⟩, h2⟩ := hi
      have := nil_of_flatten ne h1
      subst this
      obtain ⟨e1, e2⟩ := ih h2 ht
      rw [e1, e2]
      exact ⟨rfl, rfl⟩

/-- **C107**. Any cutting at all: with overflow checks on, either some call panics or the callbacks are told of all of the stream in its order. -/
theorem C107_any_reads_partial (A : Asker σ O.BR (Packet O Q)) (hA : A.ignored = true) (I : σ → Bytes → σ) (s : σ) (is : List (Bytes × Packet O Q)) (t : Bytes)
    (cs : Chunks) (hi : ∀ x ∈ is, GoodItem S x) (ht : NoSig t) (hc : Cuts cs (stream is t)) :
    (∃ n, Out.panic ∈ (readsI A I true n s (.new (cs.map some))).1) ∨
    ∃ n os, loud (readsI A I true n s (.new (cs.map some))).1 = os ++ [.ok .noData] ∧
      InOrder S A I s is t os (readsI A I true n s (.new (cs.map some))).2.2 := by
  by_cases hpan : ∃ n, Out.panic ∈ (readsI A I true n s (.new (cs.map some))).1
  · exact .inl hpan
  · right
    have inv := inv_new (S := S) hc.2 hc.1 hi ht
    obtain ⟨n, os, h1, h2, _⟩ := runI hA (I := I) (chk := true) (A := A) (fun s r _ => ∀ n, Out.panic ∉ (readsI A I true n s r).1)
      (fun s r is t inv hG hb => by
        obtain ⟨rules, e⟩ := readI_is hA I true s r
        have hp := bad_panics (rules := rules) inv hb
        rw [← e] at hp
        apply hG 1
        rw [readsI]
        match hx : readI A I true s r with
        | ((.panic, r'), s') => simp
        | ((.ok a, r'), s') => rw [hx] at hp; cases hp
        | ((.err e, r'), s') => rw [hx] at hp; cases hp)
      (fun s r is t is' _ hG _ hnp n hm => hG (n + 1) (by
        rw [readsI_succ hnp]
        exact List.mem_cons_of_mem _ hm))
      s _ _ _ inv (fun n hm => hpan ⟨n, hm⟩)
    exact ⟨n, os, h1, h2⟩

/-- **C107**. Over packets one behind the other, in any portions: the `Ignored` callback is not called, so all is as in C105. -/
theorem C107_stream (A : Asker σ O.BR (Packet O Q)) (hA : A.ignored = true) (I : σ → Bytes → σ) (chk : Bool) (s : σ) (ps : List (Packet O Q))
    (hp : ∀ p ∈ ps, p.Ok S ∧ p.blocks.length ≤ 255) (cs : Chunks) (hc : Cuts cs (ps.map wire).flatten) :
    ∃ n, loud (readsI A I chk n s (.new (cs.map some))).1 = (judgeAll S A s ps).1.map Out.ok ++ [.ok .noData] ∧
      (readsI A I chk n s (.new (cs.map some))).2.2 = (judgeAll S A s ps).2 := by
  have hs : (ps.map wire).flatten = stream (ps.map fun p => ([], p)) [] := by
    clear hc hp
    induction ps with
    | nil => rfl
    | cons p ps ih => simp [stream, ih]
  have inv := inv_new (S := S) (is := ps.map fun p => (([] : Bytes), p)) (t := []) hc.2 (hc.1.trans hs) (by
      intro x hx
      obtain ⟨p, hp', rfl⟩ := List.mem_map.mp hx
      exact ⟨free_nil, (hp p hp').1, (hp p hp').2, .inl rfl⟩) (by intro j; simp [PACKET_SIG])
  obtain ⟨n, os, h1, h2, _⟩ := runI hA (I := I) (chk := chk) (A := A) (fun _ _ is => ∀ x ∈ is, x.1 = [])
    (fun _ r is t inv hG => not_bad_pure inv hG)
    (fun _ r is t is' _ hG hi _ => by
      rcases hi with rfl | ⟨k, rfl⟩
      · exact fun x hx => hG x (List.mem_of_mem_tail hx)
      · cases is with
        | nil => simp [dropItems]
        | cons y is =>
          obtain ⟨l, p⟩ := y
          intro x hx
          rcases List.mem_cons.mp hx with rfl | hx
          · have := hG (l, p) List.mem_cons_self
            simp only at this
            simp [this]
          · exact hG x (List.mem_cons_of_mem _ hx))
    s _ _ _ inv (by intro x hx; obtain ⟨p, _, rfl⟩ := List.mem_map.mp hx; rfl)
  obtain ⟨h3, h4⟩ := h2.pure rfl rfl
  exact ⟨n, by rw [h1, h3], h4⟩

/-- A listener and a filter that write down all they are told. -/
def scribe : Asker (List (Bytes ⊕ Packet O Q)) O.BR (Packet O Q) := ⟨true, none, none, some fun s p => (true, s ++ [.inr p])⟩

/-- What they have written, put together: the bytes of the stream. -/
def transcript (s : List (Bytes ⊕ Packet O Q)) : Bytes := (s.map fun x => match x with | .inl b => b | .inr p => wire p).flatten

theorem transcript_pieces (s : List (Bytes ⊕ Packet O Q)) (xs : List Bytes) :
    transcript (xs.foldl (fun s b => s ++ [.inl b]) s) = transcript s ++ xs.flatten := by
  induction xs generalizing s with
  | nil => simp
  | cons x xs ih =>
    rw [List.foldl_cons, ih, List.flatten_cons]
    simp [transcript]

theorem InOrder.transcript {is : List (Bytes × Packet O Q)} {t : Bytes} {s s' : List (Bytes ⊕ Packet O Q)} {os : List (Out (Next (Packet O Q)))}
    (h : InOrder S scribe (fun s b => s ++ [.inl b]) s is t os s') :
    Props.transcript s' = Props.transcript s ++ stream is t ∧ os = is.map fun x => .ok (.found x.2) := by
  induction h with
  | tail s xs ne => exact ⟨by rw [transcript_pieces]; simp [stream], rfl⟩
  | packet s xs ne p h ih =>
    have hj : ∀ s, judge S (scribe : Asker (List (Bytes ⊕ Packet O Q)) O.BR (Packet O Q)) s p = (true, s ++ [.inr p]) := by
      intro s
      simp [judge, judge.rest, judge.last, scribe]
    rw [hj] at ih
    refine ⟨?_, ?_⟩
    · rw [ih.1]
      have : ∀ s : List (Bytes ⊕ Packet O Q), Props.transcript (s ++ [.inr p]) = Props.transcript s ++ wire p := by
        intro s; simp [Props.transcript]
      rw [this, transcript_pieces]
      simp [stream]
    · rw [hj, ih.2]; rfl

/-- **C107**. What a listener and a filter write down is the stream, byte by byte. -/
theorem C107_transcript_partial (chk : Bool) (is : List (Bytes × Packet O Q)) (t : Bytes)
    (cs : Chunks) (hi : ∀ x ∈ is, GoodItem S x) (ht : NoSig t) (hc : Cuts cs (stream is t)) (hl : ∀ c ∈ cs.dropLast, 29 ≤ c.length) :
    ∃ n, loud (readsI scribe (fun s b => s ++ [.inl b]) chk n ([] : List (Bytes ⊕ Packet O Q)) (.new (cs.map some))).1 = (is.map fun x => .ok (.found x.2)) ++ [.ok .noData] ∧
      transcript (readsI scribe (fun s b => s ++ [.inl b]) chk n ([] : List (Bytes ⊕ Packet O Q)) (.new (cs.map some))).2.2 = stream is t := by
  obtain ⟨n, os, h1, h2⟩ := C107_order_partial (S := S) scribe rfl (fun s b => s ++ [.inl b]) chk [] is t cs hi ht hc hl
  obtain ⟨h3, h4⟩ := h2.transcript
  refine ⟨n, by rw [h1, h4], ?_⟩
  rw [h3]
  rfl

/-! ## The rest of C107, and the other models -/

theorem readS_forgetful (ig : Bool) (fb : Option (List O.BR → Bool)) (fp : Option (Bytes → Bool)) (fq : Option (Packet O Q → Bool)) (chk : Bool) (s : σ) (r : Rd) :
    readS (forgetful ig fb fp fq) chk s r = (read (forgetfulRules ig fb fp fq) chk r, s) := by
  have h := C105_forgetful ig fb fp fq chk 1 s r
  rw [readsS, reads] at h
  generalize readS (forgetful ig fb fp fq) chk s r = x at h
  generalize read (forgetfulRules ig fb fp fq) chk r = y at h
  obtain ⟨⟨o, r'⟩, s'⟩ := x
  obtain ⟨o2, r2⟩ := y
  cases o <;> cases o2 <;> simp [readsS, reads] at h ⊢ <;> simp [h]

/-- **C107**. What the reader of the other properties records as given to the `Ignored` callback is what a callback that writes down its calls has at the end,
and such a callback changes nothing else. -/
theorem C107_record (fb : Option (List O.BR → Bool)) (fp : Option (Bytes → Bool)) (fq : Option (Packet O Q → Bool)) (chk : Bool) (n : Nat) (r : Rd) :
    readsI (forgetful true fb fp fq) (fun s b => s ++ [b]) chk n r.log r =
      ((reads (forgetfulRules true fb fp fq) chk n r).1, (reads (forgetfulRules true fb fp fq) chk n r).2, (reads (forgetfulRules true fb fp fq) chk n r).2.log) := by
  have one : ∀ x, (forgetfulRules true fb fp fq).ignore x = [x] := by
    intro x; cases fb <;> cases fp <;> cases fq <;> rfl
  have hl : ∀ r : Rd, (toldBy r).foldl (fun s b => s ++ [b]) r.log = (read (forgetfulRules true fb fp fq) chk r).2.log := by
    intro r
    rw [toldBy_log]
    generalize toldBy r = xs
    generalize r.log = l
    induction xs generalizing l with
    | nil => simp
    | cons x xs ih => rw [List.foldl_cons, ih, List.flatMap_cons, one]; simp
  have hr : ∀ r : Rd, readI (forgetful true fb fp fq) (fun s b => s ++ [b]) chk r.log r =
      (read (forgetfulRules true fb fp fq) chk r, (read (forgetfulRules true fb fp fq) chk r).2.log) := by
    intro r
    rw [readI_eq rfl, readS_forgetful, hl]
  induction n generalizing r with
  | zero => rfl
  | succ n ih =>
    rw [readsI, reads, hr]
    rcases read (forgetfulRules true fb fp fq) chk r with ⟨o | e | _, r'⟩
    · simp only; rw [ih]
    · simp only; rw [ih]
    · rfl

/-- **C107**. With an `Ignored` callback that remembers nothing, it is the reader of C105. -/
theorem C107_forgetful (A : Asker σ O.BR (Packet O Q)) (hA : A.ignored = true) (chk : Bool) (n : Nat) (s : σ) (r : Rd) :
    readsI A (fun s _ => s) chk n s r = readsS A chk n s r := by
  have hr : ∀ s r, readI A (fun s _ => s) chk s r = readS A chk s r := by
    intro s r
    rw [readI_eq hA]
    congr 1
    generalize toldBy r = xs
    induction xs with
    | nil => rfl
    | cons x xs ih => exact ih
  induction n generalizing s r with
  | zero => rfl
  | succ n ih =>
    rw [readsI, readsS, hr]
    rcases readS A chk s r with ⟨⟨o | e | _, r'⟩, s'⟩
    · simp only; rw [ih]
    · simp only; rw [ih]
    · rfl

/-- The rest of C107: for reads of any lengths. -/
def C107_full : Prop :=
  ∀ (O : BlockOps) (Q : PayloadOps) (S : BlockSpec O) (σ : Type) (A : Asker σ O.BR (Packet O Q)) (I : σ → Bytes → σ) (chk : Bool) (s : σ) (is : List (Bytes × Packet O Q)) (t : Bytes)
    (cs : Chunks), A.ignored = true → (∀ x ∈ is, GoodItem S x) → NoSig t → Cuts cs (stream is t) →
    ∃ n os, loud (readsI A I chk n s (.new (cs.map some))).1 = os ++ [.ok .noData] ∧
      InOrder S A I s is t os (readsI A I chk n s (.new (cs.map some))).2.2

/-- **C107** fails for short reads, as C23 does: the packet of `C23_short_reads` is lost, the filters never hear of it. -/
theorem C107_not : ¬ C107_full := by
  intro h
  obtain ⟨n, os, h1, _⟩ := h (blockEnum sampleTypes) (PEnum.ops []) sampleSpec Unit (forgetful true none none none) (fun s _ => s) false () [(litter21, samplePacket)] [] shortCut rfl
    (by
      intro x hx
      rw [List.mem_singleton.mp hx]
      exact ⟨litter21_free, samplePacket_ok, by decide, .inr fun h e => body_of_blocks (by decide) h e⟩)
    (by intro j; simp [PACKET_SIG]) shortCut_cuts
  rw [C107_forgetful _ rfl, C105_forgetful] at h1
  have := C23_release_waits n
  simp only [forgetfulRules, if_true, Option.map_none, Option.toList_none, List.append_nil] at h1
  rw [this] at h1
  simp at h1

/-- Non-vacuity: litter, packet, litter with a part of a signature, packet, litter, in one read. -/
example (chk : Bool) : ∃ n, transcript (readsI scribe (fun s b => s ++ [.inl b]) chk n ([] : List (Bytes ⊕ Packet (blockEnum sampleTypes) (PEnum.ops [])))
    (.new ([stream [(litter21, samplePacket), ([236, 37, 94, 136, 1], samplePacket)] [236, 37]].map some))).2.2 =
    litter21 ++ wire samplePacket ++ [236, 37, 94, 136, 1] ++ wire samplePacket ++ [236, 37] := by
  obtain ⟨n, _, h⟩ := C107_transcript_partial (S := sampleSpec) chk [(litter21, samplePacket), ([236, 37, 94, 136, 1], samplePacket)] [236, 37]
    [stream [(litter21, samplePacket), ([236, 37, 94, 136, 1], samplePacket)] [236, 37]]
    (by
      intro x hx
      have hb : ∀ h, samplePacket.header = .ok h → 8 ≤ h.size := fun h e => body_of_blocks (by decide) h e
      rcases List.mem_cons.mp hx with rfl | hx
      · exact ⟨litter21_free, samplePacket_ok, by decide, .inr hb⟩
      · rw [List.mem_singleton.mp hx]
        exact ⟨by unfold Free; decide +kernel, samplePacket_ok, by decide, .inr hb⟩)
    (by
      intro j hj
      have := hj.length_le
      simp [PACKET_SIG] at this
      try omega) ⟨by simp, by decide +kernel⟩ (by simp)
  exact ⟨n, h.trans (by simp [stream])⟩

end Brec.Props
