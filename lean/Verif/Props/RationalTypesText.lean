import Verif.Model.RationalTypes
import Verif.Props.MathTypes
import Verif.Props.RationalInt
import Verif.Props.Rng

/-! Property C137: rationals over every integer type as text. -/

namespace Bwsl
open Spec

/-- A numeral for `v` is read into a variable of type `t` as `x`: a signed type takes the numbers it has, an unsigned one
those whose magnitude it has, negative ones as their residues. -/
def Spec.ReadsAs (t : CInt) (v x : Int) : Prop :=
  if t.signed then t.Has v ∧ x = v else |v| < 2 ^ t.bits ∧ Reduces t v x

/-- The text starts with `num//den`, with blanks allowed before the numerals and the slashes; the last numeral is taken
as long as possible. -/
def Spec.IsRationalTextAt (t : CInt) (s : List Char) (n d : Int) : Prop :=
  ∃ w₀ t₁ w₁ w₂ w₃ t₂ rest v₁ v₂,
    s = w₀ ++ t₁ ++ w₁ ++ '/' :: w₂ ++ '/' :: w₃ ++ t₂ ++ rest ∧
    (∀ c ∈ w₀ ++ w₁ ++ w₂ ++ w₃, Blank c) ∧ IsNumeral t₁ v₁ ∧ IsNumeral t₂ v₂ ∧ ReadsAs t v₁ n ∧ ReadsAs t v₂ d ∧
    (∀ c ∈ rest.head?, c ∉ Spec.digits)

/-- blanks, then a numeral that is read as `x`, then `tl`, which does not continue it -/
def TNumAt (t : CInt) (s : List Char) (x : Int) (tl : List Char) : Prop :=
  ∃ w tx v, s = w ++ tx ++ tl ∧ (∀ c ∈ w, Blank c) ∧ IsNumeral tx v ∧ ReadsAs t v x ∧ (∀ c ∈ tl.head?, c ∉ Spec.digits)

namespace CInt

theorem readsAs_signed {t : CInt} (hs : t.signed = true) {v x : Int} : ReadsAs t v x ↔ t.Has v ∧ x = v := by
  unfold ReadsAs; rw [if_pos hs]

theorem readsAs_unsigned {t : CInt} (hs : t.signed = false) {v x : Int} :
    ReadsAs t v x ↔ |v| < 2 ^ t.bits ∧ Reduces t v x := by
  unfold ReadsAs; rw [if_neg (by rw [hs]; decide)]

theorem hi_unsigned {t : CInt} (hs : t.signed = false) : t.hi = 2 ^ t.bits := by
  unfold hi; rw [if_neg (by rw [hs]; decide)]

end CInt

open CInt

/-- The decision after the digits, by the value of the numeral. -/
theorem convertT_value {t : CInt} (ht : Standard t) {tl tl' : List Char} {v x : Int} {m : Nat} (hm : (m : Int) = |v|) :
    (if t.signed then
        if v < t.lo then (t.lo, (⟨tl, true⟩ : IStream))
        else if t.hi ≤ v then (t.hi - 1, ⟨tl, true⟩)
        else (v, ⟨tl, false⟩)
      else if t.hi ≤ (m : Int) then (t.hi - 1, ⟨tl, true⟩)
      else (t.wrap v, ⟨tl, false⟩)) = (x, ⟨tl', false⟩) ↔ ReadsAs t v x ∧ tl = tl' := by
  cases hs : t.signed
  · rw [readsAs_unsigned hs, ← hi_unsigned hs, hm, reduces_iff ht]
    simp only [Bool.false_eq_true, if_false]
    split
    · next h => simp; intro h'; omega
    · next h =>
      rw [Prod.mk.injEq, IStream.mk.injEq]
      constructor
      · rintro ⟨h1, h2, -⟩; exact ⟨⟨by omega, h1.symm⟩, h2⟩
      · rintro ⟨⟨-, h1⟩, h2⟩; exact ⟨h1.symm, h2, rfl⟩
  · rw [readsAs_signed hs]
    simp only [if_true]
    split
    · next h => simp; intro h'; have := h'.1; omega
    · split
      · next h => simp; intro h'; have := h'.2; omega
      · next h1 h2 =>
        rw [Prod.mk.injEq, IStream.mk.injEq]
        constructor
        · rintro ⟨rfl, h, -⟩; exact ⟨⟨⟨by omega, by omega⟩, rfl⟩, h⟩
        · rintro ⟨⟨-, rfl⟩, h⟩; exact ⟨rfl, h, rfl⟩

theorem convertT_numeral {t : CInt} (ht : Standard t) {tx tl : List Char} {v x old : Int} (h : IsNumeral tx v)
    (hv : ReadsAs t v x) (htl : ∀ c ∈ tl.head?, c ∉ Spec.digits) :
    IStream.convertT t old (tx ++ tl) = (x, ⟨tl, false⟩) := by
  obtain ⟨ds, hne, hd, h⟩ := h
  obtain ⟨e1, e2⟩ := takeWhile_split (p := isDigit) (a := ds) (b := tl)
    (fun c hc => isDigit_iff.2 (hd c hc))
    (fun c hc => by rw [← Bool.not_eq_true, isDigit_iff]; exact htl c hc)
  have hds := digitsVal_eq hd
  have hemp : ds.isEmpty = false := by simpa using hne
  rcases h with ⟨rfl, rfl⟩ | ⟨rfl, rfl⟩ | ⟨rfl, rfl⟩
  · obtain ⟨c, cs, rfl⟩ := List.exists_cons_of_ne_nil hne
    obtain ⟨s1, s2⟩ := sign_not_digit c (hd c List.mem_cons_self)
    unfold IStream.convertT
    rw [List.cons_append] at e1 e2 ⊢
    simp only [s1, s2, Bool.or_self, Bool.false_eq_true, if_false, e1, e2, hds, hemp]
    exact (convertT_value ht (by simp)).2 ⟨hv, rfl⟩
  · unfold IStream.convertT
    rw [List.cons_append]
    simp only [show (('+' : Char) == '-') = false by decide, show (('+' : Char) == '+') = true by decide,
      Bool.or_true, Bool.false_eq_true, if_false, if_true, e1, e2, hds, hemp]
    exact (convertT_value ht (by simp)).2 ⟨hv, rfl⟩
  · unfold IStream.convertT
    rw [List.cons_append]
    simp only [show (('-' : Char) == '-') = true by decide,
      Bool.true_or, Bool.false_eq_true, if_false, if_true, e1, e2, hds, hemp]
    exact (convertT_value ht (by simp)).2 ⟨hv, rfl⟩

theorem convertT_sound {t : CInt} (ht : Standard t) {cs tl : List Char} {x old : Int}
    (h : IStream.convertT t old cs = (x, ⟨tl, false⟩)) :
    ∃ tx v, cs = tx ++ tl ∧ IsNumeral tx v ∧ ReadsAs t v x ∧ (∀ c ∈ tl.head?, c ∉ Spec.digits) := by
  cases cs with
  | nil => simp [IStream.convertT] at h
  | cons c cs =>
    unfold IStream.convertT at h
    simp only at h
    generalize hb : (if (c == '-' || c == '+') = true then cs else c :: cs) = body at h
    obtain ⟨s1, s2, s3⟩ := split_while isDigit body
    have hd : ∀ x ∈ body.takeWhile isDigit, x ∈ Spec.digits := fun x hx => isDigit_iff.1 (s2 x hx)
    split at h
    · simp at h
    · next hne =>
      have hne' : body.takeWhile isDigit ≠ [] := by simpa using hne
      rw [digitsVal_eq hd] at h
      obtain ⟨hv, htl⟩ := (convertT_value ht (by split <;> simp)).1 h
      clear h
      rw [htl] at s1 s3
      generalize body.takeWhile isDigit = ds at *
      have htail : ∀ c ∈ tl.head?, c ∉ Spec.digits := by
        intro x hx
        have := s3 x hx
        rw [← isDigit_iff, this]; simp
      by_cases hm : (c == '-') = true
      · have : c = '-' := by simpa using hm
        subst this
        rw [if_pos hm] at hv
        refine ⟨'-' :: ds, _, ?_, ⟨ds, hne', hd, .inr (.inr ⟨rfl, rfl⟩)⟩, hv, htail⟩
        simp at hb
        rw [hb, s1, List.cons_append]
      · rw [if_neg hm] at hv
        by_cases hp : (c == '+') = true
        · have : c = '+' := by simpa using hp
          subst this
          refine ⟨'+' :: ds, _, ?_, ⟨ds, hne', hd, .inr (.inl ⟨rfl, rfl⟩)⟩, hv, htail⟩
          simp at hb
          rw [hb, s1, List.cons_append]
        · refine ⟨ds, _, ?_, ⟨ds, hne', hd, .inl ⟨rfl, rfl⟩⟩, hv, htail⟩
          rw [if_neg (by simp only [Bool.or_eq_true, not_or]; exact ⟨hm, hp⟩)] at hb
          rw [hb, s1]

theorem readT_iff {t : CInt} (ht : Standard t) {s : List Char} {old x : Int} {tl : List Char} :
    IStream.readT t ⟨s, false⟩ old = (x, ⟨tl, false⟩) ↔ TNumAt t s x tl := by
  unfold IStream.readT
  simp only [Bool.false_eq_true, if_false]
  constructor
  · intro h
    obtain ⟨tx, v, h1, h2, h3, h4⟩ := convertT_sound ht h
    obtain ⟨s1, s2, _⟩ := split_while isSpace s
    exact ⟨s.takeWhile isSpace, tx, v, by rw [List.append_assoc, ← h1]; exact s1,
      fun c hc => isSpace_iff.1 (s2 c hc), h2, h3, h4⟩
  · rintro ⟨w, tx, v, rfl, hw, htx, hv, htl⟩
    rw [List.append_assoc,
      (takeWhile_split (p := isSpace) (fun c hc => isSpace_iff.2 (hw c hc)) (numeral_head htx tl)).2]
    exact convertT_numeral ht htx hv htl

theorem readT_fail {t : CInt} {s : IStream} {old : Int} (h : s.fail = true) : s.readT t old = (old, s) := by
  unfold IStream.readT; rw [if_pos h]

theorem extractT_iff {t : CInt} (ht : Standard t) {s : List Char} {r0 : RatNum} {n d : Int} {tl : List Char} :
    RatT.extract t ⟨s, false⟩ r0 = (⟨tl, false⟩, ⟨n, d⟩) ↔
      ∃ u v, TNumAt t s n u ∧ (∃ w₁ w₂, u = w₁ ++ '/' :: w₂ ++ '/' :: v ∧ (∀ x ∈ w₁ ++ w₂, Blank x)) ∧
        TNumAt t v d tl := by
  unfold RatT.extract
  constructor
  · intro h
    generalize h1 : IStream.readT t ⟨s, false⟩ r0.num = r1 at h
    obtain ⟨n', u, f1⟩ := r1
    simp only at h
    generalize h2 : RatNum.readSeps ⟨u, f1⟩ = r2 at h
    obtain ⟨⟨v, f2⟩, b⟩ := r2
    simp only at h
    cases f1 with
    | true =>
      have hf := readSeps_fail (s := ⟨u, true⟩) rfl
      rw [h2] at hf
      simp only at hf
      subst hf
      split at h
      · rw [readT_fail rfl] at h; simp at h
      · simp at h
    | false =>
      cases f2 with
      | true =>
        split at h
        · rw [readT_fail rfl] at h; simp at h
        · simp at h
      | false =>
        have hb := readSeps_go h2
        subst hb
        simp only [if_true] at h
        generalize h3 : IStream.readT t ⟨v, false⟩ r0.den = r3 at h
        obtain ⟨d', x, f3⟩ := r3
        simp only [Prod.mk.injEq, IStream.mk.injEq, RatNum.mk.injEq] at h
        obtain ⟨⟨rfl, rfl⟩, rfl, rfl⟩ := h
        exact ⟨u, v, (readT_iff ht).1 h1, readSeps_iff.1 ⟨_, h2⟩, (readT_iff ht).1 h3⟩
  · rintro ⟨u, v, h1, h2, h3⟩
    obtain ⟨b, h2⟩ := readSeps_iff.2 h2
    have hb := readSeps_go h2
    subst hb
    rw [(readT_iff ht).2 h1]
    simp only [h2, if_true, (readT_iff ht).2 h3]

theorem rationalTextAt_iff {t : CInt} {s : List Char} {n d : Int} :
    IsRationalTextAt t s n d ↔ ∃ u v tl, TNumAt t s n u ∧
      (∃ w₁ w₂, u = w₁ ++ '/' :: w₂ ++ '/' :: v ∧ (∀ x ∈ w₁ ++ w₂, Blank x)) ∧ TNumAt t v d tl := by
  constructor
  · rintro ⟨w0, t1, w1, w2, w3, t2, rest, v1, v2, rfl, hw, h1, h2, h3, h4, h5⟩
    refine ⟨w1 ++ '/' :: w2 ++ '/' :: (w3 ++ t2 ++ rest), w3 ++ t2 ++ rest, rest,
      ⟨w0, t1, v1, by simp, fun c hc => hw c (by simp [hc]), h1, h3, ?_⟩,
      ⟨w1, w2, rfl, fun c hc => hw c ?_⟩, ⟨w3, t2, v2, rfl, fun c hc => hw c (by simp [hc]), h2, h4, h5⟩⟩
    · intro c hc
      cases w1 with
      | nil => simp at hc; subst hc; decide
      | cons x xs =>
        simp at hc; subst hc
        have hb : Blank x := hw x (by simp)
        intro hd
        have := not_space_digit hd
        rw [isSpace_iff.2 hb] at this; cases this
    · rcases List.mem_append.1 hc with h | h <;> simp [h]
  · rintro ⟨u, v, tl, ⟨w0, t1, v1, rfl, hw0, h1, h3, _⟩, ⟨w1, w2, rfl, hw⟩, ⟨w3, t2, v2, rfl, hw3, h2, h4, h5⟩⟩
    refine ⟨w0, t1, w1, w2, w3, t2, tl, v1, v2, by simp, ?_, h1, h2, h3, h4, h5⟩
    intro c hc
    rcases List.mem_append.1 hc with hc | hc
    · rcases List.mem_append.1 hc with hc | hc
      · rcases List.mem_append.1 hc with hc | hc
        · exact hw0 c hc
        · exact hw c (List.mem_append_left _ hc)
      · exact hw c (List.mem_append_right _ hc)
    · exact hw3 c hc

/-- C137.  On a text that starts with a rational number of the type the parser returns and stores exactly that number,
whatever the object held. -/
theorem C137_accepts (t : CInt) (ht : Wide t) (s : List Char) (n d : Int) (r0 : RatNum) (h : IsRationalTextAt t s n d) :
    RatT.fromString t s r0 = (⟨n, d⟩, .ok ()) := by
  obtain ⟨u, v, tl, h⟩ := rationalTextAt_iff.1 h
  unfold RatT.fromString IStream.ofString
  rw [(extractT_iff ht.standard).2 ⟨u, v, h⟩]
  rfl

/-- C137.  On every other text it throws the parsing exception. -/
theorem C137_rejects (t : CInt) (ht : Wide t) (s : List Char) (r0 : RatNum) (h : ∀ n d, ¬ IsRationalTextAt t s n d) :
    (RatT.fromString t s r0).2 = .throws .badParsing := by
  unfold RatT.fromString IStream.ofString
  generalize h1 : RatT.extract t ⟨s, false⟩ r0 = r1
  obtain ⟨⟨tl, f⟩, ⟨n, d⟩⟩ := r1
  cases f with
  | true => rfl
  | false =>
    obtain ⟨u, v, hh⟩ := (extractT_iff ht.standard).1 h1
    exact absurd (rationalTextAt_iff.2 ⟨u, v, tl, hh⟩) (h n d)

theorem readsAs_self {t : CInt} {x : Int} (h : t.Has x) : ReadsAs t x x := by
  cases hs : t.signed
  · rw [readsAs_unsigned hs]
    refine ⟨?_, h, by simp⟩
    have h1 := h.1
    have h2 := h.2
    rw [hi_unsigned hs] at h2
    unfold lo at h1
    rw [hs] at h1
    simp at h1
    rwa [abs_of_nonneg h1]
  · exact (readsAs_signed hs).2 ⟨h, rfl⟩

/-- C137.  Printing then parsing gives the number back. -/
theorem C137_round_trip (t : CInt) (ht : Wide t) (r r0 : RatNum) (hn : t.Has r.num) (hd : t.Has r.den) :
    RatT.fromString t (RatNum.toText r) r0 = (r, .ok ()) := by
  refine C137_accepts t ht _ r.num r.den r0 ⟨[], printLong r.num, [], [], [], printLong r.den, [], r.num, r.den, ?_, ?_,
    printLong_numeral _, printLong_numeral _, readsAs_self hn, readsAs_self hd, ?_⟩
  · simp [RatNum.toText]
  · simp
  · simp

/-- C137.  What has been parsed fits the type. -/
theorem C137_range (t : CInt) (ht : Wide t) (s : List Char) (r0 r : RatNum) (h : RatT.fromString t s r0 = (r, .ok ())) :
    t.Has r.num ∧ t.Has r.den := by
  have key : ∀ v x, ReadsAs t v x → t.Has x := by
    intro v x h
    cases hs : t.signed
    · exact ((readsAs_unsigned hs).1 h).2.1
    · obtain ⟨h1, rfl⟩ := (readsAs_signed hs).1 h; exact h1
  by_cases hc : ∃ n d, IsRationalTextAt t s n d
  · obtain ⟨n, d, hc⟩ := hc
    rw [C137_accepts t ht s n d r0 hc] at h
    cases h
    obtain ⟨_, _, _, _, _, _, _, v1, v2, -, -, -, -, h1, h2, -⟩ := hc
    exact ⟨key _ _ h1, key _ _ h2⟩
  · have := C137_rejects t ht s r0 fun n d hh => hc ⟨n, d, hh⟩
    rw [h] at this
    cases this

theorem readT_tLong (st : IStream) (old : Int) : st.readT tLong old = st.readLong old := by
  unfold IStream.readT IStream.readLong
  split
  · rfl
  · generalize st.rest.dropWhile isSpace = cs
    cases cs with
    | nil => rfl
    | cons c cs =>
      unfold IStream.convertT IStream.convert
      simp [tLong, lo, hi]

theorem readT_tInt (st : IStream) (old : Int) (ho : InInt old) : st.readT tInt old = st.readInt old := by
  have e : ∀ x : IStream, (old, x) = (if old < -H31 then (-H31, (⟨x.rest, true⟩ : IStream)) else
      if H31 ≤ old then (H31 - 1, ⟨x.rest, true⟩) else (old, x)) := by
    intro x
    rw [if_neg (by unfold InInt at ho; omega), if_neg (by unfold InInt at ho; omega)]
  unfold IStream.readT IStream.readInt IStream.readLong
  split
  · exact e st
  · generalize st.rest.dropWhile isSpace = cs
    cases cs with
    | nil => exact e ⟨[], true⟩
    | cons c cs =>
      unfold IStream.convertT IStream.convert
      simp only [tInt, lo, hi]
      generalize (if (c == '-' || c == '+') = true then cs else c :: cs) = body
      generalize (if (c == '-') = true then -(digitsVal (body.takeWhile isDigit) : Int)
        else (digitsVal (body.takeWhile isDigit) : Int)) = v
      generalize body.dropWhile isDigit = tl
      by_cases h0 : (body.takeWhile isDigit).isEmpty = true
      · rw [if_pos h0, if_pos h0]; rfl
      · rw [if_neg h0, if_neg h0]
        simp only [if_true, show ((2 : Int) ^ (32 - 1)) = H31 by norm_num]
        by_cases h1 : v < -H63
        · simp only [if_pos h1]
          rw [if_pos (by omega)]; rfl
        · simp only [if_neg h1]
          by_cases h2 : H63 ≤ v
          · simp only [if_pos h2]
            rw [if_neg (by omega), if_pos (by omega)]; rfl
          · simp only [if_neg h2]

/-- C137.  For `long` and `int` these are the functions of C33 and C104. -/
theorem C137_instances (s : List Char) (r : RatNum) :
    RatT.fromString tLong s r = RatNum.fromString s r ∧
    (InInt r.num → InInt r.den → RatT.fromString tInt s r = RatInt.fromString s r) := by
  constructor
  · unfold RatT.fromString RatNum.fromString RatT.extract RatNum.extract
    simp only [readT_tLong]
  · intro h1 h2
    unfold RatT.fromString RatInt.fromString RatT.extract RatInt.extract
    simp only [readT_tInt _ _ h1, readT_tInt _ _ h2]

/-- C137.  Rationals over an unsigned type accept negative numerals: the text of a negative fraction is read without an error
as a large positive one. -/
theorem C137_negative (t : CInt) (ht : Wide t) (hs : t.signed = false) (m d : Nat) (hm : 0 < m) (hm' : (m : Int) < 2 ^ t.bits)
    (hd : (d : Int) < 2 ^ t.bits) (r0 : RatNum) :
    RatT.fromString t (RatNum.toText ⟨-m, d⟩) r0 = (⟨2 ^ t.bits - m, d⟩, .ok ()) := by
  have hlo : t.lo = 0 := by unfold lo; rw [hs]; rfl
  refine C137_accepts t ht _ _ _ r0 ⟨[], printLong (-m), [], [], [], printLong d, [], -m, d, ?_, ?_,
    printLong_numeral _, printLong_numeral _, (readsAs_unsigned hs).2 ⟨by simpa using hm', ⟨by rw [hlo]; omega, by rw [hi_unsigned hs]; omega⟩,
      ⟨-1, by ring⟩⟩, readsAs_self ⟨by rw [hlo]; omega, by rw [hi_unsigned hs]; omega⟩, ?_⟩
  · simp [RatNum.toText]
  · simp
  · simp

example : RatT.fromString tUInt "-3//4".toList ⟨0, 1⟩ = (⟨4294967293, 4⟩, .ok ()) ∧
    RatT.fromString tUInt "4294967296//4".toList ⟨0, 1⟩ = (⟨4294967295, 1⟩, .throws .badParsing) ∧
    RatT.fromString tSize "4294967296 / / 4x".toList ⟨0, 1⟩ = (⟨4294967296, 4⟩, .ok ()) := by decide

end Bwsl
