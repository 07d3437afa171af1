import Verif.Model.Rational
import Verif.Spec.Text
import Mathlib.Tactic.Ring
import Mathlib.Tactic.Linarith

/-! Properties C32 and C33: text of rational numbers. -/

namespace Bwsl
open Spec

theorem isSpace_iff {c : Char} : isSpace c = true ↔ Blank c := by
  unfold isSpace Blank
  simp only [Bool.or_eq_true, beq_iff_eq, List.mem_cons, List.not_mem_nil, or_false]
  tauto

theorem char_of_toNat {c d : Char} (h : c.toNat = d.toNat) : c = d := by
  exact Char.toNat_inj.1 h

theorem isDigit_iff {c : Char} : isDigit c = true ↔ c ∈ digits := by
  unfold isDigit digits
  rw [decide_eq_true_iff]
  constructor
  · rintro ⟨h1, h2⟩
    have h1' : 48 ≤ c.toNat := h1
    have h2' : c.toNat ≤ 57 := h2
    have : c.toNat = 48 ∨ c.toNat = 49 ∨ c.toNat = 50 ∨ c.toNat = 51 ∨ c.toNat = 52 ∨ c.toNat = 53 ∨
      c.toNat = 54 ∨ c.toNat = 55 ∨ c.toNat = 56 ∨ c.toNat = 57 := by omega
    rcases this with h | h | h | h | h | h | h | h | h | h
    · rw [char_of_toNat (d := '0') h]; decide
    · rw [char_of_toNat (d := '1') h]; decide
    · rw [char_of_toNat (d := '2') h]; decide
    · rw [char_of_toNat (d := '3') h]; decide
    · rw [char_of_toNat (d := '4') h]; decide
    · rw [char_of_toNat (d := '5') h]; decide
    · rw [char_of_toNat (d := '6') h]; decide
    · rw [char_of_toNat (d := '7') h]; decide
    · rw [char_of_toNat (d := '8') h]; decide
    · rw [char_of_toNat (d := '9') h]; decide
  · intro h
    revert c
    decide

theorem digitVal_eq {c : Char} (h : c ∈ digits) : digitVal c = digits.idxOf c := by
  revert c; decide

theorem not_space_digit {c : Char} (h : c ∈ digits) : isSpace c = false := by
  revert c; decide

theorem digitsVal_aux (ds : List Char) (acc : Nat) (h : ∀ c ∈ ds, c ∈ digits) :
    ds.foldl (fun acc c => 10 * acc + digitVal c) acc = acc * 10 ^ ds.length + decValue ds := by
  induction ds generalizing acc with
  | nil => simp [decValue]
  | cons c cs ih =>
    rw [List.foldl_cons, ih _ (fun x hx => h x (List.mem_cons_of_mem _ hx)), decValue,
      digitVal_eq (h c List.mem_cons_self), List.length_cons]
    ring

theorem digitsVal_eq {ds : List Char} (h : ∀ c ∈ ds, c ∈ digits) : digitsVal ds = decValue ds := by
  unfold digitsVal; rw [digitsVal_aux ds 0 h]; simp

/-! ### Splitting at the first character that fails a test -/

theorem takeWhile_split {p : Char → Bool} {a b : List Char} (ha : ∀ c ∈ a, p c = true)
    (hb : ∀ c ∈ b.head?, p c = false) : (a ++ b).takeWhile p = a ∧ (a ++ b).dropWhile p = b := by
  induction a with
  | nil =>
    cases b with
    | nil => simp
    | cons c cs =>
      have : p c = false := hb c (by simp)
      simp [this]
  | cons c cs ih =>
    have h1 := ha c List.mem_cons_self
    obtain ⟨e1, e2⟩ := ih (fun x hx => ha x (List.mem_cons_of_mem _ hx))
    simp [h1, e1, e2]

theorem split_while (p : Char → Bool) (s : List Char) :
    s = s.takeWhile p ++ s.dropWhile p ∧ (∀ c ∈ s.takeWhile p, p c = true) ∧
      (∀ c ∈ (s.dropWhile p).head?, p c = false) := by
  refine ⟨(List.takeWhile_append_dropWhile).symm, ?_, ?_⟩
  · induction s with
    | nil => simp
    | cons x xs ih =>
      intro c hc
      by_cases hx : p x = true
      · rw [List.takeWhile_cons_of_pos hx] at hc
        rcases List.mem_cons.1 hc with rfl | hc
        · exact hx
        · exact ih c hc
      · rw [List.takeWhile_cons_of_neg hx] at hc; simp at hc
  · intro c hc
    have := List.head?_dropWhile_not p s
    cases h : (s.dropWhile p).head? with
    | none => rw [h] at hc; simp at hc
    | some x => rw [h] at hc this; simp at hc; subst hc; simpa using this

/-! ### Reading an integer -/

/-- `w` blanks, then a numeral for `v`, then `tl`, which does not continue it -/
def NumAt (s : List Char) (v : Int) (tl : List Char) : Prop :=
  ∃ w t, s = w ++ t ++ tl ∧ (∀ c ∈ w, Blank c) ∧ IsNumeral t v ∧ InLong v ∧ (∀ c ∈ tl.head?, c ∉ digits)

theorem numeral_head {t : List Char} {v : Int} (h : IsNumeral t v) (x : List Char) :
    ∀ c ∈ (t ++ x).head?, isSpace c = false := by
  obtain ⟨ds, hne, hd, h⟩ := h
  obtain ⟨c, cs, rfl⟩ := List.exists_cons_of_ne_nil hne
  rcases h with ⟨rfl, _⟩ | ⟨rfl, _⟩ | ⟨rfl, _⟩
  · intro c' hc'; simp at hc'; subst hc'; exact not_space_digit (hd _ List.mem_cons_self)
  · intro c' hc'; simp at hc'; subst hc'; decide
  · intro c' hc'; simp at hc'; subst hc'; decide

theorem sign_not_digit : ∀ c ∈ digits, (c == '-') = false ∧ (c == '+') = false := by decide

theorem convert_numeral {t tl : List Char} {v old : Int} (h : IsNumeral t v) (hv : InLong v)
    (htl : ∀ c ∈ tl.head?, c ∉ digits) : IStream.convert old (t ++ tl) = (v, ⟨tl, false⟩) := by
  obtain ⟨ds, hne, hd, h⟩ := h
  obtain ⟨e1, e2⟩ := takeWhile_split (p := isDigit) (a := ds) (b := tl)
    (fun c hc => isDigit_iff.2 (hd c hc))
    (fun c hc => by rw [← Bool.not_eq_true, isDigit_iff]; exact htl c hc)
  have hds := digitsVal_eq hd
  have hemp : ds.isEmpty = false := by simpa using hne
  rcases h with ⟨rfl, rfl⟩ | ⟨rfl, rfl⟩ | ⟨rfl, rfl⟩
  · obtain ⟨c, cs, rfl⟩ := List.exists_cons_of_ne_nil hne
    obtain ⟨s1, s2⟩ := sign_not_digit c (hd c List.mem_cons_self)
    unfold IStream.convert
    rw [List.cons_append] at e1 e2 ⊢
    simp only [s1, s2, Bool.or_self, Bool.false_eq_true, if_false, e1, e2, hds, hemp]
    rw [if_neg (by comega), if_neg (by comega)]
  · unfold IStream.convert
    rw [List.cons_append]
    simp only [show (('+' : Char) == '-') = false by decide, show (('+' : Char) == '+') = true by decide,
      Bool.or_true, Bool.false_eq_true, if_false, if_true, e1, e2, hds, hemp]
    rw [if_neg (by comega), if_neg (by comega)]
  · unfold IStream.convert
    rw [List.cons_append]
    simp only [show (('-' : Char) == '-') = true by decide,
      Bool.true_or, Bool.false_eq_true, if_false, if_true, e1, e2, hds, hemp]
    rw [if_neg (by comega), if_neg (by comega)]

theorem convert_sound {cs tl : List Char} {v old : Int} (h : IStream.convert old cs = (v, ⟨tl, false⟩)) :
    ∃ t, cs = t ++ tl ∧ IsNumeral t v ∧ InLong v ∧ (∀ c ∈ tl.head?, c ∉ digits) := by
  cases cs with
  | nil => simp [IStream.convert] at h
  | cons c cs =>
    unfold IStream.convert at h
    simp only at h
    generalize hb : (if (c == '-' || c == '+') = true then cs else c :: cs) = body at h
    generalize hv : (if (c == '-') = true then -(digitsVal (body.takeWhile isDigit) : Int)
      else (digitsVal (body.takeWhile isDigit) : Int)) = v' at h
    obtain ⟨s1, s2, s3⟩ := split_while isDigit body
    have hd : ∀ x ∈ body.takeWhile isDigit, x ∈ digits := fun x hx => isDigit_iff.1 (s2 x hx)
    split at h
    · simp at h
    · next hne =>
      split at h
      · simp at h
      · next h1 =>
        split at h
        · simp at h
        · next h2 =>
          simp only [Prod.mk.injEq, IStream.mk.injEq, and_true] at h
          obtain ⟨rfl, htl⟩ := h
          have hne' : body.takeWhile isDigit ≠ [] := by simpa using hne
          rw [digitsVal_eq hd] at hv
          rw [htl] at s1 s3
          generalize body.takeWhile isDigit = ds at *
          refine ⟨if (c == '-' || c == '+') = true then c :: ds else ds, ?_, ⟨ds, hne', hd, ?_⟩, ?_, ?_⟩
          · by_cases hs : (c == '-' || c == '+') = true
            · rw [if_pos hs] at hb ⊢
              rw [hb, s1, List.cons_append]
            · rw [if_neg hs] at hb ⊢
              rw [hb, s1]
          · by_cases hm : (c == '-') = true
            · have : c = '-' := by simpa using hm
              subst this
              right; right
              simp at hv
              exact ⟨by simp, hv.symm⟩
            · rw [if_neg hm] at hv
              by_cases hp : (c == '+') = true
              · have : c = '+' := by simpa using hp
                subst this
                right; left; exact ⟨by simp, hv.symm⟩
              · left
                refine ⟨?_, hv.symm⟩
                rw [if_neg]
                simp only [Bool.or_eq_true, not_or]; exact ⟨hm, hp⟩
          · comega
          · intro x hx
            have := s3 x hx
            rw [← isDigit_iff, this]; simp

theorem readLong_iff {s : List Char} {old v : Int} {tl : List Char} :
    IStream.readLong ⟨s, false⟩ old = (v, ⟨tl, false⟩) ↔ NumAt s v tl := by
  unfold IStream.readLong
  simp only [Bool.false_eq_true, if_false]
  constructor
  · intro h
    obtain ⟨t, h1, h2, h3, h4⟩ := convert_sound h
    obtain ⟨s1, s2, _⟩ := split_while isSpace s
    exact ⟨s.takeWhile isSpace, t, by rw [List.append_assoc, ← h1]; exact s1,
      fun c hc => isSpace_iff.1 (s2 c hc), h2, h3, h4⟩
  · rintro ⟨w, t, rfl, hw, ht, hv, htl⟩
    rw [List.append_assoc,
      (takeWhile_split (p := isSpace) (fun c hc => isSpace_iff.2 (hw c hc)) (numeral_head ht tl)).2]
    exact convert_numeral ht hv htl

theorem readChar_iff {s : List Char} {old c : Char} {tl : List Char} :
    IStream.readChar ⟨s, false⟩ old = (c, ⟨tl, false⟩) ↔
      ∃ w, s = w ++ c :: tl ∧ (∀ x ∈ w, Blank x) ∧ isSpace c = false := by
  unfold IStream.readChar
  simp only [Bool.false_eq_true, if_false]
  constructor
  · intro h
    obtain ⟨s1, s2, s3⟩ := split_while isSpace s
    generalize s.dropWhile isSpace = y at h s1 s3
    cases y with
    | nil => simp at h
    | cons x xs =>
      simp at h
      obtain ⟨rfl, rfl⟩ := h
      exact ⟨_, s1, fun c hc => isSpace_iff.1 (s2 c hc), s3 x (by simp)⟩
  · rintro ⟨w, rfl, hw, hc⟩
    rw [(takeWhile_split (p := isSpace) (b := c :: tl) (fun c hc => isSpace_iff.2 (hw c hc))
      (fun x hx => by simp at hx; subst hx; exact hc)).2]

theorem readLong_fail {s : IStream} {old : Int} (h : s.fail = true) : s.readLong old = (old, s) := by
  unfold IStream.readLong; rw [if_pos h]

theorem readChar_fail {s : IStream} {old : Char} (h : s.fail = true) : s.readChar old = (old, s) := by
  unfold IStream.readChar; rw [if_pos h]

theorem readSeps_fail {s : IStream} (h : s.fail = true) : (RatNum.readSeps s).1.fail = true := by
  unfold RatNum.readSeps
  simp only [readChar_fail h]
  rw [if_pos (by decide)]

/-- Reading the two slashes. -/
theorem readSeps_iff {s tl : List Char} :
    (∃ b, RatNum.readSeps ⟨s, false⟩ = (⟨tl, false⟩, b)) ↔
      ∃ w₁ w₂, s = w₁ ++ '/' :: w₂ ++ '/' :: tl ∧ (∀ x ∈ w₁ ++ w₂, Blank x) := by
  unfold RatNum.readSeps
  constructor
  · rintro ⟨b, h⟩
    generalize h1 : IStream.readChar ⟨s, false⟩ '\x00' = r1 at h
    obtain ⟨c1, r1, f1⟩ := r1
    simp only at h
    split at h
    · simp at h
    · next hc1 =>
      have hc1 : c1 = '/' := by simpa using hc1
      subst hc1
      generalize h2 : IStream.readChar ⟨r1, f1⟩ '/' = r2 at h
      obtain ⟨c2, r2, f2⟩ := r2
      simp only at h
      split at h
      · simp at h
      · next hc2 =>
        have hc2 : c2 = '/' := by simpa using hc2
        subst hc2
        simp only [Prod.mk.injEq, IStream.mk.injEq] at h
        obtain ⟨⟨rfl, rfl⟩, _⟩ := h
        cases f1 with
        | true => rw [readChar_fail rfl] at h2; simp at h2
        | false =>
          obtain ⟨w1, rfl, hw1, _⟩ := readChar_iff.1 h1
          obtain ⟨w2, rfl, hw2, _⟩ := readChar_iff.1 h2
          refine ⟨w1, w2, by simp, ?_⟩
          intro x hx
          rcases List.mem_append.1 hx with hx | hx
          · exact hw1 x hx
          · exact hw2 x hx
  · rintro ⟨w1, w2, rfl, hw⟩
    have e1 : IStream.readChar ⟨w1 ++ '/' :: w2 ++ '/' :: tl, false⟩ '\x00' =
        ('/', ⟨w2 ++ '/' :: tl, false⟩) :=
      readChar_iff.2 ⟨w1, by simp, fun x hx => hw x (List.mem_append_left _ hx), by decide⟩
    have e2 : IStream.readChar ⟨w2 ++ '/' :: tl, false⟩ '/' = ('/', ⟨tl, false⟩) :=
      readChar_iff.2 ⟨w2, rfl, fun x hx => hw x (List.mem_append_right _ hx), by decide⟩
    simp only [e1, e2]
    exact ⟨true, rfl⟩

theorem readSeps_go {s : IStream} {tl : List Char} {b : Bool} (h : RatNum.readSeps s = (⟨tl, false⟩, b)) :
    b = true := by
  unfold RatNum.readSeps at h
  simp only at h
  split at h
  · simp at h
  · split at h
    · simp at h
    · simp at h; exact h.2

theorem extract_iff {s : List Char} {r0 : RatNum} {n d : Int} {tl : List Char} :
    RatNum.extract ⟨s, false⟩ r0 = (⟨tl, false⟩, ⟨n, d⟩) ↔
      ∃ u v, NumAt s n u ∧ (∃ w₁ w₂, u = w₁ ++ '/' :: w₂ ++ '/' :: v ∧ (∀ x ∈ w₁ ++ w₂, Blank x)) ∧
        NumAt v d tl := by
  unfold RatNum.extract
  constructor
  · intro h
    generalize h1 : IStream.readLong ⟨s, false⟩ r0.num = r1 at h
    obtain ⟨n', u, f1⟩ := r1
    simp only at h
    generalize h2 : RatNum.readSeps ⟨u, f1⟩ = r2 at h
    obtain ⟨⟨v, f2⟩, b⟩ := r2
    simp only at h
    cases f1 with
    | true =>
      have hf := readSeps_fail (s := ⟨u, true⟩) rfl
      rw [h2] at hf
      simp only at hf
      subst hf
      split at h
      · rw [readLong_fail rfl] at h; simp at h
      · simp at h
    | false =>
      cases f2 with
      | true =>
        split at h
        · rw [readLong_fail rfl] at h; simp at h
        · simp at h
      | false =>
        have hb := readSeps_go h2
        subst hb
        simp only [if_true] at h
        generalize h3 : IStream.readLong ⟨v, false⟩ r0.den = r3 at h
        obtain ⟨d', x, f3⟩ := r3
        simp only [Prod.mk.injEq, IStream.mk.injEq, RatNum.mk.injEq] at h
        obtain ⟨⟨rfl, rfl⟩, rfl, rfl⟩ := h
        exact ⟨u, v, readLong_iff.1 h1, readSeps_iff.1 ⟨_, h2⟩, readLong_iff.1 h3⟩
  · rintro ⟨u, v, h1, h2, h3⟩
    obtain ⟨b, h2⟩ := readSeps_iff.2 h2
    have hb := readSeps_go h2
    subst hb
    rw [readLong_iff.2 h1]
    simp only [h2, if_true, readLong_iff.2 h3]

theorem rationalText_iff {s : List Char} {n d : Int} :
    IsRationalText s n d ↔ ∃ u v tl, NumAt s n u ∧
      (∃ w₁ w₂, u = w₁ ++ '/' :: w₂ ++ '/' :: v ∧ (∀ x ∈ w₁ ++ w₂, Blank x)) ∧ NumAt v d tl := by
  constructor
  · rintro ⟨w0, t1, w1, w2, w3, t2, rest, rfl, hw, h1, h2, h3, h4, h5⟩
    refine ⟨w1 ++ '/' :: w2 ++ '/' :: (w3 ++ t2 ++ rest), w3 ++ t2 ++ rest, rest,
      ⟨w0, t1, by simp, fun c hc => hw c (by simp [hc]), h1, h3, ?_⟩,
      ⟨w1, w2, rfl, fun c hc => hw c ?_⟩, ⟨w3, t2, rfl, fun c hc => hw c (by simp [hc]), h2, h4, h5⟩⟩
    · intro c hc
      cases w1 with
      | nil => simp at hc; subst hc; decide
      | cons x xs =>
        simp at hc; subst hc
        have hb : Blank x := hw x (by simp)
        intro hd
        have := not_space_digit hd
        rw [isSpace_iff.2 hb] at this; cases this
    · rcases List.mem_append.1 hc with h | h <;> simp [h]
  · rintro ⟨u, v, tl, ⟨w0, t1, rfl, hw0, h1, h3, _⟩, ⟨w1, w2, rfl, hw⟩, ⟨w3, t2, rfl, hw3, h2, h4, h5⟩⟩
    refine ⟨w0, t1, w1, w2, w3, t2, tl, by simp, ?_, h1, h2, h3, h4, h5⟩
    intro c hc
    rcases List.mem_append.1 hc with hc | hc
    · rcases List.mem_append.1 hc with hc | hc
      · rcases List.mem_append.1 hc with hc | hc
        · exact hw0 c hc
        · exact hw c (List.mem_append_left _ hc)
      · exact hw c (List.mem_append_right _ hc)
    · exact hw3 c hc

/-- C33.  On a text that starts with a rational number the parser returns and stores exactly that number,
whatever the object held. -/
theorem C33_accepts (s : List Char) (n d : Int) (r0 : RatNum) (h : IsRationalText s n d) :
    RatNum.fromString s r0 = (⟨n, d⟩, .ok ()) := by
  obtain ⟨u, v, tl, h⟩ := rationalText_iff.1 h
  unfold RatNum.fromString IStream.ofString
  rw [extract_iff.2 ⟨u, v, h⟩]
  rfl

/-- C33.  On every other text it throws the parsing exception. -/
theorem C33_rejects (s : List Char) (r0 : RatNum) (h : ∀ n d, ¬ IsRationalText s n d) :
    (RatNum.fromString s r0).2 = .throws .badParsing := by
  unfold RatNum.fromString IStream.ofString
  generalize h1 : RatNum.extract ⟨s, false⟩ r0 = r1
  obtain ⟨⟨tl, f⟩, ⟨n, d⟩⟩ := r1
  cases f with
  | true => rfl
  | false =>
    obtain ⟨u, v, hh⟩ := extract_iff.1 h1
    exact absurd (rationalText_iff.2 ⟨u, v, tl, hh⟩) (h n d)

example : IsRationalText " -12 / / +5x".toList (-12) 5 :=
  ⟨[' '], ['-', '1', '2'], [' '], [' '], [' '], ['+', '5'], ['x'], by decide, by unfold Blank; decide,
    ⟨['1', '2'], by decide, by decide, by decide⟩, ⟨['5'], by decide, by decide, by decide⟩, by decide,
    by decide, by decide⟩

/-! ### Printing -/

theorem digitChar : ∀ n : Nat, n < 10 →
    Char.ofNat (48 + n) ∈ digits ∧ digits.idxOf (Char.ofNat (48 + n)) = n := by decide

theorem decValue_snoc (a : List Char) (c : Char) :
    decValue (a ++ [c]) = 10 * decValue a + digits.idxOf c := by
  induction a with
  | nil => simp [decValue]
  | cons x xs ih =>
    rw [List.cons_append, decValue, ih, decValue, List.length_append, List.length_singleton]
    ring

theorem printNat_spec (n : Nat) :
    printNat n ≠ [] ∧ (∀ c ∈ printNat n, c ∈ digits) ∧ decValue (printNat n) = n := by
  induction n using Nat.strongRecOn with
  | _ n ih =>
    rw [printNat]
    by_cases h : n < 10
    · rw [if_pos h]
      obtain ⟨h1, h2⟩ := digitChar n h
      refine ⟨by simp, fun c hc => ?_, ?_⟩
      · rw [List.mem_singleton.1 hc]; exact h1
      · simp only [decValue, List.length_nil, pow_zero, mul_one, h2, Nat.add_zero]
    · rw [if_neg h]
      obtain ⟨h1, h2⟩ := digitChar (n % 10) (by omega)
      obtain ⟨_, i2, i3⟩ := ih (n / 10) (by omega)
      refine ⟨by simp, fun c hc => ?_, ?_⟩
      · rcases List.mem_append.1 hc with hc | hc
        · exact i2 c hc
        · rw [List.mem_singleton.1 hc]; exact h1
      · rw [decValue_snoc, i3, h2]; omega

theorem printLong_numeral (x : Int) : IsNumeral (printLong x) x := by
  obtain ⟨h1, h2, h3⟩ := printNat_spec x.natAbs
  refine ⟨printNat x.natAbs, h1, h2, ?_⟩
  unfold printLong
  by_cases h : x < 0
  · rw [if_pos h]; right; right; exact ⟨rfl, by rw [h3]; omega⟩
  · rw [if_neg h]; left; exact ⟨rfl, by rw [h3]; omega⟩

/-- C32.  The printed text is a numeral, two slashes, a numeral. -/
theorem C32_text_shape (r : RatNum) :
    ∃ t₁ t₂, RatNum.toText r = t₁ ++ ['/', '/'] ++ t₂ ∧ IsNumeral t₁ r.num ∧ IsNumeral t₂ r.den :=
  ⟨_, _, rfl, printLong_numeral _, printLong_numeral _⟩

/-- C32.  Parsing the printed text of any stored rational gives back its numerator and denominator. -/
theorem C32_round_trip (r r0 : RatNum) (hn : InLong r.num) (hd : InLong r.den) :
    RatNum.fromString (RatNum.toText r) r0 = (r, .ok ()) := by
  refine C33_accepts _ r.num r.den r0 ⟨[], printLong r.num, [], [], [], printLong r.den, [], ?_, ?_,
    printLong_numeral _, printLong_numeral _, hn, hd, ?_⟩
  · simp [RatNum.toText]
  · simp
  · simp

example : InLong (-H63) ∧ RatNum.fromString "-7//3".toList ⟨0, 1⟩ = (⟨-7, 3⟩, .ok ()) := by decide

end Bwsl
