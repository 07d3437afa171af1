import Verif.Props.RationalText
import Verif.Props.Rational

/-! Property C167: what FromString leaves in the rational. -/

namespace Bwsl
open Spec

/-- The number in lowest terms, with a denominator. -/
def Spec.LowestTerms (r : RatNum) : Prop := Int.gcd r.num r.den = 1 ∧ r.den ≠ 0

/-- The text begins, after blanks, with a numeral of `n`, a `long`. -/
def Spec.BeginsWith (s : List Char) (n : Int) : Prop :=
  ∃ w t tl, s = w ++ t ++ tl ∧ (∀ c ∈ w, Blank c) ∧ IsNumeral t n ∧ InLong n ∧ (∀ c ∈ tl.head?, c ∉ digits)

theorem convert_failed {cs : List Char} {old : Int} (h : (IStream.convert old cs).2.fail = true) :
    (IStream.convert old cs).1 ∈ [old, 0, -H63, H63 - 1] := by
  cases cs with
  | nil => simp [IStream.convert]
  | cons c cs =>
    unfold IStream.convert at h ⊢
    simp only at h ⊢
    split_ifs at h ⊢ <;> simp_all

theorem readLong_failed {s : List Char} {old : Int} (h : (IStream.readLong ⟨s, false⟩ old).2.fail = true) :
    (IStream.readLong ⟨s, false⟩ old).1 ∈ [old, 0, -H63, H63 - 1] := by
  unfold IStream.readLong at h ⊢
  simp only [Bool.false_eq_true, if_false] at h ⊢
  exact convert_failed h

/-- C167, what holds.  When FromString throws, the denominator is the old one, 0 or a limit of `long`.  The numerator is the number with
which the text begins; if there is none, the denominator is the old one and the numerator is the old one, 0 or a limit of `long`.  If the
text is blank the rational is unchanged. -/
theorem C167_left_partial (s : List Char) (r0 : RatNum) (h : (RatNum.fromString s r0).2 = .throws .badParsing) :
    (RatNum.fromString s r0).1.den ∈ [r0.den, 0, -H63, H63 - 1] ∧
    (∀ n, BeginsWith s n → (RatNum.fromString s r0).1.num = n) ∧
    ((¬ ∃ n, BeginsWith s n) → (RatNum.fromString s r0).1.den = r0.den ∧
      (RatNum.fromString s r0).1.num ∈ [r0.num, 0, -H63, H63 - 1]) ∧
    ((∀ c ∈ s, Blank c) → (RatNum.fromString s r0).1 = r0) := by
  obtain ⟨a, b⟩ := r0
  have hthrow : (RatNum.extract ⟨s, false⟩ ⟨a, b⟩).1.fail = true := by
    unfold RatNum.fromString IStream.ofString at h
    by_contra hc
    simp only [hc] at h
    exact absurd h (by simp)
  have hfst : (RatNum.fromString s ⟨a, b⟩).1 = (RatNum.extract ⟨s, false⟩ ⟨a, b⟩).2 := rfl
  rw [hfst]
  have hbegin : ∀ n, BeginsWith s n → ∃ tl, IStream.readLong ⟨s, false⟩ a = (n, ⟨tl, false⟩) := by
    rintro n ⟨w, t, tl, h⟩
    exact ⟨tl, readLong_iff.2 ⟨w, t, h⟩⟩
  have hblank : (∀ c ∈ s, Blank c) → IStream.readLong ⟨s, false⟩ a = (a, ⟨[], true⟩) := by
    intro hb
    have : s.dropWhile isSpace = [] := by
      have := (takeWhile_split (p := isSpace) (a := s) (b := []) (fun c hc => isSpace_iff.2 (hb c hc)) (by simp)).2
      rwa [List.append_nil] at this
    unfold IStream.readLong
    simp only [Bool.false_eq_true, if_false, this]
    rfl
  generalize hr : IStream.readLong ⟨s, false⟩ a = p at hbegin hblank
  obtain ⟨n1, ⟨u, f⟩⟩ := p
  unfold RatNum.extract at hthrow ⊢
  simp only [hr] at hthrow ⊢
  cases f with
  | true =>
    have hseps : RatNum.readSeps ⟨u, true⟩ = (⟨u, true⟩, false) := by
      unfold RatNum.readSeps
      simp only [readChar_fail (s := ⟨u, true⟩) rfl]
      rw [if_pos (by decide)]
    have hn : n1 ∈ [a, 0, -H63, H63 - 1] := by
      have := readLong_failed (s := s) (old := a) (by rw [hr])
      rwa [hr] at this
    simp only [hseps]
    refine ⟨by simp, fun n hn => ?_, fun _ => ⟨rfl, hn⟩, fun hb => ?_⟩
    · obtain ⟨tl, ht⟩ := hbegin n hn
      simp at ht
    · have := hblank hb
      simp only [Prod.mk.injEq] at this
      simp [this.1]
  | false =>
    obtain ⟨w, t, hx⟩ := readLong_iff.1 hr
    have hx' : BeginsWith s n1 := ⟨w, t, u, hx⟩
    have hnum : ∀ n, BeginsWith s n → n1 = n := by
      intro n hn
      obtain ⟨tl, ht⟩ := hbegin n hn
      simp only [Prod.mk.injEq] at ht
      exact ht.1
    have hno : (∀ c ∈ s, Blank c) → False := fun hb => by
      have := hblank hb
      simp at this
    generalize hs : RatNum.readSeps ⟨u, false⟩ = q at hthrow ⊢
    obtain ⟨⟨v, g⟩, go⟩ := q
    cases go with
    | false => exact ⟨by simp, hnum, fun hne => absurd ⟨n1, hx'⟩ hne, fun hb => (hno hb).elim⟩
    | true =>
      simp only [if_true] at hthrow ⊢
      refine ⟨?_, hnum, fun hne => absurd ⟨n1, hx'⟩ hne, fun hb => (hno hb).elim⟩
      cases g with
      | true => rw [readLong_fail rfl]; simp
      | false => exact readLong_failed hthrow

/-- C167, what holds.  What has been parsed is in lowest terms exactly if the text was; `Simplify` makes it what the constructor makes of
the two numbers, in lowest terms with the same value unless the denominator is 0. -/
theorem C167_simplify_partial (s : List Char) (n d : Int) (r0 : RatNum) (h : IsRationalText s n d) :
    (LowestTerms (RatNum.fromString s r0).1 ↔ Int.gcd n d = 1 ∧ d ≠ 0) ∧
    (RatNum.fromString s r0).1.simplify = RatNum.new n d ∧
    (d ≠ 0 → ∀ r, (RatNum.fromString s r0).1.simplify = .ok r → LowestTerms r ∧ r.val = frac n d) := by
  rw [C33_accepts s n d r0 h]
  refine ⟨Iff.rfl, rfl, fun hd r hr => ?_⟩
  obtain ⟨w0, t1, w1, w2, w3, t2, rest, _, _, _, _, h3, h4, _⟩ := h
  obtain ⟨a, b, c, _⟩ := C26_value_lowest_terms n d h3 h4 hd r hr
  exact ⟨⟨b, c⟩, a⟩

/-- C167 is violated: 2//4 is not reduced, and 1//0 is accepted, after which `IsInt` and the conversion to an integer divide by zero. -/
theorem C167_lowest_violated (r0 : RatNum) :
    RatNum.fromString "2//4".toList r0 = (⟨2, 4⟩, .ok ()) ∧ ¬ LowestTerms ⟨2, 4⟩ ∧
    RatNum.fromString "1//0".toList r0 = (⟨1, 0⟩, .ok ()) ∧ RatNum.isInt ⟨1, 0⟩ = .ub .divByZero ∧
    RatNum.toInt ⟨1, 0⟩ = .ub .divByZero := by
  obtain ⟨a, b⟩ := r0
  refine ⟨rfl, fun h => absurd h.1 (by decide), rfl, by decide, by decide⟩

/-- C167 is violated: after a text that is refused the numerator is that of the text, or 0, and the denominator may be 0 or a limit. -/
theorem C167_unchanged_violated (r0 : RatNum) :
    RatNum.fromString "5/2".toList r0 = (⟨5, r0.den⟩, .throws .badParsing) ∧
    RatNum.fromString "x".toList r0 = (⟨0, r0.den⟩, .throws .badParsing) ∧
    RatNum.fromString "5//x".toList r0 = (⟨5, 0⟩, .throws .badParsing) ∧
    RatNum.fromString "5//9223372036854775808".toList r0 = (⟨5, H63 - 1⟩, .throws .badParsing) := by
  obtain ⟨a, b⟩ := r0
  exact ⟨rfl, rfl, rfl, rfl⟩
/-- The cases of C167 occur: "5/2" begins with 5 and is refused, "x" begins with no number. -/
example (r0 : RatNum) : BeginsWith "5/2".toList 5 ∧ (RatNum.fromString "5/2".toList r0).2 = .throws .badParsing ∧
    IsRationalText "2//4".toList 2 4 := by
  refine ⟨⟨[], ['5'], ['/', '2'], rfl, by simp, ⟨['5'], by decide⟩, by decide, by decide⟩, by rw [(C167_unchanged_violated r0).1], ?_⟩
  exact ⟨[], ['2'], [], [], [], ['4'], [], rfl, by simp, ⟨['2'], by decide⟩, ⟨['4'], by decide⟩, by decide, by decide, by simp⟩

end Bwsl
