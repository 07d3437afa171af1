import Verif.Props.RationalParsed
import Verif.Props.RationalTypesText

/-! Property C167 for every integer type. -/

namespace Bwsl
open Spec CInt

/-- The text begins, after blanks, with a numeral that a variable of type `t` reads as `n`. -/
def Spec.BeginsWithAt (t : CInt) (s : List Char) (n : Int) : Prop :=
  ∃ w tx v tl, s = w ++ tx ++ tl ∧ (∀ c ∈ w, Blank c) ∧ IsNumeral tx v ∧ ReadsAs t v n ∧ (∀ c ∈ tl.head?, c ∉ digits)

theorem convertT_failed {t : CInt} {cs : List Char} {old : Int} (h : (IStream.convertT t old cs).2.fail = true) :
    (IStream.convertT t old cs).1 ∈ [old, 0, t.lo, t.hi - 1] := by
  cases cs with
  | nil => simp [IStream.convertT]
  | cons c cs =>
    unfold IStream.convertT at h ⊢
    simp only at h ⊢
    split_ifs at h ⊢ <;> simp_all

theorem readT_failed {t : CInt} {s : List Char} {old : Int} (h : (IStream.readT t ⟨s, false⟩ old).2.fail = true) :
    (IStream.readT t ⟨s, false⟩ old).1 ∈ [old, 0, t.lo, t.hi - 1] := by
  unfold IStream.readT at h ⊢
  simp only [Bool.false_eq_true, if_false] at h ⊢
  exact convertT_failed h

/-- C167 at every integer type of at least 32 bits: what FromString leaves when it throws. -/
theorem C167_types_partial (t : CInt) (ht : Wide t) (s : List Char) (r0 : RatNum)
    (h : (RatT.fromString t s r0).2 = .throws .badParsing) :
    (RatT.fromString t s r0).1.den ∈ [r0.den, 0, t.lo, t.hi - 1] ∧
    (∀ n, BeginsWithAt t s n → (RatT.fromString t s r0).1.num = n) ∧
    ((¬ ∃ n, BeginsWithAt t s n) → (RatT.fromString t s r0).1.den = r0.den ∧
      (RatT.fromString t s r0).1.num ∈ [r0.num, 0, t.lo, t.hi - 1]) ∧
    ((∀ c ∈ s, Blank c) → (RatT.fromString t s r0).1 = r0) := by
  obtain ⟨a, b⟩ := r0
  have hthrow : (RatT.extract t ⟨s, false⟩ ⟨a, b⟩).1.fail = true := by
    unfold RatT.fromString IStream.ofString at h
    by_contra hc
    simp only [hc] at h
    exact absurd h (by simp)
  have hfst : (RatT.fromString t s ⟨a, b⟩).1 = (RatT.extract t ⟨s, false⟩ ⟨a, b⟩).2 := rfl
  rw [hfst]
  have hbegin : ∀ n, BeginsWithAt t s n → ∃ tl, IStream.readT t ⟨s, false⟩ a = (n, ⟨tl, false⟩) := by
    rintro n ⟨w, tx, v, tl, h⟩
    exact ⟨tl, (readT_iff ht.standard).2 ⟨w, tx, v, h⟩⟩
  have hblank : (∀ c ∈ s, Blank c) → IStream.readT t ⟨s, false⟩ a = (a, ⟨[], true⟩) := by
    intro hb
    have : s.dropWhile isSpace = [] := by
      have := (takeWhile_split (p := isSpace) (a := s) (b := []) (fun c hc => isSpace_iff.2 (hb c hc)) (by simp)).2
      rwa [List.append_nil] at this
    unfold IStream.readT
    simp only [Bool.false_eq_true, if_false, this]
    rfl
  generalize hr : IStream.readT t ⟨s, false⟩ a = p at hbegin hblank
  obtain ⟨n1, ⟨u, f⟩⟩ := p
  unfold RatT.extract at hthrow ⊢
  simp only [hr] at hthrow ⊢
  cases f with
  | true =>
    have hseps : RatNum.readSeps ⟨u, true⟩ = (⟨u, true⟩, false) := by
      unfold RatNum.readSeps
      simp only [readChar_fail (s := ⟨u, true⟩) rfl]
      rw [if_pos (by decide)]
    have hn : n1 ∈ [a, 0, t.lo, t.hi - 1] := by
      have := readT_failed (t := t) (s := s) (old := a) (by rw [hr])
      rwa [hr] at this
    simp only [hseps]
    refine ⟨by simp, fun n hn => ?_, fun _ => ⟨rfl, hn⟩, fun hb => ?_⟩
    · obtain ⟨tl, ht⟩ := hbegin n hn
      simp at ht
    · have := hblank hb
      simp only [Prod.mk.injEq] at this
      simp [this.1]
  | false =>
    obtain ⟨w, tx, v, hx⟩ := (readT_iff ht.standard).1 hr
    have hx' : BeginsWithAt t s n1 := ⟨w, tx, v, u, hx⟩
    have hnum : ∀ n, BeginsWithAt t s n → n1 = n := by
      intro n hn
      obtain ⟨tl, ht⟩ := hbegin n hn
      simp only [Prod.mk.injEq] at ht
      exact ht.1
    have hno : (∀ c ∈ s, Blank c) → False := fun hb => by
      have := hblank hb
      simp at this
    generalize hs : RatNum.readSeps ⟨u, false⟩ = q at hthrow ⊢
    obtain ⟨⟨v, g⟩, go⟩ := q
    cases go with
    | false => exact ⟨by simp, hnum, fun hne => absurd ⟨n1, hx'⟩ hne, fun hb => (hno hb).elim⟩
    | true =>
      simp only [if_true] at hthrow ⊢
      refine ⟨?_, hnum, fun hne => absurd ⟨n1, hx'⟩ hne, fun hb => (hno hb).elim⟩
      cases g with
      | true => rw [readT_fail rfl]; simp
      | false => exact readT_failed hthrow

/-- C167 at every integer type: whatever the text, the fields stay in the range of the type. -/
theorem C167_range (t : CInt) (ht : Wide t) (s : List Char) (r0 : RatNum) (hn : t.Has r0.num) (hd : t.Has r0.den) :
    t.Has (RatT.fromString t s r0).1.num ∧ t.Has (RatT.fromString t s r0).1.den := by
  have h0 : t.Has 0 ∧ t.Has t.lo ∧ t.Has (t.hi - 1) := by
    have := t.lo_nonpos
    have := hi_ge ht.standard
    unfold CInt.Has
    omega
  have hlist : ∀ z x, t.Has z → x ∈ [z, 0, t.lo, t.hi - 1] → t.Has x := by
    intro z x hz hx
    simp only [List.mem_cons, List.not_mem_nil, or_false] at hx
    rcases hx with rfl | rfl | rfl | rfl
    · exact hz
    · exact h0.1
    · exact h0.2.1
    · exact h0.2.2
  rcases h : RatT.fromString t s r0 with ⟨r, e⟩
  by_cases hok : ∃ n d, IsRationalTextAt t s n d
  · obtain ⟨n, d, h1⟩ := hok
    have := C137_accepts t ht s n d r0 h1
    rw [this] at h
    cases h
    exact C137_range t ht s r0 _ this
  · have hthr := C137_rejects t ht s r0 (fun n d h => hok ⟨n, d, h⟩)
    obtain ⟨h1, h2, h3, -⟩ := C167_types_partial t ht s r0 hthr
    rw [h] at h1 h2 h3
    refine ⟨?_, hlist _ _ hd h1⟩
    by_cases hb : ∃ n, BeginsWithAt t s n
    · obtain ⟨n, hb⟩ := hb
      rw [h2 n hb]
      obtain ⟨w, tx, v, tl, -, -, -, hv, -⟩ := hb
      cases hs : t.signed
      · exact ((readsAs_unsigned hs).1 hv).2.1
      · obtain ⟨h1, rfl⟩ := (readsAs_signed hs).1 hv; exact h1
    · exact hlist _ _ hn (h3 hb).2

/-- The cases of C167 occur at an unsigned type: "-5/2" begins with a number read as 2³² - 5. -/
example : BeginsWithAt tUInt "-5/2".toList (2 ^ 32 - 5) ∧
    (RatT.fromString tUInt "-5/2".toList ⟨1, 1⟩) = (⟨2 ^ 32 - 5, 1⟩, .throws .badParsing) := by
  refine ⟨⟨[], ['-', '5'], -5, ['/', '2'], rfl, by simp, ⟨['5'], by decide⟩, ?_, by decide⟩, by decide⟩
  rw [readsAs_unsigned (by decide)]
  exact ⟨by decide, by decide, ⟨-1, by decide⟩⟩

end Bwsl
