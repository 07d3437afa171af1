import Verif.Cxx.FloatFormat
import Verif.Lemmas.Round
import Verif.Lemmas.NumOrder

/-! Rounding to a binary format: the results of Round.lean for binary64, at any precision. -/

namespace Bwsl.FloatFormat
open Bwsl.Spec

set_option linter.unusedSectionVars false

section
variable {K : Type} [Field K] [LinearOrder K] [IsStrictOrderedRing K] [FloorRing K] {f : FloatFormat}

theorem value_iff {x : K} : InFormat f x ↔ ∃ e, f.emin ≤ e ∧ Mult e x ∧ |x| ≤ (2 : K) ^ (e + f.prec) := by
  constructor
  · rintro ⟨m, e, hm, he, rfl⟩
    refine ⟨e, he, ⟨m, rfl⟩, ?_⟩
    rw [abs_mul, abs_of_pos (two_zpow_pos (K := K) e), zpow_add₀ two_ne_zero, mul_comm]
    refine mul_le_mul_of_nonneg_left ?_ (two_zpow_pos e).le
    have : ((|m| : Int) : K) ≤ ((2 ^ f.prec : Int) : K) := by exact_mod_cast hm
    rw [Int.cast_abs] at this
    refine this.trans ?_
    push_cast
    rw [zpow_natCast]
  · rintro ⟨e, he, ⟨m, rfl⟩, h⟩
    refine ⟨m, e, ?_, he, rfl⟩
    rw [abs_mul, abs_of_pos (two_zpow_pos (K := K) e), zpow_add₀ two_ne_zero, mul_comm] at h
    have h' := le_of_mul_le_mul_left h (two_zpow_pos e)
    have : ((|m| : Int) : K) ≤ ((2 ^ f.prec : Int) : K) := by
      rw [Int.cast_abs]; refine h'.trans ?_; push_cast; rw [zpow_natCast]
    exact_mod_cast this

theorem neg_value {x : K} (h : InFormat f x) : InFormat f (-x) := by
  obtain ⟨m, e, h1, h2, rfl⟩ := h
  exact ⟨-m, e, by rw [abs_neg]; exact h1, h2, by push_cast; ring⟩

theorem zero_value : InFormat f (0 : K) := ⟨0, 0, by simp, by have := f.emin_le; omega, by simp⟩

/-! ### The exponent -/

theorem fl_abs_lt_ulp (x : K) : |x| < (2 : K) ^ (f.ulpExp x + f.prec) := by
  have h := Int.lt_zpow_succ_log_self (R := K) (b := 2) (by norm_num) |x|
  push_cast at h
  refine h.trans_le (zpow_le_zpow_right₀ one_le_two ?_)
  unfold ulpExp; omega

theorem fl_ulpExp_ge (x : K) : f.emin ≤ f.ulpExp x := le_max_right _ _

theorem fl_ulpExp_cases (x : K) (hx : x ≠ 0) : f.ulpExp x = f.emin ∨ (2 : K) ^ (f.ulpExp x + (f.prec - 1)) ≤ |x| := by
  have h := Int.zpow_log_le_self (R := K) (b := 2) (by norm_num) (abs_pos.2 hx)
  push_cast at h
  by_cases h' : Int.log 2 |x| - (f.prec - 1) ≤ f.emin
  · left; unfold ulpExp; omega
  · right
    refine le_trans (le_of_eq ?_) h
    congr 1; unfold ulpExp; omega

theorem fl_ulpExp_mono {x y : K} (hx : x ≠ 0) (h : |x| ≤ |y|) : f.ulpExp x ≤ f.ulpExp y := by
  have := Int.log_mono_right (b := 2) (abs_pos.2 hx) h
  unfold ulpExp; omega

theorem fl_ulpExp_neg (x : K) : f.ulpExp (-x) = f.ulpExp x := by unfold ulpExp; rw [abs_neg]

/-! ### Rounding -/

theorem fl_neg (x : K) : f.rn (-x) = -f.rn x := by
  unfold rn; rw [fl_ulpExp_neg, neg_div, rint_neg]; push_cast; ring

theorem fl_of_mult {x : K} (h : Mult (f.ulpExp x) x) : f.rn x = x := by
  obtain ⟨m, hm⟩ := h
  have h0 := (two_zpow_pos (K := K) (f.ulpExp x)).ne'
  have : x / (2 : K) ^ f.ulpExp x = m := by rw [div_eq_iff h0]; exact hm
  unfold rn; rw [this, rint_intCast]; exact hm.symm

theorem fl_mult_ulp (x : K) : Mult (f.ulpExp x) (f.rn x) := ⟨_, rfl⟩

theorem fl_zero : f.rn (0 : K) = 0 := fl_of_mult ⟨0, by simp⟩

/-- Representable values are not changed. -/
theorem fl_value {x : K} (h : InFormat f x) : f.rn x = x := by
  have hprec := f.prec_ge
  by_cases hx : x = 0
  · rw [hx]; exact fl_zero
  obtain ⟨e, he, hm, hle⟩ := value_iff.1 h
  refine fl_of_mult ?_
  rcases fl_ulpExp_cases (f := f) x hx with hu | hu
  · exact hm.mono (by omega)
  · have h2 := hu.trans hle
    have : f.ulpExp x + (f.prec - 1) ≤ e + f.prec := (zpow_le_zpow_iff_right₀ one_lt_two).1 h2
    by_cases h3 : f.ulpExp x ≤ e
    · exact hm.mono h3
    · -- |x| is a power of two
      have h4 : f.ulpExp x = e + 1 := by omega
      have h5 : |x| = (2 : K) ^ (e + f.prec) := le_antisymm hle (by
        rw [h4] at hu; convert hu using 2; omega)
      have h6 : Mult (f.ulpExp x) ((2 : K) ^ (e + f.prec)) := mult_zpow (by omega)
      rcases abs_choice x with hx' | hx'
      · rw [hx'] at h5; rw [← h5] at h6; exact h6
      · rw [hx'] at h5; rw [← h5] at h6; have := h6.neg; rwa [neg_neg] at this

theorem fl_inFormat (x : K) : InFormat f (f.rn x) := by
  rw [value_iff]
  refine ⟨f.ulpExp x, fl_ulpExp_ge x, fl_mult_ulp x, ?_⟩
  have hp := two_zpow_pos (K := K) (f.ulpExp x)
  have h := fl_abs_lt_ulp (f := f) x
  rw [zpow_add₀ two_ne_zero, mul_comm] at h ⊢
  unfold rn
  rw [abs_mul, abs_of_pos hp]
  refine mul_le_mul_of_nonneg_right ?_ hp.le
  have h1 : |x / (2 : K) ^ f.ulpExp x| < (2 : K) ^ (f.prec : Int) := by
    rw [abs_div, abs_of_pos hp, div_lt_iff₀ hp]; exact h
  have h2 := rint_nearest (x / (2 : K) ^ f.ulpExp x)
  have ep : (2 : K) ^ (f.prec : Int) = ((2 ^ f.prec : Int) : K) := by push_cast; rw [zpow_natCast]
  rw [ep] at h1 ⊢
  obtain ⟨h1a, h1b⟩ := abs_lt.1 h1
  rw [abs_le]
  have h3 := h2 (2 ^ f.prec)
  have h4 := h2 (-2 ^ f.prec)
  generalize hr : ((rint (x / (2 : K) ^ f.ulpExp x) : Int) : K) = r at *
  push_cast at *
  constructor
  · by_contra hc
    push Not at hc
    rw [abs_of_pos (by linarith), abs_of_nonneg (by linarith)] at h4
    linarith
  · by_contra hc
    push Not at hc
    rw [abs_of_neg (by linarith), abs_of_nonpos (by linarith)] at h3
    linarith

theorem fl_err_ulp (x : K) : |x - f.rn x| ≤ (2 : K) ^ f.ulpExp x / 2 := by
  have hp := two_zpow_pos (K := K) (f.ulpExp x)
  have h := rint_err (x / (2 : K) ^ f.ulpExp x)
  have e : x - f.rn x = (x / (2 : K) ^ f.ulpExp x - rint (x / (2 : K) ^ f.ulpExp x)) * (2 : K) ^ f.ulpExp x := by
    unfold rn; field_simp
  rw [e, abs_mul, abs_of_pos hp]
  calc _ ≤ 1 / 2 * (2 : K) ^ f.ulpExp x := mul_le_mul_of_nonneg_right h hp.le
    _ = _ := by ring

/-- No multiple of the unit in the last place is nearer. -/
theorem fl_nearest_mult (x z : K) (hz : Mult (f.ulpExp x) z) : |x - f.rn x| ≤ |x - z| := by
  have hp := two_zpow_pos (K := K) (f.ulpExp x)
  obtain ⟨n, rfl⟩ := hz
  have h := rint_nearest (x / (2 : K) ^ f.ulpExp x) n
  have e : x - f.rn x = (x / (2 : K) ^ f.ulpExp x - rint (x / (2 : K) ^ f.ulpExp x)) * (2 : K) ^ f.ulpExp x := by
    unfold rn; field_simp
  have e' : x - n * (2 : K) ^ f.ulpExp x = (x / (2 : K) ^ f.ulpExp x - n) * (2 : K) ^ f.ulpExp x := by field_simp
  rw [e, e', abs_mul, abs_mul]
  exact mul_le_mul_of_nonneg_right h (abs_nonneg _)

/-- No representable value is nearer. -/
theorem fl_nearest (x z : K) (hz : InFormat f z) : |x - f.rn x| ≤ |x - z| := by
  have hprec := f.prec_ge
  by_cases hx : x = 0
  · rw [hx, fl_zero]; simp
  obtain ⟨e, he, hm, hle⟩ := value_iff.1 hz
  by_cases h : f.ulpExp x ≤ e
  · exact fl_nearest_mult x z (hm.mono h)
  · have hu : (2 : K) ^ (f.ulpExp x + (f.prec - 1)) ≤ |x| := (fl_ulpExp_cases (f := f) x hx).resolve_left (by omega)
    have hz' : |z| ≤ (2 : K) ^ (f.ulpExp x + (f.prec - 1)) :=
      hle.trans (zpow_le_zpow_right₀ one_le_two (by omega))
    have hM : Mult (f.ulpExp x) ((2 : K) ^ (f.ulpExp x + (f.prec - 1))) := mult_zpow (by omega)
    have step : |x - f.rn x| ≤ |x| - (2 : K) ^ (f.ulpExp x + (f.prec - 1)) := by
      rcases le_total 0 x with h0 | h0
      · have := fl_nearest_mult x _ hM
        rw [abs_of_nonneg h0] at hu ⊢
        rwa [abs_of_nonneg (a := x - (2 : K) ^ (f.ulpExp x + (f.prec - 1))) (by linarith)] at this
      · have := fl_nearest_mult x _ hM.neg
        rw [abs_of_nonpos h0] at hu ⊢
        rw [abs_of_nonpos (a := x - -(2 : K) ^ (f.ulpExp x + (f.prec - 1))) (by linarith)] at this
        linarith
    have tri : |x| - |z| ≤ |x - z| := abs_sub_abs_le_abs_sub x z
    linarith

theorem fl_mono {x y : K} (h : x ≤ y) : f.rn x ≤ f.rn y := by
  rcases h.eq_or_lt with rfl | h
  · exact le_rfl
  by_contra hc
  push Not at hc
  have h1 := fl_nearest (f := f) x _ (fl_inFormat y)
  have h2 := fl_nearest (f := f) y _ (fl_inFormat x)
  -- the midpoint of the two results separates x and y the wrong way round
  have hx : (f.rn x + f.rn y) / 2 ≤ x := by
    by_contra h3
    push Not at h3
    rw [abs_of_neg (by linarith : x - f.rn x < 0)] at h1
    rcases abs_cases (x - f.rn y) with ⟨e, _⟩ | ⟨e, _⟩ <;> rw [e] at h1 <;> linarith
  have hy : y ≤ (f.rn x + f.rn y) / 2 := by
    by_contra h3
    push Not at h3
    rw [abs_of_pos (by linarith : 0 < y - f.rn y)] at h2
    rcases abs_cases (y - f.rn x) with ⟨e, _⟩ | ⟨e, _⟩ <;> rw [e] at h2 <;> linarith
  linarith

/-- Rounding keeps multiples of a power of two. -/
theorem fl_mult {x : K} {k : Int} (h : Mult k x) : Mult k (f.rn x) := by
  by_cases hk : k ≤ f.ulpExp x
  · exact (fl_mult_ulp x).mono hk
  · rw [fl_of_mult (h.mono (by omega))]; exact h

theorem rel_of_normal {x : K} (hu : (2 : K) ^ (f.ulpExp x + (f.prec - 1)) ≤ |x|) : |x - f.rn x| ≤ |x| / 2 ^ f.prec := by
  refine (fl_err_ulp x).trans ?_
  have h2 := f.prec_ge
  rw [zpow_add₀ two_ne_zero, show ((f.prec : Int) - 1) = ((f.prec - 1 : Nat) : Int) by omega, zpow_natCast] at hu
  rw [div_le_div_iff₀ two_pos (by positivity)]
  calc (2 : K) ^ f.ulpExp x * 2 ^ f.prec = ((2 : K) ^ f.ulpExp x * 2 ^ (f.prec - 1)) * 2 := by
        rw [mul_assoc, ← pow_succ]; congr 2; omega
    _ ≤ |x| * 2 := mul_le_mul_of_nonneg_right hu zero_le_two

/-- Relative error of rounding a sum (or any multiple of the smallest number). -/
theorem fl_rel {x : K} (h : Mult f.emin x) : |x - f.rn x| ≤ |x| / 2 ^ f.prec := by
  by_cases hx : x = 0
  · rw [hx, fl_zero]; simp
  rcases fl_ulpExp_cases (f := f) x hx with hu | hu
  · rw [fl_of_mult (by rw [hu]; exact h), sub_self, abs_zero]; positivity
  · exact rel_of_normal hu

/-- The error of rounding. -/
theorem fl_abs_err (x : K) : |x - f.rn x| ≤ |x| / 2 ^ f.prec + (2 : K) ^ (f.emin - 1) := by
  have hp := two_zpow_pos (K := K) (f.emin - 1)
  by_cases hx : x = 0
  · rw [hx, fl_zero, sub_self, abs_zero, zero_div, zero_add]; exact hp.le
  rcases fl_ulpExp_cases (f := f) x hx with hu | hu
  · have := fl_err_ulp (f := f) x
    rw [hu] at this
    have e : (2 : K) ^ f.emin / 2 = (2 : K) ^ (f.emin - 1) := by rw [zpow_sub₀ two_ne_zero, zpow_one]
    rw [e] at this
    have : 0 ≤ |x| / 2 ^ f.prec := by positivity
    linarith
  · have := rel_of_normal hu
    linarith

/-- Relative error of rounding a number that is not subnormal. -/
theorem fl_rel_normal {x : K} (h : (2 : K) ^ (f.emin + (f.prec - 1)) ≤ |x|) : |x - f.rn x| ≤ |x| / 2 ^ f.prec := by
  have hx : x ≠ 0 := by
    rintro rfl
    rw [abs_zero] at h
    exact absurd h (not_le.2 (two_zpow_pos _))
  refine rel_of_normal ?_
  rcases fl_ulpExp_cases (f := f) x hx with hu | hu
  · rw [hu]; exact h
  · exact hu

theorem value_mult {x : K} (h : InFormat f x) : Mult f.emin x := by
  obtain ⟨e, he, hm, _⟩ := value_iff.1 h
  exact hm.mono he

theorem int_value {n : Int} (h : |n| ≤ 2 ^ f.prec) : InFormat f (n : K) :=
  ⟨n, 0, h, by have := f.emin_le; omega, by simp⟩

theorem one_value : InFormat f (1 : K) := by
  have := int_value (f := f) (K := K) (n := 1) (by rw [abs_one]; exact one_le_pow₀ (by norm_num))
  exact_mod_cast this

theorem two_zpow_value {e : Int} (h : f.emin ≤ e) : InFormat f ((2 : K) ^ e) :=
  ⟨1, e, by rw [abs_one]; exact one_le_pow₀ (by norm_num), h, by simp⟩

theorem fl_nonneg {x : K} (h : 0 ≤ x) : 0 ≤ f.rn x := by
  have := fl_mono (f := f) h
  rwa [fl_zero] at this

theorem fl_abs (x : K) : |f.rn x| = f.rn |x| := by
  rcases abs_cases x with ⟨h, h0⟩ | ⟨h, h0⟩ <;> rw [h]
  · exact abs_of_nonneg (fl_nonneg h0)
  · have := fl_nonneg (f := f) (neg_nonneg.2 h0.le)
    rw [fl_neg] at this ⊢
    exact abs_of_nonpos (by linarith)

theorem fl_abs_le {x y : K} (hy : InFormat f y) (h : |x| ≤ y) : |f.rn x| ≤ y := by
  rw [fl_abs]
  have := fl_mono (f := f) h
  rwa [fl_value hy] at this

/-! ### The arithmetic of a format -/

variable {A : Arith K}

theorem rnd_zero (hA : A.IsFormat f) : A.rnd 0 = some 0 := by
  rw [hA, rnd, fl_zero, abs_zero, if_pos (two_zpow_pos _)]

theorem rnd_finite (hA : A.IsFormat f) {x : K} (h : FiniteIn f x) : A.rnd x = some x := by
  rw [hA, rnd, fl_value h.1, if_pos h.2]

theorem round_le (hA : A.IsFormat f) {x : K} {e : Int} (he : f.emin ≤ e) (he' : e < f.emax) (h : |x| ≤ (2 : K) ^ e) :
    Num.round A x = .fin (f.rn x) := by
  refine Num.round_of ?_
  rw [hA, rnd, if_pos]
  exact (fl_abs_le (two_zpow_value he) h).trans_lt (zpow_lt_zpow_right₀ one_lt_two he')

theorem mono_of_format (hA : A.IsFormat f) : A.Mono := by
  intro x y h
  have hr := fl_mono (f := f) h
  have e : ∀ z : K, Num.round A z = if |f.rn z| < (2 : K) ^ f.emax then .fin (f.rn z) else .inf (decide (z < 0)) := by
    intro z
    unfold Num.round
    rw [hA, rnd]
    split <;> rename_i h <;> split at h <;> simp_all
  -- a value that overflows is far on the side of its sign
  have sgn : ∀ z : K, ¬ |f.rn z| < (2 : K) ^ f.emax → z < 0 → f.rn z ≤ -(2 : K) ^ f.emax := by
    intro z hz h0
    have h1 : f.rn z ≤ 0 := by have := fl_mono (f := f) h0.le; rwa [fl_zero] at this
    rw [abs_of_nonpos h1] at hz
    linarith [not_lt.1 hz]
  have sgn' : ∀ z : K, ¬ |f.rn z| < (2 : K) ^ f.emax → ¬ z < 0 → (2 : K) ^ f.emax ≤ f.rn z := by
    intro z hz h0
    rw [abs_of_nonneg (fl_nonneg (not_lt.1 h0))] at hz
    exact not_lt.1 hz
  rw [e, e]
  by_cases hx : |f.rn x| < (2 : K) ^ f.emax
  · rw [if_pos hx]
    by_cases hy : |f.rn y| < (2 : K) ^ f.emax
    · rw [if_pos hy, Num.le_fin]; exact decide_eq_true hr
    · rw [if_neg hy, Num.le_fin_inf]
      by_cases h0 : y < 0
      · have := sgn y hy h0
        exact absurd (abs_lt.1 hx).1 (not_lt.2 (hr.trans this))
      · simp [h0]
  · rw [if_neg hx]
    by_cases hy : |f.rn y| < (2 : K) ^ f.emax
    · rw [if_pos hy, Num.le_inf_fin]
      by_cases h0 : x < 0
      · simp [h0]
      · have := sgn' x hx h0
        exact absurd (abs_lt.1 hy).2 (not_lt.2 (this.trans hr))
    · rw [if_neg hy, Num.le_inf_inf]
      by_cases h0 : y < 0
      · simp [h.trans_lt h0]
      · simp [h0]

/-- The format `double` is that of the other properties. -/
theorem isFormat_double : A.IsFormat FloatFormat.double ↔ A.IsBinary64 := by
  have hu : ∀ x : K, FloatFormat.double.ulpExp x = Bwsl.ulpExp x := fun x => rfl
  have hr : ∀ x : K, FloatFormat.double.rn x = Bwsl.rn x := fun x => rfl
  constructor <;> intro h x <;> rw [h x] <;> rfl

end

end Bwsl.FloatFormat
