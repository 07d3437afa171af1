import Verif.Model.LogSpaceFloat
import Verif.Props.Formats
import Verif.Props.LogSpaceDouble

/-! Property C155: logarithmically spaced values for `float`, `double` and `long double`. -/

namespace Bwsl
open Spec FloatFormat

/-- Arithmetic of a floating-point format with correctly rounded elementary functions. -/
structure Spec.RoundsTo (A : Arith ℝ) (f : FloatFormat) : Prop where
  format : A.IsFormat f
  exp : A.exp = Real.exp
  log : A.log = Real.log
  pow : A.pow = Real.rpow

/-- The interval from `a` to `b` is within the normal numbers of the format, away from overflow. -/
structure Spec.LogRange (f : FloatFormat) (a b : ℝ) : Prop where
  normal : (2 : ℝ) ^ (f.emin + (f.prec - 1)) ≤ a
  top : b ≤ (2 : ℝ) ^ (f.emax - 2)
  ratio : b / a ≤ (2 : ℝ) ^ (f.emax - 2)

section Errors
variable {f : FloatFormat} {p : Nat}

theorem two_pow_le (h : p ≤ f.prec) : (1 : ℝ) / 2 ^ f.prec ≤ 1 / 2 ^ p :=
  one_div_le_one_div_of_le (by positivity) (pow_le_pow_right₀ one_le_two h)

theorem unit_small (h : 11 ≤ p) : (1 : ℝ) / 2 ^ p ≤ 1 / 2048 := by
  rw [show (2048 : ℝ) = 2 ^ 11 by norm_num]
  exact one_div_le_one_div_of_le (by positivity) (pow_le_pow_right₀ one_le_two h)

theorem fl_err_unit (h : p ≤ f.prec) (x : ℝ) : |f.rn x - x| ≤ 1 / 2 ^ p * |x| + (1 / 2 ^ p) ^ 2 := by
  rw [abs_sub_comm]
  refine (fl_abs_err x).trans (add_le_add ?_ ?_)
  · rw [div_eq_mul_one_div, mul_comm]
    exact mul_le_mul_of_nonneg_right (two_pow_le h) (abs_nonneg _)
  · have e : ((1 : ℝ) / 2 ^ p) ^ 2 = (2 : ℝ) ^ (-(2 * p : Nat) : Int) := by
      rw [zpow_neg, zpow_natCast, pow_mul, one_div, inv_pow, ← pow_mul, ← pow_mul, mul_comm]
    rw [e]
    refine zpow_le_zpow_right₀ one_le_two ?_
    have := f.emin_le
    push_cast
    omega

theorem log_near_unit {r u : ℝ} (hu : u ≤ 1 / 2048) (h : |r - 1| ≤ u) : |Real.log r| ≤ 2 * u := by
  obtain ⟨h1, h2⟩ := abs_le.1 h
  have hu0 : 0 ≤ u := (abs_nonneg _).trans h
  have hr : 0 < r := by linarith
  rw [abs_le]
  constructor
  · refine le_trans ?_ (Real.one_sub_inv_le_log_of_pos hr)
    have : r⁻¹ ≤ 1 + 2 * u := by
      rw [inv_le_iff_one_le_mul₀ hr]
      nlinarith
    linarith
  · have := Real.log_le_sub_one_of_pos hr
    linarith

/-- Rounding a positive normal number changes its logarithm by little. -/
theorem log_fl (hp : 11 ≤ p) (h : p ≤ f.prec) {x : ℝ} (hx : (2 : ℝ) ^ (f.emin + (f.prec - 1)) ≤ x) :
    0 < f.rn x ∧ |Real.log (f.rn x) - Real.log x| ≤ 2 * (1 / 2 ^ p) := by
  have h0 : 0 < x := (two_zpow_pos _).trans_le hx
  have h1 := fl_rel_normal (f := f) (x := x) (by rwa [abs_of_pos h0])
  have hu := unit_small hp
  rw [abs_of_pos h0] at h1
  have h2 : |x - f.rn x| ≤ x * (1 / 2 ^ p) := by
    refine h1.trans ?_
    rw [div_eq_mul_one_div]
    exact mul_le_mul_of_nonneg_left (two_pow_le h) h0.le
  generalize (1 : ℝ) / 2 ^ p = u at *
  obtain ⟨h3, h4⟩ := abs_le.1 h2
  have hxu : x * u ≤ x * (1 / 2048) := mul_le_mul_of_nonneg_left hu h0.le
  have hr : 0 < f.rn x := by linarith
  refine ⟨hr, ?_⟩
  rw [← Real.log_div hr.ne' h0.ne']
  refine log_near_unit hu ?_
  rw [abs_le]
  constructor
  · rw [neg_le_sub_iff_le_add, ← sub_le_iff_le_add, le_div_iff₀ h0]; linarith
  · rw [sub_le_iff_le_add, div_le_iff₀ h0]; linarith

theorem normal_one {x : ℝ} (h : 1 ≤ x) : (2 : ℝ) ^ (f.emin + (f.prec - 1)) ≤ x := by
  refine (zpow_le_one_of_nonpos₀ one_le_two ?_).trans h
  have := f.emin_le
  have := f.prec_ge
  omega

theorem one_le_fl {x : ℝ} (h : 1 ≤ x) : 1 ≤ f.rn x := by
  have := fl_mono (f := f) h
  rwa [fl_value one_value] at this

/-- One more rounding of an approximation. -/
theorem round_step {x x' T S u α β : ℝ} (hu0 : 0 ≤ u) (hu : u ≤ 1 / 2048) (hT : |T| ≤ S) (hα : α ≤ 8) (hβ : β ≤ 10)
    (h : |x - T| ≤ α * (u * S) + β * u) (h' : |x' - x| ≤ u * |x| + u ^ 2) :
    |x' - T| ≤ (α + 1 + 1 / 256) * (u * S) + (β + 1 / 100) * u := by
  have hS : 0 ≤ S := (abs_nonneg _).trans hT
  have hw : 0 ≤ u * S := mul_nonneg hu0 hS
  have hx : |x| ≤ S + (α * (u * S) + β * u) := by
    have e : x = T + (x - T) := by ring
    rw [e]
    exact (abs_add_le _ _).trans (add_le_add hT h)
  have e : x' - T = (x' - x) + (x - T) := by ring
  rw [e]
  refine (abs_add_le _ _).trans ?_
  have h1 : u * |x| ≤ u * (S + (α * (u * S) + β * u)) := mul_le_mul_of_nonneg_left hx hu0
  have h2 : α * (u * (u * S)) ≤ 1 / 256 * (u * S) := by
    calc α * (u * (u * S)) ≤ 8 * (u * (u * S)) := mul_le_mul_of_nonneg_right hα (mul_nonneg hu0 hw)
      _ ≤ 8 * (1 / 2048 * (u * S)) := mul_le_mul_of_nonneg_left (mul_le_mul_of_nonneg_right hu hw) (by norm_num)
      _ = _ := by ring
  have h3 : u * u ≤ 1 / 2048 * u := mul_le_mul_of_nonneg_right hu hu0
  have h4 : β * (u * u) ≤ 10 * (u * u) := mul_le_mul_of_nonneg_right hβ (mul_nonneg hu0 hu0)
  have e2 : u * (S + (α * (u * S) + β * u)) = u * S + α * (u * (u * S)) + β * (u * u) := by ring
  rw [e2] at h1
  rw [sq] at h'
  linarith

end Errors

section Factor
variable {fa fb fc : FloatFormat} {p : Nat}

/-- The computed difference of the logarithms. -/
noncomputable def Spec.logRatioIn (fa fb fc : FloatFormat) (own : Bool) (a b : ℝ) : ℝ :=
  if own then fc.rn (fa.rn (fa.rn (Real.log b) - fa.rn (Real.log a)))
  else fc.rn (fb.rn (fb.rn (Real.log (fb.rn b)) - fb.rn (Real.log (fb.rn a))))

/-- The computed exponent of the factor. -/
noncomputable def Spec.logExponentIn (fa fb fc : FloatFormat) (own : Bool) (a b : ℝ) (n : Nat) : ℝ :=
  fc.rn (logRatioIn fa fb fc own a b / n)

/-- The computed factor between consecutive values. -/
noncomputable def Spec.logFactorIn (fa fb fc : FloatFormat) (own : Bool) (a b : ℝ) (n : Nat) : ℝ :=
  fa.rn (fc.rn (fc.rn (fb.rn (Real.exp 1)) ^ logExponentIn fa fb fc own a b n))

/-- The value after `k` increments. -/
noncomputable def Spec.logValueIn (f : FloatFormat) (a r : ℝ) : Nat → ℝ
  | 0 => a
  | k + 1 => f.rn (logValueIn f a r k * r)

theorem log_diff {a b : ℝ} (ha : 0 < a) (hab : a ≤ b) :
    |Real.log b - Real.log a| ≤ |Real.log a| + |Real.log b| ∧ 0 ≤ Real.log b - Real.log a := by
  have := Real.log_le_log ha hab
  refine ⟨?_, by linarith⟩
  rw [add_comm]
  exact abs_sub _ _

/-- The difference of two approximate logarithms. -/
theorem two_logs {la lb La Lb u : ℝ} (h1 : |la - La| ≤ u * |La| + 3 * u) (h2 : |lb - Lb| ≤ u * |Lb| + 3 * u) :
    |(lb - la) - (Lb - La)| ≤ 1 * (u * (|La| + |Lb|)) + 6 * u := by
  have e : (lb - la) - (Lb - La) = (lb - Lb) - (la - La) := by ring
  rw [e]
  refine (abs_sub _ _).trans ?_
  linarith

theorem logRatio_error (hp : 11 ≤ p) (pa : p ≤ fa.prec) (pb : p ≤ fb.prec) (pc : p ≤ fc.prec) (own : Bool) {a b : ℝ}
    (hab : a ≤ b) (hrb : (2 : ℝ) ^ (fb.emin + (fb.prec - 1)) ≤ a) :
    0 ≤ logRatioIn fa fb fc own a b ∧
    |logRatioIn fa fb fc own a b - (Real.log b - Real.log a)| ≤
      (3 + 1 / 128) * (1 / 2 ^ p * (|Real.log a| + |Real.log b|)) + (6 + 1 / 50) * (1 / 2 ^ p) := by
  have ha : 0 < a := (two_zpow_pos _).trans_le hrb
  obtain ⟨hT, _⟩ := log_diff ha hab
  have hu := unit_small hp
  have hu0 : (0 : ℝ) ≤ 1 / 2 ^ p := by positivity
  have fin : ∀ (g : FloatFormat), p ≤ g.prec → ∀ la lb : ℝ, la ≤ lb →
      |la - Real.log a| ≤ 1 / 2 ^ p * |Real.log a| + 3 * (1 / 2 ^ p) →
      |lb - Real.log b| ≤ 1 / 2 ^ p * |Real.log b| + 3 * (1 / 2 ^ p) →
      0 ≤ fc.rn (g.rn (lb - la)) ∧ |fc.rn (g.rn (lb - la)) - (Real.log b - Real.log a)| ≤
        (3 + 1 / 128) * (1 / 2 ^ p * (|Real.log a| + |Real.log b|)) + (6 + 1 / 50) * (1 / 2 ^ p) := by
    intro g pg la lb hle h1 h2
    refine ⟨fl_nonneg (fl_nonneg (sub_nonneg.2 hle)), ?_⟩
    have s0 := two_logs h1 h2
    have s1 := round_step hu0 hu hT (by norm_num) (by norm_num) s0 (fl_err_unit pg (lb - la))
    have s2 := round_step hu0 hu hT (by norm_num) (by norm_num) s1 (fl_err_unit pc (g.rn (lb - la)))
    convert s2 using 2 <;> ring
  have sq : (1 / 2 ^ p : ℝ) ^ 2 ≤ 1 / 2048 * (1 / 2 ^ p) := by
    rw [sq]; exact mul_le_mul_of_nonneg_right hu hu0
  unfold logRatioIn
  cases own
  · simp only [Bool.false_eq_true, if_false]
    obtain ⟨pa', ea⟩ := log_fl hp pb hrb
    obtain ⟨_, eb⟩ := log_fl hp pb (hrb.trans hab)
    refine fin fb pb _ _ (fl_mono (Real.log_le_log pa' (fl_mono hab))) ?_ ?_
    all_goals
      refine (?_ : ∀ x x' : ℝ, |x' - x| ≤ 2 * (1 / 2 ^ p) → |fb.rn x' - x| ≤ 1 / 2 ^ p * |x| + 3 * (1 / 2 ^ p)) _ _ (by assumption)
      intro x x' hx
      have h1 := fl_err_unit pb x'
      have h2 : |x'| ≤ |x| + 2 * (1 / 2 ^ p) := by
        have e : x' = x + (x' - x) := by ring
        rw [e]
        exact (abs_add_le _ _).trans (by linarith)
      have e : fb.rn x' - x = (fb.rn x' - x') + (x' - x) := by ring
      rw [e]
      refine (abs_add_le _ _).trans ?_
      have h3 := mul_le_mul_of_nonneg_left h2 hu0
      have e3 : (1 / 2 ^ p : ℝ) * (|x| + 2 * (1 / 2 ^ p)) = 1 / 2 ^ p * |x| + 2 * (1 / 2 ^ p) ^ 2 := by ring
      rw [e3] at h3
      generalize (1 / 2 ^ p : ℝ) * |x| = X at *
      generalize (1 / 2 ^ p : ℝ) * |x'| = X' at *
      generalize (1 / 2 ^ p : ℝ) = u at *
      linarith
  · simp only [if_true]
    refine fin fa pa _ _ (fl_mono (Real.log_le_log ha hab)) ?_ ?_
    all_goals
      refine (fl_err_unit pa _).trans ?_
      generalize (1 / 2 ^ p : ℝ) = u at *
      linarith

theorem e_error (hp : 11 ≤ p) (pb : p ≤ fb.prec) (pc : p ≤ fc.prec) :
    1 ≤ fc.rn (fb.rn (Real.exp 1)) ∧ |Real.log (fc.rn (fb.rn (Real.exp 1))) - 1| ≤ 4 * (1 / 2 ^ p) := by
  have h1 : (1 : ℝ) ≤ Real.exp 1 := Real.one_le_exp zero_le_one
  have h2 : 1 ≤ fb.rn (Real.exp 1) := one_le_fl h1
  have e1 := (log_fl hp pb (normal_one h1)).2
  have e2 := (log_fl hp pc (normal_one h2)).2
  rw [Real.log_exp] at e1
  refine ⟨one_le_fl h2, ?_⟩
  have e : ∀ x y : ℝ, x - 1 = (x - y) + (y - 1) := fun x y => by ring
  rw [e _ (Real.log (fb.rn (Real.exp 1)))]
  refine (abs_add_le _ _).trans ?_
  linarith

theorem exponent_error (hp : 11 ≤ p) (pa : p ≤ fa.prec) (pb : p ≤ fb.prec) (pc : p ≤ fc.prec) (own : Bool) {a b : ℝ}
    (hab : a ≤ b) (hrb : (2 : ℝ) ^ (fb.emin + (fb.prec - 1)) ≤ a) {n : Nat} (hn : 0 < n) :
    0 ≤ logExponentIn fa fb fc own a b n ∧
    |n * logExponentIn fa fb fc own a b n - (Real.log b - Real.log a)| ≤
      (4 + 1 / 64) * (1 / 2 ^ p * (|Real.log a| + |Real.log b|)) + (6 + 1 / 25) * (1 / 2 ^ p) + n * (1 / 2 ^ p) ^ 2 := by
  have ha : 0 < a := (two_zpow_pos _).trans_le hrb
  have hn' : (0 : ℝ) < n := by exact_mod_cast hn
  obtain ⟨hT, _⟩ := log_diff ha hab
  have hu := unit_small hp
  have hu0 : (0 : ℝ) ≤ 1 / 2 ^ p := by positivity
  obtain ⟨h0, h1⟩ := logRatio_error (fa := fa) (fc := fc) hp pa pb pc own hab hrb
  unfold logExponentIn
  set d := logRatioIn fa fb fc own a b
  refine ⟨fl_nonneg (div_nonneg h0 hn'.le), ?_⟩
  have h2 := fl_err_unit pc (d / n)
  set y := fc.rn (d / n)
  have h3 : |n * y - d| ≤ 1 / 2 ^ p * |d| + n * (1 / 2 ^ p) ^ 2 := by
    have e : n * y - d = n * (y - d / n) := by field_simp
    rw [e, abs_mul, abs_of_pos hn']
    refine (mul_le_mul_of_nonneg_left h2 hn'.le).trans (le_of_eq ?_)
    rw [abs_div, abs_of_pos hn']
    field_simp
  have hd : |d| ≤ (|Real.log a| + |Real.log b|) + ((3 + 1 / 128) * (1 / 2 ^ p * (|Real.log a| + |Real.log b|)) + (6 + 1 / 50) * (1 / 2 ^ p)) := by
    have e : d = (Real.log b - Real.log a) + (d - (Real.log b - Real.log a)) := by ring
    rw [e]
    exact (abs_add_le _ _).trans (add_le_add hT h1)
  have hS : 0 ≤ |Real.log a| + |Real.log b| := by positivity
  generalize |Real.log a| + |Real.log b| = S at *
  generalize Real.log b - Real.log a = T at *
  have hw : 0 ≤ (1 / 2 ^ p : ℝ) * S := mul_nonneg hu0 hS
  have h4 := mul_le_mul_of_nonneg_left hd hu0
  generalize hU : (1 / 2 ^ p : ℝ) = u at *
  have h5 : u * (u * S) ≤ 1 / 2048 * (u * S) := mul_le_mul_of_nonneg_right hu hw
  have h6 : u * u ≤ 1 / 2048 * u := mul_le_mul_of_nonneg_right hu hu0
  have e4 : u * (S + ((3 + 1 / 128) * (u * S) + (6 + 1 / 50) * u)) = u * S + (3 + 1 / 128) * (u * (u * S)) + (6 + 1 / 50) * (u * u) := by ring
  rw [e4] at h4
  have e : n * y - T = (n * y - d) + (d - T) := by ring
  rw [e]
  refine (abs_add_le _ _).trans ?_
  linarith

/-- The error of the factor, on a logarithmic scale. -/
theorem factorIn_error (hp : 11 ≤ p) (pa : p ≤ fa.prec) (pb : p ≤ fb.prec) (pc : p ≤ fc.prec) (own : Bool) {a b : ℝ}
    (hab : a ≤ b) (hrb : (2 : ℝ) ^ (fb.emin + (fb.prec - 1)) ≤ a) {n : Nat} (hn : 0 < n) :
    1 ≤ logFactorIn fa fb fc own a b n ∧
    |n * Real.log (logFactorIn fa fb fc own a b n) - (Real.log b - Real.log a)| ≤
      (9 * (|Real.log a| + |Real.log b|) + 5 * n + 7) * (1 / 2 ^ p) ∧
    1 ≤ fc.rn (fb.rn (Real.exp 1)) ^ logExponentIn fa fb fc own a b n ∧
    Real.log (fc.rn (fb.rn (Real.exp 1)) ^ logExponentIn fa fb fc own a b n) ≤ (Real.log b - Real.log a) +
      (9 * (|Real.log a| + |Real.log b|) + 5 * n + 7) * (1 / 2 ^ p) := by
  have ha : 0 < a := (two_zpow_pos _).trans_le hrb
  have hn' : (1 : ℝ) ≤ n := by exact_mod_cast hn
  obtain ⟨hT, hT0⟩ := log_diff ha hab
  have hu := unit_small hp
  have hu0 : (0 : ℝ) ≤ 1 / 2 ^ p := by positivity
  obtain ⟨hy0, hy⟩ := exponent_error (fa := fa) (fc := fc) hp pa pb pc own hab hrb hn
  obtain ⟨hE1, hE⟩ := e_error (fb := fb) (fc := fc) hp pb pc
  unfold logFactorIn
  set y := logExponentIn fa fb fc own a b n
  set E := fc.rn (fb.rn (Real.exp 1))
  have hP : 1 ≤ E ^ y := Real.one_le_rpow hE1 hy0
  have hQ : 1 ≤ fc.rn (E ^ y) := one_le_fl hP
  have e1 := (log_fl hp pc (normal_one hP)).2
  have e2 := (log_fl hp pa (normal_one hQ)).2
  have hlP : Real.log (E ^ y) = y * Real.log E := Real.log_rpow (by linarith) _
  rw [hlP] at e1
  have hr : |Real.log (fa.rn (fc.rn (E ^ y))) - y * Real.log E| ≤ 4 * (1 / 2 ^ p) := by
    have e : ∀ x z w : ℝ, x - z = (x - w) + (w - z) := fun x z w => by ring
    rw [e _ _ (Real.log (fc.rn (E ^ y)))]
    exact (abs_add_le _ _).trans (by linarith)
  rw [hlP]
  generalize hR : Real.log (fa.rn (fc.rn (E ^ y))) = R at *
  have k1 : |n * (R - y * Real.log E)| ≤ n * (4 * (1 / 2 ^ p)) := by
    rw [abs_mul, abs_of_pos (by linarith)]
    exact mul_le_mul_of_nonneg_left hr (by linarith)
  have hny : 0 ≤ n * y := mul_nonneg (by linarith) hy0
  have k2 : |n * y * (Real.log E - 1)| ≤ n * y * (4 * (1 / 2 ^ p)) := by
    rw [abs_mul, abs_of_nonneg hny]
    exact mul_le_mul_of_nonneg_left hE hny
  have k3 : y ≤ n * y := le_mul_of_one_le_left hy0 hn'
  have k4 : y * Real.log E ≤ n * y + n * y * (Real.log E - 1) := by
    have e : n * y + n * y * (Real.log E - 1) = n * (y * Real.log E) := by ring
    rw [e]
    exact le_mul_of_one_le_left (mul_nonneg hy0 (Real.log_nonneg hE1)) hn'
  have hS : 0 ≤ |Real.log a| + |Real.log b| := by positivity
  generalize |Real.log a| + |Real.log b| = S at *
  have hTS := (le_abs_self _).trans hT
  generalize Real.log b - Real.log a = T at *
  generalize hU : (1 / 2 ^ p : ℝ) = u at *
  have hw : 0 ≤ u * S := mul_nonneg hu0 hS
  have h5 : u * (u * S) ≤ 1 / 2048 * (u * S) := mul_le_mul_of_nonneg_right hu hw
  have h6 : u * u ≤ 1 / 2048 * u := mul_le_mul_of_nonneg_right hu hu0
  have hun : 0 ≤ u * n := mul_nonneg hu0 (by linarith)
  have h7 : u * (u * n) ≤ 1 / 2048 * (u * n) := mul_le_mul_of_nonneg_right hu hun
  have hnu : n * u ^ 2 = u * (u * n) := by ring
  rw [hnu] at hy
  have a1 := (abs_le.1 hy).1
  have a2 := (abs_le.1 hy).2
  have h8 : n * y * (4 * u) ≤ (T + ((4 + 1 / 64) * (u * S) + (6 + 1 / 25) * u + u * (u * n))) * (4 * u) :=
    mul_le_mul_of_nonneg_right (by linarith) (by linarith)
  have e8 : (T + ((4 + 1 / 64) * (u * S) + (6 + 1 / 25) * u + u * (u * n))) * (4 * u) =
      4 * (u * T) + 4 * (4 + 1 / 64) * (u * (u * S)) + 4 * (6 + 1 / 25) * (u * u) + 4 * (u * (u * (u * n))) := by ring
  rw [e8] at h8
  have h9 : u * (u * (u * n)) ≤ 1 / 2048 * (u * (u * n)) := mul_le_mul_of_nonneg_right hu (mul_nonneg hu0 hun)
  have h10 : u * T ≤ u * S := mul_le_mul_of_nonneg_left hTS hu0
  have e9 : (9 * S + 5 * n + 7) * u = 9 * (u * S) + 5 * (u * n) + 7 * u := by ring
  have e10 : n * (4 * u) = 4 * (u * n) := by ring
  rw [e10] at k1
  rw [e9]
  obtain ⟨b1, b2⟩ := abs_le.1 k1
  obtain ⟨c1, c2⟩ := abs_le.1 k2
  refine ⟨one_le_fl hQ, ?_, hP, by linarith⟩
  have e : n * R - T = n * (R - y * Real.log E) + n * y * (Real.log E - 1) + (n * y - T) := by ring
  rw [e, abs_le]
  constructor <;> linarith

/-- The values do not decrease. -/
theorem logValueIn_mono {f : FloatFormat} {a r : ℝ} (ha : InFormat f a) (ha0 : 0 < a) (hr : 1 ≤ r) (k : Nat) :
    InFormat f (logValueIn f a r k) ∧ a ≤ logValueIn f a r k ∧ logValueIn f a r k ≤ logValueIn f a r (k + 1) := by
  have step : ∀ v : ℝ, InFormat f v → 0 < v → v ≤ f.rn (v * r) := by
    intro v hv h0
    have := fl_mono (f := f) (le_mul_of_one_le_right h0.le hr)
    rwa [fl_value hv] at this
  induction k with
  | zero => exact ⟨ha, le_rfl, step a ha ha0⟩
  | succ k ih =>
    obtain ⟨h1, h2, h3⟩ := ih
    have hd : InFormat f (logValueIn f a r (k + 1)) := fl_inFormat _
    exact ⟨hd, h2.trans h3, step _ hd (ha0.trans_le (h2.trans h3))⟩

/-- The logarithm of the rounded product. -/
theorem logValueIn_log {f : FloatFormat} (hp : 11 ≤ p) (hf : p ≤ f.prec) {a r : ℝ} (ha : InFormat f a)
    (ha0 : (2 : ℝ) ^ (f.emin + (f.prec - 1)) ≤ a) (hr : 1 ≤ r) (k : Nat) :
    |Real.log (logValueIn f a r k) - (Real.log a + k * Real.log r)| ≤ 2 * k * (1 / 2 ^ p) := by
  have hpos : 0 < a := (two_zpow_pos _).trans_le ha0
  induction k with
  | zero => simp [logValueIn]
  | succ k ih =>
    obtain ⟨_, h2, _⟩ := logValueIn_mono ha hpos hr k
    have hv : 0 < logValueIn f a r k := hpos.trans_le h2
    have h3 := (log_fl hp hf ((ha0.trans h2).trans (le_mul_of_one_le_right hv.le hr))).2
    rw [Real.log_mul hv.ne' (by linarith)] at h3
    show |Real.log (f.rn (logValueIn f a r k * r)) - _| ≤ _
    have e : Real.log (f.rn (logValueIn f a r k * r)) - (Real.log a + ((k + 1 : Nat) : ℝ) * Real.log r) =
        (Real.log (f.rn (logValueIn f a r k * r)) - (Real.log (logValueIn f a r k) + Real.log r)) +
        (Real.log (logValueIn f a r k) - (Real.log a + k * Real.log r)) := by push_cast; ring
    rw [e]
    refine (abs_add_le _ _).trans ?_
    push_cast
    linarith

/-- The error of the value after `k` increments, on a logarithmic scale. -/
theorem logValueIn_error {f : FloatFormat} (hp : 11 ≤ p) (hf : p ≤ f.prec) {a r L S : ℝ} (ha : InFormat f a)
    (ha0 : (2 : ℝ) ^ (f.emin + (f.prec - 1)) ≤ a) (hr : 1 ≤ r) {n : Nat} (hn : 0 < n)
    (hS : 0 ≤ S) (h : |n * Real.log r - L| ≤ (9 * S + 5 * n + 7) * (1 / 2 ^ p)) {k : Nat} (hk : k ≤ n) :
    |Real.log (logValueIn f a r k) - (Real.log a + k / n * L)| ≤ (14 * k + 9 * S) * (1 / 2 ^ p) := by
  have hn' : (1 : ℝ) ≤ n := by exact_mod_cast hn
  have hn0 : (0 : ℝ) < n := by linarith
  have hkn : (k : ℝ) / n ≤ 1 := by rw [div_le_one hn0]; exact_mod_cast hk
  have hk0 : (0 : ℝ) ≤ (k : ℝ) / n := by positivity
  have h1 := logValueIn_log hp hf ha ha0 hr k
  have hu0 : (0 : ℝ) ≤ 1 / 2 ^ p := by positivity
  generalize (1 / 2 ^ p : ℝ) = u at *
  have h2 : |(k : ℝ) * Real.log r - k / n * L| ≤ (9 * S + 5 * k + 7 * k) * u := by
    have e : (k : ℝ) * Real.log r - k / n * L = k / n * (n * Real.log r - L) := by field_simp
    rw [e, abs_mul, abs_of_nonneg hk0]
    refine (mul_le_mul_of_nonneg_left h hk0).trans ?_
    rw [← mul_assoc]
    refine mul_le_mul_of_nonneg_right ?_ hu0
    have e1 : (k : ℝ) / n * (9 * S + 5 * n + 7) = k / n * (9 * S) + 5 * k + 7 * (k / n) := by field_simp
    have e2 : (k : ℝ) / n ≤ k := div_le_self (by positivity) hn'
    have e3 : (k : ℝ) / n * (9 * S) ≤ 1 * (9 * S) := mul_le_mul_of_nonneg_right hkn (by linarith)
    rw [e1]
    linarith
  have e : Real.log (logValueIn f a r k) - (Real.log a + k / n * L) =
      (Real.log (logValueIn f a r k) - (Real.log a + k * Real.log r)) + (k * Real.log r - k / n * L) := by ring
  rw [e]
  refine (abs_add_le _ _).trans ?_
  linarith

end Factor

section Computed
variable {A B C : Arith ℝ} {fa fb fc : FloatFormat} {p : Nat}

theorem le_of_log {x y : ℝ} {e : Int} (hx : 0 < x) (hy : 0 < y) (hxy : y ≤ (2 : ℝ) ^ (e - 2))
    (h : Real.log x ≤ Real.log y + 1 / 2) : x ≤ (2 : ℝ) ^ (e - 1) := by
  have h1 := Real.log_le_log hy hxy
  rw [Real.log_zpow] at h1
  refine (Real.log_le_log_iff hx (two_zpow_pos _)).1 ?_
  rw [Real.log_zpow]
  have := Real.log_two_gt_d9
  norm_num at this
  push_cast at h1 ⊢
  linarith

/-- Numbers below 2^p do not overflow. -/
theorem round_within {D : Arith ℝ} {f : FloatFormat} (hD : D.IsFormat f) (hf : p ≤ f.prec) {x : ℝ} (h : |x| ≤ 2 ^ p) :
    Num.round D x = .fin (f.rn x) := by
  have h1 := f.emin_le
  have h2 := f.emax_prec
  refine round_le hD (e := (p : Int)) (by omega) (by omega) ?_
  rwa [zpow_natCast]

theorem fl_small {f : FloatFormat} {x : ℝ} (h : |x| ≤ 2 ^ p) : |f.rn x| ≤ 2 ^ p := by
  refine fl_abs_le ?_ h
  have := two_zpow_value (f := f) (K := ℝ) (e := (p : Int)) (by have := f.emin_le; omega)
  rwa [zpow_natCast] at this

theorem log_round {D : Arith ℝ} {f : FloatFormat} (hD : RoundsTo D f) (hf : p ≤ f.prec) {x : ℝ} (hx : 0 < x)
    (h : |Real.log x| ≤ 2 ^ p) : CxxFloat.log (.fin x : Num D) = .fin (f.rn (Real.log x)) := by
  show (if (Num.fin x : Num D) = .fin 0 then _ else if decide (0 < x) = true then Num.round D (D.log x) else Num.nan) = _
  rw [if_neg (by simp [hx.ne']), if_pos (decide_eq_true hx), hD.log, round_within hD.format hf h]

/-- Rounding at most doubles a number that is not tiny. -/
theorem fl_abs_two (hp : 11 ≤ p) {f : FloatFormat} (hf : p ≤ f.prec) (x : ℝ) : |f.rn x| ≤ 2 * |x| + 1 := by
  have h := fl_err_unit hf x
  have hu := unit_small hp
  have hu0 : (0 : ℝ) ≤ 1 / 2 ^ p := by positivity
  generalize (1 / 2 ^ p : ℝ) = u at *
  have h1 : u * |x| ≤ 1 / 2048 * |x| := mul_le_mul_of_nonneg_right hu (abs_nonneg _)
  have h2 : u ^ 2 ≤ 1 := by nlinarith
  have e : f.rn x = x + (f.rn x - x) := by ring
  rw [e]
  refine (abs_add_le _ _).trans ?_
  linarith [abs_nonneg x]

theorem logRatio_computed (hp : 11 ≤ p) (hA : RoundsTo A fa) (hB : RoundsTo B fb) (hC : RoundsTo C fc) (pa : p ≤ fa.prec)
    (pb : p ≤ fb.prec) (pc : p ≤ fc.prec) (own : Bool) {a b : ℝ} (hab : a ≤ b) (hrb : LogRange fb a b)
    (hS : |Real.log a| + |Real.log b| ≤ 2 ^ p / 18) :
    LogSpace.logRatio B C own (.fin a : Num A) (.fin b) = .fin (logRatioIn fa fb fc own a b) := by
  have ha : 0 < a := (two_zpow_pos _).trans_le hrb.normal
  have hb : 0 < b := ha.trans_le hab
  have hbig : (2048 : ℝ) ≤ 2 ^ p := by
    rw [show (2048 : ℝ) = 2 ^ 11 by norm_num]; exact pow_le_pow_right₀ one_le_two hp
  have hla := abs_nonneg (Real.log a)
  have hlb := abs_nonneg (Real.log b)
  have hu := unit_small hp
  unfold LogSpace.logRatio logRatioIn
  have diff : ∀ {D : Arith ℝ} {g : FloatFormat}, RoundsTo D g → p ≤ g.prec → ∀ x y : ℝ, 0 < x → 0 < y →
      |Real.log x| + |Real.log y| ≤ 2 ^ p / 16 →
      (CxxFloat.log (.fin y : Num D) - CxxFloat.log (.fin x)).convert C =
        .fin (fc.rn (g.rn (g.rn (Real.log y) - g.rn (Real.log x)))) := by
    intro D g hD pg x y hx hy h
    have h1 := abs_nonneg (Real.log x)
    have h2 := abs_nonneg (Real.log y)
    have h3 := fl_abs_two hp pg (Real.log x)
    have h4 := fl_abs_two hp pg (Real.log y)
    have h5 : |g.rn (Real.log y) - g.rn (Real.log x)| ≤ 2 ^ p := (abs_sub _ _).trans (by linarith)
    rw [log_round hD pg hx (by linarith), log_round hD pg hy (by linarith), Num.fin_sub, round_within hD.format pg h5]
    show Num.round C _ = _
    rw [round_within hC.format pc (fl_small h5)]
  cases own
  · simp only [Bool.false_eq_true, if_false]
    have h1 := fb.emax_prec
    have h2 := fb.emin_le
    have hprec := fb.prec_ge
    have rb : ∀ x : ℝ, 0 < x → x ≤ b → Num.round B x = .fin (fb.rn x) := fun x hx hxb =>
      round_le hB.format (e := fb.emax - 2) (by omega) (by omega) (by rw [abs_of_pos hx]; exact hxb.trans hrb.top)
    obtain ⟨qa, ea⟩ := log_fl hp pb hrb.normal
    obtain ⟨qb, eb⟩ := log_fl hp pb (hrb.normal.trans hab)
    show (CxxFloat.log (Num.round B b) - CxxFloat.log (Num.round B a)).convert C = _
    rw [rb a ha hab, rb b hb le_rfl]
    refine diff hB pb _ _ qa qb ?_
    have ka : |Real.log (fb.rn a)| ≤ |Real.log a| + 1 := by
      have e : Real.log (fb.rn a) = Real.log a + (Real.log (fb.rn a) - Real.log a) := by ring
      rw [e]
      exact (abs_add_le _ _).trans (by linarith)
    have kb : |Real.log (fb.rn b)| ≤ |Real.log b| + 1 := by
      have e : Real.log (fb.rn b) = Real.log b + (Real.log (fb.rn b) - Real.log b) := by ring
      rw [e]
      exact (abs_add_le _ _).trans (by linarith)
    linarith
  · simp only [if_true]
    exact diff hA pa a b ha hb (by linarith)

/-- The factor that the constructor computes. -/
theorem factorIn_computed (hp : 11 ≤ p) (hA : RoundsTo A fa) (hB : RoundsTo B fb) (hC : RoundsTo C fc) (pa : p ≤ fa.prec)
    (pb : p ≤ fb.prec) (pc : p ≤ fc.prec) (own : Bool) {a b : ℝ} (hab : a ≤ b) (hra : LogRange fa a b) (hrb : LogRange fb a b)
    (hrc : LogRange fc a b) {n : Nat} (hn : 0 < n) (hsmall : 14 * n + 9 * (|Real.log a| + |Real.log b|) ≤ 2 ^ p / 2) :
    LogSpace.factorIn B C own (.fin a : Num A) (.fin b) n = .fin (logFactorIn fa fb fc own a b n) := by
  have ha : 0 < a := (two_zpow_pos _).trans_le hrb.normal
  have hb : 0 < b := ha.trans_le hab
  have hn' : (1 : ℝ) ≤ n := by exact_mod_cast hn
  have hS0 : 0 ≤ |Real.log a| + |Real.log b| := by positivity
  have hbig : (2048 : ℝ) ≤ 2 ^ p := by
    rw [show (2048 : ℝ) = 2 ^ 11 by norm_num]; exact pow_le_pow_right₀ one_le_two hp
  have hu := unit_small hp
  have hu0 : (0 : ℝ) ≤ 1 / 2 ^ p := by positivity
  have hup : (1 / 2 ^ p : ℝ) * 2 ^ p = 1 := by field_simp
  have hnp : (n : ℝ) ≤ 2 ^ p := by linarith
  have hnN : n ≤ 2 ^ p := by exact_mod_cast hnp
  obtain ⟨hd0, hd⟩ := logRatio_error (fa := fa) (fc := fc) hp pa pb pc own hab hrb.normal
  obtain ⟨hy0, hy⟩ := exponent_error (fa := fa) (fc := fc) hp pa pb pc own hab hrb.normal hn
  obtain ⟨hE1, hE⟩ := e_error (fb := fb) (fc := fc) hp pb pc
  obtain ⟨_, _, hP, hlP⟩ := factorIn_error (fa := fa) (fc := fc) hp pa pb pc own hab hrb.normal hn
  have hT := log_diff ha hab
  have hTS := (le_abs_self _).trans hT.1
  have hdsmall : |logRatioIn fa fb fc own a b| ≤ 2 ^ p := by
    have e : logRatioIn fa fb fc own a b =
        (Real.log b - Real.log a) + (logRatioIn fa fb fc own a b - (Real.log b - Real.log a)) := by ring
    rw [e]
    refine (abs_add_le _ _).trans ?_
    have h1 : (1 / 2 ^ p : ℝ) * (|Real.log a| + |Real.log b|) ≤ 1 * (|Real.log a| + |Real.log b|) :=
      mul_le_mul_of_nonneg_right (by linarith) hS0
    linarith [hT.1]
  have ee : Num.convert C (CxxFloat.e : Num B) = .fin (fc.rn (fb.rn (Real.exp 1))) := by
    have h1 : |Real.exp 1| ≤ 2 ^ p := by
      rw [abs_of_pos (Real.exp_pos 1)]
      have := Real.exp_one_lt_d9
      norm_num at this
      linarith
    show Num.convert C (Num.round B (B.exp 1)) = _
    rw [hB.exp, round_within hB.format pb h1]
    show Num.round C _ = _
    rw [round_within hC.format pc (fl_small h1)]
  have en : Num.convert C (CxxFloat.ofNat n : Num B) = .fin (n : ℝ) := by
    have h1 : |(n : ℝ)| ≤ 2 ^ p := by rwa [Nat.abs_cast]
    rw [Num.ofNat_eq, round_within hB.format pb h1, rn_count (hnN.trans (Nat.pow_le_pow_right (by norm_num) pb))]
    show Num.round C _ = _
    rw [round_within hC.format pc h1, rn_count (hnN.trans (Nat.pow_le_pow_right (by norm_num) pc))]
  have hq : |logRatioIn fa fb fc own a b / n| ≤ 2 ^ p := by
    rw [abs_div, Nat.abs_cast]
    exact (div_le_self (abs_nonneg _) hn').trans hdsmall
  unfold LogSpace.factorIn
  rw [logRatio_computed hp hA hB hC pa pb pc own hab hrb (by linarith), ee, en, Num.fin_div (by linarith),
    round_within hC.format pc hq]
  show Num.convert A (Num.pow (.fin (fc.rn (fb.rn (Real.exp 1)))) (.fin (logExponentIn fa fb fc own a b n))) = _
  unfold logFactorIn
  set y := logExponentIn fa fb fc own a b n
  set E := fc.rn (fb.rn (Real.exp 1))
  have h12 : (9 * (|Real.log a| + |Real.log b|) + 5 * n + 7) * (1 / 2 ^ p) ≤ 1 / 2 := by
    rw [mul_one_div, div_le_iff₀ (by positivity)]
    linarith
  have hPlog : Real.log (E ^ y) ≤ Real.log (b / a) + 1 / 2 := by
    rw [Real.log_div hb.ne' ha.ne']; linarith
  have hPpos : 0 < E ^ y := by linarith
  have hPc := le_of_log hPpos (div_pos hb ha) hrc.ratio hPlog
  have hPa := le_of_log hPpos (div_pos hb ha) hra.ratio hPlog
  have c1 := fc.emin_le
  have c2 := fc.emax_prec
  have c3 := fc.prec_ge
  have a1 := fa.emin_le
  have a2 := fa.emax_prec
  have a3 := fa.prec_ge
  have hpow : Num.pow (.fin E : Num C) (.fin y) = .fin (fc.rn (E ^ y)) := by
    unfold Num.pow
    split
    · rename_i h
      have : E ^ y = 1 := by
        rcases h with h | h <;> rw [Num.fin.injEq] at h <;> rw [h] <;> simp
      rw [this, fl_value one_value]
    · show (if E = 0 ∧ y < 0 then _ else Num.round C (C.pow E y)) = _
      rw [if_neg (by rintro ⟨_, h⟩; linarith), hC.pow]
      show Num.round C (E ^ y) = _
      exact round_le hC.format (e := fc.emax - 1) (by omega) (by omega) (by rwa [abs_of_pos hPpos])
  rw [hpow]
  show Num.round A (fc.rn (E ^ y)) = _
  -- the power, rounded, is within the range of T
  have hmin : fc.rn (E ^ y) ≤ (2 : ℝ) ^ (fa.emax - 1) := by
    have v : fc.emin ≤ fa.emax - 1 := by omega
    have := fl_mono (f := fc) hPa
    rwa [fl_value (two_zpow_value v)] at this
  refine round_le hA.format (e := fa.emax - 1) (by omega) (by omega) ?_
  rwa [abs_of_nonneg (fl_nonneg hPpos.le)]

/-- The states as computed. -/
theorem logSpaceIn_states (hp : 11 ≤ p) (hA : A.IsFormat fa) (pa : p ≤ fa.prec) {a b r : ℝ} (ha : InFormat fa a) (hra : LogRange fa a b)
    (hab : a ≤ b) (hr : 1 ≤ r) {n : Nat} (hn : 0 < n) (hn64 : n < 2 ^ 64)
    (hsmall : 14 * n + 9 * (|Real.log a| + |Real.log b|) ≤ 2 ^ p / 2)
    (h : |n * Real.log r - (Real.log b - Real.log a)| ≤ (9 * (|Real.log a| + |Real.log b|) + 5 * n + 7) * (1 / 2 ^ p))
    (last : Num A) (k : Nat) (hk : k ≤ n) :
    LogSpace.incr^[k] (⟨.fin r, .fin a, .fin a, last, n, 0⟩ : LogSpace (Num A)) =
      ⟨.fin r, .fin (logValueIn fa a r k), .fin a, last, n, k⟩ := by
  have hpos : 0 < a := (two_zpow_pos _).trans_le hra.normal
  have hb : 0 < b := hpos.trans_le hab
  have hn' : (0 : ℝ) < n := by exact_mod_cast hn
  have hT0 := (log_diff hpos hab).2
  have hS : 0 ≤ |Real.log a| + |Real.log b| := by positivity
  induction k with
  | zero => rfl
  | succ k ih =>
    rw [Function.iterate_succ_apply', ih (by omega)]
    unfold LogSpace.incr
    have e : (k + 1) % W64 = k + 1 := Nat.mod_eq_of_lt (by comega)
    simp only [e, Num.fin_mul]
    obtain ⟨_, h2, _⟩ := logValueIn_mono ha hpos hr k
    have hv : 0 < logValueIn fa a r k := hpos.trans_le h2
    have h3 := logValueIn_log hp pa ha hra.normal hr k
    have a1 := fa.emin_le
    have a2 := fa.emax_prec
    have a3 := fa.prec_ge
    have hpr : 0 < logValueIn fa a r k * r := mul_pos hv (by linarith)
    rw [round_le hA (e := fa.emax - 1) (by omega) (by omega)]
    · rfl
    · rw [abs_of_pos hpr]
      refine le_of_log hpr hb hra.top ?_
      rw [Real.log_mul hv.ne' (by linarith)]
      have hkk : (k : ℝ) + 1 ≤ n := by exact_mod_cast hk
      have hl0 := Real.log_nonneg hr
      have h4 : ((k : ℝ) + 1) * Real.log r ≤ n * Real.log r := mul_le_mul_of_nonneg_right hkk hl0
      have h5 := (abs_le.1 h3).2
      have h6 := (abs_le.1 h).2
      have hu0 : (0 : ℝ) ≤ 1 / 2 ^ p := by positivity
      have h7 : 2 * (k : ℝ) * (1 / 2 ^ p) + (9 * (|Real.log a| + |Real.log b|) + 5 * n + 7) * (1 / 2 ^ p) ≤ 1 / 2 := by
        rw [← add_mul, mul_one_div, div_le_iff₀ (by positivity)]
        have : (1 : ℝ) ≤ n := by exact_mod_cast hn
        linarith
      linarith

/-- What is assumed: a format for T, one for `double`, and one for the quotient and the power, all with at least `p` bits and
correctly rounded elementary functions; an interval of normal numbers that does not get close to overflow, and not too many
steps. -/
structure Spec.LogCase (A B C : Arith ℝ) (fa fb fc : FloatFormat) (p : Nat) (a b : ℝ) (n : Nat) : Prop where
  eleven : 11 ≤ p
  ta : RoundsTo A fa
  tb : RoundsTo B fb
  tc : RoundsTo C fc
  pa : p ≤ fa.prec
  pb : p ≤ fb.prec
  pc : p ≤ fc.prec
  ra : LogRange fa a b
  rb : LogRange fb a b
  rc : LogRange fc a b
  first : InFormat fa a
  steps : 0 < n
  steps64 : n < 2 ^ 64
  small : 14 * n + 9 * (|Real.log a| + |Real.log b|) ≤ 2 ^ p / 2

/-- C155.  The constructor accepts exactly `first < last`. -/
theorem C155_accepts (own : Bool) (x y : Num A) (n : Nat) :
    (∃ s, LogSpace.newIn B C own x y n = .ok s) ↔ CxxFloat.lt x y = true := by
  unfold LogSpace.newIn
  by_cases h : CxxFloat.lt x y = true
  · simp [h]
  · simp [h]

theorem newIn_states {a b : ℝ} {n : Nat} (h : LogCase A B C fa fb fc p a b n) (own : Bool) {s : LogSpace (Num A)}
    (hs : LogSpace.newIn B C own (.fin a) (.fin b) n = .ok s) :
    ∃ r : ℝ, a < b ∧ 1 ≤ r ∧
      |n * Real.log r - (Real.log b - Real.log a)| ≤ (9 * (|Real.log a| + |Real.log b|) + 5 * n + 7) * (1 / 2 ^ p) ∧
      ∀ k ≤ n, LogSpace.incr^[k] s = ⟨.fin r, .fin (logValueIn fa a r k), .fin a, .fin b, n, k⟩ := by
  unfold LogSpace.newIn at hs
  rw [Num.lt_fin] at hs
  split at hs
  · rename_i hab
    have hab : a < b := of_decide_eq_true hab
    rw [factorIn_computed h.eleven h.ta h.tb h.tc h.pa h.pb h.pc own hab.le h.ra h.rb h.rc h.steps h.small, Res.ok.injEq] at hs
    subst hs
    obtain ⟨hr, he, _, _⟩ := factorIn_error (fa := fa) (fb := fb) (fc := fc) h.eleven h.pa h.pb h.pc own hab.le h.rb.normal h.steps
    exact ⟨_, hab, hr, he, fun k hk => logSpaceIn_states h.eleven h.ta.format h.pa h.first h.ra hab.le hr h.steps h.steps64 h.small he _ k hk⟩
  · cases hs

/-- C155.  Whichever overloads of `log` and `pow` are used, the value after `k` of `n` increments is a finite positive number;
on a logarithmic scale it differs from first (last / first)^(k / n) by at most (14 k + 9 (|log first| + |log last|)) / 2^p, where
`p` is the least of the precisions involved. -/
theorem C155_error {a b : ℝ} {n : Nat} (h : LogCase A B C fa fb fc p a b n) (own : Bool) (s : LogSpace (Num A))
    (hs : LogSpace.newIn B C own (.fin a) (.fin b) n = .ok s) (k : Nat) (hk : k ≤ n) :
    ∃ v : ℝ, (LogSpace.incr^[k] s).deref = .fin v ∧ InFormat fa v ∧ 0 < v ∧
      |Real.log v - Real.log (a * (b / a) ^ ((k : ℝ) / n))| ≤ (14 * k + 9 * (|Real.log a| + |Real.log b|)) / 2 ^ p := by
  have ha : 0 < a := (two_zpow_pos _).trans_le h.ra.normal
  obtain ⟨r, hab, hr, he, hst⟩ := newIn_states h own hs
  have hb := ha.trans hab
  obtain ⟨m1, m2, _⟩ := logValueIn_mono h.first ha hr k
  refine ⟨logValueIn fa a r k, by rw [hst k hk]; rfl, m1, ha.trans_le m2, ?_⟩
  rw [Real.log_mul ha.ne' (Real.rpow_pos_of_pos (div_pos hb ha) _).ne', Real.log_rpow (div_pos hb ha), Real.log_div hb.ne' ha.ne']
  have := logValueIn_error h.eleven h.pa h.first h.ra.normal hr h.steps (by positivity) he hk
  rwa [mul_one_div] at this

/-- C155.  The first value is the first end, and the values do not decrease. -/
theorem C155_monotone {a b : ℝ} {n : Nat} (h : LogCase A B C fa fb fc p a b n) (own : Bool) (s : LogSpace (Num A))
    (hs : LogSpace.newIn B C own (.fin a) (.fin b) n = .ok s) (j k : Nat) (hjk : j ≤ k) (hk : k ≤ n) :
    s.deref = .fin a ∧ CxxFloat.le (LogSpace.incr^[j] s).deref (LogSpace.incr^[k] s).deref = true := by
  have ha : 0 < a := (two_zpow_pos _).trans_le h.ra.normal
  obtain ⟨r, _, hr, _, hst⟩ := newIn_states h own hs
  refine ⟨?_, ?_⟩
  · have := hst 0 (Nat.zero_le _)
    simp only [Function.iterate_zero, id] at this
    rw [this]
    rfl
  · rw [hst j (hjk.trans hk), hst k hk]
    unfold LogSpace.deref
    rw [Num.le_fin]
    exact decide_eq_true (monotone_nat_of_le_succ (f := logValueIn fa a r) (fun i => (logValueIn_mono h.first ha hr i).2.2) hjk)

/-- C155.  The constructor from exponents needs `start < stop`; it is the one from the powers of the base, computed in `double`
and converted to T, if these are increasing. -/
theorem C155_exponents (own : Bool) (start stop : Int) (n : Nat) (base : Num B) :
    ((∃ s, LogSpace.newPowIn A C own start stop n base = .ok s) ↔ start < stop) ∧
    (start < stop →
      CxxFloat.lt ((CxxFloat.pow base (CxxFloat.ofInt start)).convert A) ((CxxFloat.pow base (CxxFloat.ofInt stop)).convert A) = true →
      LogSpace.newPowIn A C own start stop n base =
        LogSpace.newIn B C own ((CxxFloat.pow base (CxxFloat.ofInt start)).convert A)
          ((CxxFloat.pow base (CxxFloat.ofInt stop)).convert A) n) := by
  unfold LogSpace.newPowIn LogSpace.newIn
  constructor
  · by_cases h : start < stop
    · simp [h]
    · simp [h]
  · intro h1 h2
    rw [if_pos h1, if_pos h2]

/-- C155.  Collect returns the values after 0, 1, ... further increments, whatever the arithmetic. -/
theorem C155_collect {F : Type} [CxxFloat F] (s : LogSpace F) (m : Nat) :
    s.collect m = (List.range m).map (fun k => (LogSpace.incr^[k] s).deref) := by
  unfold LogSpace.collect
  induction m generalizing s with
  | zero => rfl
  | succ m ih =>
    rw [LogSpace.generateN, List.range_succ_eq_map, List.map_cons, List.map_map]
    show _ :: LogSpace.generateN s.incr m = _
    rw [ih]
    rfl

theorem logIncr_step {F : Type} [CxxFloat F] (s : LogSpace F) (hs : s.step = 0) (k : Nat) (hk : k < 2 ^ 64) :
    (LogSpace.incr^[k] s).step = k ∧ (LogSpace.incr^[k] s).nsteps = s.nsteps ∧ (LogSpace.incr^[k] s).first = s.first := by
  induction k with
  | zero => exact ⟨hs, rfl, rfl⟩
  | succ k ih =>
    obtain ⟨h1, h2, h3⟩ := ih (by omega)
    rw [Function.iterate_succ_apply']
    refine ⟨?_, h2, h3⟩
    show ((LogSpace.incr^[k] s).step + 1) % W64 = _
    rw [h1]
    exact Nat.mod_eq_of_lt (by comega)

/-- C155.  A range-based for sees exactly the first `n` values, from any state of the space and whatever the arithmetic. -/
theorem C155_visit (own : Bool) (x y : Num A) (n : Nat) (hn : n < 2 ^ 64) (s : LogSpace (Num A))
    (hs : LogSpace.newIn B C own x y n = .ok s) (j : Nat) :
    (LogSpace.incr^[j] s).visit = .ok ((List.range n).map (fun k => (LogSpace.incr^[k] s).deref)) := by
  have hst : s.step = 0 ∧ s.nsteps = n ∧ s.current = s.first := by
    unfold LogSpace.newIn at hs
    split at hs
    · rw [Res.ok.injEq] at hs
      subst hs
      exact ⟨rfl, rfl, rfl⟩
    · cases hs
  obtain ⟨h0, h1, h2⟩ := hst
  have keep : ∀ i, (LogSpace.incr^[i] s).base = s.base ∧ (LogSpace.incr^[i] s).first = s.first ∧ (LogSpace.incr^[i] s).last = s.last ∧
      (LogSpace.incr^[i] s).nsteps = s.nsteps := by
    intro i
    induction i with
    | zero => exact ⟨rfl, rfl, rfl, rfl⟩
    | succ i ih => rw [Function.iterate_succ_apply']; exact ih
  have hb : (LogSpace.incr^[j] s).begin = s := by
    obtain ⟨k1, k2, k3, k4⟩ := keep j
    unfold LogSpace.begin
    rw [k2, k1, k3, k4]
    calc (⟨s.base, s.first, s.first, s.last, s.nsteps, 0⟩ : LogSpace (Num A)) =
        ⟨s.base, s.current, s.first, s.last, s.nsteps, s.step⟩ := by rw [h0, h2]
      _ = s := rfl
  have he : (LogSpace.incr^[j] s).end.step = n := by
    show (LogSpace.incr^[j] s).nsteps = n
    rw [(keep j).2.2.2, h1]
  have step : ∀ k, k ≤ n → (LogSpace.incr^[k] s).step = k := fun k hk => (logIncr_step s h0 k (by omega)).1
  unfold LogSpace.visit
  rw [hb]
  have loop : ∀ m k, k + m = n → ∀ acc : List (Num A),
      whileLoop (fun st : LogSpace (Num A) × List (Num A) => LogSpace.ne st.1 (LogSpace.incr^[j] s).end)
        (fun st => .ok (st.1.incr, st.2 ++ [st.1.deref])) (LogSpace.incr^[k] s, acc) =
      .ok (LogSpace.incr^[n] s, acc ++ (List.range' k m).map (fun k => (LogSpace.incr^[k] s).deref)) := by
    intro m
    induction m with
    | zero =>
      intro k hk acc
      rw [whileLoop_done]
      · have : k = n := by omega
        subst this; simp
      · unfold LogSpace.ne LogSpace.eq
        simp only [step k (by omega), he]
        simp [show k = n by omega]
    | succ m ih =>
      intro k hk acc
      refine Eq.trans (whileLoop_step (s' := (LogSpace.incr^[k + 1] s, acc ++ [(LogSpace.incr^[k] s).deref])) ?_ ?_) ?_
      · unfold LogSpace.ne LogSpace.eq
        simp only [step k (by omega), he]
        simp [show k ≠ n by omega]
      · simp only [Function.iterate_succ_apply']
      · rw [ih (k + 1) (by omega), List.range'_succ]
        simp
  have := loop n 0 (by omega) []
  rw [Function.iterate_zero, id] at this
  rw [this, Res.ok_bind, List.nil_append, ← List.range_eq_range']

end Computed

/-! ### Intervals that are too short -/

/-- A number just above 1 is rounded to 1. -/
theorem fl_near_one {f : FloatFormat} {x : ℝ} (h1 : 1 ≤ x) (h2 : x < 1 + 1 / 2 ^ f.prec) : f.rn x = 1 := by
  have hp := f.prec_ge
  have he := f.emin_le
  have hpos : (0 : ℝ) < x := by linarith
  have hlt2 : x < 2 := by
    have : (1 : ℝ) / 2 ^ f.prec ≤ 1 / 2048 := eps_small (K := ℝ) (f := f)
    linarith
  have hlog : Int.log 2 |x| = 0 := by
    rw [abs_of_pos hpos]
    refine le_antisymm ?_ ?_
    · have : Int.log 2 x < 1 := by
        rw [← Int.lt_zpow_iff_log_lt (by norm_num) hpos]; simpa using hlt2
      omega
    · rw [← Int.zpow_le_iff_le_log (by norm_num) hpos]; simpa using h1
  have hu : f.ulpExp x = 1 - f.prec := by
    unfold FloatFormat.ulpExp
    rw [hlog, max_eq_left (by omega)]
    ring
  have hm := fl_mult_ulp (f := f) x
  have hn := fl_nearest (f := f) x 1 one_value
  rw [hu] at hm
  have m1 : Mult (1 - f.prec : Int) (1 : ℝ) := by
    have := mult_zpow (K := ℝ) (e := 1 - f.prec) (e' := 0) (by omega)
    simpa using this
  obtain ⟨m, hd⟩ := hm.sub m1
  have e : (2 : ℝ) ^ (1 - f.prec : Int) = 2 * (1 / 2 ^ f.prec) := by
    rw [zpow_sub₀ two_ne_zero, zpow_one, zpow_natCast]; ring
  rw [e] at hd
  have hge := one_le_fl (f := f) h1
  rw [abs_of_nonneg (by linarith : (0 : ℝ) ≤ x - 1)] at hn
  have hub := (abs_le.1 hn).1
  have heps : (0 : ℝ) < 1 / 2 ^ f.prec := eps_pos (K := ℝ) (f := f)
  have hm0 : m < 1 := by
    by_contra hc
    have : (1 : ℝ) ≤ m := by exact_mod_cast not_lt.1 hc
    have : 1 * (2 * (1 / 2 ^ f.prec)) ≤ (m : ℝ) * (2 * (1 / 2 ^ f.prec)) := mul_le_mul_of_nonneg_right this (by linarith)
    linarith
  have hm1 : 0 ≤ m := by
    by_contra hc
    have : (m : ℝ) ≤ -1 := by exact_mod_cast (by omega : m ≤ -1)
    have : (m : ℝ) * (2 * (1 / 2 ^ f.prec)) ≤ -1 * (2 * (1 / 2 ^ f.prec)) := mul_le_mul_of_nonneg_right this (by linarith)
    linarith
  have : m = 0 := by omega
  rw [this] at hd
  simp at hd
  linarith

theorem stays_at_one {A : Arith ℝ} {f : FloatFormat} (hA : A.IsFormat f) (last : Num A) (n k : Nat) :
    (LogSpace.incr^[k] (⟨.fin 1, .fin 1, .fin 1, last, n, 0⟩ : LogSpace (Num A))).deref = .fin 1 := by
  have : (LogSpace.incr^[k] (⟨.fin 1, .fin 1, .fin 1, last, n, 0⟩ : LogSpace (Num A))).deref = .fin 1 ∧
      (LogSpace.incr^[k] (⟨.fin 1, .fin 1, .fin 1, last, n, 0⟩ : LogSpace (Num A))).base = .fin 1 := by
    induction k with
    | zero => exact ⟨rfl, rfl⟩
    | succ k ih =>
      rw [Function.iterate_succ_apply']
      refine ⟨?_, ih.2⟩
      show (LogSpace.incr^[k] _).deref * (LogSpace.incr^[k] _).base = _
      rw [ih.1, ih.2, Num.fin_mul, mul_one, Num.round_of (rnd_finite hA one_finite)]
  exact this.1

/-- C160 (violated).  With the functions for `double` only, the precision of `long double` is lost: from 1 to 1 + 2^-54, which is
512 times the distance from 1 to the next `long double`, all values are 1 whatever the number of steps. -/
theorem C160_long_double_violated {A B C : Arith ℝ} {f fc : FloatFormat} (hA : RoundsTo A f) (hf : 64 ≤ f.prec)
    (hB : RoundsTo B FloatFormat.double) (hC : RoundsTo C fc) (n : Nat) (hn : 0 < n) (hn64 : n < 2 ^ 64) :
    FiniteIn f (1 + 1 / 2 ^ 54 : ℝ) ∧ FiniteIn f (1 + 1 / 2 ^ 63 : ℝ) ∧
    ∃ s : LogSpace (Num A), LogSpace.newIn B C false (.fin 1) (.fin (1 + 1 / 2 ^ 54)) n = .ok s ∧
      ∀ k, (LogSpace.incr^[k] s).deref = .fin 1 := by
  have fin : ∀ m : Nat, m ≤ 63 → FiniteIn f (1 + 1 / 2 ^ m : ℝ) := by
    intro m hm
    have hp : (2 : Int) ^ m + 1 ≤ 2 ^ f.prec := by
      have h1 : (2 : Int) ^ (m + 1) ≤ 2 ^ f.prec := pow_le_pow_right₀ (by norm_num) (by omega)
      have h2 : (1 : Int) ≤ 2 ^ m := one_le_pow₀ (by norm_num)
      rw [pow_succ] at h1
      linarith
    refine ⟨⟨2 ^ m + 1, -(m : Int), by rw [abs_of_pos (by positivity)]; exact hp, by have := f.emin_le; omega, ?_⟩, ?_⟩
    · rw [zpow_neg, zpow_natCast]
      push_cast
      field_simp
    · have h1 : (1 : ℝ) / 2 ^ m ≤ 1 := by
        rw [div_le_one (by positivity)]; exact one_le_pow₀ (by norm_num)
      have h2 : (2 : ℝ) ^ (2 : Int) ≤ (2 : ℝ) ^ f.emax := zpow_le_zpow_right₀ one_le_two (by have := f.emax_gt; omega)
      rw [abs_of_pos (by positivity)]
      norm_num at h2
      linarith
  refine ⟨fin 54 (by norm_num), fin 63 (by norm_num), ?_⟩
  refine ⟨⟨.fin 1, .fin 1, .fin 1, .fin (1 + 1 / 2 ^ 54), n, 0⟩, ?_, fun k => stays_at_one hA.format _ n k⟩
  unfold LogSpace.newIn
  rw [Num.lt_fin, if_pos (decide_eq_true (by norm_num))]
  have r1 : Num.round B (1 : ℝ) = .fin 1 := Num.round_of (rnd_finite hB.format one_finite)
  have r2 : Num.round B (1 + 1 / 2 ^ 54 : ℝ) = .fin 1 := by
    rw [round_le hB.format (e := 1) (by decide) (by decide) (by rw [abs_of_pos (by positivity)]; norm_num),
      fl_near_one (by norm_num) (by show _ < 1 + 1 / (2 : ℝ) ^ 53; norm_num)]
  have l1 : CxxFloat.log (.fin 1 : Num B) = .fin 0 := by
    show (if (Num.fin 1 : Num B) = .fin 0 then _ else if decide ((0 : ℝ) < 1) = true then Num.round B (B.log 1) else Num.nan) = _
    rw [if_neg (by simp), if_pos (by simp), hB.log, Real.log_one, Num.round_of (rnd_zero hB.format)]
  have e0 : LogSpace.logRatio B C false (.fin 1 : Num A) (.fin (1 + 1 / 2 ^ 54)) = .fin 0 := by
    unfold LogSpace.logRatio
    simp only [Bool.false_eq_true, if_false]
    show (CxxFloat.log (Num.round B (1 + 1 / 2 ^ 54)) - CxxFloat.log (Num.round B 1)).convert C = _
    rw [r1, r2, l1, Num.fin_sub, sub_zero, Num.round_of (rnd_zero hB.format)]
    exact Num.round_of (rnd_zero hC.format)
  have e1 : ∃ c : ℝ, c ≠ 0 ∧ (CxxFloat.ofNat n : Num B).convert C = .fin c := by
    rw [Num.ofNat_eq, count_round hB.format hn64]
    have h1 : (1 : ℝ) ≤ FloatFormat.double.rn (n : ℝ) := rn_count_ge_one hn
    have h2 : FloatFormat.double.rn (n : ℝ) ≤ (2 : ℝ) ^ (64 : Int) := by
      have : (n : ℝ) ≤ (2 : ℝ) ^ (64 : Int) := by
        have : (n : ℝ) ≤ ((2 ^ 64 : Nat) : ℝ) := by exact_mod_cast hn64.le
        refine this.trans (le_of_eq ?_)
        norm_num
      have := fl_mono (f := FloatFormat.double) this
      rwa [fl_value (two_zpow_value (by decide))] at this
    refine ⟨fc.rn (FloatFormat.double.rn (n : ℝ)), by linarith [one_le_fl (f := fc) h1], ?_⟩
    exact round_le hC.format (e := 64) (by have := fc.emin_le; omega) fc.emax_gt (by rw [abs_of_pos (by linarith)]; exact h2)
  obtain ⟨c, hc, e1⟩ := e1
  have e2 : LogSpace.factorIn B C false (.fin 1 : Num A) (.fin (1 + 1 / 2 ^ 54)) n = .fin 1 := by
    unfold LogSpace.factorIn
    rw [e0, e1, Num.fin_div hc, zero_div, Num.round_of (rnd_zero hC.format)]
    show Num.convert A (Num.pow _ _) = _
    unfold Num.pow
    rw [if_pos (.inl rfl)]
    exact Num.round_of (rnd_finite hA.format one_finite)
  rw [e2]

/-- C160 (violated).  In 8 steps from 1 to the next larger `float`, all values are 1, with either choice of the functions. -/
theorem C160_end_violated {A B : Arith ℝ} (hA : RoundsTo A FloatFormat.float) (hB : RoundsTo B FloatFormat.double) (own : Bool) :
    FiniteIn FloatFormat.float (1 + 1 / 2 ^ 23 : ℝ) ∧
    ∃ s : LogSpace (Num A), LogSpace.newIn B B own (.fin 1) (.fin (1 + 1 / 2 ^ 23)) 8 = .ok s ∧
      ∀ k, (LogSpace.incr^[k] s).deref = .fin 1 := by
  have b1 : (1 : ℝ) ≤ 1 + 1 / 2 ^ 23 := by norm_num
  have two : ∀ f : FloatFormat, f.emin ≤ -26 → InFormat f (1 / 2 ^ 23 : ℝ) := fun f h => by
    have := two_zpow_value (f := f) (K := ℝ) (e := -23) (by omega)
    rwa [zpow_neg, ← one_div] at this
  have val : ∀ f : FloatFormat, 24 ≤ f.prec → InFormat f (1 + 1 / 2 ^ 23 : ℝ) := by
    intro f hf
    refine ⟨2 ^ 23 + 1, -23, ?_, by have := f.emin_le; omega, by norm_num⟩
    calc |(2 ^ 23 + 1 : Int)| ≤ 2 ^ 24 := by norm_num
      _ ≤ 2 ^ f.prec := pow_le_pow_right₀ (by norm_num) hf
  refine ⟨⟨val _ (by decide), ?_⟩, ?_⟩
  · show |(1 + 1 / 2 ^ 23 : ℝ)| < (2 : ℝ) ^ (128 : Int)
    rw [abs_of_pos (by positivity)]
    norm_num
  have hlog0 : (0 : ℝ) ≤ Real.log (1 + 1 / 2 ^ 23) := Real.log_nonneg b1
  have hlog1 : Real.log (1 + 1 / 2 ^ 23) ≤ 1 / 2 ^ 23 := by
    have := Real.log_le_sub_one_of_pos (show (0 : ℝ) < 1 + 1 / 2 ^ 23 by norm_num)
    linarith
  have range : ∀ f : FloatFormat, f.emin ≤ -26 - f.prec → LogRange f 1 (1 + 1 / 2 ^ 23) := by
    intro f h
    have h2 : (2 : ℝ) ^ (2 : Int) ≤ (2 : ℝ) ^ (f.emax - 2) := zpow_le_zpow_right₀ one_le_two (by have := f.emax_gt; omega)
    have h3 : (1 + 1 / 2 ^ 23 : ℝ) ≤ (2 : ℝ) ^ (2 : Int) := by norm_num
    exact ⟨normal_one le_rfl, h3.trans h2, by rw [div_one]; exact h3.trans h2⟩
  have hsmall : 14 * ((8 : Nat) : ℝ) + 9 * (|Real.log 1| + |Real.log (1 + 1 / 2 ^ 23)|) ≤ 2 ^ 24 / 2 := by
    rw [Real.log_one, abs_zero, abs_of_nonneg hlog0]
    norm_num at hlog1 ⊢
    linarith
  have hfac := factorIn_computed (p := 24) (by norm_num) hA hB hB (by decide) (by decide) (by decide) own b1
    (range _ (by decide)) (range _ (by decide)) (range _ (by decide)) (n := 8) (by norm_num) hsmall
  have hone : logFactorIn FloatFormat.float FloatFormat.double FloatFormat.double own 1 (1 + 1 / 2 ^ 23) 8 = 1 := by
    -- the computed difference of the logarithms
    have hd : logRatioIn FloatFormat.float FloatFormat.double FloatFormat.double own 1 (1 + 1 / 2 ^ 23) ≤ 1 / 2 ^ 23 := by
      have up : ∀ (f : FloatFormat), f.emin ≤ -26 → ∀ x : ℝ, x ≤ 1 / 2 ^ 23 → f.rn x ≤ 1 / 2 ^ 23 := by
        intro f hf x hx
        have := fl_mono (f := f) hx
        rwa [fl_value (two f hf)] at this
      unfold logRatioIn
      cases own
      · simp only [Bool.false_eq_true, if_false]
        rw [fl_value (val FloatFormat.double (by decide)), fl_value one_value, Real.log_one, fl_zero, sub_zero]
        exact up _ (by decide) _ (up _ (by decide) _ (up _ (by decide) _ hlog1))
      · simp only [if_true]
        rw [Real.log_one, fl_zero, sub_zero]
        exact up _ (by decide) _ (up _ (by decide) _ (up _ (by decide) _ hlog1))
    have hd0 := (logRatio_error (fa := FloatFormat.float) (fb := FloatFormat.double) (fc := FloatFormat.double) (p := 24) (by norm_num)
      (by decide) (by decide) (by decide) own b1 (range FloatFormat.double (by decide)).normal).1
    have hy0 : 0 ≤ logExponentIn FloatFormat.float FloatFormat.double FloatFormat.double own 1 (1 + 1 / 2 ^ 23) 8 :=
      fl_nonneg (div_nonneg hd0 (by norm_num))
    have hy : logExponentIn FloatFormat.float FloatFormat.double FloatFormat.double own 1 (1 + 1 / 2 ^ 23) 8 ≤ 1 / 2 ^ 26 := by
      unfold logExponentIn
      have h1 : logRatioIn FloatFormat.float FloatFormat.double FloatFormat.double own 1 (1 + 1 / 2 ^ 23) / ((8 : Nat) : ℝ) ≤ 1 / 2 ^ 26 := by
        rw [div_le_iff₀ (by norm_num)]
        refine hd.trans (le_of_eq ?_)
        norm_num
      have h2 := fl_mono (f := FloatFormat.double) h1
      have h3 : InFormat FloatFormat.double (1 / 2 ^ 26 : ℝ) := by
        have := two_zpow_value (f := FloatFormat.double) (K := ℝ) (e := -26) (by decide)
        rwa [zpow_neg, ← one_div] at this
      rwa [fl_value h3] at h2
    have hE1 := (e_error (fb := FloatFormat.double) (fc := FloatFormat.double) (p := 24) (by norm_num) (by decide) (by decide)).1
    have hE3 : FloatFormat.double.rn (FloatFormat.double.rn (Real.exp 1)) ≤ 3 := by
      have v3 : InFormat FloatFormat.double (3 : ℝ) := by
        have := int_value (f := FloatFormat.double) (K := ℝ) (n := 3) (by decide)
        exact_mod_cast this
      have h1 : Real.exp 1 ≤ 3 := by
        have := Real.exp_one_lt_d9
        norm_num at this
        linarith
      have h2 := fl_mono (f := FloatFormat.double) (fl_mono (f := FloatFormat.double) h1)
      rwa [fl_value v3, fl_value v3] at h2
    unfold logFactorIn
    generalize logExponentIn FloatFormat.float FloatFormat.double FloatFormat.double own 1 (1 + 1 / 2 ^ 23) 8 = y at *
    generalize FloatFormat.double.rn (FloatFormat.double.rn (Real.exp 1)) = E at *
    have hP1 : 1 ≤ E ^ y := Real.one_le_rpow hE1 hy0
    have hP2 : E ^ y ≤ 1 + 3 / 2 ^ 26 := by
      have hl : Real.log E ≤ 2 := by
        have := Real.log_le_sub_one_of_pos (show 0 < E by linarith)
        linarith
      have hl0 := Real.log_nonneg hE1
      rw [Real.rpow_def_of_pos (by linarith)]
      have h1 : Real.log E * y ≤ 2 * (1 / 2 ^ 26) := mul_le_mul hl hy hy0 (by norm_num)
      have h2 : 0 ≤ Real.log E * y := mul_nonneg hl0 hy0
      have h3 := (abs_le.1 (Real.abs_exp_sub_one_sub_id_le (x := Real.log E * y) (by rw [abs_of_nonneg h2]; norm_num at h1 ⊢; linarith))).2
      generalize Real.log E * y = z at *
      have h4 : z ^ 2 ≤ (2 * (1 / 2 ^ 26)) ^ 2 := pow_le_pow_left₀ h2 h1 2
      norm_num at h1 h4 ⊢
      linarith
    refine fl_near_one (one_le_fl hP1) ?_
    have v : InFormat FloatFormat.double (1 + 3 / 2 ^ 26 : ℝ) := ⟨2 ^ 26 + 3, -26, by decide, by decide, by norm_num⟩
    have := fl_mono (f := FloatFormat.double) hP2
    rw [fl_value v] at this
    refine this.trans_lt ?_
    show _ < 1 + 1 / (2 : ℝ) ^ 24
    norm_num
  refine ⟨⟨.fin 1, .fin 1, .fin 1, .fin (1 + 1 / 2 ^ 23), 8, 0⟩, ?_, fun k => stays_at_one hA.format _ 8 k⟩
  unfold LogSpace.newIn
  rw [Num.lt_fin, if_pos (decide_eq_true (by norm_num)), hfac, hone]

/-- The arithmetic of a format with the elementary functions of the real numbers. -/
noncomputable def formatReal (f : FloatFormat) : Arith ℝ :=
  ⟨f.rnd, Real.sqrt, Real.exp, Real.log, Real.rpow, Real.sin, Real.cos, Real.pi⟩

theorem formatReal_rounds (f : FloatFormat) : RoundsTo (formatReal f) f := ⟨fun _ => rfl, rfl, rfl, rfl⟩

/- The hypotheses hold: `float` from 1 to 8 in 3 steps. -/
example : LogCase (formatReal FloatFormat.float) (formatReal FloatFormat.double) (formatReal FloatFormat.double) FloatFormat.float
    FloatFormat.double FloatFormat.double 24 1 8 3 := by
  have range : ∀ f : FloatFormat, LogRange f 1 8 := by
    intro f
    have h2 : (2 : ℝ) ^ (3 : Int) ≤ (2 : ℝ) ^ (f.emax - 2) := zpow_le_zpow_right₀ one_le_two (by have := f.emax_gt; omega)
    have h3 : (8 : ℝ) ≤ (2 : ℝ) ^ (3 : Int) := by norm_num
    exact ⟨normal_one le_rfl, h3.trans h2, by rw [div_one]; exact h3.trans h2⟩
  refine ⟨by norm_num, formatReal_rounds _, formatReal_rounds _, formatReal_rounds _, by decide, by decide, by decide, range _, range _,
    range _, one_value, by norm_num, by norm_num, ?_⟩
  have h1 : 0 ≤ Real.log 8 := Real.log_nonneg (by norm_num)
  have h2 : Real.log 8 ≤ 7 := by
    have := Real.log_le_sub_one_of_pos (show (0 : ℝ) < 8 by norm_num)
    linarith
  rw [Real.log_one, abs_zero, abs_of_nonneg h1]
  norm_num
  linarith

end Bwsl
