import Verif.Lemmas.Double

/-! Relative errors, in units of half a last place. -/

namespace Bwsl

/-- `x` is `y` up to `k` relative errors of 2⁻⁵³. -/
def Close (k : Nat) (x y : ℝ) : Prop := |x - y| ≤ |y| * (k / 2 ^ 53)

theorem Close.refl (y : ℝ) : Close 0 y y := by simp [Close]

theorem Close.mono {j k : Nat} {x y : ℝ} (h : Close j x y) (hjk : j ≤ k) : Close k x y := by
  unfold Close at *
  refine h.trans (mul_le_mul_of_nonneg_left ?_ (abs_nonneg y))
  have : (j : ℝ) ≤ k := by exact_mod_cast hjk
  gcongr

theorem Close.neg {k : Nat} {x y : ℝ} (h : Close k x y) : Close k (-x) (-y) := by
  unfold Close at *
  rwa [← neg_sub_neg, neg_neg, neg_neg, abs_neg, abs_sub_comm]

theorem Close.abs_le {k : Nat} {x y : ℝ} (h : Close k x y) : |x| ≤ |y| * (1 + k / 2 ^ 53) := by
  unfold Close at h
  have := abs_sub_abs_le_abs_sub x y
  rw [mul_add, mul_one]; linarith

theorem Close.le_abs {k : Nat} {x y : ℝ} (h : Close k x y) : |y| * (1 - k / 2 ^ 53) ≤ |x| := by
  unfold Close at h
  have := abs_sub_abs_le_abs_sub y x
  rw [abs_sub_comm] at this
  rw [mul_sub, mul_one]; linarith

theorem Close.mul_exact {k : Nat} {x y : ℝ} (h : Close k x y) (c : ℝ) : Close k (c * x) (c * y) := by
  unfold Close at *
  rw [← mul_sub, abs_mul, abs_mul, mul_assoc]
  exact mul_le_mul_of_nonneg_left h (abs_nonneg c)

theorem Close.mul {j k : Nat} {x y x' y' : ℝ} (h : Close j x y) (h' : Close k x' y') (hjk : j * k ≤ 2 ^ 53) :
    Close (j + k + 1) (x * x') (y * y') := by
  have hb := h'.abs_le
  unfold Close at *
  have e : x * x' - y * y' = (x - y) * x' + y * (x' - y') := by ring
  have hjk' : (j : ℝ) * k ≤ 2 ^ 53 := by exact_mod_cast hjk
  rw [e, abs_mul y y']
  refine (abs_add_le _ _).trans ?_
  rw [abs_mul, abs_mul]
  have h1 : |x - y| * |x'| ≤ |y| * (j / 2 ^ 53) * (|y'| * (1 + k / 2 ^ 53)) := mul_le_mul h hb (abs_nonneg _) (by positivity)
  have h2 : |y| * |x' - y'| ≤ |y| * (|y'| * (k / 2 ^ 53)) := mul_le_mul_of_nonneg_left h' (abs_nonneg _)
  refine (add_le_add h1 h2).trans ?_
  have h3 : (j : ℝ) / 2 ^ 53 * (k / 2 ^ 53) ≤ 1 / 2 ^ 53 := by
    rw [div_mul_div_comm, div_le_div_iff₀ (by positivity) (by positivity)]
    nlinarith
  have h4 : |y| * (j / 2 ^ 53) * (|y'| * (1 + k / 2 ^ 53)) + |y| * (|y'| * (k / 2 ^ 53)) =
      |y| * |y'| * (j / 2 ^ 53 + k / 2 ^ 53 + (j : ℝ) / 2 ^ 53 * (k / 2 ^ 53)) := by ring
  rw [h4]
  refine mul_le_mul_of_nonneg_left ?_ (by positivity)
  push_cast
  have : ((j : ℝ) + k + 1) / 2 ^ 53 = j / 2 ^ 53 + k / 2 ^ 53 + 1 / 2 ^ 53 := by ring
  linarith

theorem Close.inv {k : Nat} {x y : ℝ} (h : Close k x y) (hy : y ≠ 0) (hk : k ≤ 2 ^ 52) : Close (2 * k) (1 / x) (1 / y) := by
  have hb := h.le_abs
  have hk' : (k : ℝ) / 2 ^ 53 ≤ 1 / 2 := by
    have : (k : ℝ) ≤ 2 ^ 52 := by exact_mod_cast hk
    rw [div_le_iff₀ (by positivity)]
    refine this.trans ?_
    norm_num
  have hy0 : 0 < |y| := abs_pos.2 hy
  have hx : |y| / 2 ≤ |x| := by nlinarith
  have hx0 : 0 < |x| := by linarith
  have hx' : x ≠ 0 := abs_pos.1 hx0
  unfold Close at *
  have e : 1 / x - 1 / y = -(x - y) / (x * y) := by field_simp; ring
  rw [e, abs_div, abs_neg, abs_mul, abs_div, abs_one, div_le_iff₀ (by positivity)]
  refine h.trans ?_
  push_cast
  have e2 : 1 / |y| * (2 * (k : ℝ) / 2 ^ 53) * (|x| * |y|) = |x| * (2 * (k / 2 ^ 53)) := by field_simp
  rw [e2]
  have : 0 ≤ (k : ℝ) / 2 ^ 53 := by positivity
  nlinarith

theorem Close.rn {k : Nat} {x y : ℝ} (h : Close k x y) (hk : k ≤ 2 ^ 53) (hn : x = 0 ∨ (2 : ℝ) ^ (-1022 : Int) ≤ |x|) :
    Close (k + 2) (rn x) y := by
  have h1 := rn_rel' hn
  have h2 := h.abs_le
  have hk' : (k : ℝ) / 2 ^ 53 ≤ 1 := by
    rw [div_le_one (by positivity)]; exact_mod_cast hk
  unfold Close at *
  have h3 : |Bwsl.rn x - y| ≤ |x - Bwsl.rn x| + |x - y| := by
    rw [show Bwsl.rn x - y = -(x - Bwsl.rn x) + (x - y) by ring]
    exact (abs_add_le _ _).trans (by rw [abs_neg])
  have h4 : |x| / 2 ^ 53 ≤ |y| * 2 / 2 ^ 53 := by
    have : |y| * (1 + (k : ℝ) / 2 ^ 53) ≤ |y| * 2 := mul_le_mul_of_nonneg_left (by linarith) (abs_nonneg y)
    gcongr
    linarith
  push_cast
  have h5 : |y| * (((k : ℝ) + 2) / 2 ^ 53) = |y| * 2 / 2 ^ 53 + |y| * (k / 2 ^ 53) := by ring
  linarith

end Bwsl
