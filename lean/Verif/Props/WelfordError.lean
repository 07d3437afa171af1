import Verif.Model.Contracted
import Verif.Props.AccumStats
import Verif.Props.WelfordBound
import Verif.Props.LerpDouble

/-! Property C126: the accuracy of Welford's algorithm in double precision. -/

namespace Bwsl
open Spec

variable {A : Arith ℝ}

/-- The unit of the error bounds for values of modulus up to M: M/2^53, and 2^-1075 for underflow. -/
noncomputable def unitError (M : ℝ) : ℝ := M / 2 ^ 53 + (2 : ℝ) ^ (-1075 : Int)

/-- One step of the mean. -/
theorem mean_step {μ x M N : ℝ} (hμ : Double μ) (hx : Double x) (hμM : |μ| ≤ M) (hxM : |x| ≤ M) (hN : N = 1 ∧ μ = 0 ∨ 2 ≤ N)
    (hN' : N ≤ 2 ^ 48) :
    |rn (μ + rn (rn (x - μ) / N))| ≤ M ∧
    |N * rn (μ + rn (rn (x - μ) / N)) - ((N - 1) * μ + x)| ≤ (N + 5) * unitError M := by
  have hη := two_zpow_pos (K := ℝ) (-1075)
  have hM : 0 ≤ M := (abs_nonneg _).trans hxM
  have hu : 0 ≤ unitError M := by unfold unitError; positivity
  rcases hN with ⟨rfl, rfl⟩ | hN
  · rw [sub_zero, rn_double hx, div_one, rn_double hx, zero_add, rn_double hx]
    refine ⟨hxM, ?_⟩
    rw [show (1 : ℝ) * x - ((1 - 1) * 0 + x) = 0 by ring, abs_zero]
    positivity
  have hin : |rn (μ + rn (rn (x - μ) / N))| ≤ M := by
    obtain ⟨a1, a2⟩ := abs_le.1 hμM
    obtain ⟨b1, b2⟩ := abs_le.1 hxM
    rw [abs_le]
    rcases le_total μ x with h | h
    · obtain ⟨c1, c2⟩ := step_up hμ hx hN h
      exact ⟨a1.trans c1, c2.trans b2⟩
    · obtain ⟨c1, c2⟩ := step_down hμ hx hN h
      exact ⟨b1.trans c1, c2.trans a2⟩
  refine ⟨hin, ?_⟩
  have h1 := rn_rel (hx.mult.sub hμ.mult)
  have hd : |x - μ| ≤ 2 * M := (abs_sub _ _).trans (by linarith)
  unfold unitError at *
  generalize rn (x - μ) = d at *
  have h2 := rn_abs_err (d / N)
  have h3 := rn_rel (hμ.mult.add (rn_isDouble (d / N)).mult)
  generalize rn (d / N) = y at *
  generalize rn (μ + y) = z at *
  have div : ∀ v : ℝ, v / 2 ^ 53 = v * (1 / 2 ^ 53) := fun v => by ring
  rw [div] at h1 h2 h3 hu ⊢
  have hε : (0 : ℝ) ≤ 1 / 2 ^ 53 := by positivity
  have hεN : N * (1 / 2 ^ 53 : ℝ) ≤ 1 / 32 := by
    have := mul_le_mul_of_nonneg_right hN' hε
    refine this.trans ?_
    norm_num
  generalize (1 : ℝ) / 2 ^ 53 = ε at *
  generalize (2 : ℝ) ^ (-1075 : Int) = η at *
  have hε1 : ε ≤ 1 / 64 := by nlinarith
  have hN0 : 0 < N := by linarith
  have hdM : |d| ≤ 2 * M * (1 + ε) := by
    have := abs_sub_abs_le_abs_sub d (x - μ)
    rw [abs_sub_comm d] at this
    nlinarith
  have hzM : |μ + y| ≤ M * (1 + 2 * ε) := by
    have := abs_sub_abs_le_abs_sub (μ + y) z
    have h : |μ + y| * (1 - ε) ≤ M := by nlinarith
    have : |μ + y| * (1 - ε) ≤ M * (1 + 2 * ε) * (1 - ε) := by
      refine h.trans ?_
      have : 0 ≤ M * (ε * (1 - 2 * ε)) := mul_nonneg hM (mul_nonneg hε (by linarith))
      nlinarith
    exact le_of_mul_le_mul_right this (by linarith)
  have e1 : N * |d / N - y| ≤ 2 * M * (1 + ε) * ε + N * η := by
    have : N * |d / N - y| ≤ N * (|d / N| * ε + η) := mul_le_mul_of_nonneg_left h2 hN0.le
    rw [abs_div, abs_of_pos hN0] at this
    have e : N * (|d| / N * ε + η) = |d| * ε + N * η := by field_simp
    rw [e] at this
    have := mul_le_mul_of_nonneg_right hdM hε
    linarith
  have e2 : N * |μ + y - z| ≤ N * (M * (1 + 2 * ε) * ε) := by
    refine mul_le_mul_of_nonneg_left (h3.trans ?_) hN0.le
    exact mul_le_mul_of_nonneg_right hzM hε
  have e3 : |x - μ - d| ≤ 2 * M * ε := h1.trans (mul_le_mul_of_nonneg_right hd hε)
  have tri : |N * z - ((N - 1) * μ + x)| ≤ N * |μ + y - z| + N * |d / N - y| + |x - μ - d| := by
    have e : N * z - ((N - 1) * μ + x) = -(N * (μ + y - z)) + -(N * (d / N - y)) + -(x - μ - d) := by
      field_simp; ring
    rw [e]
    refine (abs_add_le _ _).trans (add_le_add ((abs_add_le _ _).trans ?_) (le_of_eq (abs_neg _)))
    rw [abs_neg, abs_neg, abs_mul, abs_mul, abs_of_pos hN0]
  have hMe : 0 ≤ M * ε := mul_nonneg hM hε
  have s1 : N * (M * (1 + 2 * ε) * ε) ≤ M * ε * N + M * ε * (1 / 16) := by
    have : N * (M * (1 + 2 * ε) * ε) = M * ε * N + M * ε * (2 * (N * ε)) := by ring
    rw [this]
    have := mul_le_mul_of_nonneg_left (show 2 * (N * ε) ≤ 1 / 16 by linarith) hMe
    linarith
  have s2 : 2 * M * (1 + ε) * ε ≤ M * ε * (2 + 1 / 16) := by
    have : 2 * M * (1 + ε) * ε = M * ε * (2 + 2 * ε) := by ring
    rw [this]
    exact mul_le_mul_of_nonneg_left (by linarith) hMe
  have hη5 : 0 ≤ 5 * η := by linarith
  have f : (N + 5) * (M * ε + η) = M * ε * N + 5 * (M * ε) + N * η + 5 * η := by ring
  rw [f]
  linarith

/-- One step of the sum of squared deviations. -/
theorem m2_step {μ μ' m m' q S x M N p q' η₁ η₂ : ℝ} (hμ : Double μ) (hμ' : Double μ') (hx : Double x) (hμM : |μ| ≤ M) (hμM' : |μ'| ≤ M)
    (hxM : |x| ≤ M) (hmM' : |m'| ≤ M) (hN : 1 ≤ N) (hN' : N ≤ 2 ^ 48)
    (he : |μ - m| ≤ unitError M * ((N + 10) / 2)) (he' : |μ' - m'| ≤ unitError M * ((N + 11) / 2))
    (hS0 : 0 ≤ S + (x - m) * (x - m')) (hS : S + (x - m) * (x - m') ≤ N * M ^ 2)
    (hT : |q - S| ≤ M * unitError M * (2 * (N - 1) ^ 2 + 45 * (N - 1)) + 2 * (N - 1) * (2 : ℝ) ^ (-1075 : Int))
    (h3 : |rn (x - μ) * rn (x - μ') - p| ≤ |rn (x - μ) * rn (x - μ')| / 2 ^ 53 + η₁)
    (h4 : |q + p - q'| ≤ |q + p| / 2 ^ 53 + η₂) (hη₁ : 0 ≤ η₁) (hη₂ : 0 ≤ η₂) (hηs : η₁ + η₂ ≤ (2 : ℝ) ^ (-1075 : Int)) :
    |rn (x - μ) * rn (x - μ')| ≤ 5 * M ^ 2 ∧
    |q + p| ≤ N * M ^ 2 + (M * unitError M * (2 * N ^ 2 + 45 * N) + 2 * N * (2 : ℝ) ^ (-1075 : Int)) ∧
    |q' - (S + (x - m) * (x - m'))| ≤
      M * unitError M * (2 * N ^ 2 + 45 * N) + 2 * N * (2 : ℝ) ^ (-1075 : Int) := by
  have hη := two_zpow_pos (K := ℝ) (-1075)
  have hM : 0 ≤ M := (abs_nonneg _).trans hxM
  have hu : 0 ≤ unitError M := by unfold unitError; positivity
  have hMu : M * (1 / 2 ^ 53) ≤ unitError M := by unfold unitError; rw [show M * (1 / 2 ^ 53) = M / 2 ^ 53 by ring]; linarith
  have h1 := rn_rel (hx.mult.sub hμ.mult)
  have h2 := rn_rel (hx.mult.sub hμ'.mult)
  have d1 : |x - μ| ≤ 2 * M := (abs_sub _ _).trans (by linarith)
  have d2 : |x - μ'| ≤ 2 * M := (abs_sub _ _).trans (by linarith)
  have d3 : |x - m'| ≤ 2 * M := (abs_sub _ _).trans (by linarith)
  generalize rn (x - μ) = a at *
  generalize rn (x - μ') = b at *
  have div : ∀ v : ℝ, v / 2 ^ 53 = v * (1 / 2 ^ 53) := fun v => by ring
  rw [div] at h1 h2 h3 h4
  have hε : (0 : ℝ) ≤ 1 / 2 ^ 53 := by positivity
  have hεN : N * (1 / 2 ^ 53 : ℝ) ≤ 1 / 32 := by
    have := mul_le_mul_of_nonneg_right hN' hε
    refine this.trans ?_
    norm_num
  have hε1 : (1 : ℝ) / 2 ^ 53 ≤ 1 / 2 ^ 20 := by norm_num
  generalize unitError M = u at *
  generalize (1 : ℝ) / 2 ^ 53 = ε at *
  generalize (2 : ℝ) ^ (-1075 : Int) = η at *
  have hε2 : ε ≤ 1 / 1024 := hε1.trans (by norm_num)
  have ea : |a - (x - m)| ≤ u * ((N + 14) / 2) := by
    have t : |a - (x - m)| ≤ |x - μ - a| + |μ - m| := by
      have e : a - (x - m) = -(x - μ - a) + -(μ - m) := by ring
      rw [e]
      refine (abs_add_le _ _).trans ?_
      rw [abs_neg, abs_neg]
    have := mul_le_mul_of_nonneg_right d1 hε
    have e : u * ((N + 14) / 2) = u * ((N + 10) / 2) + 2 * u := by ring
    rw [e]
    linarith
  have eb : |b - (x - m')| ≤ u * ((N + 15) / 2) := by
    have t : |b - (x - m')| ≤ |x - μ' - b| + |μ' - m'| := by
      have e : b - (x - m') = -(x - μ' - b) + -(μ' - m') := by ring
      rw [e]
      refine (abs_add_le _ _).trans ?_
      rw [abs_neg, abs_neg]
    have := mul_le_mul_of_nonneg_right d2 hε
    have e : u * ((N + 15) / 2) = u * ((N + 11) / 2) + 2 * u := by ring
    rw [e]
    linarith
  have ha : |a| ≤ 17 / 8 * M := by
    have := abs_sub_abs_le_abs_sub a (x - μ)
    rw [abs_sub_comm a] at this
    have := mul_le_mul d1 hε2 hε (by linarith)
    linarith
  have hb : |b| ≤ 17 / 8 * M := by
    have := abs_sub_abs_le_abs_sub b (x - μ')
    rw [abs_sub_comm b] at this
    have := mul_le_mul d2 hε2 hε (by linarith)
    linarith
  have hab : |a * b| ≤ 289 / 64 * M ^ 2 := by
    rw [abs_mul]
    have := mul_le_mul ha hb (abs_nonneg b) (by linarith)
    have e : 289 / 64 * M ^ 2 = 17 / 8 * M * (17 / 8 * M) := by ring
    rw [e]; exact this
  have hMM : 0 ≤ M ^ 2 := by positivity
  have hMu0 : 0 ≤ M * u := mul_nonneg hM hu
  have hεMM : ε * M ^ 2 ≤ M * u := by
    have := mul_le_mul_of_nonneg_left hMu hM
    have e : ε * M ^ 2 = M * (M * ε) := by ring
    rw [e]; exact this
  have eab : |a * b - (x - m) * (x - m')| ≤ M * u * (33 / 16 * (N + 15)) := by
    have e : a * b - (x - m) * (x - m') = a * (b - (x - m')) + (a - (x - m)) * (x - m') := by ring
    rw [e]
    refine (abs_add_le _ _).trans ?_
    rw [abs_mul, abs_mul]
    have t1 := mul_le_mul ha eb (abs_nonneg _) (by linarith)
    have t2 := mul_le_mul ea d3 (abs_nonneg _) (by positivity)
    have e2 : M * u * (33 / 16 * (N + 15)) = 17 / 8 * M * (u * ((N + 15) / 2)) + u * ((N + 14) / 2) * (2 * M) + M * u := by ring
    rw [e2]
    linarith
  have ep : |p - (x - m) * (x - m')| ≤ M * u * (33 / 16 * N + 36) + η₁ := by
    have t : |p - (x - m) * (x - m')| ≤ |a * b - p| + |a * b - (x - m) * (x - m')| := by
      have e : p - (x - m) * (x - m') = -(a * b - p) + (a * b - (x - m) * (x - m')) := by ring
      rw [e]
      refine (abs_add_le _ _).trans ?_
      rw [abs_neg]
    have t2 : |a * b| * ε ≤ 289 / 64 * (M * u) := by
      have := mul_le_mul_of_nonneg_right hab hε
      have e : 289 / 64 * M ^ 2 * ε = 289 / 64 * (ε * M ^ 2) := by ring
      rw [e] at this
      linarith
    have e2 : M * u * (33 / 16 * N + 36) = M * u * (33 / 16 * (N + 15)) + M * u * (81 / 16) := by ring
    rw [e2]
    have : 289 / 64 * (M * u) ≤ M * u * (81 / 16) := by linarith
    linarith
  have eW : |q + p - (S + (x - m) * (x - m'))| ≤
      M * u * (2 * (N - 1) ^ 2 + 45 * (N - 1)) + 2 * (N - 1) * η + (M * u * (33 / 16 * N + 36) + η₁) := by
    have e : q + p - (S + (x - m) * (x - m')) = (q - S) + (p - (x - m) * (x - m')) := by ring
    rw [e]
    exact (abs_add_le _ _).trans (add_le_add hT ep)
  have sum1 : M * u * (2 * (N - 1) ^ 2 + 45 * (N - 1)) + 2 * (N - 1) * η + (M * u * (33 / 16 * N + 36) + η₁) =
      M * u * (2 * N ^ 2 + 45 * N) + 2 * N * η - (M * u * (31 / 16 * N + 7) + 2 * η - η₁) := by ring
  rw [sum1] at eW
  have hneg : 0 ≤ M * u * (31 / 16 * N + 7) := mul_nonneg hMu0 (by linarith)
  have hW : |q + p| ≤ N * M ^ 2 + (M * u * (2 * N ^ 2 + 45 * N) + 2 * N * η) - (M * u * (31 / 16 * N + 7) + 2 * η - η₁) := by
    have := abs_sub_abs_le_abs_sub (q + p) (S + (x - m) * (x - m'))
    rw [abs_of_nonneg hS0] at this
    linarith
  refine ⟨by linarith, by linarith, ?_⟩
  have tri : |q' - (S + (x - m) * (x - m'))| ≤ |q + p - q'| + |q + p - (S + (x - m) * (x - m'))| := by
    have e : q' - (S + (x - m) * (x - m')) = -(q + p - q') + (q + p - (S + (x - m) * (x - m'))) := by ring
    rw [e]
    refine (abs_add_le _ _).trans ?_
    rw [abs_neg]
  -- the rounding of the sum
  have r1 : |q + p| * ε ≤ M * u * (31 / 16 * N + 7) + η := by
    have hW' : |q + p| ≤ N * M ^ 2 + (M * u * (2 * N ^ 2 + 45 * N) + 2 * N * η) := by linarith
    refine (mul_le_mul_of_nonneg_right hW' hε).trans ?_
    have t1 : N * M ^ 2 * ε ≤ M * u * N := by
      have := mul_le_mul_of_nonneg_right hεMM (show 0 ≤ N by linarith)
      have e : N * M ^ 2 * ε = ε * M ^ 2 * N := by ring
      rw [e]; exact this
    have t2 : (2 * N ^ 2 + 45 * N) * ε ≤ 1 / 16 * N + 2 := by
      have e : (2 * N ^ 2 + 45 * N) * ε = N * ε * (2 * N) + 45 * (N * ε) := by ring
      rw [e]
      have := mul_le_mul_of_nonneg_right hεN (show 0 ≤ 2 * N by linarith)
      linarith
    have t3 : M * u * (2 * N ^ 2 + 45 * N) * ε ≤ M * u * (1 / 16 * N + 2) := by
      rw [mul_assoc]
      exact mul_le_mul_of_nonneg_left t2 hMu0
    have t4 : 2 * N * η * ε ≤ η := by
      have e : 2 * N * η * ε = η * (2 * (N * ε)) := by ring
      rw [e]
      have := mul_le_mul_of_nonneg_left (show 2 * (N * ε) ≤ 1 by linarith) hη.le
      linarith
    have t5 : M * u * N + M * u * (1 / 16 * N + 2) ≤ M * u * (31 / 16 * N + 7) := by
      rw [← mul_add]
      exact mul_le_mul_of_nonneg_left (by linarith) hMu0
    have e : (N * M ^ 2 + (M * u * (2 * N ^ 2 + 45 * N) + 2 * N * η)) * ε =
        N * M ^ 2 * ε + M * u * (2 * N ^ 2 + 45 * N) * ε + 2 * N * η * ε := by ring
    rw [e]
    linarith
  linarith

/-- The bounds are far from overflow. -/
theorem m2_fits {M N : ℝ} (hM0 : 0 ≤ M) (hM : M ≤ (2 : ℝ) ^ (400 : Int)) (hN : 1 ≤ N) (hN' : N ≤ 2 ^ 48) :
    5 * M ^ 2 ≤ (2 : ℝ) ^ (1023 : Int) ∧
    N * M ^ 2 + (M * unitError M * (2 * N ^ 2 + 45 * N) + 2 * N * (2 : ℝ) ^ (-1075 : Int)) ≤ (2 : ℝ) ^ (1023 : Int) := by
  have h1 : (1 : ℝ) ≤ (2 : ℝ) ^ (400 : Int) := by
    rw [show (1 : ℝ) = (2 : ℝ) ^ (0 : Int) by simp]; exact zpow_le_zpow_right₀ one_le_two (by norm_num)
  have h2 : (2 : ℝ) ^ (-1075 : Int) ≤ 1 := by
    rw [show (1 : ℝ) = (2 : ℝ) ^ (0 : Int) by simp]; exact zpow_le_zpow_right₀ one_le_two (by norm_num)
  have hη := two_zpow_pos (K := ℝ) (-1075)
  have e : (2 : ℝ) ^ (1023 : Int) = 2 ^ 223 * ((2 : ℝ) ^ (400 : Int)) ^ 2 := by
    rw [show (2 : ℝ) ^ 223 = (2 : ℝ) ^ (223 : Int) by norm_cast, sq, ← zpow_add₀ two_ne_zero, ← zpow_add₀ two_ne_zero]
    norm_num
  rw [e]
  clear e
  unfold unitError
  generalize (2 : ℝ) ^ (400 : Int) = c at *
  generalize (2 : ℝ) ^ (-1075 : Int) = η at *
  have hMc : M ^ 2 ≤ c ^ 2 := pow_le_pow_left₀ hM0 hM 2
  have hc2 : 1 ≤ c ^ 2 := one_le_pow₀ h1
  have hcc : c ≤ c ^ 2 := by nlinarith
  constructor
  · calc 5 * M ^ 2 ≤ 5 * c ^ 2 := by linarith
      _ ≤ _ := mul_le_mul_of_nonneg_right (by norm_num) (by linarith)
  · have hu : M / 2 ^ 53 + η ≤ 2 * c := by
      have : M / 2 ^ 53 ≤ M := div_le_self hM0 (by norm_num)
      linarith
    have hu0 : 0 ≤ M / 2 ^ 53 + η := by positivity
    have hMu : M * (M / 2 ^ 53 + η) ≤ 2 * c ^ 2 := by
      have := mul_le_mul hM hu hu0 (by linarith)
      have e : c * (2 * c) = 2 * c ^ 2 := by ring
      linarith
    have hN2 : 2 * N ^ 2 + 45 * N ≤ 2 ^ 100 := by
      have a : N ^ 2 ≤ (2 ^ 48) ^ 2 := pow_le_pow_left₀ (by linarith) hN' 2
      have b : (2 : ℝ) * (2 ^ 48) ^ 2 + 45 * 2 ^ 48 ≤ 2 ^ 100 := by norm_num
      linarith
    have t1 : N * M ^ 2 ≤ 2 ^ 48 * c ^ 2 := mul_le_mul hN' hMc (by positivity) (by norm_num)
    have t2 : M * (M / 2 ^ 53 + η) * (2 * N ^ 2 + 45 * N) ≤ 2 * c ^ 2 * 2 ^ 100 :=
      mul_le_mul hMu hN2 (by positivity) (by positivity)
    have t3 : 2 * N * η ≤ 2 * 2 ^ 48 * c ^ 2 := by
      have := mul_le_mul (show 2 * N ≤ 2 * 2 ^ 48 by linarith) (h2.trans hc2) hη.le (by norm_num)
      exact this
    have t4 : 2 ^ 48 * c ^ 2 + (2 * c ^ 2 * 2 ^ 100 + 2 * 2 ^ 48 * c ^ 2) ≤ 2 ^ 223 * c ^ 2 := by
      have e : 2 ^ 48 * c ^ 2 + (2 * c ^ 2 * 2 ^ 100 + 2 * 2 ^ 48 * c ^ 2) = (3 * 2 ^ 48 + 2 * 2 ^ 100) * c ^ 2 := by ring
      rw [e]
      exact mul_le_mul_of_nonneg_right (by norm_num) (by linarith)
    linarith

theorem avg_bound {xs : List ℝ} {M : ℝ} (hM : 0 ≤ M) (h : ∀ x ∈ xs, |x| ≤ M) : |avg xs| ≤ M := by
  unfold avg
  have hs : |xs.sum| ≤ xs.length * M := by
    induction xs with
    | nil => simp
    | cons x xs ih =>
      rw [List.sum_cons, List.length_cons]
      push_cast
      have := ih (fun y hy => h y (by simp [hy]))
      have h1 := h x (by simp)
      have := abs_add_le x xs.sum
      linarith
  rw [abs_div, Nat.abs_cast]
  rcases Nat.eq_zero_or_pos xs.length with h0 | h0
  · rw [h0]; simpa using hM
  · rw [div_le_iff₀ (by exact_mod_cast h0)]; linarith

theorem sqDev_le {xs : List ℝ} {M : ℝ} (h : ∀ x ∈ xs, |x| ≤ M) : sqDev xs ≤ xs.length * M ^ 2 := by
  rw [sqDev_eq]
  have hs : sumSq xs ≤ xs.length * M ^ 2 := by
    unfold sumSq
    induction xs with
    | nil => simp
    | cons x xs ih =>
      rw [List.map_cons, List.sum_cons, List.length_cons]
      push_cast
      have := ih (fun y hy => h y (by simp [hy]))
      have h1 : x ^ 2 ≤ M ^ 2 := sq_le_sq' (neg_le_of_abs_le (h x (by simp))) (le_of_abs_le (h x (by simp)))
      linarith
  have : 0 ≤ xs.sum ^ 2 / xs.length := by positivity
  linarith

theorem avg_append (xs : List ℝ) (x : ℝ) :
    ((xs.length : ℝ) + 1) * avg (xs ++ [x]) = xs.length * avg xs + x := by
  have hn1 : ((xs.length : ℝ) + 1) ≠ 0 := by positivity
  rcases eq_or_ne xs [] with rfl | h
  · simp [avg]
  · have := length_ne h
    unfold avg
    rw [List.sum_append, List.length_append, List.sum_singleton, List.length_singleton]
    push_cast
    field_simp

theorem sqDev_append (xs : List ℝ) (x : ℝ) :
    sqDev (xs ++ [x]) = sqDev xs + (x - avg xs) * (x - avg (xs ++ [x])) := by
  have e : sumSq (xs ++ [x]) = sumSq xs + x ^ 2 := by unfold sumSq; simp
  rw [sqDev_eq, sqDev_eq, e, List.sum_append, List.length_append, List.sum_singleton, List.length_singleton]
  rcases eq_or_ne xs [] with rfl | h
  · simp [avg]
  · have := length_ne h
    have hn1 : ((xs.length : ℝ) + 1) ≠ 0 := by positivity
    unfold avg
    rw [List.sum_append, List.length_append, List.sum_singleton, List.length_singleton]
    push_cast
    field_simp; ring

/-- The state after adding `xs`. -/
theorem kw_error_contracted (hA : A.IsBinary64) (fused : Bool) {M : ℝ} (hM : M ≤ (2 : ℝ) ^ (400 : Int)) (xs : List ℝ) (hx : ∀ x ∈ xs, Double x ∧ |x| ≤ M)
    (hM0 : 0 ≤ M) (hn : xs.length ≤ 2 ^ 48) :
    ∃ μ q : ℝ, (xs.map .fin).foldl (KnuthWelford.addContracted fused) (KnuthWelford.new : KnuthWelford (Num A)) = ⟨.fin μ, .fin q, xs.length⟩ ∧
      Double μ ∧ Double q ∧ |μ| ≤ M ∧ (xs = [] → μ = 0) ∧
      |μ - avg xs| ≤ unitError M * ((xs.length + 11) / 2) ∧
      |q - sqDev xs| ≤ M * unitError M * (2 * (xs.length : ℝ) ^ 2 + 45 * xs.length) + 2 * xs.length * (2 : ℝ) ^ (-1075 : Int) := by
  have hu : 0 ≤ unitError M := by unfold unitError; have := two_zpow_pos (K := ℝ) (-1075); positivity
  induction xs using List.reverseRecOn with
  | nil =>
    refine ⟨0, 0, by simp [KnuthWelford.new, Num.zero_eq], double_zero, double_zero, by simpa using hM0, fun _ => rfl, ?_, ?_⟩
    · simp only [avg, List.sum_nil, List.length_nil, Nat.cast_zero, div_zero, sub_zero, abs_zero]
      positivity
    · simp [sqDev]
  | append_singleton ys x ih =>
    rw [List.length_append, List.length_singleton] at hn
    obtain ⟨μ, q, hs, hμ, hq, hμM, hμ0, he, hT⟩ := ih (fun y hy => hx y (by simp [hy])) (by omega)
    obtain ⟨hxd, hxM⟩ := hx x (by simp)
    rw [List.map_append, List.foldl_append, hs, List.map_singleton, List.foldl_cons, List.foldl_nil]
    have hcnt : succU ys.length = ys.length + 1 := Nat.mod_eq_of_lt (by omega)
    have hlen : (((ys ++ [x]).length : Nat) : ℝ) = (ys.length : ℝ) + 1 := by simp
    rw [hlen]
    have hn1 : ((ys.length + 1 : Nat) : ℝ) = (ys.length : ℝ) + 1 := by push_cast; rfl
    have hN' : (ys.length : ℝ) + 1 ≤ 2 ^ 48 := by rw [← hn1]; exact_mod_cast hn
    have hN1 : (1 : ℝ) ≤ (ys.length : ℝ) + 1 := by have : (0 : ℝ) ≤ ys.length := Nat.cast_nonneg _; linarith
    have hN : (ys.length : ℝ) + 1 = 1 ∧ μ = 0 ∨ 2 ≤ (ys.length : ℝ) + 1 := by
      rcases Nat.eq_zero_or_pos ys.length with h | h
      · left
        exact ⟨by rw [h]; simp, hμ0 (List.eq_nil_of_length_eq_zero h)⟩
      · right
        have : (1 : ℝ) ≤ ys.length := by exact_mod_cast h
        linarith
    obtain ⟨hin, hst⟩ := mean_step hμ hxd hμM hxM hN hN'
    -- the mean
    have hmean := avg_append ys x
    have he' : |rn (μ + rn (rn (x - μ) / ((ys.length : ℝ) + 1))) - avg (ys ++ [x])| ≤
        unitError M * (((ys.length : ℝ) + 1 + 11) / 2) := by
      generalize rn (μ + rn (rn (x - μ) / ((ys.length : ℝ) + 1))) = μ' at *
      have hN0 : (0 : ℝ) < (ys.length : ℝ) + 1 := by linarith
      have key : |((ys.length : ℝ) + 1) * (μ' - avg (ys ++ [x]))| ≤
          ((ys.length : ℝ) + 1) * (unitError M * (((ys.length : ℝ) + 1 + 11) / 2)) := by
        have e : ((ys.length : ℝ) + 1) * (μ' - avg (ys ++ [x])) =
            (((ys.length : ℝ) + 1) * μ' - (((ys.length : ℝ) + 1 - 1) * μ + x)) + ys.length * (μ - avg ys) := by
          rw [mul_sub, hmean]; ring
        rw [e]
        refine (abs_add_le _ _).trans ?_
        rw [abs_mul, Nat.abs_cast]
        have h0 : (0 : ℝ) ≤ ys.length := Nat.cast_nonneg _
        have := mul_le_mul_of_nonneg_left he h0
        refine (add_le_add hst this).trans (le_of_eq ?_)
        ring
      rw [abs_mul, abs_of_pos hN0] at key
      exact le_of_mul_le_mul_left key hN0
    -- the squares
    have hsq := sqDev_append ys x
    have hall : ∀ y ∈ ys ++ [x], |y| ≤ M := fun y hy => (hx y hy).2
    have hS0 := sqDev_nonneg (ys ++ [x])
    have hS := sqDev_le hall
    have hm' := avg_bound hM0 hall
    rw [hlen] at hS
    rw [hsq] at hS0 hS ⊢
    have he1 : |μ - avg ys| ≤ unitError M * (((ys.length : ℝ) + 1 + 10) / 2) := by
      refine he.trans (le_of_eq ?_); ring
    have hT1 : |q - sqDev ys| ≤ M * unitError M * (2 * ((ys.length : ℝ) + 1 - 1) ^ 2 + 45 * ((ys.length : ℝ) + 1 - 1)) +
        2 * ((ys.length : ℝ) + 1 - 1) * (2 : ℝ) ^ (-1075 : Int) := by
      rw [add_sub_cancel_right]; exact hT
    have hη := two_zpow_pos (K := ℝ) (-1075)
    obtain ⟨f1, f2⟩ := m2_fits hM0 hM hN1 hN'
    -- the steps do not overflow
    have big : 2 * M ≤ (2 : ℝ) ^ (1023 : Int) := by
      have h1 : (2 : ℝ) ^ (1 : Int) * (2 : ℝ) ^ (400 : Int) ≤ (2 : ℝ) ^ (1023 : Int) := by
        rw [← zpow_add₀ two_ne_zero]; exact zpow_le_zpow_right₀ one_le_two (by norm_num)
      rw [zpow_one] at h1
      exact le_trans (mul_le_mul_of_nonneg_left hM (by norm_num)) h1
    have hd : |x - μ| ≤ 2 * M := (abs_sub _ _).trans (by linarith)
    have hd' : |x - rn (μ + rn (rn (x - μ) / ((ys.length : ℝ) + 1)))| ≤ 2 * M := (abs_sub _ _).trans (by linarith)
    have r : ∀ {y : ℝ}, |y| ≤ (2 : ℝ) ^ (1023 : Int) → Num.round A y = .fin (rn y) := fun h => round_of_le_two hA h
    have dbig : Double ((2 : ℝ) ^ (1023 : Int)) := double_two_zpow (by norm_num)
    have rbig : ∀ {y : ℝ}, |y| ≤ (2 : ℝ) ^ (1023 : Int) → |rn y| ≤ (2 : ℝ) ^ (1023 : Int) := by
      intro y hy
      rw [rn_abs_eq]
      have := rn_mono hy
      rwa [rn_double dbig] at this
    have hdr : |rn (x - μ)| ≤ (2 : ℝ) ^ (1023 : Int) := rbig (hd.trans big)
    have hdn : |rn (x - μ) / ((ys.length : ℝ) + 1)| ≤ (2 : ℝ) ^ (1023 : Int) := by
      rw [abs_div, abs_of_pos (by linarith : (0 : ℝ) < (ys.length : ℝ) + 1)]
      exact (div_le_self (abs_nonneg _) hN1).trans hdr
    have hfin : A.rnd (μ + rn (rn (x - μ) / ((ys.length : ℝ) + 1))) = some (rn (μ + rn (rn (x - μ) / ((ys.length : ℝ) + 1)))) := by
      rw [hA, rnd64, if_pos]
      refine hin.trans_lt (hM.trans_lt (zpow_lt_zpow_right₀ one_lt_two (by norm_num)))
    unfold KnuthWelford.addContracted
    dsimp only
    rw [hcnt, Num.fin_sub, r (hd.trans big), Num.ofNat_eq, round_nat hA (by omega), hn1, Num.fin_div (by linarith), r hdn,
      Num.fin_add, Num.round_of hfin, Num.fin_sub, r (hd'.trans big)]
    have hlen' : (ys ++ [x]).length = ys.length + 1 := by simp
    rw [hlen']
    cases fused with
    | false =>
      obtain ⟨hab, hW, hres⟩ := m2_step hμ (rn_isDouble _) hxd hμM hin hxM hm' hN1 hN' he1 he' hS0 hS hT1 (rn_abs_err _)
        ((rn_rel (hq.mult.add (rn_isDouble _).mult)).trans (le_of_eq (add_zero _).symm)) hη.le le_rfl (by rw [add_zero])
      refine ⟨_, _, ?_, rn_isDouble _, rn_isDouble _, hin, fun h => absurd h (by simp), he', hres⟩
      show (⟨_, _ + _ * _, _⟩ : KnuthWelford (Num A)) = _
      rw [Num.fin_mul, r (hab.trans f1), Num.fin_add, r (hW.trans f2)]
    | true =>
      obtain ⟨hab, hW, hres⟩ := m2_step hμ (rn_isDouble _) hxd hμM hin hxM hm' hN1 hN' he1 he' hS0 hS hT1
        (by rw [sub_self, abs_zero, add_zero]; positivity) (rn_abs_err _) le_rfl hη.le (by rw [zero_add])
      refine ⟨_, _, ?_, rn_isDouble _, rn_isDouble _, hin, fun h => absurd h (by simp), he', hres⟩
      show (⟨_, Num.round A (_ * _ + _), _⟩ : KnuthWelford (Num A)) = _
      rw [add_comm (_ * _) q, r (hW.trans f2)]

theorem kw_error (hA : A.IsBinary64) {M : ℝ} (hM : M ≤ (2 : ℝ) ^ (400 : Int)) (xs : List ℝ) (hx : ∀ x ∈ xs, Double x ∧ |x| ≤ M)
    (hM0 : 0 ≤ M) (hn : xs.length ≤ 2 ^ 48) :
    ∃ μ q : ℝ, (xs.map .fin).foldl KnuthWelford.addCore (KnuthWelford.new : KnuthWelford (Num A)) = ⟨.fin μ, .fin q, xs.length⟩ ∧
      Double μ ∧ Double q ∧ |μ| ≤ M ∧ (xs = [] → μ = 0) ∧
      |μ - avg xs| ≤ unitError M * ((xs.length + 11) / 2) ∧
      |q - sqDev xs| ≤ M * unitError M * (2 * (xs.length : ℝ) ^ 2 + 45 * xs.length) + 2 * xs.length * (2 : ℝ) ^ (-1075 : Int) :=
  kw_error_contracted hA false hM xs hx hM0 hn

/-! ### The property -/

/-- C126.  After any history in which `xs` are the values since the last reset, at most 2^48 and of modulus at most M ≤ 2^400:
`Mean()` is within (n + 11)/2 units of the mean. -/
theorem C126_mean (hA : A.IsBinary64) (ops : List (AccOp (Num A))) (xs : List ℝ) (h : sinceReset ops = xs.map .fin) (M : ℝ)
    (hM0 : 0 ≤ M) (hM : M ≤ (2 : ℝ) ^ (400 : Int)) (hx : ∀ x ∈ xs, Double x ∧ |x| ≤ M) (hn : xs.length ≤ 2 ^ 48) :
    ∃ μ : ℝ, (runOps KnuthWelford.addCore KnuthWelford.reset KnuthWelford.new ops).getMean = .fin μ ∧
      |μ - avg xs| ≤ (M / 2 ^ 53 + (2 : ℝ) ^ (-1075 : Int)) * ((xs.length + 11) / 2) := by
  rw [(C35_knuthWelford ops).1, h]
  obtain ⟨μ, q, hs, -, -, -, -, he, -⟩ := kw_error hA hM xs hx hM0 hn
  rw [hs]
  exact ⟨μ, rfl, he⟩

theorem contracted_ops (fused : Bool) (ops : List (AccOp (Num A))) :
    runOps (KnuthWelford.addContracted fused) KnuthWelford.reset KnuthWelford.new ops =
      (sinceReset ops).foldl (KnuthWelford.addContracted fused) (KnuthWelford.new : KnuthWelford (Num A)) :=
  runOps_fresh (fun _ => rfl) ops

/-- `ScaledVariance()` is within M (2n² + 45n) units, and 2n/2^1075, of the sum of the squared deviations. -/
theorem scaled_error (hA : A.IsBinary64) (fused : Bool) (ops : List (AccOp (Num A))) (xs : List ℝ) (h : sinceReset ops = xs.map .fin) (M : ℝ)
    (hM0 : 0 ≤ M) (hM : M ≤ (2 : ℝ) ^ (400 : Int)) (hx : ∀ x ∈ xs, Double x ∧ |x| ≤ M) (hn : xs.length ≤ 2 ^ 48)
    (h2 : 2 ≤ xs.length) :
    ∃ q : ℝ, (runOps (KnuthWelford.addContracted fused) KnuthWelford.reset KnuthWelford.new ops).scaledVariance = .fin q ∧
      |q - sqDev xs| ≤ M * (M / 2 ^ 53 + (2 : ℝ) ^ (-1075 : Int)) * (2 * (xs.length : ℝ) ^ 2 + 45 * xs.length) +
        2 * xs.length * (2 : ℝ) ^ (-1075 : Int) := by
  rw [contracted_ops, h]
  obtain ⟨μ, q, hs, -, -, -, -, -, he⟩ := kw_error_contracted hA fused hM xs hx hM0 hn
  rw [hs]
  refine ⟨q, ?_, he⟩
  unfold KnuthWelford.scaledVariance
  rw [if_neg (by dsimp only; omega)]

/-- `Variance(false)` is within M (2n + 47) units, and 4/2^1075, of the population variance, and `Variance(true)` within
M (4n + 94) units, and 8/2^1075, of the sample variance. -/
theorem variance_error (hA : A.IsBinary64) (fused : Bool) (ops : List (AccOp (Num A))) (xs : List ℝ) (h : sinceReset ops = xs.map .fin) (M : ℝ)
    (hM0 : 0 ≤ M) (hM : M ≤ (2 : ℝ) ^ (400 : Int)) (hx : ∀ x ∈ xs, Double x ∧ |x| ≤ M) (hn : xs.length ≤ 2 ^ 48)
    (h2 : 2 ≤ xs.length) :
    (∃ v : ℝ, (runOps (KnuthWelford.addContracted fused) KnuthWelford.reset KnuthWelford.new ops).variance false = .fin v ∧
      |v - sqDev xs / xs.length| ≤ M * (M / 2 ^ 53 + (2 : ℝ) ^ (-1075 : Int)) * (2 * xs.length + 47) +
        4 * (2 : ℝ) ^ (-1075 : Int)) ∧
    (∃ v : ℝ, (runOps (KnuthWelford.addContracted fused) KnuthWelford.reset KnuthWelford.new ops).variance true = .fin v ∧
      |v - sqDev xs / (xs.length - 1)| ≤ M * (M / 2 ^ 53 + (2 : ℝ) ^ (-1075 : Int)) * (4 * xs.length + 94) +
        8 * (2 : ℝ) ^ (-1075 : Int)) := by
  rw [contracted_ops, h]
  obtain ⟨μ, q, hs, -, -, -, -, -, he⟩ := kw_error_contracted hA fused hM xs hx hM0 hn
  rw [hs]
  have hSle := sqDev_le (fun y hy => (hx y hy).2 : ∀ y ∈ xs, |y| ≤ M)
  have hS0 := sqDev_nonneg xs
  have hn2 : (2 : ℝ) ≤ xs.length := by exact_mod_cast h2
  have hn' : (xs.length : ℝ) ≤ 2 ^ 48 := by exact_mod_cast hn
  have hη := two_zpow_pos (K := ℝ) (-1075)
  obtain ⟨-, f2⟩ := m2_fits hM0 hM (by linarith : 1 ≤ (xs.length : ℝ)) hn'
  have key : ∀ (c : Nat), 1 ≤ c → c ≤ xs.length → xs.length ≤ 2 * c →
      ∃ v : ℝ, (.fin q / CxxFloat.ofNat c : Num A) = .fin v ∧
        |v - sqDev xs / c| ≤ (M * unitError M * (2 * (xs.length : ℝ) + 47) + 4 * (2 : ℝ) ^ (-1075 : Int)) * (xs.length / c) := by
    intro c c1 c2 c3
    have hc : (1 : ℝ) ≤ c := by exact_mod_cast c1
    have hc0 : (0 : ℝ) < c := by linarith
    have hcn : (c : ℝ) ≤ xs.length := by exact_mod_cast c2
    have hq : |q| ≤ xs.length * M ^ 2 + (M * unitError M * (2 * (xs.length : ℝ) ^ 2 + 45 * xs.length) +
        2 * xs.length * (2 : ℝ) ^ (-1075 : Int)) := by
      have := abs_sub_abs_le_abs_sub q (sqDev xs)
      rw [abs_of_nonneg hS0] at this
      linarith
    have hqc : |q / c| ≤ (2 : ℝ) ^ (1023 : Int) := by
      rw [abs_div, abs_of_pos hc0]
      exact (div_le_self (abs_nonneg _) hc).trans (hq.trans f2)
    refine ⟨rn (q / c), ?_, ?_⟩
    · rw [Num.ofNat_eq, round_nat hA (by omega), Num.fin_div hc0.ne', round_of_le_two hA hqc]
    · have hr := rn_abs_err (q / c)
      have hu : 0 ≤ unitError M := by unfold unitError; positivity
      have hMu : M * (1 / 2 ^ 53) ≤ unitError M := by
        unfold unitError; rw [show M * (1 / 2 ^ 53) = M / 2 ^ 53 by ring]; linarith
      have hMu0 : 0 ≤ M * unitError M := mul_nonneg hM0 hu
      have hε : (0 : ℝ) ≤ 1 / 2 ^ 53 := by positivity
      have hεN : (xs.length : ℝ) * (1 / 2 ^ 53) ≤ 1 / 32 := by
        refine (mul_le_mul_of_nonneg_right hn' hε).trans ?_
        norm_num
      rw [show |q / c| / 2 ^ 53 = |q| * (1 / 2 ^ 53) / c by rw [abs_div, abs_of_pos hc0]; ring] at hr
      generalize rn (q / c) = v at *
      generalize unitError M = u at *
      generalize (1 : ℝ) / 2 ^ 53 = ε at *
      generalize (2 : ℝ) ^ (-1075 : Int) = η at *
      generalize (xs.length : ℝ) = N at *
      have hqε : |q| * ε ≤ N * (M * u * 2) + N * η := by
        refine (mul_le_mul_of_nonneg_right hq hε).trans ?_
        have t1 : N * M ^ 2 * ε ≤ N * (M * u) := by
          have := mul_le_mul_of_nonneg_left (mul_le_mul_of_nonneg_left hMu hM0) (by linarith : 0 ≤ N)
          have e : N * M ^ 2 * ε = N * (M * (M * ε)) := by ring
          rw [e]; exact this
        have t2 : M * u * (2 * N ^ 2 + 45 * N) * ε ≤ N * (M * u) := by
          have e : M * u * (2 * N ^ 2 + 45 * N) * ε = M * u * (N * ε * (2 * N + 45)) := by ring
          rw [e]
          have h3 : N * ε * (2 * N + 45) ≤ N := by
            have := mul_le_mul_of_nonneg_right hεN (by linarith : (0 : ℝ) ≤ 2 * N + 45)
            linarith
          have := mul_le_mul_of_nonneg_left h3 hMu0
          linarith
        have t3 : 2 * N * η * ε ≤ N * η := by
          have e : 2 * N * η * ε = η * (2 * (N * ε)) := by ring
          rw [e]
          have := mul_le_mul_of_nonneg_left (show 2 * (N * ε) ≤ N by linarith) hη.le
          linarith
        have e : (N * M ^ 2 + (M * u * (2 * N ^ 2 + 45 * N) + 2 * N * η)) * ε =
            N * M ^ 2 * ε + M * u * (2 * N ^ 2 + 45 * N) * ε + 2 * N * η * ε := by ring
        rw [e]
        linarith
      have tri : |v - sqDev xs / c| ≤ |q / c - v| + |q - sqDev xs| / c := by
        have e : v - sqDev xs / c = -(q / c - v) + (q - sqDev xs) / c := by ring
        rw [e]
        refine (abs_add_le _ _).trans ?_
        rw [abs_neg, abs_div, abs_of_pos hc0]
      refine tri.trans ((add_le_add hr (div_le_div_of_nonneg_right he hc0.le)).trans ?_)
      have hη1 : η ≤ N * η / c := by
        rw [le_div_iff₀ hc0]
        have := mul_le_mul_of_nonneg_right hcn hη.le
        linarith
      have hfin : |q| * ε / c + η + (M * u * (2 * N ^ 2 + 45 * N) + 2 * N * η) / c ≤
          (N * (M * u * 2) + N * η) / c + N * η / c + (M * u * (2 * N ^ 2 + 45 * N) + 2 * N * η) / c := by
        have := div_le_div_of_nonneg_right hqε hc0.le
        linarith
      refine hfin.trans (le_of_eq ?_)
      field_simp
      ring
  have hN0 : (0 : ℝ) < xs.length := by linarith
  constructor
  · obtain ⟨v, hv, hb⟩ := key xs.length (by omega) le_rfl (by omega)
    refine ⟨v, ?_, ?_⟩
    · unfold KnuthWelford.variance
      rw [if_neg (by dsimp only; omega)]
      exact hv
    · rw [div_self hN0.ne', mul_one] at hb
      exact hb
  · obtain ⟨v, hv, hb⟩ := key (xs.length - 1) (by omega) (by omega) (by omega)
    have hc : ((xs.length - 1 : Nat) : ℝ) = (xs.length : ℝ) - 1 := by rw [Nat.cast_sub (by omega)]; simp
    refine ⟨v, ?_, ?_⟩
    · unfold KnuthWelford.variance
      rw [if_neg (by dsimp only; omega)]
      have hu : usub xs.length 1 = xs.length - 1 := by unfold usub; omega
      dsimp only
      rw [if_pos rfl, hu]
      exact hv
    · rw [hc] at hb
      refine hb.trans ?_
      have hr : (xs.length : ℝ) / (xs.length - 1) ≤ 2 := by
        rw [div_le_iff₀ (by linarith)]; linarith
      have hpos : 0 ≤ M * unitError M * (2 * (xs.length : ℝ) + 47) + 4 * (2 : ℝ) ^ (-1075 : Int) := by
        have hu : 0 ≤ unitError M := by unfold unitError; positivity
        positivity
      refine (mul_le_mul_of_nonneg_left hr hpos).trans (le_of_eq ?_)
      unfold unitError
      ring

/-- C126.  `ScaledVariance()` is within M (2n² + 45n) units, and 2n/2^1075, of the sum of the squared deviations. -/
theorem C126_scaled (hA : A.IsBinary64) (ops : List (AccOp (Num A))) (xs : List ℝ) (h : sinceReset ops = xs.map .fin) (M : ℝ)
    (hM0 : 0 ≤ M) (hM : M ≤ (2 : ℝ) ^ (400 : Int)) (hx : ∀ x ∈ xs, Double x ∧ |x| ≤ M) (hn : xs.length ≤ 2 ^ 48)
    (h2 : 2 ≤ xs.length) :
    ∃ q : ℝ, (runOps KnuthWelford.addCore KnuthWelford.reset KnuthWelford.new ops).scaledVariance = .fin q ∧
      |q - sqDev xs| ≤ M * (M / 2 ^ 53 + (2 : ℝ) ^ (-1075 : Int)) * (2 * (xs.length : ℝ) ^ 2 + 45 * xs.length) +
        2 * xs.length * (2 : ℝ) ^ (-1075 : Int) :=
  scaled_error hA false ops xs h M hM0 hM hx hn h2

/-- C126.  `Variance(false)` is within M (2n + 47) units, and 4/2^1075, of the population variance, and `Variance(true)` within
M (4n + 94) units, and 8/2^1075, of the sample variance. -/
theorem C126_variance (hA : A.IsBinary64) (ops : List (AccOp (Num A))) (xs : List ℝ) (h : sinceReset ops = xs.map .fin) (M : ℝ)
    (hM0 : 0 ≤ M) (hM : M ≤ (2 : ℝ) ^ (400 : Int)) (hx : ∀ x ∈ xs, Double x ∧ |x| ≤ M) (hn : xs.length ≤ 2 ^ 48)
    (h2 : 2 ≤ xs.length) :
    (∃ v : ℝ, (runOps KnuthWelford.addCore KnuthWelford.reset KnuthWelford.new ops).variance false = .fin v ∧
      |v - sqDev xs / xs.length| ≤ M * (M / 2 ^ 53 + (2 : ℝ) ^ (-1075 : Int)) * (2 * xs.length + 47) +
        4 * (2 : ℝ) ^ (-1075 : Int)) ∧
    (∃ v : ℝ, (runOps KnuthWelford.addCore KnuthWelford.reset KnuthWelford.new ops).variance true = .fin v ∧
      |v - sqDev xs / (xs.length - 1)| ≤ M * (M / 2 ^ 53 + (2 : ℝ) ^ (-1075 : Int)) * (4 * xs.length + 94) +
        8 * (2 : ℝ) ^ (-1075 : Int)) :=
  variance_error hA false ops xs h M hM0 hM hx hn h2

example : (0 : ℝ) ≤ 1 ∧ (1 : ℝ) ≤ (2 : ℝ) ^ (400 : Int) ∧ ∀ x ∈ ([0, 1, -1] : List ℝ), Double x ∧ |x| ≤ 1 := by
  refine ⟨by norm_num, ?_, ?_⟩
  · rw [show (1 : ℝ) = (2 : ℝ) ^ (0 : Int) by simp]; exact zpow_le_zpow_right₀ one_le_two (by norm_num)
  · intro x hx
    simp only [List.mem_cons, List.not_mem_nil, or_false] at hx
    rcases hx with rfl | rfl | rfl
    · exact ⟨double_zero, by norm_num⟩
    · exact ⟨⟨1, 0, by norm_num, by norm_num, by norm_num⟩, by norm_num⟩
    · exact ⟨⟨-1, 0, by norm_num, by norm_num, by norm_num⟩, by norm_num⟩

end Bwsl
