import Verif.Props.AccumStats
import Verif.Props.WestDouble
import Verif.Props.WelfordError

/-! Property C127: the accuracy of West's algorithm in double precision. -/

namespace Bwsl
open Spec

variable {A : Arith ℝ}

/-- One step of the sum of the weights. -/
theorem west_weight_step {Wh W w N : ℝ} (hW : 0 ≤ W) (hw : 0 < w) (hD : Double Wh) (hwD : Double w) (hN : 1 ≤ N)
    (hN' : N ≤ 2 ^ 48) (h : |Wh - W| ≤ 9 / 8 * ((N - 1) * (1 / 2 ^ 53)) * W) :
    |rn (Wh + w) - (W + w)| ≤ 9 / 8 * (N * (1 / 2 ^ 53)) * (W + w) := by
  have h1 := rn_rel (hD.mult.add hwD.mult)
  rw [show |Wh + w| / 2 ^ 53 = |Wh + w| * (1 / 2 ^ 53) by ring] at h1
  have hε : (0 : ℝ) ≤ 1 / 2 ^ 53 := by positivity
  have hεN : N * (1 / 2 ^ 53 : ℝ) ≤ 1 / 32 := by
    have := mul_le_mul_of_nonneg_right hN' hε
    refine this.trans ?_
    norm_num
  generalize (1 : ℝ) / 2 ^ 53 = ε at *
  generalize rn (Wh + w) = V at *
  have hWh : |Wh| ≤ W * (9 / 8) := by
    have := abs_sub_abs_le_abs_sub Wh W
    rw [abs_of_nonneg hW] at this
    have h2 : 9 / 8 * ((N - 1) * ε) * W ≤ 1 / 8 * W := by
      refine mul_le_mul_of_nonneg_right ?_ hW
      linarith
    linarith
  have h3 : |Wh + w| ≤ 9 / 8 * (W + w) := by
    have := abs_add_le Wh w
    rw [abs_of_pos hw] at this
    linarith
  have h4 := mul_le_mul_of_nonneg_right h3 hε
  have e : V - (W + w) = -(Wh + w - V) + (Wh - W) := by ring
  rw [e]
  refine (abs_add_le _ _).trans ?_
  rw [abs_neg]
  have h5 : 9 / 8 * ((N - 1) * ε) * W ≤ 9 / 8 * ((N - 1) * ε) * (W + w) := by
    refine mul_le_mul_of_nonneg_left (by linarith) ?_
    have := mul_nonneg (show 0 ≤ N - 1 by linarith) hε
    linarith
  have e2 : 9 / 8 * (N * ε) * (W + w) = 9 / 8 * (W + w) * ε + 9 / 8 * ((N - 1) * ε) * (W + w) := by ring
  rw [e2]
  linarith

/-- The errors of the product and of the sum, together with at most one underflow. -/
theorem prodIn_err (fused : Bool) (y : ℝ) : ∃ η₁ η₂ : ℝ, 0 ≤ η₁ ∧ 0 ≤ η₂ ∧ η₁ + η₂ ≤ (2 : ℝ) ^ (-1075 : Int) ∧
    |y - prodIn fused y| ≤ |y| / 2 ^ 53 + η₁ ∧
    ∀ z, Double z → |z + prodIn fused y - rn (z + prodIn fused y)| ≤ |z + prodIn fused y| / 2 ^ 53 + η₂ := by
  have hη := (two_zpow_pos (K := ℝ) (-1075)).le
  cases fused with
  | false =>
    exact ⟨_, 0, hη, le_rfl, by rw [add_zero], rn_abs_err y,
      fun z hz => (rn_rel (hz.mult.add (rn_isDouble y).mult)).trans (le_of_eq (add_zero _).symm)⟩
  | true =>
    refine ⟨0, _, le_rfl, hη, by rw [zero_add], ?_, fun z _ => rn_abs_err _⟩
    show |y - y| ≤ _
    rw [sub_self, abs_zero, add_zero]
    positivity

/-- One step of the mean. -/
theorem west_mean_step (fused : Bool) {μ x V Vh w M N : ℝ} (hμ : Double μ) (hx : Double x) (hw : 0 < w) (hwV : w ≤ V) (hN : 1 ≤ N)
    (hN' : N ≤ 2 ^ 48) (hV : |Vh - V| ≤ 9 / 8 * (N * (1 / 2 ^ 53)) * V) (hxM : |x| ≤ M) (hμM : |μ| ≤ M + M / 2 ^ 51)
    (hzM : |rn (μ + prodIn fused (rn (w / Vh) * rn (x - μ)))| ≤ M + M / 2 ^ 51) :
    |rn (μ + prodIn fused (rn (w / Vh) * rn (x - μ))) - (μ + w / V * (x - μ))| ≤ unitError M * (w / V * (3 * N + 7) + 17 / 16) := by
  have hη := two_zpow_pos (K := ℝ) (-1075)
  have hη1 : (2 : ℝ) ^ (-1075 : Int) ≤ 1 / 2 ^ 53 * (1 / 1024) := by
    have e : (1 : ℝ) / 2 ^ 53 * (1 / 1024) = (2 : ℝ) ^ (-63 : Int) := by norm_num
    rw [e]; exact zpow_le_zpow_right₀ one_le_two (by norm_num)
  have hM : 0 ≤ M := (abs_nonneg _).trans hxM
  have hV0 : 0 < V := hw.trans_le hwV
  have h1 := rn_rel (hx.mult.sub hμ.mult)
  have h2 := rn_abs_err (w / Vh)
  obtain ⟨η₁, η₂, hη₁, hη₂, hηs, h3, h4⟩ := prodIn_err fused (rn (w / Vh) * rn (x - μ))
  replace h4 := h4 μ hμ
  have hM51 : M / 2 ^ 51 = 4 * M * (1 / 2 ^ 53) := by norm_num; ring
  rw [hM51] at hμM hzM
  unfold unitError
  have div : ∀ v : ℝ, v / 2 ^ 53 = v * (1 / 2 ^ 53) := fun v => by ring
  rw [div] at h1 h2 h3 h4 ⊢
  have hε : (0 : ℝ) < 1 / 2 ^ 53 := by positivity
  have hεN : N * (1 / 2 ^ 53 : ℝ) ≤ 1 / 32 := by
    have := mul_le_mul_of_nonneg_right hN' hε.le
    refine this.trans ?_
    norm_num
  have hε1 : (1 : ℝ) / 2 ^ 53 ≤ 1 / 4096 := by norm_num
  generalize (1 : ℝ) / 2 ^ 53 = ε at *
  generalize (2 : ℝ) ^ (-1075 : Int) = η at *
  generalize rn (x - μ) = d at *
  generalize rn (w / Vh) = t at *
  generalize prodIn fused (t * d) = p at *
  generalize rn (μ + p) = z at *
  -- the quotient
  have hVh : 247 / 256 * V ≤ Vh := by
    have := (abs_le.1 hV).1
    have h5 : 9 / 8 * (N * ε) * V ≤ 9 / 256 * V := mul_le_mul_of_nonneg_right (by linarith) hV0.le
    linarith
  have hVh0 : 0 < Vh := by linarith
  obtain ⟨θ, hθ⟩ : ∃ θ, θ = w / V := ⟨_, rfl⟩
  rw [← hθ]
  have hwθ : w = θ * V := by rw [hθ]; field_simp
  have hθ0 : 0 ≤ θ := by rw [hθ]; positivity
  have hθ1 : θ ≤ 1 := by rw [hθ]; exact (div_le_one hV0).2 hwV
  have q1 : w / Vh ≤ θ * (256 / 247) := by
    rw [div_le_iff₀ hVh0, hwθ]
    have := mul_le_mul_of_nonneg_left hVh hθ0
    linarith
  have q0 : 0 ≤ w / Vh := by positivity
  have q2 : |w / Vh - θ| ≤ θ * (256 / 247) * (9 / 8) * (N * ε) := by
    have e : w / Vh - θ = w / Vh * ((V - Vh) / V) := by
      rw [hwθ]; field_simp
    rw [e, abs_mul, abs_of_nonneg q0, abs_div, abs_of_pos hV0, abs_sub_comm V]
    have : |Vh - V| / V ≤ 9 / 8 * (N * ε) := by rw [div_le_iff₀ hV0]; exact hV
    calc w / Vh * (|Vh - V| / V) ≤ θ * (256 / 247) * (9 / 8 * (N * ε)) :=
          mul_le_mul q1 this (by positivity) (by positivity)
      _ = _ := by ring
  rw [abs_of_nonneg q0] at h2
  have q3 : |t - θ| ≤ θ * ε * (1.17 * N + 1.04) + η := by
    have e : t - θ = -(w / Vh - t) + (w / Vh - θ) := by ring
    rw [e]
    refine (abs_add_le _ _).trans ?_
    rw [abs_neg]
    have h5 := mul_le_mul_of_nonneg_right q1 hε.le
    have h6 : θ * (256 / 247) * (9 / 8) * (N * ε) ≤ θ * ε * (1.17 * N) := by
      have e : θ * (256 / 247) * (9 / 8) * (N * ε) = θ * ε * (256 / 247 * (9 / 8) * N) := by ring
      rw [e]
      refine mul_le_mul_of_nonneg_left ?_ (by positivity)
      nlinarith
    have h7 : θ * (256 / 247) * ε ≤ θ * ε * 1.04 := by
      have e : θ * (256 / 247) * ε = θ * ε * (256 / 247) := by ring
      rw [e]
      refine mul_le_mul_of_nonneg_left (by norm_num) (by positivity)
    have e2 : θ * ε * (1.17 * N + 1.04) = θ * ε * (1.17 * N) + θ * ε * 1.04 := by ring
    rw [e2]
    linarith
  have q4 : |t| ≤ θ * 1.05 + η := by
    have := abs_sub_abs_le_abs_sub t θ
    rw [abs_of_nonneg hθ0] at this
    have h5 : θ * ε * (1.17 * N + 1.04) ≤ θ * 0.05 := by
      have e : θ * ε * (1.17 * N + 1.04) = θ * (1.17 * (N * ε) + 1.04 * ε) := by ring
      rw [e]
      refine mul_le_mul_of_nonneg_left ?_ hθ0
      linarith
    linarith
  -- the deviation
  have hd : |x - μ| ≤ M * 2.001 := by
    have := abs_sub x μ
    have h5 : M * ε ≤ M * (1 / 4096) := mul_le_mul_of_nonneg_left hε1 hM
    linarith
  have hd2 : |d| ≤ M * 2.002 := by
    have := abs_sub_abs_le_abs_sub d (x - μ)
    rw [abs_sub_comm d] at this
    have h5 : |x - μ| * ε ≤ M * 2.001 * (1 / 4096) := mul_le_mul hd hε1 hε.le (by positivity)
    linarith
  -- the product
  have td : |t * d| ≤ θ * M * 2.11 + M * 2.002 * η := by
    rw [abs_mul]
    have := mul_le_mul q4 hd2 (abs_nonneg _) (by positivity)
    have h5 : 0 ≤ θ * M := by positivity
    linarith
  have p1 : |t * d - θ * (x - μ)| ≤ θ * (M * ε) * (2.35 * N + 4.2) + M * 2.002 * η := by
    have e : t * d - θ * (x - μ) = (t - θ) * d + -(θ * (x - μ - d)) := by ring
    rw [e]
    refine (abs_add_le _ _).trans ?_
    rw [abs_neg, abs_mul, abs_mul, abs_of_nonneg hθ0]
    have h5 := mul_le_mul q3 hd2 (abs_nonneg _) (by positivity)
    have h6 := mul_le_mul_of_nonneg_left (h1.trans (mul_le_mul_of_nonneg_right hd hε.le)) hθ0
    have e2 : (θ * ε * (1.17 * N + 1.04) + η) * (M * 2.002) + θ * (M * 2.001 * ε) =
        θ * (M * ε) * (2.002 * (1.17 * N + 1.04) + 2.001) + M * 2.002 * η := by ring
    have h7 : θ * (M * ε) * (2.002 * (1.17 * N + 1.04) + 2.001) ≤ θ * (M * ε) * (2.35 * N + 4.2) :=
      mul_le_mul_of_nonneg_left (by linarith) (by positivity)
    linarith
  have p2 : |t * d - p| ≤ θ * (M * ε) * 2.11 + M * η + η₁ := by
    refine h3.trans ?_
    have h5 := mul_le_mul_of_nonneg_right td hε.le
    have h6 : M * 2.002 * η * ε ≤ M * η := by
      have e : M * 2.002 * η * ε = M * η * (2.002 * ε) := by ring
      rw [e]
      have := mul_le_mul_of_nonneg_left (show 2.002 * ε ≤ 1 by linarith) (show 0 ≤ M * η by positivity)
      linarith
    linarith
  -- the sum
  have z1 : |μ + p - z| ≤ M * ε * 1.01 + η₂ * (65 / 64) := by
    have h5 : |μ + p| * (1 - ε) ≤ M + 4 * M * ε + η₂ := by
      have := abs_sub_abs_le_abs_sub (μ + p) z
      linarith
    have h6 : |μ + p| ≤ M * 1.01 + η₂ * 2 := by
      have h7 : M + 4 * M * ε + η₂ ≤ (M * 1.01 + η₂ * 2) * (1 - ε) := by
        have e : (M * 1.01 + η₂ * 2) * (1 - ε) - (M + 4 * M * ε + η₂) = M * (0.01 - 5.01 * ε) + η₂ * (1 - 2 * ε) := by ring
        have : 0 ≤ M * (0.01 - 5.01 * ε) := mul_nonneg hM (by linarith)
        have : 0 ≤ η₂ * (1 - 2 * ε) := mul_nonneg hη₂ (by linarith)
        linarith
      exact le_of_mul_le_mul_right (h5.trans h7) (by linarith)
    have := mul_le_mul_of_nonneg_right h6 hε.le
    have h8 : η₂ * ε ≤ η₂ * (1 / 4096) := mul_le_mul_of_nonneg_left hε1 hη₂
    linarith
  have e : z - (μ + θ * (x - μ)) = -(μ + p - z) + (-(t * d - p) + (t * d - θ * (x - μ))) := by ring
  rw [e]
  refine (abs_add_le _ _).trans ?_
  rw [abs_neg]
  refine (add_le_add_right (abs_add_le _ _) _).trans ?_
  rw [abs_neg]
  have hMη : M * η ≤ M * ε * (1 / 1024) := by
    have := mul_le_mul_of_nonneg_left hη1 hM
    linarith
  have hMε : 0 ≤ M * ε := by positivity
  have f1 : θ * (M * ε) * (2.35 * N + 4.2) + θ * (M * ε) * 2.11 ≤ θ * (M * ε) * (3 * N + 7) := by
    rw [← mul_add]
    exact mul_le_mul_of_nonneg_left (by linarith) (by positivity)
  have f2 : 0 ≤ η * (θ * (3 * N + 7)) := by positivity
  have f3 : (M * ε + η) * (θ * (3 * N + 7) + 17 / 16) =
      θ * (M * ε) * (3 * N + 7) + η * (θ * (3 * N + 7)) + M * ε * (17 / 16) + η * (17 / 16) := by ring
  rw [f3]
  linarith

/-- One step of the weighted sum of squared deviations. -/
theorem west_m2_step (fused : Bool) {μ μ' m m' q S x w V M N : ℝ} (hμ : Double μ) (hμ' : Double μ') (hx : Double x) (hq : Double q)
    (hw : 0 < w) (hwV : w ≤ V) (hN : 1 ≤ N) (hN' : N ≤ 2 ^ 48) (hxM : |x| ≤ M) (hμM : |μ| ≤ M + M / 2 ^ 51)
    (hμM' : |μ'| ≤ M + M / 2 ^ 51) (hmM : |m| ≤ M)
    (he : |μ - m| ≤ unitError M * (3 * N + 6)) (he' : |μ' - m'| ≤ unitError M * (3 * N + 9))
    (hS0 : 0 ≤ S + w * (x - m) * (x - m')) (hS : S + w * (x - m) * (x - m') ≤ V * M ^ 2)
    (hT : |q - S| ≤ (V - w) * (M * unitError M) * (13 * (N - 1) + 50) + (N - 1) * (3 * M + 2) * (2 : ℝ) ^ (-1075 : Int)) :
    |w * rn (x - μ)| ≤ V * (3 * M) ∧ |rn (w * rn (x - μ)) * rn (x - μ')| ≤ 5 * (V * M ^ 2) + 3 * M ∧
    |q + prodIn fused (rn (w * rn (x - μ)) * rn (x - μ'))| ≤
      V * M ^ 2 + (V * (M * unitError M) * (13 * N + 50) + N * (3 * M + 2) * (2 : ℝ) ^ (-1075 : Int)) ∧
    |rn (q + prodIn fused (rn (w * rn (x - μ)) * rn (x - μ'))) - (S + w * (x - m) * (x - m'))| ≤
      V * (M * unitError M) * (13 * N + 50) + N * (3 * M + 2) * (2 : ℝ) ^ (-1075 : Int) := by
  have hη := two_zpow_pos (K := ℝ) (-1075)
  have hη1 : (2 : ℝ) ^ (-1075 : Int) ≤ 1 / 1024 := by
    have e : (1 : ℝ) / 1024 = (2 : ℝ) ^ (-10 : Int) := by norm_num
    rw [e]; exact zpow_le_zpow_right₀ one_le_two (by norm_num)
  have hM : 0 ≤ M := (abs_nonneg _).trans hxM
  have hV0 : 0 < V := hw.trans_le hwV
  have hu : 0 ≤ unitError M := by unfold unitError; positivity
  have hMu : M * (1 / 2 ^ 53) ≤ unitError M := by unfold unitError; rw [show M * (1 / 2 ^ 53) = M / 2 ^ 53 by ring]; linarith
  have h1 := rn_rel (hx.mult.sub hμ.mult)
  have h2 := rn_rel (hx.mult.sub hμ'.mult)
  have hM51 : M / 2 ^ 51 = 4 * M * (1 / 2 ^ 53) := by norm_num; ring
  rw [hM51] at hμM hμM'
  generalize rn (x - μ) = a at *
  generalize rn (x - μ') = b at *
  have h3 := rn_abs_err (w * a)
  generalize rn (w * a) = c at *
  obtain ⟨η₁, η₂, hη₁, hη₂, hηs, h4, h5⟩ := prodIn_err fused (c * b)
  replace h5 := h5 q hq
  generalize prodIn fused (c * b) = p at *
  generalize rn (q + p) = q' at *
  have div : ∀ v : ℝ, v / 2 ^ 53 = v * (1 / 2 ^ 53) := fun v => by ring
  rw [div] at h1 h2 h3 h4 h5
  have hε : (0 : ℝ) ≤ 1 / 2 ^ 53 := by positivity
  have hεN : N * (1 / 2 ^ 53 : ℝ) ≤ 1 / 32 := by
    have := mul_le_mul_of_nonneg_right hN' hε
    refine this.trans ?_
    norm_num
  have hε1 : (1 : ℝ) / 2 ^ 53 ≤ 1 / 4096 := by norm_num
  generalize unitError M = u at *
  generalize (1 : ℝ) / 2 ^ 53 = ε at *
  generalize (2 : ℝ) ^ (-1075 : Int) = η at *
  have hMε1 : M * ε ≤ M * (1 / 4096) := mul_le_mul_of_nonneg_left hε1 hM
  -- the deviations
  have dev : ∀ y v : ℝ, |y| ≤ M + 4 * M * ε → |x - y - v| ≤ |x - y| * ε → |v| ≤ M * 2.002 ∧ |x - y - v| ≤ u * 2.002 := by
    intro y v hy hv
    have d1 : |x - y| ≤ M * 2.001 := by
      have := abs_sub x y
      linarith
    have d2 : |x - y| * ε ≤ M * 2.001 * (1 / 4096) := mul_le_mul d1 hε1 hε (by positivity)
    have d3 := mul_le_mul_of_nonneg_right d1 hε
    refine ⟨?_, by linarith⟩
    have := abs_sub_abs_le_abs_sub v (x - y)
    rw [abs_sub_comm v] at this
    linarith
  obtain ⟨ha, ha2⟩ := dev _ _ hμM h1
  obtain ⟨hb, hb2⟩ := dev _ _ hμM' h2
  have hxm : |x - m| ≤ 2 * M := (abs_sub _ _).trans (by linarith)
  have ea : |a - (x - m)| ≤ u * (3 * N + 8.1) := by
    have e : a - (x - m) = -(x - μ - a) + -(μ - m) := by ring
    rw [e]
    refine (abs_add_le _ _).trans ?_
    rw [abs_neg, abs_neg]
    linarith
  have eb : |b - (x - m')| ≤ u * (3 * N + 11.1) := by
    have e : b - (x - m') = -(x - μ' - b) + -(μ' - m') := by ring
    rw [e]
    refine (abs_add_le _ _).trans ?_
    rw [abs_neg, abs_neg]
    linarith
  have hMu0 : 0 ≤ M * u := by positivity
  have eab : |a * b - (x - m) * (x - m')| ≤ M * u * (12.1 * N + 38.5) := by
    have e : a * b - (x - m) * (x - m') = (a - (x - m)) * b + (x - m) * (b - (x - m')) := by ring
    rw [e]
    refine (abs_add_le _ _).trans ?_
    rw [abs_mul, abs_mul]
    have t1 := mul_le_mul ea hb (abs_nonneg _) (by positivity)
    have t2 := mul_le_mul hxm eb (abs_nonneg _) (by positivity)
    have t3 : u * (3 * N + 8.1) * (M * 2.002) + 2 * M * (u * (3 * N + 11.1)) =
        M * u * (2.002 * (3 * N + 8.1) + 2 * (3 * N + 11.1)) := by ring
    have t4 : M * u * (2.002 * (3 * N + 8.1) + 2 * (3 * N + 11.1)) ≤ M * u * (12.1 * N + 38.5) :=
      mul_le_mul_of_nonneg_left (by linarith) hMu0
    linarith
  -- the products
  have hwa : |w * a| ≤ w * (M * 2.002) := by
    rw [abs_mul, abs_of_pos hw]
    exact mul_le_mul_of_nonneg_left ha hw.le
  have hwM : 0 ≤ w * M := by positivity
  have ec : |w * a - c| ≤ w * M * ε * 2.002 + η := by
    have := mul_le_mul_of_nonneg_right hwa hε
    linarith
  have hc : |c| ≤ w * M * 2.003 + η := by
    have := abs_sub_abs_le_abs_sub c (w * a)
    rw [abs_sub_comm c] at this
    have t : w * M * ε ≤ w * M * (1 / 4096) := mul_le_mul_of_nonneg_left hε1 hwM
    linarith
  have hcb : |c * b| ≤ w * M ^ 2 * 4.02 + M * η * 2.002 := by
    rw [abs_mul]
    have t := mul_le_mul hc hb (abs_nonneg _) (by positivity)
    have e : (w * M * 2.003 + η) * (M * 2.002) = w * M ^ 2 * (2.003 * 2.002) + M * η * 2.002 := by ring
    have t2 : w * M ^ 2 * (2.003 * 2.002) ≤ w * M ^ 2 * 4.02 := mul_le_mul_of_nonneg_left (by norm_num) (by positivity)
    linarith
  have hMη0 : 0 ≤ M * η := by positivity
  have ep : |p - w * (x - m) * (x - m')| ≤ w * (M * u) * (12.1 * N + 46.6) + 2.1 * M * η + η₁ := by
    have e : p - w * (x - m) * (x - m') = -(c * b - p) + (-((w * a - c) * b) + w * (a * b - (x - m) * (x - m'))) := by ring
    rw [e]
    refine (abs_add_le _ _).trans ?_
    rw [abs_neg]
    refine (add_le_add_right (abs_add_le _ _) _).trans ?_
    rw [abs_neg, abs_mul, abs_mul, abs_of_pos hw]
    have t1 := mul_le_mul_of_nonneg_right hcb hε
    have t2 := mul_le_mul ec hb (abs_nonneg _) (by positivity)
    have t3 := mul_le_mul_of_nonneg_left eab hw.le
    have t4 : w * M * (M * ε) ≤ w * M * u := mul_le_mul_of_nonneg_left hMu hwM
    have t5 : M * η * ε ≤ M * η * (1 / 4096) := mul_le_mul_of_nonneg_left hε1 hMη0
    have e1 : (w * M * ε * 2.002 + η) * (M * 2.002) = w * M * (M * ε) * (2.002 * 2.002) + M * η * 2.002 := by ring
    have e2 : (w * M ^ 2 * 4.02 + M * η * 2.002) * ε = w * M * (M * ε) * 4.02 + M * η * ε * 2.002 := by ring
    have e3 : w * (M * u) * (12.1 * N + 46.6) = w * (M * u * (12.1 * N + 38.5)) + w * M * u * 8.1 := by ring
    rw [e3]
    rw [e1] at t2
    rw [e2] at t1
    have t6 : 0 ≤ w * M * u := by positivity
    linarith
  -- the sum
  have hVMu0 : 0 ≤ V * (M * u) := by positivity
  have hwMu : w * (M * u) ≤ V * (M * u) := mul_le_mul_of_nonneg_right hwV hMu0
  have pre : |q + p - (S + w * (x - m) * (x - m'))| ≤
      V * (M * u) * (13 * (N - 1) + 50) + w * (M * u) * (-0.9 * N + 9.6) + (N * (3 * M + 2) - 0.9 * M - 2) * η + η₁ := by
    have e : q + p - (S + w * (x - m) * (x - m')) = (q - S) + (p - w * (x - m) * (x - m')) := by ring
    rw [e]
    refine (abs_add_le _ _).trans ((add_le_add hT ep).trans (le_of_eq ?_))
    ring
  have pre2 : |q + p - (S + w * (x - m) * (x - m'))| ≤ V * (M * u) * (13 * N + 46.6) + (N * (3 * M + 2) - 0.9 * M - 2) * η + η₁ := by
    refine pre.trans ?_
    have t1 : w * (M * u) * (-0.9 * N + 9.6) ≤ w * (M * u) * 9.6 := mul_le_mul_of_nonneg_left (by linarith) (by positivity)
    have e : V * (M * u) * (13 * N + 46.6) = V * (M * u) * (13 * (N - 1) + 50) + V * (M * u) * 9.6 := by ring
    rw [e]
    linarith
  have hqp : |q + p| ≤ V * M ^ 2 + (V * (M * u) * (13 * N + 46.6) + (N * (3 * M + 2) - 0.9 * M - 2) * η + η₁) := by
    have := abs_sub_abs_le_abs_sub (q + p) (S + w * (x - m) * (x - m'))
    rw [abs_of_nonneg hS0] at this
    linarith
  have hNM : 0 ≤ N * (3 * M + 2) := by positivity
  have hr : |q + p| * ε ≤ V * (M * u) * 2 + (1 / 8 * M + 1 / 8) * η := by
    refine (mul_le_mul_of_nonneg_right hqp hε).trans ?_
    have t1 : V * M * (M * ε) ≤ V * M * u := mul_le_mul_of_nonneg_left hMu (by positivity)
    have t2 : V * (M * u) * ((13 * N + 46.6) * ε) ≤ V * (M * u) * 0.9 := by
      refine mul_le_mul_of_nonneg_left ?_ hVMu0
      linarith
    have t3 : (N * ε) * ((3 * M + 2) * η) ≤ 1 / 32 * ((3 * M + 2) * η) := mul_le_mul_of_nonneg_right hεN (by positivity)
    have t4 : 0 ≤ (0.9 * M + 2) * η * ε := by positivity
    have t5 : η₁ * ε ≤ η * (1 / 16) := by
      have a := mul_le_mul (show η₁ ≤ η by linarith) hε1 hε hη.le
      linarith
    have e : (V * M ^ 2 + (V * (M * u) * (13 * N + 46.6) + (N * (3 * M + 2) - 0.9 * M - 2) * η + η₁)) * ε =
        V * M * (M * ε) + V * (M * u) * ((13 * N + 46.6) * ε) + (N * ε) * ((3 * M + 2) * η) - (0.9 * M + 2) * η * ε + η₁ * ε := by ring
    rw [e]
    linarith
  refine ⟨?_, ?_, ?_, ?_⟩
  · have := mul_le_mul_of_nonneg_right hwV hM
    linarith
  · have := mul_le_mul_of_nonneg_right hwV (sq_nonneg M)
    have t : M * η ≤ M * (1 / 1024) := mul_le_mul_of_nonneg_left hη1 hM
    have t2 : 0 ≤ V * M ^ 2 := by positivity
    linarith
  · refine hqp.trans ?_
    have : 0 ≤ (0.9 * M + 1) * η := by positivity
    linarith
  · have e : q' - (S + w * (x - m) * (x - m')) = -(q + p - q') + (q + p - (S + w * (x - m) * (x - m'))) := by ring
    rw [e]
    refine (abs_add_le _ _).trans ?_
    rw [abs_neg]
    have : 0 ≤ (0.7 * M + 0.8) * η := by positivity
    linarith

/-- The bounds are far from overflow. -/
theorem west_fits {M V N : ℝ} (hM0 : 0 ≤ M) (hM : M ≤ (2 : ℝ) ^ (400 : Int)) (_hV0 : 0 ≤ V) (hV : V ≤ (2 : ℝ) ^ (128 : Int))
    (hN : 1 ≤ N) (hN' : N ≤ 2 ^ 48) :
    V * (3 * M) ≤ (2 : ℝ) ^ (1023 : Int) ∧ 5 * (V * M ^ 2) + 3 * M ≤ (2 : ℝ) ^ (1023 : Int) ∧
    V * M ^ 2 + (V * (M * unitError M) * (13 * N + 50) + N * (3 * M + 2) * (2 : ℝ) ^ (-1075 : Int)) ≤
      (2 : ℝ) ^ (1023 : Int) := by
  have h1 : (1 : ℝ) ≤ (2 : ℝ) ^ (400 : Int) := by
    rw [show (1 : ℝ) = (2 : ℝ) ^ (0 : Int) by simp]; exact zpow_le_zpow_right₀ one_le_two (by norm_num)
  have h1' : (1 : ℝ) ≤ (2 : ℝ) ^ (128 : Int) := by
    rw [show (1 : ℝ) = (2 : ℝ) ^ (0 : Int) by simp]; exact zpow_le_zpow_right₀ one_le_two (by norm_num)
  have h2 : (2 : ℝ) ^ (-1075 : Int) ≤ 1 := by
    rw [show (1 : ℝ) = (2 : ℝ) ^ (0 : Int) by simp]; exact zpow_le_zpow_right₀ one_le_two (by norm_num)
  have hη := two_zpow_pos (K := ℝ) (-1075)
  have e : (2 : ℝ) ^ (1023 : Int) = 2 ^ 95 * ((2 : ℝ) ^ (128 : Int) * ((2 : ℝ) ^ (400 : Int)) ^ 2) := by
    rw [show (2 : ℝ) ^ 95 = (2 : ℝ) ^ (95 : Int) by norm_cast, sq, ← zpow_add₀ two_ne_zero, ← zpow_add₀ two_ne_zero,
      ← zpow_add₀ two_ne_zero]
    norm_num
  rw [e]
  clear e
  unfold unitError
  generalize (2 : ℝ) ^ (400 : Int) = c at *
  generalize (2 : ℝ) ^ (128 : Int) = g at *
  generalize (2 : ℝ) ^ (-1075 : Int) = η at *
  have hMc : M ^ 2 ≤ c ^ 2 := pow_le_pow_left₀ hM0 hM 2
  have hc2 : 1 ≤ c ^ 2 := one_le_pow₀ h1
  have hcc : c ≤ c ^ 2 := by nlinarith
  have hgc : c ^ 2 ≤ g * c ^ 2 := le_mul_of_one_le_left (by linarith) h1'
  have hVM2 : V * M ^ 2 ≤ g * c ^ 2 := mul_le_mul hV hMc (by positivity) (by linarith)
  have hVM : V * M ≤ g * c ^ 2 := mul_le_mul hV (hM.trans hcc) hM0 (by linarith)
  have hG : 1 ≤ g * c ^ 2 := hc2.trans hgc
  have hMG : M ≤ g * c ^ 2 := (hM.trans hcc).trans hgc
  have hu : M / 2 ^ 53 + η ≤ 2 * c := by
    have : M / 2 ^ 53 ≤ M := div_le_self hM0 (by norm_num)
    linarith
  have hu0 : 0 ≤ M / 2 ^ 53 + η := by positivity
  have hMu : M * (M / 2 ^ 53 + η) ≤ 2 * c ^ 2 := by
    have := mul_le_mul hM hu hu0 (by linarith)
    have e : c * (2 * c) = 2 * c ^ 2 := by ring
    linarith
  have hVMu : V * (M * (M / 2 ^ 53 + η)) ≤ 2 * (g * c ^ 2) := by
    have := mul_le_mul hV hMu (by positivity) (by linarith)
    linarith
  generalize g * c ^ 2 = G at *
  have big : (16 : ℝ) * G ≤ 2 ^ 95 * G := mul_le_mul_of_nonneg_right (by norm_num) (by linarith)
  refine ⟨by linarith, by linarith, ?_⟩
  have t1 : V * (M * (M / 2 ^ 53 + η)) * (13 * N + 50) ≤ 2 * G * (64 * 2 ^ 48) :=
    mul_le_mul hVMu (by linarith [show (50 : ℝ) ≤ 50 * 2 ^ 48 by norm_num]) (by positivity) (by linarith)
  have t2 : N * (3 * M + 2) * η ≤ 2 ^ 48 * (5 * G) * 1 := by
    refine mul_le_mul (mul_le_mul hN' (by linarith) (by positivity) (by norm_num)) h2 hη.le (by positivity)
  have t3 : G + (2 * G * (64 * 2 ^ 48) + 2 ^ 48 * (5 * G) * 1) = (1 + 2 * (64 * 2 ^ 48) + 5 * 2 ^ 48) * G := by ring
  have t4 : (1 + 2 * (64 * 2 ^ 48) + 5 * 2 ^ 48) * G ≤ 2 ^ 95 * G := mul_le_mul_of_nonneg_right (by norm_num) (by linarith)
  linarith

theorem totalWeight_append (ps : List (ℝ × ℝ)) (p : ℝ × ℝ) : totalWeight (ps ++ [p]) = totalWeight ps + p.2 := by
  unfold totalWeight; simp

theorem wavg_append {ps : List (ℝ × ℝ)} {p : ℝ × ℝ} (hp : ∀ q ∈ ps ++ [p], 0 < q.2) :
    wavg (ps ++ [p]) = wavg ps + p.2 / (totalWeight ps + p.2) * (p.1 - wavg ps) := by
  have hp' : ∀ q ∈ ps, 0 < q.2 := fun q hq => hp q (by simp [hq])
  have hW := totalWeight_append ps p
  have hWne := (totalWeight_pos hp (by simp)).ne'
  rw [hW] at hWne
  have e1 : wsum (ps ++ [p]) = wsum ps + p.2 * p.1 := by unfold wsum; simp
  have a1 : wavg (ps ++ [p]) = (wsum ps + p.2 * p.1) / (totalWeight ps + p.2) := by
    rw [← e1, ← hW]; rfl
  have a2 : wavg ps = wsum ps / totalWeight ps := rfl
  rw [a1]
  rcases eq_or_ne ps [] with rfl | h
  · simp only [wavg, wsum, totalWeight, List.map_nil, List.sum_nil, zero_div, zero_add, sub_zero]
    field_simp
  · have := (totalWeight_pos hp' h).ne'
    rw [a2]
    field_simp; ring

theorem wsqDev_append {ps : List (ℝ × ℝ)} {p : ℝ × ℝ} (hp : ∀ q ∈ ps ++ [p], 0 < q.2) :
    wsqDev (ps ++ [p]) = wsqDev ps + p.2 * (p.1 - wavg ps) * (p.1 - wavg (ps ++ [p])) := by
  have hp' : ∀ q ∈ ps, 0 < q.2 := fun q hq => hp q (by simp [hq])
  have hW := totalWeight_append ps p
  have hWne := (totalWeight_pos hp (by simp)).ne'
  rw [wsqDev_eq (ps ++ [p]) hWne, wavg_append hp, hW]
  rw [hW] at hWne
  have e1 : wsum (ps ++ [p]) = wsum ps + p.2 * p.1 := by unfold wsum; simp
  have e2 : wsumSq (ps ++ [p]) = wsumSq ps + p.2 * p.1 ^ 2 := by unfold wsumSq; simp
  rw [e1, e2]
  have a2 : wavg ps = wsum ps / totalWeight ps := rfl
  rcases eq_or_ne ps [] with rfl | h
  · simp only [wsqDev, wavg, wsum, wsumSq, totalWeight, List.map_nil, List.sum_nil, zero_div, zero_add,
      sub_zero] at hWne ⊢
    field_simp
  · have := (totalWeight_pos hp' h).ne'
    rw [wsqDev_eq ps this, a2]
    field_simp; ring

theorem wavg_bound {ps : List (ℝ × ℝ)} {M : ℝ} (hM : 0 ≤ M) (hp : ∀ q ∈ ps, 0 < q.2) (h : ∀ p ∈ ps, |p.1| ≤ M) :
    |wavg ps| ≤ M := by
  rcases eq_or_ne ps [] with rfl | h0
  · simpa [wavg, totalWeight] using hM
  have hW := totalWeight_pos hp h0
  unfold wavg
  rw [abs_div, abs_of_pos hW, div_le_iff₀ hW]
  clear hW h0
  unfold totalWeight
  induction ps with
  | nil => simp
  | cons p ps ih =>
    simp only [List.map_cons, List.sum_cons]
    have := ih (fun q hq => hp q (by simp [hq])) (fun q hq => h q (by simp [hq]))
    have h1 := h p (by simp)
    have h2 := hp p (by simp)
    have h3 := abs_add_le (p.2 * p.1) (ps.map (fun p => p.2 * p.1)).sum
    rw [abs_mul, abs_of_pos h2] at h3
    have h4 := mul_le_mul_of_nonneg_left h1 h2.le
    linarith

theorem wsqDev_bounds {ps : List (ℝ × ℝ)} {M : ℝ} (hp : ∀ q ∈ ps, 0 < q.2) (h : ∀ p ∈ ps, |p.1| ≤ M) :
    0 ≤ wsqDev ps ∧ wsqDev ps ≤ totalWeight ps * M ^ 2 := by
  constructor
  · unfold wsqDev
    refine List.sum_nonneg ?_
    intro y hy
    obtain ⟨p, h1, rfl⟩ := List.mem_map.1 hy
    have := hp p h1
    positivity
  · rcases eq_or_ne ps [] with rfl | h0
    · simp [wsqDev, totalWeight]
    have hW := totalWeight_pos hp h0
    rw [wsqDev_eq ps hW.ne']
    have h1 : 0 ≤ wsum ps ^ 2 / totalWeight ps := by positivity
    have h2 : wsumSq ps ≤ totalWeight ps * M ^ 2 := by
      clear hW h0 h1
      unfold wsumSq totalWeight
      induction ps with
      | nil => simp
      | cons p ps ih =>
        simp only [List.map_cons, List.sum_cons]
        have := ih (fun q hq => hp q (by simp [hq])) (fun q hq => h q (by simp [hq]))
        have h1 := h p (by simp)
        have h3 : p.1 ^ 2 ≤ M ^ 2 := sq_le_sq' (neg_le_of_abs_le h1) (le_of_abs_le h1)
        have h4 := mul_le_mul_of_nonneg_left h3 (hp p (by simp)).le
        linarith
    linarith

/-- The state after adding pairs of positive weight. -/
theorem west_error (hA : A.IsBinary64) (c : WestFused) {M : ℝ} (hM0 : 0 ≤ M) (hM : M ≤ (2 : ℝ) ^ (400 : Int)) (ps : List (ℝ × ℝ))
    (hx : ∀ p ∈ ps, Double p.1 ∧ |p.1| ≤ M) (hw : ∀ p ∈ ps, Double p.2 ∧ 0 < p.2)
    (hW : totalWeight ps ≤ (2 : ℝ) ^ (128 : Int)) (hn : ps.length ≤ 2 ^ 48) :
    ∃ (s : West (Num A)) (Wh μ q : ℝ), (ps.map (fun p => ((.fin p.1, .fin p.2) : Num A × Num A))).foldl
        (fun s p => s.addCoreContracted c p.1 p.2) (West.new : West (Num A)) = s ∧
      s.sumWeights = .fin Wh ∧ s.mean = .fin μ ∧ s.m2 = .fin q ∧ s.count = ps.length ∧ Double Wh ∧ Double μ ∧ Double q ∧
      |Wh - totalWeight ps| ≤ 9 / 8 * (ps.length * (1 / 2 ^ 53)) * totalWeight ps ∧
      |μ - wavg ps| ≤ unitError M * (3 * ps.length + 9) ∧
      |q - wsqDev ps| ≤ totalWeight ps * (M * unitError M) * (13 * ps.length + 50) +
        ps.length * (3 * M + 2) * (2 : ℝ) ^ (-1075 : Int) := by
  have hu : 0 ≤ unitError M := by unfold unitError; have := two_zpow_pos (K := ℝ) (-1075); positivity
  induction ps using List.reverseRecOn with
  | nil =>
    refine ⟨_, 0, 0, 0, rfl, rfl, rfl, rfl, rfl, double_zero, double_zero, double_zero, ?_, ?_, ?_⟩
    · simp [totalWeight]
    · simp only [wavg, List.map_nil, List.sum_nil, zero_div, sub_zero, abs_zero]
      positivity
    · simp [wsqDev, totalWeight]
  | append_singleton ps p ih =>
    obtain ⟨x, w⟩ := p
    have hpos : ∀ q ∈ ps ++ [(x, w)], 0 < q.2 := fun q hq => (hw q hq).2
    have hall : ∀ q ∈ ps ++ [(x, w)], |q.1| ≤ M := fun q hq => (hx q hq).2
    have hw0 : 0 < w := hpos (x, w) (by simp)
    have hW0 : 0 ≤ totalWeight ps := by
      unfold totalWeight
      refine List.sum_nonneg ?_
      intro y hy
      obtain ⟨q, h1, rfl⟩ := List.mem_map.1 hy
      exact (hpos q (by simp [h1])).le
    have hWa := totalWeight_append ps (x, w)
    dsimp only at hWa
    rw [hWa] at hW
    rw [List.length_append, List.length_singleton] at hn
    obtain ⟨s, Wh, μ, q, hs, s1, s2, s3, s4, hWhd, hμ, hq, eW, em, eq⟩ := ih (fun q hq => hx q (by simp [hq]))
      (fun q hq => hw q (by simp [hq])) (le_trans (by linarith only [hw0]) hW) (by omega)
    obtain ⟨hxd, hxM⟩ := hx (x, w) (by simp)
    obtain ⟨hwd, -⟩ := hw (x, w) (by simp)
    dsimp only at hxd hxM hwd
    have hMR : M ≤ (2 : ℝ) ^ (1020 : Int) := hM.trans (zpow_le_zpow_right₀ one_le_two (by norm_num))
    have hWlt : (2 : ℝ) ^ (128 : Int) < (2 : ℝ) ^ (1024 : Int) := zpow_lt_zpow_right₀ one_lt_two (by norm_num)
    have hwf : ∀ q ∈ ps ++ [(x, w)], FinDouble q.2 ∧ 0 < q.2 := by
      intro q hq
      refine ⟨⟨(hw q hq).1, ?_⟩, hpos q hq⟩
      rw [abs_of_pos (hpos q hq)]
      refine lt_of_le_of_lt (le_trans ?_ hW) hWlt
      rw [← hWa]
      unfold totalWeight
      refine List.single_le_sum ?_ _ (List.mem_map.2 ⟨q, hq, rfl⟩)
      intro y hy
      obtain ⟨r, h1, rfl⟩ := List.mem_map.1 hy
      exact (hpos r h1).le
    have near : ∀ qs : List (ℝ × ℝ), (∀ q ∈ qs, q ∈ ps ++ [(x, w)]) → ∀ (s : West (Num A)) (y : ℝ),
        (qs.map (fun p => ((.fin p.1, .fin p.2) : Num A × Num A))).foldl
          (fun s p => s.addCoreContracted c p.1 p.2) (West.new : West (Num A)) = s → s.mean = .fin y → |y| ≤ M + M / 2 ^ 51 := by
      intro qs hqs s y hs hy
      obtain ⟨s', y', h1, -, h2, -, h3, h4⟩ := west_near hA c qs M (-M) M hMR
        (fun q hq => ⟨(hx q (hqs q hq)).1, hall q (hqs q hq), (abs_le.1 (hall q (hqs q hq))).1, (abs_le.1 (hall q (hqs q hq))).2⟩)
        (fun q hq => hwf q (hqs q hq))
      rw [hs] at h1
      subst h1
      rw [hy] at h2
      cases h2
      by_cases h : qs = []
      · rw [(h3 h).1, abs_zero]; positivity
      · exact (h4 h).2.2
    have hμM := near ps (fun q hq => by simp [hq]) s μ hs s2
    -- the steps do not overflow
    have hlen : (((ps ++ [(x, w)]).length : Nat) : ℝ) = (ps.length : ℝ) + 1 := by simp
    have hN' : (ps.length : ℝ) + 1 ≤ 2 ^ 48 := by
      have : ((ps.length + 1 : Nat) : ℝ) ≤ 2 ^ 48 := by exact_mod_cast hn
      push_cast at this; exact this
    have hN1 : (1 : ℝ) ≤ (ps.length : ℝ) + 1 := by have : (0 : ℝ) ≤ ps.length := Nat.cast_nonneg _; linarith only [this]
    have eV := west_weight_step hW0 hw0 hWhd hwd hN1 hN' (by rw [add_sub_cancel_right]; exact eW)
    have r : ∀ {y : ℝ}, |y| ≤ (2 : ℝ) ^ (1023 : Int) → Num.round A y = .fin (rn y) := fun h => round_of_le_two hA h
    have dbig : Double ((2 : ℝ) ^ (1023 : Int)) := double_two_zpow (by norm_num)
    have rbig : ∀ {y : ℝ}, |y| ≤ (2 : ℝ) ^ (1023 : Int) → |rn y| ≤ (2 : ℝ) ^ (1023 : Int) := by
      intro y hy
      rw [rn_abs_eq]
      have := rn_mono hy
      rwa [rn_double dbig] at this
    have hV0 : 0 < totalWeight ps + w := by linarith only [hW0, hw0]
    have hVh : |rn (Wh + w)| ≤ 2 * (totalWeight ps + w) ∧ 1 / 2 * (totalWeight ps + w) ≤ rn (Wh + w) := by
      have hc : 9 / 8 * (((ps.length : ℝ) + 1) * (1 / 2 ^ 53)) ≤ 1 / 2 := by
        have := mul_le_mul_of_nonneg_right hN' (show (0 : ℝ) ≤ 1 / 2 ^ 53 by positivity)
        refine (mul_le_mul_of_nonneg_left this (by norm_num)).trans ?_
        norm_num
      have := mul_le_mul_of_nonneg_right hc hV0.le
      obtain ⟨a, b⟩ := abs_le.1 (eV.trans this)
      constructor
      · rw [abs_le]; constructor <;> linarith only [a, b, hV0]
      · linarith only [a]
    obtain ⟨f1, f2, f3⟩ := west_fits hM0 hM hV0.le hW hN1 hN'
    have sum2 : s.sumWeights + .fin w = .fin (rn (Wh + w)) := by
      rw [s1, Num.fin_add]
      refine Num.round_of ?_
      rw [hA, rnd64, if_pos]
      refine hVh.1.trans_lt ?_
      have h1 : 2 * (totalWeight ps + w) ≤ (2 : ℝ) ^ (1 : Int) * (2 : ℝ) ^ (128 : Int) := by
        rw [zpow_one]; exact mul_le_mul_of_nonneg_left hW (by norm_num)
      refine h1.trans_lt ?_
      rw [← zpow_add₀ two_ne_zero]
      exact zpow_lt_zpow_right₀ one_lt_two (by norm_num)
    have hVh0 : 0 < rn (Wh + w) := by linarith only [hVh.2, hV0]
    obtain ⟨-, α, hα0, hα1, hα⟩ := west_weight hA (S := s.sumWeights) (.inr ⟨Wh, by
      by_contra h
      have hlt : Wh < 0 := not_le.1 h
      have h2 := (abs_le.1 eW).1
      have hc : 9 / 8 * ((ps.length : ℝ) * (1 / 2 ^ 53)) * totalWeight ps ≤ totalWeight ps := by
        refine mul_le_of_le_one_left hW0 ?_
        have := mul_le_mul_of_nonneg_right (show (ps.length : ℝ) ≤ 2 ^ 48 by linarith only [hN'])
          (show (0 : ℝ) ≤ 1 / 2 ^ 53 by positivity)
        refine (mul_le_mul_of_nonneg_left this (by norm_num)).trans ?_
        norm_num
      linarith only [hlt, h2, hc], s1⟩) (hwf (x, w) (by simp)).1 hw0
    rw [sum2] at hα
    have hαe : α = rn (w / rn (Wh + w)) := by
      have hq : |w / rn (Wh + w)| ≤ (2 : ℝ) ^ (1023 : Int) := by
        have h1 : |w / rn (Wh + w)| ≤ 2 := by
          rw [abs_of_pos (div_pos hw0 hVh0), div_le_iff₀ hVh0]
          linarith only [hVh.2, hW0]
        refine h1.trans ?_
        have : (2 : ℝ) ^ (1 : Int) ≤ (2 : ℝ) ^ (1023 : Int) := zpow_le_zpow_right₀ one_le_two (by norm_num)
        rwa [zpow_one] at this
      rw [Num.fin_div hVh0.ne', r hq] at hα
      cases hα; rfl
    have big : 8 * M ≤ (2 : ℝ) ^ (1023 : Int) := by
      have h1 : (2 : ℝ) ^ (3 : Int) * (2 : ℝ) ^ (400 : Int) ≤ (2 : ℝ) ^ (1023 : Int) := by
        rw [← zpow_add₀ two_ne_zero]; exact zpow_le_zpow_right₀ one_le_two (by norm_num)
      rw [show (2 : ℝ) ^ (3 : Int) = 8 by norm_num] at h1
      exact le_trans (mul_le_mul_of_nonneg_left hM (by norm_num)) h1
    have hM51 : M / 2 ^ 51 ≤ M / 4 := div_le_div_of_nonneg_left hM0 (by norm_num) (by norm_num)
    have hd : ∀ {y : ℝ}, |y| ≤ M + M / 2 ^ 51 → |x - y| ≤ 8 * M := fun hy =>
      (abs_sub _ _).trans (by linarith only [hy, hxM, hM51, hM0])
    have hd1 : |x - μ| ≤ M * (9 / 4) := (abs_sub _ _).trans (by linarith only [hμM, hxM, hM51, hM0])
    have hdr : |rn (x - μ)| ≤ M * (5 / 2) := by
      have h1 := rn_rel (hxd.mult.sub hμ.mult)
      have h2 : |x - μ| / 2 ^ 53 ≤ |x - μ| / 9 := div_le_div_of_nonneg_left (abs_nonneg _) (by norm_num) (by norm_num)
      have := abs_sub_abs_le_abs_sub (rn (x - μ)) (x - μ)
      rw [abs_sub_comm (rn (x - μ))] at this
      linarith only [h1, h2, this, hd1]
    have ht : |α * rn (x - μ)| ≤ M * (5 / 2) := by
      rw [abs_mul, abs_of_nonneg hα0]
      exact (mul_le_of_le_one_left (abs_nonneg _) hα1).trans hdr
    have hp : |prodIn c.mean (α * rn (x - μ))| ≤ M * 3 + 1 := by
      obtain ⟨η₁, η₂, hη₁, hη₂, hηs, h1, -⟩ := prodIn_err c.mean (α * rn (x - μ))
      have h2 : |α * rn (x - μ)| / 2 ^ 53 ≤ |α * rn (x - μ)| / 9 := div_le_div_of_nonneg_left (abs_nonneg _) (by norm_num) (by norm_num)
      have := abs_sub_abs_le_abs_sub (prodIn c.mean (α * rn (x - μ))) (α * rn (x - μ))
      rw [abs_sub_comm (prodIn c.mean (α * rn (x - μ)))] at this
      have h3 : (2 : ℝ) ^ (-1075 : Int) ≤ 1 := by
        rw [show (1 : ℝ) = (2 : ℝ) ^ (0 : Int) by simp]; exact zpow_le_zpow_right₀ one_le_two (by norm_num)
      linarith only [h1, h2, h3, this, ht, hM0, hη₂, hηs]
    have hz : |μ + prodIn c.mean (α * rn (x - μ))| ≤ (2 : ℝ) ^ (1023 : Int) := by
      have h1 : 5 * M + 1 ≤ (2 : ℝ) ^ (1023 : Int) := by
        have h2 : 8 * (M + 1) ≤ (2 : ℝ) ^ (4 : Int) * (2 : ℝ) ^ (400 : Int) := by
          have h3 : (1 : ℝ) ≤ (2 : ℝ) ^ (400 : Int) := by
            rw [show (1 : ℝ) = (2 : ℝ) ^ (0 : Int) by simp]; exact zpow_le_zpow_right₀ one_le_two (by norm_num)
          rw [show (2 : ℝ) ^ (4 : Int) = 16 by norm_num]
          revert hM h3
          generalize (2 : ℝ) ^ (400 : Int) = c
          intro a b
          linarith only [a, b]
        rw [← zpow_add₀ two_ne_zero] at h2
        have h4 := h2.trans (zpow_le_zpow_right₀ one_le_two (by norm_num : (4 + 400 : Int) ≤ 1023))
        exact le_trans (by linarith only [hM0]) h4
      refine le_trans ((abs_add_le _ _).trans ?_) h1
      linarith only [hp, hμM, hM51, hM0]
    have hmean : (s.addCoreContracted c (.fin x) (.fin w)).mean = .fin (rn (μ + prodIn c.mean (α * rn (x - μ)))) := by
      simp only [West.addCoreContracted]
      rw [sum2, hα, s2, Num.fin_sub, r ((hd hμM).trans big),
        mulAdd_rn hA _ (ht.trans ((by linarith only [hM0] : M * (5 / 2) ≤ 8 * M).trans big)) hz]
    have hfold : ((ps ++ [(x, w)]).map (fun p => ((.fin p.1, .fin p.2) : Num A × Num A))).foldl
        (fun s p => s.addCoreContracted c p.1 p.2) (West.new : West (Num A)) = s.addCoreContracted c (.fin x) (.fin w) := by
      rw [List.map_append, List.foldl_append, hs]; rfl
    have hzM := near (ps ++ [(x, w)]) (fun q hq => hq) _ _ hfold hmean
    rw [hαe] at hmean hzM
    -- the mean
    have em1 := west_mean_step c.mean hμ hxd hw0 (by linarith only [hW0] : w ≤ totalWeight ps + w) hN1 hN' eV hxM hμM hzM
    have hma := wavg_append hpos
    dsimp only at hma
    have hθ0 : 0 ≤ w / (totalWeight ps + w) := by positivity
    have hθ1 : w / (totalWeight ps + w) ≤ 1 := (div_le_one hV0).2 (by linarith only [hW0])
    have em' : |rn (μ + prodIn c.mean (rn (w / rn (Wh + w)) * rn (x - μ))) - wavg (ps ++ [(x, w)])| ≤
        unitError M * (3 * ((ps.length : ℝ) + 1) + 9) := by
      rw [hma]
      generalize w / (totalWeight ps + w) = θ at *
      generalize rn (μ + prodIn c.mean (rn (w / rn (Wh + w)) * rn (x - μ))) = z at *
      generalize wavg ps = m at *
      generalize unitError M = u at *
      have e : z - (m + θ * (x - m)) = (z - (μ + θ * (x - μ))) + (1 - θ) * (μ - m) := by ring
      rw [e]
      refine (abs_add_le _ _).trans ?_
      rw [abs_mul, abs_of_nonneg (by linarith only [hθ1] : 0 ≤ 1 - θ)]
      have h1 := mul_le_mul_of_nonneg_left em (by linarith only [hθ1] : 0 ≤ 1 - θ)
      have h2 := mul_nonneg hu (by linarith only [hθ1] : 0 ≤ 1 - θ)
      have e2 : u * (3 * ((ps.length : ℝ) + 1) + 9) = u * (θ * (3 * ((ps.length : ℝ) + 1) + 7) + 17 / 16) +
          (1 - θ) * (u * (3 * ps.length + 9)) + u * (1 - θ) + 15 / 16 * u := by ring
      rw [e2]
      linarith only [em1, h1, h2, hu]
    -- the squares
    have hsa := wsqDev_append hpos
    dsimp only at hsa
    obtain ⟨hS0, hS⟩ := wsqDev_bounds hpos hall
    rw [hWa] at hS
    rw [hsa] at hS0 hS
    have hm := wavg_bound hM0 (fun q hq => hpos q (by simp [hq]) : ∀ q ∈ ps, 0 < q.2) (fun q hq => hall q (by simp [hq]))
    obtain ⟨b1, b2, b3, b4⟩ := west_m2_step c.deviations (N := (ps.length : ℝ) + 1) hμ (rn_isDouble _) hxd hq hw0
      (by linarith only [hW0] : w ≤ totalWeight ps + w) hN1 hN' hxM hμM hzM hm
      (by refine em.trans (le_of_eq ?_); ring) em' hS0 hS
      (by rw [add_sub_cancel_right, add_sub_cancel_right]; exact eq)
    have hsq : (s.addCoreContracted c (.fin x) (.fin w)).m2 = .fin (rn (q + prodIn c.deviations (rn (w * rn (x - μ)) *
        rn (x - rn (μ + prodIn c.mean (rn (w / rn (Wh + w)) * rn (x - μ))))))) := by
      have : (s.addCoreContracted c (.fin x) (.fin w)).m2 =
          mulAdd c.deviations (.fin w * (.fin x - s.mean)) (.fin x - (s.addCoreContracted c (.fin x) (.fin w)).mean) s.m2 := rfl
      rw [this, hmean, s2, s3, Num.fin_sub, r ((hd hμM).trans big), Num.fin_mul, r (b1.trans f1), Num.fin_sub,
        r ((hd hzM).trans big), mulAdd_rn hA _ (b2.trans f2) (b3.trans f3)]
    refine ⟨s.addCoreContracted c (.fin x) (.fin w), _, _, _, hfold, sum2, hmean, hsq, ?_, rn_isDouble _, rn_isDouble _, rn_isDouble _,
      ?_, ?_, ?_⟩
    · have : (s.addCoreContracted c (.fin x) (.fin w)).count = succU s.count := rfl
      rw [this, s4, List.length_append, List.length_singleton]
      exact Nat.mod_eq_of_lt (by omega)
    · rw [hlen, hWa]; exact eV
    · rw [hlen]; exact em'
    · rw [hlen, hWa, hsa]; exact b4

theorem west_filter_positive (ps : List (ℝ × ℝ)) :
    (ps.map (fun p => ((.fin p.1, .fin p.2) : Num A × Num A))).filter (fun p => CxxFloat.lt CxxFloat.zero p.2) =
      (positive ps).map (fun p => (.fin p.1, .fin p.2)) := west_filter ps

/-! ### The property -/

/-- Pairs of doubles, those of positive weight at most 2^48, of total weight at most 2^128 and of values of modulus at
most M ≤ 2^400: `Mean()` is within 3n + 9 units of their weighted mean. -/
theorem west_mean_error (hA : A.IsBinary64) (c : WestFused) (ops : List (AccOp (Num A × Num A))) (ps : List (ℝ × ℝ))
    (hps : sinceReset ops = ps.map (fun p => (.fin p.1, .fin p.2))) (M : ℝ) (hM0 : 0 ≤ M) (hM : M ≤ (2 : ℝ) ^ (400 : Int))
    (hx : ∀ p ∈ ps, 0 < p.2 → Double p.1 ∧ |p.1| ≤ M ∧ Double p.2) (hW : totalWeight (positive ps) ≤ (2 : ℝ) ^ (128 : Int))
    (hn : (positive ps).length ≤ 2 ^ 48) :
    ∃ μ : ℝ, (runOps (West.addContracted c) West.reset West.new ops).getMean = .fin μ ∧
      |μ - wavg (positive ps)| ≤ (M / 2 ^ 53 + (2 : ℝ) ^ (-1075 : Int)) * (3 * (positive ps).length + 9) := by
  rw [west_contracted_ops, hps, west_filter_positive]
  have hp : ∀ p ∈ positive ps, p ∈ ps ∧ 0 < p.2 := fun p hp => by simpa [positive] using hp
  obtain ⟨s, Wh, μ, q, hs, -, hm, -, -, -, -, -, -, he, -⟩ := west_error hA c hM0 hM (positive ps)
    (fun p h => ⟨(hx p (hp p h).1 (hp p h).2).1, (hx p (hp p h).1 (hp p h).2).2.1⟩)
    (fun p h => ⟨(hx p (hp p h).1 (hp p h).2).2.2, (hp p h).2⟩) hW hn
  exact ⟨μ, by rw [hs]; exact hm, he⟩

/-- `Sum()` is within 5n + 11 units, times the total weight, and 1/2^1075, of the weighted sum of the values. -/
theorem west_sum_error (hA : A.IsBinary64) (c : WestFused) (ops : List (AccOp (Num A × Num A))) (ps : List (ℝ × ℝ))
    (hps : sinceReset ops = ps.map (fun p => (.fin p.1, .fin p.2))) (M : ℝ) (hM0 : 0 ≤ M) (hM : M ≤ (2 : ℝ) ^ (400 : Int))
    (hx : ∀ p ∈ ps, 0 < p.2 → Double p.1 ∧ |p.1| ≤ M ∧ Double p.2) (hW : totalWeight (positive ps) ≤ (2 : ℝ) ^ (128 : Int))
    (hn : (positive ps).length ≤ 2 ^ 48) :
    ∃ S : ℝ, (runOps (West.addContracted c) West.reset West.new ops).sum = .fin S ∧
      |S - ((positive ps).map (fun p => p.2 * p.1)).sum| ≤
        totalWeight (positive ps) * ((M / 2 ^ 53 + (2 : ℝ) ^ (-1075 : Int)) * (5 * (positive ps).length + 11)) +
          (2 : ℝ) ^ (-1075 : Int) := by
  rw [west_contracted_ops, hps, west_filter_positive]
  have hp : ∀ p ∈ positive ps, p ∈ ps ∧ 0 < p.2 := fun p hp => by simpa [positive] using hp
  have hx1 : ∀ p ∈ positive ps, Double p.1 ∧ |p.1| ≤ M :=
    fun p h => ⟨(hx p (hp p h).1 (hp p h).2).1, (hx p (hp p h).1 (hp p h).2).2.1⟩
  have hw1 : ∀ p ∈ positive ps, Double p.2 ∧ 0 < p.2 := fun p h => ⟨(hx p (hp p h).1 (hp p h).2).2.2, (hp p h).2⟩
  obtain ⟨s, Wh, μ, q, hs, h1, hm, -, -, -, -, -, eW, he, -⟩ := west_error hA c hM0 hM (positive ps) hx1 hw1 hW hn
  have hN' : ((positive ps).length : ℝ) ≤ 2 ^ 48 := by exact_mod_cast hn
  have hN0 : (0 : ℝ) ≤ (positive ps).length := Nat.cast_nonneg _
  have hmb := wavg_bound hM0 (fun p h => (hw1 p h).2) (fun p h => (hx1 p h).2)
  have hV0 : 0 ≤ totalWeight (positive ps) := by
    unfold totalWeight
    refine List.sum_nonneg ?_
    intro y hy
    obtain ⟨r, h1, rfl⟩ := List.mem_map.1 hy
    exact (hw1 r h1).2.le
  have hsum : ((positive ps).map (fun p => p.2 * p.1)).sum = totalWeight (positive ps) * wavg (positive ps) := by
    rcases eq_or_ne (positive ps) [] with h | h
    · rw [h]; simp [totalWeight]
    · have := (totalWeight_pos (fun p h => (hw1 p h).2) h).ne'
      unfold wavg
      field_simp
  rw [hsum]
  have hη := two_zpow_pos (K := ℝ) (-1075)
  have hu : 0 ≤ unitError M := by unfold unitError; positivity
  have hMu : M * (1 / 2 ^ 53) ≤ unitError M := by unfold unitError; rw [show M * (1 / 2 ^ 53) = M / 2 ^ 53 by ring]; linarith only [hη]
  obtain ⟨f1, -, -⟩ := west_fits hM0 hM hV0 hW (le_refl (1 : ℝ)) (by norm_num)
  have r := rn_abs_err (μ * Wh)
  rw [show |μ * Wh| / 2 ^ 53 = |μ * Wh| * (1 / 2 ^ 53) by ring] at r
  have hε : (0 : ℝ) ≤ 1 / 2 ^ 53 := by positivity
  have hεN : ((positive ps).length : ℝ) * (1 / 2 ^ 53 : ℝ) ≤ 1 / 32 := by
    have := mul_le_mul_of_nonneg_right hN' hε
    refine this.trans ?_
    norm_num
  have hε1 : (1 : ℝ) / 2 ^ 53 ≤ 1 / 4096 := by norm_num
  have huM : unitError M ≤ M * (1 / 2 ^ 53) + (2 : ℝ) ^ (-1075 : Int) := by unfold unitError; exact le_of_eq (by ring)
  have fin : |μ * Wh| ≤ (2 : ℝ) ^ (1023 : Int) ∧
      |rn (μ * Wh) - totalWeight (positive ps) * wavg (positive ps)| ≤
        totalWeight (positive ps) * (unitError M * (5 * (positive ps).length + 11)) + (2 : ℝ) ^ (-1075 : Int) := by
    have hbig : 4 * (2 : ℝ) ^ (128 : Int) ≤ (2 : ℝ) ^ (1023 : Int) := by
      have : (2 : ℝ) ^ (2 : Int) * (2 : ℝ) ^ (128 : Int) ≤ (2 : ℝ) ^ (1023 : Int) := by
        rw [← zpow_add₀ two_ne_zero]; exact zpow_le_zpow_right₀ one_le_two (by norm_num)
      rwa [show (2 : ℝ) ^ (2 : Int) = 4 by norm_num] at this
    have hη1 : (2 : ℝ) ^ (-1075 : Int) * 2 ^ 60 ≤ 1 := by
      rw [show (2 : ℝ) ^ 60 = (2 : ℝ) ^ (60 : Int) by norm_cast, ← zpow_add₀ two_ne_zero,
        show (1 : ℝ) = (2 : ℝ) ^ (0 : Int) by simp]
      exact zpow_le_zpow_right₀ one_le_two (by norm_num)
    have hVM2 : totalWeight (positive ps) * (3 * M + 3) ≤ 2 * (2 : ℝ) ^ (1023 : Int) := by
      have : totalWeight (positive ps) * 3 ≤ (2 : ℝ) ^ (1023 : Int) :=
        le_trans (by linarith only [hW, hV0]) hbig
      linarith only [f1, this]
    clear f1 hbig hW
    generalize (2 : ℝ) ^ (1023 : Int) = big at *
    generalize (2 : ℝ) ^ (-1075 : Int) = η at *
    generalize totalWeight (positive ps) = V at *
    generalize wavg (positive ps) = m at *
    generalize ((positive ps).length : ℝ) = n at *
    generalize unitError M = u at *
    generalize rn (μ * Wh) = z at *
    have hn48 : u * (3 * n + 9) ≤ M * (1 / 8) + 1 / 8 := by
      have h1 : u * (3 * n + 9) ≤ (M * (1 / 2 ^ 53) + η) * (3 * n + 9) := mul_le_mul_of_nonneg_right huM (by linarith only [hN0])
      have h2 : (M * (1 / 2 ^ 53) + η) * (3 * n + 9) ≤ M * (3 * (n * (1 / 2 ^ 53)) + 9 * (1 / 2 ^ 53)) + η * 2 ^ 60 * (1 / 8) := by
        have h3 : η * (3 * n + 9) ≤ η * (2 ^ 60 * (1 / 8)) :=
          mul_le_mul_of_nonneg_left (by norm_num at hN' ⊢; linarith only [hN']) hη.le
        linarith only [h3]
      have h4 : M * (3 * (n * (1 / 2 ^ 53)) + 9 * (1 / 2 ^ 53)) ≤ M * (1 / 8) :=
        mul_le_mul_of_nonneg_left (by linarith only [hεN, hε1]) hM0
      linarith only [h1, h2, h4, hη1]
    generalize (1 : ℝ) / 2 ^ 53 = ε at *
    have hμ1 : |μ| ≤ M * (9 / 8) + 1 / 8 := by
      have := abs_sub_abs_le_abs_sub μ m
      linarith only [this, he, hmb, hn48]
    have hμ2 : |μ| ≤ M + u * (3 * n + 9) := by
      have := abs_sub_abs_le_abs_sub μ m
      linarith only [this, he, hmb]
    have hnε0 := mul_nonneg hN0 hε
    have hWh : |Wh| ≤ V * (9 / 8) := by
      have := abs_sub_abs_le_abs_sub Wh V
      rw [abs_of_nonneg hV0] at this
      have h2 : 9 / 8 * (n * ε) * V ≤ 1 / 8 * V := mul_le_mul_of_nonneg_right (by linarith only [hεN]) hV0
      linarith only [this, h2, eW]
    constructor
    · rw [abs_mul]
      have := mul_le_mul hμ1 hWh (abs_nonneg _) (by positivity)
      have e : (M * (9 / 8) + 1 / 8) * (V * (9 / 8)) = V * (81 / 64 * M + 9 / 64) := by ring
      have h2 : V * (81 / 64 * M + 9 / 64) ≤ 1 / 2 * (V * (3 * M + 3)) := by
        have : V * (81 / 64 * M + 9 / 64) ≤ V * (3 / 2 * M + 3 / 2) := mul_le_mul_of_nonneg_left (by linarith only [hM0]) hV0
        linarith only [this]
      linarith only [this, e, h2, hVM2]
    · have hM' : M * ε ≤ u := hMu
      have tri : |z - V * m| ≤ |μ * Wh - z| + |μ| * |Wh - V| + V * |μ - m| := by
        have e : z - V * m = -(μ * Wh - z) + (μ * (Wh - V) + V * (μ - m)) := by ring
        rw [e]
        refine (abs_add_le _ _).trans ?_
        rw [abs_neg, add_assoc]
        refine add_le_add_right ((abs_add_le _ _).trans ?_) _
        rw [abs_mul, abs_mul, abs_of_nonneg hV0]
      have hVu0 : 0 ≤ V * u := mul_nonneg hV0 hu
      -- |μ| ε is at most 5/4 units
      have hμε : |μ| * ε ≤ u * (5 / 4) := by
        have h1 := mul_le_mul_of_nonneg_right hμ2 hε
        have h2 : u * ((3 * n + 9) * ε) ≤ u * (1 / 4) := mul_le_mul_of_nonneg_left (by linarith only [hεN, hε1]) hu
        linarith only [h1, h2, hM']
      have t1 : |μ * Wh| * ε ≤ V * u * (45 / 32) := by
        rw [abs_mul]
        have h1 := mul_le_mul hμε hWh (abs_nonneg _) (by positivity)
        linarith only [h1]
      have t2 : |μ| * |Wh - V| ≤ V * u * (n * (45 / 32)) := by
        have h1 := mul_le_mul_of_nonneg_left eW (abs_nonneg μ)
        have h2 := mul_le_mul_of_nonneg_right hμε (show 0 ≤ 9 / 8 * (n * V) by positivity)
        linarith only [h1, h2]
      have t3 := mul_le_mul_of_nonneg_left he hV0
      have t4 : 0 ≤ V * u * n := by positivity
      have e : V * (u * (5 * n + 11)) = V * u * (45 / 32) + V * u * (n * (45 / 32)) + V * (u * (3 * n + 9)) +
          V * u * (19 / 32) + V * u * n * (19 / 32) := by ring
      rw [e]
      linarith only [tri, r, t1, t2, t3, hVu0, t4]
  refine ⟨rn (μ * Wh), ?_, fin.2⟩
  rw [hs]
  unfold West.sum
  rw [hm, h1, Num.fin_mul, round_of_le_two hA fin.1]

/-- The smallest positive double. -/
theorem double_ge {w : ℝ} (h : Double w) (h0 : 0 < w) : (2 : ℝ) ^ (-1074 : Int) ≤ w := by
  obtain ⟨m, e, -, he, rfl⟩ := h
  have hp := two_zpow_pos (K := ℝ) e
  have hm : (0 : ℝ) < m := by
    by_contra hc
    have := mul_nonpos_of_nonpos_of_nonneg (not_lt.1 hc) hp.le
    linarith
  have hm1 : (1 : ℝ) ≤ m := by
    have : 0 < m := by exact_mod_cast hm
    exact_mod_cast this
  calc (2 : ℝ) ^ (-1074 : Int) ≤ 2 ^ e := zpow_le_zpow_right₀ one_le_two he
    _ ≤ m * 2 ^ e := le_mul_of_one_le_left hp.le hm1

/-- `PopulationVariance()`, for two samples of positive weight or more, is within M (15n + 60) units of the weighted
variance; underflow adds n (6M + 4)/2^1075, divided by the total weight, and 2/2^1075. -/
theorem west_variance_error (hA : A.IsBinary64) (c : WestFused) (ops : List (AccOp (Num A × Num A))) (ps : List (ℝ × ℝ))
    (hps : sinceReset ops = ps.map (fun p => (.fin p.1, .fin p.2))) (M : ℝ) (hM0 : 0 ≤ M) (hM : M ≤ (2 : ℝ) ^ (400 : Int))
    (hx : ∀ p ∈ ps, 0 < p.2 → Double p.1 ∧ |p.1| ≤ M ∧ Double p.2) (hW : totalWeight (positive ps) ≤ (2 : ℝ) ^ (128 : Int))
    (h2 : 2 ≤ (positive ps).length) (hn : (positive ps).length ≤ 2 ^ 48) :
    ∃ v : ℝ, (runOps (West.addContracted c) West.reset West.new ops).populationVariance = .fin v ∧
      |v - wsqDev (positive ps) / totalWeight (positive ps)| ≤
        M * (M / 2 ^ 53 + (2 : ℝ) ^ (-1075 : Int)) * (15 * (positive ps).length + 60) +
          (positive ps).length * (6 * M + 4) * (2 : ℝ) ^ (-1075 : Int) / totalWeight (positive ps) +
            2 * (2 : ℝ) ^ (-1075 : Int) := by
  rw [west_contracted_ops, hps, west_filter_positive]
  have hp : ∀ p ∈ positive ps, p ∈ ps ∧ 0 < p.2 := fun p hp => by simpa [positive] using hp
  have hx1 : ∀ p ∈ positive ps, Double p.1 ∧ |p.1| ≤ M :=
    fun p h => ⟨(hx p (hp p h).1 (hp p h).2).1, (hx p (hp p h).1 (hp p h).2).2.1⟩
  have hw1 : ∀ p ∈ positive ps, Double p.2 ∧ 0 < p.2 := fun p h => ⟨(hx p (hp p h).1 (hp p h).2).2.2, (hp p h).2⟩
  obtain ⟨s, Wh, μ, q, hs, h1, hm, hq, hcnt, -, -, -, eW, -, eq⟩ := west_error hA c hM0 hM (positive ps) hx1 hw1 hW hn
  have hN' : ((positive ps).length : ℝ) ≤ 2 ^ 48 := by exact_mod_cast hn
  have hN1 : (1 : ℝ) ≤ (positive ps).length := by exact_mod_cast (by omega : 1 ≤ (positive ps).length)
  obtain ⟨hS0, hS⟩ := wsqDev_bounds (fun p h => (hw1 p h).2) (fun p h => (hx1 p h).2)
  have hne : positive ps ≠ [] := by intro h; rw [h] at h2; simp at h2
  have hV0 := totalWeight_pos (fun p h => (hw1 p h).2) hne
  have hVmin : (2 : ℝ) ^ (-1074 : Int) ≤ totalWeight (positive ps) := by
    obtain ⟨p, hpm⟩ := List.exists_mem_of_ne_nil _ hne
    refine (double_ge (hw1 p hpm).1 (hw1 p hpm).2).trans ?_
    unfold totalWeight
    refine List.single_le_sum ?_ _ (List.mem_map.2 ⟨p, hpm, rfl⟩)
    intro y hy
    obtain ⟨r, h1, rfl⟩ := List.mem_map.1 hy
    exact (hw1 r h1).2.le
  have hη := two_zpow_pos (K := ℝ) (-1075)
  have hηV : (2 : ℝ) ^ (-1075 : Int) ≤ 1 / 2 * totalWeight (positive ps) := by
    refine le_trans (le_of_eq ?_) (mul_le_mul_of_nonneg_left hVmin (by norm_num))
    rw [show (-1074 : Int) = -1075 + 1 by norm_num, zpow_add₀ two_ne_zero, zpow_one]; ring
  have hu : 0 ≤ unitError M := by unfold unitError; positivity
  have hMu : M * (1 / 2 ^ 53) ≤ unitError M := by unfold unitError; rw [show M * (1 / 2 ^ 53) = M / 2 ^ 53 by ring]; linarith only [hη]
  obtain ⟨-, -, f3⟩ := west_fits (V := 4) hM0 hM (by norm_num) (by
    rw [show (4 : ℝ) = (2 : ℝ) ^ (2 : Int) by norm_num]; exact zpow_le_zpow_right₀ one_le_two (by norm_num)) hN1 hN'
  have hbig : (4 : ℝ) * 2 ^ 51 * (2 : ℝ) ^ (400 : Int) ≤ (2 : ℝ) ^ (1023 : Int) := by
    rw [show (4 : ℝ) * 2 ^ 51 = (2 : ℝ) ^ (53 : Int) by norm_num, ← zpow_add₀ two_ne_zero]
    exact zpow_le_zpow_right₀ one_le_two (by norm_num)
  have f4 : ((positive ps).length : ℝ) * (3 * M + 2) ≤ (2 : ℝ) ^ (1023 : Int) := by
    refine le_trans ?_ hbig
    have h3 : (1 : ℝ) ≤ (2 : ℝ) ^ (400 : Int) := one_le_zpow₀ one_le_two (by norm_num)
    clear hbig f3
    generalize (2 : ℝ) ^ (400 : Int) = c at *
    have := mul_le_mul hN' (show 3 * M + 2 ≤ 5 * c by linarith only [hM, h3]) (by positivity) (by norm_num)
    refine this.trans ?_
    rw [← mul_assoc]
    exact mul_le_mul_of_nonneg_right (by norm_num) (by linarith only [h3])
  have r := rn_abs_err (q / Wh)
  rw [show |q / Wh| / 2 ^ 53 = |q / Wh| * (1 / 2 ^ 53) by ring] at r
  have hε : (0 : ℝ) ≤ 1 / 2 ^ 53 := by positivity
  have hεN : ((positive ps).length : ℝ) * (1 / 2 ^ 53 : ℝ) ≤ 1 / 32 := by
    have := mul_le_mul_of_nonneg_right hN' hε
    refine this.trans ?_
    norm_num
  have hε1 : (1 : ℝ) / 2 ^ 53 ≤ 1 / 4096 := by norm_num
  have fin : 0 < Wh ∧ |q / Wh| ≤ (2 : ℝ) ^ (1023 : Int) ∧
      |rn (q / Wh) - wsqDev (positive ps) / totalWeight (positive ps)| ≤
        M * unitError M * (15 * (positive ps).length + 60) +
          (positive ps).length * (6 * M + 4) * (2 : ℝ) ^ (-1075 : Int) / totalWeight (positive ps) +
            2 * (2 : ℝ) ^ (-1075 : Int) := by
    have hMε : M * (M * (1 / 2 ^ 53)) ≤ M * unitError M := mul_le_mul_of_nonneg_left hMu hM0
    clear hbig hW hVmin hMu
    generalize (2 : ℝ) ^ (1023 : Int) = big at *
    generalize (2 : ℝ) ^ (-1075 : Int) = η at *
    generalize totalWeight (positive ps) = V at *
    generalize wsqDev (positive ps) = S at *
    generalize ((positive ps).length : ℝ) = n at *
    have hMu0 : 0 ≤ M * unitError M := mul_nonneg hM0 hu
    generalize M * unitError M = U at *
    generalize rn (q / Wh) = z at *
    generalize (1 : ℝ) / 2 ^ 53 = ε at *
    have hn0 : 0 ≤ n := by linarith only [hN1]
    have hnε0 := mul_nonneg hn0 hε
    have hWh : 247 / 256 * V ≤ Wh := by
      have := (abs_le.1 eW).1
      have h5 : 9 / 8 * (n * ε) * V ≤ 9 / 256 * V := mul_le_mul_of_nonneg_right (by linarith only [hεN]) hV0.le
      linarith only [this, h5]
    have hWh0 : 0 < Wh := by linarith only [hWh, hV0]
    -- the ratio of the sums of weights
    obtain ⟨ρ, hρ⟩ : ∃ ρ, ρ = V / Wh := ⟨_, rfl⟩
    have hρ0 : 0 ≤ ρ := by rw [hρ]; positivity
    have hρ1 : ρ ≤ 1.04 := by
      rw [hρ, div_le_iff₀ hWh0]
      linarith only [hWh, hV0]
    have hρ2 : |ρ - 1| ≤ 1.17 * (n * ε) := by
      have e : ρ - 1 = ρ * (-((Wh - V) / V)) := by rw [hρ]; field_simp; ring
      rw [e, abs_mul, abs_neg, abs_of_nonneg hρ0, abs_div, abs_of_pos hV0]
      have h3 : |Wh - V| / V ≤ 9 / 8 * (n * ε) := by rw [div_le_iff₀ hV0]; exact eW
      have := mul_le_mul hρ1 h3 (by positivity) (by norm_num)
      linarith only [this, hnε0]
    have hQ : q / Wh = q / V * ρ := by rw [hρ]; field_simp
    -- the quotient by the exact sum of the weights
    obtain ⟨D, hD⟩ : ∃ D, D = n * (3 * M + 2) * η / V := ⟨_, rfl⟩
    have hD0 : 0 ≤ D := by rw [hD]; positivity
    have hD1 : D ≤ 1 / 2 * big := by
      rw [hD, div_le_iff₀ hV0]
      have h3 := mul_le_mul f4 hηV hη.le (le_trans (by positivity) f4)
      linarith only [h3]
    have hD2 : n * (6 * M + 4) * η / V = 2 * D := by rw [hD]; ring
    have hs0 : 0 ≤ S / V := by positivity
    have hs1 : S / V ≤ M ^ 2 := by rw [div_le_iff₀ hV0]; linarith only [hS]
    have hQs : |q / V - S / V| ≤ U * (13 * n + 50) + D := by
      have e : q / V - S / V = (q - S) / V := by ring
      rw [e, abs_div, abs_of_pos hV0, div_le_iff₀ hV0, add_mul, hD, div_mul_cancel₀ _ hV0.ne']
      refine eq.trans (le_of_eq ?_)
      ring
    generalize S / V = σ at *
    have hQb : |q / V| ≤ M ^ 2 + (U * (13 * n + 50) + D) := by
      have := abs_sub_abs_le_abs_sub (q / V) σ
      rw [abs_of_nonneg hs0] at this
      linarith only [this, hQs, hs1]
    have hq1 : |q / Wh| ≤ 1.04 * (M ^ 2 + (U * (13 * n + 50) + D)) := by
      rw [hQ, abs_mul, abs_of_nonneg hρ0]
      have := mul_le_mul hQb hρ1 hρ0 (by positivity)
      linarith only [this]
    rw [hD2]
    refine ⟨hWh0, ?_, ?_⟩
    · have h5 : 0 ≤ n * (3 * M + 2) * η := by positivity
      have h6 : 4 * (M ^ 2 + U * (13 * n + 50)) ≤ big := by linarith only [f3, h5]
      have h7 : 0 ≤ big := le_trans (by positivity) h6
      linarith only [hq1, h6, hD1, h7]
    · have e : z - σ = -(q / Wh - z) + (q / V * (ρ - 1) + (q / V - σ)) := by rw [hQ]; ring
      rw [e]
      refine (abs_add_le _ _).trans ?_
      rw [abs_neg]
      refine (add_le_add_right (abs_add_le _ _) _).trans ?_
      rw [abs_mul]
      have t1 := mul_le_mul_of_nonneg_right hq1 hε
      have t2 := mul_le_mul hQb hρ2 (abs_nonneg _) (by positivity)
      have hUn : 0 ≤ U * (13 * n + 50) + D := by positivity
      have t3 : (U * (13 * n + 50) + D) * (1.04 * ε + 1.17 * (n * ε)) ≤ (U * (13 * n + 50) + D) * 0.04 :=
        mul_le_mul_of_nonneg_left (by linarith only [hε1, hεN]) hUn
      have t4 : M * (M * ε) * (1.04 + 1.17 * n) ≤ U * (1.04 + 1.17 * n) := mul_le_mul_of_nonneg_right hMε (by positivity)
      have t5 : 0 ≤ U * n := by positivity
      linarith only [r, t1, t2, t3, t4, t5, hQs, hD0, hMu0, hη]
  refine ⟨rn (q / Wh), ?_, fin.2.2⟩
  rw [hs]
  unfold West.populationVariance
  rw [if_neg (by rw [hcnt]; omega), hq, h1, Num.fin_div fin.1.ne', round_of_le_two hA fin.2.1]

/-- C127.  Pairs of doubles, those of positive weight at most 2^48, of total weight at most 2^128 and of values of modulus at
most M ≤ 2^400: `Mean()` is within 3n + 9 units of their weighted mean. -/
theorem C127_mean (hA : A.IsBinary64) (ops : List (AccOp (Num A × Num A))) (ps : List (ℝ × ℝ))
    (hps : sinceReset ops = ps.map (fun p => (.fin p.1, .fin p.2))) (M : ℝ) (hM0 : 0 ≤ M) (hM : M ≤ (2 : ℝ) ^ (400 : Int))
    (hx : ∀ p ∈ ps, 0 < p.2 → Double p.1 ∧ |p.1| ≤ M ∧ Double p.2) (hW : totalWeight (positive ps) ≤ (2 : ℝ) ^ (128 : Int))
    (hn : (positive ps).length ≤ 2 ^ 48) :
    ∃ μ : ℝ, (runOps West.addPair West.reset West.new ops).getMean = .fin μ ∧
      |μ - wavg (positive ps)| ≤ (M / 2 ^ 53 + (2 : ℝ) ^ (-1075 : Int)) * (3 * (positive ps).length + 9) := by
  rw [← west_plain]
  exact west_mean_error hA _ ops ps hps M hM0 hM hx hW hn

/-- C127.  `Sum()` is within 5n + 11 units, times the total weight, and 1/2^1075, of the weighted sum of the values. -/
theorem C127_sum (hA : A.IsBinary64) (ops : List (AccOp (Num A × Num A))) (ps : List (ℝ × ℝ))
    (hps : sinceReset ops = ps.map (fun p => (.fin p.1, .fin p.2))) (M : ℝ) (hM0 : 0 ≤ M) (hM : M ≤ (2 : ℝ) ^ (400 : Int))
    (hx : ∀ p ∈ ps, 0 < p.2 → Double p.1 ∧ |p.1| ≤ M ∧ Double p.2) (hW : totalWeight (positive ps) ≤ (2 : ℝ) ^ (128 : Int))
    (hn : (positive ps).length ≤ 2 ^ 48) :
    ∃ S : ℝ, (runOps West.addPair West.reset West.new ops).sum = .fin S ∧
      |S - ((positive ps).map (fun p => p.2 * p.1)).sum| ≤
        totalWeight (positive ps) * ((M / 2 ^ 53 + (2 : ℝ) ^ (-1075 : Int)) * (5 * (positive ps).length + 11)) +
          (2 : ℝ) ^ (-1075 : Int) := by
  rw [← west_plain]
  exact west_sum_error hA _ ops ps hps M hM0 hM hx hW hn

/-- C127.  `PopulationVariance()`, for two samples of positive weight or more, is within M (15n + 60) units of the weighted
variance; underflow adds n (6M + 4)/2^1075, divided by the total weight, and 2/2^1075. -/
theorem C127_variance (hA : A.IsBinary64) (ops : List (AccOp (Num A × Num A))) (ps : List (ℝ × ℝ))
    (hps : sinceReset ops = ps.map (fun p => (.fin p.1, .fin p.2))) (M : ℝ) (hM0 : 0 ≤ M) (hM : M ≤ (2 : ℝ) ^ (400 : Int))
    (hx : ∀ p ∈ ps, 0 < p.2 → Double p.1 ∧ |p.1| ≤ M ∧ Double p.2) (hW : totalWeight (positive ps) ≤ (2 : ℝ) ^ (128 : Int))
    (h2 : 2 ≤ (positive ps).length) (hn : (positive ps).length ≤ 2 ^ 48) :
    ∃ v : ℝ, (runOps West.addPair West.reset West.new ops).populationVariance = .fin v ∧
      |v - wsqDev (positive ps) / totalWeight (positive ps)| ≤
        M * (M / 2 ^ 53 + (2 : ℝ) ^ (-1075 : Int)) * (15 * (positive ps).length + 60) +
          (positive ps).length * (6 * M + 4) * (2 : ℝ) ^ (-1075 : Int) / totalWeight (positive ps) +
            2 * (2 : ℝ) ^ (-1075 : Int) := by
  rw [← west_plain]
  exact west_variance_error hA _ ops ps hps M hM0 hM hx hW h2 hn

/-- The hypotheses hold for samples 1, -1 and 0 of weights 2, 1 and 0: the last one does not count. -/
example : totalWeight (positive ([(1, 2), (-1, 1), (0, 0)] : List (ℝ × ℝ))) ≤ (2 : ℝ) ^ (128 : Int) ∧
    (positive ([(1, 2), (-1, 1), (0, 0)] : List (ℝ × ℝ))).length = 2 ∧
    ∀ p ∈ ([(1, 2), (-1, 1), (0, 0)] : List (ℝ × ℝ)), 0 < p.2 → Double p.1 ∧ |p.1| ≤ 1 ∧ Double p.2 := by
  have e : positive ([(1, 2), (-1, 1), (0, 0)] : List (ℝ × ℝ)) = [(1, 2), (-1, 1)] := by
    simp [positive]
  rw [e]
  refine ⟨?_, rfl, ?_⟩
  · have h : (2 : ℝ) ^ (2 : Int) ≤ (2 : ℝ) ^ (128 : Int) := zpow_le_zpow_right₀ one_le_two (by norm_num)
    refine le_trans ?_ h
    norm_num [totalWeight]
  · intro p hp h0
    simp only [List.mem_cons, List.not_mem_nil, or_false] at hp
    rcases hp with rfl | rfl | rfl
    · exact ⟨⟨1, 0, by norm_num, by norm_num, by norm_num⟩, by norm_num, ⟨2, 0, by norm_num, by norm_num, by norm_num⟩⟩
    · exact ⟨⟨-1, 0, by norm_num, by norm_num, by norm_num⟩, by norm_num, ⟨1, 0, by norm_num, by norm_num, by norm_num⟩⟩
    · exact absurd h0 (lt_irrefl _)

end Bwsl
