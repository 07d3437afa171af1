import Verif.Props.WestContracted

/-! Property C173: the accuracy of the two sample variances of West's accumulator in double precision. -/

namespace Bwsl
open Spec

variable {A : Arith ℝ}

/-! ### The quotient -/

/-- The quotient by a denominator known to a relative error δ, when the total weight is at most κ denominators. -/
theorem sample_quotient {M V S q D Dh n κ δ : ℝ} (hM0 : 0 ≤ M) (hM : M ≤ (2 : ℝ) ^ (400 : Int))
    (hn : 1 ≤ n) (hn' : n ≤ 2 ^ 48) (hS0 : 0 ≤ S) (hS : S ≤ V * M ^ 2)
    (eq : |q - S| ≤ V * (M * unitError M) * (13 * n + 50) + n * (3 * M + 2) * (2 : ℝ) ^ (-1075 : Int))
    (hD : 0 < D) (hD' : (2 : ℝ) ^ (-600 : Int) ≤ D) (hVD : V ≤ κ * D) (hκ : 1 ≤ κ) (hκ' : κ ≤ 2 ^ 48) (hδ : δ ≤ 1 / 12)
    (hDh : |Dh - D| ≤ δ * D) :
    0 < Dh ∧ |q / Dh| ≤ (2 : ℝ) ^ (1023 : Int) ∧
    |rn (q / Dh) - S / D| ≤ κ * (M * unitError M) * (15 * n + 56) + 1.1 * (κ * M ^ 2 * δ) +
      n * (6 * M + 4) * (2 : ℝ) ^ (-1075 : Int) / D + 2 * (2 : ℝ) ^ (-1075 : Int) := by
  have hη := two_zpow_pos (K := ℝ) (-1075)
  have hu : 0 ≤ unitError M := by unfold unitError; positivity
  have hMu : M * (1 / 2 ^ 53) ≤ unitError M := by unfold unitError; rw [show M * (1 / 2 ^ 53) = M / 2 ^ 53 by ring]; linarith only [hη]
  have hMε : M * (M * (1 / 2 ^ 53)) ≤ M * unitError M := mul_le_mul_of_nonneg_left hMu hM0
  -- the sizes
  have h400 : (1 : ℝ) ≤ (2 : ℝ) ^ (400 : Int) := one_le_zpow₀ one_le_two (by norm_num)
  have l1 : ∀ a : ℝ, M ≤ a → 1 ≤ a → M / 2 + 1 / 2 ≤ a ∧ 3 * M + 2 ≤ 5 * a ∧ 0 ≤ a := fun a h1 h2 =>
    ⟨by linarith only [h1, h2], by linarith only [h1, h2], by linarith only [h2]⟩
  obtain ⟨l1, l2, l3⟩ := l1 _ hM h400
  have hU1 : M * unitError M ≤ (2 : ℝ) ^ (800 : Int) := by
    have h1 : unitError M ≤ (2 : ℝ) ^ (400 : Int) := by
      have h2 : unitError M ≤ M / 2 + 1 / 2 := by
        unfold unitError
        have h3 : (2 : ℝ) ^ (-1075 : Int) ≤ (2 : ℝ) ^ (-1 : Int) := zpow_le_zpow_right₀ one_le_two (by norm_num)
        rw [show (2 : ℝ) ^ (-1 : Int) = 1 / 2 by norm_num] at h3
        have h4 : M / 2 ^ 53 ≤ M / 2 := div_le_div_of_nonneg_left hM0 (by norm_num) (by norm_num)
        linarith only [h3, h4]
      exact h2.trans l1
    have := mul_le_mul hM h1 hu (le_trans hM0 hM)
    rwa [← zpow_add₀ two_ne_zero] at this
  have hM2 : M ^ 2 ≤ (2 : ℝ) ^ (800 : Int) := by
    have := mul_le_mul hM hM hM0 (le_trans hM0 hM)
    rw [← zpow_add₀ two_ne_zero] at this
    rw [pow_two]; exact this
  have hE : n * (3 * M + 2) * (2 : ℝ) ^ (-1075 : Int) / D ≤ (2 : ℝ) ^ (800 : Int) := by
    rw [div_le_iff₀ hD]
    have h1 : n * (3 * M + 2) ≤ (2 : ℝ) ^ (51 : Int) * (2 : ℝ) ^ (400 : Int) := by
      have := mul_le_mul hn' l2 (by positivity) (by norm_num)
      refine this.trans ?_
      rw [show (2 : ℝ) ^ (51 : Int) = 2 ^ 51 by norm_num, ← mul_assoc]
      exact mul_le_mul_of_nonneg_right (by norm_num) l3
    have h2 := mul_le_mul_of_nonneg_right h1 hη.le
    refine h2.trans (le_trans ?_ (mul_le_mul_of_nonneg_left hD' (two_zpow_pos (K := ℝ) 800).le))
    rw [← zpow_add₀ two_ne_zero, ← zpow_add₀ two_ne_zero, ← zpow_add₀ two_ne_zero]
    exact zpow_le_zpow_right₀ one_le_two (by norm_num)
  have hbig : (2 : ℝ) ^ (110 : Int) * (2 : ℝ) ^ (800 : Int) ≤ (2 : ℝ) ^ (1023 : Int) := by
    rw [← zpow_add₀ two_ne_zero]
    exact zpow_le_zpow_right₀ one_le_two (by norm_num)
  rw [show (2 : ℝ) ^ (110 : Int) = 2 ^ 110 by norm_num] at hbig
  have r := rn_abs_err (q / Dh)
  rw [show |q / Dh| / 2 ^ 53 = |q / Dh| * (1 / 2 ^ 53) by ring] at r
  have hε : (0 : ℝ) ≤ 1 / 2 ^ 53 := by positivity
  have hε1 : (1 : ℝ) / 2 ^ 53 ≤ 1 / 4096 := by norm_num
  have h800 := two_zpow_pos (K := ℝ) 800
  have hMu0 : 0 ≤ M * unitError M := mul_nonneg hM0 hu
  clear hD' h400 hM hMu hu l1 l2 l3
  generalize (2 : ℝ) ^ (1023 : Int) = big at *
  generalize (2 : ℝ) ^ (-1075 : Int) = η at *
  generalize (2 : ℝ) ^ (800 : Int) = t at *
  generalize M * unitError M = U at *
  generalize rn (q / Dh) = z at *
  have hM20 : 0 ≤ M ^ 2 := sq_nonneg M
  have hδ0 : 0 ≤ δ := by
    have := (abs_nonneg _).trans hDh
    by_contra h
    have := mul_neg_of_neg_of_pos (not_le.1 h) hD
    linarith
  have hDh1 : 11 / 12 * D ≤ Dh := by
    have := (abs_le.1 hDh).1
    have h5 : δ * D ≤ 1 / 12 * D := mul_le_mul_of_nonneg_right hδ hD.le
    linarith only [this, h5]
  have hDh0 : 0 < Dh := by linarith only [hDh1, hD]
  obtain ⟨ρ, hρ⟩ : ∃ ρ, ρ = D / Dh := ⟨_, rfl⟩
  have hρ0 : 0 ≤ ρ := by rw [hρ]; positivity
  have hρ1 : ρ ≤ 12 / 11 := by
    rw [hρ, div_le_iff₀ hDh0]
    linarith only [hDh1]
  have hρ2 : |ρ - 1| ≤ 12 / 11 * δ := by
    have e : ρ - 1 = ρ * (-((Dh - D) / D)) := by rw [hρ]; field_simp; ring
    rw [e, abs_mul, abs_neg, abs_of_nonneg hρ0, abs_div, abs_of_pos hD]
    have h3 : |Dh - D| / D ≤ δ := by rw [div_le_iff₀ hD]; exact hDh
    exact mul_le_mul hρ1 h3 (by positivity) (by norm_num)
  have hQ : q / Dh = q / D * ρ := by rw [hρ]; field_simp
  obtain ⟨E, hEe⟩ : ∃ E, E = n * (3 * M + 2) * η / D := ⟨_, rfl⟩
  have hE0 : 0 ≤ E := by rw [hEe]; positivity
  have hE2 : n * (6 * M + 4) * η / D = 2 * E := by rw [hEe]; ring
  rw [← hEe] at hE
  have hσ0 : 0 ≤ S / D := by positivity
  have hσ1 : S / D ≤ κ * M ^ 2 := by
    rw [div_le_iff₀ hD]
    have := mul_le_mul_of_nonneg_right hVD hM20
    linarith only [hS, this]
  have hn0 : 0 ≤ n := by linarith only [hn]
  have hκ0 : 0 ≤ κ := by linarith only [hκ]
  have hQs : |q / D - S / D| ≤ κ * U * (13 * n + 50) + E := by
    have e : q / D - S / D = (q - S) / D := by ring
    rw [e, abs_div, abs_of_pos hD, div_le_iff₀ hD, add_mul, hEe, div_mul_cancel₀ _ hD.ne']
    refine eq.trans ?_
    have := mul_le_mul_of_nonneg_right hVD (show 0 ≤ U * (13 * n + 50) by positivity)
    linarith only [this]
  generalize S / D = σ at *
  have hQb : |q / D| ≤ κ * M ^ 2 + (κ * U * (13 * n + 50) + E) := by
    have := abs_sub_abs_le_abs_sub (q / D) σ
    rw [abs_of_nonneg hσ0] at this
    linarith only [this, hQs, hσ1]
  have hq1 : |q / Dh| ≤ 12 / 11 * (κ * M ^ 2 + (κ * U * (13 * n + 50) + E)) := by
    rw [hQ, abs_mul, abs_of_nonneg hρ0]
    have := mul_le_mul hQb hρ1 hρ0 (by positivity)
    linarith only [this]
  have hκU0 : 0 ≤ κ * U := mul_nonneg hκ0 hMu0
  refine ⟨hDh0, ?_, ?_⟩
  · refine hq1.trans (le_trans ?_ hbig)
    have a1 : κ * M ^ 2 ≤ 2 ^ 48 * t := mul_le_mul hκ' hM2 hM20 (by norm_num)
    have a2 : κ * U * (13 * n + 50) ≤ 2 ^ 48 * t * (13 * 2 ^ 48 + 50) :=
      mul_le_mul (mul_le_mul hκ' hU1 hMu0 (by norm_num)) (by linarith only [hn']) (by positivity) (by positivity)
    have a3 : 12 / 11 * (2 ^ 48 * t + (2 ^ 48 * t * (13 * 2 ^ 48 + 50) + t)) ≤ 2 ^ 110 * t := by
      have : (12 / 11 * (2 ^ 48 + (2 ^ 48 * (13 * 2 ^ 48 + 50) + 1)) : ℝ) ≤ 2 ^ 110 := by norm_num
      have := mul_le_mul_of_nonneg_right this h800.le
      linarith only [this]
    linarith only [a1, a2, a3, hE]
  · rw [hE2]
    have e : z - σ = -(q / Dh - z) + (q / D * (ρ - 1) + (q / D - σ)) := by rw [hQ]; ring
    rw [e]
    refine (abs_add_le _ _).trans ?_
    rw [abs_neg]
    refine (add_le_add_right (abs_add_le _ _) _).trans ?_
    rw [abs_mul]
    generalize (1 : ℝ) / 2 ^ 53 = ε at *
    have t1 := mul_le_mul_of_nonneg_right hq1 hε
    have t2 := mul_le_mul hQb hρ2 (abs_nonneg _) (by positivity)
    obtain ⟨X, hX⟩ : ∃ X, X = κ * U * (13 * n + 50) + E := ⟨_, rfl⟩
    have hX0 : 0 ≤ X := by rw [hX]; positivity
    rw [← hX] at t1 t2 hQs
    have t3 : X * (12 / 11 * ε + 12 / 11 * δ) ≤ X * 0.0912 :=
      mul_le_mul_of_nonneg_left (by linarith only [hε1, hδ]) hX0
    have t4 : κ * (M * (M * ε)) ≤ κ * U := mul_le_mul_of_nonneg_left hMε hκ0
    have t5 : 0 ≤ κ * U * n := by positivity
    have t6 : 0 ≤ κ * M ^ 2 * δ := by positivity
    have t7 : X * 1.0912 ≤ κ * U * (14.2 * n + 54.6) + 2 * E := by
      rw [hX]
      linarith only [hE0, hκU0, t5]
    linarith only [r, t1, t2, t3, t4, t5, t6, t7, hQs, hκU0, hη]

/-- The state after a history: sums, count and bounds. -/
theorem west_sample_state (hA : A.IsBinary64) (c : WestFused) (ops : List (AccOp (Num A × Num A))) (ps : List (ℝ × ℝ))
    (hps : sinceReset ops = ps.map (fun p => (.fin p.1, .fin p.2))) (M : ℝ) (hM0 : 0 ≤ M) (hM : M ≤ (2 : ℝ) ^ (400 : Int))
    (hx : ∀ p ∈ ps, 0 < p.2 → Double p.1 ∧ |p.1| ≤ M ∧ Double p.2) (hW : totalWeight (positive ps) ≤ (2 : ℝ) ^ (128 : Int))
    (h2 : 2 ≤ (positive ps).length) (hn : (positive ps).length ≤ 2 ^ 48) :
    ∃ (s : West (Num A)) (Wh q : ℝ), runOps (West.addContracted c) West.reset West.new ops = s ∧
      s = ((positive ps).map (fun p => ((.fin p.1, .fin p.2) : Num A × Num A))).foldl
        (fun s p => s.addCoreContracted c p.1 p.2) (West.new : West (Num A)) ∧
      s.sumWeights = .fin Wh ∧ s.m2 = .fin q ∧ ¬ s.count < 2 ∧ Double Wh ∧
      |Wh - totalWeight (positive ps)| ≤ 9 / 8 * ((positive ps).length * (1 / 2 ^ 53)) * totalWeight (positive ps) ∧
      |q - wsqDev (positive ps)| ≤ totalWeight (positive ps) * (M * unitError M) * (13 * (positive ps).length + 50) +
        (positive ps).length * (3 * M + 2) * (2 : ℝ) ^ (-1075 : Int) ∧
      0 ≤ wsqDev (positive ps) ∧ wsqDev (positive ps) ≤ totalWeight (positive ps) * M ^ 2 ∧ 0 < totalWeight (positive ps) := by
  rw [west_contracted_ops, hps, west_filter_positive]
  have hp : ∀ p ∈ positive ps, p ∈ ps ∧ 0 < p.2 := fun p hp => by simpa [positive] using hp
  have hx1 : ∀ p ∈ positive ps, Double p.1 ∧ |p.1| ≤ M :=
    fun p h => ⟨(hx p (hp p h).1 (hp p h).2).1, (hx p (hp p h).1 (hp p h).2).2.1⟩
  have hw1 : ∀ p ∈ positive ps, Double p.2 ∧ 0 < p.2 := fun p h => ⟨(hx p (hp p h).1 (hp p h).2).2.2, (hp p h).2⟩
  obtain ⟨s, Wh, μ, q, hs, h1, hm, hq, hcnt, hd, -, -, eW, -, eq⟩ := west_error hA c hM0 hM (positive ps) hx1 hw1 hW hn
  obtain ⟨hS0, hS⟩ := wsqDev_bounds (fun p h => (hw1 p h).2) (fun p h => (hx1 p h).2)
  have hne : positive ps ≠ [] := by intro h; rw [h] at h2; simp at h2
  exact ⟨s, Wh, q, hs, hs.symm, h1, hq, by rw [hcnt]; omega, hd, eW, eq, hS0, by linarith only [hS],
    totalWeight_pos (fun p h => (hw1 p h).2) hne⟩

theorem double_unit : Double (1 : ℝ) := ⟨1, 0, by norm_num, by norm_num, by norm_num⟩

theorem nat_unit {n : ℝ} (hn : n ≤ 2 ^ 48) : n * (1 / 2 ^ 53 : ℝ) ≤ 1 / 32 := by
  have := mul_le_mul_of_nonneg_right hn (show (0 : ℝ) ≤ 1 / 2 ^ 53 by positivity)
  refine this.trans ?_
  norm_num

theorem sq_unit {M : ℝ} (hM0 : 0 ≤ M) : M ^ 2 * (1 / 2 ^ 53) ≤ M * unitError M := by
  have hη := two_zpow_pos (K := ℝ) (-1075)
  have hMu : M * (1 / 2 ^ 53) ≤ unitError M := by unfold unitError; rw [show M * (1 / 2 ^ 53) = M / 2 ^ 53 by ring]; linarith only [hη]
  have := mul_le_mul_of_nonneg_left hMu hM0
  linarith only [this]

theorem west_frequency_error (hA : A.IsBinary64) (c : WestFused) (ops : List (AccOp (Num A × Num A))) (ps : List (ℝ × ℝ))
    (hps : sinceReset ops = ps.map (fun p => (.fin p.1, .fin p.2))) (M : ℝ) (hM0 : 0 ≤ M) (hM : M ≤ (2 : ℝ) ^ (400 : Int))
    (hx : ∀ p ∈ ps, 0 < p.2 → Double p.1 ∧ |p.1| ≤ M ∧ Double p.2) (hW : totalWeight (positive ps) ≤ (2 : ℝ) ^ (128 : Int))
    (h2 : 2 ≤ (positive ps).length) (hn : (positive ps).length ≤ 2 ^ 48) (hW2 : 2 ≤ totalWeight (positive ps)) :
    ∃ v : ℝ, (runOps (West.addContracted c) West.reset West.new ops).sampleFrequencyVariance = .fin v ∧
      |v - wsqDev (positive ps) / (totalWeight (positive ps) - 1)| ≤
        M * (M / 2 ^ 53 + (2 : ℝ) ^ (-1075 : Int)) * (35 * (positive ps).length + 115) +
          (positive ps).length * (6 * M + 4) * (2 : ℝ) ^ (-1075 : Int) / (totalWeight (positive ps) - 1) +
            2 * (2 : ℝ) ^ (-1075 : Int) := by
  obtain ⟨s, Wh, q, hs, -, h1, hq, hcnt, hd, eW, eq, hS0, hS, hV0⟩ := west_sample_state hA c ops ps hps M hM0 hM hx hW h2 hn
  have hN' : ((positive ps).length : ℝ) ≤ 2 ^ 48 := by exact_mod_cast hn
  have hN1 : (1 : ℝ) ≤ (positive ps).length := by exact_mod_cast (by omega : 1 ≤ (positive ps).length)
  have hsub := rn_rel (hd.mult.sub double_unit.mult)
  rw [show |Wh - 1| / 2 ^ 53 = |Wh - 1| * (1 / 2 ^ 53) by ring] at hsub
  have hnε := nat_unit hN'
  have hMε := sq_unit hM0
  have hε : (0 : ℝ) ≤ 1 / 2 ^ 53 := by positivity
  have hε1 : (1 : ℝ) / 2 ^ 53 ≤ 1 / 4096 := by norm_num
  have hU0 : 0 ≤ M * unitError M := by unfold unitError; have := two_zpow_pos (K := ℝ) (-1075); positivity
  have hsize : |Wh - 1| ≤ 5 / 4 * (totalWeight (positive ps) - 1) ∧
      |rn (Wh - 1) - (totalWeight (positive ps) - 1)| ≤
        (9 / 4 * ((positive ps).length * (1 / 2 ^ 53)) + 5 / 4 * (1 / 2 ^ 53)) * (totalWeight (positive ps) - 1) := by
    clear hW eq hS hS0 hM hMε
    generalize totalWeight (positive ps) = V at *
    generalize ((positive ps).length : ℝ) = n at *
    generalize rn (Wh - 1) = z at *
    generalize (1 : ℝ) / 2 ^ 53 = ε at *
    have hnε0 : 0 ≤ n * ε := mul_nonneg (by linarith only [hN1]) hε
    have e1 : |Wh - V| ≤ 9 / 4 * (n * ε) * (V - 1) := by
      refine eW.trans ?_
      have := mul_nonneg hnε0 (show 0 ≤ V - 2 by linarith only [hW2])
      linarith only [this]
    have e2 : 9 / 4 * (n * ε) * (V - 1) ≤ 9 / 128 * (V - 1) :=
      mul_le_mul_of_nonneg_right (by linarith only [hnε]) (by linarith only [hW2])
    have e3 : |Wh - 1| ≤ 5 / 4 * (V - 1) := by
      rw [abs_le]
      obtain ⟨a, b⟩ := abs_le.1 (e1.trans e2)
      constructor <;> linarith only [a, b, hW2]
    refine ⟨e3, ?_⟩
    have e : z - (V - 1) = -(Wh - 1 - z) + (Wh - V) := by ring
    rw [e]
    refine (abs_add_le _ _).trans ?_
    rw [abs_neg]
    have := mul_le_mul_of_nonneg_right e3 hε
    linarith only [this, hsub, e1]
  obtain ⟨f1, f2, f3⟩ := sample_quotient (κ := 2) hM0 hM hN1 hN' hS0 hS eq (show 0 < totalWeight (positive ps) - 1 by linarith only [hW2])
    (by
      refine le_trans (zpow_le_one_of_nonpos₀ one_le_two (by norm_num)) ?_
      linarith only [hW2]) (by linarith only [hW2]) one_le_two (by norm_num)
    (by linarith only [hnε, hε1]) hsize.2
  have r1 : |Wh - 1| ≤ (2 : ℝ) ^ (1023 : Int) := by
    refine hsize.1.trans ?_
    have : (2 : ℝ) ^ (128 : Int) * 2 ≤ (2 : ℝ) ^ (1023 : Int) := by
      rw [show (2 : ℝ) ^ (128 : Int) * 2 = (2 : ℝ) ^ (129 : Int) by norm_num]
      exact zpow_le_zpow_right₀ one_le_two (by norm_num)
    clear eq f2 f3
    generalize (2 : ℝ) ^ (1023 : Int) = big at *
    generalize (2 : ℝ) ^ (128 : Int) = b at *
    linarith only [this, hW, hW2]
  refine ⟨rn (q / rn (Wh - 1)), ?_, ?_⟩
  · rw [hs]
    unfold West.sampleFrequencyVariance
    rw [if_neg hcnt, hq, h1, Num.ofInt_eq, Int.cast_one, round_of_le_two hA (x := 1) (by
      rw [abs_one]; exact one_le_zpow₀ one_le_two (by norm_num)), rn_double double_unit, Num.fin_sub, round_of_le_two hA r1,
      Num.fin_div f1.ne', round_of_le_two hA f2]
  · refine f3.trans ?_
    show _ ≤ M * unitError M * _ + _ + _
    clear f2 f3 eq hW
    generalize (2 : ℝ) ^ (-1075 : Int) = η at *
    generalize M * unitError M = U at *
    generalize ((positive ps).length : ℝ) = n at *
    generalize (1 : ℝ) / 2 ^ 53 = ε at *
    have := mul_le_mul_of_nonneg_right hMε (show 0 ≤ 9 / 4 * n + 5 / 4 by linarith only [hN1])
    have h5 : 0 ≤ U * n := mul_nonneg hU0 (by linarith only [hN1])
    have e : 1.1 * (2 * M ^ 2 * (9 / 4 * (n * ε) + 5 / 4 * ε)) = 2.2 * (M ^ 2 * ε * (9 / 4 * n + 5 / 4)) := by ring
    rw [e]
    linarith only [this, h5, hU0]

/-! ### The sum of the squares of the weights -/

theorem sumWeights2_fold {F : Type} [CxxFloat F] [CxxFma F] (c : WestFused) (l : List (F × F)) (s : West F) :
    (l.foldl (fun s p => s.addCoreContracted c p.1 p.2) s).sumWeights2 =
      l.foldl (fun a p => mulAdd c.squares p.2 p.2 a) s.sumWeights2 := by
  induction l generalizing s with
  | nil => rfl
  | cons p l ih => exact ih _

theorem totalWeightSq_append (ps : List (ℝ × ℝ)) (p : ℝ × ℝ) :
    totalWeightSq (ps ++ [p]) = totalWeightSq ps + p.2 * p.2 := by
  simp [totalWeightSq, pow_two]

theorem totalWeightSq_nonneg (ps : List (ℝ × ℝ)) : 0 ≤ totalWeightSq ps := by
  unfold totalWeightSq
  refine List.sum_nonneg ?_
  intro y hy
  obtain ⟨q, -, rfl⟩ := List.mem_map.1 hy
  exact sq_nonneg q.2

theorem totalWeight_nonneg {ps : List (ℝ × ℝ)} (hp : ∀ p ∈ ps, 0 < p.2) : 0 ≤ totalWeight ps := by
  unfold totalWeight
  refine List.sum_nonneg ?_
  intro y hy
  obtain ⟨q, h, rfl⟩ := List.mem_map.1 hy
  exact (hp q h).le

theorem totalWeightSq_le {ps : List (ℝ × ℝ)} (hp : ∀ p ∈ ps, 0 < p.2) : totalWeightSq ps ≤ totalWeight ps ^ 2 := by
  induction ps using List.reverseRecOn with
  | nil => simp [totalWeightSq, totalWeight]
  | append_singleton ps p ih =>
    rw [totalWeightSq_append, totalWeight_append]
    have h := ih (fun q hq => hp q (by simp [hq]))
    have h0 := totalWeight_nonneg (fun q hq => hp q (by simp [hq]) : ∀ q ∈ ps, 0 < q.2)
    have := mul_nonneg h0 (hp p (by simp)).le
    linarith only [h, this]

/-- The sum of the squares of the weights. -/
theorem west_squares (hA : A.IsBinary64) (f : Bool) (ps : List (ℝ × ℝ)) (hw : ∀ p ∈ ps, 0 < p.2)
    (hW : totalWeight ps ≤ (2 : ℝ) ^ (128 : Int)) (hn : ps.length ≤ 2 ^ 48) :
    ∃ y : ℝ, (ps.map (fun p => ((.fin p.1, .fin p.2) : Num A × Num A))).foldl
        (fun a p => mulAdd f p.2 p.2 a) (CxxFloat.zero : Num A) = .fin y ∧ Double y ∧
      |y - totalWeightSq ps| ≤ 9 / 8 * ((ps.length + 1) * (1 / 2 ^ 53)) * totalWeightSq ps +
        2 * ps.length * (2 : ℝ) ^ (-1075 : Int) := by
  induction ps using List.reverseRecOn with
  | nil => exact ⟨0, rfl, double_zero, by simp [totalWeightSq]⟩
  | append_singleton ps p ih =>
    obtain ⟨x, w⟩ := p
    have hw0 : 0 < w := hw (x, w) (by simp)
    have hp : ∀ q ∈ ps, 0 < q.2 := fun q hq => hw q (by simp [hq])
    have hW0 := totalWeight_nonneg hp
    rw [totalWeight_append] at hW
    dsimp only at hW
    rw [List.length_append, List.length_singleton] at hn
    obtain ⟨y, h1, hd, h2⟩ := ih hp (le_trans (by linarith only [hw0]) hW) (by omega)
    obtain ⟨η₁, η₂, p1, p2, p3, p4, p5⟩ := prodIn_err f (w * w)
    have p5 := p5 y hd
    have hη1 : (2 : ℝ) ^ (-1075 : Int) ≤ 1 := zpow_le_one_of_nonpos₀ one_le_two (by norm_num)
    have hη := two_zpow_pos (K := ℝ) (-1075)
    have hT0 := totalWeightSq_nonneg ps
    have hT := totalWeightSq_le hp
    have hww : 0 ≤ w * w := mul_self_nonneg w
    have hN' : (ps.length : ℝ) + 1 ≤ 2 ^ 48 := by
      have : ((ps.length + 1 : Nat) : ℝ) ≤ 2 ^ 48 := by exact_mod_cast hn
      push_cast at this; exact this
    have hN0 : (0 : ℝ) ≤ ps.length := Nat.cast_nonneg _
    have hnε := nat_unit hN'
    have hε : (0 : ℝ) ≤ 1 / 2 ^ 53 := by positivity
    have hε1 : (1 : ℝ) / 2 ^ 53 ≤ 1 / 4096 := by norm_num
    have hsq : totalWeight ps ^ 2 + w * w ≤ (2 : ℝ) ^ (256 : Int) := by
      have h3 := mul_le_mul hW hW (by linarith only [hW0, hw0]) (two_zpow_pos (K := ℝ) 128).le
      rw [← zpow_add₀ two_ne_zero] at h3
      have := mul_nonneg hW0 hw0.le
      refine le_trans ?_ h3
      linarith only [this]
    have hbig : 4 * (2 : ℝ) ^ (256 : Int) + 2 ^ 51 ≤ (2 : ℝ) ^ (1023 : Int) := by
      have h3 : (2 : ℝ) ^ (259 : Int) ≤ (2 : ℝ) ^ (1023 : Int) := zpow_le_zpow_right₀ one_le_two (by norm_num)
      have h4 : (2 : ℝ) ^ (51 : Int) ≤ (2 : ℝ) ^ (256 : Int) := zpow_le_zpow_right₀ one_le_two (by norm_num)
      rw [show (259 : Int) = 3 + 256 by norm_num, zpow_add₀ two_ne_zero, show (2 : ℝ) ^ (3 : Int) = 8 by norm_num] at h3
      rw [show (2 : ℝ) ^ (51 : Int) = 2 ^ 51 by norm_num] at h4
      clear hsq hW
      generalize (2 : ℝ) ^ (256 : Int) = b at *
      generalize (2 : ℝ) ^ (1023 : Int) = g at *
      linarith only [h3, h4]
    have key : |w * w| ≤ (2 : ℝ) ^ (1023 : Int) ∧ |y + prodIn f (w * w)| ≤ (2 : ℝ) ^ (1023 : Int) ∧
        |rn (y + prodIn f (w * w)) - (totalWeightSq ps + w * w)| ≤
          9 / 8 * ((ps.length + 1 + 1) * (1 / 2 ^ 53)) * (totalWeightSq ps + w * w) +
            2 * (ps.length + 1) * (2 : ℝ) ^ (-1075 : Int) := by
      rw [abs_of_nonneg hww] at p4 ⊢
      rw [show ∀ a : ℝ, a / 2 ^ 53 = a * (1 / 2 ^ 53) by intro a; ring] at p4 p5
      have hbound : totalWeightSq ps + w * w ≤ (2 : ℝ) ^ (256 : Int) := by linarith only [hT, hsq]
      clear hsq hT hW h1
      generalize (2 : ℝ) ^ (256 : Int) = b at *
      generalize (2 : ℝ) ^ (1023 : Int) = g at *
      generalize (2 : ℝ) ^ (-1075 : Int) = η at *
      generalize (ps.length : ℝ) = n at *
      generalize totalWeightSq ps = T at *
      generalize rn (y + prodIn f (w * w)) = z at *
      generalize prodIn f (w * w) = u at *
      generalize w * w = a at *
      have hη9 : (2 * n + 3) * (1 / 2 ^ 53) ≤ 1 := by linarith only [hnε, hε1]
      generalize (1 : ℝ) / 2 ^ 53 = ε at *
      have hnε0 : 0 ≤ n * ε := mul_nonneg hN0 hε
      have q1 : 9 / 8 * ((n + 1) * ε) * T ≤ 9 / 256 * T := mul_le_mul_of_nonneg_right (by linarith only [hnε]) hT0
      have q2 : a * ε ≤ a * (1 / 4096) := mul_le_mul_of_nonneg_left hε1 hww
      have q3 : |y + u| ≤ 17 / 16 * (T + a) + (2 * n + 1) * η := by
        have e : y + u = T + a + ((y - T) + -(a - u)) := by ring
        have i1 := abs_add_le (y - T) (-(a - u))
        rw [abs_neg] at i1
        rw [e]
        refine (abs_add_le _ _).trans ?_
        rw [abs_of_nonneg (add_nonneg hT0 hww)]
        linarith only [i1, h2, p4, q1, q2, p2, p3, hT0, hww]
      have q4 : (2 * n + 1) * η ≤ 2 ^ 50 := by
        refine (mul_le_of_le_one_right (by linarith only [hN0]) hη1).trans ?_
        linarith only [hN']
      refine ⟨by linarith only [hbound, hbig, hT0, hww], by linarith only [q3, q4, hbound, hbig, hT0, hww], ?_⟩
      have e : z - (T + a) = -(y + u - z) + ((y - T) + -(a - u)) := by ring
      rw [e]
      refine (abs_add_le _ _).trans ?_
      rw [abs_neg]
      have i1 := abs_add_le (y - T) (-(a - u))
      rw [abs_neg] at i1
      have i2 := mul_le_mul_of_nonneg_right q3 hε
      have i3 : (2 * n + 1) * ε * η ≤ 1 * η := mul_le_mul_of_nonneg_right (by linarith only [hη9, hε]) hη.le
      have i4 : 0 ≤ n * ε * a := mul_nonneg hnε0 hww
      have i5 : 0 ≤ ε * a := mul_nonneg hε hww
      have i6 : 0 ≤ ε * T := mul_nonneg hε hT0
      linarith only [i1, i2, i3, i4, i5, i6, h2, p4, p5, p3]
    refine ⟨rn (y + prodIn f (w * w)), ?_, rn_isDouble _, ?_⟩
    · rw [List.map_append, List.foldl_append, h1]
      exact mulAdd_rn hA f key.1 key.2.1
    · rw [totalWeightSq_append, List.length_append, List.length_singleton]
      push_cast
      exact key.2.2

/-- The denominator of the reliability variance: an absolute error of 4n + 5 units of the total weight. -/
theorem reliability_denominator {V T Wh y n : ℝ} (hV : (2 : ℝ) ^ (-128 : Int) ≤ V) (hn : 1 ≤ n) (hn' : n ≤ 2 ^ 48) (hT0 : 0 ≤ T)
    (hT : T ≤ V ^ 2) (hWd : Double Wh) (eW : |Wh - V| ≤ 9 / 8 * (n * (1 / 2 ^ 53)) * V)
    (ey : |y - T| ≤ 9 / 8 * ((n + 1) * (1 / 2 ^ 53)) * T + 2 * n * (2 : ℝ) ^ (-1075 : Int)) :
    0 < Wh ∧ |y / Wh| ≤ 2 * V ∧ |Wh - rn (y / Wh)| ≤ 2 * V ∧
    |rn (Wh - rn (y / Wh)) - (V - T / V)| ≤ (4 * n + 5) * (1 / 2 ^ 53) * V := by
  have hη := two_zpow_pos (K := ℝ) (-1075)
  have hV0 : 0 < V := lt_of_lt_of_le (two_zpow_pos _) hV
  have r1 := rn_abs_err (y / Wh)
  have r2 := rn_rel (hWd.mult.sub (rn_isDouble (y / Wh)).mult)
  rw [show ∀ a : ℝ, a / 2 ^ 53 = a * (1 / 2 ^ 53) by intro a; ring] at r1 r2
  have hη1 : (2 : ℝ) ^ (-1075 : Int) ≤ 1 / 100 * ((1 / 2 ^ 53) * V) := by
    have h1 : (2 : ℝ) ^ (-1075 : Int) ≤ (2 : ℝ) ^ (-60 : Int) * (2 : ℝ) ^ (-128 : Int) := by
      rw [← zpow_add₀ two_ne_zero]; exact zpow_le_zpow_right₀ one_le_two (by norm_num)
    refine h1.trans ((mul_le_mul_of_nonneg_left hV (two_zpow_pos (K := ℝ) _).le).trans ?_)
    rw [← mul_assoc]
    refine mul_le_mul_of_nonneg_right ?_ hV0.le
    norm_num
  have hη2 : 2 * n * (2 : ℝ) ^ (-1075 : Int) ≤ 1 / 100 * ((1 / 2 ^ 53) * V ^ 2) := by
    have h1 : (2 : ℝ) ^ (49 : Int) * (2 : ℝ) ^ (-1075 : Int) ≤ (2 : ℝ) ^ (-60 : Int) * ((2 : ℝ) ^ (-128 : Int) * (2 : ℝ) ^ (-128 : Int)) := by
      rw [← zpow_add₀ two_ne_zero, ← zpow_add₀ two_ne_zero, ← zpow_add₀ two_ne_zero]
      exact zpow_le_zpow_right₀ one_le_two (by norm_num)
    have h2 : 2 * n ≤ (2 : ℝ) ^ (49 : Int) := by
      rw [show (2 : ℝ) ^ (49 : Int) = 2 * 2 ^ 48 by norm_num]; linarith only [hn']
    have h3 := mul_le_mul_of_nonneg_right h2 hη.le
    have h4 := mul_le_mul hV hV (two_zpow_pos (K := ℝ) _).le hV0.le
    refine h3.trans (h1.trans ((mul_le_mul_of_nonneg_left h4 (two_zpow_pos (K := ℝ) _).le).trans ?_))
    rw [← mul_assoc (1 / 100 : ℝ), pow_two]
    refine mul_le_mul_of_nonneg_right ?_ (mul_self_nonneg V)
    norm_num
  have hnε := nat_unit hn'
  have hε : (0 : ℝ) < 1 / 2 ^ 53 := by positivity
  have hε1 : (1 : ℝ) / 2 ^ 53 ≤ 1 / 4096 := by norm_num
  clear hV hWd
  generalize (2 : ℝ) ^ (-1075 : Int) = η at *
  generalize rn (Wh - rn (y / Wh)) = d at *
  generalize rn (y / Wh) = z at *
  generalize (1 : ℝ) / 2 ^ 53 = ε at *
  have hnε0 : 0 ≤ n * ε := mul_nonneg (by linarith only [hn]) hε.le
  have hεV : 0 ≤ ε * V := mul_nonneg hε.le hV0.le
  have hWh1 : 247 / 256 * V ≤ Wh ∧ Wh ≤ 265 / 256 * V := by
    obtain ⟨a, b⟩ := abs_le.1 eW
    have h5 : 9 / 8 * (n * ε) * V ≤ 9 / 256 * V := mul_le_mul_of_nonneg_right (by linarith only [hnε]) hV0.le
    constructor <;> linarith only [a, b, h5]
  have hWh0 : 0 < Wh := by linarith only [hWh1.1, hV0]
  have hV2 : 0 < V ^ 2 := by positivity
  -- the sum of the squares, relative to V²
  have ey2 : |y - T| ≤ (9 / 8 * (n * ε) + 1.14 * ε) * V ^ 2 := by
    refine ey.trans ?_
    have h1 := mul_le_mul_of_nonneg_left hT (show 0 ≤ 9 / 8 * ((n + 1) * ε) by nlinarith only [hnε0, hε])
    linarith only [h1, hη2, mul_nonneg hε.le hV2.le]
  -- the quotient
  have eq1 : y / Wh - T / V = (y - T) / Wh + T / V * ((V - Wh) / Wh) := by field_simp; ring
  have hTV : 0 ≤ T / V ∧ T / V ≤ V := by
    refine ⟨by positivity, ?_⟩
    rw [div_le_iff₀ hV0]; linarith only [hT]
  have ea : |(y - T) / Wh| ≤ (1.17 * (n * ε) + 1.19 * ε) * V := by
    rw [abs_div, abs_of_pos hWh0, div_le_iff₀ hWh0]
    refine ey2.trans ?_
    have h1 := mul_le_mul_of_nonneg_left hWh1.1 (show 0 ≤ (1.17 * (n * ε) + 1.19 * ε) * V from
      mul_nonneg (by linarith only [hnε0, hε]) hV0.le)
    refine le_trans ?_ h1
    have h2 := mul_nonneg hnε0 hV2.le
    have h3 := mul_nonneg hε.le hV2.le
    linarith only [h2, h3]
  have eb : |T / V * ((V - Wh) / Wh)| ≤ 1.17 * (n * ε) * V := by
    rw [abs_mul, abs_of_nonneg hTV.1, abs_div, abs_of_pos hWh0]
    have h1 : |V - Wh| / Wh ≤ 1.17 * (n * ε) := by
      rw [div_le_iff₀ hWh0, abs_sub_comm]
      refine eW.trans ?_
      have h1 := mul_le_mul_of_nonneg_left hWh1.1 (show 0 ≤ 1.17 * (n * ε) by linarith only [hnε0])
      have h2 := mul_nonneg hnε0 hV0.le
      linarith only [h1, h2]
    have := mul_le_mul hTV.2 h1 (by positivity) hV0.le
    linarith only [this]
  have ec : |y / Wh - T / V| ≤ (2.34 * (n * ε) + 1.19 * ε) * V := by
    rw [eq1]
    refine (abs_add_le _ _).trans ?_
    linarith only [ea, eb]
  have hs : (2.34 * (n * ε) + 1.19 * ε) * V ≤ 1 / 10 * V :=
    mul_le_mul_of_nonneg_right (by linarith only [hnε, hε1]) hV0.le
  have hq : |y / Wh| ≤ 1.1 * V := by
    have := abs_sub_abs_le_abs_sub (y / Wh) (T / V)
    rw [abs_of_nonneg hTV.1] at this
    linarith only [this, ec, hs, hTV.2]
  have ed : |z - T / V| ≤ (2.34 * (n * ε) + 2.31 * ε) * V := by
    have e : z - T / V = -(y / Wh - z) + (y / Wh - T / V) := by ring
    rw [e]
    refine (abs_add_le _ _).trans ?_
    rw [abs_neg]
    have := mul_le_mul_of_nonneg_right hq hε.le
    linarith only [this, r1, ec, hη1, hεV]
  have ee : |Wh - z - (V - T / V)| ≤ (3.47 * (n * ε) + 2.31 * ε) * V := by
    have e : Wh - z - (V - T / V) = (Wh - V) + -(z - T / V) := by ring
    rw [e]
    refine (abs_add_le _ _).trans ?_
    rw [abs_neg]
    have := mul_nonneg hnε0 hV0.le
    linarith only [ed, eW, this]
  have hs2 : (3.47 * (n * ε) + 2.31 * ε) * V ≤ 1 / 5 * V :=
    mul_le_mul_of_nonneg_right (by linarith only [hnε, hε1]) hV0.le
  have hd : |Wh - z| ≤ 1.2 * V := by
    have := abs_sub_abs_le_abs_sub (Wh - z) (V - T / V)
    rw [abs_of_nonneg (show 0 ≤ V - T / V by linarith only [hTV.2])] at this
    linarith only [this, ee, hs2, hTV.1]
  refine ⟨hWh0, by linarith only [hq, hV0], by linarith only [hd, hV0], ?_⟩
  have e : d - (V - T / V) = -(Wh - z - d) + (Wh - z - (V - T / V)) := by ring
  rw [e]
  refine (abs_add_le _ _).trans ?_
  rw [abs_neg]
  have h1 := mul_le_mul_of_nonneg_right hd hε.le
  have h2 := mul_nonneg hnε0 hV0.le
  linarith only [h1, h2, r2, ee, hεV]

theorem west_reliability_error (hA : A.IsBinary64) (c : WestFused) (ops : List (AccOp (Num A × Num A))) (ps : List (ℝ × ℝ))
    (hps : sinceReset ops = ps.map (fun p => (.fin p.1, .fin p.2))) (M : ℝ) (hM0 : 0 ≤ M) (hM : M ≤ (2 : ℝ) ^ (400 : Int))
    (hx : ∀ p ∈ ps, 0 < p.2 → Double p.1 ∧ |p.1| ≤ M ∧ Double p.2) (hW : totalWeight (positive ps) ≤ (2 : ℝ) ^ (128 : Int))
    (hW' : (2 : ℝ) ^ (-128 : Int) ≤ totalWeight (positive ps)) (h2 : 2 ≤ (positive ps).length) (κ : ℝ)
    (hκ : totalWeight (positive ps) ≤ κ * (totalWeight (positive ps) - totalWeightSq (positive ps) / totalWeight (positive ps)))
    (hn : κ * (positive ps).length ≤ 2 ^ 46) :
    ∃ v : ℝ, (runOps (West.addContracted c) West.reset West.new ops).sampleReliabilityVariance = .fin v ∧
      |v - wsqDev (positive ps) / (totalWeight (positive ps) - totalWeightSq (positive ps) / totalWeight (positive ps))| ≤
        κ ^ 2 * (M * (M / 2 ^ 53 + (2 : ℝ) ^ (-1075 : Int))) * (20 * (positive ps).length + 62) +
          (positive ps).length * (6 * M + 4) * (2 : ℝ) ^ (-1075 : Int) /
            (totalWeight (positive ps) - totalWeightSq (positive ps) / totalWeight (positive ps)) +
            2 * (2 : ℝ) ^ (-1075 : Int) := by
  have hp : ∀ p ∈ positive ps, p ∈ ps ∧ 0 < p.2 := fun p hp => by simpa [positive] using hp
  have hV0 : 0 < totalWeight (positive ps) := lt_of_lt_of_le (two_zpow_pos _) hW'
  have hT0 := totalWeightSq_nonneg (positive ps)
  have hT := totalWeightSq_le (fun p h => (hp p h).2 : ∀ p ∈ positive ps, 0 < p.2)
  have hN2 : (2 : ℝ) ≤ (positive ps).length := by exact_mod_cast h2
  -- the denominator is positive and κ is at least 1
  have hTV : 0 ≤ totalWeightSq (positive ps) / totalWeight (positive ps) ∧
      totalWeightSq (positive ps) / totalWeight (positive ps) ≤ totalWeight (positive ps) := by
    refine ⟨by positivity, ?_⟩
    rw [div_le_iff₀ hV0]; linarith only [hT]
  have hD0 : 0 < totalWeight (positive ps) - totalWeightSq (positive ps) / totalWeight (positive ps) := by
    rcases lt_or_eq_of_le (sub_nonneg.2 hTV.2) with h | h
    · exact h
    · rw [← h, mul_zero] at hκ
      exact absurd hκ (not_le.2 hV0)
  have hκ1 : 1 ≤ κ := by
    by_contra h
    have h1 := mul_lt_mul_of_pos_right (not_le.1 h) hD0
    linarith only [h1, hκ, hTV.1]
  have hn48 : ((positive ps).length : ℝ) ≤ 2 ^ 46 :=
    le_trans (le_mul_of_one_le_left (by linarith only [hN2]) hκ1) hn
  have hn48' : (positive ps).length ≤ 2 ^ 48 := by
    have : (positive ps).length ≤ 2 ^ 46 := by exact_mod_cast hn48
    omega
  have hκ48 : κ ≤ 2 ^ 46 := le_trans (le_mul_of_one_le_right (by linarith only [hκ1]) (by linarith only [hN2])) hn
  obtain ⟨s, Wh, q, hs, hs', h1, hq, hcnt, hd, eW, eq, hS0, hS, -⟩ := west_sample_state hA c ops ps hps M hM0 hM hx hW h2 hn48'
  obtain ⟨y, hy, -, ey⟩ := west_squares hA c.squares (positive ps) (fun p h => (hp p h).2) hW hn48'
  have h3 : s.sumWeights2 = .fin y := by rw [hs', sumWeights2_fold]; exact hy
  have hN' : ((positive ps).length : ℝ) ≤ 2 ^ 48 := by exact_mod_cast hn48'
  have hN1 : (1 : ℝ) ≤ (positive ps).length := by linarith only [hN2]
  obtain ⟨g1, g2, g3, g4⟩ := reliability_denominator hW' hN1 hN' hT0 hT hd eW ey
  have hU0 : 0 ≤ M * unitError M := by unfold unitError; have := two_zpow_pos (K := ℝ) (-1075); positivity
  have hMε := sq_unit hM0
  have hlow : (2 : ℝ) ^ (-600 : Int) ≤ totalWeight (positive ps) - totalWeightSq (positive ps) / totalWeight (positive ps) := by
    have hk : κ ≤ (2 : ℝ) ^ (46 : Int) := by rw [show (2 : ℝ) ^ (46 : Int) = 2 ^ 46 by norm_num]; exact hκ48
    have a1 := mul_le_mul_of_nonneg_right hk hD0.le
    have a2 := hW'.trans (hκ.trans a1)
    have a3 : (2 : ℝ) ^ (46 : Int) * (2 : ℝ) ^ (-600 : Int) ≤ (2 : ℝ) ^ (-128 : Int) := by
      rw [← zpow_add₀ two_ne_zero]; exact zpow_le_zpow_right₀ one_le_two (by norm_num)
    exact le_of_mul_le_mul_left (a3.trans a2) (two_zpow_pos _)
  have hδ : κ * ((4 * (positive ps).length + 5) * (1 / 2 ^ 53)) ≤ 1 / 12 := by
    have a1 : κ * (4 * (positive ps).length + 5) ≤ 13 / 2 * (κ * (positive ps).length) := by
      have := mul_le_mul_of_nonneg_left hN2 (show 0 ≤ κ by linarith only [hκ1])
      linarith only [this]
    have a2 := mul_le_mul_of_nonneg_right (a1.trans (mul_le_mul_of_nonneg_left hn (by norm_num)))
      (show (0 : ℝ) ≤ 1 / 2 ^ 53 by positivity)
    rw [← mul_assoc]
    refine a2.trans ?_
    norm_num
  have g5 : |rn (Wh - rn (y / Wh)) -
        (totalWeight (positive ps) - totalWeightSq (positive ps) / totalWeight (positive ps))| ≤
      κ * ((4 * (positive ps).length + 5) * (1 / 2 ^ 53)) *
        (totalWeight (positive ps) - totalWeightSq (positive ps) / totalWeight (positive ps)) := by
    refine g4.trans ?_
    have := mul_le_mul_of_nonneg_left hκ (show (0 : ℝ) ≤ (4 * (positive ps).length + 5) * (1 / 2 ^ 53) by positivity)
    linarith only [this]
  obtain ⟨f1, f2, f3⟩ := sample_quotient hM0 hM hN1 hN' hS0 hS eq hD0 hlow hκ hκ1 (hκ48.trans (by norm_num)) hδ g5
  have hbig : 2 * totalWeight (positive ps) ≤ (2 : ℝ) ^ (1023 : Int) := by
    refine (mul_le_mul_of_nonneg_left hW zero_le_two).trans ?_
    rw [show 2 * (2 : ℝ) ^ (128 : Int) = (2 : ℝ) ^ (129 : Int) by norm_num]
    exact zpow_le_zpow_right₀ one_le_two (by norm_num)
  refine ⟨rn (q / rn (Wh - rn (y / Wh))), ?_, ?_⟩
  · rw [hs]
    unfold West.sampleReliabilityVariance
    rw [if_neg hcnt, hq, h1, h3, Num.fin_div g1.ne', round_of_le_two hA (g2.trans hbig), Num.fin_sub,
      round_of_le_two hA (g3.trans hbig), Num.fin_div f1.ne', round_of_le_two hA f2]
  · refine f3.trans ?_
    show _ ≤ κ ^ 2 * (M * unitError M) * _ + _ + _
    clear f2 f3 eq hW hW' hlow g4 g5 ey hbig
    generalize (2 : ℝ) ^ (-1075 : Int) = η at *
    generalize M * unitError M = U at *
    generalize ((positive ps).length : ℝ) = n at *
    generalize (1 : ℝ) / 2 ^ 53 = ε at *
    have hκ0 : 0 ≤ κ := by linarith only [hκ1]
    have a1 := mul_le_mul_of_nonneg_right hMε (show 0 ≤ κ ^ 2 * (4 * n + 5) from mul_nonneg (sq_nonneg _) (by linarith only [hN1]))
    have a2 : κ * U ≤ κ ^ 2 * U := mul_le_mul_of_nonneg_right (by nlinarith only [hκ1]) hU0
    have a3 := mul_le_mul_of_nonneg_right a2 (show 0 ≤ 15 * n + 56 by linarith only [hN1])
    have a4 : 0 ≤ κ ^ 2 * U * n := mul_nonneg (mul_nonneg (sq_nonneg _) hU0) (by linarith only [hN1])
    have a5 : 0 ≤ κ ^ 2 * U := mul_nonneg (sq_nonneg _) hU0
    have e : 1.1 * (κ * M ^ 2 * (κ * ((4 * n + 5) * ε))) = 1.1 * (M ^ 2 * ε * (κ ^ 2 * (4 * n + 5))) := by ring
    rw [e]
    linarith only [a1, a3, a4, a5]

/-! ### The property -/

/-- C173.  Pairs of doubles, two or more of positive weight and at most 2^48, of total weight W from 2 to 2^128 and of values
of modulus at most M ≤ 2^400: `SampleFrequencyVariance()` is within M (35n + 115) units of the sum of the weighted squared
deviations divided by W - 1; underflow adds n (6M + 4)/2^1075, divided by W - 1, and 2/2^1075. -/
theorem C173_frequency (hA : A.IsBinary64) (ops : List (AccOp (Num A × Num A))) (ps : List (ℝ × ℝ))
    (hps : sinceReset ops = ps.map (fun p => (.fin p.1, .fin p.2))) (M : ℝ) (hM0 : 0 ≤ M) (hM : M ≤ (2 : ℝ) ^ (400 : Int))
    (hx : ∀ p ∈ ps, 0 < p.2 → Double p.1 ∧ |p.1| ≤ M ∧ Double p.2) (hW : totalWeight (positive ps) ≤ (2 : ℝ) ^ (128 : Int))
    (h2 : 2 ≤ (positive ps).length) (hn : (positive ps).length ≤ 2 ^ 48) (hW2 : 2 ≤ totalWeight (positive ps)) :
    ∃ v : ℝ, (runOps West.addPair West.reset West.new ops).sampleFrequencyVariance = .fin v ∧
      |v - wsqDev (positive ps) / (totalWeight (positive ps) - 1)| ≤
        M * (M / 2 ^ 53 + (2 : ℝ) ^ (-1075 : Int)) * (35 * (positive ps).length + 115) +
          (positive ps).length * (6 * M + 4) * (2 : ℝ) ^ (-1075 : Int) / (totalWeight (positive ps) - 1) +
            2 * (2 : ℝ) ^ (-1075 : Int) := by
  rw [← west_plain]
  exact west_frequency_error hA _ ops ps hps M hM0 hM hx hW h2 hn hW2

/-- C173.  If, with W the total weight and D = W - (sum of the squared weights)/W, W ≤ κD and κn ≤ 2^46, W from 2^-128 to
2^128: `SampleReliabilityVariance()` is within κ² M (20n + 62) units of the sum of the weighted squared deviations divided
by D; underflow adds n (6M + 4)/2^1075, divided by D, and 2/2^1075. -/
theorem C173_reliability (hA : A.IsBinary64) (ops : List (AccOp (Num A × Num A))) (ps : List (ℝ × ℝ))
    (hps : sinceReset ops = ps.map (fun p => (.fin p.1, .fin p.2))) (M : ℝ) (hM0 : 0 ≤ M) (hM : M ≤ (2 : ℝ) ^ (400 : Int))
    (hx : ∀ p ∈ ps, 0 < p.2 → Double p.1 ∧ |p.1| ≤ M ∧ Double p.2) (hW : totalWeight (positive ps) ≤ (2 : ℝ) ^ (128 : Int))
    (hW' : (2 : ℝ) ^ (-128 : Int) ≤ totalWeight (positive ps)) (h2 : 2 ≤ (positive ps).length) (κ : ℝ)
    (hκ : totalWeight (positive ps) ≤ κ * (totalWeight (positive ps) - totalWeightSq (positive ps) / totalWeight (positive ps)))
    (hn : κ * (positive ps).length ≤ 2 ^ 46) :
    ∃ v : ℝ, (runOps West.addPair West.reset West.new ops).sampleReliabilityVariance = .fin v ∧
      |v - wsqDev (positive ps) / (totalWeight (positive ps) - totalWeightSq (positive ps) / totalWeight (positive ps))| ≤
        κ ^ 2 * (M * (M / 2 ^ 53 + (2 : ℝ) ^ (-1075 : Int))) * (20 * (positive ps).length + 62) +
          (positive ps).length * (6 * M + 4) * (2 : ℝ) ^ (-1075 : Int) /
            (totalWeight (positive ps) - totalWeightSq (positive ps) / totalWeight (positive ps)) +
            2 * (2 : ℝ) ^ (-1075 : Int) := by
  rw [← west_plain]
  exact west_reliability_error hA _ ops ps hps M hM0 hM hx hW hW' h2 κ hκ hn

/-- C173.  The same bounds whatever products are fused with the sums. -/
theorem C173_fused (hA : A.IsBinary64) (c : WestFused) (ops : List (AccOp (Num A × Num A))) (ps : List (ℝ × ℝ))
    (hps : sinceReset ops = ps.map (fun p => (.fin p.1, .fin p.2))) (M : ℝ) (hM0 : 0 ≤ M) (hM : M ≤ (2 : ℝ) ^ (400 : Int))
    (hx : ∀ p ∈ ps, 0 < p.2 → Double p.1 ∧ |p.1| ≤ M ∧ Double p.2) (hW : totalWeight (positive ps) ≤ (2 : ℝ) ^ (128 : Int))
    (h2 : 2 ≤ (positive ps).length) :
    ((positive ps).length ≤ 2 ^ 48 → 2 ≤ totalWeight (positive ps) →
      ∃ v : ℝ, (runOps (West.addContracted c) West.reset West.new ops).sampleFrequencyVariance = .fin v ∧
        |v - wsqDev (positive ps) / (totalWeight (positive ps) - 1)| ≤
          M * (M / 2 ^ 53 + (2 : ℝ) ^ (-1075 : Int)) * (35 * (positive ps).length + 115) +
            (positive ps).length * (6 * M + 4) * (2 : ℝ) ^ (-1075 : Int) / (totalWeight (positive ps) - 1) +
              2 * (2 : ℝ) ^ (-1075 : Int)) ∧
    ((2 : ℝ) ^ (-128 : Int) ≤ totalWeight (positive ps) → ∀ κ : ℝ,
      totalWeight (positive ps) ≤ κ * (totalWeight (positive ps) - totalWeightSq (positive ps) / totalWeight (positive ps)) →
      κ * (positive ps).length ≤ 2 ^ 46 →
      ∃ v : ℝ, (runOps (West.addContracted c) West.reset West.new ops).sampleReliabilityVariance = .fin v ∧
        |v - wsqDev (positive ps) / (totalWeight (positive ps) - totalWeightSq (positive ps) / totalWeight (positive ps))| ≤
          κ ^ 2 * (M * (M / 2 ^ 53 + (2 : ℝ) ^ (-1075 : Int))) * (20 * (positive ps).length + 62) +
            (positive ps).length * (6 * M + 4) * (2 : ℝ) ^ (-1075 : Int) /
              (totalWeight (positive ps) - totalWeightSq (positive ps) / totalWeight (positive ps)) +
              2 * (2 : ℝ) ^ (-1075 : Int)) :=
  ⟨fun hn hW2 => west_frequency_error hA c ops ps hps M hM0 hM hx hW h2 hn hW2,
    fun hW' κ hκ hn => west_reliability_error hA c ops ps hps M hM0 hM hx hW hW' h2 κ hκ hn⟩

/-- The hypotheses hold for samples 1 and -1 of weights 2 and 1, with κ = 9/4. -/
example : 2 ≤ totalWeight (positive ([(1, 2), (-1, 1)] : List (ℝ × ℝ))) ∧
    totalWeight (positive ([(1, 2), (-1, 1)] : List (ℝ × ℝ))) ≤
      9 / 4 * (totalWeight (positive ([(1, 2), (-1, 1)] : List (ℝ × ℝ))) -
        totalWeightSq (positive ([(1, 2), (-1, 1)] : List (ℝ × ℝ))) / totalWeight (positive ([(1, 2), (-1, 1)] : List (ℝ × ℝ)))) ∧
    9 / 4 * ((positive ([(1, 2), (-1, 1)] : List (ℝ × ℝ))).length : ℝ) ≤ 2 ^ 46 := by
  have e : positive ([(1, 2), (-1, 1)] : List (ℝ × ℝ)) = [(1, 2), (-1, 1)] := by
    simp [positive]
  rw [e]
  refine ⟨?_, ?_, ?_⟩ <;> norm_num [totalWeight, totalWeightSq]

/-! ### A weight that absorbs the others -/

theorem rn_one_add {w : ℝ} (h0 : 0 ≤ w) (h : w ≤ 1 / 2 ^ 54) : rn (1 + w) = 1 := by
  have hu : ulpExp (1 + w) = -52 := by
    refine ulpExp_eq (k := 0) (by norm_num) ?_ ?_
    · rw [zpow_zero, abs_of_nonneg (by linarith)]; linarith
    · rw [abs_of_nonneg (by linarith), zero_add, zpow_one]
      refine lt_of_le_of_lt (add_le_add_right h 1) ?_
      norm_num
  refine rn_eq_of_close hu ⟨2 ^ 52, by norm_num⟩ ?_
  rw [add_sub_cancel_left, abs_of_nonneg h0]
  refine lt_of_le_of_lt h ?_
  norm_num

/-- A quotient by 0 is not finite. -/
theorem div_zero_not_fin (x : Num A) (v : ℝ) : x / (.fin 0 : Num A) ≠ .fin v := by
  cases x with
  | nan => intro h; cases h
  | inf n => intro h; cases h
  | fin x =>
    show (if (0 : ℝ) = 0 then (if x = 0 then Num.nan else Num.inf (decide (x < 0))) else Num.round A (x / 0)) ≠ _
    rw [if_pos rfl]
    split <;> intro h <;> cases h

/-- C173.  The condition on the weights cannot be dropped: after any two samples of weights 1 and 0 < w ≤ 2^-54 the computed
denominator is 0 and `SampleReliabilityVariance()` is infinite or not a number. -/
theorem C173_absorbed (hA : A.IsBinary64) (c : WestFused) (ops : List (AccOp (Num A × Num A))) (x y : Num A) (w : ℝ)
    (hps : sinceReset ops = [(x, .fin 1), (y, .fin w)]) (hw : 0 < w) (hw' : w ≤ 1 / 2 ^ 54) (v : ℝ) :
    (runOps (West.addContracted c) West.reset West.new ops).sampleReliabilityVariance ≠ .fin v := by
  have one_le : ∀ {a : ℝ}, |a| ≤ 2 → |a| ≤ (2 : ℝ) ^ (1023 : Int) := fun h => h.trans (by
    have : (2 : ℝ) ^ (1 : Int) ≤ (2 : ℝ) ^ (1023 : Int) := zpow_le_zpow_right₀ one_le_two (by norm_num)
    rwa [zpow_one] at this)
  have hw1 : w ≤ 1 := hw'.trans (by norm_num)
  have hww0 : 0 ≤ w * w := mul_self_nonneg w
  have hww : w * w ≤ 1 / 2 ^ 54 := (mul_le_of_le_one_left hw.le hw1).trans hw'
  have e1 : (CxxFloat.zero + .fin 1 : Num A) = .fin 1 := by
    show (.fin 0 + .fin 1 : Num A) = _
    rw [Num.fin_add, zero_add, round_of_le_two hA (one_le (by norm_num)), rn_double double_unit]
  have e2 : (.fin 1 + .fin w : Num A) = .fin 1 := by
    rw [Num.fin_add, round_of_le_two hA (one_le (by rw [abs_of_pos (by linarith)]; linarith)), rn_one_add hw.le hw']
  have p1 : prodIn c.squares (1 * 1) = 1 := by
    rw [one_mul]; unfold prodIn; split
    · rfl
    · exact rn_double double_unit
  have p2 : 0 ≤ prodIn c.squares (w * w) ∧ prodIn c.squares (w * w) ≤ 1 / 2 ^ 54 := by
    unfold prodIn; split
    · exact ⟨hww0, hww⟩
    · constructor
      · have := rn_mono hww0; rwa [rn_zero] at this
      · have := rn_mono hww
        rwa [rn_double (x := (1 / 2 ^ 54 : ℝ)) ⟨1, -54, by norm_num, by norm_num, by norm_num⟩] at this
  have e3 : mulAdd c.squares (.fin 1 : Num A) (.fin 1) CxxFloat.zero = .fin 1 := by
    refine (mulAdd_rn hA c.squares (x := 1) (y := 1) (z := 0) (one_le (by norm_num)) (one_le ?_)).trans ?_
    · rw [p1]; norm_num
    · rw [p1, zero_add, rn_double double_unit]
  have e4 : mulAdd c.squares (.fin w : Num A) (.fin w) (.fin 1) = .fin 1 := by
    have h54 : (1 : ℝ) / 2 ^ 54 ≤ 1 := by norm_num
    refine (mulAdd_rn hA c.squares (one_le ?_) (one_le ?_)).trans ?_
    · rw [abs_of_nonneg hww0]; linarith only [hww, h54]
    · rw [abs_of_nonneg (by linarith only [p2.1])]; linarith only [p2.2, h54]
    · rw [rn_one_add p2.1 p2.2]
  have l1 : CxxFloat.lt (CxxFloat.zero : Num A) (.fin 1) = true := decide_eq_true one_pos
  have l2 : CxxFloat.lt (CxxFloat.zero : Num A) (.fin w) = true := decide_eq_true hw
  rw [west_contracted_ops, hps]
  simp only [List.filter_cons, l1, l2, if_true, List.filter_nil, List.foldl_cons, List.foldl_nil]
  unfold West.sampleReliabilityVariance
  rw [if_neg (by show ¬ (1 + 1 < 2); omega)]
  have s1 : ((West.new.addCoreContracted c x (.fin 1)).addCoreContracted c y (.fin w) : West (Num A)).sumWeights = .fin 1 := by
    show (CxxFloat.zero + .fin 1 : Num A) + .fin w = _
    rw [e1, e2]
  have s2 : ((West.new.addCoreContracted c x (.fin 1)).addCoreContracted c y (.fin w) : West (Num A)).sumWeights2 = .fin 1 := by
    show mulAdd c.squares (.fin w : Num A) (.fin w) (mulAdd c.squares (.fin 1) (.fin 1) CxxFloat.zero) = _
    rw [e3, e4]
  have z0 : (0 : ℝ) = 1 - 1 := by norm_num
  have s3 : (.fin 1 - .fin 1 / .fin 1 : Num A) = .fin 0 := by
    rw [Num.fin_div one_ne_zero, div_one, round_of_le_two hA (one_le (by norm_num)), rn_double double_unit, Num.fin_sub, ← z0,
      round_of_le_two hA (one_le (by norm_num)), rn_zero]
  rw [s1, s2, s3]
  exact div_zero_not_fin _ v

end Bwsl
