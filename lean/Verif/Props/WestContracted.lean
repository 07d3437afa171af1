import Verif.Props.Contracted
import Verif.Props.WestError

/-! Property C150: `WestAccumulator` compiled with fused products. -/

namespace Bwsl
open Spec

section
variable {F : Type} [CxxFloat F] [CxxFma F]

/-- C150.  `Count()` does not depend on the contraction of the products. -/
theorem C150_count (c c' : WestFused) (ops : List (AccOp (F × F))) :
    (runOps (West.addContracted c) West.reset West.new ops).getCount =
      (runOps (West.addContracted c') West.reset West.new ops).getCount := by
  rw [west_contracted_ops, west_contracted_ops]
  have key : ∀ (l : List (F × F)) (s s' : West F), s.count = s'.count →
      (l.foldl (fun s p => s.addCoreContracted c p.1 p.2) s).count =
        (l.foldl (fun s p => s.addCoreContracted c' p.1 p.2) s').count := by
    intro l
    induction l with
    | nil => exact fun s s' h => h
    | cons p l ih => exact fun s s' h => ih _ _ (congrArg succU h)
  exact key _ _ _ rfl

/-- C150.  Fusing the product of line 121, the squares of the weights, changes neither the mean, nor the sum, nor the
population and frequency variances. -/
theorem C150_squares (b b' m d : Bool) (ops : List (AccOp (F × F))) :
    (runOps (West.addContracted ⟨b, m, d⟩) West.reset West.new ops).getMean =
      (runOps (West.addContracted ⟨b', m, d⟩) West.reset West.new ops).getMean ∧
    (runOps (West.addContracted ⟨b, m, d⟩) West.reset West.new ops).sum =
      (runOps (West.addContracted ⟨b', m, d⟩) West.reset West.new ops).sum ∧
    (runOps (West.addContracted ⟨b, m, d⟩) West.reset West.new ops).populationVariance =
      (runOps (West.addContracted ⟨b', m, d⟩) West.reset West.new ops).populationVariance ∧
    (runOps (West.addContracted ⟨b, m, d⟩) West.reset West.new ops).sampleFrequencyVariance =
      (runOps (West.addContracted ⟨b', m, d⟩) West.reset West.new ops).sampleFrequencyVariance := by
  rw [west_contracted_ops, west_contracted_ops]
  have key : ∀ (l : List (F × F)) (s s' : West F),
      s.sumWeights = s'.sumWeights ∧ s.mean = s'.mean ∧ s.m2 = s'.m2 ∧ s.count = s'.count →
      ∃ t t' : West F, l.foldl (fun s p => s.addCoreContracted ⟨b, m, d⟩ p.1 p.2) s = t ∧
        l.foldl (fun s p => s.addCoreContracted ⟨b', m, d⟩ p.1 p.2) s' = t' ∧
        t.sumWeights = t'.sumWeights ∧ t.mean = t'.mean ∧ t.m2 = t'.m2 ∧ t.count = t'.count := by
    intro l
    induction l with
    | nil => exact fun s s' h => ⟨s, s', rfl, rfl, h⟩
    | cons p l ih =>
      intro s s' h
      refine ih _ _ ?_
      obtain ⟨a1, a2, a3, a4, a5⟩ := s
      obtain ⟨b1, b2, b3, b4, b5⟩ := s'
      dsimp only at h
      obtain ⟨rfl, rfl, rfl, rfl⟩ := h
      exact ⟨rfl, rfl, rfl, rfl⟩
  obtain ⟨t, t', e, e', h1, h2, h3, h4⟩ := key ((sinceReset ops).filter (fun p => CxxFloat.lt CxxFloat.zero p.2)) West.new
    West.new ⟨rfl, rfl, rfl, rfl⟩
  rw [e, e']
  unfold West.getMean West.sum West.populationVariance West.sampleFrequencyVariance
  rw [h1, h2, h3, h4]
  exact ⟨rfl, rfl, rfl, rfl⟩

end

section
variable {K : Type} [Field K] [LinearOrder K] [IsStrictOrderedRing K] [FloorRing K] {A : Arith K}

/-- C150.  In exact arithmetic contraction changes nothing; without it the accumulator is that of C116 and C127. -/
theorem C150_no_rounding (c : WestFused) (s : West (Num A)) (m w : Num A) (ops : List (AccOp (Num A × Num A))) :
    (A.IsExact → s.addCoreContracted c m w = s.addCore m w) ∧
    s.addCoreContracted ⟨false, false, false⟩ m w = s.addCore m w ∧
    (A.IsExact → runOps (West.addContracted c) West.reset West.new ops = runOps West.addPair West.reset West.new ops) := by
  have core : A.IsExact → ∀ (s : West (Num A)) (m w : Num A), s.addCoreContracted c m w = s.addCore m w := by
    intro hA s m w
    have key : ∀ (f : Bool) (x y z : Num A), mulAdd f x y z = z + x * y := by
      intro f x y z
      by_cases h : ∃ a b, x = .fin a ∧ y = .fin b
      · obtain ⟨a, b, rfl, rfl⟩ := h
        exact C146_exact (hA _) f z
      · exact (C146_special x y z f).1 (fun a b h1 h2 => h ⟨a, b, h1, h2⟩)
    simp only [West.addCoreContracted, West.addCore, key]
  refine ⟨fun hA => core hA s m w, rfl, fun hA => ?_⟩
  rw [west_contracted_ops, (C35_west ops).1]
  congr 1
  funext s p
  exact core hA s p.1 p.2

end

section
variable {A : Arith ℝ}

/-- C150.  Whatever is fused, whatever the weights: `Mean()` is finite and lies in the range of the values of positive weight
added since the last reset, up to 2^-51 of the largest absolute value. -/
theorem C150_near_range (hA : A.IsBinary64) (c : WestFused) (ops : List (AccOp (Num A × Num A))) (ps : List (ℝ × ℝ))
    (hps : sinceReset ops = ps.map (fun p => (.fin p.1, .fin p.2))) (R lo hi : ℝ) (hR : R ≤ (2 : ℝ) ^ (1020 : Int))
    (hx : ∀ p ∈ ps, 0 < p.2 → Double p.1 ∧ |p.1| ≤ R ∧ lo ≤ p.1 ∧ p.1 ≤ hi)
    (hw : ∀ p ∈ ps, FinDouble p.2) (h0 : ∃ p ∈ ps, 0 < p.2) :
    ∃ μ : ℝ, (runOps (West.addContracted c) West.reset West.new ops).getMean = .fin μ ∧ Double μ ∧
      lo - R / 2 ^ 51 ≤ μ ∧ μ ≤ hi + R / 2 ^ 51 :=
  west_near_range hA c ops ps hps R lo hi hR hx hw h0

/-- C150.  Equal values, whatever is fused: the mean is that value and the population variance is 0. -/
theorem C150_constant (hA : A.IsBinary64) (f : WestFused) (ops : List (AccOp (Num A × Num A))) (ps : List (ℝ × ℝ))
    (hps : sinceReset ops = ps.map (fun p => (.fin p.1, .fin p.2))) (c : ℝ) (hc : FinDouble c)
    (hx : ∀ p ∈ ps, 0 < p.2 → p.1 = c) (hw : ∀ p ∈ ps, FinDouble p.2 ∧ |p.2 * c| ≤ (2 : ℝ) ^ (1023 : Int))
    (h0 : ∃ p ∈ ps, 0 < p.2) :
    (runOps (West.addContracted f) West.reset West.new ops).getMean = .fin c ∧
    ((runOps (West.addContracted f) West.reset West.new ops).getCount < 2 ∨
      (runOps (West.addContracted f) West.reset West.new ops).populationVariance = .fin 0) :=
  west_constant hA f ops ps hps c hc hx hw h0

/-- C150.  The error bounds of C127 hold whatever is fused. -/
theorem C150_error (hA : A.IsBinary64) (c : WestFused) (ops : List (AccOp (Num A × Num A))) (ps : List (ℝ × ℝ))
    (hps : sinceReset ops = ps.map (fun p => (.fin p.1, .fin p.2))) (M : ℝ) (hM0 : 0 ≤ M) (hM : M ≤ (2 : ℝ) ^ (400 : Int))
    (hx : ∀ p ∈ ps, 0 < p.2 → Double p.1 ∧ |p.1| ≤ M ∧ Double p.2) (hW : totalWeight (positive ps) ≤ (2 : ℝ) ^ (128 : Int))
    (hn : (positive ps).length ≤ 2 ^ 48) :
    (∃ μ : ℝ, (runOps (West.addContracted c) West.reset West.new ops).getMean = .fin μ ∧
      |μ - wavg (positive ps)| ≤ (M / 2 ^ 53 + (2 : ℝ) ^ (-1075 : Int)) * (3 * (positive ps).length + 9)) ∧
    (∃ S : ℝ, (runOps (West.addContracted c) West.reset West.new ops).sum = .fin S ∧
      |S - ((positive ps).map (fun p => p.2 * p.1)).sum| ≤
        totalWeight (positive ps) * ((M / 2 ^ 53 + (2 : ℝ) ^ (-1075 : Int)) * (5 * (positive ps).length + 11)) +
          (2 : ℝ) ^ (-1075 : Int)) ∧
    (2 ≤ (positive ps).length →
      ∃ v : ℝ, (runOps (West.addContracted c) West.reset West.new ops).populationVariance = .fin v ∧
        |v - wsqDev (positive ps) / totalWeight (positive ps)| ≤
          M * (M / 2 ^ 53 + (2 : ℝ) ^ (-1075 : Int)) * (15 * (positive ps).length + 60) +
            (positive ps).length * (6 * M + 4) * (2 : ℝ) ^ (-1075 : Int) / totalWeight (positive ps) +
              2 * (2 : ℝ) ^ (-1075 : Int)) :=
  ⟨west_mean_error hA c ops ps hps M hM0 hM hx hW hn, west_sum_error hA c ops ps hps M hM0 hM hx hW hn,
    fun h2 => west_variance_error hA c ops ps hps M hM0 hM hx hW h2 hn⟩

/-- Samples 1 and -1 of weights 2 and 1 meet the hypotheses. -/
example : (∀ p ∈ ([(1, 2), (-1, 1)] : List (ℝ × ℝ)), 0 < p.2 → Double p.1 ∧ |p.1| ≤ 1 ∧ Double p.2) ∧
    totalWeight (positive ([(1, 2), (-1, 1)] : List (ℝ × ℝ))) = 3 ∧
    2 ≤ (positive ([(1, 2), (-1, 1)] : List (ℝ × ℝ))).length := by
  have d1 : Double (1 : ℝ) := ⟨1, 0, by norm_num, by norm_num, by norm_num⟩
  have d2 : Double (2 : ℝ) := ⟨2, 0, by norm_num, by norm_num, by norm_num⟩
  have d3 : Double (-1 : ℝ) := ⟨-1, 0, by norm_num, by norm_num, by norm_num⟩
  refine ⟨?_, ?_, ?_⟩
  · intro p hp _
    rcases List.mem_cons.1 hp with rfl | hp
    · exact ⟨d1, by norm_num, d2⟩
    · rcases List.mem_singleton.1 hp with rfl
      exact ⟨d3, by norm_num, d1⟩
  · norm_num [positive, totalWeight, List.filter]
  · norm_num [positive, List.filter]

end
end Bwsl
