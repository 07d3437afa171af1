import Verif.Props.WelfordBound
import Verif.Props.AccumStats
import Verif.Props.LinSpaceDouble
import Verif.Lemmas.Fused

/-! Property C116: weighted means in double precision. -/

namespace Bwsl
open Spec

set_option linter.unusedSectionVars false

section
variable {K : Type} [Field K] [LinearOrder K] [IsStrictOrderedRing K] {A : Arith K}

/-- C116.  In exact arithmetic the weighted mean lies in the range of the values of positive weight. -/
theorem C116_range (hA : A.IsExact) (ops : List (AccOp (Num A × Num A))) (ps : List (K × K))
    (hps : sinceReset ops = ps.map (fun p => (.fin p.1, .fin p.2))) (lo hi : K)
    (hx : ∀ p ∈ ps, 0 < p.2 → lo ≤ p.1 ∧ p.1 ≤ hi) (h0 : ∃ p ∈ ps, 0 < p.2) :
    ∃ μ : K, (runOps West.addPair West.reset West.new ops).getMean = .fin μ ∧ lo ≤ μ ∧ μ ≤ hi := by
  rw [west_state hA ops ps hps]
  refine ⟨_, rfl, ?_⟩
  have hpos : ∀ p ∈ positive ps, 0 < p.2 := fun p hp => by simpa using (List.mem_filter.1 hp).2
  have hb : ∀ p ∈ positive ps, lo ≤ p.1 ∧ p.1 ≤ hi := fun p hp =>
    hx p (List.mem_filter.1 hp).1 (hpos p hp)
  have hne : positive ps ≠ [] := by
    obtain ⟨p, h1, h2⟩ := h0
    exact List.ne_nil_of_mem (List.mem_filter.2 ⟨h1, by simpa using h2⟩)
  have hW := totalWeight_pos hpos hne
  have key : ∀ qs : List (K × K), (∀ p ∈ qs, 0 < p.2) → (∀ p ∈ qs, lo ≤ p.1 ∧ p.1 ≤ hi) →
      lo * totalWeight qs ≤ wsum qs ∧ wsum qs ≤ hi * totalWeight qs := by
    intro qs
    unfold totalWeight wsum
    induction qs with
    | nil => intro _ _; simp
    | cons p qs ih =>
      intro h1 h2
      obtain ⟨i1, i2⟩ := ih (fun q hq => h1 q (by simp [hq])) (fun q hq => h2 q (by simp [hq]))
      have hp := h1 p (by simp)
      obtain ⟨b1, b2⟩ := h2 p (by simp)
      simp only [List.map_cons, List.sum_cons, mul_add]
      have c1 := mul_le_mul_of_nonneg_right b1 hp.le
      have c2 := mul_le_mul_of_nonneg_right b2 hp.le
      constructor <;> linarith
  obtain ⟨k1, k2⟩ := key _ hpos hb
  unfold wavg
  rw [le_div_iff₀ hW, div_le_iff₀ hW]
  exact ⟨k1, k2⟩

/-- C116.  In exact arithmetic the order of the samples does not matter. -/
theorem C116_order (hA : A.IsExact) (ops ops' : List (AccOp (Num A × Num A))) (ps ps' : List (K × K))
    (hps : sinceReset ops = ps.map (fun p => (.fin p.1, .fin p.2)))
    (hps' : sinceReset ops' = ps'.map (fun p => (.fin p.1, .fin p.2))) (hp : ps.Perm ps') :
    runOps West.addPair West.reset West.new ops = runOps West.addPair West.reset West.new ops' := by
  rw [west_state hA ops ps hps, west_state hA ops' ps' hps']
  have h : (positive ps).Perm (positive ps') := hp.filter _
  have e1 : totalWeight (positive ps) = totalWeight (positive ps') := (h.map _).sum_eq
  have e2 : totalWeightSq (positive ps) = totalWeightSq (positive ps') := (h.map _).sum_eq
  have e3 : wsum (positive ps) = wsum (positive ps') := (h.map _).sum_eq
  have e4 : wavg (positive ps) = wavg (positive ps') := by
    have a : ∀ qs : List (K × K), wavg qs = wsum qs / totalWeight qs := fun _ => rfl
    rw [a, a, e1, e3]
  have e5 : wsqDev (positive ps) = wsqDev (positive ps') := by
    unfold wsqDev; rw [e4]; exact (h.map _).sum_eq
  rw [e1, e2, e4, e5, h.length_eq]

/-- C116.  In exact arithmetic a common positive factor of the weights changes neither the mean nor the population
variance nor the reliability variance; the sum is multiplied by it. -/
theorem C116_scale (hA : A.IsExact) (ops ops' : List (AccOp (Num A × Num A))) (ps : List (K × K)) (c : K) (hc : 0 < c)
    (hps : sinceReset ops = ps.map (fun p => (.fin p.1, .fin p.2)))
    (hps' : sinceReset ops' = ps.map (fun p => (.fin p.1, .fin (c * p.2)))) (h2 : 2 ≤ (positive ps).length)
    (hn : (positive ps).length < 2 ^ 64) (s s' : West (Num A)) (hs : s = runOps West.addPair West.reset West.new ops)
    (hs' : s' = runOps West.addPair West.reset West.new ops') :
    s'.getMean = s.getMean ∧ s'.getCount = s.getCount ∧ s'.populationVariance = s.populationVariance ∧
    s'.sampleReliabilityVariance = s.sampleReliabilityVariance ∧
    s'.sum = .fin (c * ((positive ps).map (fun p => p.2 * p.1)).sum) := by
  set ps' : List (K × K) := ps.map (fun p => (p.1, c * p.2)) with hps''
  have hq : sinceReset ops' = ps'.map (fun p => (.fin p.1, .fin p.2)) := by
    rw [hps', hps'', List.map_map]; rfl
  have hpp : positive ps' = (positive ps).map (fun p => (p.1, c * p.2)) := by
    rw [hps'']
    unfold positive
    rw [List.filter_map]
    congr 1
    refine List.filter_congr (fun p _ => ?_)
    simp only [Function.comp, mul_pos_iff_of_pos_left hc]
  have l1 : totalWeight (positive ps') = c * totalWeight (positive ps) := by
    rw [hpp]; unfold totalWeight; rw [List.map_map, ← List.sum_map_mul_left]; rfl
  have l2 : totalWeightSq (positive ps') = c ^ 2 * totalWeightSq (positive ps) := by
    rw [hpp]; unfold totalWeightSq; rw [List.map_map, ← List.sum_map_mul_left]
    congr 1
    refine List.map_congr_left (fun p _ => ?_)
    simp only [Function.comp]; ring
  have l3 : wsum (positive ps') = c * wsum (positive ps) := by
    rw [hpp]; unfold wsum; rw [List.map_map, ← List.sum_map_mul_left]
    congr 1
    refine List.map_congr_left (fun p _ => ?_)
    simp only [Function.comp]; ring
  have l4 : wavg (positive ps') = wavg (positive ps) := by
    have a : ∀ qs : List (K × K), wavg qs = wsum qs / totalWeight qs := fun _ => rfl
    rw [a, a, l1, l3, mul_div_mul_left _ _ hc.ne']
  have l5 : wsqDev (positive ps') = c * wsqDev (positive ps) := by
    unfold wsqDev
    rw [l4, hpp, List.map_map, ← List.sum_map_mul_left]
    congr 1
    refine List.map_congr_left (fun p _ => ?_)
    simp only [Function.comp]; ring
  have l6 : (positive ps').length = (positive ps).length := by rw [hpp, List.length_map]
  obtain ⟨a1, -, a3, -, a5⟩ := C41_statistics hA ops ps hps h2 hn s hs
  obtain ⟨b1, b2, b3, -, b5⟩ := C41_statistics hA ops' ps' hq (by rwa [l6]) (by rwa [l6]) s' hs'
  refine ⟨by rw [a1, b1, l4], ?_, ?_, ?_, ?_⟩
  · rw [hs, hs', west_state hA ops ps hps, west_state hA ops' ps' hq]
    simp only [West.getCount, l6]
  · rw [a3, b3, l1, l5, mul_div_mul_left _ _ hc.ne']
  · rw [a5, b5, l1, l2, l5]
    congr 1
    rw [pow_two, mul_assoc, mul_div_mul_left _ _ hc.ne', mul_div_assoc c (totalWeightSq _), ← mul_sub,
      mul_div_mul_left _ _ hc.ne']
  · rw [b2]
    exact congrArg Num.fin l3

end

variable {A : Arith ℝ}

/-- One step towards a larger value. -/
theorem west_up (fused : Bool) {μ x α R lo hi : ℝ} (hμ : Double μ) (hx : Double x) (h0 : 0 ≤ α) (h1 : α ≤ 1) (h : μ ≤ x)
    (hR : |x| ≤ R) (hlo : lo - R / 2 ^ 51 ≤ μ) (hhi : x ≤ hi) (hμR : |μ| ≤ R + R / 2 ^ 51) :
    lo - R / 2 ^ 51 ≤ rn (μ + prodIn fused (α * rn (x - μ))) ∧ rn (μ + prodIn fused (α * rn (x - μ))) ≤ hi + R / 2 ^ 51 := by
  have hD : Mult (-1074) (x - μ) := hx.mult.sub hμ.mult
  have hd0 : 0 ≤ rn (x - μ) := rn_nonneg (by linarith only [h])
  have hp0 : 0 ≤ prodIn fused (α * rn (x - μ)) := prodIn_nonneg fused (mul_nonneg h0 hd0)
  have hp1 : prodIn fused (α * rn (x - μ)) ≤ rn (x - μ) :=
    prodIn_le fused (rn_isDouble _) (mul_le_of_le_one_left hd0 h1)
  have e1 := (abs_le.1 (rn_rel hD)).1
  rw [abs_of_nonneg (by linarith only [h] : 0 ≤ x - μ)] at e1
  have hY : Mult (-1074) (μ + rn (x - μ)) := hμ.mult.add (rn_isDouble _).mult
  have e2 := (abs_le.1 (rn_rel hY)).1
  have a1 := abs_le.1 hR
  have a2 := abs_le.1 hμR
  have hR0 : 0 ≤ R := (abs_nonneg x).trans hR
  have hm : rn (μ + prodIn fused (α * rn (x - μ))) ≤ rn (μ + rn (x - μ)) := rn_mono (by linarith only [hp1])
  have hl := rn_mono (show μ ≤ μ + prodIn fused (α * rn (x - μ)) by linarith only [hp0])
  rw [rn_double hμ] at hl
  generalize rn (x - μ) = d at *
  have hy : |μ + d| ≤ R + R / 2 ^ 51 + (2 * R + R / 2 ^ 51) / 2 ^ 53 := by
    rw [abs_le]
    constructor
    · have : 0 ≤ (2 * R + R / 2 ^ 51) / 2 ^ 53 := by positivity
      linarith only [this, a2.1, hd0]
    · have : (x - μ) / 2 ^ 53 ≤ (2 * R + R / 2 ^ 51) / 2 ^ 53 := by
        apply div_le_div_of_nonneg_right _ (by positivity)
        linarith only [a1.2, a2.1]
      have h5 : 0 ≤ R / 2 ^ 51 := by positivity
      linarith only [this, a1.2, e1, h5]
  constructor
  · linarith only [hl, hlo]
  · have h3 : |μ + d| / 2 ^ 53 ≤ (R + R / 2 ^ 51 + (2 * R + R / 2 ^ 51) / 2 ^ 53) / 2 ^ 53 :=
      div_le_div_of_nonneg_right hy (by positivity)
    have h4 : (x - μ) / 2 ^ 53 ≤ (2 * R + R / 2 ^ 51) / 2 ^ 53 := by
      apply div_le_div_of_nonneg_right _ (by positivity)
      linarith only [a1.2, a2.1]
    have h6 : (R + R / 2 ^ 51 + (2 * R + R / 2 ^ 51) / 2 ^ 53) / 2 ^ 53 + (2 * R + R / 2 ^ 51) / 2 ^ 53 ≤ R / 2 ^ 51 := by
      norm_num
      linarith only [hR0]
    linarith only [e1, e2, h3, h4, h6, hm, hhi]

/-- One step towards a smaller value. -/
theorem west_down (fused : Bool) {μ x α R lo hi : ℝ} (hμ : Double μ) (hx : Double x) (h0 : 0 ≤ α) (h1 : α ≤ 1) (h : x ≤ μ)
    (hR : |x| ≤ R) (hlo : lo ≤ x) (hhi : μ ≤ hi + R / 2 ^ 51) (hμR : |μ| ≤ R + R / 2 ^ 51) :
    lo - R / 2 ^ 51 ≤ rn (μ + prodIn fused (α * rn (x - μ))) ∧ rn (μ + prodIn fused (α * rn (x - μ))) ≤ hi + R / 2 ^ 51 := by
  obtain ⟨a, b⟩ := west_up fused (R := R) (lo := -hi) (hi := -lo) hμ.neg hx.neg h0 h1 (by linarith only [h]) (by rwa [abs_neg])
    (by linarith only [hhi]) (by linarith only [hlo]) (by rwa [abs_neg])
  have e1 : -x - -μ = -(x - μ) := by ring
  rw [e1, rn_neg, mul_neg, prodIn_neg, ← neg_add, rn_neg] at a b
  exact ⟨by linarith only [b], by linarith only [a]⟩

/-- The sum of the weights: a number that is at least the last weight, or infinity. -/
theorem west_weight (hA : A.IsBinary64) {S : Num A} (hS : S = .inf false ∨ ∃ s : ℝ, 0 ≤ s ∧ S = .fin s) {w : ℝ}
    (hw : FinDouble w) (h0 : 0 < w) :
    (S + .fin w = .inf false ∨ ∃ s : ℝ, 0 < s ∧ S + .fin w = .fin s) ∧
      ∃ α : ℝ, 0 ≤ α ∧ α ≤ 1 ∧ (Num.fin w : Num A) / (S + .fin w) = .fin α := by
  rcases hS with rfl | ⟨s, hs, rfl⟩
  · exact ⟨.inl rfl, 0, le_rfl, zero_le_one, rfl⟩
  · rw [Num.fin_add]
    have hle : w ≤ rn (s + w) := by
      have := rn_mono (show w ≤ s + w by linarith only [hs])
      rwa [rn_double hw.1] at this
    by_cases hfin : |rn (s + w)| < (2 : ℝ) ^ (1024 : Int)
    · rw [rnd_rn hA hfin]
      have hpos : 0 < rn (s + w) := h0.trans_le hle
      refine ⟨.inr ⟨_, hpos, rfl⟩, rn (w / rn (s + w)), rn_nonneg (div_nonneg h0.le hpos.le), ?_, ?_⟩
      · have := rn_mono ((div_le_one hpos).2 hle)
        rwa [rn_double (⟨1, 0, by decide, by decide, by simp⟩ : Double (1 : ℝ))] at this
      · rw [Num.fin_div hpos.ne']
        refine round_of_le hA (⟨1, 0, by decide, by decide, by simp⟩ : Double (1 : ℝ))
          (one_lt_zpow₀ one_lt_two (by norm_num)) ?_
        rw [abs_of_nonneg (div_nonneg h0.le hpos.le)]
        exact (div_le_one hpos).2 hle
    · have : Num.round A (s + w) = .inf false := by
        unfold Num.round
        rw [hA, rnd64, if_neg hfin]
        simp only
        rw [decide_eq_false (by linarith only [hs, h0])]
      rw [this]
      exact ⟨.inl rfl, 0, le_rfl, zero_le_one, rfl⟩

/-- The first sum of the weights is the first weight. -/
theorem west_first (hA : A.IsBinary64) {w : ℝ} (hw : FinDouble w) (h0 : 0 < w) :
    (Num.fin 0 : Num A) + .fin w = .fin w ∧ (Num.fin w : Num A) / .fin w = .fin 1 := by
  constructor
  · rw [Num.fin_add, zero_add]; exact Num.round_of (rnd_of_double hA hw.1 hw.2)
  · rw [Num.fin_div h0.ne', div_self h0.ne']
    have := round_nat hA (n := 1) (by norm_num)
    rwa [Nat.cast_one] at this

/-- The state after adding pairs of positive weights. -/
theorem west_near (hA : A.IsBinary64) (c : WestFused) (ps : List (ℝ × ℝ)) (R lo hi : ℝ) (hR : R ≤ (2 : ℝ) ^ (1020 : Int))
    (hx : ∀ p ∈ ps, Double p.1 ∧ |p.1| ≤ R ∧ lo ≤ p.1 ∧ p.1 ≤ hi) (hw : ∀ p ∈ ps, FinDouble p.2 ∧ 0 < p.2) :
    ∃ (s : West (Num A)) (μ : ℝ), (ps.map (fun p => ((.fin p.1, .fin p.2) : Num A × Num A))).foldl
        (fun s p => s.addCoreContracted c p.1 p.2) (West.new : West (Num A)) = s ∧
      (s.sumWeights = .inf false ∨ ∃ S : ℝ, 0 ≤ S ∧ s.sumWeights = .fin S) ∧
      s.mean = .fin μ ∧ Double μ ∧ (ps = [] → μ = 0 ∧ s.sumWeights = .fin 0) ∧
      (ps ≠ [] → lo - R / 2 ^ 51 ≤ μ ∧ μ ≤ hi + R / 2 ^ 51 ∧ |μ| ≤ R + R / 2 ^ 51) := by
  induction ps using List.reverseRecOn with
  | nil =>
    exact ⟨_, 0, rfl, .inr ⟨0, le_rfl, rfl⟩, rfl, double_zero, fun _ => ⟨rfl, rfl⟩, fun h => absurd rfl h⟩
  | append_singleton ps p ih =>
    obtain ⟨s, μ, hs, hS, hm, hd, hz, hr⟩ := ih (fun q hq => hx q (by simp [hq])) (fun q hq => hw q (by simp [hq]))
    obtain ⟨x, w⟩ := p
    obtain ⟨hx1, hx2, hx3, hx4⟩ := hx (x, w) (by simp)
    obtain ⟨hw1, hw2⟩ := hw (x, w) (by simp)
    simp only at hx1 hx2 hx3 hx4 hw1 hw2
    have hR0 : 0 ≤ R := (abs_nonneg _).trans hx2
    obtain ⟨hS', α, hα0, hα1, hα⟩ := west_weight hA hS hw1 hw2
    have hmR : |μ| ≤ R + R / 2 ^ 51 := by
      by_cases h : ps = []
      · rw [(hz h).1, abs_zero]; positivity
      · exact (hr h).2.2
    have hS'' : s.sumWeights + .fin w = .inf false ∨ ∃ S : ℝ, 0 ≤ S ∧ s.sumWeights + .fin w = .fin S := by
      rcases hS' with h | ⟨S, h1, h2⟩
      · exact .inl h
      · exact .inr ⟨S, h1.le, h2⟩
    have hfst : ps = [] → α = 1 ∧ μ = 0 := by
      intro h
      obtain ⟨h1, h2⟩ := hz h
      refine ⟨?_, h1⟩
      rw [h2, (west_first hA hw1 hw2).1, (west_first hA hw1 hw2).2] at hα
      cases hα; rfl
    obtain ⟨M, hM0, hM1, hM2, hM3⟩ := two_zpow_large
    rw [hM1] at hR
    have hb1 : |x - μ| ≤ 4 * M := by
      have h1 := abs_le.1 hx2
      have h2 := abs_le.1 hmR
      have h3 : R / 2 ^ 51 ≤ R := div_le_self hR0 (by norm_num)
      rw [abs_le]; constructor <;> linarith only [h1.1, h1.2, h2.1, h2.2, h3, hR]
    have r1 : Num.round A (x - μ) = .fin (rn (x - μ)) := by
      refine round_of_le_two hA ?_
      rw [hM3]; linarith only [hb1, hM0]
    have hb2 : |rn (x - μ)| ≤ 4 * M := by
      rw [← hM2] at hb1 ⊢
      have h1 := rn_mono (le_of_abs_le hb1)
      have h2 := rn_mono (neg_le_of_abs_le hb1)
      rw [rn_neg, rn_double (double_two_zpow (by norm_num))] at h2
      rw [rn_double (double_two_zpow (by norm_num))] at h1
      exact abs_le.2 ⟨h2, h1⟩
    have hb3 : |α * rn (x - μ)| ≤ 4 * M := by
      rw [abs_mul, abs_of_nonneg hα0]
      exact (mul_le_of_le_one_left (abs_nonneg _) hα1).trans hb2
    have r2 : |α * rn (x - μ)| ≤ (2 : ℝ) ^ (1023 : Int) := by rw [hM3]; linarith only [hb3, hM0]
    have hb4 : |prodIn c.mean (α * rn (x - μ))| ≤ 4 * M := by
      rw [← hM2] at hb3 ⊢
      exact prodIn_abs_le _ (double_two_zpow (by norm_num)) hb3
    have hb5 : |μ + prodIn c.mean (α * rn (x - μ))| ≤ 8 * M := by
      have h2 := abs_le.1 hmR
      have h3 : R / 2 ^ 51 ≤ R := div_le_self hR0 (by norm_num)
      have h4 := abs_le.1 hb4
      rw [abs_le]; constructor <;> linarith only [h2.1, h2.2, h3, h4.1, h4.2, hR, hM0]
    have r3 : |μ + prodIn c.mean (α * rn (x - μ))| ≤ (2 : ℝ) ^ (1023 : Int) := by rw [hM3]; exact hb5
    have hmean : (s.addCoreContracted c (.fin x) (.fin w)).mean = .fin (rn (μ + prodIn c.mean (α * rn (x - μ)))) := by
      simp only [West.addCoreContracted]
      rw [hα, hm, Num.fin_sub, r1, mulAdd_rn hA _ r2 r3]
    refine ⟨s.addCoreContracted c (.fin x) (.fin w), rn (μ + prodIn c.mean (α * rn (x - μ))), ?_, hS'', hmean, rn_isDouble _,
      fun h => absurd h (by simp), fun _ => ?_⟩
    · rw [List.map_append, List.foldl_append, hs]; rfl
    · have fin : ∀ lo hi : ℝ, (ps ≠ [] → lo - R / 2 ^ 51 ≤ μ ∧ μ ≤ hi + R / 2 ^ 51) → lo ≤ x → x ≤ hi →
          lo - R / 2 ^ 51 ≤ rn (μ + prodIn c.mean (α * rn (x - μ))) ∧ rn (μ + prodIn c.mean (α * rn (x - μ))) ≤ hi + R / 2 ^ 51 := by
        intro lo hi hr hx3 hx4
        by_cases h : ps = []
        · obtain ⟨rfl, rfl⟩ := hfst h
          have e : rn (0 + prodIn c.mean (1 * rn (x - 0))) = x := by
            rw [sub_zero, rn_double hx1, one_mul, prodIn_double _ hx1, zero_add, rn_double hx1]
          rw [e]
          have : 0 ≤ R / 2 ^ 51 := by positivity
          constructor <;> linarith only [hx3, hx4, this]
        · obtain ⟨c1, c2⟩ := hr h
          rcases le_total μ x with hle | hle
          · exact west_up _ hd hx1 hα0 hα1 hle hx2 c1 hx4 hmR
          · exact west_down _ hd hx1 hα0 hα1 hle hx2 hx3 c2 hmR
      obtain ⟨f1, f2⟩ := fin lo hi (fun h => ⟨(hr h).1, (hr h).2.1⟩) hx3 hx4
      obtain ⟨g1, g2⟩ := fin (-R) R (fun h => by
        have := abs_le.1 (hr h).2.2
        constructor <;> linarith only [this.1, this.2]) (abs_le.1 hx2).1 (abs_le.1 hx2).2
      refine ⟨f1, f2, abs_le.2 ⟨by linarith only [g1], g2⟩⟩

/-- The pairs of positive weight, as numbers. -/
theorem west_filter (ps : List (ℝ × ℝ)) :
    (ps.map (fun p => ((.fin p.1, .fin p.2) : Num A × Num A))).filter (fun p => CxxFloat.lt CxxFloat.zero p.2) =
      (ps.filter (fun p => decide (0 < p.2))).map (fun p => (.fin p.1, .fin p.2)) := by
  rw [List.filter_map]
  congr 1

theorem west_contracted_ops {F : Type} [CxxFloat F] [CxxFma F] (c : WestFused) (ops : List (AccOp (F × F))) :
    runOps (West.addContracted c) West.reset West.new ops =
      ((sinceReset ops).filter (fun p => CxxFloat.lt CxxFloat.zero p.2)).foldl
        (fun s p => s.addCoreContracted c p.1 p.2) (West.new : West F) := by
  rw [runOps_fresh (add := West.addContracted c) (reset := West.reset) (fresh := West.new) (fun _ => rfl) ops]
  generalize (West.new : West F) = s
  induction sinceReset ops generalizing s with
  | nil => rfl
  | cons p ps ih =>
    rw [List.foldl_cons, ih, List.filter_cons]
    unfold West.addContracted
    by_cases h : CxxFloat.lt CxxFloat.zero p.2 = true
    · rw [if_pos h, if_pos h, List.foldl_cons]
    · rw [if_neg h, if_neg h]

/-- Without fused products. -/
theorem west_plain (ops : List (AccOp (Num A × Num A))) :
    runOps (West.addContracted ⟨false, false, false⟩) West.reset West.new ops = runOps West.addPair West.reset West.new ops := by
  rw [west_contracted_ops, (C35_west ops).1]; rfl

/-- In double precision, whatever the weights: `Mean()` is finite and lies in the range of the values of
positive weight added since the last reset, up to 2^-51 of the largest absolute value. -/
theorem west_near_range (hA : A.IsBinary64) (c : WestFused) (ops : List (AccOp (Num A × Num A))) (ps : List (ℝ × ℝ))
    (hps : sinceReset ops = ps.map (fun p => (.fin p.1, .fin p.2))) (R lo hi : ℝ) (hR : R ≤ (2 : ℝ) ^ (1020 : Int))
    (hx : ∀ p ∈ ps, 0 < p.2 → Double p.1 ∧ |p.1| ≤ R ∧ lo ≤ p.1 ∧ p.1 ≤ hi)
    (hw : ∀ p ∈ ps, FinDouble p.2) (h0 : ∃ p ∈ ps, 0 < p.2) :
    ∃ μ : ℝ, (runOps (West.addContracted c) West.reset West.new ops).getMean = .fin μ ∧ Double μ ∧
      lo - R / 2 ^ 51 ≤ μ ∧ μ ≤ hi + R / 2 ^ 51 := by
  rw [west_contracted_ops, hps, west_filter]
  obtain ⟨s, μ, hs, -, hm, hd, -, hr⟩ := west_near hA c (ps.filter (fun p => decide (0 < p.2))) R lo hi hR
    (fun p hp => hx p (List.mem_filter.1 hp).1 (by simpa using (List.mem_filter.1 hp).2))
    (fun p hp => ⟨hw p (List.mem_filter.1 hp).1, by simpa using (List.mem_filter.1 hp).2⟩)
  obtain ⟨p, hp1, hp2⟩ := h0
  obtain ⟨r1, r2, -⟩ := hr (List.ne_nil_of_mem (List.mem_filter.2 ⟨hp1, by simpa using hp2⟩))
  exact ⟨μ, by rw [hs]; exact hm, hd, r1, r2⟩

/-- C116.  In double precision, whatever the weights: `Mean()` is finite and lies in the range of the values of
positive weight added since the last reset, up to 2^-51 of the largest absolute value. -/
theorem C116_near_range (hA : A.IsBinary64) (ops : List (AccOp (Num A × Num A))) (ps : List (ℝ × ℝ))
    (hps : sinceReset ops = ps.map (fun p => (.fin p.1, .fin p.2))) (R lo hi : ℝ) (hR : R ≤ (2 : ℝ) ^ (1020 : Int))
    (hx : ∀ p ∈ ps, 0 < p.2 → Double p.1 ∧ |p.1| ≤ R ∧ lo ≤ p.1 ∧ p.1 ≤ hi)
    (hw : ∀ p ∈ ps, FinDouble p.2) (h0 : ∃ p ∈ ps, 0 < p.2) :
    ∃ μ : ℝ, (runOps West.addPair West.reset West.new ops).getMean = .fin μ ∧ Double μ ∧
      lo - R / 2 ^ 51 ≤ μ ∧ μ ≤ hi + R / 2 ^ 51 := by
  rw [← west_plain]
  exact west_near_range hA _ ops ps hps R lo hi hR hx hw h0

/-- Equal values: in double precision the mean is that value and the population variance is 0. -/
theorem west_constant (hA : A.IsBinary64) (f : WestFused) (ops : List (AccOp (Num A × Num A))) (ps : List (ℝ × ℝ))
    (hps : sinceReset ops = ps.map (fun p => (.fin p.1, .fin p.2))) (c : ℝ) (hc : FinDouble c)
    (hx : ∀ p ∈ ps, 0 < p.2 → p.1 = c) (hw : ∀ p ∈ ps, FinDouble p.2 ∧ |p.2 * c| ≤ (2 : ℝ) ^ (1023 : Int))
    (h0 : ∃ p ∈ ps, 0 < p.2) :
    (runOps (West.addContracted f) West.reset West.new ops).getMean = .fin c ∧
    ((runOps (West.addContracted f) West.reset West.new ops).getCount < 2 ∨
      (runOps (West.addContracted f) West.reset West.new ops).populationVariance = .fin 0) := by
  have hz : Num.round A (0 : ℝ) = .fin 0 := Num.round_of (rnd_zero_of_binary64 hA)
  have key : ∀ qs : List (ℝ × ℝ), (∀ p ∈ qs, p.1 = c ∧ FinDouble p.2 ∧ 0 < p.2 ∧ |p.2 * c| ≤ (2 : ℝ) ^ (1023 : Int)) →
      ∃ s : West (Num A), (qs.map (fun p => ((.fin p.1, .fin p.2) : Num A × Num A))).foldl
        (fun s p => s.addCoreContracted f p.1 p.2) (West.new : West (Num A)) = s ∧
      ((qs = [] ∧ s.sumWeights = .fin 0) ∨ s.sumWeights = .inf false ∨ ∃ S : ℝ, 0 < S ∧ s.sumWeights = .fin S) ∧
      s.mean = .fin (if qs = [] then 0 else c) ∧ s.m2 = .fin 0 := by
    intro qs
    induction qs using List.reverseRecOn with
    | nil => intro _; exact ⟨_, rfl, .inl ⟨rfl, rfl⟩, rfl, rfl⟩
    | append_singleton qs p ih =>
      intro hq
      obtain ⟨s, hs, hS, hm, h2⟩ := ih (fun p hp => hq p (by simp [hp]))
      obtain ⟨x, w⟩ := p
      obtain ⟨hx1, hw1, hw2, hw3⟩ := hq (x, w) (by simp)
      simp only at hx1 hw1 hw2 hw3
      subst hx1
      have hS0 : s.sumWeights = .inf false ∨ ∃ S : ℝ, 0 ≤ S ∧ s.sumWeights = .fin S := by
        rcases hS with ⟨-, h⟩ | h | ⟨S, h1, h⟩
        · exact .inr ⟨0, le_rfl, h⟩
        · exact .inl h
        · exact .inr ⟨S, h1.le, h⟩
      obtain ⟨hS', α, hα0, hα1, hα⟩ := west_weight hA hS0 hw1 hw2
      have rx : Num.round A x = .fin x := Num.round_of (rnd_of_double hA hc.1 hc.2)
      have hmean : (s.addCoreContracted f (.fin x) (.fin w)).mean = .fin x ∧ (s.addCoreContracted f (.fin x) (.fin w)).m2 = .fin 0 := by
        have rz : ∀ y : ℝ, (Num.fin y : Num A) * .fin 0 = .fin 0 := by
          intro y; rw [Num.fin_mul, mul_zero, hz]
        have fz : ∀ (g : Bool) (y z : ℝ), Num.round A z = .fin z → mulAdd g (.fin y : Num A) (.fin 0) (.fin z) = .fin z := by
          intro g y z hr
          cases g with
          | false => show (.fin z + .fin y * .fin 0 : Num A) = _; rw [rz, Num.fin_add, add_zero, hr]
          | true => show Num.round A (y * 0 + z) = _; rw [mul_zero, zero_add, hr]
        have one : ∀ g : Bool, mulAdd g (.fin 1 : Num A) (.fin x) (.fin 0) = .fin x := by
          intro g
          cases g with
          | false => show (.fin 0 + .fin 1 * .fin x : Num A) = _; rw [Num.fin_mul, one_mul, rx, Num.fin_add, zero_add, rx]
          | true => show Num.round A (1 * x + 0) = _; rw [one_mul, add_zero, rx]
        by_cases h : qs = []
        · rw [if_pos h] at hm
          have hS1 : s.sumWeights = .fin 0 := by
            rw [← hs, h]; rfl
          rw [hS1, (west_first hA hw1 hw2).1, (west_first hA hw1 hw2).2] at hα
          simp only [West.addCoreContracted]
          rw [hS1, (west_first hA hw1 hw2).1, (west_first hA hw1 hw2).2, hm, h2, Num.fin_sub, sub_zero, rx, one, Num.fin_sub,
            sub_self, hz, Num.fin_mul, round_of_le_two hA hw3, fz _ _ _ hz]
          exact ⟨rfl, rfl⟩
        · rw [if_neg h] at hm
          simp only [West.addCoreContracted]
          rw [hα, hm, h2, Num.fin_sub, sub_self, hz, fz _ _ _ rx, Num.fin_sub, sub_self, hz, rz, fz _ _ _ hz]
          exact ⟨rfl, rfl⟩
      refine ⟨s.addCoreContracted f (.fin x) (.fin w), by rw [List.map_append, List.foldl_append, hs]; rfl, .inr hS', ?_, hmean.2⟩
      rw [if_neg (by simp)]; exact hmean.1
  obtain ⟨s, hs, hS, hm, h2⟩ := key (ps.filter (fun p => decide (0 < p.2))) (by
    intro p hp
    obtain ⟨p1, p2⟩ := List.mem_filter.1 hp
    have p2 : 0 < p.2 := by simpa using p2
    exact ⟨hx p p1 p2, (hw p p1).1, p2, (hw p p1).2⟩)
  obtain ⟨p, hp1, hp2⟩ := h0
  have hne : ps.filter (fun p => decide (0 < p.2)) ≠ [] := List.ne_nil_of_mem (List.mem_filter.2 ⟨hp1, by simpa using hp2⟩)
  rw [west_contracted_ops, hps, west_filter, hs]
  rw [if_neg hne] at hm
  refine ⟨hm, ?_⟩
  by_cases hc2 : s.count < 2
  · exact .inl hc2
  · right
    unfold West.populationVariance
    rw [if_neg hc2, h2]
    rcases hS with ⟨h, -⟩ | h | ⟨S, h1, h⟩
    · exact absurd h hne
    · rw [h]; rfl
    · rw [h, Num.fin_div h1.ne', zero_div, hz]

/-- C116.  Equal values: in double precision the mean is that value and the population variance is 0. -/
theorem C116_constant (hA : A.IsBinary64) (ops : List (AccOp (Num A × Num A))) (ps : List (ℝ × ℝ))
    (hps : sinceReset ops = ps.map (fun p => (.fin p.1, .fin p.2))) (c : ℝ) (hc : FinDouble c)
    (hx : ∀ p ∈ ps, 0 < p.2 → p.1 = c) (hw : ∀ p ∈ ps, FinDouble p.2 ∧ |p.2 * c| ≤ (2 : ℝ) ^ (1023 : Int))
    (h0 : ∃ p ∈ ps, 0 < p.2) :
    (runOps West.addPair West.reset West.new ops).getMean = .fin c ∧
    ((runOps West.addPair West.reset West.new ops).getCount < 2 ∨
      (runOps West.addPair West.reset West.new ops).populationVariance = .fin 0) := by
  rw [← west_plain]
  exact west_constant hA _ ops ps hps c hc hx hw h0

/-- C116.  The mean can leave the range of the data, and the variance can be negative: after -9/2^54 with weight 2^-60
and 2-2^-52 with weight 1 the mean is 2 and the population variance is negative. -/
theorem C116_overshoot (hA : A.IsBinary64) (s : West (Num A))
    (hs : s = ([(-9 / 2 ^ 54, 1 / 2 ^ 60), (2 - 1 / 2 ^ 52, 1)] : List (ℝ × ℝ)).foldl
      (fun s p => (s.add false (.fin p.1) (.fin p.2)).state) (West.new : West (Num A))) :
    s.getMean = .fin 2 ∧ s.populationVariance = .fin (-(2 ^ 52 + 1) / 2 ^ 103) := by
  have d1 : Double (-9 / 2 ^ 54 : ℝ) := ⟨-9, -54, by norm_num, by norm_num, by norm_num⟩
  have d2 : Double (1 / 2 ^ 60 : ℝ) := ⟨1, -60, by norm_num, by norm_num, by norm_num⟩
  have small : ∀ {x : ℝ}, |x| ≤ 4 → Num.round A x = .fin (rn x) := by
    intro x hx
    refine round_of_le hA (y := 4) ⟨4, 0, by norm_num, by norm_num, by norm_num⟩ ?_ hx
    have : (2 : ℝ) ^ (2 : Int) < 2 ^ (1024 : Int) := zpow_lt_zpow_right₀ one_lt_two (by norm_num)
    norm_num at this
    exact this
  have dbl : ∀ {x : ℝ}, Double x → |x| ≤ 4 → Num.round A x = .fin x := by
    intro x hd hx; rw [small hx, rn_double hd]
  have r0 : Num.round A (0 : ℝ) = .fin 0 := dbl double_zero (by norm_num)
  have r1 : Num.round A (1 : ℝ) = .fin 1 := dbl ⟨1, 0, by norm_num, by norm_num, by norm_num⟩ (by norm_num)
  have ra : Num.round A (-9 / 2 ^ 54 : ℝ) = .fin (-9 / 2 ^ 54) := dbl d1 (by norm_num)
  have rw' : Num.round A (1 / 2 ^ 60 : ℝ) = .fin (1 / 2 ^ 60) := dbl d2 (by norm_num [abs_of_pos])
  have rww : Num.round A (1 / 2 ^ 60 * (1 / 2 ^ 60) : ℝ) = .fin (1 / 2 ^ 120) := by
    rw [show (1 / 2 ^ 60 * (1 / 2 ^ 60) : ℝ) = 1 / 2 ^ 120 by norm_num]
    exact dbl ⟨1, -120, by norm_num, by norm_num, by norm_num⟩ (by norm_num [abs_of_pos])
  have rwa' : Num.round A (1 / 2 ^ 60 * (-9 / 2 ^ 54) : ℝ) = .fin (1 / 2 ^ 60 * (-9 / 2 ^ 54)) :=
    dbl ⟨-9, -114, by norm_num, by norm_num, by norm_num⟩ (by norm_num)
  have s1 : (West.add false (West.new : West (Num A)) (.fin (-9 / 2 ^ 54)) (.fin (1 / 2 ^ 60))).state =
      ⟨.fin (1 / 2 ^ 60), .fin (1 / 2 ^ 120), .fin (-9 / 2 ^ 54), .fin 0, 1⟩ := by
    have hlt : CxxFloat.lt (CxxFloat.zero : Num A) (.fin (1 / 2 ^ 60)) = true := by
      show decide ((0 : ℝ) < 1 / 2 ^ 60) = true
      exact decide_eq_true (by positivity)
    unfold West.add
    rw [if_pos hlt]
    show West.addCore _ _ _ = _
    simp only [West.addCore, West.new, Num.zero_eq]
    have hne : (1 / 2 ^ 60 : ℝ) ≠ 0 := by positivity
    rw [Num.fin_add, zero_add, rw', Num.fin_mul, rww, Num.fin_add, zero_add,
      dbl (x := 1 / 2 ^ 120) ⟨1, -120, by norm_num, by norm_num, by norm_num⟩ (by norm_num [abs_of_pos]),
      Num.fin_div hne, div_self hne, r1, Num.fin_sub, sub_zero, ra, Num.fin_mul, one_mul, ra, Num.fin_add, zero_add, ra,
      Num.fin_mul, rwa', Num.fin_sub, sub_self, r0, Num.fin_mul, mul_zero, r0, Num.fin_add, add_zero, r0]
    rfl
  have t1 : Num.round A (1 / 2 ^ 60 + 1 : ℝ) = .fin 1 := by
    rw [small (by norm_num [abs_of_pos]), rn_of 0 (2 ^ 52) (by norm_num) (by norm_num [abs_of_pos])
      (by norm_num [abs_of_pos]) (by rw [abs_lt]; constructor <;> norm_num)]
    norm_num
  have t2 : Num.round A (2 - 1 / 2 ^ 52 - -9 / 2 ^ 54 : ℝ) = .fin (2 + 1 / 2 ^ 51) := by
    rw [small (by rw [abs_le]; constructor <;> norm_num), rn_of 1 (2 ^ 52 + 1) (by norm_num)
      (by rw [abs_of_pos (by norm_num)]; norm_num)
      (by rw [abs_of_pos (by norm_num)]; norm_num) (by rw [abs_lt]; constructor <;> norm_num)]
    norm_num
  have d3 : Double (2 + 1 / 2 ^ 51 : ℝ) := ⟨2 ^ 52 + 1, -51, by norm_num, by norm_num, by norm_num⟩
  have t3 : Num.round A (2 + 1 / 2 ^ 51 : ℝ) = .fin (2 + 1 / 2 ^ 51) := dbl d3 (by rw [abs_le]; constructor <;> norm_num)
  have t4 : Num.round A (-9 / 2 ^ 54 + (2 + 1 / 2 ^ 51) : ℝ) = .fin 2 := by
    rw [small (by rw [abs_le]; constructor <;> norm_num), rn_of 0 (2 ^ 53) (by norm_num)
      (by rw [abs_of_pos (by norm_num)]; norm_num)
      (by rw [abs_of_pos (by norm_num)]; norm_num) (by rw [abs_lt]; constructor <;> norm_num)]
    norm_num
  have t5 : Num.round A (2 - 1 / 2 ^ 52 - 2 : ℝ) = .fin (-1 / 2 ^ 52) := by
    rw [show (2 - 1 / 2 ^ 52 - 2 : ℝ) = -1 / 2 ^ 52 by norm_num]
    exact dbl ⟨-1, -52, by norm_num, by norm_num, by norm_num⟩ (by norm_num)
  have d6 : Double (-(2 ^ 52 + 1) / 2 ^ 103 : ℝ) := ⟨-(2 ^ 52 + 1), -103, by norm_num, by norm_num, by norm_num⟩
  have t6 : Num.round A (-(2 ^ 52 + 1) / 2 ^ 103 : ℝ) = .fin (-(2 ^ 52 + 1) / 2 ^ 103) :=
    dbl d6 (by rw [abs_le]; constructor <;> norm_num)
  have t7 : Num.round A ((2 + 1 / 2 ^ 51) * (-1 / 2 ^ 52) : ℝ) = .fin (-(2 ^ 52 + 1) / 2 ^ 103) := by
    rw [← t6]; congr 1; norm_num
  have s2 : ∃ q : Num A, (West.add false (⟨.fin (1 / 2 ^ 60), .fin (1 / 2 ^ 120), .fin (-9 / 2 ^ 54), .fin 0, 1⟩ : West (Num A))
      (.fin (2 - 1 / 2 ^ 52)) (.fin 1)).state = ⟨.fin 1, q, .fin 2, .fin (-(2 ^ 52 + 1) / 2 ^ 103), 2⟩ := by
    have hlt : CxxFloat.lt (CxxFloat.zero : Num A) (.fin 1) = true := decide_eq_true one_pos
    refine ⟨.fin (1 / 2 ^ 120) + .fin 1 * .fin 1, ?_⟩
    unfold West.add
    rw [if_pos hlt]
    show West.addCore _ _ _ = _
    have e1 : (Num.fin (1 / 2 ^ 60) : Num A) + .fin 1 = .fin 1 := by rw [Num.fin_add, t1]
    have e2 : (Num.fin 1 : Num A) / .fin 1 = .fin 1 := by rw [Num.fin_div one_ne_zero, div_one, r1]
    have e3 : (Num.fin (2 - 1 / 2 ^ 52) : Num A) - .fin (-9 / 2 ^ 54) = .fin (2 + 1 / 2 ^ 51) := by
      rw [Num.fin_sub, t2]
    have e4 : (Num.fin 1 : Num A) * .fin (2 + 1 / 2 ^ 51) = .fin (2 + 1 / 2 ^ 51) := by rw [Num.fin_mul, one_mul, t3]
    have e5 : (Num.fin (-9 / 2 ^ 54) : Num A) + .fin (2 + 1 / 2 ^ 51) = .fin 2 := by rw [Num.fin_add, t4]
    have e6 : (Num.fin (2 - 1 / 2 ^ 52) : Num A) - .fin 2 = .fin (-1 / 2 ^ 52) := by rw [Num.fin_sub, t5]
    have e7 : (Num.fin (2 + 1 / 2 ^ 51) : Num A) * .fin (-1 / 2 ^ 52) = .fin (-(2 ^ 52 + 1) / 2 ^ 103) := by
      rw [Num.fin_mul, t7]
    have e8 : (Num.fin 0 : Num A) + .fin (-(2 ^ 52 + 1) / 2 ^ 103) = .fin (-(2 ^ 52 + 1) / 2 ^ 103) := by
      rw [Num.fin_add, zero_add, t6]
    simp only [West.addCore, e1, e2, e3, e4, e5, e6, e7, e8]
    rfl
  obtain ⟨q, s2⟩ := s2
  subst hs
  rw [List.foldl_cons, List.foldl_cons, List.foldl_nil, s1, s2]
  refine ⟨rfl, ?_⟩
  unfold West.populationVariance
  rw [if_neg (by norm_num)]
  simp only
  rw [Num.fin_div one_ne_zero, div_one, t6]

/-- The hypotheses of C116 hold for the values 3 and -1 with weights 5 and 2^-70, and a value of weight 0. -/
example : ∃ ps : List (ℝ × ℝ), ps.length = 3 ∧ (∃ p ∈ ps, 0 < p.2) ∧ (∀ p ∈ ps, FinDouble p.2) ∧
    ∀ p ∈ ps, 0 < p.2 → Double p.1 ∧ |p.1| ≤ 3 ∧ -1 ≤ p.1 ∧ p.1 ≤ 3 := by
  have sm : ∀ x : ℝ, |x| ≤ 5 → |x| < (2 : ℝ) ^ (1024 : Int) := by
    intro x hx
    have h1 : (2 : ℝ) ^ (3 : Int) < 2 ^ (1024 : Int) := zpow_lt_zpow_right₀ one_lt_two (by norm_num)
    have h2 : (5 : ℝ) < (2 : ℝ) ^ (3 : Int) := by norm_num
    exact hx.trans_lt (h2.trans h1)
  refine ⟨[(3, 5), (-1, 1 / 2 ^ 70), (17, 0)], rfl, ⟨(3, 5), by simp, by norm_num⟩, ?_, ?_⟩
  · intro p hp
    simp only [List.mem_cons, List.not_mem_nil, or_false] at hp
    rcases hp with rfl | rfl | rfl
    · exact ⟨⟨5, 0, by norm_num, by norm_num, by norm_num⟩, sm _ (by norm_num)⟩
    · exact ⟨⟨1, -70, by norm_num, by norm_num, by norm_num⟩, sm _ (by norm_num [abs_of_pos])⟩
    · exact ⟨double_zero, sm _ (by norm_num)⟩
  · intro p hp h0
    simp only [List.mem_cons, List.not_mem_nil, or_false] at hp
    rcases hp with rfl | rfl | rfl
    · exact ⟨⟨3, 0, by norm_num, by norm_num, by norm_num⟩, by norm_num, by norm_num, by norm_num⟩
    · exact ⟨⟨-1, 0, by norm_num, by norm_num, by norm_num⟩, by norm_num, by norm_num, by norm_num⟩
    · exact absurd h0 (lt_irrefl _)

end Bwsl
