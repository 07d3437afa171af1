import Verif.Props.WestFirstWeight
import Verif.Props.WestError

/-! Property C199: equal weights and no weights. -/

namespace Bwsl
open Spec

set_option linter.unusedSectionVars false

section
variable {K : Type} [Field K] [LinearOrder K] [IsStrictOrderedRing K] [FloorRing K] {A : Arith K}

theorem equal_weights_state (hA : A.IsExact) {w : K} (hw : 0 < w) (xs : List K) (hn : xs.length < 2 ^ 64) :
    ∃ m q : K, (xs.map .fin).foldl KnuthWelford.addCore (KnuthWelford.new : KnuthWelford (Num A)) = ⟨.fin m, .fin q, xs.length⟩ ∧
      (xs.map (fun x => ((.fin x, .fin w) : Num A × Num A))).foldl West.addPair (West.new : West (Num A)) =
        ⟨.fin (xs.length * w), .fin (xs.length * (w * w)), .fin m, .fin (w * q), xs.length⟩ := by
  induction xs using List.reverseRecOn with
  | nil =>
    refine ⟨0, 0, rfl, ?_⟩
    simp only [List.length_nil, Nat.cast_zero, zero_mul, mul_zero]
    rfl
  | append_singleton xs x ih =>
    rw [List.length_append, List.length_singleton] at hn
    obtain ⟨m, q, h1, h2⟩ := ih (by omega)
    have hs : succU xs.length = xs.length + 1 := by unfold succU; omega
    have hn0 : (xs.length : K) + 1 ≠ 0 := by positivity
    refine ⟨m + (x - m) / (xs.length + 1), q + (x - m) * (x - (m + (x - m) / (xs.length + 1))), ?_, ?_⟩
    · rw [List.map_append, List.foldl_append, h1]
      show KnuthWelford.addCore _ (Num.fin x) = _
      unfold KnuthWelford.addCore
      simp only [hs, Num.ofNat_eq, Num.round_exact hA, Num.fin_sub, Num.fin_add, Num.fin_mul, Nat.cast_add, Nat.cast_one,
        Num.fin_div hn0, List.length_append, List.length_singleton]
    · rw [List.map_append, List.foldl_append, h2]
      show West.addPair _ (Num.fin x, Num.fin w) = _
      have hp : CxxFloat.lt (CxxFloat.zero : Num A) (.fin w) = true := by rw [Num.zero_eq, Num.lt_fin, decide_eq_true_iff]; exact hw
      unfold West.addPair West.add
      rw [if_pos hp]
      show West.addCore _ _ _ = _
      have hW : (xs.length : K) * w + w ≠ 0 := by positivity
      have e : w / ((xs.length : K) * w + w) * (x - m) = (x - m) / (xs.length + 1) := by
        have := hw.ne'
        field_simp
      unfold West.addCore
      simp only [hs, Num.round_exact hA, Num.fin_sub, Num.fin_add, Num.fin_mul, Num.fin_div hW, e, List.length_append,
        List.length_singleton, Nat.cast_add, Nat.cast_one]
      congr 2 <;> ring

/-- C199.  In exact arithmetic `WestAccumulator` with equal weights reports what `KnuthWelfordAccumulator` does. -/
theorem C199_exact_partial (hA : A.IsExact) {w : K} (hw : 0 < w) (ops : List (AccOp (Num A))) (ops' : List (AccOp (Num A × Num A)))
    (xs : List K) (h : sinceReset ops = xs.map .fin) (h' : sinceReset ops' = xs.map (fun x => (.fin x, .fin w)))
    (hn : xs.length < 2 ^ 64) (s : KnuthWelford (Num A)) (t : West (Num A))
    (hs : s = runOps KnuthWelford.addCore KnuthWelford.reset KnuthWelford.new ops)
    (ht : t = runOps West.addPair West.reset West.new ops') :
    t.getCount = s.getCount ∧ t.getMean = s.getMean ∧ t.populationVariance = s.variance false ∧
      t.sampleReliabilityVariance = s.variance true ∧ (w = 1 → t.sampleFrequencyVariance = s.variance true) := by
  obtain ⟨m, q, h1, h2⟩ := equal_weights_state hA hw xs hn
  rw [(C35_knuthWelford ops).1, h, h1] at hs
  rw [runOps_fresh (add := West.addPair) (reset := West.reset) (fresh := (West.new : West (Num A))) (fun _ => rfl), h', h2] at ht
  subst hs ht
  refine ⟨rfl, rfl, ?_⟩
  unfold West.populationVariance West.sampleReliabilityVariance West.sampleFrequencyVariance KnuthWelford.variance
  dsimp only
  by_cases hc : xs.length < 2
  · simp only [if_pos hc, and_self, implies_true]
  simp only [if_neg hc, ↓reduceIte, Bool.false_eq_true]
  have hl : (2 : K) ≤ xs.length := by exact_mod_cast (by omega : 2 ≤ xs.length)
  have hu : usub xs.length 1 = xs.length - 1 := by unfold usub; omega
  have hc1 : ((xs.length - 1 : Nat) : K) = xs.length - 1 := by rw [Nat.cast_sub (by omega), Nat.cast_one]
  have h0 : (xs.length : K) ≠ 0 := by linarith
  have h10 : (xs.length : K) - 1 ≠ 0 := by linarith
  have hw0 := hw.ne'
  have hW : (xs.length : K) * w ≠ 0 := mul_ne_zero h0 hw0
  have e2 : (xs.length : K) * w - xs.length * (w * w) / (xs.length * w) = (xs.length - 1) * w := by field_simp
  have hW1 : ((xs.length : K) - 1) * w ≠ 0 := mul_ne_zero h10 hw0
  have e3 : w * q / ((xs.length : K) * w) = q / xs.length := by rw [mul_comm (xs.length : K) w, mul_div_mul_left _ _ hw0]
  have e4 : w * q / (((xs.length : K) - 1) * w) = q / (xs.length - 1) := by rw [mul_comm _ w, mul_div_mul_left _ _ hw0]
  refine ⟨?_, ?_, ?_⟩
  · rw [Num.ofNat_eq, Num.round_exact hA, Num.fin_div h0, Num.fin_div hW, e3]
  · rw [hu, Num.ofNat_eq, Num.round_exact hA, hc1, Num.fin_div h10, Num.fin_div hW, Num.round_exact hA, Num.fin_sub,
      Num.round_exact hA, e2, Num.fin_div hW1, e4]
  · rintro rfl
    rw [hu, Num.ofNat_eq, Num.ofInt_eq, Num.round_exact hA, Num.round_exact hA, hc1, mul_one, Num.fin_sub, Num.round_exact hA,
      Int.cast_one, one_mul]

end

section
variable {A : Arith ℝ}

/-- Equal weights in the definitions of weighted statistics. -/
theorem equal_weights_spec {w : ℝ} (hw : 0 < w) (xs : List ℝ) :
    positive (xs.map (fun x => (x, w))) = xs.map (fun x => (x, w)) ∧ totalWeight (xs.map (fun x => (x, w))) = xs.length * w ∧
      wavg (xs.map (fun x => (x, w))) = avg xs ∧ wsqDev (xs.map (fun x => (x, w))) = w * sqDev xs := by
  have hpos : positive (xs.map (fun x => (x, w))) = xs.map (fun x => (x, w)) := by
    unfold positive
    rw [List.filter_eq_self]
    intro p hp
    obtain ⟨x, -, rfl⟩ := List.mem_map.1 hp
    simpa using hw
  have ht : totalWeight (xs.map (fun x => (x, w))) = xs.length * w := by
    unfold totalWeight
    rw [List.map_map]
    show (xs.map (fun _ => w)).sum = _
    rw [List.map_const', List.sum_replicate, nsmul_eq_mul]
  have hsum : ((xs.map (fun x => (x, w))).map (fun p => p.2 * p.1)).sum = w * xs.sum := by
    rw [List.map_map]
    show (xs.map (fun x => w * x)).sum = _
    rw [List.sum_map_mul_left, List.map_id']
  have havg : wavg (xs.map (fun x => (x, w))) = avg xs := by
    unfold wavg avg
    rw [hsum, ht, mul_comm (xs.length : ℝ) w, mul_div_mul_left _ _ hw.ne']
  refine ⟨hpos, ht, havg, ?_⟩
  unfold wsqDev sqDev
  rw [havg, List.map_map]
  exact List.sum_map_mul_left ..

/-- C199.  In double precision the two means are close. -/
theorem C199_close_partial (hA : A.IsBinary64) {w : ℝ} (hw : 0 < w) (hwd : Double w) (ops : List (AccOp (Num A)))
    (ops' : List (AccOp (Num A × Num A))) (xs : List ℝ) (h : sinceReset ops = xs.map .fin)
    (h' : sinceReset ops' = xs.map (fun x => (.fin x, .fin w))) (M : ℝ) (hM0 : 0 ≤ M) (hM : M ≤ (2 : ℝ) ^ (400 : Int))
    (hx : ∀ x ∈ xs, Double x ∧ |x| ≤ M) (hW : xs.length * w ≤ (2 : ℝ) ^ (128 : Int)) (hn : xs.length ≤ 2 ^ 48) :
    ∃ μ ν : ℝ, (runOps KnuthWelford.addCore KnuthWelford.reset KnuthWelford.new ops).getMean = .fin μ ∧
      (runOps West.addPair West.reset West.new ops').getMean = .fin ν ∧
      |ν - μ| ≤ (M / 2 ^ 53 + (2 : ℝ) ^ (-1075 : Int)) * (7 * xs.length + 29) / 2 := by
  obtain ⟨μ, h1, h2⟩ := C126_mean hA ops xs h M hM0 hM hx hn
  obtain ⟨hpos, ht, havg, -⟩ := equal_weights_spec hw xs
  obtain ⟨ν, h3, h4⟩ := C127_mean hA ops' (xs.map (fun x => (x, w))) (by rw [h', List.map_map]; rfl) M hM0 hM
    (fun p hp _ => by obtain ⟨x, hxm, rfl⟩ := List.mem_map.1 hp; exact ⟨(hx x hxm).1, (hx x hxm).2, hwd⟩)
    (by rw [hpos, ht]; exact hW) (by rw [hpos, List.length_map]; exact hn)
  rw [hpos, List.length_map, havg] at h4
  refine ⟨μ, ν, h1, h3, ?_⟩
  generalize M / 2 ^ 53 + (2 : ℝ) ^ (-1075 : Int) = u at *
  have h5 := abs_sub_le ν (avg xs) μ
  rw [abs_sub_comm (avg xs) μ] at h5
  linarith

/-- C199.  So are the variances. -/
theorem C199_variance_partial (hA : A.IsBinary64) {w : ℝ} (hw : 0 < w) (hwd : Double w) (ops : List (AccOp (Num A)))
    (ops' : List (AccOp (Num A × Num A))) (xs : List ℝ) (h : sinceReset ops = xs.map .fin)
    (h' : sinceReset ops' = xs.map (fun x => (.fin x, .fin w))) (M : ℝ) (hM0 : 0 ≤ M) (hM : M ≤ (2 : ℝ) ^ (400 : Int))
    (hx : ∀ x ∈ xs, Double x ∧ |x| ≤ M) (hW : xs.length * w ≤ (2 : ℝ) ^ (128 : Int)) (h2 : 2 ≤ xs.length) (hn : xs.length ≤ 2 ^ 48) :
    ∃ v v' : ℝ, (runOps KnuthWelford.addCore KnuthWelford.reset KnuthWelford.new ops).variance false = .fin v ∧
      (runOps West.addPair West.reset West.new ops').populationVariance = .fin v' ∧
      |v' - v| ≤ M * (M / 2 ^ 53 + (2 : ℝ) ^ (-1075 : Int)) * (17 * xs.length + 107) +
        (6 * M + 4) * (2 : ℝ) ^ (-1075 : Int) / w + 6 * (2 : ℝ) ^ (-1075 : Int) := by
  obtain ⟨⟨v, h1, h3⟩, -⟩ := C126_variance hA ops xs h M hM0 hM hx hn h2
  obtain ⟨hpos, ht, -, hsq⟩ := equal_weights_spec hw xs
  obtain ⟨v', h4, h5⟩ := C127_variance hA ops' (xs.map (fun x => (x, w))) (by rw [h', List.map_map]; rfl) M hM0 hM
    (fun p hp _ => by obtain ⟨x, hxm, rfl⟩ := List.mem_map.1 hp; exact ⟨(hx x hxm).1, (hx x hxm).2, hwd⟩)
    (by rw [hpos, ht]; exact hW) (by rw [hpos, List.length_map]; exact h2) (by rw [hpos, List.length_map]; exact hn)
  have hl : (xs.length : ℝ) ≠ 0 := by exact_mod_cast (by omega : xs.length ≠ 0)
  rw [hpos, List.length_map, ht, hsq, mul_comm (xs.length : ℝ) w, mul_div_mul_left _ _ hw.ne', mul_assoc (xs.length : ℝ), mul_comm w,
    mul_div_mul_left _ _ hl] at h5
  refine ⟨v, v', h1, h4, ?_⟩
  generalize M / 2 ^ 53 + (2 : ℝ) ^ (-1075 : Int) = u at *
  generalize (2 : ℝ) ^ (-1075 : Int) = η at *
  have h6 := abs_sub_le v' (sqDev xs / xs.length) v
  rw [abs_sub_comm (sqDev xs / xs.length) v] at h6
  linarith

/-- C199 is violated: with weights 1 the values 0, 0 and 5 have another mean than without weights. -/
theorem C199_violated (hA : A.IsBinary64) :
    (([0, 0, 5].map .fin).foldl KnuthWelford.addCore (KnuthWelford.new : KnuthWelford (Num A))).getMean =
      .fin (7505999378950827 / 2 ^ 52) ∧
    (([0, 0, 5].map (fun x => ((.fin x, .fin 1) : Num A × Num A))).foldl West.addPair (West.new : West (Num A))).getMean =
      .fin (7505999378950826 / 2 ^ 52) := by
  have ri : ∀ n : Int, |n| ≤ 2 ^ 53 → Num.round A (n : ℝ) = .fin (n : ℝ) := fun n hn => round_int hA hn
  have r0 := ri 0 (by norm_num)
  have r1 := ri 1 (by norm_num)
  have r2 := ri 2 (by norm_num)
  have r3 := ri 3 (by norm_num)
  have r5 := ri 5 (by norm_num)
  push_cast at r0 r1 r2 r3 r5
  have small : ∀ {x : ℝ}, |x| ≤ 4 → Num.round A x = .fin (rn x) := fun {x} hx =>
    round_of_le hA (y := 4) ⟨4, 0, by norm_num, by norm_num, by norm_num⟩
      (by rw [show (4 : ℝ) = 2 ^ (2 : Int) by norm_num]; exact zpow_lt_zpow_right₀ one_lt_two (by norm_num)) hx
  have q13 : Num.round A (1 / 3 : ℝ) = .fin (6004799503160661 / 2 ^ 54) := by
    rw [small (by norm_num [abs_of_pos])]
    congr 1
    refine rn_eq_of_close (u := -54) (ulpExp_eq (k := -2) (by norm_num) (by norm_num [abs_of_pos]) (by norm_num [abs_of_pos])) ⟨6004799503160661, by norm_num⟩ ?_
    rw [abs_lt]; constructor <;> norm_num
  have q53 : Num.round A (5 / 3 : ℝ) = .fin (7505999378950827 / 2 ^ 52) := by
    rw [small (by norm_num [abs_of_pos])]
    congr 1
    refine rn_eq_of_close (u := -52) (ulpExp_eq (k := 0) (by norm_num) (by norm_num [abs_of_pos]) (by norm_num [abs_of_pos])) ⟨7505999378950827, by norm_num⟩ ?_
    rw [abs_lt]; constructor <;> norm_num
  have q5 : Num.round A (6004799503160661 / 2 ^ 54 * 5 : ℝ) = .fin (7505999378950826 / 2 ^ 52) := by
    rw [small (by norm_num [abs_of_pos])]
    congr 1
    refine rn_eq_of_close (u := -52) (ulpExp_eq (k := 0) (by norm_num) (by norm_num [abs_of_pos]) (by norm_num [abs_of_pos])) ⟨7505999378950826, by norm_num⟩ ?_
    rw [abs_lt]; constructor <;> norm_num
  have again : ∀ {n : Int}, Num.round A (0 + n / 2 ^ 52 : ℝ) = Num.round A (n / 2 ^ 52 : ℝ) := fun {n} => by rw [zero_add]
  have d : ∀ {n : Int}, |n| ≤ 2 ^ 53 → Num.round A ((n : ℝ) / 2 ^ 52) = .fin ((n : ℝ) / 2 ^ 52) := fun {n} hn => by
    have hd : Double ((n : ℝ) / 2 ^ 52) := ⟨n, -52, hn, by norm_num, by rw [zpow_neg, div_eq_mul_inv]; norm_num⟩
    have hb : |(n : ℝ) / 2 ^ 52| ≤ 4 := by
      rw [abs_div, abs_of_pos (by norm_num : (0 : ℝ) < 2 ^ 52), div_le_iff₀ (by norm_num), ← Int.cast_abs]
      have : ((|n| : Int) : ℝ) ≤ 2 ^ 53 := by exact_mod_cast hn
      linarith
    rw [small hb, rn_double hd]
  have d7 := d (n := 7505999378950827) (by norm_num)
  have d6 := d (n := 7505999378950826) (by norm_num)
  push_cast at d6 d7
  constructor
  · have hz : (List.map (Num.fin (A := A)) [0, 0]).foldl KnuthWelford.addCore KnuthWelford.new = ⟨.fin 0, .fin 0, 2⟩ :=
      welford_constant (FloatFormat.isFormat_double.2 hA) false ⟨FloatFormat.zero_value, by rw [abs_zero]; exact two_zpow_pos _⟩ 1 (by norm_num)
    show (KnuthWelford.addCore ((List.map (Num.fin (A := A)) [0, 0]).foldl KnuthWelford.addCore KnuthWelford.new) (.fin 5)).mean = _
    rw [hz]
    show (.fin 0 + (.fin 5 - .fin 0) / CxxFloat.ofNat 3 : Num A) = _
    have c3 : (CxxFloat.ofNat 3 : Num A) = .fin 3 := by rw [Num.ofNat_eq]; exact_mod_cast r3
    rw [c3, Num.fin_sub, sub_zero, r5, Num.fin_div (by norm_num), q53, Num.fin_add, zero_add, d7]
  · have hp : CxxFloat.lt (CxxFloat.zero : Num A) (.fin 1) = true := by rw [Num.zero_eq, Num.lt_fin, decide_eq_true_iff]; exact one_pos
    have st : ∀ (s : West (Num A)) (x : Num A), West.addPair s (x, .fin 1) = s.addCore x (.fin 1) := fun s x => by
      rw [west_addPair]; exact if_pos hp
    have w1 : (.fin 0 + .fin 1 : Num A) = .fin 1 := by rw [Num.fin_add, zero_add, r1]
    have w2 : (.fin 1 + .fin 1 : Num A) = .fin 2 := by rw [Num.fin_add, one_add_one_eq_two, r2]
    have w3 : (.fin 2 + .fin 1 : Num A) = .fin 3 := by rw [Num.fin_add, show (2 : ℝ) + 1 = 3 by norm_num, r3]
    have z : (.fin 0 - .fin 0 : Num A) = .fin 0 := by rw [Num.fin_sub, sub_zero, r0]
    have stay : ∀ y : ℝ, (.fin 0 + .fin y * .fin 0 : Num A) = .fin 0 := fun y => by
      rw [Num.fin_mul, mul_zero, r0, Num.fin_add, zero_add, r0]
    have m1 : (.fin 0 + .fin 1 / .fin 1 * (.fin 0 - .fin 0) : Num A) = .fin 0 := by
      rw [z, Num.fin_div one_ne_zero, div_one, r1, stay]
    have m2 : (.fin 0 + .fin 1 / .fin 2 * (.fin 0 - .fin 0) : Num A) = .fin 0 := by
      have : Num.round A (1 / 2 : ℝ) = .fin (rn (1 / 2)) := small (by norm_num [abs_of_pos])
      rw [z, Num.fin_div two_ne_zero, this, stay]
    show (West.addPair (West.addPair (West.addPair West.new (Num.fin 0, Num.fin 1)) (Num.fin 0, Num.fin 1)) (Num.fin 5, Num.fin 1)).mean = _
    rw [st, st, st]
    unfold West.addCore West.new
    dsimp only
    rw [Num.zero_eq, w1, m1, w2, m2, w3, Num.fin_sub, sub_zero, r5, Num.fin_div three_ne_zero, q13, Num.fin_mul, q5, Num.fin_add, zero_add, d6]

/-- The hypotheses of the exact claim are met: weights 2, after a reset. -/
example (hA : A.IsExact) : (runOps West.addPair West.reset (West.new : West (Num A))
      [.add (.fin 9, .fin 1), .reset, .add (.fin 1, .fin 2), .add (.fin 4, .fin 2)]).populationVariance =
    (runOps KnuthWelford.addCore KnuthWelford.reset (KnuthWelford.new : KnuthWelford (Num A)) [.add (.fin 1), .add (.fin 4)]).variance false :=
  (C199_exact_partial hA two_pos _ _ [1, 4] rfl rfl (by norm_num) _ _ rfl rfl).2.2.1

/-- The hypotheses of the bound are met. -/
example : (0 : ℝ) < 1 ∧ Double (1 : ℝ) ∧ (3 : ℝ) * 1 ≤ (2 : ℝ) ^ (128 : Int) ∧ (5 : ℝ) ≤ (2 : ℝ) ^ (400 : Int) ∧
    ∀ x ∈ ([0, 0, 5] : List ℝ), Double x ∧ |x| ≤ 5 := by
  have big : ∀ n : Nat, 3 ≤ n → (8 : ℝ) ≤ (2 : ℝ) ^ (n : Int) := fun n hn => by
    calc (8 : ℝ) = 2 ^ (3 : Int) := by norm_num
      _ ≤ _ := zpow_le_zpow_right₀ one_le_two (by exact_mod_cast hn)
  have b1 := big 128 (by norm_num)
  have b2 := big 400 (by norm_num)
  refine ⟨one_pos, ⟨1, 0, by norm_num, by norm_num, by norm_num⟩, le_trans (by norm_num) b1, le_trans (by norm_num) b2, ?_⟩
  intro x hx
  simp only [List.mem_cons, List.not_mem_nil, or_false] at hx
  rcases hx with rfl | rfl | rfl
  · exact ⟨⟨0, 0, by norm_num, by norm_num, by norm_num⟩, by norm_num⟩
  · exact ⟨⟨0, 0, by norm_num, by norm_num, by norm_num⟩, by norm_num⟩
  · exact ⟨⟨5, 0, by norm_num, by norm_num, by norm_num⟩, by norm_num⟩

end
end Bwsl
