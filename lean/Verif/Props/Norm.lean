import Verif.Model.MathFloat
import Verif.Lemmas.NumOrder
import Verif.Lemmas.Round
import Verif.Lemmas.Nearest
import Mathlib.Analysis.Real.Sqrt
import Mathlib.Tactic.Linarith
import Mathlib.Tactic.Ring

/-! Properties C98–C100: step functions, norms, and sums of `long`s. -/

namespace Bwsl
open Spec

set_option linter.unusedSectionVars false

/-! ### C98: step functions -/

section
variable {K : Type} [Field K] [LinearOrder K] [IsStrictOrderedRing K] {A : Arith K}

/-- C98.  `heaviside` is 1 from zero on and 0 before; NaN gives 0. -/
theorem C98_heaviside (h1 : A.rnd 1 = some 1) (x : K) :
    heaviside (.fin x : Num A) = .fin (if 0 ≤ x then 1 else 0) ∧
    heaviside (.inf false : Num A) = .fin 1 ∧ heaviside (.inf true : Num A) = .fin 0 ∧ heaviside (.nan : Num A) = .fin 0 := by
  have e : (CxxFloat.lit 1 : Num A) = .fin 1 := by rw [Num.lit_eq]; exact Num.round_of (by simpa using h1)
  unfold heaviside
  simp only [e, Num.zero_eq, Num.le_fin, Num.le_fin_inf, Num.le_nan_right, decide_eq_true_eq]
  refine ⟨?_, rfl, rfl, rfl⟩
  split <;> rfl

/-- C98.  `heaviside2` is 1/2 at zero, 1 after and 0 before; NaN gives 0. -/
theorem C98_heaviside2 (h1 : A.rnd 1 = some 1) (h2 : A.rnd (1 / 2) = some (1 / 2)) (x : K) :
    heaviside2 (.fin x : Num A) = .fin (if x = 0 then 1 / 2 else if 0 < x then 1 else 0) ∧
    heaviside2 (.inf false : Num A) = .fin 1 ∧ heaviside2 (.inf true : Num A) = .fin 0 ∧
    heaviside2 (.nan : Num A) = .fin 0 := by
  have e : (CxxFloat.lit 1 : Num A) = .fin 1 := by rw [Num.lit_eq]; exact Num.round_of (by simpa using h1)
  have e' : (CxxFloat.lit (1 / 2) : Num A) = .fin (1 / 2) := by
    rw [Num.lit_eq]; exact Num.round_of (by simpa using h2)
  unfold heaviside2
  rw [e, e', Num.zero_eq]
  refine ⟨?_, rfl, rfl, rfl⟩
  simp only [Num.eq_fin, Num.lt_fin, decide_eq_true_eq]
  split
  · rfl
  · split <;> rfl

/-- C98.  Reflection: the values at `x` and `-x` add up to 1, at every `x` for `heaviside2` and at every `x ≠ 0` for
`heaviside`. -/
theorem C98_reflection (h0 : A.rnd 1 = some 1) (h1 : A.rnd (1 / 2) = some (1 / 2)) (x : K) :
    heaviside2 (.fin x : Num A) + heaviside2 (-.fin x : Num A) = .fin 1 ∧
    (x ≠ 0 → heaviside (.fin x : Num A) + heaviside (-.fin x : Num A) = .fin 1) := by
  rw [Num.fin_neg, (C98_heaviside2 h0 h1 x).1, (C98_heaviside2 h0 h1 (-x)).1, (C98_heaviside h0 x).1,
    (C98_heaviside h0 (-x)).1, Num.fin_add, Num.fin_add]
  refine ⟨Num.round_of ?_, fun hx => Num.round_of ?_⟩
  · rcases lt_trichotomy x 0 with h | rfl | h
    · rw [if_neg h.ne, if_neg (not_lt.2 h.le), if_neg (by simpa using h.ne), if_pos (by linarith), zero_add]; exact h0
    · rw [if_pos rfl, if_pos neg_zero, add_halves]; exact h0
    · rw [if_neg h.ne', if_pos h, if_neg (by simpa using h.ne'), if_neg (by linarith), add_zero]; exact h0
  · rcases lt_or_gt_of_ne hx with h | h
    · rw [if_neg (by linarith), if_pos (by linarith), zero_add]; exact h0
    · rw [if_pos h.le, if_neg (by linarith), add_zero]; exact h0

/-- The hypotheses hold in binary64 and in exact arithmetic. -/
theorem rnd_one_half [FloorRing K] (hA : A.IsBinary64) : A.rnd 1 = some 1 ∧ A.rnd (1 / 2) = some (1 / 2) := by
  constructor
  · exact rnd_of_double hA ⟨1, 0, by norm_num, by norm_num, by simp⟩ (by simpa using int_lt_huge (K := K) (n := 1) (by norm_num))
  · refine rnd_of_double hA ⟨1, -1, by norm_num, by norm_num, by simp [zpow_neg]⟩ ?_
    refine lt_trans ?_ (by simpa using int_lt_huge (K := K) (n := 1) (by norm_num))
    rw [abs_of_pos (by norm_num)]; norm_num
example : A.IsExact → A.rnd 1 = some 1 ∧ A.rnd (1 / 2) = some (1 / 2) := fun h => ⟨h _, h _⟩

end

/-! ### C100: sums and products of `long`s -/

open Classical in
/-- A fold of an exact operation is defined exactly when all intermediate results are `long`s. -/
theorem foldLong_spec (op : Int → Int → Int) (acc : Int) (v : List Int) :
    foldLong (fun a x => long (op a x)) acc v =
      if ∀ p, p <+: v → p ≠ [] → InLong (p.foldl op acc) then .ok (v.foldl op acc) else .ub .signedOverflow := by
  induction v generalizing acc with
  | nil =>
    rw [if_pos]
    · rfl
    · intro p h1 h2; exact absurd (List.prefix_nil.1 h1) h2
  | cons x xs ih =>
    rw [foldLong]
    by_cases h1 : InLong (op acc x)
    · rw [long_ok h1, Res.ok_bind, ih]
      refine if_congr ?_ rfl rfl
      constructor
      · intro h p hp hne
        cases p with
        | nil => exact absurd rfl hne
        | cons y ys =>
          obtain ⟨rfl, hp'⟩ := List.cons_prefix_cons.1 hp
          by_cases hy : ys = []
          · subst hy; exact h1
          · exact h ys hp' hy
      · intro h p hp hne
        exact h (x :: p) (List.cons_prefix_cons.2 ⟨rfl, hp⟩) (by simp)
    · rw [if_neg (fun h => h1 (h [x] (by simp) (by simp)))]
      unfold long
      rw [if_neg h1]
      rfl

theorem foldl_mul_eq (acc : Int) (v : List Int) : v.foldl (· * ·) acc = acc * v.prod := by
  induction v generalizing acc with
  | nil => simp
  | cons x xs ih => rw [List.foldl_cons, ih, List.prod_cons, mul_assoc]
theorem foldl_add_eq (acc : Int) (v : List Int) : v.foldl (· + ·) acc = acc + v.sum := by
  induction v generalizing acc with
  | nil => simp
  | cons x xs ih => rw [List.foldl_cons, ih, List.sum_cons, add_assoc]

open Classical in
/-- C100.  `accumulate_sum` of `long`s is the exact sum if all sums of leading elements are `long`s, and overflows
otherwise. -/
theorem C100_sum (v : List Int) :
    accumulateSumL v = if ∀ p, p <+: v → InLong p.sum then .ok v.sum else .ub .signedOverflow := by
  have h0 : InLong 0 := by comega
  refine (foldLong_spec (· + ·) 0 v).trans ?_
  simp only [foldl_add_eq, zero_add]
  refine if_congr ⟨fun h p hp => ?_, fun h p hp _ => h p hp⟩ rfl rfl
  by_cases hne : p = []
  · subst hne; simpa using h0
  · exact h p hp hne

open Classical in
/-- C100.  The same for `accumulate_product`. -/
theorem C100_product (v : List Int) :
    accumulateProductL v = if ∀ p, p <+: v → InLong p.prod then .ok v.prod else .ub .signedOverflow := by
  have h1 : InLong 1 := by comega
  refine (foldLong_spec (· * ·) 1 v).trans ?_
  simp only [foldl_mul_eq, one_mul]
  refine if_congr ⟨fun h p hp => ?_, fun h p hp _ => h p hp⟩ rfl rfl
  by_cases hne : p = []
  · subst hne; simpa using h1
  · exact h p hp hne

/-- C100.  Whether the sum is defined depends on the order of the elements, in contrast to `size_t` (C25); its value does
not. -/
theorem C100_order :
    (∀ v w : List Int, v.Perm w → ∀ s t, accumulateSumL v = .ok s → accumulateSumL w = .ok t → s = t) ∧
    accumulateSumL [1, -1, 2 ^ 63 - 1] = .ok (2 ^ 63 - 1) ∧ accumulateSumL [2 ^ 63 - 1, 1, -1] = .ub .signedOverflow := by
  refine ⟨fun v w h s t hs ht => ?_, by decide, by decide⟩
  rw [C100_sum] at hs ht
  split at hs
  · split at ht
    · cases hs; cases ht; exact h.sum_eq
    · cases ht
  · cases hs

theorem squares_nonneg (v : List Int) : 0 ≤ (v.map (· ^ 2)).sum :=
  List.sum_nonneg (fun x hx => by obtain ⟨y, -, rfl⟩ := List.mem_map.1 hx; exact sq_nonneg y)

theorem foldLong_squares (acc : Int) (h0 : 0 ≤ acc) (ha : InLong acc) (v : List Int) :
    foldLong (fun d x => do let y ← squareL x; ladd d y) acc v =
      if InLong (acc + (v.map (· ^ 2)).sum) then .ok (acc + (v.map (· ^ 2)).sum) else .ub .signedOverflow := by
  induction v generalizing acc with
  | nil => simp [foldLong, ha]
  | cons x xs ih =>
    have hn := squares_nonneg xs
    have hx : 0 ≤ x ^ 2 := sq_nonneg x
    have e : x * x = x ^ 2 := (sq x).symm
    rw [foldLong, List.map_cons, List.sum_cons]
    unfold squareL lmul ladd at *
    rw [e]
    by_cases h1 : InLong (x ^ 2)
    · by_cases h2 : InLong (acc + x ^ 2)
      · rw [long_ok h1, Res.ok_bind, long_ok h2, Res.ok_bind, ih _ (by omega) h2, add_assoc]
      · rw [long_ok h1, Res.ok_bind, if_neg (by comega)]
        unfold long
        rw [if_neg h2]
        rfl
    · rw [if_neg (by comega)]
      unfold long
      rw [if_neg h1]
      rfl

/-- C100.  `sum_squared` of `long`s is exact if the sum of squares is a `long` and overflows otherwise, in any order. -/
theorem C100_squares (v : List Int) :
    sumSquaredL v = if InLong (v.map (· ^ 2)).sum then .ok (v.map (· ^ 2)).sum else .ub .signedOverflow := by
  have := foldLong_squares 0 le_rfl (by comega) v
  rwa [zero_add] at this

/-! ### C99: the norm, in exact arithmetic -/

section
variable {A : Arith ℝ}

theorem foldl_squares (hA : A.IsExact) (acc : ℝ) (v : List ℝ) :
    (v.map .fin).foldl (fun d (x : Num A) => d + squareF x) (.fin acc) = .fin (acc + (v.map (fun x => x * x)).sum) := by
  induction v generalizing acc with
  | nil => simp
  | cons x xs ih =>
    rw [List.map_cons, List.foldl_cons, squareF, Num.fin_mul, Num.round_exact hA, Num.fin_add, Num.round_exact hA, ih,
      List.map_cons, List.sum_cons, add_assoc]

/-- C99.  `sum_squared` is the sum of squares and `l2norm` the Euclidean length. -/
theorem C99_value (hA : A.IsReal) (v : List ℝ) :
    sumSquared (v.map .fin : List (Num A)) = .fin (v.map (fun x => x * x)).sum ∧
    l2norm (v.map .fin : List (Num A)) = .fin (Spec.length v) := by
  have h0 : (CxxFloat.ofInt 0 : Num A) = .fin 0 := by rw [Num.ofInt_eq, Num.round_exact hA.exact]; simp
  have hn : 0 ≤ (v.map (fun x => x * x)).sum :=
    List.sum_nonneg (fun x hx => by obtain ⟨y, -, rfl⟩ := List.mem_map.1 hx; exact mul_self_nonneg y)
  unfold sumSquared l2norm
  rw [h0, Num.zero_eq, foldl_squares hA.exact, zero_add]
  exact ⟨rfl, real_sqrt hA hn⟩

/-- C99.  `l2norm` is a norm: definite, homogeneous and subadditive. -/
theorem C99_norm (hA : A.IsReal) (v w : List ℝ) (hl : v.length = w.length) (c : ℝ) :
    ∃ n m s k : ℝ, l2norm (v.map .fin : List (Num A)) = .fin n ∧ l2norm (w.map .fin : List (Num A)) = .fin m ∧
      l2norm ((List.zipWith (· + ·) v w).map .fin : List (Num A)) = .fin s ∧
      l2norm ((v.map (c * ·)).map .fin : List (Num A)) = .fin k ∧
      0 ≤ n ∧ (n = 0 ↔ ∀ x ∈ v, x = 0) ∧ s ≤ n + m ∧ k = |c| * n := by
  refine ⟨_, _, _, _, (C99_value hA v).2, (C99_value hA w).2, (C99_value hA _).2, (C99_value hA _).2, Real.sqrt_nonneg _,
    ⟨fun h => length_eq_zero h, fun h => ?_⟩, length_add_le hl, ?_⟩
  · unfold Spec.length
    rw [List.sum_eq_zero, Real.sqrt_zero]
    intro x hx
    obtain ⟨y, hy, rfl⟩ := List.mem_map.1 hx
    rw [h y hy, mul_zero]
  · unfold Spec.length
    rw [List.map_map, ← Real.sqrt_sq_eq_abs, ← Real.sqrt_mul (sq_nonneg c), ← List.sum_map_mul_left]
    congr 2
    refine List.map_congr_left (fun x _ => ?_)
    simp only [Function.comp]
    ring

/-- C99.  The norm does not depend on the order of the components. -/
theorem C99_order (hA : A.IsReal) (v w : List ℝ) (h : v.Perm w) :
    l2norm (v.map .fin : List (Num A)) = l2norm (w.map .fin : List (Num A)) := by
  rw [(C99_value hA v).2, (C99_value hA w).2]
  unfold Spec.length
  rw [(h.map _).sum_eq]

end

/-! ### C99: the norm, in binary64 -/

/-- The square root of the rounded square of a `double` rounds to the `double`. -/
theorem rn_sqrt_square {x : ℝ} (hx : Double x) (h0 : (2 : ℝ) ^ (-511 : Int) ≤ x) : rn √(rn (x * x)) = x := by
  have hp : 0 < x := lt_of_lt_of_le (two_zpow_pos _) h0
  obtain ⟨u, hu⟩ : ∃ u, u = ulpExp x := ⟨_, rfl⟩
  have hlog : (-511 : Int) ≤ Int.log 2 |x| := by
    rw [abs_of_pos hp]
    have := (Int.zpow_le_iff_le_log (R := ℝ) (b := 2) (x := -511) (by norm_num) hp).1 (by exact_mod_cast h0)
    exact this
  have hu1 : -563 ≤ u := by rw [hu]; unfold ulpExp; omega
  have hlo : (2 : ℝ) ^ (u + 52) ≤ x := by
    have h := Int.zpow_log_le_self (R := ℝ) (b := 2) (by norm_num) (abs_pos.2 hp.ne')
    rw [abs_of_pos hp] at h
    push_cast at h
    refine le_trans (zpow_le_zpow_right₀ one_le_two ?_) h
    rw [hu, ulpExp, abs_of_pos hp]
    rw [abs_of_pos hp] at hlog
    omega
  have hhi : x < (2 : ℝ) ^ (u + 53) := by
    have := abs_lt_ulp x
    rwa [abs_of_pos hp, ← hu] at this
  -- the rounded square
  have hq : (2 : ℝ) ^ (2 * u + 104) ≤ x * x := by
    rw [show 2 * u + 104 = (u + 52) + (u + 52) by ring, zpow_add₀ two_ne_zero]
    exact mul_le_mul hlo hlo (two_zpow_pos _).le hp.le
  have hdq : Double ((2 : ℝ) ^ (2 * u + 104)) := ⟨1, 2 * u + 104, by norm_num, by omega, by simp⟩
  have hs : (2 : ℝ) ^ (2 * u + 104) ≤ rn (x * x) := by
    have := rn_mono hq
    rwa [rn_double hdq] at this
  have hy : (2 : ℝ) ^ (u + 52) ≤ √(rn (x * x)) := by
    refine Real.le_sqrt_of_sq_le ?_
    rw [← zpow_natCast, ← zpow_mul]
    refine le_trans (le_of_eq ?_) hs
    congr 1
    push_cast
    ring
  have herr : |x * x - rn (x * x)| ≤ (2 : ℝ) ^ (2 * u + 52) := by
    refine (rn_err_ulp (x * x)).trans ?_
    have hne : x * x ≠ 0 := (mul_pos hp hp).ne'
    have h1 : ulpExp (x * x) ≤ 2 * u + 53 := by
      have h2 : x * x < (2 : ℝ) ^ (2 * u + 106) := by
        rw [show 2 * u + 106 = (u + 53) + (u + 53) by ring, zpow_add₀ two_ne_zero]
        exact mul_lt_mul'' hhi hhi hp.le hp.le
      have h3 : Int.log 2 |x * x| < 2 * u + 106 := by
        rw [abs_of_pos (mul_pos hp hp)]
        exact (Int.lt_zpow_iff_log_lt (R := ℝ) (b := 2) (by norm_num) (mul_pos hp hp)).1 (by exact_mod_cast h2)
      unfold ulpExp
      omega
    rw [div_le_iff₀ two_pos, ← zpow_add_one₀ two_ne_zero]
    exact zpow_le_zpow_right₀ one_le_two (by omega)
  -- its root is close to x
  have hclose : |√(rn (x * x)) - x| < (2 : ℝ) ^ (u - 1) := by
    rcases hlo.eq_or_lt with he | hlt
    · have : rn (x * x) = x * x := by
        refine rn_double ?_
        rw [← he, ← zpow_add₀ two_ne_zero]
        exact ⟨1, u + 52 + (u + 52), by norm_num, by omega, by simp⟩
      rw [this, Real.sqrt_mul_self hp.le, sub_self, abs_zero]
      exact two_zpow_pos _
    · have hsn : 0 ≤ rn (x * x) := (two_zpow_pos _).le.trans hs
      have hden : (2 : ℝ) ^ (u + 53) < √(rn (x * x)) + x := by
        rw [show u + 53 = (u + 52) + 1 by ring, zpow_add_one₀ two_ne_zero]
        linarith
      have hpos : 0 < √(rn (x * x)) + x := lt_trans (two_zpow_pos _) hden
      have hprod : |√(rn (x * x)) - x| * (√(rn (x * x)) + x) ≤ (2 : ℝ) ^ (2 * u + 52) := by
        rw [← abs_of_pos hpos, ← abs_mul]
        have : (√(rn (x * x)) - x) * (√(rn (x * x)) + x) = rn (x * x) - x * x := by
          have := Real.mul_self_sqrt hsn
          linear_combination this
        rw [this, abs_sub_comm]
        exact herr
      by_contra hc
      push Not at hc
      have h5 : (2 : ℝ) ^ (u - 1) * (2 : ℝ) ^ (u + 53) < |√(rn (x * x)) - x| * (√(rn (x * x)) + x) :=
        mul_lt_mul' hc hden (two_zpow_pos _).le (lt_of_lt_of_le (two_zpow_pos _) hc)
      rw [← zpow_add₀ two_ne_zero, show u - 1 + (u + 53) = 2 * u + 52 by ring] at h5
      exact absurd h5 (not_lt.2 hprod)
  -- and therefore rounds to x
  obtain ⟨y, hyd⟩ : ∃ y, y = √(rn (x * x)) := ⟨_, rfl⟩
  rw [← hyd] at hy hclose ⊢
  have hz : (2 : ℝ) ^ (u + 52) ≤ rn y := by
    have := rn_mono hy
    rwa [rn_double ⟨1, u + 52, by norm_num, by omega, by simp⟩] at this
  have hzu : u ≤ ulpExp (rn y) := by
    have hzp : 0 < rn y := lt_of_lt_of_le (two_zpow_pos _) hz
    have : u + 52 ≤ Int.log 2 |rn y| := by
      rw [abs_of_pos hzp]
      exact (Int.zpow_le_iff_le_log (R := ℝ) (b := 2) (by norm_num) hzp).1 (by exact_mod_cast hz)
    unfold ulpExp
    omega
  have hzm : Mult u (rn y) := (double_mult_ulp (rn_isDouble y)).mono hzu
  have hxm : Mult u x := by rw [hu]; exact double_mult_ulp hx
  have hn := rn_nearest y x hx
  have hd : |rn y - x| < (2 : ℝ) ^ u := by
    have h1 : |rn y - x| ≤ |y - rn y| + |y - x| := by
      rw [abs_sub_comm y (rn y)]
      exact abs_sub_le _ _ _
    have h2 : (2 : ℝ) ^ u = 2 * (2 : ℝ) ^ (u - 1) := by
      rw [← zpow_one_add₀ two_ne_zero]; congr 1; ring
    linarith
  obtain ⟨k, hk⟩ := hzm.sub hxm
  rw [hk, abs_mul, abs_of_pos (two_zpow_pos (K := ℝ) u)] at hd
  have hk0 : |(k : ℝ)| < 1 := by
    by_contra hc
    push Not at hc
    nlinarith [two_zpow_pos (K := ℝ) u]
  have : k = 0 := by
    have : |k| < 1 := by exact_mod_cast hk0
    exact Int.abs_lt_one_iff.1 this
  rw [this] at hk
  have : rn y - x = 0 := by rw [hk]; simp
  linarith

/-- Values that cannot be reached by any nonzero `double` round to zero. -/
theorem rn_tiny {x : ℝ} (h : |x| < (2 : ℝ) ^ (-1075 : Int)) : rn x = 0 := by
  have h1 := rn_nearest x 0 ⟨0, 0, by norm_num, by norm_num, by simp⟩
  rw [sub_zero] at h1
  have h2 : |rn x| ≤ |x - rn x| + |x| := by
    have := abs_sub_le (rn x) x 0
    rw [sub_zero, sub_zero, abs_sub_comm] at this
    exact this
  have h3 : (2 : ℝ) ^ (-1074 : Int) = 2 * (2 : ℝ) ^ (-1075 : Int) := by
    rw [← zpow_one_add₀ two_ne_zero]; norm_num
  obtain ⟨k, hk⟩ := (rn_mult_ulp x).mono (ulpExp_ge x)
  have h4 : |rn x| < (2 : ℝ) ^ (-1074 : Int) := by linarith
  have hp := two_zpow_pos (K := ℝ) (-1074)
  rw [hk, abs_mul, abs_of_pos hp] at h4
  have hk0 : |(k : ℝ)| < 1 := by
    by_contra hc
    push Not at hc
    nlinarith
  have : k = 0 := Int.abs_lt_one_iff.1 (by exact_mod_cast hk0)
  rw [hk, this]; simp

section
variable {A : Arith ℝ}

/-- Rounding in binary64, for nonnegative values. -/
theorem round64 (hA : A.IsBinary64) {x : ℝ} (hx : 0 ≤ x) :
    Num.round A x = if rn x < (2 : ℝ) ^ (1024 : Int) then .fin (rn x) else .inf false := by
  have h0 : 0 ≤ rn x := by simpa [rn_zero] using rn_mono hx
  unfold Num.round
  rw [hA, rnd64, abs_of_nonneg h0]
  by_cases h : rn x < (2 : ℝ) ^ (1024 : Int)
  · rw [if_pos h, if_pos h]
  · rw [if_neg h, if_neg h, decide_eq_false (not_lt.2 hx)]

/-- A nonnegative `double`, or +∞. -/
def Num.NonNeg (d : Num A) : Prop := d = .inf false ∨ ∃ r, d = .fin r ∧ Double r ∧ 0 ≤ r

theorem nonneg_round (hA : A.IsBinary64) {x : ℝ} (hx : 0 ≤ x) : (Num.round A x).NonNeg := by
  rw [round64 hA hx]
  split
  · exact .inr ⟨_, rfl, rn_isDouble _, by simpa [rn_zero] using rn_mono hx⟩
  · exact .inl rfl

/-- Sums of nonnegative values are nonnegative and not below the summands. -/
theorem nonneg_add_le (hA : A.IsBinary64) {d e : Num A} (hd : d.NonNeg) (he : e.NonNeg) :
    (d + e).NonNeg ∧ CxxFloat.le d (d + e) = true ∧ CxxFloat.le e (d + e) = true := by
  rcases hd with rfl | ⟨r, rfl, hr, hr0⟩
  · have : (.inf false + e : Num A) = .inf false := by
      rcases he with rfl | ⟨q, rfl, -, -⟩
      · rfl
      · rfl
    rw [this]
    refine ⟨.inl rfl, by rw [Num.le_inf_inf]; rfl, ?_⟩
    rcases he with rfl | ⟨q, rfl, -, -⟩
    · rw [Num.le_inf_inf]; rfl
    · rw [Num.le_fin_inf]; rfl
  · rcases he with rfl | ⟨q, rfl, hq, hq0⟩
    · have : (.fin r + .inf false : Num A) = .inf false := rfl
      rw [this]
      exact ⟨.inl rfl, by rw [Num.le_fin_inf]; rfl, by rw [Num.le_inf_inf]; rfl⟩
    · rw [Num.fin_add]
      refine ⟨nonneg_round hA (by positivity), ?_⟩
      rw [round64 hA (by positivity)]
      split
      · rw [Num.le_fin, Num.le_fin]
        constructor
        · have := rn_mono (show r ≤ r + q by linarith)
          rw [rn_double hr] at this
          exact decide_eq_true this
        · have := rn_mono (show q ≤ r + q by linarith)
          rw [rn_double hq] at this
          exact decide_eq_true this
      · exact ⟨by rw [Num.le_fin_inf]; rfl, by rw [Num.le_fin_inf]; rfl⟩

theorem nonneg_squares (hA : A.IsBinary64) (d : Num A) (hd : d.NonNeg) (v : List ℝ) :
    ((v.map .fin).foldl (fun d (x : Num A) => d + squareF x) d).NonNeg ∧
    CxxFloat.le d ((v.map .fin).foldl (fun d (x : Num A) => d + squareF x) d) = true ∧
    ∀ x ∈ v, CxxFloat.le (Num.round A (x * x)) ((v.map .fin).foldl (fun d (x : Num A) => d + squareF x) d) = true := by
  induction v generalizing d with
  | nil =>
    refine ⟨hd, ?_, by simp⟩
    rcases hd with rfl | ⟨r, rfl, -, -⟩
    · rw [List.map_nil, List.foldl_nil, Num.le_inf_inf]; rfl
    · rw [List.map_nil, List.foldl_nil, Num.le_fin]; exact decide_eq_true le_rfl
  | cons y ys ih =>
    rw [List.map_cons, List.foldl_cons, squareF, Num.fin_mul]
    obtain ⟨h1, h2, h3⟩ := nonneg_add_le hA hd (nonneg_round hA (mul_self_nonneg y))
    obtain ⟨i1, i2, i3⟩ := ih _ h1
    refine ⟨i1, Num.le_trans' h2 i2, fun x hx => ?_⟩
    rcases List.mem_cons.1 hx with rfl | hx
    · exact Num.le_trans' h3 i2
    · exact i3 x hx

/-- `sqrt` of nonnegative values, in binary64. -/
theorem nonneg_sqrt (hA : A.IsBinary64) (hS : A.sqrt = Real.sqrt) {d : Num A} (hd : d.NonNeg) :
    (CxxFloat.sqrt d).NonNeg := by
  rcases hd with rfl | ⟨r, rfl, -, h0⟩
  · exact .inl rfl
  · rw [Num.sqrt_fin h0, hS]
    exact nonneg_round hA (Real.sqrt_nonneg _)

/-- `sqrt` is monotone, in binary64. -/
theorem mono_sqrt (hA : A.IsBinary64) (hS : A.sqrt = Real.sqrt) {d e : Num A} (hd : d.NonNeg) (he : e.NonNeg)
    (h : CxxFloat.le d e = true) : CxxFloat.le (CxxFloat.sqrt d) (CxxFloat.sqrt e) = true := by
  rcases he with rfl | ⟨q, rfl, -, hq⟩
  · have : CxxFloat.sqrt (.inf false : Num A) = .inf false := rfl
    rw [this]
    rcases nonneg_sqrt hA hS hd with h' | ⟨r, h', -, -⟩
    · rw [h', Num.le_inf_inf]; rfl
    · rw [h', Num.le_fin_inf]; rfl
  · rcases hd with rfl | ⟨r, rfl, -, hr⟩
    · rw [Num.le_inf_fin] at h; cases h
    · rw [Num.le_fin] at h
      rw [Num.sqrt_fin hr, Num.sqrt_fin hq, hS]
      exact mono_of_binary64 hA _ _ (Real.sqrt_le_sqrt (of_decide_eq_true h))

theorem zero_nonneg : (CxxFloat.zero : Num A).NonNeg := by
  rw [Num.zero_eq]
  exact .inr ⟨0, rfl, ⟨0, 0, by norm_num, by norm_num, by simp⟩, le_rfl⟩

/-- C99.  In binary64 the norm of finite numbers is never NaN and never negative. -/
theorem C99_nonneg (hA : A.IsBinary64) (hS : A.sqrt = Real.sqrt) (v : List ℝ) :
    l2norm (v.map .fin : List (Num A)) = .inf false ∨
    ∃ r, l2norm (v.map .fin : List (Num A)) = .fin r ∧ Double r ∧ 0 ≤ r :=
  nonneg_sqrt hA hS (nonneg_squares hA _ zero_nonneg v).1

theorem sqrt_round_square (hA : A.IsBinary64) (hS : A.sqrt = Real.sqrt) {x : ℝ} (hx : Double x)
    (h1 : (2 : ℝ) ^ (-511 : Int) ≤ |x|) (h2 : |x| < (2 : ℝ) ^ (1024 : Int)) :
    CxxFloat.le (.fin |x|) (CxxFloat.sqrt (Num.round A (x * x))) = true ∧
    (|x| ≤ (2 : ℝ) ^ (511 : Int) → CxxFloat.sqrt (Num.round A (x * x)) = .fin |x|) := by
  have hxa : Double |x| := by
    rcases abs_choice x with h | h <;> rw [h]
    · exact hx
    · obtain ⟨m, e, hm, he, rfl⟩ := hx
      exact ⟨-m, e, by rwa [abs_neg], he, by push_cast; ring⟩
  have hk := rn_sqrt_square hxa h1
  have hfin : rn (x * x) < (2 : ℝ) ^ (1024 : Int) → CxxFloat.sqrt (Num.round A (x * x)) = .fin |x| := by
    intro hlt
    rw [round64 hA (mul_self_nonneg x), if_pos hlt, Num.sqrt_fin (by simpa [rn_zero] using rn_mono (mul_self_nonneg x)), hS,
      round64 hA (Real.sqrt_nonneg _), ← abs_mul_abs_self x, hk, if_pos h2]
  constructor
  · by_cases hlt : rn (x * x) < (2 : ℝ) ^ (1024 : Int)
    · rw [hfin hlt, Num.le_fin]; exact decide_eq_true le_rfl
    · rw [round64 hA (mul_self_nonneg x), if_neg hlt]
      have : CxxFloat.sqrt (.inf false : Num A) = .inf false := rfl
      rw [this, Num.le_fin_inf]; rfl
  · intro h
    refine hfin ?_
    have h3 : x * x ≤ (2 : ℝ) ^ (1022 : Int) := by
      rw [← abs_mul_abs_self x, show (1022 : Int) = 511 + 511 by norm_num, zpow_add₀ two_ne_zero]
      exact mul_le_mul h h (abs_nonneg _) (two_zpow_pos _).le
    have h4 := rn_mono h3
    rw [rn_double (x := (2 : ℝ) ^ (1022 : Int)) ⟨1, 1022, by norm_num, by norm_num, by simp⟩] at h4
    exact lt_of_le_of_lt h4 (zpow_lt_zpow_right₀ one_lt_two (by norm_num))

/-- C99.  In binary64 the norm is not below any component of at least 2^-511. -/
theorem C99_component (hA : A.IsBinary64) (hS : A.sqrt = Real.sqrt) (v : List ℝ) (x : ℝ) (hx : x ∈ v) (hd : Double x)
    (h1 : (2 : ℝ) ^ (-511 : Int) ≤ |x|) (h2 : |x| < (2 : ℝ) ^ (1024 : Int)) :
    CxxFloat.le (.fin |x|) (l2norm (v.map .fin : List (Num A))) = true := by
  obtain ⟨i1, -, i3⟩ := nonneg_squares hA (CxxFloat.zero : Num A) zero_nonneg v
  exact Num.le_trans' (sqrt_round_square hA hS hd h1 h2).1
    (mono_sqrt hA hS (nonneg_round hA (mul_self_nonneg x)) i1 (i3 x hx))

/-- C99.  In binary64 the norm of a single component between 2^-511 and 2^511 is its absolute value. -/
theorem C99_single (hA : A.IsBinary64) (hS : A.sqrt = Real.sqrt) (x : ℝ) (hd : Double x)
    (h1 : (2 : ℝ) ^ (-511 : Int) ≤ |x|) (h2 : |x| ≤ (2 : ℝ) ^ (511 : Int)) :
    l2norm [(.fin x : Num A)] = .fin |x| := by
  have h3 := (sqrt_round_square hA hS hd h1
    (lt_of_le_of_lt h2 (zpow_lt_zpow_right₀ one_lt_two (by norm_num)))).2 h2
  have h4 : (CxxFloat.zero + squareF (.fin x) : Num A) = Num.round A (x * x) := by
    rw [squareF, Num.fin_mul, Num.zero_eq, round64 hA (mul_self_nonneg x)]
    split
    · next h =>
      rw [Num.fin_add, zero_add, round64 hA (by simpa [rn_zero] using rn_mono (mul_self_nonneg x)),
        rn_double (rn_isDouble _), if_pos h]
    · rfl
  unfold l2norm
  rw [List.foldl_cons, List.foldl_nil, h4, h3]

/-- C99.  Underflow and overflow: the norm of [2^-600] is computed as 0, that of [2^600] as +∞. -/
theorem C99_range (hA : A.IsBinary64) (hS : A.sqrt = Real.sqrt) :
    l2norm [(.fin ((2 : ℝ) ^ (-600 : Int)) : Num A)] = .fin 0 ∧
    l2norm [(.fin ((2 : ℝ) ^ (600 : Int)) : Num A)] = .inf false := by
  constructor
  · have h1 : Num.round A ((2 : ℝ) ^ (-600 : Int) * (2 : ℝ) ^ (-600 : Int)) = .fin 0 := by
      rw [round64 hA (mul_self_nonneg _), rn_tiny, if_pos (two_zpow_pos _)]
      rw [abs_of_nonneg (mul_self_nonneg _), ← zpow_add₀ two_ne_zero]
      exact zpow_lt_zpow_right₀ one_lt_two (by norm_num)
    have h2 : Num.round A (0 : ℝ) = .fin 0 := Num.round_of (rnd_zero_of_binary64 hA)
    unfold l2norm
    rw [List.foldl_cons, List.foldl_nil, squareF, Num.fin_mul, h1, Num.zero_eq, Num.fin_add, zero_add, h2,
      Num.sqrt_fin le_rfl, hS, Real.sqrt_zero, h2]
  · have h1 : Num.round A ((2 : ℝ) ^ (600 : Int) * (2 : ℝ) ^ (600 : Int)) = .inf false := by
      rw [round64 hA (mul_self_nonneg _), ← zpow_add₀ two_ne_zero, rn_double ⟨1, 600 + 600, by norm_num, by norm_num, by simp⟩,
        if_neg]
      rw [not_lt]
      exact zpow_le_zpow_right₀ one_le_two (by norm_num)
    unfold l2norm
    rw [List.foldl_cons, List.foldl_nil, squareF, Num.fin_mul, h1]
    rfl

theorem error_step {u r q z S t : ℝ} (hu : 0 ≤ u) (hu1 : u ≤ 1) (hS : 0 ≤ S)
    (q1 : (1 - u) * z ≤ q) (q2 : q ≤ (1 + u) * z) (t1 : (1 - u) * (r + q) ≤ t) (t2 : t ≤ (1 + u) * (r + q)) :
    (1 - u) * (r + (1 - u) * (z + S)) ≤ t + (1 - u) * S ∧ t + (1 + u) * S ≤ (1 + u) * (r + (1 + u) * (z + S)) := by
  have h1 : (1 - u) * ((1 - u) * z) ≤ (1 - u) * q := mul_le_mul_of_nonneg_left q1 (by linarith)
  have h2 : (1 + u) * q ≤ (1 + u) * ((1 + u) * z) := mul_le_mul_of_nonneg_left q2 (by linarith)
  have h3 : 0 ≤ u * ((1 - u) * S) := by have : 0 ≤ 1 - u := by linarith
                                        positivity
  have h4 : 0 ≤ u * ((1 + u) * S) := by positivity
  constructor <;> nlinarith

/-- The accumulated error of the sum of squares: u = 2^-53 per operation. -/
theorem squares_error (hA : A.IsBinary64) (r : ℝ) (hr : Double r) (h0 : 0 ≤ r) (v : List ℝ)
    (hv : ∀ x ∈ v, x = 0 ∨ (2 : ℝ) ^ (-511 : Int) ≤ |x|) (s : ℝ)
    (h : (v.map .fin).foldl (fun d (x : Num A) => d + squareF x) (.fin r) = .fin s) :
    (1 - 1 / 2 ^ 53) ^ v.length * (r + (1 - 1 / 2 ^ 53) * (v.map (fun x => x * x)).sum) ≤ s ∧
    s ≤ (1 + 1 / 2 ^ 53) ^ v.length * (r + (1 + 1 / 2 ^ 53) * (v.map (fun x => x * x)).sum) := by
  induction v generalizing r with
  | nil =>
    rw [List.map_nil, List.foldl_nil] at h
    cases h
    simp
  | cons y ys ih =>
    rw [List.map_cons, List.foldl_cons, squareF, Num.fin_mul] at h
    have hn : 0 ≤ rn (y * y) := by simpa [rn_zero] using rn_mono (mul_self_nonneg y)
    have hq : |y * y - rn (y * y)| ≤ y * y / 2 ^ 53 := by
      rcases hv y (by simp) with h' | h'
      · rw [h', mul_zero, rn_zero]; simp
      · have := rn_rel_normal (x := y * y) (by
          rw [abs_mul, show (-1022 : Int) = -511 + -511 by norm_num, zpow_add₀ two_ne_zero]
          exact mul_le_mul h' h' (two_zpow_pos _).le (abs_nonneg _))
        rwa [abs_of_nonneg (mul_self_nonneg y)] at this
    rw [round64 hA (mul_self_nonneg y)] at h
    have hinf : ∀ w : List ℝ, (w.map .fin).foldl (fun d (x : Num A) => d + squareF x) (.inf false) = .inf false := by
      intro w
      have := (nonneg_squares hA (.inf false : Num A) (.inl rfl) w).2.1
      rcases (nonneg_squares hA (.inf false : Num A) (.inl rfl) w).1 with h | ⟨t, h, -, -⟩
      · exact h
      · rw [h, Num.le_inf_fin] at this; cases this
    split at h
    · rw [Num.fin_add, round64 hA (by positivity)] at h
      split at h
      · have hsum := rn_rel (x := r + rn (y * y)) (hr.mult.add (rn_isDouble _).mult)
        rw [abs_of_nonneg (by positivity : 0 ≤ r + rn (y * y))] at hsum
        obtain ⟨i1, i2⟩ := ih (rn (r + rn (y * y))) (rn_isDouble _)
          (by simpa [rn_zero] using rn_mono (by positivity : 0 ≤ r + rn (y * y)))
          (fun x hx => hv x (List.mem_cons_of_mem _ hx)) h
        have hS : 0 ≤ (ys.map (fun x => x * x)).sum :=
          List.sum_nonneg (fun x hx => by obtain ⟨z, -, rfl⟩ := List.mem_map.1 hx; exact mul_self_nonneg z)
        rw [abs_le] at hsum hq
        rw [List.map_cons, List.sum_cons, List.length_cons]
        obtain ⟨S, hSd⟩ : ∃ S, S = (ys.map (fun x => x * x)).sum := ⟨_, rfl⟩
        obtain ⟨q, hqd⟩ : ∃ q, q = rn (y * y) := ⟨_, rfl⟩
        obtain ⟨t, htd⟩ : ∃ t, t = rn (r + q) := ⟨_, rfl⟩
        obtain ⟨z, hzd⟩ : ∃ z, z = y * y := ⟨_, rfl⟩
        have hz0 : 0 ≤ z := hzd ▸ mul_self_nonneg y
        rw [← hqd, ← htd, ← hSd] at i1 i2
        rw [← hqd] at hsum hn
        rw [← htd] at hsum
        rw [← hqd, ← hzd] at hq
        rw [← hSd] at hS
        rw [← hzd, ← hSd]
        have e := error_step (u := 1 / 2 ^ 53) (r := r) (q := q) (z := z) (S := S) (t := t) (by norm_num) (by norm_num) hS
          (by linarith [hq.2]) (by linarith [hq.1]) (by linarith [hsum.2]) (by linarith [hsum.1])
        rw [pow_succ (1 - 1 / 2 ^ 53 : ℝ), pow_succ (1 + 1 / 2 ^ 53 : ℝ), mul_assoc, mul_assoc ((1 + 1 / 2 ^ 53 : ℝ) ^ _)]
        exact ⟨le_trans (mul_le_mul_of_nonneg_left e.1 (pow_nonneg (by norm_num) _)) i1,
          le_trans i2 (mul_le_mul_of_nonneg_left e.2 (pow_nonneg (by norm_num) _))⟩
      · rw [hinf] at h; cases h
    · have : (.fin r + .inf false : Num A) = .inf false := rfl
      rw [this, hinf] at h; cases h

/-- C99.  In binary64 the square of the norm has a relative error of about (n+3)·2^-53, unless it overflows; the
components are zero or not below 2^-511. -/
theorem C99_error (hA : A.IsBinary64) (hS : A.sqrt = Real.sqrt) (v : List ℝ)
    (hv : ∀ x ∈ v, x = 0 ∨ (2 : ℝ) ^ (-511 : Int) ≤ |x|) (n : ℝ)
    (h : l2norm (v.map .fin : List (Num A)) = .fin n) :
    (1 - 1 / 2 ^ 53) ^ (v.length + 3) * (v.map (fun x => x * x)).sum ≤ n ^ 2 ∧
    n ^ 2 ≤ (1 + 1 / 2 ^ 53) ^ (v.length + 3) * (v.map (fun x => x * x)).sum := by
  obtain ⟨d, hd⟩ : ∃ d, d = (v.map .fin).foldl (fun d (x : Num A) => d + squareF x) CxxFloat.zero := ⟨_, rfl⟩
  have hnn := (nonneg_squares hA _ zero_nonneg v).1
  unfold l2norm at h
  rw [← hd] at hnn h
  rcases hnn with rfl | ⟨s, rfl, hs, hs0⟩
  · cases h
  rw [Num.sqrt_fin hs0, hS, round64 hA (Real.sqrt_nonneg _)] at h
  split at h
  swap
  · cases h
  cases h
  obtain ⟨e1, e2⟩ := squares_error hA 0 ⟨0, 0, by norm_num, by norm_num, by simp⟩ le_rfl v hv s (by rw [hd, Num.zero_eq])
  rw [zero_add, ← mul_assoc, ← pow_succ] at e1 e2
  have hr : |√s - rn √s| ≤ √s / 2 ^ 53 := by
    rcases hs0.eq_or_lt with h0 | h0
    · rw [← h0, Real.sqrt_zero, rn_zero]; simp
    · have h1 : (2 : ℝ) ^ (-1074 : Int) ≤ s := by
        obtain ⟨k, hk⟩ := hs.mult
        have hp := two_zpow_pos (K := ℝ) (-1074)
        have hk0 : 0 < k := by
          rw [hk] at h0
          exact_mod_cast (pos_iff_pos_of_mul_pos h0).2 hp
        rw [hk]
        exact le_mul_of_one_le_left hp.le (by exact_mod_cast hk0)
      have h2 : (2 : ℝ) ^ (-537 : Int) ≤ √s := by
        refine Real.le_sqrt_of_sq_le ?_
        rw [← zpow_natCast, ← zpow_mul]
        exact le_trans (le_of_eq (by norm_num)) h1
      have := rn_rel_normal (x := √s) (by
        rw [abs_of_nonneg (Real.sqrt_nonneg _)]
        exact le_trans (zpow_le_zpow_right₀ one_le_two (by norm_num)) h2)
      rwa [abs_of_nonneg (Real.sqrt_nonneg _)] at this
  rw [abs_le] at hr
  have hq := Real.sq_sqrt hs0
  have hz := Real.sqrt_nonneg s
  have hS0 : 0 ≤ (v.map (fun x => x * x)).sum :=
    List.sum_nonneg (fun x hx => by obtain ⟨z, -, rfl⟩ := List.mem_map.1 hx; exact mul_self_nonneg z)
  have b1 : (1 - 1 / 2 ^ 53) ^ 2 * s ≤ (rn √s) ^ 2 := by
    rw [← hq, ← mul_pow]
    rw [hq]
    exact pow_le_pow_left₀ (mul_nonneg (by norm_num) hz) (by linarith [hr.1, hr.2]) 2
  have b2 : (rn √s) ^ 2 ≤ (1 + 1 / 2 ^ 53) ^ 2 * s := by
    have hn0 : 0 ≤ rn √s := by simpa [rn_zero] using rn_mono hz
    calc (rn √s) ^ 2 ≤ ((1 + 1 / 2 ^ 53) * √s) ^ 2 := pow_le_pow_left₀ hn0 (by linarith [hr.1, hr.2]) 2
      _ = _ := by rw [mul_pow, hq]
  constructor
  · refine le_trans ?_ b1
    rw [show v.length + 3 = 2 + (v.length + 1) by ring, pow_add, mul_assoc]
    exact mul_le_mul_of_nonneg_left e1 (by positivity)
  · refine le_trans b2 ?_
    rw [show v.length + 3 = 2 + (v.length + 1) by ring, pow_add, mul_assoc]
    exact mul_le_mul_of_nonneg_left e2 (by positivity)

/-- C99.  The norm of `long`s whose squares add up to a perfect square of at most 2^53 is exact, in binary64 and in
exact arithmetic. -/
theorem C99_integers (hA : A.IsBinary64 ∨ A.IsExact) (hS : A.sqrt = Real.sqrt) (v : List Int) (n : Nat)
    (hn : (v.map (· ^ 2)).sum = (n : Int) ^ 2) (hb : n ^ 2 ≤ 2 ^ 53) :
    l2normL v = .ok (.fin n : Num A) := by
  have hb' : (n : Int) ^ 2 ≤ 2 ^ 53 := by exact_mod_cast hb
  have hn0 : (n : Int) ≤ 2 ^ 53 := by nlinarith [Int.natCast_nonneg n]
  have hsum : sumSquaredL v = .ok ((n : Int) ^ 2) := by
    rw [C100_squares, if_pos, hn]
    rw [hn]
    have := sq_nonneg (n : Int)
    comega
  have hr : ∀ m : Int, 0 ≤ m → m ≤ 2 ^ 53 → Num.round A (m : ℝ) = .fin (m : ℝ) := by
    intro m h0 h1
    rcases hA with hA | hA
    · exact Num.round_of (rnd_of_double hA (double_int (by rw [abs_of_nonneg h0]; exact h1)) (int_lt_huge (by rw [abs_of_nonneg h0]; exact h1)))
    · exact Num.round_exact hA _
  unfold l2normL
  rw [hsum, Res.ok_bind, Num.ofInt_eq, hr _ (by positivity) hb', Num.sqrt_fin (by positivity), hS]
  push_cast
  rw [Real.sqrt_sq (by positivity)]
  have := hr n (by positivity) hn0
  push_cast at this
  rw [this]

example : (([3, -4] : List Int).map (· ^ 2)).sum = ((5 : Nat) : Int) ^ 2 ∧ 5 ^ 2 ≤ 2 ^ 53 := by decide
example : Double (3 : ℝ) ∧ (2 : ℝ) ^ (-511 : Int) ≤ |(3 : ℝ)| ∧ |(3 : ℝ)| ≤ (2 : ℝ) ^ (511 : Int) := by
  refine ⟨⟨3, 0, by norm_num, by norm_num, by simp⟩, ?_, ?_⟩
  · rw [abs_of_pos (by norm_num)]
    exact le_trans (zpow_le_zpow_right₀ one_le_two (show (-511 : Int) ≤ 0 by norm_num)) (by norm_num)
  · rw [abs_of_pos (by norm_num)]
    exact le_trans (by norm_num) (zpow_le_zpow_right₀ one_le_two (show (2 : Int) ≤ 511 by norm_num))

end

end Bwsl
