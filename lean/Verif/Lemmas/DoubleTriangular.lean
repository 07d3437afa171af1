import Verif.Lemmas.Double
import Verif.Lemmas.IntegerLattice
import Verif.Props.Nearest

/-! The triangular lattice in binary64. -/

namespace Bwsl
open Spec

set_option linter.unusedSectionVars false

/-- `√3` rounded to binary64. -/
theorem rn_sqrt3 : rn √3 = (3900231685776981 : ℝ) / 2 ^ 51 := by
  have s3 : √3 * √3 = (3 : ℝ) := Real.mul_self_sqrt (by norm_num)
  have p : 0 ≤ √(3 : ℝ) := Real.sqrt_nonneg 3
  have l1 : (3900231685776981 : ℝ) / 2 ^ 51 ≤ √3 := by
    refine Real.le_sqrt_of_sq_le ?_
    norm_num
  have l2 : √3 < (3900231685776981 : ℝ) / 2 ^ 51 + 1 / 2 ^ 53 := by
    rw [Real.sqrt_lt' (by norm_num)]
    norm_num
  refine rn_eq_of_close (u := -52) ?_ ⟨7800463371553962, by norm_num⟩ ?_
  · rw [ulpExp_eq (k := 0) (by norm_num)]
    · norm_num
    · rw [abs_of_nonneg p]
      refine le_trans ?_ l1
      norm_num
    · rw [abs_of_nonneg p]
      refine l2.trans ?_
      norm_num
  · rw [abs_of_nonneg (by linarith)]
    have : (2 : ℝ) ^ (-52 : Int) / 2 = 1 / 2 ^ 53 := by norm_num
    rw [this]
    linarith

/-- The second component of the second primitive vector. -/
noncomputable def half3 : ℝ := rn √3 / 2

theorem half3_eq : half3 = (3900231685776981 : ℝ) / 2 ^ 52 := by
  unfold half3; rw [rn_sqrt3]; norm_num

theorem half3_double : Double half3 :=
  ⟨3900231685776981, -52, by norm_num, by norm_num, by rw [half3_eq]; norm_num⟩

theorem half3_bounds : (1 - 1 / 2 ^ 53) * (√3 / 2) ≤ half3 ∧ half3 ≤ (1 + 1 / 2 ^ 53) * (√3 / 2) := by
  have h1 : (1 : ℝ) ≤ √3 := by
    refine Real.le_sqrt_of_sq_le ?_
    norm_num
  have := rn_between (x := √3) (.inr (normal_of (by rw [abs_of_nonneg (by linarith)]; linarith))) (by linarith)
  unfold half3
  constructor <;> linarith [this.1, this.2]

/-- The square of the distance to a point, before the last rounding. -/
noncomputable def triSq (u v : Int) : ℝ := rn (rn (((u : ℝ) + v / 2) * ((u : ℝ) + v / 2)) + rn (rn (v * half3) * rn (v * half3)))

/-- The distance to a point, as `GetDistance` computes it. -/
noncomputable def triDist (u v : Int) : ℝ := rn √(triSq u v)

theorem hex_eq (u v : Int) : (hex u v : ℝ) = ((u : ℝ) + v / 2) ^ 2 + (v * (√3 / 2)) ^ 2 := by
  have s3 : √3 * √3 = (3 : ℝ) := Real.mul_self_sqrt (by norm_num)
  unfold hex
  push_cast
  linear_combination (-(v : ℝ) ^ 2 / 4) * s3

theorem int_zero_or {n : Int} : n = 0 ∨ (1 : ℝ) ≤ |(n : ℝ)| := by
  rcases eq_or_ne n 0 with h | h
  · exact .inl h
  · right
    rw [← Int.cast_abs]
    have : 1 ≤ |n| := Int.one_le_abs h
    exact_mod_cast this

theorem x_zero_or (u v : Int) : ((u : ℝ) + v / 2) = 0 ∨ 1 / 2 ≤ |(u : ℝ) + v / 2| := by
  have e : (u : ℝ) + v / 2 = ((2 * u + v : Int) : ℝ) / 2 := by push_cast; ring
  rw [e]
  rcases int_zero_or (n := 2 * u + v) with h | h
  · left; rw [h]; simp
  · right; rw [abs_div, abs_two]; linarith

theorem y_zero_or (v : Int) : (v * half3 : ℝ) = 0 ∨ 1 / 2 ≤ |(v * half3 : ℝ)| := by
  rcases int_zero_or (n := v) with h | h
  · left; rw [h]; simp
  · right
    rw [abs_mul]
    have : (1 : ℝ) / 2 ≤ |half3| := by rw [half3_eq, abs_of_nonneg (by norm_num)]; norm_num
    nlinarith

theorem rn_y_zero_or (v : Int) : rn (v * half3 : ℝ) = 0 ∨ 1 / 2 ≤ |rn (v * half3 : ℝ)| := by
  rcases y_zero_or v with h | h
  · left; rw [h, rn_zero]
  · right
    have d : Double (1 / 2 : ℝ) := ⟨1, -1, by norm_num, by norm_num, by norm_num⟩
    rcases le_abs.1 h with h | h
    · exact le_abs.2 (.inl (by have := rn_mono h; rwa [rn_double d] at this))
    · refine le_abs.2 (.inr ?_)
      have := rn_mono h
      rwa [rn_double d, rn_neg] at this

theorem sq_zero_or {x : ℝ} (h : x = 0 ∨ 1 / 2 ≤ |x|) : x * x = 0 ∨ (2 : ℝ) ^ (-1022 : Int) ≤ |x * x| := by
  rcases h with h | h
  · left; rw [h, mul_zero]
  · right
    refine normal_of ?_
    rw [abs_mul]
    nlinarith

theorem one_le_hex {u v : Int} (h : ¬ (u = 0 ∧ v = 0)) : 1 ≤ hex u v := by
  have h0 := hex_nonneg u v
  by_contra hc
  have : hex u v = 0 := by omega
  unfold hex at this
  have h1 : (2 * u + v) ^ 2 + 3 * v ^ 2 = 0 := by linear_combination 4 * this
  have hv : v = 0 := by
    by_contra hv
    have : 0 < v ^ 2 := by positivity
    nlinarith [sq_nonneg (2 * u + v)]
  subst hv
  have : u ^ 2 = 0 := by nlinarith
  exact h ⟨pow_eq_zero_iff (two_ne_zero) |>.1 this, rfl⟩

/-- The square of the computed distance, up to the last rounding, is accurate to six roundings. -/
theorem triSq_bounds (u v : Int) :
    (1 - 1 / 2 ^ 53) ^ 6 * (hex u v : ℝ) ≤ triSq u v ∧ triSq u v ≤ (1 + 1 / 2 ^ 53) ^ 6 * (hex u v : ℝ) := by
  rw [hex_eq]
  obtain ⟨x1, x2⟩ := rn_between (sq_zero_or (x_zero_or u v)) (mul_self_nonneg _)
  obtain ⟨y1, y2⟩ := rn_between (sq_zero_or (rn_y_zero_or v)) (mul_self_nonneg _)
  obtain ⟨z1, z2⟩ := rn_between_sq (x := v * half3) ((y_zero_or v).imp id (fun h => normal_of (by linarith)))
  obtain ⟨w1, w2⟩ := half3_bounds
  have s0 : 0 ≤ √(3 : ℝ) / 2 := by positivity
  have v1 : (1 - 1 / 2 ^ 53) ^ 2 * (v * (√3 / 2)) ^ 2 ≤ (v * half3 : ℝ) ^ 2 := by
    rw [mul_pow (v : ℝ), mul_pow (v : ℝ), mul_left_comm, ← mul_pow]
    exact mul_le_mul_of_nonneg_left (pow_le_pow_left₀ (mul_nonneg (by norm_num) s0) w1 2) (sq_nonneg _)
  have v2 : (v * half3 : ℝ) ^ 2 ≤ (1 + 1 / 2 ^ 53) ^ 2 * (v * (√3 / 2)) ^ 2 := by
    have h0 : 0 ≤ half3 := by rw [half3_eq]; norm_num
    calc (v * half3 : ℝ) ^ 2 = (v : ℝ) ^ 2 * half3 ^ 2 := mul_pow ..
      _ ≤ (v : ℝ) ^ 2 * ((1 + 1 / 2 ^ 53) * (√3 / 2)) ^ 2 := mul_le_mul_of_nonneg_left (pow_le_pow_left₀ h0 w2 2) (sq_nonneg _)
      _ = _ := by ring
  have hsum : rn (((u : ℝ) + v / 2) * ((u : ℝ) + v / 2)) + rn (rn (v * half3) * rn (v * half3)) = 0 ∨
      (2 : ℝ) ^ (-1022 : Int) ≤ |rn (((u : ℝ) + v / 2) * ((u : ℝ) + v / 2)) + rn (rn (v * half3) * rn (v * half3))| := by
    by_cases h : u = 0 ∧ v = 0
    · left; rw [h.1, h.2]; simp [rn_zero]
    · right
      refine normal_of (le_trans ?_ (le_abs_self _))
      have h1 : (1 : ℝ) ≤ hex u v := by exact_mod_cast one_le_hex h
      rw [hex_eq] at h1
      have a1 : (1 / 8 : ℝ) * ((u : ℝ) + v / 2) ^ 2 ≤ rn (((u : ℝ) + v / 2) * ((u : ℝ) + v / 2)) := by
        refine le_trans ?_ x1
        rw [← sq]
        exact mul_le_mul_of_nonneg_right (by norm_num) (sq_nonneg _)
      have a2 : (1 / 8 : ℝ) * (v * (√3 / 2)) ^ 2 ≤ rn (rn (v * half3) * rn (v * half3)) := by
        refine le_trans ?_ y1
        rw [← sq]
        refine le_trans ?_ (mul_le_mul_of_nonneg_left z1 (by norm_num))
        refine le_trans ?_ (mul_le_mul_of_nonneg_left (mul_le_mul_of_nonneg_left v1 (by norm_num)) (by norm_num))
        rw [← mul_assoc, ← mul_assoc]
        exact mul_le_mul_of_nonneg_right (by norm_num) (sq_nonneg _)
      linarith
  have n1 : 0 ≤ rn (((u : ℝ) + v / 2) * ((u : ℝ) + v / 2)) := by simpa [rn_zero] using rn_mono (mul_self_nonneg ((u : ℝ) + v / 2))
  have n2 : 0 ≤ rn (rn (v * half3) * rn (v * half3)) := by simpa [rn_zero] using rn_mono (mul_self_nonneg (rn (v * half3)))
  obtain ⟨r1, r2⟩ := rn_between hsum (add_nonneg n1 n2)
  unfold triSq
  rw [← sq] at x1 x2
  rw [← sq] at y1 y2
  rw [← sq, ← sq] at r1 r2 ⊢
  set X := ((u : ℝ) + v / 2) ^ 2 with hX
  set Y := (v * (√3 / 2) : ℝ) ^ 2 with hY
  have X0 : 0 ≤ X := sq_nonneg _
  have Y0 : 0 ≤ Y := sq_nonneg _
  have e1 : (0 : ℝ) ≤ 1 - 1 / 2 ^ 53 := by norm_num
  have e2 : (0 : ℝ) ≤ 1 + 1 / 2 ^ 53 := by norm_num
  have q1 : (1 - 1 / 2 ^ 53) ^ 5 * Y ≤ rn (rn (v * half3) ^ 2) := by
    calc (1 - 1 / 2 ^ 53) ^ 5 * Y = (1 - 1 / 2 ^ 53) * ((1 - 1 / 2 ^ 53) ^ 2 * ((1 - 1 / 2 ^ 53) ^ 2 * Y)) := by ring
      _ ≤ (1 - 1 / 2 ^ 53) * ((1 - 1 / 2 ^ 53) ^ 2 * (v * half3 : ℝ) ^ 2) :=
          mul_le_mul_of_nonneg_left (mul_le_mul_of_nonneg_left v1 (pow_nonneg e1 2)) e1
      _ ≤ (1 - 1 / 2 ^ 53) * rn (v * half3) ^ 2 := mul_le_mul_of_nonneg_left z1 e1
      _ ≤ _ := y1
  have q2 : rn (rn (v * half3) ^ 2) ≤ (1 + 1 / 2 ^ 53) ^ 5 * Y := by
    calc rn (rn (v * half3) ^ 2) ≤ (1 + 1 / 2 ^ 53) * rn (v * half3) ^ 2 := y2
      _ ≤ (1 + 1 / 2 ^ 53) * ((1 + 1 / 2 ^ 53) ^ 2 * (v * half3 : ℝ) ^ 2) := mul_le_mul_of_nonneg_left z2 e2
      _ ≤ (1 + 1 / 2 ^ 53) * ((1 + 1 / 2 ^ 53) ^ 2 * ((1 + 1 / 2 ^ 53) ^ 2 * Y)) :=
          mul_le_mul_of_nonneg_left (mul_le_mul_of_nonneg_left v2 (pow_nonneg e2 2)) e2
      _ = (1 + 1 / 2 ^ 53) ^ 5 * Y := by ring
  constructor
  · refine le_trans ?_ r1
    have : (1 - 1 / 2 ^ 53) ^ 5 * (X + Y) ≤ rn X + rn (rn (v * half3) ^ 2) := by
      have h5 : (1 - 1 / 2 ^ 53) ^ 5 * X ≤ (1 - 1 / 2 ^ 53) * X := mul_le_mul_of_nonneg_right (by norm_num) X0
      linarith
    calc (1 - 1 / 2 ^ 53) ^ 6 * (X + Y) = (1 - 1 / 2 ^ 53) * ((1 - 1 / 2 ^ 53) ^ 5 * (X + Y)) := by ring
      _ ≤ _ := mul_le_mul_of_nonneg_left this e1
  · refine le_trans r2 ?_
    have : rn X + rn (rn (v * half3) ^ 2) ≤ (1 + 1 / 2 ^ 53) ^ 5 * (X + Y) := by
      have h5 : (1 + 1 / 2 ^ 53) * X ≤ (1 + 1 / 2 ^ 53) ^ 5 * X := mul_le_mul_of_nonneg_right (by norm_num) X0
      linarith
    calc (1 + 1 / 2 ^ 53) * (rn X + rn (rn (v * half3) ^ 2)) ≤ (1 + 1 / 2 ^ 53) * ((1 + 1 / 2 ^ 53) ^ 5 * (X + Y)) :=
          mul_le_mul_of_nonneg_left this e2
      _ = _ := by ring

theorem triSq_nonneg (u v : Int) : 0 ≤ triSq u v :=
  le_trans (mul_nonneg (by norm_num) (by exact_mod_cast hex_nonneg u v)) (triSq_bounds u v).1

theorem triDist_nonneg (u v : Int) : 0 ≤ triDist u v := by
  unfold triDist; simpa [rn_zero] using rn_mono (Real.sqrt_nonneg (triSq u v))

/-- The computed distance is accurate to eight roundings of its square. -/
theorem triDist_bounds (u v : Int) :
    (1 - 1 / 2 ^ 53) ^ 8 * (hex u v : ℝ) ≤ triDist u v ^ 2 ∧ triDist u v ^ 2 ≤ (1 + 1 / 2 ^ 53) ^ 8 * (hex u v : ℝ) := by
  obtain ⟨h1, h2⟩ := triSq_bounds u v
  have h0 := triSq_nonneg u v
  have hn : √(triSq u v) = 0 ∨ (2 : ℝ) ^ (-1022 : Int) ≤ |√(triSq u v)| := by
    by_cases h : u = 0 ∧ v = 0
    · left
      have : hex u v = 0 := by rw [h.1, h.2]; rfl
      rw [this, Int.cast_zero, mul_zero] at h1 h2
      rw [le_antisymm h2 h1, Real.sqrt_zero]
    · right
      refine normal_of ?_
      rw [abs_of_nonneg (Real.sqrt_nonneg _)]
      refine Real.le_sqrt_of_sq_le ?_
      refine le_trans ?_ h1
      have h3 : (1 : ℝ) ≤ hex u v := by exact_mod_cast one_le_hex h
      refine le_trans ?_ (mul_le_mul_of_nonneg_left h3 (by norm_num))
      norm_num
  obtain ⟨r1, r2⟩ := rn_between_sq hn
  rw [Real.sq_sqrt h0] at r1 r2
  unfold triDist
  constructor
  · calc (1 - 1 / 2 ^ 53) ^ 8 * (hex u v : ℝ) = (1 - 1 / 2 ^ 53) ^ 2 * ((1 - 1 / 2 ^ 53) ^ 6 * (hex u v : ℝ)) := by ring
      _ ≤ _ := mul_le_mul_of_nonneg_left h1 (by norm_num)
      _ ≤ _ := r1
  · calc rn √(triSq u v) ^ 2 ≤ _ := r2
      _ ≤ (1 + 1 / 2 ^ 53) ^ 2 * ((1 + 1 / 2 ^ 53) ^ 6 * (hex u v : ℝ)) := mul_le_mul_of_nonneg_left h2 (by norm_num)
      _ = _ := by ring

/-! ### The nearest neighbours -/

theorem double_half (n : Int) (h : |n| ≤ 2 ^ 53) : Double ((n : ℝ) / 2) :=
  ⟨n, -1, h, by norm_num, by rw [zpow_neg_one]; ring⟩

theorem rn_third : rn (half3 * half3) = 3 / 4 - 1 / 2 ^ 53 := by
  rw [half3_eq]
  refine rn_eq_of_close (u := -53) ?_ ⟨6755399441055743, by norm_num⟩ ?_
  · rw [ulpExp_eq (k := -1) (by norm_num)]
    · norm_num
    · rw [abs_of_nonneg (by norm_num)]; norm_num
    · rw [abs_of_nonneg (by norm_num)]; norm_num
  · rw [abs_lt]
    constructor <;> norm_num

theorem rn_root : rn √(1 - 1 / 2 ^ 53) = 1 - 1 / 2 ^ 53 := by
  have l1 : (1 : ℝ) - 1 / 2 ^ 53 ≤ √(1 - 1 / 2 ^ 53) := by
    refine Real.le_sqrt_of_sq_le ?_
    norm_num
  have l2 : √(1 - 1 / 2 ^ 53) < (1 : ℝ) - 1 / 2 ^ 54 := by
    rw [Real.sqrt_lt' (by norm_num)]
    norm_num
  have p : 0 ≤ √((1 : ℝ) - 1 / 2 ^ 53) := Real.sqrt_nonneg _
  refine rn_eq_of_close (u := -53) ?_ ⟨9007199254740991, by norm_num⟩ ?_
  · rw [ulpExp_eq (k := -1) (by norm_num)]
    · norm_num
    · rw [abs_of_nonneg p]
      refine le_trans ?_ l1
      norm_num
    · rw [abs_of_nonneg p]
      refine l2.trans ?_
      norm_num
  · rw [abs_of_nonneg (by linarith)]
    have : (2 : ℝ) ^ (-53 : Int) / 2 = 1 / 2 ^ 54 := by norm_num
    rw [this]
    norm_num at l2 ⊢
    linarith

/-- A neighbour in the direction of the second primitive vector is computed to be closer than 1. -/
theorem triDist_second {u v : Int} (hv : v = 1 ∨ v = -1) (hx : 2 * u + v = 1 ∨ 2 * u + v = -1) :
    triDist u v = 1 - 1 / 2 ^ 53 := by
  have hX : ((u : ℝ) + v / 2) * ((u : ℝ) + v / 2) = 1 / 4 := by
    have e : (u : ℝ) + v / 2 = ((2 * u + v : Int) : ℝ) / 2 := by push_cast; ring
    rw [e]
    rcases hx with h | h <;> rw [h] <;> norm_num
  have hY : rn (v * half3 : ℝ) * rn (v * half3 : ℝ) = half3 * half3 := by
    rcases hv with rfl | rfl
    · rw [Int.cast_one, one_mul, rn_double half3_double]
    · rw [Int.cast_neg, Int.cast_one, neg_one_mul, rn_neg, rn_double half3_double, neg_mul_neg]
  have d4 : Double (1 / 4 : ℝ) := ⟨1, -2, by norm_num, by norm_num, by norm_num⟩
  have d1 : Double (1 - 1 / 2 ^ 53 : ℝ) := ⟨9007199254740991, -53, by norm_num, by norm_num, by norm_num⟩
  unfold triDist triSq
  rw [hX, hY, rn_double d4, rn_third, show (1 / 4 : ℝ) + (3 / 4 - 1 / 2 ^ 53) = 1 - 1 / 2 ^ 53 by ring, rn_double d1, rn_root]

/-- A neighbour in the direction of the first primitive vector is computed to be at distance 1. -/
theorem triDist_first {u : Int} (hu : u = 1 ∨ u = -1) : triDist u 0 = 1 := by
  have d1 : Double (1 : ℝ) := ⟨1, 0, by norm_num, by norm_num, by norm_num⟩
  have hX : ((u : ℝ) + ((0 : Int) : ℝ) / 2) * ((u : ℝ) + ((0 : Int) : ℝ) / 2) = 1 := by
    rcases hu with rfl | rfl <;> norm_num
  unfold triDist triSq
  rw [hX]
  simp only [Int.cast_zero, zero_mul, rn_zero, add_zero, rn_double d1, Real.sqrt_one]

/-! ### What `Bravais` computes -/

section
variable {A : Arith ℝ}

theorem round_fin (hA : A.IsBinary64) {x : ℝ} (h : |x| ≤ (2 : ℝ) ^ (200 : Int)) : Num.round A x = .fin (rn x) := by
  refine Num.round_of ?_
  have d : Double ((2 : ℝ) ^ (200 : Int)) := ⟨1, 200, by norm_num, by norm_num, by simp⟩
  rw [hA, rnd64, if_pos]
  refine lt_of_le_of_lt (abs_le.2 ⟨?_, ?_⟩) (zpow_lt_zpow_right₀ one_lt_two (show (200 : Int) < 1024 by norm_num))
  · have := rn_mono (abs_le.1 h).1
    rwa [rn_neg, rn_double d] at this
  · have := rn_mono (abs_le.1 h).2
    rwa [rn_double d] at this

theorem round_double (hA : A.IsBinary64) {x : ℝ} (hd : Double x) (h : |x| ≤ (2 : ℝ) ^ (200 : Int)) :
    Num.round A x = .fin x := by
  rw [round_fin hA h, rn_double hd]

theorem le_200 {x : ℝ} {k : Nat} (h : |x| ≤ 2 ^ k) (hk : k ≤ 200) : |x| ≤ (2 : ℝ) ^ (200 : Int) := by
  refine h.trans ?_
  rw [← zpow_natCast]
  exact zpow_le_zpow_right₀ one_le_two (by exact_mod_cast hk)

/-- The primitive vectors of the triangular lattice in binary64. -/
theorem triangular_vectors (hA : A.IsBinary64) (hq : A.sqrt = Real.sqrt) {b : Bravais (Num A)} (hb : triangularLattice = .ok b) :
    b.dim = 2 ∧ b.pvectors = [.fin 1, .fin 0, .fin (1 / 2), .fin half3] := by
  cases hb
  refine ⟨rfl, ?_⟩
  have i1 : (CxxFloat.lit 1 : Num A) = .fin 1 := by
    have := round_int hA (n := 1) (by decide)
    rw [Num.lit_eq, Rat.cast_one]; simpa using this
  have i3 : (CxxFloat.lit 3 : Num A) = .fin 3 := by
    have := round_int hA (n := 3) (by decide)
    rw [Num.lit_eq, Rat.cast_ofNat]; simpa using this
  have i2 : (CxxFloat.lit 2 : Num A) = .fin 2 := by
    have := round_int hA (n := 2) (by decide)
    rw [Num.lit_eq, Rat.cast_ofNat]; simpa using this
  have ih : (CxxFloat.lit (1 / 2) : Num A) = .fin (1 / 2) := by
    rw [Num.lit_eq]
    push_cast
    refine round_double hA ?_ (le_200 (k := 0) (by norm_num [abs_le]) (by norm_num))
    exact ⟨1, -1, by norm_num, by norm_num, by norm_num⟩
  have hs : CxxFloat.sqrt (.fin 3 : Num A) = .fin (rn √3) := by
    rw [Num.sqrt_fin (by norm_num), hq, round_fin hA]
    refine le_200 (k := 1) ?_ (by norm_num)
    rw [abs_of_nonneg (Real.sqrt_nonneg _), Real.sqrt_le_left (by norm_num)]
    norm_num
  show [_, _, _, _] = _
  rw [i1, i3, i2, ih, hs, Num.fin_div two_ne_zero, show rn √3 / 2 = half3 from rfl, round_double hA half3_double, Num.zero_eq]
  · refine le_200 (k := 0) ?_ (by norm_num)
    rw [half3_eq, abs_of_nonneg (by norm_num)]
    norm_num

theorem small_mul {u : Int} (h : |u| ≤ 2 ^ 23) : |(u : ℝ)| ≤ 2 ^ 23 := by
  rw [← Int.cast_abs]; exact_mod_cast h

/-- The vector `GetRealSpace` computes. -/
theorem triangular_realSpace (hA : A.IsBinary64) (hq : A.sqrt = Real.sqrt) {b : Bravais (Num A)} (hb : triangularLattice = .ok b)
    {u v : Int} (hu : |u| ≤ 2 ^ 23) (hv : |v| ≤ 2 ^ 23) :
    b.getRealSpace [u, v] = .ok [.fin ((u : ℝ) + v / 2), .fin (rn (v * half3))] := by
  obtain ⟨hd, hp⟩ := triangular_vectors hA hq hb
  have su := small_mul hu
  have sv := small_mul hv
  have r1 : (CxxFloat.ofInt u : Num A) = .fin (u : ℝ) := round_int hA (by omega)
  have r2 : (CxxFloat.ofInt v : Num A) = .fin (v : ℝ) := round_int hA (by omega)
  have m0 : ∀ x : ℝ, (Num.fin x : Num A) * .fin 0 = .fin 0 := fun x => by
    rw [Num.fin_mul, mul_zero, round_double hA double_zero (by simp)]
  have m1 : (Num.fin (u : ℝ) : Num A) * .fin 1 = .fin (u : ℝ) := by
    rw [Num.fin_mul, mul_one, round_int hA (by omega)]
  have m2 : (Num.fin (v : ℝ) : Num A) * .fin (1 / 2) = .fin ((v : ℝ) / 2) := by
    rw [Num.fin_mul, mul_one_div, round_double hA (double_half v (by omega))]
    refine le_200 (k := 23) ?_ (by norm_num)
    rw [abs_div, abs_two]
    have := abs_nonneg (v : ℝ)
    linarith
  have m3 : (Num.fin (v : ℝ) : Num A) * .fin half3 = .fin (rn (v * half3)) := by
    rw [Num.fin_mul, round_fin hA]
    refine le_200 (k := 23) ?_ (by norm_num)
    rw [abs_mul, half3_eq]
    have : |(3900231685776981 : ℝ) / 2 ^ 52| ≤ 1 := by rw [abs_of_nonneg (by norm_num)]; norm_num
    have h0 := abs_nonneg (v : ℝ)
    nlinarith
  have hyb : |rn ((v : ℝ) * half3)| ≤ 2 ^ 23 := by
    have d : Double ((2 : ℝ) ^ 23) := ⟨2 ^ 23, 0, by norm_num, by norm_num, by norm_num⟩
    have : |(v : ℝ) * half3| ≤ 2 ^ 23 := by
      rw [abs_mul, half3_eq]
      have : |(3900231685776981 : ℝ) / 2 ^ 52| ≤ 1 := by rw [abs_of_nonneg (by norm_num)]; norm_num
      have h0 := abs_nonneg (v : ℝ)
      nlinarith
    rw [abs_le] at this ⊢
    have h1 := rn_mono this.1
    have h2 := rn_mono this.2
    rw [rn_neg, rn_double d] at h1
    rw [rn_double d] at h2
    exact ⟨h1, h2⟩
  have a0 : ∀ {x : ℝ}, Double x → |x| ≤ 2 ^ 23 → (Num.fin 0 : Num A) + .fin x = .fin x := fun hx h => by
    rw [Num.fin_add, zero_add, round_double hA hx (le_200 h (by norm_num))]
  have s1 : (Num.fin (u : ℝ) : Num A) + .fin ((v : ℝ) / 2) = .fin ((u : ℝ) + v / 2) := by
    have e : (u : ℝ) + v / 2 = ((2 * u + v : Int) : ℝ) / 2 := by push_cast; ring
    have hb : |2 * u + v| ≤ 2 ^ 53 := by
      rw [abs_le] at hu hv ⊢; omega
    rw [Num.fin_add]
    have hd : Double ((u : ℝ) + v / 2) := by rw [e]; exact double_half _ hb
    refine round_double hA hd (le_200 (k := 24) ?_ (by norm_num))
    refine (abs_add_le _ _).trans ?_
    rw [abs_div, abs_two]
    have := abs_nonneg (v : ℝ)
    norm_num at su sv ⊢
    linarith
  have c0 : subscript [u, v] 0 = .ok u := rfl
  have c1 : subscript [u, v] 1 = .ok v := rfl
  have p0 : ∀ {a b c d : Num A}, subscript [a, b, c, d] (uadd 0 (umul 0 2)) = .ok a := rfl
  have p1 : ∀ {a b c d : Num A}, subscript [a, b, c, d] (uadd 0 (umul 1 2)) = .ok c := rfl
  have p2 : ∀ {a b c d : Num A}, subscript [a, b, c, d] (uadd 1 (umul 0 2)) = .ok b := rfl
  have p3 : ∀ {a b c d : Num A}, subscript [a, b, c, d] (uadd 1 (umul 1 2)) = .ok d := rfl
  unfold Bravais.getRealSpace
  rw [hd, hp, if_pos (show [u, v].length = 2 from rfl)]
  simp only [mapRange, mapRangeFrom, accumulate, accumulateFrom, zero_add, c0, c1, p0, p1, p2, p3, Res.ok_bind, r1, r2,
    m0, m1, m2, m3, Num.zero_eq]
  rw [a0 (x := (u : ℝ)) (double_int (by omega)) su, s1, a0 (x := (0 : ℝ)) double_zero (by norm_num),
    a0 (rn_isDouble _) hyb]

/-- The sum of the squares of the components. -/
theorem tri_squares (hA : A.IsBinary64) {u v : Int} (hu : |u| ≤ 2 ^ 23) (hv : |v| ≤ 2 ^ 23) :
    (Num.fin 0 : Num A) + squareF (.fin ((u : ℝ) + v / 2)) + squareF (.fin (rn (v * half3))) = .fin (triSq u v) := by
  have su := small_mul hu
  have sv := small_mul hv
  have bx : |(u : ℝ) + v / 2| ≤ 2 ^ 24 := by
    refine (abs_add_le _ _).trans ?_
    rw [abs_div, abs_two]
    have := abs_nonneg (v : ℝ)
    norm_num at su sv ⊢
    linarith
  have bd : ∀ {x : ℝ} {k : Nat}, |x| ≤ 2 ^ k → |rn x| ≤ 2 ^ k := by
    intro x k h
    have d : Double ((2 : ℝ) ^ k) := ⟨1, k, by norm_num, by omega, by rw [zpow_natCast]; simp⟩
    rw [abs_le] at h ⊢
    have h1 := rn_mono h.1
    have h2 := rn_mono h.2
    rw [rn_neg, rn_double d] at h1
    rw [rn_double d] at h2
    exact ⟨h1, h2⟩
  have by' : |(v : ℝ) * half3| ≤ 2 ^ 24 := by
    rw [abs_mul, half3_eq]
    have : |(3900231685776981 : ℝ) / 2 ^ 52| ≤ 1 := by rw [abs_of_nonneg (by norm_num)]; norm_num
    have h0 := abs_nonneg (v : ℝ)
    norm_num at sv ⊢
    nlinarith
  have sq : ∀ {x : ℝ}, |x| ≤ 2 ^ 24 → |x * x| ≤ 2 ^ 48 := by
    intro x h
    rw [abs_mul]
    have := mul_le_mul h h (abs_nonneg _) (by positivity)
    norm_num at this ⊢
    exact this
  have q1 := sq bx
  have q2 := sq (bd by')
  unfold squareF
  rw [Num.fin_mul, Num.fin_mul, round_fin hA (le_200 q1 (by norm_num)), round_fin hA (le_200 q2 (by norm_num)), Num.fin_add,
    zero_add, round_double hA (rn_isDouble _) (le_200 (bd q1) (by norm_num)), Num.fin_add, round_fin hA]
  · rfl
  · refine le_200 (k := 49) ((abs_add_le _ _).trans ?_) (by norm_num)
    have h1 := bd q1
    have h2 := bd q2
    norm_num at h1 h2 ⊢
    linarith

theorem tri_sqrt (hA : A.IsBinary64) (hq : A.sqrt = Real.sqrt) {u v : Int} (hu : |u| ≤ 2 ^ 23) (hv : |v| ≤ 2 ^ 23) :
    CxxFloat.sqrt (.fin (triSq u v) : Num A) = .fin (triDist u v) := by
  rw [Num.sqrt_fin (triSq_nonneg ..), hq, round_fin hA]
  · rfl
  · refine le_200 (k := 60) ?_ (by norm_num)
    rw [abs_of_nonneg (Real.sqrt_nonneg _), Real.sqrt_le_left (by positivity)]
    refine (triSq_bounds u v).2.trans ?_
    have h : (hex u v : ℝ) ≤ 2 ^ 48 := by
      have : hex u v ≤ 2 ^ 48 := by
        unfold hex
        rw [abs_le] at hu hv
        nlinarith
      exact_mod_cast this
    have h0 : (0 : ℝ) ≤ hex u v := by exact_mod_cast hex_nonneg u v
    refine (mul_le_mul_of_nonneg_left h (by norm_num)).trans ?_
    norm_num

end
end Bwsl
