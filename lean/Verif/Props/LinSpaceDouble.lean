import Verif.Model.Spaces
import Verif.Lemmas.Double
import Mathlib.Tactic.Positivity
import Mathlib.Tactic.FieldSimp

/-! Property C110: linearly spaced values in double precision. -/

namespace Bwsl
open Spec

section
variable {A : Arith ℝ}

theorem round_of_le (hA : A.IsBinary64) {x y : ℝ} (hy : Double y) (hy' : y < (2 : ℝ) ^ (1024 : Int)) (h : |x| ≤ y) :
    Num.round A x = .fin (rn x) := by
  refine Num.round_of ?_
  rw [hA, rnd64, if_pos]
  refine lt_of_le_of_lt ?_ hy'
  have h1 := rn_mono (le_of_abs_le h)
  have h2 := rn_mono (neg_le_of_abs_le h)
  rw [rn_double hy] at h1
  rw [rn_neg, rn_double hy] at h2
  exact abs_le.2 ⟨h2, h1⟩

theorem double_two_zpow {e : Int} (h : -1074 ≤ e) : Double ((2 : ℝ) ^ e) := ⟨1, e, by norm_num, h, by simp⟩

theorem two_zpow_large : ∃ M : ℝ, 0 < M ∧ (2 : ℝ) ^ (1020 : Int) = M ∧ (2 : ℝ) ^ (1022 : Int) = 4 * M ∧
    (2 : ℝ) ^ (1023 : Int) = 8 * M := by
  refine ⟨_, two_zpow_pos 1020, rfl, ?_, ?_⟩
  · rw [show (1022 : Int) = 2 + 1020 by norm_num, zpow_add₀ two_ne_zero]; norm_num
  · rw [show (1023 : Int) = 3 + 1020 by norm_num, zpow_add₀ two_ne_zero]; norm_num

theorem round_of_le_two (hA : A.IsBinary64) {x : ℝ} (h : |x| ≤ (2 : ℝ) ^ (1023 : Int)) : Num.round A x = .fin (rn x) :=
  round_of_le hA (double_two_zpow (by norm_num)) (zpow_lt_zpow_right₀ one_lt_two (by norm_num)) h

theorem round_nat (hA : A.IsBinary64) {n : Nat} (h : n ≤ 2 ^ 53) : Num.round A (n : ℝ) = .fin (n : ℝ) := by
  have hd : Double ((n : Nat) : ℝ) := by
    have := double_int (K := ℝ) (n := (n : Int)) (by rw [abs_of_nonneg (by positivity)]; exact_mod_cast h)
    exact_mod_cast this
  have hl : |(n : ℝ)| < (2 : ℝ) ^ (1024 : Int) := by
    have := int_lt_huge (K := ℝ) (n := (n : Int)) (by rw [abs_of_nonneg (by positivity)]; exact_mod_cast h)
    exact_mod_cast this
  exact Num.round_of (rnd_of_double hA hd hl)

/-- The value after `k` increments, in any arithmetic. -/
theorem linSpace_value {F : Type} [CxxFloat F] (a b st : F) (n k : Nat) (hk0 : 0 < k) (hk : k < W64) :
    (LinSpace.incr^[k] (⟨a, a, b, st, n, 0⟩ : LinSpace F)).deref = a + st * CxxFloat.ofNat k := by
  have it : ∀ k, k < W64 → LinSpace.incr^[k] (⟨a, a, b, st, n, 0⟩ : LinSpace F) =
      ⟨if k = 0 then a else a + st * CxxFloat.ofNat k, a, b, st, n, k⟩ := by
    intro k
    induction k with
    | zero => intro _; simp
    | succ k ih =>
      intro hk
      rw [Function.iterate_succ_apply', ih (by omega)]
      unfold LinSpace.incr
      have e : (k + 1) % W64 = k + 1 := Nat.mod_eq_of_lt hk
      simp only [e, if_neg (Nat.succ_ne_zero k)]
  rw [it k hk]
  unfold LinSpace.deref
  simp only [if_neg hk0.ne']

/-- The rounded value after `k` increments. -/
noncomputable def Spec.linValue (a b : ℝ) (n k : Nat) : ℝ := rn (a + rn (rn (rn (b - a) / n) * k))

/-- Where the hypotheses of the error bound hold, the values are the rounded ones and there is no overflow. -/
theorem linSpace_double (hA : A.IsBinary64) (a b : ℝ) (ha' : |a| ≤ (2 : ℝ) ^ (1020 : Int)) (hb' : |b| ≤ (2 : ℝ) ^ (1020 : Int))
    (n : Nat) (hn0 : 0 < n) (hn : n ≤ 2 ^ 53) (s : LinSpace (Num A))
    (hs : LinSpace.new (.fin a) (.fin b) n = .ok s) (k : Nat) (hk0 : 0 < k) (hk : k ≤ n)
    (hP : |rn (rn (b - a) / n) * k| ≤ (2 : ℝ) ^ (1022 : Int)) :
    (LinSpace.incr^[k] s).deref = .fin (linValue a b n k) := by
  have hn' : (1 : ℝ) ≤ n := by exact_mod_cast hn0
  obtain ⟨M, hM, e0, e20, e23⟩ := two_zpow_large
  rw [e0] at ha' hb'
  have hd : |b - a| ≤ (2 : ℝ) ^ (1022 : Int) := by
    have := abs_sub b a
    rw [e20]; linarith only [this, ha', hb', hM]
  have rn22 : ∀ x : ℝ, |x| ≤ (2 : ℝ) ^ (1022 : Int) → |rn x| ≤ (2 : ℝ) ^ (1022 : Int) := by
    intro x h
    have hd := double_two_zpow (e := 1022) (by norm_num)
    have h1 := rn_mono (le_of_abs_le h)
    have h2 := rn_mono (neg_le_of_abs_le h)
    rw [rn_double hd] at h1
    rw [rn_neg, rn_double hd] at h2
    exact abs_le.2 ⟨h2, h1⟩
  have le22 : ∀ x : ℝ, |x| ≤ (2 : ℝ) ^ (1022 : Int) → Num.round A x = .fin (rn x) := fun x h =>
    round_of_le_two hA (h.trans (by rw [e20, e23]; linarith only [hM]))
  have hD := rn22 _ hd
  have hq : |rn (b - a) / n| ≤ (2 : ℝ) ^ (1022 : Int) := by
    rw [abs_div, abs_of_pos (by linarith : (0 : ℝ) < n)]
    exact (div_le_self (abs_nonneg _) hn').trans hD
  have hsum : |a + rn (rn (rn (b - a) / n) * k)| ≤ (2 : ℝ) ^ (1023 : Int) := by
    have := abs_add_le a (rn (rn (rn (b - a) / n) * k))
    have h' := rn22 _ hP
    rw [e20] at h'
    rw [e23]; linarith only [this, h', ha', hM]
  have hstep : ((.fin b - .fin a : Num A) / CxxFloat.ofNat n) = .fin (rn (rn (b - a) / n)) := by
    rw [Num.fin_sub, le22 _ hd, Num.ofNat_eq, round_nat hA hn, Num.fin_div (by linarith), le22 _ hq]
  unfold LinSpace.new at hs
  split at hs
  · rw [hstep, Res.ok.injEq] at hs
    subst hs
    rw [linSpace_value _ _ _ _ _ hk0 (by omega), Num.ofNat_eq, round_nat hA (hk.trans hn), Num.fin_mul, le22 _ hP,
      Num.fin_add, round_of_le_two hA hsum]
    rfl
  · cases hs

/-- The errors of the steps add up to little. -/
theorem linValue_error (a b : ℝ) (ha : Double a) (hb : Double b) (hab : a < b) (n : Nat) (hn0 : 0 < n)
    (hstep : (2 : ℝ) ^ (-1021 : Int) ≤ (b - a) / n) (k : Nat) (hk0 : 0 < k) :
    |linValue a b n k - (a + k * ((b - a) / n))| ≤
      (|a + k * ((b - a) / n)| + 4 * (k * ((b - a) / n))) / 2 ^ 53 ∧
    |rn (rn (b - a) / n) * k| ≤ 2 * (k * ((b - a) / n)) := by
  have hn' : (0 : ℝ) < n := by exact_mod_cast hn0
  have hk' : (1 : ℝ) ≤ k := by exact_mod_cast hk0
  have e21 : (2 : ℝ) ^ (-1021 : Int) = 2 * (2 : ℝ) ^ (-1022 : Int) := by
    rw [show (-1021 : Int) = 1 + -1022 by norm_num, zpow_add₀ two_ne_zero]; norm_num
  have p := two_zpow_pos (K := ℝ) (-1022)
  set h := (b - a) / n with hh
  have hbn : b - a = h * n := by rw [hh]; field_simp
  have hpos : 0 < h := by linarith [e21]
  -- the difference
  have h1 := rn_rel ((hb.mult).sub ha.mult)
  rw [abs_of_pos (sub_pos.2 hab)] at h1
  set D := rn (b - a)
  have h1' : |h - D / n| ≤ h / 2 ^ 53 := by
    have : h - D / n = (b - a - D) / n := by rw [hh]; ring
    rw [this, abs_div, abs_of_pos hn', div_le_iff₀ hn']
    calc _ ≤ _ := h1
      _ = _ := by rw [hbn]; ring
  obtain ⟨h1a, h1b⟩ := abs_le.1 h1'
  have hq : h / 2 ≤ D / n := by linarith
  have hq0 : 0 < D / n := by linarith
  -- the step
  have h2 := rn_rel_normal (x := D / n) (by rw [abs_of_pos hq0]; linarith [e21])
  rw [abs_of_pos hq0] at h2
  set S := rn (D / n)
  obtain ⟨h2a, h2b⟩ := abs_le.1 h2
  have hS : (1 - 1 / 2 ^ 53) ^ 2 * h ≤ S ∧ S ≤ (1 + 1 / 2 ^ 53) ^ 2 * h := by
    constructor <;> nlinarith
  have hS1 : 2 ^ (-1022 : Int) ≤ S := by
    have := hS.1
    have h3 : h / 2 ≤ S := by nlinarith
    linarith [e21]
  have hS0 : 0 < S := p.trans_le hS1
  -- the product
  have hSk : S ≤ S * k := by nlinarith
  have hSk0 : 0 < S * k := by positivity
  have h3 := rn_rel_normal (x := S * k) (by rw [abs_of_pos hSk0]; exact hS1.trans hSk)
  rw [abs_of_pos hSk0] at h3
  set P := rn (S * k)
  obtain ⟨h3a, h3b⟩ := abs_le.1 h3
  set t := (k : ℝ) * h with ht
  have ht0 : 0 < t := by positivity
  have hSkt : (1 - 1 / 2 ^ 53) ^ 2 * t ≤ S * k ∧ S * k ≤ (1 + 1 / 2 ^ 53) ^ 2 * t := by
    constructor
    · calc _ = ((1 - 1 / 2 ^ 53) ^ 2 * h) * k := by rw [ht]; ring
        _ ≤ _ := mul_le_mul_of_nonneg_right hS.1 (by linarith)
    · calc _ ≤ ((1 + 1 / 2 ^ 53) ^ 2 * h) * k := mul_le_mul_of_nonneg_right hS.2 (by linarith)
        _ = _ := by rw [ht]; ring
  have hP : |P - t| ≤ (3 + 1 / 2 ^ 40) / 2 ^ 53 * t := by
    rw [abs_le]; constructor <;> nlinarith [hSkt.1, hSkt.2]
  -- the sum
  have h4 := rn_rel ((ha.mult).add (rn_isDouble (S * k)).mult)
  refine ⟨?_, ?_⟩
  · show |rn (a + P) - (a + t)| ≤ _
    have e : rn (a + P) - (a + t) = (rn (a + P) - (a + P)) + (P - t) := by ring
    have h5 : |a + P| ≤ |a + t| + |P - t| := by
      have : a + P = (a + t) + (P - t) := by ring
      rw [this]; exact abs_add_le _ _
    rw [e]
    refine (abs_add_le _ _).trans ?_
    rw [abs_sub_comm (rn (a + P))]
    have h6 : |a + P - rn (a + P)| ≤ (|a + t| + |P - t|) / 2 ^ 53 :=
      h4.trans (div_le_div_of_nonneg_right h5 (by norm_num))
    have h7 : (|P - t|) / 2 ^ 53 + |P - t| ≤ 4 / 2 ^ 53 * t := by
      have : (|P - t|) / 2 ^ 53 + |P - t| = (1 + 1 / 2 ^ 53) * |P - t| := by ring
      rw [this]
      calc _ ≤ (1 + 1 / 2 ^ 53) * ((3 + 1 / 2 ^ 40) / 2 ^ 53 * t) := mul_le_mul_of_nonneg_left hP (by norm_num)
        _ ≤ _ := by
          rw [← mul_assoc]
          exact mul_le_mul_of_nonneg_right (by norm_num) ht0.le
    calc _ ≤ (|a + t| + |P - t|) / 2 ^ 53 + |P - t| := by linarith
      _ = |a + t| / 2 ^ 53 + (|P - t| / 2 ^ 53 + |P - t|) := by ring
      _ ≤ |a + t| / 2 ^ 53 + 4 / 2 ^ 53 * t := by linarith
      _ = _ := by ring
  · rw [abs_of_pos hSk0]
    nlinarith [hSkt.2]

/-- C110 (what holds).  In binary64, the value after `k` of `n` increments is finite and differs from
first + k (last - first) / n by at most (its magnitude + 4 k (last - first) / n) 2^-53, if the bounds are doubles not
above 2^1020, `n` is at most 2^53 and the step is not below 2^-1021. -/
theorem C110_error_partial (hA : A.IsBinary64) (a b : ℝ) (ha : Double a) (hb : Double b) (ha' : |a| ≤ (2 : ℝ) ^ (1020 : Int))
    (hb' : |b| ≤ (2 : ℝ) ^ (1020 : Int)) (n : Nat) (hn0 : 0 < n) (hn : n ≤ 2 ^ 53)
    (hstep : (2 : ℝ) ^ (-1021 : Int) ≤ (b - a) / n) (s : LinSpace (Num A))
    (hs : LinSpace.new (.fin a) (.fin b) n = .ok s) (k : Nat) (hk0 : 0 < k) (hk : k ≤ n) :
    ∃ v : ℝ, (LinSpace.incr^[k] s).deref = .fin v ∧
      |v - (a + k * ((b - a) / n))| ≤ (|a + k * ((b - a) / n)| + 4 * (k * ((b - a) / n))) / 2 ^ 53 := by
  have hn' : (0 : ℝ) < n := by exact_mod_cast hn0
  have hab : a < b := by
    have := (two_zpow_pos (K := ℝ) (-1021)).trans_le hstep
    rw [div_pos_iff_of_pos_right hn'] at this
    linarith
  obtain ⟨h1, h2⟩ := linValue_error a b ha hb hab n hn0 hstep k hk0
  refine ⟨_, linSpace_double hA a b ha' hb' n hn0 hn s hs k hk0 hk (h2.trans ?_), h1⟩
  obtain ⟨M, hM, e0, e20, e23⟩ := two_zpow_large
  rw [e0] at ha' hb'
  have hkn : (k : ℝ) ≤ n := by exact_mod_cast hk
  have : (k : ℝ) * ((b - a) / n) ≤ b - a := by
    rw [← mul_div_assoc, div_le_iff₀ hn', mul_comm (b - a)]
    exact mul_le_mul_of_nonneg_right hkn (by linarith)
  have h3 := le_of_abs_le hb'
  have h4 := neg_le_of_abs_le ha'
  rw [e20]; linarith only [this, h3, h4, hM]

/-- C110 (what holds).  If the step and the multiples of it that are visited are doubles, the values are exact and the last
one is the end of the interval. -/
theorem C110_exact_partial (hA : A.IsBinary64) (a b : ℝ) (ha' : |a| ≤ (2 : ℝ) ^ (1020 : Int))
    (hb' : |b| ≤ (2 : ℝ) ^ (1020 : Int)) (hab : a < b) (n : Nat) (hn0 : 0 < n) (hn : n ≤ 2 ^ 53)
    (s : LinSpace (Num A)) (hs : LinSpace.new (.fin a) (.fin b) n = .ok s) (k : Nat) (hk0 : 0 < k) (hk : k ≤ n)
    (hd : Double (b - a)) (hq : Double ((b - a) / n)) (hp : Double (k * ((b - a) / n)))
    (hv : Double (a + k * ((b - a) / n))) :
    (LinSpace.incr^[k] s).deref = .fin (a + k * ((b - a) / n)) ∧ (k = n → (LinSpace.incr^[k] s).deref = .fin b) := by
  have hn' : (0 : ℝ) < n := by exact_mod_cast hn0
  have hkn : (k : ℝ) ≤ n := by exact_mod_cast hk
  have e : linValue a b n k = a + k * ((b - a) / n) := by
    unfold linValue
    rw [rn_double hd, rn_double hq, mul_comm _ (k : ℝ), rn_double hp, rn_double hv]
  have hle : (k : ℝ) * ((b - a) / n) ≤ b - a := by
    rw [← mul_div_assoc, div_le_iff₀ hn', mul_comm (b - a)]
    exact mul_le_mul_of_nonneg_right hkn (by linarith)
  have h0 : 0 ≤ (k : ℝ) * ((b - a) / n) := by
    have : 0 < b - a := by linarith
    positivity
  have := linSpace_double hA a b ha' hb' n hn0 hn s hs k hk0 hk (by
    rw [rn_double hd, rn_double hq, mul_comm, abs_of_nonneg h0]
    obtain ⟨M, hM, e0, e20, e23⟩ := two_zpow_large
    rw [e0] at ha' hb'
    have h3 := le_of_abs_le hb'
    have h4 := neg_le_of_abs_le ha'
    rw [e20]; linarith only [hle, h3, h4, hM])
  rw [this, e]
  refine ⟨rfl, fun h => ?_⟩
  subst h
  congr 1
  field_simp
  ring

/-- A rounded value, from the significand and the exponents. -/
theorem rn_of {x : ℝ} (k m : Int) (hk : -1022 ≤ k) (h1 : (2 : ℝ) ^ k ≤ |x|) (h2 : |x| < (2 : ℝ) ^ (k + 1))
    (h : |x - m * (2 : ℝ) ^ (k - 52)| < (2 : ℝ) ^ (k - 52) / 2) : rn x = m * (2 : ℝ) ^ (k - 52) :=
  rn_eq_of_close (ulpExp_eq hk h1 h2) ⟨m, rfl⟩ h

theorem linValue_seven : linValue 0 7 25 25 = 7 + 1 / 2 ^ 50 := by
  unfold linValue
  have h7 : rn ((7 : ℝ) - 0) = 7 := by
    rw [sub_zero]
    exact rn_double (by have := double_int (K := ℝ) (n := 7) (by norm_num); exact_mod_cast this)
  have hS : rn ((7 : ℝ) / (25 : Nat)) = (5044031582654956 : Int) * (2 : ℝ) ^ (-2 - 52 : Int) :=
    rn_of _ _ (by norm_num) (by norm_num [abs_of_pos]) (by norm_num [abs_of_pos]) (by
      rw [abs_lt]; constructor <;> norm_num)
  have hP : rn ((5044031582654956 : Int) * (2 : ℝ) ^ (-2 - 52 : Int) * (25 : Nat)) =
      (7881299347898369 : Int) * (2 : ℝ) ^ (2 - 52 : Int) :=
    rn_of _ _ (by norm_num) (by norm_num [abs_of_pos]) (by norm_num [abs_of_pos]) (by
      rw [abs_lt]; constructor <;> norm_num)
  rw [h7, hS, hP, zero_add, rn_double ⟨7881299347898369, _, by norm_num, by norm_num, rfl⟩]
  norm_num

theorem linValue_one : linValue 0 1 49 49 = 1 - 1 / 2 ^ 53 := by
  unfold linValue
  have h1 : rn ((1 : ℝ) - 0) = 1 := by
    rw [sub_zero]
    exact rn_double (by have := double_int (K := ℝ) (n := 1) (by norm_num); exact_mod_cast this)
  have hS : rn ((1 : ℝ) / (49 : Nat)) = (5882252574524729 : Int) * (2 : ℝ) ^ (-6 - 52 : Int) :=
    rn_of _ _ (by norm_num) (by norm_num [abs_of_pos]) (by norm_num [abs_of_pos]) (by
      rw [abs_lt]; constructor <;> norm_num)
  have hP : rn ((5882252574524729 : Int) * (2 : ℝ) ^ (-6 - 52 : Int) * (49 : Nat)) =
      (9007199254740991 : Int) * (2 : ℝ) ^ (-1 - 52 : Int) :=
    rn_of _ _ (by norm_num) (by norm_num [abs_of_pos]) (by norm_num [abs_of_pos]) (by
      rw [abs_lt]; constructor <;> norm_num)
  rw [h1, hS, hP, zero_add, rn_double ⟨9007199254740991, _, by norm_num, by norm_num, rfl⟩]
  norm_num

/-- A spaced interval from 0 to a small positive number, in binary64. -/
theorem linSpace_from_zero (hA : A.IsBinary64) (b : Nat) (hb0 : 0 < b) (hb : b ≤ 2 ^ 53) (n : Nat) (hn0 : 0 < n) (hn : n ≤ 2 ^ 53) :
    ∃ s : LinSpace (Num A), LinSpace.new (.fin 0) (.fin (b : ℝ)) n = .ok s ∧ (LinSpace.incr^[n] s).deref = .fin (linValue 0 b n n) := by
  have hb1 : (0 : ℝ) < b := by exact_mod_cast hb0
  have hb2 : (b : ℝ) ≤ 2 ^ (53 : Int) := by exact_mod_cast hb
  have hn' : (0 : ℝ) < n := by exact_mod_cast hn0
  have hnb : (n : ℝ) ≤ 2 ^ (53 : Int) := by exact_mod_cast hn
  have hlt : CxxFloat.lt (.fin 0 : Num A) (.fin (b : ℝ)) = true := decide_eq_true hb1
  have hnew : ∃ s : LinSpace (Num A), LinSpace.new (.fin 0) (.fin (b : ℝ)) n = .ok s := by
    unfold LinSpace.new
    rw [if_pos hlt]
    exact ⟨_, rfl⟩
  obtain ⟨s, hs⟩ := hnew
  have hd : Double ((b : Nat) : ℝ) := by
    have := double_int (K := ℝ) (n := (b : Int)) (by rw [abs_of_nonneg (by positivity)]; exact_mod_cast hb)
    exact_mod_cast this
  have big : (2 : ℝ) ^ (53 : Int) ≤ 2 ^ (1020 : Int) := zpow_le_zpow_right₀ one_le_two (by norm_num)
  have hstep : (2 : ℝ) ^ (-1021 : Int) ≤ ((b : ℝ) - 0) / n := by
    rw [sub_zero, le_div_iff₀ hn']
    have h1 : (2 : ℝ) ^ (-1021 : Int) * n ≤ (2 : ℝ) ^ (-1021 : Int) * 2 ^ (53 : Int) :=
      mul_le_mul_of_nonneg_left hnb (two_zpow_pos _).le
    refine h1.trans ?_
    rw [← zpow_add₀ two_ne_zero]
    refine (zpow_le_one_of_nonpos₀ one_le_two (by norm_num)).trans ?_
    exact_mod_cast hb0
  refine ⟨s, hs, ?_⟩
  have h2 := (linValue_error 0 b (by have := double_int (K := ℝ) (n := 0) (by norm_num); exact_mod_cast this) hd hb1 n hn0 hstep n hn0).2
  refine linSpace_double hA 0 b ?_ ?_ n hn0 hn s hs n hn0 le_rfl (h2.trans ?_)
  · rw [abs_zero]; exact (two_zpow_pos _).le
  · rw [abs_of_pos hb1]; exact hb2.trans big
  · have e : (n : ℝ) * (((b : ℝ) - 0) / n) = b := by field_simp; ring
    rw [e]
    calc 2 * (b : ℝ) ≤ 2 * 2 ^ (53 : Int) := by linarith only [hb2]
      _ = (2 : ℝ) ^ (54 : Int) := by norm_num
      _ ≤ _ := zpow_le_zpow_right₀ one_le_two (by norm_num)

/-- C110 (violated).  The value after all the steps need not be the end of the interval, in binary64: from 0 to 7 in 25
steps it is 7 + 2^-50, outside the interval, and from 0 to 1 in 49 steps it is 1 - 2^-53. -/
theorem C110_end_violated (hA : A.IsBinary64) :
    (∃ s : LinSpace (Num A), LinSpace.new (.fin 0) (.fin 7) 25 = .ok s ∧ (LinSpace.incr^[25] s).deref = .fin (7 + 1 / 2 ^ 50)) ∧
    (∃ s : LinSpace (Num A), LinSpace.new (.fin 0) (.fin 1) 49 = .ok s ∧ (LinSpace.incr^[49] s).deref = .fin (1 - 1 / 2 ^ 53)) := by
  constructor
  · obtain ⟨s, h1, h2⟩ := linSpace_from_zero hA 7 (by norm_num) (by norm_num) 25 (by norm_num) (by norm_num)
    refine ⟨s, by simpa using h1, ?_⟩
    rw [h2, ← linValue_seven]; norm_num
  · obtain ⟨s, h1, h2⟩ := linSpace_from_zero hA 1 (by norm_num) (by norm_num) 49 (by norm_num) (by norm_num)
    refine ⟨s, by simpa using h1, ?_⟩
    rw [h2, ← linValue_one]; norm_num

end

/- The hypotheses hold: from 0 to 7 in 25 steps the last value is near 7, and from 0 to 1 in 4 steps it is 1. -/
example : ∃ v : ℝ, ∃ s : LinSpace (Num doubleArith), LinSpace.new (.fin 0) (.fin 7) 25 = .ok s ∧
    (LinSpace.incr^[25] s).deref = .fin v ∧ |v - 7| ≤ 35 / 2 ^ 53 := by
  obtain ⟨s, h1, _⟩ := (C110_end_violated (A := doubleArith) doubleArith_isBinary64).1
  obtain ⟨v, h2, h3⟩ := C110_error_partial doubleArith_isBinary64 0 7
    (by have := double_int (K := ℝ) (n := 0) (by norm_num); exact_mod_cast this)
    (by have := double_int (K := ℝ) (n := 7) (by norm_num); exact_mod_cast this)
    (by rw [abs_zero]; exact (two_zpow_pos _).le)
    (by
      rw [abs_of_pos (by norm_num)]
      exact (by norm_num : (7 : ℝ) ≤ 2 ^ (3 : Int)).trans (zpow_le_zpow_right₀ one_le_two (by norm_num)))
    25 (by norm_num) (by norm_num)
    ((zpow_le_zpow_right₀ one_le_two (by norm_num : (-1021 : Int) ≤ -2)).trans (by norm_num)) s h1 25 (by norm_num) le_rfl
  refine ⟨v, s, h1, h2, ?_⟩
  norm_num at h3 ⊢
  linarith

example : ∃ s : LinSpace (Num doubleArith), LinSpace.new (.fin 0) (.fin 1) 4 = .ok s ∧ (LinSpace.incr^[4] s).deref = .fin 1 := by
  obtain ⟨s, h1, _⟩ := linSpace_from_zero doubleArith_isBinary64 1 (by norm_num) (by norm_num) 4 (by norm_num) (by norm_num)
  have h1' : LinSpace.new (.fin 0 : Num doubleArith) (.fin 1) 4 = .ok s := by simpa using h1
  have hd : Double (1 : ℝ) := by have := double_int (K := ℝ) (n := 1) (by norm_num); exact_mod_cast this
  refine ⟨s, h1', (C110_exact_partial doubleArith_isBinary64 0 1 ?_ ?_ one_pos 4 (by norm_num) (by norm_num) s h1' 4 (by norm_num)
    le_rfl ?_ ?_ ?_ ?_).2 rfl⟩
  · rw [abs_zero]; exact (two_zpow_pos _).le
  · rw [abs_one]; exact one_le_zpow₀ one_le_two (by norm_num)
  · simpa using hd
  · exact ⟨1, -2, by norm_num, by norm_num, by norm_num⟩
  · norm_num; exact hd
  · norm_num; exact hd
end Bwsl
