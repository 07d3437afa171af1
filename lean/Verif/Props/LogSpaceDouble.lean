import Verif.Props.LinSpaceDouble
import Verif.Props.LogSpace
import Verif.Lemmas.LogDouble

/-! Property C113: logarithmically spaced values in double precision. -/

namespace Bwsl
open Spec

variable {A : Arith ℝ}

/-- Binary64 with correctly rounded elementary functions. -/
structure Spec.IsCorrectlyRounded (A : Arith ℝ) : Prop where
  binary64 : A.IsBinary64
  exp : A.exp = Real.exp
  log : A.log = Real.log
  pow : A.pow = Real.rpow

/-- The factor between consecutive values. -/
noncomputable def Spec.logFactor (a b : ℝ) (n : Nat) : ℝ :=
  rn (rn (Real.exp 1) ^ rn (rn (rn (Real.log b) - rn (Real.log a)) / n))

/-- The value after `k` increments. -/
noncomputable def Spec.logValue (a r : ℝ) : Nat → ℝ
  | 0 => a
  | k + 1 => rn (logValue a r k * r)

theorem double_one : Double (1 : ℝ) := by have := double_int (K := ℝ) (n := 1) (by norm_num); exact_mod_cast this

theorem le_of_log_le {x : ℝ} (hx : 0 < x) (h : Real.log x ≤ 600) : x ≤ (2 : ℝ) ^ (1000 : Int) := by
  have h2 : Real.log ((2 : ℝ) ^ (1000 : Int)) = 1000 * Real.log 2 := by rw [Real.log_zpow]; norm_num
  have := Real.log_two_gt_d9
  refine (Real.log_le_log_iff hx (two_zpow_pos _)).1 ?_
  rw [h2]
  norm_num at this
  linarith

theorem log_bounds {x : ℝ} (h1 : (2 : ℝ) ^ (-400 : Int) ≤ x) (h2 : x ≤ (2 : ℝ) ^ (400 : Int)) : |Real.log x| ≤ 280 := by
  have hx : 0 < x := (two_zpow_pos _).trans_le h1
  have l1 : Real.log ((2 : ℝ) ^ (-400 : Int)) = -400 * Real.log 2 := by rw [Real.log_zpow]; norm_num
  have l2 : Real.log ((2 : ℝ) ^ (400 : Int)) = 400 * Real.log 2 := by rw [Real.log_zpow]; norm_num
  have g1 := Real.log_le_log (two_zpow_pos _) h1
  have g2 := Real.log_le_log hx h2
  have := Real.log_two_lt_d9
  rw [l1] at g1
  rw [l2] at g2
  rw [abs_le]
  norm_num at this
  constructor <;> linarith

theorem normal_of_one_le {x : ℝ} (h : 1 ≤ x) : (2 : ℝ) ^ (-1022 : Int) ≤ x :=
  (zpow_le_one_of_nonpos₀ one_le_two (by norm_num)).trans h

/-- The rounded base of the natural logarithm. -/
theorem rn_e : 1 ≤ rn (Real.exp 1) ∧ |Real.log (rn (Real.exp 1)) - 1| ≤ 2 / 2 ^ 53 := by
  have h1 : (1 : ℝ) ≤ Real.exp 1 := Real.one_le_exp zero_le_one
  have h2 := rn_mono h1
  rw [rn_double double_one] at h2
  have := (log_rn (normal_of_one_le h1)).2
  rw [Real.log_exp] at this
  exact ⟨h2, this⟩

theorem logFactor_error {a b : ℝ} (ha : 0 < a) (hab : a ≤ b) {n : Nat} (hn : 0 < n) :
    1 ≤ logFactor a b n ∧ |n * Real.log (logFactor a b n) - (Real.log b - Real.log a)| ≤
      7 / 2 ^ 53 * (|Real.log a| + |Real.log b|) + 3 * n / 2 ^ 53 := by
  have hn' : (1 : ℝ) ≤ n := by exact_mod_cast hn
  obtain ⟨hy0, hy⟩ := quotient_error (Real.log_le_log ha hab) hn
  obtain ⟨hE1, hE⟩ := rn_e
  unfold logFactor
  set E := rn (Real.exp 1)
  set y := rn (rn (rn (Real.log b) - rn (Real.log a)) / n)
  have hp : 1 ≤ E ^ y := Real.one_le_rpow hE1 hy0
  have hB1 := rn_mono hp
  rw [rn_double double_one] at hB1
  have hB := (log_rn (normal_of_one_le hp)).2
  rw [Real.log_rpow (by linarith)] at hB
  refine ⟨hB1, ?_⟩
  have hT : Real.log b - Real.log a ≤ |Real.log a| + |Real.log b| := by
    have := neg_abs_le (Real.log a)
    have := le_abs_self (Real.log b)
    linarith
  have p1 := abs_nonneg (Real.log a)
  have p2 := abs_nonneg (Real.log b)
  have key1 : |n * (Real.log (rn (E ^ y)) - y * Real.log E)| ≤ n * (2 / 2 ^ 53) := by
    rw [abs_mul, abs_of_pos (by linarith)]
    exact mul_le_mul_of_nonneg_left hB (by linarith)
  have key2 : |n * y * (Real.log E - 1)| ≤ n * y * (2 / 2 ^ 53) := by
    rw [abs_mul, abs_of_nonneg (by positivity)]
    exact mul_le_mul_of_nonneg_left hE (by positivity)
  have e : n * Real.log (rn (E ^ y)) - (Real.log b - Real.log a) =
      n * (Real.log (rn (E ^ y)) - y * Real.log E) + n * y * (Real.log E - 1) + (n * y - (Real.log b - Real.log a)) := by ring
  rw [e]
  generalize n * (Real.log (rn (E ^ y)) - y * Real.log E) = X1 at *
  generalize (n : ℝ) * y * (Real.log E - 1) = X2 at *
  generalize (n : ℝ) * y = Y at *
  generalize |Real.log a| = p at *
  generalize |Real.log b| = q at *
  generalize Real.log b - Real.log a = d at *
  obtain ⟨a1, a2⟩ := abs_le.1 hy
  obtain ⟨b1, b2⟩ := abs_le.1 key1
  obtain ⟨c1, c2⟩ := abs_le.1 key2
  rw [add_div] at a1 a2
  rw [abs_le]
  norm_num at a1 a2 b1 b2 c1 c2 ⊢
  constructor <;> linarith

/-- The values do not decrease. -/
theorem logValue_mono {a r : ℝ} (ha : Double a) (ha0 : 0 < a) (hr : 1 ≤ r) (k : Nat) :
    Double (logValue a r k) ∧ a ≤ logValue a r k ∧ logValue a r k ≤ logValue a r (k + 1) := by
  have step : ∀ v : ℝ, Double v → 0 < v → v ≤ rn (v * r) := by
    intro v hv h0
    have := rn_mono (le_mul_of_one_le_right h0.le hr)
    rwa [rn_double hv] at this
  induction k with
  | zero => exact ⟨ha, le_rfl, step a ha ha0⟩
  | succ k ih =>
    obtain ⟨h1, h2, h3⟩ := ih
    have hd : Double (logValue a r (k + 1)) := rn_isDouble _
    exact ⟨hd, h2.trans h3, step _ hd (ha0.trans_le (h2.trans h3))⟩

/-- The logarithm of the rounded product. -/
theorem logValue_log {a r : ℝ} (ha : Double a) (ha0 : (2 : ℝ) ^ (-400 : Int) ≤ a) (hr : 1 ≤ r) (k : Nat) :
    |Real.log (logValue a r k) - (Real.log a + k * Real.log r)| ≤ 2 * k / 2 ^ 53 := by
  have hpos : 0 < a := (two_zpow_pos _).trans_le ha0
  induction k with
  | zero => simp [logValue]
  | succ k ih =>
    obtain ⟨_, h2, _⟩ := logValue_mono ha hpos hr k
    have hv : 0 < logValue a r k := hpos.trans_le h2
    have hn : (2 : ℝ) ^ (-1022 : Int) ≤ logValue a r k * r := by
      refine le_trans ?_ ((ha0.trans h2).trans (le_mul_of_one_le_right hv.le hr))
      exact zpow_le_zpow_right₀ one_le_two (by norm_num)
    have h3 := (log_rn hn).2
    rw [Real.log_mul hv.ne' (by linarith)] at h3
    show |Real.log (rn (logValue a r k * r)) - _| ≤ _
    have e : Real.log (rn (logValue a r k * r)) - (Real.log a + ((k + 1 : Nat) : ℝ) * Real.log r) =
        (Real.log (rn (logValue a r k * r)) - (Real.log (logValue a r k) + Real.log r)) +
        (Real.log (logValue a r k) - (Real.log a + k * Real.log r)) := by push_cast; ring
    rw [e]
    refine (abs_add_le _ _).trans ?_
    push_cast
    have : (2 * ((k : ℝ) + 1) / 2 ^ 53) = 2 / 2 ^ 53 + 2 * k / 2 ^ 53 := by ring
    rw [this]
    linarith

/-- The error of the value after `k` increments, on a logarithmic scale. -/
theorem logValue_error {a b : ℝ} (ha : Double a) (ha0 : (2 : ℝ) ^ (-400 : Int) ≤ a) (hab : a ≤ b) {n : Nat} (hn : 0 < n) {k : Nat}
    (hk : k ≤ n) :
    |Real.log (logValue a (logFactor a b n) k) - (Real.log a + k / n * (Real.log b - Real.log a))| ≤
      (5 * k + 7 * (|Real.log a| + |Real.log b|)) / 2 ^ 53 ∧
    Real.log a + k * Real.log (logFactor a b n) ≤ Real.log a + k / n * (Real.log b - Real.log a) +
      (3 * k + 7 * (|Real.log a| + |Real.log b|)) / 2 ^ 53 := by
  have hpos : 0 < a := (two_zpow_pos _).trans_le ha0
  have hn' : (0 : ℝ) < n := by exact_mod_cast hn
  have hkn : (k : ℝ) / n ≤ 1 := by rw [div_le_one hn']; exact_mod_cast hk
  have hk0 : (0 : ℝ) ≤ (k : ℝ) / n := by positivity
  obtain ⟨hr, h1⟩ := logFactor_error hpos hab hn
  have h2 := logValue_log ha ha0 hr k
  set r := logFactor a b n
  have hT : 0 ≤ |Real.log a| + |Real.log b| := by positivity
  set T := |Real.log a| + |Real.log b|
  have h3 : |(k : ℝ) * Real.log r - k / n * (Real.log b - Real.log a)| ≤ (3 * k + 7 * T) / 2 ^ 53 := by
    have e : (k : ℝ) * Real.log r - k / n * (Real.log b - Real.log a) = k / n * (n * Real.log r - (Real.log b - Real.log a)) := by
      field_simp
    rw [e, abs_mul, abs_of_nonneg hk0]
    calc _ ≤ (k : ℝ) / n * (7 / 2 ^ 53 * T + 3 * n / 2 ^ 53) := mul_le_mul_of_nonneg_left h1 hk0
      _ = (k : ℝ) / n * (7 * T) / 2 ^ 53 + 3 * k / 2 ^ 53 := by field_simp
      _ ≤ 1 * (7 * T) / 2 ^ 53 + 3 * k / 2 ^ 53 := by
        gcongr
      _ = _ := by ring
  obtain ⟨a1, a2⟩ := abs_le.1 h2
  obtain ⟨b1, b2⟩ := abs_le.1 h3
  refine ⟨?_, by linarith⟩
  have e1 : (5 * (k : ℝ) + 7 * T) / 2 ^ 53 = (3 * k + 7 * T) / 2 ^ 53 + 2 * k / 2 ^ 53 := by ring
  rw [e1, abs_le]
  constructor <;> linarith

theorem log_fin (hA : IsCorrectlyRounded A) {x : ℝ} (h1 : (2 : ℝ) ^ (-400 : Int) ≤ x) (h2 : x ≤ (2 : ℝ) ^ (400 : Int)) :
    CxxFloat.log (.fin x : Num A) = .fin (rn (Real.log x)) := by
  have hx : 0 < x := (two_zpow_pos _).trans_le h1
  show (if (Num.fin x : Num A) = .fin 0 then _ else if decide (0 < x) = true then Num.round A (A.log x) else Num.nan) = _
  rw [if_neg (by simp [hx.ne']), if_pos (decide_eq_true hx), hA.log, round_of_le_two hA.binary64]
  refine (log_bounds h1 h2).trans ?_
  calc (280 : ℝ) ≤ 2 ^ (9 : Int) := by norm_num
    _ ≤ _ := zpow_le_zpow_right₀ one_le_two (by norm_num)

/-- The factor that the constructor computes. -/
theorem factor_double (hA : IsCorrectlyRounded A) {a b : ℝ} (ha : (2 : ℝ) ^ (-400 : Int) ≤ a) (hab : a < b)
    (hb : b ≤ (2 : ℝ) ^ (400 : Int)) {n : Nat} (hn : 0 < n) (hn50 : n ≤ 2 ^ 50) :
    LogSpace.factor (.fin a : Num A) (.fin b) n = .fin (logFactor a b n) := by
  have hpos : 0 < a := (two_zpow_pos _).trans_le ha
  have hn' : (1 : ℝ) ≤ n := by exact_mod_cast hn
  have hn2 : (n : ℝ) ≤ 2 ^ 50 := by exact_mod_cast hn50
  have hla := log_bounds ha (hab.le.trans hb)
  have hlb := log_bounds (ha.trans hab.le) hb
  obtain ⟨hy0, hy⟩ := quotient_error (Real.log_le_log hpos hab.le) hn
  obtain ⟨hE1, hE⟩ := rn_e
  have small : ∀ x : ℝ, |x| ≤ 2 ^ 20 → Num.round A x = .fin (rn x) := by
    intro x hx
    refine round_of_le_two hA.binary64 (hx.trans ?_)
    have : ((2 : ℝ) ^ 20) = 2 ^ (20 : Int) := by norm_num
    rw [this]
    exact zpow_le_zpow_right₀ one_le_two (by norm_num)
  have r1 := rn_abs (Real.log a)
  have r2 := rn_abs (Real.log b)
  have r3 := rn_abs (rn (Real.log b) - rn (Real.log a))
  obtain ⟨l1, l2⟩ := abs_le.1 hla
  obtain ⟨l3, l4⟩ := abs_le.1 hlb
  have c1 : |rn (Real.log b) - rn (Real.log a)| ≤ 600 := by
    obtain ⟨m1, m2⟩ := abs_le.1 r1
    obtain ⟨m3, m4⟩ := abs_le.1 r2
    rw [abs_le]
    norm_num at *
    constructor <;> linarith
  have c2 : |rn (rn (Real.log b) - rn (Real.log a))| ≤ 700 := by
    obtain ⟨m1, m2⟩ := abs_le.1 r3
    obtain ⟨m3, m4⟩ := abs_le.1 c1
    rw [abs_le]
    norm_num at *
    constructor <;> linarith
  have c3 : |rn (rn (Real.log b) - rn (Real.log a)) / n| ≤ 700 := by
    rw [abs_div, abs_of_pos (by linarith : (0 : ℝ) < n)]
    exact (div_le_self (abs_nonneg _) hn').trans c2
  unfold LogSpace.factor logFactor
  have eE : (CxxFloat.e : Num A) = .fin (rn (Real.exp 1)) := by
    show Num.round A (A.exp 1) = _
    rw [hA.exp]
    refine small _ ?_
    rw [abs_of_pos (Real.exp_pos 1)]
    have := Real.exp_one_lt_d9
    norm_num at this ⊢
    linarith
  rw [log_fin hA ha (hab.le.trans hb), log_fin hA (ha.trans hab.le) hb, Num.fin_sub, small _ (c1.trans (by norm_num)), Num.ofNat_eq,
    round_nat hA.binary64 (hn50.trans (by norm_num)), Num.fin_div (by linarith), small _ (c3.trans (by norm_num)), eE]
  obtain ⟨hB1, hB⟩ := logFactor_error hpos hab.le hn
  set E := rn (Real.exp 1)
  set y := rn (rn (rn (Real.log b) - rn (Real.log a)) / n)
  have hp : 1 ≤ E ^ y := Real.one_le_rpow hE1 hy0
  show Num.pow _ _ = _
  unfold Num.pow
  split
  · rename_i h
    have : E ^ y = 1 := by
      rcases h with h | h <;> rw [Num.fin.injEq] at h <;> rw [h] <;> simp
    rw [this, rn_double double_one]
  · show (if E = 0 ∧ y < 0 then _ else Num.round A (A.pow E y)) = _
    rw [if_neg (by rintro ⟨_, h⟩; linarith), hA.pow]
    show Num.round A (E ^ y) = _
    refine round_of_le_two hA.binary64 ?_
    rw [abs_of_pos (by linarith)]
    refine (le_of_log_le (by linarith) ?_).trans (zpow_le_zpow_right₀ one_le_two (by norm_num))
    rw [Real.log_rpow (by linarith)]
    have hy2 : y ≤ n * y := le_mul_of_one_le_left hy0 hn'
    have hlogE : Real.log E ≤ 1 + 2 / 2 ^ 53 := by linarith [(abs_le.1 hE).2]
    have h5 : y * Real.log E ≤ y * (1 + 2 / 2 ^ 53) := mul_le_mul_of_nonneg_left hlogE hy0
    have h6 := (abs_le.1 hy).2
    have h7 : (n + 10 : ℝ) / 2 ^ 200 ≤ 1 := by rw [div_le_one (by norm_num)]; linarith [hn2, (by norm_num : (2 : ℝ) ^ 50 + 10 ≤ 2 ^ 200)]
    generalize (n : ℝ) * y = Y at *
    generalize y * Real.log E = Z at *
    norm_num at h5 h6 ⊢
    linarith

/-- The values as computed. -/
theorem logSpace_double (hA : IsCorrectlyRounded A) {a b : ℝ} (ha : Double a) (ha0 : (2 : ℝ) ^ (-400 : Int) ≤ a) (hab : a < b)
    (hb : b ≤ (2 : ℝ) ^ (400 : Int)) {n : Nat} (hn : 0 < n) (hn50 : n ≤ 2 ^ 50) (k : Nat) (hk : k ≤ n) :
    LogSpace.incr^[k] (⟨.fin (logFactor a b n), .fin a, .fin a, .fin b, n, 0⟩ : LogSpace (Num A)) =
      ⟨.fin (logFactor a b n), .fin (logValue a (logFactor a b n) k), .fin a, .fin b, n, k⟩ := by
  have hpos : 0 < a := (two_zpow_pos _).trans_le ha0
  have hn' : (0 : ℝ) < n := by exact_mod_cast hn
  have hn2 : (n : ℝ) ≤ 2 ^ 50 := by exact_mod_cast hn50
  have hla := log_bounds ha0 (hab.le.trans hb)
  have hlb := log_bounds (ha0.trans hab.le) hb
  obtain ⟨hr, _⟩ := logFactor_error hpos hab.le hn
  induction k with
  | zero => rfl
  | succ k ih =>
    rw [Function.iterate_succ_apply', ih (by omega)]
    unfold LogSpace.incr
    have e : (k + 1) % W64 = k + 1 := Nat.mod_eq_of_lt (by comega)
    simp only [e, Num.fin_mul]
    obtain ⟨_, h2, _⟩ := logValue_mono ha hpos hr k
    have hv : 0 < logValue a (logFactor a b n) k := hpos.trans_le h2
    have hl := (abs_le.1 (logValue_log ha ha0 hr k)).2
    have hbnd := (logValue_error ha ha0 hab.le hn hk).2
    rw [round_of_le_two hA.binary64]
    · rfl
    · have hp : 0 < logValue a (logFactor a b n) k * logFactor a b n := mul_pos hv (by linarith)
      rw [abs_of_pos hp]
      refine (le_of_log_le hp ?_).trans (zpow_le_zpow_right₀ one_le_two (by norm_num))
      rw [Real.log_mul hv.ne' (by linarith)]
      have hk' : ((k + 1 : Nat) : ℝ) ≤ n := by exact_mod_cast hk
      have hq : ((k + 1 : Nat) : ℝ) / n * (Real.log b - Real.log a) ≤ Real.log b - Real.log a := by
        refine mul_le_of_le_one_left (sub_nonneg.2 (Real.log_le_log hpos hab.le)) ?_
        rwa [div_le_one hn']
      generalize ((k + 1 : Nat) : ℝ) / n * (Real.log b - Real.log a) = Q at *
      have hkk : (k : ℝ) + 1 ≤ n := by exact_mod_cast hk
      push_cast at hbnd
      have h8 := le_abs_self (Real.log b)
      have hn3 : (n : ℝ) ≤ 1125899906842624 := hn2.trans (by norm_num)
      norm_num at hbnd hl ⊢
      linarith

/-- C113 (what holds).  In binary64 with correctly rounded elementary functions, the value after `k` of `n` increments is a
finite positive number; on a logarithmic scale it differs from first (last / first)^(k / n) by at most
(5 k + 7 (|log first| + |log last|)) 2^-53.  The bounds are doubles between 2^-400 and 2^400, and there are at most 2^50 steps. -/
theorem C113_error_partial (hA : IsCorrectlyRounded A) (a b : ℝ) (ha : Double a) (ha0 : (2 : ℝ) ^ (-400 : Int) ≤ a)
    (hb : b ≤ (2 : ℝ) ^ (400 : Int)) (n : Nat) (hn : 0 < n) (hn50 : n ≤ 2 ^ 50) (s : LogSpace (Num A))
    (hs : LogSpace.new (.fin a) (.fin b) n = .ok s) (k : Nat) (hk : k ≤ n) :
    ∃ v : ℝ, (LogSpace.incr^[k] s).deref = .fin v ∧ 0 < v ∧
      |Real.log v - Real.log (a * (b / a) ^ ((k : ℝ) / n))| ≤ (5 * k + 7 * (|Real.log a| + |Real.log b|)) / 2 ^ 53 := by
  have hpos : 0 < a := (two_zpow_pos _).trans_le ha0
  unfold LogSpace.new at hs
  rw [Num.lt_fin] at hs
  split at hs
  · rename_i hab
    have hab : a < b := of_decide_eq_true hab
    rw [factor_double hA ha0 hab hb hn hn50, Res.ok.injEq] at hs
    subst hs
    rw [logSpace_double hA ha ha0 hab hb hn hn50 k hk]
    obtain ⟨hr, _⟩ := logFactor_error hpos hab.le hn
    refine ⟨_, rfl, hpos.trans_le (logValue_mono ha hpos hr k).2.1, ?_⟩
    have hb0 := hpos.trans hab
    rw [Real.log_mul hpos.ne' (Real.rpow_pos_of_pos (div_pos hb0 hpos) _).ne', Real.log_rpow (div_pos hb0 hpos),
      Real.log_div hb0.ne' hpos.ne']
    exact (logValue_error ha ha0 hab.le hn hk).1
  · cases hs

/-- C113 (what holds).  The values do not decrease, and none is below the first. -/
theorem C113_monotone_partial (hA : IsCorrectlyRounded A) (a b : ℝ) (ha : Double a) (ha0 : (2 : ℝ) ^ (-400 : Int) ≤ a)
    (hb : b ≤ (2 : ℝ) ^ (400 : Int)) (n : Nat) (hn : 0 < n) (hn50 : n ≤ 2 ^ 50) (s : LogSpace (Num A))
    (hs : LogSpace.new (.fin a) (.fin b) n = .ok s) (j k : Nat) (hjk : j ≤ k) (hk : k ≤ n) :
    CxxFloat.le (.fin a) (LogSpace.incr^[j] s).deref = true ∧
    CxxFloat.le (LogSpace.incr^[j] s).deref (LogSpace.incr^[k] s).deref = true := by
  have hpos : 0 < a := (two_zpow_pos _).trans_le ha0
  unfold LogSpace.new at hs
  rw [Num.lt_fin] at hs
  split at hs
  · rename_i hab
    have hab : a < b := of_decide_eq_true hab
    rw [factor_double hA ha0 hab hb hn hn50, Res.ok.injEq] at hs
    subst hs
    rw [logSpace_double hA ha ha0 hab hb hn hn50 k hk, logSpace_double hA ha ha0 hab hb hn hn50 j (hjk.trans hk)]
    obtain ⟨hr, _⟩ := logFactor_error hpos hab.le hn
    unfold LogSpace.deref
    simp only
    rw [Num.le_fin, Num.le_fin]
    refine ⟨decide_eq_true (logValue_mono ha hpos hr j).2.1, decide_eq_true ?_⟩
    exact monotone_nat_of_le_succ (f := logValue a (logFactor a b n)) (fun i => (logValue_mono ha hpos hr i).2.2) hjk
  · cases hs

/-! ### Two steps from 1 to the next double -/

theorem rn_e_le : rn (Real.exp 1) ≤ Real.exp 1 := by
  have h := Real.exp_one_near_20
  obtain ⟨h1, h2⟩ := abs_le.1 h
  have e : rn (Real.exp 1) = (6121026514868073 : Int) * (2 : ℝ) ^ (1 - 52 : Int) := by
    refine rn_of _ _ (by norm_num) ?_ ?_ ?_
    · rw [abs_of_pos (Real.exp_pos 1)]
      norm_num at h1 h2 ⊢
      linarith
    · rw [abs_of_pos (Real.exp_pos 1)]
      norm_num at h1 h2 ⊢
      linarith
    · rw [abs_lt]
      norm_num at h1 h2 ⊢
      constructor <;> linarith
  rw [e]
  norm_num at h1 h2 ⊢
  linarith

theorem logFactor_one : logFactor 1 (1 + 1 / 2 ^ 52) 2 = 1 := by
  have hlog : rn (Real.log (1 + 1 / 2 ^ 52)) = (9007199254740991 : Int) * (2 : ℝ) ^ (-53 - 52 : Int) := by
    have h := Real.abs_log_sub_add_sum_range_le (x := -(1 / 2 ^ 52)) (by rw [abs_neg]; norm_num [abs_of_pos]) 2
    rw [abs_neg, abs_of_pos (by norm_num : (0 : ℝ) < 1 / 2 ^ 52), sub_neg_eq_add] at h
    obtain ⟨h1, h2⟩ := abs_le.1 h
    generalize Real.log (1 + 1 / 2 ^ 52) = L at *
    norm_num [Finset.sum_range_succ] at h1 h2
    have hL : 0 < L := by linarith
    refine rn_of _ _ (by norm_num) ?_ ?_ ?_
    · rw [abs_of_pos hL]
      norm_num
      linarith
    · rw [abs_of_pos hL]
      norm_num
      linarith
    · rw [abs_lt]
      norm_num
      constructor <;> linarith
  unfold logFactor
  rw [Real.log_one, rn_zero, sub_zero, hlog, rn_double ⟨9007199254740991, _, by norm_num, by norm_num, rfl⟩]
  have hd : Double ((9007199254740991 : Int) * (2 : ℝ) ^ (-53 - 52 : Int) / (2 : Nat)) :=
    ⟨9007199254740991, -54 - 52, by norm_num, by norm_num, by norm_num⟩
  rw [rn_double hd]
  set y : ℝ := (9007199254740991 : Int) * (2 : ℝ) ^ (-53 - 52 : Int) / (2 : Nat) with hy
  have hyv : y = 9007199254740991 / 2 ^ 106 := by rw [hy]; norm_num
  clear_value y
  clear hy hlog
  have hy0 : 0 ≤ y := by rw [hyv]; positivity
  have hE1 := rn_e.1
  have h1 : 1 ≤ rn (Real.exp 1) ^ y := Real.one_le_rpow hE1 hy0
  have h2 : rn (Real.exp 1) ^ y ≤ Real.exp y := by
    calc _ ≤ Real.exp 1 ^ y := Real.rpow_le_rpow (by linarith) rn_e_le hy0
      _ = _ := by rw [← Real.exp_mul, one_mul]
  have h3 := (abs_le.1 (Real.abs_exp_sub_one_sub_id_le (x := y) (by rw [abs_of_nonneg hy0, hyv]; norm_num))).2
  have h4 : rn (Real.exp 1) ^ y - 1 < 1 / 2 ^ 53 := by
    have : y + y ^ 2 < 1 / 2 ^ 53 := by rw [hyv]; norm_num
    linarith only [this, h2, h3]
  have e := rn_of (x := rn (Real.exp 1) ^ y) 0 (2 ^ 52) (by norm_num) (by rw [abs_of_pos (by linarith)]; simpa using h1)
    (by rw [abs_of_pos (by linarith)]; norm_num at h4 ⊢; linarith)
    (by rw [abs_lt]; norm_num at h4 ⊢; constructor <;> linarith)
  rw [e]
  norm_num

theorem logValue_one (k : Nat) : logValue 1 1 k = 1 := by
  induction k with
  | zero => rfl
  | succ k ih =>
    show rn (logValue 1 1 k * 1) = 1
    rw [ih, mul_one, rn_double double_one]

/-- C113 (violated).  The values need not increase and the last need not be the end of the interval: two steps from 1 to the
next larger double stay at 1. -/
theorem C113_end_violated (hA : IsCorrectlyRounded A) :
    ∃ s : LogSpace (Num A), LogSpace.new (.fin 1) (.fin (1 + 1 / 2 ^ 52)) 2 = .ok s ∧ Double (1 + 1 / 2 ^ 52 : ℝ) ∧
      ∀ k ≤ 2, (LogSpace.incr^[k] s).deref = .fin 1 := by
  have h1 : (2 : ℝ) ^ (-400 : Int) ≤ 1 := zpow_le_one_of_nonpos₀ one_le_two (by norm_num)
  have h2 : (1 : ℝ) < 1 + 1 / 2 ^ 52 := by norm_num
  have h3 : (1 : ℝ) + 1 / 2 ^ 52 ≤ (2 : ℝ) ^ (400 : Int) := by
    calc (1 : ℝ) + 1 / 2 ^ 52 ≤ 2 ^ (1 : Int) := by norm_num
      _ ≤ _ := zpow_le_zpow_right₀ one_le_two (by norm_num)
  refine ⟨⟨.fin 1, .fin 1, .fin 1, .fin (1 + 1 / 2 ^ 52), 2, 0⟩, ?_, ⟨2 ^ 52 + 1, -52, by norm_num, by norm_num, by norm_num⟩, ?_⟩
  · unfold LogSpace.new
    rw [Num.lt_fin, if_pos (decide_eq_true h2), factor_double hA h1 h2 h3 (by norm_num) (by norm_num), logFactor_one]
  · intro k hk
    have := logSpace_double hA double_one h1 h2 h3 (n := 2) (by norm_num) (by norm_num) k hk
    rw [logFactor_one, logValue_one] at this
    rw [this]
    rfl

theorem doubleArith_isCorrectlyRounded : IsCorrectlyRounded doubleArith := ⟨doubleArith_isBinary64, rfl, rfl, rfl⟩

/- The hypotheses hold: three steps from 1 to 1024, where the exact value after one step is 2^(10/3). -/
example : ∃ s : LogSpace (Num doubleArith), ∃ v : ℝ, LogSpace.new (.fin 1) (.fin 1024) 3 = .ok s ∧
    (LogSpace.incr^[3] s).deref = .fin v ∧ |Real.log v - Real.log 1024| ≤ (15 + 7 * Real.log 1024) / 2 ^ 53 := by
  have h1 : (2 : ℝ) ^ (-400 : Int) ≤ 1 := zpow_le_one_of_nonpos₀ one_le_two (by norm_num)
  have h3 : (1024 : ℝ) ≤ (2 : ℝ) ^ (400 : Int) := by
    calc (1024 : ℝ) = 2 ^ (10 : Int) := by norm_num
      _ ≤ _ := zpow_le_zpow_right₀ one_le_two (by norm_num)
  have hs : ∃ s : LogSpace (Num doubleArith), LogSpace.new (.fin 1) (.fin 1024) 3 = .ok s := by
    unfold LogSpace.new
    rw [Num.lt_fin, if_pos (decide_eq_true (by norm_num))]
    exact ⟨_, rfl⟩
  obtain ⟨s, hs⟩ := hs
  obtain ⟨v, hv, _, he⟩ := C113_error_partial doubleArith_isCorrectlyRounded 1 1024 double_one h1 h3 3 (by norm_num) (by norm_num)
    s hs 3 le_rfl
  refine ⟨s, v, hs, hv, ?_⟩
  have hl : 0 ≤ Real.log 1024 := Real.log_nonneg (by norm_num)
  rw [Real.log_one, abs_zero, zero_add, abs_of_nonneg hl] at he
  norm_num at he ⊢
  linarith

end Bwsl
