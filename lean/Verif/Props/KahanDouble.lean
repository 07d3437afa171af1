import Verif.Props.KahanBound
import Verif.Props.PrintSci
import Verif.Props.LerpDouble

/-! Property C132: means of the Kahan accumulator and rows of tables in double precision. -/

namespace Bwsl
open Spec

section
variable {A : Arith ℝ}

theorem huge_scale {x : ℝ} {S : ℝ} (hS : S ≤ (2 : ℝ) ^ (1020 : Int)) (h : |x| ≤ 8 * S) : |x| ≤ (2 : ℝ) ^ (1023 : Int) := by
  refine h.trans ?_
  rw [show (2 : ℝ) ^ (1023 : Int) = 8 * 2 ^ (1020 : Int) by
    rw [show (1023 : Int) = 3 + 1020 by norm_num, zpow_add₀ two_ne_zero]; norm_num]
  linarith

theorem finDouble_rn {x : ℝ} (h : |x| ≤ (2 : ℝ) ^ (1023 : Int)) : FinDouble (rn x) := by
  refine ⟨rn_isDouble x, lt_of_le_of_lt (abs_le.2 ⟨?_, ?_⟩) (zpow_lt_zpow_right₀ one_lt_two (show (1023 : Int) < 1024 by norm_num))⟩
  · have := rn_mono (neg_le_of_abs_le h)
    rwa [rn_neg, rn_double (double_two_zpow (by norm_num))] at this
  · have := rn_mono (le_of_abs_le h)
    rwa [rn_double (double_two_zpow (by norm_num))] at this

theorem abs_rn_sub {a b : ℝ} (ha : Double a) (hb : Double b) : |rn (a - b)| ≤ 1001 / 1000 * |a - b| := by
  have h1 := rn_sub_rel ha hb
  have h2 := abs_sub_abs_le_abs_sub (rn (a - b)) (a - b)
  have h3 := mul_le_mul_of_nonneg_right (u_small (K := ℝ)) (abs_nonneg (a - b))
  linarith

/-- Sums that stay below 2^1020 in absolute value do not overflow. -/
theorem kahan_no_overflow (hA : A.IsBinary64) (xs : List ℝ) (hx : ∀ x ∈ xs, FinDouble x) (hn : xs.length ≤ 2 ^ 49)
    (hS : sumAbs xs ≤ (2 : ℝ) ^ (1020 : Int)) :
    ∃ s c, (xs.map .fin).foldl Kahan.addCore (Kahan.new : Kahan (Num A)) = ⟨.fin s, .fin c, xs.length⟩ := by
  induction xs using List.reverseRecOn with
  | nil => exact ⟨0, 0, rfl⟩
  | append_singleton xs x ih =>
    rw [List.length_append, List.length_singleton] at hn
    rw [sumAbs_snoc] at hS
    have hx0 := hx x (by simp)
    have hp := abs_nonneg x
    have hS0 := sumAbs_nonneg xs
    obtain ⟨s, c, h⟩ := ih (fun y hy => hx y (by simp [hy])) (by omega) (by linarith)
    have ht := kahan_finite hA xs (fun y hy => hx y (by simp [hy])) h
    obtain ⟨b1, b2⟩ := ht.bounds (by omega)
    have hk := kappa_le (K := ℝ) (show xs.length ≤ 2 ^ 49 by omega)
    obtain ⟨-, -, j3⟩ := kahan_bound_step ht.fin.1.1 ht.fin.2.1 hx0.1 (by have := u_pos (K := ℝ); positivity) hk (abs_sum_le xs) b1 b2
    have hu := u_small (K := ℝ)
    have hu0 := u_pos (K := ℝ)
    have hκ0 : 0 ≤ 12 * (xs.length : ℝ) * unitRoundoff ℝ ^ 2 := by positivity
    have hu2 : 12 * unitRoundoff ℝ ^ 2 ≤ unitRoundoff ℝ := by
      rw [pow_two]
      have := mul_le_mul_of_nonneg_right hu hu0.le
      linarith
    have hX := abs_sum_le xs
    generalize hκ : 12 * (xs.length : ℝ) * unitRoundoff ℝ ^ 2 = κ at *
    generalize unitRoundoff ℝ = u at *
    have q1 : |c| ≤ (sumAbs xs) / 100 := b1.trans (by nlinarith)
    have q2 : |s - c - xs.sum| ≤ (sumAbs xs) / 100 := b2.trans (by nlinarith)
    have q3 : |s| ≤ 102 / 100 * sumAbs xs := by
      have := abs_add_le (s - c - xs.sum) (c + xs.sum)
      have := abs_add_le c xs.sum
      rw [show s - c - xs.sum + (c + xs.sum) = s by ring] at *
      linarith
    have q4 : |x - c| ≤ |x| + sumAbs xs / 100 := (abs_sub _ _).trans (by linarith)
    have q5 : |rn (x - c)| ≤ 1001 / 1000 * (|x| + sumAbs xs / 100) := (abs_rn_sub hx0.1 ht.fin.2.1).trans (by linarith)
    have q6 : |s + rn (x - c)| ≤ 2 * (sumAbs xs + |x|) := (abs_add_le _ _).trans (by linarith)
    have q7 : |rn (s + rn (x - c))| ≤ 2 * (sumAbs xs + |x|) := by
      have h1 := abs_add_le (rn (s + rn (x - c)) - (xs.sum + x)) (xs.sum + x)
      rw [sub_add_cancel] at h1
      have h2 := abs_add_le xs.sum x
      have h3 : u * |xs.sum + x| + (2 * u + (κ + 12 * u ^ 2)) * (sumAbs xs + |x|) ≤ (sumAbs xs + |x|) / 100 := by
        have a1 : u * |xs.sum + x| ≤ 1 / 1000 * (sumAbs xs + |x|) :=
          mul_le_mul hu (by linarith) (abs_nonneg _) (by norm_num)
        have a2 : (2 * u + (κ + 12 * u ^ 2)) * (sumAbs xs + |x|) ≤ (4 / 1000) * (sumAbs xs + |x|) :=
          mul_le_mul_of_nonneg_right (by linarith) (by linarith)
        linarith
      linarith
    have q8 : |rn (s + rn (x - c)) - s| ≤ 4 * (sumAbs xs + |x|) := (abs_sub _ _).trans (by linarith)
    have q9 : |rn (rn (s + rn (x - c)) - s)| ≤ 1001 / 1000 * (4 * (sumAbs xs + |x|)) :=
      (abs_rn_sub (rn_isDouble _) ht.fin.1.1).trans (by linarith)
    have q10 : |rn (rn (s + rn (x - c)) - s) - rn (x - c)| ≤ 8 * (sumAbs xs + |x|) := (abs_sub _ _).trans (by linarith)
    refine ⟨rn (s + rn (x - c)), rn (rn (rn (s + rn (x - c)) - s) - rn (x - c)), ?_⟩
    rw [List.map_append, List.foldl_append, h]
    simp only [List.map_cons, List.map_nil, List.foldl_cons, List.foldl_nil, Kahan.addCore]
    rw [Num.fin_sub, round_of_le_two hA (huge_scale hS (by linarith)), Num.fin_add, round_of_le_two hA (huge_scale hS (by linarith)),
      Num.fin_sub, round_of_le_two hA (huge_scale hS (by linarith)), Num.fin_sub, round_of_le_two hA (huge_scale hS q10)]
    rw [List.length_append, List.length_singleton]
    have : succU xs.length = xs.length + 1 := by unfold succU; omega
    rw [this]

/-- C132.  `Sum()` after any list of at most 2^49 finite doubles whose absolute values add up to at most 2^1020 is finite,
and `Count()` is their number; C86 bounds its error. -/
theorem C132_finite (hA : A.IsBinary64) (xs : List ℝ) (hx : ∀ x ∈ xs, FinDouble x) (hn : xs.length ≤ 2 ^ 49)
    (hS : sumAbs xs ≤ (2 : ℝ) ^ (1020 : Int)) :
    ∃ r, ((xs.map .fin).foldl Kahan.addCore (Kahan.new : Kahan (Num A))).getSum = .fin r ∧
      ((xs.map .fin).foldl Kahan.addCore (Kahan.new : Kahan (Num A))).getCount = xs.length ∧
      |r - xs.sum| ≤ 4 / 2 ^ 53 * sumAbs xs := by
  obtain ⟨s, c, h⟩ := kahan_no_overflow hA xs hx hn hS
  have h1 : ((xs.map .fin).foldl Kahan.addCore (Kahan.new : Kahan (Num A))).getSum = .fin s := by rw [h]; rfl
  refine ⟨s, h1, by rw [h]; rfl, ?_⟩
  have h2 := C86_kahan_error hA xs hx hn s h1
  have h3 := kappa_le (K := ℝ) hn
  refine h2.trans ?_
  have h4 : unitRoundoff ℝ * |xs.sum| ≤ unitRoundoff ℝ * sumAbs xs := mul_le_mul_of_nonneg_left (abs_sum_le xs) u_pos.le
  have h5 : (2 * unitRoundoff ℝ + 12 * (xs.length : ℝ) * unitRoundoff ℝ ^ 2) * sumAbs xs ≤ 3 * unitRoundoff ℝ * sumAbs xs :=
    mul_le_mul_of_nonneg_right (by linarith) (sumAbs_nonneg xs)
  have h6 : 4 / 2 ^ 53 * sumAbs xs = unitRoundoff ℝ * sumAbs xs + 3 * unitRoundoff ℝ * sumAbs xs := by unfold unitRoundoff; ring
  linarith

/-- C132.  `Mean()` is finite and its distance from the mean of the values is at most 6·2⁻⁵³ of the mean of their
absolute values (plus half the smallest positive double), however many there are. -/
theorem C132_mean (hA : A.IsBinary64) (xs : List ℝ) (h0 : xs ≠ []) (hx : ∀ x ∈ xs, FinDouble x) (hn : xs.length ≤ 2 ^ 49)
    (hS : sumAbs xs ≤ (2 : ℝ) ^ (1020 : Int)) :
    ∃ m, ((xs.map .fin).foldl Kahan.addCore (Kahan.new : Kahan (Num A))).mean = .fin m ∧ FinDouble m ∧
      |m - avg xs| ≤ 6 / 2 ^ 53 * avg (xs.map (fun x => |x|)) + (2 : ℝ) ^ (-1075 : Int) := by
  obtain ⟨s, c, h⟩ := kahan_no_overflow hA xs hx hn hS
  obtain ⟨r, h1, -, h3⟩ := C132_finite hA xs hx hn hS
  have e : r = s := by rw [h] at h1; exact (Num.fin.inj h1).symm
  subst e
  have hS0 := sumAbs_nonneg xs
  have hl : (1 : ℝ) ≤ xs.length := by
    have := List.length_pos_iff.2 h0
    exact_mod_cast this
  have hl0 : (0 : ℝ) < xs.length := by linarith
  have hr : |r| ≤ sumAbs xs + 4 / 2 ^ 53 * sumAbs xs := by
    have := abs_sub_abs_le_abs_sub r xs.sum
    linarith [abs_sum_le xs]
  have hq : |r / xs.length| ≤ |r| := by
    rw [abs_div, abs_of_pos hl0]
    exact div_le_self (abs_nonneg _) hl
  have hb : |r / xs.length| ≤ (2 : ℝ) ^ (1023 : Int) := huge_scale hS (hq.trans (hr.trans (by norm_num; linarith)))
  refine ⟨rn (r / xs.length), ?_, finDouble_rn hb, ?_⟩
  · rw [h]
    unfold Kahan.mean
    simp only
    rw [Num.ofNat_eq, round_nat hA (by omega), Num.fin_div hl0.ne', round_of_le_two hA hb]
  · have h5 := rn_abs_err (r / xs.length)
    have h6 : |r / xs.length - avg xs| ≤ 4 / 2 ^ 53 * (sumAbs xs / xs.length) := by
      unfold avg
      rw [← sub_div, abs_div, abs_of_pos hl0, ← mul_div_assoc]
      exact div_le_div_of_nonneg_right h3 hl0.le
    have h7 : |r / xs.length| ≤ (1 + 4 / 2 ^ 53) * (sumAbs xs / xs.length) := by
      rw [abs_div, abs_of_pos hl0, ← mul_div_assoc]
      exact div_le_div_of_nonneg_right (by linarith) hl0.le
    have h8 : avg (xs.map (fun x => |x|)) = sumAbs xs / xs.length := by
      unfold avg sumAbs; rw [List.length_map]
    rw [h8]
    have h9 : 0 ≤ sumAbs xs / xs.length := by positivity
    generalize sumAbs xs / xs.length = Q at *
    generalize (2 : ℝ) ^ (-1075 : Int) = τ at *
    have h10 := abs_add_le (rn (r / xs.length) - r / xs.length) (r / xs.length - avg xs)
    rw [sub_add_sub_cancel] at h10
    rw [abs_sub_comm (rn (r / xs.length)) (r / xs.length)] at h10
    clear hn hS hb h8 h1 h hq hr h3
    norm_num at h5 h6 h7 ⊢
    linarith

/-- C132.  If no value is negative, the error of `Mean()` is at most 6·2⁻⁵³ of the mean itself. -/
theorem C132_relative (hA : A.IsBinary64) (xs : List ℝ) (h0 : xs ≠ []) (hx : ∀ x ∈ xs, FinDouble x ∧ 0 ≤ x) (hn : xs.length ≤ 2 ^ 49)
    (hS : xs.sum ≤ (2 : ℝ) ^ (1020 : Int)) :
    ∃ m, ((xs.map .fin).foldl Kahan.addCore (Kahan.new : Kahan (Num A))).mean = .fin m ∧
      |m - avg xs| ≤ 6 / 2 ^ 53 * avg xs + (2 : ℝ) ^ (-1075 : Int) := by
  have e : xs.map (fun x => |x|) = xs := by
    conv_rhs => rw [← List.map_id xs]
    exact List.map_congr_left (fun x h => abs_of_nonneg (hx x h).2)
  obtain ⟨m, h1, -, h2⟩ := C132_mean hA xs h0 (fun x h => (hx x h).1) hn (by unfold sumAbs; rw [e]; exact hS)
  rw [e] at h2
  exact ⟨m, h1, h2⟩

/-! ### Neumaier -/

theorem gamma_le {k n : Nat} (hk : k ≤ n) (h : n ≤ 2 ^ 49) :
    (1 + unitRoundoff ℝ) ^ k - 1 ≤ 16 / 15 * (n * unitRoundoff ℝ) ∧ 16 / 15 * (n * unitRoundoff ℝ) ≤ 1 / 15 := by
  have hu0 := u_pos (K := ℝ)
  have h1 : (k : ℝ) ≤ n := by exact_mod_cast hk
  have h2 : (n : ℝ) ≤ 2 ^ 49 := by exact_mod_cast h
  have h3 : (n : ℝ) * unitRoundoff ℝ ≤ 1 / 16 := by
    calc (n : ℝ) * unitRoundoff ℝ ≤ 2 ^ 49 * unitRoundoff ℝ := by gcongr
      _ = 1 / 16 := by unfold unitRoundoff; norm_num
  have h4 : (k : ℝ) * unitRoundoff ℝ ≤ n * unitRoundoff ℝ := by gcongr
  refine ⟨(pow_le_gamma k (by linarith)).trans ?_, by linarith⟩
  have h5 : 0 ≤ (k : ℝ) * unitRoundoff ℝ := by positivity
  rw [div_le_iff₀ (by linarith)]
  nlinarith

theorem neumaier_no_overflow (hA : A.IsBinary64) (xs : List ℝ) (hx : ∀ x ∈ xs, FinDouble x) (hn : xs.length ≤ 2 ^ 49)
    (hS : sumAbs xs ≤ (2 : ℝ) ^ (1020 : Int)) :
    ∃ s c, (xs.map .fin).foldl Neumaier.addCore (Neumaier.new : Neumaier (Num A)) = ⟨.fin s, .fin c, xs.length⟩ ∧
      |s| ≤ 2 * sumAbs xs ∧ |c| ≤ sumAbs xs := by
  have bnd : ∀ (xs es : List ℝ) (s c : ℝ), xs.length ≤ 2 ^ 49 → Trace xs s c es → |s| ≤ 2 * sumAbs xs ∧ |c| ≤ sumAbs xs := by
    intro xs es s c hn ht
    obtain ⟨b1, b2⟩ := ht.bounds
    obtain ⟨b3, -⟩ := ht.correction_bound
    have hS0 := sumAbs_nonneg xs
    have hE0 := sumAbs_nonneg es
    obtain ⟨g1, g2⟩ := gamma_le (show xs.length - 1 ≤ xs.length by omega) hn
    obtain ⟨g3, -⟩ := gamma_le (show xs.length - 2 ≤ xs.length by omega) hn
    have e1 : sumAbs es ≤ 1 / 15 * sumAbs xs := b2.trans (mul_le_mul_of_nonneg_right (by linarith) hS0)
    have e2 : |es.sum - c| ≤ 1 / 15 * sumAbs es := b3.trans (mul_le_mul_of_nonneg_right (by linarith) hE0)
    have e3 := abs_sub_abs_le_abs_sub c es.sum
    rw [abs_sub_comm] at e3
    have e4 := abs_sum_le es
    exact ⟨b1.trans (mul_le_mul_of_nonneg_right (by linarith) hS0), by linarith⟩
  induction xs using List.reverseRecOn with
  | nil => exact ⟨0, 0, rfl, by simp [sumAbs], by simp [sumAbs]⟩
  | append_singleton xs x ih =>
    have hn' := hn
    have hS' := hS
    rw [List.length_append, List.length_singleton] at hn
    rw [sumAbs_snoc] at hS
    have hx0 := hx x (by simp)
    have hp := abs_nonneg x
    have hS0 := sumAbs_nonneg xs
    obtain ⟨s, c, h, q1, q2⟩ := ih (fun y hy => hx y (by simp [hy])) (by omega) (by linarith)
    obtain ⟨es, ht⟩ := trace_of_finite hA xs (fun y hy => hx y (by simp [hy])) h
    have q3 : |s + x| ≤ 2 * (sumAbs xs + |x|) := (abs_add_le _ _).trans (by linarith)
    have r1 := round_of_le_two hA (huge_scale hS (show |s + x| ≤ _ by linarith))
    have q4 : |s + x - rn (s + x)| ≤ |x| := by
      have := rn_nearest (s + x) s ht.fin.1.1
      rwa [add_sub_cancel_left] at this
    have q5 : |c + (s + x - rn (s + x))| ≤ 8 * (sumAbs xs + |x|) := (abs_add_le _ _).trans (by linarith)
    have r2 := round_of_le_two hA (huge_scale hS q5)
    have e : ((xs ++ [x]).map .fin).foldl Neumaier.addCore (Neumaier.new : Neumaier (Num A)) =
        ⟨.fin (rn (s + x)), .fin (rn (c + (s + x - rn (s + x)))), (xs ++ [x]).length⟩ := by
      rw [List.map_append, List.foldl_append, h]
      simp only [List.map_cons, List.map_nil, List.foldl_cons, List.foldl_nil]
      rw [C37_error_free hA s x c _ _ ht.fin.1 hx0 (Num.round_eq_fin r1), Num.fin_add, r2]
      have : succU xs.length = (xs ++ [x]).length := by
        rw [List.length_append, List.length_singleton]; unfold succU; omega
      rw [this]
    obtain ⟨es', ht'⟩ := trace_of_finite hA (xs ++ [x]) hx e
    exact ⟨_, _, e, bnd _ _ _ _ hn' ht'⟩

/-- C132.  The Neumaier accumulator: `Sum()` and `Mean()` are finite for the same lists.  The error of the mean is at most
3·2⁻⁵³ of its size, plus 2 (n 2⁻⁵³)² of the mean of the absolute values. -/
theorem C132_neumaier (hA : A.IsBinary64) (xs : List ℝ) (h0 : xs ≠ []) (hx : ∀ x ∈ xs, FinDouble x) (hn : xs.length ≤ 2 ^ 49)
    (hS : sumAbs xs ≤ (2 : ℝ) ^ (1020 : Int)) :
    ∃ r m, ((xs.map .fin).foldl Neumaier.addCore (Neumaier.new : Neumaier (Num A))).getSum = .fin r ∧
      ((xs.map .fin).foldl Neumaier.addCore (Neumaier.new : Neumaier (Num A))).mean = .fin m ∧
      |r - xs.sum| ≤ 1 / 2 ^ 53 * |xs.sum| + 2 * ((xs.length : ℝ) / 2 ^ 53) ^ 2 * sumAbs xs ∧
      |m - avg xs| ≤ 3 / 2 ^ 53 * |avg xs| + 2 * ((xs.length : ℝ) / 2 ^ 53) ^ 2 * avg (xs.map (fun x => |x|)) +
        (2 : ℝ) ^ (-1075 : Int) := by
  obtain ⟨s, c, h, q1, q2⟩ := neumaier_no_overflow hA xs hx hn hS
  have hS0 := sumAbs_nonneg xs
  have q3 : |s + c| ≤ 3 * sumAbs xs := (abs_add_le _ _).trans (by linarith)
  have r1 := round_of_le_two hA (huge_scale hS (show |s + c| ≤ _ by linarith))
  have hsum : ((xs.map .fin).foldl Neumaier.addCore (Neumaier.new : Neumaier (Num A))).getSum = .fin (rn (s + c)) := by
    rw [h, ← r1]; rfl
  have e0 := C38_error_bound hA xs hx _ hsum
  obtain ⟨g1, g2⟩ := gamma_le (show xs.length - 1 ≤ xs.length by omega) hn
  have hu0 := u_pos (K := ℝ)
  have g0 : 0 ≤ (1 + unitRoundoff ℝ) ^ (xs.length - 1) - 1 := by
    have : (1 : ℝ) ≤ (1 + unitRoundoff ℝ) ^ (xs.length - 1) := one_le_pow₀ (by linarith)
    linarith
  have g3 : ((1 + unitRoundoff ℝ) ^ (xs.length - 1) - 1) ^ 2 ≤ 6 / 5 * ((xs.length : ℝ) / 2 ^ 53) ^ 2 := by
    refine (pow_le_pow_left₀ g0 g1 2).trans ?_
    have : (16 / 15 * ((xs.length : ℝ) * unitRoundoff ℝ)) ^ 2 = 256 / 225 * ((xs.length : ℝ) / 2 ^ 53) ^ 2 := by
      unfold unitRoundoff; ring
    rw [this]
    exact mul_le_mul_of_nonneg_right (by norm_num) (sq_nonneg _)
  have e1 : |rn (s + c) - xs.sum| ≤ 1 / 2 ^ 53 * |xs.sum| + 6 / 5 * ((xs.length : ℝ) / 2 ^ 53) ^ 2 * sumAbs xs := by
    refine e0.trans ?_
    have := mul_le_mul_of_nonneg_right g3 hS0
    have e : unitRoundoff ℝ * |xs.sum| = 1 / 2 ^ 53 * |xs.sum| := rfl
    linarith
  have hz : 0 ≤ ((xs.length : ℝ) / 2 ^ 53) ^ 2 := sq_nonneg _
  have hl : (1 : ℝ) ≤ xs.length := by
    have := List.length_pos_iff.2 h0
    exact_mod_cast this
  have hl0 : (0 : ℝ) < xs.length := by linarith
  have hz1 : ((xs.length : ℝ) / 2 ^ 53) ^ 2 ≤ 1 / 4 := by
    have b : (xs.length : ℝ) ≤ 2 ^ 49 := by exact_mod_cast hn
    have b2 : (xs.length : ℝ) / 2 ^ 53 ≤ 1 / 2 := by
      rw [div_le_iff₀ (by norm_num)]; norm_num at b ⊢; linarith
    have b3 : 0 ≤ (xs.length : ℝ) / 2 ^ 53 := by positivity
    nlinarith
  generalize ((xs.length : ℝ) / 2 ^ 53) ^ 2 = ζ at *
  have hr : |rn (s + c)| ≤ 2 * sumAbs xs := by
    have a1 := abs_sub_abs_le_abs_sub (rn (s + c)) xs.sum
    have a2 := abs_sum_le xs
    have a3 : 6 / 5 * ζ * sumAbs xs ≤ 6 / 5 * (1 / 4) * sumAbs xs := by gcongr
    norm_num at e1 a3
    linarith
  have hq : |rn (s + c) / xs.length| ≤ |rn (s + c)| := by
    rw [abs_div, abs_of_pos hl0]
    exact div_le_self (abs_nonneg _) hl
  have hb : |rn (s + c) / xs.length| ≤ (2 : ℝ) ^ (1023 : Int) := huge_scale hS (by linarith)
  refine ⟨_, rn (rn (s + c) / xs.length), hsum, ?_, e1.trans ?_, ?_⟩
  · unfold Neumaier.mean
    rw [hsum, h]
    simp only [Neumaier.getCount]
    rw [Num.ofNat_eq, round_nat hA (by omega), Num.fin_div hl0.ne', round_of_le_two hA hb]
  · have : 0 ≤ ζ * sumAbs xs := by positivity
    linarith
  · have h8 : avg (xs.map (fun x => |x|)) = sumAbs xs / xs.length := by
      unfold avg sumAbs; rw [List.length_map]
    have h5 := rn_abs_err (rn (s + c) / xs.length)
    have h6 : |rn (s + c) / xs.length - avg xs| ≤ 1 / 2 ^ 53 * |avg xs| + 6 / 5 * ζ * (sumAbs xs / xs.length) := by
      unfold avg
      rw [← sub_div, abs_div, abs_div, abs_of_pos hl0, ← mul_div_assoc, ← mul_div_assoc, ← add_div]
      exact div_le_div_of_nonneg_right e1 hl0.le
    rw [h8]
    have h7 := abs_sub_abs_le_abs_sub (rn (s + c) / xs.length) (avg xs)
    have h9 : 0 ≤ ζ * (sumAbs xs / xs.length) := by positivity
    have h10 := abs_add_le (rn (rn (s + c) / xs.length) - rn (s + c) / xs.length) (rn (s + c) / xs.length - avg xs)
    rw [sub_add_sub_cancel, abs_sub_comm (rn (rn (s + c) / xs.length)) (rn (s + c) / xs.length)] at h10
    have h11 := abs_nonneg (avg xs)
    rw [mul_assoc] at h6 ⊢
    generalize ζ * (sumAbs xs / xs.length) = Z at *
    generalize (2 : ℝ) ^ (-1075 : Int) = τ at *
    clear hn hS hb h8 h e0 g3 e1 hr hq q1 q2 q3
    norm_num at h5 h6 ⊢
    linarith

theorem sincePrint_map {ι : Type} [LinearOrder ι] (k : ι) (h : List (GroupOp ι ℝ)) :
    sincePrint k (h.map (GroupOp.mapValue (Num.fin (A := A)))) = (sincePrint k h).map .fin := by
  have conv : ∀ (h : List (GroupOp ι ℝ)) (s : Bool × List ℝ),
      (h.map (GroupOp.mapValue (Num.fin (A := A)))).foldl (watch k) (s.1, s.2.map .fin) =
        ((h.foldl (watch k) s).1, (h.foldl (watch k) s).2.map .fin) := by
    intro h
    induction h with
    | nil => intro s; rfl
    | cons op h ih =>
      intro s
      rw [List.map_cons, List.foldl_cons, List.foldl_cons, ← ih]
      congr 1
      cases op with
      | add j => rfl
      | measure j x =>
        simp only [GroupOp.mapValue, watch]
        split <;> simp
      | headers => rfl
      | print p =>
        simp only [GroupOp.mapValue, watch]
        split <;> rfl
  exact congrArg Prod.snd (conv h (false, []))

theorem sincePrint_mem {ι X : Type} [LinearOrder ι] (k : ι) (h : List (GroupOp ι X)) :
    (∀ x ∈ sincePrint k h, .measure k x ∈ h) ∧ (sincePrint k h).length ≤ h.length := by
  have key : ∀ (h : List (GroupOp ι X)) (s : Bool × List X),
      (∀ x ∈ (h.foldl (watch k) s).2, x ∈ s.2 ∨ .measure k x ∈ h) ∧ (h.foldl (watch k) s).2.length ≤ s.2.length + h.length := by
    intro h
    induction h with
    | nil => intro s; exact ⟨fun x hx => .inl hx, Nat.le_refl _⟩
    | cons op h ih =>
      intro s
      rw [List.foldl_cons, List.length_cons]
      obtain ⟨i1, i2⟩ := ih (watch k s op)
      have step : (∀ x ∈ (watch k s op).2, x ∈ s.2 ∨ op = .measure k x) ∧ (watch k s op).2.length ≤ s.2.length + 1 := by
        cases op with
        | add j => exact ⟨fun x hx => .inl hx, Nat.le_succ _⟩
        | measure j y =>
          simp only [watch]
          split
          · next hc =>
            simp only [Bool.and_eq_true, beq_iff_eq] at hc
            obtain ⟨-, rfl⟩ := hc
            exact ⟨fun x hx => by simpa [eq_comm] using hx, by simp⟩
          · exact ⟨fun x hx => .inl hx, Nat.le_succ _⟩
        | headers => exact ⟨fun x hx => .inl hx, Nat.le_succ _⟩
        | print p =>
          simp only [watch]
          split
          · exact ⟨fun x hx => by simp at hx, by simp⟩
          · exact ⟨fun x hx => .inl hx, Nat.le_succ _⟩
      refine ⟨fun x hx => ?_, by omega⟩
      rcases i1 x hx with h1 | h1
      · rcases step.1 x h1 with h2 | h2
        · exact .inl h2
        · exact .inr (by rw [h2]; exact List.mem_cons_self)
      · exact .inr (List.mem_cons_of_mem _ h1)
  obtain ⟨h1, h2⟩ := key h (false, [])
  exact ⟨fun x hx => (h1 x hx).resolve_left (by simp), by unfold sincePrint; simpa using h2⟩

/-- C132.  The row that `PrintAndReset` appends to the file, in double precision: one field per observable in increasing
order of the keys and the number of values of the first one.  The field of an observable is `nan` if it has not been
measured since the previous print, and otherwise a numeral.  The number it stands for is off the mean of the values
by at most 9·2⁻⁵³ + 10^-p/2 of the mean of their absolute values (plus the smallest positive double). -/
theorem C132_row {ι : Type} [LinearOrder ι] (hA : A.IsBinary64) (f : Format (Num A) ι) (hf : f.sci = Fmt.sci)
    (name : String) (fs : Files) (h : List (GroupOp ι ℝ)) (hn : h.length ≤ 2 ^ 49)
    (hx : ∀ k x, .measure k x ∈ h → FinDouble x) (hS : ∀ k, sumAbs (sincePrint k h) ≤ (2 : ℝ) ^ (1020 : Int))
    (g : ObsGroup (Num A) ι) (fs1 : Files)
    (e : (ObsGroup.new name).run f fs (h.map (GroupOp.mapValue (Num.fin (A := A)))) = .ok (g, fs1))
    (h0 : g.accumulator ≠ []) (p : Nat) (hp : p < 2 ^ 31) :
    ∃ (k : ι) (ks : List ι) (g' : ObsGroup (Num A) ι) (fs2 : Files) (row : List Char),
      (k :: ks).Pairwise (· < ·) ∧ (∀ j, j ∈ k :: ks ↔ .add j ∈ h) ∧
      (ObsGroup.new name).run f fs (h.map (GroupOp.mapValue (Num.fin (A := A))) ++ [.print p]) = .ok (g', fs2) ∧
      fs2 name = fs1 name ++ row ++ ['\n'] ∧
      (columns row).length = (k :: ks).length + 1 ∧
      (columns row)[(k :: ks).length]? = some (printNat (sincePrint k h).length) ∧
      ∀ (i : Nat) (j : ι), (k :: ks)[i]? = some j → ∃ t, (columns row)[i]? = some t ∧
        (sincePrint j h = [] → t = "nan".toList) ∧
        (sincePrint j h ≠ [] → ∃ v : ℝ, IsDecimal t v ∧ |v - avg (sincePrint j h)| ≤
          (9 / 2 ^ 53 + 1 / (2 * 10 ^ p)) * avg ((sincePrint j h).map (fun x => |x|)) + (2 : ℝ) ^ (-1074 : Int)) := by
  obtain ⟨k, ks, g', fs2, h1, h2, h3, -, h4⟩ := C56_row f name fs _ p hp g fs1 e h0
  have hl : (sincePrint k h).length % 2 ^ 64 = (sincePrint k h).length :=
    Nat.mod_eq_of_lt (by have := (sincePrint_mem k h).2; omega)
  simp only [sincePrint_map, List.length_map, hl] at h4
  have hcol : columns ([','].intercalate
        ((k :: ks).map (fun j => f.sci (((sincePrint j h).map .fin).foldl Kahan.addCore Kahan.new).mean p) ++
          [printNat (sincePrint k h).length])) =
        (k :: ks).map (fun j => f.sci (((sincePrint j h).map .fin).foldl Kahan.addCore Kahan.new).mean p) ++
          [printNat (sincePrint k h).length] := by
    refine List.splitOn_intercalate ',' ?_ (by simp)
    intro l hl
    rcases List.mem_append.1 hl with hl | hl
    · obtain ⟨j, _, rfl⟩ := List.mem_map.1 hl; rw [hf]; exact (C128_clean _ p).1
    · rw [List.mem_singleton.1 hl]
      exact fun hc => absurd ((printNat_spec _).2.1 _ hc) (by decide)
  refine ⟨k, ks, g', fs2, _, h1, fun j => (h2 j).trans ?_, h3, h4, ?_, ?_, ?_⟩
  · rw [List.mem_map]
    constructor
    · rintro ⟨op, ho, he⟩
      cases op with
      | add i => cases he; exact ho
      | measure i x => cases he
      | headers => cases he
      | print q => cases he
    · exact fun ho => ⟨_, ho, rfl⟩
  · rw [hcol, List.length_append, List.length_map, List.length_singleton]
  · rw [hcol, List.getElem?_append_right (by rw [List.length_map]), List.length_map, Nat.sub_self]
    rfl
  · intro i j hj
    refine ⟨f.sci (((sincePrint j h).map .fin).foldl Kahan.addCore Kahan.new).mean p, ?_, ?_, ?_⟩
    · rw [hcol, List.getElem?_append_left (by
        have := (List.getElem?_eq_some_iff.1 hj).1
        simpa using this), List.getElem?_map, hj]
      rfl
    · intro h5
      rw [h5, hf]
      have : (((([] : List ℝ).map .fin).foldl Kahan.addCore (Kahan.new : Kahan (Num A))).mean) = .nan := by
        show Num.div _ _ = _
        have z := round_nat hA (Nat.zero_le (2 ^ 53))
        rw [Nat.cast_zero] at z
        simp only [List.map_nil, List.foldl_nil, Kahan.new, Num.ofNat_eq, Num.zero_eq, Nat.cast_zero, z]
        simp [Num.div]
      rw [this]
      rfl
    · intro h5
      obtain ⟨m, h6, -, h7⟩ := C132_mean hA (sincePrint j h) h5 (fun x hx' => hx j x ((sincePrint_mem j h).1 x hx'))
        ((sincePrint_mem j h).2.trans hn) (hS j)
      rw [h6, hf]
      refine ⟨_, isDecimal_sci p m, ?_⟩
      have h8 := sciValue_err p m
      have h9 : |avg (sincePrint j h)| ≤ avg ((sincePrint j h).map (fun x => |x|)) := by
        unfold avg
        rw [abs_div, List.length_map, abs_of_nonneg (Nat.cast_nonneg _ : (0 : ℝ) ≤ ((sincePrint j h).length : ℝ))]
        exact div_le_div_of_nonneg_right (abs_sum_le _) (Nat.cast_nonneg _)
      have h10 : (2 : ℝ) ^ (-1074 : Int) = 2 * (2 : ℝ) ^ (-1075 : Int) := by
        rw [show (-1074 : Int) = 1 + -1075 by norm_num, zpow_add₀ two_ne_zero]; norm_num
      have h11 : 0 < (2 : ℝ) ^ (-1075 : Int) := two_zpow_pos _
      rw [h10]
      have h12 := abs_add_le (sciValue p m - m) (m - avg (sincePrint j h))
      rw [sub_add_sub_cancel] at h12
      have h13 := abs_add_le (m - avg (sincePrint j h)) (avg (sincePrint j h))
      rw [sub_add_cancel] at h13
      have h14 : (1 : ℝ) / (2 * 10 ^ p) ≤ 1 / 2 := by
        refine one_div_le_one_div_of_le (by norm_num) ?_
        have : (1 : ℝ) ≤ 10 ^ p := one_le_pow₀ (by norm_num)
        linarith
      have h15 : (0 : ℝ) ≤ 1 / (2 * 10 ^ p) := by positivity
      have h16 : |m| / (2 * 10 ^ p) = |m| * (1 / (2 * 10 ^ p)) := by ring
      rw [h16] at h8
      have h17 : 0 ≤ avg ((sincePrint j h).map (fun x => |x|)) := (abs_nonneg _).trans h9
      clear hS hn h16 h10
      generalize (2 : ℝ) ^ (-1075 : Int) = τ at *
      generalize (1 : ℝ) / (2 * 10 ^ p) = δ at *
      generalize avg ((sincePrint j h).map (fun x => |x|)) = Q at *
      generalize avg (sincePrint j h) = a at *
      have h18 : |m| * δ ≤ Q * δ + (6 / 2 ^ 53 * Q + τ) * (1 / 2) := by
        have b1 : |m| * δ ≤ (Q + (6 / 2 ^ 53 * Q + τ)) * δ := mul_le_mul_of_nonneg_right (by linarith) h15
        have b2 : (6 / 2 ^ 53 * Q + τ) * δ ≤ (6 / 2 ^ 53 * Q + τ) * (1 / 2) := mul_le_mul_of_nonneg_left h14 (by positivity)
        linarith
      norm_num at h7 h18 ⊢
      linarith

/-- The hypotheses of the C132 theorems hold for a history with two observables. -/
example (f : Format (Num doubleArith) Nat) (fs : Files) :
    let h : List (GroupOp Nat ℝ) := [.add 2, .add 1, .measure 2 3, .measure 2 (-5), .measure 1 7]
    (∀ k x, .measure k x ∈ h → FinDouble x) ∧ (∀ k, sumAbs (sincePrint k h) ≤ (2 : ℝ) ^ (1020 : Int)) ∧
    sincePrint 2 h = [3, -5] ∧
    ∃ g fs1, (ObsGroup.new "out").run f fs (h.map (GroupOp.mapValue (Num.fin (A := doubleArith)))) = .ok (g, fs1) ∧
      g.accumulator ≠ [] := by
  intro h
  have hm : ∀ k x, .measure k x ∈ h → FinDouble x ∧ |x| ≤ 7 := by
    intro k x hx
    have hi : ∀ n : Int, |n| ≤ 7 → FinDouble (n : ℝ) ∧ |(n : ℝ)| ≤ 7 := fun n hn =>
      ⟨finDouble_int (hn.trans (by norm_num)), by exact_mod_cast hn⟩
    simp only [h, List.mem_cons, GroupOp.measure.injEq, reduceCtorEq, List.not_mem_nil, or_false, false_or] at hx
    rcases hx with ⟨-, rfl⟩ | ⟨-, rfl⟩ | ⟨-, rfl⟩
    · exact_mod_cast hi 3 (by norm_num)
    · exact_mod_cast hi (-5) (by norm_num)
    · exact_mod_cast hi 7 (by norm_num)
  refine ⟨fun k x hx => (hm k x hx).1, fun k => ?_, by simp [h, sincePrint, watch], _, _, rfl, List.cons_ne_nil _ _⟩
  have h1 : sumAbs (sincePrint k h) ≤ (sincePrint k h).length • (7 : ℝ) := by
    unfold sumAbs
    have := List.sum_le_card_nsmul ((sincePrint k h).map (fun x => |x|)) 7 (by
      intro y hy
      obtain ⟨x, hx, rfl⟩ := List.mem_map.1 hy
      exact (hm k x ((sincePrint_mem k h).1 x hx)).2)
    rwa [List.length_map] at this
  have h2 : ((sincePrint k h).length : ℝ) ≤ 5 := by exact_mod_cast (sincePrint_mem k h).2
  rw [nsmul_eq_mul] at h1
  have h3 : (2 : ℝ) ^ (10 : Int) ≤ 2 ^ (1020 : Int) := zpow_le_zpow_right₀ (by norm_num) (by norm_num)
  refine h1.trans (le_trans ?_ h3)
  norm_num
  linarith

end
end Bwsl
