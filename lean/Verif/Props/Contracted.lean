import Verif.Model.Contracted
import Verif.Props.WelfordBound
import Verif.Props.WelfordError
import Verif.Props.LerpDouble
import Verif.Props.Norm
import Verif.Props.BravaisDouble
import Verif.Props.Utils

/-! Property C146: results that do not depend on the contraction of products and sums by the compiler. -/

namespace Bwsl
open Spec

section
variable {K : Type} [Field K] [LinearOrder K] [IsStrictOrderedRing K] [FloorRing K] {A : Arith K}

theorem mulAdd_fin (x y z : K) : mulAdd true (.fin x : Num A) (.fin y) (.fin z) = Num.round A (x * y + z) := rfl

/-- C146.  Where the product of two numbers is itself a number of the arithmetic, contraction changes nothing. -/
theorem C146_exact {x y : K} (h : A.rnd (x * y) = some (x * y)) (fused : Bool) (z : Num A) :
    mulAdd fused (.fin x) (.fin y) z = z + .fin x * .fin y := by
  cases fused with
  | false => rfl
  | true =>
    rw [Num.fin_mul, Num.round_of h]
    cases z with
    | nan => rfl
    | inf n => rfl
    | fin z => rw [mulAdd_fin, Num.fin_add, add_comm]

theorem num_add_comm (u v : Num A) : u + v = v + u := by
  cases u with
  | nan => cases v <;> rfl
  | inf n =>
    cases v with
    | inf m =>
      show (if n = m then _ else _) = (if m = n then _ else _)
      by_cases e : n = m
      · subst e; rfl
      · rw [if_neg e, if_neg (Ne.symm e)]
    | _ => rfl
  | fin a =>
    cases v with
    | fin b => rw [Num.fin_add, Num.fin_add, add_comm]
    | _ => rfl

/-- C146.  Infinities and NaNs among the factors or an infinity or NaN to be added: the result is that of two operations,
except that a product of finite numbers which would overflow does not. -/
theorem C146_special (x y z : Num A) (fused : Bool) :
    ((∀ a b : K, x = .fin a → y = .fin b → False) → mulAdd fused x y z = z + x * y) ∧
    (∀ a b : K, x = .fin a → y = .fin b → (∀ c : K, z ≠ .fin c) → mulAdd true x y z = z) := by
  constructor
  · intro h
    cases fused with
    | false => rfl
    | true =>
      rw [num_add_comm]
      cases x with
      | fin a =>
        cases y with
        | fin b => exact (h a b rfl rfl).elim
        | _ => rfl
      | _ => cases y <;> rfl
  · rintro a b rfl rfl h
    cases z with
    | fin c => exact (h c rfl).elim
    | _ => rfl

/-! ## Welford -/

theorem contracted_same (fused : Bool) (xs : List (Num A)) (s s' : KnuthWelford (Num A)) (hm : s.mean = s'.mean)
    (hc : s.count = s'.count) :
    (xs.foldl (KnuthWelford.addContracted fused) s).mean = (xs.foldl KnuthWelford.addCore s').mean ∧
    (xs.foldl (KnuthWelford.addContracted fused) s).count = (xs.foldl KnuthWelford.addCore s').count := by
  induction xs generalizing s s' with
  | nil => exact ⟨hm, hc⟩
  | cons x xs ih =>
    rw [List.foldl_cons, List.foldl_cons]
    refine ih _ _ ?_ ?_
    · simp only [KnuthWelford.addContracted, KnuthWelford.addCore, hm, hc]
    · simp only [KnuthWelford.addContracted, KnuthWelford.addCore, hc]

/-- The two factors that are multiplied have the same sign. -/
theorem kw_factors (hA : A.IsBinary64) (ys : List K) (x : K) (hx : ∀ y ∈ ys ++ [x], FinDouble y) (hn : ys.length + 1 < 2 ^ 64)
    (m : Num A) (c : Nat)
    (hm : m = ((ys.map .fin).foldl KnuthWelford.addCore (KnuthWelford.new : KnuthWelford (Num A))).mean)
    (hc : c = ((ys.map .fin).foldl KnuthWelford.addCore (KnuthWelford.new : KnuthWelford (Num A))).count)
    (μ : K) (h : m + (.fin x - m) / CxxFloat.ofNat (succU c) = .fin μ) :
    ∃ m0 d e : K, m = .fin m0 ∧ (.fin x - m : Num A) = .fin d ∧ (.fin x - .fin μ : Num A) = .fin e ∧ 0 ≤ d * e := by
  obtain ⟨m0, d0, rfl, hd⟩ := Num.add_eq_fin h
  obtain ⟨hm, hr, -, hc', hz⟩ := kw_state hA ys (fun y hy => hx y (by simp [hy])) (by omega) m0 hm.symm
  rw [hc'] at hc
  subst hc
  have hcnt : succU ys.length = ys.length + 1 := by unfold succU; omega
  rw [hcnt] at hd h
  have hxd := hx x (by simp)
  obtain ⟨hcf, -⟩ := count_fin hA (n := ys.length + 1) (by omega)
  rw [hcf] at hd h
  obtain ⟨d, hd'⟩ := div_eq_fin hd
  have hN : (0 : K) < rn ((ys.length + 1 : Nat) : K) := by
    have := rn_nat_ge (K := K) (n := ys.length + 1) (m := 1) (by omega) (by norm_num)
    rw [Nat.cast_one] at this
    linarith
  rw [hd', Num.fin_div hN.ne'] at hd
  rw [hd', Num.fin_div hN.ne', hd] at h
  rw [Num.fin_add] at h
  have hdd := hd'
  rw [Num.fin_sub] at hd'
  obtain ⟨rfl, hd1⟩ := rnd_eq_some hA (Num.round_eq_fin hd')
  obtain ⟨rfl, hd2⟩ := rnd_eq_some hA (Num.round_eq_fin hd)
  obtain ⟨rfl, hd3⟩ := rnd_eq_some hA (Num.round_eq_fin h)
  rcases Nat.eq_zero_or_pos ys.length with h0 | hpos
  · have hys : ys = [] := List.eq_nil_of_length_eq_zero h0
    subst hys
    have : m0 = 0 := hz rfl
    subst this
    have e1 : rn ((([] : List K).length + 1 : Nat) : K) = 1 := by
      rw [rn_nat_small (by norm_num)]; simp
    have e : rn (0 + rn (rn (x - 0) / rn ((([] : List K).length + 1 : Nat) : K))) = x := by
      rw [e1, sub_zero, rn_double hxd.1, div_one, rn_double hxd.1, zero_add, rn_double hxd.1]
    rw [e]
    refine ⟨_, _, 0, rfl, hdd, ?_, by rw [mul_zero]⟩
    rw [Num.fin_sub, sub_self]
    exact Num.round_of (rnd_zero_of_binary64 hA)
  · have hN2 : (2 : K) ≤ rn ((ys.length + 1 : Nat) : K) := by
      have := rn_nat_ge (K := K) (n := ys.length + 1) (m := 2) (by omega) (by norm_num)
      exact_mod_cast this
    have hfin : A.rnd (x - rn (m0 + rn (rn (x - m0) / rn ((ys.length + 1 : Nat) : K)))) =
        some (rn (x - rn (m0 + rn (rn (x - m0) / rn ((ys.length + 1 : Nat) : K))))) := by
      rw [hA, rnd64, if_pos]
      refine lt_of_le_of_lt ?_ hd1
      rcases le_total m0 x with hle | hle
      · obtain ⟨a, b⟩ := step_up hm.1 hxd.1 hN2 hle
        rw [abs_of_nonneg (rn_nonneg (by linarith)), abs_of_nonneg (rn_nonneg (by linarith))]
        exact rn_mono (by linarith)
      · obtain ⟨a, b⟩ := step_down hm.1 hxd.1 hN2 hle
        rw [← abs_neg, ← rn_neg, ← abs_neg (rn (x - m0)), ← rn_neg,
          abs_of_nonneg (rn_nonneg (by linarith)), abs_of_nonneg (rn_nonneg (by linarith))]
        exact rn_mono (by linarith)
    refine ⟨_, _, _, rfl, hdd, ?_, step_m2 hm.1 hxd.1 hN2⟩
    rw [Num.fin_sub, Num.round_of hfin]

theorem mulAdd_nonneg (hA : A.IsBinary64) (fused : Bool) {d e : K} (h : 0 ≤ d * e) {q : Num A}
    (hq : CxxFloat.le (.fin 0) q = true) : CxxFloat.le (.fin 0) (mulAdd fused (.fin d) (.fin e) q) = true := by
  cases fused with
  | false =>
    refine nonneg_add hA hq ?_
    rw [Num.fin_mul]
    exact le_round hA h
  | true =>
    rcases nonneg_cases hq with rfl | ⟨v, hv, rfl⟩
    · exact hq
    · rw [mulAdd_fin]
      exact le_round hA (by linarith)

theorem contracted_m2 (hA : A.IsBinary64) (fused : Bool) (xs : List K) (hx : ∀ x ∈ xs, FinDouble x) (hn : xs.length < 2 ^ 64)
    (μ : K) (h : ((xs.map .fin).foldl KnuthWelford.addCore (KnuthWelford.new : KnuthWelford (Num A))).mean = .fin μ) :
    CxxFloat.le (.fin 0)
      ((xs.map .fin).foldl (KnuthWelford.addContracted fused) (KnuthWelford.new : KnuthWelford (Num A))).m2 = true := by
  induction xs using List.reverseRecOn generalizing μ with
  | nil =>
    show CxxFloat.le (.fin 0) (.fin 0 : Num A) = true
    rw [Num.le_fin]; exact decide_eq_true (le_refl _)
  | append_singleton ys x ih =>
    obtain ⟨e1, e2⟩ := contracted_same fused (ys.map (Num.fin (A := A))) KnuthWelford.new KnuthWelford.new rfl rfl
    rw [List.map_append, List.foldl_append] at h ⊢
    rw [List.length_append, List.length_singleton] at hn
    simp only [List.map_cons, List.map_nil, List.foldl_cons, List.foldl_nil] at h ⊢
    obtain ⟨m0, d, e, hm, hd, he, hde⟩ := kw_factors hA ys x hx hn _ _ rfl rfl μ h
    have ih := ih (fun y hy => hx y (by simp [hy])) (by omega) m0 hm
    rw [KnuthWelford.addContracted]
    simp only [e1, e2]
    rw [KnuthWelford.addCore] at h
    simp only at h
    rw [h, hd, he]
    exact mulAdd_nonneg hA fused hde ih

/-- C146.  KnuthWelfordAccumulator: contraction changes neither `Count()` nor `Mean()`; so the mean is in the range of the
data (C87). -/
theorem C146_welford_mean (fused : Bool) (ops : List (AccOp (Num A))) :
    (runOps (KnuthWelford.addContracted fused) KnuthWelford.reset KnuthWelford.new ops).getMean =
      (runOps KnuthWelford.addCore KnuthWelford.reset KnuthWelford.new ops).getMean ∧
    (runOps (KnuthWelford.addContracted fused) KnuthWelford.reset KnuthWelford.new ops).getCount =
      (runOps KnuthWelford.addCore KnuthWelford.reset KnuthWelford.new ops).getCount := by
  rw [runOps_fresh (add := KnuthWelford.addContracted fused) (reset := KnuthWelford.reset) (fresh := KnuthWelford.new)
    (fun _ => rfl) ops, (C35_knuthWelford ops).1]
  exact contracted_same fused _ _ _ rfl rfl

/-- C146.  KnuthWelfordAccumulator: with contraction, too, the variances are not negative if the mean is finite. -/
theorem C146_welford_variance (hA : A.IsBinary64) (fused : Bool) (ops : List (AccOp (Num A))) (xs : List K)
    (h : sinceReset ops = xs.map .fin) (hx : ∀ x ∈ xs, FinDouble x) (h2 : 2 ≤ xs.length) (hn : xs.length < 2 ^ 64)
    (μ : K) (hμ : (runOps (KnuthWelford.addContracted fused) KnuthWelford.reset KnuthWelford.new ops).getMean = .fin μ)
    (corrected : Bool) :
    CxxFloat.le (.fin 0) (runOps (KnuthWelford.addContracted fused) KnuthWelford.reset KnuthWelford.new ops).scaledVariance =
      true ∧
    CxxFloat.le (.fin 0)
      ((runOps (KnuthWelford.addContracted fused) KnuthWelford.reset KnuthWelford.new ops).variance corrected) = true := by
  obtain ⟨e1, e2⟩ := C146_welford_mean fused ops
  rw [e1, (C35_knuthWelford ops).1, h] at hμ
  have hm2 := contracted_m2 hA fused xs hx hn μ hμ
  have hc := (kw_state hA xs hx hn μ hμ).2.2.2.1
  rw [(C35_knuthWelford ops).1, h] at e2
  change _ = KnuthWelford.count _ at e2
  rw [hc] at e2
  rw [runOps_fresh (add := KnuthWelford.addContracted fused) (reset := KnuthWelford.reset) (fresh := KnuthWelford.new)
    (fun _ => rfl) ops, h] at e2 ⊢
  generalize (xs.map .fin).foldl (KnuthWelford.addContracted fused) (KnuthWelford.new : KnuthWelford (Num A)) = st at *
  obtain ⟨m, q, c⟩ := st
  change c = xs.length at e2
  subst e2
  change CxxFloat.le (.fin 0) q = true at hm2
  constructor
  · unfold KnuthWelford.scaledVariance
    rw [if_neg (show ¬ xs.length < 2 by omega)]
    exact hm2
  · unfold KnuthWelford.variance
    rw [if_neg (show ¬ xs.length < 2 by omega)]
    simp only
    have hk : ∃ k, (if corrected then usub xs.length 1 else xs.length) = k ∧ 1 ≤ k ∧ k < 2 ^ 64 := by
      cases corrected
      · exact ⟨xs.length, if_neg (by simp), by omega, hn⟩
      · exact ⟨usub xs.length 1, if_pos rfl, by unfold usub; omega, by unfold usub; omega⟩
    obtain ⟨k, e, hk1, hk2⟩ := hk
    rw [e, (count_fin hA hk2).1]
    refine nonneg_div hA hm2 ?_
    have := rn_nat_ge (K := K) hk1 (by norm_num)
    rw [Nat.cast_one] at this
    linarith

/-! ## LinSpace -/

/-- C146.  LinSpace with contraction: the first value is the first end and the values never decrease. -/
theorem C146_linspace (hA : A.IsBinary64) (fused : Bool) (a b st : K) (hst : 0 < st) (n : Nat)
    (hf : A.rnd a = some a) (j k : Nat) (hjk : j ≤ k) (hk : k < 2 ^ 64) :
    CxxFloat.le ((LinSpace.incrContracted fused)^[j] (⟨.fin a, .fin a, .fin b, .fin st, n, 0⟩ : LinSpace (Num A))).deref
      ((LinSpace.incrContracted fused)^[k] (⟨.fin a, .fin a, .fin b, .fin st, n, 0⟩ : LinSpace (Num A))).deref = true := by
  cases fused with
  | false => exact C63_monotone (mono_of_binary64 hA) (rnd_zero_of_binary64 hA) a b st hst n hf j k hjk hk
  | true =>
    have it : ∀ k, k < W64 →
        (LinSpace.incrContracted true)^[k] (⟨.fin a, .fin a, .fin b, .fin st, n, 0⟩ : LinSpace (Num A)) =
        ⟨Num.round A (st * rn (k : K) + a), .fin a, .fin b, .fin st, n, k⟩ := by
      intro k
      induction k with
      | zero =>
        intro _
        rw [Nat.cast_zero, rn_zero, mul_zero, zero_add, Num.round_of hf]
        rfl
      | succ k ih =>
        intro hk
        rw [Function.iterate_succ_apply', ih (by omega)]
        unfold LinSpace.incrContracted
        have e : (k + 1) % W64 = k + 1 := Nat.mod_eq_of_lt hk
        simp only [e, (count_fin hA (n := k + 1) (by omega)).1, mulAdd_fin]
    rw [it j (by omega), it k hk]
    refine mono_of_binary64 hA _ _ ?_
    have := rn_mono (show (j : K) ≤ k by exact_mod_cast hjk)
    nlinarith

end

section
variable {A : Arith ℝ}

/-- C146.  KnuthWelfordAccumulator with contraction: `ScaledVariance()` and the two variances are as near to the exact values
as without it (C126). -/
theorem C146_welford_error (hA : A.IsBinary64) (fused : Bool) (ops : List (AccOp (Num A))) (xs : List ℝ)
    (h : sinceReset ops = xs.map .fin) (M : ℝ) (hM0 : 0 ≤ M) (hM : M ≤ (2 : ℝ) ^ (400 : Int))
    (hx : ∀ x ∈ xs, Double x ∧ |x| ≤ M) (hn : xs.length ≤ 2 ^ 48) (h2 : 2 ≤ xs.length) :
    (∃ q : ℝ, (runOps (KnuthWelford.addContracted fused) KnuthWelford.reset KnuthWelford.new ops).scaledVariance = .fin q ∧
      |q - sqDev xs| ≤ M * (M / 2 ^ 53 + (2 : ℝ) ^ (-1075 : Int)) * (2 * (xs.length : ℝ) ^ 2 + 45 * xs.length) +
        2 * xs.length * (2 : ℝ) ^ (-1075 : Int)) ∧
    (∃ v : ℝ, (runOps (KnuthWelford.addContracted fused) KnuthWelford.reset KnuthWelford.new ops).variance false = .fin v ∧
      |v - sqDev xs / xs.length| ≤ M * (M / 2 ^ 53 + (2 : ℝ) ^ (-1075 : Int)) * (2 * xs.length + 47) +
        4 * (2 : ℝ) ^ (-1075 : Int)) ∧
    (∃ v : ℝ, (runOps (KnuthWelford.addContracted fused) KnuthWelford.reset KnuthWelford.new ops).variance true = .fin v ∧
      |v - sqDev xs / (xs.length - 1)| ≤ M * (M / 2 ^ 53 + (2 : ℝ) ^ (-1075 : Int)) * (4 * xs.length + 94) +
        8 * (2 : ℝ) ^ (-1075 : Int)) :=
  ⟨scaled_error hA fused ops xs h M hM0 hM hx hn h2, variance_error hA fused ops xs h M hM0 hM hx hn h2⟩

/-! ## Interpolation -/

/-- the rounded interpolation with contraction -/
noncomputable def lerp64C : Fused → ℝ → ℝ → ℝ → ℝ
  | .neither, a, b, t => rn (rn (rn (1 - t) * a) + rn (t * b))
  | .first, a, b, t => rn (rn (1 - t) * a + rn (t * b))
  | .second, a, b, t => rn (t * b + rn (rn (1 - t) * a))

/-- C146.  Interpolation with contraction does not overflow for ends up to 2^1022. -/
theorem C146_lerp_value (hA : A.IsBinary64) (f : Fused) {a b t : ℝ} (ha : |a| ≤ (2 : ℝ) ^ (1022 : Int))
    (hb : |b| ≤ (2 : ℝ) ^ (1022 : Int)) (h0 : 0 ≤ t) (h1 : t ≤ 1) :
    lerpContracted f (.fin a : Num A) (.fin b) (.fin t) = .fin (lerp64C f a b t) := by
  have d1 : Double (1 : ℝ) := ⟨1, 0, by norm_num, by norm_num, by norm_num⟩
  have dM : Double ((2 : ℝ) ^ (1022 : Int)) := double_two_zpow (by norm_num)
  have hM := two_zpow_pos (K := ℝ) 1022
  have e23 : (2 : ℝ) ^ (1023 : Int) = 2 * (2 : ℝ) ^ (1022 : Int) := by
    rw [show (1023 : Int) = 1 + 1022 by norm_num, zpow_add₀ two_ne_zero]; norm_num
  have one : (1 : ℝ) ≤ (2 : ℝ) ^ (1022 : Int) := by
    rw [show (1 : ℝ) = (2 : ℝ) ^ (0 : Int) by simp]; exact zpow_le_zpow_right₀ one_le_two (by norm_num)
  have r : ∀ y : ℝ, |y| ≤ 2 * (2 : ℝ) ^ (1022 : Int) → Num.round A y = .fin (rn y) := fun y h =>
    round_of_le_two hA (by rw [e23]; exact h)
  clear e23
  generalize (2 : ℝ) ^ (1022 : Int) = c at *
  have hs0 : 0 ≤ rn (1 - t) := by have := rn_mono (sub_nonneg.2 h1); rwa [rn_zero] at this
  have hs1 : rn (1 - t) ≤ 1 := by have := rn_mono (show 1 - t ≤ 1 by linarith); rwa [rn_double d1] at this
  have bnd : ∀ {k x : ℝ}, 0 ≤ k → k ≤ 1 → |x| ≤ c → |k * x| ≤ c := by
    intro k x c0 c1 hx
    rw [abs_mul, abs_of_nonneg c0]
    calc k * |x| ≤ 1 * |x| := mul_le_mul_of_nonneg_right c1 (abs_nonneg x)
      _ ≤ _ := by rw [one_mul]; exact hx
  have rbnd : ∀ {y : ℝ}, |y| ≤ c → |rn y| ≤ c := by
    intro y hy
    rw [rn_abs_eq]
    have := rn_mono hy
    rwa [rn_double dM] at this
  have hp := bnd hs0 hs1 ha
  have hq := bnd h0 h1 hb
  have e1 : (CxxFloat.ofInt 1 : Num A) = .fin 1 := by
    rw [Num.ofInt_eq, show (((1 : Int)) : ℝ) = 1 by norm_num, r 1 (by rw [abs_one]; linarith), rn_double d1]
  have e2 : (CxxFloat.ofInt 1 - .fin t : Num A) = .fin (rn (1 - t)) := by
    rw [e1, Num.fin_sub, r (1 - t) (by rw [abs_of_nonneg (sub_nonneg.2 h1)]; linarith)]
  cases f with
  | neither =>
    simp only [lerpContracted, lerp64C]
    rw [e2, Num.fin_mul, Num.fin_mul, r _ (by linarith), r _ (by linarith), Num.fin_add,
      r _ ((abs_add_le _ _).trans (by linarith [rbnd hp, rbnd hq]))]
  | first =>
    simp only [lerpContracted, lerp64C]
    rw [e2, Num.fin_mul, r _ (by linarith)]
    exact r _ ((abs_add_le _ _).trans (by linarith [rbnd hq]))
  | second =>
    simp only [lerpContracted, lerp64C]
    rw [e2, Num.fin_mul, r _ (by linarith)]
    exact r _ ((abs_add_le _ _).trans (by linarith [rbnd hp]))

/-- C146.  With contraction the ends are exact and interpolation is monotone in the ends. -/
theorem C146_lerp_ends (f : Fused) {a b : ℝ} (ha : Double a) (hb : Double b) :
    lerp64C f a b 0 = a ∧ lerp64C f a b 1 = b ∧
    ∀ a' b' t : ℝ, 0 ≤ t → t ≤ 1 → a ≤ a' → b ≤ b' → lerp64C f a b t ≤ lerp64C f a' b' t := by
  have d1 : Double (1 : ℝ) := ⟨1, 0, by norm_num, by norm_num, by norm_num⟩
  refine ⟨?_, ?_, fun a' b' t h0 h1 haa hbb => ?_⟩
  · cases f <;> simp only [lerp64C, sub_zero, rn_double d1, one_mul, zero_mul, rn_double ha, rn_zero, add_zero, zero_add]
  · cases f <;> simp only [lerp64C, sub_self, rn_zero, zero_mul, one_mul, rn_double hb, zero_add, add_zero]
  · have hs0 : 0 ≤ rn (1 - t) := by have := rn_mono (sub_nonneg.2 h1); rwa [rn_zero] at this
    have m1 := mul_le_mul_of_nonneg_left haa hs0
    have m2 := mul_le_mul_of_nonneg_left hbb h0
    cases f with
    | neither => exact rn_mono (add_le_add (rn_mono m1) (rn_mono m2))
    | first => exact rn_mono (add_le_add m1 (rn_mono m2))
    | second => exact rn_mono (add_le_add m2 (rn_mono m1))

theorem lerp_error_of {a b t s p q L M ε η : ℝ} (h0 : 0 ≤ t) (hs0 : 0 ≤ s)
    (ha : |a| ≤ M) (hb : |b| ≤ M) (hε : 0 ≤ ε) (hε1 : ε ≤ 1 / 16) (hη : 0 ≤ η) (es : |1 - t - s| ≤ (1 - t) * ε)
    (ep : |s * a - p| ≤ |s * a| * ε + η) (eq : |t * b - q| ≤ |t * b| * ε + η) (eS : |p + q - L| ≤ |p + q| * ε + η) :
    |L - ((1 - t) * a + t * b)| ≤ 4 * (M * ε) + 4 * η := by
  have hM : 0 ≤ M := (abs_nonneg a).trans ha
  have hsa : |s * a| ≤ s * M := by rw [abs_mul, abs_of_nonneg hs0]; exact mul_le_mul_of_nonneg_left ha hs0
  have htb : |t * b| ≤ t * M := by rw [abs_mul, abs_of_nonneg h0]; exact mul_le_mul_of_nonneg_left hb h0
  have hst : s + t ≤ 1 + ε := by
    have := (abs_le.1 es).1
    nlinarith
  have hsum : |s * a| + |t * b| ≤ (1 + ε) * M := by nlinarith
  have hpq : |p + q| ≤ (1 + ε) * ((1 + ε) * M) + 2 * η := by
    have h1 : |p| ≤ |s * a| + (|s * a| * ε + η) := by
      have := abs_sub_abs_le_abs_sub p (s * a)
      rw [abs_sub_comm] at this
      linarith
    have h2 : |q| ≤ |t * b| + (|t * b| * ε + η) := by
      have := abs_sub_abs_le_abs_sub q (t * b)
      rw [abs_sub_comm] at this
      linarith
    have h3 := abs_add_le p q
    have : (|s * a| + |t * b|) * (1 + ε) ≤ (1 + ε) * M * (1 + ε) := mul_le_mul_of_nonneg_right hsum (by linarith)
    nlinarith
  have hsa' : |s * a - (1 - t) * a| ≤ ε * M := by
    rw [← sub_mul, abs_mul, abs_sub_comm]
    have h3 : |1 - t - s| ≤ ε := es.trans (by nlinarith)
    exact mul_le_mul h3 ha (abs_nonneg a) hε
  have tri : |L - ((1 - t) * a + t * b)| ≤ |p + q - L| + |s * a - p| + |t * b - q| + |s * a - (1 - t) * a| := by
    have e : L - ((1 - t) * a + t * b) = -(p + q - L) + -(s * a - p) + -(t * b - q) + (s * a - (1 - t) * a) := by ring
    rw [e]
    refine (abs_add_le _ _).trans (add_le_add ((abs_add_le _ _).trans (add_le_add ((abs_add_le _ _).trans ?_) ?_)) le_rfl)
    · rw [abs_neg, abs_neg]
    · rw [abs_neg]
  have f1 : |p + q| * ε ≤ ((1 + ε) * ((1 + ε) * M) + 2 * η) * ε := mul_le_mul_of_nonneg_right hpq hε
  have f2 : (|s * a| + |t * b|) * ε ≤ (1 + ε) * M * ε := mul_le_mul_of_nonneg_right hsum hε
  have g1 : ((1 + ε) * ((1 + ε) * M)) * ε + (1 + ε) * M * ε + ε * M ≤ 4 * (M * ε) := by
    have hMe : 0 ≤ M * ε := mul_nonneg hM hε
    have : (1 + ε) * (1 + ε) + (1 + ε) + 1 ≤ 4 := by nlinarith
    have h := mul_le_mul_of_nonneg_left this hMe
    nlinarith
  have g2 : 2 * η * ε ≤ η := by nlinarith
  nlinarith

/-- C146.  With contraction the error of interpolation has the bound of C124. -/
theorem C146_lerp_error (f : Fused) {a b t M : ℝ} (ht : Double t) (h0 : 0 ≤ t) (h1 : t ≤ 1) (ha : |a| ≤ M) (hb : |b| ≤ M) :
    |lerp64C f a b t - ((1 - t) * a + t * b)| ≤ 4 * (M / 2 ^ 53) + (2 : ℝ) ^ (-1073 : Int) := by
  have d1 : Double (1 : ℝ) := ⟨1, 0, by norm_num, by norm_num, by norm_num⟩
  have hs0 : 0 ≤ rn (1 - t) := by have := rn_mono (sub_nonneg.2 h1); rwa [rn_zero] at this
  have es := rn_rel (d1.mult.sub ht.mult)
  rw [abs_of_nonneg (sub_nonneg.2 h1)] at es
  have e4 : (2 : ℝ) ^ (-1073 : Int) = 4 * (2 : ℝ) ^ (-1075 : Int) := by
    rw [show (-1073 : Int) = 2 + -1075 by norm_num, zpow_add₀ two_ne_zero]; norm_num
  have hη := (two_zpow_pos (K := ℝ) (-1075)).le
  have div : ∀ y : ℝ, y / 2 ^ 53 = y * (1 / 2 ^ 53) := fun y => by ring
  have hε : (0 : ℝ) ≤ 1 / 2 ^ 53 := by positivity
  have hε1 : (1 : ℝ) / 2 ^ 53 ≤ 1 / 16 := by norm_num
  have er : ∀ y : ℝ, |y - rn y| ≤ |y| * (1 / 2 ^ 53) + (2 : ℝ) ^ (-1075 : Int) := fun y => by
    rw [← div]; exact rn_abs_err y
  have ez : ∀ y : ℝ, |y - y| ≤ |y| * (1 / 2 ^ 53) + (2 : ℝ) ^ (-1075 : Int) := fun y => by
    rw [sub_self, abs_zero]
    exact add_nonneg (mul_nonneg (abs_nonneg y) hε) hη
  rw [div] at es ⊢
  rw [e4]
  cases f with
  | neither => exact lerp_error_of h0 hs0 ha hb hε hε1 hη es (er _) (er _) (er _)
  | first => exact lerp_error_of h0 hs0 ha hb hε hε1 hη es (ez _) (er _) (er _)
  | second =>
    refine lerp_error_of h0 hs0 ha hb hε hε1 hη es (er _) (ez _) ?_
    simp only [lerp64C]
    rw [add_comm (t * b)]
    exact er _

/-- C146.  Contraction does change values: one case of `lerp(3/2, 3/2, t)` is 3/2 with it and 3/2 - 2^-52 without. -/
theorem C146_lerp_differs :
    lerp64C .neither (3 / 2) (3 / 2) (3 / 2 ^ 54) = 3 / 2 - 1 / 2 ^ 52 ∧
    lerp64C .first (3 / 2) (3 / 2) (3 / 2 ^ 54) = 3 / 2 := by
  refine ⟨C124_outside_violated.2, ?_⟩
  have u1 : rn (1 - 3 / 2 ^ 54 : ℝ) = 1 - 1 / 2 ^ 52 := by
    have hu : ulpExp (1 - 3 / 2 ^ 54 : ℝ) = -1 - 52 := ulpExp_eq (by norm_num)
      (by rw [abs_of_nonneg (by norm_num)]; norm_num) (by rw [abs_of_nonneg (by norm_num)]; norm_num)
    unfold rn
    rw [hu]
    have e : (1 - 3 / 2 ^ 54 : ℝ) / (2 : ℝ) ^ (-1 - 52 : Int) = 9007199254740990 + 1 / 2 := by norm_num
    rw [e]
    have hr : rint (9007199254740990 + 1 / 2 : ℝ) = 9007199254740990 := by
      have hf : ⌊(9007199254740990 + 1 / 2 : ℝ)⌋ = 9007199254740990 := by rw [Int.floor_eq_iff]; norm_num
      unfold rint
      simp only [hf]
      norm_num
    rw [hr]; norm_num
  have u3 : rn (3 / 2 ^ 54 * (3 / 2) : ℝ) = 9 / 2 ^ 55 := by
    have : (3 / 2 ^ 54 * (3 / 2) : ℝ) = 9 / 2 ^ 55 := by norm_num
    rw [this]
    exact rn_double ⟨9, -55, by norm_num, by norm_num, by norm_num⟩
  simp only [lerp64C]
  rw [u1, u3]
  refine rn_eq_of_close (u := -52) ?_ ⟨6755399441055744, by norm_num⟩ ?_
  · exact ulpExp_eq (k := 0) (by norm_num) (by rw [abs_of_nonneg (by norm_num)]; norm_num)
      (by rw [abs_of_nonneg (by norm_num)]; norm_num)
  · rw [show ((1 - 1 / 2 ^ 52) * (3 / 2) + 9 / 2 ^ 55 - 3 / 2 : ℝ) = -(3 / 2 ^ 55) by norm_num]
    rw [abs_neg, abs_of_nonneg (by positivity)]; norm_num

/-! ## Norms -/

theorem mulAdd_square (hA : A.IsBinary64) (fused : Bool) {d : Num A} (hd : d.NonNeg) (x : ℝ) :
    (mulAdd fused (.fin x) (.fin x) d).NonNeg := by
  cases fused with
  | false =>
    show (d + .fin x * .fin x : Num A).NonNeg
    rw [Num.fin_mul]
    exact (nonneg_add_le hA hd (nonneg_round hA (mul_self_nonneg x))).1
  | true =>
    rcases hd with rfl | ⟨r, rfl, -, hr⟩
    · exact .inl rfl
    · exact nonneg_round hA (add_nonneg (mul_self_nonneg x) hr)

/-- C146.  With contraction the norm of finite numbers is never NaN and never negative, and for integers it is the same as
without. -/
theorem C146_norm (hA : A.IsBinary64) (hS : A.sqrt = Real.sqrt) (fused : Bool) (v : List ℝ) :
    (l2normContracted fused (v.map .fin : List (Num A)) = .inf false ∨
      ∃ r, l2normContracted fused (v.map .fin : List (Num A)) = .fin r ∧ Double r ∧ 0 ≤ r) ∧
    ((∀ x ∈ v, ∃ n : Int, x = n ∧ n * n ≤ 2 ^ 53) →
      l2normContracted fused (v.map .fin : List (Num A)) = l2norm (v.map .fin)) := by
  constructor
  · refine nonneg_sqrt hA hS ?_
    have : ∀ d : Num A, d.NonNeg → ((v.map .fin).foldl (fun d x => mulAdd fused x x d) d).NonNeg := by
      induction v with
      | nil => exact fun d h => h
      | cons x xs ih => exact fun d h => ih _ (mulAdd_square hA fused h x)
    exact this _ zero_nonneg
  · intro h
    unfold l2normContracted l2norm
    congr 1
    generalize (CxxFloat.zero : Num A) = d
    induction v generalizing d with
    | nil => rfl
    | cons x xs ih =>
      obtain ⟨n, rfl, hn⟩ := h x (by simp)
      rw [List.map_cons, List.foldl_cons, List.foldl_cons, C146_exact, ih (fun y hy => h y (by simp [hy]))]
      · rfl
      · rw [← Int.cast_mul]
        have hn' : |n * n| ≤ 2 ^ 53 := by rw [abs_of_nonneg (mul_self_nonneg n)]; exact hn
        exact rnd_of_double hA (double_int hn') (int_lt_huge hn')

/-! ## Bravais lattices -/

theorem dotFrom_eq (fused : Bool) {f : Nat → Res (Num A × Num A)} {g : Nat → Res (Num A)} (k n : Nat) (acc : Num A)
    (h : ∀ i, g i = f i >>= fun xy => .ok (xy.1 * xy.2))
    (he : ∀ i xy, f i = .ok xy → ∀ z, mulAdd fused xy.1 xy.2 z = z + xy.1 * xy.2) :
    dotFrom fused f acc k n = accumulateFrom g acc k n := by
  induction n generalizing k acc with
  | zero => rfl
  | succ n ih =>
    rw [dotFrom, accumulateFrom, h k]
    cases hf : f k with
    | ok xy =>
      rw [Res.ok_bind, Res.ok_bind, Res.ok_bind, he k xy hf, ih]
    | _ => rfl

theorem subscript_mem' {α : Type} {v : List α} {i : Nat} {x : α} (h : subscript v i = .ok x) : x ∈ v := by
  unfold subscript at h
  split at h
  · rename_i hi
    cases h
    exact List.mem_of_getElem? hi
  · cases h

/-- C146.  Bravais lattices with integer vectors: for integer coordinates whose products with the components of the vectors
are at most 2^53, contraction does not change positions. -/
theorem C146_position (hA : A.IsBinary64) (fused : Bool) (b : Bravais (Num A)) (coords : List Int)
    (hc : ∀ c ∈ coords, |c| ≤ 2 ^ 53 ∧ ∀ p ∈ b.pvectors, ∃ z : Int, p = .fin (z : ℝ) ∧ |c * z| ≤ 2 ^ 53) :
    b.getRealSpaceContracted fused coords = b.getRealSpace coords := by
  unfold Bravais.getRealSpaceContracted Bravais.getRealSpace accumulate
  split
  · refine mapRange_congr (fun i _ => ?_)
    refine dotFrom_eq fused _ _ _ (fun j => ?_) (fun j xy hxy z => ?_)
    · cases subscript coords j with
      | ok c =>
        rw [Res.ok_bind, Res.ok_bind]
        cases subscript b.pvectors (uadd i (umul j b.dim)) with
        | ok p => rfl
        | _ => rfl
      | _ => rfl
    · obtain ⟨c, h1, hxy⟩ := Res.bind_eq_ok.1 hxy
      obtain ⟨p, h2, hxy⟩ := Res.bind_eq_ok.1 hxy
      cases hxy
      obtain ⟨b1, b2⟩ := hc c (subscript_mem' h1)
      obtain ⟨q, rfl, b3⟩ := b2 p (subscript_mem' h2)
      simp only
      rw [Num.ofInt_eq, round_int hA b1]
      refine C146_exact ?_ fused z
      rw [← Int.cast_mul]
      exact rnd_of_double hA (double_int b3) (int_lt_huge b3)
  · rfl

/-- C146.  There contraction does not change distances either, if the components of the vector between the points are at most
2^26. -/
theorem C146_distance (hA : A.IsBinary64) (fused fused' : Bool) (b : Bravais (Num A)) (x y d : List Int) (v : List (Num A))
    (hd : mapRange b.dim (fun i => do
      let y ← subscript y i
      let x ← subscript x i
      lsub y x) = .ok d)
    (hc : ∀ c ∈ d, |c| ≤ 2 ^ 53 ∧ ∀ p ∈ b.pvectors, ∃ z : Int, p = .fin (z : ℝ) ∧ |c * z| ≤ 2 ^ 53)
    (hv : b.getVector x y = .ok v) (hi : ∀ c ∈ v, ∃ z : Int, c = .fin (z : ℝ) ∧ |z| ≤ 2 ^ 26) :
    b.getDistanceContracted fused fused' x y = b.getDistance x y := by
  unfold Bravais.getDistanceContracted Bravais.getDistance
  rw [hv]
  unfold Bravais.getVector at hv
  rw [hd, Res.ok_bind] at hv ⊢
  rw [C146_position hA fused b d hc, hv, Res.ok_bind, Res.ok_bind]
  unfold accumulate
  rw [dotFrom_eq fused' (g := fun i => do
    let x ← subscript v i
    .ok (squareF x)) 0 b.dim CxxFloat.zero]
  · intro i
    cases subscript v i with
    | ok c => rfl
    | _ => rfl
  · intro i xy hxy z
    obtain ⟨c, h1, hxy⟩ := Res.bind_eq_ok.1 hxy
    cases hxy
    obtain ⟨n, rfl, hn⟩ := hi c (subscript_mem' h1)
    refine C146_exact ?_ fused' z
    rw [← Int.cast_mul]
    have hn' : |n * n| ≤ 2 ^ 53 := by
      rw [abs_mul]
      nlinarith [abs_nonneg n]
    exact rnd_of_double hA (double_int hn') (int_lt_huge hn')

/-- C146.  With nothing fused the functions are those of the other properties. -/
theorem C146_plain (s : KnuthWelford (Num A)) (x a b t : Num A) (l : LinSpace (Num A)) (v : List (Num A)) (B : Bravais (Num A))
    (c d : List Int) :
    s.addContracted false x = s.addCore x ∧ lerpContracted .neither a b t = lerp a b t ∧ l.incrContracted false = l.incr ∧
    l2normContracted false v = l2norm v ∧ B.getRealSpaceContracted false c = B.getRealSpace c ∧
    B.getDistanceContracted false false c d = B.getDistance c d := by
  have dot : ∀ (f : Nat → Res (Num A × Num A)) (g : Nat → Res (Num A)) (k n : Nat) (acc : Num A),
      (∀ i, g i = f i >>= fun xy => .ok (xy.1 * xy.2)) → dotFrom false f acc k n = accumulateFrom g acc k n :=
    fun f g k n acc h => dotFrom_eq false k n acc h (fun _ _ _ _ => rfl)
  have pos : ∀ c, B.getRealSpaceContracted false c = B.getRealSpace c := by
    intro c
    unfold Bravais.getRealSpaceContracted Bravais.getRealSpace accumulate
    split
    · refine mapRange_congr (fun i _ => dot _ _ _ _ _ (fun j => ?_))
      cases subscript c j with
      | ok c =>
        rw [Res.ok_bind, Res.ok_bind]
        cases subscript B.pvectors (uadd i (umul j B.dim)) with
        | ok p => rfl
        | _ => rfl
      | _ => rfl
    · rfl
  refine ⟨rfl, rfl, rfl, rfl, pos c, ?_⟩
  unfold Bravais.getDistanceContracted Bravais.getDistance Bravais.getVector accumulate
  cases (mapRange B.dim fun i => do
    let y ← subscript d i
    let x ← subscript c i
    lsub y x) with
  | throws e => rfl
  | ub k => rfl
  | diverges => rfl
  | ok p =>
  rw [Res.ok_bind, Res.ok_bind, pos p]
  congr 1
  funext p
  rw [dot _ (fun i => do
    let x ← subscript p i
    .ok (squareF x))]
  intro i
  cases subscript p i with
  | ok c => rfl
  | _ => rfl

/-- C146.  In exact arithmetic contraction changes nothing. -/
theorem C146_no_rounding (hA : A.IsExact) (f : Bool) (g : Fused) (s : KnuthWelford (Num A)) (x a b t : Num A)
    (l : LinSpace (Num A)) (v : List (Num A)) (B : Bravais (Num A)) (c : List Int) :
    s.addContracted f x = s.addCore x ∧ lerpContracted g a b t = lerp a b t ∧ l.incrContracted f = l.incr ∧
    l2normContracted f v = l2norm v ∧ B.getRealSpaceContracted f c = B.getRealSpace c := by
  have key : ∀ x y z : Num A, mulAdd f x y z = z + x * y := by
    intro x y z
    by_cases h : ∃ a b, x = .fin a ∧ y = .fin b
    · obtain ⟨a, b, rfl, rfl⟩ := h
      exact C146_exact (hA _) f z
    · exact (C146_special x y z f).1 (fun a b h1 h2 => h ⟨a, b, h1, h2⟩)
  have key' : ∀ x y z : Num A, CxxFma.fma x y z = z + x * y := by
    intro x y z
    by_cases h : ∃ a b, x = .fin a ∧ y = .fin b
    · obtain ⟨a, b, rfl, rfl⟩ := h
      exact C146_exact (hA _) true z
    · exact (C146_special x y z true).1 (fun a b h1 h2 => h ⟨a, b, h1, h2⟩)
  refine ⟨?_, ?_, ?_, ?_, ?_⟩
  · simp only [KnuthWelford.addContracted, KnuthWelford.addCore, key]
  · cases g with
    | neither => rfl
    | first => simp only [lerpContracted, key', lerp]; exact num_add_comm _ _
    | second => simp only [lerpContracted, key', lerp]
  · simp only [LinSpace.incrContracted, LinSpace.incr, key]
  · simp only [l2normContracted, l2norm, key, squareF]
  · unfold Bravais.getRealSpaceContracted Bravais.getRealSpace accumulate
    split
    · refine mapRange_congr (fun i _ => dotFrom_eq f _ _ _ (fun j => ?_) (fun _ _ _ z => key _ _ z))
      cases subscript c j with
      | ok c =>
        rw [Res.ok_bind, Res.ok_bind]
        cases subscript B.pvectors (uadd i (umul j B.dim)) with
        | ok p => rfl
        | _ => rfl
      | _ => rfl
    · rfl

/-- The points (0,0) and (3,4) of the square lattice meet the hypotheses. -/
example (b : Bravais (Num A))
    (hb : b = ⟨2, 4, [.fin 1, .fin 0, .fin 0, .fin 1], [.fin 1, .fin 0, .fin 0, .fin 1], [1, 0, 0, 1]⟩) :
    (∀ c ∈ [3, 4], |c| ≤ 2 ^ 53 ∧ ∀ p ∈ b.pvectors, ∃ z : Int, p = .fin (z : ℝ) ∧ |c * z| ≤ 2 ^ 53) := by
  subst hb
  intro c hc
  have hc' : |c| ≤ 2 ^ 53 := by
    rcases List.mem_cons.1 hc with rfl | hc
    · norm_num
    · rcases List.mem_singleton.1 hc with rfl
      norm_num
  refine ⟨hc', fun p hp => ?_⟩
  have : p = .fin ((0 : Int) : ℝ) ∨ p = .fin ((1 : Int) : ℝ) := by
    simp only [List.mem_cons, List.not_mem_nil, or_false] at hp
    rcases hp with rfl | rfl | rfl | rfl <;> simp
  rcases this with rfl | rfl
  · exact ⟨0, rfl, by norm_num⟩
  · exact ⟨1, rfl, by simpa using hc'⟩

end
end Bwsl
