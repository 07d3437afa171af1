import Verif.Props.KahanBound
import Verif.Props.AccumCount
import Verif.Lemmas.NumOrder

/-! Property C87: Welford's algorithm in binary64.  The mean stays in the range of the data and the
variances are not negative. -/

namespace Bwsl
open Spec

set_option linter.unusedSectionVars false

section
variable {K : Type} [Field K] [LinearOrder K] [IsStrictOrderedRing K] [FloorRing K] {A : Arith K}

/-! ### One step -/

theorem rn_nonneg {x : K} (h : 0 ≤ x) : 0 ≤ rn x := by
  have := rn_mono h
  rwa [rn_zero] at this

/-- Half of a rounded difference, rounded again, is at most the exact difference. -/
theorem rn_half_le {D : K} (hD : Mult (-1074) D) (h0 : 0 ≤ D) : rn (rn D / 2) ≤ D := by
  have hr0 : 0 ≤ rn D := rn_nonneg h0
  rcases le_or_gt D ((2 : K) ^ (-1021 : Int)) with h | h
  · have hd : Double D := double_iff.2 ⟨-1074, le_refl _, hD, by rw [abs_of_nonneg h0]; exact h⟩
    rw [rn_double hd]
    have : rn (D / 2) ≤ rn D := rn_mono (by linarith)
    rwa [rn_double hd] at this
  · have e1 : Double ((2 : K) ^ (-1021 : Int)) :=
      double_iff.2 ⟨-1074, le_refl _, mult_zpow (by norm_num), by
        rw [abs_of_pos (two_zpow_pos _)]; exact le_refl _⟩
    have e2 : (2 : K) ^ (-1021 : Int) ≤ rn D := by
      have := rn_mono h.le
      rwa [rn_double e1] at this
    have e3 : (2 : K) ^ (-1022 : Int) ≤ |rn D / 2| := by
      rw [abs_of_nonneg (by linarith)]
      have : (2 : K) ^ (-1021 : Int) = 2 ^ (-1022 : Int) * 2 := by
        rw [← zpow_add_one₀ two_ne_zero]; norm_num
      linarith
    have h1 := (abs_le.1 (rn_rel hD)).1
    have h2 := (abs_le.1 (rn_rel_normal e3)).1
    rw [abs_of_nonneg h0] at h1
    rw [abs_of_nonneg (by linarith : 0 ≤ rn D / 2)] at h2
    have h53 : (2 : K) ^ 53 = 9007199254740992 := by norm_num
    rw [h53] at h1 h2
    have h3 : rn D ≤ D * (1 + 1 / 9007199254740992) := by linarith
    have h4 : rn (rn D / 2) ≤ rn D / 2 * (1 + 1 / 9007199254740992) := by linarith
    have h5 : D / 9007199254740992 ≤ D := by
      rw [div_le_iff₀ (by norm_num)]; nlinarith
    linarith

theorem step_up {μ x N : K} (hμ : Double μ) (hx : Double x) (hN : 2 ≤ N) (h : μ ≤ x) :
    μ ≤ rn (μ + rn (rn (x - μ) / N)) ∧ rn (μ + rn (rn (x - μ) / N)) ≤ x := by
  have hD : Mult (-1074) (x - μ) := hx.mult.sub hμ.mult
  have h0 : 0 ≤ x - μ := by linarith
  have hr : 0 ≤ rn (x - μ) := rn_nonneg h0
  have hq : 0 ≤ rn (rn (x - μ) / N) := rn_nonneg (div_nonneg hr (by linarith))
  have hq2 : rn (rn (x - μ) / N) ≤ x - μ :=
    (rn_mono (div_le_div_of_nonneg_left hr two_pos hN)).trans (rn_half_le hD h0)
  constructor
  · have := rn_mono (show μ ≤ μ + rn (rn (x - μ) / N) by linarith)
    rwa [rn_double hμ] at this
  · have := rn_mono (show μ + rn (rn (x - μ) / N) ≤ x by linarith)
    rwa [rn_double hx] at this

theorem step_down {μ x N : K} (hμ : Double μ) (hx : Double x) (hN : 2 ≤ N) (h : x ≤ μ) :
    x ≤ rn (μ + rn (rn (x - μ) / N)) ∧ rn (μ + rn (rn (x - μ) / N)) ≤ μ := by
  obtain ⟨h1, h2⟩ := step_up hμ.neg hx.neg hN (by linarith : -μ ≤ -x)
  have e1 : -x - -μ = -(x - μ) := by ring
  rw [e1, rn_neg, neg_div, rn_neg, ← neg_add, rn_neg] at h1 h2
  exact ⟨by linarith, by linarith⟩

/-- The increment of M2 is not negative. -/
theorem step_m2 {μ x N : K} (hμ : Double μ) (hx : Double x) (hN : 2 ≤ N) :
    0 ≤ rn (x - μ) * rn (x - rn (μ + rn (rn (x - μ) / N))) := by
  rcases le_total μ x with h | h
  · exact mul_nonneg (rn_nonneg (by linarith)) (rn_nonneg (by linarith [(step_up hμ hx hN h).2]))
  · refine mul_nonneg_of_nonpos_of_nonpos ?_ ?_
    · have := rn_mono (show x - μ ≤ 0 by linarith)
      rwa [rn_zero] at this
    · have := rn_mono (show x - rn (μ + rn (rn (x - μ) / N)) ≤ 0 by linarith [(step_down hμ hx hN h).1])
      rwa [rn_zero] at this

/-! ### Finite values -/

theorem div_eq_fin {x : Num A} {y z : K} (h : x / .fin y = .fin z) : ∃ a, x = .fin a := by
  cases x with
  | nan => rw [Num.nan_div] at h; cases h
  | inf n => cases h
  | fin a => exact ⟨a, rfl⟩

/-- `0.0 <= z` -/
theorem le_round (hA : A.IsBinary64) {x : K} (h : 0 ≤ x) : CxxFloat.le (.fin 0) (Num.round A x) = true := by
  unfold Num.round
  split
  · next y hy =>
    obtain ⟨rfl, -⟩ := rnd_eq_some hA hy
    rw [Num.le_fin]
    exact decide_eq_true (rn_nonneg h)
  · rw [Num.le_fin_inf, decide_eq_false (not_lt.2 h)]; rfl

theorem nonneg_cases {z : Num A} (h : CxxFloat.le (.fin 0) z = true) :
    z = .inf false ∨ ∃ v : K, 0 ≤ v ∧ z = .fin v := by
  cases z with
  | nan => rw [Num.le_nan_right] at h; cases h
  | inf n =>
    rw [Num.le_fin_inf] at h
    cases n
    · exact .inl rfl
    · cases h
  | fin v =>
    rw [Num.le_fin] at h
    exact .inr ⟨v, of_decide_eq_true h, rfl⟩

theorem nonneg_add (hA : A.IsBinary64) {x y : Num A} (hx : CxxFloat.le (.fin 0) x = true)
    (hy : CxxFloat.le (.fin 0) y = true) : CxxFloat.le (.fin 0) (x + y) = true := by
  rcases nonneg_cases hx with rfl | ⟨a, ha, rfl⟩ <;> rcases nonneg_cases hy with rfl | ⟨b, hb, rfl⟩
  · rfl
  · rfl
  · rfl
  · rw [Num.fin_add]; exact le_round hA (add_nonneg ha hb)

theorem nonneg_div (hA : A.IsBinary64) {x : Num A} {b : K} (hx : CxxFloat.le (.fin 0) x = true)
    (hb : 0 < b) : CxxFloat.le (.fin 0) (x / .fin b) = true := by
  rcases nonneg_cases hx with rfl | ⟨a, ha, rfl⟩
  · show CxxFloat.le (.fin 0) (Num.inf (false != decide (b < 0)) : Num A) = true
    rw [decide_eq_false (not_lt.2 hb.le)]; rfl
  · rw [Num.fin_div hb.ne']; exact le_round hA (div_nonneg ha hb.le)

theorem double_pow2 {e : Int} (h : -1074 ≤ e) : Double ((2 : K) ^ e) :=
  double_iff.2 ⟨e, h, mult_zpow (le_refl _), by
    rw [abs_of_pos (two_zpow_pos _)]
    exact zpow_le_zpow_right₀ one_le_two (by omega)⟩

/-- A count converted to `double`. -/
theorem count_fin (hA : A.IsBinary64) {n : Nat} (h : n < 2 ^ 64) :
    (CxxFloat.ofNat n : Num A) = .fin (rn (n : K)) ∧ (rn (n : K)) ≤ (2 : K) ^ (64 : Int) := by
  have h1 : (n : K) ≤ (2 : K) ^ (64 : Int) := by
    have : ((n : Nat) : K) ≤ ((2 ^ 64 : Nat) : K) := by exact_mod_cast h.le
    refine this.trans (le_of_eq ?_)
    norm_num
  have h2 := rn_mono h1
  rw [rn_double (double_pow2 (by norm_num))] at h2
  refine ⟨?_, h2⟩
  rw [Num.ofNat_eq]
  refine Num.round_of ?_
  rw [hA, rnd64, if_pos]
  rw [abs_of_nonneg (rn_nonneg (Nat.cast_nonneg n))]
  exact h2.trans_lt (zpow_lt_zpow_right₀ one_lt_two (by norm_num))

theorem rn_nat_small {n : Nat} (h : n ≤ 2 ^ 53) : rn (n : K) = n := by
  have : ((n : Int) : K) = (n : K) := Int.cast_natCast n
  rw [← this]
  refine rn_double (double_int ?_)
  rw [abs_of_nonneg (by omega)]
  exact_mod_cast h

theorem rn_nat_ge {n m : Nat} (h : m ≤ n) (hm : m ≤ 2 ^ 53) : (m : K) ≤ rn (n : K) := by
  have := rn_mono (show (m : K) ≤ (n : K) by exact_mod_cast h)
  rwa [rn_nat_small hm] at this

/-! ### The invariant -/

theorem kw_state (hA : A.IsBinary64) (xs : List K) (hx : ∀ x ∈ xs, FinDouble x) (hn : xs.length < 2 ^ 64)
    (μ : K) (h : ((xs.map .fin).foldl KnuthWelford.addCore (KnuthWelford.new : KnuthWelford (Num A))).mean = .fin μ) :
    FinDouble μ ∧
    (∀ lo hi, xs ≠ [] → (∀ x ∈ xs, lo ≤ x ∧ x ≤ hi) → lo ≤ μ ∧ μ ≤ hi) ∧
    CxxFloat.le (.fin 0) ((xs.map .fin).foldl KnuthWelford.addCore (KnuthWelford.new : KnuthWelford (Num A))).m2 = true ∧
    ((xs.map .fin).foldl KnuthWelford.addCore (KnuthWelford.new : KnuthWelford (Num A))).count = xs.length ∧
    (xs = [] → μ = 0) := by
  induction xs using List.reverseRecOn generalizing μ with
  | nil =>
    have h' : (Num.fin 0 : Num A) = .fin μ := h
    cases h'
    refine ⟨⟨double_zero, by rw [abs_zero]; exact two_zpow_pos _⟩, fun _ _ h => absurd rfl h, ?_, rfl, fun _ => rfl⟩
    show CxxFloat.le (.fin 0) (.fin 0 : Num A) = true
    rw [Num.le_fin]; exact decide_eq_true (le_refl _)
  | append_singleton ys x ih =>
    rw [List.map_append, List.foldl_append] at h ⊢
    rw [List.length_append, List.length_singleton] at hn ⊢
    generalize hst : (ys.map .fin).foldl KnuthWelford.addCore (KnuthWelford.new : KnuthWelford (Num A)) = st at h ih ⊢
    obtain ⟨m, q, c⟩ := st
    simp only [List.map_cons, List.map_nil, List.foldl_cons, List.foldl_nil, KnuthWelford.addCore] at h ⊢
    obtain ⟨m0, d0, rfl, hd⟩ := Num.add_eq_fin h
    obtain ⟨hm, hr, hq, hc, hz⟩ := ih (fun y hy => hx y (by simp [hy])) (by omega) m0 rfl
    change c = ys.length at hc
    subst hc
    have hcnt : succU ys.length = ys.length + 1 := by unfold succU; omega
    rw [hcnt] at hd h ⊢
    have hxd := hx x (by simp)
    obtain ⟨hcf, -⟩ := count_fin hA (n := ys.length + 1) (by omega)
    rw [hcf] at hd h ⊢
    obtain ⟨d, hd'⟩ := div_eq_fin hd
    have hN : (0 : K) < rn ((ys.length + 1 : Nat) : K) := by
      have := rn_nat_ge (K := K) (n := ys.length + 1) (m := 1) (by omega) (by norm_num)
      rw [Nat.cast_one] at this
      linarith
    rw [hd', Num.fin_div hN.ne'] at hd
    rw [hd', Num.fin_div hN.ne', hd] at h
    rw [hd', Num.fin_div hN.ne', hd, h]
    rw [Num.fin_add] at h
    rw [Num.fin_sub] at hd'
    obtain ⟨rfl, hd1⟩ := rnd_eq_some hA (Num.round_eq_fin hd')
    obtain ⟨rfl, hd2⟩ := rnd_eq_some hA (Num.round_eq_fin hd)
    obtain ⟨rfl, hd3⟩ := rnd_eq_some hA (Num.round_eq_fin h)
    have hlast : FinDouble (rn (m0 + rn (rn (x - m0) / rn ((ys.length + 1 : Nat) : K)))) := ⟨rn_isDouble _, hd3⟩
    rcases Nat.eq_zero_or_pos ys.length with h0 | hpos
    · -- the first value
      have hys : ys = [] := List.eq_nil_of_length_eq_zero h0
      subst hys
      have : m0 = 0 := hz rfl
      subst this
      have e1 : rn ((([] : List K).length + 1 : Nat) : K) = 1 := by
        rw [rn_nat_small (by norm_num)]; simp
      have e : rn (0 + rn (rn (x - 0) / rn ((([] : List K).length + 1 : Nat) : K))) = x := by
        rw [e1, sub_zero, rn_double hxd.1, div_one, rn_double hxd.1, zero_add, rn_double hxd.1]
      rw [e] at hlast ⊢
      refine ⟨hlast, fun lo hi _ hb => hb x (by simp), ?_, rfl, fun h => absurd h (by simp)⟩
      refine nonneg_add hA hq ?_
      rw [Num.fin_sub, sub_self]
      have : Num.round A (0 : K) = .fin 0 := Num.round_of (rnd_zero_of_binary64 hA)
      rw [this, Num.fin_mul, mul_zero]
      exact le_round hA (le_refl _)
    · have hN2 : (2 : K) ≤ rn ((ys.length + 1 : Nat) : K) := by
        have := rn_nat_ge (K := K) (n := ys.length + 1) (m := 2) (by omega) (by norm_num)
        exact_mod_cast this
      refine ⟨hlast, fun lo hi _ hb => ?_, ?_, rfl, fun h => absurd h (by simp)⟩
      · obtain ⟨h1, h2⟩ := hr lo hi (List.ne_nil_of_length_pos hpos) (fun y hy => hb y (by simp [hy]))
        obtain ⟨h3, h4⟩ := hb x (by simp)
        rcases le_total m0 x with hle | hle
        · obtain ⟨a, b⟩ := step_up hm.1 hxd.1 hN2 hle
          exact ⟨h1.trans a, b.trans h4⟩
        · obtain ⟨a, b⟩ := step_down hm.1 hxd.1 hN2 hle
          exact ⟨h3.trans a, b.trans h2⟩
      · refine nonneg_add hA hq ?_
        have hfin : A.rnd (x - rn (m0 + rn (rn (x - m0) / rn ((ys.length + 1 : Nat) : K)))) =
            some (rn (x - rn (m0 + rn (rn (x - m0) / rn ((ys.length + 1 : Nat) : K))))) := by
          rw [hA, rnd64, if_pos]
          refine lt_of_le_of_lt ?_ hd1
          rcases le_total m0 x with hle | hle
          · obtain ⟨a, b⟩ := step_up hm.1 hxd.1 hN2 hle
            rw [abs_of_nonneg (rn_nonneg (by linarith)), abs_of_nonneg (rn_nonneg (by linarith))]
            exact rn_mono (by linarith)
          · obtain ⟨a, b⟩ := step_down hm.1 hxd.1 hN2 hle
            rw [← abs_neg, ← rn_neg, ← abs_neg (rn (x - m0)), ← rn_neg,
              abs_of_nonneg (rn_nonneg (by linarith)), abs_of_nonneg (rn_nonneg (by linarith))]
            exact rn_mono (by linarith)
        rw [Num.fin_sub, Num.round_of hfin, Num.fin_mul]
        exact le_round hA (step_m2 hm.1 hxd.1 hN2)

/-! ### The property -/

/-- C87: whenever `Mean()` is finite it lies between any bounds of the values added since the last reset. -/
theorem C87_mean_in_range (hA : A.IsBinary64) (ops : List (AccOp (Num A))) (xs : List K)
    (h : sinceReset ops = xs.map .fin) (hx : ∀ x ∈ xs, FinDouble x) (h0 : xs ≠ []) (hn : xs.length < 2 ^ 64)
    (μ : K) (hμ : (runOps KnuthWelford.addCore KnuthWelford.reset KnuthWelford.new ops).getMean = .fin μ)
    (lo hi : K) (hb : ∀ x ∈ xs, lo ≤ x ∧ x ≤ hi) : lo ≤ μ ∧ μ ≤ hi := by
  rw [(C35_knuthWelford ops).1, h] at hμ
  exact (kw_state hA xs hx hn μ hμ).2.1 lo hi h0 hb

/-- C87: whenever `Mean()` is finite and two values have been added, `ScaledVariance()` and `Variance` satisfy
`0.0 <= v`; so do `StandardDeviation` and `Error` for a square root that is one. -/
theorem C87_variance_nonneg (hA : A.IsBinary64) (ops : List (AccOp (Num A))) (xs : List K)
    (h : sinceReset ops = xs.map .fin) (hx : ∀ x ∈ xs, FinDouble x) (h2 : 2 ≤ xs.length) (hn : xs.length < 2 ^ 64)
    (μ : K) (hμ : (runOps KnuthWelford.addCore KnuthWelford.reset KnuthWelford.new ops).getMean = .fin μ)
    (corrected : Bool) :
    CxxFloat.le (.fin 0) (runOps KnuthWelford.addCore KnuthWelford.reset KnuthWelford.new ops).scaledVariance = true ∧
    CxxFloat.le (.fin 0) ((runOps KnuthWelford.addCore KnuthWelford.reset KnuthWelford.new ops).variance corrected) = true ∧
    ((∀ v : K, 0 ≤ v → 0 ≤ A.sqrt v ∧ A.sqrt v * A.sqrt v = v) →
      CxxFloat.le (.fin 0)
        ((runOps KnuthWelford.addCore KnuthWelford.reset KnuthWelford.new ops).standardDeviation corrected) = true ∧
      CxxFloat.le (.fin 0)
        ((runOps KnuthWelford.addCore KnuthWelford.reset KnuthWelford.new ops).error corrected) = true) := by
  rw [(C35_knuthWelford ops).1, h] at hμ ⊢
  obtain ⟨-, -, hm2, hc, -⟩ := kw_state hA xs hx hn μ hμ
  generalize (xs.map .fin).foldl KnuthWelford.addCore (KnuthWelford.new : KnuthWelford (Num A)) = st at *
  obtain ⟨m, q, c⟩ := st
  change c = xs.length at hc
  subst hc
  change CxxFloat.le (.fin 0) q = true at hm2
  have hv : CxxFloat.le (.fin 0) ((⟨m, q, xs.length⟩ : KnuthWelford (Num A)).variance corrected) = true := by
    unfold KnuthWelford.variance
    rw [if_neg (by simpa using h2)]
    simp only
    have hk : ∃ k, (if corrected then usub xs.length 1 else xs.length) = k ∧ 1 ≤ k ∧ k < 2 ^ 64 := by
      cases corrected
      · exact ⟨xs.length, if_neg (by simp), by omega, hn⟩
      · exact ⟨usub xs.length 1, if_pos rfl, by unfold usub; omega, by unfold usub; omega⟩
    obtain ⟨k, e, hk1, hk2⟩ := hk
    rw [e, (count_fin hA hk2).1]
    refine nonneg_div hA hm2 ?_
    have := rn_nat_ge (K := K) hk1 (by norm_num)
    rw [Nat.cast_one] at this
    linarith
  refine ⟨?_, hv, fun hs => ?_⟩
  · unfold KnuthWelford.scaledVariance
    rw [if_neg (by simpa using h2)]
    exact hm2
  · have hsd : CxxFloat.le (.fin 0) ((⟨m, q, xs.length⟩ : KnuthWelford (Num A)).standardDeviation corrected) = true := by
      unfold KnuthWelford.standardDeviation
      rcases nonneg_cases hv with e | ⟨v, hv0, e⟩
      · rw [e]; rfl
      · rw [e, Num.sqrt_fin hv0]; exact le_round hA (hs v hv0).1
    refine ⟨hsd, ?_⟩
    unfold KnuthWelford.error
    show CxxFloat.le (Num.fin 0 : Num A) (_ / CxxFloat.sqrt (CxxFloat.ofNat xs.length)) = true
    obtain ⟨e1, e2⟩ := count_fin hA hn
    have h1 : (1 : K) ≤ rn (xs.length : K) := by
      have := rn_nat_ge (K := K) (m := 1) (n := xs.length) (by omega) (by norm_num)
      rwa [Nat.cast_one] at this
    obtain ⟨s0, s1⟩ := hs (rn (xs.length : K)) (by linarith)
    have s2 : (1 : K) ≤ A.sqrt (rn (xs.length : K)) := by
      by_contra hcon
      have := mul_lt_one_of_nonneg_of_lt_one_left s0 (not_le.1 hcon) (not_le.1 hcon).le
      rw [s1] at this
      exact absurd this (not_lt.2 h1)
    have s3 : A.sqrt (rn (xs.length : K)) ≤ (2 : K) ^ (64 : Int) :=
      (le_mul_of_one_le_left s0 s2).trans (s1.le.trans e2)
    have s4 := rn_mono s2
    have s5 := rn_mono s3
    rw [rn_double (double_pow2 (by norm_num))] at s5
    have s6 : rn (1 : K) = 1 := by
      have := rn_nat_small (K := K) (n := 1) (by norm_num)
      rwa [Nat.cast_one] at this
    rw [s6] at s4
    rw [e1, Num.sqrt_fin (by linarith)]
    have s7 : A.rnd (A.sqrt (rn (xs.length : K))) = some (rn (A.sqrt (rn (xs.length : K)))) := by
      rw [hA, rnd64, if_pos]
      rw [abs_of_nonneg (by linarith)]
      exact s5.trans_lt (zpow_lt_zpow_right₀ one_lt_two (by norm_num))
    rw [Num.round_of s7]
    exact nonneg_div hA hsd (by linarith)

/-- C87: data that do not overflow.  For values of absolute value at most 2^1022 the mean is finite. -/
theorem C87_mean_finite (hA : A.IsBinary64) (xs : List K)
    (hx : ∀ x ∈ xs, Double x ∧ |x| ≤ (2 : K) ^ (1022 : Int)) (hn : xs.length < 2 ^ 64) :
    ∃ μ : K, ((xs.map .fin).foldl KnuthWelford.addCore (KnuthWelford.new : KnuthWelford (Num A))).getMean = .fin μ := by
  have hfd : ∀ x ∈ xs, FinDouble x := fun x h =>
    ⟨(hx x h).1, (hx x h).2.trans_lt (zpow_lt_zpow_right₀ one_lt_two (by norm_num))⟩
  have key : ∀ {z : K}, |z| ≤ (2 : K) ^ (1023 : Int) → A.rnd z = some (rn z) := by
    intro z hz
    obtain ⟨h1, h2⟩ := abs_le.1 hz
    have h3 := rn_mono h1
    have h4 := rn_mono h2
    rw [rn_double (double_pow2 (by norm_num))] at h4
    rw [rn_neg, rn_double (double_pow2 (by norm_num))] at h3
    rw [hA, rnd64, if_pos]
    exact (abs_le.2 ⟨h3, h4⟩).trans_lt (zpow_lt_zpow_right₀ one_lt_two (by norm_num))
  have e23 : (2 : K) ^ (1023 : Int) = 2 * 2 ^ (1022 : Int) := by
    rw [show (1023 : Int) = 1 + 1022 from rfl, zpow_one_add₀ two_ne_zero]
  have hp : (0 : K) < (2 : K) ^ (1022 : Int) := two_zpow_pos _
  have hadd : ∀ {a b c : K}, c ≤ a + b → a ≤ (2 : K) ^ (1022 : Int) → b ≤ (2 : K) ^ (1022 : Int) →
      c ≤ (2 : K) ^ (1023 : Int) := by
    intro a b c h h1 h2
    rw [e23, two_mul]
    exact h.trans (add_le_add h1 h2)
  induction xs using List.reverseRecOn with
  | nil => exact ⟨0, rfl⟩
  | append_singleton ys x ih =>
    rw [List.length_append, List.length_singleton] at hn
    obtain ⟨m0, hm0⟩ := ih (fun y hy => hx y (by simp [hy])) (by omega) (fun y hy => hfd y (by simp [hy]))
    obtain ⟨hm, hr, -, hc, hz⟩ := kw_state hA ys (fun y hy => hfd y (by simp [hy])) (by omega) m0 hm0
    rw [List.map_append, List.foldl_append]
    generalize hst : (ys.map .fin).foldl KnuthWelford.addCore (KnuthWelford.new : KnuthWelford (Num A)) = st at *
    obtain ⟨m, q, c⟩ := st
    change c = ys.length at hc
    subst hc
    change m = .fin m0 at hm0
    subst hm0
    simp only [List.map_cons, List.map_nil, List.foldl_cons, List.foldl_nil, KnuthWelford.addCore, KnuthWelford.getMean]
    have hcnt : succU ys.length = ys.length + 1 := by unfold succU; omega
    rw [hcnt, (count_fin hA (n := ys.length + 1) (by omega)).1]
    obtain ⟨hxd, hxs⟩ := hx x (by simp)
    have hms : |m0| ≤ (2 : K) ^ (1022 : Int) := by
      by_cases h0 : ys = []
      · rw [hz h0, abs_zero]; exact hp.le
      · exact abs_le.2 (hr _ _ h0 (fun y hy => abs_le.1 (hx y (by simp [hy])).2))
    have hd : |x - m0| ≤ (2 : K) ^ (1023 : Int) := by
      exact hadd (abs_sub x m0) hxs hms
    rw [Num.fin_sub, Num.round_of (key hd)]
    have hN : (1 : K) ≤ rn ((ys.length + 1 : Nat) : K) := by
      have := rn_nat_ge (K := K) (n := ys.length + 1) (m := 1) (by omega) (by norm_num)
      rwa [Nat.cast_one] at this
    rw [Num.fin_div (by linarith)]
    have rn_le : ∀ {z : K} {e : Int}, -1074 ≤ e → |z| ≤ (2 : K) ^ e → |rn z| ≤ (2 : K) ^ e := by
      intro z e he hz
      obtain ⟨h1, h2⟩ := abs_le.1 hz
      have h3 := rn_mono h1
      have h4 := rn_mono h2
      rw [rn_double (double_pow2 he)] at h4
      rw [rn_neg, rn_double (double_pow2 he)] at h3
      exact abs_le.2 ⟨h3, h4⟩
    have hq : |rn (x - m0) / rn ((ys.length + 1 : Nat) : K)| ≤ (2 : K) ^ (1022 : Int) := by
      rw [abs_div, abs_of_pos (by linarith : 0 < rn ((ys.length + 1 : Nat) : K)), div_le_iff₀ (by linarith)]
      rcases Nat.eq_zero_or_pos ys.length with h0 | hpos
      · have hm00 := hz (List.eq_nil_of_length_eq_zero h0)
        rw [hm00, sub_zero]
        exact (rn_le (by norm_num) hxs).trans (le_mul_of_one_le_right hp.le hN)
      · have hN2 : (2 : K) ≤ rn ((ys.length + 1 : Nat) : K) := by
          have := rn_nat_ge (K := K) (n := ys.length + 1) (m := 2) (by omega) (by norm_num)
          exact_mod_cast this
        refine (rn_le (by norm_num) hd).trans ?_
        rw [e23, mul_comm]
        exact mul_le_mul_of_nonneg_left hN2 hp.le
    rw [Num.round_of (key (hadd (le_add_of_nonneg_right hp.le) hq le_rfl)), Num.fin_add]
    refine ⟨_, Num.round_of (key ?_)⟩
    have h6 := rn_le (by norm_num) hq
    exact hadd (abs_add_le m0 _) hms h6

theorem kw_overflow (hA : A.IsBinary64) {H : K} (hH : A.rnd H = some H)
    (hO : Num.round A (-H - H) = .inf true) (corrected : Bool) :
    ((([H, -H].map .fin).foldl KnuthWelford.addCore
      (KnuthWelford.new : KnuthWelford (Num A))).getMean = .inf true) ∧
    ((([H, -H].map .fin).foldl KnuthWelford.addCore
      (KnuthWelford.new : KnuthWelford (Num A))).variance corrected = .inf true) := by
  have h0 : Num.round A (0 : K) = .fin 0 := Num.round_of (rnd_zero_of_binary64 hA)
  have c1 : (CxxFloat.ofNat 1 : Num A) = .fin 1 := by
    rw [(count_fin hA (by norm_num)).1, rn_nat_small (by norm_num), Nat.cast_one]
  have c2 : (CxxFloat.ofNat 2 : Num A) = .fin 2 := by
    rw [(count_fin hA (by norm_num)).1, rn_nat_small (by norm_num), Nat.cast_two]
  have s1 : KnuthWelford.addCore (KnuthWelford.new : KnuthWelford (Num A)) (.fin H) =
      ⟨.fin H, .fin 0, 1⟩ := by
    have e : succU 0 = 1 := by decide
    simp only [KnuthWelford.addCore, KnuthWelford.new, e, Num.zero_eq]
    rw [c1, Num.fin_sub, sub_zero, Num.round_of hH, Num.fin_div one_ne_zero, div_one, Num.round_of hH, Num.fin_add,
      zero_add, Num.round_of hH, Num.fin_sub, sub_self, h0, Num.fin_mul, mul_zero, h0, Num.fin_add, add_zero, h0]
  have d2 : (.inf true / .fin 2 : Num A) = .inf true := by
    show (Num.inf (true != decide ((2 : K) < 0)) : Num A) = _
    rw [decide_eq_false (not_lt.2 two_pos.le)]; rfl
  have d1 : (.inf true / .fin 1 : Num A) = .inf true := by
    show (Num.inf (true != decide ((1 : K) < 0)) : Num A) = _
    rw [decide_eq_false (not_lt.2 one_pos.le)]; rfl
  have s2 : KnuthWelford.addCore (⟨.fin H, .fin 0, 1⟩ : KnuthWelford (Num A))
      (.fin (-H)) = ⟨.inf true, .inf true, 2⟩ := by
    have e : succU 1 = 2 := by decide
    simp only [KnuthWelford.addCore, e]
    rw [c2, Num.fin_sub, hO, d2]
    rfl
  simp only [List.map_cons, List.map_nil, List.foldl_cons, List.foldl_nil]
  rw [s1, s2]
  refine ⟨rfl, ?_⟩
  have e : usub 2 1 = 1 := by decide
  cases corrected
  · simp only [KnuthWelford.variance, lt_irrefl, if_false, Bool.false_eq_true, c2, d2]
  · simp only [KnuthWelford.variance, lt_irrefl, if_false, if_true, e, c1, d1]

/-- C87: two values whose difference overflows give a variance of minus infinity. -/
theorem C87_overflow (hA : A.IsBinary64) (corrected : Bool) :
    ((([(2 : K) ^ (1023 : Int), -(2 : K) ^ (1023 : Int)].map .fin).foldl KnuthWelford.addCore
      (KnuthWelford.new : KnuthWelford (Num A))).getMean = .inf true) ∧
    ((([(2 : K) ^ (1023 : Int), -(2 : K) ^ (1023 : Int)].map .fin).foldl KnuthWelford.addCore
      (KnuthWelford.new : KnuthWelford (Num A))).variance corrected = .inf true) := by
  have hH : A.rnd ((2 : K) ^ (1023 : Int)) = some ((2 : K) ^ (1023 : Int)) := by
    refine rnd_of_double hA (double_pow2 (by norm_num)) ?_
    rw [abs_of_pos (two_zpow_pos _)]
    exact zpow_lt_zpow_right₀ one_lt_two (by norm_num)
  have hO : Num.round A (-(2 : K) ^ (1023 : Int) - (2 : K) ^ (1023 : Int)) = .inf true := by
    have e : -(2 : K) ^ (1023 : Int) - (2 : K) ^ (1023 : Int) = -(2 : K) ^ (1024 : Int) := by
      have : (2 : K) ^ (1024 : Int) = 2 ^ (1023 : Int) + 2 ^ (1023 : Int) := by
        rw [show (1024 : Int) = 1 + 1023 from rfl, zpow_one_add₀ two_ne_zero, two_mul]
      rw [this, neg_add, sub_eq_add_neg]
    have : A.rnd (-(2 : K) ^ (1024 : Int)) = none := by
      rw [hA, rnd64, rn_neg, rn_double (double_pow2 (by norm_num)), abs_neg, abs_of_pos (two_zpow_pos _),
        if_neg (lt_irrefl _)]
    rw [e]
    unfold Num.round
    rw [this]
    simp only
    rw [decide_eq_true (neg_lt_zero.2 (two_zpow_pos _))]
  exact kw_overflow hA hH hO corrected

/-- The hypotheses of C87 hold for the values 1, 5, -3. -/
example (hA : A.IsBinary64) : ∃ μ : K, (∀ x ∈ ([1, 5, -3] : List Int).map (Int.cast : Int → K), FinDouble x) ∧
    (((([1, 5, -3] : List Int).map (Int.cast : Int → K)).map .fin).foldl KnuthWelford.addCore
      (KnuthWelford.new : KnuthWelford (Num A))).getMean = .fin μ := by
  have h : ∀ n ∈ ([1, 5, -3] : List Int), |n| ≤ 2 ^ 53 := by decide
  obtain ⟨μ, hμ⟩ := C87_mean_finite hA (([1, 5, -3] : List Int).map (Int.cast : Int → K)) (by
    intro x hx
    obtain ⟨n, hn, rfl⟩ := List.mem_map.1 hx
    refine ⟨double_int (h n hn), ?_⟩
    have h1 : ((|n| : Int) : K) ≤ ((2 ^ 53 : Int) : K) := by exact_mod_cast h n hn
    rw [Int.cast_abs] at h1
    refine h1.trans ?_
    have : ((2 ^ 53 : Int) : K) = (2 : K) ^ (53 : Int) := by norm_num
    rw [this]
    exact zpow_le_zpow_right₀ one_le_two (by norm_num)) (by simp)
  refine ⟨μ, ?_, hμ⟩
  intro x hx
  obtain ⟨n, hn, rfl⟩ := List.mem_map.1 hx
  exact finDouble_int (h n hn)

end
end Bwsl
