import Verif.Lemmas.FloatFormat
import Verif.Model.Spaces
import Verif.Model.MathFloat
import Verif.Props.Utils
import Verif.Props.Norm
import Verif.Props.LinSpaceDouble

/-! Property C147: LinSpace, interpolation and step functions for `float`, `double` and `long double`. -/

namespace Bwsl
open Spec FloatFormat

section
variable {K : Type} [Field K] [LinearOrder K] [IsStrictOrderedRing K] [FloorRing K] {A : Arith K} {f : FloatFormat}

theorem eps_pos : (0 : K) < 1 / 2 ^ f.prec := by positivity

theorem eps_small : (1 : K) / 2 ^ f.prec ≤ 1 / 2048 := by
  have h : (2 : K) ^ 11 ≤ 2 ^ f.prec := pow_le_pow_right₀ one_le_two f.prec_ge
  rw [show (2048 : K) = 2 ^ 11 by norm_num]
  exact one_div_le_one_div_of_le (by positivity) h

/-- Conversion of a count does not overflow. -/
theorem count_round (hA : A.IsFormat f) {k : Nat} (h : k < 2 ^ 64) : Num.round A (k : K) = .fin (f.rn (k : K)) := by
  refine round_le hA (e := 64) (by have := f.emin_le; omega) f.emax_gt ?_
  rw [Nat.abs_cast]
  have : ((k : Nat) : K) ≤ ((2 ^ 64 : Nat) : K) := by exact_mod_cast h.le
  refine this.trans (le_of_eq ?_)
  norm_num

theorem rn_count_ge_one {k : Nat} (h : 1 ≤ k) : (1 : K) ≤ f.rn (k : K) := by
  have := fl_mono (f := f) (show (1 : K) ≤ k by exact_mod_cast h)
  rwa [fl_value one_value] at this

theorem rn_count {k : Nat} (h : k ≤ 2 ^ f.prec) : f.rn (k : K) = k := by
  have := int_value (f := f) (K := K) (n := (k : Int)) (by rw [Nat.abs_cast]; exact_mod_cast h)
  exact fl_value (by exact_mod_cast this)

/-! ## LinSpace -/

/-- The step of a LinSpace does not overflow if the ends are below a quarter of the largest number. -/
theorem linSpace_step (hA : A.IsFormat f) {a b : K} (ha : |a| ≤ (2 : K) ^ (f.emax - 2)) (hb : |b| ≤ (2 : K) ^ (f.emax - 2)) (n : Nat)
    (hn0 : 0 < n) (hn : n < 2 ^ 64) :
    ((.fin b - .fin a : Num A) / CxxFloat.ofNat n) = .fin (f.rn (f.rn (b - a) / f.rn (n : K))) := by
  have h1 := f.emin_le
  have h2 := f.emax_gt
  have h3 := f.prec_ge
  have hd : |b - a| ≤ (2 : K) ^ (f.emax - 1) := by
    have e : (2 : K) ^ (f.emax - 1) = 2 * (2 : K) ^ (f.emax - 2) := by
      rw [show f.emax - 1 = 1 + (f.emax - 2) by ring, zpow_add₀ two_ne_zero, zpow_one]
    rw [e]
    exact (abs_sub b a).trans (by linarith)
  have hq := fl_abs_le (f := f) (two_zpow_value (by omega)) hd
  have hn1 := rn_count_ge_one (f := f) (K := K) (k := n) hn0
  rw [Num.fin_sub, round_le hA (by omega) (by omega) hd, Num.ofNat_eq, count_round hA hn, Num.fin_div (by linarith),
    round_le hA (e := f.emax - 1) (by omega) (by omega)]
  rw [abs_div, abs_of_pos (by linarith : 0 < f.rn (n : K))]
  exact (div_le_self (abs_nonneg _) hn1).trans hq

/-- C147.  LinSpace<T>: the constructor accepts exactly `first < last`, the first value is the first end, and the values
never decrease. -/
theorem C147_linspace_monotone (hA : A.IsFormat f) {a b : K} (hfa : FiniteIn f a) (ha : |a| ≤ (2 : K) ^ (f.emax - 2))
    (hb : |b| ≤ (2 : K) ^ (f.emax - 2)) (n : Nat) (hn0 : 0 < n) (hn : n < 2 ^ 64) :
    ((∃ s, LinSpace.new (.fin a : Num A) (.fin b) n = .ok s) ↔ a < b) ∧
    ∀ s, LinSpace.new (.fin a : Num A) (.fin b) n = .ok s →
      s.deref = .fin a ∧
      ∀ j k : Nat, j ≤ k → k < 2 ^ 64 → CxxFloat.le (LinSpace.incr^[j] s).deref (LinSpace.incr^[k] s).deref = true := by
  have hst := linSpace_step hA ha hb n hn0 hn
  have iff : (∃ s, LinSpace.new (.fin a : Num A) (.fin b) n = .ok s) ↔ a < b := by
    unfold LinSpace.new
    rw [Num.lt_fin]
    by_cases h : a < b
    · simp [h]
    · simp [h]
  refine ⟨iff, fun s hs => ?_⟩
  have hab : a < b := iff.1 ⟨s, hs⟩
  unfold LinSpace.new at hs
  rw [Num.lt_fin, if_pos (decide_eq_true hab), hst, Res.ok.injEq] at hs
  subst hs
  refine ⟨rfl, fun j k hjk hk => ?_⟩
  have h0 : 0 ≤ f.rn (f.rn (b - a) / f.rn (n : K)) :=
    fl_nonneg (div_nonneg (fl_nonneg (by linarith)) (by linarith [rn_count_ge_one (f := f) (K := K) (k := n) hn0]))
  rcases h0.lt_or_eq with hp | hz
  · exact C63_monotone (mono_of_format hA) (rnd_zero hA) a b _ hp n (rnd_finite hA hfa) j k hjk hk
  · have val : ∀ i, i < 2 ^ 64 → (LinSpace.incr^[i] (⟨.fin a, .fin a, .fin b, .fin (f.rn (f.rn (b - a) / f.rn (n : K))), n, 0⟩ :
        LinSpace (Num A))).deref = .fin a := by
      intro i hi
      rcases Nat.eq_zero_or_pos i with rfl | hi0
      · rfl
      · rw [linSpace_value _ _ _ _ _ hi0 hi, ← hz, Num.ofNat_eq, count_round hA hi, Num.fin_mul, zero_mul,
          Num.round_of (rnd_zero hA), Num.fin_add, add_zero, Num.round_of (rnd_finite hA hfa)]
    rw [val j (by omega), val k hk, Num.le_fin]
    exact decide_eq_true le_rfl

theorem eps_squares {ε : K} (h0 : 0 ≤ ε) (h1 : ε ≤ 1 / 2048) : 1 / 2 ≤ (1 - ε) ^ 2 ∧ (1 + ε) ^ 2 ≤ 2 := by
  have h2 : ε * ε ≤ ε * (1 / 2048) := mul_le_mul_of_nonneg_left h1 h0
  have h3 : 0 ≤ ε * ε := mul_nonneg h0 h0
  rw [show (1 - ε) ^ 2 = 1 - 2 * ε + ε * ε by ring, show (1 + ε) ^ 2 = 1 + 2 * ε + ε * ε by ring]
  constructor <;> linarith

theorem eps_cubes {ε : K} (h0 : 0 ≤ ε) (h1 : ε ≤ 1 / 2048) :
    (1 + ε) ^ 3 ≤ 1 + (3 + 1 / 512) * ε ∧ 1 - (3 + 1 / 512) * ε ≤ (1 - ε) ^ 3 ∧ (1 + ε) * (3 + 1 / 512) ≤ 4 := by
  have h2 : ε * ε ≤ ε * (1 / 2048) := mul_le_mul_of_nonneg_left h1 h0
  have h3 : 0 ≤ ε * ε := mul_nonneg h0 h0
  have h4 : ε * ε * ε ≤ ε * ε * (1 / 2048) := mul_le_mul_of_nonneg_left h1 h3
  have h5 : 0 ≤ ε * ε * ε := mul_nonneg h3 h0
  rw [show (1 + ε) ^ 3 = 1 + 3 * ε + 3 * (ε * ε) + ε * ε * ε by ring,
    show (1 - ε) ^ 3 = 1 - 3 * ε + 3 * (ε * ε) - ε * ε * ε by ring]
  refine ⟨?_, ?_, ?_⟩ <;> linarith

/-- The rounded value after `k` increments. -/
def linValueIn (f : FloatFormat) (a b : K) (n k : Nat) : K := f.rn (a + f.rn (f.rn (f.rn (b - a) / n) * k))

theorem linValueIn_error {a b : K} (ha : InFormat f a) (hb : InFormat f b) (hab : a < b) (n : Nat) (hn0 : 0 < n)
    (hstep : (2 : K) ^ (f.emin + f.prec) ≤ (b - a) / n) (k : Nat) (hk0 : 0 < k) :
    |linValueIn f a b n k - (a + k * ((b - a) / n))| ≤
      (|a + k * ((b - a) / n)| + 4 * (k * ((b - a) / n))) / 2 ^ f.prec ∧
    |f.rn (f.rn (b - a) / n) * k| ≤ 2 * (k * ((b - a) / n)) := by
  have hn' : (0 : K) < n := by exact_mod_cast hn0
  have hk' : (1 : K) ≤ k := by exact_mod_cast hk0
  have e21 : (2 : K) ^ (f.emin + f.prec) = 2 * (2 : K) ^ (f.emin + (f.prec - 1) : Int) := by
    rw [show f.emin + (f.prec : Int) = 1 + (f.emin + (f.prec - 1)) by ring, zpow_add₀ two_ne_zero, zpow_one]
  have p := two_zpow_pos (K := K) (f.emin + (f.prec - 1))
  have div : ∀ v : K, v / 2 ^ f.prec = v * (1 / 2 ^ f.prec) := fun v => by ring
  have hε := eps_pos (K := K) (f := f)
  have hε1 := eps_small (K := K) (f := f)
  have norm : ∀ {x : K}, (2 : K) ^ (f.emin + (f.prec - 1)) ≤ |x| → |x - f.rn x| ≤ |x| * (1 / 2 ^ f.prec) := fun h => by
    rw [← div]; exact fl_rel_normal h
  have rel : ∀ {x : K}, Mult f.emin x → |x - f.rn x| ≤ |x| * (1 / 2 ^ f.prec) := fun h => by
    rw [← div]; exact fl_rel h
  rw [e21] at hstep
  rw [div]
  generalize (1 : K) / 2 ^ f.prec = ε at *
  generalize (2 : K) ^ (f.emin + (f.prec - 1) : Int) = η at *
  clear div e21
  set h := (b - a) / n with hh
  have hbn : b - a = h * n := by rw [hh]; field_simp
  have hpos : 0 < h := by linarith
  -- the difference
  have h1 := rel ((value_mult hb).sub (value_mult ha))
  rw [abs_of_pos (sub_pos.2 hab)] at h1
  unfold linValueIn
  generalize f.rn (b - a) = D at *
  have h1' : |h - D / n| ≤ h * ε := by
    have : h - D / n = (b - a - D) / n := by rw [hh]; ring
    rw [this, abs_div, abs_of_pos hn', div_le_iff₀ hn']
    calc _ ≤ _ := h1
      _ = _ := by rw [hbn]; ring
  obtain ⟨h1a, h1b⟩ := abs_le.1 h1'
  have hhε := mul_le_mul_of_nonneg_left hε1 hpos.le
  have hq : h / 2 ≤ D / n := by linarith
  have hq0 : 0 < D / n := by linarith
  -- the step
  have h2 := norm (x := D / n) (by rw [abs_of_pos hq0]; linarith)
  rw [abs_of_pos hq0] at h2
  generalize f.rn (D / n) = S at *
  generalize D / (n : K) = Q at *
  obtain ⟨h2a, h2b⟩ := abs_le.1 h2
  have hQ1 : (1 - ε) * h ≤ Q := by linarith
  have hQ2 : Q ≤ (1 + ε) * h := by linarith
  have hS : (1 - ε) ^ 2 * h ≤ S ∧ S ≤ (1 + ε) ^ 2 * h := by
    constructor
    · have := mul_le_mul_of_nonneg_left hQ1 (show 0 ≤ 1 - ε by linarith)
      linarith
    · have := mul_le_mul_of_nonneg_left hQ2 (show 0 ≤ 1 + ε by linarith)
      linarith
  obtain ⟨sq1, sq2⟩ := eps_squares hε.le hε1
  have hS1 : η ≤ S := by
    have := mul_le_mul_of_nonneg_right sq1 hpos.le
    linarith [hS.1]
  have hS0 : 0 < S := p.trans_le hS1
  -- the product
  have hSk : S ≤ S * k := by nlinarith
  have hSk0 : 0 < S * k := by positivity
  have h3 := norm (x := S * k) (by rw [abs_of_pos hSk0]; exact hS1.trans hSk)
  rw [abs_of_pos hSk0] at h3
  have hPv := fl_inFormat (f := f) (S * k)
  generalize f.rn (S * k) = P at *
  obtain ⟨h3a, h3b⟩ := abs_le.1 h3
  set t := (k : K) * h with ht
  have ht0 : 0 < t := by positivity
  have hSkt : (1 - ε) ^ 2 * t ≤ S * k ∧ S * k ≤ (1 + ε) ^ 2 * t := by
    constructor
    · calc _ = ((1 - ε) ^ 2 * h) * k := by rw [ht]; ring
        _ ≤ _ := mul_le_mul_of_nonneg_right hS.1 (by linarith)
    · calc _ ≤ ((1 + ε) ^ 2 * h) * k := mul_le_mul_of_nonneg_right hS.2 (by linarith)
        _ = _ := by rw [ht]; ring
  obtain ⟨c1, c2, c3⟩ := eps_cubes hε.le hε1
  have hP : |P - t| ≤ (3 + 1 / 512) * ε * t := by
    have u := mul_le_mul_of_nonneg_right hSkt.2 (show 0 ≤ 1 + ε by linarith)
    have l := mul_le_mul_of_nonneg_right hSkt.1 (show 0 ≤ 1 - ε by linarith)
    have u' := mul_le_mul_of_nonneg_right c1 ht0.le
    have l' := mul_le_mul_of_nonneg_right c2 ht0.le
    rw [abs_le]
    constructor <;> linarith
  -- the sum
  have h4 := rel ((value_mult ha).add (value_mult hPv))
  generalize f.rn (a + P) = V at *
  refine ⟨?_, ?_⟩
  · have e : V - (a + t) = -(a + P - V) + (P - t) := by ring
    have h5 : |a + P| ≤ |a + t| + |P - t| := by
      have : a + P = (a + t) + (P - t) := by ring
      rw [this]; exact abs_add_le _ _
    rw [e]
    refine (abs_add_le _ _).trans ?_
    rw [abs_neg]
    have h6 := mul_le_mul_of_nonneg_right h5 hε.le
    have h7 : |P - t| * ε + |P - t| ≤ 4 * t * ε := by
      have := mul_le_mul_of_nonneg_left hP (show 0 ≤ 1 + ε by linarith)
      have := mul_le_mul_of_nonneg_right c3 (show 0 ≤ ε * t by positivity)
      linarith
    linarith
  · rw [abs_of_pos hSk0]
    have := mul_le_mul_of_nonneg_right sq2 ht0.le
    linarith [hSkt.2]

/-- C147.  LinSpace<T>, for up to 2^p steps, where p is the precision: the value after k increments differs from
first + k (last - first) / n by at most (its magnitude + 4 k (last - first) / n) / 2^p. -/
theorem C147_linspace_error (hA : A.IsFormat f) {a b : K} (hfa : InFormat f a) (hfb : InFormat f b)
    (ha : |a| ≤ (2 : K) ^ (f.emax - 4)) (hb : |b| ≤ (2 : K) ^ (f.emax - 4)) (n : Nat) (hn0 : 0 < n) (hn : n < 2 ^ 64)
    (hnp : n ≤ 2 ^ f.prec) (hstep : (2 : K) ^ (f.emin + f.prec) ≤ (b - a) / n) (s : LinSpace (Num A))
    (hs : LinSpace.new (.fin a) (.fin b) n = .ok s) (k : Nat) (hk0 : 0 < k) (hk : k ≤ n) :
    ∃ v : K, (LinSpace.incr^[k] s).deref = .fin v ∧
      |v - (a + k * ((b - a) / n))| ≤ (|a + k * ((b - a) / n)| + 4 * (k * ((b - a) / n))) / 2 ^ f.prec := by
  have h1 := f.emin_le
  have h2 := f.emax_gt
  have h3 := f.prec_ge
  have hn' : (0 : K) < n := by exact_mod_cast hn0
  have hkn : (k : K) ≤ n := by exact_mod_cast hk
  have hab : a < b := by
    have := (two_zpow_pos (K := K) _).trans_le hstep
    rw [div_pos_iff_of_pos_right hn'] at this
    linarith
  have le4 : (2 : K) ^ (f.emax - 4) ≤ (2 : K) ^ (f.emax - 2) := zpow_le_zpow_right₀ one_le_two (by omega)
  obtain ⟨he, hP⟩ := linValueIn_error hfa hfb hab n hn0 hstep k hk0
  refine ⟨_, ?_, he⟩
  have hst := linSpace_step hA (ha.trans le4) (hb.trans le4) n hn0 hn
  rw [rn_count hnp] at hst
  unfold LinSpace.new at hs
  rw [Num.lt_fin, if_pos (decide_eq_true hab), hst, Res.ok.injEq] at hs
  subst hs
  have hle : (k : K) * ((b - a) / n) ≤ b - a := by
    rw [← mul_div_assoc, div_le_iff₀ hn', mul_comm (b - a)]
    exact mul_le_mul_of_nonneg_right hkn (by linarith)
  have e2 : (2 : K) ^ (f.emax - 2) = 4 * (2 : K) ^ (f.emax - 4) := by
    rw [show f.emax - 2 = 2 + (f.emax - 4) by ring, zpow_add₀ two_ne_zero]; norm_num
  have e1 : (2 : K) ^ (f.emax - 1) = 8 * (2 : K) ^ (f.emax - 4) := by
    rw [show f.emax - 1 = 3 + (f.emax - 4) by ring, zpow_add₀ two_ne_zero]; norm_num
  have hP2 : |f.rn (f.rn (b - a) / n) * k| ≤ (2 : K) ^ (f.emax - 2) := by
    refine hP.trans ?_
    rw [e2]
    have := le_of_abs_le hb
    have := neg_le_of_abs_le ha
    linarith
  have hQ := fl_abs_le (f := f) (two_zpow_value (by omega)) hP2
  rw [linSpace_value _ _ _ _ _ hk0 (by omega), Num.ofNat_eq, count_round hA (by omega), rn_count (hk.trans hnp), Num.fin_mul,
    round_le hA (e := f.emax - 2) (by omega) (by omega) hP2, Num.fin_add, round_le hA (e := f.emax - 1) (by omega) (by omega)]
  · rfl
  · refine (abs_add_le _ _).trans ?_
    rw [e2] at hQ
    rw [e1]
    linarith [two_zpow_pos (K := K) (f.emax - 4)]

/-- A count beyond the precision is rounded to that of one of its neighbours if it is odd. -/
theorem odd_count (k : Nat) (hk : 2 ^ f.prec < k) (hodd : k % 2 = 1) :
    f.rn (k : K) = f.rn ((k - 1 : Nat) : K) ∨ f.rn (k : K) = f.rn ((k + 1 : Nat) : K) := by
  have h0 : (k : K) ≠ 0 := by
    have : 0 < k := by omega
    exact_mod_cast this.ne'
  have hu : 1 ≤ f.ulpExp (k : K) := by
    have h1 := fl_abs_lt_ulp (f := f) (k : K)
    rw [Nat.abs_cast] at h1
    have h2 : (2 : K) ^ (f.prec : Int) < (2 : K) ^ (f.ulpExp (k : K) + f.prec) := by
      refine lt_trans ?_ h1
      rw [zpow_natCast]
      exact_mod_cast hk
    have := (zpow_lt_zpow_iff_right₀ (one_lt_two (α := K))).1 h2
    omega
  obtain ⟨m, hm⟩ := (fl_mult_ulp (f := f) (k : K)).mono hu
  rw [zpow_one] at hm
  have hv := fl_inFormat (f := f) (k : K)
  have m1 : f.rn ((k - 1 : Nat) : K) ≤ f.rn (k : K) := fl_mono (by exact_mod_cast Nat.sub_le k 1)
  have m2 : f.rn (k : K) ≤ f.rn ((k + 1 : Nat) : K) := fl_mono (by exact_mod_cast Nat.le_succ k)
  have hz : ((m * 2 : Int) : K) = f.rn (k : K) := by rw [hm]; push_cast; ring
  rcases lt_or_ge (m * 2) (k : Int) with h | h
  · left
    have h1 : m * 2 ≤ ((k - 1 : Nat) : Int) := by omega
    have h2 : f.rn (k : K) ≤ ((k - 1 : Nat) : K) := by rw [← hz]; exact_mod_cast h1
    have h3 := fl_mono (f := f) h2
    rw [fl_value hv] at h3
    exact le_antisymm h3 m1
  · right
    have h1 : ((k + 1 : Nat) : Int) ≤ m * 2 := by omega
    have h2 : ((k + 1 : Nat) : K) ≤ f.rn (k : K) := by rw [← hz]; exact_mod_cast h1
    have h3 := fl_mono (f := f) h2
    rw [fl_value hv] at h3
    exact le_antisymm m2 h3

/-- C147.  Beyond 2^p steps (16777216 for `float`) values repeat: every value with an odd number above 2^p is the same as the one
before it or the one after it, whatever the ends and the number of steps are. -/
theorem C147_linspace_repeats (hA : A.IsFormat f) (first last : Num A) (n : Nat) (s : LinSpace (Num A))
    (hs : LinSpace.new first last n = .ok s) (k : Nat) (hk : 2 ^ f.prec < k) (hk' : k + 1 < 2 ^ 64) (hodd : k % 2 = 1) :
    (LinSpace.incr^[k] s).deref = (LinSpace.incr^[k - 1] s).deref ∨
    (LinSpace.incr^[k] s).deref = (LinSpace.incr^[k + 1] s).deref := by
  have hp : 1 < 2 ^ f.prec := Nat.one_lt_two_pow (by have := f.prec_ge; omega)
  unfold LinSpace.new at hs
  split at hs
  · rw [Res.ok.injEq] at hs
    subst hs
    rw [linSpace_value _ _ _ _ k (by omega) (by omega), linSpace_value _ _ _ _ (k - 1) (by omega) (by omega),
      linSpace_value _ _ _ _ (k + 1) (by omega) (by omega)]
    simp only [Num.ofNat_eq]
    rw [count_round hA (by omega : k < 2 ^ 64), count_round hA (by omega : k - 1 < 2 ^ 64), count_round hA hk']
    rcases odd_count (f := f) (K := K) k hk hodd with h | h
    · left; rw [h]
    · right; rw [← h]
  · cases hs

/-! ## Interpolation -/

/-- the rounded interpolation -/
def lerpIn (f : FloatFormat) (a b t : K) : K := f.rn (f.rn (f.rn (1 - t) * a) + f.rn (t * b))

/-- C147.  lerp: no step overflows for ends up to half of the range. -/
theorem C147_lerp_value (hA : A.IsFormat f) {a b t : K} (ha : |a| ≤ (2 : K) ^ (f.emax - 2)) (hb : |b| ≤ (2 : K) ^ (f.emax - 2))
    (h0 : 0 ≤ t) (h1 : t ≤ 1) : lerp (.fin a : Num A) (.fin b) (.fin t) = .fin (lerpIn f a b t) := by
  have b1 := f.emin_le
  have b2 := f.emax_gt
  have b3 := f.prec_ge
  have d1 := one_value (f := f) (K := K)
  have dM : InFormat f ((2 : K) ^ (f.emax - 2)) := two_zpow_value (by omega)
  have e23 : (2 : K) ^ (f.emax - 1) = 2 * (2 : K) ^ (f.emax - 2) := by
    rw [show f.emax - 1 = 1 + (f.emax - 2) by ring, zpow_add₀ two_ne_zero, zpow_one]
  have one : (1 : K) ≤ (2 : K) ^ (f.emax - 2) := by
    rw [show (1 : K) = (2 : K) ^ (0 : Int) by simp]; exact zpow_le_zpow_right₀ one_le_two (by omega)
  have r : ∀ y : K, |y| ≤ 2 * (2 : K) ^ (f.emax - 2) → Num.round A y = .fin (f.rn y) := fun y h =>
    round_le hA (e := f.emax - 1) (by omega) (by omega) (by rw [e23]; exact h)
  clear e23
  generalize (2 : K) ^ (f.emax - 2) = c at *
  have hs0 : 0 ≤ f.rn (1 - t) := fl_nonneg (sub_nonneg.2 h1)
  have hs1 : f.rn (1 - t) ≤ 1 := by have := fl_mono (f := f) (show 1 - t ≤ 1 by linarith); rwa [fl_value d1] at this
  have bnd : ∀ {k x : K}, 0 ≤ k → k ≤ 1 → |x| ≤ c → |k * x| ≤ c := by
    intro k x c0 c1 hx
    rw [abs_mul, abs_of_nonneg c0]
    calc k * |x| ≤ 1 * |x| := mul_le_mul_of_nonneg_right c1 (abs_nonneg x)
      _ ≤ _ := by rw [one_mul]; exact hx
  have hp := bnd hs0 hs1 ha
  have hq := bnd h0 h1 hb
  unfold lerp lerpIn
  have e1 : (CxxFloat.ofInt 1 : Num A) = .fin 1 := by
    rw [Num.ofInt_eq, show (((1 : Int)) : K) = 1 by norm_num, r 1 (by rw [abs_one]; linarith), fl_value d1]
  rw [e1, Num.fin_sub, r (1 - t) (by rw [abs_of_nonneg (sub_nonneg.2 h1)]; linarith), Num.fin_mul, Num.fin_mul,
    r _ (by linarith), r _ (by linarith), Num.fin_add,
    r _ ((abs_add_le _ _).trans (by linarith [fl_abs_le dM hp, fl_abs_le dM hq]))]

theorem one_finite : FiniteIn f (1 : K) := by
  refine ⟨one_value, ?_⟩
  rw [abs_one, show (1 : K) = (2 : K) ^ (0 : Int) by simp]
  exact zpow_lt_zpow_right₀ one_lt_two (by have := f.emax_gt; omega)

/-- C147.  lerp is exact at both ends, for all finite ends. -/
theorem C147_lerp_ends (hA : A.IsFormat f) {a b : K} (ha : FiniteIn f a) (hb : FiniteIn f b) :
    lerp (.fin a : Num A) (.fin b) (.fin 0) = .fin a ∧ lerp (.fin a : Num A) (.fin b) (.fin 1) = .fin b := by
  have r : ∀ {y : K}, FiniteIn f y → Num.round A y = .fin y := fun h => Num.round_of (rnd_finite hA h)
  have h0 : Num.round A (0 : K) = .fin 0 := Num.round_of (rnd_zero hA)
  have h1 : FiniteIn f (1 : K) := one_finite
  have e1 : (CxxFloat.ofInt 1 : Num A) = .fin 1 := by
    rw [Num.ofInt_eq, show (((1 : Int)) : K) = 1 by norm_num, r h1]
  unfold lerp
  rw [e1]
  constructor
  · rw [Num.fin_sub, sub_zero, r h1, Num.fin_mul, Num.fin_mul, one_mul, zero_mul, r ha, h0, Num.fin_add, add_zero, r ha]
  · rw [Num.fin_sub, sub_self, h0, Num.fin_mul, Num.fin_mul, one_mul, zero_mul, r hb, h0, Num.fin_add, zero_add, r hb]

/-- C147.  lerpi is exact at both ends, for every number of steps other than zero, also those that are rounded when they are
converted. -/
theorem C147_lerpi_ends (hA : A.IsFormat f) {a b : K} (ha : FiniteIn f a) (hb : FiniteIn f b) (j : Int) (hj : j ≠ 0)
    (hj' : |j| < 2 ^ 64) :
    lerpi 0 j (.fin a : Num A) (.fin b) = .fin a ∧ lerpi j j (.fin a : Num A) (.fin b) = .fin b := by
  have h0 : Num.round A (0 : K) = .fin 0 := Num.round_of (rnd_zero hA)
  have hjr : Num.round A (j : K) = .fin (f.rn (j : K)) := by
    refine round_le hA (e := 64) (by have := f.emin_le; omega) f.emax_gt ?_
    rw [← Int.cast_abs]
    have : ((|j| : Int) : K) ≤ ((2 ^ 64 : Int) : K) := by exact_mod_cast hj'.le
    refine this.trans (le_of_eq ?_)
    norm_num
  have hne : f.rn (j : K) ≠ 0 := by
    have h1 : (1 : K) ≤ |(j : K)| := by
      rw [← Int.cast_abs]
      exact_mod_cast Int.one_le_abs hj
    have h2 := fl_mono (f := f) h1
    rw [fl_value one_value, ← fl_abs] at h2
    intro h
    rw [h, abs_zero] at h2
    linarith
  unfold lerpi
  simp only [Num.ofInt_eq]
  rw [Int.cast_zero, h0, hjr, Num.fin_div hne, Num.fin_div hne, zero_div, h0, div_self hne, Num.round_of (rnd_finite hA one_finite)]
  exact ⟨(C147_lerp_ends hA ha hb).1, (C147_lerp_ends hA ha hb).2⟩

/-- C147.  lerp is monotone in both ends, in spite of rounding. -/
theorem C147_lerp_monotone {a b a' b' t : K} (h0 : 0 ≤ t) (h1 : t ≤ 1) (ha : a ≤ a') (hb : b ≤ b') :
    lerpIn f a b t ≤ lerpIn f a' b' t := by
  have hs0 : 0 ≤ f.rn (1 - t) := fl_nonneg (sub_nonneg.2 h1)
  exact fl_mono (add_le_add (fl_mono (mul_le_mul_of_nonneg_left ha hs0)) (fl_mono (mul_le_mul_of_nonneg_left hb h0)))

/-- The errors of the four operations of an interpolation add up to little. -/
theorem lerp_bound {a b t M s p q L η ε : K} (hM : 0 ≤ M) (h0 : 0 ≤ t) (h1 : t ≤ 1) (hs0 : 0 ≤ s) (ha : |a| ≤ M) (hb : |b| ≤ M)
    (hη : 0 ≤ η) (hε : 0 ≤ ε) (hε1 : ε ≤ 1 / 16) (es : |1 - t - s| ≤ (1 - t) * ε) (ep : |s * a - p| ≤ |s * a| * ε + η)
    (eq : |t * b - q| ≤ |t * b| * ε + η) (eS : |p + q - L| ≤ |p + q| * ε) :
    |L - ((1 - t) * a + t * b)| ≤ 4 * (M * ε) + 2 * (2 * η) := by
  have hsa : |s * a| ≤ s * M := by rw [abs_mul, abs_of_nonneg hs0]; exact mul_le_mul_of_nonneg_left ha hs0
  have htb : |t * b| ≤ t * M := by rw [abs_mul, abs_of_nonneg h0]; exact mul_le_mul_of_nonneg_left hb h0
  have hst : s + t ≤ 1 + ε := by
    have := (abs_le.1 es).1
    have := mul_nonneg h0 hε
    linarith
  have hsum : |s * a| + |t * b| ≤ (1 + ε) * M := by
    have := mul_le_mul_of_nonneg_right hst hM
    linarith
  have hpq : |p + q| ≤ (1 + ε) * ((1 + ε) * M) + 2 * η := by
    have h1 : |p| ≤ |s * a| + (|s * a| * ε + η) := by
      have := abs_sub_abs_le_abs_sub p (s * a)
      rw [abs_sub_comm] at this
      linarith
    have h2 : |q| ≤ |t * b| + (|t * b| * ε + η) := by
      have := abs_sub_abs_le_abs_sub q (t * b)
      rw [abs_sub_comm] at this
      linarith
    have h3 := abs_add_le p q
    have : (|s * a| + |t * b|) * (1 + ε) ≤ (1 + ε) * M * (1 + ε) := mul_le_mul_of_nonneg_right hsum (by linarith)
    linarith
  have hsa' : |s * a - (1 - t) * a| ≤ ε * M := by
    rw [← sub_mul, abs_mul, abs_sub_comm]
    have h3 : |1 - t - s| ≤ ε := es.trans (by have := mul_nonneg h0 hε; linarith)
    exact mul_le_mul h3 ha (abs_nonneg a) hε
  have tri : |L - ((1 - t) * a + t * b)| ≤ |p + q - L| + |s * a - p| + |t * b - q| + |s * a - (1 - t) * a| := by
    have e : L - ((1 - t) * a + t * b) = -(p + q - L) + -(s * a - p) + -(t * b - q) + (s * a - (1 - t) * a) := by ring
    rw [e]
    refine (abs_add_le _ _).trans (add_le_add ((abs_add_le _ _).trans (add_le_add ((abs_add_le _ _).trans ?_) ?_)) le_rfl)
    · rw [abs_neg, abs_neg]
    · rw [abs_neg]
  have f1 : |p + q| * ε ≤ ((1 + ε) * ((1 + ε) * M) + 2 * η) * ε := mul_le_mul_of_nonneg_right hpq hε
  have f2 : (|s * a| + |t * b|) * ε ≤ (1 + ε) * M * ε := mul_le_mul_of_nonneg_right hsum hε
  have g1 : ((1 + ε) * ((1 + ε) * M)) * ε + (1 + ε) * M * ε + ε * M ≤ 4 * (M * ε) := by
    have hMe : 0 ≤ M * ε := mul_nonneg hM hε
    have h2 : ε * ε ≤ ε * (1 / 16) := mul_le_mul_of_nonneg_left hε1 hε
    have : (1 + ε) * (1 + ε) + (1 + ε) + 1 ≤ 4 := by linarith
    have h := mul_le_mul_of_nonneg_left this hMe
    linarith
  have g2 : 2 * η * ε ≤ η := by
    have := mul_le_mul_of_nonneg_left hε1 (show 0 ≤ 2 * η by linarith)
    linarith
  linarith

/-- C147.  The error of lerp is at most 4/2^p of the larger end, plus twice the smallest positive number. -/
theorem C147_lerp_error {a b t M : K} (ht : InFormat f t) (h0 : 0 ≤ t) (h1 : t ≤ 1) (ha : |a| ≤ M) (hb : |b| ≤ M) :
    |lerpIn f a b t - ((1 - t) * a + t * b)| ≤ 4 * (M / 2 ^ f.prec) + 2 * (2 : K) ^ f.emin := by
  have d1 := one_value (f := f) (K := K)
  have hM : 0 ≤ M := (abs_nonneg a).trans ha
  have hs0 : 0 ≤ f.rn (1 - t) := fl_nonneg (sub_nonneg.2 h1)
  have es := fl_rel (f := f) ((value_mult d1).sub (value_mult ht))
  rw [abs_of_nonneg (sub_nonneg.2 h1)] at es
  unfold lerpIn
  generalize hsv : f.rn (1 - t) = s at *
  have ep := fl_abs_err (f := f) (s * a)
  have eq := fl_abs_err (f := f) (t * b)
  have eS := fl_rel (f := f) ((value_mult (fl_inFormat (s * a))).add (value_mult (fl_inFormat (t * b))))
  generalize f.rn (s * a) = p at *
  generalize f.rn (t * b) = q at *
  generalize f.rn (p + q) = L at *
  have e4 : (2 : K) ^ f.emin = 2 * (2 : K) ^ (f.emin - 1) := by
    rw [zpow_sub₀ two_ne_zero, zpow_one]; field_simp
  have hη := two_zpow_pos (K := K) (f.emin - 1)
  rw [e4]
  generalize (2 : K) ^ (f.emin - 1) = η at *
  have div : ∀ y : K, y / 2 ^ f.prec = y * (1 / 2 ^ f.prec) := fun y => by ring
  rw [div] at es ep eq eS
  rw [div]
  have hε := (eps_pos (K := K) (f := f)).le
  have hε1 := (eps_small (K := K) (f := f)).trans (show (1 : K) / 2048 ≤ 1 / 16 by norm_num)
  generalize (1 : K) / 2 ^ f.prec = ε at *
  exact lerp_bound hM h0 h1 hs0 ha hb hη.le hε hε1 es ep eq eS

/-! ## Step functions -/

/-- C147.  heaviside and heaviside2 return exactly 0, 1/2 and 1. -/
theorem C147_heaviside (hA : A.IsFormat f) (x : K) :
    heaviside (.fin x : Num A) = .fin (if 0 ≤ x then 1 else 0) ∧
    heaviside2 (.fin x : Num A) = .fin (if x = 0 then 1 / 2 else if 0 < x then 1 else 0) ∧
    heaviside (.nan : Num A) = .fin 0 ∧ heaviside2 (.nan : Num A) = .fin 0 := by
  have h1 : A.rnd 1 = some 1 := rnd_finite hA one_finite
  have h2 : A.rnd (1 / 2) = some (1 / 2) := by
    refine rnd_finite hA ⟨?_, ?_⟩
    · have := two_zpow_value (f := f) (K := K) (e := -1) (by have := f.emin_le; have := f.prec_ge; omega)
      rwa [zpow_neg_one, ← one_div] at this
    · refine lt_trans ?_ (one_finite (f := f) (K := K)).2
      rw [abs_of_pos (by norm_num), abs_one]; norm_num
  exact ⟨(C98_heaviside h1 x).1, (C98_heaviside2 h1 h2 x).1, (C98_heaviside h1 x).2.2.2, (C98_heaviside2 h1 h2 x).2.2.2⟩

/-- `float` has numbers for which all of this applies: from 0 to 1 in 10 steps. -/
example : FiniteIn FloatFormat.float (0 : ℝ) ∧ FiniteIn FloatFormat.float (1 : ℝ) ∧
    (2 : ℝ) ^ (FloatFormat.float.emin + FloatFormat.float.prec) ≤ ((1 : ℝ) - 0) / (10 : Nat) ∧ 10 ≤ 2 ^ FloatFormat.float.prec ∧
    2 ^ FloatFormat.float.prec < 16777217 := by
  refine ⟨⟨zero_value, by rw [abs_zero]; exact two_zpow_pos _⟩, one_finite, ?_, by decide, by decide⟩
  show (2 : ℝ) ^ (-149 + 24 : Int) ≤ _
  rw [show (-149 + 24 : Int) = -125 by norm_num, zpow_neg]
  norm_num

end

end Bwsl
