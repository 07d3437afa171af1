import Verif.Props.Utils
import Verif.Model.MathFloat
import Verif.Model.Approx
import Verif.Props.LinSpaceDouble
import Verif.Props.AccumSum
import Verif.Lemmas.Double
import Verif.Lemmas.NumOrder

/-! Properties C123 and C124: approximate comparison and linear interpolation in double precision. -/

namespace Bwsl
open Spec

variable {A : Arith ℝ}

/-- The error of rounding, with underflow. -/
theorem rn_abs_err (x : ℝ) : |x - rn x| ≤ |x| / 2 ^ 53 + (2 : ℝ) ^ (-1075 : Int) := by
  have hp := two_zpow_pos (K := ℝ) (-1075)
  by_cases hx : x = 0
  · rw [hx, rn_zero]; simp
  rcases ulpExp_cases x hx with h | h
  · have := rn_err_ulp x
    rw [h] at this
    have e : (2 : ℝ) ^ (-1074 : Int) / 2 = (2 : ℝ) ^ (-1075 : Int) := by
      rw [show (-1074 : Int) = -1075 + 1 by norm_num, zpow_add₀ two_ne_zero]; norm_num
    rw [e] at this
    have : 0 ≤ |x| / 2 ^ 53 := by positivity
    linarith
  · have h1 := rn_err_ulp x
    have e : (2 : ℝ) ^ (ulpExp x + 52) = (2 : ℝ) ^ ulpExp x / 2 * 2 ^ 53 := by
      rw [zpow_add₀ two_ne_zero, show ((2 : ℝ) ^ (52 : Int)) = 2 ^ 52 by norm_cast]; ring
    rw [e] at h
    have : (2 : ℝ) ^ ulpExp x / 2 ≤ |x| / 2 ^ 53 := by rw [le_div_iff₀ (by positivity)]; exact h
    linarith

theorem rn_le_two {y : ℝ} (h : 0 ≤ y) : rn y ≤ 2 * y := by
  have := rn_nearest y 0 double_zero
  rw [sub_zero, abs_of_nonneg h] at this
  linarith [(abs_le.1 this).1]

theorem rn_abs_eq (x : ℝ) : |rn x| = rn |x| := by
  rcases abs_cases x with ⟨h, h0⟩ | ⟨h, h0⟩ <;> rw [h]
  · have := rn_mono h0; rw [rn_zero] at this; exact abs_of_nonneg this
  · have := rn_mono h0.le; rw [rn_zero] at this; rw [rn_neg, abs_of_nonpos this]

/-! ### Approximate comparison -/

theorem default_rel (hA : A.IsBinary64) :
    (CxxFloat.lit (1 / 2 ^ 52) * CxxFloat.ofInt 100 : Num A) = .fin (100 / 2 ^ 52) := by
  have d1 : Double ((1 : ℝ) / 2 ^ 52) := ⟨1, -52, by norm_num, by norm_num, by norm_num⟩
  have d2 : Double ((100 : ℝ) / 2 ^ 52) := ⟨100, -52, by norm_num, by norm_num, by norm_num⟩
  have d3 : Double (100 : ℝ) := ⟨100, 0, by norm_num, by norm_num, by norm_num⟩
  have big : (128 : ℝ) < (2 : ℝ) ^ (1024 : Int) := by
    rw [show (128 : ℝ) = (2 : ℝ) ^ (7 : Int) by norm_num]
    exact zpow_lt_zpow_right₀ one_lt_two (by norm_num)
  have r : ∀ y : ℝ, Double y → 0 ≤ y → y ≤ 128 → Num.round A y = .fin y := fun y hy h0 h => by
    refine Num.round_of (rnd_of_double hA hy ?_)
    rw [abs_of_nonneg h0]; exact h.trans_lt big
  rw [Num.lit_eq, Num.ofInt_eq]
  have e1 : ((1 / 2 ^ 52 : ℚ) : ℝ) = 1 / 2 ^ 52 := by push_cast; rfl
  have e2 : ((100 : Int) : ℝ) = 100 := by norm_num
  rw [e1, e2, r _ d1 (by norm_num) (by norm_num), r _ d3 (by norm_num) (by norm_num), Num.fin_mul,
    show (1 : ℝ) / 2 ^ 52 * 100 = 100 / 2 ^ 52 by ring, r _ d2 (by norm_num) (by norm_num)]

/-- C62 (what holds).  In double precision a value equals its `Approx` exactly if it is finite. -/
theorem C62_binary64_partial (hA : A.IsBinary64) (x : Num A) :
    Approx.eqL x (Approx.new x : Approx (Num A)) = true ↔ ∃ v : ℝ, x = .fin v := by
  cases x with
  | nan =>
    refine ⟨fun h => ?_, fun ⟨v, h⟩ => by cases h⟩
    have : Approx.eqL (.nan : Num A) (Approx.new .nan) = false := Num.le_nan_left _
    rw [this] at h; cases h
  | inf n =>
    refine ⟨fun h => ?_, fun ⟨v, h⟩ => by cases h⟩
    have := C62_violated (A := A) n CxxFloat.zero (CxxFloat.lit (1 / 2 ^ 52) * CxxFloat.ofInt 100)
    unfold Approx.new at h
    rw [this] at h; cases h
  | fin v => exact ⟨fun _ => ⟨v, rfl⟩, fun _ => C62_finite_partial (rnd_zero_of_binary64 hA) v _ (default_rel hA)⟩

/-- C123.  Comparison of finite doubles with finite tolerances, in terms of the rounded relative tolerance. -/
theorem C123_iff (hA : A.IsBinary64) {x v ab p : ℝ} (hp : FinDouble p) (hab : FinDouble ab) {rel : Num A}
    (hr : rel * .fin v = .fin p) :
    Approx.eqL (.fin x) (⟨.fin v, .fin ab, rel⟩ : Approx (Num A)) = true ↔ rn |x - v| ≤ max ab |p| := by
  have hT : Approx.eqL (.fin x) (⟨.fin v, .fin ab, rel⟩ : Approx (Num A)) =
      CxxFloat.le (CxxFloat.abs (Num.round A (x - v))) (.fin (max ab |p|)) := by
    unfold Approx.eqL stdMax
    simp only [hr, Num.fin_sub, Num.abs_fin, Num.lt_fin, decide_eq_true_eq]
    split
    · next h => rw [max_eq_right h.le]
    · next h => rw [max_eq_left (not_lt.1 h)]
  rw [hT]
  by_cases hf : |rn (x - v)| < (2 : ℝ) ^ (1024 : Int)
  · rw [Num.round_of (show A.rnd (x - v) = some (rn (x - v)) by rw [hA, rnd64, if_pos hf]), Num.abs_fin, Num.le_fin,
      decide_eq_true_eq, rn_abs_eq]
  · have hn : A.rnd (x - v) = none := by rw [hA, rnd64, if_neg hf]
    have hi : CxxFloat.abs (Num.round A (x - v)) = (.inf false : Num A) := by
      unfold Num.round; rw [hn]; rfl
    rw [hi, Num.le_inf_fin]
    simp only [Bool.false_eq_true, false_iff, not_le]
    rw [← rn_abs_eq]
    refine lt_of_lt_of_le ?_ (not_lt.1 hf)
    rw [max_lt_iff]
    exact ⟨(le_abs_self _).trans_lt hab.2, hp.2⟩

/-- C123.  If the tolerance is at most a quarter of |v| the comparison is exact: `x` compares equal to `Approx(v)`
precisely when it is within the tolerance, the larger of the absolute one and the rounded relative one. -/
theorem C123_exact (hA : A.IsBinary64) {x v ab p : ℝ} (hx : Double x) (hv : Double v) (hp : FinDouble p)
    (hab : FinDouble ab) {rel : Num A} (hr : rel * .fin v = .fin p) (hs : max ab |p| ≤ |v| / 4) :
    Approx.eqL (.fin x) (⟨.fin v, .fin ab, rel⟩ : Approx (Num A)) = true ↔ |x - v| ≤ max ab |p| := by
  rw [C123_iff hA hp hab hr]
  have hTd : Double (max ab |p|) := by
    rcases max_choice ab |p| with h | h <;> rw [h]
    · exact hab.1
    · rcases abs_choice p with h' | h' <;> rw [h']
      · exact hp.1
      · exact hp.1.neg
  constructor
  · intro h
    have hm : Mult (-1074) |x - v| := by
      rcases abs_choice (x - v) with h' | h' <;> rw [h']
      · exact hx.mult.sub hv.mult
      · exact (hx.mult.sub hv.mult).neg
    have hrel := rn_rel hm
    rw [abs_abs] at hrel
    have h1 := (abs_le.1 hrel).2
    have h0 := abs_nonneg (x - v)
    have hhalf : |x - v| ≤ |v| / 2 := by
      have : |x - v| / 2 ^ 53 ≤ |x - v| / 2 := div_le_div_of_nonneg_left h0 (by norm_num) (by norm_num)
      linarith
    -- the difference is exact
    have hd : Double |x - v| := by
      have key : ∀ {x v : ℝ}, Double x → Double v → 0 ≤ v → |x - v| ≤ v / 2 → Double (x - v) := by
        intro x v hx hv h0 h
        obtain ⟨h1, h2⟩ := abs_le.1 h
        rcases le_total v x with hle | hle
        · exact sterbenz hx hv h0 hle (by linarith)
        · have := sterbenz hv hx (by linarith) hle (by linarith)
          have e := this.neg
          rwa [neg_sub] at e
      have hd : Double (x - v) := by
        rcases abs_cases v with ⟨hv', h0'⟩ | ⟨hv', h0'⟩
        · rw [hv'] at hhalf; exact key hx hv h0' hhalf
        · rw [hv'] at hhalf
          have := key hx.neg hv.neg (by linarith) (by rw [show -x - -v = -(x - v) by ring, abs_neg]; exact hhalf)
          rw [show -x - -v = -(x - v) by ring] at this
          simpa using this.neg
      rcases abs_choice (x - v) with h' | h' <;> rw [h']
      · exact hd
      · exact hd.neg
    rwa [rn_double hd] at h
  · intro h
    have := rn_mono h
    rwa [rn_double hTd] at this

/-- C123.  With the default tolerances, for all finite doubles. -/
theorem C123_default (hA : A.IsBinary64) {x v : ℝ} (hx : Double x) (hv : FinDouble v) :
    Approx.eqL (.fin x) (Approx.new (.fin v) : Approx (Num A)) = true ↔ |x - v| ≤ rn (100 / 2 ^ 52 * |v|) := by
  have hq : |rn (100 / 2 ^ 52 * v)| = rn (100 / 2 ^ 52 * |v|) := by
    rw [rn_abs_eq, abs_mul, abs_of_pos (show (0 : ℝ) < 100 / 2 ^ 52 by norm_num)]
  have hy : 0 ≤ 100 / 2 ^ 52 * |v| := by positivity
  have hle : rn (100 / 2 ^ 52 * |v|) ≤ |v| / 4 := by
    refine (rn_le_two hy).trans ?_
    have := abs_nonneg v
    have e : 2 * (100 / 2 ^ 52 * |v|) = |v| * (200 / 2 ^ 52) := by ring
    rw [e]
    have : (200 : ℝ) / 2 ^ 52 ≤ 1 / 4 := by norm_num
    nlinarith
  have hn : 0 ≤ rn (100 / 2 ^ 52 * |v|) := by have := rn_mono hy; rwa [rn_zero] at this
  have hfin : FinDouble (rn (100 / 2 ^ 52 * v)) := by
    refine ⟨rn_isDouble _, ?_⟩
    rw [hq]
    refine lt_of_le_of_lt (hle.trans ?_) hv.2
    linarith [abs_nonneg v]
  have hmul : (.fin (100 / 2 ^ 52) * .fin v : Num A) = .fin (rn (100 / 2 ^ 52 * v)) := by
    rw [Num.fin_mul]
    exact Num.round_of (by rw [hA, rnd64, if_pos hfin.2])
  have h0 : FinDouble (0 : ℝ) := ⟨double_zero, by rw [abs_zero]; exact two_zpow_pos _⟩
  unfold Approx.new
  rw [default_rel hA]
  have := C123_exact hA (x := x) (v := v) (ab := 0) hx hv.1 hfin h0 hmul (by rw [hq, max_eq_right hn]; exact hle)
  rw [hq, max_eq_right hn] at this
  exact this

/-- C123.  In particular neighbouring doubles compare equal (for v above 2^-970), and doubles that differ by more than
101/2^52 of |v| do not. -/
theorem C123_close (hA : A.IsBinary64) {x v : ℝ} (hx : Double x) (hv : FinDouble v) :
    ((2 : ℝ) ^ (-970 : Int) ≤ |v| → |x - v| ≤ |v| * (99 / 2 ^ 52) →
      Approx.eqL (.fin x) (Approx.new (.fin v) : Approx (Num A)) = true) ∧
    ((2 : ℝ) ^ (-970 : Int) ≤ |v| → |v| * (101 / 2 ^ 52) < |x - v| →
      Approx.eqL (.fin x) (Approx.new (.fin v) : Approx (Num A)) = false) := by
  have main : (2 : ℝ) ^ (-970 : Int) ≤ |v| → |100 / 2 ^ 52 * |v| - rn (100 / 2 ^ 52 * |v|)| ≤ 100 / 2 ^ 52 * |v| / 2 ^ 53 := by
    intro h
    have hy : 0 ≤ 100 / 2 ^ 52 * |v| := by positivity
    have hn : (2 : ℝ) ^ (-1022 : Int) ≤ abs (100 / 2 ^ 52 * |v|) := by
      rw [abs_of_nonneg hy]
      have e : (2 : ℝ) ^ (-1022 : Int) = 1 / 2 ^ 52 * (2 : ℝ) ^ (-970 : Int) := by
        rw [show (-1022 : Int) = -52 + -970 by norm_num, zpow_add₀ two_ne_zero]; norm_num
      rw [e]
      have hp := two_zpow_pos (K := ℝ) (-970)
      have : (1 : ℝ) / 2 ^ 52 ≤ 100 / 2 ^ 52 := by norm_num
      exact mul_le_mul this h hp.le (by norm_num)
    have := rn_rel_normal hn
    rwa [abs_of_nonneg hy] at this
  constructor
  · intro h hc
    rw [C123_default hA hx hv]
    have hm := (abs_le.1 (main h)).2
    have e : 100 / 2 ^ 52 * |v| / 2 ^ 53 ≤ |v| * (1 / 2 ^ 52) := by
      have : 100 / 2 ^ 52 * |v| / 2 ^ 53 = |v| * (100 / 2 ^ 105) := by ring
      rw [this]
      exact mul_le_mul_of_nonneg_left (by norm_num) (abs_nonneg v)
    have e2 : 100 / 2 ^ 52 * |v| = |v| * (99 / 2 ^ 52) + |v| * (1 / 2 ^ 52) := by ring
    linarith
  · intro h hc
    rw [← Bool.not_eq_true, C123_default hA hx hv, not_le]
    have hm := (abs_le.1 (main h)).1
    have e : 100 / 2 ^ 52 * |v| / 2 ^ 53 ≤ |v| * (1 / 2 ^ 52) := by
      have : 100 / 2 ^ 52 * |v| / 2 ^ 53 = |v| * (100 / 2 ^ 105) := by ring
      rw [this]
      exact mul_le_mul_of_nonneg_left (by norm_num) (abs_nonneg v)
    have e2 : |v| * (101 / 2 ^ 52) = 100 / 2 ^ 52 * |v| + |v| * (1 / 2 ^ 52) := by ring
    linarith

/-- C123.  Near zero the relative tolerance vanishes: only the value itself compares equal. -/
theorem C123_tiny (hA : A.IsBinary64) {x v : ℝ} (hx : Double x) (hv : Double v) (h : |v| ≤ (2 : ℝ) ^ (-1030 : Int)) :
    Approx.eqL (.fin x) (Approx.new (.fin v) : Approx (Num A)) = true ↔ x = v := by
  have hvf : FinDouble v := ⟨hv, h.trans_lt (zpow_lt_zpow_right₀ one_lt_two (by norm_num))⟩
  rw [C123_default hA hx hvf]
  have hy : 0 ≤ 100 / 2 ^ 52 * |v| := by positivity
  have hz : rn (100 / 2 ^ 52 * |v|) = 0 := by
    have hb : 100 / 2 ^ 52 * |v| ≤ (2 : ℝ) ^ (-1075 : Int) := by
      have e : (2 : ℝ) ^ (-1075 : Int) = 1 / 2 ^ 45 * (2 : ℝ) ^ (-1030 : Int) := by
        rw [show (-1075 : Int) = -45 + -1030 by norm_num, zpow_add₀ two_ne_zero]; norm_num
      rw [e]
      exact mul_le_mul (by norm_num) h (abs_nonneg v) (by norm_num)
    have hn : 0 ≤ rn (100 / 2 ^ 52 * |v|) := by have := rn_mono hy; rwa [rn_zero] at this
    have hm := rn_mono hb
    have hhalf : rn ((2 : ℝ) ^ (-1075 : Int)) = 0 := by
      have hu : ulpExp ((2 : ℝ) ^ (-1075 : Int)) = -1074 := by
        rcases ulpExp_cases ((2 : ℝ) ^ (-1075 : Int)) (two_zpow_pos _).ne' with h' | h'
        · exact h'
        · rw [abs_of_pos (two_zpow_pos _)] at h'
          have := (zpow_le_zpow_iff_right₀ (one_lt_two (α := ℝ))).1 h'
          have := ulpExp_ge ((2 : ℝ) ^ (-1075 : Int))
          omega
      unfold rn
      rw [hu]
      have e : (2 : ℝ) ^ (-1075 : Int) / (2 : ℝ) ^ (-1074 : Int) = 1 / 2 := by
        rw [← zpow_sub₀ two_ne_zero]; norm_num
      rw [e]
      have : rint (1 / 2 : ℝ) = 0 := by
        unfold rint
        have hf : ⌊(1 / 2 : ℝ)⌋ = 0 := by rw [Int.floor_eq_iff]; norm_num
        simp only [hf]
        norm_num
      rw [this]; simp
    rw [hhalf] at hm
    exact le_antisymm hm hn
  rw [hz]
  constructor
  · intro h'
    have := abs_nonpos_iff.1 h'
    linarith
  · rintro rfl; simp

example : FinDouble (1 : ℝ) ∧ (2 : ℝ) ^ (-970 : Int) ≤ |(1 : ℝ)| := by
  refine ⟨?_, ?_⟩
  · have := finDouble_int (K := ℝ) (n := 1) (by norm_num); simpa using this
  · rw [abs_one, show (1 : ℝ) = (2 : ℝ) ^ (0 : Int) by simp]
    exact zpow_le_zpow_right₀ one_le_two (by norm_num)

/-! ### Linear interpolation -/

/-- the rounded interpolation -/
noncomputable def lerp64 (a b t : ℝ) : ℝ := rn (rn (rn (1 - t) * a) + rn (t * b))

/-- C124.  No step overflows for ends up to 2^1022. -/
theorem C124_value (hA : A.IsBinary64) {a b t : ℝ} (ha : |a| ≤ (2 : ℝ) ^ (1022 : Int)) (hb : |b| ≤ (2 : ℝ) ^ (1022 : Int))
    (h0 : 0 ≤ t) (h1 : t ≤ 1) : lerp (.fin a : Num A) (.fin b) (.fin t) = .fin (lerp64 a b t) := by
  have d1 : Double (1 : ℝ) := ⟨1, 0, by norm_num, by norm_num, by norm_num⟩
  have dM : Double ((2 : ℝ) ^ (1022 : Int)) := double_two_zpow (by norm_num)
  have hM := two_zpow_pos (K := ℝ) 1022
  have e23 : (2 : ℝ) ^ (1023 : Int) = 2 * (2 : ℝ) ^ (1022 : Int) := by
    rw [show (1023 : Int) = 1 + 1022 by norm_num, zpow_add₀ two_ne_zero]; norm_num
  have one : (1 : ℝ) ≤ (2 : ℝ) ^ (1022 : Int) := by
    rw [show (1 : ℝ) = (2 : ℝ) ^ (0 : Int) by simp]; exact zpow_le_zpow_right₀ one_le_two (by norm_num)
  have r : ∀ y : ℝ, |y| ≤ 2 * (2 : ℝ) ^ (1022 : Int) → Num.round A y = .fin (rn y) := fun y h =>
    round_of_le_two hA (by rw [e23]; exact h)
  clear e23
  generalize (2 : ℝ) ^ (1022 : Int) = c at *
  have hs0 : 0 ≤ rn (1 - t) := by have := rn_mono (sub_nonneg.2 h1); rwa [rn_zero] at this
  have hs1 : rn (1 - t) ≤ 1 := by have := rn_mono (show 1 - t ≤ 1 by linarith); rwa [rn_double d1] at this
  have bnd : ∀ {k x : ℝ}, 0 ≤ k → k ≤ 1 → |x| ≤ c → |k * x| ≤ c := by
    intro k x c0 c1 hx
    rw [abs_mul, abs_of_nonneg c0]
    calc k * |x| ≤ 1 * |x| := mul_le_mul_of_nonneg_right c1 (abs_nonneg x)
      _ ≤ _ := by rw [one_mul]; exact hx
  have rbnd : ∀ {y : ℝ}, |y| ≤ c → |rn y| ≤ c := by
    intro y hy
    rw [rn_abs_eq]
    have := rn_mono hy
    rwa [rn_double dM] at this
  have hp := bnd hs0 hs1 ha
  have hq := bnd h0 h1 hb
  unfold lerp lerp64
  have e1 : (CxxFloat.ofInt 1 : Num A) = .fin 1 := by
    rw [Num.ofInt_eq, show (((1 : Int)) : ℝ) = 1 by norm_num, r 1 (by rw [abs_one]; linarith), rn_double d1]
  rw [e1, Num.fin_sub, r (1 - t) (by rw [abs_of_nonneg (sub_nonneg.2 h1)]; linarith), Num.fin_mul, Num.fin_mul,
    r _ (by linarith), r _ (by linarith), Num.fin_add,
    r _ ((abs_add_le _ _).trans (by linarith [rbnd hp, rbnd hq]))]

/-- C124.  The ends are exact. -/
theorem C124_ends {a b : ℝ} (ha : Double a) (hb : Double b) : lerp64 a b 0 = a ∧ lerp64 a b 1 = b := by
  have d1 : Double (1 : ℝ) := ⟨1, 0, by norm_num, by norm_num, by norm_num⟩
  unfold lerp64
  constructor
  · rw [sub_zero, rn_double d1, one_mul, zero_mul, rn_double ha, rn_zero, add_zero, rn_double ha]
  · rw [sub_self, rn_zero, zero_mul, rn_zero, one_mul, rn_double hb, zero_add, rn_double hb]

/-- C124.  The ends are exact for all finite ends, with no bound on their size. -/
theorem C124_ends_all (hA : A.IsBinary64) {a b : ℝ} (ha : FinDouble a) (hb : FinDouble b) :
    lerp (.fin a : Num A) (.fin b) (.fin 0) = .fin a ∧ lerp (.fin a : Num A) (.fin b) (.fin 1) = .fin b := by
  have r : ∀ {y : ℝ}, FinDouble y → Num.round A y = .fin y := fun h => Num.round_of (rnd_of_double hA h.1 h.2)
  have h0 : FinDouble (0 : ℝ) := ⟨double_zero, by rw [abs_zero]; exact two_zpow_pos _⟩
  have h1 : FinDouble (1 : ℝ) := by have := finDouble_int (K := ℝ) (n := 1) (by norm_num); simpa using this
  have e1 : (CxxFloat.ofInt 1 : Num A) = .fin 1 := by
    rw [Num.ofInt_eq, show (((1 : Int)) : ℝ) = 1 by norm_num, r h1]
  unfold lerp
  rw [e1]
  constructor
  · rw [Num.fin_sub, sub_zero, r h1, Num.fin_mul, Num.fin_mul, one_mul, zero_mul, r ha, r h0, Num.fin_add, add_zero, r ha]
  · rw [Num.fin_sub, sub_self, r h0, Num.fin_mul, Num.fin_mul, one_mul, zero_mul, r hb, r h0, Num.fin_add, zero_add, r hb]

/-- C124.  Interpolation is monotone in both ends, in spite of rounding. -/
theorem C124_monotone {a b a' b' t : ℝ} (h0 : 0 ≤ t) (h1 : t ≤ 1) (ha : a ≤ a') (hb : b ≤ b') :
    lerp64 a b t ≤ lerp64 a' b' t := by
  have hs0 : 0 ≤ rn (1 - t) := by have := rn_mono (sub_nonneg.2 h1); rwa [rn_zero] at this
  exact rn_mono (add_le_add (rn_mono (mul_le_mul_of_nonneg_left ha hs0)) (rn_mono (mul_le_mul_of_nonneg_left hb h0)))

/-- C124.  The error is at most 4/2^53 of the larger end, plus 2^-1073. -/
theorem C124_error {a b t M : ℝ} (ht : Double t) (h0 : 0 ≤ t) (h1 : t ≤ 1) (ha : |a| ≤ M) (hb : |b| ≤ M) :
    |lerp64 a b t - ((1 - t) * a + t * b)| ≤ 4 * (M / 2 ^ 53) + (2 : ℝ) ^ (-1073 : Int) := by
  have d1 : Double (1 : ℝ) := ⟨1, 0, by norm_num, by norm_num, by norm_num⟩
  have hM : 0 ≤ M := (abs_nonneg a).trans ha
  have hs0 : 0 ≤ rn (1 - t) := by have := rn_mono (sub_nonneg.2 h1); rwa [rn_zero] at this
  have hs1 : rn (1 - t) ≤ 1 := by have := rn_mono (show 1 - t ≤ 1 by linarith); rwa [rn_double d1] at this
  have es := rn_rel (d1.mult.sub ht.mult)
  rw [abs_of_nonneg (sub_nonneg.2 h1)] at es
  unfold lerp64
  generalize hsv : rn (1 - t) = s at *
  have ep := rn_abs_err (s * a)
  have eq := rn_abs_err (t * b)
  have eS := rn_rel ((rn_isDouble (s * a)).mult.add (rn_isDouble (t * b)).mult)
  generalize rn (s * a) = p at *
  generalize rn (t * b) = q at *
  generalize rn (p + q) = L at *
  have e4 : (2 : ℝ) ^ (-1073 : Int) = 4 * (2 : ℝ) ^ (-1075 : Int) := by
    rw [show (-1073 : Int) = 2 + -1075 by norm_num, zpow_add₀ two_ne_zero]; norm_num
  have hη := two_zpow_pos (K := ℝ) (-1075)
  rw [e4]
  generalize (2 : ℝ) ^ (-1075 : Int) = η at *
  have div : ∀ y : ℝ, y / 2 ^ 53 = y * (1 / 2 ^ 53) := fun y => by ring
  rw [div] at es ep eq eS
  rw [div]
  have hε : (0 : ℝ) ≤ 1 / 2 ^ 53 := by positivity
  have hε1 : (1 : ℝ) / 2 ^ 53 ≤ 1 / 16 := by norm_num
  generalize (1 : ℝ) / 2 ^ 53 = ε at *
  have hsa : |s * a| ≤ s * M := by rw [abs_mul, abs_of_nonneg hs0]; exact mul_le_mul_of_nonneg_left ha hs0
  have htb : |t * b| ≤ t * M := by rw [abs_mul, abs_of_nonneg h0]; exact mul_le_mul_of_nonneg_left hb h0
  have hst : s + t ≤ 1 + ε := by
    have := (abs_le.1 es).1
    nlinarith
  have hsum : |s * a| + |t * b| ≤ (1 + ε) * M := by nlinarith
  have hpq : |p + q| ≤ (1 + ε) * ((1 + ε) * M) + 2 * η := by
    have h1 : |p| ≤ |s * a| + (|s * a| * ε + η) := by
      have := abs_sub_abs_le_abs_sub p (s * a)
      rw [abs_sub_comm] at this
      linarith
    have h2 : |q| ≤ |t * b| + (|t * b| * ε + η) := by
      have := abs_sub_abs_le_abs_sub q (t * b)
      rw [abs_sub_comm] at this
      linarith
    have h3 := abs_add_le p q
    have : (|s * a| + |t * b|) * (1 + ε) ≤ (1 + ε) * M * (1 + ε) := mul_le_mul_of_nonneg_right hsum (by linarith)
    nlinarith
  have hsa' : |s * a - (1 - t) * a| ≤ ε * M := by
    rw [← sub_mul, abs_mul, abs_sub_comm]
    have h3 : |1 - t - s| ≤ ε := es.trans (by nlinarith)
    exact mul_le_mul h3 ha (abs_nonneg a) hε
  have tri : |L - ((1 - t) * a + t * b)| ≤ |p + q - L| + |s * a - p| + |t * b - q| + |s * a - (1 - t) * a| := by
    have e : L - ((1 - t) * a + t * b) = -(p + q - L) + -(s * a - p) + -(t * b - q) + (s * a - (1 - t) * a) := by ring
    rw [e]
    refine (abs_add_le _ _).trans (add_le_add ((abs_add_le _ _).trans (add_le_add ((abs_add_le _ _).trans ?_) ?_)) le_rfl)
    · rw [abs_neg, abs_neg]
    · rw [abs_neg]
  have f1 : |p + q| * ε ≤ ((1 + ε) * ((1 + ε) * M) + 2 * η) * ε := mul_le_mul_of_nonneg_right hpq hε
  have f2 : (|s * a| + |t * b|) * ε ≤ (1 + ε) * M * ε := mul_le_mul_of_nonneg_right hsum hε
  have g1 : ((1 + ε) * ((1 + ε) * M)) * ε + (1 + ε) * M * ε + ε * M ≤ 4 * (M * ε) := by
    have hMe : 0 ≤ M * ε := mul_nonneg hM hε
    have : (1 + ε) * (1 + ε) + (1 + ε) + 1 ≤ 4 := by nlinarith
    have h := mul_le_mul_of_nonneg_left this hMe
    nlinarith
  have g2 : 2 * η * ε ≤ η := by nlinarith
  nlinarith

/-- C124.  So it lies between the ends up to that error. -/
theorem C124_between {a b t M : ℝ} (ht : Double t) (h0 : 0 ≤ t) (h1 : t ≤ 1) (ha : |a| ≤ M) (hb : |b| ≤ M) :
    min a b - (4 * (M / 2 ^ 53) + (2 : ℝ) ^ (-1073 : Int)) ≤ lerp64 a b t ∧
    lerp64 a b t ≤ max a b + (4 * (M / 2 ^ 53) + (2 : ℝ) ^ (-1073 : Int)) := by
  have h := C124_error ht h0 h1 ha hb
  rw [abs_le] at h
  have l1 := mul_le_mul_of_nonneg_left (min_le_left a b) (sub_nonneg.2 h1)
  have l2 := mul_le_mul_of_nonneg_left (min_le_right a b) h0
  have u1 := mul_le_mul_of_nonneg_left (le_max_left a b) (sub_nonneg.2 h1)
  have u2 := mul_le_mul_of_nonneg_left (le_max_right a b) h0
  have e1 : (1 - t) * min a b + t * min a b = min a b := by ring
  have e2 : (1 - t) * max a b + t * max a b = max a b := by ring
  constructor <;> linarith [h.1, h.2]

/-- C124 is violated in double precision if the value is to lie between the ends, or to be monotone in `t`: between 3/2 and
3/2 it takes a value below. -/
theorem C124_outside_violated :
    Double (3 / 2 ^ 54 : ℝ) ∧ lerp64 (3 / 2) (3 / 2) (3 / 2 ^ 54) = 3 / 2 - 1 / 2 ^ 52 := by
  refine ⟨⟨3, -54, by norm_num, by norm_num, by norm_num⟩, ?_⟩
  have u1 : rn (1 - 3 / 2 ^ 54 : ℝ) = 1 - 1 / 2 ^ 52 := by
    have hu : ulpExp (1 - 3 / 2 ^ 54 : ℝ) = -1 - 52 := ulpExp_eq (by norm_num)
      (by rw [abs_of_nonneg (by norm_num)]; norm_num) (by rw [abs_of_nonneg (by norm_num)]; norm_num)
    unfold rn
    rw [hu]
    have e : (1 - 3 / 2 ^ 54 : ℝ) / (2 : ℝ) ^ (-1 - 52 : Int) = 9007199254740990 + 1 / 2 := by norm_num
    rw [e]
    have hr : rint (9007199254740990 + 1 / 2 : ℝ) = 9007199254740990 := by
      have hf : ⌊(9007199254740990 + 1 / 2 : ℝ)⌋ = 9007199254740990 := by rw [Int.floor_eq_iff]; norm_num
      unfold rint
      simp only [hf]
      norm_num
    rw [hr]; norm_num
  have u2 : rn ((1 - 1 / 2 ^ 52) * (3 / 2) : ℝ) = 3 / 2 - 2 / 2 ^ 52 := by
    have hu : ulpExp ((1 - 1 / 2 ^ 52) * (3 / 2) : ℝ) = 0 - 52 := ulpExp_eq (by norm_num)
      (by rw [abs_of_nonneg (by norm_num)]; norm_num) (by rw [abs_of_nonneg (by norm_num)]; norm_num)
    unfold rn
    rw [hu]
    have e : ((1 - 1 / 2 ^ 52) * (3 / 2) : ℝ) / (2 : ℝ) ^ (0 - 52 : Int) = 6755399441055742 + 1 / 2 := by norm_num
    rw [e]
    have hr : rint (6755399441055742 + 1 / 2 : ℝ) = 6755399441055742 := by
      have hf : ⌊(6755399441055742 + 1 / 2 : ℝ)⌋ = 6755399441055742 := by rw [Int.floor_eq_iff]; norm_num
      unfold rint
      simp only [hf]
      norm_num
    rw [hr]; norm_num
  have u3 : rn (3 / 2 ^ 54 * (3 / 2) : ℝ) = 9 / 2 ^ 55 := by
    have : (3 / 2 ^ 54 * (3 / 2) : ℝ) = 9 / 2 ^ 55 := by norm_num
    rw [this]
    exact rn_double ⟨9, -55, by norm_num, by norm_num, by norm_num⟩
  unfold lerp64
  rw [u1, u2, u3]
  refine rn_eq_of_close (u := -52) ?_ ⟨6755399441055743, by norm_num⟩ ?_
  · exact ulpExp_eq (k := 0) (by norm_num) (by rw [abs_of_nonneg (by norm_num)]; norm_num)
      (by rw [abs_of_nonneg (by norm_num)]; norm_num)
  · rw [show (3 / 2 - 2 / 2 ^ 52 + 9 / 2 ^ 55 - (3 / 2 - 1 / 2 ^ 52) : ℝ) = 1 / 2 ^ 55 by norm_num]
    rw [abs_of_nonneg (by positivity)]; norm_num

/-- C124.  `lerpi(i, j, a, b)` for 0 ≤ i ≤ j ≤ 2^53: the ends are exact and every point is within 6/2^53 of the larger end,
plus 2^-1073, of the point i/j of the way. -/
theorem C124_lerpi (hA : A.IsBinary64) {a b M : ℝ} (ha : Double a) (hb : Double b) (hM : M ≤ (2 : ℝ) ^ (1022 : Int))
    (haM : |a| ≤ M) (hbM : |b| ≤ M) {i j : Int} (h0 : 0 ≤ i) (h1 : i ≤ j) (hj : 0 < j) (hj' : j ≤ 2 ^ 53) :
    ∃ x, lerpi i j (.fin a : Num A) (.fin b) = .fin x ∧ (i = 0 → x = a) ∧ (i = j → x = b) ∧
      |x - (a + (i : ℝ) / j * (b - a))| ≤ 6 * (M / 2 ^ 53) + (2 : ℝ) ^ (-1073 : Int) := by
  have d1 : Double (1 : ℝ) := ⟨1, 0, by norm_num, by norm_num, by norm_num⟩
  have hjr : (0 : ℝ) < j := by exact_mod_cast hj
  have hir : (0 : ℝ) ≤ i := by exact_mod_cast h0
  have hijr : (i : ℝ) ≤ j := by exact_mod_cast h1
  have ri : ∀ n : Int, 0 ≤ n → n ≤ 2 ^ 53 → (CxxFloat.ofInt n : Num A) = .fin (n : ℝ) := by
    intro n n0 n1
    rw [Num.ofInt_eq]
    have hn : |n| ≤ 2 ^ 53 := by rw [abs_of_nonneg n0]; exact n1
    exact Num.round_of (rnd_of_double hA (double_int hn) (int_lt_huge hn))
  have hq0 : 0 ≤ (i : ℝ) / j := by positivity
  have hq1 : (i : ℝ) / j ≤ 1 := by rw [div_le_one hjr]; exact hijr
  have ht0 : 0 ≤ rn ((i : ℝ) / j) := by have := rn_mono hq0; rwa [rn_zero] at this
  have ht1 : rn ((i : ℝ) / j) ≤ 1 := by have := rn_mono hq1; rwa [rn_double d1] at this
  have one : (1 : ℝ) ≤ (2 : ℝ) ^ (1023 : Int) := by
    rw [show (1 : ℝ) = (2 : ℝ) ^ (0 : Int) by simp]; exact zpow_le_zpow_right₀ one_le_two (by norm_num)
  have ht : lerpi i j (.fin a : Num A) (.fin b) = .fin (lerp64 a b (rn ((i : ℝ) / j))) := by
    unfold lerpi
    rw [ri i h0 (by omega), ri j hj.le hj', Num.fin_div hjr.ne',
      round_of_le_two hA (by rw [abs_of_nonneg hq0]; exact hq1.trans one)]
    exact C124_value hA (haM.trans hM) (hbM.trans hM) ht0 ht1
  refine ⟨_, ht, ?_, ?_, ?_⟩
  · rintro rfl
    rw [show ((0 : Int) : ℝ) / j = 0 by simp, rn_zero]
    exact (C124_ends ha hb).1
  · rintro rfl
    rw [div_self hjr.ne', rn_double d1]
    exact (C124_ends ha hb).2
  · have he := C124_error (rn_isDouble ((i : ℝ) / j)) ht0 ht1 haM hbM
    have hr : |(i : ℝ) / j - rn ((i : ℝ) / j)| ≤ 1 / 2 ^ 53 := by
      by_cases hz : i = 0
      · subst hz; simp [rn_zero]
      · have h1i : (1 : ℝ) ≤ i := by exact_mod_cast (by omega : (1 : Int) ≤ i)
        have hj2 : (j : ℝ) ≤ 2 ^ 53 := by exact_mod_cast hj'
        have hn : (2 : ℝ) ^ (-1022 : Int) ≤ |(i : ℝ) / j| := by
          rw [abs_of_nonneg hq0, le_div_iff₀ hjr]
          have : (2 : ℝ) ^ (-1022 : Int) * j ≤ (2 : ℝ) ^ (-1022 : Int) * 2 ^ 53 :=
            mul_le_mul_of_nonneg_left hj2 (two_zpow_pos _).le
          refine this.trans (le_trans ?_ h1i)
          rw [show (2 : ℝ) ^ 53 = (2 : ℝ) ^ (53 : Int) by norm_cast, ← zpow_add₀ two_ne_zero,
            show (1 : ℝ) = (2 : ℝ) ^ (0 : Int) by simp]
          exact zpow_le_zpow_right₀ one_le_two (by norm_num)
        refine (rn_rel_normal hn).trans ?_
        rw [abs_of_nonneg hq0]
        exact div_le_div_of_nonneg_right hq1 (by positivity)
    generalize rn ((i : ℝ) / j) = t at *
    have e : lerp64 a b t - (a + (i : ℝ) / j * (b - a)) =
        (lerp64 a b t - ((1 - t) * a + t * b)) + -(((i : ℝ) / j - t) * (b - a)) := by ring
    rw [e]
    have hba : |b - a| ≤ 2 * M := (abs_sub _ _).trans (by linarith)
    have h2 : |((i : ℝ) / j - t) * (b - a)| ≤ 1 / 2 ^ 53 * (2 * M) := by
      rw [abs_mul]
      exact mul_le_mul hr hba (abs_nonneg _) (by positivity)
    refine (abs_add_le _ _).trans ?_
    rw [abs_neg]
    have e2 : 6 * (M / 2 ^ 53) = 4 * (M / 2 ^ 53) + 1 / 2 ^ 53 * (2 * M) := by ring
    rw [e2]
    linarith

example : |(3 / 2 : ℝ)| ≤ (2 : ℝ) ^ (1022 : Int) := by
  rw [abs_of_nonneg (by norm_num)]
  refine le_trans (show (3 / 2 : ℝ) ≤ (2 : ℝ) ^ (1 : Int) by norm_num) ?_
  exact zpow_le_zpow_right₀ one_le_two (by norm_num)

end Bwsl
