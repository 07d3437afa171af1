import Verif.Model.NormContracted
import Verif.Props.Contracted
import Verif.Props.Formats
import Verif.Props.NormFormats
import Verif.Props.Negated
import Verif.Props.DrawFormats

/-! Property C180: LinSpace, interpolation, sums of squares and norms of `float`, `double` and `long double` with fused products. -/

namespace Bwsl
open Spec FloatFormat

/-! ## LinSpace -/

/-- The value after `k` increments, in any arithmetic. -/
theorem linSpace_value_fused {F : Type} [CxxFloat F] [CxxFma F] (fused : Bool) (a b st : F) (n k : Nat) (hk0 : 0 < k)
    (hk : k < W64) :
    ((LinSpace.incrContracted fused)^[k] (⟨a, a, b, st, n, 0⟩ : LinSpace F)).deref = mulAdd fused st (CxxFloat.ofNat k) a := by
  have it : ∀ k, k < W64 → (LinSpace.incrContracted fused)^[k] (⟨a, a, b, st, n, 0⟩ : LinSpace F) =
      ⟨if k = 0 then a else mulAdd fused st (CxxFloat.ofNat k) a, a, b, st, n, k⟩ := by
    intro k
    induction k with
    | zero => intro _; simp
    | succ k ih =>
      intro hk
      rw [Function.iterate_succ_apply', ih (by omega)]
      unfold LinSpace.incrContracted
      have e : (k + 1) % W64 = k + 1 := Nat.mod_eq_of_lt hk
      simp only [e, if_neg (Nat.succ_ne_zero k)]
  rw [it k hk]
  unfold LinSpace.deref
  simp only [if_neg hk0.ne']

section
variable {K : Type} [Field K] [LinearOrder K] [IsStrictOrderedRing K] [FloorRing K] {A : Arith K} {f : FloatFormat}

/-- Rounding to a format treats a number and its negative alike. -/
theorem isOdd_format (hA : A.IsFormat f) : A.IsOdd := by
  refine ⟨fun x => ?_, ?_⟩
  · rw [hA, hA]
    unfold FloatFormat.rnd
    rw [fl_neg, abs_neg]
    split <;> rfl
  · rw [rnd_zero hA]; simp

/-- C180.  LinSpace<T> with contraction: the first value is the first end, and the values never decrease. -/
theorem C180_linspace_monotone (hA : A.IsFormat f) (fused : Bool) {a b : K} (hfa : FiniteIn f a)
    (ha : |a| ≤ (2 : K) ^ (f.emax - 2)) (hb : |b| ≤ (2 : K) ^ (f.emax - 2)) (n : Nat) (hn0 : 0 < n) (hn : n < 2 ^ 64)
    (s : LinSpace (Num A)) (hs : LinSpace.new (.fin a : Num A) (.fin b) n = .ok s) :
    s.deref = .fin a ∧
    ∀ j k : Nat, j ≤ k → k < 2 ^ 64 →
      CxxFloat.le ((LinSpace.incrContracted fused)^[j] s).deref ((LinSpace.incrContracted fused)^[k] s).deref = true := by
  cases fused with
  | false => exact (C147_linspace_monotone hA hfa ha hb n hn0 hn).2 s hs
  | true =>
    have hst := linSpace_step hA ha hb n hn0 hn
    have hab : a < b := (C147_linspace_monotone hA hfa ha hb n hn0 hn).1.1 ⟨s, hs⟩
    unfold LinSpace.new at hs
    rw [Num.lt_fin, if_pos (decide_eq_true hab), hst, Res.ok.injEq] at hs
    subst hs
    refine ⟨rfl, fun j k hjk hk => ?_⟩
    have h0 : 0 ≤ f.rn (f.rn (b - a) / f.rn (n : K)) :=
      fl_nonneg (div_nonneg (fl_nonneg (by linarith)) (by linarith [rn_count_ge_one (f := f) (K := K) (k := n) hn0]))
    generalize f.rn (f.rn (b - a) / f.rn (n : K)) = st at *
    have val : ∀ i, i < 2 ^ 64 → ((LinSpace.incrContracted true)^[i] (⟨.fin a, .fin a, .fin b, .fin st, n, 0⟩ :
        LinSpace (Num A))).deref = Num.round A (st * f.rn (i : K) + a) := by
      intro i hi
      rcases Nat.eq_zero_or_pos i with rfl | hi0
      · rw [Nat.cast_zero, fl_zero, mul_zero, zero_add, Num.round_of (rnd_finite hA hfa)]; rfl
      · rw [linSpace_value_fused true _ _ _ _ _ hi0 hi, Num.ofNat_eq, count_round hA hi, mulAdd_fin]
    rw [val j (by omega), val k hk]
    refine mono_of_format hA _ _ ?_
    have := mul_le_mul_of_nonneg_left (fl_mono (f := f) (show (j : K) ≤ k by exact_mod_cast hjk)) h0
    linarith

/-- The error of the step. -/
theorem linStep_error {a b : K} (ha : InFormat f a) (hb : InFormat f b) (hab : a < b) (n : Nat) (hn0 : 0 < n)
    (hstep : (2 : K) ^ (f.emin + f.prec) ≤ (b - a) / n) :
    (1 - 1 / 2 ^ f.prec) ^ 2 * ((b - a) / n) ≤ f.rn (f.rn (b - a) / n) ∧
    f.rn (f.rn (b - a) / n) ≤ (1 + 1 / 2 ^ f.prec) ^ 2 * ((b - a) / n) := by
  have hn' : (0 : K) < n := by exact_mod_cast hn0
  have e21 : (2 : K) ^ (f.emin + f.prec) = 2 * (2 : K) ^ (f.emin + (f.prec - 1) : Int) := by
    rw [show f.emin + (f.prec : Int) = 1 + (f.emin + (f.prec - 1)) by ring, zpow_add₀ two_ne_zero, zpow_one]
  have p := two_zpow_pos (K := K) (f.emin + (f.prec - 1))
  have div : ∀ v : K, v / 2 ^ f.prec = v * (1 / 2 ^ f.prec) := fun v => by ring
  have hε := eps_pos (K := K) (f := f)
  have hε1 := eps_small (K := K) (f := f)
  have norm : ∀ {x : K}, (2 : K) ^ (f.emin + (f.prec - 1)) ≤ |x| → |x - f.rn x| ≤ |x| * (1 / 2 ^ f.prec) := fun h => by
    rw [← div]; exact fl_rel_normal h
  have rel : ∀ {x : K}, Mult f.emin x → |x - f.rn x| ≤ |x| * (1 / 2 ^ f.prec) := fun h => by
    rw [← div]; exact fl_rel h
  rw [e21] at hstep
  generalize (1 : K) / 2 ^ f.prec = ε at *
  generalize (2 : K) ^ (f.emin + (f.prec - 1) : Int) = η at *
  clear div e21
  set h := (b - a) / n with hh
  have hbn : b - a = h * n := by rw [hh]; field_simp
  have hpos : 0 < h := by linarith
  have h1 := rel ((value_mult hb).sub (value_mult ha))
  rw [abs_of_pos (sub_pos.2 hab)] at h1
  generalize f.rn (b - a) = D at *
  have h1' : |h - D / n| ≤ h * ε := by
    have : h - D / n = (b - a - D) / n := by rw [hh]; ring
    rw [this, abs_div, abs_of_pos hn', div_le_iff₀ hn']
    calc _ ≤ _ := h1
      _ = _ := by rw [hbn]; ring
  obtain ⟨h1a, h1b⟩ := abs_le.1 h1'
  have hhε := mul_le_mul_of_nonneg_left hε1 hpos.le
  have hq : h / 2 ≤ D / n := by linarith
  have hq0 : 0 < D / n := by linarith
  have h2 := norm (x := D / n) (by rw [abs_of_pos hq0]; linarith)
  rw [abs_of_pos hq0] at h2
  generalize f.rn (D / n) = S at *
  generalize D / (n : K) = Q at *
  obtain ⟨h2a, h2b⟩ := abs_le.1 h2
  have hQ1 : (1 - ε) * h ≤ Q := by linarith
  have hQ2 : Q ≤ (1 + ε) * h := by linarith
  constructor
  · have := mul_le_mul_of_nonneg_left hQ1 (show 0 ≤ 1 - ε by linarith)
    linarith
  · have := mul_le_mul_of_nonneg_left hQ2 (show 0 ≤ 1 + ε by linarith)
    linarith

theorem fusedStep_error {a t P V ε : K} (ht : 0 ≤ t) (hε : 0 ≤ ε) (hε1 : ε ≤ 1 / 2048) (h1 : (1 - ε) ^ 2 * t ≤ P)
    (h2 : P ≤ (1 + ε) ^ 2 * t) (h3 : |P + a - V| ≤ |P + a| * ε) : |V - (a + t)| ≤ (|a + t| + 4 * t) * ε := by
  have e2 : ε * ε ≤ ε * (1 / 2048) := mul_le_mul_of_nonneg_left hε1 hε
  have hP : |P - t| ≤ 3 * (ε * t) := by
    have u := mul_le_mul_of_nonneg_right e2 ht
    have v : 0 ≤ ε * ε * t := by positivity
    have w : 0 ≤ ε * t := by positivity
    rw [abs_le]
    constructor <;> nlinarith
  have e : V - (a + t) = -(P + a - V) + (P - t) := by ring
  have h5 : |P + a| ≤ |a + t| + |P - t| := by
    have : P + a = (a + t) + (P - t) := by ring
    rw [this]; exact abs_add_le _ _
  rw [e]
  refine (abs_add_le _ _).trans ?_
  rw [abs_neg]
  have h6 := mul_le_mul_of_nonneg_right h5 hε
  have h7 : |P - t| * ε + |P - t| ≤ 4 * t * ε := by
    have := mul_le_mul_of_nonneg_left hP (show 0 ≤ 1 + ε by linarith)
    have := mul_le_mul_of_nonneg_right e2 ht
    have w : 0 ≤ ε * t := by positivity
    nlinarith
  linarith

/-- C180.  LinSpace<T> with contraction: the error of the values has the same bound as without (C147). -/
theorem C180_linspace_error (hA : A.IsFormat f) (fused : Bool) {a b : K} (hfa : InFormat f a) (hfb : InFormat f b)
    (ha : |a| ≤ (2 : K) ^ (f.emax - 4)) (hb : |b| ≤ (2 : K) ^ (f.emax - 4)) (n : Nat) (hn0 : 0 < n) (hn : n < 2 ^ 64)
    (hnp : n ≤ 2 ^ f.prec) (hstep : (2 : K) ^ (f.emin + f.prec) ≤ (b - a) / n) (s : LinSpace (Num A))
    (hs : LinSpace.new (.fin a) (.fin b) n = .ok s) (k : Nat) (hk0 : 0 < k) (hk : k ≤ n) :
    ∃ v : K, ((LinSpace.incrContracted fused)^[k] s).deref = .fin v ∧
      |v - (a + k * ((b - a) / n))| ≤ (|a + k * ((b - a) / n)| + 4 * (k * ((b - a) / n))) / 2 ^ f.prec := by
  cases fused with
  | false => exact C147_linspace_error hA hfa hfb ha hb n hn0 hn hnp hstep s hs k hk0 hk
  | true =>
    have h1 := f.emin_le
    have h2 := f.emax_gt
    have h3 := f.prec_ge
    have hn' : (0 : K) < n := by exact_mod_cast hn0
    have hk' : (0 : K) ≤ k := Nat.cast_nonneg k
    have hkn : (k : K) ≤ n := by exact_mod_cast hk
    have hpos : 0 < (b - a) / n := (two_zpow_pos (K := K) _).trans_le hstep
    have hab : a < b := by
      rw [div_pos_iff_of_pos_right hn'] at hpos
      linarith
    have le4 : (2 : K) ^ (f.emax - 4) ≤ (2 : K) ^ (f.emax - 2) := zpow_le_zpow_right₀ one_le_two (by omega)
    obtain ⟨s1, s2⟩ := linStep_error hfa hfb hab n hn0 hstep
    have hst := linSpace_step hA (ha.trans le4) (hb.trans le4) n hn0 hn
    rw [rn_count hnp] at hst
    unfold LinSpace.new at hs
    rw [Num.lt_fin, if_pos (decide_eq_true hab), hst, Res.ok.injEq] at hs
    subst hs
    have hle : (k : K) * ((b - a) / n) ≤ b - a := by
      rw [← mul_div_assoc, div_le_iff₀ hn', mul_comm (b - a)]
      exact mul_le_mul_of_nonneg_right hkn (by linarith)
    have e1 : (2 : K) ^ (f.emax - 1) = 8 * (2 : K) ^ (f.emax - 4) := by
      rw [show f.emax - 1 = 3 + (f.emax - 4) by ring, zpow_add₀ two_ne_zero]; norm_num
    have hmul : Mult f.emin (f.rn (f.rn (b - a) / n) * k) := by
      obtain ⟨m, hm⟩ := value_mult (fl_inFormat (f := f) (f.rn (b - a) / (n : K)))
      exact ⟨m * k, by rw [hm]; push_cast; ring⟩
    have hrel := (fl_rel (hmul.add (value_mult hfa))).trans_eq (div_eq_mul_one_div _ _)
    have hε := eps_pos (K := K) (f := f)
    have hε1 := eps_small (K := K) (f := f)
    have ht : 0 ≤ (k : K) * ((b - a) / n) := by positivity
    have c1 : (1 - 1 / 2 ^ f.prec) ^ 2 * (k * ((b - a) / n)) ≤ f.rn (f.rn (b - a) / n) * k := by
      have := mul_le_mul_of_nonneg_right s1 hk'
      linarith
    have c2 : f.rn (f.rn (b - a) / n) * k ≤ (1 + 1 / 2 ^ f.prec) ^ 2 * (k * ((b - a) / n)) := by
      have := mul_le_mul_of_nonneg_right s2 hk'
      linarith
    refine ⟨f.rn (f.rn (f.rn (b - a) / n) * k + a), ?_, ?_⟩
    · rw [linSpace_value_fused true _ _ _ _ _ hk0 (by omega), Num.ofNat_eq, count_round hA (by omega), rn_count (hk.trans hnp),
        mulAdd_fin, round_le hA (e := f.emax - 1) (by omega) (by omega)]
      obtain ⟨sq1, sq2⟩ := eps_squares hε.le hε1
      have := mul_le_mul_of_nonneg_right sq2 ht
      have := mul_le_mul_of_nonneg_right sq1 ht
      have := le_of_abs_le hb
      have := neg_le_of_abs_le ha
      refine (abs_add_le _ _).trans ?_
      rw [e1, abs_of_nonneg (by linarith : 0 ≤ f.rn (f.rn (b - a) / n) * k)]
      linarith
    · exact (fusedStep_error ht hε.le hε1 c1 c2 hrel).trans_eq (div_eq_mul_one_div _ _).symm

/-- C180.  Beyond 2^p steps values repeat with contraction, too. -/
theorem C180_linspace_repeats (hA : A.IsFormat f) (fused : Bool) (first last : Num A) (n : Nat) (s : LinSpace (Num A))
    (hs : LinSpace.new first last n = .ok s) (k : Nat) (hk : 2 ^ f.prec < k) (hk' : k + 1 < 2 ^ 64) (hodd : k % 2 = 1) :
    ((LinSpace.incrContracted fused)^[k] s).deref = ((LinSpace.incrContracted fused)^[k - 1] s).deref ∨
    ((LinSpace.incrContracted fused)^[k] s).deref = ((LinSpace.incrContracted fused)^[k + 1] s).deref := by
  have hp : 1 < 2 ^ f.prec := Nat.one_lt_two_pow (by have := f.prec_ge; omega)
  unfold LinSpace.new at hs
  split at hs
  · rw [Res.ok.injEq] at hs
    subst hs
    rw [linSpace_value_fused _ _ _ _ _ k (by omega) (by omega), linSpace_value_fused _ _ _ _ _ (k - 1) (by omega) (by omega),
      linSpace_value_fused _ _ _ _ _ (k + 1) (by omega) (by omega)]
    simp only [Num.ofNat_eq]
    rw [count_round hA (by omega : k < 2 ^ 64), count_round hA (by omega : k - 1 < 2 ^ 64), count_round hA hk']
    rcases odd_count (f := f) (K := K) k hk hodd with h | h
    · left; rw [h]
    · right; rw [← h]
  · cases hs

/-! ## Interpolation -/

/-- the rounded interpolation with contraction -/
def lerpInFused (f : FloatFormat) : Fused → K → K → K → K
  | .neither, a, b, t => f.rn (f.rn (f.rn (1 - t) * a) + f.rn (t * b))
  | .first, a, b, t => f.rn (f.rn (1 - t) * a + f.rn (t * b))
  | .second, a, b, t => f.rn (t * b + f.rn (f.rn (1 - t) * a))

/-- C180.  lerp with contraction: no step overflows for ends up to half of the range. -/
theorem C180_lerp_value (hA : A.IsFormat f) (c : Fused) {a b t : K} (ha : |a| ≤ (2 : K) ^ (f.emax - 2))
    (hb : |b| ≤ (2 : K) ^ (f.emax - 2)) (h0 : 0 ≤ t) (h1 : t ≤ 1) :
    lerpContracted c (.fin a : Num A) (.fin b) (.fin t) = .fin (lerpInFused f c a b t) := by
  have b1 := f.emin_le
  have b2 := f.emax_gt
  have b3 := f.prec_ge
  have d1 := one_value (f := f) (K := K)
  have dM : InFormat f ((2 : K) ^ (f.emax - 2)) := two_zpow_value (by omega)
  have e23 : (2 : K) ^ (f.emax - 1) = 2 * (2 : K) ^ (f.emax - 2) := by
    rw [show f.emax - 1 = 1 + (f.emax - 2) by ring, zpow_add₀ two_ne_zero, zpow_one]
  have one : (1 : K) ≤ (2 : K) ^ (f.emax - 2) := by
    rw [show (1 : K) = (2 : K) ^ (0 : Int) by simp]; exact zpow_le_zpow_right₀ one_le_two (by omega)
  have r : ∀ y : K, |y| ≤ 2 * (2 : K) ^ (f.emax - 2) → Num.round A y = .fin (f.rn y) := fun y h =>
    round_le hA (e := f.emax - 1) (by omega) (by omega) (by rw [e23]; exact h)
  clear e23
  generalize (2 : K) ^ (f.emax - 2) = m at *
  have hs0 : 0 ≤ f.rn (1 - t) := fl_nonneg (sub_nonneg.2 h1)
  have hs1 : f.rn (1 - t) ≤ 1 := by have := fl_mono (f := f) (show 1 - t ≤ 1 by linarith); rwa [fl_value d1] at this
  have bnd : ∀ {k x : K}, 0 ≤ k → k ≤ 1 → |x| ≤ m → |k * x| ≤ m := by
    intro k x c0 c1 hx
    rw [abs_mul, abs_of_nonneg c0]
    calc k * |x| ≤ 1 * |x| := mul_le_mul_of_nonneg_right c1 (abs_nonneg x)
      _ ≤ _ := by rw [one_mul]; exact hx
  have hp := bnd hs0 hs1 ha
  have hq := bnd h0 h1 hb
  have e1 : (CxxFloat.ofInt 1 : Num A) = .fin 1 := by
    rw [Num.ofInt_eq, show (((1 : Int)) : K) = 1 by norm_num, r 1 (by rw [abs_one]; linarith), fl_value d1]
  have e2 : (CxxFloat.ofInt 1 - .fin t : Num A) = .fin (f.rn (1 - t)) := by
    rw [e1, Num.fin_sub, r (1 - t) (by rw [abs_of_nonneg (sub_nonneg.2 h1)]; linarith)]
  cases c with
  | neither =>
    simp only [lerpContracted, lerpInFused]
    rw [e2, Num.fin_mul, Num.fin_mul, r _ (by linarith), r _ (by linarith), Num.fin_add,
      r _ ((abs_add_le _ _).trans (by linarith [fl_abs_le dM hp, fl_abs_le dM hq]))]
  | first =>
    simp only [lerpContracted, lerpInFused]
    rw [e2, Num.fin_mul, r _ (by linarith)]
    exact r _ ((abs_add_le _ _).trans (by linarith [fl_abs_le dM hq]))
  | second =>
    simp only [lerpContracted, lerpInFused]
    rw [e2, Num.fin_mul, r _ (by linarith)]
    exact r _ ((abs_add_le _ _).trans (by linarith [fl_abs_le dM hp]))

/-- C180.  lerp with contraction is exact at both ends, for all finite ends. -/
theorem C180_lerp_ends (hA : A.IsFormat f) (c : Fused) {a b : K} (ha : FiniteIn f a) (hb : FiniteIn f b) :
    lerpContracted c (.fin a : Num A) (.fin b) (.fin 0) = .fin a ∧
    lerpContracted c (.fin a : Num A) (.fin b) (.fin 1) = .fin b := by
  have r : ∀ {y : K}, FiniteIn f y → Num.round A y = .fin y := fun h => Num.round_of (rnd_finite hA h)
  have h0 : Num.round A (0 : K) = .fin 0 := Num.round_of (rnd_zero hA)
  have h1 : FiniteIn f (1 : K) := one_finite
  have e1 : (CxxFloat.ofInt 1 : Num A) = .fin 1 := by
    rw [Num.ofInt_eq, show (((1 : Int)) : K) = 1 by norm_num, r h1]
  have s0 : (CxxFloat.ofInt 1 - .fin 0 : Num A) = .fin 1 := by rw [e1, Num.fin_sub, sub_zero, r h1]
  have s1 : (CxxFloat.ofInt 1 - .fin 1 : Num A) = .fin 0 := by rw [e1, Num.fin_sub, sub_self, h0]
  cases c with
  | neither => exact C147_lerp_ends hA ha hb
  | first =>
    simp only [lerpContracted]
    constructor
    · rw [s0, Num.fin_mul, zero_mul, h0]
      show Num.round A (1 * a + 0) = _
      rw [one_mul, add_zero, r ha]
    · rw [s1, Num.fin_mul, one_mul, r hb]
      show Num.round A (0 * a + b) = _
      rw [zero_mul, zero_add, r hb]
  | second =>
    simp only [lerpContracted]
    constructor
    · rw [s0, Num.fin_mul, one_mul, r ha]
      show Num.round A (0 * b + a) = _
      rw [zero_mul, zero_add, r ha]
    · rw [s1, Num.fin_mul, zero_mul, h0]
      show Num.round A (1 * b + 0) = _
      rw [one_mul, add_zero, r hb]

/-- C180.  lerp with contraction is monotone in both ends. -/
theorem C180_lerp_monotone (c : Fused) {a b a' b' t : K} (h0 : 0 ≤ t) (h1 : t ≤ 1) (ha : a ≤ a') (hb : b ≤ b') :
    lerpInFused f c a b t ≤ lerpInFused f c a' b' t := by
  have hs0 : 0 ≤ f.rn (1 - t) := fl_nonneg (sub_nonneg.2 h1)
  have m1 := mul_le_mul_of_nonneg_left ha hs0
  have m2 := mul_le_mul_of_nonneg_left hb h0
  cases c with
  | neither => exact fl_mono (add_le_add (fl_mono m1) (fl_mono m2))
  | first => exact fl_mono (add_le_add m1 (fl_mono m2))
  | second => exact fl_mono (add_le_add m2 (fl_mono m1))

end

section
variable {A B : Arith ℝ} {f g : FloatFormat}

/-- C180.  lerp with contraction: for |a|, |b| ≤ M the error is at most 4 M / 2^p and twice the smallest positive number. -/
theorem C180_lerp_error (c : Fused) {a b t M : ℝ} (ht : InFormat f t) (h0 : 0 ≤ t) (h1 : t ≤ 1) (ha : |a| ≤ M) (hb : |b| ≤ M) :
    |lerpInFused f c a b t - ((1 - t) * a + t * b)| ≤ 4 * (M / 2 ^ f.prec) + 2 * (2 : ℝ) ^ f.emin := by
  have hs0 : 0 ≤ f.rn (1 - t) := fl_nonneg (sub_nonneg.2 h1)
  have es := fl_rel (f := f) ((value_mult one_value).sub (value_mult ht))
  rw [abs_of_nonneg (sub_nonneg.2 h1)] at es
  have e4 : 2 * (2 : ℝ) ^ f.emin = 4 * (2 : ℝ) ^ (f.emin - 1) := by
    rw [show f.emin = 1 + (f.emin - 1) by ring, zpow_add₀ two_ne_zero, show 1 + (f.emin - 1) - 1 = f.emin - 1 by ring]; ring
  have hη := (two_zpow_pos (K := ℝ) (f.emin - 1)).le
  have div : ∀ y : ℝ, y / 2 ^ f.prec = y * (1 / 2 ^ f.prec) := fun y => by ring
  have hε := (eps_pos (K := ℝ) (f := f)).le
  have hε1 : (1 : ℝ) / 2 ^ f.prec ≤ 1 / 16 := eps_small.trans (by norm_num)
  have er : ∀ y : ℝ, |y - f.rn y| ≤ |y| * (1 / 2 ^ f.prec) + (2 : ℝ) ^ (f.emin - 1) := fun y => by
    rw [← div]; exact fl_abs_err y
  have ez : ∀ y : ℝ, |y - y| ≤ |y| * (1 / 2 ^ f.prec) + (2 : ℝ) ^ (f.emin - 1) := fun y => by
    rw [sub_self, abs_zero]
    exact add_nonneg (mul_nonneg (abs_nonneg y) hε) hη
  rw [div] at es ⊢
  rw [e4]
  cases c with
  | neither => exact lerp_error_of h0 hs0 ha hb hε hε1 hη es (er _) (er _) (er _)
  | first => exact lerp_error_of h0 hs0 ha hb hε hε1 hη es (ez _) (er _) (er _)
  | second =>
    refine lerp_error_of h0 hs0 ha hb hε hε1 hη es (er _) (ez _) ?_
    simp only [lerpInFused]
    rw [add_comm (t * b)]
    exact er _

/-! ## Sums of squares and norms -/

theorem mulAdd_square_in (hA : A.IsFormat f) (fused : Bool) {d : Num A} (hd : NonNegIn f d) (x : ℝ) :
    NonNegIn f (mulAdd fused (.fin x) (.fin x) d) ∧ CxxFloat.le d (mulAdd fused (.fin x) (.fin x) d) = true ∧
    CxxFloat.le (Num.round A (x * x)) (mulAdd fused (.fin x) (.fin x) d) = true := by
  cases fused with
  | false =>
    show NonNegIn f (d + .fin x * .fin x : Num A) ∧ CxxFloat.le d (d + .fin x * .fin x : Num A) = true ∧
      CxxFloat.le _ (d + .fin x * .fin x : Num A) = true
    rw [Num.fin_mul]
    exact nonnegIn_add_le hA hd (nonnegIn_round hA (mul_self_nonneg x))
  | true =>
    rcases hd with rfl | ⟨r, rfl, hr, hr0⟩
    · show NonNegIn f (.inf false : Num A) ∧ CxxFloat.le (.inf false) (.inf false : Num A) = true ∧
        CxxFloat.le _ (.inf false : Num A) = true
      refine ⟨.inl rfl, by rw [Num.le_inf_inf]; rfl, ?_⟩
      rcases nonnegIn_round hA (mul_self_nonneg x) with h | ⟨r, h, -⟩
      · rw [h, Num.le_inf_inf]; rfl
      · rw [h, Num.le_fin_inf]; rfl
    · rw [mulAdd_fin]
      refine ⟨nonnegIn_round hA (add_nonneg (mul_self_nonneg x) hr0), ?_, mono_of_format hA _ _ (by linarith)⟩
      have := mono_of_format hA r (x * x + r) (by linarith [mul_self_nonneg x])
      rwa [Num.round_of (rnd_finite hA hr)] at this

theorem nonnegIn_fused (hA : A.IsFormat f) (fused : Bool) (d : Num A) (hd : NonNegIn f d) (v : List ℝ) :
    NonNegIn f ((v.map .fin).foldl (fun d (x : Num A) => mulAdd fused x x d) d) ∧
    CxxFloat.le d ((v.map .fin).foldl (fun d (x : Num A) => mulAdd fused x x d) d) = true ∧
    ∀ x ∈ v, CxxFloat.le (Num.round A (x * x)) ((v.map .fin).foldl (fun d (x : Num A) => mulAdd fused x x d) d) = true := by
  induction v generalizing d with
  | nil =>
    refine ⟨hd, ?_, by simp⟩
    rcases hd with rfl | ⟨r, rfl, -, -⟩
    · rw [List.map_nil, List.foldl_nil, Num.le_inf_inf]; rfl
    · rw [List.map_nil, List.foldl_nil, Num.le_fin]; exact decide_eq_true le_rfl
  | cons y ys ih =>
    rw [List.map_cons, List.foldl_cons]
    obtain ⟨h1, h2, h3⟩ := mulAdd_square_in hA fused hd y
    obtain ⟨i1, i2, i3⟩ := ih _ h1
    refine ⟨i1, Num.le_trans' h2 i2, fun x hx => ?_⟩
    rcases List.mem_cons.1 hx with rfl | hx
    · exact Num.le_trans' h3 i2
    · exact i3 x hx

theorem fused_inf (hA : A.IsFormat f) (fused : Bool) (w : List ℝ) :
    (w.map .fin).foldl (fun d (x : Num A) => mulAdd fused x x d) (.inf false) = .inf false := by
  have := (nonnegIn_fused hA fused (.inf false : Num A) (.inl rfl) w).2.1
  rcases (nonnegIn_fused hA fused (.inf false : Num A) (.inl rfl) w).1 with h | ⟨t, h, -, -⟩
  · exact h
  · rw [h, Num.le_inf_fin] at this; cases this

/-- The accumulated error of the sum of squares with fused products: one rounding per element. -/
theorem fused_error_in (hA : A.IsFormat f) (r : ℝ) (hr : InFormat f r) (h0 : 0 ≤ r) (v : List ℝ)
    (hv : ∀ x ∈ v, x = 0 ∨ (2 : ℝ) ^ (f.emin + (f.prec - 1)) ≤ x ^ 2) (s : ℝ)
    (h : (v.map .fin).foldl (fun d (x : Num A) => mulAdd true x x d) (.fin r) = .fin s) :
    (1 - 1 / 2 ^ f.prec) ^ v.length * (r + (v.map (· ^ 2)).sum) ≤ s ∧
    s ≤ (1 + 1 / 2 ^ f.prec) ^ v.length * (r + (v.map (· ^ 2)).sum) := by
  have hε := eps_small (K := ℝ) (f := f)
  have hε0 := eps_pos (K := ℝ) (f := f)
  induction v generalizing r with
  | nil =>
    rw [List.map_nil, List.foldl_nil] at h
    cases h
    simp
  | cons y ys ih =>
    rw [List.map_cons, List.foldl_cons, mulAdd_fin, ← pow_two, round_pos_in hA (by positivity)] at h
    have hq : |y ^ 2 + r - f.rn (y ^ 2 + r)| ≤ (y ^ 2 + r) * (1 / 2 ^ f.prec) := by
      rcases hv y (by simp) with h' | h'
      · rw [h', zero_pow two_ne_zero, zero_add, fl_value hr, sub_self, abs_zero]; positivity
      · have := fl_rel_normal (f := f) (x := y ^ 2 + r) (by rw [abs_of_nonneg (by positivity)]; linarith)
        rwa [abs_of_nonneg (by positivity : 0 ≤ y ^ 2 + r), div_eq_mul_one_div] at this
    split at h
    · obtain ⟨i1, i2⟩ := ih (f.rn (y ^ 2 + r)) (fl_inFormat _) (fl_nonneg (by positivity))
        (fun x hx => hv x (List.mem_cons_of_mem _ hx)) h
      have hS : 0 ≤ (ys.map (· ^ 2)).sum :=
        List.sum_nonneg (fun x hx => by obtain ⟨z, -, rfl⟩ := List.mem_map.1 hx; exact sq_nonneg z)
      rw [abs_le] at hq
      rw [List.map_cons, List.sum_cons, List.length_cons]
      generalize (ys.map (· ^ 2)).sum = S at *
      generalize f.rn (y ^ 2 + r) = t at *
      generalize y ^ 2 = z at *
      generalize (1 : ℝ) / 2 ^ f.prec = u at *
      have hu := mul_nonneg hε0.le hS
      rw [pow_succ (1 - u), pow_succ (1 + u), mul_assoc, mul_assoc ((1 + u) ^ _)]
      exact ⟨le_trans (mul_le_mul_of_nonneg_left (by linarith [hq.2]) (pow_nonneg (by linarith) _)) i1,
        le_trans i2 (mul_le_mul_of_nonneg_left (by linarith [hq.1]) (pow_nonneg (by linarith) _))⟩
    · rw [fused_inf hA] at h; cases h

/-- With or without contraction, the bound of C157. -/
theorem either_error_in (hA : A.IsFormat f) (fused : Bool) (v : List ℝ)
    (hv : ∀ x ∈ v, x = 0 ∨ (2 : ℝ) ^ (f.emin + (f.prec - 1)) ≤ x ^ 2) (s : ℝ)
    (h : (v.map .fin).foldl (fun d (x : Num A) => mulAdd fused x x d) (.fin 0) = .fin s) :
    (1 - 1 / 2 ^ f.prec) ^ (v.length + 1) * (v.map (· ^ 2)).sum ≤ s ∧
    s ≤ (1 + 1 / 2 ^ f.prec) ^ (v.length + 1) * (v.map (· ^ 2)).sum := by
  have hS : 0 ≤ (v.map (· ^ 2)).sum :=
    List.sum_nonneg (fun x hx => by obtain ⟨z, -, rfl⟩ := List.mem_map.1 hx; exact sq_nonneg z)
  have hε := eps_small (K := ℝ) (f := f)
  have hε0 := eps_pos (K := ℝ) (f := f)
  cases fused with
  | false =>
    have := squares_error_in hA 0 zero_value le_rfl v hv s h
    rwa [zero_add, zero_add, ← mul_assoc, ← mul_assoc, ← pow_succ, ← pow_succ] at this
  | true =>
    have := fused_error_in hA 0 zero_value le_rfl v hv s h
    rw [zero_add] at this
    refine ⟨le_trans ?_ this.1, this.2.trans ?_⟩
    · exact mul_le_mul_of_nonneg_right (pow_le_pow_of_le_one (by linarith) (by linarith) (by omega)) hS
    · exact mul_le_mul_of_nonneg_right (pow_le_pow_right₀ (by linarith) (by omega)) hS

theorem fused_normal (hA : A.IsFormat f) (fused : Bool) {N : Int} (v : List ℝ)
    (hv : ∀ x ∈ v, x = 0 ∨ ((2 : ℝ) ^ (f.emin + (f.prec - 1)) ≤ x ^ 2 ∧ (2 : ℝ) ^ (N + 1) ≤ x ^ 2)) (s : ℝ)
    (h : (v.map .fin).foldl (fun d (x : Num A) => mulAdd fused x x d) (.fin 0) = .fin s) : s = 0 ∨ (2 : ℝ) ^ N ≤ s := by
  by_cases hz : ∀ x ∈ v, x = 0
  · left
    have e := either_error_in hA fused v (fun x hx => .inl (hz x hx)) s h
    have h0 : (v.map (· ^ 2)).sum = 0 := by
      refine List.sum_eq_zero fun x hx => ?_
      obtain ⟨y, hy, rfl⟩ := List.mem_map.1 hx
      rw [hz y hy]; norm_num
    rw [h0, mul_zero, mul_zero] at e
    exact le_antisymm e.2 e.1
  · right
    push Not at hz
    obtain ⟨y, hy, hy0⟩ := hz
    obtain ⟨n1, n2⟩ := (hv y hy).resolve_left hy0
    have h3 := (nonnegIn_fused hA fused (.fin 0) (by rw [← Num.zero_eq]; exact zero_nonnegIn) v).2.2 y hy
    rw [h, round_pos_in hA (mul_self_nonneg y), ← pow_two] at h3
    split at h3
    · rw [Num.le_fin, decide_eq_true_eq] at h3
      refine le_trans ?_ h3
      have hε := eps_small (K := ℝ) (f := f)
      have he := fl_rel_normal (f := f) (x := y ^ 2) (by rwa [abs_of_nonneg (sq_nonneg y)])
      rw [abs_of_nonneg (sq_nonneg y), div_eq_mul_one_div] at he
      have := (abs_le.1 he).2
      have h5 : y ^ 2 * (1 / 2 ^ f.prec) ≤ y ^ 2 * (1 / 2) := mul_le_mul_of_nonneg_left (by linarith) (sq_nonneg y)
      rw [zpow_add_one₀ two_ne_zero] at n2
      linarith
    · rw [Num.le_inf_fin] at h3; cases h3

/-- C180.  l2norm with contraction, of a container of finite numbers of any floating-point type, is never NaN and never
negative. -/
theorem C180_norm_nonneg (hA : A.IsFormat f) (hS : A.sqrt = Real.sqrt) (hB : B.IsFormat g) (hT : B.sqrt = Real.sqrt)
    (own fused : Bool) (v : List ℝ) : NonNegIn g (l2normInContracted B own fused (v.map .fin : List (Num A))) := by
  have h := (nonnegIn_fused hA fused _ zero_nonnegIn v).1
  unfold l2normInContracted
  dsimp only
  split
  · exact nonnegIn_convert hB (nonnegIn_sqrt' hA hS h)
  · exact nonnegIn_sqrt' hB hT (nonnegIn_convert hB h)

/-- C180.  l2norm with contraction: the error has the same bound as without (C157). -/
theorem C180_norm_error (hA : A.IsFormat f) (hS : A.sqrt = Real.sqrt) (hB : B.IsFormat g) (hT : B.sqrt = Real.sqrt)
    (own fused : Bool) {p : Nat} (hpf : p ≤ f.prec) (hpg : p ≤ g.prec) (v : List ℝ)
    (hv : ∀ x ∈ v, x = 0 ∨ ((2 : ℝ) ^ (f.emin + (f.prec - 1)) ≤ x ^ 2 ∧ (2 : ℝ) ^ (g.emin + g.prec) ≤ x ^ 2)) (n : ℝ)
    (h : l2normInContracted B own fused (v.map .fin : List (Num A)) = .fin n) :
    (1 - 1 / 2 ^ p) ^ (v.length + 5) * (v.map (· ^ 2)).sum ≤ n ^ 2 ∧
    n ^ 2 ≤ (1 + 1 / 2 ^ p) ^ (v.length + 5) * (v.map (· ^ 2)).sum := by
  have hu1 : (1 : ℝ) / 2 ^ p ≤ 1 := by rw [div_le_one (by positivity)]; exact one_le_pow₀ one_le_two
  have hfu := two_pow_le hpf
  have hf0 := eps_pos (K := ℝ) (f := f)
  have hS0 : 0 ≤ (v.map (· ^ 2)).sum :=
    List.sum_nonneg (fun x hx => by obtain ⟨z, -, rfl⟩ := List.mem_map.1 hx; exact sq_nonneg z)
  have hnn := (nonnegIn_fused hA fused _ zero_nonnegIn v).1
  obtain ⟨d, hd⟩ : ∃ d, d = (v.map .fin).foldl (fun d (x : Num A) => mulAdd fused x x d) CxxFloat.zero := ⟨_, rfl⟩
  unfold l2normInContracted at h
  dsimp only at h
  rw [← hd] at hnn h
  rcases hnn with rfl | ⟨s, rfl, hs, hs0⟩
  · cases own <;> cases h
  rw [Num.zero_eq] at hd
  obtain ⟨e1, e2⟩ := either_error_in hA fused v (fun x hx => (hv x hx).imp_right And.left) s hd.symm
  obtain ⟨e1, e2⟩ := weaken_factor hf0.le hfu hu1 hS0 e1 e2
  have hnorm : s = 0 ∨ (2 : ℝ) ^ (g.emin + (g.prec - 1)) ≤ s := by
    refine fused_normal hA fused (N := g.emin + (g.prec - 1)) v (fun x hx => ?_) s hd.symm
    rw [show g.emin + ((g.prec : Int) - 1) + 1 = g.emin + g.prec by ring]
    exact hv x hx
  exact norm_of_sum hA hS hB hT own hpf hpg hs hs0 hS0 e1 e2 hnorm n h

/-- C180.  sum_squared<Container, T> with contraction, where the elements are values of T: never NaN and never negative, with
the error bound of C157; with contraction everywhere one factor less. -/
theorem C180_sum (hB : B.IsFormat g) (fused : Bool) (v : List ℝ) (hv : ∀ x ∈ v, FiniteIn g x) :
    NonNegIn g (sumSquaredToContracted B fused (v.map .fin : List (Num A))) ∧
    ∀ s, (∀ x ∈ v, x = 0 ∨ (2 : ℝ) ^ (g.emin + (g.prec - 1)) ≤ x ^ 2) →
      sumSquaredToContracted B fused (v.map .fin : List (Num A)) = .fin s →
      ((1 - 1 / 2 ^ g.prec) ^ (v.length + 1) * (v.map (· ^ 2)).sum ≤ s ∧
        s ≤ (1 + 1 / 2 ^ g.prec) ^ (v.length + 1) * (v.map (· ^ 2)).sum) ∧
      (fused = true → (1 - 1 / 2 ^ g.prec) ^ v.length * (v.map (· ^ 2)).sum ≤ s ∧
        s ≤ (1 + 1 / 2 ^ g.prec) ^ v.length * (v.map (· ^ 2)).sum) := by
  have key : sumSquaredToContracted B fused (v.map .fin : List (Num A)) =
      (v.map .fin).foldl (fun d (x : Num B) => mulAdd fused x x d) (.fin 0) := by
    unfold sumSquaredToContracted
    rw [ofInt_zero hB]
    generalize (Num.fin 0 : Num B) = d
    induction v generalizing d with
    | nil => rfl
    | cons y ys ih =>
      have : (Num.fin y : Num A).convert B = .fin y := Num.round_of (rnd_finite hB (hv y (by simp)))
      rw [List.map_cons, List.map_cons, List.foldl_cons, List.foldl_cons, this, ih (fun x hx => hv x (by simp [hx]))]
  rw [key]
  refine ⟨(nonnegIn_fused hB fused _ (by rw [← Num.zero_eq]; exact zero_nonnegIn) v).1, fun s h hs => ?_⟩
  refine ⟨either_error_in hB fused v h s hs, ?_⟩
  rintro rfl
  have := fused_error_in hB 0 zero_value le_rfl v h s hs
  rwa [zero_add] at this

/-- C180.  For whole numbers whose squares are at most 2^p contraction changes neither the sum of squares nor the norm. -/
theorem C180_integers (hA : A.IsFormat f) (own fused : Bool) (ns : List Int) (h : ∀ n ∈ ns, n ^ 2 ≤ 2 ^ f.prec) :
    l2normInContracted B own fused (ns.map (fun n : Int => (.fin (n : ℝ) : Num A))) =
      l2normIn B own (ns.map (fun n : Int => (.fin (n : ℝ) : Num A))) ∧
    sumSquaredToContracted A fused (ns.map (fun n : Int => (.fin (n : ℝ) : Num A))) =
      sumSquaredTo A (ns.map (fun n : Int => (.fin (n : ℝ) : Num A))) := by
  have ex : ∀ n ∈ ns, ∀ z : Num A, mulAdd fused (.fin (n : ℝ)) (.fin (n : ℝ)) z = z + squareF (.fin (n : ℝ)) := by
    intro n hn z
    refine C146_exact ?_ fused z
    rw [← Int.cast_mul]
    exact rnd_finite hA (int_finite (by rw [← pow_two, abs_of_nonneg (sq_nonneg n)]; exact h n hn))
  have cv : ∀ n ∈ ns, (Num.fin (n : ℝ) : Num A).convert A = .fin (n : ℝ) := by
    intro n hn
    refine Num.round_of (rnd_finite hA (int_finite ?_))
    have := h n hn
    have h1 : |n| ≤ n ^ 2 := by
      rw [← sq_abs n]
      rcases (abs_nonneg n).eq_or_lt with h0 | h0
      · rw [← h0]; simp
      · nlinarith
    exact h1.trans this
  constructor
  · unfold l2normInContracted l2normIn
    have : ∀ (d : Num A), (ns.map (fun n : Int => (.fin (n : ℝ) : Num A))).foldl (fun d x => mulAdd fused x x d) d =
        (ns.map (fun n : Int => (.fin (n : ℝ) : Num A))).foldl (fun d x => d + squareF x) d := by
      clear cv
      induction ns with
      | nil => exact fun d => rfl
      | cons n ns ih =>
        intro d
        rw [List.map_cons, List.foldl_cons, List.foldl_cons, ex n (by simp),
          ih (fun m hm => h m (by simp [hm])) (fun m hm => ex m (by simp [hm]))]
    rw [this]
  · unfold sumSquaredToContracted sumSquaredTo
    generalize (CxxFloat.ofInt 0 : Num A) = d
    induction ns generalizing d with
    | nil => rfl
    | cons n ns ih =>
      rw [List.map_cons, List.foldl_cons, List.foldl_cons, cv n (by simp), ex n (by simp),
        ih (fun m hm => h m (by simp [hm])) (fun m hm => ex m (by simp [hm])) (fun m hm => cv m (by simp [hm]))]

/-- C180.  Without contraction these are the functions of C157. -/
theorem C180_same (own : Bool) (v : List (Num A)) :
    l2normInContracted B own false v = l2normIn B own v ∧ sumSquaredToContracted B false v = sumSquaredTo B v :=
  ⟨rfl, rfl⟩

/-- C180.  In every format, with and without contraction, lerp of the negatives of the ends is the negative, and the signs of
the elements do not matter for l2norm. -/
theorem C180_negated (hA : A.IsFormat f) (c : Fused) (own fused : Bool) (a b t : Num A) (v w : List (Num A))
    (h : List.Forall₂ (fun x y => y = x ∨ y = -x) v w) :
    lerpContracted c (-a) (-b) t = -lerpContracted c a b t ∧
    l2normInContracted B own fused w = l2normInContracted B own fused v := by
  refine ⟨C178_lerp (isOdd_format hA) c a b t, ?_⟩
  have : ∀ d : Num A, w.foldl (fun d x => mulAdd fused x x d) d = v.foldl (fun d x => mulAdd fused x x d) d := by
    intro d
    induction h generalizing d with
    | nil => rfl
    | cons h _ ih =>
      rw [List.foldl_cons, List.foldl_cons]
      rcases h with rfl | rfl
      · exact ih _
      · rw [mulAdd_neg_neg (isOdd_format hA)]; exact ih _
  unfold l2normInContracted
  rw [this]

/-! ## Random draws -/

/-- Fusing a product with 0 changes nothing. -/
theorem mulAdd_to_zero_in (hA : A.IsFormat f) (fused : Bool) (x y : Num A) : mulAdd fused x y (.fin 0) = .fin 0 + x * y := by
  cases fused with
  | false => rfl
  | true =>
    cases x with
    | fin x =>
      cases y with
      | fin y =>
        change Num.round A (x * y + 0) = .fin 0 + (.fin x * .fin y)
        rw [add_zero, Num.fin_mul]
        cases h : Num.round A (x * y) with
        | fin z =>
          have hz := (fl_eq_some hA (Num.round_eq_fin h)).2
          rw [Num.fin_add, zero_add, Num.round_of (rnd_finite hA hz)]
        | nan => rfl
        | inf n => rfl
      | nan => exact (C146_special _ _ _ true).1 (fun a b _ h => by cases h)
      | inf n => exact (C146_special _ _ _ true).1 (fun a b _ h => by cases h)
    | nan => exact (C146_special _ y _ true).1 (fun a b h => by cases h)
    | inf n => exact (C146_special _ y _ true).1 (fun a b h => by cases h)

/-- The numbers of the engine are multiplied by powers of two, which is exact. -/
theorem canonicalLoop_contracted (hA : A.IsFormat f) (fused : Bool) {w k : Nat} (hk : ((w * k : Nat) : Int) < f.emax) (xs : List Nat)
    (hb : ∀ y ∈ xs, y < 2 ^ w) : ∀ (S : Num A) (i : Nat), i + xs.length ≤ k →
    canonicalLoopContracted fused (2 ^ w) xs S (.fin (2 ^ (w * i))) = canonicalLoop (2 ^ w) xs S (.fin (2 ^ (w * i))) := by
  induction xs with
  | nil => intro S i _; rfl
  | cons x xs ih =>
    intro S i hl
    rw [List.length_cons] at hl
    have hx := hb x List.mem_cons_self
    have hik : w * (i + 1) ≤ w * k := Nat.mul_le_mul_left _ (by omega)
    have hi' : ((w * (i + 1) : Nat) : Int) < f.emax := lt_of_le_of_lt (by exact_mod_cast hik) hk
    have hw' : ((w : Nat) : Int) < f.emax := by
      refine lt_of_le_of_lt ?_ hi'
      have : w ≤ w * (i + 1) := Nat.le_mul_of_pos_right _ (by omega)
      exact_mod_cast this
    obtain ⟨h0, h1⟩ := fl_nat_bounds (f := f) hx
    have hxr : (CxxFloat.ofNat x : Num A) = .fin (f.rn (x : ℝ)) := by
      rw [Num.ofNat_eq]
      exact round_pow hA hw' (Nat.cast_nonneg x) (by exact_mod_cast hx.le)
    have hprod : Num.round A (f.rn (x : ℝ) * 2 ^ (w * i)) = .fin (f.rn (x : ℝ) * 2 ^ (w * i)) := by
      refine round_value hA hi' ?_ (by positivity) ?_
      · obtain ⟨m, e, m1, m2, m3⟩ := fl_inFormat (f := f) (x : ℝ)
        refine ⟨m, e + (w * i : Nat), m1, by omega, ?_⟩
        rw [m3, zpow_add₀ two_ne_zero, zpow_natCast, mul_assoc]
      · rw [Nat.mul_succ, pow_add, mul_comm]
        exact mul_le_mul_of_nonneg_left h1 (by positivity)
    have htmp : (.fin (2 ^ (w * i)) * CxxFloat.lit (2 ^ w) : Num A) = .fin (2 ^ (w * (i + 1))) := by
      rw [lit_pow_in hA hw', Num.fin_mul, ← pow_add, ← Nat.mul_succ]
      exact round_value hA hi' (pow_value _) (by positivity) le_rfl
    rw [canonicalLoopContracted, canonicalLoop, hxr, C146_exact (Num.round_eq_fin hprod), htmp]
    exact ih (fun z hz => hb z (List.mem_cons_of_mem _ hz)) _ (i + 1) (by omega)

/-- C180.  Whatever is fused, a number drawn from [0, b) is the same, in every format, for every number that the engine returns
and every `b`. -/
theorem C180_draw (hA : A.IsFormat f) (hf : Roomy f) (loop last : Bool) {w : Nat} {xs : List Nat} (hx : Drawn f w xs) (b : Num A) :
    drawInContracted loop last f.prec w xs (.fin 0) b = drawIn f.prec w xs (.fin 0) b := by
  obtain ⟨_, _, b3⟩ := bits_bounds hf hx.pos hx.le
  have key : (canonicalInContracted loop f.prec w xs : Num A) = canonicalIn f.prec w xs := by
    have := canonicalLoop_contracted hA loop b3 xs hx.range (CxxFloat.zero : Num A) 0 (by rw [hx.count]; omega)
    rw [mul_zero, pow_zero, ← lit_one_in hA] at this
    unfold canonicalInContracted canonicalIn
    rw [this]
  unfold drawInContracted drawIn
  rw [key, mulAdd_to_zero_in hA]
  exact num_add_comm _ _

/-- C180.  So are `choose_between` and `choose_between_psums`, for all weights, and `choose_with_probability`: what C156, C161
and others say of them holds with contraction, too. -/
theorem C180_choice (hA : A.IsFormat f) (hf : Roomy f) (loop last : Bool) {w : Nat} {xs : List Nat} (hx : Drawn f w xs)
    (ws : List (Num A)) (p : Num A) :
    chooseBetween ws (drawInContracted loop last f.prec w xs) = chooseBetween ws (drawIn f.prec w xs) ∧
    chooseBetweenPsums ws (drawInContracted loop last f.prec w xs) = chooseBetweenPsums ws (drawIn f.prec w xs) ∧
    chooseWithProbability p (drawInContracted loop last f.prec w xs) = chooseWithProbability p (drawIn f.prec w xs) := by
  have h := fun b => C180_draw hA hf loop last hx b
  unfold chooseBetween chooseBetweenPsums chooseWithProbability
  simp only [Num.zero_eq, h, and_self]

/-- The hypotheses of the bounds are met: `float` from 0 to 1 in 1000 steps, and the elements 3/2, 0 and -1/4. -/
example : (0 : Nat) < 1000 ∧ (1000 : Nat) ≤ 2 ^ FloatFormat.float.prec ∧
    (2 : ℝ) ^ (FloatFormat.float.emin + FloatFormat.float.prec) ≤ (1 - 0) / (1000 : Nat) ∧
    ∀ x ∈ ([3 / 2, 0, -1 / 4] : List ℝ),
      x = 0 ∨ (2 : ℝ) ^ (FloatFormat.float.emin + ((FloatFormat.float.prec : Int) - 1)) ≤ x ^ 2 := by
  refine ⟨by norm_num, by norm_num [FloatFormat.float], by norm_num [FloatFormat.float], fun x hx => ?_⟩
  simp only [List.mem_cons, List.not_mem_nil, or_false] at hx
  rcases hx with rfl | rfl | rfl
  · right; norm_num [FloatFormat.float]
  · left; rfl
  · right; norm_num [FloatFormat.float]

end

end Bwsl
