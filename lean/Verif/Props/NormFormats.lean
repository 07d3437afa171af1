import Verif.Model.NormFloat
import Verif.Props.Norm
import Verif.Props.Small
import Verif.Props.FloatContainers
import Verif.Props.LogSpaceFormats

/-! Property C157: squares, cubes and norms of `float`, `double` and `long double`. -/

namespace Bwsl
open Spec FloatFormat

section
variable {A : Arith ℝ} {f : FloatFormat}

/-! ### Squares and cubes -/

/-- Rounding of nonnegative values. -/
theorem round_pos_in (hA : A.IsFormat f) {x : ℝ} (hx : 0 ≤ x) :
    Num.round A x = if f.rn x < (2 : ℝ) ^ f.emax then .fin (f.rn x) else .inf false := by
  have h0 : 0 ≤ f.rn x := fl_nonneg hx
  unfold Num.round
  rw [hA, FloatFormat.rnd, abs_of_nonneg h0]
  by_cases h : f.rn x < (2 : ℝ) ^ f.emax
  · rw [if_pos h, if_pos h]
  · rw [if_neg h, if_neg h, decide_eq_false (not_lt.2 hx)]

/-- A nonnegative value of the format, or +∞. -/
def Spec.NonNegIn (f : FloatFormat) (d : Num A) : Prop := d = .inf false ∨ ∃ r, d = .fin r ∧ FiniteIn f r ∧ 0 ≤ r

theorem nonnegIn_round (hA : A.IsFormat f) {x : ℝ} (hx : 0 ≤ x) : NonNegIn f (Num.round A x) := by
  rw [round_pos_in hA hx]
  split
  · next h => exact .inr ⟨_, rfl, ⟨fl_inFormat _, by rwa [abs_of_nonneg (fl_nonneg hx)]⟩, fl_nonneg hx⟩
  · exact .inl rfl

/-- C157.  square of a finite number is the rounded square: never negative and never NaN, the same for x and -x, and within
2^-p of the square where that is a normal number. -/
theorem C157_square (hA : A.IsFormat f) (x : ℝ) :
    NonNegIn f (squareF (.fin x : Num A)) ∧ squareF (.fin (-x) : Num A) = squareF (.fin x) ∧
    ∀ y, squareF (.fin x : Num A) = .fin y → y = f.rn (x ^ 2) ∧
      ((2 : ℝ) ^ (f.emin + (f.prec - 1)) ≤ x ^ 2 → |y - x ^ 2| ≤ x ^ 2 / 2 ^ f.prec) := by
  unfold squareF
  rw [Num.fin_mul, Num.fin_mul, neg_mul_neg]
  refine ⟨nonnegIn_round hA (mul_self_nonneg x), rfl, fun y hy => ?_⟩
  rw [round_pos_in hA (mul_self_nonneg x)] at hy
  split at hy
  · cases hy
    rw [← pow_two]
    refine ⟨rfl, fun h => ?_⟩
    rw [abs_sub_comm]
    have := fl_rel_normal (f := f) (x := x ^ 2) (by rwa [abs_of_nonneg (sq_nonneg x)])
    rwa [abs_of_nonneg (sq_nonneg x)] at this
  · cases hy

theorem round_neg_in (hA : A.IsFormat f) (x : ℝ) : Num.round A (-x) = -Num.round A x := by
  unfold Num.round
  rw [hA, hA]
  simp only [FloatFormat.rnd, fl_neg, abs_neg]
  by_cases h : |f.rn x| < (2 : ℝ) ^ f.emax
  · rw [if_pos h, if_pos h]; rfl
  · rw [if_neg h, if_neg h]
    have hx : x ≠ 0 := by
      rintro rfl
      rw [fl_zero, abs_zero] at h
      exact h (two_zpow_pos _)
    show Num.inf _ = Num.inf _
    congr 1
    rcases lt_or_gt_of_ne hx with hn | hp
    · simp [hn, hn.le]
    · simp [hp, hp.le]

/-- C157.  In every format squares are even and cubes odd functions, rounding, overflow and NaN included. -/
theorem C157_parity (hA : A.IsFormat f) (x : Num A) : squareF (-x) = squareF x ∧ cubeF (-x) = -cubeF x := by
  refine ⟨neg_mul_self_num x, ?_⟩
  unfold cubeF
  rw [neg_mul_self_num]
  cases x with
  | nan => rfl
  | inf n => cases n <;> rfl
  | fin a =>
    rw [Num.fin_mul, round_pos_in hA (mul_self_nonneg a)]
    split
    · show Num.round A (_ * -a) = -Num.round A (_ * a)
      rw [mul_neg, round_neg_in hA]
    · show (if -a = 0 then (Num.nan : Num A) else .inf (false != decide (-a < 0))) =
        Num.neg (if a = 0 then (Num.nan : Num A) else .inf (false != decide (a < 0)))
      by_cases ha : a = 0
      · simp [ha, Num.neg]
      · rw [if_neg ha, if_neg (neg_ne_zero.2 ha)]
        show Num.inf _ = Num.inf _
        congr 1
        rcases lt_or_gt_of_ne ha with hn | hp
        · simp [hn, not_lt.2 hn.le]
        · simp [hp, not_lt.2 hp.le]

/-- C157.  cube is within (2u+u^2)|x|^3, u = 2^-p, of the
cube where the square and the cube are normal numbers. -/
theorem C157_cube (hA : A.IsFormat f) (x y : ℝ) (h2 : (2 : ℝ) ^ (f.emin + (f.prec - 1)) ≤ x ^ 2)
    (h3 : (2 : ℝ) ^ (f.emin + f.prec) ≤ |x| ^ 3) (hy : cubeF (.fin x : Num A) = .fin y) :
    |y - x ^ 3| ≤ (2 * (1 / 2 ^ f.prec) + (1 / 2 ^ f.prec) ^ 2) * |x| ^ 3 := by
  have hε := eps_small (K := ℝ) (f := f)
  have hε0 := eps_pos (K := ℝ) (f := f)
  unfold cubeF at hy
  rw [Num.fin_mul, round_pos_in hA (mul_self_nonneg x), ← pow_two] at hy
  have hq := fl_rel_normal (f := f) (x := x ^ 2) (by rwa [abs_of_nonneg (sq_nonneg x)])
  rw [abs_of_nonneg (sq_nonneg x), div_eq_mul_one_div] at hq
  have hx0 : x ≠ 0 := by
    rintro rfl
    rw [zero_pow two_ne_zero] at h2
    exact absurd h2 (not_le.2 (two_zpow_pos _))
  have hxp : 0 < |x| := abs_pos.2 hx0
  split at hy
  · rw [Num.fin_mul] at hy
    obtain ⟨hr, _⟩ : y = f.rn (f.rn (x ^ 2) * x) ∧ True := by
      have h := Num.round_eq_fin hy
      rw [hA, FloatFormat.rnd] at h
      split at h
      · cases h; exact ⟨rfl, trivial⟩
      · cases h
    obtain ⟨q, hqd⟩ : ∃ q, q = f.rn (x ^ 2) := ⟨_, rfl⟩
    rw [← hqd] at hq hr
    have e1 : |q * x - x ^ 3| ≤ 1 / 2 ^ f.prec * |x| ^ 3 := by
      rw [show q * x - x ^ 3 = (q - x ^ 2) * x by ring, abs_mul, abs_sub_comm]
      calc |x ^ 2 - q| * |x| ≤ x ^ 2 * (1 / 2 ^ f.prec) * |x| := mul_le_mul_of_nonneg_right hq (abs_nonneg x)
        _ = 1 / 2 ^ f.prec * |x| ^ 3 := by rw [← sq_abs]; ring
    have hc : |x ^ 3| = |x| ^ 3 := abs_pow x 3
    have e2 : |q * x| ≤ (1 + 1 / 2 ^ f.prec) * |x| ^ 3 := by
      have := abs_sub_abs_le_abs_sub (q * x) (x ^ 3)
      rw [hc] at this; linarith
    have e3 : (1 - 1 / 2 ^ f.prec) * |x| ^ 3 ≤ |q * x| := by
      have := abs_sub_abs_le_abs_sub (x ^ 3) (q * x)
      rw [hc, abs_sub_comm] at this; linarith
    have hn : (2 : ℝ) ^ (f.emin + (f.prec - 1)) ≤ |q * x| := by
      refine le_trans ?_ e3
      rw [show f.emin + (f.prec : Int) = (f.emin + (f.prec - 1)) + 1 by ring, zpow_add_one₀ two_ne_zero] at h3
      have hz := two_zpow_pos (K := ℝ) (f.emin + (f.prec - 1))
      have : (1 / 2 : ℝ) * |x| ^ 3 ≤ (1 - 1 / 2 ^ f.prec) * |x| ^ 3 := mul_le_mul_of_nonneg_right (by linarith) (by positivity)
      linarith
    have e4 := fl_rel_normal (f := f) hn
    rw [← hr, div_eq_mul_one_div, abs_sub_comm] at e4
    have e5 : |q * x| * (1 / 2 ^ f.prec) ≤ (1 + 1 / 2 ^ f.prec) * |x| ^ 3 * (1 / 2 ^ f.prec) :=
      mul_le_mul_of_nonneg_right e2 hε0.le
    have e6 := abs_sub_le y (q * x) (x ^ 3)
    calc |y - x ^ 3| ≤ (1 + 1 / 2 ^ f.prec) * |x| ^ 3 * (1 / 2 ^ f.prec) + 1 / 2 ^ f.prec * |x| ^ 3 := by linarith
      _ = _ := by ring
  · have hs : (.inf false * .fin x : Num A) = .inf (decide (x < 0)) := by
      refine (if_neg hx0).trans ?_
      simp
    rw [hs] at hy
    cases hy

/-- C157.  square and cube of whole numbers are exact up to 2^p. -/
theorem C157_integers (hA : A.IsFormat f) (n : Int) :
    (n ^ 2 ≤ 2 ^ f.prec → squareF (.fin (n : ℝ) : Num A) = .fin ((n ^ 2 : Int) : ℝ)) ∧
    (|n| ^ 3 ≤ 2 ^ f.prec → cubeF (.fin (n : ℝ) : Num A) = .fin ((n ^ 3 : Int) : ℝ)) := by
  have sq : n ^ 2 ≤ 2 ^ f.prec → (.fin (n : ℝ) * .fin (n : ℝ) : Num A) = .fin ((n ^ 2 : Int) : ℝ) := by
    intro h
    rw [Num.fin_mul, ← Int.cast_mul, ← pow_two,
      Num.round_of (rnd_finite hA (int_finite (by rw [abs_of_nonneg (sq_nonneg n)]; exact h)))]
  refine ⟨sq, fun h => ?_⟩
  have h2 : n ^ 2 ≤ |n| ^ 3 := by
    rw [← sq_abs n]
    rcases (abs_nonneg n).eq_or_lt with h0 | h0
    · rw [← h0]; simp
    · exact pow_le_pow_right₀ (by omega) (by norm_num)
  unfold cubeF
  rw [sq (h2.trans h), Num.fin_mul, ← Int.cast_mul, ← pow_succ,
    Num.round_of (rnd_finite hA (int_finite (by rw [abs_pow]; exact h)))]

/-! ### Sums of squares -/

theorem nonnegIn_add_le (hA : A.IsFormat f) {d e : Num A} (hd : NonNegIn f d) (he : NonNegIn f e) :
    NonNegIn f (d + e) ∧ CxxFloat.le d (d + e) = true ∧ CxxFloat.le e (d + e) = true := by
  rcases hd with rfl | ⟨r, rfl, hr, hr0⟩
  · have : (.inf false + e : Num A) = .inf false := by
      rcases he with rfl | ⟨q, rfl, -, -⟩
      · rfl
      · rfl
    rw [this]
    refine ⟨.inl rfl, by rw [Num.le_inf_inf]; rfl, ?_⟩
    rcases he with rfl | ⟨q, rfl, -, -⟩
    · rw [Num.le_inf_inf]; rfl
    · rw [Num.le_fin_inf]; rfl
  · rcases he with rfl | ⟨q, rfl, hq, hq0⟩
    · have : (.fin r + .inf false : Num A) = .inf false := rfl
      rw [this]
      exact ⟨.inl rfl, by rw [Num.le_fin_inf]; rfl, by rw [Num.le_inf_inf]; rfl⟩
    · rw [Num.fin_add]
      refine ⟨nonnegIn_round hA (by positivity), ?_⟩
      rw [round_pos_in hA (by positivity)]
      split
      · rw [Num.le_fin, Num.le_fin]
        constructor
        · have := fl_mono (f := f) (show r ≤ r + q by linarith)
          rw [fl_value hr.1] at this
          exact decide_eq_true this
        · have := fl_mono (f := f) (show q ≤ r + q by linarith)
          rw [fl_value hq.1] at this
          exact decide_eq_true this
      · exact ⟨by rw [Num.le_fin_inf]; rfl, by rw [Num.le_fin_inf]; rfl⟩

theorem nonnegIn_squares (hA : A.IsFormat f) (d : Num A) (hd : NonNegIn f d) (v : List ℝ) :
    NonNegIn f ((v.map .fin).foldl (fun d (x : Num A) => d + squareF x) d) ∧
    CxxFloat.le d ((v.map .fin).foldl (fun d (x : Num A) => d + squareF x) d) = true ∧
    ∀ x ∈ v, CxxFloat.le (Num.round A (x * x)) ((v.map .fin).foldl (fun d (x : Num A) => d + squareF x) d) = true := by
  induction v generalizing d with
  | nil =>
    refine ⟨hd, ?_, by simp⟩
    rcases hd with rfl | ⟨r, rfl, -, -⟩
    · rw [List.map_nil, List.foldl_nil, Num.le_inf_inf]; rfl
    · rw [List.map_nil, List.foldl_nil, Num.le_fin]; exact decide_eq_true le_rfl
  | cons y ys ih =>
    rw [List.map_cons, List.foldl_cons, squareF, Num.fin_mul]
    obtain ⟨h1, h2, h3⟩ := nonnegIn_add_le hA hd (nonnegIn_round hA (mul_self_nonneg y))
    obtain ⟨i1, i2, i3⟩ := ih _ h1
    refine ⟨i1, Num.le_trans' h2 i2, fun x hx => ?_⟩
    rcases List.mem_cons.1 hx with rfl | hx
    · exact Num.le_trans' h3 i2
    · exact i3 x hx

theorem zero_nonnegIn : NonNegIn f (CxxFloat.zero : Num A) := by
  rw [Num.zero_eq]
  exact .inr ⟨0, rfl, ⟨zero_value, by rw [abs_zero]; exact two_zpow_pos _⟩, le_rfl⟩

theorem squares_inf (hA : A.IsFormat f) (w : List ℝ) :
    (w.map .fin).foldl (fun d (x : Num A) => d + squareF x) (.inf false) = .inf false := by
  have := (nonnegIn_squares hA (.inf false : Num A) (.inl rfl) w).2.1
  rcases (nonnegIn_squares hA (.inf false : Num A) (.inl rfl) w).1 with h | ⟨t, h, -, -⟩
  · exact h
  · rw [h, Num.le_inf_fin] at this; cases this

/-- The accumulated error of the sum of squares: u = 2^-p per operation. -/
theorem squares_error_in (hA : A.IsFormat f) (r : ℝ) (hr : InFormat f r) (h0 : 0 ≤ r) (v : List ℝ)
    (hv : ∀ x ∈ v, x = 0 ∨ (2 : ℝ) ^ (f.emin + (f.prec - 1)) ≤ x ^ 2) (s : ℝ)
    (h : (v.map .fin).foldl (fun d (x : Num A) => d + squareF x) (.fin r) = .fin s) :
    (1 - 1 / 2 ^ f.prec) ^ v.length * (r + (1 - 1 / 2 ^ f.prec) * (v.map (· ^ 2)).sum) ≤ s ∧
    s ≤ (1 + 1 / 2 ^ f.prec) ^ v.length * (r + (1 + 1 / 2 ^ f.prec) * (v.map (· ^ 2)).sum) := by
  have hε := eps_small (K := ℝ) (f := f)
  have hε0 := eps_pos (K := ℝ) (f := f)
  induction v generalizing r with
  | nil =>
    rw [List.map_nil, List.foldl_nil] at h
    cases h
    simp
  | cons y ys ih =>
    rw [List.map_cons, List.foldl_cons, squareF, Num.fin_mul, ← pow_two] at h
    have hn : 0 ≤ f.rn (y ^ 2) := fl_nonneg (sq_nonneg y)
    have hq : |y ^ 2 - f.rn (y ^ 2)| ≤ y ^ 2 / 2 ^ f.prec := by
      rcases hv y (by simp) with h' | h'
      · rw [h', zero_pow two_ne_zero, fl_zero]; simp
      · have := fl_rel_normal (f := f) (x := y ^ 2) (by rwa [abs_of_nonneg (sq_nonneg y)])
        rwa [abs_of_nonneg (sq_nonneg y)] at this
    rw [round_pos_in hA (sq_nonneg y)] at h
    split at h
    · rw [Num.fin_add, round_pos_in hA (by positivity)] at h
      split at h
      · have hsum := fl_rel (f := f) (x := r + f.rn (y ^ 2)) ((value_mult hr).add (value_mult (fl_inFormat _)))
        rw [abs_of_nonneg (by positivity : 0 ≤ r + f.rn (y ^ 2))] at hsum
        obtain ⟨i1, i2⟩ := ih (f.rn (r + f.rn (y ^ 2))) (fl_inFormat _) (fl_nonneg (by positivity))
          (fun x hx => hv x (List.mem_cons_of_mem _ hx)) h
        have hS : 0 ≤ (ys.map (· ^ 2)).sum :=
          List.sum_nonneg (fun x hx => by obtain ⟨z, -, rfl⟩ := List.mem_map.1 hx; exact sq_nonneg z)
        rw [abs_le] at hsum hq
        rw [List.map_cons, List.sum_cons, List.length_cons]
        rw [div_eq_mul_one_div] at hsum hq
        generalize (ys.map (· ^ 2)).sum = S at *
        generalize f.rn (y ^ 2) = q at *
        generalize f.rn (r + q) = t at *
        generalize y ^ 2 = z at *
        generalize (1 : ℝ) / 2 ^ f.prec = u at *
        have e := error_step (u := u) (r := r) (q := q) (z := z) (S := S) (t := t) hε0.le (by linarith) hS
          (by linarith [hq.2]) (by linarith [hq.1]) (by linarith [hsum.2]) (by linarith [hsum.1])
        rw [pow_succ (1 - u), pow_succ (1 + u), mul_assoc, mul_assoc ((1 + u) ^ _)]
        exact ⟨le_trans (mul_le_mul_of_nonneg_left e.1 (pow_nonneg (by linarith) _)) i1,
          le_trans i2 (mul_le_mul_of_nonneg_left e.2 (pow_nonneg (by linarith) _))⟩
      · rw [squares_inf hA] at h; cases h
    · have : (.fin r + .inf false : Num A) = .inf false := rfl
      rw [this, squares_inf hA] at h; cases h

theorem sumSquared_zero (hA : A.IsFormat f) (v : List (Num A)) :
    sumSquared v = v.foldl (fun d x => d + squareF x) CxxFloat.zero := by
  unfold sumSquared
  rw [ofInt_zero hA, Num.zero_eq]

/-- C157.  sum_squared of finite numbers is never negative and never NaN, and unless it overflows it is within a factor
(1+-2^-p)^(n+1) of the sum of the n squares, each of which is zero or a normal number. -/
theorem C157_sum (hA : A.IsFormat f) (v : List ℝ) :
    NonNegIn f (sumSquared (v.map .fin : List (Num A))) ∧
    ∀ s, (∀ x ∈ v, x = 0 ∨ (2 : ℝ) ^ (f.emin + (f.prec - 1)) ≤ x ^ 2) → sumSquared (v.map .fin : List (Num A)) = .fin s →
      (1 - 1 / 2 ^ f.prec) ^ (v.length + 1) * (v.map (· ^ 2)).sum ≤ s ∧
      s ≤ (1 + 1 / 2 ^ f.prec) ^ (v.length + 1) * (v.map (· ^ 2)).sum := by
  rw [sumSquared_zero hA]
  refine ⟨(nonnegIn_squares hA _ zero_nonnegIn v).1, fun s hv hs => ?_⟩
  have := squares_error_in hA 0 zero_value le_rfl v hv s (by rw [← hs, Num.zero_eq])
  rwa [zero_add, zero_add, ← mul_assoc, ← mul_assoc, ← pow_succ, ← pow_succ] at this

theorem int_squares_fold (hA : A.IsFormat f) (ns : List Int) (s : Int) (h0 : 0 ≤ s)
    (h : s + (ns.map (· ^ 2)).sum ≤ 2 ^ f.prec) :
    (ns.map (fun n : Int => (.fin (n : ℝ) : Num A))).foldl (fun d x => d + squareF x) (.fin (s : ℝ)) =
      .fin ((s + (ns.map (· ^ 2)).sum : Int) : ℝ) := by
  induction ns generalizing s with
  | nil => simp
  | cons n ns ih =>
    rw [List.map_cons, List.sum_cons] at h
    have hrest : 0 ≤ (ns.map (· ^ 2)).sum :=
      List.sum_nonneg (fun x hx => by obtain ⟨z, -, rfl⟩ := List.mem_map.1 hx; exact sq_nonneg z)
    have hn := sq_nonneg n
    rw [List.map_cons, List.foldl_cons, (C157_integers hA n).1 (by linarith), Num.fin_add, ← Int.cast_add,
      Num.round_of (rnd_finite hA (int_finite (by rw [abs_of_nonneg (by positivity)]; linarith))),
      ih (s + n ^ 2) (by positivity) (by linarith), List.map_cons, List.sum_cons, add_assoc]

/-- C157.  sum_squared of whole numbers is exact while the sum of squares is at most 2^p. -/
theorem C157_sum_integers (hA : A.IsFormat f) (ns : List Int) (h : (ns.map (· ^ 2)).sum ≤ 2 ^ f.prec) :
    sumSquared (ns.map (fun n : Int => (.fin (n : ℝ) : Num A))) = .fin (((ns.map (· ^ 2)).sum : Int) : ℝ) := by
  rw [sumSquared_zero hA, Num.zero_eq]
  have := int_squares_fold hA ns 0 le_rfl (by simpa using h)
  simpa only [Int.cast_zero, zero_add] using this

/-- C157.  sum_squared<Container, T> is sum_squared of the elements converted to T; a conversion changes nothing for elements
that are values of T, such as those of a container of `float` for T = `double`. -/
theorem C157_sum_converted {B : Arith ℝ} {g : FloatFormat} (hB : B.IsFormat g) (v : List (Num A)) :
    sumSquaredTo B v = sumSquared (v.map (Num.convert B)) ∧
    ∀ w : List ℝ, (∀ x ∈ w, FiniteIn g x) → sumSquaredTo B (w.map .fin : List (Num A)) = sumSquared (w.map .fin) := by
  have key : ∀ v : List (Num A), sumSquaredTo B v = sumSquared (v.map (Num.convert B)) := by
    intro v
    unfold sumSquaredTo sumSquared
    rw [List.foldl_map]
  refine ⟨key v, fun w hw => ?_⟩
  rw [key, List.map_map]
  congr 1
  refine List.map_congr_left fun x hx => ?_
  exact Num.round_of (rnd_finite hB (hw x hx))

/-- Every value of `float` is one of `double`, and every value of `double` is one of `long double`. -/
theorem value_wider {g : FloatFormat} (hp : f.prec ≤ g.prec) (he : g.emin ≤ f.emin) (hE : f.emax ≤ g.emax) {x : ℝ}
    (h : FiniteIn f x) : FiniteIn g x := by
  obtain ⟨⟨m, e, h1, h2, h3⟩, h4⟩ := h
  exact ⟨⟨m, e, h1.trans (pow_le_pow_right₀ (by norm_num) hp), by omega, h3⟩, h4.trans_le (zpow_le_zpow_right₀ one_le_two hE)⟩

/-! ### Norms -/

theorem nonnegIn_sqrt (hA : A.IsFormat f) (hS : A.sqrt = Real.sqrt) {d : Num A} (hd : ∀ r, d = .fin r → 0 ≤ r)
    (hd' : d = .inf false ∨ ∃ r, d = .fin r) : NonNegIn f (CxxFloat.sqrt d) := by
  rcases hd' with rfl | ⟨r, rfl⟩
  · exact .inl rfl
  · rw [Num.sqrt_fin (hd r rfl), hS]
    exact nonnegIn_round hA (Real.sqrt_nonneg _)

theorem nonnegIn_convert {B : Arith ℝ} {g : FloatFormat} (hB : B.IsFormat g) {d : Num A} (hd : NonNegIn f d) :
    NonNegIn g (d.convert B) := by
  rcases hd with rfl | ⟨r, rfl, -, h0⟩
  · exact .inl rfl
  · exact nonnegIn_round hB h0

variable {B : Arith ℝ} {g : FloatFormat}

theorem nonnegIn_sqrt' (hA : A.IsFormat f) (hS : A.sqrt = Real.sqrt) {d : Num A} (hd : NonNegIn f d) :
    NonNegIn f (CxxFloat.sqrt d) := by
  refine nonnegIn_sqrt hA hS (fun r hr => ?_) ?_
  · rcases hd with h | ⟨q, h, -, h0⟩
    · rw [h] at hr; cases hr
    · rw [h] at hr; cases hr; exact h0
  · rcases hd with h | ⟨q, h, -, -⟩
    · exact .inl h
    · exact .inr ⟨q, h⟩

/-- C157.  l2norm of a container of finite numbers of any floating-point type is never NaN and never negative. -/
theorem C157_nonneg (hA : A.IsFormat f) (hS : A.sqrt = Real.sqrt) (hB : B.IsFormat g) (hT : B.sqrt = Real.sqrt) (own : Bool)
    (v : List ℝ) : NonNegIn g (l2normIn B own (v.map .fin : List (Num A))) := by
  have h := (nonnegIn_squares hA _ zero_nonnegIn v).1
  unfold l2normIn
  dsimp only
  split
  · exact nonnegIn_convert hB (nonnegIn_sqrt' hA hS h)
  · exact nonnegIn_sqrt' hB hT (nonnegIn_convert hB h)

/-- For a container of `double` it is the function of C99. -/
theorem C157_double (hA : A.IsFormat f) (hS : A.sqrt = Real.sqrt) (own : Bool) (v : List ℝ) :
    l2normIn A own (v.map .fin : List (Num A)) = l2norm (v.map .fin) := by
  have h := (nonnegIn_squares hA _ zero_nonnegIn v).1
  have id : ∀ d : Num A, NonNegIn f d → d.convert A = d := by
    rintro d (rfl | ⟨r, rfl, h1, -⟩)
    · rfl
    · exact Num.round_of (rnd_finite hA h1)
  unfold l2normIn l2norm
  dsimp only
  split
  · exact id _ (nonnegIn_sqrt' hA hS h)
  · rw [id _ h]

/-- The root of a positive value is a normal number. -/
theorem sqrt_normal {s : ℝ} {N : Int} (hN : N ≤ 0) (h : (2 : ℝ) ^ N ≤ s) : (2 : ℝ) ^ N ≤ √s := by
  refine Real.le_sqrt_of_sq_le ?_
  refine le_trans ?_ h
  rw [pow_two]
  exact mul_le_of_le_one_left (two_zpow_pos _).le (zpow_le_one_of_nonpos₀ one_le_two hN)

theorem sqrt_err_in {s : ℝ} (hs : InFormat f s) (h0 : 0 ≤ s) : |√s - f.rn √s| ≤ √s / 2 ^ f.prec := by
  rcases h0.eq_or_lt with h | h
  · rw [← h, Real.sqrt_zero, fl_zero]; simp
  · have h1 : (2 : ℝ) ^ f.emin ≤ s := by
      obtain ⟨k, hk⟩ := value_mult hs
      have hp := two_zpow_pos (K := ℝ) f.emin
      have hk0 : 0 < k := by
        rw [hk] at h
        exact_mod_cast (pos_iff_pos_of_mul_pos h).2 hp
      rw [hk]
      exact le_mul_of_one_le_left hp.le (by exact_mod_cast hk0)
    have := fl_rel_normal (f := f) (x := √s) (by
      rw [abs_of_nonneg (Real.sqrt_nonneg _)]
      refine Real.le_sqrt_of_sq_le ?_
      rw [← zpow_natCast, ← zpow_mul]
      refine le_trans (zpow_le_zpow_right₀ one_le_two ?_) h1
      have := f.emin_le
      have := f.prec_ge
      push_cast
      omega)
    rwa [abs_of_nonneg (Real.sqrt_nonneg _)] at this

/-- Squares of relative errors. -/
theorem square_factor {u x y : ℝ} (hu : u ≤ 1) (hx : 0 ≤ x) (hy : 0 ≤ y) (h : |x - y| ≤ x * u) :
    (1 - u) ^ 2 * x ^ 2 ≤ y ^ 2 ∧ y ^ 2 ≤ (1 + u) ^ 2 * x ^ 2 := by
  rw [abs_le] at h
  rw [← mul_pow, ← mul_pow]
  exact ⟨pow_le_pow_left₀ (mul_nonneg (by linarith) hx) (by linarith [h.2]) 2, pow_le_pow_left₀ hy (by linarith [h.1]) 2⟩

theorem chain_factor {u S s t : ℝ} {a b : Nat} (hu0 : 0 ≤ u) (hu : u ≤ 1)
    (h1 : (1 - u) ^ a * S ≤ s) (h2 : s ≤ (1 + u) ^ a * S) (h3 : (1 - u) ^ b * s ≤ t) (h4 : t ≤ (1 + u) ^ b * s) :
    (1 - u) ^ (a + b) * S ≤ t ∧ t ≤ (1 + u) ^ (a + b) * S := by
  rw [add_comm a b, pow_add, pow_add, mul_assoc, mul_assoc]
  exact ⟨(mul_le_mul_of_nonneg_left h1 (pow_nonneg (by linarith) _)).trans h3,
    h4.trans (mul_le_mul_of_nonneg_left h2 (by positivity))⟩

theorem weaken_factor {u w S s : ℝ} {a : Nat} (hw0 : 0 ≤ w) (hwu : w ≤ u) (hu : u ≤ 1) (hS : 0 ≤ S)
    (h1 : (1 - w) ^ a * S ≤ s) (h2 : s ≤ (1 + w) ^ a * S) : (1 - u) ^ a * S ≤ s ∧ s ≤ (1 + u) ^ a * S :=
  ⟨(mul_le_mul_of_nonneg_right (pow_le_pow_left₀ (by linarith) (by linarith) a) hS).trans h1,
   h2.trans (mul_le_mul_of_nonneg_right (pow_le_pow_left₀ (by linarith) (by linarith) a) hS)⟩

/-- A sum of squares is zero, or not below the smallest of them but for its rounding. -/
theorem squares_normal (hA : A.IsFormat f) {N : Int} (v : List ℝ)
    (hv : ∀ x ∈ v, x = 0 ∨ ((2 : ℝ) ^ (f.emin + (f.prec - 1)) ≤ x ^ 2 ∧ (2 : ℝ) ^ (N + 1) ≤ x ^ 2)) (s : ℝ)
    (h : (v.map .fin).foldl (fun d (x : Num A) => d + squareF x) CxxFloat.zero = .fin s) : s = 0 ∨ (2 : ℝ) ^ N ≤ s := by
  by_cases hz : ∀ x ∈ v, x = 0
  · left
    have hall : ∀ w : List ℝ, (∀ x ∈ w, x = 0) →
        (w.map .fin).foldl (fun d (x : Num A) => d + squareF x) CxxFloat.zero = (.fin 0 : Num A) := by
      intro w
      induction w with
      | nil => intro _; exact Num.zero_eq
      | cons y ys ih =>
        intro hy
        rw [List.map_cons, List.foldl_cons, hy y List.mem_cons_self, squareF, Num.fin_mul, mul_zero,
          Num.round_of (rnd_zero hA), Num.zero_eq, Num.fin_add, add_zero, Num.round_of (rnd_zero hA), ← Num.zero_eq]
        exact ih (fun x hx => hy x (List.mem_cons_of_mem _ hx))
    rw [hall v hz] at h
    cases h; rfl
  · right
    push Not at hz
    obtain ⟨y, hy, hy0⟩ := hz
    obtain ⟨n1, n2⟩ := (hv y hy).resolve_left hy0
    have h3 := (nonnegIn_squares hA _ zero_nonnegIn v).2.2 y hy
    rw [h, round_pos_in hA (mul_self_nonneg y), ← pow_two] at h3
    split at h3
    · rw [Num.le_fin, decide_eq_true_eq] at h3
      refine le_trans ?_ h3
      have hε := eps_small (K := ℝ) (f := f)
      have he := fl_rel_normal (f := f) (x := y ^ 2) (by rwa [abs_of_nonneg (sq_nonneg y)])
      rw [abs_of_nonneg (sq_nonneg y), div_eq_mul_one_div] at he
      have := (abs_le.1 he).2
      have h5 : y ^ 2 * (1 / 2 ^ f.prec) ≤ y ^ 2 * (1 / 2) := mul_le_mul_of_nonneg_left (by linarith) (sq_nonneg y)
      rw [zpow_add_one₀ two_ne_zero] at n2
      linarith
    · rw [Num.le_inf_fin] at h3; cases h3

/-- The conversion to `double` and the root, in either order, add four factors to the square of the result. -/
theorem norm_of_sum (hA : A.IsFormat f) (hS : A.sqrt = Real.sqrt) (hB : B.IsFormat g) (hT : B.sqrt = Real.sqrt) (own : Bool)
    {p : Nat} (hpf : p ≤ f.prec) (hpg : p ≤ g.prec) {a : Nat} {S s : ℝ} (hs : FiniteIn f s) (hs0 : 0 ≤ s) (hS0 : 0 ≤ S)
    (e1 : (1 - 1 / 2 ^ p) ^ a * S ≤ s) (e2 : s ≤ (1 + 1 / 2 ^ p) ^ a * S)
    (hnorm : s = 0 ∨ (2 : ℝ) ^ (g.emin + (g.prec - 1)) ≤ s) (n : ℝ)
    (h : (if own then (CxxFloat.sqrt (.fin s : Num A)).convert B else CxxFloat.sqrt ((.fin s : Num A).convert B)) = .fin n) :
    (1 - 1 / 2 ^ p) ^ (a + 4) * S ≤ n ^ 2 ∧ n ^ 2 ≤ (1 + 1 / 2 ^ p) ^ (a + 4) * S := by
  have hu0 : (0 : ℝ) ≤ 1 / 2 ^ p := by positivity
  have hu1 : (1 : ℝ) / 2 ^ p ≤ 1 := by rw [div_le_one (by positivity)]; exact one_le_pow₀ one_le_two
  have hfu := two_pow_le hpf
  have hgu := two_pow_le hpg
  have hf0 := eps_pos (K := ℝ) (f := f)
  have hg0 := eps_pos (K := ℝ) (f := g)
  have hgN : g.emin + ((g.prec : Int) - 1) ≤ 0 := by have := g.emin_le; have := g.prec_ge; omega
  have hq := Real.sq_sqrt hs0
  have hz := Real.sqrt_nonneg s
  split at h
  · rw [Num.sqrt_fin hs0, hS, round_pos_in hA hz] at h
    split at h
    swap
    · cases h
    have hr := sqrt_err_in hs.1 hs0
    rw [div_eq_mul_one_div] at hr
    have hn0 : 0 ≤ f.rn √s := fl_nonneg hz
    obtain ⟨a1, a2⟩ := square_factor (hfu.trans hu1) hz hn0 hr
    rw [hq] at a1 a2
    obtain ⟨a1, a2⟩ := weaken_factor hf0.le hfu hu1 hs0 a1 a2
    obtain ⟨b1, b2⟩ := chain_factor hu0 hu1 e1 e2 a1 a2
    have h' : Num.round B (f.rn √s) = .fin n := h
    rw [round_pos_in hB hn0] at h'
    split at h'
    swap
    · cases h'
    cases h'
    have hc : |f.rn √s - g.rn (f.rn √s)| ≤ f.rn √s * (1 / 2 ^ g.prec) := by
      rcases hnorm with h0 | h0
      · rw [h0, Real.sqrt_zero, fl_zero, fl_zero]; simp
      · have h1 : (2 : ℝ) ^ (g.emin + (g.prec - 1)) ≤ √s := sqrt_normal hgN h0
        by_cases hin : f.emin ≤ g.emin + (g.prec - 1)
        · have h2 : (2 : ℝ) ^ (g.emin + (g.prec - 1)) ≤ f.rn √s := by
            have := fl_mono (f := f) h1
            rwa [fl_value (two_zpow_value hin)] at this
          have := fl_rel_normal (f := g) (x := f.rn √s) (by rwa [abs_of_nonneg hn0])
          rwa [abs_of_nonneg hn0, div_eq_mul_one_div] at this
        · have h2 : Mult g.emin (f.rn √s) := (value_mult (fl_inFormat _)).mono (by have := g.prec_ge; omega)
          have := fl_rel (f := g) h2
          rwa [abs_of_nonneg hn0, div_eq_mul_one_div] at this
    obtain ⟨c1, c2⟩ := square_factor (hgu.trans hu1) hn0 (fl_nonneg hn0) hc
    obtain ⟨c1, c2⟩ := weaken_factor hg0.le hgu hu1 (sq_nonneg _) c1 c2
    exact chain_factor (a := a + 2) (b := 2) hu0 hu1 b1 b2 c1 c2
  · have h' : CxxFloat.sqrt (Num.round B s) = .fin n := h
    rw [round_pos_in hB hs0] at h'
    split at h'
    swap
    · cases h'
    have ht0 : 0 ≤ g.rn s := fl_nonneg hs0
    rw [Num.sqrt_fin ht0, hT, round_pos_in hB (Real.sqrt_nonneg _)] at h'
    split at h'
    swap
    · cases h'
    cases h'
    have hc : |s - g.rn s| ≤ s * (1 / 2 ^ g.prec) := by
      rcases hnorm with h0 | h0
      · rw [h0, fl_zero]; simp
      · have := fl_rel_normal (f := g) (x := s) (by rwa [abs_of_nonneg hs0])
        rwa [abs_of_nonneg hs0, div_eq_mul_one_div] at this
    rw [abs_le] at hc
    obtain ⟨a1, a2⟩ := weaken_factor (a := 1) (s := g.rn s) hg0.le hgu hu1 hs0 (by rw [pow_one]; linarith [hc.2])
      (by rw [pow_one]; linarith [hc.1])
    obtain ⟨b1, b2⟩ := chain_factor hu0 hu1 e1 e2 a1 a2
    have hr := sqrt_err_in (f := g) (fl_inFormat s) ht0
    rw [div_eq_mul_one_div] at hr
    obtain ⟨c1, c2⟩ := square_factor (hgu.trans hu1) (Real.sqrt_nonneg _) (fl_nonneg (Real.sqrt_nonneg _)) hr
    rw [Real.sq_sqrt ht0] at c1 c2
    obtain ⟨c1, c2⟩ := weaken_factor hg0.le hgu hu1 ht0 c1 c2
    obtain ⟨r1, r2⟩ := chain_factor hu0 hu1 b1 b2 c1 c2
    -- one factor is to spare
    refine ⟨le_trans ?_ r1, r2.trans ?_⟩
    · exact mul_le_mul_of_nonneg_right (pow_le_pow_of_le_one (by linarith) (by linarith) (by omega)) hS0
    · exact mul_le_mul_of_nonneg_right (pow_le_pow_right₀ (by linarith) (by omega)) hS0

/-- C157.  l2norm of `n` numbers of any floating-point type: unless it overflows, its square is within a factor
(1+-u)^(n+5) of the sum of squares, where 1/u is 2^p for the smaller precision p of that type and of `double`.  The squares are
zero or normal numbers in that type and twice as large as such in `double`. -/
theorem C157_error (hA : A.IsFormat f) (hS : A.sqrt = Real.sqrt) (hB : B.IsFormat g) (hT : B.sqrt = Real.sqrt) (own : Bool)
    {p : Nat} (hpf : p ≤ f.prec) (hpg : p ≤ g.prec) (v : List ℝ)
    (hv : ∀ x ∈ v, x = 0 ∨ ((2 : ℝ) ^ (f.emin + (f.prec - 1)) ≤ x ^ 2 ∧ (2 : ℝ) ^ (g.emin + g.prec) ≤ x ^ 2)) (n : ℝ)
    (h : l2normIn B own (v.map .fin : List (Num A)) = .fin n) :
    (1 - 1 / 2 ^ p) ^ (v.length + 5) * (v.map (· ^ 2)).sum ≤ n ^ 2 ∧
    n ^ 2 ≤ (1 + 1 / 2 ^ p) ^ (v.length + 5) * (v.map (· ^ 2)).sum := by
  have hu1 : (1 : ℝ) / 2 ^ p ≤ 1 := by rw [div_le_one (by positivity)]; exact one_le_pow₀ one_le_two
  have hfu := two_pow_le hpf
  have hf0 := eps_pos (K := ℝ) (f := f)
  have hS0 : 0 ≤ (v.map (· ^ 2)).sum :=
    List.sum_nonneg (fun x hx => by obtain ⟨z, -, rfl⟩ := List.mem_map.1 hx; exact sq_nonneg z)
  have hnn := (nonnegIn_squares hA _ zero_nonnegIn v).1
  obtain ⟨d, hd⟩ : ∃ d, d = (v.map .fin).foldl (fun d (x : Num A) => d + squareF x) CxxFloat.zero := ⟨_, rfl⟩
  unfold l2normIn at h
  dsimp only at h
  rw [← hd] at hnn h
  rcases hnn with rfl | ⟨s, rfl, hs, hs0⟩
  · cases own <;> cases h
  have e := squares_error_in hA 0 zero_value le_rfl v (fun x hx => (hv x hx).imp_right And.left) s (by rw [hd, Num.zero_eq])
  rw [zero_add, zero_add, ← mul_assoc, ← mul_assoc, ← pow_succ, ← pow_succ] at e
  obtain ⟨e1, e2⟩ := weaken_factor hf0.le hfu hu1 hS0 e.1 e.2
  have hnorm : s = 0 ∨ (2 : ℝ) ^ (g.emin + (g.prec - 1)) ≤ s := by
    refine squares_normal hA (N := g.emin + (g.prec - 1)) v (fun x hx => ?_) s hd.symm
    rw [show g.emin + ((g.prec : Int) - 1) + 1 = g.emin + g.prec by ring]
    exact hv x hx
  exact norm_of_sum hA hS hB hT own hpf hpg hs hs0 hS0 e1 e2 hnorm n h

/-- C157.  The norm of whole numbers whose squares add up to a perfect square of at most 2^p is exact. -/
theorem C157_norm_integers (hA : A.IsFormat f) (hS : A.sqrt = Real.sqrt) (hB : B.IsFormat g) (hT : B.sqrt = Real.sqrt)
    (own : Bool) (ns : List Int) (n : Nat) (hn : (ns.map (· ^ 2)).sum = (n : Int) ^ 2) (hf : n ^ 2 ≤ 2 ^ f.prec)
    (hg : n ^ 2 ≤ 2 ^ g.prec) : l2normIn B own (ns.map (fun n : Int => (.fin (n : ℝ) : Num A))) = .fin (n : ℝ) := by
  have hf' : (n : Int) ^ 2 ≤ 2 ^ f.prec := by exact_mod_cast hf
  have hg' : (n : Int) ^ 2 ≤ 2 ^ g.prec := by exact_mod_cast hg
  have hle : (n : Int) ≤ (n : Int) ^ 2 := by
    rcases Nat.eq_zero_or_pos n with rfl | h
    · simp
    · have : (1 : Int) ≤ n := by exact_mod_cast h
      nlinarith
  have e0 := int_squares_fold hA ns 0 le_rfl (by rw [hn]; simpa using hf')
  rw [hn, zero_add, Int.cast_zero] at e0
  have rd : ∀ {D : Arith ℝ} {k : FloatFormat}, D.IsFormat k → ∀ m : Int, 0 ≤ m → m ≤ 2 ^ k.prec →
      Num.round D ((m : Int) : ℝ) = .fin ((m : Int) : ℝ) := fun hD m h0 h1 =>
    Num.round_of (rnd_finite hD (int_finite (by rw [abs_of_nonneg h0]; exact h1)))
  have rt : √(((n : Int) ^ 2 : Int) : ℝ) = ((n : Int) : ℝ) := by
    push_cast
    exact Real.sqrt_sq (by positivity)
  have p0 : (0 : ℝ) ≤ (((n : Int) ^ 2 : Int) : ℝ) := by push_cast; positivity
  have fin : (Num.fin ((n : Int) : ℝ) : Num B) = .fin (n : ℝ) := by push_cast; rfl
  unfold l2normIn
  dsimp only
  rw [Num.zero_eq, e0]
  split
  · rw [Num.sqrt_fin p0, hS, rt, rd hA n (by positivity) (by linarith)]
    exact (rd hB n (by positivity) (by linarith)).trans fin
  · have : (Num.fin (((n : Int) ^ 2 : Int) : ℝ) : Num A).convert B = .fin (((n : Int) ^ 2 : Int) : ℝ) :=
      rd hB _ (by positivity) hg'
    rw [this, Num.sqrt_fin p0, hT, rt, rd hB n (by positivity) (by linarith), fin]

/-- The square root of the rounded square of a value rounds to the value. -/
theorem fl_sqrt_square {x : ℝ} (hx : InFormat f x) (hp : 0 < x) (h0 : (2 : ℝ) ^ (f.emin + (f.prec - 1)) ≤ x * x) :
    f.rn √(f.rn (x * x)) = x := by
  have hprec := f.prec_ge
  have hemin := f.emin_le
  obtain ⟨u, hu⟩ : ∃ u, u = f.ulpExp x := ⟨_, rfl⟩
  have hhi : x < (2 : ℝ) ^ (u + f.prec) := by
    have := fl_abs_lt_ulp (f := f) x
    rwa [abs_of_pos hp, ← hu] at this
  have h2 : x * x < (2 : ℝ) ^ (2 * u + 2 * f.prec) := by
    rw [show 2 * u + 2 * (f.prec : Int) = (u + f.prec) + (u + f.prec) by ring, zpow_add₀ two_ne_zero]
    exact mul_lt_mul'' hhi hhi hp.le hp.le
  have hexp : f.emin + (f.prec - 1) < 2 * u + 2 * f.prec :=
    (zpow_lt_zpow_iff_right₀ (one_lt_two (α := ℝ))).1 (h0.trans_lt h2)
  have hlo : (2 : ℝ) ^ (u + (f.prec - 1)) ≤ x := by
    rcases fl_ulpExp_cases (f := f) x hp.ne' with h | h
    · rw [← hu] at h; omega
    · rwa [abs_of_pos hp, ← hu] at h
  have hue : f.emin ≤ u := by rw [hu]; exact fl_ulpExp_ge x
  -- the rounded square
  have hq : (2 : ℝ) ^ (2 * u + 2 * (f.prec - 1)) ≤ x * x := by
    rw [show 2 * u + 2 * ((f.prec : Int) - 1) = (u + (f.prec - 1)) + (u + (f.prec - 1)) by ring, zpow_add₀ two_ne_zero]
    exact mul_le_mul hlo hlo (two_zpow_pos _).le hp.le
  have hdq : InFormat f ((2 : ℝ) ^ (2 * u + 2 * (f.prec - 1))) := two_zpow_value (by omega)
  have hs : (2 : ℝ) ^ (2 * u + 2 * (f.prec - 1)) ≤ f.rn (x * x) := by
    have := fl_mono (f := f) hq
    rwa [fl_value hdq] at this
  have hy : (2 : ℝ) ^ (u + (f.prec - 1)) ≤ √(f.rn (x * x)) := by
    refine Real.le_sqrt_of_sq_le ?_
    rw [← zpow_natCast, ← zpow_mul]
    refine le_trans (le_of_eq ?_) hs
    congr 1
    push_cast
    ring
  have herr : |x * x - f.rn (x * x)| ≤ (2 : ℝ) ^ (2 * u + (f.prec - 1)) := by
    refine (fl_err_ulp (x * x)).trans ?_
    have h1 : f.ulpExp (x * x) ≤ 2 * u + f.prec := by
      have h3 : Int.log 2 |x * x| < 2 * u + 2 * f.prec := by
        rw [abs_of_pos (mul_pos hp hp)]
        exact (Int.lt_zpow_iff_log_lt (R := ℝ) (b := 2) (by norm_num) (mul_pos hp hp)).1 (by exact_mod_cast h2)
      unfold FloatFormat.ulpExp
      omega
    rw [div_le_iff₀ two_pos, ← zpow_add_one₀ two_ne_zero]
    exact zpow_le_zpow_right₀ one_le_two (by omega)
  -- its root is close to x
  have hclose : |√(f.rn (x * x)) - x| < (2 : ℝ) ^ (u - 1) := by
    rcases hlo.eq_or_lt with he | hlt
    · have : f.rn (x * x) = x * x := by
        refine fl_value ?_
        rw [← he, ← zpow_add₀ two_ne_zero]
        exact two_zpow_value (by omega)
      rw [this, Real.sqrt_mul_self hp.le, sub_self, abs_zero]
      exact two_zpow_pos _
    · have hsn : 0 ≤ f.rn (x * x) := (two_zpow_pos _).le.trans hs
      have hden : (2 : ℝ) ^ (u + f.prec) < √(f.rn (x * x)) + x := by
        rw [show u + (f.prec : Int) = (u + (f.prec - 1)) + 1 by ring, zpow_add_one₀ two_ne_zero]
        linarith
      have hpos : 0 < √(f.rn (x * x)) + x := lt_trans (two_zpow_pos _) hden
      have hprod : |√(f.rn (x * x)) - x| * (√(f.rn (x * x)) + x) ≤ (2 : ℝ) ^ (2 * u + (f.prec - 1)) := by
        rw [← abs_of_pos hpos, ← abs_mul]
        have : (√(f.rn (x * x)) - x) * (√(f.rn (x * x)) + x) = f.rn (x * x) - x * x := by
          have := Real.mul_self_sqrt hsn
          linear_combination this
        rw [this, abs_sub_comm]
        exact herr
      by_contra hc
      push Not at hc
      have h5 : (2 : ℝ) ^ (u - 1) * (2 : ℝ) ^ (u + f.prec) < |√(f.rn (x * x)) - x| * (√(f.rn (x * x)) + x) :=
        mul_lt_mul' hc hden (two_zpow_pos _).le (lt_of_lt_of_le (two_zpow_pos _) hc)
      rw [← zpow_add₀ two_ne_zero, show u - 1 + (u + (f.prec : Int)) = 2 * u + (f.prec - 1) by ring] at h5
      exact absurd h5 (not_lt.2 hprod)
  -- and therefore rounds to x
  obtain ⟨y, hyd⟩ : ∃ y, y = √(f.rn (x * x)) := ⟨_, rfl⟩
  rw [← hyd] at hy hclose ⊢
  have hz : (2 : ℝ) ^ (u + (f.prec - 1)) ≤ f.rn y := by
    have := fl_mono (f := f) hy
    rwa [fl_value (two_zpow_value (by omega))] at this
  have hyu : u ≤ f.ulpExp y := by
    have hyp : 0 < y := lt_of_lt_of_le (two_zpow_pos _) hy
    have : u + (f.prec - 1) ≤ Int.log 2 |y| := by
      rw [abs_of_pos hyp]
      exact (Int.zpow_le_iff_le_log (R := ℝ) (b := 2) (by norm_num) hyp).1 (by exact_mod_cast hy)
    unfold FloatFormat.ulpExp
    omega
  have hzm : Mult u (f.rn y) := (fl_mult_ulp y).mono hyu
  have hxm : Mult u x := by
    have := fl_mult_ulp (f := f) x
    rwa [fl_value hx, ← hu] at this
  have hn := fl_nearest (f := f) y x hx
  have hd : |f.rn y - x| < (2 : ℝ) ^ u := by
    have h1 : |f.rn y - x| ≤ |y - f.rn y| + |y - x| := by
      rw [abs_sub_comm y (f.rn y)]
      exact abs_sub_le _ _ _
    have h2 : (2 : ℝ) ^ u = 2 * (2 : ℝ) ^ (u - 1) := by
      rw [← zpow_one_add₀ two_ne_zero]; congr 1; ring
    linarith
  obtain ⟨k, hk⟩ := hzm.sub hxm
  rw [hk, abs_mul, abs_of_pos (two_zpow_pos (K := ℝ) u)] at hd
  have hk0 : |(k : ℝ)| < 1 := by
    by_contra hc
    push Not at hc
    nlinarith [two_zpow_pos (K := ℝ) u]
  have : k = 0 := by
    have : |k| < 1 := by exact_mod_cast hk0
    exact Int.abs_lt_one_iff.1 this
  rw [this] at hk
  have : f.rn y - x = 0 := by rw [hk]; simp
  linarith

theorem single_sum (hA : A.IsFormat f) (x : ℝ) :
    (CxxFloat.zero + squareF (.fin x) : Num A) = Num.round A (x * x) := by
  rw [squareF, Num.fin_mul, Num.zero_eq, round_pos_in hA (mul_self_nonneg x)]
  split
  · next h =>
    rw [Num.fin_add, zero_add, round_pos_in hA (fl_nonneg (mul_self_nonneg x)), fl_value (fl_inFormat _), if_pos h]
  · rfl

/-- C157.  With the overload of sqrt, the norm of a single number whose square is a normal number that does not overflow is its
absolute value. -/
theorem C157_single (hA : A.IsFormat f) (hS : A.sqrt = Real.sqrt) (hB : B.IsFormat g) (x : ℝ) (hx : FiniteIn f x)
    (hxg : FiniteIn g x) (h1 : (2 : ℝ) ^ (f.emin + (f.prec - 1)) ≤ x * x) (h2 : f.rn (x * x) < (2 : ℝ) ^ f.emax) :
    l2normIn B true [(.fin x : Num A)] = .fin |x| := by
  have absv : ∀ k : FloatFormat, FiniteIn k x → FiniteIn k |x| := by
    intro k hk
    refine ⟨?_, by rw [abs_abs]; exact hk.2⟩
    rcases abs_choice x with h | h <;> rw [h]
    · exact hk.1
    · exact neg_value hk.1
  have hx0 : 0 < |x| := by
    rw [abs_pos]
    rintro rfl
    rw [mul_zero] at h1
    exact absurd h1 (not_le.2 (two_zpow_pos _))
  have hk := fl_sqrt_square (absv f hx).1 hx0 (by rwa [abs_mul_abs_self])
  rw [abs_mul_abs_self] at hk
  unfold l2normIn
  dsimp only
  rw [if_pos rfl, List.foldl_cons, List.foldl_nil, single_sum hA, round_pos_in hA (mul_self_nonneg x), if_pos h2,
    Num.sqrt_fin (fl_nonneg (mul_self_nonneg x)), hS, round_pos_in hA (Real.sqrt_nonneg _), hk,
    if_pos ((le_abs_self |x|).trans_lt (absv f hx).2)]
  exact Num.round_of (rnd_finite hB (absv g hxg))

/-! ### What goes wrong -/

theorem fl_tiny {x : ℝ} (h : |x| < (2 : ℝ) ^ (f.emin - 1)) : f.rn x = 0 := by
  have h1 := fl_nearest (f := f) x 0 zero_value
  rw [sub_zero] at h1
  have h2 : |f.rn x| ≤ |x - f.rn x| + |x| := by
    have := abs_sub_le (f.rn x) x 0
    rw [sub_zero, sub_zero, abs_sub_comm] at this
    exact this
  have h3 : (2 : ℝ) ^ f.emin = 2 * (2 : ℝ) ^ (f.emin - 1) := by
    rw [← zpow_one_add₀ two_ne_zero]; congr 1; ring
  obtain ⟨k, hk⟩ := value_mult (fl_inFormat (f := f) x)
  have h4 : |f.rn x| < (2 : ℝ) ^ f.emin := by linarith
  have hp := two_zpow_pos (K := ℝ) f.emin
  rw [hk, abs_mul, abs_of_pos hp] at h4
  have hk0 : |(k : ℝ)| < 1 := by
    by_contra hc
    push Not at hc
    nlinarith
  have : k = 0 := Int.abs_lt_one_iff.1 (by exact_mod_cast hk0)
  rw [hk, this]; simp

/-- C162 is violated by small numbers: the norm of 2^e is computed as 0 when 2^(2e) is less than half of the smallest positive
number, for `float` from 2^-76 on. -/
theorem C162_small_violated (hA : A.IsFormat f) (hS : A.sqrt = Real.sqrt) (hB : B.IsFormat g) (hT : B.sqrt = Real.sqrt)
    (own : Bool) (e : Int) (he : 2 * e < f.emin - 1) : l2normIn B own [(.fin ((2 : ℝ) ^ e) : Num A)] = .fin 0 := by
  have h1 : Num.round A ((2 : ℝ) ^ e * (2 : ℝ) ^ e) = .fin 0 := by
    rw [round_pos_in hA (mul_self_nonneg _), fl_tiny, if_pos (two_zpow_pos _)]
    rw [abs_of_nonneg (mul_self_nonneg _), ← zpow_add₀ two_ne_zero]
    exact zpow_lt_zpow_right₀ one_lt_two (by omega)
  have z : ∀ {D : Arith ℝ} {k : FloatFormat}, D.IsFormat k → D.sqrt = Real.sqrt → CxxFloat.sqrt (.fin 0 : Num D) = .fin 0 := by
    intro D k hD hSD
    rw [Num.sqrt_fin le_rfl, hSD, Real.sqrt_zero, Num.round_of (rnd_zero hD)]
  have c : (Num.fin 0 : Num A).convert B = .fin 0 := Num.round_of (rnd_zero hB)
  unfold l2normIn
  dsimp only
  rw [List.foldl_cons, List.foldl_nil, single_sum hA, h1]
  split
  · rw [z hA hS, c]
  · rw [c, z hB hT]

/-- C162 is violated by large numbers: the norm of 2^e is computed as infinity when 2^(2e) is not below 2^emax, for `float` from
2^64 on, although the result has type `double`. -/
theorem C162_large_violated (hA : A.IsFormat f) (own : Bool) (e : Int) (he : f.emax ≤ 2 * e) :
    l2normIn B own [(.fin ((2 : ℝ) ^ e) : Num A)] = .inf false := by
  have h1 : Num.round A ((2 : ℝ) ^ e * (2 : ℝ) ^ e) = .inf false := by
    have := f.emin_le
    have := f.emax_gt
    rw [round_pos_in hA (mul_self_nonneg _), ← zpow_add₀ two_ne_zero, fl_value (two_zpow_value (by omega)), if_neg]
    rw [not_lt]
    exact zpow_le_zpow_right₀ one_le_two (by omega)
  unfold l2normIn
  dsimp only
  rw [List.foldl_cons, List.foldl_nil, single_sum hA, h1]
  cases own <;> rfl

/-- C162 is violated for `long double` without the overload of sqrt: the norm of 2^512 is computed as infinity, although with
the overload it is exact. -/
theorem C162_overload_violated (hA : A.IsFormat FloatFormat.extended) (hS : A.sqrt = Real.sqrt)
    (hB : B.IsFormat FloatFormat.double) : l2normIn B false [(.fin ((2 : ℝ) ^ (512 : Int)) : Num A)] = .inf false ∧
    l2normIn B true [(.fin ((2 : ℝ) ^ (512 : Int)) : Num A)] = .fin ((2 : ℝ) ^ (512 : Int)) := by
  have hsq : (2 : ℝ) ^ (512 : Int) * (2 : ℝ) ^ (512 : Int) = (2 : ℝ) ^ (1024 : Int) := by
    rw [← zpow_add₀ two_ne_zero]; norm_num
  have fin : ∀ (k : FloatFormat) (e : Int), k.emin ≤ e → e < k.emax → FiniteIn k ((2 : ℝ) ^ e) := fun k e h1 h2 =>
    ⟨two_zpow_value h1, by rw [abs_of_pos (two_zpow_pos _)]; exact zpow_lt_zpow_right₀ one_lt_two h2⟩
  have v1024 : FloatFormat.extended.rn ((2 : ℝ) ^ (1024 : Int)) = (2 : ℝ) ^ (1024 : Int) :=
    fl_value (two_zpow_value (by decide))
  constructor
  · unfold l2normIn
    dsimp only
    rw [if_neg (by decide), List.foldl_cons, List.foldl_nil, single_sum hA, hsq,
      Num.round_of (rnd_finite hA (fin _ 1024 (by decide) (by decide)))]
    have : (Num.fin ((2 : ℝ) ^ (1024 : Int)) : Num A).convert B = .inf false := by
      show Num.round B _ = _
      rw [round_pos_in hB (two_zpow_pos _).le, fl_value (two_zpow_value (by decide)), if_neg]
      exact lt_irrefl _
    rw [this]
    rfl
  · rw [C157_single hA hS hB _ (fin _ 512 (by decide) (by decide)) (fin _ 512 (by decide) (by decide)) ?_ ?_,
      abs_of_pos (two_zpow_pos _)]
    · rw [hsq]
      exact zpow_le_zpow_right₀ one_le_two (by decide)
    · rw [hsq, v1024]
      exact zpow_lt_zpow_right₀ one_lt_two (by decide)

/-- C162 is violated for `float` without the overload of sqrt: the norm of the single number 1+2^-23 is below it. -/
theorem C162_single_violated (hA : A.IsFormat FloatFormat.float) (hB : B.IsFormat FloatFormat.double)
    (hT : B.sqrt = Real.sqrt) : ∃ y : ℝ, l2normIn B false [(.fin (1 + 1 / 2 ^ 23) : Num A)] = .fin y ∧ y < 1 + 1 / 2 ^ 23 := by
  have hsq : FloatFormat.float.rn ((1 + 1 / 2 ^ 23 : ℝ) * (1 + 1 / 2 ^ 23)) = 1 + 1 / 2 ^ 22 := by
    have hu : FloatFormat.float.ulpExp ((1 + 1 / 2 ^ 23 : ℝ) * (1 + 1 / 2 ^ 23)) = -23 := by
      have hl : Int.log 2 |((1 + 1 / 2 ^ 23 : ℝ) * (1 + 1 / 2 ^ 23))| = 0 := by
        rw [abs_of_pos (by norm_num)]
        refine le_antisymm ?_ ?_
        · have := (Int.lt_zpow_iff_log_lt (R := ℝ) (b := 2) (x := 1) (r := (1 + 1 / 2 ^ 23 : ℝ) * (1 + 1 / 2 ^ 23)) (by norm_num)
            (by norm_num)).1 (by norm_num)
          omega
        · exact (Int.zpow_le_iff_le_log (R := ℝ) (b := 2) (x := 0) (by norm_num) (by norm_num)).1 (by norm_num)
      unfold FloatFormat.ulpExp
      rw [hl]
      decide
    have hz : Mult (-23) (1 + 1 / 2 ^ 22 : ℝ) := ⟨2 ^ 23 + 2, by norm_num⟩
    have h1 := fl_nearest_mult (f := FloatFormat.float) ((1 + 1 / 2 ^ 23 : ℝ) * (1 + 1 / 2 ^ 23)) (1 + 1 / 2 ^ 22)
      (by rw [hu]; exact hz)
    obtain ⟨k, hk⟩ := (fl_mult_ulp (f := FloatFormat.float) ((1 + 1 / 2 ^ 23 : ℝ) * (1 + 1 / 2 ^ 23))).sub (hu ▸ hz)
    rw [hu] at hk
    generalize FloatFormat.float.rn ((1 + 1 / 2 ^ 23 : ℝ) * (1 + 1 / 2 ^ 23)) = r at *
    have e1 : |(1 + 1 / 2 ^ 23 : ℝ) * (1 + 1 / 2 ^ 23) - (1 + 1 / 2 ^ 22)| = 1 / 2 ^ 46 := by
      rw [abs_of_pos (by norm_num)]; norm_num
    rw [e1, abs_le] at h1
    have hk0 : k = 0 := by
      have h2 : |(k : ℝ) * (2 : ℝ) ^ (-23 : Int)| ≤ 1 / 2 ^ 45 := by
        rw [← hk, abs_le]
        constructor <;> norm_num at h1 ⊢ <;> linarith [h1.1, h1.2]
      rw [abs_mul, abs_of_pos (two_zpow_pos (K := ℝ) (-23))] at h2
      have h3 : |(k : ℝ)| < 1 := by
        by_contra hc
        push Not at hc
        have := mul_le_mul_of_nonneg_right hc (two_zpow_pos (K := ℝ) (-23)).le
        norm_num at this h2
        linarith
      exact Int.abs_lt_one_iff.1 (by exact_mod_cast h3)
    rw [hk0, Int.cast_zero, zero_mul] at hk
    linarith
  have one : ∀ (k : FloatFormat) (x : ℝ), 0 ≤ x → x ≤ 2 → x < (2 : ℝ) ^ k.emax := by
    intro k x _ h
    refine h.trans_lt ?_
    have := zpow_lt_zpow_right₀ (one_lt_two (α := ℝ)) (show (1 : Int) < k.emax by have := k.emax_gt; omega)
    rwa [zpow_one] at this
  have v2 : FiniteIn FloatFormat.double (1 + 1 / 2 ^ 22 : ℝ) :=
    ⟨⟨2 ^ 22 + 1, -22, by norm_num [FloatFormat.double], by decide, by norm_num⟩,
      by rw [abs_of_pos (by norm_num)]; exact one _ _ (by norm_num) (by norm_num)⟩
  have v3 : InFormat FloatFormat.double (1 + 1 / 2 ^ 23 - 1 / 2 ^ 48 : ℝ) :=
    ⟨2 ^ 48 + 2 ^ 25 - 1, -48, by norm_num [FloatFormat.double], by decide, by norm_num⟩
  have hle : √(1 + 1 / 2 ^ 22 : ℝ) ≤ 1 + 1 / 2 ^ 23 - 1 / 2 ^ 48 := by
    rw [Real.sqrt_le_left (by norm_num)]; norm_num
  have hr := fl_mono (f := FloatFormat.double) hle
  rw [fl_value v3] at hr
  refine ⟨FloatFormat.double.rn √(1 + 1 / 2 ^ 22 : ℝ), ?_, lt_of_le_of_lt hr (by norm_num)⟩
  unfold l2normIn
  dsimp only
  rw [if_neg (by decide), List.foldl_cons, List.foldl_nil, single_sum hA, round_pos_in hA (mul_self_nonneg _), hsq,
    if_pos (one _ _ (by norm_num) (by norm_num))]
  have : (Num.fin (1 + 1 / 2 ^ 22 : ℝ) : Num A).convert B = .fin (1 + 1 / 2 ^ 22) := Num.round_of (rnd_finite hB v2)
  rw [this, Num.sqrt_fin (by norm_num), hT, round_pos_in hB (Real.sqrt_nonneg _), if_pos]
  exact one _ _ (fl_nonneg (Real.sqrt_nonneg _)) (hr.trans (by norm_num))

/-- Cases that meet the conditions: every format has the normal square 9, and its whole numbers 3 and 4. -/
example : (2 : ℝ) ^ (f.emin + (f.prec - 1)) ≤ 3 ^ 2 ∧ (2 : ℝ) ^ (f.emin + f.prec) ≤ 3 ^ 2 ∧ (2 : ℝ) ^ (f.emin + f.prec) ≤ |3| ^ 3 ∧
    (([3, -4] : List Int).map (· ^ 2)).sum = ((5 : Nat) : Int) ^ 2 ∧ 5 ^ 2 ≤ 2 ^ f.prec ∧ (2 : Int) * (-76) < FloatFormat.float.emin - 1 ∧
    FloatFormat.float.emax ≤ 2 * 64 := by
  have h := f.emin_le
  have hp := f.prec_ge
  have z : ∀ e : Int, e ≤ 0 → (2 : ℝ) ^ e ≤ 1 := fun e he => zpow_le_one_of_nonpos₀ one_le_two he
  have := z (f.emin + (f.prec - 1)) (by omega)
  have := z (f.emin + f.prec) (by omega)
  refine ⟨by norm_num; linarith, by norm_num; linarith, by norm_num; linarith, by decide, ?_, by decide, by decide⟩
  exact le_trans (by norm_num) (Nat.pow_le_pow_right (by norm_num) hp)

end
end Bwsl
