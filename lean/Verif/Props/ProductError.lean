import Verif.Props.ContainerErrors
import Verif.Props.ScaledStats

/-! Property C192: the error of accumulate_product. -/

namespace Bwsl
open Spec FloatFormat

set_option linter.unusedSectionVars false

section
variable {K : Type} [Field K] [LinearOrder K] [IsStrictOrderedRing K] [FloorRing K] {A : Arith K} {f : FloatFormat}

/-- None of the products of `s` and the elements, multiplied one after the other and rounded, underflows. -/
def Spec.ProductsCalm (f : FloatFormat) : K → List K → Prop
  | _, [] => True
  | s, x :: xs => NoUnderflow f (s * x) ∧ Spec.ProductsCalm f (f.rn (s * x)) xs

theorem rn_factor {y : K} (h : NoUnderflow f y) : ∃ t : K, 1 - 1 / 2 ^ f.prec ≤ t ∧ t ≤ 1 + 1 / 2 ^ f.prec ∧ f.rn y = y * t := by
  have hP : (0 : K) < 1 / 2 ^ f.prec := by positivity
  by_cases hy : y = 0
  · exact ⟨1, by linarith, by linarith, by rw [hy, fl_zero, zero_mul]⟩
  have hr : |y - f.rn y| ≤ |y| / 2 ^ f.prec := h.elim fl_rel fl_rel_normal
  have hy' : 0 < |y| := abs_pos.2 hy
  have h1 : |1 - f.rn y / y| ≤ 1 / 2 ^ f.prec := by
    rw [show 1 - f.rn y / y = (y - f.rn y) / y by field_simp, abs_div, div_le_iff₀ hy']
    calc _ ≤ _ := hr
      _ = _ := by ring
  obtain ⟨h2, h3⟩ := abs_le.1 h1
  exact ⟨f.rn y / y, by linarith, by linarith, by field_simp⟩

theorem prod_fold_fin (xs : List K) (a : Num A) {r : K} (h : (xs.map (Num.fin (A := A))).foldl (fun acc x => acc * x) a = .fin r) :
    ∃ s, a = .fin s := by
  induction xs generalizing a with
  | nil => exact ⟨r, h⟩
  | cons x xs ih =>
    obtain ⟨s, hs⟩ := ih (a * (.fin x : Num A)) (by rw [List.map_cons, List.foldl_cons] at h; exact h)
    obtain ⟨p, q, hp, -⟩ := mul_eq_fin_both hs
    exact ⟨p, hp⟩

theorem prod_fold (hA : A.IsFormat f) (xs : List K) (s : K) {r : K} (hc : ProductsCalm f s xs)
    (h : (xs.map (Num.fin (A := A))).foldl (fun acc x => acc * x) (.fin s) = .fin r) :
    ∃ t : K, (1 - 1 / 2 ^ f.prec) ^ xs.length ≤ t ∧ t ≤ (1 + 1 / 2 ^ f.prec) ^ xs.length ∧ r = s * xs.prod * t := by
  have hP : (0 : K) < 1 / 2 ^ f.prec := by positivity
  have hP1 : (0 : K) ≤ 1 - 1 / 2 ^ f.prec := by
    have : (1 : K) / 2 ^ f.prec ≤ 1 := by rw [div_le_one (by positivity)]; exact one_le_pow₀ one_le_two
    linarith
  induction xs generalizing s with
  | nil =>
    refine ⟨1, by simp, by simp, ?_⟩
    have : (Num.fin s : Num A) = .fin r := h
    cases this
    simp
  | cons x xs ih =>
    obtain ⟨c1, c2⟩ := hc
    have h' : (xs.map (Num.fin (A := A))).foldl (fun acc x => acc * x) (.fin s * .fin x) = .fin r := h
    obtain ⟨p, hp⟩ := prod_fold_fin xs _ h'
    rw [hp] at h'
    rw [Num.fin_mul] at hp
    obtain ⟨rfl, -⟩ := round_format hA hp
    obtain ⟨t, t1, t2, t3⟩ := ih _ c2 h'
    obtain ⟨u, u1, u2, u3⟩ := rn_factor c1
    have t0 : 0 ≤ t := (pow_nonneg hP1 _).trans t1
    refine ⟨u * t, ?_, ?_, ?_⟩
    · rw [List.length_cons, pow_succ']
      exact mul_le_mul u1 t1 (pow_nonneg hP1 _) (hP1.trans u1)
    · rw [List.length_cons, pow_succ']
      exact mul_le_mul u2 t2 t0 (by linarith)
    · rw [t3, u3, List.prod_cons]
      ring

theorem ofInt_one (hA : A.IsFormat f) : (CxxFloat.ofInt 1 : Num A) = .fin 1 := by
  rw [Num.ofInt_eq, Int.cast_one]; exact Num.round_of (rnd_finite hA one_finite)

/-- C192.  If accumulate_product of n values is finite and none of the products underflows, it is the product times a factor between
(1 - 2^-p)^n and (1 + 2^-p)^n. -/
theorem C192_product (hA : A.IsFormat f) (xs : List K) (hc : ProductsCalm f 1 xs) {r : K}
    (h : accumulateProductF (xs.map (Num.fin (A := A))) = .fin r) :
    ∃ t : K, (1 - 1 / 2 ^ f.prec) ^ xs.length ≤ t ∧ t ≤ (1 + 1 / 2 ^ f.prec) ^ xs.length ∧ r = xs.prod * t := by
  unfold accumulateProductF at h
  rw [ofInt_one hA] at h
  simpa only [one_mul] using prod_fold hA xs 1 hc h

/-- Products of zeros and values that are not below 1 do not underflow. -/
theorem C192_calm (xs : List K) (hv : ∀ x ∈ xs, x = 0 ∨ 1 ≤ |x|) : ProductsCalm f 1 xs := by
  have go : ∀ (xs : List K) (s : K), (∀ x ∈ xs, x = 0 ∨ 1 ≤ |x|) → (s = 0 ∨ 1 ≤ |s|) → ProductsCalm f s xs := by
    intro xs
    induction xs with
    | nil => exact fun _ _ _ => trivial
    | cons x xs ih =>
      intro s hx hs
      have hy : s * x = 0 ∨ 1 ≤ |s * x| := by
        rcases hs with rfl | hs
        · exact .inl (zero_mul x)
        rcases hx x List.mem_cons_self with rfl | h
        · exact .inl (mul_zero s)
        · right
          rw [abs_mul]
          exact one_le_mul_of_one_le_of_one_le hs h
      refine ⟨?_, ih _ (fun z hz => hx z (List.mem_cons_of_mem _ hz)) ?_⟩
      · rcases hy with h | h
        · left
          rw [h]
          exact ⟨0, by simp⟩
        · right
          refine le_trans ?_ h
          have := f.emin_le
          exact zpow_le_one_of_nonpos₀ one_le_two (by omega)
      · rcases hy with h | h
        · left
          rw [h, fl_zero]
        · right
          rcases le_total 0 (s * x) with h0 | h0
          · rw [abs_of_nonneg h0] at h
            have := fl_mono (f := f) h
            rw [fl_value one_value] at this
            exact this.trans (le_abs_self _)
          · rw [abs_of_nonpos h0] at h
            have := fl_mono (f := f) (show s * x ≤ -1 by linarith)
            rw [fl_value (neg_value one_value)] at this
            exact (by linarith : (1 : K) ≤ -f.rn (s * x)).trans (neg_le_abs _)
  exact go xs 1 hv (.inr (by rw [abs_one]))

/-- C192.  The result is zero only if an element is, and has the sign of the product. -/
theorem C192_sign (hA : A.IsFormat f) (xs : List K) (hc : ProductsCalm f 1 xs) {r : K}
    (h : accumulateProductF (xs.map (Num.fin (A := A))) = .fin r) : (r = 0 ↔ 0 ∈ xs) ∧ (0 < r ↔ 0 < xs.prod) := by
  obtain ⟨t, t1, -, rfl⟩ := C192_product hA xs hc h
  have : (0 : K) < 1 - 1 / 2 ^ f.prec := by
    have hp := f.prec_ge
    have : (1 : K) / 2 ^ f.prec < 1 := by rw [div_lt_one (by positivity)]; exact one_lt_pow₀ one_lt_two (by omega)
    linarith
  have t0 : 0 < t := (pow_pos this _).trans_le t1
  exact ⟨by rw [mul_eq_zero, or_iff_left t0.ne', List.prod_eq_zero_iff], mul_pos_iff_of_pos_right t0⟩

/-- C192.  In two orders of the values the results have the same sign and differ at most by the quotient of the two bounds. -/
theorem C192_order (hA : A.IsFormat f) {xs ys : List K} (hp : xs.Perm ys) (hc : ProductsCalm f 1 xs) (hc' : ProductsCalm f 1 ys) {r s : K}
    (h : accumulateProductF (xs.map (Num.fin (A := A))) = .fin r) (h' : accumulateProductF (ys.map (Num.fin (A := A))) = .fin s) :
    0 ≤ r * s ∧ |r| * (1 - 1 / 2 ^ f.prec) ^ xs.length ≤ |s| * (1 + 1 / 2 ^ f.prec) ^ xs.length := by
  have h0 : (0 : K) ≤ 1 - 1 / 2 ^ f.prec := by
    have : (1 : K) / 2 ^ f.prec ≤ 1 := by rw [div_le_one (by positivity)]; exact one_le_pow₀ one_le_two
    linarith
  obtain ⟨t, t1, t2, rfl⟩ := C192_product hA xs hc h
  obtain ⟨u, u1, u2, rfl⟩ := C192_product hA ys hc' h'
  rw [← hp.length_eq] at u1
  rw [← hp.prod_eq]
  have t0 : 0 ≤ t := (pow_nonneg h0 _).trans t1
  have u0 : 0 ≤ u := (pow_nonneg h0 _).trans u1
  refine ⟨?_, ?_⟩
  · rw [show xs.prod * t * (xs.prod * u) = xs.prod * xs.prod * (t * u) by ring]
    exact mul_nonneg (mul_self_nonneg _) (mul_nonneg t0 u0)
  · rw [abs_mul, abs_mul, abs_of_nonneg t0, abs_of_nonneg u0, mul_assoc, mul_assoc]
    refine mul_le_mul_of_nonneg_left ?_ (abs_nonneg _)
    rw [mul_comm u]
    exact mul_le_mul t2 u1 (pow_nonneg h0 _) (t0.trans t2)

theorem rn_quarter (f : FloatFormat) : f.rn ((2 : K) ^ f.emin * (2 : K) ^ (-2 : Int)) = 0 := by
  have hx := two_zpow_pos (K := K) f.emin
  have h1 := fl_nearest (f := f) ((2 : K) ^ f.emin * (2 : K) ^ (-2 : Int)) 0 zero_value
  obtain ⟨m, hm⟩ := value_mult (fl_inFormat (f := f) ((2 : K) ^ f.emin * (2 : K) ^ (-2 : Int)))
  rw [hm] at h1 ⊢
  have e : (2 : K) ^ (-2 : Int) = 1 / 4 := by norm_num
  rw [e, sub_zero, show (2 : K) ^ f.emin * (1 / 4) - m * (2 : K) ^ f.emin = (1 / 4 - m) * (2 : K) ^ f.emin by ring, abs_mul, abs_mul,
    abs_of_pos hx, mul_comm, abs_of_pos (show (0 : K) < 1 / 4 by norm_num)] at h1
  have h2 := le_of_mul_le_mul_left h1 hx
  obtain ⟨h3, h4⟩ := abs_le.1 h2
  have c1 : (m : K) < 1 := by linarith
  have c2 : (-1 : K) < m := by linarith
  have c1' : m < 1 := by exact_mod_cast c1
  have c2' : -1 < m := by exact_mod_cast c2
  have : m = 0 := by omega
  rw [this, Int.cast_zero, zero_mul]

/-- C192.  Underflow has to be excluded: in every format two positive values have the product 0. -/
theorem C192_underflow (hA : A.IsFormat f) : ∃ x y : K, 0 < x ∧ 0 < y ∧ FiniteIn f x ∧ FiniteIn f y ∧
    accumulateProductF [(.fin x : Num A), .fin y] = .fin 0 := by
  have h1 := f.emin_le
  have h2 := f.emax_gt
  have h3 := f.prec_ge
  have fin : ∀ e : Int, f.emin ≤ e → e < f.emax → FiniteIn f ((2 : K) ^ e) := fun e h h' =>
    ⟨two_zpow_value h, by rw [abs_of_pos (two_zpow_pos _)]; exact zpow_lt_zpow_right₀ one_lt_two h'⟩
  have f1 := fin f.emin le_rfl (by omega)
  refine ⟨(2 : K) ^ f.emin, (2 : K) ^ (-2 : Int), two_zpow_pos _, two_zpow_pos _, f1, fin (-2) (by omega) (by omega), ?_⟩
  simp only [accumulateProductF, List.foldl_cons, List.foldl_nil]
  rw [ofInt_one hA, Num.fin_mul, one_mul, Num.round_of (rnd_finite hA f1), Num.fin_mul]
  refine Num.round_of ?_
  rw [hA, FloatFormat.rnd, rn_quarter, if_pos (by rw [abs_zero]; exact two_zpow_pos _)]

/-! ### The hypotheses are met -/

example (hA : A.IsFormat .float) : ProductsCalm .float 1 [(3 : K), -5, 7] ∧
    accumulateProductF ([3, -5, 7].map fun n : Int => (.fin (n : K) : Num A)) = .fin (((-105 : Int)) : K) := by
  refine ⟨C192_calm _ ?_, C148_product_exact hA [3, -5, 7] (by decide)⟩
  intro x hx
  simp only [List.mem_cons, List.not_mem_nil, or_false] at hx
  rcases hx with rfl | rfl | rfl <;> right <;> norm_num

end
end Bwsl
