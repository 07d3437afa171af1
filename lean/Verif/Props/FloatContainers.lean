import Verif.Model.MathFloatContainers
import Verif.Lemmas.FloatFormat
import Verif.Props.Formats

/-! Properties C148 and C149: MathUtils for containers of `float`, `double` and `long double`. -/

namespace Bwsl
open Spec FloatFormat

set_option linter.unusedSectionVars false

section
variable {K : Type} [Field K] [LinearOrder K] [IsStrictOrderedRing K] [FloorRing K] {A : Arith K} {f : FloatFormat}

theorem ofInt_zero (hA : A.IsFormat f) : (CxxFloat.ofInt 0 : Num A) = .fin 0 := by
  rw [Num.ofInt_eq, Int.cast_zero]; exact Num.round_of (rnd_zero hA)

/-! ## sgn and absdiff -/

/-- C148.  sgn is the sign of finite numbers and infinities, and 0 for NaN. -/
theorem C148_sgn (hA : A.IsFormat f) (x : K) :
    (sgnF (.fin x : Num A) = 1 ↔ 0 < x) ∧ (sgnF (.fin x : Num A) = -1 ↔ x < 0) ∧ (sgnF (.fin x : Num A) = 0 ↔ x = 0) ∧
    sgnF (.inf false : Num A) = 1 ∧ sgnF (.inf true : Num A) = -1 ∧ sgnF (.nan : Num A) = 0 := by
  unfold sgnF
  rw [ofInt_zero hA]
  refine ⟨?_, ?_, ?_, rfl, rfl, rfl⟩ <;> simp only [Num.lt_fin, decide_eq_true_eq] <;>
    rcases lt_trichotomy x 0 with h | h | h
  all_goals first
    | (subst h; simp)
    | simp [h, h.not_gt, h.ne, h.ne']

/-- C148.  absdiff is the rounded distance of finite numbers. -/
theorem C148_absdiff (a b : K) : absdiffF (.fin a : Num A) (.fin b) = Num.round A |a - b| := by
  unfold absdiffF
  rw [Num.lt_fin, Num.fin_sub, Num.fin_sub]
  by_cases h : b < a
  · rw [if_pos (decide_eq_true h), abs_of_pos (sub_pos.2 h)]
  · rw [if_neg (by simpa using h), abs_sub_comm, abs_of_nonneg (sub_nonneg.2 (not_lt.1 h))]

/-- C148.  absdiff is symmetric, also for infinities and NaN. -/
theorem C148_absdiff_symm (a b : Num A) : absdiffF a b = absdiffF b a := by
  cases a with
  | fin a =>
    cases b with
    | fin b => rw [C148_absdiff, C148_absdiff, abs_sub_comm]
    | inf n => cases n <;> rfl
    | nan => rfl
  | inf n =>
    cases b with
    | fin b => cases n <;> rfl
    | inf m => cases n <;> cases m <;> rfl
    | nan => rfl
  | nan => cases b <;> rfl

/-- C148.  absdiff is zero for equal finite numbers only: the difference of two different numbers does not underflow. -/
theorem C148_absdiff_zero (hA : A.IsFormat f) {a b : K} (ha : FiniteIn f a) (hb : FiniteIn f b) :
    absdiffF (.fin a : Num A) (.fin b) = .fin 0 ↔ a = b := by
  rw [C148_absdiff]
  constructor
  · intro h
    have h1 := Num.round_eq_fin h
    rw [hA, FloatFormat.rnd] at h1
    split at h1
    · have h2 : f.rn |a - b| = 0 := Option.some.inj h1
      have hm := (value_mult ha.1).sub (value_mult hb.1)
      have h3 := fl_rel (f := f) hm
      rw [← fl_abs] at h2
      rw [abs_eq_zero.1 h2, sub_zero] at h3
      have h4 : |a - b| = 0 := by
        by_contra hne
        have hp := (abs_nonneg (a - b)).lt_of_ne (Ne.symm hne)
        have := mul_le_mul_of_nonneg_left (eps_small (K := K) (f := f)) hp.le
        rw [show |a - b| / 2 ^ f.prec = |a - b| * (1 / 2 ^ f.prec) by ring] at h3
        linarith
      exact sub_eq_zero.1 (abs_eq_zero.1 h4)
    · cases h1
  · rintro rfl
    rw [sub_self, abs_zero]
    exact Num.round_of (rnd_zero hA)

/-! ## max and min -/

theorem num_le_refl {x : Num A} (h : x ≠ .nan) : CxxFloat.le x x = true := by
  cases x with
  | nan => exact absurd rfl h
  | inf n => rw [Num.le_inf_inf]; cases n <;> rfl
  | fin x => rw [Num.le_fin]; exact decide_eq_true le_rfl

theorem num_le_of_not_lt {x y : Num A} (hx : x ≠ .nan) (hy : y ≠ .nan) (h : ¬ CxxFloat.lt x y = true) :
    CxxFloat.le y x = true := (Num.le_or_lt hy hx).resolve_right h

theorem foldl_max_nan (xs : List (Num A)) :
    xs.foldl (fun m y => if CxxFloat.lt m y then y else m) (.nan : Num A) = .nan := by
  induction xs with
  | nil => rfl
  | cons y ys ih =>
    rw [List.foldl_cons, if_neg (by rw [show CxxFloat.lt (.nan : Num A) y = false from by cases y <;> rfl]; simp)]
    exact ih

theorem foldl_min_nan (xs : List (Num A)) :
    xs.foldl (fun m y => if CxxFloat.lt y m then y else m) (.nan : Num A) = .nan := by
  induction xs with
  | nil => rfl
  | cons y ys ih =>
    rw [List.foldl_cons, if_neg (by rw [Num.lt_nan_right]; simp)]
    exact ih

theorem foldl_max_spec (xs : List (Num A)) (m : Num A) (hm : m ≠ .nan) :
    (xs.foldl (fun m y => if CxxFloat.lt m y then y else m) m = m ∨
      xs.foldl (fun m y => if CxxFloat.lt m y then y else m) m ∈ xs) ∧
    xs.foldl (fun m y => if CxxFloat.lt m y then y else m) m ≠ .nan ∧
    CxxFloat.le m (xs.foldl (fun m y => if CxxFloat.lt m y then y else m) m) = true ∧
    ∀ y ∈ xs, y ≠ .nan → CxxFloat.le y (xs.foldl (fun m y => if CxxFloat.lt m y then y else m) m) = true := by
  induction xs generalizing m with
  | nil => exact ⟨.inl rfl, hm, num_le_refl hm, fun y hy => by cases hy⟩
  | cons y ys ih =>
    rw [List.foldl_cons]
    by_cases h : CxxFloat.lt m y = true
    · rw [if_pos h]
      have hy : y ≠ .nan := by rintro rfl; rw [Num.lt_nan_right] at h; cases h
      obtain ⟨a, b, c, d⟩ := ih y hy
      refine ⟨.inr ?_, b, Num.le_trans' (Num.le_of_lt' h) c, ?_⟩
      · rcases a with a | a
        · rw [a]; exact List.mem_cons_self ..
        · exact List.mem_cons_of_mem _ a
      · intro z hz hz'
        rcases List.mem_cons.1 hz with rfl | hz
        · exact c
        · exact d z hz hz'
    · rw [if_neg h]
      obtain ⟨a, b, c, d⟩ := ih m hm
      refine ⟨a.imp id (List.mem_cons_of_mem _), b, c, ?_⟩
      intro z hz hz'
      rcases List.mem_cons.1 hz with rfl | hz
      · exact Num.le_trans' (num_le_of_not_lt hm hz' h) c
      · exact d z hz hz'

theorem foldl_min_spec (xs : List (Num A)) (m : Num A) (hm : m ≠ .nan) :
    (xs.foldl (fun m y => if CxxFloat.lt y m then y else m) m = m ∨
      xs.foldl (fun m y => if CxxFloat.lt y m then y else m) m ∈ xs) ∧
    xs.foldl (fun m y => if CxxFloat.lt y m then y else m) m ≠ .nan ∧
    CxxFloat.le (xs.foldl (fun m y => if CxxFloat.lt y m then y else m) m) m = true ∧
    ∀ y ∈ xs, y ≠ .nan → CxxFloat.le (xs.foldl (fun m y => if CxxFloat.lt y m then y else m) m) y = true := by
  induction xs generalizing m with
  | nil => exact ⟨.inl rfl, hm, num_le_refl hm, fun y hy => by cases hy⟩
  | cons y ys ih =>
    rw [List.foldl_cons]
    by_cases h : CxxFloat.lt y m = true
    · rw [if_pos h]
      have hy : y ≠ .nan := by rintro rfl; rw [Num.lt_nan_left] at h; cases h
      obtain ⟨a, b, c, d⟩ := ih y hy
      refine ⟨.inr ?_, b, Num.le_trans' c (Num.le_of_lt' h), ?_⟩
      · rcases a with a | a
        · rw [a]; exact List.mem_cons_self ..
        · exact List.mem_cons_of_mem _ a
      · intro z hz hz'
        rcases List.mem_cons.1 hz with rfl | hz
        · exact c
        · exact d z hz hz'
    · rw [if_neg h]
      obtain ⟨a, b, c, d⟩ := ih m hm
      refine ⟨a.imp id (List.mem_cons_of_mem _), b, c, ?_⟩
      intro z hz hz'
      rcases List.mem_cons.1 hz with rfl | hz
      · exact Num.le_trans' c (num_le_of_not_lt hz' hm h)
      · exact d z hz hz'

/-- C148.  max of a container that does not begin with NaN: an element, not NaN, at least as large as every other element that
is not NaN.  An empty container is undefined behaviour; a NaN in front is returned. -/
theorem C148_max (xs : List (Num A)) :
    (xs = [] ∧ maxF xs = .ub .outOfBounds) ∨ (xs.head? = some .nan ∧ maxF xs = .ok .nan) ∨
    ∃ m, maxF xs = .ok m ∧ m ∈ xs ∧ m ≠ .nan ∧ ∀ y ∈ xs, y ≠ .nan → CxxFloat.le y m = true := by
  cases xs with
  | nil => exact .inl ⟨rfl, rfl⟩
  | cons x xs =>
    right
    by_cases hx : x = .nan
    · subst hx
      exact .inl ⟨rfl, by rw [maxF, foldl_max_nan]⟩
    · obtain ⟨a, b, c, d⟩ := foldl_max_spec xs x hx
      refine .inr ⟨_, rfl, ?_, b, ?_⟩
      · rcases a with a | a
        · rw [a]; exact List.mem_cons_self ..
        · exact List.mem_cons_of_mem _ a
      · intro y hy hy'
        rcases List.mem_cons.1 hy with rfl | hy
        · exact c
        · exact d y hy hy'

/-- C148.  min, likewise. -/
theorem C148_min (xs : List (Num A)) :
    (xs = [] ∧ minF xs = .ub .outOfBounds) ∨ (xs.head? = some .nan ∧ minF xs = .ok .nan) ∨
    ∃ m, minF xs = .ok m ∧ m ∈ xs ∧ m ≠ .nan ∧ ∀ y ∈ xs, y ≠ .nan → CxxFloat.le m y = true := by
  cases xs with
  | nil => exact .inl ⟨rfl, rfl⟩
  | cons x xs =>
    right
    by_cases hx : x = .nan
    · subst hx
      exact .inl ⟨rfl, by rw [minF, foldl_min_nan]⟩
    · obtain ⟨a, b, c, d⟩ := foldl_min_spec xs x hx
      refine .inr ⟨_, rfl, ?_, b, ?_⟩
      · rcases a with a | a
        · rw [a]; exact List.mem_cons_self ..
        · exact List.mem_cons_of_mem _ a
      · intro y hy hy'
        rcases List.mem_cons.1 hy with rfl | hy
        · exact c
        · exact d y hy hy'

example : maxF [.fin 1, .nan, .fin 3, .fin (2 : K)] = .ok (.fin 3 : Num A) := by
  simp [maxF, Num.lt_nan_right, Num.lt_fin, show (2 : K) ≤ 3 by norm_num]

/-! ## Sums and products -/

/-- one step of the error of a sum -/
theorem format_sum_step {ε T e d k : K} (h0 : 0 ≤ ε) (hT : 0 ≤ T) (hk : k * ε ≤ 1 / 4) (he : e ≤ 2 * k * ε * T)
    (hd : d ≤ (T + e) * ε) : d + e ≤ 2 * (k + 1) * ε * T := by
  have h1 : e ≤ T / 2 := by
    have := mul_le_mul_of_nonneg_right hk hT
    nlinarith
  have h2 : (T + e) * ε ≤ (T + T / 2) * ε := mul_le_mul_of_nonneg_right (by linarith) h0
  have h3 : 0 ≤ ε * T := mul_nonneg h0 hT
  nlinarith

theorem sum_fold (hA : A.IsFormat f) (T : K) (hT : T ≤ (2 : K) ^ (f.emax - 2)) (xs : List K)
    (hv : ∀ x ∈ xs, FiniteIn f x) (s t : K) (k : Nat) (hs : FiniteIn f s) (hk : 4 * (k + xs.length) ≤ 2 ^ f.prec)
    (ht : |t| + (xs.map (|·|)).sum ≤ T) (he : |s - t| ≤ 2 * k * (1 / 2 ^ f.prec) * T) :
    ∃ r, (xs.map (Num.fin (A := A))).foldl (fun acc x => acc + x) (.fin s) = .fin r ∧ FiniteIn f r ∧
      |r - (t + xs.sum)| ≤ 2 * ((k + xs.length : Nat) : K) * (1 / 2 ^ f.prec) * T := by
  induction xs generalizing s t k with
  | nil => exact ⟨s, rfl, hs, by simpa using he⟩
  | cons x xs ih =>
    have b1 := f.emin_le
    have b2 := f.emax_gt
    rw [List.map_cons, List.sum_cons] at ht
    rw [List.length_cons] at hk
    have hx := hv x (List.mem_cons_self ..)
    have hrest : 0 ≤ (xs.map (|·|)).sum := List.sum_nonneg (by simp)
    have hT0 : 0 ≤ T := by have := abs_nonneg t; have := abs_nonneg x; linarith
    have hp : (0 : K) < 2 ^ f.prec := by positivity
    have hkε : (k : K) * (1 / 2 ^ f.prec) ≤ 1 / 4 := by
      rw [mul_one_div, div_le_div_iff₀ hp (by norm_num)]
      have : k * 4 ≤ 1 * 2 ^ f.prec := by omega
      exact_mod_cast this
    have hε0 : (0 : K) ≤ 1 / 2 ^ f.prec := by positivity
    have htx : |t + x| ≤ T := (abs_add_le t x).trans (by linarith)
    have hsx : |s + x| ≤ T + |s - t| := by
      have := abs_add_le (t + x) (s - t)
      rw [show t + x + (s - t) = s + x by ring] at this
      linarith
    have hrel := fl_rel (f := f) ((value_mult hs.1).add (value_mult hx.1))
    rw [div_eq_mul_one_div] at hrel
    have e1 : (2 : K) ^ (f.emax - 1) = 2 * (2 : K) ^ (f.emax - 2) := by
      rw [show f.emax - 1 = 1 + (f.emax - 2) by ring, zpow_add₀ two_ne_zero, zpow_one]
    have hhalf : |s - t| ≤ T / 2 := by
      have := mul_le_mul_of_nonneg_right hkε hT0
      have e : 2 * (k : K) * (1 / 2 ^ f.prec) * T = 2 * ((k : K) * (1 / 2 ^ f.prec) * T) := by ring
      rw [e] at he
      linarith
    have hsx' : |s + x| ≤ (2 : K) ^ (f.emax - 1) := by rw [e1]; linarith
    have hround := round_le hA (e := f.emax - 1) (by omega) (by omega) hsx'
    have hfin : FiniteIn f (f.rn (s + x)) := ⟨fl_inFormat _,
      (fl_abs_le (two_zpow_value (by omega)) hsx').trans_lt (zpow_lt_zpow_right₀ one_lt_two (by omega))⟩
    have herr : |f.rn (s + x) - (t + x)| ≤ 2 * ((k + 1 : Nat) : K) * (1 / 2 ^ f.prec) * T := by
      have h1 := abs_add_le (f.rn (s + x) - (s + x)) (s - t)
      rw [show f.rn (s + x) - (s + x) + (s - t) = f.rn (s + x) - (t + x) by ring, abs_sub_comm (f.rn (s + x)) (s + x)] at h1
      push_cast
      refine h1.trans (format_sum_step hε0 hT0 hkε he (hrel.trans ?_))
      exact mul_le_mul_of_nonneg_right hsx hε0
    obtain ⟨r, h1, h2, h3⟩ := ih (fun y hy => hv y (List.mem_cons_of_mem _ hy)) (f.rn (s + x)) (t + x) (k + 1) hfin
      (by omega) (by have := abs_add_le t x; linarith) herr
    refine ⟨r, ?_, h2, ?_⟩
    · rw [List.map_cons, List.foldl_cons, Num.fin_add, hround]; exact h1
    · rw [List.sum_cons, List.length_cons, ← add_assoc, show k + (xs.length + 1) = k + 1 + xs.length by omega]; exact h3

theorem zero_finite : FiniteIn f (0 : K) := ⟨zero_value, by rw [abs_zero]; exact two_zpow_pos _⟩

/-- C148.  accumulate_sum of n finite values, 4n at most 2^p, whose absolute values add up to at most a quarter of the range: a
finite number within 2 n 2^-p of the sum, relative to the sum of the absolute values. -/
theorem C148_sum_error (hA : A.IsFormat f) (xs : List K) (hv : ∀ x ∈ xs, FiniteIn f x) (hn : 4 * xs.length ≤ 2 ^ f.prec)
    (hT : (xs.map (|·|)).sum ≤ (2 : K) ^ (f.emax - 2)) :
    ∃ r, accumulateSumF (xs.map (Num.fin (A := A))) = .fin r ∧ FiniteIn f r ∧
      |r - xs.sum| ≤ 2 * (xs.length : K) * (1 / 2 ^ f.prec) * (xs.map (|·|)).sum := by
  have := sum_fold hA _ hT xs hv 0 0 0 zero_finite (by omega) (by simp) (by simp)
  simpa only [accumulateSumF, ofInt_zero hA, zero_add] using this

theorem int_finite {n : Int} (h : |n| ≤ 2 ^ f.prec) : FiniteIn f (n : K) := by
  refine ⟨int_value h, ?_⟩
  have h1 : |(n : K)| ≤ (2 : K) ^ (f.prec : Int) := by rw [zpow_natCast]; exact_mod_cast h
  exact h1.trans_lt (zpow_lt_zpow_right₀ one_lt_two (by have := f.emax_prec; omega))

theorem int_sum_fold (hA : A.IsFormat f) (ns : List Int) (s : Int) (h : |s| + (ns.map (|·|)).sum ≤ 2 ^ f.prec) :
    (ns.map (fun n : Int => (.fin (n : K) : Num A))).foldl (fun acc x => acc + x) (.fin (s : K)) = .fin ((s + ns.sum : Int) : K) := by
  induction ns generalizing s with
  | nil => simp
  | cons n ns ih =>
    rw [List.map_cons, List.sum_cons] at h
    have hrest : 0 ≤ (ns.map (|·|)).sum := List.sum_nonneg (by simp)
    have h1 := abs_add_le s n
    rw [List.map_cons, List.foldl_cons, Num.fin_add, ← Int.cast_add, Num.round_of (rnd_finite hA (int_finite (by linarith))),
      ih (s + n) (by linarith), List.sum_cons, add_assoc]

/-- C148.  accumulate_sum of whole numbers whose absolute values add up to at most 2^p is exact. -/
theorem C148_sum_exact (hA : A.IsFormat f) (ns : List Int) (h : (ns.map (|·|)).sum ≤ 2 ^ f.prec) :
    accumulateSumF (ns.map (fun n : Int => (.fin (n : K) : Num A))) = .fin ((ns.sum : Int) : K) := by
  have := int_sum_fold hA ns 0 (by simpa using h)
  simpa only [accumulateSumF, ofInt_zero hA, Int.cast_zero, zero_add] using this

theorem int_prod_fold (hA : A.IsFormat f) (ns : List Int) (s : Int)
    (h : max |s| 1 * (ns.map (fun n => max |n| 1)).prod ≤ 2 ^ f.prec) :
    (ns.map (fun n : Int => (.fin (n : K) : Num A))).foldl (fun acc x => acc * x) (.fin (s : K)) = .fin ((s * ns.prod : Int) : K) := by
  induction ns generalizing s with
  | nil => simp
  | cons n ns ih =>
    rw [List.map_cons, List.prod_cons, ← mul_assoc] at h
    have hrest : 1 ≤ (ns.map (fun n => max |n| 1)).prod := by
      clear h ih
      induction ns with
      | nil => simp
      | cons m ns ih' =>
        rw [List.map_cons, List.prod_cons]
        nlinarith [le_max_right |m| 1]
    have hm : max |s * n| 1 ≤ max |s| 1 * max |n| 1 := by
      rw [abs_mul]
      refine max_le (mul_le_mul (le_max_left _ _) (le_max_left _ _) (abs_nonneg _) (by positivity)) ?_
      nlinarith [le_max_right |s| 1, le_max_right |n| 1]
    have h2 : max |s * n| 1 * (ns.map (fun n => max |n| 1)).prod ≤ 2 ^ f.prec :=
      (mul_le_mul_of_nonneg_right hm (by linarith)).trans h
    have h3 : |s * n| ≤ 2 ^ f.prec := by
      have := le_max_left |s * n| 1
      have := le_max_right |s * n| 1
      nlinarith
    rw [List.map_cons, List.foldl_cons, Num.fin_mul, ← Int.cast_mul, Num.round_of (rnd_finite hA (int_finite h3)), ih (s * n) h2,
      List.prod_cons, mul_assoc]

/-- C148.  accumulate_product of whole numbers is exact if the product of the absolute values, zeros left out, is at most 2^p. -/
theorem C148_product_exact (hA : A.IsFormat f) (ns : List Int) (h : (ns.map (fun n => max |n| 1)).prod ≤ 2 ^ f.prec) :
    accumulateProductF (ns.map (fun n : Int => (.fin (n : K) : Num A))) = .fin ((ns.prod : Int) : K) := by
  have one : (CxxFloat.ofInt 1 : Num A) = .fin ((1 : Int) : K) := by
    rw [Num.ofInt_eq]
    exact Num.round_of (rnd_finite hA (int_finite (by have : (1 : Int) ≤ 2 ^ f.prec := one_le_pow₀ (by norm_num); simpa using this)))
  have := int_prod_fold hA ns 1 (by simpa using h)
  simpa only [accumulateProductF, one, one_mul] using this

example (hA : A.IsFormat FloatFormat.float) :
    accumulateSumF ([3, -5, 16000000].map (fun n : Int => (.fin (n : K) : Num A))) = .fin ((15999998 : Int) : K) :=
  C148_sum_exact hA _ (by norm_num [FloatFormat.float])

/-! ## sum_into, subtract_into, invert -/

theorem transformIntoF_spec {F : Type} [CxxFloat F] (op : F → F → F) (l r : List F) :
    transformIntoF op l r = if l.length ≤ r.length then .ok (List.zipWith op l r) else .ub .outOfBounds := by
  induction l generalizing r with
  | nil => simp [transformIntoF]
  | cons a as ih =>
    cases r with
    | nil => simp [transformIntoF]
    | cons b bs =>
      simp only [transformIntoF, ih, List.length_cons, Nat.add_le_add_iff_right, List.zipWith_cons_cons]
      split <;> rfl

/-- C148.  sum_into and subtract_into work element by element; a shorter right side is undefined behaviour, and further elements
of a longer one are ignored. -/
theorem C148_into (l r : List (Num A)) :
    sumIntoF l r = (if l.length ≤ r.length then .ok (List.zipWith (· + ·) l r) else .ub .outOfBounds) ∧
    subtractIntoF l r = (if l.length ≤ r.length then .ok (List.zipWith (· - ·) l r) else .ub .outOfBounds) :=
  ⟨transformIntoF_spec .., transformIntoF_spec ..⟩

/-- C148.  invert keeps the size, changes the sign of each finite element, and twice restores every container. -/
theorem C148_invert (c : List (Num A)) (xs : List K) :
    (invertF c).length = c.length ∧ invertF (invertF c) = c ∧
    invertF (xs.map (Num.fin (A := A))) = xs.map (fun x => .fin (-x)) := by
  refine ⟨by simp [invertF], ?_, by simp [invertF, Num.fin_neg]⟩
  have h : ∀ x : Num A, - -x = x := by
    intro x
    cases x with
    | nan => rfl
    | inf n => cases n <;> rfl
    | fin x => rw [Num.fin_neg, Num.fin_neg, neg_neg]
  rw [invertF, invertF, List.map_map]
  exact (List.map_congr_left (fun x _ => h x)).trans (List.map_id c)

/-! ## C149: order of summation, undoing a sum -/

/-- Twice 2^p absorbs a 1. -/
theorem absorb : f.rn ((2 : K) ^ (f.prec + 1) + 1) = 2 ^ (f.prec + 1) := by
  have hp := f.prec_ge
  have hpos : (0 : K) < 2 ^ (f.prec + 1) := by positivity
  have hu : 2 ≤ f.ulpExp ((2 : K) ^ (f.prec + 1) + 1) := by
    have h1 := fl_abs_lt_ulp (f := f) ((2 : K) ^ (f.prec + 1) + 1)
    rw [abs_of_pos (by linarith)] at h1
    have h2 : (2 : K) ^ ((f.prec : Int) + 1) < (2 : K) ^ (f.ulpExp ((2 : K) ^ (f.prec + 1) + 1) + f.prec) := by
      refine lt_trans ?_ h1
      rw [show (f.prec : Int) + 1 = ((f.prec + 1 : Nat) : Int) by push_cast; ring, zpow_natCast]
      linarith
    have := (zpow_lt_zpow_iff_right₀ (one_lt_two (α := K))).1 h2
    omega
  obtain ⟨m, hm⟩ := (fl_mult_ulp (f := f) ((2 : K) ^ (f.prec + 1) + 1)).mono hu
  have hz : InFormat f ((2 : K) ^ (f.prec + 1)) := by
    have := two_zpow_value (f := f) (K := K) (e := ((f.prec + 1 : Nat) : Int)) (by have := f.emin_le; omega)
    rwa [zpow_natCast] at this
  have hn := fl_nearest (f := f) ((2 : K) ^ (f.prec + 1) + 1) _ hz
  rw [add_sub_cancel_left, abs_one, hm] at hn
  obtain ⟨q, hq⟩ : ∃ q : Int, (2 : Int) ^ (f.prec + 1) = q * 4 :=
    ⟨2 ^ (f.prec - 1), by rw [show f.prec + 1 = f.prec - 1 + 2 by omega, pow_add]; norm_num⟩
  have hqK : (2 : K) ^ (f.prec + 1) = ((q * 4 : Int) : K) := by rw [← hq]; push_cast; rfl
  have hm4 : (m : K) * (2 : K) ^ (2 : Int) = ((m * 4 : Int) : K) := by push_cast; norm_num
  rw [hm4, hqK] at hn
  have hn' : |q * 4 + 1 - m * 4| ≤ 1 := by exact_mod_cast hn
  have : m = q := by rw [abs_le] at hn'; omega
  rw [hm, hm4, hqK, this]

theorem big_finite : FiniteIn f ((2 : K) ^ (f.prec + 1)) := by
  have h : (2 : K) ^ (f.prec + 1) = (2 : K) ^ ((f.prec + 1 : Nat) : Int) := (zpow_natCast _ _).symm
  have := f.emin_le
  have := f.emax_prec
  rw [h]
  exact ⟨two_zpow_value (by omega), by
    rw [abs_of_pos (two_zpow_pos _)]; exact zpow_lt_zpow_right₀ one_lt_two (by omega)⟩

theorem absorb_round (hA : A.IsFormat f) : Num.round A ((2 : K) ^ (f.prec + 1) + 1) = .fin (2 ^ (f.prec + 1)) := by
  refine Num.round_of ?_
  rw [hA, FloatFormat.rnd, absorb, if_pos big_finite.2]


theorem cancel_round (hA : A.IsFormat f) (x : K) : Num.round A (x + -x) = .fin 0 := by
  rw [add_neg_cancel]; exact Num.round_of (rnd_zero hA)

/-- C149 is violated: in every format accumulate_sum depends on the order of the elements. -/
theorem C149_sum_order_violated (hA : A.IsFormat f) :
    ∃ l l' : List (Num A), l.Perm l' ∧ accumulateSumF l = .fin 0 ∧ accumulateSumF l' = .fin 1 := by
  refine ⟨[.fin (2 ^ (f.prec + 1)), .fin 1, .fin (-2 ^ (f.prec + 1))], [.fin (2 ^ (f.prec + 1)), .fin (-2 ^ (f.prec + 1)), .fin 1],
    .cons _ (.swap ..), ?_, ?_⟩
  · simp only [accumulateSumF, List.foldl_cons, List.foldl_nil, ofInt_zero hA, Num.fin_add, zero_add]
    rw [Num.round_of (rnd_finite hA big_finite), Num.fin_add, absorb_round hA, Num.fin_add, cancel_round hA]
  · simp only [accumulateSumF, List.foldl_cons, List.foldl_nil, ofInt_zero hA, Num.fin_add, zero_add]
    rw [Num.round_of (rnd_finite hA big_finite), Num.fin_add, cancel_round hA, Num.fin_add, zero_add,
      Num.round_of (rnd_finite hA one_finite)]

/-- C149, what holds: whole numbers whose absolute values add up to at most 2^p can be summed in any order. -/
theorem C149_sum_order_partial (hA : A.IsFormat f) (ns ms : List Int) (hp : ns.Perm ms) (h : (ns.map (|·|)).sum ≤ 2 ^ f.prec) :
    accumulateSumF (ns.map (fun n : Int => (.fin (n : K) : Num A))) = accumulateSumF (ms.map (fun n : Int => (.fin (n : K) : Num A))) := by
  rw [C148_sum_exact hA ns h, C148_sum_exact hA ms (by rw [← (hp.map _).sum_eq]; exact h), hp.sum_eq]

/-- C149 is violated: in every format subtract_into does not undo sum_into. -/
theorem C149_undo_violated (hA : A.IsFormat f) :
    ∃ l r : List (Num A), (sumIntoF l r).bind (fun s => subtractIntoF s r) = .ok [.fin 0] ∧ l = [.fin 1] := by
  refine ⟨[.fin 1], [.fin (2 ^ (f.prec + 1))], ?_, rfl⟩
  rw [(C148_into _ _).1, if_pos (by simp)]
  show subtractIntoF _ _ = _
  rw [(C148_into _ _).2, if_pos (by simp)]
  simp only [List.zipWith_cons_cons, List.zipWith_nil_left, Num.fin_add]
  rw [add_comm (1 : K), absorb_round hA, Num.fin_sub, sub_self, Num.round_of (rnd_zero hA)]

/-- C149, what holds: subtract_into undoes sum_into if every sum is a value of the format. -/
theorem C149_undo_partial (hA : A.IsFormat f) (ps : List (K × K)) (h : ∀ p ∈ ps, FiniteIn f p.1 ∧ FiniteIn f (p.1 + p.2)) :
    (sumIntoF (ps.map (fun p => (.fin p.1 : Num A))) (ps.map (fun p => .fin p.2))).bind
      (fun s => subtractIntoF s (ps.map (fun p => .fin p.2))) = .ok (ps.map (fun p => .fin p.1)) := by
  rw [(C148_into _ _).1, if_pos (by simp)]
  show subtractIntoF _ _ = _
  rw [(C148_into _ _).2, if_pos (by simp)]
  congr 1
  induction ps with
  | nil => rfl
  | cons p ps ih =>
    obtain ⟨h1, h2⟩ := h p (List.mem_cons_self ..)
    simp only [List.map_cons, List.zipWith_cons_cons]
    rw [ih (fun q hq => h q (List.mem_cons_of_mem _ hq)), Num.fin_add, Num.round_of (rnd_finite hA h2), Num.fin_sub,
      add_sub_cancel_right, Num.round_of (rnd_finite hA h1)]

example (hA : A.IsFormat FloatFormat.float) :
    (sumIntoF [(.fin 1 : Num A)] [.fin 0]).bind (fun s => subtractIntoF s [.fin 0]) = .ok [.fin 1] :=
  C149_undo_partial hA [(1, 0)] (by
    intro p hp
    rw [List.mem_singleton] at hp
    subst hp
    exact ⟨one_finite, by simpa using one_finite⟩)

end

end Bwsl
