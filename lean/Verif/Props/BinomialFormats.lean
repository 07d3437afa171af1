import Verif.Model.BinomialFloat
import Verif.Props.NormFormats
import Verif.Props.MathUnsigned

/-! Property C158: binomial coefficients with floating-point arguments. -/

namespace Bwsl
open Spec FloatFormat

section
variable {A B : Arith ℝ} {f g : FloatFormat}

theorem nat_finite {n : Nat} (h : n ≤ 2 ^ f.prec) : FiniteIn f (n : ℝ) := by
  have := int_finite (K := ℝ) (f := f) (n := n) (by rw [abs_of_nonneg (by positivity)]; exact_mod_cast h)
  simpa using this

theorem round_nat_in (hA : A.IsFormat f) {n : Nat} (h : n ≤ 2 ^ f.prec) : Num.round A (n : ℝ) = .fin (n : ℝ) :=
  Num.round_of (rnd_finite hA (nat_finite h))

theorem ofInt_one_in (hA : A.IsFormat f) : (CxxFloat.ofInt 1 : Num A) = .fin 1 := by
  rw [Num.ofInt_eq, Int.cast_one]
  have := round_nat_in hA (n := 1) Nat.one_le_two_pow
  simpa using this

/-- The factor n+1-i of the loop is exact. -/
theorem binom_factor (hA : A.IsFormat f) {n i : Nat} (hn : n < 2 ^ f.prec) (hi : i ≤ n) :
    (.fin (n : ℝ) + CxxFloat.ofInt 1 - .fin ((i + 1 : Nat) : ℝ) : Num A) = .fin ((n - i : Nat) : ℝ) := by
  rw [ofInt_one_in hA, Num.fin_add, show (n : ℝ) + 1 = ((n + 1 : Nat) : ℝ) by push_cast; rfl, round_nat_in hA (by omega), Num.fin_sub,
    show ((n + 1 : Nat) : ℝ) - ((i + 1 : Nat) : ℝ) = ((n - i : Nat) : ℝ) by push_cast [Nat.cast_sub hi]; ring,
    round_nat_in hA (by omega)]

theorem binom_next (hA : A.IsFormat f) {i : Nat} (hi : i + 2 ≤ 2 ^ f.prec) :
    (.fin ((i + 1 : Nat) : ℝ) + CxxFloat.ofInt 1 : Num A) = .fin ((i + 2 : Nat) : ℝ) := by
  rw [ofInt_one_in hA, Num.fin_add, show ((i + 1 : Nat) : ℝ) + 1 = ((i + 2 : Nat) : ℝ) by push_cast; ring, round_nat_in hA hi]

/-- What `res` is after `i` passes of the loop; `H` excludes overflows. -/
def Spec.Binom (f : FloatFormat) (H : Prop) (n i : Nat) (d : Num A) : Prop :=
  (d = .inf false ∧ ¬H) ∨ ∃ r, d = .fin r ∧ FiniteIn f r ∧ 1 ≤ r ∧
    (1 - 1 / 2 ^ f.prec) ^ (2 * i) * (Nat.choose n i : ℝ) ≤ r ∧ r ≤ (1 + 1 / 2 ^ f.prec) ^ (2 * i) * (Nat.choose n i : ℝ)

theorem one_mult : Mult 0 (1 : ℝ) := ⟨1, by simp⟩

theorem mult_nat {e : Int} {x : ℝ} (h : Mult e x) (n : Nat) : Mult e (x * n) := by
  obtain ⟨m, rfl⟩ := h
  exact ⟨m * n, by push_cast; ring⟩

theorem binom_step (hA : A.IsFormat f) {n m i : Nat} (hn : n < 2 ^ f.prec) (hm : 2 * m ≤ n) (hi : i + 1 ≤ m) {H : Prop}
    (hH : H → (1 + 1 / 2 ^ f.prec) ^ (2 * m) * ((Nat.choose n m * m : Nat) : ℝ) ≤ (2 : ℝ) ^ (f.emax - 1)) {d : Num A}
    (hd : Binom f H n i d) : Binom f H n (i + 1) (d * .fin ((n - i : Nat) : ℝ) / .fin ((i + 1 : Nat) : ℝ)) := by
  have hi1 : (0 : ℝ) < ((i + 1 : Nat) : ℝ) := by positivity
  have hni : (0 : ℝ) < ((n - i : Nat) : ℝ) := by
    have : 0 < n - i := by omega
    exact_mod_cast this
  have hinf : (.inf false * .fin ((n - i : Nat) : ℝ) : Num A) = .inf false := by
    refine (if_neg hni.ne').trans ?_
    rw [decide_eq_false (not_lt.2 hni.le)]; rfl
  have hinf' : (.inf false / .fin ((i + 1 : Nat) : ℝ) : Num A) = .inf false := by
    show Num.inf (false != decide (((i + 1 : Nat) : ℝ) < 0)) = _
    rw [decide_eq_false (not_lt.2 hi1.le)]; rfl
  rcases hd with ⟨rfl, h⟩ | ⟨r, rfl, hr, hr1, h1, h2⟩
  · rw [hinf, hinf']; exact .inl ⟨rfl, h⟩
  have hu0 := eps_pos (K := ℝ) (f := f)
  have hus := eps_small (K := ℝ) (f := f)
  have hu1 : (1 : ℝ) / 2 ^ f.prec ≤ 1 := by linarith
  have hemin := f.emin_le
  have hprec := f.prec_ge
  have hemax := f.emax_gt
  have hch : (Nat.choose n i : ℝ) * ((n - i : Nat) : ℝ) = (Nat.choose n (i + 1) : ℝ) * ((i + 1 : Nat) : ℝ) := by
    exact_mod_cast choose_step n i
  have hpos : 0 ≤ r * ((n - i : Nat) : ℝ) := by positivity
  rw [Num.fin_mul, round_pos_in hA hpos]
  -- no overflow under H
  have hup : H → r * ((n - i : Nat) : ℝ) ≤ (2 : ℝ) ^ (f.emax - 1) := by
    intro h
    refine le_trans ?_ (hH h)
    calc r * ((n - i : Nat) : ℝ) ≤ (1 + 1 / 2 ^ f.prec) ^ (2 * i) * (Nat.choose n i : ℝ) * ((n - i : Nat) : ℝ) :=
          mul_le_mul_of_nonneg_right h2 hni.le
      _ = (1 + 1 / 2 ^ f.prec) ^ (2 * i) * ((Nat.choose n (i + 1) * (i + 1) : Nat) : ℝ) := by
          rw [mul_assoc, hch]; push_cast; rfl
      _ ≤ _ := mul_le_mul (pow_le_pow_right₀ (by linarith) (by omega))
          (by exact_mod_cast choose_mul_mono hi hm) (by positivity) (by positivity)
  have hq2 : H → f.rn (r * ((n - i : Nat) : ℝ)) ≤ (2 : ℝ) ^ (f.emax - 1) := by
    intro h
    have := fl_mono (f := f) (hup h)
    rwa [fl_value (two_zpow_value (by omega))] at this
  have hlt : (2 : ℝ) ^ (f.emax - 1) < (2 : ℝ) ^ f.emax := zpow_lt_zpow_right₀ one_lt_two (by omega)
  split
  swap
  · next hc =>
    rw [hinf']
    exact .inl ⟨rfl, fun h => hc ((hq2 h).trans_lt hlt)⟩
  have hq1 : ((i + 1 : Nat) : ℝ) ≤ f.rn (r * ((n - i : Nat) : ℝ)) := by
    have h3 : ((i + 1 : Nat) : ℝ) ≤ r * ((n - i : Nat) : ℝ) := by
      have h4 : ((i + 1 : Nat) : ℝ) ≤ ((n - i : Nat) : ℝ) := by
        have : i + 1 ≤ n - i := by omega
        exact_mod_cast this
      nlinarith
    have := fl_mono (f := f) h3
    rwa [fl_value (nat_finite (by omega)).1] at this
  have e1 := fl_rel (f := f) (mult_nat (value_mult hr.1) (n - i))
  rw [abs_of_nonneg hpos, div_eq_mul_one_div, abs_le] at e1
  obtain ⟨q, hq⟩ : ∃ q, q = f.rn (r * ((n - i : Nat) : ℝ)) := ⟨_, rfl⟩
  rw [← hq] at e1 hq1 hq2 ⊢
  have hqi : 1 ≤ q / ((i + 1 : Nat) : ℝ) := (one_le_div hi1).2 hq1
  have hqn : 0 ≤ q / ((i + 1 : Nat) : ℝ) := by linarith
  rw [Num.fin_div hi1.ne', round_pos_in hA hqn]
  have hqle : q / ((i + 1 : Nat) : ℝ) ≤ q := div_le_self (by linarith) (by push_cast; linarith [(Nat.cast_nonneg i : (0 : ℝ) ≤ i)])
  split
  swap
  · next hc =>
    refine .inl ⟨rfl, fun h => hc (lt_of_le_of_lt ?_ hlt)⟩
    have := fl_mono (f := f) (hqle.trans (hq2 h))
    rwa [fl_value (two_zpow_value (by omega))] at this
  next hfin =>
  have e2 := fl_rel_normal (f := f) (x := q / ((i + 1 : Nat) : ℝ)) (by
    rw [abs_of_nonneg hqn]
    exact le_trans (zpow_le_one_of_nonpos₀ one_le_two (by omega)) hqi)
  rw [abs_of_nonneg hqn, div_eq_mul_one_div (q / _), abs_le] at e2
  refine .inr ⟨_, rfl, ⟨fl_inFormat _, by rwa [abs_of_nonneg (fl_nonneg hqn)]⟩, ?_, ?_⟩
  · have := fl_mono (f := f) hqi
    rwa [fl_value one_value] at this
  have hS : (Nat.choose n i : ℝ) * ((n - i : Nat) : ℝ) / ((i + 1 : Nat) : ℝ) = (Nat.choose n (i + 1) : ℝ) := by
    rw [hch, mul_div_assoc, div_self hi1.ne', mul_one]
  obtain ⟨c, hc⟩ : ∃ c, c = ((n - i : Nat) : ℝ) / ((i + 1 : Nat) : ℝ) := ⟨_, rfl⟩
  have hc0 : 0 ≤ c := by rw [hc]; positivity
  rw [mul_div_assoc, ← hc] at hS
  have a1 : (1 - 1 / 2 ^ f.prec) ^ (2 * i) * (Nat.choose n (i + 1) : ℝ) ≤ r * c := by
    rw [← hS, ← mul_assoc]; exact mul_le_mul_of_nonneg_right h1 hc0
  have a2 : r * c ≤ (1 + 1 / 2 ^ f.prec) ^ (2 * i) * (Nat.choose n (i + 1) : ℝ) := by
    rw [← hS, ← mul_assoc]; exact mul_le_mul_of_nonneg_right h2 hc0
  have hrc : r * c = r * ((n - i : Nat) : ℝ) / ((i + 1 : Nat) : ℝ) := by rw [hc, mul_div_assoc]
  have b1 : (1 - 1 / 2 ^ f.prec) ^ 1 * (r * c) ≤ q / ((i + 1 : Nat) : ℝ) := by
    rw [hrc, pow_one, ← mul_div_assoc]
    exact div_le_div_of_nonneg_right (by linarith [e1.2]) hi1.le
  have b2 : q / ((i + 1 : Nat) : ℝ) ≤ (1 + 1 / 2 ^ f.prec) ^ 1 * (r * c) := by
    rw [hrc, pow_one, ← mul_div_assoc]
    exact div_le_div_of_nonneg_right (by linarith [e1.1]) hi1.le
  obtain ⟨c1, c2⟩ := chain_factor hu0.le hu1 a1 a2 b1 b2
  clear b1 b2 hqle hqi hfin
  generalize q / ((i + 1 : Nat) : ℝ) = z at e2 c1 c2 ⊢
  exact chain_factor (a := 2 * i + 1) (b := 1) hu0.le hu1 c1 c2 (by rw [pow_one]; linarith [e2.2]) (by rw [pow_one]; linarith [e2.1])

theorem binom_loop (hA : A.IsFormat f) {n m : Nat} (hn : n < 2 ^ f.prec) (hm : 2 * m ≤ n) {H : Prop}
    (hH : H → (1 + 1 / 2 ^ f.prec) ^ (2 * m) * ((Nat.choose n m * m : Nat) : ℝ) ≤ (2 : ℝ) ^ (f.emax - 1)) (j : Nat) :
    ∀ (i : Nat) (d : Num A), i + j = m → Binom f H n i d → ∃ e, Binom f H n m e ∧
    whileLoop (fun s => CxxFloat.le s.i (.fin (m : ℝ))) (cbinomialBodyF (.fin (n : ℝ))) ⟨d, .fin ((i + 1 : Nat) : ℝ)⟩ =
      .ok ⟨e, .fin ((m + 1 : Nat) : ℝ)⟩ := by
  induction j with
  | zero =>
    intro i d hi hd
    have : i = m := by omega
    subst this
    refine ⟨d, hd, whileLoop_done ?_⟩
    rw [Num.le_fin]
    exact decide_eq_false (by push_cast; linarith)
  | succ j ih =>
    intro i d hi hd
    obtain ⟨e, he, hl⟩ := ih (i + 1) _ (by omega) (binom_step hA hn hm (by omega) hH hd)
    refine ⟨e, he, Eq.trans (whileLoop_step ?_ ?_) hl⟩
    · rw [Num.le_fin]
      exact decide_eq_true (by exact_mod_cast (by omega : i + 1 ≤ m))
    · unfold cbinomialBodyF
      dsimp only
      rw [binom_factor hA hn (by omega), binom_next hA (by omega)]

theorem cbinomialF_start (hA : A.IsFormat f) {n k : Nat} (hk : k ≤ n) (hn : n < 2 ^ f.prec) :
    cbinomialF B (.fin (n : ℝ) : Num A) (.fin (k : ℝ)) =
      (whileLoop (fun s => CxxFloat.le s.i (.fin (side n k : ℝ))) (cbinomialBodyF (.fin (n : ℝ) : Num A))
        ⟨.fin 1, .fin 1⟩ >>= fun s => .ok (s.res.convert B)) := by
  have h1 : CxxFloat.lt (.fin (n : ℝ) : Num A) (.fin (k : ℝ)) = false := by
    rw [Num.lt_fin]
    exact decide_eq_false (not_lt.2 (by exact_mod_cast hk))
  have h2 : (.fin (n : ℝ) - .fin (k : ℝ) : Num A) = .fin ((n - k : Nat) : ℝ) := by
    rw [Num.fin_sub, ← Nat.cast_sub hk, round_nat_in hA (by omega)]
  have h3 : (if CxxFloat.lt (.fin ((n - k : Nat) : ℝ) : Num A) (.fin (k : ℝ)) = true then (.fin ((n - k : Nat) : ℝ) : Num A)
      else .fin (k : ℝ)) = .fin (side n k : ℝ) := by
    rw [Num.lt_fin]
    by_cases h : n - k < k
    · rw [if_pos (decide_eq_true (by exact_mod_cast h))]
      rw [show side n k = n - k by unfold side; omega]
    · rw [if_neg (by rw [decide_eq_true_eq]; exact_mod_cast h)]
      rw [show side n k = k by unfold side; omega]
  unfold cbinomialF
  simp only [h1, h2, h3, ofInt_one_in hA, Bool.false_eq_true, if_false]

/-- C158.  `cbinomial<T>(n, k)` at a floating-point type of precision p, for whole numbers 0 <= k <= n < 2^p and with m the
smaller of k and n-k: `res`, that is converted to `double`, is infinite or within a factor (1+-2^-p)^(2m) of C(n,k).  It is
finite if m C(n,k), times the same factor, is at most half of the range. -/
theorem C158_error (hA : A.IsFormat f) (B : Arith ℝ) (n k : Nat) (hk : k ≤ n) (hn : n < 2 ^ f.prec) :
    ∃ d : Num A, cbinomialF B (.fin (n : ℝ) : Num A) (.fin (k : ℝ)) = .ok (d.convert B) ∧
      (d = .inf false ∨ ∃ r, d = .fin r ∧ FiniteIn f r ∧ 1 ≤ r ∧
        (1 - 1 / 2 ^ f.prec) ^ (2 * side n k) * (Nat.choose n k : ℝ) ≤ r ∧
        r ≤ (1 + 1 / 2 ^ f.prec) ^ (2 * side n k) * (Nat.choose n k : ℝ)) ∧
      ((1 + 1 / 2 ^ f.prec) ^ (2 * side n k) * ((Nat.choose n k * side n k : Nat) : ℝ) ≤ (2 : ℝ) ^ (f.emax - 1) →
        d ≠ .inf false) := by
  obtain ⟨H, hH⟩ : ∃ H : Prop, H ↔ (1 + 1 / 2 ^ f.prec) ^ (2 * side n k) * ((Nat.choose n k * side n k : Nat) : ℝ) ≤
    (2 : ℝ) ^ (f.emax - 1) := ⟨_, Iff.rfl⟩
  have h0 : Binom f H n 0 (.fin 1 : Num A) :=
    .inr ⟨1, rfl, by simpa using nat_finite (f := f) (n := 1) Nat.one_le_two_pow, le_rfl, by simp, by simp⟩
  obtain ⟨e, he, hl⟩ := binom_loop hA hn (m := side n k) (by unfold side; omega)
    (H := H) (by rw [choose_side hk]; exact hH.1) (side n k) 0 _ (by omega) h0
  refine ⟨e, ?_, ?_, fun h he' => ?_⟩
  · rw [cbinomialF_start hA hk hn]
    simp only [Nat.zero_add, Nat.cast_one] at hl
    rw [hl, Res.ok_bind]
  · unfold Binom at he
    rw [choose_side hk] at he
    exact he.imp_left And.left
  · rcases he with h1 | ⟨r, h1, -⟩
    · exact h1.2 (hH.2 h)
    · rw [h1] at he'; cases he'

/-- C158.  It is exact if m C(n,k) is at most 2^p: all the products and quotients are whole numbers. -/
theorem C158_exact (hA : A.IsFormat f) (hB : B.IsFormat g) (n k : Nat) (hk : k ≤ n) (hn : n < 2 ^ f.prec)
    (h : Nat.choose n k * side n k ≤ 2 ^ f.prec) (hg : Nat.choose n k ≤ 2 ^ g.prec) :
    cbinomialF B (.fin (n : ℝ) : Num A) (.fin (k : ℝ)) = .ok (.fin (Nat.choose n k : ℝ)) := by
  have hm : 2 * side n k ≤ n := by unfold side; omega
  have loop : ∀ j i : Nat, i + j = side n k →
      whileLoop (fun s => CxxFloat.le s.i (.fin (side n k : ℝ))) (cbinomialBodyF (.fin (n : ℝ) : Num A))
        ⟨.fin (Nat.choose n i : ℝ), .fin ((i + 1 : Nat) : ℝ)⟩ =
      .ok ⟨.fin (Nat.choose n (side n k) : ℝ), .fin ((side n k + 1 : Nat) : ℝ)⟩ := by
    intro j
    induction j with
    | zero =>
      intro i hi
      have : i = side n k := by omega
      subst this
      refine whileLoop_done ?_
      rw [Num.le_fin]
      exact decide_eq_false (by push_cast; linarith)
    | succ j ih =>
      intro i hi
      refine Eq.trans (whileLoop_step ?_ ?_) (ih (i + 1) (by omega))
      · rw [Num.le_fin]
        exact decide_eq_true (by exact_mod_cast (by omega : i + 1 ≤ side n k))
      · have hc : Nat.choose n (i + 1) * (i + 1) ≤ 2 ^ f.prec := by
          refine (choose_mul_mono (by omega : i + 1 ≤ side n k) hm).trans ?_
          rw [choose_side hk]; exact h
        have hc' : Nat.choose n (i + 1) ≤ 2 ^ f.prec := (Nat.le_mul_of_pos_right _ (by omega)).trans hc
        have hne : ((i + 1 : Nat) : ℝ) ≠ 0 := by positivity
        unfold cbinomialBodyF
        dsimp only
        rw [binom_factor hA hn (by omega), binom_next hA (by omega), Num.fin_mul, ← Nat.cast_mul, choose_step, round_nat_in hA hc,
          Num.fin_div hne, Nat.cast_mul, mul_div_assoc, div_self hne, mul_one, round_nat_in hA hc']
  have hl := loop (side n k) 0 (by omega)
  simp only [Nat.zero_add, Nat.cast_one, Nat.choose_zero_right] at hl
  rw [cbinomialF_start hA hk hn, hl, Res.ok_bind, choose_side hk]
  exact congrArg Res.ok (round_nat_in hB hg)

/-- C158.  cbinomial(n, k) and cbinomial(n, n-k) are the same number, exact or not. -/
theorem C158_symmetric (hA : A.IsFormat f) (n k : Nat) (hk : k ≤ n) (hn : n < 2 ^ f.prec) :
    cbinomialF B (.fin (n : ℝ) : Num A) (.fin ((n - k : Nat) : ℝ)) = cbinomialF B (.fin (n : ℝ) : Num A) (.fin (k : ℝ)) := by
  rw [cbinomialF_start hA hk hn, cbinomialF_start hA (Nat.sub_le n k) hn, show side n (n - k) = side n k by unfold side; omega]

/-- C158.  It is 0 for k > n, for any numbers. -/
theorem C158_above (hB : B.IsFormat g) (n k : Num A) (h : CxxFloat.lt n k = true) : cbinomialF B n k = .ok (.fin 0) := by
  unfold cbinomialF
  rw [if_pos h, ofInt_zero hB]

/-- C163 is violated by negative and fractional k: for every k < 1 that is not above n, and for k = NaN, the result is 1. -/
theorem C163_below_violated (hA : A.IsFormat f) (hB : B.IsFormat g) (n k : Num A) (h : CxxFloat.lt n k = false)
    (hk : k = .nan ∨ CxxFloat.lt k (.fin 1) = true) : cbinomialF B n k = .ok (.fin 1) := by
  have hone : (Num.fin 1 : Num A).convert B = .fin 1 := by
    have := round_nat_in hB (n := 1) Nat.one_le_two_pow
    rw [Nat.cast_one] at this
    exact this
  have key : ∀ k' : Num A, CxxFloat.le (.fin 1) k' = false →
      (whileLoop (fun s => CxxFloat.le s.i k') (cbinomialBodyF n) ⟨.fin 1, .fin 1⟩ >>= fun s => .ok (s.res.convert B)) =
        .ok (.fin 1) := by
    intro k' hk'
    rw [whileLoop_done (by exact hk'), Res.ok_bind, hone]
  have le_of : ∀ k' : Num A, k' = .nan ∨ CxxFloat.lt k' (.fin 1) = true → CxxFloat.le (.fin 1) k' = false := by
    intro k' h'
    cases k' with
    | nan => rfl
    | inf b =>
      rcases h' with h' | h'
      · cases h'
      · cases b
        · cases h'
        · rfl
    | fin x =>
      rcases h' with h' | h'
      · cases h'
      · rw [Num.lt_fin, decide_eq_true_eq] at h'
        rw [Num.le_fin]
        exact decide_eq_false (not_le.2 h')
  unfold cbinomialF
  simp only [h, ofInt_one_in hA, Bool.false_eq_true, if_false]
  refine key _ ?_
  split
  · next hlt =>
    refine le_of _ ?_
    cases k with
    | nan => left; cases n <;> rfl
    | inf b =>
      rcases hk with hk | hk
      · cases hk
      cases b
      · cases hk
      · generalize n - .inf true = z at hlt ⊢
        cases z with
        | nan => exact .inl rfl
        | inf c => cases c <;> cases hlt
        | fin _ => cases hlt
    | fin x =>
      rcases hk with hk | hk
      · cases hk
      rw [Num.lt_fin, decide_eq_true_eq] at hk
      generalize n - .fin x = z at hlt ⊢
      cases z with
      | nan => exact .inl rfl
      | inf c =>
        cases c
        · cases hlt
        · exact .inr rfl
      | fin y =>
        rw [Num.lt_fin, decide_eq_true_eq] at hlt
        right
        rw [Num.lt_fin]
        exact decide_eq_true (hlt.trans hk)
  · exact le_of _ hk

/-- 2^p + 1 is halfway between two values and is rounded to 2^p. -/
theorem fl_stuck : f.rn ((2 : ℝ) ^ f.prec + 1) = (2 : ℝ) ^ f.prec := by
  have hp := f.prec_ge
  have he := f.emin_le
  have hpos : (0 : ℝ) < (2 : ℝ) ^ f.prec := by positivity
  have hbig : (2 : ℝ) ≤ (2 : ℝ) ^ f.prec := by
    calc (2 : ℝ) = 2 ^ 1 := by norm_num
      _ ≤ _ := pow_le_pow_right₀ one_le_two (by omega)
  have hl : Int.log 2 |(2 : ℝ) ^ f.prec + 1| = f.prec := by
    rw [abs_of_pos (by positivity)]
    have h0 : (0 : ℝ) < (2 : ℝ) ^ f.prec + 1 := by positivity
    refine le_antisymm ?_ ?_
    · have := (Int.lt_zpow_iff_log_lt (R := ℝ) (b := 2) (x := (f.prec : Int) + 1) (by norm_num) h0).1 (by
        rw [zpow_add_one₀ (by norm_num), zpow_natCast]
        push_cast
        linarith)
      omega
    · exact (Int.zpow_le_iff_le_log (R := ℝ) (b := 2) (by norm_num) h0).1 (by rw [zpow_natCast]; push_cast; linarith)
  have hu : f.ulpExp ((2 : ℝ) ^ f.prec + 1) = 1 := by
    unfold FloatFormat.ulpExp
    rw [hl]
    omega
  obtain ⟨p', hp'⟩ : ∃ p', f.prec = p' + 2 := ⟨f.prec - 2, by omega⟩
  have hx : ((2 : ℝ) ^ f.prec + 1) / 2 = ((2 ^ (p' + 1) : Int) : ℝ) + 1 / 2 := by
    rw [hp']; push_cast; ring
  have hfl : ⌊((2 ^ (p' + 1) : Int) : ℝ) + 1 / 2⌋ = 2 ^ (p' + 1) := by
    rw [Int.floor_eq_iff]
    constructor <;> linarith
  have hr : rint (((2 : ℝ) ^ f.prec + 1) / 2) = 2 ^ (p' + 1) := by
    rw [hx]
    unfold rint
    simp only [hfl]
    rw [if_neg (by rw [add_sub_cancel_left]; exact lt_irrefl _), if_neg (by rw [add_sub_cancel_left]; exact lt_irrefl _),
      if_pos (by rw [pow_succ]; exact Int.mul_emod_left _ _)]
  unfold FloatFormat.rn
  rw [hu, zpow_one, hr, hp']
  push_cast
  ring

/-- C163 is violated by large k: for 2^p <= k <= n/2, and for k and n infinite, cbinomial does not return, because the counter of
its loop remains at 2^p, which is 16777216 for `float`. -/
theorem C163_stuck_violated (hA : A.IsFormat f) :
    (∀ n k : ℝ, FiniteIn f k → (2 : ℝ) ^ f.prec ≤ k → 2 * k ≤ n → cbinomialF B (.fin n : Num A) (.fin k) = .diverges) ∧
    cbinomialF B (.inf false : Num A) (.inf false) = .diverges := by
  have key : ∀ n k : Num A, (∀ j : Nat, j ≤ 2 ^ f.prec → CxxFloat.le (.fin (j : ℝ)) k = true) →
      (whileLoop (fun s => CxxFloat.le s.i k) (cbinomialBodyF n) ⟨.fin 1, .fin 1⟩ >>= fun s => .ok (s.res.convert B)) =
        .diverges := by
    intro n k hk
    rw [whileLoop_diverges (fun s => ∃ j : Nat, j ≤ 2 ^ f.prec ∧ s.i = .fin (j : ℝ))]
    · rfl
    · rintro ⟨r, i⟩ ⟨j, hj, rfl⟩
      exact hk j hj
    · rintro ⟨r, i⟩ ⟨j, hj, rfl⟩
      refine ⟨_, rfl, ?_⟩
      rw [ofInt_one_in hA, Num.fin_add]
      rcases hj.eq_or_lt with h | h
      · refine ⟨2 ^ f.prec, le_rfl, ?_⟩
        rw [h]
        have hfin := nat_finite (f := f) (n := 2 ^ f.prec) le_rfl
        push_cast at hfin ⊢
        rw [round_pos_in hA (by positivity), fl_stuck, if_pos ((le_abs_self _).trans_lt hfin.2)]
      · refine ⟨j + 1, h, ?_⟩
        rw [← round_nat_in hA (n := j + 1) h]
        push_cast; rfl
    · exact ⟨1, Nat.one_le_two_pow, by rw [Nat.cast_one]⟩
  constructor
  · intro n k hk hk2 hn
    have hpos : (0 : ℝ) < (2 : ℝ) ^ f.prec := by positivity
    have h1 : CxxFloat.lt (.fin n : Num A) (.fin k) = false := by
      rw [Num.lt_fin]; exact decide_eq_false (not_lt.2 (by linarith))
    have h2 : CxxFloat.lt (.fin n - .fin k : Num A) (.fin k) = false := by
      rw [Num.fin_sub, round_pos_in hA (by linarith)]
      split
      · rw [Num.lt_fin]
        have := fl_mono (f := f) (show k ≤ n - k by linarith)
        rw [fl_value hk.1] at this
        exact decide_eq_false (not_lt.2 this)
      · rfl
    unfold cbinomialF
    simp only [h1, h2, ofInt_one_in hA, Bool.false_eq_true, if_false]
    refine key _ _ (fun j hj => ?_)
    rw [Num.le_fin]
    refine decide_eq_true (le_trans ?_ hk2)
    exact_mod_cast hj
  · have h1 : CxxFloat.lt (.inf false : Num A) (.inf false) = false := rfl
    have h2 : CxxFloat.lt (.inf false - .inf false : Num A) (.inf false) = false := rfl
    unfold cbinomialF
    simp only [h1, h2, ofInt_one_in hA, Bool.false_eq_true, if_false]
    exact key _ _ (fun j _ => rfl)

/-- Cases that meet the conditions: C(30,15) in `float`, where 15 C(30,15) is not exact, and C(20,5), where it is; and the
numbers 2^24 and 2^25. -/
example : 30 < 2 ^ FloatFormat.float.prec ∧ ¬ Nat.choose 30 15 * side 30 15 ≤ 2 ^ FloatFormat.float.prec ∧
    Nat.choose 20 5 * side 20 5 ≤ 2 ^ FloatFormat.float.prec ∧ FiniteIn FloatFormat.float ((2 : ℝ) ^ FloatFormat.float.prec) ∧
    2 * (2 : ℝ) ^ FloatFormat.float.prec ≤ 2 ^ 25 := by
  refine ⟨by decide, by decide, by decide, ?_, ?_⟩
  · have := nat_finite (f := FloatFormat.float) (n := 2 ^ FloatFormat.float.prec) le_rfl
    exact_mod_cast this
  · show 2 * (2 : ℝ) ^ 24 ≤ _
    norm_num

end
end Bwsl
