import Verif.Model.MathUnsigned
import Verif.Props.MathInt
import Verif.Props.AccumSum

/-! Property C117: binomial coefficients and greatest common divisors of unsigned integers; binomial coefficients as
doubles. -/

namespace Bwsl
open Spec

set_option linter.unusedSectionVars false

/-- What the loop computes: products modulo 2^64, divided. -/
def Spec.wrapBinom (n : Nat) : Nat → Nat
  | 0 => 1
  | m + 1 => wrapBinom n m * (n - m) % 2 ^ 64 / (m + 1)

theorem wrapBinom_lt (n m : Nat) : wrapBinom n m < 2 ^ 64 := by
  cases m with
  | zero => show 1 < 2 ^ 64; norm_num
  | succ m =>
    have h1 := Nat.mod_lt (wrapBinom n m * (n - m)) (show 0 < 2 ^ 64 by norm_num)
    exact lt_of_le_of_lt (Nat.div_le_self _ _) h1

theorem cbinomialBodyU_eq {n m : Nat} (hm : m + 1 ≤ n) (hn : n < 2 ^ 64) (hm' : m + 2 < 2 ^ 64) :
    cbinomialBodyU n ⟨wrapBinom n m, m + 1⟩ = .ok ⟨wrapBinom n (m + 1), m + 2⟩ := by
  unfold cbinomialBodyU
  have e1 : usub (uadd n 1) (m + 1) = n - m := by
    unfold usub uadd
    by_cases h : n + 1 = W64
    · rw [h]; omega
    · have : (n + 1) % W64 = n + 1 := Nat.mod_eq_of_lt (by omega)
      rw [this]; omega
  have e2 : uadd (m + 1) 1 = m + 2 := by unfold uadd; omega
  rw [e1, e2, udiv, if_neg (show ¬ (m + 1 = 0) by omega), Res.ok_bind]
  rfl

theorem cbinomialU_loop {n k : Nat} (hk : k ≤ n) (hn : n < 2 ^ 64) (hk' : k + 1 < 2 ^ 64) (j m : Nat) (hj : m + j = k) :
    whileLoop (fun s => decide (s.i ≤ k)) (cbinomialBodyU n) ⟨wrapBinom n m, m + 1⟩ =
      .ok ⟨wrapBinom n k, k + 1⟩ := by
  induction j generalizing m with
  | zero =>
    have : m = k := by omega
    subst this
    exact whileLoop_done (by simp)
  | succ j ih =>
    rw [whileLoop_step (s' := ⟨wrapBinom n (m + 1), m + 1 + 1⟩) (by simp; omega)
      (cbinomialBodyU_eq (by omega) hn (by omega))]
    exact ih (m + 1) (by omega)

/-- C117.  `cbinomial<size_t>` terminates without undefined behaviour for all arguments: 0 for `k > n`, otherwise the
quotients of products taken modulo 2^64. -/
theorem C117_value (n k : Nat) (hn : n < 2 ^ 64) :
    cbinomialU n k = .ok (if k > n then 0 else wrapBinom n (side n k)) := by
  unfold cbinomialU
  split
  · rfl
  · next h =>
    have e : (if k > usub n k then usub n k else k) = side n k := by
      have : usub n k = n - k := by unfold usub; omega
      rw [this]; unfold side; split <;> omega
    have hs : 2 * side n k ≤ n := by unfold side; omega
    have := cbinomialU_loop (n := n) (k := side n k) (by omega) hn (by omega) (side n k) 0 (by omega)
    simp only [e]
    rw [show (⟨1, 1⟩ : BinomStateU) = ⟨wrapBinom n 0, 0 + 1⟩ from rfl, this]
    rfl

theorem wrapBinom_choose {n m : Nat} (hm : 2 * m ≤ n) (h : Nat.choose n m * m < 2 ^ 64) :
    wrapBinom n m = Nat.choose n m := by
  have key : ∀ i ≤ m, wrapBinom n i = Nat.choose n i := by
    intro i
    induction i with
    | zero => intro _; simp [wrapBinom]
    | succ i ih =>
      intro hi
      have h1 : Nat.choose n (i + 1) * (i + 1) < 2 ^ 64 := lt_of_le_of_lt (choose_mul_mono hi hm) h
      rw [wrapBinom, ih (by omega), choose_step, Nat.mod_eq_of_lt h1, Nat.mul_div_cancel _ (by omega)]
  exact key m le_rfl

theorem choose_side {n k : Nat} (hk : k ≤ n) : Nat.choose n (side n k) = Nat.choose n k := by
  unfold side
  rcases le_total k (n - k) with h | h
  · rw [min_eq_left h]
  · rw [min_eq_right h, Nat.choose_symm hk]

/-- C117.  `cbinomial<size_t>` is the binomial coefficient as long as the product C(n,m)·m with `m` the smaller of `k`
and `n-k` is below 2^64. -/
theorem C117_exact (n k : Nat) (hn : n < 2 ^ 64) (h : Nat.choose n k * side n k < 2 ^ 64) :
    cbinomialU n k = .ok (Nat.choose n k) := by
  rw [C117_value n k hn]
  split
  · next hk => rw [Nat.choose_eq_zero_of_lt hk]
  · next hk =>
    rw [wrapBinom_choose (by unfold side; omega) (by rwa [choose_side (by omega)]), choose_side (by omega)]

/-- C117.  Beyond that it is silently wrong: C(63,31) is below 2^60, the result is another number. -/
theorem C117_wraps : cbinomialU 63 31 ≠ .ok (Nat.choose 63 31) ∧ Nat.choose 63 31 < 2 ^ 60 := by
  constructor
  · rw [C117_value 63 31 (by norm_num)]
    decide +kernel
  · decide +kernel

/-- C117.  The coefficient is symmetric in `k` and `n-k`, wrong values included; so is the one for `long`, outcomes
included. -/
theorem C117_symmetric (n k : Nat) (hk : k ≤ n) :
    (n < 2 ^ 64 → cbinomialU n (n - k) = cbinomialU n k) ∧
    (n < 2 ^ 63 → cbinomial n ((n - k : Nat) : Int) = cbinomial n k) := by
  have hs : side n (n - k) = side n k := by unfold side; omega
  constructor
  · intro hn
    rw [C117_value n k hn, C117_value n (n - k) hn, hs, if_neg (by omega), if_neg (by omega)]
  · intro hn
    rw [C14_cbinomial n k hk (by omega), C14_cbinomial n (n - k) (by omega) (by omega), hs, Nat.choose_symm hk]

/-- C117.  `get_gcd<size_t>` terminates and is the greatest common divisor. -/
theorem C117_gcd (a b : Nat) : getGcdU a b = .ok (Nat.gcd a b) := by
  induction b using Nat.strongRecOn generalizing a with
  | _ b ih =>
    rw [getGcdU]
    split
    · next h => rw [h, Nat.gcd_zero_right]
    · next h =>
      rw [umod, if_neg h, Res.ok_bind, ih (a % b) (Nat.mod_lt _ (by omega)) b, Nat.gcd_comm a b, Nat.gcd_comm b (a % b),
        ← Nat.gcd_rec]

example : Nat.choose 62 31 * side 62 31 < 2 ^ 64 ∧ 2 ^ 58 < Nat.choose 62 31 := by decide +kernel

section
variable {K : Type} [Field K] [LinearOrder K] [IsStrictOrderedRing K] [FloorRing K] {A : Arith K}

/-- C117.  In double precision the result of `cbinomial` for `long`s, where it is defined, is the nearest double to the
binomial coefficient; up to 2^53 it is the coefficient. -/
theorem C117_double (hA : A.IsBinary64) (n k : Nat) (hk : k ≤ n) (hn : n < 2 ^ 63)
    (h : side n k = 0 ∨ (n + 1 < 2 ^ 63 ∧ Nat.choose n k * side n k < 2 ^ 63)) :
    (cbinomialD n k : Res (Num A)) = .ok (.fin (rn (Nat.choose n k : K))) ∧
    (Nat.choose n k ≤ 2 ^ 53 → (cbinomialD n k : Res (Num A)) = .ok (.fin (Nat.choose n k : K))) := by
  have hlt : Nat.choose n k < 2 ^ 63 := by
    rcases h with h | ⟨-, h⟩
    · rw [← choose_side hk, h]; simp
    · rcases Nat.eq_zero_or_pos (side n k) with h0 | h0
      · rw [← choose_side hk, h0]; simp
      · exact lt_of_le_of_lt (Nat.le_mul_of_pos_right _ h0) h
  have e : (cbinomialD n k : Res (Num A)) = .ok (Num.round A (Nat.choose n k : K)) := by
    unfold cbinomialD
    rw [C14_cbinomial n k hk (by omega), if_pos, Res.ok_bind, Num.ofInt_eq, Int.cast_natCast]
    rcases h with h | ⟨h1, h2⟩
    · exact .inl h
    · refine .inr ⟨by omega, ?_⟩
      rw [choose_side hk]
      have : ((Nat.choose n k * side n k : Nat) : Int) < ((2 ^ 63 : Nat) : Int) := by exact_mod_cast h2
      exact this
  have r1 : Num.round A (Nat.choose n k : K) = .fin (rn (Nat.choose n k : K)) := by
    refine rnd_rn hA ?_
    have h1 : ((Nat.choose n k : Nat) : K) ≤ (2 : K) ^ (63 : Int) := by
      have : ((Nat.choose n k : Nat) : K) ≤ ((2 ^ 63 : Nat) : K) := by exact_mod_cast hlt.le
      refine this.trans (le_of_eq ?_)
      norm_num
    have h2 := rn_mono h1
    rw [rn_double (⟨1, 63, by norm_num, by norm_num, by norm_num⟩ : Double ((2 : K) ^ (63 : Int)))] at h2
    have h3 : 0 ≤ rn (Nat.choose n k : K) := by
      have := rn_mono (show (0 : K) ≤ (Nat.choose n k : K) from Nat.cast_nonneg _)
      rwa [rn_zero] at this
    rw [abs_of_nonneg h3]
    exact h2.trans_lt (zpow_lt_zpow_right₀ one_lt_two (by norm_num))
  refine ⟨by rw [e, r1], fun h53 => ?_⟩
  rw [e, r1]
  have : Double ((Nat.choose n k : Nat) : K) := by
    have := double_int (K := K) (n := (Nat.choose n k : Int)) (by
      rw [abs_of_nonneg (by positivity)]; exact_mod_cast h53)
    exact_mod_cast this
  rw [rn_double this]

/-- C117.  The same for `size_t`: the nearest double to the coefficient where that is exact, and otherwise the nearest
double to the wrapped value. -/
theorem C117_double_unsigned (hA : A.IsBinary64) (n k : Nat) (hk : k ≤ n) (hn : n < 2 ^ 64) :
    (cbinomialUD n k : Res (Num A)) = .ok (.fin (rn (wrapBinom n (side n k) : K))) ∧
    (Nat.choose n k * side n k < 2 ^ 64 →
      (cbinomialUD n k : Res (Num A)) = .ok (.fin (rn (Nat.choose n k : K)))) := by
  have key : ∀ m : Nat, m < 2 ^ 64 → Num.round A (m : K) = .fin (rn (m : K)) := by
    intro m hm
    refine rnd_rn hA ?_
    have h1 : ((m : Nat) : K) ≤ (2 : K) ^ (64 : Int) := by
      have : ((m : Nat) : K) ≤ ((2 ^ 64 : Nat) : K) := by exact_mod_cast hm.le
      refine this.trans (le_of_eq ?_)
      norm_num
    have h2 := rn_mono h1
    rw [rn_double (⟨1, 64, by norm_num, by norm_num, by norm_num⟩ : Double ((2 : K) ^ (64 : Int)))] at h2
    have h3 : 0 ≤ rn (m : K) := by
      have := rn_mono (show (0 : K) ≤ (m : K) from Nat.cast_nonneg _)
      rwa [rn_zero] at this
    rw [abs_of_nonneg h3]
    exact h2.trans_lt (zpow_lt_zpow_right₀ one_lt_two (by norm_num))
  have hw : wrapBinom n (side n k) < 2 ^ 64 := by
    cases side n k with
    | zero => exact (by norm_num : (1:Nat) < 2 ^ 64)
    | succ m => exact lt_of_le_of_lt (Nat.div_le_self _ _) (Nat.mod_lt _ (by norm_num))
  have e : (cbinomialUD n k : Res (Num A)) = .ok (.fin (rn (wrapBinom n (side n k) : K))) := by
    unfold cbinomialUD
    rw [C117_value n k hn, if_neg (by omega), Res.ok_bind, Num.ofNat_eq, key _ hw]
  refine ⟨e, fun h => ?_⟩
  have h1 := C117_exact n k hn h
  rw [C117_value n k hn, if_neg (by omega), Res.ok.injEq] at h1
  rw [e, h1]

/-- The hypotheses of C117 hold for C(50,25), which is below 2^53, and for C(60,30), which is above. -/
example : Nat.choose 50 25 * side 50 25 < 2 ^ 63 ∧ Nat.choose 50 25 ≤ 2 ^ 53 ∧
    Nat.choose 60 30 * side 60 30 < 2 ^ 63 ∧ 2 ^ 53 < Nat.choose 60 30 := by decide +kernel

end
end Bwsl
