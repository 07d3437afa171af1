import Verif.Props.BravaisDouble
import Verif.Props.MomentaDouble

/-! Property C169: reciprocal vectors and momenta of any Bravais lattice in double precision. -/

namespace Bwsl
open Spec

section
variable {A : Arith ℝ} {b : Bravais (Num A)} {d g : Nat} {P Q : List ℝ} {N : List Int}

/-- `x` is `y` after `k` roundings. -/
def Rounded (k : Nat) (x y : ℝ) : Prop := |x - y| ≤ ((1 + 1 / 2 ^ 53) ^ k - 1) * |y|

theorem Rounded.refl (x : ℝ) : Rounded 0 x x := by simp [Rounded]

theorem Rounded.abs_le {k : Nat} {x y : ℝ} (h : Rounded k x y) : |x| ≤ (1 + 1 / 2 ^ 53) ^ k * |y| := by
  unfold Rounded at h
  have := abs_sub_abs_le_abs_sub x y
  linarith

theorem Rounded.mul {j k : Nat} {x y x' y' : ℝ} (h : Rounded j x y) (h' : Rounded k x' y') : Rounded (j + k) (x * x') (y * y') := by
  have hb := h'.abs_le
  unfold Rounded at *
  rw [pow_add]
  have hJ : (1 : ℝ) ≤ (1 + 1 / 2 ^ 53) ^ j := one_le_pow₀ (by norm_num)
  have hK : (1 : ℝ) ≤ (1 + 1 / 2 ^ 53) ^ k := one_le_pow₀ (by norm_num)
  generalize (1 + 1 / 2 ^ 53 : ℝ) ^ j = J at *
  generalize (1 + 1 / 2 ^ 53 : ℝ) ^ k = K at *
  rw [show x * x' - y * y' = (x - y) * x' + y * (x' - y') by ring, abs_mul y y']
  refine (abs_add_le _ _).trans ?_
  rw [abs_mul, abs_mul]
  have h1 : |x - y| * |x'| ≤ (J - 1) * |y| * (K * |y'|) := mul_le_mul h hb (abs_nonneg _) (mul_nonneg (by linarith) (abs_nonneg _))
  have h2 : |y| * |x' - y'| ≤ |y| * ((K - 1) * |y'|) := mul_le_mul_of_nonneg_left h' (abs_nonneg _)
  refine (add_le_add h1 h2).trans (le_of_eq ?_)
  ring

theorem Rounded.rn {k : Nat} {x y : ℝ} (h : Rounded k x y) (hn : x = 0 ∨ (2 : ℝ) ^ (-1022 : Int) ≤ |x|) :
    Rounded (k + 1) (rn x) y := by
  have h1 := rn_rel' hn
  have h2 := h.abs_le
  unfold Rounded at *
  rw [pow_succ]
  have hK : (1 : ℝ) ≤ (1 + 1 / 2 ^ 53) ^ k := one_le_pow₀ (by norm_num)
  generalize (1 + 1 / 2 ^ 53 : ℝ) ^ k = K at *
  have h3 : |Bwsl.rn x - y| ≤ |x - Bwsl.rn x| + |x - y| := by
    rw [show Bwsl.rn x - y = -(x - Bwsl.rn x) + (x - y) by ring]
    exact (abs_add_le _ _).trans (by rw [abs_neg])
  have h4 : |x| / 2 ^ 53 ≤ K * |y| / 2 ^ 53 := by gcongr
  refine h3.trans ((add_le_add (h1.trans h4) h).trans (le_of_eq ?_))
  ring

/-- A sum of terms that have been rounded `r` times each, unless it overflows. -/
theorem sum_error (hA : A.IsBinary64) {n r : Nat} {f : Nat → Res (Num A)} {t : Nat → Num A} {z : Nat → ℝ} {w : ℝ}
    (hf : ∀ j, j < n → f j = .ok (t j)) (ht : ∀ j, j < n → ∀ q, t j = .fin q → Double q ∧ Rounded r q (z j))
    (h : accumulate n f = .ok (.fin w)) :
    |w - ∑ j ∈ Finset.range n, z j| ≤ ((1 + 1 / 2 ^ 53) ^ (n + r) - 1) * ∑ j ∈ Finset.range n, |z j| := by
  have u0 : (0 : ℝ) ≤ 1 / 2 ^ 53 := by norm_num
  unfold Rounded at ht
  generalize hu : (1 : ℝ) / 2 ^ 53 = u at u0 ht
  have key : ∀ m k s, k + m = n → Double s →
      |s - ∑ j ∈ Finset.range k, z j| ≤ ((1 + u) ^ (k + r) - 1) * ∑ j ∈ Finset.range k, |z j| →
      accumulateFrom f (.fin s) k m = .ok (.fin w) →
      |w - ∑ j ∈ Finset.range n, z j| ≤ ((1 + u) ^ (n + r) - 1) * ∑ j ∈ Finset.range n, |z j| := by
    intro m
    induction m with
    | zero =>
      intro k s hk _ h1 h2
      obtain rfl : k = n := by omega
      rw [accumulateFrom, Res.ok.injEq] at h2
      cases h2
      exact h1
    | succ m ih =>
      intro k s hk hs h1 h2
      rw [accumulateFrom, hf k (by omega), Res.ok_bind] at h2
      have hfin : ∀ m k a, k + m = n → accumulateFrom f a k m = .ok (.fin w) → ∃ s, a = .fin s := by
        intro m
        induction m with
        | zero =>
          intro k a _ h
          rw [accumulateFrom, Res.ok.injEq] at h
          exact ⟨_, h⟩
        | succ m ih =>
          intro k a hk h
          rw [accumulateFrom, hf k (by omega), Res.ok_bind] at h
          obtain ⟨s, hs⟩ := ih (k + 1) _ (by omega) h
          obtain ⟨a', b', ha, -⟩ := Num.add_eq_fin hs
          exact ⟨a', ha⟩
      obtain ⟨s', hs'⟩ := hfin m (k + 1) _ (by omega) h2
      obtain ⟨-, q, -, hq⟩ := Num.add_eq_fin hs'
      obtain ⟨dq, eq⟩ := ht k (by omega) q hq
      rw [hq] at hs' h2
      rw [hs'] at h2
      rw [Num.fin_add] at hs'
      obtain rfl := round_eq_fin hA hs'
      refine ih (k + 1) _ (by omega) (rn_isDouble _) ?_ h2
      have hr := rn_rel (x := s + q) (hs.mult.add dq.mult)
      rw [div_eq_mul_one_div, hu] at hr
      rw [Finset.sum_range_succ, Finset.sum_range_succ]
      generalize z k = z0 at eq
      generalize hS : ∑ j ∈ Finset.range k, z j = S at h1
      have hST : |S| ≤ ∑ j ∈ Finset.range k, |z j| := by rw [← hS]; exact Finset.abs_sum_le_sum_abs _ _
      have hT0 : 0 ≤ ∑ j ∈ Finset.range k, |z j| := Finset.sum_nonneg (fun _ _ => abs_nonneg _)
      generalize ∑ j ∈ Finset.range k, |z j| = T at h1 hST hT0
      generalize rn (s + q) = t' at hr
      have hG : (1 + u) ^ r ≤ (1 + u) ^ (k + r) := pow_le_pow_right₀ (by linarith) (by omega)
      have hG' : (1 + u) ^ (k + 1 + r) = (1 + u) ^ (k + r) * (1 + u) := by rw [← pow_succ]; congr 1; omega
      rw [hG']
      generalize (1 + u) ^ (k + r) = G at h1 hG
      generalize (1 + u) ^ r = R at eq hG
      have hz := abs_nonneg z0
      have b1 : |s + q| ≤ T + |z0| + (G - 1) * T + (R - 1) * |z0| := by
        rw [show s + q = S + z0 + ((s - S) + (q - z0)) by ring]
        refine (abs_add_le _ _).trans ?_
        have := abs_add_le S z0
        have := abs_add_le (s - S) (q - z0)
        linarith
      have b2 : |t' - (S + z0)| ≤ |s + q - t'| + |s - S| + |q - z0| := by
        rw [show t' - (S + z0) = -(s + q - t') + (s - S) + (q - z0) by ring]
        refine (abs_add_le _ _).trans ?_
        have := abs_add_le (-(s + q - t')) (s - S)
        rw [abs_neg] at this
        linarith
      have b3 : |s + q| * u ≤ (T + |z0| + (G - 1) * T + (R - 1) * |z0|) * u := mul_le_mul_of_nonneg_right b1 u0
      have b4 : (R * (1 + u) - 1) * |z0| ≤ (G * (1 + u) - 1) * |z0| := by
        refine mul_le_mul_of_nonneg_right ?_ hz
        have := mul_le_mul_of_nonneg_right hG (by linarith : (0 : ℝ) ≤ 1 + u)
        linarith
      refine b2.trans ?_
      have : |s + q - t'| + |s - S| + |q - z0| ≤
          (T + |z0| + (G - 1) * T + (R - 1) * |z0|) * u + (G - 1) * T + (R - 1) * |z0| := by linarith
      refine this.trans ?_
      have e : (T + |z0| + (G - 1) * T + (R - 1) * |z0|) * u + (G - 1) * T + (R - 1) * |z0| =
          (G * (1 + u) - 1) * T + (R * (1 + u) - 1) * |z0| := by ring
      rw [e, mul_add]
      linarith
  unfold accumulate at h
  rw [Num.zero_eq] at h
  exact key n 0 0 (by omega) ⟨0, 0, by norm_num, by norm_num, by simp⟩ (by simp) h

/-- A sum of such terms whose absolute values add up to at most 2¹⁰²¹ does not overflow. -/
theorem sum_finite (hA : A.IsBinary64) {n r : Nat} (hn : n ≤ 2 ^ 32) (hr : r ≤ 2 ^ 32) {f : Nat → Res (Num A)} {q z : Nat → ℝ}
    (hf : ∀ j, j < n → f j = .ok (.fin (q j))) (ht : ∀ j, j < n → Double (q j) ∧ Rounded r (q j) (z j))
    (hT : ∑ j ∈ Finset.range n, |z j| ≤ (2 : ℝ) ^ (1021 : Int)) : ∃ w, accumulate n f = .ok (.fin w) := by
  have h22 : (2 : ℝ) ^ (1022 : Int) = 2 * (2 : ℝ) ^ (1021 : Int) := by
    rw [show (1022 : Int) = 1 + 1021 by norm_num, zpow_add₀ two_ne_zero, zpow_one]
  have hM0 : (0 : ℝ) < (2 : ℝ) ^ (1021 : Int) := two_zpow_pos _
  have hsucc : ∀ m a s, accumulateFrom f a s (m + 1) = (accumulateFrom f a s m).bind (fun z => (f (s + m)).bind fun y => .ok (z + y)) := by
    intro m
    induction m with
    | zero => intro a s; rfl
    | succ m ih =>
      intro a s
      rw [accumulateFrom]
      conv_rhs => rw [accumulateFrom]
      cases f s with
      | ok y =>
        rw [Res.ok_bind, Res.ok_bind, ih, show s + 1 + m = s + (m + 1) by omega]
      | throws e => rfl
      | ub u => rfl
      | diverges => rfl
  have key : ∀ k, k ≤ n → ∃ w, accumulate k f = .ok (.fin w) := by
    intro k
    induction k with
    | zero => intro _; exact ⟨0, by rw [accumulate, accumulateFrom, Num.zero_eq]⟩
    | succ k ih =>
      intro hk
      obtain ⟨w, hw⟩ := ih (by omega)
      have e1 := sum_error hA (r := r) (fun j hj => hf j (by omega))
        (fun j hj x hx => by cases hx; exact ht j (by omega)) hw
      have e2 := (ht k (by omega)).2
      unfold Rounded at e2
      have e3 : accumulate (k + 1) f = .ok (.fin w + .fin (q k)) := by
        unfold accumulate at hw ⊢
        rw [hsucc, hw, zero_add]
        show (f k).bind _ = _
        rw [hf k (by omega)]
        rfl
      rw [e3, Num.fin_add, round_below hA]
      · exact ⟨_, rfl⟩
      have hT' : (∑ j ∈ Finset.range k, |z j|) + |z k| ≤ (2 : ℝ) ^ (1021 : Int) := by
        rw [← Finset.sum_range_succ (fun j => |z j|)]
        exact (Finset.sum_le_sum_of_subset_of_nonneg (Finset.range_subset_range.2 (by omega)) (fun _ _ _ => abs_nonneg _)).trans hT
      have g1 := roundings_le_two (n := k + r) (by omega)
      have g2 := roundings_le_two (n := r) (by omega)
      have hS := Finset.abs_sum_le_sum_abs z (Finset.range k)
      have hT0 : 0 ≤ ∑ j ∈ Finset.range k, |z j| := Finset.sum_nonneg (fun _ _ => abs_nonneg _)
      have hz := abs_nonneg (z k)
      generalize ∑ j ∈ Finset.range k, |z j| = T at *
      generalize ∑ j ∈ Finset.range k, z j = S at *
      generalize z k = z0 at *
      generalize q k = q0 at *
      have m1 : |w - S| ≤ 1 * T := e1.trans (mul_le_mul_of_nonneg_right (by linarith) hT0)
      have m2 : |q0 - z0| ≤ 1 * |z0| := e2.trans (mul_le_mul_of_nonneg_right (by linarith) hz)
      have m3 : |w + q0| ≤ |w - S| + |S| + (|q0 - z0| + |z0|) := by
        have a1 := abs_add_le w q0
        have a2 := abs_add_le (w - S) S
        have a3 := abs_add_le (q0 - z0) z0
        rw [sub_add_cancel] at a2 a3
        linarith
      rw [h22]
      linarith
  exact key n le_rfl

theorem pi_fin (hA : A.IsBinary64) (hpi : A.pi = Real.pi) : (CxxFloat.pi : Num A) = .fin (rn Real.pi) := by
  show Num.round A A.pi = _
  rw [hpi]
  refine round_fin hA ?_
  rw [abs_of_pos Real.pi_pos]
  refine Real.pi_le_four.trans ?_
  norm_num

theorem rn_pi_ge : 3 ≤ rn Real.pi := by
  have := rn_mono Real.pi_gt_three.le
  rwa [rn_double (x := (3 : ℝ)) ⟨3, 0, by norm_num, by norm_num, by norm_num⟩] at this

theorem rn_pi_le : rn Real.pi ≤ 4 := by
  have := rn_mono Real.pi_le_four
  rwa [rn_double (x := (4 : ℝ)) ⟨4, 0, by norm_num, by norm_num, by norm_num⟩] at this

theorem rn_int_ge {c : Int} (h0 : c ≠ 0) : (1 : ℝ) ≤ |rn (c : ℝ)| := by
  have d1 : Double (1 : ℝ) := ⟨1, 0, by norm_num, by norm_num, by simp⟩
  rcases lt_or_gt_of_ne h0 with hneg | hpos
  · have := rn_mono (show (c : ℝ) ≤ -1 by exact_mod_cast (by omega : c ≤ -1))
    rw [rn_neg, rn_double d1] at this
    rw [abs_of_nonpos (by linarith)]; linarith
  · have := rn_mono (show (1 : ℝ) ≤ c by exact_mod_cast (by omega : 1 ≤ c))
    rw [rn_double d1] at this
    exact this.trans (le_abs_self _)

/-- The angle 2πc: the integer, π and the product are rounded. -/
theorem angle_term (hA : A.IsBinary64) (hpi : A.pi = Real.pi) {c : Int} (hc : InLong c) :
    (CxxFloat.ofInt c * CxxFloat.pi : Num A) = .fin (rn (rn (c : ℝ) * rn Real.pi)) ∧
      Rounded 3 (rn (rn (c : ℝ) * rn Real.pi)) (c * Real.pi) ∧
      (c = 0 ∧ rn (rn (c : ℝ) * rn Real.pi) = 0 ∨ 1 ≤ |rn (rn (c : ℝ) * rn Real.pi)|) := by
  have h1022 : (2 : ℝ) ^ (-1022 : Int) ≤ 1 := zpow_le_one_of_nonpos₀ (by norm_num) (by norm_num)
  have hca : |(c : ℝ)| ≤ (2 : ℝ) ^ (63 : Nat) := by
    have : |c| ≤ 2 ^ 63 := by rw [abs_le]; constructor <;> comega
    rw [← Int.cast_abs]; exact_mod_cast this
  have hcn : (c : ℝ) = 0 ∨ (2 : ℝ) ^ (-1022 : Int) ≤ |(c : ℝ)| := by
    by_cases h0 : c = 0
    · left; exact_mod_cast h0
    · right
      have : (1 : ℝ) ≤ |(c : ℝ)| := by
        rw [← Int.cast_abs]; exact_mod_cast Int.one_le_abs h0
      exact h1022.trans this
  have hr1 : Rounded 1 (rn (c : ℝ)) c := (Rounded.refl _).rn hcn
  have hr2 : Rounded 1 (rn Real.pi) Real.pi := (Rounded.refl _).rn (.inr pi_normal)
  have hge := rn_pi_ge
  have hprod : c = 0 ∧ rn (c : ℝ) * rn Real.pi = 0 ∨ 1 ≤ |rn (c : ℝ) * rn Real.pi| := by
    by_cases h0 : c = 0
    · left; exact ⟨h0, by rw [h0, Int.cast_zero, rn_zero, zero_mul]⟩
    · right
      rw [abs_mul, abs_of_nonneg (a := rn Real.pi) (by linarith)]
      nlinarith [rn_int_ge h0]
  have hb1 : |rn (c : ℝ)| ≤ 2 * |(c : ℝ)| := hr1.abs_le.trans (mul_le_mul_of_nonneg_right (by norm_num) (abs_nonneg _))
  refine ⟨?_, (hr1.mul hr2).rn (hprod.imp And.right h1022.trans), ?_⟩
  · rw [Num.ofInt_eq, round_below hA (hca.trans (by
      rw [← zpow_natCast]; exact zpow_le_zpow_right₀ one_le_two (by norm_num))), pi_fin hA hpi, Num.fin_mul, round_below hA]
    rw [abs_mul, abs_of_nonneg (a := rn Real.pi) (by linarith)]
    refine le_trans (b := (2 : ℝ) ^ (70 : Nat)) ?_ (by rw [← zpow_natCast]; exact zpow_le_zpow_right₀ one_le_two (by norm_num))
    refine (mul_le_mul (hb1.trans (mul_le_mul_of_nonneg_left hca (by norm_num))) rn_pi_le (by linarith) (by norm_num)).trans ?_
    norm_num
  · have d1 : Double (1 : ℝ) := ⟨1, 0, by norm_num, by norm_num, by simp⟩
    rcases hprod with ⟨h0, h1⟩ | h1
    · left; exact ⟨h0, by rw [h1, rn_zero]⟩
    · right
      rcases le_abs.1 h1 with h2 | h2
      · have := rn_mono h2
        rw [rn_double d1] at this
        exact this.trans (le_abs_self _)
      · have := rn_mono h2
        rw [rn_neg, rn_double d1] at this
        exact this.trans (neg_le_abs _)

/-- A term of a reciprocal vector. -/
theorem reciprocal_term (hA : A.IsBinary64) (hpi : A.pi = Real.pi) {c : Int} (hc : InLong (c * 2)) {p : ℝ}
    (hp : p = 0 ∨ (2 : ℝ) ^ (-1022 : Int) ≤ |p|) :
    ∃ t : ℝ, (CxxFloat.ofInt (c * 2) * CxxFloat.pi * .fin p : Num A) = Num.round A t ∧ Double (rn t) ∧
      Rounded 4 (rn t) (2 * Real.pi * (c * p)) ∧ |t| ≤ 2 * |2 * Real.pi * (c * p)| := by
  obtain ⟨h1, h2, h3⟩ := angle_term hA hpi hc
  rw [h1]
  generalize rn (rn ((c * 2 : Int) : ℝ) * rn Real.pi) = a at h2 h3
  have e : ((c * 2 : Int) : ℝ) * Real.pi * p = 2 * Real.pi * (c * p) := by push_cast; ring
  have hR : Rounded 3 (a * p) (2 * Real.pi * (c * p)) := by
    have := h2.mul (Rounded.refl p)
    rwa [e] at this
  refine ⟨a * p, Num.fin_mul _ _, rn_isDouble _, hR.rn ?_, ?_⟩
  · rcases hp with rfl | hp
    · left; rw [mul_zero]
    rcases h3 with ⟨-, rfl⟩ | h3
    · left; rw [zero_mul]
    · right; rw [abs_mul]; exact hp.trans (le_mul_of_one_le_left (abs_nonneg _) h3)
  · exact hR.abs_le.trans (mul_le_mul_of_nonneg_right (roundings_le_two (by norm_num)) (abs_nonneg _))

theorem entry_normal (hQ : NormalEntries Q) (hl : Q.length = d * d) {i j : Nat} (hi : i < d) (hj : j < d) :
    entry d Q j i = 0 ∨ (2 : ℝ) ^ (-1022 : Int) ≤ |entry d Q j i| := by
  have ho : i + j * d < Q.length := by rw [hl]; exact offset_lt hi hj
  unfold entry
  rw [List.getD_eq_getElem?_getD, List.getElem?_eq_getElem ho]
  exact hQ _ (List.getElem_mem ho)

theorem coord_mem {c : List Int} {j : Nat} (h : j < c.length) : coord c j ∈ c := by
  unfold coord
  rw [List.getD_eq_getElem?_getD, List.getElem?_eq_getElem h]
  exact List.getElem_mem _

/-- C169.  The components of `GetReciprocalSpace` for any stored inverse vectors without subnormal components and any coordinates
whose doubles fit in a `long`: unless a component overflows, its error is d + 4 roundings of the sum of the absolute values of its
terms 2πc_jQ_ji. -/
theorem C169_components (hA : A.IsBinary64) (hpi : A.pi = Real.pi) (hb : Holds b d g P Q N) (hQ : NormalEntries Q) (c : List Int)
    (hc : c.length = d) (hc2 : ∀ x ∈ c, InLong (x * 2)) (v : List (Num A)) (hv : b.getReciprocalSpace c = .ok v) (i : Nat)
    (hi : i < d) (w : ℝ) (hw : v[i]? = some (.fin w)) :
    |w - 2 * Real.pi * (embed d Q c).getD i 0| ≤
      ((1 + 1 / 2 ^ 53) ^ (d + 4) - 1) * (2 * Real.pi * (embedAbs d Q c).getD i 0) := by
  obtain ⟨rfl, hs, -, hQl, -, -⟩ := hb
  unfold Bravais.getReciprocalSpace at hv
  simp only at hv
  rw [if_pos hc] at hv
  obtain ⟨z, hz, hf⟩ := (mapRange_eq_ok hv).2 i hi
  rw [hw] at hz
  cases hz
  have := sum_error hA (r := 4) (z := fun j => 2 * Real.pi * (coord c j * entry d Q j i))
    (t := fun j => CxxFloat.ofInt (coord c j * 2) * CxxFloat.pi * .fin (entry d Q j i)) (fun j hj => by
    have hm : lmul (c.getD j 0) 2 = .ok (coord c j * 2) := long_ok (hc2 _ (coord_mem (by omega)))
    rw [subscript_getD (by omega) 0, Res.ok_bind, hm, Res.ok_bind, offset_eq hs hi hj,
      subscript_fin (by rw [hQl]; exact offset_lt hi hj)]
    rfl) (fun j hj q hq => by
    obtain ⟨t, h1, h2, h3, -⟩ := reciprocal_term hA hpi (hc2 _ (coord_mem (c := c) (j := j) (by omega))) (entry_normal hQ hQl hi hj)
    rw [h1] at hq
    obtain rfl := round_eq_fin hA hq
    exact ⟨h2, h3⟩) hf
  unfold embed embedAbs
  rw [List.getD_eq_getElem?_getD, List.getD_eq_getElem?_getD, List.getElem?_map, List.getElem?_map, List.getElem?_range hi]
  simp only [Option.map_some, Option.getD_some]
  rw [Finset.mul_sum, Finset.mul_sum]
  refine this.trans (le_of_eq ?_)
  congr 1
  refine Finset.sum_congr rfl (fun j _ => ?_)
  rw [abs_mul, abs_of_pos (by positivity : 0 < 2 * Real.pi)]

/-- C169.  Nothing overflows if the sums of the absolute values are at most 2¹⁰²¹. -/
theorem C169_finite (hA : A.IsBinary64) (hpi : A.pi = Real.pi) (hb : Holds b d g P Q N) (hQ : NormalEntries Q) (c : List Int)
    (hc : c.length = d) (hc2 : ∀ x ∈ c, InLong (x * 2)) (hT : ∀ x ∈ embedAbs d Q c, 2 * Real.pi * x ≤ (2 : ℝ) ^ (1021 : Int)) :
    ∃ v : List ℝ, b.getReciprocalSpace c = .ok (v.map .fin) ∧ v.length = d := by
  obtain ⟨rfl, hs, -, hQl, -, -⟩ := hb
  have hs32 : d ≤ 2 ^ 32 := by
    by_contra hlt
    have h1 : 2 ^ 32 * 2 ^ 32 ≤ d * d := Nat.mul_le_mul (by omega) (by omega)
    omega
  have hsum : ∀ i, i < d → ∑ j ∈ Finset.range d, |2 * Real.pi * (coord c j * entry d Q j i)| ≤ (2 : ℝ) ^ (1021 : Int) := by
    intro i hi
    refine le_trans (le_of_eq ?_) (hT _ (List.mem_map.2 ⟨i, List.mem_range.2 hi, rfl⟩))
    rw [Finset.mul_sum]
    refine Finset.sum_congr rfl (fun j _ => ?_)
    rw [abs_mul, abs_of_pos (by positivity : 0 < 2 * Real.pi)]
  have hfin : ∀ i, i < d → ∃ w, accumulate d (fun j => do
      let c ← subscript c j
      let c2 ← lmul c 2
      let p ← subscript (Q.map (Num.fin (A := A))) (uadd i (umul j d))
      .ok (CxxFloat.ofInt c2 * CxxFloat.pi * p)) = .ok (.fin w) := by
    intro i hi
    have hterm : ∀ j, j < d → ∃ q, (CxxFloat.ofInt (coord c j * 2) * CxxFloat.pi * .fin (entry d Q j i) : Num A) = .fin q ∧ Double q ∧
        Rounded 4 q (2 * Real.pi * (coord c j * entry d Q j i)) := by
      intro j hj
      obtain ⟨t, h1, h2, h3, h4⟩ := reciprocal_term hA hpi (hc2 _ (coord_mem (c := c) (j := j) (by omega))) (entry_normal hQ hQl hi hj)
      refine ⟨rn t, ?_, h2, h3⟩
      rw [h1, round_below hA]
      have hle := (Finset.single_le_sum (f := fun j => |2 * Real.pi * (coord c j * entry d Q j i)|) (fun _ _ => abs_nonneg _)
        (Finset.mem_range.2 hj)).trans (hsum i hi)
      have h22 : (2 : ℝ) ^ (1022 : Int) = 2 * (2 : ℝ) ^ (1021 : Int) := by
        rw [show (1022 : Int) = 1 + 1021 by norm_num, zpow_add₀ two_ne_zero, zpow_one]
      rw [h22]
      exact h4.trans (mul_le_mul_of_nonneg_left hle (by norm_num))
    choose! q hq using hterm
    refine sum_finite hA hs32 (r := 4) (by norm_num) (q := q) (fun j hj => ?_) (fun j hj => (hq j hj).2) (hsum i hi)
    have hm : lmul (c.getD j 0) 2 = .ok (coord c j * 2) := long_ok (hc2 _ (coord_mem (by omega)))
    rw [subscript_getD (by omega) 0, Res.ok_bind, hm, Res.ok_bind, offset_eq hs hi hj,
      subscript_fin (by rw [hQl]; exact offset_lt hi hj), ← (hq j hj).1]
    rfl
  choose! w hw using hfin
  refine ⟨(List.range d).map w, ?_, by simp⟩
  unfold Bravais.getReciprocalSpace
  simp only
  rw [if_pos hc, mapRange_ok (g := fun i => .fin (w i)) (fun i hi => hw i hi), List.map_map]
  rfl

/-- The coordinates of a site counted from the middle of the lattice. -/
def Spec.centred (size : List Nat) (c : List Int) : List Int :=
  (List.range size.length).map (fun k => coord c k - extent size k / 2)

theorem rn_error (x : ℝ) : |x - rn x| ≤ |x| / 2 ^ 53 + (2 : ℝ) ^ (-1075 : Int) := by
  have h0 : (0 : ℝ) < (2 : ℝ) ^ (-1075 : Int) := two_zpow_pos _
  by_cases hx : x = 0
  · rw [hx, rn_zero, sub_zero, abs_zero, zero_div, zero_add]; exact h0.le
  have h1 := rn_err_ulp x
  rcases ulpExp_cases x hx with h2 | h2
  · have e : (2 : ℝ) ^ (-1074 : Int) / 2 = (2 : ℝ) ^ (-1075 : Int) := by
      rw [show (-1074 : Int) = -1075 + 1 by norm_num, zpow_add_one₀ two_ne_zero, mul_div_assoc, div_self two_ne_zero, mul_one]
    rw [h2, e] at h1
    have : 0 ≤ |x| / 2 ^ 53 := by positivity
    linarith
  · have e : (2 : ℝ) ^ (ulpExp x + 52) = (2 : ℝ) ^ ulpExp x * 2 ^ 52 := by
      rw [zpow_add₀ two_ne_zero]; norm_num
    rw [e] at h2
    have : (2 : ℝ) ^ ulpExp x / 2 ≤ |x| / 2 ^ 53 := by
      rw [div_le_div_iff₀ (by norm_num) (by norm_num)]
      generalize (2 : ℝ) ^ ulpExp x = y at h2
      norm_num at h2 ⊢
      linarith
    linarith

/-- Division by a converted extent. -/
theorem div_extent (hA : A.IsBinary64) {x : Num A} {s r : Nat} (h1 : 0 < s) (h2 : s ≤ 2 ^ 62) {w X E : ℝ}
    (h : x / CxxFloat.ofNat s = .fin w) (hX : |X| ≤ E)
    (hx : ∀ y, x = .fin y → |y - X| ≤ ((1 + 1 / 2 ^ 53) ^ r - 1) * E) :
    |w - X / s| ≤ ((1 + 1 / 2 ^ 53) ^ (r + 3) - 1) * (E / s) + (2 : ℝ) ^ (-1075 : Int) := by
  have hs1 : (1 : ℝ) ≤ s := by exact_mod_cast h1
  have hs0 : (0 : ℝ) < s := by linarith
  have hs2 : |(s : ℝ)| ≤ (2 : ℝ) ^ (62 : Nat) := by
    rw [abs_of_pos hs0]; exact_mod_cast h2
  rw [Num.ofNat_eq, round_below hA (hs2.trans (by
    rw [← zpow_natCast]; exact zpow_le_zpow_right₀ one_le_two (by norm_num)))] at h
  have hrs := rn_rel' (x := (s : ℝ)) (.inr (by
    rw [abs_of_pos hs0]
    exact (zpow_le_one_of_nonpos₀ (by norm_num) (by norm_num)).trans hs1))
  have ht1 : 1 ≤ rn (s : ℝ) := by
    have := rn_mono hs1
    rwa [rn_double ⟨1, 0, by norm_num, by norm_num, by simp⟩] at this
  rw [abs_of_pos hs0] at hrs
  generalize rn (s : ℝ) = t at h hrs ht1
  cases x with
  | nan => cases h
  | inf n => cases h
  | fin y =>
    rw [Num.fin_div (by linarith)] at h
    obtain rfl := round_eq_fin hA h
    have hy := hx y rfl
    have he := rn_error (y / t)
    generalize (2 : ℝ) ^ (-1075 : Int) = ε at he ⊢
    have hE0 : 0 ≤ E := (abs_nonneg _).trans hX
    have hR : (1 : ℝ) ≤ (1 + 1 / 2 ^ 53) ^ r := one_le_pow₀ (by norm_num)
    rw [pow_add]
    generalize (1 + 1 / 2 ^ 53 : ℝ) ^ r = R at hR hy ⊢
    generalize rn (y / t) = w at he ⊢
    -- everything in units of 1 / s
    have hδ : |s / t - 1| ≤ (1 + 1 / 2 ^ 53) ^ 2 - 1 := by
      have ht0 : 0 < t := by linarith
      rw [show (s : ℝ) / t - 1 = (s - t) / t by field_simp, abs_div, abs_of_pos ht0, div_le_iff₀ ht0]
      have hlow : s - s / 2 ^ 53 ≤ t := by have := (abs_le.1 hrs).2; linarith
      refine hrs.trans ?_
      have : (s : ℝ) / 2 ^ 53 ≤ ((1 + 1 / 2 ^ 53) ^ 2 - 1) * (s - s / 2 ^ 53) := by
        have e : ((1 + 1 / 2 ^ 53) ^ 2 - 1) * ((s : ℝ) - s / 2 ^ 53) = s * (((1 + 1 / 2 ^ 53) ^ 2 - 1) * (1 - 1 / 2 ^ 53)) := by ring
        rw [e, div_eq_mul_one_div]
        exact mul_le_mul_of_nonneg_left (by norm_num) hs0.le
      exact this.trans (mul_le_mul_of_nonneg_left hlow (by norm_num))
    have hq : y / t = y / s * (s / t) := by field_simp
    have ha : |y / s - X / s| ≤ (R - 1) * (E / s) := by
      rw [← sub_div, abs_div, abs_of_pos hs0, ← mul_div_assoc]
      exact div_le_div_of_nonneg_right hy hs0.le
    have hXs : |X / s| ≤ E / s := by
      rw [abs_div, abs_of_pos hs0]; exact div_le_div_of_nonneg_right hX hs0.le
    have hEs : 0 ≤ E / s := by positivity
    rw [hq] at he
    generalize (s : ℝ) / t = τ at hδ he
    generalize y / (s : ℝ) = a at ha he
    generalize X / (s : ℝ) = B at ha hXs ⊢
    generalize E / (s : ℝ) = F at ha hXs hEs ⊢
    have c1 : |a| ≤ R * F := by
      have := abs_sub_abs_le_abs_sub a B
      linarith
    have hv : (0 : ℝ) ≤ 1 / 2 ^ 53 := by norm_num
    rw [div_eq_mul_one_div] at he
    generalize (1 : ℝ) / 2 ^ 53 = v at *
    have hRF : 0 ≤ R * F := mul_nonneg (by linarith) hEs
    have c2 : |a * τ - a| ≤ R * F * ((1 + v) ^ 2 - 1) := by
      rw [show a * τ - a = a * (τ - 1) by ring, abs_mul]
      exact mul_le_mul c1 hδ (abs_nonneg _) hRF
    have c3 : |a * τ| ≤ R * F * (1 + v) ^ 2 := by
      have := abs_sub_abs_le_abs_sub (a * τ) a
      have e : R * F * (1 + v) ^ 2 = R * F * ((1 + v) ^ 2 - 1) + R * F := by ring
      linarith
    have c4 := mul_le_mul_of_nonneg_right c3 hv
    have c5 : |w - B| ≤ |a * τ - w| + |a * τ - a| + |a - B| := by
      rw [show w - B = -(a * τ - w) + (a * τ - a) + (a - B) by ring]
      refine (abs_add_le _ _).trans (add_le_add_left ?_ _)
      exact (abs_add_le _ _).trans (by rw [abs_neg])
    have e : (R * (1 + v) ^ 3 - 1) * F = R * F * (1 + v) ^ 2 * v + R * F * ((1 + v) ^ 2 - 1) + (R - 1) * F := by ring
    linarith

variable {size : List Nat}

theorem getMomentum_compute (hs : Buildable size) {l : Lattice (Num A)} (hl : Lattice.new b size .closed = .ok l) {i : Nat}
    (hi : i < size.prod) : l.getMomentum i = Lattice.computeMomentum (Grid.new size .closed) b i := by
  have hm := (new_parts hl).2.2.2.2.2
  have ho : (Grid.new size .closed).hasOpenBoundaries = false := rfl
  unfold Lattice.computeMomenta at hm
  rw [ho, if_neg (by decide), numsites_eq hs.1] at hm
  obtain ⟨y, h1, h2⟩ := (mapRange_eq_ok hm).2 i hi
  unfold Lattice.getMomentum
  rw [indexIsValid_eq hs hl hi, if_pos rfl, h2]
  exact subscript_ok h1

/-- C169.  The momenta of a closed lattice of any shape: unless a component overflows it is the component of the exact momentum,
2π Σ_j c_jQ_jk / L_k for c the coordinates counted from the middle, up to d + 7 roundings of the sum of the absolute values of its
terms and one subnormal rounding. -/
theorem C169_momentum (hA : A.IsBinary64) (hpi : A.pi = Real.pi) (hs : Buildable size) (hb : Holds b size.length g P Q N)
    (hr : Regular b size.length) (hQ : NormalEntries Q) (l : Lattice (Num A)) (hl : Lattice.new b size .closed = .ok l) (i : Nat)
    (hi : i < size.prod) (c : List Int) (hc : l.grid.getCoordinates i = .ok c) :
    ∃ v : List (Num A), l.getMomentum i = .ok v ∧ v.length = size.length ∧ ∀ k, k < size.length → ∀ w, v[k]? = some (.fin w) →
      |w - 2 * Real.pi * (embed size.length Q (centred size c)).getD k 0 / size.getD k 0| ≤
        ((1 + 1 / 2 ^ 53) ^ (size.length + 7) - 1) *
          (2 * Real.pi * (embedAbs size.length Q (centred size c)).getD k 0 / size.getD k 0) + (2 : ℝ) ^ (-1075 : Int) := by
  rw [(new_parts hl).1, getCoordinates_eq hs.1 (buildable_fits hs) .closed hi, Res.ok.injEq] at hc
  subst hc
  obtain ⟨x, h1, h2, h3⟩ := computeMomentum_eq hs hr .closed hi
  rw [getMomentum_compute hs hl hi, h3, mapRange_ok (g := fun k => x.getD k .nan / CxxFloat.ofNat (size.getD k 0))]
  · refine ⟨_, rfl, by simp, fun k hk w hw => ?_⟩
    rw [List.getElem?_map, List.getElem?_range hk] at hw
    simp only [Option.map_some, Option.some.injEq] at hw
    have hsk : size.getD k 0 = size[k] := by rw [List.getD_eq_getElem?_getD, List.getElem?_eq_getElem hk]; rfl
    have hmem := List.getElem_mem (l := size) hk
    refine div_extent hA (r := size.length + 4) (by rw [hsk]; exact hs.1.1 _ hmem) (by rw [hsk]; exact hs.2 _ hmem) hw ?_ ?_
    · rw [abs_mul, abs_of_pos (by positivity : 0 < 2 * Real.pi)]
      refine mul_le_mul_of_nonneg_left ?_ (by positivity)
      rw [embed, embedAbs, List.getD_eq_getElem?_getD, List.getD_eq_getElem?_getD, List.getElem?_map, List.getElem?_map,
        List.getElem?_range hk]
      exact Finset.abs_sum_le_sum_abs _ _
    · intro y hy
      refine C169_components hA hpi hb hQ (centred size (crd size i)) (by simp [centred]) (label_bounds hs hi) x h1 k hk y ?_
      rw [List.getD_eq_getElem?_getD, List.getElem?_eq_getElem (by omega)] at hy
      rw [List.getElem?_eq_getElem (by omega)]
      exact congrArg some hy
  · intro k hk
    rw [subscript_getD (by omega) 0, Res.ok_bind, subscript_getD (by omega) .nan, Res.ok_bind]

/-- C169.  In double precision the coordinates 0 have the reciprocal vector 0, whatever the finite vectors stored. -/
theorem C169_zero (hA : A.IsBinary64) (hpi : A.pi = Real.pi) (hb : Holds b d g P Q N) :
    b.getReciprocalSpace (List.replicate d 0) = .ok (List.replicate d (.fin 0)) := by
  obtain ⟨rfl, hs, -, hQ, -, -⟩ := hb
  have hz : ∀ q : ℝ, (CxxFloat.ofInt 0 * CxxFloat.pi * .fin q : Num A) = .fin 0 := fun q => by
    rw [Num.ofInt_eq, Int.cast_zero, fin_zero hA, pi_fin hA hpi, Num.fin_mul, zero_mul, fin_zero hA, Num.fin_mul, zero_mul, fin_zero hA]
  unfold Bravais.getReciprocalSpace
  simp only
  rw [if_pos (by simp), mapRange_ok (g := fun _ => .fin 0)]
  · simp
  · intro i hi
    have key : ∀ m k, k + m = d → accumulateFrom (fun j => do
        let c ← subscript (List.replicate d (0 : Int)) j
        let c2 ← lmul c 2
        let p ← subscript (Q.map (Num.fin (A := A))) (uadd i (umul j d))
        .ok (CxxFloat.ofInt c2 * CxxFloat.pi * p)) (.fin 0) k m = .ok (.fin 0) := by
      intro m
      induction m with
      | zero => intro k _; rfl
      | succ m ih =>
        intro k hk
        have hm : lmul 0 2 = .ok 0 := by decide
        rw [accumulateFrom, subscript_ok (x := 0) (by rw [List.getElem?_replicate, if_pos (by omega)]), offset_eq hs hi (by omega),
          subscript_fin (by rw [hQ]; exact offset_lt hi (by omega)), Res.ok_bind, hm, Res.ok_bind, Res.ok_bind, Res.ok_bind, hz,
          Num.fin_add, add_zero, fin_zero hA]
        exact ih (k + 1) (by omega)
    exact key d 0 (by omega)

/-- C169.  The site in the middle of a closed lattice has momentum 0. -/
theorem C169_middle (hA : A.IsBinary64) (hpi : A.pi = Real.pi) (hs : Buildable size) (hb : Holds b size.length g P Q N)
    (hr : Regular b size.length) (l : Lattice (Num A)) (hl : Lattice.new b size .closed = .ok l) (i : Nat) (hi : i < size.prod)
    (hc : l.grid.getCoordinates i = .ok (size.map (fun s : Nat => (s : Int) / 2))) :
    l.getMomentum i = .ok (List.replicate size.length (.fin 0)) := by
  rw [(new_parts hl).1, getCoordinates_eq hs.1 (buildable_fits hs) .closed hi, Res.ok.injEq] at hc
  obtain ⟨x, h1, h2, h3⟩ := computeMomentum_eq hs hr .closed hi
  have hlab : label size i = List.replicate size.length 0 := by
    rw [label, hc]
    refine List.ext_getElem (by simp) (fun k hk hk' => ?_)
    have hk2 : k < size.length := by simpa using hk
    rw [List.getElem_map, List.getElem_range, List.getElem_replicate, coord_eq (by simpa using hk2), extent_eq hk2]
    simp
  rw [hlab, C169_zero hA hpi hb, Res.ok.injEq] at h1
  subst h1
  rw [getMomentum_compute hs hl hi, h3, mapRange_ok (g := fun _ => .fin 0)]
  · simp
  · intro k hk
    rw [subscript_isOk hk, Res.ok_bind, subscript_ok (x := .fin 0) (by rw [List.getElem?_replicate, if_pos hk]), Res.ok_bind,
      Num.ofNat_eq]
    have hmem := List.getElem_mem (l := size) hk
    have hs1 : (1 : ℝ) ≤ (size[k] : ℝ) := by exact_mod_cast hs.1.1 _ hmem
    have hs2 : |(size[k] : ℝ)| ≤ (2 : ℝ) ^ (62 : Nat) := by
      rw [abs_of_nonneg (by linarith)]; exact_mod_cast hs.2 _ hmem
    rw [round_below hA (hs2.trans (by rw [← zpow_natCast]; exact zpow_le_zpow_right₀ one_le_two (by norm_num)))]
    have ht1 : 1 ≤ rn (size[k] : ℝ) := by
      have := rn_mono hs1
      rwa [rn_double ⟨1, 0, by norm_num, by norm_num, by simp⟩] at this
    rw [Num.fin_div (by linarith), zero_div, fin_zero hA]

/-- The hypotheses of C169 can be met: an oblique lattice of 6 sites. -/
example (A : Arith ℝ) : ∃ b : Bravais (Num A), ∃ Q : List ℝ, ∃ l, Holds b 2 2 [1, 0, 1 / 2, 3 / 4] Q [1, 0] ∧ Regular b 2 ∧
    NormalEntries Q ∧ Buildable [2, 3] ∧ Lattice.new b [2, 3] .closed = .ok l ∧ l.grid.getCoordinates 4 = .ok [1, 1] ∧
    ∀ x ∈ embedAbs 2 Q [1, -1], 2 * Real.pi * x ≤ (2 : ℝ) ^ (1021 : Int) := by
  have hr : Regular (⟨2, 2, [1, 0, 1 / 2, 3 / 4].map .fin, [1, -(2 / 3), 0, 4 / 3].map .fin, [1, 0]⟩ : Bravais (Num A)) 2 :=
    ⟨⟨rfl, by show 2 % 2 = 0; norm_num, by show [1, 0].length = 2 / 2 * 2; norm_num, by show 2 / 2 * 2 < 2 ^ 64; decide,
      by show ∀ v ∈ ([1, 0] : List Int), -2 ^ 62 ≤ v ∧ v ≤ 2 ^ 62; decide⟩, by decide, rfl, rfl⟩
  have hs : Buildable [2, 3] := ⟨⟨by decide, by decide⟩, by decide⟩
  obtain ⟨l, hl⟩ := new_isOk hs hr .closed (by decide)
  refine ⟨_, [1, -(2 / 3), 0, 4 / 3], l, ⟨rfl, by norm_num, rfl, rfl, rfl, by norm_num⟩, hr, ?_, hs, hl, ?_, ?_⟩
  · have hh : (2 : ℝ) ^ (-1022 : Int) ≤ 1 / 2 := by
      refine (zpow_le_zpow_right₀ one_le_two (show (-1022 : Int) ≤ -1 by norm_num)).trans (by norm_num)
    intro p hp
    simp only [List.mem_cons, List.not_mem_nil, or_false] at hp
    rcases hp with rfl | rfl | rfl | rfl
    · right; rw [abs_one]; exact hh.trans (by norm_num)
    · right; rw [abs_neg, abs_of_pos (by norm_num)]; exact hh.trans (by norm_num)
    · left; rfl
    · right; rw [abs_of_pos (by norm_num)]; exact hh.trans (by norm_num)
  · rw [(new_parts hl).1, getCoordinates_eq hs.1 (buildable_fits hs) .closed (by decide)]; rfl
  · intro x hx
    have hx4 : x ≤ 4 := by
      simp only [embedAbs, coord, entry, List.range_succ, List.range_zero, Finset.sum_range_succ, Finset.sum_range_zero] at hx
      norm_num [abs_of_pos] at hx
      rcases hx with rfl | rfl <;> norm_num
    refine le_trans (b := (2 : ℝ) ^ (5 : Int)) ?_ (zpow_le_zpow_right₀ one_le_two (by norm_num))
    have := Real.pi_le_four
    have := Real.pi_pos
    norm_num
    nlinarith

end
end Bwsl
