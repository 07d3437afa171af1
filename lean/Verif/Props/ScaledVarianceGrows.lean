import Verif.Props.MovesMean

/-! Property C197: another value never lowers ScaledVariance. -/

namespace Bwsl
open Spec FloatFormat

set_option linter.unusedSectionVars false

section
variable {A : Arith ℝ} {f : FloatFormat}

/-- A share of at most one half, rounded twice, is not larger than the whole. -/
theorem share_le {d n : ℝ} (hd : Mult f.emin d) (h0 : 0 ≤ d) (hn : 2 ≤ n) : f.rn (f.rn d / n) ≤ d := by
  rcases h0.eq_or_lt with rfl | h0
  · rw [fl_zero, zero_div, fl_zero]
  have hk1 := Int.zpow_log_le_self (R := ℝ) (b := 2) (by norm_num) h0
  have hk2 := Int.lt_zpow_succ_log_self (R := ℝ) (b := 2) (by norm_num) d
  push_cast at hk1 hk2
  generalize Int.log 2 d = k at hk1 hk2
  have hk : f.emin ≤ k := by
    obtain ⟨m, rfl⟩ := hd
    have hp := two_zpow_pos (K := ℝ) f.emin
    have hm : (0 : ℝ) < m := (mul_pos_iff_of_pos_right hp).1 h0
    have hm' : (1 : ℝ) ≤ m := by
      have : 0 < m := by exact_mod_cast hm
      exact_mod_cast this
    have : (2 : ℝ) ^ f.emin < (2 : ℝ) ^ (k + 1) := lt_of_le_of_lt (by nlinarith) hk2
    have := (zpow_lt_zpow_iff_right₀ (one_lt_two (α := ℝ))).1 this
    omega
  have h1 : f.rn d ≤ (2 : ℝ) ^ (k + 1) := by
    have := fl_mono (f := f) hk2.le
    rwa [fl_value (two_zpow_value (by omega))] at this
  have h2 : f.rn d / n ≤ (2 : ℝ) ^ k := by
    rw [div_le_iff₀ (by linarith)]
    rw [zpow_add_one₀ two_ne_zero] at h1
    have := mul_le_mul_of_nonneg_left hn (two_zpow_pos (K := ℝ) k).le
    linarith
  have h3 := fl_mono (f := f) h2
  rw [fl_value (two_zpow_value hk)] at h3
  exact h3.trans hk1

/-- The new mean does not pass the new value. -/
theorem mean_stays {m x n : ℝ} (hm : InFormat f m) (hx : InFormat f x) (hn : 2 ≤ n) :
    (m ≤ x → f.rn (m + f.rn (f.rn (x - m) / n)) ≤ x) ∧ (x ≤ m → x ≤ f.rn (m + f.rn (f.rn (x - m) / n))) := by
  have up : ∀ {m x : ℝ}, InFormat f m → InFormat f x → m ≤ x → f.rn (m + f.rn (f.rn (x - m) / n)) ≤ x := fun {m x} hm hx h => by
    have h1 := share_le (f := f) ((value_mult hx).sub (value_mult hm)) (sub_nonneg.2 h) hn
    have h2 := fl_mono (f := f) (show m + f.rn (f.rn (x - m) / n) ≤ x by linarith)
    rwa [fl_value hx] at h2
  refine ⟨up hm hx, fun h => ?_⟩
  have := up (neg_value hm) (neg_value hx) (neg_le_neg h)
  rw [show -x - -m = -(x - m) by ring, fl_neg, neg_div, fl_neg, show -m + -f.rn (f.rn (x - m) / n) = -(m + f.rn (f.rn (x - m) / n)) by ring,
    fl_neg] at this
  linarith

theorem welford_m2 (hA : A.IsFormat f) (fused : Bool) (ops : List (AccOp (Num A))) {v : ℝ}
    (h : (runOps (KnuthWelford.addContracted fused) KnuthWelford.reset (KnuthWelford.new : KnuthWelford (Num A)) ops).m2 = .fin v) :
    InFormat f v :=
  runOps_holds (P := fun s : KnuthWelford (Num A) => ∀ v, s.m2 = .fin v → InFormat f v) (fun _ _ _ _ h => mulAdd_value hA fused h)
    (by rintro s m ⟨⟩; exact zero_value) ops _ (by rintro m ⟨⟩; exact zero_value) v h

/-- C197.  After any history, another value does not lower `ScaledVariance`; in every format, fused or not. -/
theorem C197_grows (hA : A.IsFormat f) (fused : Bool) (ops : List (AccOp (Num A))) {x v v' : ℝ} (hx : InFormat f x)
    (hv : (runOps (KnuthWelford.addContracted fused) KnuthWelford.reset (KnuthWelford.new : KnuthWelford (Num A)) ops).scaledVariance = .fin v)
    (hv' : (runOps (KnuthWelford.addContracted fused) KnuthWelford.reset (KnuthWelford.new : KnuthWelford (Num A))
      (ops ++ [.add (.fin x)])).scaledVariance = .fin v')
    (hc : (runOps (KnuthWelford.addContracted fused) KnuthWelford.reset (KnuthWelford.new : KnuthWelford (Num A)) ops).getCount + 1 < 2 ^ 64) :
    v ≤ v' := by
  have hm2 := fun v => welford_m2 hA fused ops (A := A) (v := v)
  have hmv := fun m => welford_value hA fused ops (A := A) (m := m)
  rw [runOps_snoc] at hv'
  generalize runOps (KnuthWelford.addContracted fused) KnuthWelford.reset (KnuthWelford.new : KnuthWelford (Num A)) ops = s at *
  have h2 : ¬ s.count < 2 := by
    intro h
    unfold KnuthWelford.scaledVariance at hv
    rw [if_pos h] at hv
    cases hv
  have hc : s.count + 1 < 2 ^ 64 := hc
  unfold KnuthWelford.scaledVariance at hv hv'
  rw [if_neg h2] at hv
  split at hv'
  · cases hv'
  have hcount : 2 ≤ f.rn ((succU s.count : Nat) : ℝ) := by
    have e : succU s.count = s.count + 1 := by unfold succU; omega
    rw [e]
    have h : (2 : ℝ) ≤ ((s.count + 1 : Nat) : ℝ) := by exact_mod_cast (by omega : 2 ≤ s.count + 1)
    have := fl_mono (f := f) h
    have v2 : InFormat f (2 : ℝ) := by
      have := two_zpow_value (f := f) (K := ℝ) (e := 1) (by have := f.emin_le; omega)
      simpa using this
    rwa [fl_value v2] at this
  have hstep : mulAdd fused (.fin x - s.mean) (.fin x - (s.addContracted fused (.fin x)).mean) s.m2 = .fin v' := hv'
  obtain ⟨p, q, r, e1, e2, e3, e4⟩ := mulAdd_rounded hA fused hstep
  rw [hv] at e3
  cases e3
  obtain ⟨x1, a, hx1, ha⟩ := sub_eq_fin e2
  cases hx1
  obtain ⟨m, hm, h0 | hmean⟩ := welford_mean hA fused (s := s) (x := x) (a := a) ha
  · rw [h0] at hcount; linarith
  rw [hm, Num.fin_sub] at e1
  rw [ha, Num.fin_sub] at e2
  obtain ⟨rfl, -⟩ := round_format hA e1
  obtain ⟨rfl, -⟩ := round_format hA e2
  have hmf := hmv m hm
  obtain ⟨s1, s2⟩ := mean_stays hmf hx hcount
  rw [← hmean] at s1 s2
  have hp : 0 ≤ f.rn (x - m) * f.rn (x - a) := by
    have z : f.rn (0 : ℝ) = 0 := fl_zero
    rcases le_total m x with h | h
    · have d1 := fl_mono (f := f) (sub_nonneg.2 h)
      have d2 := fl_mono (f := f) (sub_nonneg.2 (s1 h))
      rw [z] at d1 d2
      exact mul_nonneg d1 d2
    · have d1 := fl_mono (f := f) (sub_nonpos.2 h)
      have d2 := fl_mono (f := f) (sub_nonpos.2 (s2 h))
      rw [z] at d1 d2
      exact mul_nonneg_of_nonpos_of_nonpos d1 d2
  have hvf := hm2 v hv
  have key : ∀ y : ℝ, v ≤ y → v ≤ f.rn y := fun y h => by
    have := fl_mono (f := f) h
    rwa [fl_value hvf] at this
  rw [e4]
  split
  · exact key _ (by linarith)
  · have := fl_mono (f := f) hp
    rw [fl_zero] at this
    exact key _ (by linarith)

/-! ### The hypotheses are met -/

/-- 1, 1 and then 4: the scaled variance grows from 0 to 6. -/
example (hA : A.IsFormat .double) (fused : Bool) :
    (⟨.fin 1, .fin 0, 2⟩ : KnuthWelford (Num A)).scaledVariance = .fin 0 ∧
    ((⟨.fin 1, .fin 0, 2⟩ : KnuthWelford (Num A)).addContracted fused (.fin 4)).m2 = .fin 6 ∧
    runOps (KnuthWelford.addContracted fused) KnuthWelford.reset (KnuthWelford.new : KnuthWelford (Num A))
      [.add (.fin 1), .add (.fin 1)] = ⟨.fin 1, .fin 0, 2⟩ := by
  have hB := isFormat_double.1 hA
  have ri : ∀ n : Int, |n| ≤ 2 ^ 53 → Num.round A (n : ℝ) = .fin (n : ℝ) := fun n hn => round_int hB hn
  have r1 := ri 1 (by norm_num)
  have r2 := ri 2 (by norm_num)
  have r3 := ri 3 (by norm_num)
  have r6 := ri 6 (by norm_num)
  push_cast at r1 r2 r3 r6
  refine ⟨rfl, ?_, welford_constant hA fused one_finite 1 (by norm_num)⟩
  show mulAdd fused (.fin 4 - .fin 1 : Num A) (.fin 4 - (.fin 1 + (.fin 4 - .fin 1) / CxxFloat.ofNat 3)) (.fin 0) = .fin 6
  have d1 : (.fin 4 - .fin 1 : Num A) = .fin 3 := by rw [Num.fin_sub, show (4 : ℝ) - 1 = 3 by norm_num, r3]
  have c3 : (CxxFloat.ofNat 3 : Num A) = .fin 3 := by rw [Num.ofNat_eq]; exact_mod_cast r3
  rw [d1, c3, Num.fin_div (by norm_num), show (3 : ℝ) / 3 = 1 by norm_num, r1, Num.fin_add, show (1 : ℝ) + 1 = 2 by norm_num, r2, Num.fin_sub,
    show (4 : ℝ) - 2 = 2 by norm_num, r2]
  cases fused with
  | false =>
    show (.fin 0 + .fin 3 * .fin 2 : Num A) = _
    rw [Num.fin_mul, show (3 : ℝ) * 2 = 6 by norm_num, r6, Num.fin_add, zero_add, r6]
  | true =>
    show Num.round A (3 * 2 + 0) = _
    rw [show (3 : ℝ) * 2 + 0 = 6 by norm_num, r6]

end
end Bwsl
