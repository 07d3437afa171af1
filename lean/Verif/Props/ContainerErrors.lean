import Verif.Props.FloatContainers
import Verif.Props.Scaled

/-! Property C191: how far the sums of C149 can be apart. -/

namespace Bwsl
open Spec FloatFormat

set_option linter.unusedSectionVars false

section
variable {K : Type} [Field K] [LinearOrder K] [IsStrictOrderedRing K] [FloorRing K] {A : Arith K} {f : FloatFormat}

/-- C191.  accumulate_sum of the same n values in two orders: the results are within 4 n 2^-p of each other, relative to the sum of the
absolute values. -/
theorem C191_order (hA : A.IsFormat f) {xs ys : List K} (hp : xs.Perm ys) (hv : ∀ x ∈ xs, FiniteIn f x)
    (hn : 4 * xs.length ≤ 2 ^ f.prec) (hT : (xs.map (|·|)).sum ≤ (2 : K) ^ (f.emax - 2)) :
    ∃ r s, accumulateSumF (xs.map (Num.fin (A := A))) = .fin r ∧ accumulateSumF (ys.map (Num.fin (A := A))) = .fin s ∧
      |r - s| ≤ 4 * (xs.length : K) * (1 / 2 ^ f.prec) * (xs.map (|·|)).sum := by
  obtain ⟨r, h1, -, h2⟩ := C148_sum_error hA xs hv hn hT
  obtain ⟨s, h3, -, h4⟩ := C148_sum_error hA ys (fun y hy => hv y (hp.mem_iff.2 hy)) (by rw [← hp.length_eq]; exact hn)
    (by rw [← (hp.map _).sum_eq]; exact hT)
  rw [← hp.length_eq, ← (hp.map _).sum_eq, ← hp.sum_eq] at h4
  refine ⟨r, s, h1, h3, ?_⟩
  have h := abs_sub_le r xs.sum s
  rw [abs_sub_comm xs.sum s] at h
  linarith

/-- One element: the sum and the difference, rounded. -/
theorem undo_step (hA : A.IsFormat f) {a b c : K} (ha : InFormat f a) (hb : InFormat f b)
    (h : (.fin a + .fin b : Num A) - .fin b = .fin c) :
    |c - a| ≤ (|a| + (1 + 1 / 2 ^ f.prec) * |a + b|) / 2 ^ f.prec := by
  obtain ⟨s, b', hs, hb'⟩ := sub_eq_fin h
  cases hb'
  rw [hs, Num.fin_sub] at h
  rw [Num.fin_add] at hs
  obtain ⟨rfl, -⟩ := round_format hA hs
  obtain ⟨rfl, -⟩ := round_format hA h
  have m1 : Mult f.emin (a + b) := (value_mult ha).add (value_mult hb)
  have m2 : Mult f.emin (f.rn (a + b) - b) := (value_mult (fl_inFormat _)).sub (value_mult hb)
  have e1 := fl_rel m1
  have e2 := fl_rel m2
  have hP : (0 : K) < 2 ^ f.prec := by positivity
  generalize f.rn (a + b) = s at *
  generalize f.rn (s - b) = c at *
  have t1 : |s - b| ≤ |a| + |a + b| / 2 ^ f.prec := by
    have := abs_add_le a (s - (a + b))
    rw [show a + (s - (a + b)) = s - b by ring, abs_sub_comm s (a + b)] at this
    linarith
  have t2 : |s - b| / 2 ^ f.prec ≤ (|a| + |a + b| / 2 ^ f.prec) / 2 ^ f.prec := div_le_div_of_nonneg_right t1 hP.le
  have t3 : |c - a| ≤ |s - b - c| + |a + b - s| := by
    have := abs_add_le (s - b - c) (a + b - s)
    rwa [show s - b - c + (a + b - s) = a - c by ring, abs_sub_comm a c] at this
  have e : (|a| + (1 + 1 / 2 ^ f.prec) * |a + b|) / 2 ^ f.prec =
      (|a| + |a + b| / 2 ^ f.prec) / 2 ^ f.prec + |a + b| / 2 ^ f.prec := by ring
  rw [e]
  linarith

/-- C191.  After sum_into and subtract_into with the same right side, every element that is finite is within
2^-p (|a| + (1 + 2^-p) |a + b|) of what it was, also where the results underflow. -/
theorem C191_undo (hA : A.IsFormat f) (ps : List (K × K)) (h : ∀ p ∈ ps, InFormat f p.1 ∧ InFormat f p.2) :
    ∃ rs, (sumIntoF (ps.map (fun p => (.fin p.1 : Num A))) (ps.map (fun p => .fin p.2))).bind
      (fun s => subtractIntoF s (ps.map (fun p => .fin p.2))) = .ok rs ∧
      List.Forall₂ (fun p r => ∀ c, r = .fin c → |c - p.1| ≤ (|p.1| + (1 + 1 / 2 ^ f.prec) * |p.1 + p.2|) / 2 ^ f.prec) ps rs := by
  rw [(C148_into _ _).1, if_pos (by simp)]
  show ∃ rs, subtractIntoF _ _ = _ ∧ _
  rw [(C148_into _ _).2, if_pos (by simp)]
  refine ⟨_, rfl, ?_⟩
  induction ps with
  | nil => exact .nil
  | cons p ps ih =>
    obtain ⟨h1, h2⟩ := h p List.mem_cons_self
    exact .cons (fun c hc => undo_step hA h1 h2 hc) (ih fun q hq => h q (List.mem_cons_of_mem _ hq))

/-! ### The hypotheses are met -/

example : (∀ x ∈ [(1 : K), 0, 1], FiniteIn .float x) ∧ 4 * [(1 : K), 0, 1].length ≤ 2 ^ FloatFormat.float.prec ∧
    ([(1 : K), 0, 1].map (|·|)).sum ≤ (2 : K) ^ (FloatFormat.float.emax - 2) ∧ [(1 : K), 0, 1].Perm [0, 1, 1] := by
  refine ⟨?_, by norm_num [FloatFormat.float], ?_, .swap ..⟩
  · intro x hx
    simp only [List.mem_cons, List.not_mem_nil, or_false] at hx
    rcases hx with rfl | rfl | rfl
    exacts [one_finite, zero_finite, one_finite]
  · have : (2 : K) ^ (1 : Int) ≤ (2 : K) ^ (FloatFormat.float.emax - 2) := zpow_le_zpow_right₀ one_le_two (by decide)
    simp only [List.map_cons, List.map_nil, List.sum_cons, List.sum_nil, abs_one, abs_zero]
    rw [zpow_one] at this
    linarith

/-- 1 and 2^(p+1), where nothing of the 1 is left (C149): the bound is not far from 1 then. -/
example (hA : A.IsFormat f) : (.fin 1 + .fin (2 ^ (f.prec + 1)) : Num A) - .fin (2 ^ (f.prec + 1)) = .fin 0 ∧
    InFormat f (1 : K) ∧ InFormat f ((2 : K) ^ (f.prec + 1)) := by
  refine ⟨?_, one_value, big_finite.1⟩
  rw [Num.fin_add, add_comm (1 : K), absorb_round hA, Num.fin_sub, sub_self, Num.round_of (rnd_zero hA)]

end
end Bwsl
