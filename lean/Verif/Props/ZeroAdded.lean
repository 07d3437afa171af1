import Verif.Props.NotFinite
import Verif.Props.MovesMean
import Verif.Props.NeutralElements

/-! Property C196: adding zeros to compensated sums. -/

namespace Bwsl
open Spec FloatFormat

set_option linter.unusedSectionVars false

section
variable {K : Type} [Field K] [LinearOrder K] [IsStrictOrderedRing K] [FloorRing K] {A : Arith K} {f : FloatFormat}

/-! ### NeumaierAccumulator -/

/-- What every history keeps: the two parts of the sum are settled, and the sum is NaN if the first part is not finite. -/
def NeumaierFit (f : FloatFormat) (s : Neumaier (Num A)) : Prop :=
  Settled f s.sum ∧ Settled f s.c ∧ ((∃ z, s.sum = .fin z) ∨ s.getSum = .nan)

theorem settled_zero : Settled f (CxxFloat.zero : Num A) := by
  intro z hz
  rw [Num.zero_eq] at hz
  cases hz
  exact zero_finite

theorem neumaier_fit_add (hA : A.IsFormat f) (s : Neumaier (Num A)) (x : Num A) (h : NeumaierFit f s) : NeumaierFit f (s.addCore x) := by
  obtain ⟨h1, h2, h3⟩ := h
  refine ⟨settled_add hA _ _, ?_, ?_⟩
  · unfold Neumaier.addCore
    dsimp only
    split <;> exact settled_add hA _ _
  · rcases h3 with ⟨z, hz⟩ | h3
    · by_cases hx : IsFinite x
      · match x, hx with
        | .fin x, _ =>
          rcases ht : (s.sum + .fin x : Num A) with _ | n | t
          · rw [hz, Num.fin_add] at ht
            exact absurd ht (Num.round_ne_nan _)
          · right
            unfold Neumaier.getSum Neumaier.addCore
            dsimp only
            rw [ht, hz]
            have e1 : ∀ c : Num A, (.inf n : Num A) + (c + ((.fin z - .inf n) + .fin x)) = .nan := fun c => by
              have : (.fin z - .inf n + .fin x : Num A) = .inf (!n) := rfl
              rw [this]
              cases n <;> rcases c with _ | m | _ <;> first | rfl | (cases m <;> rfl)
            have e2 : ∀ c : Num A, (.inf n : Num A) + (c + ((.fin x - .inf n) + .fin z)) = .nan := fun c => by
              have : (.fin x - .inf n + .fin z : Num A) = .inf (!n) := rfl
              rw [this]
              cases n <;> rcases c with _ | m | _ <;> first | rfl | (cases m <;> rfl)
            split
            · exact e1 _
            · exact e2 _
          · exact .inl ⟨t, ht⟩
      · exact .inr (neumaier_sum_nan (neumaier_poison s hx)).1
    · exact .inr (neumaier_sticky s x h3)

theorem neumaier_fit (hA : A.IsFormat f) (ops : List (AccOp (Num A))) :
    NeumaierFit f (runOps Neumaier.addCore Neumaier.reset (Neumaier.new : Neumaier (Num A)) ops) :=
  runOps_holds (neumaier_fit_add hA) (fun _ => ⟨settled_zero, settled_zero, .inl ⟨0, rfl⟩⟩) ops _
    ⟨settled_zero, settled_zero, .inl ⟨0, rfl⟩⟩

theorem neumaier_zero (hA : A.IsFormat f) (s : Neumaier (Num A)) (h1 : Settled f s.sum) (h2 : Settled f s.c) {z : K} (hz : s.sum = .fin z) :
    (s.addCore (.fin 0)).sum = s.sum ∧ (s.addCore (.fin 0)).c = s.c := by
  have e : s.sum + .fin 0 = s.sum := add_neutral hA h1
  unfold Neumaier.addCore
  dsimp only
  refine ⟨e, ?_⟩
  rw [e, hz, Num.fin_sub, sub_self, Num.round_of (rnd_zero hA)]
  have a0 : CxxFloat.le (CxxFloat.abs (.fin 0 : Num A)) (CxxFloat.abs (.fin z)) = true := by
    rw [Num.abs_fin, Num.abs_fin, Num.le_fin, abs_zero]
    exact decide_eq_true (abs_nonneg z)
  have z0 : (.fin 0 + .fin 0 : Num A) = .fin 0 := by rw [Num.fin_add, add_zero, Num.round_of (rnd_zero hA)]
  rw [if_pos a0, z0, add_neutral hA h2]

/-- The same sums, or both NaN. -/
def NeumaierLike (s s' : Neumaier (Num A)) : Prop := (s.sum = s'.sum ∧ s.c = s'.c) ∨ (s.getSum = .nan ∧ s'.getSum = .nan)

theorem neumaierLike_run (ops : List (AccOp (Num A))) {s s' : Neumaier (Num A)} (h : NeumaierLike s s') :
    NeumaierLike (runOps Neumaier.addCore Neumaier.reset s ops) (runOps Neumaier.addCore Neumaier.reset s' ops) := by
  induction ops generalizing s s' with
  | nil => exact h
  | cons o ops ih =>
    cases o with
    | reset => exact ih (.inl ⟨rfl, rfl⟩)
    | add x =>
      refine ih ?_
      rcases h with ⟨h1, h2⟩ | ⟨h1, h2⟩
      · left
        unfold Neumaier.addCore
        rw [h1, h2]
        exact ⟨rfl, rfl⟩
      · exact .inr ⟨neumaier_sticky s x h1, neumaier_sticky s' x h2⟩

theorem runOps_append {σ X : Type} {add : σ → X → σ} {reset : σ → σ} (o o' : List (AccOp X)) (s : σ) :
    runOps add reset s (o ++ o') = runOps add reset (runOps add reset s o) o' := by
  induction o generalizing s with
  | nil => rfl
  | cons a o ih => cases a <;> exact ih _

/-- C196.  A zero added to a `NeumaierAccumulator` at any time does not change any later `Sum`. -/
theorem C196_neumaier (hA : A.IsFormat f) (ops ops' : List (AccOp (Num A))) :
    (runOps Neumaier.addCore Neumaier.reset (Neumaier.new : Neumaier (Num A)) (ops ++ .add (.fin 0) :: ops')).getSum =
      (runOps Neumaier.addCore Neumaier.reset (Neumaier.new : Neumaier (Num A)) (ops ++ ops')).getSum := by
  rw [runOps_append, runOps_append]
  obtain ⟨h1, h2, h3⟩ := neumaier_fit hA ops
  generalize runOps Neumaier.addCore Neumaier.reset (Neumaier.new : Neumaier (Num A)) ops = s at *
  have hl : NeumaierLike (s.addCore (.fin 0)) s := by
    rcases h3 with ⟨z, hz⟩ | h3
    · exact .inl (neumaier_zero hA s h1 h2 hz)
    · exact .inr ⟨neumaier_sticky s _ h3, h3⟩
  show (runOps Neumaier.addCore Neumaier.reset (s.addCore (.fin 0)) ops').getSum = _
  rcases neumaierLike_run ops' hl with ⟨e1, e2⟩ | ⟨e1, e2⟩
  · unfold Neumaier.getSum; rw [e1, e2]
  · rw [e1, e2]

/-! ### KahanAccumulator -/

/-- C196, what holds: a zero added to a `KahanAccumulator` changes neither part of the sum if the last correction was exact. -/
theorem C196_kahan_partial (hA : A.IsFormat f) (s : Kahan (Num A)) (x : Num A) {S y t : K} (hs : s.sum = .fin S)
    (hy : x - s.c = .fin y) (ht : (s.addCore x).sum = .fin t) (hc : (s.addCore x).c = .fin (t - (S + y))) :
    ((s.addCore x).addCore (.fin 0)).sum = (s.addCore x).sum ∧ ((s.addCore x).addCore (.fin 0)).c = (s.addCore x).c := by
  have hsc : Settled f (s.addCore x).c := settled_add hA _ _
  have hc' : FiniteIn f (t - (S + y)) := hsc _ hc
  have ht' : Num.round A (S + y) = .fin t := by
    have h := ht
    unfold Kahan.addCore at h
    dsimp only at h
    rwa [hs, hy, Num.fin_add] at h
  have hn : FiniteIn f (-(t - (S + y))) := ⟨neg_value hc'.1, by rw [abs_neg]; exact hc'.2⟩
  generalize s.addCore x = s' at *
  unfold Kahan.addCore
  dsimp only
  rw [ht, hc, Num.fin_sub, zero_sub, Num.round_of (rnd_finite hA hn), Num.fin_add,
    show t + -(t - (S + y)) = S + y by ring, ht', Num.fin_sub, sub_self, Num.round_of (rnd_zero hA), Num.fin_sub, zero_sub, neg_neg,
    Num.round_of (rnd_finite hA hc')]
  exact ⟨rfl, rfl⟩

end

section
variable {A : Arith ℝ}

theorem rint_tie_odd (n : Int) (hn : n % 2 = 1) : rint ((n : ℝ) + 1 / 2) = n + 1 := by
  have hf : ⌊(n : ℝ) + 1 / 2⌋ = n := by rw [Int.floor_eq_iff]; constructor <;> linarith
  unfold rint
  rw [hf]
  dsimp only
  rw [add_sub_cancel_left, if_neg (lt_irrefl _), if_neg (lt_irrefl _), if_neg (by omega)]

theorem rn_tie {x : ℝ} (n : Int) (hn : n % 2 = 1) (hx : x = 4 * (n + 1 / 2)) (h1 : (2 : ℝ) ^ (54 : Int) ≤ x) (h2 : x < (2 : ℝ) ^ (55 : Int)) :
    rn x = 4 * (n + 1) := by
  have hp : 0 < x := (two_zpow_pos _).trans_le h1
  have hu : ulpExp x = 2 := ulpExp_eq (k := 54) (by norm_num) (by rwa [abs_of_pos hp]) (by rwa [abs_of_pos hp])
  unfold rn
  rw [hu, hx, show (4 * ((n : ℝ) + 1 / 2)) / (2 : ℝ) ^ (2 : Int) = n + 1 / 2 by norm_num, rint_tie_odd n hn]
  push_cast
  norm_num
  ring

/-- C196 is violated: after 2^50-6 and 2^54+4, a zero changes the `Sum` of a `KahanAccumulator`. -/
theorem C196_kahan_violated (hA : A.IsBinary64) :
    let s := ((Kahan.new : Kahan (Num A)).addCore (.fin 1125899906842618)).addCore (.fin 18014398509481988)
    s.getSum = .fin 19140298416324608 ∧ (s.addCore (.fin 0)).getSum = .fin 19140298416324604 := by
  have huge : ∀ y : ℝ, |y| ≤ 2 ^ 60 → |y| < (2 : ℝ) ^ (1024 : Int) := fun y h =>
    h.trans_lt (by rw [← zpow_natCast]; exact zpow_lt_zpow_right₀ one_lt_two (by norm_num))
  have ex : ∀ m : Int, |m| ≤ 2 ^ 53 → Num.round A ((m : ℝ) * 4) = .fin ((m : ℝ) * 4) := fun m hm => by
    refine Num.round_of (rnd_of_double hA ⟨m, 2, hm, by norm_num, by norm_num⟩ (huge _ ?_))
    have : |(m : ℝ)| ≤ 2 ^ 53 := by exact_mod_cast hm
    rw [abs_mul]
    norm_num at this ⊢
    linarith
  have ri : ∀ m : Int, |m| ≤ 2 ^ 53 → Num.round A (m : ℝ) = .fin (m : ℝ) := fun m hm => round_int hA hm
  have tie : ∀ (x : ℝ) (n : Int), n % 2 = 1 → x = 4 * (n + 1 / 2) → (2 : ℝ) ^ (54 : Int) ≤ x → x < (2 : ℝ) ^ (55 : Int) →
      Num.round A x = .fin (4 * (n + 1)) := fun x n hn hx h1 h2 => by
    refine Num.round_of ?_
    have hr := rn_tie n hn hx h1 h2
    rw [hA, rnd64, hr, if_pos]
    refine huge _ ?_
    norm_num at h1 h2
    rw [abs_of_nonneg (by linarith)]
    norm_num
    linarith
  have r0 : Num.round A 0 = .fin 0 := by simpa using ri 0 (by norm_num)
  have ra : Num.round A 1125899906842618 = .fin 1125899906842618 := by simpa using ri 1125899906842618 (by norm_num)
  have rb : Num.round A 18014398509481988 = .fin 18014398509481988 := by
    have := ex 4503599627370497 (by norm_num)
    norm_num at this
    exact this
  have r4 : Num.round A 4 = .fin 4 := by simpa using ri 4 (by norm_num)
  have rm : Num.round A (-4) = .fin (-4) := by
    have := ri (-4) (by norm_num)
    push_cast at this
    exact this
  have rs : Num.round A 19140298416324604 = .fin 19140298416324604 := by
    have := ex 4785074604081151 (by norm_num)
    norm_num at this
    exact this
  have t1 : Num.round A 19140298416324606 = .fin 19140298416324608 := by
    have := tie 19140298416324606 4785074604081151 (by norm_num) (by norm_num) (by norm_num) (by norm_num)
    norm_num at this
    exact this
  have t2 : Num.round A 18014398509481990 = .fin 18014398509481992 := by
    have := tie 18014398509481990 4503599627370497 (by norm_num) (by norm_num) (by norm_num) (by norm_num)
    norm_num at this
    exact this
  have s1 : (Kahan.new : Kahan (Num A)).addCore (.fin 1125899906842618) = ⟨.fin 1125899906842618, .fin 0, succU 0⟩ := by
    unfold Kahan.addCore Kahan.new
    dsimp only
    rw [Num.zero_eq, Num.fin_sub, sub_zero, ra, Num.fin_add, zero_add, ra, Num.fin_sub, sub_zero, ra, Num.fin_sub, sub_self, r0]
  have s2 : (⟨.fin 1125899906842618, .fin 0, succU 0⟩ : Kahan (Num A)).addCore (.fin 18014398509481988) =
      ⟨.fin 19140298416324608, .fin 4, succU (succU 0)⟩ := by
    unfold Kahan.addCore
    dsimp only
    rw [Num.fin_sub, sub_zero, rb, Num.fin_add, show (1125899906842618 : ℝ) + 18014398509481988 = 19140298416324606 by norm_num, t1,
      Num.fin_sub, show (19140298416324608 : ℝ) - 1125899906842618 = 18014398509481990 by norm_num, t2, Num.fin_sub,
      show (18014398509481992 : ℝ) - 18014398509481988 = 4 by norm_num, r4]
  intro s
  have hs : s = ⟨.fin 19140298416324608, .fin 4, succU (succU 0)⟩ := by
    show ((Kahan.new : Kahan (Num A)).addCore _).addCore _ = _
    rw [s1, s2]
  rw [hs]
  refine ⟨rfl, ?_⟩
  unfold Kahan.getSum Kahan.addCore
  dsimp only
  rw [Num.fin_sub, zero_sub, rm, Num.fin_add, show (19140298416324608 : ℝ) + -4 = 19140298416324604 by norm_num, rs]

/-- C196, what holds: in double precision a zero changes nothing if the last value, less the correction, was not larger than the sum
before it and nothing overflowed. -/
theorem C196_kahan_ordered_partial (hA : A.IsBinary64) (s : Kahan (Num A)) (x : Num A) {S y t c : ℝ} (hs : s.sum = .fin S) (hS : Double S)
    (hy : x - s.c = .fin y) (hle : |y| ≤ |S|) (ht : (s.addCore x).sum = .fin t) (hc : (s.addCore x).c = .fin c) :
    ((s.addCore x).addCore (.fin 0)).sum = (s.addCore x).sum ∧ ((s.addCore x).addCore (.fin 0)).c = (s.addCore x).c := by
  have hA' := isFormat_double.2 hA
  have dy : Double y := by
    have : Settled FloatFormat.double (x - s.c) := settled_add hA' _ _
    exact (this y hy).1
  have e : c = t - (S + y) := by
    have h1 := ht
    have h2 := hc
    unfold Kahan.addCore at h1 h2
    dsimp only at h1 h2
    rw [hs, hy] at h1 h2
    rw [h1] at h2
    obtain ⟨d, y', hd, hy'⟩ := sub_eq_fin h2
    cases hy'
    rw [hd, Num.fin_sub] at h2
    rw [Num.fin_sub] at hd
    rw [Num.fin_add] at h1
    obtain ⟨e1, -⟩ := round_format hA' h1
    obtain ⟨e2, -⟩ := round_format hA' hd
    obtain ⟨e3, -⟩ := round_format hA' h2
    have f1 : t = rn (S + y) := e1
    have f2 : d = rn (t - S) := e2
    have f3 : c = rn (d - y) := e3
    have g1 := fast_two_sum hS dy hle
    rw [← f1] at g1
    rw [rn_double g1] at f2
    have g2 := (sum_err_double hS dy).neg
    rw [← f1, show -(S + y - t) = t - S - y by ring] at g2
    rw [f3, f2, rn_double g2]
    ring
  rw [e] at hc
  exact C196_kahan_partial hA' s x hs hy ht hc

/-! ### The hypotheses are met -/

/-- The first value of an accumulator. -/
example (hA : A.IsFormat .double) : ∃ S y t : ℝ, (Kahan.new : Kahan (Num A)).sum = .fin S ∧
    (.fin 1 : Num A) - (Kahan.new : Kahan (Num A)).c = .fin y ∧ ((Kahan.new : Kahan (Num A)).addCore (.fin 1)).sum = .fin t ∧
    ((Kahan.new : Kahan (Num A)).addCore (.fin 1)).c = .fin (t - (S + y)) := by
  have r1 : Num.round A 1 = .fin 1 := Num.round_of (rnd_finite hA one_finite)
  refine ⟨0, 1, 1, rfl, ?_, ?_, ?_⟩
  · unfold Kahan.new
    rw [Num.zero_eq, Num.fin_sub, sub_zero, r1]
  · unfold Kahan.addCore Kahan.new
    dsimp only
    rw [Num.zero_eq, Num.fin_sub, sub_zero, r1, Num.fin_add, zero_add, r1]
  · unfold Kahan.addCore Kahan.new
    dsimp only
    rw [Num.zero_eq, Num.fin_sub, sub_zero, r1, Num.fin_add, zero_add, r1, Num.fin_sub, sub_zero, r1, Num.fin_sub, sub_self,
      Num.round_of (rnd_zero hA)]

/-- A second value that is as large as the sum. -/
example (hA : A.IsFormat .double) : ∃ y t c : ℝ, Double (1 : ℝ) ∧ (.fin 1 : Num A) - .fin 0 = .fin y ∧ |y| ≤ |(1 : ℝ)| ∧
    ((⟨.fin 1, .fin 0, 1⟩ : Kahan (Num A)).addCore (.fin 1)).sum = .fin t ∧
    ((⟨.fin 1, .fin 0, 1⟩ : Kahan (Num A)).addCore (.fin 1)).c = .fin c := by
  have r1 : Num.round A 1 = .fin 1 := Num.round_of (rnd_finite hA one_finite)
  have r2 : Num.round A 2 = .fin 2 := by simpa using round_int (isFormat_double.1 hA) (n := 2) (by norm_num)
  refine ⟨1, 2, 0, one_value (f := .double), ?_, le_rfl, ?_, ?_⟩
  · rw [Num.fin_sub, sub_zero, r1]
  · unfold Kahan.addCore
    dsimp only
    rw [Num.fin_sub, sub_zero, r1, Num.fin_add, one_add_one_eq_two, r2]
  · unfold Kahan.addCore
    dsimp only
    rw [Num.fin_sub, sub_zero, r1, Num.fin_add, one_add_one_eq_two, r2, Num.fin_sub, show (2 : ℝ) - 1 = 1 by norm_num, r1, Num.fin_sub,
      sub_self, Num.round_of (rnd_zero hA)]

end
end Bwsl
