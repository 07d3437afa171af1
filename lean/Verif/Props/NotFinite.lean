import Verif.Props.HistDouble
import Verif.Props.NoMinusZero
import Verif.Props.SignedZero

/-! C176, C177: what infinities, NaN and overflow do to the accumulators. -/

namespace Bwsl
open Spec

/-- Neither infinite nor NaN. -/
def Spec.IsFinite {K : Type} {A : Arith K} : Num A → Prop
  | .fin _ => True
  | _ => False

section
variable {K : Type} [Field K] [LinearOrder K] {A : Arith K}

private theorem nan_add (x : Num A) : (.nan : Num A) + x = .nan := by cases x <;> rfl
private theorem add_nan (x : Num A) : x + (.nan : Num A) = .nan := by cases x <;> rfl
private theorem nan_sub (x : Num A) : (.nan : Num A) - x = .nan := by cases x <;> rfl
private theorem sub_nan (x : Num A) : x - (.nan : Num A) = .nan := by cases x <;> rfl
private theorem nan_div (x : Num A) : (.nan : Num A) / x = .nan := by cases x <;> rfl
private theorem nan_mul (x : Num A) : (.nan : Num A) * x = .nan := by cases x <;> rfl
private theorem mul_nan (x : Num A) : x * (.nan : Num A) = .nan := by cases x <;> rfl
private theorem inf_add_inf (n : Bool) : (.inf n : Num A) + .inf n = .inf n := by cases n <;> rfl
private theorem inf_add_not (n : Bool) : (.inf n : Num A) + .inf (!n) = .nan := by cases n <;> rfl
private theorem inf_sub_inf (n : Bool) : (.inf n : Num A) - .inf n = .nan := by cases n <;> rfl
private theorem inf_sub_not (n : Bool) : (.inf n : Num A) - .inf (!n) = .inf n := by cases n <;> rfl
private theorem inf_add_fin (n : Bool) (y : K) : (.inf n : Num A) + .fin y = .inf n := rfl
private theorem fin_add_inf (n : Bool) (y : K) : (.fin y : Num A) + .inf n = .inf n := rfl
private theorem inf_sub_fin (n : Bool) (y : K) : (.inf n : Num A) - .fin y = .inf n := rfl
private theorem fin_sub_inf (n : Bool) (y : K) : (.fin y : Num A) - .inf n = .inf (!n) := rfl

/-- A finite value added to an infinity, or the sum of two infinities, is not finite. -/
theorem not_finite_add {x : Num A} (h : ¬ IsFinite x) (y : Num A) : ¬ IsFinite (x + y) ∧ ¬ IsFinite (y + x) := by
  match x, y with
  | .nan, y => rw [nan_add, add_nan]; exact ⟨id, id⟩
  | .inf n, .nan => exact ⟨id, id⟩
  | .inf n, .fin _ => exact ⟨id, id⟩
  | .inf true, .inf true => exact ⟨id, id⟩
  | .inf true, .inf false => exact ⟨id, id⟩
  | .inf false, .inf true => exact ⟨id, id⟩
  | .inf false, .inf false => exact ⟨id, id⟩
  | .fin _, _ => exact absurd trivial h

/-! ### Neumaier -/

theorem neumaier_poison (s : Neumaier (Num A)) {x : Num A} (hx : ¬ IsFinite x) : (s.addCore x).c = .nan := by
  obtain ⟨sum, c, n⟩ := s
  unfold Neumaier.addCore
  simp only
  match x, sum with
  | .nan, _ => simp only [add_nan, sub_nan, nan_add, ite_self]
  | .inf n, .nan => simp only [add_nan, sub_nan, nan_add, ite_self]
  | .inf n, .fin y => simp only [fin_add_inf, inf_sub_inf, nan_add, add_nan]; rfl
  | .inf true, .inf true => simp only [inf_add_inf, inf_sub_inf, nan_add, add_nan, ite_self]
  | .inf false, .inf false => simp only [inf_add_inf, inf_sub_inf, nan_add, add_nan, ite_self]
  | .inf true, .inf false => simp only [show (.inf false : Num A) + .inf true = .nan from rfl, sub_nan, nan_add, add_nan, ite_self]
  | .inf false, .inf true => simp only [show (.inf true : Num A) + .inf false = .nan from rfl, sub_nan, nan_add, add_nan, ite_self]
  | .fin _, _ => exact absurd trivial hx

theorem neumaier_keeps (s : Neumaier (Num A)) (x : Num A) (h : s.c = .nan) : (s.addCore x).c = .nan := by
  unfold Neumaier.addCore
  simp only [h, nan_add, ite_self]

theorem neumaier_sum_nan {s : Neumaier (Num A)} (h : s.c = .nan) : s.getSum = .nan ∧ s.mean = .nan := by
  have h1 : s.getSum = .nan := by unfold Neumaier.getSum; rw [h, add_nan]
  exact ⟨h1, by unfold Neumaier.mean; rw [h1, nan_div]⟩

theorem foldl_poison {σ X : Type} {add : σ → X → σ} {B : σ → Prop} {N : X → Prop} (h1 : ∀ s x, N x → B (add s x))
    (h2 : ∀ s x, B s → B (add s x)) (xs : List X) (s : σ) (h : (∃ x ∈ xs, N x) ∨ B s) : B (xs.foldl add s) := by
  induction xs generalizing s with
  | nil =>
    rcases h with ⟨x, hx, -⟩ | h
    · cases hx
    · exact h
  | cons y xs ih =>
    refine ih _ ?_
    rcases h with ⟨x, hx, hN⟩ | h
    · rcases List.mem_cons.1 hx with rfl | hx
      · exact .inr (h1 _ _ hN)
      · exact .inl ⟨x, hx, hN⟩
    · exact .inr (h2 _ _ h)

/-- C176.  After any calls on a `NeumaierAccumulator`: if a value added since the last reset is not finite, sum and mean are NaN. -/
theorem C176_neumaier (ops : List (AccOp (Num A))) (h : ∃ x ∈ sinceReset ops, ¬ IsFinite x) :
    let s := runOps Neumaier.addCore Neumaier.reset (Neumaier.new : Neumaier (Num A)) ops
    s.getSum = .nan ∧ s.mean = .nan := by
  intro s
  have e : s = _ := runOps_fresh (reset := Neumaier.reset) (fresh := Neumaier.new) (fun _ => rfl) ops
  rw [e]
  exact neumaier_sum_nan (foldl_poison (B := fun s => s.c = .nan) (fun s x hx => neumaier_poison s hx) neumaier_keeps _ _ (.inl h))

theorem neumaier_sticky (s : Neumaier (Num A)) (x : Num A) (h : s.getSum = .nan) : (s.addCore x).getSum = .nan := by
  by_cases hx : IsFinite x
  · obtain ⟨sum, c, k⟩ := s
    match x, sum, c with
    | .nan, _, _ => exact absurd hx id
    | .inf _, _, _ => exact absurd hx id
    | .fin x, .nan, c => exact (nan_add _)
    | .fin x, .inf n, c =>
      have : (Neumaier.addCore ⟨.inf n, c, k⟩ (.fin x : Num A)).c = .nan := by
        unfold Neumaier.addCore
        simp only [inf_add_fin, inf_sub_inf, nan_add, add_nan]
        rfl
      exact (neumaier_sum_nan this).1
    | .fin x, .fin y, .nan => exact (neumaier_sum_nan (neumaier_keeps _ _ rfl)).1
    | .fin x, .fin y, .inf n =>
      exact absurd h (by simp [Neumaier.getSum, fin_add_inf])
    | .fin x, .fin y, .fin c =>
      refine absurd h ?_
      show Num.round A (y + c) ≠ .nan
      unfold Num.round
      split <;> simp
  · exact (neumaier_sum_nan (neumaier_poison s hx)).1

/-- C176.  Once the sum is NaN it stays NaN until the next reset, whatever is added. -/
theorem C176_neumaier_stays (ops : List (AccOp (Num A))) (xs : List (Num A))
    (h : (runOps Neumaier.addCore Neumaier.reset (Neumaier.new : Neumaier (Num A)) ops).getSum = .nan) :
    (xs.foldl Neumaier.addCore (runOps Neumaier.addCore Neumaier.reset Neumaier.new ops)).getSum = .nan :=
  foldl_poison (B := fun s : Neumaier (Num A) => s.getSum = .nan) (N := fun _ => False) (fun _ _ h => h.elim) neumaier_sticky xs _ (.inr h)

/-! ### Kahan -/

/-- The states a `KahanAccumulator` can reach: with an infinite sum the correction is the same infinity or NaN. -/
def KahanOk (s : Kahan (Num A)) : Prop := ∀ n, s.sum = .inf n → s.c = .nan ∨ s.c = .inf n

theorem kahan_ok (s : Kahan (Num A)) (x : Num A) : KahanOk (s.addCore x) := by
  obtain ⟨sum, c, k⟩ := s
  unfold Kahan.addCore
  intro n hn
  simp only at hn ⊢
  generalize x - c = y at hn ⊢
  rw [hn]
  match sum, y with
  | .nan, y => rw [nan_add] at hn; cases hn
  | .inf m, .nan => cases hn
  | .inf m, .fin y =>
    rw [inf_add_fin] at hn; cases hn
    left; rw [inf_sub_inf, nan_sub]
  | .inf true, .inf true => cases hn; left; rfl
  | .inf false, .inf false => cases hn; left; rfl
  | .inf true, .inf false => cases hn
  | .inf false, .inf true => cases hn
  | .fin a, .nan => cases hn
  | .fin a, .inf m =>
    rw [fin_add_inf] at hn; cases hn
    left; rw [inf_sub_fin, inf_sub_inf]
  | .fin a, .fin y => right; rfl

theorem kahan_after (s : Kahan (Num A)) (hs : KahanOk s) (h : ¬ IsFinite s.sum) (x : Num A) : (s.addCore x).sum = .nan := by
  obtain ⟨sum, c, k⟩ := s
  show sum + (x - c) = .nan
  match sum with
  | .nan => exact nan_add _
  | .fin _ => exact absurd trivial h
  | .inf n =>
    rcases hs n rfl with hc | hc <;> simp only at hc <;> subst hc
    · rw [sub_nan, add_nan]
    · match x, n with
      | .nan, _ => rw [nan_sub, add_nan]
      | .fin x, n => rw [fin_sub_inf, inf_add_not]
      | .inf true, true => rfl
      | .inf true, false => rfl
      | .inf false, true => rfl
      | .inf false, false => rfl

theorem not_finite_sub {x : Num A} (h : ¬ IsFinite x) (y : Num A) : ¬ IsFinite (x - y) ∧ ¬ IsFinite (y - x) := by
  have hn : ¬ IsFinite (-x) := by
    match x with
    | .nan => exact id
    | .inf n => exact id
    | .fin _ => exact absurd trivial h
  exact ⟨(not_finite_add h (-y)).1, (not_finite_add hn y).2⟩

theorem kahan_hit (s : Kahan (Num A)) {x : Num A} (hx : ¬ IsFinite x) : ¬ IsFinite (s.addCore x).sum :=
  (not_finite_add (not_finite_sub hx s.c).1 s.sum).2

/-- C176.  Once the sum of a `KahanAccumulator` is not finite, it is NaN after every further value until the next reset. -/
theorem C176_kahan_stays (ops : List (AccOp (Num A))) (x : Num A) (xs : List (Num A))
    (h : ¬ IsFinite (runOps Kahan.addCore Kahan.reset (Kahan.new : Kahan (Num A)) ops).getSum) :
    ((x :: xs).foldl Kahan.addCore (runOps Kahan.addCore Kahan.reset Kahan.new ops)).getSum = .nan := by
  have hs : KahanOk (runOps Kahan.addCore Kahan.reset (Kahan.new : Kahan (Num A)) ops) :=
    runOps_keeps KahanOk (fun s x _ => kahan_ok s x) (fun s _ n hn => by cases hn) ops _ (fun n hn => by cases hn)
  have h1 := kahan_after _ hs h x
  exact foldl_poison (B := fun s : Kahan (Num A) => s.sum = .nan) (N := fun _ => False) (fun _ _ h => h.elim)
    (fun s x h => by show s.sum + _ = _; rw [h, nan_add]) xs _ (.inr h1)

/-- C176.  After any calls on a `KahanAccumulator`: if a value added since the last reset is not finite, the sum is not, and sum and
mean are NaN if it was not the last one. -/
theorem C176_kahan (ops : List (AccOp (Num A))) :
    let s := runOps Kahan.addCore Kahan.reset (Kahan.new : Kahan (Num A)) ops
    ((∃ x ∈ sinceReset ops, ¬ IsFinite x) → ¬ IsFinite s.getSum) ∧
    ((∃ x ∈ (sinceReset ops).dropLast, ¬ IsFinite x) → s.getSum = .nan ∧ s.mean = .nan) := by
  intro s
  have e : s = _ := runOps_fresh (reset := Kahan.reset) (fresh := Kahan.new) (fun _ => rfl) ops
  have key : ∀ xs : List (Num A), (∃ x ∈ xs, ¬ IsFinite x) →
      ¬ IsFinite (xs.foldl Kahan.addCore (Kahan.new : Kahan (Num A))).sum ∧ KahanOk (xs.foldl Kahan.addCore (Kahan.new : Kahan (Num A))) := by
    intro xs hx
    refine foldl_poison (N := fun x : Num A => ¬ IsFinite x)
      (B := fun s : Kahan (Num A) => ¬ IsFinite s.sum ∧ KahanOk s) (fun s x hx => ⟨kahan_hit s hx, kahan_ok s x⟩)
      (fun s x h => ⟨by rw [kahan_after s h.2 h.1 x]; exact id, kahan_ok s x⟩) xs _ (.inl hx)
  refine ⟨fun h => by rw [e]; exact (key _ h).1, fun h => ?_⟩
  have h0 : sinceReset ops ≠ [] := by
    intro h0
    rw [h0] at h
    obtain ⟨x, hx, -⟩ := h
    cases hx
  have h1 : s.getSum = .nan := by
    rw [e, ← List.dropLast_append_getLast h0, List.foldl_append]
    have := key _ h
    exact kahan_after _ this.2 this.1 _
  refine ⟨h1, ?_⟩
  unfold Kahan.getSum at h1
  unfold Kahan.mean
  rw [h1, nan_div]

/-! ### Welford -/

/-- Zero, positive or plus infinity. -/
def AtLeastZero : Num A → Prop
  | .nan => False
  | .inf n => n = false
  | .fin x => 0 ≤ x

end

section
variable {K : Type} [Field K] [LinearOrder K] {A : Arith K}

theorem atLeastZero_round (hA : A.KeepsSign) {x : K} (hx : 0 ≤ x) : AtLeastZero (Num.round A x) := by
  unfold Num.round
  cases h : A.rnd x with
  | none => simpa [AtLeastZero] using hx
  | some y => exact hA x y h hx

theorem inf_div_atLeastZero (n : Bool) {z : Num A} (hz : AtLeastZero z) :
    (.inf n : Num A) / z = .nan ∨ (.inf n : Num A) / z = .inf n := by
  match z with
  | .nan => exact hz.elim
  | .inf _ => exact .inl rfl
  | .fin z =>
    right
    show Num.inf (n != decide (z < 0)) = _
    rw [decide_eq_false (not_lt.2 hz)]
    cases n <;> rfl

theorem mul_inf_atLeastZero (n : Bool) {z : Num A} (hz : z = .nan ∨ AtLeastZero z) :
    z * (.inf n : Num A) = .nan ∨ z * (.inf n : Num A) = .inf n := by
  rcases hz with rfl | hz
  · exact .inl rfl
  match z with
  | .nan => exact hz.elim
  | .inf m =>
    right
    cases (show m = false from hz)
    cases n <;> rfl
  | .fin z =>
    show (if z = 0 then Num.nan else Num.inf (decide (z < 0) != n)) = _ ∨
      (if z = 0 then Num.nan else Num.inf (decide (z < 0) != n)) = _
    by_cases h0 : z = 0
    · exact .inl (if_pos h0)
    · right
      rw [if_neg h0, decide_eq_false (not_lt.2 hz)]
      cases n <;> rfl

/-- The difference of two values the second of which is not finite. -/
theorem sub_inf (x : Num A) (n : Bool) : x - (.inf n : Num A) = .nan ∨ x - (.inf n : Num A) = .inf (!n) := by
  match x, n with
  | .nan, _ => exact .inl rfl
  | .fin _, _ => exact .inr rfl
  | .inf true, true => exact .inl rfl
  | .inf true, false => exact .inr rfl
  | .inf false, true => exact .inr rfl
  | .inf false, false => exact .inl rfl

variable [IsStrictOrderedRing K]

theorem atLeastZero_ofNat (hA : A.KeepsSign) (k : Nat) : AtLeastZero (CxxFloat.ofNat k : Num A) :=
  atLeastZero_round hA (Nat.cast_nonneg k)

theorem welford_after (hA : A.KeepsSign) (s : KnuthWelford (Num A)) (h : ¬ IsFinite s.mean) (x : Num A) :
    (s.addCore x).mean = .nan ∧ (s.addCore x).m2 = .nan := by
  have h1 : (s.addCore x).mean = .nan := by
    obtain ⟨mean, m2, k⟩ := s
    show mean + (x - mean) / CxxFloat.ofNat (succU k) = .nan
    match mean with
    | .nan => exact nan_add _
    | .fin _ => exact absurd trivial h
    | .inf n =>
      rcases sub_inf x n with e | e <;> rw [e]
      · rw [nan_div, add_nan]
      · rcases inf_div_atLeastZero (!n) (atLeastZero_ofNat hA (succU k)) with e | e <;> rw [e]
        · exact add_nan _
        · exact inf_add_not n
  refine ⟨h1, ?_⟩
  show s.m2 + (x - s.mean) * (x - (s.addCore x).mean) = .nan
  rw [h1, sub_nan, mul_nan, add_nan]

theorem welford_hit (hA : A.KeepsSign) (s : KnuthWelford (Num A)) {x : Num A} (hx : ¬ IsFinite x) :
    ¬ IsFinite (s.addCore x).mean ∧ (s.addCore x).m2 = .nan := by
  by_cases h : IsFinite s.mean
  · obtain ⟨mean, m2, k⟩ := s
    match mean, x with
    | .nan, _ => exact absurd h id
    | .inf _, _ => exact absurd h id
    | .fin m, .fin _ => exact absurd trivial hx
    | .fin m, .nan =>
      have h1 : (KnuthWelford.addCore ⟨.fin m, m2, k⟩ (.nan : Num A)).mean = .nan := rfl
      refine ⟨by rw [h1]; exact id, ?_⟩
      show m2 + (.nan - .fin m) * _ = .nan
      rw [nan_sub, nan_mul, add_nan]
    | .fin m, .inf n =>
      have h1 : (KnuthWelford.addCore ⟨.fin m, m2, k⟩ (.inf n : Num A)).mean = .nan ∨
          (KnuthWelford.addCore ⟨.fin m, m2, k⟩ (.inf n : Num A)).mean = .inf n := by
        show (.fin m : Num A) + (.inf n - .fin m) / CxxFloat.ofNat (succU k) = .nan ∨
          (.fin m : Num A) + (.inf n - .fin m) / CxxFloat.ofNat (succU k) = .inf n
        rw [inf_sub_fin]
        rcases inf_div_atLeastZero n (atLeastZero_ofNat hA (succU k)) with e | e <;> rw [e]
        · exact .inl rfl
        · exact .inr rfl
      constructor
      · rcases h1 with e | e <;> rw [e] <;> exact id
      · show m2 + (.inf n - .fin m) * (.inf n - (KnuthWelford.addCore ⟨.fin m, m2, k⟩ (.inf n : Num A)).mean) = .nan
        rcases h1 with e | e <;> rw [e]
        · rw [sub_nan, mul_nan, add_nan]
        · rw [inf_sub_inf, mul_nan, add_nan]
  · have := welford_after hA s h x
    exact ⟨by rw [this.1]; exact id, this.2⟩

/-- C176.  After any calls on a `KnuthWelfordAccumulator`: if a value added since the last reset is not finite, the mean is not
finite, mean and sum are NaN unless it was the last one, and all the measures of spread are NaN. -/
theorem C176_welford (hA : A.KeepsSign) (ops : List (AccOp (Num A))) (h : ∃ x ∈ sinceReset ops, ¬ IsFinite x) :
    let s := runOps KnuthWelford.addCore KnuthWelford.reset (KnuthWelford.new : KnuthWelford (Num A)) ops
    ¬ IsFinite s.getMean ∧
    ((∃ x ∈ (sinceReset ops).dropLast, ¬ IsFinite x) → s.getMean = .nan ∧ s.sum = .nan) ∧
    (∀ corrected, s.variance corrected = .nan ∧ s.standardDeviation corrected = .nan ∧ s.error corrected = .nan) ∧
    s.scaledVariance = .nan := by
  intro s
  have e : s = _ := runOps_fresh (reset := KnuthWelford.reset) (fresh := KnuthWelford.new) (fun _ => rfl) ops
  have key : ∀ xs : List (Num A), (∃ x ∈ xs, ¬ IsFinite x) →
      ¬ IsFinite (xs.foldl KnuthWelford.addCore (KnuthWelford.new : KnuthWelford (Num A))).mean ∧
      (xs.foldl KnuthWelford.addCore (KnuthWelford.new : KnuthWelford (Num A))).m2 = .nan := by
    intro xs hx
    refine foldl_poison (N := fun x : Num A => ¬ IsFinite x)
      (B := fun s : KnuthWelford (Num A) => ¬ IsFinite s.mean ∧ s.m2 = .nan) (fun s x hx => welford_hit hA s hx)
      (fun s x h => ⟨by rw [(welford_after hA s h.1 x).1]; exact id, (welford_after hA s h.1 x).2⟩) xs _ (.inl hx)
  have k0 := key _ h
  rw [← e] at k0
  have hv : ∀ corrected, s.variance corrected = .nan := by
    intro corrected
    unfold KnuthWelford.variance
    split
    · rfl
    · simp only
      rw [k0.2, nan_div]
  refine ⟨k0.1, fun h' => ?_, fun corrected => ?_, ?_⟩
  · have h0 : sinceReset ops ≠ [] := by
      intro h0
      rw [h0] at h'
      obtain ⟨x, hx, -⟩ := h'
      cases hx
    have h1 : s.mean = .nan := by
      rw [e, ← List.dropLast_append_getLast h0, List.foldl_append]
      exact (welford_after hA _ (key _ h').1 _).1
    refine ⟨h1, ?_⟩
    unfold KnuthWelford.sum
    rw [h1, nan_mul]
  · have h2 : s.standardDeviation corrected = .nan := by
      unfold KnuthWelford.standardDeviation
      rw [hv]; rfl
    refine ⟨hv corrected, h2, ?_⟩
    unfold KnuthWelford.error
    rw [h2, nan_div]
  · unfold KnuthWelford.scaledVariance
    split
    · rfl
    · exact k0.2

/-- C176.  Once the mean of a `KnuthWelfordAccumulator` is not finite, from an overflow for instance, it is NaN after every further
value until the next reset. -/
theorem C176_welford_stays (hA : A.KeepsSign) (s : KnuthWelford (Num A)) (x : Num A) (xs : List (Num A))
    (h : ¬ IsFinite s.getMean) : ((x :: xs).foldl KnuthWelford.addCore s).getMean = .nan :=
  foldl_poison (B := fun s : KnuthWelford (Num A) => s.mean = .nan) (N := fun _ => False) (fun _ _ h => h.elim)
    (fun s x h => (welford_after hA s (by rw [h]; exact id) x).1) xs _ (.inr (welford_after hA s h x).1)

/-! ### West -/

theorem west_total (hA : A.KeepsSign) {w s : Num A} (hw : CxxFloat.lt CxxFloat.zero w = true) (hs : AtLeastZero s) :
    AtLeastZero (s + w) := by
  match w, s with
  | .nan, _ => cases hw
  | .inf true, _ => cases hw
  | _, .nan => exact hs.elim
  | .inf false, .inf m => cases (show m = false from hs); exact rfl
  | .inf false, .fin _ => exact rfl
  | .fin w, .inf m => exact hs
  | .fin w, .fin s =>
    have hw' : 0 < w := of_decide_eq_true hw
    exact atLeastZero_round hA (add_nonneg hs hw'.le)

/-- The fraction a weight is of the total. -/
theorem west_fraction (hA : A.KeepsSign) {w s : Num A} (hw : CxxFloat.lt CxxFloat.zero w = true) (hs : AtLeastZero s) :
    w / s = .nan ∨ AtLeastZero (w / s) := by
  match w, s with
  | .nan, _ => cases hw
  | .inf true, _ => cases hw
  | _, .nan => exact hs.elim
  | .inf false, .inf m => exact .inl rfl
  | .inf false, .fin s =>
    rcases inf_div_atLeastZero false (z := (.fin s : Num A)) hs with e | e
    · exact .inl e
    · right; rw [e]; exact rfl
  | .fin w, .inf m => right; exact le_refl (0 : K)
  | .fin w, .fin s =>
    have hw' : 0 < w := of_decide_eq_true hw
    right
    show AtLeastZero (if s = 0 then (if w = 0 then Num.nan else Num.inf (decide (w < 0))) else Num.round A (w / s))
    split
    · rw [if_neg hw'.ne', decide_eq_false (not_lt.2 hw'.le)]; exact rfl
    · exact atLeastZero_round hA (div_nonneg hw'.le hs)

omit [IsStrictOrderedRing K] in
theorem west_m2 (s : West (Num A)) {m w : Num A} (h : (s.addCore m w).mean = .nan) : (s.addCore m w).m2 = .nan := by
  show s.m2 + w * (m - s.mean) * (m - (s.addCore m w).mean) = .nan
  rw [h, sub_nan, mul_nan, add_nan]

theorem west_after (hA : A.KeepsSign) (s : West (Num A)) (hs : AtLeastZero s.sumWeights) (h : ¬ IsFinite s.mean) (m : Num A)
    {w : Num A} (hw : CxxFloat.lt CxxFloat.zero w = true) :
    (s.addCore m w).mean = .nan ∧ (s.addCore m w).m2 = .nan := by
  have h1 : (s.addCore m w).mean = .nan := by
    obtain ⟨sw, sw2, mean, m2, k⟩ := s
    have hq := west_fraction hA hw (west_total hA hw hs)
    show mean + w / (sw + w) * (m - mean) = .nan
    match mean with
    | .nan => exact nan_add _
    | .fin _ => exact absurd trivial h
    | .inf n =>
      rcases sub_inf m n with e | e <;> rw [e]
      · rw [mul_nan, add_nan]
      · rcases mul_inf_atLeastZero (!n) hq with e | e <;> rw [e]
        · exact add_nan _
        · exact inf_add_not n
  exact ⟨h1, west_m2 s h1⟩

theorem west_hit (hA : A.KeepsSign) (s : West (Num A)) (hs : AtLeastZero s.sumWeights) {m w : Num A}
    (hw : CxxFloat.lt CxxFloat.zero w = true) (hx : ¬ IsFinite m ∨ ¬ IsFinite w) :
    ¬ IsFinite (s.addCore m w).mean ∧ (s.addCore m w).m2 = .nan := by
  by_cases h : IsFinite s.mean
  · have hnan : (s.addCore m w).mean = .nan → ¬ IsFinite (s.addCore m w).mean ∧ (s.addCore m w).m2 = .nan :=
      fun h1 => ⟨by rw [h1]; exact id, west_m2 s h1⟩
    by_cases hwf : IsFinite w
    · have hm : ¬ IsFinite m := hx.resolve_right (not_not.2 hwf)
      obtain ⟨sw, sw2, mean, m2, k⟩ := s
      have hq := west_fraction hA hw (west_total hA hw hs)
      match mean, m with
      | .nan, _ => exact absurd h id
      | .inf _, _ => exact absurd h id
      | .fin _, .fin _ => exact absurd trivial hm
      | .fin a, .nan =>
        refine hnan ?_
        show (.fin a : Num A) + w / (sw + w) * (.nan - .fin a) = .nan
        rw [nan_sub, mul_nan, add_nan]
      | .fin a, .inf n =>
        have hmean : (West.addCore ⟨sw, sw2, .fin a, m2, k⟩ (.inf n : Num A) w).mean =
            .fin a + w / (sw + w) * .inf n := rfl
        rcases mul_inf_atLeastZero n hq with e | e
        · exact hnan (by rw [hmean, e, add_nan])
        · rw [e, fin_add_inf] at hmean
          refine ⟨by rw [hmean]; exact id, ?_⟩
          show m2 + w * (.inf n - .fin a) * (.inf n - (West.addCore ⟨sw, sw2, .fin a, m2, k⟩ (.inf n : Num A) w).mean) = .nan
          rw [hmean, inf_sub_inf, mul_nan, add_nan]
    · refine hnan ?_
      obtain ⟨sw, sw2, mean, m2, k⟩ := s
      show mean + w / (sw + w) * (m - mean) = .nan
      have : w / (sw + w) = .nan := by
        match w, sw with
        | .nan, _ => cases hw
        | .inf true, _ => cases hw
        | .fin _, _ => exact absurd trivial hwf
        | .inf false, .nan => exact hs.elim
        | .inf false, .inf k => cases (show k = false from hs); rfl
        | .inf false, .fin _ => rfl
      rw [this, nan_mul, add_nan]
  · have := west_after hA s hs h m hw
    exact ⟨by rw [this.1]; exact id, this.2⟩

/-- C176.  After any calls on a `WestAccumulator`: if since the last reset a value that is not finite was added with a positive
weight, or any value with an infinite weight, then the mean is not finite and the measures of spread are NaN.  Values added with a
weight that is NaN, zero or negative do not matter, finite or not (C35). -/
theorem C176_west (hA : A.KeepsSign) (ops : List (AccOp (Num A × Num A)))
    (h : ∃ p ∈ sinceReset ops, CxxFloat.lt CxxFloat.zero p.2 = true ∧ (¬ IsFinite p.1 ∨ ¬ IsFinite p.2)) :
    let s := runOps West.addPair West.reset (West.new : West (Num A)) ops
    ¬ IsFinite s.getMean ∧ s.populationVariance = .nan ∧ s.sampleFrequencyVariance = .nan ∧
      s.sampleReliabilityVariance = .nan := by
  intro s
  have e : s = _ := runOps_fresh (reset := West.reset) (fresh := West.new) (fun _ => rfl) ops
  have key : ∀ (ps : List (Num A × Num A)) (t : West (Num A)), AtLeastZero t.sumWeights →
      ((∃ p ∈ ps, CxxFloat.lt CxxFloat.zero p.2 = true ∧ (¬ IsFinite p.1 ∨ ¬ IsFinite p.2)) ∨ (¬ IsFinite t.mean ∧ t.m2 = .nan)) →
      ¬ IsFinite (ps.foldl West.addPair t).mean ∧ (ps.foldl West.addPair t).m2 = .nan := by
    intro ps
    induction ps with
    | nil =>
      intro t _ h
      rcases h with ⟨p, hp, -⟩ | h
      · cases hp
      · exact h
    | cons q ps ih =>
      intro t ht h
      rw [List.foldl_cons, west_addPair]
      by_cases hq : CxxFloat.lt CxxFloat.zero q.2 = true
      · rw [if_pos hq]
        refine ih _ (west_total hA hq ht) ?_
        rcases h with ⟨p, hp, hN⟩ | h
        · rcases List.mem_cons.1 hp with rfl | hp
          · exact .inr (west_hit hA t ht hq hN.2)
          · exact .inl ⟨p, hp, hN⟩
        · have := west_after hA t ht h.1 q.1 hq
          exact .inr ⟨by rw [this.1]; exact id, this.2⟩
      · rw [if_neg hq]
        refine ih _ ht ?_
        rcases h with ⟨p, hp, hN⟩ | h
        · rcases List.mem_cons.1 hp with rfl | hp
          · exact absurd hN.1 hq
          · exact .inl ⟨p, hp, hN⟩
        · exact .inr h
  have k0 := key (sinceReset ops) West.new (le_refl (0 : K)) (.inl h)
  rw [← e] at k0
  refine ⟨k0.1, ?_, ?_, ?_⟩
  · unfold West.populationVariance
    split
    · rfl
    · rw [k0.2, nan_div]
  · unfold West.sampleFrequencyVariance
    split
    · rfl
    · rw [k0.2, nan_div]
  · unfold West.sampleReliabilityVariance
    split
    · rfl
    · rw [k0.2, nan_div]

end

/-! ### What was asked -/

section
variable {K : Type} [Field K] [LinearOrder K] {A : Arith K}

/-- Added one by one, an infinity and finite values give that infinity. -/
theorem plain_inf (n : Bool) (xs : List K) : (xs.map (.fin : K → Num A)).foldl (· + ·) (.inf n) = .inf n := by
  induction xs with
  | nil => rfl
  | cons x xs ih => rw [List.map_cons, List.foldl_cons, inf_add_fin, ih]

/-- C177.  The sum of an infinity and finite values is that infinity, and so it is when they are added one by one; a
`NeumaierAccumulator` reports NaN for every one of these lists. -/
theorem C177_neumaier_violated (n : Bool) (xs : List K) :
    ((.inf n : Num A) :: xs.map .fin).foldl (· + ·) (.fin 0) = .inf n ∧
    ((((.inf n : Num A) :: xs.map .fin).foldl Neumaier.addCore Neumaier.new).getSum = .nan ∧
    (((.inf n : Num A) :: xs.map .fin).foldl Neumaier.addCore Neumaier.new).mean = .nan) := by
  refine ⟨plain_inf n xs, neumaier_sum_nan ?_⟩
  exact foldl_poison (B := fun s : Neumaier (Num A) => s.c = .nan) (N := fun x : Num A => ¬ IsFinite x) (fun s x hx => neumaier_poison s hx) neumaier_keeps _ _
    (.inl ⟨_, List.mem_cons_self .., id⟩)

/-- C177.  A `KahanAccumulator` reports NaN for every one of these lists with two values or more. -/
theorem C177_kahan_violated (n : Bool) (x : K) (xs : List K) :
    ((.inf n : Num A) :: (x :: xs).map .fin).foldl (· + ·) (.fin 0) = .inf n ∧
    (((.inf n : Num A) :: (x :: xs).map .fin).foldl Kahan.addCore Kahan.new).getSum = .nan := by
  refine ⟨plain_inf n (x :: xs), ?_⟩
  have h := C176_kahan_stays [.add (.inf n : Num A)] (.fin x) (xs.map .fin)
    (kahan_hit (A := A) Kahan.new (x := .inf n) id)
  exact h
end

section
variable {K : Type} [Field K] [LinearOrder K] [IsStrictOrderedRing K] [FloorRing K] {A : Arith K}

/-- Twice a number of at least 2^1023 is too large. -/
theorem round_twice (hA : A.IsBinary64) {x : K} (h : (2 : K) ^ (1023 : Int) ≤ x) : Num.round A (x + x) = .inf false := by
  have h2 : (2 : K) ^ (1024 : Int) ≤ rn (x + x) := by
    have h1 : (2 : K) ^ (1024 : Int) ≤ x + x := by
      rw [show (1024 : Int) = 1023 + 1 by norm_num, zpow_add_one₀ two_ne_zero, mul_two]
      exact add_le_add h h
    have := rn_mono h1
    rwa [rn_double (x := (2 : K) ^ (1024 : Int)) ⟨1, 1024, by norm_num, by norm_num, by simp⟩] at this
  have h0 : (0 : K) ≤ x + x := by
    have := (two_zpow_pos (K := K) 1023).le.trans h
    exact add_nonneg this this
  unfold Num.round
  rw [hA]
  unfold rnd64
  rw [if_neg (not_lt.2 (h2.trans (le_abs_self _)))]
  simp [not_lt.2 h0]

theorem round_count (hA : A.IsBinary64) {n : Nat} (h : n ≤ 2 ^ 53) : (CxxFloat.ofNat n : Num A) = .fin (n : K) := by
  have h' : |(n : Int)| ≤ 2 ^ 53 := by rw [abs_of_nonneg (Int.natCast_nonneg n)]; exact_mod_cast h
  have := Num.round_of (rnd_of_double hA (double_int (K := K) h') (int_lt_huge h'))
  rw [Num.ofNat_eq]
  simpa using this

/-- C177.  The mean of two equal values is that value; for a value of at least 2^1023 a `KahanAccumulator` reports a mean of infinity
and a `NeumaierAccumulator` a mean of NaN. -/
theorem C177_overflow_violated (hA : A.IsBinary64) {x : K} (hx : FinDouble x) (h : (2 : K) ^ (1023 : Int) ≤ x) :
    ([.fin x, .fin x].foldl Kahan.addCore (Kahan.new : Kahan (Num A))).getSum = .inf false ∧
    ([.fin x, .fin x].foldl Kahan.addCore (Kahan.new : Kahan (Num A))).mean = .inf false ∧
    ([.fin x, .fin x].foldl Neumaier.addCore (Neumaier.new : Neumaier (Num A))).getSum = .nan ∧
    ([.fin x, .fin x].foldl Neumaier.addCore (Neumaier.new : Neumaier (Num A))).mean = .nan := by
  have hxx := round_twice hA h
  have r : Num.round A x = .fin x := by
    unfold Num.round
    rw [hA, rnd64, rn_double hx.1, if_pos hx.2]
  have r0 : Num.round A (0 : K) = .fin 0 := by
    unfold Num.round
    rw [hA, rnd64, rn_zero, abs_zero, if_pos (two_zpow_pos _)]
  have hz : (0 : K) < x := (two_zpow_pos (K := K) 1023).trans_le h
  have k1 : Kahan.addCore (Kahan.new : Kahan (Num A)) (.fin x) = ⟨.fin x, .fin 0, 1⟩ := by
    simp [Kahan.addCore, Kahan.new, Num.zero_eq, Num.fin_add, Num.fin_sub, r, r0, succU]
  have k2 : Kahan.addCore (⟨.fin x, .fin 0, 1⟩ : Kahan (Num A)) (.fin x) = ⟨.inf false, .inf false, 2⟩ := by
    simp [Kahan.addCore, Num.fin_add, Num.fin_sub, r, hxx, succU, inf_sub_fin]
  have n1 : Neumaier.addCore (Neumaier.new : Neumaier (Num A)) (.fin x) = ⟨.fin x, .fin 0, 1⟩ := by
    simp [Neumaier.addCore, Neumaier.new, Num.zero_eq, Num.fin_add, Num.fin_sub, r, r0, succU, Num.abs_fin, Num.le_fin, hz.ne']
  have n2 : (Neumaier.addCore (⟨.fin x, .fin 0, 1⟩ : Neumaier (Num A)) (.fin x)).getSum = .nan := by
    simp only [Neumaier.addCore, Neumaier.getSum, Num.fin_add, hxx, fin_sub_inf, inf_add_fin, fin_add_inf, ite_self]
    rfl
  simp only [List.foldl_cons, List.foldl_nil, k1, k2, n1]
  refine ⟨rfl, ?_, n2, ?_⟩
  · show (.inf false : Num A) / CxxFloat.ofNat 2 = .inf false
    rw [round_count hA (n := 2) (by norm_num)]
    show Num.inf (false != decide ((2 : Nat) < (0 : K))) = _
    simp
  · unfold Neumaier.mean
    rw [n2, nan_div]

/-- C177.  A `KnuthWelfordAccumulator` reports the right mean of two equal values. -/
theorem C177_welford_partial (hA : A.IsBinary64) {x : K} (hx : FinDouble x) :
    ([.fin x, .fin x].foldl KnuthWelford.addCore (KnuthWelford.new : KnuthWelford (Num A))).getMean = .fin x := by
  have r : Num.round A x = .fin x := Num.round_of (rnd_of_double hA hx.1 hx.2)
  have r0 : Num.round A (0 : K) = .fin 0 := Num.round_of (rnd_of_double hA double_zero (by rw [abs_zero]; exact two_zpow_pos _))
  have c1 := round_count (A := A) hA (n := 1) (by norm_num)
  have c2 := round_count (A := A) hA (n := 2) (by norm_num)
  have k1 : (KnuthWelford.addCore (KnuthWelford.new : KnuthWelford (Num A)) (.fin x)).mean = .fin x := by
    show (.fin 0 : Num A) + (.fin x - .fin 0) / CxxFloat.ofNat 1 = .fin x
    rw [c1, Num.fin_sub, sub_zero, r, Num.fin_div (by simp), Nat.cast_one, div_one, r, Num.fin_add, zero_add, r]
  simp only [List.foldl_cons, List.foldl_nil]
  show (KnuthWelford.addCore KnuthWelford.new (.fin x : Num A)).mean +
    (.fin x - (KnuthWelford.addCore KnuthWelford.new (.fin x : Num A)).mean) / CxxFloat.ofNat 2 = .fin x
  rw [c2, k1, Num.fin_sub, sub_self, r0, Num.fin_div (by norm_num), zero_div, r0, Num.fin_add, add_zero, r]
end

/-! ### Histograms -/

/-- C176.  After any calls on a histogram with a valid address each: a bin that was given a value that is not finite since the last
reset has a sum of NaN, and every other bin has the sum it would have without the calls for that bin. -/
theorem C176_histogram {K : Type} [Field K] [LinearOrder K] {A : Arith K} (n : Nat) (hn : n < 2 ^ 64) (ops : List (HistOp (Num A)))
    (ha : Addressed n ops) (h : Hist (Num A)) (hh : (Hist.new n).run ops = .ok h) (i : Nat) (a : Neumaier (Num A))
    (hi : h.acc[i]? = some a) :
    a = (inBin i (measurements ops)).foldl Neumaier.addCore Neumaier.new ∧
    ((∃ x ∈ inBin i (measurements ops), ¬ IsFinite x) → a.getSum = .nan ∧ a.mean = .nan) := by
  have e := (hist_state n hn ops ha h hh).2.bins i a hi
  refine ⟨e, fun hx => ?_⟩
  rw [e]
  exact neumaier_sum_nan (foldl_poison (B := fun s => s.c = .nan) (fun s x hx => neumaier_poison s hx) neumaier_keeps _ _ (.inl hx))

/-! The hypotheses are met: in double precision, 1, an infinity and 2 added; the weight -1 leaves an infinity out. -/

example (A : Arith ℝ) : ∃ x ∈ sinceReset [AccOp.add (.nan : Num A), .reset, .add (.fin 1), .add (.inf true), .add (.fin 2)],
    ¬ IsFinite x := ⟨.inf true, by simp [sinceReset, AccOp.isReset], id⟩

example (A : Arith ℝ) (hA : A.IsBinary64) :
    (runOps KnuthWelford.addCore KnuthWelford.reset (KnuthWelford.new : KnuthWelford (Num A)) [.add (.fin 1), .add (.inf true)]).scaledVariance
      = .nan :=
  (C176_welford (keepsSign_binary64 hA) _ ⟨.inf true, by simp [sinceReset, AccOp.isReset], id⟩).2.2.2

example (A : Arith ℝ) (hA : A.IsBinary64) :
    ¬ IsFinite (runOps West.addPair West.reset (West.new : West (Num A)) [.add (.inf true, .fin (-1)), .add (.inf true, .fin 1)]).getMean :=
  (C176_west (keepsSign_binary64 hA) _ ⟨(.inf true, .fin 1), by simp [sinceReset, AccOp.isReset],
    by show decide ((0 : ℝ) < 1) = true; simp, .inl id⟩).1

example : FinDouble ((2 : ℝ) ^ (1023 : Int)) :=
  ⟨double_two_zpow (by norm_num), by
    rw [abs_of_pos (two_zpow_pos _)]; exact zpow_lt_zpow_right₀ one_lt_two (show (1023 : Int) < 1024 by norm_num)⟩

end Bwsl
