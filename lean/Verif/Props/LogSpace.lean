import Verif.Model.Spaces
import Verif.Lemmas.Real
import Verif.Lemmas.NumOrder
import Verif.Lemmas.Loop
import Mathlib.Analysis.SpecialFunctions.Pow.Real

/-! Property C64: logarithmically spaced values, over the real numbers. -/

namespace Bwsl
open Spec

set_option linter.unusedSectionVars false

variable {A : Arith ℝ}

/-- The factor between consecutive values. -/
noncomputable def Spec.ratio (a b : ℝ) (n : Nat) : ℝ := (b / a) ^ (1 / (n : ℝ))

theorem factor_eq (hA : A.IsReal) {a b : ℝ} (ha : 0 < a) (hb : 0 < b) (n : Nat) (hn : n ≠ 0) :
    LogSpace.factor (.fin a : Num A) (.fin b) n = .fin (ratio a b n) := by
  have hn' : (n : ℝ) ≠ 0 := by exact_mod_cast hn
  unfold LogSpace.factor ratio
  rw [real_log hA ha, real_log hA hb, Num.fin_sub, Num.ofNat_eq, Num.round_exact hA.exact, Num.round_exact hA.exact,
    Num.fin_div hn', Num.round_exact hA.exact, real_e hA, real_pow hA (Real.exp_pos 1).ne', ← Real.exp_mul, one_mul, Real.rpow_def_of_pos (div_pos hb ha),
    Real.log_div hb.ne' ha.ne']
  congr 2
  ring

theorem logSpace_new (hA : A.IsReal) {a b : ℝ} (ha : 0 < a) (hab : a < b) (n : Nat) (hn : n ≠ 0) :
    LogSpace.new (.fin a : Num A) (.fin b) n =
      .ok ⟨.fin (ratio a b n), .fin a, .fin a, .fin b, n, 0⟩ := by
  unfold LogSpace.new
  rw [Num.lt_fin, if_pos (decide_eq_true hab), factor_eq hA ha (ha.trans hab) n hn]

theorem logSpace_iterate (hA : A.IsReal) (a b r : ℝ) (n : Nat) (k : Nat) (hk : k < W64) :
    LogSpace.incr^[k] (⟨.fin r, .fin a, .fin a, .fin b, n, 0⟩ : LogSpace (Num A)) =
      ⟨.fin r, .fin (a * r ^ k), .fin a, .fin b, n, k⟩ := by
  induction k with
  | zero => simp
  | succ k ih =>
    rw [Function.iterate_succ_apply', ih (by omega)]
    unfold LogSpace.incr
    have e : (k + 1) % W64 = k + 1 := Nat.mod_eq_of_lt hk
    simp only [e, Num.fin_mul, Num.round_exact hA.exact]
    congr 2
    ring

theorem ratio_pow {a b : ℝ} (ha : 0 < a) (hb : 0 < b) (n k : Nat) :
    ratio a b n ^ k = (b / a) ^ ((k : ℝ) / n) := by
  unfold ratio
  rw [← Real.rpow_natCast, ← Real.rpow_mul (div_pos hb ha).le]
  congr 1
  ring

/-- C64.  With 0 < first < last the value after `k` increments is first (last/first)^(k/n); so the n-th is
`last`. -/
theorem C64_kth (hA : A.IsReal) (a b : ℝ) (ha : 0 < a) (n : Nat) (hn : n ≠ 0) (s : LogSpace (Num A))
    (hs : LogSpace.new (.fin a) (.fin b) n = .ok s) (k : Nat) (hk : k < 2 ^ 64) :
    (LogSpace.incr^[k] s).deref = .fin (a * (b / a) ^ ((k : ℝ) / n)) ∧
    (k = n → (LogSpace.incr^[k] s).deref = .fin b) := by
  have hab : a < b := by
    by_contra h
    unfold LogSpace.new at hs
    rw [Num.lt_fin, if_neg (by simpa using h)] at hs
    cases hs
  have hb := ha.trans hab
  rw [logSpace_new hA ha hab n hn, Res.ok.injEq] at hs
  subst hs
  rw [logSpace_iterate hA a b _ n k hk, ratio_pow ha hb]
  refine ⟨rfl, fun h => ?_⟩
  subst h
  have hk' : (k : ℝ) ≠ 0 := by exact_mod_cast hn
  show Num.fin _ = _
  rw [div_self hk', Real.rpow_one]
  congr 1
  field_simp

/-- C64.  The constructor from exponents gives the space between the two powers of its base. -/
theorem C64_powers (hA : A.IsReal) (base : ℝ) (hbase : 1 < base) (start stop : Int) (h : start < stop) (n : Nat) :
    LogSpace.newPow start stop n (.fin base : Num A) =
      LogSpace.new (.fin (base ^ (start : ℝ))) (.fin (base ^ (stop : ℝ))) n := by
  unfold LogSpace.newPow LogSpace.new
  have hlt : base ^ (start : ℝ) < base ^ (stop : ℝ) := Real.rpow_lt_rpow_of_exponent_lt hbase (by exact_mod_cast h)
  have e : ∀ m : Int, CxxFloat.pow (.fin base : Num A) (CxxFloat.ofInt m) = .fin (base ^ (m : ℝ)) := by
    intro m
    rw [Num.ofInt_eq, Num.round_exact hA.exact, real_pow hA (by positivity)]
  rw [if_pos h, Num.lt_fin, if_pos (decide_eq_true hlt)]
  simp only [e]

/-- C64.  The values increase. -/
theorem C64_increasing (hA : A.IsReal) (a b : ℝ) (ha : 0 < a) (hab : a < b) (n : Nat) (hn : n ≠ 0) (s : LogSpace (Num A))
    (hs : LogSpace.new (.fin a) (.fin b) n = .ok s) (j k : Nat) (hjk : j < k) (hk : k < 2 ^ 64) :
    CxxFloat.lt (LogSpace.incr^[j] s).deref (LogSpace.incr^[k] s).deref = true := by
  rw [(C64_kth hA a b ha n hn s hs k hk).1, (C64_kth hA a b ha n hn s hs j (Nat.lt_trans hjk hk)).1, Num.lt_fin]
  have hn' : (0 : ℝ) < n := by exact_mod_cast Nat.pos_of_ne_zero hn
  have hlt : (j : ℝ) / n < k / n := div_lt_div_of_pos_right (by exact_mod_cast hjk) hn'
  exact decide_eq_true (mul_lt_mul_of_pos_left
    (Real.rpow_lt_rpow_of_exponent_lt ((one_lt_div ha).2 hab) hlt) ha)

/-- C64.  `Collect(m)` returns the values of the next `m` calls. -/
theorem C64_collect (hA : A.IsReal) (a b : ℝ) (ha : 0 < a) (n : Nat) (hn : n ≠ 0) (s : LogSpace (Num A))
    (hs : LogSpace.new (.fin a) (.fin b) n = .ok s) (j m : Nat) (hk : j + m < 2 ^ 64) :
    (LogSpace.incr^[j] s).collect m =
      (List.range m).map (fun k => .fin (a * (b / a) ^ (((j + k : Nat) : ℝ) / n))) := by
  unfold LogSpace.collect
  induction m generalizing j with
  | zero => rfl
  | succ m ih =>
    rw [LogSpace.generateN, List.range_succ_eq_map]
    have e : (LogSpace.call (LogSpace.incr^[j] s)).2 = LogSpace.incr^[j + 1] s := by
      rw [Function.iterate_succ_apply']; rfl
    rw [e, ih (j + 1) (by omega)]
    have := (C64_kth hA a b ha n hn s hs j (by omega)).1
    simp only [List.map_cons, List.map_map, Nat.add_zero, List.cons.injEq]
    refine ⟨this, List.map_congr_left (fun k _ => ?_)⟩
    simp only [Function.comp, show j + 1 + k = j + (k + 1) by omega]

/-- C64.  `begin()` and `end()` return the states after 0 and n increments, from any state; the postfix increment returns
the state before; two states compare equal exactly when they are the same number of increments from the start. -/
theorem C64_states (hA : A.IsReal) (a b : ℝ) (ha : 0 < a) (n : Nat) (hn : n ≠ 0) (hn64 : n < 2 ^ 64) (s : LogSpace (Num A))
    (hs : LogSpace.new (.fin a) (.fin b) n = .ok s) (j k : Nat) (hj : j < 2 ^ 64) (hk : k < 2 ^ 64) :
    (LogSpace.incr^[k] s).begin = s ∧ (LogSpace.incr^[k] s).end = LogSpace.incr^[n] s ∧
    (LogSpace.incr^[k] s).postIncr = (LogSpace.incr^[k] s, LogSpace.incr^[k + 1] s) ∧
    ((LogSpace.incr^[j] s).eq (LogSpace.incr^[k] s) = true ↔ j = k) ∧
    ((LogSpace.incr^[j] s).ne (LogSpace.incr^[k] s) = true ↔ j ≠ k) := by
  have hab : a < b := by
    by_contra h
    unfold LogSpace.new at hs
    rw [Num.lt_fin, if_neg (by simpa using h)] at hs
    cases hs
  have hb : (LogSpace.incr^[n] s).current = .fin b := (C64_kth hA a b ha n hn s hs n hn64).2 rfl
  rw [logSpace_new hA ha hab n hn, Res.ok.injEq] at hs
  subst hs
  have it := fun m (hm : m < W64) => logSpace_iterate hA a b (ratio a b n) n m hm
  rw [it n hn64] at hb
  simp only at hb
  refine ⟨?_, ?_, ?_, ?_, ?_⟩
  · rw [it k hk]; rfl
  · rw [it k hk, it n hn64, hb]; rfl
  · rw [Function.iterate_succ_apply']; rfl
  · rw [it k hk, it j hj]; simp [LogSpace.eq]
  · rw [it k hk, it j hj]; simp [LogSpace.ne, LogSpace.eq]

/-- C64.  A loop from `begin()` to `end()` sees exactly the first `n` values, from any state of the space. -/
theorem C64_visit (hA : A.IsReal) (a b : ℝ) (ha : 0 < a) (n : Nat) (hn : n ≠ 0) (hn64 : n < 2 ^ 64) (s : LogSpace (Num A))
    (hs : LogSpace.new (.fin a) (.fin b) n = .ok s) (j : Nat) (hj : j < 2 ^ 64) :
    (LogSpace.incr^[j] s).visit = .ok ((List.range n).map (fun (k : Nat) => .fin (a * (b / a) ^ ((k : ℝ) / n)))) := by
  have kth := fun k hk => (C64_kth hA a b ha n hn s hs k hk).1
  have hab : a < b := by
    by_contra h
    unfold LogSpace.new at hs
    rw [Num.lt_fin, if_neg (by simpa using h)] at hs
    cases hs
  have hs' := hs
  rw [logSpace_new hA ha hab n hn, Res.ok.injEq] at hs'
  have it := fun k (hk : k < W64) => logSpace_iterate hA a b (ratio a b n) n k hk
  rw [hs'] at it
  have hb : (LogSpace.incr^[j] s).begin = s := by
    rw [it j hj]; rw [← hs']; rfl
  have he : (LogSpace.incr^[j] s).end.step = n := by rw [it j hj]; rfl
  unfold LogSpace.visit
  rw [hb]
  have loop : ∀ m k, k + m = n → ∀ acc : List (Num A),
      whileLoop (fun st : LogSpace (Num A) × List (Num A) => LogSpace.ne st.1 (LogSpace.incr^[j] s).end)
        (fun st => .ok (st.1.incr, st.2 ++ [st.1.deref])) (LogSpace.incr^[k] s, acc) =
      .ok (LogSpace.incr^[n] s, acc ++ (List.range' k m).map (fun (k : Nat) => .fin (a * (b / a) ^ ((k : ℝ) / n)))) := by
    intro m
    induction m with
    | zero =>
      intro k hk acc
      rw [whileLoop_done]
      · have : k = n := by omega
        subst this; simp
      · have : (LogSpace.incr^[k] s).step = k := by rw [it k (by omega)]
        unfold LogSpace.ne LogSpace.eq
        simp only [this, he]
        simp [show k = n by omega]
    | succ m ih =>
      intro k hk acc
      refine Eq.trans (whileLoop_step (s' := (LogSpace.incr^[k + 1] s, acc ++ [(LogSpace.incr^[k] s).deref])) ?_ ?_) ?_
      · have : (LogSpace.incr^[k] s).step = k := by rw [it k (by omega)]
        unfold LogSpace.ne LogSpace.eq
        simp only [this, he]
        simp [show k ≠ n by omega]
      · simp only [Function.iterate_succ_apply']
      · rw [ih (k + 1) (by omega), kth k (by omega), List.range'_succ]
        simp
  have := loop n 0 (by omega) []
  rw [Function.iterate_zero, id] at this
  rw [this, Res.ok_bind, List.nil_append, ← List.range_eq_range']

/-- Real arithmetic exists, and has a nontrivial space. -/
example : ∃ A : Arith ℝ, A.IsReal ∧ ∃ s, LogSpace.new (.fin 1 : Num A) (.fin 100) 2 = .ok s := by
  let A : Arith ℝ := ⟨some, Real.sqrt, Real.exp, Real.log, Real.rpow, Real.sin, Real.cos, Real.pi⟩
  have h : A.IsReal := ⟨fun _ => rfl, rfl, rfl, rfl, rfl, rfl, rfl, rfl⟩
  exact ⟨A, h, _, logSpace_new h (by norm_num) (by norm_num) 2 (by decide)⟩

end Bwsl
