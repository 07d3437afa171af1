import Verif.Props.AccumCount

/-! Properties C36, C37, C38: compensated sums. -/

namespace Bwsl
open Spec

set_option linter.unusedSectionVars false

section
variable {K : Type} [Field K] [LinearOrder K] {A : Arith K}

/-! ### Representable partial sums -/

/-- `R` is a set of values that are rounded to themselves, with 0 and closed under negation. -/
structure Repr (A : Arith K) (R : K → Prop) : Prop where
  rnd : ∀ x, R x → A.rnd x = some x
  zero : R 0
  neg : ∀ x, R x → R (-x)

theorem Repr.round {R : K → Prop} (h : Repr A R) {x : K} (hx : R x) : Num.round A x = .fin x :=
  Num.round_of (h.rnd x hx)

theorem kahan_step {R : K → Prop} (hR : Repr A R) {s x : K} {n : Nat} (hx : R x) (hsx : R (s + x)) :
    Kahan.addCore (⟨.fin s, .fin 0, n⟩ : Kahan (Num A)) (.fin x) = ⟨.fin (s + x), .fin 0, succU n⟩ := by
  unfold Kahan.addCore
  simp only [Num.fin_sub, sub_zero, hR.round hx, Num.fin_add, hR.round hsx, add_sub_cancel_left, sub_self,
    hR.round hR.zero]

theorem neumaier_step {R : K → Prop} (hR : Repr A R) {s x : K} {n : Nat} (hs : R s) (hx : R x)
    (hsx : R (s + x)) :
    Neumaier.addCore (⟨.fin s, .fin 0, n⟩ : Neumaier (Num A)) (.fin x) =
      ⟨.fin (s + x), .fin 0, succU n⟩ := by
  unfold Neumaier.addCore
  have e1 : s - (s + x) = -x := by ring
  have e2 : x - (s + x) = -s := by ring
  simp only [Num.fin_add, hR.round hsx, Num.fin_sub, e1, e2, hR.round (hR.neg x hx),
    hR.round (hR.neg s hs), neg_add_cancel, hR.round hR.zero, add_zero, ite_self]

theorem succU_lt (n : Nat) : succU n < W64 := by unfold succU; omega

theorem kahan_run {R : K → Prop} (hR : Repr A R) (xs : List K) (s : K) (n : Nat) (hn : n < W64)
    (hx : ∀ x ∈ xs, R x) (hp : ∀ k, R (s + (xs.take k).sum)) :
    (xs.map .fin).foldl Kahan.addCore (⟨.fin s, .fin 0, n⟩ : Kahan (Num A)) =
      ⟨.fin (s + xs.sum), .fin 0, (n + xs.length) % W64⟩ := by
  induction xs generalizing s n with
  | nil => simp [Nat.mod_eq_of_lt hn]
  | cons x xs ih =>
    have h1 : R (s + x) := by have := hp 1; simpa using this
    rw [List.map_cons, List.foldl_cons, kahan_step hR (hx x List.mem_cons_self) h1,
      ih _ _ (succU_lt n) (fun y hy => hx y (List.mem_cons_of_mem _ hy))
        (fun k => by have := hp (k + 1); rwa [List.take_succ_cons, List.sum_cons, ← add_assoc] at this),
      List.sum_cons, List.length_cons, add_assoc]
    unfold succU
    congr 1; omega

theorem neumaier_run {R : K → Prop} (hR : Repr A R) (xs : List K) (s : K) (n : Nat) (hn : n < W64)
    (hx : ∀ x ∈ xs, R x) (hp : ∀ k, R (s + (xs.take k).sum)) :
    (xs.map .fin).foldl Neumaier.addCore (⟨.fin s, .fin 0, n⟩ : Neumaier (Num A)) =
      ⟨.fin (s + xs.sum), .fin 0, (n + xs.length) % W64⟩ := by
  induction xs generalizing s n with
  | nil => simp [Nat.mod_eq_of_lt hn]
  | cons x xs ih =>
    have h0 : R s := by have := hp 0; simpa using this
    have h1 : R (s + x) := by have := hp 1; simpa using this
    rw [List.map_cons, List.foldl_cons, neumaier_step hR h0 (hx x List.mem_cons_self) h1,
      ih _ _ (succU_lt n) (fun y hy => hx y (List.mem_cons_of_mem _ hy))
        (fun k => by have := hp (k + 1); rwa [List.take_succ_cons, List.sum_cons, ← add_assoc] at this),
      List.sum_cons, List.length_cons, add_assoc]
    unfold succU
    congr 1; omega

theorem repr_exact (hA : A.IsExact) : Repr A (fun _ => True) :=
  ⟨fun x _ => hA x, trivial, fun _ _ => trivial⟩

/-- `Sum()` of the two compensated accumulators after adding `xs` to fresh objects. -/
theorem sums_of_repr {R : K → Prop} (hR : Repr A R) (xs : List K) (hx : ∀ x ∈ xs, R x)
    (hp : ∀ k, R (xs.take k).sum) :
    ((xs.map .fin).foldl Kahan.addCore (Kahan.new : Kahan (Num A))).getSum = .fin xs.sum ∧
    ((xs.map .fin).foldl Neumaier.addCore (Neumaier.new : Neumaier (Num A))).getSum = .fin xs.sum := by
  have hp' : ∀ k, R (0 + (xs.take k).sum) := fun k => by rw [zero_add]; exact hp k
  have hs : R xs.sum := by have := hp xs.length; rwa [List.take_length] at this
  constructor
  · have := kahan_run hR xs 0 0 (by decide) hx hp'
    unfold Kahan.getSum Kahan.new
    rw [Num.zero_eq, this, zero_add]
  · have := neumaier_run hR xs 0 0 (by decide) hx hp'
    unfold Neumaier.getSum Neumaier.new
    rw [Num.zero_eq, this]
    simp only [zero_add, Num.fin_add, add_zero, hR.round hs]

/-- C36.  In exact arithmetic both compensated sums are the sum of the values. -/
theorem C36_exact (hA : A.IsExact) (xs : List K) :
    ((xs.map .fin).foldl Kahan.addCore (Kahan.new : Kahan (Num A))).getSum = .fin xs.sum ∧
    ((xs.map .fin).foldl Neumaier.addCore (Neumaier.new : Neumaier (Num A))).getSum = .fin xs.sum :=
  sums_of_repr (repr_exact hA) xs (fun _ _ => trivial) (fun _ => trivial)

/-- C36.  In exact arithmetic both means are the arithmetic mean. -/
theorem C36_mean_exact [CharZero K] (hA : A.IsExact) (xs : List K) (h0 : xs ≠ []) (hn : xs.length < 2 ^ 64) :
    ((xs.map .fin).foldl Kahan.addCore (Kahan.new : Kahan (Num A))).mean = .fin (avg xs) ∧
    ((xs.map .fin).foldl Neumaier.addCore (Neumaier.new : Neumaier (Num A))).mean = .fin (avg xs) := by
  have hR := repr_exact hA
  have hl : xs.length ≠ 0 := by simpa using h0
  have hl' : (xs.length : K) ≠ 0 := by exact_mod_cast hl
  have hm' : xs.length % W64 = xs.length := Nat.mod_eq_of_lt hn
  constructor
  · have := kahan_run hR xs 0 0 (by decide) (fun _ _ => trivial) (fun _ => trivial)
    unfold Kahan.mean Kahan.new
    rw [Num.zero_eq, this]
    simp only [Num.ofNat_eq, Num.round_exact hA, zero_add, hm']
    rw [Num.fin_div hl', Num.round_exact hA]; rfl
  · have := neumaier_run hR xs 0 0 (by decide) (fun _ _ => trivial) (fun _ => trivial)
    unfold Neumaier.mean Neumaier.getSum Neumaier.getCount Neumaier.new
    rw [Num.zero_eq, this]
    simp only [Num.ofNat_eq, Num.round_exact hA, Num.fin_add, add_zero, zero_add, hm']
    rw [Num.fin_div hl', Num.round_exact hA]; rfl

end

section
variable {K : Type} [Field K] [LinearOrder K] [IsStrictOrderedRing K] [FloorRing K] {A : Arith K}

/-- A finite `double`. -/
def Spec.FinDouble (x : K) : Prop := Double x ∧ |x| < (2 : K) ^ (1024 : Int)

theorem repr64 (hA : A.IsBinary64) : Repr A (FinDouble (K := K)) :=
  ⟨fun _ h => rnd_of_double hA h.1 h.2, ⟨double_zero, by rw [abs_zero]; exact two_zpow_pos _⟩,
    fun _ h => ⟨h.1.neg, by rw [abs_neg]; exact h.2⟩⟩

/-- C36.  For doubles, whenever the values and all the partial sums are representable, both compensated
sums are exact. -/
theorem C36_binary64 (hA : A.IsBinary64) (xs : List K) (hx : ∀ x ∈ xs, FinDouble x)
    (hp : ∀ k, FinDouble (xs.take k).sum) :
    ((xs.map .fin).foldl Kahan.addCore (Kahan.new : Kahan (Num A))).getSum = .fin xs.sum ∧
    ((xs.map .fin).foldl Neumaier.addCore (Neumaier.new : Neumaier (Num A))).getSum = .fin xs.sum :=
  sums_of_repr (repr64 hA) xs hx hp

theorem finDouble_int {n : Int} (h : |n| ≤ 2 ^ 53) : FinDouble (n : K) := ⟨double_int h, int_lt_huge h⟩

/-- C36.  In particular for integers whose values and partial sums have magnitude at most 2^53. -/
theorem C36_integers (hA : A.IsBinary64) (ns : List Int) (hx : ∀ n ∈ ns, |n| ≤ 2 ^ 53)
    (hp : ∀ k, |(ns.take k).sum| ≤ 2 ^ 53) :
    (((ns.map (Int.cast : Int → K)).map .fin).foldl Kahan.addCore (Kahan.new : Kahan (Num A))).getSum =
      .fin (ns.sum : K) ∧
    (((ns.map (Int.cast : Int → K)).map .fin).foldl Neumaier.addCore
      (Neumaier.new : Neumaier (Num A))).getSum = .fin (ns.sum : K) := by
  have hcast : ∀ l : List Int, (l.map (Int.cast : Int → K)).sum = (l.sum : K) := by
    intro l
    induction l with
    | nil => simp
    | cons a l ih => rw [List.map_cons, List.sum_cons, ih, List.sum_cons]; push_cast; rfl
  have := C36_binary64 hA (ns.map (Int.cast : Int → K))
    (fun x hx' => by
      obtain ⟨n, hn, rfl⟩ := List.mem_map.1 hx'
      exact finDouble_int (hx n hn))
    (fun k => by rw [← List.map_take, hcast]; exact finDouble_int (hp k))
  rwa [hcast] at this

/-- There is binary64 arithmetic, over the rationals. -/
example : ∃ A : Arith ℚ, A.IsBinary64 := ⟨⟨rnd64, id, id, id, fun x _ => x, id, id, 3⟩, fun _ => rfl⟩

example : (∀ n ∈ [2 ^ 53, -1, (7 : Int)], |n| ≤ 2 ^ 53) := by decide

/-! ### Error-free corrections -/

theorem rnd_rn (hA : A.IsBinary64) {x : K} (h : |rn x| < (2 : K) ^ (1024 : Int)) :
    Num.round A x = .fin (rn x) := Num.round_of (by rw [hA, rnd64, if_pos h])

/-- The two finite differences of the correction do not overflow: |s - t| is bounded by |s|, |t| and their
difference of the same sign. -/
theorem diff_small {a b : K} (ha : FinDouble a) (h : |b| ≤ |a|)
    (ht : |rn (a + b)| < (2 : K) ^ (1024 : Int)) : |a - rn (a + b)| < (2 : K) ^ (1024 : Int) := by
  obtain ⟨t1, t2⟩ := abs_lt.1 ht
  obtain ⟨a1, a2⟩ := abs_lt.1 ha.2
  rcases le_total 0 a with h0 | h0
  · rw [abs_of_nonneg h0] at h
    obtain ⟨b1, b2⟩ := abs_le.1 h
    have h3 : 0 ≤ rn (a + b) := by
      have := rn_mono (show (0 : K) ≤ a + b by linarith); rwa [rn_zero] at this
    rw [abs_lt]; constructor <;> linarith
  · rw [abs_of_nonpos h0] at h
    obtain ⟨b1, b2⟩ := abs_le.1 h
    have h3 : rn (a + b) ≤ 0 := by
      have := rn_mono (show a + b ≤ (0 : K) by linarith); rwa [rn_zero] at this
    rw [abs_lt]; constructor <;> linarith

/-- The correction term, for operands in the order of their magnitudes. -/
theorem correction (hA : A.IsBinary64) {a b : K} (ha : FinDouble a) (hb : FinDouble b) (h : |b| ≤ |a|)
    (ht : |rn (a + b)| < (2 : K) ^ (1024 : Int)) :
    ((.fin a : Num A) - .fin (rn (a + b))) + .fin b = .fin (a + b - rn (a + b)) := by
  have d1 : Double (a - rn (a + b)) := by
    have := (fast_two_sum ha.1 hb.1 h).neg
    rwa [neg_sub] at this
  rw [Num.fin_sub, Num.round_of (rnd_of_double hA d1 (diff_small ha h ht)), Num.fin_add]
  have e : a - rn (a + b) + b = a + b - rn (a + b) := by ring
  rw [e]
  refine Num.round_of (rnd_of_double hA (sum_err_double ha.1 hb.1) ?_)
  have := rn_nearest (a + b) a ha.1
  rw [add_sub_cancel_left] at this
  exact this.trans_lt hb.2

/-- C37.  One `Add` in binary64: if the running sum does not overflow, the amount added to the correction is
exactly the rounding error of the running sum. -/
theorem C37_error_free (hA : A.IsBinary64) (s x c t : K) (n : Nat) (hs : FinDouble s) (hx : FinDouble x)
    (ht : A.rnd (s + x) = some t) :
    Neumaier.addCore (⟨.fin s, .fin c, n⟩ : Neumaier (Num A)) (.fin x) =
      ⟨.fin t, .fin c + .fin (s + x - t), succU n⟩ := by
  obtain ⟨rfl, ht'⟩ := rnd_eq_some hA ht
  unfold Neumaier.addCore
  rw [Num.fin_add, Num.round_of ht]
  simp only [Num.abs_fin, Num.le_fin, decide_eq_true_eq]
  by_cases h : |x| ≤ |s|
  · rw [if_pos h, correction hA hs hx h ht']
  · rw [if_neg h]
    have ht2 : |rn (x + s)| < (2 : K) ^ (1024 : Int) := by rwa [add_comm]
    have := correction hA hx hs (not_le.1 h).le ht2
    rw [add_comm x s] at this
    rw [this]

/-- C37.  The sum of two doubles is recovered without any error: running sum plus correction. -/
theorem C37_two_values (hA : A.IsBinary64) (x y t : K) (hx : FinDouble x) (hy : FinDouble y)
    (ht : A.rnd (x + y) = some t) :
    ∃ c : K, [Num.fin x, .fin y].foldl Neumaier.addCore (Neumaier.new : Neumaier (Num A)) =
      ⟨.fin t, .fin c, 2⟩ ∧ t + c = x + y := by
  have hR := repr64 (K := K) hA
  have e0 : Neumaier.addCore (Neumaier.new : Neumaier (Num A)) (.fin x) = ⟨.fin x, .fin 0, 1⟩ := by
    have := neumaier_step hR (s := 0) (x := x) (n := 0) hR.zero hx (by rw [zero_add]; exact hx)
    unfold Neumaier.new
    rw [Num.zero_eq, this, zero_add]; rfl
  refine ⟨x + y - t, ?_, by ring⟩
  rw [List.foldl_cons, List.foldl_cons, List.foldl_nil, e0, C37_error_free hA x y 0 t 1 hx hy ht, Num.fin_add,
    zero_add]
  obtain ⟨rfl, _⟩ := rnd_eq_some hA ht
  have h3 : FinDouble (x + y - rn (x + y)) := by
    refine ⟨sum_err_double hx.1 hy.1, ?_⟩
    have := rn_nearest (x + y) x hx.1
    rw [add_sub_cancel_left] at this
    exact this.trans_lt hy.2
  rw [hR.round h3]; rfl

/-! ### Error bound -/

/-- unit roundoff of binary64 -/
def Spec.unitRoundoff (K : Type) [Field K] : K := 1 / 2 ^ 53

/-- A history without overflow: running sums and corrections are finite and follow the recurrences
t_k = rn(t_{k-1} + x_k), c_k = rn(c_{k-1} + e_k), e_k the exact error. -/
inductive Trace : List K → K → K → List K → Prop
  | nil : Trace [] 0 0 []
  | snoc {xs es : List K} {s c x : K} : Trace xs s c es → FinDouble x → FinDouble (rn (s + x)) →
      FinDouble (rn (c + (s + x - rn (s + x)))) →
      Trace (xs ++ [x]) (rn (s + x)) (rn (c + (s + x - rn (s + x)))) (es ++ [s + x - rn (s + x)])

theorem Trace.fin {xs es : List K} {s c : K} (h : Trace xs s c es) : FinDouble s ∧ FinDouble c := by
  have z : FinDouble (0 : K) := ⟨double_zero, by rw [abs_zero]; exact two_zpow_pos _⟩
  cases h with
  | nil => exact ⟨z, z⟩
  | snoc _ _ h1 h2 => exact ⟨h1, h2⟩

/-- Every history with a finite `Sum()` is such a trace. -/
theorem trace_of_finite (hA : A.IsBinary64) (xs : List K) (hx : ∀ x ∈ xs, FinDouble x) {s c : K} {n : Nat}
    (h : (xs.map .fin).foldl Neumaier.addCore (Neumaier.new : Neumaier (Num A)) = ⟨.fin s, .fin c, n⟩) :
    ∃ es, Trace xs s c es := by
  induction xs using List.reverseRecOn generalizing s c n with
  | nil =>
    simp only [List.map_nil, List.foldl_nil, Neumaier.new, Num.zero_eq, Neumaier.mk.injEq,
      Num.fin.injEq] at h
    obtain ⟨rfl, rfl, _⟩ := h
    exact ⟨[], .nil⟩
  | append_singleton xs x ih =>
    rw [List.map_append, List.foldl_append] at h
    have hx' := hx x (by simp)
    generalize hst : (xs.map .fin).foldl Neumaier.addCore (Neumaier.new : Neumaier (Num A)) = st at h ih
    obtain ⟨s0, c0, n0⟩ := st
    simp only [List.map_cons, List.map_nil, List.foldl_cons, List.foldl_nil] at h
    have h' := h
    unfold Neumaier.addCore at h
    simp only [Neumaier.mk.injEq] at h
    obtain ⟨h1, h2, h3⟩ := h
    obtain ⟨s1, _, rfl, _⟩ := Num.add_eq_fin h1
    have hc0 : ∃ c1, c0 = .fin c1 := by
      split at h2
      · obtain ⟨c1, _, rfl, _⟩ := Num.add_eq_fin h2; exact ⟨c1, rfl⟩
      · obtain ⟨c1, _, rfl, _⟩ := Num.add_eq_fin h2; exact ⟨c1, rfl⟩
    obtain ⟨c1, rfl⟩ := hc0
    obtain ⟨es, ht⟩ := ih (fun y hy => hx y (by simp [hy])) rfl
    have hfin := ht.fin
    rw [Num.fin_add] at h1
    have hr := Num.round_eq_fin h1
    rw [C37_error_free hA s1 x c1 s n0 hfin.1 hx' hr, Neumaier.mk.injEq] at h'
    obtain ⟨_, hc, _⟩ := h'
    rw [Num.fin_add] at hc
    obtain ⟨rfl, hs'⟩ := rnd_eq_some hA hr
    obtain ⟨rfl, hc'⟩ := rnd_eq_some hA (Num.round_eq_fin hc)
    exact ⟨_, .snoc ht hx' ⟨rn_isDouble _, hs'⟩ ⟨rn_isDouble _, hc'⟩⟩

theorem sum_snoc (xs : List K) (x : K) : (xs ++ [x]).sum = xs.sum + x := by simp

/-- The exact sum is the running sum plus the errors. -/
theorem Trace.sum {xs es : List K} {s c : K} (h : Trace xs s c es) : xs.sum = s + es.sum := by
  induction h with
  | nil => simp
  | snoc _ _ _ _ ih => rw [sum_snoc, sum_snoc, ih]; ring

theorem Trace.of_nil {xs es : List K} {s c : K} (h : Trace xs s c es) (hn : xs = []) :
    s = 0 ∧ c = 0 ∧ es = [] := by
  cases h with
  | nil => exact ⟨rfl, rfl, rfl⟩
  | snoc => simp at hn

theorem Trace.length {xs es : List K} {s c : K} (h : Trace xs s c es) : es.length = xs.length := by
  induction h with
  | nil => rfl
  | snoc _ _ _ _ ih => simp [ih]

/-- C37.  A whole history of finite doubles that leaves a finite state: the exact sum of the inputs is the
running sum plus the rounding errors `es` (each one a double), and the correction is the floating-point sum of
precisely these errors: nothing but the rounding of the correction is lost. -/
theorem C37_history (hA : A.IsBinary64) (xs : List K) (hx : ∀ x ∈ xs, FinDouble x) (s c : K) (n : Nat)
    (h : (xs.map .fin).foldl Neumaier.addCore (Neumaier.new : Neumaier (Num A)) = ⟨.fin s, .fin c, n⟩) :
    ∃ es : List K, es.length = xs.length ∧ (∀ e ∈ es, Double e) ∧ xs.sum = s + es.sum ∧
      (es.map .fin).foldl (· + ·) (.fin 0 : Num A) = .fin c := by
  obtain ⟨es, ht⟩ := trace_of_finite hA xs hx h
  refine ⟨es, ht.length, ?_, ht.sum, ?_⟩
  · clear h
    induction ht with
    | nil => simp
    | @snoc xs es s c x ht hx' _ _ ih =>
      intro e he
      rcases List.mem_append.1 he with he | he
      · exact ih (fun y hy => hx y (by simp [hy])) e he
      · rw [List.mem_singleton] at he
        subst he
        exact sum_err_double ht.fin.1.1 hx'.1
  · clear h
    induction ht with
    | nil => rfl
    | @snoc xs es s c x ht hx' h1 h2 ih =>
      rw [List.map_append, List.foldl_append, ih (fun y hy => hx y (by simp [hy]))]
      simp only [List.map_cons, List.map_nil, List.foldl_cons, List.foldl_nil, Num.fin_add]
      exact rnd_rn hA h2.2

/-- sum of absolute values -/
def Spec.sumAbs (xs : List K) : K := (xs.map (fun x => |x|)).sum

theorem sumAbs_snoc (xs : List K) (x : K) : sumAbs (xs ++ [x]) = sumAbs xs + |x| := by
  unfold sumAbs; simp

theorem sumAbs_nonneg (xs : List K) : 0 ≤ sumAbs xs := by
  unfold sumAbs
  refine List.sum_nonneg ?_
  intro y hy
  obtain ⟨x, _, rfl⟩ := List.mem_map.1 hy
  exact abs_nonneg x

theorem abs_sum_le (xs : List K) : |xs.sum| ≤ sumAbs xs := by
  induction xs using List.reverseRecOn with
  | nil => simp [sumAbs]
  | append_singleton xs x ih =>
    rw [sum_snoc, sumAbs_snoc]
    exact (abs_add_le _ _).trans (by linarith)

theorem u_pos : (0 : K) < unitRoundoff K := by unfold unitRoundoff; positivity

theorem rn_add_rel {a b : K} (ha : Double a) (hb : Double b) :
    |a + b - rn (a + b)| ≤ unitRoundoff K * |a + b| := by
  have := rn_rel (ha.mult.add hb.mult)
  unfold unitRoundoff
  calc _ ≤ |a + b| / 2 ^ 53 := this
    _ = _ := by ring

theorem rn_add_abs {a b : K} (ha : Double a) (hb : Double b) :
    |rn (a + b)| ≤ (1 + unitRoundoff K) * |a + b| := by
  have h := rn_add_rel ha hb
  have : |rn (a + b)| ≤ |a + b| + |a + b - rn (a + b)| := by
    have := abs_add_le (a + b) (-(a + b - rn (a + b)))
    rw [abs_neg] at this
    calc |rn (a + b)| = |a + b + -(a + b - rn (a + b))| := by congr 1; ring
      _ ≤ _ := this
  linarith

/-- Growth of the running sum and of the accumulated errors. The first addition is exact, so the exponents
count additions after the first. -/
theorem Trace.bounds {xs es : List K} {s c : K} (h : Trace xs s c es) :
    |s| ≤ (1 + unitRoundoff K) ^ (xs.length - 1) * sumAbs xs ∧
    sumAbs es ≤ ((1 + unitRoundoff K) ^ (xs.length - 1) - 1) * sumAbs xs := by
  have hu : (0 : K) < unitRoundoff K := u_pos
  induction h with
  | nil => simp [sumAbs]
  | @snoc xs es s c x ht hx h1 h2 ih =>
    obtain ⟨i1, i2⟩ := ih
    have hs := ht.fin.1.1
    rw [sumAbs_snoc, sumAbs_snoc, List.length_append, List.length_singleton, Nat.add_sub_cancel]
    have hS := sumAbs_nonneg xs
    have hX := abs_nonneg x
    cases hl : xs.length with
    | zero =>
      have hnil : xs = [] := List.eq_nil_of_length_eq_zero hl
      obtain ⟨rfl, _, rfl⟩ := ht.of_nil hnil
      rw [zero_add, rn_double hx.1, hnil]
      simp [sumAbs]
    | succ m =>
      rw [hl, Nat.add_sub_cancel] at i1 i2
      have hp : (1 : K) ≤ (1 + unitRoundoff K) ^ m := one_le_pow₀ (by linarith)
      have hsx : |s + x| ≤ (1 + unitRoundoff K) ^ m * (sumAbs xs + |x|) := by
        have := abs_add_le s x
        nlinarith
      have e1 := rn_add_rel hs hx.1
      have e2 := rn_add_abs hs hx.1
      constructor
      · calc |rn (s + x)| ≤ (1 + unitRoundoff K) * |s + x| := e2
          _ ≤ (1 + unitRoundoff K) * ((1 + unitRoundoff K) ^ m * (sumAbs xs + |x|)) :=
            mul_le_mul_of_nonneg_left hsx (by linarith)
          _ = _ := by ring
      · have e3 : |s + x - rn (s + x)| ≤ unitRoundoff K * ((1 + unitRoundoff K) ^ m * (sumAbs xs + |x|)) :=
          e1.trans (mul_le_mul_of_nonneg_left hsx hu.le)
        have e4 : ((1 + unitRoundoff K) ^ m - 1) * sumAbs xs ≤
            ((1 + unitRoundoff K) ^ m - 1) * (sumAbs xs + |x|) :=
          mul_le_mul_of_nonneg_left (by linarith) (by linarith)
        calc sumAbs es + |s + x - rn (s + x)|
            ≤ ((1 + unitRoundoff K) ^ m - 1) * (sumAbs xs + |x|) +
              unitRoundoff K * ((1 + unitRoundoff K) ^ m * (sumAbs xs + |x|)) := by linarith
          _ = _ := by ring

/-- The correction is close to the sum of the errors.  The first two additions to it are exact. -/
theorem Trace.correction_bound {xs es : List K} {s c : K} (h : Trace xs s c es) :
    |es.sum - c| ≤ ((1 + unitRoundoff K) ^ (xs.length - 2) - 1) * sumAbs es ∧
    (xs.length ≤ 1 → es.sum = 0 ∧ c = 0) := by
  have hu : (0 : K) < unitRoundoff K := u_pos
  induction h with
  | nil => simp [sumAbs]
  | @snoc xs es s c x ht hx h1 h2 ih =>
    obtain ⟨i1, i2⟩ := ih
    have hs := ht.fin.1.1
    have hc := ht.fin.2.1
    have hl2 : (xs ++ [x]).length - 2 = xs.length - 1 := by simp
    rw [sumAbs_snoc, sum_snoc, hl2]
    have hE := sumAbs_nonneg es
    have hee := abs_nonneg (s + x - rn (s + x))
    have hde := sum_err_double hs hx.1
    have first : xs.length = 0 → es.sum = 0 ∧ c = 0 ∧ s + x - rn (s + x) = 0 := by
      intro hl
      have hnil : xs = [] := List.eq_nil_of_length_eq_zero hl
      obtain ⟨rfl, rfl, rfl⟩ := ht.of_nil hnil
      rw [zero_add, rn_double hx.1]; simp
    refine ⟨?_, fun hl => ?_⟩
    · rcases Nat.lt_or_ge xs.length 2 with hl | hl
      · obtain ⟨z1, z2⟩ := i2 (by omega)
        simp only [z1, z2, zero_add]
        rw [rn_double hde, sub_self, abs_zero]
        have : (1 : K) ≤ (1 + unitRoundoff K) ^ (xs.length - 1) := one_le_pow₀ (by linarith)
        exact mul_nonneg (by linarith) (by linarith)
      · obtain ⟨m, hm⟩ : ∃ m, xs.length = m + 2 := ⟨xs.length - 2, by omega⟩
        have e1' : xs.length - 2 = m := by omega
        have e2' : xs.length - 1 = m + 1 := by omega
        rw [e1'] at i1
        rw [e2']
        set e := s + x - rn (s + x) with he
        have hp : (1 : K) ≤ (1 + unitRoundoff K) ^ m := one_le_pow₀ (by linarith)
        have r1 := rn_add_rel hc hde
        have hcabs : |c| ≤ (1 + unitRoundoff K) ^ m * sumAbs es := by
          have t1 := abs_sum_le es
          have t2 : |c| ≤ |es.sum| + |es.sum - c| := by
            have := abs_sub_abs_le_abs_sub c es.sum
            rw [abs_sub_comm] at this; linarith
          linarith
        have hce : |c + e| ≤ (1 + unitRoundoff K) ^ m * (sumAbs es + |e|) := by
          have := abs_add_le c e
          nlinarith
        have split : es.sum + e - rn (c + e) = (es.sum - c) + (c + e - rn (c + e)) := by ring
        rw [split]
        have r2 := mul_le_mul_of_nonneg_left hce hu.le
        calc |(es.sum - c) + (c + e - rn (c + e))| ≤ |es.sum - c| + |c + e - rn (c + e)| := abs_add_le _ _
          _ ≤ ((1 + unitRoundoff K) ^ m - 1) * (sumAbs es + |e|) +
              unitRoundoff K * ((1 + unitRoundoff K) ^ m * (sumAbs es + |e|)) := by
            have : ((1 + unitRoundoff K) ^ m - 1) * sumAbs es ≤
                ((1 + unitRoundoff K) ^ m - 1) * (sumAbs es + |e|) :=
              mul_le_mul_of_nonneg_left (by linarith) (by linarith)
            linarith
          _ = _ := by ring
    · have hl0 : xs.length = 0 := by simp at hl; simp [hl]
      obtain ⟨z1, z2, z3⟩ := first hl0
      rw [z1, z2, z3]; simp [rn_zero]

/-- C38.  In binary64 arithmetic, for every list of finite doubles: whenever `Sum()` is finite, its
error is at most u|Σx| + ((1+u)^(n-1) - 1)² Σ|x|. -/
theorem C38_error_bound (hA : A.IsBinary64) (xs : List K) (hx : ∀ x ∈ xs, FinDouble x) (r : K)
    (h : ((xs.map .fin).foldl Neumaier.addCore (Neumaier.new : Neumaier (Num A))).getSum = .fin r) :
    |r - xs.sum| ≤ unitRoundoff K * |xs.sum| +
      ((1 + unitRoundoff K) ^ (xs.length - 1) - 1) ^ 2 * sumAbs xs := by
  have hu : (0 : K) < unitRoundoff K := u_pos
  generalize hst : (xs.map .fin).foldl Neumaier.addCore (Neumaier.new : Neumaier (Num A)) = st at h
  obtain ⟨s0, c0, n⟩ := st
  unfold Neumaier.getSum at h
  obtain ⟨s, c, h1, h2⟩ := Num.add_eq_fin h
  simp only at h1 h2
  subst h1 h2
  rw [Num.fin_add] at h
  obtain ⟨rfl, hr⟩ := rnd_eq_some hA (Num.round_eq_fin h)
  obtain ⟨es, ht⟩ := trace_of_finite hA xs hx hst
  have hsum := ht.sum
  obtain ⟨_, b2⟩ := ht.bounds
  obtain ⟨b3, b4⟩ := ht.correction_bound
  have hrel := rn_add_rel ht.fin.1.1 ht.fin.2.1
  have hX := sumAbs_nonneg xs
  have hE := sumAbs_nonneg es
  set u := unitRoundoff K
  -- the distance of s + c from the exact sum
  have d1 : s + c - xs.sum = -(es.sum - c) := by rw [hsum]; ring
  have d2 : |s + c| ≤ |xs.sum| + |es.sum - c| := by
    have := abs_sub_abs_le_abs_sub (s + c) xs.sum
    rw [d1, abs_neg] at this; linarith
  have d3 : |rn (s + c) - xs.sum| ≤ |s + c - rn (s + c)| + |es.sum - c| := by
    have e : rn (s + c) - xs.sum = -(s + c - rn (s + c)) + (s + c - xs.sum) := by ring
    rw [e]
    refine (abs_add_le _ _).trans ?_
    rw [d1, abs_neg, abs_neg]
  have d4 : |rn (s + c) - xs.sum| ≤ u * |xs.sum| + (1 + u) * |es.sum - c| := by nlinarith
  have key : (1 + u) * |es.sum - c| ≤ ((1 + u) ^ (xs.length - 1) - 1) ^ 2 * sumAbs xs := by
    rcases Nat.lt_or_ge xs.length 2 with hl | hl
    · obtain ⟨z1, z2⟩ := b4 (by omega)
      rw [z1, z2, sub_self, abs_zero, mul_zero]; positivity
    · obtain ⟨m, hm⟩ : ∃ m, xs.length = m + 2 := ⟨xs.length - 2, by omega⟩
      have e1 : xs.length - 2 = m := by omega
      have e2 : xs.length - 1 = m + 1 := by omega
      rw [e1] at b3
      rw [e2] at b2 ⊢
      have hp : (1 : K) ≤ (1 + u) ^ m := one_le_pow₀ (by linarith)
      have hp' : (1 : K) ≤ (1 + u) ^ (m + 1) := one_le_pow₀ (by linarith)
      calc (1 + u) * |es.sum - c| ≤ (1 + u) * (((1 + u) ^ m - 1) * sumAbs es) :=
            mul_le_mul_of_nonneg_left b3 (by linarith)
        _ = ((1 + u) ^ (m + 1) - (1 + u)) * sumAbs es := by ring
        _ ≤ ((1 + u) ^ (m + 1) - 1) * sumAbs es := mul_le_mul_of_nonneg_right (by linarith) hE
        _ ≤ ((1 + u) ^ (m + 1) - 1) * (((1 + u) ^ (m + 1) - 1) * sumAbs xs) :=
            mul_le_mul_of_nonneg_left b2 (by linarith)
        _ = _ := by ring
  linarith

/-- (1+u)^k - 1 is at most the usual γ_k = k u / (1 - k u). -/
theorem pow_le_gamma (k : Nat) (hk : (k : K) * unitRoundoff K < 1) :
    (1 + unitRoundoff K) ^ k - 1 ≤ k * unitRoundoff K / (1 - k * unitRoundoff K) := by
  have hu : (0 : K) < unitRoundoff K := u_pos
  set u := unitRoundoff K
  have key : (1 + u) ^ k * (1 - k * u) ≤ 1 := by
    clear hk
    induction k with
    | zero => simp
    | succ k ih =>
      have hp : (0 : K) < (1 + u) ^ k := pow_pos (by linarith) _
      have hk0 : (0 : K) ≤ k := Nat.cast_nonneg k
      have : (1 + u) ^ (k + 1) * (1 - ((k + 1 : Nat) : K) * u) =
          (1 + u) ^ k * (1 - k * u) - (1 + u) ^ k * ((k + 1) * u ^ 2) := by push_cast; ring
      rw [this]
      have : (0 : K) ≤ (1 + u) ^ k * ((k + 1) * u ^ 2) := by positivity
      linarith
  rw [le_div_iff₀ (by linarith)]
  nlinarith

/-- C38 in the form of the property: the error is at most u|Σx| + γ²_{n-1} Σ|x|. -/
theorem C38_error_bound_gamma (hA : A.IsBinary64) (xs : List K) (hx : ∀ x ∈ xs, FinDouble x) (r : K)
    (hk : ((xs.length - 1 : Nat) : K) * unitRoundoff K < 1)
    (h : ((xs.map .fin).foldl Neumaier.addCore (Neumaier.new : Neumaier (Num A))).getSum = .fin r) :
    |r - xs.sum| ≤ unitRoundoff K * |xs.sum| +
      (((xs.length - 1 : Nat) : K) * unitRoundoff K / (1 - ((xs.length - 1 : Nat) : K) * unitRoundoff K)) ^ 2 *
        sumAbs xs := by
  refine (C38_error_bound hA xs hx r h).trans ?_
  have h1 := pow_le_gamma (K := K) (xs.length - 1) hk
  have h0 : (0 : K) ≤ (1 + unitRoundoff K) ^ (xs.length - 1) - 1 := by
    have : (1 : K) ≤ (1 + unitRoundoff K) ^ (xs.length - 1) := one_le_pow₀ (by linarith [u_pos (K := K)])
    linarith
  have h2 := pow_le_pow_left₀ h0 h1 2
  have := mul_le_mul_of_nonneg_right h2 (sumAbs_nonneg xs)
  linarith

end
end Bwsl
