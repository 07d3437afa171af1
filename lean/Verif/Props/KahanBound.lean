import Verif.Props.AccumSum

/-! Property C86: error bound of the Kahan accumulator. -/

namespace Bwsl
open Spec

set_option linter.unusedSectionVars false

section
variable {K : Type} [Field K] [LinearOrder K] [IsStrictOrderedRing K] [FloorRing K] {A : Arith K}

/-- A history of Kahan's algorithm without overflow: running sum and compensation. -/
inductive KTrace : List K → K → K → Prop
  | nil : KTrace [] 0 0
  | snoc {xs : List K} {s c x : K} : KTrace xs s c → FinDouble x → FinDouble (rn (s + rn (x - c))) →
      FinDouble (rn (rn (rn (s + rn (x - c)) - s) - rn (x - c))) →
      KTrace (xs ++ [x]) (rn (s + rn (x - c))) (rn (rn (rn (s + rn (x - c)) - s) - rn (x - c)))

theorem KTrace.fin {xs : List K} {s c : K} (h : KTrace xs s c) : FinDouble s ∧ FinDouble c := by
  have z : FinDouble (0 : K) := ⟨double_zero, by rw [abs_zero]; exact two_zpow_pos _⟩
  cases h with
  | nil => exact ⟨z, z⟩
  | snoc _ _ h1 h2 => exact ⟨h1, h2⟩

theorem sub_eq_fin {x y : Num A} {z : K} (h : x - y = .fin z) : ∃ a b, x = .fin a ∧ y = .fin b := by
  obtain ⟨a, b, h1, h2⟩ := Num.add_eq_fin (A := A) (x := x) (y := -y) h
  refine ⟨a, -b, h1, ?_⟩
  cases y with
  | nan => cases h2
  | inf n => cases h2
  | fin y => rw [Num.fin_neg] at h2; cases h2; simp

/-- A state with a finite sum comes from a state that is finite altogether. -/
theorem kahan_finite (hA : A.IsBinary64) (xs : List K) (hx : ∀ x ∈ xs, FinDouble x) :
    (∀ {s c : K} {n : Nat}, (xs.map .fin).foldl Kahan.addCore (Kahan.new : Kahan (Num A)) = ⟨.fin s, .fin c, n⟩ →
      KTrace xs s c) := by
  induction xs using List.reverseRecOn with
  | nil =>
    intro s c n h
    simp only [List.map_nil, List.foldl_nil, Kahan.new, Num.zero_eq, Kahan.mk.injEq, Num.fin.injEq] at h
    obtain ⟨rfl, rfl, _⟩ := h
    exact .nil
  | append_singleton xs x ih =>
    intro s c n h
    rw [List.map_append, List.foldl_append] at h
    have hx' := hx x (by simp)
    generalize hst : (xs.map .fin).foldl Kahan.addCore (Kahan.new : Kahan (Num A)) = st at h ih
    obtain ⟨s0, c0, n0⟩ := st
    simp only [List.map_cons, List.map_nil, List.foldl_cons, List.foldl_nil] at h
    unfold Kahan.addCore at h
    simp only [Kahan.mk.injEq] at h
    obtain ⟨h1, h2, _⟩ := h
    obtain ⟨s1, y, rfl, hy⟩ := Num.add_eq_fin h1
    obtain ⟨x1, c1, hx1, rfl⟩ := sub_eq_fin hy
    cases hx1
    have ht := ih (fun y hy => hx y (by simp [hy])) rfl
    rw [Num.fin_sub] at hy
    obtain ⟨rfl, _⟩ := rnd_eq_some hA (Num.round_eq_fin hy)
    rw [Num.fin_sub, hy, Num.fin_add] at h1
    obtain ⟨rfl, ht1⟩ := rnd_eq_some hA (Num.round_eq_fin h1)
    rw [Num.fin_sub, hy, Num.fin_add, h1] at h2
    obtain ⟨a, _, ha, _⟩ := sub_eq_fin h2
    rw [ha] at h2
    rw [Num.fin_sub] at ha
    obtain ⟨rfl, _⟩ := rnd_eq_some hA (Num.round_eq_fin ha)
    rw [Num.fin_sub] at h2
    obtain ⟨rfl, hc1⟩ := rnd_eq_some hA (Num.round_eq_fin h2)
    exact .snoc ht hx' ⟨rn_isDouble _, ht1⟩ ⟨rn_isDouble _, hc1⟩

theorem rn_sub_rel {a b : K} (ha : Double a) (hb : Double b) :
    |rn (a - b) - (a - b)| ≤ unitRoundoff K * |a - b| := by
  have := rn_add_rel ha hb.neg
  rw [← sub_eq_add_neg, abs_sub_comm] at this
  exact this

/-- The sizes of the intermediate results: bounds of |x - c|, |y|, |s + y|, |t - s| and |(t - s) - y| in terms of the
sum `S` of absolute values so far and `p` = |x|. -/
theorem kahan_sizes {u S p D Y W T B : K} (hu : 0 ≤ u) (hu' : u ≤ 1 / 1000) (hS : 0 ≤ S) (hp : 0 ≤ p)
    (hD : D ≤ p + 3 * (u * S)) (hY : Y ≤ D + u * D) (hW : W ≤ S + p + 3 * (u * S) + u * D) (hT : T ≤ Y + u * W)
    (hB : B ≤ u * W + u * T) :
    B + u * B ≤ 3 * (u * (S + p)) ∧
    u * D + u * T + u * B ≤ 2 * (u * p) + 12 * (u * (u * (S + p))) := by
  have m : ∀ {x y : K}, x ≤ y → u * x ≤ u * y := fun h => mul_le_mul_of_nonneg_left h hu
  have sm : ∀ {x : K}, 0 ≤ x → 0 ≤ u * x ∧ u * x ≤ x / 1000 := by
    intro x hx
    refine ⟨mul_nonneg hu hx, ?_⟩
    have := mul_le_mul_of_nonneg_right hu' hx
    linarith
  obtain ⟨s0, s1⟩ := sm hS
  obtain ⟨s2, s3⟩ := sm s0
  obtain ⟨s4, s5⟩ := sm s2
  obtain ⟨s6, s7⟩ := sm s4
  obtain ⟨p0, p1⟩ := sm hp
  obtain ⟨p2, p3⟩ := sm p0
  obtain ⟨p4, p5⟩ := sm p2
  obtain ⟨p6, p7⟩ := sm p4
  have d1 := m hD
  rw [mul_add, show u * (3 * (u * S)) = 3 * (u * (u * S)) by ring] at d1
  have d2 := m d1
  rw [mul_add, show u * (3 * (u * (u * S))) = 3 * (u * (u * (u * S))) by ring] at d2
  have y0 : Y ≤ p + 3 * (u * S) + (u * p + 3 * (u * (u * S))) := by linarith
  have y1 : u * Y ≤ u * p + 3 * (u * (u * S)) + (u * (u * p) + 3 * (u * (u * (u * S)))) := by
    refine (m y0).trans (le_of_eq ?_); ring
  have w0 : W ≤ S + p + 4 * (u * S) + u * p := by linarith
  have w1 : u * W ≤ u * S + u * p + 4 * (u * (u * S)) + u * (u * p) := by
    refine (m w0).trans (le_of_eq ?_); ring
  have w2 : u * (u * W) ≤ u * (u * S) + u * (u * p) + 4 * (u * (u * (u * S))) + u * (u * (u * p)) := by
    refine (m w1).trans (le_of_eq ?_); ring
  have t1 : u * T ≤ u * Y + u * (u * W) := by
    refine (m hT).trans (le_of_eq ?_); ring
  have t2 : u * T ≤ u * p + 2 * (u * (u * p)) + u * (u * (u * p)) + 4 * (u * (u * S)) + 7 * (u * (u * (u * S))) := by
    linarith
  have b0 : B ≤ u * S + 2 * (u * p) + 3 * (u * (u * p)) + u * (u * (u * p)) + 8 * (u * (u * S)) +
      7 * (u * (u * (u * S))) := by linarith
  have b1 : u * B ≤ u * (u * S) + 2 * (u * (u * p)) + 3 * (u * (u * (u * p))) + u * (u * (u * (u * p))) +
      8 * (u * (u * (u * S))) + 7 * (u * (u * (u * (u * S)))) := by
    refine (m b0).trans (le_of_eq ?_); ring
  have e1 : 3 * (u * (S + p)) = 3 * (u * S) + 3 * (u * p) := by ring
  have e2 : 12 * (u * (u * (S + p))) = 12 * (u * (u * S)) + 12 * (u * (u * p)) := by ring
  rw [e1, e2]
  constructor <;> linarith

/-- The algebra of one step: `d` is x - c, `X` is the exact sum so far and `S` the sum of absolute values. -/
theorem kahan_algebra {u κ s c x d y w t a b c' X S : K} (hu : 0 < u) (hu' : u ≤ 1 / 1000) (hκ0 : 0 ≤ κ) (hκ : κ ≤ u)
    (hS : |X| ≤ S) (hd : d = x - c) (hw : w = s + y)
    (e1 : |y - d| ≤ u * |d|) (e2 : |t - w| ≤ u * |w|) (e3 : |a - (t - s)| ≤ u * |t - s|) (hb : b = a - y)
    (e4 : |c' - b| ≤ u * |b|) (hc : |c| ≤ 3 * u * S) (hT : |s - c - X| ≤ (2 * u + κ) * S) :
    |c'| ≤ 3 * u * (S + |x|) ∧ |t - c' - (X + x)| ≤ (2 * u + (κ + 12 * u ^ 2)) * (S + |x|) ∧
    |t - (X + x)| ≤ u * |X + x| + (2 * u + (κ + 12 * u ^ 2)) * (S + |x|) := by
  have hS0 : 0 ≤ S := (abs_nonneg _).trans hS
  have hp : 0 ≤ |x| := abs_nonneg x
  have hu0 : 0 ≤ u := hu.le
  have m : ∀ {x y : K}, x ≤ y → u * x ≤ u * y := fun h => mul_le_mul_of_nonneg_left h hu0
  have hκS : κ * S ≤ u * S := mul_le_mul_of_nonneg_right hκ hS0
  have hκp : 0 ≤ κ * |x| := mul_nonneg hκ0 hp
  have hT' : |s - c - X| ≤ 2 * (u * S) + κ * S := hT.trans (le_of_eq (by ring))
  have hdb : |d| ≤ |x| + 3 * (u * S) := by
    rw [hd]; exact (abs_sub _ _).trans (by linarith)
  have hyb : |y| ≤ |d| + u * |d| := by
    have := abs_add_le d (y - d); rw [add_sub_cancel] at this; linarith
  have hwX : |w - (X + x)| ≤ 2 * (u * S) + κ * S + u * |d| := by
    have e : w - (X + x) = (s - c - X) + (y - d) := by rw [hw, hd]; ring
    rw [e]; exact (abs_add_le _ _).trans (by linarith)
  have hwb' : |w| ≤ |X + x| + (2 * (u * S) + κ * S + u * |d|) := by
    have := abs_add_le (X + x) (w - (X + x)); rw [add_sub_cancel] at this; linarith
  have hXx : |X + x| ≤ S + |x| := (abs_add_le _ _).trans (by linarith)
  have hwb : |w| ≤ S + |x| + 3 * (u * S) + u * |d| := by linarith
  have ha0 : |t - s| ≤ |y| + u * |w| := by
    have e : t - s = y + (t - w) := by rw [hw]; ring
    rw [e]; exact (abs_add_le _ _).trans (by linarith)
  have hbb : |b| ≤ u * |w| + u * |t - s| := by
    have e : b = (t - w) + (a - (t - s)) := by rw [hb, hw]; ring
    rw [e]; exact (abs_add_le _ _).trans (by linarith)
  obtain ⟨k1, k2⟩ := kahan_sizes hu0 hu' hS0 hp hdb hyb hwb ha0 hbb
  have goal' : (2 * u + (κ + 12 * u ^ 2)) * (S + |x|) =
      2 * (u * S) + 2 * (u * |x|) + (κ * S + κ * |x|) + 12 * (u * (u * (S + |x|))) := by ring
  refine ⟨?_, ?_, ?_⟩
  · have := abs_add_le b (c' - b); rw [add_sub_cancel] at this
    linarith
  · have e : t - c' - (X + x) = (s - c - X) + ((y - d) - (a - (t - s)) - (c' - b)) := by rw [hb, hd]; ring
    rw [e, goal']
    have h1 := abs_add_le (s - c - X) ((y - d) - (a - (t - s)) - (c' - b))
    have h2 := abs_sub ((y - d) - (a - (t - s))) (c' - b)
    have h3 := abs_sub (y - d) (a - (t - s))
    linarith
  · have e : t - (X + x) = (t - w) + (w - (X + x)) := by ring
    rw [e, goal']
    have h1 := abs_add_le (t - w) (w - (X + x))
    have h2 := m hwb'
    have h3 := m hdb
    have h4 := m h3
    have z1 : u * (κ * S) ≤ u * (u * S) := m hκS
    have z2 : 0 ≤ u * (u * S) := by positivity
    have z3 : 0 ≤ u * (u * |x|) := by positivity
    have z4 : u * (u * (u * S)) ≤ u * (u * S) / 1000 := by
      have := mul_le_mul_of_nonneg_right hu' z2
      linarith
    have z5 : 12 * (u * (u * (S + |x|))) = 12 * (u * (u * S)) + 12 * (u * (u * |x|)) := by ring
    have h2' : u * |w| ≤ u * |X + x| + (2 * (u * (u * S)) + u * (κ * S) + u * (u * |d|)) :=
      h2.trans (le_of_eq (by ring))
    have h3' : u * |d| ≤ u * |x| + 3 * (u * (u * S)) := h3.trans (le_of_eq (by ring))
    have h4' : u * (u * |d|) ≤ u * (u * |x|) + 3 * (u * (u * (u * S))) := h4.trans (le_of_eq (by ring))
    have z6 : 0 ≤ u * |x| := by positivity
    rw [z5]
    linarith

theorem u_small : unitRoundoff K ≤ 1 / 1000 := by unfold unitRoundoff; norm_num

/-- One step of the algorithm in binary64. -/
theorem kahan_bound_step {κ s c x X S : K} (hs : Double s) (hc : Double c) (hx : Double x) (hκ0 : 0 ≤ κ)
    (hκ : κ ≤ unitRoundoff K) (hS : |X| ≤ S) (h1 : |c| ≤ 3 * unitRoundoff K * S)
    (h2 : |s - c - X| ≤ (2 * unitRoundoff K + κ) * S) :
    |rn (rn (rn (s + rn (x - c)) - s) - rn (x - c))| ≤ 3 * unitRoundoff K * (S + |x|) ∧
    |rn (s + rn (x - c)) - rn (rn (rn (s + rn (x - c)) - s) - rn (x - c)) - (X + x)| ≤
      (2 * unitRoundoff K + (κ + 12 * unitRoundoff K ^ 2)) * (S + |x|) ∧
    |rn (s + rn (x - c)) - (X + x)| ≤
      unitRoundoff K * |X + x| + (2 * unitRoundoff K + (κ + 12 * unitRoundoff K ^ 2)) * (S + |x|) := by
  have e2 := rn_add_rel hs (rn_isDouble (x - c))
  rw [abs_sub_comm] at e2
  exact kahan_algebra (d := x - c) (y := rn (x - c)) (w := s + rn (x - c)) u_pos u_small hκ0 hκ hS rfl rfl
    (rn_sub_rel hx hc) e2 (rn_sub_rel (rn_isDouble _) hs) rfl (rn_sub_rel (rn_isDouble _) (rn_isDouble _)) h1 h2

theorem kappa_le {k : Nat} (h : k ≤ 2 ^ 49) : 12 * (k : K) * unitRoundoff K ^ 2 ≤ unitRoundoff K := by
  have hu : (0 : K) < unitRoundoff K := u_pos
  have hk : (k : K) ≤ 2 ^ 49 := by exact_mod_cast h
  have : 12 * (k : K) * unitRoundoff K ≤ 1 := by
    have h1 : 12 * (k : K) * unitRoundoff K ≤ 12 * 2 ^ 49 * unitRoundoff K :=
      mul_le_mul_of_nonneg_right (by linarith) hu.le
    refine h1.trans ?_
    unfold unitRoundoff; norm_num
  have e : 12 * (k : K) * unitRoundoff K ^ 2 = 12 * (k : K) * unitRoundoff K * unitRoundoff K := by ring
  rw [e]
  exact (mul_le_mul_of_nonneg_right this hu.le).trans (by rw [one_mul])

/-- The invariant of a history of at most 2^49 values. -/
theorem KTrace.bounds {xs : List K} {s c : K} (h : KTrace xs s c) (hn : xs.length ≤ 2 ^ 49) :
    |c| ≤ 3 * unitRoundoff K * sumAbs xs ∧
    |s - c - xs.sum| ≤ (2 * unitRoundoff K + 12 * (xs.length : K) * unitRoundoff K ^ 2) * sumAbs xs := by
  induction h with
  | nil => simp [sumAbs]
  | @snoc xs s c x ht hx h1 h2 ih =>
    rw [List.length_append, List.length_singleton] at hn
    obtain ⟨i1, i2⟩ := ih (by omega)
    have hu : (0 : K) < unitRoundoff K := u_pos
    obtain ⟨j1, j2, -⟩ := kahan_bound_step ht.fin.1.1 ht.fin.2.1 hx.1 (by positivity) (kappa_le (by omega))
      (abs_sum_le xs) i1 i2
    rw [sumAbs_snoc, sum_snoc]
    refine ⟨j1, j2.trans (le_of_eq ?_)⟩
    rw [List.length_append, List.length_singleton]
    push_cast
    ring

/-- C86.  In binary64 arithmetic, for every list of at most 2^49 finite doubles: whenever `Sum()` of the Kahan
accumulator is finite, its error is at most u|Σx| + (2u + 12nu²) Σ|x|.  To first order the bound does not depend on the
number of values. -/
theorem C86_kahan_error (hA : A.IsBinary64) (xs : List K) (hx : ∀ x ∈ xs, FinDouble x) (hn : xs.length ≤ 2 ^ 49)
    (r : K) (h : ((xs.map .fin).foldl Kahan.addCore (Kahan.new : Kahan (Num A))).getSum = .fin r) :
    |r - xs.sum| ≤ unitRoundoff K * |xs.sum| +
      (2 * unitRoundoff K + 12 * (xs.length : K) * unitRoundoff K ^ 2) * sumAbs xs := by
  have hu : (0 : K) < unitRoundoff K := u_pos
  rcases List.eq_nil_or_concat xs with rfl | ⟨ys, x, rfl⟩
  · simp only [List.map_nil, List.foldl_nil, Kahan.getSum, Kahan.new, Num.zero_eq, Num.fin.injEq] at h
    subst h
    simp [sumAbs]
  · rw [List.concat_eq_append] at *
    rw [List.map_append, List.foldl_append] at h
    generalize hst : (ys.map .fin).foldl Kahan.addCore (Kahan.new : Kahan (Num A)) = st at h
    obtain ⟨s0, c0, n0⟩ := st
    simp only [List.map_cons, List.map_nil, List.foldl_cons, List.foldl_nil, Kahan.addCore, Kahan.getSum] at h
    obtain ⟨s, y, rfl, hy⟩ := Num.add_eq_fin h
    obtain ⟨x1, c, hx1, rfl⟩ := sub_eq_fin hy
    cases hx1
    have ht := kahan_finite hA ys (fun y hy => hx y (by simp [hy])) hst
    rw [Num.fin_sub] at hy
    obtain ⟨rfl, _⟩ := rnd_eq_some hA (Num.round_eq_fin hy)
    rw [Num.fin_sub, hy, Num.fin_add] at h
    obtain ⟨rfl, _⟩ := rnd_eq_some hA (Num.round_eq_fin h)
    rw [List.length_append, List.length_singleton] at hn
    obtain ⟨i1, i2⟩ := ht.bounds (by omega)
    obtain ⟨-, -, j3⟩ := kahan_bound_step ht.fin.1.1 ht.fin.2.1 (hx x (by simp)).1 (by positivity)
      (kappa_le (by omega)) (abs_sum_le ys) i1 i2
    rw [sumAbs_snoc, sum_snoc]
    refine j3.trans (le_of_eq ?_)
    rw [List.length_append, List.length_singleton]
    push_cast
    ring

/-- The hypotheses of C86 hold for a list of integers. -/
example (hA : A.IsBinary64) : ∃ r : K, (∀ x ∈ ([3, -5, 2 ^ 40] : List Int).map (Int.cast : Int → K), FinDouble x) ∧
    (((([3, -5, 2 ^ 40] : List Int).map (Int.cast : Int → K)).map .fin).foldl Kahan.addCore
      (Kahan.new : Kahan (Num A))).getSum = .fin r := by
  have h : ∀ n ∈ ([3, -5, 2 ^ 40] : List Int), |n| ≤ 2 ^ 53 := by decide
  refine ⟨_, ?_, (C36_integers hA [3, -5, 2 ^ 40] h ?_).1⟩
  · intro x hx
    obtain ⟨n, hn, rfl⟩ := List.mem_map.1 hx
    exact finDouble_int (h n hn)
  · intro k
    rcases k with _ | _ | _ | k
    · decide
    · decide
    · decide
    · rw [List.take_of_length_le (by simp)]; decide

end
end Bwsl
