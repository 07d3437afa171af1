import Verif.Lemmas.Bravais
import Mathlib.Analysis.InnerProductSpace.PiL2
import Mathlib.NumberTheory.Real.Irrational

/-! Properties C66–C71: infinite lattices. -/

namespace Bwsl
open Spec Finset

set_option linter.unusedSectionVars false

section
variable {K : Type} [Field K] [LinearOrder K] [IsStrictOrderedRing K] {A : Arith K}
variable {b : Bravais (Num A)} {d g : Nat} {P Q : List K} {N : List Int}

/-! ### C66: positions and vectors -/

/-- C66.  The constructor accepts exactly the matching sizes (when these do not wrap around). -/
theorem C66_constructor {F : Type} [CxxFloat F] (d g : Nat) (P Q : List F) (N : List Int) (hd : d * d < 2 ^ 64)
    (hg : g / 2 * d < 2 ^ 64) :
    Bravais.new d g P Q N = if P.length = d * d ∧ Q.length = d * d ∧ N.length = g / 2 * d
      then .ok ⟨d, g, P, Q, N⟩ else .ub .assertion := by
  unfold Bravais.new squareU umul
  have e1 : d * d % W64 = d * d := Nat.mod_eq_of_lt hd
  have e2 : g / 2 * d % W64 = g / 2 * d := Nat.mod_eq_of_lt hg
  simp only [e1, e2]

/-- C66.  `GetRealSpace` is the sum of the primitive vectors, `coords[j]` times the j-th. -/
theorem C66_real_space (hA : A.IsExact) (hb : Holds b d g P Q N) (c : List Int) (hc : c.length = d) :
    b.getRealSpace c = .ok ((embed d P c).map .fin) := getRealSpace_ok hA hb hc

/-- C66.  `GetRealSpace` is additive. -/
theorem C66_additive (hA : A.IsExact) (hb : Holds b d g P Q N) (x y : List Int) (hx : x.length = d) (hy : y.length = d)
    (u v : List (Num A)) (hu : b.getRealSpace x = .ok u) (hv : b.getRealSpace y = .ok v) :
    b.getRealSpace (plus x y) = .ok (List.zipWith (· + ·) u v) := by
  rw [getRealSpace_ok hA hb hx] at hu
  rw [getRealSpace_ok hA hb hy] at hv
  cases hu; cases hv
  rw [getRealSpace_ok hA hb (length_plus hy hx), embed_plus P (hx.trans hy.symm)]
  congr 1
  rw [List.map_zipWith, List.zipWith_map]
  congr 1
  funext p q
  rw [Num.fin_add, Num.round_exact hA]

/-- C66.  `GetVector(x, y)` is the position of `y - x`, defined when the differences are `long`s. -/
theorem C66_vector (hA : A.IsExact) (hb : Holds b d g P Q N) (x y : List Int) (h : Near d x y) :
    b.getVector x y = .ok ((embed d P (minus y x)).map .fin) ∧ b.getVector x y = b.getRealSpace (minus y x) := by
  refine ⟨getVector_ok hA hb h, ?_⟩
  have hd : b.dim = d := by rw [hb.eq]
  exact getVector_eq (hd ▸ h)

/-- C66.  `GetVector` depends only on the difference of the points, in any arithmetic. -/
theorem C66_translation {F : Type} [CxxFloat F] (b : Bravais F) (x y x' y' : List Int) (h : Near b.dim x y)
    (h' : Near b.dim x' y') (he : minus y x = minus y' x') : b.getVector x y = b.getVector x' y' := by
  rw [getVector_eq h, getVector_eq h', he]

/-- C66.  `GetVector` is antisymmetric. -/
theorem C66_antisymmetric (hA : A.IsExact) (hb : Holds b d g P Q N) (x y : List Int) (h : Near d x y) (h' : Near d y x)
    (u : List (Num A)) (hu : b.getVector x y = .ok u) : b.getVector y x = .ok (u.map (- ·)) := by
  rw [getVector_ok hA hb h] at hu
  cases hu
  rw [getVector_ok hA hb h', embed_minus_swap P (h.1.trans h.2.1.symm)]
  congr 1
  simp only [List.map_map]
  rfl

/-- C66.  Vectors compose. -/
theorem C66_composes (hA : A.IsExact) (hb : Holds b d g P Q N) (x y z : List Int) (hxy : Near d x y) (hyz : Near d y z)
    (hxz : Near d x z) (u v : List (Num A)) (hu : b.getVector x y = .ok u) (hv : b.getVector y z = .ok v) :
    b.getVector x z = .ok (List.zipWith (· + ·) u v) := by
  have hd : b.dim = d := by rw [hb.eq]
  rw [getVector_eq (hd ▸ hxy)] at hu
  rw [getVector_eq (hd ▸ hyz)] at hv
  rw [getVector_eq (hd ▸ hxz), ← plus_minus_minus hxy.1 hxy.2.1 hyz.2.1]
  exact C66_additive hA hb _ _ (length_minus hxy.1 hxy.2.1) (length_minus hyz.1 hyz.2.1) u v hu hv

end

/-! ### The predefined lattices -/

section
variable {A : Arith ℝ}

theorem lit_real (hA : A.IsReal) (q : ℚ) : (CxxFloat.lit q : Num A) = .fin (q : ℝ) := by
  rw [Num.lit_eq, Num.round_exact hA.exact]

theorem chain_holds (hA : A.IsReal) : ∃ b : Bravais (Num A), chainLattice = .ok b ∧ Holds b 1 2 [1] [1] [1] := by
  refine ⟨_, rfl, ⟨?_, by decide, rfl, rfl, rfl, by decide⟩⟩
  simp [lit_real hA]

theorem square_holds (hA : A.IsReal) : ∃ b : Bravais (Num A), squareLattice = .ok b ∧
    Holds b 2 4 [1, 0, 0, 1] [1, 0, 0, 1] [1, 0, 0, 1] := by
  refine ⟨_, rfl, ⟨?_, by decide, rfl, rfl, rfl, by decide⟩⟩
  simp [lit_real hA, Num.zero_eq]

theorem cubic_holds (hA : A.IsReal) : ∃ b : Bravais (Num A), cubicLattice = .ok b ∧
    Holds b 3 6 [1, 0, 0, 0, 1, 0, 0, 0, 1] [1, 0, 0, 0, 1, 0, 0, 0, 1] [1, 0, 0, 0, 1, 0, 0, 0, 1] := by
  refine ⟨_, rfl, ⟨?_, by decide, rfl, rfl, rfl, by decide⟩⟩
  simp [lit_real hA, Num.zero_eq]

theorem triangular_holds (hA : A.IsReal) : ∃ b : Bravais (Num A), triangularLattice = .ok b ∧
    Holds b 2 6 [1, 0, 1 / 2, √3 / 2] [1, -1 / √3, 0, 2 / √3] [1, 0, 0, 1, 1, -1] := by
  refine ⟨_, rfl, ⟨?_, by decide, rfl, rfl, rfl, by decide⟩⟩
  have h3 : (√3 : ℝ) ≠ 0 := by positivity
  simp only [lit_real hA, Num.zero_eq, Num.fin_neg]
  have r3 : CxxFloat.sqrt (Num.fin ((3 : ℚ) : ℝ) : Num A) = .fin √3 := by
    rw [real_sqrt hA (by norm_num)]; norm_num
  simp only [r3]
  rw [Num.fin_div (by norm_num), Num.fin_div h3, Num.fin_div h3]
  simp only [Num.round_exact hA.exact, List.map_cons, List.map_nil]
  norm_num

/-- One of the predefined lattices. -/
def Predefined (b : Bravais (Num A)) : Prop :=
  chainLattice = .ok b ∨ squareLattice = .ok b ∨ cubicLattice = .ok b ∨ triangularLattice = .ok b

/-! ### C67: distances -/

variable {b : Bravais (Num A)} {d g : Nat} {P Q : List ℝ} {N : List Int}

theorem getDistanceVector_ok (hA : A.IsReal) (hb : Holds b d g P Q N) {x y : List Int} (h : Near d x y) :
    b.getDistanceVector x y =
      .ok (.fin (Spec.length (embed d P (minus y x))), (embed d P (minus y x)).map .fin) := by
  have hd : b.dim = d := by rw [hb.eq]
  unfold Bravais.getDistanceVector
  rw [getVector_ok hA.exact hb h, Res.ok_bind, hd]
  set e := embed d P (minus y x) with he
  have hl : e.length = d := embed_length ..
  rw [accumulate_ok hA.exact (g := fun i => e.getD i 0 * e.getD i 0), Res.ok_bind, real_sqrt hA]
  · congr 3
    unfold Spec.length
    congr 1
    rw [← list_range_sum]
    congr 1
    refine List.ext_getElem (by simp [hl]) (fun i h1 h2 => ?_)
    have hi : i < e.length := by simpa using h2
    simp only [List.getElem_map, List.getElem_range, List.getD_eq_getElem?_getD, List.getElem?_eq_getElem hi,
      Option.getD_some]
  · exact Finset.sum_nonneg (fun i _ => mul_self_nonneg _)
  · intro i hi
    rw [subscript_fin (by omega), Res.ok_bind]
    unfold squareF
    rw [Num.fin_mul, Num.round_exact hA.exact]

theorem getDistance_eq {F : Type} [CxxFloat F] (b : Bravais F) (x y : List Int) :
    b.getDistance x y = (b.getDistanceVector x y).bind (fun r => .ok r.1) := by
  unfold Bravais.getDistance Bravais.getDistanceVector
  cases b.getVector x y with
  | ok p =>
    simp only [Res.ok_bind]
    cases accumulate b.dim (fun i => do let x ← subscript p i; Res.ok (squareF x)) <;> rfl
  | throws e => rfl
  | ub e => rfl
  | diverges => rfl

theorem getDistance_ok (hA : A.IsReal) (hb : Holds b d g P Q N) {x y : List Int} (h : Near d x y) :
    b.getDistance x y = .ok (.fin (Spec.length (embed d P (minus y x)))) := by
  rw [getDistance_eq, getDistanceVector_ok hA hb h]; rfl

/-- C67.  `GetDistance` is the length of `GetVector`, and `GetDistanceVector` is both. -/
theorem C67_distance (hA : A.IsReal) (hb : Holds b d g P Q N) (x y : List Int) (h : Near d x y) :
    b.getDistance x y = .ok (.fin (Spec.length (embed d P (minus y x)))) ∧
    ∃ D v, b.getDistance x y = .ok D ∧ b.getVector x y = .ok v ∧ b.getDistanceVector x y = .ok (D, v) :=
  ⟨getDistance_ok hA hb h, _, _, getDistance_ok hA hb h, getVector_ok hA.exact hb h, getDistanceVector_ok hA hb h⟩

theorem length_eq_norm (v : List ℝ) : Spec.length v = ‖(WithLp.toLp 2 (fun i : Fin v.length => v[i]) : EuclideanSpace ℝ (Fin v.length))‖ := by
  unfold Spec.length
  rw [EuclideanSpace.norm_eq]
  congr 1
  rw [← List.sum_ofFn]
  congr 1
  refine List.ext_getElem (by simp) (fun i h1 h2 => ?_)
  simp [sq]

theorem length_neg (v : List ℝ) : Spec.length (v.map (- ·)) = Spec.length v := by
  unfold Spec.length
  simp [List.map_map, Function.comp_def]

theorem length_add_le {u v : List ℝ} (h : u.length = v.length) :
    Spec.length (List.zipWith (· + ·) u v) ≤ Spec.length u + Spec.length v := by
  obtain ⟨n, hu⟩ : ∃ n, u.length = n := ⟨_, rfl⟩
  have hv : v.length = n := h ▸ hu
  have key : ∀ w : List ℝ, w.length = n →
      Spec.length w = ‖(WithLp.toLp 2 (fun i : Fin n => w.getD i 0) : EuclideanSpace ℝ (Fin n))‖ := by
    intro w hw
    subst hw
    rw [length_eq_norm]
    congr 2
    funext i
    simp
  rw [key u hu, key v hv, key _ (by simp [hu, hv])]
  refine le_trans (le_of_eq ?_) (norm_add_le _ _)
  congr 1
  rw [← WithLp.toLp_add]
  congr 1
  funext i
  have hi := i.2
  simp [List.getD_eq_getElem?_getD, hu, hv]

/-- C67.  Distances are nonnegative, symmetric and satisfy the triangle inequality. -/
theorem C67_metric (hA : A.IsReal) (hb : Holds b d g P Q N) (x y z : List Int) (hxy : Near d x y) (hyx : Near d y x)
    (hyz : Near d y z) (hxz : Near d x z) :
    ∃ p q r : ℝ, b.getDistance x y = .ok (.fin p) ∧ b.getDistance y z = .ok (.fin q) ∧
      b.getDistance x z = .ok (.fin r) ∧ b.getDistance y x = .ok (.fin p) ∧ 0 ≤ p ∧ r ≤ p + q := by
  refine ⟨_, _, _, getDistance_ok hA hb hxy, getDistance_ok hA hb hyz, getDistance_ok hA hb hxz, ?_, Real.sqrt_nonneg _, ?_⟩
  · rw [getDistance_ok hA hb hyx, embed_minus_swap P (hxy.1.trans hxy.2.1.symm), length_neg]
  · rw [← plus_minus_minus hxy.1 hxy.2.1 hyz.2.1,
      embed_plus P ((length_minus hxy.1 hxy.2.1).trans (length_minus hyz.1 hyz.2.1).symm)]
    exact length_add_le (by rw [embed_length, embed_length])

theorem length_eq_zero {v : List ℝ} (h : Spec.length v = 0) : ∀ x ∈ v, x = 0 := by
  unfold Spec.length at h
  have hn : ∀ y ∈ v.map (fun x => x * x), 0 ≤ y := by
    intro y hy
    obtain ⟨x, -, rfl⟩ := List.mem_map.1 hy
    exact mul_self_nonneg x
  have hs := (Real.sqrt_eq_zero (List.sum_nonneg hn)).1 h
  intro x hx
  have := (List.all_zero_of_le_zero_le_of_sum_eq_zero hn hs (List.mem_map_of_mem (f := fun x => x * x) hx))
  exact mul_self_eq_zero.1 this

theorem minus_self {x : List Int} : ∀ z ∈ minus x x, z = 0 := by
  intro z hz
  obtain ⟨j, hj, rfl⟩ := List.getElem_of_mem hz
  rw [← coord_eq, coord_minus rfl, sub_self]

theorem minus_zero {x y : List Int} (h : x.length = y.length) (hz : ∀ z ∈ minus y x, z = 0) : x = y := by
  refine ext_coord h (fun j hj => ?_)
  have hj' : j < (minus y x).length := by rw [length_minus h rfl]; omega
  have := hz _ (List.getElem_mem hj')
  rw [← coord_eq, coord_minus h] at this
  omega

theorem embed_zero {K : Type} [Field K] {P : List K} {c : List Int} (h : ∀ z ∈ c, z = 0) : ∀ x ∈ embed d P c, x = 0 := by
  intro x hx
  obtain ⟨i, hi, rfl⟩ := List.mem_map.1 hx
  refine Finset.sum_eq_zero (fun j _ => ?_)
  have : coord c j = 0 := by
    by_cases hj : j < c.length
    · rw [coord_eq hj]; exact h _ (List.getElem_mem hj)
    · unfold coord; rw [List.getD_eq_getElem?_getD, List.getElem?_eq_none (by omega)]; rfl
  rw [this]; simp

/-- C67.  With linearly independent primitive vectors only equal points are at distance 0. -/
theorem C67_definite (hA : A.IsReal) (hb : Holds b d g P Q N) (hP : Independent d P) (x y : List Int) (h : Near d x y) :
    b.getDistance x y = .ok (.fin 0) ↔ x = y := by
  rw [getDistance_ok hA hb h, Res.ok.injEq, Num.fin.injEq]
  constructor
  · intro h0
    exact minus_zero (h.1.trans h.2.1.symm) (hP _ (length_minus h.1 h.2.1) (length_eq_zero h0))
  · rintro rfl
    have hz := embed_zero (d := d) (P := P) (minus_self (x := x))
    unfold Spec.length
    rw [List.sum_eq_zero, Real.sqrt_zero]
    intro y hy
    obtain ⟨z, hz', rfl⟩ := List.mem_map.1 hy
    rw [hz z hz', mul_zero]

/-- Dual vectors show independence. -/
theorem independent_of_dual {K : Type} [Field K] [CharZero K] {P Q : List K} (h : Dual d P Q) : Independent d P := by
  intro c hc h0 x hx
  obtain ⟨k, hk, rfl⟩ := List.getElem_of_mem hx
  rw [← coord_eq hk]
  have hk' : k < d := hc ▸ hk
  have e : ∑ i ∈ range d, (∑ j ∈ range d, (coord c j : K) * entry d P j i) * entry d Q k i = (coord c k : K) := by
    simp only [Finset.sum_mul]
    rw [Finset.sum_comm]
    have : ∀ j ∈ range d, ∑ i ∈ range d, (coord c j : K) * entry d P j i * entry d Q k i =
        if j = k then (coord c k : K) else 0 := by
      intro j hj
      simp only [mul_assoc]
      rw [← Finset.mul_sum, h j k (Finset.mem_range.1 hj) hk']
      split
      · next h => rw [h, mul_one]
      · rw [mul_zero]
    rw [Finset.sum_congr rfl this, Finset.sum_ite_eq' (range d) k (fun _ => (coord c k : K)),
      if_pos (Finset.mem_range.2 hk')]
  rw [Finset.sum_eq_zero] at e
  · exact_mod_cast e.symm
  · intro i hi
    have : ∑ j ∈ range d, (coord c j : K) * entry d P j i = 0 :=
      h0 _ (List.mem_map.2 ⟨i, List.mem_range.2 (Finset.mem_range.1 hi), rfl⟩)
    rw [this, zero_mul]

theorem chain_dual : Dual 1 ([1] : List ℝ) [1] := by
  intro j k hj hk
  interval_cases j; interval_cases k
  simp [entry]

theorem square_dual : Dual 2 ([1, 0, 0, 1] : List ℝ) [1, 0, 0, 1] := by
  intro j k hj hk
  interval_cases j <;> interval_cases k <;> simp [entry, Finset.sum_range_succ]

theorem cubic_dual : Dual 3 ([1, 0, 0, 0, 1, 0, 0, 0, 1] : List ℝ) [1, 0, 0, 0, 1, 0, 0, 0, 1] := by
  intro j k hj hk
  interval_cases j <;> interval_cases k <;> simp [entry, Finset.sum_range_succ]

theorem triangular_dual : Dual 2 ([1, 0, 1 / 2, √3 / 2] : List ℝ) [1, -1 / √3, 0, 2 / √3] := by
  have h3 : (√3 : ℝ) ≠ 0 := by positivity
  intro j k hj hk
  interval_cases j <;> interval_cases k <;> simp [entry, Finset.sum_range_succ] <;> field_simp <;> norm_num

/-- What the predefined lattices hold; their second matrix is dual to the first. -/
theorem predefined_holds (hA : A.IsReal) (hb : Predefined b) :
    ∃ d g P Q N, Holds b d g P Q N ∧ Dual d P Q ∧ Independent d P := by
  rcases hb with h | h | h | h
  · obtain ⟨b', e, hb⟩ := chain_holds hA
    rw [e] at h; cases h; exact ⟨_, _, _, _, _, hb, chain_dual, independent_of_dual chain_dual⟩
  · obtain ⟨b', e, hb⟩ := square_holds hA
    rw [e] at h; cases h; exact ⟨_, _, _, _, _, hb, square_dual, independent_of_dual square_dual⟩
  · obtain ⟨b', e, hb⟩ := cubic_holds hA
    rw [e] at h; cases h; exact ⟨_, _, _, _, _, hb, cubic_dual, independent_of_dual cubic_dual⟩
  · obtain ⟨b', e, hb⟩ := triangular_holds hA
    rw [e] at h; cases h; exact ⟨_, _, _, _, _, hb, triangular_dual, independent_of_dual triangular_dual⟩

/-- The predefined lattices exist, so that the hypotheses above can be met. -/
example : ∃ b : Bravais (Num realArith), triangularLattice = .ok b ∧ Predefined b := by
  obtain ⟨b, h, -⟩ := triangular_holds realArith_isReal
  exact ⟨b, h, .inr (.inr (.inr h))⟩

example : Near 2 [3, -4] [5, 10] := by
  refine ⟨rfl, rfl, ?_⟩; decide

/-! ### C68: opposite neighbours -/

theorem length_step (d : Nat) (N : List Int) (k : Nat) : (step d N k).length = d := by simp [step]

theorem coord_step {d : Nat} {N : List Int} {k i : Nat} (hi : i < d) :
    coord (step d N k) i = if k % 2 = 0 then coord N (k / 2 * d + i) else -coord N (k / 2 * d + i) := by
  rw [coord_eq (by rw [length_step]; exact hi)]
  simp [step]

/-- The entries of the list of directions can be negated. -/
def Negatable (N : List Int) : Prop := ∀ v ∈ N, -2 ^ 63 < v ∧ v < 2 ^ 63

theorem dir_lt {d k h i : Nat} (hk : k < h) (hi : i < d) : k * d + i < h * d := by
  have : (k + 1) * d ≤ h * d := Nat.mul_le_mul_right d hk
  rw [Nat.add_mul] at this
  omega

/-- C68.  Neighbour `k` is the point displaced by direction `k/2`, forwards or backwards, and is defined exactly
when its coordinates are `long`s. -/
theorem C68_neighbor {F : Type} [CxxFloat F] (b : Bravais F) (hn : b.neighbors.length = b.gamma / 2 * b.dim)
    (hs : b.gamma / 2 * b.dim < 2 ^ 64) (hN : Negatable b.neighbors) (p : List Int) (hp : p.length = b.dim) (k : Nat)
    (hk : k / 2 < b.gamma / 2) (q : List Int) :
    b.getNeighbor p k = .ok q ↔ q = plus p (step b.dim b.neighbors k) ∧ ∀ x ∈ q, InLong x := by
  have hlen := length_plus (length_step b.dim b.neighbors k) hp
  have hsub : ∀ i, i < b.dim → uadd (umul (k / 2) b.dim) i = k / 2 * b.dim + i := by
    intro i hi
    have := dir_lt hk hi
    unfold uadd umul
    rw [Nat.mod_eq_of_lt (a := k / 2 * b.dim) (by omega), Nat.mod_eq_of_lt (by omega)]
  have body : ∀ i, i < b.dim → (do
      let c ← subscript p i
      let v ← subscript b.neighbors (uadd (umul (k / 2) b.dim) i)
      let d ← lmul (if k % 2 = 0 then 1 else -1) v
      ladd c d) = long (coord (plus p (step b.dim b.neighbors k)) i) := by
    intro i hi
    have hd : k / 2 * b.dim + i < b.neighbors.length := hn ▸ dir_lt hk hi
    have hv : -2 ^ 63 < coord b.neighbors (k / 2 * b.dim + i) ∧ coord b.neighbors (k / 2 * b.dim + i) < 2 ^ 63 := by
      rw [coord_eq hd]; exact hN _ (List.getElem_mem hd)
    rw [subscript_getD (by omega) 0, hsub i hi, subscript_getD hd 0, Res.ok_bind, Res.ok_bind,
      coord_plus ((length_step ..).trans hp.symm), coord_step hi]
    change (lmul _ (coord b.neighbors (k / 2 * b.dim + i)) >>= _) = _
    unfold lmul
    split
    · rw [long_ok (by comega), Res.ok_bind, one_mul]; rfl
    · rw [long_ok (by comega), Res.ok_bind, neg_one_mul]; rfl
  have hdrop : p.drop b.dim = [] := List.drop_eq_nil_of_le (by omega)
  unfold Bravais.getNeighbor
  simp only [hdrop, List.append_nil]
  constructor
  · intro h
    obtain ⟨n, h1, h2⟩ := Res.bind_eq_ok.1 h
    cases h2
    obtain ⟨hl, hi⟩ := mapRange_eq_ok h1
    have hx : ∀ i, i < b.dim → coord q i = coord (plus p (step b.dim b.neighbors k)) i ∧ InLong (coord q i) := by
      intro i hib
      obtain ⟨x, hx, hf⟩ := hi i hib
      rw [body i hib, long_eq_ok] at hf
      have : coord q i = x := by unfold coord; rw [List.getD_eq_getElem?_getD, hx]; rfl
      rw [this, hf.2]; exact ⟨rfl, hf.1⟩
    refine ⟨ext_coord (hl.trans hlen.symm) (fun j hj => (hx j (by omega)).1), fun x hm => ?_⟩
    obtain ⟨j, hj, rfl⟩ := List.getElem_of_mem hm
    rw [← coord_eq hj]
    exact (hx j (by omega)).2
  · rintro ⟨rfl, hq⟩
    rw [mapRange_ok (g := coord (plus p (step b.dim b.neighbors k))), Res.ok_bind]
    · congr 1
      refine List.ext_getElem (by simp [hlen]) (fun i h1 h2 => ?_)
      rw [List.getElem_map, List.getElem_range, coord_eq h2]
    · intro i hi
      rw [body i hi]
      refine long_ok ?_
      rw [coord_eq (by omega)]
      exact hq _ (List.getElem_mem _)

theorem step_opposite {d : Nat} {N : List Int} {k : Nat} {i : Nat} (hi : i < d) :
    coord (step d N (2 * k + 1)) i = -coord (step d N (2 * k)) i := by
  rw [coord_step hi, coord_step hi, if_neg (by omega), if_pos (by omega),
    show (2 * k + 1) / 2 = 2 * k / 2 by omega]

/-- C68.  Going to neighbour `2k` and then to neighbour `2k+1`, or the other way round, leads back. -/
theorem C68_opposite {F : Type} [CxxFloat F] (b : Bravais F) (hn : b.neighbors.length = b.gamma / 2 * b.dim)
    (hs : b.gamma / 2 * b.dim < 2 ^ 64) (hN : Negatable b.neighbors) (p : List Int) (hp : p.length = b.dim)
    (hl : ∀ x ∈ p, InLong x) (k : Nat) (hk : k < b.gamma / 2) (q : List Int) :
    (b.getNeighbor p (2 * k) = .ok q → b.getNeighbor q (2 * k + 1) = .ok p) ∧
    (b.getNeighbor p (2 * k + 1) = .ok q → b.getNeighbor q (2 * k) = .ok p) := by
  have len := fun j => length_plus (length_step b.dim b.neighbors j) hp
  have back : ∀ i j : Nat, (∀ m, m < b.dim → coord (step b.dim b.neighbors j) m = -coord (step b.dim b.neighbors i) m) →
      p = plus (plus p (step b.dim b.neighbors i)) (step b.dim b.neighbors j) := by
    intro i j h
    refine ext_coord (hp.trans (length_plus (length_step ..) (len i)).symm) (fun m hm => ?_)
    rw [coord_plus ((length_step ..).trans (len i).symm), coord_plus ((length_step ..).trans hp.symm), h m (by omega)]
    omega
  constructor
  · intro h
    obtain ⟨rfl, -⟩ := (C68_neighbor b hn hs hN p hp (2 * k) (by omega) q).1 h
    exact (C68_neighbor b hn hs hN _ (len _) (2 * k + 1) (by omega) p).2
      ⟨back _ _ (fun m hm => step_opposite hm), hl⟩
  · intro h
    obtain ⟨rfl, -⟩ := (C68_neighbor b hn hs hN p hp (2 * k + 1) (by omega) q).1 h
    exact (C68_neighbor b hn hs hN _ (len _) (2 * k) (by omega) p).2
      ⟨back _ _ (fun m hm => by rw [step_opposite hm, neg_neg]), hl⟩

/-- C68.  Coordinates beyond the dimension of the lattice are kept as they are. -/
theorem C68_further {F : Type} [CxxFloat F] (b : Bravais F) (p r : List Int) (hp : p.length = b.dim) (k : Nat) :
    b.getNeighbor (p ++ r) k = b.getNeighbor p k >>= fun q => .ok (q ++ r) := by
  have hd : (p ++ r).drop b.dim = r ∧ p.drop b.dim = [] := by rw [← hp]; simp
  unfold Bravais.getNeighbor
  simp only [hd.1, hd.2, List.append_nil]
  rw [mapRange_congr (f' := fun i => do
    let c ← subscript p i
    let v ← subscript b.neighbors (uadd (umul (k / 2) b.dim) i)
    let d ← lmul (if k % 2 = 0 then 1 else -1) v
    ladd c d)]
  · generalize mapRange b.dim _ = x
    cases x <;> rfl
  · intro i hi
    have : subscript (p ++ r) i = subscript p i := by
      unfold subscript
      rw [List.getElem?_append_left (by omega)]
    rw [this]

example : Negatable [1, 0, 0, 1, 1, -1] := by unfold Negatable; decide

/-! ### C70: reciprocal vectors -/

theorem getReciprocalSpace_ok (hA : A.IsReal) (hb : Holds b d g P Q N) {m : List Int} (hm : m.length = d)
    (h2 : ∀ x ∈ m, InLong (x * 2)) :
    b.getReciprocalSpace m = .ok ((embed d Q m).map (fun x => .fin (2 * Real.pi * x))) := by
  obtain ⟨rfl, hs, hP, hQ, -, -⟩ := hb
  unfold Bravais.getReciprocalSpace
  simp only
  rw [if_pos hm, mapRange_ok (g := fun i => .fin (2 * Real.pi * ∑ j ∈ range d, (coord m j : ℝ) * entry d Q j i)), embed,
    List.map_map]
  · rfl
  · intro i hi
    rw [Finset.mul_sum]
    refine accumulate_ok hA.exact (g := fun j => 2 * Real.pi * ((coord m j : ℝ) * entry d Q j i)) (fun j hj => ?_)
    have hc : InLong (coord m j * 2) := by rw [coord_eq (by omega)]; exact h2 _ (List.getElem_mem _)
    rw [subscript_getD (by omega) 0, offset_eq hs hi hj, subscript_fin (by rw [hQ]; exact offset_lt hi hj)]
    simp only [Res.ok_bind, lmul, show m.getD j 0 = coord m j from rfl, long_ok hc, Num.ofInt_eq, real_pi hA,
      Num.round_exact hA.exact, Num.fin_mul]
    congr 2
    unfold entry
    push_cast
    ring

theorem dot_embed {K : Type} [Field K] {P Q : List K} (h : Dual d P Q) {n m : List Int} (hn : n.length = d) (hm : m.length = d) :
    dot (embed d P n) (embed d Q m) = (intDot n m : K) := by
  have e1 : dot (embed d P n) (embed d Q m) =
      ∑ i ∈ range d, (∑ j ∈ range d, (coord n j : K) * entry d P j i) * (∑ k ∈ range d, (coord m k : K) * entry d Q k i) := by
    unfold dot embed
    rw [List.zipWith_map, List.zipWith_self, list_range_sum]
  have e2 : (intDot n m : K) = ∑ j ∈ range d, (coord n j : K) * coord m j := by
    have : intDot n m = ∑ j ∈ range d, coord n j * coord m j := by
      unfold intDot
      rw [← list_range_sum]
      congr 1
      refine List.ext_getElem (by simp [hn, hm]) (fun i h1 h2 => ?_)
      have hi : i < d := by simpa using h2
      rw [List.getElem_zipWith, List.getElem_map, List.getElem_range, coord_eq (by omega), coord_eq (by omega)]
    rw [this]; push_cast; rfl
  rw [e1, e2]
  simp only [Finset.sum_mul_sum]
  rw [Finset.sum_comm]
  refine Finset.sum_congr rfl (fun j hj => ?_)
  rw [Finset.sum_comm]
  have : ∀ k ∈ range d, ∑ i ∈ range d, (coord n j : K) * entry d P j i * ((coord m k : K) * entry d Q k i) =
      if j = k then (coord n j : K) * coord m k else 0 := by
    intro k hk
    have : ∀ i, (coord n j : K) * entry d P j i * ((coord m k : K) * entry d Q k i) =
        (coord n j : K) * coord m k * (entry d P j i * entry d Q k i) := fun i => by ring
    simp only [this]
    rw [← Finset.mul_sum, h j k (Finset.mem_range.1 hj) (Finset.mem_range.1 hk)]
    split <;> simp
  rw [Finset.sum_congr rfl this, Finset.sum_ite_eq (range d) j, if_pos hj]

theorem dot_smul {K : Type} [Field K] (r : K) (u v : List K) : dot u (v.map (r * ·)) = r * dot u v := by
  unfold dot
  induction u generalizing v with
  | nil => simp
  | cons x u ih =>
    cases v with
    | nil => simp
    | cons y v =>
      simp only [List.map_cons, List.zipWith_cons_cons, List.sum_cons, ih]
      ring

/-- C70.  On any Bravais lattice whose second matrix is dual to the first,
GetRealSpace(n) · GetReciprocalSpace(m) = 2π (n · m). -/
theorem C70_any_dual (hA : A.IsReal) (hb : Holds b d g P Q N) (hd : Dual d P Q) (n m : List Int) (hn : n.length = d)
    (hm : m.length = d) (h2 : ∀ x ∈ m, InLong (x * 2)) :
    ∃ r k : List ℝ, b.getRealSpace n = .ok (r.map .fin) ∧ b.getReciprocalSpace m = .ok (k.map .fin) ∧
      dot r k = 2 * Real.pi * (intDot n m : ℤ) := by
  refine ⟨embed d P n, (embed d Q m).map (2 * Real.pi * ·), getRealSpace_ok hA.exact hb hn, ?_, ?_⟩
  · rw [getReciprocalSpace_ok hA hb hm h2, List.map_map]; rfl
  · rw [← dot_embed hd hn hm, dot_smul]

/-- C70.  So on the chain, square, cubic and triangular lattices. -/
theorem C70_dual (hA : A.IsReal) (hb : Predefined b) (n m : List Int) (hn : n.length = b.dim) (hm : m.length = b.dim)
    (h2 : ∀ x ∈ m, InLong (x * 2)) :
    ∃ r k : List ℝ, b.getRealSpace n = .ok (r.map .fin) ∧ b.getReciprocalSpace m = .ok (k.map .fin) ∧
      dot r k = 2 * Real.pi * (intDot n m : ℤ) := by
  obtain ⟨d, g, P, Q, N, hb, hd, -⟩ := predefined_holds hA hb
  have e : b.dim = d := by rw [hb.eq]
  rw [e] at hn hm
  exact C70_any_dual hA hb hd n m hn hm h2

example : ∀ x ∈ [(3 : Int), -5], InLong (x * 2) := by decide

/-! ### C69: nearest neighbours -/

/-- The squared distance of two points of a predefined lattice is an integer. -/
theorem distance_of_norm (hA : A.IsReal) (hb : Holds b d g P Q N) {x y : List Int} (h : Near d x y) {n : Int}
    (hn : ((embed d P (minus y x)).map (fun x => x * x)).sum = (n : ℝ)) : b.getDistance x y = .ok (.fin √(n : ℝ)) := by
  rw [getDistance_ok hA hb h]
  unfold Spec.length
  rw [hn]

/-- From the integer form of the distance to the statement about neighbours. -/
theorem nearest_of (hA : A.IsReal) (hb : Holds b d g P Q N) (hg : g % 2 = 0) (hN : Negatable N) (f : List Int → Int)
    (hf : ∀ c : List Int, c.length = d → ((embed d P c).map (fun x => x * x)).sum = (f c : ℝ))
    (h1 : ∀ c : List Int, c.length = d → (f c = 1 ↔ ∃ k, k < g ∧ c = step d N k))
    (h0 : ∀ c : List Int, c.length = d → f c = 0 → ∀ x ∈ c, x = 0) (hnn : ∀ c : List Int, c.length = d → 0 ≤ f c)
    (p q : List Int) (h : Near d p q) (hq : ∀ x ∈ q, InLong x) :
    (b.getDistance p q = .ok (.fin 1) ↔ ∃ k, k < b.gamma ∧ b.getNeighbor p k = .ok q) ∧
    (p ≠ q → ∃ D : ℝ, b.getDistance p q = .ok (.fin D) ∧ 1 ≤ D) := by
  have hl := length_minus h.1 h.2.1
  have hd := distance_of_norm hA hb h (hf _ hl)
  obtain ⟨dim, gam, nei⟩ : b.dim = d ∧ b.gamma = g ∧ b.neighbors = N := by rw [hb.eq]; exact ⟨rfl, rfl, rfl⟩
  have nb : ∀ k, k < g → (b.getNeighbor p k = .ok q ↔ minus q p = step d N k) := by
    intro k hk
    rw [C68_neighbor b (by rw [nei, gam, dim]; exact hb.lenN) (by rw [gam, dim]; exact hb.smallN) (by rw [nei]; exact hN) p
      (by rw [dim]; exact h.1) k (by rw [gam]; omega) q, dim, nei]
    constructor
    · rintro ⟨rfl, -⟩
      refine ext_coord (hl.trans (length_step ..).symm) (fun j hj => ?_)
      rw [coord_minus (h.1.trans h.2.1.symm), coord_plus ((length_step ..).trans h.1.symm)]
      omega
    · intro e
      refine ⟨ext_coord (h.2.1.trans (length_plus (length_step ..) h.1).symm) (fun j hj => ?_), hq⟩
      rw [coord_plus ((length_step ..).trans h.1.symm), ← e, coord_minus (h.1.trans h.2.1.symm)]
      omega
  constructor
  · rw [hd, Res.ok.injEq, Num.fin.injEq, Real.sqrt_eq_one, gam]
    have : ((f (minus q p) : Int) : ℝ) = 1 ↔ f (minus q p) = 1 := by exact_mod_cast Iff.rfl
    rw [this, h1 _ hl]
    constructor
    · rintro ⟨k, hk, e⟩; exact ⟨k, hk, (nb k hk).2 e⟩
    · rintro ⟨k, hk, e⟩; exact ⟨k, hk, (nb k hk).1 e⟩
  · intro hne
    refine ⟨_, hd, ?_⟩
    rw [Real.one_le_sqrt]
    have h2 := hnn _ hl
    have h3 : f (minus q p) ≠ 0 := fun e => hne (minus_zero (h.1.trans h.2.1.symm) (h0 _ hl e))
    have : 1 ≤ f (minus q p) := by omega
    exact_mod_cast this

theorem list_one {c : List Int} (h : c.length = 1) : ∃ x, c = [x] := List.length_eq_one_iff.1 h
theorem list_two {c : List Int} (h : c.length = 2) : ∃ x y, c = [x, y] := List.length_eq_two.1 h
theorem list_three {c : List Int} (h : c.length = 3) : ∃ x y z, c = [x, y, z] := List.length_eq_three.1 h

theorem small_of_sq {x : Int} (h : x * x ≤ 1) : x = -1 ∨ x = 0 ∨ x = 1 := by
  have h1 : x < 2 := by nlinarith
  have h2 : -2 < x := by nlinarith
  omega

/-- The squared lengths in a lattice are the values of the integer form `f`, least (1) at the neighbours. -/
structure Form (d g : Nat) (P : List ℝ) (N : List Int) (f : List Int → Int) : Prop where
  sq : ∀ c : List Int, c.length = d → ((embed d P c).map (fun x => x * x)).sum = (f c : ℝ)
  one : ∀ c : List Int, c.length = d → (f c = 1 ↔ ∃ k, k < g ∧ c = step d N k)
  zero : ∀ c : List Int, c.length = d → f c = 0 → ∀ x ∈ c, x = 0
  nonneg : ∀ c : List Int, c.length = d → 0 ≤ f c

theorem predefined_form (hA : A.IsReal) (hb : Predefined b) :
    ∃ d g P Q N f, Holds b d g P Q N ∧ g % 2 = 0 ∧ (∀ v ∈ N, -1 ≤ v ∧ v ≤ 1) ∧ Form d g P N f := by
  rcases hb with hb | hb | hb | hb
  · obtain ⟨b', e, hb'⟩ := chain_holds hA
    rw [e] at hb; cases hb
    refine ⟨_, _, _, _, _, fun c => coord c 0 * coord c 0, hb', rfl, by decide, ?_, ?_, ?_, ?_⟩
    · intro c hc
      obtain ⟨x, rfl⟩ := list_one hc
      simp [embed, coord, entry, List.range_succ]
    · intro c hc
      obtain ⟨x, rfl⟩ := list_one hc
      show x * x = 1 ↔ _
      constructor
      · intro h
        rcases small_of_sq h.le with rfl | rfl | rfl
        · exact ⟨1, by decide, by decide⟩
        · simp at h
        · exact ⟨0, by decide, by decide⟩
      · rintro ⟨k, hk, e⟩
        interval_cases k <;> simp [step, coord, List.range_succ] at e <;> subst e <;> rfl
    · intro c hc
      obtain ⟨x, rfl⟩ := list_one hc
      show x * x = 0 → _
      intro h
      simpa using h
    · intro c hc; exact mul_self_nonneg _
  · obtain ⟨b', e, hb'⟩ := square_holds hA
    rw [e] at hb; cases hb
    refine ⟨_, _, _, _, _, fun c => coord c 0 * coord c 0 + coord c 1 * coord c 1, hb', rfl, by decide, ?_, ?_, ?_, ?_⟩
    · intro c hc
      obtain ⟨x, y, rfl⟩ := list_two hc
      simp [embed, coord, entry, List.range_succ, Finset.sum_range_succ]
    · intro c hc
      obtain ⟨x, y, rfl⟩ := list_two hc
      show x * x + y * y = 1 ↔ _
      constructor
      · intro h
        rcases small_of_sq (x := x) (by nlinarith [mul_self_nonneg y]) with rfl | rfl | rfl <;>
          rcases small_of_sq (x := y) (by nlinarith) with rfl | rfl | rfl <;> simp at h
        · exact ⟨1, by decide, by decide⟩
        · exact ⟨3, by decide, by decide⟩
        · exact ⟨2, by decide, by decide⟩
        · exact ⟨0, by decide, by decide⟩
      · rintro ⟨k, hk, e⟩
        interval_cases k <;> simp [step, coord, List.range_succ] at e <;> obtain ⟨rfl, rfl⟩ := e <;> rfl
    · intro c hc
      obtain ⟨x, y, rfl⟩ := list_two hc
      show x * x + y * y = 0 → _
      intro h
      have hx : x * x = 0 := by nlinarith [mul_self_nonneg x, mul_self_nonneg y]
      have hy : y * y = 0 := by nlinarith [mul_self_nonneg x, mul_self_nonneg y]
      simp [mul_self_eq_zero.1 hx, mul_self_eq_zero.1 hy]
    · intro c hc; exact add_nonneg (mul_self_nonneg _) (mul_self_nonneg _)
  · obtain ⟨b', e, hb'⟩ := cubic_holds hA
    rw [e] at hb; cases hb
    refine ⟨_, _, _, _, _, fun c => coord c 0 * coord c 0 + coord c 1 * coord c 1 + coord c 2 * coord c 2, hb', rfl, by decide, ?_, ?_, ?_, ?_⟩
    · intro c hc
      obtain ⟨x, y, z, rfl⟩ := list_three hc
      simp [embed, coord, entry, List.range_succ, Finset.sum_range_succ]
      ring
    · intro c hc
      obtain ⟨x, y, z, rfl⟩ := list_three hc
      show x * x + y * y + z * z = 1 ↔ _
      constructor
      · intro h
        rcases small_of_sq (x := x) (by nlinarith [mul_self_nonneg y, mul_self_nonneg z]) with rfl | rfl | rfl <;>
          rcases small_of_sq (x := y) (by nlinarith [mul_self_nonneg z]) with rfl | rfl | rfl <;>
          rcases small_of_sq (x := z) (by nlinarith) with rfl | rfl | rfl <;> simp at h
        · exact ⟨1, by decide, by decide⟩
        · exact ⟨3, by decide, by decide⟩
        · exact ⟨5, by decide, by decide⟩
        · exact ⟨4, by decide, by decide⟩
        · exact ⟨2, by decide, by decide⟩
        · exact ⟨0, by decide, by decide⟩
      · rintro ⟨k, hk, e⟩
        interval_cases k <;> simp [step, coord, List.range_succ] at e <;> obtain ⟨rfl, rfl, rfl⟩ := e <;> rfl
    · intro c hc
      obtain ⟨x, y, z, rfl⟩ := list_three hc
      show x * x + y * y + z * z = 0 → _
      intro h
      have hx : x * x = 0 := by nlinarith [mul_self_nonneg x, mul_self_nonneg y, mul_self_nonneg z]
      have hy : y * y = 0 := by nlinarith [mul_self_nonneg x, mul_self_nonneg y, mul_self_nonneg z]
      have hz : z * z = 0 := by nlinarith [mul_self_nonneg x, mul_self_nonneg y, mul_self_nonneg z]
      simp [mul_self_eq_zero.1 hx, mul_self_eq_zero.1 hy, mul_self_eq_zero.1 hz]
    · intro c hc; exact add_nonneg (add_nonneg (mul_self_nonneg _) (mul_self_nonneg _)) (mul_self_nonneg _)
  · obtain ⟨b', e, hb'⟩ := triangular_holds hA
    rw [e] at hb; cases hb
    refine ⟨_, _, _, _, _, fun c => coord c 0 * coord c 0 + coord c 0 * coord c 1 + coord c 1 * coord c 1, hb', rfl, by decide, ?_, ?_, ?_, ?_⟩
    · intro c hc
      obtain ⟨x, y, rfl⟩ := list_two hc
      have h3 : √(3 : ℝ) * √3 = 3 := Real.mul_self_sqrt (by norm_num)
      simp [embed, coord, entry, List.range_succ, Finset.sum_range_succ]
      linear_combination (y : ℝ) ^ 2 / 4 * h3
    · intro c hc
      obtain ⟨x, y, rfl⟩ := list_two hc
      show x * x + x * y + y * y = 1 ↔ _
      constructor
      · intro h
        have hx : x * x ≤ 1 := by
          have : 3 * (x * x) ≤ 4 := by nlinarith [mul_self_nonneg (x + 2 * y)]
          omega
        have hy : y * y ≤ 1 := by
          have : 3 * (y * y) ≤ 4 := by nlinarith [mul_self_nonneg (y + 2 * x)]
          omega
        rcases small_of_sq hx with rfl | rfl | rfl <;>
          rcases small_of_sq hy with rfl | rfl | rfl <;> simp at h
        · exact ⟨1, by decide, by decide⟩
        · exact ⟨5, by decide, by decide⟩
        · exact ⟨3, by decide, by decide⟩
        · exact ⟨2, by decide, by decide⟩
        · exact ⟨4, by decide, by decide⟩
        · exact ⟨0, by decide, by decide⟩
      · rintro ⟨k, hk, e⟩
        interval_cases k <;> simp [step, coord, List.range_succ] at e <;> obtain ⟨rfl, rfl⟩ := e <;> rfl
    · intro c hc
      obtain ⟨x, y, rfl⟩ := list_two hc
      show x * x + x * y + y * y = 0 → _
      intro h
      have hx : x * x = 0 := by nlinarith [mul_self_nonneg (x + 2 * y), mul_self_nonneg x]
      have hy : y * y = 0 := by nlinarith [mul_self_nonneg (y + 2 * x), mul_self_nonneg y]
      simp [mul_self_eq_zero.1 hx, mul_self_eq_zero.1 hy]
    · intro c hc
      show 0 ≤ coord c 0 * coord c 0 + coord c 0 * coord c 1 + coord c 1 * coord c 1
      nlinarith [mul_self_nonneg (coord c 0 + coord c 1), mul_self_nonneg (coord c 0), mul_self_nonneg (coord c 1)]

/-- C69.  On the predefined lattices the neighbours of a point are exactly the points at distance 1, and no other
point is closer. -/
theorem C69_nearest (hA : A.IsReal) (hb : Predefined b) (p q : List Int) (h : Near b.dim p q) (hq : ∀ x ∈ q, InLong x) :
    (b.getDistance p q = .ok (.fin 1) ↔ ∃ k, k < b.gamma ∧ b.getNeighbor p k = .ok q) ∧
    (p ≠ q → ∃ D : ℝ, b.getDistance p q = .ok (.fin D) ∧ 1 ≤ D) := by
  obtain ⟨d, g, P, Q, N, f, hb, hg, hN, hf⟩ := predefined_form hA hb
  rw [show b.dim = d by rw [hb.eq]] at h
  exact nearest_of hA hb hg (fun v hv => by have := hN v hv; comega) f hf.sq hf.one hf.zero hf.nonneg p q h hq

/-! ### C71: the inverse -/

/-- What `GetInverseVector` computes: the i-th component times the sum of the i-th row. -/
theorem getInverseVector_ok (hA : A.IsReal) (hb : Holds b d g P Q N) {v : List ℝ} (hv : v.length = d) :
    b.getInverseVector (v.map .fin) =
      .ok ((List.range d).map (fun i => .fin (v.getD i 0 * ∑ j ∈ range d, entry d Q i j))) := by
  obtain ⟨rfl, hs, hP, hQ, -, -⟩ := hb
  unfold Bravais.getInverseVector
  simp only
  rw [if_pos (by simpa using hv), mapRange_ok (g := fun i => .fin (v.getD i 0 * ∑ j ∈ range d, entry d Q i j))]
  intro i hi
  rw [Finset.mul_sum]
  refine accumulate_ok hA.exact (g := fun j => v.getD i 0 * entry d Q i j) (fun j hj => ?_)
  rw [subscript_fin (by omega), offset_eq' hs hj hi, subscript_fin (by rw [hQ]; exact offset_lt hj hi)]
  simp only [Res.ok_bind, Num.fin_mul, Num.round_exact hA.exact]
  rfl

/-- C71 (what holds).  On the chain, square and cubic lattices `GetInverseVector` gives back the coordinates. -/
theorem C71_orthogonal_partial (hA : A.IsReal)
    (hb : chainLattice = .ok b ∨ squareLattice = .ok b ∨ cubicLattice = .ok b) (c : List Int) (hc : c.length = b.dim) :
    ∃ v, b.getRealSpace c = .ok v ∧ b.getInverseVector v = .ok (c.map (fun x => .fin (x : ℝ))) := by
  rcases hb with hb | hb | hb
  · obtain ⟨b', e, hb'⟩ := chain_holds hA
    rw [e] at hb; cases hb
    have hd : b.dim = 1 := by rw [hb'.eq]
    rw [hd] at hc
    refine ⟨_, getRealSpace_ok hA.exact hb' hc, ?_⟩
    rw [getInverseVector_ok hA hb' (embed_length ..)]
    obtain ⟨x, rfl⟩ := list_one hc
    simp [embed, coord, entry, List.range_succ]
  · obtain ⟨b', e, hb'⟩ := square_holds hA
    rw [e] at hb; cases hb
    have hd : b.dim = 2 := by rw [hb'.eq]
    rw [hd] at hc
    refine ⟨_, getRealSpace_ok hA.exact hb' hc, ?_⟩
    rw [getInverseVector_ok hA hb' (embed_length ..)]
    obtain ⟨x, y, rfl⟩ := list_two hc
    simp [embed, coord, entry, List.range_succ, Finset.sum_range_succ]
  · obtain ⟨b', e, hb'⟩ := cubic_holds hA
    rw [e] at hb; cases hb
    have hd : b.dim = 3 := by rw [hb'.eq]
    rw [hd] at hc
    refine ⟨_, getRealSpace_ok hA.exact hb' hc, ?_⟩
    rw [getInverseVector_ok hA hb' (embed_length ..)]
    obtain ⟨x, y, z, rfl⟩ := list_three hc
    simp [embed, coord, entry, List.range_succ, Finset.sum_range_succ]

/-- C71 is violated at every point of the triangular lattice except the origin. -/
theorem C71_triangular_violated (hA : A.IsReal) (hb : triangularLattice = .ok b) (x y : Int) (hxy : ¬ (x = 0 ∧ y = 0)) :
    ∃ v, b.getRealSpace [x, y] = .ok v ∧ b.getInverseVector v ≠ .ok [.fin (x : ℝ), .fin (y : ℝ)] := by
  obtain ⟨b', e, hb'⟩ := triangular_holds hA
  rw [e] at hb; cases hb
  refine ⟨_, getRealSpace_ok hA.exact hb' rfl, ?_⟩
  rw [getInverseVector_ok hA hb' (embed_length ..)]
  intro h
  simp only [Res.ok.injEq, List.range_succ, List.range_zero, List.nil_append, List.map_cons,
    List.map_nil, List.cons_append, List.cons.injEq, Num.fin.injEq] at h
  have h0 := h.1
  simp [embed, coord, entry, List.range_succ, Finset.sum_range_succ] at h0
  have hp : (0 : ℝ) < √3 := by positivity
  have key : (y : ℝ) * √3 = 2 * x + y := by
    field_simp at h0
    have h3 : √(3 : ℝ) * √3 = 3 := Real.mul_self_sqrt (by norm_num)
    nlinarith [h0]
  by_cases hy : y = 0
  · subst hy
    have : (x : ℝ) = 0 := by
      have : 2 * (x : ℝ) = 0 := by simpa using key.symm
      linarith
    exact hxy ⟨by exact_mod_cast this, rfl⟩
  · have hir : Irrational √(3 : ℝ) := by
      have := Nat.Prime.irrational_sqrt (p := 3) Nat.prime_three
      exact_mod_cast this
    apply hir
    refine ⟨(2 * x + y) / y, ?_⟩
    have hy' : (y : ℝ) ≠ 0 := by exact_mod_cast hy
    push_cast
    rw [div_eq_iff hy', ← key]
    ring

end
end Bwsl
