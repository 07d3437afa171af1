import Verif.Lemmas.Nearest
import Verif.Lemmas.Round
import Verif.Spec.IntegerLattice
import Mathlib.Tactic.Linarith
import Mathlib.Algebra.Order.BigOperators.Group.Finset
import Mathlib.Algebra.Order.BigOperators.Ring.Finset

/-! Lattices with integer primitive vectors in binary64. -/

namespace Bwsl
open Spec Finset

set_option linter.unusedSectionVars false

/-! ### The search of `ComputeVectors`, whatever the arithmetic -/

section
variable {A : Arith ℝ} {b : Bravais (Num A)} {size : List Nat}

/-- If the distances to the images are finite, the vector found is one whose computed distance is least among the
first shell. -/
theorem vectors_any (hs : Buildable size) (hr : Regular b size.length) {ρ : List Int → ℝ} {ξ : List Int → List (Num A)}
    (hρ : ∀ c m, OnGrid c size → Shell size.length m →
      b.getDistanceVector (crd size 0) (image size c m) = .ok (.fin (ρ (image size c m)), ξ (image size c m)))
    {l : Lattice (Num A)} (hl : Lattice.new b size .closed = .ok l) {i : Nat} (hi : i < size.prod) :
    ∃ m, Shell size.length m ∧ l.vectors[i]? = some (ξ (image size (crd size i) m)) ∧
      ∀ m', Shell size.length m' → ρ (image size (crd size i) m) ≤ ρ (image size (crd size i) m') := by
  have hd := dims_of_ok hs hr hl
  obtain ⟨vs, h1, h2, h3⟩ := computeVectors_closed hs hr hd
    (fun i k s => ∃ m, Shell size.length m ∧
      s = (.fin (ρ (image size (crd size i) m)), ξ (image size (crd size i) m)) ∧
      ∀ j, j < k → ρ (image size (crd size i) m) ≤ ρ (image size (crd size i) (shell size.length j)))
    (fun i r hi hr => by
      have hc := crd_onGrid hs.1.1 hi
      have := hρ _ _ hc (shell_zero _)
      rw [image_zero (onGrid_length hc), hr, Res.ok.injEq] at this
      refine ⟨_, shell_zero _, ?_, fun j hj => absurd hj (by omega)⟩
      rw [image_zero (onGrid_length hc), this])
    (fun i k s r hi hk hI hr => by
      have hc := crd_onGrid hs.1.1 hi
      rw [hρ _ _ hc (shell_mem hk), Res.ok.injEq] at hr
      obtain ⟨m, hm, rfl, hmin⟩ := hI
      subst hr
      simp only [Num.lt_fin, decide_eq_true_eq]
      by_cases hlt : ρ (image size (crd size i) (shell size.length k)) < ρ (image size (crd size i) m)
      · rw [if_pos hlt]
        refine ⟨_, shell_mem hk, rfl, fun j hj => ?_⟩
        rcases Nat.lt_succ_iff_lt_or_eq.1 hj with h | rfl
        · exact le_trans hlt.le (hmin j h)
        · exact le_rfl
      · rw [if_neg hlt]
        refine ⟨m, hm, rfl, fun j hj => ?_⟩
        rcases Nat.lt_succ_iff_lt_or_eq.1 hj with h | rfl
        · exact hmin j h
        · exact not_lt.1 hlt)
  have hv := (new_parts hl).2.2.1
  rw [h1, Res.ok.injEq] at hv
  have hi' : i < vs.length := h2 ▸ hi
  obtain ⟨D, m, hm, he, hmin⟩ := h3 i _ (List.getElem?_eq_getElem hi')
  refine ⟨m, hm, ?_, fun m' hm' => ?_⟩
  · rw [← hv, List.getElem?_eq_getElem hi']
    simp only [Prod.mk.injEq] at he
    rw [he.2]
  · obtain ⟨k, hk, rfl⟩ := shell_surj hm'
    exact hmin k hk

/-- `GetVector` and `GetDistance` on a closed lattice, whatever the arithmetic. -/
theorem closed_any (hs : Buildable size) (hr : Regular b size.length) {ρ : List Int → ℝ} {ξ : List Int → List (Num A)}
    (hρ : ∀ c m, OnGrid c size → Shell size.length m →
      b.getDistanceVector (crd size 0) (image size c m) = .ok (.fin (ρ (image size c m)), ξ (image size c m)))
    {l : Lattice (Num A)} (hl : Lattice.new b size .closed = .ok l) {x y : Nat} (hx : x < size.prod) (hy : y < size.prod) :
    ∃ m, Shell size.length m ∧
      l.getVector x y = .ok (ξ (image size (wrap size (minus (crd size y) (crd size x))) m)) ∧
      l.getDistance x y =
        .ok (CxxFloat.sqrt (sumSquared (ξ (image size (wrap size (minus (crd size y) (crd size x))) m)))) ∧
      ∀ m', Shell size.length m' → ρ (image size (wrap size (minus (crd size y) (crd size x))) m) ≤
        ρ (image size (wrap size (minus (crd size y) (crd size x))) m') := by
  obtain ⟨s, h1, h2, h3⟩ := mapped_closed hs hx hy
  obtain ⟨m, hm, hv, hmin⟩ := vectors_any hs hr hρ hl h1
  have hg := (new_parts hl).1
  rw [h3] at hv hmin
  refine ⟨m, hm, ?_, ?_, hmin⟩
  · unfold Lattice.getVector
    rw [indexIsValid_eq hs hl hx, indexIsValid_eq hs hl hy, Bool.and_self, if_pos rfl, hg, h2, Res.ok_bind, subscript_ok hv]
  · unfold Lattice.getDistance
    rw [indexIsValid_eq hs hl hx, indexIsValid_eq hs hl hy, Bool.and_self, if_pos rfl, hg, h2, Res.ok_bind,
      (new_parts hl).2.2.2.1]
    refine subscript_ok ?_
    unfold Lattice.computeDistances
    rw [List.getElem?_map, hv, Option.map_some]

end

/-! ### Integers in binary64 -/

section
variable {A : Arith ℝ}

theorem round_int (hA : A.IsBinary64) {n : Int} (h : |n| ≤ 2 ^ 53) : Num.round A (n : ℝ) = .fin (n : ℝ) :=
  Num.round_of (rnd_of_double hA (double_int h) (int_lt_huge h))

theorem accumulateFrom_int (hA : A.IsBinary64) {f : Nat → Res (Num A)} {g : Nat → Int} {k n : Nat} {a : Int}
    (h : ∀ i, k ≤ i → i < k + n → f i = .ok (.fin (g i : ℝ))) (hb : |a| + ((List.range' k n).map (fun i => |g i|)).sum ≤ 2 ^ 53) :
    accumulateFrom f (.fin (a : ℝ)) k n = .ok (.fin ((a + ((List.range' k n).map g).sum : Int) : ℝ)) := by
  induction n generalizing k a with
  | zero => simp [accumulateFrom]
  | succ n ih =>
    rw [List.range'_succ, List.map_cons, List.sum_cons] at hb
    have hnn : 0 ≤ ((List.range' (k + 1) n).map (fun i => |g i|)).sum :=
      List.sum_nonneg (fun x hx => by obtain ⟨i, -, rfl⟩ := List.mem_map.1 hx; exact abs_nonneg _)
    have h1 := abs_add_le a (g k)
    rw [accumulateFrom, h k le_rfl (by omega), Res.ok_bind, Num.fin_add, ← Int.cast_add, round_int hA (by omega),
      ih (fun i h1 h2 => h i (by omega) (by omega)) (by omega), List.range'_succ, List.map_cons, List.sum_cons, add_assoc]

theorem accumulate_int (hA : A.IsBinary64) {f : Nat → Res (Num A)} {g : Nat → Int} {n : Nat}
    (h : ∀ i, i < n → f i = .ok (.fin (g i : ℝ))) (hb : ∑ i ∈ range n, |g i| ≤ 2 ^ 53) :
    accumulate n f = .ok (.fin ((∑ i ∈ range n, g i : Int) : ℝ)) := by
  have h0 : (Num.fin (0 : ℝ) : Num A) = .fin ((0 : Int) : ℝ) := by rw [Int.cast_zero]
  rw [accumulate, Num.zero_eq, h0, accumulateFrom_int hA (fun i _ h2 => h i (by omega)), zero_add, ← List.range_eq_range',
    list_range_sum]
  rwa [← List.range_eq_range', list_range_sum, abs_zero, zero_add]

theorem sumSquared_int (hA : A.IsBinary64) (v : List Int) (hb : (v.map (fun x => x * x)).sum ≤ 2 ^ 53) :
    sumSquared (v.map (fun x : Int => (Num.fin (x : ℝ) : Num A))) = .fin (((v.map (fun x => x * x)).sum : Int) : ℝ) := by
  unfold sumSquared
  have key : ∀ (v : List Int) (a : Int), 0 ≤ a → a + (v.map (fun x => x * x)).sum ≤ 2 ^ 53 →
      (v.map (fun x : Int => (Num.fin (x : ℝ) : Num A))).foldl (fun d x => d + squareF x) (.fin (a : ℝ)) =
      .fin ((a + (v.map (fun x => x * x)).sum : Int) : ℝ) := by
    intro v
    induction v with
    | nil => intro a _ _; simp
    | cons x xs ih =>
      intro a ha h
      rw [List.map_cons, List.sum_cons] at h
      have hnn : 0 ≤ (xs.map (fun x => x * x)).sum :=
        List.sum_nonneg (fun y hy => by obtain ⟨z, -, rfl⟩ := List.mem_map.1 hy; exact mul_self_nonneg z)
      have hx := mul_self_nonneg x
      rw [List.map_cons, List.foldl_cons]
      unfold squareF
      rw [Num.fin_mul, ← Int.cast_mul, round_int hA (by rw [abs_of_nonneg hx]; omega), Num.fin_add, ← Int.cast_add,
        round_int hA (by rw [abs_of_nonneg (by omega)]; omega)]
      refine (ih _ (by omega) (by omega)).trans ?_
      rw [List.map_cons, List.sum_cons, add_assoc]
  have h0 : (CxxFloat.ofInt 0 : Num A) = .fin ((0 : Int) : ℝ) := by
    rw [Num.ofInt_eq, round_int hA (by decide)]
  rw [h0, key v 0 le_rfl (by omega), zero_add]

/-- The square root of a small integer is rounded and finite. -/
theorem sqrt_int (hA : A.IsBinary64) (hS : A.sqrt = Real.sqrt) {n : Int} (h0 : 0 ≤ n) (h : n ≤ 2 ^ 53) :
    CxxFloat.sqrt (.fin (n : ℝ) : Num A) = .fin (rn √(n : ℝ)) := by
  have hn : (0 : ℝ) ≤ n := by exact_mod_cast h0
  have hn' : (n : ℝ) ≤ ((2 ^ 53 : Int) : ℝ) := by exact_mod_cast h
  have hle : √(n : ℝ) ≤ ((2 ^ 53 : Int) : ℝ) := by
    rw [Real.sqrt_le_left (by positivity)]
    refine hn'.trans ?_
    norm_num
  have h1 : rn √(n : ℝ) ≤ ((2 ^ 53 : Int) : ℝ) := by
    have := rn_mono hle
    rwa [rn_double (double_int (by decide))] at this
  have h2 : 0 ≤ rn √(n : ℝ) := by simpa [rn_zero] using rn_mono (Real.sqrt_nonneg (n : ℝ))
  rw [Num.sqrt_fin hn, hS]
  refine Num.round_of ?_
  rw [hA, rnd64, if_pos]
  rw [abs_of_nonneg h2]
  refine h1.trans_lt ?_
  have := int_lt_huge (K := ℝ) (n := 2 ^ 53) (by decide)
  rwa [abs_of_nonneg (by positivity)] at this

theorem ulpExp_le {x : ℝ} (h : |x| < 2 ^ 26) : ulpExp x ≤ -27 := by
  unfold ulpExp
  refine max_le ?_ (by norm_num)
  by_cases hx : x = 0
  · subst hx
    rw [abs_zero, Int.log_of_right_le_zero _ le_rfl]; norm_num
  · have : Int.log 2 |x| < 26 := by
      rw [← Int.lt_zpow_iff_log_lt (by norm_num) (abs_pos.2 hx)]
      exact_mod_cast h
    omega

/-- The rounded square roots of different integers below 2^52 are different. -/
theorem rn_sqrt_lt {m n : Int} (h0 : 0 ≤ m) (h : m < n) (hn : n < 2 ^ 52) : rn √(m : ℝ) < rn √(n : ℝ) := by
  have hm' : (0 : ℝ) ≤ m := by exact_mod_cast h0
  have hmn : (m : ℝ) + 1 ≤ n := by exact_mod_cast h
  have hn' : (n : ℝ) < (2 ^ 26) ^ 2 := by
    have : (n : ℝ) < ((2 ^ 52 : Int) : ℝ) := by exact_mod_cast hn
    refine this.trans_le ?_
    norm_num
  have b1 : √(n : ℝ) < 2 ^ 26 := by
    rw [Real.sqrt_lt' (by norm_num)]; exact hn'
  have b2 : √(m : ℝ) < √(n : ℝ) := Real.sqrt_lt_sqrt hm' (by linarith)
  have p := Real.sqrt_nonneg (m : ℝ)
  have hz : ∀ {x : ℝ}, |x| < 2 ^ 26 → |x - rn x| ≤ 1 / 2 ^ 28 := by
    intro x hx
    refine (rn_err_ulp x).trans ?_
    have : (2 : ℝ) ^ ulpExp x ≤ (2 : ℝ) ^ (-27 : Int) := zpow_le_zpow_right₀ one_le_two (ulpExp_le hx)
    have e : (2 : ℝ) ^ (-27 : Int) = 2 * (1 / 2 ^ 28) := by norm_num
    rw [e] at this
    linarith
  have e1 := hz (x := √(m : ℝ)) (by rw [abs_of_nonneg p]; linarith)
  have e2 := hz (x := √(n : ℝ)) (by rw [abs_of_nonneg (by linarith)]; linarith)
  have s1 := Real.mul_self_sqrt hm'
  have s2 := Real.mul_self_sqrt (show (0 : ℝ) ≤ n by linarith)
  have gap : 1 / 2 ^ 27 < √(n : ℝ) - √(m : ℝ) := by
    by_contra hc
    push Not at hc
    have h3 : (√(n : ℝ) - √(m : ℝ)) * (√(n : ℝ) + √(m : ℝ)) ≥ 1 := by nlinarith
    have h4 : √(n : ℝ) + √(m : ℝ) < 2 ^ 27 := by norm_num at b1 ⊢; linarith
    have h5 : (√(n : ℝ) - √(m : ℝ)) * (√(n : ℝ) + √(m : ℝ)) < 1 / 2 ^ 27 * 2 ^ 27 :=
      mul_lt_mul' hc h4 (by linarith) (by norm_num)
    norm_num at h5
    linarith
  have := (abs_le.1 e1).1
  have := (abs_le.1 e2).2
  norm_num at *
  linarith

theorem rn_sqrt_le_iff {m n : Int} (_h0 : 0 ≤ m) (h0' : 0 ≤ n) (hm : m < 2 ^ 52) (_hn : n < 2 ^ 52) :
    rn √(m : ℝ) ≤ rn √(n : ℝ) ↔ m ≤ n := by
  constructor
  · intro h
    by_contra hc
    exact absurd (rn_sqrt_lt h0' (not_le.1 hc) hm) (not_lt.2 h)
  · intro h
    exact rn_mono (Real.sqrt_le_sqrt (by exact_mod_cast h))

end

/-! ### Lattices -/

section
variable {A : Arith ℝ} {b : Bravais (Num A)} {size : List Nat} {g : Nat} {P : List Int} {Q : List ℝ} {N : List Int}

theorem entry_cast (d : Nat) (P : List Int) (j i : Nat) : entry d (P.map (fun x : Int => (x : ℝ))) j i = ((entry d P j i : Int) : ℝ) := by
  unfold entry
  rw [List.getD_eq_getElem?_getD, List.getD_eq_getElem?_getD, List.getElem?_map]
  cases P[i + j * d]? <;> simp

theorem embed_cast (d : Nat) (P c : List Int) :
    embed d (P.map (fun x : Int => (x : ℝ))) c = (point d P c).map (fun x : Int => (x : ℝ)) := by
  unfold embed point
  rw [List.map_map]
  refine List.map_congr_left (fun i _ => ?_)
  simp only [Function.comp, entry_cast]
  push_cast; rfl

/-- The squared length of a point. -/
def sqlen (d : Nat) (P c : List Int) : Int := ((point d P c).map (fun x => x * x)).sum

theorem sqlen_nonneg (d : Nat) (P c : List Int) : 0 ≤ sqlen d P c :=
  List.sum_nonneg (fun x hx => by obtain ⟨y, -, rfl⟩ := List.mem_map.1 hx; exact mul_self_nonneg y)

theorem length_cast (d : Nat) (P c : List Int) :
    Spec.length (embed d (P.map (fun x : Int => (x : ℝ))) c) = √(sqlen d P c : ℝ) := by
  unfold Spec.length sqlen
  rw [embed_cast, List.map_map]
  congr 1
  induction point d P c with
  | nil => simp
  | cons x xs ih => simp only [List.map_cons, List.sum_cons, ih, Function.comp]; push_cast; ring

/-- Coordinates at most twice the extents. -/
def Within (size : List Nat) (c : List Int) : Prop :=
  c.length = size.length ∧ ∀ k, k < size.length → |coord c k| ≤ 2 * extent size k

theorem within_image {c m : List Int} (hc : OnGrid c size) (hm : Shell size.length m) :
    Within size (image size c m) := by
  refine ⟨length_image .., fun k hk => ?_⟩
  rw [coord_image hk]
  have h1 := (onGrid_iff.1 hc).2 k hk
  have h3 := hm.coord k
  have : coord m k = -1 ∨ coord m k = 0 ∨ coord m k = 1 := by omega
  rw [abs_le]
  rcases this with h | h | h <;> rw [h] <;> omega

theorem within_site {c : List Int} (hc : OnGrid c size) : Within size c := by
  refine ⟨onGrid_length hc, fun k hk => ?_⟩
  have h1 := (onGrid_iff.1 hc).2 k hk
  rw [abs_of_nonneg h1.1]
  omega

/-- The largest value of one component. -/
def span (size : List Nat) (P : List Int) (i : Nat) : Int :=
  ∑ j ∈ range size.length, 2 * extent size j * |entry size.length P j i|

theorem extent_nonneg (size : List Nat) (k : Nat) : 0 ≤ extent size k := Int.natCast_nonneg _

theorem abs_terms {c : List Int} (hc : Within size c) (i : Nat) :
    ∑ j ∈ range size.length, |coord c j * entry size.length P j i| ≤ span size P i := by
  refine Finset.sum_le_sum (fun j hj => ?_)
  rw [abs_mul]
  exact mul_le_mul_of_nonneg_right (hc.2 j (Finset.mem_range.1 hj)) (abs_nonneg _)

theorem span_nonneg (size : List Nat) (P : List Int) (i : Nat) : 0 ≤ span size P i :=
  Finset.sum_nonneg (fun j _ => mul_nonneg (mul_nonneg (by decide) (extent_nonneg ..)) (abs_nonneg _))

theorem span_le (hS : Modest size P) {i : Nat} (hi : i < size.length) : span size P i < 2 ^ 52 := by
  have h1 : span size P i ^ 2 ≤ ∑ i ∈ range size.length, span size P i ^ 2 :=
    Finset.single_le_sum (f := fun i => span size P i ^ 2) (fun i _ => sq_nonneg _) (Finset.mem_range.2 hi)
  have h2 := hS.2
  have h3 := span_nonneg size P i
  have : ∑ i ∈ range size.length, span size P i ^ 2 < 2 ^ 52 := hS.2
  nlinarith

theorem sqlen_lt (hS : Modest size P) {c : List Int} (hc : Within size c) : sqlen size.length P c < 2 ^ 52 := by
  refine lt_of_le_of_lt ?_ hS.2
  unfold sqlen point
  rw [List.map_map, list_range_sum]
  refine Finset.sum_le_sum (fun i _ => ?_)
  show (∑ j ∈ range size.length, coord c j * entry size.length P j i) * (∑ j ∈ range size.length, coord c j * entry size.length P j i) ≤ _
  rw [← sq]
  refine sq_le_sq.2 ?_
  rw [abs_of_nonneg (a := ∑ j ∈ range size.length, 2 * extent size j * |entry size.length P j i|) (span_nonneg size P i)]
  exact (Finset.abs_sum_le_sum_abs _ _).trans (abs_terms hc i)

theorem getRealSpace_int (hA : A.IsBinary64) (hb : Holds b size.length g (P.map (fun x : Int => (x : ℝ))) Q N) (hS : Modest size P)
    {c : List Int} (hc : Within size c) :
    b.getRealSpace c = .ok ((embed size.length (P.map (fun x : Int => (x : ℝ))) c).map .fin) := by
  have hsp := fun i hi => span_le hS (i := i) hi
  have hab := abs_terms (P := P) hc
  obtain ⟨rfl, hs, hP, hQ, -, -⟩ := hb
  unfold Bravais.getRealSpace
  simp only
  rw [if_pos hc.1, mapRange_ok (g := fun i => .fin ((∑ j ∈ range size.length, coord c j * entry size.length P j i : Int) : ℝ)),
    embed_cast, point, List.map_map, List.map_map]
  · rfl
  · intro i hi
    refine accumulate_int hA (g := fun j => coord c j * entry size.length P j i) (fun j hj => ?_)
      ((hab i).trans ((hsp i hi).le.trans (by norm_num)))
    rw [subscript_getD (by have := hc.1; omega) 0, offset_eq hs hi hj, subscript_fin (by rw [hP]; exact offset_lt hi hj)]
    have hcj : |coord c j| ≤ 2 ^ 53 := by
      refine (hc.2 j hj).trans ?_
      have := hS.1 _ (List.getElem_mem hj)
      rw [extent_eq hj]
      exact_mod_cast this
    have ht : |coord c j * entry size.length P j i| ≤ 2 ^ 53 := by
      have h1 := Finset.single_le_sum (f := fun j => |coord c j * entry size.length P j i|) (fun j _ => abs_nonneg _)
        (Finset.mem_range.2 hj)
      exact h1.trans ((hab i).trans ((hsp i hi).le.trans (by norm_num)))
    have he := entry_cast size.length P j i
    unfold entry at he
    simp only [Res.ok_bind]
    rw [he]
    have : (coord c j : Int) = c.getD j 0 := rfl
    rw [← this, Num.ofInt_eq, round_int hA hcj, Num.fin_mul, ← Int.cast_mul]
    exact congrArg Res.ok (round_int hA ht)

theorem getDistanceVector_int (hA : A.IsBinary64) (hq : A.sqrt = Real.sqrt)
    (hb : Holds b size.length g (P.map (fun x : Int => (x : ℝ))) Q N) (hS : Modest size P) {c : List Int} (hc : Within size c)
    (hn : Near size.length (crd size 0) c) :
    b.getDistanceVector (crd size 0) c = .ok (.fin (rn √(sqlen size.length P c : ℝ)),
      (embed size.length (P.map (fun x : Int => (x : ℝ))) c).map .fin) := by
  have hd : b.dim = size.length := by rw [hb.eq]
  have h52 := sqlen_lt hS hc
  unfold Bravais.getDistanceVector
  rw [getVector_eq (hd ▸ hn), minus_origin hc.1, getRealSpace_int hA hb hS hc, Res.ok_bind, hd]
  have hsum : ∑ i ∈ range size.length, |((point size.length P c).getD i 0) * ((point size.length P c).getD i 0)| =
      sqlen size.length P c := by
    unfold sqlen point
    rw [List.map_map, list_range_sum]
    refine Finset.sum_congr rfl (fun i hi => ?_)
    have hi := Finset.mem_range.1 hi
    rw [List.getD_eq_getElem?_getD, List.getElem?_map, List.getElem?_range hi, abs_mul_self]
    rfl
  have hsum' : ∑ i ∈ range size.length, ((point size.length P c).getD i 0) * ((point size.length P c).getD i 0) =
      sqlen size.length P c := by
    rw [← hsum]
    exact Finset.sum_congr rfl (fun i _ => (abs_mul_self _).symm)
  rw [accumulate_int hA (g := fun i => ((point size.length P c).getD i 0) * ((point size.length P c).getD i 0)), Res.ok_bind,
    hsum', sqrt_int hA hq (sqlen_nonneg ..) (by omega)]
  · intro i hi
    have hl : (point size.length P c).length = size.length := by simp [point]
    rw [subscript_fin (by rw [embed_length]; exact hi), Res.ok_bind, embed_cast]
    have : ((point size.length P c).map (fun x : Int => (x : ℝ))).getD i 0 = (((point size.length P c).getD i 0 : Int) : ℝ) := by
      rw [List.getD_eq_getElem?_getD, List.getD_eq_getElem?_getD, List.getElem?_map]
      cases (point size.length P c)[i]? <;> simp
    rw [this]
    unfold squareF
    rw [Num.fin_mul, ← Int.cast_mul, round_int hA]
    have h1 := Finset.single_le_sum (f := fun i => |(point size.length P c).getD i 0 * (point size.length P c).getD i 0|)
      (fun j _ => abs_nonneg _) (Finset.mem_range.2 hi)
    rw [hsum] at h1
    exact h1.trans (by omega)
  · rw [hsum]; omega

theorem computed_distance (hA : A.IsBinary64) (hq : A.sqrt = Real.sqrt) (hS : Modest size P) {c : List Int} (hc : Within size c) :
    CxxFloat.sqrt (sumSquared ((embed size.length (P.map (fun x : Int => (x : ℝ))) c).map (Num.fin (A := A)))) =
      .fin (rn √(sqlen size.length P c : ℝ)) := by
  have h52 := sqlen_lt hS hc
  have h53 : ((point size.length P c).map (fun x => x * x)).sum ≤ 2 ^ 53 := by
    have : sqlen size.length P c ≤ 2 ^ 53 := by omega
    exact this
  rw [embed_cast, List.map_map]
  exact (congrArg CxxFloat.sqrt (sumSquared_int hA _ h53)).trans (sqrt_int hA hq (sqlen_nonneg ..) h53)

/-- `GetVector` and `GetDistance` on a closed lattice with integer primitive vectors in binary64: a shortest vector to
an image in the first shell, and its length rounded once. -/
theorem closed_int (hA : A.IsBinary64) (hq : A.sqrt = Real.sqrt) (hs : Buildable size)
    (hb : Holds b size.length g (P.map (fun x : Int => (x : ℝ))) Q N) (hr : Regular b size.length) (hS : Modest size P)
    {l : Lattice (Num A)} (hl : Lattice.new b size .closed = .ok l) {x y : Nat} (hx : x < size.prod) (hy : y < size.prod) :
    ∃ m, Shell size.length m ∧
      l.getVector x y = .ok ((embed size.length (P.map (fun x : Int => (x : ℝ)))
        (image size (wrap size (minus (crd size y) (crd size x))) m)).map .fin) ∧
      l.getDistance x y = .ok (.fin (rn √(sqlen size.length P (image size (wrap size (minus (crd size y) (crd size x))) m) : ℝ))) ∧
      Within size (image size (wrap size (minus (crd size y) (crd size x))) m) ∧
      ∀ m', Shell size.length m' → sqlen size.length P (image size (wrap size (minus (crd size y) (crd size x))) m) ≤
        sqlen size.length P (image size (wrap size (minus (crd size y) (crd size x))) m') := by
  obtain ⟨m, hm, h1, h2, h3⟩ := closed_any hs hr
    (ρ := fun c => rn √(sqlen size.length P c : ℝ))
    (ξ := fun c => (embed size.length (P.map (fun x : Int => (x : ℝ))) c).map .fin)
    (fun c m hc hm => getDistanceVector_int hA hq hb hS (within_image hc hm) (image_near hs hc hm)) hl hx hy
  have hg : OnGrid (wrap size (minus (crd size y) (crd size x))) size :=
    wrap_onGrid hs.1.1 (length_minus (onGrid_length (crd_onGrid hs.1.1 hx)) (onGrid_length (crd_onGrid hs.1.1 hy)))
  have hw := within_image hg hm
  refine ⟨m, hm, h1, ?_, hw, fun m' hm' => ?_⟩
  · rw [h2, computed_distance hA hq hS hw]
  · exact (rn_sqrt_le_iff (sqlen_nonneg ..) (sqlen_nonneg ..) (sqlen_lt hS hw) (sqlen_lt hS (within_image hg hm'))).1 (h3 m' hm')

end
end Bwsl
