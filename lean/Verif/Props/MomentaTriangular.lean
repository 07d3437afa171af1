import Verif.Props.SkDouble
import Verif.Props.BravaisDouble
import Verif.Props.DoubleTriangular
import Verif.Lemmas.Close

/-! Property C153: momenta of triangular lattices in double precision. -/

namespace Bwsl
open Spec

section
variable {A : Arith ℝ} {b : Bravais (Num A)} {L M : Nat}

/-- Components of the reciprocal vectors of the triangular lattice. -/
noncomputable def recip1 : ℝ := rn (-1 / rn √3)

noncomputable def recip2 : ℝ := rn (2 / rn √3)

/-- A coordinate times 2π. -/
noncomputable def turns (l : Int) : ℝ := rn (2 * l * rn Real.pi)

/-- The second component of a reciprocal vector. -/
noncomputable def slant (u v : Int) : ℝ := rn (rn (turns u * recip1) + rn (turns v * recip2))

theorem normal_half {x : ℝ} (h : 1 / 2 ≤ |x|) : (2 : ℝ) ^ (-1022 : Int) ≤ |x| := normal_of (by linarith)

theorem close_rn {x : ℝ} (h : x = 0 ∨ (2 : ℝ) ^ (-1022 : Int) ≤ |x|) : Close 1 (rn x) x := by
  have := rn_rel' h
  unfold Close
  rw [abs_sub_comm]
  push_cast
  rwa [mul_one_div]

theorem root3_pos : (0 : ℝ) < √3 := Real.sqrt_pos.2 (by norm_num)

theorem root3_le : √(3 : ℝ) ≤ 2 := by rw [Real.sqrt_le_left (by norm_num)]; norm_num

theorem root3_ge : (1 : ℝ) ≤ √3 := by rw [Real.one_le_sqrt]; norm_num

theorem root3_close : Close 1 (rn √3) √3 :=
  close_rn (Or.inr (normal_half (by rw [abs_of_pos root3_pos]; linarith [root3_ge])))

theorem rn_root3_bounds : 1 ≤ rn √3 ∧ rn √3 ≤ 2 := by
  rw [rn_sqrt3]; constructor <;> norm_num

theorem recip_close {n : ℝ} (hn : 1 ≤ |n|) : Close 4 (rn (n / rn √3)) (n / √3) ∧ (|n| ≤ 2 → |n / rn √3| ≤ 2) := by
  obtain ⟨b1, b2⟩ := rn_root3_bounds
  have h := (root3_close.inv root3_pos.ne' (by norm_num)).mul_exact n
  have e : ∀ x : ℝ, n * (1 / x) = n / x := fun x => mul_one_div n x
  rw [e, e] at h
  refine ⟨h.rn (by norm_num) (Or.inr (normal_half ?_)), fun h2 => ?_⟩
  · rw [abs_div, abs_of_pos (by linarith : 0 < rn √3), div_le_div_iff₀ (by norm_num) (by linarith)]
    linarith
  · rw [abs_div, abs_of_pos (by linarith : 0 < rn √3), div_le_iff₀ (by linarith)]
    nlinarith

/-- The first and the second component of the inverse vectors. -/
theorem triangular_inverse (hA : A.IsBinary64) (hq : A.sqrt = Real.sqrt) (hb : triangularLattice = .ok b) :
    b.dim = 2 ∧ b.pivectors = [.fin 1, .fin recip1, .fin 0, .fin recip2] := by
  cases hb
  refine ⟨rfl, ?_⟩
  have i1 : (CxxFloat.lit 1 : Num A) = .fin 1 := by
    have := round_int hA (n := 1) (by decide)
    rw [Num.lit_eq, Rat.cast_one]; simpa using this
  have i3 : (CxxFloat.lit 3 : Num A) = .fin 3 := by
    have := round_int hA (n := 3) (by decide)
    rw [Num.lit_eq, Rat.cast_ofNat]; simpa using this
  have i2 : (CxxFloat.lit 2 : Num A) = .fin 2 := by
    have := round_int hA (n := 2) (by decide)
    rw [Num.lit_eq, Rat.cast_ofNat]; simpa using this
  have hs : CxxFloat.sqrt (.fin 3 : Num A) = .fin (rn √3) := by
    rw [Num.sqrt_fin (by norm_num), hq, round_fin hA]
    refine le_200 (k := 1) ?_ (by norm_num)
    rw [abs_of_nonneg (Real.sqrt_nonneg _), Real.sqrt_le_left (by norm_num)]
    norm_num
  have h0 : rn √3 ≠ 0 := by linarith [rn_root3_bounds.1]
  have hd : ∀ n : ℝ, 1 ≤ |n| → |n| ≤ 2 → (.fin n : Num A) / .fin (rn √3) = .fin (rn (n / rn √3)) := fun n h1 h2 => by
    rw [Num.fin_div h0, round_fin hA]
    exact le_200 (k := 1) (((recip_close h1).2 h2).trans (by norm_num)) (by norm_num)
  show [_, _, _, _] = _
  rw [i1, i3, i2, hs, hd 2 (by norm_num) (by norm_num), Num.zero_eq]
  have : (-(.fin 1 : Num A)) = .fin (-1) := rfl
  rw [this, hd (-1) (by norm_num) (by norm_num)]
  rfl

theorem turns_close {l : Int} (hl : |l| ≤ 2 ^ 51) : Close 3 (turns l) (2 * Real.pi * l) ∧ |turns l| ≤ 2 ^ 55 ∧ (l = 0 ∨ 1 ≤ |turns l|) := by
  obtain ⟨h1, h2, h3, h4⟩ := kay_inner l hl
  have hp : Close 1 (rn Real.pi) Real.pi := close_rn (Or.inr pi_normal)
  have hc := (hp.mul_exact (2 * l)).rn (by norm_num) (by
    rcases h4 with rfl | h4
    · left; simp
    · right
      refine normal_half ?_
      have h5 := abs_sub_abs_le_abs_sub (rn (2 * l * rn Real.pi)) (2 * l * rn Real.pi)
      rw [abs_sub_comm] at h5
      have h6 : |2 * (l : ℝ) * rn Real.pi| / 2 ^ 53 ≤ |2 * (l : ℝ) * rn Real.pi| := div_le_self (abs_nonneg _) (by norm_num)
      linarith)
  have e : 2 * (l : ℝ) * Real.pi = 2 * Real.pi * l := by ring
  rw [e] at hc
  exact ⟨hc, h3, h4⟩

/-- A product of a coordinate and of a component. -/
theorem slant_term {l : Int} (hl : |l| ≤ 2 ^ 51) {n : ℝ} (hn : 1 ≤ |n|) (hn2 : |n| ≤ 2) :
    Close 10 (rn (turns l * rn (n / rn √3))) (2 * Real.pi * l * n / √3) ∧ |turns l * rn (n / rn √3)| ≤ 2 ^ 58 := by
  obtain ⟨t1, t2, t3⟩ := turns_close hl
  obtain ⟨r1, -⟩ := recip_close hn
  have hr : |n / √3| / 2 ≤ |rn (n / rn √3)| ∧ |rn (n / rn √3)| ≤ 4 := by
    have h1 := r1.le_abs
    have h2 := r1.abs_le
    have h3 : |n / √3| ≤ 2 := by
      rw [abs_div, abs_of_pos root3_pos, div_le_iff₀ root3_pos]
      nlinarith [root3_ge]
    have h4 := abs_nonneg (n / √3)
    generalize |n / √3| = z at *
    norm_num at h1 h2
    constructor <;> linarith
  have hr4 : 1 / 4 ≤ |n / √3| := by
    rw [abs_div, abs_of_pos root3_pos, div_le_div_iff₀ (by norm_num) root3_pos]
    linarith [root3_le]
  have e : 2 * Real.pi * l * n / √3 = 2 * Real.pi * l * (n / √3) := by ring
  rw [e]
  refine ⟨(t1.mul r1 (by norm_num)).rn (by norm_num) ?_, ?_⟩
  · rcases t3 with rfl | t3
    · left; simp [turns, rn_zero]
    · right
      have : (1 : ℝ) / 8 ≤ |turns l * rn (n / rn √3)| := by
        rw [abs_mul]
        calc (1 : ℝ) / 8 ≤ 1 * (1 / 8) := by norm_num
          _ ≤ _ := mul_le_mul t3 (by linarith [hr.1]) (by norm_num) (abs_nonneg _)
      refine two_normal.trans (le_trans ?_ this)
      norm_num
  · rw [abs_mul]
    calc |turns l| * |rn (n / rn √3)| ≤ 2 ^ 55 * 4 := mul_le_mul t2 hr.2 (abs_nonneg _) (by norm_num)
      _ ≤ 2 ^ 58 := by norm_num

/-- The error of a reciprocal vector. -/
theorem slant_error {u v : Int} (hu : |u| ≤ 2 ^ 51) (hv : |v| ≤ 2 ^ 51) :
    |slant u v - 2 * Real.pi * (2 * v - u) / √3| ≤ 2 * Real.pi * (|(u : ℝ)| + 2 * |(v : ℝ)|) / √3 * (12 / 2 ^ 53) ∧
    |rn (turns u * recip1) + rn (turns v * recip2)| ≤ 2 ^ 60 ∧ |slant u v| ≤ 2 ^ 60 := by
  obtain ⟨x1, x2⟩ := slant_term hu (n := -1) (by norm_num) (by norm_num)
  obtain ⟨y1, y2⟩ := slant_term hv (n := 2) (by norm_num) (by norm_num)
  have cap : ∀ (x : ℝ) (k : Nat), |x| ≤ 2 ^ k → Double ((2 : ℝ) ^ k) → |rn x| ≤ 2 ^ k := fun x k h d => by
    rw [abs_le] at h ⊢
    have h1 := rn_mono h.1
    have h2 := rn_mono h.2
    rw [rn_neg, rn_double d] at h1
    rw [rn_double d] at h2
    exact ⟨h1, h2⟩
  have d58 : Double ((2 : ℝ) ^ 58) := ⟨1, 58, by norm_num, by norm_num, by norm_num⟩
  have d60 : Double ((2 : ℝ) ^ 60) := ⟨1, 60, by norm_num, by norm_num, by norm_num⟩
  have x3 := cap _ 58 x2 d58
  have y3 := cap _ 58 y2 d58
  have s1 : |rn (turns u * recip1) + rn (turns v * recip2)| ≤ 2 ^ 60 := by
    refine (abs_add_le _ _).trans ((add_le_add x3 y3).trans ?_)
    norm_num
  refine ⟨?_, s1, cap _ 60 s1 d60⟩
  have hm : ∀ x : ℝ, Mult (-1074) (rn x) := fun x => (rn_isDouble x).mult
  have hr := rn_rel ((hm (turns u * recip1)).add (hm (turns v * recip2)))
  unfold slant
  have eX : |2 * Real.pi * u * (-1) / √3| = 2 * Real.pi * |(u : ℝ)| / √3 := by
    rw [abs_div, abs_of_pos root3_pos, abs_mul, abs_mul, abs_of_pos (by positivity : 0 < 2 * Real.pi), abs_neg, abs_one, mul_one]
  have eY : |2 * Real.pi * v * 2 / √3| = 2 * Real.pi * (2 * |(v : ℝ)|) / √3 := by
    rw [abs_div, abs_of_pos root3_pos, abs_mul, abs_mul, abs_of_pos (by positivity : 0 < 2 * Real.pi), abs_two]; ring
  have eT : 2 * Real.pi * (2 * v - u) / √3 = 2 * Real.pi * u * (-1) / √3 + 2 * Real.pi * v * 2 / √3 := by ring
  have eB : 2 * Real.pi * (|(u : ℝ)| + 2 * |(v : ℝ)|) / √3 = 2 * Real.pi * |(u : ℝ)| / √3 + 2 * Real.pi * (2 * |(v : ℝ)|) / √3 := by ring
  have hX0 : 0 ≤ 2 * Real.pi * |(u : ℝ)| / √3 := by positivity
  have hY0 : 0 ≤ 2 * Real.pi * (2 * |(v : ℝ)|) / √3 := by positivity
  have xa := x1.abs_le
  have ya := y1.abs_le
  change |rn (turns u * recip1)| ≤ _ at xa
  change |rn (turns v * recip2)| ≤ _ at ya
  unfold Close at x1 y1
  change |rn (turns u * recip1) - _| ≤ _ at x1
  change |rn (turns v * recip2) - _| ≤ _ at y1
  rw [eT, eB]
  rw [eX] at x1 xa
  rw [eY] at y1 ya
  generalize 2 * Real.pi * |(u : ℝ)| / √3 = X at *
  generalize 2 * Real.pi * (2 * |(v : ℝ)|) / √3 = Y at *
  generalize 2 * Real.pi * (u : ℝ) * (-1) / √3 = x at *
  generalize 2 * Real.pi * (v : ℝ) * 2 / √3 = y at *
  generalize rn (turns u * recip1) = p at *
  generalize rn (turns v * recip2) = q at *
  have h1 := abs_add_le p q
  have h2 : |rn (p + q) - (x + y)| ≤ |p + q - rn (p + q)| + |p - x| + |q - y| := by
    rw [show rn (p + q) - (x + y) = -(p + q - rn (p + q)) + (p - x) + (q - y) by ring]
    refine (abs_add_three _ _ _).trans ?_
    rw [abs_neg]
  norm_num at *
  linarith

/-- The second component of a momentum. -/
noncomputable def kaySlant (u v s : Int) : ℝ := rn (slant u v / s)

theorem kaySlant_error {u v s : Int} (hu : |u| ≤ 2 ^ 51) (hv : |v| ≤ 2 ^ 51) (hs : 0 < s) (hs' : s ≤ 2 ^ 52) :
    |kaySlant u v s - 2 * Real.pi * (2 * v - u) / (√3 * s)| ≤ 2 * Real.pi * (|(u : ℝ)| + 2 * |(v : ℝ)|) / (√3 * s) / 2 ^ 49 ∧
    |slant u v / s| ≤ 2 ^ 60 := by
  obtain ⟨h1, -, h2⟩ := slant_error hu hv
  have hsr : (1 : ℝ) ≤ s := by exact_mod_cast hs
  have hsr' : (s : ℝ) ≤ 2 ^ 52 := by exact_mod_cast hs'
  have hs0 : (0 : ℝ) < s := by linarith
  refine ⟨?_, by rw [abs_div, abs_of_pos hs0]; exact (div_le_self (abs_nonneg _) hsr).trans h2⟩
  by_cases h0 : u = 0 ∧ v = 0
  · obtain ⟨rfl, rfl⟩ := h0
    simp [kaySlant, slant, turns, rn_zero]
  have hE : 1 ≤ 2 * Real.pi * (|(u : ℝ)| + 2 * |(v : ℝ)|) / √3 := by
    have : (1 : ℝ) ≤ |(u : ℝ)| + 2 * |(v : ℝ)| := by
      have : 1 ≤ |u| + 2 * |v| := by
        by_contra hc
        have := abs_nonneg u
        have := abs_nonneg v
        exact h0 ⟨abs_eq_zero.1 (by omega), abs_eq_zero.1 (by omega)⟩
      exact_mod_cast this
    rw [le_div_iff₀ root3_pos]
    nlinarith [Real.pi_gt_three, root3_le]
  have e1 : 2 * Real.pi * (2 * v - u) / (√3 * s) = 2 * Real.pi * (2 * v - u) / √3 / s := by rw [div_div]
  have e2 : 2 * Real.pi * (|(u : ℝ)| + 2 * |(v : ℝ)|) / (√3 * s) = 2 * Real.pi * (|(u : ℝ)| + 2 * |(v : ℝ)|) / √3 / s := by rw [div_div]
  have hT : |2 * Real.pi * (2 * v - u) / √3| ≤ 2 * Real.pi * (|(u : ℝ)| + 2 * |(v : ℝ)|) / √3 := by
    rw [abs_div, abs_of_pos root3_pos, abs_mul, abs_of_pos (by positivity : 0 < 2 * Real.pi)]
    gcongr
    refine (abs_sub _ _).trans ?_
    rw [abs_mul, abs_two]; linarith
  rw [e1, e2]
  unfold kaySlant
  generalize 2 * Real.pi * (2 * (v : ℝ) - u) / √3 = t at *
  generalize 2 * Real.pi * (|(u : ℝ)| + 2 * |(v : ℝ)|) / √3 = E at *
  generalize slant u v = z at *
  have hz : |z| ≤ 2 * E := by
    have := abs_sub_abs_le_abs_sub z t
    norm_num at h1
    linarith
  have h3 := rn_err_le (x := z / s) (Y := 2 * (E / s)) (by
    have : (1 : ℝ) / 2 ^ 52 ≤ E / s := by
      rw [div_le_div_iff₀ (by norm_num) hs0]
      nlinarith
    have h5 : (1 : ℝ) / 2 ^ 200 ≤ 1 / 2 ^ 52 := by norm_num
    linarith [show (0 : ℝ) ≤ 1 / 2 ^ 52 by positivity]) (by
    rw [abs_div, abs_of_pos hs0, ← mul_div_assoc]
    gcongr)
  have h4 : |z / s - t / s| ≤ E / s * (12 / 2 ^ 53) := by
    rw [← sub_div, abs_div, abs_of_pos hs0, div_mul_eq_mul_div]
    gcongr
  have h5 := abs_add_le (rn (z / s) - z / s) (z / s - t / s)
  rw [sub_add_sub_cancel] at h5
  have hE0 : 0 ≤ E / s := by positivity
  generalize E / (s : ℝ) = e at *
  norm_num at *
  linarith

/-- `GetReciprocalSpace` of the triangular lattice. -/
theorem getReciprocalSpace_tri (hA : A.IsBinary64) (hq : A.sqrt = Real.sqrt) (hpi : A.pi = Real.pi) (hb : triangularLattice = .ok b)
    {u v : Int} (hu : |u| ≤ 2 ^ 51) (hv : |v| ≤ 2 ^ 51) :
    b.getReciprocalSpace [u, v] = .ok [.fin (turns u), .fin (slant u v)] := by
  obtain ⟨hd, hp⟩ := triangular_inverse hA hq hb
  have hpi' : (CxxFloat.pi : Num A) = .fin (rn Real.pi) := by
    show Num.round A A.pi = _
    rw [hpi]
    refine round_fin hA ?_
    rw [abs_of_pos Real.pi_pos]
    refine Real.pi_le_four.trans ?_
    norm_num
  have hz : Num.round A 0 = .fin 0 := round_double hA double_zero (by simp)
  have ht : ∀ l : Int, |l| ≤ 2 ^ 51 → (CxxFloat.ofInt (l * 2) : Num A) * CxxFloat.pi = .fin (turns l) := fun l hl => by
    rw [Num.ofInt_eq, round_int hA (by rw [abs_mul]; norm_num; omega), hpi', Num.fin_mul]
    have e : ((l * 2 : Int) : ℝ) * rn Real.pi = 2 * (l : ℝ) * rn Real.pi := by push_cast; ring
    rw [e, round_fin hA ((kay_inner _ hl).2.1.trans (by norm_num))]
    rfl
  have hlong : ∀ l : Int, |l| ≤ 2 ^ 51 → lmul l 2 = .ok (l * 2) := fun l hl => long_ok (by rw [abs_le] at hl; comega)
  have hround : ∀ l : Int, |l| ≤ 2 ^ 51 → Num.round A (turns l) = .fin (turns l) := fun l hl =>
    round_double hA (rn_isDouble _) ((turns_close hl).2.1.trans (by norm_num))
  have hdbl : ∀ x : ℝ, |rn x| ≤ 2 ^ 60 → Num.round A (rn x) = .fin (rn x) := fun x hx =>
    round_double hA (rn_isDouble _) (hx.trans (by norm_num))
  have x2 : |turns u * recip1| ≤ 2 ^ 58 := (slant_term hu (n := -1) (by norm_num) (by norm_num)).2
  have y2 : |turns v * recip2| ≤ 2 ^ 58 := (slant_term hv (n := 2) (by norm_num) (by norm_num)).2
  obtain ⟨-, s1, -⟩ := slant_error hu hv
  have s2 : |slant u 0| ≤ 2 ^ 60 := (slant_error hu (v := 0) (by norm_num)).2.2
  have e2 : slant u 0 = rn (turns u * recip1) := by
    unfold slant
    have : turns 0 = 0 := by simp [turns, rn_zero]
    rw [this, zero_mul, rn_zero, add_zero, rn_double (rn_isDouble _)]
  rw [e2] at s2
  have c0 : subscript [u, v] 0 = .ok u := rfl
  have c1 : subscript [u, v] 1 = .ok v := rfl
  have p0 : ∀ {a b c d : Num A}, subscript [a, b, c, d] (uadd 0 (umul 0 2)) = .ok a := rfl
  have p1 : ∀ {a b c d : Num A}, subscript [a, b, c, d] (uadd 0 (umul 1 2)) = .ok c := rfl
  have p2 : ∀ {a b c d : Num A}, subscript [a, b, c, d] (uadd 1 (umul 0 2)) = .ok b := rfl
  have p3 : ∀ {a b c d : Num A}, subscript [a, b, c, d] (uadd 1 (umul 1 2)) = .ok d := rfl
  have m0 : (Num.fin (turns v) : Num A) * .fin 0 = .fin 0 := by rw [Num.fin_mul, mul_zero, hz]
  have m1 : (Num.fin (turns u) : Num A) * .fin 1 = .fin (turns u) := by rw [Num.fin_mul, mul_one, hround u hu]
  have m2 : (Num.fin (turns u) : Num A) * .fin recip1 = .fin (rn (turns u * recip1)) := by
    rw [Num.fin_mul, round_fin hA (x2.trans (by norm_num))]
  have m3 : (Num.fin (turns v) : Num A) * .fin recip2 = .fin (rn (turns v * recip2)) := by
    rw [Num.fin_mul, round_fin hA (y2.trans (by norm_num))]
  have a0 : (Num.fin 0 : Num A) + .fin (turns u) = .fin (turns u) := by rw [Num.fin_add, zero_add, hround u hu]
  have a1 : (Num.fin (turns u) : Num A) + .fin 0 = .fin (turns u) := by rw [Num.fin_add, add_zero, hround u hu]
  have a2 : (Num.fin 0 : Num A) + .fin (rn (turns u * recip1)) = .fin (rn (turns u * recip1)) := by
    rw [Num.fin_add, zero_add, hdbl _ s2]
  have a3 : (Num.fin (rn (turns u * recip1)) : Num A) + .fin (rn (turns v * recip2)) = .fin (slant u v) := by
    rw [Num.fin_add, round_fin hA (s1.trans (by norm_num))]; rfl
  unfold Bravais.getReciprocalSpace
  rw [hd, hp, if_pos (show [u, v].length = 2 from rfl)]
  simp only [mapRange, mapRangeFrom, accumulate, accumulateFrom, zero_add, c0, c1, p0, p1, p2, p3, Res.ok_bind, hlong u hu, hlong v hv,
    ht u hu, ht v hv, m0, m1, m2, m3, a0, a1, a2, a3, Num.zero_eq]

/-- The momentum of a site. -/
noncomputable def triKay (L M : Nat) (i : Nat) : List ℝ :=
  [kay (coord (label [L, M] i) 0) L, kaySlant (coord (label [L, M] i) 0) (coord (label [L, M] i) 1) M]

theorem momenta_tri (hA : A.IsBinary64) (hq : A.sqrt = Real.sqrt) (hpi : A.pi = Real.pi) (hs : Buildable [L, M])
    (hz : ∀ s ∈ [L, M], s ≤ 2 ^ 49) (hb : triangularLattice = .ok b) (hr : Regular b 2)
    {l : Lattice (Num A)} (hl : Lattice.new b [L, M] .closed = .ok l) :
    l.momenta = (List.range [L, M].prod).map (fun i => (triKay L M i).map .fin) := by
  have hm := (new_parts hl).2.2.2.2.2
  have ho : (Grid.new [L, M] .closed).hasOpenBoundaries = false := rfl
  unfold Lattice.computeMomenta at hm
  rw [ho, if_neg (by decide), numsites_eq hs.1, mapRange_ok (g := fun i => (triKay L M i).map .fin), Res.ok.injEq] at hm
  · exact hm.symm
  · intro i hi
    obtain ⟨v, h1, h2, h3⟩ := computeMomentum_eq hs hr .closed hi
    obtain ⟨a1, a2, a3⟩ := label_small hs hz (k := 0) hi (by simp)
    obtain ⟨b1, b2, b3⟩ := label_small hs hz (k := 1) hi (by simp)
    have hlab : label [L, M] i = [coord (label [L, M] i) 0, coord (label [L, M] i) 1] := rfl
    rw [hlab, getReciprocalSpace_tri hA hq hpi hb (a1.trans (by norm_num)) (b1.trans (by norm_num)), Res.ok.injEq] at h1
    have e0 : extent [L, M] 0 = (L : Int) := rfl
    have e1 : extent [L, M] 1 = (M : Int) := rfl
    rw [e0] at a2 a3
    rw [e1] at b2 b3
    have hn : ∀ n : Nat, 0 < (n : Int) → (n : Int) ≤ 2 ^ 52 → (CxxFloat.ofNat n : Num A) = .fin ((n : Int) : ℝ) := fun n h1 h2 => by
      have := round_int hA (n := (n : Int)) (by rw [abs_of_pos h1]; exact h2.trans (by norm_num))
      rw [← this, Num.ofNat_eq]
      norm_num
    have n0 : (((L : Int) : ℝ)) ≠ 0 := by exact_mod_cast a2.ne'
    have n1 : (((M : Int) : ℝ)) ≠ 0 := by exact_mod_cast b2.ne'
    rw [h3, ← h1]
    show mapRange 2 _ = _
    have s0 : ∀ {α : Type} {x y : α}, subscript [x, y] 0 = .ok x := rfl
    have s1 : ∀ {α : Type} {x y : α}, subscript [x, y] 1 = .ok y := rfl
    simp only [mapRange, mapRangeFrom, zero_add, s0, s1, Res.ok_bind, hn L a2 a3, hn M b2 b3]
    rw [Num.fin_div n0, Num.fin_div n1]
    have r0 := (kay_error (a1.trans (by norm_num)) a2 a3).2
    have r1 := (kaySlant_error (a1.trans (by norm_num)) (b1.trans (by norm_num)) b2 b3).2
    rw [show turns _ = rn (2 * _ * rn Real.pi) from rfl, round_fin hA (r0.trans (by norm_num)), round_fin hA (r1.trans (by norm_num))]
    rfl

theorem getMomentum_tri (hA : A.IsBinary64) (hq : A.sqrt = Real.sqrt) (hpi : A.pi = Real.pi) (hs : Buildable [L, M])
    (hz : ∀ s ∈ [L, M], s ≤ 2 ^ 49) (hb : triangularLattice = .ok b) (hr : Regular b 2)
    {l : Lattice (Num A)} (hl : Lattice.new b [L, M] .closed = .ok l) {i : Nat} (hi : i < [L, M].prod) :
    l.getMomentum i = .ok ((triKay L M i).map .fin) := by
  unfold Lattice.getMomentum
  rw [indexIsValid_eq hs hl hi, if_pos rfl, momenta_tri hA hq hpi hs hz hb hr hl]
  refine subscript_ok ?_
  rw [List.getElem?_map, List.getElem?_range hi]; rfl

theorem tri_regular (hb : triangularLattice = .ok b) : Regular b 2 := by
  obtain ⟨b', h, hr⟩ := triangular_regular (F := Num A)
  rw [hb, Res.ok.injEq] at h
  exact h ▸ hr

theorem crd_of (hs : Buildable [L, M]) {l : Lattice (Num A)} (hl : Lattice.new b [L, M] .closed = .ok l) {i : Nat}
    (hi : i < [L, M].prod) {c : List Int} (hc : l.grid.getCoordinates i = .ok c) : c = crd [L, M] i := by
  rw [(new_parts hl).1, getCoordinates_eq hs.1 (buildable_fits hs) .closed hi, Res.ok.injEq] at hc
  exact hc.symm

/-- What C153 needs to know about a site. -/
theorem triKay_at (hs : Buildable [L, M]) {i : Nat} (hi : i < [L, M].prod) {N : Int} (hL : (L : Int) ≤ 2 * N) (hM : (M : Int) ≤ 2 * N) :
    triKay L M i = [kay (coord (crd [L, M] i) 0 - L / 2) L, kaySlant (coord (crd [L, M] i) 0 - L / 2) (coord (crd [L, M] i) 1 - M / 2) M] ∧
    |coord (crd [L, M] i) 0 - (L : Int) / 2| ≤ N ∧ |coord (crd [L, M] i) 1 - (M : Int) / 2| ≤ N ∧ (0 : Int) < L ∧ (0 : Int) < M := by
  have h0 := (onGrid_iff.1 (crd_onGrid hs.1.1 hi)).2 0 (by simp)
  have h1 := (onGrid_iff.1 (crd_onGrid hs.1.1 hi)).2 1 (by simp)
  have e0 : extent [L, M] 0 = (L : Int) := rfl
  have e1 : extent [L, M] 1 = (M : Int) := rfl
  rw [e0] at h0
  rw [e1] at h1
  refine ⟨?_, by rw [abs_le]; omega, by rw [abs_le]; omega, by omega, by omega⟩
  unfold triKay
  rw [coord_label (by simp), coord_label (by simp), e0, e1]

/-- C153.  In double precision the momentum of a site of a closed triangular lattice is a pair of numbers: with a and b the
coordinates of the site minus half of the extents L and M, the first is 2πa/L up to a relative error of 2⁻⁵¹, and the second is
2π(2b − a)/(√3 M) up to an error of 2⁻⁴⁹ relative to the sum of the absolute values of its terms. -/
theorem C153_accurate (hA : A.IsBinary64) (hq : A.sqrt = Real.sqrt) (hpi : A.pi = Real.pi) (hs : Buildable [L, M])
    (hL : L ≤ 2 ^ 49) (hM : M ≤ 2 ^ 49) (hb : triangularLattice = .ok b) (l : Lattice (Num A))
    (hl : Lattice.new b [L, M] .closed = .ok l) (i : Nat) (hi : i < L * M) (u v : Int) (hc : l.grid.getCoordinates i = .ok [u, v]) :
    ∃ x y : ℝ, l.getMomentum i = .ok [.fin x, .fin y] ∧
      |x - 2 * Real.pi * (u - L / 2 : Int) / L| ≤ |2 * Real.pi * (u - L / 2 : Int) / L| / 2 ^ 51 ∧
      |y - 2 * Real.pi * (2 * (v - M / 2 : Int) - (u - L / 2 : Int)) / (√3 * M)| ≤
        2 * Real.pi * (|((u - L / 2 : Int) : ℝ)| + 2 * |((v - M / 2 : Int) : ℝ)|) / (√3 * M) / 2 ^ 49 := by
  have hi' : i < [L, M].prod := by simpa using hi
  have hz : ∀ s ∈ [L, M], s ≤ 2 ^ 49 := by simp; omega
  have hg := getMomentum_tri hA hq hpi hs hz hb (tri_regular hb) hl hi'
  have e := crd_of hs hl hi' hc
  obtain ⟨h1, h2, h3, h4, h5⟩ := triKay_at hs hi' (N := 2 ^ 48) (by omega) (by omega)
  rw [← e] at h1 h2 h3
  rw [h1] at hg
  have c0 : coord [u, v] 0 = u := rfl
  have c1 : coord [u, v] 1 = v := rfl
  rw [c0] at h2
  rw [c1] at h3
  refine ⟨_, _, hg, ?_, ?_⟩
  · have := (kay_error (l := u - L / 2) (s := L) (h2.trans (by norm_num)) h4 (by omega)).1
    push_cast at this ⊢
    exact this
  · have := (kaySlant_error (u := u - L / 2) (v := v - M / 2) (s := M) (h2.trans (by norm_num)) (h3.trans (by norm_num)) h5 (by omega)).1
    push_cast at this ⊢
    exact this

theorem kaySlant_lt {u v v' s : Int} (hu : |u| ≤ 2 ^ 45) (hv : |v| ≤ 2 ^ 45) (hv' : |v'| ≤ 2 ^ 45) (hs : 0 < s) (hs' : s ≤ 2 ^ 52)
    (h : v < v') : kaySlant u v s < kaySlant u v' s := by
  have hs0 : (0 : ℝ) < s := by exact_mod_cast hs
  have h1 := (kaySlant_error (hu.trans (by norm_num)) (hv.trans (by norm_num)) hs hs').1
  have h2 := (kaySlant_error (hu.trans (by norm_num)) (hv'.trans (by norm_num)) hs hs').1
  have hur : |(u : ℝ)| ≤ 2 ^ 45 := by exact_mod_cast hu
  have bnd : ∀ m : Int, |m| ≤ 2 ^ 45 →
      2 * Real.pi * (|(u : ℝ)| + 2 * |(m : ℝ)|) / (√3 * s) / 2 ^ 49 ≤ 2 * Real.pi / (√3 * s) * (1 / 4) := by
    intro m hm
    have : |(m : ℝ)| ≤ 2 ^ 45 := by exact_mod_cast hm
    have hp : 0 ≤ 2 * Real.pi / (√3 * s) := by positivity
    rw [show 2 * Real.pi * (|(u : ℝ)| + 2 * |(m : ℝ)|) / (√3 * s) / 2 ^ 49 = 2 * Real.pi / (√3 * s) * ((|(u : ℝ)| + 2 * |(m : ℝ)|) / 2 ^ 49) by ring]
    refine mul_le_mul_of_nonneg_left ?_ hp
    rw [div_le_iff₀ (by norm_num)]
    norm_num at this hur ⊢
    linarith
  have hd : 2 * Real.pi * (2 * v - u) / (√3 * s) + 2 * Real.pi / (√3 * s) * 2 ≤ 2 * Real.pi * (2 * v' - u) / (√3 * s) := by
    have : (v : ℝ) + 1 ≤ v' := by exact_mod_cast h
    calc 2 * Real.pi * (2 * v - u) / (√3 * s) + 2 * Real.pi / (√3 * s) * 2 = 2 * Real.pi / (√3 * s) * (2 * (v + 1) - u) := by ring
      _ ≤ 2 * Real.pi / (√3 * s) * (2 * v' - u) := mul_le_mul_of_nonneg_left (by linarith) (by positivity)
      _ = 2 * Real.pi * (2 * v' - u) / (√3 * s) := by ring
  have hp : 0 < 2 * Real.pi / (√3 * s) := by positivity
  have c1 := (abs_le.1 (h1.trans (bnd v hv))).2
  have c2 := (abs_le.1 (h2.trans (bnd v' hv'))).1
  linarith

/-- C153.  Different sites of a closed triangular lattice have different momenta, bit for bit. -/
theorem C153_injective (hA : A.IsBinary64) (hq : A.sqrt = Real.sqrt) (hpi : A.pi = Real.pi) (hs : Buildable [L, M])
    (hL : L ≤ 2 ^ 46) (hM : M ≤ 2 ^ 46) (hb : triangularLattice = .ok b) (l : Lattice (Num A))
    (hl : Lattice.new b [L, M] .closed = .ok l) (i i' : Nat) (hi : i < L * M) (hi' : i' < L * M)
    (h : l.getMomentum i = l.getMomentum i') : i = i' := by
  have hz : ∀ s ∈ [L, M], s ≤ 2 ^ 49 := by simp; omega
  have ii : i < [L, M].prod := by simpa using hi
  have ii' : i' < [L, M].prod := by simpa using hi'
  rw [getMomentum_tri hA hq hpi hs hz hb (tri_regular hb) hl ii, getMomentum_tri hA hq hpi hs hz hb (tri_regular hb) hl ii', Res.ok.injEq] at h
  obtain ⟨h1, h2, h3, h4, h5⟩ := triKay_at hs ii (N := 2 ^ 45) (by omega) (by omega)
  obtain ⟨h1', h2', h3', -, -⟩ := triKay_at hs ii' (N := 2 ^ 45) (by omega) (by omega)
  rw [h1, h1'] at h
  simp only [List.map_cons, List.map_nil, List.cons.injEq, Num.fin.injEq, and_true] at h
  obtain ⟨ha, hb'⟩ := h
  have ea := (kay_eq (h2.trans (by norm_num)) (h2'.trans (by norm_num)) h4 (by omega)).1 ha
  rw [← ea] at hb'
  have eb : coord (crd [L, M] i) 1 = coord (crd [L, M] i') 1 := by
    rcases lt_trichotomy (coord (crd [L, M] i) 1) (coord (crd [L, M] i') 1) with h | h | h
    · exact absurd hb' (kaySlant_lt h2 h3 h3' h5 (by omega) (by omega)).ne
    · exact h
    · exact absurd hb' (kaySlant_lt h2 h3' h3 h5 (by omega) (by omega)).ne'
  have hl1 := onGrid_length (crd_onGrid hs.1.1 ii)
  have hl2 := onGrid_length (crd_onGrid hs.1.1 ii')
  have e : crd [L, M] i = crd [L, M] i' := by
    rw [pair_eq hl1, pair_eq hl2, eb, show coord (crd [L, M] i) 0 = coord (crd [L, M] i') 0 by omega]
  rw [← idx_crd hs.1.1 ii, ← idx_crd hs.1.1 ii', e]

theorem neg_div_num (hA : A.IsBinary64) (x : Num A) {y : ℝ} (hy : y ≠ 0) : -x / .fin y = -(x / .fin y) := by
  cases x with
  | nan => rfl
  | inf n => show Num.inf ((!n) != decide (y < 0)) = Num.inf (!(n != decide (y < 0))); cases n <;> cases decide (y < 0) <;> rfl
  | fin x =>
    show (.fin (-x) : Num A) / .fin y = _
    rw [Num.fin_div hy, Num.fin_div hy, neg_div, round_neg hA]

/-- The momenta of sites with opposite labels. -/
theorem momentum_neg {size : List Nat} (hA : A.IsBinary64) (hs : Buildable size) (hr : Regular b size.length)
    {l : Lattice (Num A)} (hl : Lattice.new b size .closed = .ok l) {i i' : Nat} (hi : i < size.prod) (hi' : i' < size.prod)
    (h : ∀ j, j < size.length → coord (crd size i) j + coord (crd size i') j = 2 * (extent size j / 2)) :
    ∃ k, l.momenta[i]? = some k ∧ l.momenta[i']? = some (k.map (fun x => -x)) := by
  have hm := (new_parts hl).2.2.2.2.2
  have ho : (Grid.new size .closed).hasOpenBoundaries = false := rfl
  unfold Lattice.computeMomenta at hm
  rw [ho, if_neg (by decide), numsites_eq hs.1] at hm
  obtain ⟨-, hm⟩ := mapRange_eq_ok hm
  obtain ⟨k, hk, hk2⟩ := hm i hi
  obtain ⟨k', hk', hk2'⟩ := hm i' hi'
  obtain ⟨v, h1, h2, h3⟩ := computeMomentum_eq hs hr .closed hi
  obtain ⟨v', h1', h2', h3'⟩ := computeMomentum_eq hs hr .closed hi'
  have hlab : label size i' = (label size i).map (fun x => -x) := by
    refine List.ext_getElem (by simp [label]) (fun j hj1 hj2 => ?_)
    have hj : j < size.length := by simpa [label] using hj1
    have h4 := coord_label (i := i) hj
    have h5 := coord_label (i := i') hj
    rw [coord_eq (by simpa [label] using hj)] at h4 h5
    have := h j hj
    rw [List.getElem_map, h4, h5]
    omega
  have hneg := (C140_opposite (b := b) hA (label size i) (fun z hz => by
    obtain ⟨j, hj, rfl⟩ := List.getElem_of_mem hz
    have hj : j < size.length := by simpa [label] using hj
    have h4 := coord_label (i := i) hj
    rw [coord_eq (by simpa [label] using hj)] at h4
    have h6 := (onGrid_iff.1 (crd_onGrid hs.1.1 hi)).2 j hj
    have h7 := extent_le hs hj
    rw [h4]
    omega) v).2 h1
  rw [← hlab, h1', Res.ok.injEq] at hneg
  subst hneg
  refine ⟨k, hk, ?_⟩
  rw [hk']
  congr 1
  rw [h3] at hk2
  rw [h3'] at hk2'
  obtain ⟨l1, g1⟩ := mapRange_eq_ok hk2
  obtain ⟨l2, g2⟩ := mapRange_eq_ok hk2'
  refine List.ext_getElem (by simp [l1, l2]) (fun j hj1 hj2 => ?_)
  have hj : j < size.length := l2 ▸ hj1
  obtain ⟨z, e1, e2⟩ := g1 j hj
  obtain ⟨z', e1', e2'⟩ := g2 j hj
  have hjv : j < v.length := by omega
  rw [subscript_isOk hj, Res.ok_bind, subscript_isOk hjv, Res.ok_bind, Res.ok.injEq] at e2
  rw [subscript_isOk hj, Res.ok_bind, subscript_isOk (by simpa using hjv), Res.ok_bind, Res.ok.injEq, List.getElem_map] at e2'
  have hx : ∃ y : ℝ, y ≠ 0 ∧ (CxxFloat.ofNat size[j] : Num A) = .fin y := by
    have h7 := extent_le hs hj
    rw [extent_eq hj] at h7
    have h8 : 0 < size[j] := hs.1.1 _ (List.getElem_mem hj)
    have hb1 : (1 : ℝ) ≤ (size[j] : ℝ) := by exact_mod_cast h8
    refine ⟨rn (size[j] : ℝ), ?_, ?_⟩
    · have d1 : Double (1 : ℝ) := ⟨1, 0, by norm_num, by norm_num, by simp⟩
      have := rn_mono hb1
      rw [rn_double d1] at this
      linarith
    · rw [Num.ofNat_eq, round_fin hA]
      rw [abs_of_pos (by linarith)]
      have : (size[j] : ℝ) ≤ 2 ^ 63 := by exact_mod_cast (by omega : size[j] ≤ 2 ^ 63)
      exact this.trans (by norm_num)
  obtain ⟨y, hy, hy2⟩ := hx
  rw [hy2] at e2 e2'
  rw [neg_div_num hA _ hy, e2] at e2'
  rw [List.getElem?_eq_getElem hj1] at e1'
  rw [List.getElem?_eq_getElem (by omega), Option.some.injEq] at e1
  rw [List.getElem_map, e1, e2', ← Option.some.inj e1']

/-- C153.  On any Bravais lattice, sites with opposite labels have exactly opposite momenta. -/
theorem C153_opposite {size : List Nat} (hA : A.IsBinary64) (hs : Buildable size) (hr : Regular b size.length)
    (l : Lattice (Num A)) (hl : Lattice.new b size .closed = .ok l) (i i' : Nat) (hi : i < size.prod) (hi' : i' < size.prod)
    (c c' : List Int) (hc : l.grid.getCoordinates i = .ok c) (hc' : l.grid.getCoordinates i' = .ok c')
    (h : ∀ j, j < size.length → coord c j + coord c' j = 2 * (extent size j / 2)) :
    ∃ k, l.getMomentum i = .ok k ∧ l.getMomentum i' = .ok (k.map (fun x => -x)) := by
  rw [(new_parts hl).1, getCoordinates_eq hs.1 (buildable_fits hs) .closed hi, Res.ok.injEq] at hc
  rw [(new_parts hl).1, getCoordinates_eq hs.1 (buildable_fits hs) .closed hi', Res.ok.injEq] at hc'
  subst hc hc'
  obtain ⟨k, h1, h2⟩ := momentum_neg hA hs hr hl hi hi' h
  refine ⟨k, ?_, ?_⟩
  · unfold Lattice.getMomentum
    rw [indexIsValid_eq hs hl hi, if_pos rfl, subscript_ok h1]
  · unfold Lattice.getMomentum
    rw [indexIsValid_eq hs hl hi', if_pos rfl, subscript_ok h2]

/-- The hypotheses of C153 can be met. -/
example : ∃ b : Bravais (Num doubleArith), triangularLattice = .ok b ∧ Regular b [1000, 2000].length ∧ Buildable [1000, 2000] ∧
    doubleArith.pi = Real.pi ∧ doubleArith.sqrt = Real.sqrt ∧ doubleArith.IsBinary64 ∧
    ∃ l, Lattice.new b [1000, 2000] .closed = .ok l := by
  obtain ⟨b, h1, h2⟩ := triangular_regular (F := Num doubleArith)
  have hs : Buildable [1000, 2000] := ⟨⟨by decide, by norm_num⟩, by norm_num⟩
  obtain ⟨l, hl, -⟩ := C73_defined hs (b := b) h2 .closed (fun _ => by decide)
  exact ⟨b, h1, h2, hs, rfl, rfl, doubleArith_isBinary64, l, hl⟩

end
end Bwsl
