import Verif.Props.Momenta
import Verif.Props.DoubleLattice
import Verif.Props.LinSpaceDouble
import Verif.Lemmas.DoubleTriangular
import Mathlib.Analysis.Real.Pi.Bounds

/-! Property C130: momenta in double precision. -/

namespace Bwsl
open Spec

section
variable {A : Arith ℝ} {b : Bravais (Num A)} {size : List Nat} {g : Nat} {P : List ℝ} {N : List Int}

/-- A sum with one term that is not zero. -/
theorem accumulate_single (hA : A.IsBinary64) {f : Nat → Res (Num A)} {t : ℝ} {n i : Nat} (ht : Num.round A t = .fin t) (hi : i < n)
    (h : ∀ j, j < n → f j = .ok (.fin (if j = i then t else 0))) : accumulate n f = .ok (.fin t) := by
  have h0 : Num.round A 0 = .fin 0 := by
    have := round_int hA (n := 0) (by norm_num)
    simpa using this
  have key : ∀ m k a, k + m = n → a = (if i < k then t else 0) → accumulateFrom f (.fin a) k m = .ok (.fin t) := by
    intro m
    induction m with
    | zero =>
      intro k a hk ha
      rw [accumulateFrom, ha, if_pos (by omega)]
    | succ m ih =>
      intro k a hk ha
      rw [accumulateFrom, h k (by omega), Res.ok_bind, Num.fin_add]
      have e : a + (if k = i then t else 0) = if i < k + 1 then t else 0 := by
        rw [ha]
        by_cases h1 : i < k
        · rw [if_pos h1, if_neg (by omega), if_pos (by omega), add_zero]
        · rw [if_neg h1, zero_add]
          by_cases h2 : k = i
          · rw [if_pos h2, if_pos (by omega)]
          · rw [if_neg h2, if_neg (by omega)]
      have hr : Num.round A (a + (if k = i then t else 0)) = .fin (a + (if k = i then t else 0)) := by
        rw [e]; split
        · exact ht
        · exact h0
      rw [hr]
      exact ih (k + 1) _ (by omega) e
  unfold accumulate
  rw [Num.zero_eq]
  exact key n 0 0 (by omega) (by simp)

/-- A component of a momentum. -/
noncomputable def kay (l : Int) (s : Int) : ℝ := rn (rn (2 * l * rn Real.pi) / s)

theorem pi_normal : (2 : ℝ) ^ (-1022 : Int) ≤ |Real.pi| := by
  rw [abs_of_pos Real.pi_pos]
  have a : (2 : ℝ) ^ (-1022 : Int) ≤ 2 ^ (0 : Int) := zpow_le_zpow_right₀ (by norm_num) (by norm_num)
  have := Real.pi_gt_three
  rw [zpow_zero] at a
  linarith

theorem rn_pi : |Real.pi - rn Real.pi| ≤ Real.pi / 2 ^ 53 ∧ 3 ≤ rn Real.pi ∧ rn Real.pi ≤ 4 := by
  have h := rn_rel_normal pi_normal
  rw [abs_of_pos Real.pi_pos] at h
  refine ⟨h, ?_, ?_⟩
  · have := rn_mono Real.pi_gt_three.le
    rwa [rn_double (by have := double_int (K := ℝ) (n := 3) (by norm_num); exact_mod_cast this)] at this
  · have := rn_mono Real.pi_le_four
    rwa [rn_double (x := (4 : ℝ)) (by have := double_int (K := ℝ) (n := 4) (by norm_num); exact_mod_cast this)] at this

theorem two_normal : (2 : ℝ) ^ (-1022 : Int) ≤ 2 ^ (-60 : Int) := zpow_le_zpow_right₀ (by norm_num) (by norm_num)

theorem kay_inner (l : Int) (hl : |l| ≤ 2 ^ 51) :
    |2 * l * rn Real.pi - rn (2 * l * rn Real.pi)| ≤ |2 * l * rn Real.pi| / 2 ^ 53 ∧ |2 * l * rn Real.pi| ≤ 2 ^ 54 ∧
    |rn (2 * l * rn Real.pi)| ≤ 2 ^ 55 ∧ (l = 0 ∨ 1 ≤ |rn (2 * l * rn Real.pi)|) := by
  obtain ⟨-, p1, p2⟩ := rn_pi
  have hlr : |(l : ℝ)| ≤ 2 ^ 51 := by exact_mod_cast hl
  have hb : |2 * l * rn Real.pi| ≤ 2 ^ 54 := by
    rw [abs_mul, abs_mul, abs_of_pos (by linarith : (0 : ℝ) < rn Real.pi), abs_two]
    calc 2 * |(l : ℝ)| * rn Real.pi ≤ 2 * 2 ^ 51 * 4 := by gcongr
      _ = 2 ^ 54 := by norm_num
  have hz : l = 0 ∨ 6 ≤ |2 * l * rn Real.pi| := by
    by_cases h : l = 0
    · exact .inl h
    · right
      have h1 : (1 : ℝ) ≤ |(l : ℝ)| := by exact_mod_cast Int.one_le_abs h
      rw [abs_mul, abs_mul, abs_of_pos (by linarith : (0 : ℝ) < rn Real.pi), abs_two]
      nlinarith
  have hr := rn_rel' (x := 2 * l * rn Real.pi) (by
    rcases hz with rfl | h
    · left; simp
    · right
      have : (2 : ℝ) ^ (-60 : Int) ≤ 6 := by norm_num
      linarith [two_normal])
  refine ⟨hr, hb, ?_, ?_⟩
  · have h1 : |rn (2 * l * rn Real.pi)| ≤ |2 * l * rn Real.pi| + |2 * l * rn Real.pi - rn (2 * l * rn Real.pi)| := by
      have := abs_sub_abs_le_abs_sub (rn (2 * l * rn Real.pi)) (2 * l * rn Real.pi)
      rw [abs_sub_comm (rn (2 * l * rn Real.pi))] at this
      linarith
    norm_num at hr hb h1 ⊢
    linarith
  · rcases hz with h | h
    · exact .inl h
    · right
      have h1 : |2 * l * rn Real.pi| - |rn (2 * l * rn Real.pi)| ≤ |2 * l * rn Real.pi - rn (2 * l * rn Real.pi)| := abs_sub_abs_le_abs_sub _ _
      have h5 : |2 * (l : ℝ) * rn Real.pi| / 2 ^ 53 ≤ |2 * (l : ℝ) * rn Real.pi| / 2 := by
        gcongr; norm_num
      linarith

/-- The error of a component of a momentum. -/
theorem kay_error {l s : Int} (hl : |l| ≤ 2 ^ 51) (hs : 0 < s) (hs' : s ≤ 2 ^ 52) :
    |kay l s - 2 * Real.pi * l / s| ≤ |2 * Real.pi * l / s| / 2 ^ 51 ∧ |rn (2 * l * rn Real.pi) / s| ≤ 2 ^ 55 := by
  obtain ⟨h1, h2, h3, h4⟩ := kay_inner l hl
  obtain ⟨p0, p1, p2⟩ := rn_pi
  have hsr : (1 : ℝ) ≤ s := by exact_mod_cast hs
  have hsr' : (s : ℝ) ≤ 2 ^ 52 := by exact_mod_cast hs'
  have hs0 : (0 : ℝ) < s := by linarith
  have hfit : |rn (2 * l * rn Real.pi) / s| ≤ 2 ^ 55 := by
    rw [abs_div, abs_of_pos hs0]
    exact (div_le_self (abs_nonneg _) hsr).trans h3
  refine ⟨?_, hfit⟩
  have hr := rn_rel' (x := rn (2 * l * rn Real.pi) / s) (by
    rcases h4 with rfl | h
    · left; simp [rn_zero]
    · right
      refine two_normal.trans ?_
      rw [abs_div, abs_of_pos hs0, le_div_iff₀ hs0]
      have : (2 : ℝ) ^ (-60 : Int) = 1 / 2 ^ 60 := by norm_num
      rw [this]
      calc 1 / 2 ^ 60 * (s : ℝ) ≤ 1 / 2 ^ 60 * 2 ^ 52 := by gcongr
        _ ≤ 1 := by norm_num
        _ ≤ _ := h)
  unfold kay
  -- everything in units of the exact value divided by π
  set q : ℝ := |2 * (l : ℝ) / s| with hq
  have hq0 : 0 ≤ q := abs_nonneg _
  set p := rn Real.pi with hp
  set t := rn (2 * l * p) with ht
  set v := rn (t / s) with hv
  have e1 : |2 * Real.pi * l / s| = q * Real.pi := by
    rw [hq, show 2 * Real.pi * (l : ℝ) / s = 2 * l / s * Real.pi by ring, abs_mul, abs_of_pos Real.pi_pos]
  have e2 : |2 * (l : ℝ) * p| / s = q * p := by
    rw [hq, abs_mul, abs_div, abs_of_pos hs0, abs_of_pos (by linarith : 0 < p)]; ring
  have a1 : |2 * (l : ℝ) * p / s - t / s| ≤ q * p / 2 ^ 53 := by
    rw [← sub_div, abs_div, abs_of_pos hs0, ← e2, div_right_comm]
    exact div_le_div_of_nonneg_right h1 hs0.le
  have a2 : |2 * Real.pi * l / s - 2 * (l : ℝ) * p / s| ≤ q * (Real.pi / 2 ^ 53) := by
    rw [show 2 * Real.pi * l / s - 2 * (l : ℝ) * p / s = 2 * l / s * (Real.pi - p) by ring, abs_mul]
    exact mul_le_mul_of_nonneg_left p0 hq0
  have a3 : |t / s| ≤ q * p + q * p / 2 ^ 53 := by
    have := abs_sub_abs_le_abs_sub (t / s) (2 * (l : ℝ) * p / s)
    rw [abs_sub_comm (t / (s : ℝ))] at this
    have e3 : |2 * (l : ℝ) * p / s| = q * p := by rw [abs_div, abs_of_pos hs0, e2]
    linarith
  have a4 : p ≤ Real.pi + Real.pi / 2 ^ 53 := by linarith [(abs_le.1 p0).1]
  have a5 : q * p ≤ q * Real.pi + q * Real.pi / 2 ^ 53 := by
    have := mul_le_mul_of_nonneg_left a4 hq0
    rw [mul_add] at this
    linarith [mul_div_assoc q Real.pi (2 ^ 53 : ℝ)]
  have htot : |v - 2 * Real.pi * l / s| ≤ |t / s - v| + |2 * (l : ℝ) * p / s - t / s| + |2 * Real.pi * l / s - 2 * (l : ℝ) * p / s| := by
    rw [show v - 2 * Real.pi * l / s = -((t / s - v) + (2 * (l : ℝ) * p / s - t / s) + (2 * Real.pi * l / s - 2 * (l : ℝ) * p / s)) by ring, abs_neg]
    exact abs_add_three _ _ _
  rw [e1]
  have e4 : q * (Real.pi / 2 ^ 53) = q * Real.pi / 2 ^ 53 := by ring
  rw [e4] at a2
  have hy : 0 ≤ q * Real.pi := by positivity
  generalize q * Real.pi = y at *
  generalize q * p = z at *
  norm_num at a1 a2 a3 a5 hr htot ⊢
  linarith

theorem kay_neg (l s : Int) : kay (-l) s = -kay l s := by
  unfold kay
  rw [show (2 : ℝ) * ((-l : Int) : ℝ) * rn Real.pi = -(2 * l * rn Real.pi) by push_cast; ring, rn_neg, neg_div, rn_neg]

theorem kay_lt {l l' s : Int} (hl : |l| ≤ 2 ^ 48) (hl' : |l'| ≤ 2 ^ 48) (hs : 0 < s) (hs' : s ≤ 2 ^ 52) (h : l < l') : kay l s < kay l' s := by
  have hs0 : (0 : ℝ) < s := by exact_mod_cast hs
  have h1 := (kay_error (hl.trans (by norm_num)) hs hs').1
  have h2 := (kay_error (hl'.trans (by norm_num)) hs hs').1
  have bnd : ∀ m : Int, |m| ≤ 2 ^ 48 → |2 * Real.pi * m / s| / 2 ^ 51 ≤ 2 * Real.pi / s * (1 / 8) := by
    intro m hm
    have : |(m : ℝ)| ≤ 2 ^ 48 := by exact_mod_cast hm
    rw [show 2 * Real.pi * (m : ℝ) / s = 2 * Real.pi / s * m by ring, abs_mul, abs_of_pos (by positivity : (0 : ℝ) < 2 * Real.pi / s), mul_div_assoc]
    refine mul_le_mul_of_nonneg_left ?_ (by positivity)
    rw [div_le_iff₀ (by norm_num)]
    norm_num at this ⊢
    linarith
  have b1 := bnd l hl
  have b2 := bnd l' hl'
  have hd : 2 * Real.pi * l / s + 2 * Real.pi / s ≤ 2 * Real.pi * l' / s := by
    have : (l : ℝ) + 1 ≤ l' := by exact_mod_cast h
    calc 2 * Real.pi * l / s + 2 * Real.pi / s = 2 * Real.pi / s * (l + 1) := by ring
      _ ≤ 2 * Real.pi / s * l' := mul_le_mul_of_nonneg_left this (by positivity)
      _ = 2 * Real.pi * l' / s := by ring
  have hp : 0 < 2 * Real.pi / s := by positivity
  have c1 := (abs_le.1 (h1.trans b1)).2
  have c2 := (abs_le.1 (h2.trans b2)).1
  linarith

theorem kay_eq {l l' s : Int} (hl : |l| ≤ 2 ^ 48) (hl' : |l'| ≤ 2 ^ 48) (hs : 0 < s) (hs' : s ≤ 2 ^ 52) :
    kay l s = kay l' s ↔ l = l' := by
  refine ⟨fun h => ?_, fun h => by rw [h]⟩
  rcases lt_trichotomy l l' with h1 | h1 | h1
  · exact absurd h (kay_lt hl hl' hs hs' h1).ne
  · exact h1
  · exact absurd h (kay_lt hl' hl hs hs' h1).ne'

theorem unit_entry {d i j : Nat} (hi : i < d) (hj : j < d) : (unit d).getD (i + j * d) 0 = if j = i then 1 else 0 := by
  have hlt := offset_lt hi hj
  have hm : (i + j * d) % (d + 1) = 0 ↔ j = i := by
    have e : (i + j * d) + j = i + j * (d + 1) := by ring
    constructor
    · intro h
      obtain ⟨q, hq⟩ := Nat.dvd_of_mod_eq_zero h
      have h3 : ((i + j * d) + j) % (d + 1) = j := by
        rw [hq, Nat.mul_add_mod, Nat.mod_eq_of_lt (by omega)]
      rw [e, Nat.add_mul_mod_self_right, Nat.mod_eq_of_lt (by omega)] at h3
      exact h3.symm
    · rintro rfl
      have : j + j * d = j * (d + 1) := by ring
      rw [this, Nat.mul_mod_left]
  unfold unit
  simp [List.getD_eq_getElem?_getD, hlt, hm]

/-- `GetReciprocalSpace` with orthonormal vectors. -/
theorem getReciprocalSpace_double (hA : A.IsBinary64) (hpi : A.pi = Real.pi) {d : Nat} (hb : Holds b d g P (unit d) N) {m : List Int}
    (hm : m.length = d) (h2 : ∀ x ∈ m, InLong (x * 2)) (h3 : ∀ j, j < d → |coord m j| ≤ 2 ^ 51) :
    b.getReciprocalSpace m = .ok ((List.range d).map (fun k => .fin (rn (2 * (coord m k : ℝ) * rn Real.pi)))) := by
  obtain ⟨rfl, hs, hP, hQ, -, -⟩ := hb
  unfold Bravais.getReciprocalSpace
  simp only
  rw [if_pos hm]
  refine mapRange_ok (fun i hi => ?_)
  have hround : ∀ j, j < d → Num.round A (rn (2 * (coord m j : ℝ) * rn Real.pi)) = .fin (rn (2 * (coord m j : ℝ) * rn Real.pi)) := by
    intro j hj
    refine round_double hA (rn_isDouble _) ((kay_inner _ (h3 j hj)).2.2.1.trans ?_)
    norm_num
  refine accumulate_single hA (i := i) (hround i hi) hi (fun j hj => ?_)
  have hc : InLong (coord m j * 2) := by rw [coord_eq (by omega)]; exact h2 _ (List.getElem_mem _)
  rw [subscript_getD (by omega) 0, offset_eq hs hi hj, subscript_fin (by rw [hQ]; exact offset_lt hi hj)]
  have he : (unit d).getD (i + j * d) 0 = if j = i then 1 else 0 := unit_entry hi hj
  have hp : (CxxFloat.pi : Num A) = .fin (rn Real.pi) := by
    show Num.round A A.pi = _
    rw [hpi]
    refine round_fin hA ?_
    rw [abs_of_pos Real.pi_pos]
    refine Real.pi_le_four.trans ?_
    norm_num
  simp only [Res.ok_bind, lmul, show m.getD j 0 = coord m j from rfl, long_ok hc, Num.ofInt_eq, hp, he]
  rw [round_int hA (by have := h3 j hj; rw [abs_mul]; norm_num; omega), Num.fin_mul]
  have e : ((coord m j * 2 : Int) : ℝ) * rn Real.pi = 2 * (coord m j : ℝ) * rn Real.pi := by push_cast; ring
  rw [e, round_fin hA ((kay_inner _ (h3 j hj)).2.1.trans (by norm_num)), Num.fin_mul]
  by_cases hji : j = i
  · rw [if_pos hji, if_pos hji, mul_one, hround j hj, hji]
  · rw [if_neg hji, if_neg hji, mul_zero]
    have := round_int hA (n := 0) (by norm_num)
    rw [Int.cast_zero] at this
    rw [this]

theorem label_small (hs : Buildable size) (hz : ∀ s ∈ size, s ≤ 2 ^ 49) {i k : Nat} (hi : i < size.prod) (hk : k < size.length) :
    |coord (label size i) k| ≤ 2 ^ 48 ∧ 0 < extent size k ∧ extent size k ≤ 2 ^ 52 := by
  have h1 := (onGrid_iff.1 (crd_onGrid hs.1.1 hi)).2 k hk
  have h2 : extent size k ≤ 2 ^ 49 := by
    rw [extent_eq hk]
    exact_mod_cast hz _ (List.getElem_mem hk)
  rw [coord_label hk, abs_le]
  omega

theorem momenta_double (hA : A.IsBinary64) (hpi : A.pi = Real.pi) (hs : Buildable size) (hz : ∀ s ∈ size, s ≤ 2 ^ 49)
    (hb : Holds b size.length g P (unit size.length) N) (hr : Regular b size.length)
    {l : Lattice (Num A)} (hl : Lattice.new b size .closed = .ok l) :
    l.momenta = (List.range size.prod).map (fun i => (List.range size.length).map
      (fun k => .fin (kay (coord (label size i) k) (extent size k)))) := by
  have hm := (new_parts hl).2.2.2.2.2
  have ho : (Grid.new size .closed).hasOpenBoundaries = false := rfl
  unfold Lattice.computeMomenta at hm
  rw [ho, if_neg (by decide), numsites_eq hs.1, mapRange_ok (g := fun i => (List.range size.length).map
      (fun k => .fin (kay (coord (label size i) k) (extent size k)))), Res.ok.injEq] at hm
  · exact hm.symm
  · intro i hi
    obtain ⟨v, h1, h2, h3⟩ := computeMomentum_eq hs hr .closed hi
    have h4 := fun k hk => label_small hs hz (k := k) hi hk
    rw [getReciprocalSpace_double hA hpi hb (by simp [label]) (label_bounds hs hi)
      (fun k hk => (h4 k hk).1.trans (by norm_num)), Res.ok.injEq] at h1
    rw [h3]
    refine mapRange_ok (fun k hk => ?_)
    rw [subscript_isOk hk, Res.ok_bind]
    have hv : v[k]? = some (.fin (rn (2 * (coord (label size i) k : ℝ) * rn Real.pi))) := by
      rw [← h1, List.getElem?_map, List.getElem?_range hk]; rfl
    obtain ⟨h5, h6, h7⟩ := h4 k hk
    have he := extent_eq hk
    have hpos : ((extent size k : Int) : ℝ) ≠ 0 := by exact_mod_cast h6.ne'
    have hn : Num.round A ((size[k] : Nat) : ℝ) = .fin ((extent size k : Int) : ℝ) := by
      have := round_int hA (n := extent size k) (by rw [abs_of_pos h6]; exact h7.trans (by norm_num))
      rw [← this, he]
      norm_num
    rw [subscript_ok hv, Res.ok_bind, Num.ofNat_eq, hn, Num.fin_div hpos,
      round_fin hA ((kay_error (h5.trans (by norm_num)) h6 h7).2.trans (by norm_num))]
    rfl

theorem getMomentum_double (hA : A.IsBinary64) (hpi : A.pi = Real.pi) (hs : Buildable size) (hz : ∀ s ∈ size, s ≤ 2 ^ 49)
    (hb : Holds b size.length g P (unit size.length) N) (hr : Regular b size.length)
    {l : Lattice (Num A)} (hl : Lattice.new b size .closed = .ok l) {i : Nat} (hi : i < size.prod) :
    l.getMomentum i = .ok ((List.range size.length).map (fun k => .fin (kay (coord (label size i) k) (extent size k)))) := by
  unfold Lattice.getMomentum
  rw [indexIsValid_eq hs hl hi, if_pos rfl, momenta_double hA hpi hs hz hb hr hl]
  refine subscript_ok ?_
  rw [List.getElem?_map, List.getElem?_range hi]; rfl

/-- The reciprocal vectors of the predefined lattices with orthogonal vectors. -/
theorem unit_cases (hA : A.IsBinary64) (hb : chainLattice = .ok b ∨ squareLattice = .ok b ∨ cubicLattice = .ok b)
    (hd : size.length = b.dim) : ∃ (g : Nat) (N : List Int),
      Holds b size.length g (unit size.length) (unit size.length) N ∧ Regular b size.length := by
  have hdim : b.dim = 1 ∨ b.dim = 2 ∨ b.dim = 3 := by
    rcases hb with hb | hb | hb <;> cases hb <;> simp
  obtain ⟨Z, g, N, h1, h2, h3, -⟩ := integer_cases (size := List.replicate size.length 1) hA hb (by simpa using hd) (by
    rw [List.map_replicate, List.sum_replicate, hd]
    rcases hdim with h | h | h <;> rw [h] <;> norm_num)
  rw [List.length_replicate] at h1 h2 h3
  rw [h1] at h2
  exact ⟨g, N, h2, h3⟩

/-- What C130 needs to know about a site: the coordinates of site `i` are `c`. -/
theorem momentum_at (hA : A.IsBinary64) (hpi : A.pi = Real.pi)
    (hb : chainLattice = .ok b ∨ squareLattice = .ok b ∨ cubicLattice = .ok b) (hd : size.length = b.dim) (hs : Buildable size)
    (hz : ∀ s ∈ size, s ≤ 2 ^ 49) {l : Lattice (Num A)} (hl : Lattice.new b size .closed = .ok l) {i : Nat} (hi : i < size.prod)
    {k : List (Num A)} (hk : l.getMomentum i = .ok k) {c : List Int} (hc : l.grid.getCoordinates i = .ok c) :
    c.length = size.length ∧ k.length = size.length ∧ ∀ j, j < size.length →
      k.getD j .nan = .fin (kay (coord c j - extent size j / 2) (extent size j)) ∧
      |coord c j - extent size j / 2| ≤ 2 ^ 48 ∧ 0 < extent size j ∧ extent size j ≤ 2 ^ 52 := by
  obtain ⟨g, N, h1, h2⟩ := unit_cases hA hb hd
  have h3 := getMomentum_double hA hpi hs hz h1 h2 hl hi
  rw [hk, Res.ok.injEq] at h3
  have h4 : c = crd size i := by
    rw [(new_parts hl).1, getCoordinates_eq hs.1 (buildable_fits hs) .closed hi, Res.ok.injEq] at hc
    exact hc.symm
  refine ⟨by rw [h4]; exact onGrid_length (crd_onGrid hs.1.1 hi), by rw [h3]; simp, fun j hj => ?_⟩
  obtain ⟨h5, h6, h7⟩ := label_small hs hz hi hj
  rw [coord_label hj, ← h4] at h5
  refine ⟨?_, h5, h6, h7⟩
  rw [h3, List.getD_eq_getElem?_getD, List.getElem?_map, List.getElem?_range hj]
  simp only [Option.map_some, Option.getD_some]
  rw [coord_label hj, h4]

/-- C130.  In double precision every component of a momentum of a chain, square or cubic lattice is a number within a
relative error of 2⁻⁵¹ of 2π n / L, where n is the coordinate of the site minus half of the extent L. -/
theorem C130_accurate (hA : A.IsBinary64) (hpi : A.pi = Real.pi)
    (hb : chainLattice = .ok b ∨ squareLattice = .ok b ∨ cubicLattice = .ok b) (hd : size.length = b.dim) (hs : Buildable size)
    (hz : ∀ s ∈ size, s ≤ 2 ^ 49) {l : Lattice (Num A)} (hl : Lattice.new b size .closed = .ok l) {i : Nat} (hi : i < size.prod)
    {c : List Int} (hc : l.grid.getCoordinates i = .ok c) :
    ∃ k : List ℝ, l.getMomentum i = .ok (k.map .fin) ∧ k.length = size.length ∧ ∀ j, j < size.length →
      |k.getD j 0 - 2 * Real.pi * (coord c j - extent size j / 2 : Int) / (extent size j : ℝ)| ≤
        |2 * Real.pi * (coord c j - extent size j / 2 : Int) / (extent size j : ℝ)| / 2 ^ 51 := by
  obtain ⟨g, N, h1, h2⟩ := unit_cases hA hb hd
  have h3 := getMomentum_double hA hpi hs hz h1 h2 hl hi
  obtain ⟨-, -, h4⟩ := momentum_at hA hpi hb hd hs hz hl hi h3 hc
  refine ⟨(List.range size.length).map (fun k => kay (coord (label size i) k) (extent size k)), ?_, by simp, fun j hj => ?_⟩
  · rw [h3, List.map_map]; rfl
  · obtain ⟨h5, h6, h7, h8⟩ := h4 j hj
    rw [List.getD_eq_getElem?_getD, List.getElem?_map, List.getElem?_range hj] at h5 ⊢
    simp only [Option.map_some, Option.getD_some, Num.fin.injEq] at h5 ⊢
    rw [h5]
    exact (kay_error (h6.trans (by norm_num)) h7 h8).1

/-- C130.  Sites further along an axis have larger components, so that components are equal only where coordinates are. -/
theorem C130_order (hA : A.IsBinary64) (hpi : A.pi = Real.pi)
    (hb : chainLattice = .ok b ∨ squareLattice = .ok b ∨ cubicLattice = .ok b) (hd : size.length = b.dim) (hs : Buildable size)
    (hz : ∀ s ∈ size, s ≤ 2 ^ 49) {l : Lattice (Num A)} (hl : Lattice.new b size .closed = .ok l) {i i' : Nat}
    (hi : i < size.prod) (hi' : i' < size.prod) {c c' : List Int} (hc : l.grid.getCoordinates i = .ok c)
    (hc' : l.grid.getCoordinates i' = .ok c') {k k' : List (Num A)} (hk : l.getMomentum i = .ok k) (hk' : l.getMomentum i' = .ok k')
    {j : Nat} (hj : j < size.length) :
    ∃ x x' : ℝ, k.getD j .nan = .fin x ∧ k'.getD j .nan = .fin x' ∧ (x < x' ↔ coord c j < coord c' j) ∧
      (x = x' ↔ coord c j = coord c' j) := by
  obtain ⟨-, -, h4⟩ := momentum_at hA hpi hb hd hs hz hl hi hk hc
  obtain ⟨-, -, h4'⟩ := momentum_at hA hpi hb hd hs hz hl hi' hk' hc'
  obtain ⟨h5, h6, h7, h8⟩ := h4 j hj
  obtain ⟨h5', h6', -, -⟩ := h4' j hj
  refine ⟨_, _, h5, h5', ?_⟩
  rcases lt_trichotomy (coord c j) (coord c' j) with h | h | h
  · have := kay_lt h6 h6' h7 h8 (by omega)
    exact ⟨iff_of_true this h, iff_of_false this.ne h.ne⟩
  · rw [h]; simp
  · have := kay_lt h6' h6 h7 h8 (by omega)
    exact ⟨iff_of_false this.le.not_gt h.le.not_gt, iff_of_false this.ne' h.ne'⟩

/-- C130.  Different sites have different momenta, bit for bit. -/
theorem C130_injective (hA : A.IsBinary64) (hpi : A.pi = Real.pi)
    (hb : chainLattice = .ok b ∨ squareLattice = .ok b ∨ cubicLattice = .ok b) (hd : size.length = b.dim) (hs : Buildable size)
    (hz : ∀ s ∈ size, s ≤ 2 ^ 49) {l : Lattice (Num A)} (hl : Lattice.new b size .closed = .ok l) {i i' : Nat}
    (hi : i < size.prod) (hi' : i' < size.prod) (h : l.getMomentum i = l.getMomentum i') : i = i' := by
  have hgc : ∀ x, x < size.prod → l.grid.getCoordinates x = .ok (crd size x) := by
    intro x hx
    rw [(new_parts hl).1, getCoordinates_eq hs.1 (buildable_fits hs) .closed hx]
  obtain ⟨k, hk, -⟩ := C130_accurate hA hpi hb hd hs hz hl hi (hgc i hi)
  have hk' := h ▸ hk
  have hl1 := onGrid_length (crd_onGrid hs.1.1 hi)
  have hl2 := onGrid_length (crd_onGrid hs.1.1 hi')
  have e : crd size i = crd size i' := by
    refine List.ext_getElem (by rw [hl1, hl2]) (fun j h1 h2 => ?_)
    obtain ⟨x, x', h3, h4, -, h5⟩ := C130_order hA hpi hb hd hs hz hl hi hi' (hgc i hi) (hgc i' hi') hk hk' (hl1 ▸ h1)
    rw [h3, Num.fin.injEq] at h4
    have := h5.1 h4
    rwa [coord_eq h1, coord_eq h2] at this
  rw [← idx_crd hs.1.1 hi, ← idx_crd hs.1.1 hi', e]

/-- C130.  Opposite labels have exactly opposite components; the component is zero in the middle of the axis only. -/
theorem C130_opposite (hA : A.IsBinary64) (hpi : A.pi = Real.pi)
    (hb : chainLattice = .ok b ∨ squareLattice = .ok b ∨ cubicLattice = .ok b) (hd : size.length = b.dim) (hs : Buildable size)
    (hz : ∀ s ∈ size, s ≤ 2 ^ 49) {l : Lattice (Num A)} (hl : Lattice.new b size .closed = .ok l) {i i' : Nat}
    (hi : i < size.prod) (hi' : i' < size.prod) {c c' : List Int} (hc : l.grid.getCoordinates i = .ok c)
    (hc' : l.grid.getCoordinates i' = .ok c') {k k' : List (Num A)} (hk : l.getMomentum i = .ok k) (hk' : l.getMomentum i' = .ok k')
    {j : Nat} (hj : j < size.length) :
    ∃ x x' : ℝ, k.getD j .nan = .fin x ∧ k'.getD j .nan = .fin x' ∧
      (x' = -x ↔ coord c j + coord c' j = 2 * (extent size j / 2)) ∧ (x = 0 ↔ coord c j = extent size j / 2) := by
  obtain ⟨-, -, h4⟩ := momentum_at hA hpi hb hd hs hz hl hi hk hc
  obtain ⟨-, -, h4'⟩ := momentum_at hA hpi hb hd hs hz hl hi' hk' hc'
  obtain ⟨h5, h6, h7, h8⟩ := h4 j hj
  obtain ⟨h5', h6', -, -⟩ := h4' j hj
  refine ⟨_, _, h5, h5', ?_, ?_⟩
  · rw [← kay_neg, kay_eq h6' (by rw [abs_neg]; exact h6) h7 h8]
    omega
  · have h0 : kay 0 (extent size j) = 0 := by simp [kay, rn_zero]
    rw [← h0, kay_eq h6 (by norm_num) h7 h8]
    omega

/-- The hypotheses of C130 can be met. -/
example : ∃ b : Bravais (Num doubleArith), squareLattice = .ok b ∧ [1000, 2000].length = b.dim ∧ Buildable [1000, 2000] ∧
    (∀ s ∈ [1000, 2000], s ≤ 2 ^ 49) ∧ doubleArith.pi = Real.pi ∧ doubleArith.IsBinary64 ∧
    ∃ l, Lattice.new b [1000, 2000] .closed = .ok l := by
  obtain ⟨b, h1, h2⟩ := square_regular (F := Num doubleArith)
  have hs : Buildable [1000, 2000] := ⟨⟨by decide, by norm_num⟩, by norm_num⟩
  obtain ⟨l, hl, -⟩ := C73_defined hs (b := b) h2 .closed (fun _ => by decide)
  exact ⟨b, h1, h2.dim.symm, hs, by norm_num, rfl, doubleArith_isBinary64, l, hl⟩

end
end Bwsl
