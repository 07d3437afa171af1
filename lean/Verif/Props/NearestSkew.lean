import Verif.Props.Nearest

/-! Property C171: distances on closed lattices with primitive vectors that are not orthogonal. -/

namespace Bwsl
open Spec

section
variable {A : Arith ℝ} {b : Bravais (Num A)} {size : List Nat} {g : Nat} {P Q : List ℝ} {N : List Int}

/-! ### Two dimensions -/

/-- The vectors that span the lattice, `L` times the first primitive vector and `M` times the second: their scalar product is
at most the square of each of them. -/
def Spec.Moderate (L M : Nat) (p q r s : ℝ) : Prop :=
  |p * r + q * s| * M ≤ (p ^ 2 + q ^ 2) * L ∧ |p * r + q * s| * L ≤ (r ^ 2 + s ^ 2) * M

/-- A point that none of three pairs of translations brings nearer to 0: its coordinates are at most 1. -/
theorem cell_bound {α γ σ L M u v : ℝ} (hL : 0 < L) (hM : 0 < M) (hσ : 0 ≤ σ) (hD : 0 < α * γ - σ ^ 2) (h1 : σ * M ≤ α * L)
    (h2 : σ * L ≤ γ * M) (hα : 0 ≤ α) (hγ : 0 ≤ γ) (hX : |α * u + σ * v| ≤ α * L / 2) (hY : |σ * u + γ * v| ≤ γ * M / 2)
    (hZ : |L * (α * u + σ * v) - M * (σ * u + γ * v)| ≤ (α * L ^ 2 + γ * M ^ 2 - 2 * σ * L * M) / 2) : |u| ≤ L ∧ |v| ≤ M := by
  generalize hx : α * u + σ * v = X at hX hZ
  generalize hy : σ * u + γ * v = Y at hY hZ
  generalize hz : L * X - M * Y = Z at hZ
  have eu : (α * γ - σ ^ 2) * u * M = (γ * M - σ * L) * X + σ * Z := by rw [← hz, ← hx, ← hy]; ring
  have ev : (α * γ - σ ^ 2) * v * L = (α * L - σ * M) * Y - σ * Z := by rw [← hz, ← hx, ← hy]; ring
  have bu : |(γ * M - σ * L) * X + σ * Z| ≤ (γ * M - σ * L) * (α * L / 2) + σ * ((α * L ^ 2 + γ * M ^ 2 - 2 * σ * L * M) / 2) := by
    refine (abs_add_le _ _).trans (add_le_add ?_ ?_)
    · rw [abs_mul, abs_of_nonneg (by linarith)]; exact mul_le_mul_of_nonneg_left hX (by linarith)
    · rw [abs_mul, abs_of_nonneg hσ]; exact mul_le_mul_of_nonneg_left hZ hσ
  have bv : |(α * L - σ * M) * Y - σ * Z| ≤ (α * L - σ * M) * (γ * M / 2) + σ * ((α * L ^ 2 + γ * M ^ 2 - 2 * σ * L * M) / 2) := by
    refine (abs_sub _ _).trans (add_le_add ?_ ?_)
    · rw [abs_mul, abs_of_nonneg (by linarith)]; exact mul_le_mul_of_nonneg_left hY (by linarith)
    · rw [abs_mul, abs_of_nonneg hσ]; exact mul_le_mul_of_nonneg_left hZ hσ
  have cu : (γ * M - σ * L) * (α * L / 2) + σ * ((α * L ^ 2 + γ * M ^ 2 - 2 * σ * L * M) / 2) ≤ (α * γ - σ ^ 2) * L * M := by
    have := mul_le_mul_of_nonneg_left h1 (mul_nonneg hγ hM.le)
    nlinarith
  have cv : (α * L - σ * M) * (γ * M / 2) + σ * ((α * L ^ 2 + γ * M ^ 2 - 2 * σ * L * M) / 2) ≤ (α * γ - σ ^ 2) * M * L := by
    have := mul_le_mul_of_nonneg_left h2 (mul_nonneg hα hL.le)
    nlinarith
  constructor
  · have h := (eu ▸ bu).trans cu
    rw [abs_mul, abs_mul, abs_of_pos hD, abs_of_pos hM] at h
    exact le_of_mul_le_mul_left (le_of_mul_le_mul_right h hM) hD
  · have h := (ev ▸ bv).trans cv
    rw [abs_mul, abs_mul, abs_of_pos hD, abs_of_pos hL] at h
    exact le_of_mul_le_mul_left (le_of_mul_le_mul_right h hL) hD

/-- The square of a vector with integer coordinates. -/
def quad (α σ γ : ℝ) (u v : Int) : ℝ := α * (u : ℝ) ^ 2 + 2 * σ * u * v + γ * (v : ℝ) ^ 2

/-- A positive form has a least value on a sublattice. -/
theorem quad_least {α σ γ : ℝ} (hα : 0 < α) (hD : 0 < α * γ - σ ^ 2) {L M : Nat} (hL : 0 < L) (hM : 0 < M) (c e : Int) :
    ∃ m n : Int, ∀ m' n' : Int, quad α σ γ (c + m * L) (e + n * M) ≤ quad α σ γ (c + m' * L) (e + n' * M) := by
  have hγ : 0 < γ := by nlinarith [sq_nonneg σ]
  have hlow : ∀ u v : Int, (α * γ - σ ^ 2) * (u : ℝ) ^ 2 ≤ γ * quad α σ γ u v ∧ (α * γ - σ ^ 2) * (v : ℝ) ^ 2 ≤ α * quad α σ γ u v := by
    intro u v
    unfold quad
    constructor
    · nlinarith [sq_nonneg (γ * (v : ℝ) + σ * u)]
    · nlinarith [sq_nonneg (α * (u : ℝ) + σ * v)]
  obtain ⟨K, hK⟩ := exists_nat_gt ((γ + α) * quad α σ γ c e / (α * γ - σ ^ 2))
  have hR0 : 0 ≤ quad α σ γ c e := by
    have := (hlow c e).1
    have : 0 ≤ γ * quad α σ γ c e := le_trans (by positivity) this
    exact nonneg_of_mul_nonneg_right this hγ
  rw [div_lt_iff₀ hD] at hK
  have hbound : ∀ u v : Int, quad α σ γ u v ≤ quad α σ γ c e → |u| ≤ K ∧ |v| ≤ K := by
    intro u v h
    obtain ⟨h1, h2⟩ := hlow u v
    have sq_le : ∀ w : Int, (α * γ - σ ^ 2) * (w : ℝ) ^ 2 ≤ (γ + α) * quad α σ γ c e → |w| ≤ K := by
      intro w hw
      have h3 : (w : ℝ) ^ 2 < K := by
        by_contra hcon
        have := mul_le_mul_of_nonneg_left (not_lt.1 hcon) hD.le
        linarith
      have h4 : w ^ 2 < (K : Int) := by exact_mod_cast h3
      by_contra hcon
      have h5 : (K : Int) < |w| := not_le.1 hcon
      have h6 := sq_abs w
      nlinarith [abs_nonneg w]
    refine ⟨sq_le u (h1.trans ?_), sq_le v (h2.trans ?_)⟩
    · have := mul_le_mul_of_nonneg_left h hγ.le
      have := mul_nonneg hα.le hR0
      linarith
    · have := mul_le_mul_of_nonneg_left h hα.le
      have := mul_nonneg hγ.le hR0
      linarith
  obtain ⟨B, hB⟩ : ∃ B : Int, B = K + |c| + |e| := ⟨_, rfl⟩
  have hB0 : 0 ≤ B := by have := abs_nonneg c; have := abs_nonneg e; omega
  obtain ⟨⟨m, n⟩, -, hmin⟩ := Finset.exists_min_image (Finset.Icc (-B) B ×ˢ Finset.Icc (-B) B)
    (fun p : Int × Int => quad α σ γ (c + p.1 * L) (e + p.2 * M)) ⟨(0, 0), by simp; omega⟩
  refine ⟨m, n, fun m' n' => ?_⟩
  have h00 := hmin (0, 0) (by simp; omega)
  simp only [zero_mul, add_zero] at h00
  by_cases h : quad α σ γ (c + m' * L) (e + n' * M) ≤ quad α σ γ c e
  · obtain ⟨h1, h2⟩ := hbound _ _ h
    have hbox : ∀ (x k : Int) (l : Nat), 0 < l → |x + k * l| ≤ K → |k| ≤ K + |x| := by
      intro x k l hl h
      have h1 : |k * (l : Int)| ≤ K + |x| := by
        have := abs_sub_abs_le_abs_sub (k * (l : Int)) (-x)
        rw [sub_neg_eq_add, abs_neg, add_comm (k * (l : Int)) x] at this
        omega
      rw [abs_mul, Nat.abs_cast] at h1
      exact (le_mul_of_one_le_right (abs_nonneg k) (by omega)).trans h1
    have b1 := hbox c m' L hL h1
    have b2 := hbox e n' M hM h2
    have hc := abs_nonneg c
    have he := abs_nonneg e
    refine hmin (m', n') ?_
    rw [Finset.mem_product, Finset.mem_Icc, Finset.mem_Icc]
    have := abs_le.1 b1
    have := abs_le.1 b2
    omega
  · exact h00.trans (not_le.1 h).le

/-- A nearest image is in the first shell. -/
theorem quad_shell {α σ γ : ℝ} (hα : 0 < α) (hD : 0 < α * γ - σ ^ 2) {L M : Nat} (hL : 0 < L) (hM : 0 < M)
    (h1 : |σ| * M ≤ α * L) (h2 : |σ| * L ≤ γ * M) {c e : Int} (hc : 0 ≤ c ∧ c < L) (he : 0 ≤ e ∧ e < M) :
    ∃ m n : Int, (-1 ≤ m ∧ m ≤ 1) ∧ (-1 ≤ n ∧ n ≤ 1) ∧
      ∀ m' n' : Int, quad α σ γ (c + m * L) (e + n * M) ≤ quad α σ γ (c + m' * L) (e + n' * M) := by
  obtain ⟨m, n, hmin⟩ := quad_least hα hD hL hM c e
  have hγ : 0 < γ := by nlinarith [sq_nonneg σ]
  have hL' : (0 : ℝ) < L := by exact_mod_cast hL
  have hM' : (0 : ℝ) < M := by exact_mod_cast hM
  obtain ⟨u, hu⟩ : ∃ u : Int, u = c + m * L := ⟨_, rfl⟩
  obtain ⟨v, hv⟩ : ∃ v : Int, v = e + n * M := ⟨_, rfl⟩
  have hstep : ∀ i j : Int, quad α σ γ u v ≤ quad α σ γ (u + i * L) (v + j * M) := by
    intro i j
    have := hmin (m + i) (n + j)
    rwa [show c + (m + i) * L = u + i * L by rw [hu]; ring, show e + (n + j) * M = v + j * M by rw [hv]; ring, ← hu, ← hv] at this
  have key : |(u : ℝ)| ≤ L ∧ |(v : ℝ)| ≤ M := by
    have s1 := hstep 1 0
    have s2 := hstep (-1) 0
    have s3 := hstep 0 1
    have s4 := hstep 0 (-1)
    have s5 := hstep 1 (-1)
    have s6 := hstep (-1) 1
    have s7 := hstep 1 1
    have s8 := hstep (-1) (-1)
    unfold quad at s1 s2 s3 s4 s5 s6 s7 s8
    push_cast at s1 s2 s3 s4 s5 s6 s7 s8
    have hX : |α * u + σ * v| ≤ α * L / 2 := by
      rw [abs_le]
      constructor
      · refine le_of_mul_le_mul_right (a := (L : ℝ)) ?_ hL'; nlinarith
      · refine le_of_mul_le_mul_right (a := (L : ℝ)) ?_ hL'; nlinarith
    have hY : |σ * u + γ * v| ≤ γ * M / 2 := by
      rw [abs_le]
      constructor
      · refine le_of_mul_le_mul_right (a := (M : ℝ)) ?_ hM'; nlinarith
      · refine le_of_mul_le_mul_right (a := (M : ℝ)) ?_ hM'; nlinarith
    rcases le_total 0 σ with hσ | hσ
    · rw [abs_of_nonneg hσ] at h1 h2
      refine cell_bound hL' hM' hσ hD h1 h2 hα.le hγ.le hX hY ?_
      rw [abs_le]; constructor <;> nlinarith
    · rw [abs_of_nonpos hσ] at h1 h2
      have := cell_bound (u := (u : ℝ)) (v := -(v : ℝ)) (σ := -σ) hL' hM' (by linarith) (by linarith [neg_sq σ]) h1 h2 hα.le hγ.le
        (by rwa [neg_mul_neg]) (by rw [neg_mul, mul_neg, ← neg_add, abs_neg]; exact hY) (by
          rw [abs_le]; constructor <;> nlinarith)
      rwa [abs_neg] at this
  have ku : |u| ≤ L := by rw [← Int.cast_abs] at key; exact_mod_cast key.1
  have kv : |v| ≤ M := by rw [← Int.cast_abs (a := v)] at key; exact_mod_cast key.2
  have range : ∀ (x k : Int) (l : Nat), 0 < l → 0 ≤ x ∧ x < l → |x + k * l| ≤ l → -1 ≤ k ∧ k ≤ 1 := by
    intro x k l hl hx h
    have h := abs_le.1 h
    have hl' : (0 : Int) < l := by omega
    constructor
    · by_contra hk
      have : k * (l : Int) ≤ -2 * l := mul_le_mul_of_nonneg_right (by omega) hl'.le
      omega
    · by_contra hk
      have : 2 * (l : Int) ≤ k * l := mul_le_mul_of_nonneg_right (by omega) hl'.le
      omega
  exact ⟨m, n, range c m L hL hc (hu ▸ ku), range e n M hM he (hv ▸ kv), hmin⟩

theorem reach_quad {L M : Nat} {p q r s : ℝ} {c m : List Int} : reach [L, M] [p, q, r, s] c m =
    √(quad (p ^ 2 + q ^ 2) (p * r + q * s) (r ^ 2 + s ^ 2) (coord c 0 + coord m 0 * L) (coord c 1 + coord m 1 * M)) := by
  unfold reach Spec.length
  rw [show [L, M].length = 2 from rfl, sum_sq_embed]
  congr 1
  simp only [Finset.sum_range_succ, Finset.sum_range_zero, entry]
  rw [coord_image (size := [L, M]) (by simp), coord_image (size := [L, M]) (by simp)]
  unfold quad
  simp [extent]
  ring

theorem moderate_shell {L M : Nat} (hL : 0 < L) (hM : 0 < M) {p q r s : ℝ} (hdet : p * s - q * r ≠ 0) (h : Moderate L M p q r s) :
    ShellSuffices [L, M] [p, q, r, s] := by
  intro c hc m hm
  have hg := (onGrid_iff.1 hc).2
  have g0 : 0 ≤ coord c 0 ∧ coord c 0 < (L : Int) := hg 0 (by simp)
  have g1 : 0 ≤ coord c 1 ∧ coord c 1 < (M : Int) := hg 1 (by simp)
  have hD : 0 < (p ^ 2 + q ^ 2) * (r ^ 2 + s ^ 2) - (p * r + q * s) ^ 2 := by
    have : 0 < (p * s - q * r) ^ 2 := by positivity
    nlinarith
  have hα : 0 < p ^ 2 + q ^ 2 := by
    rcases (add_nonneg (sq_nonneg p) (sq_nonneg q)).lt_or_eq with h | h
    · exact h
    · rw [← h, zero_mul] at hD; nlinarith [sq_nonneg (p * r + q * s)]
  obtain ⟨x, y, hx, hy, hmin⟩ := quad_shell hα hD hL hM h.1 h.2 g0 g1
  refine ⟨[x, y], ⟨rfl, fun z hz => ?_⟩, ?_⟩
  · simp only [List.mem_cons, List.not_mem_nil, or_false] at hz
    rcases hz with rfl | rfl
    · exact hx
    · exact hy
  · rw [reach_quad, reach_quad]
    exact Real.sqrt_le_sqrt (hmin _ _)

theorem independent_of_det {p q r s : ℝ} (hdet : p * s - q * r ≠ 0) : Independent 2 [p, q, r, s] := by
  intro c hc h0
  match c, hc with
  | [x, y], _ =>
    simp only [embed, coord, entry, List.range_succ, List.range_zero, Finset.sum_range_succ, Finset.sum_range_zero] at h0
    simp at h0
    obtain ⟨h1, h2⟩ := h0
    have hx : (x : ℝ) = 0 := by
      have : (p * s - q * r) * (x : ℝ) = 0 := by linear_combination s * h1 - r * h2
      exact (mul_eq_zero.1 this).resolve_left hdet
    have hy : (y : ℝ) = 0 := by
      have : (p * s - q * r) * (y : ℝ) = 0 := by linear_combination p * h2 - q * h1
      exact (mul_eq_zero.1 this).resolve_left hdet
    intro z hz
    simp only [List.mem_cons, List.not_mem_nil, or_false] at hz
    rcases hz with rfl | rfl
    · exact_mod_cast hx
    · exact_mod_cast hy

/-- C171.  On a closed lattice with any two linearly independent primitive vectors, of extents such that the scalar product of the
two vectors that span it is at most the square of each of them, `GetDistance` is the least distance over all periodic images,
symmetric, and a metric. -/
theorem C171_plane (hA : A.IsReal) (L M : Nat) (hs : Buildable [L, M]) (p q r s : ℝ) (hb : Holds b 2 g [p, q, r, s] Q N)
    (hr : Regular b 2) (hdet : p * s - q * r ≠ 0) (h : Moderate L M p q r s) (l : Lattice (Num A))
    (hl : Lattice.new b [L, M] .closed = .ok l) : NearestImage [L, M] [p, q, r, s] l :=
  nearestImage hA hs (size := [L, M]) hb hr (independent_of_det hdet)
    (moderate_shell (hs.1.1 L (by simp)) (hs.1.1 M (by simp)) hdet h) hl

/-! ### Any dimension -/

/-- Scalar product of two primitive vectors. -/
noncomputable def Spec.gram (d : Nat) (P : List ℝ) (i j : Nat) : ℝ := ∑ k ∈ Finset.range d, entry d P i k * entry d P j k

/-- The scalar products of a vector that spans the lattice with all others add up to at most half its square. -/
def Spec.Dominant (size : List Nat) (P : List ℝ) : Prop :=
  ∀ i < size.length, 2 * ∑ j ∈ (Finset.range size.length).erase i, (extent size j : ℝ) * |gram size.length P j i| ≤
    extent size i * gram size.length P i i

/-- The square of the length of the vector to an image. -/
theorem reach_sq {c m : List Int} : reach size P c m = √(∑ k ∈ Finset.range size.length,
    (∑ j ∈ Finset.range size.length, ((coord c j + coord m j * extent size j : Int) : ℝ) * entry size.length P j k) ^ 2) := by
  unfold reach Spec.length
  rw [sum_sq_embed]
  congr 1
  refine Finset.sum_congr rfl (fun k _ => ?_)
  congr 1
  exact Finset.sum_congr rfl (fun j hj => by rw [coord_image (Finset.mem_range.1 hj)])

/-- What one translation does to the square of a length. -/
theorem shift_sq {d : Nat} {P : List ℝ} {w : Nat → ℝ} {i : Nat} (hi : i < d) (t : ℝ) :
    ∑ k ∈ Finset.range d, (∑ j ∈ Finset.range d, (w j - if j = i then t else 0) * entry d P j k) ^ 2 =
      ∑ k ∈ Finset.range d, (∑ j ∈ Finset.range d, w j * entry d P j k) ^ 2 -
        2 * t * ∑ j ∈ Finset.range d, w j * gram d P j i + t ^ 2 * gram d P i i := by
  have h1 : ∀ k, ∑ j ∈ Finset.range d, (w j - if j = i then t else 0) * entry d P j k =
      ∑ j ∈ Finset.range d, w j * entry d P j k - t * entry d P i k := by
    intro k
    simp only [sub_mul, ite_mul, zero_mul, Finset.sum_sub_distrib]
    rw [Finset.sum_ite_eq' (Finset.range d) i, if_pos (Finset.mem_range.2 hi)]
  have h2 : ∑ j ∈ Finset.range d, w j * gram d P j i =
      ∑ k ∈ Finset.range d, (∑ j ∈ Finset.range d, w j * entry d P j k) * entry d P i k := by
    unfold gram
    simp only [Finset.mul_sum, Finset.sum_mul]
    rw [Finset.sum_comm]
    exact Finset.sum_congr rfl (fun _ _ => Finset.sum_congr rfl (fun _ _ => by ring))
  simp only [h1]
  rw [h2]
  unfold gram
  rw [Finset.mul_sum, Finset.mul_sum, ← Finset.sum_sub_distrib, ← Finset.sum_add_distrib]
  exact Finset.sum_congr rfl (fun _ _ => by ring)

/-- A translation along the longest coordinate brings a far point no farther. -/
theorem dominant_step (h : Dominant size P) {w : Nat → ℝ} {i : Nat} (hi : i < size.length) (hE : (0 : ℝ) < extent size i)
    (hmax : ∀ j < size.length, |w j| * extent size i ≤ |w i| * extent size j) (hfar : (extent size i : ℝ) ≤ |w i|) :
    (extent size i : ℝ) * gram size.length P i i ≤
      2 * ((SignType.sign (w i) : ℝ) * ∑ j ∈ Finset.range size.length, w j * gram size.length P j i) := by
  have hd := h i hi
  have hG : 0 ≤ gram size.length P i i := Finset.sum_nonneg (fun k _ => mul_self_nonneg _)
  have hsg : |(SignType.sign (w i) : ℝ)| = 1 := by
    have : w i ≠ 0 := by intro h0; rw [h0, abs_zero] at hfar; linarith
    rcases lt_or_gt_of_ne this with h | h
    · simp [sign_neg h]
    · simp [sign_pos h]
  rw [← Finset.add_sum_erase _ _ (Finset.mem_range.2 hi), mul_add, ← mul_assoc (SignType.sign (w i) : ℝ) (w i), sign_mul_self]
  have hrest : -(∑ j ∈ (Finset.range size.length).erase i, |w j| * |gram size.length P j i|) ≤
      (SignType.sign (w i) : ℝ) * ∑ j ∈ (Finset.range size.length).erase i, w j * gram size.length P j i := by
    refine neg_le_of_abs_le ?_
    rw [abs_mul, hsg, one_mul]
    refine (Finset.abs_sum_le_sum_abs _ _).trans (le_of_eq ?_)
    exact Finset.sum_congr rfl (fun j _ => abs_mul _ _)
  have hsum : (∑ j ∈ (Finset.range size.length).erase i, |w j| * |gram size.length P j i|) * extent size i ≤
      |w i| * ∑ j ∈ (Finset.range size.length).erase i, (extent size j : ℝ) * |gram size.length P j i| := by
    rw [Finset.sum_mul, Finset.mul_sum]
    refine Finset.sum_le_sum (fun j hj => ?_)
    have := mul_le_mul_of_nonneg_right (hmax j (Finset.mem_range.1 (Finset.mem_of_mem_erase hj))) (abs_nonneg (gram size.length P j i))
    linarith
  generalize (∑ j ∈ (Finset.range size.length).erase i, |w j| * |gram size.length P j i|) = S at *
  generalize (∑ j ∈ (Finset.range size.length).erase i, (extent size j : ℝ) * |gram size.length P j i|) = T at *
  have h1 : 2 * (S * extent size i) ≤ |w i| * (extent size i * gram size.length P i i) := by
    have := mul_le_mul_of_nonneg_left hd (abs_nonneg (w i))
    linarith
  have h2 : 2 * S ≤ |w i| * gram size.length P i i := by
    refine le_of_mul_le_mul_right (a := (extent size i : ℝ)) ?_ hE
    linarith
  have h3 := mul_le_mul_of_nonneg_right hfar hG
  linarith

theorem dominant_shell (hs : ∀ n ∈ size, 1 ≤ n) (h : Dominant size P) : ShellSuffices size P := by
  intro c hc m hm
  obtain ⟨n, hn⟩ : ∃ n, n = ∑ k ∈ Finset.range size.length, (coord m k).natAbs := ⟨_, rfl⟩
  induction n using Nat.strong_induction_on generalizing m with
  | _ n ih =>
  by_cases hsh : Shell size.length m
  · exact ⟨m, hsh, le_rfl⟩
  have hE : ∀ j < size.length, 1 ≤ extent size j := by
    intro j hj
    rw [extent_eq hj]
    exact_mod_cast hs _ (List.getElem_mem hj)
  have hg := (onGrid_iff.1 hc).2
  obtain ⟨a, ha, hbad⟩ : ∃ a < size.length, ¬(-1 ≤ coord m a ∧ coord m a ≤ 1) := by
    by_contra hcon
    push Not at hcon
    refine hsh ⟨hm, fun z hz => ?_⟩
    obtain ⟨k, hk, rfl⟩ := List.getElem_of_mem hz
    have := hcon k (hm ▸ hk)
    rwa [coord_eq hk] at this
  obtain ⟨i, hi, hmax⟩ := Finset.exists_max_image (Finset.range size.length)
    (fun j => |((coord c j + coord m j * extent size j : Int) : ℝ)| / (extent size j : ℝ)) ⟨a, Finset.mem_range.2 ha⟩
  have hi' := Finset.mem_range.1 hi
  have hER : ∀ j < size.length, (0 : ℝ) < extent size j := fun j hj => by exact_mod_cast hE j hj
  have hfar : ∀ j < size.length, ¬(-1 ≤ coord m j ∧ coord m j ≤ 1) →
      extent size j < |coord c j + coord m j * extent size j| := by
    intro j hj hb
    have h1 := hE j hj
    have h2 := hg j hj
    rw [lt_abs]
    by_cases hlt : coord m j < -1
    · right
      have : coord m j * extent size j ≤ -2 * extent size j := mul_le_mul_of_nonneg_right (by omega) (by omega)
      omega
    · left
      have : 2 * extent size j ≤ coord m j * extent size j := mul_le_mul_of_nonneg_right (by omega) (by omega)
      omega
  have hai := hmax a (Finset.mem_range.2 ha)
  have hwi : extent size i < |coord c i + coord m i * extent size i| := by
    have h1 : (extent size a : ℝ) < |((coord c a + coord m a * extent size a : Int) : ℝ)| := by exact_mod_cast hfar a ha hbad
    have h2 : (1 : ℝ) < |((coord c a + coord m a * extent size a : Int) : ℝ)| / (extent size a : ℝ) := by
      rwa [lt_div_iff₀ (hER a ha), one_mul]
    have h3 := h2.trans_le hai
    rw [lt_div_iff₀ (hER i hi'), one_mul] at h3
    exact_mod_cast h3
  obtain ⟨e, he, hsg⟩ : ∃ e : Int, (e = 1 ∧ 1 ≤ coord m i ∨ e = -1 ∧ coord m i ≤ -2) ∧
      (SignType.sign ((coord c i + coord m i * extent size i : Int) : ℝ) : ℝ) = e := by
    have h1 := hE i hi'
    have h2 := hg i hi'
    rcases lt_abs.1 hwi with h | h
    · refine ⟨1, Or.inl ⟨rfl, ?_⟩, ?_⟩
      · by_contra hcon
        have : coord m i * extent size i ≤ 0 * extent size i := mul_le_mul_of_nonneg_right (by omega) (by omega)
        omega
      · rw [sign_pos (by exact_mod_cast (by omega : 0 < coord c i + coord m i * extent size i))]; simp
    · refine ⟨-1, Or.inr ⟨rfl, ?_⟩, ?_⟩
      · by_contra hcon
        have : -1 * extent size i ≤ coord m i * extent size i := mul_le_mul_of_nonneg_right (by omega) (by omega)
        omega
      · rw [sign_neg (by exact_mod_cast (by omega : coord c i + coord m i * extent size i < 0))]; simp
  obtain ⟨m', hm'⟩ : ∃ m', m' = tab size.length (fun k => coord m k - if k = i then e else 0) := ⟨_, rfl⟩
  have hc' : ∀ k < size.length, coord m' k = coord m k - if k = i then e else 0 := by
    intro k hk
    rw [hm', coord_tab hk]
  have hlt : ∑ k ∈ Finset.range size.length, (coord m' k).natAbs < n := by
    rw [hn]
    refine Finset.sum_lt_sum (fun k hk => ?_) ⟨i, hi, ?_⟩
    · rw [hc' k (Finset.mem_range.1 hk)]
      split_ifs with hki
      · subst hki; omega
      · omega
    · rw [hc' i hi', if_pos rfl]; omega
  obtain ⟨x, hx, hle⟩ := ih _ hlt m' (by rw [hm', length_tab]) rfl
  refine ⟨x, hx, hle.trans ?_⟩
  rw [reach_sq, reach_sq]
  refine Real.sqrt_le_sqrt ?_
  have hstep := dominant_step h (w := fun j => ((coord c j + coord m j * extent size j : Int) : ℝ)) hi' (hER i hi')
    (fun j hj => by
      have := hmax j (Finset.mem_range.2 hj)
      rwa [div_le_div_iff₀ (hER j hj) (hER i hi')] at this)
    (by exact_mod_cast hwi.le)
  rw [hsg] at hstep
  have heq := shift_sq (P := P) (w := fun j => ((coord c j + coord m j * extent size j : Int) : ℝ)) hi' ((e : ℝ) * extent size i)
  have hsame : ∑ k ∈ Finset.range size.length,
      (∑ j ∈ Finset.range size.length, ((coord c j + coord m' j * extent size j : Int) : ℝ) * entry size.length P j k) ^ 2 =
      ∑ k ∈ Finset.range size.length, (∑ j ∈ Finset.range size.length, (((coord c j + coord m j * extent size j : Int) : ℝ) -
        if j = i then (e : ℝ) * extent size i else 0) * entry size.length P j k) ^ 2 := by
    refine Finset.sum_congr rfl (fun k _ => ?_)
    congr 1
    refine Finset.sum_congr rfl (fun j hj => ?_)
    rw [hc' j (Finset.mem_range.1 hj)]
    congr 1
    split_ifs with hji
    · subst hji; push_cast; ring
    · push_cast; ring
  rw [hsame, heq]
  have hee : (e : ℝ) ^ 2 = 1 := by rcases he with ⟨h, -⟩ | ⟨h, -⟩ <;> rw [h] <;> norm_num
  have := mul_le_mul_of_nonneg_left hstep (hER i hi').le
  have hq : ((e : ℝ) * extent size i) ^ 2 = (extent size i : ℝ) ^ 2 := by rw [mul_pow, hee, one_mul]
  rw [hq]
  nlinarith

/-- The same in any dimension, if twice the sum of the scalar products of each spanning vector with the others is at most its
square. -/
theorem C171_dominant (hA : A.IsReal) (hs : Buildable size) (hb : Holds b size.length g P Q N) (hr : Regular b size.length)
    (hP : Independent size.length P) (h : Dominant size P) (l : Lattice (Num A)) (hl : Lattice.new b size .closed = .ok l) :
    NearestImage size P l :=
  nearestImage hA hs hb hr hP (dominant_shell hs.1.1 h) hl

/-- The hypotheses of C171 can be met: an oblique lattice of 6 sites. -/
example : ∃ b : Bravais (Num realArith), ∃ Q : List ℝ, ∃ l, Holds b 2 2 [1, 0, 1 / 2, 3 / 4] Q [1, 0] ∧ Regular b 2 ∧
    Buildable [2, 3] ∧ (1 : ℝ) * (3 / 4) - 0 * (1 / 2) ≠ 0 ∧ Moderate 2 3 1 0 (1 / 2) (3 / 4) ∧
    Lattice.new b [2, 3] .closed = .ok l := by
  have hr : Regular (⟨2, 2, [1, 0, 1 / 2, 3 / 4].map .fin, [1, -(2 / 3), 0, 4 / 3].map .fin, [1, 0]⟩ : Bravais (Num realArith)) 2 :=
    ⟨⟨rfl, by show 2 % 2 = 0; norm_num, by show [1, 0].length = 2 / 2 * 2; norm_num, by show 2 / 2 * 2 < 2 ^ 64; decide,
      by show ∀ v ∈ ([1, 0] : List Int), -2 ^ 62 ≤ v ∧ v ≤ 2 ^ 62; decide⟩, by decide, rfl, rfl⟩
  have hs : Buildable [2, 3] := ⟨⟨by decide, by decide⟩, by decide⟩
  obtain ⟨l, hl⟩ := new_isOk hs hr .closed (by decide)
  refine ⟨_, [1, -(2 / 3), 0, 4 / 3], l, ⟨rfl, by norm_num, rfl, rfl, rfl, by norm_num⟩, hr, hs, by norm_num, ⟨?_, ?_⟩, hl⟩
  · rw [abs_of_nonneg (by norm_num)]; norm_num
  · rw [abs_of_nonneg (by norm_num)]; norm_num

/-- The same for three vectors that are not orthogonal. -/
example : Dominant [3, 4, 3] [3, 0, 0, 1, 3, 0, 0, 1, 3] ∧ ¬Orthogonal 3 [3, 0, 0, 1, 3, 0, 0, 1, 3] := by
  constructor
  · intro i hi
    have : i = 0 ∨ i = 1 ∨ i = 2 := by simp at hi; omega
    rcases this with rfl | rfl | rfl
    all_goals
      simp only [List.length_cons, List.length_nil, zero_add, Nat.reduceAdd]
      rw [Finset.sum_erase_eq_sub (by simp)]
      simp [Finset.sum_range_succ, gram, entry, extent]
      norm_num
  · intro h
    have := h 0 1 (by norm_num) (by norm_num) (by norm_num)
    simp [Finset.sum_range_succ, entry] at this

end
end Bwsl
