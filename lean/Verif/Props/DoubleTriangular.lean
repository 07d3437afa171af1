import Verif.Lemmas.DoubleTriangular
import Verif.Props.DoubleLattice

/-! Property C106: the triangular lattice in double precision. -/

namespace Bwsl
open Spec

set_option linter.unusedSectionVars false

section
variable {A : Arith ℝ} {b : Bravais (Num A)} {L M : Nat}

theorem pair_eq {c : List Int} (h : c.length = 2) : c = [coord c 0, coord c 1] := by
  match c, h with
  | [u, v], _ => rfl

theorem sumSquared_two (hA : A.IsBinary64) (x y : Num A) : sumSquared [x, y] = .fin 0 + squareF x + squareF y := by
  unfold sumSquared
  rw [Num.ofInt_eq, Int.cast_zero, round_double hA double_zero (by simp)]
  rfl

/-- The bounds on the coordinates of the images. -/
theorem within_tri (hL : L ≤ 2 ^ 22) (hM : M ≤ 2 ^ 22) {c : List Int} (hc : Within [L, M] c) :
    c.length = 2 ∧ |coord c 0| ≤ 2 ^ 23 ∧ |coord c 1| ≤ 2 ^ 23 := by
  have h0 := hc.2 0 (by simp)
  have h1 := hc.2 1 (by simp)
  have e0 : extent [L, M] 0 = (L : Int) := rfl
  have e1 : extent [L, M] 1 = (M : Int) := rfl
  rw [e0] at h0
  rw [e1] at h1
  exact ⟨hc.1, by omega, by omega⟩

theorem getDistanceVector_tri (hA : A.IsBinary64) (hq : A.sqrt = Real.sqrt) (hb : triangularLattice = .ok b)
    (hL : L ≤ 2 ^ 22) (hM : M ≤ 2 ^ 22) {c : List Int} (hc : Within [L, M] c) (hn : Near 2 (crd [L, M] 0) c) :
    b.getDistanceVector (crd [L, M] 0) c = .ok (.fin (triDist (coord c 0) (coord c 1)),
      [.fin ((coord c 0 : ℝ) + coord c 1 / 2), .fin (rn (coord c 1 * half3))]) := by
  obtain ⟨hl, h0, h1⟩ := within_tri hL hM hc
  have hd := (triangular_vectors hA hq hb).1
  unfold Bravais.getDistanceVector
  rw [getVector_eq (hd ▸ hn), minus_origin hc.1, hd]
  have e := triangular_realSpace hA hq hb h0 h1
  rw [← pair_eq hl] at e
  rw [e, Res.ok_bind]
  have e2 : (accumulate 2 fun i => do
      let x ← subscript [(Num.fin ((coord c 0 : ℝ) + coord c 1 / 2) : Num A), .fin (rn (coord c 1 * half3))] i
      Res.ok (squareF x)) = .ok (.fin 0 + squareF (.fin ((coord c 0 : ℝ) + coord c 1 / 2)) + squareF (.fin (rn (coord c 1 * half3)))) := rfl
  rw [e2, Res.ok_bind, tri_squares hA h0 h1, tri_sqrt hA hq h0 h1]

/-- What `GetDistance` computes: the least of the computed distances to the images of the first shell. -/
theorem closed_tri (hA : A.IsBinary64) (hq : A.sqrt = Real.sqrt) (hb : triangularLattice = .ok b) (hs : Buildable [L, M])
    (hL : L ≤ 2 ^ 22) (hM : M ≤ 2 ^ 22) {l : Lattice (Num A)} (hl : Lattice.new b [L, M] .closed = .ok l) {x y : Nat}
    (hx : x < L * M) (hy : y < L * M) :
    ∃ p q : Int, (-1 ≤ p ∧ p ≤ 1) ∧ (-1 ≤ q ∧ q ≤ 1) ∧
      l.getDistance x y = .ok (.fin (triDist
        (coord (wrap [L, M] (minus (crd [L, M] y) (crd [L, M] x))) 0 + p * L)
        (coord (wrap [L, M] (minus (crd [L, M] y) (crd [L, M] x))) 1 + q * M))) ∧
      ∀ p' q' : Int, -1 ≤ p' ∧ p' ≤ 1 → -1 ≤ q' ∧ q' ≤ 1 →
        triDist (coord (wrap [L, M] (minus (crd [L, M] y) (crd [L, M] x))) 0 + p * L)
          (coord (wrap [L, M] (minus (crd [L, M] y) (crd [L, M] x))) 1 + q * M) ≤
        triDist (coord (wrap [L, M] (minus (crd [L, M] y) (crd [L, M] x))) 0 + p' * L)
          (coord (wrap [L, M] (minus (crd [L, M] y) (crd [L, M] x))) 1 + q' * M) := by
  obtain ⟨b'', h3, hr⟩ := triangular_regular (F := Num A)
  rw [hb, Res.ok.injEq] at h3
  subst h3
  have hxx : x < [L, M].prod := by simpa using hx
  have hyy : y < [L, M].prod := by simpa using hy
  have hg : OnGrid (wrap [L, M] (minus (crd [L, M] y) (crd [L, M] x))) [L, M] :=
    wrap_onGrid hs.1.1 (length_minus (onGrid_length (crd_onGrid hs.1.1 hxx)) (onGrid_length (crd_onGrid hs.1.1 hyy)))
  obtain ⟨m, hm, -, hD, hmin⟩ := closed_any (size := [L, M]) hs hr
    (ρ := fun c => triDist (coord c 0) (coord c 1))
    (ξ := fun c => [.fin ((coord c 0 : ℝ) + coord c 1 / 2), .fin (rn (coord c 1 * half3))])
    (fun c m hc hm => getDistanceVector_tri hA hq hb hL hM (within_image hc hm) (image_near hs hc hm)) hl hxx hyy
  have e0 : ∀ m : List Int, coord (image [L, M] (wrap [L, M] (minus (crd [L, M] y) (crd [L, M] x))) m) 0 =
      coord (wrap [L, M] (minus (crd [L, M] y) (crd [L, M] x))) 0 + coord m 0 * L := fun m => coord_image (size := [L, M]) (by simp)
  have e1 : ∀ m : List Int, coord (image [L, M] (wrap [L, M] (minus (crd [L, M] y) (crd [L, M] x))) m) 1 =
      coord (wrap [L, M] (minus (crd [L, M] y) (crd [L, M] x))) 1 + coord m 1 * M := fun m => coord_image (size := [L, M]) (by simp)
  obtain ⟨-, w0, w1⟩ := within_tri hL hM (within_image hg hm)
  refine ⟨coord m 0, coord m 1, hm.coord 0, hm.coord 1, ?_, fun p' q' hp hq' => ?_⟩
  · rw [hD, sumSquared_two hA, tri_squares hA w0 w1, tri_sqrt hA hq w0 w1, e0, e1]
  · have := hmin [p', q'] ⟨rfl, fun z hz => by
      simp only [List.mem_cons, List.not_mem_nil, or_false] at hz
      rcases hz with rfl | rfl
      · exact hp
      · exact hq'⟩
    simp only [e0, e1] at this
    exact this

/-- A larger squared distance is computed as a larger distance, if neither is excessive. -/
theorem triDist_lt {u v u' v' : Int} (h : hex u v < hex u' v') (hb : hex u v < 2 ^ 48) : triDist u v < triDist u' v' := by
  have h1 := (triDist_bounds u v).2
  have h2 := (triDist_bounds u' v').1
  have h3 : (hex u v : ℝ) + 1 ≤ hex u' v' := by exact_mod_cast h
  have h4 : (hex u v : ℝ) < 2 ^ 48 := by exact_mod_cast hb
  have h0 : (0 : ℝ) ≤ hex u v := by exact_mod_cast hex_nonneg u v
  have h5 : triDist u v ^ 2 < triDist u' v' ^ 2 := by
    refine lt_of_le_of_lt h1 (lt_of_lt_of_le ?_ (le_trans (mul_le_mul_of_nonneg_left h3 (by norm_num)) h2))
    norm_num at h4 ⊢
    linarith
  exact lt_of_pow_lt_pow_left₀ 2 (triDist_nonneg ..) h5

/-- The true distance between two sites. -/
theorem tri_least (hs : Buildable [L, M]) (h1 : L ≤ 2 * M) (h2 : M ≤ 2 * L) {x y : Nat} (hx : x < L * M) (hy : y < L * M) :
    ∃ p q : Int, (-1 ≤ p ∧ p ≤ 1) ∧ (-1 ≤ q ∧ q ≤ 1) ∧
      IsLeast (imageDistances [L, M] [1, 0, 1 / 2, √3 / 2] (crd [L, M] x) (crd [L, M] y))
        √(hex (coord (wrap [L, M] (minus (crd [L, M] y) (crd [L, M] x))) 0 + p * L)
          (coord (wrap [L, M] (minus (crd [L, M] y) (crd [L, M] x))) 1 + q * M) : ℝ) ∧
      ∀ p' q' : Int,
        hex (coord (wrap [L, M] (minus (crd [L, M] y) (crd [L, M] x))) 0 + p * L)
          (coord (wrap [L, M] (minus (crd [L, M] y) (crd [L, M] x))) 1 + q * M) ≤
        hex (coord (wrap [L, M] (minus (crd [L, M] y) (crd [L, M] x))) 0 + p' * L)
          (coord (wrap [L, M] (minus (crd [L, M] y) (crd [L, M] x))) 1 + q' * M) := by
  have hxx : x < [L, M].prod := by simpa using hx
  have hyy : y < [L, M].prod := by simpa using hy
  have hlx : (crd [L, M] x).length = [L, M].length := onGrid_length (crd_onGrid hs.1.1 hxx)
  have hly : (crd [L, M] y).length = [L, M].length := onGrid_length (crd_onGrid hs.1.1 hyy)
  have hlm := length_minus hlx hly
  have hg : OnGrid (wrap [L, M] (minus (crd [L, M] y) (crd [L, M] x))) [L, M] := wrap_onGrid hs.1.1 hlm
  have g0 := (onGrid_iff.1 hg).2 0 (by simp)
  have g1 := (onGrid_iff.1 hg).2 1 (by simp)
  have e0 : extent [L, M] 0 = (L : Int) := rfl
  have e1 : extent [L, M] 1 = (M : Int) := rfl
  rw [e0] at g0
  rw [e1] at g1
  obtain ⟨p, q, hp, hq, hmin⟩ := hex_shell (L := L) (M := M) (by omega) (by omega) (by omega) (by omega) g0 g1
  refine ⟨p, q, hp, hq, ⟨⟨tab [L, M].length (fun k => coord [p, q] k - coord (minus (crd [L, M] y) (crd [L, M] x)) k / extent [L, M] k),
    length_tab .., ?_⟩, ?_⟩, hmin⟩
  · unfold imageDistance
    rw [minus_image hlx hly, ← wrap_image hlm]
    exact (reach_triangular (m := [p, q])).symm
  · rintro r ⟨n, hn, rfl⟩
    unfold imageDistance
    rw [minus_image hlx hly, image_wrap hlm]
    refine le_trans ?_ (le_of_eq (reach_triangular).symm)
    exact Real.sqrt_le_sqrt (by exact_mod_cast hmin _ _)

theorem tri_coord_bounds (hs : Buildable [L, M]) {x y : Nat} (hx : x < L * M) (hy : y < L * M) :
    (0 ≤ coord (wrap [L, M] (minus (crd [L, M] y) (crd [L, M] x))) 0 ∧
      coord (wrap [L, M] (minus (crd [L, M] y) (crd [L, M] x))) 0 < L) ∧
    (0 ≤ coord (wrap [L, M] (minus (crd [L, M] y) (crd [L, M] x))) 1 ∧
      coord (wrap [L, M] (minus (crd [L, M] y) (crd [L, M] x))) 1 < M) := by
  have hxx : x < [L, M].prod := by simpa using hx
  have hyy : y < [L, M].prod := by simpa using hy
  have hlx : (crd [L, M] x).length = [L, M].length := onGrid_length (crd_onGrid hs.1.1 hxx)
  have hly : (crd [L, M] y).length = [L, M].length := onGrid_length (crd_onGrid hs.1.1 hyy)
  have hg : OnGrid (wrap [L, M] (minus (crd [L, M] y) (crd [L, M] x))) [L, M] := wrap_onGrid hs.1.1 (length_minus hlx hly)
  exact ⟨(onGrid_iff.1 hg).2 0 (by simp), (onGrid_iff.1 hg).2 1 (by simp)⟩

theorem hex_lt_48 {u v p q L M : Int} (hu : 0 ≤ u ∧ u < L) (hv : 0 ≤ v ∧ v < M) (hL : L ≤ 2 ^ 22) (hM : M ≤ 2 ^ 22)
    (hp : -1 ≤ p ∧ p ≤ 1) (hq : -1 ≤ q ∧ q ≤ 1) : hex (u + p * L) (v + q * M) < 2 ^ 48 := by
  have h1 : -2 ^ 23 ≤ u + p * L ∧ u + p * L ≤ 2 ^ 23 := by
    have : p = -1 ∨ p = 0 ∨ p = 1 := by omega
    rcases this with rfl | rfl | rfl <;> omega
  have h2 : -2 ^ 23 ≤ v + q * M ∧ v + q * M ≤ 2 ^ 23 := by
    have : q = -1 ∨ q = 0 ∨ q = 1 := by omega
    rcases this with rfl | rfl | rfl <;> omega
  generalize u + p * L = a at *
  generalize v + q * M = c at *
  unfold hex
  nlinarith

/-- The computed distance is that to a nearest image, and accurate. -/
theorem tri_distance (hA : A.IsBinary64) (hq : A.sqrt = Real.sqrt) (hb : triangularLattice = .ok b) (hs : Buildable [L, M])
    (hL : L ≤ 2 ^ 22) (hM : M ≤ 2 ^ 22) (h1 : L ≤ 2 * M) (h2 : M ≤ 2 * L) {l : Lattice (Num A)}
    (hl : Lattice.new b [L, M] .closed = .ok l) {x y : Nat} (hx : x < L * M) (hy : y < L * M) :
    ∃ u v : Int, l.getDistance x y = .ok (.fin (triDist u v)) ∧ hex u v < 2 ^ 48 ∧
      IsLeast (imageDistances [L, M] [1, 0, 1 / 2, √3 / 2] (crd [L, M] x) (crd [L, M] y)) √(hex u v : ℝ) := by
  obtain ⟨p, q, hp, hq', hD, hmin⟩ := closed_tri hA hq hb hs hL hM hl hx hy
  obtain ⟨p', q', hp', hq'', hL', hmin'⟩ := tri_least hs h1 h2 hx hy
  obtain ⟨b0, b1⟩ := tri_coord_bounds hs hx hy
  have k1 := hex_lt_48 b0 b1 (by exact_mod_cast hL) (by exact_mod_cast hM) hp hq'
  have k2 := hex_lt_48 b0 b1 (by exact_mod_cast hL) (by exact_mod_cast hM) hp' hq''
  refine ⟨_, _, hD, k1, ?_⟩
  have h3 := hmin' p q
  have h4 : ¬ _ < _ := fun h => absurd (triDist_lt h k2) (not_lt.2 (hmin p' q' hp' hq''))
  rw [le_antisymm h3 (not_lt.1 h4)] at hL'
  exact hL'

/-- C106.  On a closed triangular lattice with extents up to 2^22, neither more than twice the other, the distance
computed in double precision differs from the true one by at most four units in the last place: eight rounding errors in
its square. -/
theorem C106_error_partial (hA : A.IsBinary64) (hq : A.sqrt = Real.sqrt) (hb : triangularLattice = .ok b) (hs : Buildable [L, M])
    (hL : L ≤ 2 ^ 22) (hM : M ≤ 2 ^ 22) (h1 : L ≤ 2 * M) (h2 : M ≤ 2 * L) (l : Lattice (Num A))
    (hl : Lattice.new b [L, M] .closed = .ok l) (x y : Nat) (hx : x < L * M) (hy : y < L * M) (cx cy : List Int)
    (hcx : l.grid.getCoordinates x = .ok cx) (hcy : l.grid.getCoordinates y = .ok cy) :
    ∃ D r, IsLeast (imageDistances [L, M] [1, 0, 1 / 2, √3 / 2] cx cy) D ∧ l.getDistance x y = .ok (.fin r) ∧ 0 ≤ r ∧
      (1 - 1 / 2 ^ 53) ^ 8 * D ^ 2 ≤ r ^ 2 ∧ r ^ 2 ≤ (1 + 1 / 2 ^ 53) ^ 8 * D ^ 2 := by
  rw [(new_parts hl).1, getCoordinates_eq hs.1 (buildable_fits hs) .closed (by simpa using hx), Res.ok.injEq] at hcx
  rw [(new_parts hl).1, getCoordinates_eq hs.1 (buildable_fits hs) .closed (by simpa using hy), Res.ok.injEq] at hcy
  subst hcx hcy
  obtain ⟨u, v, hD, -, hle⟩ := tri_distance hA hq hb hs hL hM h1 h2 hl hx hy
  refine ⟨_, _, hle, hD, triDist_nonneg .., ?_⟩
  rw [Real.sq_sqrt (by exact_mod_cast hex_nonneg u v)]
  exact triDist_bounds u v

/-- C106.  There, pairs of sites at different distances are computed to be at different distances, in the same order. -/
theorem C106_compare_partial (hA : A.IsBinary64) (hq : A.sqrt = Real.sqrt) (hb : triangularLattice = .ok b) (hs : Buildable [L, M])
    (hL : L ≤ 2 ^ 22) (hM : M ≤ 2 ^ 22) (h1 : L ≤ 2 * M) (h2 : M ≤ 2 * L) (l : Lattice (Num A))
    (hl : Lattice.new b [L, M] .closed = .ok l) (x y z w : Nat) (hx : x < L * M) (hy : y < L * M) (hz : z < L * M)
    (hw : w < L * M) (cx cy cz cw : List Int) (hcx : l.grid.getCoordinates x = .ok cx) (hcy : l.grid.getCoordinates y = .ok cy)
    (hcz : l.grid.getCoordinates z = .ok cz) (hcw : l.grid.getCoordinates w = .ok cw) (D E : ℝ)
    (hD : IsLeast (imageDistances [L, M] [1, 0, 1 / 2, √3 / 2] cx cy) D)
    (hE : IsLeast (imageDistances [L, M] [1, 0, 1 / 2, √3 / 2] cz cw) E) (hlt : D < E) :
    ∃ d e, l.getDistance x y = .ok d ∧ l.getDistance z w = .ok e ∧ CxxFloat.lt d e = true := by
  rw [(new_parts hl).1, getCoordinates_eq hs.1 (buildable_fits hs) .closed (by simpa using hx), Res.ok.injEq] at hcx
  rw [(new_parts hl).1, getCoordinates_eq hs.1 (buildable_fits hs) .closed (by simpa using hy), Res.ok.injEq] at hcy
  rw [(new_parts hl).1, getCoordinates_eq hs.1 (buildable_fits hs) .closed (by simpa using hz), Res.ok.injEq] at hcz
  rw [(new_parts hl).1, getCoordinates_eq hs.1 (buildable_fits hs) .closed (by simpa using hw), Res.ok.injEq] at hcw
  subst hcx hcy hcz hcw
  obtain ⟨u, v, e1, k1, l1⟩ := tri_distance hA hq hb hs hL hM h1 h2 hl hx hy
  obtain ⟨u', v', e2, k2, l2⟩ := tri_distance hA hq hb hs hL hM h1 h2 hl hz hw
  refine ⟨_, _, e1, e2, ?_⟩
  rw [Num.lt_fin, decide_eq_true_eq]
  refine triDist_lt ?_ k1
  rw [hD.unique l1, hE.unique l2] at hlt
  have h3 := (Real.sqrt_lt_sqrt_iff (by exact_mod_cast hex_nonneg u v)).1 hlt
  exact_mod_cast h3

/-! ### Sites at the same distance -/

theorem hex_eq_one {u v : Int} (h : hex u v ≤ 1) (h0 : ¬ (u = 0 ∧ v = 0)) :
    (v = 0 ∧ (u = 1 ∨ u = -1)) ∨ ((v = 1 ∨ v = -1) ∧ (2 * u + v = 1 ∨ 2 * u + v = -1)) := by
  unfold hex at h
  have h1 : (2 * u + v) ^ 2 + 3 * v ^ 2 ≤ 4 := by nlinarith
  have hv : -1 ≤ v ∧ v ≤ 1 := by constructor <;> nlinarith [sq_nonneg (2 * u + v)]
  have : v = -1 ∨ v = 0 ∨ v = 1 := by omega
  rcases this with rfl | rfl | rfl
  · right
    have : -1 ≤ 2 * u + -1 ∧ 2 * u + -1 ≤ 1 := by constructor <;> nlinarith
    omega
  · left
    have : -1 ≤ u ∧ u ≤ 1 := by constructor <;> nlinarith
    omega
  · right
    have : -1 ≤ 2 * u + 1 ∧ 2 * u + 1 ≤ 1 := by constructor <;> nlinarith
    omega

/-- C106 is violated: on every closed triangular lattice with extents from 2 to 2^22 all six neighbours of a site are at
distance 1, but in double precision only those in the first direction are; the others are computed to be closer. -/
theorem C106_neighbours_violated (hA : A.IsBinary64) (hq : A.sqrt = Real.sqrt) (hb : triangularLattice = .ok b)
    (hs : Buildable [L, M]) (hL : L ≤ 2 ^ 22) (hM : M ≤ 2 ^ 22) (hL2 : 2 ≤ L) (hM2 : 2 ≤ M) (l : Lattice (Num A))
    (hl : Lattice.new b [L, M] .closed = .ok l) (x y : Nat) (hx : x < L * M) (hy : y < L * M) (i j : Int)
    (hcx : l.grid.getCoordinates x = .ok [i, j]) :
    (i + 1 < L → l.grid.getCoordinates y = .ok [i + 1, j] → l.getDistance x y = .ok (.fin 1)) ∧
    (j + 1 < M → l.grid.getCoordinates y = .ok [i, j + 1] → l.getDistance x y = .ok (.fin (1 - 1 / 2 ^ 53))) := by
  have hxx : x < [L, M].prod := by simpa using hx
  have hyy : y < [L, M].prod := by simpa using hy
  rw [(new_parts hl).1, getCoordinates_eq hs.1 (buildable_fits hs) .closed hxx, Res.ok.injEq] at hcx
  rw [(new_parts hl).1, getCoordinates_eq hs.1 (buildable_fits hs) .closed hyy, Res.ok.injEq, Res.ok.injEq]
  obtain ⟨p, q, hp, hq', hD, hmin⟩ := closed_tri hA hq hb hs hL hM hl hx hy
  have hw : ∀ k, k < 2 → coord (wrap [L, M] (minus (crd [L, M] y) (crd [L, M] x))) k =
      (coord (crd [L, M] y) k - coord (crd [L, M] x) k) % extent [L, M] k := by
    intro k hk
    have hlx : (crd [L, M] x).length = [L, M].length := onGrid_length (crd_onGrid hs.1.1 hxx)
    have hly : (crd [L, M] y).length = [L, M].length := onGrid_length (crd_onGrid hs.1.1 hyy)
    rw [coord_wrap (size := [L, M]) (length_minus hlx hly) hk, coord_minus (hlx.trans hly.symm)]
  have w0 := hw 0 (by omega)
  have w1 := hw 1 (by omega)
  have e0 : extent [L, M] 0 = (L : Int) := rfl
  have e1 : extent [L, M] 1 = (M : Int) := rfl
  rw [e0, hcx] at w0
  rw [e1, hcx] at w1
  rw [hcx] at hD hmin
  have m0 : (0 : Int) % (M : Int) = 0 := Int.zero_emod _
  have m0' : (0 : Int) % (L : Int) = 0 := Int.zero_emod _
  have m1 : (1 : Int) % (L : Int) = 1 := Int.emod_eq_of_lt (by omega) (by omega)
  have m1' : (1 : Int) % (M : Int) = 1 := Int.emod_eq_of_lt (by omega) (by omega)
  have c00 : coord [i, j] 0 = i := rfl
  have c01 : coord [i, j] 1 = j := rfl
  constructor
  · intro hi hcy
    rw [hcy] at w0 w1 hD hmin
    rw [c00, show coord [i + 1, j] 0 = i + 1 from rfl, show i + 1 - i = 1 by ring, m1] at w0
    rw [c01, show coord [i + 1, j] 1 = j from rfl, sub_self, m0] at w1
    rw [w0, w1] at hD hmin
    rw [hD]
    have hle := hmin 0 0 (by omega) (by omega)
    simp only [zero_mul, add_zero] at hle
    have hh : hex (1 + p * L) (0 + q * M) ≤ 1 := by
      by_contra hc
      have := triDist_lt (u := 1) (v := 0) (u' := 1 + p * L) (v' := 0 + q * M) (by have : hex 1 0 = 1 := rfl; omega) (by decide)
      exact absurd this (not_lt.2 hle)
    have hne : ¬ (1 + p * (L : Int) = 0 ∧ 0 + q * (M : Int) = 0) := by
      rintro ⟨h, -⟩
      have : p = -1 ∨ p = 0 ∨ p = 1 := by omega
      rcases this with rfl | rfl | rfl <;> omega
    have hq0 : q = 0 := by
      have : q = -1 ∨ q = 0 ∨ q = 1 := by omega
      rcases this with rfl | rfl | rfl
      · rcases hex_eq_one hh hne with h | h <;> omega
      · rfl
      · rcases hex_eq_one hh hne with h | h <;> omega
    subst hq0
    rw [zero_mul, add_zero] at hh hne ⊢
    rcases hex_eq_one hh hne with h | h
    · rw [triDist_first h.2]
    · omega
  · intro hj hcy
    rw [hcy] at w0 w1 hD hmin
    rw [c00, show coord [i, j + 1] 0 = i from rfl, sub_self, m0'] at w0
    rw [c01, show coord [i, j + 1] 1 = j + 1 from rfl, show j + 1 - j = 1 by ring, m1'] at w1
    rw [w0, w1] at hD hmin
    rw [hD]
    have hle := hmin 0 0 (by omega) (by omega)
    simp only [zero_mul, add_zero] at hle
    have hh : hex (0 + p * L) (1 + q * M) ≤ 1 := by
      by_contra hc
      have := triDist_lt (u := 0) (v := 1) (u' := 0 + p * L) (v' := 1 + q * M) (by have : hex 0 1 = 1 := rfl; omega) (by decide)
      exact absurd this (not_lt.2 hle)
    have hne : ¬ (0 + p * (L : Int) = 0 ∧ 1 + q * (M : Int) = 0) := by
      rintro ⟨-, h⟩
      have : q = -1 ∨ q = 0 ∨ q = 1 := by omega
      rcases this with rfl | rfl | rfl <;> omega
    rcases hex_eq_one hh hne with h | h
    · exfalso
      have : q = -1 ∨ q = 0 ∨ q = 1 := by omega
      rcases this with rfl | rfl | rfl <;> omega
    · rw [triDist_second h.1 h.2]

/-- The four neighbours in the other directions, from the lattice vectors themselves: `Bravais::GetDistance` between
neighbouring points is 1 or the largest `double` below 1. -/
theorem C106_bravais_violated (hA : A.IsBinary64) (hq : A.sqrt = Real.sqrt) (hb : triangularLattice = .ok b) :
    b.getDistance [0, 0] [1, 0] = .ok (.fin 1) ∧ b.getDistance [0, 0] [0, 1] = .ok (.fin (1 - 1 / 2 ^ 53)) ∧
    b.getDistance [0, 0] [1, -1] = .ok (.fin (1 - 1 / 2 ^ 53)) := by
  have hd := (triangular_vectors hA hq hb).1
  have key : ∀ u v : Int, |u| ≤ 2 ^ 23 → |v| ≤ 2 ^ 23 → b.getDistance [0, 0] [u, v] = .ok (.fin (triDist u v)) := by
    intro u v hu hv
    have hn : Near b.dim [0, 0] [u, v] := by
      rw [hd]
      refine ⟨rfl, rfl, fun z hz => ?_⟩
      simp only [minus, List.zipWith_cons_cons, List.zipWith_nil_left, List.mem_cons, List.not_mem_nil, or_false, sub_zero] at hz
      rw [abs_le] at hu hv
      rcases hz with rfl | rfl <;> omega
    unfold Bravais.getDistance
    have hm : minus [u, v] [0, 0] = [u, v] := by simp [minus]
    rw [getVector_eq hn, hm, hd, triangular_realSpace hA hq hb hu hv, Res.ok_bind]
    have e2 : (accumulate 2 fun i => do
        let x ← subscript [(Num.fin ((u : ℝ) + v / 2) : Num A), .fin (rn (v * half3))] i
        Res.ok (squareF x)) = .ok (.fin 0 + squareF (.fin ((u : ℝ) + v / 2)) + squareF (.fin (rn (v * half3)))) := rfl
    rw [e2, Res.ok_bind, tri_squares hA hu hv, tri_sqrt hA hq hu hv]
  refine ⟨?_, ?_, ?_⟩
  · rw [key 1 0 (by decide) (by decide), triDist_first (.inl rfl)]
  · rw [key 0 1 (by decide) (by decide), triDist_second (.inl rfl) (.inl rfl)]
  · rw [key 1 (-1) (by decide) (by decide), triDist_second (.inr rfl) (.inl rfl)]

/-- A closed triangular lattice of 6 by 4 sites meets the hypotheses. -/
example : ∃ (b : Bravais (Num doubleArith)) (l : Lattice (Num doubleArith)), triangularLattice = .ok b ∧ Buildable [6, 4] ∧
    6 ≤ 2 * 4 ∧ 4 ≤ 2 * 6 ∧ Lattice.new b [6, 4] .closed = .ok l ∧ doubleArith.sqrt = Real.sqrt := by
  obtain ⟨b, h1, h2⟩ := triangular_regular (F := Num doubleArith)
  have hs : Buildable [6, 4] := ⟨by decide, by decide⟩
  obtain ⟨l, hl, -⟩ := C73_defined hs (b := b) h2 .closed (fun _ => by decide)
  exact ⟨b, l, h1, hs, by decide, by decide, hl, rfl⟩

end
end Bwsl
