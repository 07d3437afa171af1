import Verif.Lemmas.Nearest
import Mathlib.Tactic.Linarith
import Mathlib.Algebra.BigOperators.Ring.Finset
import Mathlib.Algebra.Order.BigOperators.Group.Finset

/-! Properties C74–C76: distances on closed lattices. -/

namespace Bwsl
open Spec

set_option linter.unusedSectionVars false

section
variable {A : Arith ℝ} {b : Bravais (Num A)} {size : List Nat} {g : Nat} {P Q : List ℝ} {N : List Int}

/-! ### C76: vectors -/

/-- C76.  `GetVector` is the displacement to some periodic image, and `GetDistance` is its length. -/
theorem C76_vector (hA : A.IsReal) (hs : Buildable size) (hb : Holds b size.length g P Q N) (hr : Regular b size.length)
    (l : Lattice (Num A)) (hl : Lattice.new b size .closed = .ok l) (x y : Nat) (hx : x < size.prod) (hy : y < size.prod)
    (cx cy : List Int) (hcx : l.grid.getCoordinates x = .ok cx) (hcy : l.grid.getCoordinates y = .ok cy) :
    ∃ m : List Int, m.length = size.length ∧
      l.getVector x y = .ok ((embed size.length P (minus (image size cy m) cx)).map .fin) ∧
      l.getDistance x y = .ok (.fin (imageDistance size P cx cy m)) := by
  rw [(new_parts hl).1, getCoordinates_eq hs.1 (buildable_fits hs) .closed hx, Res.ok.injEq] at hcx
  rw [(new_parts hl).1, getCoordinates_eq hs.1 (buildable_fits hs) .closed hy, Res.ok.injEq] at hcy
  subst hcx hcy
  obtain ⟨m, hm, hv, hD, hmin⟩ := closed_eq hA hs hb hr hl hx hy
  have hlx := onGrid_length (crd_onGrid hs.1.1 hx)
  have hly := onGrid_length (crd_onGrid hs.1.1 hy)
  have hlm := length_minus hlx hly
  refine ⟨tab size.length (fun k => coord m k - coord (minus (crd size y) (crd size x)) k / extent size k),
    length_tab .., ?_, ?_⟩
  · rw [minus_image hlx hly, ← wrap_image hlm]; exact hv
  · unfold imageDistance
    rw [minus_image hlx hly, ← wrap_image hlm]; exact hD

/-- C76.  `GetPosition` is the point with the coordinates of the site, in any arithmetic. -/
theorem C76_position {F : Type} [CxxFloat F] {b : Bravais F} (hs : Buildable size) (hr : Regular b size.length)
    (bd : Boundaries) (l : Lattice F) (hl : Lattice.new b size bd = .ok l) (x : Nat) (hx : x < size.prod) (cx : List Int)
    (hcx : l.grid.getCoordinates x = .ok cx) : ∃ v, l.getPosition x = .ok v ∧ b.getRealSpace cx = .ok v := by
  rw [(new_parts hl).1, getCoordinates_eq hs.1 (buildable_fits hs) bd hx, Res.ok.injEq] at hcx
  subst hcx
  obtain ⟨ps, h1, h2, h3⟩ := computePositions_ok hs hr bd
  have hp := (new_parts hl).2.1
  rw [h1, Res.ok.injEq] at hp
  have hx' : x < ps.length := h2 ▸ hx
  refine ⟨_, ?_, h3 x _ (List.getElem?_eq_getElem hx')⟩
  unfold Lattice.getPosition
  rw [indexIsValid_eq hs hl hx, if_pos rfl, ← hp, subscript_isOk hx']

/-! ### Consequences of being a least distance -/

/-- `GetDistance` as a relation between sites. -/
def Dist (l : Lattice (Num A)) (x y : Nat) (D : ℝ) : Prop := l.getDistance x y = .ok (.fin D)

/-- What it means for distances to be those between nearest images: least over all images, and a metric. -/
structure NearestImage (size : List Nat) (P : List ℝ) (l : Lattice (Num A)) : Prop where
  least : ∀ x y cx cy, x < size.prod → y < size.prod → l.grid.getCoordinates x = .ok cx → l.grid.getCoordinates y = .ok cy →
    ∃ D, Dist l x y D ∧ IsLeast (imageDistances size P cx cy) D
  symmetric : ∀ x y, x < size.prod → y < size.prod → l.getDistance x y = l.getDistance y x
  triangle : ∀ x y z Dxy Dyz Dxz, x < size.prod → y < size.prod → z < size.prod → Dist l x y Dxy → Dist l y z Dyz →
    Dist l x z Dxz → Dxz ≤ Dxy + Dyz
  definite : ∀ x y D, x < size.prod → y < size.prod → Dist l x y D → (D = 0 ↔ x = y)

theorem nearestImage (hA : A.IsReal) (hs : Buildable size) (hb : Holds b size.length g P Q N) (hr : Regular b size.length)
    (hP : Independent size.length P) (hS : ShellSuffices size P) {l : Lattice (Num A)}
    (hl : Lattice.new b size .closed = .ok l) : NearestImage size P l := by
  have hlen : ∀ {x}, x < size.prod → (crd size x).length = size.length := fun hx => onGrid_length (crd_onGrid hs.1.1 hx)
  have key : ∀ {x y D}, x < size.prod → y < size.prod → Dist l x y D →
      IsLeast (imageDistances size P (crd size x) (crd size y)) D := by
    intro x y D hx hy hD
    obtain ⟨D', h1, h2⟩ := least_of_shell hA hs hb hr hS hl hx hy
    unfold Dist at hD
    rw [h1, Res.ok.injEq, Num.fin.injEq] at hD
    exact hD ▸ h2
  refine ⟨?_, ?_, ?_, ?_⟩
  · intro x y cx cy hx hy hcx hcy
    rw [(new_parts hl).1, getCoordinates_eq hs.1 (buildable_fits hs) .closed hx, Res.ok.injEq] at hcx
    rw [(new_parts hl).1, getCoordinates_eq hs.1 (buildable_fits hs) .closed hy, Res.ok.injEq] at hcy
    subst hcx hcy
    exact least_of_shell hA hs hb hr hS hl hx hy
  · intro x y hx hy
    obtain ⟨D, h1, h2⟩ := least_of_shell hA hs hb hr hS hl hx hy
    obtain ⟨D', h3, h4⟩ := least_of_shell hA hs hb hr hS hl hy hx
    rw [imageDistances_symm P (hlen hx) (hlen hy)] at h2
    rw [h1, h3, h2.unique h4]
  · intro x y z Dxy Dyz Dxz hx hy hz h1 h2 h3
    obtain ⟨⟨m, hm, rfl⟩, -⟩ := key hx hy h1
    obtain ⟨⟨n, hn, rfl⟩, -⟩ := key hy hz h2
    refine le_trans ((key hx hz h3).2 ⟨_, length_tab .., rfl⟩) (imageDistance_triangle P (hlen hx) (hlen hy) (hlen hz))
  · intro x y D hx hy hD
    have hL := key hx hy hD
    have hnn : ∀ r ∈ imageDistances size P (crd size x) (crd size y), 0 ≤ r := by
      rintro r ⟨m, -, rfl⟩; exact Real.sqrt_nonneg _
    constructor
    · rintro rfl
      obtain ⟨⟨m, hm, h0⟩, -⟩ := hL
      have hz := hP _ (length_minus (hlen hx) (length_image ..)) (length_eq_zero h0.symm)
      have : crd size y = crd size x := by
        refine congruent_onGrid_eq (crd_onGrid hs.1.1 hy) (crd_onGrid hs.1.1 hx)
          (congruent_iff.2 ⟨hlen hy, hlen hx, fun k hk => ?_⟩)
        have hlm : (minus (image size (crd size y) m) (crd size x)).length = size.length :=
          length_minus (hlen hx) (length_image ..)
        have h1 := hz _ (List.getElem_mem (by rw [hlm]; exact hk))
        rw [← coord_eq (by rw [hlm]; exact hk), coord_minus ((hlen hx).trans (length_image ..).symm), coord_image hk] at h1
        refine ⟨-coord m k, ?_⟩
        linear_combination h1
      rw [← idx_crd hs.1.1 hx, ← idx_crd hs.1.1 hy, this]
    · rintro rfl
      refine le_antisymm (hL.2 ⟨List.replicate size.length 0, by simp, ?_⟩) (hnn _ hL.1)
      unfold imageDistance
      rw [image_zero (hlen hx)]
      have hz : ∀ v ∈ embed size.length P (minus (crd size x) (crd size x)), v = 0 := embed_zero minus_self
      unfold Spec.length
      have : (List.map (fun v : ℝ => v * v) (embed size.length P (minus (crd size x) (crd size x)))).sum = 0 := by
        refine List.sum_eq_zero (fun v hv => ?_)
        obtain ⟨w, hw, rfl⟩ := List.mem_map.1 hv
        rw [hz w hw, mul_zero]
      rw [this, Real.sqrt_zero]

/-! ### C74: orthogonal lattices -/

theorem sum_sq_embed (d : Nat) (P : List ℝ) (c : List Int) :
    ((embed d P c).map (fun x => x * x)).sum = ∑ i ∈ Finset.range d, (∑ j ∈ Finset.range d, (coord c j : ℝ) * entry d P j i) ^ 2 := by
  unfold embed
  rw [List.map_map, list_range_sum]
  exact Finset.sum_congr rfl (fun i _ => by simp only [Function.comp]; ring)

/-- Pythagoras. -/
theorem orthogonal_sq {d : Nat} {P : List ℝ} (h : Orthogonal d P) (c : List Int) :
    ((embed d P c).map (fun x => x * x)).sum =
      ∑ j ∈ Finset.range d, (coord c j : ℝ) ^ 2 * ∑ i ∈ Finset.range d, entry d P j i ^ 2 := by
  rw [sum_sq_embed]
  have : ∀ i ∈ Finset.range d, (∑ j ∈ Finset.range d, (coord c j : ℝ) * entry d P j i) ^ 2 =
      ∑ j ∈ Finset.range d, ∑ k ∈ Finset.range d, (coord c j : ℝ) * coord c k * (entry d P j i * entry d P k i) := by
    intro i _
    rw [sq, Finset.sum_mul_sum]
    exact Finset.sum_congr rfl (fun j _ => Finset.sum_congr rfl (fun k _ => by ring))
  rw [Finset.sum_congr rfl this, Finset.sum_comm]
  refine Finset.sum_congr rfl (fun j hj => ?_)
  rw [Finset.sum_comm, Finset.sum_eq_single j]
  · rw [Finset.mul_sum]
    exact Finset.sum_congr rfl (fun i _ => by ring)
  · intro k hk hkj
    rw [← Finset.mul_sum, h j k (Finset.mem_range.1 hj) (Finset.mem_range.1 hk) (Ne.symm hkj), mul_zero]
  · intro h; exact absurd hj h

theorem orthogonal_shell (hP : Orthogonal size.length P) : ShellSuffices size P := by
  intro c hc m hm
  refine ⟨tab size.length (fun k => if 0 ≤ coord m k then 0 else -1), ⟨length_tab .., fun x hx => ?_⟩, ?_⟩
  · obtain ⟨k, -, rfl⟩ := List.mem_map.1 hx
    show -1 ≤ (if _ then _ else _) ∧ (if _ then _ else _) ≤ _
    split <;> decide
  · unfold reach Spec.length
    refine Real.sqrt_le_sqrt ?_
    rw [orthogonal_sq hP, orthogonal_sq hP]
    refine Finset.sum_le_sum (fun k hk => mul_le_mul_of_nonneg_right ?_ (Finset.sum_nonneg (fun i _ => sq_nonneg _)))
    have hk := Finset.mem_range.1 hk
    have hck := (onGrid_iff.1 hc).2 k hk
    rw [coord_image hk, coord_image hk, coord_tab hk]
    have : (coord c k + (if 0 ≤ coord m k then 0 else -1) * extent size k) ^ 2 ≤ (coord c k + coord m k * extent size k) ^ 2 := by
      split
      · rename_i h0
        have : 0 ≤ coord m k * extent size k := mul_nonneg h0 (by omega)
        nlinarith
      · rename_i h0
        have : (coord m k + 1) * extent size k ≤ 0 := mul_nonpos_of_nonpos_of_nonneg (by omega) (by omega)
        nlinarith
    exact_mod_cast this

/-- C74.  On every closed lattice with orthogonal primitive vectors `GetDistance` is the least distance over all
periodic images, symmetric, and a metric. -/
theorem C74_orthogonal (hA : A.IsReal) (hs : Buildable size) (hb : Holds b size.length g P Q N) (hr : Regular b size.length)
    (hO : Orthogonal size.length P) (hP : Independent size.length P) (l : Lattice (Num A))
    (hl : Lattice.new b size .closed = .ok l) : NearestImage size P l :=
  nearestImage hA hs hb hr hP (orthogonal_shell hO) hl

theorem chain_orthogonal : Orthogonal 1 [1] := fun j k hj hk h => by omega
theorem square_orthogonal : Orthogonal 2 [1, 0, 0, 1] := by
  intro j k hj hk h
  interval_cases j <;> interval_cases k <;> simp_all [entry, Finset.sum_range_succ]
theorem cubic_orthogonal : Orthogonal 3 [1, 0, 0, 0, 1, 0, 0, 0, 1] := by
  intro j k hj hk h
  interval_cases j <;> interval_cases k <;> simp_all [entry, Finset.sum_range_succ]

/-- The primitive vectors of the chain, square and cubic lattices. -/
def unit (d : Nat) : List ℝ := (List.range (d * d)).map (fun i => if i % (d + 1) = 0 then 1 else 0)

theorem orthogonal_cases (hA : A.IsReal)
    (hb : chainLattice = .ok b ∨ squareLattice = .ok b ∨ cubicLattice = .ok b) :
    ∃ g N, Holds b b.dim g (unit b.dim) (unit b.dim) N ∧ Regular b b.dim ∧ Orthogonal b.dim (unit b.dim) ∧
      Dual b.dim (unit b.dim) (unit b.dim) := by
  have u1 : unit 1 = [1] := by simp [unit, List.range_succ]
  have u2 : unit 2 = [1, 0, 0, 1] := by simp [unit, List.range_succ]
  have u3 : unit 3 = [1, 0, 0, 0, 1, 0, 0, 0, 1] := by simp [unit, List.range_succ]
  rcases hb with hb | hb | hb
  · obtain ⟨b', h1, h2⟩ := chain_holds hA
    obtain ⟨b'', h3, h4⟩ := chain_regular (F := Num A)
    rw [hb, Res.ok.injEq] at h1 h3
    subst h1; subst h3
    rw [h4.dim, u1]
    exact ⟨_, _, h2, h4, chain_orthogonal, chain_dual⟩
  · obtain ⟨b', h1, h2⟩ := square_holds hA
    obtain ⟨b'', h3, h4⟩ := square_regular (F := Num A)
    rw [hb, Res.ok.injEq] at h1 h3
    subst h1; subst h3
    rw [h4.dim, u2]
    exact ⟨_, _, h2, h4, square_orthogonal, square_dual⟩
  · obtain ⟨b', h1, h2⟩ := cubic_holds hA
    obtain ⟨b'', h3, h4⟩ := cubic_regular (F := Num A)
    rw [hb, Res.ok.injEq] at h1 h3
    subst h1; subst h3
    rw [h4.dim, u3]
    exact ⟨_, _, h2, h4, cubic_orthogonal, cubic_dual⟩

/-- C74.  Chain, square and cubic lattices. -/
theorem C74_predefined (hA : A.IsReal) (hb : chainLattice = .ok b ∨ squareLattice = .ok b ∨ cubicLattice = .ok b)
    (hs : Buildable size) (hd : size.length = b.dim) (l : Lattice (Num A)) (hl : Lattice.new b size .closed = .ok l) :
    NearestImage size (unit size.length) l := by
  obtain ⟨g, N, h1, h2, h3, h4⟩ := orthogonal_cases hA hb
  rw [← hd] at h1 h2 h3 h4
  exact C74_orthogonal hA hs h1 h2 h3 (independent_of_dual h4) l hl

/-! ### C75: the triangular lattice -/

/-- The squared length on the triangular lattice. -/
def hex (u v : Int) : Int := u * u + u * v + v * v

theorem hex_nonneg (u v : Int) : 0 ≤ hex u v := by unfold hex; nlinarith [sq_nonneg (u + v), sq_nonneg u, sq_nonneg v]

theorem triangular_sq (c : List Int) : ((embed 2 [1, 0, 1 / 2, √3 / 2] c).map (fun x => x * x)).sum =
    (hex (coord c 0) (coord c 1) : ℝ) := by
  have h3 : √3 * √3 = (3 : ℝ) := Real.mul_self_sqrt (by norm_num)
  simp only [embed, entry, Finset.sum_range_succ, List.range_succ, hex]
  simp
  linear_combination ((coord c 1 : ℝ) ^ 2 / 4) * h3

theorem least_pair (f : Int → Int → Nat) : ∃ m n, ∀ m' n', f m n ≤ f m' n' := by
  let F : Int × Int → Nat := fun p => f p.1 p.2
  refine ⟨(Function.argmin F).1, (Function.argmin F).2, fun m' n' => ?_⟩
  exact Function.argmin_le F (m', n')

/-- A nearest image is in the first shell when neither extent exceeds twice the other. -/
theorem hex_shell {L M c e : Int} (hL : 0 < L) (hM : 0 < M) (h1 : L ≤ 2 * M) (h2 : M ≤ 2 * L) (hc : 0 ≤ c ∧ c < L)
    (he : 0 ≤ e ∧ e < M) : ∃ m n : Int, (-1 ≤ m ∧ m ≤ 1) ∧ (-1 ≤ n ∧ n ≤ 1) ∧
      ∀ m' n', hex (c + m * L) (e + n * M) ≤ hex (c + m' * L) (e + n' * M) := by
  obtain ⟨m, n, hmin⟩ := least_pair (fun m n => (hex (c + m * L) (e + n * M)).toNat)
  have hmin' : ∀ m' n', hex (c + m * L) (e + n * M) ≤ hex (c + m' * L) (e + n' * M) := by
    intro m' n'
    have := hmin m' n'
    have h3 := hex_nonneg (c + m * L) (e + n * M)
    have h4 := hex_nonneg (c + m' * L) (e + n' * M)
    omega
  clear hmin
  have e1 := hmin' (m + 1) n
  have e2 := hmin' (m - 1) n
  have e3 := hmin' m (n + 1)
  have e4 := hmin' m (n - 1)
  have e5 := hmin' (m + 1) (n - 1)
  have e6 := hmin' (m - 1) (n + 1)
  have hu : c + (m + 1) * L = (c + m * L) + L ∧ c + (m - 1) * L = (c + m * L) - L := ⟨by ring, by ring⟩
  have hv : e + (n + 1) * M = (e + n * M) + M ∧ e + (n - 1) * M = (e + n * M) - M := ⟨by ring, by ring⟩
  rw [hu.1] at e1 e5
  rw [hu.2] at e2 e6
  rw [hv.1] at e3 e6
  rw [hv.2] at e4 e5
  have hm : ∀ q : Int, q ≤ m → c + q * L ≤ c + m * L := fun q hq => by nlinarith
  have hm' : ∀ q : Int, m ≤ q → c + m * L ≤ c + q * L := fun q hq => by nlinarith
  have hn : ∀ q : Int, q ≤ n → e + q * M ≤ e + n * M := fun q hq => by nlinarith
  have hn' : ∀ q : Int, n ≤ q → e + n * M ≤ e + q * M := fun q hq => by nlinarith
  refine ⟨m, n, ?_, ?_, hmin'⟩
  all_goals clear hmin' hu hv
  all_goals generalize c + m * L = u at *
  all_goals generalize e + n * M = v at *
  all_goals unfold hex at e1 e2 e3 e4 e5 e6
  all_goals have f1 : -L ≤ 2 * u + v := by nlinarith
  all_goals have f2 : 2 * u + v ≤ L := by nlinarith
  all_goals have f3 : -M ≤ u + 2 * v := by nlinarith
  all_goals have f4 : u + 2 * v ≤ M := by nlinarith
  · constructor
    · by_contra h
      have h3 := hm' (-2) (by omega)
      have h4 : u ≤ -L - 1 := by omega
      have h5 : 0 ≤ (2 * M - L) * (v + L + 2 * u) := mul_nonneg (by omega) (by omega)
      have h6 : 3 * M * u ≤ 3 * M * (-L - 1) := mul_le_mul_of_nonneg_left h4 (by omega)
      have h7 : M * M ≤ M * (2 * L) := mul_le_mul_of_nonneg_left h2 hM.le
      nlinarith
    · by_contra h
      have := hm 2 (by omega)
      omega
  · constructor
    · by_contra h
      have h3 := hn' (-2) (by omega)
      have h4 : v ≤ -M - 1 := by omega
      have h5 : 0 ≤ (2 * L - M) * (u + M + 2 * v) := mul_nonneg (by omega) (by omega)
      have h6 : 3 * L * v ≤ 3 * L * (-M - 1) := mul_le_mul_of_nonneg_left h4 (by omega)
      have h7 : L * L ≤ L * (2 * M) := mul_le_mul_of_nonneg_left h1 hL.le
      nlinarith
    · by_contra h
      have := hn 2 (by omega)
      omega

theorem reach_triangular {L M : Nat} {c m : List Int} :
    reach [L, M] [1, 0, 1 / 2, √3 / 2] c m =
      √(hex (coord c 0 + coord m 0 * L) (coord c 1 + coord m 1 * M) : ℝ) := by
  unfold reach Spec.length
  rw [show [L, M].length = 2 from rfl, triangular_sq, coord_image (size := [L, M]) (by simp), coord_image (size := [L, M]) (by simp)]
  rfl

theorem triangular_shell {L M : Nat} (hL : 0 < L) (hM : 0 < M) (h1 : L ≤ 2 * M) (h2 : M ≤ 2 * L) :
    ShellSuffices [L, M] [1, 0, 1 / 2, √3 / 2] := by
  intro c hc m hm
  have hg := (onGrid_iff.1 hc).2
  have g0 : 0 ≤ coord c 0 ∧ coord c 0 < (L : Int) := hg 0 (by simp)
  have g1 : 0 ≤ coord c 1 ∧ coord c 1 < (M : Int) := hg 1 (by simp)
  obtain ⟨p, q, hp, hq, hmin⟩ := hex_shell (L := L) (M := M) (by omega) (by omega) (by omega) (by omega) g0 g1
  refine ⟨[p, q], ⟨rfl, fun x hx => ?_⟩, ?_⟩
  · simp only [List.mem_cons, List.not_mem_nil, or_false] at hx
    rcases hx with rfl | rfl
    · exact hp
    · exact hq
  · rw [reach_triangular, reach_triangular]
    exact Real.sqrt_le_sqrt (by exact_mod_cast hmin _ _)

theorem triangular_cases (hA : A.IsReal) (hb : triangularLattice = .ok b) :
    Holds b 2 6 [1, 0, 1 / 2, √3 / 2] [1, -1 / √3, 0, 2 / √3] [1, 0, 0, 1, 1, -1] ∧ Regular b 2 := by
  obtain ⟨b', h1, h2⟩ := triangular_holds hA
  obtain ⟨b'', h3, h4⟩ := triangular_regular (F := Num A)
  rw [hb, Res.ok.injEq] at h1 h3
  subst h1; subst h3
  exact ⟨h2, h4⟩

/-- C75.  On a closed triangular lattice neither of whose extents exceeds twice the other, `GetDistance` is the least
distance over all periodic images, symmetric, and a metric.  Missing: other extents, for which it is false. -/
theorem C75_triangular_partial (hA : A.IsReal) (hb : triangularLattice = .ok b) (L M : Nat) (hs : Buildable [L, M])
    (h1 : L ≤ 2 * M) (h2 : M ≤ 2 * L) (l : Lattice (Num A)) (hl : Lattice.new b [L, M] .closed = .ok l) :
    NearestImage [L, M] [1, 0, 1 / 2, √3 / 2] l := by
  obtain ⟨hh, hr⟩ := triangular_cases hA hb
  exact nearestImage hA hs (size := [L, M]) hh hr (independent_of_dual triangular_dual)
    (triangular_shell (hs.1.1 L (by simp)) (hs.1.1 M (by simp)) h1 h2) hl

/-- C75.  On a 2 by 12 lattice `GetDistance` is not symmetric, and not the least distance. -/
theorem C75_triangular_violated (hA : A.IsReal) (hb : triangularLattice = .ok b) :
    ∃ l : Lattice (Num A), Lattice.new b [2, 12] .closed = .ok l ∧ l.getDistance 0 17 = .ok (.fin √21) ∧
      l.getDistance 17 0 = .ok (.fin √19) ∧
      imageDistance [2, 12] [1, 0, 1 / 2, √3 / 2] [0, 0] [1, 5] [-2, 0] = √19 := by
  obtain ⟨hh, hr⟩ := triangular_cases hA hb
  have hs : Buildable [2, 12] := ⟨by decide, by decide⟩
  obtain ⟨l, hl, -⟩ := C73_defined hs hr .closed (fun _ => by decide)
  have key : ∀ x y c e v, x < 24 → y < 24 → wrap [2, 12] (minus (crd [2, 12] y) (crd [2, 12] x)) = [c, e] →
      (∀ p q : Int, (p = -1 ∨ p = 0 ∨ p = 1) → (q = -1 ∨ q = 0 ∨ q = 1) → v ≤ hex (c + p * 2) (e + q * 12)) →
      (∃ p q : Int, (p = -1 ∨ p = 0 ∨ p = 1) ∧ (q = -1 ∨ q = 0 ∨ q = 1) ∧ v = hex (c + p * 2) (e + q * 12)) →
      l.getDistance x y = .ok (.fin √(v : ℝ)) := by
    intro x y c e v hx hy hw hall hex
    obtain ⟨m, hm, -, hD, hmin⟩ := closed_eq hA hs (size := [2, 12]) hh hr hl hx hy
    rw [hw, reach_triangular] at hD
    obtain ⟨p, q, hp, hq, hv⟩ := hex
    have h1 := hmin [p, q] ⟨rfl, fun z hz => by
      simp only [List.mem_cons, List.not_mem_nil, or_false] at hz
      omega⟩
    rw [hw, reach_triangular, reach_triangular] at h1
    have h2 := hm.coord 0
    have h3 := hm.coord 1
    have h4 := hall (coord m 0) (coord m 1) (by omega) (by omega)
    have h5 : √(hex (c + coord m 0 * 2) (e + coord m 1 * 12) : ℝ) = √(v : ℝ) := by
      refine le_antisymm ?_ (Real.sqrt_le_sqrt (by exact_mod_cast h4))
      rw [hv]; exact_mod_cast h1
    rw [hD]
    congr 2
  refine ⟨l, hl, ?_, ?_, ?_⟩
  · have := key 0 17 1 5 21 (by decide) (by decide) (by decide) (by rintro p q (rfl | rfl | rfl) (rfl | rfl | rfl) <;> decide)
      ⟨-1, 0, by decide, by decide, by decide⟩
    exact_mod_cast this
  · have := key 17 0 1 7 19 (by decide) (by decide) (by decide) (by rintro p q (rfl | rfl | rfl) (rfl | rfl | rfl) <;> decide)
      ⟨1, -1, by decide, by decide, by decide⟩
    exact_mod_cast this
  · unfold imageDistance Spec.length
    rw [show [2, 12].length = 2 from rfl, triangular_sq]
    have : hex (coord (minus (Spec.image [2, 12] [1, 5] [-2, 0]) [0, 0]) 0) (coord (minus (Spec.image [2, 12] [1, 5] [-2, 0]) [0, 0]) 1) = 19 := by
      decide
    rw [this]; norm_num

/-- C74, C75, C76: the lattices exist. -/
example : ∃ (b : Bravais (Num realArith)) (l : Lattice (Num realArith)), squareLattice = .ok b ∧ Buildable [3, 4] ∧
    [3, 4].length = b.dim ∧ Lattice.new b [3, 4] .closed = .ok l := by
  obtain ⟨b, h1, h2⟩ := square_regular (F := Num realArith)
  have hs : Buildable [3, 4] := ⟨by decide, by decide⟩
  obtain ⟨l, hl, -⟩ := C73_defined hs (b := b) h2 .closed (fun _ => by decide)
  exact ⟨b, l, h1, hs, h2.dim.symm, hl⟩
example : ∃ (b : Bravais (Num realArith)) (l : Lattice (Num realArith)), triangularLattice = .ok b ∧ Buildable [3, 5] ∧
    Lattice.new b [3, 5] .closed = .ok l := by
  obtain ⟨b, h1, h2⟩ := triangular_regular (F := Num realArith)
  have hs : Buildable [3, 5] := ⟨by decide, by decide⟩
  obtain ⟨l, hl, -⟩ := C73_defined hs (b := b) h2 .closed (fun _ => by decide)
  exact ⟨b, l, h1, hs, hl⟩

end
end Bwsl
