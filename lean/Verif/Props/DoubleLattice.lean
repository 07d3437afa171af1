import Verif.Lemmas.Double
import Verif.Lemmas.IntegerLattice
import Verif.Props.Nearest
import Verif.Props.Geometry

/-! Property C105: lattices with orthogonal integer primitive vectors in double precision. -/

namespace Bwsl
open Spec

set_option linter.unusedSectionVars false

section
variable {A : Arith ℝ} {b : Bravais (Num A)} {size : List Nat} {g : Nat} {P : List Int} {Q : List ℝ} {N : List Int}

/-- The primitive vectors as real numbers. -/
def reals (P : List Int) : List ℝ := P.map (fun x : Int => (x : ℝ))

theorem reach_int (P : List Int) (c m : List Int) : reach size (reals P) c m = √(sqlen size.length P (image size c m) : ℝ) := by
  unfold reach reals
  rw [length_cast]

/-- The distance in double precision, as the rounded square root of the least squared distance. -/
theorem least_int (hA : A.IsBinary64) (hq : A.sqrt = Real.sqrt) (hs : Buildable size)
    (hb : Holds b size.length g (reals P) Q N) (hr : Regular b size.length) (hO : Orthogonal size.length (reals P))
    (hM : Modest size P) {l : Lattice (Num A)} (hl : Lattice.new b size .closed = .ok l) {x y : Nat} (hx : x < size.prod)
    (hy : y < size.prod) :
    ∃ (m : List Int) (n : Int), m.length = size.length ∧ 0 ≤ n ∧ n < 2 ^ 52 ∧
      imageDistance size (reals P) (crd size x) (crd size y) m = √(n : ℝ) ∧
      IsLeast (imageDistances size (reals P) (crd size x) (crd size y)) √(n : ℝ) ∧
      l.getVector x y = .ok ((embed size.length (reals P) (minus (image size (crd size y) m) (crd size x))).map .fin) ∧
      l.getDistance x y = .ok (.fin (rn √(n : ℝ))) := by
  obtain ⟨m, hm, hV, hD, hw, hmin⟩ := closed_int hA hq hs hb hr hM hl hx hy
  have hlx := onGrid_length (crd_onGrid hs.1.1 hx)
  have hly := onGrid_length (crd_onGrid hs.1.1 hy)
  have hlm := length_minus hlx hly
  have hdist : imageDistance size (reals P) (crd size x) (crd size y)
      (tab size.length (fun k => coord m k - coord (minus (crd size y) (crd size x)) k / extent size k)) =
      √(sqlen size.length P (image size (wrap size (minus (crd size y) (crd size x))) m) : ℝ) := by
    rw [← reach_int]
    unfold imageDistance reach
    rw [minus_image hlx hly, wrap_image hlm]
  refine ⟨tab size.length (fun k => coord m k - coord (minus (crd size y) (crd size x)) k / extent size k), _,
    length_tab .., sqlen_nonneg .., sqlen_lt hM hw, hdist, ⟨⟨_, length_tab .., hdist.symm⟩, ?_⟩, ?_, hD⟩
  · rintro r ⟨n, hn, rfl⟩
    unfold imageDistance
    rw [minus_image hlx hly, image_wrap hlm]
    obtain ⟨m', hm', hle⟩ := orthogonal_shell hO _ (wrap_onGrid hs.1.1 hlm) _ (length_tab size.length
      (fun k => coord n k + coord (minus (crd size y) (crd size x)) k / extent size k))
    refine le_trans ?_ hle
    rw [reach_int]
    exact Real.sqrt_le_sqrt (by exact_mod_cast hmin m' hm')
  · rw [minus_image hlx hly, ← wrap_image hlm]; exact hV

/-- C105.  On every closed lattice with orthogonal integer primitive vectors that is not excessively large, in double
precision: `GetVector` is exactly the displacement to a nearest image, and `GetDistance` is its length rounded once. -/
theorem C105_orthogonal (hA : A.IsBinary64) (hq : A.sqrt = Real.sqrt) (hs : Buildable size)
    (hb : Holds b size.length g (reals P) Q N) (hr : Regular b size.length) (hO : Orthogonal size.length (reals P))
    (hM : Modest size P) (l : Lattice (Num A)) (hl : Lattice.new b size .closed = .ok l) (x y : Nat) (hx : x < size.prod)
    (hy : y < size.prod) (cx cy : List Int) (hcx : l.grid.getCoordinates x = .ok cx) (hcy : l.grid.getCoordinates y = .ok cy) :
    ∃ (m : List Int) (D : ℝ), m.length = size.length ∧ imageDistance size (reals P) cx cy m = D ∧
      IsLeast (imageDistances size (reals P) cx cy) D ∧
      l.getVector x y = .ok ((embed size.length (reals P) (minus (image size cy m) cx)).map .fin) ∧
      l.getDistance x y = .ok (.fin (rn D)) := by
  rw [(new_parts hl).1, getCoordinates_eq hs.1 (buildable_fits hs) .closed hx, Res.ok.injEq] at hcx
  rw [(new_parts hl).1, getCoordinates_eq hs.1 (buildable_fits hs) .closed hy, Res.ok.injEq] at hcy
  subst hcx hcy
  obtain ⟨m, n, h1, -, -, h2, h3, h4, h5⟩ := least_int hA hq hs hb hr hO hM hl hx hy
  exact ⟨m, _, h1, h2, h3, h4, h5⟩

/-- C105.  Comparing distances in double precision compares the true distances. -/
theorem C105_compare (hA : A.IsBinary64) (hq : A.sqrt = Real.sqrt) (hs : Buildable size)
    (hb : Holds b size.length g (reals P) Q N) (hr : Regular b size.length) (hO : Orthogonal size.length (reals P))
    (hM : Modest size P) (l : Lattice (Num A)) (hl : Lattice.new b size .closed = .ok l) (x y z w : Nat) (hx : x < size.prod)
    (hy : y < size.prod) (hz : z < size.prod) (hw : w < size.prod) (cx cy cz cw : List Int)
    (hcx : l.grid.getCoordinates x = .ok cx) (hcy : l.grid.getCoordinates y = .ok cy)
    (hcz : l.grid.getCoordinates z = .ok cz) (hcw : l.grid.getCoordinates w = .ok cw) (D E : ℝ)
    (hD : IsLeast (imageDistances size (reals P) cx cy) D) (hE : IsLeast (imageDistances size (reals P) cz cw) E) :
    ∃ d e, l.getDistance x y = .ok d ∧ l.getDistance z w = .ok e ∧ (CxxFloat.lt d e = true ↔ D < E) ∧
      (CxxFloat.le d e = true ↔ D ≤ E) ∧ (CxxFloat.eq d e = true ↔ D = E) := by
  rw [(new_parts hl).1, getCoordinates_eq hs.1 (buildable_fits hs) .closed hx, Res.ok.injEq] at hcx
  rw [(new_parts hl).1, getCoordinates_eq hs.1 (buildable_fits hs) .closed hy, Res.ok.injEq] at hcy
  rw [(new_parts hl).1, getCoordinates_eq hs.1 (buildable_fits hs) .closed hz, Res.ok.injEq] at hcz
  rw [(new_parts hl).1, getCoordinates_eq hs.1 (buildable_fits hs) .closed hw, Res.ok.injEq] at hcw
  subst hcx hcy hcz hcw
  obtain ⟨-, m, -, hm0, hm, -, hDm, -, h1⟩ := least_int hA hq hs hb hr hO hM hl hx hy
  obtain ⟨-, n, -, hn0, hn, -, hEn, -, h2⟩ := least_int hA hq hs hb hr hO hM hl hz hw
  rw [hD.unique hDm, hE.unique hEn]
  have hle : ∀ {m n : Int}, 0 ≤ m → 0 ≤ n → m < 2 ^ 52 → n < 2 ^ 52 → (rn √(m : ℝ) ≤ rn √(n : ℝ) ↔ √(m : ℝ) ≤ √(n : ℝ)) := by
    intro m n hm0 hn0 hm hn
    rw [rn_sqrt_le_iff hm0 hn0 hm hn, Real.sqrt_le_sqrt_iff (by exact_mod_cast hn0)]
    exact_mod_cast Iff.rfl
  refine ⟨_, _, h1, h2, ?_, ?_, ?_⟩
  · rw [Num.lt_fin, decide_eq_true_eq, ← not_le, ← not_le, hle hn0 hm0 hn hm]
  · rw [Num.le_fin, decide_eq_true_eq, hle hm0 hn0 hm hn]
  · rw [Num.eq_fin, decide_eq_true_eq, le_antisymm_iff, le_antisymm_iff, hle hm0 hn0 hm hn, hle hn0 hm0 hn hm]

/-- C105.  `GetPosition` is exact in double precision, with any boundaries. -/
theorem C105_position (hA : A.IsBinary64) (hs : Buildable size)
    (hb : Holds b size.length g (reals P) Q N) (hr : Regular b size.length) (hM : Modest size P) (bd : Boundaries)
    (l : Lattice (Num A)) (hl : Lattice.new b size bd = .ok l) (x : Nat) (hx : x < size.prod) (cx : List Int)
    (hcx : l.grid.getCoordinates x = .ok cx) : l.getPosition x = .ok ((embed size.length (reals P) cx).map .fin) := by
  obtain ⟨v, h1, h2⟩ := C76_position hs hr bd l hl x hx cx hcx
  rw [(new_parts hl).1, getCoordinates_eq hs.1 (buildable_fits hs) bd hx, Res.ok.injEq] at hcx
  subst hcx
  have := getRealSpace_int hA hb hM (within_site (crd_onGrid hs.1.1 hx))
  rw [h1, ← h2]
  exact this

/-- C105.  Distances in double precision are symmetric. -/
theorem C105_symmetric (hA : A.IsBinary64) (hq : A.sqrt = Real.sqrt) (hs : Buildable size)
    (hb : Holds b size.length g (reals P) Q N) (hr : Regular b size.length) (hO : Orthogonal size.length (reals P))
    (hM : Modest size P) (l : Lattice (Num A)) (hl : Lattice.new b size .closed = .ok l) (x y : Nat) (hx : x < size.prod)
    (hy : y < size.prod) : l.getDistance x y = l.getDistance y x := by
  obtain ⟨-, m, -, -, -, -, h1, -, h2⟩ := least_int hA hq hs hb hr hO hM hl hx hy
  obtain ⟨-, n, -, -, -, -, h3, -, h4⟩ := least_int hA hq hs hb hr hO hM hl hy hx
  rw [imageDistances_symm _ (onGrid_length (crd_onGrid hs.1.1 hx)) (onGrid_length (crd_onGrid hs.1.1 hy))] at h1
  rw [h2, h4, h1.unique h3]

/-! ### The predefined lattices -/

theorem lit_one (hA : A.IsBinary64) : (CxxFloat.lit 1 : Num A) = .fin 1 := by
  have := round_int hA (n := 1) (by decide)
  rw [Num.lit_eq, Rat.cast_one]
  simpa using this

theorem sum_two (f : Nat → Int) : ∑ i ∈ Finset.range 2, f i = f 0 + f 1 := by
  simp [Finset.sum_range_succ]
theorem sum_three (f : Nat → Int) : ∑ i ∈ Finset.range 3, f i = f 0 + f 1 + f 2 := by
  simp [Finset.sum_range_succ]

theorem two_le_of_sq {s t : Nat} (h : (2 * s) ^ 2 + t < 2 ^ 52) : 2 * s ≤ 2 ^ 53 := by
  by_contra hc
  push Not at hc
  have : (2 ^ 53) ^ 2 ≤ (2 * s) ^ 2 := Nat.pow_le_pow_left hc.le 2
  norm_num at this h
  omega

/-- The primitive vectors of the predefined lattices with orthogonal vectors, and what they look like in double
precision. -/
theorem integer_cases (hA : A.IsBinary64) (hb : chainLattice = .ok b ∨ squareLattice = .ok b ∨ cubicLattice = .ok b)
    (hd : size.length = b.dim) (hz : (size.map (fun s => (2 * s) ^ 2)).sum < 2 ^ 52) :
    ∃ (Z : List Int) (g : Nat) (N : List Int), reals Z = unit size.length ∧ Holds b size.length g (reals Z) (reals Z) N ∧
      Regular b size.length ∧ Orthogonal size.length (reals Z) ∧ Modest size Z := by
  have u1 : unit 1 = [1] := by simp [unit, List.range_succ]
  have u2 : unit 2 = [1, 0, 0, 1] := by simp [unit, List.range_succ]
  have u3 : unit 3 = [1, 0, 0, 0, 1, 0, 0, 0, 1] := by simp [unit, List.range_succ]
  rcases hb with hb | hb | hb
  · obtain ⟨b'', h3, h4⟩ := chain_regular (F := Num A)
    rw [hb, Res.ok.injEq] at h3
    subst h3
    rw [h4.dim] at hd
    obtain ⟨s, rfl⟩ : ∃ s, size = [s] := by
      match size, hd with
      | [s], _ => exact ⟨s, rfl⟩
    have hr1 : reals [1] = [1] := by simp [reals]
    refine ⟨[1], 2, [1], by rw [hr1]; exact u1.symm, ?_, h4, by rw [hr1]; exact chain_orthogonal, ?_, ?_⟩
    · refine ⟨?_, by simp, by simp [reals], by simp [reals], rfl, by simp⟩
      cases hb
      simp [lit_one hA, hr1]
    · intro t ht
      rw [List.mem_singleton] at ht
      subst ht
      exact two_le_of_sq (t := 0) (by simpa using hz)
    · simp only [List.length_singleton, Finset.sum_range_one]
      simp only [List.map_cons, List.map_nil, List.sum_cons, List.sum_nil, add_zero] at hz
      have : extent [s] 0 = (s : Int) := rfl
      have e : entry 1 [(1 : Int)] 0 0 = 1 := rfl
      rw [this, e, abs_one, mul_one]
      exact_mod_cast hz
  · obtain ⟨b'', h3, h4⟩ := square_regular (F := Num A)
    rw [hb, Res.ok.injEq] at h3
    subst h3
    rw [h4.dim] at hd
    obtain ⟨s, t, rfl⟩ : ∃ s t, size = [s, t] := by
      match size, hd with
      | [s, t], _ => exact ⟨s, t, rfl⟩
    have hr1 : reals [1, 0, 0, 1] = [1, 0, 0, 1] := by simp [reals]
    simp only [List.map_cons, List.map_nil, List.sum_cons, List.sum_nil, add_zero] at hz
    refine ⟨[1, 0, 0, 1], 4, [1, 0, 0, 1], by rw [hr1]; exact u2.symm, ?_, h4, by rw [hr1]; exact square_orthogonal, ?_, ?_⟩
    · refine ⟨?_, by simp, by simp [reals], by simp [reals], rfl, by simp⟩
      cases hb
      simp [lit_one hA, hr1, Num.zero_eq]
    · intro u hu
      simp only [List.mem_cons, List.not_mem_nil, or_false] at hu
      rcases hu with rfl | rfl
      · exact two_le_of_sq hz
      · exact two_le_of_sq (by rw [add_comm] at hz; exact hz)
    · show ∑ i ∈ Finset.range 2, (∑ j ∈ Finset.range 2, 2 * extent [s, t] j * |entry 2 [1, 0, 0, 1] j i|) ^ 2 < 2 ^ 52
      rw [sum_two, sum_two, sum_two]
      have e0 : extent [s, t] 0 = (s : Int) := rfl
      have e1 : extent [s, t] 1 = (t : Int) := rfl
      have f00 : entry 2 [(1 : Int), 0, 0, 1] 0 0 = 1 := rfl
      have f01 : entry 2 [(1 : Int), 0, 0, 1] 0 1 = 0 := rfl
      have f10 : entry 2 [(1 : Int), 0, 0, 1] 1 0 = 0 := rfl
      have f11 : entry 2 [(1 : Int), 0, 0, 1] 1 1 = 1 := rfl
      rw [e0, e1, f00, f01, f10, f11, abs_one, abs_zero, mul_one, mul_one, mul_zero, mul_zero, add_zero, zero_add]
      exact_mod_cast hz
  · obtain ⟨b'', h3, h4⟩ := cubic_regular (F := Num A)
    rw [hb, Res.ok.injEq] at h3
    subst h3
    rw [h4.dim] at hd
    obtain ⟨s, t, u, rfl⟩ : ∃ s t u, size = [s, t, u] := by
      match size, hd with
      | [s, t, u], _ => exact ⟨s, t, u, rfl⟩
    have hr1 : reals [1, 0, 0, 0, 1, 0, 0, 0, 1] = [1, 0, 0, 0, 1, 0, 0, 0, 1] := by simp [reals]
    simp only [List.map_cons, List.map_nil, List.sum_cons, List.sum_nil, add_zero] at hz
    refine ⟨[1, 0, 0, 0, 1, 0, 0, 0, 1], 6, [1, 0, 0, 0, 1, 0, 0, 0, 1], by rw [hr1]; exact u3.symm, ?_, h4,
      by rw [hr1]; exact cubic_orthogonal, ?_, ?_⟩
    · refine ⟨?_, by simp, by simp [reals], by simp [reals], rfl, by simp⟩
      cases hb
      simp [lit_one hA, hr1, Num.zero_eq]
    · intro v hv
      simp only [List.mem_cons, List.not_mem_nil, or_false] at hv
      rcases hv with rfl | rfl | rfl
      · exact two_le_of_sq hz
      · exact two_le_of_sq (t := (2 * s) ^ 2 + (2 * u) ^ 2) (by omega)
      · exact two_le_of_sq (t := (2 * s) ^ 2 + (2 * t) ^ 2) (by omega)
    · show ∑ i ∈ Finset.range 3, (∑ j ∈ Finset.range 3, 2 * extent [s, t, u] j * |entry 3 [1, 0, 0, 0, 1, 0, 0, 0, 1] j i|) ^ 2 < 2 ^ 52
      rw [sum_three, sum_three, sum_three, sum_three]
      have e0 : extent [s, t, u] 0 = (s : Int) := rfl
      have e1 : extent [s, t, u] 1 = (t : Int) := rfl
      have e2 : extent [s, t, u] 2 = (u : Int) := rfl
      have hf : ∀ j i, j < 3 → i < 3 → entry 3 [(1 : Int), 0, 0, 0, 1, 0, 0, 0, 1] j i = if j = i then 1 else 0 := by
        intro j i hj hi
        interval_cases j <;> interval_cases i <;> rfl
      rw [e0, e1, e2]
      simp only [hf 0 0 (by decide) (by decide), hf 0 1 (by decide) (by decide), hf 0 2 (by decide) (by decide),
        hf 1 0 (by decide) (by decide), hf 1 1 (by decide) (by decide), hf 1 2 (by decide) (by decide),
        hf 2 0 (by decide) (by decide), hf 2 1 (by decide) (by decide), hf 2 2 (by decide) (by decide)]
      norm_num
      have : (2 * s) ^ 2 + (2 * t) ^ 2 + (2 * u) ^ 2 < 4503599627370496 := by norm_num at hz; omega
      exact_mod_cast this

/-- C105.  Chain, square and cubic lattices in double precision, if the squares of twice the extents add up to less
than 2^52: vectors are exact, distances are rounded once, symmetric, and their order is that of the true distances. -/
theorem C105_predefined (hA : A.IsBinary64) (hq : A.sqrt = Real.sqrt)
    (hb : chainLattice = .ok b ∨ squareLattice = .ok b ∨ cubicLattice = .ok b) (hs : Buildable size)
    (hd : size.length = b.dim) (hz : (size.map (fun s => (2 * s) ^ 2)).sum < 2 ^ 52) (l : Lattice (Num A))
    (hl : Lattice.new b size .closed = .ok l) (x y : Nat) (hx : x < size.prod) (hy : y < size.prod) (cx cy : List Int)
    (hcx : l.grid.getCoordinates x = .ok cx) (hcy : l.grid.getCoordinates y = .ok cy) :
    l.getPosition x = .ok ((embed size.length (unit size.length) cx).map .fin) ∧
    l.getDistance x y = l.getDistance y x ∧
    ∃ (m : List Int) (D : ℝ), m.length = size.length ∧ imageDistance size (unit size.length) cx cy m = D ∧
      IsLeast (imageDistances size (unit size.length) cx cy) D ∧
      l.getVector x y = .ok ((embed size.length (unit size.length) (minus (image size cy m) cx)).map .fin) ∧
      l.getDistance x y = .ok (.fin (rn D)) := by
  obtain ⟨Z, g, N, e, h1, h2, h3, h4⟩ := integer_cases hA hb hd hz
  rw [← e]
  exact ⟨C105_position hA hs h1 h2 h4 .closed l hl x hx cx hcx, C105_symmetric hA hq hs h1 h2 h3 h4 l hl x y hx hy,
    C105_orthogonal hA hq hs h1 h2 h3 h4 l hl x y hx hy cx cy hcx hcy⟩

/-- The order of distances on the predefined lattices. -/
theorem C105_predefined_compare (hA : A.IsBinary64) (hq : A.sqrt = Real.sqrt)
    (hb : chainLattice = .ok b ∨ squareLattice = .ok b ∨ cubicLattice = .ok b) (hs : Buildable size)
    (hd : size.length = b.dim) (hz : (size.map (fun s => (2 * s) ^ 2)).sum < 2 ^ 52) (l : Lattice (Num A))
    (hl : Lattice.new b size .closed = .ok l) (x y z w : Nat) (hx : x < size.prod)
    (hy : y < size.prod) (hzz : z < size.prod) (hw : w < size.prod) (cx cy cz cw : List Int)
    (hcx : l.grid.getCoordinates x = .ok cx) (hcy : l.grid.getCoordinates y = .ok cy)
    (hcz : l.grid.getCoordinates z = .ok cz) (hcw : l.grid.getCoordinates w = .ok cw) (D E : ℝ)
    (hD : IsLeast (imageDistances size (unit size.length) cx cy) D)
    (hE : IsLeast (imageDistances size (unit size.length) cz cw) E) :
    ∃ d e, l.getDistance x y = .ok d ∧ l.getDistance z w = .ok e ∧ (CxxFloat.lt d e = true ↔ D < E) ∧
      (CxxFloat.le d e = true ↔ D ≤ E) ∧ (CxxFloat.eq d e = true ↔ D = E) := by
  obtain ⟨Z, g, N, e, h1, h2, h3, h4⟩ := integer_cases hA hb hd hz
  rw [← e] at hD hE
  exact C105_compare hA hq hs h1 h2 h3 h4 l hl x y z w hx hy hzz hw cx cy cz cw hcx hcy hcz hcw D E hD hE

/-! ### Neighbours -/

/-- The same predefined lattice in another arithmetic. -/
theorem twin (B : Arith ℝ) (hb : chainLattice = .ok b ∨ squareLattice = .ok b ∨ cubicLattice = .ok b) :
    ∃ b' : Bravais (Num B), (chainLattice = .ok b' ∨ squareLattice = .ok b' ∨ cubicLattice = .ok b') ∧
      b'.dim = b.dim ∧ b'.gamma = b.gamma ∧ b'.neighbors = b.neighbors := by
  rcases hb with h | h | h
  all_goals cases h
  · exact ⟨_, .inl rfl, rfl, rfl, rfl⟩
  · exact ⟨_, .inr (.inl rfl), rfl, rfl, rfl⟩
  · exact ⟨_, .inr (.inr rfl), rfl, rfl, rfl⟩

theorem predefined_of (hb : chainLattice = .ok b ∨ squareLattice = .ok b ∨ cubicLattice = .ok b) : Predefined b := by
  rcases hb with h | h | h
  exacts [.inl h, .inr (.inl h), .inr (.inr (.inl h))]

theorem rn_one : rn (1 : ℝ) = 1 := by
  have := rn_double (double_int (K := ℝ) (n := 1) (by decide))
  simpa using this

/-- C105.  In double precision, too, the neighbours of a site of a chain, square or cubic lattice are exactly the
sites at distance 1. -/
theorem C105_neighbours (hA : A.IsBinary64) (hq : A.sqrt = Real.sqrt)
    (hb : chainLattice = .ok b ∨ squareLattice = .ok b ∨ cubicLattice = .ok b) (hs : Buildable size)
    (hd : size.length = b.dim) (hz : (size.map (fun s => (2 * s) ^ 2)).sum < 2 ^ 52) (h2 : ∀ s ∈ size, 2 ≤ s)
    (l : Lattice (Num A)) (hl : Lattice.new b size .closed = .ok l) (x y : Nat) (hx : x < size.prod) (hy : y < size.prod) :
    l.areNeighbors x y = .ok true ↔ l.getDistance x y = .ok (.fin 1) := by
  have hp := predefined_of hb
  obtain ⟨b', hb', e1, e2, e3⟩ := twin realArith hb
  have hp' := predefined_of hb'
  have hr := predefined_regular hp
  have hr' := predefined_regular hp'
  rw [e1] at hr'
  rw [← hd] at hr hr'
  have hd40 : size.length ≤ 40 := by
    by_contra hc
    have := C84_dimensions hs hr (by omega)
    rw [this] at hl; cases hl
  obtain ⟨l', hl', -⟩ := C73_defined hs hr' .closed (fun _ => hd40)
  have hn : l.areNeighbors x y = l'.areNeighbors x y := by
    rw [areNeighbors_eq hs hr.toDirected hl hx y (getNeighbors_eq hs hr.toDirected hl hx),
      areNeighbors_eq hs hr'.toDirected hl' hx y (getNeighbors_eq hs hr'.toDirected hl' hx), e2, e3]
  have h96 := (C96_distance realArith_isReal hp' hs (hd.trans e1.symm) h2 l' hl' x y hx hy).2
  have h74 := C74_predefined realArith_isReal hb' hs (hd.trans e1.symm) l' hl'
  have hcx : l'.grid.getCoordinates x = .ok (crd size x) := by
    rw [(new_parts hl').1, getCoordinates_eq hs.1 (buildable_fits hs) .closed hx]
  have hcy : l'.grid.getCoordinates y = .ok (crd size y) := by
    rw [(new_parts hl').1, getCoordinates_eq hs.1 (buildable_fits hs) .closed hy]
  obtain ⟨D, hD, hL⟩ := h74.least x y _ _ hx hy hcx hcy
  obtain ⟨Z, g, N, e, k1, k2, k3, k4⟩ := integer_cases hA hb hd hz
  obtain ⟨-, n, -, hn0, hn1, -, hL', -, hdist⟩ := least_int hA hq hs k1 k2 k3 k4 hl hx hy
  rw [e] at hL'
  have hDn : D = √(n : ℝ) := hL.unique hL'
  unfold Dist at hD
  rw [hn, h96, hD, hdist, Res.ok.injEq, Num.fin.injEq, Res.ok.injEq, Num.fin.injEq, hDn]
  have hone : rn √((1 : Int) : ℝ) = 1 := by rw [Int.cast_one, Real.sqrt_one, rn_one]
  constructor
  · intro h; rw [h, rn_one]
  · intro h
    have h3 : n ≤ 1 := (rn_sqrt_le_iff hn0 (by decide) hn1 (by decide)).1 (by rw [h, hone])
    have h4 : 1 ≤ n := (rn_sqrt_le_iff (by decide) hn0 (by decide) hn1).1 (by rw [h, hone])
    rw [le_antisymm h3 h4, Int.cast_one, Real.sqrt_one]

/-! ### The hypotheses can be met -/

/-- A 1000 by 2000 square lattice. -/
example : ∃ b : Bravais (Num doubleArith), squareLattice = .ok b ∧ [1000, 2000].length = b.dim ∧ Buildable [1000, 2000] ∧
    ([1000, 2000].map (fun s => (2 * s) ^ 2)).sum < 2 ^ 52 ∧ doubleArith.sqrt = Real.sqrt ∧
    ∃ l, Lattice.new b [1000, 2000] .closed = .ok l := by
  obtain ⟨b, h1, h2⟩ := square_regular (F := Num doubleArith)
  have hs : Buildable [1000, 2000] := ⟨⟨by decide, by norm_num⟩, by norm_num⟩
  obtain ⟨l, hl, -⟩ := C73_defined hs (b := b) h2 .closed (fun _ => by decide)
  exact ⟨b, h1, h2.dim.symm, hs, by norm_num, doubleArith_sqrt, l, hl⟩

/-- A rectangular lattice with sides 3 and 5: other integer primitive vectors. -/
example : Orthogonal 2 (reals [3, 0, 0, 5]) ∧ Modest [10, 20] [3, 0, 0, 5] := by
  refine ⟨?_, by decide, ?_⟩
  · intro j k hj hk h
    interval_cases j <;> interval_cases k <;> simp_all [entry, reals, Finset.sum_range_succ]
  · decide

end
end Bwsl
