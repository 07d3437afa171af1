import Verif.Props.Nearest
import Verif.Props.Translate

/-! Property C77: distances on open lattices. -/

namespace Bwsl
open Spec

set_option linter.unusedSectionVars false

section
variable {F : Type} [CxxFloat F] {b : Bravais F} {size : List Nat}

theorem mapped_open_le (hs : Buildable size) {x y : Nat} (hx : x < size.prod) (hy : y < size.prod) (h : x ≤ y) :
    (Grid.new size .open).getMappedSite x y = .ok (y - x) := by
  have hp : size.prod < W64 := hs.1.2
  rw [C10_open_value size hs.1 (buildable_fits hs) x y hx hy,
    show ((y : Int) - x) = ((y - x : Nat) : Int) by omega, toSize_natCast (by omega)]

theorem vectors_open_eq (hs : Buildable size) (hr : Regular b size.length) {l : Lattice F}
    (hl : Lattice.new b size .open = .ok l) : l.vectors.length = size.prod ∧
      ∀ i, i < size.prod → ∃ v, l.vectors[i]? = some v ∧ b.getRealSpace (crd size i) = .ok v := by
  obtain ⟨vs, h1, h2, h3⟩ := computeVectors_open hs hr
  have hv := (new_parts hl).2.2.1
  rw [h1, Res.ok.injEq] at hv
  rw [← hv]
  refine ⟨h2, fun i hi => ?_⟩
  have hi' : i < vs.length := h2 ▸ hi
  exact ⟨_, List.getElem?_eq_getElem hi', h3 i _ (List.getElem?_eq_getElem hi')⟩

/-- C77.  What the code computes when the second site does not come before the first: the vector from the origin to
site number `y - x`.  Missing: it is the vector between the sites only in the next theorem's case. -/
theorem C77_value_partial (hs : Buildable size) (hr : Regular b size.length) (l : Lattice F)
    (hl : Lattice.new b size .open = .ok l) (x y : Nat) (hx : x < size.prod) (hy : y < size.prod) (h : x ≤ y) :
    ∃ v, l.getVector x y = .ok v ∧ l.getPosition (y - x) = .ok v ∧
      l.getDistance x y = .ok (CxxFloat.sqrt (sumSquared v)) := by
  obtain ⟨-, hv⟩ := vectors_open_eq hs hr hl
  obtain ⟨v, h1, h2⟩ := hv (y - x) (by omega)
  obtain ⟨w, h3, h4⟩ := C76_position hs hr .open l hl (y - x) (by omega) (crd size (y - x)) (by
    rw [(new_parts hl).1, getCoordinates_eq hs.1 (buildable_fits hs) .open (by omega)])
  rw [h2, Res.ok.injEq] at h4
  subst h4
  refine ⟨v, ?_, h3, ?_⟩
  · unfold Lattice.getVector
    rw [indexIsValid_eq hs hl hx, indexIsValid_eq hs hl hy, Bool.and_self, if_pos rfl, (new_parts hl).1,
      mapped_open_le hs hx hy h, Res.ok_bind, subscript_ok h1]
  · unfold Lattice.getDistance
    rw [indexIsValid_eq hs hl hx, indexIsValid_eq hs hl hy, Bool.and_self, if_pos rfl, (new_parts hl).1,
      mapped_open_le hs hx hy h, Res.ok_bind, (new_parts hl).2.2.2.1]
    refine subscript_ok ?_
    unfold Lattice.computeDistances
    rw [List.getElem?_map, h1]; rfl

/-- A site each of whose coordinates is at least that of another. -/
def Dominates (cy cx : List Int) : Prop := ∀ k, coord cx k ≤ coord cy k

theorem crd_sub (hs : Buildable size) {x y : Nat} (hx : x < size.prod) (hy : y < size.prod)
    (hd : Dominates (crd size y) (crd size x)) : x ≤ y ∧ crd size (y - x) = minus (crd size y) (crd size x) := by
  have gx := crd_onGrid hs.1.1 hx
  have gy := crd_onGrid hs.1.1 hy
  have hg : OnGrid (minus (crd size y) (crd size x)) size := by
    refine onGrid_iff.2 ⟨length_minus (onGrid_length gx) (onGrid_length gy), fun k hk => ?_⟩
    rw [coord_minus ((onGrid_length gx).trans (onGrid_length gy).symm)]
    have h1 := (onGrid_iff.1 gx).2 k hk
    have h2 := (onGrid_iff.1 gy).2 k hk
    have := hd k
    omega
  have hrow : rowMajor (minus (crd size y) (crd size x)) size = (y : Int) - x := by
    unfold minus
    rw [← zop_eq_zipWith, rowMajor_sub (onGrid_length gx) (onGrid_length gy), (siteAt_crd hs.1.1 hx).2, (siteAt_crd hs.1.1 hy).2]
  have hnn := rowMajor_bounds hg
  have hle : x ≤ y := by omega
  refine ⟨hle, siteAt_unique (siteAt_crd hs.1.1 (by omega)) ⟨hg, by rw [hrow]; omega⟩⟩

/-- C77.  It is the vector between the sites when the second dominates the first.  Missing: other pairs, for which
it is false. -/
theorem C77_dominated_partial {A : Arith ℝ} (hA : A.IsReal) {b : Bravais (Num A)} {g : Nat} {P Q : List ℝ} {N : List Int}
    (hs : Buildable size) (hb : Holds b size.length g P Q N)
    (hr : Regular b size.length) (l : Lattice (Num A)) (hl : Lattice.new b size .open = .ok l) (x y : Nat)
    (hx : x < size.prod) (hy : y < size.prod) (cx cy : List Int) (hcx : l.grid.getCoordinates x = .ok cx)
    (hcy : l.grid.getCoordinates y = .ok cy) (hd : Dominates cy cx) :
    l.getVector x y = .ok ((embed size.length P (minus cy cx)).map .fin) ∧
    l.getDistance x y = .ok (.fin (Spec.length (embed size.length P (minus cy cx)))) ∧
    l.getDistance x y = b.getDistance cx cy := by
  rw [(new_parts hl).1, getCoordinates_eq hs.1 (buildable_fits hs) .open hx, Res.ok.injEq] at hcx
  rw [(new_parts hl).1, getCoordinates_eq hs.1 (buildable_fits hs) .open hy, Res.ok.injEq] at hcy
  subst hcx hcy
  have gx := crd_onGrid hs.1.1 hx
  have gy := crd_onGrid hs.1.1 hy
  obtain ⟨hle, hc⟩ := crd_sub hs hx hy hd
  obtain ⟨v, h1, h2, h3⟩ := C77_value_partial hs hr l hl x y hx hy hle
  obtain ⟨w, h4, h5⟩ := C76_position hs hr .open l hl (y - x) (by omega) (crd size (y - x)) (by
    rw [(new_parts hl).1, getCoordinates_eq hs.1 (buildable_fits hs) .open (by omega)])
  rw [h2, Res.ok.injEq] at h4
  subst h4
  rw [hc, getRealSpace_ok hA.exact hb (length_minus (onGrid_length gx) (onGrid_length gy)), Res.ok.injEq] at h5
  subst h5
  rw [sqrt_sumSquared hA] at h3
  refine ⟨h1, h3, ?_⟩
  rw [h3, getDistance_ok hA hb]
  refine near_of (onGrid_length gx) (onGrid_length gy) (fun j hj => ?_)
  have h1 := (onGrid_iff.1 gx).2 j hj
  have h2 := (onGrid_iff.1 gy).2 j hj
  have := extent_le hs hj
  comega

/-- C77 is violated: whenever the second site comes before the first, `GetDistance` and `GetVector` read out of
bounds (on every open lattice with at most 2^63 sites). -/
theorem C77_backwards_violated (hs : Buildable size) (hr : Regular b size.length) (hp : size.prod ≤ 2 ^ 63) (l : Lattice F)
    (hl : Lattice.new b size .open = .ok l) (x y : Nat) (hx : x < size.prod) (hy : y < size.prod) (h : y < x) :
    l.getDistance x y = .ub .outOfBounds ∧ l.getVector x y = .ub .outOfBounds := by
  have hm : (Grid.new size .open).getMappedSite x y = .ok (W64 - (x - y)) := by
    rw [C10_open_value size hs.1 (buildable_fits hs) x y hx hy]
    congr 1
    have := toSize_eq ((y : Int) - x)
    omega
  obtain ⟨hlen, -⟩ := vectors_open_eq hs hr hl
  constructor
  · unfold Lattice.getDistance
    rw [indexIsValid_eq hs hl hx, indexIsValid_eq hs hl hy, Bool.and_self, if_pos rfl, (new_parts hl).1, hm, Res.ok_bind,
      (new_parts hl).2.2.2.1]
    refine subscript_none ?_
    unfold Lattice.computeDistances
    rw [List.length_map, hlen]; omega
  · unfold Lattice.getVector
    rw [indexIsValid_eq hs hl hx, indexIsValid_eq hs hl hy, Bool.and_self, if_pos rfl, (new_parts hl).1, hm, Res.ok_bind]
    refine subscript_none ?_
    rw [hlen]; omega

/-- C77 is violated: on an open square lattice at least two sites wide in the second direction, the last site of the
first row and the first of the second are given the distance 1, which is not the distance between them when the
rows have more than one site. -/
theorem C77_other_pair_violated {A : Arith ℝ} (hA : A.IsReal) {b : Bravais (Num A)} (hb : squareLattice = .ok b)
    (L M : Nat) (hs : Buildable [L, M]) (hL : 2 ≤ L) (hM : 2 ≤ M) (l : Lattice (Num A))
    (hl : Lattice.new b [L, M] .open = .ok l) :
    l.getDistance (M - 1) M = .ok (.fin 1) ∧ l.grid.getCoordinates (M - 1) = .ok [0, (M : Int) - 1] ∧
      l.grid.getCoordinates M = .ok [1, 0] ∧
      ∃ D, b.getDistance [0, (M : Int) - 1] [1, 0] = .ok (.fin D) ∧ 1 < D := by
  have hprod : [L, M].prod = L * M := by simp
  have hM' : M < [L, M].prod := by rw [hprod]; nlinarith
  have hf := buildable_fits hs
  obtain ⟨b', h1, hh⟩ := square_holds hA
  obtain ⟨b'', h3, hr⟩ := square_regular (F := Num A)
  rw [hb, Res.ok.injEq] at h1 h3
  subst h1; subst h3
  have c0 : l.grid.getCoordinates (M - 1) = .ok [0, (M : Int) - 1] := by
    rw [(new_parts hl).1, getCoordinates_eq hs.1 hf .open (by omega)]
    refine congrArg Res.ok (siteAt_unique (siteAt_crd hs.1.1 (by omega)) ⟨?_, ?_⟩)
    · exact .cons (by omega) (.cons (by omega) .nil)
    · simp [rowMajor]; omega
  have c1 : l.grid.getCoordinates M = .ok [1, 0] := by
    rw [(new_parts hl).1, getCoordinates_eq hs.1 hf .open hM']
    refine congrArg Res.ok (siteAt_unique (siteAt_crd hs.1.1 hM') ⟨?_, ?_⟩)
    · exact .cons (by omega) (.cons (by omega) .nil)
    · simp [rowMajor]
  refine ⟨?_, c0, c1, ?_⟩
  · obtain ⟨v, h1, h2, h3⟩ := C77_value_partial hs (size := [L, M]) hr l hl (M - 1) M (by omega) hM' (by omega)
    have c2 : crd [L, M] 1 = [0, 1] := by
      refine siteAt_unique (siteAt_crd hs.1.1 (by omega)) ⟨?_, ?_⟩
      · exact .cons (by omega) (.cons (by omega) .nil)
      · simp [rowMajor]
    have e1 : M - (M - 1) = 1 := by omega
    rw [e1] at h2
    obtain ⟨w, h4, h5⟩ := C76_position hs (size := [L, M]) hr .open l hl 1 (by omega) [0, 1] (by
      rw [(new_parts hl).1, getCoordinates_eq hs.1 hf .open (by omega), c2])
    rw [h2, Res.ok.injEq] at h4
    subst h4
    rw [getRealSpace_ok hA.exact hh rfl, Res.ok.injEq] at h5
    subst h5
    rw [h3, sqrt_sumSquared hA]
    congr 2
    unfold Spec.length
    rw [orthogonal_sq square_orthogonal]
    simp [Finset.sum_range_succ, entry, coord]
  · refine ⟨_, getDistance_ok hA hh ?_, ?_⟩
    · refine near_of rfl rfl (fun j hj => ?_)
      have := hs.2 M (by simp)
      have : j = 0 ∨ j = 1 := by omega
      rcases this with rfl | rfl
      · show InLong (1 - 0); comega
      · show InLong (0 - ((M : Int) - 1)); comega
    · unfold Spec.length
      rw [orthogonal_sq square_orthogonal]
      have hm : (1 : ℝ) ≤ (M : ℝ) - 1 := by
        have : (2 : ℝ) ≤ M := by exact_mod_cast hM
        linarith
      simp only [Finset.sum_range_succ, Finset.sum_range_zero, entry, coord, minus]
      simp
      refine Real.lt_sqrt_of_sq_lt ?_
      nlinarith

/-- C77: an open square lattice. -/
example : ∃ (b : Bravais F) (l : Lattice F), squareLattice = .ok b ∧ Regular b [3, 4].length ∧ Buildable [3, 4] ∧
    Lattice.new b [3, 4] .open = .ok l ∧ [3, 4].prod ≤ 2 ^ 63 := by
  obtain ⟨b, h1, h2⟩ := square_regular (F := F)
  have hs : Buildable [3, 4] := ⟨by decide, by decide⟩
  obtain ⟨l, hl, -⟩ := C73_defined hs (b := b) h2 .open (fun h => by cases h)
  exact ⟨b, l, h1, h2, hs, hl, by decide⟩
example : Dominates [2, 3] [1, 3] := by
  intro k
  rcases k with _ | _ | k
  · decide
  · decide
  · simp [coord]

end
end Bwsl
