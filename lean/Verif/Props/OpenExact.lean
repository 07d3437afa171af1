import Verif.Props.OpenLattice

/-! C77: for exactly which pairs of sites of an open lattice `GetVector` and `GetDistance` are right. -/

namespace Bwsl
open Spec

section
variable {A : Arith ℝ} {b : Bravais (Num A)} {size : List Nat} {g : Nat} {P Q : List ℝ} {N : List Int}

theorem open_values (hA : A.IsReal) (hs : Buildable size) (hb : Holds b size.length g P Q N) (hr : Regular b size.length)
    {l : Lattice (Num A)} (hl : Lattice.new b size .open = .ok l) {x y : Nat} (hx : x < size.prod) (hy : y < size.prod) (h : x ≤ y) :
    l.getVector x y = .ok ((embed size.length P (crd size (y - x))).map .fin) ∧
    l.getDistance x y = .ok (.fin (Spec.length (embed size.length P (crd size (y - x))))) := by
  obtain ⟨v, h1, h2, h3⟩ := C77_value_partial hs hr l hl x y hx hy h
  obtain ⟨w, h4, h5⟩ := C76_position hs hr .open l hl (y - x) (by omega) (crd size (y - x)) (by
    rw [(new_parts hl).1, getCoordinates_eq hs.1 (buildable_fits hs) .open (by omega)])
  rw [h2, Res.ok.injEq] at h4
  subst h4
  rw [getRealSpace_ok hA.exact hb (crd_length ..), Res.ok.injEq] at h5
  subst h5
  rw [sqrt_sumSquared hA] at h3
  exact ⟨h1, h3⟩

theorem embed_injective {d : Nat} (hi : Independent d P) {a c : List Int} (ha : a.length = d) (hc : c.length = d)
    (h : embed d P a = embed d P c) : a = c := by
  have hz : ∀ x ∈ embed d P (minus a c), x = 0 := by
    intro x hx
    obtain ⟨i, hi', rfl⟩ := List.mem_iff_getElem.1 hx
    have hid : i < d := by simpa [embed_length] using hi'
    have e : ∀ z : List Int, z.length = d → (hz : i < (embed d P z).length) → (embed d P z)[i] = ∑ j ∈ Finset.range d, (coord z j : ℝ) * entry d P j i :=
      fun z _ _ => by simp [embed]
    have h1 : (embed d P a)[i]'(by rw [embed_length]; exact hid) = (embed d P c)[i]'(by rw [embed_length]; exact hid) := by simp only [h]
    rw [e a ha, e c hc] at h1
    rw [e _ (length_minus hc ha) hi', Finset.sum_congr rfl (fun j _ => by
      rw [coord_minus (hc.trans ha.symm), Int.cast_sub, sub_mul]), Finset.sum_sub_distrib, h1, sub_self]
  have hm := hi (minus a c) (length_minus hc ha) hz
  refine List.ext_getElem (ha.trans hc.symm) (fun i h1 h2 => ?_)
  have := hm ((minus a c)[i]'(by rw [length_minus hc ha]; omega)) (List.getElem_mem _)
  simp only [minus, List.getElem_zipWith] at this
  omega

/-- C77.  On an open lattice with independent primitive vectors `GetVector` is the vector between the sites exactly for the pairs
whose second site has no coordinate below that of the first. -/
theorem C77_vector_iff_partial (hA : A.IsReal) (hs : Buildable size) (hp : size.prod ≤ 2 ^ 63) (hb : Holds b size.length g P Q N)
    (hr : Regular b size.length) (hi : Independent size.length P) (l : Lattice (Num A)) (hl : Lattice.new b size .open = .ok l)
    (x y : Nat) (hx : x < size.prod) (hy : y < size.prod) (cx cy : List Int) (hcx : l.grid.getCoordinates x = .ok cx)
    (hcy : l.grid.getCoordinates y = .ok cy) :
    l.getVector x y = .ok ((embed size.length P (minus cy cx)).map .fin) ↔ Dominates cy cx := by
  refine ⟨fun h => ?_, fun h => (C77_dominated_partial hA hs hb hr l hl x y hx hy cx cy hcx hcy h).1⟩
  rw [(new_parts hl).1, getCoordinates_eq hs.1 (buildable_fits hs) .open hx, Res.ok.injEq] at hcx
  rw [(new_parts hl).1, getCoordinates_eq hs.1 (buildable_fits hs) .open hy, Res.ok.injEq] at hcy
  subst hcx hcy
  by_cases hle : x ≤ y
  · rw [(open_values hA hs hb hr hl hx hy hle).1, Res.ok.injEq] at h
    have h1 : embed size.length P (crd size (y - x)) = embed size.length P (minus (crd size y) (crd size x)) :=
      List.map_injective_iff.2 (fun a c hac => by simpa using hac) h
    have h2 := embed_injective hi (crd_length ..) (length_minus (crd_length ..) (crd_length ..)) h1
    intro k
    have h3 := coord_minus ((crd_length size x).trans (crd_length size y).symm) k
    rw [← h2] at h3
    have h4 : 0 ≤ coord (crd size (y - x)) k := by
      unfold coord crd
      rw [List.getD_eq_getElem?_getD, List.getElem?_map]
      cases (digits (y - x) size)[k]? <;> simp
    omega
  · rw [(C77_backwards_violated hs hr hp l hl x y hx hy (by omega)).2] at h
    cases h

/-- C77.  `GetDistance` is the distance between the sites exactly if the first does not come after the second and the site numbered by
the difference of their numbers is as far from the origin as they are from each other. -/
theorem C77_distance_iff_partial (hA : A.IsReal) (hs : Buildable size) (hp : size.prod ≤ 2 ^ 63) (hb : Holds b size.length g P Q N)
    (hr : Regular b size.length) (l : Lattice (Num A)) (hl : Lattice.new b size .open = .ok l)
    (x y : Nat) (hx : x < size.prod) (hy : y < size.prod) (cx cy : List Int) (_hcx : l.grid.getCoordinates x = .ok cx)
    (_hcy : l.grid.getCoordinates y = .ok cy) :
    l.getDistance x y = .ok (.fin (Spec.length (embed size.length P (minus cy cx)))) ↔ x ≤ y ∧ ∀ c, l.grid.getCoordinates (y - x) = .ok c →
      Spec.length (embed size.length P c) = Spec.length (embed size.length P (minus cy cx)) := by
  by_cases hle : x ≤ y
  · rw [(open_values hA hs hb hr hl hx hy hle).2, Res.ok.injEq, Num.fin.injEq, (new_parts hl).1,
      getCoordinates_eq hs.1 (buildable_fits hs) .open (show y - x < size.prod by omega)]
    constructor
    · intro h
      refine ⟨hle, fun c hc => ?_⟩
      cases hc
      exact h
    · intro h
      exact h.2 _ rfl
  · rw [(C77_backwards_violated hs hr hp l hl x y hx hy (by omega)).1]
    constructor
    · intro h
      cases h
    · intro h
      exact absurd h.1 hle

theorem sqrt_int_inj {m n : Int} (hm : 0 ≤ m) (hn : 0 ≤ n) : √(m : ℝ) = √(n : ℝ) ↔ m = n := by
  rw [Real.sqrt_inj (by exact_mod_cast hm) (by exact_mod_cast hn)]
  exact_mod_cast Iff.rfl

/-- The coordinates of the site numbered by a difference, in two dimensions. -/
theorem crd_two {L M x y : Nat} (hs : Buildable [L, M]) (hx : x < [L, M].prod) (hy : y < [L, M].prod) (h : x ≤ y) {x0 x1 y0 y1 : Int}
    (hcx : crd [L, M] x = [x0, x1]) (hcy : crd [L, M] y = [y0, y1]) :
    (x1 ≤ y1 ∧ x0 ≤ y0 ∧ crd [L, M] (y - x) = [y0 - x0, y1 - x1]) ∨
    (y1 < x1 ∧ x0 < y0 ∧ crd [L, M] (y - x) = [y0 - x0 - 1, M + (y1 - x1)]) := by
  have gx := siteAt_crd hs.1.1 hx
  have gy := siteAt_crd hs.1.1 hy
  rw [hcx] at gx
  rw [hcy] at gy
  obtain ⟨ox, rx⟩ := gx
  obtain ⟨oy, ry⟩ := gy
  have a0 := (onGrid_iff.1 ox).2 0 (by simp)
  have a1 := (onGrid_iff.1 ox).2 1 (by simp)
  have b0 := (onGrid_iff.1 oy).2 0 (by simp)
  have b1 := (onGrid_iff.1 oy).2 1 (by simp)
  simp [coord, extent] at a0 a1 b0 b1
  simp [rowMajor] at rx ry
  have hM : (0 : Int) < M := by omega
  by_cases hlt : x1 ≤ y1
  · left
    have h0 : x0 ≤ y0 := by
      by_contra hn
      have : y0 + 1 ≤ x0 := by omega
      nlinarith
    refine ⟨hlt, h0, siteAt_unique (siteAt_crd hs.1.1 (by omega)) ⟨.cons (by omega) (.cons (by omega) .nil), ?_⟩⟩
    simp [rowMajor]
    rw [sub_mul]
    omega
  · right
    have h0 : x0 < y0 := by
      by_contra hn
      have : y0 ≤ x0 := by omega
      nlinarith
    refine ⟨by omega, h0, siteAt_unique (siteAt_crd hs.1.1 (by omega)) ⟨.cons (by omega) (.cons (by omega) .nil), ?_⟩⟩
    simp [rowMajor]
    rw [sub_mul, sub_mul]
    omega

theorem square_length (c0 c1 : Int) : Spec.length (embed 2 [1, 0, 0, 1] [c0, c1]) = √((c0 ^ 2 + c1 ^ 2 : Int) : ℝ) := by
  unfold Spec.length
  rw [orthogonal_sq square_orthogonal]
  simp [Finset.sum_range_succ, entry, coord]

theorem triangular_length (c0 c1 : Int) :
    Spec.length (embed 2 [1, 0, 1 / 2, √3 / 2] [c0, c1]) = √((c0 ^ 2 + c0 * c1 + c1 ^ 2 : Int) : ℝ) := by
  unfold Spec.length
  rw [triangular_sq]
  simp [hex, coord, sq]

theorem dominates_two {x0 x1 y0 y1 : Int} : Dominates [y0, y1] [x0, x1] ↔ x0 ≤ y0 ∧ x1 ≤ y1 := by
  constructor
  · intro h
    exact ⟨h 0, h 1⟩
  · rintro ⟨h0, h1⟩ k
    match k with
    | 0 => exact h0
    | 1 => exact h1
    | k + 2 => simp [coord]

theorem two_iff {L M : Nat} {P : List ℝ} {q : Int → Int → Int} (hA : A.IsReal) (hs : Buildable [L, M]) (hp : L * M ≤ 2 ^ 63)
    (hb : Holds b 2 g P Q N) (hr : Regular b 2) (hq : ∀ m n, Spec.length (embed 2 P [m, n]) = √(q m n : ℝ)) (hq0 : ∀ m n, 0 ≤ q m n)
    {l : Lattice (Num A)} (hl : Lattice.new b [L, M] .open = .ok l)
    {x y : Nat} (hx : x < L * M) (hy : y < L * M) {x0 x1 y0 y1 : Int} (hcx : l.grid.getCoordinates x = .ok [x0, x1])
    (hcy : l.grid.getCoordinates y = .ok [y0, y1]) :
    l.getDistance x y = .ok (.fin (√(q (y0 - x0) (y1 - x1) : ℝ))) ↔
      (x0 ≤ y0 ∧ x1 ≤ y1) ∨ (x0 < y0 ∧ y1 < x1 ∧ q (y0 - x0 - 1) (M + (y1 - x1)) = q (y0 - x0) (y1 - x1)) := by
  have hprod : [L, M].prod = L * M := by simp
  rw [← hprod] at hx hy hp
  have hm : minus [y0, y1] [x0, x1] = [y0 - x0, y1 - x1] := rfl
  have key := C77_distance_iff_partial (size := [L, M]) hA hs hp hb hr l hl x y hx hy _ _ hcx hcy
  rw [hm, show embed [L, M].length P = embed 2 P from rfl, hq] at key
  rw [key]
  have hc := fun (i : Nat) (hi : i < [L, M].prod) => getCoordinates_eq hs.1 (buildable_fits hs) .open hi
  rw [(new_parts hl).1] at hcx hcy ⊢
  have hcx' := hcx
  have hcy' := hcy
  rw [hc x hx, Res.ok.injEq] at hcx
  rw [hc y hy, Res.ok.injEq] at hcy
  constructor
  · rintro ⟨hle, h⟩
    have h1 := h _ (hc (y - x) (by omega))
    rcases crd_two hs hx hy hle hcx hcy with ⟨e1, e0, -⟩ | ⟨e1, e0, e⟩
    · exact .inl ⟨e0, e1⟩
    · rw [e, hq, sqrt_int_inj (hq0 ..) (hq0 ..)] at h1
      exact .inr ⟨e0, e1, h1⟩
  · intro h
    have hle : x ≤ y := by
      rcases h with ⟨e0, e1⟩ | ⟨e0, e1, -⟩
      · have := (crd_sub (size := [L, M]) hs hx hy (by rw [hcx, hcy]; exact dominates_two.2 ⟨e0, e1⟩)).1
        exact this
      · have gx := siteAt_crd hs.1.1 hx
        have gy := siteAt_crd hs.1.1 hy
        rw [hcx] at gx
        rw [hcy] at gy
        obtain ⟨ox, rx⟩ := gx
        obtain ⟨oy, ry⟩ := gy
        have a1 := (onGrid_iff.1 ox).2 1 (by simp)
        have b1 := (onGrid_iff.1 oy).2 1 (by simp)
        simp [coord, extent] at a1 b1
        simp [rowMajor] at rx ry
        have : x0 + 1 ≤ y0 := e0
        have hM : (0 : Int) < M := by omega
        have : (x : Int) ≤ y := by nlinarith
        exact_mod_cast this
    refine ⟨hle, fun c hc2 => ?_⟩
    rw [hc (y - x) (by omega), Res.ok.injEq] at hc2
    subst hc2
    rcases crd_two hs hx hy hle hcx hcy with ⟨e1, e0, e⟩ | ⟨e1, e0, e⟩
    · rw [e, hq]
    · rw [e, hq, sqrt_int_inj (hq0 ..) (hq0 ..)]
      rcases h with ⟨-, h⟩ | ⟨-, -, h⟩
      · omega
      · exact h

/-- C77.  On an open square lattice `GetDistance` is right exactly for the pairs whose second site has no coordinate below that of the
first, and for those whose second coordinates fall by e and whose first ones rise by (M² + 1 - 2 M e) / 2, M being the second extent. -/
theorem C77_square_iff_partial (hA : A.IsReal) (hb : squareLattice = .ok b) (L M : Nat) (hs : Buildable [L, M]) (hp : L * M ≤ 2 ^ 63)
    (l : Lattice (Num A)) (hl : Lattice.new b [L, M] .open = .ok l) (x y : Nat) (hx : x < L * M) (hy : y < L * M) (x0 x1 y0 y1 : Int)
    (hcx : l.grid.getCoordinates x = .ok [x0, x1]) (hcy : l.grid.getCoordinates y = .ok [y0, y1]) :
    l.getDistance x y = .ok (.fin (√(((y0 - x0) ^ 2 + (y1 - x1) ^ 2 : Int) : ℝ))) ↔
      (x0 ≤ y0 ∧ x1 ≤ y1) ∨ (x0 < y0 ∧ y1 < x1 ∧ 2 * (y0 - x0) = M ^ 2 + 1 - 2 * M * (x1 - y1)) := by
  obtain ⟨b', h1, hh⟩ := square_holds hA
  obtain ⟨b'', h3, hr⟩ := square_regular (F := Num A)
  rw [hb, Res.ok.injEq] at h1 h3
  subst h1; subst h3
  rw [two_iff (q := fun m n => m ^ 2 + n ^ 2) hA hs hp hh hr square_length (fun m n => by positivity) hl hx hy hcx hcy]
  refine or_congr Iff.rfl (and_congr Iff.rfl (and_congr Iff.rfl ?_))
  constructor <;> intro h <;> linarith

/-- C77.  On an open triangular lattice `GetDistance` is right exactly for the pairs whose second site has no coordinate below that of
the first, and for those whose second coordinates fall by e and whose first ones rise by a, with
(M - 2) a + M² - M + 1 = (2 M - 1) e. -/
theorem C77_triangular_iff_partial (hA : A.IsReal) (hb : triangularLattice = .ok b) (L M : Nat) (hs : Buildable [L, M])
    (hp : L * M ≤ 2 ^ 63) (l : Lattice (Num A)) (hl : Lattice.new b [L, M] .open = .ok l) (x y : Nat) (hx : x < L * M) (hy : y < L * M)
    (x0 x1 y0 y1 : Int) (hcx : l.grid.getCoordinates x = .ok [x0, x1]) (hcy : l.grid.getCoordinates y = .ok [y0, y1]) :
    l.getDistance x y = .ok (.fin (√(((y0 - x0) ^ 2 + (y0 - x0) * (y1 - x1) + (y1 - x1) ^ 2 : Int) : ℝ))) ↔
      (x0 ≤ y0 ∧ x1 ≤ y1) ∨ (x0 < y0 ∧ y1 < x1 ∧ (M - 2) * (y0 - x0) + M ^ 2 - M + 1 = (2 * M - 1) * (x1 - y1)) := by
  obtain ⟨b', h1, hh⟩ := triangular_holds hA
  obtain ⟨b'', h3, hr⟩ := triangular_regular (F := Num A)
  rw [hb, Res.ok.injEq] at h1 h3
  subst h1; subst h3
  rw [two_iff (q := fun m n => m ^ 2 + m * n + n ^ 2) hA hs hp hh hr triangular_length (fun m n => by nlinarith [sq_nonneg (m + n), sq_nonneg m, sq_nonneg n]) hl hx hy hcx hcy]
  refine or_congr Iff.rfl (and_congr Iff.rfl (and_congr Iff.rfl ?_))
  constructor <;> intro h <;> linarith

/-- C77: the hypotheses can be met, and so can the second case: from (0,1) to (2,0) on an open square lattice of 3 by 3 sites. -/
example (hA : A.IsReal) : ∃ (b : Bravais (Num A)) (l : Lattice (Num A)), squareLattice = .ok b ∧ Buildable [3, 3] ∧
    Lattice.new b [3, 3] .open = .ok l ∧ l.grid.getCoordinates 1 = .ok [0, 1] ∧ l.grid.getCoordinates 6 = .ok [2, 0] ∧
    l.getDistance 1 6 = .ok (.fin (√((5 : Int) : ℝ))) := by
  obtain ⟨b, h1, h2⟩ := square_regular (F := Num A)
  have hs : Buildable [3, 3] := ⟨by decide, by decide⟩
  obtain ⟨l, hl, -⟩ := C73_defined hs (b := b) h2 .open (fun h => by cases h)
  have e1 : l.grid.getCoordinates 1 = .ok [0, 1] := by
    rw [(new_parts hl).1, getCoordinates_eq hs.1 (buildable_fits hs) .open (by decide)]; rfl
  have e2 : l.grid.getCoordinates 6 = .ok [2, 0] := by
    rw [(new_parts hl).1, getCoordinates_eq hs.1 (buildable_fits hs) .open (by decide)]; rfl
  exact ⟨b, l, h1, hs, hl, e1, e2, by
    simpa using (C77_square_iff_partial hA h1 3 3 hs (by decide) l hl 1 6 (by decide) (by decide) 0 1 2 0 e1 e2).2 (.inr (by decide))⟩
end
end Bwsl
