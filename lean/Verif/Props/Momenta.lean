import Verif.Props.OpenLattice

/-! Property C78: momenta. -/

namespace Bwsl
open Spec

set_option linter.unusedSectionVars false

section
variable {A : Arith ℝ} {b : Bravais (Num A)} {size : List Nat} {g : Nat} {P Q : List ℝ} {N : List Int}

/-- The components of a momentum. -/
noncomputable def waveAt (size : List Nat) (Q : List ℝ) (i k : Nat) : ℝ :=
  2 * Real.pi * (∑ j ∈ Finset.range size.length, (coord (label size i) j : ℝ) * entry size.length Q j k) / (extent size k : ℝ)

noncomputable def wave (size : List Nat) (Q : List ℝ) (i : Nat) : List ℝ := (List.range size.length).map (waveAt size Q i)

theorem momenta_closed (hA : A.IsReal) (hs : Buildable size) (hb : Holds b size.length g P Q N) (hr : Regular b size.length)
    {l : Lattice (Num A)} (hl : Lattice.new b size .closed = .ok l) :
    l.momenta = (List.range size.prod).map (fun i => (wave size Q i).map .fin) := by
  have hm := (new_parts hl).2.2.2.2.2
  have ho : (Grid.new size .closed).hasOpenBoundaries = false := rfl
  unfold Lattice.computeMomenta at hm
  rw [ho, if_neg (by decide), numsites_eq hs.1, mapRange_ok (g := fun i => (wave size Q i).map .fin), Res.ok.injEq] at hm
  · exact hm.symm
  · intro i hi
    obtain ⟨v, h1, h2, h3⟩ := computeMomentum_eq hs hr .closed hi
    rw [getReciprocalSpace_ok hA hb (by simp [label]) (label_bounds hs hi), Res.ok.injEq] at h1
    rw [h3, mapRange_ok (g := fun k => .fin (waveAt size Q i k))]
    · unfold wave; rw [List.map_map]; rfl
    · intro k hk
      rw [subscript_isOk hk, Res.ok_bind]
      have hv : v[k]? = some (.fin (2 * Real.pi * ∑ j ∈ Finset.range size.length, (coord (label size i) j : ℝ) * entry size.length Q j k)) := by
        rw [← h1, List.getElem?_map, List.getElem?_eq_getElem (by rw [embed_length]; exact hk), embed_getElem]; rfl
      have hpos : (size[k] : ℝ) ≠ 0 := by
        have := hs.1.1 _ (List.getElem_mem hk)
        exact_mod_cast this.ne'
      rw [subscript_ok hv, Res.ok_bind, Num.ofNat_eq, Num.round_exact hA.exact, Num.fin_div hpos, Num.round_exact hA.exact]
      unfold waveAt
      rw [extent_eq hk]
      simp

theorem getMomentum_eq (hA : A.IsReal) (hs : Buildable size) (hb : Holds b size.length g P Q N) (hr : Regular b size.length)
    {l : Lattice (Num A)} (hl : Lattice.new b size .closed = .ok l) {i : Nat} (hi : i < size.prod) :
    l.getMomentum i = .ok ((wave size Q i).map .fin) := by
  unfold Lattice.getMomentum
  rw [indexIsValid_eq hs hl hi, if_pos rfl, momenta_closed hA hs hb hr hl]
  refine subscript_ok ?_
  rw [List.getElem?_map, List.getElem?_range hi]; rfl

/-- The scalar product of a momentum with a point. -/
theorem dot_wave (i : Nat) (c : List Int) : dot (wave size Q i) (embed size.length P c) =
    ∑ k ∈ Finset.range size.length, waveAt size Q i k * ∑ j ∈ Finset.range size.length, (coord c j : ℝ) * entry size.length P j k := by
  unfold dot wave embed
  rw [List.zipWith_map, List.zipWith_self, list_range_sum]

/-- Off-diagonal entries vanish. -/
def Diagonal (d : Nat) (P : List ℝ) : Prop := ∀ j k, j < d → k < d → j ≠ k → entry d P j k = 0

theorem diagonal_sum {d : Nat} {P : List ℝ} (h : Diagonal d P) (f : Nat → ℝ) {k : Nat} (hk : k < d) :
    ∑ j ∈ Finset.range d, f j * entry d P j k = f k * entry d P k k := by
  refine Finset.sum_eq_single k (fun j hj hjk => ?_) (fun h => absurd (Finset.mem_range.2 hk) h)
  rw [h j k (Finset.mem_range.1 hj) hk hjk, mul_zero]

theorem extent_ne (hs : Buildable size) {k : Nat} (hk : k < size.length) : (extent size k : ℝ) ≠ 0 := by
  exact_mod_cast (extent_pos hs.1.1 hk).ne'

/-- On an axis-aligned lattice the phase of a momentum at a point. -/
theorem dot_wave_diagonal (hs : Buildable size) (hP : Diagonal size.length P) (hQ : Diagonal size.length Q)
    (hd : Dual size.length P Q) (i : Nat) (c : List Int) :
    dot (wave size Q i) (embed size.length P c) =
      ∑ k ∈ Finset.range size.length, 2 * Real.pi * (coord (label size i) k * coord c k : ℤ) / (extent size k : ℝ) := by
  rw [dot_wave]
  refine Finset.sum_congr rfl (fun k hk => ?_)
  have hk := Finset.mem_range.1 hk
  unfold waveAt
  rw [diagonal_sum hQ _ hk, diagonal_sum hP _ hk]
  have h1 := hd k k hk hk
  rw [if_pos rfl, diagonal_sum' hQ hk] at h1
  have := extent_ne hs hk
  push_cast
  field_simp
  linear_combination (coord (label size i) k : ℝ) * coord c k * h1
where
  diagonal_sum' {d : Nat} {P Q : List ℝ} (h : Diagonal d Q) {k : Nat} (hk : k < d) :
      ∑ i ∈ Finset.range d, entry d P k i * entry d Q k i = entry d P k k * entry d Q k k := by
    refine Finset.sum_eq_single k (fun j hj hjk => ?_) (fun h => absurd (Finset.mem_range.2 hk) h)
    rw [h k j hk (Finset.mem_range.1 hj) (Ne.symm hjk), mul_zero]

theorem coord_period {j k : Nat} (hk : k < size.length) :
    coord ((List.range size.length).map (fun i => if i = j then extent size j else 0)) k = if k = j then extent size j else 0 :=
  coord_tab (f := fun i => if i = j then extent size j else 0) hk

/-- C78.  On axis-aligned lattices every momentum is allowed.  Missing: see the other theorems. -/
theorem C78_axis_aligned_partial (hA : A.IsReal) (hs : Buildable size) (hb : Holds b size.length g P Q N)
    (hr : Regular b size.length) (hP : Diagonal size.length P) (hQ : Diagonal size.length Q) (hd : Dual size.length P Q)
    (l : Lattice (Num A)) (hl : Lattice.new b size .closed = .ok l) (i : Nat) (hi : i < size.prod) :
    ∃ k : List ℝ, l.getMomentum i = .ok (k.map .fin) ∧ Allowed size P k := by
  refine ⟨_, getMomentum_eq hA hs hb hr hl hi, fun j hj => ⟨coord (label size i) j, ?_⟩⟩
  unfold period
  rw [dot_wave_diagonal hs hP hQ hd, Finset.sum_eq_single j]
  · rw [coord_period hj, if_pos rfl]
    have := extent_ne hs hj
    push_cast
    field_simp
  · intro k hk hkj
    rw [coord_period (Finset.mem_range.1 hk), if_neg hkj]; simp
  · intro h; exact absurd (Finset.mem_range.2 hj) h

theorem unit_diagonal_cases
    (hb : chainLattice = .ok b ∨ squareLattice = .ok b ∨ cubicLattice = .ok b) : Diagonal b.dim (unit b.dim) := by
  have hd : b.dim = 1 ∨ b.dim = 2 ∨ b.dim = 3 := by
    rcases hb with hb | hb | hb
    · obtain ⟨b', h1, h2⟩ := chain_regular (F := Num A)
      rw [hb, Res.ok.injEq] at h1; subst h1; exact .inl h2.dim
    · obtain ⟨b', h1, h2⟩ := square_regular (F := Num A)
      rw [hb, Res.ok.injEq] at h1; subst h1; exact .inr (.inl h2.dim)
    · obtain ⟨b', h1, h2⟩ := cubic_regular (F := Num A)
      rw [hb, Res.ok.injEq] at h1; subst h1; exact .inr (.inr h2.dim)
  intro j k hj hk hjk
  rcases hd with h | h | h <;> rw [h] at hj hk ⊢ <;> interval_cases j <;> interval_cases k <;>
    simp_all [entry, unit, List.range_succ]

/-- C78.  On chain, square and cubic lattices every momentum is allowed.  Missing: triangular lattices. -/
theorem C78_orthogonal_partial (hA : A.IsReal) (hb : chainLattice = .ok b ∨ squareLattice = .ok b ∨ cubicLattice = .ok b)
    (hs : Buildable size) (hd : size.length = b.dim) (l : Lattice (Num A)) (hl : Lattice.new b size .closed = .ok l)
    (i : Nat) (hi : i < size.prod) :
    ∃ k : List ℝ, l.getMomentum i = .ok (k.map .fin) ∧ Allowed size (unit size.length) k := by
  obtain ⟨g, N, h1, h2, h3, h4⟩ := orthogonal_cases hA hb
  have h5 := unit_diagonal_cases hb
  rw [← hd] at h1 h2 h3 h4 h5
  exact C78_axis_aligned_partial hA hs h1 h2 h5 h5 h4 l hl i hi

/-- C78.  On any lattice all of whose extents are equal every momentum is allowed.  Missing: see the other theorems. -/
theorem C78_equal_extents_partial (hA : A.IsReal) (hs : Buildable size) (hb : Holds b size.length g P Q N)
    (hr : Regular b size.length) (hd : Dual size.length P Q) (L : Nat) (hL : ∀ s ∈ size, s = L)
    (l : Lattice (Num A)) (hl : Lattice.new b size .closed = .ok l) (i : Nat) (hi : i < size.prod) :
    ∃ k : List ℝ, l.getMomentum i = .ok (k.map .fin) ∧ Allowed size P k := by
  refine ⟨_, getMomentum_eq hA hs hb hr hl hi, fun j hj => ⟨coord (label size i) j, ?_⟩⟩
  have hext : ∀ k, k < size.length → extent size k = L := fun k hk => by
    rw [extent_eq hk, hL _ (List.getElem_mem hk)]
  have hL0 : (L : ℝ) ≠ 0 := by
    have := extent_ne hs hj
    rw [hext j hj] at this
    exact_mod_cast this
  have hw : wave size Q i = (embed size.length Q (label size i)).map ((2 * Real.pi / L) * ·) := by
    unfold wave embed
    rw [List.map_map]
    refine List.map_congr_left (fun k hk => ?_)
    simp only [waveAt, Function.comp, hext k (List.mem_range.1 hk)]
    push_cast
    ring
  have hcomm : ∀ u v : List ℝ, dot u v = dot v u := fun u v => by
    unfold dot; rw [List.zipWith_comm]; simp only [mul_comm]
  unfold period
  rw [hw, hcomm, dot_smul, dot_embed hd (by simp) (by simp [label])]
  have : intDot ((List.range size.length).map (fun i => if i = j then extent size j else 0)) (label size i) =
      extent size j * coord (label size i) j := by
    unfold intDot
    have : List.zipWith (· * ·) ((List.range size.length).map (fun i => if i = j then extent size j else 0)) (label size i) =
        (List.range size.length).map (fun k => (if k = j then extent size j else 0) * coord (label size i) k) := by
      refine List.ext_getElem (by simp [label]) (fun k h1 h2 => ?_)
      have hk : k < size.length := by simpa using h2
      rw [List.getElem_zipWith, List.getElem_map, List.getElem_map, List.getElem_range, ← coord_eq]
    rw [this, list_range_sum, Finset.sum_eq_single j]
    · rw [if_pos rfl]
    · intro k _ hk; rw [if_neg hk, zero_mul]
    · intro h; exact absurd (Finset.mem_range.2 hj) h
  rw [this, hext j hj]
  push_cast
  field_simp

theorem label_attained (hs : Buildable size) {j : Nat} (hj : j < size.length) {n : Int} (h1 : -(extent size j / 2) ≤ n)
    (h2 : n < extent size j - extent size j / 2) : ∃ i, i < size.prod ∧ coord (label size i) j = n := by
  have hg : OnGrid (tab size.length (fun k => if k = j then n + extent size j / 2 else 0)) size := by
    refine onGrid_iff.2 ⟨length_tab .., fun k hk => ?_⟩
    rw [coord_tab hk]
    split
    · rename_i h; subst h; omega
    · exact ⟨le_rfl, extent_pos hs.1.1 hk⟩
  refine ⟨_, idx_lt hg, ?_⟩
  rw [coord_label hj, crd_idx hs.1.1 hg, coord_tab hj, if_pos rfl]
  omega

/-- C78.  On a triangular lattice every momentum is allowed exactly when the first extent is 1 or the difference of the
extents is a multiple of twice the first.  Missing: it should be so for all extents. -/
theorem C78_triangular_iff_partial (hA : A.IsReal) (hb : triangularLattice = .ok b) (L M : Nat) (hs : Buildable [L, M])
    (l : Lattice (Num A)) (hl : Lattice.new b [L, M] .closed = .ok l) :
    (∀ i, i < [L, M].prod → ∃ k : List ℝ, l.getMomentum i = .ok (k.map .fin) ∧ Allowed [L, M] [1, 0, 1 / 2, √3 / 2] k) ↔
      L = 1 ∨ (2 * (L : Int)) ∣ (M : Int) - L := by
  obtain ⟨hh, hr⟩ := triangular_cases hA hb
  have hM := fun {i} hi => getMomentum_eq hA hs (size := [L, M]) hh hr hl (i := i) hi
  have hL0 : (L : ℝ) ≠ 0 := by exact_mod_cast (hs.1.1 L (by simp)).ne'
  have hM0 : (M : ℝ) ≠ 0 := by exact_mod_cast (hs.1.1 M (by simp)).ne'
  have h3 : (√3 : ℝ) ≠ 0 := by positivity
  have h33 : √3 * √3 = (3 : ℝ) := Real.mul_self_sqrt (by norm_num)
  have p0 : ∀ i, dot (wave [L, M] [1, -1 / √3, 0, 2 / √3] i) (period [L, M] [1, 0, 1 / 2, √3 / 2] 0) =
      2 * Real.pi * (coord (label [L, M] i) 0 : ℤ) := by
    intro i
    unfold period
    rw [dot_wave]
    simp only [waveAt, entry, extent]
    simp [Finset.sum_range_succ, List.range_succ, coord]
    field_simp
  have p1 : ∀ i, dot (wave [L, M] [1, -1 / √3, 0, 2 / √3] i) (period [L, M] [1, 0, 1 / 2, √3 / 2] 1) =
      2 * Real.pi * ((coord (label [L, M] i) 0 : ℤ) * ((M : ℝ) - L) / (2 * L) + (coord (label [L, M] i) 1 : ℤ)) := by
    intro i
    unfold period
    rw [dot_wave]
    simp only [waveAt, entry, extent]
    simp [Finset.sum_range_succ, List.range_succ, coord]
    field_simp
    ring
  have hpi := Real.pi_pos
  have e0 : extent [L, M] 0 = (L : Int) := rfl
  have hLpos := hs.1.1 L (by simp)
  constructor
  · intro h
    by_cases hL1 : L = 1
    · exact .inl hL1
    · right
      obtain ⟨i, hi, hli⟩ := label_attained hs (j := 0) (by simp) (n := -1) (by rw [e0]; omega) (by rw [e0]; omega)
      obtain ⟨k, hk, hall⟩ := h i hi
      rw [hM hi, Res.ok.injEq] at hk
      have hk : wave [L, M] [1, -1 / √3, 0, 2 / √3] i = k := List.map_injective_iff.2 (fun x y h => by injection h) hk
      obtain ⟨n, hn⟩ := hall 1 (by simp)
      rw [← hk, p1, hli] at hn
      have hn : (-1 : ℝ) * ((M : ℝ) - L) / (2 * L) + (coord (label [L, M] i) 1 : ℤ) = n := by
        have := mul_left_cancel₀ (by positivity) hn
        exact_mod_cast this
      refine ⟨coord (label [L, M] i) 1 - n, ?_⟩
      have : (M : ℝ) - L = 2 * L * ((coord (label [L, M] i) 1 : ℤ) - n) := by
        field_simp at hn
        linear_combination -hn
      exact_mod_cast this
  · intro h i hi
    refine ⟨_, hM hi, fun j hj => ?_⟩
    have hj : j = 0 ∨ j = 1 := by simp at hj; omega
    rcases hj with rfl | rfl
    · exact ⟨_, p0 i⟩
    · rcases h with rfl | ⟨q, hq⟩
      · have : coord (label [1, M] i) 0 = 0 := by
          rw [coord_label (by simp)]
          have := (onGrid_iff.1 (crd_onGrid hs.1.1 hi)).2 0 (by simp)
          rw [e0] at this ⊢
          omega
        exact ⟨coord (label [1, M] i) 1, by rw [p1, this]; simp⟩
      · refine ⟨coord (label [L, M] i) 0 * q + coord (label [L, M] i) 1, ?_⟩
        rw [p1]
        have : (M : ℝ) - L = 2 * L * q := by exact_mod_cast hq
        rw [this]
        push_cast
        field_simp

/-- C78 is violated: for example on the 2 by 3 triangular lattice. -/
theorem C78_triangular_violated (hA : A.IsReal) (hb : triangularLattice = .ok b) :
    ∃ l : Lattice (Num A), Lattice.new b [2, 3] .closed = .ok l ∧
      ∃ i, i < 6 ∧ ∃ k : List ℝ, l.getMomentum i = .ok (k.map .fin) ∧ ¬ Allowed [2, 3] [1, 0, 1 / 2, √3 / 2] k := by
  obtain ⟨hh, hr⟩ := triangular_cases hA hb
  have hs : Buildable [2, 3] := ⟨by decide, by decide⟩
  obtain ⟨l, hl, -⟩ := C73_defined hs hr .closed (fun _ => by decide)
  refine ⟨l, hl, ?_⟩
  by_contra hno
  have := (C78_triangular_iff_partial hA hb 2 3 hs l hl).1 (fun i hi => ⟨_, getMomentum_eq hA hs (size := [2, 3]) hh hr hl hi, by
    by_contra hn
    exact hno ⟨i, hi, _, getMomentum_eq hA hs (size := [2, 3]) hh hr hl hi, hn⟩⟩)
  revert this
  decide

/-- C78.  On an open lattice there are no momenta: `GetMomentum` always reads out of bounds. -/
theorem C78_open_violated {F : Type} [CxxFloat F] {b : Bravais F} (hs : Buildable size) (l : Lattice F)
    (hl : Lattice.new b size .open = .ok l) (i : Nat) (hi : i < size.prod) : l.getMomentum i = .ub .outOfBounds := by
  have hm := (new_parts hl).2.2.2.2.2
  have : Lattice.computeMomenta (Grid.new size .open) b = .ok [] := rfl
  rw [this, Res.ok.injEq] at hm
  unfold Lattice.getMomentum
  rw [indexIsValid_eq hs hl hi, if_pos rfl, ← hm]
  rfl

/-- C78: extents for which the momenta of a triangular lattice are allowed. -/
example : Buildable [2, 6] ∧ (2 * ((2 : Nat) : Int)) ∣ ((6 : Nat) : Int) - (2 : Nat) := ⟨⟨by decide, by decide⟩, by decide⟩
example : Diagonal 2 [3, 0, 0, 5] := by
  intro j k hj hk h
  interval_cases j <;> interval_cases k <;> simp_all [entry]

end
end Bwsl
