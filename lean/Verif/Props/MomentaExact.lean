import Verif.Props.SkBounds

/-! C78: on which lattices momenta are allowed. -/

namespace Bwsl
open Spec

section
variable {A : Arith ℝ} {b : Bravais (Num A)} {size : List Nat} {g : Nat} {P Q : List ℝ} {N : List Int}

/-- The scalar product of primitive vector j, times its extent, with reciprocal vector l, each Cartesian component of which is
divided by an extent. -/
noncomputable def Spec.mixed (size : List Nat) (P Q : List ℝ) (j l : Nat) : ℝ :=
  ∑ k ∈ Finset.range size.length,
    (extent size j : ℝ) * entry size.length P j k * (entry size.length Q l k / (extent size k : ℝ))

theorem dot_wave_period {i j : Nat} (hj : j < size.length) : dot (wave size Q i) (period size P j) =
    2 * Real.pi * ∑ l ∈ Finset.range size.length, (coord (label size i) l : ℝ) * mixed size P Q j l := by
  unfold period
  rw [dot_wave]
  have h1 : ∀ k, ∑ r ∈ Finset.range size.length,
      (coord ((List.range size.length).map (fun i => if i = j then extent size j else 0)) r : ℝ) * entry size.length P r k =
      (extent size j : ℝ) * entry size.length P j k := by
    intro k
    rw [Finset.sum_eq_single j]
    · rw [coord_period hj, if_pos rfl]
    · intro r hr hrj
      rw [coord_period (Finset.mem_range.1 hr), if_neg hrj]; simp
    · intro h; exact absurd (Finset.mem_range.2 hj) h
  simp only [h1]
  unfold waveAt mixed
  simp only [Finset.mul_sum, Finset.sum_mul, Finset.sum_div]
  rw [Finset.sum_comm]
  refine Finset.sum_congr rfl (fun l _ => Finset.sum_congr rfl (fun k _ => ?_))
  ring

/-- C78 (what holds, for any lattice).  The momenta of a closed lattice are all allowed exactly if the scalar product of each
primitive vector times its extent with each reciprocal vector, its Cartesian components divided by the extents, is a whole number
(in units of 2 pi); reciprocal vectors of directions with a single site do not matter.  Missing: it should be so for all lattices. -/
theorem C78_iff_partial (hA : A.IsReal) (hs : Buildable size) (hb : Holds b size.length g P Q N) (hr : Regular b size.length)
    (l : Lattice (Num A)) (hl : Lattice.new b size .closed = .ok l) :
    (∀ i, i < size.prod → ∃ k : List ℝ, l.getMomentum i = .ok (k.map .fin) ∧ Allowed size P k) ↔
      ∀ j m, j < size.length → m < size.length → 2 ≤ extent size m → ∃ n : Int, mixed size P Q j m = n := by
  have hpi : (2 * Real.pi : ℝ) ≠ 0 := by positivity
  constructor
  · intro h j m hj hm h2
    obtain ⟨i, hi, hc⟩ := label_exists hs (fun q => if q = m then -1 else 0) (fun q hq => by
      have := extent_pos hs.1.1 hq
      split
      · rename_i e; subst e; omega
      · omega)
    obtain ⟨k, hk, hall⟩ := h i hi
    rw [getMomentum_eq hA hs hb hr hl hi, Res.ok.injEq] at hk
    have hk' : k = wave size Q i := by
      have := List.map_injective_iff.2 (fun x y (h : (Num.fin x : Num A) = .fin y) => by injection h) hk
      exact this.symm
    subst hk'
    obtain ⟨n, hn⟩ := hall j hj
    rw [dot_wave_period hj] at hn
    have hn := mul_left_cancel₀ hpi hn
    rw [Finset.sum_eq_single m] at hn
    · rw [hc m hm, if_pos rfl] at hn
      refine ⟨-n, ?_⟩
      push_cast at hn ⊢
      linarith
    · intro q hq hqm
      rw [hc q (Finset.mem_range.1 hq), if_neg hqm]; simp
    · intro h; exact absurd (Finset.mem_range.2 hm) h
  · intro h i hi
    refine ⟨_, getMomentum_eq hA hs hb hr hl hi, fun j hj => ?_⟩
    have key : ∀ m, ∃ n : Int, m < size.length → (coord (label size i) m : ℝ) * mixed size P Q j m = n := by
      intro m
      by_cases hm : m < size.length
      · by_cases h2 : 2 ≤ extent size m
        · obtain ⟨n, hn⟩ := h j m hj hm h2
          exact ⟨coord (label size i) m * n, fun _ => by rw [hn]; push_cast; rfl⟩
        · refine ⟨0, fun _ => ?_⟩
          have h1 := extent_pos hs.1.1 hm
          have := coord_label (size := size) (i := i) hm
          have hg := (onGrid_iff.1 (crd_onGrid hs.1.1 hi)).2 m hm
          have : coord (label size i) m = 0 := by omega
          rw [this]; simp
      · exact ⟨0, fun h => absurd h hm⟩
    choose n hn using key
    refine ⟨∑ m ∈ Finset.range size.length, n m, ?_⟩
    rw [dot_wave_period hj]
    congr 1
    push_cast
    exact Finset.sum_congr rfl (fun m hm => hn m (Finset.mem_range.1 hm))

/-- The condition is met by a slanted lattice with a suitable ratio of extents: here (1,0) and (1,1) with extents 2 and 4. -/
example : ∀ j m, j < 2 → m < 2 → 2 ≤ extent [2, 4] m → ∃ n : Int, mixed [2, 4] [1, 0, 1, 1] [1, -1, 0, 1] j m = n := by
  intro j m hj hm _
  interval_cases j <;> interval_cases m <;> simp only [mixed, entry, extent, List.length_cons, List.length_nil, Finset.sum_range_succ] <;>
    norm_num
  · exact ⟨1, by norm_num⟩
  · exact ⟨0, by norm_num⟩
  · exact ⟨1, by norm_num⟩
  · exact ⟨1, by norm_num⟩
end
end Bwsl
