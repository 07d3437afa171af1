import Verif.Props.Momenta
import Verif.Spec.Structure

/-! Lemmas about structure factors. -/

namespace Bwsl
open Spec

set_option linter.unusedSectionVars false

section
variable {A : Arith ℝ} {b : Bravais (Num A)} {size : List Nat} {g : Nat} {P Q : List ℝ} {N : List Int}

theorem dot_range {d : Nat} {u v : List ℝ} (hu : u.length = d) (hv : v.length = d) :
    ∑ q ∈ Finset.range d, u.getD q 0 * v.getD q 0 = dot u v := by
  unfold dot
  have : List.zipWith (· * ·) u v = (List.range d).map (fun q => u.getD q 0 * v.getD q 0) := by
    refine List.ext_getElem (by simp [hu, hv]) (fun q h1 h2 => ?_)
    have hq : q < d := by simpa using h2
    have h3 : q < u.length := hu ▸ hq
    have h4 : q < v.length := hv ▸ hq
    simp [List.getD_eq_getElem?_getD, h3, h4]
  rw [this, list_range_sum]

theorem transform_im (n : Nat) (occ : List ℝ) (x : Nat → List ℝ) (k : List ℝ) :
    (transform n occ x k).im = ∑ j ∈ Finset.range n, Real.sin (dot k (x j)) * occupation occ j := by
  unfold transform
  rw [Complex.im_sum]
  refine Finset.sum_congr rfl (fun j _ => ?_)
  rw [Complex.im_ofReal_mul, Complex.exp_ofReal_mul_I_im, mul_comm]

theorem transform_re (n : Nat) (occ : List ℝ) (x : Nat → List ℝ) (k : List ℝ) :
    (transform n occ x k).re = ∑ j ∈ Finset.range n, Real.cos (dot k (x j)) * occupation occ j := by
  unfold transform
  rw [Complex.re_sum]
  refine Finset.sum_congr rfl (fun j _ => ?_)
  rw [Complex.re_ofReal_mul, Complex.exp_ofReal_mul_I_re, mul_comm]

/-- What `AccumulateSk` reads: the displacements from site 0 and the occupations. -/
structure SkInput {T : Type} (size : List Nat) (l : Lattice (Num A)) (conv : T → Num A) (occ : List T) (ω : List ℝ)
    (x : Nat → List ℝ) : Prop where
  vector : ∀ j, j < size.prod → l.getVector 0 j = .ok ((x j).map .fin) ∧ (x j).length = size.length
  occ : ∀ j, j < size.prod → ∃ o, occ[j]? = some o ∧ conv o = .fin (occupation ω j)

theorem fourier_eq {T : Type} {conv : T → Num A} {occ : List T} {ω : List ℝ} {x : Nat → List ℝ} (hA : A.IsReal)
    (hs : Buildable size) {l : Lattice (Num A)} (hl : Lattice.new b size .closed = .ok l) (hi : SkInput size l conv occ ω x)
    {k : List ℝ} (hk : k.length = size.length) :
    l.fourier conv occ (k.map .fin) = .ok (.fin (transform size.prod ω x k).im, .fin (transform size.prod ω x k).re) := by
  unfold Lattice.fourier
  have hg := (new_parts hl).1
  have hdim : l.grid.dim = size.length := by rw [hg]; rfl
  rw [hg, numsites_eq hs.1, ← hg, hdim, transform_im, transform_re]
  obtain ⟨s, h1, h2⟩ := foldRange_inv (n := size.prod)
    (f := fun (s : Num A × Num A) j => do
      let x ← l.getVector 0 j
      let prod ← accumulate size.length (fun q => do
        let kq ← subscript (k.map .fin) q
        let xq ← subscript x q
        .ok (kq * xq))
      let o ← subscript occ j
      .ok (s.1 + CxxFloat.sin prod * conv o, s.2 + CxxFloat.cos prod * conv o))
    (s := (CxxFloat.zero, CxxFloat.zero))
    (fun m s => s = (.fin (∑ j ∈ Finset.range m, Real.sin (dot k (x j)) * occupation ω j),
      .fin (∑ j ∈ Finset.range m, Real.cos (dot k (x j)) * occupation ω j)))
    (by simp [Num.zero_eq]) (by
      rintro m _ hm rfl
      obtain ⟨hv, hlen⟩ := hi.vector m hm
      obtain ⟨o, ho, hc⟩ := hi.occ m hm
      refine ⟨_, ?_, rfl⟩
      simp only [hv, Res.ok_bind]
      rw [accumulate_ok hA.exact (g := fun q => k.getD q 0 * (x m).getD q 0), Res.ok_bind, subscript_ok ho, Res.ok_bind,
        dot_range hk hlen, hc, real_sin hA, real_cos hA, Num.fin_mul, Num.fin_mul, Num.round_exact hA.exact,
        Num.round_exact hA.exact, Num.fin_add, Num.fin_add, Num.round_exact hA.exact, Num.round_exact hA.exact,
        Finset.sum_range_succ, Finset.sum_range_succ]
      intro q hq
      rw [subscript_fin (hk ▸ hq), Res.ok_bind, subscript_fin (hlen ▸ hq), Res.ok_bind, Num.fin_mul,
        Num.round_exact hA.exact])
  rw [h1, h2]

theorem wave_length (i : Nat) : (wave size Q i).length = size.length := by simp [wave]

/-- The displacements from site 0 to all sites. -/
theorem vectors_exist (hA : A.IsReal) (hs : Buildable size) (hb : Holds b size.length g P Q N) (hr : Regular b size.length)
    {l : Lattice (Num A)} (hl : Lattice.new b size .closed = .ok l) :
    ∃ (m : Nat → List Int), ∀ j, j < size.prod →
      l.getVector 0 j = .ok ((embed size.length P (image size (crd size j) (m j))).map .fin) := by
  have h0 : 0 < size.prod := prod_pos hs.1.1
  have : ∀ j, ∃ m : List Int, j < size.prod →
      l.getVector 0 j = .ok ((embed size.length P (image size (crd size j) m)).map .fin) := by
    intro j
    by_cases hj : j < size.prod
    · obtain ⟨m, -, hv, -⟩ := closed_eq hA hs hb hr hl h0 hj
      refine ⟨m, fun _ => ?_⟩
      rw [hv, minus_origin (onGrid_length (crd_onGrid hs.1.1 hj)), wrap_of_onGrid (crd_onGrid hs.1.1 hj)]
    · exact ⟨[], fun h => absurd h hj⟩
  choose m hm using this
  exact ⟨m, hm⟩

theorem normSq_eq (z : ℂ) : z.im * z.im + z.re * z.re = Complex.normSq z := by
  rw [Complex.normSq_apply]; ring

theorem accumulateSk_eq {T : Type} {conv : T → Num A} {occ : List T} {ω : List ℝ} {x : Nat → List ℝ} (hA : A.IsReal)
    (hs : Buildable size) (hn : size.prod < 2 ^ 32) (hb : Holds b size.length g P Q N) (hr : Regular b size.length)
    {l : Lattice (Num A)} (hl : Lattice.new b size .closed = .ok l) (hi : SkInput size l conv occ ω x)
    {sk : List ℝ} (hsk : size.prod ≤ sk.length) (mult : ℝ) :
    l.accumulateSk conv occ (sk.map .fin) (.fin mult) = .ok (((List.range size.prod).map
      (fun i => sk.getD i 0 + structureFactor size.prod mult ω x (wave size Q i)) ++ sk.drop size.prod).map .fin) := by
  unfold Lattice.accumulateSk
  have hg := (new_parts hl).1
  have ho : l.grid.hasOpenBoundaries = false := by rw [hg]; rfl
  have hnum : l.grid.numsites = size.prod := by rw [hg, numsites_eq hs.1]
  have h0 : 0 < size.prod := prod_pos hs.1.1
  rw [ho, if_neg (by decide), hnum]
  simp only []
  rw [mapRange_ok (g := fun i => .fin (sk.getD i 0 + structureFactor size.prod mult ω x (wave size Q i)))]
  · rw [Res.ok_bind, List.map_append, List.map_map, List.map_drop]; rfl
  · intro i hi'
    have hmom : l.momenta[i]? = some ((wave size Q i).map .fin) := by
      rw [momenta_closed hA hs hb hr hl, List.getElem?_map, List.getElem?_range hi']; rfl
    have hsq : squareU size.prod = size.prod * size.prod := by
      unfold squareU umul
      refine Nat.mod_eq_of_lt ?_
      have : size.prod * size.prod < 2 ^ 32 * 2 ^ 32 := Nat.mul_lt_mul'' hn hn
      exact this
    have hne : ((size.prod * size.prod : Nat) : ℝ) ≠ 0 := by
      exact_mod_cast (Nat.mul_pos h0 h0).ne'
    rw [subscript_ok hmom, Res.ok_bind, fourier_eq hA hs hl hi (wave_length i), Res.ok_bind,
      subscript_fin (lt_of_lt_of_le hi' hsk), Res.ok_bind]
    unfold squareF
    rw [hsq, Num.ofNat_eq, Num.round_exact hA.exact, Num.fin_mul, Num.fin_mul, Num.round_exact hA.exact,
      Num.round_exact hA.exact, Num.fin_add, Num.round_exact hA.exact, Num.fin_mul, Num.round_exact hA.exact,
      Num.fin_div hne, Num.round_exact hA.exact, Num.fin_add, Num.round_exact hA.exact, normSq_eq]
    unfold structureFactor
    push_cast
    rw [sq]

end
end Bwsl
