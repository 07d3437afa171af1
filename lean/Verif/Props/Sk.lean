import Verif.Lemmas.Sk

/-! Properties C79–C81: structure factors. -/

namespace Bwsl
open Spec

set_option linter.unusedSectionVars false

section
variable {A : Arith ℝ} {b : Bravais (Num A)} {size : List Nat} {g : Nat} {P Q : List ℝ} {N : List Int}
variable {T : Type} {conv : T → Num A} {ω : T → ℝ}

theorem occ_input (hconv : ∀ o, conv o = .fin (ω o)) {occ : List T} {n : Nat} (hocc : n ≤ occ.length) {j : Nat} (hj : j < n) :
    ∃ o, occ[j]? = some o ∧ conv o = .fin (occupation (occ.map ω) j) := by
  have h : j < occ.length := by omega
  refine ⟨occ[j], List.getElem?_eq_getElem h, ?_⟩
  rw [hconv]
  unfold occupation
  rw [List.getD_eq_getElem?_getD, List.getElem?_map, List.getElem?_eq_getElem h]
  rfl

theorem sk_input (hA : A.IsReal) (hs : Buildable size) (hb : Holds b size.length g P Q N) (hr : Regular b size.length)
    {l : Lattice (Num A)} (hl : Lattice.new b size .closed = .ok l) (hconv : ∀ o, conv o = .fin (ω o)) {occ : List T}
    (hocc : size.prod ≤ occ.length) : ∃ m : Nat → List Int,
      SkInput size l conv occ (occ.map ω) (fun j => embed size.length P (image size (crd size j) (m j))) := by
  obtain ⟨m, hm⟩ := vectors_exist hA hs hb hr hl
  exact ⟨m, fun j hj => ⟨hm j hj, embed_length ..⟩, fun j hj => occ_input hconv hocc hj⟩

theorem sk_input_of (hconv : ∀ o, conv o = .fin (ω o)) {l : Lattice (Num A)} {occ : List T}
    (hocc : size.prod ≤ occ.length) {x : Nat → List ℝ}
    (hx : ∀ j, j < size.prod → l.getVector 0 j = .ok ((x j).map .fin) ∧ (x j).length = size.length) :
    SkInput size l conv occ (occ.map ω) x := ⟨hx, fun _ hj => occ_input hconv hocc hj⟩

theorem computeSk_eq (hA : A.IsReal) (hs : Buildable size) (hn : size.prod < 2 ^ 32) (hb : Holds b size.length g P Q N)
    (hr : Regular b size.length) {l : Lattice (Num A)} (hl : Lattice.new b size .closed = .ok l) {occ : List T}
    {ω : List ℝ} {x : Nat → List ℝ} (hi : SkInput size l conv occ ω x) (mult : ℝ) :
    l.computeSk conv occ (.fin mult) = .ok (((List.range size.prod).map
      (fun i => structureFactor size.prod mult ω x (wave size Q i))).map .fin) := by
  unfold Lattice.computeSk
  have hg := (new_parts hl).1
  have ho : l.grid.hasOpenBoundaries = false := by rw [hg]; rfl
  have hnum : l.grid.numsites = size.prod := by rw [hg, numsites_eq hs.1]
  have hrep : List.replicate size.prod (CxxFloat.zero : Num A) = (List.replicate size.prod (0 : ℝ)).map .fin := by
    rw [List.map_replicate, Num.zero_eq]
  simp only [ho, hnum, hrep]
  rw [if_neg (by decide), accumulateSk_eq hA hs hn hb hr hl hi (by simp)]
  refine congrArg (fun z => Res.ok (List.map _ z)) ?_
  rw [List.drop_eq_nil_of_le (by simp), List.append_nil]
  refine List.map_congr_left (fun i hi => ?_)
  simp [List.getD_eq_getElem?_getD, List.mem_range.1 hi]

/-! ### C79 -/

/-- C79.  `ComputeSk` gives, for each site `i`, the squared modulus of the Fourier transform of the occupations at
`GetMomentum(i)`, the sites being at `GetVector(0, j)`. -/
theorem C79_value (hA : A.IsReal) (hs : Buildable size) (hn : size.prod < 2 ^ 32) (hb : Holds b size.length g P Q N)
    (hr : Regular b size.length) (l : Lattice (Num A)) (hl : Lattice.new b size .closed = .ok l)
    (hconv : ∀ o, conv o = .fin (ω o)) (occ : List T) (hocc : size.prod ≤ occ.length) (mult : ℝ) :
    ∃ (k x : Nat → List ℝ) (S : List ℝ), l.computeSk conv occ (.fin mult) = .ok (S.map .fin) ∧ S.length = size.prod ∧
      ∀ i, i < size.prod → l.getMomentum i = .ok ((k i).map .fin) ∧ l.getVector 0 i = .ok ((x i).map .fin) ∧
        S[i]? = some (structureFactor size.prod mult (occ.map ω) x (k i)) := by
  obtain ⟨m, hi⟩ := sk_input hA hs hb hr hl hconv hocc
  refine ⟨_, _, _, computeSk_eq hA hs hn hb hr hl hi mult, by simp, fun i hi' =>
    ⟨getMomentum_eq hA hs hb hr hl hi', (hi.vector i hi').1, ?_⟩⟩
  rw [List.getElem?_map, List.getElem?_range hi']; rfl

/-- C79.  It is not negative. -/
theorem C79_nonneg (hA : A.IsReal) (hs : Buildable size) (hn : size.prod < 2 ^ 32) (hb : Holds b size.length g P Q N)
    (hr : Regular b size.length) (l : Lattice (Num A)) (hl : Lattice.new b size .closed = .ok l)
    (hconv : ∀ o, conv o = .fin (ω o)) (occ : List T) (hocc : size.prod ≤ occ.length) (mult : ℝ) (hm : 0 ≤ mult) :
    ∃ S : List ℝ, l.computeSk conv occ (.fin mult) = .ok (S.map .fin) ∧ S.length = size.prod ∧ ∀ s ∈ S, 0 ≤ s := by
  obtain ⟨m, hi⟩ := sk_input hA hs hb hr hl hconv hocc
  refine ⟨_, computeSk_eq hA hs hn hb hr hl hi mult, by simp, fun s hs' => ?_⟩
  obtain ⟨i, -, rfl⟩ := List.mem_map.1 hs'
  exact div_nonneg (mul_nonneg hm (Complex.normSq_nonneg _)) (sq_nonneg _)

theorem dot_zero {k : List ℝ} (hk : ∀ z ∈ k, z = 0) (v : List ℝ) : dot k v = 0 := by
  unfold dot
  refine List.sum_eq_zero (fun z hz => ?_)
  obtain ⟨p, hp, rfl⟩ := List.mem_map.1 (by rw [← List.map_uncurry_zip_eq_zipWith] at hz; exact hz)
  have := hk p.1 (List.of_mem_zip hp).1
  simp [Function.uncurry, this]

/-- C79.  Wherever the momentum is zero it is the square of the mean occupation. -/
theorem C79_zero_momentum (hA : A.IsReal) (hs : Buildable size) (hn : size.prod < 2 ^ 32) (hb : Holds b size.length g P Q N)
    (hr : Regular b size.length) (l : Lattice (Num A)) (hl : Lattice.new b size .closed = .ok l)
    (hconv : ∀ o, conv o = .fin (ω o)) (occ : List T) (hocc : occ.length = size.prod) (mult : ℝ) (i : Nat)
    (hi : i < size.prod) (k : List ℝ) (hk : l.getMomentum i = .ok (k.map .fin)) (h0 : ∀ z ∈ k, z = 0) :
    ∃ S : List ℝ, l.computeSk conv occ (.fin mult) = .ok (S.map .fin) ∧
      S[i]? = some (mult * ((occ.map ω).sum / size.prod) ^ 2) := by
  obtain ⟨m, hin⟩ := sk_input hA hs hb hr hl hconv hocc.ge
  refine ⟨_, computeSk_eq hA hs hn hb hr hl hin mult, ?_⟩
  rw [getMomentum_eq hA hs hb hr hl hi, Res.ok.injEq] at hk
  have hk : wave size Q i = k := List.map_injective_iff.2 (fun x y h => by injection h) hk
  rw [List.getElem?_map, List.getElem?_range hi, Option.map_some, hk]
  refine congrArg some ?_
  unfold structureFactor
  have : ∀ x, transform size.prod (occ.map ω) x k = ((occ.map ω).sum : ℝ) := by
    intro x
    unfold transform
    simp only [dot_zero h0, Complex.ofReal_zero, zero_mul, Complex.exp_zero, mul_one]
    rw [← Complex.ofReal_sum]
    refine congrArg _ ?_
    have : occ.map ω = (List.range size.prod).map (fun j => occupation (occ.map ω) j) := by
      refine List.ext_getElem (by simp [hocc]) (fun j h1 h2 => ?_)
      have : j < occ.length := by simpa using h1
      simp [occupation, List.getD_eq_getElem?_getD, this]
    conv_rhs => rw [this]
    rw [list_range_sum]
  rw [this, Complex.normSq_ofReal]
  ring

/-- C79.  There is a site whose momentum is zero: the one with coordinates `L_k / 2`. -/
theorem C79_zero_momentum_exists (hA : A.IsReal) (hs : Buildable size) (hb : Holds b size.length g P Q N)
    (hr : Regular b size.length) (l : Lattice (Num A)) (hl : Lattice.new b size .closed = .ok l) :
    ∃ i, i < size.prod ∧ SiteAt size i (size.map (fun s => ((s / 2 : Nat) : Int))) ∧
      ∃ k : List ℝ, l.getMomentum i = .ok (k.map .fin) ∧ ∀ z ∈ k, z = 0 := by
  have hc : ∀ k, k < size.length → coord (size.map (fun s => ((s / 2 : Nat) : Int))) k = extent size k / 2 := by
    intro k hk
    rw [coord_eq (by simpa using hk), List.getElem_map, extent_eq hk]
    simp
  have hg : OnGrid (size.map (fun s => ((s / 2 : Nat) : Int))) size := by
    refine onGrid_iff.2 ⟨by simp, fun k hk => ?_⟩
    have := extent_pos hs.1.1 hk
    rw [hc k hk]
    omega
  refine ⟨_, idx_lt hg, siteAt_idx hg, _, getMomentum_eq hA hs hb hr hl (idx_lt hg), fun z hz => ?_⟩
  obtain ⟨k, hk, rfl⟩ := List.mem_map.1 hz
  unfold waveAt
  rw [Finset.sum_eq_zero, mul_zero, zero_div]
  intro j hj
  have hj := Finset.mem_range.1 hj
  rw [coord_label hj, crd_idx hs.1.1 hg, hc j hj]
  simp

/-- C79.  `AccumulateSk` adds what `ComputeSk` gives. -/
theorem C79_additive (hA : A.IsReal) (hs : Buildable size) (hn : size.prod < 2 ^ 32) (hb : Holds b size.length g P Q N)
    (hr : Regular b size.length) (l : Lattice (Num A)) (hl : Lattice.new b size .closed = .ok l)
    (hconv : ∀ o, conv o = .fin (ω o)) (occ : List T) (hocc : size.prod ≤ occ.length) (mult : ℝ)
    (sk : List ℝ) (hsk : sk.length = size.prod) :
    ∃ S : List ℝ, l.computeSk conv occ (.fin mult) = .ok (S.map .fin) ∧
      l.accumulateSk conv occ (sk.map .fin) (.fin mult) = .ok ((List.zipWith (· + ·) sk S).map .fin) := by
  obtain ⟨m, hi⟩ := sk_input hA hs hb hr hl hconv hocc
  refine ⟨_, computeSk_eq hA hs hn hb hr hl hi mult, ?_⟩
  rw [accumulateSk_eq hA hs hn hb hr hl hi hsk.ge]
  refine congrArg (fun z => Res.ok (List.map _ z)) ?_
  rw [List.drop_eq_nil_of_le hsk.le, List.append_nil]
  refine List.ext_getElem (by simp [hsk]) (fun i h1 h2 => ?_)
  have : i < sk.length := by simp at h1; omega
  simp [List.getD_eq_getElem?_getD, this]

/-- C79.  On an open lattice it is zero, and `AccumulateSk` changes nothing, in any arithmetic. -/
theorem C79_open {F : Type} [CxxFloat F] {b : Bravais F} (hs : Buildable size) (l : Lattice F)
    (hl : Lattice.new b size .open = .ok l) {T : Type} (conv : T → F) (occ : List T) (mult : F) (sk : List F) :
    l.computeSk conv occ mult = .ok (List.replicate size.prod CxxFloat.zero) ∧ l.accumulateSk conv occ sk mult = .ok sk := by
  have hg := (new_parts hl).1
  have ho : l.grid.hasOpenBoundaries = true := by rw [hg]; rfl
  have hnum : l.grid.numsites = size.prod := by rw [hg, numsites_eq hs.1]
  unfold Lattice.computeSk Lattice.accumulateSk
  simp only [ho, hnum, if_pos, and_self]

/-! ### Phases -/

/-- The phase factor of the point with coordinates `c`. -/
noncomputable def phase (d : Nat) (P k : List ℝ) (c : List Int) : ℂ := Complex.exp ((dot k (embed d P c) : ℝ) * Complex.I)

theorem dot_embed_sum {d : Nat} {P k : List ℝ} (hk : k.length = d) (c : List Int) :
    dot k (embed d P c) = ∑ j ∈ Finset.range d, (coord c j : ℝ) * ∑ q ∈ Finset.range d, k.getD q 0 * entry d P j q := by
  rw [← dot_range hk (embed_length ..)]
  have : ∀ q ∈ Finset.range d, k.getD q 0 * (embed d P c).getD q 0 =
      ∑ j ∈ Finset.range d, (coord c j : ℝ) * (k.getD q 0 * entry d P j q) := by
    intro q hq
    have hq := Finset.mem_range.1 hq
    rw [List.getD_eq_getElem?_getD (l := embed d P c), List.getElem?_eq_getElem (by rw [embed_length]; exact hq), embed_getElem,
      Option.getD_some, Finset.mul_sum]
    exact Finset.sum_congr rfl (fun j _ => by ring)
  rw [Finset.sum_congr rfl this, Finset.sum_comm]
  exact Finset.sum_congr rfl (fun j _ => (Finset.mul_sum ..).symm)

theorem dot_embed_plus {d : Nat} {P k : List ℝ} (hk : k.length = d) {c c' : List Int} (h : c'.length = c.length) :
    dot k (embed d P (plus c c')) = dot k (embed d P c) + dot k (embed d P c') := by
  rw [dot_embed_sum hk, dot_embed_sum hk, dot_embed_sum hk, ← Finset.sum_add_distrib]
  refine Finset.sum_congr rfl (fun j _ => ?_)
  rw [coord_plus h]
  push_cast
  ring

theorem phase_plus {d : Nat} {P k : List ℝ} (hk : k.length = d) {c c' : List Int} (h : c'.length = c.length) :
    phase d P k (plus c c') = phase d P k c * phase d P k c' := by
  unfold phase
  rw [dot_embed_plus hk h, ← Complex.exp_add]
  push_cast
  rw [add_mul]

/-- An allowed momentum has the same phase at all images of a point. -/
theorem phase_image {k : List ℝ} (hk : k.length = size.length) (hall : Allowed size P k) (c m : List Int) :
    phase size.length P k (image size c m) = phase size.length P k c := by
  have hn : ∀ j, ∃ n : Int, j < size.length →
      (extent size j : ℝ) * (∑ q ∈ Finset.range size.length, k.getD q 0 * entry size.length P j q) = 2 * Real.pi * n := by
    intro j
    by_cases hj : j < size.length
    · obtain ⟨n, hn⟩ := hall j hj
      refine ⟨n, fun _ => ?_⟩
      unfold period at hn
      rw [dot_embed_sum hk, Finset.sum_eq_single j] at hn
      · rwa [coord_period hj, if_pos rfl] at hn
      · intro i hi hij
        rw [coord_period (Finset.mem_range.1 hi), if_neg hij]; simp
      · intro h; exact absurd (Finset.mem_range.2 hj) h
    · exact ⟨0, fun h => absurd h hj⟩
  choose n hn using hn
  unfold phase
  have : dot k (embed size.length P (image size c m)) =
      dot k (embed size.length P c) + (∑ j ∈ Finset.range size.length, coord m j * n j : ℤ) * (2 * Real.pi) := by
    rw [dot_embed_sum hk, dot_embed_sum hk]
    push_cast
    rw [Finset.sum_mul, ← Finset.sum_add_distrib]
    refine Finset.sum_congr rfl (fun j hj => ?_)
    have hj := Finset.mem_range.1 hj
    rw [coord_image hj]
    push_cast
    linear_combination (coord m j : ℝ) * hn j hj
  rw [this]
  push_cast
  rw [add_mul, Complex.exp_add]
  have h1 := Complex.exp_int_mul_two_pi_mul_I (∑ j ∈ Finset.range size.length, coord m j * n j)
  push_cast at h1
  rw [mul_assoc, h1, mul_one]

theorem phase_wrap {k : List ℝ} (hk : k.length = size.length) (hall : Allowed size P k) {c : List Int}
    (hc : c.length = size.length) : phase size.length P k (wrap size c) = phase size.length P k c := by
  have h : (wrap size c).length = size.length := (wrap_congruent hc).1
  rw [← image_zero h, wrap_image hc, phase_image hk hall]

/-! ### Translations -/

/-- Site `j` translated by `t`. -/
def shift (size : List Nat) (t : List Int) (j : Nat) : Nat := idx size (wrap size (plus (crd size j) t))

theorem shift_spec (hs : Buildable size) {t : List Int} (ht : t.length = size.length) {j : Nat} (hj : j < size.prod) :
    shift size t j < size.prod ∧ crd size (shift size t j) = wrap size (plus (crd size j) t) := by
  have hg := wrap_onGrid hs.1.1 (length_plus ht (onGrid_length (crd_onGrid hs.1.1 hj)))
  exact ⟨idx_lt hg, crd_idx hs.1.1 hg⟩

theorem shift_back (hs : Buildable size) {t t' : List Int} (ht : t.length = size.length) (ht' : t'.length = size.length)
    (h : ∀ k, k < size.length → coord t' k = -coord t k) {j : Nat} (hj : j < size.prod) :
    shift size t' (shift size t j) = j := by
  obtain ⟨h1, h2⟩ := shift_spec hs ht hj
  obtain ⟨h3, h4⟩ := shift_spec hs ht' h1
  have hlj := onGrid_length (crd_onGrid hs.1.1 hj)
  have hp := length_plus ht hlj
  have hw := onGrid_length (wrap_onGrid hs.1.1 hp)
  have hp' := length_plus ht' hw
  refine (idx_crd hs.1.1 h3).symm.trans (Eq.trans ?_ (idx_crd hs.1.1 hj))
  rw [h4, h2]
  refine congrArg _ (congruent_onGrid_eq (wrap_onGrid hs.1.1 hp') (crd_onGrid hs.1.1 hj)
    (congruent_iff.2 ⟨onGrid_length (wrap_onGrid hs.1.1 hp'), hlj, fun k hk => ?_⟩))
  rw [coord_wrap hp' hk, coord_plus (ht'.trans hw.symm), coord_wrap hp hk, coord_plus (ht.trans hlj.symm), h k hk]
  have e1 := Int.emod_add_mul_ediv ((coord (crd size j) k + coord t k) % extent size k + -coord t k) (extent size k)
  have e2 := Int.emod_add_mul_ediv (coord (crd size j) k + coord t k) (extent size k)
  refine ⟨-((coord (crd size j) k + coord t k) / extent size k) -
    (((coord (crd size j) k + coord t k) % extent size k + -coord t k) / extent size k), ?_⟩
  linear_combination e1 + e2

/-- Summing over all sites and over all translated sites is the same. -/
theorem sum_shift (hs : Buildable size) {t : List Int} (ht : t.length = size.length) (f : Nat → ℂ) :
    ∑ j ∈ Finset.range size.prod, f (shift size t j) = ∑ j ∈ Finset.range size.prod, f j := by
  have hneg : ∀ k, k < size.length → coord (tab size.length (fun k => -coord t k)) k = -coord t k := fun k hk => coord_tab hk
  refine Finset.sum_nbij' (shift size t) (shift size (tab size.length (fun k => -coord t k))) ?_ ?_ ?_ ?_ ?_
  · intro j hj; exact Finset.mem_range.2 (shift_spec hs ht (Finset.mem_range.1 hj)).1
  · intro j hj; exact Finset.mem_range.2 (shift_spec hs (length_tab ..) (Finset.mem_range.1 hj)).1
  · intro j hj; exact shift_back hs ht (length_tab ..) hneg (Finset.mem_range.1 hj)
  · intro j hj
    exact shift_back hs (length_tab ..) ht (fun k hk => by rw [hneg k hk, neg_neg]) (Finset.mem_range.1 hj)
  · intro j _; rfl

end
end Bwsl
