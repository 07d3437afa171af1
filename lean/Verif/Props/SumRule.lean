import Verif.Props.Sk

/-! Properties C80 and C81: sum rule and translation invariance of structure factors. -/

namespace Bwsl
open Spec

set_option linter.unusedSectionVars false

section
variable {A : Arith ℝ} {b : Bravais (Num A)} {size : List Nat} {g : Nat} {P Q : List ℝ} {N : List Int}
variable {T : Type} {conv : T → Num A} {ω : T → ℝ}

theorem normSq_phase (d : Nat) (P k : List ℝ) (c : List Int) : Complex.normSq (phase d P k c) = 1 := by
  unfold phase
  rw [Complex.normSq_eq_norm_sq, Complex.norm_exp_ofReal_mul_I, one_pow]

/-- The transform, without the choice of images. -/
theorem transform_phase {k : List ℝ} (hk : k.length = size.length) (hall : Allowed size P k) (occ : List ℝ) (m : Nat → List Int) :
    transform size.prod occ (fun j => embed size.length P (image size (crd size j) (m j))) k =
      ∑ j ∈ Finset.range size.prod, (occupation occ j : ℂ) * phase size.length P k (crd size j) := by
  unfold transform
  refine Finset.sum_congr rfl (fun j _ => ?_)
  rw [← phase_image hk hall (crd size j) (m j)]
  rfl

/-! ### C81 -/

/-- `occ'` is `occ` translated by the site `t`. -/
def Translated (size : List Nat) (l : Lattice (Num A)) (t : Nat) (occ occ' : List T) : Prop :=
  occ.length = size.prod ∧ occ'.length = size.prod ∧
    ∀ j, j < size.prod → ∃ u, l.grid.getUnMappedSite j t = .ok u ∧ occ'[u]? = occ[j]?

/-- C81.  Wherever the momenta are allowed by the boundary conditions, translating the occupations does not change the
structure factor. -/
theorem C81_allowed (hA : A.IsReal) (hs : Buildable size) (hn : size.prod < 2 ^ 32) (hb : Holds b size.length g P Q N)
    (hr : Regular b size.length) (l : Lattice (Num A)) (hl : Lattice.new b size .closed = .ok l)
    (hall : ∀ i k, i < size.prod → l.getMomentum i = .ok (k.map .fin) → Allowed size P k)
    (hconv : ∀ o, conv o = .fin (ω o)) (mult : ℝ) (t : Nat) (ht : t < size.prod) (occ occ' : List T)
    (h : Translated size l t occ occ') : l.computeSk conv occ (.fin mult) = l.computeSk conv occ' (.fin mult) := by
  obtain ⟨hl1, hl2, htr⟩ := h
  obtain ⟨m, hm⟩ := vectors_exist hA hs hb hr hl
  have hx : ∀ j, j < size.prod → l.getVector 0 j = .ok ((embed size.length P (image size (crd size j) (m j))).map .fin) ∧
      (embed size.length P (image size (crd size j) (m j))).length = size.length := fun j hj => ⟨hm j hj, embed_length ..⟩
  rw [computeSk_eq hA hs hn hb hr hl (sk_input_of hconv hl1.ge hx), computeSk_eq hA hs hn hb hr hl (sk_input_of hconv hl2.ge hx)]
  refine congrArg (fun z => Res.ok (List.map _ z)) (List.map_congr_left (fun i hi => ?_))
  have hi := List.mem_range.1 hi
  have hAll := hall i _ hi (getMomentum_eq hA hs hb hr hl hi)
  have htl : (crd size t).length = size.length := onGrid_length (crd_onGrid hs.1.1 ht)
  have key : transform size.prod (occ'.map ω) (fun j => embed size.length P (image size (crd size j) (m j))) (wave size Q i) =
      transform size.prod (occ.map ω) (fun j => embed size.length P (image size (crd size j) (m j))) (wave size Q i) *
        phase size.length P (wave size Q i) (crd size t) := by
    rw [transform_phase (wave_length i) hAll, transform_phase (wave_length i) hAll, Finset.sum_mul, ← sum_shift hs htl]
    refine Finset.sum_congr rfl (fun j hj => ?_)
    have hj := Finset.mem_range.1 hj
    have hjl : (crd size j).length = size.length := onGrid_length (crd_onGrid hs.1.1 hj)
    rw [(shift_spec hs htl hj).2, phase_wrap (wave_length i) hAll (length_plus htl hjl),
      phase_plus (wave_length i) (htl.trans hjl.symm), mul_assoc]
    refine congrArg (fun z : ℝ => (z : ℂ) * _) ?_
    obtain ⟨u, hu, ho⟩ := htr j hj
    rw [(new_parts hl).1, getUnMappedSite_eq hs.1 hs.2 hj ht, Res.ok.injEq] at hu
    have hu : shift size (crd size t) j = u := by
      rw [← hu, cadd_comm (crd_onGrid hs.1.1 ht) (crd_onGrid hs.1.1 hj), cadd_eq]; rfl
    unfold occupation
    rw [hu, List.getD_eq_getElem?_getD, List.getD_eq_getElem?_getD, List.getElem?_map, List.getElem?_map, ho]
  unfold structureFactor
  rw [key, Complex.normSq_mul, normSq_phase, mul_one]

/-- C81.  On chain, square and cubic lattices. -/
theorem C81_orthogonal (hA : A.IsReal) (hb : chainLattice = .ok b ∨ squareLattice = .ok b ∨ cubicLattice = .ok b)
    (hs : Buildable size) (hn : size.prod < 2 ^ 32) (hd : size.length = b.dim) (l : Lattice (Num A))
    (hl : Lattice.new b size .closed = .ok l) (hconv : ∀ o, conv o = .fin (ω o)) (mult : ℝ) (t : Nat) (ht : t < size.prod)
    (occ occ' : List T) (h : Translated size l t occ occ') :
    l.computeSk conv occ (.fin mult) = l.computeSk conv occ' (.fin mult) := by
  obtain ⟨g, N, h1, h2, h3, h4⟩ := orthogonal_cases hA hb
  rw [← hd] at h1 h2
  refine C81_allowed hA hs hn h1 h2 l hl (fun i k hi hk => ?_) hconv mult t ht occ occ' h
  obtain ⟨k', hk', hall⟩ := C78_orthogonal_partial hA hb hs hd l hl i hi
  rw [hk, Res.ok.injEq] at hk'
  rwa [show k = k' from List.map_injective_iff.2 (fun x y h => by injection h) hk']

/-! ### C80 -/

/-- The momenta are those of the reciprocal lattice divided by the extents: the phase of momentum `i` at `c` is
`2π Σ_k n_k c_k / L_k`. -/
def Bloch (size : List Nat) (P Q : List ℝ) : Prop := ∀ i c, i < size.prod → c.length = size.length →
  dot (wave size Q i) (embed size.length P c) =
    ∑ k ∈ Finset.range size.length, 2 * Real.pi * (coord (label size i) k * coord c k : ℤ) / (extent size k : ℝ)

theorem bloch_diagonal (hs : Buildable size) (hP : Diagonal size.length P) (hQ : Diagonal size.length Q)
    (hd : Dual size.length P Q) : Bloch size P Q := fun i c _ _ => dot_wave_diagonal hs hP hQ hd i c

theorem intDot_sum {d : Nat} {m n : List Int} (hm : m.length = d) (hn : n.length = d) :
    intDot m n = ∑ k ∈ Finset.range d, coord m k * coord n k := by
  unfold intDot
  have : List.zipWith (· * ·) m n = (List.range d).map (fun k => coord m k * coord n k) := by
    refine List.ext_getElem (by simp [hm, hn]) (fun k h1 h2 => ?_)
    have hk : k < d := by simpa using h2
    rw [List.getElem_zipWith, List.getElem_map, List.getElem_range, coord_eq (hm ▸ hk), coord_eq (hn ▸ hk)]
  rw [this, list_range_sum]

theorem bloch_equal (hd : Dual size.length P Q) (L : Nat) (hL : ∀ s ∈ size, s = L) : Bloch size P Q := by
  intro i c hi hc
  have hext : ∀ k, k < size.length → extent size k = L := fun k hk => by
    rw [extent_eq hk, hL _ (List.getElem_mem hk)]
  have hw : wave size Q i = (embed size.length Q (label size i)).map ((2 * Real.pi / L) * ·) := by
    unfold wave embed
    rw [List.map_map]
    refine List.map_congr_left (fun k hk => ?_)
    simp only [waveAt, Function.comp, hext k (List.mem_range.1 hk)]
    push_cast
    ring
  have hcomm : ∀ u v : List ℝ, dot u v = dot v u := fun u v => by
    unfold dot; rw [List.zipWith_comm]; simp only [mul_comm]
  rw [hw, hcomm, dot_smul, dot_embed hd hc (by simp [label]), intDot_sum hc (by simp [label])]
  push_cast
  rw [Finset.mul_sum]
  refine Finset.sum_congr rfl (fun k hk => ?_)
  rw [hext k (Finset.mem_range.1 hk)]
  push_cast
  ring

theorem bloch_allowed (hs : Buildable size) (hB : Bloch size P Q) {i : Nat} (hi : i < size.prod) :
    Allowed size P (wave size Q i) := by
  intro j hj
  refine ⟨coord (label size i) j, ?_⟩
  unfold period
  rw [hB i _ hi (by simp), Finset.sum_eq_single j]
  · rw [coord_period hj, if_pos rfl]
    have := extent_ne hs hj
    push_cast
    field_simp
  · intro k hk hkj
    rw [coord_period (Finset.mem_range.1 hk), if_neg hkj]; simp
  · intro h; exact absurd (Finset.mem_range.2 hj) h

theorem phase_minus {d : Nat} {P k : List ℝ} (hk : k.length = d) {c c' : List Int} (h : c'.length = c.length) :
    phase d P k (minus c c') = phase d P k c * (starRingEnd ℂ) (phase d P k c') := by
  unfold phase
  have : dot k (embed d P (minus c c')) = dot k (embed d P c) - dot k (embed d P c') := by
    rw [dot_embed_sum hk, dot_embed_sum hk, dot_embed_sum hk, ← Finset.sum_sub_distrib]
    refine Finset.sum_congr rfl (fun j _ => ?_)
    rw [coord_minus h]
    push_cast
    ring
  rw [this, ← Complex.exp_conj, ← Complex.exp_add]
  simp only [map_mul, Complex.conj_ofReal, Complex.conj_I]
  push_cast
  ring_nf

/-- Summed over all momenta the phases cancel, unless the point is an image of the origin. -/
theorem sum_phase_zero (hs : Buildable size) (hB : Bloch size P Q) {c : List Int} (hc : c.length = size.length) {q : Nat}
    (hq : q < size.length) (hdvd : ¬ extent size q ∣ coord c q) :
    ∑ i ∈ Finset.range size.prod, phase size.length P (wave size Q i) c = 0 := by
  have he : (tab size.length (fun k => if k = q then 1 else 0)).length = size.length := length_tab ..
  have hce : ∀ k, k < size.length → coord (tab size.length (fun k => if k = q then (1 : Int) else 0)) k = if k = q then 1 else 0 :=
    fun k hk => coord_tab (f := fun k => if k = q then (1 : Int) else 0) hk
  have hL := extent_ne hs hq
  have hne : Complex.exp ((2 * Real.pi * (coord c q : ℝ) / (extent size q : ℝ) : ℝ) * Complex.I) ≠ 1 := by
    intro h1
    obtain ⟨n, hn⟩ := Complex.exp_eq_one_iff.1 h1
    apply hdvd
    refine ⟨n, ?_⟩
    have h2 : ((2 * Real.pi * (coord c q : ℝ) / (extent size q : ℝ) : ℝ) : ℂ) = ((n * (2 * Real.pi) : ℝ) : ℂ) := by
      refine mul_right_cancel₀ Complex.I_ne_zero ?_
      rw [hn]
      push_cast
      ring
    have h3 := Complex.ofReal_injective h2
    have hpi := Real.pi_pos.ne'
    field_simp at h3
    have h4 : (coord c q : ℝ) = extent size q * n := by linear_combination h3
    exact_mod_cast h4
  have hstep : ∀ i, i < size.prod → phase size.length P (wave size Q (shift size (tab size.length (fun k => if k = q then 1 else 0)) i)) c =
      phase size.length P (wave size Q i) c * Complex.exp ((2 * Real.pi * (coord c q : ℝ) / (extent size q : ℝ) : ℝ) * Complex.I) := by
    intro i hi
    obtain ⟨h1, h2⟩ := shift_spec hs he hi
    have hil := onGrid_length (crd_onGrid hs.1.1 hi)
    unfold phase
    rw [hB _ c h1 hc, hB i c hi hc, ← Complex.exp_add, ← add_mul, ← Complex.ofReal_add]
    have hsum : ∑ k ∈ Finset.range size.length,
          2 * Real.pi * (coord (label size (shift size (tab size.length (fun k => if k = q then 1 else 0)) i)) k * coord c k : ℤ) / (extent size k : ℝ) =
        (∑ k ∈ Finset.range size.length, 2 * Real.pi * (coord (label size i) k * coord c k : ℤ) / (extent size k : ℝ)) +
          2 * Real.pi * (coord c q : ℝ) / (extent size q : ℝ) +
          (∑ k ∈ Finset.range size.length,
            -((coord (crd size i) k + if k = q then 1 else 0) / extent size k) * coord c k : ℤ) * (2 * Real.pi) := by
      have hqs : 2 * Real.pi * (coord c q : ℝ) / (extent size q : ℝ) =
          ∑ k ∈ Finset.range size.length, if k = q then 2 * Real.pi * (coord c k : ℝ) / (extent size k : ℝ) else 0 := by
        rw [Finset.sum_ite_eq' (Finset.range size.length) q, if_pos (Finset.mem_range.2 hq)]
      rw [hqs]
      push_cast
      rw [Finset.sum_mul, ← Finset.sum_add_distrib, ← Finset.sum_add_distrib]
      refine Finset.sum_congr rfl (fun k hk => ?_)
      have hk := Finset.mem_range.1 hk
      have hLk := extent_ne hs hk
      rw [coord_label hk, coord_label hk, h2, coord_wrap (length_plus he hil) hk, coord_plus (he.trans hil.symm), hce k hk]
      have e := Int.emod_add_mul_ediv (coord (crd size i) k + if k = q then 1 else 0) (extent size k)
      have e' : (((coord (crd size i) k + if k = q then 1 else 0) % extent size k : ℤ) : ℝ) =
          coord (crd size i) k + (if k = q then 1 else 0) -
            extent size k * (((coord (crd size i) k + if k = q then 1 else 0) / extent size k : ℤ) : ℝ) := by
        have := congrArg (fun z : ℤ => (z : ℝ)) e
        push_cast at this
        linear_combination this
      push_cast at e' ⊢
      rw [e']
      by_cases hkq : k = q
      · simp only [hkq, if_true]
        field_simp
        ring
      · simp only [hkq, if_false]
        field_simp
        ring
    rw [hsum, Complex.ofReal_add, add_mul, Complex.exp_add]
    have h1 := Complex.exp_int_mul_two_pi_mul_I (∑ k ∈ Finset.range size.length,
      -((coord (crd size i) k + if k = q then 1 else 0) / extent size k) * coord c k)
    have h5 : ((((∑ k ∈ Finset.range size.length,
        -((coord (crd size i) k + if k = q then 1 else 0) / extent size k) * coord c k : ℤ) : ℝ) * (2 * Real.pi) : ℝ) : ℂ) * Complex.I =
        ((∑ k ∈ Finset.range size.length,
        -((coord (crd size i) k + if k = q then 1 else 0) / extent size k) * coord c k : ℤ) : ℂ) * (2 * Real.pi * Complex.I) := by
      push_cast
      ring
    rw [h5, h1, mul_one]
  have hG := sum_shift hs he (fun i => phase size.length P (wave size Q i) c)
  rw [Finset.sum_congr rfl (fun i hi => hstep i (Finset.mem_range.1 hi)), ← Finset.sum_mul] at hG
  have : (∑ i ∈ Finset.range size.prod, phase size.length P (wave size Q i) c) *
      (Complex.exp ((2 * Real.pi * (coord c q : ℝ) / (extent size q : ℝ) : ℝ) * Complex.I) - 1) = 0 := by
    rw [mul_sub, hG, mul_one, sub_self]
  exact (mul_eq_zero.1 this).resolve_right (sub_ne_zero.2 hne)

theorem sum_phase (hs : Buildable size) (hB : Bloch size P Q) {j j' : Nat} (hj : j < size.prod) (hj' : j' < size.prod) :
    ∑ i ∈ Finset.range size.prod, phase size.length P (wave size Q i) (crd size j) *
      (starRingEnd ℂ) (phase size.length P (wave size Q i) (crd size j')) = if j = j' then (size.prod : ℂ) else 0 := by
  split
  · rename_i h
    subst h
    simp [Complex.mul_conj, normSq_phase]
  · rename_i h
    have h1 := onGrid_length (crd_onGrid hs.1.1 hj)
    have h2 := onGrid_length (crd_onGrid hs.1.1 hj')
    rw [← Finset.sum_congr rfl (fun i _ => phase_minus (wave_length (Q := Q) i) (h2.trans h1.symm))]
    by_contra hne
    apply h
    have : crd size j = crd size j' := by
      refine congruent_onGrid_eq (crd_onGrid hs.1.1 hj) (crd_onGrid hs.1.1 hj') (congruent_iff.2 ⟨h1, h2, fun k hk => ?_⟩)
      by_contra hnd
      exact hne (sum_phase_zero hs hB (length_minus h2 h1) hk (by rwa [coord_minus (h2.trans h1.symm)]))
    rw [← idx_crd hs.1.1 hj, this, idx_crd hs.1.1 hj']

/-- Parseval. -/
theorem parseval (hs : Buildable size) (hB : Bloch size P Q) (occ : List ℝ) (m : Nat → List Int) :
    ∑ i ∈ Finset.range size.prod, Complex.normSq
        (transform size.prod occ (fun j => embed size.length P (image size (crd size j) (m j))) (wave size Q i)) =
      size.prod * ∑ j ∈ Finset.range size.prod, occupation occ j ^ 2 := by
  apply Complex.ofReal_injective
  rw [Complex.ofReal_sum, Complex.ofReal_mul, Complex.ofReal_sum, Complex.ofReal_natCast]
  simp only [Complex.ofReal_pow]
  have h1 : ∀ i ∈ Finset.range size.prod, (Complex.normSq
        (transform size.prod occ (fun j => embed size.length P (image size (crd size j) (m j))) (wave size Q i)) : ℂ) =
      ∑ j ∈ Finset.range size.prod, ∑ j' ∈ Finset.range size.prod, (occupation occ j : ℂ) * occupation occ j' *
        (phase size.length P (wave size Q i) (crd size j) * (starRingEnd ℂ) (phase size.length P (wave size Q i) (crd size j'))) := by
    intro i hi
    rw [transform_phase (wave_length i) (bloch_allowed hs hB (Finset.mem_range.1 hi)), ← Complex.mul_conj, map_sum, Finset.sum_mul_sum]
    refine Finset.sum_congr rfl (fun j _ => Finset.sum_congr rfl (fun j' _ => ?_))
    rw [map_mul, Complex.conj_ofReal]
    ring
  rw [Finset.sum_congr rfl h1, Finset.sum_comm, Finset.mul_sum]
  refine Finset.sum_congr rfl (fun j hj => ?_)
  rw [Finset.sum_comm]
  have h2 : ∀ j' ∈ Finset.range size.prod, (∑ i ∈ Finset.range size.prod, (occupation occ j : ℂ) * occupation occ j' *
        (phase size.length P (wave size Q i) (crd size j) * (starRingEnd ℂ) (phase size.length P (wave size Q i) (crd size j')))) =
      if j = j' then (occupation occ j : ℂ) * occupation occ j' * size.prod else 0 := by
    intro j' hj'
    rw [← Finset.mul_sum, sum_phase hs hB (Finset.mem_range.1 hj) (Finset.mem_range.1 hj')]
    split <;> simp
  rw [Finset.sum_congr rfl h2, Finset.sum_ite_eq, if_pos hj]
  ring

theorem sum_rule (hA : A.IsReal) (hs : Buildable size) (hn : size.prod < 2 ^ 32) (hb : Holds b size.length g P Q N)
    (hr : Regular b size.length) (hB : Bloch size P Q) {l : Lattice (Num A)} (hl : Lattice.new b size .closed = .ok l)
    (hconv : ∀ o, conv o = .fin (ω o)) {occ : List T} (hocc : occ.length = size.prod) (mult : ℝ) :
    ∃ S : List ℝ, l.computeSk conv occ (.fin mult) = .ok (S.map .fin) ∧
      S.sum = mult * (occ.map (fun o => ω o ^ 2)).sum / size.prod := by
  obtain ⟨m, hi⟩ := sk_input hA hs hb hr hl hconv hocc.ge
  refine ⟨_, computeSk_eq hA hs hn hb hr hl hi mult, ?_⟩
  rw [list_range_sum]
  unfold structureFactor
  rw [← Finset.sum_div, ← Finset.mul_sum, parseval hs hB]
  have h0 : (size.prod : ℝ) ≠ 0 := by exact_mod_cast (prod_pos hs.1.1).ne'
  have : occ.map (fun o => ω o ^ 2) = (List.range size.prod).map (fun j => occupation (occ.map ω) j ^ 2) := by
    refine List.ext_getElem (by simp [hocc]) (fun j h1 h2 => ?_)
    have : j < occ.length := by simpa using h1
    simp [occupation, List.getD_eq_getElem?_getD, this]
  rw [this, list_range_sum]
  field_simp

/-- C80.  On chain, square and cubic lattices the values of `ComputeSk` add up to the sum of the squared occupations
divided by the number of sites. -/
theorem C80_orthogonal (hA : A.IsReal) (hb : chainLattice = .ok b ∨ squareLattice = .ok b ∨ cubicLattice = .ok b)
    (hs : Buildable size) (hn : size.prod < 2 ^ 32) (hd : size.length = b.dim) (l : Lattice (Num A))
    (hl : Lattice.new b size .closed = .ok l) (hconv : ∀ o, conv o = .fin (ω o)) (mult : ℝ)
    (occ : List T) (hocc : occ.length = size.prod) :
    ∃ S : List ℝ, l.computeSk conv occ (.fin mult) = .ok (S.map .fin) ∧
      S.sum = mult * (occ.map (fun o => ω o ^ 2)).sum / size.prod := by
  obtain ⟨g, N, h1, h2, h3, h4⟩ := orthogonal_cases hA hb
  have h5 := unit_diagonal_cases hb
  rw [← hd] at h1 h2 h4 h5
  exact sum_rule hA hs hn h1 h2 (bloch_diagonal hs h5 h5 h4) hl hconv hocc mult

/-- C80.  On any lattice all of whose extents are equal. -/
theorem C80_equal_extents (hA : A.IsReal) (hs : Buildable size) (hn : size.prod < 2 ^ 32) (hb : Holds b size.length g P Q N)
    (hr : Regular b size.length) (hd : Dual size.length P Q) (L : Nat) (hL : ∀ s ∈ size, s = L)
    (l : Lattice (Num A)) (hl : Lattice.new b size .closed = .ok l) (hconv : ∀ o, conv o = .fin (ω o)) (mult : ℝ)
    (occ : List T) (hocc : occ.length = size.prod) :
    ∃ S : List ℝ, l.computeSk conv occ (.fin mult) = .ok (S.map .fin) ∧
      S.sum = mult * (occ.map (fun o => ω o ^ 2)).sum / size.prod :=
  sum_rule hA hs hn hb hr (bloch_equal hd L hL) hl hconv hocc mult

/-- C81.  On any lattice all of whose extents are equal. -/
theorem C81_equal_extents (hA : A.IsReal) (hs : Buildable size) (hn : size.prod < 2 ^ 32) (hb : Holds b size.length g P Q N)
    (hr : Regular b size.length) (hd : Dual size.length P Q) (L : Nat) (hL : ∀ s ∈ size, s = L)
    (l : Lattice (Num A)) (hl : Lattice.new b size .closed = .ok l) (hconv : ∀ o, conv o = .fin (ω o)) (mult : ℝ)
    (t : Nat) (ht : t < size.prod) (occ occ' : List T) (h : Translated size l t occ occ') :
    l.computeSk conv occ (.fin mult) = l.computeSk conv occ' (.fin mult) := by
  refine C81_allowed hA hs hn hb hr l hl (fun i k hi hk => ?_) hconv mult t ht occ occ' h
  rw [getMomentum_eq hA hs hb hr hl hi, Res.ok.injEq] at hk
  rw [← show wave size Q i = k from List.map_injective_iff.2 (fun x y h => by injection h) hk]
  exact bloch_allowed hs (bloch_equal hd L hL) hi

/-- C81: occupations translated along a ring of three sites. -/
example (A : Arith ℝ) (l : Lattice (Num A)) (h : l.grid = Grid.new [3] .closed) :
    Translated [3] l 1 [5, 7, 9] [9, 5, 7] := by
  refine ⟨rfl, rfl, fun j hj => ?_⟩
  rw [h]
  have : j = 0 ∨ j = 1 ∨ j = 2 := by simp at hj; omega
  rcases this with rfl | rfl | rfl
  · exact ⟨1, by rw [getUnMappedSite_eq (by decide) (by decide) (by decide) (by decide)]; decide, rfl⟩
  · exact ⟨2, by rw [getUnMappedSite_eq (by decide) (by decide) (by decide) (by decide)]; decide, rfl⟩
  · exact ⟨0, by rw [getUnMappedSite_eq (by decide) (by decide) (by decide) (by decide)]; decide, rfl⟩

/-- C79–C81: their hypotheses are met by occupation numbers on a 2 by 3 square lattice. -/
example : ∃ b : Bravais (Num realArith), squareLattice = .ok b ∧ Buildable [2, 3] ∧ [2, 3].length = b.dim ∧
    [2, 3].prod < 2 ^ 32 ∧ (∃ l, Lattice.new b [2, 3] .closed = .ok l) ∧
    (∀ o : Nat, (CxxFloat.ofNat o : Num realArith) = .fin (o : ℝ)) := by
  obtain ⟨b, h1, h2⟩ := square_regular (F := Num realArith)
  have hs : Buildable [2, 3] := ⟨by decide, by decide⟩
  obtain ⟨l, hl, -⟩ := C73_defined hs h2 .closed (fun _ => by decide)
  exact ⟨b, h1, hs, h2.dim.symm, by decide, ⟨l, hl⟩, fun o => by
    rw [Num.ofNat_eq, Num.round_exact realArith_isReal.exact]⟩

end
end Bwsl
