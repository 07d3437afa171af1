import Verif.Props.SumRule

/-! Properties C102, C103: bounds and symmetries of the structure factor; the set of momenta. -/

namespace Bwsl
open Spec

set_option linter.unusedSectionVars false

section
variable {A : Arith ℝ} {b : Bravais (Num A)} {size : List Nat} {g : Nat} {P Q : List ℝ} {N : List Int}
variable {T : Type} {conv : T → Num A} {ω : T → ℝ}

/-! ### C102: bounds and symmetries -/

theorem occupations_eq {n : Nat} {occ : List T} (hocc : occ.length = n) (f : ℝ → ℝ) :
    (occ.map (fun o => f (ω o))).sum = ∑ j ∈ Finset.range n, f (occupation (occ.map ω) j) := by
  rw [← list_range_sum]
  congr 1
  refine List.ext_getElem (by simp [hocc]) (fun j h1 h2 => ?_)
  have : j < occ.length := by simpa using h1
  simp [occupation, List.getD_eq_getElem?_getD, this]

theorem norm_transform_le (n : Nat) (occ : List ℝ) (x : Nat → List ℝ) (k : List ℝ) :
    ‖transform n occ x k‖ ≤ ∑ j ∈ Finset.range n, |occupation occ j| := by
  unfold transform
  refine (norm_sum_le _ _).trans (Finset.sum_le_sum (fun j _ => ?_))
  rw [norm_mul, Complex.norm_exp_ofReal_mul_I, mul_one, Complex.norm_real, Real.norm_eq_abs]

/-- C102.  No value exceeds mult (Σ|n_j| / N)². -/
theorem C102_bound (hA : A.IsReal) (hs : Buildable size) (hn : size.prod < 2 ^ 32) (hb : Holds b size.length g P Q N)
    (hr : Regular b size.length) (l : Lattice (Num A)) (hl : Lattice.new b size .closed = .ok l)
    (hconv : ∀ o, conv o = .fin (ω o)) (occ : List T) (hocc : occ.length = size.prod) (mult : ℝ) (hm : 0 ≤ mult) :
    ∃ S : List ℝ, l.computeSk conv occ (.fin mult) = .ok (S.map .fin) ∧ S.length = size.prod ∧
      ∀ s ∈ S, s ≤ mult * ((occ.map (fun o => |ω o|)).sum / size.prod) ^ 2 := by
  obtain ⟨m, hi⟩ := sk_input hA hs hb hr hl hconv hocc.ge
  refine ⟨_, computeSk_eq hA hs hn hb hr hl hi mult, by simp, fun s hs' => ?_⟩
  obtain ⟨i, -, rfl⟩ := List.mem_map.1 hs'
  unfold structureFactor
  rw [occupations_eq hocc (fun x => |x|), Complex.normSq_eq_norm_sq, mul_div_assoc, ← div_pow]
  refine mul_le_mul_of_nonneg_left (pow_le_pow_left₀ (by positivity) ?_ 2) hm
  exact div_le_div_of_nonneg_right (norm_transform_le ..) (Nat.cast_nonneg _)

/-- C102.  With occupations that are not negative the structure factor is largest at the zero momentum. -/
theorem C102_peak (hA : A.IsReal) (hs : Buildable size) (hn : size.prod < 2 ^ 32) (hb : Holds b size.length g P Q N)
    (hr : Regular b size.length) (l : Lattice (Num A)) (hl : Lattice.new b size .closed = .ok l)
    (hconv : ∀ o, conv o = .fin (ω o)) (occ : List T) (hocc : occ.length = size.prod) (h0 : ∀ o ∈ occ, 0 ≤ ω o)
    (mult : ℝ) (hm : 0 ≤ mult) (i : Nat) (hi : i < size.prod) (k : List ℝ) (hk : l.getMomentum i = .ok (k.map .fin))
    (hk0 : ∀ z ∈ k, z = 0) :
    ∃ S : List ℝ, l.computeSk conv occ (.fin mult) = .ok (S.map .fin) ∧ ∃ top, S[i]? = some top ∧ ∀ s ∈ S, s ≤ top := by
  obtain ⟨S, h1, -, h2⟩ := C102_bound hA hs hn hb hr l hl hconv occ hocc mult hm
  obtain ⟨S', h3, h4⟩ := C79_zero_momentum hA hs hn hb hr l hl hconv occ hocc mult i hi k hk hk0
  rw [h1, Res.ok.injEq] at h3
  have : S = S' := List.map_injective_iff.2 (fun x y h => by injection h) h3
  subst this
  refine ⟨S, h1, _, h4, fun s hs => ?_⟩
  have e : occ.map (fun o => |ω o|) = occ.map ω := List.map_congr_left (fun o ho => abs_of_nonneg (h0 o ho))
  have := h2 s hs
  rwa [e] at this

theorem dot_neg (k v : List ℝ) : dot (k.map (fun z => -z)) v = -dot k v := by
  unfold dot
  induction k generalizing v with
  | nil => simp
  | cons a k ih =>
    cases v with
    | nil => simp
    | cons b v =>
      rw [List.map_cons, List.zipWith_cons_cons, List.sum_cons, ih, List.zipWith_cons_cons, List.sum_cons]
      ring

theorem transform_neg (n : Nat) (occ : List ℝ) (x : Nat → List ℝ) (k : List ℝ) :
    transform n occ x (k.map (fun z => -z)) = (starRingEnd ℂ) (transform n occ x k) := by
  unfold transform
  rw [map_sum]
  refine Finset.sum_congr rfl (fun j _ => ?_)
  rw [map_mul, Complex.conj_ofReal, ← Complex.exp_conj, map_mul, Complex.conj_ofReal, Complex.conj_I, dot_neg]
  push_cast
  rw [neg_mul, mul_neg]

/-- C102.  Opposite momenta have the same structure factor. -/
theorem C102_opposite (hA : A.IsReal) (hs : Buildable size) (hn : size.prod < 2 ^ 32) (hb : Holds b size.length g P Q N)
    (hr : Regular b size.length) (l : Lattice (Num A)) (hl : Lattice.new b size .closed = .ok l)
    (hconv : ∀ o, conv o = .fin (ω o)) (occ : List T) (hocc : size.prod ≤ occ.length) (mult : ℝ) (i j : Nat)
    (hi : i < size.prod) (hj : j < size.prod) (k : List ℝ) (hk : l.getMomentum i = .ok (k.map .fin))
    (hk' : l.getMomentum j = .ok ((k.map (fun z => -z)).map .fin)) :
    ∃ S : List ℝ, l.computeSk conv occ (.fin mult) = .ok (S.map .fin) ∧ ∃ s, S[i]? = some s ∧ S[j]? = some s := by
  obtain ⟨m, hin⟩ := sk_input hA hs hb hr hl hconv hocc
  rw [getMomentum_eq hA hs hb hr hl hi, Res.ok.injEq] at hk
  rw [getMomentum_eq hA hs hb hr hl hj, Res.ok.injEq] at hk'
  have e1 : wave size Q i = k := List.map_injective_iff.2 (fun x y h => by injection h) hk
  have e2 : wave size Q j = k.map (fun z => -z) := List.map_injective_iff.2 (fun x y h => by injection h) hk'
  refine ⟨_, computeSk_eq hA hs hn hb hr hl hin mult, _, by rw [List.getElem?_map, List.getElem?_range hi]; rfl, ?_⟩
  rw [List.getElem?_map, List.getElem?_range hj, Option.map_some, e2]
  simp only [e1]
  unfold structureFactor
  rw [transform_neg, Complex.normSq_conj]

/-- C102.  Scaling the occupations by `c` scales the structure factor by c². -/
theorem C102_scale (hA : A.IsReal) (hs : Buildable size) (hn : size.prod < 2 ^ 32) (hb : Holds b size.length g P Q N)
    (hr : Regular b size.length) (l : Lattice (Num A)) (hl : Lattice.new b size .closed = .ok l)
    (hconv : ∀ o, conv o = .fin (ω o)) (occ occ' : List T) (hocc : size.prod ≤ occ.length) (c : ℝ)
    (hc : occ'.map ω = (occ.map ω).map (c * ·)) (mult : ℝ) :
    ∃ S : List ℝ, l.computeSk conv occ (.fin mult) = .ok (S.map .fin) ∧
      l.computeSk conv occ' (.fin mult) = .ok ((S.map (c ^ 2 * ·)).map .fin) := by
  have hocc' : size.prod ≤ occ'.length := by
    have := congrArg List.length hc
    simp only [List.length_map] at this
    omega
  obtain ⟨m, hm⟩ := vectors_exist hA hs hb hr hl
  have hx : ∀ j, j < size.prod → l.getVector 0 j = .ok ((embed size.length P (image size (crd size j) (m j))).map .fin) ∧
      (embed size.length P (image size (crd size j) (m j))).length = size.length := fun j hj => ⟨hm j hj, embed_length ..⟩
  refine ⟨_, computeSk_eq hA hs hn hb hr hl (sk_input_of hconv hocc hx) mult, ?_⟩
  rw [computeSk_eq hA hs hn hb hr hl (sk_input_of hconv hocc' hx), List.map_map (g := (c ^ 2 * ·))]
  refine congrArg (fun L => Res.ok (List.map Num.fin L)) (List.map_congr_left (fun i _ => ?_))
  simp only [Function.comp]
  have e : ∀ x k, transform size.prod (occ'.map ω) x k = c * transform size.prod (occ.map ω) x k := by
    intro x k
    unfold transform
    rw [Finset.mul_sum]
    refine Finset.sum_congr rfl (fun j hj => ?_)
    have hj := Finset.mem_range.1 hj
    have : occupation (occ'.map ω) j = c * occupation (occ.map ω) j := by
      rw [hc]
      unfold occupation
      have h : j < occ.length := by omega
      simp [List.getD_eq_getElem?_getD, h]
    rw [this]
    push_cast
    ring
  unfold structureFactor
  rw [e, Complex.normSq_mul, Complex.normSq_ofReal]
  ring

/-- C102.  A single occupied site gives mult n²/N² at every momentum. -/
theorem C102_single (hA : A.IsReal) (hs : Buildable size) (hn : size.prod < 2 ^ 32) (hb : Holds b size.length g P Q N)
    (hr : Regular b size.length) (l : Lattice (Num A)) (hl : Lattice.new b size .closed = .ok l)
    (hconv : ∀ o, conv o = .fin (ω o)) (occ : List T) (hocc : size.prod ≤ occ.length) (mult : ℝ) (a : Nat)
    (ha : a < size.prod) (w : ℝ) (hw : ∀ j o, j < size.prod → occ[j]? = some o → ω o = if j = a then w else 0) :
    l.computeSk conv occ (.fin mult) = .ok (List.replicate size.prod (.fin (mult * (w / size.prod) ^ 2))) := by
  obtain ⟨m, hi⟩ := sk_input hA hs hb hr hl hconv hocc
  rw [computeSk_eq hA hs hn hb hr hl hi mult, Res.ok.injEq]
  refine List.eq_replicate_iff.2 ⟨by simp, fun y hy => ?_⟩
  obtain ⟨s, hs', rfl⟩ := List.mem_map.1 hy
  obtain ⟨i, -, rfl⟩ := List.mem_map.1 hs'
  have ho : ∀ j, j < size.prod → occupation (occ.map ω) j = if j = a then w else 0 := by
    intro j hj
    have h : j < occ.length := by omega
    rw [← hw j occ[j] hj (List.getElem?_eq_getElem h)]
    simp [occupation, List.getD_eq_getElem?_getD, h]
  unfold structureFactor transform
  rw [Finset.sum_eq_single a]
  · rw [ho a ha, if_pos rfl, Complex.normSq_mul, Complex.normSq_ofReal, Complex.normSq_eq_norm_sq,
      Complex.norm_exp_ofReal_mul_I]
    congr 1
    ring
  · intro j hj hja
    rw [ho j (Finset.mem_range.1 hj), if_neg hja]
    simp
  · intro h
    exact absurd (Finset.mem_range.2 ha) h

theorem label_range (hs : Buildable size) {i : Nat} (hi : i < size.prod) {q : Nat} (hq : q < size.length) :
    -(extent size q / 2) ≤ coord (label size i) q ∧ coord (label size i) q < extent size q - extent size q / 2 := by
  have := (onGrid_iff.1 (crd_onGrid hs.1.1 hi)).2 q hq
  rw [coord_label hq]
  omega

/-- The sum over the sites of the phase of a momentum. -/
theorem sum_sites_zero (hs : Buildable size) (hB : Bloch size P Q) {i : Nat} (hi : i < size.prod) {q : Nat}
    (hq : q < size.length) (hne : coord (label size i) q ≠ 0) :
    ∑ j ∈ Finset.range size.prod, phase size.length P (wave size Q i) (crd size j) = 0 := by
  have hw : (wave size Q i).length = size.length := by simp [wave]
  have hall := bloch_allowed hs hB hi
  have he : (tab size.length (fun k => if k = q then 1 else 0)).length = size.length := length_tab ..
  have hce : ∀ k, k < size.length → coord (tab size.length (fun k => if k = q then (1 : Int) else 0)) k = if k = q then 1 else 0 :=
    fun k hk => coord_tab (f := fun k => if k = q then (1 : Int) else 0) hk
  have hstep : ∀ j, j < size.prod → phase size.length P (wave size Q i)
        (crd size (shift size (tab size.length (fun k => if k = q then 1 else 0)) j)) =
      phase size.length P (wave size Q i) (crd size j) *
        phase size.length P (wave size Q i) (tab size.length (fun k => if k = q then 1 else 0)) := by
    intro j hj
    have hjl := onGrid_length (crd_onGrid hs.1.1 hj)
    rw [(shift_spec hs he hj).2, phase_wrap hw hall (length_plus he hjl), phase_plus hw (he.trans hjl.symm)]
  have hph : phase size.length P (wave size Q i) (tab size.length (fun k => if k = q then 1 else 0)) ≠ 1 := by
    intro h1
    unfold phase at h1
    rw [hB i _ hi he] at h1
    obtain ⟨n, hn⟩ := Complex.exp_eq_one_iff.1 h1
    rw [Finset.sum_eq_single q (fun k hk hkq => by rw [hce k (Finset.mem_range.1 hk), if_neg hkq]; simp)
      (fun h => absurd (Finset.mem_range.2 hq) h), hce q hq, if_pos rfl, mul_one] at hn
    have h2 : ((2 * Real.pi * (coord (label size i) q : ℝ) / (extent size q : ℝ) : ℝ) : ℂ) = ((n * (2 * Real.pi) : ℝ) : ℂ) := by
      refine mul_right_cancel₀ Complex.I_ne_zero ?_
      rw [hn]
      push_cast
      ring
    have h3 := Complex.ofReal_injective h2
    have hpi := Real.pi_pos.ne'
    have hL := extent_ne hs hq
    field_simp at h3
    have h4 : coord (label size i) q = extent size q * n := by
      have : (coord (label size i) q : ℝ) = extent size q * n := by linear_combination h3
      exact_mod_cast this
    have hr := label_range hs hi hq
    have hp := extent_pos hs.1.1 hq
    rcases lt_trichotomy n 0 with h | h | h
    · have : extent size q * n ≤ extent size q * (-1) := by gcongr; omega
      omega
    · rw [h, mul_zero] at h4; exact hne h4
    · have : extent size q * 1 ≤ extent size q * n := by gcongr; omega
      omega
  have hG := sum_shift hs he (fun j => phase size.length P (wave size Q i) (crd size j))
  rw [Finset.sum_congr rfl (fun j hj => hstep j (Finset.mem_range.1 hj)), ← Finset.sum_mul] at hG
  have : (∑ j ∈ Finset.range size.prod, phase size.length P (wave size Q i) (crd size j)) *
      (phase size.length P (wave size Q i) (tab size.length (fun k => if k = q then 1 else 0)) - 1) = 0 := by
    rw [mul_sub, hG, mul_one, sub_self]
  exact (mul_eq_zero.1 this).resolve_right (sub_ne_zero.2 hph)

/-- The momentum is zero if its label is. -/
theorem wave_zero {i : Nat} (h : ∀ q, q < size.length → coord (label size i) q = 0) : ∀ z ∈ wave size Q i, z = 0 := by
  intro z hz
  obtain ⟨k, hk, rfl⟩ := List.mem_map.1 hz
  unfold waveAt
  rw [Finset.sum_eq_zero, mul_zero, zero_div]
  intro j hj
  rw [h j (Finset.mem_range.1 hj)]
  simp

theorem uniform (hA : A.IsReal) (hs : Buildable size) (hn : size.prod < 2 ^ 32) (hb : Holds b size.length g P Q N)
    (hr : Regular b size.length) (hB : Bloch size P Q) {l : Lattice (Num A)} (hl : Lattice.new b size .closed = .ok l)
    (hconv : ∀ o, conv o = .fin (ω o)) {occ : List T} (hocc : occ.length = size.prod) (mult w : ℝ)
    (hw : ∀ o ∈ occ, ω o = w) :
    ∃ S : List ℝ, l.computeSk conv occ (.fin mult) = .ok (S.map .fin) ∧ ∀ i, i < size.prod → ∀ k : List ℝ,
      l.getMomentum i = .ok (k.map .fin) → S[i]? = some (if ∀ z ∈ k, z = 0 then mult * w ^ 2 else 0) := by
  classical
  obtain ⟨m, hin⟩ := sk_input hA hs hb hr hl hconv hocc.ge
  refine ⟨_, computeSk_eq hA hs hn hb hr hl hin mult, fun i hi k hk => ?_⟩
  have hk0 := hk
  rw [getMomentum_eq hA hs hb hr hl hi, Res.ok.injEq] at hk
  have e1 : wave size Q i = k := List.map_injective_iff.2 (fun x y h => by injection h) hk
  by_cases h0 : ∀ z ∈ k, z = 0
  · obtain ⟨S', h3, h4⟩ := C79_zero_momentum hA hs hn hb hr l hl hconv occ hocc mult i hi k hk0 h0
    rw [computeSk_eq hA hs hn hb hr hl hin mult, Res.ok.injEq] at h3
    have := List.map_injective_iff.2 (fun x y h => by injection h) h3
    rw [this, h4]
    have hsum : (occ.map ω).sum = size.prod * w := by
      rw [List.map_congr_left hw, List.map_const', List.sum_replicate, hocc, nsmul_eq_mul]
    have hp : (size.prod : ℝ) ≠ 0 := by exact_mod_cast (Nat.pos_of_ne_zero (by omega : size.prod ≠ 0)).ne'
    rw [hsum]
    congr 1
    split
    · congr 1; field_simp
    · exact absurd h0 ‹_›
  · have hlab : ∃ q, q < size.length ∧ coord (label size i) q ≠ 0 := by
      by_contra hc
      push Not at hc
      exact h0 (e1 ▸ wave_zero hc)
    obtain ⟨q, hq, hne⟩ := hlab
    rw [List.getElem?_map, List.getElem?_range hi, Option.map_some]
    congr 1
    unfold structureFactor
    rw [transform_phase (by simp [wave]) (bloch_allowed hs hB hi)]
    have hoc : ∀ j ∈ Finset.range size.prod, (occupation (occ.map ω) j : ℂ) * phase size.length P (wave size Q i) (crd size j) =
        (w : ℂ) * phase size.length P (wave size Q i) (crd size j) := by
      intro j hj
      have hj : j < occ.length := by rw [hocc]; exact Finset.mem_range.1 hj
      have : occupation (occ.map ω) j = w := by
        simp only [occupation, List.getD_eq_getElem?_getD, List.getElem?_map, List.getElem?_eq_getElem hj, Option.map_some,
          Option.getD_some]
        exact hw _ (List.getElem_mem hj)
      rw [this]
    rw [Finset.sum_congr rfl hoc, ← Finset.mul_sum, sum_sites_zero hs hB hi hq hne, mul_zero, map_zero, mul_zero, zero_div]
    split
    · exact absurd ‹_› h0
    · rfl

/-- C102.  Uniform occupations: zero except at the zero momentum.  On chain, square and cubic lattices. -/
theorem C102_uniform_orthogonal (hA : A.IsReal) (hb : chainLattice = .ok b ∨ squareLattice = .ok b ∨ cubicLattice = .ok b)
    (hs : Buildable size) (hn : size.prod < 2 ^ 32) (hd : size.length = b.dim) (l : Lattice (Num A))
    (hl : Lattice.new b size .closed = .ok l) (hconv : ∀ o, conv o = .fin (ω o)) (mult w : ℝ)
    (occ : List T) (hocc : occ.length = size.prod) (hw : ∀ o ∈ occ, ω o = w) :
    ∃ S : List ℝ, l.computeSk conv occ (.fin mult) = .ok (S.map .fin) ∧ ∀ i, i < size.prod → ∀ k : List ℝ,
      l.getMomentum i = .ok (k.map .fin) → S[i]? = some (if ∀ z ∈ k, z = 0 then mult * w ^ 2 else 0) := by
  obtain ⟨g, N, h1, h2, h3, h4⟩ := orthogonal_cases hA hb
  have h5 := unit_diagonal_cases hb
  rw [← hd] at h1 h2 h4 h5
  exact uniform hA hs hn h1 h2 (bloch_diagonal hs h5 h5 h4) hl hconv hocc mult w hw

/-- C102.  The same on any lattice all of whose extents are equal. -/
theorem C102_uniform_equal_extents (hA : A.IsReal) (hs : Buildable size) (hn : size.prod < 2 ^ 32)
    (hb : Holds b size.length g P Q N) (hr : Regular b size.length) (hd : Dual size.length P Q) (L : Nat)
    (hL : ∀ s ∈ size, s = L) (l : Lattice (Num A)) (hl : Lattice.new b size .closed = .ok l)
    (hconv : ∀ o, conv o = .fin (ω o)) (mult w : ℝ) (occ : List T) (hocc : occ.length = size.prod) (hw : ∀ o ∈ occ, ω o = w) :
    ∃ S : List ℝ, l.computeSk conv occ (.fin mult) = .ok (S.map .fin) ∧ ∀ i, i < size.prod → ∀ k : List ℝ,
      l.getMomentum i = .ok (k.map .fin) → S[i]? = some (if ∀ z ∈ k, z = 0 then mult * w ^ 2 else 0) :=
  uniform hA hs hn hb hr (bloch_equal hd L hL) hl hconv hocc mult w hw

/-! On triangular lattices with unequal extents neither holds: a ring of four sites. -/

theorem ring_cos {c m : List Int} {x : Int} (hx : x = 0 ∨ x = 1 ∨ x = 2 ∨ x = 3) (hc : c = [x, 0]) (hm : Shell 2 m)
    (hmin : ∀ m' : List Int, Shell 2 m' → hex (coord (image [4, 1] c m) 0) (coord (image [4, 1] c m) 1) ≤
      hex (coord (image [4, 1] c m') 0) (coord (image [4, 1] c m') 1)) :
    (if x = 0 then 1 else if x = 2 then √2 / 2 else -(√2 / 2)) ≤
      Real.cos (Real.pi / 4 * (2 * coord (image [4, 1] c m) 0 - 3 * coord (image [4, 1] c m) 1 : Int)) := by
  have h0 : ∀ m', coord (image [4, 1] c m') 0 = x + coord m' 0 * 4 := fun m' => by
    rw [coord_image (by decide), hc]; rfl
  have h1 : ∀ m', coord (image [4, 1] c m') 1 = coord m' 1 := fun m' => by
    rw [coord_image (by decide), hc]; show 0 + coord m' 1 * 1 = _; ring
  simp only [h0, h1] at hmin ⊢
  have b0 := hm.coord 0
  have b1 := hm.coord 1
  generalize coord m 0 = p at *
  generalize coord m 1 = q at *
  have e1 := hmin [0, 0] ⟨rfl, by decide⟩
  have e2 := hmin [0, -1] ⟨rfl, by decide⟩
  have e3 := hmin [-1, 0] ⟨rfl, by decide⟩
  simp only [coord, List.getD_cons_zero, List.getD_cons_succ] at e1 e2 e3
  have hs2 : 0 ≤ √2 / 2 := by positivity
  have hp : p = -1 ∨ p = 0 ∨ p = 1 := by omega
  have hq : q = -1 ∨ q = 0 ∨ q = 1 := by omega
  have c1 : Real.cos (Real.pi / 4 * 2) = 0 := by rw [show Real.pi / 4 * 2 = Real.pi / 2 by ring, Real.cos_pi_div_two]
  have c2 : Real.cos (Real.pi / 4 * 5) = -(√2 / 2) := by
    rw [show Real.pi / 4 * 5 = Real.pi / 4 + Real.pi by ring, Real.cos_add_pi, Real.cos_pi_div_four]
  have c3 : Real.cos (Real.pi / 4 * 7) = √2 / 2 := by
    rw [show Real.pi / 4 * 7 = 2 * Real.pi - Real.pi / 4 by ring, Real.cos_two_pi_sub, Real.cos_pi_div_four]
  have neg : ∀ z : ℝ, Real.cos (Real.pi / 4 * (-z)) = Real.cos (Real.pi / 4 * z) := fun z => by rw [mul_neg, Real.cos_neg]
  rcases hx with rfl | rfl | rfl | rfl <;> rcases hp with rfl | rfl | rfl <;> rcases hq with rfl | rfl | rfl <;>
    first
      | (exfalso; revert e1 e2 e3; decide)
      | (norm_num [c1, c2, c3, neg, hs2])

/-- C102.  On a closed triangular lattice of 4 by 1 sites a uniform occupation has a positive structure factor at a momentum
that is not zero, and the values add up to more than the sum rule says. -/
theorem C102_unequal_extents (hA : A.IsReal) (hb : triangularLattice = .ok b) (hconv : ∀ o, conv o = .fin (ω o))
    (mult w : ℝ) (hm : 0 < mult) (hw0 : w ≠ 0) (occ : List T) (hocc : occ.length = 4) (hw : ∀ o ∈ occ, ω o = w) :
    ∃ (l : Lattice (Num A)) (S k : List ℝ) (s : ℝ), Lattice.new b [4, 1] .closed = .ok l ∧
      l.computeSk conv occ (.fin mult) = .ok (S.map .fin) ∧ l.getMomentum 3 = .ok (k.map .fin) ∧ (∃ z ∈ k, z ≠ 0) ∧
      S[3]? = some s ∧ 0 < s ∧ mult * (occ.map (fun o => ω o ^ 2)).sum / 4 < S.sum := by
  obtain ⟨hh, hr⟩ := triangular_cases hA hb
  have hs : Buildable [4, 1] := ⟨by decide, by decide⟩
  obtain ⟨l, hl, -⟩ := C73_defined hs hr .closed (fun _ => by decide)
  have h3 : √3 ≠ (0 : ℝ) := by positivity
  have hlab : label [4, 1] 3 = [1, 0] := by decide
  have hwave : wave [4, 1] [1, -1 / √3, 0, 2 / √3] 3 = [2 * Real.pi / 4, 2 * Real.pi * (-1 / √3)] := by
    simp [wave, waveAt, hlab, coord, entry, extent, List.range_succ, Finset.sum_range_succ]
  have hdot : ∀ c : List Int, dot [2 * Real.pi / 4, 2 * Real.pi * (-1 / √3)] (embed 2 [1, 0, 1 / 2, √3 / 2] c) =
      Real.pi / 4 * (2 * coord c 0 - 3 * coord c 1 : Int) := by
    intro c
    simp only [dot, embed, entry, Finset.sum_range_succ, List.range_succ]
    simp
    field_simp
    ring
  have hcrd : ∀ j, j < 4 → crd [4, 1] j = [(j : Int), 0] := by
    intro j hj
    interval_cases j <;> decide
  -- the displacements
  have hvec : ∀ j, ∃ m : List Int, j < 4 → Shell 2 m ∧
      l.getVector 0 j = .ok ((embed 2 [1, 0, 1 / 2, √3 / 2] (image [4, 1] (crd [4, 1] j) m)).map .fin) ∧
      ∀ m' : List Int, Shell 2 m' → hex (coord (image [4, 1] (crd [4, 1] j) m) 0) (coord (image [4, 1] (crd [4, 1] j) m) 1) ≤
        hex (coord (image [4, 1] (crd [4, 1] j) m') 0) (coord (image [4, 1] (crd [4, 1] j) m') 1) := by
    intro j
    by_cases hj : j < 4
    · have hj' : j < [4, 1].prod := hj
      obtain ⟨m, h1, h2, -, h4⟩ := closed_eq hA hs (size := [4, 1]) hh hr hl (prod_pos hs.1.1) hj'
      rw [minus_origin (onGrid_length (crd_onGrid hs.1.1 hj')), wrap_of_onGrid (crd_onGrid hs.1.1 hj')] at h2 h4
      refine ⟨m, fun _ => ⟨h1, h2, fun m' hm' => ?_⟩⟩
      have h5 := h4 m' hm'
      unfold reach Spec.length at h5
      rw [show [4, 1].length = 2 from rfl, triangular_sq, triangular_sq] at h5
      exact_mod_cast (Real.sqrt_le_sqrt_iff (by exact_mod_cast hex_nonneg _ _)).1 h5
    · exact ⟨[], fun h => absurd h hj⟩
  choose m hmv using hvec
  have hx : ∀ j, j < [4, 1].prod → l.getVector 0 j =
        .ok ((embed 2 [1, 0, 1 / 2, √3 / 2] (image [4, 1] (crd [4, 1] j) (m j))).map .fin) ∧
      (embed 2 [1, 0, 1 / 2, √3 / 2] (image [4, 1] (crd [4, 1] j) (m j))).length = [4, 1].length :=
    fun j hj => ⟨(hmv j hj).2.1, embed_length ..⟩
  have hS := computeSk_eq hA hs (size := [4, 1]) (by decide) hh hr hl (sk_input_of hconv (by rw [hocc]; decide) hx) mult
  have ho : ∀ j, j < 4 → occupation (occ.map ω) j = w := by
    intro j hj
    have hj : j < occ.length := by rw [hocc]; exact hj
    simp only [occupation, List.getD_eq_getElem?_getD, List.getElem?_map, List.getElem?_eq_getElem hj, Option.map_some,
      Option.getD_some]
    exact hw _ (List.getElem_mem hj)
  set x := fun j => embed 2 [1, 0, 1 / 2, √3 / 2] (image [4, 1] (crd [4, 1] j) (m j)) with hxdef
  have hre : 0 < (transform 4 (occ.map ω) x (wave [4, 1] [1, -1 / √3, 0, 2 / √3] 3)).re / w := by
    rw [transform_re, hwave, Finset.sum_div]
    have : ∀ j ∈ Finset.range 4, Real.cos (dot [2 * Real.pi / 4, 2 * Real.pi * (-1 / √3)] (x j)) * occupation (occ.map ω) j / w =
        Real.cos (Real.pi / 4 * (2 * coord (image [4, 1] (crd [4, 1] j) (m j)) 0 - 3 * coord (image [4, 1] (crd [4, 1] j) (m j)) 1 : Int)) := by
      intro j hj
      rw [ho j (Finset.mem_range.1 hj), mul_div_cancel_right₀ _ hw0, hdot]
    rw [Finset.sum_congr rfl this]
    have key : ∀ (j : Nat) (hj : j < 4) (hj' : (j : Int) = 0 ∨ (j : Int) = 1 ∨ (j : Int) = 2 ∨ (j : Int) = 3), _ := fun j hj hj' =>
      ring_cos hj' (hcrd j hj) (hmv j hj).1 (hmv j hj).2.2
    have k0 := key 0 (by decide) (by decide)
    have k1 := key 1 (by decide) (by decide)
    have k2 := key 2 (by decide) (by decide)
    have k3 := key 3 (by decide) (by decide)
    rw [if_pos (by decide)] at k0
    rw [if_neg (by decide), if_neg (by decide)] at k1 k3
    rw [if_neg (by decide), if_pos (by decide)] at k2
    have : √2 / 2 < (1 : ℝ) := by
      have : √2 < (2 : ℝ) := by rw [Real.sqrt_lt' (by norm_num)]; norm_num
      linarith
    simp only [Finset.sum_range_succ, Finset.sum_range_zero]
    linarith
  have hT : 0 < Complex.normSq (transform 4 (occ.map ω) x (wave [4, 1] [1, -1 / √3, 0, 2 / √3] 3)) := by
    refine Complex.normSq_pos.2 (fun h => ?_)
    rw [h] at hre
    simp at hre
  have hpos : 0 < structureFactor 4 mult (occ.map ω) x (wave [4, 1] [1, -1 / √3, 0, 2 / √3] 3) := by
    unfold structureFactor
    positivity
  have hge : ∀ i, 0 ≤ structureFactor 4 mult (occ.map ω) x (wave [4, 1] [1, -1 / √3, 0, 2 / √3] i) := by
    intro i
    unfold structureFactor
    have := Complex.normSq_nonneg (transform 4 (occ.map ω) x (wave [4, 1] [1, -1 / √3, 0, 2 / √3] i))
    positivity
  have hlab0 : label [4, 1] 2 = [0, 0] := by decide
  have hk2 : l.getMomentum 2 = .ok (([0, 0] : List ℝ).map .fin) := by
    rw [getMomentum_eq hA hs (size := [4, 1]) hh hr hl (by decide)]
    simp [wave, waveAt, hlab0, coord, List.range_succ, Finset.sum_range_succ]
  obtain ⟨S', g1, g2⟩ := C79_zero_momentum hA hs (size := [4, 1]) (by decide) hh hr l hl hconv occ hocc mult 2 (by decide) _ hk2 (by simp)
  rw [hS, Res.ok.injEq] at g1
  have g3 := List.map_injective_iff.2 (fun x y h => by injection h) g1
  rw [← g3] at g2
  refine ⟨l, _, _, _, hl, hS, getMomentum_eq hA hs (size := [4, 1]) hh hr hl (by decide), ⟨2 * Real.pi / 4, ?_, ?_⟩,
    by rw [List.getElem?_map, List.getElem?_range (by decide)]; rfl, hpos, ?_⟩
  · rw [hwave]; simp
  · have := Real.pi_pos; positivity
  · rw [List.getElem?_map, List.getElem?_range (by decide), Option.map_some, Option.some.injEq] at g2
    rw [list_range_sum]
    have e4 : ([4, 1] : List Nat).prod = 4 := rfl
    rw [e4] at g2 ⊢
    have hsum : (occ.map ω).sum = 4 * w := by
      rw [List.map_congr_left hw, List.map_const', List.sum_replicate, hocc, nsmul_eq_mul]; norm_num
    have hsum2 : (occ.map (fun o => ω o ^ 2)).sum = 4 * w ^ 2 := by
      rw [List.map_congr_left (fun o h => by rw [hw o h]), List.map_const', List.sum_replicate, hocc, nsmul_eq_mul]; norm_num
    rw [hsum2]
    rw [hsum] at g2
    simp only [Finset.sum_range_succ, Finset.sum_range_zero]
    have := hge 0
    have := hge 1
    have g4 : mult * (4 * w ^ 2) / 4 = structureFactor 4 mult (occ.map ω) x (wave [4, 1] [1, -1 / √3, 0, 2 / √3] 2) := by
      rw [g2]; push_cast; ring
    rw [g4]
    linarith

end

/-! ### C103: the set of momenta -/

section
variable {A : Arith ℝ} {b : Bravais (Num A)} {size : List Nat} {g : Nat} {P Q : List ℝ} {N : List Int}

/-- The label of a momentum is recovered from its components. -/
theorem label_of_wave (hs : Buildable size) (hd : Dual size.length P Q) (i : Nat) {m : Nat} (hm : m < size.length) :
    ∑ k ∈ Finset.range size.length, entry size.length P m k * (waveAt size Q i k * extent size k) =
      2 * Real.pi * coord (label size i) m := by
  have h1 : ∀ k ∈ Finset.range size.length, entry size.length P m k * (waveAt size Q i k * extent size k) =
      ∑ j ∈ Finset.range size.length, 2 * Real.pi * (coord (label size i) j : ℝ) * (entry size.length P m k * entry size.length Q j k) := by
    intro k hk
    have := extent_ne hs (Finset.mem_range.1 hk)
    unfold waveAt
    rw [div_mul_cancel₀ _ this, Finset.mul_sum, Finset.mul_sum]
    exact Finset.sum_congr rfl (fun j _ => by ring)
  rw [Finset.sum_congr rfl h1, Finset.sum_comm,
    Finset.sum_congr rfl (fun j hj => by rw [← Finset.mul_sum, hd m j hm (Finset.mem_range.1 hj)]), Finset.sum_eq_single m]
  · rw [if_pos rfl, mul_one]
  · intro j _ hj; rw [if_neg (Ne.symm hj), mul_zero]
  · intro h; exact absurd (Finset.mem_range.2 hm) h

theorem label_injective (hs : Buildable size) {i j : Nat} (hi : i < size.prod) (hj : j < size.prod)
    (h : ∀ m, m < size.length → coord (label size i) m = coord (label size j) m) : i = j := by
  have hi' := crd_onGrid hs.1.1 hi
  have hj' := crd_onGrid hs.1.1 hj
  have : crd size i = crd size j := by
    refine List.ext_getElem ((onGrid_length hi').trans (onGrid_length hj').symm) (fun m h1 h2 => ?_)
    have hm : m < size.length := onGrid_length hi' ▸ h1
    have := h m hm
    rw [coord_label hm, coord_label hm, coord_eq h1, coord_eq h2] at this
    omega
  rw [← idx_crd hs.1.1 hi, ← idx_crd hs.1.1 hj, this]

/-- C103.  Different sites have different momenta. -/
theorem C103_distinct (hA : A.IsReal) (hs : Buildable size) (hb : Holds b size.length g P Q N) (hr : Regular b size.length)
    (hd : Dual size.length P Q) (l : Lattice (Num A)) (hl : Lattice.new b size .closed = .ok l) (i j : Nat)
    (hi : i < size.prod) (hj : j < size.prod) (h : l.getMomentum i = l.getMomentum j) : i = j := by
  rw [getMomentum_eq hA hs hb hr hl hi, getMomentum_eq hA hs hb hr hl hj, Res.ok.injEq] at h
  have hw : wave size Q i = wave size Q j := List.map_injective_iff.2 (fun x y h => by injection h) h
  have hk : ∀ k, k < size.length → waveAt size Q i k = waveAt size Q j k := fun k hk =>
    List.map_inj_left.1 hw k (List.mem_range.2 hk)
  refine label_injective hs hi hj (fun m hm => ?_)
  have e1 := label_of_wave hs hd i hm
  have e2 := label_of_wave hs hd j hm
  rw [Finset.sum_congr rfl (fun k hk' => by rw [hk k (Finset.mem_range.1 hk')]), e2] at e1
  have hpi := Real.pi_pos.ne'
  have : (coord (label size j) m : ℝ) = coord (label size i) m := by
    field_simp at e1
    exact e1
  exact_mod_cast this.symm

/-- A label exists for every choice of components in range. -/
theorem label_exists (hs : Buildable size) (n : Nat → Int)
    (hn : ∀ q, q < size.length → -(extent size q / 2) ≤ n q ∧ n q < extent size q - extent size q / 2) :
    ∃ i, i < size.prod ∧ ∀ q, q < size.length → coord (label size i) q = n q := by
  have hg : OnGrid (tab size.length (fun k => n k + extent size k / 2)) size := by
    refine onGrid_iff.2 ⟨length_tab .., fun k hk => ?_⟩
    rw [coord_tab hk]
    have := hn k hk
    omega
  refine ⟨_, idx_lt hg, fun q hq => ?_⟩
  rw [coord_label hq, crd_idx hs.1.1 hg, coord_tab hq]
  omega

theorem dot_embed_unit {d : Nat} {P k : List ℝ} (hk : k.length = d) (c : List Int) :
    dot k (embed d P c) = ∑ j ∈ Finset.range d, (coord c j : ℝ) * dot k (embed d P (tab d (fun i => if i = j then 1 else 0))) := by
  have hdot : ∀ c : List Int, dot k (embed d P c) =
      ∑ i ∈ Finset.range d, k.getD i 0 * ∑ j ∈ Finset.range d, (coord c j : ℝ) * entry d P j i := by
    intro c
    unfold dot embed
    have : k = (List.range d).map (fun i => k.getD i 0) := by
      refine List.ext_getElem (by simp [hk]) (fun i h1 h2 => ?_)
      simp [List.getD_eq_getElem?_getD, h1]
    conv_lhs => rw [this]
    rw [List.zipWith_map, List.zipWith_self, list_range_sum]
  rw [hdot]
  have h1 : ∀ j ∈ Finset.range d, (coord c j : ℝ) * dot k (embed d P (tab d (fun i => if i = j then 1 else 0))) =
      ∑ i ∈ Finset.range d, k.getD i 0 * ((coord c j : ℝ) * entry d P j i) := by
    intro j hj
    rw [hdot, Finset.mul_sum]
    refine Finset.sum_congr rfl (fun i _ => ?_)
    rw [Finset.sum_eq_single j]
    · rw [coord_tab (Finset.mem_range.1 hj), if_pos rfl]; push_cast; ring
    · intro m hm hmj; rw [coord_tab (Finset.mem_range.1 hm), if_neg hmj]; simp
    · intro h; exact absurd hj h
  rw [Finset.sum_congr rfl h1, Finset.sum_comm]
  exact Finset.sum_congr rfl (fun i _ => by rw [Finset.mul_sum])

/-- Two momenta are equivalent: their phases agree at every point of the lattice. -/
def Equivalent (size : List Nat) (P k k' : List ℝ) : Prop :=
  ∀ c : List Int, c.length = size.length →
    ∃ n : Int, dot k (embed size.length P c) = dot k' (embed size.length P c) + 2 * Real.pi * n

theorem momenta_complete (hs : Buildable size) (hB : Bloch size P Q) {k : List ℝ} (hk : k.length = size.length)
    (hall : Allowed size P k) : ∃! i, i < size.prod ∧ Equivalent size P k (wave size Q i) := by
  have hpi := Real.pi_pos.ne'
  choose! n hn using hall
  have hunit : ∀ j, j < size.length → (extent size j : ℝ) * dot k (embed size.length P (tab size.length (fun i => if i = j then 1 else 0))) =
      2 * Real.pi * n j := by
    intro j hj
    rw [← hn j hj]
    unfold period
    rw [dot_embed_unit hk ((List.range size.length).map _), Finset.sum_eq_single j]
    · rw [coord_period hj, if_pos rfl]
    · intro m hm hmj; rw [coord_period (Finset.mem_range.1 hm), if_neg hmj]; simp
    · intro h; exact absurd (Finset.mem_range.2 hj) h
  have hdot : ∀ c : List Int, dot k (embed size.length P c) =
      ∑ j ∈ Finset.range size.length, 2 * Real.pi * (n j * coord c j : ℤ) / (extent size j : ℝ) := by
    intro c
    rw [dot_embed_unit hk]
    refine Finset.sum_congr rfl (fun j hj => ?_)
    have h1 := hunit j (Finset.mem_range.1 hj)
    have h2 := extent_ne hs (Finset.mem_range.1 hj)
    rw [eq_div_iff h2]
    push_cast
    linear_combination (coord c j : ℝ) * h1
  -- equivalence means that the labels agree modulo the extents
  have hiff : ∀ i, i < size.prod → (Equivalent size P k (wave size Q i) ↔
      ∀ q, q < size.length → extent size q ∣ n q - coord (label size i) q) := by
    intro i hi
    constructor
    · intro h q hq
      obtain ⟨z, hz⟩ := h (tab size.length (fun i => if i = q then 1 else 0)) (length_tab ..)
      rw [hdot, hB i _ hi (length_tab ..), Finset.sum_eq_single q, Finset.sum_eq_single q, coord_tab hq, if_pos rfl] at hz
      · have h2 := extent_ne hs hq
        refine ⟨z, ?_⟩
        push_cast at hz
        field_simp at hz
        have : (n q : ℝ) - coord (label size i) q = extent size q * z := by linear_combination hz
        exact_mod_cast this
      · intro m hm hmq; rw [coord_tab (Finset.mem_range.1 hm), if_neg hmq]; simp
      · intro h; exact absurd (Finset.mem_range.2 hq) h
      · intro m hm hmq; rw [coord_tab (Finset.mem_range.1 hm), if_neg hmq]; simp
      · intro h; exact absurd (Finset.mem_range.2 hq) h
    · intro h c hc
      choose! z hz using h
      refine ⟨∑ q ∈ Finset.range size.length, z q * coord c q, ?_⟩
      rw [hdot, hB i c hi hc]
      push_cast
      rw [Finset.mul_sum, ← Finset.sum_add_distrib]
      refine Finset.sum_congr rfl (fun q hq => ?_)
      have h2 := extent_ne hs (Finset.mem_range.1 hq)
      have h3 : (n q : ℝ) - coord (label size i) q = extent size q * z q := by exact_mod_cast hz q (Finset.mem_range.1 hq)
      field_simp
      linear_combination (coord c q : ℝ) * h3
  obtain ⟨i, hi, hl⟩ := label_exists hs (fun q => (n q + extent size q / 2) % extent size q - extent size q / 2) (by
    intro q hq
    have hp := extent_pos hs.1.1 hq
    have h1 := Int.emod_nonneg (n q + extent size q / 2) hp.ne'
    have h2 := Int.emod_lt_of_pos (n q + extent size q / 2) hp
    omega)
  refine ⟨i, ⟨hi, (hiff i hi).2 (fun q hq => ?_)⟩, fun j hj => label_injective hs hj.1 hi (fun q hq => ?_)⟩
  · rw [hl q hq]
    refine ⟨(n q + extent size q / 2) / extent size q, ?_⟩
    have := Int.emod_add_mul_ediv (n q + extent size q / 2) (extent size q)
    omega
  · have h1 := (hiff j hj.1).1 hj.2 q hq
    have h2 : extent size q ∣ n q - coord (label size i) q := by
      rw [hl q hq]
      refine ⟨(n q + extent size q / 2) / extent size q, ?_⟩
      have := Int.emod_add_mul_ediv (n q + extent size q / 2) (extent size q)
      omega
    obtain ⟨z, hz⟩ := (Int.dvd_sub h2 h1)
    have r1 := label_range hs hj.1 hq
    have r2 := label_range hs hi hq
    have hp := extent_pos hs.1.1 hq
    rcases lt_trichotomy z 0 with h | h | h
    · have : extent size q * z ≤ extent size q * (-1) := by gcongr; omega
      omega
    · rw [h, mul_zero] at hz; omega
    · have : extent size q * 1 ≤ extent size q * z := by gcongr; omega
      omega

theorem complete (hA : A.IsReal) (hs : Buildable size) (hb : Holds b size.length g P Q N) (hr : Regular b size.length)
    (hB : Bloch size P Q) {l : Lattice (Num A)} (hl : Lattice.new b size .closed = .ok l) {k : List ℝ}
    (hk : k.length = size.length) (hall : Allowed size P k) :
    ∃! i, i < size.prod ∧ ∃ k' : List ℝ, l.getMomentum i = .ok (k'.map .fin) ∧ Equivalent size P k k' := by
  obtain ⟨i, h1, h2⟩ := momenta_complete hs hB hk hall
  refine ⟨i, ⟨h1.1, _, getMomentum_eq hA hs hb hr hl h1.1, h1.2⟩, ?_⟩
  rintro j ⟨hj, k', hk', he⟩
  rw [getMomentum_eq hA hs hb hr hl hj, Res.ok.injEq] at hk'
  have : wave size Q j = k' := List.map_injective_iff.2 (fun x y h => by injection h) hk'
  exact h2 j ⟨hj, this ▸ he⟩

/-- C103.  On chain, square and cubic lattices every momentum the boundaries allow is that of exactly one site, up to a
vector of the reciprocal lattice. -/
theorem C103_complete_orthogonal (hA : A.IsReal) (hb : chainLattice = .ok b ∨ squareLattice = .ok b ∨ cubicLattice = .ok b)
    (hs : Buildable size) (hd : size.length = b.dim) (l : Lattice (Num A)) (hl : Lattice.new b size .closed = .ok l)
    (k : List ℝ) (hk : k.length = size.length) (hall : Allowed size (unit size.length) k) :
    ∃! i, i < size.prod ∧ ∃ k' : List ℝ, l.getMomentum i = .ok (k'.map .fin) ∧
      Equivalent size (unit size.length) k k' := by
  obtain ⟨g, N, h1, h2, h3, h4⟩ := orthogonal_cases hA hb
  have h5 := unit_diagonal_cases hb
  rw [← hd] at h1 h2 h4 h5
  exact complete hA hs h1 h2 (bloch_diagonal hs h5 h5 h4) hl hk hall

/-- C103.  The same on any lattice all of whose extents are equal. -/
theorem C103_complete_equal_extents (hA : A.IsReal) (hs : Buildable size) (hb : Holds b size.length g P Q N)
    (hr : Regular b size.length) (hd : Dual size.length P Q) (L : Nat) (hL : ∀ s ∈ size, s = L) (l : Lattice (Num A))
    (hl : Lattice.new b size .closed = .ok l) (k : List ℝ) (hk : k.length = size.length) (hall : Allowed size P k) :
    ∃! i, i < size.prod ∧ ∃ k' : List ℝ, l.getMomentum i = .ok (k'.map .fin) ∧ Equivalent size P k k' :=
  complete hA hs hb hr (bloch_equal hd L hL) hl hk hall

/-- C103.  With odd extents the opposite of every momentum is a momentum. -/
theorem C103_opposite (hA : A.IsReal) (hs : Buildable size) (hb : Holds b size.length g P Q N) (hr : Regular b size.length)
    (hodd : ∀ s ∈ size, s % 2 = 1) (l : Lattice (Num A)) (hl : Lattice.new b size .closed = .ok l) (i : Nat)
    (hi : i < size.prod) :
    ∃ j, j < size.prod ∧ ∃ k : List ℝ, l.getMomentum i = .ok (k.map .fin) ∧
      l.getMomentum j = .ok ((k.map (fun z => -z)).map .fin) := by
  obtain ⟨j, hj, hlab⟩ := label_exists hs (fun q => -coord (label size i) q) (by
    intro q hq
    have h1 := label_range hs hi hq
    have h2 := hodd _ (List.getElem_mem hq)
    have h3 := extent_eq hq
    have : extent size q % 2 = 1 := by rw [h3]; omega
    omega)
  refine ⟨j, hj, _, getMomentum_eq hA hs hb hr hl hi, ?_⟩
  rw [getMomentum_eq hA hs hb hr hl hj]
  congr 2
  unfold wave
  rw [List.map_map]
  refine List.map_congr_left (fun k _ => ?_)
  simp only [waveAt, Function.comp]
  rw [Finset.sum_congr rfl (fun q hq => by rw [hlab q (Finset.mem_range.1 hq)])]
  push_cast
  simp only [neg_mul, Finset.sum_neg_distrib, mul_neg, neg_div]

/-- C102, C103: their hypotheses are met by a 3 by 5 square lattice and a 3 by 3 triangular one, both with odd extents, with
one occupied site, and with the momentum (2π/3, 2π/5), which is allowed and not zero. -/
example : ∃ b : Bravais (Num realArith), squareLattice = .ok b ∧ Buildable [3, 5] ∧ [3, 5].length = b.dim ∧
    [3, 5].prod < 2 ^ 32 ∧ (∀ s ∈ [3, 5], s % 2 = 1) ∧ (∃ l, Lattice.new b [3, 5] .closed = .ok l) := by
  obtain ⟨b, h1, h2⟩ := square_regular (F := Num realArith)
  have hs : Buildable [3, 5] := ⟨by decide, by decide⟩
  obtain ⟨l, hl, -⟩ := C73_defined hs h2 .closed (fun _ => by decide)
  exact ⟨b, h1, hs, h2.dim.symm, by decide, by decide, l, hl⟩
example : ∃ (b : Bravais (Num realArith)) (g : Nat) (N : List Int), triangularLattice = .ok b ∧ Buildable [3, 3] ∧
    Regular b 2 ∧ Holds b 2 g [1, 0, 1 / 2, √3 / 2] [1, -1 / √3, 0, 2 / √3] N ∧
    Dual 2 [1, 0, 1 / 2, √3 / 2] [1, -1 / √3, 0, 2 / √3] ∧ (∀ s ∈ [3, 3], s = 3) := by
  obtain ⟨b, h1, h2⟩ := triangular_holds realArith_isReal
  exact ⟨b, _, _, h1, ⟨by decide, by decide⟩, (triangular_cases realArith_isReal h1).2, h2, triangular_dual, by decide⟩
example : Allowed [3, 5] (unit 2) [2 * Real.pi / 3, 2 * Real.pi / 5] := by
  intro j hj
  refine ⟨1, ?_⟩
  have u2 : unit 2 = [1, 0, 0, 1] := by simp [unit, List.range_succ]
  have : j = 0 ∨ j = 1 := by simp at hj; omega
  rcases this with rfl | rfl <;>
    · simp [period, embed, dot, u2, entry, extent, coord, List.range_succ, Finset.sum_range_succ]
      try ring
example : ∀ j (o : Nat), j < 3 → [0, 7, 0][j]? = some o → (o : ℝ) = if j = 1 then 7 else 0 := by
  intro j o hj h
  interval_cases j <;> simp at h <;> simp [← h]
example : ([3, 6] : List Nat).map (fun o => (o : ℝ)) = (([1, 2] : List Nat).map (fun o => (o : ℝ))).map (3 * ·) := by norm_num

end

end Bwsl
