import Verif.Props.NearestSkew
import Verif.Props.BravaisDouble

/-! Property C172: distances on closed lattices with any primitive vectors in double precision. -/

namespace Bwsl
open Spec

section
variable {A : Arith ℝ} {b : Bravais (Num A)} {size : List Nat} {d g : Nat} {P Q : List ℝ} {N : List Int}

/-- Components of primitive vectors that are doubles, and zero or not tiny. -/
def Spec.CoarseEntries (P : List ℝ) : Prop := ∀ p ∈ P, Double p ∧ (p = 0 ∨ (2 : ℝ) ^ (-459 : Int) ≤ |p|)

/-- A bound of the distances between the sites of a lattice and the images next to it: the length of the vector of the sums of
the absolute values of the components of the spanning vectors, twice. -/
noncomputable def Spec.spread (size : List Nat) (P : List ℝ) : ℝ :=
  Spec.length (embedAbs size.length P (size.map (fun n : Nat => 2 * (n : Int))))

theorem Spec.CoarseEntries.normal (h : CoarseEntries P) : NormalEntries P := fun p hp =>
  (h p hp).2.imp_right (le_trans (zpow_le_zpow_right₀ one_le_two (by norm_num)))

theorem Spec.CoarseEntries.mult (h : CoarseEntries P) {p : ℝ} (hp : p ∈ P) : Mult (-511) p := by
  rcases (h p hp).2 with h0 | h0
  · exact ⟨0, by rw [h0]; simp⟩
  refine (double_mult_ulp (h p hp).1).mono ?_
  have := (zpow_lt_zpow_iff_right₀ (one_lt_two (α := ℝ))).1 (h0.trans_lt (abs_lt_ulp p))
  omega

theorem Mult.zero_or {e : Int} {z : ℝ} (h : Mult e z) : z = 0 ∨ (2 : ℝ) ^ e ≤ |z| := by
  obtain ⟨m, rfl⟩ := h
  by_cases h0 : m = 0
  · left; rw [h0]; simp
  right
  rw [abs_mul, abs_of_pos (two_zpow_pos (K := ℝ) e)]
  refine le_mul_of_one_le_left (two_zpow_pos _).le ?_
  rw [← Int.cast_abs]; exact_mod_cast Int.one_le_abs h0

theorem mult_int_mul {e : Int} {x y : ℝ} (hx : Mult 0 x) (hy : Mult e y) : Mult e (x * y) := by
  obtain ⟨m, rfl⟩ := hx
  obtain ⟨n, rfl⟩ := hy
  exact ⟨m * n, by push_cast; rw [zpow_zero]; ring⟩

/-- A scalar product of integers with multiples of a power of 2 is a multiple of it. -/
theorem dot_mult (hA : A.IsBinary64) {e : Int} {n : Nat} {f : Nat → Res (Num A)} {c : Nat → Int} {p : Nat → ℝ}
    (hp : ∀ j, j < n → Mult e (p j)) (hf : ∀ j, j < n → f j = .ok (CxxFloat.ofInt (c j) * .fin (p j))) :
    ∀ m k s, k + m = n → (∀ s', s = .fin s' → Mult e s') → ∀ w, accumulateFrom f s k m = .ok (.fin w) → Mult e w := by
  intro m
  induction m with
  | zero =>
    intro k s _ hs w h
    rw [accumulateFrom, Res.ok.injEq] at h
    exact hs w h
  | succ m ih =>
    intro k s hk hs w h
    rw [accumulateFrom, hf k (by omega), Res.ok_bind] at h
    refine ih (k + 1) _ (by omega) (fun s' hs' => ?_) w h
    obtain ⟨a, q, ha, hq⟩ := Num.add_eq_fin hs'
    rw [ha, hq, Num.fin_add] at hs'
    rw [round_eq_fin hA hs']
    refine rn_mult ((hs a ha).add ?_)
    rw [Num.ofInt_eq] at hq
    obtain ⟨c', hc'⟩ : ∃ c', Num.round A (c k : ℝ) = .fin c' := by
      cases e : Num.round A (c k : ℝ) with
      | fin z => exact ⟨z, rfl⟩
      | nan => rw [e] at hq; cases hq
      | inf n =>
        rw [e] at hq
        have : (Num.inf n * Num.fin (p k) : Num A) = if p k = 0 then .nan else .inf (n != decide (p k < 0)) := rfl
        rw [this] at hq
        split at hq <;> cases hq
    rw [hc', Num.fin_mul] at hq
    rw [round_eq_fin hA hq, round_eq_fin hA hc']
    exact rn_mult (mult_int_mul (rn_mult ⟨c k, by simp⟩) (hp k (by omega)))

theorem vector_mult (hA : A.IsBinary64) (hb : Holds b d g P Q N) {e : Int} (hP : ∀ p ∈ P, Mult e p) {x y : List Int} (h : Near d x y)
    {v : List ℝ} (hv : b.getVector x y = .ok (v.map .fin)) : ∀ z ∈ v, Mult e z := by
  have hd : b.dim = d := by rw [hb.eq]
  have hlv : v.length = d := by have := getVector_length hv; rw [List.length_map, hd] at this; exact this
  rw [getVector_eq (hd ▸ h)] at hv
  obtain ⟨rfl, hs, hPl, hQ, -, -⟩ := hb
  unfold Bravais.getRealSpace at hv
  simp only at hv
  have hl := length_minus h.1 h.2.1
  rw [if_pos hl] at hv
  intro z hz
  obtain ⟨i, hi, rfl⟩ := List.getElem_of_mem hz
  obtain ⟨w, hw, hf⟩ := (mapRange_eq_ok hv).2 i (hlv ▸ hi)
  rw [List.getElem?_map, List.getElem?_eq_getElem hi, Option.map_some, Option.some.injEq] at hw
  subst hw
  unfold accumulate at hf
  rw [Num.zero_eq] at hf
  refine dot_mult hA (e := e) (c := fun j => coord (minus y x) j) (p := fun j => entry d P j i) (fun j hj => ?_) (fun j hj => ?_) d 0 _
    (zero_add _) (fun s' hs' => ?_) _ hf
  · have ho : i + j * d < P.length := by rw [hPl]; exact offset_lt (hlv ▸ hi) hj
    unfold entry
    rw [List.getD_eq_getElem?_getD, List.getElem?_eq_getElem ho]
    exact hP _ (List.getElem_mem ho)
  · rw [subscript_getD (by omega) 0, offset_eq hs (hlv ▸ hi) hj, subscript_fin (by rw [hPl]; exact offset_lt (hlv ▸ hi) hj)]
    rfl
  · cases hs'; exact ⟨0, by simp⟩

/-- Smaller coordinates have smaller sums. -/
theorem embedAbs_mono {c e : List Int} (h : ∀ k, k < d → |coord c k| ≤ coord e k) :
    Spec.length (embedAbs d P c) ≤ Spec.length (embedAbs d P e) := by
  have := length_le_of_abs (r := 1) zero_le_one (w := embedAbs d P c) (a := embedAbs d P e) (by simp [embedAbs]) (fun i => ?_)
  · rwa [one_mul] at this
  rw [one_mul]
  by_cases hi : i < d
  · simp only [embedAbs, List.getD_eq_getElem?_getD, List.getElem?_map, List.getElem?_range hi, Option.map_some, Option.getD_some]
    rw [abs_of_nonneg (Finset.sum_nonneg (fun _ _ => abs_nonneg _))]
    refine Finset.sum_le_sum (fun j hj => ?_)
    rw [abs_mul, abs_mul]
    refine mul_le_mul_of_nonneg_right ?_ (abs_nonneg _)
    have h1 := h j (Finset.mem_range.1 hj)
    have h2 : |(coord c j : ℝ)| ≤ (coord e j : ℝ) := by rw [← Int.cast_abs]; exact_mod_cast h1
    exact h2.trans (le_abs_self _)
  · simp [embedAbs, List.getD_eq_getElem?_getD, List.getElem?_eq_none (show (List.range d).length ≤ i by simpa using hi)]

theorem spread_bound {c m : List Int} (hc : OnGrid c size) (hm : Shell size.length m) :
    Spec.length (embedAbs size.length P (image size c m)) ≤ spread size P := by
  refine embedAbs_mono (fun k hk => ?_)
  have h1 := (onGrid_iff.1 hc).2 k hk
  have h3 := hm.coord k
  rw [coord_image hk]
  have e : coord (size.map (fun n : Nat => 2 * (n : Int))) k = 2 * extent size k := by
    rw [coord_eq (by simpa using hk), List.getElem_map, extent_eq hk]
  rw [e, abs_le]
  have : coord m k = -1 ∨ coord m k = 0 ∨ coord m k = 1 := by omega
  rcases this with h | h | h <;> rw [h] <;> omega

/-- The distance and the vector to an image. -/
theorem image_double (hA : A.IsBinary64) (hq : A.sqrt = Real.sqrt) (hs : Buildable size) (hb : Holds b size.length g P Q N)
    (hP : CoarseEntries P) (hR : spread size P ≤ (2 : ℝ) ^ (509 : Int)) {c m : List Int} (hc : OnGrid c size)
    (hm : Shell size.length m) :
    ∃ (D : ℝ) (v : List ℝ), b.getDistanceVector (crd size 0) (image size c m) = .ok (.fin D, v.map .fin) ∧
      v.length = size.length ∧ l2norm (v.map (Num.fin (A := A))) = .fin D ∧
      |D - reach size P c m| ≤ ((1 + 1 / 2 ^ 53) ^ (2 * size.length + 5) - 1) * spread size P ∧
      (∀ i, i < size.length → |v.getD i 0 - (embed size.length P (image size c m)).getD i 0| ≤
        ((1 + 1 / 2 ^ 53) ^ (size.length + 2) - 1) * (embedAbs size.length P (image size c m)).getD i 0) := by
  have hn := image_near hs hc hm
  have hsp := spread_bound (P := P) hc hm
  have hmin : minus (image size c m) (crd size 0) = image size c m := minus_origin (length_image ..)
  obtain ⟨v, hv, hfin⟩ := C140_finite hA hq hb hP.normal (crd size 0) (image size c m) hn (by rw [hmin]; exact hsp.trans hR)
  have hz : ∀ z ∈ v, z = 0 ∨ (2 : ℝ) ^ (-511 : Int) ≤ |z| := fun z hz =>
    (vector_mult hA hb (fun p hp => hP.mult hp) hn hv z hz).zero_or
  obtain ⟨D, hD⟩ := hfin hz
  have hd : b.dim = size.length := by rw [hb.eq]
  have hlv : v.length = size.length := by have := getVector_length hv; rw [List.length_map, hd] at this; exact this
  obtain ⟨n1, n2⟩ := C140_norm b _ _ _ hv
  rw [hD, Res.ok.injEq] at n1
  refine ⟨D, v, by rw [n2, ← n1], hlv, n1.symm, ?_, fun i hi => ?_⟩
  · have := C140_distance hA hq hb hP.normal _ _ hn v hv hz D hD
    rw [hmin] at this
    refine this.trans (mul_le_mul_of_nonneg_left hsp ?_)
    have := one_le_pow₀ (M₀ := ℝ) (a := 1 + 1 / 2 ^ 53) (n := 2 * size.length + 5) (by norm_num)
    linarith
  · have := C140_components hA hb hP.normal _ _ hn _ hv i hi (v[i]'(hlv ▸ hi)) (by
      rw [List.getElem?_map, List.getElem?_eq_getElem (hlv ▸ hi)]; rfl)
    rw [hmin] at this
    rw [List.getD_eq_getElem?_getD (l := v), List.getElem?_eq_getElem (hlv ▸ hi), Option.getD_some]
    exact this

/-- `GetVector` and `GetDistance` on a closed lattice in double precision: a computed distance to an image, and the least of
those to the images of the first shell. -/
theorem closed_double (hA : A.IsBinary64) (hq : A.sqrt = Real.sqrt) (hs : Buildable size) (hb : Holds b size.length g P Q N)
    (hr : Regular b size.length) (hP : CoarseEntries P) (hR : spread size P ≤ (2 : ℝ) ^ (509 : Int)) {l : Lattice (Num A)}
    (hl : Lattice.new b size .closed = .ok l) {x y : Nat} (hx : x < size.prod) (hy : y < size.prod) :
    ∃ (m : List Int) (D : ℝ) (v : List ℝ), Shell size.length m ∧ (l.getVector x y = .ok (v.map .fin) ∧ v.length = size.length) ∧
      l.getDistance x y = .ok (.fin D) ∧
      |D - reach size P (wrap size (minus (crd size y) (crd size x))) m| ≤
        ((1 + 1 / 2 ^ 53) ^ (2 * size.length + 5) - 1) * spread size P ∧
      (∀ i, i < size.length → |v.getD i 0 -
          (embed size.length P (image size (wrap size (minus (crd size y) (crd size x))) m)).getD i 0| ≤
        ((1 + 1 / 2 ^ 53) ^ (size.length + 2) - 1) *
          (embedAbs size.length P (image size (wrap size (minus (crd size y) (crd size x))) m)).getD i 0) ∧
      ∀ m', Shell size.length m' → D ≤ reach size P (wrap size (minus (crd size y) (crd size x))) m' +
        ((1 + 1 / 2 ^ 53) ^ (2 * size.length + 5) - 1) * spread size P := by
  have hd := dims_of_ok hs hr hl
  have himg : ∀ i m, i < size.prod → Shell size.length m → ∃ (D : ℝ) (v : List ℝ),
      b.getDistanceVector (crd size 0) (image size (crd size i) m) = .ok (.fin D, v.map .fin) ∧ v.length = size.length ∧
      l2norm (v.map (Num.fin (A := A))) = .fin D ∧
      |D - reach size P (crd size i) m| ≤ ((1 + 1 / 2 ^ 53) ^ (2 * size.length + 5) - 1) * spread size P ∧
      (∀ k, k < size.length → |v.getD k 0 - (embed size.length P (image size (crd size i) m)).getD k 0| ≤
        ((1 + 1 / 2 ^ 53) ^ (size.length + 2) - 1) * (embedAbs size.length P (image size (crd size i) m)).getD k 0) :=
    fun i m hi hm => image_double hA hq hs hb hP hR (crd_onGrid hs.1.1 hi) hm
  choose! Df vf hDf hlf hnf hef hcf using himg
  obtain ⟨vs, h1, h2, h3⟩ := computeVectors_closed hs hr hd
    (fun i k s => ∃ m, Shell size.length m ∧ s = (.fin (Df i m), (vf i m).map .fin) ∧
      ∀ j, j < k → Df i m ≤ Df i (shell size.length j))
    (fun i r hi hr => by
      have hc := crd_onGrid hs.1.1 hi
      have := hDf i _ hi (shell_zero _)
      rw [image_zero (onGrid_length hc), hr, Res.ok.injEq] at this
      exact ⟨_, shell_zero _, this, fun j hj => absurd hj (by omega)⟩)
    (fun i k s r hi hk hI hr => by
      rw [hDf i _ hi (shell_mem hk), Res.ok.injEq] at hr
      obtain ⟨m, hm, rfl, hmin⟩ := hI
      subst hr
      simp only [Num.lt_fin, decide_eq_true_eq]
      by_cases hlt : Df i (shell size.length k) < Df i m
      · rw [if_pos hlt]
        refine ⟨_, shell_mem hk, rfl, fun j hj => ?_⟩
        rcases Nat.lt_succ_iff_lt_or_eq.1 hj with h | rfl
        · exact le_trans hlt.le (hmin j h)
        · exact le_rfl
      · rw [if_neg hlt]
        refine ⟨m, hm, rfl, fun j hj => ?_⟩
        rcases Nat.lt_succ_iff_lt_or_eq.1 hj with h | rfl
        · exact hmin j h
        · exact not_lt.1 hlt)
  have hv := (new_parts hl).2.2.1
  rw [h1, Res.ok.injEq] at hv
  obtain ⟨s, hs1, hs2, hs3⟩ := mapped_closed hs hx hy
  have hi' : s < vs.length := h2 ▸ hs1
  obtain ⟨D, m, hm, he, hmin⟩ := h3 s _ (List.getElem?_eq_getElem hi')
  simp only [Prod.mk.injEq] at he
  have hvs : l.vectors[s]? = some ((vf s m).map .fin) := by rw [← hv, List.getElem?_eq_getElem hi', he.2]
  have hg := (new_parts hl).1
  refine ⟨m, Df s m, vf s m, hm, ⟨?_, hlf s m hs1 hm⟩, ?_, hs3 ▸ hef s m hs1 hm, hs3 ▸ hcf s m hs1 hm, fun m' hm' => ?_⟩
  · unfold Lattice.getVector
    rw [indexIsValid_eq hs hl hx, indexIsValid_eq hs hl hy, Bool.and_self, if_pos rfl, hg, hs2, Res.ok_bind, subscript_ok hvs]
  · unfold Lattice.getDistance
    rw [indexIsValid_eq hs hl hx, indexIsValid_eq hs hl hy, Bool.and_self, if_pos rfl, hg, hs2, Res.ok_bind,
      (new_parts hl).2.2.2.1]
    refine subscript_ok ?_
    unfold Lattice.computeDistances
    rw [List.getElem?_map, hvs, Option.map_some, ← hnf s m hs1 hm]
    unfold l2norm sumSquared
    rw [Num.ofInt_eq, Int.cast_zero, fin_zero hA, Num.zero_eq]
  · obtain ⟨k, hk, rfl⟩ := shell_surj hm'
    have := hmin k hk
    have h4 := abs_le.1 (hef s _ hs1 (shell_mem hk))
    rw [hs3] at h4
    linarith

/-- The computed distances are close to the least distances over all images, and so are the lengths of the images whose vectors
are returned, if the images that are tried suffice. -/
structure NearlyNearest (size : List Nat) (P : List ℝ) (l : Lattice (Num A)) (e : ℝ) : Prop where
  distance : ∀ x y cx cy D, x < size.prod → y < size.prod → l.grid.getCoordinates x = .ok cx → l.grid.getCoordinates y = .ok cy →
    IsLeast (imageDistances size P cx cy) D → ∃ D', l.getDistance x y = .ok (.fin D') ∧ |D' - D| ≤ e
  attained : ∀ x y cx cy, x < size.prod → y < size.prod → l.grid.getCoordinates x = .ok cx → l.grid.getCoordinates y = .ok cy →
    ∃ D, IsLeast (imageDistances size P cx cy) D
  vector : ∀ x y cx cy D, x < size.prod → y < size.prod → l.grid.getCoordinates x = .ok cx → l.grid.getCoordinates y = .ok cy →
    IsLeast (imageDistances size P cx cy) D → ∃ (v : List ℝ) (m : List Int), l.getVector x y = .ok (v.map .fin) ∧
      v.length = size.length ∧ m.length = size.length ∧ imageDistance size P cx cy m ≤ D + 2 * e ∧ ∀ i, i < size.length →
      |v.getD i 0 - (embed size.length P (minus (image size cy m) cx)).getD i 0| ≤
        ((1 + 1 / 2 ^ 53) ^ (size.length + 2) - 1) * (embedAbs size.length P (minus (image size cy m) cx)).getD i 0

theorem nearlyNearest (hA : A.IsBinary64) (hq : A.sqrt = Real.sqrt) (hs : Buildable size) (hb : Holds b size.length g P Q N)
    (hr : Regular b size.length) (hP : CoarseEntries P) (hR : spread size P ≤ (2 : ℝ) ^ (509 : Int)) (hS : ShellSuffices size P)
    {l : Lattice (Num A)} (hl : Lattice.new b size .closed = .ok l) :
    NearlyNearest size P l (((1 + 1 / 2 ^ 53) ^ (2 * size.length + 5) - 1) * spread size P) := by
  have hcrd : ∀ {x cx}, x < size.prod → l.grid.getCoordinates x = .ok cx → cx = crd size x := by
    intro x cx hx hcx
    rw [(new_parts hl).1, getCoordinates_eq hs.1 (buildable_fits hs) .closed hx, Res.ok.injEq] at hcx
    exact hcx.symm
  have hlen : ∀ {x}, x < size.prod → (crd size x).length = size.length := fun hx => onGrid_length (crd_onGrid hs.1.1 hx)
  have hset : ∀ {x y}, x < size.prod → y < size.prod → ∀ m, m.length = size.length →
      ∃ m', m'.length = size.length ∧ reach size P (wrap size (minus (crd size y) (crd size x))) m' =
        imageDistance size P (crd size x) (crd size y) m := by
    intro x y hx hy m hm
    refine ⟨tab size.length (fun k => coord m k + coord (minus (crd size y) (crd size x)) k / extent size k), length_tab .., ?_⟩
    unfold imageDistance reach
    rw [minus_image (hlen hx) (hlen hy), image_wrap (length_minus (hlen hx) (hlen hy))]
  have hset' : ∀ {x y}, x < size.prod → y < size.prod → ∀ m,
      minus (image size (crd size y) (tab size.length (fun k => coord m k - coord (minus (crd size y) (crd size x)) k / extent size k)))
        (crd size x) = image size (wrap size (minus (crd size y) (crd size x))) m := by
    intro x y hx hy m
    rw [minus_image (hlen hx) (hlen hy), wrap_image (length_minus (hlen hx) (hlen hy))]
  have key : ∀ {x y D}, x < size.prod → y < size.prod → IsLeast (imageDistances size P (crd size x) (crd size y)) D →
      ∃ m, Shell size.length m ∧ reach size P (wrap size (minus (crd size y) (crd size x))) m ≤ D := by
    intro x y D hx hy hD
    obtain ⟨⟨n, hn, rfl⟩, -⟩ := hD
    obtain ⟨n', hn', he⟩ := hset hx hy n hn
    obtain ⟨m, hm, hle⟩ := hS _ (wrap_onGrid hs.1.1 (length_minus (hlen hx) (hlen hy))) n' hn'
    exact ⟨m, hm, he ▸ hle⟩
  have low : ∀ {x y D}, x < size.prod → y < size.prod → IsLeast (imageDistances size P (crd size x) (crd size y)) D → ∀ m,
      D ≤ reach size P (wrap size (minus (crd size y) (crd size x))) m := by
    intro x y D hx hy hD m
    refine hD.2 ⟨_, length_tab size.length (fun k => coord m k - coord (minus (crd size y) (crd size x)) k / extent size k), ?_⟩
    unfold imageDistance reach
    rw [hset' hx hy m]
  constructor
  · intro x y cx cy D hx hy hcx hcy hD
    obtain rfl := hcrd hx hcx
    obtain rfl := hcrd hy hcy
    obtain ⟨m, D', v, hm, -, h1, h2, -, h3⟩ := closed_double hA hq hs hb hr hP hR hl hx hy
    obtain ⟨m', hm', h4⟩ := key hx hy hD
    refine ⟨D', h1, abs_le.2 ⟨?_, ?_⟩⟩
    · have := low hx hy hD m
      have := (abs_le.1 h2).1
      linarith
    · have := h3 m' hm'
      linarith
  · intro x y cx cy hx hy hcx hcy
    obtain rfl := hcrd hx hcx
    obtain rfl := hcrd hy hcy
    have hfinite : (Finset.range (3 ^ size.length)).Nonempty := ⟨0, Finset.mem_range.2 (by positivity)⟩
    obtain ⟨k, hk, hmin⟩ := Finset.exists_min_image (Finset.range (3 ^ size.length))
      (fun k => reach size P (wrap size (minus (crd size y) (crd size x))) (shell size.length k)) hfinite
    refine ⟨reach size P (wrap size (minus (crd size y) (crd size x))) (shell size.length k), ⟨_,
      length_tab size.length (fun j => coord (shell size.length k) j - coord (minus (crd size y) (crd size x)) j / extent size j),
      ?_⟩, ?_⟩
    · unfold imageDistance reach
      rw [hset' hx hy]
    · rintro r ⟨n, hn, rfl⟩
      obtain ⟨n', hn', he⟩ := hset hx hy n hn
      obtain ⟨m, hm, hle⟩ := hS _ (wrap_onGrid hs.1.1 (length_minus (hlen hx) (hlen hy))) n' hn'
      obtain ⟨j, hj, rfl⟩ := shell_surj hm
      rw [← he]
      exact (hmin j (Finset.mem_range.2 hj)).trans hle
  · intro x y cx cy D hx hy hcx hcy hD
    obtain rfl := hcrd hx hcx
    obtain rfl := hcrd hy hcy
    obtain ⟨m, D', v, hm, ⟨h0, hlv⟩, h1, h2, h5, h3⟩ := closed_double hA hq hs hb hr hP hR hl hx hy
    obtain ⟨m', hm', h4⟩ := key hx hy hD
    refine ⟨v, _, h0, hlv, length_tab size.length (fun k => coord m k - coord (minus (crd size y) (crd size x)) k / extent size k), ?_, ?_⟩
    · unfold imageDistance
      rw [hset' hx hy m]
      have := h3 m' hm'
      have := (abs_le.1 h2).1
      unfold reach at *
      linarith
    · rw [hset' hx hy m]
      exact h5

/-- C172.  In double precision, on a closed lattice with two linearly independent primitive vectors under the condition of
C171, `GetDistance` differs from the least distance over all periodic images by at most nine roundings of the extent of the
lattice, and `GetVector` is the vector to an image that is within twice this of being nearest. -/
theorem C172_plane (hA : A.IsBinary64) (hq : A.sqrt = Real.sqrt) (L M : Nat) (hs : Buildable [L, M]) (p q r s : ℝ)
    (hb : Holds b 2 g [p, q, r, s] Q N) (hr : Regular b 2) (hP : CoarseEntries [p, q, r, s])
    (hR : spread [L, M] [p, q, r, s] ≤ (2 : ℝ) ^ (509 : Int)) (hdet : p * s - q * r ≠ 0) (h : Moderate L M p q r s)
    (l : Lattice (Num A)) (hl : Lattice.new b [L, M] .closed = .ok l) :
    NearlyNearest [L, M] [p, q, r, s] l (((1 + 1 / 2 ^ 53) ^ 9 - 1) * spread [L, M] [p, q, r, s]) :=
  nearlyNearest hA hq hs (size := [L, M]) hb hr hP hR (moderate_shell (hs.1.1 L (by simp)) (hs.1.1 M (by simp)) hdet h) hl

/-- The same in any dimension, if twice the sum of the scalar products of each spanning vector with the others is at most its
square; in particular for orthogonal primitive vectors. -/
theorem C172_dominant (hA : A.IsBinary64) (hq : A.sqrt = Real.sqrt) (hs : Buildable size) (hb : Holds b size.length g P Q N)
    (hr : Regular b size.length) (hP : CoarseEntries P) (hR : spread size P ≤ (2 : ℝ) ^ (509 : Int)) (h : Dominant size P)
    (l : Lattice (Num A)) (hl : Lattice.new b size .closed = .ok l) :
    NearlyNearest size P l (((1 + 1 / 2 ^ 53) ^ (2 * size.length + 5) - 1) * spread size P) :=
  nearlyNearest hA hq hs hb hr hP hR (dominant_shell hs.1.1 h) hl

/-- Without any condition on the angles, `GetDistance` is within the same error of the least distance over the images next to
the lattice. -/
theorem C172_shell (hA : A.IsBinary64) (hq : A.sqrt = Real.sqrt) (hs : Buildable size) (hb : Holds b size.length g P Q N)
    (hr : Regular b size.length) (hP : CoarseEntries P) (hR : spread size P ≤ (2 : ℝ) ^ (509 : Int)) (l : Lattice (Num A))
    (hl : Lattice.new b size .closed = .ok l) (x y : Nat) (hx : x < size.prod) (hy : y < size.prod) :
    ∃ (m : List Int) (D : ℝ), Shell size.length m ∧ l.getDistance x y = .ok (.fin D) ∧
      |D - reach size P (wrap size (minus (crd size y) (crd size x))) m| ≤
        ((1 + 1 / 2 ^ 53) ^ (2 * size.length + 5) - 1) * spread size P ∧
      ∀ m', Shell size.length m' → D ≤ reach size P (wrap size (minus (crd size y) (crd size x))) m' +
        ((1 + 1 / 2 ^ 53) ^ (2 * size.length + 5) - 1) * spread size P := by
  obtain ⟨m, D, v, h1, -, h2, h3, -, h4⟩ := closed_double hA hq hs hb hr hP hR hl hx hy
  exact ⟨m, D, h1, h2, h3, h4⟩

/-- The hypotheses of C172 can be met: an oblique lattice of 6 sites. -/
example (A : Arith ℝ) : ∃ b : Bravais (Num A), ∃ Q : List ℝ, ∃ l, Holds b 2 2 [1, 0, 1 / 2, 3 / 4] Q [1, 0] ∧ Regular b 2 ∧
    Buildable [2, 3] ∧ CoarseEntries [1, 0, 1 / 2, 3 / 4] ∧ spread [2, 3] [1, 0, 1 / 2, 3 / 4] ≤ (2 : ℝ) ^ (509 : Int) ∧
    (1 : ℝ) * (3 / 4) - 0 * (1 / 2) ≠ 0 ∧ Moderate 2 3 1 0 (1 / 2) (3 / 4) ∧ Lattice.new b [2, 3] .closed = .ok l := by
  have hr : Regular (⟨2, 2, [1, 0, 1 / 2, 3 / 4].map .fin, [1, -(2 / 3), 0, 4 / 3].map .fin, [1, 0]⟩ : Bravais (Num A)) 2 :=
    ⟨⟨rfl, by show 2 % 2 = 0; norm_num, by show [1, 0].length = 2 / 2 * 2; norm_num, by show 2 / 2 * 2 < 2 ^ 64; decide,
      by show ∀ v ∈ ([1, 0] : List Int), -2 ^ 62 ≤ v ∧ v ≤ 2 ^ 62; decide⟩, by decide, rfl, rfl⟩
  have hs : Buildable [2, 3] := ⟨⟨by decide, by decide⟩, by decide⟩
  obtain ⟨l, hl⟩ := new_isOk hs hr .closed (by decide)
  refine ⟨_, [1, -(2 / 3), 0, 4 / 3], l, ⟨rfl, by norm_num, rfl, rfl, rfl, by norm_num⟩, hr, hs, ?_, ?_, by norm_num, ⟨?_, ?_⟩, hl⟩
  · have hh : (2 : ℝ) ^ (-459 : Int) ≤ 1 / 2 := by
      refine (zpow_le_zpow_right₀ one_le_two (show (-459 : Int) ≤ -1 by norm_num)).trans (by norm_num)
    intro p hp
    simp only [List.mem_cons, List.not_mem_nil, or_false] at hp
    rcases hp with rfl | rfl | rfl | rfl
    · exact ⟨⟨1, 0, by norm_num, by norm_num, by norm_num⟩, .inr (by rw [abs_one]; exact hh.trans (by norm_num))⟩
    · exact ⟨double_zero, .inl rfl⟩
    · exact ⟨⟨1, -1, by norm_num, by norm_num, by norm_num⟩, .inr (by rw [abs_of_pos (by norm_num)]; exact hh)⟩
    · exact ⟨⟨3, -2, by norm_num, by norm_num, by norm_num⟩, .inr (by rw [abs_of_pos (by norm_num)]; exact hh.trans (by norm_num))⟩
  · refine le_trans (b := (2 : ℝ) ^ (10 : Int)) ?_ (zpow_le_zpow_right₀ one_le_two (by norm_num))
    unfold spread Spec.length
    rw [Real.sqrt_le_left (by norm_num)]
    simp only [List.length_cons, List.length_nil, zero_add, Nat.reduceAdd, embedAbs, coord, entry, List.range_succ, List.range_zero,
      Finset.sum_range_succ, Finset.sum_range_zero]
    norm_num [abs_of_pos]
  · rw [abs_of_nonneg (by norm_num)]; norm_num
  · rw [abs_of_nonneg (by norm_num)]; norm_num

end
end Bwsl
