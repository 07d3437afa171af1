import Verif.Props.SkDouble
import Verif.Props.Norm

/-! Property C140: vectors and distances of Bravais lattices in double precision. -/

namespace Bwsl
open Spec

section
variable {F : Type} [CxxFloat F]

theorem accumulate_squares (p : List F) (a : F) (k m : Nat) (h : k + m = p.length) :
    accumulateFrom (fun i => do let x ← subscript p i; .ok (squareF x)) a k m =
      .ok ((p.drop k).foldl (fun d x => d + squareF x) a) := by
  induction m generalizing a k with
  | zero => rw [accumulateFrom, List.drop_of_length_le (by omega), List.foldl_nil]
  | succ m ih =>
    have hk : k < p.length := by omega
    rw [accumulateFrom, subscript_isOk hk, Res.ok_bind, Res.ok_bind, ih _ _ (by omega), List.drop_eq_getElem_cons hk,
      List.foldl_cons]

theorem getRealSpace_length {b : Bravais F} {c : List Int} {v : List F} (h : b.getRealSpace c = .ok v) : v.length = b.dim := by
  unfold Bravais.getRealSpace at h
  split at h
  · exact (mapRange_eq_ok h).1
  · cases h

theorem getVector_length {b : Bravais F} {x y : List Int} {v : List F} (h : b.getVector x y = .ok v) : v.length = b.dim := by
  obtain ⟨p, -, h2⟩ := Res.bind_eq_ok.1 h
  exact getRealSpace_length h2

end

/-- C140.  In any arithmetic, `GetDistance` is `l2norm` of `GetVector`, and `GetDistanceVector` returns both. -/
theorem C140_norm {F : Type} [CxxFloat F] (b : Bravais F) (x y : List Int) (v : List F) (h : b.getVector x y = .ok v) :
    b.getDistance x y = .ok (l2norm v) ∧ b.getDistanceVector x y = .ok (l2norm v, v) := by
  have hl := getVector_length h
  have e := accumulate_squares v CxxFloat.zero 0 b.dim (by omega)
  unfold Bravais.getDistance Bravais.getDistanceVector accumulate
  rw [h, Res.ok_bind, Res.ok_bind, e, Res.ok_bind, Res.ok_bind]
  exact ⟨rfl, rfl⟩

section
variable {A : Arith ℝ} {b : Bravais (Num A)} {d g : Nat} {P Q : List ℝ} {N : List Int}

theorem ofInt_neg (hA : A.IsBinary64) (n : Int) : (CxxFloat.ofInt (-n) : Num A) = -CxxFloat.ofInt n := by
  rw [Num.ofInt_eq, Num.ofInt_eq, ← round_neg hA]
  push_cast; rfl

theorem getRealSpace_neg (hA : A.IsBinary64) {c : List Int} {v : List (Num A)} (h : b.getRealSpace c = .ok v) :
    b.getRealSpace (c.map (- ·)) = .ok (v.map (- ·)) := by
  unfold Bravais.getRealSpace at h ⊢
  split at h
  swap
  · cases h
  rename_i hc
  rw [if_pos (by simpa using hc)]
  obtain ⟨h1, h2⟩ := mapRange_eq_ok h
  rw [mapRange_ok (g := fun i => -(v.getD i .nan))]
  · congr 1
    refine List.ext_getElem (by simp [h1]) (fun i hi1 hi2 => ?_)
    have hi : i < v.length := by simpa using hi2
    simp [List.getD_eq_getElem?_getD, List.getElem?_eq_getElem hi]
  · intro i hi
    obtain ⟨z, hz, hf⟩ := h2 i hi
    rw [List.getD_eq_getElem?_getD, hz]
    refine accumulate_neg hA hf (fun j hj w hw => ?_)
    obtain ⟨cj, e1, hw⟩ := Res.bind_eq_ok.1 hw
    obtain ⟨p, e2, hw⟩ := Res.bind_eq_ok.1 hw
    rw [Res.ok.injEq] at hw
    rw [subscript_ok (x := -cj) (by rw [List.getElem?_map, getElem_of_subscript e1]; rfl), Res.ok_bind, e2, Res.ok_bind, ofInt_neg hA,
      neg_mul_num hA, hw]

theorem minus_swap {x y : List Int} (h : x.length = y.length) : minus x y = (minus y x).map (- ·) := by
  unfold minus
  refine List.ext_getElem (by simp [h]) (fun i h1 h2 => ?_)
  simp

theorem squareF_neg (hA : A.IsBinary64) (x : Num A) : squareF (-x) = squareF x := by
  unfold squareF
  rw [neg_mul_num hA, mul_neg_num hA]
  cases x * x with
  | nan => rfl
  | inf n => cases n <;> rfl
  | fin x => show Num.fin (- -x) = _; rw [neg_neg]

theorem l2norm_neg (hA : A.IsBinary64) (v : List (Num A)) : l2norm (v.map (- ·)) = l2norm v := by
  unfold l2norm
  rw [List.foldl_map]
  congr 2
  funext d x
  rw [squareF_neg hA]

/-- C140.  In double precision, whatever the primitive vectors are - infinities and NaN included - exchanging the points reverses
`GetVector` and leaves `GetDistance` alone, bit for bit. -/
theorem C140_symmetric (hA : A.IsBinary64) (x y : List Int) (hxy : Near b.dim x y) (hyx : Near b.dim y x) (v : List (Num A))
    (h : b.getVector x y = .ok v) :
    b.getVector y x = .ok (v.map (- ·)) ∧ b.getDistance y x = b.getDistance x y := by
  have h1 : b.getVector y x = .ok (v.map (- ·)) := by
    rw [getVector_eq hyx, minus_swap (hxy.1.trans hxy.2.1.symm)]
    rw [getVector_eq hxy] at h
    exact getRealSpace_neg hA h
  refine ⟨h1, ?_⟩
  rw [(C140_norm b y x _ h1).1, (C140_norm b x y _ h).1, l2norm_neg hA]

/-- C140.  The opposite coordinates have the opposite position and the opposite reciprocal vector, bit for bit. -/
theorem C140_opposite (hA : A.IsBinary64) (c : List Int) (hc : ∀ z ∈ c, 2 * z ≠ -2 ^ 63) (v : List (Num A)) :
    (b.getRealSpace c = .ok v → b.getRealSpace (c.map (- ·)) = .ok (v.map (- ·))) ∧
    (b.getReciprocalSpace c = .ok v → b.getReciprocalSpace (c.map (- ·)) = .ok (v.map (- ·))) := by
  refine ⟨getRealSpace_neg hA, fun h => ?_⟩
  unfold Bravais.getReciprocalSpace at h ⊢
  split at h
  swap
  · cases h
  rename_i hl
  rw [if_pos (by simpa using hl)]
  obtain ⟨h1, h2⟩ := mapRange_eq_ok h
  rw [mapRange_ok (g := fun i => -(v.getD i .nan))]
  · congr 1
    refine List.ext_getElem (by simp [h1]) (fun i hi1 hi2 => ?_)
    have hi : i < v.length := by simpa using hi2
    simp [List.getD_eq_getElem?_getD, List.getElem?_eq_getElem hi]
  · intro i hi
    obtain ⟨z, hz, hf⟩ := h2 i hi
    rw [List.getD_eq_getElem?_getD, hz]
    refine accumulate_neg hA hf (fun j hj w hw => ?_)
    obtain ⟨cj, e1, hw⟩ := Res.bind_eq_ok.1 hw
    obtain ⟨c2, e0, hw⟩ := Res.bind_eq_ok.1 hw
    obtain ⟨p, e2, hw⟩ := Res.bind_eq_ok.1 hw
    rw [Res.ok.injEq] at hw
    obtain ⟨e3, rfl⟩ := long_eq_ok.1 e0
    have hm : cj ∈ c := List.mem_of_getElem? (getElem_of_subscript e1)
    have := hc cj hm
    rw [subscript_ok (x := -cj) (by rw [List.getElem?_map, getElem_of_subscript e1]; rfl), Res.ok_bind, lmul, long_ok (by comega),
      Res.ok_bind, e2, Res.ok_bind, show -cj * 2 = -(cj * 2) by ring, ofInt_neg hA, neg_mul_num hA, neg_mul_num hA, hw]

/-- C140.  `GetDistance` is never negative, and it is not NaN unless a component of `GetVector` is NaN or infinite. -/
theorem C140_nonneg (hA : A.IsBinary64) (hq : A.sqrt = Real.sqrt) (x y : List Int) (D : Num A) (h : b.getDistance x y = .ok D) :
    (D = .nan ∨ D = .inf false ∨ ∃ r, D = .fin r ∧ 0 ≤ r) ∧
    ∀ v : List ℝ, b.getVector x y = .ok (v.map .fin) → D ≠ .nan := by
  constructor
  · unfold Bravais.getDistance at h
    obtain ⟨p, -, h⟩ := Res.bind_eq_ok.1 h
    obtain ⟨s, -, h⟩ := Res.bind_eq_ok.1 h
    rw [Res.ok.injEq] at h
    subst h
    cases s with
    | nan => exact .inl rfl
    | inf n => cases n with
      | false => exact .inr (.inl rfl)
      | true => exact .inl rfl
    | fin z =>
      by_cases hz : 0 ≤ z
      · rcases nonneg_round hA (Real.sqrt_nonneg z) with e | ⟨r, e, -, e0⟩
        · right; left; rw [Num.sqrt_fin hz, hq, e]
        · right; right; exact ⟨r, by rw [Num.sqrt_fin hz, hq, e], e0⟩
      · left; exact Num.sqrt_neg (not_le.1 hz)
  · intro v hv
    rw [(C140_norm b x y _ hv).1, Res.ok.injEq] at h
    subst h
    rcases C99_nonneg hA hq v with e | ⟨r, e, -⟩ <;> rw [e] <;> nofun

theorem getRealSpace_zero (hA : A.IsBinary64) (hb : Holds b d g P Q N) :
    b.getRealSpace (List.replicate d 0) = .ok (List.replicate d (.fin 0)) := by
  obtain ⟨rfl, hs, hP, hQ, -, -⟩ := hb
  unfold Bravais.getRealSpace
  simp only
  rw [if_pos (by simp), mapRange_ok (g := fun _ => .fin 0)]
  · simp
  · intro i hi
    have key : ∀ m k, k + m = d → accumulateFrom (fun j => do
        let c ← subscript (List.replicate d (0 : Int)) j
        let p ← subscript (P.map (Num.fin (A := A))) (uadd i (umul j d))
        .ok (CxxFloat.ofInt c * p)) (.fin 0) k m = .ok (.fin 0) := by
      intro m
      induction m with
      | zero => intro k _; rfl
      | succ m ih =>
        intro k hk
        rw [accumulateFrom, subscript_ok (x := 0) (by rw [List.getElem?_replicate, if_pos (by omega)]), offset_eq hs hi (by omega),
          subscript_fin (by rw [hP]; exact offset_lt hi (by omega))]
        simp only [Res.ok_bind, Num.ofInt_eq, Int.cast_zero, fin_zero hA, Num.fin_mul, zero_mul, Num.fin_add, add_zero]
        exact ih (k + 1) (by omega)
    exact key d 0 (by omega)

/-- C140.  With finite primitive vectors a point is at distance 0 from itself. -/
theorem C140_same (hA : A.IsBinary64) (hq : A.sqrt = Real.sqrt) (hb : Holds b d g P Q N) (x : List Int) (hx : x.length = d) :
    b.getDistance x x = .ok (.fin 0) := by
  have hd : b.dim = d := by rw [hb.eq]
  have hm : minus x x = List.replicate d 0 := by
    refine List.ext_getElem (by simp [minus, hx]) (fun i h1 h2 => ?_)
    simp [minus]
  have hn : Near b.dim x x := ⟨hx.trans hd.symm, hx.trans hd.symm, by
    rw [hm]; intro z hz; rw [List.eq_of_mem_replicate hz]; norm_num⟩
  have hv : b.getVector x x = .ok (List.replicate d (.fin 0)) := by rw [getVector_eq hn, hm, getRealSpace_zero hA hb]
  rw [(C140_norm b x x _ hv).1]
  unfold l2norm
  have key : ∀ n : Nat, (List.replicate n (.fin 0 : Num A)).foldl (fun d x => d + squareF x) (.fin 0) = .fin 0 := by
    intro n
    induction n with
    | zero => rfl
    | succ n ih =>
      rw [List.replicate_succ, List.foldl_cons, squareF, Num.fin_mul, zero_mul, fin_zero hA, Num.fin_add, add_zero, fin_zero hA, ih]
  rw [Num.zero_eq, key, Num.sqrt_fin le_rfl, hq, Real.sqrt_zero, fin_zero hA]

/-! ### Accuracy -/

theorem round_eq_fin (hA : A.IsBinary64) {x y : ℝ} (h : Num.round A x = .fin y) : y = rn x := by
  unfold Num.round at h
  rw [hA, rnd64] at h
  split at h
  · rename_i e
    split at e
    · cases e; cases h; rfl
    · cases e
  · cases h

/-- A term of a scalar product: the integer and the product are rounded. -/
theorem dot_term (hA : A.IsBinary64) {c : Int} {p q : ℝ} (hp : p = 0 ∨ (2 : ℝ) ^ (-1022 : Int) ≤ |p|)
    (h : (CxxFloat.ofInt c * .fin p : Num A) = .fin q) :
    Double q ∧ |q - c * p| ≤ ((1 + 1 / 2 ^ 53) ^ 2 - 1) * |c * p| := by
  have hc := rn_rel' (x := (c : ℝ)) (by
    by_cases h0 : c = 0
    · left; exact_mod_cast h0
    · right
      have : (1 : ℝ) ≤ |(c : ℝ)| := by
        rw [← Int.cast_abs]; exact_mod_cast Int.one_le_abs h0
      refine le_trans ?_ this
      exact zpow_le_one_of_nonpos₀ (by norm_num) (by norm_num))
  rw [Num.ofInt_eq] at h
  obtain ⟨c', hc'⟩ : ∃ c', Num.round A (c : ℝ) = .fin c' := by
    cases e : Num.round A (c : ℝ) with
    | fin z => exact ⟨z, rfl⟩
    | nan => rw [e] at h; cases h
    | inf n =>
      rw [e] at h
      have : (Num.inf n * Num.fin p : Num A) = if p = 0 then .nan else .inf (n != decide (p < 0)) := rfl
      rw [this] at h
      split at h <;> cases h
  rw [hc', Num.fin_mul] at h
  obtain rfl := round_eq_fin hA hc'
  obtain rfl := round_eq_fin hA h
  refine ⟨rn_isDouble _, ?_⟩
  have hq : |rn (c : ℝ) * p - rn (rn (c : ℝ) * p)| ≤ |rn (c : ℝ) * p| / 2 ^ 53 := by
    apply rn_rel'
    rcases hp with hp | hp
    · left; rw [hp, mul_zero]
    by_cases h0 : c = 0
    · left; rw [h0, Int.cast_zero, rn_zero, zero_mul]
    right
    rw [abs_mul]
    have h1 : (1 : ℝ) ≤ |rn (c : ℝ)| := by
      have d1 : Double (1 : ℝ) := ⟨1, 0, by norm_num, by norm_num, by simp⟩
      rcases lt_or_gt_of_ne h0 with hneg | hpos
      · have := rn_mono (show (c : ℝ) ≤ -1 by exact_mod_cast (by omega : c ≤ -1))
        rw [rn_neg, rn_double d1] at this
        rw [abs_of_nonpos (by linarith)]; linarith
      · have := rn_mono (show (1 : ℝ) ≤ c by exact_mod_cast (by omega : 1 ≤ c))
        rw [rn_double d1] at this
        exact this.trans (le_abs_self _)
    exact hp.trans (le_mul_of_one_le_left (abs_nonneg _) h1)
  generalize rn (c : ℝ) = c' at hc hq
  generalize rn (c' * p) = q at hq
  have e1 : |c' * p - c * p| ≤ |c * p| / 2 ^ 53 := by
    rw [← sub_mul, abs_mul, abs_mul, mul_div_right_comm, abs_sub_comm c' (c : ℝ)]
    exact mul_le_mul_of_nonneg_right hc (abs_nonneg _)
  have e2 : |c' * p| ≤ |c * p| + |c * p| / 2 ^ 53 := by
    have := abs_sub_abs_le_abs_sub (c' * p) (c * p)
    linarith
  have e3 : |q - c * p| ≤ |c' * p - q| + |c' * p - c * p| := by
    rw [show q - c * p = -(c' * p - q) + (c' * p - c * p) by ring]
    exact (abs_add_le _ _).trans (by rw [abs_neg])
  have e4 : |c' * p| / 2 ^ 53 ≤ (|c * p| + |c * p| / 2 ^ 53) / 2 ^ 53 := by gcongr
  refine e3.trans (le_trans (add_le_add (hq.trans e4) e1) (le_of_eq ?_))
  ring

/-- A scalar product of integers and doubles, unless it overflows. -/
theorem dot_error (hA : A.IsBinary64) {n : Nat} {f : Nat → Res (Num A)} {c : Nat → Int} {p : Nat → ℝ} {w : ℝ}
    (hp : ∀ j, j < n → p j = 0 ∨ (2 : ℝ) ^ (-1022 : Int) ≤ |p j|) (hf : ∀ j, j < n → f j = .ok (CxxFloat.ofInt (c j) * .fin (p j)))
    (h : accumulate n f = .ok (.fin w)) :
    |w - ∑ j ∈ Finset.range n, c j * p j| ≤ ((1 + 1 / 2 ^ 53) ^ (n + 2) - 1) * ∑ j ∈ Finset.range n, |c j * p j| := by
  have u0 : (0 : ℝ) ≤ 1 / 2 ^ 53 := by norm_num
  generalize hu : (1 : ℝ) / 2 ^ 53 = u at u0
  have key : ∀ m k s, k + m = n → Double s →
      |s - ∑ j ∈ Finset.range k, c j * p j| ≤ ((1 + u) ^ (k + 2) - 1) * ∑ j ∈ Finset.range k, |c j * p j| →
      accumulateFrom f (.fin s) k m = .ok (.fin w) →
      |w - ∑ j ∈ Finset.range n, c j * p j| ≤ ((1 + u) ^ (n + 2) - 1) * ∑ j ∈ Finset.range n, |c j * p j| := by
    intro m
    induction m with
    | zero =>
      intro k s hk _ h1 h2
      obtain rfl : k = n := by omega
      rw [accumulateFrom, Res.ok.injEq] at h2
      cases h2
      exact h1
    | succ m ih =>
      intro k s hk hs h1 h2
      rw [accumulateFrom, hf k (by omega), Res.ok_bind] at h2
      have hfin : ∀ m k a, k + m = n → accumulateFrom f a k m = .ok (.fin w) → ∃ s, a = .fin s := by
        intro m
        induction m with
        | zero =>
          intro k a _ h
          rw [accumulateFrom, Res.ok.injEq] at h
          exact ⟨_, h⟩
        | succ m ih =>
          intro k a hk h
          rw [accumulateFrom, hf k (by omega), Res.ok_bind] at h
          obtain ⟨s, hs⟩ := ih (k + 1) _ (by omega) h
          obtain ⟨a', b', ha, -⟩ := Num.add_eq_fin hs
          exact ⟨a', ha⟩
      obtain ⟨s', hs'⟩ := hfin m (k + 1) _ (by omega) h2
      obtain ⟨-, q, -, hq⟩ := Num.add_eq_fin hs'
      obtain ⟨dq, eq⟩ := dot_term hA (hp k (by omega)) hq
      rw [hq] at hs' h2
      rw [hs'] at h2
      rw [Num.fin_add] at hs'
      obtain rfl := round_eq_fin hA hs'
      refine ih (k + 1) _ (by omega) (rn_isDouble _) ?_ h2
      have hr := rn_rel (x := s + q) (hs.mult.add dq.mult)
      rw [div_eq_mul_one_div, hu] at hr
      rw [hu] at eq
      rw [Finset.sum_range_succ, Finset.sum_range_succ]
      generalize c k * p k = z at eq
      generalize hS : ∑ j ∈ Finset.range k, c j * p j = S at h1
      have hST : |S| ≤ ∑ j ∈ Finset.range k, |c j * p j| := by rw [← hS]; exact Finset.abs_sum_le_sum_abs _ _
      have hT0 : 0 ≤ ∑ j ∈ Finset.range k, |c j * p j| := Finset.sum_nonneg (fun _ _ => abs_nonneg _)
      generalize ∑ j ∈ Finset.range k, |c j * p j| = T at h1 hST hT0
      generalize rn (s + q) = t at hr
      have hG : (1 + u) ^ 2 ≤ (1 + u) ^ (k + 2) := pow_le_pow_right₀ (by linarith) (by omega)
      have hG' : (1 + u) ^ (k + 1 + 2) = (1 + u) ^ (k + 2) * (1 + u) := pow_succ _ _
      rw [hG']
      generalize (1 + u) ^ (k + 2) = G at h1 hG
      have hz := abs_nonneg z
      have b1 : |s + q| ≤ T + |z| + (G - 1) * T + ((1 + u) ^ 2 - 1) * |z| := by
        rw [show s + q = S + z + ((s - S) + (q - z)) by ring]
        refine (abs_add_le _ _).trans ?_
        have := abs_add_le S z
        have := abs_add_le (s - S) (q - z)
        linarith
      have b2 : |t - (S + z)| ≤ |s + q - t| + |s - S| + |q - z| := by
        rw [show t - (S + z) = -(s + q - t) + (s - S) + (q - z) by ring]
        refine (abs_add_le _ _).trans ?_
        have := abs_add_le (-(s + q - t)) (s - S)
        rw [abs_neg] at this
        linarith
      have b3 : |s + q| * u ≤ (T + |z| + (G - 1) * T + ((1 + u) ^ 2 - 1) * |z|) * u := mul_le_mul_of_nonneg_right b1 u0
      have b4 : ((1 + u) ^ 2 * (1 + u) - 1) * |z| ≤ (G * (1 + u) - 1) * |z| := by
        refine mul_le_mul_of_nonneg_right ?_ hz
        have := mul_le_mul_of_nonneg_right hG (by linarith : (0 : ℝ) ≤ 1 + u)
        linarith
      refine b2.trans ?_
      have : |s + q - t| + |s - S| + |q - z| ≤
          (T + |z| + (G - 1) * T + ((1 + u) ^ 2 - 1) * |z|) * u + (G - 1) * T + ((1 + u) ^ 2 - 1) * |z| := by linarith
      refine this.trans ?_
      have e : (T + |z| + (G - 1) * T + ((1 + u) ^ 2 - 1) * |z|) * u + (G - 1) * T + ((1 + u) ^ 2 - 1) * |z| =
          (G * (1 + u) - 1) * T + ((1 + u) ^ 2 * (1 + u) - 1) * |z| := by ring
      rw [e, mul_add]
      linarith
  unfold accumulate at h
  rw [Num.zero_eq] at h
  exact key n 0 0 (by omega) ⟨0, 0, by norm_num, by norm_num, by simp⟩ (by simp) h

/-- The sums of absolute values that bound the errors of the components: `embed` with absolute values. -/
noncomputable def Spec.embedAbs (d : Nat) (P : List ℝ) (c : List Int) : List ℝ :=
  (List.range d).map (fun i => ∑ j ∈ Finset.range d, |(coord c j : ℝ) * entry d P j i|)

/-- The primitive vectors are doubles without subnormal components. -/
def Spec.NormalEntries (P : List ℝ) : Prop := ∀ p ∈ P, p = 0 ∨ (2 : ℝ) ^ (-1022 : Int) ≤ |p|

/-- C140.  The components of `GetVector` for any primitive vectors without subnormal components and any points whose difference
does not overflow: unless a component overflows, its error is d + 2 roundings of the sum of the absolute values of its terms. -/
theorem C140_components (hA : A.IsBinary64) (hb : Holds b d g P Q N) (hP : NormalEntries P) (x y : List Int) (h : Near d x y)
    (v : List (Num A)) (hv : b.getVector x y = .ok v) (i : Nat) (hi : i < d) (w : ℝ) (hw : v[i]? = some (.fin w)) :
    |w - (embed d P (minus y x)).getD i 0| ≤ ((1 + 1 / 2 ^ 53) ^ (d + 2) - 1) * (embedAbs d P (minus y x)).getD i 0 := by
  have hd : b.dim = d := by rw [hb.eq]
  rw [getVector_eq (hd ▸ h)] at hv
  obtain ⟨rfl, hs, hPl, hQ, -, -⟩ := hb
  unfold Bravais.getRealSpace at hv
  simp only at hv
  have hl := length_minus h.1 h.2.1
  rw [if_pos hl] at hv
  obtain ⟨z, hz, hf⟩ := (mapRange_eq_ok hv).2 i hi
  rw [hw] at hz
  cases hz
  have := dot_error hA (c := fun j => coord (minus y x) j) (p := fun j => entry d P j i) (fun j hj => by
    have ho : i + j * d < P.length := by rw [hPl]; exact offset_lt hi hj
    unfold entry
    rw [List.getD_eq_getElem?_getD, List.getElem?_eq_getElem ho]
    exact hP _ (List.getElem_mem ho)) (fun j hj => by
    rw [subscript_getD (by omega) 0, offset_eq hs hi hj, subscript_fin (by rw [hPl]; exact offset_lt hi hj)]
    rfl) hf
  unfold embed embedAbs
  rw [List.getD_eq_getElem?_getD, List.getD_eq_getElem?_getD, List.getElem?_map, List.getElem?_map, List.getElem?_range hi]
  exact this

theorem length_le_of_abs {r : ℝ} (hr : 0 ≤ r) : ∀ {w a : List ℝ}, w.length = a.length → (∀ i, |w.getD i 0| ≤ r * a.getD i 0) →
    Spec.length w ≤ r * Spec.length a := by
  have key : ∀ w a : List ℝ, w.length = a.length → (∀ i, |w.getD i 0| ≤ r * a.getD i 0) →
      (w.map (fun x => x * x)).sum ≤ r ^ 2 * (a.map (fun x => x * x)).sum := by
    intro w
    induction w with
    | nil => intro a ha _; rw [List.length_eq_zero_iff.1 ha.symm]; simp
    | cons x w ih =>
      intro a ha h
      cases a with
      | nil => cases ha
      | cons z a =>
        have h1 := ih a (by simpa using ha) (fun i => by simpa using h (i + 1))
        have h0 : |x| ≤ r * z := by simpa using h 0
        have h2 : x * x ≤ r ^ 2 * (z * z) := by
          have := mul_self_le_mul_self (abs_nonneg x) h0
          rw [abs_mul_abs_self] at this
          linarith
        rw [List.map_cons, List.map_cons, List.sum_cons, List.sum_cons]
        linarith
  intro w a ha h
  unfold Spec.length
  rw [← Real.sqrt_sq hr, ← Real.sqrt_mul (sq_nonneg r)]
  exact Real.sqrt_le_sqrt (key w a ha h)

/-- Vectors whose components are close have close lengths. -/
theorem length_close {r : ℝ} (hr : 0 ≤ r) {v e a : List ℝ} (hv : v.length = a.length) (he : e.length = a.length)
    (h : ∀ i, |v.getD i 0 - e.getD i 0| ≤ r * a.getD i 0) : |Spec.length v - Spec.length e| ≤ r * Spec.length a := by
  have hz : ∀ {p q : List ℝ}, p.length = q.length → ∀ i, (List.zipWith (· - ·) p q).getD i 0 = p.getD i 0 - q.getD i 0 := by
    intro p q hl i
    by_cases hi : i < p.length
    · simp [List.getD_eq_getElem?_getD, List.getElem?_zipWith, List.getElem?_eq_getElem hi, List.getElem?_eq_getElem (hl ▸ hi)]
    · simp [List.getD_eq_getElem?_getD, List.getElem?_zipWith, List.getElem?_eq_none (not_lt.1 hi),
        List.getElem?_eq_none (hl ▸ not_lt.1 hi)]
  have hs : ∀ {p q : List ℝ}, p.length = q.length → List.zipWith (· + ·) q (List.zipWith (· - ·) p q) = p := by
    intro p q hl
    refine List.ext_getElem (by simp [hl]) (fun i h1 h2 => ?_)
    simp
  have t1 := length_add_le (u := e) (v := List.zipWith (· - ·) v e) (by simp [hv, he])
  have t2 := length_add_le (u := v) (v := List.zipWith (· - ·) e v) (by simp [hv, he])
  rw [hs (hv.trans he.symm)] at t1
  rw [hs (he.trans hv.symm)] at t2
  have b1 := length_le_of_abs hr (w := List.zipWith (· - ·) v e) (a := a) (by simp [hv, he]) (fun i => by
    rw [hz (hv.trans he.symm)]; exact h i)
  have b2 := length_le_of_abs hr (w := List.zipWith (· - ·) e v) (a := a) (by simp [hv, he]) (fun i => by
    rw [hz (he.trans hv.symm), abs_sub_comm]; exact h i)
  rw [abs_le]
  constructor <;> linarith

/-- C140.  `GetDistance` in double precision, unless something overflows or a component is below 2⁻⁵¹¹ without being zero: it
differs from the distance by 2d + 5 roundings of the length of the vector of sums of absolute values. -/
theorem C140_distance (hA : A.IsBinary64) (hq : A.sqrt = Real.sqrt) (hb : Holds b d g P Q N) (hP : NormalEntries P) (x y : List Int)
    (h : Near d x y) (v : List ℝ) (hv : b.getVector x y = .ok (v.map .fin)) (hn : ∀ z ∈ v, z = 0 ∨ (2 : ℝ) ^ (-511 : Int) ≤ |z|)
    (D : ℝ) (hD : b.getDistance x y = .ok (.fin D)) :
    |D - Spec.length (embed d P (minus y x))| ≤ ((1 + 1 / 2 ^ 53) ^ (2 * d + 5) - 1) * Spec.length (embedAbs d P (minus y x)) := by
  have hd : b.dim = d := by rw [hb.eq]
  have hl : v.length = d := by have := getVector_length hv; rw [List.length_map, hd] at this; exact this
  have hnorm := (C140_norm b x y _ hv).1
  rw [hD, Res.ok.injEq] at hnorm
  obtain ⟨e1, e2⟩ := C99_error hA hq v hn D hnorm.symm
  have hD0 : 0 ≤ D := by
    rcases (C140_nonneg hA hq x y _ hD).1 with e | e | ⟨r, e, e0⟩
    · cases e
    · cases e
    · cases e; exact e0
  have hV : (v.map (fun x => x * x)).sum = Spec.length v ^ 2 := by
    unfold Spec.length
    rw [Real.sq_sqrt]
    exact List.sum_nonneg (fun x hx => by obtain ⟨z, -, rfl⟩ := List.mem_map.1 hx; exact mul_self_nonneg z)
  rw [hV, hl] at e1 e2
  have hL0 : 0 ≤ Spec.length v := Real.sqrt_nonneg _
  -- the rounding of the norm
  have hu0 : (0 : ℝ) ≤ 1 / 2 ^ 53 := by norm_num
  have hu1 : (1 : ℝ) / 2 ^ 53 ≤ 1 := by norm_num
  have hcomp := fun i hi => C140_components hA hb hP x y h _ hv i hi
  generalize (1 : ℝ) / 2 ^ 53 = u at *
  have hup : D ≤ (1 + u) ^ (d + 3) * Spec.length v := by
    have hg : 1 ≤ (1 + u) ^ (d + 3) := one_le_pow₀ (by linarith)
    refine abs_le_of_sq_le_sq' ?_ (by positivity) |>.2
    rw [mul_pow]
    refine e2.trans (mul_le_mul_of_nonneg_right ?_ (sq_nonneg _))
    nlinarith
  have hlow : (1 - u) ^ (d + 3) * Spec.length v ≤ D := by
    have hg0 : 0 ≤ (1 - u) ^ (d + 3) := pow_nonneg (by linarith) _
    have hg : (1 - u) ^ (d + 3) ≤ 1 := pow_le_one₀ (by linarith) (by linarith)
    refine abs_le_of_sq_le_sq' ?_ hD0 |>.2
    rw [mul_pow]
    refine le_trans (mul_le_mul_of_nonneg_right ?_ (sq_nonneg _)) e1
    nlinarith
  have hber : 1 - (1 - u) ^ (d + 3) ≤ (1 + u) ^ (d + 3) - 1 := by
    have h1 := one_add_mul_le_pow (show (-2 : ℝ) ≤ u by linarith) (d + 3)
    have h2 := one_add_mul_le_pow (show (-2 : ℝ) ≤ -u by linarith) (d + 3)
    rw [← sub_eq_add_neg] at h2
    linarith
  have hDV : |D - Spec.length v| ≤ ((1 + u) ^ (d + 3) - 1) * Spec.length v := by
    rw [abs_le]
    have := mul_le_mul_of_nonneg_right hber hL0
    constructor <;> linarith
  -- the components
  have hg2 : (1 : ℝ) ≤ (1 + u) ^ (d + 2) := one_le_pow₀ (by linarith)
  have hle : ((embed d P (minus y x)).length) = d := embed_length ..
  have hla : ((embedAbs d P (minus y x)).length) = d := by simp [embedAbs]
  have hea : Spec.length (embed d P (minus y x)) ≤ Spec.length (embedAbs d P (minus y x)) := by
    have := length_le_of_abs zero_le_one (w := embed d P (minus y x)) (a := embedAbs d P (minus y x)) (hle.trans hla.symm) (fun i => by
      rw [one_mul, embed, embedAbs, List.getD_eq_getElem?_getD, List.getD_eq_getElem?_getD, List.getElem?_map, List.getElem?_map]
      by_cases hi : i < d
      · rw [List.getElem?_range hi]
        exact Finset.abs_sum_le_sum_abs _ _
      · rw [List.getElem?_eq_none (by simpa using hi)]
        simp)
    rwa [one_mul] at this
  have hdiff := length_close (r := (1 + u) ^ (d + 2) - 1) (by linarith) (hl.trans hla.symm) (hle.trans hla.symm) (fun i => by
    by_cases hi : i < d
    · have := hcomp i hi (v[i]'(by omega)) (by rw [List.getElem?_map, List.getElem?_eq_getElem (by omega)]; rfl)
      rw [List.getD_eq_getElem?_getD (l := v), List.getElem?_eq_getElem (by omega)]
      exact this
    · simp [List.getD_eq_getElem?_getD, List.getElem?_eq_none (show v.length ≤ i by omega),
        List.getElem?_eq_none (show (embed d P (minus y x)).length ≤ i by omega),
        List.getElem?_eq_none (show (embedAbs d P (minus y x)).length ≤ i by omega)])
  generalize Spec.length (embed d P (minus y x)) = le at *
  generalize Spec.length (embedAbs d P (minus y x)) = la at *
  have hva : Spec.length v ≤ (1 + u) ^ (d + 2) * la := by
    have := (abs_le.1 (hdiff)).2
    linarith
  have h1 : |D - le| ≤ |D - Spec.length v| + |Spec.length v - le| := abs_sub_le _ _ _
  have h2 : ((1 + u) ^ (d + 3) - 1) * Spec.length v ≤ ((1 + u) ^ (d + 3) - 1) * ((1 + u) ^ (d + 2) * la) :=
    mul_le_mul_of_nonneg_left hva (by have : (1 : ℝ) ≤ (1 + u) ^ (d + 3) := one_le_pow₀ (by linarith)
                                      linarith)
  have h3 : (1 + u) ^ (2 * d + 5) = (1 + u) ^ (d + 3) * (1 + u) ^ (d + 2) := by rw [← pow_add]; congr 1; omega
  rw [h3]
  have := hdiff
  linarith

theorem round_below (hA : A.IsBinary64) {x : ℝ} (h : |x| ≤ (2 : ℝ) ^ (1022 : Int)) : Num.round A x = .fin (rn x) := by
  refine Num.round_of ?_
  have d : Double ((2 : ℝ) ^ (1022 : Int)) := ⟨1, 1022, by norm_num, by norm_num, by simp⟩
  rw [hA, rnd64, if_pos]
  refine lt_of_le_of_lt (abs_le.2 ⟨?_, ?_⟩) (zpow_lt_zpow_right₀ one_lt_two (show (1022 : Int) < 1024 by norm_num))
  · have := rn_mono (abs_le.1 h).1
    rwa [rn_neg, rn_double d] at this
  · have := rn_mono (abs_le.1 h).2
    rwa [rn_double d] at this

theorem roundings_le_two {n : Nat} (h : n ≤ 2 ^ 40) : (1 + 1 / 2 ^ 53 : ℝ) ^ n ≤ 2 := by
  have key : ∀ k : Nat, k ≤ 2 ^ 40 → (1 + 1 / 2 ^ 53 : ℝ) ^ k ≤ 1 + 2 * k * (1 / 2 ^ 53) := by
    intro k
    induction k with
    | zero => intro _; simp
    | succ k ih =>
      intro hk
      have h1 := ih (by omega)
      have hk' : (k : ℝ) ≤ 2 ^ 40 := by exact_mod_cast (by omega : k ≤ 2 ^ 40)
      have h2 : (k : ℝ) * (1 / 2 ^ 53) ≤ 1 / 2 ^ 13 := by
        have := mul_le_mul_of_nonneg_right hk' (by norm_num : (0 : ℝ) ≤ 1 / 2 ^ 53)
        exact this.trans (by norm_num)
      rw [pow_succ]
      refine (mul_le_mul_of_nonneg_right h1 (by norm_num)).trans ?_
      push_cast
      nlinarith
  have hn : (n : ℝ) ≤ 2 ^ 40 := by exact_mod_cast h
  have := mul_le_mul_of_nonneg_right hn (by norm_num : (0 : ℝ) ≤ 1 / 2 ^ 53)
  refine (key n h).trans ?_
  have e : (2 : ℝ) ^ 40 * (1 / 2 ^ 53) ≤ 1 / 2 := by norm_num
  linarith

/-- A scalar product whose terms have a sum of absolute values of at most 2¹⁰²¹ does not overflow. -/
theorem dot_finite (hA : A.IsBinary64) {n : Nat} (hn : n ≤ 2 ^ 32) {f : Nat → Res (Num A)} {c : Nat → Int} {p : Nat → ℝ}
    (hc : ∀ j, j < n → InLong (c j)) (hp : ∀ j, j < n → p j = 0 ∨ (2 : ℝ) ^ (-1022 : Int) ≤ |p j|)
    (hf : ∀ j, j < n → f j = .ok (CxxFloat.ofInt (c j) * .fin (p j)))
    (hT : ∑ j ∈ Finset.range n, |c j * p j| ≤ (2 : ℝ) ^ (1021 : Int)) : ∃ w, accumulate n f = .ok (.fin w) := by
  have h22 : (2 : ℝ) ^ (1022 : Int) = 2 * (2 : ℝ) ^ (1021 : Int) := by
    rw [show (1022 : Int) = 1 + 1021 by norm_num, zpow_add₀ two_ne_zero, zpow_one]
  have hM0 : (0 : ℝ) < (2 : ℝ) ^ (1021 : Int) := two_zpow_pos _
  have hterm : ∀ j, j < n → ∃ q, (CxxFloat.ofInt (c j) * .fin (p j) : Num A) = .fin q := by
    intro j hj
    have hle : |c j * p j| ≤ (2 : ℝ) ^ (1021 : Int) :=
      (Finset.single_le_sum (f := fun j => |c j * p j|) (fun _ _ => abs_nonneg _) (Finset.mem_range.2 hj)).trans hT
    have hcj := hc j hj
    have hca : |(c j : ℝ)| ≤ (2 : ℝ) ^ (63 : Nat) := by
      have : |c j| ≤ 2 ^ 63 := by rw [abs_le]; constructor <;> comega
      rw [← Int.cast_abs]; exact_mod_cast this
    rw [Num.ofInt_eq, round_below hA (hca.trans (by
      rw [← zpow_natCast]; exact zpow_le_zpow_right₀ one_le_two (by norm_num))), Num.fin_mul]
    refine ⟨_, round_below hA ?_⟩
    have hr := rn_rel' (x := (c j : ℝ)) (by
      by_cases h0 : c j = 0
      · left; exact_mod_cast h0
      · right
        have : (1 : ℝ) ≤ |(c j : ℝ)| := by
          rw [← Int.cast_abs]; exact_mod_cast Int.one_le_abs h0
        exact le_trans (zpow_le_one_of_nonpos₀ (by norm_num) (by norm_num)) this)
    have h1 : |rn (c j : ℝ)| ≤ 2 * |(c j : ℝ)| := by
      have h2 := abs_sub_abs_le_abs_sub (rn (c j : ℝ)) (c j)
      rw [abs_sub_comm] at h2
      have h3 := abs_nonneg (c j : ℝ)
      have h4 : |(c j : ℝ)| / 2 ^ 53 ≤ |(c j : ℝ)| := div_le_self h3 (by norm_num)
      linarith
    rw [abs_mul] at hle ⊢
    have := mul_le_mul_of_nonneg_right h1 (abs_nonneg (p j))
    rw [h22]
    linarith
  have key : ∀ k, k ≤ n → ∃ w, accumulate k f = .ok (.fin w) ∧ Double w := by
    intro k
    induction k with
    | zero => intro _; exact ⟨0, by rw [accumulate, accumulateFrom, Num.zero_eq], ⟨0, 0, by norm_num, by norm_num, by simp⟩⟩
    | succ k ih =>
      intro hk
      obtain ⟨w, hw, -⟩ := ih (by omega)
      obtain ⟨q, hq⟩ := hterm k (by omega)
      have hsucc : ∀ m a s, accumulateFrom f a s (m + 1) = (accumulateFrom f a s m).bind (fun z => (f (s + m)).bind fun y => .ok (z + y)) := by
        intro m
        induction m with
        | zero => intro a s; rfl
        | succ m ih =>
          intro a s
          rw [accumulateFrom]
          conv_rhs => rw [accumulateFrom]
          cases f s with
          | ok y =>
            rw [Res.ok_bind, Res.ok_bind, ih, show s + 1 + m = s + (m + 1) by omega]
          | throws e => rfl
          | ub u => rfl
          | diverges => rfl
      have e1 := dot_error hA (fun j hj => hp j (by omega)) (fun j hj => hf j (by omega)) hw
      obtain ⟨-, e2⟩ := dot_term hA (hp k (by omega)) hq
      have e3 : accumulate (k + 1) f = .ok (.fin w + .fin q) := by
        unfold accumulate at hw ⊢
        rw [hsucc, hw, zero_add]
        show (f k).bind _ = _
        rw [hf k (by omega), hq]
        rfl
      rw [e3, Num.fin_add]
      rw [round_below hA]
      · exact ⟨_, rfl, rn_isDouble _⟩
      have hT' : (∑ j ∈ Finset.range k, |c j * p j|) + |c k * p k| ≤ (2 : ℝ) ^ (1021 : Int) := by
        rw [← Finset.sum_range_succ (fun j => |(c j : ℝ) * p j|)]
        exact (Finset.sum_le_sum_of_subset_of_nonneg (Finset.range_subset_range.2 (by omega)) (fun _ _ _ => abs_nonneg _)).trans hT
      have g1 := roundings_le_two (n := k + 2) (by omega)
      have g2 := roundings_le_two (n := 2) (by norm_num)
      have hS := Finset.abs_sum_le_sum_abs (fun j => (c j : ℝ) * p j) (Finset.range k)
      have hT0 : 0 ≤ ∑ j ∈ Finset.range k, |c j * p j| := Finset.sum_nonneg (fun _ _ => abs_nonneg _)
      have hz := abs_nonneg (c k * p k)
      generalize ∑ j ∈ Finset.range k, |c j * p j| = T at *
      generalize ∑ j ∈ Finset.range k, c j * p j = S at *
      generalize c k * p k = z at *
      have m1 : |w - S| ≤ 1 * T := e1.trans (mul_le_mul_of_nonneg_right (by linarith) hT0)
      have m2 : |q - z| ≤ 1 * |z| := e2.trans (mul_le_mul_of_nonneg_right (by linarith) hz)
      have m3 : |w + q| ≤ |w - S| + |S| + (|q - z| + |z|) := by
        have a1 := abs_add_le w q
        have a2 := abs_add_le (w - S) S
        have a3 := abs_add_le (q - z) z
        rw [sub_add_cancel] at a2 a3
        linarith
      rw [h22]
      linarith
  obtain ⟨w, hw, -⟩ := key n le_rfl
  exact ⟨w, hw⟩

/-- Sums of squares that stay below 2¹⁰²² are finite. -/
theorem squares_finite (hA : A.IsBinary64) (r : ℝ) (hr : Double r) (h0 : 0 ≤ r) (v : List ℝ)
    (hv : ∀ x ∈ v, x = 0 ∨ (2 : ℝ) ^ (-511 : Int) ≤ |x|)
    (h : (1 + 1 / 2 ^ 53) ^ v.length * (r + (1 + 1 / 2 ^ 53) * (v.map (fun x => x * x)).sum) ≤ (2 : ℝ) ^ (1022 : Int)) :
    ∃ s, (v.map .fin).foldl (fun d (x : Num A) => d + squareF x) (.fin r) = .fin s := by
  induction v generalizing r with
  | nil => exact ⟨r, rfl⟩
  | cons x v ih =>
    have hx0 := mul_self_nonneg x
    have hS0 : 0 ≤ (v.map (fun x => x * x)).sum :=
      List.sum_nonneg (fun x hx => by obtain ⟨z, -, rfl⟩ := List.mem_map.1 hx; exact mul_self_nonneg z)
    rw [List.map_cons, List.sum_cons, List.length_cons] at h
    have hq := rn_rel' (x := x * x) (by
      rcases hv x List.mem_cons_self with e | e
      · left; rw [e, mul_zero]
      · right
        have := mul_self_le_mul_self (two_zpow_pos _).le e
        rw [← zpow_add₀ two_ne_zero] at this
        rw [abs_mul]
        exact this)
    have hq1 : rn (x * x) ≤ (1 + 1 / 2 ^ 53) * (x * x) := by
      rw [abs_of_nonneg hx0] at hq
      have := (abs_le.1 hq).1
      linarith
    have hq0 : 0 ≤ rn (x * x) := by simpa [rn_zero] using rn_mono hx0
    have ht := rn_rel (x := r + rn (x * x)) (hr.mult.add (rn_isDouble _).mult)
    have ht0 : 0 ≤ rn (r + rn (x * x)) := by simpa [rn_zero] using rn_mono (add_nonneg h0 hq0)
    have ht1 : rn (r + rn (x * x)) ≤ (1 + 1 / 2 ^ 53) * (r + rn (x * x)) := by
      rw [abs_of_nonneg (add_nonneg h0 hq0)] at ht
      have := (abs_le.1 ht).1
      linarith
    have hg : (1 : ℝ) ≤ (1 + 1 / 2 ^ 53) ^ v.length := one_le_pow₀ (by norm_num)
    have hstep : (1 + 1 / 2 ^ 53) ^ v.length * (rn (r + rn (x * x)) + (1 + 1 / 2 ^ 53) * (v.map (fun x => x * x)).sum) ≤
        (2 : ℝ) ^ (1022 : Int) := by
      refine le_trans ?_ h
      rw [pow_succ (1 + 1 / 2 ^ 53 : ℝ) v.length, mul_assoc]
      refine mul_le_mul_of_nonneg_left ?_ (by linarith)
      have b1 : (1 + 1 / 2 ^ 53 : ℝ) * (r + rn (x * x)) ≤ (1 + 1 / 2 ^ 53) * (r + (1 + 1 / 2 ^ 53) * (x * x)) :=
        mul_le_mul_of_nonneg_left (by linarith) (by norm_num)
      have b2 : (1 + 1 / 2 ^ 53 : ℝ) * (v.map (fun x => x * x)).sum ≤
          (1 + 1 / 2 ^ 53) * ((1 + 1 / 2 ^ 53) * (v.map (fun x => x * x)).sum) :=
        mul_le_mul_of_nonneg_left (le_mul_of_one_le_left hS0 (by norm_num)) (by norm_num)
      linarith
    have hwhole : (1 + 1 / 2 ^ 53 : ℝ) * (r + (1 + 1 / 2 ^ 53) * (x * x)) ≤ (2 : ℝ) ^ (1022 : Int) := by
      refine le_trans ?_ h
      have c1 : (1 + 1 / 2 ^ 53 : ℝ) ≤ (1 + 1 / 2 ^ 53) ^ (v.length + 1) := by
        rw [pow_succ (1 + 1 / 2 ^ 53 : ℝ) v.length]; exact le_mul_of_one_le_left (by norm_num) hg
      refine mul_le_mul c1 ?_ (by positivity) (by positivity)
      have : (1 + 1 / 2 ^ 53 : ℝ) * (x * x) ≤ (1 + 1 / 2 ^ 53) * (x * x + (v.map (fun x => x * x)).sum) :=
        mul_le_mul_of_nonneg_left (by linarith) (by norm_num)
      linarith
    have hin : r + (1 + 1 / 2 ^ 53) * (x * x) ≤ (1 + 1 / 2 ^ 53 : ℝ) * (r + (1 + 1 / 2 ^ 53) * (x * x)) :=
      le_mul_of_one_le_left (by positivity) (by norm_num)
    rw [List.map_cons, List.foldl_cons, squareF, Num.fin_mul, round_below hA, Num.fin_add, round_below hA]
    · exact ih _ (rn_isDouble _) ht0 (fun z hz => hv z (List.mem_cons_of_mem _ hz)) hstep
    · rw [abs_of_nonneg (add_nonneg h0 hq0)]
      exact (by linarith : r + rn (x * x) ≤ r + (1 + 1 / 2 ^ 53) * (x * x)).trans (hin.trans hwhole)
    · rw [abs_of_nonneg hx0]
      have : x * x ≤ (1 + 1 / 2 ^ 53) * (x * x) := le_mul_of_one_le_left hx0 (by norm_num)
      exact (by linarith : x * x ≤ r + (1 + 1 / 2 ^ 53) * (x * x)).trans (hin.trans hwhole)

/-- C140.  Nothing overflows if the vector of the sums of absolute values is not longer than 2⁵⁰⁹: `GetVector` is finite, and so
is `GetDistance` if no component underflows when it is squared. -/
theorem C140_finite (hA : A.IsBinary64) (hq : A.sqrt = Real.sqrt) (hb : Holds b d g P Q N) (hP : NormalEntries P) (x y : List Int)
    (h : Near d x y) (hT : Spec.length (embedAbs d P (minus y x)) ≤ (2 : ℝ) ^ (509 : Int)) :
    ∃ v : List ℝ, b.getVector x y = .ok (v.map .fin) ∧
      ((∀ z ∈ v, z = 0 ∨ (2 : ℝ) ^ (-511 : Int) ≤ |z|) → ∃ D, b.getDistance x y = .ok (.fin D)) := by
  have hd : b.dim = d := by rw [hb.eq]
  have hs32 : d ≤ 2 ^ 32 := by
    by_contra hlt
    have h1 : 2 ^ 32 * 2 ^ 32 ≤ d * d := Nat.mul_le_mul (by omega) (by omega)
    have := hb.small
    omega
  have hla : (embedAbs d P (minus y x)).length = d := by simp [embedAbs]
  have hl := length_minus h.1 h.2.1
  have hai : ∀ i, i < d → ∑ j ∈ Finset.range d, |(coord (minus y x) j : ℝ) * entry d P j i| ≤ (2 : ℝ) ^ (1021 : Int) := by
    intro i hi
    refine le_trans ?_ (hT.trans (zpow_le_zpow_right₀ one_le_two (by norm_num)))
    unfold Spec.length
    refine Real.le_sqrt_of_sq_le ?_
    refine List.single_le_sum ?_ _ ?_
    · intro z hz; obtain ⟨w, -, rfl⟩ := List.mem_map.1 hz; exact mul_self_nonneg w
    · rw [embedAbs, List.map_map]
      exact List.mem_map.2 ⟨i, List.mem_range.2 hi, by simp [sq]⟩
  have hget : ∃ v : List ℝ, b.getVector x y = .ok (v.map .fin) := by
    rw [getVector_eq (hd ▸ h)]
    obtain ⟨rfl, hs, hPl, hQ, -, -⟩ := hb
    have hfin : ∀ i, i < d → ∃ w, accumulate d (fun j => do
        let c ← subscript (minus y x) j
        let p ← subscript (P.map (Num.fin (A := A))) (uadd i (umul j d))
        .ok (CxxFloat.ofInt c * p)) = .ok (.fin w) := by
      intro i hi
      refine dot_finite hA hs32 (c := fun j => coord (minus y x) j) (p := fun j => entry d P j i) (fun j hj => ?_) (fun j hj => ?_)
        (fun j hj => ?_) (hai i hi)
      · refine h.2.2 _ ?_
        unfold coord
        rw [List.getD_eq_getElem?_getD, List.getElem?_eq_getElem (by omega)]
        exact List.getElem_mem _
      · have ho : i + j * d < P.length := by rw [hPl]; exact offset_lt hi hj
        unfold entry
        rw [List.getD_eq_getElem?_getD, List.getElem?_eq_getElem ho]
        exact hP _ (List.getElem_mem ho)
      · rw [subscript_getD (by omega) 0, offset_eq hs hi hj, subscript_fin (by rw [hPl]; exact offset_lt hi hj)]
        rfl
    choose! g hg using hfin
    refine ⟨(List.range d).map g, ?_⟩
    unfold Bravais.getRealSpace
    simp only
    rw [if_pos hl, mapRange_ok (g := fun i => .fin (g i)) (fun i hi => hg i hi), List.map_map]
    rfl
  obtain ⟨v, hv⟩ := hget
  refine ⟨v, hv, fun hn => ?_⟩
  have hlv : v.length = d := by have := getVector_length hv; rw [List.length_map, hd] at this; exact this
  rw [(C140_norm b x y _ hv).1]
  have hcomp := fun i hi => C140_components hA hb hP x y h _ hv i hi
  have g2 := roundings_le_two (n := d + 2) (by omega)
  have hle : ((embed d P (minus y x)).length) = d := embed_length ..
  have hea : ∀ i, |(embed d P (minus y x)).getD i 0| ≤ (embedAbs d P (minus y x)).getD i 0 := by
    intro i
    rw [embed, embedAbs, List.getD_eq_getElem?_getD, List.getD_eq_getElem?_getD, List.getElem?_map, List.getElem?_map]
    by_cases hi : i < d
    · rw [List.getElem?_range hi]
      exact Finset.abs_sum_le_sum_abs _ _
    · rw [List.getElem?_eq_none (by simpa using hi)]
      simp
  have hva : Spec.length v ≤ 2 * Spec.length (embedAbs d P (minus y x)) := by
    refine length_le_of_abs (by norm_num) (hlv.trans hla.symm) (fun i => ?_)
    by_cases hi : i < d
    · have h1 := hcomp i hi (v[i]'(by omega)) (by rw [List.getElem?_map, List.getElem?_eq_getElem (by omega)]; rfl)
      have h2 := hea i
      have h3 : 0 ≤ (embedAbs d P (minus y x)).getD i 0 := (abs_nonneg _).trans h2
      have h4 := mul_le_mul_of_nonneg_right (show (1 + 1 / 2 ^ 53 : ℝ) ^ (d + 2) - 1 ≤ 1 by linarith) h3
      rw [List.getD_eq_getElem?_getD (l := v), List.getElem?_eq_getElem (by omega)]
      have h5 := abs_sub_abs_le_abs_sub (v[i]'(by omega)) ((embed d P (minus y x)).getD i 0)
      simp only [Option.getD_some]
      linarith
    · simp [List.getD_eq_getElem?_getD, List.getElem?_eq_none (show v.length ≤ i by omega),
        List.getElem?_eq_none (show (embedAbs d P (minus y x)).length ≤ i by omega)]
  have hV : (v.map (fun x => x * x)).sum = Spec.length v ^ 2 := by
    unfold Spec.length
    rw [Real.sq_sqrt]
    exact List.sum_nonneg (fun x hx => by obtain ⟨z, -, rfl⟩ := List.mem_map.1 hx; exact mul_self_nonneg z)
  have hv510 : Spec.length v ≤ (2 : ℝ) ^ (510 : Int) := by
    rw [show (510 : Int) = 1 + 509 by norm_num, zpow_add₀ two_ne_zero, zpow_one]
    linarith
  have hv0 : 0 ≤ Spec.length v := Real.sqrt_nonneg _
  have hsq : Spec.length v ^ 2 ≤ (2 : ℝ) ^ (1020 : Int) := by
    have := mul_self_le_mul_self hv0 hv510
    rw [← zpow_add₀ two_ne_zero] at this
    rw [sq]; exact this
  have hbound : (1 + 1 / 2 ^ 53) ^ v.length * (0 + (1 + 1 / 2 ^ 53) * (v.map (fun x => x * x)).sum) ≤ (2 : ℝ) ^ (1022 : Int) := by
    rw [zero_add, hV, ← mul_assoc, ← pow_succ (1 + 1 / 2 ^ 53 : ℝ) v.length]
    have := roundings_le_two (n := v.length + 1) (by omega)
    refine (mul_le_mul this hsq (sq_nonneg _) (by norm_num)).trans ?_
    rw [show (2 : ℝ) * 2 ^ (1020 : Int) = 2 ^ (1021 : Int) by
      rw [show (1021 : Int) = 1 + 1020 by norm_num, zpow_add₀ two_ne_zero, zpow_one]]
    exact zpow_le_zpow_right₀ one_le_two (by norm_num)
  have hz : Double (0 : ℝ) := ⟨0, 0, by norm_num, by norm_num, by simp⟩
  obtain ⟨s, hs⟩ := squares_finite hA 0 hz le_rfl v hn hbound
  have hsb := (squares_error hA 0 hz le_rfl v hn s hs).2.trans hbound
  rcases (nonneg_squares hA (.fin 0 : Num A) (.inr ⟨0, rfl, hz, le_rfl⟩) v).1 with e | ⟨s', e, ds, e0⟩
  · rw [hs] at e; cases e
  rw [hs] at e
  cases e
  unfold l2norm
  rw [Num.zero_eq, hs, Num.sqrt_fin e0, hq, round_below hA]
  · exact ⟨_, rfl⟩
  rw [abs_of_nonneg (Real.sqrt_nonneg _), Real.sqrt_le_left (two_zpow_pos _).le]
  refine hsb.trans ?_
  rw [sq]
  exact le_mul_of_one_le_left (two_zpow_pos _).le (one_le_zpow₀ one_le_two (by norm_num))

/-- The hypotheses of C140 can be met: an oblique lattice. -/
example (A : Arith ℝ) : ∃ b : Bravais (Num A), ∃ P : List ℝ, Holds b 2 2 P [1, -2 / 3, 0, 4 / 3] [1, 0] ∧ NormalEntries P ∧
    Near 2 [1, -2] [100, 5] ∧ Near 2 [100, 5] [1, -2] ∧ Spec.length (embedAbs 2 P (minus [100, 5] [1, -2])) ≤ (2 : ℝ) ^ (509 : Int) := by
  refine ⟨⟨2, 2, [1, 0, 1 / 2, 3 / 4].map .fin, [1, -2 / 3, 0, 4 / 3].map .fin, [1, 0]⟩, [1, 0, 1 / 2, 3 / 4],
    ⟨rfl, by norm_num, rfl, rfl, rfl, by norm_num⟩, ?_, ⟨rfl, rfl, by decide⟩, ⟨rfl, rfl, by decide⟩, ?_⟩
  · have hh : (2 : ℝ) ^ (-1022 : Int) ≤ 1 / 2 := by
      refine (zpow_le_zpow_right₀ one_le_two (show (-1022 : Int) ≤ -1 by norm_num)).trans (by norm_num)
    intro p hp
    simp only [List.mem_cons, List.not_mem_nil, or_false] at hp
    rcases hp with rfl | rfl | rfl | rfl
    · right; rw [abs_one]; exact hh.trans (by norm_num)
    · left; rfl
    · right; rw [abs_of_pos (by norm_num)]; exact hh
    · right; rw [abs_of_pos (by norm_num)]; exact hh.trans (by norm_num)
  · refine le_trans (b := (2 : ℝ) ^ (10 : Int)) ?_ (zpow_le_zpow_right₀ one_le_two (by norm_num))
    unfold Spec.length
    rw [Real.sqrt_le_left (by norm_num)]
    simp only [embedAbs, minus, coord, entry, List.range_succ, List.range_zero, Finset.sum_range_succ, Finset.sum_range_zero]
    norm_num [abs_of_pos]

end
end Bwsl
