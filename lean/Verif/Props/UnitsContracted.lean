import Verif.Props.Units
import Verif.Props.ScaledSk
import Verif.Props.LatticeContracted

/-! Property C186: another unit of length, with fused products. -/

namespace Bwsl
open Spec FloatFormat

set_option linter.unusedSectionVars false

section
variable {A : Arith ℝ} {k : Nat}

local notation "dbl" => FloatFormat.double

/-- Factors whose product is a multiple of 2^e and at most 2^β, and others whose product is 2^k times that. -/
def Prod2 (k : Nat) (e β : Int) (nn : Prop) (p q : Num A × Num A) : Prop :=
  ∃ x y x' y' : ℝ, p = (.fin x, .fin y) ∧ q = (.fin x', .fin y') ∧ x' * y' = 2 ^ k * (x * y) ∧ Mult e (x * y) ∧
    |2 ^ k * (x * y)| ≤ (2 : ℝ) ^ β ∧ (nn → 0 ≤ x * y)

/-- A sum of such products. -/
def Acc2 (k : Nat) (e : Int) (B : ℝ) (nn : Prop) (a b : Num A) : Prop := Sc dbl k e B a b ∧ (nn → ∀ x, a = .fin x → 0 ≤ x)

theorem acc_step (hA : A.IsFormat dbl) (fused : Bool) {e β : Int} (he : -1074 ≤ e) (hβ : -1074 ≤ β) (hβ' : β + 32 < 1024) {nn : Prop}
    {j : Nat} (hj : j + 1 ≤ 2 ^ 32) {p q : Num A × Num A} {a b : Num A} (hp : Prod2 k e β nn p q)
    (ha : Acc2 k e ((j : ℝ) * (2 : ℝ) ^ β) nn a b) :
    Acc2 k e (((j + 1 : Nat) : ℝ) * (2 : ℝ) ^ β) nn (mulAdd fused p.1 p.2 a) (mulAdd fused q.1 q.2 b) := by
  obtain ⟨x, y, x', y', rfl, rfl, h1, h2, h3, h4⟩ := hp
  obtain ⟨hs, hn⟩ := ha
  have e1 : (j : ℝ) * (2 : ℝ) ^ β + (2 : ℝ) ^ β = ((j + 1 : Nat) : ℝ) * (2 : ℝ) ^ β := by push_cast; ring
  have hj' : j + 1 ≤ 2 ^ 53 := hj.trans (by norm_num)
  have hv : InFormat dbl (((j + 1 : Nat) : ℝ) * (2 : ℝ) ^ β) := count_value (f := dbl) hj' hβ
  have hlt : ((j + 1 : Nat) : ℝ) * (2 : ℝ) ^ β < (2 : ℝ) ^ FloatFormat.emax dbl :=
    (count_le (n := 32) hj β).trans_lt (zpow_lt_zpow_right₀ one_lt_two hβ')
  cases fused with
  | true =>
    obtain ⟨r, rfl, rfl, -, h5, h6⟩ := hs
    constructor
    · show Sc dbl k e _ (Num.round A (x * y + r)) (Num.round A (x' * y' + 2 ^ k * r))
      rw [h1, ← mul_add]
      refine sc_round_mult hA he (h2.add h5) hv hlt ?_
      rw [mul_add, ← e1]
      refine (abs_add_le _ _).trans ?_
      rw [add_comm]
      exact add_le_add h6 h3
    · intro hnn z hz
      have hz : Num.round A (x * y + r) = .fin z := hz
      rw [(round_format hA hz).1]
      exact fl_nonneg (add_nonneg (h4 hnn) (hn hnn r rfl))
  | false =>
    have hprod : Sc dbl k e ((2 : ℝ) ^ β) (.fin x * .fin y : Num A) (.fin x' * .fin y') := by
      rw [Num.fin_mul, Num.fin_mul, h1]
      exact sc_round_mult hA he h2 (two_zpow_value hβ) (zpow_lt_zpow_right₀ one_lt_two (show β < 1024 by omega)) h3
    constructor
    · have := sc_add hA he hs hprod (by rw [e1]; exact hv) (by rw [e1]; exact hlt)
      rw [e1] at this
      exact this
    · intro hnn
      refine nonneg_fin_add hA (hn hnn) fun z hz => ?_
      rw [Num.fin_mul] at hz
      rw [(round_format hA hz).1]
      exact fl_nonneg (h4 hnn)

theorem acc_zero (e : Int) (nn : Prop) {B : ℝ} (hB : 0 ≤ B) : Acc2 k e B nn (CxxFloat.zero : Num A) CxxFloat.zero :=
  ⟨sc_zero e hB, by rintro - x ⟨⟩; exact le_rfl⟩

theorem rel_dot (hA : A.IsFormat dbl) (fused : Bool) {e β : Int} (he : -1074 ≤ e) (hβ : -1074 ≤ β) (hβ' : β + 32 < 1024) {nn : Prop}
    {n : Nat} (hn : n ≤ 2 ^ 32) {g g' : Nat → Res (Num A × Num A)} (h : ∀ j, j < n → RelRes (Prod2 k e β nn) (g j) (g' j)) :
    RelRes (Acc2 k e ((2 : ℝ) ^ (β + 32)) nn) (dotFrom fused g CxxFloat.zero 0 n) (dotFrom fused g' CxxFloat.zero 0 n) := by
  have key : ∀ m j (a b : Num A), j + m = n → Acc2 k e ((j : ℝ) * (2 : ℝ) ^ β) nn a b →
      RelRes (Acc2 k e ((2 : ℝ) ^ (β + 32)) nn) (dotFrom fused g a j m) (dotFrom fused g' b j m) := by
    intro m
    induction m with
    | zero => exact fun j a b hj hab => RelRes.ok ⟨hab.1.mono (count_le (n := 32) (by omega) β), hab.2⟩
    | succ m ih =>
      intro j a b hj hab
      refine RelRes.bind (h j (by omega)) fun p q _ _ hpq => ?_
      exact ih (j + 1) _ _ (by omega) (acc_step hA fused he hβ hβ' (by omega) hpq hab)
  exact key n 0 _ _ (by omega) (acc_zero e nn (by simp))

/-! ### Bravais lattices -/

variable {b b' : Bravais (Num A)}

theorem mult_of_mul {x y : ℝ} {a c : Int} (hx : Mult a x) (hy : Mult c y) {d : Int} (hd : d = a + c) : Mult d (x * y) := by
  rw [hd]; exact mult_mul hx hy

theorem rel_realSpaceC (hA : A.IsFormat dbl) (fused : Bool) (h : Rescaled k b b') (c : List Int) (hc : ∀ x ∈ c, |x| ≤ 2 ^ 63) :
    RelRes (VecSc k) (b.getRealSpaceContracted fused c) (b'.getRealSpaceContracted fused c) := by
  unfold Bravais.getRealSpaceContracted
  rw [h.dim]
  split
  · refine (rel_mapRange (R := Sc dbl k (-452) ((2 : ℝ) ^ (495 : Int))) _ fun i _ => ?_).mono fun u v hu _ huv =>
      ⟨by rw [(mapRange_eq_ok hu).1]; exact h.small, huv⟩
    refine (rel_dot hA fused (e := -452) (by decide) (β := 463) (by decide) (by decide) (nn := False) h.small fun j _ => ?_).mono
      fun _ _ _ _ h => h.1
    refine RelRes.bind (RelRes.refl (R' := Eq) (fun _ => rfl) _) fun x y hx hy hxy => ?_
    subst hxy
    refine RelRes.bind (rel_subscript (direct_sc h) _) fun p q _ _ hpq => RelRes.ok ?_
    obtain ⟨z, rfl, rfl, -, h4, h5⟩ := hpq
    obtain ⟨i1, i2, i3⟩ := int_round hA (hc x (subscript_mem' hx))
    rw [i1]
    refine ⟨_, _, _, _, rfl, rfl, by ring, mult_of_mul i3 h4 rfl, ?_, False.elim⟩
    rw [mul_left_comm, abs_mul, show (463 : Int) = 63 + 400 by norm_num, zpow_add₀ two_ne_zero]
    exact mul_le_mul i2 h5 (abs_nonneg _) (two_zpow_pos _).le
  · rfl

theorem rel_vectorC (hA : A.IsFormat dbl) (fused : Bool) (h : Rescaled k b b') (x y : List Int) :
    RelRes (VecSc k) (b.getVectorContracted fused x y) (b'.getVectorContracted fused x y) := by
  unfold Bravais.getVectorContracted
  rw [h.dim]
  refine RelRes.bind (RelRes.refl (R' := Eq) (fun _ => rfl) _) fun p q hp _ hpq => ?_
  subst hpq
  refine rel_realSpaceC hA fused h p ?_
  intro c hc
  obtain ⟨i, hi, rfl⟩ := List.getElem_of_mem hc
  obtain ⟨h1, h2⟩ := mapRange_eq_ok hp
  obtain ⟨z, h3, h4⟩ := h2 i (by omega)
  rw [List.getElem?_eq_getElem hi, Option.some.injEq] at h3
  rw [h3]
  obtain ⟨y', -, h4⟩ := Res.bind_eq_ok.1 h4
  obtain ⟨x', -, h4⟩ := Res.bind_eq_ok.1 h4
  obtain ⟨h5, rfl⟩ := long_eq_ok.1 h4
  exact abs_le_of_inLong h5

/-- A number and itself. -/
theorem prod_square {u v : Num A} (h : Sc dbl k (-452) ((2 : ℝ) ^ (495 : Int)) u v) : Prod2 (2 * k) (-904) 990 True (u, u) (v, v) := by
  obtain ⟨x, rfl, rfl, -, h4, h5⟩ := h
  have e2 : (2 ^ k * x) * (2 ^ k * x) = 2 ^ (2 * k) * (x * x) := by rw [pow_mul', pow_two]; ring
  refine ⟨_, _, _, _, rfl, rfl, e2, mult_of_mul h4 h4 rfl, ?_, fun _ => mul_self_nonneg x⟩
  rw [← e2, abs_mul, show (990 : Int) = 495 + 495 by norm_num, zpow_add₀ two_ne_zero]
  exact mul_le_mul h5 h5 (abs_nonneg _) (two_zpow_pos _).le

theorem rel_distanceVectorC (hA : A.IsFormat dbl) (hS : A.sqrt = Real.sqrt) (fused fused' : Bool) (h : Rescaled k b b') (x y : List Int) :
    RelRes (fun r s : Num A × List (Num A) => Times k r.1 s.1 ∧ VecSc k r.2 s.2) (b.getDistanceVectorContracted fused fused' x y)
      (b'.getDistanceVectorContracted fused fused' x y) := by
  unfold Bravais.getDistanceVectorContracted
  rw [h.dim]
  refine RelRes.bind (rel_vectorC hA fused h x y) fun u v _ _ huv => ?_
  refine RelRes.bind (rel_dot hA fused' (k := 2 * k) (e := -904) (by decide) (β := 990) (by decide) (by decide) (nn := True) h.small fun j _ => ?_) fun p q _ _ hpq => ?_
  · exact RelRes.bind (rel_subscript huv.2 j) fun x y _ _ hxy => RelRes.ok (prod_square hxy)
  · exact RelRes.ok ⟨sc_sqrt hA hS hpq.1 (hpq.2 trivial), huv⟩

theorem mul_value (hA : A.IsFormat dbl) {u v : Num A} {x : ℝ} (h : u * v = .fin x) : InFormat dbl x := by
  obtain ⟨a, c, rfl, rfl⟩ := mul_eq_fin_both h
  rw [Num.fin_mul] at h
  rw [(round_format hA h).1]
  exact fl_inFormat _

theorem rel_reciprocalC (hA : A.IsFormat dbl) (hpi : A.pi = Real.pi) (fused : Bool) (h : Rescaled k b b') (c : List Int) :
    RelRes (List.Forall₂ (Sc dbl k (-504) ((2 : ℝ) ^ (497 : Int)))) (b'.getReciprocalSpaceContracted fused c)
      (b.getReciprocalSpaceContracted fused c) := by
  unfold Bravais.getReciprocalSpaceContracted
  rw [h.dim]
  split
  · refine rel_mapRange _ fun i _ => ?_
    refine (rel_dot hA fused (e := -504) (by decide) (β := 465) (by decide) (by decide) (nn := False) h.small fun j _ => ?_).mono
      fun _ _ _ _ h => h.1
    refine RelRes.bind (RelRes.refl (R' := Eq) (fun _ => rfl) _) fun x y hx hy hxy => ?_
    subst hxy
    refine RelRes.bind (RelRes.refl (R' := Eq) (fun _ => rfl) _) fun c2 y hc2 hy hxy => ?_
    subst hxy
    refine RelRes.bind (rel_subscript (inverse_flip h) _) fun p q _ _ hpq => RelRes.ok ?_
    obtain ⟨t, t1, t2, t3⟩ := pi_factor hA hpi (abs_le_of_inLong (c := c2) (by
      obtain ⟨h5, h6⟩ := long_eq_ok.1 hc2
      rw [h6]
      exact h5))
    obtain ⟨y, rfl, rfl, h3, h4, h5⟩ := hpq
    have ht : Mult (-52) t := (value_mult_of_ge (a := 0) (mul_value hA t1) (by rwa [zpow_zero])).mono (by decide)
    have hy : Mult (-452) y := (value_mult_of_ge h3 h4).mono (by decide)
    rw [t1]
    refine ⟨_, _, _, _, rfl, rfl, by ring, mult_of_mul ht hy rfl, ?_, False.elim⟩
    rw [mul_left_comm, abs_mul, show (465 : Int) = 65 + 400 by norm_num, zpow_add₀ two_ne_zero]
    exact mul_le_mul t3 h5 (abs_nonneg _) (two_zpow_pos _).le
  · rfl

theorem times_quotient (hA : A.IsFormat dbl) {u v : Num A} (h : Sc dbl k (-504) ((2 : ℝ) ^ (497 : Int)) u v) {n : Nat} (hn0 : 0 < n)
    (hn : n < 2 ^ 64) : Times k (u / CxxFloat.ofNat n) (v / CxxFloat.ofNat n) := by
  obtain ⟨x, rfl, rfl, -, hm, h5⟩ := h
  have h1 := rn_count_ge_one (f := dbl) (K := ℝ) (k := n) hn0
  have h2 : FloatFormat.rn dbl (n : ℝ) ≤ (2 : ℝ) ^ (64 : Int) := by
    have : (n : ℝ) ≤ (2 : ℝ) ^ (64 : Int) := by
      have : ((n : Nat) : ℝ) ≤ ((2 ^ 64 : Nat) : ℝ) := by exact_mod_cast hn.le
      refine this.trans (le_of_eq ?_)
      norm_num
    have := fl_mono (f := dbl) this
    rwa [fl_value (two_zpow_value (by decide))] at this
  rw [Num.ofNat_eq, count_round hA hn, Num.fin_div (by linarith), Num.fin_div (by linarith), mul_div_assoc]
  refine (sc_round (f := dbl) hA (e := FloatFormat.ulpExp dbl (x / FloatFormat.rn dbl (n : ℝ))) (B := (2 : ℝ) ^ (497 : Int)) ?_
    (fl_mult_ulp _) (two_zpow_value (by decide)) (zpow_lt_zpow_right₀ one_lt_two (by decide)) ?_).times
  · rcases ge_of_mult hm with rfl | hge
    · rw [zero_div, mul_zero, fl_zero, mul_zero]
    · refine fl_scale_normal k ?_
      rw [abs_div, abs_of_nonneg (by linarith : (0 : ℝ) ≤ FloatFormat.rn dbl (n : ℝ)), le_div_iff₀ (by linarith)]
      refine le_trans ?_ hge
      refine (mul_le_mul_of_nonneg_left h2 (two_zpow_pos _).le).trans ?_
      rw [← zpow_add₀ two_ne_zero]
      exact zpow_le_zpow_right₀ one_le_two (by decide)
  · rw [← mul_div_assoc, abs_div, abs_of_nonneg (by linarith : (0 : ℝ) ≤ FloatFormat.rn dbl (n : ℝ)), div_le_iff₀ (by linarith)]
    exact h5.trans (le_mul_of_one_le_right (two_zpow_pos _).le h1)

/-! ### Lattices -/

variable (c : LatticeFused)

theorem rel_momentaC (hA : A.IsFormat dbl) (hpi : A.pi = Real.pi) (h : Rescaled k b b') (g : Grid)
    (hg : ∀ s ∈ g.size, 0 < s ∧ s < 2 ^ 64) :
    RelRes (List.Forall₂ (List.Forall₂ (Times k))) (Lattice.computeMomentaContracted c g b') (Lattice.computeMomentaContracted c g b) := by
  unfold Lattice.computeMomentaContracted
  split
  · exact RelRes.ok .nil
  refine rel_mapRange _ fun i _ => ?_
  unfold Lattice.computeMomentumContracted
  refine RelRes.bind (RelRes.refl (R' := Eq) (fun _ => rfl) _) fun x y _ _ hxy => ?_
  subst hxy
  refine RelRes.bind (RelRes.refl (R' := Eq) (fun _ => rfl) _) fun x y _ _ hxy => ?_
  subst hxy
  refine RelRes.bind (rel_reciprocalC hA hpi _ h _) fun u v _ _ huv => ?_
  rw [huv.length_eq]
  refine rel_mapRange _ fun i _ => ?_
  refine RelRes.bind (RelRes.refl (R' := Eq) (fun _ => rfl) _) fun s y hs _ hxy => ?_
  subst hxy
  obtain ⟨h0, h1⟩ := hg s (subscript_mem' hs)
  exact RelRes.bind (rel_subscript huv i) fun p q _ _ hpq => RelRes.ok (times_quotient hA hpq h0 h1)

theorem rel_positionsC (hA : A.IsFormat dbl) (h : Rescaled k b b') (g : Grid) :
    RelRes (List.Forall₂ (VecSc k)) (Lattice.computePositionsContracted c g b) (Lattice.computePositionsContracted c g b') := by
  unfold Lattice.computePositionsContracted
  refine RelRes.bind (RelRes.refl (R' := Eq) (fun _ => rfl) _) fun x y _ _ hxy => ?_
  subst hxy
  refine rel_mapRange _ fun i _ => ?_
  refine RelRes.bind (RelRes.refl (R' := Eq) (fun _ => rfl) _) fun x y _ _ hxy => ?_
  subst hxy
  exact rel_vectorC hA _ h _ _

/-- The image found to be the nearest does not depend on the unit: all distances compared are multiplied by 2^k. -/
theorem rel_vectorsC (hA : A.IsFormat dbl) (hS : A.sqrt = Real.sqrt) (h : Rescaled k b b') (g : Grid) :
    RelRes (List.Forall₂ (VecSc k)) (Lattice.computeVectorsContracted c g b) (Lattice.computeVectorsContracted c g b') := by
  unfold Lattice.computeVectorsContracted
  refine RelRes.bind (RelRes.refl (R' := Eq) (fun _ => rfl) _) fun x y _ _ hxy => ?_
  subst hxy
  refine rel_mapRange _ fun i _ => ?_
  refine RelRes.bind (RelRes.refl (R' := Eq) (fun _ => rfl) _) fun cs y _ _ hxy => ?_
  subst hxy
  refine RelRes.bind (rel_distanceVectorC hA hS _ _ h _ _) fun r s _ _ hrs => ?_
  dsimp only
  split
  · refine RelRes.bind (R := fun r s : Num A × List (Num A) => Times k r.1 s.1 ∧ VecSc k r.2 s.2) ?_ fun r s _ _ hrs => RelRes.ok hrs.2
    refine rel_foldRange _ (fun j r s _ hrs => ?_) hrs
    unfold Lattice.tryImageContracted
    refine RelRes.bind (RelRes.refl (R' := Eq) (fun _ => rfl) _) fun img y _ _ hxy => ?_
    subst hxy
    refine RelRes.bind (RelRes.refl (R' := Eq) (fun _ => rfl) _) fun csm y _ _ hxy => ?_
    subst hxy
    refine RelRes.bind (rel_distanceVectorC hA hS _ _ h _ _) fun r' s' _ _ hrs' => RelRes.ok ?_
    rw [times_lt hrs'.1 hrs.1]
    split
    · exact hrs'
    · exact hrs
  · exact RelRes.ok hrs.2

theorem sumSquares_units (hA : A.IsFormat dbl) (fused : Bool) {u v : List (Num A)} (h : VecSc k u v) :
    Acc2 (2 * k) (-904) ((2 : ℝ) ^ (1022 : Int)) True (u.foldl (fun d x => mulAdd fused x x d) (CxxFloat.ofInt 0 : Num A))
      (v.foldl (fun d x => mulAdd fused x x d) (CxxFloat.ofInt 0 : Num A)) := by
  have h0 : (CxxFloat.ofInt 0 : Num A) = CxxFloat.zero := by
    rw [(int_round hA (c := 0) (by norm_num)).1, Int.cast_zero, fl_zero]; rfl
  have key : ∀ (u v : List (Num A)) (j : Nat) (a c : Num A), j + u.length ≤ 2 ^ 32 →
      List.Forall₂ (Sc dbl k (-452) ((2 : ℝ) ^ (495 : Int))) u v → Acc2 (2 * k) (-904) ((j : ℝ) * (2 : ℝ) ^ (990 : Int)) True a c →
      Acc2 (2 * k) (-904) ((2 : ℝ) ^ (1022 : Int)) True (u.foldl (fun d x => mulAdd fused x x d) a)
        (v.foldl (fun d x => mulAdd fused x x d) c) := by
    intro u v j a c hj huv
    induction huv generalizing j a c with
    | nil => exact fun h1 => ⟨h1.1.mono (count_le (n := 32) hj 990), h1.2⟩
    | @cons x y xs ys hxy _ ih =>
      intro h1
      rw [List.length_cons] at hj
      exact ih (j + 1) _ _ (by omega) (acc_step hA fused (by decide) (by decide) (by decide) (by omega) (prod_square hxy) h1)
  rw [h0]
  exact key u v 0 _ _ (by simpa using h.1) h.2 (acc_zero _ _ (by simp))

theorem rel_latticeC (hA : A.IsFormat dbl) (hS : A.sqrt = Real.sqrt) (hpi : A.pi = Real.pi) (h : Rescaled k b b') (size : List Nat)
    (hs : ∀ s ∈ size, 0 < s ∧ s < 2 ^ 64) (bd : Boundaries) :
    RelRes (LatTimes k) (Lattice.newContracted c b size bd) (Lattice.newContracted c b' size bd) := by
  have vec : ∀ {u v : List (Num A)}, VecSc k u v → List.Forall₂ (Times k) u v := fun h => h.2.imp fun _ _ h => h.times
  unfold Lattice.newContracted
  refine RelRes.bind (rel_positionsC c hA h _) fun p p' _ _ hp => ?_
  refine RelRes.bind (rel_vectorsC c hA hS h _) fun v v' _ _ hv => ?_
  rw [rel_neighbors h]
  refine RelRes.bind (RelRes.refl (R' := Eq) (fun _ => rfl) _) fun n n' _ _ hn => ?_
  subst hn
  have hm := rel_momentaC c hA hpi h (Grid.new size bd) hs
  refine RelRes.bind (R := fun m m' => List.Forall₂ (List.Forall₂ (Times k)) m' m) ?_ fun m m' _ _ hm => RelRes.ok ?_
  · revert hm
    generalize Lattice.computeMomentaContracted c (Grid.new size bd) b' = x
    generalize Lattice.computeMomentaContracted c (Grid.new size bd) b = y
    intro hm
    cases x <;> cases y <;> first | exact False.elim hm | skip
    · exact hm
    · exact Eq.symm hm
    · exact Eq.symm hm
    · trivial
  · refine ⟨rfl, hp.imp fun _ _ => vec, hv.imp fun _ _ => vec, ?_, rfl, hm⟩
    unfold Lattice.computeDistancesContracted
    rw [List.forall₂_map_left_iff, List.forall₂_map_right_iff]
    exact hv.imp fun u v huv => sc_sqrt hA hS (sumSquares_units hA c.distance huv).1 ((sumSquares_units hA c.distance huv).2 trivial)

theorem mulAdd_times (fused : Bool) {p q u v : Num A} (h : Times k q p) (h' : Times k u v) (z : Num A) :
    mulAdd fused q v z = mulAdd fused p u z := by
  cases fused with
  | false =>
    show z + q * v = z + p * u
    rw [times_mul h h']
  | true =>
    obtain ⟨x, rfl, rfl⟩ := h
    obtain ⟨y, rfl, rfl⟩ := h'
    have e : x * (2 ^ k * y) = 2 ^ k * x * y := by ring
    show Num.fma _ _ _ = Num.fma _ _ _
    cases z with
    | fin r =>
      show Num.round A (x * (2 ^ k * y) + r) = Num.round A (2 ^ k * x * y + r)
      rw [e]
    | nan => rfl
    | inf _ => rfl

theorem fourier_unitsC {T : Type} (s : SkFused) (conv : T → Num A) {l l' : Lattice (Num A)} (h : LatTimes k l l') (occ : List T)
    {m m' : List (Num A)} (hm : List.Forall₂ (Times k) m' m) : l'.fourierContracted s conv occ m' = l.fourierContracted s conv occ m := by
  rw [← RelRes.eq]
  unfold Lattice.fourierContracted
  rw [h.grid]
  refine rel_foldRange _ (fun j t t' _ hst => ?_) rfl
  subst hst
  have hv := rel_getVector h 0 j
  refine RelRes.bind (R := fun v' v => List.Forall₂ (Times k) v v') ?_ fun v' v _ _ hv => ?_
  · revert hv
    generalize l.getVector 0 j = x
    generalize l'.getVector 0 j = y
    intro hv
    cases x <;> cases y <;> first | exact False.elim hv | skip
    · exact hv
    · exact Eq.symm hv
    · exact Eq.symm hv
    · trivial
  refine RelRes.bind (R := Eq) ?_ fun p q _ _ hpq => ?_
  · have key : ∀ n i (a : Num A), RelRes Eq (dotFrom s.phase (fun q => do
          let kq ← subscript m' q
          let xq ← subscript v' q
          .ok (kq, xq)) a i n) (dotFrom s.phase (fun q => do
          let kq ← subscript m q
          let xq ← subscript v q
          .ok (kq, xq)) a i n) := by
      intro n
      induction n with
      | zero => exact fun i a => RelRes.ok rfl
      | succ n ih =>
        intro i a
        refine RelRes.bind (R := fun p q : Num A × Num A => Times k p.1 q.1 ∧ Times k q.2 p.2) ?_ fun p q _ _ hpq => ?_
        · refine RelRes.bind (rel_subscript hm i) fun p' p _ _ hp => ?_
          exact RelRes.bind (R := fun v' v => Times k v v') (rel_subscript hv.flip i) fun v' v _ _ hv => RelRes.ok ⟨hp, hv⟩
        · rw [mulAdd_times s.phase hpq.1 hpq.2]
          exact ih _ _
    exact key _ _ _
  · subst hpq
    exact RelRes.refl (fun _ => rfl) _

/-! ## The results -/

variable (hA : A.IsBinary64) (hS : A.sqrt = Real.sqrt) (hpi : A.pi = Real.pi) (h : Rescaled k b b') {size : List Nat}
  (hs : ∀ s ∈ size, 0 < s ∧ s < 2 ^ 64) {bd : Boundaries}
include hA hS hpi h hs

/-- C186.  Whatever is fused (the same in both units): the two lattices can both be built or neither, and then have the same
sites and neighbours; all positions, vectors and distances are multiplied by 2^k and all momenta divided by it, without any
rounding. -/
theorem C186_lattice : RelRes (fun l l' => l'.grid = l.grid ∧ (∀ i, l'.getNeighbors i = l.getNeighbors i) ∧
    (∀ i, RelRes (List.Forall₂ (Times k)) (l.getPosition i) (l'.getPosition i)) ∧
    (∀ i j, RelRes (List.Forall₂ (Times k)) (l.getVector i j) (l'.getVector i j)) ∧
    (∀ i j, RelRes (Times k) (l.getDistance i j) (l'.getDistance i j)) ∧
    ∀ i, RelRes (List.Forall₂ (Times k)) (l'.getMomentum i) (l.getMomentum i))
    (Lattice.newContracted c b size bd) (Lattice.newContracted c b' size bd) := by
  refine (rel_latticeC c (isFormat_double.2 hA) hS hpi h size hs bd).mono fun l l' _ _ hr => ⟨?_, fun i => ?_, fun i => ?_, fun i j => ?_,
    fun i j => ?_, fun i => ?_⟩
  · exact hr.grid
  · unfold Lattice.getNeighbors
    rw [hr.neighbors]
  · unfold Lattice.getPosition
    rw [hr.grid]
    split
    · exact rel_subscript hr.position i
    · rfl
  · exact rel_getVector hr i j
  · unfold Lattice.getDistance
    rw [hr.grid]
    split
    · refine RelRes.bind (RelRes.refl (R' := Eq) (fun _ => rfl) _) fun s y _ _ hxy => ?_
      subst hxy
      exact rel_subscript hr.distance s
    · rfl
  · unfold Lattice.getMomentum
    rw [hr.grid]
    split
    · exact rel_subscript hr.momenta i
    · rfl

/-- C186.  The static structure factor is the same to the last bit, whatever is fused. -/
theorem C186_structure_factor {l l' : Lattice (Num A)} (hl : Lattice.newContracted c b size bd = .ok l)
    (hl' : Lattice.newContracted c b' size bd = .ok l') {T : Type} (s : SkFused) (conv : T → Num A) (occ : List T) (sk : List (Num A))
    (mult : Num A) : l'.accumulateSkContracted s conv occ sk mult = l.accumulateSkContracted s conv occ sk mult ∧
      l'.computeSkContracted s conv occ mult = l.computeSkContracted s conv occ mult := by
  have hr := rel_latticeC c (isFormat_double.2 hA) hS hpi h size hs bd
  rw [hl, hl'] at hr
  have acc : ∀ sk, l'.accumulateSkContracted s conv occ sk mult = l.accumulateSkContracted s conv occ sk mult := by
    intro sk
    rw [← RelRes.eq]
    unfold Lattice.accumulateSkContracted
    rw [hr.grid]
    split
    · exact RelRes.ok rfl
    · refine RelRes.bind (R := List.Forall₂ Eq) (rel_mapRange _ fun i _ => ?_) fun u v _ _ huv => ?_
      · refine RelRes.bind (rel_subscript hr.momenta i) fun m' m _ _ hm => ?_
        rw [fourier_unitsC s conv hr occ hm]
        exact RelRes.refl (fun _ => rfl) _
      · rw [List.forall₂_eq_eq_eq] at huv
        rw [huv]
        exact RelRes.ok rfl
  refine ⟨acc sk, ?_⟩
  unfold Lattice.computeSkContracted
  rw [hr.grid]
  split
  · rfl
  · exact acc _

end

/-- Two square lattices of 10 by 20 sites, with lattice constants 1 and 2^20, built with everything fused. -/
example : ∃ b b' : Bravais (Num doubleArith), squareLattice = .ok b ∧ Rescaled 20 b b' ∧ ∃ l l',
    Lattice.newContracted ⟨true, true, true, true, true, true, true⟩ b [10, 20] .closed = .ok l ∧
    Lattice.newContracted ⟨true, true, true, true, true, true, true⟩ b' [10, 20] .closed = .ok l' := by
  obtain ⟨b, b', h1, -, h2⟩ := square_rescaled (k := 20) (by norm_num)
  obtain ⟨b'', h3, h4⟩ := square_regular (F := Num doubleArith)
  rw [h1, Res.ok.injEq] at h3
  subst h3
  have hs : Buildable [10, 20] := ⟨⟨by decide, by norm_num⟩, by norm_num⟩
  obtain ⟨l, hl, -⟩ := C73_defined hs (b := b) h4 .closed (fun _ => by decide)
  have hl' := C184_predefined (size := [10, 20]) doubleArith_isBinary64 doubleArith_sqrt (Or.inr (Or.inl h1)) h4.dim.symm hs
    (by norm_num) ⟨true, true, true, true, true, true, true⟩ .closed
  have hr := C186_lattice ⟨true, true, true, true, true, true, true⟩ doubleArith_isBinary64 doubleArith_sqrt doubleArith_isTrig.pi h2
    (size := [10, 20]) (by decide) (bd := .closed)
  rw [hl', hl] at hr
  obtain ⟨l', h5, -⟩ := hr.left
  exact ⟨b, b', h1, h2, l, l', hl'.trans hl, h5⟩

end Bwsl
