import Verif.Lemmas.Related
import Verif.Props.Scaled
import Verif.Props.MomentaDouble

/-! Property C182: another unit of length. -/

namespace Bwsl
open Spec FloatFormat

set_option linter.unusedSectionVars false

/-- The same Bravais lattice in units of length that are smaller by 2^k: the primitive vectors are multiplied by 2^k, their
inverses divided by it.  All components that are not zero are between 2^-400 and 2^400. -/
structure Spec.Rescaled {A : Arith ℝ} (k : Nat) (b b' : Bravais (Num A)) : Prop where
  dim : b'.dim = b.dim
  gamma : b'.gamma = b.gamma
  neighbors : b'.neighbors = b.neighbors
  small : b.dim ≤ 2 ^ 32
  direct : List.Forall₂ (fun u v : Num A => ∃ x : ℝ, u = .fin x ∧ v = .fin (2 ^ k * x) ∧ Double x ∧
    (x = 0 ∨ (2 : ℝ) ^ (-400 : Int) ≤ |x|) ∧ |2 ^ k * x| ≤ (2 : ℝ) ^ (400 : Int)) b.pvectors b'.pvectors
  inverse : List.Forall₂ (fun u v : Num A => ∃ x : ℝ, u = .fin (2 ^ k * x) ∧ v = .fin x ∧ Double x ∧
    (x = 0 ∨ (2 : ℝ) ^ (-400 : Int) ≤ |x|) ∧ |2 ^ k * x| ≤ (2 : ℝ) ^ (400 : Int)) b.pivectors b'.pivectors

/-- `v` is 2^k times `u`. -/
def Spec.Times {A : Arith ℝ} (k : Nat) (u v : Num A) : Prop := ∃ x : ℝ, u = .fin x ∧ v = .fin (2 ^ k * x)

section
variable {A : Arith ℝ} {f : FloatFormat} {k : Nat}

/-- `v` is 2^k times `u`, a multiple of 2^e, and at most `B`. -/
def Sc (f : FloatFormat) (k : Nat) (e : Int) (B : ℝ) (u v : Num A) : Prop :=
  ∃ x : ℝ, u = .fin x ∧ v = .fin (2 ^ k * x) ∧ InFormat f x ∧ Mult e x ∧ |2 ^ k * x| ≤ B

theorem Sc.times {e : Int} {B : ℝ} {u v : Num A} (h : Sc f k e B u v) : Times k u v := by
  obtain ⟨x, h1, h2, -⟩ := h
  exact ⟨x, h1, h2⟩

theorem Sc.mono {e : Int} {B B' : ℝ} {u v : Num A} (h : Sc f k e B u v) (hB : B ≤ B') : Sc f k e B' u v := by
  obtain ⟨x, h1, h2, h3, h4, h5⟩ := h
  exact ⟨x, h1, h2, h3, h4, h5.trans hB⟩

theorem sc_round (hA : A.IsFormat f) {e : Int} {x B : ℝ} (hs : f.rn (2 ^ k * x) = 2 ^ k * f.rn x) (hm : Mult e (f.rn x))
    (hB : InFormat f B) (hB' : B < (2 : ℝ) ^ f.emax) (h : |2 ^ k * x| ≤ B) :
    Sc f k e B (Num.round A x) (Num.round A (2 ^ k * x)) := by
  have hle := fl_abs_le hB h
  refine ⟨f.rn x, Num.round_of ?_, ?_, fl_inFormat x, hm, by rw [← hs]; exact hle⟩
  · rw [hA, FloatFormat.rnd, if_pos (((fl_le_scale k x).trans hle).trans_lt hB')]
  · rw [← hs]
    refine Num.round_of ?_
    rw [hA, FloatFormat.rnd, if_pos (hle.trans_lt hB')]

theorem sc_round_mult (hA : A.IsFormat f) {e : Int} (he : f.emin ≤ e) {x B : ℝ} (hm : Mult e x)
    (hB : InFormat f B) (hB' : B < (2 : ℝ) ^ f.emax) (h : |2 ^ k * x| ≤ B) :
    Sc f k e B (Num.round A x) (Num.round A (2 ^ k * x)) :=
  sc_round hA (fl_scale k (hm.mono he)) (fl_mult hm) hB hB' h

theorem sc_add (hA : A.IsFormat f) {e : Int} (he : f.emin ≤ e) {u v u' v' : Num A} {B B' : ℝ} (h : Sc f k e B u v)
    (h' : Sc f k e B' u' v') (hB : InFormat f (B + B')) (hB' : B + B' < (2 : ℝ) ^ f.emax) : Sc f k e (B + B') (u + u') (v + v') := by
  obtain ⟨x, rfl, rfl, h3, h4, h5⟩ := h
  obtain ⟨y, rfl, rfl, h3', h4', h5'⟩ := h'
  rw [Num.fin_add, Num.fin_add, ← mul_add]
  refine sc_round_mult hA he (h4.add h4') hB hB' ?_
  rw [mul_add]
  exact (abs_add_le _ _).trans (add_le_add h5 h5')

theorem sc_zero (e : Int) {B : ℝ} (hB : 0 ≤ B) : Sc f k e B (CxxFloat.zero : Num A) CxxFloat.zero :=
  ⟨0, rfl, by rw [mul_zero]; rfl, zero_value, ⟨0, by simp⟩, by simpa using hB⟩

theorem count_value {j : Nat} (hj : j ≤ 2 ^ f.prec) {β : Int} (hβ : f.emin ≤ β) : InFormat f ((j : ℝ) * (2 : ℝ) ^ β) :=
  ⟨j, β, by rw [Nat.abs_cast]; exact_mod_cast hj, hβ, by simp⟩

theorem count_le {j n : Nat} (hj : j ≤ 2 ^ n) (β : Int) : (j : ℝ) * (2 : ℝ) ^ β ≤ (2 : ℝ) ^ (β + n) := by
  rw [zpow_add₀ two_ne_zero, mul_comm, zpow_natCast]
  exact mul_le_mul_of_nonneg_left (by exact_mod_cast hj) (two_zpow_pos β).le

/-- A value of at least 2^a is a multiple of 2^(a - prec + 1). -/
theorem mult_of_ge {x : ℝ} {a : Int} (h : x = 0 ∨ (2 : ℝ) ^ a ≤ |x|) : Mult (a - (f.prec - 1)) (f.rn x) := by
  rcases h with rfl | h
  · rw [fl_zero]; exact ⟨0, by simp⟩
  · refine (fl_mult_ulp x).mono ?_
    have h0 : 0 < |x| := (two_zpow_pos a).trans_le h
    have := (Int.zpow_le_iff_le_log (b := 2) (by norm_num) h0).1 (by push_cast; exact h)
    unfold FloatFormat.ulpExp
    omega

theorem ge_of_mult {x : ℝ} {e : Int} (h : Mult e x) : x = 0 ∨ (2 : ℝ) ^ e ≤ |x| := by
  obtain ⟨m, rfl⟩ := h
  by_cases hm : m = 0
  · left; simp [hm]
  · right
    rw [abs_mul, abs_of_pos (two_zpow_pos (K := ℝ) e)]
    have h1 : (1 : ℝ) ≤ |(m : ℝ)| := by
      have : 1 ≤ |m| := Int.one_le_abs hm
      exact_mod_cast this
    have := two_zpow_pos (K := ℝ) e
    nlinarith

/-- Sums of `n` such terms. -/
theorem sc_accumulate (hA : A.IsFormat f) {e β : Int} (he : f.emin ≤ e) (hβ : f.emin ≤ β) {n : Nat} (hn : n ≤ 2 ^ 32)
    (hp : 32 ≤ f.prec) (hβ' : β + 32 < f.emax) {g g' : Nat → Res (Num A)}
    (h : ∀ j, j < n → RelRes (Sc f k e ((2 : ℝ) ^ β)) (g j) (g' j)) :
    RelRes (Sc f k e ((2 : ℝ) ^ (β + 32))) (accumulate n g) (accumulate n g') := by
  have hpow : (2 : Nat) ^ 32 ≤ 2 ^ f.prec := Nat.pow_le_pow_right (by norm_num) hp
  refine (rel_accumulate n (fun j => Sc f k e ((j : ℝ) * (2 : ℝ) ^ β)) (sc_zero e (by simp)) h ?_).mono
    fun a b _ _ hab => hab.mono (count_le hn β)
  intro j a b x y hj hab hxy
  have e1 : (j : ℝ) * (2 : ℝ) ^ β + (2 : ℝ) ^ β = ((j + 1 : Nat) : ℝ) * (2 : ℝ) ^ β := by push_cast; ring
  have := sc_add hA he hab hxy (by rw [e1]; exact count_value (by omega) hβ) (by
    rw [e1]
    exact (count_le (by omega : j + 1 ≤ 2 ^ 32) β).trans_lt (zpow_lt_zpow_right₀ one_lt_two (by exact_mod_cast hβ')))
  rwa [e1] at this

/-! ### Bravais lattices -/

theorem int_round (hA : A.IsFormat f) {c : Int} (hc : |c| ≤ 2 ^ 63) :
    (CxxFloat.ofInt c : Num A) = .fin (f.rn (c : ℝ)) ∧ |f.rn (c : ℝ)| ≤ (2 : ℝ) ^ (63 : Int) ∧ Mult 0 (f.rn (c : ℝ)) := by
  have h1 := f.emin_le
  have h2 := f.emax_gt
  have hc' : |(c : ℝ)| ≤ (2 : ℝ) ^ (63 : Int) := by
    rw [← Int.cast_abs]
    have : ((|c| : Int) : ℝ) ≤ ((2 ^ 63 : Int) : ℝ) := by exact_mod_cast hc
    refine this.trans (le_of_eq ?_)
    norm_num
  refine ⟨?_, fl_abs_le (two_zpow_value (by omega)) hc', fl_mult ⟨c, by simp⟩⟩
  rw [Num.ofInt_eq]
  exact round_le hA (by omega) (by omega) hc'

theorem sc_int_mul (hA : A.IsFormat f) {e β : Int} (he : f.emin ≤ e) (hβ : f.emin ≤ β) (hβ' : β + 63 < f.emax) {c : Int}
    (hc : |c| ≤ 2 ^ 63) {u v : Num A} (h : Sc f k e ((2 : ℝ) ^ β) u v) :
    Sc f k e ((2 : ℝ) ^ (β + 63)) (CxxFloat.ofInt c * u) (CxxFloat.ofInt c * v) := by
  obtain ⟨x, rfl, rfl, h3, ⟨m, h4⟩, h5⟩ := h
  obtain ⟨i1, i2, ⟨j, i3⟩⟩ := int_round hA hc
  rw [i1, Num.fin_mul, Num.fin_mul, mul_left_comm]
  refine sc_round_mult hA he ⟨j * m, ?_⟩ (two_zpow_value (by omega)) (zpow_lt_zpow_right₀ one_lt_two hβ') ?_
  · rw [i3, h4, zpow_zero]; push_cast; ring
  · rw [mul_left_comm, abs_mul, zpow_add₀ two_ne_zero, mul_comm ((2 : ℝ) ^ β)]
    exact mul_le_mul i2 h5 (abs_nonneg _) (two_zpow_pos _).le

end

section
variable {A : Arith ℝ} {k : Nat} {b b' : Bravais (Num A)}

local notation "dbl" => FloatFormat.double

theorem direct_sc (h : Rescaled k b b') :
    List.Forall₂ (Sc dbl k (-452) ((2 : ℝ) ^ (400 : Int))) b.pvectors b'.pvectors := by
  refine h.direct.imp ?_
  rintro u v ⟨x, h1, h2, h3, h4, h5⟩
  have hx : InFormat dbl x := h3
  refine ⟨x, h1, h2, hx, ?_, h5⟩
  have := mult_of_ge (f := dbl) h4
  rwa [fl_value hx] at this

/-- GetRealSpace. -/
theorem rel_realSpace (hA : A.IsFormat dbl) (h : Rescaled k b b') (c : List Int) (hc : ∀ x ∈ c, |x| ≤ 2 ^ 63) :
    RelRes (List.Forall₂ (Sc dbl k (-452) ((2 : ℝ) ^ (495 : Int)))) (b.getRealSpace c) (b'.getRealSpace c) := by
  unfold Bravais.getRealSpace
  rw [h.dim]
  split
  · refine rel_mapRange _ fun i _ => ?_
    refine sc_accumulate hA (by decide) (β := 463) (by decide) h.small (by decide) (by decide) fun j _ => ?_
    refine RelRes.bind (RelRes.refl (R' := Eq) (fun _ => rfl) _) fun x y hx hy hxy => ?_
    subst hxy
    refine RelRes.bind (rel_subscript (direct_sc h) _) fun p q _ _ hpq => ?_
    exact RelRes.ok (sc_int_mul hA (by decide) (β := 400) (by decide) (by decide) (hc x (List.mem_of_getElem? (getElem_of_subscript hx))) hpq)
  · rfl

theorem length_realSpace {c : List Int} {p : List (Num A)} (h : b.getRealSpace c = .ok p) : p.length = b.dim := by
  unfold Bravais.getRealSpace at h
  split at h
  · exact (mapRange_eq_ok h).1
  · cases h

/-- GetVector. -/
theorem rel_vector (hA : A.IsFormat dbl) (h : Rescaled k b b') (x y : List Int) :
    RelRes (fun u v => u.length ≤ 2 ^ 32 ∧ List.Forall₂ (Sc dbl k (-452) ((2 : ℝ) ^ (495 : Int))) u v)
      (b.getVector x y) (b'.getVector x y) := by
  unfold Bravais.getVector
  rw [h.dim]
  refine RelRes.bind (RelRes.refl (R' := Eq) (fun _ => rfl) _) fun p q hp _ hpq => ?_
  subst hpq
  refine (rel_realSpace hA h p ?_).mono fun u v hu _ huv => ⟨by rw [length_realSpace hu]; exact h.small, huv⟩
  intro c hc
  obtain ⟨i, hi, rfl⟩ := List.getElem_of_mem hc
  obtain ⟨h1, h2⟩ := mapRange_eq_ok hp
  obtain ⟨z, h3, h4⟩ := h2 i (by omega)
  rw [List.getElem?_eq_getElem hi, Option.some.injEq] at h3
  rw [h3]
  obtain ⟨y', -, h4⟩ := Res.bind_eq_ok.1 h4
  obtain ⟨x', -, h4⟩ := Res.bind_eq_ok.1 h4
  obtain ⟨h5, rfl⟩ := long_eq_ok.1 h4
  unfold InLong at h5
  rw [abs_le]
  constructor <;> omega

theorem sc_square (hA : A.IsFormat dbl) {u v : Num A} (h : Sc dbl k (-452) ((2 : ℝ) ^ (495 : Int)) u v) :
    Sc dbl (2 * k) (-904) ((2 : ℝ) ^ (990 : Int)) (squareF u) (squareF v) ∧ ∀ x, squareF u = .fin x → 0 ≤ x := by
  obtain ⟨x, rfl, rfl, -, ⟨m, hm⟩, h5⟩ := h
  have e2 : (2 ^ k * x) * (2 ^ k * x) = 2 ^ (2 * k) * (x * x) := by rw [pow_mul', pow_two]; ring
  unfold squareF
  rw [Num.fin_mul, Num.fin_mul, e2]
  constructor
  · refine sc_round_mult hA (by decide) ⟨m * m, ?_⟩ (two_zpow_value (by decide)) (zpow_lt_zpow_right₀ one_lt_two (by decide)) ?_
    · rw [hm, show (-904 : Int) = -452 + -452 by norm_num, zpow_add₀ two_ne_zero]; push_cast; ring
    · rw [← e2, abs_mul, show (990 : Int) = 495 + 495 by norm_num, zpow_add₀ two_ne_zero]
      exact mul_le_mul h5 h5 (abs_nonneg _) (two_zpow_pos _).le
  · intro y hy
    rw [(round_format hA hy).1]
    exact fl_nonneg (mul_self_nonneg x)

theorem nonneg_fin_add (hA : A.IsFormat dbl) {u v : Num A} (hu : ∀ x, u = .fin x → 0 ≤ x) (hv : ∀ x, v = .fin x → 0 ≤ x) :
    ∀ x, u + v = .fin x → 0 ≤ x := by
  intro x hx
  obtain ⟨a, b, rfl, rfl⟩ := Num.add_eq_fin hx
  rw [Num.fin_add] at hx
  rw [(round_format hA hx).1]
  exact fl_nonneg (add_nonneg (hu a rfl) (hv b rfl))

theorem sc_sqrt (hA : A.IsFormat dbl) (hS : A.sqrt = Real.sqrt) {u v : Num A}
    (h : Sc dbl (2 * k) (-904) ((2 : ℝ) ^ (1022 : Int)) u v) (h0 : ∀ x, u = .fin x → 0 ≤ x) :
    Times k (CxxFloat.sqrt u) (CxxFloat.sqrt v) := by
  obtain ⟨x, rfl, rfl, -, hm, h5⟩ := h
  have hx := h0 x rfl
  have e2 : √(2 ^ (2 * k) * x) = 2 ^ k * √x := by
    rw [pow_mul', Real.sqrt_mul (by positivity), Real.sqrt_sq (by positivity)]
  rw [Num.sqrt_fin hx, Num.sqrt_fin (by positivity), hS, e2]
  refine (sc_round (f := dbl) hA (e := FloatFormat.ulpExp dbl √x) (B := (2 : ℝ) ^ (511 : Int)) ?_ (fl_mult_ulp _) (two_zpow_value (by decide))
    (zpow_lt_zpow_right₀ one_lt_two (by decide)) ?_).times
  · rcases ge_of_mult hm with rfl | hge
    · rw [Real.sqrt_zero, mul_zero, fl_zero, mul_zero]
    · refine fl_scale_normal k ?_
      rw [abs_of_nonneg (Real.sqrt_nonneg _)]
      refine Real.le_sqrt_of_sq_le ?_
      rw [abs_of_nonneg hx] at hge
      refine le_trans ?_ hge
      rw [← zpow_natCast, ← zpow_mul]
      exact zpow_le_zpow_right₀ one_le_two (by decide)
  · rw [← e2, abs_of_nonneg (Real.sqrt_nonneg _), Real.sqrt_le_left (two_zpow_pos _).le]
    rw [abs_of_nonneg (by positivity)] at h5
    refine h5.trans (le_of_eq ?_)
    rw [← zpow_natCast, ← zpow_mul]
    norm_num

/-- What is known of a vector. -/
abbrev VecSc (k : Nat) (u v : List (Num A)) : Prop :=
  u.length ≤ 2 ^ 32 ∧ List.Forall₂ (Sc dbl k (-452) ((2 : ℝ) ^ (495 : Int))) u v

theorem rel_accumulate_squares (hA : A.IsFormat dbl) {n : Nat} (hn : n ≤ 2 ^ 32) {u v : List (Num A)} (h : VecSc k u v) :
    RelRes (fun a b : Num A => Sc dbl (2 * k) (-904) ((2 : ℝ) ^ (1022 : Int)) a b ∧ ∀ x, a = .fin x → 0 ≤ x)
      (accumulate n (fun i => do let x ← subscript u i; .ok (squareF x)))
      (accumulate n (fun i => do let x ← subscript v i; .ok (squareF x))) := by
  refine (rel_accumulate n (fun j a b => Sc dbl (2 * k) (-904) ((j : ℝ) * (2 : ℝ) ^ (990 : Int)) a b ∧ ∀ x, a = .fin x → 0 ≤ x)
    ⟨sc_zero _ (by simp), by rintro x ⟨⟩; exact le_rfl⟩
    (R := fun a b => Sc dbl (2 * k) (-904) ((2 : ℝ) ^ (990 : Int)) a b ∧ ∀ x, a = .fin x → 0 ≤ x) ?_ ?_).mono
    fun a b _ _ hab => ⟨hab.1.mono (count_le hn 990), hab.2⟩
  · intro j _
    exact RelRes.bind (rel_subscript h.2 j) fun x y _ _ hxy => RelRes.ok (sc_square hA hxy)
  · intro j a b x y hj hab hxy
    refine ⟨?_, nonneg_fin_add hA hab.2 hxy.2⟩
    have e1 : (j : ℝ) * (2 : ℝ) ^ (990 : Int) + (2 : ℝ) ^ (990 : Int) = ((j + 1 : Nat) : ℝ) * (2 : ℝ) ^ (990 : Int) := by
      push_cast; ring
    have hj' : j + 1 ≤ 2 ^ 53 := le_trans (by omega : j + 1 ≤ 2 ^ 32) (by norm_num)
    have := sc_add hA (by decide) hab.1 hxy.1 (by rw [e1]; exact count_value (f := dbl) hj' (by decide)) (by
      rw [e1]
      exact (count_le (by omega : j + 1 ≤ 2 ^ 32) 990).trans_lt (zpow_lt_zpow_right₀ one_lt_two (by decide)))
    rwa [e1] at this

/-- GetDistanceVector and GetDistance. -/
theorem rel_distanceVector (hA : A.IsFormat dbl) (hS : A.sqrt = Real.sqrt) (h : Rescaled k b b') (x y : List Int) :
    RelRes (fun r s : Num A × List (Num A) => Times k r.1 s.1 ∧ VecSc k r.2 s.2) (b.getDistanceVector x y) (b'.getDistanceVector x y) := by
  unfold Bravais.getDistanceVector
  rw [h.dim]
  refine RelRes.bind (rel_vector hA h x y) fun u v _ _ huv => ?_
  refine RelRes.bind (rel_accumulate_squares hA h.small huv) fun p q _ _ hpq => ?_
  exact RelRes.ok ⟨sc_sqrt hA hS hpq.1 hpq.2, huv⟩

theorem rel_distance (hA : A.IsFormat dbl) (hS : A.sqrt = Real.sqrt) (h : Rescaled k b b') (x y : List Int) :
    RelRes (Times k) (b.getDistance x y) (b'.getDistance x y) := by
  unfold Bravais.getDistance
  rw [h.dim]
  refine RelRes.bind (rel_vector hA h x y) fun u v _ _ huv => ?_
  refine RelRes.bind (rel_accumulate_squares hA h.small huv) fun p q _ _ hpq => ?_
  exact RelRes.ok (sc_sqrt hA hS hpq.1 hpq.2)

theorem neighbor_rescaled (h : Rescaled k b b') (p : List Int) (i : Nat) : b'.getNeighbor p i = b.getNeighbor p i := by
  unfold Bravais.getNeighbor
  rw [h.dim, h.neighbors]

/-! ### Reciprocal space -/

theorem inverse_flip (h : Rescaled k b b') : List.Forall₂ (fun u v : Num A => ∃ x : ℝ, u = .fin x ∧ v = .fin (2 ^ k * x) ∧ Double x ∧
    (x = 0 ∨ (2 : ℝ) ^ (-400 : Int) ≤ |x|) ∧ |2 ^ k * x| ≤ (2 : ℝ) ^ (400 : Int)) b'.pivectors b.pivectors := by
  refine h.inverse.flip.imp ?_
  rintro u v ⟨x, h1, h2, h3⟩
  exact ⟨x, h2, h1, h3⟩

theorem pi_factor (hA : A.IsFormat dbl) (hpi : A.pi = Real.pi) {c : Int} (hc : |c| ≤ 2 ^ 63) :
    ∃ t : ℝ, (CxxFloat.ofInt c * CxxFloat.pi : Num A) = .fin t ∧ (t = 0 ∨ 1 ≤ |t|) ∧ |t| ≤ (2 : ℝ) ^ (65 : Int) := by
  obtain ⟨i1, i2, i3⟩ := int_round (f := dbl) hA hc
  obtain ⟨-, p3, p4⟩ := rn_pi
  have hp : (CxxFloat.pi : Num A) = .fin (rn Real.pi) := by
    show Num.round A A.pi = _
    rw [hpi]
    refine round_le hA (e := 2) (by decide) (by decide) ?_
    rw [abs_of_pos Real.pi_pos]
    have := Real.pi_le_four
    norm_num
    linarith
  rw [i1, hp, Num.fin_mul]
  have hle : |FloatFormat.rn dbl (c : ℝ) * rn Real.pi| ≤ (2 : ℝ) ^ (65 : Int) := by
    rw [abs_mul, show (65 : Int) = 63 + 2 by norm_num, zpow_add₀ two_ne_zero]
    refine mul_le_mul i2 ?_ (abs_nonneg _) (two_zpow_pos _).le
    rw [abs_of_nonneg (by linarith)]
    norm_num
    exact p4
  refine ⟨_, round_le hA (e := 65) (by decide) (by decide) hle, ?_, fl_abs_le (two_zpow_value (by decide)) hle⟩
  rcases ge_of_mult i3 with h0 | h1
  · left; rw [h0, zero_mul, fl_zero]
  · right
    rw [fl_abs]
    have h3 : (1 : ℝ) ≤ |FloatFormat.rn dbl (c : ℝ) * rn Real.pi| := by
      rw [abs_mul, abs_of_nonneg (by linarith : (0 : ℝ) ≤ rn Real.pi)]
      rw [zpow_zero] at h1
      nlinarith
    have := fl_mono (f := dbl) h3
    rwa [fl_value one_value] at this

theorem abs_le_of_inLong {c : Int} (h : InLong c) : |c| ≤ 2 ^ 63 := by
  unfold InLong at h
  rw [abs_le]
  constructor <;> omega

/-- GetReciprocalSpace. -/
theorem rel_reciprocal (hA : A.IsFormat dbl) (hpi : A.pi = Real.pi) (h : Rescaled k b b') (c : List Int) :
    RelRes (List.Forall₂ (Sc dbl k (-452) ((2 : ℝ) ^ (497 : Int)))) (b'.getReciprocalSpace c) (b.getReciprocalSpace c) := by
  unfold Bravais.getReciprocalSpace
  rw [h.dim]
  split
  · refine rel_mapRange _ fun i _ => ?_
    refine sc_accumulate hA (by decide) (β := 465) (by decide) h.small (by decide) (by decide) fun j _ => ?_
    refine RelRes.bind (RelRes.refl (R' := Eq) (fun _ => rfl) _) fun x y hx hy hxy => ?_
    subst hxy
    refine RelRes.bind (RelRes.refl (R' := Eq) (fun _ => rfl) _) fun c2 y hc2 hy hxy => ?_
    subst hxy
    refine RelRes.bind (rel_subscript (inverse_flip h) _) fun p q _ _ hpq => ?_
    obtain ⟨t, t1, t2, t3⟩ := pi_factor hA hpi (abs_le_of_inLong (c := c2) (by
      obtain ⟨h5, h6⟩ := long_eq_ok.1 hc2
      rw [h6]
      exact h5))
    obtain ⟨y, rfl, rfl, -, h4, h5⟩ := hpq
    refine RelRes.ok ?_
    rw [t1, Num.fin_mul, Num.fin_mul, mul_left_comm]
    have hn : t * y = 0 ∨ (2 : ℝ) ^ (-400 : Int) ≤ |t * y| := by
      rcases t2 with rfl | t2
      · left; ring
      rcases h4 with rfl | h4
      · left; ring
      right
      rw [abs_mul]
      have := two_zpow_pos (K := ℝ) (-400)
      nlinarith
    refine sc_round hA ?_ (mult_of_ge hn) (two_zpow_value (by decide)) (zpow_lt_zpow_right₀ one_lt_two (by decide)) ?_
    · rcases hn with h0 | hn
      · rw [h0, mul_zero, fl_zero, mul_zero]
      · exact fl_scale_normal k (le_trans (zpow_le_zpow_right₀ one_le_two (by decide)) hn)
    · rw [mul_left_comm, abs_mul, show (465 : Int) = 65 + 400 by norm_num, zpow_add₀ two_ne_zero]
      exact mul_le_mul t3 h5 (abs_nonneg _) (two_zpow_pos _).le
  · rfl

theorem times_div (hA : A.IsFormat dbl) {u v : Num A} (h : Sc dbl k (-452) ((2 : ℝ) ^ (497 : Int)) u v) {n : Nat} (hn0 : 0 < n)
    (hn : n < 2 ^ 64) : Times k (u / CxxFloat.ofNat n) (v / CxxFloat.ofNat n) := by
  obtain ⟨x, rfl, rfl, -, hm, h5⟩ := h
  have h1 := rn_count_ge_one (f := dbl) (K := ℝ) (k := n) hn0
  have h2 : FloatFormat.rn dbl (n : ℝ) ≤ (2 : ℝ) ^ (64 : Int) := by
    have : (n : ℝ) ≤ (2 : ℝ) ^ (64 : Int) := by
      have : ((n : Nat) : ℝ) ≤ ((2 ^ 64 : Nat) : ℝ) := by exact_mod_cast hn.le
      refine this.trans (le_of_eq ?_)
      norm_num
    have := fl_mono (f := dbl) this
    rwa [fl_value (two_zpow_value (by decide))] at this
  rw [Num.ofNat_eq, count_round hA hn, Num.fin_div (by linarith), Num.fin_div (by linarith), mul_div_assoc]
  refine (sc_round (f := dbl) hA (e := FloatFormat.ulpExp dbl (x / FloatFormat.rn dbl (n : ℝ))) (B := (2 : ℝ) ^ (497 : Int)) ?_
    (fl_mult_ulp _) (two_zpow_value (by decide)) (zpow_lt_zpow_right₀ one_lt_two (by decide)) ?_).times
  · rcases ge_of_mult hm with rfl | hge
    · rw [zero_div, mul_zero, fl_zero, mul_zero]
    · refine fl_scale_normal k ?_
      rw [abs_div, abs_of_nonneg (by linarith : (0 : ℝ) ≤ FloatFormat.rn dbl (n : ℝ)), le_div_iff₀ (by linarith)]
      refine le_trans ?_ hge
      refine (mul_le_mul_of_nonneg_left h2 (two_zpow_pos _).le).trans ?_
      rw [← zpow_add₀ two_ne_zero]
      exact zpow_le_zpow_right₀ one_le_two (by decide)
  · rw [← mul_div_assoc, abs_div, abs_of_nonneg (by linarith : (0 : ℝ) ≤ FloatFormat.rn dbl (n : ℝ)), div_le_iff₀ (by linarith)]
    exact h5.trans (le_mul_of_one_le_right (two_zpow_pos _).le h1)

theorem rel_momentum (hA : A.IsFormat dbl) (hpi : A.pi = Real.pi) (h : Rescaled k b b') (g : Grid) (hg : ∀ s ∈ g.size, 0 < s ∧ s < 2 ^ 64)
    (i : Nat) : RelRes (List.Forall₂ (Times k)) (Lattice.computeMomentum g b' i) (Lattice.computeMomentum g b i) := by
  unfold Lattice.computeMomentum
  refine RelRes.bind (RelRes.refl (R' := Eq) (fun _ => rfl) _) fun x y _ _ hxy => ?_
  subst hxy
  refine RelRes.bind (RelRes.refl (R' := Eq) (fun _ => rfl) _) fun x y _ _ hxy => ?_
  subst hxy
  refine RelRes.bind (rel_reciprocal hA hpi h _) fun u v _ _ huv => ?_
  rw [huv.length_eq]
  refine rel_mapRange _ fun i _ => ?_
  refine RelRes.bind (RelRes.refl (R' := Eq) (fun _ => rfl) _) fun s y hs _ hxy => ?_
  subst hxy
  obtain ⟨h0, h1⟩ := hg s (List.mem_of_getElem? (getElem_of_subscript hs))
  exact RelRes.bind (rel_subscript huv i) fun p q _ _ hpq => RelRes.ok (times_div hA hpq h0 h1)

theorem rel_momenta (hA : A.IsFormat dbl) (hpi : A.pi = Real.pi) (h : Rescaled k b b') (g : Grid) (hg : ∀ s ∈ g.size, 0 < s ∧ s < 2 ^ 64) :
    RelRes (List.Forall₂ (List.Forall₂ (Times k))) (Lattice.computeMomenta g b') (Lattice.computeMomenta g b) := by
  unfold Lattice.computeMomenta
  split
  · exact RelRes.ok .nil
  · exact rel_mapRange _ fun i _ => rel_momentum hA hpi h g hg i

/-! ### Lattices -/

theorem times_lt {u v u' v' : Num A} (h : Times k u u') (h' : Times k v v') : CxxFloat.lt u' v' = CxxFloat.lt u v := by
  obtain ⟨x, rfl, rfl⟩ := h
  obtain ⟨y, rfl, rfl⟩ := h'
  rw [Num.lt_fin, Num.lt_fin, decide_eq_decide]
  exact mul_lt_mul_iff_right₀ (by positivity)

theorem rel_positions (hA : A.IsFormat dbl) (h : Rescaled k b b') (g : Grid) :
    RelRes (List.Forall₂ (VecSc k)) (Lattice.computePositions g b) (Lattice.computePositions g b') := by
  unfold Lattice.computePositions
  refine RelRes.bind (RelRes.refl (R' := Eq) (fun _ => rfl) _) fun x y _ _ hxy => ?_
  subst hxy
  refine rel_mapRange _ fun i _ => ?_
  refine RelRes.bind (RelRes.refl (R' := Eq) (fun _ => rfl) _) fun x y _ _ hxy => ?_
  subst hxy
  exact rel_vector hA h _ _

theorem rel_vectors (hA : A.IsFormat dbl) (hS : A.sqrt = Real.sqrt) (h : Rescaled k b b') (g : Grid) :
    RelRes (List.Forall₂ (VecSc k)) (Lattice.computeVectors g b) (Lattice.computeVectors g b') := by
  unfold Lattice.computeVectors
  refine RelRes.bind (RelRes.refl (R' := Eq) (fun _ => rfl) _) fun x y _ _ hxy => ?_
  subst hxy
  refine rel_mapRange _ fun i _ => ?_
  refine RelRes.bind (RelRes.refl (R' := Eq) (fun _ => rfl) _) fun cs y _ _ hxy => ?_
  subst hxy
  refine RelRes.bind (rel_distanceVector hA hS h _ _) fun r s _ _ hrs => ?_
  dsimp only
  split
  · refine RelRes.bind (R := fun r s : Num A × List (Num A) => Times k r.1 s.1 ∧ VecSc k r.2 s.2) ?_ fun r s _ _ hrs => RelRes.ok hrs.2
    refine rel_foldRange _ (fun j r s _ hrs => ?_) hrs
    unfold Lattice.tryImage
    refine RelRes.bind (RelRes.refl (R' := Eq) (fun _ => rfl) _) fun img y _ _ hxy => ?_
    subst hxy
    refine RelRes.bind (RelRes.refl (R' := Eq) (fun _ => rfl) _) fun csm y _ _ hxy => ?_
    subst hxy
    refine RelRes.bind (rel_distanceVector hA hS h _ _) fun r' s' _ _ hrs' => RelRes.ok ?_
    rw [times_lt hrs'.1 hrs.1]
    split
    · exact hrs'
    · exact hrs
  · exact RelRes.ok hrs.2

theorem rel_sumSquared (hA : A.IsFormat dbl) {u v : List (Num A)} (h : VecSc k u v) :
    Sc dbl (2 * k) (-904) ((2 : ℝ) ^ (1022 : Int)) (sumSquared u) (sumSquared v) ∧ ∀ x, sumSquared u = .fin x → 0 ≤ x := by
  rw [sumSquared_zero hA, sumSquared_zero hA]
  have key : ∀ (u v : List (Num A)) (j : Nat) (a c : Num A), j + u.length ≤ 2 ^ 32 →
      List.Forall₂ (Sc dbl k (-452) ((2 : ℝ) ^ (495 : Int))) u v →
      Sc dbl (2 * k) (-904) ((j : ℝ) * (2 : ℝ) ^ (990 : Int)) a c → (∀ x, a = .fin x → 0 ≤ x) →
      Sc dbl (2 * k) (-904) ((2 : ℝ) ^ (1022 : Int)) (u.foldl (fun d x => d + squareF x) a) (v.foldl (fun d x => d + squareF x) c) ∧
      ∀ x, u.foldl (fun d x => d + squareF x) a = .fin x → 0 ≤ x := by
    intro u v j a c hj huv
    induction huv generalizing j a c with
    | nil => exact fun h1 h2 => ⟨h1.mono (count_le (n := 32) hj 990), h2⟩
    | @cons x y xs ys hxy _ ih =>
      intro h1 h2
      rw [List.length_cons] at hj
      obtain ⟨q1, q2⟩ := sc_square hA hxy
      have e1 : (j : ℝ) * (2 : ℝ) ^ (990 : Int) + (2 : ℝ) ^ (990 : Int) = ((j + 1 : Nat) : ℝ) * (2 : ℝ) ^ (990 : Int) := by
        push_cast; ring
      have hj' : j + 1 ≤ 2 ^ 53 := le_trans (by omega : j + 1 ≤ 2 ^ 32) (by norm_num)
      have h3 := sc_add hA (by decide) h1 q1 (by rw [e1]; exact count_value (f := dbl) hj' (by decide)) (by
        rw [e1]
        exact (count_le (by omega : j + 1 ≤ 2 ^ 32) 990).trans_lt (zpow_lt_zpow_right₀ one_lt_two (by decide)))
      rw [e1] at h3
      exact ih (j + 1) _ _ (by omega) h3 (nonneg_fin_add hA h2 q2)
  exact key u v 0 _ _ (by simpa using h.1) h.2 (sc_zero _ (by simp)) (by rintro x ⟨⟩; exact le_rfl)

theorem rel_neighbors (h : Rescaled k b b') (g : Grid) : Lattice.computeNeighbors g b' = Lattice.computeNeighbors g b := by
  have key : ∀ n ci j, Lattice.neighborLoop g b' ci j n = Lattice.neighborLoop g b ci j n := by
    intro n
    induction n with
    | zero => intro ci j; rfl
    | succ n ih =>
      intro ci j
      unfold Lattice.neighborLoop
      rw [neighbor_rescaled h]
      simp only [ih]
  unfold Lattice.computeNeighbors
  rw [h.gamma]
  simp only [key]

/-- The same lattice in other units. -/
structure LatTimes (k : Nat) (l l' : Lattice (Num A)) : Prop where
  grid : l'.grid = l.grid
  position : List.Forall₂ (List.Forall₂ (Times k)) l.position l'.position
  vectors : List.Forall₂ (List.Forall₂ (Times k)) l.vectors l'.vectors
  distance : List.Forall₂ (Times k) l.distance l'.distance
  neighbors : l'.neighbors = l.neighbors
  momenta : List.Forall₂ (List.Forall₂ (Times k)) l'.momenta l.momenta

theorem rel_lattice (hA : A.IsFormat dbl) (hS : A.sqrt = Real.sqrt) (hpi : A.pi = Real.pi) (h : Rescaled k b b') (size : List Nat)
    (hs : ∀ s ∈ size, 0 < s ∧ s < 2 ^ 64) (bd : Boundaries) :
    RelRes (LatTimes k) (Lattice.new b size bd) (Lattice.new b' size bd) := by
  have vec : ∀ {u v : List (Num A)}, VecSc k u v → List.Forall₂ (Times k) u v := fun h => h.2.imp fun _ _ h => h.times
  unfold Lattice.new
  refine RelRes.bind (rel_positions hA h _) fun p p' _ _ hp => ?_
  refine RelRes.bind (rel_vectors hA hS h _) fun v v' _ _ hv => ?_
  rw [rel_neighbors h]
  refine RelRes.bind (RelRes.refl (R' := Eq) (fun _ => rfl) _) fun n n' _ _ hn => ?_
  subst hn
  have hm := rel_momenta hA hpi h (Grid.new size bd) hs
  refine RelRes.bind (R := fun m m' => List.Forall₂ (List.Forall₂ (Times k)) m' m) ?_ fun m m' _ _ hm => RelRes.ok ?_
  · revert hm
    generalize Lattice.computeMomenta (Grid.new size bd) b' = x
    generalize Lattice.computeMomenta (Grid.new size bd) b = y
    intro hm
    cases x <;> cases y <;> first | exact False.elim hm | skip
    · exact hm
    · exact Eq.symm hm
    · exact Eq.symm hm
    · trivial
  · refine ⟨rfl, hp.imp fun _ _ => vec, hv.imp fun _ _ => vec, ?_, rfl, hm⟩
    unfold Lattice.computeDistances
    rw [List.forall₂_map_left_iff, List.forall₂_map_right_iff]
    exact hv.imp fun u v huv => sc_sqrt hA hS (rel_sumSquared hA huv).1 (rel_sumSquared hA huv).2

theorem rel_getVector {l l' : Lattice (Num A)} (h : LatTimes k l l') (i j : Nat) :
    RelRes (List.Forall₂ (Times k)) (l.getVector i j) (l'.getVector i j) := by
  unfold Lattice.getVector
  rw [h.grid]
  split
  · refine RelRes.bind (RelRes.refl (R' := Eq) (fun _ => rfl) _) fun s y _ _ hxy => ?_
    subst hxy
    exact rel_subscript h.vectors s
  · rfl

theorem times_mul {p q u v : Num A} (h : Times k q p) (h' : Times k u v) : q * v = p * u := by
  obtain ⟨x, rfl, rfl⟩ := h
  obtain ⟨y, rfl, rfl⟩ := h'
  rw [Num.fin_mul, Num.fin_mul, mul_left_comm, mul_assoc]

theorem fourier_units {T : Type} (conv : T → Num A) {l l' : Lattice (Num A)} (h : LatTimes k l l') (occ : List T) {m m' : List (Num A)}
    (hm : List.Forall₂ (Times k) m' m) : l'.fourier conv occ m' = l.fourier conv occ m := by
  rw [← RelRes.eq]
  unfold Lattice.fourier
  rw [h.grid]
  refine rel_foldRange _ (fun j s t _ hst => ?_) rfl
  subst hst
  have hv := rel_getVector h 0 j
  refine RelRes.bind (R := fun v' v => List.Forall₂ (Times k) v v') ?_ fun v' v _ _ hv => ?_
  · revert hv
    generalize l.getVector 0 j = x
    generalize l'.getVector 0 j = y
    intro hv
    cases x <;> cases y <;> first | exact False.elim hv | skip
    · exact hv
    · exact Eq.symm hv
    · exact Eq.symm hv
    · trivial
  refine RelRes.bind (R := Eq) ?_ fun p q _ _ hpq => ?_
  · refine rel_accumulate _ (fun _ => Eq) rfl (R := Eq) (fun q _ => ?_) (by rintro _ _ _ _ _ _ rfl rfl; rfl)
    refine RelRes.bind (rel_subscript hm q) fun p' p _ _ hp => ?_
    refine RelRes.bind (R := fun v' v => Times k v v') (rel_subscript hv.flip q) fun v' v _ _ hv => RelRes.ok (times_mul hp hv)
  · subst hpq
    exact RelRes.refl (fun _ => rfl) _

theorem accumulateSk_units {T : Type} (conv : T → Num A) {l l' : Lattice (Num A)} (h : LatTimes k l l') (occ : List T) (sk : List (Num A))
    (mult : Num A) : l'.accumulateSk conv occ sk mult = l.accumulateSk conv occ sk mult := by
  rw [← RelRes.eq]
  unfold Lattice.accumulateSk
  rw [h.grid]
  split
  · exact RelRes.ok rfl
  · refine RelRes.bind (R := List.Forall₂ Eq) (rel_mapRange _ fun i _ => ?_) fun u v _ _ huv => ?_
    · refine RelRes.bind (rel_subscript h.momenta i) fun m' m _ _ hm => ?_
      rw [fourier_units conv h occ hm]
      exact RelRes.refl (fun _ => rfl) _
    · rw [List.forall₂_eq_eq_eq] at huv
      rw [huv]
      exact RelRes.ok rfl

/-! ## The results -/

variable (hA : A.IsBinary64) (hS : A.sqrt = Real.sqrt) (hpi : A.pi = Real.pi) (h : Rescaled k b b') {size : List Nat}
  (hs : ∀ s ∈ size, 0 < s ∧ s < 2 ^ 64) {bd : Boundaries} {l l' : Lattice (Num A)}
include hA hS hpi h hs

/-- A lattice can be built in the one unit if and only if it can be built in the other. -/
theorem C182_built : (∃ l, Lattice.new b size bd = .ok l) ↔ ∃ l', Lattice.new b' size bd = .ok l' := by
  have hr := rel_lattice (isFormat_double.2 hA) hS hpi h size hs bd
  constructor
  · rintro ⟨l, hl⟩
    rw [hl] at hr
    obtain ⟨l', h1, -⟩ := hr.left
    exact ⟨l', h1⟩
  · rintro ⟨l', hl'⟩
    rw [hl'] at hr
    obtain ⟨l, h1, -⟩ := hr.right
    exact ⟨l, h1⟩

theorem latTimes_of (hl : Lattice.new b size bd = .ok l) (hl' : Lattice.new b' size bd = .ok l') : LatTimes k l l' := by
  have hr := rel_lattice (isFormat_double.2 hA) hS hpi h size hs bd
  rw [hl, hl'] at hr
  exact hr

variable (hl : Lattice.new b size bd = .ok l) (hl' : Lattice.new b' size bd = .ok l')
include hl hl'

/-- Positions are multiplied by 2^k, without any rounding. -/
theorem C182_position (i : Nat) : RelRes (List.Forall₂ (Times k)) (l.getPosition i) (l'.getPosition i) := by
  have hr := latTimes_of hA hS hpi h hs hl hl'
  unfold Lattice.getPosition
  rw [hr.grid]
  split
  · exact rel_subscript hr.position i
  · rfl

/-- So are the vectors between sites: the same image of the site is the nearest. -/
theorem C182_vector (i j : Nat) : RelRes (List.Forall₂ (Times k)) (l.getVector i j) (l'.getVector i j) :=
  rel_getVector (latTimes_of hA hS hpi h hs hl hl') i j

/-- So are the distances. -/
theorem C182_distance (i j : Nat) : RelRes (Times k) (l.getDistance i j) (l'.getDistance i j) := by
  have hr := latTimes_of hA hS hpi h hs hl hl'
  unfold Lattice.getDistance
  rw [hr.grid]
  split
  · refine RelRes.bind (RelRes.refl (R' := Eq) (fun _ => rfl) _) fun s y _ _ hxy => ?_
    subst hxy
    exact rel_subscript hr.distance s
  · rfl

/-- Momenta are divided by 2^k. -/
theorem C182_momentum (i : Nat) : RelRes (List.Forall₂ (Times k)) (l'.getMomentum i) (l.getMomentum i) := by
  have hr := latTimes_of hA hS hpi h hs hl hl'
  unfold Lattice.getMomentum
  rw [hr.grid]
  split
  · exact rel_subscript hr.momenta i
  · rfl

/-- The neighbours of every site are the same, in the same order. -/
theorem C182_neighbors (i j : Nat) : l'.getNeighbors i = l.getNeighbors i ∧ l'.areNeighbors i j = l.areNeighbors i j ∧
    l'.getCoordinationOf i = l.getCoordinationOf i := by
  have hr := latTimes_of hA hS hpi h hs hl hl'
  unfold Lattice.getNeighbors Lattice.areNeighbors Lattice.getCoordinationOf
  rw [hr.neighbors]
  exact ⟨rfl, rfl, rfl⟩

/-- The static structure factor is the same to the last bit, for all occupations. -/
theorem C182_structure_factor {T : Type} (conv : T → Num A) (occ : List T) (sk : List (Num A)) (mult : Num A) :
    l'.accumulateSk conv occ sk mult = l.accumulateSk conv occ sk mult ∧ l'.computeSk conv occ mult = l.computeSk conv occ mult := by
  have hr := latTimes_of hA hS hpi h hs hl hl'
  refine ⟨accumulateSk_units conv hr occ sk mult, ?_⟩
  unfold Lattice.computeSk
  rw [hr.grid]
  split
  · rfl
  · exact accumulateSk_units conv hr occ _ mult

end

/-- The same for the functions of a Bravais lattice: positions, vectors and distances of any coordinates. -/
theorem C182_bravais {A : Arith ℝ} {k : Nat} {b b' : Bravais (Num A)} (hA : A.IsBinary64) (hS : A.sqrt = Real.sqrt) (hpi : A.pi = Real.pi)
    (h : Rescaled k b b') (c d : List Int) (hc : ∀ x ∈ c, |x| ≤ 2 ^ 63) :
    RelRes (List.Forall₂ (Times k)) (b.getRealSpace c) (b'.getRealSpace c) ∧
    RelRes (List.Forall₂ (Times k)) (b.getVector c d) (b'.getVector c d) ∧
    RelRes (Times k) (b.getDistance c d) (b'.getDistance c d) ∧
    RelRes (List.Forall₂ (Times k)) (b'.getReciprocalSpace c) (b.getReciprocalSpace c) := by
  have hF := isFormat_double.2 hA
  exact ⟨(rel_realSpace hF h c hc).mono fun _ _ _ _ h => h.imp fun _ _ h => h.times,
    (rel_vector hF h c d).mono fun _ _ _ _ h => h.2.imp fun _ _ h => h.times, rel_distance hF hS h c d,
    (rel_reciprocal hF hpi h c).mono fun _ _ _ _ h => h.imp fun _ _ h => h.times⟩

/-- The square lattice, and the same with a lattice constant of 2^k, for k up to 400. -/
theorem square_rescaled {k : Nat} (hk : k ≤ 400) : ∃ b b' : Bravais (Num doubleArith), squareLattice = .ok b ∧
    Bravais.new 2 4 [.fin (2 ^ k), .fin 0, .fin 0, .fin (2 ^ k)] [.fin ((2 ^ k)⁻¹), .fin 0, .fin 0, .fin ((2 ^ k)⁻¹)] [1, 0, 0, 1] = .ok b' ∧
    Rescaled k b b' := by
  have e1 : (CxxFloat.lit 1 : Num doubleArith) = .fin 1 := by
    show Num.round doubleArith (((1 : ℚ) : ℝ)) = _
    rw [show (((1 : ℚ) : ℝ)) = (1 : ℝ) by norm_num]
    exact round_double doubleArith_isBinary64 (one_value (f := .double)) (by rw [abs_one]; exact one_le_zpow₀ one_le_two (by decide))
  have e0 : (CxxFloat.zero : Num doubleArith) = .fin 0 := Num.zero_eq
  have hz : Double (0 : ℝ) := by
    have := fl_inFormat (f := .double) (0 : ℝ)
    rwa [fl_zero] at this
  have hpow : (2 : ℝ) ^ k = (2 : ℝ) ^ (k : Int) := (zpow_natCast _ _).symm
  refine ⟨_, _, rfl, rfl, rfl, rfl, rfl, by norm_num, ?_, ?_⟩
  · have hone : ∃ x : ℝ, (CxxFloat.lit 1 : Num doubleArith) = .fin x ∧ (.fin (2 ^ k) : Num doubleArith) = .fin (2 ^ k * x) ∧ Double x ∧
        (x = 0 ∨ (2 : ℝ) ^ (-400 : Int) ≤ |x|) ∧ |2 ^ k * x| ≤ (2 : ℝ) ^ (400 : Int) := by
      refine ⟨1, e1, by rw [mul_one], one_value (f := .double), .inr ?_, ?_⟩
      · rw [abs_one]; exact zpow_le_one_of_nonpos₀ one_le_two (by decide)
      · rw [mul_one, hpow, abs_of_pos (two_zpow_pos _)]
        exact zpow_le_zpow_right₀ one_le_two (by omega)
    have hzero : ∃ x : ℝ, (CxxFloat.zero : Num doubleArith) = .fin x ∧ (.fin 0 : Num doubleArith) = .fin (2 ^ k * x) ∧ Double x ∧
        (x = 0 ∨ (2 : ℝ) ^ (-400 : Int) ≤ |x|) ∧ |2 ^ k * x| ≤ (2 : ℝ) ^ (400 : Int) :=
      ⟨0, e0, by rw [mul_zero], hz, .inl rfl, by rw [mul_zero, abs_zero]; exact (two_zpow_pos _).le⟩
    exact .cons hone (.cons hzero (.cons hzero (.cons hone .nil)))
  · have hone : ∃ x : ℝ, (CxxFloat.lit 1 : Num doubleArith) = .fin (2 ^ k * x) ∧ (.fin ((2 ^ k)⁻¹) : Num doubleArith) = .fin x ∧ Double x ∧
        (x = 0 ∨ (2 : ℝ) ^ (-400 : Int) ≤ |x|) ∧ |2 ^ k * x| ≤ (2 : ℝ) ^ (400 : Int) := by
      have hne : ((2 : ℝ) ^ k) * (2 ^ k)⁻¹ = 1 := mul_inv_cancel₀ (by positivity)
      have hinv : ((2 : ℝ) ^ k)⁻¹ = (2 : ℝ) ^ (-(k : Int)) := by rw [hpow, zpow_neg]
      refine ⟨_, by rw [hne]; exact e1, rfl, ?_, .inr ?_, ?_⟩
      · rw [hinv]; exact two_zpow_value (f := .double) (by show (-1074 : Int) ≤ _; omega)
      · rw [hinv, abs_of_pos (two_zpow_pos _)]
        exact zpow_le_zpow_right₀ one_le_two (by omega)
      · rw [hne, abs_one]; exact one_le_zpow₀ one_le_two (by decide)
    have hzero : ∃ x : ℝ, (CxxFloat.zero : Num doubleArith) = .fin (2 ^ k * x) ∧ (.fin 0 : Num doubleArith) = .fin x ∧ Double x ∧
        (x = 0 ∨ (2 : ℝ) ^ (-400 : Int) ≤ |x|) ∧ |2 ^ k * x| ≤ (2 : ℝ) ^ (400 : Int) :=
      ⟨0, by rw [mul_zero]; exact e0, rfl, hz, .inl rfl, by rw [mul_zero, abs_zero]; exact (two_zpow_pos _).le⟩
    exact .cons hone (.cons hzero (.cons hzero (.cons hone .nil)))

example : ∃ b b' : Bravais (Num doubleArith), Rescaled 30 b b' ∧ doubleArith.IsBinary64 ∧ doubleArith.sqrt = Real.sqrt ∧
    doubleArith.pi = Real.pi ∧ (∀ s ∈ [1000, 2000], 0 < s ∧ s < 2 ^ 64) ∧ (∃ l, Lattice.new b [1000, 2000] .closed = .ok l) ∧
    ∃ l', Lattice.new b' [1000, 2000] .closed = .ok l' := by
  obtain ⟨b, b', h1, -, h3⟩ := square_rescaled (k := 30) (by norm_num)
  obtain ⟨b0, h4, h5⟩ := square_regular (F := Num doubleArith)
  obtain rfl : b = b0 := Res.ok.inj (h1.symm.trans h4)
  have hs : Buildable [1000, 2000] := ⟨⟨by decide, by norm_num⟩, by norm_num⟩
  obtain ⟨l, hl, -⟩ := C73_defined hs (b := b) h5 .closed (fun _ => by decide)
  have hsz : ∀ s ∈ [1000, 2000], 0 < s ∧ s < 2 ^ 64 := by
    intro s hs
    fin_cases hs <;> norm_num
  exact ⟨b, b', h3, doubleArith_isBinary64, doubleArith_sqrt, rfl, hsz, ⟨l, hl⟩,
    (C182_built doubleArith_isBinary64 doubleArith_sqrt rfl h3 hsz).1 ⟨l, hl⟩⟩

end Bwsl
