import Verif.Model.DrawFormats
import Verif.Props.Draw
import Verif.Props.Formats

/-! Property C156: random choices with weights of type `float`, `double` or `long double`, for every number that a random
engine can return. -/

namespace Bwsl
open Spec FloatFormat

/-! ### The numbers of the engine -/

/-- The format has room for the numbers of a 64-bit engine: so do `float`, `double` and `long double`. -/
structure Spec.Roomy (f : FloatFormat) : Prop where
  large : (f.prec : Int) + 64 ≤ f.emax
  small : f.emin + f.prec + 64 ≤ 0

example : Roomy FloatFormat.float ∧ Roomy FloatFormat.double ∧ Roomy FloatFormat.extended ∧ Roomy FloatFormat.quadruple := by
  refine ⟨⟨?_, ?_⟩, ⟨?_, ?_⟩, ⟨?_, ?_⟩, ⟨?_, ?_⟩⟩ <;> decide

/-- The number of which the outputs are the digits in base 2^w, lowest first. -/
def Spec.joined (w : Nat) : List Nat → Nat
  | [] => 0
  | x :: xs => x + 2 ^ w * joined w xs

/-- The `k` digits of `x` in base 2^w, lowest first. -/
def Spec.outputs (w : Nat) : Nat → Nat → List Nat
  | 0, _ => []
  | k + 1, x => x % 2 ^ w :: outputs w k (x / 2 ^ w)

/-- C156.  Sequences of `k` outputs of the engine and the numbers below 2^(wk) correspond one to one. -/
theorem C156_outputs (w k : Nat) :
    (∀ x, (outputs w k x).length = k ∧ ∀ y ∈ outputs w k x, y < 2 ^ w) ∧
    (∀ x, x < 2 ^ (w * k) → joined w (outputs w k x) = x) ∧
    ∀ xs : List Nat, xs.length = k → (∀ y ∈ xs, y < 2 ^ w) → joined w xs < 2 ^ (w * k) ∧ outputs w k (joined w xs) = xs := by
  have hp : 0 < 2 ^ w := by positivity
  induction k with
  | zero =>
    refine ⟨fun x => ⟨rfl, fun y hy => by cases hy⟩, fun x hx => ?_, fun xs hl _ => ?_⟩
    · simp at hx; rw [hx]; rfl
    · rw [List.length_eq_zero_iff] at hl; subst hl; exact ⟨by simp [joined], rfl⟩
  | succ k ih =>
    obtain ⟨i1, i2, i3⟩ := ih
    refine ⟨fun x => ⟨?_, ?_⟩, fun x hx => ?_, fun xs hl hb => ?_⟩
    · rw [outputs, List.length_cons, (i1 _).1]
    · intro y hy
      rw [outputs, List.mem_cons] at hy
      rcases hy with rfl | hy
      · exact Nat.mod_lt _ hp
      · exact (i1 _).2 y hy
    · rw [outputs, joined, i2, Nat.mod_add_div]
      rw [Nat.div_lt_iff_lt_mul hp, ← pow_add]
      rwa [Nat.mul_succ] at hx
    · cases xs with
      | nil => simp at hl
      | cons x xs =>
        rw [List.length_cons, Nat.succ_inj] at hl
        obtain ⟨j1, j2⟩ := i3 xs hl (fun y hy => hb y (List.mem_cons_of_mem _ hy))
        have hx := hb x List.mem_cons_self
        constructor
        · rw [joined, Nat.mul_succ, pow_add]
          calc x + 2 ^ w * joined w xs < 2 ^ w + 2 ^ w * joined w xs := by omega
            _ = 2 ^ w * (joined w xs + 1) := by ring
            _ ≤ 2 ^ w * 2 ^ (w * k) := Nat.mul_le_mul_left _ j1
            _ = _ := by ring
        · rw [joined, outputs, Nat.add_mul_mod_self_left, Nat.mod_eq_of_lt hx, Nat.add_mul_div_left _ _ hp,
            Nat.div_eq_of_lt hx, zero_add, j2]

/-- C156.  The count of numbers drawn is the least that gives as many bits as the format has. -/
theorem C156_count {p w : Nat} (hp : 0 < p) (hw : 0 < w) :
    1 ≤ canonicalCount p w ∧ p ≤ w * canonicalCount p w ∧ w * (canonicalCount p w - 1) < p := by
  have h1 : 1 ≤ (p + w - 1) / w := by rw [Nat.le_div_iff_mul_le hw]; omega
  have e : canonicalCount p w = (p + w - 1) / w := max_eq_right h1
  rw [e]
  have h2 := Nat.div_add_mod (p + w - 1) w
  have h3 := Nat.mod_lt (p + w - 1) hw
  generalize (p + w - 1) / w = k at *
  obtain ⟨j, rfl⟩ : ∃ j, k = j + 1 := ⟨k - 1, by omega⟩
  rw [Nat.add_sub_cancel]
  rw [Nat.mul_succ] at h2 ⊢
  omega

example : canonicalCount 24 32 = 1 ∧ canonicalCount 24 64 = 1 ∧ canonicalCount 53 32 = 2 ∧ canonicalCount 53 64 = 1 ∧
    canonicalCount 64 32 = 2 ∧ canonicalCount 64 64 = 1 ∧ canonicalCount 113 32 = 4 ∧ canonicalCount 113 64 = 2 := by decide

/-! ### `generate_canonical` -/

section
variable {A : Arith ℝ} {f : FloatFormat}

/-- The number in [0,1) made of a number of `W` bits. -/
noncomputable def Spec.unitIn (f : FloatFormat) (W x : Nat) : ℝ :=
  if f.rn (x : ℝ) = 2 ^ W then 1 - 1 / 2 ^ f.prec else f.rn (x : ℝ) / 2 ^ W

theorem pow_value (W : Nat) : InFormat f ((2 : ℝ) ^ W) := by
  rw [← zpow_natCast]
  exact two_zpow_value (by have := f.emin_le; omega)

theorem fl_nat_bounds {W x : Nat} (hx : x < 2 ^ W) : 0 ≤ f.rn (x : ℝ) ∧ f.rn (x : ℝ) ≤ 2 ^ W := by
  refine ⟨fl_nonneg (Nat.cast_nonneg x), ?_⟩
  have h2 : (x : ℝ) ≤ 2 ^ W := by exact_mod_cast hx.le
  have := fl_mono (f := f) h2
  rwa [fl_value (pow_value W)] at this

theorem scaled_value {W x : Nat} (hW : f.emin + W ≤ 0) : InFormat f (f.rn (x : ℝ) / 2 ^ W) := by
  have hm : Mult 0 (f.rn (x : ℝ)) := fl_mult ⟨x, by simp⟩
  obtain ⟨e, he, hme, hle⟩ := value_iff.1 (fl_inFormat (f := f) (x : ℝ))
  have ew : (2 : ℝ) ^ W = (2 : ℝ) ^ (W : Int) := (zpow_natCast _ _).symm
  have main : ∀ e : Int, f.emin + W ≤ e → Mult e (f.rn (x : ℝ)) → |f.rn (x : ℝ)| ≤ (2 : ℝ) ^ (e + f.prec) →
      InFormat f (f.rn (x : ℝ) / 2 ^ W) := by
    intro e he hme hle
    obtain ⟨m, hm⟩ := hme
    refine value_iff.2 ⟨e - W, by omega, ⟨m, ?_⟩, ?_⟩
    · rw [hm, ew, zpow_sub₀ two_ne_zero, mul_div_assoc]
    · rw [ew, abs_div, abs_of_pos (two_zpow_pos (K := ℝ) (W : Int)), show e - W + f.prec = (e + f.prec) - (W : Int) by ring,
        zpow_sub₀ two_ne_zero (e + f.prec)]
      exact div_le_div_of_nonneg_right hle (two_zpow_pos _).le
  by_cases h : 0 ≤ e
  · exact main e (by omega) hme hle
  · refine main 0 hW hm (hle.trans (zpow_le_zpow_right₀ one_le_two (by omega)))

theorem last_value : InFormat f (1 - 1 / 2 ^ f.prec : ℝ) := by
  refine ⟨2 ^ f.prec - 1, -f.prec, ?_, by have := f.emin_le; omega, ?_⟩
  · have : (1 : Int) ≤ 2 ^ f.prec := one_le_pow₀ (by norm_num)
    rw [abs_of_nonneg (by omega)]; omega
  · rw [zpow_neg, zpow_natCast]; push_cast
    field_simp

/-- No value of the format is between 1 - 2^-prec and 1. -/
theorem below_one {z : ℝ} (hz : InFormat f z) (h : z < 1) : z ≤ 1 - 1 / 2 ^ f.prec := by
  have hε := eps_small (K := ℝ) (f := f)
  obtain ⟨m, e, hm, he, rfl⟩ := hz
  have hp := two_zpow_pos (K := ℝ) e
  rcases lt_or_ge e (-f.prec) with h1 | h1
  · have hm' : (m : ℝ) ≤ 2 ^ f.prec := by
      have := (le_abs_self m).trans hm
      exact_mod_cast this
    have h2 : (2 : ℝ) ^ e ≤ (2 : ℝ) ^ (-(f.prec : Int) - 1) := zpow_le_zpow_right₀ one_le_two (by omega)
    have h3 : (m : ℝ) * (2 : ℝ) ^ e ≤ 2 ^ f.prec * (2 : ℝ) ^ (-(f.prec : Int) - 1) :=
      mul_le_mul hm' h2 hp.le (by positivity)
    rw [← zpow_natCast, ← zpow_add₀ two_ne_zero, show (f.prec : Int) + (-f.prec - 1) = -1 by ring] at h3
    norm_num at h3
    linarith
  rcases lt_or_ge e 0 with h2 | h2
  · obtain ⟨j, rfl⟩ : ∃ j : Nat, e = -j := ⟨(-e).toNat, by omega⟩
    rw [zpow_neg, zpow_natCast] at h ⊢
    have hj : (0 : ℝ) < 2 ^ j := by positivity
    rw [← div_eq_mul_inv, div_lt_one hj] at h
    have hmj : m ≤ 2 ^ j - 1 := by
      have : m < 2 ^ j := by exact_mod_cast h
      omega
    have hmj' : (m : ℝ) ≤ 2 ^ j - 1 := by exact_mod_cast hmj
    have h3 : (1 : ℝ) / 2 ^ f.prec ≤ 1 / 2 ^ j :=
      one_div_le_one_div_of_le hj (pow_le_pow_right₀ one_le_two (by omega))
    have h4 : (m : ℝ) * (2 ^ j)⁻¹ ≤ 1 - 1 / 2 ^ j := by
      rw [← div_eq_mul_inv, div_le_iff₀ hj, sub_mul, one_div, inv_mul_cancel₀ hj.ne', one_mul]
      exact hmj'
    linarith
  · have hm0 : m ≤ 0 := by
      by_contra hc
      have h3 : (1 : ℝ) ≤ m := by exact_mod_cast (by omega : 1 ≤ m)
      have h4 : (1 : ℝ) ≤ (2 : ℝ) ^ e := one_le_zpow₀ one_le_two h2
      nlinarith
    have hm0' : (m : ℝ) ≤ 0 := by exact_mod_cast hm0
    nlinarith

/-- C156.  The number is a value of the format in [0, 1-2^-p], and within 2^-p of the fraction x/2^W. -/
theorem C156_unit {W x : Nat} (hW : f.emin + W ≤ 0) (hx : x < 2 ^ W) :
    InFormat f (unitIn f W x) ∧ 0 ≤ unitIn f W x ∧ unitIn f W x ≤ 1 - 1 / 2 ^ f.prec ∧
    |unitIn f W x - (x : ℝ) / 2 ^ W| ≤ 1 / 2 ^ f.prec := by
  obtain ⟨h0, h1⟩ := fl_nat_bounds (f := f) hx
  have hε := eps_small (K := ℝ) (f := f)
  have hε0 := eps_pos (K := ℝ) (f := f)
  have hP : (0 : ℝ) < 2 ^ W := by positivity
  have hxn : (0 : ℝ) ≤ x := Nat.cast_nonneg x
  have hxl : (x : ℝ) < 2 ^ W := by exact_mod_cast hx
  have hq1 : (x : ℝ) / 2 ^ W < 1 := by rwa [div_lt_one hP]
  have hq0 : 0 ≤ (x : ℝ) / 2 ^ W := by positivity
  have hr := fl_rel (f := f) (x := (x : ℝ)) (Mult.mono (e := 0) ⟨x, by simp⟩ (by have := f.emin_le; omega))
  rw [abs_of_nonneg hxn] at hr
  have hq : |(x : ℝ) / 2 ^ W - f.rn (x : ℝ) / 2 ^ W| ≤ 1 / 2 ^ f.prec := by
    rw [← sub_div, abs_div, abs_of_pos hP, div_le_iff₀ hP]
    refine hr.trans ?_
    rw [div_eq_mul_one_div, mul_comm]
    exact mul_le_mul_of_nonneg_left hxl.le hε0.le
  unfold unitIn
  split
  · next h =>
    rw [h, div_self hP.ne', abs_le] at hq
    refine ⟨last_value, by linarith, le_rfl, ?_⟩
    rw [abs_le]
    constructor <;> linarith [hq.1, hq.2]
  · next h =>
    refine ⟨scaled_value hW, by positivity, below_one (scaled_value hW) ?_, by rwa [abs_sub_comm]⟩
    rw [div_lt_one hP]
    exact lt_of_le_of_ne h1 h

theorem round_pow (hA : A.IsFormat f) {W : Nat} (hW : (W : Int) < f.emax) {y : ℝ} (h0 : 0 ≤ y) (h : y ≤ 2 ^ W) :
    Num.round A y = .fin (f.rn y) := by
  refine round_le hA (e := W) (by have := f.emin_le; omega) hW ?_
  rwa [abs_of_nonneg h0, zpow_natCast]

theorem round_value (hA : A.IsFormat f) {W : Nat} (hW : (W : Int) < f.emax) {y : ℝ} (hy : InFormat f y) (h0 : 0 ≤ y)
    (h : y ≤ 2 ^ W) : Num.round A y = .fin y := by
  rw [round_pow hA hW h0 h, fl_value hy]

theorem lit_one_in (hA : A.IsFormat f) : (CxxFloat.lit 1 : Num A) = .fin 1 := by
  rw [Num.lit_eq]
  have : ((1 : ℚ) : ℝ) = 1 := by norm_num
  rw [this]
  exact Num.round_of (rnd_finite hA one_finite)

theorem lit_pow_in (hA : A.IsFormat f) {W : Nat} (hW : (W : Int) < f.emax) : (CxxFloat.lit (2 ^ W) : Num A) = .fin (2 ^ W) := by
  rw [Num.lit_eq]
  have : ((2 ^ W : ℚ) : ℝ) = 2 ^ W := by push_cast; rfl
  rw [this]
  exact round_value hA hW (pow_value W) (by positivity) le_rfl

/-- The end of `generate_canonical`, for a sum that is a rounded number of `W` bits. -/
theorem canonicalIn_end (hA : A.IsFormat f) {W x : Nat} (hW : f.emin + W ≤ 0) (hW' : (W : Int) < f.emax) (hx : x < 2 ^ W) :
    (if CxxFloat.le (CxxFloat.lit 1 : Num A) (.fin (f.rn (x : ℝ)) / .fin (2 ^ W)) then
      CxxFloat.lit (1 - 1 / 2 ^ f.prec) else .fin (f.rn (x : ℝ)) / .fin (2 ^ W)) = (.fin (unitIn f W x) : Num A) := by
  obtain ⟨h0, h1⟩ := fl_nat_bounds (f := f) hx
  have hP : (0 : ℝ) < 2 ^ W := by positivity
  have hP1 : (1 : ℝ) ≤ 2 ^ W := one_le_pow₀ one_le_two
  have hd : (.fin (f.rn (x : ℝ)) / .fin (2 ^ W) : Num A) = .fin (f.rn (x : ℝ) / 2 ^ W) := by
    rw [Num.fin_div (by positivity)]
    exact round_value hA hW' (scaled_value hW) (by positivity) ((div_le_self h0 hP1).trans h1)
  rw [hd, lit_one_in hA, Num.le_fin]
  have hiff : (1 ≤ f.rn (x : ℝ) / 2 ^ W) ↔ f.rn (x : ℝ) = 2 ^ W := by
    rw [le_div_iff₀ hP, one_mul]
    exact ⟨fun h => le_antisymm h1 h, fun h => h.ge⟩
  unfold unitIn
  by_cases h : f.rn (x : ℝ) = 2 ^ W
  · rw [if_pos h, if_pos (by rw [decide_eq_true_eq]; exact hiff.2 h), Num.lit_eq]
    have : (((1 - 1 / 2 ^ f.prec : ℚ)) : ℝ) = 1 - 1 / 2 ^ f.prec := by push_cast; rfl
    rw [this]
    have hε := eps_small (K := ℝ) (f := f)
    have hε0 := eps_pos (K := ℝ) (f := f)
    exact round_value hA hW' last_value (by linarith) (by linarith)
  · rw [if_neg h, if_neg (by rw [decide_eq_true_eq]; exact fun h' => h (hiff.1 h'))]

/-- The loop when the numbers of the engine are values of the format: all sums but the last are exact. -/
theorem canonicalLoop_exact (hA : A.IsFormat f) {w k : Nat} (hwp : w ≤ f.prec) (hk : w * (k - 1) ≤ f.prec)
    (hW' : ((w * k : Nat) : Int) < f.emax) (xs : List Nat) (hb : ∀ y ∈ xs, y < 2 ^ w) : ∀ (S i : Nat), xs ≠ [] →
    i + xs.length = k → S < 2 ^ (w * i) →
    canonicalLoop (2 ^ w) xs (.fin (S : ℝ) : Num A) (.fin (2 ^ (w * i))) =
      (.fin (f.rn ((S + 2 ^ (w * i) * joined w xs : Nat) : ℝ)), .fin (2 ^ (w * k))) := by
  induction xs with
  | nil => intro S i h; exact absurd rfl h
  | cons x xs ih =>
    intro S i _ hl hS
    rw [List.length_cons] at hl
    have hx := hb x List.mem_cons_self
    have hik : w * (i + 1) ≤ w * k := Nat.mul_le_mul_left _ (by omega)
    have hi' : ((w * (i + 1) : Nat) : Int) < f.emax := lt_of_le_of_lt (by exact_mod_cast hik) hW'
    have hw' : ((w : Nat) : Int) < f.emax := by
      refine lt_of_le_of_lt ?_ hi'
      have : w ≤ w * (i + 1) := Nat.le_mul_of_pos_right _ (by omega)
      exact_mod_cast this
    have hxv : InFormat f ((x : Nat) : ℝ) := by
      have := int_value (f := f) (K := ℝ) (n := (x : Int)) (by
        rw [abs_of_nonneg (by positivity)]
        exact_mod_cast hx.le.trans (Nat.pow_le_pow_right (by norm_num) hwp))
      exact_mod_cast this
    have hxr : (CxxFloat.ofNat x : Num A) = .fin (x : ℝ) := by
      rw [Num.ofNat_eq]
      exact round_value hA hw' hxv (Nat.cast_nonneg x) (by exact_mod_cast hx.le)
    have hprod : (.fin (x : ℝ) * .fin (2 ^ (w * i)) : Num A) = .fin ((x : ℝ) * 2 ^ (w * i)) := by
      rw [Num.fin_mul]
      refine round_value hA hi' ?_ (by positivity) ?_
      · refine ⟨x, (w * i : Nat), ?_, by have := f.emin_le; omega, by rw [zpow_natCast]; push_cast; rfl⟩
        rw [abs_of_nonneg (by positivity)]
        exact_mod_cast hx.le.trans (Nat.pow_le_pow_right (by norm_num) hwp)
      · rw [Nat.mul_succ, pow_add, mul_comm]
        refine mul_le_mul_of_nonneg_left ?_ (by positivity)
        exact_mod_cast hx.le
    have htmp : (.fin (2 ^ (w * i)) * CxxFloat.lit (2 ^ w) : Num A) = .fin (2 ^ (w * (i + 1))) := by
      rw [lit_pow_in hA hw', Num.fin_mul, ← pow_add, ← Nat.mul_succ]
      exact round_value hA hi' (pow_value _) (by positivity) le_rfl
    have hS' : S + 2 ^ (w * i) * x < 2 ^ (w * (i + 1)) := by
      rw [Nat.mul_succ, pow_add]
      calc S + 2 ^ (w * i) * x < 2 ^ (w * i) + 2 ^ (w * i) * x := by omega
        _ = 2 ^ (w * i) * (x + 1) := by ring
        _ ≤ 2 ^ (w * i) * 2 ^ w := Nat.mul_le_mul_left _ hx
    have hsum : (.fin (S : ℝ) + .fin ((x : ℝ) * 2 ^ (w * i)) : Num A) = .fin (f.rn ((S + 2 ^ (w * i) * x : Nat) : ℝ)) := by
      have e : (S : ℝ) + (x : ℝ) * 2 ^ (w * i) = ((S + 2 ^ (w * i) * x : Nat) : ℝ) := by push_cast; ring
      rw [Num.fin_add, e]
      exact round_pow hA hi' (Nat.cast_nonneg _) (by exact_mod_cast hS'.le)
    rw [canonicalLoop, hxr, hprod, htmp, hsum]
    cases xs with
    | nil =>
      have hk' : k = i + 1 := by rw [← hl]; rfl
      rw [canonicalLoop, hk', joined, joined, mul_zero, add_zero]
    | cons y ys =>
      have hex : f.rn ((S + 2 ^ (w * i) * x : Nat) : ℝ) = ((S + 2 ^ (w * i) * x : Nat) : ℝ) := by
        refine fl_value ?_
        have hle : w * (i + 1) ≤ f.prec := by
          refine (Nat.mul_le_mul_left _ ?_).trans hk
          rw [List.length_cons] at hl; omega
        have := int_value (f := f) (K := ℝ) (n := ((S + 2 ^ (w * i) * x : Nat) : Int)) (by
          rw [abs_of_nonneg (by positivity)]
          exact_mod_cast hS'.le.trans (Nat.pow_le_pow_right (by norm_num) hle))
        exact_mod_cast this
      rw [hex, ih (fun z hz => hb z (List.mem_cons_of_mem _ hz)) _ (i + 1) (by simp) (by omega) hS']
      have e : S + 2 ^ (w * i) * x + 2 ^ (w * (i + 1)) * joined w (y :: ys) =
          S + 2 ^ (w * i) * joined w (x :: y :: ys) := by
        rw [joined.eq_2 w x, Nat.mul_succ, pow_add]; ring
      rw [e]

/-- The bits drawn: as many as the format has, and fewer than 64 more. -/
theorem bits_bounds (hf : Roomy f) {w : Nat} (hw : 0 < w) (hw' : w ≤ 64) :
    f.prec ≤ w * canonicalCount f.prec w ∧ f.emin + (w * canonicalCount f.prec w : Nat) ≤ 0 ∧
    ((w * canonicalCount f.prec w : Nat) : Int) < f.emax := by
  have hp := f.prec_ge
  obtain ⟨h1, h2, h3⟩ := C156_count (p := f.prec) (w := w) (by omega) hw
  have := hf.large
  have := hf.small
  obtain ⟨j, hj⟩ : ∃ j, canonicalCount f.prec w = j + 1 := ⟨canonicalCount f.prec w - 1, by omega⟩
  rw [hj, Nat.add_sub_cancel] at h3
  refine ⟨h2, ?_, ?_⟩ <;> rw [hj, Nat.mul_succ] <;> push_cast <;> omega

/-- C156.  `generate_canonical` gives the joined outputs of the engine, rounded to the format and divided by 2^W, or the last
value below 1 where that is 1. -/
theorem C156_canonical (hA : A.IsFormat f) (hf : Roomy f) {w : Nat} (hw : 0 < w) (hw' : w ≤ 64) (xs : List Nat)
    (hl : xs.length = canonicalCount f.prec w) (hb : ∀ y ∈ xs, y < 2 ^ w) :
    (canonicalIn f.prec w xs : Num A) = .fin (unitIn f (w * canonicalCount f.prec w) (joined w xs)) := by
  have hp := f.prec_ge
  obtain ⟨c1, c2, c3⟩ := C156_count (p := f.prec) (w := w) (by omega) hw
  obtain ⟨b1, b2, b3⟩ := bits_bounds hf hw hw'
  obtain ⟨j1, _⟩ := (C156_outputs w (canonicalCount f.prec w)).2.2 xs hl hb
  have key : canonicalLoop (2 ^ w) xs (CxxFloat.zero : Num A) (CxxFloat.lit 1) =
      (.fin (f.rn ((joined w xs : Nat) : ℝ)), .fin (2 ^ (w * canonicalCount f.prec w))) := by
    rw [Num.zero_eq, lit_one_in hA]
    rcases Nat.le_total w f.prec with h | h
    · have := canonicalLoop_exact hA h c3.le b3 xs hb 0 0 (by rintro rfl; simp at hl; omega) (by omega) (by simp)
      simpa using this
    · have hk1 : canonicalCount f.prec w = 1 := by
        by_contra hc
        have : w * 1 ≤ w * (canonicalCount f.prec w - 1) := Nat.mul_le_mul_left _ (by omega)
        omega
      rw [hk1] at hl b3 ⊢
      rw [mul_one] at b3
      obtain ⟨x, rfl⟩ := List.length_eq_one_iff.1 hl
      have hx := hb x List.mem_cons_self
      obtain ⟨h0, h1⟩ := fl_nat_bounds (f := f) hx
      rw [canonicalLoop, canonicalLoop, joined, joined, mul_zero, add_zero, mul_one, Num.ofNat_eq,
        round_pow hA b3 (Nat.cast_nonneg x) (by exact_mod_cast hx.le), Num.fin_mul, mul_one,
        round_value hA b3 (fl_inFormat _) h0 h1, Num.fin_add, zero_add, round_value hA b3 (fl_inFormat _) h0 h1,
        lit_pow_in hA b3, Num.fin_mul, one_mul, round_value hA b3 (pow_value w) (by positivity) le_rfl]
  unfold canonicalIn
  simp only [key]
  exact canonicalIn_end hA b2 b3 j1

/-! ### Draws from [0, b) -/

theorem round_finite_le (hA : A.IsFormat f) {b y : ℝ} (hb : FiniteIn f b) (h : |y| ≤ b) : Num.round A y = .fin (f.rn y) := by
  refine Num.round_of ?_
  rw [hA, FloatFormat.rnd, if_pos]
  exact (fl_abs_le hb.1 h).trans_lt ((le_abs_self b).trans_lt hb.2)

/-- C156.  The number drawn between 0 and `b` is the product of that number and `b`, rounded. -/
theorem C156_draw (hA : A.IsFormat f) (hf : Roomy f) {w : Nat} (hw : 0 < w) (hw' : w ≤ 64) (xs : List Nat)
    (hl : xs.length = canonicalCount f.prec w) (hb : ∀ y ∈ xs, y < 2 ^ w) {b : ℝ} (hd : FiniteIn f b) (h0 : 0 ≤ b) :
    (drawIn f.prec w xs (.fin 0) (.fin b) : Num A) =
      .fin (f.rn (unitIn f (w * canonicalCount f.prec w) (joined w xs) * b)) := by
  obtain ⟨_, b2, _⟩ := bits_bounds hf hw hw'
  obtain ⟨j1, _⟩ := (C156_outputs w (canonicalCount f.prec w)).2.2 xs hl hb
  obtain ⟨u1, u2, u3, _⟩ := C156_unit b2 j1
  have hε0 := eps_pos (K := ℝ) (f := f)
  unfold drawIn
  rw [C156_canonical hA hf hw hw' xs hl hb]
  generalize unitIn f (w * canonicalCount f.prec w) (joined w xs) = u at *
  have hle : u * b ≤ b := by
    have : u ≤ 1 := by linarith
    nlinarith
  have hn : 0 ≤ u * b := mul_nonneg u2 h0
  have hr : f.rn (u * b) ≤ b := by have := fl_mono (f := f) hle; rwa [fl_value hd.1] at this
  have hrn : 0 ≤ f.rn (u * b) := fl_nonneg hn
  have rd : ∀ y : ℝ, |y| ≤ b → Num.round A y = .fin (f.rn y) := fun y hy => round_finite_le hA hd hy
  rw [Num.fin_sub, sub_zero, rd b (by rw [abs_of_nonneg h0]), fl_value hd.1, Num.fin_mul,
    rd _ (by rw [abs_of_nonneg hn]; exact hle), Num.fin_add, add_zero, rd _ (by rw [abs_of_nonneg hrn]; exact hr),
    fl_value (fl_inFormat _)]

theorem fl_ulpExp_eq {x : ℝ} {k : Int} (hk : f.emin + (f.prec - 1) ≤ k) (h1 : (2 : ℝ) ^ k ≤ |x|) (h2 : |x| < (2 : ℝ) ^ (k + 1)) :
    f.ulpExp x = k - (f.prec - 1) := by
  have hx : 0 < |x| := lt_of_lt_of_le (two_zpow_pos k) h1
  have e1 : k ≤ Int.log 2 |x| := by
    rw [← Int.zpow_le_iff_le_log (by norm_num) hx]; exact_mod_cast h1
  have e2 : Int.log 2 |x| < k + 1 := by
    rw [← Int.lt_zpow_iff_log_lt (by norm_num) hx]; exact_mod_cast h2
  unfold FloatFormat.ulpExp
  rw [max_eq_left (by omega)]
  omega

/-- A value above the smallest normal one has another one closely below. -/
theorem value_pred {b : ℝ} (hb : InFormat f b) (h : (2 : ℝ) ^ (f.emin + (f.prec - 1)) < b) :
    ∃ z, InFormat f z ∧ z < b ∧ b - 2 * (b / 2 ^ f.prec) < z := by
  have hprec := f.prec_ge
  have hbp : 0 < b := (two_zpow_pos _).trans h
  have hk1 := Int.zpow_log_le_self (R := ℝ) (b := 2) (by norm_num) hbp
  have hk2 := Int.lt_zpow_succ_log_self (R := ℝ) (b := 2) (by norm_num) b
  push_cast at hk1 hk2
  generalize Int.log 2 b = k at hk1 hk2
  have hk : f.emin + (f.prec - 1) ≤ k := by
    have := (zpow_lt_zpow_iff_right₀ (one_lt_two (α := ℝ))).1 (h.trans hk2)
    omega
  have hu : f.ulpExp b = k - (f.prec - 1) := fl_ulpExp_eq hk (by rwa [abs_of_pos hbp]) (by rwa [abs_of_pos hbp])
  have hm : Mult (k - (f.prec - 1)) b := by
    have := fl_mult_ulp (f := f) b
    rwa [fl_value hb, hu] at this
  have hp := two_zpow_pos (K := ℝ) k
  have hP : (1 : ℝ) < 2 ^ f.prec := one_lt_pow₀ one_lt_two (by omega)
  have hP0 : (0 : ℝ) < 2 ^ f.prec := by positivity
  have ek' : (2 : ℝ) ^ (k - f.prec) = (2 : ℝ) ^ k / 2 ^ f.prec := by rw [zpow_sub₀ two_ne_zero, zpow_natCast]
  have ek : (2 : ℝ) ^ (k - (f.prec - 1)) = 2 * ((2 : ℝ) ^ k / 2 ^ f.prec) := by
    rw [← ek', show k - ((f.prec : Int) - 1) = (k - f.prec) + 1 by ring, zpow_add_one₀ two_ne_zero]; ring
  have hq : 0 < (2 : ℝ) ^ k / 2 ^ f.prec := by positivity
  rcases hk1.eq_or_lt with he | hlt
  · have hk' : f.emin + f.prec ≤ k := by
      by_contra hc
      have : k = f.emin + (f.prec - 1) := by omega
      rw [← he, this] at h
      exact lt_irrefl _ h
    refine ⟨b - (2 : ℝ) ^ (k - f.prec), value_iff.2 ⟨k - f.prec, by omega,
      (hm.mono (by omega)).sub (mult_zpow le_rfl), ?_⟩, ?_, ?_⟩
    · rw [show k - (f.prec : Int) + f.prec = k by ring, ek', ← he, abs_of_nonneg]
      · linarith
      · have : (2 : ℝ) ^ k / 2 ^ f.prec ≤ (2 : ℝ) ^ k := div_le_self hp.le hP.le
        linarith
    · linarith [two_zpow_pos (K := ℝ) (k - f.prec)]
    · rw [ek', ← he]; linarith
  · refine ⟨b - (2 : ℝ) ^ (k - (f.prec - 1)), value_iff.2 ⟨k - (f.prec - 1), by omega, hm.sub (mult_zpow le_rfl), ?_⟩, ?_, ?_⟩
    · rw [show k - ((f.prec : Int) - 1) + f.prec = k + 1 by ring, ek, abs_of_nonneg]
      · linarith
      · have : (2 : ℝ) ^ k / 2 ^ f.prec ≤ (2 : ℝ) ^ k / 2 :=
          div_le_div_of_nonneg_left hp.le two_pos (by
            calc (2 : ℝ) = 2 ^ 1 := by norm_num
              _ ≤ 2 ^ f.prec := pow_le_pow_right₀ one_le_two (by omega))
        linarith
    · linarith [two_zpow_pos (K := ℝ) (k - (f.prec - 1))]
    · rw [ek]
      have : (2 : ℝ) ^ k / 2 ^ f.prec < b / 2 ^ f.prec := div_lt_div_of_pos_right hlt hP0
      linarith

/-- C156.  A number drawn between 0 and `b` is at least 0 and below `b`, whatever the engine returns, when `b` is above the
smallest normal value of the format. -/
theorem C156_below {W x : Nat} (hW : f.emin + W ≤ 0) (hx : x < 2 ^ W) {b : ℝ} (hb : InFormat f b)
    (h : (2 : ℝ) ^ (f.emin + (f.prec - 1)) < b) : 0 ≤ f.rn (unitIn f W x * b) ∧ f.rn (unitIn f W x * b) < b := by
  obtain ⟨u1, u2, u3, _⟩ := C156_unit hW hx
  have hbp : 0 < b := (two_zpow_pos _).trans h
  refine ⟨fl_nonneg (mul_nonneg u2 hbp.le), ?_⟩
  have hm : f.rn (unitIn f W x * b) ≤ f.rn ((1 - 1 / 2 ^ f.prec) * b) := fl_mono (mul_le_mul_of_nonneg_right u3 hbp.le)
  refine hm.trans_lt ?_
  have hq : 0 < b / 2 ^ f.prec := by positivity
  have e : (1 - 1 / 2 ^ f.prec) * b = b - b / 2 ^ f.prec := by ring
  have hr := fl_mono (f := f) (show (1 - 1 / 2 ^ f.prec) * b ≤ b by rw [e]; linarith)
  rw [fl_value hb] at hr
  refine lt_of_le_of_ne hr fun he => ?_
  obtain ⟨z, z1, z2, z3⟩ := value_pred hb h
  have hz := fl_nearest (f := f) ((1 - 1 / 2 ^ f.prec) * b) z z1
  rw [he, e, show b - b / 2 ^ f.prec - b = -(b / 2 ^ f.prec) by ring, abs_neg, abs_of_pos hq] at hz
  rcases abs_cases (b - b / 2 ^ f.prec - z) with ⟨h1, _⟩ | ⟨h1, _⟩ <;> rw [h1] at hz <;> linarith

/-- The largest number gives the last value below 1. -/
theorem unitIn_largest {W : Nat} (hp : f.prec ≤ W) (hW : f.emin + W ≤ 0) : unitIn f W (2 ^ W - 1) = 1 - 1 / 2 ^ f.prec := by
  have h1 : 1 ≤ 2 ^ W := Nat.one_le_two_pow
  obtain ⟨_, _, u3, _⟩ := C156_unit (f := f) hW (show 2 ^ W - 1 < 2 ^ W by omega)
  refine le_antisymm u3 ?_
  unfold unitIn
  split
  · exact le_rfl
  · have hP : (0 : ℝ) < 2 ^ W := by positivity
    rw [le_div_iff₀ hP]
    have e : (1 - 1 / 2 ^ f.prec) * (2 : ℝ) ^ W = ((2 ^ f.prec - 1 : Int) : ℝ) * (2 : ℝ) ^ ((W - f.prec : Nat) : Int) := by
      rw [zpow_natCast]
      have : (2 : ℝ) ^ W = 2 ^ f.prec * 2 ^ (W - f.prec) := by rw [← pow_add]; congr 1; omega
      rw [this]; push_cast; field_simp
    have hv : InFormat f ((1 - 1 / 2 ^ f.prec) * (2 : ℝ) ^ W) := by
      refine ⟨2 ^ f.prec - 1, ((W - f.prec : Nat) : Int), ?_, by have := f.emin_le; omega, e⟩
      have : (1 : Int) ≤ 2 ^ f.prec := one_le_pow₀ (by norm_num)
      rw [abs_of_nonneg (by omega)]; omega
    rw [← fl_value hv]
    refine fl_mono ?_
    have h2 : (1 : ℝ) ≤ 1 / 2 ^ f.prec * 2 ^ W := by
      rw [one_div, ← div_eq_inv_mul, le_div_iff₀ (by positivity), one_mul]
      exact pow_le_pow_right₀ one_le_two hp
    push_cast [h1]
    linarith

/-- C161 is violated by smaller ranges: when the engine returns its largest numbers, `b` itself is drawn, although the
distribution is over [0, b). -/
theorem C161_tiny_violated {W : Nat} (hp : f.prec ≤ W) (hW : f.emin + W ≤ 0) {b : ℝ} (hb : InFormat f b) (h0 : 0 < b)
    (h : b ≤ (2 : ℝ) ^ (f.emin + (f.prec - 1))) : f.rn (unitIn f W (2 ^ W - 1) * b) = b := by
  have hprec := f.prec_ge
  rw [unitIn_largest hp hW]
  have hε0 := eps_pos (K := ℝ) (f := f)
  have hε := eps_small (K := ℝ) (f := f)
  obtain ⟨m, hm⟩ := value_mult hb
  have hpe := two_zpow_pos (K := ℝ) f.emin
  have hm0 : 0 < m := by
    rw [hm] at h0
    exact_mod_cast (pos_iff_pos_of_mul_pos h0).2 hpe
  have ep : (2 : ℝ) ^ f.prec = 2 * 2 ^ (f.prec - 1) := by
    rw [← pow_succ']; congr 1; omega
  have hml : m ≤ 2 ^ (f.prec - 1) := by
    rw [hm, add_comm f.emin, zpow_add₀ two_ne_zero, show ((f.prec : Int) - 1) = ((f.prec - 1 : Nat) : Int) by omega,
      zpow_natCast] at h
    have := le_of_mul_le_mul_right h hpe
    exact_mod_cast this
  have hm0' : (0 : ℝ) < m := by exact_mod_cast hm0
  have hml' : (m : ℝ) ≤ 2 ^ (f.prec - 1) := by exact_mod_cast hml
  have hue : f.ulpExp ((1 - 1 / 2 ^ f.prec) * b) = f.emin := by
    have hpos : 0 < (1 - 1 / 2 ^ f.prec) * b := mul_pos (by linarith) h0
    rcases fl_ulpExp_cases (f := f) _ hpos.ne' with h' | h'
    · exact h'
    · have hlt : (1 - 1 / 2 ^ f.prec) * b < (2 : ℝ) ^ (f.emin + (f.prec - 1)) := by
        refine lt_of_lt_of_le ?_ h
        nlinarith
      rw [abs_of_pos hpos] at h'
      have := (zpow_lt_zpow_iff_right₀ (one_lt_two (α := ℝ))).1 (h'.trans_lt hlt)
      have := fl_ulpExp_ge (f := f) ((1 - 1 / 2 ^ f.prec) * b)
      omega
  unfold FloatFormat.rn
  rw [hue, hm]
  have e : (1 - 1 / 2 ^ f.prec) * ((m : ℝ) * (2 : ℝ) ^ f.emin) / (2 : ℝ) ^ f.emin = m - m / 2 ^ f.prec := by
    field_simp
  rw [e]
  have hP : (0 : ℝ) < 2 ^ f.prec := by positivity
  have hq : (0 : ℝ) < (m : ℝ) / 2 ^ f.prec := by positivity
  have hq' : (m : ℝ) / 2 ^ f.prec ≤ 1 / 2 := by rw [div_le_iff₀ hP, ep]; linarith
  have hfl : ⌊(m : ℝ) - (m : ℝ) / 2 ^ f.prec⌋ = m - 1 := by
    rw [Int.floor_eq_iff]; push_cast; constructor <;> linarith
  have hr : rint ((m : ℝ) - (m : ℝ) / 2 ^ f.prec) = m := by
    unfold rint
    simp only [hfl]
    push_cast
    rw [if_neg (by linarith)]
    by_cases hh : (1 : ℝ) / 2 < (m : ℝ) - (m : ℝ) / 2 ^ f.prec - ((m : ℝ) - 1)
    · rw [if_pos hh]; ring
    · rw [if_neg hh]
      have h1 : (m : ℝ) = 2 ^ (f.prec - 1) := by
        have h2 : (1 : ℝ) / 2 ≤ (m : ℝ) / 2 ^ f.prec := by linarith
        rw [le_div_iff₀ hP, ep] at h2
        linarith
      have h2 : m = 2 ^ (f.prec - 1) := by exact_mod_cast h1
      have h3 : (m - 1) % 2 ≠ 0 := by
        rw [h2, show f.prec - 1 = (f.prec - 2) + 1 by omega, pow_succ]
        omega
      rw [if_neg h3]; ring
  rw [hr]

/-! ### Choices -/

theorem fl_eq_some (hA : A.IsFormat f) {x y : ℝ} (h : A.rnd x = some y) : y = f.rn x ∧ FiniteIn f y := by
  rw [hA, FloatFormat.rnd] at h
  split at h
  · next h' => cases h; exact ⟨rfl, fl_inFormat _, h'⟩
  · cases h

theorem go_sorted_in (hA : A.IsFormat f) (ws : List ℝ) (hw : ∀ w ∈ ws, 0 ≤ w) :
    ∀ (s : ℝ) (cs : List ℝ), InFormat f s → partialSums.go (F := Num A) (.fin s) (ws.map .fin) = cs.map .fin →
      (s :: cs).Pairwise (· ≤ ·) ∧ cs.length = ws.length ∧ (∀ c ∈ cs, FiniteIn f c) ∧
      ∀ (i : Nat) (a c w : ℝ), (s :: cs)[i]? = some a → cs[i]? = some c → ws[i]? = some w → c = f.rn (a + w) := by
  induction ws with
  | nil =>
    intro s cs _ e
    have : cs = [] := by simpa [partialSums.go] using e.symm
    subst this
    simp
  | cons w ws ih =>
    intro s cs hs e
    rw [List.map_cons, partialSums.go, Num.fin_add] at e
    cases cs with
    | nil => simp at e
    | cons c cs =>
      simp only [List.map_cons, List.cons.injEq] at e
      obtain ⟨e1, e2⟩ := e
      obtain ⟨hc, hcf⟩ := fl_eq_some hA (Num.round_eq_fin e1)
      rw [e1] at e2
      have hsc : s ≤ c := by
        have h0 : s ≤ s + w := le_add_of_nonneg_right (hw w List.mem_cons_self)
        have := fl_mono (f := f) h0
        rwa [fl_value hs, ← hc] at this
      obtain ⟨i1, i2, i3, i4⟩ := ih (fun w h => hw w (List.mem_cons_of_mem _ h)) c cs hcf.1 e2
      refine ⟨?_, by simp [i2], ?_, ?_⟩
      · rw [List.pairwise_cons]
        refine ⟨fun x hx => ?_, i1⟩
        rcases List.mem_cons.1 hx with rfl | hx
        · exact hsc
        · exact hsc.trans ((List.pairwise_cons.1 i1).1 x hx)
      · intro x hx
        rcases List.mem_cons.1 hx with rfl | hx
        · exact hcf
        · exact i3 x hx
      · intro i a d v h1 h2 h3
        cases i with
        | zero =>
          simp only [List.getElem?_cons_zero, Option.some.injEq] at h1 h2 h3
          rw [← h1, ← h2, ← h3]; exact hc
        | succ i => exact i4 i a d v h1 h2 h3

/-- The sums of the weights, when they do not overflow. -/
structure Spec.SumsIn (A : Arith ℝ) (f : FloatFormat) (ws cs : List ℝ) (total : ℝ) : Prop where
  nonneg : ∀ w ∈ ws, 0 ≤ w
  finite : ∀ w ∈ ws, FiniteIn f w
  sums : partialSums (ws.map .fin) = cs.map (Num.fin (A := A))
  last : cs.getLast? = some total

section
variable {ws cs : List ℝ} {total : ℝ}

/-- They are values of the format, do not decrease, and each is the rounded sum of the one before and a weight. -/
theorem sums_in (hA : A.IsFormat f) (h : SumsIn A f ws cs total) :
    cs.Pairwise (· ≤ ·) ∧ cs.length = ws.length ∧ (∀ c ∈ cs, FiniteIn f c ∧ 0 ≤ c) ∧
    ∀ (i : Nat) (a c w : ℝ), (0 :: cs)[i]? = some a → cs[i]? = some c → ws[i]? = some w → c = f.rn (a + w) := by
  obtain ⟨hw, hd, hc, ht⟩ := h
  cases ws with
  | nil =>
    have : cs = [] := by simpa [partialSums] using hc.symm
    subst this
    simp
  | cons w ws =>
    rw [List.map_cons, partialSums] at hc
    cases cs with
    | nil => simp at hc
    | cons c cs =>
      simp only [List.map_cons, List.cons.injEq, Num.fin.injEq] at hc
      obtain ⟨rfl, hc⟩ := hc
      obtain ⟨i1, i2, i3, i4⟩ := go_sorted_in hA ws (fun x h => hw x (List.mem_cons_of_mem _ h)) w cs
        (hd w List.mem_cons_self).1 hc
      refine ⟨i1, by simp [i2], fun c hcm => ⟨?_, ?_⟩, ?_⟩
      · rcases List.mem_cons.1 hcm with rfl | hm
        · exact hd _ List.mem_cons_self
        · exact i3 c hm
      · have h0 := hw w List.mem_cons_self
        rcases List.mem_cons.1 hcm with rfl | hm
        · exact h0
        · exact h0.trans ((List.pairwise_cons.1 i1).1 c hm)
      · intro i a c v ha hi hv
        cases i with
        | zero =>
          simp only [List.getElem?_cons_zero, Option.some.injEq] at ha hi hv
          rw [← ha, ← hi, ← hv, zero_add, fl_value (hd w List.mem_cons_self).1]
        | succ j => exact i4 j a c v ha hi hv

/-- C156.  `choose_between_psums` on the computed sums chooses what `choose_between` chooses on the weights. -/
theorem C156_psums (h : SumsIn A f ws cs total) :
    chooseBetween (ws.map (Num.fin (A := A))) = chooseBetweenPsums (cs.map (Num.fin (A := A))) := by
  funext draw
  unfold chooseBetween chooseBetweenPsums
  rw [h.sums]

/-- The index chosen, for a draw below the total. -/
theorem choice_iff (hA : A.IsFormat f) (h : SumsIn A f ws cs total) {r : ℝ} (h0 : 0 ≤ r) (h1 : r < total)
    (draw : Num A → Num A → Num A) (hr : draw (.fin 0) (.fin total) = .fin r) {i : Nat} {a c : ℝ}
    (ha : (0 :: cs)[i]? = some a) (hi : cs[i]? = some c) :
    chooseBetween (ws.map (Num.fin (A := A))) draw = .ok i ↔ r < c ∧ ¬ r < a := by
  obtain ⟨s1, s2, s3, _⟩ := sums_in hA h
  have ht := h.last
  rw [C156_psums h, C20_psums (A := A) cs s1 r draw (fun y hy => by rw [ht] at hy; cases hy; exact ⟨hr, h1⟩)
    (by rintro rfl; cases ht) i, not_lt]
  constructor
  · rintro ⟨c', hc', h1, h2⟩
    rw [hi] at hc'; cases hc'
    refine ⟨h1, ?_⟩
    cases i with
    | zero => simp only [List.getElem?_cons_zero, Option.some.injEq] at ha; rw [← ha]; exact h0
    | succ j => rw [List.getElem?_cons_succ] at ha; exact h2 a (Nat.succ_pos j) (by rw [Nat.add_sub_cancel]; exact ha)
  · rintro ⟨h1, h2⟩
    refine ⟨c, hi, h1, fun b hb hb' => ?_⟩
    cases i with
    | zero => omega
    | succ j =>
      rw [Nat.add_sub_cancel] at hb'
      rw [List.getElem?_cons_succ, hb'] at ha
      cases ha; exact h2

/-- An index is chosen, and its weight is positive. -/
theorem choice_positive (hA : A.IsFormat f) (h : SumsIn A f ws cs total) {r : ℝ} (h0 : 0 ≤ r) (h1 : r < total)
    (draw : Num A → Num A → Num A) (hr : draw (.fin 0) (.fin total) = .fin r) :
    ∃ i, ∃ hi : i < ws.length, chooseBetween (ws.map (Num.fin (A := A))) draw = .ok i ∧ 0 < ws[i] := by
  obtain ⟨s1, s2, s3, s4⟩ := sums_in hA h
  have ht := h.last
  obtain ⟨n, e, n1, n2, n3⟩ := upperBound_sorted (A := A) cs s1 r
  have hl : (cs.map (Num.fin (A := A))).getLast? = some (.fin total) := by rw [List.getLast?_map, ht]; rfl
  have hres : chooseBetween (ws.map (Num.fin (A := A))) draw = .ok n := by
    rw [C156_psums h]
    unfold chooseBetweenPsums
    rw [hl]
    simp only [Num.zero_eq, hr, e]
  have hn : n < cs.length := by
    rw [List.getLast?_eq_getElem?] at ht
    obtain ⟨hlt, e2⟩ := List.getElem?_eq_some_iff.1 ht
    by_contra hc
    have := n2 (cs.length - 1) total (by omega) ht
    exact absurd h1 (not_lt.2 this)
  have hn' : n < ws.length := by omega
  obtain ⟨a, ha⟩ : ∃ a, (0 :: cs)[n]? = some a := ⟨_, List.getElem?_eq_getElem (by rw [List.length_cons]; omega)⟩
  obtain ⟨c, hc⟩ : ∃ c, cs[n]? = some c := ⟨_, List.getElem?_eq_getElem hn⟩
  have hiff := (choice_iff hA h h0 h1 draw hr ha hc).1 hres
  refine ⟨n, hn', hres, ?_⟩
  have h3 := s4 n a c ws[n] ha hc (List.getElem?_eq_getElem hn')
  rcases (h.nonneg ws[n] (List.getElem_mem hn')).eq_or_lt with hz | hz
  · exfalso
    rw [← hz, add_zero] at h3
    have hav : InFormat f a := by
      rcases List.mem_cons.1 (List.mem_of_getElem? ha) with h | h
      · rw [h]; exact zero_value
      · exact (s3 a h).1.1
    rw [fl_value hav] at h3
    rw [h3] at hiff
    exact hiff.2 hiff.1
  · exact hz

/-- The engine and the numbers it returns for one draw. -/
structure Spec.Drawn (f : FloatFormat) (w : Nat) (xs : List Nat) : Prop where
  pos : 0 < w
  le : w ≤ 64
  count : xs.length = canonicalCount f.prec w
  range : ∀ x ∈ xs, x < 2 ^ w

/-- C156.  With nonnegative weights whose sums do not overflow and a total above the smallest normal value, `choose_between`
returns the index of a positive weight, whatever the engine returns. -/
theorem C156_choice (hA : A.IsFormat f) (hf : Roomy f) (h : SumsIn A f ws cs total)
    (hp : (2 : ℝ) ^ (f.emin + (f.prec - 1)) < total) {w : Nat} {xs : List Nat} (hx : Drawn f w xs) :
    ∃ i, ∃ hi : i < ws.length, chooseBetween (ws.map (Num.fin (A := A))) (drawIn f.prec w xs) = .ok i ∧ 0 < ws[i] := by
  obtain ⟨s1, s2, s3, _⟩ := sums_in hA h
  obtain ⟨t1, t3⟩ := s3 total (List.mem_of_getLast? h.last)
  obtain ⟨_, b2, _⟩ := bits_bounds hf hx.pos hx.le
  obtain ⟨j1, _⟩ := (C156_outputs w (canonicalCount f.prec w)).2.2 xs hx.count hx.range
  obtain ⟨d1, d2⟩ := C156_below b2 j1 t1.1 hp
  exact choice_positive hA h d1 d2 _ (C156_draw hA hf hx.pos hx.le xs hx.count hx.range t1 t3)

/-- C161 is violated by smaller totals: when the engine returns its largest numbers, `choose_between` returns the number of
weights, which is no index. -/
theorem C161_index_violated (hA : A.IsFormat f) (hf : Roomy f) (h : SumsIn A f ws cs total) (h0 : 0 < total)
    (hp : total ≤ (2 : ℝ) ^ (f.emin + (f.prec - 1))) {w : Nat} (hw : 0 < w) (hw' : w ≤ 64) :
    ∃ xs, Drawn f w xs ∧ chooseBetween (ws.map (Num.fin (A := A))) (drawIn f.prec w xs) = .ok ws.length := by
  obtain ⟨s1, s2, s3, _⟩ := sums_in hA h
  obtain ⟨t1, t3⟩ := s3 total (List.mem_of_getLast? h.last)
  obtain ⟨b1, b2, _⟩ := bits_bounds hf hw hw'
  obtain ⟨o1, o2, _⟩ := C156_outputs w (canonicalCount f.prec w)
  have h1 : 1 ≤ 2 ^ (w * canonicalCount f.prec w) := Nat.one_le_two_pow
  have hx : Drawn f w (outputs w (canonicalCount f.prec w) (2 ^ (w * canonicalCount f.prec w) - 1)) :=
    ⟨hw, hw', (o1 _).1, (o1 _).2⟩
  refine ⟨_, hx, ?_⟩
  have hdr := C156_draw hA hf hw hw' _ hx.count hx.range t1 t3
  rw [o2 _ (by omega), C161_tiny_violated b1 b2 t1.1 h0 hp] at hdr
  have hl : (cs.map (Num.fin (A := A))).getLast? = some (.fin total) := by rw [List.getLast?_map, h.last]; rfl
  unfold chooseBetween
  dsimp only
  rw [h.sums, hl]
  simp only [Num.zero_eq, hdr]
  rw [upperBound_none, List.length_map, s2]
  intro m hm
  obtain ⟨c, hcm, rfl⟩ := List.mem_map.1 hm
  rw [Num.lt_fin, decide_eq_false_iff_not, not_lt]
  exact last_le s1 h.last c hcm

/-- C161 is violated by weights that are all zero: whatever the engine returns, the result is no index. -/
theorem C161_zero_violated (hA : A.IsFormat f) (hf : Roomy f) (n : Nat) (hn : 0 < n) {w : Nat} {xs : List Nat}
    (hx : Drawn f w xs) : chooseBetween (List.replicate n (.fin 0 : Num A)) (drawIn f.prec w xs) = .ok n := by
  have go : ∀ k, partialSums.go (.fin 0 : Num A) (List.replicate k (.fin 0)) = List.replicate k (.fin 0) := by
    intro k
    induction k with
    | zero => rfl
    | succ k ih =>
      rw [List.replicate_succ, partialSums.go, Num.fin_add, add_zero, Num.round_of (rnd_zero hA), ih]
  have hs : partialSums (List.replicate n (.fin 0 : Num A)) = List.replicate n (.fin 0) := by
    cases n with
    | zero => rfl
    | succ n => rw [List.replicate_succ, partialSums, go]
  have hl : (List.replicate n (.fin 0 : Num A)).getLast? = some (.fin 0) := by
    rw [List.getLast?_replicate, if_neg (by omega)]
  have hdr := C156_draw hA hf hx.pos hx.le xs hx.count hx.range (b := 0)
    ⟨zero_value, by rw [abs_zero]; exact two_zpow_pos _⟩ le_rfl
  rw [mul_zero, fl_zero] at hdr
  unfold chooseBetween
  dsimp only
  rw [hs, hl]
  simp only [Num.zero_eq, hdr]
  rw [upperBound_none, List.length_replicate]
  intro m hm
  rw [List.eq_of_mem_replicate hm, Num.lt_fin]
  simp

/-- C161 is violated by weights whose sum overflows: whatever the engine returns, the result is no index. -/
theorem C161_overflow_violated (hA : A.IsFormat f) (hf : Roomy f) (ws : List (Num A))
    (ht : (partialSums ws).getLast? = some (.inf false)) {w : Nat} {xs : List Nat} (hx : Drawn f w xs) :
    chooseBetween ws (drawIn f.prec w xs) = .ok ws.length := by
  obtain ⟨_, b2, _⟩ := bits_bounds hf hx.pos hx.le
  obtain ⟨j1, _⟩ := (C156_outputs w (canonicalCount f.prec w)).2.2 xs hx.count hx.range
  obtain ⟨_, u2, _, _⟩ := C156_unit b2 j1
  have hdr : drawIn f.prec w xs (.fin 0) (.inf false) = (.inf false : Num A) ∨
      drawIn f.prec w xs (.fin 0) (.inf false) = (.nan : Num A) := by
    unfold drawIn
    rw [C156_canonical hA hf hx.pos hx.le xs hx.count hx.range]
    generalize unitIn f (w * canonicalCount f.prec w) (joined w xs) = u at *
    have e : (.inf false - .fin 0 : Num A) = .inf false := rfl
    rw [e]
    by_cases h : u = 0
    · right
      have : (.fin u * .inf false : Num A) = .nan := if_pos h
      rw [this, Num.nan_add]
    · left
      have : (.fin u * .inf false : Num A) = .inf false := by
        refine (if_neg h).trans ?_
        rw [decide_eq_false (not_lt.2 u2)]; rfl
      rw [this]; rfl
  unfold chooseBetween
  dsimp only
  rw [ht]
  rw [← length_partialSums ws]
  refine upperBound_none _ _ fun m _ => ?_
  show CxxFloat.lt (drawIn f.prec w xs (.fin 0) (.inf false)) m = false
  rcases hdr with h | h <;> rw [h] <;> cases m <;> rfl

/-! ### Frequencies -/

/-- The fraction of the sequences of `k` outputs of a `w`-bit engine that satisfy `P`. -/
noncomputable def Spec.engineFraction (w k : Nat) (P : List Nat → Prop) : ℝ :=
  letI := Classical.decPred P
  (((Finset.range (2 ^ (w * k))).filter (fun x => P (outputs w k x))).card : ℝ) / 2 ^ (w * k)

theorem engineFraction_bounds (w k : Nat) (P : List Nat → Prop) (q δ : ℝ) (h0 : 0 ≤ q) (h1 : q ≤ 1) (hδ : 0 ≤ δ)
    (hl : ∀ x : Nat, x < 2 ^ (w * k) → (x : ℝ) / 2 ^ (w * k) < q - δ → P (outputs w k x))
    (hu : ∀ x : Nat, x < 2 ^ (w * k) → P (outputs w k x) → (x : ℝ) / 2 ^ (w * k) < q + δ) :
    |engineFraction w k P - q| ≤ δ + 1 / 2 ^ (w * k) := by
  classical
  unfold engineFraction
  generalize hW : w * k = W at *
  have h64 : (0 : ℝ) < 2 ^ W := by positivity
  have lo : (q - δ) * 2 ^ W ≤ (((Finset.range (2 ^ W)).filter (fun x => P (outputs w k x))).card : ℝ) := by
    refine (Nat.le_ceil _).trans ?_
    have hsub : Finset.range ⌈(q - δ) * 2 ^ W⌉₊ ⊆ (Finset.range (2 ^ W)).filter (fun x => P (outputs w k x)) := by
      intro x hx
      rw [Finset.mem_range, Nat.lt_ceil] at hx
      have hq : (x : ℝ) / 2 ^ W < q - δ := by rwa [div_lt_iff₀ h64]
      have hx' : x < 2 ^ W := by
        have : (x : ℝ) < 2 ^ W := by
          refine hx.trans_le ?_
          have : q - δ ≤ 1 := by linarith
          nlinarith
        exact_mod_cast this
      rw [Finset.mem_filter, Finset.mem_range]
      exact ⟨hx', hl x hx' hq⟩
    have := Finset.card_le_card hsub
    rw [Finset.card_range] at this
    exact_mod_cast this
  have hi : (((Finset.range (2 ^ W)).filter (fun x => P (outputs w k x))).card : ℝ) ≤ (q + δ) * 2 ^ W + 1 := by
    have hsub : (Finset.range (2 ^ W)).filter (fun x => P (outputs w k x)) ⊆ Finset.range ⌈(q + δ) * 2 ^ W⌉₊ := by
      intro x hx
      rw [Finset.mem_filter, Finset.mem_range] at hx
      rw [Finset.mem_range, Nat.lt_ceil]
      have := hu x hx.1 hx.2
      rwa [div_lt_iff₀ h64] at this
    have := Finset.card_le_card hsub
    rw [Finset.card_range] at this
    have h2 : (((Finset.range (2 ^ W)).filter (fun x => P (outputs w k x))).card : ℝ) ≤ (⌈(q + δ) * 2 ^ W⌉₊ : ℝ) := by
      exact_mod_cast this
    exact h2.trans (Nat.ceil_lt_add_one (by positivity)).le
  rw [abs_le]
  constructor
  · have := div_le_div_of_nonneg_right lo h64.le
    rw [mul_div_assoc, div_self h64.ne', mul_one] at this
    have h5 : (0 : ℝ) ≤ 1 / 2 ^ W := by positivity
    have e : (((Finset.range (2 ^ W)).filter (fun x => P (outputs w k x))).card : ℝ) / 2 ^ W ≥ q - δ := this
    convert (show -(δ + 1 / 2 ^ W) ≤ (((Finset.range (2 ^ W)).filter (fun x => P (outputs w k x))).card : ℝ) / 2 ^ W - q by
      linarith) using 4
  · have := div_le_div_of_nonneg_right hi h64.le
    rw [add_div, mul_div_assoc, div_self h64.ne', mul_one] at this
    convert (show (((Finset.range (2 ^ W)).filter (fun x => P (outputs w k x))).card : ℝ) / 2 ^ W - q ≤ δ + 1 / 2 ^ W by
      linarith) using 4

theorem engineFraction_diff (w k : Nat) (P Q R : List Nat → Prop)
    (h : ∀ x : Nat, x < 2 ^ (w * k) → (P (outputs w k x) ↔ Q (outputs w k x) ∧ ¬ R (outputs w k x)))
    (hQ : ∀ x : Nat, x < 2 ^ (w * k) → R (outputs w k x) → Q (outputs w k x)) :
    engineFraction w k P = engineFraction w k Q - engineFraction w k R := by
  classical
  unfold engineFraction
  generalize hW : w * k = W at *
  have e : (Finset.range (2 ^ W)).filter (fun x => Q (outputs w k x)) =
      (Finset.range (2 ^ W)).filter (fun x => P (outputs w k x)) ∪ (Finset.range (2 ^ W)).filter (fun x => R (outputs w k x)) := by
    ext x
    simp only [Finset.mem_filter, Finset.mem_union, Finset.mem_range]
    constructor
    · rintro ⟨hx, hq⟩
      by_cases hr : R (outputs w k x)
      · exact .inr ⟨hx, hr⟩
      · exact .inl ⟨hx, (h x hx).2 ⟨hq, hr⟩⟩
    · rintro (⟨hx, hp⟩ | ⟨hx, hr⟩)
      · exact ⟨hx, ((h x hx).1 hp).1⟩
      · exact ⟨hx, hQ x hx hr⟩
  have hd : Disjoint ((Finset.range (2 ^ W)).filter (fun x => P (outputs w k x)))
      ((Finset.range (2 ^ W)).filter (fun x => R (outputs w k x))) := by
    rw [Finset.disjoint_left]
    intro x h1 h2
    rw [Finset.mem_filter, Finset.mem_range] at h1 h2
    exact ((h x h1.1).1 h1.2).2 h2.2
  have hc := Finset.card_union_of_disjoint hd
  rw [← e] at hc
  have hc' : (((Finset.range (2 ^ W)).filter (fun x => Q (outputs w k x))).card : ℝ) =
      ((Finset.range (2 ^ W)).filter (fun x => P (outputs w k x))).card +
      ((Finset.range (2 ^ W)).filter (fun x => R (outputs w k x))).card := by exact_mod_cast hc
  have : (((Finset.range (2 ^ W)).filter (fun x => P (outputs w k x))).card : ℝ) =
      ((Finset.range (2 ^ W)).filter (fun x => Q (outputs w k x))).card -
      ((Finset.range (2 ^ W)).filter (fun x => R (outputs w k x))).card := by linarith
  rw [← sub_div]
  convert congrArg (· / (2 : ℝ) ^ W) this using 3

/-- The number drawn between 0 and `b` is within 2b/2^p of the fraction x/2^W of `b`. -/
theorem draw_close_in {W x : Nat} (hW : f.emin + W ≤ 0) (hx : x < 2 ^ W) {b : ℝ} (h : (2 : ℝ) ^ (f.emin + (f.prec - 1)) ≤ b) :
    |f.rn (unitIn f W x * b) - (x : ℝ) / 2 ^ W * b| ≤ 2 * (1 / 2 ^ f.prec) * b := by
  obtain ⟨u1, u2, u3, u4⟩ := C156_unit hW hx
  have hε0 := eps_pos (K := ℝ) (f := f)
  generalize unitIn f W x = u at *
  have hbp : 0 < b := lt_of_lt_of_le (two_zpow_pos _) h
  have hy : 0 ≤ u * b := mul_nonneg u2 hbp.le
  have hyb : u * b ≤ b := by
    have : u ≤ 1 := by linarith
    nlinarith
  have hprec := f.prec_ge
  have h1 : |u * b - f.rn (u * b)| ≤ 1 / 2 ^ f.prec * b := by
    by_cases h0 : u * b = 0
    · rw [h0, fl_zero, sub_zero, abs_zero]; positivity
    · refine (fl_err_ulp _).trans ?_
      have hmono := fl_ulpExp_mono (f := f) h0 (y := b) (by rw [abs_of_nonneg hy, abs_of_pos hbp]; exact hyb)
      have hb52 : (2 : ℝ) ^ (f.ulpExp b + (f.prec - 1)) ≤ b := by
        rcases fl_ulpExp_cases (f := f) b hbp.ne' with h' | h'
        · rw [h']; exact h
        · rwa [abs_of_pos hbp] at h'
      have h2 : (2 : ℝ) ^ f.ulpExp (u * b) ≤ (2 : ℝ) ^ f.ulpExp b := zpow_le_zpow_right₀ one_le_two hmono
      rw [show f.ulpExp b + ((f.prec : Int) - 1) = (f.ulpExp b - 1) + f.prec by ring, zpow_add₀ two_ne_zero, zpow_natCast,
        zpow_sub_one₀ two_ne_zero] at hb52
      have hP : (0 : ℝ) < 2 ^ f.prec := by positivity
      rw [one_div, ← div_eq_inv_mul, le_div_iff₀ hP]
      refine (mul_le_mul_of_nonneg_right (div_le_div_of_nonneg_right h2 two_pos.le) hP.le).trans ?_
      rwa [div_eq_mul_inv]
  have h2 : |u * b - (x : ℝ) / 2 ^ W * b| ≤ 1 / 2 ^ f.prec * b := by
    rw [← sub_mul, abs_mul, abs_of_pos hbp]
    exact mul_le_mul_of_nonneg_right u4 hbp.le
  have h3 := abs_sub_le (f.rn (u * b)) (u * b) ((x : ℝ) / 2 ^ W * b)
  rw [abs_sub_comm (f.rn (u * b)) (u * b)] at h3
  linarith

/-- C156.  The fraction of the outputs of the engine for which the draw between 0 and `b` is below `c` is c/b, within
3/2^p. -/
theorem C156_distribution (hf : Roomy f) {w : Nat} (hw : 0 < w) (hw' : w ≤ 64) {b c : ℝ}
    (h : (2 : ℝ) ^ (f.emin + (f.prec - 1)) ≤ b) (hc0 : 0 ≤ c) (hcb : c ≤ b) :
    |engineFraction w (canonicalCount f.prec w)
      (fun xs => f.rn (unitIn f (w * canonicalCount f.prec w) (joined w xs) * b) < c) - c / b| ≤ 3 / 2 ^ f.prec := by
  have hbp : 0 < b := lt_of_lt_of_le (two_zpow_pos _) h
  have hε0 := eps_pos (K := ℝ) (f := f)
  obtain ⟨b1, b2, _⟩ := bits_bounds hf hw hw'
  obtain ⟨_, o2, _⟩ := C156_outputs w (canonicalCount f.prec w)
  refine (engineFraction_bounds w (canonicalCount f.prec w) _ (c / b) (2 * (1 / 2 ^ f.prec)) (by positivity)
    (by rwa [div_le_one hbp]) (by positivity) ?_ ?_).trans ?_
  · intro x hx hlt
    rw [o2 x hx]
    have h1 := (abs_le.1 (draw_close_in b2 hx h)).2
    have h2 := mul_lt_mul_of_pos_right hlt hbp
    rw [sub_mul, div_mul_cancel₀ _ hbp.ne'] at h2
    linarith
  · intro x hx hlt
    rw [o2 x hx] at hlt
    have h1 := (abs_le.1 (draw_close_in b2 hx h)).1
    rw [← mul_lt_mul_iff_left₀ hbp, add_mul, div_mul_cancel₀ _ hbp.ne']
    linarith
  · have : (1 : ℝ) / 2 ^ (w * canonicalCount f.prec w) ≤ 1 / 2 ^ f.prec :=
      one_div_le_one_div_of_le (by positivity) (pow_le_pow_right₀ one_le_two b1)
    have e : (3 : ℝ) / 2 ^ f.prec = 2 * (1 / 2 ^ f.prec) + 1 / 2 ^ f.prec := by ring
    rw [e]; linarith

theorem engineFraction_congr (w k : Nat) {P Q : List Nat → Prop}
    (h : ∀ x : Nat, x < 2 ^ (w * k) → (P (outputs w k x) ↔ Q (outputs w k x))) : engineFraction w k P = engineFraction w k Q := by
  classical
  unfold engineFraction
  congr 2
  convert congrArg Finset.card (Finset.filter_congr (s := Finset.range (2 ^ (w * k)))
    (p := fun x => P (outputs w k x)) (q := fun x => Q (outputs w k x)) (fun x hx => h x (Finset.mem_range.1 hx))) using 2

theorem normal_lt_one : (2 : ℝ) ^ (f.emin + (f.prec - 1)) < 1 := by
  rw [show (1 : ℝ) = (2 : ℝ) ^ (0 : Int) by simp]
  have := f.emin_le
  have := f.prec_ge
  exact zpow_lt_zpow_right₀ one_lt_two (by omega)

theorem probability_iff (hA : A.IsFormat f) (hf : Roomy f) {w : Nat} {xs : List Nat} (hx : Drawn f w xs) (p : ℝ) :
    chooseWithProbability (.fin p : Num A) (drawIn f.prec w xs) = true ↔
      f.rn (unitIn f (w * canonicalCount f.prec w) (joined w xs) * 1) < p := by
  refine C21_iff p _ _ ?_
  rw [lit_one_in hA]
  exact C156_draw hA hf hx.pos hx.le xs hx.count hx.range one_finite zero_le_one

/-- C156.  `choose_with_probability(p)` is true for a fraction p of the outputs of the engine, within 3/2^prec. -/
theorem C156_probability (hA : A.IsFormat f) (hf : Roomy f) {w : Nat} (hw : 0 < w) (hw' : w ≤ 64) {p : ℝ} (h0 : 0 ≤ p)
    (h1 : p ≤ 1) :
    |engineFraction w (canonicalCount f.prec w) (fun xs => chooseWithProbability (.fin p : Num A) (drawIn f.prec w xs) = true) - p|
      ≤ 3 / 2 ^ f.prec := by
  obtain ⟨o1, _, _⟩ := C156_outputs w (canonicalCount f.prec w)
  have := C156_distribution hf hw hw' (normal_lt_one (f := f)).le h0 h1
  rw [div_one] at this
  rwa [engineFraction_congr w _ (Q := fun xs => f.rn (unitIn f (w * canonicalCount f.prec w) (joined w xs) * 1) < p)
    (fun x _ => probability_iff hA hf (w := w) ⟨hw, hw', (o1 x).1, (o1 x).2⟩ p)]

/-- C156.  Probability 1 and above is always chosen, probability 0 and below never. -/
theorem C156_certain (hA : A.IsFormat f) (hf : Roomy f) {w : Nat} {xs : List Nat} (hx : Drawn f w xs) {p : ℝ} :
    (1 ≤ p → chooseWithProbability (.fin p : Num A) (drawIn f.prec w xs) = true) ∧
    (p ≤ 0 → chooseWithProbability (.fin p : Num A) (drawIn f.prec w xs) = false) := by
  obtain ⟨_, b2, _⟩ := bits_bounds hf hx.pos hx.le
  obtain ⟨j1, _⟩ := (C156_outputs w (canonicalCount f.prec w)).2.2 xs hx.count hx.range
  have key := probability_iff hA hf hx p
  obtain ⟨d1, d2⟩ := C156_below b2 j1 one_value normal_lt_one
  constructor
  · intro h; rw [key]; linarith
  · intro h; rw [← Bool.not_eq_true, key]; linarith

/-- C156.  Index `i` is chosen for a fraction (c_i - c_{i-1})/total of the outputs, within 6/2^p; c_i are the computed partial
sums. -/
theorem C156_frequency_sums (hA : A.IsFormat f) (hf : Roomy f) (h : SumsIn A f ws cs total)
    (hp : (2 : ℝ) ^ (f.emin + (f.prec - 1)) < total) {w : Nat} (hw : 0 < w) (hw' : w ≤ 64) (i : Nat) (a c : ℝ)
    (ha : (0 :: cs)[i]? = some a) (hi : cs[i]? = some c) :
    |engineFraction w (canonicalCount f.prec w)
      (fun xs => chooseBetween (ws.map (Num.fin (A := A))) (drawIn f.prec w xs) = .ok i) - (c - a) / total| ≤ 6 / 2 ^ f.prec := by
  obtain ⟨s1, s2, s3, _⟩ := sums_in hA h
  obtain ⟨t1, t3⟩ := s3 total (List.mem_of_getLast? h.last)
  have hcm := List.mem_of_getElem? hi
  have ha0 : 0 ≤ a := by
    rcases List.mem_cons.1 (List.mem_of_getElem? ha) with h | h
    · exact h.ge
    · exact (s3 a h).2
  have hac : a ≤ c := by
    cases i with
    | zero => simp only [List.getElem?_cons_zero, Option.some.injEq] at ha; rw [← ha]; exact (s3 c hcm).2
    | succ j =>
      rw [List.getElem?_cons_succ] at ha
      obtain ⟨h1, rfl⟩ := List.getElem?_eq_some_iff.1 ha
      obtain ⟨h2, rfl⟩ := List.getElem?_eq_some_iff.1 hi
      exact List.pairwise_iff_getElem.1 s1 j (j + 1) h1 h2 (Nat.lt_succ_self j)
  have hct := last_le s1 h.last c hcm
  obtain ⟨_, b2, _⟩ := bits_bounds hf hw hw'
  obtain ⟨o1, o2, _⟩ := C156_outputs w (canonicalCount f.prec w)
  rw [engineFraction_diff w (canonicalCount f.prec w) _
    (fun xs => f.rn (unitIn f (w * canonicalCount f.prec w) (joined w xs) * total) < c)
    (fun xs => f.rn (unitIn f (w * canonicalCount f.prec w) (joined w xs) * total) < a) ?_ (fun x _ h => lt_of_lt_of_le h hac)]
  · have d1 := C156_distribution hf hw hw' hp.le (hac.trans' ha0) hct
    have d2 := C156_distribution hf hw hw' hp.le ha0 (hac.trans hct)
    have e : (6 : ℝ) / 2 ^ f.prec = 3 / 2 ^ f.prec + 3 / 2 ^ f.prec := by ring
    rw [abs_le] at d1 d2 ⊢
    rw [sub_div, e]
    constructor <;> linarith [d1.1, d1.2, d2.1, d2.2]
  · intro x hx
    have hdr := C156_draw hA hf hw hw' _ (o1 x).1 (o1 x).2 t1 t3
    rw [o2 x hx] at hdr ⊢
    obtain ⟨d1, d2⟩ := C156_below b2 hx t1.1 hp
    exact choice_iff hA h d1 d2 _ hdr ha hi

/-- The error of one partial sum. -/
theorem step_err_in {a w t : ℝ} (ha : InFormat f a) (hw : InFormat f w) (ha0 : 0 ≤ a) (hw0 : 0 ≤ w) (ht : f.rn (a + w) ≤ t) :
    |f.rn (a + w) - (a + w)| ≤ 2 * (1 / 2 ^ f.prec) * t := by
  have h := fl_rel (f := f) ((value_mult ha).add (value_mult hw))
  have hy : 0 ≤ a + w := add_nonneg ha0 hw0
  have hε := eps_small (K := ℝ) (f := f)
  have hε0 := eps_pos (K := ℝ) (f := f)
  rw [abs_of_nonneg hy, abs_sub_comm, div_eq_mul_one_div, mul_comm] at h
  have h1 := (abs_le.1 h).1
  generalize (1 : ℝ) / 2 ^ f.prec = ε at *
  have h3 : a + w ≤ 2 * t := by nlinarith
  refine h.trans ?_
  nlinarith

/-- C156.  The computed total is within 2n total/2^p of the sum of the `n` weights. -/
theorem C156_total (hA : A.IsFormat f) (h : SumsIn A f ws cs total) :
    |total - ws.sum| ≤ ws.length * (2 * (1 / 2 ^ f.prec) * total) := by
  obtain ⟨s1, s2, s3, s4⟩ := sums_in hA h
  have ht := h.last
  have hlast : (0 :: cs)[ws.length]? = some total := by
    rw [List.getLast?_eq_getElem?] at ht
    have h1 := (List.getElem?_eq_some_iff.1 ht).1
    rw [← s2, show cs.length = (cs.length - 1) + 1 by omega, List.getElem?_cons_succ]
    exact ht
  have key : ∀ k, k ≤ ws.length → ∀ a, (0 :: cs)[k]? = some a → |a - (ws.take k).sum| ≤ k * (2 * (1 / 2 ^ f.prec) * total) := by
    intro k
    induction k with
    | zero => intro _ a ha; simp only [List.getElem?_cons_zero, Option.some.injEq] at ha; rw [← ha]; simp
    | succ k ih =>
      intro hk c hc'
      rw [List.getElem?_cons_succ] at hc'
      have hk' : k < ws.length := by omega
      obtain ⟨a, ha⟩ : ∃ a, (0 :: cs)[k]? = some a :=
        ⟨_, List.getElem?_eq_getElem (by rw [List.length_cons, s2]; omega)⟩
      have hst := s4 k a c ws[k] ha hc' (List.getElem?_eq_getElem hk')
      have ham : InFormat f a ∧ 0 ≤ a := by
        rcases List.mem_cons.1 (List.mem_of_getElem? ha) with h | h
        · rw [h]; exact ⟨zero_value, le_rfl⟩
        · exact ⟨(s3 a h).1.1, (s3 a h).2⟩
      have hm := List.getElem_mem hk'
      have hle := last_le s1 ht c (List.mem_of_getElem? hc')
      have he := step_err_in ham.1 (h.finite _ hm).1 ham.2 (h.nonneg _ hm) (hst ▸ hle)
      rw [← hst] at he
      have h1 := ih (by omega) a ha
      rw [List.sum_take_succ ws k hk']
      have h2 := abs_add_le (c - (a + ws[k])) (a - (ws.take k).sum)
      have e : c - (a + ws[k]) + (a - (ws.take k).sum) = c - ((ws.take k).sum + ws[k]) := by ring
      rw [e] at h2
      push_cast
      linarith
  have := key ws.length le_rfl total hlast
  rwa [List.take_length] at this

/-- C156.  Index `i` is chosen for a fraction w_i/(w_0+w_1+...) of the outputs of the engine, within (2n+8)/2^p for n
weights. -/
theorem C156_frequency (hA : A.IsFormat f) (hf : Roomy f) (h : SumsIn A f ws cs total)
    (hp : (2 : ℝ) ^ (f.emin + (f.prec - 1)) < total) {w : Nat} (hw : 0 < w) (hw' : w ≤ 64) (i : Nat) (v : ℝ)
    (hi : ws[i]? = some v) :
    |engineFraction w (canonicalCount f.prec w)
      (fun xs => chooseBetween (ws.map (Num.fin (A := A))) (drawIn f.prec w xs) = .ok i) - v / ws.sum| ≤
      (2 * ws.length + 8) / 2 ^ f.prec := by
  obtain ⟨s1, s2, s3, s4⟩ := sums_in hA h
  have ht := h.last
  have hil := (List.getElem?_eq_some_iff.1 hi).1
  obtain ⟨a, ha⟩ : ∃ a, (0 :: cs)[i]? = some a :=
    ⟨_, List.getElem?_eq_getElem (by rw [List.length_cons, s2]; omega)⟩
  obtain ⟨c, hci⟩ : ∃ c, cs[i]? = some c := ⟨_, List.getElem?_eq_getElem (by rw [s2]; omega)⟩
  have h1 := C156_frequency_sums hA hf h hp hw hw' i a c ha hci
  have hst := s4 i a c v ha hci hi
  have ham : InFormat f a ∧ 0 ≤ a := by
    rcases List.mem_cons.1 (List.mem_of_getElem? ha) with h | h
    · rw [h]; exact ⟨zero_value, le_rfl⟩
    · exact ⟨(s3 a h).1.1, (s3 a h).2⟩
  have hm := List.mem_of_getElem? hi
  have htp : 0 < total := (two_zpow_pos _).trans hp
  have hle := last_le s1 ht c (List.mem_of_getElem? hci)
  have he := step_err_in ham.1 (h.finite _ hm).1 ham.2 (h.nonneg _ hm) (hst ▸ hle)
  rw [← hst] at he
  have hs := C156_total hA h
  obtain ⟨o1, _, _⟩ := C156_outputs w (canonicalCount f.prec w)
  obtain ⟨j, hj, _, hjp⟩ := C156_choice hA hf h hp (w := w) ⟨hw, hw', (o1 0).1, (o1 0).2⟩
  have hsum : 0 < ws.sum := lt_of_lt_of_le hjp (List.single_le_sum h.nonneg _ (List.getElem_mem hj))
  have hws : v ≤ ws.sum := List.single_le_sum h.nonneg _ hm
  have h2 : |(c - a) / total - v / total| ≤ 2 * (1 / 2 ^ f.prec) := by
    rw [← sub_div, abs_div, abs_of_pos htp, div_le_iff₀ htp, show c - a - v = c - (a + v) by ring]
    exact he
  have h3 : |v / total - v / ws.sum| ≤ ws.length * (2 * (1 / 2 ^ f.prec)) := by
    have e : v / total - v / ws.sum = v / ws.sum * ((ws.sum - total) / total) := by
      field_simp
    rw [e, abs_mul, abs_div (ws.sum - total), abs_of_pos htp, abs_sub_comm, abs_of_nonneg (div_nonneg (h.nonneg v hm) hsum.le)]
    have f1 : v / ws.sum ≤ 1 := by rwa [div_le_one hsum]
    have f2 : |total - ws.sum| / total ≤ ws.length * (2 * (1 / 2 ^ f.prec)) := by
      rw [div_le_iff₀ htp]
      refine hs.trans (le_of_eq ?_)
      ring
    calc v / ws.sum * (|total - ws.sum| / total) ≤ 1 * (|total - ws.sum| / total) :=
          mul_le_mul_of_nonneg_right f1 (by positivity)
      _ ≤ _ := by rw [one_mul]; exact f2
  have e1 : (2 * (ws.length : ℝ) + 8) / 2 ^ f.prec =
      6 / 2 ^ f.prec + 2 * (1 / 2 ^ f.prec) + ws.length * (2 * (1 / 2 ^ f.prec)) := by ring
  rw [e1]
  rw [abs_le] at h1 h2 h3 ⊢
  constructor <;> linarith [h1.1, h1.2, h2.1, h2.2, h3.1, h3.2]

/-- Weights that meet the conditions, in every format, and outputs of a 32-bit engine for `float`. -/
example (hA : A.IsFormat f) : SumsIn A f [1, 0, 3] [1, 1, 4] 4 ∧ (2 : ℝ) ^ (f.emin + (f.prec - 1)) < 4 ∧
    Drawn FloatFormat.float 32 [4294967295] := by
  have hprec := f.prec_ge
  have fi : ∀ n : Nat, n ≤ 4 → FiniteIn f (n : ℝ) := by
    intro n h
    refine ⟨?_, ?_⟩
    · have := int_value (f := f) (K := ℝ) (n := (n : Int)) (by
        rw [abs_of_nonneg (by positivity)]
        have : (2 : Int) ^ 11 ≤ 2 ^ f.prec := pow_le_pow_right₀ (by norm_num) hprec
        have : (n : Int) ≤ 4 := by exact_mod_cast h
        norm_num at *; linarith)
      exact_mod_cast this
    · have h4 : (n : ℝ) ≤ 4 := by exact_mod_cast h
      rw [abs_of_nonneg (by positivity)]
      refine h4.trans_lt ?_
      rw [show (4 : ℝ) = (2 : ℝ) ^ (2 : Int) by norm_num]
      exact zpow_lt_zpow_right₀ one_lt_two (by have := f.emax_gt; omega)
  have f0 := fi 0 (by norm_num)
  have f1 := fi 1 (by norm_num)
  have f3 := fi 3 (by norm_num)
  have f4 := fi 4 (by norm_num)
  push_cast at f0 f1 f3 f4
  refine ⟨⟨?_, ?_, ?_, rfl⟩, ?_, by decide, by decide, by decide, by decide⟩
  · intro w hw
    simp only [List.mem_cons, List.not_mem_nil, or_false] at hw
    rcases hw with rfl | rfl | rfl <;> norm_num
  · intro w hw
    simp only [List.mem_cons, List.not_mem_nil, or_false] at hw
    rcases hw with rfl | rfl | rfl
    · exact f1
    · exact f0
    · exact f3
  · simp only [List.map_cons, List.map_nil, partialSums, partialSums.go, Num.fin_add, add_zero, Num.round_of (rnd_finite hA f1)]
    rw [show (1 : ℝ) + 3 = 4 by norm_num, Num.round_of (rnd_finite hA f4)]
  · exact (normal_lt_one (f := f)).trans (by norm_num)

end
end
end Bwsl
