import Verif.Lemmas.Decimal
import Verif.Props.ObservableGroup
import Verif.Props.Small
import Verif.Props.HistDouble

/-! Property C128: numbers printed in scientific notation. -/

namespace Bwsl
open Spec

/-! ### Neighbouring doubles -/

theorem double_strict {x : ℝ} (h : Double x) : ∃ (m : Int) (e : Int), |m| < 2 ^ 53 ∧ x = m * (2 : ℝ) ^ e := by
  obtain ⟨m, e, hm, -, rfl⟩ := h
  rcases hm.lt_or_eq with hm | hm
  · exact ⟨m, e, hm, rfl⟩
  · rcases (abs_eq (by norm_num : (0 : Int) ≤ 2 ^ 53)).1 hm with rfl | rfl
    · refine ⟨2 ^ 52, e + 1, by norm_num, ?_⟩
      rw [zpow_add₀ two_ne_zero, zpow_one]; push_cast; ring
    · refine ⟨-2 ^ 52, e + 1, by norm_num, ?_⟩
      rw [zpow_add₀ two_ne_zero, zpow_one]; push_cast; ring

/-- Different doubles differ by at least 2^-53 of each. -/
theorem double_gap {x y : ℝ} (hx : Double x) (hy : Double y) (h : x ≠ y) : |x| ≤ |x - y| * 2 ^ 53 := by
  obtain ⟨n, f, hn, rfl⟩ := double_strict hx
  obtain ⟨m, e, hm, rfl⟩ := double_strict hy
  have key : ∀ (n m : Int) (f e : Int), |n| < 2 ^ 53 → e ≤ f → (n : ℝ) * 2 ^ f ≠ m * 2 ^ e →
      (2 : ℝ) ^ e ≤ |(n : ℝ) * 2 ^ f - m * 2 ^ e| := by
    intro n m f e _ hef hne
    have e1 : (n : ℝ) * 2 ^ f - m * 2 ^ e = ((n * 2 ^ (f - e).toNat - m : Int) : ℝ) * 2 ^ e := by
      have : (2 : ℝ) ^ f = 2 ^ (f - e).toNat * 2 ^ e := by
        rw [← zpow_natCast, ← zpow_add₀ two_ne_zero]; congr 1; omega
      push_cast
      rw [this]; ring
    rw [e1, abs_mul, abs_of_pos (two_zpow_pos (K := ℝ) e)]
    refine le_mul_of_one_le_left (two_zpow_pos (K := ℝ) e).le ?_
    have : (n * 2 ^ (f - e).toNat - m : Int) ≠ 0 := by
      intro h0
      rw [h0] at e1
      simp only [Int.cast_zero, zero_mul] at e1
      exact hne (sub_eq_zero.1 e1)
    exact_mod_cast Int.one_le_abs this
  have hp : ∀ (m : Int) (e : Int), |m| < 2 ^ 53 → |(m : ℝ) * 2 ^ e| ≤ (2 ^ 53 - 1) * 2 ^ e := by
    intro m e hm
    rw [abs_mul, abs_of_pos (two_zpow_pos (K := ℝ) e)]
    refine mul_le_mul_of_nonneg_right ?_ (two_zpow_pos (K := ℝ) e).le
    have : |m| ≤ 2 ^ 53 - 1 := by omega
    exact_mod_cast this
  rcases le_total e f with hef | hef
  · have h1 := key n m f e hn hef h
    have h2 := hp m e hm
    have h3 : |(n : ℝ) * 2 ^ f| ≤ |(n : ℝ) * 2 ^ f - m * 2 ^ e| + |(m : ℝ) * 2 ^ e| := by
      have := abs_add_le ((n : ℝ) * 2 ^ f - m * 2 ^ e) (m * 2 ^ e)
      rwa [sub_add_cancel] at this
    nlinarith
  · have h1 := key m n e f hm hef (Ne.symm h)
    rw [abs_sub_comm] at h1
    have h2 := hp n f hn
    have := two_zpow_pos (K := ℝ) f
    nlinarith

/-- A number within 10^-16/2 of a double, relatively, rounds to it. -/
theorem rn_of_close {x v : ℝ} (hx : Double x) (h : |v - x| ≤ |x| / (2 * 10 ^ 16)) : rn v = x := by
  by_contra hne
  have h1 := rn_nearest v x hx
  have h2 := double_gap hx (rn_isDouble v) (Ne.symm hne)
  have h3 : |x - rn v| ≤ |v - x| + |v - rn v| := by
    have e : x - rn v = -(v - x) + (v - rn v) := by ring
    rw [e]
    refine (abs_add_le _ _).trans ?_
    rw [abs_neg]
  have h4 : |x - rn v| ≤ |x| / 10 ^ 16 := by
    have e : |x| / (2 * 10 ^ 16) + |x| / (2 * 10 ^ 16) = |x| / 10 ^ 16 := by ring
    linarith
  have h5 : |x| ≤ |x| / 10 ^ 16 * 2 ^ 53 := h2.trans (mul_le_mul_of_nonneg_right h4 (by norm_num))
  have hx0 : |x| = 0 := by
    have e : |x| / 10 ^ 16 * 2 ^ 53 = |x| * (2 ^ 53 / 10 ^ 16) := by ring
    rw [e] at h5
    have h6 : (2 : ℝ) ^ 53 / 10 ^ 16 < 1 := by norm_num
    nlinarith [abs_nonneg x]
  rw [hx0] at h4
  have : |x - rn v| ≤ 0 := by simpa using h4
  exact hne (sub_eq_zero.1 (abs_eq_zero.1 (le_antisymm this (abs_nonneg _)))).symm

/-! ### The digits -/

theorem rint_mono' {x y : ℝ} (h : x ≤ y) : rint x ≤ rint y := by
  by_contra hc
  have hc : rint y + 1 ≤ rint x := by omega
  have h1 := (abs_le.1 (rint_err x)).1
  have h2 := (abs_le.1 (rint_err y)).2
  have h3 : (rint y : ℝ) + 1 ≤ rint x := by exact_mod_cast hc
  have e : x = y := le_antisymm h (by linarith)
  rw [e] at hc
  omega

/-- The digits of a positive number: as many as asked for, and the nearest ones. -/
theorem sciDigits_spec (p : Nat) {x : ℝ} (hx : 0 < x) :
    10 ^ p ≤ (Fmt.sciDigits p x).1 ∧ (Fmt.sciDigits p x).1 < 10 ^ (p + 1) ∧
    ((Fmt.sciDigits p x).1 : ℝ) * 10 ^ ((Fmt.sciDigits p x).2 - p : Int) =
      (rint (x / (10 : ℝ) ^ (Int.log 10 x - p)) : ℝ) * 10 ^ (Int.log 10 x - p : Int) ∧
    (10 : ℝ) ^ Int.log 10 x ≤ ((Fmt.sciDigits p x).1 : ℝ) * 10 ^ ((Fmt.sciDigits p x).2 - p : Int) ∧
    ((Fmt.sciDigits p x).1 : ℝ) * 10 ^ ((Fmt.sciDigits p x).2 - p : Int) ≤ (10 : ℝ) ^ (Int.log 10 x + 1) ∧
    (10 : ℝ) ^ Int.log 10 x ≤ x ∧ x < (10 : ℝ) ^ (Int.log 10 x + 1) := by
  have l1 : (10 : ℝ) ^ Int.log 10 x ≤ x := by
    have := Int.zpow_log_le_self (b := 10) (r := x) (by norm_num) hx
    exact_mod_cast this
  have l2 : x < (10 : ℝ) ^ (Int.log 10 x + 1) := by
    have := Int.lt_zpow_succ_log_self (b := 10) (R := ℝ) (by norm_num) x
    exact_mod_cast this
  have ten : (10 : ℝ) ≠ 0 := by norm_num
  have hp : (0 : ℝ) < (10 : ℝ) ^ (Int.log 10 x - p) := zpow_pos (by norm_num) _
  have q1 : ((10 ^ p : Nat) : ℝ) * (10 : ℝ) ^ (Int.log 10 x - p) = (10 : ℝ) ^ Int.log 10 x := by
    push_cast
    rw [← zpow_natCast, ← zpow_add₀ ten]; congr 1; omega
  have q2 : ((10 ^ (p + 1) : Nat) : ℝ) * (10 : ℝ) ^ (Int.log 10 x - p) = (10 : ℝ) ^ (Int.log 10 x + 1) := by
    push_cast
    rw [← zpow_natCast, ← zpow_add₀ ten]; congr 1; push_cast; omega
  have r1 : ((10 ^ p : Nat) : Int) ≤ rint (x / (10 : ℝ) ^ (Int.log 10 x - p)) := by
    have h : (((10 ^ p : Nat) : Int) : ℝ) ≤ x / (10 : ℝ) ^ (Int.log 10 x - p) := by
      rw [le_div_iff₀ hp, Int.cast_natCast, q1]; exact l1
    have := rint_mono' h
    rwa [rint_intCast] at this
  have r2 : rint (x / (10 : ℝ) ^ (Int.log 10 x - p)) ≤ ((10 ^ (p + 1) : Nat) : Int) := by
    have h : x / (10 : ℝ) ^ (Int.log 10 x - p) ≤ (((10 ^ (p + 1) : Nat) : Int) : ℝ) := by
      rw [div_le_iff₀ hp, Int.cast_natCast, q2]; exact l2.le
    have := rint_mono' h
    rwa [rint_intCast] at this
  have hm0 : 0 ≤ rint (x / (10 : ℝ) ^ (Int.log 10 x - p)) := le_trans (by positivity) r1
  obtain ⟨m, hm⟩ := Int.eq_ofNat_of_zero_le hm0
  have b1 : 10 ^ p ≤ m := by rw [hm] at r1; exact_mod_cast r1
  have b2 : m ≤ 10 ^ (p + 1) := by rw [hm] at r2; exact_mod_cast r2
  have v1 : (10 : ℝ) ^ Int.log 10 x ≤ (m : ℝ) * 10 ^ (Int.log 10 x - p : Int) := by
    rw [← q1]; exact mul_le_mul_of_nonneg_right (by exact_mod_cast b1) hp.le
  have v2 : (m : ℝ) * 10 ^ (Int.log 10 x - p : Int) ≤ (10 : ℝ) ^ (Int.log 10 x + 1) := by
    rw [← q2]; exact mul_le_mul_of_nonneg_right (by exact_mod_cast b2) hp.le
  have hs : Fmt.sciDigits p x = if m = 10 ^ (p + 1) then (10 ^ p, Int.log 10 x + 1) else (m, Int.log 10 x) := by
    unfold Fmt.sciDigits
    simp only
    rw [hm]; rfl
  rw [hm]
  by_cases h : m = 10 ^ (p + 1)
  · rw [hs, if_pos h]
    dsimp only
    have e : ((10 ^ p : Nat) : ℝ) * (10 : ℝ) ^ (Int.log 10 x + 1 - p) = (m : ℝ) * 10 ^ (Int.log 10 x - p : Int) := by
      rw [h, q2]
      push_cast
      rw [← zpow_natCast, ← zpow_add₀ ten]; congr 1; omega
    rw [e]
    exact ⟨le_rfl, Nat.pow_lt_pow_right (by norm_num) (by omega), by simp, v1, v2, l1, l2⟩
  · rw [hs, if_neg h]
    exact ⟨b1, lt_of_le_of_ne b2 h, by simp, v1, v2, l1, l2⟩

/-- The number that is printed for `x` with `p` digits after the point. -/
noncomputable def sciValue (p : Nat) (x : ℝ) : ℝ :=
  if x = 0 then 0 else (if x < 0 then -1 else 1) * (((Fmt.sciDigits p |x|).1 : ℝ) * 10 ^ ((Fmt.sciDigits p |x|).2 - p : Int))

theorem sciText_head {p m : Nat} (e : Int) (h : m < 10 ^ (p + 1)) : ∀ c ∈ (Fmt.sciText p m e).head?, c ≠ '-' := by
  obtain ⟨h1, -, -⟩ := pad_spec (p + 1) m
  have hl := pad_length h
  unfold Fmt.sciText
  simp only
  generalize Fmt.pad (p + 1) (printNat m) = ds at *
  cases ds with
  | nil => simp at hl
  | cons d ds =>
    intro c hc
    simp only [List.take_succ_cons, List.take_zero, List.cons_append, List.head?_cons, Option.mem_def, Option.some_inj] at hc
    subst hc
    intro h0
    have := h1 d (by simp)
    rw [h0] at this
    exact absurd this (by decide)

theorem isDecimal_sci (p : Nat) (x : ℝ) : IsDecimal (Fmt.sciFin p x) (sciValue p x) := by
  unfold Fmt.sciFin sciValue
  by_cases h0 : x = 0
  · rw [if_neg (by rw [h0]; exact lt_irrefl _), if_pos h0, if_pos h0, List.nil_append]
    have := isDecimal_sciText (p := p) (m := 0) 0 (by positivity)
    simpa using this
  · rw [if_neg h0, if_neg h0]
    obtain ⟨-, h2, -⟩ := sciDigits_spec p (abs_pos.2 h0)
    by_cases hneg : x < 0
    · rw [if_pos hneg, if_pos hneg, neg_one_mul]
      exact isDecimal_neg (isDecimal_sciText _ h2) (sciText_head _ h2)
    · rw [if_neg hneg, if_neg hneg, one_mul, List.nil_append]
      exact isDecimal_sciText _ h2

theorem sciValue_neg (p : Nat) (x : ℝ) : sciValue p (-x) = -sciValue p x := by
  unfold sciValue
  rw [abs_neg]
  rcases lt_trichotomy x 0 with h | h | h
  · rw [if_neg (by simpa using h.ne), if_neg h.ne, if_neg (by simpa using h.le), if_pos h]; ring
  · rw [h]; simp
  · rw [if_neg (by simpa using h.ne'), if_neg h.ne', if_pos (by simpa using h), if_neg (not_lt.2 h.le)]; ring

theorem sciValue_pos {p : Nat} {x : ℝ} (hx : 0 < x) :
    sciValue p x = (rint (x / (10 : ℝ) ^ (Int.log 10 x - p)) : ℝ) * 10 ^ (Int.log 10 x - p : Int) := by
  unfold sciValue
  rw [if_neg hx.ne', if_neg (not_lt.2 hx.le), one_mul, abs_of_pos hx]
  exact (sciDigits_spec p hx).2.2.1

theorem sciValue_err (p : Nat) (x : ℝ) : |sciValue p x - x| ≤ |x| / (2 * 10 ^ p) := by
  have key : ∀ x : ℝ, 0 < x → |sciValue p x - x| ≤ |x| / (2 * 10 ^ p) := by
    intro x hx
    obtain ⟨-, -, -, -, -, l1, -⟩ := sciDigits_spec p hx
    rw [sciValue_pos hx]
    have hp : (0 : ℝ) < (10 : ℝ) ^ (Int.log 10 x - p) := zpow_pos (by norm_num) _
    have h1 := rint_err (x / (10 : ℝ) ^ (Int.log 10 x - p))
    have e : (rint (x / (10 : ℝ) ^ (Int.log 10 x - p)) : ℝ) * 10 ^ (Int.log 10 x - p : Int) - x =
        -((x / (10 : ℝ) ^ (Int.log 10 x - p) - rint (x / (10 : ℝ) ^ (Int.log 10 x - p))) * 10 ^ (Int.log 10 x - p : Int)) := by
      field_simp; ring
    rw [e, abs_neg, abs_mul, abs_of_pos hp, abs_of_pos hx]
    refine (mul_le_mul_of_nonneg_right h1 hp.le).trans ?_
    rw [zpow_sub₀ (by norm_num : (10 : ℝ) ≠ 0), zpow_natCast, le_div_iff₀ (by positivity)]
    have : 1 / 2 * ((10 : ℝ) ^ Int.log 10 x / 10 ^ p) * (2 * 10 ^ p) = (10 : ℝ) ^ Int.log 10 x := by field_simp
    rw [this]; exact l1
  rcases lt_trichotomy x 0 with h | h | h
  · have := key (-x) (by linarith)
    rw [sciValue_neg, abs_neg] at this
    rwa [show -sciValue p x - -x = -(sciValue p x - x) by ring, abs_neg] at this
  · rw [h]; simp [sciValue]
  · exact key x h

theorem sciValue_mono (p : Nat) {x y : ℝ} (h : x ≤ y) : sciValue p x ≤ sciValue p y := by
  have pos : ∀ {x : ℝ}, 0 < x → 0 < sciValue p x := by
    intro x hx
    have h1 := (sciDigits_spec p hx).2.2.2.1
    rw [(sciDigits_spec p hx).2.2.1, ← sciValue_pos hx] at h1
    exact lt_of_lt_of_le (zpow_pos (by norm_num) _) h1
  have key : ∀ {x y : ℝ}, 0 < x → x ≤ y → sciValue p x ≤ sciValue p y := by
    intro x y hx hxy
    have hy := hx.trans_le hxy
    have hlog : Int.log 10 x ≤ Int.log 10 y := Int.log_mono_right hx hxy
    rcases hlog.lt_or_eq with hl | hl
    · have a := (sciDigits_spec p hx).2.2.2.2.1
      have b := (sciDigits_spec p hy).2.2.2.1
      rw [(sciDigits_spec p hx).2.2.1, ← sciValue_pos hx] at a
      rw [(sciDigits_spec p hy).2.2.1, ← sciValue_pos hy] at b
      exact a.trans ((zpow_le_zpow_right₀ (by norm_num) (by omega)).trans b)
    · rw [sciValue_pos hx, sciValue_pos hy, hl]
      have hp : (0 : ℝ) < (10 : ℝ) ^ (Int.log 10 y - p) := zpow_pos (by norm_num) _
      refine mul_le_mul_of_nonneg_right ?_ hp.le
      exact_mod_cast rint_mono' (div_le_div_of_nonneg_right hxy hp.le)
  have z : sciValue p 0 = 0 := by simp [sciValue]
  rcases lt_trichotomy x 0 with hx | hx | hx
  · rcases lt_trichotomy y 0 with hy | hy | hy
    · have := key (by linarith : 0 < -y) (by linarith : -y ≤ -x)
      rw [sciValue_neg, sciValue_neg] at this
      linarith
    · have := pos (by linarith : 0 < -x)
      rw [sciValue_neg] at this
      rw [hy, z]; linarith
    · have h1 := pos (by linarith : 0 < -x)
      rw [sciValue_neg] at h1
      have := pos hy
      linarith
  · rw [hx, z]
    rcases h.lt_or_eq with hy | hy
    · exact (pos (by rwa [hx] at hy)).le
    · rw [← hy, hx, z]
  · exact key hx h

/-! ### The property -/

variable {A : Arith ℝ}

/-- C128.  The text is a numeral and stands for one number only, within 10^-p/2 of the printed one. -/
theorem C128_reads (p : Nat) (x : ℝ) :
    ∃ v : ℝ, IsDecimal (Fmt.sci (.fin x : Num A) p) v ∧ (∀ w, IsDecimal (Fmt.sci (.fin x : Num A) p) w → w = v) ∧
      |v - x| ≤ |x| / (2 * 10 ^ p) :=
  ⟨_, isDecimal_sci p x, fun _ hw => isDecimal_unique hw (isDecimal_sci p x), sciValue_err p x⟩

/-- C128.  With at least 16 digits after the point a double can be read back: the double nearest to the numeral is the
printed one. -/
theorem C128_round_trip (p : Nat) (hp : 16 ≤ p) (x : ℝ) (hx : Double x) (v : ℝ)
    (hv : IsDecimal (Fmt.sci (.fin x : Num A) p) v) : rn v = x := by
  rw [isDecimal_unique hv (isDecimal_sci p x)]
  refine rn_of_close hx ((sciValue_err p x).trans ?_)
  refine div_le_div_of_nonneg_left (abs_nonneg _) (by positivity) ?_
  exact mul_le_mul_of_nonneg_left (pow_le_pow_right₀ (by norm_num) hp) (by norm_num)

/-- C128.  The order of the numbers is that of their texts: a larger number is never printed as a smaller one. -/
theorem C128_order (p : Nat) (x y : ℝ) (h : x ≤ y) (v w : ℝ) (hv : IsDecimal (Fmt.sci (.fin x : Num A) p) v)
    (hw : IsDecimal (Fmt.sci (.fin y : Num A) p) w) : v ≤ w := by
  rw [isDecimal_unique hv (isDecimal_sci p x), isDecimal_unique hw (isDecimal_sci p y)]
  exact sciValue_mono p h

/-- C128.  No text has a separator in it. -/
theorem C128_clean (x : Num A) (p : Nat) : ',' ∉ Fmt.sci x p ∧ '\n' ∉ Fmt.sci x p ∧ '(' ∉ Fmt.sci x p ∧ ' ' ∉ Fmt.sci x p := by
  cases x with
  | nan => rw [show Fmt.sci (Num.nan : Num A) p = "nan".toList from rfl]; decide
  | inf neg =>
    cases neg
    · rw [show Fmt.sci (Num.inf false : Num A) p = "inf".toList from rfl]; decide
    · rw [show Fmt.sci (Num.inf true : Num A) p = "-inf".toList from rfl]; decide
  | fin x =>
    have h := isDecimal_chars (isDecimal_sci p x)
    refine ⟨fun hc => ?_, fun hc => ?_, fun hc => ?_, fun hc => ?_⟩ <;> exact absurd (h _ hc) (by decide)

/-- C128.  With the ten digits that `PrintAndReset` prints unless told otherwise, different numbers are printed alike. -/
theorem C128_default_precision : Fmt.sci (.fin 1 : Num A) 10 = Fmt.sci (.fin (1 + 1 / 2 ^ 52) : Num A) 10 ∧
    (1 : ℝ) ≠ 1 + 1 / 2 ^ 52 ∧ Double (1 + 1 / 2 ^ 52 : ℝ) := by
  refine ⟨?_, by norm_num, ⟨2 ^ 52 + 1, -52, by norm_num, by norm_num, by norm_num⟩⟩
  have dig : ∀ x : ℝ, 1 ≤ x → x < 1 + 1 / 10 ^ 11 → Fmt.sciDigits 10 x = (10 ^ 10, 0) := by
    intro x h1 h2
    have hl : Int.log 10 x = 0 := by
      have hx : 0 < x := by linarith
      have a : (0 : Int) ≤ Int.log 10 x := by
        rw [← Int.zpow_le_iff_le_log (by norm_num) hx]; simpa using h1
      have b : Int.log 10 x < 1 := by
        rw [← Int.lt_zpow_iff_log_lt (by norm_num) hx]
        norm_num at h2 ⊢; linarith
      omega
    have hr : rint (x / (10 : ℝ) ^ (Int.log 10 x - ((10 : Nat) : Int))) = 10 ^ 10 := by
      rw [hl]
      have e : x / (10 : ℝ) ^ (0 - ((10 : Nat) : Int)) = x * 10 ^ 10 := by
        rw [zero_sub, zpow_neg, zpow_natCast]; field_simp
      rw [e]
      have hf : ⌊x * 10 ^ 10⌋ = 10 ^ 10 := by
        rw [Int.floor_eq_iff]
        push_cast
        constructor
        · nlinarith
        · norm_num at h2 ⊢; linarith
      unfold rint
      simp only
      rw [hf, if_pos]
      push_cast
      norm_num at h2 ⊢; linarith
    unfold Fmt.sciDigits
    simp only
    rw [hr, hl]
    rfl
  have d1 := dig 1 le_rfl (by norm_num)
  have d2 := dig (1 + 1 / 2 ^ 52) (by norm_num) (by norm_num)
  have h1 : |(1 : ℝ)| = 1 := abs_one
  have h2 : |(1 + 1 / 2 ^ 52 : ℝ)| = 1 + 1 / 2 ^ 52 := abs_of_pos (by positivity)
  show Fmt.sciFin 10 1 = Fmt.sciFin 10 (1 + 1 / 2 ^ 52)
  unfold Fmt.sciFin
  rw [h1, h2, d1, d2, if_neg (by norm_num), if_neg (by norm_num), if_neg (by norm_num), if_neg (by norm_num)]

/-- C128.  The table of an `ObservableGroup`: below the name of an observable the row has a numeral within 10^-p/2 of the
mean of the values measured since the previous print, or `nan` if there are none. -/
theorem C128_row {ι : Type} [LinearOrder ι] (hA : A.IsExact) (f : Format (Num A) ι) (hf : f.sci = Fmt.sci)
    (hkey : ∀ k, ',' ∉ f.key k) (name : String) (fs : Files) (h : List (GroupOp ι ℝ)) (hn : h.length < 2 ^ 64)
    (g : ObsGroup (Num A) ι) (fs1 : Files)
    (e : (ObsGroup.new name).run f fs (h.map (GroupOp.mapValue (Num.fin (A := A)))) = .ok (g, fs1))
    (h0 : g.accumulator ≠ []) (p : Nat) (hp : p < 2 ^ 31) :
    ∃ (ks : List ι) (head row : List Char),
      g.headerText f = .ok (head ++ ['\n']) ∧ g.rowText f p = .ok (row ++ ['\n']) ∧
      columns head = ks.map f.key ++ ["Count".toList] ∧ (columns row).length = ks.length + 1 ∧
      ∀ (i : Nat) (k : ι), ks[i]? = some k → ∃ t, (columns row)[i]? = some t ∧
        (sincePrint k h = [] → t = "nan".toList) ∧
        (sincePrint k h ≠ [] → ∃ v : ℝ, IsDecimal t v ∧ |v - avg (sincePrint k h)| ≤ |avg (sincePrint k h)| / (2 * 10 ^ p)) := by
  obtain ⟨ks, head, row, h1, h2, h3, count, h4⟩ := C58_columns f hkey (fun x p => by rw [hf]; exact (C128_clean x p).1) name fs _ []
    g g fs1 fs1 e rfl (by simp) h0 p hp
  refine ⟨ks, head, row, h1, h2, h3, by rw [h4]; simp, ?_⟩
  intro i k hk
  rw [List.append_nil] at h4
  have hm := C56_mean hA h hn k
  refine ⟨f.sci ((sincePrint k (h.map (GroupOp.mapValue (Num.fin (A := A))))).foldl Kahan.addCore Kahan.new).mean p, ?_, ?_, ?_⟩
  · rw [h4, List.getElem?_append_left (by
      have := (List.getElem?_eq_some_iff.1 hk).1
      simpa using this), List.getElem?_map, hk]
    rfl
  · intro h5
    rw [hm, if_pos h5, hf]
    rfl
  · intro h5
    rw [hm, if_neg h5, hf]
    exact ⟨_, isDecimal_sci p _, sciValue_err p _⟩

/-- C128.  Printed move statistics: the lines of two objects are equal only if the names and the figures, to four digits,
are. -/
theorem C128_stats (s t : MoveStats (Num A)) (h : s.print (Fmt.sci · 3) = t.print (Fmt.sci · 3)) :
    s.getName = t.getName ∧ Fmt.sci s.getAcceptedRatio 3 = Fmt.sci t.getAcceptedRatio 3 ∧
    Fmt.sci s.getRejectedRatio 3 = Fmt.sci t.getRejectedRatio 3 ∧ Fmt.sci s.getImpossibleRatio 3 = Fmt.sci t.getImpossibleRatio 3 ∧
    Fmt.sci s.getAverageProbability 3 = Fmt.sci t.getAverageProbability 3 :=
  C94_readable (Fmt.sci · 3) (fun x => ⟨(C128_clean x 3).1, (C128_clean x 3).2.2.1⟩) s t h

/-- C128.  In double precision, with at most 2^53 proposals, the ratios read from the line are the ratios of the counters
to three digits: 1/1999 of their size. -/
theorem C128_ratios (hA : A.IsBinary64) (s : MoveStats (Num A))
    (hb : s.proposed = s.accepted + s.rejected + s.impossible + (if s.proposedflag then 1 else 0))
    (hp : s.proposed ≠ 0) (hn : s.proposed ≤ 2 ^ 53) :
    (∃ v : ℝ, IsDecimal (Fmt.sci s.getAcceptedRatio 3) v ∧
      |v - (s.accepted : ℝ) / s.proposed| ≤ (s.accepted : ℝ) / s.proposed / 1999) ∧
    (∃ v : ℝ, IsDecimal (Fmt.sci s.getRejectedRatio 3) v ∧
      |v - (s.rejected : ℝ) / s.proposed| ≤ (s.rejected : ℝ) / s.proposed / 1999) ∧
    (∃ v : ℝ, IsDecimal (Fmt.sci s.getImpossibleRatio 3) v ∧
      |v - (s.impossible : ℝ) / s.proposed| ≤ (s.impossible : ℝ) / s.proposed / 1999) := by
  obtain ⟨h1, h2, h3, -⟩ := C115_ratios hA s hb hp hn
  have key : ∀ k : Nat, ∃ v : ℝ, IsDecimal (Fmt.sci (.fin (rn ((k : ℝ) / s.proposed)) : Num A) 3) v ∧
      |v - (k : ℝ) / s.proposed| ≤ (k : ℝ) / s.proposed / 1999 := by
    intro k
    refine ⟨_, isDecimal_sci 3 _, ?_⟩
    have he := sciValue_err 3 (rn ((k : ℝ) / s.proposed))
    have hP : (0 : ℝ) < s.proposed := by exact_mod_cast Nat.pos_of_ne_zero hp
    have hq0 : (0 : ℝ) ≤ (k : ℝ) / s.proposed := by positivity
    have hr : |(k : ℝ) / s.proposed - rn ((k : ℝ) / s.proposed)| ≤ (k : ℝ) / s.proposed / 2 ^ 53 := by
      rcases Nat.eq_zero_or_pos k with rfl | hk
      · simp [rn_zero]
      · have := rn_rel_normal (x := (k : ℝ) / s.proposed) (by
          rw [abs_of_nonneg hq0]
          have a : (2 : ℝ) ^ (-1022 : Int) ≤ 2 ^ (-53 : Int) := zpow_le_zpow_right₀ (by norm_num) (by norm_num)
          refine a.trans ?_
          rw [le_div_iff₀ hP]
          have b : (s.proposed : ℝ) ≤ 2 ^ 53 := by exact_mod_cast hn
          have c : (1 : ℝ) ≤ k := by exact_mod_cast hk
          have d : (2 : ℝ) ^ (-53 : Int) = 1 / 2 ^ 53 := by norm_num
          rw [d]
          calc 1 / 2 ^ 53 * (s.proposed : ℝ) ≤ 1 / 2 ^ 53 * 2 ^ 53 := by gcongr
            _ = 1 := by norm_num
            _ ≤ k := c)
        rwa [abs_of_nonneg hq0] at this
    generalize (k : ℝ) / s.proposed = q at *
    generalize rn q = r at *
    have h5 : |r| ≤ q + q / 2 ^ 53 := by
      rw [abs_le] at hr ⊢
      norm_num at hr ⊢
      constructor <;> linarith [hr.1, hr.2]
    have h6 : |sciValue 3 r - q| ≤ |sciValue 3 r - r| + |q - r| := by
      rw [abs_sub_comm q r]; exact abs_sub_le _ _ _
    norm_num at h5 he hr ⊢
    linarith
  rw [h1, h2, h3]
  exact ⟨key _, key _, key _⟩

/-- The hypotheses of C128 hold: a double to 16 digits; statistics with moves of each outcome and a pending one; a table
with two observables. -/
example : Double (3 / 4 : ℝ) ∧ doubleArith.IsBinary64 ∧ (∃ s : MoveStats (Num doubleArith), s.proposed ≠ 0 ∧
    s.proposed ≤ 2 ^ 53 ∧ s.accepted = 3 ∧ s.rejected = 2 ∧ s.impossible = 1 ∧
    s.proposed = s.accepted + s.rejected + s.impossible + (if s.proposedflag then 1 else 0)) :=
  ⟨⟨3, -2, by norm_num, by norm_num, by norm_num⟩, doubleArith_isBinary64,
    ⟨"move", true, 7, 3, 2, 1, Kahan.new⟩, by norm_num, by norm_num, rfl, rfl, rfl, rfl⟩

/-- Texts: rounding to even, carrying into a new digit, negative numbers and exponents. -/
example : Fmt.sciFin 3 (-1 / 8 : ℚ) = "-1.250e-01".toList ∧ Fmt.sciFin 2 (9996 : ℚ) = "1.00e+04".toList ∧
    Fmt.sciFin 1 (5 / 4 : ℚ) = "1.2e+00".toList ∧ Fmt.sciFin 0 (10 ^ 100 : ℚ) = "1e+100".toList := by
  decide +kernel

end Bwsl
