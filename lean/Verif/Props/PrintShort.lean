import Verif.Props.PrintSci
import Verif.Props.Tables
import Verif.Props.DoubleLattice

/-! Property C129: numbers printed with as few digits as possible. -/

namespace Bwsl
open Spec

/-- `dig` chooses, for every positive double, the digits `m` and the exponent `k` of a number that rounds to it, and no
number with fewer digits does. -/
structure Spec.Shortest (dig : ℝ → Nat × Int) : Prop where
  reads : ∀ x, 0 < x → Double x → rn ((dig x).1 * (10 : ℝ) ^ (dig x).2) = x
  shortest : ∀ x, 0 < x → Double x → ∀ (m : Nat) (k : Int) (n : Nat), rn (m * (10 : ℝ) ^ k) = x → m < 10 ^ n → (dig x).1 < 10 ^ n

/-! ### The text -/

theorem isDecimal_shortText (dot : Bool) (m : Nat) (k : Int) : IsDecimal (Fmt.shortText dot m k) ((m : ℝ) * (10 : ℝ) ^ k) := by
  obtain ⟨h0, h1, h2⟩ := printNat_spec m
  unfold Fmt.shortText
  simp only
  generalize printNat m = ds at *
  have hl : 1 ≤ ds.length := List.length_pos_iff.2 h0
  split
  · refine ⟨false, ds.take 1, ds.drop 1, if ds.length = 1 then [] else '.' :: ds.drop 1, _, k + ds.length - 1, ?_, ?_, ?_,
      isExponent_exponent _, by simp, ?_⟩
    · intro h
      have := congrArg List.length h
      rw [List.length_take] at this
      simp at this
      exact h0 this
    · rw [List.take_append_drop]; exact h1
    · by_cases hp : ds.length = 1
      · left
        rw [if_pos hp]
        exact ⟨rfl, List.drop_eq_nil_of_le (by omega)⟩
      · right
        rw [if_neg hp]
        refine ⟨rfl, fun h => ?_⟩
        have := congrArg List.length h
        rw [List.length_drop] at this
        simp at this
        omega
    · rw [List.take_append_drop, h2, List.length_drop]
      have e : k + (ds.length : Int) - 1 - ((ds.length - 1 : Nat) : Int) = k := by omega
      rw [e]; simp
  · rename_i he
    split
    · rename_i hk
      cases dot
      · refine ⟨false, ds ++ List.replicate k.toNat '0', [], [], [], 0, by simp [h0], ?_, .inl ⟨rfl, rfl⟩, .inl ⟨rfl, rfl⟩, by simp, ?_⟩
        · intro c hc
          rw [List.append_nil] at hc
          rcases List.mem_append.1 hc with hc | hc
          · exact h1 c hc
          · rw [(List.mem_replicate.1 hc).2]; decide
        · rw [List.append_nil, decValue_append, decValue_zeros, h2, List.length_replicate]
          have e : (10 : ℝ) ^ k = 10 ^ k.toNat := by rw [← zpow_natCast, Int.toNat_of_nonneg hk]
          rw [e]; simp
      · refine ⟨false, ds ++ List.replicate k.toNat '0', ['0'], ['.', '0'], [], 0, by simp [h0], ?_, .inr ⟨rfl, by simp⟩, .inl ⟨rfl, rfl⟩, by simp, ?_⟩
        · intro c hc
          rw [List.append_assoc] at hc
          rcases List.mem_append.1 hc with hc | hc
          · exact h1 c hc
          · rcases List.mem_append.1 hc with hc | hc
            · rw [(List.mem_replicate.1 hc).2]; decide
            · rw [List.mem_singleton.1 hc]; decide
        · rw [decValue_append, decValue_append, decValue_zeros, h2, List.length_replicate]
          have e : (10 : ℝ) ^ k = 10 ^ k.toNat := by rw [← zpow_natCast, Int.toNat_of_nonneg hk]
          rw [e, show decValue ['0'] = 0 from by decide]
          push_cast
          simp
    · rename_i hk
      split
      · rename_i h5
        refine ⟨false, ds.take (k + ds.length - 1 + 1).toNat, ds.drop (k + ds.length - 1 + 1).toNat, _, [], 0, ?_, ?_, .inr ⟨rfl, ?_⟩,
          .inl ⟨rfl, rfl⟩, by simp, ?_⟩
        · intro h
          have := congrArg List.length h
          rw [List.length_take] at this
          simp only [List.length_nil] at this
          omega
        · rw [List.take_append_drop]; exact h1
        · intro h
          have := congrArg List.length h
          rw [List.length_drop] at this
          simp only [List.length_nil] at this
          omega
        · rw [List.take_append_drop, h2, List.length_drop]
          have e : 0 - ((ds.length - (k + (ds.length : Int) - 1 + 1).toNat : Nat) : Int) = k := by omega
          rw [e]; simp
      · rename_i h5
        refine ⟨false, ['0'], List.replicate (-(k + (ds.length : Int) - 1) - 1).toNat '0' ++ ds, _, [], 0, by simp, ?_, .inr ⟨rfl, by simp [h0]⟩,
          .inl ⟨rfl, rfl⟩, by simp, ?_⟩
        · intro c hc
          rcases List.mem_append.1 hc with hc | hc
          · rw [List.mem_singleton.1 hc]; decide
          · rcases List.mem_append.1 hc with hc | hc
            · rw [(List.mem_replicate.1 hc).2]; decide
            · exact h1 c hc
        · rw [decValue_append, decValue_append, decValue_zeros, h2, List.length_append, List.length_replicate,
            show decValue ['0'] = 0 from by decide]
          have e : 0 - (((-(k + (ds.length : Int) - 1) - 1).toNat + ds.length : Nat) : Int) = k := by omega
          rw [e]; simp

/-- The number that the text stands for. -/
noncomputable def shortValue (dig : ℝ → Nat × Int) (x : ℝ) : ℝ :=
  if x = 0 then 0 else (if x < 0 then -1 else 1) * ((dig |x|).1 * (10 : ℝ) ^ (dig |x|).2)

theorem shortText_head (dot : Bool) (m : Nat) (k : Int) : ∀ c ∈ (Fmt.shortText dot m k).head?, c ≠ '-' := by
  obtain ⟨h0, h1, -⟩ := printNat_spec m
  have hd : ∀ c ∈ (printNat m).head?, c ≠ '-' := by
    intro c hc h
    have := h1 c (List.mem_of_mem_head? hc)
    rw [h] at this
    exact absurd this (by decide)
  unfold Fmt.shortText
  simp only
  generalize printNat m = ds at *
  cases ds with
  | nil => exact absurd rfl h0
  | cons d ds =>
    have h : d ≠ '-' := hd d (by simp)
    split
    · simpa using h
    · split
      · simpa using h
      · split
        · rename_i h5
          have e : (k + ((d :: ds).length : Int) - 1 + 1).toNat = (k + ((d :: ds).length : Int) - 1).toNat + 1 := by omega
          rw [e, List.take_succ_cons]
          simpa using h
        · simp

theorem isDecimal_short (dot : Bool) (dig : ℝ → Nat × Int) (x : ℝ) : IsDecimal (Fmt.shortFin dot dig x) (shortValue dig x) := by
  unfold Fmt.shortFin shortValue
  by_cases h0 : x = 0
  · rw [if_pos h0, if_pos h0, if_neg (by rw [h0]; exact lt_irrefl _)]
    cases dot
    · exact ⟨false, ['0'], [], [], [], 0, by simp, by decide, .inl ⟨rfl, rfl⟩, .inl ⟨rfl, rfl⟩, rfl, by
        rw [show decValue (['0'] ++ []) = 0 from by decide]; simp⟩
    · exact ⟨false, ['0'], ['0'], ['.', '0'], [], 0, by simp, by decide, .inr ⟨rfl, by simp⟩, .inl ⟨rfl, rfl⟩, rfl, by
        rw [show decValue (['0'] ++ ['0']) = 0 from by decide]; simp⟩
  · rw [if_neg h0, if_neg h0]
    have h := isDecimal_shortText dot (dig |x|).1 (dig |x|).2
    split
    · rw [neg_one_mul]; exact isDecimal_neg h (shortText_head dot _ _)
    · rw [one_mul]; exact h

theorem shortValue_rn {dig : ℝ → Nat × Int} (hdig : Shortest dig) {x : ℝ} (hx : Double x) : rn (shortValue dig x) = x := by
  unfold shortValue
  by_cases h0 : x = 0
  · rw [if_pos h0, h0, rn_zero]
  · rw [if_neg h0]
    rcases lt_or_gt_of_ne h0 with h | h
    · have e : |x| = -x := abs_of_neg h
      rw [if_pos h, neg_one_mul, rn_neg, e, hdig.reads (-x) (by linarith) hx.neg, neg_neg]
    · have e : |x| = x := abs_of_pos h
      rw [if_neg (not_lt.2 h.le), one_mul, e, hdig.reads x h hx]

/-! ### Integers -/

theorem printNat_ten {a : Nat} (h : 0 < a) : printNat (a * 10) = printNat a ++ ['0'] := by
  rw [printNat, if_neg (by omega), Nat.mul_div_cancel _ (by norm_num), Nat.mul_mod_left]

theorem printNat_zeros {a : Nat} (h : 0 < a) (j : Nat) : printNat (a * 10 ^ j) = printNat a ++ List.replicate j '0' := by
  induction j with
  | zero => simp
  | succ j ih =>
    rw [pow_succ, ← Nat.mul_assoc, printNat_ten (by positivity), ih, List.append_assoc, List.replicate_succ']

/-- Of the numbers with few digits only an integer itself rounds to it. -/
theorem eq_of_rn {n m : Nat} {k : Int} (hn0 : 0 < n) (hn : n < 2 ^ 53) (hm : m < 10 ^ 16) (hm' : 2 ^ 53 ≤ m → n ≠ 10 ^ 15 ∧ 10 ^ 15 ≤ n)
    (h : rn ((m : ℝ) * (10 : ℝ) ^ k) = n) : (m : ℝ) * (10 : ℝ) ^ k = n := by
  have dn : ∀ a : Nat, a ≤ 2 ^ 53 → Double (a : ℝ) := fun a ha => by
    have := double_int (K := ℝ) (n := (a : Int)) (by rw [abs_of_nonneg (by positivity)]; exact_mod_cast ha)
    exact_mod_cast this
  rcases le_or_gt 0 k with hk | hk
  · obtain ⟨j, rfl⟩ := Int.eq_ofNat_of_zero_le hk
    have e : (m : ℝ) * (10 : ℝ) ^ (j : Int) = ((m * 10 ^ j : Nat) : ℝ) := by push_cast; rw [zpow_natCast]
    rw [e] at h ⊢
    rcases le_or_gt (m * 10 ^ j) (2 ^ 53) with hle | hlt
    · rwa [rn_double (dn _ hle)] at h
    · exfalso
      have h1 : rn ((2 ^ 53 : Nat) : ℝ) ≤ rn ((m * 10 ^ j : Nat) : ℝ) := rn_mono (by exact_mod_cast hlt.le)
      rw [rn_double (dn _ le_rfl), h] at h1
      have : 2 ^ 53 ≤ n := by exact_mod_cast h1
      omega
  · obtain ⟨j, hj⟩ := Int.eq_ofNat_of_zero_le (show 0 ≤ -k by omega)
    have hj1 : 1 ≤ j := by omega
    have ek : k = -(j : Int) := by omega
    subst ek
    rw [zpow_neg, zpow_natCast, ← div_eq_mul_inv] at h ⊢
    have hp : (0 : ℝ) < 10 ^ j := by positivity
    rw [div_eq_iff hp.ne']
    rcases lt_or_ge m (2 ^ 53) with hlt | hge
    · have hu : (1 / 2 : ℝ) ≤ m / 10 ^ j := by
        by_contra hc
        have h1 : rn ((m : ℝ) / 10 ^ j) ≤ rn (1 / 2) := rn_mono (not_le.1 hc).le
        rw [rn_double (⟨1, -1, by norm_num, by norm_num, by norm_num⟩ : Double (1 / 2 : ℝ)), h] at h1
        have : (1 : ℝ) ≤ n := by exact_mod_cast hn0
        linarith
      have hrel := rn_rel_normal (x := (m : ℝ) / 10 ^ j) (by
        rw [abs_of_nonneg (by positivity)]
        refine le_trans ?_ hu
        have : (2 : ℝ) ^ (-1022 : Int) ≤ 2 ^ (-1 : Int) := zpow_le_zpow_right₀ (by norm_num) (by norm_num)
        exact this.trans (by norm_num))
      rw [h, abs_of_nonneg (by positivity : (0 : ℝ) ≤ m / 10 ^ j)] at hrel
      have h2 : |((m : Int) - n * 10 ^ j : Int)| < 1 := by
        have e : (((m : Int) - n * 10 ^ j : Int) : ℝ) = ((m : ℝ) / 10 ^ j - n) * 10 ^ j := by
          push_cast; field_simp
        have : |(((m : Int) - n * 10 ^ j : Int) : ℝ)| < 1 := by
          rw [e, abs_mul, abs_of_pos hp]
          have h3 : (m : ℝ) / 10 ^ j / 2 ^ 53 * 10 ^ j = m / 2 ^ 53 := by field_simp
          refine lt_of_le_of_lt (mul_le_mul_of_nonneg_right hrel hp.le) ?_
          rw [h3, div_lt_one (by norm_num)]
          exact_mod_cast hlt
        exact_mod_cast this
      have h3 := Int.abs_lt_one_iff.1 h2
      have : (m : Int) = n * 10 ^ j := by omega
      exact_mod_cast this
    · exfalso
      obtain ⟨h1, h2⟩ := hm' hge
      have h3 : (m : ℝ) / 10 ^ j ≤ ((10 ^ 15 : Nat) : ℝ) := by
        rw [div_le_iff₀ hp]
        have a : (m : ℝ) ≤ 10 ^ 16 := by exact_mod_cast hm.le
        have b : (10 : ℝ) ^ 1 ≤ 10 ^ j := pow_le_pow_right₀ (by norm_num) hj1
        push_cast
        calc (m : ℝ) ≤ 10 ^ 16 := a
          _ = 1000000000000000 * 10 ^ 1 := by norm_num
          _ ≤ 1000000000000000 * 10 ^ j := by gcongr
      have h4 := rn_mono h3
      rw [h, rn_double (dn _ (by norm_num))] at h4
      have : n ≤ 10 ^ 15 := by exact_mod_cast h4
      omega

theorem shortest_nat {dig : ℝ → Nat × Int} (hdig : Shortest dig) {n : Nat} (hn0 : 0 < n) (hn : n < 2 ^ 53) (dot : Bool) :
    Fmt.shortText dot (dig n).1 (dig n).2 = printNat n ++ (if dot then ['.', '0'] else []) := by
  have hD : Double (n : ℝ) := by
    have := double_int (K := ℝ) (n := (n : Int)) (by rw [abs_of_nonneg (by positivity)]; exact_mod_cast hn.le)
    exact_mod_cast this
  have hpos : (0 : ℝ) < n := by exact_mod_cast hn0
  obtain ⟨j, a, ha, he⟩ := Nat.exists_eq_pow_mul_and_not_dvd hn0.ne' 10 (by norm_num)
  have ha0 : 0 < a := by
    rcases Nat.eq_zero_or_pos a with rfl | h
    · exact absurd (dvd_zero _) ha
    · exact h
  have hle : a ≤ n := by
    rw [he]; exact Nat.le_mul_of_pos_left _ (by positivity)
  -- the number of digits of `a`
  let d := Nat.log 10 a
  have hd1 : 10 ^ d ≤ a := Nat.pow_log_le_self 10 ha0.ne'
  have hd2 : a < 10 ^ (d + 1) := Nat.lt_pow_succ_log_self (by norm_num) a
  have hm := hdig.shortest n hpos hD a j (d + 1) (by
    have e : (a : ℝ) * (10 : ℝ) ^ (j : Int) = (n : ℝ) := by rw [zpow_natCast, he]; push_cast; ring
    rw [e, rn_double hD]) hd2
  have hr := hdig.reads n hpos hD
  have hd16 : d ≤ 15 := by
    by_contra hc
    have : 10 ^ 16 ≤ 10 ^ d := Nat.pow_le_pow_right (by norm_num) (by omega)
    omega
  generalize hM : (dig n).1 = m at *
  generalize hK : (dig n).2 = k at *
  have hval : (m : ℝ) * (10 : ℝ) ^ k = n := by
    refine eq_of_rn hn0 hn (hm.trans_le (Nat.pow_le_pow_right (by norm_num) (by omega))) (fun hge => ?_) hr
    have hd15 : d = 15 := by
      by_contra hc
      have : 10 ^ (d + 1) ≤ 10 ^ 15 := Nat.pow_le_pow_right (by norm_num) (by omega)
      omega
    rw [hd15] at hd1
    refine ⟨fun h15 => ha ?_, hd1.trans hle⟩
    have : a = 10 ^ 15 := by omega
    rw [this]; norm_num
  have hsplit : (m : ℝ) * (10 : ℝ) ^ k = a * (10 : ℝ) ^ (j : Int) := by
    rw [hval, zpow_natCast, he]; push_cast; ring
  have hkj : k = j := by
    rcases lt_trichotomy k j with h | h | h
    · exfalso
      obtain ⟨i, hi⟩ := Int.eq_ofNat_of_zero_le (show 0 ≤ j - k - 1 by omega)
      have e : (m : ℝ) = a * 10 ^ (i + 1) := by
        have e1 : (10 : ℝ) ^ (j : Int) = 10 ^ (i + 1) * 10 ^ k := by
          rw [← zpow_natCast, ← zpow_add₀ (by norm_num)]; congr 1; push_cast; omega
        rw [e1, ← mul_assoc] at hsplit
        exact mul_right_cancel₀ (zpow_ne_zero _ (by norm_num)) hsplit
      have e' : m = a * 10 ^ (i + 1) := by exact_mod_cast e
      have : 10 ^ (d + 1) ≤ m := by
        rw [e', pow_succ 10 d]
        refine Nat.mul_le_mul hd1 ?_
        rw [pow_succ]
        exact Nat.le_mul_of_pos_left _ (by positivity)
      omega
    · exact h
    · exfalso
      obtain ⟨i, hi⟩ := Int.eq_ofNat_of_zero_le (show 0 ≤ k - j - 1 by omega)
      have e : (a : ℝ) = m * 10 ^ (i + 1) := by
        have e1 : (10 : ℝ) ^ k = 10 ^ (i + 1) * 10 ^ (j : Int) := by
          rw [← zpow_natCast, ← zpow_add₀ (by norm_num)]; congr 1; push_cast; omega
        rw [e1, ← mul_assoc] at hsplit
        exact (mul_right_cancel₀ (zpow_ne_zero _ (by norm_num)) hsplit).symm
      have e' : a = m * 10 ^ (i + 1) := by exact_mod_cast e
      exact ha (by rw [e', pow_succ]; exact ⟨m * 10 ^ i, by ring⟩)
  subst hkj
  have hma : m = a := by
    have := mul_right_cancel₀ (zpow_ne_zero _ (by norm_num)) hsplit
    exact_mod_cast this
  subst hma
  have hlen : (printNat m).length = d + 1 := printNat_length hd1 hd2
  have hj16 : d + j < 16 := by
    by_contra hc
    have h1 : 10 ^ 16 ≤ 10 ^ (d + j) := Nat.pow_le_pow_right (by norm_num) (by omega)
    have h2 : 10 ^ (d + j) ≤ n := by
      rw [he, pow_add, Nat.mul_comm]; exact Nat.mul_le_mul_left _ hd1
    omega
  unfold Fmt.shortText
  simp only
  rw [if_neg (by rw [hlen]; push_cast; omega), if_pos (by omega), Int.toNat_natCast, he, Nat.mul_comm, printNat_zeros ha0]

/-! ### The property -/

variable {A : Arith ℝ}

/-- Not a finite number, or a double. -/
def Spec.IsDoubleNum (y : Num A) : Prop := ∀ x, y = .fin x → Double x

/-- C129.  The text of a double is a numeral that stands for one number only, and the double nearest to that is the printed
one. -/
theorem C129_round_trip (dot : Bool) (dig : ℝ → Nat × Int) (hdig : Shortest dig) (x : ℝ) (hx : Double x) :
    (∃ v : ℝ, IsDecimal (Fmt.short dot dig (.fin x : Num A)) v) ∧
    ∀ v : ℝ, IsDecimal (Fmt.short dot dig (.fin x : Num A)) v → rn v = x :=
  ⟨⟨_, isDecimal_short dot dig x⟩, fun v hv => by
    rw [isDecimal_unique hv (isDecimal_short dot dig x)]; exact shortValue_rn hdig hx⟩

theorem not_decimal_nan (v : ℝ) : ¬IsDecimal "nan".toList v ∧ ¬IsDecimal "inf".toList v ∧ ¬IsDecimal "-inf".toList v := by
  refine ⟨fun h => ?_, fun h => ?_, fun h => ?_⟩ <;> exact absurd (isDecimal_chars h 'n' (by decide)) (by decide)

/-- C129.  Texts of different doubles, infinities and NaN are different. -/
theorem C129_injective (dot : Bool) (dig : ℝ → Nat × Int) (hdig : Shortest dig) (x y : Num A) (hx : IsDoubleNum x)
    (hy : IsDoubleNum y) (h : Fmt.short dot dig x = Fmt.short dot dig y) : x = y := by
  have hn : Fmt.short dot dig (Num.nan : Num A) = "nan".toList := rfl
  have hi : Fmt.short dot dig (Num.inf false : Num A) = "inf".toList := rfl
  have hm : Fmt.short dot dig (Num.inf true : Num A) = "-inf".toList := rfl
  have hf : ∀ r : ℝ, IsDecimal (Fmt.short dot dig (Num.fin r : Num A)) (shortValue dig r) := isDecimal_short dot dig
  have key : ∀ r : ℝ, Fmt.short dot dig (Num.fin r : Num A) ≠ "nan".toList ∧ Fmt.short dot dig (Num.fin r : Num A) ≠ "inf".toList ∧
      Fmt.short dot dig (Num.fin r : Num A) ≠ "-inf".toList := fun r =>
    ⟨fun e => (not_decimal_nan _).1 (e ▸ hf r), fun e => (not_decimal_nan _).2.1 (e ▸ hf r), fun e => (not_decimal_nan _).2.2 (e ▸ hf r)⟩
  match x, y with
  | .nan, .nan => rfl
  | .nan, .inf false => rw [hn, hi] at h; exact absurd h (by decide)
  | .nan, .inf true => rw [hn, hm] at h; exact absurd h (by decide)
  | .nan, .fin y => exact absurd h.symm (key y).1
  | .inf false, .nan => rw [hn, hi] at h; exact absurd h (by decide)
  | .inf true, .nan => rw [hn, hm] at h; exact absurd h (by decide)
  | .inf false, .inf false => rfl
  | .inf true, .inf true => rfl
  | .inf false, .inf true => rw [hm, hi] at h; exact absurd h (by decide)
  | .inf true, .inf false => rw [hm, hi] at h; exact absurd h (by decide)
  | .inf false, .fin y => exact absurd h.symm (key y).2.1
  | .inf true, .fin y => exact absurd h.symm (key y).2.2
  | .fin x, .nan => exact absurd h (key x).1
  | .fin x, .inf false => exact absurd h (key x).2.1
  | .fin x, .inf true => exact absurd h (key x).2.2
  | .fin x, .fin y =>
    have h1 := (C129_round_trip (A := A) dot dig hdig y (hy y rfl)).2 _ (h ▸ hf x)
    rw [shortValue_rn hdig (hx x rfl)] at h1
    rw [h1]

/-- Seventeen digits are enough. -/
theorem exists_digits {x : ℝ} (h0 : 0 < x) (hx : Double x) : ∃ (m : Nat) (k : Int), m < 10 ^ 17 ∧ rn (m * (10 : ℝ) ^ k) = x := by
  refine ⟨(Fmt.sciDigits 16 x).1, (Fmt.sciDigits 16 x).2 - 16, (sciDigits_spec 16 h0).2.1, ?_⟩
  refine rn_of_close hx ?_
  have h := sciValue_err 16 x
  unfold sciValue at h
  rw [if_neg h0.ne', if_neg (not_lt.2 h0.le), one_mul, abs_of_pos h0] at h
  rw [abs_of_pos h0]
  exact_mod_cast h

/-- There is such a choice of digits. -/
theorem exists_shortest : ∃ dig : ℝ → Nat × Int, Shortest dig := by
  classical
  have h : ∀ x : ℝ, ∃ d : Nat × Int, 0 < x → Double x → rn (d.1 * (10 : ℝ) ^ d.2) = x ∧
      ∀ (m : Nat) (k : Int) (n : Nat), rn (m * (10 : ℝ) ^ k) = x → m < 10 ^ n → d.1 < 10 ^ n := by
    intro x
    by_cases hx : 0 < x ∧ Double x
    · have hex : ∃ n : Nat, ∃ (m : Nat) (k : Int), m < 10 ^ n ∧ rn (m * (10 : ℝ) ^ k) = x := ⟨17, exists_digits hx.1 hx.2⟩
      obtain ⟨m, k, h1, h2⟩ := Nat.find_spec hex
      refine ⟨(m, k), fun _ _ => ⟨h2, fun m' k' n h3 h4 => ?_⟩⟩
      exact h1.trans_le (Nat.pow_le_pow_right (by norm_num) (Nat.find_min' hex ⟨m', k', h4, h3⟩))
    · exact ⟨(0, 0), fun h1 h2 => absurd ⟨h1, h2⟩ hx⟩
  choose dig hdig using h
  exact ⟨dig, ⟨fun x h0 hx => (hdig x h0 hx).1, fun x h0 hx => (hdig x h0 hx).2⟩⟩

/-- C129.  The digits: at most 17, and no other numeral that rounds to the number has fewer. -/
theorem C129_digits (dig : ℝ → Nat × Int) (hdig : Shortest dig) (x : ℝ) (h0 : 0 < x) (hx : Double x) :
    (dig x).1 < 10 ^ 17 ∧ ∀ (m : Nat) (k : Int), rn (m * (10 : ℝ) ^ k) = x → (printNat (dig x).1).length ≤ (printNat m).length := by
  obtain ⟨m, k, h1, h2⟩ := exists_digits h0 hx
  refine ⟨hdig.shortest x h0 hx m k 17 h2 h1, fun m k h => ?_⟩
  obtain ⟨h3, h4, h5⟩ := printNat_spec m
  have h6 := decValue_lt h4
  rw [h5] at h6
  obtain ⟨l, hl⟩ := Nat.exists_eq_succ_of_ne_zero (List.length_pos_iff.2 h3).ne'
  rw [hl] at h6 ⊢
  exact printNat_length_le (hdig.shortest x h0 hx m k _ h h6)

/-- C129.  Integers below 2^53 are printed as integers. -/
theorem C129_integers (dot : Bool) (dig : ℝ → Nat × Int) (hdig : Shortest dig) (n : Int) (hn : |n| < 2 ^ 53) :
    Fmt.short dot dig (.fin (n : ℝ) : Num A) = printLong n ++ (if dot then ['.', '0'] else []) := by
  show Fmt.shortFin dot dig (n : ℝ) = _
  unfold Fmt.shortFin printLong
  have ha : |(n : ℝ)| = (n.natAbs : ℝ) := by rw [← Int.cast_abs, Int.abs_eq_natAbs]; simp
  by_cases h0 : n = 0
  · subst h0
    rw [Int.cast_zero, if_neg (lt_irrefl _), if_pos rfl, if_neg (lt_irrefl _), show printNat (Int.natAbs 0) = ['0'] from by decide +kernel]
    rfl
  · have h1 : (n : ℝ) ≠ 0 := by exact_mod_cast h0
    rw [if_neg h1, ha, shortest_nat hdig (Int.natAbs_pos.2 h0) (by rw [Int.abs_eq_natAbs] at hn; exact_mod_cast hn) dot]
    by_cases hneg : n < 0
    · rw [if_pos (by exact_mod_cast hneg), if_pos hneg]; rfl
    · rw [if_neg (by exact_mod_cast hneg), if_neg hneg]; rfl

/-- C129.  No text has a separator in it. -/
theorem C129_clean (dot : Bool) (dig : ℝ → Nat × Int) (x : Num A) : Clean (Fmt.short dot dig x) := by
  cases x with
  | nan => rw [show Fmt.short dot dig (Num.nan : Num A) = "nan".toList from rfl]; exact ⟨by decide, by decide⟩
  | inf neg =>
    cases neg
    · rw [show Fmt.short dot dig (Num.inf false : Num A) = "inf".toList from rfl]; exact ⟨by decide, by decide⟩
    · rw [show Fmt.short dot dig (Num.inf true : Num A) = "-inf".toList from rfl]; exact ⟨by decide, by decide⟩
  | fin x =>
    have h := isDecimal_chars (isDecimal_short dot dig x)
    refine ⟨fun hc => ?_, fun hc => ?_⟩ <;> exact absurd (h _ hc) (by decide)

/-! ### Tables -/

theorem double_round (hA : A.IsBinary64) (x : ℝ) : IsDoubleNum (Num.round A x) := by
  intro y hy
  unfold Num.round at hy
  rw [hA x, rnd64] at hy
  split at hy
  · rename_i h
    split at h
    · rw [Option.some.injEq] at h
      rw [Num.fin.injEq] at hy
      rw [← hy, ← h]
      exact rn_isDouble x
    · exact absurd h nofun
  · exact absurd hy nofun

theorem double_add (hA : A.IsBinary64) (x y : Num A) : IsDoubleNum (x + y) := by
  show IsDoubleNum (Num.add x y)
  unfold Num.add
  split
  · exact double_round hA _
  · split <;> exact nofun
  all_goals exact nofun

theorem double_div (hA : A.IsBinary64) (x y : Num A) : IsDoubleNum (x / y) := by
  show IsDoubleNum (Num.div x y)
  unfold Num.div
  split
  · split
    · split <;> exact nofun
    · exact double_round hA _
  · exact nofun
  · exact nofun
  · intro z hz
    rw [Num.fin.injEq] at hz
    rw [← hz]; exact double_zero
  all_goals exact nofun

theorem double_accumulate (hA : A.IsBinary64) {n : Nat} {f : Nat → Res (Num A)} {s : Num A} (h : accumulate n f = .ok s) :
    IsDoubleNum s := by
  have key : ∀ n k (a : Num A), IsDoubleNum a → accumulateFrom f a k n = .ok s → IsDoubleNum s := by
    intro n
    induction n with
    | zero => intro k a ha h; rw [accumulateFrom, Res.ok.injEq] at h; exact h ▸ ha
    | succ n ih =>
      intro k a _ h
      obtain ⟨x, -, h⟩ := Res.bind_eq_ok.1 h
      exact ih _ _ (double_add hA a x) h
  refine key n 0 _ ?_ h
  intro z hz
  rw [Num.zero_eq, Num.fin.injEq] at hz
  rw [← hz]; exact double_zero

theorem forall_mapRange {α : Type} {P : α → Prop} {n : Nat} {f : Nat → Res α} {xs : List α} (h : mapRange n f = .ok xs)
    (hf : ∀ i x, f i = .ok x → P x) : ∀ x ∈ xs, P x := by
  obtain ⟨h1, h2⟩ := mapRange_eq_ok h
  intro x hx
  obtain ⟨i, hi, rfl⟩ := List.getElem_of_mem hx
  obtain ⟨y, h3, h4⟩ := h2 i (h1 ▸ hi)
  rw [List.getElem?_eq_getElem hi, Option.some.injEq] at h3
  exact h3 ▸ hf i y h4

theorem double_realSpace (hA : A.IsBinary64) {b : Bravais (Num A)} {c : List Int} {v : List (Num A)} (h : b.getRealSpace c = .ok v) :
    ∀ x ∈ v, IsDoubleNum x := by
  unfold Bravais.getRealSpace at h
  split at h
  · exact forall_mapRange h (fun i x hx => double_accumulate hA hx)
  · exact absurd h nofun

theorem double_getVector (hA : A.IsBinary64) {b : Bravais (Num A)} {c d : List Int} {v : List (Num A)} (h : b.getVector c d = .ok v) :
    ∀ x ∈ v, IsDoubleNum x := by
  obtain ⟨p, -, h⟩ := Res.bind_eq_ok.1 h
  exact double_realSpace hA h

theorem double_getDistanceVector (hA : A.IsBinary64) {b : Bravais (Num A)} {c d : List Int} {r : Num A × List (Num A)}
    (h : b.getDistanceVector c d = .ok r) : ∀ x ∈ r.2, IsDoubleNum x := by
  obtain ⟨p, hp, h⟩ := Res.bind_eq_ok.1 h
  obtain ⟨q, -, h⟩ := Res.bind_eq_ok.1 h
  rw [Res.ok.injEq] at h
  rw [← h]
  exact double_getVector hA hp

theorem foldRange_keeps {σ : Type} {P : σ → Prop} {f : σ → Nat → Res σ} (hf : ∀ s k s', P s → f s k = .ok s' → P s') {n : Nat} {s s' : σ}
    (hs : P s) (h : foldRange n f s = .ok s') : P s' := by
  have key : ∀ n k s, P s → foldRangeFrom f s k n = .ok s' → P s' := by
    intro n
    induction n with
    | zero => intro k s hs h; rw [foldRangeFrom, Res.ok.injEq] at h; exact h ▸ hs
    | succ n ih =>
      intro k s hs h
      obtain ⟨t, ht, h⟩ := Res.bind_eq_ok.1 h
      exact ih _ _ (hf s k t hs ht) h
  exact key n 0 s hs h

/-- C129.  In double precision all the numbers in the tables of a lattice are doubles, infinities or NaN. -/
theorem C129_doubles (hA : A.IsBinary64) (b : Bravais (Num A)) (size : List Nat) (bd : Boundaries) (l : Lattice (Num A))
    (hl : Lattice.new b size bd = .ok l) :
    (∀ v ∈ l.position, ∀ x ∈ v, IsDoubleNum x) ∧ (∀ v ∈ l.vectors, ∀ x ∈ v, IsDoubleNum x) ∧
    (∀ v ∈ l.momenta, ∀ x ∈ v, IsDoubleNum x) := by
  obtain ⟨-, h1, h2, -, -, h3⟩ := new_parts hl
  refine ⟨?_, ?_, ?_⟩
  · obtain ⟨c0, -, h1⟩ := Res.bind_eq_ok.1 h1
    refine forall_mapRange h1 (fun i v hv => ?_)
    obtain ⟨c, -, hv⟩ := Res.bind_eq_ok.1 hv
    exact double_getVector hA hv
  · obtain ⟨c0, -, h2⟩ := Res.bind_eq_ok.1 h2
    refine forall_mapRange h2 (fun i v hv => ?_)
    obtain ⟨c, -, hv⟩ := Res.bind_eq_ok.1 hv
    obtain ⟨r, hr, hv⟩ := Res.bind_eq_ok.1 hv
    have hr0 := double_getDistanceVector hA hr
    simp only at hv
    split at hv
    · obtain ⟨r', hr', hv⟩ := Res.bind_eq_ok.1 hv
      rw [Res.ok.injEq] at hv
      rw [← hv]
      refine foldRange_keeps (P := fun s : Num A × List (Num A) => ∀ x ∈ s.2, IsDoubleNum x) ?_ hr0 hr'
      intro s k s' hs h
      obtain ⟨img, -, h⟩ := Res.bind_eq_ok.1 h
      obtain ⟨csm, -, h⟩ := Res.bind_eq_ok.1 h
      obtain ⟨r, hr, h⟩ := Res.bind_eq_ok.1 h
      rw [Res.ok.injEq] at h
      rw [← h]
      split
      · exact double_getDistanceVector hA hr
      · exact hs
    · rw [Res.ok_bind, Res.ok.injEq] at hv
      rw [← hv]; exact hr0
  · unfold Lattice.computeMomenta at h3
    split at h3
    · rw [Res.ok.injEq] at h3
      rw [← h3]; simp
    · refine forall_mapRange h3 (fun i v hv => ?_)
      obtain ⟨c, -, hv⟩ := Res.bind_eq_ok.1 hv
      obtain ⟨c', -, hv⟩ := Res.bind_eq_ok.1 hv
      obtain ⟨ka, -, hv⟩ := Res.bind_eq_ok.1 hv
      refine forall_mapRange hv (fun j x hx => ?_)
      obtain ⟨s, -, hx⟩ := Res.bind_eq_ok.1 hx
      obtain ⟨y, -, hx⟩ := Res.bind_eq_ok.1 hx
      rw [Res.ok.injEq] at hx
      rw [← hx]; exact double_div hA _ _

theorem isTable_unique {t : List Char} {r r' : List (List (List Char))} (h : IsTable t r) (h' : IsTable t r') : r = r' := by
  obtain ⟨ls, h1, rfl⟩ := h
  obtain ⟨ls', h2, rfl⟩ := h'
  rw [h1] at h2
  rw [List.append_cancel_right h2]

theorem map_short_injective {dot : Bool} {dig : ℝ → Nat × Int} (hdig : Shortest dig) {v w : List (Num A)} (hv : ∀ x ∈ v, IsDoubleNum x)
    (hw : ∀ x ∈ w, IsDoubleNum x) (h : v.map (Fmt.short dot dig) = w.map (Fmt.short dot dig)) : v = w := by
  induction v generalizing w with
  | nil => cases w with
    | nil => rfl
    | cons y w => exact absurd h (by simp)
  | cons x v ih =>
    cases w with
    | nil => exact absurd h (by simp)
    | cons y w =>
      rw [List.map_cons, List.map_cons, List.cons.injEq] at h
      rw [C129_injective dot dig hdig x y (hv x (by simp)) (hw y (by simp)) h.1,
        ih (fun z hz => hv z (by simp [hz])) (fun z hz => hw z (by simp [hz])) h.2]

/-- A table of sites determines the vectors. -/
theorem siteTable_injective {dot : Bool} {dig : ℝ → Nat × Int} (hdig : Shortest dig) {t : List Char} {d n d' n' : Nat}
    {vec vec' : Nat → Res (List (Num A))} (h : SiteTable t d n (Fmt.short dot dig) vec) (h' : SiteTable t d' n' (Fmt.short dot dig) vec')
    (hv : ∀ i v, vec i = .ok v → ∀ x ∈ v, IsDoubleNum x) (hv' : ∀ i v, vec' i = .ok v → ∀ x ∈ v, IsDoubleNum x) :
    d = d' ∧ n = n' ∧ ∀ i, i < n → vec i = vec' i := by
  obtain ⟨hd, rows, h1, h2, h3, h4⟩ := h
  obtain ⟨hd', rows', h1', h2', h3', h4'⟩ := h'
  have e := isTable_unique h1 h1'
  rw [List.cons.injEq] at e
  obtain ⟨rfl, rfl⟩ := e
  have en : n = n' := by rw [← h3, h3']
  refine ⟨by omega, en, fun i hi => ?_⟩
  obtain ⟨num, v, -, h5, -, h6⟩ := h4 i hi
  obtain ⟨num', v', -, h5', -, h6'⟩ := h4' i (en ▸ hi)
  rw [h6, Option.some.injEq, List.cons.injEq] at h6'
  rw [h5, h5', map_short_injective hdig (hv i v h5) (hv' i v' h5') h6'.2]

theorem subscript_mem {α : Type} {v : List α} {i : Nat} {x : α} (h : subscript v i = .ok x) : x ∈ v := by
  unfold subscript at h
  split at h
  · rename_i e
    rw [Res.ok.injEq] at h
    exact h ▸ List.mem_of_getElem? e
  · exact absurd h nofun

theorem double_position (hA : A.IsBinary64) {b : Bravais (Num A)} {size : List Nat} {bd : Boundaries} {l : Lattice (Num A)}
    (hl : Lattice.new b size bd = .ok l) (i : Nat) (v : List (Num A)) (h : l.getPosition i = .ok v) : ∀ x ∈ v, IsDoubleNum x := by
  unfold Lattice.getPosition at h
  split at h
  · exact (C129_doubles hA b size bd l hl).1 v (subscript_mem h)
  · exact absurd h nofun

theorem double_vector (hA : A.IsBinary64) {b : Bravais (Num A)} {size : List Nat} {bd : Boundaries} {l : Lattice (Num A)}
    (hl : Lattice.new b size bd = .ok l) (i j : Nat) (v : List (Num A)) (h : l.getVector i j = .ok v) : ∀ x ∈ v, IsDoubleNum x := by
  unfold Lattice.getVector at h
  split at h
  · obtain ⟨s, -, h⟩ := Res.bind_eq_ok.1 h
    exact (C129_doubles hA b size bd l hl).2.1 v (subscript_mem h)
  · exact absurd h nofun

theorem double_momentum (hA : A.IsBinary64) {b : Bravais (Num A)} {size : List Nat} {bd : Boundaries} {l : Lattice (Num A)}
    (hl : Lattice.new b size bd = .ok l) (i : Nat) (v : List (Num A)) (h : l.getMomentum i = .ok v) : ∀ x ∈ v, IsDoubleNum x := by
  unfold Lattice.getMomentum at h
  split at h
  · exact (C129_doubles hA b size bd l hl).2.2 v (subscript_mem h)
  · exact absurd h nofun

section
variable {b b' : Bravais (Num A)} {size size' : List Nat}

/-- C129.  The file written by `SavePositions` determines the number of dimensions and of sites and all the positions. -/
theorem C129_positions (hA : A.IsBinary64) (dot : Bool) (dig : ℝ → Nat × Int) (hdig : Shortest dig) (hs : Buildable size)
    (hr : Regular b size.length) (hs' : Buildable size') (hr' : Regular b' size'.length) (bd bd' : Boundaries)
    (l l' : Lattice (Num A)) (hl : Lattice.new b size bd = .ok l) (hl' : Lattice.new b' size' bd' = .ok l')
    (fname fname' : String) (fs fs' fs1 fs1' : Files)
    (h : l.save (Lattice.savePositionsText (Fmt.short dot dig)) fname fs = .ok fs1)
    (h' : l'.save (Lattice.savePositionsText (Fmt.short dot dig)) fname' fs' = .ok fs1') (e : fs1 fname = fs1' fname') :
    size.length = size'.length ∧ size.prod = size'.prod ∧ ∀ i, i < size.prod → l.getPosition i = l'.getPosition i := by
  obtain ⟨fs2, h1, h2, -⟩ := C82_positions hs hr bd l hl (Fmt.short dot dig) (C129_clean dot dig) fname fs
  obtain ⟨fs2', h1', h2', -⟩ := C82_positions hs' hr' bd' l' hl' (Fmt.short dot dig) (C129_clean dot dig) fname' fs'
  rw [h, Res.ok.injEq] at h1
  rw [h', Res.ok.injEq] at h1'
  subst h1 h1'
  rw [e] at h2
  exact siteTable_injective hdig h2 h2' (double_position hA hl) (double_position hA hl')

/-- C129.  The file written by `SaveDistances` determines the vectors from site 0. -/
theorem C129_distances (hA : A.IsBinary64) (dot : Bool) (dig : ℝ → Nat × Int) (hdig : Shortest dig) (hs : Buildable size)
    (hr : Regular b size.length) (hs' : Buildable size') (hr' : Regular b' size'.length) (bd bd' : Boundaries)
    (l l' : Lattice (Num A)) (hl : Lattice.new b size bd = .ok l) (hl' : Lattice.new b' size' bd' = .ok l')
    (fname fname' : String) (fs fs' fs1 fs1' : Files)
    (h : l.save (Lattice.saveDistancesText (Fmt.short dot dig)) fname fs = .ok fs1)
    (h' : l'.save (Lattice.saveDistancesText (Fmt.short dot dig)) fname' fs' = .ok fs1') (e : fs1 fname = fs1' fname') :
    size.length = size'.length ∧ size.prod = size'.prod ∧ ∀ i, i < size.prod → l.getVector 0 i = l'.getVector 0 i := by
  obtain ⟨fs2, h1, h2, -⟩ := C82_distances hs hr bd l hl (Fmt.short dot dig) (C129_clean dot dig) fname fs
  obtain ⟨fs2', h1', h2', -⟩ := C82_distances hs' hr' bd' l' hl' (Fmt.short dot dig) (C129_clean dot dig) fname' fs'
  rw [h, Res.ok.injEq] at h1
  rw [h', Res.ok.injEq] at h1'
  subst h1 h1'
  rw [e] at h2
  exact siteTable_injective hdig h2 h2' (double_vector hA hl 0) (double_vector hA hl' 0)

/-- C129.  The file written by `SaveMomenta` for a closed lattice determines the momenta. -/
theorem C129_momenta (hA : A.IsBinary64) (dot : Bool) (dig : ℝ → Nat × Int) (hdig : Shortest dig) (hs : Buildable size)
    (hr : Regular b size.length) (hs' : Buildable size') (hr' : Regular b' size'.length)
    (l l' : Lattice (Num A)) (hl : Lattice.new b size .closed = .ok l) (hl' : Lattice.new b' size' .closed = .ok l')
    (fname fname' : String) (fs fs' fs1 fs1' : Files)
    (h : l.save (Lattice.saveMomentaText (Fmt.short dot dig)) fname fs = .ok fs1)
    (h' : l'.save (Lattice.saveMomentaText (Fmt.short dot dig)) fname' fs' = .ok fs1') (e : fs1 fname = fs1' fname') :
    size.length = size'.length ∧ size.prod = size'.prod ∧ ∀ i, i < size.prod → l.getMomentum i = l'.getMomentum i := by
  obtain ⟨fs2, h1, h2, -⟩ := C82_momenta_partial hs hr l hl (Fmt.short dot dig) (C129_clean dot dig) fname fs
  obtain ⟨fs2', h1', h2', -⟩ := C82_momenta_partial hs' hr' l' hl' (Fmt.short dot dig) (C129_clean dot dig) fname' fs'
  rw [h, Res.ok.injEq] at h1
  rw [h', Res.ok.injEq] at h1'
  subst h1 h1'
  rw [e] at h2
  exact siteTable_injective hdig h2 h2' (double_momentum hA hl) (double_momentum hA hl')

theorem embed_unit {d : Nat} {c : List Int} (hc : c.length = d) : embed d (unit d) c = c.map (fun z : Int => (z : ℝ)) := by
  refine List.ext_getElem (by simp [embed_length, hc]) (fun i h1 h2 => ?_)
  rw [embed_getElem, List.getElem_map]
  have hi : i < d := by rwa [embed_length] at h1
  have ent : ∀ j, j < d → entry d (unit d) j i = if j = i then 1 else 0 := by
    intro j hj
    have hlt : i + j * d < d * d := by
      calc i + j * d < d + j * d := by omega
        _ = (j + 1) * d := by ring
        _ ≤ d * d := Nat.mul_le_mul_right _ (by omega)
    have hm : (i + j * d) % (d + 1) = 0 ↔ j = i := by
      have e : (i + j * d) + j = i + j * (d + 1) := by ring
      constructor
      · intro h
        obtain ⟨q, hq⟩ := Nat.dvd_of_mod_eq_zero h
        have h3 : ((i + j * d) + j) % (d + 1) = j := by
          rw [hq, Nat.mul_add_mod, Nat.mod_eq_of_lt (by omega)]
        rw [e, Nat.add_mul_mod_self_right, Nat.mod_eq_of_lt (by omega)] at h3
        exact h3.symm
      · rintro rfl
        have : j + j * d = j * (d + 1) := by ring
        rw [this, Nat.mul_mod_left]
    unfold entry unit
    simp [List.getD_eq_getElem?_getD, hlt, hm]
  rw [Finset.sum_eq_single i]
  · rw [ent i hi, if_pos rfl, mul_one]
    unfold coord
    rw [List.getD_eq_getElem?_getD, List.getElem?_eq_getElem (hc ▸ hi)]
    rfl
  · intro j hj hne
    rw [ent j (Finset.mem_range.1 hj), if_neg hne, mul_zero]
  · intro h; exact absurd (Finset.mem_range.2 hi) h

theorem onGrid_mem {c : List Int} {size : List Nat} (h : OnGrid c size) {z : Int} (hz : z ∈ c) : ∃ s ∈ size, 0 ≤ z ∧ z < (s : Int) := by
  induction h with
  | nil => exact absurd hz (by simp)
  | cons h1 _ ih =>
    rcases List.mem_cons.1 hz with rfl | hz
    · exact ⟨_, by simp, h1⟩
    · obtain ⟨s, hs, h⟩ := ih hz
      exact ⟨s, by simp [hs], h⟩

/-- C129.  Chain, square and cubic lattices that are not excessively large: each line of the file written by
`SavePositions` after the header has the number and the coordinates of a site, written as integers. -/
theorem C129_coordinates (hA : A.IsBinary64) (dig : ℝ → Nat × Int) (hdig : Shortest dig)
    (hb : chainLattice = .ok b ∨ squareLattice = .ok b ∨ cubicLattice = .ok b) (hs : Buildable size)
    (hd : size.length = b.dim) (hz : (size.map (fun s => (2 * s) ^ 2)).sum < 2 ^ 52) (bd : Boundaries) (l : Lattice (Num A))
    (hl : Lattice.new b size bd = .ok l) (fname : String) (fs : Files) :
    ∃ fs' header rows, l.save (Lattice.savePositionsText (Fmt.short false dig)) fname fs = .ok fs' ∧
      IsTable (fs' fname) (header :: rows) ∧ rows.length = size.prod ∧
      ∀ i, i < size.prod → ∀ c, l.grid.getCoordinates i = .ok c →
        ∃ row, rows[i]? = some row ∧ List.Forall₂ IsNumeral row ((i : Int) :: c) := by
  obtain ⟨Z, g, N, e, h1, h2, h3, h4⟩ := integer_cases hA hb hd hz
  obtain ⟨fs', h5, ⟨header, rows, h6, -, h7, h8⟩, -⟩ :=
    C82_positions hs h2 bd l hl (Fmt.short false dig) (C129_clean false dig) fname fs
  refine ⟨fs', header, rows, h5, h6, h7, fun i hi c hc => ?_⟩
  obtain ⟨num, v, h9, h10, -, h11⟩ := h8 i hi
  have hp := C105_position hA hs h1 h2 h4 bd l hl i hi c hc
  rw [(new_parts hl).1, getCoordinates_eq hs.1 (buildable_fits hs) bd hi, Res.ok.injEq] at hc
  subst hc
  have hon := crd_onGrid hs.1.1 hi
  rw [e, embed_unit (onGrid_length hon), h10, Res.ok.injEq] at hp
  refine ⟨_, h11, .cons h9 ?_⟩
  rw [hp, List.map_map, List.map_map, List.forall₂_map_left_iff]
  refine List.forall₂_same.2 (fun z hz' => ?_)
  have hsmall : |z| < 2 ^ 53 := by
    obtain ⟨s, hs', h12, h13⟩ := onGrid_mem hon hz'
    have h14 : (2 * s) ^ 2 < 2 ^ 52 := (List.single_le_sum (fun _ _ => Nat.zero_le _) _
      (List.mem_map.2 ⟨s, hs', rfl⟩)).trans_lt hz
    have h15 : 2 * s < 2 ^ 26 := by
      by_contra hc
      have := Nat.pow_le_pow_left (not_lt.1 hc) 2
      omega
    rw [abs_of_nonneg h12]
    omega
  show IsNumeral (Fmt.short false dig (.fin (z : ℝ) : Num A)) z
  rw [C129_integers false dig hdig z hsmall]
  simpa using printLong_numeral z

/-- The hypotheses of C129 hold: a choice of digits, and a square lattice of 1000 by 2000 sites. -/
example : (∃ dig, Shortest dig) ∧ ∃ b : Bravais (Num doubleArith), squareLattice = .ok b ∧ Regular b 2 ∧ [1000, 2000].length = b.dim ∧
    Buildable [1000, 2000] ∧ ([1000, 2000].map (fun s => (2 * s) ^ 2)).sum < 2 ^ 52 ∧ ∃ l, Lattice.new b [1000, 2000] .closed = .ok l := by
  refine ⟨exists_shortest, ?_⟩
  obtain ⟨b, h1, h2⟩ := square_regular (F := Num doubleArith)
  have hs : Buildable [1000, 2000] := ⟨⟨by decide, by norm_num⟩, by norm_num⟩
  obtain ⟨l, hl, -⟩ := C73_defined hs (b := b) h2 .closed (fun _ => by decide)
  exact ⟨b, h1, h2, h2.dim.symm, hs, by norm_num, l, hl⟩

/-- Texts with and without exponent, of integers and fractions. -/
example : Fmt.shortText false 12345 (-2) = "123.45".toList ∧ Fmt.shortText false 5 (-1) = "0.5".toList ∧
    Fmt.shortText false 125 (-6) = "0.000125".toList ∧ Fmt.shortText false 125 (-7) = "1.25e-05".toList ∧
    Fmt.shortText false 3 4 = "30000".toList ∧ Fmt.shortText true 3 4 = "30000.0".toList ∧
    Fmt.shortText false 1 16 = "1e+16".toList := by
  decide +kernel

end

end Bwsl
