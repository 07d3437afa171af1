import Verif.Props.KahanDouble
import Verif.Props.HistDouble
import Verif.Props.MoveHistory
import Verif.Props.AccumStats

/-! Property C138: means in double precision of histograms with any values, of move probabilities and of integers. -/

namespace Bwsl
open Spec

set_option linter.unusedSectionVars false

variable {A : Arith ℝ}

/-! ### Histograms -/

/-- C138.  In double precision, after any history with at most 2^49 measurements, the result of a bin whose values are
finite doubles with absolute values that add up to at most 2^1020 is finite.  Its distance from the sum of the values over
the number of all measurements is at most 3·2⁻⁵³ of that quotient, plus 3 (k 2⁻⁵³)² of the quotient with absolute values, for
`k` values in the bin. -/
theorem C138_histogram (hA : A.IsBinary64) (n : Nat) (hn : n < 2 ^ 64) (ops : List (HistOp ℝ)) (ha : Addressed n ops)
    (hm : (measurements ops).length ≤ 2 ^ 49) (h : Hist (Num A)) (hh : (Hist.new n).run (ops.map finOp) = .ok h)
    (i : Nat) (hi : i < h.getNbins) (hx : ∀ x ∈ inBin i (measurements ops), FinDouble x)
    (hS : ((inBin i (measurements ops)).map (fun x => |x|)).sum ≤ (2 : ℝ) ^ (1020 : Int)) :
    ∃ y, h.getResult i = .ok (.fin y) ∧ FinDouble y ∧
      |y - (inBin i (measurements ops)).sum / (measurements ops).length| ≤
        3 / 2 ^ 53 * |(inBin i (measurements ops)).sum / (measurements ops).length| +
        3 * (((inBin i (measurements ops)).length : ℝ) / 2 ^ 53) ^ 2 *
          (((inBin i (measurements ops)).map (fun x => |x|)).sum / (measurements ops).length) + (2 : ℝ) ^ (-1075 : Int) := by
  obtain ⟨_, hinv⟩ := hist_state n hn _ ((addressed_map n ops).2 ha) h hh
  rw [measurements_map] at hinv
  generalize measurements ops = ms at *
  have hle : (inBin i ms).length ≤ ms.length := by
    unfold inBin; rw [List.length_map]; exact List.length_filter_le _ _
  obtain ⟨a, hget⟩ := hinv.get hi
  have hbin := hinv.bins i _ hget
  rw [inBin_map] at hbin
  have hcnt : a.getCount = (inBin i ms).length := by
    rw [hbin, foldl_count (add := Neumaier.addCore (F := Num A)) (count := Neumaier.getCount) (fun _ _ => rfl) _
      Neumaier.new (Nat.zero_lt_succ _), show (Neumaier.new : Neumaier (Num A)).getCount = 0 from rfl,
      Nat.zero_add, List.length_map]
    exact Nat.mod_eq_of_lt (by omega)
  have hc : h.count = ms.length := by
    rw [hinv.count, List.length_map]; exact Nat.mod_eq_of_lt (by omega)
  unfold Hist.getResult
  rw [hget]
  simp only
  by_cases h0 : (inBin i ms).length = 0
  · rw [if_pos (by rw [hcnt, h0]), List.eq_nil_of_length_eq_zero h0]
    refine ⟨0, rfl, ⟨double_zero, by rw [abs_zero]; positivity⟩, ?_⟩
    simp
  · rw [if_neg (by rw [hcnt]; exact h0), hbin, hc]
    generalize inBin i ms = xs at *
    obtain ⟨r, m, hr, -, he, -⟩ := C132_neumaier hA xs (by rintro rfl; exact h0 rfl) hx (by omega) hS
    rw [hr]
    have hN1 : (1 : ℝ) ≤ ms.length := by
      have : 1 ≤ ms.length := by omega
      exact_mod_cast this
    have hN : (0 : ℝ) < ms.length := by linarith
    have hS0 := sumAbs_nonneg xs
    have hS' : sumAbs xs ≤ (2 : ℝ) ^ (1020 : Int) := hS
    change _ ≤ 1 / 2 ^ 53 * |xs.sum| + 2 * ((xs.length : ℝ) / 2 ^ 53) ^ 2 * sumAbs xs at he
    have hz : 0 ≤ ((xs.length : ℝ) / 2 ^ 53) ^ 2 := sq_nonneg _
    have hz1 : ((xs.length : ℝ) / 2 ^ 53) ^ 2 ≤ 1 / 256 := by
      have b : (xs.length : ℝ) ≤ 2 ^ 49 := by
        have : xs.length ≤ 2 ^ 49 := by omega
        exact_mod_cast this
      have b2 : (xs.length : ℝ) / 2 ^ 53 ≤ 1 / 16 := by
        rw [div_le_iff₀ (by norm_num)]; norm_num at b ⊢; linarith
      have b3 : 0 ≤ (xs.length : ℝ) / 2 ^ 53 := by positivity
      nlinarith
    have hsum := abs_sum_le xs
    show ∃ y, Res.ok ((Num.fin r : Num A) / CxxFloat.ofNat ms.length) = .ok (.fin y) ∧ FinDouble y ∧
      |y - xs.sum / ms.length| ≤ 3 / 2 ^ 53 * |xs.sum / ms.length| +
        3 * ((xs.length : ℝ) / 2 ^ 53) ^ 2 * (sumAbs xs / ms.length) + (2 : ℝ) ^ (-1075 : Int)
    generalize ((xs.length : ℝ) / 2 ^ 53) ^ 2 = ζ at *
    have hz2 : ζ * sumAbs xs ≤ 1 / 256 * sumAbs xs := mul_le_mul_of_nonneg_right hz1 hS0
    have hz3 : 0 ≤ ζ * sumAbs xs := mul_nonneg hz hS0
    have hr2 : |r| ≤ 2 * sumAbs xs := by
      have a1 := abs_sub_abs_le_abs_sub r xs.sum
      rw [mul_assoc] at he
      clear hn hm hS hS' hr hx
      norm_num at he
      linarith
    have hq : |r / ms.length| ≤ |r| := by
      rw [abs_div, abs_of_pos hN]
      exact div_le_self (abs_nonneg _) hN1
    have hb : |r / ms.length| ≤ (2 : ℝ) ^ (1023 : Int) := huge_scale hS' (by linarith)
    refine ⟨rn (r / ms.length), ?_, finDouble_rn hb, ?_⟩
    · rw [Num.ofNat_eq, round_nat hA (by omega), Num.fin_div hN.ne', round_of_le_two hA hb]
    · have h5 := rn_abs_err (r / ms.length)
      have h6 : |r / ms.length - xs.sum / ms.length| ≤
          1 / 2 ^ 53 * |xs.sum / ms.length| + 2 * ζ * (sumAbs xs / ms.length) := by
        rw [← sub_div, abs_div, abs_div, abs_of_pos hN, ← mul_div_assoc, ← mul_div_assoc, ← add_div]
        exact div_le_div_of_nonneg_right he hN.le
      have h7 := abs_sub_abs_le_abs_sub (r / (ms.length : ℝ)) (xs.sum / ms.length)
      have h9 : 0 ≤ ζ * (sumAbs xs / ms.length) := by positivity
      have h10 := abs_add_le (rn (r / ms.length) - r / ms.length) (r / ms.length - xs.sum / ms.length)
      rw [sub_add_sub_cancel, abs_sub_comm (rn (r / ms.length)) (r / ms.length)] at h10
      have h11 := abs_nonneg (xs.sum / (ms.length : ℝ))
      rw [mul_assoc] at h6 ⊢
      generalize ζ * (sumAbs xs / ms.length) = Z at *
      generalize (2 : ℝ) ^ (-1075 : Int) = τ at *
      generalize |xs.sum / (ms.length : ℝ)| = q at *
      clear hn hm hS hS' hr hx hb he hq
      norm_num at h5 h6 ⊢
      linarith

/-! ### Moves -/

/-- C138.  In double precision, after any history of a `MoveStats`, with probabilities that are doubles in [0,1], the
average probability is finite and within 6·2⁻⁵³ of the exact mean of the probabilities of the moves resolved since the last reset,
relatively (plus half the smallest positive double), if there are any and at most 2^49; an impossible move counts as 0. -/
theorem C138_probability (hA : A.IsBinary64) (name : String) (ops : List (MoveOp ℝ)) (hn : ops.length < 2 ^ 64)
    (h0 : (book ops).2 ≠ []) (hc : (book ops).2.length ≤ 2 ^ 49)
    (hp : ∀ m ∈ (book ops).2, Double (m.prob 0) ∧ 0 ≤ m.prob 0 ∧ m.prob 0 ≤ 1) :
    ∃ y, ((MoveStats.new name).after false (ops.map (finMoveOp (A := A)))).getAverageProbability = .fin y ∧
      |y - avg ((book ops).2.map (Move.prob 0))| ≤
        6 / 2 ^ 53 * avg ((book ops).2.map (Move.prob 0)) + (2 : ℝ) ^ (-1075 : Int) := by
  obtain ⟨h1, -⟩ := C88_history name (ops.map (finMoveOp (A := A))) (by rwa [List.length_map])
  rw [h1, book_map]
  unfold MoveStats.getAverageProbability
  simp only
  rw [prob_map]
  have e1024 : (1 : ℝ) < (2 : ℝ) ^ (1024 : Int) := one_lt_zpow₀ one_lt_two (by norm_num)
  refine C132_relative hA _ (by simpa using h0) ?_ (by rwa [List.length_map]) ?_
  · intro x hx
    obtain ⟨m, hm, rfl⟩ := List.mem_map.1 hx
    obtain ⟨a, b, c⟩ := hp m hm
    exact ⟨⟨a, by rw [abs_of_nonneg b]; exact c.trans_lt e1024⟩, b⟩
  · have key : ∀ ms : List (Move ℝ), (∀ m ∈ ms, m.prob 0 ≤ 1) → (ms.map (Move.prob 0)).sum ≤ ms.length := by
      intro ms
      induction ms with
      | nil => intro _; simp
      | cons m ms ih =>
        intro h
        have a := ih fun m' hm' => h m' (by simp [hm'])
        have b := h m (by simp)
        rw [List.map_cons, List.sum_cons, List.length_cons]
        push_cast
        linarith
    refine (key _ fun m hm => (hp m hm).2.2).trans ?_
    have b : ((book ops).2.length : ℝ) ≤ 2 ^ 49 := by exact_mod_cast hc
    refine b.trans ?_
    rw [show (2 : ℝ) ^ 49 = (2 : ℝ) ^ (49 : Int) by norm_cast]
    exact zpow_le_zpow_right₀ one_le_two (by norm_num)

/-! ### Integers -/

/-- The quotient of two integers of 64 bits, both converted to double. -/
theorem int_quotient (hA : A.IsBinary64) {a : Int} {b : Nat} (ha : |a| ≤ 2 ^ 63) (hb0 : 0 < b) (hb : b ≤ 2 ^ 64) :
    ∃ y, (CxxFloat.ofInt a : Num A) / CxxFloat.ofNat b = .fin y ∧ |y - (a : ℝ) / b| ≤ 4 / 2 ^ 53 * |(a : ℝ) / b| ∧
      (|a| ≤ 2 ^ 53 → b ≤ 2 ^ 53 → y = rn ((a : ℝ) / b)) := by
  have hb1 : (1 : ℝ) ≤ b := by exact_mod_cast hb0
  have hbp : (0 : ℝ) < b := by linarith
  have hbr : (b : ℝ) ≤ (2 : ℝ) ^ (64 : Int) := by
    rw [show (2 : ℝ) ^ (64 : Int) = 2 ^ 64 by norm_cast]; exact_mod_cast hb
  have har : |(a : ℝ)| ≤ (2 : ℝ) ^ (63 : Int) := by
    rw [show (2 : ℝ) ^ (63 : Int) = 2 ^ 63 by norm_cast]; exact_mod_cast ha
  have p64 : Double ((2 : ℝ) ^ (64 : Int)) := double_two_zpow (by norm_num)
  have p63 : Double ((2 : ℝ) ^ (63 : Int)) := double_two_zpow (by norm_num)
  have big : ∀ k : Int, k ≤ 1023 → (2 : ℝ) ^ k ≤ (2 : ℝ) ^ (1023 : Int) := fun k hk => zpow_le_zpow_right₀ one_le_two hk
  have d1 : rn (1 : ℝ) = 1 := rn_double ⟨1, 0, by decide, by decide, by simp⟩
  have multInt : ∀ z : Int, Mult (K := ℝ) (-1074) (z : ℝ) := fun z => Mult.mono (e := 0) ⟨z, by simp⟩ (by norm_num)
  have ea := rn_rel (multInt a)
  have eb := rn_rel (multInt (b : Int))
  rw [Int.cast_natCast, abs_of_pos hbp] at eb
  have fa : (CxxFloat.ofInt a : Num A) = .fin (rn (a : ℝ)) := by
    rw [Num.ofInt_eq, round_of_le_two hA (har.trans (big _ (by norm_num)))]
  have fb : (CxxFloat.ofNat b : Num A) = .fin (rn (b : ℝ)) := by
    rw [Num.ofNat_eq, round_of_le_two hA (by rw [abs_of_pos hbp]; exact hbr.trans (big _ (by norm_num)))]
  have hB1 : 1 ≤ rn (b : ℝ) := by have := rn_mono hb1; rwa [d1] at this
  have hB2 : rn (b : ℝ) ≤ (2 : ℝ) ^ (64 : Int) := by have := rn_mono hbr; rwa [rn_double p64] at this
  have hBp : 0 < rn (b : ℝ) := by linarith
  have hA1 : |rn (a : ℝ)| ≤ (2 : ℝ) ^ (63 : Int) := by
    rw [abs_le] at har ⊢
    have h1 := rn_mono har.1
    have h2 := rn_mono har.2
    rw [rn_neg, rn_double p63] at h1
    rw [rn_double p63] at h2
    exact ⟨h1, h2⟩
  have hq : |rn (a : ℝ) / rn (b : ℝ)| ≤ (2 : ℝ) ^ (63 : Int) := by
    rw [abs_div, abs_of_pos hBp]
    exact (div_le_self (abs_nonneg _) hB1).trans hA1
  have fq : (CxxFloat.ofInt a : Num A) / CxxFloat.ofNat b = .fin (rn (rn (a : ℝ) / rn (b : ℝ))) := by
    rw [fa, fb, Num.fin_div hBp.ne', round_of_le_two hA (hq.trans (big _ (by norm_num)))]
  have hnormal : rn (a : ℝ) / rn (b : ℝ) = 0 ∨ (2 : ℝ) ^ (-1022 : Int) ≤ |rn (a : ℝ) / rn (b : ℝ)| := by
    by_cases h0 : a = 0
    · left; rw [h0]; simp [rn_zero]
    · right
      have h1 : 1 ≤ |rn (a : ℝ)| := by
        rcases lt_or_gt_of_ne h0 with h | h
        · have : (a : ℝ) ≤ -1 := by exact_mod_cast (by omega : a ≤ -1)
          have := rn_mono this
          rw [rn_neg, d1] at this
          rw [abs_of_neg (by linarith)]; linarith
        · have : (1 : ℝ) ≤ a := by exact_mod_cast (by omega : 1 ≤ a)
          have := rn_mono this
          rw [d1] at this
          rw [abs_of_pos (by linarith)]; exact this
      rw [abs_div, abs_of_pos hBp, le_div_iff₀ hBp]
      refine le_trans ?_ h1
      calc (2 : ℝ) ^ (-1022 : Int) * rn (b : ℝ) ≤ (2 : ℝ) ^ (-1022 : Int) * (2 : ℝ) ^ (64 : Int) := by gcongr
        _ = (2 : ℝ) ^ (-958 : Int) := by rw [← zpow_add₀ two_ne_zero]; norm_num
        _ ≤ 1 := zpow_le_one_of_nonpos₀ one_le_two (by norm_num)
  have ey := rn_rel' hnormal
  refine ⟨_, fq, ?_, ?_⟩
  · have hQ : |rn (a : ℝ) / rn (b : ℝ) - a / b| ≤ 5 / 2 / 2 ^ 53 * |(a : ℝ) / b| := by
      rw [div_sub_div _ _ hBp.ne' hbp.ne', abs_div, abs_of_pos (mul_pos hBp hbp), div_le_iff₀ (mul_pos hBp hbp), abs_div,
        abs_of_pos hbp]
      have t1 : |rn (a : ℝ) * b - rn (b : ℝ) * a| ≤ |a - rn (a : ℝ)| * b + |(a : ℝ)| * |b - rn (b : ℝ)| := by
        rw [← abs_of_pos hbp, ← abs_mul, ← abs_mul, abs_of_pos hbp]
        have := abs_sub ((a : ℝ) * (b - rn (b : ℝ))) ((a - rn (a : ℝ)) * b)
        rw [show (a : ℝ) * (b - rn (b : ℝ)) - (a - rn (a : ℝ)) * b = rn (a : ℝ) * b - rn (b : ℝ) * a by ring] at this
        linarith
      have t2 : |(a : ℝ) - rn (a : ℝ)| * b ≤ |(a : ℝ)| / 2 ^ 53 * b := by gcongr
      have t3 : |(a : ℝ)| * |b - rn (b : ℝ)| ≤ |(a : ℝ)| * (b / 2 ^ 53) := by gcongr
      have t4 : (4 / 5 : ℝ) * b ≤ rn (b : ℝ) := by
        have := (abs_le.1 eb).2
        norm_num at this
        linarith
      have t5 : 5 / 2 / 2 ^ 53 * (|(a : ℝ)| / b) * (rn (b : ℝ) * b) = 5 / 2 / 2 ^ 53 * |(a : ℝ)| * rn (b : ℝ) := by
        field_simp
      rw [t5]
      have t6 : 5 / 2 / 2 ^ 53 * |(a : ℝ)| * (4 / 5 * b) ≤ 5 / 2 / 2 ^ 53 * |(a : ℝ)| * rn (b : ℝ) := by gcongr
      have t7 : 5 / 2 / 2 ^ 53 * |(a : ℝ)| * (4 / 5 * b) = |(a : ℝ)| / 2 ^ 53 * b + |(a : ℝ)| * (b / 2 ^ 53) := by ring
      linarith
    have h7 := abs_sub_abs_le_abs_sub (rn (a : ℝ) / rn (b : ℝ)) (a / b)
    have h10 := abs_add_le (rn (rn (a : ℝ) / rn (b : ℝ)) - rn (a : ℝ) / rn (b : ℝ)) (rn (a : ℝ) / rn (b : ℝ) - a / b)
    rw [sub_add_sub_cancel, abs_sub_comm (rn (rn (a : ℝ) / rn (b : ℝ))) (rn (a : ℝ) / rn (b : ℝ))] at h10
    have h11 := abs_nonneg ((a : ℝ) / b)
    generalize rn (a : ℝ) / rn (b : ℝ) = q at *
    generalize (a : ℝ) / b = z at *
    norm_num at ey hQ ⊢
    linarith
  · intro h1 h2
    have e1 : rn (a : ℝ) = a := rn_double (double_int h1)
    have e2 : rn (b : ℝ) = b := rn_double (finDouble_nat h2).1
    rw [e1, e2]

/-- C138.  In double precision `Mean()` of the accumulator of integers is within 4·2⁻⁵³ of the exact mean, relatively,
whenever the sums of `Add` are defined; it is the correctly rounded mean if the sum and the number of values are at most
2^53. -/
theorem C138_integers (hA : A.IsBinary64) (xs : List Int) (h0 : xs ≠ []) (hn : xs.length < 2 ^ 64) (s : NaiveInteger)
    (h : NaiveInteger.new.addAll xs = .ok s) :
    ∃ y, s.mean (Num A) = .fin y ∧
      |y - avg (xs.map (Int.cast : Int → ℝ))| ≤ 4 / 2 ^ 53 * |avg (xs.map (Int.cast : Int → ℝ))| ∧
      (|xs.sum| ≤ 2 ^ 53 → xs.length ≤ 2 ^ 53 → y = rn (avg (xs.map (Int.cast : Int → ℝ)))) := by
  obtain ⟨h1, _, h3, h4, _⟩ := C42_sum_conv xs s h
  have e : avg (xs.map (Int.cast : Int → ℝ)) = (xs.sum : ℝ) / (xs.length : ℕ) := by
    unfold avg
    rw [List.length_map]
    congr 1
    induction xs with
    | nil => simp
    | cons x xs ih => simp
  have hs : InLong xs.sum := by have := h4 xs.length; rwa [List.take_length] at this
  unfold NaiveInteger.mean
  unfold NaiveInteger.getSum at h1
  rw [h3, h1, Nat.mod_eq_of_lt hn, e]
  exact int_quotient hA (by unfold InLong at hs; rw [abs_le]; constructor <;> omega) (List.length_pos_iff.2 h0) hn.le

/-- C138.  `Variance` computes its formula (see C43 for what is wrong with it) to the same accuracy. -/
theorem C138_formula (hA : A.IsBinary64) (xs : List Int) (h2 : 2 ≤ xs.length) (hn : xs.length < 2 ^ 32)
    (s : NaiveInteger) (h : NaiveInteger.new.addAll xs = .ok s) (hp : InLong (xs.sum * xs.sum))
    (hd : InLong (intSq xs - xs.sum * xs.sum)) (corrected : Bool) :
    ∃ y, s.variance (Num A) corrected = .ok (.fin y) ∧
      |y - ((intSq xs - xs.sum * xs.sum : Int) : ℝ) / (xs.length * (xs.length - if corrected then 1 else 0))| ≤
        4 / 2 ^ 53 * |((intSq xs - xs.sum * xs.sum : Int) : ℝ) / (xs.length * (xs.length - if corrected then 1 else 0))| := by
  obtain ⟨h1, h1', h3, _, _⟩ := C42_sum_conv xs s h
  unfold NaiveInteger.getSum at h1
  unfold NaiveInteger.getCount at h3
  rw [Nat.mod_eq_of_lt (by omega)] at h3
  have hnum : s.numerator = .ok (intSq xs - xs.sum * xs.sum) := by
    unfold NaiveInteger.numerator lmul lsub
    rw [h1, long_ok hp, Res.ok_bind, h1', long_ok hd]
  have hl : ¬ s.count < 2 := by omega
  have hu : usub s.count 1 = s.count - 1 := by unfold usub; omega
  have hlt : ∀ k, k ≤ xs.length → xs.length * k < W64 := fun k hk =>
    calc xs.length * k ≤ 2 ^ 32 * k := Nat.mul_le_mul_right _ hn.le
      _ < W64 := by omega
  have hle : |intSq xs - xs.sum * xs.sum| ≤ 2 ^ 63 := by
    unfold InLong at hd; rw [abs_le]; constructor <;> omega
  have hc : ((xs.length - 1 : Nat) : ℝ) = (xs.length : ℝ) - 1 := by
    rw [Nat.cast_sub (by omega)]; simp
  unfold NaiveInteger.variance
  rw [if_neg hl]
  cases corrected
  · simp only [Bool.false_eq_true, if_false, hnum, Res.ok_bind]
    rw [h3, umul_self (hlt _ le_rfl)]
    obtain ⟨y, e1, e2, -⟩ := int_quotient hA hle (b := xs.length * xs.length) (Nat.mul_pos (by omega) (by omega)) (hlt _ le_rfl).le
    refine ⟨y, by rw [e1], ?_⟩
    rw [Nat.cast_mul] at e2
    rw [sub_zero]
    exact e2
  · simp only [if_true, hu, hnum, Res.ok_bind]
    rw [h3, umul_self (hlt _ (by omega))]
    obtain ⟨y, e1, e2, -⟩ := int_quotient hA hle (b := xs.length * (xs.length - 1)) (Nat.mul_pos (by omega) (by omega))
      (hlt _ (by omega)).le
    refine ⟨y, by rw [e1], ?_⟩
    rw [Nat.cast_mul, hc] at e2
    exact e2

/-- The hypotheses of C138 hold: a bin that got 1/2 and 3, two resolved moves, and three integers. -/
example : Addressed 2 [HistOp.add 1 (1 / 2 : ℝ), .add 1 3] ∧
    inBin 1 (measurements [HistOp.add 1 (1 / 2 : ℝ), .add 1 3]) = [1 / 2, 3] ∧
    (book [MoveOp.propose, .accept (1 / 2 : ℝ), .add .impossible (1 : ℝ)]).2 = [.accepted (1 / 2), .impossible] ∧
    NaiveInteger.new.addAll [1, 2, 4] = .ok ⟨7, 21, 3⟩ := by
  refine ⟨?_, ?_, rfl, by decide⟩
  · simp [Addressed]
  · simp [inBin, measurements, measurements.isReset]

end Bwsl
