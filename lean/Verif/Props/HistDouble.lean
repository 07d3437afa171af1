import Verif.Props.HistUnit
import Verif.Props.MoveHistory
import Verif.Props.LinSpaceDouble

/-! Property C115: histograms and move statistics in double precision. -/

namespace Bwsl
open Spec

set_option linter.unusedSectionVars false

variable {A : Arith ℝ}

/-- The quotient of a double by a positive count is rounded once. -/
theorem div_count (hA : A.IsBinary64) {s : ℝ} (hs : FinDouble s) {n : Nat} (h0 : 0 < n) (hn : n ≤ 2 ^ 53) :
    (Num.fin s : Num A) / CxxFloat.ofNat n = .fin (rn (s / n)) := by
  have h1 : (1 : ℝ) ≤ n := by exact_mod_cast h0
  have hne : (n : ℝ) ≠ 0 := by linarith only [h1]
  rw [Num.ofNat_eq, round_nat hA hn, Num.fin_div hne]
  have hd : Double |s| := by
    rcases le_total 0 s with h | h
    · rw [abs_of_nonneg h]; exact hs.1
    · rw [abs_of_nonpos h]; exact hs.1.neg
  refine round_of_le hA hd hs.2 ?_
  rw [abs_div, Nat.abs_cast]
  exact div_le_self (abs_nonneg _) h1

/-- The value of one bin whose partial sums are doubles. -/
theorem result_of_inv64 (hA : A.IsBinary64) (h : Hist (Num A)) (ms : List (Nat × ℝ))
    (hi : HistInv h (ms.map (fun m => (m.1, Num.fin m.2)))) (hn : ms.length ≤ 2 ^ 53) (i : Nat)
    (hb : i < h.nbins) (hx : ∀ x ∈ inBin i ms, FinDouble x) (hp : ∀ k, FinDouble ((inBin i ms).take k).sum) :
    h.getResult i = .ok (.fin (rn ((inBin i ms).sum / ms.length))) := by
  have hn' : ms.length < 2 ^ 64 := lt_of_le_of_lt hn (by norm_num)
  have hle : (inBin i ms).length ≤ ms.length := by
    unfold inBin; rw [List.length_map]; exact List.length_filter_le _ _
  obtain ⟨a, hget⟩ := hi.get hb
  have hbin := hi.bins i _ hget
  rw [inBin_map] at hbin
  have hcnt : a.getCount = (inBin i ms).length := by
    rw [hbin, foldl_count (add := Neumaier.addCore (F := Num A)) (count := Neumaier.getCount) (fun _ _ => rfl) _
      Neumaier.new (Nat.zero_lt_succ _), show (Neumaier.new : Neumaier (Num A)).getCount = 0 from rfl,
      Nat.zero_add, List.length_map]
    exact Nat.mod_eq_of_lt (hle.trans_lt hn')
  have hc : h.count = ms.length := by
    rw [hi.count, List.length_map]; exact Nat.mod_eq_of_lt hn'
  unfold Hist.getResult
  rw [hget]
  simp only
  by_cases h0 : (inBin i ms).length = 0
  · rw [if_pos (by rw [hcnt, h0]), List.eq_nil_of_length_eq_zero h0]
    simp [Num.zero_eq, rn_zero]
  · have hs : FinDouble (inBin i ms).sum := by
      have := hp (inBin i ms).length; rwa [List.take_length] at this
    rw [if_neg (by rw [hcnt]; exact h0), hbin, (C36_binary64 hA (inBin i ms) hx hp).2, hc,
      div_count hA hs (by omega) hn]

/-- C115.  In double precision, if the values in a bin and their partial sums (in the order of the measurements) are
representable, and there are at most 2^53 measurements, the result of the bin is the exact quotient of the sum by the
number of all the measurements, rounded once. -/
theorem C115_result (hA : A.IsBinary64) (n : Nat) (hn : n < 2 ^ 64) (ops : List (HistOp ℝ)) (ha : Addressed n ops)
    (hm : (measurements ops).length ≤ 2 ^ 53) (h : Hist (Num A)) (hh : (Hist.new n).run (ops.map finOp) = .ok h)
    (i : Nat) (hi : i < h.getNbins) (hx : ∀ x ∈ inBin i (measurements ops), FinDouble x)
    (hp : ∀ k, FinDouble ((inBin i (measurements ops)).take k).sum) :
    h.getResult i = .ok (.fin (rn ((inBin i (measurements ops)).sum / (measurements ops).length))) := by
  obtain ⟨_, h2⟩ := hist_state n hn _ ((addressed_map n ops).2 ha) h hh
  rw [measurements_map] at h2
  exact result_of_inv64 hA h _ h2 hm i hi hx hp

theorem sum_replicate_take (c k : Nat) : ((List.replicate c (1 : ℝ)).take k).sum = ((min k c : Nat) : ℝ) := by
  rw [List.take_replicate]; simp

theorem finDouble_nat {n : Nat} (h : n ≤ 2 ^ 53) : FinDouble (n : ℝ) := by
  have := finDouble_int (K := ℝ) (n := (n : Int)) (by rw [abs_of_nonneg (by positivity)]; exact_mod_cast h)
  exact_mod_cast this

/-- A fraction `c/N` of counts is zero or large enough not to be subnormal. -/
theorem frac_normal {c N : Nat} (hN : N ≤ 2 ^ 53) : (c : ℝ) / N = 0 ∨ (2 : ℝ) ^ (-1022 : Int) ≤ |(c : ℝ) / N| := by
  rcases Nat.eq_zero_or_pos c with rfl | hc
  · left; simp
  rcases Nat.eq_zero_or_pos N with rfl | hN0
  · left; simp
  right
  rw [abs_of_nonneg (by positivity)]
  have h1 : (1 : ℝ) ≤ c := by exact_mod_cast hc
  have h2 : (0 : ℝ) < N := by exact_mod_cast hN0
  have h3 : (N : ℝ) ≤ 2 ^ 53 := by exact_mod_cast hN
  have h4 : (2 : ℝ) ^ (-1022 : Int) ≤ (2 : ℝ) ^ (-53 : Int) := zpow_le_zpow_right₀ one_le_two (by norm_num)
  refine h4.trans ?_
  rw [le_div_iff₀ h2, zpow_neg]
  have h5 : (2 : ℝ) ^ (53 : Int) = 2 ^ 53 := by norm_num
  rw [h5]
  refine le_trans ?_ h1
  rw [inv_mul_le_iff₀ (by positivity)]
  linarith only [h3]

/-- The rounded fraction is in [0,1], is 0 only for 0 and 1 only for 1, and is close to the exact one. -/
theorem frac_rn {c N : Nat} (hN0 : 0 < N) (hN : N ≤ 2 ^ 53) (hc : c ≤ N) :
    0 ≤ rn ((c : ℝ) / N) ∧ rn ((c : ℝ) / N) ≤ 1 ∧ (rn ((c : ℝ) / N) = 0 ↔ c = 0) ∧
    (rn ((c : ℝ) / N) = 1 ↔ c = N) ∧ |(c : ℝ) / N - rn ((c : ℝ) / N)| ≤ (c : ℝ) / N / 2 ^ 53 := by
  have h2 : (0 : ℝ) < N := by exact_mod_cast hN0
  have hp : (0 : ℝ) ≤ (c : ℝ) / N := by positivity
  have h1 : (c : ℝ) / N ≤ 1 := by rw [div_le_one h2]; exact_mod_cast hc
  have d1 : rn (1 : ℝ) = 1 := rn_double ⟨1, 0, by decide, by decide, by simp⟩
  have e := rn_rel' (frac_normal (c := c) hN)
  have a0 : 0 ≤ rn ((c : ℝ) / N) := by have := rn_mono hp; rwa [rn_zero] at this
  have a1 : rn ((c : ℝ) / N) ≤ 1 := by have := rn_mono h1; rwa [d1] at this
  rw [abs_of_nonneg hp] at e
  refine ⟨a0, a1, ⟨?_, ?_⟩, ⟨?_, ?_⟩, e⟩
  · intro h
    rw [h, sub_zero, abs_of_nonneg hp] at e
    have : (c : ℝ) / N ≤ 0 := by linarith only [e, hp]
    have h3 : (c : ℝ) / N = 0 := le_antisymm this hp
    rcases div_eq_zero_iff.1 h3 with h | h
    · exact_mod_cast h
    · exact absurd h h2.ne'
  · rintro rfl; simp [rn_zero]
  · intro h
    by_contra hne
    have hlt : c + 1 ≤ N := by omega
    have h4 : (c : ℝ) + 1 ≤ N := by exact_mod_cast hlt
    have h3 : (N : ℝ) ≤ 2 ^ 53 := by exact_mod_cast hN
    have h5 : (c : ℝ) / N ≤ 1 - 1 / 2 ^ 53 := by
      rw [div_le_iff₀ h2]
      have : (N : ℝ) / 2 ^ 53 ≤ 1 := by rw [div_le_one (by positivity)]; exact h3
      linarith only [this, h4]
    have d2 : Double (1 - 1 / 2 ^ 53 : ℝ) := ⟨2 ^ 53 - 1, -53, by norm_num, by norm_num, by norm_num⟩
    have := rn_mono h5
    rw [rn_double d2, h] at this
    norm_num at this
  · rintro rfl; rw [div_self h2.ne', d1]

/-- C115.  After at most 2^53 unitary measurements in double precision, `GetResult(i)` is the correctly rounded
fraction of the measurements that went to bin `i`: it is in [0,1], 0 only for an empty bin, 1 only if every
measurement went there, and bins with more measurements never have smaller results. -/
theorem C115_frequencies (hA : A.IsBinary64) (n : Nat) (hn : n < 2 ^ 64) (is : List (Bool × Nat))
    (ha : UnitsAddressed n is) (hm : is.length ≤ 2 ^ 53) (h0 : is ≠ []) :
    ∃ (h : Hist (Num A)) (p : Nat → ℝ), (Hist.new n).runUnits is = .ok h ∧
      (∀ i < h.getNbins, h.getResult i = .ok (.fin (p i))) ∧
      h.getResults = .ok ((List.range h.getNbins).map (fun i => .fin (p i))) ∧
      (∀ i, p i = rn ((is.countP (fun m => m.2 == i) : ℝ) / is.length)) ∧
      (∀ i, 0 ≤ p i ∧ p i ≤ 1 ∧ (p i = 0 ↔ ∀ m ∈ is, m.2 ≠ i) ∧ (p i = 1 ↔ ∀ m ∈ is, m.2 = i)) ∧
      (∀ i j, is.countP (fun m => m.2 == i) ≤ is.countP (fun m => m.2 == j) → p i ≤ p j) ∧
      |((List.range h.getNbins).map p).sum - 1| ≤ 1 / 2 ^ 53 := by
  have hl : (CxxFloat.lit 1 : Num A) = .fin 1 := by
    rw [Num.lit_eq, Rat.cast_one]
    have := round_nat hA (n := 1) (by norm_num)
    rwa [Nat.cast_one] at this
  have hmap : is.map (unitOp (CxxFloat.lit 1 : Num A)) = (is.map (unitOp (1 : ℝ))).map (finOp (A := A)) := by
    rw [List.map_map, hl]
    refine List.map_congr_left (fun m _ => ?_)
    simp only [Function.comp, unitOp]
    split <;> rfl
  have ha1 : Addressed n (is.map (unitOp (1 : ℝ))) := (unit_addressed _ _ _).2 ha
  have ha2 := (addressed_map (A := A) n _).2 ha1
  obtain ⟨h, hh, -⟩ := hist_run ((is.map (unitOp (1 : ℝ))).map (finOp (A := A))) (Hist.new n) [] (histInv_new n hn) ha2
  have hms : measurements (is.map (unitOp (1 : ℝ))) = is.map (fun m => (m.2, (1 : ℝ))) := unit_measurements _ _
  have hlen : 0 < is.length := List.length_pos_of_ne_nil h0
  have hc : ∀ i, is.countP (fun m => m.2 == i) ≤ is.length := fun i => List.countP_le_length
  set c : Nat → Nat := fun i => is.countP (fun m => m.2 == i) with hcdef
  have hres : ∀ i < h.getNbins, h.getResult i = .ok (.fin (rn ((c i : ℝ) / is.length))) := by
    intro i hi
    have hin : inBin i (measurements (is.map (unitOp (1 : ℝ)))) = List.replicate (c i) 1 := by
      rw [hms, unit_inBin]
    rw [C115_result hA n hn _ ha1 (by rw [hms, List.length_map]; exact hm) h hh i hi
      (by
        rw [hin]; intro x hx; rw [(List.mem_replicate.1 hx).2]
        have := finDouble_nat (n := 1) (by norm_num)
        rwa [Nat.cast_one] at this)
      (by
        intro k; rw [hin, sum_replicate_take]
        refine finDouble_nat (le_trans (Nat.min_le_right _ _) ((hc i).trans hm))), hin, hms, List.length_map]
    simp
  refine ⟨h, fun i => rn ((c i : ℝ) / is.length), by rw [runUnits_eq, hmap, hh], hres,
    getResults_eq h _ hres, fun i => rfl, fun i => ?_, fun i j hij => ?_, ?_⟩
  · obtain ⟨b1, b2, b3, b4, -⟩ := frac_rn hlen hm (hc i)
    refine ⟨b1, b2, ?_, ?_⟩
    · rw [show (is.countP fun m => m.2 == i) = c i from rfl] at b3
      rw [b3, hcdef]
      simp only [List.countP_eq_zero, beq_iff_eq, ne_eq]
    · rw [show (is.countP fun m => m.2 == i) = c i from rfl] at b4
      rw [b4, hcdef]
      simp only [List.countP_eq_length, beq_iff_eq]
  · refine rn_mono ?_
    have : (c i : ℝ) ≤ c j := by exact_mod_cast hij
    gcongr
  · obtain ⟨_, h2⟩ := hist_state n hn _ ha2 h hh
    have hs : ((List.range h.getNbins).map c).sum = is.length := by
      have := sum_inBin (X := ℝ) h.getNbins (is.map (fun m => (m.2, (1 : ℝ)))) (by
        intro m hm
        rw [measurements_map, hms] at h2
        exact h2.inside (m.1, .fin m.2) (List.mem_map.2 ⟨m, hm, rfl⟩))
      rw [List.length_map] at this
      rw [← this]
      congr 1
      refine List.map_congr_left (fun i _ => ?_)
      rw [unit_inBin, List.length_replicate]
    have key : ∀ l : List Nat, |(l.map (fun i => rn ((c i : ℝ) / is.length))).sum -
        (l.map (fun i => (c i : ℝ) / is.length)).sum| ≤ (l.map (fun i => (c i : ℝ) / is.length)).sum / 2 ^ 53 := by
      intro l
      induction l with
      | nil => simp
      | cons i l ih =>
        simp only [List.map_cons, List.sum_cons]
        obtain ⟨-, -, -, -, b5⟩ := frac_rn hlen hm (hc i)
        rw [show (is.countP fun m => m.2 == i) = c i from rfl] at b5
        rw [abs_le] at ih b5 ⊢
        constructor <;> linarith only [ih.1, ih.2, b5.1, b5.2]
    have h1 : ((List.range h.getNbins).map (fun i => (c i : ℝ) / is.length)).sum = 1 := by
      rw [sum_range_cast, hs]
      refine div_self ?_
      exact_mod_cast hlen.ne'
    have := key (List.range h.getNbins)
    rw [h1] at this
    exact this

/-- The hypotheses of C115 hold for measurements in existing and new bins, in double precision. -/
example : doubleArith.IsBinary64 ∧ UnitsAddressed 2 [(false, 1), (true, 5), (false, 4), (false, 1)] := by
  refine ⟨doubleArith_isBinary64, ?_⟩
  simp [UnitsAddressed]

/-- C115.  With at most 2^53 proposals (at least one), the ratios of the move statistics in double precision are the
correctly rounded ratios of the counters: 0 only for no such move, 1 only if all the proposals were such moves. -/
theorem C115_ratios (hA : A.IsBinary64) (s : MoveStats (Num A))
    (hb : s.proposed = s.accepted + s.rejected + s.impossible + (if s.proposedflag then 1 else 0))
    (hp : s.proposed ≠ 0) (hn : s.proposed ≤ 2 ^ 53) :
    s.getAcceptedRatio = .fin (rn ((s.accepted : ℝ) / s.proposed)) ∧
    s.getRejectedRatio = .fin (rn ((s.rejected : ℝ) / s.proposed)) ∧
    s.getImpossibleRatio = .fin (rn ((s.impossible : ℝ) / s.proposed)) ∧
    (s.getAcceptedRatio = .fin 1 ↔ s.accepted = s.proposed) ∧ (s.getAcceptedRatio = .fin 0 ↔ s.accepted = 0) ∧
    (s.getRejectedRatio = .fin 1 ↔ s.rejected = s.proposed) ∧ (s.getRejectedRatio = .fin 0 ↔ s.rejected = 0) ∧
    (s.getImpossibleRatio = .fin 1 ↔ s.impossible = s.proposed) ∧
    (s.getImpossibleRatio = .fin 0 ↔ s.impossible = 0) := by
  have hpos : 0 < s.proposed := Nat.pos_of_ne_zero hp
  have q : ∀ k, k ≤ s.proposed → (CxxFloat.ofNat k : Num A) / CxxFloat.ofNat s.proposed =
      .fin (rn ((k : ℝ) / s.proposed)) := by
    intro k hk
    rw [show (CxxFloat.ofNat k : Num A) = .fin (k : ℝ) by
      rw [Num.ofNat_eq]; exact round_nat hA (hk.trans hn)]
    exact div_count hA (finDouble_nat (hk.trans hn)) hpos hn
  have ha : s.getAcceptedRatio = .fin (rn ((s.accepted : ℝ) / s.proposed)) := by
    unfold MoveStats.getAcceptedRatio; rw [if_neg hp]; exact q _ (by omega)
  have hr : s.getRejectedRatio = .fin (rn ((s.rejected : ℝ) / s.proposed)) := q _ (by omega)
  have hi : s.getImpossibleRatio = .fin (rn ((s.impossible : ℝ) / s.proposed)) := q _ (by omega)
  rw [ha, hr, hi]
  simp only [Num.fin.injEq, true_and]
  obtain ⟨-, -, a1, a2, -⟩ := frac_rn hpos hn (show s.accepted ≤ s.proposed by omega)
  obtain ⟨-, -, b1, b2, -⟩ := frac_rn hpos hn (show s.rejected ≤ s.proposed by omega)
  obtain ⟨-, -, c1, c2, -⟩ := frac_rn hpos hn (show s.impossible ≤ s.proposed by omega)
  exact ⟨a2, a1, b2, b1, c2, c1⟩

/-- The hypotheses of C115 hold after a proposal and a rejection, one more proposal pending. -/
example : ∃ s : MoveStats (Num doubleArith), s.proposed = 2 ∧ s.rejected = 1 ∧ s.proposedflag = true ∧
    s.proposed = s.accepted + s.rejected + s.impossible + (if s.proposedflag then 1 else 0) :=
  ⟨⟨"", true, 2, 0, 1, 0, Kahan.new⟩, rfl, rfl, rfl, rfl⟩

end Bwsl
