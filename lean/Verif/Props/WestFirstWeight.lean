import Verif.Props.ScaledVarianceGrows

/-! Property C198: weighted means and variances if no weight is larger than the first. -/

namespace Bwsl
open Spec FloatFormat

set_option linter.unusedSectionVars false

section
variable {A : Arith ℝ} {f : FloatFormat}

/-- A share of at most one half of a rounded distance is not larger than the distance. -/
theorem half_le {d α : ℝ} (hd : Mult f.emin d) (h0 : 0 ≤ d) (hα' : α ≤ 1 / 2) :
    α * f.rn d ≤ d ∧ f.rn (α * f.rn d) ≤ d := by
  rcases h0.eq_or_lt with rfl | h0
  · rw [fl_zero, mul_zero, fl_zero]; exact ⟨le_rfl, le_rfl⟩
  have hk1 := Int.zpow_log_le_self (R := ℝ) (b := 2) (by norm_num) h0
  have hk2 := Int.lt_zpow_succ_log_self (R := ℝ) (b := 2) (by norm_num) d
  push_cast at hk1 hk2
  generalize Int.log 2 d = k at hk1 hk2
  have hk : f.emin ≤ k := by
    obtain ⟨m, rfl⟩ := hd
    have hp := two_zpow_pos (K := ℝ) f.emin
    have hm : (0 : ℝ) < m := (mul_pos_iff_of_pos_right hp).1 h0
    have hm' : (1 : ℝ) ≤ m := by
      have : 0 < m := by exact_mod_cast hm
      exact_mod_cast this
    have : (2 : ℝ) ^ f.emin < (2 : ℝ) ^ (k + 1) := lt_of_le_of_lt (by nlinarith) hk2
    have := (zpow_lt_zpow_iff_right₀ (one_lt_two (α := ℝ))).1 this
    omega
  have h1 : f.rn d ≤ (2 : ℝ) ^ (k + 1) := by
    have := fl_mono (f := f) hk2.le
    rwa [fl_value (two_zpow_value (by omega))] at this
  have h2 : α * f.rn d ≤ (2 : ℝ) ^ k := by
    rw [zpow_add_one₀ two_ne_zero] at h1
    have h3 := mul_le_mul hα' h1 (fl_nonneg h0.le) (by norm_num)
    linarith
  have h3 := fl_mono (f := f) h2
  rw [fl_value (two_zpow_value hk)] at h3
  exact ⟨h2.trans hk1, h3.trans hk1⟩

/-- With a share of at most one half the new mean is between the old one and the new value. -/
theorem mean_between {m x α : ℝ} (hm : InFormat f m) (hx : InFormat f x) (hα : 0 ≤ α) (hα' : α ≤ 1 / 2) (b : Bool) :
    (m ≤ x → m ≤ (if b then f.rn (α * f.rn (x - m) + m) else f.rn (m + f.rn (α * f.rn (x - m)))) ∧
      (if b then f.rn (α * f.rn (x - m) + m) else f.rn (m + f.rn (α * f.rn (x - m)))) ≤ x) ∧
    (x ≤ m → x ≤ (if b then f.rn (α * f.rn (x - m) + m) else f.rn (m + f.rn (α * f.rn (x - m)))) ∧
      (if b then f.rn (α * f.rn (x - m) + m) else f.rn (m + f.rn (α * f.rn (x - m)))) ≤ m) := by
  have up : ∀ {m x : ℝ}, InFormat f m → InFormat f x → m ≤ x →
      m ≤ (if b then f.rn (α * f.rn (x - m) + m) else f.rn (m + f.rn (α * f.rn (x - m)))) ∧
      (if b then f.rn (α * f.rn (x - m) + m) else f.rn (m + f.rn (α * f.rn (x - m)))) ≤ x := fun {m x} hm hx h => by
    obtain ⟨h1, h2⟩ := half_le (f := f) ((value_mult hx).sub (value_mult hm)) (sub_nonneg.2 h) hα'
    have h3 : 0 ≤ α * f.rn (x - m) := mul_nonneg hα (fl_nonneg (sub_nonneg.2 h))
    have lo : ∀ y, m ≤ y → m ≤ f.rn y := fun y h => by
      have := fl_mono (f := f) h
      rwa [fl_value hm] at this
    have hi : ∀ y, y ≤ x → f.rn y ≤ x := fun y h => by
      have := fl_mono (f := f) h
      rwa [fl_value hx] at this
    split
    · exact ⟨lo _ (by linarith), hi _ (by linarith)⟩
    · have := fl_nonneg (f := f) h3
      exact ⟨lo _ (by linarith), hi _ (by linarith)⟩
  refine ⟨up hm hx, fun h => ?_⟩
  have := up (neg_value hm) (neg_value hx) (neg_le_neg h)
  have e : (if b then f.rn (α * f.rn (-x - -m) + -m) else f.rn (-m + f.rn (α * f.rn (-x - -m)))) =
      -(if b then f.rn (α * f.rn (x - m) + m) else f.rn (m + f.rn (α * f.rn (x - m)))) := by
    rw [show -x - -m = -(x - m) by ring, fl_neg, mul_neg, fl_neg, ← neg_add, ← neg_add, fl_neg, fl_neg]
    split <;> rfl
  rw [e] at this
  exact ⟨by linarith [this.2], by linarith [this.1]⟩

theorem twice_value {w : ℝ} (h : InFormat f w) : InFormat f (2 * w) := by
  obtain ⟨n, e, hn, he, rfl⟩ := h
  exact ⟨n, e + 1, hn, by omega, by rw [zpow_add_one₀ two_ne_zero]; ring⟩

/-- The share of a weight that is not larger than the weights before is at most one half. -/
theorem share_half (hA : A.IsFormat f) {u : Num A} {w q : ℝ} (hu : ∀ W, u = .fin W → w ≤ W) (hw : 0 < w) (hf : InFormat f w)
    (h : (.fin w / (u + .fin w) : Num A) = .fin q) : 0 ≤ q ∧ q ≤ 1 / 2 := by
  refine ⟨share_nonneg hA (fun W h => hw.le.trans (hu W h)) hw.le h, ?_⟩
  generalize hs : u + .fin w = v at h
  cases v with
  | nan => cases h
  | inf n => cases h; norm_num
  | fin r =>
    obtain ⟨W, w', rfl, hw'⟩ := Num.add_eq_fin hs
    cases hw'
    rw [Num.fin_add] at hs
    have hr : 2 * w ≤ r := by
      rw [(round_format hA hs).1]
      have := fl_mono (f := f) (show 2 * w ≤ W + w by linarith [hu W rfl])
      rwa [fl_value (twice_value hf)] at this
    rw [Num.fin_div (by linarith)] at h
    rw [(round_format hA h).1]
    have h1 : w / r ≤ 1 / 2 := by
      rw [div_le_iff₀ (by linarith)]
      linarith
    have := fl_mono (f := f) h1
    have e : f.rn (1 / 2 : ℝ) = 1 / 2 := by
      have := fl_value (two_zpow_value (f := f) (K := ℝ) (e := -1) (by have := f.emin_le; have := f.prec_ge; omega))
      rwa [show (2 : ℝ) ^ (-1 : Int) = 1 / 2 by norm_num] at this
    rwa [e] at this

/-- What holds from the first weight `w0` on. -/
def WestCalm (f : FloatFormat) (w0 lo hi : ℝ) (s : West (Num A)) : Prop :=
  (∀ W, s.sumWeights = .fin W → w0 ≤ W) ∧ (∀ m, s.mean = .fin m → InFormat f m ∧ lo ≤ m ∧ m ≤ hi) ∧
    ∀ v, s.m2 = .fin v → InFormat f v ∧ 0 ≤ v

/-- A step towards a value whose new mean is on the same side adds nothing negative. -/
theorem deviations_step (hA : A.IsFormat f) (b : Bool) {x w m a v' : ℝ} {z : Num A} (hw : 0 < w) (hz : ∀ v, z = .fin v → InFormat f v ∧ 0 ≤ v)
    (h1 : m ≤ x → a ≤ x) (h2 : x ≤ m → x ≤ a)
    (h : mulAdd b (.fin w * (.fin x - .fin m)) (.fin x - .fin a) z = .fin v') : InFormat f v' ∧ 0 ≤ v' := by
  refine ⟨mulAdd_value hA b h, ?_⟩
  obtain ⟨p, q, r, e1, e2, e3, e4⟩ := mulAdd_rounded hA b h
  obtain ⟨-, d, -, hd⟩ := mul_eq_fin_both e1
  rw [hd, Num.fin_mul] at e1
  rw [Num.fin_sub] at hd e2
  obtain ⟨rfl, -⟩ := round_format hA hd
  obtain ⟨rfl, -⟩ := round_format hA e2
  obtain ⟨rfl, -⟩ := round_format hA e1
  have nonpos : ∀ {y : ℝ}, y ≤ 0 → f.rn y ≤ 0 := fun {y} h => by
    have := fl_mono (f := f) h
    rwa [fl_zero] at this
  have hp : 0 ≤ f.rn (w * f.rn (x - m)) * f.rn (x - a) := by
    rcases le_total m x with h | h
    · exact mul_nonneg (fl_nonneg (mul_nonneg hw.le (fl_nonneg (sub_nonneg.2 h)))) (fl_nonneg (sub_nonneg.2 (h1 h)))
    · exact mul_nonneg_of_nonpos_of_nonpos (nonpos (mul_nonpos_of_nonneg_of_nonpos hw.le (nonpos (sub_nonpos.2 h))))
        (nonpos (sub_nonpos.2 (h2 h)))
  have hr := (hz r e3).2
  rw [e4]
  split
  · exact fl_nonneg (by linarith)
  · exact fl_nonneg (add_nonneg hr (fl_nonneg hp))

theorem calm_step (hA : A.IsFormat f) (c : WestFused) {w0 lo hi x w : ℝ} (h0 : 0 < w0) {s : West (Num A)} (hs : WestCalm f w0 lo hi s)
    (hf0 : InFormat f w0) (hx : 0 < w → InFormat f x ∧ lo ≤ x ∧ x ≤ hi ∧ InFormat f w ∧ w ≤ w0) :
    WestCalm f w0 lo hi (s.addContracted c (.fin x, .fin w)) := by
  unfold West.addContracted
  split
  swap
  · exact hs
  next hp =>
  have hp : CxxFloat.lt (CxxFloat.zero : Num A) (.fin w) = true := hp
  rw [Num.zero_eq, Num.lt_fin, decide_eq_true_iff] at hp
  obtain ⟨hxf, hlo, hhi, hwf, hle⟩ := hx hp
  obtain ⟨hW, hM, hV⟩ := hs
  have hW0 : ∀ W, s.sumWeights = .fin W → 0 ≤ W := fun W h => h0.le.trans (hW W h)
  have hmean : ∀ a, (s.addCoreContracted c (.fin x) (.fin w)).mean = .fin a →
      ∃ m, s.mean = .fin m ∧ (m ≤ x → m ≤ a ∧ a ≤ x) ∧ (x ≤ m → x ≤ a ∧ a ≤ m) := fun a h => by
    obtain ⟨m, α, hm, hα, -, rfl⟩ := west_mean hA c hW0 hp.le h
    obtain ⟨h1, h2⟩ := share_half hA (fun W h => hle.trans (hW W h)) hp hwf hα
    exact ⟨m, hm, mean_between (hM m hm).1 hxf h1 h2 c.mean⟩
  refine ⟨fun W h => ?_, fun a h => ?_, fun v h => ?_⟩
  · have h : s.sumWeights + .fin w = .fin W := h
    obtain ⟨W', w', h1, h2⟩ := Num.add_eq_fin h
    rw [h1, Num.fin_add] at h
    rw [(round_format hA h).1]
    have := fl_mono (f := f) (show w0 ≤ W' + w by linarith [hW W' h1])
    rwa [fl_value hf0] at this
  · obtain ⟨m, hm, h1, h2⟩ := hmean a h
    obtain ⟨-, m1, m2⟩ := hM m hm
    refine ⟨mulAdd_value hA c.mean h, ?_⟩
    rcases le_total m x with h | h
    · exact ⟨m1.trans (h1 h).1, (h1 h).2.trans hhi⟩
    · exact ⟨hlo.trans (h2 h).1, (h2 h).2.trans m2⟩
  · have h : mulAdd c.deviations (.fin w * (.fin x - s.mean)) (.fin x - (s.addCoreContracted c (.fin x) (.fin w)).mean) s.m2 = .fin v := h
    obtain ⟨-, q, -, -, e2, -⟩ := mulAdd_rounded hA c.deviations h
    obtain ⟨x1, a, hx1, ha⟩ := sub_eq_fin e2
    obtain ⟨m, hm, h1, h2⟩ := hmean a ha
    rw [ha, hm] at h
    exact deviations_step hA c.deviations hp hV (fun h => (h1 h).2) (fun h => (h2 h).1) h

theorem calm_first (hA : A.IsFormat f) (c : WestFused) {w0 lo hi x : ℝ} (h0 : 0 < w0) (hf0 : FiniteIn f w0) (hx : InFormat f x)
    (hlo : lo ≤ x) (hhi : x ≤ hi) : WestCalm f w0 lo hi ((West.new : West (Num A)).addContracted c (.fin x, .fin w0)) := by
  have hp : CxxFloat.lt (CxxFloat.zero : Num A) (.fin w0) = true := by rw [Num.zero_eq, Num.lt_fin, decide_eq_true_iff]; exact h0
  unfold West.addContracted
  rw [if_pos hp]
  have hsum : ((.fin 0 : Num A) + .fin w0) = .fin w0 := by
    rw [Num.fin_add, zero_add]; exact Num.round_of (rnd_finite hA hf0)
  have hmean : ∀ a, ((West.new : West (Num A)).addCoreContracted c (.fin x) (.fin w0)).mean = .fin a → a = x := fun a h => by
    obtain ⟨m, α, hm, hα, -, h2⟩ := west_mean hA c (by rintro W ⟨⟩; exact le_rfl) h0.le h
    have hm : (.fin 0 : Num A) = .fin m := hm
    cases hm
    have hα : (.fin w0 / (.fin 0 + .fin w0) : Num A) = .fin α := hα
    rw [hsum, Num.fin_div h0.ne', div_self h0.ne'] at hα
    have hα := (round_format hA hα).1
    rw [fl_value one_value] at hα
    rw [h2, hα, sub_zero, fl_value hx, one_mul, fl_value hx, add_zero, zero_add, fl_value hx, ite_self]
  refine ⟨fun W h => ?_, fun a h => ?_, fun v h => ?_⟩
  · have h : ((.fin 0 : Num A) + .fin w0) = .fin W := h
    rw [hsum] at h
    cases h
    exact le_rfl
  · obtain rfl := hmean a h
    exact ⟨hx, hlo, hhi⟩
  · have h : mulAdd c.deviations (.fin w0 * (.fin x - .fin 0)) (.fin x - ((West.new : West (Num A)).addCoreContracted c (.fin x) (.fin w0)).mean)
      (.fin 0) = .fin v := h
    obtain ⟨-, q, -, -, e2, -⟩ := mulAdd_rounded hA c.deviations h
    obtain ⟨x1, a, hx1, ha⟩ := sub_eq_fin e2
    obtain rfl := hmean a ha
    rw [ha] at h
    exact deviations_step hA c.deviations h0 (by rintro v ⟨⟩; exact ⟨zero_value, le_rfl⟩) (fun _ => le_rfl) (fun _ => le_rfl) h

theorem calm_history (hA : A.IsFormat f) (c : WestFused) (ops : List (AccOp (Num A × Num A))) (x0 w0 : ℝ) (ps : List (ℝ × ℝ))
    (hops : sinceReset ops = ((x0, w0) :: ps).map (fun p => (.fin p.1, .fin p.2))) (lo hi : ℝ)
    (h0 : 0 < w0) (hw0 : FiniteIn f w0) (hx0 : InFormat f x0 ∧ lo ≤ x0 ∧ x0 ≤ hi)
    (hps : ∀ p ∈ ps, 0 < p.2 → InFormat f p.1 ∧ lo ≤ p.1 ∧ p.1 ≤ hi ∧ InFormat f p.2 ∧ p.2 ≤ w0) (s : West (Num A))
    (hs : s = runOps (West.addContracted c) West.reset West.new ops) :
    WestCalm f w0 lo hi s := by
  have key : ∀ (ps : List (ℝ × ℝ)) (t : West (Num A)), WestCalm f w0 lo hi t →
      (∀ p ∈ ps, 0 < p.2 → InFormat f p.1 ∧ lo ≤ p.1 ∧ p.1 ≤ hi ∧ InFormat f p.2 ∧ p.2 ≤ w0) →
      WestCalm f w0 lo hi ((ps.map (fun p => ((.fin p.1, .fin p.2) : Num A × Num A))).foldl (West.addContracted c) t) := by
    intro ps
    induction ps with
    | nil => intro t ht _; exact ht
    | cons p ps ih =>
      intro t ht h
      exact ih _ (calm_step hA c h0 ht hw0.1 (h p (List.mem_cons_self ..))) (fun q hq => h q (List.mem_cons_of_mem _ hq))
  rw [hs, runOps_fresh (add := West.addContracted c) (reset := West.reset) (fresh := (West.new : West (Num A))) (fun _ => rfl), hops]
  exact key ps _ (calm_first hA c h0 hw0 hx0.1 hx0.2.1 hx0.2.2) hps

/-- C198.  If no weight is larger than the first one, the mean is between the smallest and the largest value and the population
variance is not negative; for all formats and whatever is fused. -/
theorem C198_range (hA : A.IsFormat f) (c : WestFused) (ops : List (AccOp (Num A × Num A))) (x0 w0 : ℝ) (ps : List (ℝ × ℝ))
    (hops : sinceReset ops = ((x0, w0) :: ps).map (fun p => (.fin p.1, .fin p.2))) (lo hi : ℝ)
    (h0 : 0 < w0) (hw0 : FiniteIn f w0) (hx0 : InFormat f x0 ∧ lo ≤ x0 ∧ x0 ≤ hi)
    (hps : ∀ p ∈ ps, 0 < p.2 → InFormat f p.1 ∧ lo ≤ p.1 ∧ p.1 ≤ hi ∧ InFormat f p.2 ∧ p.2 ≤ w0) (s : West (Num A))
    (hs : s = runOps (West.addContracted c) West.reset West.new ops) :
    (∀ μ, s.getMean = .fin μ → lo ≤ μ ∧ μ ≤ hi) ∧ ∀ v, s.populationVariance = .fin v → 0 ≤ v := by
  obtain ⟨hW, hM, hV⟩ := calm_history hA c ops x0 w0 ps hops lo hi h0 hw0 hx0 hps s hs
  refine ⟨fun μ h => (hM μ h).2, fun v h => ?_⟩
  unfold West.populationVariance at h
  split at h
  · cases h
  cases hsw : s.sumWeights with
  | nan => rw [hsw] at h; cases hm : s.m2 <;> rw [hm] at h <;> cases h
  | inf n =>
    rw [hsw] at h
    cases hm : s.m2 with
    | nan => rw [hm] at h; cases h
    | inf n => rw [hm] at h; cases h
    | fin v2 => rw [hm] at h; cases h; exact le_rfl
  | fin W =>
    rw [hsw] at h
    obtain ⟨v2, hm⟩ := div_eq_fin h
    have hW := hW W hsw
    rw [hm, Num.fin_div (by linarith)] at h
    rw [(round_format hA h).1]
    exact fl_nonneg (div_nonneg (hV v2 hm).2 (by linarith))

/-- C198.  The sample variance for weights that are frequencies is not negative either, if the first weight is at least 1. -/
theorem C198_frequency (hA : A.IsFormat f) (c : WestFused) (ops : List (AccOp (Num A × Num A))) (x0 w0 : ℝ) (ps : List (ℝ × ℝ))
    (hops : sinceReset ops = ((x0, w0) :: ps).map (fun p => (.fin p.1, .fin p.2))) (lo hi : ℝ)
    (h0 : 1 ≤ w0) (hw0 : FiniteIn f w0) (hx0 : InFormat f x0 ∧ lo ≤ x0 ∧ x0 ≤ hi)
    (hps : ∀ p ∈ ps, 0 < p.2 → InFormat f p.1 ∧ lo ≤ p.1 ∧ p.1 ≤ hi ∧ InFormat f p.2 ∧ p.2 ≤ w0) (s : West (Num A))
    (hs : s = runOps (West.addContracted c) West.reset West.new ops) :
    ∀ v, s.sampleFrequencyVariance = .fin v → 0 ≤ v := by
  obtain ⟨hW, -, hV⟩ := calm_history hA c ops x0 w0 ps hops lo hi (by linarith) hw0 hx0 hps s hs
  intro v h
  unfold West.sampleFrequencyVariance at h
  split at h
  · cases h
  generalize hd : s.sumWeights - CxxFloat.ofInt 1 = d at h
  cases d with
  | nan => cases hm : s.m2 <;> rw [hm] at h <;> cases h
  | inf n =>
    cases hm : s.m2 with
    | nan => rw [hm] at h; cases h
    | inf n => rw [hm] at h; cases h
    | fin v2 => rw [hm] at h; cases h; exact le_rfl
  | fin r =>
    obtain ⟨W, y, h1, h2⟩ := sub_eq_fin hd
    have hy : y = 1 := by
      rw [Num.ofInt_eq] at h2
      have := (round_format hA h2).1
      rwa [Int.cast_one, fl_value one_value] at this
    rw [h1, h2, hy, Num.fin_sub] at hd
    have hr : 0 ≤ r := by
      rw [(round_format hA hd).1]
      exact fl_nonneg (by linarith [hW W h1])
    obtain ⟨v2, hm⟩ := div_eq_fin h
    rw [hm] at h
    by_cases hr0 : r = 0
    · subst hr0
      have e : (.fin v2 / .fin 0 : Num A) = if v2 = 0 then .nan else .inf (decide (v2 < 0)) := if_pos rfl
      rw [e] at h
      split at h <;> cases h
    · rw [Num.fin_div hr0] at h
      rw [(round_format hA h).1]
      exact fl_nonneg (div_nonneg (hV v2 hm).2 hr)

/-- C198.  In particular with equal weights. -/
theorem C198_equal (hA : A.IsFormat f) (c : WestFused) (ops : List (AccOp (Num A × Num A))) (w : ℝ) (xs : List ℝ) (hne : xs ≠ [])
    (hops : sinceReset ops = xs.map (fun x => (.fin x, .fin w))) (lo hi : ℝ) (h0 : 0 < w) (hw : FiniteIn f w)
    (hx : ∀ x ∈ xs, InFormat f x ∧ lo ≤ x ∧ x ≤ hi) (s : West (Num A))
    (hs : s = runOps (West.addContracted c) West.reset West.new ops) :
    (∀ μ, s.getMean = .fin μ → lo ≤ μ ∧ μ ≤ hi) ∧ ∀ v, s.populationVariance = .fin v → 0 ≤ v := by
  cases xs with
  | nil => exact absurd rfl hne
  | cons x xs =>
    refine C198_range hA c ops x w (xs.map (fun x => (x, w))) (by rw [hops, List.map_cons, List.map_cons, List.map_map]; rfl) lo hi h0 hw (hx x (List.mem_cons_self ..)) ?_ s hs
    intro p hp _
    obtain ⟨y, hy, rfl⟩ := List.mem_map.1 hp
    obtain ⟨h1, h2, h3⟩ := hx y (List.mem_cons_of_mem _ hy)
    exact ⟨h1, h2, h3, hw.1, le_rfl⟩

/-! ### The hypotheses are met -/

/-- Weights 2, 1 and 2 of the values 1, 3 and -5. -/
example (hA : A.IsFormat .double) (c : WestFused) :
    (∀ μ, (runOps (West.addContracted c) West.reset (West.new : West (Num A))
      [.add (.fin 7, .fin 9), .reset, .add (.fin 1, .fin 2), .add (.fin 3, .fin 1), .add (.fin (-5), .fin 2)]).getMean = .fin μ →
        -5 ≤ μ ∧ μ ≤ 3) := by
  have v : ∀ n : Int, |n| ≤ 2 ^ 10 → InFormat FloatFormat.double (n : ℝ) := fun n hn => int_value (hn.trans (by norm_num [FloatFormat.double]))
  have v1 := v 1 (by norm_num)
  have v2 := v 2 (by norm_num)
  have v3 := v 3 (by norm_num)
  have v5 := v (-5) (by norm_num)
  push_cast at v1 v2 v3 v5
  have f2 : FiniteIn FloatFormat.double (2 : ℝ) := ⟨v2, by
    rw [abs_of_pos two_pos]
    calc (2 : ℝ) = 2 ^ (1 : Int) := by norm_num
      _ < _ := zpow_lt_zpow_right₀ one_lt_two (by norm_num [FloatFormat.double])⟩
  refine (C198_range hA c _ 1 2 [(3, 1), (-5, 2)] rfl (-5) 3 two_pos f2 ⟨v1, by norm_num, by norm_num⟩ ?_ _ rfl).1
  intro p hp _
  simp only [List.mem_cons, List.not_mem_nil, or_false] at hp
  rcases hp with rfl | rfl
  · exact ⟨v3, by norm_num, le_rfl, v1, by norm_num⟩
  · exact ⟨v5, le_rfl, by norm_num, v2, le_rfl⟩

end
end Bwsl
