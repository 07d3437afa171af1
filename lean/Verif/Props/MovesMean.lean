import Verif.Props.StatsUnitsContracted

/-! Property C188: a new value moves the mean towards it. -/

namespace Bwsl
open Spec FloatFormat

set_option linter.unusedSectionVars false

section
variable {A : Arith ℝ} {f : FloatFormat}

theorem add_value (hA : A.IsFormat f) {u v : Num A} {x : ℝ} (h : u + v = .fin x) : InFormat f x := by
  obtain ⟨a, b, rfl, rfl⟩ := Num.add_eq_fin h
  rw [Num.fin_add] at h
  rw [(round_format hA h).1]
  exact fl_inFormat _

theorem mulAdd_value (hA : A.IsFormat f) (fused : Bool) {u v z : Num A} {x : ℝ} (h : mulAdd fused u v z = .fin x) : InFormat f x := by
  cases fused with
  | false => exact add_value hA h
  | true =>
    have h : Num.fma u v z = .fin x := h
    obtain ⟨a, b, r, rfl, rfl, rfl⟩ := fma_all_fin h
    have h : Num.round A (a * b + r) = .fin x := h
    rw [(round_format hA h).1]
    exact fl_inFormat _

/-- What every state after a call of `Add` or `Reset` satisfies. -/
theorem runOps_holds {σ X : Type} {add : σ → X → σ} {reset : σ → σ} {P : σ → Prop} (hadd : ∀ s x, P s → P (add s x))
    (hreset : ∀ s, P (reset s)) (ops : List (AccOp X)) (s : σ) (hs : P s) : P (runOps add reset s ops) := by
  induction ops generalizing s with
  | nil => exact hs
  | cons o ops ih =>
    cases o with
    | add x => exact ih _ (hadd s x hs)
    | reset => exact ih _ (hreset s)

theorem runOps_snoc {σ X : Type} {add : σ → X → σ} {reset : σ → σ} (ops : List (AccOp X)) (x : X) (s : σ) :
    runOps add reset s (ops ++ [.add x]) = add (runOps add reset s ops) x := by
  induction ops generalizing s with
  | nil => rfl
  | cons o ops ih => cases o <;> exact ih _

/-! ## KnuthWelfordAccumulator -/

/-- The mean after another value, as roundings. -/
theorem welford_mean (hA : A.IsFormat f) (fused : Bool) {s : KnuthWelford (Num A)} {x a : ℝ}
    (h : (s.addContracted fused (.fin x)).getMean = .fin a) :
    ∃ m, s.mean = .fin m ∧ (f.rn ((succU s.count : Nat) : ℝ) = 0 ∨
      a = f.rn (m + f.rn (f.rn (x - m) / f.rn ((succU s.count : Nat) : ℝ)))) := by
  have h : s.mean + (.fin x - s.mean) / CxxFloat.ofNat (succU s.count) = .fin a := h
  rw [Num.ofNat_eq, count_round hA (succU_lt _)] at h
  obtain ⟨m, q, hm, hq⟩ := Num.add_eq_fin h
  refine ⟨m, hm, ?_⟩
  by_cases h0 : f.rn ((succU s.count : Nat) : ℝ) = 0
  · exact .inl h0
  right
  obtain ⟨d, hd⟩ := div_eq_fin hq
  rw [hd, Num.fin_div h0] at hq
  rw [hm, Num.fin_sub] at hd
  rw [hm, Num.fin_sub, hd, Num.fin_div h0, hq, Num.fin_add] at h
  rw [(round_format hA h).1, (round_format hA hq).1, (round_format hA hd).1]

theorem welford_value (hA : A.IsFormat f) (fused : Bool) (ops : List (AccOp (Num A))) {m : ℝ}
    (h : (runOps (KnuthWelford.addContracted fused) KnuthWelford.reset (KnuthWelford.new : KnuthWelford (Num A)) ops).mean = .fin m) :
    InFormat f m :=
  runOps_holds (P := fun s : KnuthWelford (Num A) => ∀ m, s.mean = .fin m → InFormat f m) (fun _ _ _ _ h => add_value hA h)
    (by rintro s m ⟨⟩; exact zero_value) ops _ (by rintro m ⟨⟩; exact zero_value) m h

theorem succU_pos {n : Nat} (h : n + 1 < 2 ^ 64) : 1 ≤ succU n := by
  unfold succU
  omega

/-- C188.  After any history, a value that is not below the mean does not lower it, one that is not above it does not raise it,
and the mean itself leaves it as it is; in every format, fused or not. -/
theorem C188_welford (hA : A.IsFormat f) (fused : Bool) (ops : List (AccOp (Num A))) (x m m' : ℝ)
    (hm : (runOps (KnuthWelford.addContracted fused) KnuthWelford.reset (KnuthWelford.new : KnuthWelford (Num A)) ops).getMean = .fin m)
    (hm' : (runOps (KnuthWelford.addContracted fused) KnuthWelford.reset (KnuthWelford.new : KnuthWelford (Num A))
      (ops ++ [.add (.fin x)])).getMean = .fin m')
    (hc : (runOps (KnuthWelford.addContracted fused) KnuthWelford.reset (KnuthWelford.new : KnuthWelford (Num A)) ops).getCount + 1 < 2 ^ 64) :
    (m ≤ x → m ≤ m') ∧ (x ≤ m → m' ≤ m) ∧ (x = m → m' = m) := by
  have hf := welford_value hA fused ops hm
  rw [runOps_snoc] at hm'
  generalize runOps (KnuthWelford.addContracted fused) KnuthWelford.reset (KnuthWelford.new : KnuthWelford (Num A)) ops = s at *
  have h1 := rn_count_ge_one (f := f) (K := ℝ) (succU_pos (show s.count + 1 < 2 ^ 64 from hc))
  obtain ⟨y, hy, h2⟩ := welford_mean hA fused hm'
  have : s.mean = .fin m := hm
  rw [this] at hy
  cases hy
  rcases h2 with h2 | h2
  · linarith
  have up : m ≤ x → m ≤ m' := by
    intro h
    rw [h2]
    conv_lhs => rw [← fl_value hf]
    refine fl_mono (le_add_of_nonneg_right (fl_nonneg (div_nonneg (fl_nonneg (sub_nonneg.2 h)) (by linarith))))
  have down : x ≤ m → m' ≤ m := by
    intro h
    rw [h2]
    conv_rhs => rw [← fl_value hf]
    refine fl_mono (add_le_of_nonpos_right ?_)
    have h5 : f.rn (x - m) ≤ 0 := by
      have := fl_mono (f := f) (sub_nonpos.2 h)
      rwa [fl_zero] at this
    have := fl_mono (f := f) (div_nonpos_of_nonpos_of_nonneg h5 (show (0 : ℝ) ≤ f.rn ((succU s.count : Nat) : ℝ) by linarith))
    rwa [fl_zero] at this
  exact ⟨up, down, fun h => le_antisymm (down h.le) (up h.ge)⟩

/-- C188.  The larger the last value, the larger the mean. -/
theorem C188_welford_last (hA : A.IsFormat f) (fused : Bool) (ops : List (AccOp (Num A))) {x y a b : ℝ} (hxy : x ≤ y)
    (ha : (runOps (KnuthWelford.addContracted fused) KnuthWelford.reset (KnuthWelford.new : KnuthWelford (Num A))
      (ops ++ [.add (.fin x)])).getMean = .fin a)
    (hb : (runOps (KnuthWelford.addContracted fused) KnuthWelford.reset (KnuthWelford.new : KnuthWelford (Num A))
      (ops ++ [.add (.fin y)])).getMean = .fin b)
    (hc : (runOps (KnuthWelford.addContracted fused) KnuthWelford.reset (KnuthWelford.new : KnuthWelford (Num A)) ops).getCount + 1 < 2 ^ 64) :
    a ≤ b := by
  rw [runOps_snoc] at ha hb
  generalize runOps (KnuthWelford.addContracted fused) KnuthWelford.reset (KnuthWelford.new : KnuthWelford (Num A)) ops = s at *
  have h1 := rn_count_ge_one (f := f) (K := ℝ) (succU_pos (show s.count + 1 < 2 ^ 64 from hc))
  obtain ⟨m, hm, h2⟩ := welford_mean hA fused ha
  obtain ⟨m', hm', h3⟩ := welford_mean hA fused hb
  rw [hm] at hm'
  cases hm'
  rcases h2 with h2 | h2
  · linarith
  rcases h3 with h3 | h3
  · linarith
  rw [h2, h3]
  exact fl_mono (add_le_add_right (fl_mono (div_le_div_of_nonneg_right (fl_mono (sub_le_sub_right hxy m)) (by linarith))) m)

theorem round_zero_fin (hA : A.IsFormat f) : Num.round A (0 : ℝ) = .fin 0 := by
  rw [Num.round_of (rnd_zero hA)]

theorem mulAdd_zero_fin (hA : A.IsFormat f) (fused : Bool) (x y : ℝ) (h : x = 0 ∨ y = 0) :
    mulAdd fused (.fin x) (.fin y) (.fin 0 : Num A) = .fin 0 := by
  have hp : x * y = 0 := mul_eq_zero.2 h
  cases fused with
  | false =>
    show (.fin 0 + .fin x * .fin y : Num A) = _
    rw [Num.fin_mul, hp, round_zero_fin hA, Num.fin_add, add_zero, round_zero_fin hA]
  | true =>
    show Num.round A (x * y + 0) = _
    rw [hp, add_zero, round_zero_fin hA]

theorem welford_constant (hA : A.IsFormat f) (fused : Bool) {c : ℝ} (hc : FiniteIn f c) (n : Nat) (hn : n + 1 < 2 ^ 64) :
    (List.replicate (n + 1) (.fin c : Num A)).foldl (KnuthWelford.addContracted fused) KnuthWelford.new = ⟨.fin c, .fin 0, n + 1⟩ := by
  have hr : Num.round A c = .fin c := Num.round_of (rnd_finite hA hc)
  have step : ∀ (m : ℝ) (k : Nat), k + 1 < 2 ^ 64 → (m = c ∨ m = 0 ∧ k = 0) →
      (⟨.fin m, .fin 0, k⟩ : KnuthWelford (Num A)).addContracted fused (.fin c) = ⟨.fin c, .fin 0, k + 1⟩ := by
    intro m k hk hm
    have h1 := rn_count_ge_one (f := f) (K := ℝ) (succU_pos hk)
    have hs : succU k = k + 1 := by unfold succU; omega
    have hmean : (.fin m + (.fin c - .fin m) / CxxFloat.ofNat (succU k) : Num A) = .fin c := by
      rw [Num.ofNat_eq, count_round hA (succU_lt _), Num.fin_sub]
      rcases hm with rfl | ⟨rfl, rfl⟩
      · rw [sub_self, round_zero_fin hA, Num.fin_div (by linarith), zero_div, round_zero_fin hA, Num.fin_add, add_zero, hr]
      · rw [hs, Nat.zero_add, Nat.cast_one, fl_value one_value, sub_zero, hr, Num.fin_div one_ne_zero, div_one, hr, Num.fin_add, zero_add, hr]
    unfold KnuthWelford.addContracted
    dsimp only
    rw [hmean, hs, Num.fin_sub, Num.fin_sub, sub_self, round_zero_fin hA]
    congr 1
    rcases hm with rfl | ⟨rfl, rfl⟩
    · rw [sub_self, round_zero_fin hA, mulAdd_zero_fin hA fused 0 0 (.inl rfl)]
    · rw [sub_zero, hr, mulAdd_zero_fin hA fused c 0 (.inr rfl)]
  have e0 : (KnuthWelford.new : KnuthWelford (Num A)) = ⟨.fin 0, .fin 0, 0⟩ := rfl
  induction n with
  | zero => rw [e0]; exact step 0 0 (by norm_num) (.inr ⟨rfl, rfl⟩)
  | succ n ih =>
    rw [List.replicate_succ', List.foldl_append, ih (by omega)]
    exact step c (n + 1) hn (.inl rfl)

/-- C188.  Of equal values the mean is that value and all variances and deviations are 0, exactly, in every format, for all
numbers of values below 2^64. -/
theorem C188_constant (hA : A.IsFormat f) (hS : A.sqrt = Real.sqrt) (fused : Bool) {c : ℝ} (hc : FiniteIn f c) (n : Nat) (h2 : 2 ≤ n)
    (hn : n < 2 ^ 64) (ops : List (AccOp (Num A))) (h : sinceReset ops = List.replicate n (.fin c)) (corrected : Bool) :
    let s := runOps (KnuthWelford.addContracted fused) KnuthWelford.reset (KnuthWelford.new : KnuthWelford (Num A)) ops
    s.getMean = .fin c ∧ s.getCount = n ∧ s.scaledVariance = .fin 0 ∧ s.variance corrected = .fin 0 ∧
      s.standardDeviation corrected = .fin 0 := by
  intro s
  obtain ⟨k, rfl⟩ : ∃ k, n = k + 1 := ⟨n - 1, by omega⟩
  have e : s = ⟨.fin c, .fin 0, k + 1⟩ := by
    have e1 : s = _ := welford_contracted_ops fused ops
    rw [e1, h, welford_constant hA fused hc k hn]
  have hv : s.variance corrected = .fin 0 := by
    rw [e]
    unfold KnuthWelford.variance
    have key : ∀ j : Nat, 1 ≤ j → j < 2 ^ 64 → (.fin 0 / CxxFloat.ofNat j : Num A) = .fin 0 := by
      intro j h1 h3
      have := rn_count_ge_one (f := f) (K := ℝ) h1
      rw [Num.ofNat_eq, count_round hA h3, Num.fin_div (by linarith), zero_div, round_zero_fin hA]
    have hnot : ¬(k + 1 < 2) := by omega
    dsimp only
    rw [if_neg hnot]
    cases corrected with
    | false =>
      rw [if_neg Bool.false_ne_true]
      exact key (k + 1) (by omega) hn
    | true =>
      have hu : usub (k + 1) 1 = k := by
        unfold usub
        omega
      rw [if_pos rfl, hu]
      exact key k (by omega) (by omega)
  refine ⟨by rw [e]; rfl, by rw [e]; rfl, ?_, hv, ?_⟩
  · rw [e]
    unfold KnuthWelford.scaledVariance
    have hnot : ¬(k + 1 < 2) := by omega
    exact if_neg hnot
  · unfold KnuthWelford.standardDeviation
    rw [hv, Num.sqrt_fin le_rfl, hS, Real.sqrt_zero, round_zero_fin hA]

/-! ## WestAccumulator -/

/-- The share of a new weight is not negative. -/
theorem share_nonneg (hA : A.IsFormat f) {u : Num A} {w q : ℝ} (hu : ∀ W, u = .fin W → 0 ≤ W) (hw : 0 ≤ w)
    (h : (.fin w / (u + .fin w) : Num A) = .fin q) : 0 ≤ q := by
  generalize hs : u + .fin w = v at h
  cases v with
  | nan => cases h
  | inf n => cases h; exact le_rfl
  | fin r =>
    obtain ⟨W, w', rfl, hw'⟩ := Num.add_eq_fin hs
    cases hw'
    rw [Num.fin_add] at hs
    have hr : 0 ≤ r := by
      rw [(round_format hA hs).1]
      exact fl_nonneg (add_nonneg (hu W rfl) hw)
    by_cases h0 : r = 0
    · subst h0
      have e : (.fin w / .fin 0 : Num A) = if w = 0 then .nan else .inf (decide (w < 0)) := if_pos rfl
      rw [e] at h
      split at h <;> cases h
    · rw [Num.fin_div h0] at h
      rw [(round_format hA h).1]
      exact fl_nonneg (div_nonneg hw hr)

/-- A sum with a product, as roundings. -/
theorem mulAdd_rounded (hA : A.IsFormat f) (fused : Bool) {u v z : Num A} {a : ℝ} (h : mulAdd fused u v z = .fin a) :
    ∃ x y r, u = .fin x ∧ v = .fin y ∧ z = .fin r ∧ a = if fused then f.rn (x * y + r) else f.rn (r + f.rn (x * y)) := by
  cases fused with
  | true =>
    have h : Num.fma u v z = .fin a := h
    obtain ⟨x, y, r, rfl, rfl, rfl⟩ := fma_all_fin h
    exact ⟨x, y, r, rfl, rfl, rfl, (round_format hA (show Num.round A (x * y + r) = .fin a from h)).1⟩
  | false =>
    have h : z + u * v = .fin a := h
    obtain ⟨r, p, rfl, hp⟩ := Num.add_eq_fin h
    obtain ⟨x, y, rfl, rfl⟩ := mul_eq_fin_both hp
    rw [hp, Num.fin_add] at h
    rw [Num.fin_mul] at hp
    exact ⟨x, y, r, rfl, rfl, rfl, by rw [(round_format hA h).1, (round_format hA hp).1]; rfl⟩

theorem west_mean (hA : A.IsFormat f) (c : WestFused) {s : West (Num A)} {x w a : ℝ} (hW : ∀ W, s.sumWeights = .fin W → 0 ≤ W)
    (hw : 0 ≤ w) (h : (s.addCoreContracted c (.fin x) (.fin w)).mean = .fin a) :
    ∃ m α, s.mean = .fin m ∧ (.fin w / (s.sumWeights + .fin w) : Num A) = .fin α ∧ 0 ≤ α ∧
      a = if c.mean then f.rn (α * f.rn (x - m) + m) else f.rn (m + f.rn (α * f.rn (x - m))) := by
  have h : mulAdd c.mean (.fin w / (s.sumWeights + .fin w)) (.fin x - s.mean) s.mean = .fin a := h
  obtain ⟨α, d, m, h1, h2, h3, h4⟩ := mulAdd_rounded hA c.mean h
  rw [h3, Num.fin_sub] at h2
  refine ⟨m, α, h3, h1, share_nonneg hA hW hw h1, ?_⟩
  rw [h4, (round_format hA h2).1]

theorem west_reachable (hA : A.IsFormat f) (c : WestFused) (ops : List (AccOp (Num A × Num A))) :
    (∀ m, (runOps (West.addContracted c) West.reset (West.new : West (Num A)) ops).mean = .fin m → InFormat f m) ∧
      ∀ W, (runOps (West.addContracted c) West.reset (West.new : West (Num A)) ops).sumWeights = .fin W → 0 ≤ W := by
  refine runOps_holds (P := fun s : West (Num A) => (∀ m, s.mean = .fin m → InFormat f m) ∧ ∀ W, s.sumWeights = .fin W → 0 ≤ W)
    (fun s p hs => ?_) (fun s => ⟨by rintro m ⟨⟩; exact zero_value, by rintro m ⟨⟩; exact le_rfl⟩) ops _
    ⟨by rintro m ⟨⟩; exact zero_value, by rintro m ⟨⟩; exact le_rfl⟩
  unfold West.addContracted
  split
  · next hp =>
    refine ⟨fun m h => mulAdd_value hA c.mean h, fun W h => ?_⟩
    have h : s.sumWeights + p.2 = .fin W := h
    obtain ⟨W', w, h1, h2⟩ := Num.add_eq_fin h
    rw [h2, Num.zero_eq, Num.lt_fin, decide_eq_true_iff] at hp
    rw [h1, h2, Num.fin_add] at h
    rw [(round_format hA h).1]
    exact fl_nonneg (add_nonneg (hs.2 W' h1) hp.le)
  · exact hs

/-- C188.  The same for the weighted mean of `WestAccumulator`, for all weights and whatever is fused. -/
theorem C188_west (hA : A.IsFormat f) (c : WestFused) (ops : List (AccOp (Num A × Num A))) (x w m m' : ℝ)
    (hm : (runOps (West.addContracted c) West.reset (West.new : West (Num A)) ops).getMean = .fin m)
    (hm' : (runOps (West.addContracted c) West.reset (West.new : West (Num A)) (ops ++ [.add (.fin x, .fin w)])).getMean = .fin m') :
    (m ≤ x → m ≤ m') ∧ (x ≤ m → m' ≤ m) ∧ (x = m → m' = m) := by
  obtain ⟨hf, hW⟩ := west_reachable hA c ops
  rw [runOps_snoc] at hm'
  generalize runOps (West.addContracted c) West.reset (West.new : West (Num A)) ops = s at *
  have hm : s.mean = .fin m := hm
  have hf := hf m hm
  unfold West.addContracted at hm'
  split at hm'
  swap
  · have hm' : s.mean = .fin m' := hm'
    rw [hm] at hm'
    cases hm'
    exact ⟨fun _ => le_rfl, fun _ => le_rfl, fun _ => rfl⟩
  next hp =>
  have hp : CxxFloat.lt (CxxFloat.zero : Num A) (.fin w) = true := hp
  rw [Num.zero_eq, Num.lt_fin, decide_eq_true_iff] at hp
  obtain ⟨y, α, hy, -, hα, h2⟩ := west_mean hA c hW hp.le hm'
  rw [hm] at hy
  cases hy
  have up : m ≤ x → m ≤ m' := by
    intro h
    have h3 : 0 ≤ α * f.rn (x - m) := mul_nonneg hα (fl_nonneg (sub_nonneg.2 h))
    rw [h2]
    conv_lhs => rw [← fl_value hf]
    split
    · exact fl_mono (le_add_of_nonneg_left h3)
    · exact fl_mono (le_add_of_nonneg_right (fl_nonneg h3))
  have down : x ≤ m → m' ≤ m := by
    intro h
    have h3 : α * f.rn (x - m) ≤ 0 := by
      have := fl_mono (f := f) (sub_nonpos.2 h)
      rw [fl_zero] at this
      exact mul_nonpos_of_nonneg_of_nonpos hα this
    rw [h2]
    conv_rhs => rw [← fl_value hf]
    split
    · exact fl_mono (add_le_of_nonpos_left h3)
    · have := fl_mono (f := f) h3
      rw [fl_zero] at this
      exact fl_mono (add_le_of_nonpos_right this)
  exact ⟨up, down, fun h => le_antisymm (down h.le) (up h.ge)⟩

/-- C188.  The larger the last value, the larger the weighted mean. -/
theorem C188_west_last (hA : A.IsFormat f) (c : WestFused) (ops : List (AccOp (Num A × Num A))) {x y w a b : ℝ} (hxy : x ≤ y)
    (ha : (runOps (West.addContracted c) West.reset (West.new : West (Num A)) (ops ++ [.add (.fin x, .fin w)])).getMean = .fin a)
    (hb : (runOps (West.addContracted c) West.reset (West.new : West (Num A)) (ops ++ [.add (.fin y, .fin w)])).getMean = .fin b) :
    a ≤ b := by
  obtain ⟨-, hW⟩ := west_reachable hA c ops
  rw [runOps_snoc] at ha hb
  generalize runOps (West.addContracted c) West.reset (West.new : West (Num A)) ops = s at *
  unfold West.addContracted at ha hb
  split at ha
  swap
  · next hp =>
    rw [if_neg hp, ha] at hb
    cases hb
    exact le_rfl
  next hp =>
  rw [if_pos hp] at hb
  have hp : CxxFloat.lt (CxxFloat.zero : Num A) (.fin w) = true := hp
  rw [Num.zero_eq, Num.lt_fin, decide_eq_true_iff] at hp
  obtain ⟨m, α, hm, hq, hα, h2⟩ := west_mean hA c hW hp.le ha
  obtain ⟨m', α', hm', hq', -, h3⟩ := west_mean hA c hW hp.le hb
  rw [hm] at hm'
  rw [hq] at hq'
  cases hm'
  cases hq'
  have h4 : α * f.rn (x - m) ≤ α * f.rn (y - m) := mul_le_mul_of_nonneg_left (fl_mono (sub_le_sub_right hxy m)) hα
  rw [h2, h3]
  split
  · exact fl_mono (add_le_add_left h4 m)
  · exact fl_mono (add_le_add_right (fl_mono h4) m)

/-! ## KahanAccumulator -/

/-- C188.  The larger the last value, the larger the sum and the mean of a `KahanAccumulator`. -/
theorem C188_kahan_last (hA : A.IsFormat f) (ops : List (AccOp (Num A))) {x y a b : ℝ} (hxy : x ≤ y)
    (ha : (runOps Kahan.addCore Kahan.reset (Kahan.new : Kahan (Num A)) (ops ++ [.add (.fin x)])).getSum = .fin a)
    (hb : (runOps Kahan.addCore Kahan.reset (Kahan.new : Kahan (Num A)) (ops ++ [.add (.fin y)])).getSum = .fin b) : a ≤ b := by
  rw [runOps_snoc] at ha hb
  generalize runOps Kahan.addCore Kahan.reset (Kahan.new : Kahan (Num A)) ops = s at *
  have ha : s.sum + (.fin x - s.c) = .fin a := ha
  have hb : s.sum + (.fin y - s.c) = .fin b := hb
  obtain ⟨S, d, hS, hd⟩ := Num.add_eq_fin ha
  obtain ⟨S', d', hS', hd'⟩ := Num.add_eq_fin hb
  obtain ⟨x', c, hx, hc⟩ := sub_eq_fin hd
  rw [hS, hd, Num.fin_add] at ha
  rw [hS, hd', Num.fin_add] at hb
  rw [hc, Num.fin_sub] at hd hd'
  rw [(round_format hA ha).1, (round_format hA hb).1, (round_format hA hd).1, (round_format hA hd').1]
  exact fl_mono (add_le_add_right (fl_mono (sub_le_sub_right hxy c)) S)

/-! ## Examples -/

/-- The first value of all: 3 after nothing, mean 0. -/
example (hA : A.IsFormat .double) (fused : Bool) :
    (runOps (KnuthWelford.addContracted fused) KnuthWelford.reset (KnuthWelford.new : KnuthWelford (Num A)) []).getMean = .fin 0 ∧
    (runOps (KnuthWelford.addContracted fused) KnuthWelford.reset (KnuthWelford.new : KnuthWelford (Num A))
      ([] ++ [.add (.fin 3)])).getMean = .fin 3 := by
  refine ⟨rfl, ?_⟩
  have := welford_constant (A := A) hA fused (c := 3) (by exact_mod_cast int_finite (f := .double) (K := ℝ) (n := 3) (by decide)) 0 (by norm_num)
  show (List.foldl (KnuthWelford.addContracted fused) KnuthWelford.new (List.replicate (0 + 1) (.fin 3 : Num A))).mean = _
  rw [this]

/-- A thousand times 0.1 (as a double). -/
example : FiniteIn .double (FloatFormat.rn .double (1 / 10 : ℝ)) := by
  refine ⟨fl_inFormat _, ?_⟩
  rw [abs_of_nonneg (fl_nonneg (by norm_num))]
  have := fl_mono (f := .double) (show (1 / 10 : ℝ) ≤ 1 by norm_num)
  rw [fl_value one_value] at this
  exact this.trans_lt (one_lt_zpow₀ one_lt_two (by decide))

end
end Bwsl
