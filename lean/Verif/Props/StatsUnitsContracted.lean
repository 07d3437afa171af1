import Verif.Props.ScaledSk
import Verif.Props.ScaledStats
import Verif.Props.WestDouble

/-! Property C187: statistics of values in other units, with fused products. -/

namespace Bwsl
open Spec FloatFormat

set_option linter.unusedSectionVars false

section
variable {A : Arith ℝ} {f : FloatFormat}

/-- What is rounded when `x * y` is added to `z` does not underflow: the product, or with a fused operation the sum. -/
def Spec.StepQuiet (f : FloatFormat) (fused : Bool) (x y z : ℝ) : Prop := NoUnderflow f (if fused then x * y + z else x * y)

theorem scaledTo_step (hA : A.IsFormat f) (fused : Bool) {k j m : Nat} (hm : k + j = m) {u u' v v' d d' : Num A}
    (h : ScaledTo f k u v) (h' : ScaledTo f j u' v') (hd : ScaledTo f m d d')
    (hn : ∀ x y z, u = .fin x → u' = .fin y → d = .fin z → StepQuiet f fused x y z) :
    ScaledTo f m (mulAdd fused u u' d) (mulAdd fused v v' d') := by
  intro y hy
  cases fused with
  | true =>
    have hy : Num.fma v v' d' = .fin y := hy
    obtain ⟨a, b, r, rfl, rfl, rfl⟩ := fma_all_fin hy
    obtain ⟨x, hx, rfl, rfl⟩ := h a rfl
    obtain ⟨z, hz, rfl, rfl⟩ := h' b rfl
    obtain ⟨q, hq, rfl, rfl⟩ := hd r rfl
    have e : (2 : ℝ) ^ k * x * (2 ^ j * z) + 2 ^ m * q = 2 ^ m * (x * z + q) := by rw [← hm, pow_add]; ring
    have hy : Num.round A ((2 : ℝ) ^ k * x * (2 ^ j * z) + 2 ^ m * q) = .fin y := hy
    rw [e] at hy
    exact scaledTo_round hA m (hn x z q rfl rfl rfl) y hy
  | false =>
    have hy : d' + v * v' = .fin y := hy
    obtain ⟨r, b, rfl, -⟩ := Num.add_eq_fin hy
    obtain ⟨q, hq, rfl, rfl⟩ := hd r rfl
    have hp := scaledTo_prod hA h h' fun x y hx hy => hn x y q hx hy rfl
    rw [hm] at hp
    exact scaledTo_add hA hd hp y hy

/-! ## KnuthWelfordAccumulator -/

/-- Nothing underflows when the values `xs` are added one after the other. -/
def Spec.WelfordCalm (f : FloatFormat) (fused : Bool) : KnuthWelford (Num A) → List ℝ → Prop
  | _, [] => True
  | s, x :: xs => (∀ d, (.fin x - s.mean : Num A) = .fin d → NoUnderflow f (d / f.rn ((succU s.count : Nat) : ℝ))) ∧
      (∀ d d' z, (.fin x - s.mean : Num A) = .fin d → (.fin x - (s.addContracted fused (.fin x)).mean : Num A) = .fin d' →
        s.m2 = .fin z → StepQuiet f fused d d' z) ∧
      WelfordCalm f fused (s.addContracted fused (.fin x)) xs

theorem welford_calm (hA : A.IsFormat f) (fused : Bool) (k : Nat) (xs : List ℝ) (hx : ∀ x ∈ xs, InFormat f x)
    (s t : KnuthWelford (Num A)) (hq : WelfordCalm f fused s xs) (h1 : ScaledTo f k s.mean t.mean) (h2 : ScaledTo f (k + k) s.m2 t.m2)
    (h3 : t.count = s.count) :
    let s' := (xs.map .fin).foldl (KnuthWelford.addContracted fused) s
    let t' := (xs.map (fun x => .fin (2 ^ k * x))).foldl (KnuthWelford.addContracted fused) t
    ScaledTo f k s'.mean t'.mean ∧ ScaledTo f (k + k) s'.m2 t'.m2 ∧ t'.count = s'.count := by
  induction xs generalizing s t with
  | nil => exact ⟨h1, h2, h3⟩
  | cons x xs ih =>
    obtain ⟨q1, q2, q3⟩ := hq
    have hxs := scaledTo_fin (A := A) k (hx x List.mem_cons_self)
    have hd := scaledTo_sub hA hxs h1
    have hc : (CxxFloat.ofNat (succU s.count) : Num A) = .fin (f.rn ((succU s.count : Nat) : ℝ)) := by
      rw [Num.ofNat_eq, count_round hA (succU_lt _)]
    have hm : ScaledTo f k (s.addContracted fused (.fin x)).mean (t.addContracted fused (.fin (2 ^ k * x))).mean := by
      show ScaledTo f k (s.mean + (.fin x - s.mean) / CxxFloat.ofNat (succU s.count))
        (t.mean + (.fin (2 ^ k * x) - t.mean) / CxxFloat.ofNat (succU t.count))
      rw [h3, hc]
      exact scaledTo_add hA h1 (scaledTo_div_same hA hd _ q1)
    refine ih (fun y hy => hx y (List.mem_cons_of_mem _ hy)) (s.addContracted fused (.fin x)) (t.addContracted fused (.fin (2 ^ k * x)))
      q3 hm ?_ ?_
    · exact scaledTo_step hA fused rfl hd (scaledTo_sub hA hxs hm) h2 q2
    · show succU t.count = succU s.count
      rw [h3]

theorem welford_contracted_ops (fused : Bool) (ops : List (AccOp (Num A))) :
    runOps (KnuthWelford.addContracted fused) KnuthWelford.reset (KnuthWelford.new : KnuthWelford (Num A)) ops =
      (sinceReset ops).foldl (KnuthWelford.addContracted fused) KnuthWelford.new :=
  runOps_fresh (fun _ => rfl) ops

theorem welford_contracted_count (fused : Bool) (xs : List (Num A)) (s : KnuthWelford (Num A)) (hs : s.count < 2 ^ 64) :
    (xs.foldl (KnuthWelford.addContracted fused) s).count < 2 ^ 64 := by
  induction xs generalizing s with
  | nil => exact hs
  | cons x xs ih => exact ih _ (succU_lt _)

/-- C187.  A `KnuthWelfordAccumulator` compiled with or without fused products that is given 2^k times every value reports the
same count, 2^k times the mean and 4^k times the sum of squares and the variances, unless something overflows in the new units
or underflows in the old ones. -/
theorem C187_welford (hA : A.IsFormat f) (fused : Bool) (k : Nat) (xs : List ℝ) (hx : ∀ x ∈ xs, InFormat f x)
    (ops ops' : List (AccOp (Num A))) (h : sinceReset ops = xs.map .fin) (h' : sinceReset ops' = xs.map (fun x => .fin (2 ^ k * x)))
    (hq : WelfordCalm f fused (KnuthWelford.new : KnuthWelford (Num A)) xs) :
    let s := runOps (KnuthWelford.addContracted fused) KnuthWelford.reset (KnuthWelford.new : KnuthWelford (Num A)) ops
    let t := runOps (KnuthWelford.addContracted fused) KnuthWelford.reset (KnuthWelford.new : KnuthWelford (Num A)) ops'
    t.getCount = s.getCount ∧ (∀ y, t.getMean = .fin y → ∃ x, s.getMean = .fin x ∧ y = 2 ^ k * x) ∧
      (∀ y, t.scaledVariance = .fin y → ∃ x, s.scaledVariance = .fin x ∧ y = 4 ^ k * x) ∧
      ∀ c y, t.variance c = .fin y → ∃ x, s.variance c = .fin x ∧ ((2 : ℝ) ^ (f.emin + (f.prec - 1)) < |x| → y = 4 ^ k * x) := by
  intro s t
  have e4 : (4 : ℝ) ^ k = 2 ^ (k + k) := by rw [pow_add, ← mul_pow]; norm_num
  have e1 : s = _ := welford_contracted_ops fused ops
  have e2 : t = _ := welford_contracted_ops fused ops'
  have hc : s.count < 2 ^ 64 := by
    rw [e1]
    exact welford_contracted_count fused _ _ (show 0 < 2 ^ 64 by norm_num)
  rw [h] at e1
  rw [h'] at e2
  obtain ⟨r1, r2, r3⟩ := welford_calm hA fused k xs hx (KnuthWelford.new : KnuthWelford (Num A)) KnuthWelford.new hq (scaledTo_zero k)
    (scaledTo_zero _) rfl
  rw [← e1, ← e2] at r1 r2 r3
  refine ⟨r3, fun y hy => ?_, fun y hy => ?_, fun c y hy => ?_⟩
  · obtain ⟨x, -, h1, h2⟩ := r1 y hy
    exact ⟨x, h1, h2⟩
  · unfold KnuthWelford.scaledVariance at hy ⊢
    rw [r3] at hy
    split at hy
    · cases hy
    · next hlt =>
      rw [if_neg hlt, e4]
      obtain ⟨x, -, h1, h2⟩ := r2 y hy
      exact ⟨x, h1, h2⟩
  · unfold KnuthWelford.variance at hy ⊢
    rw [r3] at hy
    split at hy
    · cases hy
    · next hlt =>
      rw [if_neg hlt, e4]
      refine scaledTo_div hA r2 _ ?_ hy
      split
      · exact Nat.mod_lt _ (by positivity)
      · exact hc

/-! ## WestAccumulator -/

/-- Nothing underflows when the pairs of values and weights are added one after the other. -/
def Spec.WestCalm (f : FloatFormat) (c : WestFused) : West (Num A) → List (ℝ × ℝ) → Prop
  | _, [] => True
  | s, p :: ps =>
      (∀ r d z, (.fin p.2 / (s.sumWeights + .fin p.2) : Num A) = .fin r → (.fin p.1 - s.mean : Num A) = .fin d → s.mean = .fin z →
        StepQuiet f c.mean r d z) ∧
      (∀ d, (.fin p.1 - s.mean : Num A) = .fin d → NoUnderflow f (p.2 * d)) ∧
      (∀ q d z, (.fin p.2 * (.fin p.1 - s.mean) : Num A) = .fin q →
        (.fin p.1 - (s.addCoreContracted c (.fin p.1) (.fin p.2)).mean : Num A) = .fin d → s.m2 = .fin z →
        StepQuiet f c.deviations q d z) ∧
      WestCalm f c (s.addCoreContracted c (.fin p.1) (.fin p.2)) ps

theorem west_calm (hA : A.IsFormat f) (c : WestFused) (k : Nat) (ps : List (ℝ × ℝ)) (hx : ∀ p ∈ ps, InFormat f p.1 ∧ InFormat f p.2)
    (s t : West (Num A)) (hq : WestCalm f c s ps) (h1 : ScaledTo f k s.mean t.mean) (h2 : ScaledTo f (k + k) s.m2 t.m2)
    (h3 : t.count = s.count ∧ t.sumWeights = s.sumWeights ∧ t.sumWeights2 = s.sumWeights2) :
    let s' := (ps.map fun p => ((.fin p.1, .fin p.2) : Num A × Num A)).foldl (fun s p => s.addCoreContracted c p.1 p.2) s
    let t' := (ps.map fun p => ((.fin (2 ^ k * p.1), .fin p.2) : Num A × Num A)).foldl (fun s p => s.addCoreContracted c p.1 p.2) t
    ScaledTo f k s'.mean t'.mean ∧ ScaledTo f (k + k) s'.m2 t'.m2 ∧
      t'.count = s'.count ∧ t'.sumWeights = s'.sumWeights ∧ t'.sumWeights2 = s'.sumWeights2 := by
  induction ps generalizing s t with
  | nil => exact ⟨h1, h2, h3⟩
  | cons p ps ih =>
    obtain ⟨q1, q2, q3, q4⟩ := hq
    obtain ⟨hp1, hp2⟩ := hx p List.mem_cons_self
    have hxs := scaledTo_fin (A := A) k hp1
    have hw : ScaledTo f 0 (.fin p.2 : Num A) (.fin p.2) := scaledTo_same (by rintro x ⟨⟩; exact hp2)
    have hd := scaledTo_sub hA hxs h1
    have hm : ScaledTo f k (s.addCoreContracted c (.fin p.1) (.fin p.2)).mean
        (t.addCoreContracted c (.fin (2 ^ k * p.1)) (.fin p.2)).mean := by
      show ScaledTo f k (mulAdd c.mean (.fin p.2 / (s.sumWeights + .fin p.2)) (.fin p.1 - s.mean) s.mean)
        (mulAdd c.mean (.fin p.2 / (t.sumWeights + .fin p.2)) (.fin (2 ^ k * p.1) - t.mean) t.mean)
      rw [h3.2.1]
      exact scaledTo_step hA c.mean (zero_add k) (scaledTo_same fun x h => div_inFormat hA h) hd h1 q1
    refine ih (fun y hy => hx y (List.mem_cons_of_mem _ hy)) (s.addCoreContracted c (.fin p.1) (.fin p.2))
      (t.addCoreContracted c (.fin (2 ^ k * p.1)) (.fin p.2)) q4 hm ?_ ⟨?_, ?_, ?_⟩
    · have h5 := scaledTo_prod hA hw hd fun x y hx hy => by cases hx; exact q2 y hy
      rw [zero_add] at h5
      exact scaledTo_step hA c.deviations rfl h5 (scaledTo_sub hA hxs hm) h2 q3
    · show succU t.count = succU s.count
      rw [h3.1]
    · show t.sumWeights + _ = s.sumWeights + _
      rw [h3.2.1]
    · show mulAdd c.squares (.fin p.2) (.fin p.2) t.sumWeights2 = mulAdd c.squares (.fin p.2) (.fin p.2) s.sumWeights2
      rw [h3.2.2]

/-- Weights in other units. -/
theorem west_calm_weights (hA : A.IsFormat f) (c : WestFused) (j : Nat) (ps : List (ℝ × ℝ))
    (hx : ∀ p ∈ ps, InFormat f p.1 ∧ InFormat f p.2) (s t : West (Num A)) (hq : WestCalm f c s ps)
    (h : ∀ y, t.sumWeights = .fin y → ScaledTo f j s.sumWeights t.sumWeights ∧ t.mean = s.mean ∧ ScaledTo f j s.m2 t.m2)
    (h3 : t.count = s.count) :
    let s' := (ps.map fun p => ((.fin p.1, .fin p.2) : Num A × Num A)).foldl (fun s p => s.addCoreContracted c p.1 p.2) s
    let t' := (ps.map fun p => ((.fin p.1, .fin (2 ^ j * p.2)) : Num A × Num A)).foldl (fun s p => s.addCoreContracted c p.1 p.2) t
    (∀ y, t'.sumWeights = .fin y → ScaledTo f j s'.sumWeights t'.sumWeights ∧ t'.mean = s'.mean ∧ ScaledTo f j s'.m2 t'.m2) ∧
      t'.count = s'.count := by
  induction ps generalizing s t with
  | nil => exact ⟨h, h3⟩
  | cons p ps ih =>
    obtain ⟨-, q2, q3, q4⟩ := hq
    obtain ⟨hp1, hp2⟩ := hx p List.mem_cons_self
    refine ih (fun y hy => hx y (List.mem_cons_of_mem _ hy)) (s.addCoreContracted c (.fin p.1) (.fin p.2))
      (t.addCoreContracted c (.fin p.1) (.fin (2 ^ j * p.2))) q4 ?_ (by show succU t.count = succU s.count; rw [h3])
    intro y hy
    change t.sumWeights + .fin (2 ^ j * p.2) = .fin y at hy
    obtain ⟨a, b, ha, -⟩ := Num.add_eq_fin hy
    obtain ⟨r1, r2, r3⟩ := h a ha
    have hw := scaledTo_fin (A := A) j hp2
    have hW : ScaledTo f j (s.sumWeights + .fin p.2) (t.sumWeights + .fin (2 ^ j * p.2)) := scaledTo_add hA r1 hw
    have hm : (t.addCoreContracted c (.fin p.1) (.fin (2 ^ j * p.2))).mean = (s.addCoreContracted c (.fin p.1) (.fin p.2)).mean := by
      show mulAdd c.mean (.fin (2 ^ j * p.2) / (t.sumWeights + .fin (2 ^ j * p.2))) (.fin p.1 - t.mean) t.mean =
        mulAdd c.mean (.fin p.2 / (s.sumWeights + .fin p.2)) (.fin p.1 - s.mean) s.mean
      obtain ⟨x, -, e1, e2⟩ := hW y hy
      rw [hy, e1, e2, fin_div_scaled, r2]
    refine ⟨hW, hm, ?_⟩
    show ScaledTo f j
      (mulAdd c.deviations (.fin p.2 * (.fin p.1 - s.mean)) (.fin p.1 - (s.addCoreContracted c (.fin p.1) (.fin p.2)).mean) s.m2)
      (mulAdd c.deviations (.fin (2 ^ j * p.2) * (.fin p.1 - t.mean))
        (.fin p.1 - (t.addCoreContracted c (.fin p.1) (.fin (2 ^ j * p.2))).mean) t.m2)
    rw [hm, r2]
    have h5 := scaledTo_prod hA hw (scaledTo_same fun x h => sub_inFormat hA h) fun x y hx hy => by cases hx; exact q2 y hy
    exact scaledTo_step hA c.deviations (add_zero j) h5 (scaledTo_same fun x h => sub_inFormat hA h) r3 q3

/-- C187.  A `WestAccumulator`, whatever is fused, that is given 2^k times every value with the same weights reports the same
count and sums of weights, 2^k times the mean and 4^k times the variance. -/
theorem C187_west (hA : A.IsFormat f) (c : WestFused) (k : Nat) (ps : List (ℝ × ℝ)) (hx : ∀ p ∈ ps, InFormat f p.1 ∧ InFormat f p.2)
    (ops ops' : List (AccOp (Num A × Num A))) (h : sinceReset ops = ps.map fun p => (.fin p.1, .fin p.2))
    (h' : sinceReset ops' = ps.map fun p => (.fin (2 ^ k * p.1), .fin p.2))
    (hq : WestCalm f c (West.new : West (Num A)) (ps.filter fun p => decide (0 < p.2))) :
    let s := runOps (West.addContracted c) West.reset (West.new : West (Num A)) ops
    let t := runOps (West.addContracted c) West.reset (West.new : West (Num A)) ops'
    t.getCount = s.getCount ∧ t.sumWeights = s.sumWeights ∧ t.sumWeights2 = s.sumWeights2 ∧
      (∀ y, t.getMean = .fin y → ∃ x, s.getMean = .fin x ∧ y = 2 ^ k * x) ∧
      (∀ y, t.m2 = .fin y → ∃ x, s.m2 = .fin x ∧ y = 4 ^ k * x) ∧
      ∀ w, s.sumWeights = .fin w → (∀ x, s.m2 = .fin x → NoUnderflow f (x / w)) →
        ∀ y, t.populationVariance = .fin y → ∃ x, s.populationVariance = .fin x ∧ y = 4 ^ k * x := by
  intro s t
  have e4 : (4 : ℝ) ^ k = 2 ^ (k + k) := by rw [pow_add, ← mul_pow]; norm_num
  have e1 : s = _ := west_contracted_ops c ops
  have e2 : t = _ := west_contracted_ops c ops'
  rw [h, filter_pairs (fun x => x) (fun x => x) (fun _ => Iff.rfl)] at e1
  rw [h', filter_pairs (fun x => 2 ^ k * x) (fun x => x) (fun _ => Iff.rfl)] at e2
  obtain ⟨r1, r2, r3, r4, r5⟩ := west_calm hA c k _ (fun p hp => hx p (List.mem_of_mem_filter hp)) (West.new : West (Num A)) West.new hq
    (scaledTo_zero k) (scaledTo_zero _) ⟨rfl, rfl, rfl⟩
  rw [← e1, ← e2] at r1 r2 r3 r4 r5
  refine ⟨r3, r4, r5, fun y hy => ?_, fun y hy => ?_, fun w hw hn y hy => ?_⟩
  · obtain ⟨x, -, h1, h2⟩ := r1 y hy
    exact ⟨x, h1, h2⟩
  · obtain ⟨x, -, h1, h2⟩ := r2 y hy
    exact ⟨x, h1, e4 ▸ h2⟩
  · unfold West.populationVariance at hy ⊢
    rw [r3, r4, hw] at hy
    split at hy
    · cases hy
    · next hlt =>
      rw [if_neg hlt, e4, hw]
      obtain ⟨x, -, h1, h2⟩ := scaledTo_div_same hA r2 w hn y hy
      exact ⟨x, h1, h2⟩

/-- C187.  Weights that are all multiplied by 2^j do not change the mean or the population variance in the last bit, whatever is
fused, as long as the sum of the weights and of the weighted squares is finite. -/
theorem C187_weights (hA : A.IsFormat f) (c : WestFused) (j : Nat) (ps : List (ℝ × ℝ))
    (hx : ∀ p ∈ ps, InFormat f p.1 ∧ InFormat f p.2) (ops ops' : List (AccOp (Num A × Num A)))
    (h : sinceReset ops = ps.map fun p => (.fin p.1, .fin p.2)) (h' : sinceReset ops' = ps.map fun p => (.fin p.1, .fin (2 ^ j * p.2)))
    (hq : WestCalm f c (West.new : West (Num A)) (ps.filter fun p => decide (0 < p.2))) :
    let s := runOps (West.addContracted c) West.reset (West.new : West (Num A)) ops
    let t := runOps (West.addContracted c) West.reset (West.new : West (Num A)) ops'
    t.getCount = s.getCount ∧ ∀ w, t.sumWeights = .fin w →
      (∃ x, s.sumWeights = .fin x ∧ w = 2 ^ j * x) ∧ t.getMean = s.getMean ∧
      ∀ y, t.m2 = .fin y → t.populationVariance = s.populationVariance := by
  intro s t
  have e1 : s = _ := west_contracted_ops c ops
  have e2 : t = _ := west_contracted_ops c ops'
  rw [h, filter_pairs (fun x => x) (fun x => x) (fun _ => Iff.rfl)] at e1
  rw [h', filter_pairs (fun x => x) (fun x => 2 ^ j * x) (fun w => mul_pos_iff_of_pos_left (by positivity))] at e2
  obtain ⟨r1, r2⟩ := west_calm_weights hA c j _ (fun p hp => hx p (List.mem_of_mem_filter hp)) (West.new : West (Num A)) West.new hq
    (fun _ _ => ⟨scaledTo_zero j, rfl, scaledTo_zero j⟩) rfl
  rw [← e1, ← e2] at r1 r2
  refine ⟨r2, fun w hw => ?_⟩
  obtain ⟨a1, a2, a3⟩ := r1 w hw
  obtain ⟨x, -, h1, h2⟩ := a1 w hw
  refine ⟨⟨x, h1, h2⟩, a2, fun y hy => ?_⟩
  obtain ⟨z, -, h3, h4⟩ := a3 y hy
  unfold West.populationVariance
  rw [r2, hw, hy, h1, h2, h3, h4, fin_div_scaled]

/-! ## When nothing underflows -/

theorem noUnderflow_zero : NoUnderflow f (0 : ℝ) := .inl ⟨0, by simp⟩

/-- C187.  A fused step underflows less often than the product: if both deviations have the same sign, as in Welford's method,
and the sum so far is not negative, a product that does not underflow by its size does not underflow in the fused step. -/
theorem C187_fused_quieter {x y z : ℝ} (hxy : 0 ≤ x * y) (hz : 0 ≤ z) (hzf : InFormat f z)
    (h : StepQuiet f false x y z) : StepQuiet f true x y z := by
  rcases h with h | h
  · exact .inl (Mult.add (show Mult f.emin (x * y) from h) (value_mult hzf))
  · have h : (2 : ℝ) ^ (f.emin + (f.prec - 1)) ≤ |x * y| := h
    refine .inr (h.trans ?_)
    show |x * y| ≤ |x * y + z|
    rw [abs_of_nonneg hxy, abs_of_nonneg (add_nonneg hxy hz)]
    linarith

/-- The value 1, added with a fused product. -/
example (hA : A.IsFormat .double) : WelfordCalm .double true (KnuthWelford.new : KnuthWelford (Num A)) [1] := by
  have r : ∀ (z : ℝ) (n : Int), |n| ≤ 4 → z = n → Num.round A z = .fin (n : ℝ) := by
    rintro z n hn rfl
    exact small_int hA n hn
  have n1 : FloatFormat.rn .double ((1 : Nat) : ℝ) = 1 := by rw [Nat.cast_one]; exact fl_value one_value
  have c1 : (CxxFloat.ofNat 1 : Num A) = .fin 1 := by rw [Num.ofNat_eq, count_round hA (by norm_num), n1]
  have d1 : (.fin 1 - (KnuthWelford.new : KnuthWelford (Num A)).mean) = .fin 1 := by
    show (.fin 1 - CxxFloat.zero : Num A) = _
    rw [Num.zero_eq, Num.fin_sub, r _ 1 (by norm_num) (by norm_num), Int.cast_one]
  have m1 : ((KnuthWelford.new : KnuthWelford (Num A)).addContracted true (.fin 1)).mean = .fin 1 := by
    show CxxFloat.zero + (.fin 1 - (KnuthWelford.new : KnuthWelford (Num A)).mean) / CxxFloat.ofNat 1 = _
    rw [d1, c1, Num.zero_eq, Num.fin_div one_ne_zero, r _ 1 (by norm_num) (by norm_num), Num.fin_add,
      r _ 1 (by norm_num) (by norm_num), Int.cast_one]
  refine ⟨fun d hd => ?_, fun d d' z hd hd' hz => ?_, trivial⟩
  · rw [d1] at hd
    cases hd
    rw [show (1 : ℝ) / FloatFormat.rn .double ((succU (KnuthWelford.new : KnuthWelford (Num A)).count : Nat) : ℝ) = ((1 : Int) : ℝ) by
      show (1 : ℝ) / FloatFormat.rn .double ((1 : Nat) : ℝ) = _; rw [n1]; norm_num]
    exact noUnderflow_int 1
  · rw [d1] at hd
    rw [m1, Num.fin_sub, r _ 0 (by norm_num) (by norm_num)] at hd'
    have hz : (CxxFloat.zero : Num A) = .fin z := hz
    rw [Num.zero_eq] at hz
    cases hd
    cases hd'
    cases hz
    show NoUnderflow _ (1 * ((0 : Int) : ℝ) + 0)
    rw [Int.cast_zero, mul_zero, add_zero]
    exact noUnderflow_zero

/-- The value 1 with weight 1, everything fused. -/
example (hA : A.IsFormat .double) : WestCalm .double ⟨true, true, true⟩ (West.new : West (Num A)) [(1, 1)] := by
  have r : ∀ (z : ℝ) (n : Int), |n| ≤ 4 → z = n → Num.round A z = .fin (n : ℝ) := by
    rintro z n hn rfl
    exact small_int hA n hn
  have u : ∀ (z : ℝ) (n : Int), z = n → NoUnderflow .double z := by
    rintro z n rfl
    exact noUnderflow_int n
  have z0 : (West.new : West (Num A)).mean = .fin 0 := Num.zero_eq
  have z1 : (West.new : West (Num A)).sumWeights = .fin 0 := Num.zero_eq
  have z2 : (West.new : West (Num A)).m2 = .fin 0 := Num.zero_eq
  have d1 : (.fin 1 - (West.new : West (Num A)).mean) = .fin 1 := by
    rw [z0, Num.fin_sub, r _ 1 (by norm_num) (by norm_num), Int.cast_one]
  have w1 : (.fin 1 / ((West.new : West (Num A)).sumWeights + .fin 1)) = .fin 1 := by
    rw [z1, Num.fin_add, r _ 1 (by norm_num) (by norm_num), Int.cast_one, Num.fin_div one_ne_zero, r _ 1 (by norm_num) (by norm_num),
      Int.cast_one]
  have p1 : (.fin 1 * .fin 1 : Num A) = .fin 1 := by rw [Num.fin_mul, r _ 1 (by norm_num) (by norm_num), Int.cast_one]
  have m1 : ((West.new : West (Num A)).addCoreContracted ⟨true, true, true⟩ (.fin 1) (.fin 1)).mean = .fin 1 := by
    show mulAdd true (.fin 1 / ((West.new : West (Num A)).sumWeights + .fin 1)) (.fin 1 - (West.new : West (Num A)).mean)
      (West.new : West (Num A)).mean = _
    rw [w1, d1, z0]
    show Num.round A (1 * 1 + 0) = _
    rw [r _ 1 (by norm_num) (by norm_num), Int.cast_one]
  refine ⟨fun q d z hq hd hz => ?_, fun d hd => ?_, fun q d z hq hd hz => ?_, trivial⟩
  · rw [w1] at hq
    rw [d1] at hd
    rw [z0] at hz
    cases hq
    cases hd
    cases hz
    exact u (1 * 1 + 0) 1 (by norm_num)
  · rw [d1] at hd
    cases hd
    exact u _ 1 (by norm_num)
  · rw [d1, p1] at hq
    rw [m1, Num.fin_sub, r _ 0 (by norm_num) (by norm_num)] at hd
    rw [z2] at hz
    cases hq
    cases hd
    cases hz
    exact u (1 * ((0 : Int) : ℝ) + 0) 0 (by norm_num)

end
end Bwsl
