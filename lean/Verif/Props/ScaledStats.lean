import Verif.Props.Scaled
import Verif.Props.AccumStats
import Verif.Props.Units
import Verif.Model.Approx

/-! Property C183: statistics of values in other units. -/

namespace Bwsl
open Spec FloatFormat

set_option linter.unusedSectionVars false

section
variable {K : Type} [Field K] [LinearOrder K] [IsStrictOrderedRing K] [FloorRing K] {A : Arith K} {f : FloatFormat}

/-- A product or quotient that does not underflow: it is in the normal range, or it needs no more digits than there are (as 0 does). -/
def Spec.NoUnderflow (f : FloatFormat) (z : K) : Prop := Mult f.emin z ∨ (2 : K) ^ (f.emin + (f.prec - 1)) ≤ |z|

theorem mul_eq_fin_both {u v : Num A} {z : K} (h : u * v = .fin z) : ∃ a b, u = .fin a ∧ v = .fin b := by
  change Num.mul u v = _ at h
  cases u <;> cases v <;> simp only [Num.mul] at h <;> first | exact ⟨_, _, rfl, rfl⟩ | (try split at h) <;> cases h

theorem scaledTo_prod (hA : A.IsFormat f) {k j : Nat} {u u' v v' : Num A} (h : ScaledTo f k u v) (h' : ScaledTo f j u' v')
    (hn : ∀ x y, u = .fin x → u' = .fin y → NoUnderflow f (x * y)) : ScaledTo f (k + j) (u * u') (v * v') := by
  intro y hy
  obtain ⟨a, b, rfl, rfl⟩ := mul_eq_fin_both hy
  obtain ⟨c, hc, rfl, rfl⟩ := h a rfl
  obtain ⟨d, hd, rfl, rfl⟩ := h' b rfl
  have e : (2 : K) ^ k * c * (2 ^ j * d) = 2 ^ (k + j) * (c * d) := by rw [pow_add]; ring
  rw [Num.fin_mul, e] at hy
  rw [Num.fin_mul]
  exact scaledTo_round hA (k + j) (hn c d rfl rfl) y hy

/-- A quotient by the same number. -/
theorem scaledTo_div_same (hA : A.IsFormat f) {k : Nat} {u v : Num A} (h : ScaledTo f k u v) (w : K)
    (hn : ∀ x, u = .fin x → NoUnderflow f (x / w)) : ScaledTo f k (u / .fin w) (v / .fin w) := by
  intro y hy
  obtain ⟨a, rfl⟩ := div_eq_fin hy
  obtain ⟨c, hc, rfl, rfl⟩ := h a rfl
  by_cases hw : w = 0
  · subst hw
    have e : (.fin (2 ^ k * c) / .fin 0 : Num A) = if 2 ^ k * c = 0 then .nan else .inf (decide (2 ^ k * c < 0)) := if_pos rfl
    rw [e] at hy
    split at hy <;> cases hy
  · rw [Num.fin_div hw, mul_div_assoc] at hy
    rw [Num.fin_div hw]
    exact scaledTo_round hA k (hn c rfl) y hy

/-- A number that is the same on both sides. -/
theorem scaledTo_same {u : Num A} (h : ∀ x, u = .fin x → InFormat f x) : ScaledTo f 0 u u := by
  rintro y rfl
  exact ⟨y, h y rfl, rfl, by rw [pow_zero, one_mul]⟩

theorem sub_inFormat (hA : A.IsFormat f) {u v : Num A} {x : K} (h : u - v = .fin x) : InFormat f x := by
  obtain ⟨a, b, rfl, rfl⟩ := sub_eq_fin h
  rw [Num.fin_sub] at h
  rw [(round_format hA h).1]
  exact fl_inFormat _

theorem div_inFormat (hA : A.IsFormat f) {u v : Num A} {x : K} (h : u / v = .fin x) : InFormat f x := by
  change Num.div u v = _ at h
  cases u <;> cases v <;> simp only [Num.div] at h
  all_goals first | cases h | skip
  · exact zero_value
  · split at h
    · split at h <;> cases h
    · rw [(round_format hA h).1]
      exact fl_inFormat _

/-! ## KnuthWelfordAccumulator -/

/-- Nothing underflows when the values `xs` are added one after the other. -/
def Spec.WelfordQuiet (f : FloatFormat) : KnuthWelford (Num A) → List K → Prop
  | _, [] => True
  | s, x :: xs => (∀ d, (.fin x - s.mean : Num A) = .fin d → NoUnderflow f (d / f.rn ((succU s.count : Nat) : K))) ∧
      (∀ d d', (.fin x - s.mean : Num A) = .fin d → (.fin x - (s.addCore (.fin x)).mean : Num A) = .fin d' → NoUnderflow f (d * d')) ∧
      WelfordQuiet f (s.addCore (.fin x)) xs

theorem welford_units (hA : A.IsFormat f) (k : Nat) (xs : List K) (hx : ∀ x ∈ xs, InFormat f x) (s t : KnuthWelford (Num A))
    (hq : WelfordQuiet f s xs) (h1 : ScaledTo f k s.mean t.mean) (h2 : ScaledTo f (k + k) s.m2 t.m2) (h3 : t.count = s.count) :
    let s' := (xs.map .fin).foldl KnuthWelford.addCore s
    let t' := (xs.map (fun x => .fin (2 ^ k * x))).foldl KnuthWelford.addCore t
    ScaledTo f k s'.mean t'.mean ∧ ScaledTo f (k + k) s'.m2 t'.m2 ∧ t'.count = s'.count := by
  induction xs generalizing s t with
  | nil => exact ⟨h1, h2, h3⟩
  | cons x xs ih =>
    obtain ⟨q1, q2, q3⟩ := hq
    have hxs := scaledTo_fin (A := A) k (hx x List.mem_cons_self)
    have hd := scaledTo_sub hA hxs h1
    have hc : (CxxFloat.ofNat (succU s.count) : Num A) = .fin (f.rn ((succU s.count : Nat) : K)) := by
      rw [Num.ofNat_eq, count_round hA (succU_lt _)]
    have hm : ScaledTo f k (s.addCore (.fin x)).mean (t.addCore (.fin (2 ^ k * x))).mean := by
      show ScaledTo f k (s.mean + (.fin x - s.mean) / CxxFloat.ofNat (succU s.count))
        (t.mean + (.fin (2 ^ k * x) - t.mean) / CxxFloat.ofNat (succU t.count))
      rw [h3, hc]
      exact scaledTo_add hA h1 (scaledTo_div_same hA hd _ q1)
    refine ih (fun y hy => hx y (List.mem_cons_of_mem _ hy)) (s.addCore (.fin x)) (t.addCore (.fin (2 ^ k * x))) q3 hm ?_ ?_
    · exact scaledTo_add hA h2 (scaledTo_prod hA hd (scaledTo_sub hA hxs hm) q2)
    · show succU t.count = succU s.count
      rw [h3]

/-- C183.  A `KnuthWelfordAccumulator` that is given 2^k times every value reports the same count, 2^k times the mean and 4^k times
the sum of squares and the variances, unless something overflows in the new units or underflows in the old ones. -/
theorem C183_welford (hA : A.IsFormat f) (k : Nat) (xs : List K) (hx : ∀ x ∈ xs, InFormat f x) (ops ops' : List (AccOp (Num A)))
    (h : sinceReset ops = xs.map .fin) (h' : sinceReset ops' = xs.map (fun x => .fin (2 ^ k * x)))
    (hq : WelfordQuiet f (KnuthWelford.new : KnuthWelford (Num A)) xs) :
    let s := runOps KnuthWelford.addCore KnuthWelford.reset (KnuthWelford.new : KnuthWelford (Num A)) ops
    let t := runOps KnuthWelford.addCore KnuthWelford.reset (KnuthWelford.new : KnuthWelford (Num A)) ops'
    t.getCount = s.getCount ∧ (∀ y, t.getMean = .fin y → ∃ x, s.getMean = .fin x ∧ y = 2 ^ k * x) ∧
      (∀ y, t.scaledVariance = .fin y → ∃ x, s.scaledVariance = .fin x ∧ y = 4 ^ k * x) ∧
      ∀ c y, t.variance c = .fin y → ∃ x, s.variance c = .fin x ∧ ((2 : K) ^ (f.emin + (f.prec - 1)) < |x| → y = 4 ^ k * x) := by
  intro s t
  have e4 : (4 : K) ^ k = 2 ^ (k + k) := by rw [pow_add, ← mul_pow]; norm_num
  have e1 : s = _ := (C35_knuthWelford ops).1
  have e2 : t = _ := (C35_knuthWelford ops').1
  have hc : s.count < 2 ^ 64 := by
    have : s.getCount = _ := (C35_knuthWelford ops).2
    show s.getCount < _
    rw [this]; exact Nat.mod_lt _ (by positivity)
  rw [h] at e1
  rw [h'] at e2
  obtain ⟨r1, r2, r3⟩ := welford_units hA k xs hx (KnuthWelford.new : KnuthWelford (Num A)) KnuthWelford.new hq (scaledTo_zero k)
    (scaledTo_zero _) rfl
  rw [← e1, ← e2] at r1 r2 r3
  refine ⟨r3, fun y hy => ?_, fun y hy => ?_, fun c y hy => ?_⟩
  · obtain ⟨x, -, h1, h2⟩ := r1 y hy
    exact ⟨x, h1, h2⟩
  · unfold KnuthWelford.scaledVariance at hy ⊢
    rw [r3] at hy
    split at hy
    · cases hy
    · next hlt =>
      rw [if_neg hlt, e4]
      obtain ⟨x, -, h1, h2⟩ := r2 y hy
      exact ⟨x, h1, h2⟩
  · unfold KnuthWelford.variance at hy ⊢
    rw [r3] at hy
    split at hy
    · cases hy
    · next hlt =>
      rw [if_neg hlt, e4]
      refine scaledTo_div hA r2 _ ?_ hy
      split
      · exact Nat.mod_lt _ (by positivity)
      · exact hc

/-! ## WestAccumulator -/

/-- Nothing underflows when the pairs of values and weights are added one after the other. -/
def Spec.WestQuiet (f : FloatFormat) : West (Num A) → List (K × K) → Prop
  | _, [] => True
  | s, p :: ps =>
      (∀ r d, (.fin p.2 / (s.sumWeights + .fin p.2) : Num A) = .fin r → (.fin p.1 - s.mean : Num A) = .fin d → NoUnderflow f (r * d)) ∧
      (∀ d, (.fin p.1 - s.mean : Num A) = .fin d → NoUnderflow f (p.2 * d)) ∧
      (∀ q d, (.fin p.2 * (.fin p.1 - s.mean) : Num A) = .fin q → (.fin p.1 - (s.addCore (.fin p.1) (.fin p.2)).mean : Num A) = .fin d →
        NoUnderflow f (q * d)) ∧
      WestQuiet f (s.addCore (.fin p.1) (.fin p.2)) ps

theorem west_units (hA : A.IsFormat f) (k : Nat) (ps : List (K × K)) (hx : ∀ p ∈ ps, InFormat f p.1 ∧ InFormat f p.2)
    (s t : West (Num A)) (hq : WestQuiet f s ps) (h1 : ScaledTo f k s.mean t.mean) (h2 : ScaledTo f (k + k) s.m2 t.m2)
    (h3 : t.count = s.count ∧ t.sumWeights = s.sumWeights ∧ t.sumWeights2 = s.sumWeights2) :
    let s' := (ps.map fun p => ((.fin p.1, .fin p.2) : Num A × Num A)).foldl (fun s p => s.addCore p.1 p.2) s
    let t' := (ps.map fun p => ((.fin (2 ^ k * p.1), .fin p.2) : Num A × Num A)).foldl (fun s p => s.addCore p.1 p.2) t
    ScaledTo f k s'.mean t'.mean ∧ ScaledTo f (k + k) s'.m2 t'.m2 ∧
      t'.count = s'.count ∧ t'.sumWeights = s'.sumWeights ∧ t'.sumWeights2 = s'.sumWeights2 := by
  induction ps generalizing s t with
  | nil => exact ⟨h1, h2, h3⟩
  | cons p ps ih =>
    obtain ⟨q1, q2, q3, q4⟩ := hq
    obtain ⟨hp1, hp2⟩ := hx p List.mem_cons_self
    have hxs := scaledTo_fin (A := A) k hp1
    have hw : ScaledTo f 0 (.fin p.2 : Num A) (.fin p.2) := scaledTo_same (by rintro x ⟨⟩; exact hp2)
    have hd := scaledTo_sub hA hxs h1
    have hm : ScaledTo f k (s.addCore (.fin p.1) (.fin p.2)).mean (t.addCore (.fin (2 ^ k * p.1)) (.fin p.2)).mean := by
      show ScaledTo f k (s.mean + .fin p.2 / (s.sumWeights + .fin p.2) * (.fin p.1 - s.mean))
        (t.mean + .fin p.2 / (t.sumWeights + .fin p.2) * (.fin (2 ^ k * p.1) - t.mean))
      rw [h3.2.1]
      have := scaledTo_prod hA (scaledTo_same fun x h => div_inFormat hA h) hd q1
      rw [zero_add] at this
      exact scaledTo_add hA h1 this
    refine ih (fun y hy => hx y (List.mem_cons_of_mem _ hy)) (s.addCore (.fin p.1) (.fin p.2)) (t.addCore (.fin (2 ^ k * p.1)) (.fin p.2))
      q4 hm ?_ ⟨?_, ?_, ?_⟩
    · refine scaledTo_add hA h2 ?_
      have h5 := scaledTo_prod hA hw hd fun x y hx hy => by cases hx; exact q2 y hy
      rw [zero_add] at h5
      exact scaledTo_prod hA h5 (scaledTo_sub hA hxs hm) q3
    · show succU t.count = succU s.count
      rw [h3.1]
    · show t.sumWeights + _ = s.sumWeights + _
      rw [h3.2.1]
    · show t.sumWeights2 + _ = s.sumWeights2 + _
      rw [h3.2.2]

theorem fin_div_scaled (j : Nat) (a b : K) : (.fin (2 ^ j * a) / .fin (2 ^ j * b) : Num A) = .fin a / .fin b := by
  have hp : (0 : K) < 2 ^ j := by positivity
  show Num.div _ _ = Num.div _ _
  simp only [Num.div, mul_eq_zero, hp.ne', false_or, mul_div_mul_left _ _ hp.ne']
  have hd : decide (2 ^ j * a < 0) = decide (a < 0) := by
    rw [decide_eq_decide]
    constructor <;> intro h <;> nlinarith
  rw [hd]

/-- Weights in other units. -/
theorem west_weights (hA : A.IsFormat f) (j : Nat) (ps : List (K × K)) (hx : ∀ p ∈ ps, InFormat f p.1 ∧ InFormat f p.2)
    (s t : West (Num A)) (hq : WestQuiet f s ps)
    (h : ∀ y, t.sumWeights = .fin y → ScaledTo f j s.sumWeights t.sumWeights ∧ t.mean = s.mean ∧ ScaledTo f j s.m2 t.m2)
    (h3 : t.count = s.count) :
    let s' := (ps.map fun p => ((.fin p.1, .fin p.2) : Num A × Num A)).foldl (fun s p => s.addCore p.1 p.2) s
    let t' := (ps.map fun p => ((.fin p.1, .fin (2 ^ j * p.2)) : Num A × Num A)).foldl (fun s p => s.addCore p.1 p.2) t
    (∀ y, t'.sumWeights = .fin y → ScaledTo f j s'.sumWeights t'.sumWeights ∧ t'.mean = s'.mean ∧ ScaledTo f j s'.m2 t'.m2) ∧
      t'.count = s'.count := by
  induction ps generalizing s t with
  | nil => exact ⟨h, h3⟩
  | cons p ps ih =>
    obtain ⟨-, q2, q3, q4⟩ := hq
    obtain ⟨hp1, hp2⟩ := hx p List.mem_cons_self
    refine ih (fun y hy => hx y (List.mem_cons_of_mem _ hy)) (s.addCore (.fin p.1) (.fin p.2)) (t.addCore (.fin p.1) (.fin (2 ^ j * p.2)))
      q4 ?_ (by show succU t.count = succU s.count; rw [h3])
    intro y hy
    change t.sumWeights + .fin (2 ^ j * p.2) = .fin y at hy
    obtain ⟨a, b, ha, -⟩ := Num.add_eq_fin hy
    obtain ⟨r1, r2, r3⟩ := h a ha
    have hw := scaledTo_fin (A := A) j hp2
    have hW : ScaledTo f j (s.sumWeights + .fin p.2) (t.sumWeights + .fin (2 ^ j * p.2)) := scaledTo_add hA r1 hw
    have hm : (t.addCore (.fin p.1) (.fin (2 ^ j * p.2))).mean = (s.addCore (.fin p.1) (.fin p.2)).mean := by
      show t.mean + .fin (2 ^ j * p.2) / (t.sumWeights + .fin (2 ^ j * p.2)) * (.fin p.1 - t.mean) =
        s.mean + .fin p.2 / (s.sumWeights + .fin p.2) * (.fin p.1 - s.mean)
      obtain ⟨x, -, e1, e2⟩ := hW y hy
      rw [hy, e1, e2, fin_div_scaled, r2]
    refine ⟨hW, hm, ?_⟩
    show ScaledTo f j (s.m2 + .fin p.2 * (.fin p.1 - s.mean) * (.fin p.1 - (s.addCore (.fin p.1) (.fin p.2)).mean))
      (t.m2 + .fin (2 ^ j * p.2) * (.fin p.1 - t.mean) * (.fin p.1 - (t.addCore (.fin p.1) (.fin (2 ^ j * p.2))).mean))
    rw [hm, r2]
    refine scaledTo_add hA r3 ?_
    have h5 := scaledTo_prod hA hw (scaledTo_same fun x h => sub_inFormat hA h) fun x y hx hy => by cases hx; exact q2 y hy
    have h6 := scaledTo_prod hA h5 (scaledTo_same fun x h => sub_inFormat hA h) q3
    exact h6

theorem filter_pairs (g : K → K) (h : K → K) (hh : ∀ w, 0 < h w ↔ 0 < w) (ps : List (K × K)) :
    ((ps.map fun p => ((.fin (g p.1), .fin (h p.2)) : Num A × Num A)).filter (fun p => CxxFloat.lt CxxFloat.zero p.2)) =
      (ps.filter (fun p => decide (0 < p.2))).map fun p => ((.fin (g p.1), .fin (h p.2)) : Num A × Num A) := by
  rw [List.filter_map]
  congr 1
  refine List.filter_congr fun p _ => ?_
  show CxxFloat.lt (CxxFloat.zero : Num A) (.fin (h p.2)) = _
  rw [Num.zero_eq, Num.lt_fin, decide_eq_decide]
  exact hh p.2

/-- C183.  A `WestAccumulator` that is given 2^k times every value, with the same weights, reports the same count and sums of
weights, 2^k times the mean and 4^k times the variance. -/
theorem C183_west (hA : A.IsFormat f) (k : Nat) (ps : List (K × K)) (hx : ∀ p ∈ ps, InFormat f p.1 ∧ InFormat f p.2)
    (ops ops' : List (AccOp (Num A × Num A))) (h : sinceReset ops = ps.map fun p => (.fin p.1, .fin p.2))
    (h' : sinceReset ops' = ps.map fun p => (.fin (2 ^ k * p.1), .fin p.2))
    (hq : WestQuiet f (West.new : West (Num A)) (ps.filter fun p => decide (0 < p.2))) :
    let s := runOps West.addPair West.reset (West.new : West (Num A)) ops
    let t := runOps West.addPair West.reset (West.new : West (Num A)) ops'
    t.getCount = s.getCount ∧ t.sumWeights = s.sumWeights ∧ t.sumWeights2 = s.sumWeights2 ∧
      (∀ y, t.getMean = .fin y → ∃ x, s.getMean = .fin x ∧ y = 2 ^ k * x) ∧
      (∀ y, t.m2 = .fin y → ∃ x, s.m2 = .fin x ∧ y = 4 ^ k * x) ∧
      ∀ w, s.sumWeights = .fin w → (∀ x, s.m2 = .fin x → NoUnderflow f (x / w)) →
        ∀ y, t.populationVariance = .fin y → ∃ x, s.populationVariance = .fin x ∧ y = 4 ^ k * x := by
  intro s t
  have e4 : (4 : K) ^ k = 2 ^ (k + k) := by rw [pow_add, ← mul_pow]; norm_num
  have e1 : s = _ := (C35_west ops).1
  have e2 : t = _ := (C35_west ops').1
  rw [h, filter_pairs (fun x => x) (fun x => x) (fun _ => Iff.rfl)] at e1
  rw [h', filter_pairs (fun x => 2 ^ k * x) (fun x => x) (fun _ => Iff.rfl)] at e2
  obtain ⟨r1, r2, r3, r4, r5⟩ := west_units hA k _ (fun p hp => hx p (List.mem_of_mem_filter hp)) (West.new : West (Num A)) West.new hq
    (scaledTo_zero k) (scaledTo_zero _) ⟨rfl, rfl, rfl⟩
  rw [← e1, ← e2] at r1 r2 r3 r4 r5
  refine ⟨r3, r4, r5, fun y hy => ?_, fun y hy => ?_, fun w hw hn y hy => ?_⟩
  · obtain ⟨x, -, h1, h2⟩ := r1 y hy
    exact ⟨x, h1, h2⟩
  · obtain ⟨x, -, h1, h2⟩ := r2 y hy
    exact ⟨x, h1, e4 ▸ h2⟩
  · unfold West.populationVariance at hy ⊢
    rw [r3, r4, hw] at hy
    split at hy
    · cases hy
    · next hlt =>
      rw [if_neg hlt, e4, hw]
      obtain ⟨x, -, h1, h2⟩ := scaledTo_div_same hA r2 w hn y hy
      exact ⟨x, h1, h2⟩

/-- C183.  Weights that are all multiplied by 2^j do not change the mean or the population variance in the last bit, as long as
the sum of the weights and of the weighted squares is finite. -/
theorem C183_weights (hA : A.IsFormat f) (j : Nat) (ps : List (K × K)) (hx : ∀ p ∈ ps, InFormat f p.1 ∧ InFormat f p.2)
    (ops ops' : List (AccOp (Num A × Num A))) (h : sinceReset ops = ps.map fun p => (.fin p.1, .fin p.2))
    (h' : sinceReset ops' = ps.map fun p => (.fin p.1, .fin (2 ^ j * p.2)))
    (hq : WestQuiet f (West.new : West (Num A)) (ps.filter fun p => decide (0 < p.2))) :
    let s := runOps West.addPair West.reset (West.new : West (Num A)) ops
    let t := runOps West.addPair West.reset (West.new : West (Num A)) ops'
    t.getCount = s.getCount ∧ ∀ w, t.sumWeights = .fin w →
      (∃ x, s.sumWeights = .fin x ∧ w = 2 ^ j * x) ∧ t.getMean = s.getMean ∧
      ∀ y, t.m2 = .fin y → t.populationVariance = s.populationVariance := by
  intro s t
  have e1 : s = _ := (C35_west ops).1
  have e2 : t = _ := (C35_west ops').1
  rw [h, filter_pairs (fun x => x) (fun x => x) (fun _ => Iff.rfl)] at e1
  rw [h', filter_pairs (fun x => x) (fun x => 2 ^ j * x) (fun w => mul_pos_iff_of_pos_left (by positivity))] at e2
  obtain ⟨r1, r2⟩ := west_weights hA j _ (fun p hp => hx p (List.mem_of_mem_filter hp)) (West.new : West (Num A)) West.new hq
    (fun _ _ => ⟨scaledTo_zero j, rfl, scaledTo_zero j⟩) rfl
  rw [← e1, ← e2] at r1 r2
  refine ⟨r2, fun w hw => ?_⟩
  obtain ⟨a1, a2, a3⟩ := r1 w hw
  obtain ⟨x, -, h1, h2⟩ := a1 w hw
  refine ⟨⟨x, h1, h2⟩, a2, fun y hy => ?_⟩
  obtain ⟨z, -, h3, h4⟩ := a3 y hy
  unfold West.populationVariance
  rw [r2, hw, hy, h1, h2, h3, h4, fin_div_scaled]

/-! ## Approx -/

theorem inFormat_abs {x : K} (h : InFormat f x) : InFormat f |x| := by
  rw [← fl_value h, fl_abs]
  exact fl_inFormat _

theorem scaledTo_abs {k : Nat} {u v : Num A} (h : ScaledTo f k u v) : ScaledTo f k (CxxFloat.abs u) (CxxFloat.abs v) := by
  intro y hy
  cases v with
  | nan => cases hy
  | inf n => cases hy
  | fin a =>
    obtain ⟨c, hc, rfl, rfl⟩ := h a rfl
    rw [Num.abs_fin] at hy ⊢
    cases hy
    exact ⟨|c|, inFormat_abs hc, rfl, by rw [abs_mul, abs_of_pos (show (0 : K) < 2 ^ k by positivity)]⟩

theorem scaledTo_le {k : Nat} {u u' v v' : Num A} (h : ScaledTo f k u v) (h' : ScaledTo f k u' v') {y y' : K} (hv : v = .fin y)
    (hv' : v' = .fin y') : CxxFloat.le v v' = CxxFloat.le u u' ∧ CxxFloat.lt v v' = CxxFloat.lt u u' := by
  obtain ⟨c, -, rfl, rfl⟩ := h y hv
  obtain ⟨d, -, rfl, rfl⟩ := h' y' hv'
  subst hv hv'
  have hp : (0 : K) < 2 ^ k := by positivity
  rw [Num.le_fin, Num.le_fin, Num.lt_fin, Num.lt_fin, decide_eq_decide, decide_eq_decide]
  exact ⟨mul_le_mul_iff_right₀ hp, mul_lt_mul_iff_right₀ hp⟩

/-- C183.  Approximate comparisons do not depend on the unit: with the number, the value and the absolute tolerance multiplied by
2^k and the same relative tolerance, all comparisons give the same answers, as long as the difference and the tolerance are finite. -/
theorem C183_approx (hA : A.IsFormat f) (k : Nat) {x v a r : K} (hx : InFormat f x) (hv : InFormat f v) (ha : InFormat f a)
    (hr : InFormat f r) (hn : NoUnderflow f (r * v)) {d e : K} (hd : (.fin (2 ^ k * x) - .fin (2 ^ k * v) : Num A) = .fin d)
    (he : (.fin r * .fin (2 ^ k * v) : Num A) = .fin e) :
    let p : Approx (Num A) := ⟨.fin v, .fin a, .fin r⟩
    let q : Approx (Num A) := ⟨.fin (2 ^ k * v), .fin (2 ^ k * a), .fin r⟩
    let y : Num A := .fin x
    let z : Num A := .fin (2 ^ k * x)
    Approx.eqL z q = Approx.eqL y p ∧ Approx.eqR q z = Approx.eqR p y ∧ Approx.neL z q = Approx.neL y p ∧
      Approx.neR q z = Approx.neR p y ∧ Approx.leL z q = Approx.leL y p ∧ Approx.leR q z = Approx.leR p y ∧
      Approx.geL z q = Approx.geL y p ∧ Approx.geR q z = Approx.geR p y := by
  intro p q y z
  have sx : ScaledTo f k y z := scaledTo_fin k hx
  have sv : ScaledTo f k p.value q.value := scaledTo_fin k hv
  have sa : ScaledTo f k p.abs q.abs := scaledTo_fin k ha
  have sr : ScaledTo f 0 (.fin r : Num A) (.fin r) := scaledTo_same (by rintro x ⟨⟩; exact hr)
  have sd := scaledTo_abs (scaledTo_sub hA sx sv)
  have st := scaledTo_prod hA sr sv (by rintro _ _ ⟨⟩ ⟨⟩; exact hn)
  rw [zero_add] at st
  have st := scaledTo_abs st
  have hd' : CxxFloat.abs (z - q.value) = (.fin |d| : Num A) := by
    show CxxFloat.abs (.fin (2 ^ k * x) - .fin (2 ^ k * v) : Num A) = _
    rw [hd, Num.abs_fin]
  have he' : CxxFloat.abs (q.rel * q.value) = (.fin |e| : Num A) := by
    show CxxFloat.abs (.fin r * .fin (2 ^ k * v) : Num A) = _
    rw [he, Num.abs_fin]
  have hlt := (scaledTo_le sa st rfl he').2
  have heq : Approx.eqL z q = Approx.eqL y p := by
    unfold Approx.eqL stdMax
    rw [hlt]
    split
    · exact (scaledTo_le sd st hd' he').1
    · exact (scaledTo_le sd sa hd' rfl).1
  have l1 : CxxFloat.lt z q.value = CxxFloat.lt y p.value := (scaledTo_le sx sv rfl rfl).2
  have l2 : CxxFloat.lt q.value z = CxxFloat.lt p.value y := (scaledTo_le sv sx rfl rfl).2
  unfold Approx.eqR Approx.neL Approx.neR Approx.leL Approx.leR Approx.geL Approx.geR Approx.eqR
  rw [heq, l1, l2]
  exact ⟨rfl, rfl, rfl, rfl, rfl, rfl, rfl, rfl⟩

end
/-! ## Standard deviations and errors, in `double` -/

section
variable {A : Arith ℝ}
local notation "dbl" => FloatFormat.double

theorem sqrt_above {x : ℝ} (hx : (2 : ℝ) ^ (-1074 : Int) ≤ x) : (2 : ℝ) ^ (-540 : Int) ≤ √x := by
  refine Real.le_sqrt_of_sq_le (le_trans ?_ hx)
  rw [← zpow_natCast, ← zpow_mul]
  exact zpow_le_zpow_right₀ one_le_two (by decide)

theorem scaledTo_sqrt (hA : A.IsFormat dbl) (hS : A.sqrt = Real.sqrt) {k : Nat} {u v : Num A} (h : ScaledTo dbl (k + k) u v) :
    ScaledTo dbl k (CxxFloat.sqrt u) (CxxFloat.sqrt v) ∧
      ∀ x, CxxFloat.sqrt u = .fin x → (∃ y, v = .fin y) → x = 0 ∨ (2 : ℝ) ^ (-540 : Int) ≤ x := by
  have key : ∀ c : ℝ, InFormat dbl c → 0 ≤ c → c = 0 ∨ (2 : ℝ) ^ (-540 : Int) ≤ √c := by
    intro c hc h0
    rcases ge_of_mult (value_mult hc) with h1 | h1
    · exact .inl h1
    · right
      rw [abs_of_nonneg h0] at h1
      exact sqrt_above h1
  constructor
  · intro y hy
    cases v with
    | nan => cases hy
    | inf n =>
      exfalso
      change Num.unary _ _ _ _ (.inf n) = _ at hy
      cases n <;> cases hy
    | fin a =>
      obtain ⟨c, hc, rfl, rfl⟩ := h a rfl
      by_cases h0 : 0 ≤ c
      · have e : √(2 ^ (k + k) * c) = 2 ^ k * √c := by
          rw [pow_add, ← sq, Real.sqrt_mul (by positivity), Real.sqrt_sq (by positivity)]
        rw [Num.sqrt_fin (by positivity), hS, e] at hy
        rw [Num.sqrt_fin h0, hS]
        refine scaledTo_round hA k ?_ y hy
        rcases key c hc h0 with rfl | h1
        · left; rw [Real.sqrt_zero]; exact ⟨0, by simp⟩
        · right
          rw [abs_of_nonneg (Real.sqrt_nonneg _)]
          exact le_trans (zpow_le_zpow_right₀ one_le_two (by decide)) h1
      · exfalso
        rw [Num.sqrt_neg (by have : (0 : ℝ) < 2 ^ (k + k) := by positivity
                             nlinarith)] at hy
        cases hy
  · rintro x hx ⟨y, hy⟩
    obtain ⟨c, hc, rfl, rfl⟩ := h y hy
    by_cases h0 : 0 ≤ c
    · rw [Num.sqrt_fin h0, hS] at hx
      rw [(round_format hA hx).1]
      rcases key c hc h0 with rfl | h1
      · left; rw [Real.sqrt_zero, fl_zero]
      · right
        have := fl_mono (f := dbl) h1
        rwa [fl_value (two_zpow_value (by decide))] at this
    · rw [Num.sqrt_neg (not_le.1 h0)] at hx
      cases hx

/-- C183.  The standard deviation and the error of the mean are multiplied by 2^k as well, whenever the variance of the original
values is above the smallest normal number. -/
theorem C183_deviation (hA : A.IsBinary64) (hS : A.sqrt = Real.sqrt) (k : Nat) (xs : List ℝ) (hx : ∀ x ∈ xs, Double x)
    (ops ops' : List (AccOp (Num A)))
    (h : sinceReset ops = xs.map .fin) (h' : sinceReset ops' = xs.map (fun x => .fin (2 ^ k * x)))
    (hq : WelfordQuiet dbl (KnuthWelford.new : KnuthWelford (Num A)) xs) (c : Bool) {y v : ℝ}
    (hy : (runOps KnuthWelford.addCore KnuthWelford.reset (KnuthWelford.new : KnuthWelford (Num A)) ops').variance c = .fin y)
    (hv : (runOps KnuthWelford.addCore KnuthWelford.reset (KnuthWelford.new : KnuthWelford (Num A)) ops).variance c = .fin v)
    (hn : (2 : ℝ) ^ (-1022 : Int) < v) :
    let s := runOps KnuthWelford.addCore KnuthWelford.reset (KnuthWelford.new : KnuthWelford (Num A)) ops
    let t := runOps KnuthWelford.addCore KnuthWelford.reset (KnuthWelford.new : KnuthWelford (Num A)) ops'
    (∀ z, t.standardDeviation c = .fin z → ∃ x, s.standardDeviation c = .fin x ∧ z = 2 ^ k * x) ∧
      ∀ z, t.error c = .fin z → ∃ x, s.error c = .fin x ∧ z = 2 ^ k * x := by
  intro s t
  have hF := isFormat_double.2 hA
  obtain ⟨h1, -, -, h4⟩ := C183_welford hF k xs hx ops ops' h h' hq
  obtain ⟨v', hv', h5⟩ := h4 c y hy
  obtain rfl : v = v' := Num.fin.inj (hv.symm.trans hv')
  have hvp : 0 < v := (two_zpow_pos _).trans hn
  have h6 := h5 (by rw [abs_of_pos hvp]; exact hn)
  have hvd : Double v := by
    have := hv
    unfold KnuthWelford.variance at this
    split at this
    · cases this
    · exact div_inFormat hF this
  have hsv : ScaledTo dbl (k + k) (s.variance c) (t.variance c) := by
    intro z hz
    obtain rfl : y = z := Num.fin.inj (hy.symm.trans hz)
    exact ⟨v, hvd, hv, by rw [h6, show (4 : ℝ) = 2 * 2 by norm_num, mul_pow, pow_add]⟩
  obtain ⟨r1, r2⟩ := scaledTo_sqrt hF hS hsv
  refine ⟨fun z hz => ?_, fun z hz => ?_⟩
  · obtain ⟨x, -, e1, e2⟩ := r1 z hz
    exact ⟨x, e1, e2⟩
  · unfold KnuthWelford.error KnuthWelford.standardDeviation at hz ⊢
    have hcnt : s.getCount < 2 ^ 64 := by
      have : s.getCount = _ := (C35_knuthWelford ops).2
      rw [this]; exact Nat.mod_lt _ (by positivity)
    have hcnt2 : 2 ≤ s.count := by
      by_contra hc
      have : s.variance c = .fin v := hv
      unfold KnuthWelford.variance at this
      rw [if_pos (by omega)] at this
      cases this
    have hg : (1 : ℝ) ≤ FloatFormat.rn dbl (s.getCount : ℝ) := rn_count_ge_one (by show 0 < s.count; omega)
    have hg2 : FloatFormat.rn dbl (s.getCount : ℝ) ≤ (2 : ℝ) ^ (64 : Int) := by
      have h7 : (s.getCount : ℝ) ≤ (2 : ℝ) ^ (64 : Int) := by
        have : ((s.getCount : Nat) : ℝ) ≤ ((2 ^ 64 : Nat) : ℝ) := by exact_mod_cast hcnt.le
        refine this.trans (le_of_eq ?_)
        norm_num
      have := fl_mono (f := dbl) h7
      rwa [fl_value (two_zpow_value (by decide))] at this
    have hsq : √(FloatFormat.rn dbl (s.getCount : ℝ)) ≤ (2 : ℝ) ^ (32 : Int) := by
      rw [Real.sqrt_le_left (two_zpow_pos _).le]
      refine hg2.trans (le_of_eq ?_)
      rw [← zpow_natCast, ← zpow_mul]
      norm_num
    have hden : CxxFloat.sqrt (CxxFloat.ofNat s.getCount : Num A) =
        .fin (FloatFormat.rn dbl √(FloatFormat.rn dbl (s.getCount : ℝ))) := by
      rw [Num.ofNat_eq, count_round hF hcnt, Num.sqrt_fin (by linarith), hS]
      refine round_le hF (e := 32) (by decide) (by decide) ?_
      rw [abs_of_nonneg (Real.sqrt_nonneg _)]
      exact hsq
    have hd1 : (1 : ℝ) ≤ FloatFormat.rn dbl √(FloatFormat.rn dbl (s.getCount : ℝ)) := by
      have := fl_mono (f := dbl) (Real.one_le_sqrt.2 hg)
      rwa [fl_value one_value] at this
    have hd2 : FloatFormat.rn dbl √(FloatFormat.rn dbl (s.getCount : ℝ)) ≤ (2 : ℝ) ^ (32 : Int) := by
      have := fl_mono (f := dbl) hsq
      rwa [fl_value (two_zpow_value (by decide))] at this
    have ht : t.getCount = s.getCount := h1
    rw [ht, hden] at hz
    rw [hden]
    have hnu : ∀ x, CxxFloat.sqrt (s.variance c) = .fin x →
        NoUnderflow dbl (x / FloatFormat.rn dbl √(FloatFormat.rn dbl (s.getCount : ℝ))) := by
      intro x hx
      rcases r2 x hx ⟨y, hy⟩ with rfl | h8
      · left; rw [zero_div]; exact ⟨0, by simp⟩
      · right
        rw [abs_of_nonneg (div_nonneg ((two_zpow_pos _).le.trans h8) (by linarith)), le_div_iff₀ (by linarith)]
        refine le_trans ?_ h8
        refine (mul_le_mul_of_nonneg_left hd2 (two_zpow_pos _).le).trans ?_
        rw [← zpow_add₀ two_ne_zero]
        exact zpow_le_zpow_right₀ one_le_two (by decide)
    obtain ⟨x, -, e1, e2⟩ := scaledTo_div_same hF r1 _ hnu z hz
    exact ⟨x, e1, e2⟩

/-! ## Examples -/

theorem small_int (hA : A.IsFormat dbl) (n : Int) (hn : |n| ≤ 4) : Num.round A (n : ℝ) = .fin (n : ℝ) := by
  have h := round_le hA (x := (n : ℝ)) (e := 2) (by decide) (by decide) (by
    rw [← Int.cast_abs]
    have : ((|n| : Int) : ℝ) ≤ 4 := by exact_mod_cast hn
    refine this.trans (le_of_eq (by norm_num)))
  rw [h, fl_value (int_value (le_trans hn (by norm_num [FloatFormat.double])))]

theorem noUnderflow_int (n : Int) : NoUnderflow dbl (n : ℝ) := .inl ⟨n * 2 ^ 1074, by
  rw [show FloatFormat.double.emin = -1074 from rfl]
  push_cast
  rw [mul_assoc, ← zpow_natCast, ← zpow_add₀ two_ne_zero]
  norm_num⟩

/-- The values 1 and 3: the mean is 1, then 2. -/
theorem quiet_example (hA : A.IsFormat dbl) : WelfordQuiet dbl (KnuthWelford.new : KnuthWelford (Num A)) [1, 3] := by
  have r : ∀ (z : ℝ) (n : Int), |n| ≤ 4 → z = n → Num.round A z = .fin (n : ℝ) := by
    rintro z n hn rfl
    exact small_int hA n hn
  have n1 : FloatFormat.rn dbl ((1 : Nat) : ℝ) = 1 := by rw [Nat.cast_one]; exact fl_value one_value
  have n2 : FloatFormat.rn dbl ((2 : Nat) : ℝ) = 2 := fl_value (by
    have := int_value (f := dbl) (K := ℝ) (n := 2) (by norm_num [FloatFormat.double])
    exact_mod_cast this)
  have c1 : (CxxFloat.ofNat 1 : Num A) = .fin 1 := by rw [Num.ofNat_eq, count_round hA (by norm_num), n1]
  have c2 : (CxxFloat.ofNat 2 : Num A) = .fin 2 := by rw [Num.ofNat_eq, count_round hA (by norm_num), n2]
  have d1 : (.fin 1 - (KnuthWelford.new : KnuthWelford (Num A)).mean) = .fin 1 := by
    show (.fin 1 - CxxFloat.zero : Num A) = _
    rw [Num.zero_eq, Num.fin_sub, r _ 1 (by norm_num) (by norm_num), Int.cast_one]
  have m1 : ((KnuthWelford.new : KnuthWelford (Num A)).addCore (.fin 1)).mean = .fin 1 := by
    show CxxFloat.zero + (.fin 1 - (KnuthWelford.new : KnuthWelford (Num A)).mean) / CxxFloat.ofNat 1 = _
    rw [d1, c1, Num.zero_eq, Num.fin_div one_ne_zero, r _ 1 (by norm_num) (by norm_num), Num.fin_add,
      r _ 1 (by norm_num) (by norm_num), Int.cast_one]
  have d2 : (.fin 3 - .fin 1 : Num A) = .fin 2 := by
    rw [Num.fin_sub, r _ 2 (by norm_num) (by norm_num), Int.cast_ofNat]
  have m2 : (((KnuthWelford.new : KnuthWelford (Num A)).addCore (.fin 1)).addCore (.fin 3)).mean = .fin 2 := by
    show ((KnuthWelford.new : KnuthWelford (Num A)).addCore (.fin 1)).mean +
      (.fin 3 - ((KnuthWelford.new : KnuthWelford (Num A)).addCore (.fin 1)).mean) / CxxFloat.ofNat 2 = _
    rw [m1, d2, c2, Num.fin_div two_ne_zero, r _ 1 (by norm_num) (by norm_num), Num.fin_add,
      r _ 2 (by norm_num) (by norm_num), Int.cast_ofNat]
  have u : ∀ (z : ℝ) (n : Int), z = n → NoUnderflow dbl z := by
    rintro z n rfl
    exact noUnderflow_int n
  refine ⟨fun d hd => ?_, fun d d' hd hd' => ?_, fun d hd => ?_, fun d d' hd hd' => ?_, trivial⟩
  · rw [d1] at hd
    cases hd
    exact u _ 1 (by show (1 : ℝ) / FloatFormat.rn dbl ((1 : Nat) : ℝ) = _; rw [n1]; norm_num)
  · rw [d1] at hd
    rw [m1, Num.fin_sub, r _ 0 (by norm_num) (by norm_num)] at hd'
    cases hd
    cases hd'
    exact u _ 0 (by norm_num)
  · rw [m1, d2] at hd
    cases hd
    exact u _ 1 (by show (2 : ℝ) / FloatFormat.rn dbl ((2 : Nat) : ℝ) = _; rw [n2]; norm_num)
  · rw [m1, d2] at hd
    rw [m2, Num.fin_sub, r _ 1 (by norm_num) (by norm_num)] at hd'
    cases hd
    cases hd'
    exact u _ 2 (by norm_num)

/-- The values 1 and 3 with weights 1: the first step of `WestAccumulator`. -/
example (hA : A.IsFormat dbl) : WestQuiet dbl (West.new : West (Num A)) [(1, 1)] := by
  have r : ∀ (z : ℝ) (n : Int), |n| ≤ 4 → z = n → Num.round A z = .fin (n : ℝ) := by
    rintro z n hn rfl
    exact small_int hA n hn
  have u : ∀ (z : ℝ) (n : Int), z = n → NoUnderflow dbl z := by
    rintro z n rfl
    exact noUnderflow_int n
  have z0 : (West.new : West (Num A)).mean = .fin 0 := Num.zero_eq
  have z1 : (West.new : West (Num A)).sumWeights = .fin 0 := Num.zero_eq
  have d1 : (.fin 1 - (West.new : West (Num A)).mean) = .fin 1 := by
    rw [z0, Num.fin_sub, r _ 1 (by norm_num) (by norm_num), Int.cast_one]
  have w1 : (.fin 1 / ((West.new : West (Num A)).sumWeights + .fin 1)) = .fin 1 := by
    rw [z1, Num.fin_add, r _ 1 (by norm_num) (by norm_num), Int.cast_one, Num.fin_div one_ne_zero, r _ 1 (by norm_num) (by norm_num),
      Int.cast_one]
  have p1 : (.fin 1 * .fin 1 : Num A) = .fin 1 := by rw [Num.fin_mul, r _ 1 (by norm_num) (by norm_num), Int.cast_one]
  have m1 : ((West.new : West (Num A)).addCore (.fin 1) (.fin 1)).mean = .fin 1 := by
    show (West.new : West (Num A)).mean + .fin 1 / ((West.new : West (Num A)).sumWeights + .fin 1) *
      (.fin 1 - (West.new : West (Num A)).mean) = _
    rw [w1, d1, z0, p1, Num.fin_add, r _ 1 (by norm_num) (by norm_num), Int.cast_one]
  refine ⟨fun q d hq hd => ?_, fun d hd => ?_, fun q d hq hd => ?_, trivial⟩
  · rw [w1] at hq
    rw [d1] at hd
    cases hq
    cases hd
    exact u _ 1 (by norm_num)
  · rw [d1] at hd
    cases hd
    exact u _ 1 (by norm_num)
  · rw [d1, p1] at hq
    rw [m1, Num.fin_sub, r _ 0 (by norm_num) (by norm_num)] at hd
    cases hq
    cases hd
    exact u _ 0 (by norm_num)

example : sinceReset [AccOp.add (.fin (1 : ℝ) : Num A), .add (.fin 3)] = [1, 3].map .fin ∧
    sinceReset [AccOp.add (.fin ((2 : ℝ) ^ 4 * 1) : Num A), .add (.fin (2 ^ 4 * 3))] = [1, 3].map (fun x => .fin (2 ^ 4 * x)) :=
  ⟨rfl, rfl⟩

/-- 1 compared with 3 ± 1, and 2 with 6 ± 2. -/
example (hA : A.IsFormat dbl) : NoUnderflow dbl ((0 : ℝ) * 3) ∧ (.fin (2 ^ 1 * 1) - .fin (2 ^ 1 * 3) : Num A) = .fin (-4) ∧
    (.fin 0 * .fin (2 ^ 1 * 3) : Num A) = .fin 0 := by
  refine ⟨by rw [zero_mul]; exact_mod_cast noUnderflow_int 0, ?_, ?_⟩
  · rw [Num.fin_sub]
    have := small_int hA (-4) (by norm_num)
    rw [show (2 : ℝ) ^ 1 * 1 - 2 ^ 1 * 3 = ((-4 : Int) : ℝ) by norm_num, this]
    norm_num
  · rw [Num.fin_mul, zero_mul]
    have := small_int hA 0 (by norm_num)
    simpa using this

end
end Bwsl
