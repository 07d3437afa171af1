import Verif.Lemmas.Odd
import Verif.Props.SignedZero

/-! C178: what negating all the values does. -/

namespace Bwsl
open Spec

set_option linter.unusedSectionVars false

section
variable {K : Type} [Field K] [LinearOrder K] [IsStrictOrderedRing K] {A : Arith K}

/-- States with the opposite sum or mean. -/
def Kahan.opposite (s : Kahan (Num A)) : Kahan (Num A) := ⟨-s.sum, -s.c, s.count⟩
def Neumaier.opposite (s : Neumaier (Num A)) : Neumaier (Num A) := ⟨-s.sum, -s.c, s.count⟩
def KnuthWelford.opposite (s : KnuthWelford (Num A)) : KnuthWelford (Num A) := ⟨-s.mean, s.m2, s.count⟩
def West.opposite (s : West (Num A)) : West (Num A) := ⟨s.sumWeights, s.sumWeights2, -s.mean, s.m2, s.count⟩

variable (hA : A.IsOdd)
include hA

theorem kahan_opposite (s : Kahan (Num A)) (x : Num A) : s.opposite.addCore (-x) = (s.addCore x).opposite := by
  unfold Kahan.addCore Kahan.opposite
  simp only [Num.neg_sub_neg hA, Num.neg_add_neg hA]

theorem neumaier_opposite (s : Neumaier (Num A)) (x : Num A) : s.opposite.addCore (-x) = (s.addCore x).opposite := by
  unfold Neumaier.addCore Neumaier.opposite
  simp only [Num.neg_sub_neg hA, Num.neg_add_neg hA, Num.abs_neg]
  split <;> rfl

theorem welford_opposite (f : Bool) (s : KnuthWelford (Num A)) (x : Num A) :
    s.opposite.addContracted f (-x) = (s.addContracted f x).opposite := by
  unfold KnuthWelford.addContracted KnuthWelford.opposite
  simp only [Num.neg_sub_neg hA, Num.neg_add_neg hA, Num.neg_div hA, mulAdd_neg_neg hA]

theorem west_opposite (c : WestFused) (s : West (Num A)) (p : Num A × Num A) :
    s.opposite.addContracted c (-p.1, p.2) = (s.addContracted c p).opposite := by
  unfold West.addContracted
  by_cases h : CxxFloat.lt CxxFloat.zero p.2 = true
  · rw [if_pos h, if_pos h]
    unfold West.addCoreContracted West.opposite
    simp only [Num.neg_sub_neg hA, mulAdd_neg_right hA, Num.mul_neg hA, mulAdd_neg_neg hA]
  · rw [if_neg h, if_neg h]

/-- C178.  A `KahanAccumulator` that is given the opposite of every value reports the opposite sum and mean. -/
theorem C178_kahan (ops : List (AccOp (Num A))) :
    let s := runOps Kahan.addCore Kahan.reset (Kahan.new : Kahan (Num A)) ops
    let t := runOps Kahan.addCore Kahan.reset (Kahan.new : Kahan (Num A)) (ops.map (AccOp.map (-·)))
    t.getSum = -s.getSum ∧ t.mean = -s.mean ∧ t.getCount = s.getCount := by
  intro s t
  have e : t = s.opposite := by
    have := (runOps_map (reset := Kahan.reset) (reset' := Kahan.reset) (-·) Kahan.opposite (fun _ => True) (fun s x _ => ⟨kahan_opposite hA s x, trivial⟩)
      (fun s _ => ⟨show (⟨CxxFloat.zero, CxxFloat.zero, 0⟩ : Kahan (Num A)) = ⟨-CxxFloat.zero, -CxxFloat.zero, 0⟩ by
        rw [Num.neg_zero], trivial⟩) ops Kahan.new trivial).1
    rwa [show (Kahan.new : Kahan (Num A)).opposite = Kahan.new by
      show (⟨-CxxFloat.zero, -CxxFloat.zero, 0⟩ : Kahan (Num A)) = ⟨CxxFloat.zero, CxxFloat.zero, 0⟩; rw [Num.neg_zero]] at this
  rw [e]
  exact ⟨rfl, Num.neg_div hA _ _, rfl⟩

theorem neumaier_new_opposite : (Neumaier.new : Neumaier (Num A)).opposite = Neumaier.new := by
  show (⟨-CxxFloat.zero, -CxxFloat.zero, 0⟩ : Neumaier (Num A)) = ⟨CxxFloat.zero, CxxFloat.zero, 0⟩; rw [Num.neg_zero]

theorem neumaier_report_opposite (s : Neumaier (Num A)) :
    s.opposite.getSum = -s.getSum ∧ s.opposite.mean = -s.mean ∧ s.opposite.getCount = s.getCount := by
  have h : s.opposite.getSum = -s.getSum := Num.neg_add_neg hA _ _
  refine ⟨h, ?_, rfl⟩
  unfold Neumaier.mean
  rw [h, Num.neg_div hA]; rfl

/-- C178.  A `NeumaierAccumulator` that is given the opposite of every value reports the opposite sum and mean. -/
theorem C178_neumaier (ops : List (AccOp (Num A))) :
    let s := runOps Neumaier.addCore Neumaier.reset (Neumaier.new : Neumaier (Num A)) ops
    let t := runOps Neumaier.addCore Neumaier.reset (Neumaier.new : Neumaier (Num A)) (ops.map (AccOp.map (-·)))
    t.getSum = -s.getSum ∧ t.mean = -s.mean ∧ t.getCount = s.getCount := by
  intro s t
  have e : t = s.opposite := by
    have := (runOps_map (reset := Neumaier.reset) (reset' := Neumaier.reset) (-·) Neumaier.opposite (fun _ => True) (fun s x _ => ⟨neumaier_opposite hA s x, trivial⟩)
      (fun s _ => ⟨(neumaier_new_opposite hA).symm, trivial⟩) ops Neumaier.new trivial).1
    rwa [neumaier_new_opposite hA] at this
  rw [e]
  exact neumaier_report_opposite hA s

/-- C178.  A `KnuthWelfordAccumulator` that is given the opposite of every value reports the opposite mean and sum and the same
measures of spread, whether or not the product is fused. -/
theorem C178_welford (f : Bool) (ops : List (AccOp (Num A))) (corrected : Bool) :
    let s := runOps (KnuthWelford.addContracted f) KnuthWelford.reset (KnuthWelford.new : KnuthWelford (Num A)) ops
    let t := runOps (KnuthWelford.addContracted f) KnuthWelford.reset (KnuthWelford.new : KnuthWelford (Num A))
      (ops.map (AccOp.map (-·)))
    t.getMean = -s.getMean ∧ t.sum = -s.sum ∧ t.variance corrected = s.variance corrected ∧ t.scaledVariance = s.scaledVariance ∧
      t.standardDeviation corrected = s.standardDeviation corrected ∧ t.error corrected = s.error corrected ∧
      t.getCount = s.getCount := by
  intro s t
  have e0 : (KnuthWelford.new : KnuthWelford (Num A)).opposite = KnuthWelford.new := by
    show (⟨-CxxFloat.zero, CxxFloat.zero, 0⟩ : KnuthWelford (Num A)) = ⟨CxxFloat.zero, CxxFloat.zero, 0⟩; rw [Num.neg_zero]
  have e : t = s.opposite := by
    have := (runOps_map (reset := KnuthWelford.reset) (reset' := KnuthWelford.reset) (-·) KnuthWelford.opposite (fun _ => True) (fun s x _ => ⟨welford_opposite hA f s x, trivial⟩)
      (fun s _ => ⟨e0.symm, trivial⟩) ops KnuthWelford.new trivial).1
    rwa [e0] at this
  rw [e]
  exact ⟨rfl, Num.neg_mul hA _ _, rfl, rfl, rfl, rfl, rfl⟩

/-- C178.  A `WestAccumulator` that is given the opposite of every value, with the same weights, reports the opposite mean and sum
and the same variances, whether or not products are fused. -/
theorem C178_west (c : WestFused) (ops : List (AccOp (Num A × Num A))) :
    let s := runOps (West.addContracted c) West.reset (West.new : West (Num A)) ops
    let t := runOps (West.addContracted c) West.reset (West.new : West (Num A)) (ops.map (AccOp.map (fun p => (-p.1, p.2))))
    t.getMean = -s.getMean ∧ t.sum = -s.sum ∧ t.populationVariance = s.populationVariance ∧
      t.sampleFrequencyVariance = s.sampleFrequencyVariance ∧ t.sampleReliabilityVariance = s.sampleReliabilityVariance ∧
      t.getCount = s.getCount := by
  intro s t
  have e0 : (West.new : West (Num A)).opposite = West.new := by
    show (⟨CxxFloat.zero, CxxFloat.zero, -CxxFloat.zero, CxxFloat.zero, 0⟩ : West (Num A)) = ⟨_, _, CxxFloat.zero, _, 0⟩
    rw [Num.neg_zero]
  have e : t = s.opposite := by
    have := (runOps_map (reset := West.reset) (reset' := West.reset) (fun p => (-p.1, p.2)) West.opposite (fun _ => True) (fun s x _ => ⟨west_opposite hA c s x, trivial⟩)
      (fun s _ => ⟨e0.symm, trivial⟩) ops West.new trivial).1
    rwa [e0] at this
  rw [e]
  exact ⟨rfl, Num.neg_mul hA _ _, rfl, rfl, rfl, rfl⟩

omit hA in
theorem measurements_HistOp_map {X Y : Type} (φ : X → Y) (ops : List (HistOp X)) :
    measurements (ops.map (HistOp.map φ)) = (measurements ops).map (fun m => (m.1, φ m.2)) := by
  have hany : ∀ ops : List (HistOp X), (ops.map (HistOp.map φ)).any measurements.isReset = ops.any measurements.isReset := by
    intro ops
    rw [List.any_map]
    congr 1
    funext o
    cases o <;> rfl
  induction ops with
  | nil => rfl
  | cons o ops ih =>
    cases o with
    | add i x =>
      rw [List.map_cons, HistOp.map, measurements, measurements, hany, ih]
      split <;> rfl
    | forceAdd i x =>
      rw [List.map_cons, HistOp.map, measurements, measurements, hany, ih]
      split <;> rfl
    | reset => rw [List.map_cons, HistOp.map, measurements, measurements, ih]

omit hA in
theorem addressed_HistOp_map {X Y : Type} (φ : X → Y) (n : Nat) (ops : List (HistOp X)) :
    Addressed n (ops.map (HistOp.map φ)) ↔ Addressed n ops := by
  induction ops generalizing n with
  | nil => rfl
  | cons o ops ih => cases o <;> simp only [List.map_cons, HistOp.map, Addressed, ih]

omit hA in
theorem binsAfter_HistOp_map {X Y : Type} (φ : X → Y) (n : Nat) (ops : List (HistOp X)) :
    binsAfter n (ops.map (HistOp.map φ)) = binsAfter n ops := by
  induction ops generalizing n with
  | nil => rfl
  | cons o ops ih => cases o <;> simp only [List.map_cons, HistOp.map, binsAfter, ih]

omit hA in
theorem inBin_values {X Y : Type} (φ : X → Y) (i : Nat) (ms : List (Nat × X)) :
    inBin i (ms.map (fun m => (m.1, φ m.2))) = (inBin i ms).map φ := by
  unfold inBin
  rw [List.filter_map, List.map_map, List.map_map]
  rfl

theorem neumaier_foldl_opposite (xs : List (Num A)) (s : Neumaier (Num A)) :
    (xs.map (-·)).foldl Neumaier.addCore s.opposite = (xs.foldl Neumaier.addCore s).opposite := by
  induction xs generalizing s with
  | nil => rfl
  | cons x xs ih => rw [List.map_cons, List.foldl_cons, List.foldl_cons, neumaier_opposite hA, ih]

/-- C178.  A histogram that is given the opposite of every measurement has the opposite result in every bin. -/
theorem C178_histogram (n : Nat) (hn : n < 2 ^ 64) (ops : List (HistOp (Num A))) (ha : Addressed n ops) (h : Hist (Num A))
    (hh : (Hist.new n).run ops = .ok h) :
    ∃ t : Hist (Num A), (Hist.new n).run (ops.map (HistOp.map (-·))) = .ok t ∧ t.getNbins = h.getNbins ∧
      ∀ i, i < h.getNbins → ∃ x, h.getResult i = .ok x ∧ t.getResult i = .ok (-x) := by
  obtain ⟨hb, hi⟩ := hist_state n hn ops ha h hh
  have ha' := (addressed_HistOp_map (-· : Num A → Num A) n ops).2 ha
  obtain ⟨t, ht, -⟩ := hist_run (ops.map (HistOp.map (-·))) (Hist.new n) [] (histInv_new n hn) ha'
  obtain ⟨tb, ti⟩ := hist_state n hn _ ha' t ht
  rw [measurements_HistOp_map] at ti
  rw [binsAfter_HistOp_map] at tb
  have hnb : t.nbins = h.nbins := by rw [tb, hb]
  refine ⟨t, ht, hnb, fun i hlt => ?_⟩
  obtain ⟨a, e1⟩ := hi.get hlt
  obtain ⟨a', e2⟩ := ti.get (i := i) (by rw [hnb]; exact hlt)
  have v1 := hi.bins i a e1
  have v2 := ti.bins i a' e2
  rw [inBin_values, ← neumaier_new_opposite hA, neumaier_foldl_opposite hA, ← v1] at v2
  have hc : t.count = h.count := by rw [hi.count, ti.count, List.length_map]
  obtain ⟨r1, -, r3⟩ := neumaier_report_opposite hA a
  unfold Hist.getResult
  rw [e1, e2, v2]
  simp only [r3, r1, hc]
  split
  · exact ⟨_, rfl, by rw [Num.neg_zero]⟩
  · exact ⟨_, rfl, by rw [Num.neg_div hA]⟩

/-- C178.  Linear interpolation between the opposite values gives the opposite value, whichever product is fused. -/
theorem C178_lerp (f : Fused) (a b t : Num A) : lerpContracted f (-a) (-b) t = -lerpContracted f a b t := by
  cases f
  · show (CxxFloat.ofInt 1 - t) * -a + t * -b = -((CxxFloat.ofInt 1 - t) * a + t * b)
    rw [Num.mul_neg hA, Num.mul_neg hA, Num.neg_add_neg hA]
  · show Num.fma (CxxFloat.ofInt 1 - t) (-a) (t * -b) = -Num.fma (CxxFloat.ofInt 1 - t) a (t * b)
    rw [Num.fma_comm, Num.mul_neg hA, Num.fma_neg hA, Num.fma_comm]
  · show Num.fma t (-b) ((CxxFloat.ofInt 1 - t) * -a) = -Num.fma t b ((CxxFloat.ofInt 1 - t) * a)
    rw [Num.fma_comm, Num.mul_neg hA, Num.fma_neg hA, Num.fma_comm]

/-- C178.  The norm of a vector does not depend on the signs of its components, whether or not products are fused. -/
theorem C178_l2norm (f : Bool) (v w : List (Num A)) (h : List.Forall₂ (fun x y => y = x ∨ y = -x) v w) :
    l2normContracted f w = l2normContracted f v := by
  unfold l2normContracted
  congr 1
  generalize (CxxFloat.zero : Num A) = d
  induction h generalizing d with
  | nil => rfl
  | cons h _ ih =>
    rw [List.foldl_cons, List.foldl_cons]
    rcases h with rfl | rfl
    · exact ih _
    · rw [mulAdd_neg_neg hA]; exact ih _

omit hA in
/-- C178.  Without fused products these are the functions of the other properties. -/
theorem C178_plain (s : KnuthWelford (Num A)) (w : West (Num A)) (x a b t : Num A) (p : Num A × Num A) (v : List (Num A)) :
    s.addContracted false x = s.addCore x ∧ w.addContracted ⟨false, false, false⟩ p = w.addPair p ∧
    lerpContracted .neither a b t = lerp a b t ∧ l2normContracted false v = l2norm v :=
  ⟨rfl, (west_addPair w p).symm, rfl, rfl⟩

/-- The hypothesis is met by double precision. -/
example [FloorRing K] (h : A.IsBinary64) : A.IsOdd := isOdd_binary64 h
end
end Bwsl
