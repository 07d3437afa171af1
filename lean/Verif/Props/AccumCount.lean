import Verif.Model.Accumulators
import Verif.Spec.Stats
import Verif.Lemmas.Num

/-! Properties C35, C40, C44, C45, C46 (accumulators): counts, resets, checks, serialization. -/

namespace Bwsl
open Spec

/-! ### Histories -/

/-- Running a history: the object after all the calls. -/
def runOps (add : σ → X → σ) (reset : σ → σ) (s : σ) : List (AccOp X) → σ
  | [] => s
  | .add x :: ops => runOps add reset (add s x) ops
  | .reset :: ops => runOps add reset (reset s) ops

theorem runOps_eq {add : σ → X → σ} {reset : σ → σ} {fresh : σ} (hr : ∀ s, reset s = fresh)
    (ops : List (AccOp X)) (s : σ) :
    (ops.any AccOp.isReset = true →
      runOps add reset s ops = (sinceReset ops).foldl add fresh) ∧
    (ops.any AccOp.isReset = false →
      runOps add reset s ops = (sinceReset ops).foldl add s) := by
  induction ops generalizing s with
  | nil => simp [runOps, sinceReset]
  | cons o ops ih =>
    cases o with
    | add x =>
      obtain ⟨h1, h2⟩ := ih (add s x)
      constructor
      · intro h
        simp only [List.any_cons, AccOp.isReset, Bool.false_or] at h
        rw [runOps, h1 h, sinceReset, if_pos h]
      · intro h
        simp only [List.any_cons, AccOp.isReset, Bool.false_or] at h
        rw [runOps, h2 h, sinceReset, if_neg (by simpa using h), List.foldl_cons]
    | reset =>
      refine ⟨fun _ => ?_, fun h => by simp [AccOp.isReset] at h⟩
      obtain ⟨h1, h2⟩ := ih (reset s)
      rw [runOps, sinceReset]
      cases hb : ops.any AccOp.isReset with
      | true => exact h1 hb
      | false => rw [h2 hb, hr]

/-- A history on a fresh object is the additions since the last reset. -/
theorem runOps_fresh {add : σ → X → σ} {reset : σ → σ} {fresh : σ} (hr : ∀ s, reset s = fresh)
    (ops : List (AccOp X)) : runOps add reset fresh ops = (sinceReset ops).foldl add fresh := by
  obtain ⟨h1, h2⟩ := runOps_eq (add := add) hr ops fresh
  cases hb : ops.any AccOp.isReset with
  | true => exact h1 hb
  | false => exact h2 hb

theorem foldl_count {add : σ → X → σ} {count : σ → Nat} (ha : ∀ s x, count (add s x) = succU (count s))
    (xs : List X) (s : σ) (hs : count s < W64) : count (xs.foldl add s) = (count s + xs.length) % W64 := by
  induction xs generalizing s with
  | nil => rw [List.foldl_nil, List.length_nil, Nat.add_zero, Nat.mod_eq_of_lt hs]
  | cons x xs ih =>
    rw [List.foldl_cons, ih _ (by rw [ha]; exact Nat.mod_lt _ (by decide)), ha, List.length_cons]
    unfold succU; omega

section
variable {F : Type} [CxxFloat F]

/-- C35.  KahanAccumulator: a history of calls has the effect of adding, to a fresh object, the values added
since the last `Reset`, and `Count()` is their number. -/
theorem C35_kahan (ops : List (AccOp F)) :
    runOps Kahan.addCore Kahan.reset Kahan.new ops = (sinceReset ops).foldl Kahan.addCore Kahan.new ∧
    (runOps Kahan.addCore Kahan.reset Kahan.new ops).getCount = (sinceReset ops).length % 2 ^ 64 := by
  have h := runOps_fresh (add := Kahan.addCore (F := F)) (reset := Kahan.reset) (fresh := Kahan.new)
    (fun _ => rfl) ops
  refine ⟨h, ?_⟩
  rw [h]
  have := foldl_count (add := Kahan.addCore (F := F)) (count := Kahan.getCount) (fun _ _ => rfl)
    (sinceReset ops) Kahan.new (Nat.zero_lt_succ _)
  rw [this, show (Kahan.new : Kahan F).getCount = 0 from rfl, Nat.zero_add]; rfl

/-- C35.  NeumaierAccumulator. -/
theorem C35_neumaier (ops : List (AccOp F)) :
    runOps Neumaier.addCore Neumaier.reset Neumaier.new ops =
      (sinceReset ops).foldl Neumaier.addCore Neumaier.new ∧
    (runOps Neumaier.addCore Neumaier.reset Neumaier.new ops).getCount = (sinceReset ops).length % 2 ^ 64 := by
  have h := runOps_fresh (add := Neumaier.addCore (F := F)) (reset := Neumaier.reset) (fresh := Neumaier.new)
    (fun _ => rfl) ops
  refine ⟨h, ?_⟩
  rw [h]
  have := foldl_count (add := Neumaier.addCore (F := F)) (count := Neumaier.getCount) (fun _ _ => rfl)
    (sinceReset ops) Neumaier.new (Nat.zero_lt_succ _)
  rw [this, show (Neumaier.new : Neumaier F).getCount = 0 from rfl, Nat.zero_add]; rfl

/-- C35.  KnuthWelfordAccumulator. -/
theorem C35_knuthWelford (ops : List (AccOp F)) :
    runOps KnuthWelford.addCore KnuthWelford.reset KnuthWelford.new ops =
      (sinceReset ops).foldl KnuthWelford.addCore KnuthWelford.new ∧
    (runOps KnuthWelford.addCore KnuthWelford.reset KnuthWelford.new ops).getCount =
      (sinceReset ops).length % 2 ^ 64 := by
  have h := runOps_fresh (add := KnuthWelford.addCore (F := F)) (reset := KnuthWelford.reset)
    (fresh := KnuthWelford.new) (fun _ => rfl) ops
  refine ⟨h, ?_⟩
  rw [h]
  have := foldl_count (add := KnuthWelford.addCore (F := F)) (count := KnuthWelford.getCount) (fun _ _ => rfl)
    (sinceReset ops) KnuthWelford.new (Nat.zero_lt_succ _)
  rw [this, show (KnuthWelford.new : KnuthWelford F).getCount = 0 from rfl, Nat.zero_add]; rfl

/-- `WestAccumulator::Add` without checks, as a function of the pair of its arguments. -/
def West.addPair (s : West F) (p : F × F) : West F := (West.add false s p.1 p.2).state

theorem west_addPair (s : West F) (p : F × F) :
    West.addPair s p = if CxxFloat.lt CxxFloat.zero p.2 then s.addCore p.1 p.2 else s := by
  unfold West.addPair West.add guarded
  by_cases h : CxxFloat.lt CxxFloat.zero p.2 = true
  · rw [if_pos h, if_pos h, if_neg (by simp)]
  · rw [if_neg h, if_neg h]

theorem west_foldl (ps : List (F × F)) (s : West F) :
    ps.foldl West.addPair s =
      (ps.filter (fun p => CxxFloat.lt CxxFloat.zero p.2)).foldl (fun s p => s.addCore p.1 p.2) s := by
  induction ps generalizing s with
  | nil => rfl
  | cons p ps ih =>
    rw [List.foldl_cons, ih, west_addPair]
    by_cases h : CxxFloat.lt CxxFloat.zero p.2 = true
    · rw [if_pos h, List.filter_cons, if_pos h, List.foldl_cons]
    · rw [if_neg h, List.filter_cons, if_neg h]

/-- C35.  WestAccumulator: only the samples whose weight compares greater than zero count. -/
theorem C35_west (ops : List (AccOp (F × F))) :
    runOps West.addPair West.reset West.new ops =
      ((sinceReset ops).filter (fun p => CxxFloat.lt CxxFloat.zero p.2)).foldl
        (fun s p => s.addCore p.1 p.2) West.new ∧
    (runOps West.addPair West.reset West.new ops).getCount =
      ((sinceReset ops).filter (fun p => CxxFloat.lt CxxFloat.zero p.2)).length % 2 ^ 64 := by
  have h := runOps_fresh (add := West.addPair (F := F)) (reset := West.reset) (fresh := West.new)
    (fun _ => rfl) ops
  rw [west_foldl] at h
  refine ⟨h, ?_⟩
  rw [h]
  have := foldl_count (add := fun (s : West F) (p : F × F) => s.addCore p.1 p.2) (count := West.getCount)
    (fun _ _ => rfl) ((sinceReset ops).filter (fun p => CxxFloat.lt CxxFloat.zero p.2)) West.new (Nat.zero_lt_succ _)
  rw [this, show (West.new : West F).getCount = 0 from rfl, Nat.zero_add]; rfl

/-- C35.  After `Reset` an object is the freshly constructed one. -/
theorem C35_reset (k : Kahan F) (n : Neumaier F) (w : KnuthWelford F) (v : West F) (i : NaiveInteger) :
    k.reset = Kahan.new ∧ n.reset = Neumaier.new ∧ w.reset = KnuthWelford.new ∧ v.reset = West.new ∧
      i.reset = NaiveInteger.new := ⟨rfl, rfl, rfl, rfl, rfl⟩

example : sinceReset [AccOp.add 1, .reset, .add 2, .add (3 : Nat)] = [2, 3] := by decide

/-! ### Checks -/

/-- C44.  With the checks, `Add` on a full accumulator throws and changes nothing; in every other case it
returns normally and has the effect of the unchecked `Add`. -/
theorem C44_checked (k : Kahan F) (n : Neumaier F) (w : KnuthWelford F) (x : F) :
    (k.add true x = if k.getCount = 2 ^ 64 - 1 then ⟨k, .throws .accumulatorOverflow⟩
      else ⟨k.addCore x, .ok ()⟩) ∧
    (n.add true x = if n.getCount = 2 ^ 64 - 1 then ⟨n, .throws .accumulatorOverflow⟩
      else ⟨n.addCore x, .ok ()⟩) ∧
    (w.add true x = if w.getCount = 2 ^ 64 - 1 then ⟨w, .throws .accumulatorOverflow⟩
      else ⟨w.addCore x, .ok ()⟩) := by
  refine ⟨?_, ?_, ?_⟩
  · unfold Kahan.add guarded Kahan.getCount
    simp only [true_and, show (2 : Nat) ^ 64 - 1 = W64 - 1 from rfl]
  · unfold Neumaier.add guarded Neumaier.getCount
    simp only [true_and, show (2 : Nat) ^ 64 - 1 = W64 - 1 from rfl]
  · unfold KnuthWelford.add guarded KnuthWelford.getCount
    simp only [true_and, show (2 : Nat) ^ 64 - 1 = W64 - 1 from rfl]

/-- C44.  WestAccumulator: the same for samples of positive weight; other samples never throw. -/
theorem C44_checked_west (s : West F) (x w : F) :
    s.add true x w =
      if CxxFloat.lt CxxFloat.zero w then
        (if s.getCount = 2 ^ 64 - 1 then ⟨s, .throws .accumulatorOverflow⟩ else ⟨s.addCore x w, .ok ()⟩)
      else ⟨s, .ok ()⟩ := by
  unfold West.add guarded West.getCount
  simp only [true_and, show (2 : Nat) ^ 64 - 1 = W64 - 1 from rfl]

/-- C44.  Without the checks nothing is ever thrown. -/
theorem C44_unchecked (k : Kahan F) (n : Neumaier F) (w : KnuthWelford F) (v : West F) (x y : F) :
    k.add false x = ⟨k.addCore x, .ok ()⟩ ∧ n.add false x = ⟨n.addCore x, .ok ()⟩ ∧
    w.add false x = ⟨w.addCore x, .ok ()⟩ ∧ (v.add false x y).res = .ok () := by
  refine ⟨?_, ?_, ?_, ?_⟩
  · unfold Kahan.add guarded; rw [if_neg (by simp)]
  · unfold Neumaier.add guarded; rw [if_neg (by simp)]
  · unfold KnuthWelford.add guarded; rw [if_neg (by simp)]
  · unfold West.add guarded
    split
    · rw [if_neg (by simp)]
    · rfl

/-- C45 is violated: with the checks, `NaiveInteger::Add` never returns normally.  If `x * x` fits it
throws. -/
theorem C45_violated (s : NaiveInteger) (x : Int) :
    (∀ s', s.add true x ≠ .ok s') ∧ (InLong (x * x) → s.add true x = .throws .accumulatorOverflow) := by
  have key : InLong (x * x) → s.guard x = .ok true := by
    intro h
    unfold NaiveInteger.guard
    split
    · rfl
    · split
      · rfl
      · have e : lmul x x = .ok (x * x) := long_ok h
        rw [e, Res.ok_bind, if_neg (by have := toSize_lt s.sum2; omega)]
        simp only [decide_eq_true (mul_self_nonneg x)]
  by_cases h : InLong (x * x)
  · have e : s.add true x = .throws .accumulatorOverflow := by
      unfold NaiveInteger.add
      rw [key h]; rfl
    exact ⟨fun s' => by rw [e]; simp, fun _ => e⟩
  · refine ⟨fun s' hs => ?_, fun h' => absurd h' h⟩
    unfold NaiveInteger.add at hs
    rw [if_pos rfl] at hs
    obtain ⟨g, hg, hs⟩ := Res.bind_eq_ok.1 hs
    unfold NaiveInteger.guard at hg
    split at hg
    · cases hg; simp at hs
    · split at hg
      · cases hg; simp at hs
      · have e : ∀ z, lmul x x ≠ .ok z := fun z hz => h (long_eq_ok.1 hz).1
        obtain ⟨z, hz, _⟩ := Res.bind_eq_ok.1 hg
        exact e z hz

/-- C45 (what the code does).  With the checks `Add` throws if the count is full, if the sample, read as an
`unsigned long`, reaches 2^64 - 1 minus the sum read alike, or if the square of the sample fits a `long`; in every other
case the square overflows. -/
theorem C45_outcome_partial (s : NaiveInteger) (x : Int) :
    s.add true x =
      if s.getCount = 2 ^ 64 - 1 ∨ 2 ^ 64 - 1 ≤ s.getSum % 2 ^ 64 + x % 2 ^ 64 ∨ InLong (x * x) then
        .throws .accumulatorOverflow
      else .ub .signedOverflow := by
  have hu : usub (W64 - 1) (toSize s.sum) ≤ toSize x ↔ 2 ^ 64 - 1 ≤ s.sum % 2 ^ 64 + x % 2 ^ 64 := by
    unfold usub toSize
    omega
  unfold NaiveInteger.getCount NaiveInteger.getSum
  rw [show (2 : Nat) ^ 64 - 1 = W64 - 1 from rfl]
  by_cases h1 : s.count = W64 - 1
  · rw [if_pos (.inl h1)]
    unfold NaiveInteger.add NaiveInteger.guard
    rw [if_pos rfl, if_pos h1]; rfl
  by_cases h2 : 2 ^ 64 - 1 ≤ s.sum % 2 ^ 64 + x % 2 ^ 64
  · rw [if_pos (.inr (.inl h2))]
    unfold NaiveInteger.add NaiveInteger.guard
    rw [if_pos rfl, if_neg h1, if_pos (hu.2 h2)]; rfl
  by_cases h3 : InLong (x * x)
  · rw [if_pos (.inr (.inr h3)), (C45_violated s x).2 h3]
  · rw [if_neg (by simp only [h1, h2, h3, or_self, not_false_iff])]
    unfold NaiveInteger.add NaiveInteger.guard
    rw [if_pos rfl, if_neg h1, if_neg (fun h => h2 (hu.1 h))]
    have e : lmul x x = .ub .signedOverflow := if_neg h3
    rw [e]; rfl

/-- C45: a sample that fits and is refused, one refused by the second test, and one whose square overflows. -/
example : NaiveInteger.new.add true 1 = .throws .accumulatorOverflow ∧
    NaiveInteger.new.add false 1 = .ok ⟨1, 1, 1⟩ ∧
    (NaiveInteger.mk (-2 ^ 62) 0 1).add true (-2 ^ 62) = .throws .accumulatorOverflow ∧
    NaiveInteger.new.add true (2 ^ 62) = .ub .signedOverflow := by decide

end

/-! ### Too few samples -/

section
variable {K : Type} [Field K] [LinearOrder K] {A : Arith K}

/-- C40.  With fewer than two samples every measure of spread is NaN. -/
theorem C40_nan (s : KnuthWelford (Num A)) (h : s.getCount < 2) (corrected : Bool) :
    s.variance corrected = .nan ∧ s.scaledVariance = .nan ∧ s.standardDeviation corrected = .nan ∧
      s.error corrected = .nan := by
  have hv : s.variance corrected = .nan := if_pos h
  have hd : s.standardDeviation corrected = .nan := by
    unfold KnuthWelford.standardDeviation; rw [hv, Num.sqrt_nan]
  refine ⟨hv, if_pos h, hd, ?_⟩
  unfold KnuthWelford.error
  rw [hd, Num.nan_div]

/-- C40.  WestAccumulator. -/
theorem C40_nan_west (s : West (Num A)) (h : s.getCount < 2) :
    s.populationVariance = .nan ∧ s.sampleFrequencyVariance = .nan ∧ s.sampleReliabilityVariance = .nan :=
  ⟨if_pos h, if_pos h, if_pos h⟩

/-- C40.  In terms of histories: at most one sample since the last reset. -/
theorem C40_nan_history (ops : List (AccOp (Num A))) (h : (sinceReset ops).length < 2) (corrected : Bool) :
    (runOps KnuthWelford.addCore KnuthWelford.reset KnuthWelford.new ops).variance corrected = .nan ∧
    (runOps KnuthWelford.addCore KnuthWelford.reset KnuthWelford.new ops).scaledVariance = .nan ∧
    (runOps KnuthWelford.addCore KnuthWelford.reset KnuthWelford.new ops).standardDeviation corrected = .nan ∧
    (runOps KnuthWelford.addCore KnuthWelford.reset KnuthWelford.new ops).error corrected = .nan :=
  C40_nan _ (by rw [(C35_knuthWelford ops).2]; omega) corrected

/-- C40.  NaiveIntegerAccumulator. -/
theorem C40_nan_integer (s : NaiveInteger) (h : s.getCount < 2) (corrected : Bool) :
    s.variance (Num A) corrected = .ok .nan ∧ s.scaledVariance (Num A) = .ok .nan ∧
      s.standardDeviation (Num A) corrected = .ok .nan := by
  have hv : s.variance (Num A) corrected = .ok .nan := if_pos h
  refine ⟨hv, if_pos h, ?_⟩
  unfold NaiveInteger.standardDeviation
  rw [hv, Res.ok_bind, Num.sqrt_nan]

end

end Bwsl
