import Verif.Lemmas.FloatHomModel
import Verif.Lemmas.Bravais
import Verif.Lemmas.Double
import Verif.Props.AccumCount
import Verif.Props.Hist

/-! Property C143: the sign of zeros. -/

namespace Bwsl
open Spec

set_option linter.unusedSectionVars false

/-- The same calls with other numbers. -/
def Spec.AccOp.map (φ : X → Y) : AccOp X → AccOp Y
  | .add x => .add (φ x)
  | .reset => .reset

def Spec.HistOp.map (φ : X → Y) : HistOp X → HistOp Y
  | .add i x => .add i (φ x)
  | .forceAdd i x => .forceAdd i (φ x)
  | .reset => .reset

theorem runOps_map {X Y : Type} {add : σ → X → σ} {add' : τ → Y → τ} {reset : σ → σ} {reset' : τ → τ} (φ : X → Y) (ψ : σ → τ)
    (I : σ → Prop) (ha : ∀ s x, I s → add' (ψ s) (φ x) = ψ (add s x) ∧ I (add s x))
    (hr : ∀ s, I s → reset' (ψ s) = ψ (reset s) ∧ I (reset s))
    (ops : List (AccOp X)) (s : σ) (hs : I s) :
    runOps add' reset' (ψ s) (ops.map (AccOp.map φ)) = ψ (runOps add reset s ops) ∧ I (runOps add reset s ops) := by
  induction ops generalizing s with
  | nil => exact ⟨rfl, hs⟩
  | cons op ops ih =>
    cases op with
    | add x =>
      have := ha s x hs
      simp only [List.map_cons, AccOp.map, runOps, this.1]
      exact ih _ this.2
    | reset =>
      have := hr s hs
      simp only [List.map_cons, AccOp.map, runOps, this.1]
      exact ih _ this.2

section
variable {K : Type} [Field K] [LinearOrder K] [IsStrictOrderedRing K] {A : Arith K}

/-- Exact arithmetic keeps signs. -/
theorem keepsSign_exact (hA : A.IsExact) : A.KeepsSign := by
  intro x y h hx
  rw [hA] at h
  cases h
  exact hx

theorem keepsSign_binary64 [FloorRing K] (hA : A.IsBinary64) : A.KeepsSign := by
  intro x y h hx
  rw [hA] at h
  unfold rnd64 at h
  split at h
  · cases h
    have := rn_mono hx
    rwa [rn_zero] at this
  · cases h

variable (hA : A.KeepsSign)
include hA

/-- C143.  After any calls, a `KahanAccumulator` reports the same with and without signed zeros. -/
theorem C143_kahan (ops : List (AccOp (SNum A))) :
    let s := runOps Kahan.addCore Kahan.reset (Kahan.new : Kahan (SNum A)) ops
    let t := runOps Kahan.addCore Kahan.reset (Kahan.new : Kahan (Num A)) (ops.map (AccOp.map SNum.val))
    t.getSum = s.getSum.val ∧ t.mean = s.mean.val ∧ t.getCount = s.getCount := by
  intro s t
  let h := SNum.forget hA
  have e : t = s.map h := by
    have := (runOps_map h.f (Kahan.map h) (fun _ => True) (fun s x _ => ⟨kahan_addCore h s x, trivial⟩)
      (fun s _ => ⟨(kahan_reset h s).symm, trivial⟩) ops Kahan.new trivial).1
    rwa [kahan_new] at this
  rw [e]
  exact ⟨rfl, kahan_mean h s, rfl⟩

/-- C143.  The same for a `NeumaierAccumulator`. -/
theorem C143_neumaier (ops : List (AccOp (SNum A))) :
    let s := runOps Neumaier.addCore Neumaier.reset (Neumaier.new : Neumaier (SNum A)) ops
    let t := runOps Neumaier.addCore Neumaier.reset (Neumaier.new : Neumaier (Num A)) (ops.map (AccOp.map SNum.val))
    t.getSum = s.getSum.val ∧ t.mean = s.mean.val ∧ t.getCount = s.getCount := by
  intro s t
  let h := SNum.forget hA
  have e : t = s.map h := by
    have := (runOps_map h.f (Neumaier.map h) (fun _ => True) (fun s x _ => ⟨neumaier_addCore h s x, trivial⟩)
      (fun s _ => ⟨(neumaier_reset h s).symm, trivial⟩) ops Neumaier.new trivial).1
    rwa [neumaier_new] at this
  rw [e]
  exact ⟨neumaier_getSum h s, neumaier_mean h s, rfl⟩

/-- C143.  The same for a `KnuthWelfordAccumulator`. -/
theorem C143_welford (ops : List (AccOp (SNum A))) (corrected : Bool) :
    let s := runOps KnuthWelford.addCore KnuthWelford.reset (KnuthWelford.new : KnuthWelford (SNum A)) ops
    let t := runOps KnuthWelford.addCore KnuthWelford.reset (KnuthWelford.new : KnuthWelford (Num A)) (ops.map (AccOp.map SNum.val))
    t.sum = s.sum.val ∧ t.getMean = s.getMean.val ∧ t.variance corrected = (s.variance corrected).val ∧
    t.scaledVariance = s.scaledVariance.val ∧ t.standardDeviation corrected = (s.standardDeviation corrected).val ∧
    t.error corrected = (s.error corrected).val ∧ t.getCount = s.getCount := by
  intro s t
  let h := SNum.forget hA
  have e : t = s.map h := by
    have := (runOps_map h.f (KnuthWelford.map h) (fun _ => True) (fun s x _ => ⟨welford_addCore h s x, trivial⟩)
      (fun s _ => ⟨(welford_reset h s).symm, trivial⟩) ops KnuthWelford.new trivial).1
    rwa [welford_new] at this
  rw [e]
  exact ⟨welford_sum h s, rfl, welford_variance h s _, welford_scaled h s, welford_sd h s _, welford_error h s _, rfl⟩

/-- C143.  The same for a `WestAccumulator` and measurements with weights. -/
theorem C143_west (ops : List (AccOp (SNum A × SNum A))) :
    let s := runOps (fun s p => (West.add false s p.1 p.2).state) West.reset (West.new : West (SNum A)) ops
    let t := runOps (fun s p => (West.add false s p.1 p.2).state) West.reset (West.new : West (Num A))
      (ops.map (AccOp.map (fun p => (p.1.val, p.2.val))))
    t.sum = s.sum.val ∧ t.getMean = s.getMean.val ∧ t.populationVariance = s.populationVariance.val ∧
    t.sampleFrequencyVariance = s.sampleFrequencyVariance.val ∧
    t.sampleReliabilityVariance = s.sampleReliabilityVariance.val ∧ t.getCount = s.getCount := by
  intro s t
  let h := SNum.forget hA
  have e := runOps_map (add := fun (s : West (SNum A)) p => (West.add false s p.1 p.2).state)
    (add' := fun (s : West (Num A)) p => (West.add false s p.1 p.2).state) (reset := West.reset) (reset' := West.reset)
    (fun p : SNum A × SNum A => (p.1.val, p.2.val)) (West.map h) (fun s => h.good s.sumWeights)
    (fun s p hs => ⟨congrArg Call.state (west_add h false s p.1 p.2 hs), west_good_add h false s p.1 p.2 hs⟩)
    (fun s _ => ⟨(west_reset h s).symm, h.good_zero⟩) ops West.new h.good_zero
  have e1 : t = s.map h := by
    have := e.1
    rwa [west_new] at this
  have hg : h.good s.sumWeights := e.2
  rw [e1]
  exact ⟨west_sum h s, rfl, west_population h s hg, west_frequency h s hg, west_reliability h s hg, rfl⟩

/-- C143.  With the overflow checks, the calls that throw are the same. -/
theorem C143_checks (x w : SNum A) :
    (∀ s : Kahan (SNum A), ((s.map (SNum.forget hA)).add true x.val).res = (s.add true x).res) ∧
    (∀ s : Neumaier (SNum A), ((s.map (SNum.forget hA)).add true x.val).res = (s.add true x).res) ∧
    (∀ s : KnuthWelford (SNum A), ((s.map (SNum.forget hA)).add true x.val).res = (s.add true x).res) ∧
    (∀ s : West (SNum A), ¬ s.sumWeights.IsMinusZero →
      ((s.map (SNum.forget hA)).add true x.val w.val).res = (s.add true x w).res) :=
  ⟨fun s => congrArg Call.res (kahan_add (SNum.forget hA) true s x),
   fun s => congrArg Call.res (neumaier_add (SNum.forget hA) true s x),
   fun s => congrArg Call.res (welford_add (SNum.forget hA) true s x),
   fun s hs => congrArg Call.res (west_add (SNum.forget hA) true s x w hs)⟩

/-- C143.  What a `NaiveIntegerAccumulator` reports in floating point. -/
theorem C143_naive (s : NaiveInteger) (corrected : Bool) :
    s.mean (Num A) = (s.mean (SNum A)).val ∧ s.variance (Num A) corrected = SNum.val <$> s.variance (SNum A) corrected ∧
    s.scaledVariance (Num A) = SNum.val <$> s.scaledVariance (SNum A) ∧
    s.standardDeviation (Num A) corrected = SNum.val <$> s.standardDeviation (SNum A) corrected :=
  let h := SNum.forget hA
  ⟨naive_mean h s, naive_variance h s _, naive_scaled h s, naive_sd h s _⟩

theorem hist_run_map (s : Hist (SNum A)) (ops : List (HistOp (SNum A))) :
    (s.map (SNum.forget hA)).run (ops.map (HistOp.map SNum.val)) = (·.map (SNum.forget hA)) <$> s.run ops := by
  induction ops generalizing s with
  | nil => rfl
  | cons op ops ih =>
    simp only [List.map_cons, Hist.run]
    refine bind_map _ (·.map (SNum.forget hA)) ?_ ih
    have key : ∀ (c : Call (Hist (SNum A)) Unit) (d : Call (Hist (Num A)) Unit),
        d = c.map (·.map (SNum.forget hA)) → d.toRes = (·.map (SNum.forget hA)) <$> c.toRes := by
      intro c d hd
      subst hd
      unfold Call.toRes
      cases hc : c.res <;> simp [Call.map, hc] <;> rfl
    cases op with
    | add i x => exact key _ _ (hist_add (SNum.forget hA) false s i x)
    | forceAdd i x => exact key _ _ (hist_forceAdd (SNum.forget hA) false s i x)
    | reset => exact congrArg Res.ok (hist_reset (SNum.forget hA) s).symm

/-- C143.  After any calls, a `HistAccumulator` reports the same with and without signed zeros, except `GetResults(idx)` if the
result of bin `idx` is -0.0. -/
theorem C143_hist (n : Nat) (ops : List (HistOp (SNum A))) (s : Hist (SNum A)) (hs : (Hist.new n).run ops = .ok s) :
    ∃ t : Hist (Num A), (Hist.new n).run (ops.map (HistOp.map SNum.val)) = .ok t ∧
      t.getResults = List.map SNum.val <$> s.getResults ∧
      (∀ i, t.getResult i = SNum.val <$> s.getResult i) ∧
      (∀ i, (∀ x, s.getResult i = .ok x → ¬ x.IsMinusZero) → t.getResultsBy i = List.map SNum.val <$> s.getResultsBy i) ∧
      t.getCount = s.getCount ∧ ∀ i, t.getCountAt i = s.getCountAt i := by
  let h := SNum.forget hA
  refine ⟨s.map h, ?_, hist_getResults h s, hist_getResult h s, hist_getResultsBy h s, rfl, fun i => ?_⟩
  · have := hist_run_map hA (Hist.new n) ops
    rw [hist_new, hs] at this
    exact this
  · unfold Hist.getCountAt
    simp only [Hist.map, List.getElem?_map]
    cases s.acc[i]? <;> rfl

/-- C143.  Calls on move statistics commute with forgetting the signs of zeros, throw the same exceptions, and the ratios are
the same. -/
theorem C143_moves (checks : Bool) (s : MoveStats (SNum A)) (p : SNum A) (r : MoveResult (SNum A)) (name : String) :
    let h := SNum.forget hA
    (MoveStats.new name).map h = MoveStats.new name ∧ s.reset.map h = (s.map h).reset ∧
    (s.map h).propose = s.propose.map (·.map h) ∧
    (s.map h).accept checks p.val = (s.accept checks p).map (·.map h) ∧
    (s.map h).reject checks p.val = (s.reject checks p).map (·.map h) ∧
    (s.map h).setImpossible checks = (s.setImpossible checks).map (·.map h) ∧
    (s.map h).add checks (r.map h) = (s.add checks r).map (·.map h) ∧
    (s.map h).getAcceptedRatio = s.getAcceptedRatio.val ∧ (s.map h).getRejectedRatio = s.getRejectedRatio.val ∧
    (s.map h).getImpossibleRatio = s.getImpossibleRatio.val ∧
    (s.map h).getAverageProbability = s.getAverageProbability.val :=
  let h := SNum.forget hA
  ⟨moveStats_new h name, moveStats_reset h s, moveStats_propose h s, moveStats_accept h checks s p, moveStats_reject h checks s p,
    moveStats_impossible h checks s, moveStats_add h checks s r, moveStats_ratios h s⟩

/-- C143.  Calls on groups of observables commute with forgetting the signs of zeros, throw the same exceptions, and the means
that are printed are the same. -/
theorem C143_groups {ι : Type} [LinearOrder ι] (checks : Bool) (g : ObsGroup (SNum A) ι) (k : ι) (ks : List ι) (x : SNum A)
    (file : String) :
    let h := SNum.forget hA
    (ObsGroup.newWith file ks).map h = ObsGroup.newWith file ks ∧
    (g.map h).addObservable k = (g.addObservable k).map h ∧
    (g.map h).measure checks k x.val = (g.measure checks k x).map (·.map h) ∧
    (g.map h).accumulator.map (fun p => (p.1, p.2.mean)) = g.accumulator.map (fun p => (p.1, p.2.mean.val)) :=
  let h := SNum.forget hA
  ⟨obs_newWith h file ks, obs_addObservable h g k, obs_measure h checks g k x, obs_means h g⟩

/-- C143.  The functions of a few numbers: `heaviside`, `heaviside2`, `lerp`, `lerpi`, `square`, `cube`, `sum_squared`,
`l2norm` and the conversion of rational numbers. -/
theorem C143_math (x y t : SNum A) (i j : Int) (v : List (SNum A)) (w : List Int) (r : RatNum) :
    heaviside x.val = (heaviside x).val ∧ heaviside2 x.val = (heaviside2 x).val ∧
    lerp x.val y.val t.val = (lerp x y t).val ∧ lerpi i j x.val y.val = (lerpi i j x y).val ∧
    squareF x.val = (squareF x).val ∧ cubeF x.val = (cubeF x).val ∧
    sumSquared (v.map SNum.val) = (sumSquared v).val ∧ l2norm (v.map SNum.val) = (l2norm v).val ∧
    (l2normL w : Res (Num A)) = SNum.val <$> l2normL w ∧ (r.toDouble : Num A) = (r.toDouble : SNum A).val :=
  let h := SNum.forget hA
  ⟨heaviside_map h x, heaviside2_map h x, lerp_map h x y t, lerpi_map h i j x y, squareF_map h x, cubeF_map h x,
    sumSquared_map h v, l2norm_map h v, l2normL_map h w, toDouble_map h r⟩

/-- C143.  The random choices, for the same numbers of the engine. -/
theorem C143_choose (r : ℚ) (hr : 0 ≤ r) (xs : List Nat) (ps : List (SNum A)) (p : SNum A) :
    chooseBetween (ps.map SNum.val) (uniformReal r xs) = chooseBetween ps (uniformReal r xs) ∧
    chooseBetweenPsums (ps.map SNum.val) (uniformReal r xs) = chooseBetweenPsums ps (uniformReal r xs) ∧
    chooseWithProbability p.val (uniformReal r xs) = chooseWithProbability p (uniformReal r xs) :=
  let h := SNum.forget hA
  have hd := uniformReal_map h r hr xs
  ⟨chooseBetween_map h ps _ _ hd, chooseBetweenPsums_map h ps _ _ hd, chooseWithProbability_map h p _ _ hd⟩

/-- C143.  `upper_bound` returns the same position, reads the same out-of-bounds elements and fails to return for the same
ranges. -/
theorem C143_upper_bound (round : Num A → Res Int) (xs : List (SNum A)) (v : SNum A) (first last : Int) :
    bwslUpperBound round (xs.map SNum.val) v.val first last =
      bwslUpperBound (fun x : SNum A => round x.val) xs v first last :=
  upperBound_map (SNum.forget hA) _ round (fun _ => rfl) xs v first last

/-- C143.  Comparisons with an `Approx`. -/
theorem C143_approx (a : Approx (SNum A)) (x y : SNum A) :
    let h := SNum.forget hA
    Approx.new x.val = (Approx.new x).map h ∧ (a.map h).setAbs x.val = (a.setAbs x).map h ∧
    (a.map h).setRel x.val = (a.setRel x).map h ∧ Approx.eqL y.val (a.map h) = Approx.eqL y a ∧
    Approx.leL y.val (a.map h) = Approx.leL y a ∧ Approx.leR (a.map h) y.val = Approx.leR a y ∧
    Approx.geL y.val (a.map h) = Approx.geL y a ∧ Approx.geR (a.map h) y.val = Approx.geR a y :=
  let h := SNum.forget hA
  ⟨approx_new h x, approx_setAbs h a x, approx_setRel h a x, approx_eq h a y, approx_le h a y⟩

/-- C143.  `LinSpace`: the constructor, the increments and `Collect`. -/
theorem C143_linspace (a b : SNum A) (n m k : Nat) (s : LinSpace (SNum A)) (hs : LinSpace.new a b n = .ok s) :
    ∃ t : LinSpace (Num A), LinSpace.new a.val b.val n = .ok t ∧
      (LinSpace.incr^[k] t).deref = (LinSpace.incr^[k] s).deref.val ∧
      (LinSpace.incr^[k] t).collect m = ((LinSpace.incr^[k] s).collect m).map SNum.val := by
  let h := SNum.forget hA
  have e : ∀ k, LinSpace.incr^[k] (s.map h) = (LinSpace.incr^[k] s).map h := by
    intro k
    induction k with
    | zero => rfl
    | succ k ih => rw [Function.iterate_succ_apply', Function.iterate_succ_apply', ih, linSpace_incr]
  refine ⟨s.map h, ?_, ?_, ?_⟩
  · have := linSpace_new h a b n
    rw [hs] at this
    exact this
  · rw [e]; rfl
  · rw [e, linSpace_collect]; rfl

/-- C143.  `LogSpace`: both constructors, the increments, `Collect` and range-based loops; the base of the powers must not be -0.0. -/
theorem C143_logspace (a b base : SNum A) (start stop : Int) (n m k : Nat) (s : LogSpace (SNum A)) :
    ∃ t : LogSpace (Num A), (LogSpace.new a b n = .ok s → LogSpace.new a.val b.val n = .ok t) ∧
      (¬ base.IsMinusZero → LogSpace.newPow start stop n base = .ok s → LogSpace.newPow start stop n base.val = .ok t) ∧
      (LogSpace.incr^[k] t).deref = (LogSpace.incr^[k] s).deref.val ∧
      (LogSpace.incr^[k] t).collect m = ((LogSpace.incr^[k] s).collect m).map SNum.val ∧
      (LogSpace.incr^[k] t).visit = List.map SNum.val <$> (LogSpace.incr^[k] s).visit := by
  let h := SNum.forget hA
  have e : ∀ k, LogSpace.incr^[k] (s.map h) = (LogSpace.incr^[k] s).map h := by
    intro k
    induction k with
    | zero => rfl
    | succ k ih => rw [Function.iterate_succ_apply', Function.iterate_succ_apply', ih, logSpace_incr]
  refine ⟨s.map h, fun hs => ?_, fun hb hs => ?_, ?_, ?_, ?_⟩
  · have := logSpace_new_map h a b n
    rw [hs] at this
    exact this
  · have := logSpace_newPow h start stop n base hb
    rw [hs] at this
    exact this
  · rw [e]; rfl
  · rw [e, logSpace_collect]; rfl
  · rw [e, logSpace_visit]; rfl

/-- C143.  The four lattices of the library and the functions of a `Bravais` lattice. -/
theorem C143_bravais (b : Bravais (SNum A)) (x y : List Int) (v : List (SNum A)) :
    let h := SNum.forget hA
    ((chainLattice : Res (Bravais (Num A))) = (·.map h) <$> chainLattice ∧
      (squareLattice : Res (Bravais (Num A))) = (·.map h) <$> squareLattice ∧
      (cubicLattice : Res (Bravais (Num A))) = (·.map h) <$> cubicLattice ∧
      (triangularLattice : Res (Bravais (Num A))) = (·.map h) <$> triangularLattice) ∧
    (b.map h).getRealSpace x = List.map SNum.val <$> b.getRealSpace x ∧
    (b.map h).getReciprocalSpace x = List.map SNum.val <$> b.getReciprocalSpace x ∧
    (b.map h).getInverseVector (v.map SNum.val) = List.map SNum.val <$> b.getInverseVector v ∧
    (b.map h).getVector x y = List.map SNum.val <$> b.getVector x y ∧
    (b.map h).getDistance x y = SNum.val <$> b.getDistance x y :=
  let h := SNum.forget hA
  ⟨namedLattices_map h, bravais_getRealSpace h b x, bravais_getReciprocalSpace h b x, bravais_getInverseVector h b v,
    bravais_getVector h b x y, bravais_getDistance h b x y⟩

/-- C143.  Lattices: the constructor, with the same neighbours, and everything that is read from them. -/
theorem C143_lattice (b : Bravais (SNum A)) (size : List Nat) (bd : Boundaries) (l : Lattice (SNum A))
    (hl : Lattice.new b size bd = .ok l) :
    ∃ t : Lattice (Num A), Lattice.new (b.map (SNum.forget hA)) size bd = .ok t ∧ t.neighbors = l.neighbors ∧
      (∀ i j, t.getDistance i j = SNum.val <$> l.getDistance i j) ∧
      (∀ i j, t.getVector i j = List.map SNum.val <$> l.getVector i j) ∧
      (∀ i, t.getPosition i = List.map SNum.val <$> l.getPosition i) ∧
      (∀ i, t.getMomentum i = List.map SNum.val <$> l.getMomentum i) ∧
      (∀ (occ : List Int) (mult : SNum A),
        t.computeSk CxxFloat.ofInt occ mult.val = List.map SNum.val <$> l.computeSk CxxFloat.ofInt occ mult) ∧
      (∀ (occ : List (SNum A)) (mult : SNum A),
        t.computeSk (fun o => o.val) occ mult.val = List.map SNum.val <$> l.computeSk id occ mult) ∧
      ∀ (occ : List Int) (sk : List (SNum A)) (mult : SNum A),
        t.accumulateSk CxxFloat.ofInt occ (sk.map SNum.val) mult.val =
          List.map SNum.val <$> l.accumulateSk CxxFloat.ofInt occ sk mult := by
  let h := SNum.forget hA
  have hnew : Lattice.new (b.map h) size bd = .ok (l.map h) := by
    have := lattice_new h b size bd
    rw [hl] at this
    exact this
  have hi : ∀ o : Int, (CxxFloat.ofInt o : Num A) = h.f (CxxFloat.ofInt o) := fun o => h.ofInt o
  refine ⟨l.map h, hnew, rfl, ?_, ?_, ?_, ?_, ?_, ?_, ?_⟩
  · exact lattice_getDistance h l
  · exact lattice_getVector h l
  · exact lattice_getPosition h l
  · exact lattice_getMomentum h l
  · intro occ mult
    exact lattice_computeSk h CxxFloat.ofInt CxxFloat.ofInt hi l occ mult
  · intro occ mult
    exact lattice_computeSk h id (fun o : SNum A => o.val) (fun _ => rfl) l occ mult
  · intro occ sk mult
    exact lattice_accumulateSk h CxxFloat.ofInt CxxFloat.ofInt hi l occ sk mult

/-- C143.  The exception: two bins, the second with the result -0.0 and the first with a nonzero one.  `GetResults(1)` has an
infinity of the sign opposite to that of the first result. -/
theorem C143_exception (s : Hist (SNum A)) (hn : s.nbins = 2) (x z : SNum A) (a : K) (hx : s.getResult 0 = .ok x)
    (hxa : x.val = .fin a) (ha : a ≠ 0) (hz : s.getResult 1 = .ok z) (hm : z.IsMinusZero) :
    List.map SNum.val <$> s.getResultsBy 1 = .ok [.inf (!decide (a < 0)), .nan] ∧
    (s.map (SNum.forget hA)).getResultsBy 1 = .ok [.inf (decide (a < 0)), .nan] := by
  have hr : s.getResults = .ok [x, z] := by
    unfold Hist.getResults
    rw [hn]
    simp only [Hist.resultsFrom, hx, hz, Res.ok_bind]
  have hr' : (s.map (SNum.forget hA)).getResults = .ok [x.val, z.val] := by
    rw [hist_getResults, hr]; rfl
  have hzz : z.isZero = true := by simp [SNum.isZero, hm.1]
  have hd : x / z = ⟨.inf (!decide (a < 0)), false⟩ := by
    show SNum.div x z = _
    unfold SNum.div
    rw [if_pos hzz, hxa]
    simp only [if_neg ha, hm.2]
    simp
  have hd2 : z / z = ⟨.nan, false⟩ := by
    show SNum.div z z = _
    unfold SNum.div
    rw [if_pos hzz, hm.1]
    simp only [if_pos]
  have hd' : x.val / z.val = (.inf (decide (a < 0)) : Num A) := by
    rw [hxa, hm.1]
    show (if (0 : K) = 0 then (if a = 0 then Num.nan else Num.inf (decide (a < 0))) else _) = _
    rw [if_pos rfl, if_neg ha]
  have hd2' : z.val / z.val = (.nan : Num A) := by
    rw [hm.1]
    show (if (0 : K) = 0 then (if (0 : K) = 0 then Num.nan else Num.inf (decide ((0 : K) < 0))) else _) = _
    rw [if_pos rfl, if_pos rfl]
  constructor
  · unfold Hist.getResultsBy
    rw [hr, Res.ok_bind]
    simp [Hist.divideFrom, hd, hd2, Res.map_ok]
  · unfold Hist.getResultsBy
    rw [hr', Res.ok_bind]
    simp [Hist.divideFrom, hd', hd2']

end

section
variable {K : Type} [Field K] [LinearOrder K] [IsStrictOrderedRing K] [FloorRing K] {A : Arith K}

theorem rn_quarter_tiny : rn (-((2 : K) ^ (-1074 : Int)) / 4) = 0 := by
  have hp := two_zpow_pos (K := K) (-1074)
  have h := rn_nearest (-((2 : K) ^ (-1074 : Int)) / 4) 0 (double_iff.2 ⟨0, by norm_num, ⟨0, by simp⟩, by simp⟩)
  obtain ⟨m, hm⟩ := (rn_mult_ulp (-((2 : K) ^ (-1074 : Int)) / 4)).mono (ulpExp_ge _)
  rw [hm] at h ⊢
  generalize (2 : K) ^ (-1074 : Int) = t at hp h ⊢
  rw [sub_zero, neg_div, abs_neg, abs_of_pos (by positivity : 0 < t / 4), abs_le] at h
  have h1 : (m : K) < 1 := by
    by_contra hc
    have := mul_le_mul_of_nonneg_right (not_lt.1 hc) hp.le
    linarith
  have h2 : (-1 : K) < m := by
    by_contra hc
    have := mul_le_mul_of_nonneg_right (not_lt.1 hc) hp.le
    linarith
  have h1' : m < 1 := by exact_mod_cast h1
  have h2' : -1 < m := by exact_mod_cast h2
  have : m = 0 := by omega
  rw [this]; simp

theorem sign_fin {x : K} (m : Bool) (h : x ≠ 0) : (⟨.fin x, m⟩ : SNum A).sign = decide (x < 0) := by
  unfold SNum.sign
  rw [if_neg (by simp [SNum.isZero, h])]; rfl

theorem sign_zero (m : Bool) : (⟨.fin 0, m⟩ : SNum A).sign = m := by
  unfold SNum.sign
  rw [if_pos (by simp [SNum.isZero])]

/-- A rounded number with the sign of the exact one. -/
theorem sign_round (hA : A.IsBinary64) (x : K) (m : Bool) (hm : x = 0 ∨ m = decide (x < 0)) :
    (⟨Num.round A x, m⟩ : SNum A).sign = m := by
  rcases hm with rfl | rfl
  · have : Num.round A 0 = .fin 0 := by
      unfold Num.round
      rw [hA, rnd64, rn_zero, if_pos (by rw [abs_zero]; exact two_zpow_pos _)]
    rw [this, sign_zero]
  · unfold Num.round
    rw [hA, rnd64]
    split
    · rename_i y hy
      split at hy
      · cases hy
        by_cases h0 : rn x = 0
        · rw [h0, sign_zero]
        · rw [sign_fin _ h0]
          by_cases hx : x < 0
          · have := rn_mono hx.le
            rw [rn_zero] at this
            simp [hx, lt_of_le_of_ne this h0]
          · have := rn_mono (not_lt.1 hx)
            rw [rn_zero] at this
            simp [hx, this]
      · cases hy
    · rfl

theorem sign_eq (a : K) (m : Bool) : a = 0 ∨ (⟨.fin a, m⟩ : SNum A).sign = decide (a < 0) := by
  by_cases h : a = 0
  · exact .inl h
  · exact .inr (sign_fin m h)

/-- The signs of IEEE 754: of opposites, products and quotients, zeros included; of sums that are zero; of square roots and of odd
negative powers; and the two zeros are equal. -/
theorem C143_signs (hA : A.IsBinary64) (x y : SNum A) :
    (x.val ≠ .nan → (-x).sign = !x.sign) ∧
    ((x * y).val ≠ .nan → (x * y).sign = (x.sign != y.sign)) ∧
    ((x / y).val ≠ .nan → (x / y).sign = (x.sign != y.sign)) ∧
    ((x + y).val = .fin 0 → ((x + y).sign = true ↔ x.IsMinusZero ∧ y.IsMinusZero)) ∧
    (x.IsMinusZero → (CxxFloat.sqrt x).val = .fin 0 → (CxxFloat.sqrt x).IsMinusZero) ∧
    (∀ k : Int, k < 0 → x.IsMinusZero → y.val = .fin (2 * k + 1 : K) → (CxxFloat.pow x y).val = .inf true) ∧
    CxxFloat.eq (⟨.fin 0, true⟩ : SNum A) ⟨.fin 0, false⟩ = true := by
  have zs : ∀ z : SNum A, z.val = .fin 0 → z.sign = z.minus := by
    rintro ⟨v, m⟩ rfl
    exact sign_zero m
  have inf : ∀ n m, (⟨.inf n, m⟩ : SNum A).sign = n := fun n m => rfl
  have xor : ∀ {a b : K} {m n : Bool}, (a = 0 ∨ m = decide (a < 0)) → (b = 0 ∨ n = decide (b < 0)) →
      a * b = 0 ∨ (m != n) = decide (a * b < 0) := by
    intro a b m n h1 h2
    rcases h1 with rfl | rfl
    · left; rw [zero_mul]
    rcases h2 with rfl | rfl
    · left; rw [mul_zero]
    rcases lt_trichotomy a 0 with ha | rfl | ha
    · rcases lt_trichotomy b 0 with hb | rfl | hb
      · right; simp [ha, hb, (mul_pos_of_neg_of_neg ha hb).le]
      · left; rw [mul_zero]
      · right; simp [ha, hb.le, mul_neg_of_neg_of_pos ha hb]
    · left; rw [zero_mul]
    · rcases lt_trichotomy b 0 with hb | rfl | hb
      · right; simp [ha.le, hb, mul_neg_of_pos_of_neg ha hb]
      · left; rw [mul_zero]
      · right
        rw [decide_eq_false ha.le.not_gt, decide_eq_false hb.le.not_gt, decide_eq_false (mul_pos ha hb).le.not_gt]; rfl
  obtain ⟨v, m⟩ := x
  obtain ⟨w, n⟩ := y
  refine ⟨fun h => ?_, fun h => ?_, fun h => ?_, fun h => ?_, ?_, ?_, ?_⟩
  · cases v with
    | nan => exact absurd rfl h
    | inf k => rfl
    | fin a =>
      by_cases ha : a = 0
      · subst ha
        show (⟨.fin (-0), !(SNum.sign (⟨.fin 0, m⟩ : SNum A))⟩ : SNum A).sign = _
        rw [neg_zero, sign_zero, sign_zero]
      · show (⟨.fin (-a), _⟩ : SNum A).sign = _
        rw [sign_fin _ (neg_ne_zero.2 ha), sign_fin _ ha]
        rcases lt_or_gt_of_ne ha with h | h
        · simp [h, h.le]
        · simp [h, h.le]
  · change (SNum.mul ⟨v, m⟩ ⟨w, n⟩).val ≠ .nan at h
    show (SNum.mul ⟨v, m⟩ ⟨w, n⟩).sign = _
    unfold SNum.mul at h ⊢
    cases v with
    | nan => exact absurd rfl h
    | inf k =>
      cases w with
      | nan => exact absurd rfl h
      | inf l => rfl
      | fin b =>
        simp only [Num.mul] at h ⊢
        by_cases hb : b = 0
        · rw [if_pos hb] at h; exact absurd rfl h
        · rw [if_neg hb, sign_fin _ hb]; rfl
    | fin a =>
      cases w with
      | nan => exact absurd rfl h
      | inf l =>
        simp only [Num.mul] at h ⊢
        by_cases ha : a = 0
        · rw [if_pos ha] at h; exact absurd rfl h
        · rw [if_neg ha, sign_fin _ ha]; rfl
      | fin b => exact sign_round hA _ _ (xor (sign_eq a m) (sign_eq b n))
  · change (SNum.div ⟨v, m⟩ ⟨w, n⟩).val ≠ .nan at h
    show (SNum.div ⟨v, m⟩ ⟨w, n⟩).sign = _
    by_cases hz : (⟨w, n⟩ : SNum A).isZero = true
    · have hw : w = .fin 0 := by simpa [SNum.isZero] using hz
      subst hw
      unfold SNum.div at h ⊢
      rw [if_pos hz] at h ⊢
      rw [sign_zero]
      cases v with
      | nan => exact absurd rfl h
      | inf k => rfl
      | fin a =>
        simp only at h ⊢
        by_cases ha : a = 0
        · rw [if_pos ha] at h; exact absurd rfl h
        · rw [if_neg ha, sign_fin _ ha]; rfl
    · unfold SNum.div at h ⊢
      rw [if_neg hz] at h ⊢
      have hw : w ≠ .fin 0 := by simpa [SNum.isZero] using hz
      cases v with
      | nan => exact absurd rfl h
      | inf k =>
        cases w with
        | nan => exact absurd rfl h
        | inf l => exact absurd rfl h
        | fin b =>
          have hb : b ≠ 0 := fun e => hw (by rw [e])
          rw [sign_fin _ hb]; rfl
      | fin a =>
        cases w with
        | nan => exact absurd rfl h
        | inf l => exact sign_zero _
        | fin b =>
          have hb : b ≠ 0 := fun e => hw (by rw [e])
          have e : (Num.fin a : Num A).div (.fin b) = Num.round A (a / b) := if_neg hb
          show (⟨(Num.fin a : Num A).div (.fin b), _⟩ : SNum A).sign = _
          rw [e]
          refine sign_round hA _ _ ?_
          rw [div_eq_mul_inv]
          refine xor (sign_eq a m) (.inr ?_)
          rw [sign_fin _ hb]
          simp
  · change (SNum.add ⟨v, m⟩ ⟨w, n⟩).val = .fin 0 at h
    show (SNum.add ⟨v, m⟩ ⟨w, n⟩).sign = true ↔ _
    rw [zs _ h]
    simp [SNum.add, SNum.isZero, SNum.IsMinusZero]
  · rintro ⟨h1, h2⟩
    cases h1
    cases h2
    intro h
    refine ⟨h, ?_⟩
    show (SNum.isZero (⟨.fin 0, true⟩ : SNum A) && true) = true
    simp [SNum.isZero]
  · rintro k hk ⟨h1, h2⟩ hy
    cases h1
    cases h2
    simp only at hy
    subst hy
    show (SNum.pow _ _).val = _
    unfold SNum.pow
    simp only
    have h1 : (2 * (k : K) + 1) < 0 := by
      have : (k : K) ≤ -1 := by exact_mod_cast (by omega : k ≤ -1)
      linarith
    rw [if_pos]
    refine ⟨by simp [SNum.isZero], by trivial, by simpa using ⟨k, rfl⟩, by simpa [Num.isNeg] using h1⟩
  · show decide ((0 : K) = 0) = true
    simp

/-- Adding a double to an empty sum, or zero to the sum of a double, is exact. -/
theorem neumaier_single (hA : A.IsBinary64) {v : K} (hv : Double v) (hl : |v| < (2 : K) ^ (1024 : Int)) :
    (∀ s : Neumaier (Num A), s.sum = .fin 0 → s.c = .fin 0 → s.addCore (.fin v) = ⟨.fin v, .fin 0, succU s.count⟩) ∧
    (∀ s : Neumaier (Num A), s.sum = .fin v → s.c = .fin 0 → s.addCore (.fin 0) = ⟨.fin v, .fin 0, succU s.count⟩) ∧
    (Num.fin v + Num.fin 0 : Num A) = .fin v := by
  have hr : Num.round A v = .fin v := by
    unfold Num.round
    rw [hA, rnd64, rn_double hv, if_pos hl]
  have h0 : Num.round A 0 = .fin 0 := by
    unfold Num.round
    rw [hA, rnd64, rn_zero, if_pos (by rw [abs_zero]; exact two_zpow_pos _)]
  have e1 : (Num.fin v + Num.fin 0 : Num A) = .fin v := by
    show Num.round A (v + 0) = _; rw [add_zero, hr]
  have e2 : (Num.fin 0 + Num.fin v : Num A) = .fin v := by
    show Num.round A (0 + v) = _; rw [zero_add, hr]
  have e3 : (Num.fin v - Num.fin v : Num A) = .fin 0 := by
    show Num.round A (v + -v) = _; rw [add_neg_cancel, h0]
  have e4 : (Num.fin 0 + Num.fin 0 : Num A) = .fin 0 := by
    show Num.round A (0 + 0) = _; rw [add_zero, h0]
  have e5 : (Num.fin 0 - Num.fin v : Num A) = .fin (-v) := by
    show Num.round A (0 + -v) = _
    rw [zero_add]
    unfold Num.round
    rw [hA, rnd64, rn_neg, rn_double hv, abs_neg, if_pos hl]
  have e6 : (Num.fin (-v) + Num.fin v : Num A) = .fin 0 := by
    show Num.round A (-v + v) = _; rw [neg_add_cancel, h0]
  have e7 : (Num.fin 0 - Num.fin v : Num A) + Num.fin v = .fin 0 := by rw [e5, e6]
  refine ⟨fun s h1 h2 => ?_, fun s h1 h2 => ?_, e1⟩
  · unfold Neumaier.addCore
    simp only [h1, h2, e2, e3, e4, e7, ite_self]
  · unfold Neumaier.addCore
    simp only [h1, h2, e1, e3, e4, e7, ite_self]

/-- C143.  The exception occurs: after `Add(1, -2^-1074)`, twice `Add(1, 0)` and `Add(0, 1)` the result of bin 1 is -0.0, and
that of bin 0 is not zero. -/
theorem C143_exception_occurs (hA : A.IsBinary64) :
    ∃ (s : Hist (SNum A)) (x z : SNum A) (a : K),
      (Hist.new 2).run [.add 1 ⟨.fin (-(2 : K) ^ (-1074 : Int)), true⟩, .add 1 CxxFloat.zero, .add 1 CxxFloat.zero,
        .add 0 ⟨.fin 1, false⟩] = .ok s ∧ s.nbins = 2 ∧
      s.getResult 0 = .ok x ∧ x.val = .fin a ∧ a ≠ 0 ∧ s.getResult 1 = .ok z ∧ z.IsMinusZero := by
  have hp := two_zpow_pos (K := K) (-1074)
  have big : ∀ v : K, |v| ≤ 4 → |v| < (2 : K) ^ (1024 : Int) := by
    intro v h
    have : ((4 : K)) < (2 : K) ^ (1024 : Int) := by
      rw [show (4 : K) = 2 ^ (2 : Int) by norm_num]
      exact zpow_lt_zpow_right₀ one_lt_two (by norm_num)
    exact lt_of_le_of_lt h this
  have tl : (2 : K) ^ (-1074 : Int) ≤ 1 := by
    rw [show (1 : K) = 2 ^ (0 : Int) by norm_num]
    exact zpow_le_zpow_right₀ one_le_two (by norm_num)
  have d1 : Double (1 : K) := double_iff.2 ⟨0, by norm_num, ⟨1, by simp⟩, by norm_num⟩
  have d4 : Double (4 : K) := double_iff.2 ⟨0, by norm_num, ⟨4, by simp⟩, by norm_num⟩
  have dq : Double (1 / 4 : K) := double_iff.2 ⟨-2, by norm_num, ⟨1, by norm_num⟩, by norm_num⟩
  have dt : Double (-(2 : K) ^ (-1074 : Int)) := double_iff.2 ⟨-1074, le_rfl, ⟨-1, by simp⟩, by
    rw [abs_neg, abs_of_pos hp]
    exact zpow_le_zpow_right₀ one_le_two (by norm_num)⟩
  have n1 := neumaier_single hA d1 (big 1 (by rw [abs_one]; norm_num))
  have nt := neumaier_single hA dt (big _ (by rw [abs_neg, abs_of_pos hp]; linarith))
  have h := SNum.forget (keepsSign_binary64 hA)
  let b0 : Neumaier (SNum A) := Neumaier.addCore Neumaier.new ⟨.fin 1, false⟩
  let b1 : Neumaier (SNum A) :=
    ((Neumaier.new.addCore ⟨.fin (-(2 : K) ^ (-1074 : Int)), true⟩).addCore CxxFloat.zero).addCore CxxFloat.zero
  have hz0 : (CxxFloat.zero : SNum A).val = .fin 0 := rfl
  have s0 : b0.getSum.val = .fin 1 := by
    have := neumaier_addCore (SNum.forget (keepsSign_binary64 hA)) Neumaier.new ⟨.fin 1, false⟩
    have e := n1.1 (Neumaier.new.map (SNum.forget (keepsSign_binary64 hA))) rfl rfl
    have e2 : b0.map (SNum.forget (keepsSign_binary64 hA)) = _ := this.symm.trans e
    show (b0.map (SNum.forget (keepsSign_binary64 hA))).sum + (b0.map (SNum.forget (keepsSign_binary64 hA))).c = _
    rw [e2]
    exact n1.2.2
  have s1 : b1.getSum.val = .fin (-(2 : K) ^ (-1074 : Int)) := by
    have e2 : b1.map (SNum.forget (keepsSign_binary64 hA)) = ⟨.fin (-(2 : K) ^ (-1074 : Int)), .fin 0, 3⟩ := by
      rw [← neumaier_addCore, ← neumaier_addCore, ← neumaier_addCore]
      show (((Neumaier.new.map (SNum.forget (keepsSign_binary64 hA))).addCore (.fin (-(2 : K) ^ (-1074 : Int)))).addCore
        (.fin 0)).addCore (.fin 0) = _
      rw [nt.1 _ rfl rfl, nt.2.1 ⟨_, _, _⟩ rfl rfl, nt.2.1 ⟨_, _, _⟩ rfl rfl]
      rfl
    show (b1.map (SNum.forget (keepsSign_binary64 hA))).sum + (b1.map (SNum.forget (keepsSign_binary64 hA))).c = _
    rw [e2]
    exact nt.2.2
  have h4 : (CxxFloat.ofNat 4 : SNum A) = ⟨.fin 4, false⟩ := by
    show (⟨Num.round A ((4 : Nat) : K), false⟩ : SNum A) = _
    unfold Num.round
    rw [hA, rnd64, Nat.cast_ofNat, rn_double d4, if_pos (big 4 (by norm_num))]
  have h4z : ¬ (SNum.isZero (⟨.fin 4, false⟩ : SNum A) = true) := by simp [SNum.isZero]
  refine ⟨⟨2, [b0, b1], 4⟩, b0.getSum / CxxFloat.ofNat 4, b1.getSum / CxxFloat.ofNat 4, 1 / 4, rfl, rfl, rfl, ?_, by norm_num,
    rfl, ?_, ?_⟩
  · rw [h4]
    show (SNum.div _ _).val = _
    unfold SNum.div
    rw [if_neg h4z, s0]
    show (if (4 : K) = 0 then _ else Num.round A (1 / 4)) = _
    rw [if_neg (by norm_num)]
    unfold Num.round
    rw [hA, rnd64, rn_double dq, if_pos (big _ (by rw [abs_of_pos (by norm_num)]; norm_num))]
  · rw [h4]
    show (SNum.div _ _).val = _
    unfold SNum.div
    rw [if_neg h4z, s1]
    show (if (4 : K) = 0 then _ else Num.round A (-(2 : K) ^ (-1074 : Int) / 4)) = _
    rw [if_neg (by norm_num)]
    unfold Num.round
    rw [hA, rnd64, rn_quarter_tiny, if_pos (big _ (by rw [abs_zero]; norm_num))]
  · rw [h4]
    show (SNum.div _ _).minus = _
    unfold SNum.div
    rw [if_neg h4z]
    have e1 : b1.getSum.sign = true := by
      unfold SNum.sign
      rw [if_neg]
      · rw [s1]; simp [Num.isNeg]
      · simp [SNum.isZero, s1]
    have e2 : (⟨.fin 4, false⟩ : SNum A).sign = false := by
      unfold SNum.sign
      rw [if_neg h4z]; simp [Num.isNeg]
    show (b1.getSum.sign != _) = true
    rw [e1, e2]; rfl

end

example : (doubleArith : Arith ℝ).KeepsSign := keepsSign_binary64 doubleArith_isBinary64

end Bwsl
