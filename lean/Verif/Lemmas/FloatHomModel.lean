import Verif.Lemmas.FloatHom
import Verif.Model.Accumulators
import Verif.Model.Approx
import Verif.Model.Draw
import Verif.Model.Hist
import Verif.Model.Lattice
import Verif.Model.MoveStats
import Verif.Model.ObservableGroup
import Verif.Model.Rational
import Verif.Model.Spaces

/-! The functions of the model commute with maps between floating-point types. -/

namespace Bwsl
variable {F G : Type} [CxxFloat F] [CxxFloat G] (h : FloatHom F G)

/-! ## Control flow -/

/-- The state and the result of a call, mapped. -/
def Call.map (φ : σ → τ) (c : Call σ α) : Call τ α := ⟨φ c.state, c.res⟩

theorem guarded_map (φ : σ → τ) (checks : Bool) (n : Nat) (s s' : σ) :
    guarded checks n (φ s) (φ s') = (guarded checks n s s').map φ := by
  unfold guarded Call.map
  split <;> rfl

theorem subscript_map (φ : α → β) (v : List α) (i : Nat) : subscript (v.map φ) i = φ <$> subscript v i := by
  unfold subscript
  rw [List.getElem?_map]
  cases v[i]? <;> rfl

theorem mapRange_map (φ : α → β) (f : Nat → Res α) (g : Nat → Res β) (hg : ∀ i, g i = φ <$> f i) (n : Nat) :
    mapRange n g = List.map φ <$> mapRange n f := by
  have : ∀ n k, mapRangeFrom g k n = List.map φ <$> mapRangeFrom f k n := by
    intro n
    induction n with
    | zero => intro k; rfl
    | succ n ih =>
      intro k
      rw [mapRangeFrom, mapRangeFrom, hg, ih]
      cases f k with
      | ok a => cases mapRangeFrom f (k + 1) n <;> rfl
      | _ => rfl
  exact this n 0

theorem accumulate_map (f : Nat → Res F) (g : Nat → Res G) (hg : ∀ i, g i = h.f <$> f i) (n : Nat) :
    accumulate n g = h.f <$> accumulate n f := by
  have : ∀ n k acc, accumulateFrom g (h.f acc) k n = h.f <$> accumulateFrom f acc k n := by
    intro n
    induction n with
    | zero => intro k acc; rfl
    | succ n ih =>
      intro k acc
      rw [accumulateFrom, accumulateFrom, hg]
      cases f k with
      | ok a =>
        rw [Res.map_ok, Res.ok_bind, Res.ok_bind, ← h.add, ih]
      | _ => rfl
  unfold accumulate
  rw [← h.zero, this]

theorem foldRange_map (ψ : σ → τ) (f : σ → Nat → Res σ) (g : τ → Nat → Res τ) (hg : ∀ s i, g (ψ s) i = ψ <$> f s i)
    (n : Nat) (s : σ) : foldRange n g (ψ s) = ψ <$> foldRange n f s := by
  have : ∀ n k s, foldRangeFrom g (ψ s) k n = ψ <$> foldRangeFrom f s k n := by
    intro n
    induction n with
    | zero => intro k s; rfl
    | succ n ih =>
      intro k s
      rw [foldRangeFrom, foldRangeFrom, hg]
      cases f s k with
      | ok a => rw [Res.map_ok, Res.ok_bind, Res.ok_bind, ih]
      | _ => rfl
  exact this n 0 s

theorem whileLoop_map (ψ : σ → τ) {c : σ → Bool} {d : τ → Bool} {f : σ → Res σ} {g : τ → Res τ}
    (hc : ∀ s, d (ψ s) = c s) (hf : ∀ s, g (ψ s) = ψ <$> f s) (s : σ) :
    whileLoop d g (ψ s) = ψ <$> whileLoop c f s := by
  have h1 := whileLoop.fixpoint_induct c f
    (motive := fun w => ∀ s, w s = .diverges ∨ whileLoop d g (ψ s) = ψ <$> w s)
    (by
      apply Lean.Order.admissible_pi_apply (fun s (x : Res σ) => x = .diverges ∨ whileLoop d g (ψ s) = ψ <$> x)
      intro s
      apply Lean.Order.admissible_flatOrder
      exact Or.inl rfl)
    (by
      intro w ih s
      rw [whileLoop, hc]
      beta_reduce
      cases c s with
      | false => right; rfl
      | true =>
        simp only [if_true, hf]
        cases f s with
        | ok a => exact ih a
        | _ => right; rfl)
  have h2 := whileLoop.fixpoint_induct d g
    (motive := fun w => ∀ t s, t = ψ s → w t = .diverges ∨ w t = ψ <$> whileLoop c f s)
    (by
      apply Lean.Order.admissible_pi_apply (fun t (x : Res τ) => ∀ s, t = ψ s → x = .diverges ∨ x = ψ <$> whileLoop c f s)
      intro t
      apply Lean.Order.admissible_flatOrder
      exact fun _ _ => Or.inl rfl)
    (by
      intro w ih t s ht
      subst ht
      rw [whileLoop]
      beta_reduce
      rw [hc]
      cases c s with
      | false => right; rfl
      | true =>
        simp only [if_true, hf]
        cases f s with
        | ok a => exact ih (ψ a) a rfl
        | _ => right; rfl)
  rcases h1 s with h1 | h1
  · rcases h2 _ s rfl with h2 | h2
    · rw [h1, h2]; rfl
    · exact h2
  · exact h1

/-! ## Accumulators -/

def Kahan.map (s : Kahan F) : Kahan G := ⟨h.f s.sum, h.f s.c, s.count⟩
def Neumaier.map (s : Neumaier F) : Neumaier G := ⟨h.f s.sum, h.f s.c, s.count⟩
def KnuthWelford.map (s : KnuthWelford F) : KnuthWelford G := ⟨h.f s.mean, h.f s.m2, s.count⟩
def West.map (s : West F) : West G := ⟨h.f s.sumWeights, h.f s.sumWeights2, h.f s.mean, h.f s.m2, s.count⟩

theorem kahan_new : (Kahan.new : Kahan F).map h = Kahan.new := by simp [Kahan.new, Kahan.map, h.zero]
theorem kahan_reset (s : Kahan F) : s.reset.map h = (s.map h).reset := by simp [Kahan.reset, Kahan.map, h.zero]
theorem kahan_addCore (s : Kahan F) (x : F) : (s.map h).addCore (h.f x) = (s.addCore x).map h := by
  simp [Kahan.addCore, Kahan.map, h.add, h.sub]
theorem kahan_add (checks : Bool) (s : Kahan F) (x : F) : (s.map h).add checks (h.f x) = (s.add checks x).map (·.map h) := by
  unfold Kahan.add
  rw [kahan_addCore]
  exact guarded_map _ _ _ _ _
theorem kahan_getSum (s : Kahan F) : (s.map h).getSum = h.f s.getSum := rfl
theorem kahan_mean (s : Kahan F) : (s.map h).mean = h.f s.mean := by
  simp only [Kahan.mean, Kahan.map]
  rw [h.div _ _ (h.good_ofNat _), h.ofNat]

theorem neumaier_new : (Neumaier.new : Neumaier F).map h = Neumaier.new := by simp [Neumaier.new, Neumaier.map, h.zero]
theorem neumaier_reset (s : Neumaier F) : s.reset.map h = (s.map h).reset := by
  simp [Neumaier.reset, Neumaier.map, h.zero]
theorem neumaier_addCore (s : Neumaier F) (x : F) : (s.map h).addCore (h.f x) = (s.addCore x).map h := by
  simp only [Neumaier.addCore, Neumaier.map, apply_ite h.f, h.le, h.abs, h.add, h.sub]
  rfl
theorem neumaier_add (checks : Bool) (s : Neumaier F) (x : F) :
    (s.map h).add checks (h.f x) = (s.add checks x).map (·.map h) := by
  unfold Neumaier.add
  rw [neumaier_addCore]
  exact guarded_map _ _ _ _ _
theorem neumaier_getSum (s : Neumaier F) : (s.map h).getSum = h.f s.getSum := by
  simp [Neumaier.getSum, Neumaier.map, h.add]
theorem neumaier_mean (s : Neumaier F) : (s.map h).mean = h.f s.mean := by
  unfold Neumaier.mean
  rw [neumaier_getSum, h.div _ _ (h.good_ofNat _), h.ofNat]
  rfl

theorem welford_new : (KnuthWelford.new : KnuthWelford F).map h = KnuthWelford.new := by
  simp [KnuthWelford.new, KnuthWelford.map, h.zero]
theorem welford_reset (s : KnuthWelford F) : s.reset.map h = (s.map h).reset := by
  simp [KnuthWelford.reset, KnuthWelford.map, h.zero]
theorem welford_addCore (s : KnuthWelford F) (x : F) : (s.map h).addCore (h.f x) = (s.addCore x).map h := by
  simp only [KnuthWelford.addCore, KnuthWelford.map, h.add, h.mul, h.sub, h.div _ _ (h.good_ofNat _), h.ofNat]
theorem welford_add (checks : Bool) (s : KnuthWelford F) (x : F) :
    (s.map h).add checks (h.f x) = (s.add checks x).map (·.map h) := by
  unfold KnuthWelford.add
  rw [welford_addCore]
  exact guarded_map _ _ _ _ _
theorem welford_sum (s : KnuthWelford F) : (s.map h).sum = h.f s.sum := by
  simp [KnuthWelford.sum, KnuthWelford.map, KnuthWelford.getCount, h.mul, h.ofNat]
theorem welford_variance (s : KnuthWelford F) (b : Bool) : (s.map h).variance b = h.f (s.variance b) := by
  simp only [KnuthWelford.variance, KnuthWelford.map, apply_ite h.f, h.nan, h.div _ _ (h.good_ofNat _), h.ofNat]
  rfl
theorem welford_scaled (s : KnuthWelford F) : (s.map h).scaledVariance = h.f s.scaledVariance := by
  simp only [KnuthWelford.scaledVariance, KnuthWelford.map, apply_ite h.f, h.nan]
  rfl
theorem welford_sd (s : KnuthWelford F) (b : Bool) : (s.map h).standardDeviation b = h.f (s.standardDeviation b) := by
  unfold KnuthWelford.standardDeviation
  rw [welford_variance, h.sqrt]
theorem welford_error (s : KnuthWelford F) (b : Bool) : (s.map h).error b = h.f (s.error b) := by
  unfold KnuthWelford.error
  rw [welford_sd, h.div _ _ (h.good_sqrt _ (h.good_ofNat _)), h.sqrt, h.ofNat]
  rfl

theorem west_new : (West.new : West F).map h = West.new := by simp [West.new, West.map, h.zero]
theorem west_reset (s : West F) : s.reset.map h = (s.map h).reset := by simp [West.reset, West.map, h.zero]
theorem west_good_add (checks : Bool) (s : West F) (m w : F) (hs : h.good s.sumWeights) :
    h.good (s.add checks m w).state.sumWeights := by
  unfold West.add guarded
  split
  · split
    · exact hs
    · exact h.good_add _ _ hs
  · exact hs
theorem west_addCore (s : West F) (m w : F) (hs : h.good s.sumWeights) :
    (s.map h).addCore (h.f m) (h.f w) = (s.addCore m w).map h := by
  simp only [West.addCore, West.map, h.add, h.mul, h.sub, h.div _ _ (h.good_add _ _ hs)]
theorem west_add (checks : Bool) (s : West F) (m w : F) (hs : h.good s.sumWeights) :
    (s.map h).add checks (h.f m) (h.f w) = (s.add checks m w).map (·.map h) := by
  unfold West.add
  rw [west_addCore h s m w hs, ← h.zero, ← h.lt]
  split
  · exact guarded_map _ _ _ _ _
  · rfl
theorem west_sum (s : West F) : (s.map h).sum = h.f s.sum := by simp [West.sum, West.map, h.mul]
theorem west_population (s : West F) (hs : h.good s.sumWeights) :
    (s.map h).populationVariance = h.f s.populationVariance := by
  simp only [West.populationVariance, West.map, apply_ite h.f, h.nan, h.div _ _ hs]
  rfl
theorem west_frequency (s : West F) (hs : h.good s.sumWeights) :
    (s.map h).sampleFrequencyVariance = h.f s.sampleFrequencyVariance := by
  simp only [West.sampleFrequencyVariance, West.map, apply_ite h.f, h.nan, h.div _ _ (h.good_sub _ _ hs), h.sub, h.ofInt]
  rfl
theorem west_reliability (s : West F) (hs : h.good s.sumWeights) :
    (s.map h).sampleReliabilityVariance = h.f s.sampleReliabilityVariance := by
  simp only [West.sampleReliabilityVariance, West.map, apply_ite h.f, h.nan, h.div _ _ (h.good_sub _ _ hs), h.sub, h.div _ _ hs]
  rfl

theorem naive_mean (s : NaiveInteger) : s.mean G = h.f (s.mean F) := by
  unfold NaiveInteger.mean
  rw [h.div _ _ (h.good_ofNat _), h.ofInt, h.ofNat]
theorem naive_variance (s : NaiveInteger) (b : Bool) : s.variance G b = h.f <$> s.variance F b := by
  unfold NaiveInteger.variance
  split
  · rw [Res.map_ok, h.nan]
  · cases s.numerator with
    | ok n => simp only [Res.ok_bind, Res.map_ok]; rw [h.div _ _ (h.good_ofNat _), h.ofInt, h.ofNat]
    | _ => rfl
theorem naive_scaled (s : NaiveInteger) : s.scaledVariance G = h.f <$> s.scaledVariance F := by
  unfold NaiveInteger.scaledVariance
  split
  · rw [Res.map_ok, h.nan]
  · cases s.numerator with
    | ok n => simp only [Res.ok_bind, Res.map_ok]; rw [h.div _ _ (h.good_ofNat _), h.ofInt, h.ofNat]
    | _ => rfl
theorem naive_sd (s : NaiveInteger) (b : Bool) : s.standardDeviation G b = h.f <$> s.standardDeviation F b := by
  unfold NaiveInteger.standardDeviation
  rw [naive_variance h]
  cases s.variance F b with
  | ok x => simp only [Res.ok_bind, Res.map_ok]; rw [h.sqrt]
  | _ => rfl

/-! ## Histograms -/

def Hist.map (s : Hist F) : Hist G := ⟨s.nbins, s.acc.map (·.map h), s.count⟩

theorem hist_new (n : Nat) : (Hist.new n : Hist F).map h = Hist.new n := by
  simp [Hist.new, Hist.map, neumaier_new]
theorem hist_reset (s : Hist F) : s.reset.map h = (s.map h).reset := by
  simp only [Hist.reset, Hist.map, List.map_map]
  congr 1
  apply List.map_congr_left
  intro a _
  exact neumaier_reset h a
theorem hist_resize (s : Hist F) (n : Nat) : (s.map h).resize n = (s.resize n).map h := by
  simp [Hist.resize, Hist.map, neumaier_new]
theorem hist_add (checks : Bool) (s : Hist F) (i : Nat) (x : F) :
    (s.map h).add checks i (h.f x) = (s.add checks i x).map (·.map h) := by
  unfold Hist.add Hist.addTo
  simp only [Hist.map, List.getElem?_map]
  cases hi : s.acc[i]? with
  | none => rfl
  | some a =>
    simp only [Option.map_some, neumaier_add, Call.map]
    cases (a.add checks x).res <;> simp [List.map_set]
theorem hist_grow (s : Hist F) (i : Nat) : (s.map h).grow i = (·.map h) <$> s.grow i := by
  unfold Hist.grow
  refine whileLoop_map (·.map h) (fun _ => rfl) (fun s => ?_) s
  unfold Hist.growStep
  simp only [Hist.map, List.length_append, List.length_map]
  by_cases hl : succU s.nbins = s.acc.length + 1
  · rw [if_pos (by simpa using hl), if_pos (by simpa using hl)]
    simp [neumaier_new]
  · rw [if_neg (by simpa using hl), if_neg (by simpa using hl)]
    rfl
theorem hist_forceAdd (checks : Bool) (s : Hist F) (i : Nat) (x : F) :
    (s.map h).forceAdd checks i (h.f x) = (s.forceAdd checks i x).map (·.map h) := by
  unfold Hist.forceAdd
  rw [hist_grow]
  cases s.grow i with
  | ok s' => exact hist_add h checks s' i x
  | _ => rfl
theorem hist_getResult (s : Hist F) (i : Nat) : (s.map h).getResult i = h.f <$> s.getResult i := by
  unfold Hist.getResult
  simp only [Hist.map, List.getElem?_map]
  cases s.acc[i]? with
  | none => rfl
  | some a =>
    simp only [Option.map_some]
    by_cases h0 : a.getCount = 0
    · rw [if_pos h0, if_pos (show (a.map h).getCount = 0 from h0), Res.map_ok, h.zero]
    · rw [if_neg h0, if_neg (show ¬ (a.map h).getCount = 0 from h0), Res.map_ok, h.div _ _ (h.good_ofNat _), h.ofNat,
        neumaier_getSum]
theorem hist_getResults (s : Hist F) : (s.map h).getResults = List.map h.f <$> s.getResults := by
  have : ∀ k i, (s.map h).resultsFrom i k = List.map h.f <$> s.resultsFrom i k := by
    intro k
    induction k with
    | zero => intro i; rfl
    | succ k ih =>
      intro i
      rw [Hist.resultsFrom, Hist.resultsFrom, hist_getResult, ih]
      cases s.getResult i with
      | ok x => cases s.resultsFrom (i + 1) k <;> rfl
      | _ => rfl
  exact this _ _
theorem hist_resultsFrom (s : Hist F) (k i : Nat) (r : List F) (hr : s.resultsFrom i k = .ok r) (j : Nat) (x : F)
    (hx : r[j]? = some x) : s.getResult (i + j) = .ok x := by
  induction k generalizing i r j with
  | zero => cases hr; simp at hx
  | succ k ih =>
    rw [Hist.resultsFrom] at hr
    obtain ⟨y, h1, hr⟩ := Res.bind_eq_ok.1 hr
    obtain ⟨ys, h2, hr⟩ := Res.bind_eq_ok.1 hr
    cases hr
    cases j with
    | zero => cases hx; exact h1
    | succ j => rw [← ih (i + 1) ys h2 j hx]; congr 1; omega
theorem hist_divideFrom (i k j : Nat) (r : List F) (hg : ∀ d, r[i]? = some d → h.good d) :
    Hist.divideFrom i j k (r.map h.f) = List.map h.f <$> Hist.divideFrom i j k r := by
  induction k generalizing j r with
  | zero => rfl
  | succ k ih =>
    rw [Hist.divideFrom, Hist.divideFrom, List.getElem?_map, List.getElem?_map]
    cases hj : r[j]? with
    | none => rfl
    | some v =>
      cases hi : r[i]? with
      | none => rfl
      | some d =>
        simp only [Option.map_some]
        rw [← h.div _ _ (hg d hi), ← List.map_set]
        refine ih (j + 1) (r.set j (v / d)) ?_
        intro e he
        by_cases hji : j = i
        · subst hji
          rw [hj] at hi
          cases hi
          rw [List.getElem?_set_self (List.getElem?_eq_some_iff.1 hj).1] at he
          cases he
          exact h.good_div_self v
        · rw [List.getElem?_set_ne hji] at he
          exact hg e he
theorem hist_getResultsBy (s : Hist F) (i : Nat) (hg : ∀ x, s.getResult i = .ok x → h.good x) :
    (s.map h).getResultsBy i = List.map h.f <$> s.getResultsBy i := by
  unfold Hist.getResultsBy
  rw [hist_getResults]
  cases hr : s.getResults with
  | ok r =>
    simp only [Res.map_ok, Res.ok_bind, List.length_map]
    refine hist_divideFrom h i _ _ r (fun d hd => hg d ?_)
    have := hist_resultsFrom s s.nbins 0 r hr i d hd
    rwa [Nat.zero_add] at this
  | _ => rfl

/-! ## Moves and observables -/

def MoveResult.map (r : MoveResult F) : MoveResult G := ⟨r.status, h.f r.prob⟩
def MoveStats.map (s : MoveStats F) : MoveStats G :=
  ⟨s.name, s.proposedflag, s.proposed, s.accepted, s.rejected, s.impossible, s.prob.map h⟩

theorem moveResult_new : (MoveResult.new : MoveResult F).map h = MoveResult.new := by
  simp [MoveResult.new, MoveResult.map, h.zero]
theorem moveResult_impossible : (MoveResult.mkImpossible : MoveResult F).map h = MoveResult.mkImpossible := by
  simp [MoveResult.mkImpossible, MoveResult.map, h.zero]
theorem moveStats_new (n : String) : (MoveStats.new n : MoveStats F).map h = MoveStats.new n := by
  simp [MoveStats.new, MoveStats.map, kahan_new]
theorem moveStats_reset (s : MoveStats F) : s.reset.map h = (s.map h).reset := by
  simp only [MoveStats.reset, MoveStats.map, kahan_reset]
theorem moveStats_propose (s : MoveStats F) : (s.map h).propose = s.propose.map (·.map h) := by
  unfold MoveStats.propose MoveStats.updateIfNotProposed
  by_cases hf : s.proposedflag = true
  · rw [if_pos hf, if_pos (show (s.map h).proposedflag = true from hf)]; rfl
  · rw [if_neg hf, if_neg (show ¬ (s.map h).proposedflag = true from hf)]; rfl
theorem moveStats_update (checks : Bool) (s : MoveStats F) (i : MoveStats F → MoveStats F) (j : MoveStats G → MoveStats G)
    (hij : ∀ s, j (s.map h) = (i s).map h) (p : F) :
    (s.map h).updateIfProposed checks j (h.f p) = (s.updateIfProposed checks i p).map (·.map h) := by
  unfold MoveStats.updateIfProposed
  by_cases hf : s.proposedflag = false
  · rw [if_pos hf, if_pos (show (s.map h).proposedflag = false from hf)]; rfl
  · rw [if_neg hf, if_neg (show ¬ (s.map h).proposedflag = false from hf)]
    rw [hij]
    simp only [MoveStats.map, kahan_add, Call.map]
theorem moveStats_accept (checks : Bool) (s : MoveStats F) (p : F) :
    (s.map h).accept checks (h.f p) = (s.accept checks p).map (·.map h) :=
  moveStats_update h checks s _ _ (fun _ => rfl) p
theorem moveStats_reject (checks : Bool) (s : MoveStats F) (p : F) :
    (s.map h).reject checks (h.f p) = (s.reject checks p).map (·.map h) :=
  moveStats_update h checks s _ _ (fun _ => rfl) p
theorem moveStats_impossible (checks : Bool) (s : MoveStats F) :
    (s.map h).setImpossible checks = (s.setImpossible checks).map (·.map h) := by
  unfold MoveStats.setImpossible
  rw [← h.zero]
  exact moveStats_update h checks s _ _ (fun _ => rfl) _
theorem moveStats_add (checks : Bool) (s : MoveStats F) (r : MoveResult F) :
    (s.map h).add checks (r.map h) = (s.add checks r).map (·.map h) := by
  unfold MoveStats.add
  simp only [moveStats_propose]
  cases hr : s.propose.res with
  | ok u =>
    simp only [Call.map, hr, MoveResult.getStatus, MoveResult.probability, MoveResult.map]
    by_cases h1 : r.status = MoveStatus.accepted
    · simp only [h1, if_true]
      exact moveStats_accept h checks _ _
    · by_cases h2 : r.status = MoveStatus.rejected
      · simp only [h2, if_true]
        exact moveStats_reject h checks _ _
      · by_cases h3 : r.status = MoveStatus.impossible
        · simp only [h3, if_true]
          exact moveStats_impossible h checks _
        · simp [h1, h2, h3, hr]
  | _ => simp [Call.map, hr]
theorem moveStats_ratios (s : MoveStats F) :
    (s.map h).getAcceptedRatio = h.f s.getAcceptedRatio ∧ (s.map h).getRejectedRatio = h.f s.getRejectedRatio ∧
    (s.map h).getImpossibleRatio = h.f s.getImpossibleRatio ∧
    (s.map h).getAverageProbability = h.f s.getAverageProbability := by
  refine ⟨?_, ?_, ?_, kahan_mean h s.prob⟩
  · unfold MoveStats.getAcceptedRatio
    simp only [MoveStats.map, apply_ite h.f, h.zero, h.div _ _ (h.good_ofNat _), h.ofNat]
    rfl
  · unfold MoveStats.getRejectedRatio
    rw [h.div _ _ (h.good_ofNat _), h.ofNat, h.ofNat]
    rfl
  · unfold MoveStats.getImpossibleRatio
    rw [h.div _ _ (h.good_ofNat _), h.ofNat, h.ofNat]
    rfl

section
variable {ι : Type} [LinearOrder ι]

def ObsGroup.map (g : ObsGroup F ι) : ObsGroup G ι := ⟨g.outputFile, g.accumulator.map (fun p => (p.1, p.2.map h))⟩

theorem find_map (φ : α → β) (k : ι) (m : StdMap ι α) :
    StdMap.find k (m.map (fun p => (p.1, φ p.2))) = (StdMap.find k m).map φ := by
  induction m with
  | nil => rfl
  | cons p m ih =>
    obtain ⟨k', v⟩ := p
    simp only [List.map_cons, StdMap.find, ih]
    split <;> rfl
theorem modify_map (φ : α → β) (f : α → α) (g : β → β) (hfg : ∀ a, g (φ a) = φ (f a)) (k : ι) (m : StdMap ι α) :
    StdMap.modify k g (m.map (fun p => (p.1, φ p.2))) = (StdMap.modify k f m).map (fun p => (p.1, φ p.2)) := by
  induction m with
  | nil => rfl
  | cons p m ih =>
    obtain ⟨k', v⟩ := p
    simp only [List.map_cons, StdMap.modify, ih]
    split <;> simp [hfg]
theorem tryEmplace_map (φ : α → β) (k : ι) (a : α) (m : StdMap ι α) :
    StdMap.tryEmplace k (φ a) (m.map (fun p => (p.1, φ p.2))) = (StdMap.tryEmplace k a m).map (fun p => (p.1, φ p.2)) := by
  induction m with
  | nil => rfl
  | cons p m ih =>
    obtain ⟨k', v⟩ := p
    simp only [List.map_cons, StdMap.tryEmplace, ih]
    split
    · rfl
    · split <;> rfl
theorem obs_addObservable (g : ObsGroup F ι) (k : ι) : (g.map h).addObservable k = (g.addObservable k).map h := by
  unfold ObsGroup.addObservable ObsGroup.map
  rw [← kahan_new h, tryEmplace_map]
theorem obs_newWith (file : String) (ks : List ι) :
    (ObsGroup.newWith file ks : ObsGroup F ι).map h = ObsGroup.newWith file ks := by
  unfold ObsGroup.newWith ObsGroup.map
  congr 1
  suffices ∀ m : StdMap ι (Kahan F), (ks.foldl (fun m i => m.tryEmplace i Kahan.new) m).map (fun p => (p.1, p.2.map h)) =
      ks.foldl (fun (m : StdMap ι (Kahan G)) i => m.tryEmplace i Kahan.new) (m.map (fun p => (p.1, p.2.map h))) from this []
  induction ks with
  | nil => intro m; rfl
  | cons k ks ih =>
    intro m
    rw [List.foldl_cons, List.foldl_cons, ih, ← tryEmplace_map, kahan_new]
theorem obs_measure (checks : Bool) (g : ObsGroup F ι) (k : ι) (x : F) :
    (g.map h).measure checks k (h.f x) = (g.measure checks k x).map (·.map h) := by
  unfold ObsGroup.measure
  simp only [ObsGroup.map, find_map (fun a : Kahan F => a.map h)]
  cases hk : StdMap.find k g.accumulator with
  | none => rfl
  | some a =>
    simp only [Option.map_some, kahan_add, Call.map]
    rw [modify_map (fun a : Kahan F => a.map h) (fun _ => (a.add checks x).state) (fun _ => ((a.add checks x).state).map h)
      (fun _ => rfl)]
omit [LinearOrder ι] in
theorem obs_means (g : ObsGroup F ι) :
    (g.map h).accumulator.map (fun p => (p.1, p.2.mean)) = g.accumulator.map (fun p => (p.1, h.f p.2.mean)) := by
  unfold ObsGroup.map
  rw [List.map_map]
  apply List.map_congr_left
  intro p _
  simp [kahan_mean]
end

/-! ## MathUtils -/

theorem partialSums_map (v : List F) : partialSums (v.map h.f) = (partialSums v).map h.f := by
  have : ∀ (v : List F) acc, partialSums.go (h.f acc) (v.map h.f) = (partialSums.go acc v).map h.f := by
    intro v
    induction v with
    | nil => intro acc; rfl
    | cons x v ih => intro acc; simp only [List.map_cons, partialSums.go, ← h.add, ih]
  cases v with
  | nil => rfl
  | cons x v => simp only [List.map_cons, partialSums, this]
theorem stdUpperBound_map (xs : List F) (v : F) (a n : Nat) :
    stdUpperBound (xs.map h.f) (h.f v) a n = stdUpperBound xs v a n := by
  induction n using Nat.strong_induction_on generalizing a with
  | _ n ih =>
    rw [stdUpperBound]
    conv_rhs => rw [stdUpperBound]
    by_cases hn : n = 0
    · simp [hn]
    · rw [if_neg hn, if_neg hn]
      simp only [List.getElem?_map]
      cases xs[a + n / 2]? with
      | none => rfl
      | some m =>
        simp only [Option.map_some, ← h.lt]
        split
        · exact ih _ (by omega) _
        · exact ih _ (by omega) _
theorem chooseBetween_map (ps : List F) (d : F → F → F) (d' : G → G → G) (hd : ∀ a b, d' (h.f a) (h.f b) = h.f (d a b)) :
    chooseBetween (ps.map h.f) d' = chooseBetween ps d := by
  unfold chooseBetween
  rw [partialSums_map]
  simp only [List.getLast?_map]
  cases (partialSums ps).getLast? with
  | none => rfl
  | some b =>
    simp only [Option.map_some, List.length_map]
    rw [← h.zero, hd, stdUpperBound_map]
theorem chooseBetweenPsums_map (ps : List F) (d : F → F → F) (d' : G → G → G)
    (hd : ∀ a b, d' (h.f a) (h.f b) = h.f (d a b)) : chooseBetweenPsums (ps.map h.f) d' = chooseBetweenPsums ps d := by
  unfold chooseBetweenPsums
  simp only [List.getLast?_map]
  cases ps.getLast? with
  | none => rfl
  | some b =>
    simp only [Option.map_some, List.length_map]
    rw [← h.zero, hd, stdUpperBound_map]
theorem chooseWithProbability_map (p : F) (d : F → F → F) (d' : G → G → G)
    (hd : ∀ a b, d' (h.f a) (h.f b) = h.f (d a b)) : chooseWithProbability (h.f p) d' = chooseWithProbability p d := by
  unfold chooseWithProbability
  rw [← h.zero, ← h.lit, hd, ← h.lt]
theorem uniformReal_map (r : ℚ) (hr : 0 ≤ r) (xs : List Nat) (a b : F) :
    uniformReal r xs (h.f a) (h.f b) = h.f (uniformReal r xs a b) := by
  have key : ∀ (xs : List Nat) (s t : F), h.pos t →
      canonicalLoop r xs (h.f s) (h.f t) = (h.f (canonicalLoop r xs s t).1, h.f (canonicalLoop r xs s t).2) ∧
      h.pos (canonicalLoop r xs s t).2 := by
    intro xs
    induction xs with
    | nil => intro s t ht; exact ⟨rfl, ht⟩
    | cons x xs ih =>
      intro s t ht
      have := ih (s + CxxFloat.ofNat x * t) (t * CxxFloat.lit r) (h.pos_mul _ _ ht (h.pos_lit r hr))
      simpa only [canonicalLoop, h.add, h.mul, h.ofNat, h.lit] using this
  have hc : canonical r xs = h.f (canonical r xs) := by
    obtain ⟨k1, k2⟩ := key xs CxxFloat.zero (CxxFloat.lit 1) (h.pos_lit 1 (by norm_num))
    unfold canonical
    rw [h.zero, h.lit] at k1
    simp only [k1]
    rw [h.le, h.lit, h.div _ _ (h.good_of_pos _ k2)]
    split
    · rw [h.lit]
    · rw [h.div _ _ (h.good_of_pos _ k2)]
  unfold uniformReal
  rw [hc, h.add, h.mul, h.sub]
theorem heaviside_map (x : F) : heaviside (h.f x) = h.f (heaviside x) := by
  unfold heaviside
  rw [← h.zero, ← h.le]
  split
  · rw [h.lit]
  · rw [h.zero]
theorem heaviside2_map (x : F) : heaviside2 (h.f x) = h.f (heaviside2 x) := by
  unfold heaviside2
  rw [← h.zero, ← h.eq, ← h.lt]
  split
  · rw [h.lit]
  · split
    · rw [h.lit]
    · rw [h.zero]
theorem lerp_map (a b t : F) : lerp (h.f a) (h.f b) (h.f t) = h.f (lerp a b t) := by
  simp [lerp, h.add, h.mul, h.sub, h.ofInt]
theorem lerpi_map (i j : Int) (a b : F) : lerpi i j (h.f a) (h.f b) = h.f (lerpi i j a b) := by
  unfold lerpi
  rw [← lerp_map, h.div _ _ (h.good_ofInt _), h.ofInt, h.ofInt]
theorem squareF_map (x : F) : squareF (h.f x) = h.f (squareF x) := by simp [squareF, h.mul]
theorem cubeF_map (x : F) : cubeF (h.f x) = h.f (cubeF x) := by simp [cubeF, h.mul]
theorem foldSquares_map (v : List F) (a : F) :
    (v.map h.f).foldl (fun d x => d + squareF x) (h.f a) = h.f (v.foldl (fun d x => d + squareF x) a) := by
  induction v generalizing a with
  | nil => rfl
  | cons x v ih => rw [List.map_cons, List.foldl_cons, List.foldl_cons, squareF_map, ← h.add, ih]
theorem sumSquared_map (v : List F) : sumSquared (v.map h.f) = h.f (sumSquared v) := by
  unfold sumSquared
  rw [← h.ofInt, foldSquares_map]
theorem l2norm_map (v : List F) : l2norm (v.map h.f) = h.f (l2norm v) := by
  unfold l2norm
  rw [← h.zero, foldSquares_map, h.sqrt]
theorem l2normL_map (v : List Int) : (l2normL v : Res G) = h.f <$> l2normL v := by
  unfold l2normL
  cases sumSquaredL v with
  | ok d => simp only [Res.ok_bind, Res.map_ok]; rw [h.sqrt, h.ofInt]
  | _ => rfl
theorem deref_map (xs : List F) (i : Int) : deref (xs.map h.f) i = h.f <$> deref xs i := by
  unfold deref
  split
  · rfl
  · rw [List.getElem?_map]
    cases xs[i.toNat]? <;> rfl
theorem upperBoundStep_map (round : F → Res Int) (round' : G → Res Int) (hr : ∀ x, round' (h.f x) = round x) (xs : List F)
    (v : F) (s : Search) : upperBoundStep round' (xs.map h.f) (h.f v) s = upperBoundStep round xs v s := by
  cases s with
  | ret p => rfl
  | state s =>
    simp only [upperBoundStep, upperBoundBody, deref_map]
    cases deref xs s.it with
    | ok a =>
      simp only [Res.map_ok, Res.ok_bind, ← h.lt]
      split
      · rfl
      · split
        · rfl
        · rename_i h1 h2
          cases deref xs s.to' with
          | ok b =>
            simp only [Res.map_ok, Res.ok_bind, ← h.lt]
            split
            · rfl
            · rename_i h3
              have hg : h.good (b - a) := h.good_sub_of_lt b a v (by simpa using h2) (by simpa using h3)
              rw [← h.ofInt, ← h.sub, ← h.sub, ← h.div _ _ hg, ← h.mul, hr]
              cases round _ with
              | ok np =>
                simp only [Res.ok_bind]
                cases deref xs (s.it + np) with
                | ok c => simp only [Res.map_ok, Res.ok_bind, ← h.lt]
                | _ => rfl
              | _ => rfl
          | _ => rfl
    | _ => rfl
theorem upperBound_congr {α β : Type} [CxxFloat α] [CxxFloat β] (r : α → Res Int) (r' : β → Res Int) (xs : List α) (ys : List β)
    (v : α) (w : β) (hs : ∀ s, upperBoundStep r' ys w s = upperBoundStep r xs v s) (a b : Int) :
    bwslUpperBound r' ys w a b = .diverges ∨ bwslUpperBound r' ys w a b = bwslUpperBound r xs v a b := by
  have := bwslUpperBound.fixpoint_induct r' ys w
    (motive := fun f => ∀ a b, f a b = .diverges ∨ f a b = bwslUpperBound r xs v a b)
    (by
      apply Lean.Order.admissible_pi_apply (fun a (g : Int → Res Int) => ∀ b, g b = .diverges ∨ g b = bwslUpperBound r xs v a b)
      intro a
      apply Lean.Order.admissible_pi_apply (fun b (x : Res Int) => x = .diverges ∨ x = bwslUpperBound r xs v a b)
      intro b
      apply Lean.Order.admissible_flatOrder
      exact Or.inl rfl)
    (by
      intro f ih a b
      rw [bwslUpperBound]
      have e : upperBoundStep r' ys w = upperBoundStep r xs v := funext hs
      rw [e]
      simp only
      split
      · exact Or.inr rfl
      · cases whileLoop Search.again (upperBoundStep r xs v) (.state ⟨a, a + (b - a - 1), b - a⟩) with
        | ok q =>
          cases q with
          | ret p => exact Or.inr rfl
          | state s => exact ih s.it (s.to' + 1)
        | _ => exact Or.inr rfl)
  exact this a b
theorem upperBound_map (round : F → Res Int) (round' : G → Res Int) (hr : ∀ x, round' (h.f x) = round x) (xs : List F)
    (v : F) (a b : Int) : bwslUpperBound round' (xs.map h.f) (h.f v) a b = bwslUpperBound round xs v a b := by
  have hs := upperBoundStep_map h round round' hr xs v
  rcases upperBound_congr round round' xs (xs.map h.f) v (h.f v) hs a b with h1 | h1
  · rcases upperBound_congr round' round (xs.map h.f) xs (h.f v) v (fun s => (hs s).symm) a b with h2 | h2
    · rw [h1, h2]
    · exact h2.symm
  · exact h1
theorem toDouble_map (r : RatNum) : (r.toDouble : G) = h.f r.toDouble := by
  unfold RatNum.toDouble
  rw [h.div _ _ (h.good_ofInt _), h.ofInt, h.ofInt]

/-! ## Approx -/

def Approx.map (a : Approx F) : Approx G := ⟨h.f a.value, h.f a.abs, h.f a.rel⟩

theorem approx_new (x : F) : Approx.new (h.f x) = (Approx.new x).map h := by
  simp [Approx.new, Approx.map, h.zero, h.mul, h.lit, h.ofInt]
theorem approx_setAbs (a : Approx F) (x : F) : (a.map h).setAbs (h.f x) = (a.setAbs x).map h := by
  simp [Approx.setAbs, Approx.map, h.abs]
theorem approx_setRel (a : Approx F) (x : F) : (a.map h).setRel (h.f x) = (a.setRel x).map h := by
  simp [Approx.setRel, Approx.map, h.abs]
theorem approx_eq (a : Approx F) (x : F) : Approx.eqL (h.f x) (a.map h) = Approx.eqL x a := by
  have : ∀ a b : F, stdMax (h.f a) (h.f b) = h.f (stdMax a b) := by
    intro a b
    unfold stdMax
    rw [← h.lt]
    split <;> rfl
  unfold Approx.eqL
  simp only [Approx.map]
  rw [h.le, ← h.sub, ← h.mul, h.abs, ← h.abs, ← h.abs, this]
theorem approx_le (a : Approx F) (x : F) :
    Approx.leL (h.f x) (a.map h) = Approx.leL x a ∧ Approx.leR (a.map h) (h.f x) = Approx.leR a x ∧
    Approx.geL (h.f x) (a.map h) = Approx.geL x a ∧ Approx.geR (a.map h) (h.f x) = Approx.geR a x := by
  unfold Approx.leL Approx.leR Approx.geL Approx.geR Approx.eqR
  simp only [approx_eq, h.lt]
  exact ⟨rfl, rfl, rfl, rfl⟩

/-! ## LinSpace and LogSpace -/

def LinSpace.map (s : LinSpace F) : LinSpace G := ⟨h.f s.current, h.f s.first, h.f s.last, h.f s.stepsize, s.nsteps, s.step⟩
def LogSpace.map (s : LogSpace F) : LogSpace G := ⟨h.f s.base, h.f s.current, h.f s.first, h.f s.last, s.nsteps, s.step⟩

theorem linSpace_new (a b : F) (n : Nat) : LinSpace.new (h.f a) (h.f b) n = (·.map h) <$> LinSpace.new a b n := by
  unfold LinSpace.new
  rw [← h.lt]
  split
  · simp [LinSpace.map, h.div _ _ (h.good_ofNat _), h.sub, h.ofNat]
  · rfl
theorem linSpace_incr (s : LinSpace F) : (s.map h).incr = s.incr.map h := by
  simp [LinSpace.incr, LinSpace.map, h.add, h.mul, h.ofNat]
theorem linSpace_begin (s : LinSpace F) : (s.map h).begin = s.begin.map h := rfl
theorem linSpace_end (s : LinSpace F) : (s.map h).end = s.end.map h := rfl
theorem linSpace_deref (s : LinSpace F) : (s.map h).deref = h.f s.deref := rfl
theorem linSpace_collect (s : LinSpace F) (n : Nat) : (s.map h).collect n = (s.collect n).map h.f := by
  unfold LinSpace.collect
  induction n generalizing s with
  | zero => rfl
  | succ n ih =>
    simp only [LinSpace.generateN, LinSpace.call, linSpace_incr, ih]
    rfl
theorem logFactor_map (a b : F) (n : Nat) : LogSpace.factor (h.f a) (h.f b) n = h.f (LogSpace.factor a b n) := by
  unfold LogSpace.factor
  rw [h.pow _ _ h.good_e, h.e, h.div _ _ (h.good_ofNat _), h.sub, h.log, h.log, h.ofNat]
theorem logSpace_new_map (a b : F) (n : Nat) : LogSpace.new (h.f a) (h.f b) n = (·.map h) <$> LogSpace.new a b n := by
  unfold LogSpace.new
  rw [← h.lt]
  split
  · simp [LogSpace.map, logFactor_map]
  · rfl
theorem logSpace_newPow (a b : Int) (n : Nat) (base : F) (hb : h.good base) :
    LogSpace.newPow a b n (h.f base) = (·.map h) <$> LogSpace.newPow a b n base := by
  unfold LogSpace.newPow
  split
  · simp only [Res.map_ok, LogSpace.map]
    rw [← h.ofInt, ← h.ofInt, ← h.pow _ _ hb, ← h.pow _ _ hb, logFactor_map]
  · rfl
theorem logSpace_incr (s : LogSpace F) : (s.map h).incr = s.incr.map h := by
  simp [LogSpace.incr, LogSpace.map, h.mul]
theorem logSpace_begin (s : LogSpace F) : (s.map h).begin = s.begin.map h := rfl
theorem logSpace_end (s : LogSpace F) : (s.map h).end = s.end.map h := rfl
theorem logSpace_deref (s : LogSpace F) : (s.map h).deref = h.f s.deref := rfl
theorem logSpace_collect (s : LogSpace F) (n : Nat) : (s.map h).collect n = (s.collect n).map h.f := by
  unfold LogSpace.collect
  induction n generalizing s with
  | zero => rfl
  | succ n ih =>
    simp only [LogSpace.generateN, LogSpace.call, logSpace_incr, ih]
    rfl
theorem logSpace_visit (s : LogSpace F) : (s.map h).visit = List.map h.f <$> s.visit := by
  unfold LogSpace.visit
  have := whileLoop_map (fun st : LogSpace F × List F => (st.1.map h, st.2.map h.f))
    (c := fun st => LogSpace.ne st.1 s.end) (d := fun st => LogSpace.ne st.1 (s.map h).end)
    (f := fun st => .ok (st.1.incr, st.2 ++ [st.1.deref])) (g := fun st => .ok (st.1.incr, st.2 ++ [st.1.deref]))
    (fun _ => rfl) (fun st => by simp [logSpace_incr, logSpace_deref]) (s.begin, [])
  rw [show ((s.map h).begin, ([] : List G)) = (s.begin.map h, ([] : List F).map h.f) from rfl, this]
  cases whileLoop _ _ _ <;> rfl

/-! ## Bravais and Lattice -/

def Bravais.map (b : Bravais F) : Bravais G :=
  ⟨b.dim, b.gamma, b.pvectors.map h.f, b.pivectors.map h.f, b.neighbors⟩

theorem bravais_new (d g : Nat) (p q : List F) (n : List Int) :
    Bravais.new d g (p.map h.f) (q.map h.f) n = (·.map h) <$> Bravais.new d g p q n := by
  unfold Bravais.new
  simp only [List.length_map]
  split <;> rfl
theorem bravais_getRealSpace (b : Bravais F) (c : List Int) :
    (b.map h).getRealSpace c = List.map h.f <$> b.getRealSpace c := by
  unfold Bravais.getRealSpace
  by_cases hl : c.length = b.dim
  · rw [if_pos hl, if_pos (show c.length = (b.map h).dim from hl)]
    refine mapRange_map h.f _ _ (fun i => accumulate_map h _ _ (fun j => ?_) b.dim) b.dim
    simp only [Bravais.map, subscript_map]
    cases subscript c j with
    | ok x =>
      simp only [Res.ok_bind]
      cases subscript b.pvectors (uadd i (umul j b.dim)) with
      | ok y => simp only [Res.map_ok, Res.ok_bind, h.mul, h.ofInt]
      | _ => rfl
    | _ => rfl
  · rw [if_neg hl, if_neg (show ¬ c.length = (b.map h).dim from hl)]
    rfl
theorem bravais_getInverseVector (b : Bravais F) (c : List F) :
    (b.map h).getInverseVector (c.map h.f) = List.map h.f <$> b.getInverseVector c := by
  unfold Bravais.getInverseVector
  rw [List.length_map]
  by_cases hl : c.length = b.dim
  · rw [if_pos hl, if_pos (show c.length = (b.map h).dim from hl)]
    refine mapRange_map h.f _ _ (fun i => accumulate_map h _ _ (fun j => ?_) b.dim) b.dim
    simp only [Bravais.map, subscript_map]
    cases subscript c i with
    | ok x =>
      simp only [Res.map_ok, Res.ok_bind]
      cases subscript b.pivectors (uadd (umul i b.dim) j) with
      | ok y => simp only [Res.map_ok, Res.ok_bind, h.mul]
      | _ => rfl
    | _ => rfl
  · rw [if_neg hl, if_neg (show ¬ c.length = (b.map h).dim from hl)]
    rfl
theorem bravais_getReciprocalSpace (b : Bravais F) (c : List Int) :
    (b.map h).getReciprocalSpace c = List.map h.f <$> b.getReciprocalSpace c := by
  unfold Bravais.getReciprocalSpace
  by_cases hl : c.length = b.dim
  · rw [if_pos hl, if_pos (show c.length = (b.map h).dim from hl)]
    refine mapRange_map h.f _ _ (fun i => accumulate_map h _ _ (fun j => ?_) b.dim) b.dim
    simp only [Bravais.map, subscript_map]
    cases subscript c j with
    | ok x =>
      simp only [Res.ok_bind]
      cases lmul x 2 with
      | ok x2 =>
        simp only [Res.ok_bind]
        cases subscript b.pivectors (uadd i (umul j b.dim)) with
        | ok y => simp only [Res.map_ok, Res.ok_bind, h.mul, h.ofInt, h.pi]
        | _ => rfl
      | _ => rfl
    | _ => rfl
  · rw [if_neg hl, if_neg (show ¬ c.length = (b.map h).dim from hl)]
    rfl
theorem bravais_getVector (b : Bravais F) (x y : List Int) :
    (b.map h).getVector x y = List.map h.f <$> b.getVector x y := by
  unfold Bravais.getVector
  simp only [bravais_getRealSpace]
  show (mapRange b.dim _ >>= _) = _ <$> (mapRange b.dim _ >>= _)
  cases mapRange b.dim _ <;> rfl
theorem sumOfSquares_map (n : Nat) (p : List F) :
    (accumulate n (fun i => do let x ← subscript (p.map h.f) i; .ok (squareF x)) : Res G) =
      h.f <$> accumulate n (fun i => do let x ← subscript p i; .ok (squareF x)) := by
  refine accumulate_map h _ _ (fun i => ?_) n
  rw [subscript_map]
  cases subscript p i with
  | ok x => simp only [Res.map_ok, Res.ok_bind, squareF_map]
  | _ => rfl
theorem bravais_getDistanceVector (b : Bravais F) (x y : List Int) :
    (b.map h).getDistanceVector x y = (fun r => (h.f r.1, r.2.map h.f)) <$> b.getDistanceVector x y := by
  unfold Bravais.getDistanceVector
  rw [bravais_getVector]
  cases b.getVector x y with
  | ok p =>
    simp only [Res.map_ok, Res.ok_bind]
    rw [show (b.map h).dim = b.dim from rfl, sumOfSquares_map]
    cases (accumulate b.dim (fun i => do let x ← subscript p i; Res.ok (squareF x)) : Res F) with
    | ok d => simp only [Res.map_ok, Res.ok_bind, h.sqrt]
    | _ => rfl
  | _ => rfl
theorem bravais_getDistance (b : Bravais F) (x y : List Int) :
    (b.map h).getDistance x y = h.f <$> b.getDistance x y := by
  unfold Bravais.getDistance
  rw [bravais_getVector]
  cases b.getVector x y with
  | ok p =>
    simp only [Res.map_ok, Res.ok_bind]
    rw [show (b.map h).dim = b.dim from rfl, sumOfSquares_map]
    cases (accumulate b.dim (fun i => do let x ← subscript p i; Res.ok (squareF x)) : Res F) with
    | ok d => simp only [Res.map_ok, Res.ok_bind, h.sqrt]
    | _ => rfl
  | _ => rfl

theorem namedLattices_map :
    (chainLattice : Res (Bravais G)) = (·.map h) <$> chainLattice ∧ (squareLattice : Res (Bravais G)) = (·.map h) <$> squareLattice ∧
    (cubicLattice : Res (Bravais G)) = (·.map h) <$> cubicLattice ∧
    (triangularLattice : Res (Bravais G)) = (·.map h) <$> triangularLattice := by
  have g2 : h.good (CxxFloat.lit 2) := h.good_of_pos _ (h.pos_lit 2 (by norm_num))
  have g3 : h.good (CxxFloat.sqrt (CxxFloat.lit 3)) := h.good_sqrt _ (h.good_of_pos _ (h.pos_lit 3 (by norm_num)))
  unfold chainLattice squareLattice cubicLattice triangularLattice
  simp only [← bravais_new, List.map_cons, List.map_nil, h.lit, h.zero, h.div _ _ g2, h.div _ _ g3, h.sqrt, h.neg, and_self]

def Lattice.map (l : Lattice F) : Lattice G :=
  ⟨l.grid, l.position.map (List.map h.f), l.vectors.map (List.map h.f), l.distance.map h.f, l.neighbors,
    l.momenta.map (List.map h.f)⟩

/-- What a bind does to mapped outcomes. -/
theorem bind_map (φ : β → γ) (ψ : α → δ) {x : Res α} {y : Res δ} {f : α → Res β} {g : δ → Res γ} (hx : y = ψ <$> x)
    (hf : ∀ a, g (ψ a) = φ <$> f a) : (y >>= g) = φ <$> (x >>= f) := by
  subst hx
  cases x with
  | ok a => exact hf a
  | _ => rfl

theorem bind_map_same (φ : β → γ) {x : Res α} {f : α → Res β} {g : α → Res γ} (hf : ∀ a, g a = φ <$> f a) :
    (x >>= g) = φ <$> (x >>= f) := by
  cases x with
  | ok a => exact hf a
  | _ => rfl

theorem ite_map (φ : α → β) {p : Prop} [Decidable p] {x y : Res α} {x' y' : Res β} (hx : x' = φ <$> x) (hy : y' = φ <$> y) :
    (if p then x' else y') = φ <$> (if p then x else y) := by
  subst hx hy
  split <;> rfl

theorem lattice_positions (g : Grid) (b : Bravais F) :
    Lattice.computePositions g (b.map h) = List.map (List.map h.f) <$> Lattice.computePositions g b := by
  unfold Lattice.computePositions
  refine bind_map_same _ (fun c0 => mapRange_map _ _ _ (fun i => ?_) _)
  exact bind_map_same _ (fun c => bravais_getVector h b c0 c)
theorem lattice_tryImage (g : Grid) (b : Bravais F) (m : List Nat) (c0 cs : List Int) (s : F × List F) (k : Nat) :
    Lattice.tryImage g (b.map h) m c0 cs (h.f s.1, s.2.map h.f) k =
      (fun r => (h.f r.1, r.2.map h.f)) <$> Lattice.tryImage g b m c0 cs s k := by
  unfold Lattice.tryImage
  refine bind_map_same _ (fun img => bind_map_same _ (fun csm => ?_))
  refine bind_map _ (fun r => (h.f r.1, r.2.map h.f)) (bravais_getDistanceVector h b c0 csm) (fun r => ?_)
  simp only [Res.map_ok, ← h.lt]
  split <;> rfl
theorem lattice_vectors (g : Grid) (b : Bravais F) :
    Lattice.computeVectors g (b.map h) = List.map (List.map h.f) <$> Lattice.computeVectors g b := by
  unfold Lattice.computeVectors
  simp only
  refine bind_map_same _ (fun c0 => mapRange_map _ _ _ (fun i => ?_) _)
  refine bind_map_same _ (fun cs => ?_)
  refine bind_map _ (fun r => (h.f r.1, r.2.map h.f)) (bravais_getDistanceVector h b c0 cs) (fun r => ?_)
  refine ite_map _ (bind_map _ (fun r : F × List F => (h.f r.1, r.2.map h.f)) ?_ (fun r => ?_)) rfl
  · exact foldRange_map (fun r : F × List F => (h.f r.1, r.2.map h.f)) _ _ (lattice_tryImage h g b _ c0 cs) _ r
  · rfl
theorem lattice_distances (v : List (List F)) :
    Lattice.computeDistances (v.map (List.map h.f)) = (Lattice.computeDistances v).map h.f := by
  unfold Lattice.computeDistances
  rw [List.map_map, List.map_map]
  apply List.map_congr_left
  intro x _
  simp only [Function.comp, sumSquared_map, h.sqrt]
theorem lattice_neighbors (g : Grid) (b : Bravais F) :
    Lattice.computeNeighbors g (b.map h) = Lattice.computeNeighbors g b := by
  have : ∀ n j ci, Lattice.neighborLoop g (b.map h) ci j n = Lattice.neighborLoop g b ci j n := by
    intro n
    induction n with
    | zero => intro j ci; rfl
    | succ n ih =>
      intro j ci
      rw [Lattice.neighborLoop, Lattice.neighborLoop]
      simp only [ih]
      rfl
  unfold Lattice.computeNeighbors
  simp only [this]
  rfl
theorem lattice_momentum (g : Grid) (b : Bravais F) (i : Nat) :
    Lattice.computeMomentum g (b.map h) i = List.map h.f <$> Lattice.computeMomentum g b i := by
  unfold Lattice.computeMomentum
  refine bind_map_same _ (fun ci => bind_map_same _ (fun ci => ?_))
  refine bind_map _ (List.map h.f) (bravais_getReciprocalSpace h b ci) (fun kappa => ?_)
  rw [List.length_map]
  refine mapRange_map _ _ _ (fun k => bind_map_same _ (fun s => ?_)) _
  refine bind_map _ h.f (subscript_map _ _ _) (fun x => ?_)
  rw [Res.map_ok, h.div _ _ (h.good_ofNat _), h.ofNat]
theorem lattice_momenta (g : Grid) (b : Bravais F) :
    Lattice.computeMomenta g (b.map h) = List.map (List.map h.f) <$> Lattice.computeMomenta g b := by
  unfold Lattice.computeMomenta
  split
  · rfl
  · exact mapRange_map _ _ _ (fun i => lattice_momentum h g b i) _
theorem lattice_new (b : Bravais F) (size : List Nat) (bd : Boundaries) :
    Lattice.new (b.map h) size bd = (·.map h) <$> Lattice.new b size bd := by
  unfold Lattice.new
  simp only
  refine bind_map _ (List.map (List.map h.f)) (lattice_positions h _ b) (fun pos => ?_)
  refine bind_map _ (List.map (List.map h.f)) (lattice_vectors h _ b) (fun vec => ?_)
  rw [lattice_neighbors, lattice_distances]
  refine bind_map_same _ (fun nei => ?_)
  exact bind_map _ (List.map (List.map h.f)) (lattice_momenta h _ b) (fun mom => rfl)
theorem lattice_getDistance (l : Lattice F) (a b : Nat) : (l.map h).getDistance a b = h.f <$> l.getDistance a b := by
  unfold Lattice.getDistance
  exact ite_map _ (bind_map_same _ (fun s => subscript_map _ _ _)) rfl
theorem lattice_getVector (l : Lattice F) (a b : Nat) : (l.map h).getVector a b = List.map h.f <$> l.getVector a b := by
  unfold Lattice.getVector
  exact ite_map _ (bind_map_same _ (fun s => subscript_map _ _ _)) rfl
theorem lattice_getMomentum (l : Lattice F) (a : Nat) : (l.map h).getMomentum a = List.map h.f <$> l.getMomentum a := by
  unfold Lattice.getMomentum
  exact ite_map _ (subscript_map _ _ _) rfl
theorem lattice_getPosition (l : Lattice F) (a : Nat) : (l.map h).getPosition a = List.map h.f <$> l.getPosition a := by
  unfold Lattice.getPosition
  exact ite_map _ (subscript_map _ _ _) rfl
theorem lattice_fourier {T : Type} (conv : T → F) (conv' : T → G) (hc : ∀ o, conv' o = h.f (conv o)) (l : Lattice F)
    (occ : List T) (k : List F) :
    (l.map h).fourier conv' occ (k.map h.f) = (fun s => (h.f s.1, h.f s.2)) <$> l.fourier conv occ k := by
  unfold Lattice.fourier
  rw [show ((CxxFloat.zero, CxxFloat.zero) : G × G) = (fun s : F × F => (h.f s.1, h.f s.2)) (CxxFloat.zero, CxxFloat.zero) by
    simp only [h.zero]]
  refine foldRange_map (fun s : F × F => (h.f s.1, h.f s.2)) _ _ (fun s j => ?_) _ _
  refine bind_map _ (List.map h.f) (lattice_getVector h l 0 j) (fun x => ?_)
  refine bind_map _ h.f (accumulate_map h _ _ (fun q => ?_) _) (fun prod => bind_map_same _ (fun o => ?_))
  · refine bind_map _ h.f (subscript_map _ _ _) (fun a => bind_map _ h.f (subscript_map _ _ _) (fun c => ?_))
    rw [Res.map_ok, h.mul]
  · simp only [Res.map_ok, hc, h.add, h.mul, h.sin, h.cos]
theorem lattice_accumulateSk {T : Type} (conv : T → F) (conv' : T → G) (hc : ∀ o, conv' o = h.f (conv o)) (l : Lattice F)
    (occ : List T) (sk : List F) (mult : F) :
    (l.map h).accumulateSk conv' occ (sk.map h.f) (h.f mult) = List.map h.f <$> l.accumulateSk conv occ sk mult := by
  unfold Lattice.accumulateSk
  by_cases ho : l.grid.hasOpenBoundaries = true
  · rw [if_pos ho, if_pos (show (l.map h).grid.hasOpenBoundaries = true from ho)]; rfl
  · rw [if_neg ho, if_neg (show ¬ (l.map h).grid.hasOpenBoundaries = true from ho)]
    simp only
    refine bind_map _ (List.map h.f) (mapRange_map _ _ _ (fun i => ?_) _) (fun new => ?_)
    · refine bind_map _ (List.map h.f) (subscript_map _ _ _) (fun k => ?_)
      refine bind_map _ _ (lattice_fourier h conv conv' hc l occ k) (fun s => ?_)
      refine bind_map _ h.f (subscript_map _ _ _) (fun old => ?_)
      simp only [Res.map_ok]
      rw [h.add, h.div _ _ (h.good_ofNat _), h.mul, h.add, squareF_map, squareF_map, h.ofNat]
      rfl
    · simp only [Res.map_ok, List.map_append, List.map_drop]
      rfl
theorem lattice_computeSk {T : Type} (conv : T → F) (conv' : T → G) (hc : ∀ o, conv' o = h.f (conv o)) (l : Lattice F)
    (occ : List T) (mult : F) :
    (l.map h).computeSk conv' occ (h.f mult) = List.map h.f <$> l.computeSk conv occ mult := by
  unfold Lattice.computeSk
  have e : List.replicate (l.map h).grid.numsites (CxxFloat.zero : G) =
      (List.replicate l.grid.numsites (CxxFloat.zero : F)).map h.f := by
    rw [List.map_replicate, h.zero]; rfl
  by_cases ho : l.grid.hasOpenBoundaries = true
  · simp only [e]
    rw [if_pos ho, if_pos (show (l.map h).grid.hasOpenBoundaries = true from ho)]; rfl
  · simp only [e]
    rw [if_neg ho, if_neg (show ¬ (l.map h).grid.hasOpenBoundaries = true from ho)]
    exact lattice_accumulateSk h conv conv' hc l occ _ mult

end Bwsl
