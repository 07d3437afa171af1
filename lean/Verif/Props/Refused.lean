import Verif.Props.MoveStats
import Verif.Props.ObservableGroup
import Verif.Props.AccumCount
import Verif.Model.Hist
import Verif.Lemmas.Loop

/-! Properties C119 and C120: calls that throw change nothing; results of moves. -/

namespace Bwsl
open Spec

set_option linter.unusedSectionVars false

section
variable {F : Type} [CxxFloat F]

/-- A histogram of well-formed shape: as many bins as it says. -/
def Hist.Shaped (h : Hist F) : Prop := h.acc.length = h.nbins ∧ h.nbins < 2 ^ 64

/-- C119.  Histograms: an `Add` that throws changes nothing; it throws exactly if the checks are on and the bin has
2^64-1 measurements. -/
theorem C119_hist_partial (checks : Bool) (h : Hist F) (i : Nat) (x : F) (a : Neumaier F) (ha : h.acc[i]? = some a) :
    ((h.add checks i x).res = if checks = true ∧ a.count = 2 ^ 64 - 1 then .throws .accumulatorOverflow else .ok ()) ∧
    (∀ e, (h.add checks i x).res = .throws e → (h.add checks i x).state = h) := by
  have e : h.add checks i x = if checks = true ∧ a.count = 2 ^ 64 - 1 then ⟨h, .throws .accumulatorOverflow⟩
      else ⟨⟨h.nbins, h.acc.set i (a.addCore x), succU h.count⟩, .ok ()⟩ := by
    unfold Hist.add Hist.addTo Neumaier.add guarded
    rw [ha]
    by_cases hc : checks = true ∧ a.count = W64 - 1
    · simp only [if_pos hc]
      rw [if_pos (show checks = true ∧ a.count = 2 ^ 64 - 1 from hc)]
      have : h.acc.set i a = h.acc := by
        apply List.ext_getElem?
        intro j
        rw [List.getElem?_set]
        split
        · next hj =>
          subst hj
          split
          · exact ha.symm
          · next hl => rw [List.getElem?_eq_none (by omega)]
        · rfl
      simp only [this]
    · simp only [if_neg hc]
      rw [if_neg (show ¬ (checks = true ∧ a.count = 2 ^ 64 - 1) from hc)]
  rw [e]
  split
  · exact ⟨rfl, fun _ _ => rfl⟩
  · exact ⟨rfl, fun _ h => by cases h⟩

/-- C119.  `ForceAdd` to a bin that exists is `Add`. -/
theorem C119_force_partial (checks : Bool) (h : Hist F) (i : Nat) (x : F) (hi : i < h.nbins) :
    h.forceAdd checks i x = h.add checks i x := by
  unfold Hist.forceAdd Hist.grow
  rw [whileLoop_done (by simp only [decide_eq_false_iff_not]; omega)]
  rfl

variable {ι : Type} [LinearOrder ι]

theorem modify_same (m : StdMap ι (Kahan F)) (k : ι) (a : Kahan F) (h : StdMap.find k m = some a) :
    StdMap.modify k (fun _ => a) m = m := by
  induction m with
  | nil => rfl
  | cons q m ih =>
    obtain ⟨k', v⟩ := q
    simp only [StdMap.find] at h
    simp only [StdMap.modify]
    split
    · next hk => rw [if_pos hk] at h; cases h; rfl
    · next hk => rw [if_neg hk] at h; rw [ih h]

/-- C119.  Groups of observables: a `Measure` that throws changes nothing. -/
theorem C119_group_partial (checks : Bool) (g : ObsGroup F ι) (k : ι) (x : F) (e : Exn)
    (h : (g.measure checks k x).res = .throws e) : (g.measure checks k x).state = g := by
  unfold ObsGroup.measure at h ⊢
  cases hk : StdMap.find k g.accumulator with
  | none => rfl
  | some a =>
    rw [hk] at h
    simp only at h ⊢
    unfold Kahan.add guarded at h ⊢
    split at h
    · next hc => simp only [if_pos hc, modify_same _ _ _ hk]
    · cases h

/-- C119.  Move statistics: calls out of turn throw and change nothing. -/
theorem C119_moves_partial (checks : Bool) (s : MoveStats F) (r : MoveResult F) (p : F) :
    (s.proposedflag = true → s.propose = ⟨s, .throws (.moveInvalidSequence s.name)⟩ ∧
      s.add checks r = ⟨s, .throws (.moveInvalidSequence s.name)⟩) ∧
    (s.proposedflag = false → s.accept checks p = ⟨s, .throws (.moveInvalidSequence s.name)⟩ ∧
      s.reject checks p = ⟨s, .throws (.moveInvalidSequence s.name)⟩ ∧
      s.setImpossible checks = ⟨s, .throws (.moveInvalidSequence s.name)⟩) := by
  constructor
  · intro h
    have : s.propose = ⟨s, .throws (.moveInvalidSequence s.name)⟩ := by
      unfold MoveStats.propose MoveStats.updateIfNotProposed; rw [if_pos h]
    refine ⟨this, ?_⟩
    unfold MoveStats.add
    rw [this]
  · intro h
    unfold MoveStats.accept MoveStats.reject MoveStats.setImpossible MoveStats.updateIfProposed
    rw [if_pos h, if_pos h, if_pos h]
    exact ⟨rfl, rfl, rfl⟩

/-- C119 is violated: with the checks, when 2^64-1 probabilities have been added, the outcome of a proposed move
throws although it has been counted and the proposal is gone; only the average is unchanged. -/
theorem C119_full_violated (s : MoveStats F) (hp : s.proposedflag = true) (hc : s.prob.count = 2 ^ 64 - 1) (p : F) :
    s.accept true p = ⟨{ s with accepted := succU s.accepted, proposedflag := false }, .throws .accumulatorOverflow⟩ ∧
    s.reject true p = ⟨{ s with rejected := succU s.rejected, proposedflag := false }, .throws .accumulatorOverflow⟩ ∧
    s.setImpossible true =
      ⟨{ s with impossible := succU s.impossible, proposedflag := false }, .throws .accumulatorOverflow⟩ := by
  have hg : ∀ x : F, s.prob.add true x = ⟨s.prob, .throws .accumulatorOverflow⟩ := by
    intro x
    unfold Kahan.add guarded
    exact if_pos ⟨rfl, hc⟩
  unfold MoveStats.accept MoveStats.reject MoveStats.setImpossible MoveStats.updateIfProposed
  have hn : ¬ s.proposedflag = false := by rw [hp]; decide
  rw [if_neg hn, if_neg hn, if_neg hn]
  simp only [hg, and_self]

/-- C119 is violated by `Add` in the same way: it throws, and the proposal and its outcome have been counted. -/
theorem C119_add_violated (s : MoveStats F) (hp : s.proposedflag = false) (hc : s.prob.count = 2 ^ 64 - 1) (p : F) :
    s.add true (MoveResult.accept p) =
      ⟨{ s with proposed := succU s.proposed, accepted := succU s.accepted }, .throws .accumulatorOverflow⟩ := by
  rw [(C54_add_eq true s hp p).1, propose_free hp]
  refine ((C119_full_violated ⟨s.name, true, succU s.proposed, s.accepted, s.rejected, s.impossible, s.prob⟩ rfl hc p).1).trans ?_
  simp [hp]

/-- The states of `C119_full_violated` exist, and `succU` changes every counter. -/
example : ∃ s : MoveStats F, s.proposedflag = true ∧ s.prob.count = 2 ^ 64 - 1 :=
  ⟨⟨"move", true, 0, 0, 0, 0, ⟨CxxFloat.zero, CxxFloat.zero, 2 ^ 64 - 1⟩⟩, rfl, rfl⟩

theorem succU_ne (n : Nat) : succU n ≠ n := by
  unfold succU; comega

/-- A proper status. -/
def Proper (r : MoveResult F) : Prop :=
  r.status = MoveStatus.accepted ∨ r.status = MoveStatus.rejected ∨ r.status = MoveStatus.impossible

/-- C120.  The builders: a result has the status and the probability it was built with. -/
theorem C120_builders (p : F) :
    ((MoveResult.accept p).isAccepted = true ∧ (MoveResult.accept p).isRejected = false ∧
      (MoveResult.accept p).isImpossible = false ∧ (MoveResult.accept p).probability = p) ∧
    ((MoveResult.reject p).isAccepted = false ∧ (MoveResult.reject p).isRejected = true ∧
      (MoveResult.reject p).isImpossible = false ∧ (MoveResult.reject p).probability = p) ∧
    ((MoveResult.mkImpossible : MoveResult F).isAccepted = false ∧ (MoveResult.mkImpossible : MoveResult F).isRejected = false ∧
      (MoveResult.mkImpossible : MoveResult F).isImpossible = true ∧
      (MoveResult.mkImpossible : MoveResult F).probability = CxxFloat.zero) :=
  ⟨⟨rfl, rfl, rfl, rfl⟩, ⟨rfl, rfl, rfl, rfl⟩, ⟨rfl, rfl, rfl, rfl⟩⟩

/-- C120.  A default-constructed result is an impossible move. -/
theorem C120_default : (MoveResult.new : MoveResult F) = MoveResult.mkImpossible := rfl

/-- C120.  The three predicates exclude each other; a result of a proper status satisfies one, and is then determined by
the predicate and the probability. -/
theorem C120_exclusive (r t : MoveResult F) :
    ¬ (r.isAccepted = true ∧ r.isRejected = true) ∧ ¬ (r.isAccepted = true ∧ r.isImpossible = true) ∧
    ¬ (r.isRejected = true ∧ r.isImpossible = true) ∧
    (Proper r ↔ (r.isAccepted = true ∨ r.isRejected = true ∨ r.isImpossible = true)) ∧
    (Proper r → Proper t → r.isAccepted = t.isAccepted → r.isRejected = t.isRejected →
      r.probability = t.probability → r = t) := by
  unfold MoveResult.isAccepted MoveResult.isRejected MoveResult.isImpossible Proper
  simp only [beq_iff_eq]
  have e1 : MoveStatus.accepted ≠ MoveStatus.rejected := by decide
  have e2 : MoveStatus.accepted ≠ MoveStatus.impossible := by decide
  have e3 : MoveStatus.rejected ≠ MoveStatus.impossible := by decide
  refine ⟨fun h => e1 (h.1.symm.trans h.2), fun h => e2 (h.1.symm.trans h.2), fun h => e3 (h.1.symm.trans h.2), trivial, ?_⟩
  obtain ⟨a, p⟩ := r
  obtain ⟨b, q⟩ := t
  intro h1 h2 h3 h4 h5
  simp only [MoveResult.probability] at h1 h2 h3 h4 h5
  subst h5
  congr 1
  rcases h1 with rfl | rfl | rfl <;> rcases h2 with rfl | rfl | rfl <;> first | rfl | (exact absurd h3 (by decide)) | (exact absurd h4 (by decide))

end
end Bwsl
