import Verif.Props.Hist

/-! Property C112: subscripts of histograms, default construction and moves. -/

namespace Bwsl
open Spec

variable {F : Type} [CxxFloat F]

/-- C112.  A default-constructed histogram is one of no bins. -/
theorem C112_default : (Hist.empty : Hist F) = Hist.new 0 ∧ (Hist.empty : Hist F).getNbins = 0 ∧ (Hist.empty : Hist F).getCount = 0 ∧
    (Hist.empty : Hist F).getResults = .ok [] := ⟨rfl, rfl, rfl, rfl⟩

/-- C112.  `GetCount(i)` and `GetResult(i)` read a bin exactly if there is one of this number. -/
theorem C112_subscripts (h : Hist F) (hs : h.nbins = h.acc.length) (i : Nat) :
    (i < h.getNbins → (∃ n, h.getCountAt i = .ok n) ∧ ∃ x, h.getResult i = .ok x) ∧
    (h.getNbins ≤ i → h.getCountAt i = .ub .outOfBounds ∧ h.getResult i = .ub .outOfBounds) := by
  unfold Hist.getNbins Hist.getCountAt Hist.getResult
  constructor
  · intro hi
    rw [List.getElem?_eq_getElem (hs ▸ hi)]
    refine ⟨⟨_, rfl⟩, ?_⟩
    simp only
    split <;> exact ⟨_, rfl⟩
  · intro hi
    rw [List.getElem?_eq_none (hs ▸ hi)]
    exact ⟨rfl, rfl⟩

/-- C112.  `GetResults(i)` reads the divisor exactly if there is a bin at all; it then must exist. -/
theorem C112_divided (h : Hist F) (hs : h.nbins = h.acc.length) (i : Nat) :
    (i < h.getNbins → ∃ r, h.getResultsBy i = .ok r ∧ r.length = h.getNbins) ∧
    (h.getNbins = 0 → h.getResultsBy i = .ok []) ∧
    (h.getNbins ≠ 0 → h.getNbins ≤ i → h.getResultsBy i = .ub .outOfBounds) := by
  unfold Hist.getNbins
  obtain ⟨r, e, hl, _⟩ := C48_results h hs
  refine ⟨fun hi => ?_, fun h0 => ?_, fun h0 hi => ?_⟩
  · obtain ⟨_, q, _, h2, h3, _⟩ := C50_value_partial h hs i hi
    exact ⟨q, h2, h3⟩
  · unfold Hist.getResultsBy
    rw [e, Res.ok_bind]
    have : r = [] := List.length_eq_zero_iff.1 (by omega)
    subst this
    rfl
  · unfold Hist.getResultsBy
    rw [e, Res.ok_bind]
    obtain ⟨k, hk⟩ : ∃ k, r.length = k + 1 := ⟨r.length - 1, by omega⟩
    rw [hk]
    unfold Hist.divideFrom
    rw [List.getElem?_eq_none (by omega : r.length ≤ i)]
    split
    · rename_i h1; cases h1
    · rfl

/-- C112.  Moving a histogram gives an equal one.  The one moved from keeps the number of bins and the count but has no bin: every
access is out of bounds and growing it violates the assertion, until `Resize` or an assignment restores it. -/
theorem C112_move (h : Hist F) (hb : h.nbins < 2 ^ 64) (h0 : 0 < h.nbins) (checks : Bool) (i : Nat) (x : F) :
    h.move.1 = h ∧ h.move.2.getNbins = h.getNbins ∧ h.move.2.getCount = h.getCount ∧
    h.move.2.getResult i = .ub .outOfBounds ∧ h.move.2.getCountAt i = .ub .outOfBounds ∧
    h.move.2.getResults = .ub .outOfBounds ∧ (h.move.2.add checks i x).res = .ub .outOfBounds ∧
    (i < 2 ^ 64 → (h.move.2.forceAdd checks i x).res = .ub (if i < h.nbins then .outOfBounds else .assertion)) ∧
    (∀ n, h.move.2.resize n = ⟨n, (Hist.new n).acc, h.count⟩) := by
  refine ⟨rfl, rfl, rfl, rfl, rfl, ?_, rfl, ?_, ?_⟩
  · obtain ⟨k, hk⟩ : ∃ k, h.nbins = k + 1 := ⟨h.nbins - 1, by omega⟩
    show Hist.resultsFrom _ 0 h.nbins = _
    rw [hk]
    rfl
  · intro hi
    unfold Hist.forceAdd Hist.grow
    by_cases hc : i < h.nbins
    · rw [whileLoop_done (by simpa [Hist.move] using hc), if_pos hc]
      rfl
    · have : (h.move.2).growStep = .ub .assertion := by
        unfold Hist.growStep
        rw [if_neg]
        simp only [Hist.move, List.nil_append, List.length_singleton]
        unfold succU
        comega
      rw [whileLoop_ub (by simpa [Hist.move] using hc) this, if_neg hc]
  · intro n
    show (⟨n, _, _⟩ : Hist F) = _
    simp [Hist.move, Hist.new]

/- The hypotheses hold for a histogram of three bins. -/
example : (Hist.new 3 : Hist F).nbins = (Hist.new 3 : Hist F).acc.length ∧ 0 < (Hist.new 3 : Hist F).nbins ∧
    (Hist.new 3 : Hist F).nbins < 2 ^ 64 := by simp [Hist.new]

end Bwsl
