import Verif.Props.SignedZero
import Verif.Props.PrintShort
import Verif.Props.UpperBound

/-! Property C144: results that are never -0.0. -/

namespace Bwsl
open Spec

set_option linter.unusedSectionVars false

section
variable {K : Type} [Field K] [LinearOrder K] [IsStrictOrderedRing K] {A : Arith K}

theorem runOps_keeps {X : Type} {add : σ → X → σ} {reset : σ → σ} (I : σ → Prop) (ha : ∀ s x, I s → I (add s x))
    (hr : ∀ s, I s → I (reset s)) (ops : List (AccOp X)) (s : σ) (hs : I s) : I (runOps add reset s ops) := by
  induction ops generalizing s with
  | nil => exact hs
  | cons op ops ih =>
    cases op with
    | add x => exact ih _ (ha s x hs)
    | reset => exact ih _ (hr s hs)

theorem zero_not_minus : ¬ (CxxFloat.zero : SNum A).IsMinusZero := fun h => nomatch h.2

theorem accumulate_not_minus {n : Nat} {f : Nat → Res (SNum A)} {x : SNum A} (h : accumulate n f = .ok x) :
    ¬ x.IsMinusZero := by
  have key : ∀ n k (acc : SNum A), ¬ acc.IsMinusZero → accumulateFrom f acc k n = .ok x → ¬ x.IsMinusZero := by
    intro n
    induction n with
    | zero => intro k acc ha h; cases h; exact ha
    | succ n ih =>
      intro k acc ha h
      obtain ⟨y, -, h⟩ := Res.bind_eq_ok.1 h
      exact ih _ _ (SNum.not_minusZero_add y ha) h
  exact key _ _ _ zero_not_minus h

theorem mapRange_not_minus {n : Nat} {f : Nat → Res (SNum A)} {xs : List (SNum A)}
    (hf : ∀ i x, f i = .ok x → ¬ x.IsMinusZero) (h : mapRange n f = .ok xs) : ∀ x ∈ xs, ¬ x.IsMinusZero := by
  obtain ⟨hl, h⟩ := mapRange_eq_ok h
  intro x hx
  obtain ⟨i, hi, rfl⟩ := List.getElem_of_mem hx
  obtain ⟨y, hy, hfy⟩ := h i (hl ▸ hi)
  rw [List.getElem?_eq_getElem hi, Option.some.injEq] at hy
  exact hf i _ (hy ▸ hfy)

/-- Square roots of numbers other than -0.0. -/
theorem sqrt_not_minus {x : SNum A} (h : ¬ x.IsMinusZero) : ¬ (CxxFloat.sqrt x).IsMinusZero := by
  rintro ⟨-, h2⟩
  have h2 : (x.isZero && x.minus) = true := h2
  simp only [Bool.and_eq_true] at h2
  exact h ⟨by simpa [SNum.isZero] using h2.1, h2.2⟩

/-- Division of a number other than -0.0 by a number of elements gives -0.0 only for a negative number. -/
theorem div_ofNat_minus (hA : A.KeepsSign) {x : SNum A} {n : Nat} (hx : ¬ x.IsMinusZero)
    (h : (x / CxxFloat.ofNat n : SNum A).IsMinusZero) : x.val.isNeg = true := by
  obtain ⟨h1, h2⟩ := h
  have h1 : (SNum.div x (CxxFloat.ofNat n)).val = .fin 0 := h1
  have h2 : (SNum.div x (CxxFloat.ofNat n)).minus = true := h2
  unfold SNum.div at h1 h2
  by_cases hz : (CxxFloat.ofNat n : SNum A).isZero = true
  · rw [if_pos hz] at h2
    exfalso
    split at h2
    · cases h2
    · cases h2
    · split at h2 <;> cases h2
  · rw [if_neg hz] at h2
    have hn : (CxxFloat.ofNat n : SNum A).sign = false := by
      unfold SNum.sign
      rw [if_neg hz]
      show (Num.round A (n : K)).isNeg = false
      unfold Num.round
      have hp : (0 : K) ≤ n := Nat.cast_nonneg n
      cases hr : A.rnd (n : K) with
      | none => simp [Num.isNeg, hp]
      | some y => simp [Num.isNeg, hA _ _ hr hp]
    have h2 : (x.sign != (CxxFloat.ofNat n : SNum A).sign) = true := h2
    rw [hn] at h2
    have h2 : x.sign = true := by simpa using h2
    unfold SNum.sign at h2
    by_cases hx0 : x.isZero = true
    · rw [if_pos hx0] at h2
      exact absurd ⟨by simpa [SNum.isZero] using hx0, h2⟩ hx
    · rwa [if_neg hx0] at h2

/-- C144.  The sum of a `KahanAccumulator` is never -0.0, whatever was added, and the mean is -0.0 only if a negative sum
underflows in the division. -/
theorem C144_kahan (hA : A.KeepsSign) (ops : List (AccOp (SNum A))) :
    let s := runOps Kahan.addCore Kahan.reset (Kahan.new : Kahan (SNum A)) ops
    ¬ s.getSum.IsMinusZero ∧ (s.mean.IsMinusZero → s.getSum.val.isNeg = true) := by
  intro s
  have h : ¬ s.getSum.IsMinusZero := runOps_keeps (fun s : Kahan (SNum A) => ¬ s.getSum.IsMinusZero)
    (fun s x h => SNum.not_minusZero_add _ h) (fun _ _ => zero_not_minus) ops _ zero_not_minus
  exact ⟨h, div_ofNat_minus hA h⟩

/-- C144.  The same for a `NeumaierAccumulator`. -/
theorem C144_neumaier (hA : A.KeepsSign) (ops : List (AccOp (SNum A))) :
    let s := runOps Neumaier.addCore Neumaier.reset (Neumaier.new : Neumaier (SNum A)) ops
    ¬ s.getSum.IsMinusZero ∧ (s.mean.IsMinusZero → s.getSum.val.isNeg = true) := by
  intro s
  have h : ¬ s.sum.IsMinusZero := runOps_keeps (fun s : Neumaier (SNum A) => ¬ s.sum.IsMinusZero)
    (fun s x h => SNum.not_minusZero_add _ h) (fun _ _ => zero_not_minus) ops _ zero_not_minus
  have h' : ¬ s.getSum.IsMinusZero := SNum.not_minusZero_add _ h
  exact ⟨h', div_ofNat_minus hA h'⟩

/-- C144.  The mean of a `KnuthWelfordAccumulator` is never -0.0. -/
theorem C144_welford (ops : List (AccOp (SNum A))) :
    ¬ (runOps KnuthWelford.addCore KnuthWelford.reset (KnuthWelford.new : KnuthWelford (SNum A)) ops).mean.IsMinusZero :=
  runOps_keeps (fun s : KnuthWelford (SNum A) => ¬ s.mean.IsMinusZero)
    (fun _ _ h => SNum.not_minusZero_add _ h) (fun _ _ => zero_not_minus) ops _ zero_not_minus

/-- No sum of a bin is -0.0. -/
def SumsNotMinus (h : Hist (SNum A)) : Prop := ∀ c ∈ h.acc, ¬ c.sum.IsMinusZero

theorem sumsNotMinus_addTo {h : Hist (SNum A)} (hh : SumsNotMinus h) (checks : Bool) (i : Nat) (x : SNum A) :
    SumsNotMinus (h.addTo checks i x).state := by
  unfold Hist.addTo
  split
  · exact hh
  · rename_i a ha
    have hc : ¬ (a.add checks x).state.sum.IsMinusZero := by
      unfold Neumaier.add guarded
      have h0 := hh a (List.mem_of_getElem? ha)
      split
      · exact h0
      · exact SNum.not_minusZero_add _ h0
    have key : ∀ c ∈ h.acc.set i (a.add checks x).state, ¬ c.sum.IsMinusZero := by
      intro c hcm
      rcases List.mem_or_eq_of_mem_set hcm with h1 | h1
      · exact hh c h1
      · rw [h1]; exact hc
    simp only
    split
    · exact key
    · exact key

theorem sumsNotMinus_run {h s : Hist (SNum A)} (hh : SumsNotMinus h) (ops : List (HistOp (SNum A)))
    (hs : h.run ops = .ok s) : SumsNotMinus s := by
  have toRes : ∀ (c : Call (Hist (SNum A)) Unit) s, c.toRes = .ok s → s = c.state := by
    intro c s h
    obtain ⟨_, -, h⟩ := Res.bind_eq_ok.1 h
    cases h
    rfl
  induction ops generalizing h with
  | nil => cases hs; exact hh
  | cons op ops ih =>
    obtain ⟨h', h1, h2⟩ := Res.bind_eq_ok.1 hs
    refine ih ?_ h2
    cases op with
    | add i x => rw [toRes _ _ h1]; exact sumsNotMinus_addTo hh false i x
    | forceAdd i x =>
      rw [toRes _ _ h1]
      unfold Hist.forceAdd
      split
      · rename_i g hg
        refine sumsNotMinus_addTo ?_ false i x
        refine whileLoop_inv SumsNotMinus (fun s s' hs _ hb => ?_) hh hg
        unfold Hist.growStep at hb
        simp only at hb
        split at hb
        · cases hb
          intro c hc
          rcases List.mem_append.1 hc with hc | hc
          · exact hs c hc
          · rw [List.mem_singleton.1 hc]; exact zero_not_minus
        · cases hb
      · exact hh
      · exact hh
      · exact hh
    | reset =>
      cases h1
      intro c hc
      obtain ⟨d, -, rfl⟩ := List.mem_map.1 hc
      exact zero_not_minus

/-- C144.  The result of a bin of a `HistAccumulator` is -0.0 only if its sum is negative and underflows in the division. -/
theorem C144_hist (hA : A.KeepsSign) (n : Nat) (ops : List (HistOp (SNum A))) (s : Hist (SNum A))
    (hs : (Hist.new n).run ops = .ok s) (i : Nat) (x : SNum A) (hx : s.getResult i = .ok x) (hm : x.IsMinusZero) :
    ∃ c, s.acc[i]? = some c ∧ c.getSum.val.isNeg = true := by
  have hh : SumsNotMinus s := by
    refine sumsNotMinus_run ?_ ops hs
    intro c hc
    rw [List.eq_of_mem_replicate hc]; exact zero_not_minus
  unfold Hist.getResult at hx
  split at hx
  · cases hx
  · rename_i c hc
    split at hx
    · cases hx; exact absurd hm zero_not_minus
    · cases hx
      refine ⟨c, hc, div_ofNat_minus hA (SNum.not_minusZero_add _ (hh c (List.mem_of_getElem? hc))) hm⟩

/-- C144.  Sums of squares and norms are never -0.0. -/
theorem C144_norms (v : List (SNum A)) (w : List Int) :
    ¬ (sumSquared v).IsMinusZero ∧ ¬ (l2norm v).IsMinusZero ∧ ∀ x : SNum A, l2normL w = .ok x → ¬ x.IsMinusZero := by
  have key : ∀ (v : List (SNum A)) (a : SNum A), ¬ a.IsMinusZero → ¬ (v.foldl (fun d x => d + squareF x) a).IsMinusZero := by
    intro v
    induction v with
    | nil => exact fun _ h => h
    | cons y v ih => exact fun a h => ih _ (SNum.not_minusZero_add _ h)
  refine ⟨key v _ (fun h => nomatch h.2), sqrt_not_minus (key v _ zero_not_minus), fun x hx => ?_⟩
  obtain ⟨d, -, h⟩ := Res.bind_eq_ok.1 hx
  cases h
  exact sqrt_not_minus (fun h => nomatch h.2)

theorem realSpace_not_minus {b : Bravais (SNum A)} {c : List Int} {v : List (SNum A)} (h : b.getRealSpace c = .ok v) :
    ∀ x ∈ v, ¬ x.IsMinusZero := by
  unfold Bravais.getRealSpace at h
  split at h
  · exact mapRange_not_minus (fun _ _ h => accumulate_not_minus h) h
  · cases h

theorem vector_not_minus {b : Bravais (SNum A)} {c c' : List Int} {v : List (SNum A)} (h : b.getVector c c' = .ok v) :
    ∀ x ∈ v, ¬ x.IsMinusZero := by
  obtain ⟨p, -, h⟩ := Res.bind_eq_ok.1 h
  exact realSpace_not_minus h

theorem distanceVector_not_minus {b : Bravais (SNum A)} {c c' : List Int} {r : SNum A × List (SNum A)}
    (h : b.getDistanceVector c c' = .ok r) : ¬ r.1.IsMinusZero ∧ ∀ x ∈ r.2, ¬ x.IsMinusZero := by
  obtain ⟨p, hp, h⟩ := Res.bind_eq_ok.1 h
  obtain ⟨d, hd, h⟩ := Res.bind_eq_ok.1 h
  cases h
  exact ⟨sqrt_not_minus (accumulate_not_minus hd), vector_not_minus hp⟩

/-- C144.  No component of a position, vector or momentum of a `Bravais` lattice and no distance is -0.0. -/
theorem C144_bravais (b : Bravais (SNum A)) (c c' : List Int) :
    (∀ v, b.getRealSpace c = .ok v → ∀ x ∈ v, ¬ x.IsMinusZero) ∧
    (∀ v, b.getReciprocalSpace c = .ok v → ∀ x ∈ v, ¬ x.IsMinusZero) ∧
    (∀ w v, b.getInverseVector w = .ok v → ∀ x ∈ v, ¬ x.IsMinusZero) ∧
    (∀ v, b.getVector c c' = .ok v → ∀ x ∈ v, ¬ x.IsMinusZero) ∧
    (∀ d, b.getDistance c c' = .ok d → ¬ d.IsMinusZero) := by
  refine ⟨fun v h => realSpace_not_minus h, fun v h => ?_, fun w v h => ?_, fun v h => vector_not_minus h, fun d h => ?_⟩
  · unfold Bravais.getReciprocalSpace at h
    split at h
    · exact mapRange_not_minus (fun _ _ h => accumulate_not_minus h) h
    · cases h
  · unfold Bravais.getInverseVector at h
    split at h
    · exact mapRange_not_minus (fun _ _ h => accumulate_not_minus h) h
    · cases h
  · obtain ⟨p, -, h⟩ := Res.bind_eq_ok.1 h
    obtain ⟨e, he, h⟩ := Res.bind_eq_ok.1 h
    cases h
    exact sqrt_not_minus (accumulate_not_minus he)

/-- C144.  No component of a position or vector of a lattice and no distance is -0.0; the contributions to the structure
factor are not either. -/
theorem C144_lattice (b : Bravais (SNum A)) (size : List Nat) (bd : Boundaries) (l : Lattice (SNum A))
    (hl : Lattice.new b size bd = .ok l) :
    (∀ i v, l.getPosition i = .ok v → ∀ x ∈ v, ¬ x.IsMinusZero) ∧
    (∀ i j v, l.getVector i j = .ok v → ∀ x ∈ v, ¬ x.IsMinusZero) ∧
    (∀ i j d, l.getDistance i j = .ok d → ¬ d.IsMinusZero) ∧
    (∀ (T : Type) (conv : T → SNum A) occ mult sk, l.computeSk conv occ mult = .ok sk → ∀ x ∈ sk, ¬ x.IsMinusZero) := by
  unfold Lattice.new at hl
  obtain ⟨pos, hpos, hl⟩ := Res.bind_eq_ok.1 hl
  obtain ⟨vec, hvec, hl⟩ := Res.bind_eq_ok.1 hl
  obtain ⟨nb, -, hl⟩ := Res.bind_eq_ok.1 hl
  obtain ⟨mom, -, hl⟩ := Res.bind_eq_ok.1 hl
  cases hl
  refine ⟨fun i v h => ?_, fun i j v h => ?_, fun i j d h => ?_, fun T conv occ mult sk h => ?_⟩
  · obtain ⟨c0, -, hpos⟩ := Res.bind_eq_ok.1 hpos
    unfold Lattice.getPosition at h
    split at h
    · refine forall_mapRange (P := fun v : List (SNum A) => ∀ x ∈ v, ¬ x.IsMinusZero) hpos (fun i v h => ?_) _ (subscript_mem h)
      obtain ⟨c, -, h⟩ := Res.bind_eq_ok.1 h
      exact vector_not_minus h
    · cases h
  · unfold Lattice.getVector at h
    split at h
    · obtain ⟨s, -, h⟩ := Res.bind_eq_ok.1 h
      obtain ⟨c0, -, hvec⟩ := Res.bind_eq_ok.1 hvec
      refine forall_mapRange (P := fun v : List (SNum A) => ∀ x ∈ v, ¬ x.IsMinusZero) hvec (fun i v h => ?_) _ (subscript_mem h)
      obtain ⟨cs, -, h⟩ := Res.bind_eq_ok.1 h
      obtain ⟨r, hr, h⟩ := Res.bind_eq_ok.1 h
      have hr0 := (distanceVector_not_minus hr).2
      simp only at h
      split at h
      · obtain ⟨r', hr', h⟩ := Res.bind_eq_ok.1 h
        cases h
        refine foldRange_keeps (P := fun s : SNum A × List (SNum A) => ∀ x ∈ s.2, ¬ x.IsMinusZero) ?_ hr0 hr'
        intro s k s' hs h
        obtain ⟨img, -, h⟩ := Res.bind_eq_ok.1 h
        obtain ⟨csm, -, h⟩ := Res.bind_eq_ok.1 h
        obtain ⟨q, hq, h⟩ := Res.bind_eq_ok.1 h
        rw [Res.ok.injEq] at h
        subst h
        split
        · exact (distanceVector_not_minus hq).2
        · exact hs
      · rw [Res.ok_bind, Res.ok.injEq] at h
        rw [← h]; exact hr0
    · cases h
  · unfold Lattice.getDistance at h
    split at h
    · obtain ⟨s, -, h⟩ := Res.bind_eq_ok.1 h
      have := subscript_mem h
      simp only [Lattice.computeDistances, List.mem_map] at this
      obtain ⟨v, -, rfl⟩ := this
      exact sqrt_not_minus (C144_norms v []).1
    · cases h
  · have hz : ∀ n, ∀ x ∈ List.replicate n (CxxFloat.zero : SNum A), ¬ x.IsMinusZero := by
      intro n x hx
      rw [List.eq_of_mem_replicate hx]; exact zero_not_minus
    unfold Lattice.computeSk at h
    simp only at h
    split at h
    · cases h; exact hz _
    · unfold Lattice.accumulateSk at h
      split at h
      · cases h; exact hz _
      · obtain ⟨new, hnew, h⟩ := Res.bind_eq_ok.1 h
        cases h
        intro x hx
        rcases List.mem_append.1 hx with hx | hx
        · refine mapRange_not_minus (fun i x h => ?_) hnew x hx
          obtain ⟨k, -, h⟩ := Res.bind_eq_ok.1 h
          obtain ⟨f, -, h⟩ := Res.bind_eq_ok.1 h
          obtain ⟨old, ho, h⟩ := Res.bind_eq_ok.1 h
          cases h
          exact SNum.not_minusZero_add _ (hz _ _ (subscript_mem ho))
        · exact hz _ _ (List.mem_of_mem_drop hx)

/-- -0.0 was added, and it is not the sum. -/
example (hA : A.KeepsSign) : ¬ (Kahan.addCore Kahan.new (⟨.fin 0, true⟩ : SNum A)).getSum.IsMinusZero :=
  (C144_kahan hA [.add ⟨.fin 0, true⟩]).1

example : (⟨.fin 0, true⟩ : SNum A).IsMinusZero := ⟨rfl, rfl⟩

end

/-- A bin with the result -0.0: its sum is negative. -/
example : ∃ (s : Hist (SNum doubleArith)) (c : Neumaier (SNum doubleArith)) (x : SNum doubleArith), s.getResult 1 = .ok x ∧
    x.IsMinusZero ∧ s.acc[1]? = some c ∧ c.getSum.val.isNeg = true := by
  obtain ⟨s, x, z, a, h, -, -, -, -, hz, hm⟩ := C143_exception_occurs doubleArith_isBinary64
  obtain ⟨c, hc, hn⟩ := C144_hist (keepsSign_binary64 doubleArith_isBinary64) _ _ s h 1 z hz hm
  exact ⟨s, c, z, hz, hm, hc, hn⟩

end Bwsl
