import Verif.Props.Hist

/-! Property C89: histograms of unitary measurements are relative frequencies. -/

namespace Bwsl
open Spec

set_option linter.unusedSectionVars false

section
variable {F : Type} [CxxFloat F]

/-- Unitary measurements: `Add(i)`, or `ForceAdd(i)` if the flag is set. -/
def Hist.runUnits (h : Hist F) : List (Bool × Nat) → Res (Hist F)
  | [] => .ok h
  | (force, i) :: is => do
    let h ← (if force then (h.forceAddOne false i).toRes else (h.addOne false i).toRes)
    Hist.runUnits h is

/-- the same with an explicit value -/
def unitOp (x : X) (m : Bool × Nat) : HistOp X := if m.1 then .forceAdd m.2 x else .add m.2 x

theorem runUnits_eq (is : List (Bool × Nat)) (h : Hist F) :
    h.runUnits is = h.run (is.map (unitOp (CxxFloat.lit 1))) := by
  induction is generalizing h with
  | nil => rfl
  | cons m is ih =>
    obtain ⟨f, i⟩ := m
    cases f
    · show ((h.add false i (CxxFloat.lit 1)).toRes >>= fun h => Hist.runUnits h is) =
        ((h.add false i (CxxFloat.lit 1)).toRes >>= fun h => Hist.run h _)
      exact congrArg _ (funext fun h => ih h)
    · show ((h.forceAdd false i (CxxFloat.lit 1)).toRes >>= fun h => Hist.runUnits h is) =
        ((h.forceAdd false i (CxxFloat.lit 1)).toRes >>= fun h => Hist.run h _)
      exact congrArg _ (funext fun h => ih h)

theorem unit_noReset (x : X) (is : List (Bool × Nat)) :
    (is.map (unitOp x)).any measurements.isReset = false := by
  induction is with
  | nil => rfl
  | cons m is ih =>
    rw [List.map_cons, List.any_cons, ih, Bool.or_false]
    unfold unitOp
    split <;> rfl

theorem unit_measurements (x : X) (is : List (Bool × Nat)) :
    measurements (is.map (unitOp x)) = is.map (fun m => (m.2, x)) := by
  induction is with
  | nil => rfl
  | cons m is ih =>
    obtain ⟨f, i⟩ := m
    rw [List.map_cons, List.map_cons, ← ih]
    cases f
    · show measurements (.add i x :: is.map (unitOp x)) = _
      rw [measurements, unit_noReset]; rfl
    · show measurements (.forceAdd i x :: is.map (unitOp x)) = _
      rw [measurements, unit_noReset]; rfl

theorem unit_inBin (x : X) (is : List (Bool × Nat)) (i : Nat) :
    inBin i (is.map (fun m => (m.2, x))) = List.replicate (is.countP (fun m => m.2 == i)) x := by
  induction is with
  | nil => rfl
  | cons m is ih =>
    unfold inBin at ih ⊢
    rw [List.map_cons, List.filter_cons, List.countP_cons]
    cases h : (m.2 == i)
    · simp only [Bool.false_eq_true, if_false, Nat.add_zero]; exact ih
    · simp only [if_true, List.map_cons, List.replicate_succ]; rw [ih]

end

section
variable {K : Type} [Field K] [LinearOrder K] [IsStrictOrderedRing K] {A : Arith K}

/-- Every measurement addresses a bin that exists (or is created) at that time. -/
def Spec.UnitsAddressed (n : Nat) : List (Bool × Nat) → Prop
  | [] => True
  | (force, i) :: is => if force then i < 2 ^ 64 - 1 ∧ UnitsAddressed (max n (i + 1)) is else i < n ∧ UnitsAddressed n is

theorem unit_addressed (x : X) (n : Nat) (is : List (Bool × Nat)) :
    Addressed n (is.map (unitOp x)) ↔ UnitsAddressed n is := by
  induction is generalizing n with
  | nil => rfl
  | cons m is ih =>
    obtain ⟨f, i⟩ := m
    cases f
    · show i < n ∧ Addressed n (is.map (unitOp x)) ↔ i < n ∧ UnitsAddressed n is
      rw [ih]
    · show i < 2 ^ 64 - 1 ∧ Addressed (max n (i + 1)) (is.map (unitOp x)) ↔
        i < 2 ^ 64 - 1 ∧ UnitsAddressed (max n (i + 1)) is
      rw [ih]

/-- C89.  In exact arithmetic, after unitary measurements `GetResult(i)` is the fraction of the measurements that went
to bin `i`: a number in [0,1]; the fractions of all the bins add up to 1. -/
theorem C89_frequencies (hA : A.IsExact) (n : Nat) (hn : n < 2 ^ 64) (is : List (Bool × Nat))
    (ha : UnitsAddressed n is) (hm : is.length < 2 ^ 64) :
    ∃ h : Hist (Num A), (Hist.new n).runUnits is = .ok h ∧ h.getCount = is.length ∧
      (∀ i < h.getNbins,
        h.getResult i = .ok (.fin ((is.countP (fun m => m.2 == i) : K) / is.length)) ∧
        h.getCountAt i = .ok (is.countP (fun m => m.2 == i)) ∧
        0 ≤ ((is.countP (fun m => m.2 == i) : K) / is.length) ∧
        ((is.countP (fun m => m.2 == i) : K) / is.length) ≤ 1) ∧
      (is ≠ [] → ∃ p : List K, h.getResults = .ok (p.map .fin) ∧ p.sum = 1) := by
  have hl : (CxxFloat.lit 1 : Num A) = .fin 1 := by
    rw [Num.lit_eq, Rat.cast_one]; exact Num.round_exact hA 1
  have hmap : is.map (unitOp (CxxFloat.lit 1 : Num A)) = (is.map (unitOp (1 : K))).map (finOp (A := A)) := by
    rw [List.map_map, hl]
    refine List.map_congr_left (fun m _ => ?_)
    simp only [Function.comp, unitOp]
    split <;> rfl
  have ha1 : Addressed n (is.map (unitOp (1 : K))) := (unit_addressed _ _ _).2 ha
  have ha2 := (addressed_map (A := A) n _).2 ha1
  obtain ⟨h, hh, -⟩ := hist_run ((is.map (unitOp (1 : K))).map (finOp (A := A))) (Hist.new n) [] (histInv_new n hn) ha2
  have hms : measurements (is.map (unitOp (1 : K))) = is.map (fun m => (m.2, (1 : K))) := unit_measurements _ _
  have hlen : (measurements (is.map (unitOp (1 : K)))).length < 2 ^ 64 := by rw [hms, List.length_map]; exact hm
  obtain ⟨c1, c2, c3, c4⟩ := C47_counts n hn _ ha2 h hh
  rw [measurements_map, hms] at c3 c4
  refine ⟨h, by rw [runUnits_eq, hmap, hh], ?_, ?_, ?_⟩
  · rw [c4, List.length_map, List.length_map, Nat.mod_eq_of_lt hm]
  · intro i hi
    have hc : is.countP (fun m => m.2 == i) ≤ is.length := List.countP_le_length
    refine ⟨?_, ?_, ?_, ?_⟩
    · rw [C48_result hA n hn _ ha1 hlen h hh i hi, hms, unit_inBin, List.length_map]
      simp
    · rw [c3 i hi, inBin_map, unit_inBin, List.length_map, List.length_replicate, Nat.mod_eq_of_lt (by omega)]
    · positivity
    · refine div_le_one_of_le₀ ?_ (by positivity)
      exact_mod_cast hc
  · intro h0
    obtain ⟨p, p1, -, p3⟩ := C48_normalised hA n hn _ ha1 hlen (by rw [hms]; simpa using h0) (by
      intro m hm
      rw [hms] at hm
      obtain ⟨x, -, rfl⟩ := List.mem_map.1 hm
      rfl) h hh
    exact ⟨p, p1, p3⟩

/-- The hypotheses of C89 hold for measurements in existing and new bins. -/
example : UnitsAddressed 2 [(false, 1), (true, 5), (false, 4), (false, 1)] := by
  simp [UnitsAddressed]

end
end Bwsl
