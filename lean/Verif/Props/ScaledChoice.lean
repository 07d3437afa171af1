import Verif.Props.StatsUnitsContracted
import Verif.Props.Draw

/-! Property C190: choices between weights in other units. -/

namespace Bwsl
open Spec FloatFormat

set_option linter.unusedSectionVars false

section
variable {A : Arith ℝ} {f : FloatFormat}

theorem sums_scaled (hA : A.IsFormat f) (k : Nat) (ws : List ℝ) (hw : ∀ w ∈ ws, InFormat f w) :
    List.Forall₂ (ScaledTo f k) (partialSums (ws.map (Num.fin (A := A)))) (partialSums (ws.map fun w => (.fin (2 ^ k * w) : Num A))) := by
  have go : ∀ (ws : List ℝ) (a b : Num A), (∀ w ∈ ws, InFormat f w) → ScaledTo f k a b →
      List.Forall₂ (ScaledTo f k) (partialSums.go a (ws.map (Num.fin (A := A))))
        (partialSums.go b (ws.map fun w => (.fin (2 ^ k * w) : Num A))) := by
    intro ws
    induction ws with
    | nil => exact fun a b _ _ => .nil
    | cons w ws ih =>
      intro a b hw hab
      have := scaledTo_add hA hab (scaledTo_fin (A := A) k (hw w List.mem_cons_self))
      exact .cons this (ih _ _ (fun x hx => hw x (List.mem_cons_of_mem _ hx)) this)
  cases ws with
  | nil => exact .nil
  | cons w ws =>
    have := scaledTo_fin (A := A) k (hw w List.mem_cons_self)
    exact .cons this (go ws _ _ (fun x hx => hw x (List.mem_cons_of_mem _ hx)) this)

theorem stdUpperBound_scaled {k : Nat} {xs ys : List (Num A)} {u v : Num A} (h : List.Forall₂ (ScaledTo f k) xs ys)
    (hy : ∀ y ∈ ys, ∃ z, y = .fin z) (hu : ScaledTo f k u v) (hv : ∃ z, v = .fin z) (len first : Nat) :
    stdUpperBound ys v first len = stdUpperBound xs u first len := by
  induction len using Nat.strong_induction_on generalizing first with
  | _ len ih =>
    unfold stdUpperBound
    by_cases h0 : len = 0
    · rw [if_pos h0, if_pos h0]
    rw [if_neg h0, if_neg h0]
    dsimp only
    have hl := h.length_eq
    by_cases hi : first + len / 2 < xs.length
    · have hi' : first + len / 2 < ys.length := by omega
      rw [List.getElem?_eq_getElem hi, List.getElem?_eq_getElem hi']
      dsimp only
      have hxy : ScaledTo f k xs[first + len / 2] ys[first + len / 2] := h.get hi hi'
      obtain ⟨z, hz⟩ := hv
      obtain ⟨z', hz'⟩ := hy _ (List.getElem_mem hi')
      rw [(scaledTo_le hu hxy hz hz').2, ih (len / 2) (by omega), ih (len - len / 2 - 1) (by omega)]
    · rw [List.getElem?_eq_none (by omega), List.getElem?_eq_none (by omega)]

theorem getLast?_forall₂ {α β : Type} {R : α → β → Prop} {xs : List α} {ys : List β} (h : List.Forall₂ R xs ys) {y : β}
    (hy : ys.getLast? = some y) : ∃ x, xs.getLast? = some x ∧ R x y := by
  rw [List.getLast?_eq_getElem?] at hy ⊢
  obtain ⟨hl, rfl⟩ := List.getElem?_eq_some_iff.1 hy
  have hl' : xs.length - 1 < xs.length := by have := h.length_eq; omega
  refine ⟨xs[xs.length - 1], List.getElem?_eq_getElem hl', ?_⟩
  have := h.get hl' (by have := h.length_eq; omega)
  have e : ys.length - 1 = xs.length - 1 := by rw [h.length_eq]
  simpa only [e, List.get_eq_getElem] using this

/-- C190.  `choose_between_psums` chooses the same index from sums in other units, sorted or not, if the engine returns the same
numbers, whether or not the last operation of the draw is fused. -/
theorem C190_psums (hA : A.IsFormat f) (k : Nat) {ps qs : List (Num A)} (hs : List.Forall₂ (ScaledTo f k) ps qs)
    (hq : ∀ q ∈ qs, ∃ z, q = .fin z) (u : ℝ) (hu : InFormat f u) (last : Bool) (draw : Num A → Num A → Num A)
    (hd : ∀ b, draw CxxFloat.zero b = mulAdd last (.fin u) (b - CxxFloat.zero) CxxFloat.zero)
    (hr : ∀ b, qs.getLast? = some b → ∃ r, draw CxxFloat.zero b = .fin r)
    (hn : ∀ b, ps.getLast? = some b → ∀ d, b - CxxFloat.zero = .fin d → NoUnderflow f (u * d)) :
    chooseBetweenPsums qs draw = chooseBetweenPsums ps draw := by
  unfold chooseBetweenPsums
  rcases hlast : qs.getLast? with _ | back
  · have : qs = [] := List.getLast?_eq_none_iff.1 hlast
    have h0 := hs.length_eq
    rw [this] at h0
    rw [List.length_eq_zero_iff.1 h0]
    rfl
  · obtain ⟨b, hb, hbb⟩ := getLast?_forall₂ hs hlast
    rw [hb]
    dsimp only
    rw [hs.length_eq]
    refine stdUpperBound_scaled hs hq ?_ (hr _ hlast) _ _
    rw [hd, hd]
    refine scaledTo_step hA last (zero_add k) (scaledTo_same (by rintro x ⟨⟩; exact hu)) (scaledTo_sub hA hbb (scaledTo_zero k))
      (scaledTo_zero k) ?_
    rintro x y z ⟨⟩ h2 ⟨⟩
    have := hn b hb y h2
    unfold StepQuiet
    split
    · rw [add_zero]; exact this
    · exact this

/-- C190.  `choose_between` with weights of any sign, all multiplied by 2^k, and the number drawn by `std::uniform_real_distribution`
with any of its operations fused: the index is the same, as long as the sums and the draw are finite in the new units and the draw does
not underflow in the old ones. -/
theorem C190_choice (hA : A.IsFormat f) (k : Nat) (ws : List ℝ) (hw : ∀ w ∈ ws, InFormat f w)
    (hc : ∀ c ∈ partialSums (ws.map fun w => (.fin (2 ^ k * w) : Num A)), ∃ z, c = .fin z) (loop last : Bool) (r : ℚ) (xs : List Nat)
    (u : ℝ) (hu : InFormat f u) (hcan : canonicalContracted loop r xs = (.fin u : Num A))
    (hr : ∀ b, (partialSums (ws.map fun w => (.fin (2 ^ k * w) : Num A))).getLast? = some b →
      ∃ z, uniformRealContracted loop last r xs CxxFloat.zero b = .fin z)
    (hn : ∀ b, (partialSums (ws.map (Num.fin (A := A)))).getLast? = some b → ∀ d, b - CxxFloat.zero = .fin d → NoUnderflow f (u * d)) :
    chooseBetween (ws.map fun w => (.fin (2 ^ k * w) : Num A)) (uniformRealContracted loop last r xs) =
      chooseBetween (ws.map (Num.fin (A := A))) (uniformRealContracted loop last r xs) :=
  C190_psums hA k (sums_scaled hA k ws hw) hc u hu last _ (fun _ => by unfold uniformRealContracted; rw [hcan]) hr hn

/-! ### The hypotheses are met -/

/-- The sums 3 and 1, which are not sorted, in units of 1/4, with the number 1/2 drawn. -/
example (hA : A.IsFormat .double) (last : Bool) :
    List.Forall₂ (ScaledTo .double 2) [(.fin 3 : Num A), .fin 1] [.fin (2 ^ 2 * 3), .fin (2 ^ 2 * 1)] ∧
      InFormat .double (1 / 2 : ℝ) ∧
      (∃ z, mulAdd last (.fin (1 / 2)) ((.fin (2 ^ 2 * 1) : Num A) - CxxFloat.zero) CxxFloat.zero = .fin z) ∧
      ∀ d, (.fin 1 : Num A) - CxxFloat.zero = .fin d → NoUnderflow .double (1 / 2 * d) := by
  have v : ∀ n : Int, |n| ≤ 2 ^ FloatFormat.double.prec → InFormat .double (n : ℝ) := fun n h => int_value h
  have v1 := v 1 (by decide)
  have v2 := v 2 (by decide)
  have v3 := v 3 (by decide)
  have v4 := v 4 (by decide)
  push_cast at v1 v2 v3 v4
  have rd : ∀ y : ℝ, InFormat .double y → |y| ≤ 4 → Num.round A y = .fin y := fun y h hl => by
    have h4 : (4 : ℝ) < (2 : ℝ) ^ FloatFormat.double.emax :=
      lt_of_lt_of_le (by norm_num) (zpow_le_zpow_right₀ (one_le_two (α := ℝ)) (show (3 : Int) ≤ FloatFormat.double.emax by decide))
    have := rnd_finite hA ⟨h, hl.trans_lt h4⟩
    exact Num.round_of this
  refine ⟨.cons (scaledTo_fin 2 v3) (.cons (scaledTo_fin 2 v1) .nil), ⟨1, -1, by decide, by decide, by norm_num⟩, ⟨2, ?_⟩, ?_⟩
  · have e : (.fin (2 ^ 2 * 1) : Num A) - CxxFloat.zero = .fin 4 := by
      rw [Num.zero_eq, Num.fin_sub, show (2 : ℝ) ^ 2 * 1 - 0 = 4 by norm_num, rd 4 v4 (by norm_num)]
    rw [e, Num.zero_eq]
    cases last
    · show (.fin 0 : Num A) + .fin (1 / 2) * .fin 4 = _
      rw [Num.fin_mul, show (1 / 2 : ℝ) * 4 = 2 by norm_num, rd 2 v2 (by norm_num), Num.fin_add, zero_add, rd 2 v2 (by norm_num)]
    · show Num.round A (1 / 2 * 4 + 0) = _
      rw [show (1 / 2 : ℝ) * 4 + 0 = 2 by norm_num, rd 2 v2 (by norm_num)]
  · intro d hd
    rw [Num.zero_eq, Num.fin_sub, sub_zero, rd 1 v1 (by norm_num)] at hd
    cases hd
    right
    rw [mul_one, abs_of_pos (by norm_num)]
    have : (2 : ℝ) ^ (FloatFormat.double.emin + (FloatFormat.double.prec - 1)) ≤ (2 : ℝ) ^ (-1 : Int) :=
      zpow_le_zpow_right₀ one_le_two (by decide)
    norm_num at this ⊢
    exact this

end
end Bwsl
