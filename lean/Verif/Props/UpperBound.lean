import Verif.Props.MathFloat
import Verif.Lemmas.NumOrder

/-! Property C23, continued: what `bwsl::upper_bound` returns when it returns, and where it reads out of bounds. -/

namespace Bwsl
open Spec

set_option linter.unusedSectionVars false

/-- Whatever holds at the start of a loop and is kept by its body holds at its end. -/
theorem whileLoop_inv {cond : σ → Bool} {body : σ → Res σ} (I : σ → Prop)
    (hb : ∀ s s', I s → cond s = true → body s = .ok s' → I s') {s r : σ} (hs : I s)
    (h : whileLoop cond body s = .ok r) : I r := by
  have := whileLoop.fixpoint_induct cond body
    (motive := fun f => ∀ s, I s → ∀ r, f s = .ok r → I r)
    (by
      apply Lean.Order.admissible_pi_apply (fun s (x : Res σ) => I s → ∀ r, x = .ok r → I r)
      intro s
      apply Lean.Order.admissible_flatOrder
      intro _ r h; cases h)
    (by
      intro f ih s hs r h
      cases hc : cond s with
      | false => simp only [hc] at h; cases h; exact hs
      | true =>
        simp only [hc, if_true] at h
        obtain ⟨s', h1, h2⟩ := Res.bind_eq_ok.1 h
        exact ih s' (hb s s' hs hc h1) r h2)
  exact this s hs r h

section
variable {K : Type} [Field K] [LinearOrder K] [IsStrictOrderedRing K] {A : Arith K}

/-- `p` is the position of the first element greater than `v`. -/
structure IsUpperBound (xs : List K) (v : K) (p : Int) : Prop where
  nonneg : 0 ≤ p
  le : p ≤ xs.length
  below : ∀ (i : Nat) (c : K), xs[i]? = some c → (i : Int) < p → c ≤ v
  above : ∀ (i : Nat) (c : K), xs[i]? = some c → p ≤ i → v < c

/-- What the search knows: nothing greater before `it`, everything greater after `to`. -/
structure Bracket (xs : List K) (v : K) (it to' : Int) : Prop where
  below : ∀ (i : Nat) (c : K), xs[i]? = some c → (i : Int) < it → c ≤ v
  above : ∀ (i : Nat) (c : K), xs[i]? = some c → to' < i → v < c

def SearchInv (xs : List K) (v : K) : Search → Prop
  | .ret p => IsUpperBound xs v p
  | .state s => Bracket xs v s.it s.to'

theorem deref_fin {xs : List K} {i : Int} {y : Num A} (h : deref (xs.map (Num.fin (A := A))) i = .ok y) :
    ∃ (n : Nat) (c : K), i = n ∧ xs[n]? = some c ∧ y = .fin c := by
  unfold deref at h
  split at h
  · cases h
  · rename_i h0
    rw [List.getElem?_map] at h
    cases hx : xs[i.toNat]? with
    | none => rw [hx] at h; cases h
    | some c => rw [hx] at h; cases h; exact ⟨i.toNat, c, by omega, hx, rfl⟩

theorem sorted_getElem {xs : List K} (hs : xs.Pairwise (· < ·)) {i j : Nat} {c d : K} (hi : xs[i]? = some c)
    (hj : xs[j]? = some d) (h : i < j) : c < d := by
  obtain ⟨h1, rfl⟩ := List.getElem?_eq_some_iff.1 hi
  obtain ⟨h2, rfl⟩ := List.getElem?_eq_some_iff.1 hj
  exact List.pairwise_iff_getElem.1 hs _ _ _ _ h

theorem getElem_lt {xs : List K} {i : Nat} {c : K} (hi : xs[i]? = some c) : i < xs.length :=
  (List.getElem?_eq_some_iff.1 hi).1

theorem upperBoundStep_inv (round : Num A → Res Int) {xs : List K} (hs : xs.Pairwise (· < ·)) (v : K) (s s' : Search)
    (hi : SearchInv xs v s) (h : upperBoundStep round (xs.map .fin) (.fin v) s = .ok s') : SearchInv xs v s' := by
  cases s with
  | ret p => cases h; exact hi
  | state s =>
    obtain ⟨hb, ha⟩ : Bracket xs v s.it s.to' := hi
    unfold upperBoundStep upperBoundBody at h
    simp only at h
    obtain ⟨y, h1, h⟩ := Res.bind_eq_ok.1 h
    obtain ⟨n, c, en, hn, rfl⟩ := deref_fin h1
    rw [Num.lt_fin] at h
    split at h
    · rename_i hlt
      have hlt := of_decide_eq_true hlt
      cases h
      refine ⟨by omega, by have := getElem_lt hn; omega, hb, fun i d hd hp => ?_⟩
      rcases Nat.lt_or_ge n i with h' | h'
      · exact hlt.trans (sorted_getElem hs hn hd h')
      · obtain rfl : i = n := by omega
        rw [hn] at hd; cases hd; exact hlt
    · rename_i hlt
      have hge : c ≤ v := not_lt.1 (fun h => hlt (decide_eq_true h))
      split at h
      · rename_i heq
        rw [Num.lt_fin] at heq
        have hle : v ≤ c := not_lt.1 (fun h => by simp [h] at heq)
        cases h
        refine ⟨by omega, by have := getElem_lt hn; omega, fun i d hd hp => ?_, fun i d hd hp => ?_⟩
        · rcases Nat.lt_or_ge i n with h' | h'
          · exact hb i d hd (by omega)
          · obtain rfl : i = n := by omega
            rw [hn] at hd; cases hd; exact hge
        · exact hle.trans_lt (sorted_getElem hs hn hd (by omega))
      · obtain ⟨y, h2, h⟩ := Res.bind_eq_ok.1 h
        obtain ⟨m, d, em, hm, rfl⟩ := deref_fin h2
        rw [Num.lt_fin] at h
        split at h
        · rename_i hto
          have hto : d ≤ v := not_lt.1 (fun h => by simp [h] at hto)
          cases h
          refine ⟨by omega, by have := getElem_lt hm; omega, fun i e he hp => ?_, fun i e he hp => ha i e he (by omega)⟩
          rcases Nat.lt_or_ge i m with h' | h'
          · exact (sorted_getElem hs he hm h').le.trans hto
          · obtain rfl : i = m := by omega
            rw [hm] at he; cases he; exact hto
        · obtain ⟨np, -, h⟩ := Res.bind_eq_ok.1 h
          obtain ⟨y, h3, h⟩ := Res.bind_eq_ok.1 h
          obtain ⟨k, e, ek, hk, rfl⟩ := deref_fin h3
          rw [Num.lt_fin] at h
          cases h
          split
          · rename_i hnt
            have hnt : e ≤ v := not_lt.1 (fun h => by simp [h] at hnt)
            refine ⟨fun i f hf hp => ?_, ha⟩
            change (i : Int) < s.it + np + 1 at hp
            rcases Nat.lt_or_ge i k with h' | h'
            · exact (sorted_getElem hs hf hk h').le.trans hnt
            · obtain rfl : i = k := by omega
              rw [hk] at hf; cases hf; exact hnt
          · rename_i hnt
            have hnt : v < e := by simpa using hnt
            refine ⟨hb, fun i f hf hp => ?_⟩
            change s.it + np - 1 < (i : Int) at hp
            rcases Nat.lt_or_ge k i with h' | h'
            · exact hnt.trans (sorted_getElem hs hk hf h')
            · obtain rfl : i = k := by omega
              rw [hk] at hf; cases hf; exact hnt

/-- C23 (what holds).  On a range of distinct elements in increasing order, whenever `upper_bound` returns, it returns the
position of the first element greater than the value, whatever the arithmetic and the rounding of the interpolation. -/
theorem C23_sound_partial (round : Num A → Res Int) (xs : List K) (hs : xs.Pairwise (· < ·)) (v : K) (p : Int)
    (h : bwslUpperBound round (xs.map .fin) (.fin v) 0 xs.length = .ok p) : IsUpperBound xs v p := by
  have := bwslUpperBound.fixpoint_induct round (xs.map .fin) (.fin v)
    (motive := fun f => ∀ first last, Bracket xs v first (last - 1) → ∀ p, f first last = .ok p → IsUpperBound xs v p)
    (by
      apply Lean.Order.admissible_pi_apply
        (fun first (g : Int → Res Int) => ∀ last, Bracket xs v first (last - 1) → ∀ p, g last = .ok p → IsUpperBound xs v p)
      intro first
      apply Lean.Order.admissible_pi_apply
        (fun last (x : Res Int) => Bracket xs v first (last - 1) → ∀ p, x = .ok p → IsUpperBound xs v p)
      intro last
      apply Lean.Order.admissible_flatOrder
      intro _ p h; cases h)
    (by
      intro f ih first last hb p h
      simp only at h
      split at h
      · cases h
      · obtain ⟨r, h1, h2⟩ := Res.bind_eq_ok.1 h
        have hr : SearchInv xs v r := whileLoop_inv (SearchInv xs v) (s := .state ⟨first, first + (last - first - 1), last - first⟩)
          (fun s s' hi _ hstep => upperBoundStep_inv round hs v s s' hi hstep)
          (show Bracket xs v first (first + (last - first - 1)) by rwa [show first + (last - first - 1) = last - 1 by omega]) h1
        cases r with
        | ret q => cases h2; exact hr
        | state s =>
          refine ih s.it (s.to' + 1) ?_ p h2
          rw [show s.to' + 1 - 1 = s.to' by omega]
          exact hr)
  refine this 0 xs.length ⟨fun i c _ hi => absurd hi (by omega), fun i c hc hi => ?_⟩ p h
  have := getElem_lt hc
  omega

/-- One step on the range 0, 1, …, n-1 with the value n - 5/4, if the interpolated position is rounded to n. -/
theorem out_of_bounds (round : Num A → Res Int) (n : Nat) (hn : 10000 < n) (v : K) (h0 : 0 < v) (h1 : v < (n - 1 : Nat))
    (hr : round ((.fin v - .fin 0) / (.fin ((n - 1 : Nat) : K) - .fin 0) * CxxFloat.ofInt (n : Int)) = .ok (n : Int)) :
    bwslUpperBound round (((List.range n).map (fun i : Nat => (i : K))).map .fin) (.fin v) 0 (n : Int) = .ub .outOfBounds := by
  have d0 : deref (((List.range n).map (fun i : Nat => (i : K))).map (Num.fin (A := A))) 0 = .ok (.fin 0) := by
    simp [deref, show 0 < n by omega]
  have d1 : deref (((List.range n).map (fun i : Nat => (i : K))).map (Num.fin (A := A))) (n - 1) = .ok (.fin ((n - 1 : Nat) : K)) := by
    unfold deref
    rw [if_neg (by omega), show ((n : Int) - 1).toNat = n - 1 by omega]
    simp [show n - 1 < n by omega]
  have d2 : deref (((List.range n).map (fun i : Nat => (i : K))).map (Num.fin (A := A))) n = .ub .outOfBounds := by
    unfold deref
    rw [if_neg (by omega), Int.toNat_natCast]
    simp
  have e : upperBoundStep round (((List.range n).map (fun i : Nat => (i : K))).map (Num.fin (A := A))) (.fin v)
      (.state ⟨0, 0 + ((n : Int) - 0 - 1), (n : Int) - 0⟩) = .ub .outOfBounds := by
    unfold upperBoundStep upperBoundBody
    simp only [Int.sub_zero, Int.zero_add, d0, Res.ok_bind, d1, Num.lt_fin, decide_eq_false (not_lt.2 h0.le), decide_eq_true h0,
      decide_eq_true h1, hr, d2]
    rfl
  rw [bwslUpperBound, if_neg (by omega), whileLoop_ub (by simp only [Search.again, decide_eq_true_eq]; omega) e]
  rfl

/-- C23 is violated on longer ranges too: in the range 0, 1, …, n-1 (n > 10000) the search for a value in the upper half of
the last interval interpolates to position n and reads past the end. -/
theorem C23_out_of_bounds_violated (hA : A.IsExact) (round : Num A → Res Int)
    (hround : ∀ (r : K) (n : Int), |r - n| < 1 / 2 → round (.fin r) = .ok n) (n : Nat) (hn : 10000 < n) :
    ((List.range n).map (fun i : Nat => (i : K))).Pairwise (· < ·) ∧
    bwslUpperBound round (((List.range n).map (fun i : Nat => (i : K))).map .fin) (.fin ((n : K) - 5 / 4)) 0 (n : Int) =
      .ub .outOfBounds := by
  have hn' : (10000 : K) < n := by exact_mod_cast hn
  have hc : ((n - 1 : Nat) : K) = n - 1 := by rw [Nat.cast_sub (by omega)]; simp
  refine ⟨?_, out_of_bounds round n hn _ (by linarith) (by rw [hc]; linarith) ?_⟩
  · rw [List.pairwise_map]
    exact List.pairwise_lt_range.imp (fun h => by exact_mod_cast h)
  · rw [Num.fin_sub, Num.fin_sub, Num.round_exact hA, Num.round_exact hA, sub_zero, sub_zero, hc,
      Num.fin_div (by linarith), Num.round_exact hA, Num.ofInt_eq, Num.round_exact hA, Num.fin_mul, Num.round_exact hA]
    refine hround _ _ ?_
    have h1 : (0 : K) < n - 1 := by linarith
    have e : ((n : K) - 5 / 4) / (n - 1) * ((n : Int) : K) - ((n : Int) : K) = -(n / (4 * (n - 1))) := by
      push_cast
      field_simp
      ring
    rw [e, abs_neg, abs_of_pos (div_pos (by linarith) (by linarith)), div_lt_iff₀ (by linarith)]
    linarith

end

section
variable {K : Type} [Field K] [LinearOrder K] [IsStrictOrderedRing K] [FloorRing K] {A : Arith K}

/-- C23 is violated in binary64 as well, e.g. for 16385 elements. -/
theorem C23_out_of_bounds_binary64_violated (hA : A.IsBinary64) (round : Num A → Res Int)
    (hround : ∀ (r : K) (n : Int), |r - n| < 1 / 2 → round (.fin r) = .ok n) :
    bwslUpperBound round (((List.range 16385).map (fun i : Nat => (i : K))).map .fin) (.fin (65535 / 4)) 0 (16385 : Nat) =
      .ub .outOfBounds := by
  have rd : ∀ (m : Int) (e : Nat), |m| ≤ 2 ^ 53 → e ≤ 60 → Num.round A ((m : K) / 2 ^ e) = .fin ((m : K) / 2 ^ e) := by
    intro m e hm he
    refine Num.round_of (rnd_of_double hA ⟨m, -(e : Int), hm, by omega, ?_⟩ ?_)
    · rw [zpow_neg, zpow_natCast, div_eq_mul_inv]
    · rw [abs_div, abs_of_pos (pow_pos (two_pos : (0 : K) < 2) e)]
      refine lt_of_le_of_lt (div_le_self (abs_nonneg _) (one_le_pow₀ one_le_two)) (int_lt_huge hm)
  refine out_of_bounds round 16385 (by norm_num) _ (by norm_num) (by norm_num) ?_
  have a1 : Num.round A ((65535 / 4 : K) - 0) = .fin (65535 / 4) := by
    have := rd 65535 2 (by norm_num) (by norm_num)
    convert this using 2 <;> norm_num
  have a2 : Num.round A (((16385 - 1 : Nat) : K) - 0) = .fin 16384 := by
    have := rd 16384 0 (by norm_num) (by norm_num)
    convert this using 2 <;> norm_num
  have a3 : Num.round A ((65535 / 4 : K) / 16384) = .fin (65535 / 65536) := by
    have := rd 65535 16 (by norm_num) (by norm_num)
    convert this using 2 <;> norm_num
  have a4 : Num.round A (((16385 : Nat) : Int) : K) = .fin 16385 := by
    have := rd 16385 0 (by norm_num) (by norm_num)
    convert this using 2 <;> norm_num
  have a5 : Num.round A ((65535 / 65536 : K) * 16385) = .fin (65535 / 65536 * 16385) := by
    have := rd (65535 * 16385) 16 (by norm_num) (by norm_num)
    convert this using 2 <;> norm_num
  rw [Num.fin_sub, Num.fin_sub, a1, a2, Num.fin_div (by norm_num), a3, Num.ofInt_eq, a4, Num.fin_mul, a5]
  refine hround _ _ ?_
  rw [abs_lt]
  constructor <;> norm_num

/-- A rounding function as in the last two theorems. -/
example : ∃ round : Num A → Res Int, ∀ (r : K) (n : Int), |r - n| < 1 / 2 → round (.fin r) = .ok n := by
  refine ⟨fun x => match x with
    | .fin r => .ok ⌊r + 1 / 2⌋
    | _ => .ub .outOfBounds, fun r n h => ?_⟩
  rw [abs_lt] at h
  show Res.ok ⌊r + 1 / 2⌋ = _
  rw [(Int.floor_eq_iff (z := n)).2 ⟨by linarith, by linarith⟩]

/-- C23: a search that returns, in a range of 10001 elements. -/
example (round : Num A → Res Int) : ∃ (xs : List K) (v : K) (p : Int), xs.Pairwise (· < ·) ∧ 10000 < xs.length ∧
    bwslUpperBound round (xs.map .fin) (.fin v) 0 xs.length = .ok p := by
  refine ⟨(List.range 10001).map (fun i : Nat => (i : K)), -1, 0, ?_, by simp, ?_⟩
  · rw [List.pairwise_map]
    exact List.pairwise_lt_range.imp (fun h => by exact_mod_cast h)
  · refine (C23_ends_partial round _ (by simp) (-1) 0 (10000 : Nat) (by simp) ?_).1 (by norm_num)
    rw [List.getLast?_eq_getElem?]; simp

end
end Bwsl
