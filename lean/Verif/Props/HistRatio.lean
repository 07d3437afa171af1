import Verif.Props.HistDouble
import Verif.Props.NotFinite

/-! C50: for which bins the quotients of a histogram are right. -/

namespace Bwsl
open Spec

section
variable {K : Type} [Field K] [LinearOrder K] [IsStrictOrderedRing K] {A : Arith K}

/-- C50 (what holds, exactly).  The entry of a later bin is the quotient of the two results exactly if the result of that bin is
zero or the divisor is one. -/
theorem C50_iff_partial (hA : A.IsExact) (h : Hist (Num A)) (hs : h.nbins = h.acc.length) (idx j : Nat) (hi : idx < h.nbins)
    (hj : idx < j) (r : List (Num A)) (hr : h.getResults = .ok r) (x d : K) (hx : r[j]? = some (.fin x)) (hd : r[idx]? = some (.fin d)) :
    ∃ q, h.getResultsBy idx = .ok q ∧ (q[j]? = some (.fin x / .fin d) ↔ x = 0 ∨ d = 1) := by
  obtain ⟨r', q, e1, e2, -, e4⟩ := C50_value_partial h hs idx hi
  rw [hr, Res.ok.injEq] at e1
  subst e1
  refine ⟨q, e2, ?_⟩
  rw [e4 j _ _ hx hd, if_neg (by omega), Option.some.injEq]
  by_cases h0 : d = 0
  · subst h0
    have e : (.fin 0 : Num A) / .fin 0 = .nan := by
      show (if (0 : K) = 0 then (if (0 : K) = 0 then Num.nan else Num.inf (decide ((0 : K) < 0))) else _) = _
      simp
    rw [e]
    have e' : (.fin x : Num A) / .nan = .nan := rfl
    rw [e']
    have e'' : (.fin x : Num A) / .fin 0 = if x = 0 then Num.nan else Num.inf (decide (x < 0)) := by
      show (if (0 : K) = 0 then (if x = 0 then Num.nan else Num.inf (decide (x < 0))) else _) = _
      simp
    rw [e'']
    by_cases hx0 : x = 0
    · simp [hx0]
    · simp [hx0]
  · rw [Num.fin_div h0, Num.fin_div h0, Num.round_exact hA, Num.round_exact hA, div_self h0, Num.fin_div one_ne_zero,
      Num.round_exact hA, div_one, Num.fin.injEq, eq_div_iff h0]
    constructor
    · intro h
      have : x * (d - 1) = 0 := by rw [mul_sub, mul_one, h, sub_self]
      rcases mul_eq_zero.1 this with h | h
      · exact .inl h
      · exact .inr (sub_eq_zero.1 h)
    · rintro (h | h)
      · rw [h, zero_mul]
      · rw [h, mul_one]

/-- C50 (what the code computes, in double precision).  If the divisor is finite and not zero, the entries of the later bins are the
results themselves, not divided by anything. -/
theorem C50_later_partial [FloorRing K] (hA : A.IsBinary64) (h : Hist (Num A)) (hs : h.nbins = h.acc.length) (idx j : Nat)
    (hi : idx < h.nbins) (hj : idx < j) (r : List (Num A)) (hr : h.getResults = .ok r) (x d : K) (hd0 : d ≠ 0) (hxd : FinDouble x)
    (hx : r[j]? = some (.fin x)) (hd : r[idx]? = some (.fin d)) :
    ∃ q, h.getResultsBy idx = .ok q ∧ q[j]? = some (.fin x) := by
  obtain ⟨r', q, e1, e2, -, e4⟩ := C50_value_partial h hs idx hi
  rw [hr, Res.ok.injEq] at e1
  subst e1
  refine ⟨q, e2, ?_⟩
  have h1 : Num.round A (1 : K) = .fin 1 := by
    have := round_count (A := A) hA (n := 1) (by norm_num)
    rwa [Num.ofNat_eq, Nat.cast_one] at this
  rw [e4 j _ _ hx hd, if_neg (by omega), Num.fin_div hd0, div_self hd0, h1, Num.fin_div one_ne_zero, div_one,
    Num.round_of (rnd_of_double hA hxd.1 hxd.2)]

/-- The hypotheses are met by the histogram of `C50_violated`, with the results 1/4 and 2/4 in bins 1 and 2. -/
example (hA : A.IsExact) : ∃ (h : Hist (Num A)) (r : List (Num A)), h.getResults = .ok r ∧ r[2]? = some (.fin (2 / 4)) ∧
    r[1]? = some (.fin (1 / 4)) ∧ h.getResultsBy 1 = .ok [.fin 1, .fin 1, .fin (1 / 2)] := by
  obtain ⟨h, -, h2, h3⟩ := C50_violated hA
  exact ⟨h, _, h2, rfl, rfl, h3⟩
end
end Bwsl
