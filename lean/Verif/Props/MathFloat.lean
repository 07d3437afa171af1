import Verif.Model.MathFloat
import Verif.Lemmas.Num
import Verif.Lemmas.Loop
import Mathlib.Algebra.BigOperators.Group.List.Basic
import Mathlib.Algebra.Order.BigOperators.Group.List
import Mathlib.Tactic.Linarith
import Mathlib.Tactic.Ring
import Mathlib.Tactic.FieldSimp

/-! Properties C20, C21, C23, C24: random choices, searching and interpolation. -/

namespace Bwsl
open Spec

set_option linter.unusedSectionVars false

section
variable {F : Type} [CxxFloat F]

/-- On a range where no element after one above the value fails to be above it, `std::upper_bound` finds the
first element above the value. -/
theorem stdUpperBound_spec (xs : List F) (v : F)
    (mono : ∀ (i j : Nat) (a b : F), i < j → xs[i]? = some a → xs[j]? = some b → CxxFloat.lt v a = true →
      CxxFloat.lt v b = true) :
    ∀ len first : Nat, first + len ≤ xs.length → ∃ r, stdUpperBound xs v first len = .ok r ∧ first ≤ r ∧
      r ≤ first + len ∧
      (∀ (i : Nat) (a : F), first ≤ i → i < r → xs[i]? = some a → CxxFloat.lt v a = false) ∧
      (∀ (i : Nat) (a : F), r ≤ i → i < first + len → xs[i]? = some a → CxxFloat.lt v a = true) := by
  intro len
  induction len using Nat.strongRecOn with
  | ind len ih =>
    intro first hl
    rw [stdUpperBound]
    by_cases h0 : len = 0
    · rw [if_pos h0]
      exact ⟨first, rfl, Nat.le_refl _, by omega, fun i a h1 h2 => by omega, fun i a h1 h2 => by omega⟩
    · rw [if_neg h0]
      have hm : first + len / 2 < xs.length := by omega
      have hg : xs[first + len / 2]? = some xs[first + len / 2] := List.getElem?_eq_getElem hm
      simp only [hg]
      by_cases hlt : CxxFloat.lt v xs[first + len / 2] = true
      · rw [if_pos hlt]
        obtain ⟨r, e, r1, r2, r3, r4⟩ := ih (len / 2) (by omega) first (by omega)
        refine ⟨r, e, r1, by omega, r3, fun i a h1 h2 ha => ?_⟩
        by_cases hi : i < first + len / 2
        · exact r4 i a h1 hi ha
        · by_cases hi' : i = first + len / 2
          · subst hi'; rw [hg] at ha; cases ha; exact hlt
          · exact mono _ _ _ _ (by omega) hg ha hlt
      · rw [if_neg hlt]
        obtain ⟨r, e, r1, r2, r3, r4⟩ := ih (len - len / 2 - 1) (by omega) (first + len / 2 + 1) (by omega)
        refine ⟨r, e, by omega, by omega, fun i a h1 h2 ha => ?_, fun i a h1 h2 ha => r4 i a h1 (by omega) ha⟩
        by_cases hi : first + len / 2 + 1 ≤ i
        · exact r3 i a hi h2 ha
        · by_contra hc
          rw [Bool.not_eq_false] at hc
          by_cases hi' : i = first + len / 2
          · subst hi'; rw [hg] at ha; cases ha; exact hlt hc
          · exact hlt (mono _ _ _ _ (by omega) ha hg hc)

end

section
variable {K : Type} [Field K] [LinearOrder K] [IsStrictOrderedRing K] {A : Arith K}

theorem upperBound_sorted (cs : List K) (hs : cs.Pairwise (· ≤ ·)) (r : K) :
    ∃ n, stdUpperBound (cs.map (Num.fin (A := A))) (.fin r) 0 (cs.map (Num.fin (A := A))).length = .ok n ∧
      n ≤ cs.length ∧ (∀ (i : Nat) (c : K), i < n → cs[i]? = some c → c ≤ r) ∧
      (∀ (i : Nat) (c : K), n ≤ i → cs[i]? = some c → r < c) := by
  have hget : ∀ (i : Nat) (c : K), cs[i]? = some c → (cs.map (Num.fin (A := A)))[i]? = some (.fin c) := by
    intro i c h; rw [List.getElem?_map, h]; rfl
  obtain ⟨n, e, _, h2, h3, h4⟩ := stdUpperBound_spec (cs.map (Num.fin (A := A))) (.fin r)
    (by
      intro i j a b hij ha hb hlt
      rw [List.getElem?_map] at ha hb
      obtain ⟨x, hx, rfl⟩ := Option.map_eq_some_iff.1 ha
      obtain ⟨y, hy, rfl⟩ := Option.map_eq_some_iff.1 hb
      rw [Num.lt_fin, decide_eq_true_eq] at hlt ⊢
      obtain ⟨hi, rfl⟩ := List.getElem?_eq_some_iff.1 hx
      obtain ⟨hj, rfl⟩ := List.getElem?_eq_some_iff.1 hy
      exact hlt.trans_le (List.pairwise_iff_getElem.1 hs i j hi hj hij))
    (cs.map (Num.fin (A := A))).length 0 (by simp)
  refine ⟨n, e, by simpa using h2, fun i c hi hc => ?_, fun i c hi hc => ?_⟩
  · have := h3 i _ (Nat.zero_le _) hi (hget i c hc)
    rwa [Num.lt_fin, decide_eq_false_iff_not, not_lt] at this
  · have hl := (List.getElem?_eq_some_iff.1 hc).1
    have := h4 i _ hi (by simpa using hl) (hget i c hc)
    rwa [Num.lt_fin, decide_eq_true_eq] at this

/-- The number found by a search for `r` is `i` exactly when `r` is in the `i`-th interval. -/
theorem interval_iff (cs : List K) (r : K) (n : Nat) (hn : n ≤ cs.length)
    (h1 : ∀ (i : Nat) (c : K), i < n → cs[i]? = some c → c ≤ r) (h2 : ∀ (i : Nat) (c : K), n ≤ i → cs[i]? = some c → r < c)
    (hr : ∃ c, cs.getLast? = some c ∧ r < c) (i : Nat) :
    n = i ↔ ∃ c, cs[i]? = some c ∧ r < c ∧ ∀ b, 0 < i → cs[i - 1]? = some b → b ≤ r := by
  obtain ⟨c, hc, hrc⟩ := hr
  rw [List.getLast?_eq_getElem?] at hc
  have hlen := (List.getElem?_eq_some_iff.1 hc).1
  have hn' : n < cs.length := by
    by_contra h
    exact absurd (h1 _ _ (by omega) hc) (not_le.2 hrc)
  constructor
  · rintro rfl
    refine ⟨cs[n], List.getElem?_eq_getElem hn', h2 n _ le_rfl (List.getElem?_eq_getElem hn'), ?_⟩
    intro b hb hb'
    exact h1 _ _ (by omega) hb'
  · rintro ⟨c', hc', hlt, hb⟩
    rcases Nat.lt_trichotomy n i with h | h | h
    · have hi := (List.getElem?_eq_some_iff.1 hc').1
      have hg : cs[i - 1]? = some cs[i - 1] := List.getElem?_eq_getElem (by omega)
      exact absurd (hb _ (by omega) hg) (not_le.2 (h2 (i - 1) _ (by omega) hg))
    · exact h
    · exact absurd (h1 i c' h hc') (not_le.2 hlt)

/-- C20.  `choose_between_psums` on a nondecreasing list of cumulative weights and a draw below the last one
returns the index of the interval that holds the draw, whatever the floating-point arithmetic. -/
theorem C20_psums (cs : List K) (hs : cs.Pairwise (· ≤ ·)) (r : K) (draw : Num A → Num A → Num A)
    (hd : ∀ c, cs.getLast? = some c → draw (.fin 0) (.fin c) = .fin r ∧ r < c) (h0 : cs ≠ []) (i : Nat) :
    chooseBetweenPsums (cs.map .fin) draw = .ok i ↔
      ∃ c, cs[i]? = some c ∧ r < c ∧ ∀ b, 0 < i → cs[i - 1]? = some b → b ≤ r := by
  obtain ⟨c, hc⟩ : ∃ c, cs.getLast? = some c := ⟨_, List.getLast?_eq_some_getLast h0⟩
  obtain ⟨n, e, n1, n2, n3⟩ := upperBound_sorted (A := A) cs hs r
  have hl : (cs.map (Num.fin (A := A))).getLast? = some (.fin c) := by rw [List.getLast?_map, hc]; rfl
  unfold chooseBetweenPsums
  rw [hl]
  simp only [Num.zero_eq, (hd c hc).1, e, Res.ok.injEq]
  exact interval_iff cs r n n1 n2 n3 ⟨c, hc, (hd c hc).2⟩ i

/-- C20.  On an empty list of weights both functions are undefined. -/
theorem C20_empty {F : Type} [CxxFloat F] (draw : F → F → F) :
    chooseBetween [] draw = .ub .outOfBounds ∧ chooseBetweenPsums [] draw = .ub .outOfBounds := ⟨rfl, rfl⟩

/-! ### Partial sums -/

theorem partialSums_go_exact (hA : A.IsExact) (ws : List K) (s : K) :
    partialSums.go (F := Num A) (.fin s) (ws.map .fin) =
      ((List.range ws.length).map (fun i => s + (ws.take (i + 1)).sum)).map .fin := by
  induction ws generalizing s with
  | nil => rfl
  | cons w ws ih =>
    rw [List.map_cons, partialSums.go, Num.fin_add, Num.round_exact hA, ih, List.length_cons,
      List.range_succ_eq_map]
    simp [Function.comp_def, add_assoc]

theorem partialSums_exact (hA : A.IsExact) (ws : List K) :
    partialSums (F := Num A) (ws.map .fin) =
      ((List.range ws.length).map (fun i => (ws.take (i + 1)).sum)).map .fin := by
  cases ws with
  | nil => rfl
  | cons w ws =>
    rw [List.map_cons, partialSums, partialSums_go_exact hA, List.length_cons, List.range_succ_eq_map]
    simp [Function.comp_def]

theorem sum_take_mono (ws : List K) (hw : ∀ w ∈ ws, 0 ≤ w) {i j : Nat} (h : i ≤ j) :
    (ws.take i).sum ≤ (ws.take j).sum := by
  have : ws.take i = (ws.take j).take i := by rw [List.take_take, Nat.min_eq_left h]
  rw [this]
  conv_rhs => rw [← List.take_append_drop i (ws.take j), List.sum_append]
  refine le_add_of_nonneg_right (List.sum_nonneg (fun w h' => hw w ?_))
  exact List.mem_of_mem_take (List.mem_of_mem_drop h')

/-- C20.  In exact arithmetic, for nonnegative weights and a draw `r` with 0 ≤ r < total, `choose_between`
returns `i` exactly when `r` is in [w₀+…+wᵢ₋₁, w₀+…+wᵢ), an interval of length wᵢ. -/
theorem C20_interval (hA : A.IsExact) (ws : List K) (hw : ∀ w ∈ ws, 0 ≤ w) (r : K) (h0 : 0 ≤ r)
    (h1 : r < ws.sum) (draw : Num A → Num A → Num A) (hd : draw (.fin 0) (.fin ws.sum) = .fin r) (i : Nat) :
    chooseBetween (ws.map .fin) draw = .ok i ↔
      i < ws.length ∧ (ws.take i).sum ≤ r ∧ r < (ws.take (i + 1)).sum := by
  have hne : ws ≠ [] := by rintro rfl; exact absurd h1 (not_lt.2 h0)
  have hlen : 0 < ws.length := List.length_pos_iff.2 hne
  have hs : ((List.range ws.length).map (fun i => (ws.take (i + 1)).sum)).Pairwise (· ≤ ·) := by
    rw [List.pairwise_map]
    exact List.pairwise_lt_range.imp (fun h => sum_take_mono ws hw (by omega))
  have hlast : ((List.range ws.length).map (fun i => (ws.take (i + 1)).sum)).getLast? = some ws.sum := by
    rw [List.getLast?_eq_getElem?, List.getElem?_map, List.length_map, List.length_range,
      List.getElem?_range (by omega)]
    simp [Nat.sub_add_cancel hlen]
  have := C20_psums (A := A) _ hs r draw (fun c hc => by rw [hlast] at hc; cases hc; exact ⟨hd, h1⟩)
    (by simpa using hne) i
  have e : chooseBetween (ws.map (Num.fin (A := A))) draw = chooseBetweenPsums
      (((List.range ws.length).map (fun i => (ws.take (i + 1)).sum)).map .fin) draw := by
    unfold chooseBetween chooseBetweenPsums; rw [partialSums_exact hA]
  rw [e, this]
  simp only [List.getElem?_map]
  constructor
  · rintro ⟨c, hc, hlt, hb⟩
    obtain ⟨j, hj, rfl⟩ := Option.map_eq_some_iff.1 hc
    obtain ⟨hj1, hj2⟩ := List.getElem?_eq_some_iff.1 hj
    rw [List.getElem_range] at hj2; subst hj2
    rw [List.length_range] at hj1
    refine ⟨hj1, ?_, hlt⟩
    cases i with
    | zero => simpa using h0
    | succ i =>
      have : (List.range ws.length)[i + 1 - 1]? = some i := by
        rw [Nat.add_sub_cancel, List.getElem?_range (by omega)]
      exact hb _ (by omega) (by rw [this]; rfl)
  · rintro ⟨hi, hle, hlt⟩
    refine ⟨_, by rw [List.getElem?_range hi]; rfl, hlt, fun b hb hb' => ?_⟩
    rw [List.getElem?_range (by omega)] at hb'
    simp only [Option.map_some, Option.some.injEq] at hb'
    rw [← hb', Nat.sub_add_cancel hb]
    exact hle

/-- C20.  So an index is always found, and its weight is positive. -/
theorem C20_positive (hA : A.IsExact) (ws : List K) (hw : ∀ w ∈ ws, 0 ≤ w) (r : K) (h0 : 0 ≤ r)
    (h1 : r < ws.sum) (draw : Num A → Num A → Num A) (hd : draw (.fin 0) (.fin ws.sum) = .fin r) :
    ∃ i, ∃ h : i < ws.length, chooseBetween (ws.map .fin) draw = .ok i ∧ 0 < ws[i] := by
  have key : ∃ i, i < ws.length ∧ (ws.take i).sum ≤ r ∧ r < (ws.take (i + 1)).sum := by
    have gen : ∀ n, r < (ws.take n).sum → n ≤ ws.length →
        ∃ i, i < ws.length ∧ (ws.take i).sum ≤ r ∧ r < (ws.take (i + 1)).sum := by
      intro n
      induction n with
      | zero => intro h; rw [List.take_zero, List.sum_nil] at h; exact absurd h0 (not_le.2 h)
      | succ n ih =>
        intro h hn
        by_cases h' : r < (ws.take n).sum
        · exact ih h' (by omega)
        · exact ⟨n, by omega, not_lt.1 h', h⟩
    exact gen ws.length (by simpa using h1) le_rfl
  obtain ⟨i, hi, h2, h3⟩ := key
  refine ⟨i, hi, (C20_interval hA ws hw r h0 h1 draw hd i).2 ⟨hi, h2, h3⟩, ?_⟩
  rw [List.sum_take_succ ws i hi] at h3
  linarith

example : ∀ w ∈ [(1 : ℚ), 0, 3], 0 ≤ w := by decide

section
variable [FloorRing K]

theorem partialSums_go_binary64 (hA : A.IsBinary64) (ws : List K) (hw : ∀ w ∈ ws, 0 ≤ w) :
    ∀ (s : K) (cs : List K), Double s → partialSums.go (F := Num A) (.fin s) (ws.map .fin) = cs.map .fin →
      (s :: cs).Pairwise (· ≤ ·) ∧ cs.length = ws.length ∧
      ∀ (i : Nat) (c : K), ws[i]? = some 0 → cs[i]? = some c → (s :: cs)[i]? = some c := by
  induction ws with
  | nil =>
    intro s cs _ e
    have : cs = [] := by simpa [partialSums.go] using e.symm
    subst this
    simp
  | cons w ws ih =>
    intro s cs hs e
    rw [List.map_cons, partialSums.go, Num.fin_add] at e
    cases cs with
    | nil => simp at e
    | cons c cs =>
      simp only [List.map_cons, List.cons.injEq] at e
      obtain ⟨e1, e2⟩ := e
      obtain ⟨hc, _⟩ := rnd_eq_some hA (Num.round_eq_fin e1)
      rw [e1] at e2
      have hcd : Double c := hc ▸ rn_isDouble _
      have hsc : s ≤ c := by
        have h0 : s ≤ s + w := le_add_of_nonneg_right (hw w List.mem_cons_self)
        have := rn_mono h0
        rwa [rn_double hs, ← hc] at this
      obtain ⟨i1, i2, i3⟩ := ih (fun w h => hw w (List.mem_cons_of_mem _ h)) c cs hcd e2
      refine ⟨?_, by simp [i2], ?_⟩
      · rw [List.pairwise_cons]
        refine ⟨fun x hx => ?_, i1⟩
        rcases List.mem_cons.1 hx with rfl | hx
        · exact hsc
        · exact hsc.trans ((List.pairwise_cons.1 i1).1 x hx)
      · intro i x h1 h2
        cases i with
        | zero =>
          simp only [List.getElem?_cons_zero, Option.some.injEq] at h1 h2 ⊢
          rw [h1, add_zero, rn_double hs] at hc
          rw [← hc, h2]
        | succ i =>
          rw [List.getElem?_cons_succ] at h1 h2 ⊢
          exact i3 i x h1 h2

/-- C20.  In binary64 arithmetic too: for nonnegative weights whose sums do not overflow and a draw `r` with
0 ≤ r < computed total, an index is found and its weight is positive. -/
theorem C20_binary64 (hA : A.IsBinary64) (ws cs : List K) (hw : ∀ w ∈ ws, 0 ≤ w) (hd : ∀ w ∈ ws, Double w)
    (hc : partialSums (ws.map .fin) = cs.map (Num.fin (A := A))) (total r : K) (ht : cs.getLast? = some total)
    (h0 : 0 ≤ r) (h1 : r < total) (draw : Num A → Num A → Num A) (hr : draw (.fin 0) (.fin total) = .fin r) :
    ∃ i, ∃ h : i < ws.length, chooseBetween (ws.map .fin) draw = .ok i ∧ 0 < ws[i] := by
  cases ws with
  | nil =>
    have : cs = [] := by simpa [partialSums] using hc.symm
    subst this
    simp at ht
  | cons w ws =>
    rw [List.map_cons, partialSums] at hc
    cases cs with
    | nil => simp at hc
    | cons c cs =>
      simp only [List.map_cons, List.cons.injEq, Num.fin.injEq] at hc
      obtain ⟨rfl, hc⟩ := hc
      obtain ⟨i1, i2, i3⟩ := partialSums_go_binary64 hA ws (fun x h => hw x (List.mem_cons_of_mem _ h)) w cs
        (hd w List.mem_cons_self) hc
      have hne : (w :: cs) ≠ [] := by simp
      have e : chooseBetween ((w :: ws).map (Num.fin (A := A))) draw =
          chooseBetweenPsums ((w :: cs).map .fin) draw := by
        unfold chooseBetween chooseBetweenPsums
        rw [List.map_cons, partialSums, hc]; rfl
      have iff := C20_psums (A := A) (w :: cs) i1 r draw
        (fun x hx => by rw [ht] at hx; cases hx; exact ⟨hr, h1⟩) hne
      obtain ⟨n, en, n1, n2, n3⟩ := upperBound_sorted (A := A) (w :: cs) i1 r
      have ok : chooseBetweenPsums ((w :: cs).map (Num.fin (A := A))) draw = .ok n := by
        have hl : ((w :: cs).map (Num.fin (A := A))).getLast? = some (.fin total) := by
          rw [List.getLast?_map, ht]; rfl
        unfold chooseBetweenPsums
        rw [hl]
        simp only [Num.zero_eq, hr, en]
      obtain ⟨x, hx, hrx, hprev⟩ := (iff n).1 ok
      have hn : n < (w :: ws).length := by
        have := (List.getElem?_eq_some_iff.1 hx).1
        simpa [i2] using this
      refine ⟨n, hn, e.trans ok, lt_of_le_of_ne (hw _ (List.getElem_mem hn)) ?_⟩
      intro hz
      cases n with
      | zero =>
        simp only [List.getElem?_cons_zero, Option.some.injEq] at hx
        simp only [List.getElem_cons_zero] at hz
        rw [← hx, ← hz] at hrx
        exact absurd hrx (not_lt.2 h0)
      | succ n =>
        rw [List.getElem?_cons_succ] at hx
        rw [List.getElem_cons_succ] at hz
        have hz' : ws[n]? = some 0 := by
          rw [hz]; exact List.getElem?_eq_getElem (by simpa using hn)
        have := i3 n x hz' hx
        exact absurd (hprev x (Nat.succ_pos n) (by rw [Nat.add_sub_cancel]; exact this)) (not_le.2 hrx)

end

/-- C21.  The draws that choose `p` are exactly those below it. -/
theorem C21_iff (p r : K) (draw : Num A → Num A → Num A) (hd : draw (.fin 0) (CxxFloat.lit 1) = .fin r) :
    chooseWithProbability (.fin p) draw = true ↔ r < p := by
  unfold chooseWithProbability
  rw [Num.zero_eq, hd, Num.lt_fin, decide_eq_true_eq]

/-- C21.  For draws in [0,1): never for probability 0 or less or NaN, always for probability 1 or more. -/
theorem C21_extremes (p : Num A) (r : K) (h0 : 0 ≤ r) (h1 : r < 1) (draw : Num A → Num A → Num A)
    (hd : draw (.fin 0) (CxxFloat.lit 1) = .fin r) :
    (CxxFloat.le p (.fin 0) = true ∨ p = .nan → chooseWithProbability p draw = false) ∧
    (CxxFloat.le (.fin 1) p = true → chooseWithProbability p draw = true) := by
  unfold chooseWithProbability
  rw [Num.zero_eq, hd]
  cases p with
  | nan => exact ⟨fun _ => rfl, fun h => absurd h (by rintro ⟨⟩)⟩
  | inf n => cases n <;> exact ⟨fun h => (by rcases h with ⟨⟨⟩⟩ | ⟨⟨⟩⟩ <;> rfl), fun h => (by cases h <;> rfl)⟩
  | fin p =>
    rw [Num.lt_fin, Num.le_fin, Num.le_fin]
    simp only [decide_eq_true_eq, decide_eq_false_iff_not, not_lt]
    refine ⟨fun h => ?_, fun h => h1.trans_le h⟩
    rcases h with h | h
    · exact h.trans h0
    · cases h

/-- C21.  A larger probability is chosen whenever a smaller one is. -/
theorem C21_monotone (p q r : K) (hpq : p ≤ q) (draw : Num A → Num A → Num A)
    (hd : draw (.fin 0) (CxxFloat.lit 1) = .fin r) (h : chooseWithProbability (.fin p) draw = true) :
    chooseWithProbability (.fin q) draw = true := by
  rw [C21_iff _ _ _ hd] at h ⊢
  exact h.trans_le hpq

/-! ### Interpolation -/

theorem lerp_exact (hA : A.IsExact) (a b t : K) :
    lerp (.fin a : Num A) (.fin b) (.fin t) = .fin ((1 - t) * a + t * b) := by
  unfold lerp
  simp only [Num.ofInt_eq, Num.round_exact hA, Num.fin_sub, Num.fin_mul, Num.fin_add, Int.cast_one]

/-- C24.  In exact arithmetic `lerp` joins its end points. -/
theorem C24_ends (hA : A.IsExact) (a b : K) :
    lerp (.fin a : Num A) (.fin b) (.fin 0) = .fin a ∧ lerp (.fin a : Num A) (.fin b) (.fin 1) = .fin b := by
  rw [lerp_exact hA, lerp_exact hA]
  exact ⟨by simp, by simp⟩

/-- C24.  For t in [0,1] the value is between the end points. -/
theorem C24_between (hA : A.IsExact) (a b t : K) (h0 : 0 ≤ t) (h1 : t ≤ 1) :
    ∃ x, lerp (.fin a : Num A) (.fin b) (.fin t) = .fin x ∧ min a b ≤ x ∧ x ≤ max a b := by
  refine ⟨_, lerp_exact hA a b t, ?_, ?_⟩
  · have ha := mul_le_mul_of_nonneg_left (min_le_left a b) (sub_nonneg.2 h1)
    have hb := mul_le_mul_of_nonneg_left (min_le_right a b) h0
    linarith [show (1 - t) * min a b + t * min a b = min a b by ring]
  · have ha := mul_le_mul_of_nonneg_left (le_max_left a b) (sub_nonneg.2 h1)
    have hb := mul_le_mul_of_nonneg_left (le_max_right a b) h0
    linarith [show (1 - t) * max a b + t * max a b = max a b by ring]

/-- C24.  The value grows with `t` when a ≤ b (for all t, including extrapolation). -/
theorem C24_monotone (hA : A.IsExact) (a b t u : K) (hab : a ≤ b) (htu : t ≤ u) :
    ∃ x y, lerp (.fin a : Num A) (.fin b) (.fin t) = .fin x ∧
      lerp (.fin a : Num A) (.fin b) (.fin u) = .fin y ∧ x ≤ y := by
  refine ⟨_, _, lerp_exact hA a b t, lerp_exact hA a b u, ?_⟩
  have := mul_nonneg (sub_nonneg.2 htu) (sub_nonneg.2 hab)
  nlinarith

/-- C24.  `lerpi` is `lerp` at i/j: the points are equally spaced from `a` to `b`. -/
theorem C24_lerpi (hA : A.IsExact) (i j : Int) (hj : j ≠ 0) (a b : K) :
    lerpi i j (.fin a : Num A) (.fin b) = .fin (a + i * ((b - a) / j)) ∧
    lerpi 0 j (.fin a : Num A) (.fin b) = .fin a ∧ lerpi j j (.fin a : Num A) (.fin b) = .fin b := by
  have hj' : (j : K) ≠ 0 := by exact_mod_cast hj
  have gen : ∀ i : Int, lerpi i j (.fin a : Num A) (.fin b) = .fin (a + i * ((b - a) / j)) := by
    intro i
    unfold lerpi
    simp only [Num.ofInt_eq, Num.round_exact hA, Num.fin_div hj', lerp_exact hA]
    congr 1
    field_simp
    ring
  refine ⟨gen i, ?_, ?_⟩
  · rw [gen]; simp
  · rw [gen]; congr 1; field_simp; ring

end

/-! ### `bwsl::upper_bound` -/

section
variable {F : Type} [CxxFloat F]

/-- C23 is violated on the empty range at the start of an array: the function steps back to before the first element,
which is undefined. -/
theorem C23_empty_violated (round : F → Res Int) (xs : List F) (value : F) :
    bwslUpperBound round xs value 0 0 = .ub .outOfBounds := by
  rw [bwslUpperBound]; rfl

/-- C23.  A single pass of the loop always ends, by returning, by going on, or by reading outside of the range; so the
function fails to return only by repeating passes for ever. -/
theorem C23_step_partial (round : F → Res Int) (hr : ∀ x, (round x).IsOk ∨ ∃ u, round x = .ub u) (xs : List F) (value : F)
    (s : SearchState) :
    (upperBoundBody round xs value s).IsOk ∨ ∃ u, upperBoundBody round xs value s = .ub u := by
  have hd : ∀ i, (∃ x, deref xs i = .ok x) ∨ ∃ u, deref xs i = .ub u := by
    intro i
    unfold deref
    split
    · exact .inr ⟨_, rfl⟩
    · split
      · exact .inl ⟨_, rfl⟩
      · exact .inr ⟨_, rfl⟩
  unfold upperBoundBody
  rcases hd s.it with ⟨x, h⟩ | ⟨u, h⟩ <;> rw [h]
  swap
  · exact .inr ⟨u, rfl⟩
  rw [Res.ok_bind]
  split
  · exact .inl ⟨_, rfl⟩
  split
  · exact .inl ⟨_, rfl⟩
  rcases hd s.to' with ⟨y, h⟩ | ⟨u, h⟩ <;> rw [h]
  swap
  · exact .inr ⟨u, rfl⟩
  rw [Res.ok_bind]
  split
  · exact .inl ⟨_, rfl⟩
  rcases hr ((value - x) / (y - x) * CxxFloat.ofInt s.count) with ⟨n, h⟩ | ⟨u, h⟩ <;> rw [h]
  swap
  · exact .inr ⟨u, rfl⟩
  rw [Res.ok_bind]
  rcases hd (s.it + n) with ⟨z, h⟩ | ⟨u, h⟩
  · dsimp only
    rw [h]
    exact .inl ⟨_, rfl⟩
  · dsimp only
    rw [h]
    exact .inr ⟨u, rfl⟩

/-- C23 is violated on every range of 1 to 10000 elements: the function never returns, whatever the
elements and the value. -/
theorem C23_diverges_violated (round : F → Res Int) (xs : List F) (value : F) (first last : Int) (h0 : 0 ≤ first)
    (h1 : first < last) (h2 : last - first ≤ 10000) :
    bwslUpperBound round xs value first last = .diverges := by
  have := bwslUpperBound.fixpoint_induct round xs value
    (motive := fun f => ∀ first last, 0 ≤ first → first < last → last - first ≤ 10000 → f first last = .diverges)
    (by
      apply Lean.Order.admissible_pi_apply
        (fun first (g : Int → Res Int) => ∀ last, 0 ≤ first → first < last → last - first ≤ 10000 →
          g last = .diverges)
      intro first
      apply Lean.Order.admissible_pi_apply
        (fun last (x : Res Int) => 0 ≤ first → first < last → last - first ≤ 10000 → x = .diverges)
      intro last
      apply Lean.Order.admissible_flatOrder
      intro _ _ _; rfl)
    (by
      intro f ih first last h0 h1 h2
      have e : whileLoop Search.again (upperBoundStep round xs value)
          (.state ⟨first, first + (last - first - 1), last - first⟩) =
          .ok (.state ⟨first, first + (last - first - 1), last - first⟩) :=
        whileLoop_done (by simp only [Search.again, decide_eq_false_iff_not]; omega)
      simp only [if_neg (show ¬ first + (last - first - 1) < 0 by omega), e, Res.ok_bind]
      refine (congrArg (f first) ?_).trans (ih first last h0 h1 h2)
      omega)
  exact this first last h0 h1 h2

end

section
variable {K : Type} [Field K] [LinearOrder K] [IsStrictOrderedRing K] {A : Arith K}

/-- C23 is violated on every longer range that starts with an element equal to the value, followed by another
one: the function returns position 1, where the element is not greater than the value. -/
theorem C23_repeated_violated (round : Num A → Res Int) (x : K) (xs : List K) (hn : 10000 < xs.length + 2) :
    bwslUpperBound round ((x :: x :: xs).map .fin) (.fin x) 0 ((x :: x :: xs).length : Nat) = .ok 1 ∧
    ∃ c, (x :: x :: xs)[1]? = some c ∧ ¬ x < c := by
  refine ⟨?_, x, rfl, lt_irrefl x⟩
  have hlen : (((x :: x :: xs).length : Nat) : Int) = xs.length + 2 := by simp; ring
  rw [bwslUpperBound, hlen]
  rw [if_neg (by omega)]
  have s1 : upperBoundStep round ((x :: x :: xs).map (Num.fin (A := A))) (.fin x)
      (.state ⟨0, 0 + ((xs.length : Int) + 2 - 0 - 1), (xs.length : Int) + 2 - 0⟩) = .ok (.ret 1) := by
    simp [upperBoundStep, upperBoundBody, deref, Num.lt_fin]
  rw [whileLoop_step (by simp only [Search.again, decide_eq_true_eq]; omega) s1, whileLoop_done rfl]
  rfl

/-- C23 (what holds).  On ranges of more than 10000 elements the answer is right when the value is below the
first element, or above the first and not below the last. -/
theorem C23_ends_partial (round : Num A → Res Int) (xs : List K) (hn : 10000 < xs.length) (v : K) (x y : K)
    (hx : xs[0]? = some x) (hy : xs.getLast? = some y) :
    (v < x → bwslUpperBound round (xs.map .fin) (.fin v) 0 xs.length = .ok 0) ∧
    (x < v → y ≤ v → bwslUpperBound round (xs.map .fin) (.fin v) 0 xs.length = .ok xs.length) := by
  have d0 : deref (xs.map (Num.fin (A := A))) 0 = .ok (.fin x) := by
    simp [deref, hx]
  have d1 : deref (xs.map (Num.fin (A := A))) (0 + ((xs.length : Int) - 0 - 1)) = .ok (.fin y) := by
    have e : 0 + ((xs.length : Int) - 0 - 1) = ((xs.length - 1 : Nat) : Int) := by omega
    rw [e]
    rw [List.getLast?_eq_getElem?] at hy
    simp [deref, hy]
  constructor
  · intro h
    rw [bwslUpperBound, if_neg (by omega)]
    have s1 : upperBoundStep round (xs.map (Num.fin (A := A))) (.fin v)
        (.state ⟨0, 0 + ((xs.length : Int) - 0 - 1), (xs.length : Int) - 0⟩) = .ok (.ret 0) := by
      simp [upperBoundStep, upperBoundBody, d0, Num.lt_fin, h]
    rw [whileLoop_step (by simp only [Search.again, decide_eq_true_eq]; omega) s1, whileLoop_done rfl]
    rfl
  · intro h h'
    rw [bwslUpperBound, if_neg (by omega)]
    have s1 : upperBoundStep round (xs.map (Num.fin (A := A))) (.fin v)
        (.state ⟨0, 0 + ((xs.length : Int) - 0 - 1), (xs.length : Int) - 0⟩) = .ok (.ret xs.length) := by
      unfold upperBoundStep upperBoundBody
      simp only [d0, d1, Res.ok_bind, Num.lt_fin, decide_eq_true h, decide_eq_false (not_lt.2 h.le),
        decide_eq_false (not_lt.2 h')]
      simp
    rw [whileLoop_step (by simp only [Search.again, decide_eq_true_eq]; omega) s1, whileLoop_done rfl]
    rfl

end
end Bwsl
