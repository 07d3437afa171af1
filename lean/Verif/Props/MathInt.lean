import Verif.Model.MathUtils
import Verif.Lemmas.Loop
import Verif.Lemmas.Translate
import Mathlib.Data.Nat.Choose.Basic
import Mathlib.Order.MinMax
import Mathlib.Algebra.Order.Ring.Defs
import Mathlib.Algebra.BigOperators.Group.List.Lemmas

/-! Properties C14–C19, C22, C25: integer functions of MathUtils. -/

namespace Bwsl

/-- `m` as in `cbinomial`: the smaller of `k` and `n - k`. -/
def Spec.side (n k : Nat) : Nat := min k (n - k)

theorem choose_step (n i : Nat) :
    Nat.choose n i * (n - i) = Nat.choose n (i + 1) * (i + 1) := by
  rw [Nat.choose_succ_right_eq]

/-- The products met by the loop increase. -/
theorem choose_mul_mono {n i m : Nat} (hi : i ≤ m) (hm : 2 * m ≤ n) :
    Nat.choose n i * i ≤ Nat.choose n m * m :=
  Nat.mul_le_mul (Nat.choose_le_choose_of_le_half_left' hi hm) hi
where
  Nat.choose_le_choose_of_le_half_left' {i m : Nat} (hi : i ≤ m) (hm : 2 * m ≤ n) :
      Nat.choose n i ≤ Nat.choose n m := by
    induction m, hi using Nat.le_induction with
    | base => exact le_refl _
    | succ m _ ih =>
      refine (ih (by omega)).trans ?_
      exact Nat.choose_le_succ_of_lt_half_left (by omega)

theorem cbinomialBody_eq {n i : Nat} (hi : i + 1 ≤ n) :
    cbinomialBody n ⟨Nat.choose n i, (i + 1 : Nat)⟩ =
      if (n : Int) + 1 < H63 ∧ ((Nat.choose n (i + 1) * (i + 1) : Nat) : Int) < H63 then
        .ok ⟨Nat.choose n (i + 1), (i + 2 : Nat)⟩ else .ub .signedOverflow := by
  unfold cbinomialBody
  by_cases h1 : (n : Int) + 1 < H63
  · have e1 : ladd (n : Int) 1 = .ok (n + 1) := long_ok (by comega)
    have e2 : lsub ((n : Int) + 1) (i + 1 : Nat) = .ok ((n - i : Nat) : Int) := by
      have : (n : Int) + 1 - (i + 1 : Nat) = ((n - i : Nat) : Int) := by omega
      unfold lsub; rw [this]; exact long_ok (by comega)
    rw [e1, Res.ok_bind, e2, Res.ok_bind]
    have e3 : (Nat.choose n i : Int) * ((n - i : Nat) : Int) =
        ((Nat.choose n (i + 1) * (i + 1) : Nat) : Int) := by
      rw [← choose_step n i, Nat.cast_mul]
    unfold lmul
    rw [e3]
    by_cases h2 : ((Nat.choose n (i + 1) * (i + 1) : Nat) : Int) < H63
    · rw [if_pos ⟨h1, h2⟩, long_ok (by comega), Res.ok_bind]
      have h3 : Nat.choose n (i + 1) ≤ Nat.choose n (i + 1) * (i + 1) :=
        Nat.le_mul_of_pos_right _ (by omega)
      have hne : ((i + 1 : Nat) : Int) ≠ 0 := by omega
      have e4 : ldiv ((Nat.choose n (i + 1) * (i + 1) : Nat) : Int) ((i + 1 : Nat) : Int) =
          .ok (Nat.choose n (i + 1) : Int) := by
        rw [ldiv, if_neg hne, Nat.cast_mul, Int.mul_tdiv_cancel _ hne]
        exact long_ok (by comega)
      rw [e4, Res.ok_bind]
      have e5 : ladd ((i + 1 : Nat) : Int) 1 = .ok ((i + 2 : Nat) : Int) := by
        have : ((i + 1 : Nat) : Int) + 1 = ((i + 2 : Nat) : Int) := by omega
        unfold ladd; rw [this]; exact long_ok (by comega)
      rw [e5]; rfl
    · rw [if_neg (fun h => h2 h.2)]
      unfold long; rw [if_neg (by comega), Res.ub_bind]
  · have e1 : ladd (n : Int) 1 = .ub .signedOverflow := by
      unfold ladd long; rw [if_neg (by comega)]
    rw [e1, if_neg (fun h => h1 h.1), Res.ub_bind]

theorem cbinomial_loop {n m : Nat} (hm : 2 * m ≤ n) (j : Nat) (i : Nat) (hj : i + j = m) :
    whileLoop (fun s => decide (s.i ≤ (m : Int))) (cbinomialBody n) ⟨Nat.choose n i, (i + 1 : Nat)⟩ =
      if i = m ∨ ((n : Int) + 1 < H63 ∧ ((Nat.choose n m * m : Nat) : Int) < H63) then
        .ok ⟨Nat.choose n m, (m + 1 : Nat)⟩ else .ub .signedOverflow := by
  induction j generalizing i with
  | zero =>
    have : i = m := by omega
    subst this
    rw [if_pos (Or.inl rfl), whileLoop_done (by simp)]
  | succ j ih =>
    have hc : (fun s : BinomState => decide (s.i ≤ (m : Int))) ⟨Nat.choose n i, (i + 1 : Nat)⟩ = true := by
      simp; omega
    have hb := cbinomialBody_eq (n := n) (i := i) (by omega)
    by_cases h : (n : Int) + 1 < H63 ∧ ((Nat.choose n (i + 1) * (i + 1) : Nat) : Int) < H63
    · rw [if_pos h] at hb
      refine Eq.trans (whileLoop_step hc hb) ?_
      rw [ih (i + 1) (by omega)]
      by_cases h2 : i + 1 = m
      · rw [if_pos (Or.inl h2), if_pos]
        right; rw [← h2]; exact h
      · have hne : i ≠ m := by omega
        simp only [h2, hne, false_or]
    · rw [if_neg h] at hb
      refine Eq.trans (whileLoop_ub hc hb) ?_
      rw [if_neg]
      rintro (h2 | ⟨h3, h4⟩)
      · omega
      · apply h
        refine ⟨h3, lt_of_le_of_lt ?_ h4⟩
        exact_mod_cast choose_mul_mono (by omega) hm

/-- C14.  For `0 ≤ k ≤ n` (as `long`s), with `m` the smaller of `k` and `n-k`: `cbinomial` computes
exactly C(n,k) if `m = 0`, or if `C(n,m)·m` and `n+1` are `long`s; otherwise it overflows. -/
theorem C14_cbinomial (n k : Nat) (hk : k ≤ n) (hn : (n : Int) < H63) :
    cbinomial n k =
      if Spec.side n k = 0 ∨ ((n : Int) + 1 < H63 ∧
          ((Nat.choose n (Spec.side n k) * Spec.side n k : Nat) : Int) < H63)
      then .ok (Nat.choose n k) else .ub .signedOverflow := by
  unfold cbinomial
  rw [if_neg (by omega)]
  have e1 : lsub (n : Int) k = .ok ((n - k : Nat) : Int) := by
    have : (n : Int) - k = ((n - k : Nat) : Int) := by omega
    unfold lsub; rw [this]; exact long_ok (by comega)
  have e2 : (if (k : Int) > ((n - k : Nat) : Int) then ((n - k : Nat) : Int) else (k : Int)) =
      (Spec.side n k : Nat) := by
    unfold Spec.side; split <;> omega
  simp only [e1, Res.ok_bind, e2]
  have e3 : Nat.choose n (Spec.side n k) = Nat.choose n k := by
    unfold Spec.side
    rcases le_total k (n - k) with h | h
    · rw [min_eq_left h]
    · rw [min_eq_right h, Nat.choose_symm hk]
  have hl := cbinomial_loop (n := n) (m := Spec.side n k) (by unfold Spec.side; omega)
    (Spec.side n k) 0 (by omega)
  simp only [Nat.choose_zero_right, Nat.cast_one, zero_add] at hl
  rw [hl, e3]
  by_cases h : 0 = Spec.side n k ∨ ((n : Int) + 1 < H63 ∧
      ((Nat.choose n k * Spec.side n k : Nat) : Int) < H63)
  · rw [if_pos h, if_pos (by rwa [eq_comm (a := 0)] at h)]; rfl
  · rw [if_neg h, if_neg (by rwa [eq_comm (a := 0)] at h)]; rfl

/-- C14: for `k > n` the result is 0. -/
theorem C14_cbinomial_above (n k : Int) (h : k > n) : cbinomial n k = .ok 0 := if_pos h

/-- `C(50,20)` is computed and `C(66,33)`, which itself fits in `long`, overflows on the way. -/
example : Spec.side 50 20 = 20 ∧ ((50 : Nat) : Int) + 1 < H63 ∧
    ((Nat.choose 50 20 * 20 : Nat) : Int) < H63 := by decide +kernel
theorem C14_overflow_witness :
    cbinomial 66 33 = .ub .signedOverflow ∧ ((Nat.choose 66 33 : Nat) : Int) < H63 := by
  constructor
  · have h := C14_cbinomial 66 33 (by omega) (by omega)
    rw [if_neg (by decide +kernel)] at h
    exact h
  · decide +kernel

/-- C15 is violated: for every `n ≥ 0` and negative `k` the result is 1, not 0 (as long as `n - k` does
not overflow). -/
theorem C15_negative_k (n k : Int) (hn : 0 ≤ n) (hk : k < 0) (hd : InLong (n - k)) :
    cbinomial n k = .ok 1 := by
  unfold cbinomial
  rw [if_neg (by omega)]
  have e1 : lsub n k = .ok (n - k) := long_ok hd
  simp only [e1, Res.ok_bind]
  rw [if_neg (by omega), whileLoop_done (by simp; omega)]
  rfl

/-- C15 is violated. -/
theorem C15_violated : ¬ ∀ n k : Int, InLong n → InLong k → 0 ≤ n → k < 0 → cbinomial n k = .ok 0 := by
  intro h
  have h1 := h 3 (-1) (by decide) (by decide) (by decide) (by decide)
  rw [C15_negative_k 3 (-1) (by decide) (by decide) (by decide)] at h1
  cases h1

/-! ### get_gcd -/

theorem getGcd_zero (a : Int) : getGcd a 0 = .ok a := by rw [getGcd, if_pos rfl]

theorem getGcd_step {a b r : Int} (hb : b ≠ 0) (h : lmod a b = .ok r) :
    getGcd a b = getGcd b r := by
  rw [getGcd, if_neg hb, h, Res.ok_bind]

theorem tdiv_inLong {a b : Int} (ha : InLong a) (hb : b ≠ 0) (h : ¬ (a = -H63 ∧ b = -1)) :
    InLong (Int.tdiv a b) := by
  have h1 : (Int.tdiv a b).natAbs ≤ a.natAbs := by
    rw [Int.natAbs_tdiv]; exact Nat.div_le_self _ _
  by_cases hmin : a = -H63
  · by_cases h2 : b = 1
    · subst h2; simpa using ha
    · have h3 : 2 ≤ b.natAbs := by omega
      have h4 : (Int.tdiv a b).natAbs ≤ a.natAbs / 2 := by
        rw [Int.natAbs_tdiv]
        exact Nat.div_le_div_left h3 (by omega)
      comega
  · comega

theorem lmod_ok {a b : Int} (ha : InLong a) (hb : b ≠ 0) (h : ¬ (a = -H63 ∧ b = -1)) :
    lmod a b = .ok (Int.tmod a b) := by
  rw [lmod, if_neg hb, if_pos (tdiv_inLong ha hb h)]

theorem tmod_natAbs_lt (a b : Int) (hb : b ≠ 0) : (Int.tmod a b).natAbs < b.natAbs := by
  rw [Int.natAbs_tmod]
  exact Nat.mod_lt _ (by omega)

theorem tmod_gcd (a b : Int) : Int.gcd b (Int.tmod a b) = Int.gcd a b := by
  rw [Int.gcd_comm a b, Int.gcd, Int.gcd, Int.natAbs_tmod]
  rw [Nat.gcd_comm, ← Nat.gcd_rec]

/-- A call whose first argument is not LONG_MIN (nor the second one) returns the gcd up to sign. -/
theorem getGcd_main (a b : Int) (ha : InLong a) (hb : InLong b) (h : a ≠ -H63) (hb' : b ≠ -H63) :
    ∃ g, getGcd a b = .ok g ∧ InLong g ∧ g.natAbs = Int.gcd a b := by
  generalize hn : b.natAbs = n
  induction n using Nat.strongRecOn generalizing a b with
  | _ n ih =>
    by_cases h0 : b = 0
    · subst h0; exact ⟨a, getGcd_zero a, ha, by simp⟩
    · have hlt := tmod_natAbs_lt a b h0
      obtain ⟨g, h1, h2, h3⟩ := ih _ (hn ▸ hlt) b (Int.tmod a b) hb (by comega) hb' (by comega) rfl
      refine ⟨g, ?_, h2, ?_⟩
      · rw [getGcd_step h0 (lmod_ok ha h0 (by omega)), h1]
      · rw [h3, tmod_gcd]

/-- C16.  `get_gcd` terminates for all `long`s and its absolute value is the greatest common divisor; the
only undefined cases are the two orders of (LONG_MIN, -1). -/
theorem C16_gcd (a b : Int) (ha : InLong a) (hb : InLong b)
    (h : ¬ (a = -H63 ∧ b = -1)) (h' : ¬ (a = -1 ∧ b = -H63)) :
    ∃ g, getGcd a b = .ok g ∧ InLong g ∧ g.natAbs = Int.gcd a b := by
  by_cases h0 : b = 0
  · subst h0; exact ⟨a, getGcd_zero a, ha, by simp⟩
  have s1 := getGcd_step h0 (lmod_ok ha h0 h)
  have hlt := tmod_natAbs_lt a b h0
  have hr : InLong (Int.tmod a b) := by comega
  have hr' : Int.tmod a b ≠ -H63 := by comega
  by_cases hb' : b = -H63
  · -- one more step
    by_cases hr0 : Int.tmod a b = 0
    · refine ⟨b, ?_, hb, ?_⟩
      · rw [s1, hr0, getGcd_zero]
      · rw [← tmod_gcd, hr0]; simp
    · have hr1 : Int.tmod a b ≠ -1 := by
        intro e
        by_cases ha1 : a = -H63
        · rw [ha1, hb'] at e; exact absurd e (by decide)
        · have : Int.tmod a b = a := by
            apply Int.tmod_eq_of_lt_natAbs'
            comega
          exact h' ⟨by omega, hb'⟩
      have s2 := getGcd_step hr0 (lmod_ok hb hr0 (by omega))
      have hlt2 := tmod_natAbs_lt b _ hr0
      obtain ⟨g, h1, h2, h3⟩ := getGcd_main (Int.tmod a b) (Int.tmod b (Int.tmod a b)) hr (by comega) hr'
        (by comega)
      exact ⟨g, by rw [s1, s2, h1], h2, by rw [h3, tmod_gcd, tmod_gcd]⟩
  · obtain ⟨g, h1, h2, h3⟩ := getGcd_main b (Int.tmod a b) hb hr hb' hr'
    exact ⟨g, by rw [s1, h1], h2, by rw [h3, tmod_gcd]⟩
where
  Int.tmod_eq_of_lt_natAbs' {a b : Int} (h : a.natAbs < b.natAbs) : Int.tmod a b = a := by
    have h1 : Int.tdiv a b = 0 := by
      have : (Int.tdiv a b).natAbs = 0 := by rw [Int.natAbs_tdiv]; exact Nat.div_eq_of_lt h
      omega
    have := Int.tmod_add_mul_tdiv a b
    rw [h1] at this
    simpa using this

/-- C16: the two undefined cases. -/
theorem C16_gcd_undefined :
    getGcd (-H63) (-1) = .ub .signedOverflow ∧ getGcd (-1) (-H63) = .ub .signedOverflow := by
  have h1 : getGcd (-H63) (-1) = .ub .signedOverflow := by
    rw [getGcd, if_neg (by decide)]
    have : lmod (-H63) (-1) = .ub .signedOverflow := by decide
    rw [this]; rfl
  refine ⟨h1, ?_⟩
  have : lmod (-1) (-H63) = .ok (-1) := by decide
  rw [getGcd_step (by decide) this, h1]

example : InLong (-12) ∧ InLong 18 ∧ Int.gcd (-12) 18 = 6 := by decide

/-- C17 (partial: the property asks for all pairs).  For nonnegative arguments the result is the greatest
common divisor itself; for nonpositive ones it is its opposite. -/
theorem C17_gcd_sign_partial (a b : Int) (ha : InLong a) (hb : InLong b) :
    (0 ≤ a → 0 ≤ b → getGcd a b = .ok (Int.gcd a b)) ∧
    (a ≤ 0 → b ≤ 0 → ¬ (a = -H63 ∧ b = -1) → ¬ (a = -1 ∧ b = -H63) →
      getGcd a b = .ok (-(Int.gcd a b : Int))) := by
  have pos : ∀ (n : Nat) (a b : Int), InLong a → InLong b → b.natAbs = n → 0 ≤ a → 0 ≤ b →
      ∀ g, getGcd a b = .ok g → 0 ≤ g := by
    intro n
    induction n using Nat.strongRecOn with
    | _ n ih =>
      intro a b ha hb hn h0 h1 g hg
      by_cases hz : b = 0
      · subst hz; rw [getGcd_zero] at hg; cases hg; exact h0
      · have hlt := tmod_natAbs_lt a b hz
        rw [getGcd_step hz (lmod_ok ha hz (by omega))] at hg
        exact ih _ (hn ▸ hlt) b _ hb (by comega) rfl h1 (Int.tmod_nonneg b h0) g hg
  have neg : ∀ (n : Nat) (a b : Int), InLong a → InLong b → b.natAbs = n → a ≤ 0 → b ≤ 0 →
      ∀ g, getGcd a b = .ok g → g ≤ 0 := by
    intro n
    induction n using Nat.strongRecOn with
    | _ n ih =>
      intro a b ha hb hn h0 h1 g hg
      by_cases hz : b = 0
      · subst hz; rw [getGcd_zero] at hg; cases hg; exact h0
      · have hlt := tmod_natAbs_lt a b hz
        by_cases hbad : a = -H63 ∧ b = -1
        · obtain ⟨rfl, rfl⟩ := hbad
          rw [C16_gcd_undefined.1] at hg; cases hg
        · rw [getGcd_step hz (lmod_ok ha hz hbad)] at hg
          refine ih _ (hn ▸ hlt) b _ hb (by comega) rfl h1 ?_ g hg
          have := Int.tmod_nonneg b (by omega : 0 ≤ -a)
          rw [Int.neg_tmod] at this; omega
  constructor
  · intro h0 h1
    obtain ⟨g, e, _, h3⟩ := C16_gcd a b ha hb (by omega) (by omega)
    have := pos _ a b ha hb rfl h0 h1 g e
    rw [e, ← h3]; congr 1; omega
  · intro h0 h1 h2 h2'
    obtain ⟨g, e, _, h3⟩ := C16_gcd a b ha hb h2 h2'
    have := neg _ a b ha hb rfl h0 h1 g e
    rw [e, ← h3]; congr 1; omega

/-- C17 is violated: `get_gcd(-3, 6) = -3`. -/
theorem C17_violated : getGcd (-3) 6 = .ok (-3) ∧
    ¬ ∀ a b g : Int, InLong a → InLong b → (a ≠ 0 ∨ b ≠ 0) → getGcd a b = .ok g → 0 < g := by
  have h : getGcd (-3) 6 = .ok (-3) := by
    rw [getGcd_step (by decide) (show lmod (-3) 6 = .ok (-3) by decide),
      getGcd_step (by decide) (show lmod 6 (-3) = .ok 0 by decide), getGcd_zero]
  refine ⟨h, fun H => ?_⟩
  have := H (-3) 6 (-3) (by decide) (by decide) (by decide) h
  omega

/-! ### absdiff, signeddiff, sgn -/

/-- C18.  `absdiff` of unsigned values is the exact distance. -/
theorem C18_absdiff (a b : Nat) (ha : a < W64) (hb : b < W64) :
    ((absdiffU a b : Nat) : Int) = |(a : Int) - b| := by
  unfold absdiffU usub
  split
  · rw [abs_of_nonneg (by omega)]; omega
  · rw [abs_of_nonpos (by omega)]; omega

/-- C18.  `signeddiff` is the exact difference when its absolute value is below 2^63, undefined when
`b - a = 2^63`, and otherwise off by 2^64. -/
theorem C18_signeddiff (a b : Nat) (ha : a < W64) (hb : b < W64) :
    (|(a : Int) - b| < H63 → signeddiff a b = .ok ((a : Int) - b)) ∧
    ((b : Int) - a = H63 → signeddiff a b = .ub .signedOverflow) ∧
    ((a : Int) - b ≥ H63 → signeddiff a b = .ok ((a : Int) - b - Z64)) ∧
    ((b : Int) - a > H63 → signeddiff a b = .ok ((a : Int) - b + Z64)) := by
  have e : ∀ x : Int, InLong x → lneg (-x) = .ok x := fun x hx => by
    unfold lneg; rw [neg_neg]; exact long_ok hx
  have key : ∀ x y : Nat, x < W64 → y < x → usub x y = x - y := by
    intro x y hx hy; unfold usub; omega
  have key0 : ∀ x : Nat, x < W64 → usub x x = 0 := by
    intro x hx; unfold usub; omega
  unfold signeddiff
  refine ⟨fun h => ?_, fun h => ?_, fun h => ?_, fun h => ?_⟩
  · rw [abs_lt] at h
    split
    · rw [key a b ha (by omega)]
      unfold toLong; rw [if_pos (by omega)]; congr 1; omega
    · rcases Nat.lt_or_ge a b with hlt | hge
      · rw [key b a hb hlt]
        unfold toLong; rw [if_pos (by omega)]
        rw [← e ((a : Int) - b) (by comega)]; congr 1; omega
      · have : a = b := by omega
        subst this
        rw [key0 a ha]
        have h0 : lneg (toLong 0) = .ok 0 := by decide
        rw [h0]; congr 1; omega
  · rw [if_neg (by omega), key b a hb (by omega)]
    unfold toLong; rw [if_neg (by omega)]
    exact if_neg (by comega)
  · rw [if_pos (by omega), key a b ha (by omega)]
    unfold toLong; rw [if_neg (by omega)]; congr 1; omega
  · rw [if_neg (by omega), key b a hb (by omega)]
    unfold toLong; rw [if_neg (by omega)]
    rw [← e ((a : Int) - b + Z64) (by comega)]; congr 1; omega

/-- C18 at `long`: `absdiff` is exact or overflows. -/
theorem C18_absdiff_long (a b : Int) :
    absdiffL a b = if |a - b| < H63 then .ok |a - b| else .ub .signedOverflow := by
  unfold absdiffL lsub long
  split
  · rw [abs_of_pos (by omega)]
    by_cases h : a - b < H63
    · rw [if_pos (by comega), if_pos h]
    · rw [if_neg (by comega), if_neg h]
  · rw [abs_of_nonpos (by omega), neg_sub]
    by_cases h : b - a < H63
    · rw [if_pos (by comega), if_pos h]
    · rw [if_neg (by comega), if_neg h]

/-- C18 companion: `sgn` is the sign. -/
theorem C18_sgn (x : Int) : sgn x = x.sign := by
  unfold sgn
  rcases lt_trichotomy x 0 with h | h | h
  · rw [if_neg (by omega), if_pos h, Int.sign_eq_neg_one_of_neg h]; rfl
  · subst h; rfl
  · rw [if_pos h, if_neg (by omega), Int.sign_eq_one_of_pos h]; rfl

example : signeddiff 3 10 = .ok (-7) ∧ absdiffU 3 10 = 7 := by decide

/-! ### max, min -/

theorem foldl_max [LinearOrder α] (xs : List α) (x : α) :
    (xs.foldl (fun m y => if m < y then y else m) x ∈ x :: xs) ∧
    ∀ y ∈ x :: xs, y ≤ xs.foldl (fun m y => if m < y then y else m) x := by
  induction xs generalizing x with
  | nil => simp
  | cons a as ih =>
    rw [List.foldl_cons]
    obtain ⟨h1, h2⟩ := ih (if x < a then a else x)
    constructor
    · rw [List.mem_cons] at h1
      rcases h1 with h1 | h1
      · rw [h1]; split <;> simp
      · simp [h1]
    · intro y hy
      have h3 := h2 _ (List.mem_cons_self)
      simp only [List.mem_cons] at hy
      rcases hy with rfl | rfl | hy
      · refine le_trans ?_ h3; split
        · exact le_of_lt (by assumption)
        · exact le_refl _
      · refine le_trans ?_ h3; split
        · exact le_refl _
        · exact le_of_not_gt (by assumption)
      · exact h2 y (by simp [hy])

theorem foldl_min [LinearOrder α] (xs : List α) (x : α) :
    (xs.foldl (fun m y => if y < m then y else m) x ∈ x :: xs) ∧
    ∀ y ∈ x :: xs, xs.foldl (fun m y => if y < m then y else m) x ≤ y := by
  have := foldl_max (α := αᵒᵈ) xs x
  exact this

/-- C19.  `max` of a nonempty container is an element that no element exceeds; on an empty container it is
undefined. -/
theorem C19_max [LinearOrder α] (v : List α) :
    (v = [] → maxOf v = .ub .outOfBounds) ∧
    (v ≠ [] → ∃ m, maxOf v = .ok m ∧ m ∈ v ∧ ∀ x ∈ v, x ≤ m) := by
  cases v with
  | nil => exact ⟨fun _ => rfl, fun h => absurd rfl h⟩
  | cons x xs => exact ⟨fun h => by simp at h, fun _ => ⟨_, rfl, foldl_max xs x⟩⟩

/-- C19.  `min` of a nonempty container is an element that no element is below; on an empty container it
is undefined. -/
theorem C19_min [LinearOrder α] (v : List α) :
    (v = [] → minOf v = .ub .outOfBounds) ∧
    (v ≠ [] → ∃ m, minOf v = .ok m ∧ m ∈ v ∧ ∀ x ∈ v, m ≤ x) := by
  cases v with
  | nil => exact ⟨fun _ => rfl, fun h => absurd rfl h⟩
  | cons x xs => exact ⟨fun h => by simp at h, fun _ => ⟨_, rfl, foldl_min xs x⟩⟩

example : maxOf ([3, -1, 7, 2] : List Int) = .ok 7 ∧ minOf ([3, -1, 7, 2] : List Int) = .ok (-1) := by
  decide

/-! ### sum_into, subtract_into, invert -/

theorem transformInto_inv {f g : Int → Int → Res Int}
    (hfg : ∀ a b c, InLong a → f a b = .ok c → g c b = .ok a) {a b c : List Int}
    (ha : Longs a) (h : transformInto f a b = .ok c) : transformInto g c b = .ok a := by
  induction a generalizing b c with
  | nil => rw [transformInto] at h; cases h; rfl
  | cons x xs ih =>
    cases b with
    | nil => rw [transformInto] at h; cases h
    | cons y ys =>
      rw [transformInto] at h
      obtain ⟨z, h1, h⟩ := Res.bind_eq_ok.1 h
      obtain ⟨zs, h2, h⟩ := Res.bind_eq_ok.1 h
      cases h
      rw [transformInto, hfg x y z (ha x (by simp)) h1, Res.ok_bind,
        ih (fun t ht => ha t (by simp [ht])) h2, Res.ok_bind]

/-- C22.  `subtract_into` undoes `sum_into`. -/
theorem C22_subtract_sum (a b c : List Int) (ha : Longs a) (h : sumInto a b = .ok c) :
    subtractInto c b = .ok a := by
  apply transformInto_inv _ ha h
  intro x y z hx h
  obtain ⟨_, rfl⟩ := long_eq_ok.1 h
  unfold lsub
  rw [add_sub_cancel_right]; exact long_ok hx

/-- C22.  `sum_into` undoes `subtract_into`. -/
theorem C22_sum_subtract (a b c : List Int) (ha : Longs a) (h : subtractInto a b = .ok c) :
    sumInto c b = .ok a := by
  apply transformInto_inv _ ha h
  intro x y z hx h
  obtain ⟨_, rfl⟩ := long_eq_ok.1 h
  unfold ladd
  rw [sub_add_cancel]; exact long_ok hx

theorem transformInto_iff {op : Int → Int → Res Int} {f : Int → Int → Int}
    (hop : ∀ x y, op x y = long (f x y)) (a b c : List Int) :
    transformInto op a b = .ok c ↔ a.length ≤ b.length ∧ c = List.zipWith f a b ∧ Longs c := by
  induction a generalizing b c with
  | nil =>
    rw [transformInto]
    constructor
    · intro h; cases h; exact ⟨by simp, by simp, fun y hy => by cases hy⟩
    · rintro ⟨_, h, _⟩; rw [h]; simp
  | cons x xs ih =>
    cases b with
    | nil =>
      rw [transformInto]
      constructor
      · intro h; cases h
      · rintro ⟨h, _⟩; simp at h
    | cons y ys =>
      rw [transformInto, Res.bind_eq_ok]
      constructor
      · rintro ⟨z, h1, h⟩
        obtain ⟨zs, h2, h⟩ := Res.bind_eq_ok.1 h
        cases h
        rw [hop] at h1
        obtain ⟨h3, rfl⟩ := long_eq_ok.1 h1
        obtain ⟨h4, h5, h6⟩ := (ih ys zs).1 h2
        refine ⟨by simpa using h4, by rw [h5]; rfl, ?_⟩
        intro t ht
        rw [List.mem_cons] at ht
        rcases ht with rfl | ht
        · exact h3
        · exact h6 t ht
      · rintro ⟨h1, h2, h3⟩
        rw [List.zipWith_cons_cons] at h2
        subst h2
        refine ⟨_, by rw [hop]; exact long_ok (h3 _ (by simp)), ?_⟩
        rw [(ih ys _).2 ⟨by simpa using h1, rfl, fun t ht => h3 t (by simp [ht])⟩]
        rfl

/-- C22.  `sum_into` succeeds exactly when the right container is long enough and no sum overflows; the
result is the element-wise sum, of the size of the left container. -/
theorem C22_sum_into (a b c : List Int) :
    sumInto a b = .ok c ↔ a.length ≤ b.length ∧ c = List.zipWith (· + ·) a b ∧ Longs c :=
  transformInto_iff (fun _ _ => rfl) a b c

/-- C22, same for `subtract_into`. -/
theorem C22_subtract_into (a b c : List Int) :
    subtractInto a b = .ok c ↔ a.length ≤ b.length ∧ c = List.zipWith (· - ·) a b ∧ Longs c :=
  transformInto_iff (fun _ _ => rfl) a b c

theorem transformInto_ub {op : Int → Int → Res Int} {f : Int → Int → Int}
    (hop : ∀ x y, op x y = long (f x y)) (a b : List Int) :
    (transformInto op a b = .ub .outOfBounds ↔ b.length < a.length ∧ Longs (List.zipWith f a b)) ∧
    (transformInto op a b = .ub .signedOverflow ↔ ¬ Longs (List.zipWith f a b)) := by
  induction a generalizing b with
  | nil =>
    rw [transformInto]
    exact ⟨⟨fun h => (nomatch h), fun h => by simp at h⟩,
      ⟨fun h => (nomatch h), fun h => absurd (fun y hy => by simp at hy) h⟩⟩
  | cons x xs ih =>
    cases b with
    | nil =>
      rw [transformInto]
      exact ⟨⟨fun _ => ⟨by simp, fun y hy => by simp at hy⟩, fun _ => rfl⟩,
        ⟨fun h => (nomatch h), fun h => absurd (fun y hy => by simp at hy) h⟩⟩
    | cons y ys =>
      obtain ⟨ih1, ih2⟩ := ih ys
      rw [transformInto, hop, List.zipWith_cons_cons]
      by_cases hxy : InLong (f x y)
      · have hl : Longs (f x y :: List.zipWith f xs ys) ↔ Longs (List.zipWith f xs ys) := by
          constructor
          · intro h t ht; exact h t (by simp [ht])
          · intro h t ht
            rw [List.mem_cons] at ht
            rcases ht with rfl | ht
            · exact hxy
            · exact h t ht
        have hb : ∀ u, (transformInto op xs ys >>= fun zs => .ok (f x y :: zs)) = .ub u ↔
            transformInto op xs ys = .ub u := by
          intro u
          cases transformInto op xs ys with
          | ok zs => exact ⟨fun h => (nomatch h), fun h => (nomatch h)⟩
          | throws e => exact ⟨fun h => (nomatch h), fun h => (nomatch h)⟩
          | ub v => exact ⟨fun h => by cases h; rfl, fun h => by cases h; rfl⟩
          | diverges => exact ⟨fun h => (nomatch h), fun h => (nomatch h)⟩
        rw [long_ok hxy, Res.ok_bind, hl]
        refine ⟨(hb _).trans (ih1.trans (by simp)), (hb _).trans ih2⟩
      · have hn : ¬ Longs (f x y :: List.zipWith f xs ys) := fun h => hxy (h _ (by simp))
        have e : long (f x y) = .ub .signedOverflow := if_neg hxy
        rw [e]
        exact ⟨⟨fun h => (nomatch h), fun h => absurd h.2 hn⟩, ⟨fun _ => hn, fun _ => rfl⟩⟩

/-- C22.  If none of the sums overflows, `sum_into` reads out of bounds exactly when the right container is the
shorter one; an overflow comes first. -/
theorem C22_sum_ub (a b : List Int) :
    (sumInto a b = .ub .outOfBounds ↔ b.length < a.length ∧ Longs (List.zipWith (· + ·) a b)) ∧
    (sumInto a b = .ub .signedOverflow ↔ ¬ Longs (List.zipWith (· + ·) a b)) :=
  transformInto_ub (fun _ _ => rfl) a b

/-- C22, same for `subtract_into`. -/
theorem C22_subtract_ub (a b : List Int) :
    (subtractInto a b = .ub .outOfBounds ↔ b.length < a.length ∧ Longs (List.zipWith (· - ·) a b)) ∧
    (subtractInto a b = .ub .signedOverflow ↔ ¬ Longs (List.zipWith (· - ·) a b)) :=
  transformInto_ub (fun _ _ => rfl) a b

example : sumInto [1, 2, 3] [4, 5] = .ub .outOfBounds ∧ sumInto [2 ^ 63 - 1, 2] [4] = .ub .signedOverflow := by decide

/-- C22.  Inverting twice gives the container back; `invert` fails only on LONG_MIN. -/
theorem C22_invert (a : List Int) (ha : Longs a) :
    (-H63 ∉ a → ∃ b, invert a = .ok b ∧ b = a.map (- ·) ∧ invert b = .ok a) ∧
    (-H63 ∈ a → invert a = .ub .signedOverflow) := by
  induction a with
  | nil => exact ⟨fun _ => ⟨[], rfl, rfl, rfl⟩, fun h => by simp at h⟩
  | cons x xs ih =>
    obtain ⟨ih1, ih2⟩ := ih (fun t ht => ha t (by simp [ht]))
    have hx := ha x (by simp)
    constructor
    · intro h
      simp only [List.mem_cons, not_or] at h
      obtain ⟨b, h1, h2, h3⟩ := ih1 h.2
      have e1 : lneg x = .ok (-x) := long_ok (by comega)
      have e2 : lneg (-x) = .ok x := by unfold lneg; rw [neg_neg]; exact long_ok hx
      refine ⟨-x :: b, ?_, by rw [h2]; rfl, ?_⟩
      · rw [invert, e1, Res.ok_bind, h1]; rfl
      · rw [invert, e2, Res.ok_bind, h3]; rfl
    · intro h
      rw [invert]
      by_cases hxm : x = -H63
      · have e1 : lneg x = .ub .signedOverflow := if_neg (by comega)
        rw [e1]; rfl
      · have e1 : lneg x = .ok (-x) := long_ok (by comega)
        rw [List.mem_cons] at h
        rcases h with h | h
        · exact absurd h.symm hxm
        · rw [e1, Res.ok_bind, ih2 h]; rfl

example : sumInto [1, -2, 3] [10, 20, 30, 40] = .ok [11, 18, 33] ∧
    subtractInto [11, 18, 33] [10, 20, 30, 40] = .ok [1, -2, 3] ∧
    sumInto [1, 2] [1] = .ub .outOfBounds := by decide

/-! ### accumulate_sum, accumulate_product -/

/-- C25.  `accumulate_sum` is the sum modulo 2^64. -/
theorem C25_sum (v : List Nat) : accumulateSum v = v.sum % 2 ^ 64 := accumulateSum_eq v
/-- C25.  `accumulate_product` is the product modulo 2^64. -/
theorem C25_product (v : List Nat) : accumulateProduct v = v.prod % 2 ^ 64 := accumulateProduct_eq v
/-- C25.  Neither depends on the order of the elements. -/
theorem C25_perm (v w : List Nat) (h : v.Perm w) :
    accumulateSum v = accumulateSum w ∧ accumulateProduct v = accumulateProduct w := by
  rw [C25_sum, C25_sum, C25_product, C25_product, h.sum_nat, h.prod_nat]
  exact ⟨rfl, rfl⟩

example : accumulateSum [2 ^ 63, 2 ^ 63, 5] = 5 ∧ accumulateProduct [2 ^ 32, 2 ^ 32] = 0 := by decide

end Bwsl
