import Verif.Model.LogSpaceTypes
import Verif.Props.LogSpace
import Verif.Props.MathTypes

/-! Property C141: logarithmically spaced numbers of every integer type, over the real numbers. -/

namespace Bwsl
open Spec CInt

set_option linter.unusedSectionVars false

/-- The whole part of the n-th root of b/a. -/
def Spec.IsRoot (a b : Int) (n : Nat) (g : Int) : Prop := 0 ≤ g ∧ a * g ^ n ≤ b ∧ b < a * (g + 1) ^ n

/-- The state after `k` increments. -/
def Spec.logT (t : CInt) : Nat → LogSpaceT → Res LogSpaceT
  | 0, s => .ok s
  | k + 1, s => do
    let s ← logT t k s
    s.incr t

theorem root_unique {a b : Int} (ha : 0 < a) {n : Nat} {g h : Int} (hg : IsRoot a b n g) (hh : IsRoot a b n h) : g = h := by
  have key : ∀ g h : Int, IsRoot a b n g → IsRoot a b n h → ¬ g < h := by
    intro g h hg hh hlt
    have h1 : (g + 1) ^ n ≤ h ^ n := pow_le_pow_left₀ (by have := hg.1; omega) (by omega) n
    have := mul_le_mul_of_nonneg_left h1 ha.le
    have h2 := hg.2.2
    have h3 := hh.2.1
    omega
  have h1 := key g h hg hh
  have h2 := key h g hh hg
  omega

theorem root_one_le {a b : Int} (hab : a < b) {n : Nat} {g : Int} (hg : IsRoot a b n g) : 1 ≤ g := by
  by_contra h
  have h0 : g = 0 := by have := hg.1; omega
  have := hg.2.2
  rw [h0] at this
  simp at this
  omega

theorem root_pow_le {a b : Int} (ha : 0 < a) (hab : a < b) {n : Nat} {g : Int} (hg : IsRoot a b n g) {j k : Nat} (hjk : j ≤ k) (hk : k ≤ n) :
    a ≤ a * g ^ j ∧ a * g ^ j ≤ a * g ^ k ∧ a * g ^ k ≤ b := by
  have h1 := root_one_le hab hg
  refine ⟨le_mul_of_one_le_right ha.le (one_le_pow₀ h1), mul_le_mul_of_nonneg_left (pow_le_pow_right₀ h1 hjk) ha.le, ?_⟩
  exact (mul_le_mul_of_nonneg_left (pow_le_pow_right₀ h1 hk) ha.le).trans hg.2.1

section
variable {A : Arith ℝ} {t : CInt} {a b : Int} {n : Nat}

theorem ofFloat_eq {x : ℝ} (hx : 0 ≤ x) :
    t.ofFloat (.fin x : Num A) = if t.Has ⌊x⌋ then .ok ⌊x⌋ else .ub .floatToInt := by
  have : CxxTrunc.trunc (.fin x : Num A) = some ⌊x⌋ := by
    show some (if 0 ≤ x then _ else _) = _
    rw [if_pos hx]
  unfold CInt.ofFloat
  rw [this]

theorem ofFloat_fin {x : ℝ} (hx : 0 ≤ x) (h : t.Has ⌊x⌋) : t.ofFloat (.fin x : Num A) = .ok ⌊x⌋ := by
  rw [ofFloat_eq hx, if_pos h]

theorem ratio_floor (ha : 0 < a) (hab : a < b) (hn : n ≠ 0) : IsRoot a b n ⌊ratio (a : ℝ) b n⌋ ∧ 1 ≤ ratio (a : ℝ) b n := by
  have ha' : (0 : ℝ) < a := by exact_mod_cast ha
  have hab' : (a : ℝ) < b := by exact_mod_cast hab
  have hp := ratio_pow ha' (ha'.trans hab') n n
  rw [div_self (by exact_mod_cast hn), Real.rpow_one] at hp
  have h0 : 1 ≤ ratio (a : ℝ) b n := Real.one_le_rpow ((one_le_div ha').2 hab'.le) (by positivity)
  set r := ratio (a : ℝ) b n
  have hg0 : 0 ≤ ⌊r⌋ := Int.floor_nonneg.2 (by linarith)
  refine ⟨⟨hg0, ?_, ?_⟩, h0⟩
  · have h1 : ((⌊r⌋ : Int) : ℝ) ^ n ≤ r ^ n := pow_le_pow_left₀ (by exact_mod_cast hg0) (Int.floor_le r) n
    rw [hp, le_div_iff₀ ha'] at h1
    have : ((⌊r⌋ ^ n * a : Int) : ℝ) ≤ (b : ℝ) := by push_cast; exact h1
    have := (Int.cast_le (R := ℝ)).1 this
    rw [mul_comm]; exact this
  · have h1 : r ^ n < ((⌊r⌋ : Int) + 1 : ℝ) ^ n := pow_lt_pow_left₀ (Int.lt_floor_add_one r) (by linarith) hn
    rw [hp, div_lt_iff₀ ha'] at h1
    have : ((b : Int) : ℝ) < (((⌊r⌋ + 1) ^ n * a : Int) : ℝ) := by push_cast; exact h1
    have := (Int.cast_lt (R := ℝ)).1 this
    rw [mul_comm]; exact this

theorem factorT_eq (hA : A.IsReal) (ha : 0 < a) (hab : a < b) (hb : t.Has b) (hn : n ≠ 0) :
    ∃ g, IsRoot a b n g ∧ LogSpaceT.factor (Num A) t a b n = .ok g := by
  have ha' : (0 : ℝ) < a := by exact_mod_cast ha
  have hab' : (a : ℝ) < b := by exact_mod_cast hab
  obtain ⟨hr, h1⟩ := ratio_floor ha hab hn
  refine ⟨_, hr, ?_⟩
  unfold LogSpaceT.factor
  rw [Num.ofInt_eq, Num.ofInt_eq, Num.round_exact hA.exact, Num.round_exact hA.exact, factor_eq hA ha' (ha'.trans hab') n hn,
    ofFloat_fin (by linarith)]
  have h2 := root_pow_le ha hab hr (j := 0) (k := 1) (by omega) (by omega)
  have h3 : ⌊ratio (a : ℝ) b n⌋ ≤ a * ⌊ratio (a : ℝ) b n⌋ ^ 1 := by
    rw [pow_one]
    exact le_mul_of_one_le_left hr.1 (by omega)
  exact ⟨by have := t.lo_nonpos; have := hr.1; omega, by have := hb.2; omega⟩

theorem newLogT_eq (hA : A.IsReal) (ha : 0 < a) (hab : a < b) (hb : t.Has b) (hn : n ≠ 0) :
    ∃ g, IsRoot a b n g ∧ LogSpaceT.new (Num A) t a b n = .ok ⟨g, a, a, b, n, 0⟩ := by
  obtain ⟨g, h1, h2⟩ := factorT_eq hA ha hab hb hn
  refine ⟨g, h1, ?_⟩
  unfold LogSpaceT.new
  rw [if_pos hab, h2, Res.ok_bind]

theorem logT_step (ht : Standard t) (ha : 0 < a) (hab : a < b) (hb : t.Has b) {g : Int} (hg : IsRoot a b n g) (hn64 : n < 2 ^ 64)
    {k : Nat} (hk : k + 1 ≤ n) : LogSpaceT.incr t ⟨g, a * g ^ k, a, b, n, k⟩ = .ok ⟨g, a * g ^ (k + 1), a, b, n, k + 1⟩ := by
  have h1 := root_pow_le ha hab hg (j := k) (k := k + 1) (by omega) hk
  have h2 : t.Has (a * g ^ (k + 1)) := ⟨by have := t.lo_nonpos; omega, by have := hb.2; omega⟩
  unfold LogSpaceT.incr CInt.mul
  have e : a * g ^ k * g = a * g ^ (k + 1) := by ring
  have e2 : (k + 1) % W64 = k + 1 := Nat.mod_eq_of_lt (by omega)
  simp only [e, e2]
  rw [arith_ok ht (has_promote ht h2), Res.ok_bind, wrap_of_has ht h2]

theorem logT_all (ht : Standard t) (ha : 0 < a) (hab : a < b) (hb : t.Has b) {g : Int} (hg : IsRoot a b n g) (hn64 : n < 2 ^ 64)
    {k : Nat} (hk : k ≤ n) : logT t k ⟨g, a, a, b, n, 0⟩ = .ok ⟨g, a * g ^ k, a, b, n, k⟩ := by
  induction k with
  | zero => simp [logT]
  | succ k ih => rw [logT, ih (by omega), Res.ok_bind, logT_step ht ha hab hb hg hn64 hk]

theorem generateT (ht : Standard t) (ha : 0 < a) (hab : a < b) (hb : t.Has b) {g : Int} (hg : IsRoot a b n g) (hn64 : n < 2 ^ 64)
    (m k : Nat) (hk : k + m ≤ n) :
    LogSpaceT.generateN t ⟨g, a * g ^ k, a, b, n, k⟩ m = .ok ((List.range' k m).map (fun i => a * g ^ i)) := by
  induction m generalizing k with
  | zero => rfl
  | succ m ih =>
    rw [LogSpaceT.generateN]
    unfold LogSpaceT.call
    rw [logT_step ht ha hab hb hg hn64 (by omega), Res.ok_bind, Res.ok_bind, ih (k + 1) (by omega), Res.ok_bind, List.range'_succ]
    rfl

theorem generateT_last (ht : Standard t) (ha : 0 < a) (hab : a < b) (hb : t.Has b) {g : Int} (hg : IsRoot a b n g) (hn64 : n < 2 ^ 64)
    (m k : Nat) (hk : k + m = n) :
    LogSpaceT.generateN t ⟨g, a * g ^ k, a, b, n, k⟩ (m + 1) =
      if Overflows t (a * g ^ (n + 1)) then .ub .signedOverflow else .ok ((List.range' k (m + 1)).map (fun i => a * g ^ i)) := by
  induction m generalizing k with
  | zero =>
    have hk' : k = n := by omega
    subst hk'
    rw [LogSpaceT.generateN]
    unfold LogSpaceT.call LogSpaceT.incr CInt.mul
    have e : a * g ^ k * g = a * g ^ (k + 1) := by ring
    simp only [e]
    rw [arith_promote ht]
    split
    · rfl
    · rfl
  | succ m ih =>
    rw [LogSpaceT.generateN]
    unfold LogSpaceT.call
    rw [logT_step ht ha hab hb hg hn64 (by omega), Res.ok_bind, Res.ok_bind, ih (k + 1) (by omega)]
    split
    · rfl
    · rw [Res.ok_bind, List.range'_succ (s := k) (n := m + 1)]
      rfl

theorem visitT (ht : Standard t) (ha : 0 < a) (hab : a < b) (hb : t.Has b) {g : Int} (hg : IsRoot a b n g) (hn64 : n < 2 ^ 64)
    (e : LogSpaceT) (he : e.step = n) (m k : Nat) (hk : k + m = n) (acc : List Int) :
    whileLoop (fun st : LogSpaceT × List Int => LogSpaceT.ne st.1 e)
      (fun st => do
        let s' ← st.1.incr t
        .ok (s', st.2 ++ [st.1.deref])) ((⟨g, a * g ^ k, a, b, n, k⟩ : LogSpaceT), acc) =
      .ok ((⟨g, a * g ^ n, a, b, n, n⟩ : LogSpaceT), acc ++ (List.range' k m).map (fun i => a * g ^ i)) := by
  induction m generalizing k acc with
  | zero =>
    have hk' : k = n := by omega
    subst hk'
    rw [whileLoop_done]
    · simp
    · simp [LogSpaceT.ne, LogSpaceT.eq, he]
  | succ m ih =>
    refine Eq.trans (whileLoop_step (s' := ((⟨g, a * g ^ (k + 1), a, b, n, k + 1⟩ : LogSpaceT), acc ++ [a * g ^ k])) ?_ ?_) ?_
    · simp only [LogSpaceT.ne, LogSpaceT.eq, he]
      simp [show k ≠ n by omega]
    · rw [logT_step ht ha hab hb hg hn64 (by omega), Res.ok_bind]
      rfl
    · rw [ih (k + 1) (by omega), List.range'_succ]
      simp

end

variable {A : Arith ℝ}

theorem ofFloat_pow_e (t : CInt) {y : Num A} (hy : y = .nan ∨ y = .inf false) :
    t.ofFloat (CxxFloat.pow (.fin (Real.exp 1) : Num A) y) = .ub .floatToInt := by
  have h1 : Real.exp 1 ≠ 1 := by
    have := Real.add_one_lt_exp (x := 1) (by norm_num)
    linarith
  have h2 : ¬ |Real.exp 1| < 1 := by
    rw [abs_of_pos (Real.exp_pos 1)]
    have := Real.add_one_lt_exp (x := 1) (by norm_num)
    linarith
  have h3 : Real.exp 1 ≠ -1 := by have := Real.exp_pos 1; intro h; linarith
  rcases hy with rfl | rfl
  · show t.ofFloat (Num.pow _ _) = _
    unfold Num.pow
    rw [if_neg (by simp [h1])]
    rfl
  · show t.ofFloat (Num.pow _ _) = _
    unfold Num.pow
    rw [if_neg (by simp [h1])]
    show t.ofFloat (if Real.exp 1 = -1 then _ else if decide (|Real.exp 1| < 1) = false then Num.inf false else Num.fin 0) = _
    rw [if_neg h3, if_pos (decide_eq_false h2)]
    rfl

theorem log_zero : CxxFloat.log (.fin 0 : Num A) = .inf true := by
  show (if (Num.fin (0 : ℝ) : Num A) = .fin 0 then _ else _) = _
  rw [if_pos rfl]

theorem log_neg {x : ℝ} (hx : x < 0) : CxxFloat.log (.fin x : Num A) = .nan := by
  show (if (Num.fin x : Num A) = .fin 0 then _ else if decide (0 < x) = true then _ else Num.nan) = _
  rw [if_neg (by simp [hx.ne]), if_neg (by simp [hx.le])]

theorem sub_nan (x : Num A) : x - .nan = .nan := by
  show Num.add x (Num.neg .nan) = _
  cases x <;> rfl

/-- The exponent is infinite or not a number if `first` is not positive or there are no steps. -/
theorem exponent_bad (hA : A.IsReal) {a b : Int} (h1 : a < b) {n : Nat} (h2 : a ≤ 0 ∨ n = 0) :
    (CxxFloat.log (.fin (b : ℝ) : Num A) - CxxFloat.log (.fin (a : ℝ))) / (.fin (n : ℝ)) = .nan ∨
    (CxxFloat.log (.fin (b : ℝ) : Num A) - CxxFloat.log (.fin (a : ℝ))) / (.fin (n : ℝ)) = .inf false := by
  have hn : ¬ ((n : ℝ) < 0) := by have : (0 : ℝ) ≤ n := Nat.cast_nonneg n; linarith
  rcases lt_trichotomy a 0 with ha | ha | ha
  · left
    rw [log_neg (x := (a : ℝ)) (by exact_mod_cast ha), sub_nan]
    rfl
  · right
    subst ha
    rw [real_log hA (x := (b : ℝ)) (by exact_mod_cast h1), Int.cast_zero, log_zero]
    show Num.inf (false != decide ((n : ℝ) < 0)) = _
    rw [decide_eq_false hn]
    rfl
  · right
    have hn0 : n = 0 := by omega
    subst hn0
    have ha' : (0 : ℝ) < a := by exact_mod_cast ha
    have hab' : (a : ℝ) < b := by exact_mod_cast h1
    have hlog := Real.log_lt_log ha' hab'
    rw [real_log hA ha', real_log hA (ha'.trans hab'), Num.fin_sub, Num.round_exact hA.exact]
    show (if ((0 : Nat) : ℝ) = 0 then (if Real.log b - Real.log a = 0 then Num.nan else Num.inf (decide (Real.log b - Real.log a < 0))) else _) = _
    rw [if_pos Nat.cast_zero, if_neg (by linarith [hlog]), decide_eq_false (by linarith)]

theorem factorT_bad (hA : A.IsReal) (t : CInt) {a b : Int} (h1 : a < b) {n : Nat} (h2 : a ≤ 0 ∨ n = 0) :
    LogSpaceT.factor (Num A) t a b n = .ub .floatToInt := by
  unfold LogSpaceT.factor LogSpace.factor
  rw [Num.ofInt_eq, Num.ofInt_eq, Num.round_exact hA.exact, Num.round_exact hA.exact, real_e hA, Num.ofNat_eq,
    Num.round_exact hA.exact, ofFloat_pow_e t (exponent_bad hA h1 h2)]

/-- C141.  The constructor needs first < last, a positive `first` and at least one step; without the first it violates an
assertion, without one of the others it converts an infinity or a NaN to an integer. -/
theorem C141_defined (hA : A.IsReal) (t : CInt) (a b : Int) (hb : t.Has b) (n : Nat) :
    (b ≤ a → LogSpaceT.new (Num A) t a b n = .ub .assertion) ∧
    (a < b → (a ≤ 0 ∨ n = 0) → LogSpaceT.new (Num A) t a b n = .ub .floatToInt) ∧
    (a < b → 0 < a → n ≠ 0 → ∃ s, LogSpaceT.new (Num A) t a b n = .ok s ∧ s.deref = a) := by
  refine ⟨fun h => ?_, fun h1 h2 => ?_, fun h1 h2 h3 => ?_⟩
  · unfold LogSpaceT.new
    rw [if_neg (by omega)]
  · unfold LogSpaceT.new
    rw [if_pos h1, factorT_bad hA t h1 h2]
    rfl
  · obtain ⟨g, _, h⟩ := newLogT_eq hA h2 h1 hb h3
    exact ⟨_, h, rfl⟩

theorem newLogT_ok (hA : A.IsReal) {t : CInt} {a b : Int} (hb : t.Has b) {n : Nat} {s : LogSpaceT}
    (hs : LogSpaceT.new (Num A) t a b n = .ok s) :
    0 < a ∧ a < b ∧ n ≠ 0 ∧ ∃ g, IsRoot a b n g ∧ s = ⟨g, a, a, b, n, 0⟩ := by
  obtain ⟨d1, d2, d3⟩ := C141_defined hA t a b hb n
  have hab : a < b := by
    by_contra h
    rw [d1 (by omega)] at hs; cases hs
  have h2 : ¬ (a ≤ 0 ∨ n = 0) := by
    intro h
    rw [d2 hab h] at hs; cases hs
  have ha : 0 < a := by omega
  have hn : n ≠ 0 := by omega
  obtain ⟨g, h3, h4⟩ := newLogT_eq hA ha hab hb hn
  exact ⟨ha, hab, hn, g, h3, (Res.ok.inj (h4.symm.trans hs)).symm⟩

/-- C141.  The value after `k` of `n` increments is first · g^k, where g is the largest whole number with first · g^n ≤ last.
These values do not decrease and stay within the interval, so that nothing overflows. -/
theorem C141_kth (hA : A.IsReal) (t : CInt) (ht : Standard t) (a b : Int) (hb : t.Has b) (n : Nat) (hn64 : n < 2 ^ 64)
    (s : LogSpaceT) (hs : LogSpaceT.new (Num A) t a b n = .ok s) :
    ∃ g, IsRoot a b n g ∧ (∀ h, IsRoot a b n h → h = g) ∧ ∀ k ≤ n,
      ∃ s', logT t k s = .ok s' ∧ s'.deref = a * g ^ k ∧ a ≤ s'.deref ∧ s'.deref ≤ b ∧ s'.begin = s ∧ s'.end.deref = b := by
  obtain ⟨h1, h2, h3, g, hg, rfl⟩ := newLogT_ok hA hb hs
  refine ⟨g, hg, fun h hh => root_unique h1 hh hg, fun k hk => ?_⟩
  obtain ⟨r1, _, r3⟩ := root_pow_le h1 h2 hg (le_refl k) hk
  exact ⟨_, logT_all ht h1 h2 hb hg hn64 hk, rfl, r1, r3, rfl, rfl⟩

/-- C141.  Each of the three ways to increment gives the next state; `s++` returns the old state and `s()` its value. -/
theorem C141_increments (hA : A.IsReal) (t : CInt) (ht : Standard t) (a b : Int) (hb : t.Has b) (n : Nat) (hn64 : n < 2 ^ 64)
    (s : LogSpaceT) (hs : LogSpaceT.new (Num A) t a b n = .ok s) (k : Nat) (hk : k < n) :
    ∃ s1 s2, logT t k s = .ok s1 ∧ logT t (k + 1) s = .ok s2 ∧
      s1.incr t = .ok s2 ∧ s1.postIncr t = .ok (s1, s2) ∧ s1.call t = .ok (s1.deref, s2) := by
  obtain ⟨h1, h2, h3, g, hg, rfl⟩ := newLogT_ok hA hb hs
  have e := logT_step ht h1 h2 hb hg hn64 hk
  refine ⟨_, _, logT_all ht h1 h2 hb hg hn64 hk.le, logT_all ht h1 h2 hb hg hn64 hk, e, ?_, ?_⟩
  · unfold LogSpaceT.postIncr
    rw [e, Res.ok_bind]
  · unfold LogSpaceT.call
    rw [e, Res.ok_bind]
    rfl

/-- C141.  The last value is `last` exactly if last/first is the n-th power of a whole number. -/
theorem C141_last (hA : A.IsReal) (t : CInt) (ht : Standard t) (a b : Int) (hb : t.Has b) (n : Nat) (hn64 : n < 2 ^ 64)
    (s : LogSpaceT) (hs : LogSpaceT.new (Num A) t a b n = .ok s) (s' : LogSpaceT) (hs' : logT t n s = .ok s') :
    s'.deref = b ↔ ∃ r : Int, 0 ≤ r ∧ b = a * r ^ n := by
  obtain ⟨h1, h2, h3, g, hg, rfl⟩ := newLogT_ok hA hb hs
  rw [logT_all ht h1 h2 hb hg hn64 le_rfl] at hs'
  obtain rfl := Res.ok.inj hs'
  constructor
  · intro h
    exact ⟨g, hg.1, h.symm⟩
  · rintro ⟨r, hr, e⟩
    have : IsRoot a b n r := ⟨hr, e.ge, by
      rw [e]
      exact mul_lt_mul_of_pos_left (pow_lt_pow_left₀ (by omega) hr h3) h1⟩
    rw [root_unique h1 this hg] at e
    exact e.symm

/-- C141.  If last < first · 2^n the values do not change at all; otherwise they at least double. -/
theorem C141_constant (hA : A.IsReal) (t : CInt) (ht : Standard t) (a b : Int) (hb : t.Has b) (n : Nat) (hn64 : n < 2 ^ 64)
    (s : LogSpaceT) (hs : LogSpaceT.new (Num A) t a b n = .ok s) (k : Nat) (hk : k < n) (s1 s2 : LogSpaceT)
    (h1 : logT t k s = .ok s1) (h2 : logT t (k + 1) s = .ok s2) :
    (b < a * 2 ^ n → s2.deref = s1.deref ∧ s1.deref = a) ∧ (a * 2 ^ n ≤ b → 2 * s1.deref ≤ s2.deref) := by
  obtain ⟨ha, hab, hn, g, hg, rfl⟩ := newLogT_ok hA hb hs
  rw [logT_all ht ha hab hb hg hn64 hk.le] at h1
  rw [logT_all ht ha hab hb hg hn64 hk] at h2
  obtain rfl := Res.ok.inj h1
  obtain rfl := Res.ok.inj h2
  refine ⟨fun h => ?_, fun h => ?_⟩
  · have h1 : IsRoot a b n 1 := ⟨by omega, by rw [one_pow]; omega, h⟩
    rw [root_unique ha hg h1]
    simp [LogSpaceT.deref]
  · have hg2 : 2 ≤ g := by
      by_contra hlt
      have := pow_le_pow_left₀ (by have := hg.1; omega) (by omega : g + 1 ≤ 2) n
      have := mul_le_mul_of_nonneg_left this ha.le
      have := hg.2.2
      omega
    show 2 * (a * g ^ k) ≤ a * g ^ (k + 1)
    have h3 := (root_pow_le ha hab hg (le_refl k) hk.le).1
    calc 2 * (a * g ^ k) ≤ g * (a * g ^ k) := mul_le_mul_of_nonneg_right hg2 (by omega)
      _ = _ := by ring

/-- C141.  `Collect(m)` returns first, first · g, …, first · g^(m-1), for up to as many values as steps; it always computes one
more value than it returns, so that the one call that would include the last value overflows if first · g^(n+1) does.  -/
theorem C141_collect (hA : A.IsReal) (t : CInt) (ht : Standard t) (a b : Int) (hb : t.Has b) (n : Nat) (hn64 : n < 2 ^ 64)
    (s : LogSpaceT) (hs : LogSpaceT.new (Num A) t a b n = .ok s) (g : Int) (hg : IsRoot a b n g) :
    (∀ m ≤ n, s.collect t m = .ok ((List.range m).map (fun i => a * g ^ i))) ∧
    (Overflows t (a * g ^ (n + 1)) → s.collect t (n + 1) = .ub .signedOverflow) ∧
    (¬ Overflows t (a * g ^ (n + 1)) → s.collect t (n + 1) = .ok ((List.range (n + 1)).map (fun i => a * g ^ i))) := by
  obtain ⟨h1, h2, h3, g', hg', rfl⟩ := newLogT_ok hA hb hs
  obtain rfl := root_unique h1 hg hg'
  have e : (⟨g, a, a, b, n, 0⟩ : LogSpaceT) = ⟨g, a * g ^ 0, a, b, n, 0⟩ := by rw [pow_zero, mul_one]
  unfold LogSpaceT.collect
  rw [e]
  refine ⟨fun m hm => ?_, fun h => ?_, fun h => ?_⟩
  · rw [generateT ht h1 h2 hb hg hn64 m 0 (by omega), List.range_eq_range']
  · rw [generateT_last ht h1 h2 hb hg hn64 n 0 (by omega), if_pos h]
  · rw [generateT_last ht h1 h2 hb hg hn64 n 0 (by omega), if_neg h, List.range_eq_range']

/-- C141.  A loop from `begin()` to `end()` sees exactly the first `n` values and overflows nothing, from any state of the space. -/
theorem C141_visit (hA : A.IsReal) (t : CInt) (ht : Standard t) (a b : Int) (hb : t.Has b) (n : Nat) (hn64 : n < 2 ^ 64)
    (s : LogSpaceT) (hs : LogSpaceT.new (Num A) t a b n = .ok s) (g : Int) (hg : IsRoot a b n g) (j : Nat) (hj : j ≤ n)
    (s' : LogSpaceT) (hs' : logT t j s = .ok s') :
    s'.visit t = .ok ((List.range n).map (fun i => a * g ^ i)) := by
  obtain ⟨h1, h2, h3, g', hg', rfl⟩ := newLogT_ok hA hb hs
  obtain rfl := root_unique h1 hg hg'
  rw [logT_all ht h1 h2 hb hg hn64 hj] at hs'
  obtain rfl := Res.ok.inj hs'
  unfold LogSpaceT.visit
  have e : (⟨g, a * g ^ j, a, b, n, j⟩ : LogSpaceT).begin = ⟨g, a * g ^ 0, a, b, n, 0⟩ := by
    rw [pow_zero, mul_one]; rfl
  rw [e, visitT ht h1 h2 hb hg hn64 _ rfl n 0 (by omega) [], Res.ok_bind, List.nil_append, List.range_eq_range']

/-- C141.  The constructor from exponents, for a whole base of at least two: with a negative first exponent it is undefined, since `first` is
zero; otherwise it gives the space between the two powers. -/
theorem C141_powers (hA : A.IsReal) (t : CInt) (ht : Standard t) (base : Int) (hbase : 2 ≤ base) (start stop : Int) (n : Nat) :
    (stop ≤ start → LogSpaceT.newPow t start stop n (.fin (base : ℝ) : Num A) = .ub .assertion) ∧
    (start < stop → start < 0 → LogSpaceT.newPow t start stop n (.fin (base : ℝ) : Num A) = .ub .floatToInt) ∧
    (start < stop → 0 ≤ start → t.Has (base ^ stop.toNat) →
      LogSpaceT.newPow t start stop n (.fin (base : ℝ) : Num A) =
        LogSpaceT.new (Num A) t (base ^ start.toNat) (base ^ stop.toNat) n) ∧
    (start < stop → 0 ≤ start → ¬ t.Has (base ^ stop.toNat) →
      LogSpaceT.newPow t start stop n (.fin (base : ℝ) : Num A) = .ub .floatToInt) := by
  have hb : (2 : ℝ) ≤ base := by exact_mod_cast hbase
  have hb0 : (base : ℝ) ≠ 0 := by linarith
  have e : ∀ m : Int, CxxFloat.pow (.fin (base : ℝ) : Num A) (CxxFloat.ofInt m) = .fin ((base : ℝ) ^ m) := by
    intro m
    rw [Num.ofInt_eq, Num.round_exact hA.exact, real_pow hA hb0, Real.rpow_intCast]
  have pos : ∀ m : Int, 0 < (base : ℝ) ^ m := fun m => zpow_pos (by linarith) m
  have fl : ∀ m : Int, 0 ≤ m → ⌊(base : ℝ) ^ m⌋ = base ^ m.toNat := by
    intro m hm
    obtain ⟨k, rfl⟩ := Int.eq_ofNat_of_zero_le hm
    rw [zpow_natCast, Int.toNat_natCast, ← Int.cast_pow, Int.floor_intCast]
  have fl0 : ∀ m : Int, m < 0 → ⌊(base : ℝ) ^ m⌋ = 0 := by
    intro m hm
    rw [Int.floor_eq_zero_iff]
    exact ⟨(pos m).le, zpow_lt_one_of_neg₀ (by linarith) hm⟩
  have of_not : ∀ m : Int, ¬ t.Has ⌊(base : ℝ) ^ m⌋ → t.ofFloat (.fin ((base : ℝ) ^ m) : Num A) = .ub .floatToInt := by
    intro m h
    rw [ofFloat_eq (pos m).le, if_neg h]
  unfold LogSpaceT.newPow
  simp only [e]
  refine ⟨fun h => ?_, fun h1 h2 => ?_, fun h1 h2 h3 => ?_, fun h1 h2 h3 => ?_⟩
  · rw [if_neg (by omega)]
  · rw [if_pos h1, ofFloat_fin (pos start).le (by rw [fl0 _ h2]; exact has_zero ht), fl0 _ h2, Res.ok_bind]
    by_cases hlast : t.Has ⌊(base : ℝ) ^ stop⌋
    · rw [ofFloat_fin (pos stop).le hlast, Res.ok_bind]
      have h5 : 0 ≤ ⌊(base : ℝ) ^ stop⌋ := Int.floor_nonneg.2 (pos stop).le
      rcases h5.lt_or_eq with h6 | h6
      · rw [factorT_bad hA t h6 (Or.inl le_rfl)]
        rfl
      · rw [← h6]
        have : LogSpaceT.factor (Num A) t 0 0 n = .ub .floatToInt := by
          unfold LogSpaceT.factor LogSpace.factor
          rw [Num.ofInt_eq, Num.round_exact hA.exact, real_e hA, Num.ofNat_eq, Num.round_exact hA.exact, Int.cast_zero, log_zero]
          exact ofFloat_pow_e t (Or.inl rfl)
        rw [this]
        rfl
    · rw [of_not stop hlast]
      rfl
  · have hlt : base ^ start.toNat < base ^ stop.toNat := pow_lt_pow_right₀ (by omega) (by omega)
    have hs : t.Has (base ^ start.toNat) := ⟨by
      have := t.lo_nonpos
      have : 0 < base ^ start.toNat := by positivity
      omega, hlt.trans h3.2⟩
    rw [if_pos h1, ofFloat_fin (pos start).le (by rw [fl _ h2]; exact hs), fl _ h2, Res.ok_bind,
      ofFloat_fin (pos stop).le (by rw [fl _ (by omega)]; exact h3), fl _ (by omega), Res.ok_bind]
    unfold LogSpaceT.new
    rw [if_pos hlt]
    congr 1
  · by_cases hs : t.Has (base ^ start.toNat)
    · rw [if_pos h1, ofFloat_fin (pos start).le (by rw [fl _ h2]; exact hs), fl _ h2, Res.ok_bind, of_not stop (by rw [fl _ (by omega)]; exact h3)]
      rfl
    · rw [if_pos h1, of_not start (by rw [fl _ h2]; exact hs)]
      rfl

/- The powers of ten up to a million in six steps, as `int`; the hypotheses hold. -/
example : Standard tInt ∧ tInt.Has 1000000 ∧ IsRoot 1 1000000 6 10 ∧
    ∃ s, LogSpaceT.new (Num realArith) tInt 1 1000000 6 = .ok s ∧ s.collect tInt 7 = .ok [1, 10, 100, 1000, 10000, 100000, 1000000] := by
  have ht : Standard tInt := by simp [Standard, tInt]
  have hb : tInt.Has 1000000 := by decide
  have hg : IsRoot 1 1000000 6 10 := by unfold IsRoot; norm_num
  obtain ⟨s, hs, _⟩ := (C141_defined realArith_isReal tInt 1 1000000 hb 6).2.2 (by norm_num) (by norm_num) (by norm_num)
  refine ⟨ht, hb, hg, s, hs, ?_⟩
  rw [(C141_collect realArith_isReal tInt ht 1 1000000 hb 6 (by norm_num) s hs 10 hg).2.2 (by decide)]
  decide

/- The powers of two up to 2^30: `Collect(31)` overflows `int`. -/
example : ∃ s, LogSpaceT.new (Num realArith) tInt 1 (2 ^ 30) 30 = .ok s ∧ s.collect tInt 31 = .ub .signedOverflow := by
  have ht : Standard tInt := by simp [Standard, tInt]
  have hb : tInt.Has (2 ^ 30) := by decide
  have hg : IsRoot 1 (2 ^ 30) 30 2 := by unfold IsRoot; norm_num
  obtain ⟨s, hs, _⟩ := (C141_defined realArith_isReal tInt 1 (2 ^ 30) hb 30).2.2 (by norm_num) (by norm_num) (by norm_num)
  exact ⟨s, hs, (C141_collect realArith_isReal tInt ht 1 (2 ^ 30) hb 30 (by norm_num) s hs 2 hg).2.1 (by decide)⟩

end Bwsl
