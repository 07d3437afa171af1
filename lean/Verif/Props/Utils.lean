import Verif.Model.EnumString
import Verif.Model.Approx
import Verif.Model.Spaces
import Verif.Model.FileUtils
import Verif.Lemmas.NumOrder
import Mathlib.Logic.Function.Iterate
import Mathlib.Data.List.Nodup

/-! Properties C59, C61–C63, C65: small utilities. -/

namespace Bwsl
open Spec

set_option linter.unusedSectionVars false

/-! ### Enumerations with names -/

theorem enumToString_from (en : String) (names : List String) (i j : Nat) :
    enumToString en names (i + j) i = (names[j]?).getD ("[ Unknown " ++ en ++ " ]") := by
  induction names generalizing i j with
  | nil => simp [enumToString]
  | cons x xs ih =>
    rw [enumToString]
    cases j with
    | zero => simp
    | succ j =>
      rw [if_neg (by omega), show i + (j + 1) = (i + 1) + j by omega, ih]
      simp

theorem enumFromString_from (names : List String) (n : Nat) (v : String) (i : Nat) :
    enumFromString names n v i =
      if v ∈ names then ⟨i + names.idxOf v, .ok ()⟩ else ⟨n, .throws (.enumConversion v)⟩ := by
  induction names generalizing i with
  | nil => simp [enumFromString]
  | cons x xs ih =>
    rw [enumFromString, ih]
    by_cases h : v = x
    · subst h; simp
    · rw [if_neg h]
      by_cases hm : v ∈ xs
      · rw [if_pos hm, if_pos (List.mem_cons_of_mem _ hm), List.idxOf_cons_ne _ (Ne.symm h)]
        congr 1
        omega
      · rw [if_neg hm, if_neg (by simp [h, hm])]

/-- C59.  Every enumerator survives the conversion to text and back, whatever the target held before. -/
theorem C59_round_trip (en : String) (names : List String) (h : names.Nodup) (v n : Nat) (hv : v < names.length) :
    enumFromString names n (enumToString en names v) = ⟨v, .ok ()⟩ := by
  have e := enumToString_from en names 0 v
  rw [Nat.zero_add] at e
  rw [e, enumFromString_from, List.getElem?_eq_getElem hv, Option.getD_some, if_pos (List.getElem_mem hv),
    h.idxOf_getElem v hv, Nat.zero_add]

/-- C59.  Text is converted to the enumerator of that name, and back to the same text; any other text throws
and the target keeps its value. -/
theorem C59_from_string (en : String) (names : List String) (n : Nat) (s : String) :
    (s ∈ names → ∃ v, enumFromString names n s = ⟨v, .ok ()⟩ ∧ v < names.length ∧
      enumToString en names v = s) ∧
    (s ∉ names → enumFromString names n s = ⟨n, .throws (.enumConversion s)⟩) := by
  rw [enumFromString_from]
  refine ⟨fun h => ?_, fun h => by rw [if_neg h]⟩
  rw [if_pos h, Nat.zero_add]
  have hl := List.idxOf_lt_length_of_mem h
  refine ⟨_, rfl, hl, ?_⟩
  have e := enumToString_from en names 0 (names.idxOf s)
  rw [Nat.zero_add] at e
  rw [e, List.getElem?_eq_getElem hl, Option.getD_some, List.getElem_idxOf]

/-- C59.  Any value outside the enumeration gives the fixed marker. -/
theorem C59_unknown (en : String) (names : List String) (v : Nat) (hv : names.length ≤ v) :
    enumToString en names v = "[ Unknown " ++ en ++ " ]" := by
  have e := enumToString_from en names 0 v
  rw [Nat.zero_add] at e
  rw [e, List.getElem?_eq_none hv, Option.getD_none]

example : (["Linux", "Apple", "Windows"] : List String).Nodup := by decide

/-! ### Approximate comparison -/

section
variable {K : Type} [Field K] [LinearOrder K] [IsStrictOrderedRing K] {A : Arith K}

/-- C61.  `==` does not depend on the order of its arguments and `!=` is its negation, in both orders. -/
theorem C61_symmetric {F : Type} [CxxFloat F] (x : F) (a : Approx F) :
    Approx.eqR a x = Approx.eqL x a ∧ Approx.neL x a = !(Approx.eqL x a) ∧
      Approx.neR a x = !(Approx.eqL x a) ∧ Approx.geR a x = Approx.leL x a ∧ Approx.leR a x = Approx.geL x a :=
  ⟨rfl, rfl, rfl, rfl, rfl⟩

theorem stdMax_nonneg (a r : K) (ha : 0 ≤ a) : CxxFloat.le (.fin 0 : Num A)
    (stdMax (.fin a) (CxxFloat.abs (Num.round A r))) = true := by
  unfold stdMax
  split
  · next h => exact Num.le_trans' (by rw [Num.le_fin]; exact decide_eq_true ha) (Num.le_of_lt' h)
  · rw [Num.le_fin]; exact decide_eq_true ha

/-- C61.  Every finite value equals its own `Approx`, for all finite nonnegative absolute and finite relative
tolerances, in exact and in binary64 arithmetic. -/
theorem C61_reflexive (h0 : A.rnd 0 = some 0) (v abs rel : K) (ha : 0 ≤ abs) :
    Approx.eqL (.fin v) (⟨.fin v, .fin abs, .fin rel⟩ : Approx (Num A)) = true := by
  unfold Approx.eqL
  simp only [Num.fin_sub, sub_self, Num.round_of h0, Num.abs_fin, abs_zero, Num.fin_mul]
  exact stdMax_nonneg _ _ ha

theorem rnd_zero_of_exact (hA : A.IsExact) : A.rnd 0 = some 0 := hA 0

/-- C61.  `<=` and `>=` together mean `==`, for all arguments (of any kind). -/
theorem C61_antisymmetric (x : Num A) (a : Approx (Num A)) :
    (Approx.leL x a && Approx.geL x a) = Approx.eqL x a := by
  unfold Approx.leL Approx.geL
  have : ¬ (CxxFloat.lt x a.value = true ∧ CxxFloat.lt a.value x = true) := by
    rintro ⟨h1, h2⟩
    cases x <;> cases hv : a.value <;> rw [hv] at h1 h2 <;>
      simp only [Num.lt_nan_left, Num.lt_nan_right, Num.lt_inf_fin, Num.lt_fin_inf, Num.lt_inf_inf, Num.lt_fin,
        Bool.false_eq_true, decide_eq_true_eq, Bool.and_eq_true, Bool.not_eq_true'] at h1 h2
    · exact absurd h1.1 (by simp [h2.2])
    · exact absurd h1 (by simp [h2])
    · exact absurd h2 (by simp [h1])
    · exact lt_asymm h1 h2
  cases h1 : CxxFloat.lt x a.value <;> cases h2 : CxxFloat.lt a.value x <;> simp_all

/-- C61.  At least one of `<=` and `>=` holds between finite values. -/
theorem C61_total (h0 : A.rnd 0 = some 0) (x v abs rel : K) (ha : 0 ≤ abs) :
    (Approx.leL (.fin x) (⟨.fin v, .fin abs, .fin rel⟩ : Approx (Num A)) ||
      Approx.geL (.fin x) (⟨.fin v, .fin abs, .fin rel⟩ : Approx (Num A))) = true := by
  unfold Approx.leL Approx.geL
  simp only [Num.lt_fin]
  rcases lt_trichotomy x v with h | h | h
  · simp [h]
  · subst h; simp [C61_reflexive h0 x abs rel ha]
  · simp [h]

/-- C61.  Larger tolerances accept whatever smaller ones accept, in any arithmetic that rounds monotonically
(exact or binary64). -/
theorem C61_widened (hA : A.Mono) (h0 : A.rnd 0 = some 0) (x : Num A) (v abs abs' rel rel' : K) (h1 : abs ≤ abs')
    (h2 : 0 ≤ rel) (h3 : rel ≤ rel')
    (h : Approx.eqL x (⟨.fin v, .fin abs, .fin rel⟩ : Approx (Num A)) = true) :
    Approx.eqL x (⟨.fin v, .fin abs', .fin rel'⟩ : Approx (Num A)) = true := by
  unfold Approx.eqL at h ⊢
  refine Num.le_trans' h ?_
  simp only [Num.fin_mul]
  -- the relative tolerances compare
  have z : Num.round A (0 : K) = .fin 0 := Num.round_of h0
  have key : CxxFloat.le (CxxFloat.abs (Num.round A (rel * v))) (CxxFloat.abs (Num.round A (rel' * v))) = true := by
    rcases le_total 0 v with hv | hv
    · have m1 := hA 0 (rel * v) (mul_nonneg h2 hv)
      have m2 := hA (rel * v) (rel' * v) (mul_le_mul_of_nonneg_right h3 hv)
      rw [z] at m1
      have pos : ∀ y : Num A, CxxFloat.le (.fin 0) y = true → CxxFloat.abs y = y := by
        intro y hy
        cases y with
        | nan => rfl
        | inf n => rw [Num.le_fin_inf] at hy; cases n <;> simp_all; rfl
        | fin y => rw [Num.le_fin, decide_eq_true_eq] at hy; rw [Num.abs_fin, abs_of_nonneg hy]
      rw [pos _ m1, pos _ (Num.le_trans' m1 m2)]
      exact m2
    · have m1 := hA (rel * v) 0 (mul_nonpos_of_nonneg_of_nonpos h2 hv)
      have m2 := hA (rel' * v) (rel * v) (mul_le_mul_of_nonpos_right h3 hv)
      rw [z] at m1
      have neg : ∀ y w : Num A, CxxFloat.le w (.fin 0) = true → CxxFloat.le y w = true →
          CxxFloat.le (CxxFloat.abs w) (CxxFloat.abs y) = true := by
        intro y w hw hyw
        have hy := Num.le_trans' hyw hw
        cases w with
        | nan => rw [Num.le_nan_left] at hw; cases hw
        | inf n =>
          rw [Num.le_inf_fin] at hw; subst hw
          cases y with
          | nan => rw [Num.le_nan_left] at hyw; cases hyw
          | inf m => rfl
          | fin y => rw [Num.le_fin_inf] at hyw; cases hyw
        | fin w =>
          cases y with
          | nan => rw [Num.le_nan_left] at hyw; cases hyw
          | inf m => rfl
          | fin y =>
            rw [Num.le_fin, decide_eq_true_eq] at hw hyw
            rw [Num.abs_fin, Num.abs_fin, Num.le_fin, abs_of_nonpos hw, abs_of_nonpos (hyw.trans hw)]
            exact decide_eq_true (neg_le_neg hyw)
      exact neg _ _ m1 m2
  have hn : ∀ y : K, CxxFloat.abs (Num.round A y) ≠ .nan := by
    intro y
    have := Num.round_ne_nan (A := A) y
    cases hy : Num.round A y with
    | nan => exact absurd hy this
    | inf n => exact fun e => by cases e
    | fin y => exact fun e => by cases e
  unfold stdMax
  split
  · split
    · exact key
    · next hb =>
      rcases Num.le_or_lt (hn (rel' * v)) (show (Num.fin abs' : Num A) ≠ .nan by simp) with h | h
      · exact Num.le_trans' key h
      · exact absurd h hb
  · split
    · next hb =>
      refine Num.le_trans' ?_ (Num.le_of_lt' hb)
      rw [Num.le_fin]; exact decide_eq_true h1
    · rw [Num.le_fin]; exact decide_eq_true h1

/-- C61.  In exact arithmetic `==` means |x - v| ≤ max(abs, |rel v|). -/
theorem C61_exact (hA : A.IsExact) (x v abs rel : K) :
    Approx.eqL (.fin x) (⟨.fin v, .fin abs, .fin rel⟩ : Approx (Num A)) = true ↔ |x - v| ≤ max abs |rel * v| := by
  unfold Approx.eqL stdMax
  simp only [Num.fin_sub, Num.fin_mul, Num.round_exact hA, Num.abs_fin, Num.lt_fin, decide_eq_true_eq]
  split
  · next h => rw [Num.le_fin, decide_eq_true_eq, max_eq_right h.le]
  · next h => rw [Num.le_fin, decide_eq_true_eq, max_eq_left (not_lt.1 h)]

/-- C61.  The signs of the tolerances do not matter, each setting keeps the other tolerance and the value, and the last
one counts: in exact arithmetic `==` after them means |x - v| ≤ max(|abs|, |rel v|). -/
theorem C61_tolerances (hA : A.IsExact) (x v abs abs' rel rel' : K) (a : Approx (Num A)) (ha : a.value = .fin v) :
    (Approx.eqL (.fin x) (((a.setAbs (.fin abs')).setRel (.fin rel)).setAbs (.fin abs)) = true ↔
      |x - v| ≤ max |abs| |rel * v|) ∧
    (Approx.eqL (.fin x) (((a.setRel (.fin rel')).setAbs (.fin abs)).setRel (.fin rel)) = true ↔
      |x - v| ≤ max |abs| |rel * v|) := by
  have e1 : ((a.setAbs (.fin abs')).setRel (.fin rel)).setAbs (.fin abs) = ⟨.fin v, .fin |abs|, .fin |rel|⟩ := by
    rw [← ha]; rfl
  have e2 : ((a.setRel (.fin rel')).setAbs (.fin abs)).setRel (.fin rel) = ⟨.fin v, .fin |abs|, .fin |rel|⟩ := by
    rw [← ha]; rfl
  rw [e1, e2, C61_exact hA, abs_mul, abs_abs, ← abs_mul]
  exact ⟨Iff.rfl, Iff.rfl⟩

/-- C61.  With one tolerance set the other keeps its default: 100 epsilon relative, zero absolute. -/
theorem C61_defaults (hA : A.IsExact) (x v abs rel : K) :
    (Approx.eqL (.fin x) (Approx.new (.fin v) : Approx (Num A)) = true ↔ |x - v| ≤ |v| * (100 / 2 ^ 52)) ∧
    (Approx.eqL (.fin x) ((Approx.new (.fin v)).setAbs (.fin abs) : Approx (Num A)) = true ↔
      |x - v| ≤ max |abs| (|v| * (100 / 2 ^ 52))) ∧
    (Approx.eqL (.fin x) ((Approx.new (.fin v)).setRel (.fin rel) : Approx (Num A)) = true ↔ |x - v| ≤ |rel * v|) := by
  have hr : (CxxFloat.lit (1 / 2 ^ 52) * CxxFloat.ofInt 100 : Num A) = .fin (100 / 2 ^ 52) := by
    rw [Num.lit_eq, Num.ofInt_eq, Num.round_exact hA, Num.round_exact hA, Num.fin_mul, Num.round_exact hA]
    push_cast
    congr 1
    ring
  have e1 : (Approx.new (.fin v) : Approx (Num A)) = ⟨.fin v, .fin 0, .fin (100 / 2 ^ 52)⟩ := by
    unfold Approx.new; rw [hr]; rfl
  have hp : |(100 : K) / 2 ^ 52 * v| = |v| * (100 / 2 ^ 52) := by
    rw [abs_mul, abs_of_pos (by norm_num), mul_comm]
  have e2 : (⟨.fin v, .fin 0, .fin (100 / 2 ^ 52)⟩ : Approx (Num A)).setAbs (.fin abs) =
      ⟨.fin v, .fin |abs|, .fin (100 / 2 ^ 52)⟩ := rfl
  have e3 : (⟨.fin v, .fin 0, .fin (100 / 2 ^ 52)⟩ : Approx (Num A)).setRel (.fin rel) =
      ⟨.fin v, .fin 0, .fin |rel|⟩ := rfl
  rw [e1, e2, e3, C61_exact hA, C61_exact hA, C61_exact hA, hp]
  refine ⟨?_, Iff.rfl, ?_⟩
  · rw [max_eq_right (by positivity)]
  · rw [max_eq_right (abs_nonneg _), abs_mul, abs_abs, ← abs_mul]

/-- C62 is violated by both infinities, whatever the tolerances. -/
theorem C62_violated (n : Bool) (abs rel : Num A) :
    Approx.eqL (.inf n) (⟨.inf n, abs, rel⟩ : Approx (Num A)) = false := by
  unfold Approx.eqL
  have : (.inf n - .inf n : Num A) = .nan := by
    show Num.add (.inf n) (.inf (!n)) = _
    cases n <;> rfl
  simp only [this]
  exact Num.le_nan_left _

/-- C62 (what holds).  Every finite value equals its `Approx`, with the tolerances it is made with. -/
theorem C62_finite_partial (h0 : A.rnd 0 = some 0) (v : K) (r : K)
    (hr : (CxxFloat.lit (1 / 2 ^ 52) * CxxFloat.ofInt 100 : Num A) = .fin r) :
    Approx.eqL (.fin v) (Approx.new (.fin v) : Approx (Num A)) = true := by
  unfold Approx.new
  rw [hr]
  exact C61_reflexive h0 v 0 r le_rfl

/-- binary64 arithmetic and exact arithmetic both meet the hypotheses of C61 and C62. -/
example [FloorRing K] (hA : A.IsBinary64) : A.Mono ∧ A.rnd 0 = some 0 := ⟨mono_of_binary64 hA, rnd_zero_of_binary64 hA⟩
example (hA : A.IsExact) : A.Mono ∧ A.rnd 0 = some 0 := ⟨mono_of_exact hA, hA 0⟩

/-! ### Equally spaced values -/

/-- What an exact `LinSpace` holds after `k` increments. -/
theorem linSpace_iterate (hA : A.IsExact) (a b : K) (n : Nat) (hn : n ≠ 0) (s : LinSpace (Num A))
    (hs : LinSpace.new (.fin a) (.fin b) n = .ok s) (k : Nat) (hk : k < W64) :
    LinSpace.incr^[k] s =
      ⟨.fin (a + k * ((b - a) / n)), .fin a, .fin b, .fin ((b - a) / n), n, k⟩ := by
  have hn' : (n : K) ≠ 0 := by exact_mod_cast hn
  have hs' : s = ⟨.fin a, .fin a, .fin b, .fin ((b - a) / n), n, 0⟩ := by
    unfold LinSpace.new at hs
    split at hs
    · simp only [Res.ok.injEq] at hs
      rw [← hs]
      simp only [Num.ofNat_eq, Num.fin_sub, Num.round_exact hA, Num.fin_div hn']
    · cases hs
  induction k with
  | zero => rw [hs']; simp
  | succ k ih =>
    rw [Function.iterate_succ_apply', ih (by omega)]
    unfold LinSpace.incr
    have e : (k + 1) % W64 = k + 1 := Nat.mod_eq_of_lt hk
    simp only [e, Num.ofNat_eq, Num.round_exact hA, Num.fin_mul, Num.fin_add]
    congr 2
    ring

/-- C63.  In exact arithmetic the value after `k` increments is first + k (last - first)/n; so the n-th is
`last`. -/
theorem C63_kth (hA : A.IsExact) (a b : K) (n : Nat) (hn : n ≠ 0) (s : LinSpace (Num A))
    (hs : LinSpace.new (.fin a) (.fin b) n = .ok s) (k : Nat) (hk : k < 2 ^ 64) :
    (LinSpace.incr^[k] s).deref = .fin (a + k * ((b - a) / n)) ∧
    (k = n → (LinSpace.incr^[k] s).deref = .fin b) := by
  have hn' : (n : K) ≠ 0 := by exact_mod_cast hn
  rw [linSpace_iterate hA a b n hn s hs k hk]
  refine ⟨rfl, fun h => ?_⟩
  subst h
  show Num.fin _ = _
  congr 1
  field_simp
  ring

/-- C63.  The object can be made exactly when first < last, and then the values increase. -/
theorem C63_increasing (hA : A.IsExact) (a b : K) (n : Nat) (hn : n ≠ 0) :
    ((∃ s, LinSpace.new (.fin a : Num A) (.fin b) n = .ok s) ↔ a < b) ∧
    (∀ s, LinSpace.new (.fin a : Num A) (.fin b) n = .ok s → ∀ j k, j < k → k < 2 ^ 64 →
      CxxFloat.lt (LinSpace.incr^[j] s).deref (LinSpace.incr^[k] s).deref = true) := by
  have iff : (∃ s, LinSpace.new (.fin a : Num A) (.fin b) n = .ok s) ↔ a < b := by
    unfold LinSpace.new
    rw [Num.lt_fin]
    by_cases h : a < b
    · simp [h]
    · simp [h]
  refine ⟨iff, fun s hs j k hjk hk => ?_⟩
  have hab := iff.1 ⟨s, hs⟩
  rw [(C63_kth hA a b n hn s hs k hk).1, (C63_kth hA a b n hn s hs j (Nat.lt_trans hjk hk)).1, Num.lt_fin]
  have hn' : (0 : K) < n := by exact_mod_cast Nat.pos_of_ne_zero hn
  have hp : 0 < (b - a) / n := div_pos (sub_pos.2 hab) hn'
  have : (j : K) < k := by exact_mod_cast hjk
  exact decide_eq_true (by nlinarith)

/-- C63.  `Collect(m)` returns the values of the next `m` calls (the object is passed by value, so it does not
advance). -/
theorem C63_collect (hA : A.IsExact) (a b : K) (n : Nat) (hn : n ≠ 0) (s : LinSpace (Num A))
    (hs : LinSpace.new (.fin a) (.fin b) n = .ok s) (j m : Nat) (hk : j + m < 2 ^ 64) :
    (LinSpace.incr^[j] s).collect m =
      (List.range m).map (fun k => .fin (a + (j + k : Nat) * ((b - a) / n))) := by
  unfold LinSpace.collect
  induction m generalizing j with
  | zero => rfl
  | succ m ih =>
    rw [LinSpace.generateN, List.range_succ_eq_map]
    have e : (LinSpace.call (LinSpace.incr^[j] s)).2 = LinSpace.incr^[j + 1] s := by
      rw [Function.iterate_succ_apply']; rfl
    rw [e, ih (j + 1) (by omega)]
    have := (C63_kth hA a b n hn s hs j (by omega)).1
    simp only [List.map_cons, List.map_map, Nat.add_zero, List.cons.injEq]
    refine ⟨this, List.map_congr_left (fun k _ => ?_)⟩
    simp only [Function.comp]
    congr 4
    omega

/-- C63.  `begin` goes back to the first value from any state, `operator()` returns the current value and
advances. -/
theorem C63_begin_call (hA : A.IsExact) (a b : K) (n : Nat) (hn : n ≠ 0) (s : LinSpace (Num A))
    (hs : LinSpace.new (.fin a) (.fin b) n = .ok s) (k : Nat) (hk : k < 2 ^ 64) :
    (LinSpace.incr^[k] s).begin = s ∧ (LinSpace.incr^[k] s).call = ((LinSpace.incr^[k] s).deref, LinSpace.incr^[k + 1] s) := by
  constructor
  · rw [linSpace_iterate hA a b n hn s hs k hk]
    have := linSpace_iterate hA a b n hn s hs 0 (Nat.zero_lt_succ _)
    simp only [Function.iterate_zero, id_eq, Nat.cast_zero, zero_mul, add_zero] at this
    rw [this]; rfl
  · rw [Function.iterate_succ_apply']; rfl

/-- C63.  After `n` increments the object is in the state `end()` returns, and the postfix increment returns the state
before. -/
theorem C63_end (hA : A.IsExact) (a b : K) (n : Nat) (hn : n ≠ 0) (s : LinSpace (Num A))
    (hs : LinSpace.new (.fin a) (.fin b) n = .ok s) (hn64 : n < 2 ^ 64) (k : Nat) (hk : k < 2 ^ 64) :
    (LinSpace.incr^[k] s).end = LinSpace.incr^[n] s ∧
    (LinSpace.incr^[k] s).postIncr = (LinSpace.incr^[k] s, LinSpace.incr^[k + 1] s) := by
  constructor
  · have hb : (LinSpace.incr^[n] s).current = .fin b := (C63_kth hA a b n hn s hs n hn64).2 rfl
    rw [linSpace_iterate hA a b n hn s hs n hn64] at hb
    rw [linSpace_iterate hA a b n hn s hs n hn64, linSpace_iterate hA a b n hn s hs k hk]
    simp only at hb
    rw [hb]
    rfl
  · rw [Function.iterate_succ_apply']; rfl

/-- C63.  With zero steps the first increment leaves the interval: the value becomes infinite. -/
theorem C63_zero_steps (hA : A.IsExact) (a b : K) (hab : a < b) :
    ∃ s, LinSpace.new (.fin a : Num A) (.fin b) 0 = .ok s ∧ s.deref = .fin a ∧ s.incr.deref = .inf false := by
  have h0 : ((b - a) : K) ≠ 0 := (sub_pos.2 hab).ne'
  have h1 : ¬ (b - a < 0) := not_lt.2 (sub_pos.2 hab).le
  have e : (.fin b - .fin a : Num A) / CxxFloat.ofNat 0 = .inf false := by
    rw [Num.fin_sub, Num.ofNat_eq, Num.round_exact hA, Num.round_exact hA]
    show (if ((0 : Nat) : K) = 0 then (if b - a = 0 then Num.nan else .inf (decide (b - a < 0))) else _) = _
    rw [if_pos Nat.cast_zero, if_neg h0, decide_eq_false h1]
  refine ⟨⟨.fin a, .fin a, .fin b, .inf false, 0, 0⟩, ?_, rfl, ?_⟩
  · unfold LinSpace.new
    rw [Num.lt_fin, if_pos (decide_eq_true hab), e]
  · unfold LinSpace.incr LinSpace.deref
    have : (.inf false * CxxFloat.ofNat ((0 + 1) % W64) : Num A) = .inf false := by
      rw [Num.ofNat_eq, Num.round_exact hA]
      show (if (((0 + 1) % W64 : Nat) : K) = 0 then Num.nan else .inf (false != decide ((((0 + 1) % W64 : Nat) : K) < 0))) = _
      simp
    simp only [this]
    rfl

/-- C63.  With rounding, binary64 or exact, the values never decrease (nor become NaN) if the step is a
positive finite number. -/
theorem C63_monotone (hA : A.Mono) (h0 : A.rnd 0 = some 0) (a b st : K) (hstp : 0 < st) (n : Nat)
    (hf : A.rnd a = some a) (j k : Nat) (hjk : j ≤ k) (hk : k < 2 ^ 64) :
    CxxFloat.le (LinSpace.incr^[j] (⟨.fin a, .fin a, .fin b, .fin st, n, 0⟩ : LinSpace (Num A))).deref
      (LinSpace.incr^[k] (⟨.fin a, .fin a, .fin b, .fin st, n, 0⟩ : LinSpace (Num A))).deref = true := by
  have it : ∀ k, k < W64 → LinSpace.incr^[k] (⟨.fin a, .fin a, .fin b, .fin st, n, 0⟩ : LinSpace (Num A)) =
      ⟨if k = 0 then .fin a else .fin a + .fin st * Num.round A (k : K), .fin a, .fin b, .fin st, n, k⟩ := by
    intro k
    induction k with
    | zero => intro _; simp
    | succ k ih =>
      intro hk
      rw [Function.iterate_succ_apply', ih (by omega)]
      unfold LinSpace.incr
      have e : (k + 1) % W64 = k + 1 := Nat.mod_eq_of_lt hk
      simp only [e, Num.ofNat_eq, if_neg (Nat.succ_ne_zero k)]
  have z : Num.round A (0 : K) = .fin 0 := Num.round_of h0
  have ra : Num.round A a = .fin a := Num.round_of hf
  -- the same formula at 0
  have val : ∀ k, k < W64 → (LinSpace.incr^[k] (⟨.fin a, .fin a, .fin b, .fin st, n, 0⟩ : LinSpace (Num A))).deref =
      .fin a + .fin st * Num.round A (k : K) := by
    intro k hk
    rw [it k hk]
    unfold LinSpace.deref
    by_cases h : k = 0
    · subst h
      simp only [Nat.cast_zero, z, Num.fin_mul, mul_zero, Num.fin_add, add_zero, ra, if_true]
    · simp only [if_neg h]
  rw [val j (by omega), val k hk]
  have hjk' := hA (j : K) k (by exact_mod_cast hjk)
  have hj0 := hA 0 (j : K) (Nat.cast_nonneg j)
  rw [z] at hj0
  -- products, then sums, of ordered values stay ordered
  have mul_mono : ∀ x y : Num A, CxxFloat.le (.fin 0) x = true → CxxFloat.le x y = true →
      CxxFloat.le (.fin st * x) (.fin st * y) = true := by
    intro x y hx hxy
    have hst := hstp.le
    have hst0 := hstp.ne'
    have inf : ∀ m, (.fin st * .inf m : Num A) = .inf m := by
      intro m
      show Num.mul _ _ = _
      unfold Num.mul
      simp only
      rw [if_neg hst0, decide_eq_false (not_lt.2 hst)]
      simp
    cases x with
    | nan => rw [Num.le_nan_left] at hxy; cases hxy
    | inf m =>
      cases y with
      | nan => rw [Num.le_nan_right] at hxy; cases hxy
      | inf m' => rw [inf, inf]; exact hxy
      | fin y =>
        rw [Num.le_inf_fin] at hxy
        rw [Num.le_fin_inf] at hx
        simp [hxy] at hx
    | fin x =>
      cases y with
      | nan => rw [Num.le_nan_right] at hxy; cases hxy
      | inf m' =>
        rw [inf, Num.fin_mul]
        rw [Num.le_fin_inf] at hxy
        have hm : m' = false := by simpa using hxy
        subst hm
        cases hr : Num.round A (st * x) with
        | nan => exact absurd hr (Num.round_ne_nan _)
        | inf q => rw [Num.le_inf_inf]; simp
        | fin q => rw [Num.le_fin_inf]; rfl
      | fin y =>
        rw [Num.le_fin, decide_eq_true_eq] at hxy
        rw [Num.fin_mul, Num.fin_mul]
        exact hA _ _ (mul_le_mul_of_nonneg_left hxy hst)
  have add_mono : ∀ x y : Num A, CxxFloat.le x y = true → CxxFloat.le (.fin a + x) (.fin a + y) = true := by
    intro x y hxy
    cases x with
    | nan => rw [Num.le_nan_left] at hxy; cases hxy
    | inf m =>
      cases y with
      | nan => rw [Num.le_nan_right] at hxy; cases hxy
      | inf m' => exact hxy
      | fin y =>
        rw [Num.le_inf_fin] at hxy; subst hxy
        rw [Num.fin_add]
        cases hr : Num.round A (a + y) with
        | nan => exact absurd hr (Num.round_ne_nan _)
        | inf q => show CxxFloat.le (Num.inf true : Num A) _ = true; rw [Num.le_inf_inf]; simp
        | fin q => show CxxFloat.le (Num.inf true : Num A) _ = true; rw [Num.le_inf_fin]
    | fin x =>
      cases y with
      | nan => rw [Num.le_nan_right] at hxy; cases hxy
      | inf m' =>
        rw [Num.le_fin_inf] at hxy
        have hm : m' = false := by simpa using hxy
        subst hm
        rw [Num.fin_add]
        cases hr : Num.round A (a + x) with
        | nan => exact absurd hr (Num.round_ne_nan _)
        | inf q => show CxxFloat.le _ (Num.inf false : Num A) = true; rw [Num.le_inf_inf]; simp
        | fin q => show CxxFloat.le _ (Num.inf false : Num A) = true; rw [Num.le_fin_inf]; rfl
      | fin y =>
        rw [Num.le_fin, decide_eq_true_eq] at hxy
        rw [Num.fin_add, Num.fin_add]
        exact hA _ _ (by linarith)
  exact add_mono _ _ (mul_mono _ _ hj0 hjk')

example : ∃ s, LinSpace.new (.fin 1 : Num (⟨some, id, id, id, fun x _ => x, id, id, 3⟩ : Arith ℚ)) (.fin 3) 4 = .ok s :=
  ((C63_increasing (fun _ => rfl) 1 3 4 (by decide)).1).2 (by norm_num)

end

/-! ### Comparison of files -/

theorem stdEqual_iff [DecidableEq α] (xs ys : List α) (h : xs.length = ys.length) :
    stdEqual xs ys = .ok (decide (xs = ys)) := by
  induction xs generalizing ys with
  | nil => cases ys with
    | nil => rfl
    | cons y ys => simp at h
  | cons x xs ih =>
    cases ys with
    | nil => simp at h
    | cons y ys =>
      rw [stdEqual]
      by_cases hxy : x = y
      · rw [if_pos hxy, ih ys (by simpa using h)]; simp [hxy]
      · rw [if_neg hxy]; simp [hxy]

/-- C65.  `compare_files` always returns without reading past an end, and it returns true exactly when both
files can be opened and have the same bytes. -/
theorem C65_compare (fs : String → Option (List UInt8)) (p1 p2 : String) :
    ∃ b, compareFiles fs p1 p2 = .ok b ∧ (b = true ↔ ∃ c, fs p1 = some c ∧ fs p2 = some c) := by
  unfold compareFiles
  cases h1 : fs p1 with
  | none => exact ⟨false, rfl, by simp⟩
  | some c1 =>
    cases h2 : fs p2 with
    | none => exact ⟨false, rfl, by simp⟩
    | some c2 =>
      simp only
      by_cases hl : c1.length = c2.length
      · rw [if_neg (by simpa using hl), stdEqual_iff c1 c2 hl]
        refine ⟨_, rfl, ?_⟩
        simp [eq_comm]
      · rw [if_pos hl]
        refine ⟨false, rfl, ?_⟩
        simp only [Bool.false_eq_true, Option.some.injEq, false_iff, not_exists, not_and]
        rintro c rfl rfl
        exact hl rfl

/-- C65.  The order of the files does not matter. -/
theorem C65_symmetric (fs : String → Option (List UInt8)) (p1 p2 : String) :
    compareFiles fs p1 p2 = compareFiles fs p2 p1 := by
  obtain ⟨b, e, h⟩ := C65_compare fs p1 p2
  obtain ⟨b', e', h'⟩ := C65_compare fs p2 p1
  rw [e, e']
  congr 1
  rw [Bool.eq_iff_iff, h, h']
  constructor <;> rintro ⟨c, x, y⟩ <;> exact ⟨c, y, x⟩

end Bwsl
