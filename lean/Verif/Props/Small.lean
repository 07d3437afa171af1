import Verif.Lemmas.NumOrder
import Verif.Model.Containers
import Verif.Model.MathFloat
import Verif.Props.MoveHistory

/-! Properties C93 and C94: squares and cubes, and the text of move statistics. -/

namespace Bwsl
open Spec

/-! ## C93 -/

/-- C93.  On `long` square and cube are the exact powers, and undefined exactly if these do not fit (an overflow of x·x
implies one of x·x·x). -/
theorem C93_long (x : Int) :
    (squareL x = if InLong (x ^ 2) then .ok (x ^ 2) else .ub .signedOverflow) ∧
    (cubeL x = if InLong (x ^ 3) then .ok (x ^ 3) else .ub .signedOverflow) := by
  have e2 : x * x = x ^ 2 := by ring
  refine ⟨by unfold squareL lmul long; rw [e2], ?_⟩
  unfold cubeL lmul long
  rw [e2]
  by_cases h : InLong (x ^ 2)
  · rw [if_pos h]
    show (if InLong (x ^ 2 * x) then Res.ok (x ^ 2 * x) else _) = _
    rw [show x ^ 2 * x = x ^ 3 by ring]
  · rw [if_neg h, if_neg]
    · rfl
    · intro h3
      apply h
      have h0 : 0 ≤ x ^ 2 := sq_nonneg x
      have e3 : x ^ 3 = x ^ 2 * x := by ring
      rw [e3] at h3
      generalize x ^ 2 = s at *
      obtain ⟨h4, h5⟩ := h3
      refine ⟨by comega, ?_⟩
      by_contra h6
      have h6 : 9223372036854775808 ≤ s := by comega
      rcases lt_trichotomy x 0 with hx | hx | hx
      · have hs : s = 0 ∨ x ≤ -2 ∨ x = -1 := by omega
        rcases hs with hs | hs | hs
        · omega
        · nlinarith
        · subst hs; omega
      · subst hx; omega
      · nlinarith

/-- C93.  On `size_t` square and cube are the powers modulo 2^64. -/
theorem C93_unsigned (x : Nat) : squareU x = x ^ 2 % 2 ^ 64 ∧ cubeU x = x ^ 3 % 2 ^ 64 := by
  unfold squareU cubeU umul
  refine ⟨congrArg (· % W64) (pow_two x).symm, ?_⟩
  rw [Nat.mod_mul_mod]
  congr 1
  ring

section
variable {K : Type} [Field K] [LinearOrder K] [IsStrictOrderedRing K] {A : Arith K}

/-- C93.  With any monotone rounding that keeps 0, the square of a number is not negative. -/
theorem C93_square_nonneg (hA : A.Mono) (h0 : A.rnd 0 = some 0) (x : Num A) :
    x = .nan ∨ CxxFloat.le CxxFloat.zero (squareF x) = true := by
  cases x with
  | nan => exact .inl rfl
  | inf n =>
    right
    show CxxFloat.le (.fin 0) (Num.inf (n != n) : Num A) = true
    cases n <;> rfl
  | fin x =>
    right
    have := hA 0 (x * x) (mul_self_nonneg x)
    rw [Num.round_of h0] at this
    exact this

variable [FloorRing K]

theorem round_neg (hA : A.IsBinary64) (x : K) : Num.round A (-x) = -Num.round A x := by
  by_cases h : |rn x| < (2 : K) ^ (1024 : Int)
  · have h1 : A.rnd x = some (rn x) := by rw [hA, rnd64, if_pos h]
    have h2 : A.rnd (-x) = some (-rn x) := by rw [hA, rnd64, rn_neg, abs_neg, if_pos h]
    rw [Num.round_of h1, Num.round_of h2]; rfl
  · have h1 : A.rnd x = none := by rw [hA, rnd64, if_neg h]
    have h2 : A.rnd (-x) = none := by rw [hA, rnd64, rn_neg, abs_neg, if_neg h]
    unfold Num.round
    rw [h1, h2]
    have hx : x ≠ 0 := by
      rintro rfl
      rw [rn_zero, abs_zero] at h
      exact h (two_zpow_pos _)
    show Num.inf _ = Num.inf _
    congr 1
    rcases lt_or_gt_of_ne hx with hn | hp
    · simp [hn, hn.le]
    · simp [hp, hp.le]

theorem mul_neg_num (hA : A.IsBinary64) (x y : Num A) : x * -y = -(x * y) := by
  cases y with
  | nan => cases x <;> rfl
  | inf m =>
    cases x with
    | nan => rfl
    | inf n => show Num.inf (n != !m) = Num.inf (!(n != m)); cases n <;> cases m <;> rfl
    | fin a =>
      show (if a = 0 then (Num.nan : Num A) else .inf (decide (a < 0) != !m)) =
        Num.neg (if a = 0 then (Num.nan : Num A) else .inf (decide (a < 0) != m))
      split
      · rfl
      · show Num.inf _ = Num.inf _
        cases decide (a < 0) <;> cases m <;> rfl
  | fin b =>
    cases x with
    | nan => rfl
    | inf n =>
      show (if -b = 0 then (Num.nan : Num A) else .inf (n != decide (-b < 0))) =
        Num.neg (if b = 0 then (Num.nan : Num A) else .inf (n != decide (b < 0)))
      by_cases hb : b = 0
      · simp [hb, Num.neg]
      · rw [if_neg hb, if_neg (neg_ne_zero.2 hb)]
        show Num.inf _ = Num.inf _
        congr 1
        rcases lt_or_gt_of_ne hb with hn | hp
        · simp [hn, not_lt.2 hn.le]
        · simp [hp, not_lt.2 hp.le]
    | fin a =>
      show Num.round A (a * -b) = -Num.round A (a * b)
      rw [mul_neg, round_neg hA]

omit [IsStrictOrderedRing K] [FloorRing K] in
theorem neg_mul_self_num (x : Num A) : -x * -x = x * x := by
  cases x with
  | nan => rfl
  | inf n => cases n <;> rfl
  | fin a => show Num.round A (-a * -a) = Num.round A (a * a); rw [neg_mul_neg]

/-- C93.  In binary64 squares are even and cubes odd functions, rounding, overflow and NaN included. -/
theorem C93_parity (hA : A.IsBinary64) (x : Num A) :
    squareF (-x) = squareF x ∧ cubeF (-x) = -cubeF x := by
  refine ⟨neg_mul_self_num x, ?_⟩
  unfold cubeF
  rw [neg_mul_self_num, mul_neg_num hA]

/-- C93.  In binary64 squares and cubes of integers are exact as long as they are at most 2^53. -/
theorem C93_exact (hA : A.IsBinary64) (n : Int) :
    (|n ^ 2| ≤ 2 ^ 53 → squareF (.fin (n : K) : Num A) = .fin ((n ^ 2 : Int) : K)) ∧
    (|n ^ 3| ≤ 2 ^ 53 → cubeF (.fin (n : K) : Num A) = .fin ((n ^ 3 : Int) : K)) := by
  have hr : ∀ k : Int, |k| ≤ 2 ^ 53 → Num.round A (k : K) = .fin (k : K) := fun k hk =>
    Num.round_of (rnd_of_double hA (double_int hk) (int_lt_huge hk))
  have sq : |n ^ 2| ≤ 2 ^ 53 → squareF (.fin (n : K) : Num A) = .fin ((n ^ 2 : Int) : K) := by
    intro h
    unfold squareF
    rw [Num.fin_mul, ← hr _ h]
    congr 1
    push_cast; ring
  refine ⟨sq, fun h => ?_⟩
  have h2 : |n ^ 2| ≤ 2 ^ 53 := by
    refine le_trans ?_ h
    by_cases hn : n = 0
    · subst hn; simp
    · have h1 := Int.one_le_abs hn
      rw [abs_pow, abs_pow]
      exact pow_le_pow_right₀ h1 (by norm_num)
  have e := sq h2
  unfold squareF at e
  unfold cubeF
  rw [e, Num.fin_mul, ← hr _ h]
  congr 1
  push_cast; ring

end

/-- C93: the largest cube that fits, and the first that does not. -/
example : cubeL 2097151 = .ok 9223358842721533951 ∧ cubeL 2097152 = .ub .signedOverflow := by decide
example : InLong ((-2097152) ^ 3) := by decide

/-! ## C94 -/

/-- a text has one last separator -/
theorem split_last {α : Type} {c : α} {x y : List α} (hx : c ∉ x) (hy : c ∉ y) :
    ∀ {a b : List α}, a ++ c :: x = b ++ c :: y → a = b ∧ x = y
  | [], [], h => by simpa using h
  | [], b :: bs, h => by
    rw [List.nil_append, List.cons_append, List.cons.injEq] at h
    exact absurd (by rw [h.2]; simp) hx
  | a :: as, [], h => by
    rw [List.nil_append, List.cons_append, List.cons.injEq] at h
    exact absurd (by rw [← h.2]; simp) hy
  | a :: as, b :: bs, h => by
    rw [List.cons_append, List.cons_append, List.cons.injEq] at h
    obtain ⟨h1, h2⟩ := split_last hx hy h.2
    exact ⟨by rw [h.1, h1], h2⟩

/-- a text has one first separator -/
theorem split_first {α : Type} {c : α} {x y : List α} :
    ∀ {a b : List α}, c ∉ a → c ∉ b → a ++ c :: x = b ++ c :: y → a = b ∧ x = y
  | [], [], _, _, h => by simpa using h
  | [], b :: bs, _, hb, h => by
    rw [List.nil_append, List.cons_append, List.cons.injEq] at h
    exact absurd (by rw [h.1]; simp) hb
  | a :: as, [], ha, _, h => by
    rw [List.nil_append, List.cons_append, List.cons.injEq] at h
    exact absurd (by rw [← h.1]; simp) ha
  | a :: as, b :: bs, ha, hb, h => by
    rw [List.cons_append, List.cons_append, List.cons.injEq] at h
    obtain ⟨h1, h2⟩ := split_first (fun h => ha (List.mem_cons_of_mem _ h)) (fun h => hb (List.mem_cons_of_mem _ h)) h.2
    exact ⟨by rw [h.1, h1], h2⟩

section
variable {F : Type} [CxxFloat F]

namespace Spec

/-- The line `name(accepted = a, rejected = r, impossible = i, probability = p)`. -/
def statsLine (name : String) (a r i p : String) : String :=
  name ++ "(accepted = " ++ a ++ ", rejected = " ++ r ++ ", impossible = " ++ i ++ ", probability = " ++ p ++ ")"

end Spec

/-- C94.  The printed line has the name and the four figures in their places. -/
theorem C94_line (fmtE : F → List Char) (s : MoveStats F) :
    String.ofList (s.print fmtE) = statsLine s.getName (String.ofList (fmtE s.getAcceptedRatio))
      (String.ofList (fmtE s.getRejectedRatio)) (String.ofList (fmtE s.getImpossibleRatio))
      (String.ofList (fmtE s.getAverageProbability)) := by
  apply String.toList_injective
  simp [MoveStats.print, statsLine, MoveStats.getName]

/-- C94.  Name and figures can be read off the line, whatever the name: lines of two objects are equal only if names and
printed figures are. -/
theorem C94_readable (fmtE : F → List Char) (hf : ∀ x, ',' ∉ fmtE x ∧ '(' ∉ fmtE x) (s t : MoveStats F)
    (h : s.print fmtE = t.print fmtE) :
    s.getName = t.getName ∧ fmtE s.getAcceptedRatio = fmtE t.getAcceptedRatio ∧
    fmtE s.getRejectedRatio = fmtE t.getRejectedRatio ∧ fmtE s.getImpossibleRatio = fmtE t.getImpossibleRatio ∧
    fmtE s.getAverageProbability = fmtE t.getAverageProbability := by
  unfold MoveStats.print at h
  have e1 : "(accepted = ".toList = '(' :: "accepted = ".toList := rfl
  have e2 : ", rejected = ".toList = ',' :: " rejected = ".toList := rfl
  have e3 : ", impossible = ".toList = ',' :: " impossible = ".toList := rfl
  have e4 : ", probability = ".toList = ',' :: " probability = ".toList := rfl
  rw [e1, e2, e3, e4] at h
  generalize s.getAcceptedRatio = a1 at *
  generalize s.getRejectedRatio = a2 at *
  generalize s.getImpossibleRatio = a3 at *
  generalize s.getAverageProbability = a4 at *
  generalize t.getAcceptedRatio = b1 at *
  generalize t.getRejectedRatio = b2 at *
  generalize t.getImpossibleRatio = b3 at *
  generalize t.getAverageProbability = b4 at *
  simp only [List.append_assoc, List.cons_append] at h
  have np : ∀ x1 x2 x3 x4 : F, '(' ∉ "accepted = ".toList ++ (fmtE x1 ++ ',' :: (" rejected = ".toList ++ (fmtE x2 ++
      ',' :: (" impossible = ".toList ++ (fmtE x3 ++ ',' :: (" probability = ".toList ++ (fmtE x4 ++ ")".toList)))))))  := by
    intro x1 x2 x3 x4
    simp only [List.mem_append, List.mem_cons, (hf x1).2, (hf x2).2, (hf x3).2, (hf x4).2, false_or]
    decide
  obtain ⟨h0, h⟩ := split_last (np _ _ _ _) (np _ _ _ _) h
  rw [List.append_cancel_left_eq] at h
  obtain ⟨h1, h⟩ := split_first (hf _).1 (hf _).1 h
  rw [List.append_cancel_left_eq] at h
  obtain ⟨h2, h⟩ := split_first (hf _).1 (hf _).1 h
  rw [List.append_cancel_left_eq] at h
  obtain ⟨h3, h⟩ := split_first (hf _).1 (hf _).1 h
  rw [List.append_cancel_left_eq] at h
  exact ⟨String.toList_injective h0, h1, h2, h3, List.append_cancel_right h⟩

/-- C94.  The message of the exception for calls out of turn names the move. -/
theorem C94_message (s : MoveStats F) (checks : Bool) (p : F) (hp : s.proposedflag = false) :
    ∃ name, (s.accept checks p).res = .throws (.moveInvalidSequence name) ∧
      (s.reject checks p).res = .throws (.moveInvalidSequence name) ∧
      (s.setImpossible checks).res = .throws (.moveInvalidSequence name) ∧
      s.getName.toList <+: MoveStats.invalidSequenceMessage name := by
  refine ⟨s.name, ?_, ?_, ?_, List.prefix_append _ _⟩ <;>
    simp [MoveStats.accept, MoveStats.reject, MoveStats.setImpossible, MoveStats.updateIfProposed, hp]

end

section
variable {K : Type} [Field K] [LinearOrder K] {A : Arith K}

/-- C94.  A new object prints as accepted 0 and not-a-number for the other ratios. -/
theorem C94_new (h0 : A.rnd 0 = some 0) (fmtE : Num A → List Char) (name : String) :
    String.ofList ((MoveStats.new name : MoveStats (Num A)).print fmtE) =
      statsLine name (String.ofList (fmtE (.fin 0))) (String.ofList (fmtE .nan)) (String.ofList (fmtE .nan))
        (String.ofList (fmtE (MoveStats.new name : MoveStats (Num A)).getAverageProbability)) := by
  rw [C94_line]
  have hz : (CxxFloat.ofNat 0 : Num A) = .fin 0 := by rw [Num.ofNat_eq, Nat.cast_zero, Num.round_of h0]
  have hd : (CxxFloat.ofNat 0 : Num A) / CxxFloat.ofNat 0 = .nan := by
    rw [hz]
    show (if (0 : K) = 0 then (if (0 : K) = 0 then (Num.nan : Num A) else _) else _) = _
    rw [if_pos rfl, if_pos rfl]
  have h1 : (MoveStats.new name : MoveStats (Num A)).getAcceptedRatio = .fin 0 := rfl
  have h2 : (MoveStats.new name : MoveStats (Num A)).getRejectedRatio = .nan := hd
  have h3 : (MoveStats.new name : MoveStats (Num A)).getImpossibleRatio = .nan := hd
  rw [h1, h2, h3]
  rfl

end

/-- C94: a way of printing without commas and parentheses, names with parentheses. -/
example (K : Type) [Field K] [LinearOrder K] (A : Arith K) : (MoveStats.new "flip (2)" : MoveStats (Num A)).print (fun _ => "1.0e+00".toList) =
    "flip (2)(accepted = 1.0e+00, rejected = 1.0e+00, impossible = 1.0e+00, probability = 1.0e+00)".toList := by
  simp [MoveStats.print, MoveStats.new]

end Bwsl
