import Verif.Cxx.Float
import Verif.Cxx.SignedZero
import Verif.Lemmas.Loop

/-! Maps between floating-point types that commute with the operations. -/

namespace Bwsl

/-- A map that commutes with the operations, with division by divisors and powers of bases that are `good`. -/
structure FloatHom (F G : Type) [CxxFloat F] [CxxFloat G] where
  f : F → G
  good : F → Prop
  /-- neither negative nor a negative zero -/
  pos : F → Prop
  zero : f CxxFloat.zero = CxxFloat.zero
  lit : ∀ q, f (CxxFloat.lit q) = CxxFloat.lit q
  nan : f CxxFloat.nan = CxxFloat.nan
  ofNat : ∀ n, f (CxxFloat.ofNat n) = CxxFloat.ofNat n
  ofInt : ∀ n, f (CxxFloat.ofInt n) = CxxFloat.ofInt n
  pi : f CxxFloat.pi = CxxFloat.pi
  e : f CxxFloat.e = CxxFloat.e
  neg : ∀ x, f (-x) = -f x
  add : ∀ x y, f (x + y) = f x + f y
  sub : ∀ x y, f (x - y) = f x - f y
  mul : ∀ x y, f (x * y) = f x * f y
  div : ∀ x y, good y → f (x / y) = f x / f y
  pow : ∀ x y, good x → f (CxxFloat.pow x y) = CxxFloat.pow (f x) (f y)
  lt : ∀ x y, CxxFloat.lt x y = CxxFloat.lt (f x) (f y)
  le : ∀ x y, CxxFloat.le x y = CxxFloat.le (f x) (f y)
  eq : ∀ x y, CxxFloat.eq x y = CxxFloat.eq (f x) (f y)
  abs : ∀ x, f (CxxFloat.abs x) = CxxFloat.abs (f x)
  sqrt : ∀ x, f (CxxFloat.sqrt x) = CxxFloat.sqrt (f x)
  log : ∀ x, f (CxxFloat.log x) = CxxFloat.log (f x)
  sin : ∀ x, f (CxxFloat.sin x) = CxxFloat.sin (f x)
  cos : ∀ x, f (CxxFloat.cos x) = CxxFloat.cos (f x)
  good_zero : good CxxFloat.zero
  good_ofNat : ∀ n, good (CxxFloat.ofNat n)
  good_ofInt : ∀ n, good (CxxFloat.ofInt n)
  good_e : good CxxFloat.e
  good_add : ∀ x y, good x → good (x + y)
  good_sub : ∀ x y, good x → good (x - y)
  good_sub_of_lt : ∀ x y v, CxxFloat.lt y v = true → CxxFloat.lt v x = true → good (x - y)
  good_div_self : ∀ x, good (x / x)
  good_sqrt : ∀ x, good x → good (CxxFloat.sqrt x)
  pos_lit : ∀ q, 0 ≤ q → pos (CxxFloat.lit q)
  pos_mul : ∀ x y, pos x → pos y → pos (x * y)
  good_of_pos : ∀ x, pos x → good x

/-- Rounding does not change signs. -/
def Arith.KeepsSign {K : Type u} [Zero K] [LE K] (A : Arith K) : Prop := ∀ x y, A.rnd x = some y → 0 ≤ x → 0 ≤ y

section SNum
variable {K : Type} [Field K] [LinearOrder K] [IsStrictOrderedRing K] {A : Arith K}

omit [IsStrictOrderedRing K] in
theorem SNum.not_minusZero_add {x : SNum A} (y : SNum A) (h : ¬ x.IsMinusZero) : ¬ (x + y).IsMinusZero := by
  rintro ⟨-, h2⟩
  have h2 : ((x.isZero && x.minus) && (y.isZero && y.minus)) = true := h2
  simp only [Bool.and_eq_true] at h2
  exact h ⟨by simpa [SNum.isZero] using h2.1.1, h2.1.2⟩

/-- Forgetting the sign of zeros. -/
noncomputable def SNum.forget (hA : A.KeepsSign) : FloatHom (SNum A) (Num A) where
  f := SNum.val
  good x := ¬ x.IsMinusZero
  pos x := x.sign = false
  zero := rfl
  lit _ := rfl
  nan := rfl
  ofNat _ := rfl
  ofInt _ := rfl
  pi := rfl
  e := rfl
  neg _ := rfl
  add _ _ := rfl
  sub _ _ := rfl
  mul _ _ := rfl
  div x y h := by
    show (SNum.div x y).val = _
    unfold SNum.div
    by_cases hz : y.isZero = true
    · rw [if_pos hz]
      have hy : y.val = .fin 0 := by simpa [SNum.isZero] using hz
      have hm : y.minus = false := by
        cases hm : y.minus with
        | false => rfl
        | true => exact absurd ⟨hy, hm⟩ h
      rw [hy, hm]
      cases hx : x.val with
      | nan => rfl
      | inf n => show Num.inf (n != false) = Num.inf (n != decide ((0 : K) < 0)); simp
      | fin a =>
        show _ = (if (0 : K) = 0 then (if a = 0 then Num.nan else Num.inf (decide (a < 0))) else _)
        rw [if_pos rfl]
        by_cases ha : a = 0
        · simp [ha]
        · simp [ha]
    · rw [if_neg hz]; rfl
  pow x y h := by
    show (SNum.pow x y).val = _
    unfold SNum.pow
    simp only
    rw [if_neg]
    · rfl
    · rintro ⟨h1, h2, -⟩
      exact h ⟨by simpa [SNum.isZero] using h1, h2⟩
  lt _ _ := rfl
  le _ _ := rfl
  eq _ _ := rfl
  abs _ := rfl
  sqrt _ := rfl
  log _ := rfl
  sin _ := rfl
  cos _ := rfl
  good_zero h := nomatch h.2
  good_ofNat n h := nomatch h.2
  good_ofInt n h := nomatch h.2
  good_e h := nomatch h.2
  good_add x y h := SNum.not_minusZero_add y h
  good_sub x y h := SNum.not_minusZero_add y.neg h
  good_sub_of_lt x y v h1 h2 := by
    rintro ⟨-, h⟩
    have h : ((x.isZero && x.minus) && (y.neg.isZero && y.neg.minus)) = true := h
    simp only [Bool.and_eq_true] at h
    have hx : x.val = .fin 0 := by simpa [SNum.isZero] using h.1.1
    have hy : y.neg.val = .fin 0 := by simpa [SNum.isZero] using h.2.1
    have h1 : y.val.lt v.val = true := h1
    have h2 : v.val.lt x.val = true := h2
    rw [hx] at h2
    have hy : y.val.neg = .fin 0 := hy
    cases hyv : y.val with
    | nan => rw [hyv] at hy; cases hy
    | inf n => rw [hyv] at hy; cases hy
    | fin b =>
      rw [hyv] at hy h1
      have : -b = 0 := by simpa [Num.neg] using hy
      obtain rfl : b = 0 := by linarith
      cases hv : v.val with
      | nan => rw [hv] at h1; cases h1
      | inf n => rw [hv] at h1 h2; cases n <;> simp [Num.lt] at h1 h2
      | fin c =>
        rw [hv] at h1 h2
        simp [Num.lt] at h1 h2
        linarith
  good_div_self x := by
    rintro ⟨h1, h2⟩
    have h1 : (SNum.div x x).val = .fin 0 := h1
    have h2 : (SNum.div x x).minus = true := h2
    unfold SNum.div at h1 h2
    split at h2
    · split at h2
      · cases h2
      · cases h2
      · split at h2 <;> cases h2
    · simp at h2
  good_sqrt x h := by
    rintro ⟨-, h2⟩
    have h2 : (x.isZero && x.minus) = true := h2
    simp only [Bool.and_eq_true] at h2
    exact h ⟨by simpa [SNum.isZero] using h2.1, h2.2⟩
  pos_lit q hq := by
    have hq' : (0 : K) ≤ (q : K) := by exact_mod_cast hq
    show (SNum.round A (q : K)).sign = false
    unfold SNum.sign
    split
    · exact decide_eq_false (not_lt.2 hq')
    · show (Num.round A (q : K)).isNeg = false
      unfold Num.round
      cases h : A.rnd (q : K) with
      | none => exact decide_eq_false (not_lt.2 hq')
      | some y => exact decide_eq_false (not_lt.2 (hA _ _ h hq'))
  pos_mul x y hx hy := by
    show (SNum.mul x y).sign = false
    unfold SNum.sign
    split
    · show (x.sign != y.sign) = false
      rw [hx, hy]; rfl
    · show (Num.mul x.val y.val).isNeg = false
      have key : ∀ z : SNum A, z.sign = false → z.val = .nan ∨ z.val = .inf false ∨ ∃ a, 0 ≤ a ∧ z.val = .fin a := by
        intro z hz
        unfold SNum.sign at hz
        cases hv : z.val with
        | nan => exact Or.inl rfl
        | inf n =>
          rw [hv] at hz
          simp [SNum.isZero, hv, Num.isNeg] at hz
          right; left; rw [hz]
        | fin a =>
          right; right
          refine ⟨a, ?_, rfl⟩
          by_cases ha : a = 0
          · exact ha.ge
          · simpa [SNum.isZero, hv, Num.isNeg, ha] using hz
      rcases key x hx with h | h | ⟨a, ha, h⟩ <;> rcases key y hy with h' | h' | ⟨b, hb, h'⟩ <;> rw [h, h'] <;> try rfl
      · show Num.isNeg (if b = 0 then _ else _) = false
        split
        · rfl
        · simp [Num.isNeg, hb]
      · show Num.isNeg (if a = 0 then _ else _) = false
        split
        · rfl
        · simp [Num.isNeg, ha]
      · show (Num.round A (a * b)).isNeg = false
        have hab := mul_nonneg ha hb
        unfold Num.round
        cases h : A.rnd (a * b) with
        | none => exact decide_eq_false (not_lt.2 hab)
        | some y => exact decide_eq_false (not_lt.2 (hA _ _ h hab))
  good_of_pos x hx := by
    rintro ⟨h1, h2⟩
    have : x.sign = x.minus := by simp [SNum.sign, SNum.isZero, h1]
    rw [hx, h2] at this
    cases this

end SNum
end Bwsl
