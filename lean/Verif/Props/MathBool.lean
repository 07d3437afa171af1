import Verif.Model.MathBool
import Verif.Model.MathMixed
import Verif.Props.MathTypes
import Verif.Props.MathMixed
import Verif.Props.FloatContainers

/-! Property C159: MathUtils at `bool`. -/

namespace Bwsl
open Spec CBool

theorem CBool.ofInt_promote (b : Bool) : CBool.ofInt (promote b) = b := by cases b <;> rfl

/-- C159.  square and cube change nothing, sgn is 0 or 1, absdiff is whether the arguments differ, signeddiff is the difference. -/
theorem C159_values (a b : Bool) : CBool.square a = a ∧ CBool.cube a = a ∧ CBool.sgn a = (if a then 1 else 0) ∧
    CBool.absdiff a b = (a != b) ∧ CBool.signeddiff a b = (if a then 1 else 0) - (if b then 1 else 0) := by
  cases a <;> cases b <;> decide

/-- C159.  accumulate_product is whether all elements are true; accumulate_sum and sum_squared whether any is. -/
theorem C159_sums (v : List Bool) : (CBool.accumulateProduct v = true ↔ ∀ x ∈ v, x = true) ∧
    (CBool.accumulateSum v = true ↔ ∃ x ∈ v, x = true) ∧ (CBool.sumSquared v = true ↔ ∃ x ∈ v, x = true) := by
  have hp : ∀ (v : List Bool) (d : Bool),
      v.foldl (fun d x => CBool.ofInt (promote d * promote x)) d = true ↔ d = true ∧ ∀ x ∈ v, x = true := by
    intro v
    induction v with
    | nil => intro d; simp
    | cons x xs ih =>
      intro d
      rw [List.foldl_cons, ih]
      cases d <;> cases x <;> simp [CBool.ofInt, promote]
  have hs : ∀ (v : List Bool) (d : Bool),
      v.foldl (fun d x => CBool.ofInt (promote d + promote x)) d = true ↔ d = true ∨ ∃ x ∈ v, x = true := by
    intro v
    induction v with
    | nil => intro d; simp
    | cons x xs ih =>
      intro d
      rw [List.foldl_cons, ih]
      cases d <;> cases x <;> simp [CBool.ofInt, promote]
  refine ⟨?_, ?_, ?_⟩
  · unfold CBool.accumulateProduct
    rw [hp]; simp [CBool.ofInt]
  · unfold CBool.accumulateSum
    rw [hs]; simp [CBool.ofInt]
  · unfold CBool.sumSquared
    simp only [(C159_values _ false).1]
    rw [hs]; simp [CBool.ofInt]

/-- C164.  So accumulate_sum is no count: two true elements have the sum true, that is 1. -/
theorem C164_sum_violated : ¬ ∀ v : List Bool, promote (CBool.accumulateSum v) = v.count true := by
  intro h
  exact absurd (h [true, true]) (by decide)

theorem promote_sum (v : List Bool) : (v.map promote).sum = v.count true := by
  induction v with
  | nil => rfl
  | cons x xs ih => rw [List.map_cons, List.sum_cons, ih, List.count_cons]; cases x <;> simp [promote]; ring

theorem promote_cases (b : Bool) : promote b = 0 ∨ promote b = 1 := by cases b <;> simp [promote]

theorem count_take (v : List Bool) (k : Nat) : (v.take k).count true ≤ v.count true :=
  (List.take_sublist k v).count_le true

/-- C159.  With an integer type as the type of the result, accumulate_sum and sum_squared count the true elements, if the count is
in the type. -/
theorem C159_count (t : CInt) (ht : Standard t) (v : List Bool) (h : ((v.count true : Nat) : Int) < t.hi) :
    t.accumulateSumMixed CInt.tInt (v.map promote) = .ok (v.count true : Int) ∧
    t.sumSquared (v.map promote) = .ok (v.count true : Int) := by
  have hl := t.lo_nonpos
  have hh := CInt.hi_ge ht
  have hb : ∀ x ∈ v.map promote, x = 0 ∨ x = 1 := by
    intro x hx
    obtain ⟨b, -, rfl⟩ := List.mem_map.1 hx
    exact promote_cases b
  have hk : ∀ k, t.Has ((v.take k).count true : Int) := fun k => ⟨by omega, by have := count_take v k; omega⟩
  constructor
  · have hi : Standard CInt.tInt := by simp [Standard, CInt.tInt]
    obtain ⟨y, hy⟩ := C135_sum_defined t CInt.tInt ht hi (v.map promote) (fun x hx => by
      rcases hb x hx with rfl | rfl <;> decide) (.inr fun k _ => by
        rw [← List.map_take, promote_sum]; exact hk k)
    rw [hy]
    have := (C135_sum t CInt.tInt ht hi _ y hy).2 (by rw [promote_sum]; exact ⟨by omega, h⟩)
    rw [this, promote_sum]
  · have sq : ∀ w : List Bool, (w.map promote).map (fun x => x * x) = w.map promote := by
      intro w
      rw [List.map_map]
      refine List.map_congr_left fun b _ => ?_
      cases b <;> rfl
    rw [C133_sum_squared t ht (v.map promote) (fun x hx => ?_) (fun k _ => ?_), sq, promote_sum]
    · rcases hb x hx with rfl | rfl
      · exact ⟨⟨by omega, by omega⟩, ⟨by omega, by omega⟩⟩
      · exact ⟨⟨by omega, by omega⟩, ⟨by omega, by omega⟩⟩
    · rw [← List.map_take, sq, promote_sum]; exact hk k

/-- C159.  max is whether any element is true, min whether all are; of an empty container they are undefined. -/
theorem C159_max_min (x : Bool) (xs : List Bool) :
    (∃ m, CBool.max (x :: xs) = .ok m ∧ (m = true ↔ ∃ y ∈ x :: xs, y = true)) ∧
    (∃ m, CBool.min (x :: xs) = .ok m ∧ (m = true ↔ ∀ y ∈ x :: xs, y = true)) ∧
    CBool.max [] = .ub .outOfBounds ∧ CBool.min [] = .ub .outOfBounds := by
  refine ⟨⟨_, rfl, ?_⟩, ⟨_, rfl, ?_⟩, rfl, rfl⟩
  · induction xs generalizing x with
    | nil => simp
    | cons y ys ih =>
      rw [List.foldl_cons, ih]
      cases x <;> cases y <;> simp [promote]
  · induction xs generalizing x with
    | nil => simp
    | cons y ys ih =>
      rw [List.foldl_cons, ih]
      cases x <;> cases y <;> simp [promote]

section
variable {A : Arith ℝ} {f : FloatFormat}

/-- C159.  l2norm is 1 if any element is true and 0 if none is. -/
theorem C159_l2norm (hA : A.IsFormat f) (hS : A.sqrt = Real.sqrt) (v : List Bool) :
    ((∃ x ∈ v, x = true) → CBool.l2norm v = (.fin 1 : Num A)) ∧ ((∀ x ∈ v, x = false) → CBool.l2norm v = (.fin 0 : Num A)) := by
  have one : (CxxFloat.ofInt 1 : Num A) = .fin 1 := by
    rw [Num.ofInt_eq, Int.cast_one]
    have := Num.round_of (FloatFormat.rnd_finite hA (int_finite (K := ℝ) (f := f) (n := 1) (by
      have : (1 : Int) ≤ 2 ^ f.prec := one_le_pow₀ (by norm_num)
      simpa using this)))
    simpa using this
  have h := (C159_sums v).2.2
  constructor
  · intro hv
    have := h.2 hv
    unfold CBool.sumSquared at this
    unfold CBool.l2norm
    rw [this]
    show CxxFloat.sqrt (CxxFloat.ofInt 1 : Num A) = _
    rw [one, Num.sqrt_fin zero_le_one, hS, Real.sqrt_one, ← one, Num.ofInt_eq, Int.cast_one]
  · intro hv
    have : CBool.sumSquared v = false := by
      rw [Bool.eq_false_iff]
      intro h'
      obtain ⟨x, hx, hx'⟩ := h.1 h'
      rw [hv x hx] at hx'; cases hx'
    unfold CBool.sumSquared at this
    unfold CBool.l2norm
    rw [this]
    show CxxFloat.sqrt (CxxFloat.ofInt 0 : Num A) = _
    rw [ofInt_zero hA, Num.sqrt_fin le_rfl, hS, Real.sqrt_zero, Num.round_of (FloatFormat.rnd_zero hA)]

/-- C164.  So it is not the Euclidean norm: that of four true elements is 1, not 2. -/
theorem C164_l2norm_violated (hA : A.IsFormat f) (hS : A.sqrt = Real.sqrt) :
    CBool.l2norm [true, true, true, true] = (.fin 1 : Num A) ∧ √((([true, true, true, true].count true : Nat) : ℝ)) = 2 := by
  refine ⟨(C159_l2norm hA hS _).1 ⟨true, by simp, rfl⟩, ?_⟩
  rw [show (([true, true, true, true].count true : Nat) : ℝ) = 2 ^ 2 by
    rw [show [true, true, true, true].count true = 4 by decide]; norm_num]
  exact Real.sqrt_sq (by norm_num)
end

/-- C159.  sum_into is the disjunction element by element, subtract_into whether the elements differ; both read past the end of a
right side that is shorter.  invert changes nothing. -/
theorem C159_into (l r : List Bool) :
    (l.length ≤ r.length → CBool.sumInto l r = .ok (List.zipWith (· || ·) l r) ∧
      CBool.subtractInto l r = .ok (List.zipWith (· != ·) l r)) ∧
    (r.length < l.length → CBool.sumInto l r = .ub .outOfBounds ∧ CBool.subtractInto l r = .ub .outOfBounds) ∧
    CBool.invert l = l := by
  have key : ∀ (op : Int → Int → Int) (bop : Bool → Bool → Bool),
      (∀ a b, CBool.ofInt (op (promote a) (promote b)) = bop a b) → ∀ l r : List Bool,
      (l.length ≤ r.length → CBool.transformInto op l r = .ok (List.zipWith bop l r)) ∧
      (r.length < l.length → CBool.transformInto op l r = .ub .outOfBounds) := by
    intro op bop h l
    induction l with
    | nil => intro r; exact ⟨fun _ => by simp [CBool.transformInto], fun hl => by simp at hl⟩
    | cons a as ih =>
      intro r
      cases r with
      | nil => exact ⟨fun hl => by simp at hl, fun _ => rfl⟩
      | cons b bs =>
        constructor
        · intro hl
          rw [CBool.transformInto, (ih bs).1 (by simpa using hl), Res.ok_bind, h, List.zipWith_cons_cons]
        · intro hl
          rw [CBool.transformInto, (ih bs).2 (by simpa using hl), Res.ub_bind]
  have ks := key (fun a b => a + b) (· || ·) (by decide) l r
  have kd := key (fun a b => a - b) (· != ·) (by decide) l r
  refine ⟨fun h => ⟨ks.1 h, kd.1 h⟩, fun h => ⟨ks.2 h, kd.2 h⟩, ?_⟩
  unfold CBool.invert
  conv_rhs => rw [← List.map_id l]
  refine List.map_congr_left fun b _ => ?_
  cases b <;> rfl

/-- C164.  subtract_into undoes sum_into exactly if no element is true on both sides. -/
theorem C164_undo_partial (l r : List Bool) (h : l.length ≤ r.length) :
    (CBool.sumInto l r >>= fun s => CBool.subtractInto s r) = .ok l ↔ ∀ p ∈ l.zip r, ¬ (p.1 = true ∧ p.2 = true) := by
  rw [((C159_into l r).1 h).1, Res.ok_bind,
    ((C159_into (List.zipWith (· || ·) l r) r).1 (by rw [List.length_zipWith]; omega)).2, Res.ok.injEq]
  induction l generalizing r with
  | nil => simp
  | cons a as ih =>
    cases r with
    | nil => simp at h
    | cons b bs =>
      rw [List.zipWith_cons_cons, List.zipWith_cons_cons, List.cons.injEq, ih bs (by simpa using h), List.zip_cons_cons,
        List.forall_mem_cons]
      refine and_congr_left fun _ => ?_
      cases a <;> cases b <;> decide

theorem CBool.indexToArrayLoop_eq (i : Nat) (size : List Nat) (h : ∀ s ∈ size, 0 < s) :
    CBool.indexToArrayLoop size.prod i size = .ok ((digits i size).map fun d : Nat => CBool.ofInt d) := by
  induction size generalizing i with
  | nil => rfl
  | cons s ss ih =>
    have hs : s ≠ 0 := by have := h s (by simp); omega
    have hss : ∀ x ∈ ss, 0 < x := fun x hx => h x (by simp [hx])
    have hp : ss.prod ≠ 0 := by have := prod_pos hss; omega
    rw [CBool.indexToArrayLoop, List.prod_cons]
    simp only [udiv, umod, if_neg hs, Res.ok_bind, Nat.mul_div_cancel_left _ (Nat.pos_of_ne_zero hs),
      if_neg hp, ih _ hss, digits, List.map_cons]

/-- C159.  index_to_array with coordinates of type bool on a grid with at most two sites in every direction is the site with that
row-major offset, and array_to_index leads back. -/
theorem C159_index (size : List Nat) (hs : Representable size) (h2 : ∀ s ∈ size, s ≤ 2) (i : Nat) (hi : i < size.prod) :
    ∃ c, CBool.indexToArray i size = .ok c ∧ OnGrid (c.map promote) size ∧ rowMajor (c.map promote) size = i ∧
      CBool.arrayToIndex c size = .ok i := by
  have hg := digits_onGrid hs.1 hi
  have hm : ∀ {c : List Int} {size : List Nat}, OnGrid c size → (∀ s ∈ size, s ≤ 2) → ∀ x ∈ c, x = 0 ∨ x = 1 := by
    intro c size hg hf x hx
    induction hg with
    | nil => simp at hx
    | @cons y s ys ss h1 _ ih =>
      rcases List.mem_cons.1 hx with rfl | hx
      · have := hf s (by simp); omega
      · exact ih (fun s hs => hf s (by simp [hs])) hx
  have e : ((digits i size).map fun d : Nat => CBool.ofInt d).map promote = (digits i size).map (Nat.cast : Nat → Int) := by
    rw [List.map_map]
    refine List.map_congr_left fun d hd => ?_
    have := hm hg h2 (d : Int) (List.mem_map.2 ⟨d, hd, rfl⟩)
    have h3 : d = 0 ∨ d = 1 := by omega
    rcases h3 with rfl | rfl <;> rfl
  refine ⟨_, ?_, e ▸ hg, ?_, ?_⟩
  · unfold CBool.indexToArray
    rw [accumulateProduct_rep hs, CBool.indexToArrayLoop_eq i size hs.1]
  · rw [e]; exact rowMajor_digits i size hs.1 hi
  · unfold CBool.arrayToIndex
    rw [e, C133_array_to_index, arrayToIndex_eq hs _ (onGrid_length hg), rowMajor_digits i size hs.1 hi,
      toSize_natCast (by have := hs.2; omega)]

/-- C164.  In a direction with more sites the coordinate is only whether it is not zero: sites 1 and 2 of three are the same. -/
theorem C164_index_violated : CBool.indexToArray 1 [3] = CBool.indexToArray 2 [3] ∧
    CBool.arrayToIndex [true] [3] = .ok 1 := by
  decide +kernel

/-- The conditions are met by the grid 2x2x1, and by three elements counted in any type. -/
example : Representable [2, 2, 1] ∧ (∀ s ∈ [2, 2, 1], s ≤ 2) ∧ 3 < [2, 2, 1].prod ∧
    (([true, false, true].count true : Nat) : Int) < CInt.tSChar.hi := by
  refine ⟨⟨by decide, by decide⟩, by decide, by decide, by decide⟩

end Bwsl
