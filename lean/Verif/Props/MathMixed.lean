import Verif.Model.MathMixed
import Verif.Props.MathTypes

/-! Property C135: sums and products of integers with a result type other than that of the elements. -/

namespace Bwsl
open Spec CInt

namespace CInt

/-- Case distinction on two types, with numerals for the bounds. -/
macro "int_pairs" t:ident ht:ident u:ident hu:ident : tactic => `(tactic| (
  obtain ⟨b, s⟩ := $t:ident
  obtain ⟨b', s'⟩ := $u:ident
  simp only [Standard] at $ht:ident $hu:ident
  rcases $ht:ident with h | h | h | h <;> subst h <;> cases s <;>
    rcases $hu:ident with h' | h' | h' | h' <;> subst h' <;> cases s' <;>
    simp [Has, hi, lo, promote, tInt, common, Standard] at *))

theorem standard_common {t u : CInt} (ht : Standard t) (hu : Standard u) : Standard (common t u) := by
  int_pairs t ht u hu

theorem bits_common {t u : CInt} (ht : Standard t) (hu : Standard u) : t.bits ≤ (common t u).bits := by
  int_pairs t ht u hu

theorem common_has_left {t u : CInt} (ht : Standard t) (hu : Standard u) (hs : (common t u).signed = true) {x : Int}
    (h : t.Has x) : (common t u).Has x := by
  int_pairs t ht u hu <;> omega

theorem common_has_right {t u : CInt} (ht : Standard t) (hu : Standard u) (hs : (common t u).signed = true) {x : Int}
    (h : u.Has x) : (common t u).Has x := by
  int_pairs t ht u hu <;> omega

theorem common_self {t : CInt} : common t t = t.promote := by unfold common; simp

/-- What a completed addition has done, after the conversion to the result type. -/
theorem addMixed_congr {t u : CInt} (ht : Standard t) (hu : Standard u) {a x y : Int} (h : addMixed t u a x = .ok y) :
    t.wrap y = t.wrap (a + x) := by
  have hd : (2 : Int) ^ t.bits ∣ 2 ^ (common t u).bits := pow_dvd_pow _ (bits_common ht hu)
  have e : (2 : Int) ^ (common t u).bits ∣ (common t u).wrap a + (common t u).wrap x - (a + x) := by
    rw [add_sub_add_comm]
    have k : ∀ z, (2 : Int) ^ (common t u).bits ∣ (common t u).wrap z - z := fun z => by
      rw [← neg_sub]; exact dvd_neg.2 (wrap_dvd _ z)
    exact dvd_add (k a) (k x)
  apply wrap_congr
  refine hd.trans ?_
  unfold addMixed arith at h
  split at h
  · split at h
    · cases h; exact e
    · cases h
  · cases h
    have := wrap_dvd (common t u) ((common t u).wrap a + (common t u).wrap x)
    have k := dvd_sub e this
    rwa [show ∀ p q r : Int, p - q - (p - r) = r - q from fun p q r => by ring] at k

theorem addMixed_ok {t u : CInt} (ht : Standard t) (hu : Standard u) {a x : Int} (ha : t.Has a) (hx : u.Has x)
    (h : t.Has (a + x) ∨ (common t u).signed = false) : ∃ y, addMixed t u a x = .ok y := by
  unfold addMixed arith
  cases hs : (common t u).signed
  · exact ⟨_, rfl⟩
  · rcases h with h | h
    · rw [wrap_of_has (standard_common ht hu) (common_has_left ht hu hs ha),
        wrap_of_has (standard_common ht hu) (common_has_right ht hu hs hx), if_pos (common_has_left ht hu hs h)]
      exact ⟨_, rfl⟩
    · rw [hs] at h; cases h

theorem foldSum_congr {t u : CInt} (ht : Standard t) (hu : Standard u) (v : List Int) :
    ∀ (acc y : Int), t.fold (addMixed t u) (t.wrap acc) v = .ok y → y = t.wrap (acc + v.sum) := by
  induction v with
  | nil => intro acc y h; rw [fold] at h; cases h; simp
  | cons x xs ih =>
    intro acc y h
    rw [fold] at h
    obtain ⟨z, e1, e2⟩ := Res.bind_eq_ok.1 h
    have e3 : t.wrap z = t.wrap (acc + x) := by
      rw [addMixed_congr ht hu e1]
      apply wrap_congr
      rw [add_sub_add_right_eq_sub, ← neg_sub]
      exact dvd_neg.2 (wrap_dvd t acc)
    rw [e3] at e2
    rw [ih _ _ e2, List.sum_cons, add_assoc]

theorem foldSum_ok {t u : CInt} (ht : Standard t) (hu : Standard u) (v : List Int) :
    ∀ acc : Int, (∀ x ∈ v, u.Has x) → (common t u).signed = false ∨ (∀ k ≤ v.length, t.Has (acc + (v.take k).sum)) →
      ∃ y, t.fold (addMixed t u) (t.wrap acc) v = .ok y := by
  induction v with
  | nil => intro acc _ _; exact ⟨_, rfl⟩
  | cons x xs ih =>
    intro acc hv hp
    have hx := hv x (by simp)
    have hadd : t.Has (t.wrap acc + x) ∨ (common t u).signed = false := by
      rcases hp with h | h
      · exact Or.inr h
      · left
        have h0 : t.Has acc := by have := h 0 (by simp); simpa using this
        have h1 : t.Has (acc + x) := by have := h 1 (by simp); simpa using this
        rwa [wrap_of_has ht h0]
    obtain ⟨z, e1⟩ := addMixed_ok ht hu (has_wrap ht acc) hx hadd
    rw [fold, e1, Res.ok_bind]
    have e3 : t.wrap z = t.wrap (acc + x) := by
      rw [addMixed_congr ht hu e1]
      apply wrap_congr
      rw [add_sub_add_right_eq_sub, ← neg_sub]
      exact dvd_neg.2 (wrap_dvd t acc)
    rw [e3]
    refine ih _ (fun w hw => hv w (by simp [hw])) ?_
    rcases hp with h | h
    · exact Or.inl h
    · right
      intro k hk
      have := h (k + 1) (by simp; omega)
      rwa [List.take_succ_cons, List.sum_cons, ← add_assoc] at this

end CInt

/-- C135.  Whenever `accumulate_sum` with result type `t` and elements of type `u` returns, the result is the value of `t`
that is congruent to the sum modulo 2^bits; hence the sum itself if that is in `t`. -/
theorem C135_sum (t u : CInt) (ht : Standard t) (hu : Standard u) (v : List Int) (y : Int)
    (h : t.accumulateSumMixed u v = .ok y) : Reduces t v.sum y ∧ (t.Has v.sum → y = v.sum) := by
  unfold accumulateSumMixed at h
  have h' : t.fold (addMixed t u) (t.wrap 0) v = .ok y := by rwa [wrap_of_has ht (has_zero ht)]
  have e := foldSum_congr ht hu v 0 y h'
  rw [zero_add] at e
  exact ⟨(reduces_iff ht).2 e, fun hs => by rw [e, wrap_of_has ht hs]⟩

/-- C135.  It returns if all partial sums are in `t`, and for all elements if the usual arithmetic conversions lead to an
unsigned type. -/
theorem C135_sum_defined (t u : CInt) (ht : Standard t) (hu : Standard u) (v : List Int) (hv : ∀ x ∈ v, u.Has x)
    (h : (common t u).signed = false ∨ ∀ k ≤ v.length, t.Has (v.take k).sum) : ∃ y, t.accumulateSumMixed u v = .ok y := by
  have := foldSum_ok ht hu v 0 hv (by simpa using h)
  rwa [wrap_of_has ht (has_zero ht)] at this

theorem list_sum_bound {l h : Int} (v : List Int) (hv : ∀ x ∈ v, l ≤ x ∧ x ≤ h) : v.length * l ≤ v.sum ∧ v.sum ≤ v.length * h := by
  induction v with
  | nil => simp
  | cons x xs ih =>
    have h1 := hv x (by simp)
    have h2 := ih fun z hz => hv z (by simp [hz])
    rw [List.sum_cons, List.length_cons]
    push_cast
    constructor <;> nlinarith

/-- C135.  A wider result type is safe: up to 2^(b-b') elements of a type of b' bits are summed exactly in a type of b
bits of the same signedness, and up to 2^(b-b'-1) of an unsigned type in a signed one. -/
theorem C135_sum_wide (t u : CInt) (ht : Standard t) (hu : Standard u) (v : List Int) (hv : ∀ x ∈ v, u.Has x)
    (hs : t.signed = true ∨ u.signed = false) (hb : u.bits < t.bits)
    (hn : (v.length : Int) ≤ 2 ^ (t.bits - u.bits - (if t.signed = u.signed then 0 else 1))) :
    t.accumulateSumMixed u v = .ok v.sum := by
  have hp : ∀ k ≤ v.length, t.Has (v.take k).sum := by
    intro k hk
    have h1 := list_sum_bound (l := u.lo) (h := u.hi - 1) (v.take k) fun x hx =>
      ⟨(hv x (List.mem_of_mem_take hx)).1, by have := (hv x (List.mem_of_mem_take hx)).2; omega⟩
    have h2 : ((v.take k).length : Int) ≤ v.length := by rw [List.length_take]; push_cast; omega
    have h0 : (0 : Int) ≤ ((v.take k).length : Int) := by positivity
    generalize ((v.take k).length : Int) = m at *
    generalize (v.length : Int) = n at *
    generalize (v.take k).sum = s at *
    clear hv
    int_pairs t ht u hu <;> constructor <;> omega
  obtain ⟨y, e⟩ := C135_sum_defined t u ht hu v hv (Or.inr hp)
  rw [e, (C135_sum t u ht hu v y e).2 (by simpa using hp v.length le_rfl)]

/-- C135.  With the element type as result type it is the function of C133. -/
theorem C135_sum_same (t : CInt) (ht : Standard t) (v : List Int) (hv : ∀ x ∈ v, t.Has x) :
    t.accumulateSumMixed t v = t.accumulateSum v := by
  unfold accumulateSumMixed CInt.accumulateSum
  have key : ∀ (v : List Int) (acc : Int), t.Has acc → (∀ x ∈ v, t.Has x) → t.fold (addMixed t t) acc v = t.fold t.add acc v := by
    intro v
    induction v with
    | nil => intro acc _ _; rfl
    | cons x xs ih =>
      intro acc ha hv
      have e : addMixed t t acc x = t.add acc x := by
        unfold addMixed CInt.add
        rw [common_self, wrap_of_has (standard_promote ht) (has_promote ht ha),
          wrap_of_has (standard_promote ht) (has_promote ht (hv x (by simp)))]
      rw [fold, fold, e]
      cases t.add acc x with
      | ok y => exact ih _ (has_wrap ht y) fun z hz => hv z (by simp [hz])
      | _ => rfl
  exact key v 0 (has_zero ht) hv

/-- C135.  `accumulate_product` with result type `t` is the function of C133 on the elements converted to `t`; if they are in
`t`, on the elements. -/
theorem C135_product (t : CInt) (ht : Standard t) (v : List Int) :
    t.accumulateProductMixed v = t.accumulateProduct (v.map t.wrap) ∧
    ((∀ x ∈ v, t.Has x) → t.accumulateProductMixed v = t.accumulateProduct v) ∧
    ((∀ x ∈ v, t.Has x) → (∀ k ≤ v.length, t.Has (v.take k).prod) → t.accumulateProductMixed v = .ok v.prod) := by
  have key : ∀ (v : List Int) (acc : Int), t.fold (fun a x => t.mul a (t.wrap x)) acc v = t.fold t.mul acc (v.map t.wrap) := by
    intro v
    induction v with
    | nil => intro acc; rfl
    | cons x xs ih =>
      intro acc
      rw [List.map_cons, fold, fold]
      cases t.mul acc (t.wrap x) with
      | ok y => exact ih _
      | _ => rfl
  have h1 : t.accumulateProductMixed v = t.accumulateProduct (v.map t.wrap) := key v 1
  have h2 : (∀ x ∈ v, t.Has x) → t.accumulateProductMixed v = t.accumulateProduct v := fun hv => by
    have e : v.map t.wrap = v.map id := List.map_congr_left fun x hx => wrap_of_has ht (hv x hx)
    rw [h1, e, List.map_id]
  exact ⟨h1, h2, fun hv hp => by rw [h2 hv]; exact (C133_product t ht v).1 hp⟩

/-- Sums of bytes in `int`, of negative numbers in an unsigned type, and into a type that is too narrow. -/
example : tInt.accumulateSumMixed tUChar [250, 250, 250] = .ok 750 ∧ tUInt.accumulateSumMixed tInt [-5, 3, 10] = .ok 8 ∧
    tSChar.accumulateSumMixed tInt [100, 100] = .ok (-56) ∧ tLong.accumulateSumMixed tInt [2147483647, 1] = .ok 2147483648 ∧
    tInt.accumulateSum [2147483647, 1] = .ub .signedOverflow ∧ common tLong tUInt = tLong ∧ common tInt tUInt = tUInt ∧
    common tShort tUChar = tInt := by decide +kernel

example : Standard tInt ∧ Standard tUChar ∧ (∀ x ∈ ([250, 250, 250] : List Int), tUChar.Has x) ∧
    (([250, 250, 250] : List Int).length : Int) ≤ 2 ^ (tInt.bits - tUChar.bits - 1) := by
  refine ⟨by right; right; left; rfl, by left; rfl, by decide, by decide⟩

end Bwsl
