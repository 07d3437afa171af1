import Verif.Model.Bravais
import Verif.Spec.Bravais
import Verif.Lemmas.Real

/-! Loops over subscripts, and the point computed by `GetRealSpace`. -/

namespace Bwsl
open Spec Finset

set_option linter.unusedSectionVars false

theorem mapRangeFrom_ok {f : Nat → Res α} {g : Nat → α} {k n : Nat} (h : ∀ i, k ≤ i → i < k + n → f i = .ok (g i)) :
    mapRangeFrom f k n = .ok ((List.range' k n).map g) := by
  induction n generalizing k with
  | zero => rfl
  | succ n ih =>
    rw [mapRangeFrom, h k le_rfl (by omega), Res.ok_bind, ih (fun i h1 h2 => h i (by omega) (by omega)), Res.ok_bind,
      List.range'_succ, List.map_cons]

theorem mapRange_ok {f : Nat → Res α} {g : Nat → α} {n : Nat} (h : ∀ i, i < n → f i = .ok (g i)) :
    mapRange n f = .ok ((List.range n).map g) := by
  rw [mapRange, mapRangeFrom_ok (fun i _ h2 => h i (by omega)), List.range_eq_range']

theorem mapRangeFrom_eq_ok {f : Nat → Res α} {k n : Nat} {xs : List α} (h : mapRangeFrom f k n = .ok xs) :
    xs.length = n ∧ ∀ i, i < n → ∃ x, xs[i]? = some x ∧ f (k + i) = .ok x := by
  induction n generalizing k xs with
  | zero => cases h; exact ⟨rfl, fun i hi => absurd hi (by omega)⟩
  | succ n ih =>
    rw [mapRangeFrom] at h
    obtain ⟨x, hx, h⟩ := Res.bind_eq_ok.1 h
    obtain ⟨ys, hy, h⟩ := Res.bind_eq_ok.1 h
    cases h
    obtain ⟨hl, hi⟩ := ih hy
    refine ⟨by simp [hl], fun i h => ?_⟩
    cases i with
    | zero => exact ⟨x, rfl, hx⟩
    | succ i =>
      obtain ⟨z, h1, h2⟩ := hi i (by omega)
      exact ⟨z, by simpa using h1, by rw [← h2]; congr 1; omega⟩

theorem mapRange_eq_ok {f : Nat → Res α} {n : Nat} {xs : List α} (h : mapRange n f = .ok xs) :
    xs.length = n ∧ ∀ i, i < n → ∃ x, xs[i]? = some x ∧ f i = .ok x := by
  obtain ⟨h1, h2⟩ := mapRangeFrom_eq_ok h
  exact ⟨h1, fun i hi => by simpa using h2 i hi⟩

theorem mapRangeFrom_congr {f f' : Nat → Res α} {k n : Nat} (h : ∀ i, k ≤ i → i < k + n → f i = f' i) :
    mapRangeFrom f k n = mapRangeFrom f' k n := by
  induction n generalizing k with
  | zero => rfl
  | succ n ih => rw [mapRangeFrom, mapRangeFrom, h k le_rfl (by omega), ih (fun i h1 h2 => h i (by omega) (by omega))]

theorem mapRange_congr {f f' : Nat → Res α} {n : Nat} (h : ∀ i, i < n → f i = f' i) : mapRange n f = mapRange n f' :=
  mapRangeFrom_congr (fun i _ h2 => h i (by omega))

theorem subscript_ok {v : List α} {i : Nat} {x : α} (h : v[i]? = some x) : subscript v i = .ok x := by
  unfold subscript; rw [h]

theorem subscript_getD {v : List α} {i : Nat} (h : i < v.length) (d : α) : subscript v i = .ok (v.getD i d) := by
  unfold subscript
  rw [List.getD_eq_getElem?_getD, List.getElem?_eq_getElem h]
  rfl

theorem subscript_none {v : List α} {i : Nat} (h : v.length ≤ i) : subscript v i = .ub .outOfBounds := by
  unfold subscript
  rw [List.getElem?_eq_none h]

section
variable {K : Type} [Field K] [LinearOrder K] [IsStrictOrderedRing K] {A : Arith K}

theorem accumulateFrom_ok (hA : A.IsExact) {f : Nat → Res (Num A)} {g : Nat → K} {k n : Nat} {a : K}
    (h : ∀ i, k ≤ i → i < k + n → f i = .ok (.fin (g i))) :
    accumulateFrom f (.fin a) k n = .ok (.fin (a + ((List.range' k n).map g).sum)) := by
  induction n generalizing k a with
  | zero => simp [accumulateFrom]
  | succ n ih =>
    rw [accumulateFrom, h k le_rfl (by omega), Res.ok_bind, Num.fin_add, Num.round_exact hA,
      ih (fun i h1 h2 => h i (by omega) (by omega)), List.range'_succ, List.map_cons, List.sum_cons, add_assoc]

theorem list_range_sum {M : Type} [AddCommMonoid M] (g : Nat → M) (n : Nat) :
    ((List.range n).map g).sum = ∑ i ∈ range n, g i := by
  induction n with
  | zero => rfl
  | succ n ih => rw [List.range_succ, List.map_append, List.sum_append, ih, Finset.sum_range_succ]; simp

theorem accumulate_ok (hA : A.IsExact) {f : Nat → Res (Num A)} {g : Nat → K} {n : Nat}
    (h : ∀ i, i < n → f i = .ok (.fin (g i))) : accumulate n f = .ok (.fin (∑ i ∈ range n, g i)) := by
  rw [accumulate, Num.zero_eq, accumulateFrom_ok hA (fun i _ h2 => h i (by omega)), zero_add, ← List.range_eq_range',
    list_range_sum]

end

/-- What an exact `Bravais` object holds. -/
structure Holds {K : Type} {A : Arith K} (b : Bravais (Num A)) (d g : Nat) (P Q : List K) (N : List Int) : Prop where
  eq : b = ⟨d, g, P.map .fin, Q.map .fin, N⟩
  small : d * d < 2 ^ 64
  lenP : P.length = d * d
  lenQ : Q.length = d * d
  lenN : N.length = g / 2 * d
  smallN : g / 2 * d < 2 ^ 64

section
variable {K : Type} [Field K] [LinearOrder K] [IsStrictOrderedRing K] {A : Arith K}

theorem offset_lt {d i j : Nat} (hi : i < d) (hj : j < d) : i + j * d < d * d := by
  have : (j + 1) * d ≤ d * d := Nat.mul_le_mul_right d hj
  rw [Nat.add_mul] at this
  omega

theorem offset_eq {d i j : Nat} (h : d * d < W64) (hi : i < d) (hj : j < d) : uadd i (umul j d) = i + j * d := by
  have := offset_lt hi hj
  unfold uadd umul
  rw [Nat.mod_eq_of_lt (a := j * d) (by omega), Nat.mod_eq_of_lt (by omega)]

theorem offset_eq' {d i j : Nat} (h : d * d < W64) (hi : i < d) (hj : j < d) : uadd (umul j d) i = i + j * d := by
  rw [← offset_eq h hi hj]; unfold uadd; rw [Nat.add_comm]

theorem subscript_fin {P : List K} {i : Nat} (h : i < P.length) :
    subscript (P.map (Num.fin (A := A))) i = .ok (.fin (P.getD i 0)) := by
  apply subscript_ok
  rw [List.getElem?_map, List.getD_eq_getElem?_getD, List.getElem?_eq_getElem h]
  rfl

theorem getRealSpace_ok (hA : A.IsExact) {b : Bravais (Num A)} {d g : Nat} {P Q : List K} {N : List Int}
    (hb : Holds b d g P Q N) {c : List Int} (hc : c.length = d) :
    b.getRealSpace c = .ok ((embed d P c).map .fin) := by
  obtain ⟨rfl, hs, hP, hQ, -, -⟩ := hb
  unfold Bravais.getRealSpace
  simp only
  rw [if_pos hc, mapRange_ok (g := fun i => .fin (∑ j ∈ range d, (coord c j : K) * entry d P j i)), embed,
    List.map_map]
  · rfl
  · intro i hi
    refine accumulate_ok hA (g := fun j => (coord c j : K) * entry d P j i) (fun j hj => ?_)
    rw [subscript_getD (by omega) 0, offset_eq hs hi hj, subscript_fin (by rw [hP]; exact offset_lt hi hj)]
    simp only [Res.ok_bind, Num.ofInt_eq, Num.round_exact hA, Num.fin_mul]
    rfl

end

/-! ### Coordinates -/

theorem coord_eq {c : List Int} {j : Nat} (h : j < c.length) : coord c j = c[j] := by
  unfold coord; rw [List.getD_eq_getElem?_getD, List.getElem?_eq_getElem h]; rfl

theorem coord_minus {a b : List Int} (h : a.length = b.length) (j : Nat) :
    coord (minus b a) j = coord b j - coord a j := by
  unfold coord minus
  simp only [List.getD_eq_getElem?_getD, List.getElem?_zipWith]
  by_cases hj : j < a.length
  · rw [List.getElem?_eq_getElem hj, List.getElem?_eq_getElem (h ▸ hj)]; rfl
  · rw [List.getElem?_eq_none (l := a) (by omega), List.getElem?_eq_none (l := b) (by omega)]; rfl

theorem coord_plus {a b : List Int} (h : a.length = b.length) (j : Nat) :
    coord (plus b a) j = coord b j + coord a j := by
  unfold coord plus
  simp only [List.getD_eq_getElem?_getD, List.getElem?_zipWith]
  by_cases hj : j < a.length
  · rw [List.getElem?_eq_getElem hj, List.getElem?_eq_getElem (h ▸ hj)]; rfl
  · rw [List.getElem?_eq_none (l := a) (by omega), List.getElem?_eq_none (l := b) (by omega)]; rfl

theorem ext_coord {a b : List Int} (h : a.length = b.length) (hc : ∀ j, j < a.length → coord a j = coord b j) : a = b := by
  refine List.ext_getElem h (fun j h1 h2 => ?_)
  have := hc j h1
  rwa [coord_eq h1, coord_eq h2] at this

theorem length_minus {a b : List Int} (h : a.length = d) (h' : b.length = d) : (minus b a).length = d := by
  unfold minus; rw [List.length_zipWith, h, h', Nat.min_self]
theorem length_plus {a b : List Int} (h : a.length = d) (h' : b.length = d) : (plus b a).length = d := by
  unfold plus; rw [List.length_zipWith, h, h', Nat.min_self]

theorem near_inLong {a b : List Int} (h : Near d a b) {j : Nat} (hj : j < d) : InLong (coord b j - coord a j) := by
  obtain ⟨h1, h2, h3⟩ := h
  have hl := length_minus h1 h2
  have := h3 _ (List.getElem_mem (hl ▸ hj : j < (minus b a).length))
  rw [← coord_eq, coord_minus (h1.trans h2.symm)] at this
  comega

theorem near_of {a b : List Int} (h1 : a.length = d) (h2 : b.length = d)
    (h : ∀ j, j < d → InLong (coord b j - coord a j)) : Near d a b := by
  refine ⟨h1, h2, fun x hx => ?_⟩
  obtain ⟨j, hj, rfl⟩ := List.getElem_of_mem hx
  have := h j (length_minus h1 h2 ▸ hj)
  rw [← coord_minus (h1.trans h2.symm), coord_eq hj] at this
  comega

theorem range_map_minus {a b : List Int} (h1 : a.length = d) (h2 : b.length = d) :
    (List.range d).map (fun i => coord b i - coord a i) = minus b a := by
  refine List.ext_getElem (by simp [length_minus h1 h2]) (fun j hj hj' => ?_)
  rw [List.getElem_map, List.getElem_range, ← coord_eq hj', coord_minus (h1.trans h2.symm)]

section
variable {F : Type} [CxxFloat F]

theorem getVector_eq {b : Bravais F} {x y : List Int} (h : Near b.dim x y) :
    b.getVector x y = b.getRealSpace (minus y x) := by
  unfold Bravais.getVector
  rw [mapRange_ok (g := fun i => coord y i - coord x i), Res.ok_bind, range_map_minus h.1 h.2.1]
  intro i hi
  rw [subscript_getD (by rw [h.2.1]; exact hi) 0, subscript_getD (by rw [h.1]; exact hi) 0]
  exact long_ok (near_inLong h hi)

/-- Points whose difference does not fit are undefined. -/
theorem getVector_near {b : Bravais F} {x y : List Int} {v : List F} (hx : x.length = b.dim) (hy : y.length = b.dim)
    (h : b.getVector x y = .ok v) : Near b.dim x y := by
  unfold Bravais.getVector at h
  obtain ⟨p, hp, -⟩ := Res.bind_eq_ok.1 h
  refine near_of hx hy (fun j hj => ?_)
  obtain ⟨z, -, hz⟩ := (mapRange_eq_ok hp).2 j hj
  rw [subscript_getD (by omega) 0, subscript_getD (by omega) 0] at hz
  exact (long_eq_ok.1 hz).1

end

section
variable {K : Type} [Field K] [LinearOrder K] [IsStrictOrderedRing K] {A : Arith K}

theorem getVector_ok (hA : A.IsExact) {b : Bravais (Num A)} {d g : Nat} {P Q : List K} {N : List Int}
    (hb : Holds b d g P Q N) {x y : List Int} (h : Near d x y) :
    b.getVector x y = .ok ((embed d P (minus y x)).map .fin) := by
  have hd : b.dim = d := by rw [hb.eq]
  rw [getVector_eq (hd ▸ h), getRealSpace_ok hA hb (length_minus h.1 h.2.1)]

theorem embed_length (d : Nat) (P : List K) (c : List Int) : (embed d P c).length = d := by simp [embed]

theorem embed_getElem (d : Nat) (P : List K) (c : List Int) (i : Nat) (h : i < (embed d P c).length) :
    (embed d P c)[i] = ∑ j ∈ range d, (coord c j : K) * entry d P j i := by simp [embed]

theorem embed_plus (P : List K) {x y : List Int} (h : x.length = y.length) :
    embed d P (plus x y) = List.zipWith (· + ·) (embed d P x) (embed d P y) := by
  refine List.ext_getElem (by simp [embed_length]) (fun i h1 h2 => ?_)
  rw [List.getElem_zipWith, embed_getElem, embed_getElem, embed_getElem, ← Finset.sum_add_distrib]
  refine Finset.sum_congr rfl (fun j _ => ?_)
  rw [coord_plus h.symm]; push_cast; ring

theorem embed_minus_swap (P : List K) {x y : List Int} (h : x.length = y.length) :
    embed d P (minus x y) = (embed d P (minus y x)).map (- ·) := by
  refine List.ext_getElem (by simp [embed_length]) (fun i h1 h2 => ?_)
  rw [List.getElem_map, embed_getElem, embed_getElem, ← Finset.sum_neg_distrib]
  refine Finset.sum_congr rfl (fun j _ => ?_)
  rw [coord_minus h.symm, coord_minus h]; push_cast; ring

theorem plus_minus_minus {x y z : List Int} (h1 : x.length = d) (h2 : y.length = d) (h3 : z.length = d) :
    plus (minus y x) (minus z y) = minus z x := by
  have l1 := length_minus h1 h2
  have l2 := length_minus h2 h3
  have l3 := length_minus h1 h3
  refine ext_coord ((length_plus l2 l1).trans l3.symm) (fun j _ => ?_)
  rw [coord_plus (l2.trans l1.symm), coord_minus (h1.trans h2.symm), coord_minus (h2.trans h3.symm),
    coord_minus (h1.trans h3.symm)]
  ring

end
end Bwsl
