import Verif.Props.SkContracted
import Verif.Props.BravaisDouble
import Verif.Props.MomentaTriangular
import Verif.Lemmas.Odd

/-! Property C179: opposite momenta on lattices of any shape, in double precision. -/

namespace Bwsl
open Spec

section
variable {A : Arith ℝ} {b : Bravais (Num A)} {size : List Nat}

/-- The two sites lie opposite each other with respect to the one in the middle. -/
def Spec.OppositeSites (size : List Nat) (c c' : List Int) : Prop :=
  ∀ j, j < size.length → coord c j + coord c' j = 2 * (extent size j / 2)

/-- C179.  On a closed lattice of any shape and dimension, sites opposite each other have opposite momenta, bit for bit. -/
theorem C179_momentum (hA : A.IsBinary64) (hs : Buildable size) (hr : Regular b size.length) (l : Lattice (Num A))
    (hl : Lattice.new b size .closed = .ok l) (i i' : Nat) (hi : i < size.prod) (hi' : i' < size.prod) (c c' : List Int)
    (hc : l.grid.getCoordinates i = .ok c) (hc' : l.grid.getCoordinates i' = .ok c') (h : OppositeSites size c c') :
    ∃ k, l.getMomentum i = .ok k ∧ k.length = size.length ∧ l.getMomentum i' = .ok (k.map (fun x => -x)) := by
  rw [(new_parts hl).1, getCoordinates_eq hs.1 (buildable_fits hs) .closed hi, Res.ok.injEq] at hc
  rw [(new_parts hl).1, getCoordinates_eq hs.1 (buildable_fits hs) .closed hi', Res.ok.injEq] at hc'
  have hlab : label size i' = (label size i).map (fun z => -z) := by
    refine ext_coord (by simp [label]) (fun k hk => ?_)
    have hk' : k < size.length := by simpa [label] using hk
    have := h k hk'
    rw [coord_eq (c := (label size i).map _) (by simpa [label] using hk'), List.getElem_map,
      ← coord_eq (c := label size i) (by simpa [label] using hk'), coord_label hk', coord_label hk', hc, hc']
    omega
  obtain ⟨v, h1, h2, h3⟩ := computeMomentum_eq hs hr .closed hi
  obtain ⟨v', h1', h2', h3'⟩ := computeMomentum_eq hs hr .closed hi'
  have hv : v' = v.map (fun x => -x) := by
    have := (C140_opposite (b := b) hA (label size i) (by
      intro z hz
      obtain ⟨k, hk, rfl⟩ := List.getElem_of_mem hz
      have hk' : k < size.length := by simpa [label] using hk
      rw [← coord_eq hk, coord_label hk']
      have := (onGrid_iff.1 (crd_onGrid hs.1.1 hi)).2 k hk'
      have := extent_le hs hk'
      comega) v).2 h1
    rw [← hlab, h1', Res.ok.injEq] at this
    exact this
  have hm := (new_parts hl).2.2.2.2.2
  unfold Lattice.computeMomenta at hm
  rw [show (Grid.new size .closed).hasOpenBoundaries = false from rfl, if_neg (by simp), numsites_eq hs.1] at hm
  obtain ⟨-, h5⟩ := mapRange_eq_ok hm
  obtain ⟨k, h6, h7⟩ := h5 i hi
  obtain ⟨k', h6', h7'⟩ := h5 i' hi'
  rw [h3] at h7
  rw [h3'] at h7'
  obtain ⟨hk, hke⟩ := mapRange_eq_ok h7
  obtain ⟨hk', hke'⟩ := mapRange_eq_ok h7'
  have hkk : k' = k.map (fun x => -x) := by
    refine List.ext_getElem? (fun q => ?_)
    by_cases hq : q < size.length
    · obtain ⟨x, hx, he⟩ := hke q hq
      obtain ⟨x', hx', he'⟩ := hke' q hq
      obtain ⟨s, hs1, he⟩ := Res.bind_eq_ok.1 he
      obtain ⟨w, hw, he⟩ := Res.bind_eq_ok.1 he
      obtain ⟨s', hs1', he'⟩ := Res.bind_eq_ok.1 he'
      obtain ⟨w', hw', he'⟩ := Res.bind_eq_ok.1 he'
      rw [hs1, Res.ok.injEq] at hs1'
      subst hs1'
      rw [hv, subscript_ok (x := -w) (by rw [List.getElem?_map, getElem_of_subscript hw]; rfl), Res.ok.injEq] at hw'
      subst hw'
      rw [Res.ok.injEq] at he he'
      rw [List.getElem?_map, hx, hx', ← he, ← he']
      show some _ = some (-_)
      rw [Num.neg_div (isOdd_binary64 hA)]
    · rw [List.getElem?_eq_none (by omega), List.getElem?_eq_none (by simp; omega)]
  refine ⟨k, ?_, hk, ?_⟩
  · unfold Lattice.getMomentum
    rw [indexIsValid_eq hs hl hi, if_pos rfl, subscript_ok h6]
  · unfold Lattice.getMomentum
    rw [indexIsValid_eq hs hl hi', if_pos rfl, subscript_ok h6', hkk]

/-- C179.  On a closed lattice of any shape and dimension, `AccumulateSk` adds the same, bit for bit, at opposite momenta,
whatever the occupations are and whichever products are fused: equal values stay equal. -/
theorem C179_accumulate {T : Type} {conv : T → Num A} (hA : A.IsBinary64) (f : SkFused) (hsin : ∀ x, A.sin (-x) = -A.sin x)
    (hcos : ∀ x, A.cos (-x) = A.cos x) (hs : Buildable size) (hr : Regular b size.length) (l : Lattice (Num A))
    (hl : Lattice.new b size .closed = .ok l) (occ : List T) (mult : Num A) (old S : List (Num A))
    (hS : l.accumulateSkContracted f conv occ old mult = .ok S) (i i' : Nat) (hi : i < size.prod) (hi' : i' < size.prod)
    (c c' : List Int) (hc : l.grid.getCoordinates i = .ok c) (hc' : l.grid.getCoordinates i' = .ok c')
    (h : OppositeSites size c c') (hold : old[i]? = old[i']?) : S[i]? = S[i']? := by
  obtain ⟨k, hk, -, hk'⟩ := C179_momentum hA hs hr l hl i i' hi hi' c c' hc hc' h
  unfold Lattice.getMomentum at hk hk'
  rw [indexIsValid_eq hs hl hi, if_pos rfl] at hk
  rw [indexIsValid_eq hs hl hi', if_pos rfl] at hk'
  have hg := (new_parts hl).1
  have ho : l.grid.hasOpenBoundaries = false := by rw [hg]; rfl
  have hnum : l.grid.numsites = size.prod := by rw [hg, numsites_eq hs.1]
  unfold Lattice.accumulateSkContracted at hS
  simp only [ho, Bool.false_eq_true, if_false, hnum] at hS
  obtain ⟨new, h3, h4⟩ := Res.bind_eq_ok.1 hS
  rw [Res.ok.injEq] at h4
  subst h4
  obtain ⟨h5l, h5⟩ := mapRange_eq_ok h3
  obtain ⟨v, h6, h7⟩ := h5 i hi
  obtain ⟨v', h6', h7'⟩ := h5 i' hi'
  rw [hk, Res.ok_bind] at h7
  rw [hk', Res.ok_bind] at h7'
  obtain ⟨s, h8, h7⟩ := Res.bind_eq_ok.1 h7
  rw [fourier_neg hA f hsin hcos l occ h8, Res.ok_bind] at h7'
  obtain ⟨o, h9, h7⟩ := Res.bind_eq_ok.1 h7
  rw [subscript_ok (x := o) (by rw [← hold]; exact getElem_of_subscript h9), Res.ok_bind, Res.ok.injEq] at h7'
  rw [Res.ok.injEq] at h7
  rw [sumSquares_neg hA, h7] at h7'
  rw [List.getElem?_append_left (by omega), List.getElem?_append_left (by omega), h6, h6', h7']

/-- C179.  `ComputeSk` returns the same structure factor, bit for bit, at opposite momenta. -/
theorem C179_compute {T : Type} {conv : T → Num A} (hA : A.IsBinary64) (f : SkFused) (hsin : ∀ x, A.sin (-x) = -A.sin x)
    (hcos : ∀ x, A.cos (-x) = A.cos x) (hs : Buildable size) (hr : Regular b size.length) (l : Lattice (Num A))
    (hl : Lattice.new b size .closed = .ok l) (occ : List T) (mult : Num A) (S : List (Num A))
    (hS : l.computeSkContracted f conv occ mult = .ok S) (i i' : Nat) (hi : i < size.prod) (hi' : i' < size.prod)
    (c c' : List Int) (hc : l.grid.getCoordinates i = .ok c) (hc' : l.grid.getCoordinates i' = .ok c')
    (h : OppositeSites size c c') : S[i]? = S[i']? := by
  have hg := (new_parts hl).1
  have ho : l.grid.hasOpenBoundaries = false := by rw [hg]; rfl
  have hnum : l.grid.numsites = size.prod := by rw [hg, numsites_eq hs.1]
  unfold Lattice.computeSkContracted at hS
  simp only [ho, Bool.false_eq_true, if_false] at hS
  exact C179_accumulate hA f hsin hcos hs hr l hl occ mult _ S hS i i' hi hi' c c' hc hc' h (by
    rw [List.getElem?_replicate, List.getElem?_replicate, hnum, if_pos hi, if_pos hi'])

/-- C179.  Without fused products these are the functions of the other properties. -/
theorem C179_plain {T : Type} (conv : T → Num A) (l : Lattice (Num A)) (occ : List T) (sk : List (Num A)) (mult : Num A) :
    l.accumulateSkContracted ⟨false, false, false, .neither⟩ conv occ sk mult = l.accumulateSk conv occ sk mult ∧
    l.computeSkContracted ⟨false, false, false, .neither⟩ conv occ mult = l.computeSk conv occ mult :=
  sk_plain conv l occ sk mult

/-- C179.  A site has one opposite to it exactly if its coordinate along every even extent is not 0. -/
theorem C179_exists (hs : Buildable size) (bd : Boundaries) (i : Nat) (hi : i < size.prod) (c : List Int)
    (hc : (Grid.new size bd).getCoordinates i = .ok c) :
    (∃ i' c', i' < size.prod ∧ (Grid.new size bd).getCoordinates i' = .ok c' ∧ OppositeSites size c c') ↔
      ∀ j, j < size.length → extent size j % 2 = 0 → coord c j ≠ 0 := by
  rw [getCoordinates_eq hs.1 (buildable_fits hs) bd hi, Res.ok.injEq] at hc
  have hg := onGrid_iff.1 (crd_onGrid hs.1.1 hi)
  rw [hc] at hg
  constructor
  · rintro ⟨i', c', hi', hc', h⟩ j hj he h0
    rw [getCoordinates_eq hs.1 (buildable_fits hs) bd hi', Res.ok.injEq] at hc'
    have hg' := (onGrid_iff.1 (crd_onGrid hs.1.1 hi')).2 j hj
    rw [hc'] at hg'
    have := h j hj
    omega
  · intro h
    let c' : List Int := (List.range size.length).map (fun j => 2 * ((extent size j : Int) / 2) - coord c j)
    have hcc : ∀ j, j < size.length → coord c' j = 2 * ((extent size j : Int) / 2) - coord c j := by
      intro j hj
      rw [coord_eq (by simpa [c'] using hj)]
      simp [c']
    have hg' : OnGrid c' size := by
      refine onGrid_iff.2 ⟨by simp [c'], fun j hj => ?_⟩
      have h1 := hg.2 j hj
      have h2 := h j hj
      rw [hcc j hj]
      omega
    refine ⟨idx size c', c', idx_lt hg', ?_, fun j hj => by rw [hcc j hj]; omega⟩
    rw [getCoordinates_eq hs.1 (buildable_fits hs) bd (idx_lt hg'), crd_idx hs.1.1 hg']

/-- C179.  The hypotheses are met on every triangular lattice, for instance. -/
example (hb : triangularLattice = .ok b) : Regular b 2 := tri_regular hb
end
end Bwsl
