import Verif.Props.Jump

/-! Property C111: jumps on grids of any extent. -/

namespace Bwsl
open Spec

/-- Half the extent reduced to the range of `int`, [-2^31, 2^31). -/
def Spec.halfInt (s : Nat) : Int := (((s / 2 : Nat) : Int) + 2147483648) % 4294967296 - 2147483648

/-- The component of the jump for the difference `d` of the coordinates, when half the extent is `h`. -/
def Spec.folded (s : Nat) (d : Int) : Int :=
  if 0 ≤ halfInt s then
    if d < -halfInt s ∨ (s % 2 = 0 ∧ d = -halfInt s) then d + s
    else if d > s - halfInt s ∨ (s % 2 = 1 ∧ d = s - halfInt s) then d - s
    else d
  else if d ≤ halfInt s then d + s else d

theorem toInt32_half (s : Nat) : Grid.toInt32 (s / 2) = halfInt s := by
  unfold Grid.toInt32 halfInt
  simp only
  split <;> omega

theorem jumpOne_large {s : Nat} (hs0 : 0 < s) (hs : s < 2 ^ 63) {d : Int} (h1 : -(s : Int) < d) (h2 : d < s) :
    Grid.jumpOne s d = if halfInt s = -2147483648 then .ub .signedOverflow else .ok (folded s d) := by
  have hr : -2147483648 ≤ halfInt s ∧ halfInt s < 2147483648 := by unfold halfInt; omega
  have hle : halfInt s ≤ ((s / 2 : Nat) : Int) := by unfold halfInt; omega
  unfold Grid.jumpOne folded
  simp only [toInt32_half]
  split
  · rfl
  · rename_i hne
    by_cases hc : d > halfInt s
    · simp only [if_pos hc]
      have hlow : -9223372036854775808 ≤ d - s := by unfold halfInt at hc hr hle; omega
      have hsub : Grid.subMixed d s = d - s := subMixed_eq (by omega) (by comega)
      have hadd : Grid.addMixed (d - s) s = d - s + s := addMixed_eq (by comega)
      rw [hsub, hadd, sub_add_cancel]
      split_ifs <;> first | rfl | omega
    · simp only [if_neg hc]
      by_cases h0 : 0 ≤ halfInt s
      · rw [if_pos h0]
        split
        · rw [addMixed_eq (by comega)]
        · split_ifs
          · omega
          · rfl
      · rw [if_neg h0, if_pos (by omega), if_pos (by omega), addMixed_eq (by comega)]

theorem jumpLoop_large {size : List Nat} (hs : ∀ s ∈ size, s < 2 ^ 63) (h0 : ∀ s ∈ size, 0 < s) {a b : List Int} (ha : OnGrid a size)
    (hb : OnGrid b size) :
    ((∃ s ∈ size, halfInt s = -2147483648) → Grid.jumpLoop size.length size (zop (· - ·) b a) = .ub .signedOverflow) ∧
    ((∀ s ∈ size, halfInt s ≠ -2147483648) →
      Grid.jumpLoop size.length size (zop (· - ·) b a) = .ok (List.zipWith folded size (zop (· - ·) b a))) := by
  induction ha generalizing b with
  | nil => cases hb; exact ⟨fun ⟨_, h, _⟩ => (List.not_mem_nil h).elim, fun _ => rfl⟩
  | @cons x s xs ss hx hxs ih =>
    cases hb with
    | @cons y _ ys _ hy hys =>
      obtain ⟨i1, i2⟩ := ih (fun t ht => hs t (by simp [ht])) (fun t ht => h0 t (by simp [ht])) hys
      have er := jumpOne_large (h0 s (by simp)) (hs s (by simp)) (d := y - x) (by omega) (by omega)
      refine ⟨fun h => ?_, fun h => ?_⟩
      · simp only [zop, List.length_cons, Grid.jumpLoop, er]
        split
        · rfl
        · rename_i hne
          rw [Res.ok_bind, i1 ?_]
          · rfl
          · obtain ⟨t, ht, ht'⟩ := h
            rcases List.mem_cons.1 ht with rfl | ht
            · exact absurd ht' hne
            · exact ⟨t, ht, ht'⟩
      · simp only [zop, List.length_cons, Grid.jumpLoop, er, if_neg (h s (by simp)), Res.ok_bind, i2 (fun t ht => h t (by simp [ht])),
          List.zipWith_cons_cons]

theorem getJump_large {size : List Nat} (h : Representable size) (hs : ∀ s ∈ size, s < 2 ^ 63) {a b : Nat} (ha : a < size.prod)
    (hb : b < size.prod) :
    ((∃ s ∈ size, halfInt s = -2147483648) → (Grid.new size .closed).getJump a b = .ub .signedOverflow) ∧
    ((∀ s ∈ size, halfInt s ≠ -2147483648) →
      (Grid.new size .closed).getJump a b = .ok (List.zipWith folded size (zop (· - ·) (crd size b) (crd size a)))) := by
  have ga := crd_onGrid h.1 ha
  have gb := crd_onGrid h.1 hb
  have e : (Grid.new size .closed).getJump a b = Grid.jumpLoop size.length size (zop (· - ·) (crd size b) (crd size a)) := by
    rw [Grid.getJump, isValid_iff h _ ha, isValid_iff h _ hb]
    simp only [Bool.and_self, if_true]
    rw [getCoordinates_eq h (fun s h => (hs s h).le) _ hb, Res.ok_bind, getCoordinates_eq h (fun s h => (hs s h).le) _ ha, Res.ok_bind, subtractInto_eq (fun s h => (hs s h).le) gb ga, Res.ok_bind]
    rfl
  rw [e]
  exact jumpLoop_large hs h.1 ga gb

/-- C111 (what holds).  What `GetJump` computes on every closed grid: half of each extent is reduced to the range of `int`; if
one of them is -2^31 its negation overflows, otherwise each component is the difference of the coordinates folded with this
value, and is congruent to the difference modulo the extent. -/
theorem C111_outcome_partial (size : List Nat) (h : Representable size) (hs : ∀ s ∈ size, s < 2 ^ 63) (a b : Nat) (ha : a < size.prod)
    (hb : b < size.prod) :
    ((∃ s ∈ size, halfInt s = -2147483648) → (Grid.new size .closed).getJump a b = .ub .signedOverflow) ∧
    ((∀ s ∈ size, halfInt s ≠ -2147483648) →
      ∃ ca cb j, (Grid.new size .closed).getCoordinates a = .ok ca ∧ (Grid.new size .closed).getCoordinates b = .ok cb ∧
        (Grid.new size .closed).getJump a b = .ok j ∧ j.length = size.length ∧
        ∀ (k s : Nat) (x y : Int), size[k]? = some s → ca[k]? = some x → cb[k]? = some y →
          j[k]? = some (folded s (y - x)) ∧ (s : Int) ∣ folded s (y - x) - (y - x)) := by
  obtain ⟨h1, h2⟩ := getJump_large h hs ha hb
  refine ⟨h1, fun hn => ⟨_, _, _, getCoordinates_eq h (fun s h => (hs s h).le) _ ha, getCoordinates_eq h (fun s h => (hs s h).le) _ hb, h2 hn, ?_, ?_⟩⟩
  · rw [List.length_zipWith, zop_length _ (by simp)]; simp
  · intro k s x y e1 e2 e3
    refine ⟨?_, ?_⟩
    · rw [List.getElem?_zipWith, e1, zop_getElem (· - ·) e3 e2]
    · unfold folded
      split_ifs
      · exact ⟨1, by ring⟩
      · exact ⟨-1, by ring⟩
      · exact ⟨0, by ring⟩
      · exact ⟨1, by ring⟩
      · exact ⟨0, by ring⟩

/-- The coordinate of a site of a ring. -/
theorem crd_ring {s i : Nat} : crd [s] i = [(i : Int)] := by
  unfold crd
  simp [digits]

/-- C111 (violated).  On every closed ring of 2^32 sites or more, there are two sites for which `GetJump` is not the
displacement to the nearest image, or is undefined. -/
theorem C111_minimum_violated (s : Nat) (h1 : 2 ^ 32 ≤ s) (h2 : s < 2 ^ 63) :
    ∃ a b : Nat, a < s ∧ b < s ∧
      ((Grid.new [s] .closed).getJump a b = .ub .signedOverflow ∨
       ∃ r : Int, (Grid.new [s] .closed).getJump a b = .ok [r] ∧ ¬ Centered r s) := by
  have hr : Representable [s] := ⟨by simp; omega, by simp; omega⟩
  have hf : ∀ t ∈ [s], t < 2 ^ 63 := fun t ht => by rw [List.mem_singleton.1 ht]; exact h2
  have hp : [s].prod = s := by simp
  by_cases hn : halfInt s = -2147483648
  · exact ⟨0, 0, by omega, by omega, .inl ((getJump_large hr hf (a := 0) (b := 0) (by omega) (by omega)).1 ⟨s, by simp, hn⟩)⟩
  · have key : ∀ a : Nat, a < s → (Grid.new [s] .closed).getJump a 0 = .ok [folded s (0 - a)] := by
      intro a ha
      rw [(getJump_large hr hf (a := a) (b := 0) (by omega) (by omega)).2 (by simpa using hn), crd_ring, crd_ring]
      rfl
    have hb : -2147483648 ≤ halfInt s ∧ halfInt s < 2147483648 := by unfold halfInt; omega
    have hle : halfInt s + 4294967296 ≤ ((s / 2 : Nat) : Int) ∨ halfInt s < 0 := by unfold halfInt; omega
    by_cases h0 : 0 ≤ halfInt s
    · refine ⟨(halfInt s + 1).toNat, 0, by omega, by omega, .inr ⟨_, key _ (by omega), ?_⟩⟩
      unfold folded Centered
      rw [if_pos h0, if_pos (by omega)]
      omega
    · refine ⟨(-halfInt s).toNat, 0, by omega, by omega, .inr ⟨_, key _ (by omega), ?_⟩⟩
      unfold folded Centered
      rw [if_neg h0, if_pos (by omega)]
      omega

/-- C111 (violated).  On a closed ring whose number of sites is a multiple of 2^33, the jump from every site to itself is the number of sites, not 0. -/
theorem C111_self_violated (s : Nat) (h1 : 0 < s) (h2 : s < 2 ^ 63) (hk : 2 ^ 33 ∣ s) (a : Nat) (ha : a < s) :
    (Grid.new [s] .closed).getJump a a = .ok [(s : Int)] := by
  have hr : Representable [s] := ⟨by simpa using h1, by simp; omega⟩
  have hf : ∀ t ∈ [s], t < 2 ^ 63 := fun t ht => by rw [List.mem_singleton.1 ht]; exact h2
  have hh : halfInt s = 0 := by unfold halfInt; omega
  rw [(getJump_large hr hf (a := a) (b := a) (by simpa using ha) (by simpa using ha)).2 (by simp [hh]), crd_ring]
  have : folded s ((a : Int) - a) = (s : Int) := by
    unfold folded
    rw [hh, if_pos le_rfl, if_pos (by omega)]
    omega
  exact congrArg (fun x => Res.ok [x]) this

/- The hypotheses hold for rings of 2^32, 2^32 + 2 and 2^33 + 3 sites, where half the extent is -2^31, -2^31 + 1 and 1. -/
example : halfInt (2 ^ 32) = -2147483648 ∧ halfInt (2 ^ 32 + 2) = -2147483647 ∧ halfInt (2 ^ 33 + 3) = 1 ∧
    Representable [2 ^ 33 + 3] ∧ folded (2 ^ 32 + 2) (-2147483647) = 2147483651 ∧
    folded (2 ^ 33 + 3) (-2) = 8589934593 ∧ folded 5 3 = -2 := by decide

end Bwsl
