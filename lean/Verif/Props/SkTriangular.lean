import Verif.Props.MomentaTriangular

/-! Property C154: structure factors of triangular lattices in double precision. -/

namespace Bwsl
open Spec

set_option linter.unusedSectionVars false

section
variable {A : Arith ℝ} {b : Bravais (Num A)} {size : List Nat} {L : Nat}

/-- The structure factor, for displacements and momenta with known phases. -/
theorem sk_core {T : Type} {conv : T → Num A} {occ : List T} {ω : List ℝ} {R M W : ℝ} (hA : IsTrig A) (c : SkFused)
    (hs : Buildable size) {l : Lattice (Num A)} (hl : Lattice.new b size .closed = .ok l) (ho : SkOcc size conv occ ω M)
    (hR : 1 ≤ R) (hR' : R ≤ 2 ^ 26) (hM : 1 / 2 ^ 40 ≤ M) (hM' : M ≤ 2 ^ 40) (hW : 1 / 2 ^ 40 ≤ W) (hW' : W ≤ 2 ^ 40)
    (hn : size.prod < 2 ^ 32) {mult : ℝ} (hm : |mult| ≤ W)
    {v : Nat → List (Num A)} (hvec : ∀ j, j < size.prod → l.getVector 0 j = .ok (v j)) {k : Nat → List (Num A)}
    (hmom : l.momenta = (List.range size.prod).map k) {t : Nat → Nat → ℝ}
    (hp : ∀ i, i < size.prod → ∀ j, j < size.prod → ∃ p : ℝ, dotFrom c.phase (fun q => do
        let kq ← subscript (k i) q
        let xq ← subscript (v j) q
        .ok (kq, xq)) CxxFloat.zero 0 size.length = .ok (.fin p) ∧ |p - t i j| ≤ R / 2 ^ 44) :
    ∃ S : Nat → ℝ, l.computeSkContracted c conv occ (.fin mult) = .ok ((List.range size.prod).map (fun i => .fin (S i))) ∧
      ∀ i, i < size.prod →
        |S i - mult * ((∑ j ∈ Finset.range size.prod, Real.sin (t i j) * occupation ω j) * (∑ j ∈ Finset.range size.prod, Real.sin (t i j) * occupation ω j) +
          (∑ j ∈ Finset.range size.prod, Real.cos (t i j) * occupation ω j) * (∑ j ∈ Finset.range size.prod, Real.cos (t i j) * occupation ω j)) / size.prod ^ 2| ≤
        W * M ^ 2 * (R / 2 ^ 41 + size.prod / 2 ^ 46) ∧ (0 ≤ mult → 0 ≤ S i) := by
  have h0 : 0 < size.prod := prod_pos hs.1.1
  have hg := (new_parts hl).1
  have hop : l.grid.hasOpenBoundaries = false := by rw [hg]; rfl
  have hnum : l.grid.numsites = size.prod := by rw [hg, numsites_eq hs.1]
  have hn1 : (1 : ℝ) ≤ size.prod := by exact_mod_cast h0
  have hn2 : (size.prod : ℝ) ≤ 2 ^ 32 := by exact_mod_cast hn.le
  set e : ℝ := R / 2 ^ 44 + size.prod / 2 ^ 49 with he
  have hM0 : 0 < M := lt_of_lt_of_le (by positivity) hM
  have bound : ∀ t : Nat → ℝ, (∀ j, |t j| ≤ 1) → |∑ j ∈ Finset.range size.prod, t j * occupation ω j| ≤ size.prod * M := by
    intro t ht
    refine (Finset.abs_sum_le_sum_abs _ _).trans ?_
    refine (Finset.sum_le_card_nsmul _ _ M (fun j hj => ?_)).trans ?_
    · obtain ⟨o, -, -, h⟩ := ho j (Finset.mem_range.1 hj)
      rw [abs_mul]
      calc |t j| * |occupation ω j| ≤ 1 * M := mul_le_mul (ht j) h (abs_nonneg _) (by norm_num)
        _ = M := one_mul M
    · rw [Finset.card_range, nsmul_eq_mul]
  have key : ∀ i, ∃ s : ℝ, i < size.prod →
      (∃ im re : ℝ, l.fourierContracted c conv occ (k i) = .ok (.fin im, .fin re) ∧
        (CxxFloat.zero : Num A) + .fin mult * sumSquares c.squares (.fin im) (.fin re) / CxxFloat.ofNat (squareU size.prod) = .fin s) ∧
      |s - mult * ((∑ j ∈ Finset.range size.prod, Real.sin (t i j) * occupation ω j) * (∑ j ∈ Finset.range size.prod, Real.sin (t i j) * occupation ω j) +
          (∑ j ∈ Finset.range size.prod, Real.cos (t i j) * occupation ω j) * (∑ j ∈ Finset.range size.prod, Real.cos (t i j) * occupation ω j)) / size.prod ^ 2| ≤
        W * M ^ 2 * (R / 2 ^ 41 + size.prod / 2 ^ 46) ∧ (0 ≤ mult → 0 ≤ s) := by
    intro i
    by_cases hi : i < size.prod
    swap
    · exact ⟨0, fun h => absurd h hi⟩
    obtain ⟨im, re, h1, h2, h3⟩ := fourier_core hA c hs hl ho hR (hR'.trans (by norm_num)) hM hM' (by omega) hvec (k := k i) (t := t i) (hp i hi)
    have b1 := bound (fun j => Real.sin (t i j)) (fun j => Real.abs_sin_le_one _)
    have b2 := bound (fun j => Real.cos (t i j)) (fun j => Real.abs_cos_le_one _)
    have hLe : R / 2 ^ 44 ≤ 1 / 32 := by rw [div_le_iff₀ (by norm_num)]; norm_num at hR' ⊢; linarith
    have hne : (size.prod : ℝ) / 2 ^ 49 ≤ 1 / 32 := by rw [div_le_iff₀ (by norm_num)]; norm_num at hn2 ⊢; linarith
    have hL0 : 0 ≤ R / 2 ^ 44 := by positivity
    have hn0 : 0 ≤ (size.prod : ℝ) / 2 ^ 49 := by positivity
    obtain ⟨s, h4, h5, h6⟩ := finish_double c.squares (R := size.prod * M) (e := e) (W := W) (m := mult) (n := size.prod) hA.binary64
      (hM.trans (by nlinarith)) (by
        calc (size.prod : ℝ) * M ≤ 2 ^ 32 * 2 ^ 40 := mul_le_mul hn2 hM' hM0.le (by positivity)
          _ = 2 ^ 72 := by norm_num) hW hW' (by rw [he]; linarith) (by rw [he]; linarith) (by rw [he]; linarith) h0 hn b1 b2 h2 h3 hm
    refine ⟨s, fun _ => ⟨⟨im, re, h1, h4⟩, ?_, h6⟩⟩
    refine h5.trans (le_of_eq ?_)
    rw [he]
    have : (size.prod : ℝ) ≠ 0 := by linarith
    field_simp
    ring
  choose S hS using key
  refine ⟨S, ?_, fun i hi => (hS i hi).2⟩
  unfold Lattice.computeSkContracted Lattice.accumulateSkContracted
  rw [hop, hnum]
  simp only [Bool.false_eq_true, if_false]
  rw [mapRange_ok (g := fun i => (.fin (S i) : Num A))]
  · rw [Res.ok_bind, List.drop_eq_nil_of_le (by simp), List.append_nil]
  · intro i hi
    obtain ⟨⟨im, re, h1, h2⟩, -⟩ := hS i hi
    rw [subscript_ok (x := k i) (by rw [hmom, List.getElem?_map, List.getElem?_range hi]; rfl), Res.ok_bind, h1, Res.ok_bind,
      subscript_ok (x := (CxxFloat.zero : Num A)) (by rw [List.getElem?_replicate, if_pos hi]), Res.ok_bind]
    rw [h2]

/-- A phase with two components. -/
theorem phase_pair (hA : A.IsBinary64) (fused : Bool) {R : ℝ} (hR : 1 ≤ R) (hR' : R ≤ 2 ^ 40) {k0 k1 κ0 κ1 x0 x1 ξ1 : ℝ}
    (h0 : |κ0| ≤ 4) (h0' : |k0 - κ0| ≤ 16 / 2 ^ 53) (hx0 : |x0| ≤ 3 * R) (h1 : |κ1| ≤ 6) (h1' : |k1 - κ1| ≤ 96 / 2 ^ 53)
    (hx1 : |ξ1| ≤ 2 * R) (hx1' : |x1 - ξ1| ≤ 6 * R / 2 ^ 53) :
    ∃ p, dotFrom fused (fun q => do
        let kq ← subscript [(.fin k0 : Num A), .fin k1] q
        let xq ← subscript [(.fin x0 : Num A), .fin x1] q
        .ok (kq, xq)) CxxFloat.zero 0 2 = .ok (.fin p) ∧ |p - (κ0 * x0 + κ1 * ξ1)| ≤ R / 2 ^ 44 := by
  have hR0 : 0 < R := by linarith
  have ek0 : |k0| ≤ 33 / 8 := by
    have := abs_sub_abs_le_abs_sub k0 κ0
    norm_num at h0'
    linarith
  have ek1 : |k1| ≤ 49 / 8 := by
    have := abs_sub_abs_le_abs_sub k1 κ1
    norm_num at h1'
    linarith
  have ex1 : |x1| ≤ 33 / 16 * R := by
    have := abs_sub_abs_le_abs_sub x1 ξ1
    norm_num at hx1'
    linarith
  have p0 : |k0 * x0| ≤ 13 * R := by
    rw [abs_mul]
    calc |k0| * |x0| ≤ 33 / 8 * (3 * R) := mul_le_mul ek0 hx0 (abs_nonneg _) (by norm_num)
      _ ≤ 13 * R := by linarith
  have p1 : |k1 * x1| ≤ 13 * R := by
    rw [abs_mul]
    calc |k1| * |x1| ≤ 49 / 8 * (33 / 16 * R) := mul_le_mul ek1 ex1 (abs_nonneg _) (by norm_num)
      _ ≤ 13 * R := by linarith
  have e0 : |k0 * x0 - κ0 * x0| ≤ 48 * R / 2 ^ 53 := by
    rw [← sub_mul, abs_mul]
    calc |k0 - κ0| * |x0| ≤ 16 / 2 ^ 53 * (3 * R) := mul_le_mul h0' hx0 (abs_nonneg _) (by norm_num)
      _ = 48 * R / 2 ^ 53 := by ring
  have e1 : |k1 * x1 - κ1 * ξ1| ≤ 240 * R / 2 ^ 53 := by
    rw [show k1 * x1 - κ1 * ξ1 = (k1 - κ1) * x1 + κ1 * (x1 - ξ1) by ring]
    refine (abs_add_le _ _).trans ?_
    rw [abs_mul, abs_mul]
    calc |k1 - κ1| * |x1| + |κ1| * |x1 - ξ1| ≤ 96 / 2 ^ 53 * (33 / 16 * R) + 6 * (6 * R / 2 ^ 53) :=
          add_le_add (mul_le_mul h1' ex1 (abs_nonneg _) (by norm_num)) (mul_le_mul h1 hx1' (abs_nonneg _) (by norm_num))
      _ ≤ 240 * R / 2 ^ 53 := by
        have : 0 ≤ R / 2 ^ 53 := by positivity
        have e : 96 / 2 ^ 53 * (33 / 16 * R) + 6 * (6 * R / 2 ^ 53) = 234 * (R / 2 ^ 53) := by ring
        rw [e, mul_div_assoc]
        linarith
  have rnd : ∀ x : ℝ, |x| ≤ 13 * R → |prodIn fused x - x| ≤ 26 * R / 2 ^ 53 ∧ |prodIn fused x| ≤ 14 * R := by
    intro x hx
    have h1 := prodIn_err_le fused (Y := 13 * R) (by norm_num; linarith) hx
    have h2 := abs_sub_abs_le_abs_sub (prodIn fused x) x
    have h4 : 13 * R / 2 ^ 52 ≤ R := by rw [div_le_iff₀ (by norm_num)]; norm_num; linarith
    refine ⟨h1.trans (le_of_eq (by ring)), by linarith⟩
  obtain ⟨r0, r0'⟩ := rnd _ p0
  obtain ⟨r1, r1'⟩ := rnd _ p1
  have hbig : 13 * R ≤ (2 : ℝ) ^ (200 : Int) := by norm_num at hR' ⊢; linarith
  obtain ⟨p, h2, h3⟩ := dot_double hA fused (Y := 14 * R) (n := 2) (a := fun q => [k0, k1].getD q 0) (c := fun q => [x0, x1].getD q 0)
    (f := fun q => do
        let kq ← subscript [(.fin k0 : Num A), .fin k1] q
        let xq ← subscript [(.fin x0 : Num A), .fin x1] q
        .ok (kq, xq))
    (by norm_num; linarith) (by norm_num at hR' ⊢; linarith) (by norm_num) (fun q hq => by
      match q, hq with
      | 0, _ => exact ⟨rfl, p0.trans hbig, r0'⟩
      | 1, _ => exact ⟨rfl, p1.trans hbig, r1'⟩)
  refine ⟨p, h2, ?_⟩
  rw [Finset.sum_range_succ, Finset.sum_range_succ, Finset.sum_range_zero, zero_add] at h3
  change |p - (prodIn fused (k0 * x0) + prodIn fused (k1 * x1))| ≤ _ at h3
  have h4 : |p - (κ0 * x0 + κ1 * ξ1)| ≤ |p - (prodIn fused (k0 * x0) + prodIn fused (k1 * x1))| +
      (|prodIn fused (k0 * x0) - k0 * x0| + |k0 * x0 - κ0 * x0|) + (|prodIn fused (k1 * x1) - k1 * x1| + |k1 * x1 - κ1 * ξ1|) := by
    rw [show p - (κ0 * x0 + κ1 * ξ1) = (p - (prodIn fused (k0 * x0) + prodIn fused (k1 * x1))) +
      ((prodIn fused (k0 * x0) - k0 * x0) + (k0 * x0 - κ0 * x0)) + ((prodIn fused (k1 * x1) - k1 * x1) + (k1 * x1 - κ1 * ξ1)) by ring]
    refine (abs_add_three _ _ _).trans ?_
    have := abs_add_le (prodIn fused (k0 * x0) - k0 * x0) (k0 * x0 - κ0 * x0)
    have := abs_add_le (prodIn fused (k1 * x1) - k1 * x1) (k1 * x1 - κ1 * ξ1)
    linarith
  norm_num at h3 h4 e0 e1 r0 r1 ⊢
  linarith

/-- The exact momentum of the site with coordinates `c` of a triangular lattice of `L` by `L` sites. -/
noncomputable def Spec.triMomentum (L : Nat) (c : List Int) : List ℝ :=
  [2 * Real.pi * (coord c 0 - L / 2 : Int) / L,
    2 * Real.pi * (2 * (coord c 1 - L / 2 : Int) - (coord c 0 - L / 2 : Int)) / (√3 * L)]

/-- The primitive vectors of the triangular lattice. -/
noncomputable def Spec.triVectors : List ℝ := [1, 0, 1 / 2, √3 / 2]

theorem embed_tri (c : List Int) : embed 2 triVectors c = [(coord c 0 : ℝ) + coord c 1 / 2, coord c 1 * (√3 / 2)] := by
  unfold embed triVectors
  simp [entry, List.range_succ, coord, Finset.sum_range_succ]
  ring

theorem dot_tri (L : Nat) (c x : List Int) : dot (triMomentum L c) (embed 2 triVectors x) =
    2 * Real.pi * (coord c 0 - L / 2 : Int) / L * ((coord x 0 : ℝ) + coord x 1 / 2) +
    2 * Real.pi * (2 * (coord c 1 - L / 2 : Int) - (coord c 0 - L / 2 : Int)) / (√3 * L) * (coord x 1 * (√3 / 2)) := by
  rw [embed_tri]
  unfold dot triMomentum
  simp

theorem triMomentum_allowed (hL : 0 < L) (c : List Int) : Allowed [L, L] triVectors (triMomentum L c) := by
  have hL0 : (L : ℝ) ≠ 0 := by exact_mod_cast hL.ne'
  have h3 : √3 ≠ 0 := root3_pos.ne'
  intro j hj
  match j, hj with
  | 0, _ =>
    refine ⟨coord c 0 - L / 2, ?_⟩
    unfold period
    have e : ((List.range [L, L].length).map (fun i => if i = 0 then extent [L, L] 0 else 0)) = [(L : Int), 0] := rfl
    rw [e]
    show dot _ (embed 2 _ _) = _
    rw [dot_tri, show coord [(L : Int), 0] 0 = L from rfl, show coord [(L : Int), 0] 1 = 0 from rfl]
    push_cast
    field_simp
    ring
  | 1, _ =>
    refine ⟨coord c 1 - L / 2, ?_⟩
    unfold period
    have e : ((List.range [L, L].length).map (fun i => if i = 1 then extent [L, L] 1 else 0)) = [0, (L : Int)] := rfl
    rw [e]
    show dot _ (embed 2 _ _) = _
    rw [dot_tri, show coord [0, (L : Int)] 0 = 0 from rfl, show coord [0, (L : Int)] 1 = L from rfl]
    push_cast
    field_simp
    ring

/-- The phase of a site of a triangular lattice. -/
theorem phase_tri (hA : A.IsBinary64) (fused : Bool) (hL : 0 < L) (hL' : L ≤ 2 ^ 22) {c x : List Int}
    (h0 : |2 * (coord c 0 - (L : Int) / 2)| ≤ L) (h1 : |2 * (coord c 1 - (L : Int) / 2)| ≤ L)
    (x0 : |coord x 0| ≤ 2 * L) (x1 : |coord x 1| ≤ 2 * L) :
    ∃ p, dotFrom fused (fun q => do
        let kq ← subscript [(.fin (kay (coord c 0 - L / 2) L) : Num A), .fin (kaySlant (coord c 0 - L / 2) (coord c 1 - L / 2) L)] q
        let xq ← subscript [(.fin ((coord x 0 : ℝ) + coord x 1 / 2) : Num A), .fin (rn (coord x 1 * half3))] q
        .ok (kq, xq)) CxxFloat.zero 0 2 = .ok (.fin p) ∧ |p - dot (triMomentum L c) (embed 2 triVectors x)| ≤ (L : ℝ) / 2 ^ 44 := by
  have hLr : (1 : ℝ) ≤ L := by exact_mod_cast hL
  have hLr' : (L : ℝ) ≤ 2 ^ 22 := by exact_mod_cast hL'
  have hL0 : (0 : ℝ) < L := by linarith
  have h3 := root3_pos
  rw [dot_tri]
  have hk0 := (kay_error (l := coord c 0 - L / 2) (s := L) (by rw [abs_le] at h0 ⊢; omega) (by omega) (by omega)).1
  have hk1 := (kaySlant_error (u := coord c 0 - L / 2) (v := coord c 1 - L / 2) (s := L) (by rw [abs_le] at h0 ⊢; omega)
    (by rw [abs_le] at h1 ⊢; omega) (by omega) (by omega)).1
  have a0 : |((coord c 0 - (L : Int) / 2 : Int) : ℝ)| ≤ L / 2 := by
    have : |2 * ((coord c 0 - (L : Int) / 2 : Int) : ℝ)| ≤ L := by exact_mod_cast h0
    rw [abs_mul, abs_two] at this; linarith
  have a1 : |((coord c 1 - (L : Int) / 2 : Int) : ℝ)| ≤ L / 2 := by
    have : |2 * ((coord c 1 - (L : Int) / 2 : Int) : ℝ)| ≤ L := by exact_mod_cast h1
    rw [abs_mul, abs_two] at this; linarith
  have y0 : |(coord x 0 : ℝ)| ≤ 2 * L := by exact_mod_cast x0
  have y1 : |(coord x 1 : ℝ)| ≤ 2 * L := by exact_mod_cast x1
  rw [Int.cast_natCast] at hk0 hk1
  generalize ((coord c 0 - (L : Int) / 2 : Int) : ℝ) = p at *
  generalize ((coord c 1 - (L : Int) / 2 : Int) : ℝ) = q at *
  have hπ : Real.pi ≤ 4 := Real.pi_le_four
  have hκ0 : |2 * Real.pi * p / L| ≤ 4 := by
    rw [abs_div, abs_of_pos hL0, abs_mul, abs_of_pos (by positivity : 0 < 2 * Real.pi), div_le_iff₀ hL0]
    calc 2 * Real.pi * |p| ≤ 2 * 4 * (L / 2) := by gcongr
      _ = 4 * L := by ring
  have hE : 2 * Real.pi * (|p| + 2 * |q|) / (√3 * L) ≤ 6 := by
    rw [div_le_iff₀ (by positivity)]
    have s3 : √3 * √3 = (3 : ℝ) := Real.mul_self_sqrt (by norm_num)
    have s4 : √3 ≤ 7 / 4 := by rw [Real.sqrt_le_left (by norm_num)]; norm_num
    have hp : Real.pi * √3 ≤ 6 := by
      calc Real.pi * √3 ≤ 3.15 * (7 / 4) := mul_le_mul Real.pi_lt_d2.le s4 (Real.sqrt_nonneg _) (by norm_num)
        _ ≤ 6 := by norm_num
    calc 2 * Real.pi * (|p| + 2 * |q|) ≤ 2 * Real.pi * (L / 2 + 2 * (L / 2)) := by gcongr
      _ = (Real.pi * √3) * (√3 * L) := by linear_combination (-Real.pi * L) * s3
      _ ≤ 6 * (√3 * L) := by gcongr
  have hκ1 : |2 * Real.pi * (2 * q - p) / (√3 * L)| ≤ 6 := by
    refine le_trans ?_ hE
    rw [abs_div, abs_of_pos (by positivity : 0 < √3 * (L : ℝ)), abs_mul, abs_of_pos (by positivity : 0 < 2 * Real.pi)]
    gcongr
    refine (abs_sub _ _).trans ?_
    rw [abs_mul, abs_two]; linarith
  have hξ : |(coord x 1 : ℝ) * (√3 / 2)| ≤ 2 * L := by
    rw [abs_mul, abs_of_pos (by positivity : 0 < √3 / 2)]
    calc |(coord x 1 : ℝ)| * (√3 / 2) ≤ 2 * L * (2 / 2) := by gcongr; exact root3_le
      _ = 2 * L := by ring
  refine phase_pair hA fused hLr (hLr'.trans (by norm_num)) hκ0 (hk0.trans ?_) ?_ hκ1 (hk1.trans ?_) hξ ?_
  · calc |2 * Real.pi * p / L| / 2 ^ 51 ≤ 4 / 2 ^ 51 := by gcongr
      _ = 16 / 2 ^ 53 := by norm_num
  · refine (abs_add_le _ _).trans ?_
    rw [abs_div, abs_two]
    linarith
  · calc 2 * Real.pi * (|p| + 2 * |q|) / (√3 * L) / 2 ^ 49 ≤ 6 / 2 ^ 49 := by gcongr
      _ = 96 / 2 ^ 53 := by norm_num
  · have hc := (root3_close.mul_exact ((coord x 1 : ℝ) / 2)).rn (by norm_num) (by
      have e : (coord x 1 : ℝ) / 2 * rn √3 = coord x 1 * half3 := by unfold half3; ring
      rw [e]
      exact (y_zero_or (coord x 1)).imp_right normal_half)
    have e : (coord x 1 : ℝ) / 2 * rn √3 = coord x 1 * half3 := by unfold half3; ring
    have e' : (coord x 1 : ℝ) / 2 * √3 = coord x 1 * (√3 / 2) := by ring
    rw [e, e'] at hc
    unfold Close at hc
    refine hc.trans ?_
    calc |(coord x 1 : ℝ) * (√3 / 2)| * (((1 + 2 : Nat) : ℝ) / 2 ^ 53) ≤ 2 * (L : ℝ) * (((1 + 2 : Nat) : ℝ) / 2 ^ 53) := by gcongr
      _ = 6 * (L : ℝ) / 2 ^ 53 := by push_cast; ring

/-- The structure factor of a triangular lattice. -/
theorem sk_tri {T : Type} {conv : T → Num A} {ω : T → ℝ} (hA : IsTrig A) (c : SkFused) (hb : triangularLattice = .ok b)
    (hs : Buildable [L, L]) (hn : L * L < 2 ^ 32) {l : Lattice (Num A)} (hl : Lattice.new b [L, L] .closed = .ok l) {M W : ℝ}
    (hM : 1 / 2 ^ 40 ≤ M) (hM' : M ≤ 2 ^ 40) (hW : 1 / 2 ^ 40 ≤ W) (hW' : W ≤ 2 ^ 40) {occ : List T}
    (hconv : ∀ o ∈ occ, conv o = .fin (ω o) ∧ |ω o| ≤ M) (hocc : L * L ≤ occ.length) {mult : ℝ} (hm : |mult| ≤ W)
    {x : Nat → List Int} (hx : ∀ j, j < L * L → l.grid.getCoordinates j = .ok (x j)) :
    ∃ S : Nat → ℝ, l.computeSkContracted c conv occ (.fin mult) = .ok ((List.range (L * L)).map (fun i => .fin (S i))) ∧
      ∀ i, i < L * L → |S i - structureFactor (L * L) mult (occ.map ω) (fun j => embed 2 triVectors (x j)) (triMomentum L (x i))| ≤
        W * M ^ 2 * (L / 2 ^ 41 + (L * L : Nat) / 2 ^ 46) ∧ (0 ≤ mult → 0 ≤ S i) := by
  have hpr : [L, L].prod = L * L := by simp
  have hL1 : 0 < L := hs.1.1 L (by simp)
  have hL2 : L < 2 ^ 16 := by
    by_contra h
    have : 2 ^ 16 * 2 ^ 16 ≤ L * L := Nat.mul_le_mul (by omega) (by omega)
    omega
  have hr := tri_regular hb
  have hz : ∀ s ∈ [L, L], s ≤ 2 ^ 49 := by simp; omega
  have hxc : ∀ j, j < [L, L].prod → x j = crd [L, L] j := fun j hj => crd_of hs hl hj (hx j (hpr ▸ hj))
  have h0 : 0 < [L, L].prod := prod_pos hs.1.1
  have hv : ∀ j, ∃ m : List Int, j < [L, L].prod →
      l.getVector 0 j = .ok [.fin ((coord (image [L, L] (x j) m) 0 : ℝ) + coord (image [L, L] (x j) m) 1 / 2),
        .fin (rn (coord (image [L, L] (x j) m) 1 * half3))] ∧ Within [L, L] (image [L, L] (x j) m) := by
    intro j
    by_cases hj : j < [L, L].prod
    swap
    · exact ⟨[], fun h => absurd h hj⟩
    obtain ⟨m, hm, h1, -⟩ := closed_any (size := [L, L]) hs hr
      (ρ := fun c => triDist (coord c 0) (coord c 1))
      (ξ := fun c => [.fin ((coord c 0 : ℝ) + coord c 1 / 2), .fin (rn (coord c 1 * half3))])
      (fun c m hc hm => getDistanceVector_tri hA.binary64 hA.sqrt hb (by omega) (by omega) (within_image hc hm) (image_near hs hc hm)) hl h0 hj
    rw [minus_origin (onGrid_length (crd_onGrid hs.1.1 hj)), wrap_of_onGrid (crd_onGrid hs.1.1 hj), ← hxc j hj] at h1
    exact ⟨m, fun _ => ⟨h1, within_image (by rw [hxc j hj]; exact crd_onGrid hs.1.1 hj) hm⟩⟩
  choose m hv using hv
  have hso : SkOcc [L, L] conv occ (occ.map ω) M := by
    intro j hj
    have h : j < occ.length := by omega
    refine ⟨occ[j], List.getElem?_eq_getElem h, ?_⟩
    have e : occupation (occ.map ω) j = ω occ[j] := by
      unfold occupation
      rw [List.getD_eq_getElem?_getD, List.getElem?_map, List.getElem?_eq_getElem h]
      rfl
    rw [e]
    exact hconv _ (List.getElem_mem h)
  obtain ⟨S, h1, h2⟩ := sk_core hA c hs hl hso (R := L) (by exact_mod_cast hL1) (by exact_mod_cast (by omega : L ≤ 2 ^ 26)) hM hM' hW hW'
    (hpr ▸ hn) hm (fun j hj => (hv j hj).1) (momenta_tri hA.binary64 hA.sqrt hA.pi hs hz hb hr hl)
    (t := fun i j => dot (triMomentum L (x i)) (embed 2 triVectors (image [L, L] (x j) (m j)))) (by
      intro i hi j hj
      obtain ⟨k1, k2, k3, -, -⟩ := triKay_at hs hi (N := 2 ^ 48) (by omega) (by omega)
      have g0 := (onGrid_iff.1 (crd_onGrid hs.1.1 hi)).2 0 (by simp)
      have g1 := (onGrid_iff.1 (crd_onGrid hs.1.1 hi)).2 1 (by simp)
      have w := (hv j hj).2.2
      rw [k1]
      rw [hxc i hi]
      exact phase_tri hA.binary64 c.phase hL1 (by omega)
        (by rw [show extent [L, L] 0 = (L : Int) from rfl] at g0; rw [abs_le]; omega)
        (by rw [show extent [L, L] 1 = (L : Int) from rfl] at g1; rw [abs_le]; omega) (w 0 (by simp)) (w 1 (by simp)))
  rw [hpr] at h1 h2
  refine ⟨S, h1, fun i hi => ?_⟩
  obtain ⟨h3, h4⟩ := h2 i hi
  refine ⟨?_, h4⟩
  have et : transform (L * L) (occ.map ω) (fun j => embed 2 triVectors (image [L, L] (x j) (m j))) (triMomentum L (x i)) =
      transform (L * L) (occ.map ω) (fun j => embed 2 triVectors (x j)) (triMomentum L (x i)) := by
    unfold transform
    refine Finset.sum_congr rfl (fun j hj => ?_)
    have := phase_image (size := [L, L]) (P := triVectors) (k := triMomentum L (x i)) rfl (triMomentum_allowed hL1 (x i)) (x j) (m j)
    unfold phase at this
    change Complex.exp (((dot (triMomentum L (x i)) (embed 2 triVectors (image [L, L] (x j) (m j))) : ℝ) : ℂ) * Complex.I) =
      Complex.exp (((dot (triMomentum L (x i)) (embed 2 triVectors (x j)) : ℝ) : ℂ) * Complex.I) at this
    rw [this]
  unfold structureFactor
  rw [← et, ← normSq_eq, transform_im, transform_re]
  exact h3

/-- C154.  The structure factor of a closed triangular lattice of L by L sites in double precision, with bounded occupations: its
error, if sines and cosines are off by at most 2⁻⁵², whether or not the compiler fuses products with sums. -/
theorem C154_accurate {T : Type} {conv : T → Num A} {ω : T → ℝ} (hA : IsTrig A) (c : SkFused) (hb : triangularLattice = .ok b)
    (hs : Buildable [L, L]) (hn : L * L < 2 ^ 32) (l : Lattice (Num A)) (hl : Lattice.new b [L, L] .closed = .ok l) {M W : ℝ}
    (hM : 1 / 2 ^ 40 ≤ M) (hM' : M ≤ 2 ^ 40) (hW : 1 / 2 ^ 40 ≤ W) (hW' : W ≤ 2 ^ 40) (occ : List T)
    (hconv : ∀ o ∈ occ, conv o = .fin (ω o) ∧ |ω o| ≤ M) (hocc : L * L ≤ occ.length) {mult : ℝ} (hm : |mult| ≤ W)
    {x : Nat → List Int} (hx : ∀ j, j < L * L → l.grid.getCoordinates j = .ok (x j)) :
    ∃ S : Nat → ℝ, l.computeSk conv occ (.fin mult) = .ok ((List.range (L * L)).map (fun i => .fin (S i))) ∧
      (∀ i, i < L * L → |S i - structureFactor (L * L) mult (occ.map ω) (fun j => embed 2 triVectors (x j)) (triMomentum L (x i))| ≤
        W * M ^ 2 * (L / 2 ^ 41 + (L * L : Nat) / 2 ^ 46) ∧ (0 ≤ mult → 0 ≤ S i)) ∧
    ∃ S' : Nat → ℝ, l.computeSkContracted c conv occ (.fin mult) = .ok ((List.range (L * L)).map (fun i => .fin (S' i))) ∧
      ∀ i, i < L * L → |S' i - structureFactor (L * L) mult (occ.map ω) (fun j => embed 2 triVectors (x j)) (triMomentum L (x i))| ≤
        W * M ^ 2 * (L / 2 ^ 41 + (L * L : Nat) / 2 ^ 46) ∧ (0 ≤ mult → 0 ≤ S' i) := by
  obtain ⟨S', h3, h4⟩ := sk_tri hA c hb hs hn hl hM hM' hW hW' hconv hocc hm hx
  rw [← (sk_plain conv l occ [] (.fin mult)).2]
  obtain ⟨S, h1, h2⟩ := sk_tri hA _ hb hs hn hl hM hM' hW hW' hconv hocc hm hx
  exact ⟨S, h1, h2, S', h3, h4⟩

/-- C154.  The exact momenta of that statement are those the boundary conditions allow. -/
theorem C154_allowed (hL : 0 < L) (c : List Int) : Allowed [L, L] triVectors (triMomentum L c) := triMomentum_allowed hL c

/-- C154.  On any Bravais lattice, with an odd sine and an even cosine, the structure factors at opposite momenta are the same, bit
for bit, whatever the occupations are. -/
theorem C154_opposite {T : Type} {conv : T → Num A} (hA : A.IsBinary64) (f : SkFused) (hsin : ∀ x, A.sin (-x) = -A.sin x)
    (hcos : ∀ x, A.cos (-x) = A.cos x) (hs : Buildable size) (hr : Regular b size.length)
    (l : Lattice (Num A)) (hl : Lattice.new b size .closed = .ok l) (occ : List T) (mult : Num A)
    (S : List (Num A)) (i i' : Nat) (hi : i < size.prod) (hi' : i' < size.prod)
    (c c' : List Int) (hc : l.grid.getCoordinates i = .ok c) (hc' : l.grid.getCoordinates i' = .ok c')
    (h : ∀ j, j < size.length → coord c j + coord c' j = 2 * (extent size j / 2)) :
    (l.computeSk conv occ mult = .ok S → S[i]? = S[i']?) ∧ (l.computeSkContracted f conv occ mult = .ok S → S[i]? = S[i']?) := by
  rw [(new_parts hl).1, getCoordinates_eq hs.1 (buildable_fits hs) .closed hi, Res.ok.injEq] at hc
  rw [(new_parts hl).1, getCoordinates_eq hs.1 (buildable_fits hs) .closed hi', Res.ok.injEq] at hc'
  subst hc hc'
  obtain ⟨k, hk, hk'⟩ := momentum_neg hA hs hr hl hi hi' h
  have hg := (new_parts hl).1
  have ho : l.grid.hasOpenBoundaries = false := by rw [hg]; rfl
  have hnum : l.grid.numsites = size.prod := by rw [hg, numsites_eq hs.1]
  have main : ∀ f : SkFused, l.computeSkContracted f conv occ mult = .ok S → S[i]? = S[i']? := by
    intro f hS
    unfold Lattice.computeSkContracted Lattice.accumulateSkContracted at hS
    simp only [ho, Bool.false_eq_true, if_false, hnum] at hS
    obtain ⟨new, h3, h4⟩ := Res.bind_eq_ok.1 hS
    rw [List.drop_eq_nil_of_le (by simp), List.append_nil, Res.ok.injEq] at h4
    subst h4
    obtain ⟨-, h5⟩ := mapRange_eq_ok h3
    obtain ⟨v, h6, h7⟩ := h5 i hi
    obtain ⟨v', h6', h7'⟩ := h5 i' hi'
    rw [subscript_ok hk, Res.ok_bind] at h7
    rw [subscript_ok hk', Res.ok_bind] at h7'
    obtain ⟨s, h8, h7⟩ := Res.bind_eq_ok.1 h7
    rw [fourier_neg hA f hsin hcos l occ h8, Res.ok_bind] at h7'
    rw [subscript_ok (x := (CxxFloat.zero : Num A)) (by rw [List.getElem?_replicate, if_pos hi]), Res.ok_bind, Res.ok.injEq] at h7
    rw [subscript_ok (x := (CxxFloat.zero : Num A)) (by rw [List.getElem?_replicate, if_pos hi']), Res.ok_bind, Res.ok.injEq] at h7'
    rw [sumSquares_neg hA, h7] at h7'
    rw [h6, h6', h7']
  refine ⟨fun hS => ?_, main f⟩
  rw [← (sk_plain conv l occ [] mult).2] at hS
  exact main _ hS

/-- The hypotheses of C154 can be met: half of the sites of a triangular lattice are occupied. -/
example : ∃ b : Bravais (Num doubleArith), triangularLattice = .ok b ∧ Buildable [100, 100] ∧ IsTrig doubleArith ∧
    (∀ x, doubleArith.sin (-x) = -doubleArith.sin x) ∧ (∀ x, doubleArith.cos (-x) = doubleArith.cos x) ∧
    Regular b [100, 100].length ∧ (∃ l, Lattice.new b [100, 100] .closed = .ok l) ∧
    ∃ occ : List Bool, 100 * 100 ≤ occ.length ∧ ∀ o ∈ occ, (fun o => if o then .fin 1 else .fin 0 : Bool → Num doubleArith) o =
      .fin ((fun o => if o then 1 else 0 : Bool → ℝ) o) ∧ |(fun o => if o then 1 else 0 : Bool → ℝ) o| ≤ 1 := by
  obtain ⟨b, h1, h2⟩ := triangular_regular (F := Num doubleArith)
  have hs : Buildable [100, 100] := ⟨⟨by decide, by norm_num⟩, by norm_num⟩
  obtain ⟨l, hl, -⟩ := C73_defined hs (b := b) h2 .closed (fun _ => by decide)
  refine ⟨b, h1, hs, doubleArith_isTrig, Real.sin_neg, Real.cos_neg, h2, ⟨l, hl⟩,
    List.replicate 5000 true ++ List.replicate 5000 false, by rw [List.length_append, List.length_replicate, List.length_replicate], ?_⟩
  intro o _
  cases o <;> simp

end
end Bwsl
