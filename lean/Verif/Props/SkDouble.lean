import Verif.Props.MomentaDouble
import Verif.Props.Sk
import Verif.Props.LerpDouble
import Verif.Props.PrintShort
import Verif.Props.Small
import Verif.Lemmas.Fused

/-! Property C131: structure factors in double precision. -/

namespace Bwsl
open Spec

/-- Binary64 with sines and cosines that are off by at most 2⁻⁵² and exact at zero. -/
structure Spec.IsTrig (A : Arith ℝ) : Prop where
  binary64 : A.IsBinary64
  sqrt : A.sqrt = Real.sqrt
  pi : A.pi = Real.pi
  sin : ∀ x, |A.sin x - Real.sin x| ≤ 1 / 2 ^ 52
  cos : ∀ x, |A.cos x - Real.cos x| ≤ 1 / 2 ^ 52
  sin_zero : A.sin 0 = 0
  cos_zero : A.cos 0 = 1

theorem doubleArith_isTrig : IsTrig doubleArith :=
  ⟨doubleArith_isBinary64, rfl, rfl, fun x => by show |Real.sin x - Real.sin x| ≤ _; simp,
    fun x => by show |Real.cos x - Real.cos x| ≤ _; simp, Real.sin_zero, Real.cos_zero⟩

section
variable {A : Arith ℝ} {b : Bravais (Num A)} {size : List Nat} {g : Nat} {P : List ℝ} {N : List Int}

theorem tiny_le {Y : ℝ} (h : 1 / 2 ^ 200 ≤ Y) : (2 : ℝ) ^ (-1075 : Int) ≤ Y / 2 ^ 200 := by
  rw [le_div_iff₀ (by positivity)]
  refine le_trans ?_ h
  rw [show (1 : ℝ) / 2 ^ 200 = 2 ^ (-200 : Int) by norm_num, show (2 : ℝ) ^ 200 = 2 ^ (200 : Int) by norm_cast,
    ← zpow_add₀ (by norm_num)]
  exact zpow_le_zpow_right₀ (by norm_num) (by norm_num)

/-- The rounding error, relative to a bound. -/
theorem rn_err_le {x Y : ℝ} (hY : 1 / 2 ^ 200 ≤ Y) (hx : |x| ≤ Y) : |rn x - x| ≤ Y / 2 ^ 52 := by
  have h1 := rn_abs_err x
  have h2 := tiny_le hY
  rw [abs_sub_comm (rn x)]
  have hY0 : 0 ≤ Y := le_trans (by positivity) hY
  have h3 : Y / 2 ^ 200 ≤ Y / 2 ^ 53 := div_le_div_of_nonneg_left hY0 (by norm_num) (by norm_num)
  have h4 : |x| / 2 ^ 53 ≤ Y / 2 ^ 53 := by gcongr
  have h5 : Y / 2 ^ 53 + Y / 2 ^ 53 = Y / 2 ^ 52 := by ring
  linarith

theorem rn_nonneg' {x : ℝ} (h : 0 ≤ x) : 0 ≤ rn x := by
  have := rn_mono h
  rwa [rn_zero] at this

/-- One step of a sum. -/
theorem sum_step (hA : A.IsBinary64) {Y s t y : ℝ} {m n : Nat} (hY : 1 / 2 ^ 200 ≤ Y) (hY' : Y ≤ 2 ^ 100) (hn : n ≤ 2 ^ 50) (hm : m < n)
    (hs : |s - t| ≤ 2 * (m : ℝ) ^ 2 * Y / 2 ^ 53) (ht : |t| ≤ m * Y) (hy : |y| ≤ Y) :
    Num.round A (s + y) = .fin (rn (s + y)) ∧ |rn (s + y) - (t + y)| ≤ 2 * ((m + 1 : Nat) : ℝ) ^ 2 * Y / 2 ^ 53 ∧
      |t + y| ≤ ((m + 1 : Nat) : ℝ) * Y := by
  have hY0 : 0 < Y := lt_of_lt_of_le (by positivity) hY
  have hm0 : (0 : ℝ) ≤ m := Nat.cast_nonneg m
  have hm1 : (m : ℝ) + 1 ≤ 2 ^ 50 := by exact_mod_cast (Nat.succ_le_of_lt hm).trans hn
  have hsq : (m : ℝ) ^ 2 * Y ≤ 2 ^ 50 * (m * Y) := by
    have : (m : ℝ) * m ≤ 2 ^ 50 * m := mul_le_mul_of_nonneg_right (by linarith) hm0
    nlinarith
  have h1 : |s| ≤ m * Y + m * Y / 4 := by
    have := abs_sub_abs_le_abs_sub s t
    have e : 2 * (m : ℝ) ^ 2 * Y / 2 ^ 53 ≤ m * Y / 4 := by
      rw [div_le_iff₀ (by norm_num)]
      norm_num at hsq ⊢
      linarith
    linarith
  have h2 : |s + y| ≤ m * Y + m * Y / 4 + Y := (abs_add_le s y).trans (by linarith)
  have h3 : |t + y| ≤ m * Y + Y := (abs_add_le t y).trans (by linarith)
  refine ⟨?_, ?_, ?_⟩
  · refine round_fin hA (h2.trans ?_)
    have : m * Y + m * Y / 4 + Y ≤ 2 * ((m + 1) * Y) := by nlinarith
    refine this.trans ?_
    calc 2 * (((m : ℝ) + 1) * Y) ≤ 2 * (2 ^ 50 * 2 ^ 100) := by gcongr
      _ ≤ 2 ^ (200 : Int) := by norm_num
  · have h4 := rn_abs_err (s + y)
    have h5 := tiny_le hY
    have h6 : |rn (s + y) - (t + y)| ≤ |s + y - rn (s + y)| + |s - t| := by
      rw [show rn (s + y) - (t + y) = -(s + y - rn (s + y)) + (s - t) by ring]
      refine (abs_add_le _ _).trans ?_
      rw [abs_neg]
    have h7 : Y / 2 ^ 200 ≤ Y / 2 ^ 53 := div_le_div_of_nonneg_left hY0.le (by norm_num) (by norm_num)
    have h8 : |s + y| / 2 ^ 53 ≤ (m * Y + m * Y / 4 + Y) / 2 ^ 53 := by gcongr
    have h9 : (m * Y + m * Y / 4 + Y) / 2 ^ 53 + Y / 2 ^ 53 + 2 * (m : ℝ) ^ 2 * Y / 2 ^ 53 ≤ 2 * ((m + 1 : Nat) : ℝ) ^ 2 * Y / 2 ^ 53 := by
      rw [← add_div, ← add_div]
      refine div_le_div_of_nonneg_right ?_ (by norm_num)
      push_cast
      have : 0 ≤ m * Y := by positivity
      nlinarith
    linarith
  · push_cast; linarith

/-- A plain sum in double precision. -/
theorem accumulate_double (hA : A.IsBinary64) {Y : ℝ} {n : Nat} {f : Nat → Res (Num A)} {y : Nat → ℝ} (hY : 1 / 2 ^ 200 ≤ Y)
    (hY' : Y ≤ 2 ^ 100) (hn : n ≤ 2 ^ 50) (h : ∀ j, j < n → f j = .ok (.fin (y j)) ∧ |y j| ≤ Y) :
    ∃ s, accumulate n f = .ok (.fin s) ∧ |s - ∑ j ∈ Finset.range n, y j| ≤ 2 * (n : ℝ) ^ 2 * Y / 2 ^ 53 := by
  have key : ∀ m k s, k + m = n → |s - ∑ j ∈ Finset.range k, y j| ≤ 2 * (k : ℝ) ^ 2 * Y / 2 ^ 53 →
      |∑ j ∈ Finset.range k, y j| ≤ k * Y →
      ∃ s', accumulateFrom f (.fin s) k m = .ok (.fin s') ∧ |s' - ∑ j ∈ Finset.range n, y j| ≤ 2 * (n : ℝ) ^ 2 * Y / 2 ^ 53 := by
    intro m
    induction m with
    | zero =>
      intro k s hk h1 _
      obtain rfl : k = n := by omega
      exact ⟨s, rfl, h1⟩
    | succ m ih =>
      intro k s hk h1 h2
      obtain ⟨h3, h4⟩ := h k (by omega)
      obtain ⟨h5, h6, h7⟩ := sum_step hA hY hY' hn (by omega : k < n) h1 h2 h4
      rw [accumulateFrom, h3, Res.ok_bind, Num.fin_add, h5]
      rw [← Finset.sum_range_succ] at h6 h7
      exact ih (k + 1) _ (by omega) h6 h7
  unfold accumulate
  rw [Num.zero_eq]
  exact key n 0 0 (by omega) (by simp) (by simp)

theorem prodIn_err_le (fused : Bool) {x Y : ℝ} (hY : 1 / 2 ^ 200 ≤ Y) (hx : |x| ≤ Y) : |prodIn fused x - x| ≤ Y / 2 ^ 52 := by
  cases fused with
  | false => exact rn_err_le hY hx
  | true =>
    show |x - x| ≤ _
    rw [sub_self, abs_zero]
    exact div_nonneg (le_trans (by positivity) hY) (by norm_num)

/-- A sum of products in double precision, fused or not. -/
theorem dot_double (hA : A.IsBinary64) (fused : Bool) {Y : ℝ} {n : Nat} {f : Nat → Res (Num A × Num A)} {a c : Nat → ℝ}
    (hY : 1 / 2 ^ 200 ≤ Y) (hY' : Y ≤ 2 ^ 100) (hn : n ≤ 2 ^ 50)
    (h : ∀ j, j < n → f j = .ok (.fin (a j), .fin (c j)) ∧ |a j * c j| ≤ (2 : ℝ) ^ (200 : Int) ∧ |prodIn fused (a j * c j)| ≤ Y) :
    ∃ s, dotFrom fused f CxxFloat.zero 0 n = .ok (.fin s) ∧
      |s - ∑ j ∈ Finset.range n, prodIn fused (a j * c j)| ≤ 2 * (n : ℝ) ^ 2 * Y / 2 ^ 53 := by
  have key : ∀ m k s, k + m = n → |s - ∑ j ∈ Finset.range k, prodIn fused (a j * c j)| ≤ 2 * (k : ℝ) ^ 2 * Y / 2 ^ 53 →
      |∑ j ∈ Finset.range k, prodIn fused (a j * c j)| ≤ k * Y →
      ∃ s', dotFrom fused f (.fin s) k m = .ok (.fin s') ∧
        |s' - ∑ j ∈ Finset.range n, prodIn fused (a j * c j)| ≤ 2 * (n : ℝ) ^ 2 * Y / 2 ^ 53 := by
    intro m
    induction m with
    | zero =>
      intro k s hk h1 _
      obtain rfl : k = n := by omega
      exact ⟨s, rfl, h1⟩
    | succ m ih =>
      intro k s hk h1 h2
      obtain ⟨h3, h3', h4⟩ := h k (by omega)
      obtain ⟨h5, h6, h7⟩ := sum_step hA hY hY' hn (by omega : k < n) h1 h2 h4
      rw [dotFrom, h3, Res.ok_bind, mulAdd_round fused (round_fin hA h3'), h5]
      rw [← Finset.sum_range_succ] at h6 h7
      exact ih (k + 1) _ (by omega) h6 h7
  rw [Num.zero_eq]
  exact key n 0 0 (by omega) (by simp) (by simp)

/-- What `AccumulateSk` reads, in double precision: integer displacements and bounded occupations. -/
structure SkData {T : Type} (size : List Nat) (l : Lattice (Num A)) (conv : T → Num A) (occ : List T) (ω : List ℝ)
    (x : Nat → List Int) (L M : ℝ) : Prop where
  vector : ∀ j, j < size.prod → l.getVector 0 j = .ok ((x j).map (fun z : Int => .fin (z : ℝ))) ∧ (x j).length = size.length ∧
    ∀ q, q < size.length → |(coord (x j) q : ℝ)| ≤ 2 * L
  occ : ∀ j, j < size.prod → ∃ o, occ[j]? = some o ∧ conv o = .fin (occupation ω j) ∧ |occupation ω j| ≤ M

/-- The phase of a site. -/
theorem phase_double (hA : A.IsBinary64) (fused : Bool) {L : ℝ} (hL : 1 ≤ L) (hL' : L ≤ 2 ^ 40) {d : Nat} (hd : d ≤ 3) {x : List Int} (hx : x.length = d)
    (hxL : ∀ q, q < d → |(coord x q : ℝ)| ≤ 2 * L) {k κ : Nat → ℝ} (hκ : ∀ q, q < d → |κ q| ≤ 4 ∧ |k q - κ q| ≤ |κ q| / 2 ^ 51) :
    ∃ p, dotFrom fused (fun q => do
        let kq ← subscript ((List.range d).map (fun q => (.fin (k q) : Num A))) q
        let xq ← subscript (x.map (fun z : Int => (.fin (z : ℝ) : Num A))) q
        .ok (kq, xq)) CxxFloat.zero 0 d = .ok (.fin p) ∧ |p - ∑ q ∈ Finset.range d, κ q * (coord x q : ℝ)| ≤ L / 2 ^ 44 ∧ |p| ≤ 2 ^ 60 := by
  have step : ∀ q, q < d → |k q * (coord x q : ℝ)| ≤ 9 * L ∧ |k q * (coord x q : ℝ) - κ q * (coord x q : ℝ)| ≤ 8 * L / 2 ^ 51 := by
    intro q hq
    obtain ⟨h1, h2⟩ := hκ q hq
    have h3 := hxL q hq
    have h4 : |k q - κ q| ≤ 4 / 2 ^ 51 := h2.trans (by gcongr)
    have h5 : |k q * (coord x q : ℝ) - κ q * (coord x q : ℝ)| ≤ 8 * L / 2 ^ 51 := by
      rw [← sub_mul, abs_mul]
      calc |k q - κ q| * |(coord x q : ℝ)| ≤ 4 / 2 ^ 51 * (2 * L) := by gcongr
        _ = 8 * L / 2 ^ 51 := by ring
    have h6 : |κ q * (coord x q : ℝ)| ≤ 8 * L := by
      rw [abs_mul]
      calc |κ q| * |(coord x q : ℝ)| ≤ 4 * (2 * L) := by gcongr
        _ = 8 * L := by ring
    refine ⟨?_, h5⟩
    have h7 := abs_sub_abs_le_abs_sub (k q * (coord x q : ℝ)) (κ q * (coord x q : ℝ))
    have h8 : 8 * L / 2 ^ 51 ≤ L := by rw [div_le_iff₀ (by norm_num)]; norm_num; linarith
    linarith
  have rnd : ∀ q, q < d → |prodIn fused (k q * (coord x q : ℝ)) - k q * (coord x q : ℝ)| ≤ 9 * L / 2 ^ 52 := by
    intro q hq
    exact prodIn_err_le fused (by norm_num; linarith) (step q hq).1
  have hb : ∀ q, q < d → |prodIn fused (k q * (coord x q : ℝ))| ≤ 10 * L := by
    intro q hq
    have h1 := rnd q hq
    have h2 := (step q hq).1
    have h3 := abs_sub_abs_le_abs_sub (prodIn fused (k q * (coord x q : ℝ))) (k q * (coord x q : ℝ))
    have h4 : 9 * L / 2 ^ 52 ≤ L := by rw [div_le_iff₀ (by norm_num)]; norm_num; linarith
    linarith
  obtain ⟨p, h1, h2⟩ := dot_double hA fused (Y := 10 * L) (n := d) (a := k) (c := fun q => (coord x q : ℝ))
    (f := fun q => do
        let kq ← subscript ((List.range d).map (fun q => (.fin (k q) : Num A))) q
        let xq ← subscript (x.map (fun z : Int => (.fin (z : ℝ) : Num A))) q
        .ok (kq, xq))
    (by norm_num; linarith) (by norm_num at hL' ⊢; linarith) (by omega) (fun q hq => ⟨by
      rw [subscript_ok (x := (.fin (k q) : Num A)) (by rw [List.getElem?_map, List.getElem?_range hq]; rfl), Res.ok_bind,
        subscript_ok (x := (.fin (coord x q : ℝ) : Num A)) (by
          rw [List.getElem?_map, List.getElem?_eq_getElem (hx ▸ hq), coord_eq (hx ▸ hq)]; rfl), Res.ok_bind],
      (step q hq).1.trans (by norm_num at hL' ⊢; linarith), hb q hq⟩)
  have hdr : (d : ℝ) ≤ 3 := by exact_mod_cast hd
  have h3 : |∑ q ∈ Finset.range d, prodIn fused (k q * (coord x q : ℝ)) - ∑ q ∈ Finset.range d, κ q * (coord x q : ℝ)| ≤
      3 * (9 * L / 2 ^ 52 + 8 * L / 2 ^ 51) := by
    rw [← Finset.sum_sub_distrib]
    refine (Finset.abs_sum_le_sum_abs _ _).trans ?_
    refine (Finset.sum_le_card_nsmul _ _ (9 * L / 2 ^ 52 + 8 * L / 2 ^ 51) (fun q hq => ?_)).trans ?_
    · have hq := Finset.mem_range.1 hq
      have := abs_add_le (prodIn fused (k q * (coord x q : ℝ)) - k q * (coord x q : ℝ)) (k q * (coord x q : ℝ) - κ q * (coord x q : ℝ))
      rw [sub_add_sub_cancel] at this
      linarith [rnd q hq, (step q hq).2]
    · rw [Finset.card_range, nsmul_eq_mul]
      exact mul_le_mul_of_nonneg_right hdr (by positivity)
  have h4 : 2 * (d : ℝ) ^ 2 * (10 * L) / 2 ^ 53 ≤ 2 * 3 ^ 2 * (10 * L) / 2 ^ 53 := by gcongr
  refine ⟨p, h1, ?_, ?_⟩
  · have := abs_add_le (p - ∑ q ∈ Finset.range d, prodIn fused (k q * (coord x q : ℝ)))
      (∑ q ∈ Finset.range d, prodIn fused (k q * (coord x q : ℝ)) - ∑ q ∈ Finset.range d, κ q * (coord x q : ℝ))
    rw [sub_add_sub_cancel] at this
    norm_num at h2 h3 h4 this ⊢
    linarith
  · have h5 : |∑ q ∈ Finset.range d, prodIn fused (k q * (coord x q : ℝ))| ≤ 3 * (10 * L) := by
      refine (Finset.abs_sum_le_sum_abs _ _).trans ?_
      refine (Finset.sum_le_card_nsmul _ _ (10 * L) (fun q hq => hb q (Finset.mem_range.1 hq))).trans ?_
      rw [Finset.card_range, nsmul_eq_mul]
      exact mul_le_mul_of_nonneg_right hdr (by positivity)
    have := abs_sub_abs_le_abs_sub p (∑ q ∈ Finset.range d, prodIn fused (k q * (coord x q : ℝ)))
    norm_num at h2 h4 this hL' h5 ⊢
    linarith

/-- One term of the Fourier transform, for a sine or a cosine `t` of the exact phase, a computed one `v`. -/
theorem term_double (hA : A.IsBinary64) (fused : Bool) {L M v t w : ℝ} (hL : 1 ≤ L) (hL' : L ≤ 2 ^ 40) (hM : 1 / 2 ^ 40 ≤ M) (hM' : M ≤ 2 ^ 40)
    (ht : |t| ≤ 1) (hv : |v - t| ≤ L / 2 ^ 44 + 1 / 2 ^ 52) (hw : |w| ≤ M) :
    Num.round A v = .fin (rn v) ∧ Num.round A (rn v * w) = .fin (rn (rn v * w)) ∧ |prodIn fused (rn v * w)| ≤ 2 * M ∧
      |prodIn fused (rn v * w) - t * w| ≤ M * (L / 2 ^ 44 + 6 / 2 ^ 52) := by
  have hM0 : 0 < M := lt_of_lt_of_le (by positivity) hM
  have hLs : L / 2 ^ 44 ≤ 1 / 16 := by rw [div_le_iff₀ (by norm_num)]; norm_num at hL' ⊢; linarith
  have h1 : |v| ≤ 5 / 4 := by
    have := abs_sub_abs_le_abs_sub v t
    norm_num at hv hLs this ⊢
    linarith
  have h2 : |rn v - v| ≤ 5 / 4 / 2 ^ 52 := rn_err_le (by norm_num) h1
  have h3 : |rn v - t| ≤ L / 2 ^ 44 + 3 / 2 ^ 52 := by
    have := abs_add_le (rn v - v) (v - t)
    rw [sub_add_sub_cancel] at this
    norm_num at h2 hv this ⊢
    linarith
  have h4 : |rn v| ≤ 5 / 4 := by
    have := abs_sub_abs_le_abs_sub (rn v) t
    norm_num at h3 hLs this ⊢
    linarith
  have h5 : |rn v * w| ≤ 5 / 4 * M := by
    rw [abs_mul]
    exact mul_le_mul h4 hw (abs_nonneg _) (by norm_num)
  have h6 : |prodIn fused (rn v * w) - rn v * w| ≤ 5 / 4 * M / 2 ^ 52 := prodIn_err_le fused (by norm_num at hM ⊢; linarith) h5
  have h7 : |rn v * w - t * w| ≤ (L / 2 ^ 44 + 3 / 2 ^ 52) * M := by
    rw [← sub_mul, abs_mul]
    exact mul_le_mul h3 hw (abs_nonneg _) (by positivity)
  refine ⟨round_fin hA (h1.trans (by norm_num)), round_fin hA (h5.trans ?_), ?_, ?_⟩
  · norm_num at hM' ⊢; linarith
  · have := abs_sub_abs_le_abs_sub (prodIn fused (rn v * w)) (rn v * w)
    have : 5 / 4 * M / 2 ^ 52 ≤ M / 4 := by rw [div_le_iff₀ (by norm_num)]; norm_num; linarith
    linarith
  · have := abs_add_le (prodIn fused (rn v * w) - rn v * w) (rn v * w - t * w)
    rw [sub_add_sub_cancel] at this
    have e : (L / 2 ^ 44 + 3 / 2 ^ 52) * M + 5 / 4 * M / 2 ^ 52 ≤ M * (L / 2 ^ 44 + 6 / 2 ^ 52) := by
      have : 0 ≤ M / 2 ^ 52 := by positivity
      rw [mul_add, add_mul, mul_div_assoc, mul_div_assoc', div_mul_eq_mul_div, div_mul_eq_mul_div]
      norm_num at this ⊢
      linarith
    linarith

theorem sin_lip (x y : ℝ) : |Real.sin x - Real.sin y| ≤ |x - y| := by
  have := Real.lipschitzWith_sin.dist_le_mul x y
  simpa [Real.dist_eq] using this

theorem cos_lip (x y : ℝ) : |Real.cos x - Real.cos y| ≤ |x - y| := by
  have := Real.lipschitzWith_cos.dist_le_mul x y
  simpa [Real.dist_eq] using this

/-- Bounded occupations. -/
def SkOcc {T : Type} (size : List Nat) (conv : T → Num A) (occ : List T) (ω : List ℝ) (M : ℝ) : Prop :=
  ∀ j, j < size.prod → ∃ o, occ[j]? = some o ∧ conv o = .fin (occupation ω j) ∧ |occupation ω j| ≤ M

/-- The accuracy of the Fourier transform, for displacements and a momentum with known phases. -/
theorem fourier_core {T : Type} {conv : T → Num A} {occ : List T} {ω : List ℝ} {L M : ℝ} (hA : IsTrig A) (c : SkFused)
    (hs : Buildable size) {l : Lattice (Num A)} (hl : Lattice.new b size .closed = .ok l) (hi : SkOcc size conv occ ω M)
    (hL : 1 ≤ L) (hL' : L ≤ 2 ^ 40) (hM : 1 / 2 ^ 40 ≤ M) (hM' : M ≤ 2 ^ 40) (hn : size.prod ≤ 2 ^ 50)
    {v : Nat → List (Num A)} (hvec : ∀ j, j < size.prod → l.getVector 0 j = .ok (v j)) {k : List (Num A)} {t : Nat → ℝ}
    (hp : ∀ j, j < size.prod → ∃ p : ℝ, dotFrom c.phase (fun q => do
        let kq ← subscript k q
        let xq ← subscript (v j) q
        .ok (kq, xq)) CxxFloat.zero 0 size.length = .ok (.fin p) ∧ |p - t j| ≤ L / 2 ^ 44) :
    ∃ im re, l.fourierContracted c conv occ k = .ok (.fin im, .fin re) ∧
      |im - ∑ j ∈ Finset.range size.prod, Real.sin (t j) * occupation ω j| ≤ size.prod * M * (L / 2 ^ 44 + size.prod / 2 ^ 49) ∧
      |re - ∑ j ∈ Finset.range size.prod, Real.cos (t j) * occupation ω j| ≤ size.prod * M * (L / 2 ^ 44 + size.prod / 2 ^ 49) := by
  have hM0 : 0 < M := lt_of_lt_of_le (by positivity) hM
  have hp : ∀ j, ∃ p : ℝ, j < size.prod → dotFrom c.phase (fun q => do
        let kq ← subscript k q
        let xq ← subscript (v j) q
        .ok (kq, xq)) CxxFloat.zero 0 size.length = .ok (.fin p) ∧ |p - t j| ≤ L / 2 ^ 44 := by
    intro j
    by_cases hj : j < size.prod
    · obtain ⟨p, h⟩ := hp j hj
      exact ⟨p, fun _ => h⟩
    · exact ⟨0, fun h => absurd h hj⟩
  choose p hp using hp
  have hsin : ∀ j, j < size.prod → |A.sin (p j) - Real.sin (t j)| ≤
      L / 2 ^ 44 + 1 / 2 ^ 52 := by
    intro j hj
    have := abs_add_le (A.sin (p j) - Real.sin (p j)) (Real.sin (p j) - Real.sin (t j))
    rw [sub_add_sub_cancel] at this
    linarith [hA.sin (p j), (sin_lip (p j) (t j)).trans (hp j hj).2]
  have hcos : ∀ j, j < size.prod → |A.cos (p j) - Real.cos (t j)| ≤
      L / 2 ^ 44 + 1 / 2 ^ 52 := by
    intro j hj
    have := abs_add_le (A.cos (p j) - Real.cos (p j)) (Real.cos (p j) - Real.cos (t j))
    rw [sub_add_sub_cancel] at this
    linarith [hA.cos (p j), (cos_lip (p j) (t j)).trans (hp j hj).2]
  have tsin := fun j hj => term_double hA.binary64 c.sine hL hL' hM hM' (Real.abs_sin_le_one _) (hsin j hj) (hi j hj).choose_spec.2.2
  have tcos := fun j hj => term_double hA.binary64 c.cosine hL hL' hM hM' (Real.abs_cos_le_one _) (hcos j hj) (hi j hj).choose_spec.2.2
  set y := fun j => prodIn c.sine (rn (A.sin (p j)) * occupation ω j) with hy
  set z := fun j => prodIn c.cosine (rn (A.cos (p j)) * occupation ω j) with hz
  have hg := (new_parts hl).1
  have hdim : l.grid.dim = size.length := by rw [hg]; rfl
  unfold Lattice.fourierContracted
  rw [hg, numsites_eq hs.1, ← hg, hdim]
  obtain ⟨s, h1, im, re, rfl, h2, -, h3, -⟩ := foldRange_inv (n := size.prod)
    (f := fun (s : Num A × Num A) j => do
      let x ← l.getVector 0 j
      let prod ← dotFrom c.phase (fun q => do
        let kq ← subscript k q
        let xq ← subscript x q
        .ok (kq, xq)) CxxFloat.zero 0 size.length
      let o ← subscript occ j
      .ok (mulAdd c.sine (CxxFloat.sin prod) (conv o) s.1, mulAdd c.cosine (CxxFloat.cos prod) (conv o) s.2))
    (s := (CxxFloat.zero, CxxFloat.zero))
    (fun m s => ∃ im re, s = (.fin im, .fin re) ∧
      |im - ∑ j ∈ Finset.range m, y j| ≤ 2 * (m : ℝ) ^ 2 * (2 * M) / 2 ^ 53 ∧ |∑ j ∈ Finset.range m, y j| ≤ m * (2 * M) ∧
      |re - ∑ j ∈ Finset.range m, z j| ≤ 2 * (m : ℝ) ^ 2 * (2 * M) / 2 ^ 53 ∧ |∑ j ∈ Finset.range m, z j| ≤ m * (2 * M))
    ⟨0, 0, by rw [Num.zero_eq], by simp, by simp, by simp, by simp⟩ (by
      rintro m _ hm ⟨im, re, rfl, h1, h2, h3, h4⟩
      have hv := hvec m hm
      obtain ⟨o, ho, hc, -⟩ := hi m hm
      obtain ⟨s1, s2, s3, -⟩ := tsin m hm
      obtain ⟨c1, c2, c3, -⟩ := tcos m hm
      have e1 : CxxFloat.sin (.fin (p m) : Num A) = .fin (rn (A.sin (p m))) := by
        show (if true then Num.round A (A.sin (p m)) else Num.nan) = _
        rw [if_pos rfl, s1]
      have e2 : CxxFloat.cos (.fin (p m) : Num A) = .fin (rn (A.cos (p m))) := by
        show (if true then Num.round A (A.cos (p m)) else Num.nan) = _
        rw [if_pos rfl, c1]
      have hY : 1 / 2 ^ 200 ≤ 2 * M := by norm_num at hM ⊢; linarith
      have hY' : 2 * M ≤ 2 ^ 100 := by norm_num at hM' ⊢; linarith
      obtain ⟨a1, a2, a3⟩ := sum_step hA.binary64 hY hY' hn hm h1 h2 s3
      obtain ⟨b1, b2, b3⟩ := sum_step hA.binary64 hY hY' hn hm h3 h4 c3
      rw [Finset.sum_range_succ, Finset.sum_range_succ]
      refine ⟨_, ?_, _, _, rfl, a2, a3, b2, b3⟩
      simp only [hv, Res.ok_bind, (hp m hm).1, subscript_ok ho, hc, e1, e2, mulAdd_round _ s2, mulAdd_round _ c2, a1, b1])
  refine ⟨im, re, h1, ?_, ?_⟩
  all_goals
    have fin : ∀ (v : ℝ) (y t : Nat → ℝ), |v - ∑ j ∈ Finset.range size.prod, y j| ≤ 2 * (size.prod : ℝ) ^ 2 * (2 * M) / 2 ^ 53 →
        (∀ j, j < size.prod → |y j - t j| ≤ M * (L / 2 ^ 44 + 6 / 2 ^ 52)) →
        |v - ∑ j ∈ Finset.range size.prod, t j| ≤ size.prod * M * (L / 2 ^ 44 + size.prod / 2 ^ 49) := by
      intro v y t h1 h2
      have h3 : |∑ j ∈ Finset.range size.prod, y j - ∑ j ∈ Finset.range size.prod, t j| ≤ size.prod * (M * (L / 2 ^ 44 + 6 / 2 ^ 52)) := by
        rw [← Finset.sum_sub_distrib]
        refine (Finset.abs_sum_le_sum_abs _ _).trans ?_
        refine (Finset.sum_le_card_nsmul _ _ _ (fun j hj => h2 j (Finset.mem_range.1 hj))).trans ?_
        rw [Finset.card_range, nsmul_eq_mul]
      have := abs_add_le (v - ∑ j ∈ Finset.range size.prod, y j) (∑ j ∈ Finset.range size.prod, y j - ∑ j ∈ Finset.range size.prod, t j)
      rw [sub_add_sub_cancel] at this
      refine this.trans ((add_le_add h1 h3).trans ?_)
      have hp1 : (1 : ℝ) ≤ size.prod := by exact_mod_cast prod_pos hs.1.1
      have hnM : (size.prod : ℝ) * M * 1 ≤ size.prod * M * size.prod := mul_le_mul_of_nonneg_left hp1 (by positivity)
      have e1 : 2 * (size.prod : ℝ) ^ 2 * (2 * M) / 2 ^ 53 + size.prod * (M * (L / 2 ^ 44 + 6 / 2 ^ 52)) =
        size.prod * M * (L / 2 ^ 44) + (size.prod * M * size.prod) * (4 / 2 ^ 53) + size.prod * M * (12 / 2 ^ 53) := by ring
      have e2 : (size.prod : ℝ) * M * (L / 2 ^ 44 + size.prod / 2 ^ 49) =
        size.prod * M * (L / 2 ^ 44) + (size.prod * M * size.prod) * (16 / 2 ^ 53) := by ring
      rw [e1, e2]
      have e3 : (size.prod : ℝ) * M * (12 / 2 ^ 53) ≤ size.prod * M * size.prod * (12 / 2 ^ 53) :=
        mul_le_mul_of_nonneg_right (by linarith) (by norm_num)
      generalize (size.prod : ℝ) * M * size.prod = w at *
      generalize (size.prod : ℝ) * M * (L / 2 ^ 44) = w' at *
      norm_num at e3 ⊢
      linarith
  · exact fin im y _ h2 (fun j hj => (tsin j hj).2.2.2)
  · exact fin re z _ h3 (fun j hj => (tcos j hj).2.2.2)

/-- The accuracy of the Fourier transform. -/
theorem fourier_double {T : Type} {conv : T → Num A} {occ : List T} {ω : List ℝ} {x : Nat → List Int} {L M : ℝ} (hA : IsTrig A) (c : SkFused)
    (hs : Buildable size) {l : Lattice (Num A)} (hl : Lattice.new b size .closed = .ok l) (hi : SkData size l conv occ ω x L M)
    (hL : 1 ≤ L) (hL' : L ≤ 2 ^ 40) (hM : 1 / 2 ^ 40 ≤ M) (hM' : M ≤ 2 ^ 40) (hd : size.length ≤ 3) (hn : size.prod ≤ 2 ^ 50)
    {k κ : Nat → ℝ} (hκ : ∀ q, q < size.length → |κ q| ≤ 4 ∧ |k q - κ q| ≤ |κ q| / 2 ^ 51) :
    ∃ im re, l.fourierContracted c conv occ ((List.range size.length).map (fun q => .fin (k q))) = .ok (.fin im, .fin re) ∧
      |im - ∑ j ∈ Finset.range size.prod, Real.sin (∑ q ∈ Finset.range size.length, κ q * (coord (x j) q : ℝ)) * occupation ω j| ≤
        size.prod * M * (L / 2 ^ 44 + size.prod / 2 ^ 49) ∧
      |re - ∑ j ∈ Finset.range size.prod, Real.cos (∑ q ∈ Finset.range size.length, κ q * (coord (x j) q : ℝ)) * occupation ω j| ≤
        size.prod * M * (L / 2 ^ 44 + size.prod / 2 ^ 49) := by
  have hp : ∀ j, j < size.prod → ∃ p : ℝ, dotFrom c.phase (fun q => do
        let kq ← subscript ((List.range size.length).map (fun q => (.fin (k q) : Num A))) q
        let xq ← subscript ((x j).map (fun z : Int => (.fin (z : ℝ) : Num A))) q
        .ok (kq, xq)) CxxFloat.zero 0 size.length = .ok (.fin p) ∧ |p - ∑ q ∈ Finset.range size.length, κ q * (coord (x j) q : ℝ)| ≤ L / 2 ^ 44 := by
    intro j hj
    obtain ⟨-, h1, h2⟩ := hi.vector j hj
    obtain ⟨p, h3, h4, -⟩ := phase_double hA.binary64 c.phase hL hL' hd h1 h2 hκ
    exact ⟨p, h3, h4⟩
  exact fourier_core hA c hs hl hi.occ hL hL' hM hM' hn (fun j hj => (hi.vector j hj).1) hp

/-- Which square is not rounded. -/
def Fused.onFirst : Fused → Bool
  | .first => true
  | _ => false

def Fused.onSecond : Fused → Bool
  | .second => true
  | _ => false

theorem sumSquares_round (f : Fused) {a b : ℝ} (ra : Num.round A (a * a) = .fin (rn (a * a)))
    (rb : Num.round A (b * b) = .fin (rn (b * b))) :
    sumSquares f (.fin a : Num A) (.fin b) = Num.round A (prodIn f.onFirst (a * a) + prodIn f.onSecond (b * b)) := by
  cases f with
  | neither => show (.fin a * .fin a + .fin b * .fin b : Num A) = _; rw [Num.fin_mul, Num.fin_mul, ra, rb]; rfl
  | first => show Num.fma (.fin a) (.fin a) (.fin b * .fin b : Num A) = _; rw [Num.fin_mul, rb]; rfl
  | second =>
    show Num.fma (.fin b) (.fin b) (.fin a * .fin a : Num A) = _
    rw [Num.fin_mul, ra]
    show Num.round A (b * b + rn (a * a)) = _
    rw [add_comm]; rfl

/-- The arithmetic after the loops, with `R` a bound of the exact transform and `e` of its relative error. -/
theorem finish_double (f : Fused) {R e a b a' b' W m : ℝ} {n : Nat} (hA : A.IsBinary64) (hR : 1 / 2 ^ 40 ≤ R) (hR' : R ≤ 2 ^ 72) (hW : 1 / 2 ^ 40 ≤ W)
    (hW' : W ≤ 2 ^ 40) (he : 0 ≤ e) (he' : e ≤ 1 / 16) (hen : (n : ℝ) / 2 ^ 49 ≤ e) (hn : 0 < n) (hn' : n < 2 ^ 32)
    (ha : |a| ≤ R) (hb : |b| ≤ R) (ha' : |a' - a| ≤ R * e) (hb' : |b' - b| ≤ R * e) (hm : |m| ≤ W) :
    ∃ s, (CxxFloat.zero : Num A) + .fin m * sumSquares f (.fin a') (.fin b') / CxxFloat.ofNat (squareU n) = .fin s ∧
      |s - m * (a * a + b * b) / n ^ 2| ≤ W * R ^ 2 / n ^ 2 * (8 * e) ∧ (0 ≤ m → 0 ≤ s) := by
  have hR0 : 0 < R := lt_of_lt_of_le (by positivity) hR
  have hW0 : 0 < W := lt_of_lt_of_le (by positivity) hW
  have hU : 1 / 2 ^ 80 ≤ R ^ 2 := by
    have := pow_le_pow_left₀ (by positivity) hR 2
    norm_num at this ⊢
    exact this
  have hU' : R ^ 2 ≤ 2 ^ 144 := by
    have := pow_le_pow_left₀ hR0.le hR' 2
    norm_num at this ⊢
    exact this
  have hU0 : 0 < R ^ 2 := by positivity
  have sq : ∀ {a a' : ℝ}, |a| ≤ R → |a' - a| ≤ R * e → |a' * a'| ≤ 6 / 5 * R ^ 2 ∧ |a' * a' - a * a| ≤ R ^ 2 * (33 / 16 * e) := by
    intro a a' h1 h2
    have h3 : |a'| ≤ 17 / 16 * R := by
      have := abs_sub_abs_le_abs_sub a' a
      nlinarith
    constructor
    · rw [abs_mul]
      have := mul_le_mul h3 h3 (abs_nonneg _) (by positivity)
      nlinarith
    · rw [show a' * a' - a * a = (a' - a) * (a' + a) by ring, abs_mul]
      have h4 : |a' + a| ≤ 33 / 16 * R := (abs_add_le _ _).trans (by linarith)
      have := mul_le_mul h2 h4 (abs_nonneg _) (by positivity)
      nlinarith
  obtain ⟨a1, a2⟩ := sq ha ha'
  obtain ⟨b1, b2⟩ := sq hb hb'
  set U := R ^ 2 with hUdef
  clear_value U
  clear sq
  have a3 := prodIn_err_le f.onFirst (Y := 6 / 5 * U) (by norm_num at hU ⊢; linarith) a1
  have b3 := prodIn_err_le f.onSecond (Y := 6 / 5 * U) (by norm_num at hU ⊢; linarith) b1
  have ra : Num.round A (a' * a') = .fin (rn (a' * a')) := round_fin hA (a1.trans (by norm_num at hU' ⊢; linarith))
  have rb : Num.round A (b' * b') = .fin (rn (b' * b')) := round_fin hA (b1.trans (by norm_num at hU' ⊢; linarith))
  have pa : 0 ≤ prodIn f.onFirst (a' * a') := prodIn_nonneg _ (mul_self_nonneg a')
  have pb : 0 ≤ prodIn f.onSecond (b' * b') := prodIn_nonneg _ (mul_self_nonneg b')
  have sq := sumSquares_round f ra rb
  generalize prodIn f.onFirst (a' * a') = x at *
  generalize prodIn f.onSecond (b' * b') = y at *
  have x1 : |x| ≤ 5 / 4 * U := by
    have := abs_sub_abs_le_abs_sub x (a' * a')
    norm_num at a1 a3 this ⊢
    linarith
  have y1 : |y| ≤ 5 / 4 * U := by
    have := abs_sub_abs_le_abs_sub y (b' * b')
    norm_num at b1 b3 this ⊢
    linarith
  have q1 : |x + y| ≤ 5 / 2 * U := (abs_add_le _ _).trans (by linarith)
  have q2 := rn_err_le (Y := 5 / 2 * U) (by norm_num at hU ⊢; linarith) q1
  have rq : Num.round A (x + y) = .fin (rn (x + y)) := round_fin hA (q1.trans (by norm_num at hU' ⊢; linarith))
  have pq : 0 ≤ rn (x + y) := rn_nonneg' (add_nonneg pa pb)
  have q3 : |rn (x + y)| ≤ 3 * U := by
    have := abs_sub_abs_le_abs_sub (rn (x + y)) (x + y)
    norm_num at q1 q2 this ⊢
    linarith
  have q4 : |rn (x + y) - (a * a + b * b)| ≤ U * (33 / 8 * e + 5 / 2 ^ 52) := by
    have e1 : rn (x + y) - (a * a + b * b) = (rn (x + y) - (x + y)) + ((x - a' * a') + (y - b' * b')) + ((a' * a' - a * a) + (b' * b' - b * b)) := by ring
    rw [e1]
    refine (abs_add_three _ _ _).trans ?_
    have h1 := abs_add_le (x - a' * a') (y - b' * b')
    have h2 := abs_add_le (a' * a' - a * a) (b' * b' - b * b)
    have h3 : U * (33 / 8 * e + 5 / 2 ^ 52) = 2 * (U * (33 / 16 * e)) + 5 * U / 2 ^ 52 := by ring
    rw [h3]
    generalize U * (33 / 16 * e) = w at *
    norm_num at a3 b3 q2 h1 h2 ⊢
    linarith
  generalize rn (x + y) = q at *
  set V := W * U with hV
  have hV0 : 0 < V := by positivity
  have hVl : 1 / 2 ^ 120 ≤ V := by
    calc (1 : ℝ) / 2 ^ 120 = 1 / 2 ^ 40 * (1 / 2 ^ 80) := by norm_num
      _ ≤ _ := mul_le_mul hW hU (by positivity) hW0.le
  have hVu : V ≤ 2 ^ 184 := by
    calc V ≤ 2 ^ 40 * 2 ^ 144 := mul_le_mul hW' hU' hU0.le (by positivity)
      _ = 2 ^ 184 := by norm_num
  have m1 : |m * q| ≤ 3 * V := by
    rw [abs_mul]
    calc |m| * |q| ≤ W * (3 * U) := mul_le_mul hm q3 (abs_nonneg _) hW0.le
      _ = 3 * V := by rw [hV]; ring
  have m2 : |m * q - m * (a * a + b * b)| ≤ V * (33 / 8 * e + 5 / 2 ^ 52) := by
    rw [← mul_sub, abs_mul]
    calc |m| * |q - (a * a + b * b)| ≤ W * (U * (33 / 8 * e + 5 / 2 ^ 52)) := mul_le_mul hm q4 (abs_nonneg _) hW0.le
      _ = V * (33 / 8 * e + 5 / 2 ^ 52) := by rw [hV]; ring
  have m3 := rn_err_le (Y := 3 * V) (by norm_num at hVl ⊢; linarith) m1
  have rm : Num.round A (m * q) = .fin (rn (m * q)) := round_fin hA (m1.trans (by norm_num at hVu ⊢; linarith))
  have pm : 0 ≤ m → 0 ≤ rn (m * q) := fun h => rn_nonneg' (mul_nonneg h pq)
  have m4 : |rn (m * q)| ≤ 4 * V := by
    have := abs_sub_abs_le_abs_sub (rn (m * q)) (m * q)
    norm_num at m1 m3 this ⊢
    linarith
  have m5 : |rn (m * q) - m * (a * a + b * b)| ≤ V * (33 / 8 * e + 8 / 2 ^ 52) := by
    have := abs_add_le (rn (m * q) - m * q) (m * q - m * (a * a + b * b))
    rw [sub_add_sub_cancel] at this
    have h3 : V * (33 / 8 * e + 8 / 2 ^ 52) = V * (33 / 8 * e + 5 / 2 ^ 52) + 3 * V / 2 ^ 52 := by ring
    linarith
  generalize rn (m * q) = r at *
  -- the number of sites
  have hsq : squareU n = n * n := by
    unfold squareU umul
    refine Nat.mod_eq_of_lt ?_
    have : n * n < 2 ^ 32 * 2 ^ 32 := Nat.mul_lt_mul'' hn' hn'
    exact this
  have hn1 : (1 : ℝ) ≤ n := by exact_mod_cast hn
  have hn2 : (n : ℝ) ≤ 2 ^ 32 := by exact_mod_cast hn'.le
  set S : ℝ := (n : ℝ) ^ 2 with hS
  have hS1 : 1 ≤ S := by rw [hS]; exact one_le_pow₀ hn1
  have hS2 : S ≤ 2 ^ 64 := by
    have := pow_le_pow_left₀ (by linarith) hn2 2
    norm_num at this ⊢
    exact this
  have hcast : ((n * n : Nat) : ℝ) = S := by push_cast; rw [hS]; ring
  have s1 := rn_err_le (x := S) (Y := S) (by norm_num; linarith) (by rw [abs_of_pos (by linarith)])
  have rs : Num.round A S = .fin (rn S) := round_fin hA (by rw [abs_of_pos (by linarith)]; norm_num at hS2 ⊢; linarith)
  have s2 : S / 2 ≤ rn S := by
    have := (abs_le.1 s1).1
    norm_num at this ⊢
    linarith
  generalize hK : rn S = K at *
  have hK0 : 0 < K := by linarith
  have d1 : |r / K| ≤ 8 * (V / S) := by
    rw [abs_div, abs_of_pos hK0, div_le_iff₀ hK0]
    have : 8 * (V / S) * (S / 2) ≤ 8 * (V / S) * K := mul_le_mul_of_nonneg_left s2 (by positivity)
    have e1 : 8 * (V / S) * (S / 2) = 4 * V := by field_simp; ring
    linarith
  have d2 : |r / K - r / S| ≤ 8 * (V / S) / 2 ^ 52 := by
    have e1 : r / K - r / S = -(r / K) * ((K - S) / S) := by field_simp; ring
    rw [e1, abs_mul, abs_neg]
    have e2 : |(K - S) / S| ≤ 1 / 2 ^ 52 := by
      rw [abs_div, abs_of_pos (by linarith : 0 < S), div_le_iff₀ (by linarith)]
      linarith
    calc |r / K| * |(K - S) / S| ≤ 8 * (V / S) * (1 / 2 ^ 52) := mul_le_mul d1 e2 (abs_nonneg _) (by positivity)
      _ = _ := by ring
  have hG : 1 / 2 ^ 190 ≤ V / S := by
    rw [le_div_iff₀ (by linarith)]
    calc 1 / 2 ^ 190 * S ≤ 1 / 2 ^ 190 * 2 ^ 64 := by gcongr
      _ ≤ 1 / 2 ^ 120 := by norm_num
      _ ≤ V := hVl
  have hG' : V / S ≤ 2 ^ 184 := (div_le_self hV0.le hS1).trans hVu
  have d3 := rn_err_le (Y := 8 * (V / S)) (by norm_num at hG ⊢; linarith) d1
  have rd : Num.round A (r / K) = .fin (rn (r / K)) := round_fin hA (d1.trans (by norm_num at hG' ⊢; linarith))
  have d4 : |rn (r / K)| ≤ (2 : ℝ) ^ (200 : Int) := by
    have := abs_sub_abs_le_abs_sub (rn (r / K)) (r / K)
    norm_num at d1 d3 this hG' ⊢
    linarith
  refine ⟨rn (r / K), ?_, ?_, fun h => rn_nonneg' (div_nonneg (pm h) hK0.le)⟩
  · rw [hsq, Num.ofNat_eq, hcast, rs, sq, rq, Num.fin_mul, rm, Num.fin_div hK0.ne', rd,
      Num.zero_eq, Num.fin_add, zero_add, round_double hA (rn_isDouble _) d4]
  · have d5 : |r / S - m * (a * a + b * b) / S| ≤ V / S * (33 / 8 * e + 8 / 2 ^ 52) := by
      rw [← sub_div, abs_div, abs_of_pos (by linarith : 0 < S), div_le_iff₀ (by linarith)]
      refine m5.trans (le_of_eq ?_)
      field_simp
    have e1 : rn (r / K) - m * (a * a + b * b) / S = (rn (r / K) - r / K) + (r / K - r / S) + (r / S - m * (a * a + b * b) / S) := by ring
    rw [e1]
    refine (abs_add_three _ _ _).trans ?_
    have h1 : 8 / 2 ^ 52 ≤ e := by
      refine le_trans ?_ hen
      rw [div_le_div_iff₀ (by norm_num) (by norm_num)]
      norm_num
      linarith
    have h2 : V / S * (8 / 2 ^ 52) ≤ V / S * e := mul_le_mul_of_nonneg_left h1 (by positivity)
    have h3 : V / S * (33 / 8 * e + 8 / 2 ^ 52) = 33 / 8 * (V / S * e) + V / S * (8 / 2 ^ 52) := by ring
    have h4 : V / S * (8 * e) = 8 * (V / S * e) := by ring
    have h5 : 8 * (V / S) / 2 ^ 52 = V / S * (8 / 2 ^ 52) := by ring
    have h6 : 0 ≤ V / S * e := by positivity
    rw [h3] at d5
    rw [h5] at d2 d3
    rw [h4]
    linarith

/-- The exact momentum of a site with coordinates `c`. -/
noncomputable def Spec.exactMomentum (size : List Nat) (c : List Int) : List ℝ :=
  (List.range size.length).map (fun q => 2 * Real.pi * (coord c q - extent size q / 2 : Int) / (extent size q : ℝ))

/-- Coordinates as real numbers. -/
def Spec.realPoint (c : List Int) : List ℝ := c.map (fun z : Int => (z : ℝ))

theorem dot_realPoint {d : Nat} (κ : Nat → ℝ) {c : List Int} (hc : c.length = d) :
    dot ((List.range d).map κ) (realPoint c) = ∑ q ∈ Finset.range d, κ q * (coord c q : ℝ) := by
  rw [← dot_range (d := d) (by simp) (by simp [realPoint, hc])]
  refine Finset.sum_congr rfl (fun q hq => ?_)
  have hq := Finset.mem_range.1 hq
  have hq' : q < c.length := hc ▸ hq
  rw [coord_eq hq']
  simp [List.getD_eq_getElem?_getD, hq, realPoint, hq']

theorem exactMomentum_allowed (hs : Buildable size) (c : List Int) : Allowed size (unit size.length) (exactMomentum size c) := by
  intro j hj
  refine ⟨coord c j - extent size j / 2, ?_⟩
  unfold period exactMomentum
  rw [embed_unit (by simp)]
  have := dot_realPoint (d := size.length) (fun q => 2 * Real.pi * (coord c q - extent size q / 2 : Int) / (extent size q : ℝ))
    (c := (List.range size.length).map (fun i => if i = j then extent size j else 0)) (by simp)
  unfold realPoint at this
  rw [this, Finset.sum_eq_single j]
  · rw [coord_period hj, if_pos rfl]
    have := extent_ne hs hj
    field_simp
  · intro k hk hkj
    rw [coord_period (Finset.mem_range.1 hk), if_neg hkj]; simp
  · intro h; exact absurd (Finset.mem_range.2 hj) h

theorem transform_image (hs : Buildable size) (ω : List ℝ) (c : List Int) (x y m : Nat → List Int)
    (hx : ∀ j, j < size.prod → (x j).length = size.length)
    (h : ∀ j, j < size.prod → y j = image size (x j) (m j)) :
    transform size.prod ω (fun j => realPoint (y j)) (exactMomentum size c) =
      transform size.prod ω (fun j => realPoint (x j)) (exactMomentum size c) := by
  unfold transform
  refine Finset.sum_congr rfl (fun j hj => ?_)
  have hj := Finset.mem_range.1 hj
  have := phase_image (size := size) (P := unit size.length) (k := exactMomentum size c) (by simp [exactMomentum])
    (exactMomentum_allowed hs c) (x j) (m j)
  unfold phase at this
  rw [← h j hj, embed_unit (by rw [h j hj]; exact length_image ..), embed_unit (hx j hj)] at this
  unfold realPoint
  rw [this]

theorem sk_double {T : Type} {conv : T → Num A} {ω : T → ℝ} (hA : IsTrig A) (c : SkFused)
    (hb : chainLattice = .ok b ∨ squareLattice = .ok b ∨ cubicLattice = .ok b) (hd : size.length = b.dim) (hs : Buildable size)
    (hz : (size.map (fun s => (2 * s) ^ 2)).sum < 2 ^ 52) (hn : size.prod < 2 ^ 32)
    {l : Lattice (Num A)} (hl : Lattice.new b size .closed = .ok l) {M W L : ℝ} (hM : 1 / 2 ^ 40 ≤ M) (hM' : M ≤ 2 ^ 40)
    (hW : 1 / 2 ^ 40 ≤ W) (hW' : W ≤ 2 ^ 40) (hL : ∀ s ∈ size, (s : ℝ) ≤ L) (hL1 : 1 ≤ L) (hL2 : L ≤ 2 ^ 26)
    {occ : List T} (hconv : ∀ o ∈ occ, conv o = .fin (ω o) ∧ |ω o| ≤ M) (hocc : size.prod ≤ occ.length) {mult : ℝ} (hm : |mult| ≤ W)
    {x : Nat → List Int} (hx : ∀ j, j < size.prod → l.grid.getCoordinates j = .ok (x j)) :
    ∃ S : Nat → ℝ, l.computeSkContracted c conv occ (.fin mult) = .ok ((List.range size.prod).map (fun i => .fin (S i))) ∧
      ∀ i, i < size.prod → |S i - structureFactor size.prod mult (occ.map ω) (fun j => realPoint (x j)) (exactMomentum size (x i))| ≤
        W * M ^ 2 * (L / 2 ^ 41 + size.prod / 2 ^ 46) ∧ (0 ≤ mult → 0 ≤ S i) := by
  obtain ⟨Z, g, N, hZ, hH, hr, -, hMod⟩ := integer_cases hA.binary64 hb hd hz
  have hH' := hH
  rw [hZ] at hH'
  have hz' : ∀ s ∈ size, s ≤ 2 ^ 49 := by
    intro s hs'
    have h1 : (2 * s) ^ 2 < 2 ^ 52 := (List.single_le_sum (fun _ _ => Nat.zero_le _) _ (List.mem_map.2 ⟨s, hs', rfl⟩)).trans_lt hz
    have h2 : 2 * s < 2 ^ 26 := lt_of_pow_lt_pow_left₀ 2 (by norm_num) (by norm_num at h1 ⊢; exact h1)
    omega
  have h0 : 0 < size.prod := prod_pos hs.1.1
  have hxc : ∀ j, j < size.prod → x j = crd size j := by
    intro j hj
    have := hx j hj
    rw [(new_parts hl).1, getCoordinates_eq hs.1 (buildable_fits hs) .closed hj, Res.ok.injEq] at this
    exact this.symm
  have hlen : ∀ j, j < size.prod → (x j).length = size.length := by
    intro j hj
    rw [hxc j hj]; exact onGrid_length (crd_onGrid hs.1.1 hj)
  -- the displacements
  have hv : ∀ j, ∃ m : List Int, j < size.prod →
      l.getVector 0 j = .ok ((image size (x j) m).map (fun z : Int => .fin (z : ℝ))) ∧ Within size (image size (x j) m) := by
    intro j
    by_cases hj : j < size.prod
    · obtain ⟨m, -, h1, -, h2, -⟩ := closed_int hA.binary64 hA.sqrt hs hH hr hMod hl h0 hj
      rw [minus_origin (onGrid_length (crd_onGrid hs.1.1 hj)), wrap_of_onGrid (crd_onGrid hs.1.1 hj), ← hxc j hj] at h1 h2
      refine ⟨m, fun _ => ⟨?_, h2⟩⟩
      have e : Z.map (fun x : Int => (x : ℝ)) = unit size.length := hZ
      rw [h1, e, embed_unit (length_image ..), List.map_map]
      rfl
    · exact ⟨[], fun h => absurd h hj⟩
  choose m hv using hv
  have hdata : SkData size l conv occ (occ.map ω) (fun j => image size (x j) (m j)) L M := by
    refine ⟨fun j hj => ⟨(hv j hj).1, (hv j hj).2.1, fun q hq => ?_⟩, fun j hj => ?_⟩
    · have h1 := (hv j hj).2.2 q hq
      have h2 : (extent size q : ℝ) ≤ L := by
        rw [extent_eq hq]
        exact_mod_cast hL _ (List.getElem_mem hq)
      have h3 : |(coord (image size (x j) (m j)) q : ℝ)| ≤ 2 * (extent size q : ℝ) := by exact_mod_cast h1
      linarith
    · have h : j < occ.length := by omega
      refine ⟨occ[j], List.getElem?_eq_getElem h, ?_⟩
      have e : occupation (occ.map ω) j = ω occ[j] := by
        unfold occupation
        rw [List.getD_eq_getElem?_getD, List.getElem?_map, List.getElem?_eq_getElem h]
        rfl
      rw [e]
      exact hconv _ (List.getElem_mem h)
  have hd3 : size.length ≤ 3 := by
    rw [hd]
    rcases hb with hb | hb | hb <;> cases hb <;> simp
  have hmom := momenta_double hA.binary64 hA.pi hs hz' hH' hr hl
  have hg := (new_parts hl).1
  have ho : l.grid.hasOpenBoundaries = false := by rw [hg]; rfl
  have hnum : l.grid.numsites = size.prod := by rw [hg, numsites_eq hs.1]
  have hn1 : (1 : ℝ) ≤ size.prod := by exact_mod_cast h0
  have hn2 : (size.prod : ℝ) ≤ 2 ^ 32 := by exact_mod_cast hn.le
  set e : ℝ := L / 2 ^ 44 + size.prod / 2 ^ 49 with he
  have hM0 : 0 < M := lt_of_lt_of_le (by positivity) hM
  have key : ∀ i, ∃ s : ℝ, i < size.prod →
      (∃ im re : ℝ, l.fourierContracted c conv occ ((List.range size.length).map (fun k => .fin (kay (coord (label size i) k) (extent size k)))) =
        .ok (.fin im, .fin re) ∧
        (CxxFloat.zero : Num A) + .fin mult * sumSquares c.squares (.fin im) (.fin re) / CxxFloat.ofNat (squareU size.prod) = .fin s) ∧
      |s - structureFactor size.prod mult (occ.map ω) (fun j => realPoint (x j)) (exactMomentum size (x i))| ≤
        W * M ^ 2 * (L / 2 ^ 41 + size.prod / 2 ^ 46) ∧ (0 ≤ mult → 0 ≤ s) := by
    intro i
    by_cases hi : i < size.prod
    swap
    · exact ⟨0, fun h => absurd h hi⟩
    set κ : Nat → ℝ := fun q => 2 * Real.pi * (coord (x i) q - extent size q / 2 : Int) / (extent size q : ℝ) with hκ
    obtain ⟨im, re, h1, h2, h3⟩ := fourier_double hA c hs hl hdata hL1 (hL2.trans (by norm_num)) hM hM' hd3 (by omega)
      (k := fun k => kay (coord (label size i) k) (extent size k)) (κ := κ) (by
        intro q hq
        obtain ⟨h1, h2, h3⟩ := label_small hs hz' hi hq
        have hlab : coord (label size i) q = coord (x i) q - extent size q / 2 := by rw [coord_label hq, hxc i hi]
        constructor
        · have hc := (onGrid_iff.1 (crd_onGrid hs.1.1 hi)).2 q hq
          have h4 : |2 * (coord (x i) q - extent size q / 2)| ≤ extent size q := by
            rw [hxc i hi, abs_le]; omega
          have h5 : |2 * ((coord (x i) q - extent size q / 2 : Int) : ℝ)| ≤ (extent size q : ℝ) := by exact_mod_cast h4
          have h6 : (0 : ℝ) < extent size q := by exact_mod_cast h2
          rw [hκ]
          simp only
          rw [show 2 * Real.pi * ((coord (x i) q - extent size q / 2 : Int) : ℝ) / (extent size q : ℝ) =
            Real.pi * (2 * ((coord (x i) q - extent size q / 2 : Int) : ℝ) / (extent size q : ℝ)) by ring, abs_mul, abs_of_pos Real.pi_pos]
          have h7 : |2 * ((coord (x i) q - extent size q / 2 : Int) : ℝ) / (extent size q : ℝ)| ≤ 1 := by
            rw [abs_div, abs_of_pos h6, div_le_one h6]; exact h5
          calc Real.pi * _ ≤ 4 * 1 := mul_le_mul Real.pi_le_four h7 (abs_nonneg _) (by norm_num)
            _ = 4 := by norm_num
        · simp only [hlab, hκ]
          rw [hlab] at h1
          exact (kay_error (h1.trans (by norm_num)) h2 h3).1)
    have e1 : ∀ j, j < size.prod → ∑ q ∈ Finset.range size.length, κ q * (coord (image size (x j) (m j)) q : ℝ) =
        dot (exactMomentum size (x i)) (realPoint (image size (x j) (m j))) := fun j hj =>
      (dot_realPoint κ (length_image ..)).symm
    have e2 : ∑ j ∈ Finset.range size.prod, Real.sin (∑ q ∈ Finset.range size.length, κ q * (coord (image size (x j) (m j)) q : ℝ)) *
        occupation (occ.map ω) j = (transform size.prod (occ.map ω) (fun j => realPoint (x j)) (exactMomentum size (x i))).im := by
      rw [← transform_image hs _ _ x _ m hlen (fun j _ => rfl), transform_im]
      exact Finset.sum_congr rfl (fun j hj => by rw [e1 j (Finset.mem_range.1 hj)])
    have e3 : ∑ j ∈ Finset.range size.prod, Real.cos (∑ q ∈ Finset.range size.length, κ q * (coord (image size (x j) (m j)) q : ℝ)) *
        occupation (occ.map ω) j = (transform size.prod (occ.map ω) (fun j => realPoint (x j)) (exactMomentum size (x i))).re := by
      rw [← transform_image hs _ _ x _ m hlen (fun j _ => rfl), transform_re]
      exact Finset.sum_congr rfl (fun j hj => by rw [e1 j (Finset.mem_range.1 hj)])
    have bound : ∀ t : Nat → ℝ, (∀ j, |t j| ≤ 1) → |∑ j ∈ Finset.range size.prod, t j * occupation (occ.map ω) j| ≤ size.prod * M := by
      intro t ht
      refine (Finset.abs_sum_le_sum_abs _ _).trans ?_
      refine (Finset.sum_le_card_nsmul _ _ M (fun j hj => ?_)).trans ?_
      · obtain ⟨o, -, -, h⟩ := hdata.occ j (Finset.mem_range.1 hj)
        rw [abs_mul]
        calc |t j| * |occupation (occ.map ω) j| ≤ 1 * M := mul_le_mul (ht j) h (abs_nonneg _) (by norm_num)
          _ = M := one_mul M
      · rw [Finset.card_range, nsmul_eq_mul]
    have b1 := bound (fun j => Real.sin (∑ q ∈ Finset.range size.length, κ q * (coord (image size (x j) (m j)) q : ℝ))) (fun j => Real.abs_sin_le_one _)
    have b2 := bound (fun j => Real.cos (∑ q ∈ Finset.range size.length, κ q * (coord (image size (x j) (m j)) q : ℝ))) (fun j => Real.abs_cos_le_one _)
    rw [e2] at b1 h2
    rw [e3] at b2 h3
    have hLe : L / 2 ^ 44 ≤ 1 / 32 := by rw [div_le_iff₀ (by norm_num)]; norm_num at hL2 ⊢; linarith
    have hne : (size.prod : ℝ) / 2 ^ 49 ≤ 1 / 32 := by rw [div_le_iff₀ (by norm_num)]; norm_num at hn2 ⊢; linarith
    have hL0 : 0 ≤ L / 2 ^ 44 := by positivity
    have hn0 : 0 ≤ (size.prod : ℝ) / 2 ^ 49 := by positivity
    obtain ⟨s, h4, h5, h6⟩ := finish_double c.squares (R := size.prod * M) (e := e) (W := W) (m := mult) (n := size.prod) hA.binary64
      (hM.trans (by nlinarith)) (by
        calc (size.prod : ℝ) * M ≤ 2 ^ 32 * 2 ^ 40 := mul_le_mul hn2 hM' hM0.le (by positivity)
          _ = 2 ^ 72 := by norm_num) hW hW' (by rw [he]; linarith) (by rw [he]; linarith) (by rw [he]; linarith) h0 hn b1 b2 h2 h3 hm
    refine ⟨s, fun _ => ⟨⟨im, re, h1, h4⟩, ?_, h6⟩⟩
    rw [normSq_eq] at h5
    unfold structureFactor
    refine h5.trans (le_of_eq ?_)
    rw [he]
    have : (size.prod : ℝ) ≠ 0 := by linarith
    field_simp
    ring
  choose S hS using key
  refine ⟨S, ?_, fun i hi => (hS i hi).2⟩
  unfold Lattice.computeSkContracted Lattice.accumulateSkContracted
  rw [ho, hnum]
  simp only [Bool.false_eq_true, if_false]
  rw [mapRange_ok (g := fun i => (.fin (S i) : Num A))]
  · rw [Res.ok_bind, List.drop_eq_nil_of_le (by simp), List.append_nil]
  · intro i hi
    obtain ⟨⟨im, re, h1, h2⟩, -⟩ := hS i hi
    rw [subscript_ok (x := (List.range size.length).map (fun k => (.fin (kay (coord (label size i) k) (extent size k)) : Num A))) (by
        rw [hmom, List.getElem?_map, List.getElem?_range hi]; rfl), Res.ok_bind, h1, Res.ok_bind,
      subscript_ok (x := (CxxFloat.zero : Num A)) (by rw [List.getElem?_replicate, if_pos hi]), Res.ok_bind]
    rw [h2]

theorem dotFrom_plain {F : Type} [CxxFloat F] [CxxFma F] (f : Nat → Res (F × F)) (acc : F) (k n : Nat) :
    dotFrom false f acc k n = accumulateFrom (fun i => do let xy ← f i; .ok (xy.1 * xy.2)) acc k n := by
  induction n generalizing acc k with
  | zero => rfl
  | succ n ih =>
    rw [dotFrom, accumulateFrom]
    cases f k with
    | ok xy => rw [Res.ok_bind, Res.ok_bind, Res.ok_bind, ih]; rfl
    | _ => rfl

/-- Without fused products. -/
theorem sk_plain {F T : Type} [CxxFloat F] [CxxFma F] (conv : T → F) (l : Lattice F) (occ : List T) (sk : List F) (mult : F) :
    l.accumulateSkContracted ⟨false, false, false, .neither⟩ conv occ sk mult = l.accumulateSk conv occ sk mult ∧
    l.computeSkContracted ⟨false, false, false, .neither⟩ conv occ mult = l.computeSk conv occ mult := by
  have hf : ∀ k, l.fourierContracted ⟨false, false, false, .neither⟩ conv occ k = l.fourier conv occ k := by
    intro k
    unfold Lattice.fourierContracted Lattice.fourier accumulate
    congr 1
    funext s j
    cases l.getVector 0 j with
    | ok x =>
      rw [Res.ok_bind, Res.ok_bind, dotFrom_plain]
      congr 2
      funext q
      cases subscript k q with
      | ok kq =>
        rw [Res.ok_bind, Res.ok_bind]
        cases subscript x q <;> rfl
      | _ => rfl
    | _ => rfl
  have ha : ∀ sk, l.accumulateSkContracted ⟨false, false, false, .neither⟩ conv occ sk mult = l.accumulateSk conv occ sk mult := by
    intro sk
    unfold Lattice.accumulateSkContracted Lattice.accumulateSk
    simp only [hf]
    rfl
  refine ⟨ha sk, ?_⟩
  unfold Lattice.computeSkContracted Lattice.computeSk
  simp only [ha]

/-- The structure factor of a chain, square or cubic lattice in double precision, with bounded occupations: its error,
if sines and cosines are off by at most 2⁻⁵². -/
theorem sk_accurate {T : Type} {conv : T → Num A} {ω : T → ℝ} (hA : IsTrig A) (c : SkFused)
    (hb : chainLattice = .ok b ∨ squareLattice = .ok b ∨ cubicLattice = .ok b) (hd : size.length = b.dim) (hs : Buildable size)
    (hz : (size.map (fun s => (2 * s) ^ 2)).sum < 2 ^ 52) (hn : size.prod < 2 ^ 32)
    (l : Lattice (Num A)) (hl : Lattice.new b size .closed = .ok l) {M W : ℝ} (hM : 1 / 2 ^ 40 ≤ M) (hM' : M ≤ 2 ^ 40)
    (hW : 1 / 2 ^ 40 ≤ W) (hW' : W ≤ 2 ^ 40) {L : Nat} (hL : ∀ s ∈ size, s ≤ L)
    (occ : List T) (hconv : ∀ o ∈ occ, conv o = .fin (ω o) ∧ |ω o| ≤ M) (hocc : size.prod ≤ occ.length) {mult : ℝ} (hm : |mult| ≤ W)
    {x : Nat → List Int} (hx : ∀ j, j < size.prod → l.grid.getCoordinates j = .ok (x j)) :
    ∃ S : Nat → ℝ, l.computeSkContracted c conv occ (.fin mult) = .ok ((List.range size.prod).map (fun i => .fin (S i))) ∧
      ∀ i, i < size.prod → |S i - structureFactor size.prod mult (occ.map ω) (fun j => realPoint (x j)) (exactMomentum size (x i))| ≤
        W * M ^ 2 * (L / 2 ^ 41 + size.prod / 2 ^ 46) := by
  have hsmall : ∀ s ∈ size, s ≤ 2 ^ 26 := by
    intro s hs'
    have h1 : (2 * s) ^ 2 < 2 ^ 52 := (List.single_le_sum (fun _ _ => Nat.zero_le _) _ (List.mem_map.2 ⟨s, hs', rfl⟩)).trans_lt hz
    have h2 : 2 * s < 2 ^ 26 := lt_of_pow_lt_pow_left₀ 2 (by norm_num) (by norm_num at h1 ⊢; exact h1)
    omega
  have hL1 : 1 ≤ L := by
    have h0 : 0 < size.length := by
      rw [hd]
      rcases hb with hb | hb | hb <;> cases hb <;> simp
    exact (hs.1.1 _ (List.getElem_mem h0)).trans_le (hL _ (List.getElem_mem h0))
  obtain ⟨S, h1, h2⟩ := sk_double hA c hb hd hs hz hn hl (L := ((min L (2 ^ 26) : Nat) : ℝ)) hM hM' hW hW'
    (fun s hs' => by exact_mod_cast le_min (hL s hs') (hsmall s hs')) (by exact_mod_cast le_min hL1 (by norm_num))
    (by exact_mod_cast min_le_right L (2 ^ 26)) hconv hocc hm hx
  refine ⟨S, h1, fun i hi => (h2 i hi).1.trans ?_⟩
  have hW0 : 0 ≤ W := le_trans (by positivity) hW
  have : ((min L (2 ^ 26) : Nat) : ℝ) ≤ L := by exact_mod_cast min_le_left _ _
  gcongr

/-- C131.  The structure factor of a chain, square or cubic lattice in double precision, with bounded occupations: its error,
if sines and cosines are off by at most 2⁻⁵². -/
theorem C131_accurate {T : Type} {conv : T → Num A} {ω : T → ℝ} (hA : IsTrig A)
    (hb : chainLattice = .ok b ∨ squareLattice = .ok b ∨ cubicLattice = .ok b) (hd : size.length = b.dim) (hs : Buildable size)
    (hz : (size.map (fun s => (2 * s) ^ 2)).sum < 2 ^ 52) (hn : size.prod < 2 ^ 32)
    (l : Lattice (Num A)) (hl : Lattice.new b size .closed = .ok l) {M W : ℝ} (hM : 1 / 2 ^ 40 ≤ M) (hM' : M ≤ 2 ^ 40)
    (hW : 1 / 2 ^ 40 ≤ W) (hW' : W ≤ 2 ^ 40) {L : Nat} (hL : ∀ s ∈ size, s ≤ L)
    (occ : List T) (hconv : ∀ o ∈ occ, conv o = .fin (ω o) ∧ |ω o| ≤ M) (hocc : size.prod ≤ occ.length) {mult : ℝ} (hm : |mult| ≤ W)
    {x : Nat → List Int} (hx : ∀ j, j < size.prod → l.grid.getCoordinates j = .ok (x j)) :
    ∃ S : Nat → ℝ, l.computeSk conv occ (.fin mult) = .ok ((List.range size.prod).map (fun i => .fin (S i))) ∧
      ∀ i, i < size.prod → |S i - structureFactor size.prod mult (occ.map ω) (fun j => realPoint (x j)) (exactMomentum size (x i))| ≤
        W * M ^ 2 * (L / 2 ^ 41 + size.prod / 2 ^ 46) := by
  rw [← (sk_plain conv l occ [] (.fin mult)).2]
  exact sk_accurate hA _ hb hd hs hz hn l hl hM hM' hW hW' hL occ hconv hocc hm hx

/-- A structure factor computed in double precision is not negative, unless the multiplicity is. -/
theorem sk_nonneg {T : Type} {conv : T → Num A} {ω : T → ℝ} (hA : IsTrig A) (c : SkFused)
    (hb : chainLattice = .ok b ∨ squareLattice = .ok b ∨ cubicLattice = .ok b) (hd : size.length = b.dim) (hs : Buildable size)
    (hz : (size.map (fun s => (2 * s) ^ 2)).sum < 2 ^ 52) (hn : size.prod < 2 ^ 32)
    (l : Lattice (Num A)) (hl : Lattice.new b size .closed = .ok l)
    (occ : List T) (hconv : ∀ o ∈ occ, conv o = .fin (ω o) ∧ |ω o| ≤ 2 ^ 40) (hocc : size.prod ≤ occ.length) {mult : ℝ} (h0 : 0 ≤ mult)
    (hm : mult ≤ 2 ^ 40) : ∃ S : Nat → ℝ,
      l.computeSkContracted c conv occ (.fin mult) = .ok ((List.range size.prod).map (fun i => .fin (S i))) ∧ ∀ i, i < size.prod → 0 ≤ S i := by
  obtain ⟨S, h1, h2⟩ := sk_double hA c hb hd hs hz hn hl (L := 2 ^ 26) (M := 2 ^ 40) (W := 2 ^ 40) (by norm_num) le_rfl (by norm_num) le_rfl
    (fun s hs' => by
      have h1 : (2 * s) ^ 2 < 2 ^ 52 := (List.single_le_sum (fun _ _ => Nat.zero_le _) _ (List.mem_map.2 ⟨s, hs', rfl⟩)).trans_lt hz
      have h2 : 2 * s < 2 ^ 26 := lt_of_pow_lt_pow_left₀ 2 (by norm_num) (by norm_num at h1 ⊢; exact h1)
      exact_mod_cast (by omega : s ≤ 2 ^ 26)) (by norm_num) le_rfl hconv hocc (by rwa [abs_of_nonneg h0])
    (x := fun j => crd size j) (fun j hj => by rw [(new_parts hl).1, getCoordinates_eq hs.1 (buildable_fits hs) .closed hj])
  exact ⟨S, h1, fun i hi => (h2 i hi).2 h0⟩

/-- C131.  A structure factor computed in double precision is not negative, unless the multiplicity is. -/
theorem C131_nonneg {T : Type} {conv : T → Num A} {ω : T → ℝ} (hA : IsTrig A)
    (hb : chainLattice = .ok b ∨ squareLattice = .ok b ∨ cubicLattice = .ok b) (hd : size.length = b.dim) (hs : Buildable size)
    (hz : (size.map (fun s => (2 * s) ^ 2)).sum < 2 ^ 52) (hn : size.prod < 2 ^ 32)
    (l : Lattice (Num A)) (hl : Lattice.new b size .closed = .ok l)
    (occ : List T) (hconv : ∀ o ∈ occ, conv o = .fin (ω o) ∧ |ω o| ≤ 2 ^ 40) (hocc : size.prod ≤ occ.length) {mult : ℝ} (h0 : 0 ≤ mult)
    (hm : mult ≤ 2 ^ 40) : ∃ S : Nat → ℝ,
      l.computeSk conv occ (.fin mult) = .ok ((List.range size.prod).map (fun i => .fin (S i))) ∧ ∀ i, i < size.prod → 0 ≤ S i := by
  rw [← (sk_plain conv l occ [] (.fin mult)).2]
  exact sk_nonneg hA _ hb hd hs hz hn l hl occ hconv hocc h0 hm

/-! ### Accumulation -/

theorem round_again (hA : A.IsBinary64) {x y : ℝ} (h : Num.round A x = .fin y) : Num.round A y = .fin y := by
  unfold Num.round at h
  rw [hA x, rnd64] at h
  split at h
  · rename_i z hz
    split at hz
    · rename_i hlt
      rw [Option.some.injEq] at hz
      rw [Num.fin.injEq] at h
      subst hz h
      refine Num.round_of ?_
      rw [hA, rnd64, rn_double (rn_isDouble x), if_pos hlt]
    · exact absurd hz nofun
  · exact absurd h nofun

theorem zero_add_div (hA : A.IsBinary64) (x y : Num A) : (CxxFloat.zero : Num A) + x / y = x / y := by
  have key : ∀ z : ℝ, (CxxFloat.zero : Num A) + Num.round A z = Num.round A z := by
    intro z
    cases h : Num.round A z with
    | nan => rfl
    | inf n => rfl
    | fin w => rw [Num.zero_eq, Num.fin_add, zero_add]; exact round_again hA h
  have h0 : (CxxFloat.zero : Num A) + .fin 0 = .fin 0 := by
    have := key 0
    have e := round_int hA (n := 0) (by norm_num)
    rw [Int.cast_zero] at e
    rwa [e] at this
  show CxxFloat.zero + Num.div x y = Num.div x y
  unfold Num.div
  split
  · split
    · split <;> rfl
    · exact key _
  · rfl
  · rfl
  · exact h0
  · rfl
  · rfl

/-- `AccumulateSk` adds what `ComputeSk` returns, one rounding per element, whatever the numbers are. -/
theorem sk_accumulate {T : Type} {conv : T → Num A} (hA : A.IsBinary64) (c : SkFused) (l : Lattice (Num A)) (hc : l.grid.hasOpenBoundaries = false)
    (occ : List T) (mult : Num A) (S : List (Num A)) (h : l.computeSkContracted c conv occ mult = .ok S) (sk : List (Num A))
    (hsk : sk.length = l.grid.numsites) : l.accumulateSkContracted c conv occ sk mult = .ok (List.zipWith (· + ·) sk S) := by
  unfold Lattice.computeSkContracted Lattice.accumulateSkContracted at h
  unfold Lattice.accumulateSkContracted
  simp only [hc, Bool.false_eq_true, if_false] at h ⊢
  obtain ⟨new, h1, h2⟩ := Res.bind_eq_ok.1 h
  rw [List.drop_eq_nil_of_le (by simp), List.append_nil, Res.ok.injEq] at h2
  subst h2
  obtain ⟨h3, h4⟩ := mapRange_eq_ok h1
  rw [mapRange_ok (g := fun i => sk.getD i .nan + new.getD i .nan), Res.ok_bind, List.drop_eq_nil_of_le (by omega), List.append_nil]
  · congr 1
    refine List.ext_getElem (by simp [hsk, h3]) (fun i h5 h6 => ?_)
    have h7 : i < sk.length := by simp at h6; omega
    have h8 : i < new.length := by simp at h6; omega
    simp [List.getD_eq_getElem?_getD, h7, h8]
  · intro i hi
    obtain ⟨v, h5, h6⟩ := h4 i hi
    obtain ⟨k, h7, h6⟩ := Res.bind_eq_ok.1 h6
    obtain ⟨s, h8, h6⟩ := Res.bind_eq_ok.1 h6
    rw [subscript_ok (x := (CxxFloat.zero : Num A)) (by rw [List.getElem?_replicate, if_pos hi]), Res.ok_bind, zero_add_div hA,
      Res.ok.injEq] at h6
    rw [h7, Res.ok_bind, h8, Res.ok_bind, subscript_getD (by omega) .nan, Res.ok_bind, h6, List.getD_eq_getElem?_getD (l := new), h5]
    rfl

/-- C131.  `AccumulateSk` adds what `ComputeSk` returns, one rounding per element, whatever the numbers are. -/
theorem C131_accumulate {T : Type} {conv : T → Num A} (hA : A.IsBinary64) (l : Lattice (Num A)) (hc : l.grid.hasOpenBoundaries = false)
    (occ : List T) (mult : Num A) (S : List (Num A)) (h : l.computeSk conv occ mult = .ok S) (sk : List (Num A))
    (hsk : sk.length = l.grid.numsites) : l.accumulateSk conv occ sk mult = .ok (List.zipWith (· + ·) sk S) := by
  rw [← (sk_plain conv l occ sk mult).1]
  rw [← (sk_plain conv l occ sk mult).2] at h
  exact sk_accumulate hA _ l hc occ mult S h sk hsk

/-! ### Opposite momenta -/

theorem mul_comm_num (x y : Num A) : x * y = y * x := by
  cases x <;> cases y <;> try rfl
  case inf.inf n m => show Num.inf _ = Num.inf _; cases n <;> cases m <;> rfl
  case inf.fin n y =>
    show (if y = 0 then (Num.nan : Num A) else .inf (n != decide (y < 0))) = if y = 0 then (Num.nan : Num A) else .inf (decide (y < 0) != n)
    split
    · rfl
    · congr 1; cases n <;> cases decide (y < 0) <;> rfl
  case fin.inf y n =>
    show (if y = 0 then (Num.nan : Num A) else .inf (decide (y < 0) != n)) = if y = 0 then (Num.nan : Num A) else .inf (n != decide (y < 0))
    split
    · rfl
    · congr 1; cases n <;> cases decide (y < 0) <;> rfl
  case fin.fin x y => show Num.round A _ = Num.round A _; rw [mul_comm]

theorem neg_mul_num (hA : A.IsBinary64) (x y : Num A) : -x * y = -(x * y) := by
  rw [mul_comm_num, mul_neg_num hA, mul_comm_num]

theorem neg_add_num (hA : A.IsBinary64) (x y : Num A) : -x + -y = -(x + y) := by
  cases x <;> cases y <;> try rfl
  case inf.inf n m =>
    show (if (!n) = (!m) then Num.inf (!n) else Num.nan) = Num.neg (if n = m then Num.inf n else Num.nan)
    cases n <;> cases m <;> rfl
  case fin.fin x y =>
    show Num.round A (-x + -y) = -Num.round A (x + y)
    rw [← round_neg hA]; congr 1; ring

theorem neg_zero_num : -(CxxFloat.zero : Num A) = CxxFloat.zero := by
  show Num.fin (-0) = Num.fin 0; rw [neg_zero]

theorem neg_unary_sin (hA : A.IsBinary64) (h : ∀ x, A.sin (-x) = -A.sin x) (x : Num A) : CxxFloat.sin (-x) = -CxxFloat.sin x := by
  cases x with
  | nan => rfl
  | inf n => cases n <;> rfl
  | fin x =>
    show (if true then Num.round A (A.sin (-x)) else Num.nan) = Num.neg (if true then Num.round A (A.sin x) else Num.nan)
    rw [if_pos rfl, if_pos rfl, h, round_neg hA]; rfl

theorem neg_unary_cos (h : ∀ x, A.cos (-x) = A.cos x) (x : Num A) : CxxFloat.cos (-x) = CxxFloat.cos x := by
  cases x with
  | nan => rfl
  | inf n => cases n <;> rfl
  | fin x =>
    show (if true then Num.round A (A.cos (-x)) else Num.nan) = if true then Num.round A (A.cos x) else Num.nan
    rw [h]

theorem accumulate_neg (hA : A.IsBinary64) {n : Nat} {f f' : Nat → Res (Num A)} {s : Num A} (h : accumulate n f = .ok s)
    (hf : ∀ i, i < n → ∀ x, f i = .ok x → f' i = .ok (-x)) : accumulate n f' = .ok (-s) := by
  have key : ∀ m k a, k + m = n → accumulateFrom f a k m = .ok s → accumulateFrom f' (-a) k m = .ok (-s) := by
    intro m
    induction m with
    | zero => intro k a _ h; rw [accumulateFrom, Res.ok.injEq] at h ⊢; rw [h]
    | succ m ih =>
      intro k a hk h
      obtain ⟨x, h1, h2⟩ := Res.bind_eq_ok.1 h
      rw [accumulateFrom, hf k (by omega) x h1, Res.ok_bind, neg_add_num hA]
      exact ih (k + 1) _ (by omega) h2
  have := key n 0 CxxFloat.zero (by omega) h
  rwa [neg_zero_num] at this

theorem getElem_of_subscript {α : Type} {v : List α} {i : Nat} {x : α} (h : subscript v i = .ok x) : v[i]? = some x := by
  by_cases hi : i < v.length
  · rw [subscript_isOk hi, Res.ok.injEq] at h
    rw [List.getElem?_eq_getElem hi, h]
  · rw [subscript_none (by omega)] at h
    exact absurd h nofun

theorem mulAdd_neg (hA : A.IsBinary64) (fused : Bool) (x y z : Num A) : mulAdd fused (-x) y (-z) = -mulAdd fused x y z := by
  cases fused with
  | false => show -z + -x * y = -(z + x * y); rw [neg_mul_num hA, neg_add_num hA]
  | true =>
    have fin : ∀ a b c : ℝ, Num.round A (-a * b + -c) = -Num.round A (a * b + c) := by
      intro a b c
      rw [← round_neg hA]; congr 1; ring
    have gen : Num.add (Num.mul (-x) y) (-z) = -Num.add (Num.mul x y) z := by
      show -x * y + -z = -(x * y + z)
      rw [neg_mul_num hA, neg_add_num hA]
    cases x with
    | fin x =>
      cases y with
      | fin y =>
        cases z with
        | fin z => exact fin x y z
        | _ => rfl
      | _ => exact gen
    | _ => exact gen

theorem dotFrom_neg (hA : A.IsBinary64) (fused : Bool) {n : Nat} {f f' : Nat → Res (Num A × Num A)} {s : Num A}
    (h : dotFrom fused f CxxFloat.zero 0 n = .ok s) (hf : ∀ i, i < n → ∀ x, f i = .ok x → f' i = .ok (-x.1, x.2)) :
    dotFrom fused f' CxxFloat.zero 0 n = .ok (-s) := by
  have key : ∀ m k a, k + m = n → dotFrom fused f a k m = .ok s → dotFrom fused f' (-a) k m = .ok (-s) := by
    intro m
    induction m with
    | zero => intro k a _ h; rw [dotFrom, Res.ok.injEq] at h ⊢; rw [h]
    | succ m ih =>
      intro k a hk h
      obtain ⟨x, h1, h2⟩ := Res.bind_eq_ok.1 h
      rw [dotFrom, hf k (by omega) x h1, Res.ok_bind, mulAdd_neg hA]
      exact ih (k + 1) _ (by omega) h2
  have := key n 0 CxxFloat.zero (by omega) h
  rwa [neg_zero_num] at this

theorem sumSquares_neg (hA : A.IsBinary64) (f : Fused) (x y : Num A) : sumSquares f (-x) y = sumSquares f x y := by
  have hq : squareF (-x) = squareF x := neg_mul_self_num _
  have gen : Num.mul (-x) (-x) = Num.mul x x := hq
  cases f with
  | neither => show squareF (-x) + squareF y = _; rw [hq]; rfl
  | first =>
    cases x with
    | fin x =>
      show Num.fma (.fin (-x)) (.fin (-x)) (squareF y) = Num.fma (.fin x) (.fin x) (squareF y)
      cases squareF y with
      | fin z => show Num.round A (-x * -x + z) = Num.round A (x * x + z); rw [neg_mul_neg]
      | _ => rfl
    | nan => rfl
    | inf n => cases n <;> rfl
  | second => show Num.fma y y (squareF (-x)) = _; rw [hq]; rfl

theorem fourier_neg {T : Type} {conv : T → Num A} (hA : A.IsBinary64) (c : SkFused) (hsin : ∀ x, A.sin (-x) = -A.sin x)
    (hcos : ∀ x, A.cos (-x) = A.cos x) (l : Lattice (Num A)) (occ : List T) {k : List (Num A)} {s : Num A × Num A}
    (h : l.fourierContracted c conv occ k = .ok s) : l.fourierContracted c conv occ (k.map (fun x => -x)) = .ok (-s.1, s.2) := by
  unfold Lattice.fourierContracted at h ⊢
  have key : ∀ (f f' : Num A × Num A → Nat → Res (Num A × Num A)),
      (∀ t j t', f t j = .ok t' → f' (-t.1, t.2) j = .ok (-t'.1, t'.2)) → ∀ m i t, foldRangeFrom f t i m = .ok s →
      foldRangeFrom f' (-t.1, t.2) i m = .ok (-s.1, s.2) := by
    intro f f' hf m
    induction m with
    | zero => intro i t h; rw [foldRangeFrom, Res.ok.injEq] at h; rw [foldRangeFrom, h]
    | succ m ih =>
      intro i t h
      obtain ⟨t', h1, h2⟩ := Res.bind_eq_ok.1 h
      rw [foldRangeFrom, hf t i t' h1, Res.ok_bind]
      exact ih (i + 1) t' h2
  have := key _ (fun (s : Num A × Num A) j => do
      let x ← l.getVector 0 j
      let prod ← dotFrom c.phase (fun q => do
        let kq ← subscript (k.map (fun x => -x)) q
        let xq ← subscript x q
        .ok (kq, xq)) CxxFloat.zero 0 l.grid.dim
      let o ← subscript occ j
      .ok (mulAdd c.sine (CxxFloat.sin prod) (conv o) s.1, mulAdd c.cosine (CxxFloat.cos prod) (conv o) s.2)) (by
    intro t j t' h
    obtain ⟨x, h1, h⟩ := Res.bind_eq_ok.1 h
    obtain ⟨p, h2, h⟩ := Res.bind_eq_ok.1 h
    obtain ⟨o, h3, h⟩ := Res.bind_eq_ok.1 h
    rw [Res.ok.injEq] at h
    subst h
    have h2' := dotFrom_neg hA c.phase (f' := fun q => do
        let kq ← subscript (k.map (fun x => -x)) q
        let xq ← subscript x q
        .ok (kq, xq)) h2 (by
      intro q hq y hy
      obtain ⟨kq, h4, hy⟩ := Res.bind_eq_ok.1 hy
      obtain ⟨xq, h5, hy⟩ := Res.bind_eq_ok.1 hy
      rw [Res.ok.injEq] at hy
      subst hy
      rw [subscript_ok (x := -kq) (by rw [List.getElem?_map, getElem_of_subscript h4]; rfl), Res.ok_bind, h5, Res.ok_bind])
    simp only [h1, Res.ok_bind, h2', h3]
    rw [neg_unary_sin hA hsin, neg_unary_cos hcos, mulAdd_neg hA]) _ _ _ h
  simp only at this
  rw [neg_zero_num] at this
  exact this

/-- With an odd sine and an even cosine the structure factor at opposite momenta is the same, bit for bit, whatever the
occupations are. -/
theorem sk_opposite {T : Type} {conv : T → Num A} (hA : A.IsBinary64) (f : SkFused) (hpi : A.pi = Real.pi) (hsin : ∀ x, A.sin (-x) = -A.sin x)
    (hcos : ∀ x, A.cos (-x) = A.cos x)
    (hb : chainLattice = .ok b ∨ squareLattice = .ok b ∨ cubicLattice = .ok b) (hd : size.length = b.dim) (hs : Buildable size)
    (hz : ∀ s ∈ size, s ≤ 2 ^ 49) (l : Lattice (Num A)) (hl : Lattice.new b size .closed = .ok l) (occ : List T) (mult : Num A)
    (S : List (Num A)) (hS : l.computeSkContracted f conv occ mult = .ok S) (i i' : Nat) (hi : i < size.prod) (hi' : i' < size.prod)
    (c c' : List Int) (hc : l.grid.getCoordinates i = .ok c) (hc' : l.grid.getCoordinates i' = .ok c')
    (h : ∀ j, j < size.length → coord c j + coord c' j = 2 * (extent size j / 2)) : S[i]? = S[i']? := by
  obtain ⟨g, N, h1, h2⟩ := unit_cases hA hb hd
  have hmom := momenta_double hA hpi hs hz h1 h2 hl
  rw [(new_parts hl).1, getCoordinates_eq hs.1 (buildable_fits hs) .closed hi, Res.ok.injEq] at hc
  rw [(new_parts hl).1, getCoordinates_eq hs.1 (buildable_fits hs) .closed hi', Res.ok.injEq] at hc'
  have hg := (new_parts hl).1
  have ho : l.grid.hasOpenBoundaries = false := by rw [hg]; rfl
  have hnum : l.grid.numsites = size.prod := by rw [hg, numsites_eq hs.1]
  unfold Lattice.computeSkContracted Lattice.accumulateSkContracted at hS
  simp only [ho, Bool.false_eq_true, if_false, hnum] at hS
  obtain ⟨new, h3, h4⟩ := Res.bind_eq_ok.1 hS
  rw [List.drop_eq_nil_of_le (by simp), List.append_nil, Res.ok.injEq] at h4
  subst h4
  obtain ⟨-, h5⟩ := mapRange_eq_ok h3
  obtain ⟨v, h6, h7⟩ := h5 i hi
  obtain ⟨v', h6', h7'⟩ := h5 i' hi'
  have hm : ∀ i, i < size.prod → subscript l.momenta i =
      .ok ((List.range size.length).map (fun k => .fin (kay (coord (label size i) k) (extent size k)))) := by
    intro i hi
    refine subscript_ok ?_
    rw [hmom, List.getElem?_map, List.getElem?_range hi]; rfl
  have hneg : (List.range size.length).map (fun k => (.fin (kay (coord (label size i') k) (extent size k)) : Num A)) =
      ((List.range size.length).map (fun k => (.fin (kay (coord (label size i) k) (extent size k)) : Num A))).map (fun x => -x) := by
    rw [List.map_map]
    refine List.map_congr_left (fun k hk => ?_)
    have hk := List.mem_range.1 hk
    show _ = Num.fin (-_)
    rw [← kay_neg]
    congr 2
    have := h k hk
    rw [coord_label hk, coord_label hk, hc, hc']
    omega
  rw [hm i hi, Res.ok_bind] at h7
  rw [hm i' hi', Res.ok_bind, hneg] at h7'
  obtain ⟨s, h8, h7⟩ := Res.bind_eq_ok.1 h7
  rw [fourier_neg hA f hsin hcos l occ h8, Res.ok_bind] at h7'
  rw [subscript_ok (x := (CxxFloat.zero : Num A)) (by rw [List.getElem?_replicate, if_pos hi]), Res.ok_bind, Res.ok.injEq] at h7
  rw [subscript_ok (x := (CxxFloat.zero : Num A)) (by rw [List.getElem?_replicate, if_pos hi']), Res.ok_bind, Res.ok.injEq] at h7'
  rw [sumSquares_neg hA, h7] at h7'
  rw [h6, h6', h7']

/-- C131.  With an odd sine and an even cosine the structure factor at opposite momenta is the same, bit for bit, whatever the
occupations are. -/
theorem C131_opposite {T : Type} {conv : T → Num A} (hA : A.IsBinary64) (hpi : A.pi = Real.pi) (hsin : ∀ x, A.sin (-x) = -A.sin x)
    (hcos : ∀ x, A.cos (-x) = A.cos x)
    (hb : chainLattice = .ok b ∨ squareLattice = .ok b ∨ cubicLattice = .ok b) (hd : size.length = b.dim) (hs : Buildable size)
    (hz : ∀ s ∈ size, s ≤ 2 ^ 49) (l : Lattice (Num A)) (hl : Lattice.new b size .closed = .ok l) (occ : List T) (mult : Num A)
    (S : List (Num A)) (hS : l.computeSk conv occ mult = .ok S) (i i' : Nat) (hi : i < size.prod) (hi' : i' < size.prod)
    (c c' : List Int) (hc : l.grid.getCoordinates i = .ok c) (hc' : l.grid.getCoordinates i' = .ok c')
    (h : ∀ j, j < size.length → coord c j + coord c' j = 2 * (extent size j / 2)) : S[i]? = S[i']? := by
  rw [← (sk_plain conv l occ [] mult).2] at hS
  exact sk_opposite hA _ hpi hsin hcos hb hd hs hz l hl occ mult S hS i i' hi hi' c c' hc hc' h

/-! ### The zero momentum -/

theorem fin_zero (hA : A.IsBinary64) : Num.round A 0 = .fin 0 := by
  have := round_int hA (n := 0) (by norm_num)
  rwa [Int.cast_zero] at this

theorem mulAdd_exact (fused : Bool) {x y z : ℝ} (h : Num.round A (x * y) = .fin (x * y)) :
    mulAdd fused (.fin x : Num A) (.fin y) (.fin z) = Num.round A (z + x * y) := by
  cases fused with
  | false => show (.fin z + .fin x * .fin y : Num A) = _; rw [Num.fin_mul, h]; rfl
  | true => show Num.round A (x * y + z) = _; rw [add_comm]

theorem mulAdd_zero (hA : A.IsBinary64) (fused : Bool) (y : ℝ) : mulAdd fused (.fin 0 : Num A) (.fin y) (.fin 0) = .fin 0 := by
  rw [mulAdd_exact fused (by rw [zero_mul]; exact fin_zero hA), zero_mul, add_zero, fin_zero hA]

theorem dotFrom_zero (hA : A.IsBinary64) (fused : Bool) {n : Nat} {f : Nat → Res (Num A × Num A)} {x : Nat → ℝ}
    (h : ∀ i, i < n → f i = .ok (.fin 0, .fin (x i))) : dotFrom fused f CxxFloat.zero 0 n = .ok (.fin 0) := by
  have key : ∀ m k, k + m = n → dotFrom fused f (.fin 0) k m = .ok (.fin 0) := by
    intro m
    induction m with
    | zero => exact fun _ _ => rfl
    | succ m ih =>
      intro k hk
      rw [dotFrom, h k (by omega), Res.ok_bind, mulAdd_zero hA]
      exact ih (k + 1) (by omega)
  rw [Num.zero_eq]
  exact key n 0 (by omega)

theorem sumSquares_zero (hA : A.IsBinary64) (f : Fused) {q : ℝ} (h : Num.round A (q * q) = .fin (q * q)) :
    sumSquares f (.fin 0 : Num A) (.fin q) = .fin (q * q) := by
  have hz := fin_zero hA
  cases f with
  | neither =>
    show (.fin 0 * .fin 0 + .fin q * .fin q : Num A) = _
    rw [Num.fin_mul, Num.fin_mul, mul_zero, hz, h, Num.fin_add, zero_add, h]
  | first =>
    show Num.fma (.fin 0) (.fin 0) (.fin q * .fin q : Num A) = _
    rw [Num.fin_mul, h]
    show Num.round A (0 * 0 + q * q) = _
    rw [mul_zero, zero_add, h]
  | second =>
    show Num.fma (.fin q) (.fin q) (.fin 0 * .fin 0 : Num A) = _
    rw [Num.fin_mul, mul_zero, hz]
    show Num.round A (q * q + 0) = _
    rw [add_zero, h]

/-- At zero momentum, for whole numbers of particles, the structure factor is the square of the density, rounded once. -/
theorem sk_zero_momentum {T : Type} {conv : T → Num A} {z : T → Int} (hA : IsTrig A) (f : SkFused)
    (hb : chainLattice = .ok b ∨ squareLattice = .ok b ∨ cubicLattice = .ok b) (hd : size.length = b.dim) (hs : Buildable size)
    (hz : (size.map (fun s => (2 * s) ^ 2)).sum < 2 ^ 52) (hn : size.prod ≤ 2 ^ 26)
    (l : Lattice (Num A)) (hl : Lattice.new b size .closed = .ok l) (occ : List T) (hconv : ∀ o ∈ occ, conv o = .fin (z o : ℝ))
    (hocc : occ.length = size.prod) (hsum : (occ.map (fun o => |z o|)).sum ≤ 2 ^ 26) (i : Nat) (hi : i < size.prod) (c : List Int)
    (hc : l.grid.getCoordinates i = .ok c) (h0 : ∀ j, j < size.length → coord c j = extent size j / 2) :
    ∃ S, l.computeSkContracted f conv occ (.fin 1) = .ok S ∧ S[i]? = some (.fin (rn ((((occ.map z).sum : Int) : ℝ) ^ 2 / (size.prod : ℝ) ^ 2))) := by
  obtain ⟨Z, g, N, hZ, hH, hr, -, hMod⟩ := integer_cases hA.binary64 hb hd hz
  have hbA := hA.binary64
  have hH' := hH
  rw [hZ] at hH'
  have hz' : ∀ s ∈ size, s ≤ 2 ^ 49 := by
    intro s hs'
    have h1 : (2 * s) ^ 2 < 2 ^ 52 := (List.single_le_sum (fun _ _ => Nat.zero_le _) _ (List.mem_map.2 ⟨s, hs', rfl⟩)).trans_lt hz
    have h2 : 2 * s < 2 ^ 26 := lt_of_pow_lt_pow_left₀ 2 (by norm_num) (by norm_num at h1 ⊢; exact h1)
    omega
  have hmom := momenta_double hbA hA.pi hs hz' hH' hr hl
  have hp0 : 0 < size.prod := prod_pos hs.1.1
  have hg := (new_parts hl).1
  have hnum : l.grid.numsites = size.prod := by rw [hg, numsites_eq hs.1]
  have hdim : l.grid.dim = size.length := by rw [hg]; rfl
  have ho : l.grid.hasOpenBoundaries = false := by rw [hg]; rfl
  have habs : ∀ o ∈ occ, |z o| ≤ 2 ^ 26 := fun o ho => (List.single_le_sum (fun x hx => by
    obtain ⟨y, -, rfl⟩ := List.mem_map.1 hx; exact abs_nonneg _) _ (List.mem_map.2 ⟨o, ho, rfl⟩)).trans hsum
  -- the computation succeeds
  obtain ⟨S, hS, -⟩ := sk_double hA f hb hd hs hz (by omega) hl (L := 2 ^ 26) (M := 2 ^ 40) (W := 2 ^ 40) (by norm_num) le_rfl (by norm_num) le_rfl
    (fun s hs' => by
      have h1 : (2 * s) ^ 2 < 2 ^ 52 := (List.single_le_sum (fun _ _ => Nat.zero_le _) _ (List.mem_map.2 ⟨s, hs', rfl⟩)).trans_lt hz
      have h2 : 2 * s < 2 ^ 26 := lt_of_pow_lt_pow_left₀ 2 (by norm_num) (by norm_num at h1 ⊢; exact h1)
      exact_mod_cast (by omega : s ≤ 2 ^ 26)) (by norm_num) le_rfl
    (conv := conv) (ω := fun o => (z o : ℝ)) (occ := occ) (fun o ho => ⟨hconv o ho, by
      have : |((z o : Int) : ℝ)| ≤ 2 ^ 26 := by exact_mod_cast habs o ho
      refine this.trans (by norm_num)⟩) hocc.ge (mult := 1) (by norm_num)
    (x := fun j => crd size j) (fun j hj => by rw [(new_parts hl).1, getCoordinates_eq hs.1 (buildable_fits hs) .closed hj])
  refine ⟨_, hS, ?_⟩
  rw [List.getElem?_map, List.getElem?_range hi, Option.map_some]
  congr 1
  -- the sum of the occupations
  set a : Nat → Int := fun j => (occ.map z).getD j 0 with ha
  have hex : ∀ j (hj : j < occ.length), a j = z occ[j] := by
    intro j hj
    rw [ha]
    simp [List.getD_eq_getElem?_getD, hj]
  have e1 : ∀ f : Int → Int, (occ.map (fun o => f (z o))).sum = ∑ j ∈ Finset.range size.prod, f (a j) := by
    intro f
    rw [← list_range_sum]
    congr 1
    refine List.ext_getElem (by simp [hocc]) (fun j h1 h2 => ?_)
    have hj : j < occ.length := by simpa using h1
    simp [hex j hj]
  have hN := e1 (fun x => x)
  have hB := e1 (fun x => |x|)
  rw [hB] at hsum
  have hpart : ∀ m, m ≤ size.prod → |∑ j ∈ Finset.range m, a j| ≤ 2 ^ 26 := by
    intro m hm
    refine (Finset.abs_sum_le_sum_abs _ _).trans (le_trans ?_ hsum)
    exact Finset.sum_le_sum_of_subset_of_nonneg (Finset.range_mono hm) (fun _ _ _ => abs_nonneg _)
  have haj : ∀ j, j < size.prod → |a j| ≤ 2 ^ 26 := by
    intro j hj
    rw [hex j (by omega)]
    exact habs _ (List.getElem_mem _)
  -- the loop over the sites
  have hv : ∀ j, j < size.prod → ∃ v : List Int, l.getVector 0 j = .ok (v.map (fun z : Int => .fin (z : ℝ))) ∧ v.length = size.length := by
    intro j hj
    obtain ⟨m, -, h1, -, h2, -⟩ := closed_int hbA hA.sqrt hs hH hr hMod hl hp0 hj
    refine ⟨_, ?_, h2.1⟩
    have e : Z.map (fun x : Int => (x : ℝ)) = unit size.length := hZ
    rw [h1, e, embed_unit h2.1, List.map_map]
    rfl
  have hk : subscript l.momenta i = .ok ((List.range size.length).map (fun _ => .fin 0)) := by
    rw [(new_parts hl).1, getCoordinates_eq hs.1 (buildable_fits hs) .closed hi, Res.ok.injEq] at hc
    refine subscript_ok ?_
    rw [hmom, List.getElem?_map, List.getElem?_range hi, Option.map_some]
    congr 1
    refine List.map_congr_left (fun k hk => ?_)
    have hk := List.mem_range.1 hk
    rw [coord_label hk, hc, h0 k hk, sub_self]
    simp [kay, rn_zero]
  have hf : l.fourierContracted f conv occ ((List.range size.length).map (fun _ => .fin 0)) = .ok (.fin 0, .fin (((occ.map z).sum : Int) : ℝ)) := by
    unfold Lattice.fourierContracted
    rw [hnum, hdim]
    obtain ⟨s, h1, h2⟩ := foldRange_inv (n := size.prod)
      (f := fun (s : Num A × Num A) j => do
        let x ← l.getVector 0 j
        let prod ← dotFrom f.phase (fun q => do
          let kq ← subscript ((List.range size.length).map (fun _ => (.fin 0 : Num A))) q
          let xq ← subscript x q
          .ok (kq, xq)) CxxFloat.zero 0 size.length
        let o ← subscript occ j
        .ok (mulAdd f.sine (CxxFloat.sin prod) (conv o) s.1, mulAdd f.cosine (CxxFloat.cos prod) (conv o) s.2))
      (s := (CxxFloat.zero, CxxFloat.zero))
      (fun m s => s = (.fin 0, .fin ((∑ j ∈ Finset.range m, a j : Int) : ℝ)))
      (by rw [Num.zero_eq]; simp) (by
        rintro m _ hm rfl
        obtain ⟨v, hv1, hv2⟩ := hv m hm
        have hm' : m < occ.length := by omega
        refine ⟨_, ?_, rfl⟩
        have hacc := dotFrom_zero hbA f.phase (n := size.length) (x := fun q => (coord v q : ℝ)) (f := fun q => do
          let kq ← subscript ((List.range size.length).map (fun _ => (.fin 0 : Num A))) q
          let xq ← subscript (v.map (fun z : Int => (.fin (z : ℝ) : Num A))) q
          .ok (kq, xq)) (by
            intro q hq
            rw [subscript_ok (x := (.fin 0 : Num A)) (by rw [List.getElem?_map, List.getElem?_range hq]; rfl), Res.ok_bind,
              subscript_ok (x := (.fin (coord v q : ℝ) : Num A)) (by
                rw [List.getElem?_map, List.getElem?_eq_getElem (hv2 ▸ hq), coord_eq (hv2 ▸ hq)]; rfl), Res.ok_bind])
        have e1 : CxxFloat.sin (.fin 0 : Num A) = .fin 0 := by
          show (if true then Num.round A (A.sin 0) else Num.nan) = _
          rw [if_pos rfl, hA.sin_zero, fin_zero hbA]
        have e2 : CxxFloat.cos (.fin 0 : Num A) = .fin 1 := by
          show (if true then Num.round A (A.cos 0) else Num.nan) = _
          have := round_int hbA (n := 1) (by norm_num)
          rw [if_pos rfl, hA.cos_zero]
          simpa using this
        have e3 : Num.round A (((∑ j ∈ Finset.range m, a j : Int) : ℝ) + (z occ[m] : ℝ)) = .fin ((∑ j ∈ Finset.range (m + 1), a j : Int) : ℝ) := by
          have := hpart (m + 1) (by omega)
          rw [Finset.sum_range_succ, hex m hm'] at this ⊢
          rw [← Int.cast_add]
          exact round_int hbA (this.trans (by norm_num))
        have e4 : Num.round A (1 * (z occ[m] : ℝ)) = .fin (1 * (z occ[m] : ℝ)) := by
          rw [one_mul]
          exact round_int hbA ((habs _ (List.getElem_mem _)).trans (by norm_num))
        simp only [hv1, Res.ok_bind, hacc, subscript_isOk hm', hconv _ (List.getElem_mem hm'), e1, e2, mulAdd_zero hbA, mulAdd_exact _ e4, one_mul, e3])
    rw [h1, h2]
    simp only [hN]
  -- the last line
  have hS' := hS
  unfold Lattice.computeSkContracted Lattice.accumulateSkContracted at hS'
  simp only [ho, Bool.false_eq_true, if_false, hnum] at hS'
  obtain ⟨new, h3, h4⟩ := Res.bind_eq_ok.1 hS'
  rw [List.drop_eq_nil_of_le (by simp), List.append_nil, Res.ok.injEq] at h4
  obtain ⟨-, h5⟩ := mapRange_eq_ok h3
  obtain ⟨v, h6, h7⟩ := h5 i hi
  rw [h4, List.getElem?_map, List.getElem?_range hi, Option.map_some, Option.some.injEq] at h6
  rw [hk, Res.ok_bind, hf, Res.ok_bind, subscript_ok (x := (CxxFloat.zero : Num A)) (by rw [List.getElem?_replicate, if_pos hi]), Res.ok_bind,
    zero_add_div hbA, Res.ok.injEq] at h7
  rw [h6, ← h7]
  have hbN : |(occ.map z).sum| ≤ 2 ^ 26 := by
    have := hpart size.prod le_rfl
    rwa [← hN] at this
  generalize (occ.map z).sum = Q at hbN
  have hQ2 : |Q * Q| ≤ 2 ^ 52 := by
    rw [abs_mul]
    calc |Q| * |Q| ≤ 2 ^ 26 * 2 ^ 26 := mul_le_mul hbN hbN (abs_nonneg _) (by norm_num)
      _ = 2 ^ 52 := by norm_num
  have hn2 : size.prod * size.prod ≤ 2 ^ 52 := by
    calc size.prod * size.prod ≤ 2 ^ 26 * 2 ^ 26 := Nat.mul_le_mul hn hn
      _ = 2 ^ 52 := by norm_num
  have hsq : squareU size.prod = size.prod * size.prod := by
    unfold squareU umul
    exact Nat.mod_eq_of_lt (lt_of_le_of_lt hn2 (by norm_num))
  have r1 : Num.round A ((Q : ℝ) * Q) = .fin ((Q : ℝ) * Q) := by
    have := round_int hbA (n := Q * Q) (hQ2.trans (by norm_num))
    rwa [Int.cast_mul] at this
  have r2 : Num.round A ((size.prod * size.prod : Nat) : ℝ) = .fin ((size.prod * size.prod : Nat) : ℝ) :=
    round_nat hbA (hn2.trans (by norm_num))
  have hne : ((size.prod * size.prod : Nat) : ℝ) ≠ 0 := by exact_mod_cast (Nat.mul_pos hp0 hp0).ne'
  rw [hsq, Num.ofNat_eq, r2, sumSquares_zero hbA _ r1, Num.fin_mul, one_mul, r1,
    Num.fin_div hne]
  have e5 : (Q : ℝ) * Q / ((size.prod * size.prod : Nat) : ℝ) = (Q : ℝ) ^ 2 / (size.prod : ℝ) ^ 2 := by push_cast; rw [sq, sq]
  rw [e5]
  refine round_fin hbA ?_
  have h8 : (1 : ℝ) ≤ (size.prod : ℝ) ^ 2 := one_le_pow₀ (by exact_mod_cast hp0)
  have h9 : |(Q : ℝ) ^ 2| ≤ 2 ^ 52 := by rw [sq]; exact_mod_cast hQ2
  rw [abs_div, abs_of_pos (by linarith : (0 : ℝ) < (size.prod : ℝ) ^ 2)]
  refine (div_le_self (abs_nonneg _) h8).trans (h9.trans (by norm_num))

/-- C131.  At zero momentum, for whole numbers of particles, the structure factor is the square of the density, rounded once. -/
theorem C131_zero_momentum {T : Type} {conv : T → Num A} {z : T → Int} (hA : IsTrig A)
    (hb : chainLattice = .ok b ∨ squareLattice = .ok b ∨ cubicLattice = .ok b) (hd : size.length = b.dim) (hs : Buildable size)
    (hz : (size.map (fun s => (2 * s) ^ 2)).sum < 2 ^ 52) (hn : size.prod ≤ 2 ^ 26)
    (l : Lattice (Num A)) (hl : Lattice.new b size .closed = .ok l) (occ : List T) (hconv : ∀ o ∈ occ, conv o = .fin (z o : ℝ))
    (hocc : occ.length = size.prod) (hsum : (occ.map (fun o => |z o|)).sum ≤ 2 ^ 26) (i : Nat) (hi : i < size.prod) (c : List Int)
    (hc : l.grid.getCoordinates i = .ok c) (h0 : ∀ j, j < size.length → coord c j = extent size j / 2) :
    ∃ S, l.computeSk conv occ (.fin 1) = .ok S ∧ S[i]? = some (.fin (rn ((((occ.map z).sum : Int) : ℝ) ^ 2 / (size.prod : ℝ) ^ 2))) := by
  rw [← (sk_plain conv l occ [] (.fin 1)).2]
  exact sk_zero_momentum hA _ hb hd hs hz hn l hl occ hconv hocc hsum i hi c hc h0

/-- The hypotheses of C131 can be met: half of the sites of a square lattice are occupied. -/
example : ∃ b : Bravais (Num doubleArith), squareLattice = .ok b ∧ [100, 200].length = b.dim ∧ Buildable [100, 200] ∧
    ([100, 200].map (fun s => (2 * s) ^ 2)).sum < 2 ^ 52 ∧ [100, 200].prod ≤ 2 ^ 26 ∧ IsTrig doubleArith ∧
    (∀ x, doubleArith.sin (-x) = -doubleArith.sin x) ∧ (∀ x, doubleArith.cos (-x) = doubleArith.cos x) ∧
    (∃ l, Lattice.new b [100, 200] .closed = .ok l) ∧
    ∃ occ : List Bool, occ.length = [100, 200].prod ∧ (occ.map (fun o => |(if o then 1 else 0 : Int)|)).sum ≤ 2 ^ 26 ∧
      (occ.map (fun o => (if o then 1 else 0 : Int))).sum = 10000 := by
  obtain ⟨b, h1, h2⟩ := square_regular (F := Num doubleArith)
  have hs : Buildable [100, 200] := ⟨⟨by decide, by norm_num⟩, by norm_num⟩
  obtain ⟨l, hl, -⟩ := C73_defined hs (b := b) h2 .closed (fun _ => by decide)
  refine ⟨b, h1, h2.dim.symm, hs, by norm_num, by norm_num, doubleArith_isTrig, Real.sin_neg, Real.cos_neg, ⟨l, hl⟩,
    List.replicate 10000 true ++ List.replicate 10000 false, by rw [List.length_append, List.length_replicate, List.length_replicate]; norm_num, ?_, ?_⟩ <;>
  simp only [List.map_append, List.map_replicate, List.sum_append, List.sum_replicate] <;> norm_num

end
end Bwsl
