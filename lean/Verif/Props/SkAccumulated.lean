import Verif.Props.SkBravais
import Verif.Props.SkBounds

/-! Property C175: structure factors accumulated over many configurations in double precision. -/

namespace Bwsl
open Spec

set_option linter.unusedSectionVars false

/-- A client that calls `AccumulateSk` for one configuration after the other, each with its own factor. -/
def Spec.accumulateAll {F T : Type} [CxxFloat F] [CxxFma F] (l : Lattice F) (f : SkFused) (conv : T → F) :
    List (List T × F) → List F → Res (List F)
  | [], sk => .ok sk
  | s :: rest, sk => do
    let sk' ← l.accumulateSkContracted f conv s.1 sk s.2
    accumulateAll l f conv rest sk'

/-- Neither a negative number nor minus infinity. -/
def Spec.NotNegative {A : Arith ℝ} : Num A → Prop
  | .nan => True
  | .inf n => n = false
  | .fin x => 0 ≤ x

section
variable {A : Arith ℝ} {b : Bravais (Num A)} {size : List Nat} {g : Nat} {P Q : List ℝ} {N : List Int}

theorem notNegative_round (hA : A.IsBinary64) {x : ℝ} (h : 0 ≤ x) : NotNegative (Num.round A x) := by
  unfold Num.round
  rw [hA, rnd64]
  split
  · next y hy =>
    split at hy
    · cases hy; exact rn_nonneg' h
    · cases hy
  · show decide (x < 0) = false
    simpa using h

theorem notNegative_add (hA : A.IsBinary64) {x y : Num A} (hx : NotNegative x) (hy : NotNegative y) : NotNegative (x + y) := by
  cases x with
  | nan => cases y <;> trivial
  | inf n =>
    obtain rfl : n = false := hx
    cases y with
    | nan => trivial
    | inf m => obtain rfl : m = false := hy; exact rfl
    | fin y => exact rfl
  | fin x =>
    cases y with
    | nan => trivial
    | inf m => obtain rfl : m = false := hy; exact rfl
    | fin y => exact notNegative_round hA (add_nonneg hx hy)

theorem notNegative_mul (hA : A.IsBinary64) {x y : Num A} (hx : NotNegative x) (hy : NotNegative y) : NotNegative (x * y) := by
  cases x with
  | nan => cases y <;> trivial
  | inf n =>
    obtain rfl : n = false := hx
    cases y with
    | nan => trivial
    | inf m => obtain rfl : m = false := hy; exact rfl
    | fin y =>
      show NotNegative (if y = 0 then (Num.nan : Num A) else .inf (false != decide (y < 0)))
      split
      · trivial
      · show (false != decide (y < 0)) = false
        simpa [NotNegative] using hy
  | fin x =>
    cases y with
    | nan => trivial
    | inf m =>
      obtain rfl : m = false := hy
      show NotNegative (if x = 0 then (Num.nan : Num A) else .inf (decide (x < 0) != false))
      split
      · trivial
      · show (decide (x < 0) != false) = false
        simpa [NotNegative] using hx
    | fin y => exact notNegative_round hA (mul_nonneg hx hy)

theorem notNegative_div (hA : A.IsBinary64) {x y : Num A} (hx : NotNegative x) (hy : NotNegative y) : NotNegative (x / y) := by
  cases x with
  | nan => cases y <;> trivial
  | inf n =>
    obtain rfl : n = false := hx
    cases y with
    | nan => trivial
    | inf m => trivial
    | fin y =>
      show (false != decide (y < 0)) = false
      simpa [NotNegative] using hy
  | fin x =>
    cases y with
    | nan => trivial
    | inf m => exact le_refl (0 : ℝ)
    | fin y =>
      show NotNegative (if y = 0 then (if x = 0 then (Num.nan : Num A) else .inf (decide (x < 0))) else Num.round A (x / y))
      split
      · split
        · trivial
        · show decide (x < 0) = false
          simpa [NotNegative] using hx
      · exact notNegative_round hA (div_nonneg hx hy)

theorem notNegative_square (hA : A.IsBinary64) (x : Num A) : NotNegative (x * x) := by
  cases x with
  | nan => trivial
  | inf n => cases n <;> rfl
  | fin x => exact notNegative_round hA (mul_self_nonneg x)

theorem notNegative_fma (hA : A.IsBinary64) (x : Num A) {z : Num A} (hz : NotNegative z) : NotNegative (CxxFma.fma x x z) := by
  show NotNegative (Num.fma x x z)
  cases x with
  | nan => cases z <;> trivial
  | inf n =>
    cases z with
    | nan => cases n <;> trivial
    | inf m => obtain rfl : m = false := hz; cases n <;> exact rfl
    | fin z => cases n <;> exact rfl
  | fin x =>
    cases z with
    | nan => trivial
    | inf m => obtain rfl : m = false := hz; exact rfl
    | fin z => exact notNegative_round hA (add_nonneg (mul_self_nonneg x) hz)

theorem notNegative_sumSquares (hA : A.IsBinary64) (f : Fused) (x y : Num A) : NotNegative (sumSquares f x y) := by
  cases f with
  | neither => exact notNegative_add hA (notNegative_square hA x) (notNegative_square hA y)
  | first => exact notNegative_fma hA x (notNegative_square hA y)
  | second => exact notNegative_fma hA y (notNegative_square hA x)

/-- C175.  On every lattice, for any occupations, infinite ones and NaN included, and a factor that is not negative: no structure
factor in double precision is negative. -/
theorem C175_nonneg {T : Type} {conv : T → Num A} (hA : A.IsBinary64) (f : SkFused) (l : Lattice (Num A)) (occ : List T) (mult : Num A)
    (hm : NotNegative mult) (S : List (Num A)) (hS : l.computeSkContracted f conv occ mult = .ok S) : ∀ y ∈ S, NotNegative y := by
  unfold Lattice.computeSkContracted at hS
  split at hS
  · cases hS
    intro y hy
    rw [List.eq_of_mem_replicate hy]
    exact le_refl (0 : ℝ)
  · next ho =>
    unfold Lattice.accumulateSkContracted at hS
    rw [if_neg ho] at hS
    obtain ⟨new, h1, h2⟩ := Res.bind_eq_ok.1 hS
    rw [List.drop_eq_nil_of_le (by simp), List.append_nil, Res.ok.injEq] at h2
    subst h2
    obtain ⟨h3, h4⟩ := mapRange_eq_ok h1
    intro y hy
    obtain ⟨i, hi, rfl⟩ := List.getElem_of_mem hy
    obtain ⟨z, h5, h6⟩ := h4 i (h3 ▸ hi)
    rw [List.getElem?_eq_getElem hi, Option.some.injEq] at h5
    obtain ⟨k, -, h6⟩ := Res.bind_eq_ok.1 h6
    obtain ⟨s, -, h6⟩ := Res.bind_eq_ok.1 h6
    rw [subscript_ok (x := (CxxFloat.zero : Num A)) (by rw [List.getElem?_replicate, if_pos (h3 ▸ hi)]), Res.ok_bind, Res.ok.injEq] at h6
    rw [h5, ← h6]
    refine notNegative_add hA (le_refl (0 : ℝ)) (notNegative_div hA (notNegative_mul hA hm (notNegative_sumSquares hA _ _ _)) ?_)
    rw [Num.ofNat_eq]
    exact notNegative_round hA (Nat.cast_nonneg _)

/-- C175.  Adding a further configuration with a factor that is not negative never makes an accumulated structure factor smaller. -/
theorem C175_grows {T : Type} {conv : T → Num A} (hA : A.IsBinary64) (f : SkFused) (l : Lattice (Num A)) (occ : List T) (mult : Num A)
    (hm : NotNegative mult) (sk : List ℝ) (hd : ∀ x ∈ sk, Double x) (hsk : sk.length = l.grid.numsites) (S : List (Num A))
    (hS : l.accumulateSkContracted f conv occ (sk.map .fin) mult = .ok S) (i : Nat) (x w : ℝ) (hx : sk[i]? = some x)
    (hw : S[i]? = some (.fin w)) : x ≤ w := by
  by_cases ho : l.grid.hasOpenBoundaries = true
  · unfold Lattice.accumulateSkContracted at hS
    rw [if_pos ho, Res.ok.injEq] at hS
    rw [← hS, List.getElem?_map, hx, Option.map_some, Option.some.injEq, Num.fin.injEq] at hw
    exact hw.le
  · unfold Lattice.accumulateSkContracted at hS
    rw [if_neg ho] at hS
    obtain ⟨new, h1, h2⟩ := Res.bind_eq_ok.1 hS
    rw [List.drop_eq_nil_of_le (by simp [hsk]), List.append_nil, Res.ok.injEq] at h2
    subst h2
    obtain ⟨h3, h4⟩ := mapRange_eq_ok h1
    have hi : i < l.grid.numsites := by
      rw [← hsk]; exact (List.getElem?_eq_some_iff.1 hx).1
    obtain ⟨z, h5, h6⟩ := h4 i hi
    rw [hw, Option.some.injEq] at h5
    obtain ⟨k, -, h6⟩ := Res.bind_eq_ok.1 h6
    obtain ⟨s, -, h6⟩ := Res.bind_eq_ok.1 h6
    rw [subscript_ok (x := .fin x) (by rw [List.getElem?_map, hx]; rfl), Res.ok_bind, Res.ok.injEq, ← h5] at h6
    have h7 : NotNegative (mult * sumSquares f.squares s.1 s.2 / CxxFloat.ofNat (squareU l.grid.numsites) : Num A) := by
      refine notNegative_div hA (notNegative_mul hA hm (notNegative_sumSquares hA _ _ _)) ?_
      rw [Num.ofNat_eq]
      exact notNegative_round hA (Nat.cast_nonneg _)
    generalize (mult * sumSquares f.squares s.1 s.2 / CxxFloat.ofNat (squareU l.grid.numsites) : Num A) = y at h6 h7
    cases y with
    | nan => cases h6
    | inf n => cases h6
    | fin y =>
      rw [Num.fin_add] at h6
      have h8 := round_eq_fin hA h6
      have h9 : rn x ≤ rn (x + y) := rn_mono (le_add_of_nonneg_right h7)
      rw [rn_double (hd x (List.mem_of_getElem? hx))] at h9
      rw [h8]; exact h9

/-- The sums of many configurations, given the value of each. -/
theorem accumulated_double {T : Type} {conv : T → Num A} (hA : A.IsBinary64) (f : SkFused) {l : Lattice (Num A)}
    (hc : l.grid.hasOpenBoundaries = false) {n : Nat} (hn : l.grid.numsites = n) {Y : ℝ} (hY : 1 / 2 ^ 200 ≤ Y) (hY' : Y ≤ 2 ^ 100)
    {K : Nat} (hK : K ≤ 2 ^ 50) {V : List T × ℝ → Nat → ℝ} (snaps : List (List T × ℝ)) (m : Nat) (hm : m + snaps.length = K)
    (hS : ∀ s ∈ snaps, l.computeSkContracted f conv s.1 (.fin s.2) = .ok ((List.range n).map (fun i => .fin (V s i))) ∧
      ∀ i, i < n → |V s i| ≤ Y) (a t : Nat → ℝ) (h1 : ∀ i, i < n → |a i - t i| ≤ 2 * (m : ℝ) ^ 2 * Y / 2 ^ 53)
    (h2 : ∀ i, i < n → |t i| ≤ m * Y) :
    ∃ w : Nat → ℝ, accumulateAll l f conv (snaps.map (fun s => (s.1, .fin s.2))) ((List.range n).map (fun i => .fin (a i))) =
        .ok ((List.range n).map (fun i => .fin (w i))) ∧
      ∀ i, i < n → |w i - (t i + (snaps.map (fun s => V s i)).sum)| ≤ 2 * (K : ℝ) ^ 2 * Y / 2 ^ 53 := by
  induction snaps generalizing m a t with
  | nil =>
    obtain rfl : m = K := by simpa using hm
    exact ⟨a, rfl, fun i hi => by simpa using h1 i hi⟩
  | cons s rest ih =>
    rw [List.length_cons] at hm
    obtain ⟨h3, h4⟩ := hS s List.mem_cons_self
    have h5 := sk_accumulate hA f l hc s.1 (.fin s.2) _ h3 ((List.range n).map (fun i => .fin (a i))) (by simp [hn])
    have step : ∀ i, i < n → _ := fun i hi => sum_step hA hY hY' hK (by omega : m < K) (h1 i hi) (h2 i hi) (h4 i hi)
    have e : List.zipWith (· + ·) ((List.range n).map (fun i => (.fin (a i) : Num A))) ((List.range n).map (fun i => .fin (V s i))) =
        (List.range n).map (fun i => .fin (rn (a i + V s i))) := by
      refine List.ext_getElem (by simp) (fun i h6 h7 => ?_)
      have hi : i < n := by simpa using h7
      rw [List.getElem_zipWith, List.getElem_map, List.getElem_map, List.getElem_map, List.getElem_range, Num.fin_add, (step i hi).1]
    rw [e] at h5
    obtain ⟨w, h6, h7⟩ := ih (m + 1) (by omega) (fun s hs => hS s (List.mem_cons_of_mem _ hs)) (fun i => rn (a i + V s i))
      (fun i => t i + V s i) (fun i hi => (step i hi).2.1) (fun i hi => (step i hi).2.2)
    refine ⟨w, ?_, fun i hi => ?_⟩
    · rw [List.map_cons, accumulateAll, h5, Res.ok_bind, h6]
    · rw [List.map_cons, List.sum_cons, ← add_assoc]
      exact h7 i hi

theorem structureFactor_le {n : Nat} (hn : 0 < n) {mult W M : ℝ} (hm : |mult| ≤ W) (hM : 0 ≤ M) {occ : List ℝ}
    (ho : ∀ j, j < n → |occupation occ j| ≤ M) (x : Nat → List ℝ) (k : List ℝ) : |structureFactor n mult occ x k| ≤ W * M ^ 2 := by
  unfold structureFactor
  have h1 : ‖transform n occ x k‖ ≤ n * M := by
    refine (norm_transform_le n occ x k).trans ((Finset.sum_le_card_nsmul _ _ M (fun j hj => ho j (Finset.mem_range.1 hj))).trans ?_)
    rw [Finset.card_range, nsmul_eq_mul]
  have hn0 : (0 : ℝ) < n := by exact_mod_cast hn
  rw [abs_div, abs_mul, abs_of_nonneg (Complex.normSq_nonneg _), abs_of_pos (by positivity : (0 : ℝ) < (n : ℝ) ^ 2), div_le_iff₀ (by positivity),
    Complex.normSq_eq_norm_sq]
  calc |mult| * ‖transform n occ x k‖ ^ 2 ≤ W * (n * M) ^ 2 :=
        mul_le_mul hm (pow_le_pow_left₀ (norm_nonneg _) h1 2) (by positivity) ((abs_nonneg _).trans hm)
    _ = W * M ^ 2 * n ^ 2 := by ring

/-- The sums of many configurations, each of which is accurate. -/
theorem accumulated_accurate {T : Type} {conv : T → Num A} {ω : T → ℝ} (hA : A.IsBinary64) (f : SkFused) {l : Lattice (Num A)}
    (hc : l.grid.hasOpenBoundaries = false) {n : Nat} (hn0 : 0 < n) (hn : l.grid.numsites = n) {W M e : ℝ} (hM : 0 ≤ M) (hY : 1 / 2 ^ 200 ≤ W * M ^ 2)
    (hY' : W * M ^ 2 ≤ 2 ^ 98) (he : e ≤ W * M ^ 2) {snaps : List (List T × ℝ)} (hK : snaps.length ≤ 2 ^ 50)
    {y : Nat → List ℝ} {k : Nat → List ℝ} (hW : ∀ s ∈ snaps, |s.2| ≤ W) (ho : ∀ s ∈ snaps, ∀ j, j < n → |occupation (s.1.map ω) j| ≤ M)
    (hS : ∀ s ∈ snaps, ∃ S : Nat → ℝ, l.computeSkContracted f conv s.1 (.fin s.2) = .ok ((List.range n).map (fun i => .fin (S i))) ∧
      ∀ i, i < n → |S i - structureFactor n s.2 (s.1.map ω) y (k i)| ≤ e) :
    ∃ w : Nat → ℝ, accumulateAll l f conv (snaps.map (fun s => (s.1, .fin s.2))) (List.replicate n CxxFloat.zero) =
        .ok ((List.range n).map (fun i => .fin (w i))) ∧
      ∀ i, i < n → |w i - (snaps.map (fun s => structureFactor n s.2 (s.1.map ω) y (k i))).sum| ≤
        snaps.length * e + (snaps.length : ℝ) ^ 2 * (W * M ^ 2) / 2 ^ 51 := by
  choose! V hV hVe using hS
  have hb : ∀ s ∈ snaps, ∀ i, i < n → |V s i| ≤ 2 * (W * M ^ 2) := by
    intro s hs i hi
    have h1 := hVe s hs i hi
    have h2 := structureFactor_le hn0 (hW s hs) hM (ho s hs) y (k i)
    have h3 := abs_sub_abs_le_abs_sub (V s i) (structureFactor n s.2 (s.1.map ω) y (k i))
    linarith
  obtain ⟨w, h1, h2⟩ := accumulated_double hA f hc hn (Y := 2 * (W * M ^ 2)) (by linarith) (by norm_num at hY' ⊢; linarith) hK (V := V) snaps 0
    (by simp) (fun s hs => ⟨hV s hs, hb s hs⟩) (fun _ => 0) (fun _ => 0) (by simp) (by simp)
  refine ⟨w, ?_, fun i hi => ?_⟩
  · rw [← h1]
    congr 1
    refine List.ext_getElem (by simp) (fun i _ _ => ?_)
    rw [List.getElem_replicate, List.getElem_map, Num.zero_eq]
  · have h3 : |(snaps.map (fun s => V s i)).sum - (snaps.map (fun s => structureFactor n s.2 (s.1.map ω) y (k i))).sum| ≤ snaps.length * e := by
      clear h1 h2 hK
      induction snaps with
      | nil => simp
      | cons s rest ih =>
        rw [List.map_cons, List.map_cons, List.sum_cons, List.sum_cons, List.length_cons]
        have h4 := ih (fun s hs => hW s (List.mem_cons_of_mem _ hs)) (fun s hs => ho s (List.mem_cons_of_mem _ hs))
          (fun s hs => hV s (List.mem_cons_of_mem _ hs)) (fun s hs => hVe s (List.mem_cons_of_mem _ hs))
          (fun s hs => hb s (List.mem_cons_of_mem _ hs))
        have h5 := hVe s List.mem_cons_self i hi
        rw [add_sub_add_comm]
        refine (abs_add_le _ _).trans ?_
        push_cast
        linarith
    have h4 := h2 i hi
    rw [zero_add] at h4
    have h5 := abs_add_le (w i - (snaps.map (fun s => V s i)).sum)
      ((snaps.map (fun s => V s i)).sum - (snaps.map (fun s => structureFactor n s.2 (s.1.map ω) y (k i))).sum)
    rw [sub_add_sub_cancel] at h5
    have e1 : 2 * (snaps.length : ℝ) ^ 2 * (2 * (W * M ^ 2)) / 2 ^ 53 = (snaps.length : ℝ) ^ 2 * (W * M ^ 2) / 2 ^ 51 := by ring
    rw [e1] at h4
    linarith

theorem occupation_bound {T : Type} {conv : T → Num A} {ω : T → ℝ} {occ : List T} {M : ℝ} {n : Nat} (hocc : n ≤ occ.length)
    (hconv : ∀ o ∈ occ, conv o = .fin (ω o) ∧ |ω o| ≤ M) (j : Nat) (hj : j < n) : |occupation (occ.map ω) j| ≤ M := by
  have h : j < occ.length := by omega
  have e : occupation (occ.map ω) j = ω occ[j] := by
    unfold occupation
    rw [List.getD_eq_getElem?_getD, List.getElem?_map, List.getElem?_eq_getElem h]
    rfl
  rw [e]
  exact (hconv _ (List.getElem_mem h)).2

/-- C175.  Structure factors accumulated over K configurations, each with its own factor, on any lattice of C174 in double precision:
their error is at most K times that of one configuration and K² W M² / 2⁵¹ for the sums. -/
theorem C175_any {T : Type} {conv : T → Num A} {ω : T → ℝ} (hA : IsTrig A) (f : SkFused) (hs : Buildable size) {L : Nat}
    (hL : ∀ s ∈ size, s = L) (hd : size.length ≤ 40) (hn : size.prod < 2 ^ 32) (hb : Holds b size.length g P Q N)
    (hr : Regular b size.length) (hP : CoarseEntries P) (hQ : NormalEntries Q) {p q τ R : ℝ} (hp : ∀ e ∈ P, |e| ≤ p) (hp' : p ≤ 2 ^ 400)
    (hq : ∀ e ∈ Q, |e| ≤ q) (hq' : q ≤ 2 ^ 400) (hτ : NearlyDual size.length P Q τ)
    (hR : L * size.length ^ 2 * (p * q * (4 * size.length ^ 2 + 15 * size.length) + 2 ^ 53 * τ) ≤ 64 * R) (hR1 : 1 ≤ R) (hR2 : R ≤ 2 ^ 26)
    (l : Lattice (Num A)) (hl : Lattice.new b size .closed = .ok l) {M W : ℝ} (hM : 1 / 2 ^ 40 ≤ M) (hM' : M ≤ 2 ^ 40)
    (hW : 1 / 2 ^ 40 ≤ W) (hW' : W ≤ 2 ^ 40) (hWM : W * M ^ 2 ≤ 2 ^ 98) (snaps : List (List T × ℝ)) (hK : snaps.length ≤ 2 ^ 50)
    (hconv : ∀ s ∈ snaps, (∀ o ∈ s.1, conv o = .fin (ω o) ∧ |ω o| ≤ M) ∧ size.prod ≤ s.1.length ∧ |s.2| ≤ W) {x : Nat → List Int}
    (hx : ∀ j, j < size.prod → l.grid.getCoordinates j = .ok (x j)) :
    ∃ w : Nat → ℝ, accumulateAll l f conv (snaps.map (fun s => (s.1, .fin s.2))) (List.replicate size.prod CxxFloat.zero) =
        .ok ((List.range size.prod).map (fun i => .fin (w i))) ∧
      ∀ i, i < size.prod → |w i - (snaps.map (fun s => structureFactor size.prod s.2 (s.1.map ω) (fun j => realPoint (x j))
          (exactMomentum size (x i)))).sum| ≤
        snaps.length * (W * M ^ 2 * (R / 2 ^ 41 + size.prod / 2 ^ 46)) + (snaps.length : ℝ) ^ 2 * (W * M ^ 2) / 2 ^ 51 := by
  have hg := (new_parts hl).1
  have hM0 : 0 < M := lt_of_lt_of_le (by norm_num) hM
  have hW0 : 0 < W := lt_of_lt_of_le (by norm_num) hW
  have hlow : 1 / 2 ^ 200 ≤ W * M ^ 2 := by
    calc (1 : ℝ) / 2 ^ 200 ≤ 1 / 2 ^ 40 * (1 / 2 ^ 40) ^ 2 := by norm_num
      _ ≤ W * M ^ 2 := mul_le_mul hW (pow_le_pow_left₀ (by positivity) hM 2) (by positivity) hW0.le
  have hn2 : (size.prod : ℝ) ≤ 2 ^ 32 := by exact_mod_cast hn.le
  have he : W * M ^ 2 * (R / 2 ^ 41 + size.prod / 2 ^ 46) ≤ W * M ^ 2 := by
    refine mul_le_of_le_one_right (by positivity) ?_
    norm_num at hn2 hR2 ⊢
    linarith
  exact accumulated_accurate hA.binary64 f (by rw [hg]; rfl) (prod_pos hs.1.1) (by rw [hg, numsites_eq hs.1]) hM0.le hlow hWM he hK
    (fun s h => (hconv s h).2.2) (fun s h => occupation_bound (hconv s h).2.1 (hconv s h).1) (fun s h => by
      obtain ⟨S, h1, h2⟩ := sk_any hA f hs hL hd hn hb hr hP hQ hp hp' hq hq' hτ hR hR1 hR2 hl hM hM' hW hW' (hconv s h).1 (hconv s h).2.1
        (hconv s h).2.2 hx
      exact ⟨S, h1, fun i hi => (h2 i hi).1⟩)

/-- C175.  The same on closed chains, square and cubic lattices with extents that may differ. -/
theorem C175_orthogonal {T : Type} {conv : T → Num A} {ω : T → ℝ} (hA : IsTrig A) (f : SkFused)
    (hb : chainLattice = .ok b ∨ squareLattice = .ok b ∨ cubicLattice = .ok b) (hd : size.length = b.dim) (hs : Buildable size)
    (hz : (size.map (fun s => (2 * s) ^ 2)).sum < 2 ^ 52) (hn : size.prod < 2 ^ 32)
    (l : Lattice (Num A)) (hl : Lattice.new b size .closed = .ok l) {M W L : ℝ} (hM : 1 / 2 ^ 40 ≤ M) (hM' : M ≤ 2 ^ 40)
    (hW : 1 / 2 ^ 40 ≤ W) (hW' : W ≤ 2 ^ 40) (hWM : W * M ^ 2 ≤ 2 ^ 98) (hL : ∀ s ∈ size, (s : ℝ) ≤ L) (hL1 : 1 ≤ L) (hL2 : L ≤ 2 ^ 26)
    (snaps : List (List T × ℝ)) (hK : snaps.length ≤ 2 ^ 50)
    (hconv : ∀ s ∈ snaps, (∀ o ∈ s.1, conv o = .fin (ω o) ∧ |ω o| ≤ M) ∧ size.prod ≤ s.1.length ∧ |s.2| ≤ W) {x : Nat → List Int}
    (hx : ∀ j, j < size.prod → l.grid.getCoordinates j = .ok (x j)) :
    ∃ w : Nat → ℝ, accumulateAll l f conv (snaps.map (fun s => (s.1, .fin s.2))) (List.replicate size.prod CxxFloat.zero) =
        .ok ((List.range size.prod).map (fun i => .fin (w i))) ∧
      ∀ i, i < size.prod → |w i - (snaps.map (fun s => structureFactor size.prod s.2 (s.1.map ω) (fun j => realPoint (x j))
          (exactMomentum size (x i)))).sum| ≤
        snaps.length * (W * M ^ 2 * (L / 2 ^ 41 + size.prod / 2 ^ 46)) + (snaps.length : ℝ) ^ 2 * (W * M ^ 2) / 2 ^ 51 := by
  have hg := (new_parts hl).1
  have hM0 : 0 < M := lt_of_lt_of_le (by norm_num) hM
  have hW0 : 0 < W := lt_of_lt_of_le (by norm_num) hW
  have hlow : 1 / 2 ^ 200 ≤ W * M ^ 2 := by
    calc (1 : ℝ) / 2 ^ 200 ≤ 1 / 2 ^ 40 * (1 / 2 ^ 40) ^ 2 := by norm_num
      _ ≤ W * M ^ 2 := mul_le_mul hW (pow_le_pow_left₀ (by positivity) hM 2) (by positivity) hW0.le
  have hn2 : (size.prod : ℝ) ≤ 2 ^ 32 := by exact_mod_cast hn.le
  have he : W * M ^ 2 * (L / 2 ^ 41 + size.prod / 2 ^ 46) ≤ W * M ^ 2 := by
    refine mul_le_of_le_one_right (by positivity) ?_
    norm_num at hn2 hL2 ⊢
    linarith
  exact accumulated_accurate hA.binary64 f (by rw [hg]; rfl) (prod_pos hs.1.1) (by rw [hg, numsites_eq hs.1]) hM0.le hlow hWM he hK
    (fun s h => (hconv s h).2.2) (fun s h => occupation_bound (hconv s h).2.1 (hconv s h).1) (fun s h => by
      obtain ⟨S, h1, h2⟩ := sk_double hA f hb hd hs hz hn hl hM hM' hW hW' hL hL1 hL2 (hconv s h).1 (hconv s h).2.1 (hconv s h).2.2 hx
      exact ⟨S, h1, fun i hi => (h2 i hi).1⟩)

/-- C175.  Without fused products these are the calls of `AccumulateSk` of the source. -/
theorem C175_plain {F T : Type} [CxxFloat F] [CxxFma F] (conv : T → F) (l : Lattice F) (occ : List T) (sk : List F) (mult : F)
    (rest : List (List T × F)) :
    accumulateAll l ⟨false, false, false, .neither⟩ conv ((occ, mult) :: rest) sk =
      (l.accumulateSk conv occ sk mult >>= fun sk' => accumulateAll l ⟨false, false, false, .neither⟩ conv rest sk') := by
  rw [accumulateAll, (sk_plain conv l occ sk mult).1]

/-- The hypotheses of C175 can be met: a million configurations of a closed chain of 50 sites. -/
example : ∃ b : Bravais (Num doubleArith), (chainLattice = .ok b ∨ squareLattice = .ok b ∨ cubicLattice = .ok b) ∧ IsTrig doubleArith ∧
    [50].length = b.dim ∧ Buildable [50] ∧ ([50].map (fun s => (2 * s) ^ 2)).sum < 2 ^ 52 ∧ [50].prod < 2 ^ 32 ∧
    (∃ l, Lattice.new b [50] .closed = .ok l) ∧ (∀ s ∈ [50], ((s : Nat) : ℝ) ≤ 50) ∧
    ∃ snaps : List (List Bool × ℝ), 10 ^ 6 ≤ snaps.length ∧ snaps.length ≤ 2 ^ 50 ∧
      ∀ s ∈ snaps, (∀ o ∈ s.1, (fun o => if o then .fin 1 else .fin 0 : Bool → Num doubleArith) o =
        .fin ((fun o => if o then 1 else 0 : Bool → ℝ) o) ∧ |(fun o => if o then 1 else 0 : Bool → ℝ) o| ≤ 1) ∧ [50].prod ≤ s.1.length ∧
        |s.2| ≤ 1 := by
  obtain ⟨b, h1, h2⟩ := chain_regular (F := Num doubleArith)
  have hs : Buildable [50] := ⟨⟨by decide, by norm_num⟩, by norm_num⟩
  obtain ⟨l, hl, -⟩ := C73_defined hs (b := b) h2 .closed (fun _ => by decide)
  refine ⟨b, .inl h1, doubleArith_isTrig, h2.dim.symm, hs, by decide, by decide, ⟨l, hl⟩, by simp,
    List.replicate (10 ^ 6) (List.replicate 25 true ++ List.replicate 25 false, 1), by rw [List.length_replicate], by
      rw [List.length_replicate]; norm_num, ?_⟩
  intro s hs
  obtain rfl := List.eq_of_mem_replicate hs
  refine ⟨?_, by simp, by simp⟩
  intro o _
  cases o <;> simp

end
end Bwsl
