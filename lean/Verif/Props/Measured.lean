import Verif.Model.Measured
import Verif.Props.MeansDouble
import Verif.Props.NormFormats
import Verif.Props.Apply
import Verif.Props.BinomialFormats
import Verif.Lemmas.IntegerLattice

/-! Properties C165 and C166: measurements of other types than `double`. -/

namespace Bwsl
open Spec FloatFormat

set_option linter.unusedSectionVars false

/-! ### Histories -/

/-- The same call with another value. -/
def mapOp {X Y : Type} (g : X → Y) : HistOp X → HistOp Y
  | .add i x => .add i (g x)
  | .forceAdd i x => .forceAdd i (g x)
  | .reset => .reset

/-- The values in the calls of a history. -/
def Spec.histValues {X : Type} : List (HistOp X) → List X
  | [] => []
  | .add _ x :: ops => x :: histValues ops
  | .forceAdd _ x :: ops => x :: histValues ops
  | .reset :: ops => histValues ops

section
variable {F X Y : Type} [CxxFloat F]

/-- A history of calls with measurements of type `X`. -/
def Hist.runAs (conv : X → F) (h : Hist F) : List (HistOp X) → Res (Hist F)
  | [] => .ok h
  | .add i x :: ops => do
    let h ← (h.addAs conv false i x).toRes
    Hist.runAs conv h ops
  | .forceAdd i x :: ops => do
    let h ← (h.forceAddAs conv false i x).toRes
    Hist.runAs conv h ops
  | .reset :: ops => Hist.runAs conv h.reset ops

theorem measurements_mapOp (g : X → Y) (ops : List (HistOp X)) :
    measurements (ops.map (mapOp g)) = (measurements ops).map (fun m => (m.1, g m.2)) := by
  have hany : ∀ ops : List (HistOp X), (ops.map (mapOp g)).any measurements.isReset = ops.any measurements.isReset := by
    intro ops
    rw [List.any_map]
    congr 1
    funext o
    cases o <;> rfl
  induction ops with
  | nil => rfl
  | cons o ops ih =>
    cases o with
    | add i x =>
      rw [List.map_cons, mapOp, measurements, measurements, hany, ih]
      split <;> rfl
    | forceAdd i x =>
      rw [List.map_cons, mapOp, measurements, measurements, hany, ih]
      split <;> rfl
    | reset => rw [List.map_cons, mapOp, measurements, measurements, ih]

theorem addressed_mapOp (g : X → Y) (n : Nat) (ops : List (HistOp X)) : Addressed n (ops.map (mapOp g)) ↔ Addressed n ops := by
  induction ops generalizing n with
  | nil => rfl
  | cons o ops ih => cases o <;> simp only [List.map_cons, mapOp, Addressed, ih]

theorem mapOp_congr {g g' : X → Y} {ops : List (HistOp X)} (h : ∀ x ∈ histValues ops, g x = g' x) :
    ops.map (mapOp g) = ops.map (mapOp g') := by
  induction ops with
  | nil => rfl
  | cons o ops ih =>
    cases o with
    | add i x =>
      rw [List.map_cons, List.map_cons, mapOp, mapOp, h x (by simp [histValues]), ih fun y hy => h y (by simp [histValues, hy])]
    | forceAdd i x =>
      rw [List.map_cons, List.map_cons, mapOp, mapOp, h x (by simp [histValues]), ih fun y hy => h y (by simp [histValues, hy])]
    | reset => rw [List.map_cons, List.map_cons, mapOp, mapOp, ih fun y hy => h y (by simpa [histValues] using hy)]

theorem mem_inBin {i : Nat} {x : X} {ops : List (HistOp X)} (h : x ∈ inBin i (measurements ops)) : x ∈ histValues ops := by
  unfold inBin at h
  obtain ⟨m, hm0, rfl⟩ := List.mem_map.1 h
  have hm := (List.mem_filter.1 hm0).1
  clear h hm0
  induction ops with
  | nil => exact absurd hm (by simp [measurements])
  | cons o ops ih =>
    cases o with
    | add j y =>
      rw [measurements] at hm
      split at hm
      · exact List.mem_cons_of_mem _ (ih hm)
      · rcases List.mem_cons.1 hm with rfl | hm
        · exact List.mem_cons_self
        · exact List.mem_cons_of_mem _ (ih hm)
    | forceAdd j y =>
      rw [measurements] at hm
      split at hm
      · exact List.mem_cons_of_mem _ (ih hm)
      · rcases List.mem_cons.1 hm with rfl | hm
        · exact List.mem_cons_self
        · exact List.mem_cons_of_mem _ (ih hm)
    | reset => exact ih hm

theorem runAs_eq (conv : X → F) (h : Hist F) (ops : List (HistOp X)) : h.runAs conv ops = h.run (ops.map (mapOp conv)) := by
  induction ops generalizing h with
  | nil => rfl
  | cons o ops ih =>
    cases o with
    | add i y =>
      rw [Hist.runAs, List.map_cons, mapOp, Hist.run, Hist.step]
      exact congrArg _ (funext fun h' => ih h')
    | forceAdd i y =>
      rw [Hist.runAs, List.map_cons, mapOp, Hist.run, Hist.step]
      exact congrArg _ (funext fun h' => ih h')
    | reset =>
      rw [Hist.runAs, List.map_cons, mapOp, Hist.run, Hist.step, Res.ok_bind]
      exact ih _

/-- C165.  A histogram of measurements of any type is the histogram of the measurements converted to `double`, call by call, with
and without the checks. -/
theorem C165_histogram (conv : X → F) (h : Hist F) (ops : List (HistOp X)) (checks : Bool) (idx : Nat) (x : X) :
    h.addAs conv checks idx x = h.add checks idx (conv x) ∧ h.forceAddAs conv checks idx x = h.forceAdd checks idx (conv x) ∧
    h.runAs conv ops = h.run (ops.map (mapOp conv)) :=
  ⟨rfl, rfl, runAs_eq conv h ops⟩

/-- C165.  `apply_accumulator` adds the elements of the range, converted, in order. -/
theorem C165_apply (conv : X → F) (add : σ → F → Call σ Unit) (xs : List X) (s : σ) :
    applyAs conv add xs s = applyAccumulator add (xs.map conv) s := by
  induction xs generalizing s with
  | nil => rfl
  | cons x xs ih =>
    rw [applyAs, List.map_cons, applyAccumulator]
    cases h : (add s (conv x)).res with
    | ok u => exact ih _
    | throws e => rfl
    | ub u => rfl
    | diverges => rfl
end

/-! ### Conversions -/

section
variable {A B : Arith ℝ} {f : FloatFormat}

theorem int_convert (hA : A.IsBinary64) {n : Int} (h : |n| ≤ 2 ^ 64) : (CxxFloat.ofInt n : Num A) = .fin (rn (n : ℝ)) := by
  rw [Num.ofInt_eq]
  refine round_of_le_two hA ?_
  have h1 : |(n : ℝ)| ≤ 2 ^ 64 := by exact_mod_cast h
  refine h1.trans ?_
  rw [show (2 : ℝ) ^ 64 = (2 : ℝ) ^ (64 : Int) by norm_cast]
  exact zpow_le_zpow_right₀ one_le_two (by norm_num)

/-- C165.  The conversions of measurements: an integer of up to 64 bits becomes the nearest double, itself if it is at most 2^53;
`false` and `true` become 0 and 1; a finite value of a format no wider than `double`, such as `float`, stays as it is, one of a
wider format becomes the nearest double if it is in range; infinities and NaN stay. -/
theorem C165_conversions (hA : A.IsBinary64) :
    (∀ n : Int, |n| ≤ 2 ^ 64 → (CxxFloat.ofInt n : Num A) = .fin (rn (n : ℝ))) ∧
    (∀ n : Int, |n| ≤ 2 ^ 53 → (CxxFloat.ofInt n : Num A) = .fin (n : ℝ)) ∧
    (measuredBool false : Num A) = .fin 0 ∧ (measuredBool true : Num A) = .fin 1 ∧
    (∀ x : ℝ, FiniteIn f x → f.prec ≤ 53 → -1074 ≤ f.emin → f.emax ≤ 1024 → (Num.fin x : Num B).convert A = .fin x) ∧
    (∀ x : ℝ, |x| ≤ (2 : ℝ) ^ (1023 : Int) → (Num.fin x : Num B).convert A = .fin (rn x)) ∧
    (∀ s, (Num.inf s : Num B).convert A = .inf s) ∧ (Num.nan : Num B).convert A = .nan := by
  refine ⟨fun n h => int_convert hA h, fun n h => round_int hA h, ?_, ?_, ?_, fun x h => round_of_le_two hA h, fun s => rfl, rfl⟩
  · have := round_int hA (n := 0) (by norm_num)
    rw [Int.cast_zero] at this
    unfold measuredBool
    rw [if_neg (by decide), Num.ofInt_eq, Int.cast_zero, this]
  · have := round_int hA (n := 1) (by norm_num)
    rw [Int.cast_one] at this
    unfold measuredBool
    rw [if_pos rfl, Num.ofInt_eq, Int.cast_one, this]
  · intro x h h1 h2 h3
    exact Num.round_of (rnd_finite (isFormat_double.2 hA)
      (value_wider (g := FloatFormat.double) (f := f) h1 h2 h3 h))

/-- C165.  A histogram of `float` measurements is the histogram of the same numbers: no conversion rounds. -/
theorem C165_float (hA : A.IsBinary64) (h1 : f.prec ≤ 53) (h2 : -1074 ≤ f.emin) (h3 : f.emax ≤ 1024) (h : Hist (Num A))
    (ops : List (HistOp ℝ)) (hv : ∀ x ∈ histValues ops, FiniteIn f x) :
    h.runAs (fun x => (Num.fin x : Num B).convert A) ops = h.run (ops.map finOp) := by
  rw [runAs_eq, mapOp_congr (g' := fun x => (Num.fin x : Num A))
    fun x hx => (C165_conversions (f := f) (B := B) hA).2.2.2.2.1 x (hv x hx) h1 h2 h3]
  rfl

theorem sum_cast_map {X : Type} (v : X → Int) (xs : List X) : (xs.map fun x => (v x : ℝ)).sum = ((xs.map v).sum : Int) := by
  induction xs with
  | nil => simp
  | cons x xs ih => rw [List.map_cons, List.map_cons, List.sum_cons, List.sum_cons, ih]; push_cast; ring

/-- C165.  With at most 2^53 integer measurements, the result of a bin whose values and partial sums are at most 2^53 is the sum
over the number of all measurements, rounded once. -/
theorem C165_integers (hA : A.IsBinary64) (n : Nat) (hn : n < 2 ^ 64) (ops : List (HistOp Int)) (ha : Addressed n ops)
    (hm : (measurements ops).length ≤ 2 ^ 53) (hr : ∀ x ∈ histValues ops, |x| ≤ 2 ^ 64) (h : Hist (Num A))
    (hh : (Hist.new n).runAs CxxFloat.ofInt ops = .ok h) (i : Nat) (hi : i < h.getNbins)
    (hx : ∀ x ∈ inBin i (measurements ops), |x| ≤ 2 ^ 53) (hp : ∀ k, |((inBin i (measurements ops)).take k).sum| ≤ 2 ^ 53) :
    h.getResult i = .ok (.fin (rn (((inBin i (measurements ops)).sum : ℝ) / (measurements ops).length))) := by
  rw [runAs_eq, mapOp_congr (g' := fun x : Int => (Num.fin (rn (x : ℝ)) : Num A))
    fun x hx => int_convert hA (hr x hx)] at hh
  have e : ops.map (mapOp fun x : Int => (Num.fin (rn (x : ℝ)) : Num A)) = (ops.map (mapOp fun x : Int => rn (x : ℝ))).map finOp := by
    rw [List.map_map]
    congr 1
    funext o
    cases o <;> rfl
  rw [e] at hh
  have hb : inBin i (measurements (ops.map (mapOp fun x : Int => rn (x : ℝ)))) =
      (inBin i (measurements ops)).map (Int.cast : Int → ℝ) := by
    rw [measurements_mapOp, inBin_map (fun x : Int => rn (x : ℝ))]
    exact List.map_congr_left fun x h => rn_double (double_int (hx x h))
  have hs : ∀ l : List Int, (l.map (Int.cast : Int → ℝ)).sum = (l.sum : Int) := fun l => by
    have := sum_cast_map (fun x : Int => x) l
    rwa [List.map_id'] at this
  have key := C115_result hA n hn _ ((addressed_mapOp _ n ops).2 ha) (by rw [measurements_mapOp, List.length_map]; exact hm) h hh i hi
    (by
      rw [hb]
      intro x h
      obtain ⟨m, hm, rfl⟩ := List.mem_map.1 h
      exact finDouble_int (hx m hm))
    (by
      intro k
      rw [hb, ← List.map_take, hs]
      exact finDouble_int (hp k))
  rw [hb, hs, measurements_mapOp, List.length_map] at key
  exact key

theorem sum_abs_nonneg {X : Type} (v : X → ℝ) (xs : List X) : 0 ≤ (xs.map fun x => |v x|).sum := by
  induction xs with
  | nil => simp
  | cons x xs ih => rw [List.map_cons, List.sum_cons]; exact add_nonneg (abs_nonneg _) ih

/-- The sums of the converted values. -/
theorem sum_converted {X : Type} (v : X → ℝ) (xs : List X) :
    |(xs.map fun x => rn (v x)).sum - (xs.map v).sum| ≤ (xs.map fun x => |v x|).sum / 2 ^ 53 + xs.length * (2 : ℝ) ^ (-1075 : Int) ∧
    (xs.map fun x => |rn (v x)|).sum ≤ (1 + 1 / 2 ^ 53) * (xs.map fun x => |v x|).sum + xs.length * (2 : ℝ) ^ (-1075 : Int) ∧
    |(xs.map v).sum| ≤ (xs.map fun x => |v x|).sum := by
  have he : ∀ x : ℝ, |x - rn x| ≤ |x| / 2 ^ 53 + (2 : ℝ) ^ (-1075 : Int) := rn_abs_err
  generalize (2 : ℝ) ^ (-1075 : Int) = t at *
  induction xs with
  | nil => simp
  | cons x xs ih =>
    obtain ⟨h1, h2, h3⟩ := ih
    simp only [List.map_cons, List.sum_cons, List.length_cons]
    push_cast
    have e := he (v x)
    have e2 : |rn (v x)| ≤ |v x| + |v x - rn (v x)| := by
      have := abs_sub (v x) (v x - rn (v x))
      rwa [sub_sub_cancel] at this
    refine ⟨?_, ?_, ?_⟩
    · have e3 := abs_add_le (rn (v x) - v x) ((xs.map fun x => rn (v x)).sum - (xs.map v).sum)
      rw [abs_sub_comm (rn (v x))] at e3
      rw [show rn (v x) + (xs.map fun x => rn (v x)).sum - (v x + (xs.map v).sum) =
        rn (v x) - v x + ((xs.map fun x => rn (v x)).sum - (xs.map v).sum) by ring]
      linarith
    · linarith
    · exact (abs_add_le _ _).trans (add_le_add le_rfl h3)

/-- C165.  After any history with at most 2^49 measurements, each converted to the nearest double, the result of a bin with `k` values
is finite and within (5·2⁻⁵³ + 4 (k 2⁻⁵³)²) of the sum of their absolute values, over the number of all measurements, from the sum
of the values over that number. -/
theorem C165_error {X : Type} (hA : A.IsBinary64) (conv : X → Num A) (v : X → ℝ) (n : Nat) (hn : n < 2 ^ 64) (ops : List (HistOp X))
    (ha : Addressed n ops) (hm : (measurements ops).length ≤ 2 ^ 49) (hv : ∀ x ∈ histValues ops, conv x = .fin (rn (v x)))
    (h : Hist (Num A)) (hh : (Hist.new n).runAs conv ops = .ok h) (i : Nat) (hi : i < h.getNbins)
    (hS : ((inBin i (measurements ops)).map (fun x => |v x|)).sum ≤ (2 : ℝ) ^ (1018 : Int)) :
    ∃ y, h.getResult i = .ok (.fin y) ∧ FinDouble y ∧
      |y - ((inBin i (measurements ops)).map v).sum / (measurements ops).length| ≤
        (5 / 2 ^ 53 + 4 * (((inBin i (measurements ops)).length : ℝ) / 2 ^ 53) ^ 2) *
          (((inBin i (measurements ops)).map (fun x => |v x|)).sum / (measurements ops).length) + (2 : ℝ) ^ (-1073 : Int) := by
  have e : ops.map (mapOp fun x => (Num.fin (rn (v x)) : Num A)) = (ops.map (mapOp fun x => rn (v x))).map finOp := by
    rw [List.map_map]
    congr 1
    funext o
    cases o <;> rfl
  rw [runAs_eq, mapOp_congr hv, e] at hh
  have hb : inBin i (measurements (ops.map (mapOp fun x => rn (v x)))) = (inBin i (measurements ops)).map fun x => rn (v x) := by
    rw [measurements_mapOp, inBin_map (fun x => rn (v x))]
  have hle : (inBin i (measurements ops)).length ≤ (measurements ops).length := by
    unfold inBin; rw [List.length_map]; exact List.length_filter_le _ _
  have key := C138_histogram hA n hn _ ((addressed_mapOp _ n ops).2 ha) (by rw [measurements_mapOp, List.length_map]; exact hm) h hh i hi
  rw [hb, measurements_mapOp, List.length_map, List.length_map, List.map_map] at key
  generalize measurements ops = ms at *
  generalize inBin i ms = xs at *
  obtain ⟨c1, c2, c3⟩ := sum_converted v xs
  obtain ⟨_, _, c4⟩ := sum_converted (fun x => rn (v x)) xs
  have hT := sum_abs_nonneg v xs
  have hT' := sum_abs_nonneg (fun x => rn (v x)) xs
  have hk : (xs.length : ℝ) ≤ 2 ^ 49 := by exact_mod_cast hle.trans hm
  have hkN : (xs.length : ℝ) ≤ ms.length := by exact_mod_cast hle
  have hk0 : (0 : ℝ) ≤ xs.length := Nat.cast_nonneg _
  have ht0 : (0 : ℝ) < (2 : ℝ) ^ (-1075 : Int) := by positivity
  have hkt : xs.length * (2 : ℝ) ^ (-1075 : Int) ≤ (2 : ℝ) ^ (1018 : Int) := by
    have h1 : (2 : ℝ) ^ (-1075 : Int) ≤ 1 / 2 ^ 49 := by
      rw [show (1 : ℝ) / 2 ^ 49 = (2 : ℝ) ^ (-49 : Int) by norm_num]
      exact zpow_le_zpow_right₀ one_le_two (by norm_num)
    have h2 : (1 : ℝ) ≤ (2 : ℝ) ^ (1018 : Int) := one_le_zpow₀ one_le_two (by norm_num)
    calc _ ≤ (2 : ℝ) ^ 49 * (1 / 2 ^ 49) := mul_le_mul hk h1 ht0.le (by positivity)
      _ = 1 := by norm_num
      _ ≤ _ := h2
  have e20 : (2 : ℝ) ^ (1020 : Int) = 4 * (2 : ℝ) ^ (1018 : Int) := by
    rw [show (1020 : Int) = 2 + 1018 by norm_num, zpow_add₀ two_ne_zero]; norm_num
  have e73 : (2 : ℝ) ^ (-1073 : Int) = 4 * (2 : ℝ) ^ (-1075 : Int) := by
    rw [show (-1073 : Int) = 2 + -1075 by norm_num, zpow_add₀ two_ne_zero]; norm_num
  have hS' : (xs.map fun x => |rn (v x)|).sum ≤ (2 : ℝ) ^ (1020 : Int) := by
    rw [e20]
    have h1 : (1 + 1 / 2 ^ 53 : ℝ) ≤ 2 := by norm_num
    have h2 := mul_le_mul_of_nonneg_right h1 hT
    generalize (xs.length : ℝ) * (2 : ℝ) ^ (-1075 : Int) = w at c2 hkt
    generalize (2 : ℝ) ^ (1018 : Int) = b at hS hkt ⊢
    linarith only [c2, hkt, hS, h2]
  obtain ⟨y, y1, y2, y3⟩ := key (by
      intro z hz
      obtain ⟨x, hx, rfl⟩ := List.mem_map.1 hz
      refine ⟨rn_isDouble _, ?_⟩
      have h1 : |rn (v x)| ≤ (xs.map fun x => |rn (v x)|).sum :=
        List.single_le_sum (fun z hz => by obtain ⟨w, _, rfl⟩ := List.mem_map.1 hz; exact abs_nonneg _) _
          (List.mem_map.2 ⟨x, hx, rfl⟩)
      exact (h1.trans hS').trans_lt (zpow_lt_zpow_right₀ one_lt_two (by norm_num))) hS'
  refine ⟨y, y1, y2, ?_⟩
  rw [e73]
  have hq : (0 : ℝ) ≤ (ms.length : ℝ)⁻¹ := by positivity
  have hkq : (xs.length : ℝ) * (ms.length : ℝ)⁻¹ ≤ 1 := by
    rcases Nat.eq_zero_or_pos ms.length with h0 | h0
    · rw [h0]; simp
    · rw [← div_eq_mul_inv, div_le_one (by exact_mod_cast h0)]; exact hkN
  have hκ : ((xs.length : ℝ) / 2 ^ 53) ^ 2 ≤ 1 / 2 ^ 8 := by
    have : (xs.length : ℝ) / 2 ^ 53 ≤ 1 / 2 ^ 4 := by
      rw [div_le_iff₀ (by positivity)]; norm_num at hk ⊢; linarith
    calc _ ≤ ((1 : ℝ) / 2 ^ 4) ^ 2 := pow_le_pow_left₀ (by positivity) this 2
      _ = _ := by norm_num
  have hκ0 : 0 ≤ ((xs.length : ℝ) / 2 ^ 53) ^ 2 := by positivity
  simp only [Function.comp_def, div_eq_mul_inv _ (ms.length : ℝ)] at y3 ⊢
  rw [abs_mul, abs_of_nonneg hq] at y3
  generalize ((xs.length : ℝ) / 2 ^ 53) ^ 2 = κ at *
  generalize (2 : ℝ) ^ (-1075 : Int) = t at *
  generalize (ms.length : ℝ)⁻¹ = q at *
  generalize (xs.length : ℝ) = k at *
  generalize (xs.map fun x => |rn (v x)|).sum = T' at *
  generalize (xs.map fun x => |v x|).sum = T at *
  generalize (xs.map fun x => rn (v x)).sum = S' at *
  generalize (xs.map v).sum = S at *
  have hTq : 0 ≤ T * q := mul_nonneg hT hq
  have d1 : |S' * q - S * q| ≤ T * q / 2 ^ 53 + t := by
    rw [← sub_mul, abs_mul, abs_of_nonneg hq]
    have h1 := mul_le_mul_of_nonneg_right c1 hq
    have h2 := mul_le_mul_of_nonneg_right hkq ht0.le
    linarith
  have d2 : T' * q ≤ (1 + 1 / 2 ^ 53) * (T * q) + t := by
    have h1 := mul_le_mul_of_nonneg_right c2 hq
    have h2 := mul_le_mul_of_nonneg_right hkq ht0.le
    linarith
  have d3 : |S'| * q ≤ T' * q := mul_le_mul_of_nonneg_right c4 hq
  have d4 := abs_sub_le y (S' * q) (S * q)
  have d5 : κ * (T' * q) ≤ κ * ((1 + 1 / 2 ^ 53) * (T * q) + t) := mul_le_mul_of_nonneg_left d2 hκ0
  have d6 : κ * t ≤ 1 / 2 ^ 8 * t := mul_le_mul_of_nonneg_right hκ ht0.le
  have d7 : 0 ≤ κ * (T * q) := mul_nonneg hκ0 hTq
  norm_num at *
  nlinarith

/-- The conditions are met by integers, bins that are added and a reset. -/
example : Addressed 1 [HistOp.add 0 (5 : Int), .reset, .forceAdd 2 (-3), .add 0 7] ∧
    (∀ x ∈ histValues [HistOp.add 0 (5 : Int), .reset, .forceAdd 2 (-3), .add 0 7], |x| ≤ 2 ^ 53) ∧
    (measurements [HistOp.add 0 (5 : Int), .reset, .forceAdd 2 (-3), .add 0 7]) = [(2, -3), (0, 7)] := by
  refine ⟨by simp [Addressed], by simp [histValues], by simp [measurements, measurements.isReset]⟩

/-- C165.  A range of integers whose values and partial sums are at most 2^53 is summed without error by the compensated sums. -/
theorem C165_sums (hA : A.IsBinary64) (ns : List Int) (hx : ∀ n ∈ ns, |n| ≤ 2 ^ 53) (hp : ∀ k, |(ns.take k).sum| ≤ 2 ^ 53) :
    (∃ s : Kahan (Num A), applyAs CxxFloat.ofInt (Kahan.add false) ns Kahan.new = ⟨s, .ok ()⟩ ∧ s.getSum = .fin (ns.sum : ℝ)) ∧
    (∃ s : Neumaier (Num A), applyAs CxxFloat.ofInt (Neumaier.add false) ns Neumaier.new = ⟨s, .ok ()⟩ ∧ s.getSum = .fin (ns.sum : ℝ)) := by
  have e : ns.map (CxxFloat.ofInt : Int → Num A) = (ns.map (Int.cast : Int → ℝ)).map .fin := by
    rw [List.map_map]
    exact List.map_congr_left fun n h => (C165_conversions (f := FloatFormat.float) (B := A) hA).2.1 n (hx n h)
  obtain ⟨h1, h2⟩ := C36_integers (K := ℝ) hA ns hx hp
  have hrun : ∀ {σ : Type} (core : σ → Num A → σ) (add : σ → Num A → Call σ Unit), (∀ s x, add s x = ⟨core s x, .ok ()⟩) →
      ∀ (xs : List (Num A)) (s : σ), applyAccumulator add xs s = ⟨xs.foldl core s, .ok ()⟩ := by
    intro σ core add h xs
    induction xs with
    | nil => intro s; rfl
    | cons x xs ih => intro s; rw [applyAccumulator, h]; exact ih _
  constructor
  · refine ⟨_, ?_, h1⟩
    rw [C165_apply, e]
    exact hrun Kahan.addCore _ (fun s x => by unfold Kahan.add guarded; rw [if_neg (by simp)]) _ _
  · refine ⟨_, ?_, h2⟩
    rw [C165_apply, e]
    exact hrun Neumaier.addCore _ (fun s x => by unfold Neumaier.add guarded; rw [if_neg (by simp)]) _ _

/-! ### Integer accumulators -/

/-- The whole part of a number, towards zero. -/
noncomputable def Spec.whole (x : ℝ) : Int := if 0 ≤ x then ⌊x⌋ else ⌈x⌉

theorem applyAs_addAll {X : Type} (conv : X → Res Int) (w : X → Int) (xs : List X) (s : NaiveInteger)
    (h : ∀ x ∈ xs, conv x = .ok (w x)) : NaiveInteger.applyAs conv false xs s = s.addAll (xs.map w) := by
  induction xs generalizing s with
  | nil => rfl
  | cons x xs ih =>
    rw [NaiveInteger.applyAs, h x (by simp), Res.ok_bind, List.map_cons, NaiveInteger.addAll]
    exact congrArg _ (funext fun s' => ih s' fun y hy => h y (by simp [hy]))

theorem has_long (n : Int) : CInt.tLong.Has n ↔ InLong n := by
  unfold CInt.Has InLong CInt.lo CInt.hi CInt.tLong
  norm_num

/-- C166, what holds.  Applied to finite floating-point values a NaiveInteger is the accumulator of their whole parts; of unsigned 64-bit
values below 2^63 it is the accumulator of the values. -/
theorem C166_whole_partial (xs : List ℝ) (hx : ∀ x ∈ xs, InLong (whole x)) (ns : List Int) (hn : ∀ n ∈ ns, 0 ≤ n ∧ n < 2 ^ 63)
    (s : NaiveInteger) :
    NaiveInteger.applyAs CInt.tLong.ofFloat false (xs.map (Num.fin (A := A))) s = s.addAll (xs.map whole) ∧
    NaiveInteger.applyAs (fun n => .ok (CInt.tLong.wrap n)) false ns s = s.addAll ns := by
  constructor
  · have : ∀ (xs : List ℝ) (s : NaiveInteger), (∀ x ∈ xs, InLong (whole x)) →
        NaiveInteger.applyAs CInt.tLong.ofFloat false (xs.map (Num.fin (A := A))) s = s.addAll (xs.map whole) := by
      intro xs
      induction xs with
      | nil => intro s _; rfl
      | cons x xs ih =>
        intro s h
        have hc : CInt.tLong.ofFloat (Num.fin x : Num A) = .ok (whole x) := by
          show (if CInt.tLong.Has (whole x) then Res.ok (whole x) else _) = _
          rw [if_pos ((has_long _).2 (h x (by simp)))]
        rw [List.map_cons, NaiveInteger.applyAs, hc, Res.ok_bind, List.map_cons, NaiveInteger.addAll]
        exact congrArg _ (funext fun s' => ih s' fun y hy => h y (by simp [hy]))
    exact this xs s hx
  · have h := applyAs_addAll (fun n => .ok (CInt.tLong.wrap n)) id ns s fun n h => by
      have h := hn n h
      rw [Res.ok.injEq]
      unfold CInt.wrap CInt.lo CInt.tLong
      norm_num
      omega
    rwa [List.map_id] at h

/-- C166 is violated by fractions: two halves have the sum 0. -/
theorem C166_fractions_violated : ∃ s, NaiveInteger.applyAs CInt.tLong.ofFloat false [(.fin (1 / 2) : Num A), .fin (1 / 2)]
    NaiveInteger.new = .ok s ∧ s.getSum = 0 ∧ s.getCount = 2 := by
  have h : whole (1 / 2) = 0 := by unfold whole; rw [if_pos (by norm_num)]; norm_num
  have := (C166_whole_partial (A := A) [1 / 2, 1 / 2] (by simp only [List.mem_cons, List.not_mem_nil, or_false, or_self, forall_eq]; rw [h]; decide) []
    (by simp) NaiveInteger.new).1
  rw [List.map_cons, List.map_cons, List.map_nil] at this
  rw [this, List.map_cons, List.map_cons, List.map_nil, h]
  exact ⟨⟨0, 0, 2⟩, by decide, rfl, rfl⟩

/-- C166 is violated by numbers with no whole part in `long`, for which the conversion is undefined, and by unsigned numbers from 2^63
on, which are added as negative ones. -/
theorem C166_range_violated (s : NaiveInteger) (xs : List (Num A)) (ns : List Int) :
    (∀ x : ℝ, ¬ InLong (whole x) → NaiveInteger.applyAs CInt.tLong.ofFloat false (.fin x :: xs) s = .ub .floatToInt) ∧
    NaiveInteger.applyAs CInt.tLong.ofFloat false (.nan :: xs) s = .ub .floatToInt ∧
    (∀ n : Int, 2 ^ 63 ≤ n → n < 2 ^ 64 → NaiveInteger.applyAs (fun n => .ok (CInt.tLong.wrap n)) false (n :: ns) s =
      (NaiveInteger.add false s (n - 2 ^ 64) >>= NaiveInteger.applyAs (fun n => .ok (CInt.tLong.wrap n)) false ns)) := by
  refine ⟨fun x h => ?_, rfl, fun n h1 h2 => ?_⟩
  · have hc : CInt.tLong.ofFloat (Num.fin x : Num A) = .ub .floatToInt := by
      show (if CInt.tLong.Has (whole x) then Res.ok (whole x) else _) = _
      rw [if_neg (fun h' => h ((has_long _).1 h'))]
    rw [NaiveInteger.applyAs, hc]; rfl
  · have hw : CInt.tLong.wrap n = n - 2 ^ 64 := by
      unfold CInt.wrap CInt.lo CInt.tLong
      norm_num at *
      omega
    rw [NaiveInteger.applyAs, Res.ok_bind, hw]

/-- C166 is violated by integers beyond 2^53: one measurement of 2^53+1 has the result 2^53. -/
theorem C166_long_violated (hA : A.IsBinary64) : ∃ h : Hist (Num A),
    (Hist.new 1).runAs CxxFloat.ofInt [.add 0 (2 ^ 53 + 1 : Int)] = .ok h ∧ h.getResult 0 = .ok (.fin (2 ^ 53)) := by
  have hr : rn (((2 ^ 53 + 1 : Int) : ℝ)) = 2 ^ 53 := by
    have : rn ((2 : ℝ) ^ 53 + 1) = 2 ^ 53 := fl_stuck (f := FloatFormat.double)
    rw [← this]
    norm_num
  have e : (Hist.new 1).runAs CxxFloat.ofInt [.add 0 (2 ^ 53 + 1 : Int)] =
      (Hist.new 1 : Hist (Num A)).run ([.add 0 ((2 : ℝ) ^ 53)].map finOp) := by
    rw [runAs_eq, List.map_cons, List.map_nil, mapOp, int_convert hA (by norm_num), hr]
    rfl
  have ha : Addressed 1 [HistOp.add 0 ((2 : ℝ) ^ 53)] := ⟨by norm_num, trivial⟩
  obtain ⟨h, hh⟩ := (C47_defined 1 (by norm_num) ([.add 0 ((2 : ℝ) ^ 53)].map (finOp (A := A))) (by simp [finOp])).2
    ((addressed_map 1 _).2 ha)
  have hd : FinDouble ((2 : ℝ) ^ 53) := by
    have := finDouble_int (K := ℝ) (n := 2 ^ 53) (by norm_num)
    rwa [Int.cast_pow, Int.cast_ofNat] at this
  have hb : inBin 0 (measurements [HistOp.add 0 ((2 : ℝ) ^ 53)]) = [2 ^ 53] := rfl
  have hl : (measurements [HistOp.add 0 ((2 : ℝ) ^ 53)]).length = 1 := rfl
  have key := C115_result hA 1 (by norm_num) _ ha (by rw [hl]; norm_num) h hh 0
    (by
      have := (C47_counts 1 (by norm_num) _ ((addressed_map 1 _).2 ha) h hh).1
      rw [this]
      exact Nat.one_pos)
    (by rw [hb]; simpa using hd)
    (by
      rw [hb]
      intro k
      cases k with
      | zero => simpa using (repr64 hA).zero
      | succ k => simpa using hd)
  rw [hb, hl, List.sum_singleton, Nat.cast_one, div_one, rn_double hd.1] at key
  exact ⟨h, by rw [e]; exact hh, key⟩
end
end Bwsl
