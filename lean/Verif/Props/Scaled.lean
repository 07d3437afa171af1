import Verif.Lemmas.Scale
import Verif.Props.Negated
import Verif.Props.KahanBound
import Verif.Props.Formats
import Verif.Props.FormatsFused

/-! Property C181: what multiplying all the values by a power of two does. -/

namespace Bwsl
open Spec FloatFormat

set_option linter.unusedSectionVars false

section
variable {K : Type} [Field K] [LinearOrder K] [IsStrictOrderedRing K] [FloorRing K] {A : Arith K} {f : FloatFormat}

/-- If `v` is finite, it is 2^k times `u`. -/
def Spec.ScaledTo (f : FloatFormat) (k : Nat) (u v : Num A) : Prop :=
  ∀ y, v = .fin y → ∃ x, InFormat f x ∧ u = .fin x ∧ y = 2 ^ k * x

theorem round_format (hA : A.IsFormat f) {x y : K} (h : Num.round A x = .fin y) : y = f.rn x ∧ |f.rn x| < (2 : K) ^ f.emax := by
  have := Num.round_eq_fin h
  rw [hA, FloatFormat.rnd] at this
  split at this
  · next h => exact ⟨(Option.some.inj this).symm, h⟩
  · cases this

theorem scaledTo_round (hA : A.IsFormat f) (k : Nat) {x : K}
    (h : Mult f.emin x ∨ (2 : K) ^ (f.emin + (f.prec - 1)) ≤ |x|) :
    ScaledTo f k (Num.round A x) (Num.round A (2 ^ k * x)) := by
  intro y hy
  obtain ⟨rfl, hlt⟩ := round_format hA hy
  refine ⟨f.rn x, fl_inFormat x, Num.round_of ?_, ?_⟩
  · rw [hA, FloatFormat.rnd, if_pos ((fl_le_scale k x).trans_lt hlt)]
  · rcases h with h | h
    · exact fl_scale k h
    · exact fl_scale_normal k h

theorem scaledTo_fin (k : Nat) {x : K} (h : InFormat f x) : ScaledTo f k (.fin x : Num A) (.fin (2 ^ k * x)) := by
  rintro y ⟨⟩
  exact ⟨x, h, rfl, rfl⟩

theorem scaledTo_zero (k : Nat) : ScaledTo f k (CxxFloat.zero : Num A) CxxFloat.zero := by
  have := scaledTo_fin (A := A) (f := f) k (zero_value (K := K))
  rwa [mul_zero] at this

theorem scaledTo_add (hA : A.IsFormat f) {k : Nat} {u u' v v' : Num A} (h : ScaledTo f k u v) (h' : ScaledTo f k u' v') :
    ScaledTo f k (u + u') (v + v') := by
  intro y hy
  obtain ⟨a, b, rfl, rfl⟩ := Num.add_eq_fin hy
  obtain ⟨c, hc, rfl, rfl⟩ := h a rfl
  obtain ⟨d, hd, rfl, rfl⟩ := h' b rfl
  rw [Num.fin_add, ← mul_add] at hy
  rw [Num.fin_add]
  exact scaledTo_round hA k (.inl ((value_mult hc).add (value_mult hd))) y hy

theorem scaledTo_sub (hA : A.IsFormat f) {k : Nat} {u u' v v' : Num A} (h : ScaledTo f k u v) (h' : ScaledTo f k u' v') :
    ScaledTo f k (u - u') (v - v') := by
  intro y hy
  obtain ⟨a, b, rfl, rfl⟩ := sub_eq_fin hy
  obtain ⟨c, hc, rfl, rfl⟩ := h a rfl
  obtain ⟨d, hd, rfl, rfl⟩ := h' b rfl
  rw [Num.fin_sub, ← mul_sub] at hy
  rw [Num.fin_sub]
  exact scaledTo_round hA k (.inl ((value_mult hc).sub (value_mult hd))) y hy

/-- A quotient by a count; exact scaling above the smallest normal value. -/
theorem scaledTo_div (hA : A.IsFormat f) {k : Nat} {u v : Num A} (h : ScaledTo f k u v) (n : Nat) (hn : n < 2 ^ 64) {z : K}
    (hz : v / CxxFloat.ofNat n = .fin z) :
    ∃ m, u / CxxFloat.ofNat n = .fin m ∧ ((2 : K) ^ (f.emin + (f.prec - 1)) < |m| → z = 2 ^ k * m) := by
  rw [Num.ofNat_eq, count_round hA hn] at hz ⊢
  obtain ⟨y, rfl⟩ := div_eq_fin hz
  obtain ⟨x, hx, rfl, rfl⟩ := h y rfl
  by_cases h0 : f.rn (n : K) = 0
  · rw [h0] at hz
    have e : (.fin (2 ^ k * x) / .fin 0 : Num A) = if 2 ^ k * x = 0 then .nan else .inf (decide (2 ^ k * x < 0)) := if_pos rfl
    rw [e] at hz
    split at hz <;> cases hz
  · rw [Num.fin_div h0, mul_div_assoc] at hz
    rw [Num.fin_div h0]
    obtain ⟨rfl, hlt⟩ := round_format hA hz
    refine ⟨f.rn (x / f.rn (n : K)), Num.round_of ?_, fun hm => fl_scale_normal k (normal_of_rn hm)⟩
    rw [hA, FloatFormat.rnd, if_pos ((fl_le_scale k _).trans_lt hlt)]

/-! ## Kahan -/

theorem kahan_scaled (hA : A.IsFormat f) (k : Nat) (xs : List K) (hx : ∀ x ∈ xs, InFormat f x) (s t : Kahan (Num A))
    (h1 : ScaledTo f k s.sum t.sum) (h2 : ScaledTo f k s.c t.c) (h3 : t.count = s.count) :
    let s' := (xs.map .fin).foldl Kahan.addCore s
    let t' := (xs.map (fun x => .fin (2 ^ k * x))).foldl Kahan.addCore t
    ScaledTo f k s'.sum t'.sum ∧ t'.count = s'.count := by
  induction xs generalizing s t with
  | nil => exact ⟨h1, h3⟩
  | cons x xs ih =>
    have hy : ScaledTo f k (.fin x - s.c) (.fin (2 ^ k * x) - t.c) := scaledTo_sub hA (scaledTo_fin k (hx x List.mem_cons_self)) h2
    have ht : ScaledTo f k (s.sum + (.fin x - s.c)) (t.sum + (.fin (2 ^ k * x) - t.c)) := scaledTo_add hA h1 hy
    refine ih (fun y hy => hx y (List.mem_cons_of_mem _ hy)) (s.addCore (.fin x)) (t.addCore (.fin (2 ^ k * x))) ht ?_ ?_
    · exact scaledTo_sub hA (scaledTo_sub hA ht h1) hy
    · show succU t.count = succU s.count
      rw [h3]

/-- C181.  A `KahanAccumulator` that is given 2^k times every value reports the same count and, unless it overflows, 2^k times the
sum; the mean is 2^k times the mean as well if that is above the smallest normal value. -/
theorem C181_kahan (hA : A.IsFormat f) (k : Nat) (xs : List K) (hx : ∀ x ∈ xs, InFormat f x) (ops ops' : List (AccOp (Num A)))
    (h : sinceReset ops = xs.map .fin) (h' : sinceReset ops' = xs.map (fun x => .fin (2 ^ k * x))) :
    let s := runOps Kahan.addCore Kahan.reset (Kahan.new : Kahan (Num A)) ops
    let t := runOps Kahan.addCore Kahan.reset (Kahan.new : Kahan (Num A)) ops'
    t.getCount = s.getCount ∧ (∀ y, t.getSum = .fin y → ∃ x, s.getSum = .fin x ∧ y = 2 ^ k * x) ∧
      ∀ y, t.mean = .fin y → ∃ x, s.mean = .fin x ∧ ((2 : K) ^ (f.emin + (f.prec - 1)) < |x| → y = 2 ^ k * x) := by
  intro s t
  have e1 : s = _ := (C35_kahan ops).1
  have e2 : t = _ := (C35_kahan ops').1
  have hc : s.count < 2 ^ 64 := by
    have : s.getCount = _ := (C35_kahan ops).2
    show s.getCount < _
    rw [this]; exact Nat.mod_lt _ (by positivity)
  rw [h] at e1
  rw [h'] at e2
  obtain ⟨r1, r2⟩ := kahan_scaled hA k xs hx (Kahan.new : Kahan (Num A)) Kahan.new (scaledTo_zero k) (scaledTo_zero k) rfl
  rw [← e1, ← e2] at r1 r2
  refine ⟨r2, fun y hy => ?_, fun y hy => ?_⟩
  · obtain ⟨x, -, h1, h2⟩ := r1 y hy
    exact ⟨x, h1, h2⟩
  · unfold Kahan.mean at hy ⊢
    rw [r2] at hy
    exact scaledTo_div hA r1 _ hc hy

/-! ## Neumaier -/

theorem neumaier_step_scaled (hA : A.IsFormat f) {k : Nat} {x : K} (hx : InFormat f x) {s t : Neumaier (Num A)}
    (h1 : ScaledTo f k s.sum t.sum) (h2 : ScaledTo f k s.c t.c) (h3 : t.count = s.count) :
    ScaledTo f k (s.addCore (.fin x)).sum (t.addCore (.fin (2 ^ k * x))).sum ∧
    ScaledTo f k (s.addCore (.fin x)).c (t.addCore (.fin (2 ^ k * x))).c ∧
    (t.addCore (.fin (2 ^ k * x))).count = (s.addCore (.fin x)).count := by
  have hs := scaledTo_fin (A := A) k hx
  have ht : ScaledTo f k (s.sum + .fin x) (t.sum + .fin (2 ^ k * x)) := scaledTo_add hA h1 hs
  refine ⟨ht, ?_, by show succU t.count = succU s.count; rw [h3]⟩
  show ScaledTo f k
    (if CxxFloat.le (CxxFloat.abs (.fin x)) (CxxFloat.abs s.sum)
      then s.c + ((s.sum - (s.sum + .fin x)) + .fin x) else s.c + ((.fin x - (s.sum + .fin x)) + s.sum))
    (if CxxFloat.le (CxxFloat.abs (.fin (2 ^ k * x))) (CxxFloat.abs t.sum)
      then t.c + ((t.sum - (t.sum + .fin (2 ^ k * x))) + .fin (2 ^ k * x))
      else t.c + ((.fin (2 ^ k * x) - (t.sum + .fin (2 ^ k * x))) + t.sum))
  have A1 := scaledTo_add hA h2 (scaledTo_add hA (scaledTo_sub hA h1 ht) hs)
  have A2 := scaledTo_add hA h2 (scaledTo_add hA (scaledTo_sub hA hs ht) h1)
  cases hts : t.sum with
  | fin y =>
    obtain ⟨z, hz, e1, rfl⟩ := h1 y hts
    have hb : CxxFloat.le (CxxFloat.abs (.fin (2 ^ k * x) : Num A)) (CxxFloat.abs (.fin (2 ^ k * z))) =
        CxxFloat.le (CxxFloat.abs (.fin x : Num A)) (CxxFloat.abs s.sum) := by
      rw [e1]
      simp only [Num.abs_fin, Num.le_fin]
      rw [abs_mul, abs_mul, decide_eq_decide]
      exact mul_le_mul_iff_right₀ (abs_pos.2 (pow_ne_zero k two_ne_zero))
    rw [hb]
    rw [hts] at A1 A2
    split
    · exact A1
    · exact A2
  | nan =>
    intro y hy
    exfalso
    split at hy
    · obtain ⟨_, b, _, e⟩ := Num.add_eq_fin hy
      obtain ⟨c, _, e, _⟩ := Num.add_eq_fin e
      obtain ⟨_, _, e, _⟩ := sub_eq_fin e
      cases e
    · obtain ⟨_, b, _, e⟩ := Num.add_eq_fin hy
      obtain ⟨c, _, _, e⟩ := Num.add_eq_fin e
      cases e
  | inf n =>
    intro y hy
    exfalso
    split at hy
    · obtain ⟨_, b, _, e⟩ := Num.add_eq_fin hy
      obtain ⟨c, _, e, _⟩ := Num.add_eq_fin e
      obtain ⟨_, _, e, _⟩ := sub_eq_fin e
      cases e
    · obtain ⟨_, b, _, e⟩ := Num.add_eq_fin hy
      obtain ⟨c, _, _, e⟩ := Num.add_eq_fin e
      cases e

theorem neumaier_scaled (hA : A.IsFormat f) (k : Nat) (xs : List K) (hx : ∀ x ∈ xs, InFormat f x) (s t : Neumaier (Num A))
    (h1 : ScaledTo f k s.sum t.sum) (h2 : ScaledTo f k s.c t.c) (h3 : t.count = s.count) :
    let s' := (xs.map .fin).foldl Neumaier.addCore s
    let t' := (xs.map (fun x => .fin (2 ^ k * x))).foldl Neumaier.addCore t
    ScaledTo f k s'.getSum t'.getSum ∧ t'.getCount = s'.getCount := by
  induction xs generalizing s t with
  | nil => exact ⟨scaledTo_add hA h1 h2, h3⟩
  | cons x xs ih =>
    obtain ⟨r1, r2, r3⟩ := neumaier_step_scaled hA (hx x List.mem_cons_self) h1 h2 h3
    exact ih (fun y hy => hx y (List.mem_cons_of_mem _ hy)) _ _ r1 r2 r3

/-- C181.  A `NeumaierAccumulator` that is given 2^k times every value reports the same count and, unless it overflows, 2^k times
the sum; the mean is 2^k times the mean as well if that is above the smallest normal value. -/
theorem C181_neumaier (hA : A.IsFormat f) (k : Nat) (xs : List K) (hx : ∀ x ∈ xs, InFormat f x) (ops ops' : List (AccOp (Num A)))
    (h : sinceReset ops = xs.map .fin) (h' : sinceReset ops' = xs.map (fun x => .fin (2 ^ k * x))) :
    let s := runOps Neumaier.addCore Neumaier.reset (Neumaier.new : Neumaier (Num A)) ops
    let t := runOps Neumaier.addCore Neumaier.reset (Neumaier.new : Neumaier (Num A)) ops'
    t.getCount = s.getCount ∧ (∀ y, t.getSum = .fin y → ∃ x, s.getSum = .fin x ∧ y = 2 ^ k * x) ∧
      ∀ y, t.mean = .fin y → ∃ x, s.mean = .fin x ∧ ((2 : K) ^ (f.emin + (f.prec - 1)) < |x| → y = 2 ^ k * x) := by
  intro s t
  have e1 : s = _ := (C35_neumaier ops).1
  have e2 : t = _ := (C35_neumaier ops').1
  have hc : s.getCount < 2 ^ 64 := by
    have : s.getCount = _ := (C35_neumaier ops).2
    rw [this]; exact Nat.mod_lt _ (by positivity)
  rw [h] at e1
  rw [h'] at e2
  obtain ⟨r1, r2⟩ := neumaier_scaled hA k xs hx (Neumaier.new : Neumaier (Num A)) Neumaier.new (scaledTo_zero k) (scaledTo_zero k) rfl
  rw [← e1, ← e2] at r1 r2
  refine ⟨r2, fun y hy => ?_, fun y hy => ?_⟩
  · obtain ⟨x, -, h1, h2⟩ := r1 y hy
    exact ⟨x, h1, h2⟩
  · unfold Neumaier.mean at hy ⊢
    rw [r2] at hy
    exact scaledTo_div hA r1 _ hc hy

/-! ## Histograms -/

/-- C181.  A histogram that is given 2^k times every measurement has 2^k times the result in every bin, unless that overflows or
the result is not above the smallest normal value. -/
theorem C181_histogram (hA : A.IsFormat f) (k : Nat) (n : Nat) (hn : n < 2 ^ 64) (ops : List (HistOp K)) (ha : Addressed n ops)
    (hx : ∀ m ∈ measurements ops, InFormat f m.2) :
    ∃ s t : Hist (Num A), (Hist.new n).run (ops.map (HistOp.map .fin)) = .ok s ∧
      (Hist.new n).run (ops.map (HistOp.map (fun x => .fin (2 ^ k * x)))) = .ok t ∧ t.getNbins = s.getNbins ∧
      t.getCount = s.getCount ∧
      ∀ i, i < s.getNbins → ∃ u v, s.getResult i = .ok u ∧ t.getResult i = .ok v ∧
        ∀ y, v = .fin y → ∃ x, u = .fin x ∧ ((2 : K) ^ (f.emin + (f.prec - 1)) < |x| → y = 2 ^ k * x) := by
  have ha1 := (addressed_HistOp_map (.fin : K → Num A) n ops).2 ha
  have ha2 := (addressed_HistOp_map (fun x => (.fin (2 ^ k * x) : Num A)) n ops).2 ha
  obtain ⟨s, hs, -⟩ := hist_run (ops.map (HistOp.map (.fin : K → Num A))) (Hist.new n) [] (histInv_new n hn) ha1
  obtain ⟨t, ht, -⟩ := hist_run (ops.map (HistOp.map (fun x => (.fin (2 ^ k * x) : Num A)))) (Hist.new n) [] (histInv_new n hn) ha2
  obtain ⟨sb, si⟩ := hist_state n hn _ ha1 s hs
  obtain ⟨tb, ti⟩ := hist_state n hn _ ha2 t ht
  rw [measurements_HistOp_map] at si ti
  rw [binsAfter_HistOp_map] at sb tb
  have hnb : t.nbins = s.nbins := by rw [tb, sb]
  have hc : t.count = s.count := by rw [si.count, ti.count, List.length_map, List.length_map]
  refine ⟨s, t, hs, ht, hnb, hc, fun i hlt => ?_⟩
  obtain ⟨a, e1⟩ := si.get hlt
  obtain ⟨b, e2⟩ := ti.get (i := i) (by rw [hnb]; exact hlt)
  have v1 := si.bins i a e1
  have v2 := ti.bins i b e2
  rw [inBin_values] at v1
  rw [inBin_values (fun x => (.fin (2 ^ k * x) : Num A))] at v2
  have hxs : ∀ x ∈ inBin i (measurements ops), InFormat f x := by
    intro x hm
    unfold inBin at hm
    obtain ⟨m, hm', rfl⟩ := List.mem_map.1 hm
    exact hx m (List.mem_of_mem_filter hm')
  obtain ⟨r1, r2⟩ := neumaier_scaled hA k _ hxs (Neumaier.new : Neumaier (Num A)) Neumaier.new (scaledTo_zero k) (scaledTo_zero k) rfl
  rw [← v1, ← v2] at r1 r2
  unfold Hist.getResult
  rw [e1, e2]
  simp only [r2]
  split
  · refine ⟨_, _, rfl, rfl, fun y hy => ⟨0, rfl, fun h => ?_⟩⟩
    rw [abs_zero] at h
    exact absurd h (not_lt.2 (two_zpow_pos _).le)
  · refine ⟨_, _, rfl, rfl, fun y hy => ?_⟩
    rw [hc] at hy
    exact scaledTo_div hA r1 _ (by rw [si.count]; exact Nat.mod_lt _ (Nat.two_pow_pos 64)) hy

/-! ## LinSpace -/

theorem half_le_rn {x : K} (h0 : 0 ≤ x) (h : Mult f.emin x) : x / 2 ≤ f.rn x ∧ f.rn x ≤ 2 * x := by
  have hr := fl_rel h
  have hε := eps_small (K := K) (f := f)
  rw [abs_of_nonneg h0, abs_le, div_eq_mul_one_div] at hr
  generalize (1 : K) / 2 ^ f.prec = ε at *
  constructor <;> nlinarith

/-- C181.  Both ends of a LinSpace times 2^k: every value is 2^k times the value, unless it overflows, whether or not the product
is fused, if the step is in the normal range. -/
theorem C181_linspace (hA : A.IsFormat f) (k : Nat) (fused : Bool) {a b : K} (ha : InFormat f a) (hb : InFormat f b) (hab : a < b)
    (ha' : |2 ^ k * a| ≤ (2 : K) ^ (f.emax - 2)) (hb' : |2 ^ k * b| ≤ (2 : K) ^ (f.emax - 2)) (n : Nat) (hn0 : 0 < n)
    (hn : n < 2 ^ 64) (hstep : (2 : K) ^ (f.emin + (f.prec - 1)) * 4 ≤ (b - a) / n) :
    ∃ s t : LinSpace (Num A), LinSpace.new (.fin a) (.fin b) n = .ok s ∧
      LinSpace.new (.fin (2 ^ k * a)) (.fin (2 ^ k * b)) n = .ok t ∧
      ∀ i, i < 2 ^ 64 → ∀ y, ((LinSpace.incrContracted fused)^[i] t).deref = .fin y →
        ∃ x, ((LinSpace.incrContracted fused)^[i] s).deref = .fin x ∧ y = 2 ^ k * x := by
  have hk : (1 : K) ≤ 2 ^ k := one_le_pow₀ one_le_two
  have small : ∀ x : K, |2 ^ k * x| ≤ (2 : K) ^ (f.emax - 2) → |x| ≤ (2 : K) ^ (f.emax - 2) := by
    intro x h
    rw [abs_mul, abs_of_pos (by linarith : (0 : K) < 2 ^ k)] at h
    nlinarith [abs_nonneg x]
  have h1 := linSpace_step hA (small a ha') (small b hb') n hn0 hn
  have h2 := linSpace_step hA ha' hb' n hn0 hn
  have hnp : (0 : K) < n := by exact_mod_cast hn0
  have hn1 := rn_count_ge_one (f := f) (K := K) (k := n) hn0
  have hm : Mult f.emin (b - a) := (value_mult hb).sub (value_mult ha)
  -- the step
  have hq : (2 : K) ^ (f.emin + (f.prec - 1)) ≤ |f.rn (b - a) / f.rn (n : K)| := by
    have b1 := (half_le_rn (f := f) (by linarith : 0 ≤ b - a) hm).1
    have b2 := (half_le_rn (f := f) hnp.le (Mult.mono (e := 0) ⟨n, by simp⟩ (by have := f.emin_le; omega))).2
    rw [le_div_iff₀ hnp] at hstep
    rw [abs_of_nonneg (div_nonneg (by linarith) (by linarith)), le_div_iff₀ (by linarith)]
    have hp := two_zpow_pos (K := K) (f.emin + (f.prec - 1))
    generalize (2 : K) ^ (f.emin + (f.prec - 1)) = N at *
    nlinarith
  have e2 : f.rn (f.rn (2 ^ k * b - 2 ^ k * a) / f.rn (n : K)) = 2 ^ k * f.rn (f.rn (b - a) / f.rn (n : K)) := by
    rw [← mul_sub, fl_scale k hm, mul_div_assoc, fl_scale_normal k hq]
  rw [e2] at h2
  have hab' : 2 ^ k * a < 2 ^ k * b := by nlinarith
  have hst : InFormat f (f.rn (f.rn (b - a) / f.rn (n : K))) := fl_inFormat _
  generalize f.rn (f.rn (b - a) / f.rn (n : K)) = st at *
  refine ⟨⟨.fin a, .fin a, .fin b, .fin st, n, 0⟩,
    ⟨.fin (2 ^ k * a), .fin (2 ^ k * a), .fin (2 ^ k * b), .fin (2 ^ k * st), n, 0⟩, ?_, ?_, fun i hi y hy => ?_⟩
  · unfold LinSpace.new
    rw [Num.lt_fin, if_pos (decide_eq_true hab), h1]
  · unfold LinSpace.new
    rw [Num.lt_fin, if_pos (decide_eq_true hab'), h2]
  · have key : ScaledTo f k
        ((LinSpace.incrContracted fused)^[i] (⟨.fin a, .fin a, .fin b, .fin st, n, 0⟩ : LinSpace (Num A))).deref
        ((LinSpace.incrContracted fused)^[i]
          (⟨.fin (2 ^ k * a), .fin (2 ^ k * a), .fin (2 ^ k * b), .fin (2 ^ k * st), n, 0⟩ : LinSpace (Num A))).deref := by
      rcases Nat.eq_zero_or_pos i with rfl | hi0
      · exact scaledTo_fin k ha
      · rw [linSpace_value_fused fused _ _ _ _ _ hi0 hi, linSpace_value_fused fused _ _ _ _ _ hi0 hi, Num.ofNat_eq,
          count_round hA hi]
        have hi' : Mult f.emin (st * f.rn (i : K)) := by
          obtain ⟨m, hm⟩ := value_mult hst
          obtain ⟨j, hj⟩ := fl_mult (f := f) (x := (i : K)) (k := 0) ⟨i, by simp⟩
          rw [zpow_zero, mul_one] at hj
          exact ⟨m * j, by rw [hm, hj]; push_cast; ring⟩
        cases fused with
        | false =>
          show ScaledTo f k ((.fin a : Num A) + .fin st * .fin (f.rn (i : K)))
            ((.fin (2 ^ k * a) : Num A) + .fin (2 ^ k * st) * .fin (f.rn (i : K)))
          refine scaledTo_add hA (scaledTo_fin k ha) ?_
          rw [Num.fin_mul, Num.fin_mul, mul_assoc]
          exact scaledTo_round hA k (.inl hi')
        | true =>
          rw [mulAdd_fin, mulAdd_fin, mul_assoc, ← mul_add]
          exact scaledTo_round hA k (.inl (hi'.add (value_mult ha)))
    obtain ⟨x, -, h1, h2⟩ := key y hy
    exact ⟨x, h1, h2⟩

/-! ## Interpolation -/

theorem scaledTo_mul (hA : A.IsFormat f) (k : Nat) {u : Num A} {x : K}
    (h : ∀ w, u = .fin w → w * x = 0 ∨ (2 : K) ^ (f.emin + (f.prec - 1)) ≤ |w * x|) :
    ScaledTo f k (u * .fin x) (u * .fin (2 ^ k * x)) := by
  intro y hy
  cases u with
  | nan => cases hy
  | inf n =>
    have e : (.inf n * .fin (2 ^ k * x) : Num A) = if 2 ^ k * x = 0 then .nan else .inf (n ^^ decide (2 ^ k * x < 0)) := rfl
    rw [e] at hy
    split at hy <;> cases hy
  | fin w =>
    rw [Num.fin_mul, mul_left_comm] at hy
    rw [Num.fin_mul]
    refine scaledTo_round hA k ?_ y hy
    rcases h w rfl with h | h
    · left; rw [h]; exact ⟨0, by simp⟩
    · exact .inr h

/-- C181.  Interpolation between 2^k times the values gives 2^k times the value, unless it overflows, if each product is zero or in
the normal range. -/
theorem C181_lerp (hA : A.IsFormat f) (k : Nat) (a b t : K)
    (h1 : ∀ w, (CxxFloat.ofInt 1 - .fin t : Num A) = .fin w → w * a = 0 ∨ (2 : K) ^ (f.emin + (f.prec - 1)) ≤ |w * a|)
    (h2 : t * b = 0 ∨ (2 : K) ^ (f.emin + (f.prec - 1)) ≤ |t * b|) (y : K)
    (hy : lerp (.fin (2 ^ k * a) : Num A) (.fin (2 ^ k * b)) (.fin t) = .fin y) :
    ∃ x, lerp (.fin a : Num A) (.fin b) (.fin t) = .fin x ∧ y = 2 ^ k * x := by
  obtain ⟨x, -, h1, h2⟩ := scaledTo_add hA (scaledTo_mul hA k h1)
    (scaledTo_mul hA k (u := (.fin t : Num A)) (x := b) (by rintro w ⟨⟩; exact h2)) y hy
  exact ⟨x, h1, h2⟩

end

section
variable {A : Arith ℝ} {f : FloatFormat}

/-! ## Norms -/

theorem fma_eq_fin {x y z : ℝ} {d : Num A} (h : Num.fma (.fin x) (.fin y) d = .fin z) : ∃ r, d = .fin r := by
  cases d with
  | nan => cases h
  | inf n => cases h
  | fin r => exact ⟨r, rfl⟩

theorem squares_scaled (hA : A.IsFormat f) (k : Nat) (fused : Bool) (v : List ℝ)
    (hv : ∀ x ∈ v, x = 0 ∨ (2 : ℝ) ^ (f.emin + (f.prec - 1)) ≤ x ^ 2) (c d : Num A) (h : ScaledTo f (2 * k) c d)
    (h0 : ∀ x, c = .fin x → 0 ≤ x) :
    ScaledTo f (2 * k) ((v.map .fin).foldl (fun d x => mulAdd fused x x d) c)
      ((v.map (fun x => .fin (2 ^ k * x))).foldl (fun d x => mulAdd fused x x d) d) ∧
    ∀ x, (v.map .fin).foldl (fun d x => mulAdd fused x x d) c = .fin x → 0 ≤ x := by
  induction v generalizing c d with
  | nil => exact ⟨h, h0⟩
  | cons x v ih =>
    have hx := hv x List.mem_cons_self
    have e2 : (2 ^ k * x) * (2 ^ k * x) = 2 ^ (2 * k) * (x * x) := by rw [pow_mul', pow_two]; ring
    have sq : ScaledTo f (2 * k) (.fin x * .fin x : Num A) (.fin (2 ^ k * x) * .fin (2 ^ k * x)) := by
      rw [Num.fin_mul, Num.fin_mul, e2]
      refine scaledTo_round hA _ ?_
      rcases hx with rfl | hx
      · left; rw [mul_zero]; exact ⟨0, by simp⟩
      · right; rwa [abs_of_nonneg (mul_self_nonneg x), ← pow_two]
    refine ih (fun y hy => hv y (List.mem_cons_of_mem _ hy)) _ _ ?_ ?_
    · cases fused with
      | false => exact scaledTo_add hA h sq
      | true =>
        intro y hy
        have hy' : Num.fma (.fin (2 ^ k * x)) (.fin (2 ^ k * x)) d = .fin y := hy
        obtain ⟨r, rfl⟩ := fma_eq_fin hy'
        obtain ⟨q, hq, rfl, rfl⟩ := h r rfl
        have hy'' : Num.round A ((2 ^ k * x) * (2 ^ k * x) + 2 ^ (2 * k) * q) = .fin y := hy
        rw [e2, ← mul_add] at hy''
        show ∃ z, InFormat f z ∧ Num.round A (x * x + q) = .fin z ∧ y = 2 ^ (2 * k) * z
        refine scaledTo_round hA _ ?_ y hy''
        have hq0 := h0 q rfl
        rcases hx with rfl | hx
        · left; rw [mul_zero, zero_add]; exact value_mult hq
        · right
          rw [abs_of_nonneg (add_nonneg (mul_self_nonneg x) hq0), ← pow_two]
          linarith
    · intro z hz
      cases fused with
      | false =>
        have hz' : c + .fin x * .fin x = .fin z := hz
        obtain ⟨q, p, rfl, hp⟩ := Num.add_eq_fin hz'
        rw [hp, Num.fin_add] at hz'
        rw [Num.fin_mul] at hp
        obtain ⟨rfl, -⟩ := round_format hA hz'
        obtain ⟨rfl, -⟩ := round_format hA hp
        exact fl_nonneg (add_nonneg (h0 q rfl) (fl_nonneg (mul_self_nonneg x)))
      | true =>
        have hz' : Num.fma (.fin x) (.fin x) c = .fin z := hz
        obtain ⟨q, rfl⟩ := fma_eq_fin hz'
        have hz2 : Num.round A (x * x + q) = .fin z := hz
        obtain ⟨rfl, -⟩ := round_format hA hz2
        exact fl_nonneg (add_nonneg (mul_self_nonneg x) (h0 q rfl))

/-- C181.  sum_squared of 2^k times the numbers is 4^k times the sum, and l2norm is 2^k times the norm, whether or not
products are fused, unless they overflow, if each square is zero or in the normal range. -/
theorem C181_norm (hA : A.IsFormat f) (hS : A.sqrt = Real.sqrt) (k : Nat) (fused : Bool) (v : List ℝ)
    (hv : ∀ x ∈ v, x = 0 ∨ (2 : ℝ) ^ (f.emin + (f.prec - 1)) ≤ x ^ 2) :
    (∀ y, sumSquared (v.map (fun x => (.fin (2 ^ k * x) : Num A))) = .fin y →
      ∃ x, sumSquared (v.map (.fin : ℝ → Num A)) = .fin x ∧ y = 4 ^ k * x) ∧
    ∀ y, l2normContracted fused (v.map (fun x => (.fin (2 ^ k * x) : Num A))) = .fin y →
      ∃ x, l2normContracted fused (v.map (.fin : ℝ → Num A)) = .fin x ∧ y = 2 ^ k * x := by
  obtain ⟨r1, r2⟩ := squares_scaled hA k fused v hv (CxxFloat.zero : Num A) CxxFloat.zero (scaledTo_zero _)
    (by rintro x ⟨⟩; exact le_rfl)
  constructor
  · intro y hy
    rw [sumSquared_zero hA] at hy ⊢
    obtain ⟨x, -, h1, h2⟩ := (squares_scaled hA k false v hv (CxxFloat.zero : Num A) CxxFloat.zero (scaledTo_zero _)
      (by rintro x ⟨⟩; exact le_rfl)).1 y hy
    refine ⟨x, h1, ?_⟩
    rw [h2, pow_mul]
    norm_num
  · intro y hy
    unfold l2normContracted at hy ⊢
    generalize (v.map (.fin : ℝ → Num A)).foldl (fun d x => mulAdd fused x x d) CxxFloat.zero = c at *
    generalize (v.map (fun x => (.fin (2 ^ k * x) : Num A))).foldl (fun d x => mulAdd fused x x d) CxxFloat.zero = d at *
    have hd : ∃ r, d = .fin r := by
      cases d with
      | nan => cases hy
      | inf n => cases n <;> cases hy
      | fin r => exact ⟨r, rfl⟩
    obtain ⟨r, rfl⟩ := hd
    obtain ⟨q, hq, rfl, rfl⟩ := r1 r rfl
    have hq0 := r2 q rfl
    rw [Num.sqrt_fin (by positivity), hS, pow_mul', Real.sqrt_mul (by positivity), Real.sqrt_sq (by positivity)] at hy
    rw [Num.sqrt_fin hq0, hS]
    obtain ⟨x, -, h1, h2⟩ := scaledTo_round hA k (x := √q) (by
      rcases hq0.eq_or_lt with rfl | hpos
      · left; rw [Real.sqrt_zero]; exact ⟨0, by simp⟩
      · right
        rw [abs_of_nonneg (Real.sqrt_nonneg _)]
        refine Real.le_sqrt_of_sq_le ?_
        obtain ⟨m, hm⟩ := value_mult hq
        have hp := two_zpow_pos (K := ℝ) f.emin
        have hm1 : (1 : ℝ) ≤ m := by
          have : (0 : ℝ) < m := by
            by_contra hc
            rw [hm] at hpos
            nlinarith [not_lt.1 hc]
          have : 0 < m := by exact_mod_cast this
          exact_mod_cast this
        have : (2 : ℝ) ^ f.emin ≤ q := by rw [hm]; nlinarith
        refine le_trans ?_ this
        rw [← zpow_natCast, ← zpow_mul]
        refine zpow_le_zpow_right₀ one_le_two ?_
        have := f.emin_le
        push_cast
        omega) y hy
    exact ⟨x, h1, h2⟩

/-! ## Weighted choices -/

theorem go_scaled (hA : A.IsFormat f) (k : Nat) (ws : List ℝ) (hw : ∀ w ∈ ws, InFormat f w) (a : ℝ) (ha : InFormat f a) (cs : List ℝ)
    (hc : ∀ c ∈ cs, |2 ^ k * c| < (2 : ℝ) ^ f.emax)
    (h : partialSums.go (.fin a : Num A) (ws.map .fin) = cs.map .fin) :
    partialSums.go (.fin (2 ^ k * a) : Num A) ((ws.map (2 ^ k * ·)).map .fin) = (cs.map (2 ^ k * ·)).map .fin := by
  induction ws generalizing a cs with
  | nil =>
    cases cs with
    | nil => rfl
    | cons c cs => cases h
  | cons w ws ih =>
    cases cs with
    | nil => cases h
    | cons c cs =>
      simp only [List.map_cons, partialSums.go, List.cons.injEq] at h ⊢
      obtain ⟨h1, h2⟩ := h
      rw [h1] at h2
      rw [Num.fin_add] at h1
      obtain ⟨rfl, -⟩ := round_format hA h1
      have hm : Mult f.emin (a + w) := (value_mult ha).add (value_mult (hw w List.mem_cons_self))
      have e : (.fin (2 ^ k * a) + .fin (2 ^ k * w) : Num A) = .fin (2 ^ k * f.rn (a + w)) := by
        rw [Num.fin_add, ← mul_add, ← fl_scale k hm]
        refine Num.round_of ?_
        rw [hA, FloatFormat.rnd, if_pos]
        rw [fl_scale k hm]
        exact hc _ List.mem_cons_self
      rw [e]
      exact ⟨rfl, ih (fun x hx => hw x (List.mem_cons_of_mem _ hx)) _ (fl_inFormat _) cs
        (fun c hc' => hc c (List.mem_cons_of_mem _ hc')) h2⟩

theorem sumsIn_scaled (hA : A.IsFormat f) (k : Nat) {ws cs : List ℝ} {total : ℝ} (h : SumsIn A f ws cs total)
    (ht : 2 ^ k * total < (2 : ℝ) ^ f.emax) :
    SumsIn A f (ws.map (2 ^ k * ·)) (cs.map (2 ^ k * ·)) (2 ^ k * total) := by
  obtain ⟨s1, s2, s3, s4⟩ := sums_in hA h
  have hk : (0 : ℝ) < 2 ^ k := by positivity
  have hc : ∀ c ∈ cs, |2 ^ k * c| < (2 : ℝ) ^ f.emax := by
    intro c hc
    rw [abs_of_nonneg (mul_nonneg hk.le (s3 c hc).2)]
    exact (mul_le_mul_of_nonneg_left (last_le s1 h.last c hc) hk.le).trans_lt ht
  refine ⟨?_, ?_, ?_, ?_⟩
  · intro w hw
    obtain ⟨v, hv, rfl⟩ := List.mem_map.1 hw
    exact mul_nonneg hk.le (h.nonneg v hv)
  · intro w hw
    obtain ⟨v, hv, rfl⟩ := List.mem_map.1 hw
    refine ⟨value_scale k (h.finite v hv).1, ?_⟩
    obtain ⟨i, hi, rfl⟩ := List.getElem_of_mem hv
    have hi' : i < cs.length := by omega
    obtain ⟨a, ha⟩ : ∃ a, (0 :: cs)[i]? = some a := ⟨_, List.getElem?_eq_getElem (by rw [List.length_cons]; omega)⟩
    have h3 := s4 i a cs[i] ws[i] ha (List.getElem?_eq_getElem hi') (List.getElem?_eq_getElem hi)
    have ha0 : 0 ≤ a := by
      rcases List.mem_cons.1 (List.mem_of_getElem? ha) with h | h
      · exact h.ge
      · exact (s3 a h).2
    have hle : ws[i] ≤ cs[i] := by
      rw [h3]
      have := fl_mono (f := f) (show ws[i] ≤ a + ws[i] by linarith)
      rwa [fl_value (h.finite _ hv).1] at this
    have hw0 := h.nonneg _ hv
    refine lt_of_le_of_lt ?_ (hc cs[i] (List.getElem_mem hi'))
    rw [abs_of_nonneg (mul_nonneg hk.le hw0), abs_of_nonneg (mul_nonneg hk.le (hw0.trans hle))]
    exact mul_le_mul_of_nonneg_left hle hk.le
  · have hs := h.sums
    cases ws with
    | nil =>
      have : cs = [] := by simpa [partialSums] using hs.symm
      subst this; rfl
    | cons w ws =>
      cases cs with
      | nil => simp [partialSums] at hs
      | cons c cs =>
        simp only [List.map_cons, partialSums, List.cons.injEq, Num.fin.injEq] at hs ⊢
        obtain ⟨rfl, hs⟩ := hs
        exact ⟨rfl, go_scaled hA k ws (fun x hx => (h.finite x (List.mem_cons_of_mem _ hx)).1) w
          (h.finite w List.mem_cons_self).1 cs (fun c hc' => hc c (List.mem_cons_of_mem _ hc')) hs⟩
  · rw [List.getLast?_map, h.last]; rfl

/-- C181.  Only the ratios of the weights matter: multiplying all of them by 2^k does not change the index `choose_between` returns,
if the sums do not overflow and the total is far enough from the smallest normal value. -/
theorem C181_choice (hA : A.IsFormat f) (hf : Roomy f) (k : Nat) {ws cs : List ℝ} {total : ℝ} (h : SumsIn A f ws cs total)
    (ht : 2 ^ k * total < (2 : ℝ) ^ f.emax) {w : Nat} {xs : List Nat} (hx : Drawn f w xs)
    (hp : (2 : ℝ) ^ (f.emin + (f.prec - 1) + (w * canonicalCount f.prec w : Nat)) < total) :
    ∃ i, ∃ _ : i < ws.length, chooseBetween (ws.map (Num.fin (A := A))) (drawIn f.prec w xs) = .ok i ∧
      chooseBetween ((ws.map (2 ^ k * ·)).map (Num.fin (A := A))) (drawIn f.prec w xs) = .ok i := by
  have h' := sumsIn_scaled hA k h ht
  have hk : (0 : ℝ) < 2 ^ k := by positivity
  obtain ⟨s1, s2, s3, _⟩ := sums_in hA h
  obtain ⟨s1', s2', s3', _⟩ := sums_in hA h'
  obtain ⟨t1, t3⟩ := s3 total (List.mem_of_getLast? h.last)
  obtain ⟨t1', t3'⟩ := s3' _ (List.mem_of_getLast? h'.last)
  obtain ⟨b1, b2, _⟩ := bits_bounds hf hx.pos hx.le
  obtain ⟨j1, _⟩ := (C156_outputs w (canonicalCount f.prec w)).2.2 xs hx.count hx.range
  have d0 := C156_draw hA hf hx.pos hx.le xs hx.count hx.range t1 t3
  have d1 := C156_draw hA hf hx.pos hx.le xs hx.count hx.range t1' t3'
  have hp' : (2 : ℝ) ^ (f.emin + (f.prec - 1)) < total :=
    (zpow_le_zpow_right₀ one_le_two (by omega)).trans_lt hp
  obtain ⟨r0, r1⟩ := C156_below b2 j1 t1.1 hp'
  obtain ⟨_, u0, u1, _⟩ := C156_unit b2 j1
  -- the draw
  have hdraw : f.rn (unitIn f (w * canonicalCount f.prec w) (joined w xs) * (2 ^ k * total)) =
      2 ^ k * f.rn (unitIn f (w * canonicalCount f.prec w) (joined w xs) * total) := by
    rw [mul_left_comm]
    rcases u0.eq_or_lt with hu | hu
    · rw [← hu, zero_mul, mul_zero, fl_zero, mul_zero]
    · refine fl_scale_normal k ?_
      have hu1 : 1 / (2 : ℝ) ^ (w * canonicalCount f.prec w) ≤ unitIn f (w * canonicalCount f.prec w) (joined w xs) := by
        unfold unitIn at hu ⊢
        generalize w * canonicalCount f.prec w = W at *
        split
        · have hε := eps_small (K := ℝ) (f := f)
          have h2 : 1 / (2 : ℝ) ^ W ≤ 1 / 2 ^ f.prec :=
            one_div_le_one_div_of_le (by positivity) (pow_le_pow_right₀ one_le_two b1)
          linarith
        · next hne =>
          rw [if_neg hne] at hu
          refine div_le_div_of_nonneg_right ?_ (by positivity)
          rcases Nat.eq_zero_or_pos (joined w xs) with hz | hz
          · rw [hz, Nat.cast_zero, fl_zero, zero_div] at hu; exact absurd hu (lt_irrefl _)
          · exact rn_count_ge_one hz
      rw [abs_of_nonneg (mul_nonneg u0 t3)]
      rw [zpow_add₀ two_ne_zero, zpow_natCast] at hp
      have hW : (0 : ℝ) < 2 ^ (w * canonicalCount f.prec w) := by positivity
      generalize (2 : ℝ) ^ (w * canonicalCount f.prec w) = P at *
      have hN := two_zpow_pos (K := ℝ) (f.emin + (f.prec - 1))
      generalize (2 : ℝ) ^ (f.emin + ((f.prec : Int) - 1)) = N at *
      calc N = 1 / P * (N * P) := by field_simp
        _ ≤ _ := mul_le_mul hu1 hp.le (by positivity) u0
  rw [hdraw] at d1
  obtain ⟨i, hi, e1, -⟩ := choice_positive hA h r0 r1 _ d0
  refine ⟨i, hi, e1, ?_⟩
  obtain ⟨a, ha⟩ : ∃ a, (0 :: cs)[i]? = some a := ⟨_, List.getElem?_eq_getElem (by rw [List.length_cons]; omega)⟩
  obtain ⟨c, hc⟩ : ∃ c, cs[i]? = some c := ⟨_, List.getElem?_eq_getElem (by omega)⟩
  obtain ⟨q1, q2⟩ := (choice_iff hA h r0 r1 _ d0 ha hc).1 e1
  have ha' : (0 :: cs.map (2 ^ k * ·))[i]? = some (2 ^ k * a) := by
    have : 0 :: cs.map ((2 : ℝ) ^ k * ·) = (0 :: cs).map ((2 : ℝ) ^ k * ·) := by simp
    rw [this, List.getElem?_map, ha]; rfl
  have hc' : (cs.map ((2 : ℝ) ^ k * ·))[i]? = some (2 ^ k * c) := by rw [List.getElem?_map, hc]; rfl
  refine (choice_iff hA h' (mul_nonneg hk.le r0) (mul_lt_mul_of_pos_left r1 hk) _ d1 ha' hc').2 ⟨mul_lt_mul_of_pos_left q1 hk, ?_⟩
  rw [not_lt] at q2 ⊢
  exact mul_le_mul_of_nonneg_left q2 hk.le

/-! ### The hypotheses are met -/

example : sinceReset [AccOp.add (.fin (5 : ℝ) : Num A), .reset, .add (.fin 1), .add (.fin 3)] = [1, 3].map .fin ∧
    sinceReset [AccOp.add (.fin ((2 : ℝ) ^ 4 * 1) : Num A), .add (.fin (2 ^ 4 * 3))] = [1, 3].map (fun x => .fin (2 ^ 4 * x)) ∧
    ∀ x ∈ [(1 : ℝ), 3], InFormat FloatFormat.double x := by
  refine ⟨rfl, rfl, fun x hx => ?_⟩
  simp only [List.mem_cons, List.not_mem_nil, or_false] at hx
  rcases hx with rfl | rfl
  · exact ⟨1, 0, by norm_num [FloatFormat.double], by decide, by norm_num⟩
  · exact ⟨3, 0, by norm_num [FloatFormat.double], by decide, by norm_num⟩

/-- The values 0, 1 and 2^3 times them, four of them. -/
example : (2 : ℝ) ^ (FloatFormat.float.emin + (FloatFormat.float.prec - 1)) * 4 ≤ (1 - 0) / (4 : Nat) ∧
    |(2 : ℝ) ^ 3 * 1| ≤ (2 : ℝ) ^ (FloatFormat.float.emax - 2) := by
  constructor <;> norm_num [FloatFormat.float]

example (hA : A.IsFormat .double) : SumsIn A .double [1, 0] [1, 1] 1 ∧ (2 : ℝ) ^ 5 * 1 < 2 ^ FloatFormat.double.emax ∧
    Drawn .double 64 [7] ∧
    (2 : ℝ) ^ (FloatFormat.double.emin + (FloatFormat.double.prec - 1) +
      (64 * canonicalCount FloatFormat.double.prec 64 : Nat)) < 1 := by
  have h1 : FiniteIn FloatFormat.double (1 : ℝ) :=
    ⟨one_value, by rw [abs_one]; exact one_lt_zpow₀ one_lt_two (by decide)⟩
  have h0 : FiniteIn FloatFormat.double (0 : ℝ) := ⟨zero_value, by rw [abs_zero]; exact two_zpow_pos _⟩
  refine ⟨⟨?_, ?_, ?_, rfl⟩, ?_, ⟨by decide, by decide, by decide, by decide⟩, ?_⟩
  · simp
  · simp [h0, h1]
  · show [(Num.fin 1 : Num A), (.fin 1 : Num A) + .fin 0] = _
    rw [Num.fin_add, add_zero, Num.round_of (rnd_finite hA h1)]
    rfl
  · have : (2 : ℝ) ^ 5 * 1 = (2 : ℝ) ^ (5 : Int) := by norm_num
    rw [this]
    exact zpow_lt_zpow_right₀ one_lt_two (by decide)
  · exact zpow_lt_one_of_neg₀ one_lt_two (by decide)

end
end Bwsl
