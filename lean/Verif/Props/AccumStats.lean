import Verif.Props.AccumCount
import Mathlib.Tactic.LinearCombination
import Mathlib.Tactic.FieldSimp

/-! Properties C39, C41, C42, C43: means and variances. -/

namespace Bwsl
open Spec

set_option linter.unusedSectionVars false

section
variable {K : Type} [Field K] [LinearOrder K] [IsStrictOrderedRing K] {A : Arith K}

/-! ### Textbook identities -/

theorem cast_sum (xs : List Int) : ((xs.map (Int.cast : Int → K)).sum : K) = (xs.sum : K) := by
  induction xs with
  | nil => simp
  | cons x xs ih => rw [List.map_cons, List.sum_cons, ih, List.sum_cons]; push_cast; rfl

/-- sum of squares -/
def sumSq (xs : List K) : K := (xs.map (fun x => x ^ 2)).sum

theorem sum_sq_dev (xs : List K) (a : K) :
    (xs.map (fun x => (x - a) ^ 2)).sum = sumSq xs - 2 * a * xs.sum + xs.length * a ^ 2 := by
  unfold sumSq
  induction xs with
  | nil => simp
  | cons x xs ih =>
    simp only [List.map_cons, List.sum_cons, ih, List.length_cons]
    push_cast; ring

theorem length_ne {xs : List K} (h : xs ≠ []) : (xs.length : K) ≠ 0 := by
  have : xs.length ≠ 0 := by simpa using h
  exact_mod_cast this

theorem sqDev_eq (xs : List K) : sqDev xs = sumSq xs - xs.sum ^ 2 / xs.length := by
  rcases eq_or_ne xs [] with rfl | h
  · simp [sqDev, sumSq]
  · have hn := length_ne h
    unfold sqDev
    rw [sum_sq_dev]
    unfold avg
    field_simp
    ring

theorem sqDev_nonneg (xs : List K) : 0 ≤ sqDev xs := by
  unfold sqDev
  refine List.sum_nonneg ?_
  intro y hy
  obtain ⟨x, _, rfl⟩ := List.mem_map.1 hy
  positivity

theorem avg_perm {xs ys : List K} (h : xs.Perm ys) : avg xs = avg ys := by
  unfold avg; rw [h.sum_eq, h.length_eq]

theorem sqDev_perm {xs ys : List K} (h : xs.Perm ys) : sqDev xs = sqDev ys := by
  unfold sqDev; rw [avg_perm h, (h.map _).sum_eq]

/-! ### KnuthWelford -/

theorem kw_step (hA : A.IsExact) (m q x : K) (n : Nat) (hn : n + 1 < W64) :
    KnuthWelford.addCore (⟨.fin m, .fin q, n⟩ : KnuthWelford (Num A)) (.fin x) =
      ⟨.fin (m + (x - m) / (n + 1)), .fin (q + (x - m) * (x - (m + (x - m) / (n + 1)))), n + 1⟩ := by
  have h1 : succU n = n + 1 := Nat.mod_eq_of_lt hn
  have h2 : ((n + 1 : Nat) : K) ≠ 0 := by exact_mod_cast Nat.succ_ne_zero n
  unfold KnuthWelford.addCore
  simp only [h1, Num.fin_sub, Num.round_exact hA, Num.ofNat_eq]
  rw [Num.fin_div h2, Num.round_exact hA, Num.fin_add, Num.round_exact hA, Num.fin_sub, Num.round_exact hA,
    Num.fin_mul, Num.round_exact hA, Num.fin_add, Num.round_exact hA]
  push_cast; rfl

/-- The state after adding `xs` to a fresh object. -/
theorem kw_run (hA : A.IsExact) (xs : List K) (hn : xs.length < W64) :
    (xs.map .fin).foldl KnuthWelford.addCore (KnuthWelford.new : KnuthWelford (Num A)) =
      ⟨.fin (avg xs), .fin (sqDev xs), xs.length⟩ := by
  induction xs using List.reverseRecOn with
  | nil => simp [KnuthWelford.new, avg, sqDev, Num.zero_eq]
  | append_singleton xs x ih =>
    rw [List.length_append, List.length_singleton] at hn
    rw [List.map_append, List.foldl_append, ih (by omega), List.map_singleton, List.foldl_cons, List.foldl_nil,
      kw_step hA _ _ _ _ hn, List.length_append, List.length_singleton]
    have hn1 : ((xs.length : K) + 1) ≠ 0 := by exact_mod_cast Nat.succ_ne_zero xs.length
    have hm : avg xs + (x - avg xs) / (xs.length + 1) = avg (xs ++ [x]) := by
      rcases eq_or_ne xs [] with rfl | h
      · simp [avg]
      · have := length_ne h
        unfold avg
        rw [List.sum_append, List.length_append, List.sum_singleton, List.length_singleton]
        push_cast
        field_simp; ring
    rw [hm]
    congr 2
    rw [sqDev_eq, sqDev_eq, ← hm]
    have e : sumSq (xs ++ [x]) = sumSq xs + x ^ 2 := by unfold sumSq; simp
    rw [e, List.sum_append, List.length_append, List.sum_singleton, List.length_singleton]
    rcases eq_or_ne xs [] with rfl | h
    · simp [avg]
    · have := length_ne h
      unfold avg
      push_cast
      field_simp; ring

/-- C39.  In exact arithmetic, after any history in which `xs` are the values added since the last `Reset`:
the mean, the sum, the sum of squared deviations and the two variances. -/
theorem C39_statistics (hA : A.IsExact) (ops : List (AccOp (Num A))) (xs : List K)
    (hxs : sinceReset ops = xs.map .fin) (hn : xs.length < 2 ^ 64) (h2 : 2 ≤ xs.length)
    (s : KnuthWelford (Num A))
    (hs : s = runOps KnuthWelford.addCore KnuthWelford.reset KnuthWelford.new ops) :
    s.getMean = .fin (avg xs) ∧ s.sum = .fin xs.sum ∧ s.scaledVariance = .fin (sqDev xs) ∧
    s.variance false = .fin (sqDev xs / xs.length) ∧
    s.variance true = .fin (sqDev xs / (xs.length - 1)) := by
  rw [(C35_knuthWelford ops).1, hxs, kw_run hA xs hn] at hs
  subst hs
  have hne : (xs.length : K) ≠ 0 := by
    have : xs.length ≠ 0 := by omega
    exact_mod_cast this
  have hu : usub xs.length 1 = xs.length - 1 := by unfold usub; omega
  have hne' : ((xs.length - 1 : Nat) : K) ≠ 0 := by
    have : xs.length - 1 ≠ 0 := by omega
    exact_mod_cast this
  have hl : ¬ xs.length < 2 := by omega
  refine ⟨rfl, ?_, ?_, ?_, ?_⟩
  · simp only [KnuthWelford.sum, KnuthWelford.getCount, Num.ofNat_eq, Num.fin_mul, Num.round_exact hA]
    unfold avg; rw [div_mul_cancel₀ _ hne]
  · simp only [KnuthWelford.scaledVariance, if_neg hl]
  · simp only [KnuthWelford.variance, if_neg hl, Bool.false_eq_true, if_false, Num.ofNat_eq,
      Num.round_exact hA, Num.fin_div hne]
  · have hc : ((xs.length - 1 : Nat) : K) = (xs.length : K) - 1 := by
      rw [Nat.cast_sub (by omega), Nat.cast_one]
    rw [hc] at hne'
    simp only [KnuthWelford.variance, if_neg hl, if_true, Num.ofNat_eq, hu, Num.round_exact hA,
      hc, Num.fin_div hne']

/-- C39.  Mean and sum of at least one value. -/
theorem C39_mean (hA : A.IsExact) (ops : List (AccOp (Num A))) (xs : List K)
    (hxs : sinceReset ops = xs.map .fin) (hn : xs.length < 2 ^ 64)
    (s : KnuthWelford (Num A))
    (hs : s = runOps KnuthWelford.addCore KnuthWelford.reset KnuthWelford.new ops) :
    s.getMean = .fin (avg xs) ∧ s.sum = .fin xs.sum := by
  rw [(C35_knuthWelford ops).1, hxs, kw_run hA xs hn] at hs
  subst hs
  refine ⟨rfl, ?_⟩
  simp only [KnuthWelford.sum, KnuthWelford.getCount, Num.ofNat_eq, Num.fin_mul, Num.round_exact hA]
  rcases eq_or_ne xs [] with rfl | h
  · simp
  · unfold avg; rw [div_mul_cancel₀ _ (length_ne h)]

/-- C39.  The variances are nonnegative. -/
theorem C39_nonneg (xs : List K) (h2 : 2 ≤ xs.length) :
    0 ≤ sqDev xs ∧ 0 ≤ sqDev xs / xs.length ∧ 0 ≤ sqDev xs / ((xs.length : K) - 1) := by
  have h := sqDev_nonneg xs
  have h1 : (0 : K) ≤ xs.length := Nat.cast_nonneg _
  have h3 : (0 : K) ≤ (xs.length : K) - 1 := by
    have : ((1 : Nat) : K) ≤ xs.length := Nat.cast_le.2 (by omega)
    rw [Nat.cast_one] at this; linarith
  exact ⟨h, div_nonneg h h1, div_nonneg h h3⟩

/-- C39.  The variance vanishes exactly when all the values are equal. -/
theorem C39_zero_iff (xs : List K) : sqDev xs = 0 ↔ ∀ x ∈ xs, x = avg xs := by
  unfold sqDev
  generalize avg xs = a
  induction xs with
  | nil => simp
  | cons x xs ih =>
    have h1 : 0 ≤ (x - a) ^ 2 := by positivity
    have h2 : 0 ≤ (xs.map (fun x => (x - a) ^ 2)).sum := by
      refine List.sum_nonneg ?_
      intro y hy
      obtain ⟨z, _, rfl⟩ := List.mem_map.1 hy
      positivity
    rw [List.map_cons, List.sum_cons, add_eq_zero_iff_of_nonneg h1 h2, ih]
    simp [sub_eq_zero]

/-- C39.  In exact arithmetic the object does not depend on the order of insertion. -/
theorem C39_order (hA : A.IsExact) (xs ys : List K) (h : xs.Perm ys) (hn : xs.length < 2 ^ 64) :
    (xs.map .fin).foldl KnuthWelford.addCore (KnuthWelford.new : KnuthWelford (Num A)) =
      (ys.map .fin).foldl KnuthWelford.addCore KnuthWelford.new := by
  rw [kw_run hA xs hn, kw_run hA ys (h.length_eq ▸ hn), avg_perm h, sqDev_perm h, h.length_eq]

/-- C39.  Standard deviation and standard error square to the variance and to the variance over n, with an
exact square root. -/
theorem C39_deviation (hA : A.IsExact) (hsq : ∀ x, 0 ≤ x → 0 ≤ A.sqrt x ∧ A.sqrt x ^ 2 = x)
    (xs : List K) (hn : xs.length < 2 ^ 64) (h2 : 2 ≤ xs.length) (corrected : Bool)
    (s : KnuthWelford (Num A))
    (hs : s = (xs.map .fin).foldl KnuthWelford.addCore KnuthWelford.new) :
    ∃ v d e : K, s.variance corrected = .fin v ∧ s.standardDeviation corrected = .fin d ∧
      s.error corrected = .fin e ∧ 0 ≤ d ∧ d ^ 2 = v ∧ 0 ≤ e ∧ e ^ 2 = v / xs.length := by
  have hst := hs
  rw [kw_run hA xs hn] at hst
  have key := C39_statistics hA ((xs.map .fin).map AccOp.add) xs
    (by
      generalize xs.map (Num.fin (A := A)) = l
      induction l with
      | nil => rfl
      | cons a l ih =>
        rw [List.map_cons, sinceReset, if_neg, ih]
        simp [AccOp.isReset]) hn h2 s
    (by
      rw [hs]
      generalize xs.map (Num.fin (A := A)) = l
      generalize (KnuthWelford.new : KnuthWelford (Num A)) = k
      induction l generalizing k with
      | nil => rfl
      | cons a l ih => rw [List.map_cons, runOps, List.foldl_cons, ih])
  have hv : ∃ v, 0 ≤ v ∧ s.variance corrected = .fin v := by
    obtain ⟨_, _, _, k1, k2⟩ := key
    obtain ⟨_, n1, n2⟩ := C39_nonneg xs h2
    cases corrected
    · exact ⟨_, n1, k1⟩
    · exact ⟨_, n2, k2⟩
  obtain ⟨v, hv0, hv⟩ := hv
  have hne : (0 : K) < xs.length := by
    have : 0 < xs.length := by omega
    exact_mod_cast this
  obtain ⟨q1, q2⟩ := hsq v hv0
  obtain ⟨q3, q4⟩ := hsq (xs.length : K) hne.le
  have q5 : A.sqrt (xs.length : K) ≠ 0 := by
    intro h; rw [h] at q4; simp at q4; rw [← q4] at hne; exact lt_irrefl _ hne
  have hsd : s.standardDeviation corrected = .fin (A.sqrt v) := by
    unfold KnuthWelford.standardDeviation
    rw [hv, Num.sqrt_fin hv0, Num.round_exact hA]
  refine ⟨v, A.sqrt v, A.sqrt v / A.sqrt xs.length, hv, hsd, ?_, q1, q2, div_nonneg q1 q3, ?_⟩
  · unfold KnuthWelford.error
    rw [hsd]
    have : s.getCount = xs.length := by rw [hst]; rfl
    rw [this, Num.ofNat_eq, Num.round_exact hA, Num.sqrt_fin hne.le, Num.round_exact hA, Num.fin_div q5,
      Num.round_exact hA]
  · rw [div_pow, q2, q4]

example : (2 : Nat) ≤ [1, 2, (4 : ℚ)].length := by decide

/-! ### West -/

/-- sum of weighted values, and of weighted squares -/
def wsum (ps : List (K × K)) : K := (ps.map (fun p => p.2 * p.1)).sum
def wsumSq (ps : List (K × K)) : K := (ps.map (fun p => p.2 * p.1 ^ 2)).sum

theorem wsqDev_eq (ps : List (K × K)) (h : totalWeight ps ≠ 0) :
    wsqDev ps = wsumSq ps - wsum ps ^ 2 / totalWeight ps := by
  have gen : ∀ a : K, (ps.map (fun p => p.2 * (p.1 - a) ^ 2)).sum =
      wsumSq ps - 2 * a * wsum ps + totalWeight ps * a ^ 2 := by
    intro a
    unfold wsumSq wsum totalWeight
    clear h
    induction ps with
    | nil => simp
    | cons p ps ih => simp only [List.map_cons, List.sum_cons, ih]; ring
  unfold wsqDev
  rw [gen]
  have hw : wavg ps = wsum ps / totalWeight ps := rfl
  rw [hw]
  field_simp; ring

theorem totalWeight_pos {ps : List (K × K)} (hp : ∀ p ∈ ps, 0 < p.2) (h : ps ≠ []) : 0 < totalWeight ps := by
  unfold totalWeight
  induction ps with
  | nil => exact absurd rfl h
  | cons p ps ih =>
    rw [List.map_cons, List.sum_cons]
    have h1 := hp p List.mem_cons_self
    rcases eq_or_ne ps [] with rfl | hne
    · simpa using h1
    · have := ih (fun q hq => hp q (List.mem_cons_of_mem _ hq)) hne
      linarith

/-- sum of squared weights -/
def Spec.totalWeightSq (ps : List (K × K)) : K := (ps.map (fun p => p.2 ^ 2)).sum

theorem west_step (hA : A.IsExact) (W W2 m q x w : K) (n : Nat) (hW : W + w ≠ 0) :
    West.addCore (⟨.fin W, .fin W2, .fin m, .fin q, n⟩ : West (Num A)) (.fin x) (.fin w) =
      ⟨.fin (W + w), .fin (W2 + w * w), .fin (m + w / (W + w) * (x - m)),
        .fin (q + w * (x - m) * (x - (m + w / (W + w) * (x - m)))), succU n⟩ := by
  unfold West.addCore
  simp only [Num.fin_add, Num.fin_mul, Num.fin_sub, Num.round_exact hA, Num.fin_div hW]

/-- The state after adding pairs of positive weight. -/
theorem west_run (hA : A.IsExact) (ps : List (K × K)) (hp : ∀ p ∈ ps, 0 < p.2) :
    (ps.map (fun p => ((.fin p.1, .fin p.2) : Num A × Num A))).foldl (fun s p => s.addCore p.1 p.2)
      (West.new : West (Num A)) =
      ⟨.fin (totalWeight ps), .fin (totalWeightSq ps), .fin (wavg ps), .fin (wsqDev ps),
        ps.length % W64⟩ := by
  induction ps using List.reverseRecOn with
  | nil => simp [West.new, totalWeight, totalWeightSq, wavg, wsqDev, Num.zero_eq]
  | append_singleton ps p ih =>
    have hp' : ∀ q ∈ ps, 0 < q.2 := fun q hq => hp q (by simp [hq])
    have hW : totalWeight (ps ++ [p]) = totalWeight ps + p.2 := by unfold totalWeight; simp
    have hWp := totalWeight_pos hp (by simp)
    have hWne := hWp.ne'
    have hW2 : totalWeightSq (ps ++ [p]) = totalWeightSq ps + p.2 * p.2 := by
      unfold totalWeightSq; simp [pow_two]
    rw [hW] at hWp hWne
    rw [List.map_append, List.foldl_append, ih hp', List.map_singleton, List.foldl_cons, List.foldl_nil,
      west_step hA _ _ _ _ _ _ _ hWne, hW, hW2]
    have e1 : wsum (ps ++ [p]) = wsum ps + p.2 * p.1 := by unfold wsum; simp
    have e2 : wsumSq (ps ++ [p]) = wsumSq ps + p.2 * p.1 ^ 2 := by unfold wsumSq; simp
    have hm : wavg ps + p.2 / (totalWeight ps + p.2) * (p.1 - wavg ps) = wavg (ps ++ [p]) := by
      have a1 : wavg (ps ++ [p]) = (wsum ps + p.2 * p.1) / (totalWeight ps + p.2) := by
        rw [← e1, ← hW]; rfl
      have a2 : wavg ps = wsum ps / totalWeight ps := rfl
      rw [a1]
      rcases eq_or_ne ps [] with rfl | h
      · simp only [wavg, wsum, totalWeight, List.map_nil, List.sum_nil, zero_div, zero_add, sub_zero]
        field_simp
      · have := (totalWeight_pos hp' h).ne'
        rw [a2]
        field_simp; ring
    rw [hm]
    have hq : wsqDev ps + p.2 * (p.1 - wavg ps) * (p.1 - wavg (ps ++ [p])) = wsqDev (ps ++ [p]) := by
      rw [wsqDev_eq (ps ++ [p]) (by rw [hW]; exact hWne), ← hm, hW, e1, e2]
      have a2 : wavg ps = wsum ps / totalWeight ps := rfl
      rcases eq_or_ne ps [] with rfl | h
      · simp only [wsqDev, wavg, wsum, wsumSq, totalWeight, List.map_nil, List.sum_nil, zero_div, zero_add,
          sub_zero] at hWne ⊢
        field_simp
      · have := (totalWeight_pos hp' h).ne'
        rw [wsqDev_eq ps this, a2]
        field_simp; ring
    rw [hq, List.length_append, List.length_singleton]
    congr 1
    unfold succU; omega

/-- The pairs that count. -/
def Spec.positive (ps : List (K × K)) : List (K × K) := ps.filter (fun p => decide (0 < p.2))

theorem west_state (hA : A.IsExact) (ops : List (AccOp (Num A × Num A))) (ps : List (K × K))
    (hps : sinceReset ops = ps.map (fun p => (.fin p.1, .fin p.2))) :
    runOps West.addPair West.reset West.new ops =
      ⟨.fin (totalWeight (positive ps)), .fin (totalWeightSq (positive ps)), .fin (wavg (positive ps)),
        .fin (wsqDev (positive ps)), (positive ps).length % W64⟩ := by
  rw [(C35_west ops).1, hps]
  have : (ps.map (fun p => ((.fin p.1, .fin p.2) : Num A × Num A))).filter
      (fun p => CxxFloat.lt CxxFloat.zero p.2) =
      (positive ps).map (fun p => (.fin p.1, .fin p.2)) := by
    unfold positive
    rw [List.filter_map]
    congr 1
  rw [this]
  exact west_run hA _ (fun p hp => by
    have := (List.mem_filter.1 hp).2
    simpa using this)

/-- C41.  In exact arithmetic: weighted mean, weighted sum and the three variances of the samples of
positive weight added since the last `Reset`; the others are ignored. -/
theorem C41_statistics (hA : A.IsExact) (ops : List (AccOp (Num A × Num A))) (ps : List (K × K))
    (hps : sinceReset ops = ps.map (fun p => (.fin p.1, .fin p.2))) (h2 : 2 ≤ (positive ps).length)
    (hn : (positive ps).length < 2 ^ 64) (s : West (Num A))
    (hs : s = runOps West.addPair West.reset West.new ops) :
    s.getMean = .fin (wavg (positive ps)) ∧
    s.sum = .fin ((positive ps).map (fun p => p.2 * p.1)).sum ∧
    s.populationVariance = .fin (wsqDev (positive ps) / totalWeight (positive ps)) ∧
    (totalWeight (positive ps) ≠ 1 →
      s.sampleFrequencyVariance = .fin (wsqDev (positive ps) / (totalWeight (positive ps) - 1))) ∧
    s.sampleReliabilityVariance =
      .fin (wsqDev (positive ps) / (totalWeight (positive ps) -
        totalWeightSq (positive ps) / totalWeight (positive ps))) := by
  have hmod : (positive ps).length % W64 = (positive ps).length := Nat.mod_eq_of_lt hn
  rw [west_state hA ops ps hps, hmod] at hs
  have hpos : ∀ p ∈ positive ps, 0 < p.2 := fun p hp => by
    have := (List.mem_filter.1 hp).2
    simpa using this
  generalize hqs : positive ps = qs at *
  subst hs
  have hne : qs ≠ [] := by rintro rfl; simp at h2
  have hW := totalWeight_pos hpos hne
  have hl : ¬ qs.length < 2 := by omega
  refine ⟨rfl, ?_, ?_, fun h1 => ?_, ?_⟩
  · simp only [West.sum, Num.fin_mul, Num.round_exact hA]
    unfold wavg
    rw [div_mul_cancel₀ _ hW.ne']
  · simp only [West.populationVariance, if_neg hl, Num.fin_div hW.ne', Num.round_exact hA]
  · have : totalWeight qs - 1 ≠ 0 := sub_ne_zero.2 h1
    simp only [West.sampleFrequencyVariance, if_neg hl, Num.ofInt_eq, Int.cast_one, Num.round_exact hA,
      Num.fin_sub, Num.fin_div this]
  · -- at least two positive weights: the square of the sum exceeds the sum of the squares
    have key : totalWeightSq qs < totalWeight qs ^ 2 := by
      clear hqs hne hl hW hn
      match qs, h2, hpos with
      | p :: q :: qs, _, hpos =>
        have gen : ∀ l : List (K × K), (∀ p ∈ l, 0 < p.2) → 0 ≤ totalWeight l ∧
            totalWeightSq l ≤ totalWeight l ^ 2 := by
          intro l hl
          unfold totalWeight totalWeightSq
          induction l with
          | nil => simp
          | cons a l ih =>
            obtain ⟨i1, i2⟩ := ih (fun b hb => hl b (List.mem_cons_of_mem _ hb))
            have ha := hl a List.mem_cons_self
            rw [List.map_cons, List.sum_cons, List.map_cons, List.sum_cons]
            constructor
            · linarith
            · nlinarith
        obtain ⟨g1, g2⟩ := gen qs (fun r hr => hpos r (by simp [hr]))
        have hp := hpos p (by simp)
        have hq := hpos q (by simp)
        have e1 : totalWeight (p :: q :: qs) = p.2 + (q.2 + totalWeight qs) := by simp [totalWeight]
        have e2 : totalWeightSq (p :: q :: qs) = p.2 ^ 2 + (q.2 ^ 2 + totalWeightSq qs) := by
          simp [totalWeightSq]
        rw [e1, e2]
        nlinarith [mul_pos hp hq, mul_nonneg hp.le g1, mul_nonneg hq.le g1]
    have hd : totalWeight qs - totalWeightSq qs / totalWeight qs ≠ 0 := by
      rw [sub_ne_zero, ne_comm, ne_eq, div_eq_iff hW.ne', ← pow_two]
      exact key.ne
    simp only [West.sampleReliabilityVariance, if_neg hl, Num.fin_div hW.ne', Num.round_exact hA, Num.fin_sub,
      Num.fin_div hd]

/-- C41.  With unit weights West computes what KnuthWelford computes. -/
theorem C41_unit_weights (hA : A.IsExact) (xs : List K) (hn : xs.length < 2 ^ 64) (w : West (Num A))
    (k : KnuthWelford (Num A))
    (hw : w = (xs.map (fun x => ((.fin x, .fin 1) : Num A × Num A))).foldl West.addPair West.new)
    (hk : k = (xs.map .fin).foldl KnuthWelford.addCore KnuthWelford.new) :
    w.getMean = k.getMean ∧ w.sum = k.sum ∧ w.getCount = k.getCount ∧
    w.populationVariance = k.variance false ∧ w.sampleFrequencyVariance = k.variance true ∧
    w.sampleReliabilityVariance = k.variance true := by
  set ps : List (K × K) := xs.map (fun x => (x, (1 : K))) with hps
  have hpos : ∀ p ∈ ps, 0 < p.2 := by
    intro p hp
    obtain ⟨x, _, rfl⟩ := List.mem_map.1 hp
    exact zero_lt_one
  have hfilter : (xs.map (fun x => ((.fin x, .fin 1) : Num A × Num A))).filter
      (fun p => CxxFloat.lt CxxFloat.zero p.2) = ps.map (fun p => (.fin p.1, .fin p.2)) := by
    rw [hps, List.map_map, List.filter_eq_self.2]
    · rfl
    · intro p hp
      obtain ⟨x, _, rfl⟩ := List.mem_map.1 hp
      show CxxFloat.lt (Num.fin 0 : Num A) (.fin 1) = true
      rw [Num.lt_fin]; simp
  rw [west_foldl, hfilter, west_run hA ps hpos] at hw
  rw [kw_run hA xs hn] at hk
  have e1 : totalWeight ps = xs.length := by
    rw [hps]; unfold totalWeight
    rw [List.map_map]
    clear hn hw hk hfilter hpos hps
    induction xs with
    | nil => simp
    | cons x xs ih => rw [List.map_cons, List.sum_cons, ih]; simp [add_comm]
  have e2 : totalWeightSq ps = xs.length := by
    rw [hps]; unfold totalWeightSq
    rw [List.map_map]
    clear hn hw hk hfilter hpos hps e1
    induction xs with
    | nil => simp
    | cons x xs ih => rw [List.map_cons, List.sum_cons, ih]; simp [add_comm]
  have e3 : wavg ps = avg xs := by
    unfold wavg avg; rw [e1, hps, List.map_map]
    congr 2
    refine (List.map_congr_left (g := id) ?_).trans (List.map_id _)
    intro x _; simp
  have e4 : wsqDev ps = sqDev xs := by
    unfold wsqDev sqDev; rw [e3, hps, List.map_map]
    congr 1
    refine List.map_congr_left ?_
    intro x _; simp
  have e5 : ps.length % W64 = xs.length := by
    rw [hps, List.length_map]; exact Nat.mod_eq_of_lt hn
  rw [e1, e2, e3, e4, e5] at hw
  subst hw hk
  have hcast : (Num.round A ((xs.length : Nat) : K)) = .fin (xs.length : K) := Num.round_exact hA _
  refine ⟨rfl, ?_, rfl, ?_, ?_, ?_⟩
  · simp only [West.sum, KnuthWelford.sum, KnuthWelford.getCount, Num.ofNat_eq, hcast]
  · simp only [West.populationVariance, KnuthWelford.variance, Bool.false_eq_true, if_false, Num.ofNat_eq,
      hcast]
  · simp only [West.sampleFrequencyVariance, KnuthWelford.variance, if_true]
    split
    · rfl
    · rename_i h
      have hu : usub xs.length 1 = xs.length - 1 := by unfold usub; omega
      rw [hu]
      simp only [Num.ofNat_eq, Num.ofInt_eq, Num.fin_sub, Num.round_exact hA]
      rw [Nat.cast_sub (by omega)]; simp
  · simp only [West.sampleReliabilityVariance, KnuthWelford.variance, if_true]
    split
    · rfl
    · rename_i h
      have hu : usub xs.length 1 = xs.length - 1 := by unfold usub; omega
      have hne : (xs.length : K) ≠ 0 := by
        have : xs.length ≠ 0 := by omega
        exact_mod_cast this
      rw [hu]
      simp only [Num.ofNat_eq, Num.fin_sub, Num.fin_div hne, Num.round_exact hA]
      rw [Nat.cast_sub (by omega), div_self hne]; simp

/-- C41.  Giving a sample the weight k, or adding it k times with weight one, leads to the same mean and the
same weighted sums (only the count and the sum of squared weights differ). -/
theorem C41_repetition (hA : A.IsExact) (ps : List (K × K)) (hp : ∀ p ∈ ps, 0 < p.2) (x : K) (k : Nat)
    (hk : 0 < k) (s t : West (Num A))
    (hs : s = ((ps ++ [(x, (k : K))]).map (fun p => ((.fin p.1, .fin p.2) : Num A × Num A))).foldl
      West.addPair West.new)
    (ht : t = ((ps ++ List.replicate k (x, (1 : K))).map
      (fun p => ((.fin p.1, .fin p.2) : Num A × Num A))).foldl West.addPair West.new) :
    s.mean = t.mean ∧ s.m2 = t.m2 ∧ s.sumWeights = t.sumWeights := by
  have hk' : (0 : K) < k := by exact_mod_cast hk
  have run : ∀ qs : List (K × K), (∀ p ∈ qs, 0 < p.2) →
      (qs.map (fun p => ((.fin p.1, .fin p.2) : Num A × Num A))).foldl West.addPair West.new =
      ⟨.fin (totalWeight qs), .fin (totalWeightSq qs), .fin (wavg qs), .fin (wsqDev qs),
        qs.length % W64⟩ := by
    intro qs hq
    rw [west_foldl, List.filter_eq_self.2, west_run hA qs hq]
    intro p hp
    obtain ⟨q, hqm, rfl⟩ := List.mem_map.1 hp
    show CxxFloat.lt (Num.fin 0 : Num A) (.fin q.2) = true
    rw [Num.lt_fin]; simpa using hq q hqm
  have p1 : ∀ p ∈ ps ++ [(x, (k : K))], 0 < p.2 := by
    intro p h
    rcases List.mem_append.1 h with h | h
    · exact hp p h
    · rw [List.mem_singleton] at h; subst h; exact hk'
  have p2 : ∀ p ∈ ps ++ List.replicate k (x, (1 : K)), 0 < p.2 := by
    intro p h
    rcases List.mem_append.1 h with h | h
    · exact hp p h
    · rw [(List.mem_replicate.1 h).2]; exact zero_lt_one
  rw [run _ p1] at hs
  rw [run _ p2] at ht
  subst hs ht
  have w : totalWeight (ps ++ [(x, (k : K))]) = totalWeight (ps ++ List.replicate k (x, (1 : K))) := by
    unfold totalWeight; simp
  have a : wsum (ps ++ [(x, (k : K))]) = wsum (ps ++ List.replicate k (x, (1 : K))) := by
    unfold wsum; simp
  have b : wsumSq (ps ++ [(x, (k : K))]) = wsumSq (ps ++ List.replicate k (x, (1 : K))) := by
    unfold wsumSq; simp
  have c1 := totalWeight_pos p1 (by simp)
  have c2 : wsqDev (ps ++ [(x, (k : K))]) = wsqDev (ps ++ List.replicate k (x, (1 : K))) := by
    rw [wsqDev_eq _ c1.ne', wsqDev_eq _ (w ▸ c1.ne'), w, a, b]
  refine ⟨?_, by rw [c2], by rw [w]⟩
  show Num.fin (wsum _ / totalWeight _) = Num.fin (wsum _ / totalWeight _)
  rw [w, a]

example : (positive [(5, 2), (7, 0), (1, -1), ((3 : ℚ), 1)]).length = 2 := by decide

/-! ### NaiveInteger -/

/-- sum of squares of integers -/
def Spec.intSq (xs : List Int) : Int := (xs.map (fun x => x * x)).sum

/-- `Add` for each value, without checks. -/
def NaiveInteger.addAll (s : NaiveInteger) : List Int → Res NaiveInteger
  | [] => .ok s
  | x :: xs => do
    let s ← NaiveInteger.add false s x
    NaiveInteger.addAll s xs

theorem naive_run (xs : List Int) (s : NaiveInteger) (hc : s.count < W64)
    (hsum : ∀ k, InLong (s.sum + (xs.take k).sum)) (hsq : InLong (s.sum2 + intSq xs))
    (h2 : 0 ≤ s.sum2) :
    s.addAll xs = .ok ⟨s.sum + xs.sum, s.sum2 + intSq xs, (s.count + xs.length) % W64⟩ := by
  induction xs generalizing s with
  | nil =>
    simp [NaiveInteger.addAll, intSq, Nat.mod_eq_of_lt hc]
  | cons x xs ih =>
    have hnn : ∀ l : List Int, 0 ≤ intSq l := by
      intro l
      unfold intSq
      refine List.sum_nonneg ?_
      intro y hy
      obtain ⟨z, _, rfl⟩ := List.mem_map.1 hy
      exact mul_self_nonneg z
    have e : intSq (x :: xs) = x * x + intSq xs := by simp [intSq]
    rw [e] at hsq
    have h0 := hnn xs
    have hx0 := mul_self_nonneg x
    have a1 : InLong (s.sum + x) := by have := hsum 1; simpa using this
    have a2 : InLong (x * x) := by unfold InLong at hsq ⊢; omega
    have a3 : InLong (s.sum2 + x * x) := by unfold InLong at hsq ⊢; omega
    have step : NaiveInteger.add false s x = .ok ⟨s.sum + x, s.sum2 + x * x, succU s.count⟩ := by
      unfold NaiveInteger.add NaiveInteger.addCore ladd lmul
      simp only [Bool.false_eq_true, if_false]
      rw [long_ok a1, Res.ok_bind, long_ok a2, Res.ok_bind, long_ok a3, Res.ok_bind]
    rw [NaiveInteger.addAll, step, Res.ok_bind, ih _ (by show succU _ < _; unfold succU; omega)
      (fun k => by
        have := hsum (k + 1)
        rwa [List.take_succ_cons, List.sum_cons, ← add_assoc] at this)
      (by show InLong (s.sum2 + x * x + intSq xs); rwa [add_assoc]) (by show 0 ≤ s.sum2 + x * x; omega), e]
    simp only [List.sum_cons, List.length_cons]
    unfold succU
    congr 2
    · ring
    · ring
    · omega

/-- Running a history of calls, without checks. -/
def NaiveInteger.runOps (s : NaiveInteger) : List (AccOp Int) → Res NaiveInteger
  | [] => .ok s
  | .add x :: ops => do
    let s ← NaiveInteger.add false s x
    NaiveInteger.runOps s ops
  | .reset :: ops => NaiveInteger.runOps s.reset ops

theorem naive_history (ops : List (AccOp Int)) (s r : NaiveInteger) (h : s.runOps ops = .ok r) :
    (ops.any AccOp.isReset = true → NaiveInteger.new.addAll (sinceReset ops) = .ok r) ∧
    (ops.any AccOp.isReset = false → s.addAll (sinceReset ops) = .ok r) := by
  induction ops generalizing s with
  | nil => exact ⟨fun h' => by simp at h', fun _ => h⟩
  | cons o ops ih =>
    cases o with
    | add x =>
      rw [NaiveInteger.runOps] at h
      obtain ⟨t, h1, h2⟩ := Res.bind_eq_ok.1 h
      obtain ⟨i1, i2⟩ := ih t h2
      constructor
      · intro hb
        simp only [List.any_cons, AccOp.isReset, Bool.false_or] at hb
        rw [sinceReset, if_pos hb]; exact i1 hb
      · intro hb
        simp only [List.any_cons, AccOp.isReset, Bool.false_or] at hb
        rw [sinceReset, if_neg (by simpa using hb), NaiveInteger.addAll, h1]; exact i2 hb
    | reset =>
      rw [NaiveInteger.runOps] at h
      obtain ⟨i1, i2⟩ := ih _ h
      refine ⟨fun _ => ?_, fun hb => by simp [AccOp.isReset] at hb⟩
      rw [sinceReset]
      cases hb : ops.any AccOp.isReset with
      | true => exact i1 hb
      | false => exact i2 hb

theorem naive_addAll_count (xs : List Int) (s r : NaiveInteger) (hs : s.count < W64) (h : s.addAll xs = .ok r) :
    r.count = (s.count + xs.length) % W64 := by
  induction xs generalizing s with
  | nil => cases h; exact (Nat.mod_eq_of_lt hs).symm
  | cons x xs ih =>
    rw [NaiveInteger.addAll] at h
    obtain ⟨t, h1, h2⟩ := Res.bind_eq_ok.1 h
    have ht : t.count = succU s.count := by
      unfold NaiveInteger.add NaiveInteger.addCore at h1
      simp only [Bool.false_eq_true, if_false] at h1
      obtain ⟨_, _, h1⟩ := Res.bind_eq_ok.1 h1
      obtain ⟨_, _, h1⟩ := Res.bind_eq_ok.1 h1
      obtain ⟨_, _, h1⟩ := Res.bind_eq_ok.1 h1
      cases h1; rfl
    rw [ih t (by rw [ht]; unfold succU; omega) h2, ht, List.length_cons]
    unfold succU; omega

/-- C35.  NaiveIntegerAccumulator: a history none of whose calls is undefined leaves the object that the values added
since the last `Reset` make of a fresh one, and `Count()` is their number. -/
theorem C35_integer (ops : List (AccOp Int)) (s : NaiveInteger) (h : NaiveInteger.new.runOps ops = .ok s) :
    NaiveInteger.new.addAll (sinceReset ops) = .ok s ∧ s.getCount = (sinceReset ops).length % 2 ^ 64 := by
  obtain ⟨h1, h2⟩ := naive_history ops _ s h
  have h3 : NaiveInteger.new.addAll (sinceReset ops) = .ok s := by
    cases hb : ops.any AccOp.isReset with
    | true => exact h1 hb
    | false => exact h2 hb
  refine ⟨h3, ?_⟩
  have := naive_addAll_count _ _ _ (by decide) h3
  rw [show NaiveInteger.new.count = 0 from rfl, Nat.zero_add] at this
  exact this

example : NaiveInteger.new.runOps [.add 5, .reset, .add 2, .add (-3)] = .ok ⟨-1, 13, 2⟩ := by decide

/-- C42.  As long as the partial sums and the sum of squares fit in `long`, nothing is undefined and the sum is
the exact sum, the count the number of values. -/
theorem C42_sum (xs : List Int) (hsum : ∀ k, InLong (xs.take k).sum) (hsq : InLong (intSq xs)) :
    ∃ s, NaiveInteger.new.addAll xs = .ok s ∧ s.getSum = xs.sum ∧ s.getCount = xs.length % 2 ^ 64 := by
  have := naive_run xs NaiveInteger.new (by decide) (fun k => by
    rw [show NaiveInteger.new.sum = 0 from rfl, zero_add]; exact hsum k)
    (by rw [show NaiveInteger.new.sum2 = 0 from rfl, zero_add]; exact hsq) (le_refl 0)
  refine ⟨_, this, ?_, ?_⟩
  · show 0 + xs.sum = _; rw [zero_add]
  · show (0 + xs.length) % W64 = _; rw [Nat.zero_add]; rfl

/-- C42.  Conversely, whenever every call returns, the sum is exact; if a partial sum or the sum of squares
leaves the range of `long`, the behaviour is undefined. -/
theorem C42_sum_conv (xs : List Int) (s : NaiveInteger) (h : NaiveInteger.new.addAll xs = .ok s) :
    s.getSum = xs.sum ∧ s.sum2 = intSq xs ∧ s.getCount = xs.length % 2 ^ 64 ∧
      (∀ k, InLong (xs.take k).sum) ∧ InLong (intSq xs) := by
  have gen : ∀ (xs : List Int) (a : NaiveInteger), a.count < W64 → InLong a.sum → InLong a.sum2 →
      a.addAll xs = .ok s → s.sum = a.sum + xs.sum ∧ s.sum2 = a.sum2 + intSq xs ∧
      s.count = (a.count + xs.length) % W64 ∧ (∀ k, InLong (a.sum + (xs.take k).sum)) ∧
      InLong (a.sum2 + intSq xs) := by
    intro xs
    induction xs with
    | nil =>
      intro a hc h1 h2 h
      rw [NaiveInteger.addAll, Res.ok.injEq] at h
      subst h
      simp [intSq, Nat.mod_eq_of_lt hc, h1, h2]
    | cons x xs ih =>
      intro a hc h1 h2 h
      rw [NaiveInteger.addAll] at h
      obtain ⟨b, hb, h⟩ := Res.bind_eq_ok.1 h
      unfold NaiveInteger.add NaiveInteger.addCore at hb
      simp only [Bool.false_eq_true, if_false] at hb
      obtain ⟨u, hu, hb⟩ := Res.bind_eq_ok.1 hb
      obtain ⟨v, hv, hb⟩ := Res.bind_eq_ok.1 hb
      obtain ⟨w, hw, hb⟩ := Res.bind_eq_ok.1 hb
      rw [Res.ok.injEq] at hb
      subst hb
      unfold ladd at hu hw
      unfold lmul at hv
      obtain ⟨hu', rfl⟩ := long_eq_ok.1 hu
      obtain ⟨hv', rfl⟩ := long_eq_ok.1 hv
      obtain ⟨hw', rfl⟩ := long_eq_ok.1 hw
      obtain ⟨i1, i2, i3, i4, i5⟩ := ih _ (by show succU _ < _; unfold succU; omega) hu' hw' h
      have e : intSq (x :: xs) = x * x + intSq xs := by simp [intSq]
      refine ⟨by rw [i1, List.sum_cons]; ring, by rw [i2, e]; ring, ?_, ?_, ?_⟩
      · rw [i3, List.length_cons]; show (succU a.count + _) % _ = _; unfold succU; omega
      · intro k
        cases k with
        | zero => simpa using h1
        | succ k =>
          rw [List.take_succ_cons, List.sum_cons, ← add_assoc]; exact i4 k
      · rw [e, ← add_assoc]; exact i5
  obtain ⟨g1, g2, g3, g4, g5⟩ := gen xs NaiveInteger.new (by decide) (by decide) (by decide) h
  have z1 : NaiveInteger.new.sum = 0 := rfl
  have z2 : NaiveInteger.new.sum2 = 0 := rfl
  have z3 : NaiveInteger.new.count = 0 := rfl
  rw [z1, zero_add] at g1
  rw [z2, zero_add] at g2 g5
  rw [z3, Nat.zero_add] at g3
  refine ⟨g1, g2, g3, fun k => ?_, g5⟩
  have := g4 k
  rwa [z1, zero_add] at this

/-- C42.  In exact arithmetic `Mean()` is the arithmetic mean of the values. -/
theorem C42_mean (hA : A.IsExact) (xs : List Int) (h0 : xs ≠ []) (hn : xs.length < 2 ^ 64) (s : NaiveInteger)
    (h : NaiveInteger.new.addAll xs = .ok s) :
    s.mean (Num A) = .fin (avg (xs.map (Int.cast : Int → K))) := by
  obtain ⟨h1, _, h3, _, _⟩ := C42_sum_conv xs s h
  unfold NaiveInteger.getSum at h1
  unfold NaiveInteger.mean
  rw [h3, h1, Nat.mod_eq_of_lt hn, Num.ofInt_eq, Num.ofNat_eq, Num.round_exact hA, Num.round_exact hA]
  have hne : (xs.length : K) ≠ 0 := by
    have : xs.length ≠ 0 := by simpa using h0
    exact_mod_cast this
  rw [Num.fin_div hne, Num.round_exact hA]
  unfold avg
  rw [List.length_map]
  rw [cast_sum]

example : NaiveInteger.new.addAll [3, -4] = .ok ⟨-1, 25, 2⟩ := by decide

end

section
variable {K : Type} [Field K] [LinearOrder K] [IsStrictOrderedRing K] {A : Arith K}

theorem cast_sq (xs : List Int) : sumSq (xs.map (Int.cast : Int → K)) = (intSq xs : K) := by
  unfold sumSq intSq
  induction xs with
  | nil => simp
  | cons x xs ih =>
    rw [List.map_cons, List.map_cons, List.sum_cons, ih, List.map_cons, List.sum_cons]; push_cast; ring

theorem umul_self {n m : Nat} (h : n * m < W64) : umul n m = n * m := Nat.mod_eq_of_lt h

/-- C43 (what the code computes).  For n ≥ 2 samples `Variance` is (Σx² - (Σx)²) over n(n-1), or over n² when
not corrected. -/
theorem C43_value_partial (hA : A.IsExact) (xs : List Int) (h2 : 2 ≤ xs.length) (hn : xs.length < 2 ^ 32)
    (s : NaiveInteger) (h : NaiveInteger.new.addAll xs = .ok s) (hp : InLong (xs.sum * xs.sum))
    (hd : InLong (intSq xs - xs.sum * xs.sum)) :
    s.variance (Num A) true =
      .ok (.fin ((((intSq xs - xs.sum * xs.sum : Int)) : K) / (xs.length * (xs.length - 1)))) ∧
    s.variance (Num A) false =
      .ok (.fin ((((intSq xs - xs.sum * xs.sum : Int)) : K) / (xs.length * xs.length))) := by
  obtain ⟨h1, h1', h3, _, _⟩ := C42_sum_conv xs s h
  unfold NaiveInteger.getSum at h1
  unfold NaiveInteger.getCount at h3
  rw [Nat.mod_eq_of_lt (by omega)] at h3
  have hnum : s.numerator = .ok (intSq xs - xs.sum * xs.sum) := by
    unfold NaiveInteger.numerator lmul lsub
    rw [h1, long_ok hp, Res.ok_bind, h1', long_ok hd]
  have hl : ¬ s.count < 2 := by omega
  have hu : usub s.count 1 = s.count - 1 := by unfold usub; omega
  have m1 : umul s.count (s.count - 1) = s.count * (s.count - 1) := umul_self (by
    rw [h3]
    calc xs.length * (xs.length - 1) ≤ 2 ^ 32 * (xs.length - 1) := Nat.mul_le_mul_right _ hn.le
      _ < W64 := by omega)
  have m2 : umul s.count s.count = s.count * s.count := umul_self (by
    rw [h3]
    calc xs.length * xs.length ≤ 2 ^ 32 * xs.length := Nat.mul_le_mul_right _ hn.le
      _ < W64 := by omega)
  have hne : (xs.length : K) ≠ 0 := by
    have : xs.length ≠ 0 := by omega
    exact_mod_cast this
  have hne' : ((xs.length - 1 : Nat) : K) ≠ 0 := by
    have : xs.length - 1 ≠ 0 := by omega
    exact_mod_cast this
  have hc : ((xs.length - 1 : Nat) : K) = (xs.length : K) - 1 := by
    rw [Nat.cast_sub (by omega)]; simp
  constructor
  · unfold NaiveInteger.variance
    rw [if_neg hl]
    simp only [if_true, hu, hnum, Res.ok_bind, m1, Num.ofInt_eq, Num.ofNat_eq, Num.round_exact hA]
    rw [h3, Nat.cast_mul, Num.fin_div (mul_ne_zero hne hne'), Num.round_exact hA, hc]
  · unfold NaiveInteger.variance
    rw [if_neg hl]
    simp only [Bool.false_eq_true, if_false, hnum, Res.ok_bind, m2, Num.ofInt_eq, Num.ofNat_eq,
      Num.round_exact hA]
    rw [h3, Nat.cast_mul, Num.fin_div (mul_ne_zero hne hne), Num.round_exact hA]

/-- C43 (what the code computes).  `ScaledVariance` is (Σx² - (Σx)²) over n. -/
theorem C43_scaled_partial (hA : A.IsExact) (xs : List Int) (h2 : 2 ≤ xs.length) (hn : xs.length < 2 ^ 64)
    (s : NaiveInteger) (h : NaiveInteger.new.addAll xs = .ok s) (hp : InLong (xs.sum * xs.sum))
    (hd : InLong (intSq xs - xs.sum * xs.sum)) :
    s.scaledVariance (Num A) = .ok (.fin ((((intSq xs - xs.sum * xs.sum : Int)) : K) / xs.length)) := by
  obtain ⟨h1, h1', h3, _, _⟩ := C42_sum_conv xs s h
  unfold NaiveInteger.getSum at h1
  unfold NaiveInteger.getCount at h3
  rw [Nat.mod_eq_of_lt (by omega)] at h3
  have hnum : s.numerator = .ok (intSq xs - xs.sum * xs.sum) := by
    unfold NaiveInteger.numerator lmul lsub
    rw [h1, long_ok hp, Res.ok_bind, h1', long_ok hd]
  have hl : ¬ s.count < 2 := by omega
  have hne : (xs.length : K) ≠ 0 := by
    have : xs.length ≠ 0 := by omega
    exact_mod_cast this
  unfold NaiveInteger.scaledVariance
  rw [if_neg hl, hnum, Res.ok_bind, Num.ofInt_eq, Num.ofNat_eq, Num.round_exact hA, Num.round_exact hA, h3,
    Num.fin_div hne, Num.round_exact hA]

/-- C43 (what the code computes).  `StandardDeviation` is NaN as soon as the square of the sum exceeds the sum of the
squares. -/
theorem C43_deviation_partial (hA : A.IsExact) (xs : List Int) (h2 : 2 ≤ xs.length) (hn : xs.length < 2 ^ 32)
    (s : NaiveInteger) (h : NaiveInteger.new.addAll xs = .ok s) (hp : InLong (xs.sum * xs.sum))
    (hd : InLong (intSq xs - xs.sum * xs.sum)) (hneg : intSq xs < xs.sum * xs.sum) (corrected : Bool) :
    s.standardDeviation (Num A) corrected = .ok .nan := by
  have hv := C43_value_partial hA xs h2 hn s h hp hd
  have hc : (2 : K) ≤ xs.length := by exact_mod_cast h2
  have hneg' : ((intSq xs - xs.sum * xs.sum : Int) : K) < 0 := by exact_mod_cast (by omega : intSq xs - xs.sum * xs.sum < 0)
  unfold NaiveInteger.standardDeviation
  cases corrected
  · rw [hv.2, Res.ok_bind, Num.sqrt_neg (div_neg_of_neg_of_pos hneg' (by nlinarith))]
  · rw [hv.1, Res.ok_bind, Num.sqrt_neg (div_neg_of_neg_of_pos hneg' (by nlinarith))]

/-- C43 (what the code computes).  Otherwise it is the root of `Variance`. -/
theorem C43_deviation_root_partial (hA : A.IsExact) (xs : List Int) (h2 : 2 ≤ xs.length) (hn : xs.length < 2 ^ 32)
    (s : NaiveInteger) (h : NaiveInteger.new.addAll xs = .ok s) (hp : InLong (xs.sum * xs.sum))
    (hd : InLong (intSq xs - xs.sum * xs.sum)) (hneg : xs.sum * xs.sum ≤ intSq xs) :
    s.standardDeviation (Num A) true =
      .ok (.fin (A.sqrt ((((intSq xs - xs.sum * xs.sum : Int)) : K) / (xs.length * (xs.length - 1))))) ∧
    s.standardDeviation (Num A) false =
      .ok (.fin (A.sqrt ((((intSq xs - xs.sum * xs.sum : Int)) : K) / (xs.length * xs.length)))) := by
  have hv := C43_value_partial hA xs h2 hn s h hp hd
  have hc : (2 : K) ≤ xs.length := by exact_mod_cast h2
  have hneg' : (0 : K) ≤ ((intSq xs - xs.sum * xs.sum : Int) : K) := by
    exact_mod_cast (by omega : 0 ≤ intSq xs - xs.sum * xs.sum)
  unfold NaiveInteger.standardDeviation
  constructor
  · rw [hv.1, Res.ok_bind, Num.sqrt_fin (div_nonneg hneg' (by nlinarith)), Num.round_exact hA]
  · rw [hv.2, Res.ok_bind, Num.sqrt_fin (div_nonneg hneg' (by nlinarith)), Num.round_exact hA]

example : NaiveInteger.new.addAll [3, -4] = .ok ⟨-1, 25, 2⟩ ∧ ([3, -4] : List Int).sum * ([3, -4] : List Int).sum ≤ intSq [3, -4] ∧
    NaiveInteger.new.addAll [3, 4] = .ok ⟨7, 25, 2⟩ ∧ intSq [3, 4] < ([3, 4] : List Int).sum * ([3, 4] : List Int).sum := by decide

/-- C43 (when it is right).  The value computed is the corrected variance exactly when the squares sum to
zero, that is when all the samples are zero. -/
theorem C43_correct_iff_partial (xs : List Int) (h2 : 2 ≤ xs.length) :
    (((intSq xs - xs.sum * xs.sum : Int)) : K) / (xs.length * (xs.length - 1)) =
      sqDev (xs.map (Int.cast : Int → K)) / (xs.length - 1) ↔ ∀ x ∈ xs, x = 0 := by
  have hne : (xs.length : K) ≠ 0 := by
    have : xs.length ≠ 0 := by omega
    exact_mod_cast this
  have hc : ((xs.length - 1 : Nat) : K) = (xs.length : K) - 1 := by
    rw [Nat.cast_sub (by omega)]; simp
  have hne' : (xs.length : K) - 1 ≠ 0 := by
    rw [← hc]
    have : xs.length - 1 ≠ 0 := by omega
    exact_mod_cast this
  have hz : intSq xs = 0 ↔ ∀ x ∈ xs, x = 0 := by
    unfold intSq
    clear h2 hne hne' hc
    induction xs with
    | nil => simp
    | cons x xs ih =>
      have h1 := mul_self_nonneg x
      have h2 : 0 ≤ (xs.map (fun x => x * x)).sum := by
        refine List.sum_nonneg ?_
        intro y hy
        obtain ⟨z, _, rfl⟩ := List.mem_map.1 hy
        exact mul_self_nonneg z
      rw [List.map_cons, List.sum_cons, add_eq_zero_iff_of_nonneg h1 h2, ih]
      simp
  rw [← hz, sqDev_eq, cast_sq, cast_sum, List.length_map]
  push_cast
  rw [div_eq_div_iff (mul_ne_zero hne hne') hne']
  constructor
  · intro h
    have h' : ((intSq xs : K)) * (1 - xs.length) = 0 := by
      field_simp at h
      linear_combination h
    rcases mul_eq_zero.1 h' with e | e
    · exact_mod_cast e
    · exact absurd (by linear_combination -e) hne'
  · intro h
    rw [h]
    field_simp
    push_cast; ring

/-- C43 is violated: two samples 1, 1 have "variance" -1. -/
theorem C43_violated (hA : A.IsExact) : ∃ s, NaiveInteger.new.addAll [1, 1] = .ok s ∧
    s.variance (Num A) true = .ok (.fin (-1)) ∧ sqDev ([1, 1].map (Int.cast : Int → K)) / (2 - 1) = 0 := by
  have h : NaiveInteger.new.addAll [1, 1] = .ok ⟨2, 2, 2⟩ := by decide
  refine ⟨_, h, ?_, ?_⟩
  · rw [(C43_value_partial hA [1, 1] (by decide) (by decide) _ h (by decide) (by decide)).1]
    congr 2
    simp [intSq]; norm_num
  · simp [sqDev, avg]

end
end Bwsl
