import Verif.Props.Nearest

/-! Property C75, continued: the exact set of extents for which distances on closed triangular lattices are those between
nearest images. -/

namespace Bwsl
open Spec

set_option linter.unusedSectionVars false

/-- The extents are not too different. -/
def Spec.Compact (L M : Nat) : Prop :=
  let s := min L M
  let g := max L M
  (g ≤ 2 * s + 6 ∧ ¬ (s = 1 ∧ g = 8)) ∨ (g = 2 * s + 7 ∧ 14 ≤ s)

theorem hex_comm (u v : Int) : hex u v = hex v u := by unfold hex; ring

/-! ### Small extents, by exhaustion -/

def shellPoints : List (Int × Int) := [(-1, -1), (-1, 0), (-1, 1), (0, -1), (0, 0), (0, 1), (1, -1), (1, 0), (1, 1)]
def farPoints : List (Int × Int) := [-3, -2, -1, 0, 1, 2, 3].flatMap (fun m => [-1, 0, 1].map (fun n => (m, n)))

def shellWins (L M : Nat) : Bool :=
  (List.range L).all fun c => (List.range M).all fun e => shellPoints.any fun p => farPoints.all fun q =>
    decide (hex ((c : Int) + p.1 * L) ((e : Int) + p.2 * M) ≤ hex ((c : Int) + q.1 * L) ((e : Int) + q.2 * M))

theorem shellWins_spec {L M : Nat} (h : shellWins L M = true) {c e : Int} (hc : 0 ≤ c ∧ c < L) (he : 0 ≤ e ∧ e < M) :
    ∃ p q : Int, (-1 ≤ p ∧ p ≤ 1) ∧ (-1 ≤ q ∧ q ≤ 1) ∧ ∀ m n : Int, -3 ≤ m → m ≤ 3 → -1 ≤ n → n ≤ 1 →
      hex (c + p * L) (e + q * M) ≤ hex (c + m * L) (e + n * M) := by
  unfold shellWins at h
  rw [List.all_eq_true] at h
  have h := h c.toNat (List.mem_range.2 (by omega))
  rw [List.all_eq_true] at h
  have h := h e.toNat (List.mem_range.2 (by omega))
  rw [List.any_eq_true] at h
  obtain ⟨⟨p, q⟩, hp, h⟩ := h
  rw [List.all_eq_true] at h
  have e1 : ((c.toNat : Nat) : Int) = c := by omega
  have e2 : ((e.toNat : Nat) : Int) = e := by omega
  rw [e1, e2] at h
  refine ⟨p, q, ?_, ?_, fun m n h1 h2 h3 h4 => ?_⟩
  · simp [shellPoints] at hp; omega
  · simp [shellPoints] at hp; omega
  · refine of_decide_eq_true (h (m, n) ?_)
    refine List.mem_flatMap.2 ⟨m, ?_, List.mem_map.2 ⟨n, ?_, rfl⟩⟩
    · simp only [List.mem_cons, List.not_mem_nil, or_false]; omega
    · simp only [List.mem_cons, List.not_mem_nil, or_false]; omega

theorem wins_small : shellWins 1 4 = true ∧ shellWins 1 5 = true ∧ shellWins 1 6 = true ∧ shellWins 1 7 = true ∧
    shellWins 2 8 = true ∧ shellWins 2 9 = true ∧ shellWins 2 10 = true ∧ shellWins 3 12 = true := by
  decide +kernel

/-! ### All extents -/

/-- A nearest image satisfies these inequalities. -/
theorem nearest_bounds {L M c e : Int} (hL : 0 < L) (hM : 0 < M) : ∃ m n : Int,
    (∀ m' n', hex (c + m * L) (e + n * M) ≤ hex (c + m' * L) (e + n' * M)) ∧
    (-L ≤ 2 * (c + m * L) + (e + n * M) ∧ 2 * (c + m * L) + (e + n * M) ≤ L) ∧
    (-M ≤ (c + m * L) + 2 * (e + n * M) ∧ (c + m * L) + 2 * (e + n * M) ≤ M) := by
  obtain ⟨m, n, hmin⟩ := least_pair (fun m n => (hex (c + m * L) (e + n * M)).toNat)
  have hmin' : ∀ m' n', hex (c + m * L) (e + n * M) ≤ hex (c + m' * L) (e + n' * M) := by
    intro m' n'
    have := hmin m' n'
    have h3 := hex_nonneg (c + m * L) (e + n * M)
    have h4 := hex_nonneg (c + m' * L) (e + n' * M)
    omega
  refine ⟨m, n, hmin', ?_⟩
  have e1 := hmin' (m + 1) n
  have e2 := hmin' (m - 1) n
  have e3 := hmin' m (n + 1)
  have e4 := hmin' m (n - 1)
  have hu : c + (m + 1) * L = (c + m * L) + L ∧ c + (m - 1) * L = (c + m * L) - L := ⟨by ring, by ring⟩
  have hv : e + (n + 1) * M = (e + n * M) + M ∧ e + (n - 1) * M = (e + n * M) - M := ⟨by ring, by ring⟩
  rw [hu.1] at e1
  rw [hu.2] at e2
  rw [hv.1] at e3
  rw [hv.2] at e4
  clear hmin hmin' hu hv
  generalize c + m * L = u at *
  generalize e + n * M = v at *
  unfold hex at e1 e2 e3 e4
  exact ⟨⟨by nlinarith, by nlinarith⟩, ⟨by nlinarith, by nlinarith⟩⟩

/-- The key comparison: an image two periods away against one in the shell. -/
theorem shell_beats {L M k v : Int} (hL : 0 < L) (hLM : L ≤ M) (hk : 1 ≤ k) (hc : (M - 2 * L) * (M - L - 5) ≤ 8 * L)
    (hv : L + 2 * k + 1 ≤ v) : hex (L - k) (v - M) ≤ hex (-L - k) v := by
  have h1 : 0 ≤ (M - L) * (v - (L + 2 * k + 1)) := mul_nonneg (by omega) (by omega)
  have h2 : 0 ≤ M * (k - 1) := mul_nonneg (by omega) (by omega)
  unfold hex
  nlinarith

theorem hex_shell_le {L M : Nat} {c e : Int} (hL : 0 < L) (hLM : L ≤ M) (hC : Compact L M) (hc : 0 ≤ c ∧ c < (L : Int))
    (he : 0 ≤ e ∧ e < (M : Int)) : ∃ m n : Int, (-1 ≤ m ∧ m ≤ 1) ∧ (-1 ≤ n ∧ n ≤ 1) ∧
      ∀ m' n', hex (c + m * L) (e + n * M) ≤ hex (c + m' * L) (e + n' * M) := by
  unfold Compact at hC
  simp only [min_eq_left hLM, max_eq_right hLM] at hC
  obtain ⟨m, n, hmin, ⟨f1, f2⟩, ⟨f3, f4⟩⟩ := nearest_bounds (L := L) (M := M) (c := c) (e := e) (by omega) (by omega)
  have hn : -1 ≤ n ∧ n ≤ 1 := by
    constructor
    · by_contra h
      have : n * (M : Int) ≤ -2 * M := mul_le_mul_of_nonneg_right (by omega) (by omega)
      omega
    · by_contra h
      have : 2 * (M : Int) ≤ n * M := mul_le_mul_of_nonneg_right (by omega) (by omega)
      omega
  by_cases hbig : 4 * L ≤ M
  · -- small extents
    have fin : ∀ L' M' : Nat, L = L' → M = M' → shellWins L' M' = true → -3 ≤ m → m ≤ 3 → ∃ m n : Int, (-1 ≤ m ∧ m ≤ 1) ∧
        (-1 ≤ n ∧ n ≤ 1) ∧ ∀ m' n', hex (c + m * L) (e + n * M) ≤ hex (c + m' * L) (e + n' * M) := by
      rintro _ _ rfl rfl hw h1 h2
      obtain ⟨p, q, hp, hq, h⟩ := shellWins_spec hw hc he
      exact ⟨p, q, hp, hq, fun m' n' => (h m n h1 h2 hn.1 hn.2).trans (hmin m' n')⟩
    obtain ⟨w1, w2, w3, w4, w5, w6, w7, w8⟩ := wins_small
    have hcase : (L = 1 ∧ M = 4) ∨ (L = 1 ∧ M = 5) ∨ (L = 1 ∧ M = 6) ∨ (L = 1 ∧ M = 7) ∨ (L = 2 ∧ M = 8) ∨
        (L = 2 ∧ M = 9) ∨ (L = 2 ∧ M = 10) ∨ (L = 3 ∧ M = 12) := by omega
    rcases hcase with ⟨h1, h2⟩ | ⟨h1, h2⟩ | ⟨h1, h2⟩ | ⟨h1, h2⟩ | ⟨h1, h2⟩ | ⟨h1, h2⟩ | ⟨h1, h2⟩ | ⟨h1, h2⟩
    · exact fin _ _ h1 h2 w1 (by subst h1 h2; omega) (by subst h1 h2; omega)
    · exact fin _ _ h1 h2 w2 (by subst h1 h2; omega) (by subst h1 h2; omega)
    · exact fin _ _ h1 h2 w3 (by subst h1 h2; omega) (by subst h1 h2; omega)
    · exact fin _ _ h1 h2 w4 (by subst h1 h2; omega) (by subst h1 h2; omega)
    · exact fin _ _ h1 h2 w5 (by subst h1 h2; omega) (by subst h1 h2; omega)
    · exact fin _ _ h1 h2 w6 (by subst h1 h2; omega) (by subst h1 h2; omega)
    · exact fin _ _ h1 h2 w7 (by subst h1 h2; omega) (by subst h1 h2; omega)
    · exact fin _ _ h1 h2 w8 (by subst h1 h2; omega) (by subst h1 h2; omega)
  · have hm2 : m ≤ 1 := by
      by_contra h
      have : 2 * (L : Int) ≤ m * L := mul_le_mul_of_nonneg_right (by omega) (by omega)
      omega
    have hm1 : -2 ≤ m := by
      by_contra h
      have : m * (L : Int) ≤ -3 * L := mul_le_mul_of_nonneg_right (by omega) (by omega)
      omega
    by_cases hm : -1 ≤ m
    · exact ⟨m, n, ⟨hm, hm2⟩, hn, hmin⟩
    · obtain rfl : m = -2 := by omega
      -- the image is two periods away
      by_cases hv : 2 * (c + -2 * (L : Int)) + (e + n * M) + L ≤ 0
      · refine ⟨-1, n, by omega, hn, fun m' n' => le_trans ?_ (hmin m' n')⟩
        have : 0 ≤ (L : Int) * -(2 * (c + -2 * (L : Int)) + (e + n * M) + L) := mul_nonneg (by omega) (by omega)
        unfold hex
        nlinarith
      · have hv0 : 0 < e + n * (M : Int) := by omega
        have hn0 : 0 ≤ n := by
          by_contra h
          have : n * (M : Int) ≤ -1 * M := mul_le_mul_of_nonneg_right (by omega) (by omega)
          omega
        refine ⟨0, n - 1, by omega, by omega, fun m' n' => le_trans ?_ (hmin m' n')⟩
        have hcond : ((M : Int) - 2 * L) * (M - L - 5) ≤ 8 * L := by
          obtain ⟨t, ht⟩ : ∃ t : Int, (M : Int) = 2 * L + t := ⟨M - 2 * L, by ring⟩
          rw [ht]
          have h8 : t ≤ 7 := by omega
          by_cases h0 : 0 ≤ t
          · have : t = 0 ∨ t = 1 ∨ t = 2 ∨ t = 3 ∨ t = 4 ∨ t = 5 ∨ (t = 6 ∧ 3 ≤ L) ∨ (t = 7 ∧ 14 ≤ L) := by omega
            rcases this with rfl | rfl | rfl | rfl | rfl | rfl | ⟨rfl, _⟩ | ⟨rfl, _⟩
            all_goals ring_nf
            all_goals omega
          · have : 0 ≤ -t * (L + t) := mul_nonneg (by omega) (by omega)
            nlinarith
        have := shell_beats (L := L) (M := M) (k := L - c) (v := e + n * M) (by omega) (by omega) (by omega) hcond (by omega)
        rw [show (L : Int) - (L - c) = c + 0 * L by ring, show e + n * (M : Int) - M = e + (n - 1) * M by ring,
          show -(L : Int) - (L - c) = c + -2 * L by ring] at this
        exact this

theorem hex_shell_compact {L M : Nat} {c e : Int} (hL : 0 < L) (hM : 0 < M) (hC : Compact L M) (hc : 0 ≤ c ∧ c < (L : Int))
    (he : 0 ≤ e ∧ e < (M : Int)) : ∃ m n : Int, (-1 ≤ m ∧ m ≤ 1) ∧ (-1 ≤ n ∧ n ≤ 1) ∧
      ∀ m' n', hex (c + m * L) (e + n * M) ≤ hex (c + m' * L) (e + n' * M) := by
  rcases Nat.le_total L M with h | h
  · exact hex_shell_le hL h hC hc he
  · have hC' : Compact M L := by
      unfold Compact at hC ⊢
      rwa [min_comm, max_comm]
    obtain ⟨n, m, hn, hm, hh⟩ := hex_shell_le hM h hC' he hc
    refine ⟨m, n, hm, hn, fun m' n' => ?_⟩
    rw [hex_comm, hex_comm (c + m' * L)]
    exact hh n' m'

/-- On other extents the image two periods away of one site is nearer than all those in the shell. -/
theorem hex_far {L t m n : Int} (hL : 0 < L) (ht : (t = 6 ∧ L = 1) ∨ (t = 7 ∧ L ≤ 13) ∨ 8 ≤ t) (hm : -1 ≤ m ∧ m ≤ 1)
    (hn : -1 ≤ n ∧ n ≤ 1) :
    hex (L - 1 + -2 * L) (L + 3) < hex (L - 1 + m * L) (L + 3 + n * (2 * L + t)) := by
  have h6 : 6 ≤ t := by omega
  obtain rfl | rfl | rfl : m = -1 ∨ m = 0 ∨ m = 1 := by omega
  all_goals obtain rfl | rfl | rfl : n = -1 ∨ n = 0 ∨ n = 1 := by omega
  all_goals unfold hex
  all_goals rcases ht with ⟨rfl, rfl⟩ | ⟨rfl, h⟩ | h
  all_goals nlinarith


section
variable {A : Arith ℝ} {b : Bravais (Num A)}

/-- If some image of a site is nearer to the origin than those in the first shell, then distances are not least. -/
theorem not_nearest (hA : A.IsReal) (hb : triangularLattice = .ok b) {L M : Nat} (hs : Buildable [L, M])
    {l : Lattice (Num A)} (hl : Lattice.new b [L, M] .closed = .ok l) {c e p q : Int} (hc : 0 ≤ c ∧ c < (L : Int))
    (he : 0 ≤ e ∧ e < (M : Int)) (h : ∀ m n : Int, (-1 ≤ m ∧ m ≤ 1) → (-1 ≤ n ∧ n ≤ 1) →
      hex (c + p * L) (e + q * M) < hex (c + m * L) (e + n * M)) :
    ¬ NearestImage [L, M] [1, 0, 1 / 2, √3 / 2] l := by
  intro hN
  obtain ⟨hh, hr⟩ := triangular_cases hA hb
  have hg : OnGrid [c, e] [L, M] := .cons hc (.cons he .nil)
  have hy := idx_lt hg
  have hx : 0 < [L, M].prod := by omega
  obtain ⟨m, hm, -, hD, -⟩ := closed_eq hA hs (size := [L, M]) hh hr hl hx hy
  obtain ⟨D, h1, h2⟩ := hN.least 0 _ (crd [L, M] 0) (crd [L, M] (idx [L, M] [c, e])) hx hy
    (by rw [(new_parts hl).1, getCoordinates_eq hs.1 (buildable_fits hs) .closed hx])
    (by rw [(new_parts hl).1, getCoordinates_eq hs.1 (buildable_fits hs) .closed hy])
  have hmin : minus [c, e] (crd [L, M] 0) = [c, e] := by
    rw [crd_zero]
    simp [minus, List.replicate]
  rw [crd_idx hs.1.1 hg] at hD h2
  rw [hmin, wrap_of_onGrid hg, reach_triangular] at hD
  unfold Dist at h1
  rw [hD, Res.ok.injEq, Num.fin.injEq] at h1
  have h3 := h2.2 ⟨[p, q], rfl, rfl⟩
  unfold imageDistance at h3
  rw [minus_image (by simp) (by simp), hmin] at h3
  change D ≤ reach [L, M] _ [c, e] [p, q] at h3
  rw [reach_triangular, ← h1] at h3
  have h4 := h (coord m 0) (coord m 1) (hm.coord 0) (hm.coord 1)
  have h5 := (Real.sqrt_le_sqrt_iff (by exact_mod_cast hex_nonneg _ _)).1 h3
  have h6 : hex (c + coord m 0 * L) (e + coord m 1 * M) ≤ hex (c + p * L) (e + q * M) := by exact_mod_cast h5
  omega

theorem shell_of_compact {L M : Nat} (hL : 0 < L) (hM : 0 < M) (hC : Compact L M) :
    ShellSuffices [L, M] [1, 0, 1 / 2, √3 / 2] := by
  intro c hc m hm
  have hg := (onGrid_iff.1 hc).2
  have g0 : 0 ≤ coord c 0 ∧ coord c 0 < (L : Int) := hg 0 (by simp)
  have g1 : 0 ≤ coord c 1 ∧ coord c 1 < (M : Int) := hg 1 (by simp)
  obtain ⟨p, q, hp, hq, hmin⟩ := hex_shell_compact hL hM hC g0 g1
  refine ⟨[p, q], ⟨rfl, fun x hx => ?_⟩, ?_⟩
  · simp only [List.mem_cons, List.not_mem_nil, or_false] at hx
    rcases hx with rfl | rfl
    · exact hp
    · exact hq
  · rw [reach_triangular, reach_triangular]
    exact Real.sqrt_le_sqrt (by exact_mod_cast hmin _ _)

/-- C75.  On a closed triangular lattice of any extents `GetDistance` is the least distance over all periodic images if and
only if the larger extent is at most twice the smaller plus six, apart from 1 by 8 which fails and extents `s` and
`2 s + 7` with `s ≥ 14` which do not.  Missing: the property claims it for all extents. -/
theorem C75_triangular_iff_partial (hA : A.IsReal) (hb : triangularLattice = .ok b) (L M : Nat) (hs : Buildable [L, M])
    (l : Lattice (Num A)) (hl : Lattice.new b [L, M] .closed = .ok l) :
    NearestImage [L, M] [1, 0, 1 / 2, √3 / 2] l ↔
      (max L M ≤ 2 * min L M + 6 ∧ ¬ (min L M = 1 ∧ max L M = 8)) ∨ (max L M = 2 * min L M + 7 ∧ 14 ≤ min L M) := by
  have hL : 0 < L := hs.1.1 L (by simp)
  have hM : 0 < M := hs.1.1 M (by simp)
  constructor
  · intro hN
    by_contra hC
    rcases Nat.le_total L M with hLM | hLM
    · rw [min_eq_left hLM, max_eq_right hLM] at hC
      obtain ⟨t, ht⟩ : ∃ t : Int, (M : Int) = 2 * L + t := ⟨M - 2 * L, by ring⟩
      refine not_nearest hA hb hs hl (c := L - 1) (e := L + 3) (p := -2) (q := 0) (by omega) (by omega) ?_ hN
      intro m n hm hn
      rw [ht]
      have := hex_far (L := L) (t := t) (by omega) (by omega) hm hn
      simpa using this
    · rw [min_eq_right hLM, max_eq_left hLM] at hC
      obtain ⟨t, ht⟩ : ∃ t : Int, (L : Int) = 2 * M + t := ⟨L - 2 * M, by ring⟩
      refine not_nearest hA hb hs hl (c := M + 3) (e := M - 1) (p := 0) (q := -2) (by omega) (by omega) ?_ hN
      intro m n hm hn
      rw [ht, hex_comm, hex_comm (_ + m * _)]
      have := hex_far (L := M) (t := t) (by omega) (by omega) hn hm
      simpa using this
  · intro hC
    obtain ⟨hh, hr⟩ := triangular_cases hA hb
    exact nearestImage hA hs (size := [L, M]) hh hr (independent_of_dual triangular_dual) (shell_of_compact hL hM hC) hl

/-- Both kinds of lattice exist. -/
example : ∃ (b : Bravais (Num realArith)) (l l' : Lattice (Num realArith)), triangularLattice = .ok b ∧
    Lattice.new b [3, 12] .closed = .ok l ∧ Lattice.new b [9, 1] .closed = .ok l' ∧
    NearestImage [3, 12] [1, 0, 1 / 2, √3 / 2] l ∧ ¬ NearestImage [9, 1] [1, 0, 1 / 2, √3 / 2] l' := by
  obtain ⟨b, h1, h2⟩ := triangular_regular (F := Num realArith)
  have hs : Buildable [3, 12] := ⟨by decide, by decide⟩
  have hs' : Buildable [9, 1] := ⟨by decide, by decide⟩
  obtain ⟨l, hl, -⟩ := C73_defined hs (b := b) h2 .closed (fun _ => by decide)
  obtain ⟨l', hl', -⟩ := C73_defined hs' (b := b) h2 .closed (fun _ => by decide)
  exact ⟨b, l, l', h1, hl, hl', (C75_triangular_iff_partial realArith_isReal h1 3 12 hs l hl).2 (by decide),
    fun h => absurd ((C75_triangular_iff_partial realArith_isReal h1 9 1 hs' l' hl').1 h) (by decide)⟩

end

end Bwsl
