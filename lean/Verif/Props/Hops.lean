import Verif.Spec.Hops
import Verif.Props.Geometry
import Verif.Props.Jump

/-! Property C107: the number of steps between two sites. -/

namespace Bwsl
open Spec

section
variable {F : Type} [CxxFloat F] {b : Bravais F} {size : List Nat}

/-- `ν` counts the steps needed for a displacement; a first step that does not leave the box spanned by the displacement
can be chosen. -/
structure StepNorm (d g : Nat) (N : List Int) (ν : List Int → Nat) : Prop where
  zero : ∀ c, c.length = d → (ν c = 0 ↔ ∀ i, i < d → coord c i = 0)
  lip : ∀ c k, c.length = d → k < g → ν (plus c (step d N k)) ≤ ν c + 1
  down : ∀ c, c.length = d → ν c ≠ 0 → ∃ k, k < g ∧ ν (minus c (step d N k)) + 1 = ν c ∧ ∀ i, i < d →
    (0 ≤ coord (step d N k) i ∧ coord (step d N k) i ≤ coord c i) ∨
    (coord c i ≤ coord (step d N k) i ∧ coord (step d N k) i ≤ 0)

/-- Steps lead from sites to sites. -/
theorem adjacent_lt (hs : Buildable size) (hb : Directed b size.length) {bd : Boundaries} {l : Lattice F}
    (hl : Lattice.new b size bd = .ok l) {x y : Nat} (hx : x < size.prod) (h : Adjacent l x y) : y < size.prod := by
  obtain ⟨k, -, h⟩ := (adjacent_iff hs hb hl hx).1 h
  exact target_lt hs (onGrid_length (crd_onGrid hs.1.1 hx)) h

theorem hops_lower_closed {ν : List Int → Nat} (hν : StepNorm size.length b.gamma b.neighbors ν) (hs : Buildable size)
    (hb : Directed b size.length) {l : Lattice F} (hl : Lattice.new b size .closed = .ok l) {n x y : Nat}
    (h : Hops (Adjacent l) n x y) (hx : x < size.prod) (hy : y < size.prod) :
    ∃ c, Congruent c (minus (crd size y) (crd size x)) size ∧ ν c ≤ n := by
  induction h with
  | zero x =>
    have hc := onGrid_length (crd_onGrid hs.1.1 hx)
    refine ⟨List.replicate size.length 0, congruent_iff.2 ⟨by simp, length_minus hc hc, fun i hi => ?_⟩, ?_⟩
    · rw [coord_minus rfl, sub_self]
      simp [coord, List.getD_eq_getElem?_getD, hi]
    · rw [((hν.zero (List.replicate size.length 0) (by simp)).2 (fun i hi => by
        simp [coord, List.getD_eq_getElem?_getD, hi]))]
  | @succ n x z y hadj _ ih =>
    have hz := adjacent_lt hs hb hl hx hadj
    obtain ⟨c, hc, hn⟩ := ih hz hy
    obtain ⟨k, hk, ht⟩ := (adjacent_iff hs hb hl hx).1 hadj
    have lx := onGrid_length (crd_onGrid hs.1.1 hx)
    have ly := onGrid_length (crd_onGrid hs.1.1 hy)
    have lz := onGrid_length (crd_onGrid hs.1.1 hz)
    have ls := length_step size.length b.neighbors k
    obtain ⟨-, -, ht⟩ := congruent_iff.1 ((target_iff hs lx hz).1 ht)
    obtain ⟨lc, -, hc⟩ := congruent_iff.1 hc
    refine ⟨plus c (step size.length b.neighbors k), congruent_iff.2 ⟨length_plus ls lc, length_minus lx ly, fun i hi => ?_⟩,
      le_trans (hν.lip c k lc hk) (by omega)⟩
    have h1 := ht i hi
    have h2 := hc i hi
    rw [coord_plus (ls.trans lx.symm)] at h1
    rw [coord_minus (lz.trans ly.symm)] at h2
    rw [coord_plus (ls.trans lc.symm), coord_minus (lx.trans ly.symm)]
    have := dvd_sub h2 h1
    have e : coord c i + coord (step size.length b.neighbors k) i - (coord (crd size y) i - coord (crd size x) i) =
      coord c i - (coord (crd size y) i - coord (crd size z) i) -
        (coord (crd size z) i - (coord (crd size x) i + coord (step size.length b.neighbors k) i)) := by ring
    rw [e]; exact this

theorem crd_eq_of_congruent (hs : Buildable size) {x y : Nat} (hx : x < size.prod) (hy : y < size.prod)
    (h : ∀ i, i < size.length → extent size i ∣ coord (crd size y) i - coord (crd size x) i) : x = y := by
  have cx := onGrid_iff.1 (crd_onGrid hs.1.1 hx)
  have cy := onGrid_iff.1 (crd_onGrid hs.1.1 hy)
  have : crd size x = crd size y := by
    refine ext_coord (cx.1.trans cy.1.symm) (fun i hi => ?_)
    rw [cx.1] at hi
    have h1 := cx.2 i hi
    have h2 := cy.2 i hi
    have h4 := Int.emod_eq_emod_iff_emod_sub_eq_zero.2 (Int.emod_eq_zero_of_dvd (h i hi))
    rw [Int.emod_eq_of_lt h1.1 h1.2, Int.emod_eq_of_lt h2.1 h2.2] at h4
    exact h4.symm
  rw [← idx_crd hs.1.1 hx, this, idx_crd hs.1.1 hy]

theorem hops_upper_closed {ν : List Int → Nat} (hν : StepNorm size.length b.gamma b.neighbors ν) (hs : Buildable size)
    (hb : Directed b size.length) {l : Lattice F} (hl : Lattice.new b size .closed = .ok l) (n : Nat) :
    ∀ (x y : Nat) (c : List Int), x < size.prod → y < size.prod → Congruent c (minus (crd size y) (crd size x)) size →
      ν c = n → Hops (Adjacent l) n x y := by
  induction n with
  | zero =>
    intro x y c hx hy hc hn
    have lx := onGrid_length (crd_onGrid hs.1.1 hx)
    have ly := onGrid_length (crd_onGrid hs.1.1 hy)
    obtain ⟨lc, -, hc⟩ := congruent_iff.1 hc
    have hz := (hν.zero c lc).1 hn
    have : x = y := crd_eq_of_congruent hs hx hy (fun i hi => by
      have := hc i hi
      rw [hz i hi, coord_minus (lx.trans ly.symm), zero_sub, dvd_neg] at this
      exact this)
    rw [this]; exact .zero y
  | succ n ih =>
    intro x y c hx hy hc hn
    have lx := onGrid_length (crd_onGrid hs.1.1 hx)
    have ly := onGrid_length (crd_onGrid hs.1.1 hy)
    obtain ⟨lc, -, hc⟩ := congruent_iff.1 hc
    obtain ⟨k, hk, hd, -⟩ := hν.down c lc (by omega)
    have ls := length_step size.length b.neighbors k
    have lp := length_plus ls lx
    have hg : OnGrid (wrap size (plus (crd size x) (step size.length b.neighbors k))) size := wrap_onGrid hs.1.1 lp
    have hadj : Adjacent l x (idx size (wrap size (plus (crd size x) (step size.length b.neighbors k)))) :=
      (adjacent_iff hs hb hl hx).2 ⟨k, hk, rfl⟩
    refine .succ hadj (ih _ y (minus c (step size.length b.neighbors k)) (idx_lt hg) hy ?_ (by omega))
    rw [crd_idx hs.1.1 hg]
    have lw := onGrid_length hg
    refine congruent_iff.2 ⟨length_minus ls lc, length_minus lw ly, fun i hi => ?_⟩
    have h2 := hc i hi
    rw [coord_minus (lx.trans ly.symm)] at h2
    rw [coord_minus (ls.trans lc.symm), coord_minus (lw.trans ly.symm), coord_wrap lp hi, coord_plus (ls.trans lx.symm)]
    have h3 := Int.emod_add_mul_ediv (coord (crd size x) i + coord (step size.length b.neighbors k) i) (extent size i)
    obtain ⟨q, hq⟩ := h2
    refine ⟨q - (coord (crd size x) i + coord (step size.length b.neighbors k) i) / extent size i, ?_⟩
    rw [mul_sub]
    linarith

theorem hops_lower_open {ν : List Int → Nat} (hν : StepNorm size.length b.gamma b.neighbors ν) (hs : Buildable size)
    (hb : Directed b size.length) {l : Lattice F} (hl : Lattice.new b size .open = .ok l) {n x y : Nat}
    (h : Hops (Adjacent l) n x y) (hx : x < size.prod) (hy : y < size.prod) :
    ν (minus (crd size y) (crd size x)) ≤ n := by
  induction h with
  | zero x =>
    have hc := onGrid_length (crd_onGrid hs.1.1 hx)
    rw [(hν.zero _ (length_minus hc hc)).2 (fun i hi => by rw [coord_minus rfl, sub_self])]
  | @succ n x z y hadj _ ih =>
    have hz := adjacent_lt hs hb hl hx hadj
    have hn := ih hz hy
    obtain ⟨k, hk, ht⟩ := (adjacent_iff hs hb hl hx).1 hadj
    have lx := onGrid_length (crd_onGrid hs.1.1 hx)
    have ly := onGrid_length (crd_onGrid hs.1.1 hy)
    have lz := onGrid_length (crd_onGrid hs.1.1 hz)
    have ls := length_step size.length b.neighbors k
    have ht : crd size z = plus (crd size x) (step size.length b.neighbors k) := (target_iff hs lx hz).1 ht
    have lm := length_minus lz ly
    have e : minus (crd size y) (crd size x) = plus (minus (crd size y) (crd size z)) (step size.length b.neighbors k) := by
      refine ext_coord ((length_minus lx ly).trans (length_plus ls lm).symm) (fun i hi => ?_)
      rw [coord_plus (ls.trans lm.symm), coord_minus (lx.trans ly.symm), coord_minus (lz.trans ly.symm), ht,
        coord_plus (ls.trans lx.symm)]
      ring
    rw [e]
    exact le_trans (hν.lip _ k lm hk) (by omega)

theorem hops_upper_open {ν : List Int → Nat} (hν : StepNorm size.length b.gamma b.neighbors ν) (hs : Buildable size)
    (hb : Directed b size.length) {l : Lattice F} (hl : Lattice.new b size .open = .ok l) (n : Nat) :
    ∀ (x y : Nat), x < size.prod → y < size.prod → ν (minus (crd size y) (crd size x)) = n → Hops (Adjacent l) n x y := by
  induction n with
  | zero =>
    intro x y hx hy hn
    have lx := onGrid_length (crd_onGrid hs.1.1 hx)
    have ly := onGrid_length (crd_onGrid hs.1.1 hy)
    have hz := (hν.zero _ (length_minus lx ly)).1 hn
    have : x = y := crd_eq_of_congruent hs hx hy (fun i hi => by
      have := hz i hi
      rw [coord_minus (lx.trans ly.symm)] at this
      rw [this]; exact dvd_zero _)
    rw [this]; exact .zero y
  | succ n ih =>
    intro x y hx hy hn
    have gx := onGrid_iff.1 (crd_onGrid hs.1.1 hx)
    have gy := onGrid_iff.1 (crd_onGrid hs.1.1 hy)
    obtain ⟨k, hk, hd, hbox⟩ := hν.down _ (length_minus gx.1 gy.1) (by omega)
    have ls := length_step size.length b.neighbors k
    have lp := length_plus ls gx.1
    have hg : OnGrid (plus (crd size x) (step size.length b.neighbors k)) size := by
      refine onGrid_iff.2 ⟨lp, fun i hi => ?_⟩
      have h1 := gx.2 i hi
      have h2 := gy.2 i hi
      have h3 := hbox i hi
      rw [coord_minus (gx.1.trans gy.1.symm)] at h3
      rw [coord_plus (ls.trans gx.1.symm)]
      omega
    have hadj : Adjacent l x (idx size (plus (crd size x) (step size.length b.neighbors k))) :=
      (adjacent_iff hs hb hl hx).2 ⟨k, hk, if_pos hg⟩
    refine .succ hadj (ih _ y (idx_lt hg) hy ?_)
    rw [crd_idx hs.1.1 hg]
    have e : minus (crd size y) (plus (crd size x) (step size.length b.neighbors k)) =
        minus (minus (crd size y) (crd size x)) (step size.length b.neighbors k) := by
      refine ext_coord ((length_minus lp gy.1).trans (length_minus ls (length_minus gx.1 gy.1)).symm) (fun i hi => ?_)
      rw [coord_minus (lp.trans gy.1.symm), coord_plus (ls.trans gx.1.symm),
        coord_minus (ls.trans (length_minus gx.1 gy.1).symm), coord_minus (gx.1.trans gy.1.symm)]
      ring
    rw [e]
    omega

/-! ### The norms -/

/-- Every direction is that of an axis. -/
def OnlyAxes (d g : Nat) (N : List Int) : Prop :=
  ∀ k, k < g → ∃ j, j < d ∧ ∃ s : Int, (s = 1 ∨ s = -1) ∧ ∀ i, i < d → coord (step d N k) i = if i = j then s else 0

theorem manhattan_eq {c : List Int} {d : Nat} (h : c.length = d) :
    (manhattan c : Int) = ∑ i ∈ Finset.range d, |coord c i| := by
  subst h
  unfold manhattan
  induction c with
  | nil => rfl
  | cons x xs ih =>
    rw [List.map_cons, List.sum_cons, List.length_cons, Finset.sum_range_succ', Nat.cast_add, ih]
    simp only [coord_cons_succ, coord_cons_zero, Int.natCast_natAbs]
    ring

theorem sum_change {d j : Nat} (hj : j < d) {f g : Nat → Int} (h : ∀ i, i < d → i ≠ j → f i = g i) :
    ∑ i ∈ Finset.range d, f i - ∑ i ∈ Finset.range d, g i = f j - g j := by
  rw [← Finset.sum_sub_distrib, Finset.sum_eq_single_of_mem j (Finset.mem_range.2 hj)]
  intro i hi hne
  rw [h i (Finset.mem_range.1 hi) hne, sub_self]

theorem stepNorm_manhattan {d g : Nat} {N : List Int} (he : g % 2 = 0) (ha : Axes d g N) (ho : OnlyAxes d g N) :
    StepNorm d g N manhattan where
  zero c hc := by
    have h := manhattan_eq hc
    constructor
    · intro h0 i hi
      rw [h0] at h
      have := (Finset.sum_eq_zero_iff_of_nonneg (fun i _ => abs_nonneg (coord c i))).1 h.symm i (Finset.mem_range.2 hi)
      exact abs_eq_zero.1 this
    · intro h0
      rw [Finset.sum_eq_zero (fun i hi => by rw [h0 i (Finset.mem_range.1 hi), abs_zero])] at h
      exact_mod_cast h
  lip c k hc hk := by
    obtain ⟨j, hj, s, hs, hstep⟩ := ho k hk
    have ls := length_step d N k
    have h := sum_change hj (f := fun i => |coord (plus c (step d N k)) i|) (g := fun i => |coord c i|) (fun i hi hne => by
      show |_| = |_|
      rw [coord_plus (ls.trans hc.symm), hstep i hi, if_neg hne, add_zero])
    rw [← manhattan_eq hc, ← manhattan_eq (length_plus ls hc)] at h
    have e : coord (plus c (step d N k)) j = coord c j + s := by
      rw [coord_plus (ls.trans hc.symm), hstep j hj, if_pos rfl]
    simp only [e] at h
    have : |coord c j + s| ≤ |coord c j| + 1 := by
      refine le_trans (abs_add_le _ _) ?_
      rcases hs with rfl | rfl <;> simp
    omega
  down c hc hn := by
    have hh := manhattan_eq hc
    obtain ⟨j, hj, hne⟩ : ∃ j, j < d ∧ coord c j ≠ 0 := by
      by_contra hcon
      refine hn ?_
      rw [Finset.sum_eq_zero (fun i hi => by
        by_contra h
        exact hcon ⟨i, Finset.mem_range.1 hi, fun h' => h (by rw [h', abs_zero])⟩)] at hh
      exact_mod_cast hh
    obtain ⟨k, hk, hstep⟩ := ha j hj
    have key : ∀ k s, k < g → (s = 1 ∨ s = -1) → (∀ i, i < d → coord (step d N k) i = if i = j then s else 0) →
        |coord c j - s| + 1 = |coord c j| → ((0 ≤ s ∧ s ≤ coord c j) ∨ (coord c j ≤ s ∧ s ≤ 0)) →
        ∃ k, k < g ∧ manhattan (minus c (step d N k)) + 1 = manhattan c ∧ ∀ i, i < d →
          (0 ≤ coord (step d N k) i ∧ coord (step d N k) i ≤ coord c i) ∨
          (coord c i ≤ coord (step d N k) i ∧ coord (step d N k) i ≤ 0) := by
      intro k s hk _ hstep hs hbox
      have ls := length_step d N k
      refine ⟨k, hk, ?_, fun i hi => ?_⟩
      · have h := sum_change hj (f := fun i => |coord (minus c (step d N k)) i|) (g := fun i => |coord c i|) (fun i hi hne => by
          show |_| = |_|
          rw [coord_minus (ls.trans hc.symm), hstep i hi, if_neg hne, sub_zero])
        rw [← hh, ← manhattan_eq (length_minus ls hc)] at h
        have e : coord (minus c (step d N k)) j = coord c j - s := by
          rw [coord_minus (ls.trans hc.symm), hstep j hj, if_pos rfl]
        simp only [e] at h
        omega
      · rw [hstep i hi]
        split
        · rename_i e; rw [e]; exact hbox
        · omega
    rcases lt_or_gt_of_ne hne with hneg | hpos
    · refine key (flip k) (-1) (flip_lt he hk) (.inr rfl) (fun i hi => ?_) (by
        rw [abs_of_nonpos (by omega), abs_of_neg hneg]; omega) (.inr (by omega))
      rw [coord_step_flip hi, hstep i hi]
      split <;> rfl
    · exact key k 1 hk (.inl rfl) hstep (by rw [abs_of_nonneg (by omega), abs_of_pos hpos]; omega) (.inl (by omega))

theorem onlyAxes_chain : OnlyAxes 1 2 [1] := fun k hk => ⟨k / 2, by omega, if k % 2 = 0 then 1 else -1, by split <;> simp,
  fun i hi => by interval_cases k <;> interval_cases i <;> decide⟩
theorem onlyAxes_square : OnlyAxes 2 4 [1, 0, 0, 1] := fun k hk => ⟨k / 2, by omega, if k % 2 = 0 then 1 else -1,
  by split <;> simp, fun i hi => by interval_cases k <;> interval_cases i <;> decide⟩
theorem onlyAxes_cubic : OnlyAxes 3 6 [1, 0, 0, 0, 1, 0, 0, 0, 1] := fun k hk => ⟨k / 2, by omega, if k % 2 = 0 then 1 else -1,
  by split <;> simp, fun i hi => by interval_cases k <;> interval_cases i <;> decide⟩

theorem stepNorm_triangular : StepNorm 2 6 [1, 0, 0, 1, 1, -1] triangular where
  zero c hc := by
    match c, hc with
    | [u, v], _ =>
      simp only [triangular, coord_cons_zero, coord_cons_succ]
      constructor
      · intro h i hi
        interval_cases i
        · rw [coord_cons_zero]; omega
        · rw [coord_cons_succ, coord_cons_zero]; omega
      · intro h
        have h0 := h 0 (by omega)
        have h1 := h 1 (by omega)
        rw [coord_cons_zero] at h0
        rw [coord_cons_succ, coord_cons_zero] at h1
        omega
  lip c k hc hk := by
    match c, hc with
    | [u, v], _ =>
      interval_cases k <;> simp [triangular, step, plus, coord, List.range_succ] <;> omega
  down c hc hn := by
    match c, hc with
    | [u, v], _ =>
      have hn' : ¬ (u = 0 ∧ v = 0) := by
        rintro ⟨rfl, rfl⟩
        exact hn rfl
      have key : ∀ k s t, k < 6 → step 2 [1, 0, 0, 1, 1, -1] k = [s, t] →
          max (u - s).natAbs (max (v - t).natAbs (u - s + (v - t)).natAbs) + 1 = max u.natAbs (max v.natAbs (u + v).natAbs) →
          ((0 ≤ s ∧ s ≤ u) ∨ (u ≤ s ∧ s ≤ 0)) → ((0 ≤ t ∧ t ≤ v) ∨ (v ≤ t ∧ t ≤ 0)) →
          ∃ k, k < 6 ∧ triangular (minus [u, v] (step 2 [1, 0, 0, 1, 1, -1] k)) + 1 = triangular [u, v] ∧ ∀ i, i < 2 →
            (0 ≤ coord (step 2 [1, 0, 0, 1, 1, -1] k) i ∧ coord (step 2 [1, 0, 0, 1, 1, -1] k) i ≤ coord [u, v] i) ∨
            (coord [u, v] i ≤ coord (step 2 [1, 0, 0, 1, 1, -1] k) i ∧ coord (step 2 [1, 0, 0, 1, 1, -1] k) i ≤ 0) := by
        intro k s t hk e h1 h2 h3
        refine ⟨k, hk, ?_, fun i hi => ?_⟩
        · rw [e]; exact h1
        · rw [e]
          interval_cases i
          · exact h2
          · exact h3
      by_cases h1 : 0 < u ∧ v < 0
      · exact key 4 1 (-1) (by omega) rfl (by omega) (by omega) (by omega)
      by_cases h2 : u < 0 ∧ 0 < v
      · exact key 5 (-1) 1 (by omega) rfl (by omega) (by omega) (by omega)
      by_cases h3 : 0 < u
      · exact key 0 1 0 (by omega) rfl (by omega) (by omega) (by omega)
      by_cases h4 : u < 0
      · exact key 1 (-1) 0 (by omega) rfl (by omega) (by omega) (by omega)
      by_cases h5 : 0 < v
      · exact key 2 0 1 (by omega) rfl (by omega) (by omega) (by omega)
      · exact key 3 0 (-1) (by omega) rfl (by omega) (by omega) (by omega)

/-! ### C107 -/

/-- The lattices whose neighbours lie along the axes. -/
theorem axis_lattice (h : chainLattice = .ok b ∨ squareLattice = .ok b ∨ cubicLattice = .ok b) :
    Directed b b.dim ∧ StepNorm b.dim b.gamma b.neighbors manhattan := by
  rcases h with h | h | h
  · obtain ⟨b', e, hr⟩ := chain_regular (F := F)
    rw [e] at h; cases h
    have e' := e.symm; cases e'
    exact ⟨hr.toDirected, stepNorm_manhattan hr.toDirected.even axes_chain onlyAxes_chain⟩
  · obtain ⟨b', e, hr⟩ := square_regular (F := F)
    rw [e] at h; cases h
    have e' := e.symm; cases e'
    exact ⟨hr.toDirected, stepNorm_manhattan hr.toDirected.even axes_square onlyAxes_square⟩
  · obtain ⟨b', e, hr⟩ := cubic_regular (F := F)
    rw [e] at h; cases h
    have e' := e.symm; cases e'
    exact ⟨hr.toDirected, stepNorm_manhattan hr.toDirected.even axes_cubic onlyAxes_cubic⟩

theorem triangular_lattice (h : triangularLattice = .ok b) : Directed b 2 ∧ StepNorm 2 b.gamma b.neighbors triangular := by
  obtain ⟨b', e, hr⟩ := triangular_regular (F := F)
  rw [e] at h; cases h
  have e' := e.symm; cases e'
  exact ⟨hr.toDirected, stepNorm_triangular⟩

/-- C107.  On a closed chain, square or cubic lattice the least number of steps from neighbour to neighbour that lead from
`x` to `y` is the sum of the absolute values of the components of `GetJump(x, y)`. -/
theorem C107_jump (hb : chainLattice = .ok b ∨ squareLattice = .ok b ∨ cubicLattice = .ok b) (hs : Buildable size)
    (h32 : ∀ s ∈ size, s < 2 ^ 32) (hd : size.length = b.dim) (l : Lattice F) (hl : Lattice.new b size .closed = .ok l)
    (x y : Nat) (hx : x < size.prod) (hy : y < size.prod) (j : List Int) (hj : l.grid.getJump x y = .ok j) :
    IsLeast {n | Hops (Adjacent l) n x y} (manhattan j) := by
  obtain ⟨hb, hν⟩ := axis_lattice hb
  rw [← hd] at hb hν
  obtain ⟨j', e, h1, h2⟩ := getJump_closed hs.1 h32 hx hy
  rw [(new_parts hl).1, e, Res.ok.injEq] at hj
  subst hj
  rw [zop_eq_zipWith] at h1
  have h1 : Congruent j' (minus (crd size y) (crd size x)) size := h1
  refine ⟨hops_upper_closed hν hs hb hl _ x y j' hx hy h1 rfl, fun n hn => ?_⟩
  obtain ⟨c, hc, hle⟩ := hops_lower_closed hν hs hb hl hn hx hy
  refine le_trans ?_ hle
  obtain ⟨lj, -, hj⟩ := congruent_iff.1 h1
  obtain ⟨lc, -, hc⟩ := congruent_iff.1 hc
  have hle' : (manhattan j' : Int) ≤ manhattan c := by
    rw [manhattan_eq lj, manhattan_eq lc]
    refine Finset.sum_le_sum (fun i hi => ?_)
    have hi := Finset.mem_range.1 hi
    have hlt : i < j'.length := by rw [lj]; exact hi
    have hcen : Centered (coord j' i) size[i] := by
      refine allCentered_getElem h2 (k := i) ?_ (List.getElem?_eq_getElem hi)
      unfold coord
      rw [List.getD_eq_getElem?_getD, List.getElem?_eq_getElem hlt]; rfl
    refine centered_least hcen _ ?_
    have := dvd_sub (hc i hi) (hj i hi)
    rw [sub_sub_sub_cancel_right, extent_eq hi] at this
    exact this
  exact_mod_cast hle'

/-- C107.  On an open one it is the sum of the differences of their coordinates. -/
theorem C107_open (hb : chainLattice = .ok b ∨ squareLattice = .ok b ∨ cubicLattice = .ok b) (hs : Buildable size)
    (hd : size.length = b.dim) (l : Lattice F) (hl : Lattice.new b size .open = .ok l)
    (x y : Nat) (hx : x < size.prod) (hy : y < size.prod) (j : List Int) (hj : l.grid.getJump x y = .ok j) :
    IsLeast {n | Hops (Adjacent l) n x y} (manhattan j) := by
  obtain ⟨hb, hν⟩ := axis_lattice hb
  rw [← hd] at hb hν
  rw [(new_parts hl).1, getJump_open hs.1 (buildable_fits hs) hx hy, Res.ok.injEq, zop_eq_zipWith] at hj
  subst hj
  exact ⟨hops_upper_open hν hs hb hl _ x y hx hy rfl, fun n hn => hops_lower_open hν hs hb hl hn hx hy⟩

/-- C107.  On an open triangular lattice it is the largest of |u|, |v| and |u + v| for a displacement (u, v). -/
theorem C107_open_triangular {L M : Nat} (hb : triangularLattice = .ok b) (hs : Buildable [L, M]) (l : Lattice F)
    (hl : Lattice.new b [L, M] .open = .ok l) (x y : Nat) (hx : x < L * M) (hy : y < L * M) (u v : Int)
    (hj : l.grid.getJump x y = .ok [u, v]) :
    IsLeast {n | Hops (Adjacent l) n x y} (max u.natAbs (max v.natAbs (u + v).natAbs)) := by
  obtain ⟨hb, hν⟩ := triangular_lattice hb
  have hx : x < [L, M].prod := by simpa using hx
  have hy : y < [L, M].prod := by simpa using hy
  rw [(new_parts hl).1, getJump_open hs.1 (buildable_fits hs) hx hy, Res.ok.injEq, zop_eq_zipWith] at hj
  have hj : minus (crd [L, M] y) (crd [L, M] x) = [u, v] := hj
  have e : max u.natAbs (max v.natAbs (u + v).natAbs) = triangular (minus (crd [L, M] y) (crd [L, M] x)) := by rw [hj]; rfl
  rw [e]
  exact ⟨hops_upper_open (size := [L, M]) hν hs hb hl _ x y hx hy rfl,
    fun n hn => hops_lower_open (size := [L, M]) hν hs hb hl hn hx hy⟩

/-- C107.  On a closed triangular lattice it is the least of these over all images of the displacement. -/
theorem C107_triangular {L M : Nat} (hb : triangularLattice = .ok b) (hs : Buildable [L, M]) (l : Lattice F)
    (hl : Lattice.new b [L, M] .closed = .ok l) (x y : Nat) (hx : x < L * M) (hy : y < L * M) (xu xv yu yv : Int)
    (hcx : l.grid.getCoordinates x = .ok [xu, xv]) (hcy : l.grid.getCoordinates y = .ok [yu, yv]) :
    ∃ D, IsLeast {n | Hops (Adjacent l) n x y} D ∧
      IsLeast {n | ∃ u v : Int, (L : Int) ∣ u - (yu - xu) ∧ (M : Int) ∣ v - (yv - xv) ∧
        n = max u.natAbs (max v.natAbs (u + v).natAbs)} D := by
  obtain ⟨hb, hν⟩ := triangular_lattice hb
  have hx : x < [L, M].prod := by simpa using hx
  have hy : y < [L, M].prod := by simpa using hy
  rw [(new_parts hl).1, getCoordinates_eq hs.1 (buildable_fits hs) .closed hx, Res.ok.injEq] at hcx
  rw [(new_parts hl).1, getCoordinates_eq hs.1 (buildable_fits hs) .closed hy, Res.ok.injEq] at hcy
  have key : ∀ c : List Int, Congruent c (minus (crd [L, M] y) (crd [L, M] x)) [L, M] ↔
      ∃ u v : Int, c = [u, v] ∧ (L : Int) ∣ u - (yu - xu) ∧ (M : Int) ∣ v - (yv - xv) := by
    intro c
    rw [congruent_iff, hcx, hcy]
    constructor
    · rintro ⟨h1, -, h3⟩
      match c, h1 with
      | [u, v], _ => exact ⟨u, v, rfl, h3 0 (by simp), h3 1 (by simp)⟩
    · rintro ⟨u, v, rfl, h1, h2⟩
      refine ⟨rfl, rfl, fun k hk => ?_⟩
      have hk : k < 2 := hk
      interval_cases k
      · exact h1
      · exact h2
  have hup : ∀ u v : Int, (L : Int) ∣ u - (yu - xu) → (M : Int) ∣ v - (yv - xv) →
      Hops (Adjacent l) (max u.natAbs (max v.natAbs (u + v).natAbs)) x y := fun u v h1 h2 =>
    hops_upper_closed (size := [L, M]) hν hs hb hl _ x y [u, v] hx hy ((key _).2 ⟨u, v, rfl, h1, h2⟩) rfl
  have hlo : ∀ n, Hops (Adjacent l) n x y → ∃ u v : Int, (L : Int) ∣ u - (yu - xu) ∧ (M : Int) ∣ v - (yv - xv) ∧
      max u.natAbs (max v.natAbs (u + v).natAbs) ≤ n := by
    intro n hn
    obtain ⟨c, hc, hle⟩ := hops_lower_closed (size := [L, M]) hν hs hb hl hn hx hy
    obtain ⟨u, v, rfl, h1, h2⟩ := (key c).1 hc
    exact ⟨u, v, h1, h2, hle⟩
  have hne : ∃ n, ∃ u v : Int, (L : Int) ∣ u - (yu - xu) ∧ (M : Int) ∣ v - (yv - xv) ∧
      n = max u.natAbs (max v.natAbs (u + v).natAbs) :=
    ⟨_, yu - xu, yv - xv, by rw [sub_self]; exact dvd_zero _, by rw [sub_self]; exact dvd_zero _, rfl⟩
  classical
  have hf := Nat.find_spec hne
  have hmin : ∀ u v : Int, (L : Int) ∣ u - (yu - xu) → (M : Int) ∣ v - (yv - xv) →
      Nat.find hne ≤ max u.natAbs (max v.natAbs (u + v).natAbs) := fun u v h1 h2 => Nat.find_min' hne ⟨u, v, h1, h2, rfl⟩
  refine ⟨Nat.find hne, ⟨?_, fun n hn => ?_⟩, hf, ?_⟩
  · obtain ⟨u, v, h1, h2, h3⟩ := hf
    show Hops (Adjacent l) (Nat.find hne) x y
    rw [h3]; exact hup u v h1 h2
  · obtain ⟨u, v, h1, h2, h3⟩ := hlo n hn
    exact le_trans (hmin u v h1 h2) h3
  · rintro n ⟨u, v, h1, h2, rfl⟩
    exact hmin u v h1 h2

/-- The hypotheses are met by a closed square lattice; opposite corners of 4 by 5 sites are two steps apart. -/
example : ∃ (b : Bravais (Num realArith)) (l : Lattice (Num realArith)), squareLattice = .ok b ∧ Buildable [4, 5] ∧ [4, 5].length = b.dim ∧
    Lattice.new b [4, 5] .closed = .ok l ∧ l.grid.getJump 0 19 = .ok [-1, -1] := by
  obtain ⟨b, h1, h2⟩ := square_regular (F := Num realArith)
  have hs : Buildable [4, 5] := ⟨by decide, by decide⟩
  obtain ⟨l, hl, hg, -⟩ := C73_defined hs (b := b) h2 .closed (fun _ => by decide)
  exact ⟨b, l, h1, hs, h2.dim.symm, hl, by rw [hg]; decide +kernel⟩

end
end Bwsl
