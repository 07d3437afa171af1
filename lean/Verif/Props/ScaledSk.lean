import Verif.Lemmas.Related
import Verif.Props.ScaledStats
import Verif.Props.SkContracted
import Verif.Props.DoubleLattice

/-! Property C185: structure factors of multiplied occupations. -/

namespace Bwsl
open Spec FloatFormat

set_option linter.unusedSectionVars false

section
variable {A : Arith ℝ} {T T' : Type}

local notation "dbl" => FloatFormat.double

/-- The sums over the sites that `AccumulateSk` computes for the momenta are 0 or at least 2^-350, so that their squares do not
underflow. -/
def Spec.ClearSums (c : SkFused) (conv : T → Num A) (l : Lattice (Num A)) (occ : List T) : Prop :=
  ∀ k s, k ∈ l.momenta → l.fourierContracted c conv occ k = .ok s →
    (∀ x, s.1 = .fin x → x = 0 ∨ (2 : ℝ) ^ (-350 : Int) ≤ |x|) ∧ ∀ x, s.2 = .fin x → x = 0 ∨ (2 : ℝ) ^ (-350 : Int) ≤ |x|

/-- Occupations that are whole numbers, and others that are 2^k times as large. -/
def Spec.Multiplied (k : Nat) (conv : T → Num A) (conv' : T' → Num A) (o : T) (o' : T') : Prop :=
  ∃ n : Int, conv o = .fin (n : ℝ) ∧ conv' o' = .fin (2 ^ k * (n : ℝ))

theorem fma_all_fin {u v d : Num A} {z : ℝ} (h : Num.fma u v d = .fin z) : ∃ x y r, u = .fin x ∧ v = .fin y ∧ d = .fin r := by
  have key : ∀ u v : Num A, Num.add (Num.mul u v) d = .fin z → ∃ x y, u = .fin x ∧ v = .fin y := by
    intro u v h
    obtain ⟨p, q, hp, -⟩ := Num.add_eq_fin h
    exact mul_eq_fin_both hp
  cases u <;> cases v <;> first
    | (obtain ⟨_, _, h1, h2⟩ := key _ _ h; first | (cases h1; done) | cases h2)
    | (cases d <;> first | exact ⟨_, _, _, rfl, rfl, rfl⟩ | cases h)

/-- A fused sum of scaled numbers. -/
theorem scaledTo_fma (hA : A.IsFormat dbl) {k j m : Nat} (hm : k + j = m) {u u' v v' d d' : Num A} (h : ScaledTo dbl k u v)
    (h' : ScaledTo dbl j u' v') (hd : ScaledTo dbl m d d')
    (hn : ∀ x y, u = .fin x → u' = .fin y → Mult (-1074) (x * y)) : ScaledTo dbl m (Num.fma u u' d) (Num.fma v v' d') := by
  intro y hy
  obtain ⟨a, b, r, rfl, rfl, rfl⟩ := fma_all_fin hy
  obtain ⟨x, hx, rfl, rfl⟩ := h a rfl
  obtain ⟨z, hz, rfl, rfl⟩ := h' b rfl
  obtain ⟨q, hq, rfl, rfl⟩ := hd r rfl
  have e : (2 : ℝ) ^ k * x * (2 ^ j * z) + 2 ^ m * q = 2 ^ m * (x * z + q) := by rw [← hm, pow_add]; ring
  have hy : Num.round A ((2 : ℝ) ^ k * x * (2 ^ j * z) + 2 ^ m * q) = .fin y := hy
  rw [e] at hy
  exact scaledTo_round hA m (Or.inl ((hn x z rfl rfl).add (value_mult hq))) y hy

theorem scaledTo_mulAdd (hA : A.IsFormat dbl) (fused : Bool) {k j m : Nat} (hm : k + j = m) {u u' v v' d d' : Num A}
    (h : ScaledTo dbl k u v) (h' : ScaledTo dbl j u' v') (hd : ScaledTo dbl m d d')
    (hn : ∀ x y, u = .fin x → u' = .fin y → Mult (-1074) (x * y)) : ScaledTo dbl m (mulAdd fused u u' d) (mulAdd fused v v' d') := by
  cases fused with
  | true => exact scaledTo_fma hA hm h h' hd hn
  | false =>
    refine scaledTo_add hA hd ?_
    rw [← hm]
    exact scaledTo_prod hA h h' fun x y hx hy => Or.inl (hn x y hx hy)

theorem sin_value (hA : A.IsFormat dbl) {u : Num A} {x : ℝ} (h : CxxFloat.sin u = .fin x) : InFormat dbl x := by
  cases u with
  | nan => cases h
  | inf n => cases n <;> cases h
  | fin r =>
    have h : Num.round A (A.sin r) = .fin x := h
    rw [(round_format hA h).1]
    exact fl_inFormat _

theorem cos_value (hA : A.IsFormat dbl) {u : Num A} {x : ℝ} (h : CxxFloat.cos u = .fin x) : InFormat dbl x := by
  cases u with
  | nan => cases h
  | inf n => cases n <;> cases h
  | fin r =>
    have h : Num.round A (A.cos r) = .fin x := h
    rw [(round_format hA h).1]
    exact fl_inFormat _

theorem value_int_mult {x : ℝ} (h : InFormat dbl x) (n : Int) : Mult (-1074) (x * (n : ℝ)) := by
  obtain ⟨m, hm⟩ := value_mult h
  have e : FloatFormat.emin dbl = -1074 := rfl
  rw [e] at hm
  exact ⟨m * n, by rw [hm]; push_cast; ring⟩

theorem scaledTo_occupation (hA : A.IsFormat dbl) (fused : Bool) {k : Nat} {u d d' : Num A} (hu : ∀ x, u = .fin x → InFormat dbl x)
    {conv : T → Num A} {conv' : T' → Num A} {o : T} {o' : T'} (ho : Multiplied k conv conv' o o') (hd : ScaledTo dbl k d d') :
    ScaledTo dbl k (mulAdd fused u (conv o) d) (mulAdd fused u (conv' o') d') := by
  obtain ⟨n, h1, h2⟩ := ho
  rw [h1, h2]
  intro y hy
  have hfin : ∃ x r, u = .fin x ∧ d' = .fin r := by
    cases fused with
    | true =>
      obtain ⟨x, _, r, h1, -, h2⟩ := fma_all_fin hy
      exact ⟨x, r, h1, h2⟩
    | false =>
      obtain ⟨r, p, h1, h2⟩ := Num.add_eq_fin hy
      obtain ⟨x, _, h3, -⟩ := mul_eq_fin_both h2
      exact ⟨x, r, h3, h1⟩
  obtain ⟨x, r, rfl, rfl⟩ := hfin
  obtain ⟨q, hq, rfl, rfl⟩ := hd r rfl
  have hm := value_int_mult (hu x rfl) n
  have e : x * (2 ^ k * (n : ℝ)) = 2 ^ k * (x * n) := by ring
  cases fused with
  | true =>
    have hy : Num.round A (x * (2 ^ k * (n : ℝ)) + 2 ^ k * q) = .fin y := hy
    rw [e, ← mul_add] at hy
    exact scaledTo_round hA k (Or.inl (hm.add (value_mult hq))) y hy
  | false =>
    have hp : ScaledTo dbl k (.fin x * .fin (n : ℝ) : Num A) (.fin x * .fin (2 ^ k * (n : ℝ))) := by
      rw [Num.fin_mul, Num.fin_mul, e]
      exact scaledTo_round hA k (Or.inl hm)
    exact scaledTo_add hA (scaledTo_fin k hq) hp y hy

/-- The sums over the sites. -/
theorem fourier_multiplied (hA : A.IsFormat dbl) (c : SkFused) {k : Nat} {conv : T → Num A} {conv' : T' → Num A} (l : Lattice (Num A))
    {occ : List T} {occ' : List T'} (ho : List.Forall₂ (Multiplied k conv conv') occ occ') (q : List (Num A)) :
    RelRes (fun s t => ScaledTo dbl k s.1 t.1 ∧ ScaledTo dbl k s.2 t.2) (l.fourierContracted c conv occ q)
      (l.fourierContracted c conv' occ' q) := by
  unfold Lattice.fourierContracted
  refine rel_foldRange _ (fun i s t _ hst => ?_) ⟨scaledTo_zero k, scaledTo_zero k⟩
  refine RelRes.bind (RelRes.refl (R' := Eq) (fun _ => rfl) _) fun x y _ _ hxy => ?_
  subst hxy
  refine RelRes.bind (RelRes.refl (R' := Eq) (fun _ => rfl) _) fun p y _ _ hxy => ?_
  subst hxy
  refine RelRes.bind (rel_subscript ho i) fun o o' _ _ hoo => RelRes.ok ⟨?_, ?_⟩
  · exact scaledTo_occupation hA c.sine (fun x hx => sin_value hA hx) hoo hst.1
  · exact scaledTo_occupation hA c.cosine (fun x hx => cos_value hA hx) hoo hst.2

/-- A value that is 0 or not small is a multiple of a power of two. -/
theorem value_mult_of_ge {x : ℝ} (hx : InFormat dbl x) {a : Int} (h : x = 0 ∨ (2 : ℝ) ^ a ≤ |x|) : Mult (a - 52) x := by
  have := mult_of_ge (f := dbl) h
  rwa [fl_value hx] at this

theorem mult_mul {x y : ℝ} {a b : Int} (hx : Mult a x) (hy : Mult b y) : Mult (a + b) (x * y) := by
  obtain ⟨m, rfl⟩ := hx
  obtain ⟨n, rfl⟩ := hy
  exact ⟨m * n, by rw [zpow_add₀ two_ne_zero]; push_cast; ring⟩

/-- The sum of the squares of two sums. -/
theorem sumSquares_multiplied (hA : A.IsFormat dbl) (c : Fused) {k : Nat} {s s' t t' : Num A} (h : ScaledTo dbl k s t)
    (h' : ScaledTo dbl k s' t') (hs : ∀ x, s = .fin x → Mult (-402) x) (hs' : ∀ x, s' = .fin x → Mult (-402) x) :
    ScaledTo dbl (k + k) (sumSquares c s s') (sumSquares c t t') ∧ ∀ x, sumSquares c s s' = .fin x → Mult (-804) x := by
  have m1 : ∀ x y, s = .fin x → s = .fin y → Mult (-804) (x * y) := fun x y hx hy => mult_mul (hs x hx) (hs y hy)
  have m2 : ∀ x y, s' = .fin x → s' = .fin y → Mult (-804) (x * y) := fun x y hx hy => mult_mul (hs' x hx) (hs' y hy)
  have p1 := scaledTo_prod hA h h fun x y hx hy => Or.inl ((m1 x y hx hy).mono (by decide))
  have p2 := scaledTo_prod hA h' h' fun x y hx hy => Or.inl ((m2 x y hx hy).mono (by decide))
  have sq : ∀ u : Num A, (∀ x, u = .fin x → Mult (-402) x) → ∀ z, squareF u = .fin z → Mult (-804) z := by
    intro u hu z hz
    obtain ⟨x, y, rfl, hy⟩ := mul_eq_fin_both hz
    have hz : (.fin x * .fin x : Num A) = .fin z := hz
    rw [Num.fin_mul] at hz
    rw [(round_format hA hz).1]
    exact fl_mult (mult_mul (hu x rfl) (hu x rfl))
  have fm : ∀ u d : Num A, (∀ x, u = .fin x → Mult (-402) x) → (∀ z, d = .fin z → Mult (-804) z) →
      ∀ z, Num.fma u u d = .fin z → Mult (-804) z := by
    intro u d hu hd z hz
    obtain ⟨x, y, r, rfl, -, rfl⟩ := fma_all_fin hz
    have hz : Num.round A (x * x + r) = .fin z := hz
    rw [(round_format hA hz).1]
    exact fl_mult ((mult_mul (hu x rfl) (hu x rfl)).add (hd r rfl))
  cases c with
  | neither =>
    refine ⟨scaledTo_add hA p1 p2, fun x hx => ?_⟩
    have hx : squareF s + squareF s' = .fin x := hx
    obtain ⟨a, b, ha, hb⟩ := Num.add_eq_fin hx
    rw [ha, hb, Num.fin_add] at hx
    rw [(round_format hA hx).1]
    exact fl_mult ((sq s hs a ha).add (sq s' hs' b hb))
  | first => exact ⟨scaledTo_fma hA rfl h h p2 fun x y hx hy => (m1 x y hx hy).mono (by decide), fm s _ hs (sq s' hs')⟩
  | second => exact ⟨scaledTo_fma hA rfl h' h' p1 fun x y hx hy => (m2 x y hx hy).mono (by decide), fm s' _ hs' (sq s hs)⟩

/-- C185.  Whole-number occupations multiplied by 2^k and a multiplicity multiplied by 2^j: what `AccumulateSk` adds is multiplied by
exactly 4^k 2^j, so entries that were multiplied by that too keep the factor.  This is so whatever is fused, unless something
overflows with the larger numbers or a sum over the sites underflows when squared. -/
theorem C185_accumulate (hA : A.IsBinary64) (c : SkFused) {k j : Nat} {conv : T → Num A} {conv' : T' → Num A} {l : Lattice (Num A)}
    {occ : List T} {occ' : List T'} (ho : List.Forall₂ (Multiplied k conv conv') occ occ') (hc : ClearSums c conv l occ) {μ : ℝ}
    (hμ : Double μ) (hμ' : μ = 0 ∨ (2 : ℝ) ^ (-60 : Int) ≤ |μ|) {sk sk' : List (Num A)}
    (hsk : List.Forall₂ (ScaledTo dbl (j + (k + k))) sk sk') :
    RelRes (List.Forall₂ (ScaledTo dbl (j + (k + k)))) (l.accumulateSkContracted c conv occ sk (.fin μ))
      (l.accumulateSkContracted c conv' occ' sk' (.fin (2 ^ j * μ))) := by
  have hF := isFormat_double.2 hA
  have hμF : InFormat dbl μ := hμ
  unfold Lattice.accumulateSkContracted
  split
  · exact RelRes.ok hsk
  · refine RelRes.bind (rel_mapRange (R := ScaledTo dbl (j + (k + k))) _ fun i _ => ?_) fun u v _ _ huv =>
      RelRes.ok (List.rel_append huv (List.forall₂_drop _ hsk))
    refine RelRes.bind (RelRes.refl (R' := Eq) (fun _ => rfl) _) fun q y hq _ hxy => ?_
    subst hxy
    refine RelRes.bind (fourier_multiplied hF c l ho q) fun s t hs _ hst => ?_
    refine RelRes.bind (rel_subscript hsk i) fun old old' _ _ hold => RelRes.ok (scaledTo_add hF hold ?_)
    obtain ⟨c1, c2⟩ := hc q s (subscript_mem' hq) hs
    have val : ∀ {u v : Num A} {m : Nat}, ScaledTo dbl m u v → (∃ y, v = .fin y) → ∀ x, u = .fin x → InFormat dbl x := by
      rintro u v m h ⟨y, hy⟩ x hx
      obtain ⟨x', h1, h2, -⟩ := h y hy
      rw [hx] at h2
      cases h2
      exact h1
    intro y hy
    have hw : squareU l.grid.numsites < 2 ^ 64 := Nat.mod_lt _ (by decide)
    rw [Num.ofNat_eq, count_round hF hw] at hy ⊢
    obtain ⟨a, ha⟩ := div_eq_fin hy
    obtain ⟨_, b, -, hb⟩ := mul_eq_fin_both ha
    have hfin : (∃ z, t.1 = .fin z) ∧ ∃ z, t.2 = .fin z := by
      cases hcs : c.squares with
      | neither =>
        rw [hcs] at hb
        obtain ⟨p, q, hp, hq⟩ := Num.add_eq_fin hb
        obtain ⟨z, _, hz, -⟩ := mul_eq_fin_both hp
        obtain ⟨w, _, hw, -⟩ := mul_eq_fin_both hq
        exact ⟨⟨z, hz⟩, ⟨w, hw⟩⟩
      | first =>
        rw [hcs] at hb
        obtain ⟨z, _, r, hz, -, hr⟩ := fma_all_fin hb
        obtain ⟨w, _, hw, -⟩ := mul_eq_fin_both hr
        exact ⟨⟨z, hz⟩, ⟨w, hw⟩⟩
      | second =>
        rw [hcs] at hb
        obtain ⟨z, _, r, hz, -, hr⟩ := fma_all_fin hb
        obtain ⟨w, _, hw, -⟩ := mul_eq_fin_both hr
        exact ⟨⟨w, hw⟩, ⟨z, hz⟩⟩
    obtain ⟨S, hS⟩ := sumSquares_multiplied hF c.squares hst.1 hst.2
      (fun x hx => value_mult_of_ge (val hst.1 hfin.1 x hx) (c1 x hx)) (fun x hx => value_mult_of_ge (val hst.2 hfin.2 x hx) (c2 x hx))
    have hμm : Mult (-112) μ := value_mult_of_ge hμF hμ'
    have hp := scaledTo_prod hF (scaledTo_fin (A := A) j hμF) S fun x y hx hy => by
      cases hx
      exact Or.inl ((mult_mul hμm (hS y hy)).mono (by decide))
    refine scaledTo_div_same hF hp _ (fun x hx => ?_) y hy
    obtain ⟨_, σ, h1, h2⟩ := mul_eq_fin_both hx
    rw [h2, Num.fin_mul] at hx
    have hxm : Mult (-916) x := by
      rw [(round_format hF hx).1]
      exact fl_mult (mult_mul hμm (hS σ h2))
    have hwle : |FloatFormat.rn dbl ((squareU l.grid.numsites : Nat) : ℝ)| ≤ (2 : ℝ) ^ (64 : Int) := by
      refine fl_abs_le (two_zpow_value (by decide)) ?_
      rw [Nat.abs_cast]
      have : ((squareU l.grid.numsites : Nat) : ℝ) ≤ ((2 ^ 64 : Nat) : ℝ) := by exact_mod_cast hw.le
      refine this.trans (le_of_eq ?_)
      norm_num
    generalize FloatFormat.rn dbl ((squareU l.grid.numsites : Nat) : ℝ) = w at hwle ⊢
    by_cases hw0 : w = 0
    · left; rw [hw0, div_zero]; exact ⟨0, by simp⟩
    rcases ge_of_mult hxm with rfl | hge
    · left; rw [zero_div]; exact ⟨0, by simp⟩
    · right
      rw [abs_div, le_div_iff₀ (abs_pos.2 hw0)]
      refine (mul_le_mul_of_nonneg_left hwle (two_zpow_pos (K := ℝ) _).le).trans (le_trans ?_ hge)
      rw [← zpow_add₀ two_ne_zero]
      exact zpow_le_zpow_right₀ one_le_two (by decide)

/-- C185.  The structure factor of 2^k times as many particles on every site is exactly 4^k times that of the particles. -/
theorem C185_compute (hA : A.IsBinary64) (c : SkFused) {k j : Nat} {conv : T → Num A} {conv' : T' → Num A} {l : Lattice (Num A)}
    {occ : List T} {occ' : List T'} (ho : List.Forall₂ (Multiplied k conv conv') occ occ') (hc : ClearSums c conv l occ) {μ : ℝ}
    (hμ : Double μ) (hμ' : μ = 0 ∨ (2 : ℝ) ^ (-60 : Int) ≤ |μ|) :
    RelRes (List.Forall₂ fun u v => ∀ y, v = .fin y → ∃ x, u = .fin x ∧ y = 2 ^ j * 4 ^ k * x) (l.computeSkContracted c conv occ (.fin μ))
      (l.computeSkContracted c conv' occ' (.fin (2 ^ j * μ))) := by
  have e4 : (2 : ℝ) ^ (j + (k + k)) = 2 ^ j * 4 ^ k := by rw [pow_add, pow_add, ← mul_pow]; norm_num
  have z : List.Forall₂ (ScaledTo dbl (j + (k + k))) (List.replicate l.grid.numsites (CxxFloat.zero : Num A))
      (List.replicate l.grid.numsites CxxFloat.zero) := by
    induction l.grid.numsites with
    | zero => exact .nil
    | succ n ih => exact .cons (scaledTo_zero _) ih
  have fin : ∀ {u v : List (Num A)}, List.Forall₂ (ScaledTo dbl (j + (k + k))) u v →
      List.Forall₂ (fun u v : Num A => ∀ y, v = .fin y → ∃ x, u = .fin x ∧ y = 2 ^ j * 4 ^ k * x) u v := by
    intro u v h
    refine h.imp fun u v h y hy => ?_
    obtain ⟨x, -, h1, h2⟩ := h y hy
    exact ⟨x, h1, by rw [h2, e4]⟩
  unfold Lattice.computeSkContracted
  dsimp only
  split
  · exact RelRes.ok (fin z)
  · exact (C185_accumulate hA c ho hc hμ hμ' z).mono fun _ _ _ _ h => fin h

/-- C185.  The same for the code without fused products. -/
theorem C185_plain (hA : A.IsBinary64) {k j : Nat} {conv : T → Num A} {conv' : T' → Num A} {l : Lattice (Num A)}
    {occ : List T} {occ' : List T'} (ho : List.Forall₂ (Multiplied k conv conv') occ occ')
    (hc : ClearSums ⟨false, false, false, .neither⟩ conv l occ) {μ : ℝ} (hμ : Double μ) (hμ' : μ = 0 ∨ (2 : ℝ) ^ (-60 : Int) ≤ |μ|) :
    RelRes (List.Forall₂ fun u v => ∀ y, v = .fin y → ∃ x, u = .fin x ∧ y = 2 ^ j * 4 ^ k * x) (l.computeSk conv occ (.fin μ))
      (l.computeSk conv' occ' (.fin (2 ^ j * μ))) := by
  have := C185_compute (j := j) hA _ ho hc hμ hμ'
  rwa [(C151_plain conv l occ [] (.fin μ)).2, (C151_plain conv' l occ' [] (.fin (2 ^ j * μ))).2] at this

/-- The sine and cosine of the phase of every occupied site are 0 or at least 2^-298. -/
def Spec.ClearPhases (c : SkFused) (conv : T → Num A) (l : Lattice (Num A)) (occ : List T) : Prop :=
  ∀ k j x p o, k ∈ l.momenta → l.getVector 0 j = .ok x → dotFrom c.phase (fun q => do
      let kq ← subscript k q
      let xq ← subscript x q
      .ok (kq, xq)) CxxFloat.zero 0 l.grid.dim = .ok p → subscript occ j = .ok o → conv o ≠ .fin 0 →
    (∀ z, CxxFloat.sin p = .fin z → z = 0 ∨ (2 : ℝ) ^ (-298 : Int) ≤ |z|) ∧
    ∀ z, CxxFloat.cos p = .fin z → z = 0 ∨ (2 : ℝ) ^ (-298 : Int) ≤ |z|

/-- C185.  The condition on the sums follows from one on the sines and cosines of the occupied sites: with whole numbers of particles
no sum of them can be smaller. -/
theorem C185_clear (hA : A.IsBinary64) (c : SkFused) {conv : T → Num A} {l : Lattice (Num A)} {occ : List T}
    (ho : ∀ o ∈ occ, ∃ n : Int, conv o = .fin (n : ℝ)) (hc : ClearPhases c conv l occ) : ClearSums c conv l occ := by
  have hF := isFormat_double.2 hA
  intro k s hk hs
  have term : ∀ (fused : Bool) (u d : Num A) (n : Int), (∀ z, u = .fin z → InFormat dbl z) →
      ((n : ℝ) ≠ 0 → ∀ z, u = .fin z → z = 0 ∨ (2 : ℝ) ^ (-298 : Int) ≤ |z|) → (∀ x, d = .fin x → Mult (-350) x) →
      ∀ x, mulAdd fused u (.fin (n : ℝ)) d = .fin x → Mult (-350) x := by
    intro fused u d n hu hz hd x hx
    have hm : ∀ z, u = .fin z → Mult (-350) (z * (n : ℝ)) := by
      intro z hz'
      by_cases hn : (n : ℝ) = 0
      · rw [hn, mul_zero]; exact ⟨0, by simp⟩
      · obtain ⟨m, hm⟩ : Mult (-350) z := (value_mult_of_ge (hu z hz') (hz hn z hz')).mono (by decide)
        exact ⟨m * n, by rw [hm]; push_cast; ring⟩
    cases fused with
    | true =>
      obtain ⟨z, _, r, rfl, -, rfl⟩ := fma_all_fin hx
      have hx : Num.round A (z * (n : ℝ) + r) = .fin x := hx
      rw [(round_format hF hx).1]
      exact fl_mult ((hm z rfl).add (hd r rfl))
    | false =>
      have hx' : d + u * .fin (n : ℝ) = .fin x := hx
      clear hx
      obtain ⟨r, p, rfl, hp⟩ := Num.add_eq_fin hx'
      rw [hp, Num.fin_add] at hx'
      obtain ⟨z, _, rfl, -⟩ := mul_eq_fin_both hp
      rw [Num.fin_mul] at hp
      rw [(round_format hF hx').1]
      refine fl_mult ((hd r rfl).add ?_)
      rw [(round_format hF hp).1]
      exact fl_mult (hm z rfl)
  have key : RelRes (fun s _ => (∀ x, s.1 = .fin x → Mult (-350) x) ∧ ∀ x, s.2 = .fin x → Mult (-350) x)
      (l.fourierContracted c conv occ k) (l.fourierContracted c conv occ k) := by
    have zero : ∀ x, (CxxFloat.zero : Num A) = .fin x → Mult (-350) x := by
      rintro x ⟨⟩
      exact ⟨0, by simp⟩
    unfold Lattice.fourierContracted
    refine rel_foldRange _ (fun j s t _ hst => ?_) ⟨zero, zero⟩
    refine RelRes.bind (RelRes.refl (R' := Eq) (fun _ => rfl) _) fun x y hx _ hxy => ?_
    subst hxy
    refine RelRes.bind (RelRes.refl (R' := Eq) (fun _ => rfl) _) fun p y hp _ hxy => ?_
    subst hxy
    refine RelRes.bind (RelRes.refl (R' := Eq) (fun _ => rfl) _) fun o y hj _ hxy => RelRes.ok ?_
    obtain ⟨n, hn⟩ := ho o (subscript_mem' hj)
    have h := fun h0 => hc k j x p o hk hx hp hj h0
    have h0 : (n : ℝ) ≠ 0 → conv o ≠ .fin 0 := fun hne he => hne (by rw [hn] at he; exact Num.fin.inj he)
    simp only
    rw [hn]
    exact ⟨term c.sine _ _ n (fun z hz => sin_value hF hz) (fun hne => (h (h0 hne)).1) hst.1,
      term c.cosine _ _ n (fun z hz => cos_value hF hz) (fun hne => (h (h0 hne)).2) hst.2⟩
  rw [hs] at key
  exact ⟨fun x hx => ge_of_mult (key.1 x hx), fun x hx => ge_of_mult (key.2 x hx)⟩

/-- The vector of a closed lattice from its first site to itself. -/
theorem first_vector {b : Bravais (Num A)} {size : List Nat} {g : Nat} {P : List Int} {Q : List ℝ} {N : List Int} (hA : A.IsBinary64)
    (hq : A.sqrt = Real.sqrt) (hs : Buildable size) (hb : Holds b size.length g (reals P) Q N) (hr : Regular b size.length)
    (hS : Modest size P) {l : Lattice (Num A)} (hl : Lattice.new b size .closed = .ok l) {x : List (Num A)}
    (hx : l.getVector 0 0 = .ok x) : ∀ u ∈ x, u = .fin 0 := by
  have hp : 0 < size.prod := List.prod_pos hs.1.1
  obtain ⟨m, hm, hV, -, hw, hmin⟩ := closed_int hA hq hs hb hr hS hl hp hp
  have hc := crd_onGrid hs.1.1 hp
  rw [minus_origin (crd_length ..), wrap_of_onGrid hc] at hV hmin
  have h0 := hmin _ (shell_zero _)
  rw [image_zero (onGrid_length hc)] at h0
  have hz : sqlen size.length P (crd size 0) = 0 := by
    have : point size.length P (crd size 0) = List.replicate size.length 0 := by
      unfold point
      rw [List.eq_replicate_iff]
      refine ⟨by simp, fun y hy => ?_⟩
      obtain ⟨i, -, rfl⟩ := List.mem_map.1 hy
      exact Finset.sum_eq_zero fun j _ => by rw [coord_crd_zero, zero_mul]
    unfold sqlen
    rw [this]
    simp
  rw [hz] at h0
  rw [hV, Res.ok.injEq] at hx
  subst hx
  intro u hu
  rw [embed_cast] at hu
  obtain ⟨y, hy, rfl⟩ := List.mem_map.1 hu
  obtain ⟨n, hn, rfl⟩ := List.mem_map.1 hy
  have : n * n ≤ sqlen size.length P (image size (crd size 0) m) := by
    refine List.single_le_sum (fun y hy => ?_) _ (List.mem_map_of_mem (f := fun x => x * x) hn)
    obtain ⟨z, -, rfl⟩ := List.mem_map.1 hy
    exact mul_self_nonneg z
  have hn0 : n = 0 := mul_self_eq_zero.1 (le_antisymm (this.trans h0) (mul_self_nonneg n))
  rw [hn0, Int.cast_zero]

/-- C185.  The condition holds for particles on the first site of a chain, square or cubic lattice of any extents. -/
theorem C185_first_site {b : Bravais (Num A)} {size : List Nat} (hA : IsTrig A) (c : SkFused)
    (hb : chainLattice = .ok b ∨ squareLattice = .ok b ∨ cubicLattice = .ok b) (hd : size.length = b.dim) (hs : Buildable size)
    (hz : (size.map (fun s => (2 * s) ^ 2)).sum < 2 ^ 52) {l : Lattice (Num A)} (hl : Lattice.new b size .closed = .ok l)
    {conv : T → Num A} {occ : List T} (ho : ∀ j o, subscript occ j = .ok o → j ≠ 0 → conv o = .fin 0) : ClearPhases c conv l occ := by
  have hF := isFormat_double.2 hA.binary64
  obtain ⟨Z, g, N, -, hb', hr, -, hS⟩ := integer_cases hA.binary64 hb hd hz
  intro k j x p o hk hx hp hj h0
  obtain rfl : j = 0 := by
    by_contra h
    exact h0 (ho j o hj h)
  have hx0 := first_vector hA.binary64 hA.sqrt hs hb' hr hS hl hx
  have key : ∀ (n i : Nat) (acc : Num A), (∀ z, acc = .fin z → z = 0) → dotFrom c.phase (fun q => do
      let kq ← subscript k q
      let xq ← subscript x q
      .ok (kq, xq)) acc i n = .ok p → ∀ z, p = .fin z → z = 0 := by
    intro n
    induction n with
    | zero =>
      intro i acc ha h
      rw [dotFrom, Res.ok.injEq] at h
      exact h ▸ ha
    | succ n ih =>
      intro i acc ha h
      rw [dotFrom] at h
      obtain ⟨xy, hxy, h⟩ := Res.bind_eq_ok.1 h
      obtain ⟨kq, -, hxy⟩ := Res.bind_eq_ok.1 hxy
      obtain ⟨xq, hxq, hxy⟩ := Res.bind_eq_ok.1 hxy
      rw [Res.ok.injEq] at hxy
      subst hxy
      refine ih _ _ (fun z hz => ?_) h
      rw [hx0 xq (subscript_mem' hxq)] at hz
      cases hfused : c.phase with
      | true =>
        rw [hfused] at hz
        obtain ⟨y, _, r, rfl, -, rfl⟩ := fma_all_fin hz
        have hz : Num.round A (y * 0 + r) = .fin z := hz
        rw [ha r rfl, mul_zero, add_zero] at hz
        rw [(round_format hF hz).1, fl_zero]
      | false =>
        rw [hfused] at hz
        have hz' : acc + kq * .fin 0 = .fin z := hz
        clear hz
        obtain ⟨r, y, rfl, hy⟩ := Num.add_eq_fin hz'
        rw [hy, ha r rfl, Num.fin_add, zero_add] at hz'
        obtain ⟨y', _, rfl, -⟩ := mul_eq_fin_both hy
        rw [Num.fin_mul, mul_zero] at hy
        rw [(round_format hF hz').1, (round_format hF hy).1, fl_zero, fl_zero]
  have hp0 := key _ _ _ (fun z hz => by cases hz; rfl) hp
  have hone : FloatFormat.rn dbl (1 : ℝ) = 1 := fl_value one_value
  cases p with
  | nan => exact ⟨fun _ hz => (nomatch hz), fun _ hz => (nomatch hz)⟩
  | inf n => cases n <;> exact ⟨fun _ hz => (nomatch hz), fun _ hz => (nomatch hz)⟩
  | fin v =>
    rw [hp0 v rfl]
    refine ⟨fun z hz => ?_, fun z hz => ?_⟩
    · have hz : Num.round A (A.sin 0) = .fin z := hz
      rw [hA.sin_zero] at hz
      left
      rw [(round_format hF hz).1, fl_zero]
    · have hz : Num.round A (A.cos 0) = .fin z := hz
      rw [hA.cos_zero] at hz
      right
      rw [(round_format hF hz).1, hone, abs_one]
      exact zpow_le_one_of_nonpos₀ one_le_two (by decide)

/-- Five particles on the first site of a square lattice, and eighty: all hypotheses hold. -/
example : ∃ (b : Bravais (Num doubleArith)) (l : Lattice (Num doubleArith)), squareLattice = .ok b ∧ Lattice.new b [2, 2] .closed = .ok l ∧
    ClearSums ⟨true, true, false, .first⟩ (fun n : Int => (.fin (n : ℝ) : Num doubleArith)) l [5, 0, 0, 0] ∧
    List.Forall₂ (Multiplied 4 (fun n : Int => (.fin (n : ℝ) : Num doubleArith)) (fun n : Int => (.fin (n : ℝ) : Num doubleArith)))
      [5, 0, 0, 0] [80, 0, 0, 0] := by
  obtain ⟨b, h1, h2⟩ := square_regular (F := Num doubleArith)
  have hs : Buildable [2, 2] := ⟨⟨by decide, by norm_num⟩, by norm_num⟩
  obtain ⟨l, hl, -⟩ := C73_defined hs (b := b) h2 .closed (fun _ => by decide)
  have zero : Multiplied 4 (fun n : Int => (.fin (n : ℝ) : Num doubleArith)) (fun n : Int => (.fin (n : ℝ) : Num doubleArith)) 0 0 :=
    ⟨0, rfl, by simp⟩
  refine ⟨b, l, h1, hl, C185_clear doubleArith_isBinary64 _ (fun o _ => ⟨o, rfl⟩) ?_,
    .cons ⟨5, rfl, by norm_num⟩ (.cons zero (.cons zero (.cons zero .nil)))⟩
  refine C185_first_site (size := [2, 2]) doubleArith_isTrig _ (Or.inr (Or.inl h1)) h2.dim.symm hs (by norm_num) hl fun j o hj hj0 => ?_
  obtain ⟨i, rfl⟩ : ∃ i, j = i + 1 := ⟨j - 1, by omega⟩
  have := getElem_of_subscript hj
  rw [List.getElem?_cons_succ] at this
  have : o ∈ [(0 : Int), 0, 0] := List.mem_of_getElem? this
  simp only [List.mem_cons, List.not_mem_nil, or_false, or_self] at this
  rw [this, Int.cast_zero]

end
end Bwsl
