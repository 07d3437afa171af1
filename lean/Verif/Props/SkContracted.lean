import Verif.Props.Contracted

/-! Property C151: structure factors and momenta computed with fused products. -/

namespace Bwsl
open Spec

section
variable {A : Arith ℝ} {b : Bravais (Num A)} {size : List Nat}

/-- C151.  Whatever is fused, the structure factor of a chain, square or cubic lattice is within the bound of C131. -/
theorem C151_accurate {T : Type} {conv : T → Num A} {ω : T → ℝ} (hA : IsTrig A) (c : SkFused)
    (hb : chainLattice = .ok b ∨ squareLattice = .ok b ∨ cubicLattice = .ok b) (hd : size.length = b.dim) (hs : Buildable size)
    (hz : (size.map (fun s => (2 * s) ^ 2)).sum < 2 ^ 52) (hn : size.prod < 2 ^ 32)
    (l : Lattice (Num A)) (hl : Lattice.new b size .closed = .ok l) {M W : ℝ} (hM : 1 / 2 ^ 40 ≤ M) (hM' : M ≤ 2 ^ 40)
    (hW : 1 / 2 ^ 40 ≤ W) (hW' : W ≤ 2 ^ 40) {L : Nat} (hL : ∀ s ∈ size, s ≤ L)
    (occ : List T) (hconv : ∀ o ∈ occ, conv o = .fin (ω o) ∧ |ω o| ≤ M) (hocc : size.prod ≤ occ.length) {mult : ℝ} (hm : |mult| ≤ W)
    {x : Nat → List Int} (hx : ∀ j, j < size.prod → l.grid.getCoordinates j = .ok (x j)) :
    ∃ S : Nat → ℝ, l.computeSkContracted c conv occ (.fin mult) = .ok ((List.range size.prod).map (fun i => .fin (S i))) ∧
      ∀ i, i < size.prod → |S i - structureFactor size.prod mult (occ.map ω) (fun j => realPoint (x j)) (exactMomentum size (x i))| ≤
        W * M ^ 2 * (L / 2 ^ 41 + size.prod / 2 ^ 46) :=
  sk_accurate hA c hb hd hs hz hn l hl hM hM' hW hW' hL occ hconv hocc hm hx

/-- C151.  Whatever is fused, it is not negative, unless the multiplicity is. -/
theorem C151_nonneg {T : Type} {conv : T → Num A} {ω : T → ℝ} (hA : IsTrig A) (c : SkFused)
    (hb : chainLattice = .ok b ∨ squareLattice = .ok b ∨ cubicLattice = .ok b) (hd : size.length = b.dim) (hs : Buildable size)
    (hz : (size.map (fun s => (2 * s) ^ 2)).sum < 2 ^ 52) (hn : size.prod < 2 ^ 32)
    (l : Lattice (Num A)) (hl : Lattice.new b size .closed = .ok l)
    (occ : List T) (hconv : ∀ o ∈ occ, conv o = .fin (ω o) ∧ |ω o| ≤ 2 ^ 40) (hocc : size.prod ≤ occ.length) {mult : ℝ} (h0 : 0 ≤ mult)
    (hm : mult ≤ 2 ^ 40) : ∃ S : Nat → ℝ,
      l.computeSkContracted c conv occ (.fin mult) = .ok ((List.range size.prod).map (fun i => .fin (S i))) ∧
        ∀ i, i < size.prod → 0 ≤ S i :=
  sk_nonneg hA c hb hd hs hz hn l hl occ hconv hocc h0 hm

/-- C151.  Whatever is fused, `AccumulateSk` adds what `ComputeSk` returns. -/
theorem C151_accumulate {T : Type} {conv : T → Num A} (hA : A.IsBinary64) (c : SkFused) (l : Lattice (Num A))
    (hc : l.grid.hasOpenBoundaries = false) (occ : List T) (mult : Num A) (S : List (Num A))
    (h : l.computeSkContracted c conv occ mult = .ok S) (sk : List (Num A)) (hsk : sk.length = l.grid.numsites) :
    l.accumulateSkContracted c conv occ sk mult = .ok (List.zipWith (· + ·) sk S) :=
  sk_accumulate hA c l hc occ mult S h sk hsk

/-- C151.  Whatever is fused, the structure factor at opposite momenta is the same, bit for bit. -/
theorem C151_opposite {T : Type} {conv : T → Num A} (hA : A.IsBinary64) (f : SkFused) (hpi : A.pi = Real.pi)
    (hsin : ∀ x, A.sin (-x) = -A.sin x) (hcos : ∀ x, A.cos (-x) = A.cos x)
    (hb : chainLattice = .ok b ∨ squareLattice = .ok b ∨ cubicLattice = .ok b) (hd : size.length = b.dim) (hs : Buildable size)
    (hz : ∀ s ∈ size, s ≤ 2 ^ 49) (l : Lattice (Num A)) (hl : Lattice.new b size .closed = .ok l) (occ : List T) (mult : Num A)
    (S : List (Num A)) (hS : l.computeSkContracted f conv occ mult = .ok S) (i i' : Nat) (hi : i < size.prod) (hi' : i' < size.prod)
    (c c' : List Int) (hc : l.grid.getCoordinates i = .ok c) (hc' : l.grid.getCoordinates i' = .ok c')
    (h : ∀ j, j < size.length → coord c j + coord c' j = 2 * (extent size j / 2)) : S[i]? = S[i']? :=
  sk_opposite hA f hpi hsin hcos hb hd hs hz l hl occ mult S hS i i' hi hi' c c' hc hc' h

/-- C151.  Whatever is fused, at zero momentum, for whole numbers of particles, it is the square of the density, rounded once. -/
theorem C151_zero_momentum {T : Type} {conv : T → Num A} {z : T → Int} (hA : IsTrig A) (f : SkFused)
    (hb : chainLattice = .ok b ∨ squareLattice = .ok b ∨ cubicLattice = .ok b) (hd : size.length = b.dim) (hs : Buildable size)
    (hz : (size.map (fun s => (2 * s) ^ 2)).sum < 2 ^ 52) (hn : size.prod ≤ 2 ^ 26)
    (l : Lattice (Num A)) (hl : Lattice.new b size .closed = .ok l) (occ : List T) (hconv : ∀ o ∈ occ, conv o = .fin (z o : ℝ))
    (hocc : occ.length = size.prod) (hsum : (occ.map (fun o => |z o|)).sum ≤ 2 ^ 26) (i : Nat) (hi : i < size.prod) (c : List Int)
    (hc : l.grid.getCoordinates i = .ok c) (h0 : ∀ j, j < size.length → coord c j = extent size j / 2) :
    ∃ S, l.computeSkContracted f conv occ (.fin 1) = .ok S ∧
      S[i]? = some (.fin (rn ((((occ.map z).sum : Int) : ℝ) ^ 2 / (size.prod : ℝ) ^ 2))) :=
  sk_zero_momentum hA f hb hd hs hz hn l hl occ hconv hocc hsum i hi c hc h0

/-- A factor that makes the product exact. -/
theorem mulAdd_unit (hA : A.IsBinary64) (fused : Bool) {x p : Num A} (hx : ∀ r, x = .fin r → Num.round A r = .fin r)
    (hp : p = .fin 0 ∨ p = .fin 1 ∨ p = .fin (-1)) (z : Num A) : mulAdd fused x p z = z + x * p := by
  cases x with
  | fin r =>
    have h := hx r rfl
    have h1 : A.rnd r = some r := Num.round_eq_fin h
    have h2 : A.rnd (-r) = some (-r) := Num.round_eq_fin (by rw [round_neg hA, h]; rfl)
    rcases hp with rfl | rfl | rfl
    · exact C146_exact (by rw [mul_zero]; exact rnd_zero_of_binary64 hA) fused z
    · exact C146_exact (by rwa [mul_one]) fused z
    · exact C146_exact (by rwa [mul_neg_one]) fused z
  | nan => exact (C146_special _ p z fused).1 (fun a b h => by cases h)
  | inf n => exact (C146_special _ p z fused).1 (fun a b h => by cases h)

/-- C151.  Reciprocal vectors with components 0, 1 and -1, as those of the chain, the square and the cubic lattice: fusing the
products of `GetReciprocalSpace` and of `GetInverseVector` changes nothing, so the momenta are those of C130. -/
theorem C151_reciprocal (hA : A.IsBinary64) (fused : Bool)
    (hb : ∀ p ∈ b.pivectors, p = .fin 0 ∨ p = .fin 1 ∨ p = .fin (-1)) (coords : List Int) (v : List (Num A))
    (hv : ∀ x ∈ v, ∀ r, x = .fin r → FinDouble r) :
    b.getReciprocalSpaceContracted fused coords = b.getReciprocalSpace coords ∧
    b.getInverseVectorContracted fused v = b.getInverseVector v := by
  constructor
  · unfold Bravais.getReciprocalSpaceContracted Bravais.getReciprocalSpace accumulate
    split
    · refine mapRange_congr (fun i _ => dotFrom_eq fused _ _ _ (fun j => ?_) (fun j xy hxy z => ?_))
      · cases subscript coords j with
        | ok c =>
          rw [Res.ok_bind, Res.ok_bind]
          cases lmul c 2 with
          | ok c2 =>
            rw [Res.ok_bind, Res.ok_bind]
            cases subscript b.pivectors (uadd i (umul j b.dim)) <;> rfl
          | _ => rfl
        | _ => rfl
      · obtain ⟨c, -, hxy⟩ := Res.bind_eq_ok.1 hxy
        obtain ⟨c2, -, hxy⟩ := Res.bind_eq_ok.1 hxy
        obtain ⟨p, hp, hxy⟩ := Res.bind_eq_ok.1 hxy
        rw [Res.ok.injEq] at hxy
        subst hxy
        refine mulAdd_unit hA fused (fun r hr => ?_) (hb p (subscript_mem' hp)) z
        have key : ∀ x y : Num A, x * y = .fin r → Num.round A r = .fin r := by
          intro x y h
          cases x with
          | fin x =>
            cases y with
            | fin y => exact round_again hA h
            | nan => cases h
            | inf n =>
              have h : (if x = 0 then (Num.nan : Num A) else _) = .fin r := h
              split at h <;> cases h
          | nan => cases h
          | inf n =>
            cases y with
            | fin y =>
              have h : (if y = 0 then (Num.nan : Num A) else _) = .fin r := h
              split at h <;> cases h
            | nan => cases h
            | inf m => cases h
        exact key _ _ hr
    · rfl
  · unfold Bravais.getInverseVectorContracted Bravais.getInverseVector accumulate
    split
    · refine mapRange_congr (fun i _ => dotFrom_eq fused _ _ _ (fun j => ?_) (fun j xy hxy z => ?_))
      · cases subscript v i with
        | ok c =>
          rw [Res.ok_bind, Res.ok_bind]
          cases subscript b.pivectors (uadd (umul i b.dim) j) <;> rfl
        | _ => rfl
      · obtain ⟨c, hc, hxy⟩ := Res.bind_eq_ok.1 hxy
        obtain ⟨p, hp, hxy⟩ := Res.bind_eq_ok.1 hxy
        rw [Res.ok.injEq] at hxy
        subst hxy
        refine mulAdd_unit hA fused (fun r hr => ?_) (hb p (subscript_mem' hp)) z
        have h := hv _ (subscript_mem' hc) r hr
        exact Num.round_of (rnd_of_double hA h.1 h.2)
    · rfl

/-- C151.  Without fused products the functions are those of C79 and C131. -/
theorem C151_plain {T : Type} (conv : T → Num A) (l : Lattice (Num A)) (occ : List T) (sk : List (Num A)) (mult : Num A) :
    l.accumulateSkContracted ⟨false, false, false, .neither⟩ conv occ sk mult = l.accumulateSk conv occ sk mult ∧
    l.computeSkContracted ⟨false, false, false, .neither⟩ conv occ mult = l.computeSk conv occ mult :=
  sk_plain conv l occ sk mult

/-- C151.  In exact arithmetic contraction changes nothing. -/
theorem C151_no_rounding {T : Type} (hA : A.IsExact) (c : SkFused) (conv : T → Num A) (l : Lattice (Num A)) (occ : List T)
    (sk : List (Num A)) (mult : Num A) :
    l.accumulateSkContracted c conv occ sk mult = l.accumulateSk conv occ sk mult ∧
    l.computeSkContracted c conv occ mult = l.computeSk conv occ mult := by
  have key : ∀ (f : Bool) (x y z : Num A), mulAdd f x y z = z + x * y := by
    intro f x y z
    by_cases h : ∃ a b, x = .fin a ∧ y = .fin b
    · obtain ⟨a, b, rfl, rfl⟩ := h
      exact C146_exact (hA _) f z
    · exact (C146_special x y z f).1 (fun a b h1 h2 => h ⟨a, b, h1, h2⟩)
  have fma : ∀ x y z : Num A, CxxFma.fma x y z = z + x * y := key true
  have hd : ∀ (f : Bool) (g : Nat → Res (Num A × Num A)) (n k : Nat) (a : Num A), dotFrom f g a k n = dotFrom false g a k n := by
    intro f g n
    induction n with
    | zero => exact fun _ _ => rfl
    | succ n ih => intro k a; simp only [dotFrom, key, ih]
  have hsq : ∀ (f : Fused) (x y : Num A), sumSquares f x y = sumSquares .neither x y := by
    intro f x y
    cases f with
    | neither => rfl
    | first => show CxxFma.fma x x (squareF y) = squareF x + squareF y; rw [fma, num_add_comm]; rfl
    | second => show CxxFma.fma y y (squareF x) = squareF x + squareF y; rw [fma]; rfl
  rw [← (C151_plain conv l occ sk mult).1, ← (C151_plain conv l occ sk mult).2]
  unfold Lattice.computeSkContracted Lattice.accumulateSkContracted Lattice.fourierContracted
  simp only [key, hd c.phase, hsq c.squares]
  exact ⟨trivial, trivial⟩

/-- The square lattice meets the hypothesis on the reciprocal vectors. -/
example (hA : A.IsBinary64) (h : squareLattice = .ok b) : ∀ p ∈ b.pivectors, p = .fin 0 ∨ p = .fin 1 ∨ p = .fin (-1) := by
  obtain ⟨g, N, h1, -⟩ := unit_cases (size := [1, 1]) hA (.inr (.inl h)) (by cases h; rfl)
  rw [h1.eq]
  intro p hp
  obtain ⟨r, hr, rfl⟩ := List.mem_map.1 hp
  have : r = 1 ∨ r = 0 := by
    revert hr
    norm_num [unit, List.range, List.range.loop]
    tauto
  rcases this with rfl | rfl
  · exact .inr (.inl rfl)
  · exact .inl rfl

end
end Bwsl
