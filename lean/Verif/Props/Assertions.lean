import Verif.Model.Lattice
import Verif.Model.Spaces
import Verif.Lemmas.Loop
import Verif.Props.Neighbors

/-! Property C108: which arguments violate the assertions. -/

namespace Bwsl
open Spec

/-- No assertion fails. -/
def Unasserted (x : Res α) : Prop := x ≠ .ub .assertion

namespace Unasserted

theorem ok (a : α) : Unasserted (.ok a) := nofun
theorem bounds : Unasserted (.ub .outOfBounds : Res α) := nofun
theorem bind {x : Res α} {f : α → Res β} (hx : Unasserted x) (hf : ∀ a, Unasserted (f a)) : Unasserted (x >>= f) := by
  cases x with
  | ok a => exact hf a
  | throws e => nofun
  | ub k => exact fun h => hx (by cases h; rfl)
  | diverges => nofun
theorem long (x : Int) : Unasserted (Bwsl.long x) := by
  unfold Bwsl.long; split <;> nofun
theorem udiv (a b : Nat) : Unasserted (Bwsl.udiv a b) := by
  unfold Bwsl.udiv; split <;> nofun
theorem umod (a b : Nat) : Unasserted (Bwsl.umod a b) := by
  unfold Bwsl.umod; split <;> nofun
theorem ldiv (a b : Int) : Unasserted (Bwsl.ldiv a b) := by
  unfold Bwsl.ldiv; split
  · nofun
  · exact long _
theorem subscript (v : List α) (i : Nat) : Unasserted (Bwsl.subscript v i) := by
  unfold Bwsl.subscript; split <;> nofun
theorem mapRange (n : Nat) {f : Nat → Res α} (hf : ∀ i, Unasserted (f i)) : Unasserted (Bwsl.mapRange n f) := by
  have : ∀ n k, Unasserted (mapRangeFrom f k n) := by
    intro n
    induction n with
    | zero => intro k; exact ok _
    | succ n ih => intro k; exact bind (hf k) (fun _ => bind (ih _) (fun _ => ok _))
  exact this n 0
theorem accumulate {F : Type} [CxxFloat F] (n : Nat) {f : Nat → Res F} (hf : ∀ i, Unasserted (f i)) :
    Unasserted (Bwsl.accumulate n f) := by
  have : ∀ n k a, Unasserted (accumulateFrom f a k n) := by
    intro n
    induction n with
    | zero => intro k a; exact ok _
    | succ n ih => intro k a; exact bind (hf k) (fun _ => ih _ _)
  exact this n 0 _
theorem whileLoop {cond : σ → Bool} {body : σ → Res σ} (hb : ∀ s, Unasserted (body s)) (s : σ) :
    Unasserted (Bwsl.whileLoop cond body s) := by
  have := whileLoop.fixpoint_induct cond body
    (motive := fun f => ∀ s, Unasserted (f s))
    (by
      apply Lean.Order.admissible_pi_apply (fun _ (x : Res σ) => Unasserted x)
      intro s
      apply Lean.Order.admissible_flatOrder
      nofun)
    (by
      intro f ih s
      show Unasserted (if cond s = true then _ else _)
      split
      · exact bind (hb s) ih
      · exact ok _)
  exact this s
theorem indexToArray (i : Nat) (size : List Nat) : Unasserted (Bwsl.indexToArray i size) := by
  have : ∀ (size : List Nat) p i, Unasserted (indexToArrayLoop p i size) := by
    intro size
    induction size with
    | nil => intro p i; exact ok _
    | cons s ss ih =>
      intro p i
      exact bind (udiv _ _) (fun _ => bind (udiv _ _) (fun _ => bind (umod _ _) (fun _ => bind (ih _ _) (fun _ => ok _))))
  exact this size _ i
theorem arrayToIndexLoop (size : List Nat) : ∀ (i p : Nat) (c : List Int), Unasserted (Bwsl.arrayToIndexLoop i p c size) := by
  induction size with
  | nil => intro i p c; cases c <;> exact ok _
  | cons s ss ih =>
    intro i p c
    cases c with
    | nil => exact bounds
    | cons x xs => exact bind (udiv _ _) (fun _ => ih _ _ _)
theorem subtractInto (a b : List Int) : Unasserted (Bwsl.subtractInto a b) := by
  unfold Bwsl.subtractInto
  induction a generalizing b with
  | nil => exact ok _
  | cons x xs ih =>
    cases b with
    | nil => exact bounds
    | cons y ys => exact bind (long _) (fun _ => bind (ih _) (fun _ => ok _))
theorem enforceLoop (n : Nat) : ∀ (size : List Nat) (c : List Int), Unasserted (Grid.enforceLoop n size c) := by
  induction n with
  | zero => intro size c; exact ok _
  | succ n ih =>
    intro size c
    rcases size with _ | ⟨s, ss⟩
    · exact bounds
    cases c with
    | nil => exact bounds
    | cons x xs =>
      exact bind (bind (whileLoop (fun _ => long _) _) (fun _ => whileLoop (fun _ => long _) _))
        (fun _ => bind (ih _ _) (fun _ => ok _))
theorem isOnGridLoop (n : Nat) : ∀ (size : List Nat) (c : List Int), Unasserted (Grid.isOnGridLoop n size c) := by
  induction n with
  | zero => intro size c; exact ok _
  | succ n ih =>
    intro size c
    cases c with
    | nil => cases size <;> exact bounds
    | cons x xs =>
      rcases size with _ | ⟨s, ss⟩ <;> unfold Grid.isOnGridLoop <;> split
      · exact ok _
      · exact bounds
      · exact ok _
      · exact ih _ _
theorem jumpLoop (n : Nat) : ∀ (size : List Nat) (c : List Int), Unasserted (Grid.jumpLoop n size c) := by
  induction n with
  | zero => intro size c; exact ok _
  | succ n ih =>
    intro size c
    rcases size with _ | ⟨s, ss⟩
    · exact bounds
    cases c with
    | nil => exact bounds
    | cons x xs =>
      refine bind ?_ (fun _ => bind (ih _ _) (fun _ => ok _))
      unfold Grid.jumpOne
      dsimp only
      split
      · exact fun h => by cases h
      · split <;> (split <;> simp only [Unasserted, ne_eq, reduceCtorEq, not_false_eq_true])
theorem windingLoop (size : List Nat) : ∀ c : List Int, Unasserted (Lat.windingLoop c size) := by
  intro c
  induction c generalizing size with
  | nil => exact ok _
  | cons x xs ih =>
    cases size with
    | nil => exact bounds
    | cons s ss => exact bind (ldiv _ _) (fun _ => bind (ih _) (fun _ => ok _))

/-- A guarded computation that does not assert by itself fails the assertion exactly if the guard is not met. -/
theorem guard {p : Prop} [Decidable p] {x : Res α} (hx : p → Unasserted x) :
    (if p then x else .ub .assertion) = .ub .assertion ↔ ¬ p := by
  by_cases h : p
  · rw [if_pos h]
    exact ⟨fun e => absurd e (hx h), fun e => absurd h e⟩
  · rw [if_neg h]
    exact ⟨fun _ => h, fun _ => rfl⟩

end Unasserted
open Unasserted in
/-- C108.  Bravais: the assertion on the number of components fails exactly for the wrong number. -/
theorem C108_bravais {F : Type} [CxxFloat F] (b : Bravais F) (c : List Int) (v : List F) :
    (b.getRealSpace c = .ub .assertion ↔ c.length ≠ b.dim) ∧ (b.getReciprocalSpace c = .ub .assertion ↔ c.length ≠ b.dim) ∧
    (b.getInverseVector v = .ub .assertion ↔ v.length ≠ b.dim) :=
  ⟨guard fun _ => Unasserted.mapRange _ fun _ => Unasserted.accumulate _ fun _ =>
      bind (Unasserted.subscript _ _) fun _ => bind (Unasserted.subscript _ _) fun _ => Unasserted.ok _,
    guard fun _ => Unasserted.mapRange _ fun _ => Unasserted.accumulate _ fun _ =>
      bind (Unasserted.subscript _ _) fun _ => bind (Unasserted.long _) fun _ => bind (Unasserted.subscript _ _) fun _ => Unasserted.ok _,
    guard fun _ => Unasserted.mapRange _ fun _ => Unasserted.accumulate _ fun _ =>
      bind (Unasserted.subscript _ _) fun _ => bind (Unasserted.subscript _ _) fun _ => Unasserted.ok _⟩

/-- C108.  Bravais: too few components are read out of bounds by the functions of two points; surplus ones are ignored. -/
theorem C108_bravais_points {F : Type} [CxxFloat F] (b : Bravais F) (x y : List Int) :
    b.getVector x y ≠ .ub .assertion ∧ b.getDistance x y ≠ .ub .assertion ∧ b.getVector x y = b.getVector (x.take b.dim) (y.take b.dim) := by
  have hlen : ∀ {n : Nat} {f : Nat → Res Int} {p : List Int}, mapRange n f = .ok p → p.length = n := by
    intro n f p h
    have : ∀ n k p, mapRangeFrom f k n = .ok p → p.length = n := by
      intro n
      induction n with
      | zero => intro k p h; cases h; rfl
      | succ n ih =>
        intro k p h
        obtain ⟨z, -, h⟩ := Res.bind_eq_ok.1 h
        obtain ⟨zs, hz, h⟩ := Res.bind_eq_ok.1 h
        cases h
        rw [List.length_cons, ih _ _ hz]
    exact this n 0 p h
  have key : Unasserted (b.getVector x y) := by
    unfold Bravais.getVector
    have hm : Unasserted (mapRange b.dim (fun i => do
        let v ← subscript y i
        let u ← subscript x i
        lsub v u)) := Unasserted.mapRange _ fun i => .bind (.subscript _ _) fun _ => .bind (.subscript _ _) fun _ => .long _
    intro h
    cases e : mapRange b.dim (fun i => do
        let v ← subscript y i
        let u ← subscript x i
        lsub v u) with
    | ok p =>
      rw [e, Res.ok_bind] at h
      exact ((C108_bravais b p []).1.1 h) (hlen e)
    | throws k => rw [e] at h; cases h
    | ub k => rw [e] at h; cases h; exact hm e
    | diverges => rw [e] at h; cases h
  refine ⟨key, ?_, ?_⟩
  · exact Unasserted.bind key fun _ => .bind (.accumulate _ fun _ => .bind (.subscript _ _) fun _ => .ok _) fun _ => .ok _
  · unfold Bravais.getVector
    have e : ∀ (z : List Int) (i : Nat), i < b.dim → subscript (z.take b.dim) i = subscript z i := by
      intro z i hi
      unfold subscript
      rw [List.getElem?_take_of_lt hi]
    have : ∀ n k, k + n ≤ b.dim → mapRangeFrom (fun i => do
        let v ← subscript y i
        let u ← subscript x i
        lsub v u) k n = mapRangeFrom (fun i => do
        let v ← subscript (y.take b.dim) i
        let u ← subscript (x.take b.dim) i
        lsub v u) k n := by
      intro n
      induction n with
      | zero => intro k _; rfl
      | succ n ih =>
        intro k hk
        unfold mapRangeFrom
        rw [ih (k + 1) (by omega), e y k (by omega), e x k (by omega)]
    unfold mapRange
    rw [this b.dim 0 (by omega)]

open Unasserted in
/-- C108.  HyperCubicGrid: `GetIndex`, `EnforceBoundaries`, `IsOnGrid` and `GetWinding` fail their assertion exactly for the
wrong number of components. -/
theorem C108_grid (size : List Nat) (bd : Boundaries) (c : List Int) :
    ((Grid.new size bd).getIndex c = .ub .assertion ↔ c.length ≠ size.length) ∧
    ((Grid.new size bd).enforceBoundaries c = .ub .assertion ↔ c.length ≠ size.length) ∧
    ((Grid.new size bd).isOnGrid c = .ub .assertion ↔ c.length ≠ size.length) ∧
    (Lat.getWinding (Grid.new size bd) c = .ub .assertion ↔ c.length ≠ size.length) := by
  refine ⟨guard fun _ => Unasserted.arrayToIndexLoop _ _ _ _, guard fun _ => ?_, guard fun _ => Unasserted.isOnGridLoop _ _ _,
    guard fun _ => Unasserted.windingLoop _ _⟩
  split
  · exact Unasserted.enforceLoop _ _ _
  · exact Unasserted.ok _

open Unasserted in
/-- C108.  `GetJump` fails its assertion exactly if one of the sites is not valid. -/
theorem C108_jump (size : List Nat) (h : Representable size) (bd : Boundaries) (x y : Nat) :
    (Grid.new size bd).getJump x y = .ub .assertion ↔ ¬ (x < size.prod ∧ y < size.prod) := by
  have e : ((Grid.new size bd).indexIsValid x && (Grid.new size bd).indexIsValid y) = true ↔ x < size.prod ∧ y < size.prod := by
    unfold Grid.indexIsValid
    rw [numsites_eq h, Bool.and_eq_true, decide_eq_true_eq, decide_eq_true_eq]
  rw [← e]
  refine guard fun _ => bind (Unasserted.indexToArray _ _) fun _ => bind (Unasserted.indexToArray _ _) fun _ =>
    bind (Unasserted.subtractInto _ _) fun _ => ?_
  split
  · exact Unasserted.jumpLoop _ _ _
  · exact Unasserted.ok _

theorem indexToArrayLoop_length {size : List Nat} : ∀ {p i : Nat} {c : List Int}, indexToArrayLoop p i size = .ok c →
    c.length = size.length := by
  induction size with
  | nil => intro p i c h; cases h; rfl
  | cons s ss ih =>
    intro p i c h
    obtain ⟨_, -, h⟩ := Res.bind_eq_ok.1 h
    obtain ⟨_, -, h⟩ := Res.bind_eq_ok.1 h
    obtain ⟨_, -, h⟩ := Res.bind_eq_ok.1 h
    obtain ⟨cs, hc, h⟩ := Res.bind_eq_ok.1 h
    cases h
    rw [List.length_cons, List.length_cons, ih hc]

theorem transformInto_length {op : Int → Int → Res Int} {a b c : List Int} (h : transformInto op a b = .ok c) :
    c.length = a.length := by
  induction a generalizing b c with
  | nil => cases h; rfl
  | cons x xs ih =>
    cases b with
    | nil => cases h
    | cons y ys =>
      obtain ⟨_, -, h⟩ := Res.bind_eq_ok.1 h
      obtain ⟨cs, hc, h⟩ := Res.bind_eq_ok.1 h
      cases h
      rw [List.length_cons, List.length_cons, ih hc]

theorem enforceLoop_length {n : Nat} : ∀ {size : List Nat} {c r : List Int}, Grid.enforceLoop n size c = .ok r →
    r.length = c.length := by
  induction n with
  | zero => intro size c r h; cases h; rfl
  | succ n ih =>
    intro size c r h
    rcases size with _ | ⟨s, ss⟩
    · cases h
    cases c with
    | nil => cases h
    | cons x xs =>
      obtain ⟨_, -, h⟩ := Res.bind_eq_ok.1 h
      obtain ⟨cs, hc, h⟩ := Res.bind_eq_ok.1 h
      cases h
      rw [List.length_cons, List.length_cons, ih hc]

/-- An outcome is not a failed assertion if the first part is not, and the rest is not for the values it can have. -/
theorem Unasserted.bind' {x : Res α} {f : α → Res β} (hx : Unasserted x) (hf : ∀ a, x = .ok a → Unasserted (f a)) :
    Unasserted (x >>= f) := by
  cases x with
  | ok a => exact hf a rfl
  | throws e => nofun
  | ub k => exact fun h => hx (by cases h; rfl)
  | diverges => nofun

/-- C108.  `GetMappedSite` never fails an assertion, whatever the grid and the sites. -/
theorem C108_mapped (size : List Nat) (bd : Boundaries) (x y : Nat) :
    (Grid.new size bd).getMappedSite x y ≠ .ub .assertion := by
  refine Unasserted.bind' (.indexToArray _ _) fun cb hcb => ?_
  refine Unasserted.bind (.indexToArray _ _) fun ca => ?_
  refine Unasserted.bind' (.subtractInto _ _) fun cc hcc => ?_
  have hl : cc.length = size.length := (transformInto_length hcc).trans (indexToArrayLoop_length hcb)
  refine Unasserted.bind' (fun h => (C108_grid size bd cc).2.1.1 h hl) fun ce hce => ?_
  refine fun h => (C108_grid size bd ce).1.1 h ?_
  unfold Grid.enforceBoundaries at hce
  rw [if_pos (show cc.length = (Grid.new size bd).dim from hl)] at hce
  split at hce
  · rw [enforceLoop_length hce, hl]
  · cases hce; exact hl

open Unasserted in
/-- C108.  Lattice: the assertions on sites fail exactly for numbers that are not sites. -/
theorem C108_lattice {F : Type} [CxxFloat F] {b : Bravais F} {size : List Nat} (hs : Buildable size) (bd : Boundaries) (l : Lattice F)
    (hl : Lattice.new b size bd = .ok l) (x y : Nat) :
    (l.getDistance x y = .ub .assertion ↔ ¬ (x < size.prod ∧ y < size.prod)) ∧
    (l.getVector x y = .ub .assertion ↔ ¬ (x < size.prod ∧ y < size.prod)) ∧
    (l.getMomentum x = .ub .assertion ↔ ¬ x < size.prod) ∧ (l.getPosition x = .ub .assertion ↔ ¬ x < size.prod) := by
  have hg := (new_parts hl).1
  have e1 : ∀ x, l.grid.indexIsValid x = true ↔ x < size.prod := by
    intro x
    unfold Grid.indexIsValid
    rw [hg, numsites_eq hs.1, decide_eq_true_eq]
  have e : (l.grid.indexIsValid x && l.grid.indexIsValid y) = true ↔ x < size.prod ∧ y < size.prod := by
    rw [Bool.and_eq_true, e1, e1]
  have hm : Unasserted (l.grid.getMappedSite x y) := hg ▸ C108_mapped size bd x y
  refine ⟨?_, ?_, ?_, ?_⟩
  · rw [← e]; exact guard fun _ => bind hm fun _ => Unasserted.subscript _ _
  · rw [← e]; exact guard fun _ => bind hm fun _ => Unasserted.subscript _ _
  · rw [← e1]; exact guard fun _ => Unasserted.subscript _ _
  · rw [← e1]; exact guard fun _ => Unasserted.subscript _ _

open Unasserted in
/-- C108.  `AreNeighbors` asserts its first site only: a second argument that is not a site gives false. -/
theorem C108_neighbors {F : Type} [CxxFloat F] {b : Bravais F} {size : List Nat} (hs : Buildable size)
    (hb : Directed b size.length) (bd : Boundaries) (l : Lattice F) (hl : Lattice.new b size bd = .ok l) (x y : Nat) :
    (l.areNeighbors x y = .ub .assertion ↔ ¬ x < size.prod) ∧
    (x < size.prod → ¬ y < size.prod → l.areNeighbors x y = .ok false) := by
  have hn : l.neighbors.length = size.prod := by
    have hn := (new_parts hl).2.2.2.2.1
    rw [computeNeighbors_eq hs hb bd, Res.ok.injEq] at hn
    rw [← hn]; simp
  refine ⟨?_, fun hx hy => ?_⟩
  · rw [← hn]; exact guard fun _ => bind (Unasserted.subscript _ _) fun _ => Unasserted.ok _
  · obtain ⟨nx, h1, h2⟩ := C73_valid hs hb bd l hl x hx
    rw [areNeighbors_eq hs hb hl hx y h1]
    congr 1
    rw [← Bool.not_eq_true, List.contains_iff_mem]
    exact fun h => hy (h2 y h).1

open Unasserted in
/-- C108.  The ranges must not be empty; with NaN as a bound the assertion fails too. -/
theorem C108_spaces {F : Type} [CxxFloat F] (first last base : F) (n : Nat) (start stop : Int) :
    (LinSpace.new first last n = .ub .assertion ↔ CxxFloat.lt first last = false) ∧
    (LogSpace.new first last n = .ub .assertion ↔ CxxFloat.lt first last = false) ∧
    (LogSpace.newPow start stop n base = .ub .assertion ↔ stop ≤ start) := by
  refine ⟨?_, ?_, ?_⟩
  · rw [← Bool.not_eq_true]; exact guard fun _ => Unasserted.ok _
  · rw [← Bool.not_eq_true]; exact guard fun _ => Unasserted.ok _
  · rw [← not_lt]; exact guard fun _ => Unasserted.ok _

/-- Arguments of both kinds. -/
example : (Grid.new [4, 5] .closed).getIndex [1] = .ub .assertion ∧ (Grid.new [4, 5] .closed).getIndex [1, 1] = .ok 6 ∧
    (Grid.new [4, 5] .closed).getJump 0 20 = .ub .assertion ∧ (Grid.new [4, 5] .closed).getJump 0 19 = .ok [-1, -1] := by
  decide +kernel

end Bwsl
