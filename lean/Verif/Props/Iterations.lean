import Verif.Props.MathTypes
import Verif.Props.MathInt
import Verif.Props.Enforce
import Verif.Props.Index
import Verif.Props.Translate
import Verif.Props.Jump
import Verif.Props.Hist
import Verif.Props.UpperBound
import Mathlib.Data.Nat.Fib.Basic

/-! Property C145: how often loops and recursions run. -/

namespace Bwsl
open Spec

/-- The loop `while (cond) body` from `s` runs its body `n` times and ends in the last state. -/
inductive Spec.Runs (cond : σ → Bool) (body : σ → Res σ) : Nat → σ → σ → Prop
  | done {s : σ} : cond s = false → Runs cond body 0 s s
  | step {n : Nat} {s s' r : σ} : cond s = true → body s = .ok s' → Runs cond body n s' r → Runs cond body (n + 1) s r

/-- A recursive function `f(a, b)`, which returns if `b` is 0 and else calls `f(b, a % b)`, calls itself `n` times. -/
inductive Spec.Calls (mod : Int → Int → Res Int) : Nat → Int → Int → Prop
  | done {a : Int} : Calls mod 0 a 0
  | step {n : Nat} {a b r : Int} : b ≠ 0 → mod a b = .ok r → Calls mod n b r → Calls mod (n + 1) a b

variable {σ : Type}

theorem runs_result {cond : σ → Bool} {body : σ → Res σ} {n : Nat} {s r : σ} (h : Runs cond body n s r) :
    whileLoop cond body s = .ok r := by
  induction h with
  | done h => exact whileLoop_done h
  | step h1 h2 _ ih => rw [whileLoop_step h1 h2, ih]

/-- A loop that ends runs some number of times. -/
theorem runs_of_result {cond : σ → Bool} {body : σ → Res σ} {s r : σ} (h : whileLoop cond body s = .ok r) :
    ∃ n, Runs cond body n s r := by
  have := whileLoop.fixpoint_induct cond body
    (motive := fun f => ∀ s r, f s = .ok r → ∃ n, Runs cond body n s r)
    (by
      apply Lean.Order.admissible_pi_apply (fun s (x : Res σ) => ∀ r, x = .ok r → ∃ n, Runs cond body n s r)
      intro s
      apply Lean.Order.admissible_flatOrder
      intro r h
      cases h)
    (by
      intro f ih s r h
      beta_reduce at h
      cases hc : cond s with
      | false =>
        rw [hc] at h
        cases h
        exact ⟨0, .done hc⟩
      | true =>
        rw [hc, if_pos rfl] at h
        obtain ⟨s', h1, h2⟩ := Res.bind_eq_ok.1 h
        obtain ⟨n, hn⟩ := ih s' r h2
        exact ⟨n + 1, .step hc h1 hn⟩)
  exact this s r h

/-- The number of times is determined by the loop. -/
theorem runs_unique {cond : σ → Bool} {body : σ → Res σ} {n m : Nat} {s r r' : σ} (h : Runs cond body n s r)
    (h' : Runs cond body m s r') : n = m := by
  induction h generalizing m with
  | done h =>
    cases h' with
    | done _ => rfl
    | step h1 _ _ => rw [h] at h1; cases h1
  | step h1 h2 _ ih =>
    cases h' with
    | done h => rw [h] at h1; cases h1
    | step _ h3 h4 =>
      rw [h2] at h3
      cases h3
      rw [ih h4]

/-! ## Folding of coordinates -/

theorem runs_up {s : Int} (hs : 0 < s) (hs' : s < 2 ^ 63) (n : Nat) (c : Int) (h1 : 0 ≤ c + n * s) (h2 : c + n * s < s)
    (hc : -2 ^ 63 ≤ c) : Runs (fun c => decide (c < 0)) (fun c => ladd c s) n c (c + n * s) := by
  induction n generalizing c with
  | zero =>
    simp only [Nat.cast_zero, zero_mul, add_zero] at h1 ⊢
    exact .done (by simpa using h1)
  | succ n ih =>
    have hn : 0 ≤ (n : Int) * s := by positivity
    push_cast at h1 h2 ⊢
    rw [add_mul, one_mul] at h1 h2 ⊢
    have e : c + (n * s + s) = c + s + n * s := by ring
    rw [e] at h1 h2 ⊢
    refine .step (s' := c + s) (by simp; omega) ?_ (ih (c + s) h1 h2 (by omega))
    exact long_ok (by unfold InLong; comega)

theorem runs_down {s : Int} (hs : 0 < s) (n : Nat) (c : Int) (h1 : 0 ≤ c - n * s) (h2 : c - n * s < s)
    (hc : c < 2 ^ 63) : Runs (fun c => decide (s ≤ c)) (fun c => lsub c s) n c (c - n * s) := by
  induction n generalizing c with
  | zero =>
    simp only [Nat.cast_zero, zero_mul, sub_zero] at h2 ⊢
    exact .done (by simpa using h2)
  | succ n ih =>
    have hn : 0 ≤ (n : Int) * s := by positivity
    push_cast at h1 h2 ⊢
    rw [add_mul, one_mul] at h1 h2 ⊢
    have e : c - (n * s + s) = c - s - n * s := by ring
    rw [e] at h1 h2 ⊢
    refine .step (s' := c - s) (by simp; omega) ?_ (ih (c - s) h1 h2 (by omega))
    exact long_ok (by unfold InLong; comega)

/-- C145.  `EnforceBoundaries` on a closed grid: for a coordinate `c` in a direction with `s` sites the two loops together run
|floor(c/s)| times, once per period that the coordinate is away. -/
theorem C145_enforce (s c : Int) (hs : 0 < s) (hs' : s < 2 ^ 63) (hc : InLong c) :
    ∃ n m : Nat, ∃ c1, Runs (fun c => decide (c < 0)) (fun c => ladd c s) n c c1 ∧
      Runs (fun c => decide (s ≤ c)) (fun c => lsub c s) m c1 (c % s) ∧ n + m = (c / s).natAbs ∧
      Grid.enforceOne s c = .ok (c % s) ∧
      Grid.enforceOne s c = (whileLoop (fun c => decide (c < 0)) (fun c => ladd c s) c >>=
        whileLoop (fun c => decide (s ≤ c)) (fun c => lsub c s)) := by
  have hd := Int.mul_ediv_add_emod c s
  have hm0 := Int.emod_nonneg c hs.ne'
  have hm1 := Int.emod_lt_of_pos c hs
  have hl := hc
  unfold InLong at hl
  by_cases h : c < 0
  · have hq : c / s < 0 := Int.ediv_neg_of_neg_of_pos h hs
    have e : c + ((-(c / s)).toNat : Int) * s = c % s := by
      rw [Int.toNat_of_nonneg (by omega)]
      have : -(c / s) * s = -(s * (c / s)) := by ring
      omega
    have r1 := runs_up hs hs' (-(c / s)).toNat c (by omega) (by omega) (by omega)
    rw [e] at r1
    have r2 : Runs (fun c => decide (s ≤ c)) (fun c => lsub c s) 0 (c % s) (c % s) := .done (by simpa using hm1)
    refine ⟨_, _, _, r1, r2, by omega, ?_, rfl⟩
    unfold Grid.enforceOne
    rw [runs_result r1, Res.ok_bind, runs_result r2]
  · have hq : 0 ≤ c / s := Int.ediv_nonneg (by omega) hs.le
    have e : c - ((c / s).toNat : Int) * s = c % s := by
      rw [Int.toNat_of_nonneg hq]
      have : (c / s) * s = s * (c / s) := by ring
      omega
    have r1 : Runs (fun c => decide (c < 0)) (fun c => ladd c s) 0 c c := .done (by simpa using h)
    have r2 := runs_down hs (c / s).toNat c (by omega) (by omega) (by omega)
    rw [e] at r2
    refine ⟨_, _, _, r1, r2, by omega, ?_, rfl⟩
    unfold Grid.enforceOne
    rw [runs_result r1, Res.ok_bind, runs_result r2]

/-- C145.  The same for `EnforceBoundaries` of a lattice. -/
theorem C145_enforce_lattice (s : Nat) (c : Int) (hs : 0 < s) (hs' : s < 2 ^ 63) (hc : InLong c) :
    ∃ n m : Nat, ∃ c1, Runs (fun c => decide (c < 0)) (fun c => .ok (Grid.addMixed c s)) n c c1 ∧
      Runs (fun c => decide (toLong s ≤ c)) (fun c => .ok (Grid.subMixed c s)) m c1 (c % (s : Int)) ∧
      n + m = (c / (s : Int)).natAbs ∧ Lat.enforceOne s c = .ok (c % (s : Int)) ∧
      Lat.enforceOne s c = (whileLoop (fun c => decide (c < 0)) (fun c => .ok (Grid.addMixed c s)) c >>=
        whileLoop (fun c => decide (toLong s ≤ c)) (fun c => .ok (Grid.subMixed c s))) := by
  obtain ⟨n, m, c1, h1, h2, h3, -⟩ := C145_enforce s c (by omega) (by omega) hc
  have hl := hc
  have k1 : ∀ {n : Nat} {c c1 : Int}, Runs (fun c => decide (c < 0)) (fun c => ladd c (s : Int)) n c c1 →
      Runs (fun c => decide (c < 0)) (fun c => .ok (Grid.addMixed c s)) n c c1 := by
    intro n c c1 h
    induction h with
    | done h => exact .done h
    | step h1 h2 _ ih =>
      obtain ⟨hi, rfl⟩ := long_eq_ok.1 h2
      exact .step h1 (by rw [addMixed_eq hi]) ih
  have k2 : ∀ {n : Nat} {c c1 : Int}, Runs (fun c => decide ((s : Int) ≤ c)) (fun c => lsub c (s : Int)) n c c1 →
      Runs (fun c => decide (toLong s ≤ c)) (fun c => .ok (Grid.subMixed c s)) n c c1 := by
    intro n c c1 h
    have e := toLong_of_lt (n := s) (by omega)
    induction h with
    | done h => exact .done (by rw [e]; exact h)
    | step h1 h2 _ ih =>
      obtain ⟨hi, rfl⟩ := long_eq_ok.1 h2
      exact .step (by rw [e]; exact h1) (by rw [subMixed_eq (by omega) hi]) ih
  exact ⟨n, m, c1, k1 h1, k2 h2, h3, latEnforceOne_eq hs hs' c hc, rfl⟩

theorem fold_once (s x y : Int) (hx : 0 ≤ x ∧ x < s) (hy : 0 ≤ y ∧ y < s) :
    ((x - y) / s).natAbs ≤ 1 ∧ ((x + y) / s).natAbs ≤ 1 := by
  have hs : 0 < s := by omega
  have key : ∀ z, -s ≤ z → z < 2 * s → (z / s).natAbs ≤ 1 := by
    intro z h1 h2
    have e1 : -1 ≤ z / s := (Int.le_ediv_iff_mul_le hs).2 (by omega)
    have e2 : z / s < 2 := (Int.ediv_lt_iff_lt_mul hs).2 (by omega)
    omega
  exact ⟨key _ (by omega) (by omega), key _ (by omega) (by omega)⟩

/-- C145.  `GetMappedSite` and `GetUnMappedSite` of sites fold a list of coordinates for each of which the loops run at most
once in total. -/
theorem C145_translate (size : List Nat) (h : Representable size) (hs : ∀ s ∈ size, s ≤ 2 ^ 62) (a b : Nat)
    (ha : a < size.prod) (hb : b < size.prod) :
    ∃ d e, (Grid.new size .closed).getMappedSite a b =
        ((Grid.new size .closed).enforceBoundaries d >>= (Grid.new size .closed).getIndex) ∧
      (Grid.new size .closed).getUnMappedSite b a =
        ((Grid.new size .closed).enforceBoundaries e >>= (Grid.new size .closed).getIndex) ∧
      d.length = size.length ∧ e.length = size.length ∧
      ∀ (k s : Nat) (x y : Int), size[k]? = some s → d[k]? = some x → e[k]? = some y →
        (x / (s : Int)).natAbs ≤ 1 ∧ (y / (s : Int)).natAbs ≤ 1 := by
  have hf := small_fits (small_of h hs)
  have ga := crd_onGrid h.1 ha
  have gb := crd_onGrid h.1 hb
  refine ⟨zop (· - ·) (crd size b) (crd size a), zop (· + ·) (crd size a) (crd size b), ?_, ?_, ?_, ?_, ?_⟩
  · rw [Grid.getMappedSite, getCoordinates_eq h hf _ hb, Res.ok_bind, getCoordinates_eq h hf _ ha, Res.ok_bind,
      subtractInto_eq hf gb ga, Res.ok_bind]
  · rw [Grid.getUnMappedSite, getCoordinates_eq h hf _ ha, Res.ok_bind, getCoordinates_eq h hf _ hb, Res.ok_bind,
      sumInto_eq hs ga gb, Res.ok_bind]
  · rw [zop_length _ (by simp)]; simp
  · rw [zop_length _ (by simp)]; simp
  · intro k s x y hk hx hy
    obtain ⟨hl, -⟩ := List.getElem?_eq_some_iff.1 hk
    have hp : (crd size b)[k]? = some ((crd size b)[k]'(by rw [onGrid_length gb]; exact hl)) := List.getElem?_eq_getElem _
    have hq : (crd size a)[k]? = some ((crd size a)[k]'(by rw [onGrid_length ga]; exact hl)) := List.getElem?_eq_getElem _
    obtain ⟨s1, e1, h1⟩ := onGrid_getElem gb hp
    obtain ⟨s2, e2, h2⟩ := onGrid_getElem ga hq
    rw [zop_getElem _ hp hq] at hx
    rw [zop_getElem _ hq hp] at hy
    rw [hk] at e1 e2
    cases e1; cases e2; cases hx; cases hy
    exact ⟨(fold_once _ _ _ h1 h2).1, (fold_once _ _ _ h2 h1).2⟩

example : Representable [3, 4] ∧ ∀ s ∈ [3, 4], s ≤ 2 ^ 62 := ⟨⟨by decide, by decide⟩, by decide⟩

/-- C145.  A coordinate far away: with one site in the direction the loop runs 2^63 times. -/
theorem C145_far : ∃ n c1, Runs (fun c => decide (c < 0)) (fun c => ladd c 1) n (-2 ^ 63) c1 ∧ n = 2 ^ 63 := by
  have := runs_up (s := 1) (by norm_num) (by norm_num) (2 ^ 63) (-2 ^ 63) (by norm_num) (by norm_num) (by norm_num)
  exact ⟨_, _, this, rfl⟩

/-! ## Euclid's algorithm -/

theorem calls_fib {mod : Int → Int → Res Int} (hm : ∀ a b r, b ≠ 0 → mod a b = .ok r → r = Int.tmod a b) {n : Nat} {a b : Int}
    (h : Calls mod n a b) (hn : 0 < n) :
    Nat.fib (n + 1) ≤ b.natAbs ∧ (b.natAbs < a.natAbs → Nat.fib (n + 2) ≤ a.natAbs) := by
  induction h with
  | done => omega
  | @step n a b r hb hr hc ih =>
    have hr' : r.natAbs = a.natAbs % b.natAbs := by rw [hm a b r hb hr, Int.natAbs_tmod]
    have hbp : 0 < b.natAbs := by omega
    have hlt := Nat.mod_lt a.natAbs hbp
    cases n with
    | zero =>
      refine ⟨hbp, fun h => ?_⟩
      show Nat.fib 3 ≤ _
      have : Nat.fib 3 = 2 := rfl
      omega
    | succ n =>
      obtain ⟨h1, h2⟩ := ih (by omega)
      have h3 := h2 (by omega)
      refine ⟨h3, fun h => ?_⟩
      have hd := Nat.div_add_mod a.natAbs b.natAbs
      have hq : 1 ≤ a.natAbs / b.natAbs := (Nat.one_le_div_iff hbp).2 h.le
      have hq' : b.natAbs ≤ b.natAbs * (a.natAbs / b.natAbs) := Nat.le_mul_of_pos_right _ hq
      have hf : Nat.fib (n + 1 + 1 + 2) = Nat.fib (n + 1 + 1) + Nat.fib (n + 1 + 2) := Nat.fib_add_two
      rw [hf]
      omega

theorem lmod_tmod {a b r : Int} (h0 : b ≠ 0) (h : lmod a b = .ok r) : r = Int.tmod a b := by
  unfold lmod at h
  rw [if_neg h0] at h
  split at h
  · cases h; rfl
  · cases h

theorem mod_tmod {t : CInt} {a b r : Int} (h0 : b ≠ 0) (h : t.mod a b = .ok r) : r = Int.tmod a b := by
  unfold CInt.mod at h
  rw [if_neg h0] at h
  obtain ⟨_, -, h⟩ := Res.bind_eq_ok.1 h
  cases h; rfl

/-- Fibonacci numbers exceed 2^63 from the 93rd on, and 2^64 from the 94th on. -/
theorem fib_bounds {n : Nat} : (Nat.fib n ≤ 2 ^ 63 → n ≤ 92) ∧ (Nat.fib n ≤ 2 ^ 64 → n ≤ 93) ∧ (Nat.fib n ≤ 2 ^ 32 → n ≤ 47) ∧
    (Nat.fib n ≤ 2 ^ 31 → n ≤ 46) := by
  have key : ∀ k m : Nat, m < Nat.fib (k + 1) → Nat.fib n ≤ m → n ≤ k := by
    intro k m hm h
    by_contra hc
    have := Nat.fib_mono (show k + 1 ≤ n by omega)
    omega
  exact ⟨key 92 _ (by decide), key 93 _ (by decide), key 47 _ (by decide), key 46 _ (by decide)⟩

/-- C145.  `get_gcd` of `long`s: if it returns it has called itself `n` times for some `n`, the Fibonacci number of n+1 is at
most |b| unless n = 0 (Lamé), and n is at most 91. -/
theorem C145_gcd (a b g : Int) (hb : InLong b) (h : getGcd a b = .ok g) :
    ∃ n, Calls lmod n a b ∧ (0 < n → Nat.fib (n + 1) ≤ b.natAbs) ∧ n ≤ 91 := by
  have hc : ∃ n, Calls lmod n a b := by
    clear hb
    generalize hk : b.natAbs = k
    induction k using Nat.strongRecOn generalizing a b with
    | _ k ih =>
      rw [getGcd] at h
      split at h
      · rename_i h0
        subst h0
        exact ⟨0, .done⟩
      · rename_i h0
        obtain ⟨r, hr, h⟩ := Res.bind_eq_ok.1 h
        obtain ⟨n, hn⟩ := ih r.natAbs (by rw [lmod_tmod h0 hr, ← hk]; exact tmod_natAbs_lt a b h0) b r h rfl
        exact ⟨n + 1, .step h0 hr hn⟩
  obtain ⟨n, hn⟩ := hc
  have hf : 0 < n → Nat.fib (n + 1) ≤ b.natAbs := fun h0 => (calls_fib (fun a b r h0 h => lmod_tmod h0 h) hn h0).1
  refine ⟨n, hn, hf, ?_⟩
  rcases Nat.eq_zero_or_pos n with h0 | h0
  · omega
  · have h1 := hf h0
    have h2 : b.natAbs ≤ 2 ^ 63 := by unfold InLong at hb; comega
    have := fib_bounds.1 (h1.trans h2)
    omega

/-- C145.  `get_gcd` at every integer type for which it compiles: at most 91 nested calls for `long`, 92 for
`unsigned long`, 45 for `int` and 46 for `unsigned`. -/
theorem C145_gcd_types (t : CInt) (ht : Wide t) (a b g : Int) (hb : t.Has b) (h : t.getGcd a b = .ok g) :
    ∃ n, Calls t.mod n a b ∧ (0 < n → Nat.fib (n + 1) ≤ b.natAbs) ∧
      n ≤ (if t.bits = 32 then 45 else 91) + (if t.signed then 0 else 1) := by
  have hc : ∃ n, Calls t.mod n a b := by
    clear hb
    generalize hk : b.natAbs = k
    induction k using Nat.strongRecOn generalizing a b with
    | _ k ih =>
      rw [CInt.getGcd] at h
      split at h
      · rename_i h0
        subst h0
        exact ⟨0, .done⟩
      · rename_i h0
        obtain ⟨r, hr, h⟩ := Res.bind_eq_ok.1 h
        obtain ⟨n, hn⟩ := ih r.natAbs (by rw [mod_tmod h0 hr, ← hk]; exact tmod_natAbs_lt a b h0) b r h rfl
        exact ⟨n + 1, .step h0 hr hn⟩
  obtain ⟨n, hn⟩ := hc
  have hf : 0 < n → Nat.fib (n + 1) ≤ b.natAbs := fun h0 => (calls_fib (fun a b r h0 h => mod_tmod h0 h) hn h0).1
  refine ⟨n, hn, hf, ?_⟩
  rcases Nat.eq_zero_or_pos n with h0 | h0
  · omega
  · have h1 := hf h0
    obtain ⟨f1, f2, f3, f4⟩ := fib_bounds (n := n + 1)
    unfold Wide at ht
    unfold CInt.Has CInt.lo CInt.hi at hb
    rcases ht with hbits | hbits <;> cases hs : t.signed <;> simp only [hbits, hs] at hb ⊢ <;> norm_num at hb ⊢
    · have := f3 (by omega); omega
    · have := f4 (by omega); omega
    · have := f2 (by omega); omega
    · have := f1 (by omega); omega

/-- The bound for `long` is reached, by consecutive Fibonacci numbers. -/
theorem C145_gcd_reached : ∃ a b : Int, InLong a ∧ InLong b ∧ Calls lmod 91 a b := by
  have hlm : ∀ x y : Nat, y ≠ 0 → x < 2 ^ 63 → lmod x y = .ok ((x % y : Nat) : Int) := by
    intro x y h0 h1
    unfold lmod
    rw [if_neg (by omega), if_pos ?_]
    · rw [Int.ofNat_tmod]
    · unfold InLong
      have := Nat.div_le_self x y
      rw [← Int.ofNat_tdiv]
      generalize x / y = q at this ⊢
      omega
  have key : ∀ k : Nat, Nat.fib (k + 3) < 2 ^ 63 → Calls lmod (k + 1) (Nat.fib (k + 3)) (Nat.fib (k + 2)) := by
    intro k hk
    induction k with
    | zero => exact .step (by decide) (hlm 2 1 (by decide) (by decide)) .done
    | succ k ih =>
      have hf : Nat.fib (k + 1 + 3) = Nat.fib (k + 2) + Nat.fib (k + 3) := Nat.fib_add_two
      have hlt : Nat.fib (k + 2) < Nat.fib (k + 3) := Nat.fib_lt_fib_succ (by omega)
      refine .step (by show ((Nat.fib (k + 3) : Nat) : Int) ≠ 0; omega) (hlm _ (Nat.fib (k + 3)) (by omega) (by omega)) ?_
      have : Nat.fib (k + 1 + 3) % Nat.fib (k + 3) = Nat.fib (k + 2) := by
        rw [hf, Nat.add_mod_right, Nat.mod_eq_of_lt hlt]
      rw [this]
      exact ih (by omega)
  refine ⟨Nat.fib 91, Nat.fib 92, by decide, by decide, .step (by decide) (hlm _ _ (by decide) (by decide)) ?_⟩
  rw [Nat.mod_eq_of_lt (Nat.fib_lt_fib_succ (by omega))]
  exact key 89 (by decide)

example : InLong (2 ^ 62) ∧ getGcd 6 4 = .ok 2 := by
  refine ⟨by decide, ?_⟩
  rw [getGcd]; simp [lmod, InLong]
  rw [getGcd]; simp [lmod, InLong]
  rw [getGcd]; simp

/-! ## Binomial coefficients and histograms -/

theorem runs_binomial {n k : Int} {m : Nat} {s r : BinomState}
    (h : Runs (fun s : BinomState => decide (s.i ≤ k)) (cbinomialBody n) m s r) : (m : Int) = max 0 (k + 1 - s.i) := by
  induction h with
  | @done s h =>
    have : k < s.i := by simpa using h
    omega
  | @step m s s' r h1 h2 _ ih =>
    have h1 : s.i ≤ k := by simpa using h1
    have hi : s'.i = s.i + 1 := by
      unfold cbinomialBody at h2
      obtain ⟨_, -, h2⟩ := Res.bind_eq_ok.1 h2
      obtain ⟨_, -, h2⟩ := Res.bind_eq_ok.1 h2
      obtain ⟨_, -, h2⟩ := Res.bind_eq_ok.1 h2
      obtain ⟨_, -, h2⟩ := Res.bind_eq_ok.1 h2
      obtain ⟨i, hi, h2⟩ := Res.bind_eq_ok.1 h2
      cases h2
      exact (long_eq_ok.1 hi).2
    rw [hi] at ih
    push_cast
    omega

/-- C145.  `cbinomial(n, k)` with k <= n that returns has run its loop min(k, n-k) times, not at all if that is negative. -/
theorem C145_cbinomial (n k x : Int) (hk : k ≤ n) (h : cbinomial n k = .ok x) :
    ∃ (m : Nat) (r : BinomState), Runs (fun s : BinomState => decide (s.i ≤ min k (n - k))) (cbinomialBody n) m ⟨1, 1⟩ r ∧
      x = r.res ∧ (m : Int) = max 0 (min k (n - k)) := by
  unfold cbinomial at h
  rw [if_neg (by omega)] at h
  obtain ⟨d, hd, h⟩ := Res.bind_eq_ok.1 h
  obtain ⟨-, rfl⟩ := long_eq_ok.1 hd
  have e : (if k > n - k then n - k else k) = min k (n - k) := by
    split <;> omega
  simp only [e] at h
  obtain ⟨r, hr, h⟩ := Res.bind_eq_ok.1 h
  cases h
  obtain ⟨m, hm⟩ := runs_of_result hr
  refine ⟨m, r, hm, rfl, ?_⟩
  rw [runs_binomial hm]
  show max 0 (min k (n - k) + 1 - 1) = _
  omega

/-- C145.  `ForceAdd(idx, x)` appends bins one at a time: it runs its loop idx+1-nbins times, not at all if there are enough. -/
theorem C145_grow {F : Type} [CxxFloat F] (h h' : Hist F) (idx : Nat) (hb : h.nbins < 2 ^ 64)
    (hg : h.grow idx = .ok h') :
    ∃ m, Runs (fun h : Hist F => decide (idx ≥ h.nbins)) Hist.growStep m h h' ∧ m = idx + 1 - h.nbins := by
  obtain ⟨m, hm⟩ := runs_of_result hg
  refine ⟨m, hm, ?_⟩
  clear hg
  induction hm with
  | @done h hc =>
    have : idx < h.nbins := by simpa using hc
    omega
  | @step m h h1 h' hc hs _ ih =>
    have hc : h.nbins ≤ idx := by simpa using hc
    unfold Hist.growStep at hs
    simp only [List.length_append, List.length_singleton] at hs
    split at hs
    · rename_i he
      cases hs
      have hn : succU h.nbins = h.nbins + 1 := by
        unfold succU at he ⊢
        omega
      have := ih (by show succU h.nbins < _; rw [hn]; unfold succU at hn; omega)
      simp only [hn] at this
      omega
    · cases hs

end Bwsl
