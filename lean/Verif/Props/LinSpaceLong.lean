import Verif.Model.LinSpaceLong
import Mathlib.Tactic.Ring
import Mathlib.Tactic.Linarith

/-! Property C114: linearly spaced integers. -/

namespace Bwsl

/-- The state after `k` increments. -/
def Spec.incrN : Nat → LinSpaceLong → Res LinSpaceLong
  | 0, s => .ok s
  | k + 1, s => do
    let s ← s.incr
    incrN k s

open Spec

/-- C114.  The constructor is defined exactly if first < last, their difference is a `long` and there is at least one step. -/
theorem C114_defined (a b : Int) (n : Nat) (hn : n < 2 ^ 64) :
    ((∃ s, LinSpaceLong.new a b n = .ok s) ↔ a < b ∧ b - a < 2 ^ 63 ∧ n ≠ 0) ∧
    (b ≤ a → LinSpaceLong.new a b n = .ub .assertion) ∧
    (a < b → 2 ^ 63 ≤ b - a → LinSpaceLong.new a b n = .ub .signedOverflow) ∧
    (a < b → b - a < 2 ^ 63 → n = 0 → LinSpaceLong.new a b n = .ub .divByZero) := by
  have key : a < b → b - a < 2 ^ 63 → n ≠ 0 → ∃ s, LinSpaceLong.new a b n = .ok s := by
    intro h1 h2 h3
    unfold LinSpaceLong.new lsub ldiv
    rw [if_pos h1, long_ok (by comega), Res.ok_bind, if_neg (by unfold toLong; split <;> omega)]
    have hb : InLong ((b - a).tdiv (toLong n)) := by
      have h4 := Int.natAbs_tdiv_le_natAbs (b - a) (toLong n)
      comega
    rw [long_ok hb]
    exact ⟨_, rfl⟩
  have k1 : b ≤ a → LinSpaceLong.new a b n = .ub .assertion := by
    intro h
    unfold LinSpaceLong.new
    rw [if_neg (by omega)]
  have k2 : a < b → 2 ^ 63 ≤ b - a → LinSpaceLong.new a b n = .ub .signedOverflow := by
    intro h1 h2
    unfold LinSpaceLong.new lsub long
    rw [if_pos h1, if_neg (by comega)]
    rfl
  have k3 : a < b → b - a < 2 ^ 63 → n = 0 → LinSpaceLong.new a b n = .ub .divByZero := by
    intro h1 h2 h3
    subst h3
    unfold LinSpaceLong.new lsub
    rw [if_pos h1, long_ok (by comega), Res.ok_bind]
    rfl
  refine ⟨⟨?_, fun ⟨h1, h2, h3⟩ => key h1 h2 h3⟩, k1, k2, k3⟩
  rintro ⟨s, hs⟩
  by_cases h1 : b ≤ a
  · rw [k1 h1] at hs; cases hs
  · by_cases h2 : 2 ^ 63 ≤ b - a
    · rw [k2 (by omega) h2] at hs; cases hs
    · refine ⟨by omega, by omega, fun h3 => ?_⟩
      rw [k3 (by omega) (by omega) h3] at hs; cases hs

section
variable {a b : Int} {n : Nat} {s : LinSpaceLong}

theorem new_long (hn : n < 2 ^ 63) (hs : LinSpaceLong.new a b n = .ok s) :
    a < b ∧ b - a < 2 ^ 63 ∧ 0 < n ∧ s = ⟨a, a, b, (b - a) / n, n, 0⟩ := by
  obtain ⟨h1, h2, h3⟩ := (C114_defined a b n (by omega)).1.1 ⟨s, hs⟩
  refine ⟨h1, h2, by omega, ?_⟩
  unfold LinSpaceLong.new lsub ldiv at hs
  have e : toLong n = n := by unfold toLong; rw [if_pos (by omega)]
  rw [if_pos h1, long_ok (by comega), Res.ok_bind, e, if_neg (by omega), Int.tdiv_eq_ediv_of_nonneg (by omega)] at hs
  have hb : InLong ((b - a) / n) := by
    have h4 : 0 ≤ (b - a) / (n : Int) := Int.ediv_nonneg (by omega) (by omega)
    have h5 : (b - a) / (n : Int) ≤ b - a := Int.ediv_le_self _ (by omega)
    comega
  rw [long_ok hb, Res.ok_bind] at hs
  cases hs
  rfl

/-- The multiples of the step stay below the difference. -/
theorem multiple_le (h : a < b) (hn : 0 < n) {k : Nat} (hk : k ≤ n) :
    0 ≤ (b - a) / n * k ∧ (b - a) / n * k ≤ b - a := by
  have h4 : 0 ≤ (b - a) / (n : Int) := Int.ediv_nonneg (by omega) (by omega)
  refine ⟨Int.mul_nonneg h4 (by omega), ?_⟩
  have h5 : (b - a) / n * n ≤ b - a := Int.ediv_mul_le _ (by omega)
  exact le_trans (mul_le_mul_of_nonneg_left (by omega) h4) h5

theorem incrN_long (h1 : a < b) (h2 : b - a < 2 ^ 63) (hn : 0 < n) (hn63 : n < 2 ^ 63) (ha : InLong a) (hb : InLong b) (j k : Nat)
    (hk : j + k ≤ n) (c : Int) :
    incrN k ⟨c, a, b, (b - a) / n, n, j⟩ =
      .ok ⟨if k = 0 then c else a + (b - a) / n * ((j + k : Nat) : Int), a, b, (b - a) / n, n, j + k⟩ := by
  induction k generalizing j c with
  | zero => rfl
  | succ k ih =>
    unfold incrN LinSpaceLong.incr
    have e : (j + 1) % W64 = j + 1 := Nat.mod_eq_of_lt (by omega)
    have e2 : toLong (j + 1) = ((j + 1 : Nat) : Int) := by unfold toLong; rw [if_pos (by omega)]
    obtain ⟨m1, m2⟩ := multiple_le h1 hn (k := j + 1) (by omega)
    simp only [e, e2]
    unfold lmul ladd
    rw [long_ok (by comega), Res.ok_bind, long_ok (by comega), Res.ok_bind, Res.ok_bind, ih (j + 1) (by omega)]
    have e3 : j + 1 + k = j + (k + 1) := by omega
    rw [e3, if_neg (Nat.succ_ne_zero k)]
    by_cases hk0 : k = 0
    · subst hk0; rfl
    · rw [if_neg hk0]

end

/-- C114.  The value after `k` of `n` increments is first + k ⌊(last - first) / n⌋, without overflow and within the interval. -/
theorem C114_kth (a b : Int) (ha : InLong a) (hb : InLong b) (n : Nat) (hn : n < 2 ^ 63) (s : LinSpaceLong)
    (hs : LinSpaceLong.new a b n = .ok s) (k : Nat) (hk : k ≤ n) :
    ∃ s', incrN k s = .ok s' ∧ s'.deref = a + k * ((b - a) / n) ∧ a ≤ s'.deref ∧ s'.deref ≤ b := by
  obtain ⟨h1, h2, h3, rfl⟩ := new_long hn hs
  obtain ⟨m1, m2⟩ := multiple_le h1 h3 hk
  refine ⟨_, incrN_long h1 h2 h3 hn ha hb 0 k (by omega) a, ?_⟩
  have e : (if k = 0 then a else a + (b - a) / n * ((0 + k : Nat) : Int)) = a + k * ((b - a) / n) := by
    split
    · rename_i h; subst h; simp
    · rw [Nat.zero_add]; ring
  unfold LinSpaceLong.deref
  simp only [e]
  rw [mul_comm] at m1 m2
  exact ⟨trivial, by omega, by omega⟩

/-- C114.  After `n` increments the value is last minus the remainder of the division: it is `last` exactly if `n` divides
last - first.  With more steps than integers in the interval, every value is `first`. -/
theorem C114_end (a b : Int) (ha : InLong a) (hb : InLong b) (n : Nat) (hn : n < 2 ^ 63) (s : LinSpaceLong)
    (hs : LinSpaceLong.new a b n = .ok s) :
    (∃ s', incrN n s = .ok s' ∧ s'.deref = b - (b - a) % n ∧ (s'.deref = b ↔ (n : Int) ∣ b - a)) ∧
    (b - a < n → ∀ k ≤ n, ∃ s', incrN k s = .ok s' ∧ s'.deref = a) := by
  obtain ⟨h1, h2, h3, _⟩ := new_long hn hs
  refine ⟨?_, fun h k hk => ?_⟩
  · obtain ⟨s', e1, e2, _⟩ := C114_kth a b ha hb n hn s hs n le_rfl
    have := Int.mul_ediv_add_emod (b - a) n
    refine ⟨s', e1, by omega, ?_⟩
    rw [Int.dvd_iff_emod_eq_zero]
    omega
  · obtain ⟨s', e1, e2, _⟩ := C114_kth a b ha hb n hn s hs k hk
    refine ⟨s', e1, ?_⟩
    rw [e2, Int.ediv_eq_zero_of_lt (by omega) h, mul_zero, add_zero]

/-- C114.  `Collect(m)` returns the first `m` values. -/
theorem C114_collect (a b : Int) (ha : InLong a) (hb : InLong b) (n : Nat) (hn : n < 2 ^ 63) (s : LinSpaceLong)
    (hs : LinSpaceLong.new a b n = .ok s) (m : Nat) (hm : m ≤ n) :
    s.collect m = .ok ((List.range m).map (fun k : Nat => a + k * ((b - a) / n))) := by
  obtain ⟨h1, h2, h3, rfl⟩ := new_long hn hs
  have key : ∀ m j, j + m ≤ n →
      LinSpaceLong.generateN ⟨a + j * ((b - a) / n), a, b, (b - a) / n, n, j⟩ m =
        .ok ((List.range' j m).map (fun k : Nat => a + k * ((b - a) / n))) := by
    intro m
    induction m with
    | zero => intro j _; rfl
    | succ m ih =>
      intro j hj
      have e := incrN_long h1 h2 h3 hn ha hb j 1 (by omega) (a + j * ((b - a) / n))
      have e' : LinSpaceLong.incr ⟨a + j * ((b - a) / n), a, b, (b - a) / n, n, j⟩ =
          .ok ⟨a + ((j + 1 : Nat) : Int) * ((b - a) / n), a, b, (b - a) / n, n, j + 1⟩ := by
        unfold incrN at e
        obtain ⟨t, e1, e2⟩ := Res.bind_eq_ok.1 e
        cases e2
        rw [e1, if_neg Nat.one_ne_zero, mul_comm]
      unfold LinSpaceLong.generateN LinSpaceLong.call
      rw [e', Res.ok_bind, Res.ok_bind, ih (j + 1) (by omega), Res.ok_bind]
      rfl
  have := key m 0 (by omega)
  rw [← List.range_eq_range'] at this
  unfold LinSpaceLong.collect
  simpa using this

/-- C114.  `begin()` and `end()` return the states at the ends of the interval, whatever the state: the value of `end()` is `last`
even if the increments never yield it. -/
theorem C114_ends (a b : Int) (ha : InLong a) (hb : InLong b) (n : Nat) (hn : n < 2 ^ 63) (s : LinSpaceLong)
    (hs : LinSpaceLong.new a b n = .ok s) (k : Nat) (hk : k ≤ n) (s' : LinSpaceLong) (h : incrN k s = .ok s') :
    s'.begin = s ∧ s'.end.deref = b ∧ s'.end.begin = s := by
  obtain ⟨h1, h2, h3, rfl⟩ := new_long hn hs
  rw [incrN_long h1 h2 h3 hn ha hb 0 k (by omega) a] at h
  cases h
  exact ⟨rfl, rfl, rfl⟩

/-- C114.  A number of steps above 2^63 is converted to a negative number, and the values decrease: with 2^64 - 1 steps the first
increment leads to first - (last - first). -/
theorem C114_negative (a b : Int) (h1 : a < b) (h2 : b - a < 2 ^ 63) (hl : InLong (a - (b - a))) :
    ∃ s s', LinSpaceLong.new a b (2 ^ 64 - 1) = .ok s ∧ s.incr = .ok s' ∧ s'.deref = a - (b - a) := by
  refine ⟨⟨a, a, b, -(b - a), 2 ^ 64 - 1, 0⟩, ⟨a - (b - a), a, b, -(b - a), 2 ^ 64 - 1, 1⟩, ?_, ?_, rfl⟩
  · unfold LinSpaceLong.new lsub ldiv
    have e : toLong (2 ^ 64 - 1) = -1 := by decide
    rw [if_pos h1, long_ok (by comega), Res.ok_bind, e, if_neg (by omega), Int.tdiv_neg, Int.tdiv_one, long_ok (by comega),
      Res.ok_bind]
  · unfold LinSpaceLong.incr lmul ladd
    have e : toLong ((0 + 1) % W64) = 1 := by decide
    simp only [e]
    rw [mul_one, long_ok (by comega), Res.ok_bind, ← sub_eq_add_neg, long_ok hl, Res.ok_bind]

/- From 0 to 10 in 4 steps: 0, 2, 4, 6, 8. -/
example : ∃ s, LinSpaceLong.new 0 10 4 = .ok s ∧ s.collect 4 = .ok [0, 2, 4, 6] ∧ (incrN 4 s).bind (fun s => .ok s.deref) = .ok 8 ∧
    s.end.deref = 10 := by
  refine ⟨⟨0, 0, 10, 2, 4, 0⟩, ?_, ?_, ?_, ?_⟩ <;> decide +kernel

end Bwsl
