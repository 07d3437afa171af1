import Verif.Model.LinSpaceTypes
import Verif.Model.LinSpaceLong
import Verif.Props.MathTypes

/-! Property C139: linearly spaced numbers of every integer type. -/

namespace Bwsl
open Spec CInt

/-- The state after `k` increments. -/
def Spec.incrT (t : CInt) : Nat → LinSpaceT → Res LinSpaceT
  | 0, s => .ok s
  | k + 1, s => do
    let s ← incrT t k s
    s.incr t

section
variable {t : CInt} {a b : Int} {n : Nat} {s : LinSpaceT}

theorem wrap_eq_zero_iff (ht : Standard t) (n : Nat) : t.wrap n = 0 ↔ 2 ^ t.bits ∣ n := by
  constructor
  · intro h
    have := wrap_dvd t n
    rw [h, sub_zero] at this
    exact_mod_cast this
  · intro h
    rw [wrap_congr (t := t) (x := n) (y := 0) (by rw [sub_zero]; exact_mod_cast h), wrap_of_has ht (has_zero ht)]

/-- The constructor, branch by branch. -/
theorem newT_eq (ht : Standard t) (ha : t.Has a) (hb : t.Has b) (hab : a < b) (n : Nat) :
    LinSpaceT.new t a b n =
      if Overflows t (b - a) then .ub .signedOverflow
      else if 2 ^ t.bits ∣ n then .ub .divByZero
      else .ok ⟨a, a, b, t.wrap ((b - a).tdiv (t.wrap n)), n, 0⟩ := by
  unfold LinSpaceT.new CInt.sub CInt.div
  rw [if_pos hab, arith_promote ht]
  by_cases h : Overflows t (b - a)
  · rw [if_pos h, if_pos h]; rfl
  rw [if_neg h, if_neg h, Res.ok_bind]
  have hd : t.promote.Has (b - a) := by int_types t ht <;> omega
  rw [wrap_of_has (standard_promote ht) hd]
  by_cases hz : 2 ^ t.bits ∣ n
  · rw [if_pos hz, if_pos ((wrap_eq_zero_iff ht n).2 hz)]; rfl
  rw [if_neg hz, if_neg (fun e => hz ((wrap_eq_zero_iff ht n).1 e))]
  have hw := has_wrap ht n
  generalize t.wrap n = w at hw ⊢
  by_cases hp : t.promote.Has ((b - a).tdiv w)
  · rw [arith_ok ht hp]; rfl
  · exfalso
    apply hp
    have h4 := Int.natAbs_tdiv_le_natAbs (b - a) w
    clear hp hz
    generalize hg : (b - a).tdiv w = g at h4 ⊢
    by_cases hs : t.signed
    · int_types t ht <;> omega
    · have h5 : 0 ≤ w := by int_types t ht <;> omega
      have h6 := Int.tdiv_nonneg (a := b - a) (b := w) (by omega) h5
      rw [hg] at h6
      int_types t ht <;> omega

end

/-- C139.  The constructor fails an assertion unless first < last; overflows if the difference does (never for unsigned types and
for types narrower than `int`); divides by zero if the number of steps is a multiple of 2^bits; and is defined otherwise. -/
theorem C139_defined (t : CInt) (ht : Standard t) (a b : Int) (ha : t.Has a) (hb : t.Has b) (n : Nat) :
    (b ≤ a → LinSpaceT.new t a b n = .ub .assertion) ∧
    (a < b → 32 ≤ t.bits → t.signed = true → t.hi ≤ b - a → LinSpaceT.new t a b n = .ub .signedOverflow) ∧
    (a < b → (t.bits < 32 ∨ t.signed = false ∨ b - a < t.hi) → 2 ^ t.bits ∣ n → LinSpaceT.new t a b n = .ub .divByZero) ∧
    (a < b → (t.bits < 32 ∨ t.signed = false ∨ b - a < t.hi) → ¬ 2 ^ t.bits ∣ n →
      ∃ s, LinSpaceT.new t a b n = .ok s ∧ s.deref = a) := by
  have hno : a < b → (t.bits < 32 ∨ t.signed = false ∨ b - a < t.hi) → ¬ Overflows t (b - a) := by
    intro h1 h2
    int_types t ht <;> omega
  refine ⟨fun h => ?_, fun h1 h2 h3 h4 => ?_, fun h1 h2 h3 => ?_, fun h1 h2 h3 => ?_⟩
  · unfold LinSpaceT.new
    rw [if_neg (by omega)]
  · rw [newT_eq ht ha hb h1, if_pos]
    unfold Overflows
    rw [if_neg (by omega)]
    exact ⟨h3, fun h => by have := h.2; omega⟩
  · rw [newT_eq ht ha hb h1, if_neg (hno h1 h2), if_pos h3]
  · rw [newT_eq ht ha hb h1, if_neg (hno h1 h2), if_neg h3]
    exact ⟨_, rfl, rfl⟩

section
variable {t : CInt} {a b : Int} {n : Nat} {s : LinSpaceT}

theorem newT_ok (ht : Standard t) (ha : t.Has a) (hb : t.Has b) (hn : (n : Int) < t.hi) (hs : LinSpaceT.new t a b n = .ok s) :
    a < b ∧ ¬ Overflows t (b - a) ∧ 0 < n ∧ s = ⟨a, a, b, t.wrap ((b - a) / n), n, 0⟩ := by
  have hab : a < b := by
    by_contra h
    rw [(C139_defined t ht a b ha hb n).1 (by omega)] at hs; cases hs
  rw [newT_eq ht ha hb hab] at hs
  split at hs
  · cases hs
  rename_i ho
  split at hs
  · cases hs
  rename_i hz
  have h0 : 0 < n := by
    rcases Nat.eq_zero_or_pos n with h | h
    · subst h; exact absurd (dvd_zero _) hz
    · exact h
  refine ⟨hab, ho, h0, ?_⟩
  have hw : t.wrap n = n := wrap_of_has ht ⟨by have := t.lo_nonpos; omega, hn⟩
  rw [hw, Int.tdiv_eq_ediv_of_nonneg (by omega)] at hs
  exact (Res.ok.inj hs).symm

/-- One increment, branch by branch. -/
theorem incrT_eq (ht : Standard t) (s : LinSpaceT) (m : Int) (hm : s.stepsize * t.wrap (((s.step + 1) % W64 : Nat)) = m)
    (h1 : t.promote.Has m) (h2 : ¬ Overflows t (s.first + m)) :
    s.incr t = .ok { s with step := (s.step + 1) % W64, current := t.wrap (s.first + m) } := by
  unfold LinSpaceT.incr CInt.mul CInt.add
  simp only [hm]
  rw [arith_ok ht h1, Res.ok_bind, arith_promote ht, if_neg h2, Res.ok_bind]
  congr 2
  apply wrap_congr
  have h3 := (promote_dvd t).trans (wrap_dvd t.promote (s.first + m))
  rw [← neg_sub]
  exact dvd_neg.2 h3

theorem quotient_le (h : a < b) (hn : 0 < n) {k : Nat} (hk : k ≤ n) :
    0 ≤ (b - a) / n ∧ (b - a) / n ≤ b - a ∧ 0 ≤ (b - a) / n * k ∧ (b - a) / n * k ≤ b - a := by
  have h4 : 0 ≤ (b - a) / (n : Int) := Int.ediv_nonneg (by omega) (by omega)
  refine ⟨h4, Int.ediv_le_self _ (by omega), Int.mul_nonneg h4 (by omega), ?_⟩
  have h5 : (b - a) / n * n ≤ b - a := Int.ediv_mul_le _ (by omega)
  exact le_trans (mul_le_mul_of_nonneg_left (by omega) h4) h5

theorem incrT_step (ht : Standard t) (ha : t.Has a) (hb : t.Has b) (hn : (n : Int) < t.hi) (hab : a < b)
    (ho : ¬ Overflows t (b - a)) (h0 : 0 < n) {j : Nat} (hj : j + 1 ≤ n) (c : Int) :
    LinSpaceT.incr t ⟨c, a, b, t.wrap ((b - a) / n), n, j⟩ =
      .ok ⟨a + (b - a) / n * ((j + 1 : Nat) : Int), a, b, t.wrap ((b - a) / n), n, j + 1⟩ := by
  obtain ⟨q1, q2, q3, q4⟩ := quotient_le hab h0 hj
  have hi64 : t.hi ≤ 2 ^ 64 := by int_types t ht
  have e1 : (j + 1) % W64 = j + 1 := Nat.mod_eq_of_lt (by omega)
  have hjh : t.Has ((j + 1 : Nat) : Int) := ⟨by have := t.lo_nonpos; omega, by omega⟩
  have e2 : t.wrap ((j + 1 : Nat) : Int) = ((j + 1 : Nat) : Int) := wrap_of_has ht hjh
  have hval : t.Has (a + (b - a) / n * ((j + 1 : Nat) : Int)) := ⟨by have := ha.1; omega, by have := hb.2; omega⟩
  generalize hq : (b - a) / (n : Int) = q at *
  by_cases hcase : b - a < t.hi
  · have hqq : t.Has q := ⟨by have := t.lo_nonpos; omega, by omega⟩
    have hm : t.Has (q * ((j + 1 : Nat) : Int)) := ⟨by have := t.lo_nonpos; omega, by omega⟩
    rw [incrT_eq ht _ (q * ((j + 1 : Nat) : Int)) (by simp only [e1, e2, wrap_of_has ht hqq]) (has_promote ht hm)
      (not_overflows ht (has_promote ht hval))]
    simp only [e1, wrap_of_has ht hval]
  · have hnar : t.bits < 32 ∧ t.signed = true := by int_types t ht <;> omega
    have hqw := has_wrap ht q
    have hsafe : ¬ Overflows t (t.wrap q * ((j + 1 : Nat) : Int)) :=
      mul_quiet ht (by unfold Standard at ht; unfold ProductSafe; have := hnar.1; rcases ht with h | h | h | h
                       · exact Or.inl h
                       · exact Or.inr (Or.inl ⟨h, hnar.2⟩)
                       · omega
                       · omega) hqw hjh
    have hbound : |t.wrap q * ((j + 1 : Nat) : Int)| ≤ 1073741824 := by
      rw [abs_mul]
      have h1 : |t.wrap q| ≤ 32768 := by
        rw [abs_le]; generalize t.wrap q = w at hqw; int_types t ht <;> omega
      have h2 : |((j + 1 : Nat) : Int)| ≤ 32768 := by
        generalize ((j + 1 : Nat) : Int) = w at hjh; rw [abs_le]; int_types t ht <;> omega
      calc _ ≤ (32768 : Int) * 32768 := mul_le_mul h1 h2 (abs_nonneg _) (by norm_num)
        _ = 1073741824 := by norm_num
    rw [abs_le] at hbound
    have hpm : t.promote.Has (t.wrap q * ((j + 1 : Nat) : Int)) := by
      have : t.promote = tInt := by unfold promote; rw [if_pos hnar.1]
      rw [this]
      exact ⟨by show (-(2 ^ 31) : Int) ≤ _; omega, by show _ < (2 ^ 31 : Int); omega⟩
    have hsum : ¬ Overflows t (a + t.wrap q * ((j + 1 : Nat) : Int)) := by
      unfold Overflows
      rw [if_pos hnar.1, not_not]
      have : -32768 ≤ a ∧ a < 32768 := by clear hpm hbound hsafe hqw; int_types t ht <;> omega
      omega
    rw [incrT_eq ht _ _ (by simp only [e1, e2]) hpm hsum]
    simp only [e1]
    congr 2
    rw [← wrap_of_has ht hval]
    apply wrap_congr
    have := (wrap_dvd t q).mul_right (-((j + 1 : Nat) : Int))
    rwa [show (q - t.wrap q) * -((j + 1 : Nat) : Int) = a + t.wrap q * ((j + 1 : Nat) : Int) - (a + q * ((j + 1 : Nat) : Int)) by ring]
      at this

theorem incrT_all (ht : Standard t) (ha : t.Has a) (hb : t.Has b) (hn : (n : Int) < t.hi) (hab : a < b)
    (ho : ¬ Overflows t (b - a)) (h0 : 0 < n) {k : Nat} (hk : k ≤ n) :
    incrT t k ⟨a, a, b, t.wrap ((b - a) / n), n, 0⟩ =
      .ok ⟨a + (b - a) / n * (k : Int), a, b, t.wrap ((b - a) / n), n, k⟩ := by
  induction k with
  | zero => unfold incrT; simp
  | succ k ih => rw [incrT, ih (by omega), Res.ok_bind, incrT_step ht ha hb hn hab ho h0 hk]

end

/-- C139.  For every integer type and fewer steps than the type has positive values, the value after `k` of `n` increments is
first + k ⌊(last - first) / n⌋, within the interval - also for narrow types whose step size does not fit in the type. -/
theorem C139_kth (t : CInt) (ht : Standard t) (a b : Int) (ha : t.Has a) (hb : t.Has b) (n : Nat) (hn : (n : Int) < t.hi)
    (s : LinSpaceT) (hs : LinSpaceT.new t a b n = .ok s) (k : Nat) (hk : k ≤ n) :
    ∃ s', incrT t k s = .ok s' ∧ s'.deref = a + k * ((b - a) / n) ∧ a ≤ s'.deref ∧ s'.deref ≤ b ∧
      s'.begin = s ∧ s'.end.deref = b := by
  obtain ⟨h1, h2, h3, rfl⟩ := newT_ok ht ha hb hn hs
  obtain ⟨q1, q2, q3, q4⟩ := quotient_le h1 h3 hk
  refine ⟨_, incrT_all ht ha hb hn h1 h2 h3 hk, ?_, ?_, ?_, rfl, rfl⟩
  · show a + _ * _ = _
    rw [mul_comm]
  · show a ≤ a + _; omega
  · show a + _ ≤ b; omega

/-- C139.  Each of the three ways to increment gives the next state; `s++` returns the old state and `s()` its value. -/
theorem C139_increments (t : CInt) (ht : Standard t) (a b : Int) (ha : t.Has a) (hb : t.Has b) (n : Nat) (hn : (n : Int) < t.hi)
    (s : LinSpaceT) (hs : LinSpaceT.new t a b n = .ok s) (k : Nat) (hk : k < n) :
    ∃ s1 s2, incrT t k s = .ok s1 ∧ incrT t (k + 1) s = .ok s2 ∧
      s1.incr t = .ok s2 ∧ s1.postIncr t = .ok (s1, s2) ∧ s1.call t = .ok (s1.deref, s2) := by
  obtain ⟨s1, h1, -⟩ := C139_kth t ht a b ha hb n hn s hs k hk.le
  obtain ⟨s2, h2, -⟩ := C139_kth t ht a b ha hb n hn s hs (k + 1) hk
  have e : s1.incr t = .ok s2 := by
    have := h2
    rw [incrT, h1, Res.ok_bind] at this
    exact this
  refine ⟨s1, s2, h1, h2, e, ?_, ?_⟩
  · unfold LinSpaceT.postIncr
    rw [e, Res.ok_bind]
  · unfold LinSpaceT.call
    rw [e, Res.ok_bind]
    rfl

/-- C139.  After all the steps the value is last minus the remainder of the division. -/
theorem C139_end (t : CInt) (ht : Standard t) (a b : Int) (ha : t.Has a) (hb : t.Has b) (n : Nat) (hn : (n : Int) < t.hi)
    (s : LinSpaceT) (hs : LinSpaceT.new t a b n = .ok s) :
    ∃ s', incrT t n s = .ok s' ∧ s'.deref = b - (b - a) % n ∧ (s'.deref = b ↔ (n : Int) ∣ b - a) := by
  obtain ⟨s', e1, e2, _⟩ := C139_kth t ht a b ha hb n hn s hs n le_rfl
  have := Int.mul_ediv_add_emod (b - a) n
  refine ⟨s', e1, by omega, ?_⟩
  rw [Int.dvd_iff_emod_eq_zero]
  omega

/-- C139.  `Collect(m)` returns the first `m` values. -/
theorem C139_collect (t : CInt) (ht : Standard t) (a b : Int) (ha : t.Has a) (hb : t.Has b) (n : Nat) (hn : (n : Int) < t.hi)
    (s : LinSpaceT) (hs : LinSpaceT.new t a b n = .ok s) (m : Nat) (hm : m ≤ n) :
    s.collect t m = .ok ((List.range m).map (fun k : Nat => a + k * ((b - a) / n))) := by
  obtain ⟨h1, h2, h3, rfl⟩ := newT_ok ht ha hb hn hs
  have key : ∀ m j, j + m ≤ n →
      LinSpaceT.generateN t ⟨a + (b - a) / n * (j : Int), a, b, t.wrap ((b - a) / n), n, j⟩ m =
        .ok ((List.range' j m).map (fun k : Nat => a + k * ((b - a) / n))) := by
    intro m
    induction m with
    | zero => intro j _; rfl
    | succ m ih =>
      intro j hj
      rw [LinSpaceT.generateN, LinSpaceT.call, incrT_step ht ha hb hn h1 h2 h3 (by omega), Res.ok_bind, Res.ok_bind,
        ih (j + 1) (by omega), Res.ok_bind, List.range'_succ, List.map_cons]
      congr 2
      show a + _ * _ = _
      rw [mul_comm]
  have := key m 0 (by omega)
  rw [← List.range_eq_range'] at this
  unfold LinSpaceT.collect
  simpa using this

/-- C139.  For an unsigned type of 32 or 64 bits no increment is ever undefined: after any number of them the value is
first + k ⌊(last - first) / n⌋ reduced modulo 2^bits. -/
theorem C139_unsigned (t : CInt) (ht : Wide t) (hu : t.signed = false) (a b : Int) (ha : t.Has a) (hb : t.Has b) (n : Nat)
    (hn : (n : Int) < t.hi) (s : LinSpaceT) (hs : LinSpaceT.new t a b n = .ok s) (k : Nat) :
    ∃ s', incrT t k s = .ok s' ∧ Reduces t (a + k * ((b - a) / n)) s'.deref := by
  have hst := ht.standard
  obtain ⟨h1, h2, h3, rfl⟩ := newT_ok hst ha hb hn hs
  generalize hq : (b - a) / (n : Int) = q
  have hp : t.promote = t := by unfold promote; rw [if_neg (by unfold Wide at ht; omega)]
  have ar : ∀ x, t.promote.arith x = .ok (t.wrap x) := by
    intro x; rw [hp]; unfold arith; rw [hu]; rfl
  have key : ∀ k : Nat, incrT t k ⟨a, a, b, t.wrap q, n, 0⟩ = .ok ⟨t.wrap (a + k * q), a, b, t.wrap q, n, k % W64⟩ := by
    intro k
    induction k with
    | zero =>
      unfold incrT
      simp [wrap_of_has hst ha]
    | succ k ih =>
      rw [incrT, ih, Res.ok_bind]
      unfold LinSpaceT.incr CInt.mul CInt.add
      simp only [ar, Res.ok_bind, Nat.mod_add_mod]
      congr 2
      have d1 := wrap_dvd t q
      have d2 : (2 : Int) ^ t.bits ∣ ((k + 1 : Nat) : Int) - t.wrap (((k + 1) % W64 : Nat) : Int) := by
        have e := wrap_dvd t (((k + 1) % W64 : Nat) : Int)
        have f : (2 : Int) ^ t.bits ∣ ((k + 1 : Nat) : Int) - (((k + 1) % W64 : Nat) : Int) := by
          have g : (2 : Int) ^ t.bits ∣ ((W64 : Nat) : Int) := by
            have : ((W64 : Nat) : Int) = 2 ^ 64 := by norm_num
            rw [this]
            exact pow_dvd_pow _ (by unfold Wide at ht; omega)
          have h := Nat.div_add_mod (k + 1) W64
          have : ((k + 1 : Nat) : Int) - (((k + 1) % W64 : Nat) : Int) = ((W64 : Nat) : Int) * (((k + 1) / W64 : Nat) : Int) := by
            have h' : ((k + 1 : Nat) : Int) = ((W64 : Nat) : Int) * (((k + 1) / W64 : Nat) : Int) + (((k + 1) % W64 : Nat) : Int) := by
              exact_mod_cast h.symm
            linarith
          rw [this]
          exact g.mul_right _
        have := dvd_add f e
        rwa [sub_add_sub_cancel] at this
      have d3 := wrap_dvd t (t.wrap q * t.wrap (((k + 1) % W64 : Nat) : Int))
      have d4 := wrap_dvd t (a + t.wrap (t.wrap q * t.wrap (((k + 1) % W64 : Nat) : Int)))
      apply wrap_congr
      generalize t.wrap (((k + 1) % W64 : Nat) : Int) = j at *
      generalize t.wrap q = q' at *
      generalize t.wrap (q' * j) = p at *
      generalize t.wrap (a + p) = c at *
      obtain ⟨y1, e1⟩ := d1
      obtain ⟨y2, e2⟩ := d2
      obtain ⟨y3, e3⟩ := d3
      obtain ⟨y4, e4⟩ := d4
      refine ⟨-(y4 + y3 + j * y1 + q * y2), ?_⟩
      have f1 : q' = q - 2 ^ t.bits * y1 := by linarith
      have f2 : ((k + 1 : Nat) : Int) = j + 2 ^ t.bits * y2 := by linarith
      have f3 : p = q' * j - 2 ^ t.bits * y3 := by linarith
      have f4 : c = a + p - 2 ^ t.bits * y4 := by linarith
      rw [f4, f3, f2, f1]
      ring
  refine ⟨_, key k, ?_⟩
  rw [reduces_iff hst]
  rfl

theorem incrT_signed (t : CInt) (ht : Wide t) (hu : t.signed = true) (a b : Int) (ha : t.Has a) (hb : t.Has b) (n : Nat)
    (hn : (n : Int) < t.hi) (s : LinSpaceT) (hs : LinSpaceT.new t a b n = .ok s) (k : Nat) (hk : (k : Int) < t.hi) :
    incrT t k s = if k * ((b - a) / n) < t.hi ∧ a + k * ((b - a) / n) < t.hi then
      .ok ⟨a + k * ((b - a) / n), a, b, (b - a) / n, n, k⟩ else .ub .signedOverflow := by
  have hst := ht.standard
  obtain ⟨h1, h2, h3, rfl⟩ := newT_ok hst ha hb hn hs
  obtain ⟨q1, q2, -, -⟩ := quotient_le (k := 0) h1 h3 (by omega)
  have h32 : 32 ≤ t.bits := by unfold Wide at ht; omega
  have hbig : b - a < t.hi := by
    unfold Overflows at h2
    rw [if_neg (by omega)] at h2
    by_contra hc
    exact h2 ⟨hu, fun h => hc h.2⟩
  generalize hq : (b - a) / (n : Int) = q at *
  have hqq : t.Has q := ⟨by have := t.lo_nonpos; omega, by omega⟩
  rw [wrap_of_has hst hqq]
  have hp : t.promote = t := by unfold promote; rw [if_neg (by unfold Wide at ht; omega)]
  have ar : ∀ x, t.promote.arith x = if t.Has x then .ok x else .ub .signedOverflow := by
    intro x; rw [hp]; unfold arith; rw [hu]; rfl
  have hlo := t.lo_nonpos
  have hhi64 : t.hi ≤ 2 ^ 63 := by clear hn hbig hqq ha hb hs; int_types t hst
  induction k with
  | zero =>
    unfold incrT
    rw [if_pos ⟨by have := hi_ge hst; simp; omega, by have := ha.2; simp; omega⟩]
    simp
  | succ k ih =>
    have hlt : (k : Int) < t.hi := by push_cast at hk; omega
    rw [incrT, ih hlt]
    have hc : ((k + 1 : Nat) : Int) * q = k * q + q := by push_cast; ring
    have h0 : 0 ≤ (k : Int) * q := Int.mul_nonneg (by omega) q1
    by_cases hk' : k * q < t.hi ∧ a + k * q < t.hi
    · rw [if_pos hk', Res.ok_bind]
      unfold LinSpaceT.incr CInt.mul CInt.add
      simp only [ar]
      have e1 : (k + 1) % W64 = k + 1 := Nat.mod_eq_of_lt (by omega)
      have hm : q * t.wrap (((k + 1) % W64 : Nat) : Int) = ((k + 1 : Nat) : Int) * q := by
        rw [e1, wrap_of_has hst ⟨by omega, hk⟩, mul_comm]
      rw [hm, hc, e1]
      by_cases h5 : (k : Int) * q + q < t.hi
      · rw [if_pos (show t.Has (k * q + q) from ⟨by omega, h5⟩), Res.ok_bind]
        by_cases h6 : a + (k * q + q) < t.hi
        · have hh : t.Has (a + (k * q + q)) := ⟨by have := ha.1; omega, h6⟩
          rw [if_pos hh, Res.ok_bind, if_pos ⟨h5, h6⟩, wrap_of_has hst hh]
        · rw [if_neg (show ¬ t.Has (a + (k * q + q)) from fun h => h6 h.2), if_neg (fun h => h6 h.2)]; rfl
      · rw [if_neg (show ¬ t.Has (k * q + q) from fun h => h5 h.2), if_neg (fun h => h5 h.1)]; rfl
    · rw [if_neg hk', if_neg (fun h => hk' ⟨by omega, by omega⟩)]
      rfl

/-- C139.  For a signed type of 32 or 64 bits, `k` increments are defined exactly if k ⌊(last - first) / n⌋ and its sum with
first are values of the type, with the sum as the value, and overflow otherwise.  `k` itself has to be a value of the type. -/
theorem C139_signed (t : CInt) (ht : Wide t) (hu : t.signed = true) (a b : Int) (ha : t.Has a) (hb : t.Has b) (n : Nat)
    (hn : (n : Int) < t.hi) (s : LinSpaceT) (hs : LinSpaceT.new t a b n = .ok s) (k : Nat) (hk : (k : Int) < t.hi) :
    (k * ((b - a) / n) < t.hi → a + k * ((b - a) / n) < t.hi →
      ∃ s', incrT t k s = .ok s' ∧ s'.deref = a + k * ((b - a) / n)) ∧
    (¬ (k * ((b - a) / n) < t.hi ∧ a + k * ((b - a) / n) < t.hi) → incrT t k s = .ub .signedOverflow) := by
  have key := incrT_signed t ht hu a b ha hb n hn s hs k hk
  constructor
  · intro h5 h6
    exact ⟨_, by rw [key, if_pos ⟨h5, h6⟩], rfl⟩
  · intro h
    rw [key, if_neg h]

/-- C139.  Counting upwards from 0 in a signed type of 32 or 64 bits, the increment after the largest value leads to the smallest
one and nothing is undefined: the counter of the steps is converted, not added to. -/
theorem C139_around (t : CInt) (ht : Wide t) (hu : t.signed = true) (n : Nat) (h0 : 0 < n) (hn : (n : Int) < t.hi) :
    ∃ s s', LinSpaceT.new t 0 n n = .ok s ∧ incrT t t.hi.toNat s = .ok s' ∧ s'.deref = t.lo := by
  have hst := ht.standard
  have hlo := t.lo_nonpos
  have hge := hi_ge hst
  have hb : t.Has n := ⟨by omega, hn⟩
  have hz := has_zero hst
  have hd := newT_eq hst hz hb (by omega) n
  have hno : ¬ Overflows t ((n : Int) - 0) := by rw [sub_zero]; exact not_overflows hst (has_promote hst hb)
  have hnd : ¬ 2 ^ t.bits ∣ n := by
    rw [← wrap_eq_zero_iff hst, wrap_of_has hst hb]; omega
  rw [if_neg hno, if_neg hnd] at hd
  have e2 : t.hi.toNat = (t.hi - 1).toNat + 1 := by omega
  have hq : ((n : Int) - 0) / n = 1 := by rw [sub_zero]; exact Int.ediv_self (by omega)
  have key := incrT_signed t ht hu 0 n hz hb n hn _ hd (t.hi - 1).toNat (by omega)
  rw [hq, if_pos ⟨by omega, by omega⟩] at key
  have hhi : t.hi ≤ 2 ^ 63 ∧ t.hi = - t.lo ∧ t.promote = t := by
    clear key hd hno hnd hb hz hn; int_types t hst <;> simp [Wide] at ht
  have hw : t.wrap (((t.hi - 1).toNat + 1 : Nat) : Int) = t.lo := by
    rw [show (((t.hi - 1).toNat + 1 : Nat) : Int) = t.hi by omega, wrap_congr (t := t) (x := t.hi) (y := t.lo)]
    · exact wrap_of_has hst ⟨le_rfl, by omega⟩
    · rw [range_eq hst]
  have hl : t.Has t.lo := ⟨le_rfl, by omega⟩
  refine ⟨_, ⟨t.wrap (0 + t.lo), 0, n, 1, n, (t.hi - 1).toNat + 1⟩, hd, ?_, ?_⟩
  · rw [e2, incrT, key, Res.ok_bind, incrT_eq hst _ t.lo]
    · simp only [Nat.mod_eq_of_lt (show (t.hi - 1).toNat + 1 < W64 by omega)]
    · simp only [Nat.mod_eq_of_lt (show (t.hi - 1).toNat + 1 < W64 by omega), hw, one_mul]
    · rw [hhi.2.2]; exact hl
    · rw [zero_add]
      exact not_overflows hst (has_promote hst hl)
  · show t.wrap (0 + t.lo) = t.lo
    rw [zero_add, wrap_of_has hst hl]

/-- C139.  Numbers of steps that agree modulo 2^bits give the same values: 65537 steps of a `short` are one step. -/
theorem C139_steps (t : CInt) (ht : Standard t) (a b : Int) (ha : t.Has a) (hb : t.Has b) (n m : Nat)
    (hnm : n % 2 ^ t.bits = m % 2 ^ t.bits) (s : LinSpaceT) (hs : LinSpaceT.new t a b n = .ok s) :
    LinSpaceT.new t a b m = .ok { s with nsteps := m } := by
  have hab : a < b := by
    by_contra h
    rw [(C139_defined t ht a b ha hb n).1 (by omega)] at hs; cases hs
  rw [newT_eq ht ha hb hab] at hs ⊢
  have hd : 2 ^ t.bits ∣ n ↔ 2 ^ t.bits ∣ m := by rw [Nat.dvd_iff_mod_eq_zero, hnm, ← Nat.dvd_iff_mod_eq_zero]
  have hw : t.wrap n = t.wrap m := by
    apply wrap_congr
    apply Int.ModEq.dvd
    have := congrArg (Nat.cast : Nat → Int) hnm
    push_cast at this
    exact this.symm
  split at hs
  · cases hs
  split at hs
  · cases hs
  rename_i h1 h2
  rw [if_neg h1, if_neg (fun h => h2 (hd.2 h)), ← hw]
  cases hs
  rfl

theorem CInt.wrap_long (n : Nat) (hn : n < 2 ^ 64) : tLong.wrap n = toLong n := by
  have hp : (2 : Int) ^ tLong.bits = Z64 := by unfold tLong; norm_num
  have hl : tLong.lo = -H63 := by unfold tLong CInt.lo; norm_num
  unfold CInt.wrap toLong
  rw [hp, hl]
  split <;> omega

theorem CInt.wrap_stored {x y : Int} (h : long x = .ok y) : tLong.wrap y = y := by
  obtain ⟨h1, rfl⟩ := long_eq_ok.1 h
  exact wrap_of_has standard_long ((has_long _).2 h1)

/-- The same state at `T = long`. -/
def Spec.toLongSpace (s : LinSpaceT) : LinSpaceLong := ⟨s.current, s.first, s.last, s.stepsize, s.nsteps, s.step⟩

/-- C139.  At `T = long` this is the model of C114. -/
theorem C139_long (a b : Int) (n : Nat) (hn : n < 2 ^ 64) (s : LinSpaceT) :
    ((LinSpaceT.new tLong a b n).bind (fun s => .ok (toLongSpace s)) = LinSpaceLong.new a b n) ∧
    ((s.incr tLong).bind (fun s => .ok (toLongSpace s)) = (toLongSpace s).incr) := by
  constructor
  · unfold LinSpaceT.new LinSpaceLong.new CInt.sub CInt.div lsub ldiv
    rw [wrap_long n hn, arith_long]
    by_cases hab : a < b
    · rw [if_pos hab, if_pos hab]
      generalize long (b - a) = r
      cases r with
      | ok d =>
        rw [Res.ok_bind, Res.ok_bind]
        by_cases hz : toLong n = 0
        · rw [if_pos hz, if_pos hz]; rfl
        · rw [if_neg hz, if_neg hz, arith_long]
          cases h : long (d.tdiv (toLong n)) with
          | ok y => rw [Res.ok_bind, Res.ok_bind, wrap_stored h]; rfl
          | _ => rfl
      | _ => rfl
    · rw [if_neg hab, if_neg hab]; rfl
  · obtain ⟨c, x, y, z, m, j⟩ := s
    unfold LinSpaceT.incr LinSpaceLong.incr CInt.mul CInt.add lmul ladd toLongSpace
    have e : (j + 1) % W64 < 2 ^ 64 := by omega
    simp only [arith_long, wrap_long _ e]
    generalize toLong ((j + 1) % W64) = w
    generalize (j + 1) % W64 = j'
    generalize long (z * w) = r
    cases r with
    | ok d =>
      simp only [Res.ok_bind]
      cases h : long (x + d) with
      | ok y => rw [Res.ok_bind, Res.ok_bind, wrap_stored h]; rfl
      | _ => rfl
    | _ => rfl

/- A `short` from -32768 to 32767 in one step: the step size 65535 does not fit, and the value is right. -/
example : LinSpaceT.new tShort (-32768) 32767 1 = .ok ⟨-32768, -32768, 32767, -1, 1, 0⟩ ∧
    LinSpaceT.incr tShort ⟨-32768, -32768, 32767, -1, 1, 0⟩ = .ok ⟨32767, -32768, 32767, -1, 1, 1⟩ := by decide

/- An `int` in 2^32 steps: division by zero. -/
example : LinSpaceT.new tInt 0 10 (2 ^ 32) = .ub .divByZero := by decide

end Bwsl
