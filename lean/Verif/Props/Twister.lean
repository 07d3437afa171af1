import Verif.Model.Twister
import Verif.Props.Rng
import Verif.Props.Dumpmt
import Verif.Props.Draw
import Mathlib.Data.Nat.Bitwise
import Mathlib.Logic.Function.Iterate

/-! Property C122: the numbers drawn from Mersenne twisters, seeded, saved and loaded. -/

namespace Bwsl
open Spec

/-- Relations between the template parameters.  They hold for `std::mt19937` and `std::mt19937_64`. -/
structure MtParams.Valid (P : MtParams) : Prop where
  w2 : 2 < P.w
  m2 : 1 < P.m
  mn : P.m < P.n
  rw : P.r ≤ P.w
  a : P.a < 2 ^ P.w
  top : P.a.testBit (P.w - 1) = true
  u : 0 < P.u
  s : 0 < P.s
  b : P.b < 2 ^ P.w
  t : 0 < P.t
  c : P.c < 2 ^ P.w
  l : 0 < P.l
  odd : P.f % 2 = 1

theorem mt32_valid : mt32.Valid := by constructor <;> decide
theorem mt64_valid : mt64.Valid := by constructor <;> decide

namespace Mt
variable {P : MtParams}

/-! ### Bits -/

theorem testBit_mix (x y i : Nat) : (mix P x y).testBit i = if i < P.r then y.testBit i else x.testBit i := by
  unfold mix
  rw [Nat.testBit_or, Nat.testBit_shiftLeft, Nat.testBit_shiftRight, Nat.testBit_mod_two_pow]
  by_cases h : i < P.r
  · simp [h]
  · rw [if_neg h, show P.r + (i - P.r) = i by omega]
    simp [h, not_lt.1 h]

theorem mix_lt (hP : P.Valid) {x : Nat} (y : Nat) (hx : x < 2 ^ P.w) : mix P x y < 2 ^ P.w := by
  refine Nat.lt_pow_two_of_testBit _ fun i hi => ?_
  have := hP.rw
  rw [testBit_mix, if_neg (by omega)]
  exact Nat.testBit_lt_two_pow (hx.trans_le (Nat.pow_le_pow_right (by norm_num) hi))

theorem twist_lt (hP : P.Valid) {y : Nat} (hy : y < 2 ^ P.w) : twist P y < 2 ^ P.w := by
  unfold twist
  refine Nat.xor_lt_two_pow ?_ ?_
  · exact (Nat.shiftRight_le _ _).trans_lt hy
  · split
    · exact hP.a
    · exact Nat.two_pow_pos _

theorem twist_inj (hP : P.Valid) {y z : Nat} (hy : y < 2 ^ P.w) (hz : z < 2 ^ P.w) (h : twist P y = twist P z) : y = z := by
  have hw := hP.w2
  have bit : ∀ v, v < 2 ^ P.w → (twist P v).testBit (P.w - 1) = decide (v % 2 = 1) := by
    intro v hv
    unfold twist
    rw [Nat.testBit_xor, Nat.testBit_shiftRight, show 1 + (P.w - 1) = P.w by omega, Nat.testBit_lt_two_pow hv]
    split
    · next h => rw [hP.top]; simp [h]
    · next h => simp [h]
  have h1 := bit y hy
  rw [h, bit z hz, decide_eq_decide] at h1
  unfold twist at h
  have h2 : y >>> 1 = z >>> 1 := by
    by_cases hz' : z % 2 = 1
    · rw [if_pos hz', if_pos (h1.1 hz')] at h
      exact Nat.xor_left_injective h
    · rw [if_neg hz', if_neg (fun h => hz' (h1.2 h))] at h
      exact Nat.xor_left_injective h
  rw [Nat.shiftRight_one, Nat.shiftRight_one] at h2
  omega

theorem xorshift_inj {w u d y z : Nat} (hu : 0 < u) (hy : y < 2 ^ w) (hz : z < 2 ^ w)
    (h : y ^^^ ((y >>> u) &&& d) = z ^^^ ((z >>> u) &&& d)) : y = z := by
  have key : ∀ j i, w ≤ i + j → y.testBit i = z.testBit i := by
    intro j
    induction j with
    | zero =>
      intro i hi
      have hp : 2 ^ w ≤ 2 ^ i := Nat.pow_le_pow_right (by norm_num) hi
      rw [Nat.testBit_lt_two_pow (hy.trans_le hp), Nat.testBit_lt_two_pow (hz.trans_le hp)]
    | succ j ih =>
      intro i hi
      have h1 := congrArg (fun v => Nat.testBit v i) h
      simp only [Nat.testBit_xor, Nat.testBit_and, Nat.testBit_shiftRight, ih (u + i) (by omega)] at h1
      exact Bool.xor_left_inj.1 h1
  exact Nat.eq_of_testBit_eq fun i => key w i (by omega)

theorem xorshiftl_inj {s b y z : Nat} (hs : 0 < s)
    (h : y ^^^ ((y <<< s) &&& b) = z ^^^ ((z <<< s) &&& b)) : y = z := by
  refine Nat.eq_of_testBit_eq fun i => ?_
  induction i using Nat.strongRecOn with
  | ind i ih =>
    have h1 := congrArg (fun v => Nat.testBit v i) h
    simp only [Nat.testBit_xor, Nat.testBit_and, Nat.testBit_shiftLeft] at h1
    by_cases hi : s ≤ i
    · rw [ih (i - s) (by omega)] at h1
      exact Bool.xor_left_inj.1 h1
    · simpa [hi] using h1

theorem temper_lt (hP : P.Valid) {z : Nat} (hz : z < 2 ^ P.w) : temper P z < 2 ^ P.w := by
  have right : ∀ {v u d : Nat}, v < 2 ^ P.w → v ^^^ ((v >>> u) &&& d) < 2 ^ P.w := fun {v u d} hv =>
    Nat.xor_lt_two_pow hv (Nat.and_le_left.trans_lt ((Nat.shiftRight_le _ _).trans_lt hv))
  have left : ∀ {v s b : Nat}, b < 2 ^ P.w → v < 2 ^ P.w → v ^^^ ((v <<< s) &&& b) < 2 ^ P.w := fun {v s b} hb hv =>
    Nat.xor_lt_two_pow hv (Nat.and_le_right.trans_lt hb)
  unfold temper
  have h3 := left hP.c (s := P.t) (left hP.b (s := P.s) (right hz (u := P.u) (d := P.d)))
  exact Nat.xor_lt_two_pow h3 ((Nat.shiftRight_le _ _).trans_lt h3)

theorem temper_inj (hP : P.Valid) {y z : Nat} (hy : y < 2 ^ P.w) (hz : z < 2 ^ P.w) (h : temper P y = temper P z) :
    y = z := by
  have right : ∀ {v u d : Nat}, v < 2 ^ P.w → v ^^^ ((v >>> u) &&& d) < 2 ^ P.w := fun {v u d} hv =>
    Nat.xor_lt_two_pow hv (Nat.and_le_left.trans_lt ((Nat.shiftRight_le _ _).trans_lt hv))
  have left : ∀ {v s b : Nat}, b < 2 ^ P.w → v < 2 ^ P.w → v ^^^ ((v <<< s) &&& b) < 2 ^ P.w := fun {v s b} hb hv =>
    Nat.xor_lt_two_pow hv (Nat.and_le_right.trans_lt hb)
  have full : ∀ v, v < 2 ^ P.w → v >>> P.l = (v >>> P.l) &&& (2 ^ P.w - 1) := fun v hv => by
    rw [Nat.and_two_pow_sub_one_eq_mod, Nat.mod_eq_of_lt ((Nat.shiftRight_le _ _).trans_lt hv)]
  unfold temper at h
  dsimp only at h
  have b3 : ∀ v, v < 2 ^ P.w → _ := fun v hv => left hP.c (s := P.t) (left hP.b (s := P.s) (right hv (u := P.u) (d := P.d)))
  rw [full _ (b3 y hy), full _ (b3 z hz)] at h
  exact xorshift_inj hP.u hy hz (xorshiftl_inj hP.s (xorshiftl_inj hP.t (xorshift_inj hP.l (b3 y hy) (b3 z hz) h)))

/-! ### The sequence -/

/-- The recurrence. -/
def Twisted (P : MtParams) (X : Nat → Nat) : Prop :=
  ∀ i, X (i + P.n) = X (i + P.m) ^^^ twist P (mix P (X i) (X (i + 1)))

/-- A proper engine. -/
structure WF (P : MtParams) (e : Mt) : Prop where
  length : e.x.length = P.n
  lt : ∀ x ∈ e.x, x < 2 ^ P.w

/-- the engine's words are the start of a sequence -/
def Starts (P : MtParams) (x : List Nat) (X : Nat → Nat) : Prop := ∀ i, i < P.n → x.getD i 0 = X i

theorem gen_spec (hP : P.Valid) {x : List Nat} {X : Nat → Nat} (hX : Twisted P X) (hl : x.length = P.n)
    (h : Starts P x X) : (gen P x).length = P.n ∧ Starts P (gen P x) (fun i => X (P.n + i)) := by
  have hmn := hP.mn
  have hm := hP.m2
  have key : ∀ j, j ≤ P.n → ((List.range j).foldl (genStep P) x).length = P.n ∧
      ∀ i, i < P.n → ((List.range j).foldl (genStep P) x).getD i 0 = if i < j then X (P.n + i) else X i := by
    intro j
    induction j with
    | zero => intro _; exact ⟨hl, fun i hi => by rw [if_neg (by omega)]; exact h i hi⟩
    | succ j ih =>
      intro hj
      obtain ⟨l, g⟩ := ih (by omega)
      rw [List.range_succ, List.foldl_append, List.foldl_cons, List.foldl_nil]
      generalize (List.range j).foldl (genStep P) x = v at l g
      refine ⟨by unfold genStep; rw [List.length_set]; exact l, fun i hi => ?_⟩
      have hnew : v.getD ((j + P.m) % P.n) 0 ^^^ twist P (mix P (v.getD j 0) (v.getD ((j + 1) % P.n) 0)) = X (P.n + j) := by
        have e1 : v.getD ((j + P.m) % P.n) 0 = X (j + P.m) := by
          rw [g _ (Nat.mod_lt _ (by omega))]
          by_cases hlt : j + P.m < P.n
          · rw [Nat.mod_eq_of_lt hlt, if_neg (by omega)]
          · rw [Nat.mod_eq_sub_mod (by omega), Nat.mod_eq_of_lt (by omega), if_pos (by omega),
              show P.n + (j + P.m - P.n) = j + P.m by omega]
        have e2 : v.getD j 0 = X j := by rw [g j (by omega), if_neg (lt_irrefl _)]
        have e3 : v.getD ((j + 1) % P.n) 0 = X (j + 1) := by
          rw [g _ (Nat.mod_lt _ (by omega))]
          by_cases hlt : j + 1 < P.n
          · rw [Nat.mod_eq_of_lt hlt, if_neg (by omega)]
          · have : j + 1 = P.n := by omega
            rw [this, Nat.mod_self, if_pos (by omega), Nat.add_zero]
        rw [e1, e2, e3, Nat.add_comm P.n j, hX j]
      unfold genStep
      rw [hnew]
      by_cases hij : i = j
      · subst hij
        rw [if_pos (by omega), List.getD_eq_getElem?_getD, List.getElem?_set_self (by omega)]
        rfl
      · rw [List.getD_eq_getElem?_getD, List.getElem?_set_ne (by omega), ← List.getD_eq_getElem?_getD, g i hi]
        by_cases h' : i < j
        · rw [if_pos h', if_pos (by omega)]
        · rw [if_neg h', if_neg (by omega)]
  obtain ⟨l, g⟩ := key P.n le_rfl
  exact ⟨l, fun i hi => by have := g i hi; rwa [if_pos hi] at this⟩

theorem twisted_shift {X : Nat → Nat} (hX : Twisted P X) (k : Nat) : Twisted P (fun i => X (k + i)) := fun i => by
  have := hX (k + i)
  simpa only [Nat.add_assoc] using this

theorem draw_zero (e : Mt) : e.draw P 0 = (next P e).1 := rfl
theorem draw_succ (e : Mt) (k : Nat) : e.draw P (k + 1) = ((next P e).2).draw P k := rfl

theorem draw_eq (hP : P.Valid) (e : Mt) (X : Nat → Nat) (hX : Twisted P X) (hl : e.x.length = P.n)
    (h : ∀ i, i < P.n → e.x.getD i 0 = X i) (k : Nat) : e.draw P k = temper P (X (min e.p P.n + k)) := by
  induction k generalizing e X with
  | zero =>
    rw [draw_zero]
    unfold next
    by_cases hp : P.n ≤ e.p
    · simp only [if_pos hp]
      rw [(gen_spec hP hX hl h).2 0 (by have := hP.mn; omega), Nat.min_eq_right hp]
    · simp only [if_neg hp]
      rw [h e.p (by omega), Nat.min_eq_left (by omega), Nat.add_zero]
  | succ k ih =>
    rw [draw_succ]
    unfold next
    by_cases hp : P.n ≤ e.p
    · simp only [if_pos hp]
      obtain ⟨g1, g2⟩ := gen_spec hP hX hl h
      have hmn := hP.mn
      rw [ih ⟨gen P e.x, 0 + 1⟩ _ (twisted_shift hX P.n) g1 g2, Nat.min_eq_right hp,
        Nat.min_eq_left (show (0 + 1 : Nat) ≤ P.n by omega)]
      rw [show P.n + (0 + 1 + k) = P.n + (k + 1) by omega]
    · simp only [if_neg hp]
      rw [ih ⟨e.x, e.p + 1⟩ X hX hl h, Nat.min_eq_left (show e.p + 1 ≤ P.n by omega), Nat.min_eq_left (by omega)]
      rw [show e.p + 1 + k = e.p + (k + 1) by omega]

/-- the sequence that starts with given words -/
def seqOf (P : MtParams) (x : List Nat) (i : Nat) : Nat :=
  if _h : i < P.n ∨ ¬ (1 < P.m ∧ P.m < P.n) then x.getD i 0
  else seqOf P x (i - P.n + P.m) ^^^ twist P (mix P (seqOf P x (i - P.n)) (seqOf P x (i - P.n + 1)))
termination_by i
decreasing_by all_goals omega

theorem seqOf_twisted (hP : P.Valid) (x : List Nat) : Twisted P (seqOf P x) := by
  intro i
  rw [seqOf]
  have := hP.m2
  have := hP.mn
  rw [dif_neg (by omega), Nat.add_sub_cancel]

theorem seqOf_starts (x : List Nat) (i : Nat) (h : i < P.n) : x.getD i 0 = seqOf P x i := by
  rw [seqOf, dif_pos (.inl h)]

theorem twisted_unique (hP : P.Valid) (x : List Nat) :
    ∃! X : Nat → Nat, Twisted P X ∧ ∀ i, i < P.n → x.getD i 0 = X i := by
  refine ⟨seqOf P x, ⟨seqOf_twisted hP x, seqOf_starts x⟩, ?_⟩
  rintro Y ⟨hY, hs⟩
  funext i
  induction i using Nat.strongRecOn with
  | ind i ih =>
    by_cases hi : i < P.n
    · rw [← hs i hi, seqOf_starts x i hi]
    · have h1 := hY (i - P.n)
      have h2 := seqOf_twisted hP x (i - P.n)
      have := hP.m2
      have := hP.mn
      rw [Nat.sub_add_cancel (by omega)] at h1 h2
      rw [h1, h2, ih _ (by omega), ih _ (by omega), ih _ (by omega)]

/-- Terms are below 2^w. -/
theorem seq_lt (hP : P.Valid) {X : Nat → Nat} (hX : Twisted P X) (h : ∀ i, i < P.n → X i < 2 ^ P.w) (i : Nat) :
    X i < 2 ^ P.w := by
  induction i using Nat.strongRecOn with
  | ind i ih =>
    by_cases hi : i < P.n
    · exact h i hi
    · have h1 := hX (i - P.n)
      have := hP.m2
      have := hP.mn
      rw [Nat.sub_add_cancel (by omega)] at h1
      rw [h1]
      exact Nat.xor_lt_two_pow (ih _ (by omega)) (twist_lt hP (mix_lt hP _ (ih _ (by omega))))

theorem wf_lt {e : Mt} (h : WF P e) (i : Nat) (hi : i < P.n) : e.x.getD i 0 < 2 ^ P.w := by
  rw [List.getD_eq_getElem?_getD, List.getElem?_eq_getElem (by rw [h.length]; exact hi)]
  exact h.lt _ (List.getElem_mem _)

theorem wf_seq_lt (hP : P.Valid) {e : Mt} (h : WF P e) (i : Nat) : seqOf P e.x i < 2 ^ P.w :=
  seq_lt hP (seqOf_twisted hP e.x) (fun i hi => by rw [← seqOf_starts e.x i hi]; exact wf_lt h i hi) i

/-- A sequence of w-bit numbers with the recurrence of the standard, [rand.eng.mers]/2 and /3. -/
structure _root_.Bwsl.Spec.MtSequence (P : MtParams) (X : Nat → Nat) : Prop where
  range : ∀ i, X i < 2 ^ P.w
  step : ∀ i, let Y := (X i &&& (2 ^ P.w - 2 ^ P.r)) ||| (X (i + 1) &&& (2 ^ P.r - 1))
    X (i + P.n) = X (i + P.m) ^^^ (Y >>> 1 ^^^ P.a * (Y &&& 1))

/-- The number drawn for a term of the sequence, [rand.eng.mers]/4; shifts to the left are modulo 2^w. -/
def _root_.Bwsl.Spec.mtOutput (P : MtParams) (X : Nat) : Nat :=
  let z1 := X ^^^ ((X >>> P.u) &&& P.d)
  let z2 := z1 ^^^ ((z1 <<< P.s % 2 ^ P.w) &&& P.b)
  let z3 := z2 ^^^ ((z2 <<< P.t % 2 ^ P.w) &&& P.c)
  z3 ^^^ (z3 >>> P.l)

theorem and_mod_mask {w b v : Nat} (h : b < 2 ^ w) : (v % 2 ^ w) &&& b = v &&& b := by
  refine Nat.eq_of_testBit_eq fun i => ?_
  rw [Nat.testBit_and, Nat.testBit_and, Nat.testBit_mod_two_pow]
  by_cases hi : i < w
  · simp [hi]
  · rw [Nat.testBit_lt_two_pow (h.trans_le (Nat.pow_le_pow_right (by norm_num) (not_lt.1 hi)))]; simp

theorem temper_eq (hP : P.Valid) (z : Nat) : temper P z = mtOutput P z := by
  unfold temper mtOutput
  dsimp only
  rw [and_mod_mask hP.b, and_mod_mask hP.c]

theorem testBit_high {w r i : Nat} (h : r ≤ w) : (2 ^ w - 2 ^ r).testBit i = (decide (r ≤ i) && decide (i < w)) := by
  have e : 2 ^ w - 2 ^ r = (2 ^ (w - r) - 1) <<< r := by
    rw [Nat.shiftLeft_eq, Nat.sub_mul, one_mul, ← pow_add, show w - r + r = w by omega]
  rw [e, Nat.testBit_shiftLeft, Nat.testBit_two_pow_sub_one]
  by_cases hi : r ≤ i
  · simp only [hi, decide_true, Bool.true_and]
    congr 1
    apply propext
    omega
  · simp [hi]

theorem mix_eq (hP : P.Valid) {x y : Nat} (hx : x < 2 ^ P.w) :
    mix P x y = (x &&& (2 ^ P.w - 2 ^ P.r)) ||| (y &&& (2 ^ P.r - 1)) := by
  refine Nat.eq_of_testBit_eq fun i => ?_
  rw [testBit_mix, Nat.testBit_or, Nat.testBit_and, Nat.testBit_and, testBit_high hP.rw, Nat.testBit_two_pow_sub_one]
  by_cases hi : i < P.r
  · simp [hi]
  · rw [if_neg hi]
    by_cases hw : i < P.w
    · simp [hi, hw, not_lt.1 hi]
    · rw [Nat.testBit_lt_two_pow (hx.trans_le (Nat.pow_le_pow_right (by norm_num) (not_lt.1 hw)))]
      simp [hi]

theorem twist_eq (y : Nat) : twist P y = y >>> 1 ^^^ P.a * (y &&& 1) := by
  unfold twist
  rw [Nat.and_one_is_mod]
  rcases Nat.mod_two_eq_zero_or_one y with h | h <;> rw [h] <;> simp

theorem mtSequence_iff (hP : P.Valid) {X : Nat → Nat} :
    MtSequence P X ↔ (∀ i, X i < 2 ^ P.w) ∧ Twisted P X := by
  constructor
  · intro h
    refine ⟨h.range, fun i => ?_⟩
    have := h.step i
    dsimp only at this
    rw [this, twist_eq, mix_eq hP (h.range i)]
  · rintro ⟨h1, h2⟩
    refine ⟨h1, fun i => ?_⟩
    have := h2 i
    dsimp only
    rw [this, twist_eq, mix_eq hP (h1 i)]

/-- C122.  There is exactly one sequence of the standard that starts with the words of an engine. -/
theorem _root_.Bwsl.C122_unique (hP : P.Valid) (e : Mt) (h : WF P e) :
    ∃! X : Nat → Nat, MtSequence P X ∧ ∀ i, i < P.n → e.x[i]? = some (X i) := by
  have conv : ∀ X : Nat → Nat, (∀ i, i < P.n → e.x[i]? = some (X i)) ↔ ∀ i, i < P.n → e.x.getD i 0 = X i := by
    intro X
    refine forall_congr' fun i => forall_congr' fun hi => ?_
    rw [List.getD_eq_getElem?_getD, List.getElem?_eq_getElem (by rw [h.length]; exact hi)]
    simp
  obtain ⟨X, ⟨h1, h2⟩, h3⟩ := twisted_unique hP e.x
  refine ⟨X, ⟨(mtSequence_iff hP).2 ⟨?_, h1⟩, (conv X).2 h2⟩, ?_⟩
  · exact seq_lt hP h1 fun i hi => by rw [← h2 i hi]; exact wf_lt h i hi
  · rintro Y ⟨h4, h5⟩
    exact h3 Y ⟨((mtSequence_iff hP).1 h4).2, (conv Y).1 h5⟩

/-- C122.  The numbers drawn are the outputs for the terms of that sequence, from the position of the engine on. -/
theorem _root_.Bwsl.C122_sequence (hP : P.Valid) (e : Mt) (h : WF P e) (X : Nat → Nat) (hX : MtSequence P X)
    (hs : ∀ i, i < P.n → e.x[i]? = some (X i)) (k : Nat) : e.draw P k = mtOutput P (X (min e.p P.n + k)) := by
  rw [← temper_eq hP]
  refine draw_eq hP e X ((mtSequence_iff hP).1 hX).2 h.length (fun i hi => ?_) k
  rw [List.getD_eq_getElem?_getD, hs i hi]; rfl

/-- C122.  Every number drawn is below 2^w. -/
theorem _root_.Bwsl.C122_range (hP : P.Valid) (e : Mt) (h : WF P e) (k : Nat) : e.draw P k < 2 ^ P.w := by
  rw [draw_eq hP e _ (seqOf_twisted hP e.x) h.length (seqOf_starts e.x)]
  exact temper_lt hP (wf_seq_lt hP h _)

/-- C122.  Drawing keeps an engine proper. -/
theorem _root_.Bwsl.C122_proper (hP : P.Valid) (e : Mt) (h : WF P e) (k : Nat) : WF P (e.after P k) := by
  have one : ∀ e : Mt, WF P e → WF P (next P e).2 := by
    intro e h
    unfold next
    split
    · obtain ⟨g1, g2⟩ := gen_spec hP (seqOf_twisted hP e.x) h.length (seqOf_starts e.x)
      refine ⟨g1, fun x hx => ?_⟩
      obtain ⟨i, hi, rfl⟩ := List.getElem_of_mem hx
      have := g2 i (by rw [← g1]; exact hi)
      rw [List.getD_eq_getElem?_getD, List.getElem?_eq_getElem hi, Option.getD_some] at this
      dsimp only
      rw [this]
      exact wf_seq_lt hP h _
    · exact ⟨h.length, h.lt⟩
  unfold after
  induction k generalizing e with
  | zero => exact h
  | succ k ih => rw [Function.iterate_succ_apply]; exact ih _ (one e h)

/-- C122.  Two engines that give the same `n` numbers in a row give the same numbers for ever. -/
theorem _root_.Bwsl.C122_same (hP : P.Valid) (e e' : Mt) (h : WF P e) (h' : WF P e')
    (hs : ∀ k, k < P.n → e.draw P k = e'.draw P k) (k : Nat) : e.draw P k = e'.draw P k := by
  have d := draw_eq hP e _ (seqOf_twisted hP e.x) h.length (seqOf_starts e.x)
  have d' := draw_eq hP e' _ (seqOf_twisted hP e'.x) h'.length (seqOf_starts e'.x)
  have key : ∀ k, seqOf P e.x (min e.p P.n + k) = seqOf P e'.x (min e'.p P.n + k) := by
    intro k
    induction k using Nat.strongRecOn with
    | ind k ih =>
      by_cases hk : k < P.n
      · have := hs k hk
        rw [d, d'] at this
        exact temper_inj hP (wf_seq_lt hP h _) (wf_seq_lt hP h' _) this
      · have h1 := twisted_shift (seqOf_twisted hP e.x) (min e.p P.n) (k - P.n)
        have h2 := twisted_shift (seqOf_twisted hP e'.x) (min e'.p P.n) (k - P.n)
        have := hP.m2
        have := hP.mn
        dsimp only at h1 h2
        rw [show k - P.n + P.n = k by omega] at h1 h2
        rw [h1, h2, ih _ (by omega), ih _ (by omega), ih _ (by omega)]
  rw [d, d', key]

/-- All numbers drawn from a fresh engine determine its words from the second on. -/
theorem words_of_draws (hP : P.Valid) {X Y : Nat → Nat} (hX : Twisted P X) (hY : Twisted P Y) (bX : ∀ i, X i < 2 ^ P.w)
    (bY : ∀ i, Y i < 2 ^ P.w) (h : ∀ k, X (P.n + k) = Y (P.n + k)) (i : Nat) (hi : 0 < i) : X i = Y i := by
  have hm := hP.m2
  have hmn := hP.mn
  have key : ∀ j i, 0 < i → P.n ≤ i + j → X i = Y i := by
    intro j
    induction j with
    | zero =>
      intro i _ h0
      have := h (i - P.n)
      rwa [show P.n + (i - P.n) = i by omega] at this
    | succ j ih =>
      intro i h0 hij
      have mixed : ∀ k, i ≤ k + 1 → mix P (X k) (X (k + 1)) = mix P (Y k) (Y (k + 1)) := by
        intro k hk
        have e1 := hX k
        have e2 := hY k
        have e3 : X (k + P.n) = Y (k + P.n) := by rw [Nat.add_comm]; exact h k
        rw [e1, e2, ih (k + P.m) (by omega) (by omega)] at e3
        exact twist_inj hP (mix_lt hP _ (bX _)) (mix_lt hP _ (bY _)) (Nat.xor_right_injective e3)
      refine Nat.eq_of_testBit_eq fun b => ?_
      by_cases hb : b < P.r
      · have := congrArg (fun v => Nat.testBit v b) (mixed (i - 1) (by omega))
        simp only [testBit_mix, if_pos hb] at this
        rwa [show i - 1 + 1 = i by omega] at this
      · have := congrArg (fun v => Nat.testBit v b) (mixed i (by omega))
        simpa only [testBit_mix, if_neg hb] using this
  exact key P.n i hi (by omega)

theorem seedWord_lt (seed i : Nat) : seedWord P seed i < 2 ^ P.w := by
  cases i <;> exact Nat.mod_lt _ (Nat.two_pow_pos _)

theorem seeded_wf (seed : Nat) : WF P (seeded P seed) := by
  refine ⟨by simp [seeded], fun x hx => ?_⟩
  obtain ⟨i, _, rfl⟩ := List.mem_map.1 hx
  exact seedWord_lt seed i

theorem seeded_getD (seed i : Nat) (h : i < P.n) : (seeded P seed).x.getD i 0 = seedWord P seed i := by
  unfold seeded
  rw [List.getD_eq_getElem?_getD, List.getElem?_map, List.getElem?_range h]
  rfl

theorem seedWord_inj (hP : P.Valid) (s s' : Nat) (h : seedWord P s 1 = seedWord P s' 1) : s % 2 ^ P.w = s' % 2 ^ P.w := by
  have hw := hP.w2
  simp only [seedWord] at h
  have e : ∀ v, v < 2 ^ P.w → v >>> (P.w - 2) = (v >>> (P.w - 2)) &&& (2 ^ P.w - 1) := fun v hv => by
    rw [Nat.and_two_pow_sub_one_eq_mod, Nat.mod_eq_of_lt ((Nat.shiftRight_le _ _).trans_lt hv)]
  have hs := Nat.mod_lt s (Nat.two_pow_pos P.w)
  have hs' := Nat.mod_lt s' (Nat.two_pow_pos P.w)
  generalize s % 2 ^ P.w = y at *
  generalize s' % 2 ^ P.w = z at *
  have h1 : (P.f * (y ^^^ (y >>> (P.w - 2)))) ≡ (P.f * (z ^^^ (z >>> (P.w - 2)))) [MOD 2 ^ P.w] :=
    Nat.ModEq.add_right_cancel' _ h
  have hc : Nat.gcd (2 ^ P.w) P.f = 1 := by
    refine Nat.Coprime.pow_left _ ?_
    rw [Nat.coprime_two_left]
    exact Nat.odd_iff.2 hP.odd
  have h2 := Nat.ModEq.cancel_left_of_coprime hc h1
  have b : ∀ v, v < 2 ^ P.w → v ^^^ (v >>> (P.w - 2)) < 2 ^ P.w := fun v hv =>
    Nat.xor_lt_two_pow hv ((Nat.shiftRight_le _ _).trans_lt hv)
  unfold Nat.ModEq at h2
  rw [Nat.mod_eq_of_lt (b y hs), Nat.mod_eq_of_lt (b z hs'), e y hs, e z hs'] at h2
  exact xorshift_inj (by omega) hs hs' h2

/-- C122.  Engines of different seeds (modulo 2^w) give different numbers. -/
theorem _root_.Bwsl.C122_seeds (hP : P.Valid) (s s' : Nat) :
    (∀ k, (seeded P s).draw P k = (seeded P s').draw P k) ↔ s % 2 ^ P.w = s' % 2 ^ P.w := by
  constructor
  · intro h
    have hm := hP.m2
    have hmn := hP.mn
    have d := draw_eq hP _ _ (seqOf_twisted hP (seeded P s).x) (seeded_wf s).length (seqOf_starts (seeded P s).x)
    have d' := draw_eq hP _ _ (seqOf_twisted hP (seeded P s').x) (seeded_wf s').length (seqOf_starts (seeded P s').x)
    have hX : ∀ k, seqOf P (seeded P s).x (P.n + k) = seqOf P (seeded P s').x (P.n + k) := by
      intro k
      have := h k
      rw [d, d'] at this
      simp only [seeded, Nat.min_self] at this
      exact temper_inj hP (wf_seq_lt hP (seeded_wf s) _) (wf_seq_lt hP (seeded_wf s') _) this
    have := words_of_draws hP (seqOf_twisted hP (seeded P s).x) (seqOf_twisted hP (seeded P s').x)
      (wf_seq_lt hP (seeded_wf s)) (wf_seq_lt hP (seeded_wf s')) hX 1 (by norm_num)
    rw [← seqOf_starts (seeded P s).x 1 (by omega), ← seqOf_starts (seeded P s').x 1 (by omega), seeded_getD s 1 (by omega),
      seeded_getD s' 1 (by omega)] at this
    exact seedWord_inj hP s s' this
  · intro h
    have : seedWord P s = seedWord P s' := by
      funext i
      induction i with
      | zero => exact h
      | succ i ih => simp only [seedWord, ih]
    intro k
    unfold seeded
    rw [this]

/-- C122.  The first `n` numbers already differ. -/
theorem _root_.Bwsl.C122_first (hP : P.Valid) (s s' : Nat) (h : s % 2 ^ P.w ≠ s' % 2 ^ P.w) :
    ∃ k, k < P.n ∧ (seeded P s).draw P k ≠ (seeded P s').draw P k := by
  by_contra hc
  push Not at hc
  exact h ((C122_seeds hP s s').1 (C122_same hP _ _ (seeded_wf s) (seeded_wf s') hc))

/-! ### Saving and loading -/

theorem ofEngine_toEngine (e : Mt) (h : e.x.length = P.n) : ofEngine P e.toEngine = e := by
  unfold ofEngine toEngine
  rw [← h, List.take_left, List.getD_eq_getElem?_getD, List.getElem?_append_right le_rfl]
  simp

/-- C122.  An engine saved at any time and loaded into any engine of the same kind is the saved engine: both give the
same numbers from then on. -/
theorem _root_.Bwsl.C122_saved {F : Type} (hw : P.w ≤ 64) (e old : Mt) (h : WF P e) (ho : WF P old)
    (hp : e.p < 2 ^ 64) (post : List (Prim F)) :
    ∃ new : Engine, old.toEngine.load ((e.toEngine.save []).2 ++ post) = some (⟨new, .ok ()⟩, post) ∧
      ofEngine P new = e ∧ ∀ k, (ofEngine P new).draw P k = e.draw P k := by
  have hl : old.toEngine.length = e.toEngine.length := by simp [toEngine, h.length, ho.length]
  obtain ⟨ps, h1, h2⟩ := C83_round_trip (F := F) e.toEngine old.toEngine hl (by
    intro x hx
    rcases List.mem_append.1 hx with hx | hx
    · exact (h.lt x hx).trans_le (Nat.pow_le_pow_right (by norm_num) hw)
    · rw [List.mem_singleton.1 hx]; exact hp)
  refine ⟨e.toEngine, by rw [h1, List.nil_append]; exact h2 post, ofEngine_toEngine e h.length, fun k => ?_⟩
  rw [ofEngine_toEngine e h.length]

/-- C122.  The engines that dumpmt writes are those of the seed. -/
theorem _root_.Bwsl.C122_dump (seed : Nat) : Dumpmt.seeded seed [312] = (seeded mt64 seed).toEngine := by
  unfold Dumpmt.seeded seeded toEngine
  have hn : mt64.n = 312 := rfl
  rw [hn]
  refine congrArg (· ++ [312]) (List.map_congr_left ?_)
  intro i hi
  rw [List.mem_range] at hi
  induction i with
  | zero => rfl
  | succ i ih =>
    rw [Dumpmt.seedWord, seedWord, ih (by omega), hn, Nat.mod_eq_of_lt hi]
    rfl

/-! ### Choices -/

/-- C122.  With any `std::mt19937_64`, `choose_between` always returns the index of a positive weight. -/
theorem _root_.Bwsl.C122_choice64 {A : Arith ℝ} (hA : A.IsBinary64) (ws cs : List ℝ) (hw : ∀ w ∈ ws, 0 ≤ w)
    (hd : ∀ w ∈ ws, FinDouble w) (hc : partialSums (ws.map .fin) = cs.map (Num.fin (A := A))) (total : ℝ)
    (ht : cs.getLast? = some total) (hp : (2 : ℝ) ^ (-1022 : Int) < total) (e : Mt) (h : WF mt64 e) (k : Nat) :
    ∃ i, ∃ h : i < ws.length, chooseBetween (ws.map (Num.fin (A := A))) (draw64 (e.draw mt64 k)) = .ok i ∧ 0 < ws[i] :=
  C121_choice hA ws cs hw hd hc total ht hp _ (C122_range mt64_valid e h k)

/-- C122.  With any `std::mt19937` too. -/
theorem _root_.Bwsl.C122_choice32 {A : Arith ℝ} (hA : A.IsBinary64) (ws cs : List ℝ) (hw : ∀ w ∈ ws, 0 ≤ w)
    (hd : ∀ w ∈ ws, FinDouble w) (hc : partialSums (ws.map .fin) = cs.map (Num.fin (A := A))) (total : ℝ)
    (ht : cs.getLast? = some total) (hp : (2 : ℝ) ^ (-1022 : Int) < total) (e : Mt) (h : WF mt32 e) (k : Nat) :
    ∃ i, ∃ h : i < ws.length,
      chooseBetween (ws.map (Num.fin (A := A))) (draw32 (e.draw mt32 k) (e.draw mt32 (k + 1))) = .ok i ∧ 0 < ws[i] := by
  have h1 := C122_range mt32_valid e h k
  have h2 := C122_range mt32_valid e h (k + 1)
  have b1 : e.draw mt32 k < 2 ^ 32 := h1
  have b2 : e.draw mt32 (k + 1) < 2 ^ 32 := h2
  have : (draw32 (e.draw mt32 k) (e.draw mt32 (k + 1)) : Num A → Num A → Num A) =
      draw64 (e.draw mt32 k + 2 ^ 32 * e.draw mt32 (k + 1)) := by
    funext a b
    exact (C121_halves hA b1 b2 a b).2
  rw [this]
  exact C121_choice hA ws cs hw hd hc total ht hp _ (by omega)

end Mt

/-- Proper engines exist: those of any seed. -/
example : Mt.WF mt64 (Mt.seeded mt64 5489) ∧ Mt.WF mt32 (Mt.seeded mt32 5489) := ⟨Mt.seeded_wf _, Mt.seeded_wf _⟩

end Bwsl
