import Verif.Spec.Decimal
import Verif.Model.Printing
import Verif.Props.RationalText
import Verif.Props.LerpDouble

/-! Decimal numerals. -/

namespace Bwsl
open Spec

theorem decValue_append (a b : List Char) : decValue (a ++ b) = decValue a * 10 ^ b.length + decValue b := by
  induction a with
  | nil => simp [decValue]
  | cons c a ih =>
    rw [List.cons_append, decValue, decValue, ih, List.length_append, pow_add]
    ring

theorem decValue_zeros (n : Nat) : decValue (List.replicate n '0') = 0 := by
  induction n with
  | zero => rfl
  | succ n ih =>
    rw [List.replicate_succ, decValue, ih, show digits.idxOf '0' = 0 by decide]; simp

theorem digits_idxOf {c : Char} (h : c ∈ digits) : digits.idxOf c ≤ 9 := by
  have := List.idxOf_lt_length_of_mem h
  have e : digits.length = 10 := rfl
  omega

theorem decValue_lt {ds : List Char} (h : ∀ c ∈ ds, c ∈ digits) : decValue ds < 10 ^ ds.length := by
  induction ds with
  | nil => simp [decValue]
  | cons c ds ih =>
    have h1 := ih (fun d hd => h d (by simp [hd]))
    have h2 := digits_idxOf (h c (by simp))
    rw [decValue, List.length_cons, pow_succ]
    have := Nat.mul_le_mul_right (10 ^ ds.length) h2
    omega

theorem printNat_length_le {m n : Nat} (h : m < 10 ^ (n + 1)) : (printNat m).length ≤ n + 1 := by
  induction n generalizing m with
  | zero => rw [printNat, if_pos (by simpa using h)]; simp
  | succ n ih =>
    rw [printNat]
    split
    · simp
    · rw [List.length_append, List.length_singleton]
      have := ih (m := m / 10) (by rw [Nat.div_lt_iff_lt_mul (by norm_num)]; rwa [pow_succ] at h)
      omega

theorem printNat_length {m n : Nat} (h1 : 10 ^ n ≤ m) (h2 : m < 10 ^ (n + 1)) : (printNat m).length = n + 1 := by
  have h3 := printNat_length_le h2
  obtain ⟨_, h4, h5⟩ := printNat_spec m
  have h6 := decValue_lt h4
  rw [h5] at h6
  have := (Nat.pow_lt_pow_iff_right (show 1 < 10 by norm_num)).1 (h1.trans_lt h6)
  omega

theorem pad_spec (n m : Nat) : (∀ c ∈ Fmt.pad n (printNat m), c ∈ digits) ∧ decValue (Fmt.pad n (printNat m)) = m ∧
    Fmt.pad n (printNat m) ≠ [] := by
  obtain ⟨h1, h2, h3⟩ := printNat_spec m
  unfold Fmt.pad
  refine ⟨fun c hc => ?_, ?_, ?_⟩
  · rcases List.mem_append.1 hc with hc | hc
    · rw [List.eq_of_mem_replicate hc]; decide
    · exact h2 c hc
  · rw [decValue_append, decValue_zeros, zero_mul, zero_add, h3]
  · simp [h1]

theorem pad_length {n m : Nat} (h : m < 10 ^ (n + 1)) : (Fmt.pad (n + 1) (printNat m)).length = n + 1 := by
  have := printNat_length_le h
  unfold Fmt.pad
  rw [List.length_append, List.length_replicate]
  omega

theorem isExponent_exponent (e : Int) : IsExponent (Fmt.exponent e) e := by
  obtain ⟨h1, h2, h3⟩ := pad_spec 2 e.natAbs
  right
  refine ⟨_, h3, h1, ?_⟩
  unfold Fmt.exponent
  split
  · right; exact ⟨rfl, by rw [h2]; omega⟩
  · left; exact ⟨rfl, by rw [h2]; omega⟩

/-- What the digits and the exponent stand for. -/
theorem isDecimal_sciText {p m : Nat} (e : Int) (h : m < 10 ^ (p + 1)) :
    IsDecimal (Fmt.sciText p m e) ((m : ℝ) * (10 : ℝ) ^ (e - p)) := by
  obtain ⟨h1, h2, -⟩ := pad_spec (p + 1) m
  have hl := pad_length h
  unfold Fmt.sciText
  simp only
  generalize Fmt.pad (p + 1) (printNat m) = ds at *
  refine ⟨false, ds.take 1, ds.drop 1, if p = 0 then [] else '.' :: ds.drop 1, Fmt.exponent e, e, ?_, ?_, ?_,
    isExponent_exponent e, by simp, ?_⟩
  · intro h0
    have := congrArg List.length h0
    rw [List.length_take, hl] at this
    simp at this
  · rw [List.take_append_drop]; exact h1
  · by_cases hp : p = 0
    · left
      rw [if_pos hp]
      exact ⟨rfl, List.drop_eq_nil_of_le (by omega)⟩
    · right
      rw [if_neg hp]
      refine ⟨rfl, fun h0 => ?_⟩
      have := congrArg List.length h0
      rw [List.length_drop, hl] at this
      simp at this
      exact hp this
  · rw [List.take_append_drop, h2, List.length_drop, hl]
    simp

/-! ### Numerals are unambiguous -/

theorem span_unique {P : Char → Prop} {a b x y : List Char} (ha : ∀ c ∈ a, P c) (hb : ∀ c ∈ b, P c)
    (hx : ∀ c ∈ x.head?, ¬P c) (hy : ∀ c ∈ y.head?, ¬P c) (h : a ++ x = b ++ y) : a = b ∧ x = y := by
  induction a generalizing b with
  | nil =>
    cases b with
    | nil => exact ⟨rfl, h⟩
    | cons c b =>
      rw [List.nil_append] at h
      subst h
      exact absurd (hb c (by simp)) (hx c (by simp))
  | cons c a ih =>
    cases b with
    | nil =>
      rw [List.nil_append] at h
      subst h
      exact absurd (ha c (by simp)) (hy c (by simp))
    | cons d b =>
      rw [List.cons_append, List.cons_append] at h
      injection h with h1 h2
      obtain ⟨e1, e2⟩ := ih (fun c hc => ha c (by simp [hc])) (fun c hc => hb c (by simp [hc])) h2
      exact ⟨by rw [h1, e1], e2⟩

theorem isExponent_head {t : List Char} {e : Int} (h : IsExponent t e) : ∀ c ∈ t.head?, c = 'e' := by
  rcases h with ⟨rfl, -⟩ | ⟨ds, -, -, ⟨rfl, -⟩ | ⟨rfl, -⟩⟩ <;> simp

theorem isExponent_unique {t : List Char} {e e' : Int} (h : IsExponent t e) (h' : IsExponent t e') : e = e' := by
  rcases h with ⟨rfl, rfl⟩ | ⟨ds, -, -, ⟨rfl, rfl⟩ | ⟨rfl, rfl⟩⟩ <;>
    rcases h' with ⟨h1, rfl⟩ | ⟨ds', -, -, ⟨h1, rfl⟩ | ⟨h1, rfl⟩⟩ <;> simp_all

theorem isDecimal_unique {t : List Char} {v w : ℝ} (hv : IsDecimal t v) (hw : IsDecimal t w) : v = w := by
  obtain ⟨n, ip, fp, tf, tx, e, h0, hd, hf, hx, rfl, rfl⟩ := hv
  obtain ⟨n', ip', fp', tf', tx', e', h0', hd', hf', hx', ht, rfl⟩ := hw
  have nd : ∀ {c : Char} {ip fp : List Char}, ip ≠ [] → (∀ c ∈ ip ++ fp, c ∈ digits) → ∀ {r : List Char}, (ip ++ r).head? = some c →
      c ∈ digits := by
    intro c ip fp h0 hd r hc
    cases ip with
    | nil => exact absurd rfl h0
    | cons d ip =>
      rw [List.cons_append, List.head?_cons, Option.some_inj] at hc
      exact hc ▸ hd d (by simp)
  -- the sign
  have hn : n = n' ∧ ip ++ (tf ++ tx) = ip' ++ (tf' ++ tx') := by
    rw [List.append_assoc, List.append_assoc, List.append_assoc, List.append_assoc] at ht
    cases n <;> cases n'
    · exact ⟨rfl, by simpa using ht⟩
    · exfalso
      simp only [Bool.false_eq_true, if_false, if_true, List.nil_append, List.cons_append] at ht
      exact absurd (nd h0 hd (by rw [ht]; rfl)) (by decide)
    · exfalso
      simp only [Bool.false_eq_true, if_false, if_true, List.nil_append, List.cons_append] at ht
      exact absurd (nd h0' hd' (by rw [← ht]; rfl)) (by decide)
    · exact ⟨rfl, by simpa using ht⟩
  obtain ⟨rfl, hr⟩ := hn
  clear ht
  -- the integer part
  have hhead : ∀ {tf fp tx : List Char} {e : Int}, IsFraction tf fp → IsExponent tx e → ∀ c ∈ (tf ++ tx).head?, ¬c ∈ digits := by
    intro tf fp tx e hf hx c hc
    rcases hf with ⟨rfl, -⟩ | ⟨rfl, -⟩
    · rw [List.nil_append] at hc
      rw [isExponent_head hx c hc]; decide
    · simp only [List.cons_append, List.head?_cons, Option.mem_def, Option.some_inj] at hc
      rw [← hc]; decide
  obtain ⟨rfl, ht⟩ := span_unique (P := (· ∈ digits)) (a := ip) (b := ip') (fun c hc => hd c (by simp [hc]))
    (fun c hc => hd' c (by simp [hc])) (hhead hf hx) (hhead hf' hx') hr
  -- the fraction
  have hfx : fp = fp' ∧ tx = tx' := by
    have nx : ∀ {tx : List Char} {e : Int}, IsExponent tx e → ∀ c ∈ tx.head?, ¬c ∈ digits := by
      intro tx e hx c hc
      rw [isExponent_head hx c hc]; decide
    rcases hf with ⟨rfl, rfl⟩ | ⟨rfl, -⟩ <;> rcases hf' with ⟨rfl, rfl⟩ | ⟨rfl, -⟩
    · exact ⟨rfl, ht⟩
    · exfalso
      rw [List.nil_append] at ht
      subst ht
      exact absurd (isExponent_head hx '.' rfl) (by decide)
    · exfalso
      rw [List.nil_append] at ht
      subst ht
      exact absurd (isExponent_head hx' '.' rfl) (by decide)
    · rw [List.cons_append, List.cons_append] at ht
      injection ht with _ ht
      exact span_unique (P := (· ∈ digits)) (a := fp) (b := fp') (fun c hc => hd c (by simp [hc])) (fun c hc => hd' c (by simp [hc])) (nx hx) (nx hx') ht
  obtain ⟨rfl, rfl⟩ := hfx
  rw [isExponent_unique hx hx']

/-- A numeral has no separators. -/
theorem isDecimal_chars {t : List Char} {v : ℝ} (h : IsDecimal t v) : ∀ c ∈ t, c ∈ digits ∨ c = '-' ∨ c = '+' ∨ c = '.' ∨ c = 'e' := by
  obtain ⟨n, ip, fp, tf, tx, e, h0, hd, hf, hx, rfl, rfl⟩ := h
  intro c hc
  rw [List.append_assoc, List.append_assoc, List.mem_append, List.mem_append, List.mem_append] at hc
  rcases hc with hc | hc | hc | hc
  · cases n
    · simp at hc
    · right; left; simpa using hc
  · exact .inl (hd c (by simp [hc]))
  · rcases hf with ⟨rfl, -⟩ | ⟨rfl, -⟩
    · simp at hc
    · rcases List.mem_cons.1 hc with rfl | hc
      · simp
      · exact .inl (hd c (by simp [hc]))
  · rcases hx with ⟨rfl, -⟩ | ⟨ds, -, hds, ⟨rfl, -⟩ | ⟨rfl, -⟩⟩
    · simp at hc
    all_goals
      rcases List.mem_cons.1 hc with rfl | hc
      · simp
      rcases List.mem_cons.1 hc with rfl | hc
      · simp
      exact .inl (hds c hc)

theorem isDecimal_neg {t : List Char} {v : ℝ} (h : IsDecimal t v) (ht : ∀ c ∈ t.head?, c ≠ '-') : IsDecimal ('-' :: t) (-v) := by
  obtain ⟨n, ip, fp, tf, tx, e, h0, hd, hf, hx, rfl, rfl⟩ := h
  cases n
  · exact ⟨true, ip, fp, tf, tx, e, h0, hd, hf, hx, by simp, by simp⟩
  · exact absurd rfl (ht '-' (by simp))

end Bwsl
