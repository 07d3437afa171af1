import Verif.Model.Dumpmt
import Verif.Props.Rng

/-! Property C91: the program `dumpmt` prints the state of a freshly seeded generator, which can be loaded. -/

namespace Bwsl
open Spec

namespace Spec

/-- The state of the 64-bit Mersenne twister after seeding, by its defining recurrence: `ws` has 312 words, the
first is the seed, and each one is made from the one before. -/
def SeededState (seed : Nat) (ws : List Nat) : Prop :=
  ws.length = 312 ∧ ws[0]? = some seed ∧
  ∀ i x y, ws[i]? = some x → ws[i + 1]? = some y →
    y = (6364136223846793005 * (x ^^^ x / 2 ^ 62) + (i + 1)) % 2 ^ 64

/-- `s` starts with a numeral for `v`, after optional blanks. -/
def StartsWith (s : List Char) (v : Int) : Prop :=
  ∃ w t rest, s = w ++ t ++ rest ∧ (∀ c ∈ w, Blank c) ∧ IsNumeral t v ∧ ∀ c ∈ rest.head?, c ∉ digits

end Spec

namespace Dumpmt

theorem seedWord_lt (seed i : Nat) : seedWord seed i < 2 ^ 64 := by
  cases i <;> exact Nat.mod_lt _ (by decide)

theorem seeded_length (seed : Nat) (extra : List Nat) : (seeded seed extra).length = 312 + extra.length := by
  unfold seeded; simp

theorem seeded_spec (seed : Nat) (hs : seed < 2 ^ 64) :
    SeededState seed ((List.range 312).map (seedWord seed)) := by
  have hget : ∀ i x, ((List.range 312).map (seedWord seed))[i]? = some x → x = seedWord seed i := by
    intro i x h
    rw [List.getElem?_map] at h
    obtain ⟨a, ha, rfl⟩ := Option.map_eq_some_iff.1 h
    rw [List.getElem?_eq_some_iff] at ha
    obtain ⟨h1, h2⟩ := ha
    rw [List.getElem_range] at h2
    rw [h2]
  refine ⟨by simp, ?_, ?_⟩
  · rw [List.getElem?_map, List.getElem?_range (by decide)]
    show some (seed % W64) = some seed
    exact congrArg some (Nat.mod_eq_of_lt hs)
  · intro i x y hx hy
    rw [hget _ _ hx, hget _ _ hy, ← Nat.shiftRight_eq_div_pow]
    rfl

theorem seededState_unique {seed : Nat} {ws ws' : List Nat} (h : SeededState seed ws) (h' : SeededState seed ws') :
    ws = ws' := by
  obtain ⟨l, a, r⟩ := h
  obtain ⟨l', a', r'⟩ := h'
  refine List.ext_getElem? (fun i => ?_)
  induction i with
  | zero => rw [a, a']
  | succ i ih =>
    by_cases hi : i + 1 < 312
    · have e1 : ws[i + 1]? = some ws[i + 1] := List.getElem?_eq_getElem (by omega)
      have e2 : ws'[i + 1]? = some ws'[i + 1] := List.getElem?_eq_getElem (by omega)
      have e3 : ws[i]? = some ws[i] := List.getElem?_eq_getElem (by omega)
      rw [e1, e2, r i _ _ e3 e1, r' i _ _ (by rw [← ih]; exact e3) e2]
    · rw [List.getElem?_eq_none (by omega), List.getElem?_eq_none (by omega)]

theorem atoi_numeral {s : List Char} {v : Int} (h : StartsWith s v) :
    atoi s = if -2147483648 ≤ v ∧ v < 2147483648 then .ok v else .ub .signedOverflow := by
  obtain ⟨w, t, rest, rfl, hw, ht, hr⟩ := h
  have hdrop : (w ++ t ++ rest).dropWhile isSpace = t ++ rest := by
    rw [List.append_assoc]
    exact (takeWhile_split (fun c hc => isSpace_iff.2 (hw c hc)) (numeral_head ht rest)).2
  unfold atoi
  simp only [hdrop]
  obtain ⟨ds, hne, hd, h⟩ := ht
  obtain ⟨e1, -⟩ := takeWhile_split (p := isDigit) (a := ds) (b := rest)
    (fun c hc => isDigit_iff.2 (hd c hc))
    (fun c hc => by rw [← Bool.not_eq_true, isDigit_iff]; exact hr c hc)
  have hds := digitsVal_eq hd
  rcases h with ⟨rfl, rfl⟩ | ⟨rfl, rfl⟩ | ⟨rfl, rfl⟩
  · obtain ⟨c, cs, rfl⟩ := List.exists_cons_of_ne_nil hne
    obtain ⟨s1, s2⟩ := sign_not_digit c (hd c List.mem_cons_self)
    have s3 : c ≠ '-' := by simpa using s1
    rw [List.cons_append] at e1 ⊢
    simp only [dropSign, s1, s2, Bool.or_self, Bool.false_eq_true, if_false, e1, hds, List.head?_cons, Option.some.injEq, s3]
  · rw [List.cons_append]
    simp only [dropSign, show (('+' : Char) == '-') = false by decide, show (('+' : Char) == '+') = true by decide,
      Bool.or_true, if_true, e1, hds, List.head?_cons, Option.some.injEq, show ('+' : Char) ≠ '-' by decide,
      if_false]
  · rw [List.cons_append]
    simp only [dropSign, show (('-' : Char) == '-') = true by decide, Bool.true_or, if_true, e1, hds, List.head?_cons]

theorem atoi_other {s : List Char} (h : ∀ v, ¬ StartsWith s v) : atoi s = .ok 0 := by
  unfold atoi
  simp only
  obtain ⟨s1, s2, s3⟩ := split_while isSpace s
  generalize s.dropWhile isSpace = body at *
  generalize s.takeWhile isSpace = w at *
  have hw : ∀ c ∈ w, Blank c := fun c hc => isSpace_iff.1 (s2 c hc)
  generalize hu : dropSign body = u
  obtain ⟨t1, t2, t3⟩ := split_while isDigit u
  have hd : ∀ x ∈ u.takeWhile isDigit, x ∈ digits := fun x hx => isDigit_iff.1 (t2 x hx)
  have htl : ∀ c ∈ (u.dropWhile isDigit).head?, c ∉ digits := by
    intro x hx
    have := t3 x hx
    rw [← isDigit_iff, this]; simp
  have hnil : u.takeWhile isDigit = [] := by
    by_contra hne
    generalize u.takeWhile isDigit = ds at *
    generalize u.dropWhile isDigit = tl at *
    cases body with
    | nil =>
      simp only [dropSign] at hu
      subst hu
      have := congrArg List.length t1
      simp at this
      exact hne (List.eq_nil_of_length_eq_zero (by omega))
    | cons c cs =>
      simp only [dropSign] at hu
      by_cases hm : c = '-'
      · subst hm
        simp at hu
        subst hu
        exact h _ ⟨w, '-' :: ds, tl, by rw [s1, t1]; simp, hw, ⟨ds, hne, hd, .inr (.inr ⟨rfl, rfl⟩)⟩, htl⟩
      · by_cases hp : c = '+'
        · subst hp
          simp at hu
          subst hu
          exact h _ ⟨w, '+' :: ds, tl, by rw [s1, t1]; simp, hw, ⟨ds, hne, hd, .inr (.inl ⟨rfl, rfl⟩)⟩, htl⟩
        · rw [if_neg (by simp [hm, hp])] at hu
          subst hu
          exact h _ ⟨w, ds, tl, by rw [s1, t1]; simp, hw, ⟨ds, hne, hd, .inl ⟨rfl, rfl⟩⟩, htl⟩
  have e : digitsVal [] = 0 := rfl
  rw [hnil, e]
  have e2 : (if body.head? = some '-' then -((0 : Nat) : Int) else ((0 : Nat) : Int)) = 0 := by split <;> rfl
  rw [e2, if_pos (by decide)]

end Dumpmt

theorem main_two (extra : List Nat) (a0 a1 : List Char) (more : List (List Char)) :
    Dumpmt.main extra (a0 :: a1 :: more) = (Dumpmt.atoi a1 >>= fun n =>
      .ok (0, (Dumpmt.seeded (toSize n) extra).text ++ ['\n'])) := by
  unfold Dumpmt.main
  rw [if_neg (by simp)]
  rfl

/-- C91.  Without an argument the program fails and prints nothing. -/
theorem C91_usage (extra : List Nat) (args : List (List Char)) (h : args.length < 2) :
    Dumpmt.main extra args = .ok (1, []) := if_pos h

/-- the engine text followed by a line break is accepted -/
theorem load_line (mt old : Engine) (hl : old.length = mt.length) (h : ∀ x ∈ mt, x < 2 ^ 64) :
    old.loadText (mt.text ++ ['\n']) = ⟨mt, .ok ()⟩ := by
  refine C83_accepts old mt _ hl.symm ?_
  clear hl
  have gen : ∀ (mt : Engine) (w : List Char), (∀ c ∈ w, Blank c) → (∀ x ∈ mt, x < 2 ^ 64) →
      StateText (w ++ (mt.text ++ ['\n'])) mt := by
    intro mt
    induction mt with
    | nil => intro w _ _; exact .nil _
    | cons x xs ih =>
      intro w hw h
      obtain ⟨h1, h2, h3⟩ := printNat_spec x
      have hx := h x (by simp)
      have hnum : IsNumeral (printNat x) (x : Int) := ⟨_, h1, h2, .inl ⟨rfl, by exact_mod_cast h3.symm⟩⟩
      have hres := residue_pos hx
      cases xs with
      | nil =>
        have := StateText.cons w (printNat x) ['\n'] x [] hw hnum (by omega) (by simp; decide) (.nil _)
        rw [hres] at this
        simpa [Engine.text] using this
      | cons y ys =>
        have h4 := ih [' '] (by simp [Blank]) (fun z hz => h z (by simp [hz]))
        have := StateText.cons w (printNat x) _ x _ hw hnum (by omega) (by simp; decide) h4
        rw [hres] at this
        simpa [Engine.text] using this
  simpa using gen mt [] (by simp) h

/-- C91.  With a number that fits `int` as its first argument the program succeeds, and what it prints, loaded into any
engine of the same kind, is the state of the generator seeded with that number (modulo 2^64).  Further arguments
and text after the number do not matter. -/
theorem C91_dump (extra : List Nat) (he : ∀ x ∈ extra, x < 2 ^ 64) (a0 a1 : List Char) (more : List (List Char)) (v : Int)
    (h : StartsWith a1 v) (h1 : -2 ^ 31 ≤ v) (h2 : v < 2 ^ 31) :
    ∃ out ws, Dumpmt.main extra (a0 :: a1 :: more) = .ok (0, out) ∧ SeededState (v % 2 ^ 64).toNat ws ∧
      ∀ old : Engine, old.length = 312 + extra.length → old.loadText out = ⟨ws ++ extra, .ok ()⟩ := by
  refine ⟨(Dumpmt.seeded (toSize v) extra).text ++ ['\n'], (List.range 312).map (Dumpmt.seedWord (toSize v)), ?_, Dumpmt.seeded_spec _ (toSize_lt v), ?_⟩
  · rw [main_two, Dumpmt.atoi_numeral h, if_pos ⟨by omega, by omega⟩]
    rfl
  · intro old hl
    refine load_line _ old (by rw [hl, ← Dumpmt.seeded_length (toSize v)]) ?_
    intro x hx
    rcases List.mem_append.1 hx with hx | hx
    · obtain ⟨i, -, rfl⟩ := List.mem_map.1 hx
      exact Dumpmt.seedWord_lt _ _
    · exact he x hx

/-- C91.  An argument that does not start with a number counts as 0. -/
theorem C91_not_a_number (extra : List Nat) (a0 a1 : List Char) (more : List (List Char))
    (h : ∀ v, ¬ StartsWith a1 v) :
    Dumpmt.main extra (a0 :: a1 :: more) = Dumpmt.main extra [a0, ['0']] := by
  have h0 : Dumpmt.atoi ['0'] = .ok 0 := by decide
  rw [main_two, main_two, Dumpmt.atoi_other h, h0]

/-- C91.  A number that does not fit `int` is undefined behaviour: seeds of 64 bits cannot be given. -/
theorem C91_undefined (extra : List Nat) (a0 a1 : List Char) (more : List (List Char)) (v : Int)
    (h : StartsWith a1 v) (hv : v < -2 ^ 31 ∨ 2 ^ 31 ≤ v) :
    Dumpmt.main extra (a0 :: a1 :: more) = .ub .signedOverflow := by
  rw [main_two, Dumpmt.atoi_numeral h, if_neg (by omega)]
  rfl

/-- C91.  Different seeds give different outputs. -/
theorem C91_injective (extra : List Nat) (he : ∀ x ∈ extra, x < 2 ^ 64) (a0 a1 b0 b1 : List Char)
    (more more' : List (List Char)) (v w : Int)
    (h : StartsWith a1 v) (h1 : -2 ^ 31 ≤ v) (h2 : v < 2 ^ 31)
    (h' : StartsWith b1 w) (h1' : -2 ^ 31 ≤ w) (h2' : w < 2 ^ 31)
    (heq : Dumpmt.main extra (a0 :: a1 :: more) = Dumpmt.main extra (b0 :: b1 :: more')) : v = w := by
  obtain ⟨out, ws, m1, s1, l1⟩ := C91_dump extra he a0 a1 more v h h1 h2
  obtain ⟨out', ws', m2, s2, l2⟩ := C91_dump extra he b0 b1 more' w h' h1' h2'
  rw [m1, m2] at heq
  have e : out = out' := by
    have := Res.ok.inj heq
    exact (Prod.mk.inj this).2
  subst e
  have hl : (List.replicate (312 + extra.length) 0 : Engine).length = 312 + extra.length := List.length_replicate ..
  have e2 := (l1 _ hl).symm.trans (l2 _ hl)
  have e3 : ws ++ extra = ws' ++ extra := congrArg Call.state e2
  have e4 : ws = ws' := List.append_cancel_right e3
  have e5 := s1.2.1
  rw [e4, s2.2.1] at e5
  have e6 := Option.some.inj e5
  omega

/-- C91: arguments that start with numbers, and one that does not. -/
example : StartsWith " -17x".toList (-17) :=
  ⟨" ".toList, "-17".toList, "x".toList, rfl, by simp [Blank],
    ⟨"17".toList, by simp, by decide, .inr (.inr ⟨rfl, by decide⟩)⟩, by decide⟩
example : Dumpmt.atoi "abc".toList = .ok 0 := by decide
example : (Dumpmt.seeded 5489 []).take 2 = [5489, (6364136223846793005 * 5489 + 1) % 2 ^ 64] := by decide

end Bwsl
