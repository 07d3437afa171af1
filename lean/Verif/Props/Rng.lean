import Verif.Model.Rng
import Verif.Props.RationalText

/-! Property C83: the state of a random number generator survives saving and loading. -/

namespace Bwsl
open Spec

namespace Spec

/-- `s` starts with numerals for the numbers `xs`: each after optional blanks, taken as long as possible, and of
magnitude less than 2^64.  Negative numbers stand for their residues. -/
inductive StateText : List Char → List Nat → Prop where
  | nil (s : List Char) : StateText s []
  | cons (w t rest : List Char) (v : Int) (xs : List Nat) (hw : ∀ c ∈ w, Blank c) (ht : IsNumeral t v)
      (hv : v.natAbs < 2 ^ 64) (hrest : ∀ c ∈ rest.head?, c ∉ digits) (h : StateText rest xs) :
      StateText (w ++ t ++ rest) ((v % 2 ^ 64).toNat :: xs)

end Spec

/-- blanks, then a numeral for `v`, then `tl`, which does not continue it -/
def UNumAt (s : List Char) (x : Nat) (tl : List Char) : Prop :=
  ∃ w t v, s = w ++ t ++ tl ∧ (∀ c ∈ w, Blank c) ∧ IsNumeral t v ∧ v.natAbs < 2 ^ 64 ∧ x = (v % 2 ^ 64).toNat ∧
    (∀ c ∈ tl.head?, c ∉ digits)

theorem residue_pos {n : Nat} (h : n < 2 ^ 64) : (((n : Int)) % 2 ^ 64).toNat = n := by omega
theorem residue_neg {n : Nat} (h : n < W64) : ((-(n : Int)) % 2 ^ 64).toNat = (W64 - n) % W64 := by
  show ((-(n : Int)) % 18446744073709551616).toNat = _
  omega

theorem convertU_numeral {t tl : List Char} {v : Int} {old : Nat} (h : IsNumeral t v) (hv : v.natAbs < 2 ^ 64)
    (htl : ∀ c ∈ tl.head?, c ∉ digits) : IStream.convertU old (t ++ tl) = ((v % 2 ^ 64).toNat, ⟨tl, false⟩) := by
  obtain ⟨ds, hne, hd, h⟩ := h
  obtain ⟨e1, e2⟩ := takeWhile_split (p := isDigit) (a := ds) (b := tl)
    (fun c hc => isDigit_iff.2 (hd c hc))
    (fun c hc => by rw [← Bool.not_eq_true, isDigit_iff]; exact htl c hc)
  have hds := digitsVal_eq hd
  have hemp : ds.isEmpty = false := by simpa using hne
  rcases h with ⟨rfl, rfl⟩ | ⟨rfl, rfl⟩ | ⟨rfl, rfl⟩
  · obtain ⟨c, cs, rfl⟩ := List.exists_cons_of_ne_nil hne
    obtain ⟨s1, s2⟩ := sign_not_digit c (hd c List.mem_cons_self)
    have hv : decValue (c :: cs) < 2 ^ 64 := by omega
    unfold IStream.convertU
    rw [List.cons_append] at e1 e2 ⊢
    simp only [s1, s2, Bool.or_self, Bool.false_eq_true, if_false, e1, e2, hds, hemp]
    rw [if_neg (by comega), residue_pos hv]
  · have hv : decValue ds < 2 ^ 64 := by omega
    unfold IStream.convertU
    rw [List.cons_append]
    simp only [show (('+' : Char) == '-') = false by decide, show (('+' : Char) == '+') = true by decide,
      Bool.or_true, Bool.false_eq_true, if_false, if_true, e1, e2, hds, hemp]
    rw [if_neg (by comega), residue_pos hv]
  · have hv : decValue ds < W64 := by comega
    unfold IStream.convertU
    rw [List.cons_append]
    simp only [show (('-' : Char) == '-') = true by decide,
      Bool.true_or, Bool.false_eq_true, if_false, if_true, e1, e2, hds, hemp]
    rw [if_neg (by omega), residue_neg hv]

theorem convertU_sound {cs tl : List Char} {x old : Nat} (h : IStream.convertU old cs = (x, ⟨tl, false⟩)) :
    ∃ t v, cs = t ++ tl ∧ IsNumeral t v ∧ v.natAbs < 2 ^ 64 ∧ x = (v % 2 ^ 64).toNat ∧ (∀ c ∈ tl.head?, c ∉ digits) := by
  cases cs with
  | nil => simp [IStream.convertU] at h
  | cons c cs =>
    unfold IStream.convertU at h
    simp only at h
    generalize hb : (if (c == '-' || c == '+') = true then cs else c :: cs) = body at h
    obtain ⟨s1, s2, s3⟩ := split_while isDigit body
    have hd : ∀ x ∈ body.takeWhile isDigit, x ∈ digits := fun x hx => isDigit_iff.1 (s2 x hx)
    split at h
    · simp at h
    · next hne =>
      split at h
      · simp at h
      · next h1 =>
        simp only [Prod.mk.injEq, IStream.mk.injEq, and_true] at h
        obtain ⟨hx, htl⟩ := h
        have hne' : body.takeWhile isDigit ≠ [] := by simpa using hne
        rw [digitsVal_eq hd] at hx h1
        rw [htl] at s1 s3
        generalize body.takeWhile isDigit = ds at *
        have hlt : decValue ds < W64 := by omega
        have htail : ∀ c ∈ tl.head?, c ∉ digits := by
          intro x hx
          have := s3 x hx
          rw [← isDigit_iff, this]; simp
        by_cases hm : (c == '-') = true
        · have : c = '-' := by simpa using hm
          subst this
          refine ⟨'-' :: ds, -(decValue ds : Int), ?_, ⟨ds, hne', hd, .inr (.inr ⟨rfl, rfl⟩)⟩, by comega, ?_, htail⟩
          · simp at hb
            rw [hb, s1, List.cons_append]
          · rw [residue_neg hlt, ← hx]; rfl
        · rw [if_neg hm] at hx
          have hres : x = (((decValue ds : Int)) % 2 ^ 64).toNat := by rw [residue_pos (by comega), hx]
          by_cases hp : (c == '+') = true
          · have : c = '+' := by simpa using hp
            subst this
            refine ⟨'+' :: ds, decValue ds, ?_, ⟨ds, hne', hd, .inr (.inl ⟨rfl, rfl⟩)⟩, by comega, hres, htail⟩
            simp at hb
            rw [hb, s1, List.cons_append]
          · refine ⟨ds, decValue ds, ?_, ⟨ds, hne', hd, .inl ⟨rfl, rfl⟩⟩, by comega, hres, htail⟩
            rw [if_neg (by simp only [Bool.or_eq_true, not_or]; exact ⟨hm, hp⟩)] at hb
            rw [hb, s1]

theorem readULong_iff {s : List Char} {old x : Nat} {tl : List Char} :
    IStream.readULong ⟨s, false⟩ old = (x, ⟨tl, false⟩) ↔ UNumAt s x tl := by
  unfold IStream.readULong
  simp only [Bool.false_eq_true, if_false]
  constructor
  · intro h
    obtain ⟨t, v, h1, h2, h3, h4, h5⟩ := convertU_sound h
    obtain ⟨s1, s2, _⟩ := split_while isSpace s
    exact ⟨s.takeWhile isSpace, t, v, by rw [List.append_assoc, ← h1]; exact s1,
      fun c hc => isSpace_iff.1 (s2 c hc), h2, h3, h4, h5⟩
  · rintro ⟨w, t, v, rfl, hw, ht, hv, rfl, htl⟩
    rw [List.append_assoc,
      (takeWhile_split (p := isSpace) (fun c hc => isSpace_iff.2 (hw c hc)) (numeral_head ht tl)).2]
    exact convertU_numeral ht hv htl

theorem readULong_fail {s : IStream} {old : Nat} (h : s.fail = true) : s.readULong old = (old, s) := by
  unfold IStream.readULong; rw [if_pos h]

theorem read_fail {s : IStream} (mt : Engine) (h : s.fail = true) : (Engine.read s mt).2.fail = true := by
  induction mt with
  | nil => exact h
  | cons x xs ih => simp only [Engine.read, readULong_fail h, ih]

theorem stateText_cons {s : List Char} {x : Nat} {xs : List Nat} :
    StateText s (x :: xs) ↔ ∃ tl, UNumAt s x tl ∧ StateText tl xs := by
  constructor
  · intro h
    generalize hy : x :: xs = ys at h
    cases h with
    | nil => cases hy
    | cons w t rest v xs' hw ht hv hrest h =>
      cases hy
      exact ⟨rest, ⟨w, t, v, rfl, hw, ht, hv, rfl, hrest⟩, h⟩
  · rintro ⟨tl, ⟨w, t, v, rfl, hw, ht, hv, rfl, hrest⟩, h⟩
    exact .cons w t tl v xs hw ht hv hrest h

theorem read_iff {s : List Char} {mt xs : Engine} :
    (Engine.read ⟨s, false⟩ mt).1 = xs ∧ (Engine.read ⟨s, false⟩ mt).2.fail = false ↔
      xs.length = mt.length ∧ StateText s xs := by
  induction mt generalizing s xs with
  | nil =>
    simp only [Engine.read, List.length_nil]
    constructor
    · rintro ⟨rfl, -⟩; exact ⟨rfl, .nil s⟩
    · rintro ⟨h, -⟩; exact ⟨(List.length_eq_zero_iff.1 h).symm, trivial⟩
  | cons old mt ih =>
    simp only [Engine.read]
    rcases hr : IStream.readULong ⟨s, false⟩ old with ⟨x, ⟨tl, f⟩⟩
    cases f with
    | true =>
      simp only [read_fail mt (s := ⟨tl, true⟩) rfl]
      constructor
      · rintro ⟨-, h⟩; cases h
      · rintro ⟨hl, h⟩
        cases xs with
        | nil => simp at hl
        | cons y ys =>
          obtain ⟨tl', h1, -⟩ := stateText_cons.1 h
          rw [readULong_iff.2 h1] at hr
          cases hr
    | false =>
      have hx := readULong_iff.1 hr
      constructor
      · rintro ⟨rfl, h⟩
        obtain ⟨h1, h2⟩ := (ih (s := tl)).1 ⟨rfl, h⟩
        exact ⟨by simp [h1], stateText_cons.2 ⟨tl, hx, h2⟩⟩
      · rintro ⟨hl, h⟩
        cases xs with
        | nil => simp at hl
        | cons y ys =>
          obtain ⟨tl', h1, h2⟩ := stateText_cons.1 h
          have := (readULong_iff (old := old)).2 h1
          rw [hr] at this
          cases this
          obtain ⟨h3, h4⟩ := (ih (s := tl)).2 ⟨by simpa using hl, h2⟩
          exact ⟨by rw [h3], h4⟩

/-- C83.  Loading a text that starts with as many numerals as the engine has numbers gives the engine these numbers. -/
theorem C83_accepts (mt xs : Engine) (s : List Char) (hl : xs.length = mt.length) (h : StateText s xs) :
    mt.loadText s = ⟨xs, .ok ()⟩ := by
  obtain ⟨h1, h2⟩ := read_iff.2 ⟨hl, h⟩
  unfold Engine.loadText IStream.ofString
  simp only [h1, h2, Bool.false_eq_true, if_false]

/-- C83.  Any other text makes it throw. -/
theorem C83_rejects (mt : Engine) (s : List Char) (h : ∀ xs, xs.length = mt.length → ¬ StateText s xs) :
    (mt.loadText s).res = .throws .invalidArgument := by
  unfold Engine.loadText IStream.ofString
  cases hf : (Engine.read ⟨s, false⟩ mt).2.fail with
  | true => simp only [hf, if_true]
  | false =>
    obtain ⟨h1, h2⟩ := read_iff.1 ⟨rfl, hf⟩
    exact absurd h2 (h _ h1)

theorem text_stateText (mt : Engine) (h : ∀ x ∈ mt, x < 2 ^ 64) (w : List Char) (hw : ∀ c ∈ w, Blank c) :
    StateText (w ++ mt.text) mt := by
  induction mt generalizing w with
  | nil => exact .nil _
  | cons x xs ih =>
    obtain ⟨h1, h2, h3⟩ := printNat_spec x
    have hx := h x (by simp)
    have hnum : IsNumeral (printNat x) (x : Int) := ⟨_, h1, h2, .inl ⟨rfl, by exact_mod_cast h3.symm⟩⟩
    have hres := residue_pos hx
    cases xs with
    | nil =>
      have := StateText.cons w (printNat x) [] x [] hw hnum (by omega) (by simp) (.nil _)
      rw [hres, List.append_nil] at this
      exact this
    | cons y ys =>
      have h4 := ih (fun z hz => h z (by simp [hz])) [' '] (by simp [Blank])
      have := StateText.cons w (printNat x) _ x _ hw hnum (by omega) (by simp; decide) h4
      rw [hres] at this
      simpa [Engine.text] using this

/-- C83.  Whatever the archive holds before and after it, a saved engine loaded into any engine of the same kind
reproduces the saved state, without an exception, and the rest of the archive is left to be read. -/
theorem C83_round_trip {F : Type} (mt old : Engine) (hl : old.length = mt.length) (h : ∀ x ∈ mt, x < 2 ^ 64) :
    ∃ ps : List (Prim F), (∀ pre, (mt.save pre).2 = pre ++ ps) ∧ ∀ post, old.load (ps ++ post) = some (⟨mt, .ok ()⟩, post) := by
  refine ⟨[.str (String.ofList mt.text)], fun pre => rfl, fun post => ?_⟩
  show some (old.loadText (String.ofList mt.text).toList, post) = _
  rw [String.toList_ofList, C83_accepts old mt _ hl.symm (by simpa using text_stateText mt h [] (by simp))]

/-- C83.  Hence the engine it is loaded into gives the same numbers from then on. -/
theorem C83_draws {F α : Type} (draw : Engine → α × Engine) (mt old : Engine) (hl : old.length = mt.length)
    (h : ∀ x ∈ mt, x < 2 ^ 64) (n : Nat) (post : List (Prim F)) :
    ∃ new : Engine, old.load ((mt.save []).2 ++ post) = some (⟨new, .ok ()⟩, post) ∧
      (draw ((fun e => (draw e).2)^[n] new)).1 = (draw ((fun e => (draw e).2)^[n] mt)).1 := by
  obtain ⟨ps, h1, h2⟩ := C83_round_trip (F := F) mt old hl h
  exact ⟨mt, by rw [h1, List.nil_append]; exact h2 post, rfl⟩

/-- C83.  `serialize` with an archive that saves does not change the engine; with one that loads, from what was saved, the
engine gets the saved state and the rest of the archive is left. -/
theorem C83_serialize {F : Type} (mt old : Engine) (hl : old.length = mt.length) (h : ∀ x ∈ mt, x < 2 ^ 64) (pre : List (Prim F)) :
    ∃ ps : List (Prim F), mt.serialize (.saving pre) = some ⟨(mt, .saving (pre ++ ps)), .ok ()⟩ ∧
      ∀ post, old.serialize (.loading (ps ++ post)) = some ⟨(mt, .loading post), .ok ()⟩ := by
  obtain ⟨ps, h1, h2⟩ := C83_round_trip (F := F) mt old hl h
  refine ⟨ps, ?_, fun post => ?_⟩
  · unfold Engine.serialize; simp only [h1]
  · unfold Engine.serialize; simp only [h2]

/-- C83: a text that is accepted, with surplus blanks, a plus sign and surplus text, and one that is rejected. -/
example : StateText " 7\n  +12 x".toList [7, 12] := by
  have h : StateText " x".toList [] := .nil _
  have h := StateText.cons "\n  ".toList "+12".toList " x".toList 12 [] (by simp [Blank])
    ⟨"12".toList, by simp, by decide, .inr (.inl ⟨rfl, by decide⟩)⟩ (by decide) (by decide) h
  exact StateText.cons " ".toList "7".toList "\n  +12 x".toList 7 [12] (by simp [Blank])
    ⟨"7".toList, by simp, by decide, .inl ⟨rfl, by decide⟩⟩ (by decide) (by decide) h
example : (Engine.loadText [0, 0] "7 x".toList).res = .throws .invalidArgument := by decide

end Bwsl
