import Verif.Props.Dumpmt

/-! Property C136: texts of engines that are cut off, and `dumpmt` with an output that cannot be written to the end. -/

namespace Bwsl
open Spec

/-- Dropping digits at the end of a printed number divides it. -/
theorem printNat_prefix (n : Nat) (p : List Char) (h : p <+: printNat n) (hp : p ≠ []) :
    ∃ j, p = printNat (n / 10 ^ j) ∧ p.length + j = (printNat n).length := by
  induction n using Nat.strongRecOn with
  | _ n ih =>
    by_cases e : p = printNat n
    · exact ⟨0, by rw [e]; simp, by rw [e]; simp⟩
    · by_cases h10 : n < 10
      · exfalso
        apply e
        have hl : (printNat n).length = 1 := by rw [printNat, if_pos h10]; rfl
        have h1 : 0 < p.length := List.length_pos_iff.2 hp
        exact h.eq_of_length (by have := h.length_le; omega)
      · have e1 : printNat n = printNat (n / 10) ++ [Char.ofNat (48 + n % 10)] := by
          conv_lhs => rw [printNat, if_neg h10]
        have hl := congrArg List.length e1
        rw [List.length_append, List.length_singleton] at hl
        have hlt : p.length ≤ (printNat (n / 10)).length := by
          have h1 := h.length_le
          have h2 : p.length ≠ (printNat n).length := fun hc => e (h.eq_of_length hc)
          omega
        have hpre : p <+: printNat (n / 10) := List.prefix_of_prefix_length_le h (by rw [e1]; exact List.prefix_append _ _) hlt
        obtain ⟨j, h1, h2⟩ := ih (n / 10) (by omega) hpre
        exact ⟨j + 1, by rw [h1, Nat.div_div_eq_div_mul, pow_succ, mul_comm], by omega⟩

theorem not_blank_digit {c : Char} (h : c ∈ digits) : ¬ Blank c := by
  rw [← isSpace_iff, not_space_digit h]; simp

/-- Blanks followed by digits hold at most one numeral. -/
theorem one_numeral {b ds : List Char} (hb : ∀ c ∈ b, Blank c) (hd : ∀ c ∈ ds, c ∈ digits) {x : Nat} {tl : List Char}
    (h : UNumAt (b ++ ds) x tl) : tl = [] := by
  obtain ⟨w, t, v, e, hw, ⟨ns, hne, hns, ht⟩, -, -, htl⟩ := h
  cases tl with
  | nil => rfl
  | cons c tl =>
    exfalso
    have hc := htl c (by simp)
    obtain ⟨m, hm⟩ : ∃ m, t = m ++ ns := by
      rcases ht with ⟨h, -⟩ | ⟨h, -⟩ | ⟨h, -⟩
      · exact ⟨[], by simp [h]⟩
      · exact ⟨['+'], by simp [h]⟩
      · exact ⟨['-'], by simp [h]⟩
    -- a digit of the numeral precedes `c`
    obtain ⟨ns', d, hnd⟩ : ∃ ns' d, ns = ns' ++ [d] := ⟨ns.dropLast, ns.getLast hne, (List.dropLast_append_getLast hne).symm⟩
    have hdig : d ∈ digits := hns d (by rw [hnd]; simp)
    have e' : b ++ ds = (w ++ m ++ ns') ++ d :: c :: tl := by rw [e, hm, hnd]; simp
    rcases List.append_eq_append_iff.1 e' with ⟨a', h1, h2⟩ | ⟨c', h1, h2⟩
    · have : c ∈ ds := by rw [h2]; simp
      exact hc (hd c this)
    · cases c' with
      | nil =>
        rw [List.nil_append] at h2
        have : c ∈ ds := by rw [← h2]; simp
        exact hc (hd c this)
      | cons d' c' =>
        rw [List.cons_append] at h2
        have hdd : d = d' := by injection h2
        exact not_blank_digit hdig (hb d (by rw [h1, hdd]; simp))

theorem not_uNum_nil {x : Nat} {tl : List Char} : ¬ UNumAt [] x tl := by
  rintro ⟨w, t, v, e, -, ⟨ns, hne, -, ht⟩, -⟩
  have : t = [] := by
    have := congrArg List.length e
    simp at this
    exact List.eq_nil_of_length_eq_zero (by omega)
  subst this
  rcases ht with ⟨h, -⟩ | ⟨h, -⟩ | ⟨h, -⟩
  · exact hne h.symm
  · cases h
  · cases h

theorem not_uNum_blank {b : List Char} (hb : ∀ c ∈ b, Blank c) {x : Nat} {tl : List Char} : ¬ UNumAt b x tl := by
  rintro ⟨w, t, v, e, -, ⟨ns, hne, hns, ht⟩, -⟩
  obtain ⟨d, hd⟩ := List.exists_mem_of_ne_nil ns hne
  have : d ∈ b := by
    rw [e]
    rcases ht with ⟨h, -⟩ | ⟨h, -⟩ | ⟨h, -⟩ <;> rw [h] <;> simp [hd]
  exact not_blank_digit (hns d hd) (hb d this)

/-- What the engine's text is but for the last number. -/
theorem text_snoc (mt : Engine) (x : Nat) :
    Engine.text (mt ++ [x]) = (mt.flatMap fun y => printNat y ++ [' ']) ++ printNat x := by
  induction mt with
  | nil => rfl
  | cons y ys ih =>
    rw [List.cons_append, List.flatMap_cons]
    cases ys with
    | nil => simp [Engine.text]
    | cons z zs =>
      rw [List.cons_append] at ih ⊢
      rw [Engine.text, ih]
      · simp
      · simp

/-- A text that stops before the last number does not hold enough of them. -/
theorem cut_rejected (mt : Engine) (h : ∀ x ∈ mt, x < 2 ^ 64) :
    ∀ (b p : List Char), (∀ c ∈ b, Blank c) → p <+: b ++ (mt.flatMap fun y => printNat y ++ [' ']) →
      ∀ xs, StateText p xs → xs.length ≤ mt.length := by
  induction mt with
  | nil =>
    intro b p hb hp xs hx
    simp only [List.flatMap_nil, List.append_nil] at hp
    cases xs with
    | nil => simp
    | cons x xs =>
      obtain ⟨tl, h1, -⟩ := stateText_cons.1 hx
      exact absurd h1 (not_uNum_blank fun c hc => hb c (hp.subset hc))
  | cons y ys ih =>
    intro b p hb hp xs hx
    cases xs with
    | nil => simp
    | cons x xs =>
      obtain ⟨tl, h1, h2⟩ := stateText_cons.1 hx
      obtain ⟨n1, n2, n3⟩ := printNat_spec y
      have hy := h y (by simp)
      have key : xs.length ≤ ys.length := by
        by_cases hl : p.length ≤ (b ++ printNat y).length
        · have hp' : p <+: b ++ printNat y := by
            refine List.prefix_of_prefix_length_le hp ?_ hl
            rw [List.flatMap_cons]
            exact ⟨' ' :: (ys.flatMap fun y => printNat y ++ [' ']), by simp⟩
          obtain ⟨b', ds, e, hb', hd'⟩ : ∃ b' ds, p = b' ++ ds ∧ (∀ c ∈ b', Blank c) ∧ ∀ c ∈ ds, c ∈ digits := by
            refine ⟨p.take b.length, p.drop b.length, (List.take_append_drop _ _).symm, fun c hc => ?_, fun c hc => ?_⟩
            · obtain ⟨q, hq⟩ := hp'
              have : p.take b.length <+: b := by
                refine List.prefix_of_prefix_length_le (l₃ := b ++ printNat y) ((List.take_prefix _ _).trans ⟨q, hq⟩)
                  (List.prefix_append _ _) (by rw [List.length_take]; omega)
              exact hb c (this.subset hc)
            · obtain ⟨q, hq⟩ := hp'
              have e := congrArg (List.drop b.length) hq
              rw [List.drop_left] at e
              refine n2 c ?_
              rw [← e, List.drop_append]
              exact List.mem_append_left _ hc
          rw [e] at h1
          have := one_numeral hb' hd' h1
          subst this
          cases xs with
          | nil => simp
          | cons z zs =>
            obtain ⟨tl', h3, -⟩ := stateText_cons.1 h2
            exact absurd h3 not_uNum_nil
        · have hq : b ++ printNat y <+: p := by
            refine List.prefix_of_prefix_length_le ?_ hp (by omega)
            rw [List.flatMap_cons]
            exact ⟨' ' :: (ys.flatMap fun y => printNat y ++ [' ']), by simp⟩
          obtain ⟨q, rfl⟩ := hq
          rw [List.flatMap_cons, List.append_assoc, List.append_assoc,
            List.prefix_append_right_inj, List.prefix_append_right_inj] at hp
          have hu : UNumAt (b ++ printNat y ++ q) y q := by
            refine ⟨b, printNat y, y, rfl, hb, ⟨_, n1, n2, .inl ⟨rfl, by exact_mod_cast n3.symm⟩⟩, by omega,
              (residue_pos hy).symm, ?_⟩
            cases q with
            | nil => simp
            | cons c q =>
              have : c = ' ' := by
                have := List.cons_prefix_cons.1 hp
                exact this.1
              subst this
              intro c hc
              simp at hc; subst hc
              decide
          have hdet := (readULong_iff (old := 0)).2 hu
          rw [(readULong_iff (old := 0)).2 h1] at hdet
          injection hdet with d1 d2
          injection d2 with d3
          subst d3
          exact ih (fun z hz => h z (by simp [hz])) [' '] tl (by simp [Blank]) hp xs h2
      simpa using key

/-- C136.  The text of an engine cut off before its last number is refused by every engine of the same kind. -/
theorem C136_rejected (mt old : Engine) (x : Nat) (p : List Char) (h : ∀ y ∈ mt, y < 2 ^ 64) (hl : old.length = mt.length + 1)
    (hp : p <+: Engine.text (mt ++ [x])) (hlen : p.length + (printNat x).length ≤ (Engine.text (mt ++ [x])).length) :
    (old.loadText p).res = .throws .invalidArgument := by
  apply C83_rejects
  intro xs hxs hs
  have e := text_snoc mt x
  have hl' := congrArg List.length e
  rw [List.length_append] at hl'
  have hp' : p <+: [] ++ (mt.flatMap fun y => printNat y ++ [' ']) := by
    rw [List.nil_append]
    exact List.prefix_of_prefix_length_le hp (by rw [e]; exact List.prefix_append _ _) (by omega)
  have := cut_rejected mt h [] p (by simp) hp' xs hs
  omega

/-- C136.  Cut off inside its last number it is accepted, and that number comes out divided by a power of ten. -/
theorem C136_accepted (mt old : Engine) (x j : Nat) (p : List Char) (h : ∀ y ∈ mt, y < 2 ^ 64) (hx : x < 2 ^ 64)
    (hl : old.length = mt.length + 1) (hp : p <+: Engine.text (mt ++ [x])) (hj : j < (printNat x).length)
    (hlen : p.length + j = (Engine.text (mt ++ [x])).length) :
    old.loadText p = ⟨mt ++ [x / 10 ^ j], .ok ()⟩ := by
  have e := text_snoc mt x
  have hl' := congrArg List.length e
  rw [List.length_append] at hl'
  have hq : (mt.flatMap fun y => printNat y ++ [' ']) <+: p :=
    List.prefix_of_prefix_length_le (by rw [e]; exact List.prefix_append _ _) hp (by omega)
  obtain ⟨q, rfl⟩ := hq
  rw [List.length_append] at hlen
  rw [e, List.prefix_append_right_inj] at hp
  obtain ⟨i, h1, h2⟩ := printNat_prefix x q hp (by rintro rfl; rw [List.length_nil] at hlen; omega)
  have hij : i = j := by omega
  subst hij
  rw [h1, ← text_snoc]
  have hlt : x / 10 ^ i < 2 ^ 64 := lt_of_le_of_lt (Nat.div_le_self _ _) hx
  have hall : ∀ y ∈ mt ++ [x / 10 ^ i], y < 2 ^ 64 := by
    intro y hy
    rcases List.mem_append.1 hy with hy | hy
    · exact h y hy
    · rw [List.mem_singleton.1 hy]; exact hlt
  exact C83_accepts old _ _ (by rw [hl]; simp) (by simpa using text_stateText _ hall [] (by simp))

/-- C136 (violated: the exit status should tell).  `dumpmt` reports success however little of its output could be written;
what is written is a beginning of the output. -/
theorem C136_status_violated (room : Nat) (extra : List Nat) (a0 a1 : List Char) (more : List (List Char)) (v : Int)
    (h : StartsWith a1 v) (h1 : -2 ^ 31 ≤ v) (h2 : v < 2 ^ 31) :
    ∃ out, Dumpmt.main extra (a0 :: a1 :: more) = .ok (0, out) ∧ 312 < out.length ∧
      Dumpmt.mainUpTo room extra (a0 :: a1 :: more) = .ok (0, out.take room) := by
  have e : Dumpmt.main extra (a0 :: a1 :: more) = .ok (0, (Dumpmt.seeded (toSize v) extra).text ++ ['\n']) := by
    rw [main_two, Dumpmt.atoi_numeral h, if_pos ⟨by omega, by omega⟩]
    rfl
  refine ⟨_, e, ?_, ?_⟩
  · have hlen : ∀ mt : Engine, mt.length ≤ mt.text.length := by
      intro mt
      induction mt with
      | nil => simp
      | cons x xs ih =>
        have := List.length_pos_iff.2 (printNat_spec x).1
        cases xs with
        | nil => rw [Engine.text, List.length_singleton]; exact this
        | cons y ys =>
          rw [Engine.text]
          · simp only [List.length_append, List.length_cons] at ih ⊢; omega
          · simp
    have := hlen (Dumpmt.seeded (toSize v) extra)
    rw [Dumpmt.seeded_length] at this
    rw [List.length_append, List.length_singleton]
    omega
  · unfold Dumpmt.mainUpTo
    rw [e]; rfl

/-- C136.  Where there is room for everything it does what it does otherwise. -/
theorem C136_room (room : Nat) (extra : List Nat) (args : List (List Char)) (s : Nat) (out : List Char)
    (h : Dumpmt.main extra args = .ok (s, out)) (hr : out.length ≤ room) :
    Dumpmt.mainUpTo room extra args = .ok (s, out) := by
  unfold Dumpmt.mainUpTo
  rw [h, Res.ok_bind, List.take_of_length_le hr]

/-- C136.  A dump that lacks its last two digits and the line break, in libstdc++, whose last number is the position 312, is
loaded without an error as the generator at position 3: other numbers are drawn from then on. -/
theorem C136_position_violated (seed : Nat) (old : Engine) (hl : old.length = 313) :
    ∃ room, old.loadText ((Engine.text (Dumpmt.seeded seed [312]) ++ ['\n']).take room) =
      ⟨Dumpmt.seeded seed [3], .ok ()⟩ := by
  have h312 : printNat 312 = ['3', '1', '2'] := by
    rw [printNat, if_neg (by norm_num), printNat, if_neg (by norm_num), printNat, if_pos (by norm_num)]; rfl
  have e := text_snoc ((List.range 312).map (Dumpmt.seedWord seed)) 312
  have hl' := congrArg List.length e
  rw [List.length_append, h312] at hl'
  simp only [List.length_cons, List.length_nil] at hl'
  refine ⟨(Engine.text (Dumpmt.seeded seed [312])).length - 2, ?_⟩
  have := C136_accepted ((List.range 312).map (Dumpmt.seedWord seed)) old 312 2
    ((Engine.text (Dumpmt.seeded seed [312]) ++ ['\n']).take ((Engine.text (Dumpmt.seeded seed [312])).length - 2))
    (by
      intro y hy
      obtain ⟨i, -, rfl⟩ := List.mem_map.1 hy
      exact Dumpmt.seedWord_lt _ _) (by norm_num) (by rw [hl]; simp)
    (by
      unfold Dumpmt.seeded
      rw [List.take_append_of_le_length (by omega)]
      exact List.take_prefix _ _) (by rw [h312]; simp)
    (by
      unfold Dumpmt.seeded
      rw [List.length_take, List.length_append, List.length_singleton]
      omega)
  exact this

/-- Non-vacuity: the text `5 312` cut to `5 3` and to `5 `. -/
example : Engine.loadText [0, 0] "5 3".toList = ⟨[5, 3], .ok ()⟩ ∧
    (Engine.loadText [0, 0] "5 ".toList).res = .throws .invalidArgument := by
  have h312 : printNat 312 = ['3', '1', '2'] := by
    rw [printNat, if_neg (by norm_num), printNat, if_neg (by norm_num), printNat, if_pos (by norm_num)]; rfl
  have h5 : printNat 5 = ['5'] := by rw [printNat, if_pos (by norm_num)]
  have ht : Engine.text ([5] ++ [312]) = "5 312".toList := by rw [text_snoc]; simp [h312, h5]
  refine ⟨?_, ?_⟩
  · exact C136_accepted [5] [0, 0] 312 2 _ (by simp) (by norm_num) rfl (by rw [ht]; exact ⟨['1', '2'], rfl⟩)
      (by rw [h312]; decide) (by rw [ht]; rfl)
  · exact C136_rejected [5] [0, 0] 312 _ (by simp) rfl (by rw [ht]; exact ⟨['3', '1', '2'], rfl⟩) (by rw [ht, h312]; decide)

end Bwsl
