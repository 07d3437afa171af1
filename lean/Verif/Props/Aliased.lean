import Verif.Model.Aliased
import Verif.Props.Sk

/-! Property C170: calls with the same vector twice. -/

namespace Bwsl
open Spec

section
variable {T : Type}

/-- Each element combined with itself, from left to right. -/
def eachSelf (op : T → T → Res T) : List T → Res (List T)
  | [] => .ok []
  | a :: as => do
    let c ← op a a
    let cs ← eachSelf op as
    .ok (c :: cs)

theorem transformSelf_eq (op : T → T → Res T) (v : List T) : transformSelf op v = eachSelf op v := by
  have key : ∀ (v pre : List T), foldRangeFrom (fun v i => do
      let a ← subscript v i
      let b ← subscript v i
      let c ← op a b
      .ok (v.set i c)) (pre ++ v) pre.length v.length = (eachSelf op v).bind (fun w => .ok (pre ++ w)) := by
    intro v
    induction v with
    | nil => intro pre; rfl
    | cons a as ih =>
      intro pre
      have hs : subscript (pre ++ a :: as) pre.length = .ok a := subscript_ok (by simp)
      rw [List.length_cons, foldRangeFrom, eachSelf, hs, Res.ok_bind, Res.ok_bind]
      cases op a a with
      | ok c =>
        have e : (pre ++ a :: as).set pre.length c = (pre ++ [c]) ++ as := by simp
        rw [Res.ok_bind, Res.ok_bind, Res.ok_bind, e]
        have := ih (pre ++ [c])
        rw [List.length_append, List.length_singleton] at this
        rw [this]
        cases eachSelf op as with
        | ok w => simp [Res.bind, Bind.bind]
        | throws e => rfl
        | ub u => rfl
        | diverges => rfl
      | throws e => rfl
      | ub u => rfl
      | diverges => rfl
  have := key v []
  unfold transformSelf foldRange
  rw [List.nil_append, List.length_nil] at this
  rw [this]
  cases eachSelf op v <;> rfl

end

/-- C170.  `sum_into(v, v)` and `subtract_into(v, v)` do the same as with a copy of the vector: elements of type `long`. -/
theorem C170_into (v : List Int) : sumIntoSelf v = sumInto v v ∧ subtractIntoSelf v = subtractInto v v := by
  have key : ∀ op, eachSelf op v = transformInto op v v := by
    intro op
    induction v with
    | nil => rfl
    | cons a as ih => rw [eachSelf, transformInto, ih]
  unfold sumIntoSelf subtractIntoSelf sumInto subtractInto
  rw [transformSelf_eq, transformSelf_eq, key, key]
  exact ⟨rfl, rfl⟩

/-- C170.  Elements of any integer type. -/
theorem C170_into_types (t : CInt) (v : List Int) :
    t.sumIntoSelf v = t.sumInto v v ∧ t.subtractIntoSelf v = t.subtractInto v v := by
  have key : ∀ op : Int → Int → Res Int, eachSelf (fun a b => t.wrap <$> op a b) v = t.transformInto op v v := by
    intro op
    induction v with
    | nil => rfl
    | cons a as ih =>
      rw [eachSelf, CInt.transformInto, ih]
      cases op a a <;> rfl
  unfold CInt.sumIntoSelf CInt.subtractIntoSelf CInt.sumInto CInt.subtractInto
  rw [transformSelf_eq, transformSelf_eq, key, key]
  exact ⟨rfl, rfl⟩

/-- C170.  Elements of a floating-point type. -/
theorem C170_into_float {F : Type} [CxxFloat F] (v : List F) :
    sumIntoSelfF v = sumIntoF v v ∧ subtractIntoSelfF v = subtractIntoF v v := by
  have key : ∀ op : F → F → F, eachSelf (fun a b => .ok (op a b)) v = transformIntoF op v v := by
    intro op
    induction v with
    | nil => rfl
    | cons a as ih => rw [eachSelf, transformIntoF, ih, Res.ok_bind]
  unfold sumIntoSelfF subtractIntoSelfF sumIntoF subtractIntoF
  rw [transformSelf_eq, transformSelf_eq, key, key]
  exact ⟨rfl, rfl⟩

/-- C170.  So `sum_into(v, v)` doubles a vector unless an element overflows, and `subtract_into(v, v)` clears it. -/
theorem C170_double (v : List Int) : subtractIntoSelf v = .ok (List.replicate v.length 0) ∧
    ((∀ x ∈ v, InLong (2 * x)) → sumIntoSelf v = .ok (v.map (2 * ·))) ∧
    ((∃ x ∈ v, ¬ InLong (2 * x)) → sumIntoSelf v = .ub .signedOverflow) := by
  unfold subtractIntoSelf sumIntoSelf
  rw [transformSelf_eq, transformSelf_eq]
  induction v with
  | nil => exact ⟨rfl, fun _ => rfl, fun ⟨x, hx, _⟩ => absurd hx (by simp)⟩
  | cons a as ih =>
    obtain ⟨i1, i2, i3⟩ := ih
    have h0 : lsub a a = .ok 0 := by unfold lsub; rw [sub_self]; decide
    have h2 : ladd a a = long (2 * a) := by unfold ladd; rw [two_mul]
    refine ⟨?_, fun h => ?_, fun h => ?_⟩
    · rw [eachSelf, h0, Res.ok_bind, i1, Res.ok_bind]; rfl
    · rw [eachSelf, h2, long_ok (h a (by simp)), Res.ok_bind, i2 (fun x hx => h x (by simp [hx])), Res.ok_bind]; rfl
    · by_cases ha : InLong (2 * a)
      · obtain ⟨x, hx, hn⟩ := h
        rcases List.mem_cons.1 hx with rfl | hx
        · exact absurd ha hn
        · rw [eachSelf, h2, long_ok ha, Res.ok_bind, i3 ⟨x, hx, hn⟩]; rfl
      · rw [eachSelf, h2]
        unfold long
        rw [if_neg ha]
        rfl

/-! ### `AccumulateSk` -/

section
variable {F : Type} [CxxFloat F]

/-- C170.  On open lattices `AccumulateSk` does nothing, with one vector as with two. -/
theorem C170_sk_open_partial (l : Lattice F) (ho : l.grid.hasOpenBoundaries = true) (v : List F) (mult : F) :
    l.accumulateSkSelf v mult = .ok v ∧ l.accumulateSk id v v mult = .ok v := by
  unfold Lattice.accumulateSkSelf Lattice.accumulateSk
  rw [if_pos ho, if_pos ho]
  exact ⟨rfl, rfl⟩

end

section
variable {A : Arith ℝ} {b : Bravais (Num A)} {size : List Nat} {g : Nat} {P Q : List ℝ} {N : List Int}

/-- The vector after the first `m` momenta, each of which sees what the previous ones have added. -/
noncomputable def Spec.selfSk (n : Nat) (mult : ℝ) (x k : Nat → List ℝ) (v : List ℝ) : Nat → List ℝ
  | 0 => v
  | m + 1 => (selfSk n mult x k v m).set m
      ((selfSk n mult x k v m).getD m 0 + structureFactor n mult (selfSk n mult x k v m) x (k m))

theorem selfSk_length (n : Nat) (mult : ℝ) (x k : Nat → List ℝ) (v : List ℝ) (m : Nat) :
    (selfSk n mult x k v m).length = v.length := by
  induction m with
  | zero => rfl
  | succ m ih => rw [selfSk, List.length_set, ih]

theorem selfSk_later (n : Nat) (mult : ℝ) (x k : Nat → List ℝ) (v : List ℝ) {j : Nat} (m : Nat) (h : j < m) :
    (selfSk n mult x k v m)[j]? = (selfSk n mult x k v (j + 1))[j]? := by
  induction m with
  | zero => omega
  | succ m ih =>
    by_cases hj : j = m
    · rw [hj]
    · rw [selfSk, List.getElem?_set_ne (by omega), ih (by omega)]

theorem selfSk_eq (hA : A.IsReal) (hs : Buildable size) (hn : size.prod < 2 ^ 32) (hb : Holds b size.length g P Q N)
    (hr : Regular b size.length) {l : Lattice (Num A)} (hl : Lattice.new b size .closed = .ok l) {x : Nat → List ℝ}
    (hx : ∀ j, j < size.prod → l.getVector 0 j = .ok ((x j).map .fin) ∧ (x j).length = size.length) (v : List ℝ)
    (hv : size.prod ≤ v.length) (mult : ℝ) :
    l.accumulateSkSelf (v.map .fin) (.fin mult) = .ok ((selfSk size.prod mult x (wave size Q) v size.prod).map .fin) := by
  have hg := (new_parts hl).1
  have ho : l.grid.hasOpenBoundaries = false := by rw [hg]; rfl
  have hnum : l.grid.numsites = size.prod := by rw [hg, numsites_eq hs.1]
  unfold Lattice.accumulateSkSelf
  simp only [ho, hnum]
  rw [if_neg (by decide)]
  obtain ⟨s, h1, h2⟩ := foldRange_inv (n := size.prod) (f := fun (v : List (Num A)) i => do
      let k ← subscript l.momenta i
      let s ← l.fourier id v k
      let old ← subscript v i
      .ok (v.set i (old + .fin mult * (squareF s.1 + squareF s.2) / CxxFloat.ofNat (squareU size.prod))))
    (s := v.map .fin) (fun m s => s = (selfSk size.prod mult x (wave size Q) v m).map .fin) rfl (by
      rintro m _ hm rfl
      refine ⟨_, ?_, rfl⟩
      have hlen := selfSk_length size.prod mult x (wave size Q) v m
      rw [selfSk]
      generalize selfSk size.prod mult x (wave size Q) v m = u at hlen ⊢
      have hin : SkInput size l (id : Num A → Num A) (u.map .fin) u x := ⟨hx, fun j hj => by
        refine ⟨.fin u[j], by rw [List.getElem?_map, List.getElem?_eq_getElem (by omega)]; rfl, ?_⟩
        unfold occupation
        rw [List.getD_eq_getElem?_getD, List.getElem?_eq_getElem (by omega)]; rfl⟩
      rw [momenta_closed hA hs hb hr hl, subscript_ok (x := (wave size Q m).map .fin)
        (by rw [List.getElem?_map, List.getElem?_range hm]; rfl), Res.ok_bind, fourier_eq hA hs hl hin (wave_length m), Res.ok_bind,
        subscript_fin (by omega), Res.ok_bind]
      have h0 : 0 < size.prod := prod_pos hs.1.1
      have hsq : squareU size.prod = size.prod * size.prod := by
        unfold squareU umul
        refine Nat.mod_eq_of_lt ?_
        have : size.prod * size.prod < 2 ^ 32 * 2 ^ 32 := Nat.mul_lt_mul'' hn hn
        exact this
      have hne : ((size.prod * size.prod : Nat) : ℝ) ≠ 0 := by
        exact_mod_cast (Nat.mul_pos h0 h0).ne'
      unfold squareF
      rw [hsq, Num.ofNat_eq, Num.round_exact hA.exact, Num.fin_mul, Num.fin_mul, Num.round_exact hA.exact,
        Num.round_exact hA.exact, Num.fin_add, Num.round_exact hA.exact, Num.fin_mul, Num.round_exact hA.exact,
        Num.fin_div hne, Num.round_exact hA.exact, Num.fin_add, Num.round_exact hA.exact, normSq_eq, List.map_set]
      unfold structureFactor
      push_cast
      rw [sq])
  rw [h1, h2]

/-- C170.  What `AccumulateSk(v, v)` computes on a closed lattice: the structure factor of each momentum is that of a vector to
which the previous ones have been added. -/
theorem C170_sk_value (hA : A.IsReal) (hs : Buildable size) (hn : size.prod < 2 ^ 32) (hb : Holds b size.length g P Q N)
    (hr : Regular b size.length) (l : Lattice (Num A)) (hl : Lattice.new b size .closed = .ok l) (v : List ℝ)
    (hv : size.prod ≤ v.length) (mult : ℝ) :
    ∃ k x : Nat → List ℝ, (∀ i, i < size.prod → l.getMomentum i = .ok ((k i).map .fin) ∧ l.getVector 0 i = .ok ((x i).map .fin)) ∧
      l.accumulateSkSelf (v.map .fin) (.fin mult) = .ok ((selfSk size.prod mult x k v size.prod).map .fin) := by
  obtain ⟨m, hm⟩ := vectors_exist hA hs hb hr hl
  exact ⟨_, _, fun i hi => ⟨getMomentum_eq hA hs hb hr hl hi, hm i hi⟩,
    selfSk_eq hA hs hn hb hr hl (fun j hj => ⟨hm j hj, embed_length ..⟩) v hv mult⟩

/-- C170.  The first structure factor is right. -/
theorem C170_sk_first_partial (hA : A.IsReal) (hs : Buildable size) (hn : size.prod < 2 ^ 32) (hb : Holds b size.length g P Q N)
    (hr : Regular b size.length) (l : Lattice (Num A)) (hl : Lattice.new b size .closed = .ok l) (v : List ℝ)
    (hv : size.prod ≤ v.length) (mult : ℝ) :
    ∃ r r' : List ℝ, l.accumulateSkSelf (v.map .fin) (.fin mult) = .ok (r.map .fin) ∧
      l.accumulateSk id (v.map .fin) (v.map .fin) (.fin mult) = .ok (r'.map .fin) ∧ r.length = r'.length ∧ r[0]? = r'[0]? ∧
      (size.prod = 1 → r = r') := by
  obtain ⟨m, hm⟩ := vectors_exist hA hs hb hr hl
  have hx := fun j (hj : j < size.prod) => And.intro (hm j hj) (embed_length (d := size.length) (P := P) (image size (crd size j) (m j)))
  have h0 : 0 < size.prod := prod_pos hs.1.1
  have hin : SkInput size l (id : Num A → Num A) (v.map .fin) v _ := ⟨hx, fun j hj => by
    refine ⟨.fin v[j], by rw [List.getElem?_map, List.getElem?_eq_getElem (by omega)]; rfl, ?_⟩
    unfold occupation
    rw [List.getD_eq_getElem?_getD, List.getElem?_eq_getElem (by omega)]; rfl⟩
  have hfst : ∀ k x, (selfSk size.prod mult x k v 1)[0]? = some (v.getD 0 0 + structureFactor size.prod mult v x (k 0)) := by
    intro k x
    rw [selfSk, selfSk, List.getElem?_set_self (by omega)]
  refine ⟨_, _, selfSk_eq hA hs hn hb hr hl hx v hv mult, accumulateSk_eq hA hs hn hb hr hl hin hv mult, ?_, ?_, fun h1 => ?_⟩
  · rw [selfSk_length, List.length_append, List.length_map, List.length_range, List.length_drop]; omega
  · rw [selfSk_later _ _ _ _ _ _ h0, hfst, List.getElem?_append_left (by simpa using h0), List.getElem?_map, List.getElem?_range h0]
    rfl
  · rw [h1, selfSk, selfSk]
    cases v with
    | nil => rw [h1] at hv; simp at hv
    | cons a as => rfl

theorem transform_single (n : Nat) (hn : 0 < n) (a : ℝ) (x : Nat → List ℝ) (k : List ℝ) :
    Complex.normSq (transform n (a :: List.replicate (n - 1) 0) x k) = a ^ 2 := by
  unfold transform
  rw [Finset.sum_eq_single 0]
  · rw [Complex.normSq_mul]
    have : Complex.normSq (Complex.exp ((dot k (x 0) : ℝ) * Complex.I)) = 1 := by
      rw [Complex.normSq_eq_norm_sq, Complex.norm_exp_ofReal_mul_I, one_pow]
    rw [this, mul_one, Complex.normSq_ofReal]
    simp [occupation, sq]
  · intro j hj h0
    have : occupation (a :: List.replicate (n - 1) 0) j = 0 := by
      obtain ⟨j, rfl⟩ := Nat.exists_eq_succ_of_ne_zero h0
      have : j < n - 1 := by have := Finset.mem_range.1 hj; omega
      simp [occupation, this]
    rw [this]; simp
  · intro h; exact absurd (Finset.mem_range.2 hn) h

/-- C170 is violated: on every closed lattice of at least two sites, one particle at site 0 and a positive multiplier,
`AccumulateSk(v, v)` and `AccumulateSk(copy of v, v)` differ in the second structure factor, by a factor (1 + mult/n²)². -/
theorem C170_sk_violated (hA : A.IsReal) (hs : Buildable size) (hn : size.prod < 2 ^ 32) (hb : Holds b size.length g P Q N)
    (hr : Regular b size.length) (l : Lattice (Num A)) (hl : Lattice.new b size .closed = .ok l) (h2 : 2 ≤ size.prod) (mult : ℝ)
    (hm : 0 < mult) :
    ∃ v r r' : List ℝ, v.length = size.prod ∧ l.accumulateSkSelf (v.map .fin) (.fin mult) = .ok (r.map .fin) ∧
      l.accumulateSk id (v.map .fin) (v.map .fin) (.fin mult) = .ok (r'.map .fin) ∧
      r'[1]? = some (mult / (size.prod : ℝ) ^ 2) ∧
      r[1]? = some ((1 + mult / (size.prod : ℝ) ^ 2) ^ 2 * (mult / (size.prod : ℝ) ^ 2)) ∧ r ≠ r' := by
  obtain ⟨m, hmv⟩ := vectors_exist hA hs hb hr hl
  have hx := fun j (hj : j < size.prod) => And.intro (hmv j hj) (embed_length (d := size.length) (P := P) (image size (crd size j) (m j)))
  have h0 : 0 < size.prod := by omega
  obtain ⟨v, hv⟩ : ∃ v : List ℝ, v = 1 :: List.replicate (size.prod - 1) 0 := ⟨_, rfl⟩
  have hlen : v.length = size.prod := by rw [hv, List.length_cons, List.length_replicate]; omega
  have hin : SkInput size l (id : Num A → Num A) (v.map .fin) v _ := ⟨hx, fun j hj => by
    refine ⟨.fin v[j], by rw [List.getElem?_map, List.getElem?_eq_getElem (by omega)]; rfl, ?_⟩
    unfold occupation
    rw [List.getD_eq_getElem?_getD, List.getElem?_eq_getElem (by omega)]; rfl⟩
  have hv1 : v.getD 1 0 = 0 := by
    rw [hv, List.getD_cons_succ, List.getD_eq_getElem?_getD, List.getElem?_replicate]
    split <;> rfl
  have hpos : 0 < mult / (size.prod : ℝ) ^ 2 := by
    have : (0 : ℝ) < size.prod := by exact_mod_cast h0
    positivity
  have e1 : ∀ a : ℝ, ∀ x k, structureFactor size.prod mult (a :: List.replicate (size.prod - 1) 0) x k =
      a ^ 2 * (mult / (size.prod : ℝ) ^ 2) := by
    intro a x k
    unfold structureFactor
    rw [transform_single _ h0]
    ring
  have hr1 : ∀ x k, (selfSk size.prod mult x k v size.prod)[1]? =
      some ((1 + mult / (size.prod : ℝ) ^ 2) ^ 2 * (mult / (size.prod : ℝ) ^ 2)) := by
    intro x k
    have e : selfSk size.prod mult x k v 1 = (1 + mult / (size.prod : ℝ) ^ 2) :: List.replicate (size.prod - 1) 0 := by
      rw [selfSk, selfSk, hv, e1]; simp
    rw [selfSk_later _ _ _ _ _ _ (show 1 < size.prod by omega), selfSk, List.getElem?_set_self (by rw [selfSk_length]; omega), e, e1]
    have : ((1 + mult / (size.prod : ℝ) ^ 2) :: List.replicate (size.prod - 1) 0).getD 1 0 = 0 := by
      rw [List.getD_cons_succ, List.getD_eq_getElem?_getD, List.getElem?_replicate]
      split <;> rfl
    rw [this, zero_add]
  refine ⟨v, _, _, hlen, selfSk_eq hA hs hn hb hr hl hx v hlen.ge mult, accumulateSk_eq hA hs hn hb hr hl hin hlen.ge mult, ?_, hr1 _ _, ?_⟩
  · rw [List.getElem?_append_left (by simp; omega), List.getElem?_map, List.getElem?_range (by omega)]
    simp only [Option.map_some, Option.some.injEq]
    rw [hv1, hv, e1]; ring
  · intro h
    have h' := congrArg (·[1]?) h
    rw [hr1, List.getElem?_append_left (by simp; omega), List.getElem?_map, List.getElem?_range (by omega)] at h'
    simp only [Option.map_some, Option.some.injEq] at h'
    rw [hv1, hv, e1] at h'
    generalize mult / (size.prod : ℝ) ^ 2 = q at *
    nlinarith [mul_pos hpos hpos, mul_pos hpos (mul_pos hpos hpos)]

/-- The hypotheses of C170 can be met: the chain of two sites. -/
example (A : Arith ℝ) (hA : A.IsReal) : ∃ b : Bravais (Num A), ∃ g P Q N l, Holds b 1 g P Q N ∧ Regular b 1 ∧ Buildable [2] ∧
    Lattice.new b [2] .closed = .ok l ∧ 2 ≤ [2].prod ∧ [2].prod < 2 ^ 32 := by
  obtain ⟨b, hb, hr⟩ := chain_regular (F := Num A)
  have hs : Buildable [2] := ⟨⟨by decide, by decide⟩, by decide⟩
  obtain ⟨l, hl⟩ := new_isOk hs hr .closed (by decide)
  obtain ⟨b', hb', hh⟩ := chain_holds hA
  rw [hb, Res.ok.injEq] at hb'
  subst hb'
  exact ⟨b, _, _, _, _, l, hh, hr, hs, hl, by decide, by decide⟩

end
end Bwsl
