import Verif.Model.ObservableGroup
import Verif.Lemmas.StdMap
import Verif.Spec.Group
import Verif.Props.AccumCount
import Verif.Props.AccumSum
import Verif.Props.RationalText

/-! Properties C56–C58: groups of observables. -/

namespace Bwsl
open Spec

set_option linter.unusedSectionVars false

section
variable {F ι : Type} [CxxFloat F] [LinearOrder ι]

namespace ObsGroup

/-- One call of a history, without BWSL_ACCUMULATORS_CHECKS; exceptions of `Measure` and `PrintAndReset` are
caught. -/
def step (f : Format F ι) (g : ObsGroup F ι) (fs : Files) : GroupOp ι F → Res (ObsGroup F ι × Files)
  | .add k => .ok (g.addObservable k, fs)
  | .measure k x =>
    match (g.measure false k x).res with
    | .ok _ => .ok ((g.measure false k x).state, fs)
    | .throws _ => .ok ((g.measure false k x).state, fs)
    | .ub u => .ub u
    | .diverges => .diverges
  | .headers => do
    let fs ← g.printHeaders f fs
    .ok (g, fs)
  | .print p =>
    match (g.printAndReset f p fs).res with
    | .ok _ => .ok (g.printAndReset f p fs).state
    | .throws _ => .ok (g.printAndReset f p fs).state
    | .ub u => .ub u
    | .diverges => .diverges

/-- A history of calls. -/
def run (f : Format F ι) (g : ObsGroup F ι) (fs : Files) : List (GroupOp ι F) → Res (ObsGroup F ι × Files)
  | [] => .ok (g, fs)
  | op :: ops => do
    let (g, fs) ← g.step f fs op
    run f g fs ops

end ObsGroup

theorem ObsGroup.run_append (f : Format F ι) (g : ObsGroup F ι) (fs : Files) (h1 h2 : List (GroupOp ι F)) :
    g.run f fs (h1 ++ h2) = (g.run f fs h1 >>= fun r => r.1.run f r.2 h2) := by
  induction h1 generalizing g fs with
  | nil => rfl
  | cons op h1 ih =>
    simp only [List.cons_append, ObsGroup.run]
    cases g.step f fs op with
    | ok r => simp only [Res.ok_bind, ih]
    | throws e => rfl
    | ub u => rfl
    | diverges => rfl

/-- What the group holds after a history. -/
structure GroupInv (name : String) (g : ObsGroup F ι) (h : List (GroupOp ι F)) : Prop where
  file : g.outputFile = name
  sorted : StdMap.Sorted g.accumulator
  values : ∀ k, StdMap.find k g.accumulator =
    if known k h then some ((sincePrint k h).foldl Kahan.addCore Kahan.new) else none

theorem known_snoc (k : ι) (h : List (GroupOp ι X)) (op : GroupOp ι X) :
    known k (h ++ [op]) = (watch k (known k h, sincePrint k h) op).1 := by
  unfold known sincePrint; rw [List.foldl_append]; rfl

theorem sincePrint_snoc (k : ι) (h : List (GroupOp ι X)) (op : GroupOp ι X) :
    sincePrint k (h ++ [op]) = (watch k (known k h, sincePrint k h) op).2 := by
  unfold known sincePrint; rw [List.foldl_append]; rfl

theorem sincePrint_unknown (k : ι) (h : List (GroupOp ι X)) (hk : known k h = false) : sincePrint k h = [] := by
  induction h using List.reverseRecOn with
  | nil => rfl
  | append_singleton h op ih =>
    rw [known_snoc] at hk
    rw [sincePrint_snoc]
    cases op with
    | add j =>
      simp only [watch, Bool.or_eq_false_iff] at hk ⊢
      exact ih hk.1
    | measure j x =>
      simp only [watch] at hk ⊢
      rw [ih hk, hk]; rfl
    | headers => exact ih hk
    | print p =>
      simp only [watch] at hk ⊢
      split
      · rfl
      · rename_i hp
        rw [if_neg hp] at hk
        exact ih hk

/-- Reading the automaton: a key is known once it has been added. -/
theorem known_iff (k : ι) (h : List (GroupOp ι X)) : known k h = true ↔ .add k ∈ h := by
  induction h using List.reverseRecOn with
  | nil => simp [known]
  | append_singleton h op ih =>
    rw [known_snoc, List.mem_append, ← ih]
    cases op with
    | add j =>
      simp only [watch, Bool.or_eq_true, beq_iff_eq, List.mem_singleton, GroupOp.add.injEq]
      rw [@eq_comm _ j k]
    | measure j x => simp [watch]
    | headers => simp [watch]
    | print p => by_cases hp : printable p = true <;> simp [watch, hp]

/-- Reading the automaton: after a print that follows the addition of the key, the values are those of the
measurements of that key, in order. -/
theorem sincePrint_after (k : ι) (h w : List (GroupOp ι X)) (p : Nat) (hp : p < 2 ^ 31)
    (hk : known k h = true) (hw : ∀ op ∈ w, ∀ q, op ≠ .print q) :
    sincePrint k (h ++ .print p :: w) =
      w.filterMap (fun | .measure j x => if j = k then some x else none | _ => none) := by
  have key : ∀ (w : List (GroupOp ι X)) (l : List X), (∀ op ∈ w, ∀ q, op ≠ .print q) →
      w.foldl (watch k) (true, l) =
        (true, l ++ w.filterMap (fun | .measure j x => if j = k then some x else none | _ => none)) := by
    intro w
    induction w with
    | nil => intro l _; simp
    | cons op w ih =>
      intro l hw
      have ih' := fun l => ih l (fun o ho => hw o (List.mem_cons_of_mem _ ho))
      rw [List.foldl_cons]
      cases op with
      | add j => simp [watch, ih']
      | measure j x =>
        by_cases hj : j = k
        · simp [watch, ih', hj]
        · simp [watch, ih', hj]
      | headers => simp [watch, ih']
      | print q => exact absurd rfl (hw _ List.mem_cons_self q)
  unfold sincePrint
  rw [List.foldl_append, List.foldl_cons]
  have : watch k (h.foldl (watch k) (false, [])) (.print p) = (true, []) := by
    unfold known at hk
    have hq : printable p = true := decide_eq_true hp
    simp [watch, hk, hq]
  rw [this, key w [] hw]
  simp

/-- One call keeps the invariant and affects only the file of the group. -/
theorem group_step (f : Format F ι) (name : String) (g : ObsGroup F ι) (fs : Files) (h : List (GroupOp ι F))
    (hi : GroupInv name g h) (op : GroupOp ι F) (g' : ObsGroup F ι) (fs' : Files)
    (e : g.step f fs op = .ok (g', fs')) :
    GroupInv name g' (h ++ [op]) ∧ (∀ n, n ≠ name → fs' n = fs n) ∧
      (op ≠ .headers → fs name <+: fs' name) := by
  cases op with
  | add k =>
    simp only [ObsGroup.step, Res.ok.injEq, Prod.mk.injEq] at e
    obtain ⟨rfl, rfl⟩ := e
    refine ⟨⟨hi.file, StdMap.sorted_tryEmplace hi.sorted _ _, fun j => ?_⟩, fun _ _ => rfl, fun _ => List.prefix_rfl⟩
    show StdMap.find j (StdMap.tryEmplace k Kahan.new g.accumulator) = _
    rw [StdMap.find_tryEmplace hi.sorted, hi.values, hi.values, known_snoc, sincePrint_snoc]
    by_cases hj : j = k
    · subst hj
      simp only [watch, beq_self_eq_true, Bool.or_true, if_true]
      cases hk : known j h with
      | true => simp
      | false => rw [sincePrint_unknown j h hk]; simp
    · have : (k == j) = false := by simpa using Ne.symm hj
      simp only [watch, this, Bool.or_false, if_neg hj]
  | measure k x =>
    simp only [ObsGroup.step] at e
    unfold ObsGroup.measure at e
    rw [hi.values] at e
    cases hk : known k h with
    | false =>
      simp only [hk, Bool.false_eq_true, if_false, Res.ok.injEq, Prod.mk.injEq] at e
      obtain ⟨rfl, rfl⟩ := e
      refine ⟨⟨hi.file, hi.sorted, fun j => ?_⟩, fun _ _ => rfl, fun _ => List.prefix_rfl⟩
      rw [hi.values, known_snoc, sincePrint_snoc]
      by_cases hj : k = j
      · subst hj; simp [watch, hk]
      · simp [watch, hj]
    | true =>
      simp only [hk, if_true, Kahan.add, guarded, Bool.false_eq_true, false_and, if_false, Res.ok.injEq,
        Prod.mk.injEq] at e
      obtain ⟨rfl, rfl⟩ := e
      refine ⟨⟨hi.file, ?_, fun j => ?_⟩, fun _ _ => rfl, fun _ => List.prefix_rfl⟩
      · show List.Pairwise _ (StdMap.keys (StdMap.modify _ _ _))
        rw [StdMap.keys_modify]; exact hi.sorted
      · show StdMap.find j (StdMap.modify _ _ _) = _
        rw [StdMap.find_modify, hi.values, hi.values, known_snoc, sincePrint_snoc]
        by_cases hj : j = k
        · subst hj; simp [watch, hk]
        · have : (k == j) = false := by simpa using Ne.symm hj
          simp [watch, this, hj]
  | headers =>
    simp only [ObsGroup.step, ObsGroup.printHeaders, Res.bind_eq_ok, Res.ok.injEq, Prod.mk.injEq] at e
    obtain ⟨fs1, ⟨t, _, rfl⟩, rfl, rfl⟩ := e
    refine ⟨⟨hi.file, hi.sorted, fun j => ?_⟩, fun n hn => ?_, fun h => absurd rfl h⟩
    · rw [hi.values, known_snoc, sincePrint_snoc]; rfl
    · unfold Files.write; rw [hi.file, if_neg hn]
  | print p =>
    simp only [ObsGroup.step, ObsGroup.printAndReset, ObsGroup.rowText] at e
    cases hm : g.accumulator with
    | nil => simp [hm] at e
    | cons q m =>
      rw [hm] at e
      by_cases hp : 2147483647 < p
      · simp only [if_pos hp, Res.ok.injEq, Prod.mk.injEq] at e
        obtain ⟨rfl, rfl⟩ := e
        have hq : printable p = false := by unfold printable; rw [decide_eq_false_iff_not]; omega
        refine ⟨⟨hi.file, hi.sorted, fun j => ?_⟩, fun n hn => rfl, fun _ => List.prefix_rfl⟩
        rw [hi.values, known_snoc, sincePrint_snoc]
        simp only [watch, hq]
        rfl
      · simp only [if_neg hp, Res.ok.injEq, Prod.mk.injEq] at e
        rw [← hm] at e
        obtain ⟨rfl, rfl⟩ := e
        have hq : printable p = true := by unfold printable; rw [decide_eq_true_iff]; omega
        refine ⟨⟨hi.file, ?_, fun j => ?_⟩, fun n hn => ?_, fun _ => ?_⟩
        · show List.Pairwise _ (StdMap.keys (List.map _ _))
          rw [StdMap.keys_mapValues]; exact hi.sorted
        · show StdMap.find j (List.map _ _) = _
          rw [StdMap.find_mapValues, hi.values, known_snoc, sincePrint_snoc]
          simp only [watch, hq, if_true]
          cases known j h <;> rfl
        · unfold Files.append; rw [hi.file, if_neg hn]
        · unfold Files.append; rw [hi.file, if_pos rfl]; exact List.prefix_append _ _

theorem group_run (f : Format F ι) (name : String) (h2 : List (GroupOp ι F)) :
    ∀ (g : ObsGroup F ι) (fs : Files) (h : List (GroupOp ι F)), GroupInv name g h →
    ∀ g' fs', g.run f fs h2 = .ok (g', fs') →
      GroupInv name g' (h ++ h2) ∧ (∀ n, n ≠ name → fs' n = fs n) ∧
      ((∀ op ∈ h2, op ≠ .headers) → fs name <+: fs' name) := by
  induction h2 with
  | nil =>
    intro g fs h hi g' fs' e
    simp only [ObsGroup.run, Res.ok.injEq, Prod.mk.injEq] at e
    obtain ⟨rfl, rfl⟩ := e
    rw [List.append_nil]
    exact ⟨hi, fun _ _ => rfl, fun _ => List.prefix_rfl⟩
  | cons op h2 ih =>
    intro g fs h hi g' fs' e
    simp only [ObsGroup.run, Res.bind_eq_ok] at e
    obtain ⟨⟨g1, fs1⟩, e1, e2⟩ := e
    obtain ⟨i1, n1, p1⟩ := group_step f name g fs h hi op g1 fs1 e1
    obtain ⟨i2, n2, p2⟩ := ih g1 fs1 _ i1 g' fs' e2
    refine ⟨by simpa using i2, fun n hn => (n2 n hn).trans (n1 n hn), fun hh => ?_⟩
    exact (p1 (hh op List.mem_cons_self)).trans (p2 (fun o ho => hh o (List.mem_cons_of_mem _ ho)))

theorem groupInv_new (name : String) : GroupInv name (ObsGroup.new name : ObsGroup F ι) [] :=
  ⟨rfl, StdMap.sorted_nil, fun _ => rfl⟩

theorem GroupInv.map {name : String} {g : ObsGroup F ι} {h : List (GroupOp ι F)} (hi : GroupInv name g h) :
    g.accumulator = (StdMap.keys g.accumulator).map
      (fun k => (k, (sincePrint k h).foldl Kahan.addCore Kahan.new)) := by
  refine StdMap.eq_map_keys hi.sorted _ (fun k hk => ?_)
  rw [StdMap.mem_keys, hi.values] at hk
  rw [hi.values]
  cases hh : known k h with
  | true => simp
  | false => rw [hh] at hk; simp at hk

theorem flatMap_sep (xs : List (List Char)) (x : List Char) :
    x ++ xs.flatMap (fun y => ',' :: y) = [','].intercalate (x :: xs) := by
  induction xs generalizing x with
  | nil => simp
  | cons y ys ih =>
    rw [List.intercalate_cons_cons, ← ih y]
    simp

theorem GroupInv.keys {name : String} {g : ObsGroup F ι} {h : List (GroupOp ι F)} (hi : GroupInv name g h)
    (j : ι) : j ∈ StdMap.keys g.accumulator ↔ .add j ∈ h := by
  rw [StdMap.mem_keys, hi.values, ← known_iff]
  cases known j h <;> simp

theorem GroupInv.row {name : String} {g : ObsGroup F ι} {h : List (GroupOp ι F)} (hi : GroupInv name g h)
    (f : Format F ι) (p : Nat) (hp : p < 2 ^ 31) {k : ι} {ks : List ι} (hks : StdMap.keys g.accumulator = k :: ks) :
    g.rowText f p = .ok ([','].intercalate
        ((k :: ks).map (fun j => f.sci ((sincePrint j h).foldl Kahan.addCore Kahan.new).mean p) ++
          [printNat ((sincePrint k h).length % 2 ^ 64)]) ++ ['\n']) := by
  have hm := hi.map
  unfold ObsGroup.rowText
  rw [hm, hks]
  simp only [List.map_cons]
  rw [if_neg (by omega), Res.ok.injEq, List.cons_append, ← flatMap_sep]
  have hc : ((sincePrint k h).foldl Kahan.addCore (Kahan.new : Kahan F)).getCount =
      (sincePrint k h).length % 2 ^ 64 := by
    have := foldl_count (add := Kahan.addCore (F := F)) (count := Kahan.getCount) (fun _ _ => rfl)
      (sincePrint k h) Kahan.new (Nat.zero_lt_succ _)
    simpa [Kahan.getCount, Kahan.new] using this
  rw [hc]
  simp [List.flatMap_map]

/-- C56.  The row written by `PrintAndReset` after any history of calls: in increasing order of the keys added
so far, the mean of the values measured for each key since the previous print, then the number of values
of the first key (modulo 2^64).  The row is appended to the file of the group and no other file is
touched.  The precision fits `int`. -/
theorem C56_row (f : Format F ι) (name : String) (fs : Files) (h : List (GroupOp ι F)) (p : Nat)
    (hp : p < 2 ^ 31) (g : ObsGroup F ι) (fs1 : Files) (e : (ObsGroup.new name).run f fs h = .ok (g, fs1))
    (h0 : g.accumulator ≠ []) :
    ∃ (k : ι) (ks : List ι) (g' : ObsGroup F ι) (fs2 : Files),
      (k :: ks).Pairwise (· < ·) ∧ (∀ j, j ∈ k :: ks ↔ .add j ∈ h) ∧
      (ObsGroup.new name).run f fs (h ++ [.print p]) = .ok (g', fs2) ∧
      (∀ n, n ≠ name → fs2 n = fs1 n) ∧
      fs2 name = fs1 name ++ [','].intercalate
        ((k :: ks).map (fun j => f.sci ((sincePrint j h).foldl Kahan.addCore Kahan.new).mean p) ++
          [printNat ((sincePrint k h).length % 2 ^ 64)]) ++ ['\n'] := by
  obtain ⟨hi, _, _⟩ := group_run f name h _ fs [] (groupInv_new name) g fs1 e
  rw [List.nil_append] at hi
  have hm := hi.map
  cases hks : StdMap.keys g.accumulator with
  | nil => rw [hks] at hm; exact absurd hm h0
  | cons k ks =>
    have hrow := hi.row f p hp hks
    refine ⟨k, ks, ⟨g.outputFile, g.accumulator.map (fun q => (q.1, q.2.reset))⟩,
      fs1.append g.outputFile ([','].intercalate
        ((k :: ks).map (fun j => f.sci ((sincePrint j h).foldl Kahan.addCore Kahan.new).mean p) ++
          [printNat ((sincePrint k h).length % 2 ^ 64)]) ++ ['\n']), ?_, ?_, ?_, ?_, ?_⟩
    · have := hi.sorted; unfold StdMap.Sorted at this; rwa [hks] at this
    · intro j; rw [← hks]; exact hi.keys j
    · rw [ObsGroup.run_append, e, Res.ok_bind]
      simp only [ObsGroup.run, ObsGroup.step, ObsGroup.printAndReset, hrow, Res.ok_bind]
    · intro n hn
      unfold Files.append; rw [hi.file, if_neg hn]
    · unfold Files.append; rw [hi.file, if_pos rfl, List.append_assoc]

/-- C56.  A precision that does not fit `int` makes `PrintAndReset` throw; nothing is written and no accumulator is reset. -/
theorem C56_precision (f : Format F ι) (g : ObsGroup F ι) (fs : Files) (p : Nat) (hp : 2 ^ 31 ≤ p)
    (h0 : g.accumulator ≠ []) : g.printAndReset f p fs = ⟨(g, fs), .throws .formatError⟩ := by
  unfold ObsGroup.printAndReset ObsGroup.rowText
  cases hm : g.accumulator with
  | nil => exact absurd hm h0
  | cons q m => simp only; rw [if_pos (by omega)]

/-- C56.  Text written earlier is never changed, by any calls but `PrintHeaders` (which starts the file
over). -/
theorem C56_append_only (f : Format F ι) (name : String) (fs : Files) (h h2 : List (GroupOp ι F))
    (g g' : ObsGroup F ι) (fs1 fs2 : Files) (e : (ObsGroup.new name).run f fs h = .ok (g, fs1))
    (e2 : g.run f fs1 h2 = .ok (g', fs2)) (hh : ∀ op ∈ h2, op ≠ .headers) :
    fs1 name <+: fs2 name ∧ ∀ n, n ≠ name → fs2 n = fs1 n := by
  obtain ⟨hi, _, _⟩ := group_run f name h _ fs [] (groupInv_new name) g fs1 e
  obtain ⟨_, h3, h4⟩ := group_run f name h2 g fs1 _ hi g' fs2 e2
  exact ⟨h4 hh, h3⟩

/-- The constructor with indices adds them one by one. -/
theorem C56_constructor (name : String) (ks : List ι) :
    (ObsGroup.newWith name ks : ObsGroup F ι) = ks.foldl ObsGroup.addObservable (ObsGroup.new name) := by
  have : ∀ (ks : List ι) (m : StdMap ι (Kahan F)),
      (⟨name, ks.foldl (fun m i => m.tryEmplace i Kahan.new) m⟩ : ObsGroup F ι) =
        ks.foldl ObsGroup.addObservable ⟨name, m⟩ := by
    intro ks
    induction ks with
    | nil => intro m; rfl
    | cons k ks ih => intro m; exact ih _
  exact this ks []

/-- C57.  `Measure` on a key that was never added throws and changes nothing. -/
theorem C57_unknown (f : Format F ι) (name : String) (fs : Files) (h : List (GroupOp ι F)) (checks : Bool)
    (g : ObsGroup F ι) (fs1 : Files) (e : (ObsGroup.new name).run f fs h = .ok (g, fs1)) (k : ι) (x : F)
    (hk : ∀ op ∈ h, op ≠ .add k) :
    g.measure checks k x = ⟨g, .throws .outOfRange⟩ := by
  obtain ⟨hi, _, _⟩ := group_run f name h _ fs [] (groupInv_new name) g fs1 e
  rw [List.nil_append] at hi
  have hf : known k h = false := by
    rw [← Bool.not_eq_true, known_iff]
    exact fun hm => hk _ hm rfl
  unfold ObsGroup.measure
  rw [hi.values, hf]
  simp

/-- C57.  `AddObservable` on a key that was added before changes nothing. -/
theorem C57_known (f : Format F ι) (name : String) (fs : Files) (h : List (GroupOp ι F))
    (g : ObsGroup F ι) (fs1 : Files) (e : (ObsGroup.new name).run f fs h = .ok (g, fs1)) (k : ι)
    (hk : .add k ∈ h) : g.addObservable k = g := by
  obtain ⟨hi, _, _⟩ := group_run f name h _ fs [] (groupInv_new name) g fs1 e
  rw [List.nil_append] at hi
  have hf : known k h = true := (known_iff k h).2 hk
  unfold ObsGroup.addObservable
  rw [StdMap.tryEmplace_known hi.sorted]
  rw [StdMap.mem_keys, hi.values, hf]; simp

/-- C58.  The header line lists the keys in increasing order, then `Count`. -/
theorem C58_header (f : Format F ι) (g : ObsGroup F ι) (h0 : g.accumulator ≠ []) :
    g.headerText f = .ok ([','].intercalate
      ((StdMap.keys g.accumulator).map f.key ++ ["Count".toList]) ++ ['\n']) := by
  unfold ObsGroup.headerText
  cases hm : g.accumulator with
  | nil => exact absurd hm h0
  | cons q m =>
    obtain ⟨k, a⟩ := q
    simp only [StdMap.keys, List.map_cons, Res.ok.injEq]
    rw [List.cons_append, ← flatMap_sep]
    simp [List.flatMap_map, Function.comp_def]

/-- C58.  Without new observables, the columns of a later row are as many as those of the header, and in the
order of the same keys; `fmt` is assumed not to put commas into keys and numbers. -/
theorem C58_columns (f : Format F ι) (hkey : ∀ k, ',' ∉ f.key k) (hsci : ∀ x p, ',' ∉ f.sci x p)
    (name : String) (fs : Files) (h h2 : List (GroupOp ι F))
    (g g' : ObsGroup F ι) (fs1 fs2 : Files) (e : (ObsGroup.new name).run f fs h = .ok (g, fs1))
    (e2 : g.run f fs1 h2 = .ok (g', fs2)) (hadd : ∀ k, .add k ∈ h2 → .add k ∈ h) (h0 : g.accumulator ≠ [])
    (p : Nat) (hp : p < 2 ^ 31) :
    ∃ (ks : List ι) (head row : List Char),
      g.headerText f = .ok (head ++ ['\n']) ∧ g'.rowText f p = .ok (row ++ ['\n']) ∧
      columns head = ks.map f.key ++ ["Count".toList] ∧
      ∃ count, columns row =
        ks.map (fun k => f.sci ((sincePrint k (h ++ h2)).foldl Kahan.addCore Kahan.new).mean p) ++ [count] := by
  obtain ⟨hi, _, _⟩ := group_run f name h _ fs [] (groupInv_new name) g fs1 e
  obtain ⟨hi2, _, _⟩ := group_run f name h2 g fs1 _ hi g' fs2 e2
  rw [List.nil_append] at hi hi2
  have hkeys : StdMap.keys g'.accumulator = StdMap.keys g.accumulator := by
    refine StdMap.sorted_ext hi2.sorted hi.sorted (fun k => ?_)
    rw [hi2.keys, hi.keys, List.mem_append]
    exact ⟨fun o => o.elim id (hadd k), Or.inl⟩
  have hm := hi.map
  cases hks : StdMap.keys g.accumulator with
  | nil => rw [hks] at hm; exact absurd hm h0
  | cons k ks =>
    refine ⟨k :: ks, [','].intercalate ((k :: ks).map f.key ++ ["Count".toList]), _, ?_,
      hi2.row f p hp (hkeys.trans hks), ?_, printNat ((sincePrint k (h ++ h2)).length % 2 ^ 64), ?_⟩
    · rw [C58_header f g h0, hks]
    · refine List.splitOn_intercalate ',' ?_ (by simp)
      intro l hl
      rcases List.mem_append.1 hl with hl | hl
      · obtain ⟨j, _, rfl⟩ := List.mem_map.1 hl; exact hkey j
      · rw [List.mem_singleton.1 hl]; decide
    · refine List.splitOn_intercalate ',' ?_ (by simp)
      intro l hl
      rcases List.mem_append.1 hl with hl | hl
      · obtain ⟨j, _, rfl⟩ := List.mem_map.1 hl; exact hsci _ p
      · rw [List.mem_singleton.1 hl]
        exact fun hc => absurd ((printNat_spec _).2.1 _ hc) (by decide)

/-- C58.  Printing a group without observables is undefined. -/
theorem C58_empty (f : Format F ι) (g : ObsGroup F ι) (fs : Files) (p : Nat) (h0 : g.accumulator = []) :
    g.printHeaders f fs = .ub .outOfBounds ∧ (g.printAndReset f p fs).res = .ub .outOfBounds := by
  unfold ObsGroup.printHeaders ObsGroup.printAndReset ObsGroup.headerText ObsGroup.rowText
  rw [h0]
  exact ⟨rfl, rfl⟩

end

section
variable {K ι : Type} [Field K] [LinearOrder K] [IsStrictOrderedRing K] [LinearOrder ι] {A : Arith K}

/-- The same calls, with measured values converted by `f`. -/
def Spec.GroupOp.mapValue (f : X → Y) : GroupOp ι X → GroupOp ι Y
  | .add k => .add k
  | .measure k x => .measure k (f x)
  | .headers => .headers
  | .print p => .print p

/-- C56.  In exact arithmetic the mean in a row is the arithmetic mean of the values measured since the previous
print, and NaN if there are none. -/
theorem C56_mean (hA : A.IsExact) (h : List (GroupOp ι K)) (hn : h.length < 2 ^ 64) (k : ι) :
    ((sincePrint k (h.map (GroupOp.mapValue (Num.fin (A := A))))).foldl Kahan.addCore Kahan.new).mean =
      if sincePrint k h = [] then .nan else .fin (avg (sincePrint k h)) := by
  have conv : ∀ (h : List (GroupOp ι K)) (s : Bool × List K),
      (h.map (GroupOp.mapValue (Num.fin (A := A)))).foldl (watch k) (s.1, s.2.map .fin) =
        ((h.foldl (watch k) s).1, (h.foldl (watch k) s).2.map .fin) := by
    intro h
    induction h with
    | nil => intro s; rfl
    | cons op h ih =>
      intro s
      rw [List.map_cons, List.foldl_cons, List.foldl_cons, ← ih]
      congr 1
      cases op with
      | add j => rfl
      | measure j x =>
        simp only [GroupOp.mapValue, watch]
        split <;> simp
      | headers => rfl
      | print p =>
        simp only [GroupOp.mapValue, watch]
        split <;> rfl
  have len : ∀ (h : List (GroupOp ι K)) (s : Bool × List K),
      (h.foldl (watch k) s).2.length ≤ s.2.length + h.length := by
    intro h
    induction h with
    | nil => intro s; exact Nat.le_refl _
    | cons op h ih =>
      intro s
      rw [List.foldl_cons, List.length_cons]
      refine (ih _).trans ?_
      cases op with
      | add j => simp only [watch]; omega
      | measure j x =>
        simp only [watch]
        split
        · simp; omega
        · omega
      | headers => simp only [watch]; omega
      | print p =>
        simp only [watch]
        split
        · simp only [List.length_nil]; omega
        · omega
  have e := conv h (false, [])
  have l := len h (false, [])
  unfold sincePrint
  rw [show (false, ([] : List (Num A))) = (false, ([] : List K).map .fin) from rfl, e]
  simp only
  split
  · next h0 =>
    rw [h0]
    show Num.div _ _ = _
    simp only [List.map_nil, List.foldl_nil, Kahan.new, Num.ofNat_eq, Nat.cast_zero, Num.zero_eq, Num.round_exact hA]
    simp [Num.div]
  · next h0 =>
    refine (C36_mean_exact hA _ h0 ?_).1
    simp only [List.length_nil, Nat.zero_add] at l
    exact Nat.lt_of_le_of_lt l hn

example : sincePrint 2 [GroupOp.add 1, .add 2, .measure 2 10, .print 3, .measure 2 (20 : Nat), .measure 1 7, .measure 2 40]
    = [20, 40] := by decide

/-- The hypotheses of `C56_row` and `C58_columns` are met by a group with two observables. -/
example (f : Format (Num A) Nat) (fs : Files) : ∃ g fs1, (ObsGroup.new "out").run f fs
    [.add 2, .add 1, .headers, .measure 2 (.fin 1)] = .ok (g, fs1) ∧ g.accumulator ≠ [] := by
  refine ⟨_, _, rfl, ?_⟩
  exact List.cons_ne_nil _ _

end
end Bwsl
