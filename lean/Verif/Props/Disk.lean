import Verif.Model.Disk
import Verif.Props.ObservableGroup

/-! Property C118: files that do not exist or cannot be opened for writing. -/

namespace Bwsl
open Spec

set_option linter.unusedSectionVars false

namespace Spec

/-- What a reader of the files sees, files that do not exist being empty. -/
def Disk.view (d : Disk) : Files := fun n => (d.contents n).getD []

/-- The two disks hold the same files, except possibly `name`, and the same files can be written. -/
def Disk.SameBut (name : String) (d d' : Disk) : Prop :=
  (∀ n, n ≠ name → d'.contents n = d.contents n) ∧ d'.writable = d.writable

/-- The number of measurements that a group holds for a key. -/
def heldCount {F ι : Type} [LinearOrder ι] (g : ObsGroup F ι) (k : ι) : Option Nat :=
  (g.accumulator.find k).map (fun a => a.count)

end Spec

theorem disk_write_ok {d : Disk} {name : String} (h : d.writable name = true) (t : List Char) :
    (d.write name t).contents name = some t ∧ Disk.SameBut name d (d.write name t) := by
  unfold Disk.write
  rw [if_pos h]
  exact ⟨if_pos rfl, fun n hn => if_neg hn, rfl⟩

theorem disk_append_ok {d : Disk} {name : String} (h : d.writable name = true) (t : List Char) :
    (d.append name t).contents name = some (Disk.view d name ++ t) ∧ Disk.SameBut name d (d.append name t) := by
  unfold Disk.append
  rw [if_pos h]
  exact ⟨if_pos rfl, fun n hn => if_neg hn, rfl⟩

theorem disk_write_fail {d : Disk} {name : String} (h : d.writable name = false) (t : List Char) : d.write name t = d := by
  unfold Disk.write; rw [h]; rfl

theorem disk_append_fail {d : Disk} {name : String} (h : d.writable name = false) (t : List Char) :
    d.append name t = d := by
  unfold Disk.append; rw [h]; rfl

theorem view_write {d : Disk} {name : String} (h : d.writable name = true) (t : List Char) :
    Disk.view (d.write name t) = (Disk.view d).write name t := by
  funext n
  unfold Disk.view Disk.write Files.write
  rw [if_pos h]
  by_cases hn : n = name
  · simp [hn]
  · simp [hn]

theorem view_append {d : Disk} {name : String} (h : d.writable name = true) (t : List Char) :
    Disk.view (d.append name t) = (Disk.view d).append name t := by
  funext n
  unfold Disk.view Disk.append Files.append
  rw [if_pos h]
  by_cases hn : n = name
  · simp [hn]
  · simp [hn]

section
variable {F ι : Type} [CxxFloat F] [LinearOrder ι]

/-- C118.  `PrintHeaders` on a file that can be written: afterwards the file exists and holds the header, and no other
file is touched.  Missing: files that cannot be opened, for which it is false. -/
theorem C118_headers_partial (f : Format F ι) (g : ObsGroup F ι) (d : Disk) (h0 : g.accumulator ≠ [])
    (h : d.writable g.outputFile = true) :
    ∃ t, g.headerText f = .ok t ∧ (g.printHeadersTo f d).res = .ok () ∧
      (g.printHeadersTo f d).state.contents g.outputFile = some t ∧
      Disk.SameBut g.outputFile d (g.printHeadersTo f d).state := by
  unfold ObsGroup.printHeadersTo
  cases hm : g.accumulator with
  | nil => exact absurd hm h0
  | cons p m =>
    have : g.headerText f =
        .ok (f.key p.1 ++ m.flatMap (fun p => ',' :: f.key p.1) ++ ",Count".toList ++ "\n".toList) := by
      unfold ObsGroup.headerText; rw [hm]
    rw [this]
    exact ⟨_, rfl, rfl, disk_write_ok h _⟩

/-- C118.  `PrintAndReset` on a file that can be written: the row is at the end of the file, which is created if
there was none, no other file is touched, and the group is reset.  Missing: files that cannot be opened, for which it
is false. -/
theorem C118_row_partial (f : Format F ι) (g : ObsGroup F ι) (p : Nat) (d : Disk) (h0 : g.accumulator ≠ [])
    (hp : p < 2 ^ 31) (h : d.writable g.outputFile = true) :
    ∃ t, g.rowText f p = .ok t ∧ (g.printAndResetTo f p d).res = .ok () ∧
      (g.printAndResetTo f p d).state.2.contents g.outputFile = some (Disk.view d g.outputFile ++ t) ∧
      Disk.SameBut g.outputFile d (g.printAndResetTo f p d).state.2 ∧
      (g.printAndResetTo f p d).state.1 = (g.printAndReset f p (Disk.view d)).state.1 := by
  cases hm : g.accumulator with
  | nil => exact absurd hm h0
  | cons q m =>
    have : g.rowText f p = .ok (f.sci q.2.mean p ++ m.flatMap (fun p' => ',' :: f.sci p'.2.mean p) ++
      ',' :: printNat q.2.getCount ++ "\n".toList) := by
      unfold ObsGroup.rowText; rw [hm]; exact if_neg (by omega)
    unfold ObsGroup.printAndResetTo ObsGroup.printAndReset
    rw [this]
    obtain ⟨h1, h2⟩ := disk_append_ok h (f.sci q.2.mean p ++ m.flatMap (fun p' => ',' :: f.sci p'.2.mean p) ++
      ',' :: printNat q.2.getCount ++ "\n".toList)
    exact ⟨_, rfl, rfl, h1, h2, rfl⟩

/-- C118 is violated: if the file cannot be opened, `PrintHeaders` returns normally and writes nothing. -/
theorem C118_headers_violated (f : Format F ι) (g : ObsGroup F ι) (d : Disk) (h0 : g.accumulator ≠ [])
    (h : d.writable g.outputFile = false) : g.printHeadersTo f d = ⟨d, .ok ()⟩ := by
  unfold ObsGroup.printHeadersTo ObsGroup.headerText
  cases hm : g.accumulator with
  | nil => exact absurd hm h0
  | cons p m => simp only [disk_write_fail h]

theorem heldCount_map_reset (m : StdMap ι (Kahan F)) (k : ι) :
    (StdMap.find k (m.map (fun p => (p.1, p.2.reset)))) = (StdMap.find k m).map Kahan.reset := by
  induction m with
  | nil => rfl
  | cons q m ih =>
    simp only [List.map_cons, StdMap.find]
    split
    · rfl
    · exact ih

/-- C118 is violated: if the file cannot be opened, `PrintAndReset` returns normally, writes nothing and drops the
measurements.  Nothing of them is left: the outcome is the same for all groups with the same file and the same keys. -/
theorem C118_lost_violated (f : Format F ι) (g : ObsGroup F ι) (p : Nat) (d : Disk) (h0 : g.accumulator ≠ [])
    (hp : p < 2 ^ 31) (h : d.writable g.outputFile = false) :
    (g.printAndResetTo f p d).res = .ok () ∧ (g.printAndResetTo f p d).state.2 = d ∧
    (∀ k n, heldCount g k = some n → heldCount (g.printAndResetTo f p d).state.1 k = some 0) ∧
    ∀ g' : ObsGroup F ι, g'.outputFile = g.outputFile → StdMap.keys g'.accumulator = StdMap.keys g.accumulator →
      g'.printAndResetTo f p d = g.printAndResetTo f p d := by
  have key : ∀ g : ObsGroup F ι, g.accumulator ≠ [] → d.writable g.outputFile = false →
      g.printAndResetTo f p d = ⟨(⟨g.outputFile, g.accumulator.map (fun p => (p.1, p.2.reset))⟩, d), .ok ()⟩ := by
    intro g h0 h
    unfold ObsGroup.printAndResetTo ObsGroup.rowText
    cases hm : g.accumulator with
    | nil => exact absurd hm h0
    | cons q m => simp only; rw [if_neg (by omega)]; simp only [disk_append_fail h]
  rw [key g h0 h]
  refine ⟨rfl, rfl, fun k n hk => ?_, fun g' hf hk => ?_⟩
  · unfold heldCount at hk ⊢
    simp only [heldCount_map_reset, Option.map_map]
    cases hq : StdMap.find k g.accumulator with
    | none => rw [hq] at hk; cases hk
    | some a => rfl
  · have hne : g'.accumulator ≠ [] := by
      intro h1; rw [h1] at hk; exact h0 (List.map_eq_nil_iff.1 hk.symm)
    rw [key g' hne (by rw [hf]; exact h), hf]
    have e : ∀ m : StdMap ι (Kahan F), m.map (fun p => (p.1, p.2.reset)) =
        (StdMap.keys m).map (fun k => (k, (Kahan.new : Kahan F))) := by
      intro m; unfold StdMap.keys; rw [List.map_map]; rfl
    rw [e, e, hk]

/-- C118.  A precision that fmt rejects leaves the group alone, on every disk; at most an empty file is created. -/
theorem C118_precision (f : Format F ι) (g : ObsGroup F ι) (p : Nat) (d : Disk) (h0 : g.accumulator ≠ [])
    (hp : 2 ^ 31 ≤ p) :
    (g.printAndResetTo f p d).res = .throws .formatError ∧ (g.printAndResetTo f p d).state.1 = g ∧
    Disk.view (g.printAndResetTo f p d).state.2 = Disk.view d := by
  unfold ObsGroup.printAndResetTo ObsGroup.rowText
  cases hm : g.accumulator with
  | nil => exact absurd hm h0
  | cons q m =>
    simp only; rw [if_pos (by omega)]
    refine ⟨rfl, rfl, ?_⟩
    cases h : d.writable g.outputFile with
    | false => simp only [disk_append_fail h]
    | true =>
      simp only [view_append h]
      funext n
      unfold Files.append
      split
      · rw [List.append_nil]
      · rfl

namespace ObsGroup

/-- One call of a history on a disk, without BWSL_ACCUMULATORS_CHECKS; exceptions of `Measure` and `PrintAndReset` are
caught. -/
def stepTo (f : Format F ι) (g : ObsGroup F ι) (d : Disk) : GroupOp ι F → Res (ObsGroup F ι × Disk)
  | .add k => .ok (g.addObservable k, d)
  | .measure k x =>
    match (g.measure false k x).res with
    | .ok _ => .ok ((g.measure false k x).state, d)
    | .throws _ => .ok ((g.measure false k x).state, d)
    | .ub u => .ub u
    | .diverges => .diverges
  | .headers =>
    match (g.printHeadersTo f d).res with
    | .ok _ => .ok (g, (g.printHeadersTo f d).state)
    | .throws e => .throws e
    | .ub u => .ub u
    | .diverges => .diverges
  | .print p =>
    match (g.printAndResetTo f p d).res with
    | .ok _ => .ok (g.printAndResetTo f p d).state
    | .throws _ => .ok (g.printAndResetTo f p d).state
    | .ub u => .ub u
    | .diverges => .diverges

/-- A history of calls on a disk. -/
def runTo (f : Format F ι) (g : ObsGroup F ι) (d : Disk) : List (GroupOp ι F) → Res (ObsGroup F ι × Disk)
  | [] => .ok (g, d)
  | op :: ops => do
    let (g, d) ← g.stepTo f d op
    runTo f g d ops

end ObsGroup

/-- What the reader of the files sees of an outcome. -/
def viewRes (r : Res (ObsGroup F ι × Disk)) : Res (ObsGroup F ι × Files) :=
  r >>= fun x => .ok (x.1, Disk.view x.2)

theorem stepTo_view (f : Format F ι) (g : ObsGroup F ι) (d : Disk) (op : GroupOp ι F)
    (h : d.writable g.outputFile = true) : viewRes (g.stepTo f d op) = g.step f (Disk.view d) op := by
  cases op with
  | add k => rfl
  | measure k x =>
    simp only [ObsGroup.stepTo, ObsGroup.step]
    cases (g.measure false k x).res <;> rfl
  | headers =>
    simp only [ObsGroup.stepTo, ObsGroup.step, ObsGroup.printHeadersTo, ObsGroup.printHeaders]
    cases g.headerText f with
    | ok t => simp only [viewRes, Res.ok_bind, view_write h]
    | throws e => rfl
    | ub u => rfl
    | diverges => rfl
  | print p =>
    simp only [ObsGroup.stepTo, ObsGroup.step, ObsGroup.printAndResetTo, ObsGroup.printAndReset]
    cases g.rowText f p with
    | ok t => simp only [viewRes, Res.ok_bind, view_append h]
    | throws e =>
      simp only [viewRes, Res.ok_bind, view_append h]
      congr 2
      funext n
      unfold Files.append
      split
      · rw [List.append_nil]
      · rfl
    | ub u => rfl
    | diverges => rfl

theorem stepTo_keeps (f : Format F ι) (g g' : ObsGroup F ι) (d d' : Disk) (op : GroupOp ι F)
    (e : g.stepTo f d op = .ok (g', d')) : g'.outputFile = g.outputFile ∧ d'.writable = d.writable := by
  have hw : ∀ n t, (d.write n t).writable = d.writable := by intro n t; unfold Disk.write; split <;> rfl
  have ha : ∀ n t, (d.append n t).writable = d.writable := by intro n t; unfold Disk.append; split <;> rfl
  cases op with
  | add k => cases e; exact ⟨rfl, rfl⟩
  | measure k x =>
    have hf : (g.measure false k x).state.outputFile = g.outputFile := by
      unfold ObsGroup.measure; split <;> rfl
    simp only [ObsGroup.stepTo] at e
    split at e <;> cases e
    · exact ⟨hf, rfl⟩
    · exact ⟨hf, rfl⟩
  | headers =>
    simp only [ObsGroup.stepTo, ObsGroup.printHeadersTo] at e
    cases hh : g.headerText f <;> rw [hh] at e <;> cases e
    exact ⟨rfl, hw _ _⟩
  | print p =>
    simp only [ObsGroup.stepTo, ObsGroup.printAndResetTo] at e
    cases hh : g.rowText f p <;> rw [hh] at e <;> cases e
    · exact ⟨rfl, ha _ _⟩
    · exact ⟨rfl, ha _ _⟩

/-- C118.  On a file that can be written every history of calls has the outcome described by C56-C58, where a file
that does not exist counts as empty.  Missing: files that cannot be opened. -/
theorem C118_history_partial (f : Format F ι) (g : ObsGroup F ι) (d : Disk) (ops : List (GroupOp ι F))
    (h : d.writable g.outputFile = true) : viewRes (g.runTo f d ops) = g.run f (Disk.view d) ops := by
  induction ops generalizing g d with
  | nil => rfl
  | cons op ops ih =>
    simp only [ObsGroup.runTo, ObsGroup.run]
    rw [← stepTo_view f g d op h]
    cases e : g.stepTo f d op with
    | ok r =>
      obtain ⟨h1, h2⟩ := stepTo_keeps f g r.1 d r.2 op e
      simp only [Res.ok_bind, viewRes]
      exact ih r.1 r.2 (by rw [h1, h2]; exact h)
    | throws e => rfl
    | ub u => rfl
    | diverges => rfl

/-- C118.  On a file that cannot be opened no history of calls changes anything on the disk. -/
theorem C118_untouched (f : Format F ι) (g g' : ObsGroup F ι) (d d' : Disk) (ops : List (GroupOp ι F))
    (h : d.writable g.outputFile = false) (e : g.runTo f d ops = .ok (g', d')) : d' = d := by
  induction ops generalizing g with
  | nil => cases e; rfl
  | cons op ops ih =>
    simp only [ObsGroup.runTo, Res.bind_eq_ok] at e
    obtain ⟨r, e1, e2⟩ := e
    have hd : r.2 = d := by
      cases op with
      | add k => cases e1; rfl
      | measure k x =>
        simp only [ObsGroup.stepTo] at e1
        split at e1 <;> cases e1 <;> rfl
      | headers =>
        simp only [ObsGroup.stepTo, ObsGroup.printHeadersTo, disk_write_fail h] at e1
        cases hh : g.headerText f <;> rw [hh] at e1 <;> cases e1
        rfl
      | print p =>
        simp only [ObsGroup.stepTo, ObsGroup.printAndResetTo, disk_append_fail h] at e1
        cases hh : g.rowText f p <;> rw [hh] at e1 <;> cases e1 <;> rfl
    obtain ⟨h1, -⟩ := stepTo_keeps f g r.1 d r.2 op e1
    rw [hd] at e2
    exact ih r.1 (by rw [h1]; exact h) e2

end

section
variable {F : Type} [CxxFloat F]

/-- C118.  The `Save…` functions of `Lattice` on a file that can be written: the file exists afterwards and holds
exactly the text, and no other file is touched.  Missing: files that cannot be opened, for which it is false. -/
theorem C118_save_partial (text : Lattice F → Res (List Char)) (l : Lattice F) (fname : String) (d : Disk)
    (h : d.writable fname = true) (t : List Char) (ht : text l = .ok t) :
    ∃ d', l.saveTo text fname d = .ok d' ∧ d'.contents fname = some t ∧ Disk.SameBut fname d d' ∧
      l.save text fname (Disk.view d) = .ok (Disk.view d') := by
  unfold Lattice.saveTo Lattice.save
  rw [ht]
  exact ⟨_, rfl, (disk_write_ok h t).1, (disk_write_ok h t).2, by rw [Res.ok_bind, view_write h]⟩

/-- C118 is violated: if the file cannot be opened, the `Save…` functions return normally and write nothing. -/
theorem C118_save_violated (text : Lattice F → Res (List Char)) (l : Lattice F) (fname : String) (d : Disk)
    (h : d.writable fname = false) (t : List Char) (ht : text l = .ok t) : l.saveTo text fname d = .ok d := by
  unfold Lattice.saveTo
  rw [ht, Res.ok_bind, disk_write_fail h]

end

/-! ### Writes that fail -/

section
variable {F ι : Type} [CxxFloat F] [LinearOrder ι]

/-- The printed row. -/
theorem rowText_ok (f : Format F ι) (g : ObsGroup F ι) (p : Nat) (h0 : g.accumulator ≠ []) (hp : p < 2 ^ 31) :
    ∃ t, g.rowText f p = .ok (t ++ ['\n']) := by
  unfold ObsGroup.rowText
  cases hm : g.accumulator with
  | nil => exact absurd hm h0
  | cons q m => simp only; rw [if_neg (by omega)]; exact ⟨_, rfl⟩

theorem headerText_ok (f : Format F ι) (g : ObsGroup F ι) (h0 : g.accumulator ≠ []) :
    ∃ t, g.headerText f = .ok (t ++ ['\n']) := by
  unfold ObsGroup.headerText
  cases hm : g.accumulator with
  | nil => exact absurd hm h0
  | cons q m => exact ⟨_, rfl⟩

/-- C118.  If all of the text reaches the file, the functions do what the theorems above say. -/
theorem C118_room_partial (room : Nat) (f : Format F ι) (g : ObsGroup F ι) (p : Nat) (d : Disk)
    (text : Lattice F → Res (List Char)) (l : Lattice F) (fname : String) :
    (∀ t, g.headerText f = .ok t → t.length ≤ room → g.printHeadersUpTo room f d = g.printHeadersTo f d) ∧
    (∀ t, g.rowText f p = .ok t → t.length ≤ room → g.printAndResetUpTo room f p d = g.printAndResetTo f p d) ∧
    (∀ t, text l = .ok t → t.length ≤ room → l.saveUpTo room text fname d = l.saveTo text fname d) := by
  refine ⟨fun t h hr => ?_, fun t h hr => ?_, fun t h hr => ?_⟩
  · unfold ObsGroup.printHeadersUpTo ObsGroup.printHeadersTo Disk.writeUpTo
    rw [h]; simp only [List.take_of_length_le hr]
  · unfold ObsGroup.printAndResetUpTo ObsGroup.printAndResetTo Disk.appendUpTo
    rw [h]; simp only [List.take_of_length_le hr]
  · unfold Lattice.saveUpTo Lattice.saveTo Disk.writeUpTo
    rw [h]; simp only [Res.ok_bind, List.take_of_length_le hr]

/-- C118 is violated: if the disk is full before the end of a row, `PrintAndReset` returns normally and drops the
measurements.  What was in the file before is still there, followed by a beginning of the row without its end of line, so
that the next row would continue it; other files are as before. -/
theorem C118_full_violated (room : Nat) (f : Format F ι) (g : ObsGroup F ι) (p : Nat) (d : Disk) (h0 : g.accumulator ≠ [])
    (hp : p < 2 ^ 31) (h : d.writable g.outputFile = true) (t : List Char) (ht : g.rowText f p = .ok t)
    (hr : room < t.length) :
    (g.printAndResetUpTo room f p d).res = .ok () ∧
    (∃ w rest, t = w ++ rest ++ ['\n'] ∧ w.length = room ∧
      (g.printAndResetUpTo room f p d).state.2.contents g.outputFile = some (Disk.view d g.outputFile ++ w)) ∧
    Disk.SameBut g.outputFile d (g.printAndResetUpTo room f p d).state.2 ∧
    ∀ k n, heldCount g k = some n → heldCount (g.printAndResetUpTo room f p d).state.1 k = some 0 := by
  obtain ⟨t', e⟩ := rowText_ok f g p h0 hp
  obtain rfl : t = t' ++ ['\n'] := by rw [ht] at e; exact Res.ok.inj e
  rw [List.length_append, List.length_singleton] at hr
  have key : g.printAndResetUpTo room f p d = ⟨(⟨g.outputFile, g.accumulator.map (fun p => (p.1, p.2.reset))⟩,
      d.append g.outputFile (t'.take room)), .ok ()⟩ := by
    unfold ObsGroup.printAndResetUpTo Disk.appendUpTo
    rw [ht]; simp only [List.take_append_of_le_length (Nat.le_of_lt_succ hr)]
  rw [key]
  refine ⟨rfl, ⟨t'.take room, t'.drop room, by rw [List.take_append_drop], by rw [List.length_take]; omega,
    (disk_append_ok h _).1⟩, (disk_append_ok h _).2, fun k n hk => ?_⟩
  unfold heldCount at hk ⊢
  simp only [heldCount_map_reset, Option.map_map]
  cases hq : StdMap.find k g.accumulator with
  | none => rw [hq] at hk; cases hk
  | some a => rfl

/-- C118 is violated: if the disk is full before the end of the text, `PrintHeaders` and the `Save…` functions return
normally; the file has lost what it held and has a beginning of the new text. -/
theorem C118_full_save_violated (room : Nat) (f : Format F ι) (g : ObsGroup F ι) (d : Disk)
    (text : Lattice F → Res (List Char)) (l : Lattice F) (fname : String) :
    (∀ t, g.headerText f = .ok t → d.writable g.outputFile = true → room < t.length →
      (g.printHeadersUpTo room f d).res = .ok () ∧
      ∃ w rest, t = w ++ rest ∧ rest ≠ [] ∧ (g.printHeadersUpTo room f d).state.contents g.outputFile = some w ∧
        Disk.SameBut g.outputFile d (g.printHeadersUpTo room f d).state) ∧
    (∀ t, text l = .ok t → d.writable fname = true → room < t.length →
      ∃ d' w rest, l.saveUpTo room text fname d = .ok d' ∧ t = w ++ rest ∧ rest ≠ [] ∧ d'.contents fname = some w ∧
        Disk.SameBut fname d d') := by
  have hne : ∀ t : List Char, room < t.length → t.drop room ≠ [] := by
    intro t hr h
    have := congrArg List.length h
    rw [List.length_drop, List.length_nil] at this
    omega
  refine ⟨fun t ht h hr => ?_, fun t ht h hr => ?_⟩
  · unfold ObsGroup.printHeadersUpTo Disk.writeUpTo
    rw [ht]
    exact ⟨rfl, t.take room, t.drop room, (List.take_append_drop ..).symm, hne t hr, disk_write_ok h _⟩
  · unfold Lattice.saveUpTo Disk.writeUpTo
    rw [ht]
    exact ⟨_, t.take room, t.drop room, rfl, (List.take_append_drop ..).symm, hne t hr, disk_write_ok h _⟩

end

/-- A disk with one file of two lines, where nothing but that file can be written. -/
example : ∃ d : Disk, d.writable "out.csv" = true ∧ d.writable "missing/out.csv" = false ∧
    Disk.view d "out.csv" = "a,Count\n1,2\n".toList ∧ d.contents "missing/out.csv" = none :=
  ⟨⟨fun n => if n = "out.csv" then some "a,Count\n1,2\n".toList else none, fun n => decide (n = "out.csv")⟩,
    rfl, rfl, rfl, rfl⟩

end Bwsl
