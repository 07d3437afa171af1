import Verif.Model.Hist
import Verif.Model.MoveStats
import Verif.Props.ObservableGroup

/-! Property C46: saving and loading. -/

namespace Bwsl
open Spec

set_option linter.unusedSectionVars false

variable {F : Type}

/-- Whatever a saver `s` appends to an archive, a loader `l` reads back, and nothing more; `a` and `b` are
their results. -/
def Matches (s : Saver F α) (l : Loader F β) (a : α) (b : β) : Prop :=
  ∃ ps, (∀ pre, s pre = (a, pre ++ ps)) ∧ ∀ post, l (ps ++ post) = some (b, post)

/-- Saving `x` leaves it as it is, and loading the saved data into `y` turns it into `z`: anything may
precede the data in the archive (and is not touched) and anything may follow it (and is left to be
read). -/
def Restores (c : Codec F α) (x y z : α) : Prop := Matches (c Archive.out x) (c Archive.inp y) x z

theorem Matches.pure (a : α) (b : β) : Matches (F := F) (pure a) (pure b) a b :=
  ⟨[], fun pre => by rw [List.append_nil]; rfl, fun _ => rfl⟩

theorem Matches.bind {s : Saver F α} {l : Loader F β} {a : α} {b : β} {s' : α → Saver F α'}
    {l' : β → Loader F β'} {a' : α'} {b' : β'} (h : Matches s l a b) (h' : Matches (s' a) (l' b) a' b') :
    Matches (s >>= s') (l >>= l') a' b' := by
  obtain ⟨p, h1, h2⟩ := h
  obtain ⟨q, h3, h4⟩ := h'
  refine ⟨p ++ q, fun pre => ?_, fun post => ?_⟩
  · show s' (s pre).1 (s pre).2 = _
    rw [h1]
    simp only [h3, List.append_assoc]
  · show (l (p ++ q ++ post)).bind (fun r => l' r.1 r.2) = _
    rw [List.append_assoc, h2]
    exact h4 post

theorem matches_dbl (x y : F) : Matches (Archive.out.dbl x) (Archive.inp.dbl y) x x :=
  ⟨[.dbl x], fun _ => rfl, fun _ => rfl⟩
theorem matches_ulong (x y : Nat) : Matches (F := F) (Archive.out.ulong x) (Archive.inp.ulong y) x x :=
  ⟨[.ulong x], fun _ => rfl, fun _ => rfl⟩
theorem matches_long (x y : Int) : Matches (F := F) (Archive.out.long x) (Archive.inp.long y) x x :=
  ⟨[.long x], fun _ => rfl, fun _ => rfl⟩
theorem matches_bool (x y : Bool) : Matches (F := F) (Archive.out.bool x) (Archive.inp.bool y) x x :=
  ⟨[.bool x], fun _ => rfl, fun _ => rfl⟩
theorem matches_str (x y : String) : Matches (F := F) (Archive.out.str x) (Archive.inp.str y) x x :=
  ⟨[.str x], fun _ => rfl, fun _ => rfl⟩

theorem matches_mapM {s : α → Saver F α} {l : α → Loader F α} (h : ∀ x y, Matches (s x) (l y) x x) :
    ∀ xs ys : List α, xs.length = ys.length → Matches (xs.mapM s) (ys.mapM l) xs xs := by
  intro xs
  induction xs with
  | nil =>
    intro ys hl
    have : ys = [] := List.length_eq_zero_iff.1 hl.symm
    subst this
    exact Matches.pure [] []
  | cons x xs ih =>
    intro ys hl
    cases ys with
    | nil => simp at hl
    | cons y ys =>
      rw [List.mapM_cons, List.mapM_cons]
      refine (h x y).bind ((ih ys (by simpa using hl)).bind ?_)
      exact Matches.pure _ _

theorem matches_vector {c : Codec F α} (h : ∀ x y, Restores c x y x) (fresh : α) (xs ys : List α) :
    Restores (Archive.vector c fresh) xs ys xs := by
  refine (matches_ulong xs.length ys.length).bind ?_
  rw [List.take_length, Nat.sub_self, List.replicate_zero, List.append_nil]
  refine matches_mapM h _ _ ?_
  rw [List.length_append, List.length_take, List.length_replicate]
  omega

theorem matches_pair {c : Codec F α} {d : Codec F β} (hc : ∀ x y, Restores c x y x)
    (hd : ∀ x y, Restores d x y x) (x y : α × β) : Restores (Archive.pair c d) x y x :=
  (hc x.1 y.1).bind ((hd x.2 y.2).bind (Matches.pure _ _))

theorem matches_map {ι : Type} [LinearOrder ι] {c : Codec F ι} {d : Codec F β} (hc : ∀ x y, Restores c x y x)
    (hd : ∀ x y, Restores d x y x) (freshKey : ι) (fresh : β) (x y : StdMap ι β) (hx : StdMap.Sorted x) :
    Restores (StdMap.serialize c d freshKey fresh) x y x := by
  refine (matches_ulong x.length y.length).bind ?_
  rw [List.take_length, Nat.sub_self, List.replicate_zero, List.append_nil]
  refine Matches.bind (matches_mapM (fun a b => matches_pair hc hd a b) x _ ?_) ?_
  · rw [List.length_append, List.length_take, List.length_replicate]
    omega
  · have := StdMap.foldl_tryEmplace hx
    rw [this]
    exact Matches.pure _ _

section
variable [CxxFloat F]

/-- C46.  Saving an accumulator leaves it unchanged, and loading the archive into any other one of the class
makes that a copy of the first. -/
theorem C46_accumulators :
    (∀ x y : Kahan F, Restores Kahan.serialize x y x) ∧
    (∀ x y : Neumaier F, Restores Neumaier.serialize x y x) ∧
    (∀ x y : KnuthWelford F, Restores KnuthWelford.serialize x y x) ∧
    (∀ x y : West F, Restores West.serialize x y x) ∧
    (∀ x y : NaiveInteger, Restores (F := F) NaiveInteger.serialize x y x) := by
  refine ⟨fun x y => ?_, fun x y => ?_, fun x y => ?_, fun x y => ?_, fun x y => ?_⟩
  · exact (matches_dbl _ _).bind ((matches_dbl _ _).bind ((matches_ulong _ _).bind (Matches.pure _ _)))
  · exact (matches_dbl _ _).bind ((matches_dbl _ _).bind ((matches_ulong _ _).bind (Matches.pure _ _)))
  · exact (matches_dbl _ _).bind ((matches_dbl _ _).bind ((matches_ulong _ _).bind (Matches.pure _ _)))
  · exact (matches_dbl _ _).bind ((matches_dbl _ _).bind ((matches_dbl _ _).bind ((matches_dbl _ _).bind
      ((matches_ulong _ _).bind (Matches.pure _ _)))))
  · exact (matches_long _ _).bind ((matches_long _ _).bind ((matches_ulong _ _).bind (Matches.pure _ _)))

/-- C46 for histograms, of any numbers of bins. -/
theorem C46_histogram (x y : Hist F) : Restores Hist.serialize x y x :=
  (matches_ulong _ _).bind ((matches_vector C46_accumulators.2.1 _ _ _).bind
    ((matches_ulong _ _).bind (Matches.pure _ _)))

/-- C46 for move statistics: everything but the name is restored. -/
theorem C46_moves (x y : MoveStats F) : Restores MoveStats.serialize x y { x with name := y.name } :=
  (C46_accumulators.1 _ _).bind ((matches_ulong _ _).bind ((matches_ulong _ _).bind
    ((matches_ulong _ _).bind ((matches_ulong _ _).bind ((matches_bool _ _).bind (Matches.pure _ _))))))

/-- C46 for groups of observables in any state a history can reach, if keys are restored (as numbers and strings
are). -/
theorem C46_group {ι : Type} [LinearOrder ι] (key : Codec F ι) (hkey : ∀ a b, Restores key a b a) (freshKey : ι)
    (f : Format F ι) (name : String) (fs fs1 : Files) (h : List (GroupOp ι F)) (x y : ObsGroup F ι)
    (e : (ObsGroup.new name).run f fs h = .ok (x, fs1)) :
    Restores (ObsGroup.serialize key freshKey) x y x := by
  obtain ⟨hi, _, _⟩ := group_run f name h _ fs [] (groupInv_new name) x fs1 e
  exact (matches_str _ _).bind ((matches_map hkey C46_accumulators.1 _ _ _ _ hi.sorted).bind (Matches.pure _ _))

/-- String keys meet the hypothesis of `C46_group`. -/
example : ∀ a b : String, Restores (F := F) (fun ar => ar.str) a b a := matches_str

example : ∀ a b : Nat, Restores (F := F) (fun ar => ar.ulong) a b a := matches_ulong

/-- C46.  Several objects saved one after another are restored by loading in the same order. -/
theorem C46_sequence {c : Codec F α} {d : Codec F β} {x y z : α} {x' y' z' : β} (h : Restores c x y z)
    (h' : Restores d x' y' z') :
    ∀ rest, (do let a ← c Archive.inp y; let b ← d Archive.inp y'; pure (a, b) : Loader F (α × β))
      ((d Archive.out x' (c Archive.out x []).2).2 ++ rest) = some ((z, z'), rest) := by
  obtain ⟨p, h1, h2⟩ := h
  obtain ⟨q, h3, h4⟩ := h'
  beta_reduce at h1 h2 h3 h4
  intro rest
  rw [h1, h3]
  show (c Archive.inp y ([] ++ p ++ q ++ rest)).bind
    (fun r => (d Archive.inp y' r.2).bind (fun r' => some ((r.1, r'.1), r'.2))) = _
  rw [List.nil_append, List.append_assoc, h2]
  show (d Archive.inp y' (q ++ rest)).bind (fun r' => some ((z, r'.1), r'.2)) = _
  rw [h4]
  rfl

end
end Bwsl
