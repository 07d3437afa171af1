import Verif.Props.MoveStats

/-! Property C88: move statistics describe the moves resolved since the last reset, after any history of
calls. -/

namespace Bwsl
open Spec

set_option linter.unusedSectionVars false

section
variable {F : Type} [CxxFloat F]

/-- The object that represents a bookkeeping. -/
def MoveStats.ofBook (name : String) (b : Bool × List (Move F)) : MoveStats F :=
  ⟨name, b.1, b.2.length + (if b.1 then 1 else 0), b.2.countP Move.isAccepted, b.2.countP Move.isRejected,
    b.2.countP Move.isImpossible, (b.2.map (Move.prob CxxFloat.zero)).foldl Kahan.addCore Kahan.new⟩

theorem add_pending {checks : Bool} {s : MoveStats F} (h : s.proposedflag = true) (r : MoveResult F) :
    (s.add checks r).state = s := by
  unfold MoveStats.add
  rw [propose_pending h]

theorem ofBook_step (name : String) (b : Bool × List (Move F)) (op : MoveOp F) (hb : b.2.length + 1 < W64) :
    (MoveStats.step false (.ofBook name b) op).state = .ofBook name (bookkeep b op) := by
  obtain ⟨f, ms⟩ := b
  simp only at hb
  have c1 : ms.countP Move.isAccepted ≤ ms.length := List.countP_le_length
  have c2 : ms.countP Move.isRejected ≤ ms.length := List.countP_le_length
  have c3 : ms.countP Move.isImpossible ≤ ms.length := List.countP_le_length
  have e0 : succU ms.length = ms.length + 1 := by unfold succU; omega
  have e1 : succU (ms.countP Move.isAccepted) = ms.countP Move.isAccepted + 1 := by unfold succU; omega
  have e2 : succU (ms.countP Move.isRejected) = ms.countP Move.isRejected + 1 := by unfold succU; omega
  have e3 : succU (ms.countP Move.isImpossible) = ms.countP Move.isImpossible + 1 := by unfold succU; omega
  cases f with
  | true =>
    cases op with
    | propose => rw [MoveStats.step, propose_pending rfl]; rfl
    | accept p =>
      rw [MoveStats.step, MoveStats.accept, update_pending rfl]
      simp [MoveStats.ofBook, bookkeep, e1, List.countP_append, Move.isAccepted, Move.isRejected, Move.isImpossible,
        Move.prob]
    | reject p =>
      rw [MoveStats.step, MoveStats.reject, update_pending rfl]
      simp [MoveStats.ofBook, bookkeep, e2, List.countP_append, Move.isAccepted, Move.isRejected, Move.isImpossible,
        Move.prob]
    | impossible =>
      rw [MoveStats.step, MoveStats.setImpossible, update_pending rfl]
      simp [MoveStats.ofBook, bookkeep, e3, List.countP_append, Move.isAccepted, Move.isRejected, Move.isImpossible,
        Move.prob]
    | add o p => rw [MoveStats.step, add_pending rfl]; rfl
    | reset => rfl
  | false =>
    cases op with
    | propose =>
      rw [MoveStats.step, propose_free rfl]
      simp [MoveStats.ofBook, bookkeep, e0]
    | accept p => rw [MoveStats.step, MoveStats.accept, update_free rfl]; rfl
    | reject p => rw [MoveStats.step, MoveStats.reject, update_free rfl]; rfl
    | impossible => rw [MoveStats.step, MoveStats.setImpossible, update_free rfl]; rfl
    | add o p =>
      rw [MoveStats.step, C54_add _ rfl]
      cases o <;>
      simp [MoveStats.ofBook, bookkeep, e0, e1, e2, e3, List.countP_append, Move.isAccepted, Move.isRejected,
        Move.isImpossible, Move.prob, moveOf]
    | reset => rfl

theorem bookkeep_length (b : Bool × List (Move X)) (op : MoveOp X) : (bookkeep b op).2.length ≤ b.2.length + 1 := by
  cases op <;> simp only [bookkeep] <;> (try split) <;> simp

/-- C88.  After any fewer than 2^64 calls, those out of turn included (their exceptions being caught), every
observable of the object is that of the moves resolved since the last reset: the flag tells whether a proposal is
pending, the counters count the moves of each kind, and the accumulator of the probabilities has received the
probabilities in order (0 for an impossible move). -/
theorem C88_history (name : String) (ops : List (MoveOp F)) (hn : ops.length < 2 ^ 64) :
    (MoveStats.new name).after false ops =
      ⟨name, (book ops).1, (book ops).2.length + (if (book ops).1 then 1 else 0),
        (book ops).2.countP Move.isAccepted, (book ops).2.countP Move.isRejected,
        (book ops).2.countP Move.isImpossible,
        ((book ops).2.map (Move.prob CxxFloat.zero)).foldl Kahan.addCore Kahan.new⟩ ∧
    (book ops).2.length ≤ ops.length := by
  induction ops using List.reverseRecOn with
  | nil => exact ⟨rfl, Nat.le_refl _⟩
  | append_singleton ops op ih =>
    rw [List.length_append, List.length_singleton] at hn ⊢
    obtain ⟨i1, i2⟩ := ih (by omega)
    have hb : book (ops ++ [op]) = bookkeep (book ops) op := by
      unfold book; rw [List.foldl_append]; rfl
    have ha : (MoveStats.new name).after false (ops ++ [op]) =
        (((MoveStats.new name).after false ops).step false op).state := by
      unfold MoveStats.after; rw [List.foldl_append]; rfl
    rw [hb]
    refine ⟨?_, (bookkeep_length _ _).trans (by omega)⟩
    rw [ha, i1]
    exact ofBook_step name (book ops) op (by omega)

/-- C88.  `Reset` makes the object as good as new: whatever came before, the same calls afterwards give the same
object as on a new one of that name. -/
theorem C88_reset (name : String) (before after : List (MoveOp F)) :
    (MoveStats.new name).after false (before ++ .reset :: after) = (MoveStats.new name).after false after := by
  have key : ∀ (ops : List (MoveOp F)) (s : MoveStats F), (s.after false ops).name = s.name := by
    intro ops
    induction ops using List.reverseRecOn with
    | nil => intro s; rfl
    | append_singleton ops op ih =>
      intro s
      have ha : s.after false (ops ++ [op]) = ((s.after false ops).step false op).state := by
        unfold MoveStats.after; rw [List.foldl_append]; rfl
      rw [ha, ← ih s]
      generalize s.after false ops = t
      have hp : t.propose.state.name = t.name := by
        unfold MoveStats.propose MoveStats.updateIfNotProposed; split <;> rfl
      cases h : t.proposedflag <;> cases op
      all_goals first
        | exact hp
        | rfl
        | (rw [MoveStats.step, MoveStats.accept]; first | (rw [update_free h]) | (rw [update_pending h]))
        | (rw [MoveStats.step, MoveStats.reject]; first | (rw [update_free h]) | (rw [update_pending h]))
        | (rw [MoveStats.step, MoveStats.setImpossible]; first | (rw [update_free h]) | (rw [update_pending h]))
        | (rw [MoveStats.step, C54_add _ h])
        | (rw [MoveStats.step, add_pending h])
  have e : (MoveStats.new name).after false (before ++ .reset :: after) =
      (((MoveStats.new name : MoveStats F).after false before).reset).after false after := by
    unfold MoveStats.after; rw [List.foldl_append]; rfl
  rw [e]
  have : ((MoveStats.new name : MoveStats F).after false before).reset = MoveStats.new name := by
    unfold MoveStats.reset
    rw [key]
    rfl
  rw [this]

end

section
variable {K : Type} [Field K] [LinearOrder K] [IsStrictOrderedRing K] {A : Arith K}

/-- the call with a finite probability -/
def finMoveOp : MoveOp K → MoveOp (Num A)
  | .propose => .propose
  | .accept p => .accept (.fin p)
  | .reject p => .reject (.fin p)
  | .impossible => .impossible
  | .add o p => .add o (.fin p)
  | .reset => .reset

def finMove : Move K → Move (Num A)
  | .accepted p => .accepted (.fin p)
  | .rejected p => .rejected (.fin p)
  | .impossible => .impossible

theorem book_map (ops : List (MoveOp K)) :
    book (ops.map (finMoveOp (A := A))) = ((book ops).1, (book ops).2.map finMove) := by
  induction ops using List.reverseRecOn with
  | nil => rfl
  | append_singleton ops op ih =>
    have hb : ∀ {X : Type} (ops : List (MoveOp X)) op, book (ops ++ [op]) = bookkeep (book ops) op := by
      intro X ops op; unfold book; rw [List.foldl_append]; rfl
    rw [List.map_append, List.map_singleton, hb, hb, ih]
    cases op <;> simp only [finMoveOp, bookkeep] <;> (try split) <;> simp [finMove]
    next o p _ => cases o <;> rfl

theorem prob_map (ms : List (Move K)) :
    (ms.map (finMove (A := A))).map (Move.prob CxxFloat.zero) = (ms.map (Move.prob 0)).map .fin := by
  rw [List.map_map, List.map_map]
  refine List.map_congr_left (fun m _ => ?_)
  cases m <;> rfl

/-- C88.  In exact arithmetic the average probability is the mean of the probabilities of the moves resolved since
the last reset, an impossible move counting as 0, after any history; it is not a number if there are none. -/
theorem C88_average (hA : A.IsExact) (name : String) (ops : List (MoveOp K)) (hn : ops.length < 2 ^ 64) :
    ((MoveStats.new name).after false (ops.map (finMoveOp (A := A)))).getAverageProbability =
      if (book ops).2 = [] then .nan else .fin (avg ((book ops).2.map (Move.prob 0))) := by
  obtain ⟨h1, -⟩ := C88_history name (ops.map (finMoveOp (A := A))) (by rwa [List.length_map])
  obtain ⟨-, h2⟩ := C88_history (F := Num A) name (ops.map finMoveOp) (by rwa [List.length_map])
  rw [book_map, List.length_map, List.length_map] at h2
  rw [h1, book_map]
  unfold MoveStats.getAverageProbability
  simp only
  rw [prob_map]
  split
  · next h =>
    rw [h]
    show (Num.fin 0 : Num A) / Num.round A ((0 : Nat) : K) = .nan
    rw [Num.round_exact hA, Nat.cast_zero]
    show Num.div _ _ = _
    simp [Num.div]
  · next h => exact (C36_mean_exact hA _ (by simpa using h) (by rw [List.length_map]; omega)).1

/-- C88.  If all probabilities are in [0,1], so is the average. -/
theorem C88_unit_interval (hA : A.IsExact) (name : String) (ops : List (MoveOp K)) (hn : ops.length < 2 ^ 64)
    (h0 : (book ops).2 ≠ []) (hp : ∀ m ∈ (book ops).2, 0 ≤ m.prob 0 ∧ m.prob 0 ≤ 1) :
    ∃ x : K, ((MoveStats.new name).after false (ops.map (finMoveOp (A := A)))).getAverageProbability = .fin x ∧
      0 ≤ x ∧ x ≤ 1 := by
  refine ⟨_, by rw [C88_average hA name ops hn, if_neg h0], ?_⟩
  unfold avg
  generalize hl : (book ops).2 = ms at h0 hp
  have hlen : (0 : K) < ((ms.map (Move.prob (0 : K))).length : K) := by
    rw [List.length_map]
    exact_mod_cast List.length_pos_of_ne_nil h0
  have hsum : ∀ ms : List (Move K), (∀ m ∈ ms, 0 ≤ m.prob 0 ∧ m.prob 0 ≤ 1) →
      0 ≤ (ms.map (Move.prob (0 : K))).sum ∧ (ms.map (Move.prob (0 : K))).sum ≤ ms.length := by
    intro ms
    induction ms with
    | nil => intro _; simp
    | cons m ms ih =>
      intro h
      obtain ⟨a, b⟩ := ih (fun x hx => h x (List.mem_cons_of_mem _ hx))
      obtain ⟨c, d⟩ := h m List.mem_cons_self
      rw [List.map_cons, List.sum_cons, List.length_cons]
      push_cast
      exact ⟨by linarith, by linarith⟩
  obtain ⟨a, b⟩ := hsum ms hp
  refine ⟨div_nonneg a hlen.le, ?_⟩
  rw [div_le_one hlen, List.length_map]
  exact b

/-- A history with calls out of turn, a reset and all kinds of moves. -/
example : book ([.accept 1, .propose, .reset, .propose, .propose, .add .accepted 1, .accept (1 / 2), .impossible,
    .add .rejected 1, .add .impossible 5, .propose] : List (MoveOp ℚ)) =
    (true, [.accepted (1 / 2), .rejected 1, .impossible]) := rfl

end
end Bwsl
