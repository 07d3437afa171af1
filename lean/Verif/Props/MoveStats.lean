import Verif.Model.MoveStats
import Verif.Spec.Moves
import Verif.Props.AccumSum

/-! Properties C52–C55: statistics of Monte Carlo moves. -/

namespace Bwsl
open Spec

set_option linter.unusedSectionVars false

section
variable {F : Type} [CxxFloat F]

/-- The result object with a given outcome and probability. -/
def moveResult (p : F) : Outcome → MoveResult F
  | .accepted => ⟨.accepted, p⟩
  | .rejected => ⟨.rejected, p⟩
  | .impossible => ⟨.impossible, p⟩

/-- One call. -/
def MoveStats.step (checks : Bool) (s : MoveStats F) : MoveOp F → Call (MoveStats F) Unit
  | .propose => s.propose
  | .accept p => s.accept checks p
  | .reject p => s.reject checks p
  | .impossible => s.setImpossible checks
  | .add o p => s.add checks (moveResult p o)
  | .reset => ⟨s.reset, .ok ()⟩

/-- The object after some calls, exceptions being caught after every call. -/
def MoveStats.after (checks : Bool) (s : MoveStats F) (ops : List (MoveOp F)) : MoveStats F :=
  ops.foldl (fun s op => (s.step checks op).state) s

/-- Every one of the calls returns normally. -/
def MoveStats.allOk (checks : Bool) (s : MoveStats F) : List (MoveOp F) → Prop
  | [] => True
  | op :: ops => (s.step checks op).res = .ok () ∧ MoveStats.allOk checks (s.step checks op).state ops

theorem propose_pending {s : MoveStats F} (h : s.proposedflag = true) :
    s.propose = ⟨s, .throws (.moveInvalidSequence s.name)⟩ := by
  unfold MoveStats.propose MoveStats.updateIfNotProposed; rw [if_pos h]

theorem propose_free {s : MoveStats F} (h : s.proposedflag = false) :
    s.propose = ⟨{ s with proposed := succU s.proposed, proposedflag := true }, .ok ()⟩ := by
  unfold MoveStats.propose MoveStats.updateIfNotProposed; rw [if_neg (by simp [h])]

theorem update_free {checks : Bool} {s : MoveStats F} {f : MoveStats F → MoveStats F} {p : F}
    (h : s.proposedflag = false) :
    s.updateIfProposed checks f p = ⟨s, .throws (.moveInvalidSequence s.name)⟩ := by
  unfold MoveStats.updateIfProposed; rw [if_pos h]

theorem update_pending {s : MoveStats F} {f : MoveStats F → MoveStats F} {p : F}
    (h : s.proposedflag = true) :
    s.updateIfProposed false f p =
      ⟨{ f s with proposedflag := false, prob := (f s).prob.addCore p }, .ok ()⟩ := by
  unfold MoveStats.updateIfProposed
  rw [if_neg (by simp [h])]
  simp [Kahan.add, guarded]

/-- C52.  A call out of turn throws `MoveInvalidSequence` and leaves the object as it was, with or without
accumulator checks; this includes `Add` while a proposal is pending. -/
theorem C52_out_of_turn (checks : Bool) (s : MoveStats F) (p : F) :
    (s.proposedflag = true →
      s.propose = ⟨s, .throws (.moveInvalidSequence s.name)⟩ ∧
      ∀ r, s.add checks r = ⟨s, .throws (.moveInvalidSequence s.name)⟩) ∧
    (s.proposedflag = false →
      s.accept checks p = ⟨s, .throws (.moveInvalidSequence s.name)⟩ ∧
      s.reject checks p = ⟨s, .throws (.moveInvalidSequence s.name)⟩ ∧
      s.setImpossible checks = ⟨s, .throws (.moveInvalidSequence s.name)⟩) := by
  refine ⟨fun h => ⟨propose_pending h, fun r => ?_⟩, fun h => ⟨?_, ?_, ?_⟩⟩
  · unfold MoveStats.add; rw [propose_pending h]
  · exact update_free h
  · exact update_free h
  · exact update_free h

theorem alternating_from (ops : List (MoveOp F)) (s : MoveStats F)
    (hops : ∀ op ∈ ops, op ≠ .reset ∧ ∀ o p, op ≠ .add o p) :
    s.allOk false ops ↔ ∀ i op, ops[i]? = some op →
      if (i % 2 = 0) = (s.proposedflag = false) then op = .propose
      else (∃ p, op = .accept p) ∨ (∃ p, op = .reject p) ∨ op = .impossible := by
  induction ops generalizing s with
  | nil => simp [MoveStats.allOk]
  | cons op ops ih =>
    have hops' : ∀ op ∈ ops, op ≠ .reset ∧ ∀ o p, op ≠ .add o p :=
      fun o ho => hops o (List.mem_cons_of_mem _ ho)
    obtain ⟨hr, ha⟩ := hops op List.mem_cons_self
    -- shifting the positions by one
    have shift : ∀ (P : Prop) (b : Bool), (P ↔ if b = false then op = .propose
          else (∃ p, op = .accept p) ∨ (∃ p, op = .reject p) ∨ op = .impossible) →
        ((P ∧ ∀ i o, ops[i]? = some o → if (i % 2 = 0) = ((!b) = false) then o = .propose
          else (∃ p, o = .accept p) ∨ (∃ p, o = .reject p) ∨ o = .impossible) ↔
        ∀ i o, (op :: ops)[i]? = some o → if (i % 2 = 0) = (b = false) then o = .propose
          else (∃ p, o = .accept p) ∨ (∃ p, o = .reject p) ∨ o = .impossible) := by
      intro P b hP
      rw [hP]
      constructor
      · rintro ⟨h1, h2⟩ i o hi
        cases i with
        | zero =>
          rw [List.getElem?_cons_zero, Option.some.injEq] at hi
          subst hi
          simpa using h1
        | succ i =>
          rw [List.getElem?_cons_succ] at hi
          have := h2 i o hi
          have e : ((i + 1) % 2 = 0) = (¬ i % 2 = 0) := by apply propext; omega
          simp only [e]
          cases b <;> simpa using this
      · intro h
        constructor
        · have := h 0 op rfl
          simpa using this
        · intro i o hi
          have := h (i + 1) o (by rw [List.getElem?_cons_succ]; exact hi)
          have e : ((i + 1) % 2 = 0) = (¬ i % 2 = 0) := by apply propext; omega
          simp only [e] at this
          cases b <;> simpa using this
    rw [MoveStats.allOk]
    cases hf : s.proposedflag with
    | false =>
      cases op with
      | propose =>
        have e := propose_free hf
        rw [MoveStats.step, e, ih _ hops']
        exact shift _ false (by simp)
      | reset => exact absurd rfl hr
      | add o p => exact absurd rfl (ha o p)
      | accept p =>
        rw [MoveStats.step, MoveStats.accept, update_free hf]
        refine iff_of_false (by simp) (fun h => ?_)
        have := h 0 _ rfl
        simp at this
      | reject p =>
        rw [MoveStats.step, MoveStats.reject, update_free hf]
        refine iff_of_false (by simp) (fun h => ?_)
        have := h 0 _ rfl
        simp at this
      | impossible =>
        rw [MoveStats.step, MoveStats.setImpossible, update_free hf]
        refine iff_of_false (by simp) (fun h => ?_)
        have := h 0 _ rfl
        simp at this
    | true =>
      cases op with
      | propose =>
        rw [MoveStats.step, propose_pending hf]
        refine iff_of_false (by simp) (fun h => ?_)
        have := h 0 _ rfl
        simp at this
      | reset => exact absurd rfl hr
      | add o p => exact absurd rfl (ha o p)
      | accept p =>
        rw [MoveStats.step, MoveStats.accept, update_pending hf, ih _ hops']
        exact shift _ true (by simp)
      | reject p =>
        rw [MoveStats.step, MoveStats.reject, update_pending hf, ih _ hops']
        exact shift _ true (by simp)
      | impossible =>
        rw [MoveStats.step, MoveStats.setImpossible, update_pending hf, ih _ hops']
        exact shift _ true (by simp)

/-- C52.  A sequence of `Propose`, `Accept`, `Reject`, `Impossible` on a fresh object completes without
exception exactly when proposals and resolutions alternate, starting with a proposal. -/
theorem C52_alternation (name : String) (ops : List (MoveOp F))
    (hops : ∀ op ∈ ops, op ≠ .reset ∧ ∀ o p, op ≠ .add o p) :
    (MoveStats.new name).allOk false ops ↔ Alternating ops := by
  rw [alternating_from ops _ hops]
  unfold Alternating
  have : ∀ i : Nat, ((i % 2 = 0) = ((MoveStats.new name : MoveStats F).proposedflag = false)) ↔ i % 2 = 0 := by
    intro i; simp [MoveStats.new]
  simp only [this]

example : Alternating [MoveOp.propose, .accept (1 : Nat), .propose, .impossible] := by
  intro i op h
  match i with
  | 0 => simp at h; simp [← h]
  | 1 => simp at h; simp [← h]
  | 2 => simp at h; simp [← h]
  | 3 => simp at h; simp [← h]
  | n + 4 => simp at h

/-! ### Counters -/

/-- Pending proposals, as a number. -/
def pending (s : MoveStats F) : Nat := if s.proposedflag then 1 else 0

/-- The balance after at most `n` calls. -/
def Balanced (s : MoveStats F) (n : Nat) : Prop :=
  s.proposed = s.accepted + s.rejected + s.impossible + pending s ∧ s.proposed ≤ n

theorem kahan_add_state (checks : Bool) (k : Kahan F) (p : F) :
    (k.add checks p).state = k ∨ (k.add checks p).state = k.addCore p := by
  unfold Kahan.add guarded
  split
  · exact Or.inl rfl
  · exact Or.inr rfl

theorem balanced_mono {s : MoveStats F} {n m : Nat} (h : Balanced s n) (hm : n ≤ m) : Balanced s m :=
  ⟨h.1, h.2.trans hm⟩

theorem balanced_propose {s : MoveStats F} {n : Nat} (h : Balanced s n) (hn : n + 1 < W64) :
    Balanced s.propose.state (n + 1) := by
  cases hf : s.proposedflag with
  | true => rw [propose_pending hf]; exact balanced_mono h (Nat.le_succ n)
  | false =>
    rw [propose_free hf]
    obtain ⟨h1, h2⟩ := h
    unfold pending at h1
    rw [hf] at h1
    have e : succU s.proposed = s.proposed + 1 := by unfold succU; omega
    simp only [Balanced, pending, e, if_true]
    simp only [Bool.false_eq_true, if_false] at h1
    omega

theorem balanced_update {checks : Bool} {s : MoveStats F} {n : Nat} (h : Balanced s n) (hn : n < W64)
    (f : MoveStats F → MoveStats F) (p : F)
    (hf : ∀ s : MoveStats F, s.accepted + 1 < W64 → s.rejected + 1 < W64 → s.impossible + 1 < W64 →
      (f s).proposed = s.proposed ∧
      (f s).accepted + (f s).rejected + (f s).impossible = s.accepted + s.rejected + s.impossible + 1) :
    Balanced (s.updateIfProposed checks f p).state n := by
  cases hg : s.proposedflag with
  | false => rw [update_free hg]; exact h
  | true =>
    obtain ⟨h1, h2⟩ := h
    unfold pending at h1
    rw [hg, if_pos rfl] at h1
    obtain ⟨f1, f2⟩ := hf s (by omega) (by omega) (by omega)
    unfold MoveStats.updateIfProposed
    rw [if_neg (by simp [hg])]
    simp only [Balanced, pending, Bool.false_eq_true, if_false]
    omega

theorem balanced_step (checks : Bool) (s : MoveStats F) (n : Nat) (h : Balanced s n) (hn : n + 1 < W64)
    (op : MoveOp F) : Balanced (s.step checks op).state (n + 1) := by
  have acc : ∀ (t : MoveStats F) (m : Nat), m < W64 → Balanced t m → ∀ p,
      Balanced (t.accept checks p).state m := by
    intro t m hm ht p
    refine balanced_update ht hm _ p (fun u h1 _ _ => ⟨rfl, ?_⟩)
    have e : succU u.accepted = u.accepted + 1 := by unfold succU; omega
    simp only [e]; omega
  have rej : ∀ (t : MoveStats F) (m : Nat), m < W64 → Balanced t m → ∀ p,
      Balanced (t.reject checks p).state m := by
    intro t m hm ht p
    refine balanced_update ht hm _ p (fun u _ h1 _ => ⟨rfl, ?_⟩)
    have e : succU u.rejected = u.rejected + 1 := by unfold succU; omega
    simp only [e]; omega
  have imp : ∀ (t : MoveStats F) (m : Nat), m < W64 → Balanced t m →
      Balanced (t.setImpossible checks).state m := by
    intro t m hm ht
    refine balanced_update ht hm _ _ (fun u _ _ h1 => ⟨rfl, ?_⟩)
    have e : succU u.impossible = u.impossible + 1 := by unfold succU; omega
    simp only [e]; omega
  cases op with
  | propose => exact balanced_propose h hn
  | accept p => exact balanced_mono (acc s n (by omega) h p) (Nat.le_succ n)
  | reject p => exact balanced_mono (rej s n (by omega) h p) (Nat.le_succ n)
  | impossible => exact balanced_mono (imp s n (by omega) h) (Nat.le_succ n)
  | reset => exact ⟨rfl, Nat.zero_le _⟩
  | add o p =>
    have hp := balanced_propose h hn
    unfold MoveStats.step MoveStats.add
    simp only
    split
    · split
      · exact acc _ _ hn hp _
      · split
        · exact rej _ _ hn hp _
        · split
          · exact imp _ _ hn hp
          · exact hp
    · exact hp

/-- C53.  After any sequence of fewer than 2^64 calls (failing ones and resets included) the counters
balance. -/
theorem C53_balance (checks : Bool) (name : String) (ops : List (MoveOp F)) (hn : ops.length < 2 ^ 64)
    (s : MoveStats F) (hs : s = (MoveStats.new name).after checks ops) :
    s.proposed = s.accepted + s.rejected + s.impossible + (if s.proposedflag then 1 else 0) ∧
    s.getName = name := by
  have gen : ∀ (ops : List (MoveOp F)) (s : MoveStats F) (n : Nat), Balanced s n → n + ops.length < W64 →
      Balanced (s.after checks ops) (n + ops.length) := by
    intro ops
    induction ops with
    | nil => intro s n h _; exact h
    | cons op ops ih =>
      intro s n h hl
      rw [List.length_cons] at hl
      have := ih _ (n + 1) (balanced_step checks s n h (by omega) op) (by omega)
      rw [List.length_cons]
      have e : n + (ops.length + 1) = n + 1 + ops.length := by omega
      rw [e]; exact this
  have hname : ∀ (ops : List (MoveOp F)) (s : MoveStats F), (s.after checks ops).name = s.name := by
    intro ops
    induction ops with
    | nil => intro s; rfl
    | cons op ops ih =>
      intro s
      have : (s.step checks op).state.name = s.name := by
        have hp : s.propose.state.name = s.name := by
          unfold MoveStats.propose MoveStats.updateIfNotProposed; split <;> rfl
        have hu : ∀ (t : MoveStats F) (f : MoveStats F → MoveStats F) (p : F), (∀ u, (f u).name = u.name) →
            (t.updateIfProposed checks f p).state.name = t.name := by
          intro t f p hf
          unfold MoveStats.updateIfProposed
          split
          · rfl
          · exact hf t
        cases op with
        | propose => exact hp
        | accept p => exact hu s _ p (fun _ => rfl)
        | reject p => exact hu s _ p (fun _ => rfl)
        | impossible => exact hu s _ _ (fun _ => rfl)
        | reset => rfl
        | add o p =>
          unfold MoveStats.step MoveStats.add
          simp only
          split
          · split
            · refine Eq.trans ?_ hp; exact hu _ _ _ (fun _ => rfl)
            · split
              · refine Eq.trans ?_ hp; exact hu _ _ _ (fun _ => rfl)
              · split
                · refine Eq.trans ?_ hp; exact hu _ _ _ (fun _ => rfl)
                · exact hp
          · exact hp
      exact (ih _).trans this
  have := gen ops (MoveStats.new name) 0 ⟨rfl, Nat.le_refl 0⟩ (by omega)
  subst hs
  exact ⟨this.1, hname ops _⟩

/-- C54.  `Add` on an object without a pending proposal: one proposal and one outcome of the kind of the result
are counted, the probability goes to the average (0 for an impossible move), nothing is pending
afterwards. -/
theorem C54_add (s : MoveStats F) (h : s.proposedflag = false) (o : Outcome) (p : F) :
    s.add false (moveResult p o) =
      ⟨{ s with
          proposed := succU s.proposed
          accepted := if o = .accepted then succU s.accepted else s.accepted
          rejected := if o = .rejected then succU s.rejected else s.rejected
          impossible := if o = .impossible then succU s.impossible else s.impossible
          prob := s.prob.addCore (if o = .impossible then CxxFloat.zero else p) }, .ok ()⟩ := by
  unfold MoveStats.add
  rw [propose_free h]
  cases o
  · simp only [moveResult, MoveResult.getStatus, MoveResult.probability, if_true]
    unfold MoveStats.accept
    rw [update_pending rfl]
    simp [h]
  · have e : MoveStatus.rejected ≠ MoveStatus.accepted := by decide
    simp only [moveResult, MoveResult.getStatus, MoveResult.probability, if_neg e, if_true]
    unfold MoveStats.reject
    rw [update_pending rfl]
    simp [h]
  · have e : MoveStatus.impossible ≠ MoveStatus.accepted := by decide
    have e' : MoveStatus.impossible ≠ MoveStatus.rejected := by decide
    simp only [moveResult, MoveResult.getStatus, if_neg e, if_neg e', if_true]
    unfold MoveStats.setImpossible
    rw [update_pending rfl]
    simp [h]

/-- C54.  `Add` is `Propose` followed by the outcome, in every state. -/
theorem C54_add_eq (checks : Bool) (s : MoveStats F) (h : s.proposedflag = false) (p : F) :
    s.add checks (MoveResult.accept p) = s.propose.state.accept checks p ∧
    s.add checks (MoveResult.reject p) = s.propose.state.reject checks p ∧
    s.add checks MoveResult.mkImpossible = s.propose.state.setImpossible checks ∧
    s.add checks MoveResult.new = s.propose.state.setImpossible checks := by
  have e : MoveStatus.rejected ≠ MoveStatus.accepted := by decide
  have e1 : MoveStatus.impossible ≠ MoveStatus.accepted := by decide
  have e2 : MoveStatus.impossible ≠ MoveStatus.rejected := by decide
  unfold MoveStats.add
  rw [propose_free h]
  refine ⟨?_, ?_, ?_, ?_⟩
  · simp only [MoveResult.accept, MoveResult.getStatus, MoveResult.probability, if_true]
  · simp only [MoveResult.reject, MoveResult.getStatus, MoveResult.probability, if_neg e, if_true]
  · simp only [MoveResult.mkImpossible, MoveResult.getStatus, if_neg e1, if_neg e2, if_true]
  · simp only [MoveResult.new, MoveResult.getStatus, if_neg e1, if_neg e2, if_true]

/-- Adding results one after another. -/
def MoveStats.addAll (s : MoveStats F) (rs : List (Outcome × F)) : MoveStats F :=
  rs.foldl (fun s r => (s.add false (moveResult r.2 r.1)).state) s

/-- C54.  After adding results to a fresh object: all calls succeed, and the counters are the numbers of
results of each kind. -/
theorem C54_history (name : String) (rs : List (Outcome × F)) (hn : rs.length < 2 ^ 64) :
    (MoveStats.new name).allOk false (rs.map (fun r => .add r.1 r.2)) ∧
    (MoveStats.new name).addAll rs =
      ⟨name, false, rs.length, rs.countP (fun r => r.1 = .accepted), rs.countP (fun r => r.1 = .rejected),
        rs.countP (fun r => r.1 = .impossible),
        (rs.map (fun r => if r.1 = .impossible then CxxFloat.zero else r.2)).foldl Kahan.addCore
          Kahan.new⟩ := by
  have gen : ∀ (rs : List (Outcome × F)) (s : MoveStats F), s.proposedflag = false →
      s.proposed + rs.length < W64 → s.accepted + rs.length < W64 → s.rejected + rs.length < W64 →
      s.impossible + rs.length < W64 →
      s.allOk false (rs.map (fun r => .add r.1 r.2)) ∧
      s.addAll rs = ⟨s.name, false, s.proposed + rs.length, s.accepted + rs.countP (fun r => r.1 = .accepted),
        s.rejected + rs.countP (fun r => r.1 = .rejected), s.impossible + rs.countP (fun r => r.1 = .impossible),
        (rs.map (fun r => if r.1 = .impossible then CxxFloat.zero else r.2)).foldl Kahan.addCore s.prob⟩ := by
    intro rs
    induction rs with
    | nil => intro s h _ _ _ _; exact ⟨trivial, by simp [MoveStats.addAll, ← h]⟩
    | cons r rs ih =>
      intro s h h1 h2 h3 h4
      rw [List.length_cons] at h1 h2 h3 h4
      have hadd := C54_add s h r.1 r.2
      have e1 : succU s.proposed = s.proposed + 1 := by unfold succU; omega
      have e2 : succU s.accepted = s.accepted + 1 := by unfold succU; omega
      have e3 : succU s.rejected = s.rejected + 1 := by unfold succU; omega
      have e4 : succU s.impossible = s.impossible + 1 := by unfold succU; omega
      rw [e1, e2, e3, e4] at hadd
      obtain ⟨i1, i2⟩ := ih (s.add false (moveResult r.2 r.1)).state (by rw [hadd]; exact h)
        (by rw [hadd]; simp only; omega) (by rw [hadd]; simp only; split <;> omega)
        (by rw [hadd]; simp only; split <;> omega) (by rw [hadd]; simp only; split <;> omega)
      constructor
      · rw [List.map_cons, MoveStats.allOk, MoveStats.step]
        exact ⟨by rw [hadd], i1⟩
      · have : s.addAll (r :: rs) = (s.add false (moveResult r.2 r.1)).state.addAll rs := rfl
        rw [this, i2, hadd]
        simp only [List.length_cons, List.countP_cons, List.map_cons, List.foldl_cons, decide_eq_true_eq,
          MoveStats.mk.injEq, true_and, and_true]
        refine ⟨by omega, ?_, ?_, ?_⟩ <;> split <;> omega
  have := gen rs (MoveStats.new name) rfl (by show 0 + _ < _; omega) (by show 0 + _ < _; omega)
    (by show 0 + _ < _; omega) (by show 0 + _ < _; omega)
  simpa [MoveStats.new] using this

/-- A status outside of the enumeration only leaves a proposal pending. -/
theorem C54_other_status (checks : Bool) (s : MoveStats F) (r : MoveResult F)
    (h1 : r.isAccepted = false) (h2 : r.isRejected = false) (h3 : r.isImpossible = false) :
    s.add checks r = s.propose := by
  simp only [MoveResult.isAccepted, MoveResult.isRejected, MoveResult.isImpossible, beq_eq_false_iff_ne] at h1 h2 h3
  unfold MoveStats.add
  simp only [if_neg (show ¬ r.getStatus = _ from h1), if_neg (show ¬ r.getStatus = _ from h2),
    if_neg (show ¬ r.getStatus = _ from h3)]
  split <;> rfl

end

section
variable {K : Type} [Field K] [LinearOrder K] [IsStrictOrderedRing K] {A : Arith K}

/-- C53.  In exact arithmetic, with at least one proposal and none pending, the three ratios are in [0,1] and
sum to 1. -/
theorem C53_ratios (hA : A.IsExact) (s : MoveStats (Num A))
    (hb : s.proposed = s.accepted + s.rejected + s.impossible + (if s.proposedflag then 1 else 0))
    (hp : s.proposed ≠ 0) :
    ∃ a r i : K, s.getAcceptedRatio = .fin a ∧ s.getRejectedRatio = .fin r ∧ s.getImpossibleRatio = .fin i ∧
      0 ≤ a ∧ a ≤ 1 ∧ 0 ≤ r ∧ r ≤ 1 ∧ 0 ≤ i ∧ i ≤ 1 ∧ (s.proposedflag = false → a + r + i = 1) := by
  have hne : (s.proposed : K) ≠ 0 := by exact_mod_cast hp
  have hpos : (0 : K) < s.proposed := by exact_mod_cast Nat.pos_of_ne_zero hp
  have le1 : ∀ n, n ≤ s.proposed → (n : K) / s.proposed ≤ 1 := by
    intro n hn
    rw [div_le_one hpos]; exact_mod_cast hn
  refine ⟨s.accepted / s.proposed, s.rejected / s.proposed, s.impossible / s.proposed, ?_, ?_, ?_,
    by positivity, le1 _ (by omega), by positivity, le1 _ (by omega), by positivity, le1 _ (by omega), ?_⟩
  · unfold MoveStats.getAcceptedRatio
    rw [if_neg hp]
    simp only [Num.ofNat_eq, Num.round_exact hA, Num.fin_div hne]
  · simp only [MoveStats.getRejectedRatio, Num.ofNat_eq, Num.round_exact hA, Num.fin_div hne]
  · simp only [MoveStats.getImpossibleRatio, Num.ofNat_eq, Num.round_exact hA, Num.fin_div hne]
  · intro hf
    rw [hf] at hb
    rw [← add_div, ← add_div, div_eq_one_iff_eq hne, hb]
    push_cast; simp

section
variable [FloorRing K]

/-- C53.  In binary64 arithmetic the ratios are still in [0,1]. -/
theorem C53_ratios_binary64 (hA : A.IsBinary64) (s : MoveStats (Num A))
    (hb : s.proposed = s.accepted + s.rejected + s.impossible + (if s.proposedflag then 1 else 0))
    (hp : s.proposed ≠ 0) (hW : s.proposed < 2 ^ 64) :
    ∃ a r i : K, s.getAcceptedRatio = .fin a ∧ s.getRejectedRatio = .fin r ∧ s.getImpossibleRatio = .fin i ∧
      0 ≤ a ∧ a ≤ 1 ∧ 0 ≤ r ∧ r ≤ 1 ∧ 0 ≤ i ∧ i ≤ 1 := by
  have d1 : Double (1 : K) := ⟨1, 0, by decide, by decide, by simp⟩
  have d64 : Double ((2 : K) ^ (64 : Int)) := ⟨1, 64, by decide, by decide, by simp⟩
  have big : ∀ x : K, 0 ≤ x → x ≤ (2 : K) ^ (64 : Int) → A.rnd x = some (rn x) := by
    intro x h0 h1
    rw [hA]; unfold rnd64
    rw [if_pos]
    have a0 : 0 ≤ rn x := by have := rn_mono h0; rwa [rn_zero] at this
    have a1 : rn x ≤ (2 : K) ^ (64 : Int) := by have := rn_mono h1; rwa [rn_double d64] at this
    rw [abs_of_nonneg a0]
    exact a1.trans_lt (zpow_lt_zpow_right₀ one_lt_two (by decide))
  have hnat : ∀ n : Nat, n ≤ s.proposed → (Num.round A (n : K)) = .fin (rn (n : K)) := by
    intro n hn
    refine Num.round_of (big _ (Nat.cast_nonneg n) ?_)
    have : (n : K) ≤ ((2 ^ 64 : Nat) : K) := by exact_mod_cast (hn.trans hW.le)
    refine this.trans (le_of_eq ?_)
    push_cast; norm_cast
  have hpos : (1 : K) ≤ rn (s.proposed : K) := by
    have : (1 : K) ≤ (s.proposed : K) := by exact_mod_cast Nat.pos_of_ne_zero hp
    have := rn_mono this
    rwa [rn_double d1] at this
  have hne : rn (s.proposed : K) ≠ 0 := by intro h; rw [h] at hpos; exact absurd hpos (by norm_num)
  have ratio : ∀ n : Nat, n ≤ s.proposed → ∃ x : K,
      (Num.round A (n : K)) / (Num.round A (s.proposed : K)) = .fin x ∧ 0 ≤ x ∧ x ≤ 1 := by
    intro n hn
    have n0 : 0 ≤ rn (n : K) := by have := rn_mono (Nat.cast_nonneg (α := K) n); rwa [rn_zero] at this
    have nle : rn (n : K) ≤ rn (s.proposed : K) := rn_mono (by exact_mod_cast hn)
    have q0 : 0 ≤ rn (n : K) / rn (s.proposed : K) := div_nonneg n0 (by linarith)
    have q1 : rn (n : K) / rn (s.proposed : K) ≤ 1 := (div_le_one (by linarith)).2 nle
    refine ⟨rn (rn (n : K) / rn (s.proposed : K)), ?_, ?_, ?_⟩
    · rw [hnat n hn, hnat _ le_rfl, Num.fin_div hne]
      exact Num.round_of (big _ q0 (q1.trans (one_le_zpow₀ one_le_two (by decide))))
    · have := rn_mono q0; rwa [rn_zero] at this
    · have := rn_mono q1; rwa [rn_double d1] at this
  obtain ⟨a, ea, a0, a1⟩ := ratio s.accepted (by omega)
  obtain ⟨r, er, r0, r1⟩ := ratio s.rejected (by omega)
  obtain ⟨i, ei, i0, i1⟩ := ratio s.impossible (by omega)
  refine ⟨a, r, i, ?_, er, ei, a0, a1, r0, r1, i0, i1⟩
  unfold MoveStats.getAcceptedRatio
  rw [if_neg hp]
  exact ea

end

/-- C54.  In exact arithmetic the average probability after adding results is the mean of their probabilities,
an impossible move counting as 0 whatever probability its result carries. -/
theorem C54_average (hA : A.IsExact) (name : String) (rs : List (Outcome × K)) (h0 : rs ≠ [])
    (hn : rs.length < 2 ^ 64) :
    ((MoveStats.new name).addAll (rs.map (fun r => (r.1, (.fin r.2 : Num A))))).getAverageProbability =
      .fin (avg (rs.map (fun r => if r.1 = .impossible then 0 else r.2))) := by
  rw [(C54_history name _ (by rwa [List.length_map])).2]
  unfold MoveStats.getAverageProbability
  simp only
  have : (rs.map (fun r => (r.1, (.fin r.2 : Num A)))).map
      (fun r => if r.1 = .impossible then CxxFloat.zero else r.2) =
      (rs.map (fun r => if r.1 = .impossible then 0 else r.2)).map .fin := by
    rw [List.map_map, List.map_map]
    refine List.map_congr_left (fun r _ => ?_)
    simp only [Function.comp]
    split
    · rfl
    · rfl
  rw [this]
  exact (C36_mean_exact hA _ (by simpa using h0) (by rwa [List.length_map])).1

/-- C55 is violated: before any proposal the accepted ratio is 0, but the others are not numbers.  (This holds
for every object without proposals whose average has no samples, in particular for a fresh one.) -/
theorem C55_violated (s : MoveStats (Num A)) (hA : A.rnd 0 = some 0) (hp : s.proposed = 0) (hr : s.rejected = 0)
    (hi : s.impossible = 0) (hk : s.prob = Kahan.new) :
    s.getAcceptedRatio = .fin 0 ∧ s.getRejectedRatio = .nan ∧ s.getImpossibleRatio = .nan ∧
      s.getAverageProbability = .nan := by
  have z : (Num.round A ((0 : Nat) : K)) = .fin 0 := by rw [Nat.cast_zero]; exact Num.round_of hA
  have d : (Num.fin 0 : Num A) / .fin 0 = .nan := by
    show Num.div _ _ = _
    simp [Num.div]
  refine ⟨?_, ?_, ?_, ?_⟩
  · unfold MoveStats.getAcceptedRatio; rw [if_pos hp]; rfl
  · simp only [MoveStats.getRejectedRatio, hr, hp, Num.ofNat_eq, z, d]
  · simp only [MoveStats.getImpossibleRatio, hi, hp, Num.ofNat_eq, z, d]
  · simp only [MoveStats.getAverageProbability, hk, Kahan.mean, Kahan.new, Num.ofNat_eq, z, Num.zero_eq, d]

/-- C55.  An object without proposals is fresh up to its name, so the hypotheses of `C55_violated` hold. -/
theorem C55_fresh (name : String) : (MoveStats.new name : MoveStats (Num A)).proposed = 0 ∧
    (MoveStats.new name : MoveStats (Num A)).rejected = 0 ∧
    (MoveStats.new name : MoveStats (Num A)).impossible = 0 ∧
    (MoveStats.new name : MoveStats (Num A)).prob = Kahan.new := ⟨rfl, rfl, rfl, rfl⟩

/-- C55 (what holds).  After a proposal all three ratios are numbers (exact arithmetic). -/
theorem C55_after_proposal_partial (hA : A.IsExact) (s : MoveStats (Num A)) (hp : s.proposed ≠ 0) :
    (∃ x, s.getAcceptedRatio = .fin x) ∧ (∃ x, s.getRejectedRatio = .fin x) ∧
      ∃ x, s.getImpossibleRatio = .fin x := by
  have hne : (s.proposed : K) ≠ 0 := by exact_mod_cast hp
  refine ⟨⟨s.accepted / s.proposed, ?_⟩, ⟨s.rejected / s.proposed, ?_⟩, ⟨s.impossible / s.proposed, ?_⟩⟩
  · unfold MoveStats.getAcceptedRatio
    rw [if_neg hp]
    simp only [Num.ofNat_eq, Num.round_exact hA, Num.fin_div hne]
  · simp only [MoveStats.getRejectedRatio, Num.ofNat_eq, Num.round_exact hA, Num.fin_div hne]
  · simp only [MoveStats.getImpossibleRatio, Num.ofNat_eq, Num.round_exact hA, Num.fin_div hne]

end
end Bwsl
