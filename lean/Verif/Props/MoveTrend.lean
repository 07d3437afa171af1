import Verif.Props.MoveHistory
import Verif.Props.HistDouble

/-! Property C189: what one more move or measurement does to the ratios. -/

namespace Bwsl
open Spec

section
variable {A : Arith ℝ}

theorem ratio_hit {n p : Nat} (h : n ≤ p) (hp : p ≠ 0) : rn ((n : ℝ) / p) ≤ rn (((n + 1 : Nat) : ℝ) / ((p + 1 : Nat) : ℝ)) := by
  refine rn_mono ?_
  have h0 : (0 : ℝ) < p := by exact_mod_cast Nat.pos_of_ne_zero hp
  have h1 : (n : ℝ) ≤ p := by exact_mod_cast h
  push_cast
  rw [div_le_div_iff₀ h0 (by linarith)]
  nlinarith

theorem ratio_miss (n : Nat) {p : Nat} (hp : p ≠ 0) : rn ((n : ℝ) / ((p + 1 : Nat) : ℝ)) ≤ rn ((n : ℝ) / p) := by
  refine rn_mono ?_
  have h0 : (0 : ℝ) < p := by exact_mod_cast Nat.pos_of_ne_zero hp
  have h1 : (0 : ℝ) ≤ n := Nat.cast_nonneg n
  push_cast
  exact div_le_div_of_nonneg_left h1 h0 (by linarith)

theorem succU_small {n : Nat} (h : n < 2 ^ 53) : succU n = n + 1 := by
  unfold succU
  omega

/-- C189.  After any history without a pending proposal, another move of one kind never lowers the ratio of its kind and never
raises the two others, in double precision, as long as there are at most 2^53 proposals. -/
theorem C189_add (hA : A.IsBinary64) (name : String) (ops : List (MoveOp (Num A))) (hn : ops.length < 2 ^ 64) (s : MoveStats (Num A))
    (hs : s = (MoveStats.new name).after false ops) (hf : s.proposedflag = false) (hp : s.proposed ≠ 0) (hb : s.proposed < 2 ^ 53)
    (o : Outcome) (q : Num A) :
    ∃ t a r i a' r' i', s.add false (moveResult q o) = ⟨t, .ok ()⟩ ∧
      s.getAcceptedRatio = .fin a ∧ s.getRejectedRatio = .fin r ∧ s.getImpossibleRatio = .fin i ∧
      t.getAcceptedRatio = .fin a' ∧ t.getRejectedRatio = .fin r' ∧ t.getImpossibleRatio = .fin i' ∧
      (if o = .accepted then a ≤ a' else a' ≤ a) ∧ (if o = .rejected then r ≤ r' else r' ≤ r) ∧
      (if o = .impossible then i ≤ i' else i' ≤ i) := by
  obtain ⟨bal, -⟩ := C53_balance false name ops hn s hs
  obtain ⟨a1, a2, a3, -⟩ := C115_ratios hA s bal hp hb.le
  have e1 : succU s.proposed = s.proposed + 1 := succU_small hb
  rw [if_neg (by rw [hf]; exact Bool.false_ne_true), add_zero] at bal
  have e2 : succU s.accepted = s.accepted + 1 := succU_small (by omega)
  have e3 : succU s.rejected = s.rejected + 1 := succU_small (by omega)
  have e4 : succU s.impossible = s.impossible + 1 := succU_small (by omega)
  have ht := C54_add s hf o q
  rw [e1, e2, e3, e4] at ht
  refine ⟨_, _, _, _, rn (((if o = .accepted then s.accepted + 1 else s.accepted : Nat) : ℝ) / ((s.proposed + 1 : Nat) : ℝ)),
    rn (((if o = .rejected then s.rejected + 1 else s.rejected : Nat) : ℝ) / ((s.proposed + 1 : Nat) : ℝ)),
    rn (((if o = .impossible then s.impossible + 1 else s.impossible : Nat) : ℝ) / ((s.proposed + 1 : Nat) : ℝ)), ht, a1, a2, a3, ?_⟩
  obtain ⟨b1, b2, b3, -⟩ := C115_ratios hA { s with
      proposed := s.proposed + 1
      accepted := if o = .accepted then s.accepted + 1 else s.accepted
      rejected := if o = .rejected then s.rejected + 1 else s.rejected
      impossible := if o = .impossible then s.impossible + 1 else s.impossible
      prob := s.prob.addCore (if o = .impossible then CxxFloat.zero else q) } (by
        show s.proposed + 1 = _
        rw [if_neg (show ¬(s.proposedflag = true) by rw [hf]; exact Bool.false_ne_true)]
        cases o <;> simp <;> omega) (Nat.succ_ne_zero _) hb
  refine ⟨b1, b2, b3, ?_, ?_, ?_⟩
  · split
    · exact ratio_hit (by omega) hp
    · exact ratio_miss _ hp
  · split
    · exact ratio_hit (by omega) hp
    · exact ratio_miss _ hp
  · split
    · exact ratio_hit (by omega) hp
    · exact ratio_miss _ hp

/-- C189.  A proposal that is not yet resolved does not raise any of the ratios. -/
theorem C189_propose (hA : A.IsBinary64) (name : String) (ops : List (MoveOp (Num A))) (hn : ops.length < 2 ^ 64) (s : MoveStats (Num A))
    (hs : s = (MoveStats.new name).after false ops) (hf : s.proposedflag = false) (hp : s.proposed ≠ 0) (hb : s.proposed < 2 ^ 53) :
    ∃ t a r i a' r' i', s.propose = ⟨t, .ok ()⟩ ∧
      s.getAcceptedRatio = .fin a ∧ s.getRejectedRatio = .fin r ∧ s.getImpossibleRatio = .fin i ∧
      t.getAcceptedRatio = .fin a' ∧ t.getRejectedRatio = .fin r' ∧ t.getImpossibleRatio = .fin i' ∧ a' ≤ a ∧ r' ≤ r ∧ i' ≤ i := by
  obtain ⟨bal, -⟩ := C53_balance false name ops hn s hs
  obtain ⟨a1, a2, a3, -⟩ := C115_ratios hA s bal hp hb.le
  rw [if_neg (by rw [hf]; exact Bool.false_ne_true), add_zero] at bal
  have ht : s.propose = ⟨{ s with proposed := s.proposed + 1, proposedflag := true }, .ok ()⟩ := by
    unfold MoveStats.propose MoveStats.updateIfNotProposed
    rw [if_neg (by rw [hf]; exact Bool.false_ne_true)]
    dsimp only
    rw [succU_small hb]
  obtain ⟨b1, b2, b3, -⟩ := C115_ratios hA { s with proposed := s.proposed + 1, proposedflag := true } (by
    show s.proposed + 1 = s.accepted + s.rejected + s.impossible + 1
    omega) (Nat.succ_ne_zero _) hb
  exact ⟨_, _, _, _, _, _, _, ht, a1, a2, a3, b1, b2, b3, ratio_miss _ hp, ratio_miss _ hp, ratio_miss _ hp⟩

/-- C189.  Another unitary measurement never lowers the result of its bin and never raises that of another bin. -/
theorem C189_histogram (hA : A.IsBinary64) (n : Nat) (hn : n < 2 ^ 64) (is : List (Bool × Nat)) (m : Bool × Nat) (h0 : is ≠ [])
    (ha : UnitsAddressed n is) (ha' : UnitsAddressed n (is ++ [m])) (hm : is.length < 2 ^ 53) :
    ∃ h h' : Hist (Num A), (Hist.new n).runUnits is = .ok h ∧ (Hist.new n).runUnits (is ++ [m]) = .ok h' ∧
      ∀ i < h.getNbins, i < h'.getNbins → ∃ p p', h.getResult i = .ok (.fin p) ∧ h'.getResult i = .ok (.fin p') ∧
        (if i = m.2 then p ≤ p' else p' ≤ p) := by
  have hl : (is ++ [m]).length = is.length + 1 := by rw [List.length_append, List.length_singleton]
  have hne : is.length ≠ 0 := fun h => h0 (List.length_eq_zero_iff.1 h)
  obtain ⟨h, p, a1, a2, -, a3, -⟩ := C115_frequencies hA n hn is ha hm.le h0
  obtain ⟨h', p', b1, b2, -, b3, -⟩ := C115_frequencies hA n hn (is ++ [m]) ha' (by rw [hl]; exact hm)
    (List.append_ne_nil_of_left_ne_nil h0 _)
  refine ⟨h, h', a1, b1, fun i hi hi' => ⟨p i, p' i, a2 i hi, b2 i hi', ?_⟩⟩
  rw [a3, b3, hl, List.countP_append, List.countP_singleton]
  split
  · next h =>
    rw [if_pos (by rw [h]; exact beq_self_eq_true _)]
    exact ratio_hit List.countP_le_length hne
  · next h =>
    rw [if_neg (fun h' => h (beq_iff_eq.1 h').symm), add_zero]
    exact ratio_miss _ hne

example : UnitsAddressed 2 [(false, 1), (true, 5)] ∧ UnitsAddressed 2 ([(false, 1), (true, 5)] ++ [(false, 4)]) := by
  constructor <;> simp [UnitsAddressed]

/-- One accepted move, then another. -/
example (p : Num A) : let s := (MoveStats.new "hop" : MoveStats (Num A)).after false [.propose, .accept p]
    s.proposedflag = false ∧ s.proposed ≠ 0 ∧ s.proposed < 2 ^ 53 := by
  refine ⟨rfl, ?_, ?_⟩
  · show succU 0 ≠ 0
    decide
  · show succU 0 < 2 ^ 53
    decide

end
end Bwsl
