import Verif.Cxx.Int64

/-! Lemmas about `whileLoop`. -/

namespace Bwsl

theorem whileLoop_done {cond : σ → Bool} {body : σ → Res σ} {s : σ} (h : cond s = false) :
    whileLoop cond body s = .ok s := by rw [whileLoop, h]; rfl

theorem whileLoop_step {cond : σ → Bool} {body : σ → Res σ} {s s' : σ} (h : cond s = true)
    (hb : body s = .ok s') : whileLoop cond body s = whileLoop cond body s' := by
  rw [whileLoop, h, if_pos rfl, hb, Res.ok_bind]

theorem whileLoop_ub {cond : σ → Bool} {body : σ → Res σ} {s : σ} {k : UB} (h : cond s = true)
    (hb : body s = .ub k) : whileLoop cond body s = .ub k := by
  rw [whileLoop, h, if_pos rfl, hb, Res.ub_bind]

/-- A loop that never leaves a set of states in which the condition holds does not return. -/
theorem whileLoop_diverges {cond : σ → Bool} {body : σ → Res σ} (I : σ → Prop)
    (hc : ∀ s, I s → cond s = true) (hb : ∀ s, I s → ∃ s', body s = .ok s' ∧ I s') (s : σ) (hs : I s) :
    whileLoop cond body s = .diverges := by
  have := whileLoop.fixpoint_induct cond body
    (motive := fun f => ∀ s, I s → f s = .diverges)
    (by
      apply Lean.Order.admissible_pi_apply (fun s (x : Res σ) => I s → x = .diverges)
      intro s
      apply Lean.Order.admissible_flatOrder
      intro _; rfl)
    (by
      intro f ih s hs
      obtain ⟨s', h1, h2⟩ := hb s hs
      simp only [hc s hs, if_true, h1, Res.ok_bind]
      exact ih s' h2)
  exact this s hs

end Bwsl
