import Verif.Model.Hist
import Verif.Spec.Hist
import Verif.Lemmas.Loop
import Verif.Props.AccumSum

/-! Properties C47–C51: histograms. -/

namespace Bwsl
open Spec

set_option linter.unusedSectionVars false

section
variable {F : Type} [CxxFloat F]

/-- The object after a call that returns normally. -/
def Call.toRes (c : Call σ Unit) : Res σ := do
  let _ ← c.res
  .ok c.state

/-- One call of a history, without BWSL_ACCUMULATORS_CHECKS. -/
def Hist.step (h : Hist F) : HistOp F → Res (Hist F)
  | .add i x => (h.add false i x).toRes
  | .forceAdd i x => (h.forceAdd false i x).toRes
  | .reset => .ok h.reset

/-- A history of calls. -/
def Hist.run (h : Hist F) : List (HistOp F) → Res (Hist F)
  | [] => .ok h
  | op :: ops => do
    let h ← h.step op
    Hist.run h ops

/-- What the histogram holds, given the measurements since the last reset. -/
structure HistInv (h : Hist F) (ms : List (Nat × F)) : Prop where
  size : h.nbins = h.acc.length
  small : h.nbins < W64
  bins : ∀ i a, h.acc[i]? = some a → a = (inBin i ms).foldl Neumaier.addCore Neumaier.new
  inside : ∀ m ∈ ms, m.1 < h.nbins
  count : h.count = ms.length % W64

theorem HistInv.get {h : Hist F} {ms : List (Nat × F)} (hi : HistInv h ms) {i : Nat} (hb : i < h.nbins) :
    ∃ a, h.acc[i]? = some a := by
  have hb' : i < h.acc.length := hi.size ▸ hb
  exact ⟨_, List.getElem?_eq_getElem hb'⟩

theorem inBin_snoc (i j : Nat) (x : X) (ms : List (Nat × X)) :
    inBin i (ms ++ [(j, x)]) = if j = i then inBin i ms ++ [x] else inBin i ms := by
  unfold inBin
  by_cases h : j = i
  · simp [h]
  · simp [h]

theorem inBin_outside {i : Nat} {ms : List (Nat × X)} (h : ∀ m ∈ ms, m.1 < i) : inBin i ms = [] := by
  unfold inBin
  rw [List.map_eq_nil_iff, List.filter_eq_nil_iff]
  intro m hm
  have := h m hm
  simp; omega

theorem histInv_new (n : Nat) (hn : n < W64) : HistInv (Hist.new n : Hist F) [] where
  size := by simp [Hist.new]
  small := hn
  bins := by
    intro i a h
    have := List.mem_of_getElem? h
    simp only [Hist.new, List.mem_replicate] at this
    rw [this.2]; rfl
  inside := by simp
  count := rfl

theorem Hist.addTo_ok (h : Hist F) (i : Nat) (x : F) (a : Neumaier F) (ha : h.acc[i]? = some a) :
    h.addTo false i x = ⟨⟨h.nbins, h.acc.set i (a.addCore x), succU h.count⟩, .ok ()⟩ := by
  unfold Hist.addTo
  rw [ha]
  simp [Neumaier.add, guarded]

theorem Hist.addTo_oob (checks : Bool) (h : Hist F) (i : Nat) (x : F) (hi : h.acc.length ≤ i) :
    h.addTo checks i x = ⟨h, .ub .outOfBounds⟩ := by
  unfold Hist.addTo
  rw [List.getElem?_eq_none hi]

theorem histInv_add {h : Hist F} {ms : List (Nat × F)} (hi : HistInv h ms) (i : Nat) (x : F)
    (hb : i < h.nbins) :
    ∃ h', (h.addTo false i x).toRes = .ok h' ∧ h'.nbins = h.nbins ∧ HistInv h' (ms ++ [(i, x)]) := by
  have hb' : i < h.acc.length := hi.size ▸ hb
  have hget : h.acc[i]? = some h.acc[i] := List.getElem?_eq_getElem hb'
  refine ⟨⟨h.nbins, h.acc.set i (h.acc[i].addCore x), succU h.count⟩,
    by rw [Hist.addTo_ok h i x _ hget]; rfl, rfl, ?_⟩
  refine ⟨by simp [hi.size], hi.small, ?_, ?_, ?_⟩
  · intro j a ha
    simp only at ha
    rw [List.getElem?_set] at ha
    rw [inBin_snoc]
    split at ha
    · rename_i hij
      rw [if_pos hij]
      rw [Option.some.injEq] at ha
      subst hij
      rw [← ha, List.foldl_append, ← hi.bins i _ hget]; rfl
    · rename_i hij
      rw [if_neg hij]
      exact hi.bins j a ha
  · intro m hm
    rcases List.mem_append.1 hm with hm | hm
    · exact hi.inside m hm
    · rw [List.mem_singleton] at hm; subst hm; exact hb
  · show succU h.count = _
    rw [hi.count, List.length_append, List.length_singleton]
    unfold succU; omega

theorem histInv_reset {h : Hist F} {ms : List (Nat × F)} (hi : HistInv h ms) : HistInv h.reset [] where
  size := by simp [Hist.reset, hi.size]
  small := hi.small
  bins := by
    intro i a ha
    simp only [Hist.reset, List.getElem?_map, Option.map_eq_some_iff] at ha
    obtain ⟨b, _, rfl⟩ := ha
    rfl
  inside := by simp
  count := rfl

/-- The loop of `ForceAdd`. -/
theorem Hist.grow_eq (h : Hist F) (i : Nat) (hs : h.nbins = h.acc.length) (hi : i < W64 - 1) :
    h.grow i = .ok ⟨max h.nbins (i + 1),
      h.acc ++ List.replicate (i + 1 - h.nbins) Neumaier.new, h.count⟩ := by
  generalize hd : i + 1 - h.nbins = d
  induction d generalizing h with
  | zero =>
    unfold Hist.grow
    rw [whileLoop_done (by simp; omega)]
    have : max h.nbins (i + 1) = h.nbins := by omega
    simp [this]
  | succ d ih =>
    have hsu : succU h.nbins = h.nbins + 1 := by unfold succU; omega
    unfold Hist.grow at ih ⊢
    have hstep : Hist.growStep h = .ok ⟨h.nbins + 1, h.acc ++ [Neumaier.new], h.count⟩ := by
      unfold Hist.growStep
      simp only [hsu]
      rw [if_pos (by simp [hs])]
    refine Eq.trans (whileLoop_step (s := h) (by simp; omega) hstep) ?_
    rw [ih _ (by simp [hs]) (by simp only; omega)]
    congr 2
    · simp only; omega
    · rw [List.append_assoc]; rfl

theorem histInv_grow {h : Hist F} {ms : List (Nat × F)} (hi : HistInv h ms) (i : Nat) (hb : i < W64 - 1) :
    ∃ h', h.grow i = .ok h' ∧ h'.nbins = max h.nbins (i + 1) ∧ HistInv h' ms := by
  have hsm := hi.small
  have hsz := hi.size
  refine ⟨_, Hist.grow_eq h i hi.size hb, rfl, ?_⟩
  refine ⟨by simp only [List.length_append, List.length_replicate]; omega, by simp only; omega, ?_, ?_, hi.count⟩
  · intro j a ha
    simp only at ha
    rcases Nat.lt_or_ge j h.acc.length with hj | hj
    · rw [List.getElem?_append_left hj] at ha
      exact hi.bins j a ha
    · rw [List.getElem?_append_right hj] at ha
      have := List.mem_of_getElem? ha
      rw [List.mem_replicate] at this
      rw [this.2, inBin_outside (fun m hm => by have := hi.inside m hm; omega)]
      rfl
  · intro m hm
    have := hi.inside m hm
    simp only; omega

theorem Hist.forceAdd_grow {h h' : Hist F} {i : Nat} {x : F} (hg : h.grow i = .ok h') (checks : Bool) :
    h.forceAdd checks i x = h'.addTo checks i x := by
  unfold Hist.forceAdd; rw [hg]

/-- An index of 2^64-1 cannot be reached: the assertion in the loop fails when the number of bins wraps. -/
theorem Hist.grow_max (h : Hist F) (hs : h.nbins = h.acc.length) (hb : h.nbins < W64) :
    h.grow (W64 - 1) = .ub .assertion := by
  generalize hd : W64 - 1 - h.nbins = d
  induction d generalizing h with
  | zero =>
    unfold Hist.grow
    refine whileLoop_ub (by simp; omega) ?_
    unfold Hist.growStep
    have hsu : succU h.nbins = 0 := by unfold succU; omega
    simp only [hsu]
    rw [if_neg (by simp)]
  | succ d ih =>
    have hsu : succU h.nbins = h.nbins + 1 := by unfold succU; omega
    have hstep : Hist.growStep h = .ok ⟨h.nbins + 1, h.acc ++ [Neumaier.new], h.count⟩ := by
      unfold Hist.growStep
      simp only [hsu]
      rw [if_pos (by simp [hs])]
    unfold Hist.grow at ih ⊢
    refine Eq.trans (whileLoop_step (s := h) (by simp; omega) hstep) ?_
    exact ih _ (by simp [hs]) (by simp only; omega) (by simp only; omega)

/-- A history from a state with known measurements. -/
theorem hist_run (ops : List (HistOp F)) (h : Hist F) (ms : List (Nat × F)) (hi : HistInv h ms)
    (ha : Addressed h.nbins ops) :
    ∃ h', h.run ops = .ok h' ∧ h'.nbins = binsAfter h.nbins ops ∧
      HistInv h' (if ops.any measurements.isReset then measurements ops else ms ++ measurements ops) := by
  induction ops generalizing h ms with
  | nil => exact ⟨h, rfl, rfl, by simpa [measurements] using hi⟩
  | cons op ops ih =>
    cases op with
    | add i x =>
      obtain ⟨h1, e1, e2, e3⟩ := histInv_add hi i x ha.1
      obtain ⟨h2, f1, f2, f3⟩ := ih h1 _ e3 (e2 ▸ ha.2)
      refine ⟨h2, ?_, by rw [f2, e2]; rfl, ?_⟩
      · rw [Hist.run, Hist.step, Hist.add, e1, Res.ok_bind, f1]
      · rw [List.any_cons, show measurements.isReset (X := F) _ = false from rfl, Bool.false_or, measurements]
        cases hb : ops.any measurements.isReset with
        | true => rw [hb, if_pos rfl] at f3; rw [if_pos rfl, if_pos rfl]; exact f3
        | false =>
          rw [hb, if_neg (by simp)] at f3
          rw [if_neg (by simp), if_neg (by simp)]
          rwa [List.append_assoc] at f3
    | forceAdd i x =>
      obtain ⟨h0, g1, g2, g3⟩ := histInv_grow hi i ha.1
      obtain ⟨h1, e1, e2, e3⟩ := histInv_add g3 i x (by omega)
      obtain ⟨h2, f1, f2, f3⟩ := ih h1 _ e3 (by rw [e2, g2]; exact ha.2)
      refine ⟨h2, ?_, by rw [f2, e2, g2]; rfl, ?_⟩
      · rw [Hist.run, Hist.step, Hist.forceAdd_grow g1, e1, Res.ok_bind, f1]
      · rw [List.any_cons, show measurements.isReset (X := F) _ = false from rfl, Bool.false_or, measurements]
        cases hb : ops.any measurements.isReset with
        | true => rw [hb, if_pos rfl] at f3; rw [if_pos rfl, if_pos rfl]; exact f3
        | false =>
          rw [hb, if_neg (by simp)] at f3
          rw [if_neg (by simp), if_neg (by simp)]
          rwa [List.append_assoc] at f3
    | reset =>
      obtain ⟨h2, f1, f2, f3⟩ := ih h.reset [] (histInv_reset hi) ha
      refine ⟨h2, by rw [Hist.run, Hist.step, Res.ok_bind, f1], f2, ?_⟩
      rw [List.any_cons, measurements.isReset, Bool.true_or, if_pos rfl, measurements]
      cases hb : ops.any measurements.isReset with
      | true => rwa [hb, if_pos rfl] at f3
      | false => rwa [hb, if_neg (by simp), List.nil_append] at f3

/-- Calls addressed outside of the histogram are undefined. -/
theorem hist_run_conv (ops : List (HistOp F)) (h : Hist F) (ms : List (Nat × F)) (hi : HistInv h ms)
    (hsz : ∀ op ∈ ops, ∀ i x, op = .forceAdd i x → i < W64)
    (hr : ¬ Addressed h.nbins ops) : ∃ k, h.run ops = .ub k := by
  induction ops generalizing h ms with
  | nil => exact absurd trivial hr
  | cons op ops ih =>
    have hsz' : ∀ op ∈ ops, ∀ i x, op = .forceAdd i x → i < W64 :=
      fun o ho => hsz o (List.mem_cons_of_mem _ ho)
    cases op with
    | add i x =>
      rcases Nat.lt_or_ge i h.nbins with hb | hb
      · obtain ⟨h1, e1, e2, e3⟩ := histInv_add hi i x hb
        have hr' : ¬ Addressed h1.nbins ops := fun h' => hr ⟨hb, e2 ▸ h'⟩
        obtain ⟨k, hk⟩ := ih h1 _ e3 hsz' hr'
        exact ⟨k, by rw [Hist.run, Hist.step, Hist.add, e1, Res.ok_bind, hk]⟩
      · refine ⟨.outOfBounds, ?_⟩
        rw [Hist.run, Hist.step, Hist.add, Hist.addTo_oob false h i x (hi.size ▸ hb)]; rfl
    | forceAdd i x =>
      rcases Nat.lt_or_ge i (W64 - 1) with hb | hb
      · obtain ⟨h0, g1, g2, g3⟩ := histInv_grow hi i hb
        obtain ⟨h1, e1, e2, e3⟩ := histInv_add g3 i x (by omega)
        have hr' : ¬ Addressed h1.nbins ops := fun h' => hr ⟨hb, by rw [e2, g2] at h'; exact h'⟩
        obtain ⟨k, hk⟩ := ih h1 _ e3 hsz' hr'
        exact ⟨k, by rw [Hist.run, Hist.step, Hist.forceAdd_grow g1, e1, Res.ok_bind, hk]⟩
      · have := hsz _ List.mem_cons_self i x rfl
        have hw : i = W64 - 1 := by omega
        subst hw
        refine ⟨.assertion, ?_⟩
        rw [Hist.run, Hist.step]
        unfold Hist.forceAdd
        rw [Hist.grow_max h hi.size hi.small]; rfl
    | reset =>
      obtain ⟨k, hk⟩ := ih h.reset [] (histInv_reset hi) hsz' (fun h' => hr h')
      exact ⟨k, by rw [Hist.run, Hist.step, Res.ok_bind, hk]⟩

/-- C47.  A history returns normally exactly when every call addresses a possible bin. -/
theorem C47_defined (n : Nat) (hn : n < 2 ^ 64) (ops : List (HistOp F))
    (hsz : ∀ op ∈ ops, ∀ i x, op = .forceAdd i x → i < 2 ^ 64) :
    (∃ h, (Hist.new n).run ops = .ok h) ↔ Addressed n ops := by
  constructor
  · rintro ⟨h, hh⟩
    by_contra hc
    obtain ⟨k, hk⟩ := hist_run_conv ops (Hist.new n) [] (histInv_new n hn) hsz hc
    rw [hk] at hh; cases hh
  · intro ha
    obtain ⟨h, hh, _⟩ := hist_run ops (Hist.new n) [] (histInv_new n hn) ha
    exact ⟨h, hh⟩

/-- The state of a histogram after a history. -/
theorem hist_state (n : Nat) (hn : n < 2 ^ 64) (ops : List (HistOp F)) (ha : Addressed n ops) (h : Hist F)
    (hh : (Hist.new n).run ops = .ok h) : h.nbins = binsAfter n ops ∧ HistInv h (measurements ops) := by
  obtain ⟨h', e1, e2, e3⟩ := hist_run ops (Hist.new n) [] (histInv_new n hn) ha
  rw [hh] at e1
  obtain rfl := Res.ok.inj e1
  refine ⟨e2, ?_⟩
  rwa [List.nil_append, ite_self] at e3

/-- C47.  The number of bins, the count of each bin (the number of measurements addressed to it since the last
`Reset`) and the total count. -/
theorem C47_counts (n : Nat) (hn : n < 2 ^ 64) (ops : List (HistOp F)) (ha : Addressed n ops) (h : Hist F)
    (hh : (Hist.new n).run ops = .ok h) :
    h.getNbins = binsAfter n ops ∧ h.acc.length = h.getNbins ∧
    (∀ i < h.getNbins, h.getCountAt i = .ok ((inBin i (measurements ops)).length % 2 ^ 64)) ∧
    h.getCount = (measurements ops).length % 2 ^ 64 := by
  obtain ⟨h1, h2⟩ := hist_state n hn ops ha h hh
  refine ⟨h1, h2.size.symm, ?_, h2.count⟩
  intro i hi
  obtain ⟨a, hget⟩ := h2.get hi
  unfold Hist.getCountAt
  rw [hget]
  have hb := h2.bins i _ hget
  simp only
  rw [hb, foldl_count (add := Neumaier.addCore (F := F)) (count := Neumaier.getCount) (fun _ _ => rfl) _
    Neumaier.new (Nat.zero_lt_succ _), show (Neumaier.new : Neumaier F).getCount = 0 from rfl, Nat.zero_add]
  rfl

theorem sum_inBin (n : Nat) (ms : List (Nat × X)) (h : ∀ m ∈ ms, m.1 < n) :
    ((List.range n).map (fun i => (inBin i ms).length)).sum = ms.length := by
  induction ms with
  | nil => simp [inBin]
  | cons m ms ih =>
    have h1 : ∀ i, (inBin i (m :: ms)).length = (inBin i ms).length + if i = m.1 then 1 else 0 := by
      intro i
      unfold inBin
      by_cases hi : i = m.1
      · simp [hi]
      · simp [hi, Ne.symm hi]
    simp only [h1, List.length_cons]
    have h2 : ∀ k (f : Nat → Nat), ((List.range k).map (fun i => f i + if i = m.1 then 1 else 0)).sum =
        ((List.range k).map f).sum + if m.1 < k then 1 else 0 := by
      intro k f
      induction k with
      | zero => simp
      | succ k ih =>
        rw [List.range_succ, List.map_append, List.sum_append, List.map_append, List.sum_append, ih]
        simp only [List.map_singleton, List.sum_singleton]
        split <;> split <;> split <;> omega
    rw [h2, if_pos (h m List.mem_cons_self), ih (fun x hx => h x (List.mem_cons_of_mem _ hx))]

/-- C47.  With fewer than 2^64 measurements the counts of the bins add up to the total count. -/
theorem C47_conservation (n : Nat) (hn : n < 2 ^ 64) (ops : List (HistOp F)) (ha : Addressed n ops)
    (hm : (measurements ops).length < 2 ^ 64) (h : Hist F) (hh : (Hist.new n).run ops = .ok h) :
    (h.acc.map Neumaier.getCount).sum = h.getCount := by
  obtain ⟨h1, h2⟩ := hist_state n hn ops ha h hh
  have hc : ∀ i, (inBin i (measurements ops)).length < W64 := by
    intro i
    have : (inBin i (measurements ops)).length ≤ (measurements ops).length := by
      unfold inBin; rw [List.length_map]; exact List.length_filter_le _ _
    omega
  have e : h.acc.map Neumaier.getCount =
      (List.range h.nbins).map (fun i => (inBin i (measurements ops)).length) := by
    refine List.ext_getElem? (fun i => ?_)
    rw [List.getElem?_map, List.getElem?_map]
    rcases Nat.lt_or_ge i h.nbins with hi | hi
    · obtain ⟨a, hget⟩ := h2.get hi
      rw [hget, List.getElem?_range hi, Option.map_some, Option.map_some, h2.bins i _ hget,
        foldl_count (add := Neumaier.addCore (F := F)) (count := Neumaier.getCount) (fun _ _ => rfl) _
          Neumaier.new (Nat.zero_lt_succ _), show (Neumaier.new : Neumaier F).getCount = 0 from rfl,
        Nat.zero_add, Nat.mod_eq_of_lt (hc i)]
    · rw [List.getElem?_eq_none (h2.size ▸ hi), List.getElem?_eq_none (by simpa using hi)]; rfl
  rw [e, sum_inBin _ _ h2.inside]
  unfold Hist.getCount
  rw [h2.count]
  exact (Nat.mod_eq_of_lt hm).symm

example : Addressed 1 [HistOp.add 0 (1 : Nat), .forceAdd 3 1, .add 2 5, .reset, .add 3 7] ∧
    binsAfter 1 [HistOp.add 0 (1 : Nat), .forceAdd 3 1, .add 2 5, .reset, .add 3 7] = 4 ∧
    measurements [HistOp.add 0 (1 : Nat), .forceAdd 3 1, .add 2 5, .reset, .add 3 7] = [(3, 7)] := by
  refine ⟨?_, rfl, rfl⟩
  simp [Addressed]

/-- C49.  `ForceAdd(i)` on any histogram leaves max(nbins, i+1) bins: the old bins other than `i` are
unchanged, the new ones other than `i` are empty, and the value is added to bin `i`. -/
theorem C49_forceAdd (h : Hist F) (hs : h.nbins = h.acc.length) (i : Nat) (hi : i < 2 ^ 64 - 1) (x : F) :
    ∃ h', (h.forceAdd false i x).toRes = .ok h' ∧ h'.nbins = max h.nbins (i + 1) ∧
      h'.acc.length = h'.nbins ∧ h'.count = (h.count + 1) % 2 ^ 64 ∧
      (∀ j, j ≠ i → j < h.nbins → h'.acc[j]? = h.acc[j]?) ∧
      (∀ j, j ≠ i → h.nbins ≤ j → j < h'.nbins → h'.acc[j]? = some Neumaier.new) ∧
      h'.acc[i]? = some (((h.acc[i]?).getD Neumaier.new).addCore x) := by
  have hg := Hist.grow_eq h i hs hi
  set g : Hist F := ⟨max h.nbins (i + 1), h.acc ++ List.replicate (i + 1 - h.nbins) Neumaier.new, h.count⟩
    with hgdef
  have hlen : g.acc.length = g.nbins := by
    simp only [hgdef, List.length_append, List.length_replicate]; omega
  have hgi : i < g.acc.length := by rw [hlen]; show i < max _ _; omega
  have hget : g.acc[i]? = some g.acc[i] := List.getElem?_eq_getElem hgi
  refine ⟨_, by rw [Hist.forceAdd_grow hg, Hist.addTo_ok g i x _ hget]; rfl, rfl, by simpa using hlen, rfl,
    ?_, ?_, ?_⟩
  · intro j hj hjn
    simp only
    rw [List.getElem?_set_ne (Ne.symm hj)]
    exact List.getElem?_append_left (hs ▸ hjn)
  · intro j hj hjn hj'
    simp only
    rw [List.getElem?_set_ne (Ne.symm hj)]
    have hj2 : j < max h.nbins (i + 1) := hj'
    show (h.acc ++ List.replicate (i + 1 - h.nbins) Neumaier.new)[j]? = _
    rw [List.getElem?_append_right (by omega), List.getElem?_replicate, if_pos (by omega)]
  · simp only
    rw [List.getElem?_set_self hgi]
    congr 2
    have : (h.acc ++ List.replicate (i + 1 - h.nbins) (Neumaier.new : Neumaier F))[i]? = some g.acc[i] := hget
    rcases Nat.lt_or_ge i h.acc.length with hl | hl
    · rw [List.getElem?_append_left hl] at this
      rw [this]; rfl
    · rw [List.getElem?_append_right hl, List.getElem?_replicate, if_pos (by omega)] at this
      rw [List.getElem?_eq_none hl]
      exact (Option.some.inj this).symm

/-- C49.  `Add` on a bin that does not exist is undefined, and so is `ForceAdd` on bin 2^64-1. -/
theorem C49_undefined (h : Hist F) (hs : h.nbins = h.acc.length) (hb : h.nbins < 2 ^ 64) (x : F) (checks : Bool) :
    (∀ i, h.nbins ≤ i → (h.add checks i x).res = .ub .outOfBounds) ∧
    (h.forceAdd checks (2 ^ 64 - 1) x).res = .ub .assertion := by
  constructor
  · intro i hi
    unfold Hist.add
    rw [Hist.addTo_oob checks h i x (hs ▸ hi)]
  · unfold Hist.forceAdd
    have : h.grow (2 ^ 64 - 1) = .ub .assertion := Hist.grow_max h hs hb
    rw [this]

/-- C51.  `Resize(n)` leaves n bins: the first ones are kept, the others are empty, the total count stays. -/
theorem C51_resize (h : Hist F) (hs : h.nbins = h.acc.length) (n : Nat) :
    (h.resize n).nbins = n ∧ (h.resize n).acc.length = n ∧ (h.resize n).count = h.count ∧
    (∀ i < min n h.nbins, (h.resize n).acc[i]? = h.acc[i]?) ∧
    (∀ i, h.nbins ≤ i → i < n → (h.resize n).acc[i]? = some Neumaier.new) := by
  refine ⟨rfl, ?_, rfl, ?_, ?_⟩
  · simp only [Hist.resize, List.length_append, List.length_take, List.length_replicate]; omega
  · intro i hi
    simp only [Hist.resize]
    rw [List.getElem?_append_left (by rw [List.length_take]; omega), List.getElem?_take_of_lt (by omega)]
  · intro i h1 h2
    simp only [Hist.resize]
    rw [List.getElem?_append_right (by rw [List.length_take]; omega), List.getElem?_replicate, if_pos]
    rw [List.length_take]; omega

/-! ### Results -/

theorem resultsFrom_eq (h : Hist F) (f : Nat → F) (i k : Nat)
    (hf : ∀ j, i ≤ j → j < i + k → h.getResult j = .ok (f j)) :
    h.resultsFrom i k = .ok ((List.range' i k).map f) := by
  induction k generalizing i with
  | zero => rfl
  | succ k ih =>
    rw [Hist.resultsFrom, hf i (le_refl _) (by omega), Res.ok_bind,
      ih (i + 1) (fun j h1 h2 => hf j (by omega) (by omega)), Res.ok_bind, List.range'_succ, List.map_cons]

theorem getResults_eq (h : Hist F) (f : Nat → F) (hf : ∀ j < h.nbins, h.getResult j = .ok (f j)) :
    h.getResults = .ok ((List.range h.nbins).map f) := by
  unfold Hist.getResults
  rw [resultsFrom_eq h f 0 h.nbins (fun j _ h2 => hf j (by omega)), List.range_eq_range']

/-- `GetResults()` collects `GetResult(i)`. -/
theorem C48_results (h : Hist F) (hs : h.nbins = h.acc.length) :
    ∃ r, h.getResults = .ok r ∧ r.length = h.nbins ∧ ∀ i (hi : i < r.length), h.getResult i = .ok r[i] := by
  let f : Nat → F := fun i => match h.getResult i with | .ok x => x | _ => CxxFloat.zero
  have hf : ∀ j < h.nbins, h.getResult j = .ok (f j) := by
    intro j hj
    have hget : h.acc[j]? = some h.acc[j] := List.getElem?_eq_getElem (hs ▸ hj)
    have : ∃ x, h.getResult j = .ok x := by
      unfold Hist.getResult; rw [hget]
      simp only
      split
      · exact ⟨_, rfl⟩
      · exact ⟨_, rfl⟩
    obtain ⟨x, hx⟩ := this
    simp only [f, hx]
  refine ⟨_, getResults_eq h f hf, by simp, ?_⟩
  intro i hi
  rw [List.length_map, List.length_range] at hi
  rw [hf i hi]; simp

/-- What the loop of `GetResults(idx)` computes. -/
theorem divideFrom_eq (idx : Nat) (r : List F) (hidx : idx < r.length) :
    ∃ q, Hist.divideFrom idx 0 r.length r = .ok q ∧ q.length = r.length ∧
      ∀ j (hj : j < r.length), q[j]? =
        some (if j ≤ idx then r[j] / r[idx] else r[j] / (r[idx] / r[idx])) := by
  -- the contents before the iteration for subscript j
  let st : Nat → List F := fun j => r.mapIdx (fun i v =>
    if i < j then (if i ≤ idx then v / r[idx] else v / (r[idx] / r[idx])) else v)
  have key : ∀ k j, j + k = r.length → Hist.divideFrom idx j k (st j) = .ok (st r.length) := by
    intro k
    induction k with
    | zero => intro j hj; rw [Hist.divideFrom]; simp only [Nat.add_zero] at hj; rw [hj]
    | succ k ih =>
      intro j hj
      have hj' : j < r.length := by omega
      have g1 : (st j)[j]? = some r[j] := by
        simp only [st, List.getElem?_mapIdx, List.getElem?_eq_getElem hj', Option.map_some]
        rw [if_neg (by omega)]
      have g2 : (st j)[idx]? = some (if idx < j then r[idx] / r[idx] else r[idx]) := by
        simp only [st, List.getElem?_mapIdx, List.getElem?_eq_getElem hidx, Option.map_some, le_refl,
          if_true]
      rw [Hist.divideFrom, g1, g2]
      simp only
      rw [← ih (j + 1) (by omega)]
      congr 1
      refine List.ext_getElem? (fun i => ?_)
      rw [List.getElem?_set]
      simp only [st, List.length_mapIdx, List.getElem?_mapIdx]
      rcases Nat.lt_or_ge i r.length with hi | hi
      · rw [List.getElem?_eq_getElem hi]
        simp only [Option.map_some]
        split
        · rename_i hij
          subst hij
          rw [if_pos (by omega : j < j + 1)]
          by_cases hji : j ≤ idx
          · rw [if_neg (by omega), if_pos hji]
          · rw [if_pos (by omega), if_neg hji]
        · rename_i hij
          by_cases hlt : i < j
          · rw [if_pos hlt, if_pos (by omega : i < j + 1)]
          · rw [if_neg hlt, if_neg (by omega : ¬ i < j + 1)]
      · rw [List.getElem?_eq_none hi, if_neg (by omega)]
        rfl
  have h0 : st 0 = r := by
    refine List.ext_getElem? (fun i => ?_)
    simp [st, List.getElem?_mapIdx]
  refine ⟨st r.length, ?_, by simp [st], ?_⟩
  · have := key r.length 0 (by omega)
    rwa [h0] at this
  · intro j hj
    simp only [st, List.getElem?_mapIdx, List.getElem?_eq_getElem hj, Option.map_some, if_pos hj]

/-- C50 (what the code computes).  `GetResults(idx)[j]` is `GetResult(j)/GetResult(idx)` only for j ≤ idx;
for later bins the divisor is `GetResult(idx)/GetResult(idx)`.  In particular the property holds for the last
bin. -/
theorem C50_value_partial (h : Hist F) (hs : h.nbins = h.acc.length) (idx : Nat) (hi : idx < h.nbins) :
    ∃ r q, h.getResults = .ok r ∧ h.getResultsBy idx = .ok q ∧ q.length = h.nbins ∧
      ∀ j x d, r[j]? = some x → r[idx]? = some d →
        q[j]? = some (if j ≤ idx then x / d else x / (d / d)) := by
  obtain ⟨r, e1, e2, _⟩ := C48_results h hs
  obtain ⟨q, f1, f2, f3⟩ := divideFrom_eq idx r (e2 ▸ hi)
  refine ⟨r, q, e1, ?_, by rw [f2, e2], ?_⟩
  · unfold Hist.getResultsBy; rw [e1, Res.ok_bind, f1]
  · intro j x d hx hd
    have hj : j < r.length := by
      by_contra hc
      rw [List.getElem?_eq_none (by omega)] at hx; cases hx
    have hidx : idx < r.length := e2 ▸ hi
    rw [List.getElem?_eq_getElem hj, Option.some.injEq] at hx
    rw [List.getElem?_eq_getElem hidx, Option.some.injEq] at hd
    rw [f3 j hj, hx, hd]

end

section
variable {K : Type} [Field K] [LinearOrder K] [IsStrictOrderedRing K] {A : Arith K}

theorem inBin_map (f : X → Y) (i : Nat) (ms : List (Nat × X)) :
    inBin i (ms.map (fun m => (m.1, f m.2))) = (inBin i ms).map f := by
  unfold inBin
  rw [List.filter_map, List.map_map, List.map_map]
  rfl

/-- In exact arithmetic: the value of one bin. -/
theorem result_of_inv (hA : A.IsExact) (h : Hist (Num A)) (ms : List (Nat × K))
    (hi : HistInv h (ms.map (fun m => (m.1, Num.fin m.2)))) (hn : ms.length < 2 ^ 64) (i : Nat)
    (hb : i < h.nbins) :
    h.getResult i = .ok (.fin ((inBin i ms).sum / ms.length)) := by
  obtain ⟨a, hget⟩ := hi.get hb
  have hbin := hi.bins i _ hget
  rw [inBin_map] at hbin
  have hcnt : a.getCount = (inBin i ms).length := by
    rw [hbin, foldl_count (add := Neumaier.addCore (F := Num A)) (count := Neumaier.getCount) (fun _ _ => rfl) _
      Neumaier.new (Nat.zero_lt_succ _), show (Neumaier.new : Neumaier (Num A)).getCount = 0 from rfl,
      Nat.zero_add, List.length_map]
    refine Nat.mod_eq_of_lt ?_
    have : (inBin i ms).length ≤ ms.length := by
      unfold inBin; rw [List.length_map]; exact List.length_filter_le _ _
    exact this.trans_lt hn
  have hc : h.count = ms.length := by
    rw [hi.count, List.length_map]; exact Nat.mod_eq_of_lt hn
  unfold Hist.getResult
  rw [hget]
  simp only
  by_cases h0 : (inBin i ms).length = 0
  · rw [if_pos (by rw [hcnt, h0]), List.eq_nil_of_length_eq_zero h0]
    simp [Num.zero_eq]
  · rw [if_neg (by rw [hcnt]; exact h0), hbin, (C36_exact hA (inBin i ms)).2, hc, Num.ofNat_eq,
      Num.round_exact hA, Num.fin_div, Num.round_exact hA]
    have hle : (inBin i ms).length ≤ ms.length := by
      unfold inBin; rw [List.length_map]; exact List.length_filter_le _ _
    have : ms.length ≠ 0 := by omega
    exact_mod_cast this

/-- A history of finite values. -/
def finOp : HistOp K → HistOp (Num A)
  | .add i x => .add i (.fin x)
  | .forceAdd i x => .forceAdd i (.fin x)
  | .reset => .reset

theorem measurements_map (ops : List (HistOp K)) :
    measurements (ops.map (finOp (A := A))) = (measurements ops).map (fun m => (m.1, Num.fin m.2)) := by
  have hany : ∀ ops : List (HistOp K), (ops.map (finOp (A := A))).any measurements.isReset =
      ops.any measurements.isReset := by
    intro ops
    rw [List.any_map]
    congr 1
    funext o
    cases o <;> rfl
  induction ops with
  | nil => rfl
  | cons o ops ih =>
    cases o with
    | add i x =>
      rw [List.map_cons, finOp, measurements, measurements, hany, ih]
      split <;> rfl
    | forceAdd i x =>
      rw [List.map_cons, finOp, measurements, measurements, hany, ih]
      split <;> rfl
    | reset => rw [List.map_cons, finOp, measurements, measurements, ih]

theorem addressed_map (n : Nat) (ops : List (HistOp K)) :
    Addressed n (ops.map (finOp (A := A))) ↔ Addressed n ops := by
  induction ops generalizing n with
  | nil => rfl
  | cons o ops ih => cases o <;> simp only [List.map_cons, finOp, Addressed, ih]

/-- C48.  In exact arithmetic `GetResult(i)` is the sum of the values added to bin `i` over the total number of
measurements, after any history. -/
theorem C48_result (hA : A.IsExact) (n : Nat) (hn : n < 2 ^ 64) (ops : List (HistOp K)) (ha : Addressed n ops)
    (hm : (measurements ops).length < 2 ^ 64) (h : Hist (Num A))
    (hh : (Hist.new n).run (ops.map finOp) = .ok h) (i : Nat) (hi : i < h.nbins) :
    h.getResult i = .ok (.fin ((inBin i (measurements ops)).sum / (measurements ops).length)) := by
  obtain ⟨_, h2⟩ := hist_state n hn _ ((addressed_map n ops).2 ha) h hh
  rw [measurements_map] at h2
  exact result_of_inv hA h _ h2 hm i hi

/-- all the measurements are 1 -/
def Spec.Unitary (ops : List (HistOp K)) : Prop := ∀ m ∈ measurements ops, m.2 = 1

theorem inBin_unit {ms : List (Nat × K)} (h : ∀ m ∈ ms, m.2 = 1) (i : Nat) :
    (inBin i ms).sum = ((inBin i ms).length : K) := by
  have : inBin i ms = List.replicate (inBin i ms).length 1 := by
    refine List.eq_replicate_iff.2 ⟨rfl, ?_⟩
    intro x hx
    unfold inBin at hx
    obtain ⟨m, hm, rfl⟩ := List.mem_map.1 hx
    exact h m (List.mem_filter.1 hm).1
  rw [this]; simp

theorem sum_range_cast (n : Nat) (f : Nat → Nat) (c : K) :
    ((List.range n).map (fun i => (f i : K) / c)).sum = (((List.range n).map f).sum : Nat) / c := by
  induction n with
  | zero => simp
  | succ n ih => simp only [List.range_succ, List.map_append, List.sum_append, ih]; simp [add_div]

/-- C48.  For unitary measurements the results of the bins are nonnegative and add up to 1 (after at least one
measurement). -/
theorem C48_normalised (hA : A.IsExact) (n : Nat) (hn : n < 2 ^ 64) (ops : List (HistOp K))
    (ha : Addressed n ops) (hm : (measurements ops).length < 2 ^ 64) (h0 : measurements ops ≠ [])
    (hu : Unitary ops) (h : Hist (Num A)) (hh : (Hist.new n).run (ops.map finOp) = .ok h) :
    ∃ p : List K, h.getResults = .ok (p.map .fin) ∧ (∀ x ∈ p, 0 ≤ x) ∧ p.sum = 1 := by
  obtain ⟨_, h2⟩ := hist_state n hn _ ((addressed_map n ops).2 ha) h hh
  rw [measurements_map] at h2
  set ms := measurements ops with hms
  refine ⟨(List.range h.nbins).map (fun i => ((inBin i ms).length : K) / ms.length), ?_, ?_, ?_⟩
  · rw [getResults_eq h _ (fun j hj => result_of_inv hA h ms h2 hm j hj), List.map_map]
    congr 1
    refine List.map_congr_left (fun i _ => ?_)
    simp only [Function.comp]
    rw [inBin_unit hu]
  · intro x hx
    obtain ⟨i, _, rfl⟩ := List.mem_map.1 hx
    positivity
  · rw [sum_range_cast, sum_inBin]
    · refine div_self ?_
      have : ms.length ≠ 0 := by simpa using h0
      exact_mod_cast this
    · intro m hm
      have := h2.inside (m.1, .fin m.2) (List.mem_map.2 ⟨m, hm, rfl⟩)
      exact this

/-- C51.  After a `Resize` the results of unitary measurements sum to at most 1, and to exactly 1 if no bin was
dropped. -/
theorem C51_sum_after_resize (hA : A.IsExact) (n : Nat) (hn : n < 2 ^ 64) (ops : List (HistOp K))
    (ha : Addressed n ops) (hm : (measurements ops).length < 2 ^ 64) (h0 : measurements ops ≠ [])
    (hu : Unitary ops) (h : Hist (Num A)) (hh : (Hist.new n).run (ops.map finOp) = .ok h) (k : Nat) :
    ∃ p : List K, (h.resize k).getResults = .ok (p.map .fin) ∧ (∀ x ∈ p, 0 ≤ x) ∧ p.sum ≤ 1 ∧
      (h.nbins ≤ k → p.sum = 1) := by
  obtain ⟨_, h2⟩ := hist_state n hn _ ((addressed_map n ops).2 ha) h hh
  rw [measurements_map] at h2
  set ms := measurements ops with hms
  obtain ⟨_, _, _, r4, r5⟩ := C51_resize h h2.size k
  have hin : ∀ m ∈ ms, m.1 < h.nbins := fun m hm => h2.inside (m.1, .fin m.2) (List.mem_map.2 ⟨m, hm, rfl⟩)
  have hres : ∀ j < (h.resize k).nbins,
      (h.resize k).getResult j = .ok (.fin (((inBin j ms).length : K) / ms.length)) := by
    intro j hj
    have hj' : j < k := hj
    rcases Nat.lt_or_ge j h.nbins with hb | hb
    · have := result_of_inv hA h ms h2 hm j hb
      rw [inBin_unit hu] at this
      rw [← this]
      unfold Hist.getResult
      rw [r4 j (by omega)]; rfl
    · unfold Hist.getResult
      rw [r5 j hb hj', inBin_outside (fun m hm => by have := hin m hm; omega)]
      simp [Neumaier.new, Neumaier.getCount, Num.zero_eq]
  have hsum : ∀ k, ((List.range k).map (fun i => (inBin i ms).length)).sum ≤ ms.length := by
    intro k
    rcases Nat.le_total h.nbins k with hk | hk
    · exact (sum_inBin k ms (fun m hm => by have := hin m hm; omega)).le
    · rw [← sum_inBin h.nbins ms hin]
      have : List.range h.nbins = List.range k ++ (List.range (h.nbins - k)).map (k + ·) := by
        rw [← List.range_add]; congr 1; omega
      rw [this, List.map_append, List.sum_append]; omega
  have hne : (0 : K) < ms.length := by
    have : 0 < ms.length := List.length_pos_iff.2 h0
    exact_mod_cast this
  refine ⟨(List.range k).map (fun i => ((inBin i ms).length : K) / ms.length), ?_, ?_, ?_, ?_⟩
  · rw [getResults_eq (h.resize k) _ hres, List.map_map]; rfl
  · intro x hx
    obtain ⟨i, _, rfl⟩ := List.mem_map.1 hx
    positivity
  · rw [sum_range_cast, div_le_one hne]
    exact_mod_cast hsum k
  · intro hk
    rw [sum_range_cast, sum_inBin k ms (fun m hm => by have := hin m hm; omega)]
    exact div_self hne.ne'

/-- C50 is violated: three bins with one, one and two measurements, divided by the middle one. -/
theorem C50_violated (hA : A.IsExact) : ∃ h : Hist (Num A), (Hist.new 3).run
    ([HistOp.add 0 (1 : K), .add 1 1, .add 2 1, .add 2 1].map finOp) = .ok h ∧
    h.getResults = .ok [.fin (1 / 4), .fin (1 / 4), .fin (2 / 4)] ∧
    h.getResultsBy 1 = .ok [.fin 1, .fin 1, .fin (1 / 2)] := by
  set ops : List (HistOp K) := [HistOp.add 0 (1 : K), .add 1 1, .add 2 1, .add 2 1] with hops
  have ha : Addressed 3 ops := by simp [hops, Addressed]
  obtain ⟨h, hh, hb, hinv⟩ := hist_run (ops.map (finOp (A := A))) (Hist.new 3) []
    (histInv_new 3 (Nat.lt_of_sub_ne_zero (by decide))) ((addressed_map 3 ops).2 ha)
  have hb3 : h.nbins = 3 := hb
  rw [List.nil_append, ite_self, measurements_map] at hinv
  have hms : measurements ops = [(0, 1), (1, 1), (2, 1), (2, 1)] := rfl
  have hres : h.getResults = .ok [.fin (1 / 4), .fin (1 / 4), .fin (2 / 4)] := by
    rw [getResults_eq h _ (fun j hj => result_of_inv hA h _ hinv (by rw [hms]; exact Nat.lt_of_sub_ne_zero (by simp)) j hj), hb3, hms]
    simp [List.range_succ, inBin]
    norm_num
  refine ⟨h, hh, hres, ?_⟩
  unfold Hist.getResultsBy
  rw [hres, Res.ok_bind]
  have q1 : (1 / 4 : K) ≠ 0 := by norm_num
  have d1 : (Num.fin (1 / 4) : Num A) / .fin (1 / 4) = .fin 1 := by
    rw [Num.fin_div q1, Num.round_exact hA, div_self q1]
  have d2 : (Num.fin (2 / 4) : Num A) / .fin 1 = .fin (1 / 2) := by
    rw [Num.fin_div one_ne_zero, Num.round_exact hA]; norm_num
  simp only [Hist.divideFrom, List.length_cons, List.length_nil, List.getElem?_cons_zero,
    List.getElem?_cons_succ, List.set_cons_zero, List.set_cons_succ, d1, d2]

end
end Bwsl
