import Verif.Spec.Table
import Verif.Props.RationalText
import Verif.Props.OpenLattice
import Verif.Props.Index

/-! Property C82: saved tables. -/

namespace Bwsl
open Spec

set_option linter.unusedSectionVars false

theorem pieces_ne_nil (sep : Char) (t : List Char) : pieces sep t ≠ [] := by
  cases t with
  | nil => simp [pieces]
  | cons c cs =>
    rw [pieces]
    split
    · simp
    · split <;> simp

theorem pieces_append {sep : Char} {a : List Char} (h : sep ∉ a) (b : List Char) :
    pieces sep (a ++ sep :: b) = a :: pieces sep b := by
  induction a with
  | nil => simp [pieces]
  | cons c cs ih =>
    rw [List.mem_cons, not_or] at h
    rw [List.cons_append, pieces, if_neg (Ne.symm h.1), ih h.2]

theorem pieces_single {sep : Char} {a : List Char} (h : sep ∉ a) : pieces sep a = [a] := by
  induction a with
  | nil => rfl
  | cons c cs ih =>
    rw [List.mem_cons, not_or] at h
    rw [pieces, if_neg (Ne.symm h.1), ih h.2]

/-- Fields each after a comma. -/
def commas (fs : List (List Char)) : List Char := fs.flatMap (fun f => ',' :: f)

theorem commas_append (a b : List (List Char)) : commas (a ++ b) = commas a ++ commas b := by simp [commas]

theorem pieces_commas {f : List Char} {fs : List (List Char)} (hf : ',' ∉ f) (hfs : ∀ x ∈ fs, ',' ∉ x) :
    pieces ',' (f ++ commas fs) = f :: fs := by
  induction fs generalizing f with
  | nil => simp only [commas, List.flatMap_nil, List.append_nil]; exact pieces_single hf
  | cons x xs ih =>
    have : f ++ commas (x :: xs) = f ++ ',' :: (x ++ commas xs) := by simp [commas]
    rw [this, pieces_append hf, ih (hfs x (by simp)) (fun y hy => hfs y (by simp [hy]))]

/-- A field without separators. -/
def Clean (f : List Char) : Prop := ',' ∉ f ∧ '\n' ∉ f

theorem newline_commas {f : List Char} {fs : List (List Char)} (hf : '\n' ∉ f) (hfs : ∀ x ∈ fs, '\n' ∉ x) :
    '\n' ∉ f ++ commas fs := by
  intro h
  rcases List.mem_append.1 h with h | h
  · exact hf h
  · obtain ⟨x, hx, h⟩ := List.mem_flatMap.1 h
    rcases List.mem_cons.1 h with h | h
    · exact absurd h (by decide)
    · exact hfs x hx h

/-- What the `Save…` functions write: rows of a first field and further fields, each after a comma. -/
theorem isTable_of {rows : List (List Char × List (List Char))} (h : ∀ r ∈ rows, Clean r.1 ∧ ∀ f ∈ r.2, Clean f) :
    IsTable (rows.map (fun r => r.1 ++ commas r.2 ++ ['\n'])).flatten (rows.map (fun r => r.1 :: r.2)) := by
  refine ⟨rows.map (fun r => r.1 ++ commas r.2), ?_, ?_⟩
  · induction rows with
    | nil => rfl
    | cons r rs ih =>
      have hr := h r (by simp)
      have : ((r :: rs).map (fun r => r.1 ++ commas r.2 ++ ['\n'])).flatten =
          (r.1 ++ commas r.2) ++ '\n' :: (rs.map (fun r => r.1 ++ commas r.2 ++ ['\n'])).flatten := by simp
      rw [this, pieces_append (newline_commas hr.1.2 (fun x hx => (hr.2 x hx).2)), ih (fun r hr => h r (by simp [hr]))]
      rfl
  · rw [List.map_map]
    refine List.map_congr_left (fun r hr => ?_)
    exact pieces_commas (h r hr).1.1 (fun x hx => ((h r hr).2 x hx).1)

theorem clean_digits {ds : List Char} (h : ∀ c ∈ ds, c ∈ Spec.digits) : Clean ds :=
  ⟨fun hc => absurd (h _ hc) (by decide), fun hc => absurd (h _ hc) (by decide)⟩

theorem clean_size (n : Nat) : Clean (Lattice.fmtSize n) := clean_digits (printNat_spec n).2.1

theorem numeral_size (n : Nat) : IsNumeral (Lattice.fmtSize n) n := by
  obtain ⟨h1, h2, h3⟩ := printNat_spec n
  exact ⟨_, h1, h2, .inl ⟨rfl, by exact_mod_cast h3.symm⟩⟩

theorem clean_name (c : Char) (hc : c ≠ ',' ∧ c ≠ '\n') (n : Nat) : Clean (c :: Lattice.fmtSize n) := by
  refine ⟨fun h => ?_, fun h => ?_⟩
  · rcases List.mem_cons.1 h with h | h
    · exact hc.1 h.symm
    · exact (clean_size n).1 h
  · rcases List.mem_cons.1 h with h | h
    · exact hc.2 h.symm
    · exact (clean_size n).2 h

theorem fmtNames_eq (c : Char) (n : Nat) :
    Lattice.fmtNames c n = commas ((List.range n).map (fun i => c :: Lattice.fmtSize i)) := by
  unfold Lattice.fmtNames commas; rw [List.flatMap_map]

theorem fmtFields_eq {F : Type} (fmt : F → List Char) (v : List F) : Lattice.fmtFields fmt v = commas (v.map fmt) := by
  unfold Lattice.fmtFields commas; rw [List.flatMap_map]

theorem clean_i : Clean ['i'] := ⟨by decide, by decide⟩

section
variable {F : Type} [CxxFloat F] {b : Bravais F} {size : List Nat}

/-- A header and one line per site: its number and the components of a vector. -/
def SiteTable (t : List Char) (d n : Nat) (fmt : F → List Char) (vec : Nat → Res (List F)) : Prop :=
  ∃ header rows, IsTable t (header :: rows) ∧ header.length = d + 1 ∧ rows.length = n ∧
    ∀ i, i < n → ∃ num v, IsNumeral num i ∧ vec i = .ok v ∧ v.length = d ∧ rows[i]? = some (num :: v.map fmt)

theorem siteTable_of {fmt : F → List Char} (hf : ∀ x, Clean (fmt x)) {d n : Nat} {c : Char} (hc : c ≠ ',' ∧ c ≠ '\n')
    {vec : Nat → Res (List F)} {w : Nat → List F} (hw : ∀ i, i < n → vec i = .ok (w i) ∧ (w i).length = d) :
    ∃ rows, mapRange n (fun i => do
        let v ← vec i
        .ok (Lattice.fmtSize i ++ Lattice.fmtFields fmt v ++ ['\n'])) = .ok rows ∧
      SiteTable (['i'] ++ Lattice.fmtNames c d ++ ['\n'] ++ rows.flatten) d n fmt vec := by
  refine ⟨_, mapRange_ok (fun i hi => by rw [(hw i hi).1, Res.ok_bind]), ?_⟩
  have := isTable_of (rows := (['i'], (List.range d).map (fun i => c :: Lattice.fmtSize i)) ::
    (List.range n).map (fun i => (Lattice.fmtSize i, (w i).map fmt))) (by
      intro r hr
      rcases List.mem_cons.1 hr with rfl | hr
      · refine ⟨clean_i, fun f hf' => ?_⟩
        obtain ⟨i, -, rfl⟩ := List.mem_map.1 hf'
        exact clean_name c hc i
      · obtain ⟨i, -, rfl⟩ := List.mem_map.1 hr
        refine ⟨clean_size i, fun f hf' => ?_⟩
        obtain ⟨x, -, rfl⟩ := List.mem_map.1 hf'
        exact hf x)
  rw [List.map_cons, List.map_cons, List.flatten_cons, List.map_map, List.map_map] at this
  refine ⟨['i'] :: (List.range d).map (fun i => c :: Lattice.fmtSize i),
    (List.range n).map (fun i => Lattice.fmtSize i :: (w i).map fmt), ?_, by simp, by simp,
    fun i hi => ⟨_, w i, numeral_size i, (hw i hi).1, (hw i hi).2, ?_⟩⟩
  · simp only [fmtNames_eq, fmtFields_eq]
    exact this
  · rw [List.getElem?_map, List.getElem?_range hi]; rfl

/-- What saving does: the named file becomes the text, the others stay as they are. -/
def Saved (text : Lattice F → Res (List Char)) (l : Lattice F) (fname : String) (fs : Files) (good : List Char → Prop) : Prop :=
  ∃ fs', l.save text fname fs = .ok fs' ∧ good (fs' fname) ∧ ∀ n, n ≠ fname → fs' n = fs n

theorem saved_of {text : Lattice F → Res (List Char)} {l : Lattice F} {fname : String} {fs : Files} {good : List Char → Prop}
    {t : List Char} (h : text l = .ok t) (hg : good t) : Saved text l fname fs good := by
  refine ⟨fs.write fname t, ?_, ?_, fun n hn => if_neg hn⟩
  · unfold Lattice.save; rw [h, Res.ok_bind]
  · unfold Files.write; rwa [if_pos rfl]

theorem nsites_eq (hs : Buildable size) {bd : Boundaries} {l : Lattice F} (hl : Lattice.new b size bd = .ok l) :
    l.grid.numsites = size.prod ∧ l.grid.dim = size.length := by
  rw [(new_parts hl).1]; exact ⟨numsites_eq hs.1 _, rfl⟩

/-- All positions, all vectors and, on closed lattices, all momenta have one component per dimension. -/
theorem position_shape (hs : Buildable size) (hr : Regular b size.length) {bd : Boundaries} {l : Lattice F}
    (hl : Lattice.new b size bd = .ok l) {i : Nat} (hi : i < size.prod) :
    ∃ v, l.getPosition i = .ok v ∧ v.length = size.length := by
  obtain ⟨v, h1, h2⟩ := C76_position hs hr bd l hl i hi (crd size i) (by
    rw [(new_parts hl).1, getCoordinates_eq hs.1 (buildable_fits hs) bd hi])
  obtain ⟨w, h3, h4⟩ := hr.realSpace (onGrid_length (crd_onGrid hs.1.1 hi))
  rw [h2, Res.ok.injEq] at h3
  exact ⟨v, h1, h3 ▸ h4⟩

theorem vectors_shape (hs : Buildable size) (hr : Regular b size.length) {bd : Boundaries} {l : Lattice F}
    (hl : Lattice.new b size bd = .ok l) {i : Nat} (hi : i < size.prod) :
    ∃ v, l.vectors[i]? = some v ∧ v.length = size.length := by
  cases bd with
  | «open» =>
    obtain ⟨-, h⟩ := vectors_open_eq hs hr hl
    obtain ⟨v, h1, h2⟩ := h i hi
    obtain ⟨w, h3, h4⟩ := hr.realSpace (onGrid_length (crd_onGrid hs.1.1 hi))
    rw [h2, Res.ok.injEq] at h3
    exact ⟨v, h1, h3 ▸ h4⟩
  | closed =>
    obtain ⟨vs, h1, h2, h3⟩ := computeVectors_closed hs hr (dims_of_ok hs hr hl) (fun _ _ s => s.2.length = size.length)
      (fun i r hi h => by
        obtain ⟨r', v, h4, h5⟩ := hr.distanceVector (site_near hs (crd_onGrid hs.1.1 hi))
        rw [h, Res.ok.injEq] at h4
        rw [h4]; exact h5)
      (fun i k s r hi hk hI h => by
        obtain ⟨r', v, h4, h5⟩ := hr.distanceVector (image_near hs (crd_onGrid hs.1.1 hi) (shell_mem hk))
        rw [h, Res.ok.injEq] at h4
        split
        · rw [h4]; exact h5
        · exact hI)
    have hv := (new_parts hl).2.2.1
    rw [h1, Res.ok.injEq] at hv
    rw [← hv]
    have hi' : i < vs.length := h2 ▸ hi
    obtain ⟨D, hD⟩ := h3 i _ (List.getElem?_eq_getElem hi')
    exact ⟨_, List.getElem?_eq_getElem hi', hD⟩

theorem origin_vector (hs : Buildable size) (hr : Regular b size.length) {bd : Boundaries} {l : Lattice F}
    (hl : Lattice.new b size bd = .ok l) {i : Nat} (hi : i < size.prod) :
    ∃ v, l.getVector 0 i = .ok v ∧ v.length = size.length := by
  obtain ⟨v, h1, h2⟩ := vectors_shape hs hr hl hi
  have h0 : 0 < size.prod := prod_pos hs.1.1
  refine ⟨v, ?_, h2⟩
  unfold Lattice.getVector
  rw [indexIsValid_eq hs hl h0, indexIsValid_eq hs hl hi, Bool.and_self, if_pos rfl, (new_parts hl).1]
  cases bd with
  | «open» => rw [mapped_open_le hs h0 hi (Nat.zero_le _), Res.ok_bind, Nat.sub_zero, subscript_ok h1]
  | closed =>
    obtain ⟨s, h3, h4, h5⟩ := mapped_closed hs h0 hi
    rw [minus_origin (onGrid_length (crd_onGrid hs.1.1 hi)), wrap_of_onGrid (crd_onGrid hs.1.1 hi)] at h5
    have : s = i := by rw [← idx_crd hs.1.1 h3, h5, idx_crd hs.1.1 hi]
    subst this
    rw [h4, Res.ok_bind, subscript_ok h1]

theorem closed_vector (hs : Buildable size) (hr : Regular b size.length) {l : Lattice F}
    (hl : Lattice.new b size .closed = .ok l) {x y : Nat} (hx : x < size.prod) (hy : y < size.prod) :
    ∃ v, l.getVector x y = .ok v ∧ v.length = size.length := by
  obtain ⟨s, h3, h4, -⟩ := mapped_closed hs hx hy
  obtain ⟨v, h1, h2⟩ := vectors_shape hs hr hl h3
  refine ⟨v, ?_, h2⟩
  unfold Lattice.getVector
  rw [indexIsValid_eq hs hl hx, indexIsValid_eq hs hl hy, Bool.and_self, if_pos rfl, (new_parts hl).1, h4, Res.ok_bind,
    subscript_ok h1]

theorem momentum_shape (hs : Buildable size) (hr : Regular b size.length) {l : Lattice F}
    (hl : Lattice.new b size .closed = .ok l) {i : Nat} (hi : i < size.prod) :
    ∃ v, l.momenta[i]? = some v ∧ v.length = size.length := by
  have hm := (new_parts hl).2.2.2.2.2
  have ho : (Grid.new size .closed).hasOpenBoundaries = false := rfl
  unfold Lattice.computeMomenta at hm
  rw [ho, if_neg (by decide), numsites_eq hs.1] at hm
  obtain ⟨x, h1, h2⟩ := (mapRange_eq_ok hm).2 i hi
  obtain ⟨v, -, -, h3⟩ := computeMomentum_eq hs hr .closed hi
  rw [h3] at h2
  exact ⟨x, h1, (mapRange_eq_ok h2).1⟩

theorem choose_vec {n d : Nat} {vec : Nat → Res (List F)} (h : ∀ i, i < n → ∃ v, vec i = .ok v ∧ v.length = d) :
    ∃ w : Nat → List F, ∀ i, i < n → vec i = .ok (w i) ∧ (w i).length = d := by
  have : ∀ i, ∃ v, i < n → vec i = .ok v ∧ v.length = d := by
    intro i
    by_cases hi : i < n
    · exact (h i hi).imp (fun v hv _ => hv)
    · exact ⟨[], fun h => absurd h hi⟩
  choose w hw using this
  exact ⟨w, hw⟩

/-- C82.  `SavePositions`. -/
theorem C82_positions (hs : Buildable size) (hr : Regular b size.length) (bd : Boundaries) (l : Lattice F)
    (hl : Lattice.new b size bd = .ok l) (fmt : F → List Char) (hf : ∀ x, Clean (fmt x)) (fname : String) (fs : Files) :
    Saved (Lattice.savePositionsText fmt) l fname fs (fun t => SiteTable t size.length size.prod fmt l.getPosition) := by
  obtain ⟨hn, hd⟩ := nsites_eq hs hl
  obtain ⟨w, hw⟩ := choose_vec (fun i hi => position_shape hs hr hl (i := i) hi)
  obtain ⟨rows, h1, h2⟩ := siteTable_of hf (c := 'x') (by decide) hw
  refine saved_of ?_ h2
  unfold Lattice.savePositionsText
  rw [hn, hd, h1, Res.ok_bind]

/-- C82.  `SaveDistances`. -/
theorem C82_distances (hs : Buildable size) (hr : Regular b size.length) (bd : Boundaries) (l : Lattice F)
    (hl : Lattice.new b size bd = .ok l) (fmt : F → List Char) (hf : ∀ x, Clean (fmt x)) (fname : String) (fs : Files) :
    Saved (Lattice.saveDistancesText fmt) l fname fs (fun t => SiteTable t size.length size.prod fmt (l.getVector 0)) := by
  obtain ⟨hn, hd⟩ := nsites_eq hs hl
  obtain ⟨w, hw⟩ := choose_vec (fun i hi => origin_vector hs hr hl (i := i) hi)
  obtain ⟨rows, h1, h2⟩ := siteTable_of hf (c := 'd') (by decide) hw
  refine saved_of ?_ h2
  unfold Lattice.saveDistancesText
  rw [hn, hd, h1, Res.ok_bind]

/-- C82.  `SaveMomenta` on a closed lattice.  Missing: open lattices, on which it is false. -/
theorem C82_momenta_partial (hs : Buildable size) (hr : Regular b size.length) (l : Lattice F)
    (hl : Lattice.new b size .closed = .ok l) (fmt : F → List Char) (hf : ∀ x, Clean (fmt x)) (fname : String) (fs : Files) :
    Saved (Lattice.saveMomentaText fmt) l fname fs (fun t => SiteTable t size.length size.prod fmt l.getMomentum) := by
  obtain ⟨hn, hd⟩ := nsites_eq hs hl
  have hget : ∀ i, i < size.prod → l.getMomentum i = subscript l.momenta i := fun i hi => by
    unfold Lattice.getMomentum; rw [indexIsValid_eq hs hl hi, if_pos rfl]
  obtain ⟨w, hw⟩ := choose_vec (n := size.prod) (d := size.length) (vec := l.getMomentum) (fun i hi => by
    obtain ⟨v, h1, h2⟩ := momentum_shape hs hr hl hi
    exact ⟨v, by rw [hget i hi, subscript_ok h1], h2⟩)
  obtain ⟨rows, h1, h2⟩ := siteTable_of hf (c := 'k') (by decide) hw
  refine saved_of ?_ h2
  unfold Lattice.saveMomentaText
  have : mapRange size.prod (fun i => do
      let k ← subscript l.momenta i
      .ok (Lattice.fmtSize i ++ Lattice.fmtFields fmt k ++ ['\n'])) = .ok rows := by
    rw [← h1]
    rw [mapRange_ok (g := fun i => Lattice.fmtSize i ++ Lattice.fmtFields fmt (w i) ++ ['\n']),
      mapRange_ok (g := fun i => Lattice.fmtSize i ++ Lattice.fmtFields fmt (w i) ++ ['\n'])]
    · intro i hi; rw [(hw i hi).1, Res.ok_bind]
    · intro i hi; rw [← hget i hi, (hw i hi).1, Res.ok_bind]
  rw [hn, hd, this, Res.ok_bind]

/-- A header and one line per pair of sites: the numbers of the pair and of its two sites, the vectors from site 0 to
each of them, and the vector between them. -/
def PairTable (t : List Char) (d n : Nat) (fmt : F → List Char) (vec : Nat → Nat → Res (List F)) : Prop :=
  ∃ header rows, IsTable t (header :: rows) ∧ header.length = 3 + 3 * d ∧ rows.length = n * n ∧
    ∀ p x y, x < n → y < n → p = y * n + x → ∃ num numx numy u v w, IsNumeral num p ∧ IsNumeral numx x ∧ IsNumeral numy y ∧
      vec 0 x = .ok u ∧ vec 0 y = .ok v ∧ vec x y = .ok w ∧ u.length = d ∧ v.length = d ∧ w.length = d ∧
      rows[p]? = some (num :: numx :: numy :: (u ++ v ++ w).map fmt)

/-- C82.  `SavePairs` on a closed lattice.  Missing: open lattices, on which it is false. -/
theorem C82_pairs_partial (hs : Buildable size) (hr : Regular b size.length) (hn : size.prod < 2 ^ 32) (l : Lattice F)
    (hl : Lattice.new b size .closed = .ok l) (fmt : F → List Char) (hf : ∀ x, Clean (fmt x)) (fname : String) (fs : Files) :
    Saved (Lattice.savePairsText fmt) l fname fs (fun t => PairTable t size.length size.prod fmt l.getVector) := by
  obtain ⟨hnum, hd⟩ := nsites_eq hs hl
  have h0 : 0 < size.prod := prod_pos hs.1.1
  have : ∀ x, ∃ w : Nat → List F, ∀ y, y < size.prod → x < size.prod → l.getVector x y = .ok (w y) ∧ (w y).length = size.length := by
    intro x
    by_cases hx : x < size.prod
    · obtain ⟨w, hw⟩ := choose_vec (fun i hi => closed_vector hs hr hl hx (y := i) hi)
      exact ⟨w, fun y hy _ => hw y hy⟩
    · exact ⟨fun _ => [], fun y _ h => absurd h hx⟩
  choose w hw using this
  have hw' : ∀ x y, x < size.prod → y < size.prod → l.getVector x y = .ok (w x y) ∧ (w x y).length = size.length :=
    fun x y hx hy => hw x y hy hx
  have hpair : ∀ p, p < size.prod * size.prod → p % size.prod < size.prod ∧ p / size.prod < size.prod ∧
      Pairs.getPair p size.prod = .ok (p % size.prod, p / size.prod) ∧
      Pairs.getPairIndex (p % size.prod) (p / size.prod) size.prod = p := by
    intro p hp
    have hy : p / size.prod < size.prod := Nat.div_lt_of_lt_mul hp
    have hx := Nat.mod_lt p h0
    have e : p / size.prod * size.prod + p % size.prod = p := by rw [Nat.mul_comm]; exact Nat.div_add_mod p _
    have h2 : size.prod * size.prod ≤ (2 ^ 32 - 1) * (2 ^ 32 - 1) := Nat.mul_le_mul (by omega) (by omega)
    have hidx : Pairs.getPairIndex (p % size.prod) (p / size.prod) size.prod = p := by
      unfold Pairs.getPairIndex uadd umul
      have h3 : p / size.prod * size.prod < W64 := by omega
      rw [Nat.mod_eq_of_lt h3, e, Nat.mod_eq_of_lt (by omega)]
    have := (C05_pair_roundtrip size.prod hn.le _ _ hx hy).2
    rw [hidx] at this
    exact ⟨hx, hy, this, hidx⟩
  let fields : Nat → List Char × List (List Char) := fun p =>
    (Lattice.fmtSize p, Lattice.fmtSize (p % size.prod) :: Lattice.fmtSize (p / size.prod) ::
      (w 0 (p % size.prod) ++ w 0 (p / size.prod) ++ w (p % size.prod) (p / size.prod)).map fmt)
  have hrows : mapRange (Pairs.getNumPairs size.prod) (fun i => do
      let p ← Pairs.getPair i size.prod
      let va ← l.getVector 0 p.1
      let vb ← l.getVector 0 p.2
      let vec ← l.getVector p.1 p.2
      .ok (Lattice.fmtSize (Pairs.getPairIndex p.1 p.2 size.prod) ++ [','] ++ Lattice.fmtSize p.1 ++ [','] ++ Lattice.fmtSize p.2 ++
        Lattice.fmtFields fmt va ++ Lattice.fmtFields fmt vb ++ Lattice.fmtFields fmt vec ++ ['\n'])) =
      .ok ((List.range (size.prod * size.prod)).map (fun p => (fields p).1 ++ commas (fields p).2 ++ ['\n'])) := by
    rw [C05_num_pairs _ hn]
    refine mapRange_ok (fun p hp => ?_)
    obtain ⟨hx, hy, h1, h2⟩ := hpair p hp
    rw [h1, Res.ok_bind, (hw' 0 _ h0 hx).1, Res.ok_bind, (hw' 0 _ h0 hy).1, Res.ok_bind, (hw' _ _ hx hy).1, Res.ok_bind, h2]
    refine congrArg Res.ok ?_
    simp [fields, fmtFields_eq, commas]
  have htable := isTable_of (rows := (['i'], ['a'] :: ['b'] :: ((List.range size.length).map (fun i => 'x' :: Lattice.fmtSize i) ++
      (List.range size.length).map (fun i => 'y' :: Lattice.fmtSize i) ++ (List.range size.length).map (fun i => 'd' :: Lattice.fmtSize i))) ::
    (List.range (size.prod * size.prod)).map fields) (by
      intro r hr
      rcases List.mem_cons.1 hr with rfl | hr
      · refine ⟨clean_i, fun f hf' => ?_⟩
        simp only [List.mem_cons, List.mem_append, List.mem_map] at hf'
        rcases hf' with rfl | rfl | (⟨i, -, rfl⟩ | ⟨i, -, rfl⟩) | ⟨i, -, rfl⟩
        · exact ⟨by decide, by decide⟩
        · exact ⟨by decide, by decide⟩
        · exact clean_name _ (by decide) i
        · exact clean_name _ (by decide) i
        · exact clean_name _ (by decide) i
      · obtain ⟨p, -, rfl⟩ := List.mem_map.1 hr
        refine ⟨clean_size p, fun f hf' => ?_⟩
        rcases List.mem_cons.1 hf' with rfl | hf'
        · exact clean_size _
        · rcases List.mem_cons.1 hf' with rfl | hf'
          · exact clean_size _
          · obtain ⟨x, -, rfl⟩ := List.mem_map.1 hf'
            exact hf x)
  rw [List.map_cons, List.map_cons, List.flatten_cons, List.map_map, List.map_map] at htable
  refine saved_of (t := "i,a,b".toList ++ Lattice.fmtNames 'x' size.length ++ Lattice.fmtNames 'y' size.length ++
    Lattice.fmtNames 'd' size.length ++ ['\n'] ++
    ((List.range (size.prod * size.prod)).map (fun p => (fields p).1 ++ commas (fields p).2 ++ ['\n'])).flatten) ?_ ?_
  · unfold Lattice.savePairsText
    simp only [hnum, hd]
    rw [hrows, Res.ok_bind]
  · refine ⟨['i'] :: ['a'] :: ['b'] :: ((List.range size.length).map (fun i => 'x' :: Lattice.fmtSize i) ++
        (List.range size.length).map (fun i => 'y' :: Lattice.fmtSize i) ++ (List.range size.length).map (fun i => 'd' :: Lattice.fmtSize i)),
      (List.range (size.prod * size.prod)).map (fun p => (fields p).1 :: (fields p).2), ?_, ?_, ?_, ?_⟩
    · have e : "i,a,b".toList ++ Lattice.fmtNames 'x' size.length ++ Lattice.fmtNames 'y' size.length ++
          Lattice.fmtNames 'd' size.length = ['i'] ++ commas (['a'] :: ['b'] :: ((List.range size.length).map (fun i => 'x' :: Lattice.fmtSize i) ++
        (List.range size.length).map (fun i => 'y' :: Lattice.fmtSize i) ++ (List.range size.length).map (fun i => 'd' :: Lattice.fmtSize i))) := by
        simp only [fmtNames_eq]
        simp [commas]
      rw [e]
      exact htable
    · simp; ring
    · simp
    · intro p x y hx hy hp
      have hlt : p < size.prod * size.prod := by
        calc p = y * size.prod + x := hp
          _ < y * size.prod + size.prod := by omega
          _ = (y + 1) * size.prod := by ring
          _ ≤ size.prod * size.prod := Nat.mul_le_mul_right _ (by omega)
      have e1 : p % size.prod = x := by rw [hp, Nat.mul_comm, Nat.mul_add_mod, Nat.mod_eq_of_lt hx]
      have e2 : p / size.prod = y := by
        rw [hp, Nat.mul_comm, Nat.mul_add_div h0, Nat.div_eq_of_lt hx, Nat.add_zero]
      refine ⟨_, _, _, w 0 x, w 0 y, w x y, numeral_size p, numeral_size x, numeral_size y, (hw' 0 x h0 hx).1, (hw' 0 y h0 hy).1,
        (hw' x y hx hy).1, (hw' 0 x h0 hx).2, (hw' 0 y h0 hy).2, (hw' x y hx hy).2, ?_⟩
      rw [List.getElem?_map, List.getElem?_range hlt, Option.map_some]
      simp only [fields, e1, e2]

/-- C82 is violated: `SaveMomenta` on any open lattice reads out of bounds. -/
theorem C82_open_momenta_violated (hs : Buildable size) (l : Lattice F) (hl : Lattice.new b size .open = .ok l)
    (fmt : F → List Char) (fname : String) (fs : Files) :
    l.save (Lattice.saveMomentaText fmt) fname fs = .ub .outOfBounds := by
  obtain ⟨hn, hd⟩ := nsites_eq hs hl
  have hm := (new_parts hl).2.2.2.2.2
  have : Lattice.computeMomenta (Grid.new size .open) b = .ok [] := rfl
  rw [this, Res.ok.injEq] at hm
  obtain ⟨n, hn'⟩ := Nat.exists_eq_succ_of_ne_zero (prod_pos hs.1.1).ne'
  unfold Lattice.save Lattice.saveMomentaText
  rw [hn, ← hm, hn']
  rfl

/-- C82 is violated: `SavePairs` on an open lattice with more than one site reads out of bounds. -/
theorem C82_open_pairs_violated (hs : Buildable size) (hr : Regular b size.length) (hn : size.prod < 2 ^ 32) (h2 : 2 ≤ size.prod)
    (l : Lattice F) (hl : Lattice.new b size .open = .ok l) (fmt : F → List Char) (fname : String) (fs : Files) :
    l.save (Lattice.savePairsText fmt) fname fs = .ub .outOfBounds := by
  obtain ⟨hnum, hd⟩ := nsites_eq hs hl
  obtain ⟨m, hm⟩ : ∃ m, Pairs.getNumPairs size.prod = m + 2 := by
    rw [C05_num_pairs _ hn]
    have : 2 * 2 ≤ size.prod * size.prod := Nat.mul_le_mul h2 h2
    exact ⟨size.prod * size.prod - 2, by omega⟩
  obtain ⟨v0, hv0, -⟩ := origin_vector hs hr hl (i := 0) (by omega)
  obtain ⟨v1, hv1, -⟩ := origin_vector hs hr hl (i := 1) (by omega)
  have hbad := (C77_backwards_violated hs hr (by omega) l hl 1 0 (by omega) (by omega) (by omega)).2
  have hp0 : Pairs.getPair 0 size.prod = .ok (0, 0) := by
    unfold Pairs.getPair umod udiv
    rw [if_neg (by omega), if_neg (by omega), Nat.zero_mod, Nat.zero_div]; rfl
  have hp1 : Pairs.getPair 1 size.prod = .ok (1, 0) := by
    unfold Pairs.getPair umod udiv
    rw [if_neg (by omega), if_neg (by omega), Nat.mod_eq_of_lt (by omega), Nat.div_eq_of_lt (by omega)]; rfl
  unfold Lattice.save Lattice.savePairsText
  simp only [hnum, hm, mapRange, mapRangeFrom, hp0, hp1, Res.ok_bind, hv0, hv1, hbad, Res.ub_bind, Nat.zero_add]

/-- C82: a formatter that meets the hypothesis. -/
example : ∀ x : Nat, Clean (Lattice.fmtSize x) := clean_size

end
end Bwsl
