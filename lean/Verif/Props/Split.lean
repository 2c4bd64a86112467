import Verif.Prelude
import Verif.Lemmas.Split

/-!
# Properties C01-C04: splitting spectra
-/

set_option linter.unusedSectionVars false

set_option autoImplicit false

namespace Euphonic

variable {α M : Type}

/-! ## Specification -/

/-- Admissible break points for data of length `n`: non-decreasing and within `0..n`. -/
def ValidBreaks (n : Nat) (is : List Int) : Prop :=
  is.Pairwise (· ≤ ·) ∧ ∀ i ∈ is, 0 ≤ i ∧ i ≤ n

/-- The shape invariant of a `Spectrum1D`: `n` or `n+1` axis values for `n` intensities. -/
def Spec1D.WF (s : Spec1D α M) : Prop := s.x.length = s.y.length ∨ s.x.length = s.y.length + 1

/-- Tick labels of a list of pieces, moved back to positions in the unsplit data
(`off` = number of intensities in the pieces before). -/
def unsplitTicks : Nat → List (Spec1D α M) → List (Int × String)
  | _, [] => []
  | off, p :: ps => ((p.ticks.getD []).map fun t => (t.1 + (off : Int), t.2))
      ++ unsplitTicks (off + p.y.length) ps

/-! ## Lemmas tying the model to its pieces -/

/-- The piece of `s` on one range. -/
def Spec1D.piece (s : Spec1D α M) (r : Int × Option Int) : Spec1D α M :=
  ⟨pySlice s.x r.1 r.2, pySlice s.y r.1 r.2, cutXTicks s.ticks r.1 r.2, s.md⟩

theorem ValidBreaks.good {n : Nat} {is : List Int} (h : ValidBreaks n is) : GoodFrom n 0 is :=
  goodFrom_of_sorted n 0 is le_rfl (by omega)
    (List.pairwise_cons.2 ⟨fun i hi => (h.2 i hi).1, h.1⟩) (fun i hi => (h.2 i hi).2)

theorem piece_wf (nx ny : Nat) (hw : nx = ny ∨ nx = ny + 1) (lx : List α) {β : Type} (ly : List β)
    (hx : lx.length = nx) (hy : ly.length = ny)
    (r : Int × Option Int) (h0 : 0 ≤ r.1) (h1 : r.1 ≤ ny)
    (h2 : ∀ e, r.2 = some e → r.1 ≤ e ∧ e ≤ ny) :
    (pySlice lx r.1 r.2).length = (pySlice ly r.1 r.2).length ∨
    (pySlice lx r.1 r.2).length = (pySlice ly r.1 r.2).length + 1 := by
  rw [length_pySlice, length_pySlice, hx, hy]
  have e1 := pyIdx_of_range h0 (show r.1 ≤ (nx : Int) by omega)
  have e2 := pyIdx_of_range h0 (show r.1 ≤ (ny : Int) by omega)
  cases hr : r.2 with
  | none => simp only; omega
  | some e =>
    obtain ⟨h3, h4⟩ := h2 e hr
    have e3 := pyIdx_of_range (show 0 ≤ e by omega) (show e ≤ (nx : Int) by omega)
    have e4 := pyIdx_of_range (show 0 ≤ e by omega) (show e ≤ (ny : Int) by omega)
    simp only; omega

theorem Spec1D.splitByIndices_eq (s : Spec1D α M) (hs : s.WF) (is : List Int)
    (h : ValidBreaks s.y.length is) :
    s.splitByIndices is = .ok ((rangesFrom 0 is).map s.piece) := by
  unfold Spec1D.splitByIndices
  rw [rangesFromIndices_eq]
  apply mapM_ok_of_forall
  intro r hr
  obtain ⟨h0, h1, h2⟩ := good_range_mem h.good hr
  have := piece_wf _ _ hs s.x s.y rfl rfl r h0 h1 h2
  simp [Spec1D.new, this, Spec1D.piece]

theorem sum_lengths_take (l : List α) (n : Nat) (hn : n ≤ l.length) (a : Int) (is : List Int)
    (h : GoodFrom n a is) (k : Nat) (hk : k < is.length) :
    (((((rangesFrom a is).map (fun r => (pySlice l r.1 r.2).length)).take (k+1)).sum : Nat) : Int)
      = is[k] - a := by
  induction is generalizing a k with
  | nil => simp at hk
  | cons i is ih =>
    obtain ⟨h0, h1, h2, h3⟩ := h
    have e1 := pyIdx_of_range h0 (show a ≤ (l.length : Int) by omega)
    have e2 := pyIdx_of_range (show 0 ≤ i by omega) (show i ≤ (l.length : Int) by omega)
    have hlen : ((pySlice l a (some i)).length : Int) = i - a := by
      rw [length_pySlice]; simp only; omega
    cases k with
    | zero => simp [rangesFrom, hlen]
    | succ k =>
      have := ih i h3 k (by simpa using hk)
      simp only [rangesFrom, List.map_cons, List.take_succ_cons, List.sum_cons, Nat.cast_add,
        List.getElem_cons_succ] at this ⊢
      rw [this, hlen]; omega

/-! ## C01: nothing is lost, nothing is duplicated, breaks are where requested -/

/-- **C01** (`Spectrum1D.split`). For every well-formed spectrum and all admissible break points the
split succeeds; there is one piece more than break points; the intensities and the axis values of the
pieces, concatenated, are those of the spectrum; the first `k+1` pieces together end at break point
`k`; each piece is a well-formed spectrum carrying the metadata. -/
theorem C01_split_spectrum1d (s : Spec1D α M) (hs : s.WF) (is : List Int)
    (h : ValidBreaks s.y.length is) :
    ∃ ps, s.splitByIndices is = .ok ps ∧ ps.length = is.length + 1 ∧
      (ps.map (·.y)).flatten = s.y ∧ (ps.map (·.x)).flatten = s.x ∧
      (∀ k (hk : k < is.length), (((ps.map (·.y.length)).take (k+1)).sum : Int) = is[k]) ∧
      ∀ p ∈ ps, p.WF ∧ p.md = s.md := by
  refine ⟨_, s.splitByIndices_eq hs is h, by simp [length_rangesFrom], ?_, ?_, ?_, ?_⟩
  · have := flatten_slices s.y s.y.length le_rfl 0 is h.good
    simpa [List.map_map, Function.comp_def, Spec1D.piece] using this
  · have := flatten_slices s.x s.y.length (by rcases hs with h | h <;> omega) 0 is h.good
    simpa [List.map_map, Function.comp_def, Spec1D.piece] using this
  · intro k hk
    have := sum_lengths_take s.y s.y.length le_rfl 0 is h.good k hk
    simp only [List.map_map, Function.comp_def, Spec1D.piece]
    rw [Int.sub_zero] at this
    exact_mod_cast this
  · intro p hp
    obtain ⟨r, hr, rfl⟩ := List.mem_map.1 hp
    obtain ⟨h0, h1, h2⟩ := good_range_mem h.good hr
    exact ⟨piece_wf _ _ hs s.x s.y rfl rfl r h0 h1 h2, rfl⟩

/-- C01 is not vacuous: five points on bin edges, cut at 2 and 3. -/
example : (⟨[0,1,2,3,4,5], [10,11,12,13,14], some [(0,"A"),(2,"B")], ()⟩ : Spec1D ℚ Unit).WF ∧
    ValidBreaks 5 [2, 3] ∧
    (⟨[0,1,2,3,4,5], [10,11,12,13,14], some [(0,"A"),(2,"B")], ()⟩ : Spec1D ℚ Unit).splitByIndices
      [2, 3] = .ok [⟨[0,1],[10,11],some [(0,"A")],()⟩, ⟨[2],[12],some [(0,"B")],()⟩,
        ⟨[3,4,5],[13,14],some [],()⟩] := by
  refine ⟨Or.inr rfl, ⟨by simp, by simp⟩, by decide⟩

/-- **C01** (`Spectrum1DCollection.split`): every row is split like a spectrum, all pieces keep the
number of rows. -/
theorem C01_split_collection1d (s : Coll1D α M)
    (hx : s.x.length = s.ny ∨ s.x.length = s.ny + 1) (hne : s.rows ≠ [])
    (hr : ∀ r ∈ s.rows, r.length = s.ny) (is : List Int) (h : ValidBreaks s.ny is) :
    ∃ ps, s.splitByIndices is = .ok ps ∧ ps.length = is.length + 1 ∧
      (ps.map (·.x)).flatten = s.x ∧
      (∀ j, (ps.map (fun p => p.rows.getD j [])).flatten = s.rows.getD j []) ∧
      (∀ k (hk : k < is.length), (((ps.map (·.ny)).take (k+1)).sum : Int) = is[k]) ∧
      ∀ p ∈ ps, p.md = s.md ∧ p.rows.length = s.rows.length ∧
        (p.x.length = p.ny ∨ p.x.length = p.ny + 1) ∧ ∀ r ∈ p.rows, r.length = p.ny := by
  have hok : s.splitByIndices is = .ok ((rangesFrom 0 is).map fun r =>
      ⟨pySlice s.x r.1 r.2, (pySlice (List.range s.ny) r.1 r.2).length,
        s.rows.map fun y => pySlice y r.1 r.2, cutXTicks s.ticks r.1 r.2, s.md⟩) := by
    unfold Coll1D.splitByIndices
    rw [rangesFromIndices_eq]
    apply mapM_ok_of_forall
    intro r hr'
    obtain ⟨h0, h1, h2⟩ := good_range_mem h.good hr'
    have := piece_wf _ _ hx s.x (List.range s.ny) rfl (by simp) r h0 h1 h2
    simp [Coll1D.new, this, hne]
  refine ⟨_, hok, by simp [length_rangesFrom], ?_, ?_, ?_, ?_⟩
  · have := flatten_slices s.x s.ny (by rcases hx with h | h <;> omega) 0 is h.good
    simpa [List.map_map, Function.comp_def] using this
  · intro j
    simp only [List.map_map, Function.comp_def, List.getD_eq_getElem?_getD, List.getElem?_map]
    cases hj : s.rows[j]? with
    | none => simp
    | some y =>
      have hy := hr y (List.mem_of_getElem? hj)
      have := flatten_slices y s.ny (by omega) 0 is h.good
      simpa using this
  · intro k hk
    have := sum_lengths_take (List.range s.ny) s.ny (by simp) 0 is h.good k hk
    simp only [List.map_map, Function.comp_def]
    rw [Int.sub_zero] at this
    exact_mod_cast this
  · intro p hp
    obtain ⟨r, hr', rfl⟩ := List.mem_map.1 hp
    obtain ⟨h0, h1, h2⟩ := good_range_mem h.good hr'
    refine ⟨rfl, by simp, piece_wf _ _ hx s.x (List.range s.ny) rfl (by simp) r h0 h1 h2, ?_⟩
    intro y hy
    obtain ⟨y', hy', rfl⟩ := List.mem_map.1 hy
    simp [length_pySlice, hr y' hy']

example : (⟨[0,1,2], 3, [[1,2,3],[4,5,6]], none, ()⟩ : Coll1D ℚ Unit).splitByIndices [1]
    = .ok [⟨[0], 1, [[1],[4]], none, ()⟩, ⟨[1,2], 2, [[2,3],[5,6]], none, ()⟩]
    ∧ ValidBreaks 3 [1] := ⟨by decide, by simp [ValidBreaks]⟩

/-- **C01** (`Spectrum2D.split`): the x-rows are distributed over the pieces, the y axis is kept. -/
theorem C01_split_spectrum2d (s : Spec2D α M)
    (hx : s.x.length = s.z.length ∨ s.x.length = s.z.length + 1)
    (hy : s.y.length = s.nyb ∨ s.y.length = s.nyb + 1)
    (is : List Int) (h : ValidBreaks s.z.length is) :
    ∃ ps, s.splitByIndices is = .ok ps ∧ ps.length = is.length + 1 ∧
      (ps.map (·.z)).flatten = s.z ∧ (ps.map (·.x)).flatten = s.x ∧
      (∀ k (hk : k < is.length), (((ps.map (·.z.length)).take (k+1)).sum : Int) = is[k]) ∧
      ∀ p ∈ ps, p.md = s.md ∧ p.y = s.y ∧ p.nyb = s.nyb ∧
        (p.x.length = p.z.length ∨ p.x.length = p.z.length + 1) := by
  have hok : s.splitByIndices is = .ok ((rangesFrom 0 is).map fun r =>
      ⟨pySlice s.x r.1 r.2, s.y, s.nyb, pySlice s.z r.1 r.2, cutXTicks s.ticks r.1 r.2, s.md⟩) := by
    unfold Spec2D.splitByIndices
    rw [rangesFromIndices_eq]
    apply mapM_ok_of_forall
    intro r hr'
    obtain ⟨h0, h1, h2⟩ := good_range_mem h.good hr'
    have := piece_wf _ _ hx s.x s.z rfl rfl r h0 h1 h2
    simp [Spec2D.new, this, hy]
  refine ⟨_, hok, by simp [length_rangesFrom], ?_, ?_, ?_, ?_⟩
  · have := flatten_slices s.z s.z.length le_rfl 0 is h.good
    simpa [List.map_map, Function.comp_def] using this
  · have := flatten_slices s.x s.z.length (by rcases hx with h | h <;> omega) 0 is h.good
    simpa [List.map_map, Function.comp_def] using this
  · intro k hk
    have := sum_lengths_take s.z s.z.length le_rfl 0 is h.good k hk
    simp only [List.map_map, Function.comp_def]
    rw [Int.sub_zero] at this
    exact_mod_cast this
  · intro p hp
    obtain ⟨r, hr', rfl⟩ := List.mem_map.1 hp
    obtain ⟨h0, h1, h2⟩ := good_range_mem h.good hr'
    exact ⟨rfl, rfl, rfl, piece_wf _ _ hx s.x s.z rfl rfl r h0 h1 h2⟩

example : (⟨[0,1], [5], 1, [[1],[2]], none, ()⟩ : Spec2D ℚ Unit).splitByIndices [1]
    = .ok [⟨[0], [5], 1, [[1]], none, ()⟩, ⟨[1], [5], 1, [[2]], none, ()⟩]
    ∧ ValidBreaks 2 [1] := ⟨by decide, by simp [ValidBreaks]⟩

/-- **C01** (`Spectrum2DCollection.split`). -/
theorem C01_split_collection2d (s : Coll2D α M)
    (hx : s.x.length = s.nx ∨ s.x.length = s.nx + 1)
    (hy : s.y.length = s.nyb ∨ s.y.length = s.nyb + 1)
    (hz : ∀ z ∈ s.zs, z.length = s.nx)
    (is : List Int) (h : ValidBreaks s.nx is) :
    ∃ ps, s.splitByIndices is = .ok ps ∧ ps.length = is.length + 1 ∧
      (ps.map (·.x)).flatten = s.x ∧
      (∀ j, (ps.map (fun p => p.zs.getD j [])).flatten = s.zs.getD j []) ∧
      (∀ k (hk : k < is.length), (((ps.map (·.nx)).take (k+1)).sum : Int) = is[k]) ∧
      ∀ p ∈ ps, p.md = s.md ∧ p.y = s.y ∧ p.zs.length = s.zs.length ∧
        (p.x.length = p.nx ∨ p.x.length = p.nx + 1) ∧ ∀ z ∈ p.zs, z.length = p.nx := by
  have hok : s.splitByIndices is = .ok ((rangesFrom 0 is).map fun r =>
      ⟨pySlice s.x r.1 r.2, s.y, (pySlice (List.range s.nx) r.1 r.2).length, s.nyb,
        s.zs.map fun y => pySlice y r.1 r.2, cutXTicks s.ticks r.1 r.2, s.md⟩) := by
    unfold Coll2D.splitByIndices
    rw [rangesFromIndices_eq]
    apply mapM_ok_of_forall
    intro r hr'
    obtain ⟨h0, h1, h2⟩ := good_range_mem h.good hr'
    have := piece_wf _ _ hx s.x (List.range s.nx) rfl (by simp) r h0 h1 h2
    simp [Coll2D.new, this, hy]
  refine ⟨_, hok, by simp [length_rangesFrom], ?_, ?_, ?_, ?_⟩
  · have := flatten_slices s.x s.nx (by rcases hx with h | h <;> omega) 0 is h.good
    simpa [List.map_map, Function.comp_def] using this
  · intro j
    simp only [List.map_map, Function.comp_def, List.getD_eq_getElem?_getD, List.getElem?_map]
    cases hj : s.zs[j]? with
    | none => simp
    | some y =>
      have hy := hz y (List.mem_of_getElem? hj)
      have := flatten_slices y s.nx (by omega) 0 is h.good
      simpa using this
  · intro k hk
    have := sum_lengths_take (List.range s.nx) s.nx (by simp) 0 is h.good k hk
    simp only [List.map_map, Function.comp_def]
    rw [Int.sub_zero] at this
    exact_mod_cast this
  · intro p hp
    obtain ⟨r, hr', rfl⟩ := List.mem_map.1 hp
    obtain ⟨h0, h1, h2⟩ := good_range_mem h.good hr'
    refine ⟨rfl, rfl, by simp, piece_wf _ _ hx s.x (List.range s.nx) rfl (by simp) r h0 h1 h2, ?_⟩
    intro y hy
    obtain ⟨y', hy', rfl⟩ := List.mem_map.1 hy
    simp [length_pySlice, hz y' hy']

example : (⟨[0,1], [5], 2, 1, [[[1],[2]],[[3],[4]]], none, ()⟩ : Coll2D ℚ Unit).splitByIndices [1]
    = .ok [⟨[0], [5], 1, 1, [[[1]],[[3]]], none, ()⟩, ⟨[1], [5], 1, 1, [[[2]],[[4]]], none, ()⟩]
    ∧ ValidBreaks 2 [1] := ⟨by decide, by simp [ValidBreaks]⟩

/-! ## C02: tick labels -/

theorem filter_split_sorted (T : List (Int × String)) (i : Int)
    (h : T.Pairwise (fun s t => s.1 ≤ t.1)) :
    T.filter (fun p => decide (p.1 < i)) ++ T.filter (fun p => decide (i ≤ p.1)) = T := by
  induction T with
  | nil => rfl
  | cons t T ih =>
    obtain ⟨h1, h2⟩ := List.pairwise_cons.1 h
    by_cases ht : t.1 < i
    · have : ¬ i ≤ t.1 := by omega
      simp [ht, this, ih h2]
    · have ht' : i ≤ t.1 := by omega
      have e1 : T.filter (fun p => decide (p.1 < i)) = [] := by
        rw [List.filter_eq_nil_iff]
        intro p hp
        have := h1 p hp
        simp; omega
      have e2 : T.filter (fun p => decide (i ≤ p.1)) = T := by
        rw [List.filter_eq_self]
        intro p hp
        have := h1 p hp
        simp; omega
      simp [ht', e1, e2, not_lt.2 ht']

theorem unsplit_aux (s : Spec1D α M) (T : List (Int × String)) (hT : s.ticks = some T)
    (a : Int) (is : List Int) (h : GoodFrom s.y.length a is) (off : Nat) (hoff : (off : Int) = a) :
    (unsplitTicks off ((rangesFrom a is).map s.piece)).Perm (T.filter (fun p => decide (a ≤ p.1))) ∧
    (T.Pairwise (fun s t => s.1 ≤ t.1) →
      unsplitTicks off ((rangesFrom a is).map s.piece) = T.filter (fun p => decide (a ≤ p.1))) := by
  induction is generalizing a off with
  | nil =>
    have e : unsplitTicks off ((rangesFrom a []).map s.piece)
        = T.filter (fun p => decide (a ≤ p.1)) := by
      simp only [rangesFrom, List.map_cons, List.map_nil, unsplitTicks, Spec1D.piece, cutXTicks, hT,
        Option.getD_some, List.append_nil, List.map_map, Bool.and_true]
      conv_rhs => rw [← List.map_id (T.filter _)]
      apply List.map_congr_left
      intro p _
      simp only [Function.comp_def, id]
      ext <;> simp; omega
    rw [e]
    exact ⟨List.Perm.refl _, fun _ => rfl⟩
  | cons i is ih =>
    obtain ⟨h0, h1, h2, h3⟩ := h
    have e1 := pyIdx_of_range h0 (show a ≤ (s.y.length : Int) by omega)
    have e2 := pyIdx_of_range (show 0 ≤ i by omega) (show i ≤ (s.y.length : Int) by omega)
    have hlen : ((pySlice s.y a (some i)).length : Int) = i - a := by
      rw [length_pySlice]; simp only; omega
    obtain ⟨ih1, ih2⟩ := ih i h3 (off + (pySlice s.y a (some i)).length) (by omega)
    have e : unsplitTicks off ((rangesFrom a (i :: is)).map s.piece)
        = (T.filter (fun p => decide (a ≤ p.1))).filter (fun p => decide (p.1 < i)) ++
          unsplitTicks (off + (pySlice s.y a (some i)).length) ((rangesFrom i is).map s.piece) := by
      simp only [rangesFrom, List.map_cons, unsplitTicks]
      simp only [Spec1D.piece, cutXTicks, hT, Option.getD_some, List.map_map, List.filter_filter]
      congr 1
      have : (fun p : Int × String => decide (a ≤ p.1) && decide (p.1 < i)) =
          (fun p => decide (p.1 < i) && decide (a ≤ p.1)) := by
        funext p; exact Bool.and_comm _ _
      rw [this]
      conv_rhs => rw [← List.map_id (T.filter _)]
      apply List.map_congr_left
      intro p _
      simp only [Function.comp_def, id]
      ext <;> simp; omega
    have e3 : T.filter (fun p => decide (i ≤ p.1))
        = (T.filter (fun p => decide (a ≤ p.1))).filter (fun p => !decide (p.1 < i)) := by
      rw [List.filter_filter]
      apply List.filter_congr
      intro p _
      by_cases h4 : p.1 < i
      · have : ¬ i ≤ p.1 := by omega
        simp [h4, this]
      · have h5 : i ≤ p.1 := by omega
        have h6 : a ≤ p.1 := by omega
        simp [h5, h6, not_lt.2 h5]
    rw [e]
    constructor
    · refine (ih1.append_left _).trans ?_
      rw [e3]
      exact List.filter_append_perm _ _
    · intro hso
      rw [ih2 hso]
      have := filter_split_sorted (T.filter (fun p => decide (a ≤ p.1))) i (hso.filter _)
      have e4 : T.filter (fun p => decide (i ≤ p.1)) =
          (T.filter (fun p => decide (a ≤ p.1))).filter (fun p => decide (i ≤ p.1)) := by
        rw [e3]; apply List.filter_congr; intro p _
        by_cases h4 : p.1 < i
        · have : ¬ i ≤ p.1 := by omega
          simp [h4, this]
        · have h5 : i ≤ p.1 := by omega
          simp [h5, not_lt.2 h5]
      rw [e4]; exact this

/-- **C02**. Moving the labels of the pieces back by the number of data points before each piece gives
exactly the original labels (as a multiset; in the same order if the labels were ordered by
position): every label is in exactly one piece, marks the same data point, and none is added. -/
theorem C02_split_ticks (s : Spec1D α M) (hs : s.WF) (T : List (Int × String))
    (hT : s.ticks = some T) (hpos : ∀ t ∈ T, 0 ≤ t.1) (is : List Int)
    (h : ValidBreaks s.y.length is) :
    ∃ ps, s.splitByIndices is = .ok ps ∧ (unsplitTicks 0 ps).Perm T ∧
      (T.Pairwise (fun s t => s.1 ≤ t.1) → unsplitTicks 0 ps = T) := by
  refine ⟨_, s.splitByIndices_eq hs is h, ?_⟩
  have hf : T.filter (fun p => decide (0 ≤ p.1)) = T := by
    rw [List.filter_eq_self]; intro p hp; simpa using hpos p hp
  have := unsplit_aux s T hT 0 is h.good 0 rfl
  rwa [hf] at this

/-- **C02**, second part: within a piece every label is at a non-negative position, and in every piece
but the last the position is within the piece's data.  Pieces have labels iff the spectrum has. -/
theorem C02_split_ticks_in_range (s : Spec1D α M) (hs : s.WF) (is : List Int)
    (h : ValidBreaks s.y.length is) :
    ∃ ps, s.splitByIndices is = .ok ps ∧
      (∀ p ∈ ps, p.ticks.isSome = s.ticks.isSome) ∧
      (∀ p ∈ ps, ∀ T, p.ticks = some T → ∀ t ∈ T, 0 ≤ t.1) ∧
      (∀ p ∈ ps.dropLast, ∀ T, p.ticks = some T → ∀ t ∈ T, t.1 < p.y.length) := by
  refine ⟨_, s.splitByIndices_eq hs is h, ?_, ?_, ?_⟩
  · intro p hp
    obtain ⟨r, hr, rfl⟩ := List.mem_map.1 hp
    cases ht : s.ticks <;> simp [Spec1D.piece, cutXTicks, ht]
  · intro p hp T hT t ht
    obtain ⟨r, hr, rfl⟩ := List.mem_map.1 hp
    cases hs : s.ticks with
    | none => simp [Spec1D.piece, cutXTicks, hs] at hT
    | some S =>
      simp only [Spec1D.piece, cutXTicks, hs, Option.some.injEq] at hT
      subst hT
      obtain ⟨q, hq, rfl⟩ := List.mem_map.1 ht
      have := (List.mem_filter.1 hq).2
      simp only [Bool.and_eq_true, decide_eq_true_eq] at this
      simp only; omega
  · intro p hp T hT t ht
    rw [← List.map_dropLast] at hp
    obtain ⟨r, hr, rfl⟩ := List.mem_map.1 hp
    have hr' := List.mem_of_mem_dropLast hr
    obtain ⟨h0, h1, h2⟩ := good_range_mem h.good hr'
    have hsome : ∃ e, r.2 = some e := by
      clear hT ht hp hr' h h0 h1 h2
      generalize (0 : Int) = a at hr
      induction is generalizing a with
      | nil => simp [rangesFrom] at hr
      | cons i is ih =>
        rw [rangesFrom, List.dropLast_cons_of_ne_nil (rangesFrom_ne_nil _ _)] at hr
        rcases List.mem_cons.1 hr with rfl | hr
        · exact ⟨i, rfl⟩
        · exact ih _ hr
    obtain ⟨e, he⟩ := hsome
    obtain ⟨h3, h4⟩ := h2 e he
    have e1 := pyIdx_of_range h0 h1
    have e2 := pyIdx_of_range (show 0 ≤ e by omega) h4
    cases hs : s.ticks with
    | none => simp [Spec1D.piece, cutXTicks, hs] at hT
    | some S =>
      simp only [Spec1D.piece, cutXTicks, hs, Option.some.injEq, he] at hT
      subst hT
      obtain ⟨q, hq, rfl⟩ := List.mem_map.1 ht
      have := (List.mem_filter.1 hq).2
      simp only [Bool.and_eq_true, decide_eq_true_eq] at this
      simp only [Spec1D.piece, length_pySlice, he]
      omega

/-- C02 is not vacuous: two labels on the same point next to a break. -/
example : let s : Spec1D ℚ Unit := ⟨[0,1,2,3], [5,6,7,8], some [(0,"G"),(2,"X"),(2,"K"),(3,"L")], ()⟩
    s.WF ∧ ValidBreaks s.y.length [2] ∧
    s.splitByIndices [2] = .ok [⟨[0,1],[5,6],some [(0,"G")],()⟩,
      ⟨[2,3],[7,8],some [(0,"X"),(0,"K"),(1,"L")],()⟩] := by
  refine ⟨Or.inl rfl, by simp [ValidBreaks], by decide⟩

/-! ## C03: automatic break points -/

/-- Specification of the median step of an axis with at least two points: `m` is the mean of the two
middle elements (which coincide for an odd number) of the sorted list of steps. -/
def IsMedianStep {α : Type} [Field α] [LinearOrder α] (x : List α) (m : α) : Prop :=
  ∃ (s : List α) (h : 0 < s.length), s.Pairwise (· ≤ ·) ∧
    s.Perm (List.ofFn fun i : Fin (x.length - 1) =>
      x[i.val + 1]'(by omega) - x[i.val]'(by omega)) ∧
    m = (s[(s.length - 1) / 2]'(by omega) + s[s.length / 2]'(by omega)) / 2

section tol
variable [Field α] [LinearOrder α] [IsStrictOrderedRing α]

omit [Field α] [LinearOrder α] [IsStrictOrderedRing α] in
theorem npDiff_eq_ofFn [Sub α] (x : List α) : npDiff x =
    List.ofFn fun i : Fin (x.length - 1) => x[i.val + 1]'(by omega) - x[i.val]'(by omega) := by
  apply List.ext_getElem
  · simp [length_npDiff]
  · intro i h1 h2
    rw [getElem_npDiff]
    simp

/-- `npMedian` meets its specification. -/
theorem npMedian_eq_of_isMedianStep (x : List α) (m : α) (h : IsMedianStep x m) :
    npMedian (npDiff x) = m := by
  obtain ⟨s, hpos, hs, hp, rfl⟩ := h
  rw [← npDiff_eq_ofFn] at hp
  have he : (npDiff x).mergeSort (fun a b => decide (a ≤ b)) = s := by
    apply List.Perm.eq_of_pairwise (le := (· ≤ ·)) _ _ hs ((List.mergeSort_perm _ _).trans hp.symm)
    · intro a b _ _ h1 h2; exact le_antisymm h1 h2
    · have := List.pairwise_mergeSort (le := fun a b : α => decide (a ≤ b))
        (by intro a b c; simp only [decide_eq_true_eq]; exact le_trans)
        (by intro a b; simp only [Bool.or_eq_true, decide_eq_true_eq]; exact le_total a b)
        (npDiff x)
      simpa using this
  unfold npMedian
  rw [he]
  dsimp only
  split
  · have e : (s.length - 1) / 2 = s.length / 2 := by omega
    simp only [e]
    rw [List.getD_eq_getElem _ _ (by omega)]
    have h2 : (2:α) ≠ 0 := two_ne_zero
    field_simp
    ring
  · have e : (s.length - 1) / 2 = s.length / 2 - 1 := by omega
    rw [List.getD_eq_getElem _ _ (by omega), List.getD_eq_getElem _ _ (by omega)]
    simp only [e]

/-- Every axis with at least two points has a median step. -/
theorem exists_isMedianStep (x : List α) (hx : 2 ≤ x.length) : ∃ m, IsMedianStep x m := by
  refine ⟨_, (npDiff x).mergeSort (fun a b => decide (a ≤ b)), ?_, ?_, ?_, rfl⟩
  · rw [List.length_mergeSort, length_npDiff]; omega
  · have := List.pairwise_mergeSort (le := fun a b : α => decide (a ≤ b))
        (by intro a b c; simp only [decide_eq_true_eq]; exact le_trans)
        (by intro a b; simp only [Bool.or_eq_true, decide_eq_true_eq]; exact le_total a b)
        (npDiff x)
    simpa using this
  · rw [← npDiff_eq_ofFn]; exact List.mergeSort_perm _ _

theorem median_nonneg_of_sorted (x : List α) (hx : x.Pairwise (· ≤ ·)) :
    0 ≤ npMedian (npDiff x) := by
  apply npMedian_nonneg
  intro a ha
  obtain ⟨i, hi, rfl⟩ := List.getElem_of_mem ha
  rw [getElem_npDiff]
  have hl := length_npDiff x
  have := List.pairwise_iff_getElem.1 hx i (i+1) (by omega) (by omega) (by omega)
  exact sub_nonneg.2 this

theorem breakpoints_valid (s : Spec1D α M) (hw : s.WF) (hx : s.x.Pairwise (· ≤ ·)) (t : α) :
    ValidBreaks s.y.length (breakpoints s.x t) := by
  have hm := median_nonneg_of_sorted s.x hx
  refine ⟨?_, ?_⟩
  · exact (whereTrue_pairwise _ _).1.imp le_of_lt
  · intro i hi
    rw [mem_breakpoints _ _ hm] at hi
    obtain ⟨k, hk, rfl, _⟩ := hi
    rcases hw with hw | hw <;> omega

/-- **C03**. For a non-decreasing axis, `split(btol=t)` is the split at a strictly increasing list of
positions which contains `i+1` if and only if the step from point `i` to point `i+1` exceeds `t`
times the median step `m`; called without arguments `t` is 10. -/
theorem C03_split_by_tol_breaks (s : Spec1D α M) (hw : s.WF) (hx : s.x.Pairwise (· ≤ ·)) (t m : α)
    (hmed : IsMedianStep s.x m) :
    ∃ B : List Int, B.Pairwise (· < ·) ∧ ValidBreaks s.y.length B ∧
      (∀ i : Nat, ((i + 1 : Nat) : Int) ∈ B ↔
        ∃ h : i + 1 < s.x.length, t * m < s.x[i+1] - s.x[i]) ∧
      0 ∉ B ∧
      s.split none (some t) = s.split (some B) none ∧
      (t = 10 → s.split none none = s.split (some B) none) := by
  have hm := median_nonneg_of_sorted s.x hx
  rw [← npMedian_eq_of_isMedianStep s.x m hmed]
  refine ⟨breakpoints s.x t, (whereTrue_pairwise _ _).1, breakpoints_valid s hw hx t, ?_, ?_,
    rfl, ?_⟩
  · intro i
    rw [mem_breakpoints _ _ hm]
    constructor
    · rintro ⟨k, hk, he, hr⟩
      have : k = i := by omega
      subst this
      exact ⟨hk, hr⟩
    · rintro ⟨hk, hr⟩
      exact ⟨i, hk, by omega, hr⟩
  · intro h0
    have := (whereTrue_pairwise _ _).2 0 h0
    omega
  · rintro rfl; rfl

/-- **C03**, consequence for the pieces: no piece contains a step larger than `t` times the median
step of the whole axis. -/
theorem C03_no_gap_inside_piece (s : Spec1D α M) (hw : s.WF) (hx : s.x.Pairwise (· ≤ ·)) (t m : α)
    (hmed : IsMedianStep s.x m) :
    ∃ ps, s.split none (some t) = .ok ps ∧ (ps.map (·.x)).flatten = s.x ∧
      ∀ p ∈ ps, ∀ k (hk : k + 1 < p.x.length),
        p.x[k+1] - p.x[k] ≤ t * m := by
  rw [← npMedian_eq_of_isMedianStep s.x m hmed]
  have hm := median_nonneg_of_sorted s.x hx
  have hv := breakpoints_valid s hw hx t
  have hok := s.splitByIndices_eq hw _ hv
  refine ⟨_, hok, ?_, ?_⟩
  · obtain ⟨ps, h1, _, _, h2, _⟩ := C01_split_spectrum1d s hw _ hv
    rw [hok] at h1
    cases h1
    exact h2
  · intro p hp k hk
    obtain ⟨r, hr, rfl⟩ := List.mem_map.1 hp
    obtain ⟨h0, h1, h2⟩ := good_range_mem hv.good hr
    simp only [Spec1D.piece] at hk ⊢
    obtain ⟨ha, ea⟩ := getElem_pySlice s.x r.1 r.2 k (by omega)
    obtain ⟨hb, eb⟩ := getElem_pySlice s.x r.1 r.2 (k+1) hk
    rw [ea, eb]
    by_contra hc
    push Not at hc
    have hle : r.1 ≤ (s.x.length : Int) := by rcases hw with hw | hw <;> omega
    have e1 := pyIdx_of_range h0 hle
    have hmem : (((pyIdx s.x.length r.1 + k : Nat) : Int) + 1) ∈ breakpoints s.x t := by
      rw [mem_breakpoints _ _ hm]
      exact ⟨pyIdx s.x.length r.1 + k, by omega, rfl, hc⟩
    have hpw : (0 :: breakpoints s.x t).Pairwise (· < ·) := by
      refine List.pairwise_cons.2 ⟨fun i hi => ?_, (whereTrue_pairwise _ _).1⟩
      have := (whereTrue_pairwise _ _).2 i hi
      omega
    obtain ⟨e, he, hle2⟩ := no_index_inside hpw hr _ hmem (by omega)
    rw [length_pySlice, he] at hk
    simp only at hk
    have h3 := h2 e he
    have e2 := pyIdx_of_range (show 0 ≤ e by omega) (show e ≤ (s.x.length : Int) by
      rcases hw with hw | hw <;> omega)
    omega

/-- **C03**, degenerate axes: with fewer than two points there is nothing to break. -/
theorem C03_short_axis (s : Spec1D α M) (hw : s.WF) (hx : s.x.length < 2) (t : α) :
    ∃ p, s.split none (some t) = .ok [p] ∧ p.x = s.x ∧ p.y = s.y ∧ p.md = s.md := by
  have hB : breakpoints s.x t = [] := by
    have : npDiff s.x = [] := by
      apply List.eq_nil_of_length_eq_zero; rw [length_npDiff]; omega
    simp [breakpoints, this, whereTrue]
  obtain ⟨ps, h1, h2, h3, h4, _, h5⟩ := C01_split_spectrum1d s hw [] ⟨List.Pairwise.nil, by simp⟩
  match ps, h2 with
  | [p], _ =>
    refine ⟨p, ?_, by simpa using h4, by simpa using h3, (h5 p (by simp)).2⟩
    show s.splitByIndices (breakpoints s.x t) = _
    rw [hB, h1]

/-- C03 is not vacuous: steps 1,1,20,1 (median 1), default tolerance. -/
example : let s : Spec1D ℚ Unit := ⟨[0,1,2,22,23], [5,6,7,8,9], none, ()⟩
    s.WF ∧ s.x.Pairwise (· ≤ ·) ∧ IsMedianStep s.x 1 := by
  refine ⟨Or.inl rfl, by norm_num, [1,1,1,20], by simp, by norm_num, ?_, by norm_num⟩
  rw [← npDiff_eq_ofFn]
  exact (by decide : ([1,1,1,20] : List ℚ).Perm [1,1,20,1]).trans
    (List.Perm.of_eq (by norm_num [npDiff]))

/-! ## C04: argument handling -/

/-- **C04**. Both arguments: `ValueError`, whatever their values. Otherwise exactly the given argument
decides; without arguments the result is that of `btol=10`. -/
theorem C04_split_arguments (s : Spec1D α M) :
    (∀ is t, s.split (some is) (some t) = .error .valueError) ∧
    (∀ is, s.split (some is) none = s.splitByIndices is) ∧
    (∀ t, s.split none (some t) = s.splitByTol t) ∧
    s.split none none = s.split none (some 10) :=
  ⟨fun _ _ => rfl, fun _ => rfl, fun _ => rfl, rfl⟩

/-- **C04**: a split by valid indices or by tolerance is never refused (so the `ValueError` above is
caused by the contradiction and nothing else). -/
theorem C04_split_single_argument_accepted (s : Spec1D α M) (hw : s.WF)
    (hx : s.x.Pairwise (· ≤ ·)) (is : List Int) (h : ValidBreaks s.y.length is) (t : α) :
    (∃ ps, s.split (some is) none = .ok ps) ∧ (∃ ps, s.split none (some t) = .ok ps) :=
  ⟨⟨_, s.splitByIndices_eq hw is h⟩, ⟨_, s.splitByIndices_eq hw _ (breakpoints_valid s hw hx t)⟩⟩

example : (⟨[0,1], [5,6], none, ()⟩ : Spec1D ℚ Unit).split (some [1]) (some 3)
    = .error .valueError ∧
    (⟨[0,1], [5,6], none, ()⟩ : Spec1D ℚ Unit).split (some [1]) none
      = .ok [⟨[0],[5],none,()⟩,⟨[1],[6],none,()⟩] := ⟨rfl, by decide⟩

end tol

end Euphonic
