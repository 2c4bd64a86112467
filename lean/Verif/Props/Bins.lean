import Verif.Prelude
import Verif.Lemmas.Split
import Verif.Model.Bins

/-! # Properties C06-C08, C81: bin edges, centres and widths -/

set_option linter.unusedSectionVars false

set_option autoImplicit false

namespace Euphonic

variable {α : Type} [Field α] [LinearOrder α] [IsStrictOrderedRing α]

/-! ## Lemmas -/

theorem length_binEdgesToCentres (e : List α) : (binEdgesToCentres e).length = e.length - 1 := by
  simp [binEdgesToCentres, length_npDiff]

theorem getElem_binEdgesToCentres (e : List α) (i : Nat) (h : i < (binEdgesToCentres e).length) :
    (binEdgesToCentres e)[i] = (e[i]'(by rw [length_binEdgesToCentres] at h; omega)
      + e[i+1]'(by rw [length_binEdgesToCentres] at h; omega)) / 2 := by
  have h2 : (2:α) ≠ 0 := two_ne_zero
  simp only [binEdgesToCentres, List.getElem_zipWith, List.getElem_dropLast, getElem_npDiff]
  field_simp
  ring

/-- Edges computed from centres, pointwise. -/
theorem binCentresToEdges_spec (c : List α) (hc : 0 < c.length) :
    ∃ e, binCentresToEdges c = .ok e ∧ e.length = c.length + 1 ∧
      e[0]? = c[0]? ∧ e[c.length]? = c[c.length - 1]? ∧
      ∀ i (h : i + 1 < c.length), e[i+1]? = some ((c[i] + c[i+1]) / 2) := by
  match c, hc with
  | a :: l, _ =>
    refine ⟨_, rfl, ?_, ?_, ?_, ?_⟩
    · simp
    · simp
    · rw [List.getElem?_append_right (by simp)]
      simp [List.getLast_eq_getElem]
    · intro i h
      rw [List.getElem?_append_left (by simp at h ⊢; omega)]
      rw [List.getElem?_append_right (by simp)]
      simp only [List.length_cons, List.length_nil, Nat.zero_add, Nat.add_sub_cancel]
      rw [List.getElem?_eq_getElem (by simp at h ⊢; omega)]
      simp only [List.getElem_zipWith, List.getElem_dropLast, List.getElem_cons_succ]
      rw [add_comm]

theorem sum_npDiff (l : List α) (a : α) : (npDiff (a :: l)).sum = (a :: l).getLast (by simp) - a := by
  induction l generalizing a with
  | nil => simp [npDiff]
  | cons b l ih =>
    simp only [npDiff, List.sum_cons, ih, List.getLast_cons_cons]
    ring

/-! ## C08: axis lengths -/

/-- **C08**. An axis is accepted by the bin helpers as edges iff it has one value more than there are
data, as centres iff it has as many, and refused with `ValueError` otherwise (the empty axis with no
data is the only accepted length for which no edges exist). -/
theorem C08_axis_length (n : Nat) (x : List α) :
    (isBinEdge n x.length = .ok true ↔ x.length = n + 1) ∧
    (isBinEdge n x.length = .ok false ↔ x.length = n) ∧
    (isBinEdge n x.length = .error .valueError ↔ x.length ≠ n ∧ x.length ≠ n + 1) ∧
    (x.length ≠ n ∧ x.length ≠ n + 1 → getBinEdges n x = .error .valueError ∧
      getBinCentres n x = .error .valueError ∧ getBinWidths n x = .error .valueError) ∧
    ((∃ e, getBinCentres n x = .ok e) ↔ x.length = n ∨ x.length = n + 1) ∧
    ((∃ e, getBinEdges n x = .ok e) ↔ (x.length = n ∧ 0 < n) ∨ x.length = n + 1) := by
  unfold isBinEdge
  refine ⟨by grind, by grind, by grind, ?_, ?_, ?_⟩
  · rintro ⟨h1, h2⟩
    simp [getBinWidths, getBinEdges, getBinCentres, isBinEdge, h1, h2, bind, Except.bind]
  · simp only [getBinCentres, isBinEdge]
    by_cases h1 : x.length = n + 1
    · simp [h1, bind, Except.bind, pure, Except.pure]
    · by_cases h2 : x.length = n
      · simp [h2, bind, Except.bind, pure, Except.pure]
      · simp [h1, h2, bind, Except.bind]
  · simp only [getBinEdges, isBinEdge]
    by_cases h1 : x.length = n + 1
    · simp [h1, bind, Except.bind, pure, Except.pure]
    · by_cases h2 : x.length = n
      · simp only [h2, bind, Except.bind]
        cases x with
        | nil => simp only [List.length_nil] at h2; subst h2; simp [binCentresToEdges]
        | cons a l => simp only [List.length_cons] at h2; subst h2; simp [binCentresToEdges]
      · simp [h1, h2, bind, Except.bind]

example : isBinEdge 3 ([1,2,3,4] : List ℚ).length = .ok true ∧
    isBinEdge 3 ([1,2,3] : List ℚ).length = .ok false ∧
    isBinEdge 3 ([1,2] : List ℚ).length = .error .valueError := by decide

/-! ## C06: edges and centres -/

theorem getBinEdges_edges (n : Nat) (x : List α) (h : x.length = n + 1) :
    getBinEdges n x = .ok x := by
  simp [getBinEdges, isBinEdge, h, bind, Except.bind, pure, Except.pure]

theorem getBinEdges_centres (n : Nat) (x : List α) (h : x.length = n) :
    getBinEdges n x = binCentresToEdges x := by
  simp [getBinEdges, isBinEdge, h, bind, Except.bind]

theorem getBinCentres_edges (n : Nat) (x : List α) (h : x.length = n + 1) :
    getBinCentres n x = .ok (binEdgesToCentres x) := by
  simp [getBinCentres, isBinEdge, h, bind, Except.bind, pure, Except.pure]

theorem getBinCentres_centres (n : Nat) (x : List α) (h : x.length = n) :
    getBinCentres n x = .ok x := by
  simp [getBinCentres, isBinEdge, h, bind, Except.bind, pure, Except.pure]

/-- **C06**, axis given as `n+1` increasing edges: edges are returned unchanged, there are `n`
centres, and centre `i` is the mid-point of, hence strictly between, edges `i` and `i+1`. -/
theorem C06_edges_given_partial (n : Nat) (x : List α) (h : x.length = n + 1) (hx : x.Pairwise (· < ·)) :
    getBinEdges n x = .ok x ∧
    ∃ c, getBinCentres n x = .ok c ∧ ∃ hc : c.length = n, c.Pairwise (· < ·) ∧
      ∀ i (hi : i < n), c[i] = (x[i] + x[i+1]) / 2 ∧ x[i] < c[i] ∧ c[i] < x[i+1] := by
  refine ⟨getBinEdges_edges n x h, _, getBinCentres_edges n x h, ?_, ?_, ?_⟩
  · rw [length_binEdgesToCentres]; omega
  · rw [List.pairwise_iff_getElem]
    intro i j hi hj hij
    rw [getElem_binEdgesToCentres, getElem_binEdgesToCentres]
    rw [length_binEdgesToCentres] at hi hj
    have h1 := List.pairwise_iff_getElem.1 hx i j (by omega) (by omega) hij
    have h2 := List.pairwise_iff_getElem.1 hx (i+1) (j+1) (by omega) (by omega) (by omega)
    linarith
  · intro i hi
    rw [getElem_binEdgesToCentres]
    have := List.pairwise_iff_getElem.1 hx i (i+1) (by omega) (by omega) (by omega)
    refine ⟨rfl, ?_, ?_⟩ <;> linarith

/-- **C06**, axis given as `n ≥ 1` increasing centres: centres are returned unchanged, there are `n+1`
edges, the outer edges are the outer centres, inner edges are mid-points, edges are non-decreasing,
strictly increasing for `n ≥ 2`, and centre `i` lies between edges `i` and `i+1`. -/
theorem C06_centres_given_partial (n : Nat) (x : List α) (hn : 0 < n) (h : x.length = n)
    (hx : x.Pairwise (· < ·)) :
    getBinCentres n x = .ok x ∧
    ∃ e, getBinEdges n x = .ok e ∧ ∃ he : e.length = n + 1,
      e[0] = x[0] ∧ e[n] = x[n-1] ∧
      (∀ i (hi : i + 1 < n), e[i+1] = (x[i] + x[i+1]) / 2) ∧
      (∀ i (hi : i < n), e[i] ≤ x[i] ∧ x[i] ≤ e[i+1] ∧ (2 ≤ n → e[i] < e[i+1])) := by
  obtain ⟨e, he, hl, h0, h1, h2⟩ := binCentresToEdges_spec x (by omega)
  have hl' : e.length = n + 1 := by omega
  have E0 : e[0] = x[0] := by
    have := h0
    rw [List.getElem?_eq_getElem (by omega), List.getElem?_eq_getElem (by omega)] at this
    exact Option.some.inj this
  have E1 : e[n] = x[n-1] := by
    have := h1
    rw [List.getElem?_eq_getElem (by omega), List.getElem?_eq_getElem (by omega)] at this
    simp only [h] at this
    exact Option.some.inj this
  have E2 : ∀ i (hi : i + 1 < n), e[i+1] = (x[i] + x[i+1]) / 2 := by
    intro i hi
    have := h2 i (by omega)
    rw [List.getElem?_eq_getElem (by omega)] at this
    exact Option.some.inj this
  refine ⟨getBinCentres_centres n x h, e, by rw [getBinEdges_centres n x h, he], hl', E0, E1, E2, ?_⟩
  intro i hi
  have L : e[i] ≤ x[i] ∧ (0 < i → e[i] < x[i]) := by
    cases i with
    | zero => exact ⟨E0.le, by simp⟩
    | succ i =>
      have := List.pairwise_iff_getElem.1 hx i (i+1) (by omega) (by omega) (by omega)
      have e := E2 i hi
      constructor
      · rw [e]; linarith
      · intro _; rw [e]; linarith
  have R : x[i] ≤ e[i+1] ∧ (i + 1 < n → x[i] < e[i+1]) := by
    by_cases hc : i + 1 < n
    · have := List.pairwise_iff_getElem.1 hx i (i+1) (by omega) (by omega) (by omega)
      rw [E2 i hc]
      constructor
      · linarith
      · intro _; linarith
    · have e : i + 1 = n := by omega
      have e2 : n - 1 = i := by omega
      simp only [e, E1, e2]
      exact ⟨le_rfl, fun h => absurd h (lt_irrefl _)⟩
  refine ⟨L.1, R.1, fun h2 => ?_⟩
  by_cases hi0 : 0 < i
  · exact lt_of_lt_of_le (L.2 hi0) R.1
  · exact lt_of_le_of_lt L.1 (R.2 (by omega))

example : ([0, 1, 3] : List ℚ).Pairwise (· < ·) ∧
    getBinEdges 3 ([0, 1, 3] : List ℚ) = .ok [0, 1/2, 2, 3] ∧
    getBinCentres 2 ([0, 1, 3] : List ℚ) = .ok [1/2, 2] := by
  refine ⟨by norm_num, ?_, ?_⟩
  · rw [getBinEdges_centres 3 [0, 1, 3] rfl]; norm_num [binCentresToEdges]
  · rw [getBinCentres_edges 2 [0, 1, 3] rfl]; norm_num [binEdgesToCentres, npDiff]

/-! ## C07: widths -/

/-- **C07**. For an increasing axis in edge form, or in centre form with at least two points, there is
one width per datum, every width is positive, width `i` is the distance of edges `i` and `i+1`, and
the widths add up to the distance of the outer edges. -/
theorem C07_widths_partial (n : Nat) (x : List α) (h : x.length = n + 1 ∨ (x.length = n ∧ 2 ≤ n))
    (hx : x.Pairwise (· < ·)) :
    ∃ w e, getBinWidths n x = .ok w ∧ getBinEdges n x = .ok e ∧
      ∃ (hw : w.length = n) (he : e.length = n + 1),
        (∀ i (hi : i < n), w[i] = e[i+1] - e[i] ∧ 0 < w[i]) ∧ w.sum = e[n] - e[0] := by
  have key : ∀ e : List α, getBinEdges n x = .ok e → ∀ he : e.length = n + 1,
      (∀ i (hi : i < n), e[i] < e[i+1]) →
      ∃ w e, getBinWidths n x = .ok w ∧ getBinEdges n x = .ok e ∧
      ∃ (hw : w.length = n) (he : e.length = n + 1),
        (∀ i (hi : i < n), w[i] = e[i+1] - e[i] ∧ 0 < w[i]) ∧ w.sum = e[n] - e[0] := by
    intro e hE he hlt
    refine ⟨npDiff e, e, by simp [getBinWidths, hE, bind, Except.bind, pure, Except.pure], hE,
      by rw [length_npDiff]; omega, he, ?_, ?_⟩
    · intro i hi
      rw [getElem_npDiff]
      exact ⟨rfl, sub_pos.2 (hlt i hi)⟩
    · match e, he with
      | a :: l, he =>
        rw [sum_npDiff, List.getLast_eq_getElem]
        simp only [List.length_cons] at he
        simp only [List.length_cons, List.getElem_cons_zero]
        have : l.length = n := by omega
        subst this
        simp
  rcases h with h | ⟨h, h2⟩
  · exact key x (getBinEdges_edges n x h) h (fun i hi =>
      List.pairwise_iff_getElem.1 hx i (i+1) (by omega) (by omega) (by omega))
  · obtain ⟨_, e, hE, he, _, _, _, hi⟩ := C06_centres_given_partial n x (by omega) h hx
    exact key e hE he (fun i hi' => (hi i hi').2.2 h2)

/-- The restriction to two points in C07 is needed: the single bin of a one-point axis given as a
centre has width zero. -/
theorem C07_single_centre_zero_width (a : α) : getBinWidths 1 [a] = .ok [0] := by
  simp [getBinWidths, getBinEdges, isBinEdge, binCentresToEdges, npDiff, bind, Except.bind, pure,
    Except.pure]

example : ([0, 1, 3] : List ℚ).Pairwise (· < ·) ∧
    getBinWidths 3 ([0, 1, 3] : List ℚ) = .ok [1/2, 3/2, 1] := by
  refine ⟨by norm_num, ?_⟩
  simp only [getBinWidths, getBinEdges_centres _ _ (show ([0,1,3] : List ℚ).length = 3 from rfl)]
  norm_num [binCentresToEdges, npDiff, bind, Except.bind, pure, Except.pure]

/-! ## C81: the regular-bin assertion -/

/-- **C81**. For an axis in edge form with at least one bin, `assert_regular_bins(rtol, atol)` passes
iff every bin width differs from the first one by at most `atol + rtol*|first width|`, and raises
`AssertionError` otherwise. -/
theorem C81_regular_bins (n : Nat) (x : List α) (hn : 0 < n) (h : x.length = n + 1) (rtol atol : α) :
    (assertRegularBins n x rtol atol = .ok () ↔
      ∀ i (hi : i < n), |(x[i+1] - x[i]) - (x[1] - x[0])| ≤ atol + rtol * |x[1] - x[0]|) ∧
    (assertRegularBins n x rtol atol = .ok () ∨
      assertRegularBins n x rtol atol = .error .assertionError) := by
  have hl := length_npDiff x
  have hw : getBinWidths n x = .ok (npDiff x) := by
    simp [getBinWidths, getBinEdges_edges n x h, bind, Except.bind, pure, Except.pure]
  have h0 : (npDiff x)[0]'(by omega) = x[1] - x[0] := getElem_npDiff x 0 (by omega)
  unfold assertRegularBins
  simp only [hw, bind, Except.bind]
  cases hd : npDiff x with
  | nil => rw [hd] at hl; simp at hl; omega
  | cons w0 ws =>
    have hw0 : w0 = x[1] - x[0] := by rw [← h0]; simp [hd]
    simp only
    split
    · rename_i ht
      refine ⟨⟨fun _ => ?_, fun _ => rfl⟩, Or.inl rfl⟩
      intro i hi
      rw [← hd, List.all_eq_true] at ht
      have := ht ((npDiff x)[i]'(by omega)) (List.getElem_mem _)
      rw [getElem_npDiff, hw0] at this
      simpa [npIsClose] using this
    · rename_i ht
      refine ⟨⟨fun hc => by simp at hc, fun hc => absurd ?_ ht⟩, Or.inr rfl⟩
      rw [← hd, List.all_eq_true]
      intro v hv
      obtain ⟨i, hi, rfl⟩ := List.getElem_of_mem hv
      rw [getElem_npDiff, hw0]
      have := hc i (by omega)
      simpa [npIsClose] using this

/-- **C81**, finding: evenly spaced *centres* are always refused as soon as there are three of them
(for `rtol < 1`, `atol = 0`), because edges derived from centres make the first and last bin half
as wide as the others (euphonic/spectra.py:310-315). -/
theorem C81_regular_centres_refused (n : Nat) (x : List α) (hn : 3 ≤ n) (h : x.length = n) (d : α)
    (hd : 0 < d) (hreg : ∀ i (hi : i + 1 < n), x[i+1] - x[i] = d) (rtol : α) (hr : rtol < 1) :
    assertRegularBins n x rtol 0 = .error .assertionError := by
  have hx : x.Pairwise (· < ·) := by
    rw [← List.isChain_iff_pairwise, List.isChain_iff_getElem]
    intro i hi
    have := hreg i (by omega)
    linarith
  obtain ⟨w, e, hw, he, hlw, hle, hall, _⟩ := C07_widths_partial n x (Or.inr ⟨h, by omega⟩) hx
  obtain ⟨_, e', he', hle', h0, _, hmid, _⟩ := C06_centres_given_partial n x (by omega) h hx
  rw [he] at he'
  cases he'
  have w0 : w[0] = d / 2 := by
    rw [(hall 0 (by omega)).1, hmid 0 (by omega), h0]
    have := hreg 0 (by omega)
    simp only [Nat.zero_add] at this ⊢
    linarith
  have w1 : w[1] = d := by
    rw [(hall 1 (by omega)).1, hmid 1 (by omega), hmid 0 (by omega)]
    have a := hreg 0 (by omega)
    have b := hreg 1 (by omega)
    simp only [Nat.zero_add] at a b ⊢
    linarith
  unfold assertRegularBins
  simp only [hw, bind, Except.bind]
  match w, hlw, w0, w1 with
  | v0 :: v1 :: ws, _, w0, w1 =>
    simp only [List.getElem_cons_zero, List.getElem_cons_succ] at w0 w1
    have : ¬ (v0 :: v1 :: ws).all (fun v => npIsClose rtol 0 v v0) = true := by
      intro hc
      rw [List.all_eq_true] at hc
      have := hc v1 (by simp)
      simp only [npIsClose, decide_eq_true_eq, w0, w1, zero_add] at this
      rw [abs_of_pos (by linarith), abs_of_pos (by linarith)] at this
      nlinarith
    simp only [this]
    rfl
  | [], hlw, _, _ => simp at hlw; omega
  | [v0], hlw, _, _ => simp at hlw; omega

example : assertRegularBins 3 ([0, 1, 2, 3] : List ℚ) (1/100000) 0 = .ok () ∧
    assertRegularBins 3 ([0, 1, 2] : List ℚ) (1/100000) 0 = .error .assertionError := by
  constructor
  · rw [(C81_regular_bins 3 _ (by norm_num) rfl _ _).1]
    intro i hi
    match i, hi with
    | 0, _ => norm_num
    | 1, _ => norm_num
    | 2, _ => norm_num
  · refine C81_regular_centres_refused 3 _ le_rfl rfl 1 one_pos ?_ _ (by norm_num)
    intro i hi
    match i, hi with
    | 0, _ => norm_num
    | 1, _ => norm_num

/-- Finding (C06): `Spectrum2DCollection` inherits the one-dimensional `get_bin_edges`, which compares
the lengths of the two *axes*: with `x` and `y` axes of the same length, a perfectly good x axis given
as edges is treated as centres and different values are returned. -/
theorem C06_collection2d_bin_edges_wrong :
    ∃ (nx yAxisLen : Nat) (x : List ℚ), x.length = nx + 1 ∧ x.Pairwise (· < ·) ∧
      getBinEdges nx x = .ok x ∧ coll2dGetBinEdges yAxisLen x ≠ .ok x := by
  refine ⟨2, 3, [0, 1, 2], rfl, by norm_num, getBinEdges_edges _ _ rfl, ?_⟩
  rw [coll2dGetBinEdges, getBinEdges_centres 3 [0, 1, 2] rfl]
  simp [binCentresToEdges]

end Euphonic
