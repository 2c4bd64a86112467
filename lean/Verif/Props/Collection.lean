import Verif.Prelude
import Verif.Lemmas.Collection
import Mathlib.Data.List.Forall2

/-! # Properties C09, C10, C11, C14: collections as sequences of spectra -/

set_option autoImplicit false
set_option linter.unusedSectionVars false

namespace Euphonic

variable {V α : Type} [DecidableEq V]

/-! ## Specification -/

/-- Two spectra are equal: same axis, data, units, labels, and equal metadata dictionaries. -/
structure SameSpec (a b : MSpec V α) : Prop where
  x : a.x = b.x
  xUnit : a.xUnit = b.xUnit
  y : a.y = b.y
  yUnit : a.yUnit = b.yUnit
  ticks : a.ticks = b.ticks
  md : DEq a.md b.md

/-- The metadata value under key `k` that applies to line `i`: its own entry if there is one, the
entry common to all lines otherwise. -/
def MColl.lineValue (c : MColl V α) (i : Nat) (k : String) : Option V :=
  ((c.lineOf i).get k).or (c.md.common.get k)

/-- Two collections are equal as sequences of spectra. -/
structure SameColl (a b : MColl V α) : Prop where
  x : a.x = b.x
  xUnit : a.xUnit = b.xUnit
  rows : a.rows = b.rows
  yUnit : a.yUnit = b.yUnit
  ticks : a.ticks = b.ticks
  md : ∀ i, i < a.rows.length → ∀ k, a.lineValue i k = b.lineValue i k

/-! ## C09 -/

/-- **C09**. For a well-formed collection with `len` lines: a non-negative index below `len` gives the
spectrum with that row, the shared axis, units and labels and the metadata applying to that line; an
index in `-len..-1` counts from the end; every other integer raises `IndexError`. -/
theorem C09_integer_index (c : MColl V α) (n : Nat) (h : c.WF n) (i : Int) :
    (∀ hi : 0 ≤ i ∧ i < c.len, ∃ s, c.getInt i = .ok s ∧ s.x = c.x ∧ s.xUnit = c.xUnit ∧
        s.y = c.rows[i.toNat]'(by unfold MColl.len at hi; omega) ∧ s.yUnit = c.yUnit ∧
        s.ticks = c.ticks ∧ ∀ k, s.md.get k = c.lineValue i.toNat k) ∧
    (-(c.len : Int) ≤ i → i < 0 → c.getInt i = c.getInt (i + c.len)) ∧
    (i < -(c.len : Int) ∨ (c.len : Int) ≤ i → c.getInt i = .error .indexError) := by
  have hlen := MColl.length_iterMetadata h
  unfold MColl.len
  refine ⟨?_, ?_, ?_⟩
  · rintro ⟨h0, h1⟩
    have hi : i.toNat < c.rows.length := by omega
    have e : i = (i.toNat : Int) := by omega
    have := MColl.getInt_ok h i.toNat hi
    rw [← e] at this
    refine ⟨_, this, rfl, rfl, rfl, rfl, rfl, ?_⟩
    intro k
    rw [Dict.get_union]
    rfl
  · intro h0 h1
    unfold MColl.getInt
    rw [pyGet_neg c.rows i h1 (by omega), pyGet_neg c.iterMetadata i h1 (by omega), hlen]
  · intro hi
    unfold MColl.getInt
    rw [pyGet_out c.rows i (by omega)]
    rfl

/-- **C09**, iteration: `list(c)` succeeds, has `len(c)` elements and its `i`-th element is `c[i]`. -/
theorem C09_iteration (c : MColl V α) (n : Nat) (h : c.WF n) :
    ∃ l, c.toList = .ok l ∧ ∃ hl : l.length = c.len, ∀ i (hi : i < c.len),
      c.getInt (i : Int) = .ok (l[i]'(by omega)) := by
  refine ⟨_, MColl.toList_ok h, by simp [MColl.len], ?_⟩
  intro i hi
  rw [MColl.getInt_ok h i hi]
  simp only [List.getElem_map, List.getElem_range]
  rw [List.getD_eq_getElem _ _ hi]

/-- **C09**, list index: for a non-empty list of indices in `0..len-1` the result has exactly the
requested rows, in the requested order, with their metadata. -/
theorem C09_list_index (c : MColl V α) (n : Nat) (h : c.WF n) (is : List Nat) (hne : is ≠ [])
    (hr : ∀ i ∈ is, i < c.len) :
    ∃ r, c.getList (is.map Int.ofNat) = .ok r ∧ r.WF n ∧ r.x = c.x ∧ r.xUnit = c.xUnit ∧
      r.yUnit = c.yUnit ∧ r.ticks = c.ticks ∧ r.rows = is.map (fun i => c.rows.getD i []) ∧
      (∀ j (hj : j < is.length) k, r.lineValue j k = c.lineValue is[j] k) ∧
      (∀ k v, r.md.common.get k = some v ↔ ∀ i ∈ is, c.lineValue i k = some v) ∧
      (∀ ls, r.md.lines = some ls → ∀ d ∈ ls, ∀ k, r.md.common.get k ≠ none →
        Dict.get d k = none) := by
  have hlen := MColl.length_iterMetadata h
  have h1 : (is.map Int.ofNat).mapM (pyGet c.rows) = .ok (is.map fun i => c.rows.getD i []) := by
    have := mapM_ok_of_forall (pyGet c.rows) (fun i : Int => c.rows.getD i.toNat [])
      (is.map Int.ofNat) ?_
    · rw [this, List.map_map]; rfl
    · intro b hb
      obtain ⟨i, hi, rfl⟩ := List.mem_map.1 hb
      have := hr i hi
      simp only [Int.ofNat_eq_natCast]
      rw [pyGet_nonneg _ _ this, Int.toNat_natCast, List.getD_eq_getElem _ _ this]
  have h2 : (is.map Int.ofNat).mapM (pyGet c.iterMetadata) =
      .ok (is.map fun i => Dict.union c.md.common (c.lineOf i)) := by
    have := mapM_ok_of_forall (pyGet c.iterMetadata)
      (fun i : Int => Dict.union c.md.common (c.lineOf i.toNat)) (is.map Int.ofNat) ?_
    · rw [this, List.map_map]; rfl
    · intro b hb
      obtain ⟨i, hi, rfl⟩ := List.mem_map.1 hb
      have := hr i hi
      simp only [Int.ofNat_eq_natCast]
      rw [pyGet_nonneg _ i (by rw [hlen]; exact this), Int.toNat_natCast,
        MColl.getElem_iterMetadata]
  have hprops : ∀ d ∈ is.map fun i => Dict.union c.md.common (c.lineOf i),
      DWF d ∧ d.get "line_data" = none := by
    intro d hd
    obtain ⟨i, hi, rfl⟩ := List.mem_map.1 hd
    have := hr i hi
    exact MColl.iterMetadata_props h _ (by
      rw [← MColl.getElem_iterMetadata c i (by rw [hlen]; exact this)]
      exact List.getElem_mem _)
  obtain ⟨m, hm, hnew, hwf, hline, hcom, hdisj⟩ := new_combined c.x c.xUnit
    (is.map fun i => c.rows.getD i []) c.yUnit c.ticks n
    (by simpa using hne)
    (by
      intro r hr'
      obtain ⟨i, hi, rfl⟩ := List.mem_map.1 hr'
      have := hr i hi
      rw [List.getD_eq_getElem _ _ this]
      exact h.rect _ (List.getElem_mem _))
    h.axis (is.map fun i => Dict.union c.md.common (c.lineOf i)) (by simp)
    (fun d hd => (hprops d hd).1) (fun d hd => (hprops d hd).2)
  refine ⟨_, ?_, hwf, rfl, rfl, rfl, rfl, rfl, ?_, ?_, hdisj⟩
  · unfold MColl.getList
    rw [h1, h2]
    simp only [bind, Except.bind, hm, hnew]
  · intro j hj k
    have := hline j (by simpa using hj) k
    rw [Dict.get_union] at this
    rw [MColl.lineValue, this, List.getElem_map, Dict.get_union]
    rfl
  · intro k v
    rw [hcom]
    constructor
    · intro hh i hi
      have := hh _ (List.mem_map.2 ⟨i, hi, rfl⟩)
      rwa [Dict.get_union] at this
    · intro hh d hd
      obtain ⟨i, hi, rfl⟩ := List.mem_map.1 hd
      rw [Dict.get_union]
      exact hh i hi

/-- **C09**, finding: unlike every Python sequence, a slice whose stop equals (or exceeds) the length
is refused with `IndexError` (euphonic/spectra.py:842-845 tests `stop >= len`), so `c[0:len(c)]` and
`c[:len(c)]` fail for every collection. -/
theorem C09_full_slice_refused (c : MColl V α) (start : Int) (stop : Nat) (h : c.len ≤ stop) :
    c.getSlice start (some stop) = .error .indexError := by
  have : (stop : Int) ≥ c.len := by omega
  simp [MColl.getSlice, this, bind, Except.bind, throw, throwThe, MonadExceptOf.throw]

/-- **C09**, slices below the end or without stop: `c[a:b]` has the rows `a..b-1`. -/
theorem C09_slice (c : MColl V α) (n : Nat) (h : c.WF n) (a b : Nat) (hab : a < b) (hb : b < c.len) :
    ∃ r, c.getSlice a (some b) = .ok r ∧ r.WF n ∧ r.rows = (c.rows.take b).drop a ∧
      r.x = c.x ∧ r.ticks = c.ticks ∧
      ∀ j, j < b - a → ∀ k, r.lineValue j k = c.lineValue (a + j) k := by
  unfold MColl.len at hb
  have hlen := MColl.length_iterMetadata h
  have hs : ∀ {β : Type} (l : List β), l.length = c.rows.length →
      pySlice l (a : Int) (some (b : Int)) = (l.take b).drop a := by
    intro β l hl
    have e1 := pyIdx_of_range (n := l.length) (i := (a : Int)) (by omega) (by omega)
    have e2 := pyIdx_of_range (n := l.length) (i := (b : Int)) (by omega) (by omega)
    simp only [pySlice]
    congr 1
    · omega
    · congr 1; omega
  have hmds : ∀ d ∈ (c.iterMetadata.take b).drop a, DWF d ∧ d.get "line_data" = none :=
    fun d hd => MColl.iterMetadata_props h d (List.mem_of_mem_take (List.mem_of_mem_drop hd))
  obtain ⟨m, hm, hnew, hwf, hline, _, _⟩ := new_combined c.x c.xUnit
    ((c.rows.take b).drop a) c.yUnit c.ticks n
    (by
      intro h0
      have := congrArg List.length h0
      simp at this; omega)
    (fun r hr => h.rect r (List.mem_of_mem_take (List.mem_of_mem_drop hr)))
    h.axis ((c.iterMetadata.take b).drop a) (by simp [hlen])
    (fun d hd => (hmds d hd).1) (fun d hd => (hmds d hd).2)
  refine ⟨_, ?_, hwf, rfl, rfl, rfl, ?_⟩
  · have : ¬ ((b : Int) ≥ (c.len : Int)) := by unfold MColl.len; omega
    unfold MColl.getSlice
    simp only [this, if_false, hs c.rows rfl, hs c.iterMetadata hlen, hm, hnew, bind, Except.bind,
      pure, Except.pure]
  · intro j hj k
    have := hline j (by simp; omega) k
    rw [Dict.get_union] at this
    rw [MColl.lineValue, this, List.getElem_drop, List.getElem_take, MColl.getElem_iterMetadata,
      Dict.get_union]
    rfl

/-- A collection used as non-vacuity witness: three lines, one common entry. -/
def exColl : MColl String ℚ :=
  ⟨[0, 1, 2], "meV", [[1, 2], [3, 4], [5, 6]], "1/meV", some [(0, "G")],
    ⟨[("weighting", "dos")], some [[("species", "Na")], [("species", "Cl")], [("species", "Na")]]⟩⟩

theorem exColl_wf : exColl.WF 2 := by
  refine ⟨by simp [exColl], by simp [exColl], by simp [exColl], by simp [exColl], by simp [exColl, DWF],
    ?_, by decide, ?_⟩
  · intro ls hls d hd
    simp only [exColl, Option.some.injEq] at hls
    subst hls
    simp only [List.mem_cons, List.not_mem_nil, or_false] at hd
    rcases hd with rfl | rfl | rfl <;> simp [DWF]
  · intro ls hls d hd
    simp only [exColl, Option.some.injEq] at hls
    subst hls
    simp only [List.mem_cons, List.not_mem_nil, or_false] at hd
    rcases hd with rfl | rfl | rfl <;> decide

example : exColl.WF 2 ∧ exColl.len = 3 ∧ exColl.lineValue 1 "species" = some "Cl" ∧
    exColl.lineValue 1 "weighting" = some "dos" := ⟨exColl_wf, rfl, rfl, rfl⟩

/-! ## C10 -/

section field
variable [Field α] [LinearOrder α] [IsStrictOrderedRing α]

theorem npAllClose_refl (x : List α) : npAllClose x x = .ok true := by
  simp only [npAllClose, if_true, Except.ok.injEq, List.all_eq_true]
  intro b hb
  rw [List.zipWith_self] at hb
  obtain ⟨a, _, rfl⟩ := List.mem_map.1 hb
  simp only [id, sub_self, abs_zero, decide_eq_true_eq]
  positivity

/-- Spectra which can be put in one collection: same units and labels, same number of data, and the
axes agree within numpy's `allclose` tolerance. -/
structure Compatible (s0 s : MSpec V α) : Prop where
  yUnit : s.yUnit = s0.yUnit
  xUnit : s.xUnit = s0.xUnit
  ticks : s.ticks = s0.ticks
  ny : s.y.length = s0.y.length
  close : npAllClose s.x s0.x = .ok true

/-- A valid spectrum: shape as enforced by the constructor, dictionary without duplicate keys and
without the reserved key. -/
structure MSpec.WF (s : MSpec V α) : Prop where
  axis : s.x.length = s.y.length ∨ s.x.length = s.y.length + 1
  dwf : DWF s.md
  nold : s.md.get "line_data" = none

theorem fromSpectra_ok (s0 : MSpec V α) (ss : List (MSpec V α)) (hw : ∀ s ∈ s0 :: ss, s.WF)
    (hc : ∀ s ∈ ss, Compatible s0 s) :
    ∃ c, fromSpectra (s0 :: ss) = .ok c ∧ c.WF s0.y.length ∧ c.x = s0.x ∧ c.xUnit = s0.xUnit ∧
      c.yUnit = s0.yUnit ∧ c.ticks = s0.ticks ∧ c.rows = (s0 :: ss).map (·.y) ∧
      (∀ i (hi : i < (s0 :: ss).length) k, c.lineValue i k = Dict.get (s0 :: ss)[i].md k) ∧
      (∀ k v, c.md.common.get k = some v ↔ ∀ s ∈ s0 :: ss, Dict.get s.md k = some v) := by
  have hrows : ss.mapM (fromSpectraRow s0) = .ok (ss.map (·.y)) := by
    apply mapM_ok_of_forall
    intro s hs
    obtain ⟨h1, h2, h3, h4, h5⟩ := hc s hs
    simp [fromSpectraRow, h1, h2, h3, h5, assignRow, h4, bind, Except.bind, pure, Except.pure]
  obtain ⟨m, hm, hnew, hwf, hline, hcom, _⟩ := new_combined s0.x s0.xUnit
    ((s0 :: ss).map (·.y)) s0.yUnit s0.ticks s0.y.length (by simp)
    (by
      intro r hr
      obtain ⟨s, hs, rfl⟩ := List.mem_map.1 hr
      rcases List.mem_cons.1 hs with rfl | hs
      · rfl
      · exact (hc s hs).ny)
    (hw s0 (by simp)).axis ((s0 :: ss).map (·.md)) (by simp)
    (by
      intro d hd
      obtain ⟨s, hs, rfl⟩ := List.mem_map.1 hd
      exact (hw s hs).dwf)
    (by
      intro d hd
      obtain ⟨s, hs, rfl⟩ := List.mem_map.1 hd
      exact (hw s hs).nold)
  refine ⟨_, ?_, hwf, rfl, rfl, rfl, rfl, rfl, ?_, ?_⟩
  · unfold fromSpectra
    simp only [hrows, bind, Except.bind, hm]
    simpa using hnew
  · intro i hi k
    have := hline i (by simpa using hi) k
    rw [Dict.get_union] at this
    rw [MColl.lineValue, this, List.getElem_map]
  · intro k v
    rw [hcom]
    constructor
    · intro hh s hs; exact hh _ (List.mem_map.2 ⟨s, hs, rfl⟩)
    · intro hh d hd
      obtain ⟨s, hs, rfl⟩ := List.mem_map.1 hd
      exact hh s hs

/-- **C10**. Building a collection from any non-empty list of compatible spectra and listing it gives
back the same spectra, with the axis of the first one (which is each one's own axis if they are
equal). -/
theorem C10_from_spectra_list (s0 : MSpec V α) (ss : List (MSpec V α))
    (hw : ∀ s ∈ s0 :: ss, s.WF) (hc : ∀ s ∈ ss, Compatible s0 s) :
    ∃ c l, fromSpectra (s0 :: ss) = .ok c ∧ c.toList = .ok l ∧
      List.Forall₂ (fun s t => SameSpec t { s with x := s0.x }) (s0 :: ss) l := by
  obtain ⟨c, hc', hwf, hx, hxu, hyu, ht, hr, hline, _⟩ := fromSpectra_ok s0 ss hw hc
  refine ⟨c, _, hc', MColl.toList_ok hwf, ?_⟩
  rw [List.forall₂_iff_get]
  refine ⟨by simp [hr], ?_⟩
  intro i h1 h2
  simp only [List.get_eq_getElem, List.getElem_map, List.getElem_range]
  have hmem : (s0 :: ss)[i] ∈ s0 :: ss := List.getElem_mem _
  have hcomp : (s0 :: ss)[i].xUnit = s0.xUnit ∧ (s0 :: ss)[i].yUnit = s0.yUnit ∧
      (s0 :: ss)[i].ticks = s0.ticks := by
    rcases List.mem_cons.1 hmem with h | h
    · rw [h]; exact ⟨rfl, rfl, rfl⟩
    · obtain ⟨a, b, c, _, _⟩ := hc _ h
      exact ⟨b, a, c⟩
  refine ⟨hx, by rw [hcomp.1]; exact hxu, ?_, by rw [hcomp.2.1]; exact hyu,
    by rw [hcomp.2.2]; exact ht, ?_⟩
  · simp only [hr]
    rw [List.getD_eq_getElem _ _ (by simpa using h1), List.getElem_map]
  · intro k
    rw [Dict.get_union]
    exact hline i h1 k

theorem coll_items (c : MColl V α) (n : Nat) (h : c.WF n) (i : Nat) (hi : i < c.rows.length) :
    MSpec.WF (⟨c.x, c.xUnit, c.rows.getD i [], c.yUnit, c.ticks,
        Dict.union c.md.common (c.lineOf i)⟩ : MSpec V α) := by
  have hlen := MColl.length_iterMetadata h
  have hp := MColl.iterMetadata_props h (c.iterMetadata[i]'(by omega)) (List.getElem_mem _)
  rw [MColl.getElem_iterMetadata] at hp
  refine ⟨?_, hp.1, hp.2⟩
  simp only
  rw [List.getD_eq_getElem _ _ hi, h.rect _ (List.getElem_mem _)]
  exact h.axis

/-- **C10**, other direction: listing a collection and building a collection from the list gives the
same collection (same axis, data, units and labels, same metadata for every line). -/
theorem C10_list_from_spectra (c : MColl V α) (n : Nat) (h : c.WF n) :
    ∃ l c', c.toList = .ok l ∧ fromSpectra l = .ok c' ∧ SameColl c' c ∧ c'.WF n := by
  obtain ⟨r, rs, hr⟩ := List.exists_cons_of_ne_nil h.ne
  set f : Nat → MSpec V α := fun j => ⟨c.x, c.xUnit, c.rows.getD j [], c.yUnit, c.ticks,
        Dict.union c.md.common (c.lineOf j)⟩ with hf
  have hcons : (List.range c.rows.length).map f = f 0 :: (List.range' 1 rs.length).map f := by
    rw [hr, List.length_cons, List.range_eq_range', List.range'_succ, List.map_cons]
  have hmem : ∀ s ∈ f 0 :: (List.range' 1 rs.length).map f,
      ∃ j, j < c.rows.length ∧ s = f j := by
    rw [← hcons]
    intro s hs
    obtain ⟨j, hj, rfl⟩ := List.mem_map.1 hs
    exact ⟨j, by simpa using hj, rfl⟩
  have hny : ∀ j, j < c.rows.length → (f j).y.length = n := by
    intro j hj
    simp only [hf]
    rw [List.getD_eq_getElem _ _ hj]
    exact h.rect _ (List.getElem_mem _)
  have h0 : 0 < c.rows.length := by rw [hr]; simp
  obtain ⟨c', hc', hwf, hx, hxu, hyu, ht, hrows, hline, _⟩ := fromSpectra_ok (f 0)
    ((List.range' 1 rs.length).map f)
    (by
      intro s hs
      obtain ⟨j, hj, rfl⟩ := hmem s hs
      exact coll_items c n h j hj)
    (by
      intro s hs
      obtain ⟨j, hj, rfl⟩ := hmem s (by simp only [List.mem_cons]; exact Or.inr hs)
      refine ⟨rfl, rfl, rfl, ?_, npAllClose_refl _⟩
      rw [hny j hj, hny 0 h0])
  rw [hny 0 h0] at hwf
  refine ⟨_, c', MColl.toList_ok h, ?_, ?_, hwf⟩
  · show fromSpectra ((List.range c.rows.length).map f) = _
    rw [hcons]; exact hc'
  · rw [← hcons] at hrows
    have hrows' : c'.rows = c.rows := by
      rw [hrows, List.map_map]
      apply List.ext_getElem
      · simp
      · intro i h1 h2
        simp only [List.getElem_map, List.getElem_range, Function.comp_apply, hf]
        rw [List.getD_eq_getElem _ _ h2]
    refine ⟨hx, hxu, hrows', hyu, ht, ?_⟩
    intro i hi k
    rw [hrows'] at hi
    have := hline i (by rw [← hcons]; simpa using hi) k
    rw [this, List.getElem_of_eq hcons.symm]
    simp only [List.getElem_map, List.getElem_range, hf, Dict.get_union]
    rfl

example : (⟨[0,1], "meV", [1,2], "", none, [("a", "1")]⟩ : MSpec String ℚ).WF ∧
    Compatible (⟨[0,1], "meV", [1,2], "", none, [("a", "1")]⟩ : MSpec String ℚ)
      ⟨[0,1], "meV", [3,4], "", none, [("b", "2"), ("a", "1")]⟩ :=
  ⟨⟨Or.inl rfl, by simp [DWF], by decide⟩, ⟨rfl, rfl, rfl, rfl, npAllClose_refl _⟩⟩

/-- **C10**, error branch: an empty list raises `IndexError`, and a spectrum with a different unit or
different labels is refused with `AssertionError`. -/
theorem C10_from_spectra_refused (s0 : MSpec V α) (ss : List (MSpec V α)) :
    fromSpectra ([] : List (MSpec V α)) = .error .indexError ∧
    (∀ s ∈ ss.head?, s.yUnit ≠ s0.yUnit → fromSpectra (s0 :: ss) = .error .assertionError) ∧
    (∀ s ∈ ss.head?, s.yUnit = s0.yUnit → npAllClose s.x s0.x = .ok true →
      (s.xUnit ≠ s0.xUnit ∨ s.ticks ≠ s0.ticks) →
      fromSpectra (s0 :: ss) = .error .assertionError) := by
  refine ⟨rfl, ?_, ?_⟩
  · intro s hs hne
    cases ss with
    | nil => simp at hs
    | cons t ss =>
      simp only [List.head?_cons, Option.mem_def, Option.some.injEq] at hs
      subst hs
      simp [fromSpectra, List.mapM_cons, fromSpectraRow, hne, bind, Except.bind, throw, throwThe,
        MonadExceptOf.throw]
  · intro s hs he hcl hne
    cases ss with
    | nil => simp at hs
    | cons t ss =>
      simp only [List.head?_cons, Option.mem_def, Option.some.injEq] at hs
      subst hs
      by_cases hx : t.xUnit = s0.xUnit
      · have ht : t.ticks ≠ s0.ticks := by
          rcases hne with h | h
          · exact absurd hx h
          · exact h
        simp [fromSpectra, List.mapM_cons, fromSpectraRow, he, hcl, hx, ht, bind, Except.bind, throw,
          throwThe, MonadExceptOf.throw, pure, Except.pure]
      · simp [fromSpectra, List.mapM_cons, fromSpectraRow, he, hcl, hx, bind, Except.bind, throw,
          throwThe, MonadExceptOf.throw, pure, Except.pure]

/-! ## C14 -/

/-- **C14**. Adding two collections on the same axis with the same units and labels gives a collection
with the lines of the first followed by those of the second, each with its own metadata. -/
theorem C14_add (a b : MColl V α) (n : Nat) (ha : a.WF n) (hb : b.WF n)
    (hx : npAllClose b.x a.x = .ok true) (hxu : b.xUnit = a.xUnit) (hyu : b.yUnit = a.yUnit)
    (ht : b.ticks = a.ticks) :
    ∃ c, a.add b = .ok c ∧ c.WF n ∧ c.x = a.x ∧ c.xUnit = a.xUnit ∧ c.yUnit = a.yUnit ∧
      c.ticks = a.ticks ∧ c.rows = a.rows ++ b.rows ∧
      (∀ i, i < a.len → ∀ k, c.lineValue i k = a.lineValue i k) ∧
      (∀ i, i < b.len → ∀ k, c.lineValue (a.len + i) k = b.lineValue i k) := by
  obtain ⟨r, rs, hr⟩ := List.exists_cons_of_ne_nil ha.ne
  set f : Nat → MSpec V α := fun j => ⟨a.x, a.xUnit, a.rows.getD j [], a.yUnit, a.ticks,
        Dict.union a.md.common (a.lineOf j)⟩ with hf
  set g : Nat → MSpec V α := fun j => ⟨b.x, b.xUnit, b.rows.getD j [], b.yUnit, b.ticks,
        Dict.union b.md.common (b.lineOf j)⟩ with hg
  have h0 : 0 < a.rows.length := by rw [hr]; simp
  have hcons : (List.range a.rows.length).map f = f 0 :: (List.range' 1 rs.length).map f := by
    rw [hr, List.length_cons, List.range_eq_range', List.range'_succ, List.map_cons]
  have hfy : ∀ j, j < a.rows.length → (f j).y.length = n := by
    intro j hj
    simp only [hf]
    rw [List.getD_eq_getElem _ _ hj]
    exact ha.rect _ (List.getElem_mem _)
  have hgy : ∀ j, j < b.rows.length → (g j).y.length = n := by
    intro j hj
    simp only [hg]
    rw [List.getD_eq_getElem _ _ hj]
    exact hb.rect _ (List.getElem_mem _)
  have hmemf : ∀ s ∈ f 0 :: (List.range' 1 rs.length).map f, ∃ j, j < a.rows.length ∧ s = f j := by
    rw [← hcons]
    intro s hs
    obtain ⟨j, hj, rfl⟩ := List.mem_map.1 hs
    exact ⟨j, by simpa using hj, rfl⟩
  have hmemg : ∀ s ∈ (List.range b.rows.length).map g, ∃ j, j < b.rows.length ∧ s = g j := by
    intro s hs
    obtain ⟨j, hj, rfl⟩ := List.mem_map.1 hs
    exact ⟨j, by simpa using hj, rfl⟩
  have hL : (List.range a.rows.length).map f ++ (List.range b.rows.length).map g =
      f 0 :: ((List.range' 1 rs.length).map f ++ (List.range b.rows.length).map g) := by
    rw [hcons, List.cons_append]
  obtain ⟨c, hc, hwf, cx, cxu, cyu, ct, hrows, hline, _⟩ := fromSpectra_ok (f 0)
    ((List.range' 1 rs.length).map f ++ (List.range b.rows.length).map g)
    (by
      intro s hs
      rw [← List.cons_append] at hs
      rcases List.mem_append.1 hs with hs | hs
      · obtain ⟨j, hj, rfl⟩ := hmemf s hs
        exact coll_items a n ha j hj
      · obtain ⟨j, hj, rfl⟩ := hmemg s hs
        exact coll_items b n hb j hj)
    (by
      intro s hs
      rcases List.mem_append.1 hs with hs | hs
      · obtain ⟨j, hj, rfl⟩ := hmemf s (List.mem_cons_of_mem _ hs)
        exact ⟨rfl, rfl, rfl, by rw [hfy j hj, hfy 0 h0], npAllClose_refl _⟩
      · obtain ⟨j, hj, rfl⟩ := hmemg s hs
        exact ⟨hyu, hxu, ht, by rw [hgy j hj, hfy 0 h0], hx⟩)
  rw [hfy 0 h0] at hwf
  refine ⟨c, ?_, hwf, cx, cxu, cyu, ct, ?_, ?_, ?_⟩
  · unfold MColl.add
    rw [MColl.toList_ok ha, MColl.toList_ok hb]
    simp only [bind, Except.bind]
    rw [← hc, ← hL]
  · rw [hrows, ← hL, List.map_append, List.map_map, List.map_map]
    congr 1
    · apply List.ext_getElem
      · simp
      · intro i h1 h2
        simp only [List.getElem_map, List.getElem_range, Function.comp_apply, hf]
        rw [List.getD_eq_getElem _ _ h2]
    · apply List.ext_getElem
      · simp
      · intro i h1 h2
        simp only [List.getElem_map, List.getElem_range, Function.comp_apply, hg]
        rw [List.getD_eq_getElem _ _ h2]
  · intro i hi k
    unfold MColl.len at hi
    have := hline i (by rw [← hL]; simp; omega) k
    rw [this, List.getElem_of_eq hL.symm]
    rw [List.getElem_append_left (by simpa using hi)]
    simp only [List.getElem_map, List.getElem_range, hf, Dict.get_union]
    rfl
  · intro i hi k
    unfold MColl.len at hi
    have := hline (a.len + i) (by rw [← hL]; simp [MColl.len]; omega) k
    rw [this, List.getElem_of_eq hL.symm]
    rw [List.getElem_append_right (by simp [MColl.len])]
    simp only [List.length_map, List.length_range, MColl.len, Nat.add_sub_cancel_left,
      List.getElem_map, List.getElem_range, hg, Dict.get_union]
    rfl

/-- **C14**, associativity: for three collections on one axis, `(a+b)+c` and `a+(b+c)` both succeed and
are equal as sequences of spectra. -/
theorem C14_add_assoc (a b c : MColl V α) (n : Nat) (ha : a.WF n) (hb : b.WF n) (hc : c.WF n)
    (hx : b.x = a.x ∧ c.x = a.x) (hxu : b.xUnit = a.xUnit ∧ c.xUnit = a.xUnit)
    (hyu : b.yUnit = a.yUnit ∧ c.yUnit = a.yUnit) (ht : b.ticks = a.ticks ∧ c.ticks = a.ticks) :
    ∃ ab bc l r, a.add b = .ok ab ∧ b.add c = .ok bc ∧ ab.add c = .ok l ∧ a.add bc = .ok r ∧
      SameColl l r := by
  obtain ⟨ab, h1, w1, x1, xu1, yu1, t1, r1, p1, q1⟩ := C14_add a b n ha hb
    (by rw [hx.1]; exact npAllClose_refl _) hxu.1 hyu.1 ht.1
  obtain ⟨bc, h2, w2, x2, xu2, yu2, t2, r2, p2, q2⟩ := C14_add b c n hb hc
    (by rw [hx.1, hx.2]; exact npAllClose_refl _) (by rw [hxu.1, hxu.2]) (by rw [hyu.1, hyu.2])
    (by rw [ht.1, ht.2])
  obtain ⟨l, h3, w3, x3, xu3, yu3, t3, r3, p3, q3⟩ := C14_add ab c n w1 hc
    (by rw [x1, hx.2]; exact npAllClose_refl _) (by rw [xu1, hxu.2]) (by rw [yu1, hyu.2])
    (by rw [t1, ht.2])
  obtain ⟨r, h4, w4, x4, xu4, yu4, t4, r4, p4, q4⟩ := C14_add a bc n ha w2
    (by rw [x2, hx.1]; exact npAllClose_refl _) (by rw [xu2, hxu.1]) (by rw [yu2, hyu.1])
    (by rw [t2, ht.1])
  refine ⟨ab, bc, l, r, h1, h2, h3, h4, ?_⟩
  refine ⟨by rw [x3, x1, x4], by rw [xu3, xu1, xu4], by rw [r3, r1, r4, r2, List.append_assoc],
    by rw [yu3, yu1, yu4], by rw [t3, t1, t4], ?_⟩
  have lab : ab.len = a.len + b.len := by simp [MColl.len, r1]
  have lbc : bc.len = b.len + c.len := by simp [MColl.len, r2]
  intro i hi k
  rw [r3, r1] at hi
  simp only [List.length_append] at hi
  rcases Nat.lt_or_ge i a.len with ia | ia
  · rw [p3 i (by omega), p1 i ia, p4 i ia]
  · obtain ⟨j, rfl⟩ := Nat.exists_eq_add_of_le ia
    rcases Nat.lt_or_ge j b.len with ib | ib
    · rw [p3 _ (by omega), q1 j ib, q4 j (by omega), p2 j ib]
    · obtain ⟨m, rfl⟩ := Nat.exists_eq_add_of_le ib
      have im : m < c.len := by unfold MColl.len at *; omega
      rw [q4 _ (by omega), q2 m im, ← Nat.add_assoc, ← lab, q3 m im]

/-- Non-vacuity of C14: a collection can be added to itself, and the sum has twice the lines. -/
example : ∃ c, exColl.add exColl = .ok c ∧ c.len = 6 := by
  obtain ⟨c, h, _, _, _, _, _, hr, _⟩ := C14_add exColl exColl 2 exColl_wf exColl_wf
    (npAllClose_refl _) rfl rfl rfl
  exact ⟨c, h, by simp [MColl.len, hr, exColl]⟩

end field

end Euphonic
