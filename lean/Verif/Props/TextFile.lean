import Verif.Model.TextFile
import Verif.Props.Collection
import Verif.Props.Group
import Verif.Props.Bins

/-!
# C116 Sums of two spectra; C117 text files of spectra
-/

set_option autoImplicit false
set_option linter.unusedSectionVars false

namespace Euphonic.TextFile

variable {V α : Type} [DecidableEq V] [Field α] [LinearOrder α] [IsStrictOrderedRing α]

/-! ## C116 -/

/-- **C116** Two spectra with the same units and ticks, as many values and close axes can be added: the values are added
one by one, axis, units and ticks are those of the first, and exactly the metadata are kept that both have.
*Missing from the full statement:* units that are compatible but not the same, see `C116_other_unit`. -/
theorem C116_add_partial (s t : MSpec V α) (hs : s.WF) (ht : t.WF) (hc : Compatible s t) :
    ∃ r, add s t = .ok r ∧ r.x = s.x ∧ r.xUnit = s.xUnit ∧ r.yUnit = s.yUnit ∧ r.ticks = s.ticks ∧
      r.y.length = s.y.length ∧ (∀ i < s.y.length, r.y.getD i 0 = s.y.getD i 0 + t.y.getD i 0) ∧
      ∀ k v, r.md.get k = some v ↔ s.md.get k = some v ∧ t.md.get k = some v := by
  obtain ⟨c, h1, h2, h3, h4, h5, h6, h7, h8, h9⟩ := fromSpectra_ok s [t]
    (by simp only [List.mem_cons, List.not_mem_nil, or_false]; rintro x (rfl | rfl) <;> assumption)
    (by simpa using hc)
  obtain ⟨r, g1, g2, g3, g4, g5, g6, -, -, g9⟩ := sum_ok c _ h2
  have hrect : ∀ r ∈ c.rows, r.length = s.y.length := h2.rect
  refine ⟨r, ?_, by rw [g2, h3], by rw [g3, h4], by rw [g4, h5], by rw [g5, h6], ?_, ?_, ?_⟩
  · unfold add
    rw [h1]
    exact g1
  · rw [g6, length_sumRows _ _ hrect]
  · intro i hi
    rw [g6, getD_sumRows _ _ hrect i hi, h7]
    simp
  · intro k v
    have l0 := h8 0 (by simp) k
    have l1 := h8 1 (by simp) k
    have hlen : c.len = 2 := by
      unfold MColl.len
      rw [h7]
      rfl
    have hcom := h9 k v
    simp only [List.mem_cons, List.not_mem_nil, or_false, forall_eq_or_imp, forall_eq] at hcom
    rw [g9, hlen, ← hcom]
    unfold MColl.lineValue at l0 l1
    simp only [List.getElem_cons_zero, List.getElem_cons_succ] at l0 l1
    constructor
    · rintro (h | ⟨-, h⟩)
      · rw [hcom, ← l0, ← l1, h 0 (by norm_num), h 1 (by norm_num)]
        simp
      · exact h
    · intro h
      by_cases hw : ∃ w, ∀ i, i < 2 → (c.lineOf i).get k = some w
      · left
        obtain ⟨w, hw⟩ := hw
        have hv := (hcom.1 h).1
        rw [← l0, hw 0 (by norm_num)] at hv
        simp only [Option.some_or, Option.some.injEq] at hv
        rw [← hv]
        exact hw
      · exact Or.inr ⟨hw, h⟩

/-- **C116** For equal axes the order of the two does not matter. -/
theorem C116_comm (s t : MSpec V α) (hs : s.WF) (ht : t.WF) (hc : Compatible s t) (hx : s.x = t.x) :
    ∃ r r', add s t = .ok r ∧ add t s = .ok r' ∧ SameSpec r r' := by
  obtain ⟨r, h1, h2, h3, h4, h5, h6, h7, h8⟩ := C116_add_partial s t hs ht hc
  obtain ⟨r', g1, g2, g3, g4, g5, g6, g7, g8⟩ := C116_add_partial t s ht hs
    ⟨hc.yUnit.symm, hc.xUnit.symm, hc.ticks.symm, hc.ny.symm, by rw [hx]; exact npAllClose_refl _⟩
  refine ⟨r, r', h1, g1, ⟨by rw [h2, g2, hx], by rw [h3, g3, hc.xUnit], ?_, by rw [h4, g4, hc.yUnit],
    by rw [h5, g5, hc.ticks], ?_⟩⟩
  · apply List.ext_getElem (by rw [h6, g6, hc.ny])
    intro i hi hi'
    rw [← List.getD_eq_getElem _ 0 hi, ← List.getD_eq_getElem _ 0 hi', h7 i (by omega), g7 i (by omega), add_comm]
  · intro k
    apply Option.ext
    intro v
    rw [h8, g8, and_comm]

/-- **C116** *Violation:* the documentation asks for compatible units, but any other unit of the data is refused, also one
that could be converted; so are another unit of the axis, other ticks and an axis that is not close. -/
theorem C116_other_unit (s t : MSpec V α) :
    (t.yUnit ≠ s.yUnit → add s t = .error .assertionError) ∧
    (t.yUnit = s.yUnit → npAllClose t.x s.x = .ok false → add s t = .error .assertionError) ∧
    (t.yUnit = s.yUnit → npAllClose t.x s.x = .ok true → t.xUnit ≠ s.xUnit ∨ t.ticks ≠ s.ticks →
      add s t = .error .assertionError) := by
  refine ⟨?_, ?_, ?_⟩
  · intro h
    unfold add fromSpectra fromSpectraRow
    simp [h, bind, Except.bind, List.mapM_cons, throw, throwThe, MonadExceptOf.throw]
  · intro h h2
    unfold add fromSpectra fromSpectraRow
    simp [h, h2, bind, Except.bind, List.mapM_cons, throw, throwThe, MonadExceptOf.throw]
  · intro h h2 h3
    have := (C10_from_spectra_refused s [t]).2.2 t (by simp) h h2 h3
    unfold add
    rw [this]
    rfl

theorem exists_of_check {β : Type} (e : Except Err β) (p : β → Bool) (h : e.toOption.any p = true) :
    ∃ r, e = .ok r ∧ p r = true := by
  cases e with
  | ok r => exact ⟨r, rfl, h⟩
  | error x => cases h

/-- **C116** *Violation:* spectra with different numbers of values can be added, if one has two points and the other one
bin between the same two: its value is added to both. -/
theorem C116_one_bin : ∃ r, add (⟨[0, 1], "meV", [1, 2], "1", none, []⟩ : MSpec Nat ℚ)
    ⟨[0, 1], "meV", [5], "1", none, []⟩ = .ok r ∧ r.y = [6, 7] := by
  obtain ⟨r, hr, h⟩ := exists_of_check (add (⟨[0, 1], "meV", [1, 2], "1", none, []⟩ : MSpec Nat ℚ)
    ⟨[0, 1], "meV", [5], "1", none, []⟩) (fun r => decide (r.y = [6, 7])) (by decide +kernel)
  exact ⟨r, hr, of_decide_eq_true h⟩

/-- Concrete spectra meeting the hypotheses. -/
example : ∃ r, add (⟨[0, 1], "meV", [1, 2], "1", none, [("a", 1), ("b", 2)]⟩ : MSpec Nat ℚ)
    ⟨[0, 1], "meV", [5, 7], "1", none, [("b", 2), ("a", 4)]⟩ = .ok r ∧ r.y = [6, 9] ∧ r.md.get "b" = some 2 ∧
    r.md.get "a" = none := by
  obtain ⟨r, hr, h⟩ := exists_of_check (add (⟨[0, 1], "meV", [1, 2], "1", none, [("a", 1), ("b", 2)]⟩ : MSpec Nat ℚ)
    ⟨[0, 1], "meV", [5, 7], "1", none, [("b", 2), ("a", 4)]⟩)
    (fun r => decide (r.y = [6, 9] ∧ r.md.get "b" = some 2 ∧ r.md.get "a" = none)) (by decide +kernel)
  exact ⟨r, hr, of_decide_eq_true h⟩

/-! ## C117 -/

/-- The lines of a text: each ends with a line break. -/
def lines (t : List Char) : List (List Char) := (t.splitOn '\n').dropLast

/-- The comments of a text: what follows `# ` in the lines beginning with it. -/
def comments (t : List Char) : List (List Char) :=
  (lines t).filterMap fun l => match l with
    | '#' :: ' ' :: r => some r
    | _ => none

/-- The table in a text: all other lines, split at the spaces. -/
def table (t : List Char) : List (List (List Char)) :=
  ((lines t).filter fun l => l.head? ≠ some '#').map fun l => l.splitOn ' '

/-- A format of numbers: no spaces or line breaks, nothing that looks like a comment. -/
def Plain (f : α → List Char) : Prop := ∀ v, ' ' ∉ f v ∧ '\n' ∉ f v ∧ '#' ∉ f v

/-- The formats of the columns. -/
def Uses (dflt : α → List Char) (fmt : Fmt α) (j : Nat) (f : α → List Char) : Prop :=
  match fmt with
  | .default => f = dflt
  | .one g => f = g
  | .many fs => fs[j]? = some f

theorem lines_of (ls : List (List Char)) (h : ∀ l ∈ ls, '\n' ∉ l) : lines (ls.flatMap fun l => l ++ ['\n']) = ls := by
  have : (ls.flatMap fun l => l ++ ['\n']) = ['\n'].intercalate (ls ++ [[]]) := by
    induction ls with
    | nil => rfl
    | cons a l ih =>
      rw [List.flatMap_cons, ih fun l hl => h l (by simp [hl])]
      cases l with
      | nil => simp [List.intercalate]
      | cons b l => simp [List.intercalate]
  unfold lines
  rw [this, List.splitOn_intercalate _ (by
    intro l hl
    rcases List.mem_append.1 hl with hl | hl
    · exact h l hl
    · simp at hl
      simp [hl]) (by simp)]
  simp

/-- Commenting the lines of a header. -/
theorem headerText_eq (hs : List (List Char)) (hne : hs ≠ []) (h : ∀ l ∈ hs, '\n' ∉ l) :
    headerText (['\n'].intercalate hs) = hs.flatMap fun l => (['#', ' '] ++ l) ++ ['\n'] := by
  have key : ∀ l : List Char, '\n' ∉ l → (l.flatMap fun c => if c = '\n' then ['\n', '#', ' '] else [c]) = l := by
    intro l hl
    induction l with
    | nil => rfl
    | cons a l ih =>
      rw [List.flatMap_cons, ih fun hm => hl (by simp [hm]), if_neg fun he => hl (by simp [he])]
      rfl
  unfold headerText
  induction hs with
  | nil => exact absurd rfl hne
  | cons a l ih =>
    cases l with
    | nil => simp [List.intercalate, key a (h a (by simp))]
    | cons b l =>
      have ih' := ih (by simp) fun l hl => h l (by simp [hl])
      rw [List.flatMap_cons, ← ih']
      simp [List.intercalate, List.flatMap_append, key a (h a (by simp))]

/-- Where line `i` of the table is on the axis: the point, or the middle of the bin. -/
def Position (x : List α) (n i : Nat) (p : α) : Prop :=
  (x.length = n → x[i]? = some p) ∧ (x.length = n + 1 → ∃ a b, x[i]? = some a ∧ x[i + 1]? = some b ∧ p = (a + b) / 2)

theorem centres_spec (n : Nat) (x : List α) (h : x.length = n ∨ x.length = n + 1) :
    ∃ l, getBinCentres n x = .ok l ∧ l.length = n ∧ ∀ i < n, Position x n i (l.getD i 0) := by
  rcases h with h | h
  · refine ⟨x, getBinCentres_centres n x h, h, ?_⟩
    intro i hi
    refine ⟨fun _ => ?_, fun h' => by omega⟩
    rw [List.getD_eq_getElem _ _ (by omega), List.getElem?_eq_getElem]
  · have hl : (binEdgesToCentres x).length = n := by rw [length_binEdgesToCentres]; omega
    refine ⟨_, getBinCentres_edges n x h, hl, ?_⟩
    intro i hi
    refine ⟨fun h' => by omega, fun _ => ⟨x[i], x[i + 1], List.getElem?_eq_getElem _, List.getElem?_eq_getElem _, ?_⟩⟩
    rw [List.getD_eq_getElem _ _ (by omega), getElem_binEdgesToCentres]

theorem formats_ok (dflt : α → List Char) (n : Nat) (fmt : Fmt α) (h : ∀ fs, fmt = .many fs → fs.length = n) :
    ∃ fs, columnFormats dflt n fmt = .ok fs ∧ fs.length = n ∧ ∀ j < n, ∀ f, Uses dflt fmt j f ↔ fs[j]? = some f := by
  cases fmt with
  | default => exact ⟨_, rfl, by simp, fun j hj f => by simp [Uses, hj, eq_comm]⟩
  | one g => exact ⟨_, rfl, by simp, fun j hj f => by simp [Uses, hj, eq_comm]⟩
  | many fs => exact ⟨fs, by simp [columnFormats, h fs rfl], h fs rfl, fun j hj f => Iff.rfl⟩

theorem headerLines_eq (version : String) (dumps : Dict V → String) (c : MColl V α) (n : Nat) (h : c.WF n) :
    ∃ ld : List (Dict V), headerLines version dumps c =
      ["Generated by Euphonic " ++ version, "x_data in (" ++ c.xUnit ++ ")", "y_data in (" ++ c.yUnit ++ ")",
        "Common metadata: " ++ dumps c.md.common, "Column 1: x_data"] ++
      ld.zipIdx.map (fun p => "Column " ++ toString (p.2 + 2) ++ ": y_data[" ++ toString p.2 ++ "] " ++ dumps p.1) ∧
      ld.length = c.len ∧ ∀ j (hj : j < ld.length), ld[j] = c.lineOf j := by
  refine ⟨_, rfl, ?_, ?_⟩
  · cases hl : c.md.lines with
    | none => simp [MColl.len]
    | some ls => exact h.lines ls hl
  · obtain ⟨x, xu, rows, yu, t, ⟨common, lines⟩⟩ := c
    cases lines with
    | none => simp [MColl.lineOf]
    | some ls =>
      intro i hi
      simp only [MColl.lineOf]
      rw [List.getD_eq_getElem _ _ hi]

/-- **C117** What the file contains: comments with the units, the common metadata and the metadata of each line in the
order of the columns; then one line for each point or bin with its position and the values of all lines there. -/
theorem C117_file (version : String) (dumps : Dict V → String) (dflt : α → List Char) (c : MColl V α) (fmt : Fmt α)
    (n : Nat) (h : c.WF n) (hv : '\n' ∉ version.toList) (hx : '\n' ∉ c.xUnit.toList) (hy : '\n' ∉ c.yUnit.toList)
    (hd : ∀ d, '\n' ∉ (dumps d).toList) (hp : ∀ j ≤ c.len, ∀ f, Uses dflt fmt j f → Plain f)
    (hf : ∀ fs, fmt = .many fs → fs.length = c.len + 1) :
    ∃ t, toTextFile version dumps dflt c fmt = .ok t ∧
      (comments t).length = c.len + 5 ∧
      (comments t)[1]? = some ("x_data in (" ++ c.xUnit ++ ")").toList ∧
      (comments t)[2]? = some ("y_data in (" ++ c.yUnit ++ ")").toList ∧
      (comments t)[3]? = some ("Common metadata: " ++ dumps c.md.common).toList ∧
      (∀ j < c.len, (comments t)[j + 5]? =
        some ("Column " ++ toString (j + 2) ++ ": y_data[" ++ toString j ++ "] " ++ dumps (c.lineOf j)).toList) ∧
      (table t).length = n ∧
      ∀ i < n, ∃ cells, (table t)[i]? = some cells ∧ cells.length = c.len + 1 ∧
        (∀ f, Uses dflt fmt 0 f → ∃ p, Position c.x n i p ∧ cells[0]? = some (f p)) ∧
        ∀ j r, c.rows[j]? = some r → ∀ f, Uses dflt fmt (j + 1) f → ∃ v, r[i]? = some v ∧ cells[j + 1]? = some (f v) := by
  obtain ⟨fs, hfs, hlen, huse⟩ := formats_ok dflt (c.len + 1) fmt hf
  obtain ⟨cs, hcs, hcl, hpos⟩ := centres_spec n c.x h.axis
  have hn : (c.rows.headD []).length = n := by
    obtain ⟨r, rs, hr⟩ := List.exists_cons_of_ne_nil h.ne
    rw [hr]
    exact h.rect r (by simp [hr])
  have hplain : ∀ f ∈ fs, Plain f := by
    intro f hf
    obtain ⟨j, hj, rfl⟩ := List.getElem_of_mem hf
    exact hp j (by omega) _ ((huse j (by omega) _).2 (List.getElem?_eq_getElem hj))
  obtain ⟨ld, hld, hldl, hldg⟩ := headerLines_eq version dumps c n h
  set hdr := (headerLines version dumps c).map String.toList with hhdr
  have hhl : hdr.length = c.len + 5 := by
    rw [hhdr, List.length_map]
    rw [hld]
    simp [hldl]
  have hnat : ∀ k : Nat, '\n' ∉ (toString k).toList := by
    intro k hk
    have := Nat.isDigit_of_mem_toDigits (b := 10) (n := k) (c := '\n') (by decide) (by decide) (by
      rw [← Nat.toList_repr]; exact hk)
    exact absurd this (by decide)
  have hnl : ∀ l ∈ hdr, '\n' ∉ l := by
    intro l hl
    obtain ⟨s, hs, rfl⟩ := List.mem_map.1 hl
    rw [hld] at hs
    simp only [List.cons_append, List.nil_append, List.mem_cons, List.mem_map] at hs
    rcases hs with rfl | rfl | rfl | rfl | rfl | ⟨p, -, rfl⟩
    · simp [hv]
    · simp [hx]
    · simp [hy]
    · simp [hd]
    · decide
    · have h1 := hnat (p.2 + 2)
      have h2 := hnat p.2
      simp only [String.toList_append, List.mem_append, not_or]
      exact ⟨⟨⟨⟨⟨by decide, h1⟩, by decide⟩, h2⟩, by decide⟩, hd _⟩
  set body : List (List Char) := ((List.range n).map fun i => cs.getD i 0 :: c.rows.map fun r => r.getD i 0).map fun r =>
    [' '].intercalate (List.zipWith (fun (f : α → List Char) v => f v) fs r) with hbody
  have hcells : ∀ i < n, ∀ l ∈ List.zipWith (fun (f : α → List Char) v => f v) fs (cs.getD i 0 :: c.rows.map fun r => r.getD i 0),
      ' ' ∉ l ∧ '\n' ∉ l ∧ '#' ∉ l := by
    intro i hi l hl
    obtain ⟨k, hk, rfl⟩ := List.getElem_of_mem hl
    rw [List.getElem_zipWith]
    exact hplain _ (List.getElem_mem _) _
  have hmem : ∀ (ch : Char) (ls : List (List Char)), ch ≠ ' ' → (∀ l ∈ ls, ch ∉ l) → ch ∉ [' '].intercalate ls := by
    intro ch ls hch hls
    induction ls with
    | nil => simp [List.intercalate]
    | cons a l ih =>
      cases l with
      | nil => simpa [List.intercalate] using hls a (by simp)
      | cons b l =>
        have := ih fun l hl => hls l (by simp [hl])
        have ha := hls a (by simp)
        simp only [List.intercalate, List.intersperse_cons_cons, List.flatten_cons] at this ⊢
        simp [ha, hch] at this ⊢
        exact this
  have htext : toTextFile version dumps dflt c fmt =
      .ok ((hdr.map (['#', ' '] ++ ·) ++ body).flatMap fun l => l ++ ['\n']) := by
    unfold toTextFile
    dsimp only
    rw [hn, hcs]
    simp only [bind, Except.bind, hstack]
    rw [if_pos hcl]
    unfold saveTxt
    change (do let fs ← columnFormats dflt (c.len + 1) fmt; _) = _
    rw [hfs]
    simp only [bind, Except.bind, pure, Except.pure]
    rw [← hhdr, headerText_eq hdr (by intro h0; rw [h0] at hhl; simp at hhl) hnl]
    rw [List.flatMap_append, hbody]
    simp only [List.flatMap_map, hhdr, List.append_assoc, List.map_map, Function.comp_def]
  have hlines : lines ((hdr.map (['#', ' '] ++ ·) ++ body).flatMap fun l => l ++ ['\n']) =
      hdr.map (['#', ' '] ++ ·) ++ body := by
    apply lines_of
    intro l hl
    rcases List.mem_append.1 hl with hl | hl
    · obtain ⟨l', hl', rfl⟩ := List.mem_map.1 hl
      simp [hnl l' hl']
    · rw [hbody, List.mem_map] at hl
      obtain ⟨r, hr, rfl⟩ := hl
      obtain ⟨i, hi, rfl⟩ := List.mem_map.1 hr
      exact hmem _ _ (by decide) fun l hl => (hcells i (List.mem_range.1 hi) l hl).2.1
  have hhash : ∀ l ∈ body, l.head? ≠ some '#' := by
    intro l hl
    rw [hbody, List.mem_map] at hl
    obtain ⟨r, hr, rfl⟩ := hl
    obtain ⟨i, hi, rfl⟩ := List.mem_map.1 hr
    intro he
    exact hmem '#' _ (by decide) (fun l hl => (hcells i (List.mem_range.1 hi) l hl).2.2) (List.mem_of_mem_head? he)
  refine ⟨_, htext, ?_⟩
  have hcom : comments ((hdr.map (['#', ' '] ++ ·) ++ body).flatMap fun l => l ++ ['\n']) = hdr := by
    unfold comments
    rw [hlines, List.filterMap_append, List.filterMap_map]
    have h1 : (body.filterMap fun l => match l with
        | '#' :: ' ' :: r => some r
        | _ => none) = [] := by
      rw [List.filterMap_eq_nil_iff]
      intro l hl
      split
      · exact absurd rfl (hhash _ hl)
      · rfl
    rw [h1, List.append_nil]
    exact List.filterMap_some
  have htab : table ((hdr.map (['#', ' '] ++ ·) ++ body).flatMap fun l => l ++ ['\n']) =
      (List.range n).map fun i => List.zipWith (fun (f : α → List Char) v => f v) fs (cs.getD i 0 :: c.rows.map fun r => r.getD i 0) := by
    unfold table
    rw [hlines, List.filter_append]
    have h1 : (hdr.map (['#', ' '] ++ ·)).filter (fun l => decide (l.head? ≠ some '#')) = [] := by
      rw [List.filter_eq_nil_iff]
      intro l hl
      obtain ⟨l', -, rfl⟩ := List.mem_map.1 hl
      simp
    have h2 : body.filter (fun l => decide (l.head? ≠ some '#')) = body := by
      rw [List.filter_eq_self]
      intro l hl
      exact decide_eq_true (hhash l hl)
    rw [h1, h2, List.nil_append, hbody, List.map_map, List.map_map]
    apply List.map_congr_left
    intro i hi
    simp only [Function.comp_apply]
    apply List.splitOn_intercalate _ (fun l hl => (hcells i (List.mem_range.1 hi) l hl).1)
    intro h0
    have := congrArg List.length h0
    simp [hlen] at this
  rw [hcom, htab]
  have hget : ∀ (j : Nat) (l : List Char), ((headerLines version dumps c)[j]?).map String.toList = some l → hdr[j]? = some l := by
    intro j l hl
    rw [hhdr, List.getElem?_map]
    exact hl
  refine ⟨hhl, hget 1 _ rfl, hget 2 _ rfl, hget 3 _ rfl, ?_, by simp, ?_⟩
  · intro j hj
    apply hget
    rw [hld]
    simp [List.getElem?_eq_getElem (show j < ld.length by omega), hldg]
  · intro i hi
    refine ⟨_, by rw [List.getElem?_map, List.getElem?_range hi]; rfl, by simp [hlen, MColl.len], ?_, ?_⟩
    · intro f hf
      have := (huse 0 (by omega) f).1 hf
      refine ⟨_, hpos i hi, ?_⟩
      rw [List.getElem?_zipWith, this]
      rfl
    · intro j r hr f hf
      have hj : j < c.rows.length := (List.getElem?_eq_some_iff.1 hr).1
      have := (huse (j + 1) (by unfold MColl.len; omega) f).1 hf
      have hrl : r.length = n := h.rect r (List.mem_of_getElem? hr)
      refine ⟨r[i], List.getElem?_eq_getElem _, ?_⟩
      rw [List.getElem?_zipWith, this]
      simp [hr, List.getElem?_eq_getElem (show i < r.length by omega)]

/-- **C117** Another number of formats than columns is refused. -/
theorem C117_formats (version : String) (dumps : Dict V → String) (dflt : α → List Char) (c : MColl V α)
    (fs : List (α → List Char)) (n : Nat) (h : c.WF n) (hf : fs.length ≠ c.len + 1) :
    toTextFile version dumps dflt c (.many fs) = .error .attributeError := by
  obtain ⟨cs, hcs, hcl, -⟩ := centres_spec n c.x h.axis
  have hn : (c.rows.headD []).length = n := by
    obtain ⟨r, rs, hr⟩ := List.exists_cons_of_ne_nil h.ne
    rw [hr]
    exact h.rect r (by simp [hr])
  unfold toTextFile
  dsimp only
  rw [hn, hcs]
  simp only [bind, Except.bind, hstack]
  rw [if_pos hcl]
  unfold saveTxt columnFormats
  dsimp only
  rw [if_neg (by unfold MColl.len at hf; exact hf)]
  rfl

/-- **C117** The file of one spectrum: all its metadata in the comment on the common metadata, and two columns. -/
theorem C117_spectrum (version : String) (dumps : Dict V → String) (dflt : α → List Char) (s : MSpec V α) (fmt : Fmt α)
    (h : s.WF) (hv : '\n' ∉ version.toList) (hx : '\n' ∉ s.xUnit.toList) (hy : '\n' ∉ s.yUnit.toList)
    (hd : ∀ d, '\n' ∉ (dumps d).toList) (hp : ∀ j ≤ 1, ∀ f, Uses dflt fmt j f → Plain f)
    (hf : ∀ fs, fmt = .many fs → fs.length = 2) :
    ∃ t, spectrumToTextFile version dumps dflt s fmt = .ok t ∧
      (comments t).length = 6 ∧
      (comments t)[1]? = some ("x_data in (" ++ s.xUnit ++ ")").toList ∧
      (comments t)[2]? = some ("y_data in (" ++ s.yUnit ++ ")").toList ∧
      (∃ d, (∀ k, d.get k = s.md.get k) ∧ (comments t)[3]? = some ("Common metadata: " ++ dumps d).toList) ∧
      (table t).length = s.y.length ∧
      ∀ i (hi : i < s.y.length), ∃ a b, (table t)[i]? = some [a, b] ∧
        (∀ f, Uses dflt fmt 0 f → ∃ p, Position s.x s.y.length i p ∧ a = f p) ∧
        ∀ f, Uses dflt fmt 1 f → b = f s.y[i] := by
  obtain ⟨c, hc, hwf, hcx, hcxu, hcyu, -, hrows, -, hcom⟩ := fromSpectra_ok s [] (by simpa using h) (by simp)
  have hlen : c.len = 1 := by simp [MColl.len, hrows]
  obtain ⟨t, ht, h1, h2, h3, h4, -, h6, h7⟩ := C117_file version dumps dflt c fmt s.y.length hwf hv (hcxu ▸ hx) (hcyu ▸ hy) hd
    (hlen ▸ hp) (by rw [hlen]; exact hf)
  refine ⟨t, by simp [spectrumToTextFile, hc, bind, Except.bind, ht], by rw [h1, hlen], by rw [h2, hcxu], by rw [h3, hcyu],
    ⟨_, ?_, h4⟩, h6, ?_⟩
  · intro k
    have := hcom k
    cases hg : Dict.get s.md k with
    | some v => exact (this v).2 (by simpa using hg)
    | none =>
      cases hg' : Dict.get c.md.common k with
      | none => rfl
      | some v =>
        have := (this v).1 hg' s (by simp)
        rw [hg] at this
        cases this
  · intro i hi
    obtain ⟨cells, hcells, hcl, hx0, hy0⟩ := h7 i hi
    rw [hlen] at hcl
    obtain ⟨a, b, rfl⟩ := List.length_eq_two.1 hcl
    refine ⟨a, b, hcells, ?_, ?_⟩
    · intro f hf
      obtain ⟨p, hp, he⟩ := hx0 f hf
      exact ⟨p, hcx ▸ hp, by simpa using he⟩
    · intro f hf
      obtain ⟨v, hv, he⟩ := hy0 0 s.y (by simp [hrows]) f hf
      rw [List.getElem?_eq_getElem hi] at hv
      cases hv
      simpa using he

/-- A concrete collection of two lines on bins meeting the hypotheses. -/
example : ∃ t, toTextFile (V := Nat) "1.4" (fun _ => "{}") (fun q : ℚ => q.num.repr.toList)
      ⟨[0, 2, 4], "meV", [[1, 2], [3, 5]], "1/meV", none, ⟨[("a", 1)], some [[("b", 1)], [("b", 2)]]⟩⟩ .default = .ok t ∧
    table t = [["1".toList, "1".toList, "3".toList], ["3".toList, "2".toList, "5".toList]] := by
  obtain ⟨r, hr, h⟩ := exists_of_check (toTextFile (V := Nat) "1.4" (fun _ => "{}") (fun q : ℚ => q.num.repr.toList)
      ⟨[0, 2, 4], "meV", [[1, 2], [3, 5]], "1/meV", none, ⟨[("a", 1)], some [[("b", 1)], [("b", 2)]]⟩⟩ .default)
    (fun t => decide (table t = [["1".toList, "1".toList, "3".toList], ["3".toList, "2".toList, "5".toList]]))
    (by decide +kernel)
  exact ⟨r, hr, of_decide_eq_true h⟩

end Euphonic.TextFile
