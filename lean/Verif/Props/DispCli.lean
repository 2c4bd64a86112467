import Verif.Model.DispCli
import Verif.Props.Split
import Verif.Props.Plot
import Verif.Props.Cli
import Verif.Props.Path
import Mathlib.Tactic.IntervalCases

/-!
# C109: the lines drawn by `euphonic-dispersion`
-/

set_option autoImplicit false

namespace Euphonic.DispCli

open Euphonic.Lattice Euphonic.Plot

/-! ## Splitting and drawing -/

section Draw

/-- The pieces between breaks have no common points. -/
def StrictBreaks (n : Nat) (is : List Int) : Prop := is.Pairwise (· < ·) ∧ ∀ i ∈ is, 0 < i ∧ i < n

theorem StrictBreaks.valid {n : Nat} {is : List Int} (h : StrictBreaks n is) : ValidBreaks n is :=
  ⟨h.1.imp fun h => le_of_lt h, fun i hi => ⟨by have := (h.2 i hi).1; omega, by have := (h.2 i hi).2; omega⟩⟩

/-- The ranges are not empty. -/
theorem range_pos {n : Nat} {a : Int} {is : List Int} (hp : (a :: is).Pairwise (· < ·)) (ha : 0 ≤ a) (han : a < n)
    (h : ∀ i ∈ is, i < n) {r : Int × Option Int} (hr : r ∈ rangesFrom a is) :
    0 ≤ r.1 ∧ r.1 < n ∧ ∀ e, r.2 = some e → r.1 < e ∧ e < n := by
  induction is generalizing a with
  | nil =>
    simp only [rangesFrom, List.mem_singleton] at hr
    subst hr
    exact ⟨ha, han, by simp⟩
  | cons i is ih =>
    obtain ⟨h1, h2⟩ := List.pairwise_cons.1 hp
    simp only [rangesFrom, List.mem_cons] at hr
    rcases hr with rfl | hr
    · refine ⟨ha, han, ?_⟩
      intro e he
      cases he
      exact ⟨h1 i (by simp), h i (by simp)⟩
    · have := h1 i (by simp)
      exact ih h2 (by omega) (h i (by simp)) (fun j hj => h j (by simp [hj])) hr

/-- Is a position in a range? -/
def inRange (r : Int × Option Int) (i : Int) : Bool :=
  decide (r.1 ≤ i) && (match r.2 with | none => true | some e => decide (i < e))

theorem flatten_filter (T : List (Int × String)) (hT : T.Pairwise fun s t => s.1 ≤ t.1) (a : Int) (is : List Int)
    (h : (a :: is).Pairwise (· ≤ ·)) :
    ((rangesFrom a is).map fun r => T.filter fun p => inRange r p.1).flatten = T.filter fun p => decide (a ≤ p.1) := by
  induction is generalizing a with
  | nil => simp [rangesFrom, inRange]
  | cons i is ih =>
    obtain ⟨h1, h2⟩ := List.pairwise_cons.1 h
    rw [rangesFrom, List.map_cons, List.flatten_cons, ih i h2]
    have e := filter_split_sorted (T.filter fun p => decide (a ≤ p.1)) i (hT.filter _)
    rw [← e, List.filter_filter, List.filter_filter]
    congr 1
    · apply List.filter_congr
      intro p _
      simp only [inRange]
      exact Bool.and_comm _ _
    · apply List.filter_congr
      intro p _
      have := h1 i (by simp)
      by_cases hp : i ≤ p.1
      · have : a ≤ p.1 := by omega
        simp [hp, this]
      · simp [hp]

/-- The piece of a collection on a range. -/
noncomputable def piece (s : Coll1D ℝ Unit) (r : Int × Option Int) : Coll1D ℝ Unit :=
  ⟨pySlice s.x r.1 r.2, (pySlice (List.range s.ny) r.1 r.2).length, s.rows.map fun y => pySlice y r.1 r.2,
    cutXTicks s.ticks r.1 r.2, s.md⟩

theorem split_eq (s : Coll1D ℝ Unit) (hx : s.x.length = s.ny) (hne : s.rows ≠ []) (is : List Int)
    (h : ValidBreaks s.ny is) : s.splitByIndices is = .ok ((rangesFrom 0 is).map (piece s)) := by
  unfold Coll1D.splitByIndices
  rw [rangesFromIndices_eq]
  apply mapM_ok_of_forall
  intro r hr'
  obtain ⟨h0, h1, h2⟩ := good_range_mem h.good hr'
  have := piece_wf _ _ (Or.inl hx) s.x (List.range s.ny) rfl (by simp) r h0 h1 h2
  simp [Coll1D.new, this, hne, piece]

/-- What a drawing must show: for every line all its points in order, one colour for each line, and all ticks at the
points they label. -/
structure Complete (x : List ℝ) (rows : List (List ℝ)) (T : List (Nat × String)) (ds : List (Drawn ℝ)) : Prop where
  lines : ∀ d ∈ ds, d.strokes.length = rows.length
  points : ∀ m < rows.length, (ds.flatMap fun d => (d.strokes.getD m []).flatMap Stroke.points) = List.zip x (rows.getD m [])
  colours : ∀ d ∈ ds, ∀ m < rows.length, ∀ t ∈ d.strokes.getD m [], t.colour = .cycle m
  ticks : (ds.flatMap fun d => match d.ticks with | none => [] | some k => List.zip k.at_ k.labels) =
    T.map fun t => (x.getD t.1 0, t.2)

theorem toLines_piece (s : Coll1D ℝ Unit) (r : Int × Option Int) :
    toLines (piece s r) = ⟨pySlice s.x r.1 r.2, (s.rows.map fun y => pySlice y r.1 r.2).map fun y => (none, y),
      cutXTicks s.ticks r.1 r.2, (), ()⟩ := rfl

theorem pySlice_zip {α β : Type} (l : List α) (m : List β) (h : l.length = m.length) (a : Int) (b : Option Int) :
    pySlice (List.zip l m) a b = List.zip (pySlice l a b) (pySlice m a b) := by
  unfold pySlice
  have hl : (List.zip l m).length = l.length := by simp [h]
  rw [hl, ← h]
  cases b <;> simp [List.zip, List.take_zipWith, List.drop_zipWith]

/-- One subplot. -/
theorem subplot (s : Coll1D ℝ Unit) (hx : s.x.length = s.ny) (hr : ∀ y ∈ s.rows, y.length = s.ny)
    (T : List (Int × String)) (hT : s.ticks = some T) (hTn : ∀ t ∈ T, t.1 < s.ny) (r : Int × Option Int)
    (h0 : 0 ≤ r.1) (h1 : r.1 < s.ny) (h2 : ∀ e, r.2 = some e → r.1 < e ∧ e < s.ny) (st : Nat) :
    (T.filter (fun p => inRange r p.1) = [] → plot1dToAxis (toLines (piece s r)) .none {} st = .error .valueError) ∧
    (T.filter (fun p => inRange r p.1) ≠ [] → ∃ d, plot1dToAxis (toLines (piece s r)) .none {} st = .ok d ∧
      d.strokes.length = s.rows.length ∧
      (∀ m < s.rows.length, (d.strokes.getD m []).flatMap Stroke.points =
        pySlice (List.zip s.x (s.rows.getD m [])) r.1 r.2 ∧ ∀ t ∈ d.strokes.getD m [], t.colour = .cycle (st + m)) ∧
      (match d.ticks with | none => [] | some k => List.zip k.at_ k.labels) =
        (T.filter fun p => inRange r p.1).map fun t => (s.x.getD t.1.toNat 0, t.2)) := by
  have e1 := pyIdx_of_range h0 (show r.1 ≤ (s.ny : Int) by omega)
  have hlen : ∀ y : List ℝ, y.length = s.ny → (pySlice y r.1 r.2).length = (pySlice s.x r.1 r.2).length := by
    intro y hy
    rw [length_pySlice, length_pySlice, hy, hx]
  have hxl : 0 < (pySlice s.x r.1 r.2).length := by
    rw [length_pySlice, hx]
    cases hr2 : r.2 with
    | none => simp only; omega
    | some e =>
      obtain ⟨h3, h4⟩ := h2 e hr2
      have e2 := pyIdx_of_range (show 0 ≤ e by omega) (show e ≤ (s.ny : Int) by omega)
      simp only; omega
  have hne : (toLines (piece s r)).x ≠ [] := by
    intro h
    rw [show (toLines (piece s r)).x = pySlice s.x r.1 r.2 from rfl] at h
    rw [h] at hxl
    simp at hxl
  have hlines : ∀ l ∈ (toLines (piece s r)).lines, l.2.length = (toLines (piece s r)).x.length := by
    intro l hl
    rw [toLines_piece] at hl ⊢
    simp only [List.map_map, List.mem_map, Function.comp_def] at hl
    obtain ⟨y, hy, rfl⟩ := hl
    exact hlen y (hr y hy)
  have htk : (toLines (piece s r)).ticks = some ((T.filter fun p => inRange r p.1).map fun p => (p.1 - r.1, p.2)) := by
    rw [toLines_piece, hT]
    rfl
  constructor
  · intro hem
    exact (C106_refused (toLines (piece s r)) .none {} st).2 hne (by simp) hlines (by rw [htk, hem]; rfl)
  · intro hem
    have hfit : ∀ p ∈ T.filter (fun p => inRange r p.1), 0 ≤ p.1 - r.1 ∧ p.1 - r.1 < (pySlice s.x r.1 r.2).length := by
      intro p hp
      obtain ⟨hp1, hp2⟩ := List.mem_filter.1 hp
      have := hTn p hp1
      unfold inRange at hp2
      rw [Bool.and_eq_true, decide_eq_true_eq] at hp2
      refine ⟨by omega, ?_⟩
      rw [length_pySlice, hx]
      cases hr2 : r.2 with
      | none => simp only; omega
      | some e =>
        obtain ⟨h3, h4⟩ := h2 e hr2
        have e2 := pyIdx_of_range (show 0 ≤ e by omega) (show e ≤ (s.ny : Int) by omega)
        have h5 := hp2.2
        rw [hr2] at h5
        simp only [decide_eq_true_eq] at h5
        simp only; omega
    have htf : TicksFit (toLines (piece s r)).ticks (toLines (piece s r)).x := by
      intro t ht
      rw [htk] at ht
      cases ht
      refine ⟨by simpa using hem, ?_⟩
      intro p hp
      obtain ⟨q, hq, rfl⟩ := List.mem_map.1 hp
      exact hfit q hq
    obtain ⟨d, k1, k2, k3, -, -, k4⟩ := C106_points (toLines (piece s r)) .none {} (by simp) rfl st hne hlines
      (by simp [wanted]) htf
    have hnl : (toLines (piece s r)).lines.length = s.rows.length := by simp [toLines_piece]
    refine ⟨d, k1, by rw [k2, hnl], ?_, ?_⟩
    · intro m hm
      have hm1 : m < d.strokes.length := by rw [k2, hnl]; exact hm
      have hline : (toLines (piece s r)).lines[m]? = some (none, pySlice (s.rows.getD m []) r.1 r.2) := by
        rw [toLines_piece]
        simp [hm]
      obtain ⟨g1, -, g2, -⟩ := k3 m d.strokes[m] none _ none (List.getElem?_eq_getElem hm1) hline
        (by simp [wanted, toLines_piece, hm])
      rw [List.getD_eq_getElem _ _ hm1]
      refine ⟨?_, fun t ht => g2 t ht⟩
      rw [List.flatMap_def, g1, List.flatten_splitBy, pySlice_zip]
      · rfl
      · rw [hx, List.getD_eq_getElem _ _ hm, hr _ (List.getElem_mem hm)]
    · obtain ⟨k, hk1, hk2, hk3, -⟩ := k4 _ htk
      rw [hk1]
      simp only
      rw [hk2]
      have hat : k.at_ = (T.filter fun p => inRange r p.1).map fun t => s.x.getD t.1.toNat 0 := by
        apply List.map_injective_iff.2 (Option.some_injective _)
        rw [hk3, List.map_map, List.map_map]
        apply List.map_congr_left
        intro p hp
        obtain ⟨f1, f2⟩ := hfit p hp
        simp only [Function.comp_def]
        have hlt : (p.1 - r.1).toNat < (pySlice s.x r.1 r.2).length := by omega
        obtain ⟨q1, q2⟩ := getElem_pySlice s.x r.1 r.2 _ hlt
        show (pySlice s.x r.1 r.2)[(p.1 - r.1).toNat]? = _
        rw [List.getElem?_eq_getElem hlt, q2]
        have hidx : pyIdx s.x.length r.1 + (p.1 - r.1).toNat = p.1.toNat := by rw [hx]; omega
        have hlt2 : p.1.toNat < s.x.length := by rw [← hidx]; exact q1
        rw [List.getD_eq_getElem _ _ hlt2]
        simp only [hidx]
      rw [hat, List.map_map]
      clear hat hk3 hk2 hk1 k4 k3 k2 k1 htf hfit htk hem
      induction T.filter fun p => inRange r p.1 with
      | nil => rfl
      | cons p l ih =>
        rw [List.map_cons, List.map_cons, List.map_cons, List.zip_cons_cons, ih]
        rfl

theorem map_of_forall₂ {α β γ : Type} {R : α → β → Prop} {l : List α} {m : List β} (h : List.Forall₂ R l m)
    (f : α → γ) (g : β → γ) (hfg : ∀ a ∈ l, ∀ b, R a b → g b = f a) : m.map g = l.map f := by
  induction h with
  | nil => rfl
  | cons h1 _ ih =>
    rw [List.map_cons, List.map_cons, hfg _ (by simp) _ h1, ih fun a ha b hab => hfg a (by simp [ha]) b hab]

theorem mem_of_forall₂ {α β : Type} {R : α → β → Prop} {l : List α} {m : List β} (h : List.Forall₂ R l m)
    (b : β) (hb : b ∈ m) : ∃ a ∈ l, R a b := by
  induction h with
  | nil => simp at hb
  | cons h1 _ ih =>
    rcases List.mem_cons.1 hb with rfl | hb
    · exact ⟨_, by simp, h1⟩
    · obtain ⟨a, ha, hab⟩ := ih hb
      exact ⟨a, by simp [ha], hab⟩

theorem plot1d_of (l : List (Int × Option Int)) (hl : l ≠ []) (f : Int × Option Int → Lines ℝ Unit)
    (hf : ∀ r ∈ l, (f r).x ≠ []) :
    ∃ g, plot1d (l.map f) .none {} = ((l.mapM fun r => plot1dToAxis (f r) .none {} 0) >>= fun d => .ok (g, d)) := by
  have hg : ∃ g, gridspec (l.map f) = .ok g := by
    have hm : ∀ l : List (Int × Option Int), (∀ r ∈ l, (f r).x ≠ []) → ∃ w, ((l.map f).mapM fun s : Lines ℝ Unit => do
        let m ← minMax s.x
        return m.2 - m.1 : Except Err (List ℝ)) = .ok w := by
      intro l hf
      induction l with
      | nil => exact ⟨[], rfl⟩
      | cons r l ih =>
        obtain ⟨w, hw⟩ := ih fun r hr => hf r (by simp [hr])
        obtain ⟨m, hm, -⟩ := minMax_ok (f r).x (hf r (by simp))
        refine ⟨(m.2 - m.1) :: w, ?_⟩
        rw [List.map_cons, List.mapM_cons, hm, hw]
        rfl
    obtain ⟨w, hw⟩ := hm l hf
    refine ⟨w.map (· / w.headD 0), ?_⟩
    unfold gridspec
    rw [hw]
    rfl
  obtain ⟨g, hg⟩ := hg
  refine ⟨g, ?_⟩
  unfold plot1d
  rw [if_neg (by simpa using hl), if_pos, hg, List.mapM_map]
  · rfl
  · cases l with
    | nil => exact absurd rfl hl
    | cons r l => simp

/-- A stretch of the path from point `i` to before point `j`, between neighbouring breaks. -/
def Stretch (n : Nat) (isBreak : Int → Prop) (i j : Int) : Prop :=
  (i = 0 ∨ isBreak i) ∧ (j = n ∨ isBreak j) ∧ i < j ∧ ∀ k, isBreak k → ¬ (i < k ∧ k < j)

theorem mem_ranges (n : Nat) (a : Int) (is : List Int) (hp : (a :: is).Pairwise (· < ·)) (hn : ∀ i ∈ a :: is, i < n)
    (i j : Int) : (∃ r ∈ rangesFrom a is, r.1 = i ∧ r.2.getD n = j) ↔
      i ∈ a :: is ∧ (j = n ∨ j ∈ is) ∧ i < j ∧ ∀ k ∈ is, ¬ (i < k ∧ k < j) := by
  induction is generalizing a with
  | nil =>
    have := hn a (by simp)
    simp only [rangesFrom, List.mem_singleton, exists_eq_left, Option.getD_none, List.not_mem_nil]
    constructor
    · rintro ⟨rfl, rfl⟩
      exact ⟨rfl, Or.inl rfl, this, by simp⟩
    · rintro ⟨rfl, h | h, -⟩
      · exact ⟨rfl, h.symm⟩
      · exact absurd h id
  | cons b is ih =>
    obtain ⟨h1, h2⟩ := List.pairwise_cons.1 hp
    have hab := h1 b (by simp)
    have hb := (List.pairwise_cons.1 h2).1
    have ih := ih b h2 fun i hi => hn i (by simp [hi])
    simp only [rangesFrom, List.mem_cons, exists_eq_or_imp, Option.getD_some, ih]
    constructor
    · rintro (⟨rfl, rfl⟩ | ⟨g1, g2, g3, g4⟩)
      · refine ⟨Or.inl rfl, Or.inr (Or.inl rfl), hab, ?_⟩
        rintro k (rfl | hk)
        · omega
        · have := hb k hk
          omega
      · refine ⟨Or.inr g1, g2.imp id Or.inr, g3, ?_⟩
        rintro k (rfl | hk)
        · have : k ≤ i := by
            rcases g1 with rfl | g1
            · exact le_rfl
            · exact le_of_lt (hb i g1)
          omega
        · exact g4 k hk
    · rintro ⟨rfl | g1, g2, g3, g4⟩
      · left
        refine ⟨rfl, ?_⟩
        have := g4 b (Or.inl rfl)
        rcases g2 with rfl | rfl | g2
        · have := hn b (by simp)
          omega
        · rfl
        · have := hb j g2
          omega
      · right
        refine ⟨g1, ?_, g3, fun k hk => g4 k (Or.inr hk)⟩
        rcases g2 with g2 | rfl | g2
        · exact Or.inl g2
        · exfalso
          rcases g1 with rfl | g1
          · omega
          · have := hb i g1
            omega
        · exact Or.inr g2

/-- Every stretch has a tick if and only if every range has. -/
theorem stretch_iff (n : Nat) (h0 : 0 < n) (T : List (Nat × String)) (hTn : ∀ t ∈ T, t.1 < n) (is : List Int)
    (hb : StrictBreaks n is) :
    (∀ i j, Stretch n (· ∈ is) i j → ∃ t ∈ T, i ≤ t.1 ∧ (t.1 : Int) < j) ↔
      ∀ r ∈ rangesFrom 0 is, (intTicks T).filter (fun p => inRange r p.1) ≠ [] := by
  have hp : ((0 : Int) :: is).Pairwise (· < ·) := List.pairwise_cons.2 ⟨fun i hi => (hb.2 i hi).1, hb.1⟩
  have hmem := mem_ranges n 0 is hp (by
    intro i hi
    rcases List.mem_cons.1 hi with rfl | hi
    · omega
    · exact (hb.2 i hi).2)
  constructor
  · intro h r hr' hem
    obtain ⟨m1, m2, m3, m4⟩ := (hmem r.1 (r.2.getD n)).1 ⟨r, hr', rfl, rfl⟩
    obtain ⟨t, ht, t1, t2⟩ := h _ _ ⟨by simpa using m1, m2, m3, m4⟩
    have := List.filter_eq_nil_iff.1 hem ((t.1 : Int), t.2) (List.mem_map.2 ⟨t, ht, rfl⟩)
    apply this
    unfold inRange
    rw [Bool.and_eq_true]
    refine ⟨by simpa using t1, ?_⟩
    cases hr2 : r.2 with
    | none => rfl
    | some e =>
      rw [hr2] at t2
      simpa using t2
  · rintro h i j ⟨s1, s2, s3, s4⟩
    obtain ⟨r, hr', rfl, rfl⟩ := (hmem i j).2 ⟨by simpa using s1, s2, s3, s4⟩
    obtain ⟨p, hp⟩ := List.exists_mem_of_ne_nil _ (h r hr')
    obtain ⟨p1, p2⟩ := List.mem_filter.1 hp
    obtain ⟨t, ht, rfl⟩ := List.mem_map.1 p1
    refine ⟨t, ht, ?_⟩
    unfold inRange at p2
    rw [Bool.and_eq_true, decide_eq_true_eq] at p2
    refine ⟨p2.1, ?_⟩
    cases hr2 : r.2 with
    | none =>
      have := hTn t ht
      show (t.1 : Int) < n
      omega
    | some e =>
      have := p2.2
      rw [hr2] at this
      simpa using this

/-- Splitting and drawing: it succeeds if and only if every stretch has a tick, and then everything is drawn. -/
theorem draw (s : Coll1D ℝ Unit) (h0 : 0 < s.ny) (hx : s.x.length = s.ny) (hne : s.rows ≠ [])
    (hr : ∀ y ∈ s.rows, y.length = s.ny) (T : List (Nat × String)) (hT : s.ticks = some (intTicks T))
    (hTs : T.Pairwise fun s t => s.1 ≤ t.1) (hTn : ∀ t ∈ T, t.1 < s.ny) (is : List Int) (hb : StrictBreaks s.ny is) :
    ((∃ r, (s.splitByIndices is >>= fun ps => plot1d (ps.map toLines) .none {}) = .ok r) ↔
      ∀ i j, Stretch s.ny (· ∈ is) i j → ∃ t ∈ T, i ≤ t.1 ∧ (t.1 : Int) < j) ∧
    ∀ w ds, (s.splitByIndices is >>= fun ps => plot1d (ps.map toLines) .none {}) = .ok (w, ds) →
      Complete s.x s.rows T ds ∧ ds.length = is.length + 1 ∧
      ∀ m < s.rows.length, ∀ k (hk : k < is.length), ((((ds.take (k + 1)).flatMap fun d =>
        (d.strokes.getD m []).flatMap Stroke.points).length : Nat) : Int) = is[k] := by
  have hp : ((0 : Int) :: is).Pairwise (· < ·) := List.pairwise_cons.2 ⟨fun i hi => (hb.2 i hi).1, hb.1⟩
  have hpos := fun r (hr : r ∈ rangesFrom 0 is) => range_pos hp le_rfl (by omega) (fun i hi => (hb.2 i hi).2) hr
  have hTi : ∀ t ∈ intTicks T, t.1 < s.ny := by
    intro t ht
    obtain ⟨q, hq, rfl⟩ := List.mem_map.1 ht
    have := hTn q hq
    show (q.1 : Int) < s.ny
    omega
  have hsub := fun r (hr' : r ∈ rangesFrom 0 is) => subplot s hx hr (intTicks T) hT hTi r (hpos r hr').1 (hpos r hr').2.1
    (hpos r hr').2.2 0
  have hxne : ∀ r ∈ rangesFrom 0 is, (toLines (piece s r)).x ≠ [] := by
    intro r hr' h
    obtain ⟨q0, q1, q2⟩ := hpos r hr'
    have h1 : (pySlice s.x r.1 r.2).length = 0 := by
      rw [show pySlice s.x r.1 r.2 = [] from h]
      rfl
    rw [length_pySlice, hx] at h1
    have e1 := pyIdx_of_range q0 (show r.1 ≤ (s.ny : Int) by omega)
    cases hr2 : r.2 with
    | none => rw [hr2] at h1; simp only at h1; omega
    | some e =>
      obtain ⟨q3, q4⟩ := q2 e hr2
      have e2 := pyIdx_of_range (show 0 ≤ e by omega) (show e ≤ (s.ny : Int) by omega)
      rw [hr2] at h1; simp only at h1; omega
  obtain ⟨g, hg⟩ := plot1d_of (rangesFrom 0 is) (rangesFrom_ne_nil _ _) (fun r => toLines (piece s r)) hxne
  have hmain : (s.splitByIndices is >>= fun ps => plot1d (ps.map toLines) .none {}) =
      (((rangesFrom 0 is).mapM fun r => plot1dToAxis (toLines (piece s r)) .none {} 0) >>= fun d => .ok (g, d)) := by
    rw [split_eq s hx hne is hb.valid, ← hg]
    show plot1d (((rangesFrom 0 is).map (piece s)).map toLines) .none {} = _
    rw [List.map_map]
    rfl
  rw [hmain]
  have hstretch := stretch_iff s.ny h0 T hTn is hb
  constructor
  · rw [hstretch]
    constructor
    · rintro ⟨res, hres⟩ r hr' hem
      obtain ⟨ds, hds, -⟩ := bind_ok hres
      rw [mapM_ok_iff] at hds
      have : ∀ {l : List (Int × Option Int)} {m : List (Drawn ℝ)},
          List.Forall₂ (fun r d => plot1dToAxis (toLines (piece s r)) .none {} 0 = .ok d) l m →
          ∀ r ∈ l, ∃ d, plot1dToAxis (toLines (piece s r)) .none {} 0 = .ok d := by
        intro l m h
        induction h with
        | nil => simp
        | cons h1 _ ih =>
          intro r hr
          rcases List.mem_cons.1 hr with rfl | hr
          · exact ⟨_, h1⟩
          · exact ih r hr
      obtain ⟨d, hd⟩ := this hds r hr'
      rw [(hsub r hr').1 hem] at hd
      cases hd
    · intro h
      have : ∃ ds, ((rangesFrom 0 is).mapM fun r => plot1dToAxis (toLines (piece s r)) .none {} 0) = .ok ds := by
        have key : ∀ l : List (Int × Option Int), (∀ r ∈ l, ∃ d, plot1dToAxis (toLines (piece s r)) .none {} 0 = .ok d) →
            ∃ ds, (l.mapM fun r => plot1dToAxis (toLines (piece s r)) .none {} 0) = .ok ds := by
          intro l
          induction l with
          | nil => intro _; exact ⟨[], rfl⟩
          | cons r l ih =>
            intro h
            obtain ⟨d, hd⟩ := h r (by simp)
            obtain ⟨ds, hds⟩ := ih fun r hr => h r (by simp [hr])
            refine ⟨d :: ds, ?_⟩
            rw [List.mapM_cons, hd, hds]
            rfl
        apply key
        intro r hr'
        obtain ⟨d, hd, -⟩ := (hsub r hr').2 (h r hr')
        exact ⟨d, hd⟩
      obtain ⟨ds, hds⟩ := this
      exact ⟨(g, ds), by rw [hds]; rfl⟩
  · intro w ds hres
    obtain ⟨ds', hds, h2⟩ := bind_ok hres
    cases h2
    rw [mapM_ok_iff] at hds
    have hok : ∀ r ∈ rangesFrom 0 is, ∀ d, plot1dToAxis (toLines (piece s r)) .none {} 0 = .ok d →
        d.strokes.length = s.rows.length ∧
      (∀ m < s.rows.length, (d.strokes.getD m []).flatMap Stroke.points =
        pySlice (List.zip s.x (s.rows.getD m [])) r.1 r.2 ∧ ∀ t ∈ d.strokes.getD m [], t.colour = .cycle m) ∧
      (match d.ticks with | none => [] | some k => List.zip k.at_ k.labels) =
        ((intTicks T).filter fun p => inRange r p.1).map fun t => (s.x.getD t.1.toNat 0, t.2) := by
      intro r hr' d hd
      by_cases hem : (intTicks T).filter (fun p => inRange r p.1) = []
      · rw [(hsub r hr').1 hem] at hd
        cases hd
      · obtain ⟨d', hd', q1, q2, q3⟩ := (hsub r hr').2 hem
        rw [hd] at hd'
        cases hd'
        refine ⟨q1, ?_, q3⟩
        intro m hm
        have := q2 m hm
        rwa [Nat.zero_add] at this
    have hzip : ∀ m < s.rows.length, (List.zip s.x (s.rows.getD m [])).length = s.ny := by
      intro m hm
      rw [List.length_zip, hx, List.getD_eq_getElem _ _ hm, hr _ (List.getElem_mem hm), Nat.min_self]
    refine ⟨⟨?_, ?_, ?_, ?_⟩, ?_, ?_⟩
    · intro d hd
      obtain ⟨r, hr', h⟩ := mem_of_forall₂ hds d hd
      exact (hok r hr' d h).1
    · intro m hm
      rw [List.flatMap_def, map_of_forall₂ hds (fun r => pySlice (List.zip s.x (s.rows.getD m [])) r.1 r.2) _
        fun r hr' d hd => ((hok r hr' d hd).2.1 m hm).1]
      rw [flatten_slices _ s.ny (by rw [hzip m hm]) 0 is hb.valid.good]
      rfl
    · intro d hd m hm t ht
      obtain ⟨r, hr', h⟩ := mem_of_forall₂ hds d hd
      exact ((hok r hr' d h).2.1 m hm).2 t ht
    · rw [List.flatMap_def, map_of_forall₂ hds (fun r => ((intTicks T).filter fun p => inRange r p.1).map
        fun t => (s.x.getD t.1.toNat 0, t.2)) _ fun r hr' d hd => (hok r hr' d hd).2.2]
      rw [← Function.comp_def (List.map _), ← List.map_map, ← List.map_flatten, flatten_filter]
      · rw [List.filter_eq_self.2]
        · unfold intTicks
          rw [List.map_map]
          rfl
        · intro p hp
          obtain ⟨q, -, rfl⟩ := List.mem_map.1 hp
          simp
      · unfold intTicks
        rw [List.pairwise_map]
        exact hTs.imp fun h => by simpa using h
      · exact hp.imp fun h => le_of_lt h
    · rw [← hds.length_eq, length_rangesFrom]
    · intro m hm k hk
      rw [List.flatMap_def, List.length_flatten, List.map_map, List.map_take]
      rw [map_of_forall₂ hds (fun r => (pySlice (List.zip s.x (s.rows.getD m [])) r.1 r.2).length) _
        fun r hr' d hd => by simp only [Function.comp_def]; rw [((hok r hr' d hd).2.1 m hm).1]]
      have := sum_lengths_take (List.zip s.x (s.rows.getD m [])) s.ny (by rw [hzip m hm]) 0 is hb.valid.good k hk
      rw [this]
      omega

end Draw

/-! ## C109 -/

section C109

/-- Phonons with at least one q-point and mode, and as many frequencies as there should be. -/
structure Bands.WF (b : Bands) : Prop where
  qpts : b.qpts ≠ []
  modes : 0 < b.nModes
  rows : b.freqs.length = b.qpts.length
  row : ∀ r ∈ b.freqs, r.length = b.nModes

/-- The energies of mode `m` along the path. -/
noncomputable def line (unit : ℝ) (b : Bands) (m : Nat) : List ℝ := b.freqs.map fun r => r.getD m 0 * unit

/-- The lines to be drawn. -/
noncomputable def lines (unit : ℝ) (b : Bands) : List (List ℝ) := (List.range b.nModes).map (line unit b)

/-- The phonons that are drawn: reordered if wanted. -/
def Ordered (reorder : Bands → Except Err Bands) (a : Args) (b0 b : Bands) : Prop :=
  (a.reorder = true → reorder b0 = .ok b) ∧ (a.reorder = false → b = b0)

theorem maybeReorder_of {reorder : Bands → Except Err Bands} {a : Args} {b0 b : Bands} (h : Ordered reorder a b0 b) :
    maybeReorder reorder a b0 = .ok b := by
  unfold maybeReorder
  cases ha : a.reorder with
  | true => simpa using h.1 ha
  | false => simp [h.2 ha]

/-- There is a gap before point `k`: the step to it is more than `t` times the median step. -/
def IsGap (x : List ℝ) (t : ℝ) (k : Int) : Prop :=
  ∃ (i : Nat) (h : i + 1 < x.length), k = i + 1 ∧ ∀ m, IsMedianStep x m → t * m < x[i + 1] - x[i]

theorem abscissa_sorted (recip : M3 ℝ) (qpts : List (V3 ℝ)) (h : qpts ≠ []) :
    (calcAbscissa recip qpts).Pairwise (· ≤ ·) := by
  have hl := (C34_length_and_start recip qpts h).1
  rw [List.pairwise_iff_getElem]
  intro i j hi hj hij
  obtain ⟨k, rfl⟩ : ∃ k, j = i + k := ⟨j - i, by omega⟩
  clear hij
  induction k with
  | zero => exact le_rfl
  | succ k ih =>
    have h1 := C34_monotone recip qpts (i + k) (by omega)
    rw [List.getD_eq_getElem _ _ (by omega), List.getD_eq_getElem _ _ (by omega)] at h1
    exact (ih (by omega)).trans h1

theorem isGap_iff (x : List ℝ) (hx : x.Pairwise (· ≤ ·)) (t : ℝ) (k : Int) : IsGap x t k ↔ k ∈ breakpoints x t := by
  rw [mem_breakpoints x t (median_nonneg_of_sorted x hx)]
  unfold IsGap
  constructor
  · rintro ⟨i, h, rfl, hm⟩
    obtain ⟨m, hmm⟩ := exists_isMedianStep x (by omega)
    refine ⟨i, h, rfl, ?_⟩
    rw [npMedian_eq_of_isMedianStep x m hmm]
    exact hm m hmm
  · rintro ⟨i, h, rfl, hm⟩
    refine ⟨i, h, rfl, ?_⟩
    intro m hmm
    rw [← npMedian_eq_of_isMedianStep x m hmm]
    exact hm

theorem getDispersion_ok (recip : M3 ℝ) (table : List (String × V3 ℝ)) (coordText : V3 ℝ → String) (unit : ℝ)
    (b : Bands) (hb : b.WF) : getDispersion recip table coordText unit b = .ok ⟨calcAbscissa recip b.qpts, b.qpts.length,
      lines unit b, some (intTicks (qpointLabels table coordText b.qpts)), ()⟩ := by
  unfold getDispersion Coll1D.new
  rw [if_neg, if_pos]
  · rfl
  · exact Or.inl (C34_length_and_start recip b.qpts hb.qpts).1
  · have := hb.modes
    simp
    omega

/-- The common part of the two theorems below. -/
theorem main_of (recip : M3 ℝ) (b : Bands) (hb : b.WF) (unit : ℝ) (T : List (Nat × String))
    (hTs : T.Pairwise fun s t => s.1 ≤ t.1) (hTn : ∀ t ∈ T, t.1 < b.qpts.length) (is : List Int)
    (his : StrictBreaks b.qpts.length is) :
    let res := (⟨calcAbscissa recip b.qpts, b.qpts.length, lines unit b, some (intTicks T), ()⟩ : Coll1D ℝ Unit).splitByIndices
      is >>= fun ps => plot1d (ps.map toLines) .none {}
    ((∃ r, res = .ok r) ↔ ∀ i j, Stretch b.qpts.length (· ∈ is) i j → ∃ t ∈ T, i ≤ t.1 ∧ (t.1 : Int) < j) ∧
    ∀ w ds, res = .ok (w, ds) → Complete (calcAbscissa recip b.qpts) (lines unit b) T ds ∧ ds.length = is.length + 1 ∧
      ∀ m < b.nModes, ∀ k (hk : k < is.length), ((((ds.take (k + 1)).flatMap fun d =>
        (d.strokes.getD m []).flatMap Stroke.points).length : Nat) : Int) = is[k] := by
  have hn : 0 < b.qpts.length := List.length_pos_iff.2 hb.qpts
  have hm := hb.modes
  have := draw ⟨calcAbscissa recip b.qpts, b.qpts.length, lines unit b, some (intTicks T), ()⟩ hn
    (C34_length_and_start recip b.qpts hb.qpts).1 (by simp [lines]; omega) (by
      intro y hy
      obtain ⟨m, -, rfl⟩ := List.mem_map.1 hy
      simp [line, hb.rows]) T rfl hTs hTn is his
  simpa [lines] using this

/-- **C109**: phonons read from a file are drawn if and only if every stretch between gaps has a labelled q-point. What
is drawn then: every mode at every q-point, once, over its distance along the path, all labels at their q-points, and a
new subplot at every gap.  Missing: paths with stretches without labels (`C109_stretch_without_label`). -/
theorem C109_file_partial (recip : M3 ℝ) (table : List (String × V3 ℝ)) (coordText : V3 ℝ → String) (unit : ℝ)
    (reorder : Bands → Except Err Bands) (a : Args) (d : Data) (b0 b : Bands)
    (hd : d = .modes b0 ∨ d = .frequencies b0 ∧ a.reorder = false) (hr : Ordered reorder a b0 b) (hb : b.WF) :
    ((∃ r, dispersionMain recip table coordText unit reorder a d = .ok r) ↔
      ∀ i j, Stretch b.qpts.length (IsGap (calcAbscissa recip b.qpts) a.btol) i j →
        ∃ k, Labelled b.qpts k ∧ i ≤ k ∧ (k : Int) < j) ∧
    ∀ w ds, dispersionMain recip table coordText unit reorder a d = .ok (w, ds) →
      Complete (calcAbscissa recip b.qpts) (lines unit b) (qpointLabels table coordText b.qpts) ds ∧
      ∃ gaps : List Int, gaps.Pairwise (· < ·) ∧ (∀ k, k ∈ gaps ↔ IsGap (calcAbscissa recip b.qpts) a.btol k) ∧
        ds.length = gaps.length + 1 ∧ ∀ m < b.nModes, ∀ k (hk : k < gaps.length), ((((ds.take (k + 1)).flatMap fun d =>
          (d.strokes.getD m []).flatMap Stroke.points).length : Nat) : Int) = gaps[k] := by
  have hmain : dispersionMain recip table coordText unit reorder a d =
      ((⟨calcAbscissa recip b.qpts, b.qpts.length, lines unit b, some (intTicks (qpointLabels table coordText b.qpts)),
        ()⟩ : Coll1D ℝ Unit).splitByIndices (breakpoints (calcAbscissa recip b.qpts) a.btol) >>= fun ps =>
          plot1d (ps.map toLines) .none {}) := by
    have h1 : checkData a d = .ok () := by
      rcases hd with rfl | ⟨rfl, h⟩
      · rfl
      · simp [checkData, h]
    have h2 : bandsOf a d = .ok (b0, none, .btol a.btol) := by
      rcases hd with rfl | ⟨rfl, h⟩ <;> rfl
    unfold dispersionMain
    rw [h1, h2]
    simp only [bind, Except.bind]
    rw [maybeReorder_of hr]
    simp only
    rw [getDispersion_ok recip table coordText unit b hb]
    rfl
  have hsorted := abscissa_sorted recip b.qpts hb.qpts
  have hlen := (C34_length_and_start recip b.qpts hb.qpts).1
  obtain ⟨l1, l2⟩ := C35_labelled_points table coordText b.qpts
  have hbr : StrictBreaks b.qpts.length (breakpoints (calcAbscissa recip b.qpts) a.btol) := by
    refine ⟨(whereTrue_pairwise _ _).1, ?_⟩
    intro i hi
    rw [mem_breakpoints _ _ (median_nonneg_of_sorted _ hsorted)] at hi
    obtain ⟨k, hk, rfl, -⟩ := hi
    omega
  have key := main_of recip b hb unit (qpointLabels table coordText b.qpts)
    ((List.pairwise_map.1 l1).imp fun h => le_of_lt h)
    (fun t ht => ((l2 t.1).1 (List.mem_map.2 ⟨t, ht, rfl⟩)).1) _ hbr
  rw [hmain]
  obtain ⟨k1, k2⟩ := key
  refine ⟨?_, ?_⟩
  · rw [k1]
    have hgap : IsGap (calcAbscissa recip b.qpts) a.btol = (· ∈ breakpoints (calcAbscissa recip b.qpts) a.btol) := by
      funext k
      exact propext (isGap_iff _ hsorted _ _)
    rw [hgap]
    constructor
    · intro h i j hs
      obtain ⟨t, ht, h1, h2⟩ := h i j hs
      exact ⟨t.1, (l2 t.1).1 (List.mem_map.2 ⟨t, ht, rfl⟩), h1, h2⟩
    · intro h i j hs
      obtain ⟨k, hk, h1, h2⟩ := h i j hs
      obtain ⟨t, ht, rfl⟩ := List.mem_map.1 ((l2 k).2 hk)
      exact ⟨t, ht, h1, h2⟩
  · intro w ds h
    obtain ⟨c1, c2, c3⟩ := k2 w ds h
    exact ⟨c1, _, hbr.1, fun k => (isGap_iff _ hsorted _ _).symm, c2, c3⟩

/-- **C109**: for force constants the band structure along the path of Seekpath is always drawn: the path with gamma
points repeated, every label of the path at its point, and a new subplot exactly where two neighbouring points have
different labels. -/
theorem C109_force_constants (recip : M3 ℝ) (table : List (String × V3 ℝ)) (coordText : V3 ℝ → String) (unit : ℝ)
    (reorder : Bands → Except Err Bands) (a : Args) (kpts : List (V3 ℝ)) (labels : List String)
    (run : List (V3 ℝ) → Except Err Bands) (b0 b : Bands) (hlen : kpts.length = labels.length)
    (hg : ∀ i, Cli.Dup labels i → kpts[i]? = some ⟨0, 0, 0⟩) (l0 : String) (hl0 : labels[0]? = some l0) (hne : l0 ≠ "")
    (hrun : run ((Cli.sources labels).map fun i => kpts.getD i ⟨0, 0, 0⟩) = .ok b0) (hr : Ordered reorder a b0 b)
    (hq : b.qpts = (Cli.sources labels).map fun i => kpts.getD i ⟨0, 0, 0⟩) (hb : b.WF) :
    ∃ w ds T, dispersionMain recip table coordText unit reorder a (.fc kpts labels run) = .ok (w, ds) ∧
      Complete (calcAbscissa recip b.qpts) (lines unit b) T ds ∧
      (∀ i s, (i, s) ∈ T ↔ ∃ j l, (Cli.sources labels)[i]? = some j ∧ labels[j]? = some l ∧ l ≠ "" ∧ s = Cli.shown l) ∧
      ∃ breaks : List Int, breaks.Pairwise (· < ·) ∧
        (∀ k, k ∈ breaks ↔ ∃ (i j j' : Nat) (l l' : String), k = (i : Int) + 1 ∧ (Cli.sources labels)[i]? = some j ∧
          (Cli.sources labels)[i + 1]? = some j' ∧ labels[j]? = some l ∧ labels[j']? = some l' ∧ l ≠ "" ∧ l' ≠ "" ∧
          l ≠ l') ∧
        ds.length = breaks.length + 1 ∧ ∀ m < b.nModes, ∀ k (hk : k < breaks.length), ((((ds.take (k + 1)).flatMap fun d =>
          (d.strokes.getD m []).flatMap Stroke.points).length : Nat) : Int) = breaks[k] := by
  obtain ⟨g1, g2, g3⟩ := Cli.C71_gamma (⟨0, 0, 0⟩ : V3 ℝ) kpts labels hlen hg
  have hk : (Cli.insertGamma (⟨0, 0, 0⟩ : V3 ℝ) kpts labels).1 = (Cli.sources labels).map fun i => kpts.getD i ⟨0, 0, 0⟩ := by
    apply List.ext_getElem
    · simp [g1]
    · intro m h1 h2
      have hm : m < (Cli.sources labels).length := by omega
      obtain ⟨q1, q2, -⟩ := g3 m _ (List.getElem?_eq_getElem hm)
      rw [List.getElem?_eq_getElem h1, List.getElem?_eq_getElem (by omega)] at q2
      rw [List.getElem_map, List.getD_eq_getElem _ _ (by omega)]
      exact Option.some.inj q2
  have hlab : ∀ (i : Nat) (l : String), (Cli.insertGamma (⟨0, 0, 0⟩ : V3 ℝ) kpts labels).2[i]? = some l ↔
      ∃ j : Nat, (Cli.sources labels)[i]? = some j ∧ labels[j]? = some l := by
    intro i l
    constructor
    · intro h
      have hm : i < (Cli.sources labels).length := by
        rw [← g2]
        exact (List.getElem?_eq_some_iff.1 h).1
      refine ⟨_, List.getElem?_eq_getElem hm, ?_⟩
      rw [← (g3 i _ (List.getElem?_eq_getElem hm)).2.2, h]
    · rintro ⟨j, h1, h2⟩
      rw [(g3 i j h1).2.2, h2]
  generalize hL : (Cli.insertGamma (⟨0, 0, 0⟩ : V3 ℝ) kpts labels).2 = L at *
  have hqL : b.qpts.length = L.length := by rw [hq, List.length_map, g2]
  obtain ⟨t1, t2⟩ := Cli.C71_ticks L
  obtain ⟨b1, b2⟩ := Cli.C71_breaks L
  have hTn : ∀ t ∈ Cli.tickLabels L, t.1 < b.qpts.length := by
    intro t ht
    obtain ⟨l, hl, -⟩ := (t2 t.1 t.2).1 ht
    rw [hqL]
    exact (List.getElem?_eq_some_iff.1 hl).1
  have hbr : StrictBreaks b.qpts.length ((Cli.breakPoints L).map Int.ofNat) := by
    refine ⟨?_, ?_⟩
    · rw [List.pairwise_map]
      exact b1.imp fun h => by simpa using h
    · intro i hi
      obtain ⟨k, hk, rfl⟩ := List.mem_map.1 hi
      obtain ⟨j, x, y, rfl, -, hy, -⟩ := (b2 k).1 hk
      have := (List.getElem?_eq_some_iff.1 hy).1
      rw [hqL]
      simp only [Int.ofNat_eq_natCast]
      omega
  have hL0 : L[0]? = some l0 := by
    rw [hlab]
    refine ⟨0, ?_, hl0⟩
    have : 0 < labels.length := (List.getElem?_eq_some_iff.1 hl0).1
    unfold Cli.sources
    obtain ⟨n, hn⟩ : ∃ n, labels.length = n + 1 := ⟨labels.length - 1, by omega⟩
    rw [hn, List.range_succ_eq_map, List.flatMap_cons, if_neg (fun h => absurd h.1 (by omega))]
    rfl
  obtain ⟨k1, k2⟩ := main_of recip b hb unit (Cli.tickLabels L) ((List.pairwise_map.1 t1).imp fun h => le_of_lt h) hTn _ hbr
  have hmain : dispersionMain recip table coordText unit reorder a (.fc kpts labels run) =
      ((⟨calcAbscissa recip b.qpts, b.qpts.length, lines unit b, some (intTicks (Cli.tickLabels L)),
        ()⟩ : Coll1D ℝ Unit).splitByIndices ((Cli.breakPoints L).map Int.ofNat) >>= fun ps =>
          plot1d (ps.map toLines) .none {}) := by
    have h2 : bandsOf a (.fc kpts labels run) = .ok (b0, some (Cli.tickLabels L), .indices (Cli.breakPoints L)) := by
      unfold bandsOf bandsFromForceConstants
      dsimp only
      rw [hL, hk, hrun]
      rfl
    unfold dispersionMain
    rw [h2, show checkData a (.fc kpts labels run) = .ok () from rfl]
    simp only [bind, Except.bind]
    rw [maybeReorder_of hr]
    simp only
    rw [getDispersion_ok recip table coordText unit b hb]
    have hset : setLabels ⟨calcAbscissa recip b.qpts, b.qpts.length, lines unit b,
        some (intTicks (qpointLabels table coordText b.qpts)), ()⟩ (some (Cli.tickLabels L)) =
        ⟨calcAbscissa recip b.qpts, b.qpts.length, lines unit b, some (intTicks (Cli.tickLabels L)), ()⟩ := by
      cases hT : Cli.tickLabels L with
      | nil =>
        have := (t2 0 (Cli.shown l0)).2 ⟨l0, hL0, hne, rfl⟩
        rw [hT] at this
        simp at this
      | cons p l => rfl
    simp only
    rw [hset]
    rfl
  rw [← hmain] at k1 k2
  obtain ⟨⟨w, ds⟩, hres⟩ := k1.2 (by
    rintro i j ⟨s1, -, s3, -⟩
    have hi : ∃ k : Nat, i = k ∧ ∃ l, L[k]? = some l ∧ l ≠ "" := by
      rcases s1 with rfl | s1
      · exact ⟨0, rfl, l0, hL0, hne⟩
      · obtain ⟨k, hk, rfl⟩ := List.mem_map.1 s1
        obtain ⟨j, x, y, rfl, -, hy, -, hy', -⟩ := (b2 k).1 hk
        exact ⟨j + 1, rfl, y, hy, hy'⟩
    obtain ⟨k, rfl, l, hl, hl'⟩ := hi
    exact ⟨(k, Cli.shown l), (t2 k _).2 ⟨l, hl, hl', rfl⟩, le_rfl, s3⟩)
  obtain ⟨c1, c2, c3⟩ := k2 w ds hres
  refine ⟨w, ds, _, hres, c1, ?_, _, hbr.1, ?_, c2, c3⟩
  · intro i s
    rw [t2]
    constructor
    · rintro ⟨l, h1, h2, h3⟩
      obtain ⟨j, h4, h5⟩ := (hlab i l).1 h1
      exact ⟨j, l, h4, h5, h2, h3⟩
    · rintro ⟨j, l, h4, h5, h2, h3⟩
      exact ⟨l, (hlab i l).2 ⟨j, h4, h5⟩, h2, h3⟩
  · intro k
    constructor
    · intro h
      obtain ⟨k, hk, rfl⟩ := List.mem_map.1 h
      obtain ⟨i, l, l', rfl, h1, h2, h3, h4, h5⟩ := (b2 k).1 hk
      obtain ⟨j, q1, q2⟩ := (hlab _ _).1 h1
      obtain ⟨j', q3, q4⟩ := (hlab _ _).1 h2
      exact ⟨i, j, j', l, l', by simp, q1, q3, q2, q4, h3, h4, h5⟩
    · rintro ⟨i, j, j', l, l', rfl, q1, q3, q2, q4, h3, h4, h5⟩
      exact List.mem_map.2 ⟨i + 1, (b2 _).2 ⟨i, l, l', rfl, (hlab _ _).2 ⟨j, q1, q2⟩, (hlab _ _).2 ⟨j', q3, q4⟩, h3, h4,
        h5⟩, by simp⟩

/-- **C109**: phonons read from a file with at most one gap are always drawn. -/
theorem C109_one_gap (recip : M3 ℝ) (table : List (String × V3 ℝ)) (coordText : V3 ℝ → String) (unit : ℝ)
    (reorder : Bands → Except Err Bands) (a : Args) (d : Data) (b0 b : Bands)
    (hd : d = .modes b0 ∨ d = .frequencies b0 ∧ a.reorder = false) (hr : Ordered reorder a b0 b) (hb : b.WF)
    (h1 : ∀ k k', IsGap (calcAbscissa recip b.qpts) a.btol k → IsGap (calcAbscissa recip b.qpts) a.btol k' → k = k') :
    ∃ w ds, dispersionMain recip table coordText unit reorder a d = .ok (w, ds) ∧
      Complete (calcAbscissa recip b.qpts) (lines unit b) (qpointLabels table coordText b.qpts) ds := by
  obtain ⟨k1, k2⟩ := C109_file_partial recip table coordText unit reorder a d b0 b hd hr hb
  have hn : 0 < b.qpts.length := List.length_pos_iff.2 hb.qpts
  obtain ⟨⟨w, ds⟩, h⟩ := k1.2 (by
    rintro i j ⟨s1, s2, s3, -⟩
    rcases s1 with rfl | s1
    · exact ⟨0, ⟨hn, Or.inl rfl⟩, by simp, by simpa using s3⟩
    · rcases s2 with rfl | s2
      · obtain ⟨t, -, rfl, -⟩ := s1
        exact ⟨b.qpts.length - 1, ⟨by omega, Or.inr (Or.inl (by omega))⟩, by omega, by omega⟩
      · exact absurd (h1 i j s1 s2) (ne_of_lt s3))
  exact ⟨w, ds, h, (k2 w ds h).1⟩

/-- **C109**: reordering needs eigenvectors. -/
theorem C109_reorder_refused (recip : M3 ℝ) (table : List (String × V3 ℝ)) (coordText : V3 ℝ → String) (unit : ℝ)
    (reorder : Bands → Except Err Bands) (a : Args) (b : Bands) (h : a.reorder = true) :
    dispersionMain recip table coordText unit reorder a (.frequencies b) = .error .typeError := by
  unfold dispersionMain
  rw [show checkData a (.frequencies b) = .error .typeError by simp [checkData, h]]
  rfl

/-- **C109**: reordering that only permutes the frequencies at each q-point does not change the energies drawn there. -/
theorem C109_reorder_energies (unit : ℝ) (b0 b : Bands) (hb : b.WF) (hq : b.qpts.length = b0.qpts.length)
    (hp : ∀ k : Nat, (b.freqs.getD k []).Perm (b0.freqs.getD k [])) (k : Nat) (hk : k < b0.qpts.length) :
    ((lines unit b).map fun y => y.getD k 0).Perm ((b0.freqs.getD k []).map (· * unit)) := by
  have hkb : k < b.freqs.length := by rw [hb.rows, hq]; exact hk
  have e : ((lines unit b).map fun y => y.getD k 0) = (b.freqs.getD k []).map (· * unit) := by
    apply List.ext_getElem
    · simp only [lines, List.length_map, List.length_range]
      rw [List.getD_eq_getElem _ _ hkb]
      exact (hb.row _ (List.getElem_mem _)).symm
    · intro m h1 h2
      rw [List.getD_eq_getElem _ _ hkb] at h2
      simp only [lines, line, List.getElem_map, List.getElem_range]
      rw [List.getD_eq_getElem _ _ (by simpa using hkb)]
      simp only [List.getElem_map]
      rw [List.getD_eq_getElem _ _ (by simpa using h2)]
      simp [List.getElem?_eq_getElem hkb]
  rw [e]
  exact (hp k).map _

/-! Examples -/

/-- Unit cell vectors of length one. -/
def unitM : M3 ℝ := ⟨⟨1, 0, 0⟩, ⟨0, 1, 0⟩, ⟨0, 0, 1⟩⟩

/-- Six q-points on a line, in three pairs. -/
noncomputable def pairs : List (V3 ℝ) :=
  [⟨1 / 8, 0, 0⟩, ⟨1 / 4, 0, 0⟩, ⟨9 / 2, 0, 0⟩, ⟨37 / 8, 0, 0⟩, ⟨71 / 8, 0, 0⟩, ⟨9, 0, 0⟩]

/-- One mode at these q-points. -/
noncomputable def pairBands : Bands := ⟨pairs, 1, [[1], [2], [3], [4], [5], [6]]⟩

theorem pairBands_wf : pairBands.WF := by
  constructor <;> simp [pairBands, pairs]

theorem eighth_le (x : ℝ) (m : ℤ) (hx : x = m / 8) (hm : ¬ (8 : ℤ) ∣ m) (n : ℤ) : 1 / 8 ≤ |x - n| := by
  have h : x - n = ((m - 8 * n : ℤ) : ℝ) / 8 := by
    rw [hx]
    push_cast
    ring
  have h1 : (1 : ℤ) ≤ |m - 8 * n| := Int.one_le_abs fun h => hm ⟨n, by omega⟩
  have h2 : (1 : ℝ) ≤ |((m - 8 * n : ℤ) : ℝ)| := by exact_mod_cast h1
  rw [h, abs_div, abs_of_pos (by norm_num : (0 : ℝ) < 8)]
  linarith

theorem rint_zero' : rint (0 : ℝ) = 0 := by
  have := rint_intCast (K := ℝ) 0
  simpa using this

theorem sumAbs_rem (x : ℝ) (m : ℤ) (hx : x = m / 8) (hm : ¬ (8 : ℤ) ∣ m) :
    1 / 8 ≤ sumAbs (rem (⟨x, 0, 0⟩ : V3 ℝ)) := by
  have := eighth_le x m hx hm (rint x)
  simpa [sumAbs, rem, rint_zero'] using this

theorem step_axis (x : ℝ) (m : ℤ) (hx : x = m / 8) (hm : ¬ (8 : ℤ) ∣ m) (h0 : 0 ≤ x) :
    stepLength unitM ⟨x, 0, 0⟩ = x := by
  unfold stepLength
  rw [if_neg (fun h => absurd h.2 (by have := sumAbs_rem x m hx hm; linarith))]
  simp [toCart, unitM, norm3, dot, Real.sqrt_mul_self h0]

theorem abscissa_pairs : calcAbscissa unitM pairs = [0, 1 / 8, 35 / 8, 36 / 8, 70 / 8, 71 / 8] := by
  have h1 := step_axis (1 / 8) 1 (by norm_num) (by decide) (by norm_num)
  have h2 := step_axis (17 / 4) 34 (by norm_num) (by decide) (by norm_num)
  have e : (diffs pairs).map (stepLength unitM) = [1 / 8, 17 / 4, 1 / 8, 17 / 4, 1 / 8] := by
    unfold pairs
    simp only [diffs, sub, sub_self, List.map_cons, List.map_nil]
    rw [show (1 / 4 - 1 / 8 : ℝ) = 1 / 8 by norm_num, show (9 / 2 - 1 / 4 : ℝ) = 17 / 4 by norm_num,
      show (37 / 8 - 9 / 2 : ℝ) = 1 / 8 by norm_num, show (71 / 8 - 37 / 8 : ℝ) = 17 / 4 by norm_num,
      show (9 - 71 / 8 : ℝ) = 1 / 8 by norm_num, h1, h2]
  unfold calcAbscissa
  rw [e]
  simp only [List.scanl_cons, List.scanl_nil]
  norm_num

theorem median_pairs : IsMedianStep (calcAbscissa unitM pairs) (1 / 8) := by
  rw [abscissa_pairs]
  refine ⟨[1 / 8, 1 / 8, 1 / 8, 17 / 4, 17 / 4], by simp, ?_, ?_, by norm_num⟩
  · norm_num [List.pairwise_cons]
  · have e : (List.ofFn fun i : Fin (([0, 1 / 8, 35 / 8, 36 / 8, 70 / 8, 71 / 8] : List ℝ).length - 1) =>
        ([0, 1 / 8, 35 / 8, 36 / 8, 70 / 8, 71 / 8] : List ℝ)[i.val + 1]'(by omega) -
          ([0, 1 / 8, 35 / 8, 36 / 8, 70 / 8, 71 / 8] : List ℝ)[i.val]'(by omega)) =
        [1 / 8, 17 / 4, 1 / 8, 17 / 4, 1 / 8] := by
      apply List.ext_getElem
      · simp
      · intro i h1 h2
        simp only [List.length_cons, List.length_nil] at h2
        interval_cases i <;> norm_num
    rw [e]
    have f : ∀ a c : ℝ, [a, a, a, c, c].Perm [a, c, a, c, a] := by
      intro a c
      refine List.Perm.cons _ ?_
      refine (List.perm_append_comm (l₁ := [a, a]) (l₂ := [c, c])).trans ?_
      exact List.Perm.cons _ (List.perm_append_comm (l₁ := [c]) (l₂ := [a, a])|>.trans (List.Perm.cons _ (List.Perm.swap _ _ _)))
    exact f _ _

theorem gap_pairs (k : Int) : IsGap (calcAbscissa unitM pairs) 10 k ↔ k = 2 ∨ k = 4 := by
  have hm : ∀ m, IsMedianStep (calcAbscissa unitM pairs) m → m = 1 / 8 := by
    intro m h
    rw [← npMedian_eq_of_isMedianStep _ m h, npMedian_eq_of_isMedianStep _ _ median_pairs]
  unfold IsGap
  constructor
  · rintro ⟨i, h, rfl, hg⟩
    have hg := hg _ median_pairs
    simp only [abscissa_pairs] at h hg
    simp only [List.length_cons, List.length_nil] at h
    have : i < 5 := by omega
    interval_cases i <;> norm_num at hg <;> norm_num
  · rintro (rfl | rfl)
    · refine ⟨1, by simp [abscissa_pairs], by norm_num, ?_⟩
      intro m h
      rw [hm m h]
      simp only [abscissa_pairs]
      norm_num
    · refine ⟨3, by simp [abscissa_pairs], by norm_num, ?_⟩
      intro m h
      rw [hm m h]
      simp only [abscissa_pairs]
      norm_num

/-- **C109**: phonons in three pairs of q-points along a line, with gaps between the pairs, cannot be drawn: there is no
labelled q-point in the middle part. -/
theorem C109_stretch_without_label (table : List (String × V3 ℝ)) (coordText : V3 ℝ → String) (unit : ℝ)
    (reorder : Bands → Except Err Bands) : pairBands.WF ∧ ∃ e,
      dispersionMain unitM table coordText unit reorder ⟨false, 10⟩ (.modes pairBands) = .error e := by
  refine ⟨pairBands_wf, ?_⟩
  have h := (C109_file_partial unitM table coordText unit reorder ⟨false, 10⟩ (.modes pairBands) pairBands pairBands
    (Or.inl rfl) ⟨by simp, by simp⟩ pairBands_wf).1
  cases hr : dispersionMain unitM table coordText unit reorder ⟨false, 10⟩ (.modes pairBands) with
  | error e => exact ⟨e, rfl⟩
  | ok r =>
    obtain ⟨k, ⟨hk, hl⟩, h1, h2⟩ := h.1 ⟨r, hr⟩ 2 4 ⟨Or.inr ((gap_pairs 2).2 (Or.inl rfl)),
      Or.inr ((gap_pairs 4).2 (Or.inr rfl)), by norm_num, by
        intro k hk
        rcases (gap_pairs k).1 hk with rfl | rfl <;> norm_num⟩
    exfalso
    have hk4 : k < 4 := by omega
    have hk2 : 2 ≤ k := by omega
    have g : ∀ (x : ℝ) (m : ℤ), x = m / 8 → ¬ (8 : ℤ) ∣ m → ¬ isGamma (⟨x, 0, 0⟩ : V3 ℝ) = true := by
      intro x m hx hm hg
      rw [isGamma, decide_eq_true_eq] at hg
      have := sumAbs_rem x m hx hm
      norm_num at hg
      linarith
    interval_cases k
    · rcases hl with hl | hl | hl | ⟨_, hl⟩ | ⟨_, hl⟩
      · omega
      · simp [pairBands, pairs] at hl
      · exact g (9 / 2) 36 (by norm_num) (by decide) hl
      · simp only [pairBands, pairs, List.getElem_cons_succ, List.getElem_cons_zero, V3.mk.injEq] at hl
        norm_num at hl
      · have := C35_parallel_steps_not_changed ⟨17 / 4, 0, 0⟩ (1 / 34)
        simp only [pairBands, pairs, Nat.reduceAdd, Nat.reduceSub, List.getElem_cons_succ, List.getElem_cons_zero, sub] at hl
        norm_num [smul] at this hl
        rw [this] at hl
        cases hl
    · rcases hl with hl | hl | hl | ⟨_, hl⟩ | ⟨_, hl⟩
      · omega
      · simp [pairBands, pairs] at hl
      · exact g (37 / 8) 37 (by norm_num) (by decide) hl
      · simp only [pairBands, pairs, List.getElem_cons_succ, List.getElem_cons_zero, V3.mk.injEq] at hl
        norm_num at hl
      · have := C35_parallel_steps_not_changed ⟨1 / 8, 0, 0⟩ 34
        simp only [pairBands, pairs, Nat.reduceAdd, Nat.reduceSub, List.getElem_cons_succ, List.getElem_cons_zero, sub] at hl
        norm_num [smul] at this hl
        rw [this] at hl
        cases hl

/-- With a larger tolerance the same phonons are drawn. -/
example (table : List (String × V3 ℝ)) (coordText : V3 ℝ → String) : ∃ w ds,
    dispersionMain unitM table coordText 1 .ok ⟨false, 40⟩ (.frequencies pairBands) = .ok (w, ds) ∧
      Complete (calcAbscissa unitM pairs) [[1, 2, 3, 4, 5, 6]] (qpointLabels table coordText pairs) ds := by
  have h : ∀ k, ¬ IsGap (calcAbscissa unitM pairBands.qpts) 40 k := by
    rintro k ⟨i, h, rfl, hg⟩
    change i + 1 < (calcAbscissa unitM pairs).length at h
    have hg := hg _ median_pairs
    simp only [pairBands, abscissa_pairs] at h hg
    simp only [List.length_cons, List.length_nil] at h
    have : i < 5 := by omega
    interval_cases i <;> norm_num at hg
  have := C109_one_gap unitM table coordText 1 .ok ⟨false, 40⟩ (.frequencies pairBands) pairBands pairBands
    (Or.inr ⟨rfl, rfl⟩) ⟨by simp, by simp⟩ pairBands_wf fun k _ hk => absurd hk (h k)
  simpa [lines, line, pairBands] using this

/-- A path of Seekpath with four points, of which the inner gamma point is doubled. -/
example (table : List (String × V3 ℝ)) (coordText : V3 ℝ → String) : ∃ w ds,
    dispersionMain unitM table coordText 1 .ok ⟨true, 10⟩ (.fc [⟨0, 0, 0⟩, ⟨1 / 2, 0, 0⟩, ⟨0, 0, 0⟩, ⟨0, 1 / 2, 0⟩]
      ["GAMMA", "X", "GAMMA", "Y"] fun q => .ok ⟨q, 1, q.map fun _ => [1]⟩) = .ok (w, ds) := by
  have hs : Cli.sources ["GAMMA", "X", "GAMMA", "Y"] = [0, 1, 2, 2, 3] := by decide
  obtain ⟨w, ds, -, h, -⟩ := C109_force_constants unitM table coordText 1 .ok ⟨true, 10⟩
    [⟨0, 0, 0⟩, ⟨1 / 2, 0, 0⟩, ⟨0, 0, 0⟩, ⟨0, 1 / 2, 0⟩] ["GAMMA", "X", "GAMMA", "Y"]
    (fun q => .ok ⟨q, 1, q.map fun _ => [1]⟩) _ _ rfl (by
      rintro i ⟨h0, h1, h2⟩
      simp only [List.length_cons, List.length_nil] at h1
      have h3 : i < 4 := by omega
      interval_cases i <;> simp_all) "GAMMA" rfl (by decide) rfl ⟨fun _ => rfl, by simp⟩ rfl (by
      rw [hs]
      constructor <;> simp)
  exact ⟨w, ds, h⟩

/-- Two modes exchanged at the second q-point. -/
example : ((lines 2 ⟨[⟨0, 0, 0⟩, ⟨1, 0, 0⟩], 2, [[1, 2], [4, 3]]⟩).map fun y => y.getD 1 0).Perm [6, 8] := by
  have := C109_reorder_energies 2 ⟨[⟨0, 0, 0⟩, ⟨1, 0, 0⟩], 2, [[1, 2], [3, 4]]⟩ ⟨[⟨0, 0, 0⟩, ⟨1, 0, 0⟩], 2, [[1, 2], [4, 3]]⟩
    (by constructor <;> simp) rfl (by
      intro k
      match k with
      | 0 => simp
      | 1 => exact List.Perm.swap _ _ _
      | k + 2 => simp) 1 (by simp)
  norm_num at this ⊢
  exact this

end C109

end Euphonic.DispCli
