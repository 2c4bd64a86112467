import Verif.Model.Plot
import Verif.Props.Bins
import Mathlib.Data.List.SplitBy
import Mathlib.Tactic.Linarith

/-!
# C106, C107: plots of lines and maps
-/

set_option autoImplicit false
set_option linter.unusedSectionVars false

namespace Euphonic.Plot

/-! ## Pieces of a line -/

section Pieces

variable {α : Type}

/-- The pieces of a list cut at positions. -/
def pieces (start : Nat) : List Nat → List α → List (List α)
  | [], l => [l.drop start]
  | b :: bs, l => (l.take b).drop start :: pieces b bs l

theorem pieces_eq (bs : List Nat) (l : List α) (start : Nat) :
    (List.zip (start :: bs) (bs.map some ++ [none])).map (fun s => slice l s.1 s.2) = pieces start bs l := by
  induction bs generalizing start with
  | nil => rfl
  | cons b bs ih =>
    show slice l start (some b) :: _ = _
    rw [pieces, ← ih b]
    rfl

/-- Positions (counted from `k`) behind which a relation does not hold. -/
def cutsOf (r : α → α → Bool) : List α → Nat → List Nat
  | a :: b :: l, k => if r a b then cutsOf r (b :: l) (k + 1) else (k + 1) :: cutsOf r (b :: l) (k + 1)
  | _, _ => []

theorem splitBy_cons_join (r : α → α → Bool) (a b : α) (l : List α) (g : List α) (gs : List (List α))
    (h : r a b = true) (hs : (b :: l).splitBy r = g :: gs) : (a :: b :: l).splitBy r = (a :: g) :: gs := by
  rw [List.splitBy_eq_iff] at hs ⊢
  obtain ⟨h1, h2, h3, h4⟩ := hs
  obtain ⟨g', rfl⟩ : ∃ g', g = b :: g' := by
    cases g with
    | nil => simp at h2
    | cons c g' =>
      simp at h1
      exact ⟨g', by rw [h1.1]⟩
  refine ⟨?_, ?_, ?_, ?_⟩
  · rw [h1]
    simp
  · simp at h2 ⊢
    exact h2
  · intro m hm
    rcases List.mem_cons.1 hm with rfl | hm
    · have := h3 (b :: g') (by simp)
      simp [List.isChain_cons_cons, h, this]
    · exact h3 m (by simp [hm])
  · cases gs with
    | nil => simp
    | cons g2 gs =>
      rw [List.isChain_cons_cons] at h4 ⊢
      obtain ⟨⟨ha, hb, hr⟩, h5⟩ := h4
      exact ⟨⟨by simp, hb, by simpa using hr⟩, h5⟩

theorem splitBy_cons_cut (r : α → α → Bool) (a b : α) (l : List α) (h : r a b = false) :
    (a :: b :: l).splitBy r = [a] :: (b :: l).splitBy r := by
  have := List.splitBy_append_cons (r := r) (l := [a]) (a := b) l (by simpa using h)
  have h1 : [a].splitBy r = [[a]] := by rw [List.splitBy_of_isChain] <;> simp
  rw [h1] at this
  simpa using this

theorem pieces_cutsOf (r : α → α → Bool) (L : List α) (hL : L ≠ []) (pre : List α) (start : Nat)
    (hs : start ≤ pre.length) :
    ∃ g gs, L.splitBy r = g :: gs ∧ pieces start (cutsOf r L pre.length) (pre ++ L) = (pre.drop start ++ g) :: gs := by
  induction L generalizing pre start with
  | nil => exact absurd rfl hL
  | cons a L ih =>
    cases L with
    | nil =>
      refine ⟨[a], [], by rw [List.splitBy_of_isChain] <;> simp, ?_⟩
      simp [cutsOf, pieces, List.drop_append_of_le_length hs]
    | cons b l =>
      have hpre : (pre ++ [a]).length = pre.length + 1 := by simp
      have happ : pre ++ a :: b :: l = (pre ++ [a]) ++ (b :: l) := by simp
      cases h : r a b with
      | true =>
        obtain ⟨g, gs, h1, h2⟩ := ih (by simp) (pre ++ [a]) start (by simp; omega)
        refine ⟨a :: g, gs, splitBy_cons_join r a b l g gs h h1, ?_⟩
        rw [cutsOf, if_pos h, happ, ← hpre, h2, List.drop_append_of_le_length hs]
        simp
      | false =>
        obtain ⟨g, gs, h1, h2⟩ := ih (by simp) (pre ++ [a]) (pre ++ [a]).length (le_refl _)
        refine ⟨[a], (b :: l).splitBy r, splitBy_cons_cut r a b l h, ?_⟩
        rw [cutsOf, if_neg (by simp [h]), pieces, happ, ← hpre, h2, h1, List.drop_length]
        have ht : List.take (pre ++ [a]).length (pre ++ [a] ++ b :: l) = pre ++ [a] := List.take_left
        rw [ht, List.drop_append_of_le_length hs]
        simp

theorem pieces_splitBy (r : α → α → Bool) (L : List α) (hL : L ≠ []) :
    pieces 0 (cutsOf r L 0) L = L.splitBy r := by
  obtain ⟨g, gs, h1, h2⟩ := pieces_cutsOf r L hL [] 0 (by simp)
  simp at h2
  rw [h1, h2]

theorem pieces_map {β : Type} (f : α → β) (bs : List Nat) (l : List α) (start : Nat) :
    pieces start bs (l.map f) = (pieces start bs l).map (List.map f) := by
  induction bs generalizing start with
  | nil => simp [pieces, List.map_drop]
  | cons b bs ih => simp [pieces, ih, List.map_drop, List.map_take]

theorem pieces_zip {β : Type} (bs : List Nat) (l : List α) (m : List β) (start : Nat) :
    pieces start bs (List.zip l m) = List.zipWith List.zip (pieces start bs l) (pieces start bs m) := by
  induction bs generalizing start with
  | nil => simp [pieces, List.zip, List.drop_zipWith]
  | cons b bs ih =>
    simp only [pieces, ih, List.zipWith_cons_cons]
    congr 1
    simp [List.zip, List.drop_zipWith, List.take_zipWith]

theorem nonzeroSucc_points {K : Type} [DecidableEq K] (x : List K) {β : Type} (y : List β)
    (h : y.length = x.length) (k : Nat) :
    nonzeroSucc (eqNext x) k = cutsOf (fun a b => a.1 != b.1) (List.zip x y) k := by
  induction x generalizing y k with
  | nil => rfl
  | cons a x ih =>
    cases y with
    | nil => simp at h
    | cons c y =>
      cases x with
      | nil => simp [eqNext, nonzeroSucc, cutsOf]
      | cons b x =>
        cases y with
        | nil => simp at h
        | cons d y =>
          have := ih (d :: y) (by simpa using h) (k + 1)
          simp only [List.zip_cons_cons] at this ⊢
          rw [cutsOf, ← this]
          by_cases hab : a = b
          · simp [eqNext, nonzeroSucc, hab]
          · simp [eqNext, nonzeroSucc, hab]

theorem nonzeroSucc_edges {K : Type} [DecidableEq K] (x : List K) {β : Type} (y : List β)
    (h : x.length = y.length + 1) (k : Nat) :
    nonzeroSucc (eqNext x) k = cutsOf (fun a _ => a.1.1 != a.1.2) (List.zip (List.zip x.dropLast x.tail) y) k ++
      (if (x.dropLast.getLast?) = x.getLast? then [k + y.length] else []) := by
  induction x generalizing y k with
  | nil => simp at h
  | cons a x ih =>
    cases x with
    | nil => simp at h; subst h; simp [eqNext, nonzeroSucc, cutsOf]
    | cons b x =>
      cases y with
      | nil => simp at h
      | cons c y =>
        cases x with
        | nil =>
          have : y = [] := by simpa using h
          subst this
          by_cases hab : a = b <;> simp [eqNext, nonzeroSucc, cutsOf, hab]
        | cons d x =>
          cases y with
          | nil => simp at h
          | cons e y =>
            have := ih (e :: y) (by simpa using h) (k + 1)
            have h2 : (a :: b :: d :: x).dropLast.getLast? = (b :: d :: x).dropLast.getLast? := by
              simp [List.getLast?_cons]
            have h3 : (a :: b :: d :: x).getLast? = (b :: d :: x).getLast? := by
              simp [List.getLast?_cons]
            have hn : nonzeroSucc (eqNext (a :: b :: d :: x)) k = if a = b then
                (k + 1) :: nonzeroSucc (eqNext (b :: d :: x)) (k + 1)
                else nonzeroSucc (eqNext (b :: d :: x)) (k + 1) := by
              by_cases hab : a = b <;> simp [eqNext, nonzeroSucc, hab]
            rw [h2, h3, hn, this]
            have h4 : k + 1 + (e :: y).length = k + (c :: e :: y).length := by simp; omega
            rw [h4]
            simp only [List.dropLast_cons_cons, List.tail_cons, List.zip_cons_cons]
            rw [cutsOf]
            by_cases hab : a = b
            · simp [hab]
            · simp [hab]

end Pieces

/-! ## Loops -/

section Loops

variable {K : Type}

/-- The colour of a line on axes where `st` colours have been used. -/
def lineColour (mpl : MplArgs) (st : Nat) : Colour :=
  match mpl.colour with
  | some (some c) => .given c
  | _ => .cycle st

/-- The number of colours used by a line. -/
def used (mpl : MplArgs) : Nat := if mpl.colour = none then 1 else 0

theorem drawLine_rest (mpl : MplArgs) (hm : mpl.colour ≠ some none) (cs ys : List K) (segs : List (Nat × Option Nat))
    (h0 : ∀ s ∈ segs, s.1 ≠ 0) (label : Option String) (st st' : Nat) :
    drawLine mpl cs ys segs label (some (lineColour mpl st)) st' = .ok (segs.map fun s =>
      ⟨slice cs s.1 s.2, slice ys s.1 s.2, lineColour mpl st, labelArg mpl none⟩,
      some (lineColour mpl st), st') := by
  induction segs generalizing label with
  | nil => rfl
  | cons s segs ih =>
    obtain ⟨x0, x1⟩ := s
    have hx : x0 ≠ 0 := h0 (x0, x1) (by simp)
    have hc : colourArg mpl (some (lineColour mpl st)) = some (lineColour mpl st) := by
      unfold colourArg lineColour
      cases hmc : mpl.colour with
      | none => rfl
      | some c =>
        cases c with
        | none => exact absurd hmc hm
        | some c => rfl
    unfold drawLine
    rw [if_neg hx]
    simp only [hc, axPlot]
    rw [ih fun s hs => h0 s (by simp [hs])]
    rfl

theorem drawLine_first (mpl : MplArgs) (hm : mpl.colour ≠ some none) (cs ys : List K) (x1 : Option Nat)
    (segs : List (Nat × Option Nat)) (h0 : ∀ s ∈ segs, s.1 ≠ 0) (label : Option String) (prev : Option Colour)
    (st : Nat) :
    drawLine mpl cs ys ((0, x1) :: segs) label prev st =
      .ok (⟨slice cs 0 x1, slice ys 0 x1, lineColour mpl st, labelArg mpl label⟩ ::
        segs.map fun s => ⟨slice cs s.1 s.2, slice ys s.1 s.2, lineColour mpl st, labelArg mpl none⟩,
      some (lineColour mpl st), st + used mpl) := by
  have hr : axPlot st (colourArg mpl none) = (lineColour mpl st, st + used mpl) := by
    unfold colourArg lineColour used
    cases hmc : mpl.colour with
    | none => rfl
    | some c =>
      cases c with
      | none => exact absurd hmc hm
      | some c => rfl
  unfold drawLine
  rw [if_pos rfl]
  simp only [hr]
  rw [drawLine_rest mpl hm cs ys segs h0]
  rfl

theorem nonzeroSucc_pos (l : List Bool) (k : Nat) : ∀ b ∈ nonzeroSucc l k, b ≠ 0 := by
  induction l generalizing k with
  | nil => simp [nonzeroSucc]
  | cons a l ih =>
    intro b hb
    unfold nonzeroSucc at hb
    split at hb
    · rcases List.mem_cons.1 hb with rfl | hb
      · omega
      · exact ih _ b hb
    · exact ih _ b hb

theorem segments_eq [DecidableEq K] (x : List K) : ∃ x1 segs, segments x = (0, x1) :: segs ∧ ∀ s ∈ segs, s.1 ≠ 0 := by
  unfold segments
  cases hb : nonzeroSucc (eqNext x) 0 with
  | nil => exact ⟨none, [], rfl, by simp⟩
  | cons b bs =>
    refine ⟨some b, List.zip (b :: bs) (bs.map some ++ [none]), rfl, ?_⟩
    intro s hs
    have := (List.of_mem_zip (show (s.1, s.2) ∈ _ from hs)).1
    exact nonzeroSucc_pos (eqNext x) 0 s.1 (by rw [hb]; exact this)

/-- The strokes of one line. -/
def lineStrokes [DecidableEq K] (mpl : MplArgs) (x cs ys : List K) (label : Option String) (st : Nat) :
    List (Stroke K) :=
  List.zipWith (fun (s : Nat × Option Nat) l => ⟨slice cs s.1 s.2, slice ys s.1 s.2, lineColour mpl st, labelArg mpl l⟩)
    (segments x) (label :: List.replicate ((segments x).length - 1) none)

theorem drawLine_eq [DecidableEq K] (mpl : MplArgs) (hm : mpl.colour ≠ some none) (x cs ys : List K)
    (label : Option String) (prev : Option Colour) (st : Nat) :
    drawLine mpl cs ys (segments x) label prev st =
      .ok (lineStrokes mpl x cs ys label st, some (lineColour mpl st), st + used mpl) := by
  obtain ⟨x1, segs, h1, h2⟩ := segments_eq x
  unfold lineStrokes
  rw [h1, drawLine_first mpl hm cs ys x1 segs h2]
  simp only [List.zipWith_cons_cons, List.length_cons, Nat.add_sub_cancel]
  congr 2
  congr 1
  clear h1 h2
  induction segs with
  | nil => rfl
  | cons s segs ih => simp [List.replicate_succ, ih]

theorem drawLines_eq [Field K] [DecidableEq K] (mpl : MplArgs) (hm : mpl.colour ≠ some none) (x : List K)
    (cen : List K) (ls : List (Option String × List K)) (hx : ∀ l ∈ ls, getBinCentres l.2.length x = .ok cen)
    (prev : Option Colour) (st : Nat) :
    drawLines mpl x ls prev st = .ok (ls.mapIdx fun i l => lineStrokes mpl x cen l.2 l.1 (st + i * used mpl)) := by
  induction ls generalizing prev st with
  | nil => rfl
  | cons l ls ih =>
    obtain ⟨label, y⟩ := l
    unfold drawLines
    rw [hx (label, y) (by simp)]
    simp only [bind, Except.bind, drawLine_eq mpl hm]
    rw [ih (fun l hl => hx l (by simp [hl])), List.mapIdx_cons]
    simp only [pure, Except.pure, Nat.zero_mul, Nat.add_zero]
    congr 2
    congr 1
    funext i l
    congr 1
    ring

theorem minMax_ok [LinearOrder K] (l : List K) (hl : l ≠ []) : ∃ m, minMax l = .ok m ∧ m.1 ∈ l ∧ m.2 ∈ l ∧
    ∀ a ∈ l, m.1 ≤ a ∧ a ≤ m.2 := by
  cases l with
  | nil => exact absurd rfl hl
  | cons a r =>
    refine ⟨_, rfl, ?_⟩
    have key : ∀ (r : List K) (a : K), (r.foldl min a ∈ a :: r) ∧ (r.foldl max a ∈ a :: r) ∧
        ∀ b ∈ a :: r, r.foldl min a ≤ b ∧ b ≤ r.foldl max a := by
      intro r
      induction r with
      | nil => intro a; simp
      | cons c r ih =>
        intro a
        obtain ⟨h1, -, h3⟩ := ih (min a c)
        obtain ⟨-, g2, g3⟩ := ih (max a c)
        simp only [List.foldl_cons]
        refine ⟨?_, ?_, ?_⟩
        · rcases List.mem_cons.1 h1 with h | h
          · rw [h]
            rcases min_choice a c with h | h <;> rw [h] <;> simp
          · simp [h]
        · rcases List.mem_cons.1 g2 with h | h
          · rw [h]
            rcases max_choice a c with h | h <;> rw [h] <;> simp
          · simp [h]
        · intro b hb
          have e1 := (h3 (min a c) (by simp)).1
          have e2 := (g3 (max a c) (by simp)).2
          rcases List.mem_cons.1 hb with rfl | hb
          · exact ⟨e1.trans (min_le_left _ _), (le_max_left _ _).trans e2⟩
          · rcases List.mem_cons.1 hb with rfl | hb
            · exact ⟨e1.trans (min_le_right _ _), (le_max_right _ _).trans e2⟩
            · exact ⟨(h3 b (by simp [hb])).1, (g3 b (by simp [hb])).2⟩
    exact key r a

end Loops

/-! ## C106 -/

section C106

variable {K U : Type} [Field K] [LinearOrder K] [IsStrictOrderedRing K]

/-- The labels wanted for the lines: those given, otherwise those of the metadata. -/
def wanted (labels : Labels) (own : List (Option String)) : List (Option String) :=
  match labels with
  | .none => own
  | .str s => [some s]
  | .seq l => l

/-- Labels of ticks that can be drawn: none at all, or at least one, all inside the axis. -/
def TicksFit (ticks : Option (List (Int × String))) (x : List K) : Prop :=
  ∀ t, ticks = some t → t ≠ [] ∧ ∀ p ∈ t, 0 ≤ p.1 ∧ p.1 < x.length

theorem chooseLabels_eq (labels : Labels) (own : List (Option String)) :
    chooseLabels labels own = if (wanted labels own).length = own.length then .ok (wanted labels own)
      else .error .valueError := by
  unfold chooseLabels wanted
  cases labels with
  | none => simp
  | str s =>
    by_cases h : 1 = own.length
    · simp [← h]
    · simp [h]
  | seq l =>
    by_cases h : l.length = own.length <;> simp [h]

theorem setXTicks_ok (ticks : Option (List (Int × String))) (x : List K) (h : TicksFit ticks x) :
    ∃ m, setXTicks ticks x = .ok m ∧ (ticks = none → m = none) ∧ ∀ t, ticks = some t → ∃ k, m = some k ∧
      k.labels = t.map Prod.snd ∧ k.at_.map some = t.map (fun p => x[p.1.toNat]?) ∧
      (k.rotated = true ↔ ∃ p ∈ t, 11 ≤ p.2.length) := by
  cases ticks with
  | none => exact ⟨none, rfl, fun _ => rfl, by simp⟩
  | some t =>
    obtain ⟨h1, h2⟩ := h t rfl
    have hv : ∃ v, (t.map Prod.fst).mapM (pyGet x) = .ok v ∧ v.map some = t.map (fun p => x[p.1.toNat]?) := by
      clear h h1
      induction t with
      | nil => exact ⟨[], rfl, rfl⟩
      | cons p t ih =>
        obtain ⟨v, hv1, hv2⟩ := ih fun q hq => h2 q (by simp [hq])
        obtain ⟨g1, g2⟩ := h2 p (by simp)
        have hlt : p.1.toNat < x.length := by omega
        have : pyGet x p.1 = .ok x[p.1.toNat] := by
          unfold pyGet
          simp only [if_neg (not_lt.2 g1)]
          rw [List.getElem?_eq_getElem hlt]
        refine ⟨x[p.1.toNat] :: v, ?_, ?_⟩
        · rw [List.map_cons, List.mapM_cons, this, hv1]
          rfl
        · simp [hv2, List.getElem?_eq_getElem hlt]
    obtain ⟨v, hv1, hv2⟩ := hv
    cases t with
    | nil => exact absurd rfl h1
    | cons p t =>
      refine ⟨some ⟨v, (p :: t).map Prod.snd, ((p :: t).map Prod.snd).any fun s => decide (11 ≤ s.length)⟩, ?_, by simp, ?_⟩
      · simp only [setXTicks, hv1]
        rfl
      · intro t' ht'
        have : t' = p :: t := by simpa using ht'.symm
        subst this
        refine ⟨_, rfl, rfl, hv2, ?_⟩
        simp

theorem plot1dToAxis_ok (s : Lines K U) (labels : Labels) (mpl : MplArgs) (hm : mpl.colour ≠ some none) (st : Nat)
    (hx : s.x ≠ []) (cen : List K) (hc : ∀ l ∈ s.lines, getBinCentres l.2.length s.x = .ok cen)
    (hl : (wanted labels (s.lines.map Prod.fst)).length = s.lines.length) (ht : TicksFit s.ticks s.x) :
    ∃ lim t, minMax s.x = .ok lim ∧ setXTicks s.ticks s.x = .ok t ∧
      plot1dToAxis s labels mpl st = .ok ⟨(List.zip (wanted labels (s.lines.map Prod.fst)) (s.lines.map Prod.snd)).mapIdx
        fun i l => lineStrokes mpl s.x cen l.2 l.1 (st + i * used mpl), lim, t⟩ := by
  obtain ⟨lim, h1, -⟩ := minMax_ok s.x hx
  obtain ⟨t, h2, -⟩ := setXTicks_ok s.ticks s.x ht
  refine ⟨lim, t, h1, h2, ?_⟩
  unfold plot1dToAxis
  rw [chooseLabels_eq, if_pos (by simpa using hl)]
  simp only [bind, Except.bind]
  rw [drawLines_eq mpl hm s.x cen]
  · simp only [h1, h2]
    rfl
  · intro l hl'
    have h3 := (List.of_mem_zip (show (l.1, l.2) ∈ _ from hl')).2
    obtain ⟨l', h4, h5⟩ := List.mem_map.1 h3
    rw [← h5]
    exact hc l' h4

/-- The points of a stroke. -/
def Stroke.points (s : Stroke K) : List (K × K) := List.zip s.x s.y

theorem lineStrokes_points (mpl : MplArgs) (x cs ys : List K) (label : Option String) (st : Nat) :
    (lineStrokes mpl x cs ys label st).map Stroke.points =
      pieces 0 (nonzeroSucc (eqNext x) 0) (List.zip cs ys) := by
  rw [← pieces_eq]
  show _ = (segments x).map _
  unfold lineStrokes
  have : ∀ (segs : List (Nat × Option Nat)) (ls : List (Option String)), segs.length ≤ ls.length →
      (List.zipWith (fun (s : Nat × Option Nat) l => (⟨slice cs s.1 s.2, slice ys s.1 s.2, lineColour mpl st,
        labelArg mpl l⟩ : Stroke K)) segs ls).map Stroke.points = segs.map fun s => slice (List.zip cs ys) s.1 s.2 := by
    intro segs
    induction segs with
    | nil => intro ls _; simp
    | cons s segs ih =>
      intro ls hls
      cases ls with
      | nil => simp at hls
      | cons l ls =>
        rw [List.zipWith_cons_cons, List.map_cons, ih ls (by simpa using hls), List.map_cons]
        congr 1
        unfold Stroke.points slice
        cases s.2 <;> simp [List.zip, List.drop_zipWith, List.take_zipWith]
  apply this
  simp
  omega

theorem lineStrokes_ne (mpl : MplArgs) (x cs ys : List K) (label : Option String) (st : Nat) :
    (∀ s ∈ lineStrokes mpl x cs ys label st, s.colour = lineColour mpl st) ∧
    (lineStrokes mpl x cs ys label st).map Stroke.label =
      labelArg mpl label :: List.replicate ((lineStrokes mpl x cs ys label st).length - 1) (labelArg mpl none) ∧
    (cs.length = ys.length → ∀ s ∈ lineStrokes mpl x cs ys label st, s.x.length = s.y.length) := by
  obtain ⟨x1, segs, h1, h2⟩ := segments_eq x
  have hcons : lineStrokes mpl x cs ys label st =
      ⟨slice cs 0 x1, slice ys 0 x1, lineColour mpl st, labelArg mpl label⟩ ::
        segs.map fun s => ⟨slice cs s.1 s.2, slice ys s.1 s.2, lineColour mpl st, labelArg mpl none⟩ := by
    unfold lineStrokes
    rw [h1]
    simp only [List.zipWith_cons_cons, List.length_cons, Nat.add_sub_cancel]
    congr 1
    clear h1 h2
    induction segs with
    | nil => rfl
    | cons s segs ih => simp [List.replicate_succ, ih]
  rw [hcons]
  refine ⟨?_, ?_, ?_⟩
  · intro s hs
    rcases List.mem_cons.1 hs with rfl | hs
    · rfl
    · obtain ⟨p, -, rfl⟩ := List.mem_map.1 hs
      rfl
  · simp [Function.comp_def]
  · have hsl : cs.length = ys.length → ∀ a b, (slice cs a b).length = (slice ys a b).length := by
      intro h a b
      cases b <;> simp [slice, h]
    intro h s hs
    rcases List.mem_cons.1 hs with rfl | hs
    · exact hsl h _ _
    · obtain ⟨p, -, rfl⟩ := List.mem_map.1 hs
      exact hsl h _ _

/-- **C106**: every line of a spectrum of points is drawn point by point, with a break exactly between
neighbouring points of equal `x`; its strokes have one colour - the next of the cycle unless the user chose one -
and only the first has a label: the one wanted for the line. The axis ends at the smallest and largest `x` and the
ticks stand at the labelled points. -/
theorem C106_points (s : Lines K U) (labels : Labels) (mpl : MplArgs) (hm : mpl.colour ≠ some none)
    (hml : mpl.label = none) (st : Nat) (hx : s.x ≠ []) (hlen : ∀ l ∈ s.lines, l.2.length = s.x.length)
    (hl : (wanted labels (s.lines.map Prod.fst)).length = s.lines.length) (ht : TicksFit s.ticks s.x) :
    ∃ d, plot1dToAxis s labels mpl st = .ok d ∧ d.strokes.length = s.lines.length ∧
      (∀ (i : Nat) (strokes : List (Stroke K)) (own : Option String) (y : List K) (label : Option String), d.strokes[i]? = some strokes → s.lines[i]? = some (own, y) →
        (wanted labels (s.lines.map Prod.fst))[i]? = some label →
        strokes.map Stroke.points = (List.zip s.x y).splitBy (fun a b => a.1 != b.1) ∧
        (∀ t ∈ strokes, t.x.length = t.y.length) ∧
        (∀ t ∈ strokes, t.colour = match mpl.colour with
          | some (some c) => .given c
          | _ => .cycle (st + i)) ∧
        strokes.map Stroke.label = label :: List.replicate (strokes.length - 1) none) ∧
      (d.xlim.1 ∈ s.x ∧ d.xlim.2 ∈ s.x ∧ ∀ a ∈ s.x, d.xlim.1 ≤ a ∧ a ≤ d.xlim.2) ∧
      (s.ticks = none → d.ticks = none) ∧
      ∀ t, s.ticks = some t → ∃ k, d.ticks = some k ∧ k.labels = t.map Prod.snd ∧
        k.at_.map some = t.map (fun p => s.x[p.1.toNat]?) ∧ (k.rotated = true ↔ ∃ p ∈ t, 11 ≤ p.2.length) := by
  obtain ⟨lim, tk, h1, h2, h3⟩ := plot1dToAxis_ok s labels mpl hm st hx s.x
    (fun l hl' => getBinCentres_centres _ _ (hlen l hl').symm) hl ht
  obtain ⟨lim', g1, g2⟩ := minMax_ok s.x hx
  obtain ⟨tk', g3, g4⟩ := setXTicks_ok s.ticks s.x ht
  rw [h1] at g1
  rw [h2] at g3
  cases g1
  cases g3
  refine ⟨_, h3, ?_, ?_, g2, g4⟩
  · simp [hl]
  · intro i strokes own y label hi hy hlab
    simp only [List.getElem?_mapIdx, List.getElem?_zip_eq_some, Option.map_eq_some_iff] at hi
    obtain ⟨⟨lab, y'⟩, ⟨e1, e2⟩, rfl⟩ := hi
    rw [List.getElem?_map, hy] at e2
    rw [hlab] at e1
    obtain rfl : label = lab := Option.some.inj e1
    obtain rfl : y = y' := Option.some.inj e2
    have hyl : y.length = s.x.length := hlen (own, y) (List.mem_of_getElem? hy)
    obtain ⟨c1, c2, c3⟩ := lineStrokes_ne mpl s.x s.x y label (st + i * used mpl)
    refine ⟨?_, c3 hyl.symm, ?_, ?_⟩
    · rw [lineStrokes_points, nonzeroSucc_points s.x y hyl, pieces_splitBy]
      intro h0
      rw [List.zip_eq_nil_iff] at h0
      rcases h0 with h0 | h0
      · exact hx h0
      · rw [h0] at hyl
        exact hx (List.length_eq_zero_iff.1 hyl.symm)
    · intro t ht'
      rw [c1 t ht']
      unfold lineColour used
      cases hmc : mpl.colour with
      | none => simp
      | some c => cases c <;> simp_all
    · rw [c2]
      simp [labelArg, hml]

/-- **C106**: a label given to Matplotlib in the keyword arguments is that of every stroke of every line. -/
theorem C106_label_argument (s : Lines K U) (labels : Labels) (mpl : MplArgs) (hm : mpl.colour ≠ some none)
    (l : Option String) (hml : mpl.label = some l) (st : Nat) (hx : s.x ≠ [])
    (hlen : ∀ l ∈ s.lines, l.2.length = s.x.length)
    (hl : (wanted labels (s.lines.map Prod.fst)).length = s.lines.length) (ht : TicksFit s.ticks s.x) :
    ∃ d, plot1dToAxis s labels mpl st = .ok d ∧ d.strokes.length = s.lines.length ∧
      ∀ strokes ∈ d.strokes, strokes ≠ [] ∧ ∀ t ∈ strokes, t.label = l := by
  obtain ⟨lim, tk, h1, h2, h3⟩ := plot1dToAxis_ok s labels mpl hm st hx s.x
    (fun l hl' => getBinCentres_centres _ _ (hlen l hl').symm) hl ht
  refine ⟨_, h3, by simp [hl], ?_⟩
  intro strokes hs
  obtain ⟨i, hi, rfl⟩ := List.getElem_of_mem hs
  simp only [List.getElem_mapIdx]
  generalize (List.zip (wanted labels (s.lines.map Prod.fst)) (s.lines.map Prod.snd))[i]'_ = p
  obtain ⟨-, c2, -⟩ := lineStrokes_ne mpl s.x s.x p.2 p.1 (st + i * used mpl)
  refine ⟨?_, ?_⟩
  · intro h0
    rw [h0] at c2
    simp at c2
  · intro t ht'
    have : t.label ∈ (lineStrokes mpl s.x s.x p.2 p.1 (st + i * used mpl)).map Stroke.label :=
      List.mem_map.2 ⟨t, ht', rfl⟩
    rw [c2] at this
    simp [labelArg, hml] at this
    rcases this with h | h
    · exact h
    · exact h.2

/-- **C106**: a spectrum of bins is drawn at the centres of the bins, every centre once; the line breaks behind
each bin of no width, and if the last bin has none an empty stroke follows. -/
theorem C106_bins (s : Lines K U) (labels : Labels) (mpl : MplArgs) (hm : mpl.colour ≠ some none) (st n : Nat)
    (hn : n ≠ 0) (hx : s.x.length = n + 1) (hlen : ∀ l ∈ s.lines, l.2.length = n)
    (hl : (wanted labels (s.lines.map Prod.fst)).length = s.lines.length) (ht : TicksFit s.ticks s.x) :
    ∃ d, plot1dToAxis s labels mpl st = .ok d ∧ d.strokes.length = s.lines.length ∧
      ∀ (i : Nat) (strokes : List (Stroke K)) (own : Option String) (y : List K), d.strokes[i]? = some strokes → s.lines[i]? = some (own, y) →
        strokes.map Stroke.points =
          ((List.zip (List.zip s.x.dropLast s.x.tail) (List.zip (List.zipWith (fun a b => (a + b) / 2) s.x.dropLast s.x.tail)
            y)).splitBy (fun a _ => a.1.1 != a.1.2)).map (List.map Prod.snd) ++
          (if s.x.dropLast.getLast? = s.x.getLast? then [[]] else []) := by
  have hcen : binEdgesToCentres s.x = List.zipWith (fun a b => (a + b) / 2) s.x.dropLast s.x.tail := by
    apply List.ext_getElem
    · simp [length_binEdgesToCentres]
    · intro i h1 h2
      rw [getElem_binEdgesToCentres]
      simp
  have hx0 : s.x ≠ [] := by
    intro h
    simp [h] at hx
  obtain ⟨lim, tk, h1, h2, h3⟩ := plot1dToAxis_ok s labels mpl hm st hx0 (binEdgesToCentres s.x)
    (fun l hl' => getBinCentres_edges _ _ (by rw [hx, hlen l hl'])) hl ht
  refine ⟨_, h3, by simp [hl], ?_⟩
  intro i strokes own y hi hy
  simp only [List.getElem?_mapIdx, List.getElem?_zip_eq_some, Option.map_eq_some_iff] at hi
  obtain ⟨⟨lab, y'⟩, ⟨e1, e2⟩, rfl⟩ := hi
  rw [List.getElem?_map, hy] at e2
  obtain rfl : y' = y := (Option.some.inj e2).symm
  have hyl : y'.length = n := hlen (own, y') (List.mem_of_getElem? hy)
  have hcl : (binEdgesToCentres s.x).length = n := by rw [length_binEdgesToCentres, hx]; simp
  rw [lineStrokes_points, ← hcen]
  have hz : (List.zip (binEdgesToCentres s.x) y').length = n := by simp [hcl, hyl]
  have hsnd : List.zip (binEdgesToCentres s.x) y' = (List.zip (List.zip s.x.dropLast s.x.tail)
      (List.zip (binEdgesToCentres s.x) y')).map Prod.snd := by
    rw [List.map_snd_zip]
    simp [hcl, hyl, hx]
  have hne : List.zip (List.zip s.x.dropLast s.x.tail) (List.zip (binEdgesToCentres s.x) y') ≠ [] := by
    intro h
    have := congrArg List.length h
    simp [hcl, hyl, hx] at this
    exact hn this
  rw [nonzeroSucc_edges s.x (List.zip (binEdgesToCentres s.x) y') (by rw [hz, hx])]
  have happ : ∀ {α : Type} (bs : List Nat) (l : List α) (start : Nat),
      pieces start (bs ++ [l.length]) l = pieces start bs l ++ [[]] := by
    intro α bs l
    induction bs with
    | nil => intro start; simp [pieces]
    | cons b bs ih => intro start; simp [pieces, ih]
  have hmain : pieces 0 (cutsOf (fun a _ => a.1.1 != a.1.2) (List.zip (List.zip s.x.dropLast s.x.tail)
      (List.zip (binEdgesToCentres s.x) y')) 0) (List.zip (binEdgesToCentres s.x) y') =
      ((List.zip (List.zip s.x.dropLast s.x.tail) (List.zip (binEdgesToCentres s.x)
            y')).splitBy (fun a _ => a.1.1 != a.1.2)).map (List.map Prod.snd) := by
    rw [← pieces_splitBy _ _ hne, ← pieces_map, ← hsnd]
  split
  · rw [Nat.zero_add, happ, hmain]
  · rw [List.append_nil, List.append_nil, hmain]

/-- **C106**: a wrong number of labels is refused, and so is an empty list of tick labels. -/
theorem C106_refused (s : Lines K U) (labels : Labels) (mpl : MplArgs) (st : Nat) :
    ((wanted labels (s.lines.map Prod.fst)).length ≠ s.lines.length →
      plot1dToAxis s labels mpl st = .error .valueError) ∧
    (s.x ≠ [] → mpl.colour ≠ some none → (∀ l ∈ s.lines, l.2.length = s.x.length) → s.ticks = some [] →
      plot1dToAxis s labels mpl st = .error .valueError) := by
  refine ⟨?_, ?_⟩
  · intro h
    unfold plot1dToAxis
    rw [chooseLabels_eq, if_neg (by simpa using h)]
    rfl
  · intro hx hm hlen ht
    by_cases h : (wanted labels (s.lines.map Prod.fst)).length = s.lines.length
    · unfold plot1dToAxis
      rw [chooseLabels_eq, if_pos (by simpa using h)]
      simp only [bind, Except.bind]
      rw [drawLines_eq mpl hm s.x s.x]
      · obtain ⟨lim, h1, -⟩ := minMax_ok s.x hx
        simp only [h1, ht, setXTicks]
      · intro l hl'
        have h3 := (List.of_mem_zip (show (l.1, l.2) ∈ _ from hl')).2
        obtain ⟨l', h4, h5⟩ := List.mem_map.1 h3
        rw [← h5]
        exact getBinCentres_centres _ _ (hlen l' h4).symm
    · unfold plot1dToAxis
      rw [chooseLabels_eq, if_neg (by simpa using h)]
      rfl

/-- Two bands on a path with a break: the points 0, 1, 1, 2. -/
def twoBands : Lines ℚ Unit where
  x := [0, 1, 1, 2]
  lines := [(some "a", [5, 6, 7, 8]), (none, [1, 2, 3, 4])]
  ticks := some [(0, "X"), (3, "L")]
  xUnit := ()
  yUnit := ()

/-- The strokes of the two bands. -/
example : ∃ d, plot1dToAxis twoBands .none {} 0 = .ok d ∧
    d.strokes.map (List.map fun s => (s.points, s.colour, s.label)) =
      [[([(0, 5), (1, 6)], .cycle 0, some "a"), ([(1, 7), (2, 8)], .cycle 0, none)],
       [([(0, 1), (1, 2)], .cycle 1, none), ([(1, 3), (2, 4)], .cycle 1, none)]] ∧ d.xlim = (0, 2) := by
  refine ⟨_, rfl, ?_, ?_⟩ <;> decide +kernel

/-- The hypotheses of `C106_points` hold for them. -/
example : TicksFit twoBands.ticks twoBands.x ∧ (∀ l ∈ twoBands.lines, l.2.length = twoBands.x.length) ∧
    (wanted (.seq [some "u", some "v"]) (twoBands.lines.map Prod.fst)).length = twoBands.lines.length := by
  refine ⟨?_, by simp [twoBands], by simp [twoBands, wanted]⟩
  intro t ht
  cases ht
  simp [twoBands]

/-- Three bins, the second of no width: the line breaks behind its centre. -/
example : ∃ d, plot1dToAxis (⟨[0, 1, 1, 3], [(none, [5, 6, 7])], none, (), ()⟩ : Lines ℚ Unit) .none {} 0 = .ok d ∧
    d.strokes.map (List.map Stroke.points) = [[[(1 / 2, 5), (1, 6)], [(2, 7)]]] := by
  refine ⟨_, rfl, ?_⟩
  decide +kernel

end C106

/-! ## C107 -/

section C107

variable {K U : Type} [Field K] [LinearOrder K] [IsStrictOrderedRing K]

theorem mapM_ok_iff {α β : Type} (f : α → Except Err β) (l : List α) (r : List β) :
    l.mapM f = .ok r ↔ List.Forall₂ (fun a b => f a = .ok b) l r := by
  induction l generalizing r with
  | nil =>
    rw [List.mapM_nil]
    constructor
    · intro h
      cases h
      exact .nil
    · intro h
      cases h
      rfl
  | cons a l ih =>
    rw [List.mapM_cons]
    constructor
    · intro h
      cases hf : f a with
      | error e => rw [hf] at h; exact absurd h (by simp [bind, Except.bind])
      | ok b =>
        rw [hf] at h
        cases hl : l.mapM f with
        | error e => rw [hl] at h; exact absurd h (by simp [bind, Except.bind])
        | ok r' =>
          rw [hl] at h
          cases h
          exact .cons hf ((ih r').1 hl)
    · intro h
      cases h with
      | cons h1 h2 =>
        rw [h1, (ih _).2 h2]
        rfl

theorem bind_ok {α β : Type} {x : Except Err α} {f : α → Except Err β} {b : β} (h : x >>= f = .ok b) :
    ∃ a, x = .ok a ∧ f a = .ok b := by
  cases x with
  | error e => cases h
  | ok a => exact ⟨a, rfl, h⟩

/-- The extent of an axis. -/
def Extent (x : List K) (w : K) : Prop := ∃ lo ∈ x, ∃ hi ∈ x, (∀ a ∈ x, lo ≤ a ∧ a ≤ hi) ∧ w = hi - lo

theorem minMax_extent (x : List K) (m : K × K) (h : minMax x = .ok m) : Extent x (m.2 - m.1) := by
  cases hx : x with
  | nil => rw [hx] at h; cases h
  | cons a r =>
    obtain ⟨m', h1, h2, h3, h4⟩ := minMax_ok x (by simp [hx])
    rw [h] at h1
    cases h1
    rw [← hx]
    exact ⟨_, h2, _, h3, h4, rfl⟩

theorem extent_unique (x : List K) (v w : K) (h : Extent x v) (h' : Extent x w) : v = w := by
  obtain ⟨lo, h1, hi, h2, h3, rfl⟩ := h
  obtain ⟨lo', h1', hi', h2', h3', rfl⟩ := h'
  rw [le_antisymm (h3 lo' h1').1 (h3' lo h1).1, le_antisymm (h3 hi' h2').2 (h3' hi h2).2]

/-- **C107** (part): subplots are as wide as the extents of their axes on a common scale, if the first subplot is
not empty (Matplotlib gets `inf` and `nan` otherwise). -/
theorem C107_widths_partial [DecidableEq U] (ss : List (Lines K U)) (labels : Labels) (mpl : MplArgs) (g : List K)
    (d : List (Drawn K)) (h : plot1d ss labels mpl = .ok (g, d)) (s0 : Lines K U) (w0 : K) (h0 : ss.head? = some s0)
    (he0 : Extent s0.x w0) (hw : w0 ≠ 0) :
    g.length = ss.length ∧ ∀ (i j : Nat) (s t : Lines K U) (v w a b : K), ss[i]? = some s → ss[j]? = some t →
      Extent s.x v → Extent t.x w → g[i]? = some a → g[j]? = some b → a * w = b * v := by
  unfold plot1d at h
  split at h
  · cases h
  split at h
  · obtain ⟨g', h1, h2⟩ := bind_ok h
    obtain ⟨d', h3, h4⟩ := bind_ok h2
    cases h4
    unfold gridspec at h1
    obtain ⟨ws, h5, h6⟩ := bind_ok h1
    cases h6
    rw [mapM_ok_iff] at h5
    have h7 : List.Forall₂ (fun s w => Extent s.x w) ss ws := by
      refine h5.imp ?_
      intro s w hsw
      obtain ⟨m, g1, g2⟩ := bind_ok hsw
      cases g2
      exact minMax_extent s.x m g1
    have hlen := h7.length_eq
    have hget : ∀ (i : Nat) (s : Lines K U) (v : K), ss[i]? = some s → Extent s.x v → ws[i]? = some v := by
      intro i s v hs hv
      have hi : i < ss.length := by
        by_contra hc
        rw [List.getElem?_eq_none (by omega)] at hs
        cases hs
      have := List.Forall₂.get h7 hi (by omega)
      rw [List.getElem?_eq_getElem hi] at hs
      cases hs
      rw [List.getElem?_eq_getElem (by omega)]
      congr 1
      exact extent_unique _ _ _ this hv
    have hh : ws.headD 0 = w0 := by
      have := hget 0 s0 w0 (by rw [← h0, List.head?_eq_getElem?]) he0
      cases ws with
      | nil => cases this
      | cons a ws => simpa using this
    refine ⟨by simp [hlen], ?_⟩
    intro i j s t v w a b hs ht hv hw' ha hb
    rw [List.getElem?_map, hget i s v hs hv, hh] at ha
    rw [List.getElem?_map, hget j t w ht hw', hh] at hb
    cases ha
    cases hb
    field_simp
  · cases h

/-- **C107**: subplots in different units are refused. -/
theorem C107_units [DecidableEq U] (ss : List (Lines K U)) (labels : Labels) (mpl : MplArgs) (s t : Lines K U)
    (hs : ss.head? = some s) (ht : t ∈ ss) (h : t.xUnit ≠ s.xUnit ∨ t.yUnit ≠ s.yUnit) :
    plot1d ss labels mpl = .error .valueError := by
  cases ss with
  | nil => cases hs
  | cons s' ss =>
    cases hs
    unfold plot1d
    rw [if_neg (by simp), if_neg]
    simp only [List.tail_cons, List.head?_cons, Option.map_some, Option.some.injEq, List.all_eq_true, decide_eq_true_eq,
      not_forall]
    have ht' : t ∈ ss := by
      rcases List.mem_cons.1 ht with rfl | ht
      · simp at h
      · exact ht
    refine ⟨t, ht', ?_⟩
    rintro ⟨g1, g2⟩
    rcases h with h | h
    · exact h g1
    · exact h g2

/-- **C107**: line number `i` has the same colour in all subplots. -/
theorem C107_line_colours [DecidableEq U] (ss : List (Lines K U)) (labels : Labels) (mpl : MplArgs)
    (hm : mpl.colour = none) (hml : mpl.label = none) (hx : ∀ s ∈ ss, s.x ≠ [])
    (hlen : ∀ s ∈ ss, ∀ l ∈ s.lines, l.2.length = s.x.length)
    (hl : ∀ s ∈ ss, (wanted labels (s.lines.map Prod.fst)).length = s.lines.length)
    (ht : ∀ s ∈ ss, TicksFit s.ticks s.x) (g : List K) (d : List (Drawn K))
    (h : plot1d ss labels mpl = .ok (g, d)) :
    ∀ a ∈ d, ∀ (i : Nat) (strokes : List (Stroke K)), a.strokes[i]? = some strokes →
      ∀ t ∈ strokes, t.colour = .cycle i := by
  unfold plot1d at h
  split at h
  · cases h
  split at h
  · obtain ⟨g', h1, h2⟩ := bind_ok h
    obtain ⟨d', h3, h4⟩ := bind_ok h2
    cases h4
    rw [mapM_ok_iff] at h3
    intro a ha i strokes hi t hts
    obtain ⟨k, hk, rfl⟩ := List.getElem_of_mem ha
    have hks : k < ss.length := by rw [h3.length_eq]; exact hk
    have hok := List.Forall₂.get h3 hks hk
    simp only [List.get_eq_getElem] at hok
    have hs : ss[k] ∈ ss := List.getElem_mem hks
    obtain ⟨d', e1, e2, e3, -⟩ := C106_points ss[k] labels mpl (by rw [hm]; simp) hml 0 (hx _ hs) (hlen _ hs) (hl _ hs)
      (ht _ hs)
    rw [hok] at e1
    cases e1
    have hil : i < ss[k].lines.length := by
      rw [← e2]
      by_contra hc
      rw [List.getElem?_eq_none (by omega)] at hi
      cases hi
    have hil' : i < (wanted labels (ss[k].lines.map Prod.fst)).length := by rw [hl _ hs]; exact hil
    obtain ⟨-, -, e4, -⟩ := e3 i strokes (ss[k].lines[i]).1 (ss[k].lines[i]).2 _ hi (List.getElem?_eq_getElem hil)
      (List.getElem?_eq_getElem hil')
    have := e4 t hts
    rw [hm] at this
    simpa using this
  · cases h

/-- The mid-points of neighbours. -/
def midpoints (e : List K) : List K := List.zipWith (fun a b => (a + b) / 2) e.dropLast e.tail

/-- What `plot_2d` shows if it succeeds, whatever the units: every image has the intensities of its map, column `i` and
row `j` being the bins `i` and `j` of the two axes, and all images have the same range of colours. -/
theorem C107_images (factor : U → U → K) (ms : List (Map K U)) (vmin vmax : Option K) (w : List K)
    (im : List (Image K)) (h : plot2d factor ms vmin vmax = .ok (w, im)) :
    List.Forall₂ (fun m (a : Image K) => ∃ (hr : a.nrow = m.ny) (hc : a.ncol = m.nx),
      (∀ j i, a.pixel j i = m.z (Fin.cast hc i) (Fin.cast hr j)) ∧
      (m.x.length = m.nx ∧ a.xs = m.x ∨ m.x.length = m.nx + 1 ∧ a.xs = midpoints m.x) ∧
      (m.y.length = m.ny ∧ a.ys = m.y ∨ m.y.length = m.ny + 1 ∧ a.ys = midpoints m.y)) ms im ∧
    ∀ a ∈ im, ∀ b ∈ im, a.norm = b.norm := by
  have hcen : ∀ (n : Nat) (x cs : List K), getBinCentres n x = .ok cs →
      x.length = n ∧ cs = x ∨ x.length = n + 1 ∧ cs = midpoints x := by
    intro n x cs hx
    by_cases h1 : x.length = n
    · rw [getBinCentres_centres n x h1] at hx
      cases hx
      exact Or.inl ⟨h1, rfl⟩
    · by_cases h2 : x.length = n + 1
      · rw [getBinCentres_edges n x h2] at hx
        cases hx
        refine Or.inr ⟨h2, ?_⟩
        unfold midpoints
        apply List.ext_getElem
        · simp [length_binEdgesToCentres]
        · intro i h1 h2
          rw [getElem_binEdgesToCentres]
          simp
      · simp [getBinCentres, isBinEdge, h1, h2, bind, Except.bind] at hx
  cases ms with
  | nil => cases h
  | cons m0 ms =>
    unfold plot2d at h
    simp only at h
    obtain ⟨w', -, h⟩ := bind_ok h
    obtain ⟨mm, -, h⟩ := bind_ok h
    obtain ⟨lo, -, h⟩ := bind_ok h
    obtain ⟨hi, -, h⟩ := bind_ok h
    obtain ⟨im', h5, h⟩ := bind_ok h
    cases h
    rw [mapM_ok_iff] at h5
    have hone : ∀ (m : Map K U) (nrm : K × K) (a : Image K), plot2dToAxis m nrm = .ok a → a.norm = nrm ∧
        ∃ (hr : a.nrow = m.ny) (hc : a.ncol = m.nx),
        (∀ j i, a.pixel j i = m.z (Fin.cast hc i) (Fin.cast hr j)) ∧
        (m.x.length = m.nx ∧ a.xs = m.x ∨ m.x.length = m.nx + 1 ∧ a.xs = midpoints m.x) ∧
        (m.y.length = m.ny ∧ a.ys = m.y ∨ m.y.length = m.ny + 1 ∧ a.ys = midpoints m.y) := by
      intro m nrm a ha
      unfold plot2dToAxis at ha
      obtain ⟨_, -, ha⟩ := bind_ok ha
      obtain ⟨_, -, ha⟩ := bind_ok ha
      obtain ⟨_, -, ha⟩ := bind_ok ha
      obtain ⟨_, -, ha⟩ := bind_ok ha
      obtain ⟨xs, g1, ha⟩ := bind_ok ha
      obtain ⟨ys, g2, ha⟩ := bind_ok ha
      obtain ⟨t, -, ha⟩ := bind_ok ha
      cases ha
      exact ⟨rfl, rfl, rfl, fun j i => rfl, hcen _ _ _ g1, hcen _ _ _ g2⟩
    refine ⟨h5.imp fun m a ha => (hone m _ a ha).2, ?_⟩
    have hn : ∀ a ∈ im, a.norm = (vmin.getD lo.1, vmax.getD hi.2) := by
      intro a ha
      obtain ⟨k, hk, rfl⟩ := List.getElem_of_mem ha
      have := List.Forall₂.get h5 (by rw [h5.length_eq]; exact hk) hk
      exact (hone _ _ _ this).1
    intro a ha b hb
    rw [hn a ha, hn b hb]

/-- **C107**: the axes of an image end at the lowest and highest edges of the bins. -/
theorem C107_limits (factor : U → U → K) (ms : List (Map K U)) (vmin vmax : Option K) (w : List K)
    (im : List (Image K)) (h : plot2d factor ms vmin vmax = .ok (w, im)) :
    List.Forall₂ (fun m (a : Image K) => ∃ ex ey, getBinEdges m.nx m.x = .ok ex ∧ getBinEdges m.ny m.y = .ok ey ∧
      (a.xlim.1 ∈ ex ∧ a.xlim.2 ∈ ex ∧ ∀ v ∈ ex, a.xlim.1 ≤ v ∧ v ≤ a.xlim.2) ∧
      (a.ylim.1 ∈ ey ∧ a.ylim.2 ∈ ey ∧ ∀ v ∈ ey, a.ylim.1 ≤ v ∧ v ≤ a.ylim.2)) ms im := by
  cases ms with
  | nil => cases h
  | cons m0 ms =>
    unfold plot2d at h
    simp only at h
    obtain ⟨w', -, h⟩ := bind_ok h
    obtain ⟨mm, -, h⟩ := bind_ok h
    obtain ⟨lo, -, h⟩ := bind_ok h
    obtain ⟨hi, -, h⟩ := bind_ok h
    obtain ⟨im', h5, h⟩ := bind_ok h
    cases h
    rw [mapM_ok_iff] at h5
    have hmm : ∀ {l : List K} {m : K × K}, minMax l = .ok m → m.1 ∈ l ∧ m.2 ∈ l ∧ ∀ a ∈ l, m.1 ≤ a ∧ a ≤ m.2 := by
      intro l m hl
      cases l with
      | nil => cases hl
      | cons a l =>
        obtain ⟨m', g1, g2⟩ := minMax_ok (a :: l) (by simp)
        rw [hl] at g1
        cases g1
        exact g2
    refine h5.imp fun m a ha => ?_
    unfold plot2dToAxis at ha
    obtain ⟨ex, g1, ha⟩ := bind_ok ha
    obtain ⟨xl, g2, ha⟩ := bind_ok ha
    obtain ⟨ey, g3, ha⟩ := bind_ok ha
    obtain ⟨yl, g4, ha⟩ := bind_ok ha
    obtain ⟨xs, -, ha⟩ := bind_ok ha
    obtain ⟨ys, -, ha⟩ := bind_ok ha
    obtain ⟨t, -, ha⟩ := bind_ok ha
    cases ha
    exact ⟨ex, ey, g1, g3, hmm g2, hmm g4⟩

/-- The intensity of a map at a place is one of its values in another unit. -/
theorem mem_values (factor : U → U → K) (u : U) (m : Map K U) (v : K) :
    v ∈ m.values factor u ↔ ∃ i j, v = m.z i j * factor m.zUnit u := by
  unfold Map.values
  constructor
  · intro h
    obtain ⟨l, h1, h2⟩ := List.mem_flatten.1 h
    obtain ⟨i, rfl⟩ := List.mem_ofFn.1 h1
    obtain ⟨j, rfl⟩ := List.mem_ofFn.1 h2
    exact ⟨i, j, rfl⟩
  · rintro ⟨i, j, rfl⟩
    exact List.mem_flatten.2 ⟨_, List.mem_ofFn.2 ⟨i, rfl⟩, List.mem_ofFn.2 ⟨j, rfl⟩⟩

theorem norm_of (m : Map K U) (nrm : K × K) (a : Image K) (h : plot2dToAxis m nrm = .ok a) : a.norm = nrm := by
  unfold plot2dToAxis at h
  obtain ⟨_, -, h⟩ := bind_ok h
  obtain ⟨_, -, h⟩ := bind_ok h
  obtain ⟨_, -, h⟩ := bind_ok h
  obtain ⟨_, -, h⟩ := bind_ok h
  obtain ⟨_, -, h⟩ := bind_ok h
  obtain ⟨_, -, h⟩ := bind_ok h
  obtain ⟨_, -, h⟩ := bind_ok h
  cases h
  rfl

/-- The range of colours computed from the maps: lowest and highest intensity of all maps in the unit of the
first. -/
theorem norm_range (factor : U → U → K) (m0 : Map K U) (ms : List (Map K U)) (w : List K)
    (im : List (Image K)) (h : plot2d factor (m0 :: ms) none none = .ok (w, im)) :
    ∃ lo hi, (∀ a ∈ im, a.norm = (lo, hi)) ∧
      (∀ m ∈ m0 :: ms, ∀ i j, lo ≤ m.z i j * factor m.zUnit m0.zUnit ∧ m.z i j * factor m.zUnit m0.zUnit ≤ hi) ∧
      (∃ m ∈ m0 :: ms, ∃ i j, lo = m.z i j * factor m.zUnit m0.zUnit) ∧
      ∃ m ∈ m0 :: ms, ∃ i j, hi = m.z i j * factor m.zUnit m0.zUnit := by
  unfold plot2d at h
  simp only at h
  obtain ⟨w', -, h⟩ := bind_ok h
  obtain ⟨mm, h2, h⟩ := bind_ok h
  obtain ⟨lo, h3, h⟩ := bind_ok h
  obtain ⟨hi, h4, h⟩ := bind_ok h
  obtain ⟨im', h5, h⟩ := bind_ok h
  cases h
  rw [mapM_ok_iff] at h5 h2
  have hmm : ∀ {l : List K} {m : K × K}, minMax l = .ok m → m.1 ∈ l ∧ m.2 ∈ l ∧ ∀ a ∈ l, m.1 ≤ a ∧ a ≤ m.2 := by
    intro l m hl
    cases l with
    | nil => cases hl
    | cons a l =>
      obtain ⟨m', g1, g2⟩ := minMax_ok (a :: l) (by simp)
      rw [hl] at g1
      cases g1
      exact g2
  have hn : ∀ a ∈ im, a.norm = (lo.1, hi.2) := by
    intro a ha
    obtain ⟨k, hk, rfl⟩ := List.getElem_of_mem ha
    have := List.Forall₂.get h5 (by rw [h5.length_eq]; exact hk) hk
    exact norm_of _ _ _ this
  obtain ⟨a1, -, a3⟩ := hmm h3
  obtain ⟨-, b2, b3⟩ := hmm h4
  have hfind : ∀ p ∈ mm, ∃ m ∈ m0 :: ms, minMax (m.values factor m0.zUnit) = .ok p := by
    intro p hp
    obtain ⟨k, hk, rfl⟩ := List.getElem_of_mem hp
    have hk' : k < (m0 :: ms).length := by rw [h2.length_eq]; exact hk
    exact ⟨_, List.getElem_mem hk', List.Forall₂.get h2 hk' hk⟩
  have hfind' : ∀ m ∈ m0 :: ms, ∃ p ∈ mm, minMax (m.values factor m0.zUnit) = .ok p := by
    intro m hm
    obtain ⟨k, hk, rfl⟩ := List.getElem_of_mem hm
    have hk' : k < mm.length := by rw [← h2.length_eq]; exact hk
    exact ⟨_, List.getElem_mem hk', List.Forall₂.get h2 hk hk'⟩
  refine ⟨lo.1, hi.2, hn, ?_, ?_, ?_⟩
  · intro m hm i j
    obtain ⟨p, hp, hpm⟩ := hfind' m hm
    obtain ⟨-, -, c3⟩ := hmm hpm
    have := c3 _ ((mem_values factor m0.zUnit m _).2 ⟨i, j, rfl⟩)
    exact ⟨((a3 p.1 (List.mem_map.2 ⟨p, hp, rfl⟩)).1).trans this.1,
      this.2.trans (b3 p.2 (List.mem_map.2 ⟨p, hp, rfl⟩)).2⟩
  · obtain ⟨p, hp, hpe⟩ := List.mem_map.1 a1
    obtain ⟨m, hm, hpm⟩ := hfind p hp
    obtain ⟨c1, -, -⟩ := hmm hpm
    obtain ⟨i, j, e⟩ := (mem_values factor m0.zUnit m _).1 c1
    exact ⟨m, hm, i, j, by rw [← hpe, e]⟩
  · obtain ⟨p, hp, hpe⟩ := List.mem_map.1 b2
    obtain ⟨m, hm, hpm⟩ := hfind p hp
    obtain ⟨-, c2, -⟩ := hmm hpm
    obtain ⟨i, j, e⟩ := (mem_values factor m0.zUnit m _).1 c2
    exact ⟨m, hm, i, j, by rw [← hpe, e]⟩

/-- **C107** (part): if all maps have the same unit of intensity, all images share one range of colours, which is the
smallest that shows the intensities of all maps. For different units see `C107_scale_units_mixed`. -/
theorem C107_scale_partial (factor : U → U → K) (hf : ∀ u, factor u u = 1) (ms : List (Map K U)) (w : List K)
    (im : List (Image K)) (h : plot2d factor ms none none = .ok (w, im))
    (hu : ∀ m ∈ ms, ∀ n ∈ ms, m.zUnit = n.zUnit) :
    ∃ lo hi, (∀ a ∈ im, a.norm = (lo, hi) ∧ ∀ j i, lo ≤ a.pixel j i ∧ a.pixel j i ≤ hi) ∧
      (∃ a ∈ im, ∃ j i, a.pixel j i = lo) ∧ ∃ a ∈ im, ∃ j i, a.pixel j i = hi := by
  obtain ⟨h1, -⟩ := C107_images factor ms none none w im h
  cases ms with
  | nil => cases h
  | cons m0 ms =>
    obtain ⟨lo, hi, g1, g2, ⟨m1, hm1, i1, j1, e1⟩, m2, hm2, i2, j2, e2⟩ := norm_range factor m0 ms w im h
    have hfac : ∀ m ∈ m0 :: ms, factor m.zUnit m0.zUnit = 1 := by
      intro m hm
      rw [hu m hm m0 (by simp)]
      exact hf _
    have hback : ∀ m ∈ m0 :: ms, ∀ i j, ∃ a ∈ im, ∃ j' i', a.pixel j' i' = m.z i j := by
      intro m hm i j
      obtain ⟨k, hk, rfl⟩ := List.getElem_of_mem hm
      have hk' : k < im.length := by rw [← h1.length_eq]; exact hk
      have := List.Forall₂.get h1 hk hk'
      simp only [List.get_eq_getElem] at this
      obtain ⟨hr, hc, e, -⟩ := this
      exact ⟨_, List.getElem_mem hk', Fin.cast hr.symm j, Fin.cast hc.symm i, by rw [e]; rfl⟩
    refine ⟨lo, hi, ?_, ?_, ?_⟩
    · intro a ha
      refine ⟨g1 a ha, ?_⟩
      intro j i
      obtain ⟨k, hk, rfl⟩ := List.getElem_of_mem ha
      have hk' : k < (m0 :: ms).length := by rw [h1.length_eq]; exact hk
      have := List.Forall₂.get h1 hk' hk
      simp only [List.get_eq_getElem] at this
      obtain ⟨hr, hc, e, -⟩ := this
      have hb := g2 _ (List.getElem_mem hk') (Fin.cast hc i) (Fin.cast hr j)
      rw [hfac _ (List.getElem_mem hk'), mul_one] at hb
      rw [e]
      exact hb
    · obtain ⟨a, ha, j, i, e⟩ := hback m1 hm1 i1 j1
      exact ⟨a, ha, j, i, by rw [e, e1, hfac m1 hm1, mul_one]⟩
    · obtain ⟨a, ha, j, i, e⟩ := hback m2 hm2 i2 j2
      exact ⟨a, ha, j, i, by rw [e, e2, hfac m2 hm2, mul_one]⟩

/-- A map of one pixel. -/
def onePixel (z : ℚ) (milli : Bool) : Map ℚ Bool where
  x := [0, 1]
  y := [0, 1]
  nx := 1
  ny := 1
  z _ _ := z
  ticks := none
  xUnit := true
  yUnit := true
  zUnit := milli

/-- The factor between barn and millibarn. -/
def barn (u v : Bool) : ℚ := if u = v then 1 else if u then 1 / 1000 else 1000

/-- **C107**: maps of the same intensity in barn and millibarn are drawn with the same range of colours but with
different numbers, the second outside of the range. -/
theorem C107_scale_units_mixed : ∃ w a b, plot2d barn [onePixel 1 false, onePixel 1000 true] none none = .ok (w, [a, b]) ∧
    a.norm = (1, 1) ∧ b.norm = (1, 1) ∧ (∀ j i, a.pixel j i = 1) ∧ ∀ j i, b.pixel j i = 1000 := by
  refine ⟨_, _, _, rfl, ?_, ?_, fun _ _ => rfl, fun _ _ => rfl⟩ <;> decide +kernel

theorem pyGet_last {α : Type} (l : List α) (b : α) (h : pyGet l (-1) = .ok b) : l.getLast? = some b := by
  cases l with
  | nil => cases h
  | cons c l =>
    have hj : (-1 + (((c :: l).length : ℕ) : ℤ)) = (l.length : ℤ) := by
      simp
    unfold pyGet at h
    simp only [hj] at h
    rw [List.getLast?_eq_getElem?]
    simp [show ¬ ((l.length : ℤ) < 0) by omega] at h
    simpa using h

/-- **C107**: the subplots are as wide as the distances of first and last point of their axes in a common unit. -/
theorem C107_map_widths (factor : U → U → K) (m0 : Map K U) (ms : List (Map K U)) (vmin vmax : Option K) (w : List K)
    (im : List (Image K)) (h : plot2d factor (m0 :: ms) vmin vmax = .ok (w, im)) :
    List.Forall₂ (fun m v => ∃ a b, m.x.head? = some a ∧ m.x.getLast? = some b ∧
      v = (b - a) * factor m.xUnit m0.xUnit) (m0 :: ms) w := by
  unfold plot2d at h
  simp only at h
  obtain ⟨w', h1, h⟩ := bind_ok h
  obtain ⟨mm, -, h⟩ := bind_ok h
  obtain ⟨lo, -, h⟩ := bind_ok h
  obtain ⟨hi, -, h⟩ := bind_ok h
  obtain ⟨im', -, h⟩ := bind_ok h
  cases h
  rw [mapM_ok_iff] at h1
  refine h1.imp ?_
  intro m v hv
  unfold qRange at hv
  dsimp only at hv
  obtain ⟨b, g1, hv⟩ := bind_ok hv
  obtain ⟨a, g2, hv⟩ := bind_ok hv
  cases hv
  cases hm : m.x with
  | nil => rw [hm] at g2; cases g2
  | cons c l =>
    rw [hm] at g1 g2
    refine ⟨c, (c :: l).getLast (by simp), rfl, List.getLast?_eq_some_getLast (by simp), ?_⟩
    have e2 : c * factor m.xUnit m0.xUnit = a := by
      simpa [pyGet] using g2
    have e1 : (c :: l).getLast (by simp) * factor m.xUnit m0.xUnit = b := by
      have := pyGet_last _ _ g1
      rw [List.getLast?_map, List.getLast?_eq_some_getLast (by simp)] at this
      simpa using this
    rw [← e1, ← e2]
    ring

/-- Two subplots of widths 1 and 2. -/
example : ∃ g d, plot1d [(⟨[0, 1], [(none, [5, 6])], none, (), ()⟩ : Lines ℚ Unit), ⟨[3, 4, 5], [(none, [5, 6, 7])], none,
    (), ()⟩] .none {} = .ok (g, d) ∧ g = [1, 2] ∧ d.length = 2 := by
  refine ⟨_, _, rfl, ?_⟩
  decide +kernel

/-- Maps in one unit: the range of colours is that of both maps. -/
example : ∃ w a b, plot2d barn [onePixel 1 true, onePixel 3 true] none none = .ok (w, [a, b]) ∧ w = [1, 1] ∧
    a.norm = (1, 3) ∧ b.norm = (1, 3) := by
  refine ⟨_, _, _, rfl, ?_, ?_, ?_⟩ <;> decide +kernel

end C107

end Euphonic.Plot
