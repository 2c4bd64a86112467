import Verif.Model.Bins
import Mathlib.Algebra.Order.Field.Basic

/-!
# Model of `euphonic/plot.py`

What is modelled is the sequence of calls to Matplotlib with their arguments. Matplotlib itself appears only
through the colour of a line: without a colour given, `Axes.plot` takes the next one of the cycle of the axes.
-/

set_option autoImplicit false
set_option linter.unusedSectionVars false

namespace Euphonic.Plot

/-! ## Lines -/

/-- The colour of a line: a colour of the cycle of the axes or a colour chosen by the user. -/
inductive Colour where
  | cycle (k : Nat)
  | given (c : String)
  deriving DecidableEq

/-- A call of `Axes.plot`: the points of the line, its colour and its label. -/
structure Stroke (K : Type) where
  x : List K
  y : List K
  colour : Colour
  label : Option String

/-- The keyword arguments `color` and `label` given by the user; the outer `none` means not given. -/
structure MplArgs where
  colour : Option (Option String) := none
  label : Option (Option String) := none

/-- `Axes.plot` as far as the colour goes: `st` colours of the cycle have been used. -/
def axPlot (st : Nat) (colour : Option Colour) : Colour × Nat :=
  match colour with
  | none => (.cycle st, st + 1)
  | some c => (c, st)

/-- `np.where(mask)[0] + 1`, counted from `k`. -/
def nonzeroSucc : List Bool → Nat → List Nat
  | [], _ => []
  | b :: l, k => if b then (k + 1) :: nonzeroSucc l (k + 1) else nonzeroSucc l (k + 1)

/-- `x_data[:-1] == x_data[1:]`. -/
def eqNext {K : Type} [DecidableEq K] (x : List K) : List Bool :=
  List.zipWith (fun a b => decide (a = b)) x.dropLast x.tail

/-- `breakpoints` in pairs (euphonic/plot.py:63-66, 73). -/
def segments {K : Type} [DecidableEq K] (x : List K) : List (Nat × Option Nat) :=
  let b := nonzeroSucc (eqNext x) 0
  List.zip (0 :: b) (b.map some ++ [none])

/-- `l[x0:x1]` for non-negative bounds. -/
def slice {α : Type} (l : List α) (x0 : Nat) (x1 : Option Nat) : List α :=
  match x1 with
  | none => l.drop x0
  | some e => (l.take e).drop x0

/-- The colour in the keyword arguments of `Axes.plot` (euphonic/plot.py:75-82). -/
def colourArg (mpl : MplArgs) (own : Option Colour) : Option Colour :=
  match mpl.colour with
  | none => own
  | some c => c.map Colour.given

/-- The label in the keyword arguments of `Axes.plot` (euphonic/plot.py:75-82). -/
def labelArg (mpl : MplArgs) (own : Option String) : Option String :=
  match mpl.label with
  | none => own
  | some l => l

/-- The inner loop (euphonic/plot.py:73-85): `prev` is the colour of the last line drawn, `label` the variable of
that name. -/
def drawLine {K : Type} (mpl : MplArgs) (cs ys : List K) :
    List (Nat × Option Nat) → Option String → Option Colour → Nat → Except Err (List (Stroke K) × Option Colour × Nat)
  | [], _, prev, st => .ok ([], prev, st)
  | (x0, x1) :: rest, label, prev, st =>
    if x0 = 0 then do
      let r := axPlot st (colourArg mpl none)
      let t ← drawLine mpl cs ys rest label (some r.1) r.2
      return (⟨slice cs x0 x1, slice ys x0 x1, r.1, labelArg mpl label⟩ :: t.1, t.2)
    else
      match prev with
      | none => .error .unboundLocalError
      | some c => do
        let r := axPlot st (colourArg mpl (some c))
        let t ← drawLine mpl cs ys rest none (some r.1) r.2
        return (⟨slice cs x0 x1, slice ys x0 x1, r.1, labelArg mpl none⟩ :: t.1, t.2)

/-- The outer loop (euphonic/plot.py:71-85) over pairs of label and line. -/
def drawLines {K : Type} [Field K] [DecidableEq K] (mpl : MplArgs) (x : List K) :
    List (Option String × List K) → Option Colour → Nat → Except Err (List (List (Stroke K)))
  | [], _, _ => .ok []
  | (label, y) :: rest, prev, st => do
    let cs ← getBinCentres y.length x
    let r ← drawLine mpl cs y (segments x) label prev st
    let t ← drawLines mpl x rest r.2.1 r.2.2
    return r.1 :: t

/-- The argument `labels`. -/
inductive Labels where
  | none
  | str (s : String)
  | seq (l : List (Option String))

/-- The labels of the lines (euphonic/plot.py:55-60, 68-69); `own` are the labels in the metadata. -/
def chooseLabels (labels : Labels) (own : List (Option String)) : Except Err (List (Option String)) :=
  match labels with
  | .none => .ok own
  | .str s => if 1 ≠ own.length then .error .valueError else .ok [some s]
  | .seq l => if l.length ≠ own.length then .error .valueError else .ok l

/-- `min(a)` and `max(a)` of an array. -/
def minMax {K : Type} [LinearOrder K] (l : List K) : Except Err (K × K) :=
  match l with
  | [] => .error .valueError
  | a :: r => .ok (r.foldl min a, r.foldl max a)

/-- Ticks: positions, labels, whether the labels are rotated. -/
structure TickMarks (K : Type) where
  at_ : List K
  labels : List String
  rotated : Bool

/-- `_set_x_tick_labels` (euphonic/plot.py:327-339). `zip(*[])` cannot be unpacked. -/
def setXTicks {K : Type} (ticks : Option (List (Int × String))) (x : List K) : Except Err (Option (TickMarks K)) :=
  match ticks with
  | none => .ok none
  | some [] => .error .valueError
  | some t => do
    let v ← (t.map Prod.fst).mapM (pyGet x)
    return some ⟨v, t.map Prod.snd, (t.map Prod.snd).any fun s => decide (11 ≤ s.length)⟩

/-- A collection of lines with a common axis, each with the label of its metadata. -/
structure Lines (K U : Type) where
  x : List K
  lines : List (Option String × List K)
  ticks : Option (List (Int × String))
  xUnit : U
  yUnit : U

/-- What is drawn on axes. -/
structure Drawn (K : Type) where
  strokes : List (List (Stroke K))
  xlim : K × K
  ticks : Option (TickMarks K)

/-- `plot_1d_to_axis` (euphonic/plot.py:21-95) on axes where `st` colours have been used. A `Spectrum1D` is a
collection with one line. -/
def plot1dToAxis {K U : Type} [Field K] [LinearOrder K] (s : Lines K U) (labels : Labels) (mpl : MplArgs) (st : Nat) :
    Except Err (Drawn K) := do
  let ls ← chooseLabels labels (s.lines.map Prod.fst)
  let d ← drawLines mpl s.x (List.zip ls (s.lines.map Prod.snd)) none st
  let lim ← minMax s.x
  let t ← setXTicks s.ticks s.x
  return ⟨d, lim, t⟩

/-! ## Subplots -/

/-- `_get_gridspec_kw` (euphonic/plot.py:342-367). Division by zero, which gives `inf` or `nan`, is division in
the field. -/
def gridspec {K U : Type} [Field K] [LinearOrder K] (ss : List (Lines K U)) : Except Err (List K) := do
  let w ← ss.mapM fun s => do
    let m ← minMax s.x
    return m.2 - m.1
  return w.map (· / w.headD 0)

/-- `plot_1d` (euphonic/plot.py:98-195) for a sequence of collections: the widths of the subplots and what is drawn
on each. Every subplot has new axes; Matplotlib makes no figure of zero subplots. -/
def plot1d {K U : Type} [Field K] [LinearOrder K] [DecidableEq U] (ss : List (Lines K U)) (labels : Labels)
    (mpl : MplArgs) : Except Err (List K × List (Drawn K)) :=
  if ss.isEmpty then .error .valueError
  else if ss.tail.all fun s => some s.xUnit = (ss.head?.map Lines.xUnit) ∧ some s.yUnit = (ss.head?.map Lines.yUnit) then do
    let g ← gridspec ss
    let d ← ss.mapM fun s => plot1dToAxis s labels mpl 0
    return (g, d)
  else .error .valueError

/-! ## Maps -/

/-- A map with the units of its three kinds of numbers. -/
structure Map (K U : Type) where
  x : List K
  y : List K
  nx : Nat
  ny : Nat
  z : Fin nx → Fin ny → K
  ticks : Option (List (Int × String))
  xUnit : U
  yUnit : U
  zUnit : U

/-- An image: positions of columns and rows, pixels (row, column), the values shown by the lowest and the highest
colour, limits of the axes. -/
structure Image (K : Type) where
  xs : List K
  ys : List K
  nrow : Nat
  ncol : Nat
  pixel : Fin nrow → Fin ncol → K
  norm : K × K
  xlim : K × K
  ylim : K × K
  ticks : Option (TickMarks K)

/-- `plot_2d_to_axis` (euphonic/plot.py:198-245) with a given normalisation; numbers are in the units of the map. -/
def plot2dToAxis {K U : Type} [Field K] [LinearOrder K] (m : Map K U) (norm : K × K) : Except Err (Image K) := do
  let xl ← minMax (← getBinEdges m.nx m.x)
  let yl ← minMax (← getBinEdges m.ny m.y)
  let xs ← getBinCentres m.nx m.x
  let ys ← getBinCentres m.ny m.y
  let t ← setXTicks m.ticks m.x
  return ⟨xs, ys, m.ny, m.nx, fun j i => m.z i j, norm, xl, yl, t⟩

/-- All intensities of a map in another unit. -/
def Map.values {K U : Type} [Field K] (factor : U → U → K) (u : U) (m : Map K U) : List K :=
  (List.ofFn fun i => List.ofFn fun j => m.z i j * factor m.zUnit u).flatten

/-- `_get_q_range` (euphonic/plot.py:289-291). -/
def qRange {K U : Type} [Field K] (factor : U → U → K) (u : U) (m : Map K U) : Except Err K := do
  let d := m.x.map (· * factor m.xUnit u)
  return (← pyGet d (-1)) - (← pyGet d 0)

/-- `plot_2d` (euphonic/plot.py:248-324): widths of the subplots and images. `factor u v` is the factor from unit `u`
to unit `v`. -/
def plot2d {K U : Type} [Field K] [LinearOrder K] (factor : U → U → K) (ms : List (Map K U))
    (vmin vmax : Option K) : Except Err (List K × List (Image K)) :=
  match ms with
  | [] => .error .indexError
  | m0 :: _ => do
    let w ← ms.mapM (qRange factor m0.xUnit)
    let mm ← ms.mapM fun m => minMax (m.values factor m0.zUnit)
    let lo ← minMax (mm.map Prod.fst)
    let hi ← minMax (mm.map Prod.snd)
    let im ← ms.mapM fun m => plot2dToAxis m (vmin.getD lo.1, vmax.getD hi.2)
    return (w, im)

end Euphonic.Plot
