import Verif.Model.Base
import Mathlib.Algebra.Order.Field.Basic
import Mathlib.Data.List.Sort

/-!
# Model of `split` (euphonic/spectra.py:152-219, 471-481, 1195-1206, 1516-1526, 1902-1912)

Magnitudes are elements of an ordered field; all data are taken in the display unit, as the code
does (it reads `self.x_data`, `self.y_data`).  Metadata is passed on untouched and is an arbitrary
type here; its aliasing is the subject of `Verif.Model.Heap`.
-/

set_option autoImplicit false

namespace Euphonic

/-- A list of tick labels as stored in `_x_tick_labels` (euphonic/spectra.py:86-108). -/
abbrev Ticks := Option (List (Int × String))

/-- `Spectrum1D` (euphonic/spectra.py:395-456): axis, intensities, tick labels, metadata. -/
structure Spec1D (α M : Type) where
  x : List α
  y : List α
  ticks : Ticks
  md : M
  deriving DecidableEq, Repr

/-- `Spectrum1D.__init__` (euphonic/spectra.py:421-456): the axis must have `ny` or `ny+1` values.
Type checks of the arguments are not represented (the Lean types guarantee them). -/
def Spec1D.new {α M : Type} (x y : List α) (ticks : Ticks) (md : M) : Except Err (Spec1D α M) :=
  if x.length = y.length ∨ x.length = y.length + 1 then .ok ⟨x, y, ticks, md⟩
  else .error .valueError

/-- `Spectrum._ranges_from_indices` (euphonic/spectra.py:159-171). -/
def rangesFromIndices : List Int → List (Int × Option Int)
  | [] => [(0, none)]
  | i :: is =>
    [(0, some i)]
      ++ (if (i :: is).length > 1 then
            List.zipWith (fun a b => (a, some b)) (i :: is) is
          else [])
      ++ [((i :: is).getLast (by simp), none)]

/-- `Spectrum._cut_x_ticks` (euphonic/spectra.py:173-183). -/
def cutXTicks (t : Ticks) (x0 : Int) (x1 : Option Int) : Ticks :=
  match t with
  | none => none
  | some l => some ((l.filter (fun p => decide (x0 ≤ p.1) &&
        (match x1 with | none => true | some e => decide (p.1 < e)))).map
          (fun p => (p.1 - x0, p.2)))

/-- `Spectrum1D._split_by_indices` (euphonic/spectra.py:471-481). -/
def Spec1D.splitByIndices {α M : Type} (s : Spec1D α M) (indices : List Int) :
    Except Err (List (Spec1D α M)) :=
  (rangesFromIndices indices).mapM fun r =>
    Spec1D.new (pySlice s.x r.1 r.2) (pySlice s.y r.1 r.2) (cutXTicks s.ticks r.1 r.2) s.md

/-- `numpy.median` (used in euphonic/spectra.py:155): the middle element of the sorted data or the
mean of the two middle elements.  The value for empty data (numpy: nan) is irrelevant to the code
modelled here and is 0. -/
def npMedian {α : Type} [Field α] [LinearOrder α] (l : List α) : α :=
  let s := l.mergeSort (fun a b => decide (a ≤ b))
  if s.length % 2 = 1 then s.getD (s.length / 2) 0
  else (s.getD (s.length / 2 - 1) 0 + s.getD (s.length / 2) 0) / 2

/-- The IEEE comparison `d / m > t` of euphonic/spectra.py:156 for finite `d`, `m`, `t`: for `m = 0`
the quotient is `+inf` (d > 0), `nan` (d = 0) or `-inf` (d < 0). -/
def ratioExceeds {α : Type} [Field α] [LinearOrder α] (d m t : α) : Bool :=
  if m = 0 then decide (0 < d) else decide (d / m > t)

/-- Positions where a list of truth values is true, shifted by `k`
(`np.where(...)[0] + k`, euphonic/spectra.py:156). -/
def whereTrue : List Bool → Int → List Int
  | [], _ => []
  | b :: bs, k => if b then k :: whereTrue bs (k + 1) else whereTrue bs (k + 1)

/-- The break points computed by `Spectrum._split_by_tol` (euphonic/spectra.py:152-157). -/
def breakpoints {α : Type} [Field α] [LinearOrder α] (x : List α) (btol : α) : List Int :=
  let d := npDiff x
  whereTrue (d.map fun v => ratioExceeds v (npMedian d) btol) 1

/-- `Spectrum._split_by_tol` (euphonic/spectra.py:152-157) for a `Spectrum1D`. -/
def Spec1D.splitByTol {α M : Type} [Field α] [LinearOrder α] (s : Spec1D α M) (btol : α) :
    Except Err (List (Spec1D α M)) :=
  s.splitByIndices (breakpoints s.x btol)

/-- `Spectrum.split` (euphonic/spectra.py:185-219) for a `Spectrum1D`. -/
def Spec1D.split {α M : Type} [Field α] [LinearOrder α] (s : Spec1D α M)
    (indices : Option (List Int)) (btol : Option α) : Except Err (List (Spec1D α M)) :=
  match indices with
  | none =>
    let btol := match btol with | none => 10 | some b => b
    s.splitByTol btol
  | some is =>
    match btol with
    | some _ => .error .valueError
    | none => s.splitByIndices is

/-- `Spectrum1DCollection` as far as `split` is concerned (euphonic/spectra.py:1108-1193):
shared axis and one row of intensities per line.  `ny` is the common row length. -/
structure Coll1D (α M : Type) where
  x : List α
  ny : Nat
  rows : List (List α)
  ticks : Ticks
  md : M
  deriving DecidableEq, Repr

/-- `Spectrum1DCollection.__init__` (euphonic/spectra.py:1148-1193).  `y_data` is a rectangular array
of `rows.length` rows of length `ny`; `len(y_data[0])` needs at least one row (`IndexError`).
The `line_data` length check is modelled in `Verif.Model.Collection`. -/
def Coll1D.new {α M : Type} (x : List α) (ny : Nat) (rows : List (List α)) (ticks : Ticks)
    (md : M) : Except Err (Coll1D α M) :=
  if rows = [] then .error .indexError
  else if x.length = ny ∨ x.length = ny + 1 then .ok ⟨x, ny, rows, ticks, md⟩
  else .error .valueError

/-- `Spectrum1DCollection._split_by_indices` (euphonic/spectra.py:1195-1206). -/
def Coll1D.splitByIndices {α M : Type} (s : Coll1D α M) (indices : List Int) :
    Except Err (List (Coll1D α M)) :=
  (rangesFromIndices indices).mapM fun r =>
    Coll1D.new (pySlice s.x r.1 r.2)
      (pySlice (List.range s.ny) r.1 r.2).length
      (s.rows.map fun y => pySlice y r.1 r.2)
      (cutXTicks s.ticks r.1 r.2) s.md

/-- `Spectrum2D` (euphonic/spectra.py:1425-1493): `z` is the list of x-rows, each of length `nyb`. -/
structure Spec2D (α M : Type) where
  x : List α
  y : List α
  nyb : Nat
  z : List (List α)
  ticks : Ticks
  md : M
  deriving DecidableEq, Repr

/-- `Spectrum2D.__init__` (euphonic/spectra.py:1452-1493). -/
def Spec2D.new {α M : Type} (x y : List α) (nyb : Nat) (z : List (List α)) (ticks : Ticks)
    (md : M) : Except Err (Spec2D α M) :=
  if (x.length = z.length ∨ x.length = z.length + 1) ∧ (y.length = nyb ∨ y.length = nyb + 1)
  then .ok ⟨x, y, nyb, z, ticks, md⟩
  else .error .valueError

/-- `Spectrum2D._split_by_indices` (euphonic/spectra.py:1516-1526). -/
def Spec2D.splitByIndices {α M : Type} (s : Spec2D α M) (indices : List Int) :
    Except Err (List (Spec2D α M)) :=
  (rangesFromIndices indices).mapM fun r =>
    Spec2D.new (pySlice s.x r.1 r.2) s.y s.nyb (pySlice s.z r.1 r.2)
      (cutXTicks s.ticks r.1 r.2) s.md

/-- `Spectrum2DCollection` as far as `split` is concerned (euphonic/spectra.py:1832-1900): one list of
x-rows per spectrum, each list of length `nx`. -/
structure Coll2D (α M : Type) where
  x : List α
  y : List α
  nx : Nat
  nyb : Nat
  zs : List (List (List α))
  ticks : Ticks
  md : M
  deriving DecidableEq, Repr

/-- `Spectrum2DCollection.__init__` (euphonic/spectra.py:1876-1900). -/
def Coll2D.new {α M : Type} (x y : List α) (nx nyb : Nat) (zs : List (List (List α)))
    (ticks : Ticks) (md : M) : Except Err (Coll2D α M) :=
  if (x.length = nx ∨ x.length = nx + 1) ∧ (y.length = nyb ∨ y.length = nyb + 1)
  then .ok ⟨x, y, nx, nyb, zs, ticks, md⟩
  else .error .valueError

/-- `Spectrum2DCollection._split_by_indices` (euphonic/spectra.py:1902-1912). -/
def Coll2D.splitByIndices {α M : Type} (s : Coll2D α M) (indices : List Int) :
    Except Err (List (Coll2D α M)) :=
  (rangesFromIndices indices).mapM fun r =>
    Coll2D.new (pySlice s.x r.1 r.2) s.y (pySlice (List.range s.nx) r.1 r.2).length s.nyb
      (s.zs.map fun z => pySlice z r.1 r.2)
      (cutXTicks s.ticks r.1 r.2) s.md

end Euphonic
