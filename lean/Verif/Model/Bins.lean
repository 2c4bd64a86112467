import Verif.Model.Base
import Mathlib.Algebra.Order.Field.Basic

/-!
# Model of the bin helpers (euphonic/spectra.py:306-392, 1699-1785)

Axis values are elements of an ordered field (units play no role: all helpers are homogeneous).
-/

set_option autoImplicit false

namespace Euphonic

/-- `Spectrum._bin_edges_to_centres` (euphonic/spectra.py:306-308):
`bin_edges[:-1] + 0.5*np.diff(bin_edges)`. -/
def binEdgesToCentres {α : Type} [Field α] (e : List α) : List α :=
  List.zipWith (fun a d => a + (1/2) * d) e.dropLast (npDiff e)

/-- `Spectrum._bin_centres_to_edges` (euphonic/spectra.py:310-315): first centre, mid-points, last
centre.  `bin_centres[0]` of an empty array raises `IndexError`. -/
def binCentresToEdges {α : Type} [Field α] (c : List α) : Except Err (List α) :=
  match c with
  | [] => .error .indexError
  | a :: l => .ok ([a] ++ List.zipWith (fun p q => (p + q) / 2) l (a :: l).dropLast
      ++ [(a :: l).getLast (by simp)])

/-- `Spectrum._is_bin_edge` (euphonic/spectra.py:317-327). -/
def isBinEdge (dataLength binLength : Nat) : Except Err Bool :=
  if binLength = dataLength + 1 then .ok true
  else if binLength = dataLength then .ok false
  else .error .valueError

/-- `Spectrum.get_bin_edges` (euphonic/spectra.py:329-345) and `Spectrum2D.get_bin_edges`
(euphonic/spectra.py:1699-1723) for an axis `x` and `n` data values along it. -/
def getBinEdges {α : Type} [Field α] (n : Nat) (x : List α) : Except Err (List α) := do
  if ← isBinEdge n x.length then return x else binCentresToEdges x

/-- `Spectrum.get_bin_centres` (euphonic/spectra.py:347-361) and `Spectrum2D.get_bin_centres`
(euphonic/spectra.py:1725-1746). -/
def getBinCentres {α : Type} [Field α] (n : Nat) (x : List α) : Except Err (List α) := do
  if ← isBinEdge n x.length then return binEdgesToCentres x else return x

/-- `Spectrum.get_bin_widths` (euphonic/spectra.py:363-367, 1748-1757). -/
def getBinWidths {α : Type} [Field α] (n : Nat) (x : List α) : Except Err (List α) := do
  return npDiff (← getBinEdges n x)

/-- `np.isclose(a, b, rtol, atol)` for finite numbers: `|a - b| <= atol + rtol*|b|`. -/
def npIsClose {α : Type} [Field α] [LinearOrder α] (rtol atol a b : α) : Bool :=
  decide (|a - b| ≤ atol + rtol * |b|)

/-- `Spectrum.assert_regular_bins` (euphonic/spectra.py:369-392) and
`Spectrum2D.assert_regular_bins` (euphonic/spectra.py:1759-1785). `bin_widths[0]` of an empty array
raises `IndexError`. -/
def assertRegularBins {α : Type} [Field α] [LinearOrder α] (n : Nat) (x : List α) (rtol atol : α) :
    Except Err Unit := do
  let w ← getBinWidths n x
  match w with
  | [] => .error .indexError
  | w0 :: _ => if w.all (fun v => npIsClose rtol atol v w0) then .ok () else .error .assertionError

/-- Bin edges as a `Spectrum2DCollection` computes them: the class does not override
`get_bin_edges` of the base class (euphonic/spectra.py:1832-1968 has no such method), so the last
extent of `y_data` - an axis of length `yAxisLen` - is compared with `x_data`
(euphonic/spectra.py:342). -/
def coll2dGetBinEdges {α : Type} [Field α] (yAxisLen : Nat) (x : List α) : Except Err (List α) :=
  getBinEdges yAxisLen x

end Euphonic
