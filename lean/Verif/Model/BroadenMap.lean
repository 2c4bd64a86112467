import Verif.Model.Broaden
import Verif.Model.Supercell

/-!
# Model of `broaden` with width functions for spectra given by edges or centres, maps and collections
(euphonic/spectra.py:648-676, 1306-1397, 1523-1692)
-/

set_option autoImplicit false

namespace Euphonic.Broaden

/-- The edges and the centres of the bins of an axis. -/
structure Axis (n : Nat) where
  edges : Fin (n + 1) → ℝ
  centres : Fin n → ℝ

/-- `get_bin_edges` and `get_bin_centres` of an axis `x` (edges or centres) with `n` values
(euphonic/spectra.py:329-361, 1699-1746). -/
noncomputable def axisOf (n : Nat) (x : List ℝ) : Except Err (Axis n) := do
  let e ← getBinEdges n x
  let c ← getBinCentres n x
  return ⟨fun i => e.getD i.val 0, fun i => c.getD i.val 0⟩

/-- The widths of the bins (`np.diff(bins)`). -/
noncomputable def Axis.diffs {n : Nat} (a : Axis n) : List ℝ :=
  (List.finRange n).map fun i => a.edges i.succ - a.edges i.castSucc

/-- `variable_width_broadening` (euphonic/broadening.py:73-101) of `n` weights at the centres of the bins
of an axis; without a lower limit the largest bin width is used. -/
noncomputable def variableWidth (coeffs : ℝ → List ℝ) (convention shape fit : String) (error : ℝ)
    (limit : Option ℝ) {n : Nat} (a : Axis n) (width : ℝ → ℝ) (wts : Fin n → ℝ) :
    Except Err (Fin n → ℝ) := do
  let peaks ← (List.finRange n).mapM fun i => do
    let w ← effectiveWidth convention shape (limit.getD (a.diffs.foldr max (a.diffs.headD 0)))
      (width (a.centres i))
    return Peak.mk (a.centres i) w (wts i)
  widthInterpolated coeffs shape fit error a.edges peaks

/-- `Spectrum1D.broaden` with a function (euphonic/spectra.py:656-676): the new y data.  The axis must be
regular within the default tolerances (euphonic/spectra.py:369-371). -/
noncomputable def broaden1dFn (coeffs : ℝ → List ℝ) (convention shape fit : String) (error : ℝ)
    (limit : Option ℝ) {n : Nat} (x : List ℝ) (width : ℝ → ℝ) (d : Fin n → ℝ) : Except Err (Fin n → ℝ) := do
  assertRegularBins n x (1 / 10 ^ 5) 0
  let a ← axisOf n x
  variableWidth coeffs convention shape fit error limit a width fun i => d i * a.diffs.headD 0

/-- The bin width by which a map is multiplied (euphonic/spectra.py:1654-1661): the first one if all are
close to it, otherwise their mean. -/
noncomputable def mapBinWidth (diffs : List ℝ) : Except Err ℝ :=
  match diffs with
  | [] => .error .indexError
  | w0 :: l =>
    if (w0 :: l).all fun v => npIsClose (1 / 10 ^ 5) (1 / 10 ^ 8) v w0 then .ok w0
    else .ok ((w0 :: l).sum / ((w0 :: l).length : ℝ))

/-- `_broaden_spectrum2d_with_function` for the rows of a map, i.e. along y
(euphonic/spectra.py:1654-1692, `axis='y'`). -/
noncomputable def alongY (coeffs : ℝ → List ℝ) (convention shape fit : String) (error : ℝ)
    (limit : Option ℝ) {n m : Nat} (y : List ℝ) (width : ℝ → ℝ) (d : Fin n → Fin m → ℝ) :
    Except Err (Fin n → Fin m → ℝ) := do
  let a ← axisOf m y
  let bw ← mapBinWidth a.diffs
  Supercell.finMapM fun i => variableWidth coeffs convention shape fit error limit a width fun j => d i j * bw

/-- `_broaden_spectrum2d_with_function` along x: the map is transposed before and after
(euphonic/spectra.py:1666-1667, 1685-1686). -/
noncomputable def alongX (coeffs : ℝ → List ℝ) (convention shape fit : String) (error : ℝ)
    (limit : Option ℝ) {n m : Nat} (x : List ℝ) (width : ℝ → ℝ) (d : Fin n → Fin m → ℝ) :
    Except Err (Fin n → Fin m → ℝ) := do
  let r ← alongY coeffs convention shape fit error limit x width fun j i => d i j
  return fun i j => r j i

/-- A width: not given, a quantity or a function. -/
inductive Width where
  | none
  | fixed (w : ℝ)
  | fn (f : ℝ → ℝ)

/-- The width if it is a quantity (euphonic/spectra.py:1596-1606). -/
def Width.quantity : Width → Option ℝ
  | .fixed w => some w
  | _ => Option.none

/-- Options of `broaden` that concern width functions. -/
structure FnOpts where
  coeffs : ℝ → List ℝ
  convention : String
  shape : String
  fit : String
  error : ℝ

/-- The loop body for the x axis (euphonic/spectra.py:1625-1633). -/
noncomputable def fnX (o : FnOpts) (limit : Option ℝ) {n m : Nat} (x : List ℝ) (w : Width)
    (d : Fin n → Fin m → ℝ) : Except Err (Fin n → Fin m → ℝ) :=
  match w with
  | .fn f => alongX o.coeffs o.convention o.shape o.fit o.error limit x f d
  | _ => .ok d

/-- The loop body for the y axis (euphonic/spectra.py:1625-1633). -/
noncomputable def fnY (o : FnOpts) (limit : Option ℝ) {n m : Nat} (y : List ℝ) (w : Width)
    (d : Fin n → Fin m → ℝ) : Except Err (Fin n → Fin m → ℝ) :=
  match w with
  | .fn f => alongY o.coeffs o.convention o.shape o.fit o.error limit y f d
  | _ => .ok d

/-- `Spectrum2D.broaden` (euphonic/spectra.py:1594-1635): the new z data.  First the widths that are
quantities, then the functions, x before y. -/
noncomputable def broadenMap (o : FnOpts) (method : Option String) (limx limy : Option ℝ) {n m : Nat}
    (x y : List ℝ) (wx wy : Width) (d : Fin n → Fin m → ℝ) : Except Err (Fin n → Fin m → ℝ) := do
  let s ← broaden2d o.shape method x y wx.quantity wy.quantity d
  let s ← fnX o limx x wx s
  fnY o limy y wy s

/-- Is the object returned by `Spectrum2D.broaden` the spectrum itself (euphonic/spectra.py:1620-1621,
1635)? -/
noncomputable def sameObject (wx wy : Width) : Bool :=
  !anyWidth wx.quantity wy.quantity &&
    (match wx with | .fn _ => false | _ => true) && (match wy with | .fn _ => false | _ => true)

/-- `Spectrum1D.broaden` (euphonic/spectra.py:648-676); anything but a quantity or a function is refused. -/
noncomputable def broadenLine (o : FnOpts) (method : Option String) (limit : Option ℝ) {n : Nat} (x : List ℝ)
    (w : Width) (d : Fin n → ℝ) : Except Err (Fin n → ℝ) :=
  match w with
  | .fixed w => broaden1d o.shape method x w d
  | .fn f => broaden1dFn o.coeffs o.convention o.shape o.fit o.error limit x f d
  | .none => .error .typeError

/-- The new y data of `Spectrum1DCollection.broaden` (euphonic/spectra.py:1366-1397).  With a quantity the
centres are found once and every line is filtered; with a function every spectrum of the collection is
broadened and a new collection is made of them, which is refused if there are none
(`from_spectra`, euphonic/spectra.py:1210-1211). -/
noncomputable def broadenColl (o : FnOpts) (method : Option String) (limit : Option ℝ) {k n : Nat}
    (x : List ℝ) (w : Width) (d : Fin k → Fin n → ℝ) : Except Err (Fin k → Fin n → ℝ) :=
  match w with
  | .fixed w => do
    let c ← getBinCentres n x
    Supercell.finMapM fun i => do
      checks o.shape method c (some w) [] Option.none
      return axisFilter o.shape c w (d i)
  | .fn f =>
    if k = 0 then .error .indexError
    else Supercell.finMapM fun i => broaden1dFn o.coeffs o.convention o.shape o.fit o.error limit x f (d i)
  | .none => .error .typeError

end Euphonic.Broaden
