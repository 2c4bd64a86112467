import Verif.Model.Base
import Verif.Model.Split
import Mathlib.Algebra.Order.Field.Basic

/-!
# Model of quantities with units

Models `euphonic/validate.py:58-90` (`_check_unit_conversion`), the unit attributes of the data
classes and the scaling operators of the spectrum classes.  The pint registry is modelled by units
that are affine functions of a base unit of their dimension (the offset is only non-zero for
temperature scales), together with the conversions between dimensions of the two contexts used:
`spectroscopy`, enabled globally in euphonic/__init__.py:16, and `reciprocal_spectroscopy`
(euphonic/data/reciprocal_spectroscopy_definitions.txt).  Not modelled: parsing of unit strings
(units are given as values), numpy overflow.
-/

set_option autoImplicit false

namespace Euphonic

/-- Dimensions as far as conversions are concerned.  `energy` also stands for frequency and
wavenumber, which the `spectroscopy` context converts linearly into energy; `recEnergy` is 1/energy;
`other n` are all further dimensions. -/
inductive Dim where
  | energy
  | length
  | recEnergy
  | other (n : Nat)
  deriving DecidableEq, Repr

/-- A unit: dimension and affine map to the base unit of the dimension. -/
structure PUnit' (α : Type) where
  dim : Dim
  scale : α
  offset : α
  deriving DecidableEq, Repr

variable {α : Type} [Field α]

/-- Magnitude in base units. -/
def PUnit'.toBase (u : PUnit' α) (v : α) : α := u.scale * v + u.offset

/-- Magnitude in unit `u` of a value given in base units. -/
def PUnit'.fromBase (u : PUnit' α) (b : α) : α := (b - u.offset) / u.scale

/-- `Quantity(v, u).to(w)` with the globally enabled `spectroscopy` context (pint; euphonic
/__init__.py:16).  Lengths and energies are converted into each other reciprocally (wavelength of a
photon, base units such that `h c = 1`).  `none` is `DimensionalityError`. -/
def conv (u w : PUnit' α) (v : α) : Option α :=
  if u.dim = w.dim then some (w.fromBase (u.toBase v))
  else match u.dim, w.dim with
    | .energy, .length => some (w.fromBase (1 / u.toBase v))
    | .length, .energy => some (w.fromBase (1 / u.toBase v))
    | _, _ => none

/-- `Quantity(v, u).to(w, "reciprocal_spectroscopy")`: additionally lengths and inverse energies are
proportional (euphonic/data/reciprocal_spectroscopy_definitions.txt:5-6). -/
def convRs (u w : PUnit' α) (v : α) : Option α :=
  match u.dim, w.dim with
  | .length, .recEnergy => some (w.fromBase (u.toBase v))
  | .recEnergy, .length => some (w.fromBase (u.toBase v))
  | _, _ => conv u w v

/-- `_check_unit_conversion` (euphonic/validate.py:58-90) for an existing unit attribute with value
`cur`: the new unit is accepted iff one current unit can be converted to it. -/
def checkUnit (cur new : PUnit' α) : Except Err Unit :=
  match convRs cur new 1 with
  | some _ => .ok ()
  | none => .error .valueError

/-- An attribute stored in a fixed internal unit, with a display unit: `Crystal.cell_vectors`,
`Crystal.atom_mass` (euphonic/crystal.py:71-104), `frequencies` (euphonic/qpoint_frequencies.py:70-92),
`force_constants`, `born`, `dielectric` (euphonic/force_constants.py:104-164),
`structure_factors` (euphonic/structure_factor.py:80-120),
`debye_waller` (euphonic/debye_waller.py:54-68).  The data array is flattened. -/
structure FAttr (α : Type) where
  internal : PUnit' α
  data : List α
  unit : PUnit' α
  deriving Repr

/-- Reading: `self._data*ureg(internal).to(self.unit)`: the array is multiplied by the conversion of
one internal unit (euphonic/crystal.py:83-84 and the other classes). -/
def FAttr.get (a : FAttr α) : Except Err (List α) :=
  match conv a.internal a.unit 1 with
  | some f => .ok (a.data.map (· * f))
  | none => .error .dimensionalityError

/-- Assignment of the unit attribute: check, then store (euphonic/crystal.py:101-104 etc.). -/
def FAttr.setUnit (a : FAttr α) (w : PUnit' α) : Except Err (FAttr α) := do
  checkUnit a.unit w
  return { a with unit := w }

/-- Assignment of a quantity with magnitudes `v` and unit `w`: the unit attribute is assigned first
(and checked), then the value is converted to the internal unit (euphonic/crystal.py:86-89 etc.).
Returns the object after the statement and the exception, if any. -/
def FAttr.set (a : FAttr α) (v : List α) (w : PUnit' α) : FAttr α × Except Err Unit :=
  match a.setUnit w with
  | .error e => (a, .error e)
  | .ok a' => match v.mapM (conv w a.internal) with
    | none => (a', .error .dimensionalityError)
    | some d => ({ a' with data := d }, .ok ())

/-- An attribute of a spectrum (`x_data`, `y_data`, `z_data`: euphonic/spectra.py:44-68, 1495-1504) or
a temperature (euphonic/debye_waller.py:70-78): the internal unit is the unit of the value given to
the constructor (kelvin for temperatures) and conversion is elementwise. -/
structure QAttr (α : Type) where
  internal : PUnit' α
  data : List α
  unit : PUnit' α
  deriving Repr

/-- `Spectrum._set_data` (euphonic/spectra.py:44-48). -/
def QAttr.new (v : List α) (u : PUnit' α) : QAttr α := ⟨u, v, u⟩

/-- Reading (euphonic/spectra.py:50-53, 60-63, 1495-1499). -/
def QAttr.get (a : QAttr α) : Except Err (List α) :=
  match a.data.mapM (convRs a.internal a.unit) with
  | some l => .ok l
  | none => .error .dimensionalityError

/-- Assignment of the unit attribute (euphonic/spectra.py:39-42, 1511-1514). -/
def QAttr.setUnit (a : QAttr α) (w : PUnit' α) : Except Err (QAttr α) := do
  checkUnit a.unit w
  return { a with unit := w }

/-- Assignment of a quantity (euphonic/spectra.py:55-58, 65-68, 1501-1504): unit first, then the
value converted *without* the `reciprocal_spectroscopy` context. -/
def QAttr.set (a : QAttr α) (v : List α) (w : PUnit' α) : QAttr α × Except Err Unit :=
  match a.setUnit w with
  | .error e => (a, .error e)
  | .ok a' => match v.mapM (conv w a.internal) with
    | none => (a', .error .dimensionalityError)
    | some d => ({ a' with data := d }, .ok ())

/-! ## Scaling of spectra -/

/-- The four spectrum classes (euphonic/spectra.py:395, 1108, 1425, 1832). -/
inductive SpecClass where
  | spectrum1D
  | spectrum1DCollection
  | spectrum2D
  | spectrum2DCollection
  deriving DecidableEq, Repr

/-- A spectrum object of any class; `z` is unused in the one-dimensional classes. Data arrays are
flattened. -/
structure AnySpec (M α : Type) where
  cls : SpecClass
  x : QAttr α
  y : QAttr α
  z : QAttr α
  ticks : Ticks
  md : M
  deriving Repr

variable {M : Type}

/-- `copy` (euphonic/spectra.py:483-488, 872-874, 1691-1697): a new object built from the display
values, so the internal units become the display units.  For the collections `copy` is the method of
the item class. -/
def AnySpec.copy (s : AnySpec M α) : Except Err (AnySpec M α) := do
  let x ← s.x.get
  let y ← s.y.get
  match s.cls with
  | .spectrum1D | .spectrum1DCollection =>
    return { s with x := .new x s.x.unit, y := .new y s.y.unit }
  | .spectrum2D | .spectrum2DCollection =>
    let z ← s.z.get
    return { s with x := .new x s.x.unit, y := .new y s.y.unit, z := .new z s.z.unit }

/-- `s *= k`.  `Spectrum.__imul__` (euphonic/spectra.py:70-73) multiplies `_y_data`; `Spectrum2D`
overrides it (euphonic/spectra.py:1506-1509); `Spectrum2DCollection`
(euphonic/spectra.py:1832-1968) inherits from `SpectrumCollectionMixin` and `Spectrum` and does not
override it, so the base-class method applies. -/
def AnySpec.imul (s : AnySpec M α) (k : α) : Except Err (AnySpec M α) :=
  match s.cls with
  | .spectrum1D | .spectrum1DCollection | .spectrum2DCollection =>
    .ok { s with y := { s.y with data := s.y.data.map (· * k) } }
  | .spectrum2D => do
    let z ← s.z.get
    match s.z.set (z.map (· * k)) s.z.unit with
    | (z', .ok ()) => return { s with z := z' }
    | (_, .error e) => throw e

/-- `s * k` (euphonic/spectra.py:75-79). -/
def AnySpec.mul (s : AnySpec M α) (k : α) : Except Err (AnySpec M α) := do
  (← s.copy).imul k

end Euphonic
