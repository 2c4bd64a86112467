import Verif.Model.Base

/-!
# Model of the references held by the C extension (c/_euphonic.c:94-180, 286-304, c/py_util.c)

Objects are named by the attribute they are read from. A call gives an outcome and the changes of reference counts in
order. The calculation itself does not touch Python objects.
-/

set_option autoImplicit false

namespace Euphonic.CRefs

/-- A change of the reference count of the object with this name. -/
inductive Ev where
  | inc (name : String)
  | dec (name : String)
  deriving DecidableEq

/-- How a call ends; `undefined`: a pointer that was never set is used. -/
inductive Outcome where
  | returns
  | raises (e : Err)
  | undefined
  deriving DecidableEq

/-- What the call is given: whether the arguments have the right types and LAPACK is found, the names of the attributes of
the force constants and of the crystal and of the keys of `_dipole_init_data`; types of `n_atoms` and `lambda`. -/
structure Call where
  parsed : Bool
  loaded : Bool
  dipole : Bool
  attrs : List String
  crystal : List String
  nAtomsInt : Bool
  dict : List String
  lambdaFloat : Bool

/-- `attr_from_pyobj(..) || attr_from_pyobj(..) || ..` (c/py_util.c:35-48): a new reference for each attribute up to the first
that is missing. -/
def attrsFrom (have_ : List String) : List String → Bool × List Ev
  | [] => (true, [])
  | n :: ns => if have_.contains n then
      let r := attrsFrom have_ ns
      (r.1, .inc n :: r.2)
    else (false, [])

/-- `int_from_pyobj(py_crystal, "n_atoms", ..) || attr_from_pyobj(py_crystal, "atom_r", ..)` (c/_euphonic.c:154-160,
c/py_util.c:50-68): a missing `n_atoms` is not noticed. -/
def fromCrystal (c : Call) : Outcome × List Ev :=
  if !c.crystal.contains "n_atoms" then (.undefined, [])
  else if !c.nAtomsInt then (.raises .runtimeError, [.inc "n_atoms"])
  else if !c.crystal.contains "atom_r" then (.raises .runtimeError, [.inc "n_atoms"])
  else (.returns, [.inc "n_atoms", .inc "atom_r"])

/-- The keys read from `_dipole_init_data` as borrowed references (c/_euphonic.c:143-147). -/
def dictKeys : List String := ["H_ab", "cells", "gvec_phases", "gvecs_cart", "dipole_q0"]

/-- The part for dipole corrections (c/_euphonic.c:131-152, c/py_util.c:7-33): a missing `lambda` is not noticed. -/
def fromDipole (c : Call) : Outcome × List Ev :=
  match attrsFrom c.attrs ["_dipole_init_data"] with
  | (false, ev) => (.raises .runtimeError, ev)
  | (true, ev) => match attrsFrom c.attrs ["_born", "_dielectric"] with
    | (false, ev') => (.raises .runtimeError, ev ++ ev')
    | (true, ev') =>
      if !c.dict.contains "lambda" then (.undefined, ev ++ ev')
      else if !c.lambdaFloat then (.raises .runtimeError, ev ++ ev')
      else if dictKeys.all c.dict.contains then (.returns, ev ++ ev')
      else (.raises .runtimeError, ev ++ ev')

/-- `if (dipole) { .. }` (c/_euphonic.c:131-152). -/
def dipolePart (c : Call) : Outcome × List Ev := if c.dipole then fromDipole c else (.returns, [])

/-- The end of a calculation (c/_euphonic.c:287-303). -/
def release (c : Call) : List Ev :=
  [.dec "crystal", .dec "_n_sc_images", .dec "_sc_image_i", .dec "cell_origins", .dec "atom_r"] ++
    if c.dipole then [.dec "_born", .dec "_dielectric", .dec "_dipole_init_data"] else []

/-- `calculate_phonons` (c/_euphonic.c:94-304). -/
def calculate (c : Call) : Outcome × List Ev :=
  if !c.parsed then (.raises .typeError, [])
  else if !c.loaded then (.raises .runtimeError, [])
  else match attrsFrom c.attrs ["crystal", "_n_sc_images", "_sc_image_i", "cell_origins"] with
  | (false, ev) => (.raises .runtimeError, ev)
  | (true, ev) => match dipolePart c with
    | (.returns, ev') => match fromCrystal c with
      | (.returns, ev'') => (.returns, ev ++ ev' ++ ev'' ++ release c)
      | (o, ev'') => (o, ev ++ ev' ++ ev'')
    | (o, ev') => (o, ev ++ ev')

end Euphonic.CRefs
