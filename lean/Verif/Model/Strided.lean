import Verif.Model.Base
import Mathlib.Data.Complex.Basic
import Mathlib.Data.Real.Archimedean

/-!
# Model of the memory of arrays given to the C extension
(euphonic/validate.py:105-180, euphonic/force_constants.py:669-694, c/_euphonic.c:96-199)

A numpy array is a type, a shape, strides and a position in a memory of elements. The C code reads the elements one after
the other from that position and takes them for a type of its own. Numbers are exact; integers wrap around when they are
made 32 bits wide.
-/

set_option autoImplicit false

namespace Euphonic.Strided

/-- The types of elements; the number is the width in bits. -/
inductive Kind where
  | int (bits : Nat)
  | float (bits : Nat)
  | complex (bits : Nat)
  | bool
  deriving DecidableEq

/-- A numpy array; strides and the position are counted in elements. -/
structure Arr where
  kind : Kind
  shape : List Nat
  strides : List ℤ
  offset : ℤ
  mem : ℤ → ℂ

/-- Distance of an element from the first one. -/
def dot (idx : List Nat) (strides : List ℤ) : ℤ :=
  (List.zipWith (fun (i : Nat) (s : ℤ) => (i : ℤ) * s) idx strides).sum

/-- `arr[idx]`. -/
def Arr.elem (a : Arr) (idx : List Nat) : ℂ := a.mem (a.offset + dot idx a.strides)

/-- The strides of a new array with `order='C'`. -/
def rowMajor : List Nat → List ℤ
  | [] => []
  | _ :: s => (s.prod : ℤ) :: rowMajor s

/-- The flag `C_CONTIGUOUS` of numpy: strides of axes with one element do not matter, empty arrays are contiguous. -/
def Arr.isC (a : Arr) : Bool :=
  a.shape.contains 0 ||
    (List.zip a.shape (List.zip a.strides (rowMajor a.shape))).all fun t => decide (t.1 = 1 ∨ t.2.1 = t.2.2)

/-- The index of the element with number `k` in row-major order. -/
def unravel : List Nat → Nat → List Nat
  | [], _ => []
  | _ :: s, k => k / s.prod :: unravel s (k % s.prod)

/-- Conversion of a number to the type of the C code: integers to 32 bits, other numbers unchanged (conversion of numbers
of more than double precision is not modelled). -/
noncomputable def convert : Kind → ℂ → ℂ
  | .int _, v => ((Int.bmod ⌊v.re⌋ (2 ^ 32) : ℤ) : ℂ)
  | _, v => v

/-- `_get_dtype` (euphonic/validate.py:160-180); `astype(None)` gives doubles. -/
def target : Kind → Kind
  | .int _ => .int 32
  | .float _ => .float 64
  | .complex _ => .complex 128
  | .bool => .float 64

/-- `arr.astype(_get_dtype(arr), order='C', copy=False)` (euphonic/validate.py:125, 131, 156-157): the same array if type
and order are right, otherwise a new one. -/
noncomputable def ensure (a : Arr) : Arr :=
  if a.kind = target a.kind ∧ a.isC = true then a
  else ⟨target a.kind, a.shape, rowMajor a.shape, 0, fun k => convert a.kind (a.elem (unravel a.shape k.toNat))⟩

/-- Attributes of an object: names with an array, or with `None`. -/
abbrev Attrs := List (String × Option Arr)

/-- `getattr`, and `.astype` of what is found. -/
def getArr (o : Attrs) (name : String) : Except Err Arr :=
  match o.find? (fun p => p.1 = name) with
  | some (_, some a) => .ok a
  | _ => .error .attributeError

/-- `setattr` of an attribute that exists. -/
def setArr (o : Attrs) (name : String) (a : Arr) : Attrs := o.map fun p => if p.1 = name then (p.1, some a) else p

/-- The loops of `_ensure_contiguous_attrs` (euphonic/validate.py:123-135). -/
noncomputable def ensureAttrs (o : Attrs) (required opt : List String) : Except Err Attrs := do
  let o ← required.foldlM (fun o n => do
    let a ← getArr o n
    return setArr o n (ensure a)) o
  return opt.foldl (fun o n => match getArr o n with
    | .ok a => setArr o n (ensure a)
    | .error _ => o) o

/-- What the C code finds in an array it takes for type `want` (`PyArray_DATA`, c/_euphonic.c:161-199); `junk` is what bits of
another type mean. -/
noncomputable def cView (junk : Kind → Kind → (ℤ → ℂ) → ℤ → ℂ) (want : Kind) (a : Arr) (k : Nat) : ℂ :=
  if a.kind = want then a.mem (a.offset + k) else junk a.kind want a.mem (a.offset + k)

/-- The attributes that the call makes contiguous (euphonic/force_constants.py:682-686). -/
def requiredAttrs : List String := ["_n_sc_images", "_sc_image_i", "cell_origins"]

/-- The optional ones (euphonic/force_constants.py:683-685). -/
def dipoleAttrs : List String :=
  ["atom_r", "_born", "_dielectric", "_H_ab", "_cells", "_gvec_phases", "_gvecs_cart", "_dipole_q0"]

/-- What is given to `calculate_phonons` (euphonic/force_constants.py:669-694): the arguments, the attributes of the force
constants, the attribute `atom_r` of the crystal and the arrays in `_dipole_init_data`. -/
structure Call where
  args : List Arr
  attrs : Attrs
  atomR : Arr
  dipole : List (String × Arr)

/-- The preparation of the call (euphonic/force_constants.py:675-686). -/
noncomputable def prepare (c : Call) : Except Err Call := do
  let attrs ← ensureAttrs c.attrs requiredAttrs dipoleAttrs
  return { c with args := c.args.map ensure, attrs := attrs }

end Euphonic.Strided
