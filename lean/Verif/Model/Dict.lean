import Verif.Model.Base
import Verif.Model.Units
import Verif.Model.Validate

/-!
# Model of dictionaries and JSON files

Models `euphonic/io.py` (whole file).  Python values are modelled by the type `PyVal`; numpy arrays
are a shape with the elements in C order.  Not modelled: the order of dictionary entries written by
`json.dump(..., sort_keys=True)` (not observable through keys), the entries `__euphonic_class__` and
`__euphonic_version__` (ignored when reading), the decimal representation of numbers in the file
(`json` writes and reads floats exactly), numpy type promotion for lists mixing integers and floats
(`ndarray.tolist` never produces such lists), `dtype` widths of strings.
-/

set_option autoImplicit false

namespace Euphonic.Py

/-- numpy array: shape and elements in C order. -/
structure NdArr (ε : Type) where
  shape : List Nat
  data : List ε
  deriving DecidableEq, Repr

/-- Element of a non-complex array. -/
inductive Elem (α : Type) where
  | int (z : Int)
  | flt (x : α)
  | str (s : String)
  deriving DecidableEq, Repr

/-- Python values that occur in object dictionaries.  `carr` is an array of `complex128` (real and
imaginary part), `qty` a pint `Quantity` with magnitude and unit. -/
inductive PyVal (U α : Type) where
  | none
  | int (z : Int)
  | flt (x : α)
  | str (s : String)
  | tuple (l : List (PyVal U α))
  | list (l : List (PyVal U α))
  | arr (a : NdArr (Elem α))
  | carr (a : NdArr (α × α))
  | qty (v : PyVal U α) (u : U)
  | dict (d : List (String × PyVal U α))

/-- A dictionary with string keys. -/
abbrev Dict (U α : Type) := List (String × PyVal U α)

variable {U α : Type}

/-! ## JSON -/

/-- A Python scalar for an array element (`ndarray.tolist`). -/
def Elem.toPy : Elem α → PyVal U α
  | .int z => .int z
  | .flt x => .flt x
  | .str s => .str s

/-- `n` consecutive pieces of length `k`. -/
def chunks {ε : Type} (n k : Nat) (l : List ε) : List (List ε) :=
  match n with
  | 0 => []
  | n + 1 => l.take k :: chunks n k (l.drop k)

/-- `ndarray.tolist` (numpy): nested lists following the shape. -/
def nest : List Nat → List (Elem α) → PyVal U α
  | [], l => match l with
    | e :: _ => e.toPy
    | [] => .none
  | n :: s, l => .list ((chunks n s.prod l).map (nest s))

mutual
/-- `np.array(v)` on nested lists: shape and elements; `none` for ragged lists (`ValueError`) and
for elements other than numbers and strings (not modelled). -/
def unnest : PyVal U α → Option (List Nat × List (Elem α))
  | .int z => some ([], [.int z])
  | .flt x => some ([], [.flt x])
  | .str s => some ([], [.str s])
  | .list l => match unnestList l with
    | some [] => some ([0], [])
    | some ((s, e) :: r) =>
      if r.all (·.1 == s) then some ((r.length + 1) :: s, e ++ (r.map (·.2)).flatten) else none
    | none => none
  | _ => none
/-- The elements of a list, see `unnest`. -/
def unnestList : List (PyVal U α) → Option (List (List Nat × List (Elem α)))
  | [] => some []
  | v :: vs => match unnest v, unnestList vs with
    | some a, some b => some (a :: b)
    | _, _ => none
end

/-- `val.view(np.float64).reshape(val.shape + (2,))` (euphonic/io.py:19-20). -/
def complexToReal (a : NdArr (α × α)) : NdArr (Elem α) :=
  ⟨a.shape ++ [2], a.data.flatMap fun z => [.flt z.1, .flt z.2]⟩

/-- Pairs of consecutive floats: `.view(np.complex128)` on the elements. -/
def pairUp : List (Elem α) → Option (List (α × α))
  | [] => some []
  | .flt a :: .flt b :: l => match pairUp l with
    | some r => some ((a, b) :: r)
    | none => none
  | _ => none

/-- `np.array(val, dtype=np.float64).view(np.complex128).squeeze(axis=-1)` (euphonic/io.py:41-42):
the last extent has to be 2, otherwise `view` or `squeeze` raises `ValueError`. -/
def realToComplex (shape : List Nat) (l : List (Elem α)) : Except Err (NdArr (α × α)) :=
  match shape.getLast?, pairUp l with
  | some 2, some r => .ok ⟨shape.dropLast, r⟩
  | _, _ => .error .valueError

mutual
/-- `_to_json_dict` (euphonic/io.py:12-25). -/
def toJsonDict : Dict U α → Dict U α
  | [] => []
  | (k, v) :: d => (k, toJsonVal k v) :: toJsonDict d
/-- Body of the loop of `_to_json_dict` (euphonic/io.py:17-24). -/
def toJsonVal (k : String) : PyVal U α → PyVal U α
  | .arr a => nest a.shape a.data
  | .carr a => nest (complexToReal a).shape (complexToReal a).data
  | .dict d => if k != "metadata" then .dict (toJsonDict d) else .dict d
  | .none => .none
  | .int z => .int z
  | .flt x => .flt x
  | .str s => .str s
  | .tuple l => .tuple l
  | .list l => .list l
  | .qty v u => .qty v u
end

mutual
/-- `json.loads(json.dump(v))` (euphonic/io.py:107, 116): tuples become lists; arrays and quantities
are not serialisable (`TypeError`). -/
def jsonTrip : PyVal U α → Except Err (PyVal U α)
  | .none => .ok .none
  | .int z => .ok (.int z)
  | .flt x => .ok (.flt x)
  | .str s => .ok (.str s)
  | .tuple l => match jsonTripList l with
    | .ok r => .ok (.list r)
    | .error e => .error e
  | .list l => match jsonTripList l with
    | .ok r => .ok (.list r)
    | .error e => .error e
  | .dict d => match jsonTripDict d with
    | .ok r => .ok (.dict r)
    | .error e => .error e
  | .arr _ => .error .typeError
  | .carr _ => .error .typeError
  | .qty _ _ => .error .typeError
/-- Elementwise `jsonTrip`. -/
def jsonTripList : List (PyVal U α) → Except Err (List (PyVal U α))
  | [] => .ok []
  | v :: l => match jsonTrip v, jsonTripList l with
    | .ok a, .ok b => .ok (a :: b)
    | .error e, _ => .error e
    | _, .error e => .error e
/-- Entrywise `jsonTrip`. -/
def jsonTripDict : Dict U α → Except Err (Dict U α)
  | [] => .ok []
  | (k, v) :: l => match jsonTrip v, jsonTripDict l with
    | .ok a, .ok b => .ok ((k, a) :: b)
    | .error e, _ => .error e
    | _, .error e => .error e
end

/-- Entries of `type_dict` (euphonic/io.py:28-29): `tuple` or `np.complex128`. -/
inductive JType where
  | tuple
  | complex
  deriving DecidableEq, Repr

/-- `tuple(x)` for a list (euphonic/io.py:38); other iterables are not modelled. -/
def toTuple : PyVal U α → Except Err (PyVal U α)
  | .list l => .ok (.tuple l)
  | .tuple l => .ok (.tuple l)
  | _ => .error .typeError

mutual
/-- `_from_json_dict` (euphonic/io.py:28-48). -/
def fromJsonDict (td : String → Option JType) : Dict U α → Except Err (Dict U α)
  | [] => .ok []
  | (k, v) :: d => match fromJsonVal td k v, fromJsonDict td d with
    | .ok a, .ok b => .ok ((k, a) :: b)
    | .error e, _ => .error e
    | _, .error e => .error e
/-- Body of the loop of `_from_json_dict` (euphonic/io.py:35-47). -/
def fromJsonVal (td : String → Option JType) (k : String) : PyVal U α → Except Err (PyVal U α)
  | .list l => match td k with
    | some .tuple => (l.mapM toTuple).map .list
    | some .complex => match unnest (.list l : PyVal U α) with
      | some (s, e) => (realToComplex s e).map .carr
      | none => .error .valueError
    | none => match unnest (.list l : PyVal U α) with
      | some (s, e) => .ok (.arr ⟨s, e⟩)
      | none => .error .valueError
  | .dict d => if k != "metadata" then (fromJsonDict td d).map .dict else .ok (.dict d)
  | .none => .ok .none
  | .int z => .ok (.int z)
  | .flt x => .ok (.flt x)
  | .str s => .ok (.str s)
  | .tuple l => .ok (.tuple l)
  | .arr a => .ok (.arr a)
  | .carr a => .ok (.carr a)
  | .qty v u => .ok (.qty v u)
end

/-- Writing a dictionary to a JSON file and reading it back: `_obj_to_json_file` followed by
`_obj_from_json_file` up to the call of `from_dict` (euphonic/io.py:99-118). -/
def jsonFileTrip (td : String → Option JType) (d : Dict U α) : Except Err (Dict U α) :=
  match jsonTripDict (toJsonDict d) with
  | .ok d' => fromJsonDict td d'
  | .error e => .error e

/-! ## Dictionaries of objects -/

/-- The pint registry: conversion factors, `str(unit)` and `ureg(string)`. -/
structure Registry (U α : Type) where
  unit : U → PUnit' α
  render : U → String
  parse : String → Option U

variable [Field α] [DecidableEq α]

/-- What `_obj_to_dict` writes for one attribute (euphonic/io.py:53-75).  Attributes that are objects
with a method `to_dict` are given as the dictionary this method returns. -/
def dictEntry (R : Registry U α) (attr : String) : PyVal U α → Dict U α
  | .none => []
  | .dict d => if attr == "metadata" && d.isEmpty then [] else [(attr, .dict d)]
  | .qty v u => [(attr, v), (attr ++ "_unit", .str (R.render u))]
  | v => [(attr, v)]

/-- `_obj_to_dict` (euphonic/io.py:51-76) for an object whose attributes have the given values. -/
def objToDict (R : Registry U α) (attrs : List (String × PyVal U α)) : Dict U α :=
  attrs.flatMap fun p => dictEntry R p.1 p.2

/-- `d.pop(k)`. -/
def dictPop (d : Dict U α) (k : String) : Except Err (PyVal U α × Dict U α) :=
  match d.lookup k with
  | some v => .ok (v, d.filter fun p => p.1 != k)
  | none => .error .keyError

/-- `d[k]`. -/
def dictGet (d : Dict U α) (k : String) : Except Err (PyVal U α) :=
  match d.lookup k with
  | some v => .ok v
  | none => .error .keyError

/-- `val*ureg(unit)` (euphonic/io.py:94): pint refuses to multiply by a unit with an offset
(`OffsetUnitCalculusError`) and unknown units (`UndefinedUnitError`, an `AttributeError`). -/
def qtyMul (R : Registry U α) (v u : PyVal U α) : Except Err (PyVal U α) :=
  match u with
  | .str s => match R.parse s with
    | some u => if (R.unit u).offset = 0 then .ok (.qty v u) else .error .offsetUnitError
    | none => .error .attributeError
  | _ => .error .typeError

/-- One pass of the second loop of `_process_dict` (euphonic/io.py:91-95). -/
def processQuantity (R : Registry U α) (d : Dict U α) (q : String) : Except Err (Dict U α) := do
  let (v, d) ← dictPop d q
  match v with
  | .none => return d ++ [(q, .none)]
  | v =>
    let (u, d) ← dictPop d (q ++ "_unit")
    let v ← qtyMul R v u
    return d ++ [(q, v)]

/-- `_process_dict` (euphonic/io.py:79-96). -/
def processDict (R : Registry U α) (d : Dict U α) (quantities optional : List String) :
    Except Err (Dict U α) :=
  quantities.foldlM (processQuantity R)
    (optional.foldl (fun d o => if d.any (·.1 == o) then d else d ++ [(o, .none)]) d)

end Euphonic.Py
