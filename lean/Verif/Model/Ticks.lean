import Verif.Model.Base

/-! # Model of the `x_tick_labels` setter (euphonic/spectra.py:86-108) -/

set_option autoImplicit false

namespace Euphonic

/-- Dynamically typed Python values, as far as the setter can tell them apart.  `int` covers Python
ints, `npInt` numpy integers and `bool` booleans: all three are `numbers.Integral`.  `other` stands for
any object which is neither of these nor a `Sequence` (dict, set, ndarray, generator, ...). -/
inductive TickVal where
  | none
  | bool (b : Bool)
  | int (i : Int)
  | npInt (i : Int)
  | float
  | str (s : String)
  | tuple (l : List TickVal)
  | list (l : List TickVal)
  | other

/-- `isinstance(v, Sequence)` and, if so, the elements obtained by iterating over `v`
(euphonic/spectra.py:96-97).  Strings are sequences of one-character strings. -/
def TickVal.seqElems : TickVal → Option (List TickVal)
  | .list l => some l
  | .tuple l => some l
  | .str s => some (s.toList.map fun c => .str (String.ofList [c]))
  | _ => Option.none

/-- `isinstance(v, Integral)` and, if so, `int(v)` (euphonic/spectra.py:100, 105). -/
def TickVal.asInt : TickVal → Option Int
  | .int i => some i
  | .npInt i => some i
  | .bool b => some (if b then 1 else 0)
  | _ => Option.none

/-- The check of one element and its normalisation (euphonic/spectra.py:98-105): a tuple of length two
of an `Integral` and a `str`. -/
def TickVal.asTick : TickVal → Option (Int × String)
  | .tuple [i, .str s] => i.asInt.map fun k => (k, s)
  | _ => Option.none

/-- The `x_tick_labels` setter (euphonic/spectra.py:90-108) as a function of the assigned value: the
value stored in `_x_tick_labels` or the exception. -/
def tickValue (v : TickVal) : Except Err (Option (List (Int × String))) :=
  match v with
  | .none => .ok Option.none
  | v => match v.seqElems with
    | some elems =>
      match elems.mapM TickVal.asTick with
      | some l => .ok (some l)
      | Option.none => .error .typeError
    | Option.none => .error .typeError

/-- A spectrum object seen as its stored labels and everything else; assignment returns the object
after the statement together with the exception, if one was raised (euphonic/spectra.py:90-108). -/
def setTicks {σ : Type} (obj : Option (List (Int × String)) × σ) (v : TickVal) :
    (Option (List (Int × String)) × σ) × Option Err :=
  match tickValue v with
  | .ok t => ((t, obj.2), Option.none)
  | .error e => (obj, some e)

end Euphonic
