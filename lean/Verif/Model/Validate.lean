import Verif.Model.Base

/-!
# Model of the shared constructor check

Models `euphonic/validate.py:9-55` (`_check_constructor_inputs`) and `93-102` (`_replace_dim`).
Not modelled: the messages (and the list of names, which only appears in them; it always has the same
length as the other lists in the code base).
-/

set_option autoImplicit false

namespace Euphonic

/-- An argument as far as the check is concerned: the truth of `isinstance(obj, t)` for each type `t`,
and the attribute `shape` (`none` if there is none). -/
structure PyObj (Ty : Type) where
  isinst : Ty → Bool
  shape : Option (List Int)

/-- The element of `types`: one type or a list of types (euphonic/validate.py:43-44). -/
inductive TypeSpec (Ty : Type) where
  | one (t : Ty)
  | many (ts : List Ty)

/-- The element of `shapes`: one tuple or a list of tuples (euphonic/validate.py:48-50). -/
inductive ShapeSpec where
  | one (s : List Int)
  | many (ss : List (List Int))

variable {Ty : Type}

/-- `if not isinstance(typ, list): typ = [typ]` (euphonic/validate.py:43-44). -/
def TypeSpec.toList : TypeSpec Ty → List Ty
  | .one t => [t]
  | .many ts => ts

/-- `if not isinstance(shape, list): shape = [shape]` (euphonic/validate.py:49-50). -/
def ShapeSpec.toList : ShapeSpec → List (List Int)
  | .one s => [s]
  | .many ss => ss

/-- Truth value of the tuple or list `shape` (euphonic/validate.py:48). -/
def ShapeSpec.truthy : ShapeSpec → Bool
  | .one s => !s.isEmpty
  | .many ss => !ss.isEmpty

/-- `_replace_dim` (euphonic/validate.py:93-102). -/
def replaceDim (expected obj : List Int) : List Int :=
  if !expected.any (· == -1) || expected.length != obj.length then expected
  else List.zipWith (fun e o => if e == -1 then o else e) expected obj

/-- Body of the loop (euphonic/validate.py:43-55). -/
def checkOne (o : PyObj Ty) (t : TypeSpec Ty) (s : ShapeSpec) : Except Err Unit :=
  if !t.toList.any o.isinst then .error .typeError
  else match o.shape with
    | none => .ok ()
    | some sh =>
      if s.truthy then
        if s.toList.any (fun e => sh == replaceDim e sh) then .ok () else .error .valueError
      else .ok ()

/-- `_check_constructor_inputs` (euphonic/validate.py:9-55); the loop stops at the end of the
shortest list (`zip`). -/
def checkInputs : List (PyObj Ty) → List (TypeSpec Ty) → List ShapeSpec → Except Err Unit
  | o :: os, t :: ts, s :: ss =>
    match checkOne o t s with
    | .error e => .error e
    | .ok () => checkInputs os ts ss
  | _, _, _ => .ok ()

end Euphonic
