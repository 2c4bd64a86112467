import Verif.Model.Base
import Verif.Model.Units

/-!
# Model of reference data files (euphonic/util.py:170-261) and of the cross-sections taken from them
(euphonic/qpoint_phonon_modes.py:537-575)
-/

set_option autoImplicit false
set_option linter.unusedSectionVars false

namespace Euphonic.RefData

/-- A value of a JSON file as `json.load` gives it.  Python distinguishes `39` (`int`) from `39.0`
(`float`); `cplx` only arises from the hook `custom_decode`.  Keys of a dictionary are distinct in Python;
the first entry is the one that is found. -/
inductive JVal (K : Type) where
  | null
  | bool (b : Bool)
  | int (z : Int)
  | flt (x : K)
  | cplx (re im : K)
  | str (s : String)
  | list (l : List (JVal K))
  | dict (d : List (String × JVal K))

variable {K : Type} [Field K]

/-- A number passed to the Python function `complex`: `bool` is a subclass of `int`; a complex argument is
not modelled (it can only come from nested `__complex__` entries). -/
def complexArg : JVal K → Except Err K
  | .bool b => .ok (if b then 1 else 0)
  | .int z => .ok (z : K)
  | .flt x => .ok x
  | _ => .error .typeError

/-- `dct[key]` for a dictionary. -/
def item (d : List (String × JVal K)) (key : String) : Except Err (JVal K) :=
  match d.lookup key with
  | some v => .ok v
  | none => .error .keyError

/-- `custom_decode` (euphonic/util.py:216-219). -/
def customDecode (d : List (String × JVal K)) : Except Err (JVal K) :=
  match d.lookup "__complex__" with
  | none => .ok (.dict d)
  | some _ => do
    let re ← complexArg (← item d "real")
    let im ← complexArg (← item d "imag")
    return .cplx re im

mutual
/-- `json.load(fd, object_hook=custom_decode)` on the contents of a file (euphonic/util.py:224, 229): every
object is passed through the hook after the objects it contains. -/
def decode : JVal K → Except Err (JVal K)
  | .dict d => do customDecode (← decodeItems d)
  | .list l => do return .list (← decodeList l)
  | v => .ok v
/-- The items of an object. -/
def decodeItems : List (String × JVal K) → Except Err (List (String × JVal K))
  | [] => .ok []
  | (k, v) :: r => do return (k, ← decode v) :: (← decodeItems r)
/-- The elements of an array. -/
def decodeList : List (JVal K) → Except Err (List (JVal K))
  | [] => .ok []
  | v :: r => do return (← decode v) :: (← decodeList r)
end

/-- The files that can be opened: those shipped in `euphonic.data`, and those of the file system
(`none`: `os.path.isfile` is false). -/
structure Files (K : Type) where
  shipped : String → Except Err (JVal K)
  disk : String → Option (Except Err (JVal K))

/-- `_reference_data_files` (euphonic/util.py:213-214). -/
def shippedFiles : List (String × String) := [("Sears1992", "sears-1992.json"), ("BlueBook", "bluebook.json")]

/-- The choice of the file (euphonic/util.py:221-234). -/
def loadCollection (fs : Files K) (collection : String) : Except Err (JVal K) :=
  match shippedFiles.lookup collection with
  | some f => do decode (← fs.shipped f)
  | none =>
    match fs.disk collection with
    | some c => do decode (← c)
    | none => .error .valueError

/-- `'physical_property' not in file_data` and `file_data['physical_property']` (euphonic/util.py:236-240).
For a file that is not an object, `in` fails for numbers and `null` and otherwise gives (mostly) `False`; a
list or string that happens to contain the text 'physical_property' is not modelled. -/
def properties : JVal K → Except Err (JVal K)
  | .dict d => match d.lookup "physical_property" with
    | some v => .ok v
    | none => .error .attributeError
  | .list _ => .error .attributeError
  | .str _ => .error .attributeError
  | _ => .error .typeError

/-- `v.get(key)` (euphonic/util.py:240, 247); only dictionaries have it.  `none` stands for `None`, also
for an entry that is `null`. -/
def getOpt (v : JVal K) (key : String) : Except Err (Option (JVal K)) :=
  match v with
  | .dict d => match d.lookup key with
    | none => .ok none
    | some .null => .ok none
    | some w => .ok (some w)
  | _ => .error .attributeError

/-- A value that is not missing, `ValueError` otherwise (euphonic/util.py:241-245, 248-250). -/
def require {A : Type} : Option A → Except Err A
  | some a => .ok a
  | none => .error .valueError

/-- A number of the result. -/
inductive Num (K : Type) where
  | real (x : K)
  | cplx (re im : K)
  deriving DecidableEq, Repr

/-- `isinstance(value, (float, complex))` (euphonic/util.py:261): integers are neither. -/
def asNum : JVal K → Option (Num K)
  | .flt x => some (.real x)
  | .cplx re im => some (.cplx re im)
  | _ => none

/-- The units of the table (euphonic/util.py:247-257).  `parse` is the unit registry: `none` for
`UndefinedUnitError`.  A unit that is not a string is not modelled beyond being an error. -/
def tableUnit {U : Type} (parse : String → Option U) : JVal K → Except Err U
  | .str s => require (parse s)
  | _ => .error .typeError

/-- `data.items()` filtered by type (euphonic/util.py:259-261). -/
def tableItems {U : Type} (u : U) : JVal K → Except Err (List (String × Num K × U))
  | .dict d => .ok (d.filterMap fun e => (asNum e.2).map fun x => (e.1, x, u))
  | _ => .error .attributeError

/-- `get_reference_data` (euphonic/util.py:170-261). -/
def getReferenceData {U : Type} (fs : Files K) (parse : String → Option U) (collection property : String) :
    Except Err (List (String × Num K × U)) := do
  let fileData ← loadCollection fs collection
  let props ← properties fileData
  let data ← require (← getOpt props property)
  let unitStr ← require (← getOpt data "__units__")
  let u ← tableUnit parse unitStr
  tableItems u data

/-! ## Cross-sections of `calculate_pdos` -/

/-- A real quantity. -/
structure Qty (K : Type) where
  val : K
  unit : PUnit' K

/-- `data[x]` for a dictionary of quantities (euphonic/qpoint_phonon_modes.py:561-564).  A complex value
passes here and fails later when it multiplies the real array; it is not modelled further than an error. -/
def lookupQty (data : List (String × Num K × PUnit' K)) (species : String) : Except Err (Qty K) :=
  match data.lookup species with
  | some (.real x, u) => .ok ⟨x, u⟩
  | some (.cplx _ _, _) => .error .typeError
  | none => .error .keyError

/-- Sum of two quantities: the second is converted to the unit of the first
(`sum(x)`, euphonic/qpoint_phonon_modes.py:565). -/
def addQty (a b : Qty K) : Except Err (Qty K) :=
  match conv b.unit a.unit b.val with
  | some v => .ok ⟨a.val + v, a.unit⟩
  | none => .error .dimensionalityError

/-- Sums of corresponding entries. -/
def addAll (a b : List (Qty K)) : Except Err (List (Qty K)) :=
  (a.zip b).mapM fun p => addQty p.1 p.2

/-- The dimension of areas. -/
def area : Dim := .other 2

/-- `cs[0].check('[length]**2')` (euphonic/qpoint_phonon_modes.py:567-571); no atoms: `IndexError`. -/
def checkFirst : List (Qty K) → Except Err Unit
  | [] => .error .indexError
  | a :: _ => if a.unit.dim = area then .ok () else .error .valueError

/-- `x.to('mbarn')` (euphonic/qpoint_phonon_modes.py:572). -/
def toUnit (w : PUnit' K) (a : Qty K) : Except Err K :=
  match conv a.unit w a.val with
  | some v => .ok v
  | none => .error .dimensionalityError

/-- The argument `cross_sections` of `calculate_pdos`: name of a collection or a dictionary. -/
inductive CsArg (K : Type) where
  | name (s : String)
  | table (d : List (String × Num K × PUnit' K))

/-- The properties read for a weighting (euphonic/qpoint_phonon_modes.py:547-550). -/
def weightNames (weighting : String) : List String :=
  if weighting = "coherent-plus-incoherent" then ["coherent", "incoherent"] else [weighting]

/-- `cross_sections_data` (euphonic/qpoint_phonon_modes.py:544-558). -/
def csData (fs : Files K) (parse : String → Option (PUnit' K)) (weighting : Option String) :
    CsArg K → Except Err (Option (List (List (String × Num K × PUnit' K))))
  | .table d => .ok (some [d])
  | .name s => match weighting with
    | none => .ok none
    | some w => do return some (← (weightNames w).mapM fun x => getReferenceData fs parse s (x ++ "_cross_section"))

/-- The cross-section of every atom from one or two tables (euphonic/qpoint_phonon_modes.py:561-572). -/
def csOfTables (mbarn : PUnit' K) (types : List String) (ts : List (List (String × Num K × PUnit' K))) :
    Except Err (List K) := do
  let cs ← types.mapM (lookupQty (ts.getD 0 []))
  let cs ← if ts.length = 2 then do addAll cs (← types.mapM (lookupQty (ts.getD 1 []))) else .ok cs
  checkFirst cs
  cs.mapM (toUnit mbarn)

/-- The cross-sections per atom of `calculate_pdos` in millibarn (euphonic/qpoint_phonon_modes.py:537-574);
`none` without weighting. -/
def crossSections (fs : Files K) (parse : String → Option (PUnit' K)) (mbarn : PUnit' K)
    (weighting : Option String) (arg : CsArg K) (types : List String) : Except Err (Option (List K)) := do
  if weighting ∉ [none, some "coherent", some "incoherent", some "coherent-plus-incoherent"] then
    .error .valueError
  else
    match ← csData fs parse weighting arg with
    | none => .ok none
    | some ts => do return some (← csOfTables mbarn types ts)

end Euphonic.RefData
