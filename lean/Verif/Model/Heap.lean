import Verif.Model.Base

/-!
# Model of shared data: copies, pieces and items of spectra

Python objects live at addresses (natural numbers) of a heap and refer to each other.  An object has numbers (the elements of an
array) and named slots (attributes of an instance, entries of a dictionary or of a list); a slot holds a value that
cannot be changed (number, string, tuple of these, `None`) or a reference.

Models `copy` (euphonic/spectra.py:483-488, 872-874, 1691-1697), `_split_by_indices` (euphonic/spectra.py:471-481,
1195-1206, 1516-1526, 1902-1913), taking an item of a collection (euphonic/spectra.py:811-903), the constructors as far
as sharing is concerned (`_set_data`, euphonic/spectra.py:44-48; `x_tick_labels`, euphonic/spectra.py:86-108; metadata is
stored as it is, euphonic/spectra.py:456, 1192, 1493, 1899), data properties with their setters (euphonic/spectra.py:50-68) and
`__imul__`, `__mul__` (euphonic/spectra.py:70-79).  Validation of the arguments is modelled elsewhere
(`Verif.Model.Objects`).
-/

set_option autoImplicit false

namespace Euphonic.Heap

/-- The content of a slot. -/
inductive Val where
  | prim (s : String)
  | ref (a : Nat)
  deriving DecidableEq, Repr

/-- An object. -/
structure Obj (α : Type) where
  nums : List α
  slots : List (String × Val)
  deriving DecidableEq, Repr

/-- Addresses from `size` on are free. -/
structure Heap (α : Type) where
  size : Nat
  cell : Nat → Obj α

variable {α : Type}

/-- A new object. -/
def alloc (h : Heap α) (o : Obj α) : Nat × Heap α :=
  (h.size, ⟨h.size + 1, fun a => if a = h.size then o else h.cell a⟩)

/-- Change of an object in place. -/
def write (h : Heap α) (a : Nat) (o : Obj α) : Heap α := ⟨h.size, fun b => if b = a then o else h.cell b⟩

/-- The value of a slot. -/
def slot (o : Obj α) (name : String) : Option Val := (o.slots.find? fun p => p.1 == name).map (·.2)

/-- A reference moved by `n`. -/
def shiftVal (n : Nat) : Val → Val
  | .prim s => .prim s
  | .ref a => .ref (a + n)

/-- All references of an object moved by `n`. -/
def shiftObj (n : Nat) (o : Obj α) : Obj α := ⟨o.nums, o.slots.map fun p => (p.1, shiftVal n p.2)⟩

/-- `copy.deepcopy` (used at euphonic/spectra.py:488, 774, 1697): every object that can be reached is copied once, with
references between copies as between the originals.  Here the whole heap is copied behind itself; the copies that
cannot be reached from the result are garbage. -/
def deepcopy (h : Heap α) : Val → Val × Heap α
  | .prim s => (.prim s, h)
  | .ref a => (.ref (a + h.size), ⟨h.size + h.size, fun b =>
      if b < h.size then h.cell b else if b < h.size + h.size then shiftObj h.size (h.cell (b - h.size))
      else h.cell b⟩)

/-- The data arrays of a new spectrum (`np.copy` of the data, or a slice, and `np.array` in `_set_data`,
euphonic/spectra.py:44-48, 470-488): always a new array.  `f` gives the elements (conversion of units, slicing). -/
def newArrays (f : String → List α → List α) (o : Obj α) :
    List String → Heap α → Except Err (List (String × Val) × Heap α)
  | [], h => .ok ([], h)
  | n :: ns, h =>
    match slot o n with
    | some (.ref a) => do
      let r := alloc h ⟨f n (h.cell a).nums, []⟩
      let s ← newArrays f o ns r.2
      return ((n, .ref r.1) :: s.1, s.2)
    | _ => .error .attributeError

/-- The tick labels of a new spectrum: the setter builds a new list of tuples (euphonic/spectra.py:90-108); `g` selects and
shifts them (`_cut_x_ticks`, euphonic/spectra.py:173-184). -/
def newTicks (g : List (String × Val) → List (String × Val)) (o : Obj α) (h : Heap α) :
    Except Err (Val × Heap α) :=
  match slot o "_x_tick_labels" with
  | some (.prim s) => .ok (.prim s, h)
  | some (.ref a) =>
    let r := alloc h ⟨[], g (h.cell a).slots⟩
    .ok (.ref r.1, r.2)
  | none => .error .attributeError

/-- The new instance. -/
def newInstance (data : List (String × Val)) (ticks metadata : Val) (h : Heap α) : Nat × Heap α :=
  alloc h ⟨[], data ++ [("_x_tick_labels", ticks), ("metadata", metadata)]⟩

/-- `Spectrum1D.copy`, `Spectrum2D.copy` and those of the collections (euphonic/spectra.py:483-488, 872-874, 1691-1697).
`names` are the data attributes, `f` converts to the current unit. -/
def copySpectrum (names : List String) (f : String → List α → List α) (h : Heap α) (s : Nat) :
    Except Err (Nat × Heap α) := do
  let o := h.cell s
  match slot o "metadata" with
  | none => .error .attributeError
  | some m =>
    let d := deepcopy h m
    let arrays ← newArrays f o names d.2
    let ticks ← newTicks id o arrays.2
    return newInstance arrays.1 ticks.1 d.1 ticks.2

/-- One of the pieces of `split` (euphonic/spectra.py:471-481, 1195-1206, 1516-1526, 1902-1913): `metadata=self.metadata`. -/
def splitPiece (names : List String) (f : String → List α → List α)
    (g : List (String × Val) → List (String × Val)) (h : Heap α) (s : Nat) : Except Err (Nat × Heap α) := do
  let o := h.cell s
  match slot o "metadata" with
  | none => .error .attributeError
  | some m =>
    let arrays ← newArrays f o names h
    let ticks ← newTicks g o arrays.2
    return newInstance arrays.1 ticks.1 m ticks.2

/-- `split` (euphonic/spectra.py:185-219): pieces one after the other; `fs` describes each one. -/
def split (names : List String) (s : Nat) :
    List ((String → List α → List α) × (List (String × Val) → List (String × Val))) → Heap α →
    Except Err (List Nat × Heap α)
  | [], h => .ok ([], h)
  | p :: ps, h => do
    let r ← splitPiece names p.1 p.2 h s
    let t ← split names s ps r.2
    return (r.1 :: t.1, t.2)

/-- `common_metadata | one_line_data` (euphonic/spectra.py:891-903): a new dictionary with the entries of both, except
'line_data'; later ones win (`slot` looks at the first). -/
def lineMetadata (common line : Obj α) : Obj α :=
  ⟨[], line.slots ++ common.slots.filter fun p => p.1 != "line_data"⟩

/-- Item `i` of a collection (euphonic/spectra.py:811-866): a new spectrum with its own metadata. -/
def item (names : List String) (f : String → List α → List α) (i : Nat) (h : Heap α) (s : Nat) :
    Except Err (Nat × Heap α) := do
  let o := h.cell s
  match slot o "metadata" with
  | some (.ref m) =>
    let line ← match slot (h.cell m) "line_data" with
      | none => .ok ⟨[], []⟩
      | some (.ref l) =>
        match slot (h.cell l) (toString i) with
        | some (.ref a) => .ok (h.cell a)
        | _ => .error .indexError
      | some (.prim _) => .error .typeError
    let md := alloc h (lineMetadata (h.cell m) line)
    let arrays ← newArrays f o names md.2
    let ticks ← newTicks id o arrays.2
    return newInstance arrays.1 ticks.1 (.ref md.1) ticks.2
  | _ => .error .attributeError

/-- The value of `y_data` (euphonic/spectra.py:61-64): a quantity whose numbers are those of `_y_data` itself if the unit is
the internal one (`pint` returns the same array), otherwise a new array. -/
def getData (sameUnit : Bool) (conv : List α → List α) (name : String) (h : Heap α) (s : Nat) :
    Except Err (Nat × Heap α) :=
  match slot (h.cell s) name with
  | some (.ref a) => if sameUnit then .ok (a, h) else .ok (alloc h ⟨conv (h.cell a).nums, []⟩)
  | _ => .error .attributeError

/-- Replace or add a slot. -/
def setSlot (o : Obj α) (name : String) (v : Val) : Obj α :=
  ⟨o.nums, (name, v) :: o.slots.filter fun p => p.1 != name⟩

/-- Assignment to `y_data` (euphonic/spectra.py:65-68): the array of the quantity is stored, or a converted one. -/
def setData (sameUnit : Bool) (conv : List α → List α) (name : String) (h : Heap α) (s q : Nat) : Heap α :=
  if sameUnit then write h s (setSlot (h.cell s) name (.ref q))
  else
    let r := alloc h ⟨conv (h.cell q).nums, []⟩
    write r.2 s (setSlot (r.2.cell s) name (.ref r.1))

/-- `__imul__` (euphonic/spectra.py:70-73): the array is scaled in place. -/
def imul (mul : α → α) (h : Heap α) (s : Nat) : Except Err (Heap α) :=
  match slot (h.cell s) "_y_data" with
  | some (.ref a) => .ok (write h a ⟨(h.cell a).nums.map mul, (h.cell a).slots⟩)
  | _ => .error .attributeError

/-- `__mul__` (euphonic/spectra.py:75-79). -/
def mul (names : List String) (f : String → List α → List α) (m : α → α) (h : Heap α) (s : Nat) :
    Except Err (Nat × Heap α) := do
  let r ← copySpectrum names f h s
  let h' ← imul m r.2 r.1
  return (r.1, h')

end Euphonic.Heap
