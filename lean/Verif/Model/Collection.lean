import Verif.Model.Base
import Verif.Model.Split
import Mathlib.Algebra.Order.Field.Basic
import Mathlib.Algebra.BigOperators.Group.List.Defs

/-!
# Model of spectrum collections (euphonic/spectra.py:684-1105, 1108-1237)

Dictionaries are association lists (first entry wins, as Python dictionaries have no duplicate keys
this only matters for inputs which are not dictionaries).  The top-level entry `line_data` of a
collection's metadata is kept as a separate field.  Data are taken in display units.
-/

set_option autoImplicit false

namespace Euphonic

/-- A Python dictionary with string keys (insertion order = list order). -/
abbrev Dict (V : Type) := List (String × V)

variable {V α : Type} [DecidableEq V]

/-- `d.get(k)`; `none` when the key is absent. -/
def Dict.get (d : Dict V) (k : String) : Option V := d.lookup k

/-- `k in d`. -/
def Dict.hasKey (d : Dict V) (k : String) : Bool := d.any fun p => p.1 == k

/-- `d1 | d2` (Python dictionary union, right operand wins; used in euphonic/spectra.py:902, 1003). -/
def Dict.union (d1 d2 : Dict V) : Dict V :=
  d1.map (fun p => (p.1, (d2.get p.1).getD p.2)) ++ d2.filter fun p => !d1.hasKey p.1

/-- Metadata of a collection: the top-level entries other than `line_data`, and `line_data` if
present (documented in euphonic/spectra.py:689-700). -/
structure CMeta (V : Type) where
  common : Dict V
  lines : Option (List (Dict V))
  deriving Repr

/-- `SpectrumCollectionMixin._combine_metadata` (euphonic/spectra.py:978-1005).  The `assert` refuses
inputs with a `line_data` key; `reduce` of an empty sequence raises `TypeError`.  The items common to
all dictionaries are computed as a set in the code; here they are listed in the order of the first
dictionary (dictionary order is not observable by key lookup or equality). -/
def combineMetadata (all : List (Dict V)) : Except Err (CMeta V) :=
  if all.any fun d => d.hasKey "line_data" then .error .assertionError
  else match all with
    | [] => .error .typeError
    | d0 :: ds =>
      let common : Dict V := d0.filter fun p => ds.all fun d => d.contains p
      let lineData := (d0 :: ds).map fun d => d.filter fun p => !Dict.hasKey common p.1
      if lineData.any fun d => !d.isEmpty then .ok ⟨common, some lineData⟩
      else .ok ⟨common, none⟩

/-- A spectrum as it enters or leaves a collection: axis and data with their display units, tick labels
and metadata (`Spectrum1D`, euphonic/spectra.py:395-456). -/
structure MSpec (V α : Type) where
  x : List α
  xUnit : String
  y : List α
  yUnit : String
  ticks : Ticks
  md : Dict V
  deriving Repr

/-- `Spectrum1DCollection` (euphonic/spectra.py:1108-1193). -/
structure MColl (V α : Type) where
  x : List α
  xUnit : String
  rows : List (List α)
  yUnit : String
  ticks : Ticks
  md : CMeta V
  deriving Repr

/-- `len(collection)` (euphonic/spectra.py:796-797). -/
def MColl.len (c : MColl V α) : Nat := c.rows.length

/-- `Spectrum1DCollection.__init__` (euphonic/spectra.py:1148-1193) with `_check_metadata`
(euphonic/spectra.py:1017-1034).  All rows of the array `y_data` have the length of the first. -/
def MColl.new (x : List α) (xUnit : String) (rows : List (List α)) (yUnit : String) (ticks : Ticks)
    (md : CMeta V) : Except Err (MColl V α) :=
  match rows with
  | [] => .error .indexError
  | r :: _ =>
    if x.length = r.length ∨ x.length = r.length + 1 then
      match md.lines with
      | none => .ok ⟨x, xUnit, rows, yUnit, ticks, md⟩
      | some ls => if ls.length = rows.length then .ok ⟨x, xUnit, rows, yUnit, ticks, md⟩
          else .error .valueError
    else .error .valueError

/-- `Spectrum1D.__init__` (euphonic/spectra.py:421-456). -/
def MSpec.new (x : List α) (xUnit : String) (y : List α) (yUnit : String) (ticks : Ticks)
    (md : Dict V) : Except Err (MSpec V α) :=
  if x.length = y.length ∨ x.length = y.length + 1 then .ok ⟨x, xUnit, y, yUnit, ticks, md⟩
  else .error .valueError

/-- `SpectrumCollectionMixin.iter_metadata` (euphonic/spectra.py:891-902). -/
def MColl.iterMetadata (c : MColl V α) : List (Dict V) :=
  let lineData := match c.md.lines with
    | none => List.replicate c.rows.length []
    | some ls => ls
  lineData.map fun one => Dict.union c.md.common one

/-- `collection[i]` for an integer (euphonic/spectra.py:811-824, 840-841, 861-866). -/
def MColl.getInt (c : MColl V α) (i : Int) : Except Err (MSpec V α) := do
  let row ← pyGet c.rows i
  let md ← pyGet c.iterMetadata i
  MSpec.new c.x c.xUnit row c.yUnit c.ticks md

/-- `collection[[i, j, ...]]` for a sequence of integers (euphonic/spectra.py:811-824, 847-850,
869-870). -/
def MColl.getList (c : MColl V α) (is : List Int) : Except Err (MColl V α) := do
  let rows ← is.mapM (pyGet c.rows)
  let mds ← is.mapM (pyGet c.iterMetadata)
  let md ← combineMetadata mds
  MColl.new c.x c.xUnit rows c.yUnit c.ticks md

/-- `collection[start:stop]` for a slice without step (euphonic/spectra.py:811-824, 842-845,
867-868); `start = None` is 0. -/
def MColl.getSlice (c : MColl V α) (start : Int) (stop : Option Int) : Except Err (MColl V α) := do
  match stop with
  | some e => if e ≥ c.len then throw .indexError
  | none => pure ()
  let rows := pySlice c.rows start stop
  let md ← combineMetadata (pySlice c.iterMetadata start stop)
  MColl.new c.x c.xUnit rows c.yUnit c.ticks md

/-- Iteration over a collection (`[*collection]`, euphonic/spectra.py:889): Python calls
`collection[0]`, `collection[1]`, ... until `IndexError`.  `fuel` bounds the number of calls. -/
def MColl.iterFrom (c : MColl V α) : Nat → Nat → Except Err (List (MSpec V α))
  | 0, _ => .ok []
  | fuel + 1, i =>
    match c.getInt i with
    | .error .indexError => .ok []
    | .error e => .error e
    | .ok s => do return s :: (← c.iterFrom fuel (i + 1))

/-- `list(collection)`. -/
def MColl.toList (c : MColl V α) : Except Err (List (MSpec V α)) := c.iterFrom (c.len + 1) 0

/-- Assignment of a one-dimensional array to a row of length `n` (numpy broadcasting;
euphonic/spectra.py:1223, 1232): equal length, or a single value which is repeated. -/
def assignRow (n : Nat) (y : List α) : Except Err (List α) :=
  if y.length = n then .ok y
  else match y with
    | [a] => .ok (List.replicate n a)
    | _ => .error .valueError

/-- `np.allclose(a, b)` with the default tolerances (euphonic/spectra.py:1229) for arrays of the same
length; other lengths raise (broadcasting of length-one arrays is not modelled). -/
def npAllClose [Field α] [LinearOrder α] (a b : List α) : Except Err Bool :=
  if a.length = b.length then
    .ok ((List.zipWith (fun p q => decide (|p - q| ≤ 1/100000000 + 1/100000 * |q|)) a b).all id)
  else .error .valueError

/-- One iteration of the loop of `from_spectra` (euphonic/spectra.py:1226-1232): consistency assertions
against the first spectrum, then the row. -/
def fromSpectraRow [Field α] [LinearOrder α] (s0 s : MSpec V α) : Except Err (List α) := do
  if s.yUnit ≠ s0.yUnit then throw .assertionError
  if !(← npAllClose s.x s0.x) then throw .assertionError
  if s.xUnit ≠ s0.xUnit then throw .assertionError
  if s.ticks ≠ s0.ticks then throw .assertionError
  assignRow s0.y.length s.y

/-- `Spectrum1DCollection.from_spectra` (euphonic/spectra.py:1208-1237). -/
def fromSpectra [Field α] [LinearOrder α] (spectra : List (MSpec V α)) : Except Err (MColl V α) := do
  match spectra with
  | [] => throw .indexError
  | s0 :: ss =>
    let rows ← ss.mapM (fromSpectraRow s0)
    let md ← combineMetadata ((s0 :: ss).map (·.md))
    MColl.new s0.x s0.xUnit (s0.y :: rows) s0.yUnit s0.ticks md

/-- `collection + other` (euphonic/spectra.py:876-889). -/
def MColl.add [Field α] [LinearOrder α] (a b : MColl V α) : Except Err (MColl V α) := do
  fromSpectra ((← a.toList) ++ (← b.toList))

/-- `np.sum(data, axis=0)` of a rectangular array with rows of length `n`
(euphonic/spectra.py:778). -/
def sumRows [AddMonoid α] (n : Nat) (rows : List (List α)) : List α :=
  rows.foldl (fun acc r => List.zipWith (· + ·) acc r) (List.replicate n 0)

/-- `SpectrumCollectionMixin._tidy_metadata` (euphonic/spectra.py:1007-1015). -/
def MColl.tidyMetadata (c : MColl V α) : Except Err (Dict V) := do
  let ld := match c.md.lines with
    | none => List.replicate c.len []
    | some ls => ls
  return (← combineMetadata ld).common

/-- `SpectrumCollectionMixin.sum` (euphonic/spectra.py:763-786).  The code sums internal values and
converts to the display unit, which is the same as summing display values because unit conversion is
linear (see `Verif.Model.Units`). `metadata.update(d)` is `metadata | d`. -/
def MColl.sum [AddMonoid α] (c : MColl V α) : Except Err (MSpec V α) := do
  let md := Dict.union c.md.common (← c.tidyMetadata)
  MSpec.new c.x c.xUnit (sumRows ((c.rows.headD []).length) c.rows) c.yUnit c.ticks md

/-- Key of one line for `group_by` (euphonic/spectra.py:1057-1066): the values of the requested keys,
`None` where absent. -/
def groupKey (keys : List String) (md : Dict V) : List (Option V) := keys.map md.get

/-- `toolz.groupby(key, seq)` (used in euphonic/spectra.py:1071): list of groups in order of first
appearance, members in order. -/
def groupBy {β γ : Type} [DecidableEq γ] (key : β → γ) (l : List β) : List (γ × List β) :=
  l.foldl (fun gs b =>
    if gs.any (fun g => g.1 == key b) then
      gs.map fun g => if g.1 == key b then (g.1, g.2 ++ [b]) else g
    else gs ++ [(key b, [b])]) []

/-- The groups of line indices formed by `group_by` (euphonic/spectra.py:1068-1075). -/
def MColl.groupIndices (c : MColl V α) (keys : List String) : List (List Int) :=
  (groupBy (fun p : Nat × Dict V => groupKey keys p.2)
    ((List.range c.iterMetadata.length).zip c.iterMetadata)).map
      fun g => g.2.map fun p => (p.1 : Int)

/-- `SpectrumCollectionMixin.group_by` (euphonic/spectra.py:1036-1075). -/
def MColl.groupByKeys [Field α] [LinearOrder α] (c : MColl V α) (keys : List String) :
    Except Err (MColl V α) := do
  let parts ← (c.groupIndices keys).mapM fun is => do (← c.getList is).sum
  fromSpectra parts

/-- `SpectrumCollectionMixin._select_indices` (euphonic/spectra.py:904-930): positions of the lines
whose metadata contain all requested items. -/
def MColl.selectIndices (c : MColl V α) (sel : Dict V) : List Int :=
  ((List.range c.iterMetadata.length).zip c.iterMetadata).filterMap fun p =>
    if sel.all fun kv => p.2.contains kv then some (p.1 : Int) else none

/-- `itertools.product` of a list of lists: the last list varies fastest. -/
def product {β : Type} : List (List β) → List (List β)
  | [] => [[]]
  | l :: ls => l.flatMap fun b => (product ls).map fun r => b :: r

/-- The indices collected by `select` (euphonic/spectra.py:958-970).  Single values have already been
turned into one-element sequences (`ensure_sequence`). -/
def MColl.selectedIndices (c : MColl V α) (crit : List (String × List V)) : List Int :=
  (product (crit.map (·.2))).flatMap fun combo => c.selectIndices ((crit.map (·.1)).zip combo)

/-- `SpectrumCollectionMixin.select` (euphonic/spectra.py:932-976). -/
def MColl.select (c : MColl V α) (crit : List (String × List V)) : Except Err (MColl V α) :=
  let is := c.selectedIndices crit
  if is.isEmpty then .error .valueError else c.getList is

end Euphonic
