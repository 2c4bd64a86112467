import Verif.Model.Base
import Verif.Model.Collection
import Mathlib.Algebra.Order.Field.Basic
import Mathlib.Algebra.Order.Floor.Defs
import Mathlib.Algebra.Order.Floor.Ring

/-!
# Model of the command-line helpers (euphonic/cli/utils.py, euphonic/cli/powder_map.py)
-/

set_option autoImplicit false
set_option linter.unusedSectionVars false

namespace Euphonic.Cli

/-! ## Band paths -/

/-- `np.where(mask)[0]`: the positions of the true entries, in increasing order. -/
def npWhere (mask : List Bool) : List Nat :=
  (List.range mask.length).filter fun i => mask.getD i false

/-- `_get_tick_labels` (euphonic/cli/utils.py:226-243). -/
def tickLabels (labels : List String) : List (Nat × String) :=
  let idx := npWhere (labels.map fun s => s != "")
  let ls := idx.map fun i => labels.getD i ""
  let ls := ls.map fun s => if s = "GAMMA" then "$\\Gamma$" else s
  idx.zip ls

/-- `_get_break_points` (euphonic/cli/utils.py:246-274). -/
def breakPoints (labels : List String) : List Nat :=
  let special := labels.map fun s => s != ""
  let adjacent := List.zipWith (· && ·) special.dropLast special.tail
  let different := List.zipWith (· != ·) labels.dropLast labels.tail
  (npWhere (List.zipWith (· && ·) adjacent different)).map (· + 1)

/-- `list.insert(i, x)` for a non-negative position. -/
def pyInsert {β : Type} (l : List β) (i : Nat) (x : β) : List β := l.take i ++ x :: l.drop i

/-- The positions at which `_insert_gamma` inserts (euphonic/cli/utils.py:283-284): those of the label
`GAMMA` other than the first and last points. -/
def gammaIndices (labels : List String) : List Nat :=
  (npWhere (labels.tail.dropLast.map fun s => s == "GAMMA")).map (· + 1)

/-- `_insert_gamma` (euphonic/cli/utils.py:277-299): the new coordinates and labels.  `origin` is
`[0., 0., 0.]`.  The entries set to `None` are not used afterwards and are left out. -/
def insertGamma {κ : Type} (origin : κ) (kpts : List κ) (labels : List String) :
    List κ × List String :=
  (gammaIndices labels).reverse.foldl
    (fun st i => (pyInsert st.1 i origin, pyInsert st.2 i "GAMMA")) (kpts, labels)

/-! ## Energy bins -/

section field
variable {α : Type} [Field α] [LinearOrder α]

/-- `np.linspace(a, b, n)` with both end points (used in euphonic/cli/utils.py:222 and
euphonic/cli/powder_map.py:147): the last value is set to `b` exactly. -/
def linspace (a b : α) (n : Nat) : List α :=
  (List.range n).map fun (i : Nat) =>
    if i + 1 = n ∧ 1 < n then b else a + (i : α) * ((b - a) / ((n : α) - 1))

/-- `np.min`, which raises `ValueError` for an empty array. -/
def npMin : List α → Except Err α
  | [] => .error .valueError
  | a :: l => .ok (l.foldl min a)

/-- `np.max`, which raises `ValueError` for an empty array. -/
def npMax : List α → Except Err α
  | [] => .error .valueError
  | a :: l => .ok (l.foldl max a)

/-- `emin` of `_get_energy_bins` (euphonic/cli/utils.py:210-215). -/
def lowerLimit (freqs : List α) (room : α) : Option α → Except Err α
  | some e => .ok e
  | none => do return min (← npMin (freqs.map fun f => f - room)) 0

/-- `emax` of `_get_energy_bins` (euphonic/cli/utils.py:216-217). -/
def upperLimit (freqs : List α) (headroom : α) : Option α → Except Err α
  | some e => .ok e
  | none => do return (← npMax freqs) * headroom

/-- `_get_energy_bins` (euphonic/cli/utils.py:200-223).  `freqs` are the frequencies of all modes in
their display unit, `room` is 1e-5 meV in that unit. -/
def energyBins (freqs : List α) (n : Nat) (emin emax : Option α) (headroom room : α) :
    Except Err (List α) := do
  let lo ← lowerLimit freqs room emin
  let hi ← upperLimit freqs headroom emax
  if lo ≥ hi then .error .valueError else .ok (linspace lo hi n)

/-! ## Powder map -/

variable [FloorRing α]

/-- The number of |q| bins of `euphonic-powder-map` (euphonic/cli/powder_map.py:146). -/
def nQBins (qMin qMax spacing : α) : Int := ⌈(qMax - qMin) / spacing⌉

/-- `q_bin_edges` (euphonic/cli/powder_map.py:146-148); a negative number of samples raises
`ValueError`. -/
def qBinEdges (qMin qMax spacing : α) : Except Err (List α) :=
  if nQBins qMin qMax spacing + 1 < 0 then .error .valueError
  else .ok (linspace qMin qMax (nQBins qMin qMax spacing + 1).toNat)

/-- The number of points on the sphere of radius `q` with `--npts-density`
(euphonic/cli/powder_map.py:186-189). -/
def sphereNpts (density : α) (nptsMin nptsMax : Int) (q : α) : Int :=
  max nptsMin (min nptsMax ⌈density * q ^ 2⌉)

end field

/-! ## Density of states options -/

/-- `str.rfind('-')`, `none` for -1. -/
def rfindDash (s : List Char) : Option Nat :=
  ((List.range s.length).filter fun i => s.getD i ' ' == '-').getLast?

/-- `_get_pdos_weighting` (euphonic/cli/utils.py:376-388) on the characters of the argument. -/
def pdosWeighting (s : List Char) : Except Err (Option (List Char)) :=
  if s = "dos".toList then .ok none
  else match rfindDash s with
    | none => .error .valueError
    | some i => .ok (some (s.take i))

section pdos
variable {V α : Type} [DecidableEq V] [Field α] [LinearOrder α]

/-- `d[k] = v` for a dictionary. -/
def dictSet (d : Dict V) (k : String) (v : V) : Dict V := Dict.union d [(k, v)]

/-- One pass of the labelling loop of `_arrange_pdos_groups` (euphonic/cli/utils.py:403); a missing
`species` raises `KeyError`. -/
def labelOne (d : Dict V) : Except Err (Dict V) :=
  match Dict.get d "species" with
  | none => .error .keyError
  | some v => .ok (dictSet d "label" v)

/-- The labelling loop of `_arrange_pdos_groups` (euphonic/cli/utils.py:402-403); a missing
`line_data` raises `KeyError`. -/
def labelLines (c : MColl V α) : Except Err (MColl V α) := do
  match c.md.lines with
  | none => .error .keyError
  | some ls =>
    let ls' ← ls.mapM labelOne
    .ok { c with md := { c.md with lines := some ls' } }

/-- `_arrange_pdos_groups` (euphonic/cli/utils.py:391-410); `total` is the metadata value `'Total'`,
`arg` the `--pdos` argument (`none`: option not given). -/
def arrangePdos (total : V) (c : MColl V α) (arg : Option (List V)) :
    Except Err (MSpec V α ⊕ MColl V α) := do
  let dos ← c.sum
  match arg with
  | none => return .inl dos
  | some req =>
    let dos := { dos with md := dictSet dos.md "label" total }
    let g ← c.groupByKeys ["species"]
    let g ← labelLines g
    if req.length > 0 then return .inr (← g.select [("species", req)])
    else return .inr (← fromSpectra (dos :: (← g.toList)))

end pdos

/-! ## Loading files -/

/-- `pathlib.PurePath(name).suffix` for the characters of a final path component: the last dot and
what follows, unless the dot is the first or the last character. -/
def suffix (name : List Char) : List Char :=
  match ((List.range name.length).filter fun i => name.getD i ' ' == '.').getLast? with
  | none => []
  | some i => if 0 < i ∧ i < name.length - 1 then name.drop i else []

/-- The object returned by a loader. -/
inductive Loaded (F M Q : Type) where
  | fc (x : F)
  | modes (x : M)
  | freqs (x : Q)
  deriving Repr

/-- The external readers and the surroundings of one file: results of the constructors called by
`load_data_from_file` on the path, the keys of the JSON object, and which companion files exist.
`fcPhonopy born summary fcName` is `ForceConstants.from_phonopy(path=path.parent, ...)`. -/
structure Env (F M Q : Type) where
  castepFreqs : Except Err Q
  castepModes : Except Err M
  castepFc : Except Err F
  jsonKeys : Except Err (List String)
  jsonFc : Except Err F
  jsonModes : Except Err M
  jsonFreqs : Except Err Q
  phonopyModes : Except Err M
  phonopyFreqs : Except Err Q
  hasBorn : Bool
  hasPhonopyYaml : Bool
  hasFcHdf5 : Bool
  fcPhonopy : Option (List Char) → List Char → List Char → Except Err F

variable {F M Q : Type}

/-- `_load_euphonic_json` (euphonic/cli/utils.py:21-36). -/
def loadJson (env : Env F M Q) (freqOnly : Bool) : Except Err (Loaded F M Q) := do
  let keys ← env.jsonKeys
  if "force_constants" ∈ keys then return .fc (← env.jsonFc)
  else if "frequencies" ∈ keys then
    if "eigenvectors" ∈ keys ∧ freqOnly = false then return .modes (← env.jsonModes)
    else return .freqs (← env.jsonFreqs)
  else .error .valueError

/-- First attempt of `_load_phonopy_file` (euphonic/cli/utils.py:45-53): eigenvectors, unless only
frequencies are wanted; `KeyError` and `RuntimeError` mean there are none. -/
def phonopyTryModes (env : Env F M Q) (freqOnly : Bool) : Except Err (Option (Loaded F M Q)) :=
  if freqOnly then .ok none
  else match env.phonopyModes with
    | .ok m => .ok (some (.modes m))
    | .error .keyError => .ok none
    | .error .runtimeError => .ok none
    | .error e => .error e

/-- Second attempt (euphonic/cli/utils.py:55-62); `KeyError` means the file has no frequencies. -/
def phonopyTryFreqs (env : Env F M Q) : Except Err (Option (Loaded F M Q)) :=
  match env.phonopyFreqs with
  | .ok q => .ok (some (.freqs q))
  | .error .keyError => .ok none
  | .error e => .error e

/-- Third attempt (euphonic/cli/utils.py:64-84).  Only the two suffixes for which the function is
called are modelled (for any other one `from_phonopy` would be called with its default names). -/
def phonopyFc (env : Env F M Q) (name : List Char) : Except Err (Loaded F M Q) := do
  let born := if env.hasBorn then some "BORN".toList else none
  if suffix name = ".hdf5".toList then
    if env.hasPhonopyYaml then return .fc (← env.fcPhonopy born "phonopy.yaml".toList name)
    else .error .valueError
  else
    let fcName := if env.hasFcHdf5 then "force_constants.hdf5".toList else "FORCE_CONSTANTS".toList
    return .fc (← env.fcPhonopy born name fcName)

/-- `_load_phonopy_file` (euphonic/cli/utils.py:39-89). -/
def loadPhonopy (env : Env F M Q) (name : List Char) (freqOnly : Bool) :
    Except Err (Loaded F M Q) := do
  match ← phonopyTryModes env freqOnly with
  | some d => return d
  | none =>
    match ← phonopyTryFreqs env with
    | some d => return d
    | none => phonopyFc env name

/-- `load_data_from_file` (euphonic/cli/utils.py:92-139); printing is left out. -/
def loadFile (env : Env F M Q) (name : List Char) (freqOnly : Bool) :
    Except Err (Loaded F M Q) := do
  let sfx := suffix name
  if sfx = ".phonon".toList then
    if freqOnly then return .freqs (← env.castepFreqs) else return .modes (← env.castepModes)
  else if sfx = ".castep_bin".toList ∨ sfx = ".check".toList then return .fc (← env.castepFc)
  else if sfx = ".json".toList then loadJson env freqOnly
  else if sfx = ".hdf5".toList ∨ sfx = ".yaml".toList then loadPhonopy env name freqOnly
  else .error .valueError

end Euphonic.Cli
