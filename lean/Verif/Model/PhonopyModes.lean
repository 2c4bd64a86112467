import Verif.Model.Phonopy

/-!
# Model of `read_phonon_data` (euphonic/readers/phonopy.py:45-315)

The contents of a YAML file are the nested lists and dictionaries `yaml.load` returns, the contents of an
HDF5 file are arrays. Arrays are shapes and values in C order.
-/

set_option autoImplicit false

namespace Euphonic.Phonopy

open Euphonic.Lattice

/-! ## Arrays -/

/-- A numpy array: its shape and its values in C order. -/
structure Arr (α : Type) where
  shape : List Nat
  data : List α

/-- `np.array` of a list of numbers. -/
def npArray {α : Type} (l : List α) : Arr α := ⟨[l.length], l⟩

/-- `np.array` of a list of things that are arrays themselves; they must have the same shape. -/
def npStack {α : Type} (l : List (Arr α)) : Except Err (Arr α) :=
  match l with
  | [] => .ok ⟨[0], []⟩
  | a :: r => if r.all fun b => b.shape = a.shape then .ok ⟨(a :: r).length :: a.shape, (a :: r).flatMap Arr.data⟩
    else .error .valueError

/-- `a.reshape(shape)`. -/
def Arr.reshape {α : Type} (a : Arr α) (shape : List Nat) : Except Err (Arr α) :=
  if shape.prod = a.data.length then .ok ⟨shape, a.data⟩ else .error .valueError

/-- `a.reshape(-1, *tail)`; the first extent cannot be found if the others are zero. -/
def Arr.reshapeTail {α : Type} (a : Arr α) (tail : List Nat) : Except Err (Arr α) :=
  if tail.prod = 0 then .error .valueError
  else if a.data.length % tail.prod = 0 then .ok ⟨a.data.length / tail.prod :: tail, a.data⟩
  else .error .valueError

/-- `c` consecutive pieces of length `k`. -/
def chunk {α : Type} (k c : Nat) (l : List α) : List (List α) :=
  (List.range c).map fun i => (l.drop (i * k)).take k

/-- The transpose of a list of rows with `c` columns. -/
def transposeRows {α : Type} (c : Nat) (rows : List (List α)) : List (List α) :=
  (List.range c).map fun k => rows.filterMap fun r => r[k]?

/-- `a.transpose([0, 2, 1])`; the array must have three axes. -/
def Arr.transpose021 {α : Type} (a : Arr α) : Except Err (Arr α) :=
  match a.shape with
  | [p, q, r] => .ok ⟨[p, r, q], (chunk (q * r) p a.data).flatMap fun b => (transposeRows r (chunk r q b)).flatten⟩
  | _ => .error .valueError

/-- Neighbouring numbers as real and imaginary parts. -/
noncomputable def pairUp : List ℝ → List ℂ
  | a :: b :: l => (⟨a, b⟩ : ℂ) :: pairUp l
  | _ => []

/-- `a.view(np.complex128)` of an array of floats: the last extent is halved. -/
noncomputable def Arr.viewComplex (a : Arr ℝ) : Except Err (Arr ℂ) :=
  match a.shape.getLast? with
  | none => .error .valueError
  | some d => if d % 2 = 0 then .ok ⟨a.shape.dropLast ++ [d / 2], pairUp a.data⟩ else .error .valueError

/-- `np.squeeze`: extents of one disappear. -/
def Arr.squeeze {α : Type} (a : Arr α) : Arr α := ⟨a.shape.filter (· ≠ 1), a.data⟩

/-! ## Contents of the files -/

/-- An item of `band` of a YAML file. -/
structure YBand where
  frequency : ℝ
  eigenvector : Option (List (List (List ℝ)))

/-- An item of `phonon` of a YAML file. -/
structure YPhonon where
  qPosition : List ℝ
  weight : Option ℝ
  band : List YBand

/-- An item of `points` of a YAML file. -/
structure YPoint where
  coordinates : Option (List ℝ)
  mass : Option ℝ
  symbol : Option String

/-- A mesh/band/qpoints YAML file. -/
structure YFile where
  phonon : List YPhonon
  lattice : Option (List (List ℝ))
  points : Option (List YPoint)

/-- A mesh/band/qpoints HDF5 file. -/
structure HFile where
  qpoint : Option (Arr ℝ)
  path : Option (Arr ℝ)
  frequency : Option (Arr ℝ)
  eigenvector : Option (Arr ℂ)
  weight : Option (Arr ℝ)

/-- The dictionary `phonon_dict` with the keys that may be missing. -/
structure PhononDict where
  qpts : Arr ℝ
  frequencies : Arr ℝ
  eigenvectors : Option (Arr ℂ)
  weights : Option (List ℝ)
  cellVectors : Option (Arr ℝ)
  atomR : Option (Arr ℝ)
  atomMass : Option (List ℝ)
  atomType : Option (List String)

/-- `hdf5_file[key]`. -/
def key {α : Type} (x : Option α) : Except Err α :=
  match x with
  | some a => .ok a
  | none => .error .keyError

/-- A value that stays unset if a `KeyError` is caught; other errors are passed on. -/
def tryKey {α : Type} (x : Except Err α) : Except Err (Option α) :=
  match x with
  | .ok a => .ok (some a)
  | .error .keyError => .ok none
  | .error e => .error e

/-- The eigenvectors of a YAML file (euphonic/readers/phonopy.py:94-96) before `view`. -/
def yamlEig (bands : List (List YBand)) : Except Err (Arr ℝ) := do
  let qs ← bands.mapM fun b => do
    let ms ← b.mapM fun band => do
      let atoms ← (← key band.eigenvector).mapM fun a => npStack (a.map npArray)
      npStack atoms
    npStack ms
  npStack qs

/-- The eigenvectors of a YAML file (euphonic/readers/phonopy.py:90-98). -/
noncomputable def yamlEigenvectors (bands : List (List YBand)) : Except Err (Arr ℂ) := do
  let a ← yamlEig bands
  return (← a.viewComplex).squeeze

/-- The eigenvectors of a YAML file are looked for only if wanted, and may be missing
(euphonic/readers/phonopy.py:90-98). -/
noncomputable def yamlMaybeEig (readEig : Bool) (bands : List (List YBand)) : Except Err (Option (Arr ℂ)) :=
  if readEig then tryKey (yamlEigenvectors bands) else .ok none

/-- The crystal of a YAML file (euphonic/readers/phonopy.py:106-116): the keys are set one after the other
until one is missing. -/
def yamlCrystal (f : YFile) (d : PhononDict) : Except Err PhononDict := do
  match f.lattice with
  | none => return d
  | some lat =>
    let c ← npStack (lat.map npArray)
    match f.points with
    | none => return { d with cellVectors := some c }
    | some pts =>
      match ← tryKey (do npStack (← pts.mapM fun p => do return npArray (← key p.coordinates))) with
      | none => return { d with cellVectors := some c }
      | some r =>
        match ← tryKey (pts.mapM fun p => key p.mass) with
        | none => return { d with cellVectors := some c, atomR := some r }
        | some m =>
          match ← tryKey (pts.mapM fun p => key p.symbol) with
          | none => return { d with cellVectors := some c, atomR := some r, atomMass := some m }
          | some t => return { d with cellVectors := some c, atomR := some r, atomMass := some m,
                                      atomType := some t }

/-- `_extract_phonon_data_yaml` (euphonic/readers/phonopy.py:45-117). -/
noncomputable def extractYaml (f : YFile) (readEig : Bool) : Except Err PhononDict := do
  let q ← npStack (f.phonon.map fun p => npArray p.qPosition)
  let w ← npStack (f.phonon.map fun p => npArray (p.band.map YBand.frequency))
  let e ← yamlMaybeEig readEig (f.phonon.map YPhonon.band)
  let wt ← tryKey (f.phonon.mapM fun p => key p.weight)
  yamlCrystal f ⟨q, w, e, wt, none, none, none, none⟩

/-- `a.reshape(-1, a.shape[-1])` (euphonic/readers/phonopy.py:173-176). -/
def flattenRows {α : Type} (a : Arr α) : Except Err (Arr α) :=
  match a.shape.getLast? with
  | none => .error .indexError
  | some d => a.reshapeTail [d]

/-- The eigenvectors of a band.hdf5 file (euphonic/readers/phonopy.py:177-186). -/
def bandEigenvectors (e : Option (Arr ℂ)) : Except Err (Arr ℂ) := do
  let a ← key e
  let b ← a.reshapeTail (a.shape.drop (a.shape.length - 2))
  b.transpose021

/-- `_extract_phonon_data_hdf5` (euphonic/readers/phonopy.py:119-187). -/
def extractHdf5 (f : HFile) (readEig : Bool) : Except Err PhononDict :=
  match f.qpoint with
  | some q => do
    let w ← key f.frequency
    return ⟨q, w, if readEig then f.eigenvector else none, f.weight.map Arr.data, none, none, none, none⟩
  | none => do
    let q ← flattenRows (← key f.path)
    let w ← flattenRows (← key f.frequency)
    let e ← tryKey (bandEigenvectors f.eigenvector)
    return ⟨q, w, e, none, none, none, none, none⟩

/-! ## Reading -/

/-- The crystal of the summary file with its units (euphonic/readers/phonopy.py:271-279). -/
structure SummaryCrystal where
  cellVectors : Arr ℝ
  atomR : Arr ℝ
  atomMass : List ℝ
  atomType : List String
  ulength : String
  umass : String

/-- The dictionary returned by `read_phonon_data`. -/
structure PhononOut where
  nAtoms : Nat
  cellVectors : List ℝ
  atomR : List ℝ
  atomMass : List ℝ
  atomType : List String
  nQpts : Nat
  qpts : List ℝ
  frequencies : List ℝ
  eigenvectors : Option (List ℂ)
  weights : Option (List ℝ)

/-- `len(a)` of an array. -/
def Arr.len {α : Type} (a : Arr α) : Nat := a.shape.headD 0

/-- Three consecutive numbers as vectors. -/
def vecs (l : List ℝ) : List (V3 ℝ) :=
  (chunk 3 (l.length / 3) l).map fun v => ⟨v.getD 0 0, v.getD 1 0, v.getD 2 0⟩

/-- `convert_eigenvector_phases` (euphonic/readers/phonopy.py:317-338) on arrays: `eigvecs[i, j, k, l, m] *
conversion[i, j, l]`, where the axes are q-points, (atom, direction) of the mode number, atoms, directions. -/
noncomputable def convertArr (r : List (V3 ℝ)) (qpts : List (V3 ℝ)) (e : Arr ℂ) : Except Err (List ℂ) := do
  let n := r.length
  let a ← e.reshape [qpts.length, n, 3, n, 3]
  return (List.zipWith (fun q eq =>
    (List.zipWith (fun rj ej =>
      (chunk (n * 3) 3 ej).flatMap fun ek =>
        (List.zipWith (fun rl el => el.map (· * conversion q rj rl)) r (chunk 3 n ek)).flatten)
      r (chunk (3 * (n * 3)) n eq)).flatten) qpts (chunk (n * (3 * (n * 3))) qpts.length a.data)).flatten

/-- A file that can be read. -/
inductive PhononFile where
  | yaml (f : YFile)
  | hdf5 (f : HFile)

/-- The file read by the function for its format (euphonic/readers/phonopy.py:249-255). -/
noncomputable def PhononFile.extract (f : PhononFile) (readEig : Bool) : Except Err PhononDict :=
  match f with
  | .yaml f => extractYaml f readEig
  | .hdf5 f => extractHdf5 f readEig

/-- The four crystal keys with units, from the file or from the summary (euphonic/readers/phonopy.py:264-288).
The order of atoms and bands is compared only if the summary is used. -/
def chooseCrystal (d : PhononDict) (summary : Except Err SummaryCrystal) : Except Err SummaryCrystal :=
  match d.cellVectors, d.atomR, d.atomMass, d.atomType with
  | some c, some r, some m, some t => .ok ⟨c, r, m, t, "angstrom", "amu"⟩
  | _, _, _, _ => do
    let s ← summary
    if d.frequencies.len = 0 then .error .indexError
    else if 3 * s.atomR.len ≠ d.frequencies.shape.getD 1 0 then .error .valueError
    else return s

/-- The phases are converted if eigenvectors are wanted (euphonic/readers/phonopy.py:310-312). -/
noncomputable def outEigenvectors (readEig : Bool) (d : PhononDict) (r : Arr ℝ) :
    Except Err (Option (List ℂ)) :=
  if readEig then
    match d.eigenvectors with
    | none => .error .runtimeError
    | some e => do return some (← convertArr (vecs r.data) (vecs d.qpts.data) e)
  else .ok none

/-- `read_phonon_data` (euphonic/readers/phonopy.py:188-315) behind the choice of the format (C63).
`len`, `mass` and `freq` are the factors of the units to the wanted units. -/
noncomputable def readPhononData (len mass : String → ℝ) (freq : ℝ) (f : PhononFile)
    (summary : Except Err SummaryCrystal) (readEig : Bool) : Except Err PhononOut := do
  let d ← f.extract readEig
  if readEig = true ∧ d.eigenvectors.isNone = true then throw .runtimeError
  let s ← chooseCrystal d summary
  let e ← outEigenvectors readEig d s.atomR
  return { nAtoms := s.atomR.len
           cellVectors := s.cellVectors.data.map (· * len s.ulength)
           atomR := s.atomR.data
           atomType := s.atomType
           atomMass := s.atomMass.map (· * mass s.umass)
           nQpts := d.qpts.len
           qpts := d.qpts.data
           frequencies := d.frequencies.data.map (· * freq)
           eigenvectors := e
           weights := d.weights.map convertWeights }

end Euphonic.Phonopy
