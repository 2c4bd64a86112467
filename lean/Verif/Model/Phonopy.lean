import Mathlib.Algebra.Field.Defs
import Mathlib.Algebra.BigOperators.Group.Finset.Basic
import Mathlib.Analysis.SpecialFunctions.Complex.Circle
import Mathlib.LinearAlgebra.Matrix.NonsingularInverse
import Mathlib.Data.List.Sort
import Verif.Model.Base
import Verif.Model.Rint
import Verif.Model.Lattice

/-!
# Model of the Phonopy readers (euphonic/readers/phonopy.py)

YAML and HDF5 parsing is not modelled: the functions here start from the parsed contents.
-/

set_option autoImplicit false
set_option linter.unusedSectionVars false

namespace Euphonic.Phonopy

open Euphonic.Lattice

/-! ## Weights -/

/-- `_convert_weights` (euphonic/readers/phonopy.py:27-42). -/
def convertWeights {K : Type} [Field K] (w : List K) : List K := w.map (· / w.sum)

/-! ## Eigenvectors -/

/-- `q . (r_j - r_l)` as in `np.einsum('il,jkl->ijk', qpts, rk_diff)`
(euphonic/readers/phonopy.py:333-334). -/
def qDotDiff (q rj rl : V3 ℝ) : ℝ := q.x * (rj.x - rl.x) + q.y * (rj.y - rl.y) + q.z * (rj.z - rl.z)

/-- `conversion[i, j, l]` (euphonic/readers/phonopy.py:333-334). -/
noncomputable def conversion (q rj rl : V3 ℝ) : ℂ :=
  Complex.exp (-(2 * Complex.I * (Real.pi : ℂ)) * (qDotDiff q rj rl : ℂ))

/-- `convert_eigenvector_phases` (euphonic/readers/phonopy.py:317-338) for one q-point: `e s l m` is component
`m` of atom `l` in mode `s`; the reshaped array `[j, k, l, m]` has mode `s = 3 j + k`. -/
noncomputable def convertPhases {n : Nat} (q : V3 ℝ) (r : Fin n → V3 ℝ) (e : Fin (n * 3) → Fin n → Fin 3 → ℂ) :
    Fin (n * 3) → Fin n → Fin 3 → ℂ :=
  fun s l m => e s l m * conversion q (r s.divNat) (r l)

/-! ## File formats -/

/-- The part of a path behind the last `/`. -/
def baseName (p : List Char) : List Char := (p.reverse.takeWhile (· ≠ '/')).reverse

/-- `os.path.splitext(p)[1]` (Python, posixpath): the last `.` of the file name and what follows, unless only
dots precede it. -/
def splitExt (p : List Char) : List Char :=
  let b := baseName p
  let ext := (b.reverse.takeWhile (· ≠ '.')).reverse
  let stem := (b.reverse.dropWhile (· ≠ '.')).tail.reverse
  if b.contains '.' && stem.any (· ≠ '.') then '.' :: ext else []

/-- `s.strip('.')` (Python). -/
def stripDots (s : List Char) : List Char :=
  ((s.dropWhile (· = '.')).reverse.dropWhile (· = '.')).reverse

/-- `a in b` for strings (Python). -/
def isSubstring (a b : List Char) : Bool := b.tails.any fun t => a.isPrefixOf t

/-- `hdf5_exts` (euphonic/readers/phonopy.py:244, 701). -/
def hdf5Exts : List (List Char) := ["hdf5".toList, "hd5".toList, "h5".toList]

/-- `yaml_exts` (euphonic/readers/phonopy.py:245). -/
def yamlExts : List (List Char) := ["yaml".toList, "yml".toList, "yl".toList]

/-- How a file is read. -/
inductive Format where
  | hdf5 | yaml | phonopy
  deriving DecidableEq, Repr

/-- Choice of the reader in `read_phonon_data` (euphonic/readers/phonopy.py:244-258). -/
def phononFormat (format : Option (List Char)) (name : List Char) : Except Err Format :=
  let f := match format with
    | some f => f
    | none => stripDots (splitExt name)
  if f ∈ hdf5Exts then .ok .hdf5
  else if f ∈ yamlExts then .ok .yaml
  else .error .valueError

/-- Choice of the reader in `read_interpolation_data` (euphonic/readers/phonopy.py:700-723); `fc_format in
'hdf5'` is a test for a substring. -/
def fcFormat (format : Option (List Char)) (name : List Char) : Except Err Format :=
  let f := match format with
    | some f => f
    | none =>
      let f := stripDots (splitExt name)
      if f ∉ hdf5Exts then "phonopy".toList else f
  if f = "phonopy".toList then .ok .phonopy
  else if isSubstring f "hdf5".toList then .ok .hdf5
  else .error .valueError

/-! ## What is read from which file -/

/-- Keys of the summary file that may be absent (euphonic/readers/phonopy.py:540-579). -/
structure Summary (C B D N : Type) where
  fc : Option C
  born : Option B
  dielectric : Option D
  nac : Option N

/-- Contents of a BORN file (euphonic/readers/phonopy.py:409-450): the factor may be absent. -/
structure BornFile (B D N : Type) where
  born : B
  dielectric : D
  nac : Option N

/-- Choice of the force constants (euphonic/readers/phonopy.py:699-723); `read` is the file read with the
format determined. -/
def chooseFc {C B D N : Type} (s : Summary C B D N) (format : Option (List Char)) (name : List Char)
    (read : Format → Except Err C) : Except Err C :=
  match s.fc with
  | some c => .ok c
  | none => do
    let f ← fcFormat format name
    read f

/-- Choice of Born charges, dielectric tensor and factor (euphonic/readers/phonopy.py:725-749); `file` is the
BORN file if its name was given. -/
def chooseDipole {C B D N : Type} (s : Summary C B D N) (file : Option (Except Err (BornFile B D N))) :
    Except Err (Option B × Option D × Option N) := do
  let (b, d, n) ← (match file with
    | none => .ok (s.born, s.dielectric, s.nac)
    | some f =>
      if s.born.isSome && s.dielectric.isSome && s.nac.isSome then .ok (s.born, s.dielectric, s.nac)
      else do
        let f ← f
        return (some f.born, some f.dielectric, f.nac.orElse fun _ => s.nac) :
      Except Err (Option B × Option D × Option N))
  if b.isSome && n.isNone then throw .keyError
  return (b, d, n)

/-! ## Force constants -/

/-- `_check_fc_shape` (euphonic/readers/phonopy.py:394-406): an error is raised unless the first two entries
of the shape fit. -/
def checkFcShape (shape : List Nat) (nAtoms nCells : Nat) : Except Err Unit :=
  match shape with
  | [] => .error .indexError
  | [a] => if a = nAtoms ∨ a = nCells * nAtoms then .error .indexError else .error .valueError
  | a :: b :: _ =>
    if ¬ ((a = nAtoms ∨ a = nCells * nAtoms) ∧ b = nCells * nAtoms) then .error .valueError
    else .ok ()

/-- Header of a FORCE_CONSTANTS file (euphonic/readers/phonopy.py:364-369). -/
def fcDims (header : List Nat) (nAtoms nCells : Nat) : Except Err (List Nat) := do
  let dims := if header.length = 1 then header ++ [header.headD 0] else header
  checkFcShape dims nAtoms nCells
  return dims

/-- `np.genfromtxt(..., max_rows=m, usecols=(0,1,2), invalid_raise=False)`: the first three numbers of the
lines that have three, at most `m` of them; other lines are left out (with a warning).  Comments and values
that are not numbers are not modelled. -/
def genfromtxt {K : Type} (m : Nat) (lines : List (List K)) : List (List K) :=
  ((lines.filterMap fun l => match l with
    | a :: b :: c :: _ => some [a, b, c]
    | _ => none).take m)

/-- `_extract_force_constants` (euphonic/readers/phonopy.py:341-376) for a file whose lines are `header` and
`lines`: numbers in the order `[i, j, a, b]`; `reshape` raises `ValueError` unless their number fits.  Only
shapes of two entries are modelled. -/
def extractFc {K : Type} (header : List Nat) (lines : List (List K)) (nAtoms nCells : Nat) :
    Except Err (List Nat × List K) := do
  let dims ← fcDims header nAtoms nCells
  let l := (genfromtxt (4 * (nAtoms * nCells) ^ 2) lines).flatten
  if l.length = dims.prod * 9 then return (dims, l)
  else throw .valueError

/-! ## BORN file -/

/-- A line of a BORN file: comment or numbers. -/
inductive BornLine (K : Type) where
  | comment
  | numbers (l : List K)

/-- `np.array(l).reshape([3, 3])`. -/
def reshape33 {K : Type} (l : List K) : Except Err (M3 K) :=
  match l with
  | [a, b, c, d, e, f, g, h, i] => .ok ⟨⟨a, b, c⟩, ⟨d, e, f⟩, ⟨g, h, i⟩⟩
  | _ => .error .valueError

/-- The lines left after comments are dropped (euphonic/readers/phonopy.py:432-437). -/
def numberLines {K : Type} (lines : List (BornLine K)) : List (List K) :=
  lines.filterMap fun l => match l with
    | .comment => none
    | .numbers l => some l

/-- The factor, if the first line has one number only, and the other lines
(euphonic/readers/phonopy.py:438-442). -/
def bornFactor {K : Type} (ls : List (List K)) : Except Err (Option K × List (List K)) :=
  match ls with
  | [] => .error .indexError
  | [x] :: rest => .ok (some x, rest)
  | ls => .ok (none, ls)

/-- Dielectric tensor and charges (euphonic/readers/phonopy.py:444-450). -/
def bornTensors {K : Type} (nac : Option K) (rest : List (List K)) :
    Except Err (BornFile (List (M3 K)) (M3 K) K) :=
  match rest with
  | [] => .error .indexError
  | d :: b => do
    let d ← reshape33 d
    let b ← b.mapM reshape33
    return ⟨b, d, nac⟩

/-- `_extract_born` (euphonic/readers/phonopy.py:409-450). -/
def extractBorn {K : Type} (lines : List (BornLine K)) : Except Err (BornFile (List (M3 K)) (M3 K) K) := do
  let (nac, rest) ← bornFactor (numberLines lines)
  bornTensors nac rest

/-! ## Units -/

/-- `s.split('/')` (Python). -/
def splitSlash (s : List Char) : List (List Char) := s.splitOn '/'

/-- `re.findall(r'/([^/]+)', s)`: the non-empty parts behind a slash (euphonic/readers/phonopy.py:506). -/
def denominators (s : List Char) : List (List Char) := (splitSlash s).tail.filter (· ≠ [])

/-- The unit of force constants with brackets around denominators (euphonic/readers/phonopy.py:504-508). -/
def bracketUnit (s : List Char) : List Char :=
  (splitSlash s).headD [] ++ "/(".toList ++
    List.intercalate "/(".toList ((denominators s).map (· ++ [')']))

/-! ## Atoms of the supercell -/

/-- `np.unique(a)` (sorted, without repetition), for the indices of primitive cell atoms
(euphonic/readers/phonopy.py:538-539). -/
def npUnique (a : List Int) : List Int := a.eraseDups.insertionSort (· ≤ ·)

/-- `np.unique(a, return_inverse=True)[1]`: position of every element (euphonic/readers/phonopy.py:538-539). -/
def npUniqueInverse (a : List Int) : List Nat := a.map fun x => (npUnique a).idxOf x

/-- `idx_in_pcell` of `_extract_crystal_data` (euphonic/readers/phonopy.py:624-632): the `reduced_to` entries,
or `np.arange(n_atoms)`. -/
def idxInCell (reducedTo : Option (List Int)) (n : Nat) : List Int :=
  match reducedTo with
  | some l => l
  | none => (List.range n).map fun i : Nat => (i : Int)

/-- `pc_to_sc_atom_idx, sc_to_pc_atom_idx` (euphonic/readers/phonopy.py:538-539). -/
def atomMaps (reducedTo : Option (List Int)) (n : Nat) : List Int × List Nat :=
  let a := (idxInCell reducedTo n).map (· - 1)
  (npUnique a, npUniqueInverse a)

/-- `p_to_sc_matrix` (euphonic/readers/phonopy.py:517-527): `s` is `supercell_matrix`, `p` is
`primitive_matrix` if present. -/
noncomputable def scMatrix (s : Matrix (Fin 3) (Fin 3) ℝ) (p : Option (Matrix (Fin 3) (Fin 3) ℝ)) :
    Matrix (Fin 3) (Fin 3) ℝ :=
  match p with
  | some p => (s * (p⁻¹).transpose).map fun x => (rint x : ℝ)
  | none => s

/-- `satom_r_pcell` (euphonic/readers/phonopy.py:533). -/
noncomputable def scAtomR {m : Nat} (r : Matrix (Fin m) (Fin 3) ℝ) (sc : Matrix (Fin 3) (Fin 3) ℝ) :
    Matrix (Fin m) (Fin 3) ℝ := r * sc

end Euphonic.Phonopy
