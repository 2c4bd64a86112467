import Verif.Model.Phonopy
import Verif.Model.PhonopyModes
import Verif.Model.Supercell

/-!
# Model of the import of force constants from Phonopy (euphonic/readers/phonopy.py:453-795)

`_extract_crystal_data`, what `_extract_summary` does with the contents of `phonopy.yaml`, and
`read_interpolation_data`, built on the parts modelled in `Verif.Model.Phonopy` and `Verif.Model.Supercell`.  Not
modelled: YAML, HDF5 and the file system; that the values have the shapes expected (a list of three numbers for a
vector, and so on).  The arithmetic is exact.
-/

set_option autoImplicit false

namespace Euphonic.PhonopyFc

open Euphonic.Lattice Euphonic.Phonopy

variable {K : Type} [Field K] [LinearOrder K] [FloorRing K]

/-! ## Contents of the file -/

/-- One of the `points` of a cell in `phonopy.yaml`. -/
structure Point (K : Type) where
  mass : K
  coord : V3 K
  symbol : String
  reducedTo : Option Int

/-- Result of `_extract_crystal_data` (euphonic/readers/phonopy.py:606-634). -/
structure CrystalData (K : Type) where
  cell : M3 K
  r : List (V3 K)
  mass : List K
  types : List String
  idx : List Int

/-- The `reduced_to` entries (euphonic/readers/phonopy.py:624-632): `IndexError` without points; if the first point has the
entry all must have it (`KeyError`), otherwise the others are not looked at. -/
def reducedList (points : List (Point K)) : Except Err (Option (List Int)) :=
  match points with
  | [] => .error .indexError
  | p :: _ => if p.reducedTo.isSome then (points.mapM fun p => key p.reducedTo).map some else .ok none

/-- `_extract_crystal_data` (euphonic/readers/phonopy.py:612-634). -/
def extractCrystal (lattice : M3 K) (points : List (Point K)) : Except Err (CrystalData K) :=
  (reducedList points).map fun red => {
    cell := lattice
    r := points.map (·.coord)
    mass := points.map (·.mass)
    types := points.map (·.symbol)
    idx := idxInCell red points.length }

/-- Names of the units in the file. -/
structure Names where
  mass : List Char
  length : List Char
  fc : List Char

/-- `s.replace(old, new)` of Python for a non-empty `old`; the first argument is at least the length of the text. -/
def replaceAll (old new : List Char) : Nat → List Char → List Char
  | 0, s => s
  | _, [] => []
  | n + 1, c :: s =>
    if old.isPrefixOf (c :: s) then new ++ replaceAll old new n ((c :: s).drop old.length)
    else c :: replaceAll old new n s

/-- `s.replace(old, new)`. -/
def replace (old new : String) (s : List Char) : List Char := replaceAll old.toList new.toList s.length s

/-- The units in the form that `pint` understands (euphonic/readers/phonopy.py:490-510): the default ones if the file
does not name any. -/
def unitNames (pu : Option Names) : Names :=
  let pu := pu.getD ⟨"AMU".toList, "Angstrom".toList, "eV/Angstrom^2".toList⟩
  let fix := fun s => replace "Angstrom" "angstrom" (replace "au" "bohr" s)
  ⟨fix (replace "AMU" "amu" pu.mass), fix pu.length, fix (bracketUnit pu.fc)⟩

/-- Entries on the non-analytical correction. -/
structure Nac (K : Type) where
  factor : Option K
  born : Option (List (M3 K))
  dielectric : Option (M3 K)

/-- The parts of `phonopy.yaml` that are used.  `S` is the matrix from the primitive cell to the supercell (`scMatrix`,
C89).  `nac` is the section of the new format; `old` are the entries of the old one, the factor of which is in the
section `phonopy` (`none` if there is no such section). -/
structure Doc (K : Type) where
  lattice : M3 K
  primitive : List (Point K)
  supercell : List (Point K)
  S : M3 ℤ
  units : Option Names
  fc : Option (List (List (M3 K)))
  nac : Option (Nac K)
  old : Option (Nac K)

/-- Born charges, dielectric tensor and factor of the summary file (euphonic/readers/phonopy.py:550-579). -/
def summaryNac (d : Doc K) : Except Err (Nac K) :=
  match d.nac with
  | some n => .ok n
  | none => key d.old

/-! ## Supercell -/

/-- `np.einsum('ij,jk->ik', satom_r, p_to_sc_matrix)` for one atom (euphonic/readers/phonopy.py:533). -/
def toPrimitive (S : M3 ℤ) (v : V3 K) : V3 K :=
  ⟨v.x * S.a.x + v.y * S.b.x + v.z * S.c.x, v.x * S.a.y + v.y * S.b.y + v.z * S.c.y,
    v.x * S.a.z + v.y * S.b.z + v.z * S.c.z⟩

/-- The arguments of `convert_fc_phases` (euphonic/readers/phonopy.py:530-544, 766-769) for `nu + 1` atoms in the primitive
cell and `ns + 1` in the supercell.  Indices that are negative or too large, or not as many as atoms, are an `IndexError`
here; for numpy negative ones count from the end (C88). -/
def scIn (nu ns : Nat) (r satomR : List (V3 K)) (maps : List Int × List Nat) (S : M3 ℤ) :
    Except Err (Supercell.ScIn K (nu + 1) (ns + 1)) :=
  if r.length ≠ nu + 1 ∨ satomR.length ≠ ns + 1 ∨ maps.1.length ≠ nu + 1 ∨ maps.2.length ≠ ns + 1 ∨
      (∃ i ∈ maps.2, nu + 1 ≤ i) ∨ ∃ i ∈ maps.1, i < 0 ∨ (ns : Int) + 1 ≤ i then .error .indexError
  else .ok
    { atomR := fun i => r.getD i.val ⟨0, 0, 0⟩
      scAtomR := fun k => satomR.getD k.val ⟨0, 0, 0⟩
      ucToSc := fun i => Fin.ofNat _ (maps.1.getD i.val 0).toNat
      scToUc := fun k => Fin.ofNat _ (maps.2.getD k.val 0)
      S := S }

/-- A block of zeros. -/
def zeroBlock : M3 K := ⟨⟨0, 0, 0⟩, ⟨0, 0, 0⟩, ⟨0, 0, 0⟩⟩

/-- A block of -1. -/
def unsetBlock : M3 K := ⟨⟨-1, -1, -1⟩, ⟨-1, -1, -1⟩, ⟨-1, -1, -1⟩⟩

/-- The rows of the force constants that are used (euphonic/util.py:415-417); `ValueError` if the shape does not fit (numpy
fails at an assignment; shapes with ones, which it would repeat, are refused here). -/
def fcRows {nu ns : Nat} (inp : Supercell.ScIn K nu ns) (fc : List (List (M3 K))) :
    Except Err (Fin nu → Fin ns → M3 K) :=
  if (∃ l ∈ fc, l.length ≠ ns) ∨ (fc.length ≠ nu ∧ fc.length ≠ ns) then .error .valueError
  else if fc.length = ns then
    .ok (Supercell.fullRows inp fun i k => (fc.getD i.val []).getD k.val zeroBlock)
  else .ok fun i k => (fc.getD i.val []).getD k.val zeroBlock

/-! ## Result -/

/-- Multiplication of a matrix with a number. -/
def scaleM (k : K) (m : M3 K) : M3 K := ⟨smul k m.a, smul k m.b, smul k m.c⟩

/-- `r - np.floor(r)` (euphonic/readers/phonopy.py:759-760). -/
def normalise (v : V3 K) : V3 K := ⟨v.x - ⌊v.x⌋, v.y - ⌊v.y⌋, v.z - ⌊v.z⌋⟩

/-- Values of units in atomic units, in which the elementary charge is 1: `ureg`. -/
structure Ureg (K : Type) where
  mass : List Char → K
  length : List Char → K
  fc : List Char → K

/-- Values, in atomic units, of the units of the result (arguments of `read_interpolation_data`,
euphonic/readers/phonopy.py:643-647); the default ones of force constants, charges and permittivity are 1. -/
structure OutUnits (K : Type) where
  mass : K
  length : K
  fc : K
  born : K
  dielectric : K

/-- The data of `read_interpolation_data` (euphonic/readers/phonopy.py:755-795). -/
structure Data (K : Type) where
  cell : M3 K
  r : List (V3 K)
  types : List String
  mass : List K
  S : M3 ℤ
  nu : Nat
  nc : Nat
  sc : Supercell.ScOut (M3 K) nu nc
  born : Option (List (M3 K))
  dielectric : Option (M3 K)

/-- Names of the formats and files (arguments of `read_interpolation_data`) and what is in the files: `readFc` is the file of
force constants in a format, `born` the BORN file if its name was given. -/
structure Files (K : Type) where
  fcFormat : Option (List Char)
  fcName : List Char
  readFc : Format → Except Err (List (List (M3 K)))
  born : Option (Except Err (BornFile (List (M3 K)) (M3 K) K))

/-- `dielectric` of the result (euphonic/readers/phonopy.py:777-794): absent if `born`, `dielectric` or the factor are. -/
def outDielectric (u : Ureg K) (o : OutUnits K) (n : Names) (b : Option (List (M3 K))) (d : Option (M3 K))
    (f : Option K) : Option (M3 K) :=
  match b, d, f with
  | some _, some d, some f => some (scaleM (1 / f * (1 / (u.length n.length ^ 3 * u.fc n.fc) / o.dielectric)) d)
  | _, _, _ => none

/-- The last part of `read_interpolation_data` (euphonic/readers/phonopy.py:751-795) for a primitive cell `p` of `nu + 1`
atoms and a supercell `s` of `ns + 1` atoms.  `fmax`, `thr` as in `Supercell.relRow`. -/
def assemble (u : Ureg K) (o : OutUnits K) (fmax thr : K) (n : Names) (nu ns : Nat) (p s : CrystalData K) (S : M3 ℤ)
    (fc : List (List (M3 K))) (b : Option (List (M3 K))) (e : Option (M3 K)) (f : Option K) : Except Err (Data K) := do
  let maps := (npUnique (s.idx.map (· - 1)), npUniqueInverse (s.idx.map (· - 1)))
  let inp ← scIn nu ns p.r (s.r.map (toPrimitive S)) maps S
  let rows ← fcRows inp fc
  let out ← Supercell.convertFcPhases zeroBlock unsetBlock fmax thr (1 / 10 ^ 5) 100 inp rows
  return {
    cell := scaleM (u.length n.length / o.length) p.cell
    r := p.r.map normalise
    types := p.types
    mass := p.mass.map (· * (u.mass n.mass / o.mass))
    S := S
    nu := nu + 1
    nc := (Supercell.atom0Idx inp).length
    sc := ⟨out.cells, fun c i j => scaleM (u.fc n.fc / o.fc) (out.fc c i j)⟩
    born := b.map fun b => b.map (scaleM (1 / o.born))
    dielectric := outDielectric u o n b e f }

/-- `read_interpolation_data` (euphonic/readers/phonopy.py:696-795). -/
def readInterpolation (u : Ureg K) (o : OutUnits K) (fmax thr : K) (d : Doc K) (fs : Files K) :
    Except Err (Data K) := do
  let p ← extractCrystal d.lattice d.primitive
  let s ← extractCrystal d.lattice d.supercell -- the lattice of the supercell is not used
  let nac ← summaryNac d
  let sum : Summary (List (List (M3 K))) (List (M3 K)) (M3 K) K := ⟨d.fc, nac.born, nac.dielectric, nac.factor⟩
  let fc ← chooseFc sum fs.fcFormat fs.fcName fs.readFc
  let (b, e, f) ← chooseDipole sum fs.born
  assemble u o fmax thr (unitNames d.units) (p.r.length - 1) (s.r.length - 1) p s d.S fc b e f

end Euphonic.PhonopyFc
