import Verif.Model.Base
import Verif.Model.Supercell
import Mathlib.Algebra.Order.Floor.Ring

/-!
# Model of the `.castep_bin` reader (euphonic/readers/castep.py:416-677)

An open file is the list of bytes from the current position to the end of the file.  A reader is a
function of it that returns a value and the rest of the file, or raises.  The decoding of eight bytes as
a double (`struct.unpack('>d', ...)`, numpy dtype `>f8`) is a parameter `dbl`; the comparison of CASTEP
versions (the `packaging` library) is a parameter too.  Not modelled: the constant unit factors applied
at the end (euphonic/readers/castep.py:497-529).
-/

set_option autoImplicit false

namespace Euphonic.CastepBin

open Euphonic.Lattice Euphonic.Supercell

/-- The bytes of an open file from the current position on. -/
abbrev File := List UInt8

/-- A function reading from the file. -/
abbrev Rd (α : Type) := StateT File (Except Err) α

/-- `struct.unpack('>i', b)[0]` (used in euphonic/readers/castep.py:650, 664): big-endian signed integer
of exactly four bytes, otherwise `struct.error`. -/
def int32 (b : List UInt8) : Except Err Int :=
  match b with
  | [a, b, c, d] =>
    let v : Nat := a.toNat * 2 ^ 24 + b.toNat * 2 ^ 16 + c.toNat * 2 ^ 8 + d.toNat
    .ok (if v < 2 ^ 31 then (v : Int) else (v : Int) - 2 ^ 32)
  | _ => .error .structError

/-- `file_obj.read(n)` of a buffered binary file (Python library reference): all bytes for `-1`, at most
`n` bytes for `n ≥ 0`, `ValueError` below -1. -/
def readBytes (n : Int) : Rd (List UInt8) := fun f =>
  if n < -1 then .error .valueError
  else if n = -1 then .ok (f, [])
  else .ok (f.take n.toNat, f.drop n.toNat)

/-- `record_mark_read` (euphonic/readers/castep.py:644-650). -/
def recordMark : Rd Int := do
  let raw ← readBytes 4
  if raw = [] then throw .eofError
  let v ← (int32 raw : Except Err Int)
  return v

/-- The values of the argument `dtype` that occur: `''`, `'>i4'`, `'>f8'`, `'S8'`
(euphonic/readers/castep.py:447-448, 597-600). -/
inductive DType where
  | raw
  | i4
  | f8
  | s8
  deriving DecidableEq, Repr

/-- `int(dtype[-1])` (euphonic/readers/castep.py:654). -/
def DType.size : DType → Nat
  | .raw => 1
  | .i4 => 4
  | .f8 => 8
  | .s8 => 8

/-- What `_read_entry` returns: bytes, a number, or an array. -/
inductive Entry (K : Type) where
  | bytes (b : List UInt8)
  | int (z : Int)
  | flt (x : K)
  | ints (l : List Int)
  | flts (l : List K)
  | strs (l : List (List UInt8))
  deriving Repr

variable {K : Type}

/-- The complete pieces of `size` bytes in a buffer. -/
def pieces (size : Nat) (b : List UInt8) : List (List UInt8) :=
  (List.range (b.length / size)).map fun i => (b.drop (i * size)).take size

/-- The integer in a piece of four bytes. -/
def pieceInt (b : List UInt8) : Int :=
  match int32 b with
  | .ok v => v
  | .error _ => 0

/-- The elements `np.fromfile` finds in the bytes it got (euphonic/readers/castep.py:657-661). -/
def decodeArr (dbl : List UInt8 → K) (t : DType) (b : List UInt8) : Entry K :=
  match t with
  | .raw => .bytes b
  | .i4 => .ints ((pieces 4 b).map pieceInt)
  | .f8 => .flts ((pieces 8 b).map dbl)
  | .s8 => .strs (pieces 8 b)

/-- The scalar branch (euphonic/readers/castep.py:663-668). -/
def decodeOne (dbl : List UInt8 → K) (t : DType) (b : List UInt8) : Except Err (Entry K) :=
  match t with
  | .raw => .ok (.bytes b)
  | .i4 => (int32 b).map .int
  | .f8 => if b.length = 8 then .ok (.flt (dbl b)) else .error .structError
  | .s8 => .ok (.bytes b)

/-- The data between the markers (euphonic/readers/castep.py:653-670).  `np.fromfile(f, dtype, count)`
reads at most `count` elements; if the file ends before, it returns the complete ones and leaves the file
at its end (C library `fread`). -/
def readData (dbl : List UInt8 → K) (t : DType) (begin_ : Int) : Rd (Entry K) :=
  if t = .raw then do
    let b ← readBytes begin_
    return .bytes b
  else
    let n := begin_.tdiv (t.size : Int)
    if n > 1 then do
      let b ← readBytes (n * (t.size : Int))
      return decodeArr dbl t b
    else do
      let b ← readBytes begin_
      let e ← (decodeOne dbl t b : Except Err (Entry K))
      return e

/-- `_read_entry` (euphonic/readers/castep.py:622-677). -/
def readEntry (dbl : List UInt8 → K) (t : DType) : Rd (Entry K) := do
  let begin_ ← recordMark
  let data ← readData dbl t begin_
  let end_ ← recordMark
  if begin_ ≠ end_ then throw .ioError
  return data

/-! ## Headers -/

/-- An ASCII string as bytes. -/
def ascii (s : String) : List UInt8 := s.toList.map fun c => UInt8.ofNat c.toNat

/-- ASCII whitespace removed by `bytes.strip()`. -/
def isSpace (b : UInt8) : Bool :=
  b == 32 || b == 9 || b == 10 || b == 11 || b == 12 || b == 13

/-- `b.strip()`. -/
def strip (b : List UInt8) : List UInt8 :=
  ((b.dropWhile isSpace).reverse.dropWhile isSpace).reverse

/-- `_read_entry(f).strip()` (euphonic/readers/castep.py:450, 576). -/
def readHeader (dbl : List UInt8 → K) : Rd (List UInt8) := do
  match ← readEntry dbl .raw with
  | .bytes b => return strip b
  | _ => throw .typeError

/-- An entry used as an integer. -/
def Entry.toInt : Entry K → Except Err Int
  | .int z => .ok z
  | _ => .error .typeError

/-- An entry used as an array of integers. -/
def Entry.toInts : Entry K → Except Err (List Int)
  | .ints l => .ok l
  | _ => .error .typeError

/-- An entry reshaped to `n` numbers: `ValueError` if there are more or fewer (a single number has size
one). -/
def Entry.toFlts (n : Nat) : Entry K → Except Err (List K)
  | .flts l => if l.length = n then .ok l else .error .valueError
  | .flt x => if n = 1 then .ok [x] else .error .valueError
  | _ => .error .valueError

/-- An entry of integers reshaped to `n` numbers. -/
def Entry.toIntsN (n : Nat) : Entry K → Except Err (List Int)
  | .ints l => if l.length = n then .ok l else .error .valueError
  | .int z => if n = 1 then .ok [z] else .error .valueError
  | _ => .error .valueError

/-- A local variable that may not have been assigned yet. -/
def bound {α : Type} : Option α → Except Err α
  | some a => .ok a
  | none => .error .unboundLocalError

/-! ## The cell -/

/-- Local variables of `_read_cell` (euphonic/readers/castep.py:576-605). -/
structure CellVars (K : Type) where
  nAtoms : Option Int
  cellVectors : Option (List K)
  nSpecies : Option Int
  counts : Option (List Int)
  positions : Option (List K)
  masses : Option (List K)
  symbols : Option (List (List UInt8))

/-- No variable assigned. -/
def CellVars.empty : CellVars K := ⟨none, none, none, none, none, none, none⟩

/-- Counts per species: for one species the scalar becomes an array of length one
(euphonic/readers/castep.py:584-587). -/
def countsOf (nSpecies : Int) (e : Entry K) : Except Err (List Int) :=
  if nSpecies = 1 then e.toInt.map fun z => [z] else e.toInts

/-- Masses per species (euphonic/readers/castep.py:592-595).  Several masses for one species become a
nested array in the code; this is an error here. -/
def massesOf (nSpecies : Int) (e : Entry K) : Except Err (List K) :=
  match e with
  | .flt x => if nSpecies = 1 then .ok [x] else .error .typeError
  | .flts l => if nSpecies = 1 then .error .typeError else .ok l
  | _ => .error .typeError

/-- Symbols per species, stripped (euphonic/readers/castep.py:596-603); decoding of UTF-8 is not
modelled. -/
def symbolsOf (nSpecies : Int) (e : Entry K) : Except Err (List (List UInt8)) :=
  match e with
  | .bytes b => if nSpecies = 1 then .ok [strip b] else .error .typeError
  | .strs l => if nSpecies = 1 then .error .typeError else .ok (l.map strip)
  | _ => .error .typeError

/-- `max(n_atoms_in_species)` of a non-empty list. -/
def maxCount (l : List Int) : Except Err Int :=
  match l with
  | [] => .error .valueError
  | a :: l => .ok (l.foldl max a)

/-- Rows and columns of a 3x3 array exchanged: `np.transpose(np.reshape(l, (3, 3)))` of nine numbers. -/
def transpose9 {α : Type} (l : List α) : List α :=
  [0, 3, 6, 1, 4, 7, 2, 5, 8].filterMap fun i => l[i]?

/-- One pass of the loop in `_read_cell` (euphonic/readers/castep.py:576-603). -/
def cellStep (dbl : List UInt8 → K) (h : List UInt8) (v : CellVars K) : Rd (CellVars K) :=
  if h = ascii "CELL%NUM_IONS" then do
    let e ← readEntry dbl .i4
    let z ← (e.toInt : Except Err Int)
    return { v with nAtoms := some z }
  else if h = ascii "CELL%REAL_LATTICE" then do
    let e ← readEntry dbl .f8
    let l ← (e.toFlts 9 : Except Err (List K))
    return { v with cellVectors := some (transpose9 l) }
  else if h = ascii "CELL%NUM_SPECIES" then do
    let e ← readEntry dbl .i4
    let z ← (e.toInt : Except Err Int)
    return { v with nSpecies := some z }
  else if h = ascii "CELL%NUM_IONS_IN_SPECIES" then do
    let e ← readEntry dbl .i4
    let s ← (bound v.nSpecies : Except Err Int)
    let l ← (countsOf s e : Except Err (List Int))
    return { v with counts := some l }
  else if h = ascii "CELL%IONIC_POSITIONS" then do
    let c ← (bound v.counts : Except Err (List Int))
    let m ← (maxCount c : Except Err Int)
    let e ← readEntry dbl .f8
    let s ← (bound v.nSpecies : Except Err Int)
    let l ← (e.toFlts (s * m * 3).toNat : Except Err (List K))
    return { v with positions := some l }
  else if h = ascii "CELL%SPECIES_MASS" then do
    let e ← readEntry dbl .f8
    let s ← (bound v.nSpecies : Except Err Int)
    let l ← (massesOf s e : Except Err (List K))
    return { v with masses := some l }
  else if h = ascii "CELL%SPECIES_SYMBOL" then do
    let s ← (bound v.nSpecies : Except Err Int)
    let e ← readEntry dbl .s8
    let l ← (symbolsOf s e : Except Err (List (List UInt8)))
    return { v with symbols := some l }
  else return v

/-- The `while` loop of `_read_cell` (euphonic/readers/castep.py:576-603).  Every pass reads at least one
record, so `fuel` larger than the number of bytes left is never used up (`cellLoop_fuel`). -/
def cellLoop (dbl : List UInt8 → K) : Nat → CellVars K → Rd (CellVars K)
  | 0, _ => throw .stopIteration
  | fuel + 1, v => do
    let h ← readHeader dbl
    if h = ascii "END_UNIT_CELL" then return v
    else do
      let v ← cellStep dbl h v
      cellLoop dbl fuel v

/-- What `_read_cell` returns (euphonic/readers/castep.py:619). -/
structure Cell (K : Type) where
  nAtoms : Nat
  cellVectors : List K
  atomR : List (V3 K)
  masses : List K
  symbols : List (List UInt8)

/-- Assignment `a[b:e, :] = rows` (numpy, euphonic/readers/castep.py:611-612): the slice is clamped to the
array; one row is repeated as often as needed, otherwise the numbers of rows have to agree. -/
def assignRows {α : Type} (a : List α) (b e : Nat) (rows : List α) : Except Err (List α) :=
  let e' := min e a.length
  let b' := min b e'
  if rows.length = e' - b' then .ok (a.take b' ++ rows ++ a.drop e')
  else match rows with
    | [r] => .ok (a.take b' ++ List.replicate (e' - b') r ++ a.drop e')
    | _ => .error .valueError

/-- Entry `[i, j, :]` of the padded array of positions (euphonic/readers/castep.py:589-591). -/
def paddedAt [Zero K] (l : List K) (maxN i j : Nat) : V3 K :=
  let k := (i * maxN + j) * 3
  ⟨l.getD k 0, l.getD (k + 1) 0, l.getD (k + 2) 0⟩

/-- `np.cumsum(n_atoms_in_species)` up to species `i`: `atom_end[i]`, and `atom_begin[i]` for `i - 1`
(euphonic/readers/castep.py:608-609). -/
def cumSum (c : List Nat) (i : Nat) : Nat := (c.take i).sum

/-- The loop filling `atom_r` (euphonic/readers/castep.py:610-612). -/
def fillAtomR [Zero K] (n : Nat) (counts : List Nat) (maxN : Nat) (pos : List K) :
    Except Err (List (V3 K)) :=
  (List.range counts.length).foldlM (fun a i =>
    assignRows a (cumSum counts i) (cumSum counts (i + 1))
      ((List.range (counts.getD i 0)).map fun j => paddedAt pos maxN i j))
    (List.replicate n ⟨0, 0, 0⟩)

/-- `[tmp[at] for i in range(n_atoms_in_species[at])]` for all species, appended
(euphonic/readers/castep.py:614-618). -/
def expand {α : Type} (counts : List Nat) (tmp : List α) : Except Err (List α) :=
  (List.range counts.length).foldlM (fun acc i =>
    match tmp[i]?, counts.getD i 0 with
    | some t, n => .ok (acc ++ List.replicate n t)
    | none, 0 => .ok acc
    | none, _ => .error .indexError) []

/-- `_read_cell` after the loop (euphonic/readers/castep.py:604-619).  Negative counts are not modelled
(they are counted as zero); the number of species is the length of the list of counts (otherwise the
subscripts in the loops fail or species are ignored: an error here). -/
def finishCell [Zero K] (v : CellVars K) : Except Err (Cell K) := do
  let c ← bound v.counts
  let n ← bound v.nAtoms
  let s ← bound v.nSpecies
  if s ≠ c.length then throw .indexError
  let m ← maxCount c
  let counts := c.map Int.toNat
  let pos ← bound v.positions
  let r ← fillAtomR n.toNat counts m.toNat pos
  let sym ← bound v.symbols
  let types ← expand counts sym
  let mass ← bound v.masses
  let ms ← expand counts mass
  let cv ← bound v.cellVectors
  return ⟨n.toNat, cv, r, ms, types⟩

/-- `_read_cell` (euphonic/readers/castep.py:537-619). -/
def readCell [Zero K] (dbl : List UInt8 → K) : Rd (Cell K) := fun f =>
  (do
    let v ← cellLoop dbl (f.length + 1) CellVars.empty
    let c ← (finishCell v : Except Err (Cell K))
    return c : Rd (Cell K)) f

/-! ## The whole file -/

/-- Local variables of `read_interpolation_data` (euphonic/readers/castep.py:446-490); `fc` are the raw
numbers, `[nc, j, i]` in C order. -/
structure FileVars (K : Type) where
  cell : Option (Cell K)
  scMatrix : Option (List Int)
  fc : Option (List K)
  origins : Option (List Int)
  born : Option (List K)
  diel : Option (List K)

/-- No variable assigned. -/
def FileVars.empty : FileVars K := ⟨none, none, none, none, none, none⟩

/-- Nine integers as a 3x3 matrix. -/
def matOf (l : List Int) : M3 ℤ :=
  ⟨⟨l.getD 0 0, l.getD 1 0, l.getD 2 0⟩, ⟨l.getD 3 0, l.getD 4 0, l.getD 5 0⟩,
    ⟨l.getD 6 0, l.getD 7 0, l.getD 8 0⟩⟩

/-- One pass of the loop in `read_interpolation_data` (euphonic/readers/castep.py:450-490). `oldVersion`
is the version check. -/
def fileStep [Zero K] (dbl : List UInt8 → K) (oldVersion : List UInt8 → Except Err Bool)
    (h : List UInt8) (v : FileVars K) : Rd (FileVars K) :=
  if h = ascii "BEGIN_PARAMETERS_DUMP" then do
    let e ← readHeader dbl
    let old ← (oldVersion e : Except Err Bool)
    if old then throw .valueError
    return v
  else if h = ascii "BEGIN_UNIT_CELL" then
    if v.cell.isNone then do
      let c ← readCell dbl
      return { v with cell := some c }
    else return v
  else if h = ascii "FORCE_CON" then do
    let e ← readEntry dbl .i4
    let s ← (e.toIntsN 9 : Except Err (List Int))
    let s := transpose9 s
    let nc := (det (matOf s)).natAbs
    let e ← readEntry dbl .f8
    let c ← (bound v.cell : Except Err (Cell K))
    let fc ← (e.toFlts (nc * (3 * c.nAtoms) * (3 * c.nAtoms)) : Except Err (List K))
    let e ← readEntry dbl .i4
    let o ← (e.toIntsN (nc * 3) : Except Err (List Int))
    let _ ← readEntry dbl .i4
    return { v with scMatrix := some s, fc := some fc, origins := some o }
  else if h = ascii "BORN_CHGS" then do
    let e ← readEntry dbl .f8
    let c ← (bound v.cell : Except Err (Cell K))
    let b ← (e.toFlts (c.nAtoms * 9) : Except Err (List K))
    return { v with born := some b }
  else if h = ascii "DIELECTRIC" then do
    let e ← readEntry dbl .f8
    let d ← (e.toFlts 9 : Except Err (List K))
    return { v with diel := some (transpose9 d) }
  else return v

/-- The `while` loop of `read_interpolation_data` (euphonic/readers/castep.py:450-490). -/
def fileLoop [Zero K] (dbl : List UInt8 → K) (oldVersion : List UInt8 → Except Err Bool) :
    Nat → FileVars K → Rd (FileVars K)
  | 0, _ => throw .stopIteration
  | fuel + 1, v => do
    let h ← readHeader dbl
    if h = ascii "END" then return v
    else do
      let v ← fileStep dbl oldVersion h v
      fileLoop dbl oldVersion fuel v

/-- What `read_interpolation_data` returns: the crystal, force constants indexed `[nc, i, j]`, supercell
matrix, cell origins, and - if present - Born charges and dielectric tensor. -/
structure Data (K : Type) where
  nAtoms : Nat
  cellVectors : List K
  atomR : List (V3 K)
  symbols : List (List UInt8)
  masses : List K
  fc : Nat → Nat → Nat → K
  scMatrix : List Int
  origins : List Int
  born : Option (List K)
  diel : Option (List K)

variable [Field K] [LinearOrder K] [FloorRing K]

/-- `atom_r - np.floor(atom_r)` (euphonic/readers/castep.py:500). -/
def wrap (r : V3 K) : V3 K := ⟨r.x - ⌊r.x⌋, r.y - ⌊r.y⌋, r.z - ⌊r.z⌋⟩

/-- `read_interpolation_data` after the loop (euphonic/readers/castep.py:492-534): force constants that
were not found raise `RuntimeError`; the dielectric tensor is only returned together with Born charges. -/
def finishFile (v : FileVars K) : Except Err (Data K) :=
  match v.cell with
  | none => .error .unboundLocalError
  | some c => match v.fc, v.scMatrix, v.origins with
    | some fc, some sc, some o =>
      .ok { nAtoms := c.nAtoms, cellVectors := c.cellVectors, atomR := c.atomR.map wrap,
            symbols := c.symbols, masses := c.masses,
            fc := fun nc i j => fc.getD ((nc * (3 * c.nAtoms) + j) * (3 * c.nAtoms) + i) 0,
            scMatrix := sc, origins := o, born := v.born,
            diel := if v.born.isSome then v.diel else none }
    | _, _, _ => .error .runtimeError

/-- `read_interpolation_data` (euphonic/readers/castep.py:416-534) on the contents of a file. -/
def readInterpolation (dbl : List UInt8 → K) (oldVersion : List UInt8 → Except Err Bool) (f : File) :
    Except Err (Data K) := do
  let (v, _) ← fileLoop dbl oldVersion (f.length + 1) FileVars.empty f
  finishFile v

end Euphonic.CastepBin
