import Verif.Model.CastepText

/-!
# Model of the reader of `.phonon_dos` files (euphonic/readers/castep.py:13-118, euphonic/spectra.py:550-575, 1272-1300)

Conventions as in `Verif.Model.CastepText`.
-/

set_option autoImplicit false

namespace Euphonic.CastepText

variable {K : Type}

/-- ' END GRADIENTS\n' (euphonic/readers/castep.py:62). -/
def endGradients : Line := " END GRADIENTS\n".toList

/-- The loop over the blocks of gradients (euphonic/readers/castep.py:58-69) with the lines that follow the terminator; not more
than `n` passes.  At the end of the file the empty line is not the terminator and has no index: `IndexError`. -/
def dosBlocks (flt : List Char → Except Err K) (nBr : Nat) : Nat → List Line → Except Err (List (FBlock K) × List Line)
  | 0, _ => .error .indexError
  | n + 1, ls => do
    let r ← readBlock flt nBr (some [0]) endGradients ls
    match r.1 with
    | none => .ok ([], r.2)
    | some b =>
      -- a (1, 1) array is squeezed to a number, which cannot be joined to rows
      if nBr = 1 then .error .valueError
      else do
        let t ← dosBlocks flt nBr n r.2
        return (b :: t.1, t.2)

/-- The rows `np.loadtxt(f, max_rows=n)` finds (euphonic/readers/castep.py:75): comments are removed, empty lines are skipped. -/
def loadRows (flt : List Char → Except Err K) : Nat → List Line → Except Err (List (List K))
  | 0, _ => .ok []
  | _ + 1, [] => .ok []
  | n + 1, l :: ls =>
    if words (l.takeWhile (· ≠ '#')) = [] then loadRows flt (n + 1) ls
    else do
      let row ← (words (l.takeWhile (· ≠ '#'))).mapM flt
      let t ← loadRows flt n ls
      return row :: t

/-- `np.loadtxt(f, max_rows=n)` used with two indices (euphonic/readers/castep.py:75, 100): dimensions of length one are removed,
so that the result has two dimensions only with two rows and two columns. -/
def loadTable (flt : List Char → Except Err K) (n : Nat) (ls : List Line) : Except Err (List (List K)) := do
  let rows ← loadRows flt n ls
  sameLength rows
  if rows.length ≤ 1 ∨ (rows.headD []).length ≤ 1 then throw .indexError
  return rows

/-- `row[i]`. -/
def entryAt (r : List K) (i : Nat) : Except Err K :=
  match r[i]? with
  | none => .error .indexError
  | some x => .ok x

/-- `dos_data[:, i]` (euphonic/readers/castep.py:100, 111, 116). -/
def column (rows : List (List K)) (i : Nat) : Except Err (List K) := rows.mapM fun r => entryAt r i

/-- `atom_type[np.sort(np.unique(atom_type, return_index=True)[1])]` (euphonic/readers/castep.py:113-114): the entries that do not
occur before. -/
def firstSeen (types : List (List Char)) : List (List Char) :=
  ((List.range types.length).filter fun i => !(types.take i).contains (types.getD i [])).map fun i => types.getD i []

/-- `d[k] = v`. -/
def putKey {V : Type} (d : List (List Char × V)) (k : List Char) (v : V) : List (List Char × V) :=
  if d.any fun p => p.1 = k then d.map fun p => if p.1 = k then (k, v) else p else d ++ [(k, v)]

/-- The loop over the species (euphonic/readers/castep.py:115-116). -/
def speciesDos (rows : List (List K)) : Nat → List (List Char) → List (List Char × List K) →
    Except Err (List (List Char × List K))
  | _, [], d => .ok d
  | i, s :: ss, d => do
    let c ← column rows (i + 2)
    speciesDos rows (i + 1) ss (putKey d s c)

/-- What `read_phonon_dos_data` returns. -/
structure DosData (K : Type) where
  crystal : Crystal K
  qpts : List (List K)
  weights : List K
  freqs : List (List K)
  grads : List (List K)
  bins : List K
  dos : List (List Char × List K)
  deriving DecidableEq, Repr

/-- The table (euphonic/readers/castep.py:70-75). -/
def dosTable (flt : List Char → Except Err K) (nBins : Nat) (ls : List Line) : Except Err (List (List K)) :=
  if contains "BEGIN DOS".toList (ls.headD []) then loadTable flt nBins (ls.drop 1) else .error .runtimeError

/-- `read_phonon_dos_data` behind the search for the cell (euphonic/readers/castep.py:49-118). -/
def dosBody (flt : List Char → Except Err K) (nAtoms nBr nBins : Nat) (ls : List Line) : Except Err (DosData K) := do
  let c ← crystalInfo flt nAtoms ls
  let g ← dosBlocks flt nBr (c.2.length + 1) (c.2.drop 1)
  let rows ← dosTable flt nBins g.2
  let bins ← column rows 0
  let total ← column rows 1
  let dos ← speciesDos rows 0 (firstSeen c.1.types) [("Total".toList, total)]
  return ⟨c.1, g.1.map (·.qpt), g.1.map (·.weight), g.1.map (·.freqs), g.1.map (fun b => (b.extra.getD []).headD []), bins, dos⟩

/-- The numbers of the header (euphonic/readers/castep.py:44-48); the number of species is read but not used. -/
def dosHeader (ls : List Line) : Except Err (Nat × Nat × Nat) := do
  let a ← lastInt (ls.getD 1 [])
  let _ ← lastInt (ls.getD 2 [])
  let b ← lastInt (ls.getD 3 [])
  let c ← lastInt (ls.getD 4 [])
  return (a, b, c)

/-- `read_phonon_dos_data` (euphonic/readers/castep.py:13-118); `none` if it does not end. -/
def readDos (flt : List Char → Except Err K) (ls : List Line) : Option (Except Err (DosData K)) :=
  match dosHeader ls with
  | .error e => some (.error e)
  | .ok h =>
    match skipToCell (ls.drop 5) with
    | none => none
    | some rest => some (dosBody flt h.1 h.2.1 h.2.2 rest)

/-- `d[k]`. -/
def lookupKey {V : Type} (d : List (List Char × V)) (k : List Char) : Except Err V :=
  match d.find? (fun p => p.1 = k) with
  | none => .error .keyError
  | some p => .ok p.2

/-- `Spectrum1D.from_castep_phonon_dos` (euphonic/spectra.py:550-575): energies, values and metadata as key and value. -/
def spectrumOfDos (d : DosData K) (element : Option (List Char)) :
    Except Err (List K × List K × List (String × List Char)) := do
  let e := element.getD "Total".toList
  let y ← lookupKey d.dos e
  return (d.bins, y, (match element with
    | none => []
    | some s => [("species", s)]) ++ [("label", e)])

/-- `Spectrum1DCollection.from_castep_phonon_dos` (euphonic/spectra.py:1272-1300): energies and for each line its values and its
metadata. -/
def collectionOfDos (d : DosData K) : List K × List (List K × List (String × List Char)) :=
  (d.bins, d.dos.map fun p =>
    (p.2, (if p.1 ≠ "Total".toList then [("species", p.1)] else []) ++ [("label", p.1)]))

end Euphonic.CastepText
