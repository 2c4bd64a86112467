import Verif.Model.CastepPhonon

/-!
# Model of the text of `.phonon` and `.phonon_dos` files (euphonic/readers/castep.py:13-413)

A file is the list of its lines as `readline` returns them (with the newline).  At the end of the file `readline` returns the
empty string.  Characters are compared as they are; `\d` and `str.split` are restricted to ASCII.  `flt` is Python's
`float`, a parameter.  Units are those of the file (the conversions multiply by a number, euphonic/readers/castep.py:85-109,
251-271).
-/

set_option autoImplicit false

namespace Euphonic.CastepText

/-- A line. -/
abbrev Line := List Char

/-- White space. -/
def isSpace (c : Char) : Bool := c = ' ' || c = '\n' || c = '\t' || c = '\r' || c = '\x0b' || c = '\x0c'

/-- A digit. -/
def isDigit (c : Char) : Bool := decide (48 ≤ c.toNat ∧ c.toNat ≤ 57)

/-- `str.split()` with a word begun. -/
def wordsAux : List Char → List Char → List (List Char)
  | [], cur => if cur = [] then [] else [cur]
  | c :: cs, cur =>
    if isSpace c then (if cur = [] then wordsAux cs [] else cur :: wordsAux cs [])
    else wordsAux cs (cur ++ [c])

/-- `str.split()`. -/
def words (l : Line) : List (List Char) := wordsAux l []

/-- A match of `-?\d+\.\d+` at the beginning (euphonic/readers/castep.py:318): the matching text and the rest. -/
def matchFloat (l : List Char) : Option (List Char × List Char) :=
  let sign := if l.head? = some '-' then ['-'] else []
  let r := if l.head? = some '-' then l.drop 1 else l
  let ip := r.takeWhile isDigit
  let r1 := r.dropWhile isDigit
  let r2 := r1.drop 1
  let fp := r2.takeWhile isDigit
  if ip ≠ [] ∧ r1.head? = some '.' ∧ fp ≠ [] then some (sign ++ ip ++ '.' :: fp, r2.dropWhile isDigit) else none

/-- `re.findall(_qpt_float_pattern, line)` (euphonic/readers/castep.py:380), looking at not more than `n` positions. -/
def findFloatsN : Nat → List Char → List (List Char)
  | 0, _ => []
  | _, [] => []
  | n + 1, c :: cs =>
    match matchFloat (c :: cs) with
    | some p => p.1 :: findFloatsN n p.2
    | none => findFloatsN n cs

/-- `re.findall(_qpt_float_pattern, line)` (euphonic/readers/castep.py:380). -/
def findFloats (l : List Char) : List (List Char) := findFloatsN l.length l

/-- A match of `q-pt=\s*(\d+)` at the beginning (euphonic/readers/castep.py:317): the digits. -/
def matchIndex (l : List Char) : Option (List Char) :=
  let ds := ((l.drop 5).dropWhile isSpace).takeWhile isDigit
  if l.take 5 = ['q', '-', 'p', 't', '='] ∧ ds ≠ [] then some ds else none

/-- `re.findall(_qpt_index_pattern, line)[0]` (euphonic/readers/castep.py:379). -/
def findIndex : List Char → Option (List Char)
  | [] => none
  | c :: cs => match matchIndex (c :: cs) with
    | some d => some d
    | none => findIndex cs

/-- The number written by digits. -/
def natOf (ds : List Char) : Nat := ds.foldl (fun n c => 10 * n + (c.toNat - 48)) 0

/-- `int(text)` for text of digits; a sign or underscores, which Python accepts too, are not modelled. -/
def parseInt (t : List Char) : Except Err Nat :=
  if t ≠ [] ∧ t.all isDigit then .ok (natOf t) else .error .valueError

/-- `int(f.readline().split()[-1])` (euphonic/readers/castep.py:45-48, 170-172). -/
def lastInt (l : Line) : Except Err Nat :=
  match (words l).getLast? with
  | none => .error .indexError
  | some t => parseInt t

/-- `[f.readline() for i in range(n)]`. -/
def readLines (n : Nat) (ls : List Line) : List Line := (List.range n).map fun i => ls.getD i []

/-- `p in l` for strings. -/
def contains (p : List Char) : List Char → Bool
  | [] => p.isEmpty
  | c :: cs => p.isPrefixOf (c :: cs) || contains p cs

/-- `ws[i]` for a list of words. -/
def fieldAt (ws : List (List Char)) (i : Nat) : Except Err (List Char) :=
  match ws[i]? with
  | none => .error .indexError
  | some t => .ok t

/-- `line[i]` for the words of a line. -/
def wordAt (l : Line) (i : Nat) : Except Err (List Char) := fieldAt (words l) i

/-- `np.array` of rows of different lengths raises `ValueError`. -/
def sameLength {β : Type} (rows : List (List β)) : Except Err Unit :=
  if rows.all fun r => r.length = (rows.headD []).length then .ok () else .error .valueError

variable {K : Type}

/-- What `_read_crystal_info` returns (euphonic/readers/castep.py:274-314). -/
structure Crystal (K : Type) where
  cell : List (List K)
  atomR : List (List K)
  types : List (List Char)
  masses : List K
  deriving DecidableEq, Repr

/-- The loop that looks for 'Unit cell vectors' (euphonic/readers/castep.py:302-303): the lines after it.  At the end of the
file it goes on for ever, here `none`. -/
def skipToCell : List Line → Option (List Line)
  | [] => none
  | l :: ls => if contains "Unit cell vectors".toList l then some ls else skipToCell ls

/-- `_read_crystal_info` behind that line (euphonic/readers/castep.py:304-314) with the lines that follow. -/
def crystalInfo (flt : List Char → Except Err K) (nAtoms : Nat) (ls : List Line) :
    Except Err (Crystal K × List Line) := do
  let cell ← (readLines 3 ls).mapM fun l => ((words l).take 3).mapM flt
  sameLength cell
  let info := (readLines nAtoms (ls.drop 4)).map words
  sameLength info
  let atomR ← info.mapM fun y => ((y.drop 1).take 3).mapM flt
  let types ← info.mapM fun y => fieldAt y 4
  let masses ← info.mapM fun y => do flt (← fieldAt y 5)
  return (⟨cell, atomR, types, masses⟩, ls.drop (4 + nAtoms + 1))

/-- `_FrequencyBlock` (euphonic/readers/castep.py:321-327). -/
structure FBlock (K : Type) where
  id : Nat
  qpt : List K
  direction : Option (List (List Char))
  weight : K
  freqs : List K
  extra : Option (List (List K))
  deriving DecidableEq, Repr

/-- The columns actually read (euphonic/readers/castep.py:395-398). -/
def shiftColumns (qline : Line) (cols : List Nat) : List Nat :=
  if (words qline).length > 6 then cols.map (· + 1) else cols

/-- The extra columns (euphonic/readers/castep.py:393-402). -/
def readExtra (flt : List Char → Except Err K) (qline : Line) (fl : List Line) :
    Option (List Nat) → Except Err (Option (List (List K)))
  | none => .ok none
  | some cols => do
    let rows ← (shiftColumns qline cols).mapM fun c => fl.mapM fun l => do flt (← wordAt l (1 + c + 1))
    return some rows

/-- `int(re.findall(_qpt_index_pattern, qpt_line)[0])` (euphonic/readers/castep.py:379). -/
def qIndex (qline : Line) : Except Err Nat :=
  match findIndex qline with
  | none => .error .indexError
  | some d => .ok (natOf d)

/-- The body of `_read_frequency_block` for a line that is not the terminator (euphonic/readers/castep.py:379-404). -/
def blockBody (flt : List Char → Except Err K) (nBr : Nat) (extra : Option (List Nat)) (qline : Line)
    (ls : List Line) : Except Err (FBlock K × List Line) := do
  let id ← qIndex qline
  let floats := findFloats qline
  let qpt ← (floats.take 3).mapM flt
  let wt ← fieldAt floats 3
  let weight ← flt wt
  let direction := if floats.length ≥ 6 then some ((floats.drop 4).take 3) else none
  let fl := readLines nBr ls
  let freqs ← fl.mapM fun l => do flt (← wordAt l 1)
  let ex ← readExtra flt qline fl extra
  return (⟨id, qpt, direction, weight, freqs, ex⟩, ls.drop nBr)

/-- `_read_frequency_block` (euphonic/readers/castep.py:330-404). -/
def readBlock (flt : List Char → Except Err K) (nBr : Nat) (extra : Option (List Nat)) (terminator : Line)
    (ls : List Line) : Except Err (Option (FBlock K) × List Line) :=
  let qline := ls.headD []
  if qline = terminator then .ok (none, ls.drop 1)
  else do
    let r ← blockBody flt nBr extra qline (ls.drop 1)
    return (some r.1, r.2)

/-- Three complex numbers from a row of at least six columns (euphonic/readers/castep.py:207-210). -/
def complexRow (r : List K) : Except Err (List (K × K)) :=
  match r with
  | a :: b :: c :: d :: e :: f :: _ => .ok [(a, b), (c, d), (e, f)]
  | _ => .error .indexError

/-- The eigenvectors of one block (euphonic/readers/castep.py:202-214): real and imaginary parts by branch, atom, direction. -/
def evecLines (flt : List Char → Except Err K) (nAtoms nBr : Nat) (lines : List Line) :
    Except Err (List (List (List (K × K)))) := do
  let rows ← lines.mapM fun l => ((words l).drop 2).mapM flt
  sameLength rows
  if (rows.headD []).length < 6 then throw .indexError
  let z ← rows.mapM complexRow
  return (List.range nBr).map fun i => (z.drop (i * nAtoms)).take nAtoms

/-- What `read_phonon_data` keeps of one block (euphonic/readers/castep.py:191-229). -/
abbrev PBlock (K : Type) := Phonon.Block K (List K) (List K) (List (List (List (K × K))))

/-- The part of the loop of `read_phonon_data` that reads the eigenvectors (euphonic/readers/castep.py:202-214): two label lines,
then one line for each branch and atom, parsed only if they are wanted. -/
def blockEvecs (flt : List Char → Except Err K) (readEvecs : Bool) (nAtoms nBr : Nat) (ls : List Line) :
    Except Err (List (List (List (K × K)))) :=
  if readEvecs then evecLines flt nAtoms nBr (readLines (nAtoms * nBr) (ls.drop 2)) else .ok []

/-- The blocks of a `.phonon` file (euphonic/readers/castep.py:191-214), not more than `n` of them.  The last argument of
`_read_frequency_blocks` is the default, so that the end of the file ends the loop. -/
def phononBlocks (flt : List Char → Except Err K) (readEvecs : Bool) (nAtoms nBr : Nat) :
    Nat → List Line → Except Err (List (PBlock K))
  | 0, _ => .ok []
  | n + 1, ls => do
    let r ← readBlock flt nBr none [] ls
    match r.1 with
    | none => .ok []
    | some b =>
      let e ← blockEvecs flt readEvecs nAtoms nBr r.2
      let t ← phononBlocks flt readEvecs nAtoms nBr n (r.2.drop (2 + nAtoms * nBr))
      return ⟨b.id, b.qpt, b.direction.isSome, b.weight, b.freqs, e⟩ :: t

variable [Field K]

/-- `Phonon.readBlocks` with the zeros of the arrays created at euphonic/readers/castep.py:176-182. -/
def assemble (nAtoms nBr nQ : Nat) (readEvecs average prefer : Bool) (bs : List (PBlock K)) :
    Except Err (List (List K) × List K × List (List K) × Option (List (List (List (List (K × K)))))) :=
  @Phonon.readBlocks K (List K) (List K) (List (List (List (K × K)))) _ ⟨List.replicate 3 0⟩
    ⟨List.replicate nBr 0⟩ ⟨List.replicate nBr (List.replicate nAtoms (List.replicate 3 (0, 0)))⟩
    nQ readEvecs average prefer bs

/-- `read_phonon_data` behind the search for the cell (euphonic/readers/castep.py:173-249). -/
def phononBody (flt : List Char → Except Err K) (readEvecs average prefer : Bool) (nAtoms nBr nQ : Nat)
    (ls : List Line) : Except Err (Crystal K × List (List K) × List K × List (List K) ×
      Option (List (List (List (List (K × K)))))) := do
  let c ← crystalInfo flt nAtoms ls
  -- every block takes a line at least
  let bs ← phononBlocks flt readEvecs nAtoms nBr (c.2.length + 1) c.2
  let r ← assemble nAtoms nBr nQ readEvecs average prefer bs
  return (c.1, r)

/-- The numbers of the header of a `.phonon` file (euphonic/readers/castep.py:169-172). -/
def phononHeader (ls : List Line) : Except Err (Nat × Nat × Nat) := do
  let a ← lastInt (ls.getD 1 [])
  let b ← lastInt (ls.getD 2 [])
  let c ← lastInt (ls.getD 3 [])
  return (a, b, c)

/-- `read_phonon_data` (euphonic/readers/castep.py:121-271); `none` if it does not end. -/
def readPhonon (flt : List Char → Except Err K) (readEvecs average prefer : Bool) (ls : List Line) :
    Option (Except Err (Crystal K × List (List K) × List K × List (List K) ×
      Option (List (List (List (List (K × K))))))) :=
  match phononHeader ls with
  | .error e => some (.error e)
  | .ok h =>
    match skipToCell (ls.drop 4) with
    | none => none
    | some rest => some (phononBody flt readEvecs average prefer h.1 h.2.1 h.2.2 rest)

end Euphonic.CastepText
