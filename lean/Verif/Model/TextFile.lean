import Verif.Model.Collection
import Verif.Model.Bins

/-!
# Model of the sum of two spectra (euphonic/spectra.py:458-469) and of text files of spectra
(euphonic/spectra.py:499-518, 1239-1270)

Texts are lists of characters. `json.dumps` and the formatting of numbers are parameters.
-/

set_option autoImplicit false

namespace Euphonic.TextFile

variable {V α : Type} [DecidableEq V] [Field α] [LinearOrder α]

/-- `Spectrum1D.__add__` (euphonic/spectra.py:458-469). -/
def add (s t : MSpec V α) : Except Err (MSpec V α) := do
  let c ← fromSpectra [s, t]
  c.sum

/-- The argument `fmt` (euphonic/spectra.py:1239-1253): none, one format, or one for each column. -/
inductive Fmt (α : Type) where
  | default
  | one (f : α → List Char)
  | many (fs : List (α → List Char))

/-- `np.savetxt` (called in euphonic/spectra.py:1267-1270) chooses the formats of `n` columns: the default is `%.18e`; another number of formats raises
`AttributeError`. -/
def columnFormats (dflt : α → List Char) (n : Nat) : Fmt α → Except Err (List (α → List Char))
  | .default => .ok (List.replicate n dflt)
  | .one f => .ok (List.replicate n f)
  | .many fs => if fs.length = n then .ok fs else .error .attributeError

/-- `np.savetxt(..., header=header)` (euphonic/spectra.py:1267-1270), with `# ` before comments: every line of the header is a comment. -/
def headerText (header : List Char) : List Char :=
  ['#', ' '] ++ (header.flatMap fun c => if c = '\n' then ['\n', '#', ' '] else [c]) ++ ['\n']

/-- `np.savetxt` (euphonic/spectra.py:1267-1270): the header and one line for each row, with spaces between the columns. -/
def saveTxt (dflt : α → List Char) (fmt : Fmt α) (header : List Char) (n : Nat) (rows : List (List α)) :
    Except Err (List Char) := do
  let fs ← columnFormats dflt n fmt
  return headerText header ++ rows.flatMap fun r =>
    [' '].intercalate (List.zipWith (fun f v => f v) fs r) ++ ['\n']

/-- The lines of the header (euphonic/spectra.py:1255-1264). -/
def headerLines (version : String) (dumps : Dict V → String) (c : MColl V α) : List String :=
  let lineData := match c.md.lines with
    | none => List.replicate c.rows.length []
    | some ls => ls
  ["Generated by Euphonic " ++ version, "x_data in (" ++ c.xUnit ++ ")", "y_data in (" ++ c.yUnit ++ ")",
    "Common metadata: " ++ dumps c.md.common, "Column 1: x_data"] ++
  lineData.zipIdx.map fun p => "Column " ++ toString (p.2 + 2) ++ ": y_data[" ++ toString p.2 ++ "] " ++ dumps p.1

/-- `np.hstack((centres[:, np.newaxis], y_data.transpose()))` (euphonic/spectra.py:1265-1266): the numbers of rows must
agree. -/
def hstack (centres : List α) (rows : List (List α)) (n : Nat) : Except Err (List (List α)) :=
  if centres.length = n then .ok ((List.range n).map fun i => centres.getD i 0 :: rows.map fun r => r.getD i 0)
  else .error .valueError

/-- `Spectrum1DCollection.to_text_file` (euphonic/spectra.py:1239-1270): the text written. -/
def toTextFile (version : String) (dumps : Dict V → String) (dflt : α → List Char) (c : MColl V α) (fmt : Fmt α) :
    Except Err (List Char) := do
  let n := (c.rows.headD []).length
  let centres ← getBinCentres n c.x
  let out ← hstack centres c.rows n
  saveTxt dflt fmt (['\n'].intercalate ((headerLines version dumps c).map String.toList)) (c.rows.length + 1) out

/-- `Spectrum1D.to_text_file` (euphonic/spectra.py:499-518). -/
def spectrumToTextFile (version : String) (dumps : Dict V → String) (dflt : α → List Char) (s : MSpec V α)
    (fmt : Fmt α) : Except Err (List Char) := do
  let c ← fromSpectra [s]
  toTextFile version dumps dflt c fmt

end Euphonic.TextFile
