import Verif.Model.Driver
import Verif.Model.CLoop

/-!
# Model of what is returned by `calculate_qpoint_phonon_modes` and `calculate_qpoint_frequencies`
-/

set_option autoImplicit false
set_option linter.unusedSectionVars false

namespace Euphonic.Returned

open Euphonic.Lattice Euphonic.Driver Euphonic.CExt Euphonic.CLoop

variable {K : Type} [Field K] [LinearOrder K] [IsStrictOrderedRing K] [FloorRing K]
variable {D I P F C V E G : Type}

/-- What is stored for a reduced q-point (euphonic/force_constants.py:692-705, c/_euphonic.c:224-286): rows of `rfreqs`,
`reigenvecs` and `rmode_gradients`.  Arrays of length zero have no rows: `none`. -/
structure AtQ (V E G : Type) where
  freqs : V
  evecs : Option E
  grads : Option G

/-- `QpointFrequencies` (euphonic/qpoint_frequencies.py:38-78).  The crystal is left out: it is that of the force constants. -/
structure Freqs (K V : Type) where
  qpts : List (V3 K)
  freqs : List V
  weights : List K

/-- `QpointPhononModes` (euphonic/qpoint_phonon_modes.py:49-103). -/
structure Modes (K V E : Type) extends Freqs K V where
  evecs : List (Option E)

/-- `to_qpoint_frequencies` (euphonic/qpoint_phonon_modes.py:615-620). -/
def Modes.toQpointFrequencies (m : Modes K V E) : Freqs K V := ⟨m.qpts, m.freqs, m.weights⟩

/-- Weights of the constructor (euphonic/qpoint_frequencies.py:75-78). -/
def weightsOr (n : Nat) (w : Option (List K)) : List K :=
  match w with
  | some w => w
  | none => List.replicate n (1 / (n : K))

/-- The rows of all q-points; an error of the diagonalisation is raised in the loop.  Simplified: here after the loop, which
makes no difference since all errors are the same. -/
def rowsOf (o : Out K (Except Err (AtQ V E G))) : Except Err (List (AtQ V E G)) := o.results.mapM id

/-- `mode_gradients` (euphonic/force_constants.py:713-735): the gradients, if asked for.  Left out: units and warning. -/
def gradientsOf (asked : Bool) (rows : List (AtQ V E G)) : Option (List (Option G)) :=
  if asked then some (rows.map (·.grads)) else none

/-- `calculate_qpoint_phonon_modes` (euphonic/force_constants.py:387-396): the object, the gradients if asked for; the caches
and warnings. -/
def calculateQpointPhononModes (m : Num K D I P F C (Except Err (AtQ V E G))) (s : Sys) (d : D) (a : Args K)
    (c : Caches K I P F) : Except Err (Modes K V E × Option (List (Option G))) × Caches K I P F × List Warn :=
  let r := calculatePhonons m s d { a with eigenvectors := true } c
  (r.1.bind fun o => (rowsOf o).map fun rows =>
    (⟨⟨o.qpts, rows.map (·.freqs), weightsOr o.qpts.length o.weights⟩, rows.map (·.evecs)⟩, gradientsOf a.gradients rows), r.2)

/-- `calculate_qpoint_frequencies` (euphonic/force_constants.py:418-427). -/
def calculateQpointFrequencies (m : Num K D I P F C (Except Err (AtQ V E G))) (s : Sys) (d : D) (a : Args K)
    (c : Caches K I P F) : Except Err (Freqs K V × Option (List (Option G))) × Caches K I P F × List Warn :=
  let r := calculatePhonons m s d { a with eigenvectors := false } c
  (r.1.bind fun o => (rowsOf o).map fun rows =>
    (⟨o.qpts, rows.map (·.freqs), weightsOr o.qpts.length o.weights⟩, gradientsOf a.gradients rows), r.2)

/-! ## The two implementations -/

/-- The Python loop (euphonic/force_constants.py:694-709, 830-856) after the matrix has been calculated: `eigh` is the
diagonalisation with the square roots (830-838), which may raise; the gradient of the matrix is calculated if asked for
(`_calculate_dyn_mat`, 927-936), eigenvectors are always calculated and stored if asked for. -/
def pyAtQ {M GM : Type} (eigh : M → Except Err (V × E)) (modeGrad : V → E → GM → G) (matrix : M) (gradient : GM)
    (grad evec : Bool) : Except Err (AtQ V E G) :=
  match eigh matrix with
  | .error e => .error e
  | .ok (f, v) =>
    .ok ⟨f, if evec then some v else none, if grad then some (modeGrad f v gradient) else none⟩

/-- Three coordinates in an array. -/
def coords (v : V3 ℝ) : Mem := fun k => if k = 0 then v.x else if k = 1 then v.y else if k = 2 then v.z else 0

/-- The first `n` doubles of an array. -/
def doubles (n : Nat) (m : Mem) : List ℝ := (List.range n).map m

/-- The arguments of the C function for one q-point with direction `v` (euphonic/force_constants.py:615-631, 662-689): the
array of eigenvectors is empty unless they are asked for, and so is that of gradients. -/
def inputsAt (C : Inputs) (grad evec : Bool) (q : V3 ℝ) (v : Option (V3 ℝ)) : Inputs :=
  ⟨C.I, C.D, C.dipole, C.splitting, grad, evec, C.asr, C.w, fun _ => coords q, [0], fun _ => coords (v.getD ⟨0, 0, 0⟩), C.zheevd⟩

/-- The C loop (c/_euphonic.c:224-286) for one q-point, in arrays with contents `b`. -/
noncomputable def cAtQ (C : Inputs) (b : Buffers) (grad evec : Bool) (q : V3 ℝ) (v : Option (V3 ℝ)) :
    Except Err (AtQ (List ℝ) (List ℝ) (List ℝ)) :=
  let r := (body (inputsAt C grad evec q v) 0 zeroRow b).1
  .ok ⟨doubles (3 * C.I.n) r.freqs, if evec then some (doubles (elems C) r.dmat) else none,
    if grad then some (doubles (2 * 9 * C.I.n) r.modeg) else none⟩

/-- The numerical parts of both implementations (parameters; they are modelled in `DynMat`, `Dipole` and `CExt`): `matrix` and
`gradient` of Python's dynamical matrix, the arguments of the C function, and what the arrays of a thread hold when it comes
to a q-point (whatever is left from others, which depends on what is asked for). -/
structure Parts (D I P F C M GM : Type) where
  hasBorn : D → Bool
  images : D → I
  dipoleInit : D → ℝ → Except Err P
  rawFc : D → F
  asrFc : D → F
  recipAsr : D → I → F → Option P → C
  matrix : D → I → F → Option P → Option C → V3 ℝ → Option (V3 ℝ) → M
  gradient : D → I → F → V3 ℝ → GM
  eigh : M → Except Err (List ℝ × List ℝ)
  modeGrad : List ℝ → List ℝ → GM → List ℝ
  inputs : D → I → F → Option P → Option C → Inputs
  left : ℤ → D → Bool → Bool → V3 ℝ → Buffers

/-- The choice of implementation (euphonic/force_constants.py:646-709). -/
noncomputable def Parts.num {M GM : Type} (x : Parts D I P F C M GM) :
    Num ℝ D I P F C (Except Err (AtQ (List ℝ) (List ℝ) (List ℝ))) where
  hasBorn := x.hasBorn
  images := x.images
  dipoleInit := x.dipoleInit
  rawFc := x.rawFc
  asrFc := x.asrFc
  recipAsr := x.recipAsr
  at1 := fun b d i f p c g e q v => match b with
    | .python => pyAtQ x.eigh x.modeGrad (x.matrix d i f p c q v) (x.gradient d i f q) g e
    | .c n => cAtQ (x.inputs d i f p c) (x.left n d g e q) g e q v

end Euphonic.Returned
