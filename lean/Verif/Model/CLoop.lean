import Verif.Model.CExt
import Verif.Model.DynMat

/-!
# Model of the loop over q-points of one thread (c/_euphonic.c:203-286, c/dyn_mat.c:340-396)

Each thread has its own arrays `corr`, `dmat_per_q` and `dmat_grad`, which are allocated once and used again for each
q-point. The rows of the arrays of results are arrays of their own (they do not overlap, C54). LAPACK's `zheevd` is a
parameter: what it leaves in the arrays depends on the matrix it is given, and `info` says whether it failed.
-/

set_option autoImplicit false

namespace Euphonic.CLoop

open Euphonic.CExt

/-- What `zheevd` leaves: eigenvalues, the matrix (eigenvectors), `info`. -/
structure Diag where
  evals : Mem
  evecs : Mem
  info : ℤ

/-- What is the same for all q-points (c/_euphonic.c:56-199). `zheevd` reads the `18*n*n` doubles of the matrix, here the
array with zeros elsewhere. `qDirs p` is what `q_dirs + 3*p` points to, also for `p = -1`. -/
structure Inputs where
  I : DynIn
  D : DipIn
  dipole : Bool
  splitting : Bool
  grad : Bool
  evecs : Bool
  asr : Option Mem
  w : Mem
  rqpts : Nat → Mem
  splitIdx : List Nat
  qDirs : ℤ → Mem
  zheevd : Mem → Diag

/-- The arrays of a thread (c/_euphonic.c:207-223). -/
structure Buffers where
  corr : Mem
  dmatPerQ : Mem
  dmatGrad : Mem

/-- What is stored for a q-point; `printed` is the line about a failure, if there is one. -/
structure Row where
  freqs : Mem
  dmat : Mem
  modeg : Mem
  printed : Option ℤ

/-- The number of doubles of a dynamical matrix, `dmat_elems` (c/_euphonic.c:188). -/
def elems (C : Inputs) : Nat := 2 * 9 * C.I.n * C.I.n

/-- The position of the direction (c/_euphonic.c:254-263). -/
def qpos (C : Inputs) (q : Nat) : ℤ :=
  if q ∈ C.splitIdx then (C.splitIdx.idxOf q : ℤ) else -1

/-- The first `size` doubles. -/
def firstOf (size : Nat) (m : Mem) : Mem := fun k => if k < size then m k else 0

/-- The first `size` doubles are written. -/
def overwrite (size : Nat) (new old : Mem) : Mem := fun k => if k < size then new k else old k

/-- `diagonalise_dyn_mat_zheevd` (c/dyn_mat.c:340-386): the return value is not used (c/_euphonic.c:274), only a line is
printed. -/
def diagonalise (C : Inputs) (dmat eval : Mem) : Mem × Mem × Option ℤ :=
  let r := C.zheevd (firstOf (elems C) dmat)
  (overwrite (elems C) r.evecs dmat, overwrite (3 * C.I.n) r.evals eval, if r.info ≠ 0 then some r.info else none)

/-- The body of the loop (c/_euphonic.c:224-285): `old` is the row of the results before, which Python has set to zero. -/
noncomputable def body (C : Inputs) (q : Nat) (old : Row) (b : Buffers) : Row × Buffers :=
  let qpt := C.rqpts q
  let dmat0 := if C.evecs then old.dmat else b.dmatPerQ
  let dir := if C.splitting && cIsGamma qpt then some (C.qDirs (qpos C q)) else none
  let m := matrixAtQ C.I C.D C.dipole C.grad C.asr dir C.w qpt dmat0 b.dmatGrad b.corr
  let corr := if C.dipole then calcDipole C.D qpt b.corr else b.corr
  let corr := match dir with | some v => calcGamma C.D v corr | none => corr
  let d := diagonalise C m.1 old.freqs
  let freqs := evalsToFreqs C.I.n d.2.1
  let modeg := if C.grad then calcModeGradients C.I.n freqs d.1 m.2 old.modeg else old.modeg
  (⟨freqs, if C.evecs then d.1 else old.dmat, modeg, d.2.2⟩,
    ⟨corr, if C.evecs then b.dmatPerQ else d.1, m.2⟩)

/-- A row before the calculation (euphonic/force_constants.py:615-631, 662-663). -/
def zeroRow : Row := ⟨fun _ => 0, fun _ => 0, fun _ => 0, none⟩

/-- The q-points of a thread one after the other. -/
noncomputable def run (C : Inputs) : List Nat → Buffers → List (Nat × Row)
  | [], _ => []
  | q :: qs, b =>
    let r := body C q zeroRow b
    (q, r.1) :: run C qs r.2

/-- The frequencies of a q-point in Python (euphonic/force_constants.py:830-838): `np.linalg.eigh` raises `LinAlgError`, a
`ValueError`, if LAPACK fails. -/
noncomputable def pyFreqs (n : Nat) (d : Diag) : Except Err Mem :=
  if d.info ≠ 0 then .error .valueError else .ok fun i => if i < 3 * n then DynMat.freqOf (d.evals i) else 0

end Euphonic.CLoop
