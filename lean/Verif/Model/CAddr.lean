import Verif.Model.Base

/-!
# Model of the addresses used by the C extension (c/dyn_mat.c, c/_euphonic.c)

Indices are computed with 32-bit `int`s; an overflow is undefined behaviour, here a computation without result. Every access
to an array is listed with the expression for its index as it is written. An address is a distance from the start of an
array, counted in elements: the pointer passed to a function has a distance of its own. LAPACK's work space (see
`Verif/Model/CWork.lean`) and the three numbers of a q-point or of a direction are left out.
-/

set_option autoImplicit false

namespace Euphonic.CAddr

/-- An expression of integers; no subtraction occurs in an index. -/
inductive Ex where
  | v (k : Nat)
  | add (a b : Ex)
  | mul (a b : Ex)

instance : Coe Nat Ex := ⟨Ex.v⟩
instance (k : Nat) : OfNat Ex k := ⟨.v k⟩
instance : Add Ex := ⟨.add⟩
instance : Mul Ex := ⟨.mul⟩

/-- A result that is an `int`. -/
def int32 (k : Nat) : Option Nat := if k < 2 ^ 31 then some k else none

/-- Evaluation with `int`s. -/
def Ex.eval : Ex → Option Nat
  | .v k => int32 k
  | .add a b => match a.eval, b.eval with
    | some x, some y => int32 (x + y)
    | _, _ => none
  | .mul a b => match a.eval, b.eval with
    | some x, some y => int32 (x * y)
    | _, _ => none

/-- The arrays of the extension. -/
inductive Name where
  | nScImages | scImageI | cellOrigins | scOrigins | fc | allOrigins | weighting | asr
  | rqpts | splitIdx | qDirs | evals | dmats | modegs
  | dmatGrad | corr | hab | cells | gPhases | gCart | q0 | atomR | born | qPhases | qBorn
  deriving DecidableEq

/-- An access: the array, the distance of the pointer, and the index. -/
structure Access where
  arr : Name
  base : Nat
  idx : Ex

/-- The numbers that determine the shapes (c/_euphonic.c:177-199). -/
structure Dims where
  n : Nat
  nCells : Nat
  maxIm : Nat
  nScImages : Nat → Nat
  scImage : Nat → Nat
  nSc : Nat
  nq : Nat
  nSplit : Nat
  nD : Nat
  nG : Nat
  grad : Bool
  dipole : Bool
  evecs : Bool
  asr : Bool

/-- Both parts of a complex number. -/
def both (arr : Name) (base : Nat) (e : Ex) : List Access := [⟨arr, base, e⟩, ⟨arr, base, e + 1⟩]

/-- `for (k = lo; k < hi; k++)`. -/
def over (lo hi : Nat) (f : Nat → List Access) : List Access := (List.range' lo (hi - lo)).flatMap f

/-- `idx` (c/dyn_mat.c:70): `(3*i+ii)*3*n_atoms + 3*j + jj`. -/
def elem (n i ii j jj : Nat) : Ex := (3 * (i : Ex) + ii) * 3 * n + 3 * (j : Ex) + jj

/-- `idx` (c/dyn_mat.c:153): `2*(3*(3*i + a)*n_atoms + 3*j + b)`. -/
def corrIdx (n i a j b : Nat) : Ex := 2 * (3 * (3 * (i : Ex) + a) * n + 3 * (j : Ex) + b)

/-- `sc_img_idx` (c/dyn_mat.c:34, 49); the strides are computed before. -/
def imgIdx (d : Dims) (nc i j m : Nat) : Ex :=
  (nc : Ex) * ((d.n : Ex) * d.n * d.maxIm) + (i : Ex) * ((d.n : Ex) * d.maxIm) + (j : Ex) * d.maxIm + m

/-- `nc*s_n[0] + i*s_n[1] + j` (c/dyn_mat.c:32, 47). -/
def pairIdx (d : Dims) (nc i j : Nat) : Ex := (nc : Ex) * ((d.n : Ex) * d.n) + (i : Ex) * d.n + j

/-- `nc*s_fc + idx` (c/dyn_mat.c:35, 72). -/
def fcIdx (d : Dims) (nc i ii j jj : Nat) : Ex := (nc : Ex) * (9 * (d.n : Ex) * d.n) + elem d.n i ii j jj

/-- Accesses of `calculate_dyn_mat_at_q` (c/dyn_mat.c:13-106); `base` is the distance of `dyn_mat`. -/
def dynMat (d : Dims) (base : Nat) : List Access :=
  over 0 d.n (fun i => over i d.n fun j => over 0 d.nCells fun nc =>
    ⟨.nScImages, 0, pairIdx d nc i j⟩ ::
    over 0 (d.nScImages (nc * (d.n * d.n) + i * d.n + j)) (fun m =>
      ⟨.scImageI, 0, imgIdx d nc i j m⟩ ::
      over 0 3 fun k =>
        [⟨.scOrigins, 0, 3 * (d.scImage (nc * (d.n * d.n * d.maxIm) + i * (d.n * d.maxIm) + j * d.maxIm + m) : Ex) + k⟩,
          ⟨.cellOrigins, 0, 3 * (nc : Ex) + k⟩] ++
        if d.grad then [⟨.allOrigins, 0, 3 * imgIdx d nc i j m + k⟩] else []) ++
    over 0 3 fun ii => over 0 3 fun jj =>
      both .dmats base (2 * elem d.n i ii j jj) ++ [⟨.fc, 0, fcIdx d nc i ii j jj⟩] ++
      if d.grad then over 0 3 fun k => both .dmatGrad 0 (6 * elem d.n i ii j jj + 2 * (k : Ex)) else []) ++
  if d.grad then over 1 d.n fun i => over 0 i fun j => over 0 3 fun ii => over 0 3 fun jj => over 0 3 fun k =>
    both .dmatGrad 0 (6 * elem d.n i ii j jj + 2 * (k : Ex)) ++ both .dmatGrad 0 (6 * elem d.n j jj i ii + 2 * (k : Ex))
  else []

/-- Accesses of `calculate_dipole_correction` (c/dyn_mat.c:108-273); `off` is 1 if the pointers were moved past `G = 0`.
`H_ab` is read through a pointer that moves on by one element: its distance is the number of elements read before. -/
def dipole (d : Dims) (off : Nat) : List Access :=
  over 0 d.nD (fun nc => over 0 3 fun a => [⟨.cells, 0, 3 * (nc : Ex) + a⟩]) ++
  over 0 (d.nD * (d.n * (d.n + 1) / 2 * 9)) (fun p => [⟨.hab, p, 0⟩]) ++
  over 0 d.n (fun i => over i d.n fun j => over 0 3 fun a => over 0 3 fun b => both .corr 0 (corrIdx d.n i a j b)) ++
  over 0 (2 * 9 * d.n * d.n) (fun i => [⟨.corr, 0, i⟩]) ++
  over 0 d.n (fun i => (over 0 3 fun a => [⟨.atomR, 0, 3 * (i : Ex) + a⟩]) ++ both .qPhases 0 (2 * (i : Ex))) ++
  over 0 (d.nG - off) (fun ng => (over 0 3 fun a => [⟨.gCart, off * 3, 3 * (ng : Ex) + a⟩]) ++
    over 0 d.n fun i => both .gPhases (off * (2 * d.n)) (2 * ((ng : Ex) * d.n + i))) ++
  over 0 d.n (fun i => over i d.n fun j => over 0 3 fun a => over 0 3 fun aa =>
    [⟨.born, 0, 9 * (i : Ex) + 3 * (a : Ex) + aa⟩, ⟨.born, 0, 9 * (j : Ex) + 3 * (a : Ex) + aa⟩]) ++
  over 0 d.n (fun i => over 0 3 fun a => over 0 3 fun b =>
    both .corr 0 (corrIdx d.n i a i b) ++ both .q0 0 (18 * (i : Ex) + 6 * (a : Ex) + 2 * (b : Ex)))

/-- Accesses of `calculate_gamma_correction` (c/dyn_mat.c:275-325). -/
def gamma (d : Dims) : List Access :=
  over 0 d.n (fun i => over 0 3 fun a => over 0 3 fun b =>
    [⟨.qBorn, 0, 3 * (i : Ex) + a⟩, ⟨.born, 0, 9 * (i : Ex) + 3 * (a : Ex) + b⟩]) ++
  over 0 d.n (fun i => over i d.n fun j => over 0 3 fun a => over 0 3 fun b =>
    [⟨.corr, 0, corrIdx d.n i a j b⟩, ⟨.qBorn, 0, 3 * (i : Ex) + a⟩, ⟨.qBorn, 0, 3 * (j : Ex) + b⟩])

/-- Accesses of `add_arrays(dmat_elems, arr, dmat)` (c/util.c:3-8, c/_euphonic.c:188, 246-270). -/
def addTo (d : Dims) (arr : Name) (base : Nat) : List Access :=
  over 0 (2 * 9 * d.n * d.n) fun i => [⟨arr, 0, i⟩, ⟨.dmats, base, i⟩]

/-- Accesses of `mass_weight_dyn_mat` (c/dyn_mat.c:327-338). -/
def massWeight (d : Dims) (arr : Name) (base repeats : Nat) : List Access :=
  over 0 (9 * d.n * d.n) fun i => over 0 repeats fun j =>
    [⟨arr, base, (repeats : Ex) * i + j⟩, ⟨.weighting, 0, i⟩]

/-- Accesses of `calculate_mode_gradients` (c/dyn_mat.c:398-426). -/
def modeGradients (d : Dims) (baseE baseV baseG : Nat) : List Access :=
  over 0 (3 * d.n) fun m => over 0 d.n fun i => over 0 3 fun a => over 0 d.n fun j => over 0 3 fun b => over 0 3 fun k =>
    both .dmats baseV ((m : Ex) * (2 * 3 * (d.n : Ex)) + 6 * (j : Ex) + 2 * (b : Ex)) ++
    both .dmats baseV ((m : Ex) * (2 * 3 * (d.n : Ex)) + 6 * (i : Ex) + 2 * (a : Ex)) ++
    both .dmatGrad 0 (3 * (3 * (i : Ex) + a) * (2 * 3 * (d.n : Ex)) + 3 * (6 * (j : Ex) + 2 * (b : Ex)) + 2 * (k : Ex)) ++
    both .modegs baseG (6 * (m : Ex) + 2 * (k : Ex)) ++ [⟨.evals, baseE, m⟩]

/-- The pointers for q-point `q` (c/_euphonic.c:225-238): the expressions added to the start of `rqpts`, `evals`, `dmats`
and `modegs`. Without eigenvectors `dmat` is a buffer of its own. -/
def rqptOff (q : Nat) : Ex := 3 * (q : Ex)

/-- See `rqptOff`. -/
def evalOff (d : Dims) (q : Nat) : Ex := (q : Ex) * 3 * d.n

/-- See `rqptOff`; `dmat_elems` is `2*9*n_atoms*n_atoms` (c/_euphonic.c:188). -/
def dmatOff (d : Dims) (q : Nat) : Ex := if d.evecs then (q : Ex) * (2 * 9 * (d.n : Ex) * d.n) else 0

/-- See `rqptOff`. -/
def modegOff (d : Dims) (q : Nat) : Ex := if d.grad then (q : Ex) * 3 * d.n * 6 else 0

/-- All accesses for one q-point (c/_euphonic.c:224-285), `none` if a pointer cannot be computed; `off` as in `dipole`, `split`
is the position found in `split_idx`, if the q-point is split. -/
def atQ (d : Dims) (q off : Nat) (split : Option Nat) : Option (List Access) :=
  match (rqptOff q).eval, (evalOff d q).eval, (dmatOff d q).eval, (modegOff d q).eval with
  | some bq, some be, some bd, some bg => some (
      over 0 3 (fun k => [⟨.rqpts, bq, k⟩]) ++
      dynMat d bd ++
      (if d.dipole then dipole d off ++ addTo d .corr bd else []) ++
      (if d.asr then addTo d .asr bd else []) ++
      (match split with
        | some p => over 0 (p + 1) (fun i => [⟨.splitIdx, 0, i⟩]) ++ (over 0 3 fun a => [⟨.qDirs, 3 * p, a⟩]) ++ gamma d ++
          addTo d .corr bd
        | none => []) ++
      massWeight d .dmats bd 2 ++
      over 0 (3 * d.n) (fun i => [⟨.evals, be, i⟩]) ++
      if d.grad then massWeight d .dmatGrad 0 6 ++ modeGradients d be bd bg else [])
  | _, _, _, _ => none

end Euphonic.CAddr
