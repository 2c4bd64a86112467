import Verif.Model.DynMat
import Mathlib.LinearAlgebra.Matrix.NonsingularInverse
import Mathlib.Analysis.SpecialFunctions.Pow.Real

/-!
# Model of the long-range corrections (euphonic/force_constants.py:953-1319)

Numbers are exact; `scipy.special.erfc` is a parameter.  `np.linalg.inv` and `np.linalg.det` are Mathlib's
inverse and determinant.  Arrays indexed by (cell, pair) are functions of the cell and the pair; the
packing of the upper triangle into one index is modelled separately (`packed`).
-/

set_option autoImplicit false

namespace Euphonic.Dipole

open Euphonic.Lattice Euphonic.Phases Euphonic.Images Euphonic.DynMat

/-- The data of the crystal that the corrections use, in atomic units: cell vectors, fractional
positions, Born charges and dielectric tensor (euphonic/force_constants.py:954-958, 1138-1142). -/
structure Ions (n : Nat) where
  cv : M3 ℝ
  r : Fin n → V3 ℝ
  born : Fin n → Fin 3 → Fin 3 → ℝ
  diel : Matrix (Fin 3) (Fin 3) ℝ

variable {n : Nat}

/-- `crystal.reciprocal_cell()` (euphonic/force_constants.py:1004, 1169, 1302). -/
noncomputable def recip (o : Ions n) : M3 ℝ := reciprocalCell (2 * Real.pi) o.cv

/-- `crystal.cell_volume()` (euphonic/force_constants.py:1109, 1213, 1305). -/
noncomputable def volume (o : Ions n) : ℝ := cellVolume o.cv

/-! ## LO-TO splitting -/

/-- `_calculate_gamma_correction` (euphonic/force_constants.py:1279-1319). -/
noncomputable def gammaCorrection (o : Ions n) (qdir : V3 ℝ) : Mat n ℂ :=
  if isGamma qdir then fun _ _ => 0 else
    let qc := toCart (recip o) qdir
    let denominator := ∑ a, ∑ b, o.diel a b * comp qc a * comp qc b
    let factor := 4 * Real.pi / (volume o * denominator)
    let qBornSum := fun (i : Fin n) (a : Fin 3) => ∑ b, o.born i a b * comp qc b
    fun k l => ((qBornSum k.divNat k.modNat * qBornSum l.divNat l.modNat * factor : ℝ) : ℂ)

/-! ## Ewald sum: parts independent of q -/

/-- Row vector times matrix (`einsum('ij,jk->ik')`, euphonic/force_constants.py:1029, 1033). -/
def vecMat (v : V3 ℝ) (m : Matrix (Fin 3) (Fin 3) ℝ) : Fin 3 → ℝ := fun k => ∑ j, comp v j * m j k

/-- `upper_lambda` (euphonic/force_constants.py:1010-1017). -/
noncomputable def upperLambda (o : Ions n) (dipoleParameter : ℝ) : ℝ :=
  let abc := fun v : V3 ℝ => √(dot v v)
  let mean := (abc o.cv.a * abc o.cv.b * abc o.cv.c) ^ (1 / 3 : ℝ)
  √Real.pi / mean * (n : ℝ) ^ (1 / 6 : ℝ) * o.diel.det ^ (1 / 6 : ℝ) * dipoleParameter

/-- `H_ab` for the cell `R` and the pair `(i, j)` (euphonic/force_constants.py:1028-1056); the pair of
an atom with itself in the cell at the origin is skipped (and stays zero). -/
noncomputable def hab (erfc : ℝ → ℝ) (o : Ions n) (lam : ℝ) (R : V3 ℤ) (i j : Fin n) (a b : Fin 3) : ℝ :=
  if R = ⟨0, 0, 0⟩ ∧ i = j then 0 else
    let inv := o.diel⁻¹
    let ri := toCart o.cv (o.r i)
    let rj := toCart o.cv (o.r j)
    let Rc := toCart o.cv (castV ℝ R)
    let diffs := sub (sub ri rj) Rc
    let deltas := fun k => vecMat ri inv k - vecMat rj inv k - vecMat Rc inv k
    let norms2 := (∑ k, deltas k * comp diffs k) * lam ^ 2
    let norms := √norms2
    let expTerm := 2 * Real.exp (-norms2) / (√Real.pi * norms2)
    let erfcTerm := erfc norms / (norms * norms2)
    let f1 := lam ^ 2 * (3 * erfcTerm / norms2 + expTerm * (3 / norms2 + 2))
    let f2 := erfcTerm + expTerm
    f1 * (deltas a * deltas b) - f2 * inv a b

/-- `_get_shell_origins` (model in `Model/Lattice.lean`), which cannot fail for the shells used here. -/
def shell (m : Nat) : List (V3 ℤ) := (shellOrigins m).toOption.getD []

/-- `np.amax` of absolute values. -/
noncomputable def amax (l : List ℝ) : ℝ := l.foldl max 0

/-- All pairs `i <= j` and directions. -/
def upperElems (n : Nat) : List (Fin n × Fin n × Fin 3 × Fin 3) :=
  (List.finRange n).flatMap fun i => ((List.finRange n).filter fun j => decide (i ≤ j)).flatMap fun j =>
    (List.finRange 3).flatMap fun a => (List.finRange 3).map fun b => (i, j, a, b)

/-- The cells of the real-space sum (euphonic/force_constants.py:1019-1022, 1030-1066): shells are added
until one has no term above `frac_tol` times the largest term of the first one, at most 50 shells. -/
noncomputable def cells (erfc : ℝ → ℝ) (o : Ions n) (lam : ℝ) : List (V3 ℤ) :=
  let m := fun s => amax ((shell s).flatMap fun R =>
    (upperElems n).map fun e => |hab erfc o lam R e.1 e.2.1 e.2.2.1 e.2.2.2|)
  ((List.range 50).takeWhile fun s => decide (m s > 1 / 10 ^ 15 * m 0)).flatMap shell

/-- `e^(2 pi i G.r)` (euphonic/force_constants.py:1081-1082). -/
noncomputable def gPhase (o : Ions n) (G : V3 ℤ) (i : Fin n) : ℂ :=
  Complex.exp (2 * Complex.I * Real.pi * ((G.x * (o.r i).x + G.y * (o.r i).y + G.z * (o.r i).z : ℝ) : ℂ))

/-- `exp(-k^2) / k^2` times `k_a k_b` (euphonic/force_constants.py:1083-1086, 1198-1202), with
`k^2 = k.eps.k / (4 lambda^2)`. -/
noncomputable def kTerm (o : Ions n) (lam : ℝ) (k : V3 ℝ) (a b : Fin 3) : ℝ :=
  let k2 := (∑ a, ∑ b, comp k a * comp k b * o.diel a b) / (4 * lam ^ 2)
  comp k a * comp k b * (Real.exp (-k2) / k2)

/-- The reciprocal term of one shell (euphonic/force_constants.py:1087-1093), `i <= j`. -/
noncomputable def recipQ0Shell (o : Ions n) (lam : ℝ) (s : Nat) (i j : Fin n) (a b : Fin 3) : ℂ :=
  ((shell s).map fun G => (kTerm o lam (toCart (recip o) (castV ℝ G)) a b : ℂ) *
    (gPhase o G i / gPhase o G j)).sum

/-- The shells kept in the reciprocal sum (euphonic/force_constants.py:1074-1103). -/
noncomputable def gShells (o : Ions n) (lam : ℝ) : List Nat :=
  let m := fun s => amax ((upperElems n).map fun e => ‖recipQ0Shell o lam s e.1 e.2.1 e.2.2.1 e.2.2.2‖)
  (List.range' 1 49).takeWhile fun s => decide (m s > 1 / 10 ^ 15 * m 1)

/-- The vectors of the reciprocal sum, without the first one, `G = 0`
(euphonic/force_constants.py:1072, 1098). -/
noncomputable def gvecs (o : Ions n) (lam : ℝ) : List (V3 ℤ) := (gShells o lam).flatMap shell

/-- The factor of the real-space sum (euphonic/force_constants.py:1069, 1192). -/
noncomputable def realFactor (o : Ions n) (lam : ℝ) : ℝ := lam ^ 3 / √o.diel.det

/-- The factor of the reciprocal sum (euphonic/force_constants.py:1110, 1214). -/
noncomputable def recipFactor (o : Ions n) (lam : ℝ) : ℝ := Real.pi / (volume o * lam ^ 2)

/-- "Fill in remaining entries by symmetry" (euphonic/force_constants.py:1112-1116, 1216-1222): the
atoms are exchanged, the directions are not. -/
noncomputable def fill (u : Fin n → Fin n → Fin 3 → Fin 3 → ℂ) (i j : Fin n) (a b : Fin 3) : ℂ :=
  if i ≤ j then u i j a b else star (u j i a b)

/-- `recip_q0 - real_q0` (euphonic/force_constants.py:1067-1116). -/
noncomputable def q0Term (erfc : ℝ → ℝ) (o : Ions n) (lam : ℝ) (i j : Fin n) (a b : Fin 3) : ℂ :=
  fill (fun i j a b => recipFactor o lam *
      ((gShells o lam).map fun s => recipQ0Shell o lam s i j a b).sum) i j a b
  - fill (fun i j a b => ((realFactor o lam *
      ((cells erfc o lam).map fun R => hab erfc o lam R i j a b).sum : ℝ) : ℂ)) i j a b

/-- `dipole_q0` before it is symmetrised (euphonic/force_constants.py:1118-1127). -/
noncomputable def q0Raw (erfc : ℝ → ℝ) (o : Ions n) (lam : ℝ) (i : Fin n) (a b : Fin 3) : ℂ :=
  ∑ j, ∑ c, ∑ d, (o.born i a c * o.born j b d : ℝ) * q0Term erfc o lam i j c d

/-- `dipole_q0` (euphonic/force_constants.py:1118-1129). -/
noncomputable def q0 (erfc : ℝ → ℝ) (o : Ions n) (lam : ℝ) (i : Fin n) (a b : Fin 3) : ℂ :=
  1 / 2 * (q0Raw erfc o lam i a b + q0Raw erfc o lam i b a)

/-! ## Ewald sum at q -/

/-- `e^(2 pi i q.r)` for atom `i` (euphonic/force_constants.py:1195-1196). -/
noncomputable def qPhase (o : Ions n) (q : V3 ℝ) (i : Fin n) : ℂ :=
  Complex.exp (2 * Complex.I * Real.pi * ((q.x * (o.r i).x + q.y * (o.r i).y + q.z * (o.r i).z : ℝ) : ℂ))

/-- The real-space term for `i <= j` (euphonic/force_constants.py:1184-1192). -/
noncomputable def realTerm (erfc : ℝ → ℝ) (o : Ions n) (lam : ℝ) (q : V3 ℝ) (i j : Fin n) (a b : Fin 3) :
    ℂ :=
  (realFactor o lam : ℂ) * ((cells erfc o lam).map fun R =>
    Complex.exp (2 * Complex.I * Real.pi * ((q.x * R.x + q.y * R.y + q.z * R.z : ℝ) : ℂ))
      * (hab erfc o lam R i j a b : ℂ)).sum

/-- The reciprocal term for `i <= j` (euphonic/force_constants.py:1179-1182, 1193-1214): without
`G = 0` if `q` is a gamma point. -/
noncomputable def recipTerm (o : Ions n) (lam : ℝ) (q : V3 ℝ) (i j : Fin n) (a b : Fin 3) : ℂ :=
  let gs := if isGamma q then gvecs o lam else ⟨0, 0, 0⟩ :: gvecs o lam
  (recipFactor o lam : ℂ) * (gs.map fun G =>
    (kTerm o lam (add (toCart (recip o) (castV ℝ G)) (toCart (recip o) q)) a b : ℂ) *
      ((gPhase o G i * qPhase o q i) / (gPhase o G j * qPhase o q j))).sum

/-- `_calculate_dipole_correction` at the normalised q-point (euphonic/force_constants.py:1179-1235),
element `(i, a), (j, b)`. -/
noncomputable def corrAt (erfc : ℝ → ℝ) (o : Ions n) (lam : ℝ) (q : V3 ℝ) (i j : Fin n) (a b : Fin 3) :
    ℂ :=
  (∑ c, ∑ d, (o.born i a c * o.born j b d : ℝ) *
    (fill (recipTerm o lam q) i j c d - fill (realTerm erfc o lam q) i j c d))
  - if i = j then q0 erfc o lam i a b else 0

/-- `_calculate_dipole_correction` (euphonic/force_constants.py:1137-1235). -/
noncomputable def dipoleCorrection (erfc : ℝ → ℝ) (o : Ions n) (lam : ℝ) (q : V3 ℝ) : Mat n ℂ :=
  fun k l => corrAt erfc o lam (rem q) k.divNat l.divNat k.modNat l.modNat

/-! ## Packed indices -/

/-- `idx + j` (euphonic/force_constants.py:1037, 1054): the position of the pair `(i, j)`, `i <= j`,
in the packed array. -/
def packed (n i j : Nat) : Nat := (List.range' (n - i) i).sum + j

/-- `np.triu_indices(n)` (euphonic/force_constants.py:1068, 1190). -/
def triuIndices (n : Nat) : List (Nat × Nat) :=
  (List.range n).flatMap fun i => ((List.range n).filter fun j => decide (i ≤ j)).map fun j => (i, j)

end Euphonic.Dipole
