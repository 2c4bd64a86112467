import Verif.Model.Dipole

/-!
# Model of the C extension, one q-point (c/dyn_mat.c, c/util.c)

An array of doubles is a function from the position to the value (exact reals); loops are folds; pointers
into an array are positions.  Arrays are written with the index arithmetic of the C code, so wrong strides
show.  Integer overflow and out-of-range accesses are not modelled here (a position without a value does
not exist in the model); which positions are used is the subject of theorems.
-/

set_option autoImplicit false

namespace Euphonic.CExt

open Euphonic.Lattice

/-- An array of doubles. -/
abbrev Mem := Nat → ℝ

/-- `m[k] += v`. -/
noncomputable def addTo (m : Mem) (k : Nat) (v : ℝ) : Mem := Function.update m k (m k + v)

/-- `m[k] = v`. -/
noncomputable def setAt (m : Mem) (k : Nat) (v : ℝ) : Mem := Function.update m k v

/-- `memset(m, 0, size*sizeof(double))`. -/
def clear (size : Nat) (m : Mem) : Mem := fun k => if k < size then 0 else m k

/-- `for (k = lo; k < hi; k++) body`. -/
def loop {σ : Type} (lo hi : Nat) (body : Nat → σ → σ) (s : σ) : σ :=
  (List.range' lo (hi - lo)).foldl (fun s k => body k s) s

/-! ## c/util.c -/

/-- `add_arrays` (c/util.c:3-8). -/
noncomputable def addArrays (size : Nat) (arr1 arr2 : Mem) : Mem :=
  loop 0 size (fun i m => addTo m i (arr1 i)) arr2

/-- `multiply_array` (c/util.c:10-15). -/
noncomputable def multiplyArray (size : Nat) (scalar : ℝ) (arr : Mem) : Mem :=
  loop 0 size (fun i m => setAt m i (m i * scalar)) arr

/-- `det_array` (c/util.c:24-30). -/
def detArray (arr : Mem) : ℝ :=
  arr 0 * (arr 4 * arr 8 - arr 7 * arr 5) +
  arr 1 * (arr 3 * arr 8 - arr 6 * arr 5) +
  arr 2 * (arr 3 * arr 7 - arr 6 * arr 4)

/-- C `round`: halves are rounded away from zero. -/
noncomputable def cround (x : ℝ) : ℝ := if 0 ≤ x then (⌊x + 1 / 2⌋ : ℝ) else -(⌊-x + 1 / 2⌋ : ℝ)

/-- `is_gamma` (c/util.c:32-45). -/
noncomputable def cIsGamma (qpt : Mem) : Bool :=
  decide (loop 0 3 (fun i diff => diff + |qpt i - cround (qpt i)|) 0 < 1 / 10 ^ 15)

/-- `cell_volume` (c/util.c:47-61). -/
def cCellVolume (cv : Mem) : ℝ :=
  let bxc := fun i : Nat =>
    if i = 0 then cv 4 * cv 8 - cv 5 * cv 7
    else if i = 1 then cv 5 * cv 6 - cv 3 * cv 8
    else cv 3 * cv 7 - cv 4 * cv 6
  loop 0 3 (fun i vol => vol + cv i * bxc i) 0

/-- `cmult` (c/util.c:63-66). -/
def cmult (c1 c2 : ℝ × ℝ) : ℝ × ℝ := (c1.1 * c2.1 - c1.2 * c2.2, c1.1 * c2.2 + c1.2 * c2.1)

/-- `cmult_conj` (c/util.c:68-71). -/
def cmultConj (c1 c2 : ℝ × ℝ) : ℝ × ℝ := (c1.1 * c2.1 + c1.2 * c2.2, -c1.1 * c2.2 + c1.2 * c2.1)

/-- The two doubles at a pointer to a complex number. -/
def pairAt (m : Mem) (k : Nat) : ℝ × ℝ := (m k, m (k + 1))

/-! ## Dynamical matrix -/

/-- The arguments of `calculate_dyn_mat_at_q` that are the same for all q-points (c/dyn_mat.c:13-17).
`sc_origins` is indexed by an image index, which is an `int`. -/
structure DynIn where
  n : Nat
  nCells : Nat
  maxIm : Nat
  nScImages : Nat → Nat
  scImageI : Nat → ℤ
  cellOrigins : Nat → ℤ
  scOrigins : ℤ → ℤ
  fc : Mem
  allOrigins : Mem

/-- `sc_img_idx` (c/dyn_mat.c:32-35, 49). -/
def DynIn.imgIdx (I : DynIn) (nc i j m : Nat) : Nat :=
  nc * (I.n * I.n * I.maxIm) + i * (I.n * I.maxIm) + j * I.maxIm + m

/-- The body of the loop over the images of a pair (c/dyn_mat.c:47-67); the state is `phase_sum` and
`rcart_sum`. -/
noncomputable def imageStep (I : DynIn) (grad : Bool) (qpt : Mem) (nc i j : Nat) (m : Nat)
    (s : ℝ × ℝ × Mem) : ℝ × ℝ × Mem :=
  let idx := I.imgIdx nc i j m
  let sc := I.scImageI idx
  let qdotr := loop 0 3 (fun k acc =>
    acc + qpt k * ((I.scOrigins (3 * sc + k) + I.cellOrigins (3 * nc + k) : ℤ) : ℝ)) 0
  let re := Real.cos (2 * Real.pi * qdotr)
  let im := -Real.sin (2 * Real.pi * qdotr)
  let rc := if grad then
      loop 0 3 (fun k r => addTo (addTo r (2 * k) (im * I.allOrigins (3 * idx + k))) (2 * k + 1)
        (re * I.allOrigins (3 * idx + k))) s.2.2
    else s.2.2
  (s.1 + re, s.2.1 + im, rc)

/-- The loop over the images of a pair (c/dyn_mat.c:44-67). -/
noncomputable def imageSums (I : DynIn) (grad : Bool) (qpt : Mem) (nc i j : Nat) : ℝ × ℝ × Mem :=
  loop 0 (I.nScImages (nc * (I.n * I.n) + i * I.n + j)) (imageStep I grad qpt nc i j) (0, 0, fun _ => 0)

/-- The index of an element of a matrix of shape `(3*n, 3*n)` (c/dyn_mat.c:70). -/
def elemIdx (n i ii j jj : Nat) : Nat := (3 * i + ii) * 3 * n + 3 * j + jj

/-- The body of the loops over directions (c/dyn_mat.c:70-84); the state is `dyn_mat` and
`dmat_grad`. -/
noncomputable def elemStep (grad : Bool) (ps : ℝ × ℝ × Mem) (f : ℝ) (idx : Nat) (s : Mem × Mem) : Mem × Mem :=
  (addTo (addTo s.1 (2 * idx) (ps.1 * f)) (2 * idx + 1) (ps.2.1 * f),
   if grad then
     loop 0 3 (fun k g => addTo (addTo g (6 * idx + 2 * k) (ps.2.2 (2 * k) * f)) (6 * idx + 2 * k + 1)
       (ps.2.2 (2 * k + 1) * f)) s.2
   else s.2)

/-- The loops of `calculate_dyn_mat_at_q` (c/dyn_mat.c:41-87). -/
noncomputable def dynLoops (I : DynIn) (grad : Bool) (qpt : Mem) (s : Mem × Mem) : Mem × Mem :=
  loop 0 I.n (fun i => loop i I.n fun j => loop 0 I.nCells fun nc =>
    loop 0 3 fun ii => loop 0 3 fun jj =>
      let idx := elemIdx I.n i ii j jj
      elemStep grad (imageSums I grad qpt nc i j) (I.fc (nc * (9 * I.n * I.n) + idx)) idx) s

/-- "Fill in lower triangular of dmat gradients" (c/dyn_mat.c:89-105). -/
noncomputable def fillLower (n : Nat) (g : Mem) : Mem :=
  loop 1 n (fun i => loop 0 i fun j => loop 0 3 fun ii => loop 0 3 fun jj =>
    let idx := 6 * elemIdx n i ii j jj
    let idxT := 6 * elemIdx n j jj i ii
    loop 0 3 fun k m =>
      let m := setAt m (idx + 2 * k) (m (idxT + 2 * k))
      setAt m (idx + 2 * k + 1) (-m (idxT + 2 * k + 1))) g

/-- `calculate_dyn_mat_at_q` (c/dyn_mat.c:13-106): the arrays `dyn_mat` and `dmat_grad` are given with
their old contents. -/
noncomputable def calcDynMat (I : DynIn) (grad : Bool) (qpt : Mem) (dynMat dmatGrad : Mem) : Mem × Mem :=
  let s := dynLoops I grad qpt (clear (2 * 9 * I.n * I.n) dynMat,
    if grad then clear (3 * 2 * 9 * I.n * I.n) dmatGrad else dmatGrad)
  (s.1, if grad then fillLower I.n s.2 else s.2)

/-! ## Long-range corrections -/

/-- The arguments of `calculate_dipole_correction` and `calculate_gamma_correction` that are the same for
all q-points (c/dyn_mat.c:108-114, 275-278). -/
structure DipIn where
  n : Nat
  cellVec : Mem
  recip : Mem
  atomR : Mem
  born : Mem
  diel : Mem
  hab : Mem
  cells : Mem
  nCells : Nat
  gPhases : Mem
  gCart : Mem
  nG : Nat
  q0 : Mem
  lam : ℝ

/-- The real-space sum (c/dyn_mat.c:138-162), with the pointer that runs through `H_ab`. -/
noncomputable def realLoops (D : DipIn) (qn : Mem) (corr : Mem) : Mem × Nat :=
  loop 0 D.nCells (fun nc s =>
    let qdotr := loop 0 3 (fun a acc => acc + qn a * D.cells (3 * nc + a)) 0
    let re := Real.cos (2 * Real.pi * qdotr)
    let im := -Real.sin (2 * Real.pi * qdotr)
    loop 0 D.n (fun i => loop i D.n fun j => loop 0 3 fun a => loop 0 3 fun b s =>
      let idx := 2 * elemIdx D.n i a j b
      (addTo (addTo s.1 idx (-(re * D.hab s.2))) (idx + 1) (-(im * D.hab s.2)), s.2 + 1)) s) (corr, 0)

/-- `q_phases` (c/dyn_mat.c:177-187). -/
noncomputable def cqPhase (D : DipIn) (qn : Mem) (i : Nat) : ℝ × ℝ :=
  let qdotr := loop 0 3 (fun a acc => acc + qn a * D.atomR (3 * i + a)) 0
  (Real.cos (2 * Real.pi * qdotr), -Real.sin (2 * Real.pi * qdotr))

/-- `q_cart` (c/dyn_mat.c:171-176). -/
noncomputable def qCart (D : DipIn) (qn : Mem) (a : Nat) : ℝ :=
  loop 0 3 (fun b acc => acc + qn b * D.recip (3 * b + a)) 0

/-- `k_len_2` (c/dyn_mat.c:165-170, 199-209). -/
noncomputable def kLen2 (D : DipIn) (kvec : Nat → ℝ) : ℝ :=
  loop 0 3 (fun a => loop 0 3 fun b acc =>
    acc + kvec a * kvec b * (D.diel (3 * a + b) / (4 * D.lam ^ 2))) 0

/-- The reciprocal sum (c/dyn_mat.c:188-231); `off` is 1 if the pointers `gvec_phases` and `gvecs_cart`
were moved past `G = 0` (c/dyn_mat.c:130-136). -/
noncomputable def recipLoops (D : DipIn) (qn : Mem) (off : Nat) (corr : Mem) : Mem :=
  let fac := Real.pi / (cCellVolume D.cellVec * D.lam ^ 2)
  loop 0 (D.nG - off) (fun ng =>
    let kvec := fun a => D.gCart (3 * (off + ng) + a) + qCart D qn a
    let k2 := kLen2 D kvec
    let kab := fun a b => kvec a * kvec b * (Real.exp (-k2) / k2)
    loop 0 D.n fun i =>
      let ri := cmultConj (cqPhase D qn i) (pairAt D.gPhases (2 * ((off + ng) * D.n + i)))
      loop i D.n fun j =>
        let rj := cmultConj (cqPhase D qn j) (pairAt D.gPhases (2 * ((off + ng) * D.n + j)))
        let rij := cmultConj ri rj
        loop 0 3 fun a => loop 0 3 fun b m =>
          let idx := 2 * elemIdx D.n i a j b
          addTo (addTo m idx (fac * rij.1 * kab a b)) (idx + 1) (fac * rij.2 * kab a b)) corr

/-- The new value of an element when the Born charges are multiplied in (c/dyn_mat.c:239-251). -/
noncomputable def bornSum (D : DipIn) (corr : Mem) (i j a b part : Nat) : ℝ :=
  loop 0 3 (fun aa => loop 0 3 fun bb acc =>
    acc + D.born (9 * i + 3 * a + aa) * D.born (9 * j + 3 * b + bb) *
      corr (2 * elemIdx D.n i aa j bb + part)) 0

/-- Multiplying in the Born charges and subtracting the `q = 0` term (c/dyn_mat.c:234-273). -/
noncomputable def bornLoops (D : DipIn) (corr : Mem) : Mem :=
  loop 0 D.n (fun i corr =>
    let corr := loop i D.n (fun j corr =>
      loop 0 3 (fun a => loop 0 3 fun b m =>
        let idx := 2 * elemIdx D.n i a j b
        setAt (setAt m idx (bornSum D corr i j a b 0)) (idx + 1) (bornSum D corr i j a b 1)) corr) corr
    loop 0 3 (fun a => loop 0 3 fun b m =>
      let idx := 2 * elemIdx D.n i a i b
      addTo (addTo m idx (-D.q0 (18 * i + 6 * a + 2 * b))) (idx + 1)
        (-D.q0 (18 * i + 6 * a + 2 * b + 1))) corr) corr

/-- `calculate_dipole_correction` (c/dyn_mat.c:108-273); `corr` is given with its old contents. -/
noncomputable def calcDipole (D : DipIn) (qpt : Mem) (corr : Mem) : Mem :=
  let qn := fun a => qpt a - cround (qpt a)
  let off := if cIsGamma qn then 1 else 0
  let corr := (realLoops D qn (clear (2 * 9 * D.n * D.n) corr)).1
  let corr := multiplyArray (2 * 9 * D.n * D.n) (D.lam ^ 3 / √(detArray D.diel)) corr
  bornLoops D (recipLoops D qn off corr)

/-- `calculate_gamma_correction` (c/dyn_mat.c:275-325): only real parts are written, `corr` is given with
its old contents. -/
noncomputable def calcGamma (D : DipIn) (qdir : Mem) (corr : Mem) : Mem :=
  if cIsGamma qdir then clear (2 * 9 * D.n * D.n) corr else
    let qc := fun a => loop 0 3 (fun b acc => acc + D.recip (3 * b + a) * qdir b) 0
    let denominator := loop 0 3 (fun a => loop 0 3 fun b acc =>
      acc + D.diel (3 * a + b) * qc a * qc b) 0
    let fac := 4 * Real.pi / (cCellVolume D.cellVec * denominator)
    let qBorn := fun i a => loop 0 3 (fun b acc => acc + D.born (9 * i + 3 * a + b) * qc b) 0
    loop 0 D.n (fun i => loop i D.n fun j => loop 0 3 fun a => loop 0 3 fun b m =>
      setAt m (2 * elemIdx D.n i a j b) (fac * qBorn i a * qBorn j b)) corr

/-! ## Masses, frequencies and gradients -/

/-- `mass_weight_dyn_mat` (c/dyn_mat.c:327-338). -/
noncomputable def massWeight (w : Mem) (n repeats : Nat) (dyn : Mem) : Mem :=
  loop 0 (9 * n * n) (fun i => loop 0 repeats fun j m =>
    setAt m (repeats * i + j) (m (repeats * i + j) * w i)) dyn

/-- `copysign`; a negative zero does not exist in the model. -/
noncomputable def copysign (x y : ℝ) : ℝ := if 0 ≤ y then |x| else -|x|

/-- `evals_to_freqs` (c/dyn_mat.c:388-396). -/
noncomputable def evalsToFreqs (n : Nat) (e : Mem) : Mem :=
  loop 0 (3 * n) (fun i m => setAt m i (copysign (√|m i|) (m i))) e

/-- `calculate_mode_gradients` (c/dyn_mat.c:398-426). -/
noncomputable def calcModeGradients (n : Nat) (freqs evecs grad modeg : Mem) : Mem :=
  let modeS := 2 * 3 * n
  loop 0 (3 * n) (fun s => loop 0 n fun i => loop 0 3 fun a => loop 0 n fun j => loop 0 3 fun b =>
    loop 0 3 fun k m =>
      let e := cmultConj (pairAt evecs (s * modeS + 6 * j + 2 * b)) (pairAt evecs (s * modeS + 6 * i + 2 * a))
      let gradIdx := 3 * (3 * i + a) * modeS + 3 * (6 * j + 2 * b) + 2 * k
      let t := cmult (pairAt grad gradIdx) e
      addTo (addTo m (6 * s + 2 * k) (0.5 * t.1 / freqs s)) (6 * s + 2 * k + 1) (0.5 * t.2 / freqs s)) modeg

/-- The elements LAPACK's `zheevd` uses with `uplo = 'L'` and Fortran ordering
(c/dyn_mat.c:340-374): the lower triangle, `A(r, c)` at position `c*order + r`; the imaginary part of
the diagonal is ignored, the upper triangle is taken from the lower one. -/
noncomputable def zheevdReads (order : Nat) (m : Mem) (r c : Nat) : ℂ :=
  if r = c then (m (2 * (c * order + r)) : ℂ)
  else if c < r then ⟨m (2 * (c * order + r)), m (2 * (c * order + r) + 1)⟩
  else ⟨m (2 * (r * order + c)), -m (2 * (r * order + c) + 1)⟩

/-- The body of the loop over q-points up to the diagonalisation (c/_euphonic.c:224-271), for the
direction `dir` found for the q-point; `asr` is `asr_correction` if it is not empty.  The result is the
array given to `zheevd` and the array of gradients. -/
noncomputable def matrixAtQ (I : DynIn) (D : DipIn) (dipole grad : Bool) (asr : Option Mem)
    (dir : Option Mem) (w : Mem) (qpt dynMat dmatGrad corr : Mem) : Mem × Mem :=
  let size := 2 * 9 * I.n * I.n
  let s := calcDynMat I grad qpt dynMat dmatGrad
  let corr := if dipole then calcDipole D qpt corr else corr
  let d := if dipole then addArrays size corr s.1 else s.1
  let d := match asr with | some a => addArrays size a d | none => d
  let d := match dir with | some v => addArrays size (calcGamma D v corr) d | none => d
  (massWeight w I.n 2 d, if grad then massWeight w I.n 6 s.2 else s.2)

end Euphonic.CExt
