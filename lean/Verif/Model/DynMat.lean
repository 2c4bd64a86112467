import Verif.Model.Images

/-!
# Model of the dynamical matrix (euphonic/force_constants.py:547-598, 738-951)

Numbers are exact.  A row index `3*i + a` of a matrix of shape `(3*n_atoms, 3*n_atoms)` is an element of
`Fin (n * 3)`; its atom is `Fin.divNat`, its direction `Fin.modNat`.  The Hermitian eigensolver
(`np.linalg.eigh`) is a parameter.
-/

set_option autoImplicit false

namespace Euphonic.DynMat

open Euphonic.Lattice Euphonic.Supercell Euphonic.Phases Euphonic.Images

variable {N n : Nat}

/-- Array of shape `(3*n_atoms, 3*n_atoms)`. -/
abbrev Mat (n : Nat) (α : Type) := Fin (n * 3) → Fin (n * 3) → α

/-- `cell_phases[c]` (euphonic/force_constants.py:930-932). -/
noncomputable def cellPhase (q : V3 ℝ) (cells : Fin N → V3 ℤ) (c : Fin N) : ℂ :=
  (phasesOf q (List.ofFn cells)).getD c 0

/-- First result of `_calculate_dyn_mat` (euphonic/force_constants.py:929-941): `fcw` is
`fc_img_weighted`, `scOs` the list `sc_origins`, `img` is `_sc_image_i`.  `x.repeat(3, axis)` has the
value of atom `k/3` at index `k`. -/
noncomputable def dynMat (fcw : Fin N → Mat n ℝ) (cells : Fin N → V3 ℤ) (scOs : List (V3 ℤ))
    (img : Fin N → Fin n → Fin n → List ℤ) (q : V3 ℝ) : Mat n ℂ :=
  fun k l => ∑ c, (fcw c k l : ℂ) *
    (cellPhase q cells c * phaseSum (phasesOf q scOs) (img c k.divNat l.divNat))

/-- `sc_origins_cart[k]` (euphonic/force_constants.py:567-572): one zero row is appended, so the index
`-1` gives zero. -/
noncomputable def scOriginCart (cv : M3 ℝ) (scOs : List (V3 ℤ)) (k : ℤ) : V3 ℝ :=
  let l := scOs.map (fun v => toCart cv (castV ℝ v)) ++ [⟨0, 0, 0⟩]
  if 0 ≤ k then l.getD k.toNat ⟨0, 0, 0⟩ else l.getD (l.length - (-k).toNat) ⟨0, 0, 0⟩

/-- Second result of `_calculate_dyn_mat` (euphonic/force_constants.py:565-574, 942-949): the gradient
of the dynamical matrix. -/
noncomputable def dynGrad (cv : M3 ℝ) (fcw : Fin N → Mat n ℝ) (cells : Fin N → V3 ℤ)
    (scOs : List (V3 ℤ)) (img : Fin N → Fin n → Fin n → List ℤ) (q : V3 ℝ) :
    Fin 3 → Mat n ℂ :=
  fun d k l => ∑ c, (fcw c k l : ℂ) * (Complex.I *
    ((img c k.divNat l.divNat).map fun im =>
      phaseAt (phasesOf q scOs ++ [0]) im * cellPhase q cells c *
        (comp (add (scOriginCart cv scOs im) (toCart cv (castV ℝ (cells c)))) d : ℝ)).sum)

/-- `fc_img_weighted` (euphonic/force_constants.py:595-598); `junk` is the uninitialised memory left
where a pair has no image. -/
noncomputable def fcImgWeighted (fc junk : Fin N → Mat n ℝ) (count : Fin N → Fin n → Fin n → Nat)
    (c : Fin N) : Mat n ℝ :=
  fun k l => fcWeighted (fc c k l) (count c k.divNat l.divNat) (junk c k l)

/-- `dyn_mat_weighting` (euphonic/force_constants.py:576-580). -/
noncomputable def massWeighting (m : Fin n → ℝ) : Mat n ℝ :=
  fun k l => 1 / √(m l.divNat * m k.divNat)

/-- Frequency of an eigenvalue (euphonic/force_constants.py:835-838). -/
noncomputable def freqOf (e : ℝ) : ℝ := if e < 0 then √|e| * -1 else √|e|

/-- The matrix that is diagonalised by `_calculate_phonons_at_q`
(euphonic/force_constants.py:812-830): the dynamical matrix, the optional corrections, the masses. -/
noncomputable def weighted (w : Mat n ℝ) (d : Mat n ℂ) (dipole asr loto : Option (Mat n ℂ)) : Mat n ℂ :=
  let d1 := match dipole with | some m => d + m | none => d
  let d2 := match asr with | some m => d1 + m | none => d1
  let d3 := match loto with | some m => d2 + m | none => d2
  fun k l => d3 k l * w k l

/-- Mode gradients (euphonic/force_constants.py:840-849): `evecs s` is the eigenvector of mode `s`. -/
noncomputable def modeGradients (w : Mat n ℝ) (evals : Fin (n * 3) → ℝ)
    (evecs : Fin (n * 3) → Fin (n * 3) → ℂ) (grad : Fin 3 → Mat n ℂ) (s : Fin (n * 3)) (d : Fin 3) : ℂ :=
  (∑ j, ∑ k, star (evecs s j) * evecs s k * (grad d j k * w j k)) / (2 * (freqOf (evals s) : ℝ))

/-- `_calculate_supercell_images` and the weights for `s` shells
(euphonic/force_constants.py:547-553, 594-598, 1569-1661), and from them the dynamical matrix at `q`
(858-941). -/
noncomputable def fcDynMat (cv : M3 ℝ) (r : Fin n → V3 ℝ) (cells : Fin N → V3 ℤ) (c0 : Fin N) (S : M3 ℤ)
    (images : List (V3 ℤ)) (fc junk : Fin N → Mat n ℝ) (q : V3 ℝ) : Mat n ℂ :=
  let st := imageLoops cv r cells c0 S images
  dynMat (fcImgWeighted fc junk st.cnt) cells (scOrigins S images) (scImageI st) q

end Euphonic.DynMat
