import Verif.Model.TotalFc
import Verif.Props.Powder
import Verif.Props.Dipole

/-! # C77: force constants that include the dipole term -/

set_option autoImplicit false
set_option linter.unusedSectionVars false

namespace Euphonic.TotalFc

open Euphonic.Lattice Euphonic.Phases Euphonic.Images Euphonic.DynMat Euphonic.Dipole
open Euphonic.Powder (combine)

variable {N n : Nat}

/-- Specification: Cartesian position of atom `i` in the cell with the given origin, in the unit cell basis. -/
def truePos (cv : M3 ℝ) (o : V3 ℤ) (r : V3 ℝ) : V3 ℝ :=
  combine cv ⟨o.x + r.x, o.y + r.y, o.z + r.z⟩

/-- Specification: the supercell vectors, each an integer combination of the cell vectors given by a row. -/
def trueVecs (cv : M3 ℝ) (S : M3 ℤ) : M3 ℝ :=
  ⟨combine cv ⟨S.a.x, S.a.y, S.a.z⟩, combine cv ⟨S.b.x, S.b.y, S.b.z⟩, combine cv ⟨S.c.x, S.c.y, S.c.z⟩⟩

/-- Specification: `o` is the crystal of the supercell: its cell vectors, every atom of every cell at its place
with its charges, and the dielectric tensor, all in atomic units. -/
structure IsSupercell (x : Args N n) (o : Ions (N * n)) : Prop where
  vecs : o.cv = trueVecs x.cv x.S
  pos : ∀ k : Fin (N * n), combine o.cv (o.r k) = truePos x.cv (x.cells k.divNat) (x.r k.modNat)
  born : ∀ (k : Fin (N * n)) a b, o.born k a b = x.bornUnit * x.born k.modNat a b
  diel : o.diel = x.dielUnit • x.diel

theorem toCart_combine (m : M3 ℝ) (v : V3 ℝ) : toCart m v = combine m v := by
  simp only [toCart, combine]

theorem scVecs_eq (cv : M3 ℝ) (S : M3 ℤ) : scVecs S cv = trueVecs cv S := by
  unfold scVecs trueVecs
  simp only [toCart_combine]
  rfl

/-- The symmetric supercell matrices. -/
def Symm (S : M3 ℤ) : Prop := S.a.y = S.b.x ∧ S.a.z = S.c.x ∧ S.b.z = S.c.y

theorem transpose_iff (S : M3 ℤ) : (matrixOf S).transpose = matrixOf S ↔ Symm S := by
  constructor
  · intro h
    have e : ∀ i j, matrixOf S j i = matrixOf S i j := fun i j => congrFun (congrFun h i) j
    have h1 := e 0 1
    have h2 := e 0 2
    have h3 := e 1 2
    simp only [matrixOf, row, comp, Matrix.cons_val_zero, Matrix.cons_val_one, Matrix.cons_val] at h1 h2 h3
    refine ⟨?_, ?_, ?_⟩
    · exact_mod_cast h1.symm
    · exact_mod_cast h2.symm
    · exact_mod_cast h3.symm
  · rintro ⟨h1, h2, h3⟩
    funext i j
    fin_cases i <;> fin_cases j <;> simp [matrixOf, row, comp, Matrix.transpose_apply, h1, h2, h3]

theorem combine_trueVecs (cv : M3 ℝ) (S : M3 ℤ) (f : V3 ℝ) :
    combine (trueVecs cv S) f = combine cv (ofComp (Matrix.vecMul (comp f) (matrixOf S))) := by
  simp only [combine, trueVecs, ofComp, Matrix.vecMul, dotProduct, Fin.sum_univ_three, matrixOf, row, comp,
    Matrix.cons_val_zero, Matrix.cons_val_one, Matrix.cons_val, V3.mk.injEq]
  refine ⟨?_, ?_, ?_⟩ <;> ring

theorem comp_ofComp (f : Fin 3 → ℝ) : comp (ofComp f) = f := by
  funext i; fin_cases i <;> rfl

theorem ofComp_comp (v : V3 ℝ) : ofComp (comp v) = v := rfl

theorem vecMat_eq (v : V3 ℝ) (m : Matrix (Fin 3) (Fin 3) ℝ) : vecMat v m = Matrix.vecMul (comp v) m := rfl

theorem pos_symm (cv : M3 ℝ) (S : M3 ℤ) (hdet : (matrixOf S).det ≠ 0) (hs : Symm S) (v : V3 ℝ) :
    combine (trueVecs cv S) (toScell S v) = combine cv v := by
  rw [combine_trueVecs]
  unfold toScell scToU
  have h1 : ((matrixOf S)⁻¹).transpose = (matrixOf S)⁻¹ := by
    rw [Matrix.transpose_nonsing_inv, (transpose_iff S).2 hs]
  rw [comp_ofComp, vecMat_eq, Matrix.vecMul_vecMul, h1,
    Matrix.nonsing_inv_mul _ (isUnit_iff_ne_zero.2 hdet), Matrix.vecMul_one, ofComp_comp]

/-- **C77.** The Cartesian positions used for the supercell are those of the repeated unit cells for all
positions **if and only if** the supercell matrix is symmetric. -/
theorem C77_positions_iff (cv : M3 ℝ) (S : M3 ℤ) (hdet : (matrixOf S).det ≠ 0) (hv : cellVolume cv ≠ 0) :
    (∀ v : V3 ℝ, combine (trueVecs cv S) (toScell S v) = combine cv v) ↔ Symm S := by
  constructor
  · intro h
    rw [← transpose_iff]
    have h1 : ∀ v : Fin 3 → ℝ, Matrix.vecMul v (((matrixOf S)⁻¹).transpose * matrixOf S) = v := by
      intro v
      have h2 := h (ofComp v)
      rw [combine_trueVecs] at h2
      have h3 := Powder.combine_inj cv hv _ _ h2
      have h4 := congrArg comp h3
      rw [comp_ofComp, comp_ofComp] at h4
      unfold toScell scToU at h4
      rw [comp_ofComp, vecMat_eq, comp_ofComp, Matrix.vecMul_vecMul] at h4
      exact h4
    have h2 : ((matrixOf S)⁻¹).transpose * matrixOf S = 1 := by
      funext i j
      have := congrFun (h1 (Pi.single i 1)) j
      rw [Matrix.single_one_vecMul] at this
      rw [Matrix.row] at this
      rw [this, Matrix.one_apply, Pi.single_apply]
      simp only [eq_comm]
    rw [Matrix.transpose_nonsing_inv] at h2
    have hu : IsUnit (matrixOf S).transpose.det := by
      rw [Matrix.det_transpose]; exact isUnit_iff_ne_zero.2 hdet
    calc (matrixOf S).transpose = (matrixOf S).transpose * 1 := (mul_one _).symm
      _ = (matrixOf S).transpose * ((matrixOf S).transpose⁻¹ * matrixOf S) := by rw [h2]
      _ = matrixOf S := by rw [← mul_assoc, Matrix.mul_nonsing_inv _ hu, one_mul]
  · intro hs v
    exact pos_symm cv S hdet hs v

theorem volume_trueVecs (cv : M3 ℝ) (S : M3 ℤ) :
    cellVolume (trueVecs cv S) = (matrixOf S).det * cellVolume cv := by
  rw [Matrix.det_fin_three]
  simp only [cellVolume, trueVecs, combine, dot, cross, matrixOf, row, comp, Matrix.cons_val_zero,
    Matrix.cons_val_one, Matrix.cons_val]
  ring

/-- **C77.** For a symmetric supercell matrix and a dielectric tensor in atomic units the dipole term of the true
supercell at q = 0 is subtracted, whatever the units of the force constants and charges: the correction of the
force constant between `(i, a)` in the first cell and `(j, b)` in cell `c` is the element of the supercell matrix
between just these coordinates. -/
theorem C77_total_partial (erfc : ℝ → ℝ) (x : Args N n) (o : Ions (N * n)) (h : IsSupercell x o) (hN : 0 < N)
    (hdet : (matrixOf x.S).det ≠ 0) (hv : cellVolume x.cv ≠ 0) (hs : Symm x.S) (hd : x.dielUnit = 1)
    (hf : x.fcUnit ≠ 0) :
    ∃ fc', fromTotal erfc x = .ok fc' ∧
      ∀ (c : Fin N) (i j : Fin (n * 3)) (k l : Fin (N * n * 3)), k.val = c * (n * 3) + j → l.val = i →
        fc' c i j = x.fc c i j -
          (dipoleCorrection erfc o (upperLambda o 1) ⟨0, 0, 0⟩ k l).re / x.fcUnit := by
  have ho : scIons x = o := by
    have hcv : (scIons x).cv = o.cv := by rw [h.vecs, ← scVecs_eq]; rfl
    have hr : (scIons x).r = o.r := by
      funext k
      have hp : combine o.cv ((scIons x).r k) = combine o.cv (o.r k) := by
        rw [h.pos, h.vecs]
        show combine (trueVecs x.cv x.S) (toScell x.S (scAtomR x k)) = _
        rw [pos_symm _ _ hdet hs]
        rfl
      refine Powder.combine_inj o.cv ?_ _ _ hp
      rw [h.vecs, volume_trueVecs]
      exact mul_ne_zero hdet hv
    have hb : (scIons x).born = o.born := by
      funext k a b
      rw [h.born]
      exact mul_comm _ _
    have hdl : (scIons x).diel = o.diel := by
      rw [h.diel, hd, one_smul]; rfl
    cases hx : scIons x
    cases o
    rw [hx] at hcv hr hb hdl
    simp only at hcv hr hb hdl
    rw [hcv, hr, hb, hdl]
  have he : ∃ fc', fromTotal erfc x = .ok fc' ∧ fc' = fun c i j => ((x.fcUnit * x.fc c i j : ℝ) -
      reshapeCorr ⟨0, hN⟩ (dipoleCorrection erfc (scIons x) (upperLambda (scIons x) 1) ⟨0, 0, 0⟩) c i j : ℂ).re /
        x.fcUnit := by
    refine ⟨_, ?_, rfl⟩
    unfold fromTotal
    rw [if_neg hdet, dif_pos hN]
  obtain ⟨fc', h1, h2⟩ := he
  refine ⟨fc', h1, ?_⟩
  · intro c i j k l hk hl
    have hk' : scIndex c j = k := Fin.ext hk.symm
    have hl' : scIndex (⟨0, hN⟩ : Fin N) i = l := Fin.ext (by simp [scIndex, hl])
    rw [h2]
    simp only [reshapeCorr, hk', hl', ho, Complex.sub_re, Complex.ofReal_re]
    field_simp

/-- **C77** fails in other units: the dielectric tensor used is that of the crystal only if it was given in
atomic units. -/
theorem C77_dielectric_unit (x : Args N n) (hd : x.diel ≠ 0) :
    (scIons x).diel = x.dielUnit • x.diel ↔ x.dielUnit = 1 := by
  constructor
  · intro h
    obtain ⟨i, hi⟩ := Function.ne_iff.1 hd
    obtain ⟨j, hj⟩ := Function.ne_iff.1 hi
    have := congrFun (congrFun h i) j
    have h2 : x.diel i j = x.dielUnit * x.diel i j := this
    have h3 : (x.dielUnit - 1) * x.diel i j = 0 := by linear_combination -h2
    rcases mul_eq_zero.1 h3 with h4 | h4
    · linarith
    · exact absurd h4 hj
  · intro h; rw [h, one_smul]; rfl

/-- **C77.** A singular supercell matrix raises. -/
theorem C77_singular (erfc : ℝ → ℝ) (x : Args N n) (h : (matrixOf x.S).det = 0) :
    fromTotal erfc x = .error .valueError := by
  unfold fromTotal; rw [if_pos h]

/-- **C77.** The correction is symmetric where it should be: for a symmetric dielectric tensor and force
constants within the first cell that are symmetric, the corrected ones are symmetric too. -/
theorem C77_first_cell_symmetric (erfc : ℝ → ℝ) (x : Args N n) (hd : x.diel.transpose = x.diel) (hN : 0 < N)
    (fc' : Fin N → Mat n ℝ) (h : fromTotal erfc x = .ok fc') (i j : Fin (n * 3))
    (hf : x.fc ⟨0, hN⟩ i j = x.fc ⟨0, hN⟩ j i) : fc' ⟨0, hN⟩ i j = fc' ⟨0, hN⟩ j i := by
  unfold fromTotal at h
  split at h
  · cases h
  · dsimp only at h
    cases h
    simp only [reshapeCorr]
    rw [C50_hermitian erfc (scIons x) _ hd _ (scIndex ⟨0, hN⟩ i) (scIndex ⟨0, hN⟩ j), hf]
    simp only [Complex.sub_re, Complex.ofReal_re, Complex.star_def, Complex.conj_re]

/-- A face-centred supercell (symmetric, as are diagonal ones), and one that is not symmetric. -/
example : (matrixOf ⟨⟨-1, 1, 1⟩, ⟨1, -1, 1⟩, ⟨1, 1, -1⟩⟩).det ≠ 0 ∧ Symm ⟨⟨-1, 1, 1⟩, ⟨1, -1, 1⟩, ⟨1, 1, -1⟩⟩ ∧
    (matrixOf ⟨⟨1, 1, 0⟩, ⟨-1, 1, 0⟩, ⟨0, 0, 2⟩⟩).det ≠ 0 ∧ ¬ Symm ⟨⟨1, 1, 0⟩, ⟨-1, 1, 0⟩, ⟨0, 0, 2⟩⟩ := by
  refine ⟨?_, ⟨rfl, rfl, rfl⟩, ?_, fun h => by simp [Symm] at h⟩ <;>
  · rw [Matrix.det_fin_three]
    simp only [matrixOf, row, comp, Matrix.cons_val_zero, Matrix.cons_val_one, Matrix.cons_val]
    norm_num

/-- Two cells of one atom, with a crystal of the supercell as in the hypotheses. -/
noncomputable def exArgs : Args 2 1 where
  cv := ⟨⟨2, 0, 0⟩, ⟨0, 3, 0⟩, ⟨0, 0, 4⟩⟩
  r := fun _ => ⟨0, 0, 0⟩
  fc := fun _ _ _ => 1
  fcUnit := 97
  S := ⟨⟨2, 0, 0⟩, ⟨0, 1, 0⟩, ⟨0, 0, 1⟩⟩
  cells := ![⟨0, 0, 0⟩, ⟨1, 0, 0⟩]
  born := fun _ a b => if a = b then 1 else 0
  bornUnit := 1
  diel := 2
  dielUnit := 1

example : ∃ o, IsSupercell exArgs o := by
  refine ⟨⟨trueVecs exArgs.cv exArgs.S, fun k => ofComp (fun a => if a = 0 then (k : ℝ) / 2 else 0),
    fun _ a b => if a = b then 1 else 0, 2⟩, rfl, ?_, ?_, ?_⟩
  · intro k
    fin_cases k
    · simp [combine, trueVecs, truePos, exArgs, ofComp, Fin.divNat, Fin.modNat]
    · simp [combine, trueVecs, truePos, exArgs, ofComp, Fin.divNat, Fin.modNat]
  · intro k a b
    simp [exArgs]
  · simp [exArgs]

end Euphonic.TotalFc
