import Verif.Lemmas.EwaldForm
import Verif.Props.DescribeDipole
import Verif.Props.DipoleCut

/-!
# C157: what the Ewald sums converge to does not depend on where they are cut in two

`dipole_parameter` moves weight between the sum over cells and the sum over reciprocal vectors.  Both series converge for every
value, and the corrections calculated from the complete series are the same for all values: what `dipole_parameter` changes in the
corrections that the code calculates are only terms left out.
-/

set_option autoImplicit false

namespace Euphonic.Dipole

open Euphonic.Lattice Euphonic.Phases Euphonic.Images Euphonic.DynMat Euphonic.Poisson
open Euphonic.Describe (hab_eq habOf sep recipTerm_swap realTerm_swap)

variable {n : Nat}

/-! ## Specification -/

/-- Physically sensible data: right-handed cell, symmetric positive definite dielectric tensor, and no two atoms at the same place. -/
structure Sound (o : Ions n) : Prop where
  volume_pos : 0 < cellVolume o.cv
  symm : o.diel.transpose = o.diel
  posDef : PosDef o
  apart : ∀ i j, i ≠ j → ∀ R : V3 ℤ, sub (o.r i) (o.r j) ≠ castV ℝ R

/-- The contribution of the reciprocal vector `G`. -/
noncomputable def recipAt (o : Ions n) (lam : ℝ) (q : V3 ℝ) (i j : Fin n) (a b : Fin 3) (G : V3 ℤ) : ℂ :=
  recipFactor o lam * ((kTerm o lam (add (toCart (recip o) (castV ℝ G)) (toCart (recip o) q)) a b : ℂ) *
    ((gPhase o G i * qPhase o q i) / (gPhase o G j * qPhase o q j)))

/-- The contribution of the cell `R`. -/
noncomputable def realAt (erfc : ℝ → ℝ) (o : Ions n) (lam : ℝ) (q : V3 ℝ) (i j : Fin n) (a b : Fin 3) (R : V3 ℤ) : ℂ :=
  realFactor o lam * (Complex.exp (2 * Complex.I * Real.pi * ((q.x * R.x + q.y * R.y + q.z * R.z : ℝ) : ℂ)) *
    (hab erfc o lam R i j a b : ℂ))

/-- The interaction of the sublattices of two atoms: all reciprocal vectors less all cells. -/
noncomputable def complete (erfc : ℝ → ℝ) (o : Ions n) (lam : ℝ) (q : V3 ℝ) (i j : Fin n) (a b : Fin 3) : ℂ :=
  ∑' G, recipAt o lam q i j a b G - ∑' R, realAt erfc o lam q i j a b R

/-- The correction that belongs to interactions `T q i j a b` of sublattices: charges times interactions, less the symmetrised
interaction at `q = 0` of each atom with all. -/
noncomputable def corrBy (o : Ions n) (T : V3 ℝ → Fin n → Fin n → Fin 3 → Fin 3 → ℂ) (q : V3 ℝ) (i j : Fin n) (a b : Fin 3) : ℂ :=
  (∑ c, ∑ d, (o.born i a c * o.born j b d : ℝ) * T q i j c d) -
    if i = j then 1 / 2 * ((∑ j, ∑ c, ∑ d, (o.born i a c * o.born j b d : ℝ) * T ⟨0, 0, 0⟩ i j c d) +
      ∑ j, ∑ c, ∑ d, (o.born i b c * o.born j a d : ℝ) * T ⟨0, 0, 0⟩ i j c d) else 0

/-- The correction calculated from complete series. -/
noncomputable def completeCorrection (erfc : ℝ → ℝ) (o : Ions n) (lam : ℝ) (q : V3 ℝ) : Mat n ℂ :=
  fun k l => corrBy o (complete erfc o lam) (rem q) k.divNat l.divNat k.modNat l.modNat

/-- The vectors the code adds up in the reciprocal sum. -/
noncomputable def usedG (o : Ions n) (lam : ℝ) (q : V3 ℝ) : List (V3 ℤ) :=
  if isGamma q then gvecs o lam else ⟨0, 0, 0⟩ :: gvecs o lam

/-- All that the code leaves out. -/
noncomputable def leftOut (erfc : ℝ → ℝ) (o : Ions n) (lam : ℝ) (q : V3 ℝ) (i j : Fin n) (a b : Fin 3) : ℂ :=
  ∑' G : {G // G ∉ usedG o lam q}, recipAt o lam q i j a b G - ∑' R : {R // R ∉ cells erfc o lam}, realAt erfc o lam q i j a b R

/-! ## The form -/

open scoped Matrix in
/-- Rows are the cell vectors. -/
def cellMat (cv : M3 ℝ) : Matrix (Fin 3) (Fin 3) ℝ := !![cv.a.x, cv.a.y, cv.a.z; cv.b.x, cv.b.y, cv.b.z; cv.c.x, cv.c.y, cv.c.z]

theorem det_cellMat (cv : M3 ℝ) : (cellMat cv).det = cellVolume cv := by
  rw [Matrix.det_fin_three]
  simp [cellMat, cellVolume, dot, cross]
  ring

/-- Three numbers of a vector. -/
def tri (v : V3 ℝ) : ℝ × ℝ × ℝ := (v.x, v.y, v.z)

open scoped Matrix in
theorem comp_toCart (cv : M3 ℝ) (v : V3 ℝ) (a : Fin 3) : comp (toCart cv v) a = (vec (tri v) ᵥ* cellMat cv) a := by
  fin_cases a <;> simp [comp, toCart, cellMat, vec, tri, Matrix.vecMul, dotProduct, Fin.sum_univ_three]

open scoped Matrix in
theorem vecMat_eq (v : V3 ℝ) (m : Matrix (Fin 3) (Fin 3) ℝ) (k : Fin 3) : vecMat v m k = ((comp v) ᵥ* m) k := rfl

open scoped Matrix in
theorem recip_mul (o : Ions n) (hv : cellVolume o.cv ≠ 0) : cellMat (recip o) * (cellMat o.cv)ᵀ = (2 * Real.pi) • (1 : Matrix (Fin 3) (Fin 3) ℝ) := by
  obtain ⟨⟨h1, h2, h3⟩, ⟨h4, h5, h6⟩, h7, h8, h9⟩ := C30_reciprocal_dual (2 * Real.pi) o.cv hv
  change dot o.cv.a (recip o).a = _ at h1
  change dot o.cv.a (recip o).b = _ at h2
  change dot o.cv.a (recip o).c = _ at h3
  change dot o.cv.b (recip o).a = _ at h4
  change dot o.cv.b (recip o).b = _ at h5
  change dot o.cv.b (recip o).c = _ at h6
  change dot o.cv.c (recip o).a = _ at h7
  change dot o.cv.c (recip o).b = _ at h8
  change dot o.cv.c (recip o).c = _ at h9
  simp only [dot] at h1 h2 h3 h4 h5 h6 h7 h8 h9
  ext i j
  rw [Matrix.mul_apply, Fin.sum_univ_three]
  fin_cases i <;> fin_cases j <;> simp [cellMat] <;> linarith

open scoped Matrix in
theorem recip_eq (o : Ions n) (hv : cellVolume o.cv ≠ 0) : cellMat (recip o) = (2 * Real.pi) • ((cellMat o.cv)⁻¹)ᵀ := by
  have h := recip_mul o hv
  have hu : IsUnit ((cellMat o.cv)ᵀ).det := by
    rw [Matrix.det_transpose, det_cellMat]
    exact hv.isUnit
  calc cellMat (recip o) = cellMat (recip o) * (cellMat o.cv)ᵀ * ((cellMat o.cv)ᵀ)⁻¹ := by
        rw [Matrix.mul_assoc, Matrix.mul_nonsing_inv _ hu, Matrix.mul_one]
    _ = _ := by rw [h, smul_mul_assoc, Matrix.one_mul, Matrix.transpose_nonsing_inv]

open scoped Matrix in
theorem posDef_dot {o : Ions n} (hp : PosDef o) {v : Fin 3 → ℝ} (hv : v ≠ 0) : 0 < v ⬝ᵥ o.diel *ᵥ v := by
  have h := hp ⟨v 0, v 1, v 2⟩ (fun e => hv (by
    obtain ⟨h0, h1, h2⟩ := V3.mk.inj e
    funext i
    fin_cases i
    · exact h0
    · exact h1
    · exact h2))
  refine lt_of_lt_of_eq h ?_
  simp only [comp, dotProduct, Matrix.mulVec, Fin.sum_univ_three, Matrix.cons_val_zero, Matrix.cons_val_one, Matrix.cons_val]
  ring

open scoped Matrix in
theorem Sound.unit {o : Ions n} (ho : Sound o) : IsUnit o.diel.det := by
  by_contra hc
  have h0 : o.diel.det = 0 := by
    by_contra hne
    exact hc (Ne.isUnit hne)
  obtain ⟨v, hv, he⟩ := Matrix.exists_mulVec_eq_zero_iff.2 h0
  have := posDef_dot ho.posDef hv
  rw [he, dotProduct_zero] at this
  exact lt_irrefl _ this

open scoped Matrix in
theorem Sound.inv_symm {o : Ions n} (ho : Sound o) : (o.diel⁻¹)ᵀ = o.diel⁻¹ := by
  rw [Matrix.transpose_nonsing_inv, ho.symm]

open scoped Matrix in
theorem Sound.inv_pos {o : Ions n} (ho : Sound o) {v : Fin 3 → ℝ} (hv : v ≠ 0) : 0 < v ⬝ᵥ o.diel⁻¹ *ᵥ v := by
  have hw : o.diel⁻¹ *ᵥ v ≠ 0 := by
    intro h
    apply hv
    have := congrArg (fun w => o.diel *ᵥ w) h
    simpa [Matrix.mulVec_mulVec, Matrix.mul_nonsing_inv _ ho.unit] using this
  have h := posDef_dot ho.posDef hw
  rw [Matrix.mulVec_mulVec, Matrix.mul_nonsing_inv _ ho.unit, Matrix.one_mulVec, dotProduct_comm] at h
  exact h

theorem Sound.unit_cell {o : Ions n} (ho : Sound o) : IsUnit (cellMat o.cv).det := by
  rw [det_cellMat]
  exact ho.volume_pos.ne'.isUnit

/-- Fractional coordinates of the unit vectors. -/
noncomputable def axisF (o : Ions n) (a : Fin 3) : ℝ × ℝ × ℝ := ((cellMat o.cv)⁻¹ a 0, (cellMat o.cv)⁻¹ a 1, (cellMat o.cv)⁻¹ a 2)

theorem vec_axisF (o : Ions n) (a : Fin 3) : vec (axisF o a) = (cellMat o.cv)⁻¹ a := by
  funext i
  fin_cases i <;> rfl

/-- The form of a crystal. -/
structure IsForm (o : Ions n) (f : Form) : Prop where
  bil : ∀ x y, f.bil x y = dotProduct (vec x) (Matrix.mulVec (cellMat o.cv * o.diel⁻¹ * (cellMat o.cv).transpose) (vec y))
  det : f.det = (cellVolume o.cv) ^ 2 / o.diel.det

open scoped Matrix in
theorem Sound.exists_form {o : Ions n} (ho : Sound o) : ∃ f : Form, IsForm o f := by
  obtain ⟨f, h1, h2⟩ := Poisson.exists_form (cellMat o.cv * o.diel⁻¹ * (cellMat o.cv)ᵀ)
    (by rw [Matrix.transpose_mul, Matrix.transpose_mul, Matrix.transpose_transpose, ho.inv_symm, Matrix.mul_assoc]) (fun v hv => by
      have hw : (cellMat o.cv)ᵀ *ᵥ v ≠ 0 := by
        intro h
        apply hv
        have hu : IsUnit ((cellMat o.cv)ᵀ).det := by
          rw [Matrix.det_transpose]
          exact ho.unit_cell
        have := congrArg (fun w => ((cellMat o.cv)ᵀ)⁻¹ *ᵥ w) h
        simpa [Matrix.mulVec_mulVec, Matrix.nonsing_inv_mul _ hu] using this
      have h := ho.inv_pos hw
      rw [← Matrix.mulVec_mulVec, ← Matrix.mulVec_mulVec, Matrix.dotProduct_mulVec v (cellMat o.cv), ← Matrix.mulVec_transpose]
      exact h)
  refine ⟨f, h1, ?_⟩
  rw [h2, Matrix.det_mul, Matrix.det_mul, Matrix.det_transpose, det_cellMat, Matrix.det_nonsing_inv, Ring.inverse_eq_inv']
  field_simp

section
variable {o : Ions n} {f : Form}

open scoped Matrix in
theorem IsForm.quad_eq (hf : IsForm o f) (v : V3 ℝ) :
    f.quad (tri v) = ∑ k, vecMat (toCart o.cv v) o.diel⁻¹ k * comp (toCart o.cv v) k := by
  have h := hf.bil (tri v) (tri v)
  rw [← Matrix.mulVec_mulVec, ← Matrix.mulVec_mulVec, Matrix.dotProduct_mulVec, Matrix.dotProduct_mulVec, Matrix.mulVec_transpose] at h
  rw [Form.quad, h]
  refine Finset.sum_congr rfl fun k _ => ?_
  rw [vecMat_eq, comp_toCart]
  congr 2
  funext a
  exact (comp_toCart _ _ _).symm

open scoped Matrix in
theorem IsForm.bil_axis (hf : IsForm o f) (ho : Sound o) (v : V3 ℝ) (a : Fin 3) :
    f.bil (tri v) (axisF o a) = vecMat (toCart o.cv v) o.diel⁻¹ a := by
  have h := hf.bil (tri v) (axisF o a)
  rw [← Matrix.mulVec_mulVec, ← Matrix.mulVec_mulVec, Matrix.dotProduct_mulVec, Matrix.dotProduct_mulVec] at h
  have e : (cellMat o.cv)ᵀ *ᵥ vec (axisF o a) = Pi.single a 1 := by
    rw [Matrix.mulVec_transpose, vec_axisF]
    have : (cellMat o.cv)⁻¹ * cellMat o.cv = 1 := Matrix.nonsing_inv_mul _ ho.unit_cell
    funext b
    have hb := congrFun (congrFun this a) b
    rw [Matrix.mul_apply] at hb
    rw [show ((cellMat o.cv)⁻¹ a ᵥ* cellMat o.cv) b = ∑ j, (cellMat o.cv)⁻¹ a j * cellMat o.cv j b from rfl, hb, Matrix.one_apply,
      Pi.single_apply]
    simp only [eq_comm]
  rw [e, dotProduct_single_one] at h
  rw [h, vecMat_eq]
  congr 2
  funext a
  exact (comp_toCart _ _ _).symm

open scoped Matrix in
theorem IsForm.bil_axes (hf : IsForm o f) (ho : Sound o) (a b : Fin 3) : f.bil (axisF o a) (axisF o b) = o.diel⁻¹ a b := by
  have h := hf.bil_axis ho ⟨(axisF o a).1, (axisF o a).2.1, (axisF o a).2.2⟩ b
  change f.bil (axisF o a) (axisF o b) = _ at h
  rw [h, vecMat_eq]
  have e : comp (toCart o.cv ⟨(axisF o a).1, (axisF o a).2.1, (axisF o a).2.2⟩) = Pi.single a 1 := by
    funext b
    rw [comp_toCart]
    change (vec (axisF o a) ᵥ* cellMat o.cv) b = _
    rw [vec_axisF]
    have : (cellMat o.cv)⁻¹ * cellMat o.cv = 1 := Matrix.nonsing_inv_mul _ ho.unit_cell
    have hb := congrFun (congrFun this a) b
    rw [Matrix.mul_apply] at hb
    rw [show ((cellMat o.cv)⁻¹ a ᵥ* cellMat o.cv) b = ∑ j, (cellMat o.cv)⁻¹ a j * cellMat o.cv j b from rfl, hb, Matrix.one_apply,
      Pi.single_apply]
    simp only [eq_comm]
  rw [e, Matrix.single_one_vecMul]
  rfl

open scoped Matrix in
theorem mul3_axis (ho : Sound o) (k : V3 ℝ) (a : Fin 3) : comp (toCart (recip o) k) a = 2 * Real.pi * mul3 (tri k) (axisF o a) := by
  rw [comp_toCart, recip_eq o ho.volume_pos.ne', Matrix.vecMul_smul]
  simp only [Pi.smul_apply, smul_eq_mul]
  congr 1
  simp only [Matrix.vecMul, dotProduct, Fin.sum_univ_three, mul3, tri, axisF, vec, Matrix.transpose_apply, Matrix.cons_val_zero,
    Matrix.cons_val_one, Matrix.cons_val]

open scoped Matrix in
theorem IsForm.dual_eq (hf : IsForm o f) (ho : Sound o) (k : V3 ℝ) : f.dual (tri k) =
    (∑ a, ∑ b, comp (toCart (recip o) k) a * comp (toCart (recip o) k) b * o.diel a b) / (4 * Real.pi ^ 2) := by
  set C := cellMat o.cv with hC
  set y := vec (tri k) ᵥ* ((C⁻¹)ᵀ * o.diel * C⁻¹) with hy
  have hCu : IsUnit C.det := ho.unit_cell
  have hCt : IsUnit (Cᵀ).det := by
    rw [Matrix.det_transpose]
    exact hCu
  have hvec : vec (y 0, y 1, y 2) = y := by
    funext i
    fin_cases i <;> rfl
  have hinv : ((C⁻¹)ᵀ * o.diel * C⁻¹) * (C * o.diel⁻¹ * Cᵀ) = 1 := by
    calc ((C⁻¹)ᵀ * o.diel * C⁻¹) * (C * o.diel⁻¹ * Cᵀ) = (C⁻¹)ᵀ * (o.diel * ((C⁻¹ * C) * o.diel⁻¹)) * Cᵀ := by
          simp only [Matrix.mul_assoc]
      _ = 1 := by
          rw [Matrix.nonsing_inv_mul _ hCu, Matrix.one_mul, Matrix.mul_nonsing_inv _ ho.unit, Matrix.mul_one, Matrix.transpose_nonsing_inv,
            Matrix.nonsing_inv_mul _ hCt]
  have hb : ∀ x, f.bil (y 0, y 1, y 2) x = mul3 (tri k) x := by
    intro x
    rw [hf.bil, hvec, Matrix.dotProduct_mulVec, hy, Matrix.vecMul_vecMul, hinv, Matrix.vecMul_one]
    simp [dotProduct, vec, mul3, Fin.sum_univ_three]
  rw [f.dual_eq_quad hb, Form.quad, hb]
  have hK : ∀ a, comp (toCart (recip o) k) a = 2 * Real.pi * (vec (tri k) ᵥ* (C⁻¹)ᵀ) a := by
    intro a
    rw [comp_toCart, recip_eq o ho.volume_pos.ne', Matrix.vecMul_smul]
    rfl
  simp only [hK]
  have e1 : mul3 (tri k) (y 0, y 1, y 2) = y ⬝ᵥ vec (tri k) := by
    simp only [dotProduct, vec, mul3, Fin.sum_univ_three, Matrix.cons_val_zero, Matrix.cons_val_one, Matrix.cons_val]
    ring
  rw [e1, hy, ← Matrix.vecMul_vecMul, ← Matrix.vecMul_vecMul, ← Matrix.dotProduct_mulVec, ← Matrix.vecMul_transpose]
  set w := vec (tri k) ᵥ* (C⁻¹)ᵀ with hw
  have hP := Real.pi_pos
  simp only [Matrix.vecMul, dotProduct, Fin.sum_univ_three]
  field_simp
  ring

/-! ## The terms -/

theorem toCart_add (m : M3 ℝ) (u v : V3 ℝ) : add (toCart m u) (toCart m v) = toCart m (add u v) := by
  simp only [add, toCart, V3.mk.injEq]
  refine ⟨?_, ?_, ?_⟩ <;> ring

/-- Triples of integers. -/
def triples : V3 ℤ ≃ ℤ × ℤ × ℤ where
  toFun v := (v.x, v.y, v.z)
  invFun t := ⟨t.1, t.2.1, t.2.2⟩
  left_inv _ := rfl
  right_inv _ := rfl

theorem at3_triples (R : V3 ℤ) (v : V3 ℝ) : at3 (triples R) (tri v) = tri (sub (castV ℝ R) v) := rfl

theorem add3_triples (G : V3 ℤ) (q : V3 ℝ) : add3 (triples G) (tri q) = tri (add (castV ℝ G) q) := rfl

theorem sep_eq' (o : Ions n) (R : V3 ℤ) (i j : Fin n) :
    sep o R i j = neg (toCart o.cv (sub (castV ℝ R) (sub (o.r i) (o.r j)))) := by
  simp only [sep, Lattice.sub, toCart, neg, castV, V3.mk.injEq]
  refine ⟨?_, ?_, ?_⟩ <;> ring

theorem cube_hab (erfc : ℝ → ℝ) (hf : IsForm o f) (ho : Sound o) {lam : ℝ} (hl : 0 < lam) (R : V3 ℤ) (i j : Fin n) (a b : Fin 3) :
    lam ^ 3 * hab erfc o lam R i j a b = hReal erfc f (axisF o a) (axisF o b) lam (at3 (triples R) (tri (sub (o.r i) (o.r j)))) := by
  rw [at3_triples, hab_eq]
  split
  · rename_i h
    obtain ⟨rfl, rfl⟩ := h
    have h0 : f.quad (tri (sub (castV ℝ ⟨0, 0, 0⟩) (sub (o.r i) (o.r i)))) = 0 := by
      simp [tri, Lattice.sub, castV, Form.quad, Form.bil]
    rw [hReal_zero h0, mul_zero]
  · rw [sep_eq', Describe.habOf_neg, habOf, ← hf.quad_eq, ← hf.bil_axis ho, ← hf.bil_axis ho, ← hf.bil_axes ho]
    unfold hReal
    generalize f.bil (axisF o a) (axisF o b) = Be
    generalize f.bil _ (axisF o a) = B1
    generalize f.bil _ (axisF o b) = B2
    rcases (f.quad_nonneg (tri (sub (castV ℝ R) (sub (o.r i) (o.r j))))).eq_or_lt with h | h
    · rw [← h]
      simp
    · generalize f.quad (tri (sub (castV ℝ R) (sub (o.r i) (o.r j)))) = Q at *
      rw [Real.sqrt_mul h.le, Real.sqrt_sq hl.le, mul_comm (√Q) lam, mul_comm Q (lam ^ 2), ← neg_mul]
      have hs := Real.sqrt_pos.2 h
      have hsq : √Q ^ 2 = Q := Real.sq_sqrt h.le
      have hp := Real.sqrt_pos.2 Real.pi_pos
      generalize erfc (lam * √Q) = c
      generalize Real.exp (-lam ^ 2 * Q) = E
      generalize √Q = s at *
      field_simp

theorem ph_eq (x : ℝ) : Complex.exp (2 * Complex.I * Real.pi * (x : ℂ)) = ph x := by
  unfold ph
  congr 1
  ring

theorem sqrt_det (hf : IsForm o f) (ho : Sound o) : √f.det = cellVolume o.cv / √o.diel.det := by
  rw [hf.det, Real.sqrt_div (by positivity), Real.sqrt_sq ho.volume_pos.le]

theorem det_pos (hf : IsForm o f) : 0 < o.diel.det := by
  have h := f.det_pos
  rw [hf.det] at h
  by_contra hc
  have : cellVolume o.cv ^ 2 / o.diel.det ≤ 0 := div_nonpos_of_nonneg_of_nonpos (by positivity) (not_lt.1 hc)
  linarith

theorem realAt_eq (erfc : ℝ → ℝ) (hf : IsForm o f) (ho : Sound o) {lam : ℝ} (hl : 0 < lam) (q : V3 ℝ) (i j : Fin n) (a b : Fin 3) (R : V3 ℤ) :
    realAt erfc o lam q i j a b R = (√f.det / cellVolume o.cv : ℝ) *
      tReal erfc f (tri q) (axisF o a) (axisF o b) (tri (sub (o.r i) (o.r j))) lam (triples R) := by
  unfold realAt tReal
  rw [← cube_hab erfc hf ho hl, sqrt_det hf ho, ph_eq]
  have hv := ho.volume_pos
  have hd := Real.sqrt_pos.2 (det_pos hf)
  have e1 : dot3 (triples R) (tri q) = q.x * R.x + q.y * R.y + q.z * R.z := by
    simp only [dot3, triples, tri, Equiv.coe_fn_mk]
    ring
  have e2 : cellVolume o.cv / √o.diel.det / cellVolume o.cv = 1 / √o.diel.det := by
    field_simp
  rw [e1, e2]
  unfold realFactor
  push_cast
  ring

theorem recip_kTerm (hf : IsForm o f) (ho : Sound o) {lam : ℝ} (hl : 0 < lam) (k : V3 ℝ) (a b : Fin 3) :
    recipFactor o lam * kTerm o lam (toCart (recip o) k) a b =
      4 * Real.pi / cellVolume o.cv * hRecip f (axisF o a) (axisF o b) lam (tri k) := by
  unfold kTerm recipFactor hRecip
  dsimp only
  have hP := Real.pi_pos
  have hv := ho.volume_pos
  have hd := hf.dual_eq ho k
  have hs : ∑ a, ∑ b, comp (toCart (recip o) k) a * comp (toCart (recip o) k) b * o.diel a b = 4 * Real.pi ^ 2 * f.dual (tri k) := by
    rw [hd]
    field_simp
  rw [hs, mul3_axis ho k a, mul3_axis ho k b, volume]
  by_cases h0 : f.dual (tri k) = 0
  · rw [h0]
    simp
  · rw [show 4 * Real.pi ^ 2 * f.dual (tri k) / (4 * lam ^ 2) = Real.pi ^ 2 / lam ^ 2 * f.dual (tri k) by field_simp, ← neg_mul]
    generalize Real.exp _ = E
    generalize f.dual (tri k) = P at *
    field_simp
    ring

theorem recipAt_eq (hf : IsForm o f) (ho : Sound o) {lam : ℝ} (hl : 0 < lam) (q : V3 ℝ) (i j : Fin n) (a b : Fin 3) (G : V3 ℤ) :
    recipAt o lam q i j a b G = (4 * Real.pi / cellVolume o.cv : ℝ) *
      tRecip f (tri q) (axisF o a) (axisF o b) (tri (sub (o.r i) (o.r j))) lam (triples G) := by
  unfold recipAt tRecip
  rw [toCart_add, add3_triples]
  have hph : (gPhase o G i * qPhase o q i) / (gPhase o G j * qPhase o q j) = ph (mul3 (tri (add (castV ℝ G) q)) (tri (sub (o.r i) (o.r j)))) := by
    unfold gPhase qPhase
    rw [ph_eq, ph_eq, ph_eq, ph_eq, ← ph_add, ← ph_add]
    rw [div_eq_iff (show ph _ ≠ 0 from Complex.exp_ne_zero _), ← ph_add]
    congr 1
    simp only [mul3, tri, add, castV, Lattice.sub]
    ring
  rw [hph, ← mul_assoc, ← Complex.ofReal_mul, recip_kTerm hf ho hl]
  push_cast
  ring

theorem complete_eq (erfc : ℝ → ℝ) (hf : IsForm o f) (ho : Sound o) {lam : ℝ} (hl : 0 < lam) (q : V3 ℝ) (i j : Fin n) (a b : Fin 3) :
    complete erfc o lam q i j a b = (1 / cellVolume o.cv : ℝ) *
      ewald erfc f (tri q) (axisF o a) (axisF o b) (tri (sub (o.r i) (o.r j))) lam := by
  unfold complete ewald
  rw [tsum_congr (recipAt_eq hf ho hl q i j a b), tsum_congr (realAt_eq erfc hf ho hl q i j a b), tsum_mul_left, tsum_mul_left,
    Equiv.tsum_eq triples (fun z => tRecip f (tri q) (axisF o a) (axisF o b) (tri (sub (o.r i) (o.r j))) lam z),
    Equiv.tsum_eq triples (fun z => tReal erfc f (tri q) (axisF o a) (axisF o b) (tri (sub (o.r i) (o.r j))) lam z)]
  push_cast
  ring

theorem summable_recipAt (ho : Sound o) {lam : ℝ} (hl : 0 < lam) (q : V3 ℝ) (i j : Fin n) (a b : Fin 3) :
    Summable (recipAt o lam q i j a b) := by
  obtain ⟨f, hf⟩ := ho.exists_form
  refine Summable.congr ?_ fun G => (recipAt_eq hf ho hl q i j a b G).symm
  exact ((Equiv.summable_iff triples).2 (summable_tRecip f (tri q) (axisF o a) (axisF o b) (tri (sub (o.r i) (o.r j))) hl)).mul_left _

theorem summable_realAt {erfc : ℝ → ℝ} (he : IsErfc erfc) (ho : Sound o) {lam : ℝ} (hl : 0 < lam) (q : V3 ℝ) (i j : Fin n) (a b : Fin 3) :
    Summable (realAt erfc o lam q i j a b) := by
  obtain ⟨f, hf⟩ := ho.exists_form
  refine Summable.congr ?_ fun G => (realAt_eq erfc hf ho hl q i j a b G).symm
  exact ((Equiv.summable_iff triples).2 (summable_tReal he f (tri q) (axisF o a) (axisF o b) (tri (sub (o.r i) (o.r j))) hl)).mul_left _

theorem selfPhase_other (f : Form) (ho : Sound o) (q : V3 ℝ) {i j : Fin n} (hij : i ≠ j) :
    selfPhase f (tri q) (tri (sub (o.r i) (o.r j))) = 0 := by
  unfold selfPhase
  refine (tsum_congr fun m => if_neg fun h => ?_).trans tsum_zero
  have hne : at3 m (tri (sub (o.r i) (o.r j))) ≠ (0, 0, 0) := by
    intro h0
    refine ho.apart i j hij (triples.symm m) ?_
    simp only [at3, tri, Prod.mk.injEq] at h0
    obtain ⟨h1, h2, h3⟩ := h0
    rw [show castV ℝ (triples.symm m) = ⟨m.1, m.2.1, m.2.2⟩ from rfl]
    cases hs : sub (o.r i) (o.r j)
    rw [hs] at h1 h2 h3
    simp only at h1 h2 h3
    simp only [V3.mk.injEq]
    refine ⟨?_, ?_, ?_⟩ <;> linarith
  exact (f.quad_pos hne).ne' h

theorem selfPhase_same (o : Ions n) (f : Form) (q : V3 ℝ) (i : Fin n) :
    selfPhase f (tri q) (tri (sub (o.r i) (o.r i))) = 1 := by
  unfold selfPhase
  have h0 : tri (sub (o.r i) (o.r i)) = (0, 0, 0) := by simp [tri, Lattice.sub]
  rw [h0, tsum_eq_single (0, 0, 0)]
  · rw [if_pos (by simp [at3, Form.quad, Form.bil])]
    simp [dot3, ph]
  · intro m hm
    refine if_neg (f.quad_pos fun h => hm ?_).ne'
    simp only [at3, sub_zero, Prod.mk.injEq, Int.cast_eq_zero] at h
    exact Prod.ext h.1 (Prod.ext h.2.1 h.2.2)

end

/-! ## Theorems -/

/-- **C157.** Both series converge absolutely, for every q-point, every pair of atoms and every way to divide the sum. -/
theorem C157_converge {erfc : ℝ → ℝ} (he : IsErfc erfc) {o : Ions n} (ho : Sound o) {lam : ℝ} (hl : 0 < lam) (q : V3 ℝ) (i j : Fin n)
    (a b : Fin 3) : (Summable fun G => ‖recipAt o lam q i j a b G‖) ∧ Summable fun R => ‖realAt erfc o lam q i j a b R‖ :=
  ⟨(summable_recipAt ho hl q i j a b).norm, (summable_realAt he ho hl q i j a b).norm⟩

/-- **C157.** For two different atoms what the series converge to does not depend on `lam` at all. -/
theorem C157_other {erfc : ℝ → ℝ} (he : IsErfc erfc) {o : Ions n} (ho : Sound o) {lam lam' : ℝ} (hl : 0 < lam) (hl' : 0 < lam')
    (q : V3 ℝ) {i j : Fin n} (hij : i ≠ j) (a b : Fin 3) :
    complete erfc o lam q i j a b = complete erfc o lam' q i j a b := by
  obtain ⟨f, hf⟩ := ho.exists_form
  have h := ewald_const he f (tri q) (axisF o a) (axisF o b) (tri (sub (o.r i) (o.r j))) hl hl'
  rw [selfPhase_other f ho q hij, mul_zero, mul_zero, sub_zero, sub_zero] at h
  rw [complete_eq erfc hf ho hl, complete_eq erfc hf ho hl', h]

/-- **C157.** For one atom it depends on `lam` by a multiple of the inverse dielectric tensor that is the same for all q-points
(the interaction of the atom with itself, which is not part of the series). -/
theorem C157_same {erfc : ℝ → ℝ} (he : IsErfc erfc) {o : Ions n} (ho : Sound o) {lam lam' : ℝ} (hl : 0 < lam) (hl' : 0 < lam')
    (q : V3 ℝ) (i : Fin n) (a b : Fin 3) :
    complete erfc o lam q i i a b = complete erfc o lam' q i i a b +
      (4 / (3 * √(Real.pi * o.diel.det)) * (lam ^ 3 - lam' ^ 3) * o.diel⁻¹ a b : ℝ) := by
  obtain ⟨f, hf⟩ := ho.exists_form
  have h := ewald_const he f (tri q) (axisF o a) (axisF o b) (tri (sub (o.r i) (o.r i))) hl hl'
  rw [selfPhase_same, mul_one, mul_one, hf.bil_axes ho] at h
  rw [complete_eq erfc hf ho hl, complete_eq erfc hf ho hl', sub_eq_iff_eq_add.1 h, sqrt_det hf ho,
    Real.sqrt_mul Real.pi_pos.le]
  have hv := ho.volume_pos
  have hd := Real.sqrt_pos.2 (det_pos hf)
  have hp := Real.sqrt_pos.2 Real.pi_pos
  have hv' : ((cellVolume o.cv : ℝ) : ℂ) ≠ 0 := by exact_mod_cast hv.ne'
  have hd' : ((√o.diel.det : ℝ) : ℂ) ≠ 0 := by exact_mod_cast hd.ne'
  have hp' : ((√Real.pi : ℝ) : ℂ) ≠ 0 := by exact_mod_cast hp.ne'
  push_cast
  field_simp
  ring

/-- **C157.** The correction calculated from complete series is the same for every positive `dipole_parameter`. -/
theorem C157_parameter {erfc : ℝ → ℝ} (he : IsErfc erfc) {o : Ions n} (ho : Sound o) {lam lam' : ℝ} (hl : 0 < lam) (hl' : 0 < lam') :
    completeCorrection erfc o lam = completeCorrection erfc o lam' := by
  funext q k l
  unfold completeCorrection corrBy
  generalize rem q = q
  generalize k.divNat = i
  generalize l.divNat = j
  generalize k.modNat = a
  generalize l.modNat = b
  by_cases hij : i = j
  · subst hij
    rw [if_pos rfl, if_pos rfl]
    set κ := 4 / (3 * √(Real.pi * o.diel.det)) * (lam ^ 3 - lam' ^ 3) with hκ
    have hsum : ∀ (q : V3 ℝ) (a b : Fin 3), (∑ c, ∑ d, (o.born i a c * o.born i b d : ℝ) * complete erfc o lam q i i c d) =
        (∑ c, ∑ d, (o.born i a c * o.born i b d : ℝ) * complete erfc o lam' q i i c d) +
          ∑ c, ∑ d, ((o.born i a c * o.born i b d * (κ * o.diel⁻¹ c d) : ℝ) : ℂ) := by
      intro q a b
      rw [← Finset.sum_add_distrib]
      refine Finset.sum_congr rfl fun c _ => ?_
      rw [← Finset.sum_add_distrib]
      refine Finset.sum_congr rfl fun d _ => ?_
      rw [C157_same he ho hl hl' q i c d, ← hκ]
      push_cast
      ring
    have hall : ∀ a b : Fin 3, (∑ j, ∑ c, ∑ d, (o.born i a c * o.born j b d : ℝ) * complete erfc o lam ⟨0, 0, 0⟩ i j c d) =
        (∑ j, ∑ c, ∑ d, (o.born i a c * o.born j b d : ℝ) * complete erfc o lam' ⟨0, 0, 0⟩ i j c d) +
          ∑ c, ∑ d, ((o.born i a c * o.born i b d * (κ * o.diel⁻¹ c d) : ℝ) : ℂ) := by
      intro a b
      rw [← Finset.add_sum_erase _ _ (Finset.mem_univ i), ← Finset.add_sum_erase Finset.univ
        (fun j => ∑ c, ∑ d, (o.born i a c * o.born j b d : ℝ) * complete erfc o lam' ⟨0, 0, 0⟩ i j c d) (Finset.mem_univ i), hsum]
      rw [add_right_comm]
      congr 1
      congr 1
      refine Finset.sum_congr rfl fun j hj => ?_
      refine Finset.sum_congr rfl fun c _ => Finset.sum_congr rfl fun d _ => ?_
      rw [C157_other he ho hl hl' _ (Finset.ne_of_mem_erase hj).symm]
    have hswap : (∑ c, ∑ d, ((o.born i b c * o.born i a d * (κ * o.diel⁻¹ c d) : ℝ) : ℂ)) =
        ∑ c, ∑ d, ((o.born i a c * o.born i b d * (κ * o.diel⁻¹ c d) : ℝ) : ℂ) := by
      rw [Finset.sum_comm]
      refine Finset.sum_congr rfl fun c _ => Finset.sum_congr rfl fun d _ => ?_
      have : o.diel⁻¹ d c = o.diel⁻¹ c d := congrFun (congrFun ho.inv_symm c) d
      rw [this]
      congr 1
      ring
    rw [hsum, hall, hall, hswap]
    ring
  · rw [if_neg hij, if_neg hij]
    congr 1
    refine Finset.sum_congr rfl fun c _ => Finset.sum_congr rfl fun d _ => ?_
    rw [C157_other he ho hl hl' _ hij]

theorem fill_of_swap {u : Fin n → Fin n → Fin 3 → Fin 3 → ℂ} (h : ∀ i j a b, u j i a b = star (u i j a b)) (i j : Fin n) (a b : Fin 3) :
    fill u i j a b = u i j a b := by
  unfold fill
  split
  · rfl
  · rw [h j i]

/-- The interactions the code calculates. -/
theorem corrAt_eq (erfc : ℝ → ℝ) (o : Ions n) (lam : ℝ) (q : V3 ℝ) (i j : Fin n) (a b : Fin 3) :
    corrAt erfc o lam q i j a b = corrBy o (fun q i j a b => recipTerm o lam q i j a b - realTerm erfc o lam q i j a b) q i j a b := by
  unfold corrAt corrBy q0 q0Raw
  simp only [← terms_zero, fill_of_swap (recipTerm_swap o lam _), fill_of_swap (realTerm_swap erfc o lam _)]

theorem list_sum_eq (l : List (V3 ℤ)) (hl : l.Nodup) {g : V3 ℤ → ℂ} (hg : Summable g) :
    (l.map g).sum = ∑' G, g G - ∑' G : {G // G ∉ l}, g G := by
  classical
  have h := hg.sum_add_tsum_subtype_compl l.toFinset
  have e : ∑ x ∈ l.toFinset, g x = (l.map g).sum := List.sum_toFinset g hl
  rw [← h, e]
  have e2 : ∑' x : {x // x ∉ l.toFinset}, g x = ∑' G : {G // G ∉ l}, g G := by
    refine (Equiv.tsum_eq (Equiv.subtypeEquivRight (p := fun x => x ∉ l) (q := fun x => x ∉ l.toFinset)
      fun x => by simp) (fun x => g x)).symm.trans ?_
    rfl
  rw [e2]
  ring

theorem terms_eq {erfc : ℝ → ℝ} (he : IsErfc erfc) {o : Ions n} (ho : Sound o) {lam : ℝ} (hl : 0 < lam) (q : V3 ℝ) (i j : Fin n)
    (a b : Fin 3) : recipTerm o lam q i j a b - realTerm erfc o lam q i j a b = complete erfc o lam q i j a b - leftOut erfc o lam q i j a b := by
  have h1 : recipTerm o lam q i j a b = ((usedG o lam q).map (recipAt o lam q i j a b)).sum := by
    unfold recipTerm recipAt usedG
    rw [List.sum_map_mul_left]
  have h2 : realTerm erfc o lam q i j a b = ((cells erfc o lam).map (realAt erfc o lam q i j a b)).sum := by
    unfold realTerm realAt
    rw [List.sum_map_mul_left]
  have hn : (usedG o lam q).Nodup := by
    unfold usedG
    split
    · exact (negClosed_gvecs o lam).1
    · exact List.nodup_cons.2 ⟨zero_notMem_gvecs o lam, (negClosed_gvecs o lam).1⟩
  rw [h1, h2, list_sum_eq _ hn (summable_recipAt ho hl q i j a b),
    list_sum_eq _ (negClosed_cells erfc o lam).1 (summable_realAt he ho hl q i j a b)]
  unfold complete leftOut
  ring

/-- **C157.** What the code calculates is the complete correction less the correction that belongs to what it leaves out. -/
theorem C157_left_out {erfc : ℝ → ℝ} (he : IsErfc erfc) {o : Ions n} (ho : Sound o) {lam : ℝ} (hl : 0 < lam) (q : V3 ℝ) (k l : Fin (n * 3)) :
    dipoleCorrection erfc o lam q k l = completeCorrection erfc o lam q k l -
      corrBy o (leftOut erfc o lam) (rem q) k.divNat l.divNat k.modNat l.modNat := by
  unfold dipoleCorrection completeCorrection
  rw [corrAt_eq]
  simp only [terms_eq he ho hl]
  unfold corrBy
  simp only [mul_sub, Finset.sum_sub_distrib]
  split
  · ring
  · ring

theorem upperLambda_pos {o : Ions n} (ho : Sound o) (hn : n ≠ 0) {p : ℝ} (hp : 0 < p) : 0 < upperLambda o p := by
  obtain ⟨f, hf⟩ := ho.exists_form
  have hd := det_pos hf
  have hlen : ∀ v : V3 ℝ, dot v v ≠ 0 → 0 < √(dot v v) := by
    intro v hv
    refine Real.sqrt_pos.2 (lt_of_le_of_ne ?_ (Ne.symm hv))
    unfold dot
    nlinarith [mul_self_nonneg v.x, mul_self_nonneg v.y, mul_self_nonneg v.z]
  have hz : ∀ v : V3 ℝ, dot v v = 0 → v.x = 0 ∧ v.y = 0 ∧ v.z = 0 := by
    intro v hv
    unfold dot at hv
    have h1 := mul_self_nonneg v.x
    have h2 := mul_self_nonneg v.y
    have h3 := mul_self_nonneg v.z
    exact ⟨mul_self_eq_zero.1 (by linarith), mul_self_eq_zero.1 (by linarith), mul_self_eq_zero.1 (by linarith)⟩
  have hV := ho.volume_pos
  have ha : 0 < √(dot o.cv.a o.cv.a) := hlen _ fun h => by
    obtain ⟨h1, h2, h3⟩ := hz _ h
    simp [cellVolume, dot, h1, h2, h3] at hV
  have hb : 0 < √(dot o.cv.b o.cv.b) := hlen _ fun h => by
    obtain ⟨h1, h2, h3⟩ := hz _ h
    simp [cellVolume, dot, cross, h1, h2, h3] at hV
  have hc : 0 < √(dot o.cv.c o.cv.c) := hlen _ fun h => by
    obtain ⟨h1, h2, h3⟩ := hz _ h
    simp [cellVolume, dot, cross, h1, h2, h3] at hV
  have hn' : (0 : ℝ) < n := by exact_mod_cast Nat.pos_of_ne_zero hn
  have := Real.pi_pos
  unfold upperLambda
  positivity

/-- **C157.** Two values of `dipole_parameter` give corrections that differ by what is left out only. -/
theorem C157_two_parameters {erfc : ℝ → ℝ} (he : IsErfc erfc) {o : Ions n} (ho : Sound o) (hn : n ≠ 0) {p p' : ℝ} (hp : 0 < p)
    (hp' : 0 < p') (q : V3 ℝ) (k l : Fin (n * 3)) :
    dipoleCorrection erfc o (upperLambda o p) q k l - dipoleCorrection erfc o (upperLambda o p') q k l =
      corrBy o (leftOut erfc o (upperLambda o p')) (rem q) k.divNat l.divNat k.modNat l.modNat -
        corrBy o (leftOut erfc o (upperLambda o p)) (rem q) k.divNat l.divNat k.modNat l.modNat := by
  rw [C157_left_out he ho (upperLambda_pos ho hn hp), C157_left_out he ho (upperLambda_pos ho hn hp'),
    C157_parameter he ho (upperLambda_pos ho hn hp) (upperLambda_pos ho hn hp')]
  ring

/-! ## A case -/

theorem exPolar_sound : Sound exPolar where
  volume_pos := by simp [exPolar, cellVolume, dot, cross]
  symm := by
    ext i j
    fin_cases i <;> fin_cases j <;> simp [exPolar, Matrix.ofNat_apply]
  posDef := exPolar_posDef
  apart := by
    have half : ∀ z : ℤ, (z : ℝ) ≠ 1 / 2 ∧ (z : ℝ) ≠ -(1 / 2) := by
      intro z
      constructor
      · intro h
        have : (2 * z : ℝ) = 1 := by linarith
        have : 2 * z = 1 := by exact_mod_cast this
        omega
      · intro h
        have : (2 * z : ℝ) = -1 := by linarith
        have : 2 * z = -1 := by exact_mod_cast this
        omega
    intro i j hij R h
    have h1 := congrArg V3.x h
    fin_cases i <;> fin_cases j <;> simp [exPolar, Lattice.sub, castV] at h1 hij
    · exact (half R.x).2 (by linarith)
    · exact (half R.x).1 (by linarith)

/-- Two opposite charges: the complete correction is the same for `lam = 1` and `lam = 2`. -/
example : completeCorrection erfc0 exPolar 1 = completeCorrection erfc0 exPolar 2 :=
  C157_parameter isErfc_erfc0 exPolar_sound one_pos two_pos

example (q : V3 ℝ) (k l : Fin (2 * 3)) :
    dipoleCorrection erfc0 exPolar (upperLambda exPolar 1) q k l - dipoleCorrection erfc0 exPolar (upperLambda exPolar (1 / 4)) q k l =
      corrBy exPolar (leftOut erfc0 exPolar (upperLambda exPolar (1 / 4))) (rem q) k.divNat l.divNat k.modNat l.modNat -
        corrBy exPolar (leftOut erfc0 exPolar (upperLambda exPolar 1)) (rem q) k.divNat l.divNat k.modNat l.modNat :=
  C157_two_parameters isErfc_erfc0 exPolar_sound (by norm_num) one_pos (by norm_num) q k l

end Euphonic.Dipole
