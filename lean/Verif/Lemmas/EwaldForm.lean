import Verif.Lemmas.Ewald
import Mathlib.LinearAlgebra.Matrix.NonsingularInverse
import Mathlib.Analysis.SpecialFunctions.Gaussian.GaussianIntegral
import Mathlib.MeasureTheory.Integral.IntervalIntegral.FundThmCalculus
import Mathlib.MeasureTheory.Integral.IntegralEqImproper

/-!
# Positive definite matrices as sums of squares; the complementary error function
-/

set_option autoImplicit false

namespace Euphonic.Poisson

open Matrix

/-- Three numbers as a vector. -/
def vec (x : ℝ × ℝ × ℝ) : Fin 3 → ℝ := ![x.1, x.2.1, x.2.2]

/-- A positive definite matrix. -/
theorem exists_form (S : Matrix (Fin 3) (Fin 3) ℝ) (hs : Sᵀ = S) (hp : ∀ v : Fin 3 → ℝ, v ≠ 0 → 0 < v ⬝ᵥ S *ᵥ v) :
    ∃ f : Form, (∀ x y, f.bil x y = vec x ⬝ᵥ S *ᵥ vec y) ∧ f.det = S.det := by
  have s10 : S 1 0 = S 0 1 := congrFun (congrFun hs 0) 1
  have s20 : S 2 0 = S 0 2 := congrFun (congrFun hs 0) 2
  have s21 : S 2 1 = S 1 2 := congrFun (congrFun hs 1) 2
  have expand : ∀ x y z : ℝ, ![x, y, z] ⬝ᵥ S *ᵥ ![x, y, z] = S 0 0 * x ^ 2 + S 1 1 * y ^ 2 + S 2 2 * z ^ 2 + 2 * S 0 1 * x * y +
      2 * S 0 2 * x * z + 2 * S 1 2 * y * z := by
    intro x y z
    simp only [dotProduct, mulVec, Fin.sum_univ_three, Matrix.cons_val_zero, Matrix.cons_val_one, Matrix.cons_val, s10, s20, s21]
    ring
  have h1 : 0 < S 0 0 := by
    have := hp ![1, 0, 0] (fun h => by simpa using congrFun h 0)
    rw [expand] at this
    linarith
  have h2 : 0 < S 1 1 - S 0 1 ^ 2 / S 0 0 := by
    have := hp ![-(S 0 1 / S 0 0), 1, 0] (fun h => by simpa using congrFun h 1)
    rw [expand] at this
    have e : S 1 1 - S 0 1 ^ 2 / S 0 0 = S 0 0 * (-(S 0 1 / S 0 0)) ^ 2 + S 1 1 * 1 ^ 2 + S 2 2 * 0 ^ 2 +
      2 * S 0 1 * -(S 0 1 / S 0 0) * 1 + 2 * S 0 2 * -(S 0 1 / S 0 0) * 0 + 2 * S 1 2 * 1 * 0 := by
      field_simp
      ring
    rw [e]
    exact this
  have h3 : 0 < S 2 2 - S 0 2 ^ 2 / S 0 0 - (S 1 1 - S 0 1 ^ 2 / S 0 0) *
      ((S 1 2 - S 0 1 * S 0 2 / S 0 0) / (S 1 1 - S 0 1 ^ 2 / S 0 0)) ^ 2 := by
    have := hp ![-(S 0 2 / S 0 0) + S 0 1 / S 0 0 * ((S 1 2 - S 0 1 * S 0 2 / S 0 0) / (S 1 1 - S 0 1 ^ 2 / S 0 0)),
      -((S 1 2 - S 0 1 * S 0 2 / S 0 0) / (S 1 1 - S 0 1 ^ 2 / S 0 0)), 1] (fun h => by simpa using congrFun h 2)
    rw [expand] at this
    set a2 := S 1 1 - S 0 1 ^ 2 / S 0 0 with ha2
    set t := S 1 2 - S 0 1 * S 0 2 / S 0 0 with ht
    have e11 : S 1 1 = a2 + S 0 1 ^ 2 / S 0 0 := by rw [ha2]; ring
    have e12 : S 1 2 = t + S 0 1 * S 0 2 / S 0 0 := by rw [ht]; ring
    rw [e11, e12] at this
    refine lt_of_lt_of_eq this ?_
    field_simp
    ring
  refine ⟨⟨S 0 0, S 1 1 - S 0 1 ^ 2 / S 0 0, S 2 2 - S 0 2 ^ 2 / S 0 0 - (S 1 1 - S 0 1 ^ 2 / S 0 0) *
      ((S 1 2 - S 0 1 * S 0 2 / S 0 0) / (S 1 1 - S 0 1 ^ 2 / S 0 0)) ^ 2, S 0 1 / S 0 0, S 0 2 / S 0 0,
      (S 1 2 - S 0 1 * S 0 2 / S 0 0) / (S 1 1 - S 0 1 ^ 2 / S 0 0), h1, h2, h3⟩, fun x y => ?_, ?_⟩
  · simp only [Form.bil, dotProduct, mulVec, vec, Fin.sum_univ_three, Matrix.cons_val_zero, Matrix.cons_val_one, Matrix.cons_val,
      s10, s20, s21]
    set a2 := S 1 1 - S 0 1 ^ 2 / S 0 0 with ha2
    set t := S 1 2 - S 0 1 * S 0 2 / S 0 0 with ht
    have e11 : S 1 1 = a2 + S 0 1 ^ 2 / S 0 0 := by rw [ha2]; ring
    have e12 : S 1 2 = t + S 0 1 * S 0 2 / S 0 0 := by rw [ht]; ring
    rw [e11, e12]
    field_simp
    ring
  · simp only [Form.det, Matrix.det_fin_three, s10, s20, s21]
    set a2 := S 1 1 - S 0 1 ^ 2 / S 0 0 with ha2
    set t := S 1 2 - S 0 1 * S 0 2 / S 0 0 with ht
    have e11 : S 1 1 = a2 + S 0 1 ^ 2 / S 0 0 := by rw [ha2]; ring
    have e12 : S 1 2 = t + S 0 1 * S 0 2 / S 0 0 := by rw [ht]; ring
    rw [e11, e12]
    field_simp
    ring

theorem Form.quad_pos (f : Form) {x : ℝ × ℝ × ℝ} (hx : x ≠ (0, 0, 0)) : 0 < f.quad x := by
  rcases (f.quad_nonneg x).eq_or_lt with h | h
  · exfalso
    apply hx
    rw [f.quad_eq] at h
    have p1 := f.p1
    have p2 := f.p2
    have p3 := f.p3
    have q1 : 0 ≤ f.a1 * (x.1 + f.u * x.2.1 + f.v * x.2.2) ^ 2 := by positivity
    have q2 : 0 ≤ f.a2 * (x.2.1 + f.w * x.2.2) ^ 2 := by positivity
    have q3 : 0 ≤ f.a3 * x.2.2 ^ 2 := by positivity
    have r3 : f.a3 * x.2.2 ^ 2 = 0 := by linarith
    have r2 : f.a2 * (x.2.1 + f.w * x.2.2) ^ 2 = 0 := by linarith
    have r1 : f.a1 * (x.1 + f.u * x.2.1 + f.v * x.2.2) ^ 2 = 0 := by linarith
    simp only [mul_eq_zero, p1.ne', p2.ne', p3.ne', false_or, pow_eq_zero_iff two_ne_zero] at r1 r2 r3
    rw [r3] at r1 r2
    rw [mul_zero, add_zero] at r2
    rw [r2] at r1
    rw [mul_zero, mul_zero, add_zero, add_zero] at r1
    exact Prod.ext r1 (Prod.ext r2 r3)
  · exact h

/-- The dual form is the form of the vector that represents the product. -/
theorem Form.dual_eq_quad (f : Form) {k y : ℝ × ℝ × ℝ} (h : ∀ x, f.bil y x = mul3 k x) : f.dual k = f.quad y := by
  have p1 := f.p1
  have p2 := f.p2
  have p3 := f.p3
  have h1 := h (1, 0, 0)
  have h2 := h (0, 1, 0)
  have h3 := h (0, 0, 1)
  simp only [Form.bil, mul3, mul_zero, mul_one, add_zero, zero_add] at h1 h2 h3
  rw [f.quad_eq, Form.dual, ← h1, ← h2, ← h3]
  field_simp
  ring

/-- One complementary error function. -/
noncomputable def erfc0 (y : ℝ) : ℝ := 1 - 2 / √Real.pi * ∫ t in (0 : ℝ)..y, Real.exp (-t ^ 2)

theorem isErfc_erfc0 : IsErfc erfc0 := by
  have hc : Continuous fun t : ℝ => Real.exp (-t ^ 2) := by fun_prop
  constructor
  · intro y
    have h := (hc.integral_hasStrictDerivAt 0 y).hasDerivAt
    refine ((h.const_mul (2 / √Real.pi)).const_sub 1).congr_deriv ?_
    ring
  · have hi : MeasureTheory.IntegrableOn (fun t : ℝ => Real.exp (-t ^ 2)) (Set.Ioi 0) := by
      have := (integrable_exp_neg_mul_sq (b := 1) one_pos).integrableOn (s := Set.Ioi 0)
      simpa using this
    have h := MeasureTheory.intervalIntegral_tendsto_integral_Ioi (0 : ℝ) hi Filter.tendsto_id
    have hg := integral_gaussian_Ioi 1
    simp only [div_one, neg_mul, one_mul] at hg
    rw [hg] at h
    have h2 := (h.const_mul (2 / √Real.pi)).const_sub 1
    have hp := Real.sqrt_pos.2 Real.pi_pos
    have e : 1 - 2 / √Real.pi * (√Real.pi / 2) = 0 := by
      field_simp
      norm_num
    rw [e] at h2
    exact h2

end Euphonic.Poisson
