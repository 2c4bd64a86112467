import Verif.Lemmas.CExt
import Verif.Lemmas.Rint
import Verif.Props.CDynMat
import Mathlib.LinearAlgebra.Matrix.Determinant.Basic
import Mathlib.Analysis.Matrix.PosDef

/-! # C53: helper functions of the C extension -/

set_option autoImplicit false

namespace Euphonic.CExt

open Euphonic.Lattice Euphonic.Phases

/-- Nine consecutive doubles holding a matrix in row-major order. -/
def HoldsMat (m : Mem) (M : Matrix (Fin 3) (Fin 3) ℝ) : Prop := ∀ a b : Fin 3, m (a * 3 + b) = M a b

/-- The same for three row vectors. -/
def HoldsM3 (m : Mem) (M : M3 ℝ) : Prop :=
  ∀ b : Fin 3, m b = comp M.a b ∧ m (3 + b) = comp M.b b ∧ m (6 + b) = comp M.c b

/-- **C53.** `cell_volume` is the volume that Python computes, the triple product of the cell vectors. -/
theorem C53_cell_volume (m : Mem) (cv : M3 ℝ) (h : HoldsM3 m cv) : cCellVolume m = cellVolume cv := by
  have h0 := h 0
  have h1 := h 1
  have h2 := h 2
  simp only [Fin.val_zero, Fin.val_one, Fin.val_two, comp, Nat.reduceAdd, Matrix.cons_val_zero,
    Matrix.cons_val_one, Matrix.cons_val] at h0 h1 h2
  unfold cCellVolume cellVolume dot cross
  rw [loop_three]
  simp only [if_true, if_false, one_ne_zero, OfNat.ofNat_ne_zero, OfNat.ofNat_ne_one]
  rw [h0.1, h0.2.1, h0.2.2, h1.1, h1.2.1, h1.2.2, h2.1, h2.2.1, h2.2.2]
  ring

/-- **C53.** `cmult` and `cmult_conj` are the products of complex numbers `z w` and `z conj(w)`. -/
theorem C53_complex (z w : ℂ) :
    cmult (z.re, z.im) (w.re, w.im) = ((z * w).re, (z * w).im)
    ∧ cmultConj (z.re, z.im) (w.re, w.im) = ((z * star w).re, (z * star w).im) := by
  refine ⟨?_, ?_⟩
  · simp [cmult, Complex.mul_re, Complex.mul_im]
  · simp [cmultConj, Complex.mul_re, Complex.mul_im]

/-- **C53, partial.** `det_array` is the determinant exactly for the matrices whose second element of the
first row, or its minor, vanishes; the sign of that term is wrong. -/
theorem C53_det_partial (m : Mem) (M : Matrix (Fin 3) (Fin 3) ℝ) (h : HoldsMat m M) :
    detArray m = M.det ↔ M 0 1 * (M 1 0 * M 2 2 - M 1 2 * M 2 0) = 0 := by
  have e : detArray m = M.det + 2 * (M 0 1 * (M 1 0 * M 2 2 - M 1 2 * M 2 0)) := by
    have h0 := h 0 0
    have h1 := h 0 1
    have h2 := h 0 2
    have h3 := h 1 0
    have h4 := h 1 1
    have h5 := h 1 2
    have h6 := h 2 0
    have h7 := h 2 1
    have h8 := h 2 2
    simp only [Fin.val_zero, Fin.val_one, Fin.val_two, Nat.reduceAdd, Nat.reduceMul] at *
    rw [Matrix.det_fin_three]
    unfold detArray
    rw [h0, h1, h2, h3, h4, h5, h6, h7, h8]
    ring
  rw [e]
  constructor
  · intro h'; linarith
  · intro h'; rw [h']; ring

/-- A symmetric positive definite tensor as nine doubles. -/
def tensor : Mem := fun k => [2, 1, 0, 1, 2, 0, 0, 0, 1].getD k 0

/-- **C53, violation.** A symmetric positive definite dielectric tensor for which `det_array` gives 5
instead of 3. -/
theorem C53_det_wrong :
    let M : Matrix (Fin 3) (Fin 3) ℝ := !![2, 1, 0; 1, 2, 0; 0, 0, 1]
    HoldsMat tensor M ∧ M.transpose = M ∧ (∀ v : Fin 3 → ℝ, v ≠ 0 → 0 < ∑ a, ∑ b, v a * M a b * v b)
      ∧ M.det = 3 ∧ detArray tensor = 5 := by
  intro M
  refine ⟨?_, ?_, ?_, ?_, ?_⟩
  · intro a b
    fin_cases a <;> fin_cases b <;> simp [tensor, M]
  · ext a b
    fin_cases a <;> fin_cases b <;> rfl
  · intro v hv
    have e : ∑ a, ∑ b, v a * M a b * v b = v 0 ^ 2 + v 1 ^ 2 + (v 0 + v 1) ^ 2 + v 2 ^ 2 := by
      simp [M, Fin.sum_univ_three]
      ring
    rw [e]
    by_contra hle
    have h0 : v 0 ^ 2 = 0 := by nlinarith [sq_nonneg (v 0), sq_nonneg (v 1), sq_nonneg (v 0 + v 1), sq_nonneg (v 2)]
    have h1 : v 1 ^ 2 = 0 := by nlinarith [sq_nonneg (v 0), sq_nonneg (v 1), sq_nonneg (v 0 + v 1), sq_nonneg (v 2)]
    have h2 : v 2 ^ 2 = 0 := by nlinarith [sq_nonneg (v 0), sq_nonneg (v 1), sq_nonneg (v 0 + v 1), sq_nonneg (v 2)]
    apply hv
    funext a
    fin_cases a
    · exact pow_eq_zero_iff (two_ne_zero) |>.1 h0
    · exact pow_eq_zero_iff (two_ne_zero) |>.1 h1
    · exact pow_eq_zero_iff (two_ne_zero) |>.1 h2
  · simp [M, Matrix.det_fin_three]
    norm_num
  · norm_num [detArray, tensor]

/-- For a diagonal tensor, such as those of the test data, the value is right. -/
example : detArray (fun k => [2, 0, 0, 0, 3, 0, 0, 0, 5].getD k 0) = 30 := by
  norm_num [detArray]

/-! ## Rounding -/

theorem cround_eq (x : ℝ) : ∃ m : ℤ, cround x = m ∧ |x - m| ≤ 1 / 2 := by
  unfold cround
  split
  · refine ⟨⌊x + 1 / 2⌋, rfl, ?_⟩
    have h1 := Int.floor_le (x + 1 / 2)
    have h2 := Int.lt_floor_add_one (x + 1 / 2)
    rw [abs_le]; constructor <;> linarith
  · refine ⟨-⌊-x + 1 / 2⌋, by push_cast; rfl, ?_⟩
    have h1 := Int.floor_le (-x + 1 / 2)
    have h2 := Int.lt_floor_add_one (-x + 1 / 2)
    push_cast
    rw [abs_le]; constructor <;> linarith

/-- **C53.** `round` and `np.rint` differ at most where the fractional part is one half, and the distance
to the nearest integer is always the same. -/
theorem C53_round (x : ℝ) :
    |x - cround x| = |x - rint x| ∧ (|x - rint x| ≠ 1 / 2 → cround x = rint x) := by
  obtain ⟨m, hm, hle⟩ := cround_eq x
  rw [hm]
  have h1 := abs_sub_rint_le_abs_sub x m
  have key : |x - (m : ℝ)| ≤ |x - rint x| := by
    by_cases h : m = rint x
    · rw [h]
    · have h2 : (1 : ℝ) ≤ |((m - rint x : ℤ) : ℝ)| := by
        have : (1 : ℤ) ≤ |m - rint x| := Int.one_le_abs (sub_ne_zero.2 h)
        exact_mod_cast this
      have h3 : |((m - rint x : ℤ) : ℝ)| ≤ |x - (m : ℝ)| + |x - rint x| := by
        push_cast
        have : (m : ℝ) - rint x = -(x - m) + (x - rint x) := by ring
        rw [this]
        exact (abs_add_le _ _).trans (by rw [abs_neg])
      linarith [abs_sub_rint_le x]
  refine ⟨le_antisymm key h1, fun hne => ?_⟩
  have hlt : |x - (m : ℝ)| < 1 / 2 :=
    lt_of_le_of_ne hle fun he => hne (le_antisymm (abs_sub_rint_le x) (by linarith))
  rw [rint_eq_of_abs_lt x m hlt]

/-- **C53, violation.** At one half the two roundings differ (1 in C, 0 in Python). -/
theorem C53_round_half : cround (1 / 2 : ℝ) = 1 ∧ rint (1 / 2 : ℝ) = 0 := by
  constructor
  · unfold cround
    rw [if_pos (by norm_num)]
    norm_num
  · unfold rint
    have hf : ⌊(1 / 2 : ℝ)⌋ = 0 := by rw [Int.floor_eq_iff]; norm_num
    have hfr : Int.fract (1 / 2 : ℝ) = 1 / 2 := by unfold Int.fract; rw [hf]; norm_num
    rw [hfr, hf]
    simp

/-- **C53.** `is_gamma` of the C extension gives the same answer as the Python function for every
q-point, including those where the roundings differ. -/
theorem C53_is_gamma (m : Mem) (q : V3 ℝ) (h : Holds m q) : cIsGamma m = isGamma q := by
  unfold cIsGamma isGamma
  rw [loop_three]
  simp only [h.1, h.2.1, h.2.2, (C53_round _).1]
  congr 2
  simp only [sumAbs, rem]
  ring

/-- A q-point close to a lattice vector is a gamma point for both. -/
example : cIsGamma (fun k => [1, -2, 3 + 1 / 10 ^ 16].getD k 0) = true := by
  rw [C53_is_gamma _ ⟨1, -2, 3 + 1 / 10 ^ 16⟩ ⟨rfl, rfl, rfl⟩]
  have h1 : rint (1 : ℝ) = 1 := by simpa using rint_intCast (K := ℝ) 1
  have h2 : rint (-2 : ℝ) = -2 := by simpa using rint_intCast (K := ℝ) (-2)
  have h3 : rint (3 + 1 / 10 ^ 16 : ℝ) = 3 := by
    apply rint_eq_of_abs_lt
    norm_num [abs_of_pos]
  simp only [isGamma, rem, sumAbs, h1, h2, h3]
  norm_num [abs_of_pos]

end Euphonic.CExt
