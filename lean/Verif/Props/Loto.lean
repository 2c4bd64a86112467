import Verif.Model.Dipole
import Verif.Props.DynMat
import Verif.Props.Lattice
import Verif.Lemmas.Rint

/-! # C49: the LO-TO correction -/

set_option autoImplicit false
set_option linter.unusedSectionVars false

namespace Euphonic.Dipole

open Euphonic.Lattice Euphonic.Phases Euphonic.Images Euphonic.DynMat

variable {n : Nat}

/-- Specification: the quadratic form of the dielectric tensor. -/
noncomputable def epsForm (o : Ions n) (v : Fin 3 → ℝ) : ℝ := ∑ a, ∑ b, v a * o.diel a b * v b

/-- Specification: the force on `(i, a)` per unit field along `q`, `sum_b Z*_(i,a,b) q_b`. -/
noncomputable def bornDot (o : Ions n) (q : Fin 3 → ℝ) (k : Fin (n * 3)) : ℝ :=
  ∑ b, o.born k.divNat k.modNat b * q b

/-- The direction in Cartesian coordinates. -/
noncomputable def cartDir (o : Ions n) (q : V3 ℝ) : Fin 3 → ℝ := comp (toCart (recip o) q)

/-- Specification: the non-analytic term `4 pi / V * (q.Z*)_k (q.Z*)_l / (q.eps.q)` (Gonze and Lee,
Eq. 60), with `V` the volume of the cell, a positive number. -/
noncomputable def nonAnalytic (o : Ions n) (q : Fin 3 → ℝ) (k l : Fin (n * 3)) : ℝ :=
  4 * Real.pi / |dot o.cv.a (cross o.cv.b o.cv.c)| * (bornDot o q k * bornDot o q l / epsForm o q)

/-- The same with the triple product itself, which is negative for left handed cells. -/
noncomputable def loto (o : Ions n) (q : Fin 3 → ℝ) (k l : Fin (n * 3)) : ℝ :=
  4 * Real.pi / volume o * (bornDot o q k * bornDot o q l / epsForm o q)

theorem gammaCorrection_eq (o : Ions n) (q : V3 ℝ) (h : isGamma q = false) (k l : Fin (n * 3)) :
    gammaCorrection o q k l = (loto o (cartDir o q) k l : ℂ) := by
  unfold gammaCorrection
  rw [if_neg (by simp [h])]
  norm_cast
  unfold loto bornDot epsForm cartDir
  have : ∀ a b : Fin 3, o.diel a b * comp (toCart (recip o) q) a * comp (toCart (recip o) q) b
      = comp (toCart (recip o) q) a * o.diel a b * comp (toCart (recip o) q) b := by
    intro a b; ring
  simp only [this]
  rw [div_mul_div_comm, mul_comm (volume o)]
  ring

/-- **C49.** For a direction that is not itself a reciprocal lattice vector, the correction is the
textbook non-analytic term if the cell vectors are right handed (for left handed cells it has the wrong sign,
`C95_loto_wrong_sign`); for a zero direction (and any lattice vector) it is zero. -/
theorem C49_textbook_partial (o : Ions n) (q : V3 ℝ) (k l : Fin (n * 3)) :
    (isGamma q = false → 0 < dot o.cv.a (cross o.cv.b o.cv.c) →
      gammaCorrection o q k l = (nonAnalytic o (cartDir o q) k l : ℂ)) ∧
      (∀ G : V3 ℤ, gammaCorrection o (castV ℝ G) k l = 0) := by
  refine ⟨fun h hv => ?_, fun G => ?_⟩
  · rw [gammaCorrection_eq o q h k l]
    unfold loto nonAnalytic
    rw [abs_of_pos hv]
    rfl
  have : isGamma (castV ℝ G) = true := by
    unfold isGamma sumAbs rem castV
    simp [rint_intCast]
  unfold gammaCorrection
  rw [if_pos this]

/-- **C49.** The correction is real and symmetric. -/
theorem C49_symmetric (o : Ions n) (q : V3 ℝ) (k l : Fin (n * 3)) :
    gammaCorrection o q l k = gammaCorrection o q k l
      ∧ star (gammaCorrection o q k l) = gammaCorrection o q k l := by
  by_cases h : isGamma q = true
  · unfold gammaCorrection
    simp [h]
  · have h' : isGamma q = false := by simpa using h
    rw [gammaCorrection_eq o q h', gammaCorrection_eq o q h']
    refine ⟨?_, Complex.conj_ofReal _⟩
    unfold loto
    rw [mul_comm (bornDot o (cartDir o q) l)]

theorem cartDir_smul (o : Ions n) (c : ℝ) (q : V3 ℝ) (a : Fin 3) :
    cartDir o (smul c q) a = c * cartDir o q a := by
  unfold cartDir
  fin_cases a <;> simp [comp, toCart, smul] <;> ring

theorem loto_scale (o : Ions n) (c : ℝ) (hc : c ≠ 0) (q : Fin 3 → ℝ) (k l : Fin (n * 3)) :
    loto o (fun a => c * q a) k l = loto o q k l := by
  have hb : ∀ k, bornDot o (fun a => c * q a) k = c * bornDot o q k := by
    intro k
    unfold bornDot
    rw [Finset.mul_sum]
    exact Finset.sum_congr rfl fun b _ => by ring
  have he : epsForm o (fun a => c * q a) = c ^ 2 * epsForm o q := by
    unfold epsForm
    rw [Finset.mul_sum]
    refine Finset.sum_congr rfl fun a _ => ?_
    rw [Finset.mul_sum]
    exact Finset.sum_congr rfl fun b _ => by ring
  unfold loto
  rw [hb, hb, he]
  congr 1
  have hc2 : c ^ 2 ≠ 0 := pow_ne_zero 2 hc
  rw [show c * bornDot o q k * (c * bornDot o q l) = c ^ 2 * (bornDot o q k * bornDot o q l) by ring,
    mul_div_mul_left _ _ hc2]

/-- **C49 (partial).** The correction depends only on the direction, as long as neither the vector nor
its multiple is (within 1e-15) a vector of integers.  Missing: integer vectors, where the claim fails,
see `C49_integer_direction_dropped`. -/
theorem C49_scale_partial (o : Ions n) (q : V3 ℝ) (c : ℝ) (hc : c ≠ 0) (h1 : isGamma q = false)
    (h2 : isGamma (smul c q) = false) : gammaCorrection o (smul c q) = gammaCorrection o q := by
  funext k l
  rw [gammaCorrection_eq o q h1, gammaCorrection_eq o _ h2]
  have : cartDir o (smul c q) = fun a => c * cartDir o q a := funext fun a => cartDir_smul o c q a
  rw [this, loto_scale o c hc]

/-- **C49.** Reversing the direction never changes the correction. -/
theorem C49_reversal (o : Ions n) (q : V3 ℝ) :
    gammaCorrection o (smul (-1) q) = gammaCorrection o q := by
  have hg : isGamma (smul (-1) q) = isGamma q := by
    unfold isGamma sumAbs rem smul
    simp only [neg_one_mul, abs_sub_rint_neg]
  by_cases h : isGamma q = true
  · unfold gammaCorrection
    rw [if_pos h, if_pos (hg.trans h)]
  · have h' : isGamma q = false := by simpa using h
    exact C49_scale_partial o q (-1) (by norm_num) h' (hg.trans h')

/-- **C49.** With positive cell volume and a dielectric form positive on the direction, the correction
is positive semidefinite. -/
theorem C49_positive (o : Ions n) (q : V3 ℝ) (hv : 0 < volume o) (he : 0 < epsForm o (cartDir o q))
    (x : Fin (n * 3) → ℂ) :
    ∃ y : ℝ, 0 ≤ y ∧ ∑ k, ∑ l, star (x k) * gammaCorrection o q k l * x l = y := by
  by_cases h : isGamma q = true
  · refine ⟨0, le_refl _, ?_⟩
    unfold gammaCorrection
    simp [h]
  · have h' : isGamma q = false := by simpa using h
    set u : ℂ := ∑ l, (bornDot o (cartDir o q) l : ℂ) * x l with hu
    refine ⟨4 * Real.pi / volume o / epsForm o (cartDir o q) * Complex.normSq u, ?_, ?_⟩
    · have := Complex.normSq_nonneg u
      have := Real.pi_pos
      positivity
    · have hs : star u = ∑ k, (bornDot o (cartDir o q) k : ℂ) * star (x k) := by
        rw [hu, star_sum]
        refine Finset.sum_congr rfl fun k _ => ?_
        rw [star_mul']
        congr 1
        exact Complex.conj_ofReal _
      have hn : (Complex.normSq u : ℂ) = star u * u := by
        rw [mul_comm]
        exact (Complex.mul_conj u).symm
      push_cast
      rw [hn, hs, hu, Finset.sum_mul_sum, Finset.mul_sum]
      refine Finset.sum_congr rfl fun k _ => ?_
      rw [Finset.mul_sum]
      refine Finset.sum_congr rfl fun l _ => ?_
      rw [gammaCorrection_eq o q h']
      unfold loto
      push_cast
      ring

/-- One ion with unit charge in a unit cube, dielectric 1. -/
noncomputable def exIons : Ions 1 where
  cv := ⟨⟨1, 0, 0⟩, ⟨0, 1, 0⟩, ⟨0, 0, 1⟩⟩
  r := fun _ => ⟨0, 0, 0⟩
  born := fun _ a b => if a = b then 1 else 0
  diel := 1

theorem exIons_form (x : ℝ) (hx : x ≠ 0) :
    loto exIons (cartDir exIons ⟨x, 0, 0⟩) 0 0 = 4 * Real.pi := by
  have hp := Real.pi_ne_zero
  have hc : cartDir exIons ⟨x, 0, 0⟩ = ![2 * Real.pi * x, 0, 0] := by
    funext a
    fin_cases a <;>
      simp [cartDir, comp, toCart, recip, exIons, reciprocalCell, cellVolume, dot, cross, smul] <;> ring
  unfold loto
  rw [hc]
  have hb : bornDot exIons ![2 * Real.pi * x, 0, 0] 0 = 2 * Real.pi * x := by
    simp [bornDot, exIons, Fin.sum_univ_three, Fin.divNat, Fin.modNat]
  have he : epsForm exIons ![2 * Real.pi * x, 0, 0] = (2 * Real.pi * x) ^ 2 := by
    simp [epsForm, exIons, Fin.sum_univ_three, Matrix.one_apply]
    ring
  have hv : volume exIons = 1 := by
    simp [volume, exIons, cellVolume, dot, cross]
  rw [hb, he, hv]
  field_simp

theorem exIons_notGamma : isGamma (⟨1 / 2, 0, 0⟩ : V3 ℝ) = false := by
  have h1 : rint (1 / 2 : ℝ) = 0 := by
    have hf : ⌊(1 / 2 : ℝ)⌋ = 0 := by norm_num
    unfold rint
    rw [Int.fract, hf]
    norm_num
  have h2 : rint (0 : ℝ) = 0 := by exact_mod_cast rint_intCast (K := ℝ) 0
  unfold isGamma sumAbs rem
  rw [h1, h2]
  simp only [Int.cast_zero, sub_zero, abs_zero, add_zero, decide_eq_false_iff_not, not_lt]
  norm_num

/-- **The claim of C49 fails for integer directions**: the direction `(1/2, 0, 0)` gives a correction,
its double `(1, 0, 0)`, which a path from gamma to a neighbouring gamma point produces, gives none. -/
theorem C49_integer_direction_dropped :
    ∃ (o : Ions 1) (q : V3 ℝ) (k : Fin (1 * 3)), 0 < volume o ∧ gammaCorrection o q k k ≠ 0
      ∧ gammaCorrection o (smul 2 q) k k = 0 := by
  refine ⟨exIons, ⟨1 / 2, 0, 0⟩, 0, ?_, ?_, ?_⟩
  · simp [volume, exIons, cellVolume, dot, cross]
  · rw [gammaCorrection_eq _ _ exIons_notGamma, exIons_form _ (by norm_num)]
    have := Real.pi_ne_zero
    norm_cast
    positivity
  · have h := (C49_textbook_partial exIons ⟨0, 0, 0⟩ 0 0).2 ⟨1, 0, 0⟩
    have e : smul 2 (⟨1 / 2, 0, 0⟩ : V3 ℝ) = castV ℝ ⟨1, 0, 0⟩ := by
      simp [smul, castV]
    rw [e]
    exact h

/-- Non-vacuous: the positive form and a scale factor that stays away from integers. -/
example : isGamma (⟨1 / 2, 0, 0⟩ : V3 ℝ) = false ∧ isGamma (smul 3 (⟨1 / 2, 0, 0⟩ : V3 ℝ)) = false := by
  refine ⟨exIons_notGamma, ?_⟩
  have h1 : rint (3 / 2 : ℝ) = 2 := by
    have hf : ⌊(3 / 2 : ℝ)⌋ = 1 := by norm_num
    unfold rint
    rw [Int.fract, hf]
    norm_num
  have h2 : rint (0 : ℝ) = 0 := by exact_mod_cast rint_intCast (K := ℝ) 0
  unfold isGamma sumAbs rem smul
  rw [show (3 : ℝ) * (1 / 2) = 3 / 2 by norm_num, mul_zero, h1, h2]
  simp only [decide_eq_false_iff_not, not_lt]
  norm_num

end Euphonic.Dipole
