import Verif.Lemmas.Poisson

/-!
# Derivatives of Poisson's formula for Gaussians
-/

set_option autoImplicit false

namespace Euphonic.Poisson

open Complex

/-! ## Bounds -/

theorem three_squares {a b c : ℝ} (ha : 0 < a) (hb : 0 < b) (hc : 0 < c) (x y z p q r : ℝ) :
    (a * x * p + b * y * q + c * z * r) ^ 2 ≤ (a * x ^ 2 + b * y ^ 2 + c * z ^ 2) * (a * p ^ 2 + b * q ^ 2 + c * r ^ 2) := by
  have h : (a * x ^ 2 + b * y ^ 2 + c * z ^ 2) * (a * p ^ 2 + b * q ^ 2 + c * r ^ 2) - (a * x * p + b * y * q + c * z * r) ^ 2 =
      a * b * (x * q - y * p) ^ 2 + a * c * (x * r - z * p) ^ 2 + b * c * (y * r - z * q) ^ 2 := by ring
  have : 0 ≤ a * b * (x * q - y * p) ^ 2 + a * c * (x * r - z * p) ^ 2 + b * c * (y * r - z * q) ^ 2 := by positivity
  linarith

theorem Form.bil_sq (f : Form) (x e : ℝ × ℝ × ℝ) : f.bil x e ^ 2 ≤ f.quad x * f.quad e := by
  rw [f.quad_eq, f.quad_eq]
  exact three_squares f.p1 f.p2 f.p3 _ _ _ _ _ _

theorem Form.mul3_sq (f : Form) (k e : ℝ × ℝ × ℝ) : mul3 k e ^ 2 ≤ f.dual k * f.quad e := by
  have h1 := f.p1
  have h2 := f.p2
  have h3 := f.p3
  have h := three_squares f.p1 f.p2 f.p3 (k.1 / f.a1) ((k.2.1 - f.u * k.1) / f.a2)
    ((k.2.2 - f.v * k.1 - f.w * (k.2.1 - f.u * k.1)) / f.a3) (e.1 + f.u * e.2.1 + f.v * e.2.2) (e.2.1 + f.w * e.2.2) e.2.2
  rw [f.quad_eq]
  have e1 : mul3 k e = f.a1 * (k.1 / f.a1) * (e.1 + f.u * e.2.1 + f.v * e.2.2) +
      f.a2 * ((k.2.1 - f.u * k.1) / f.a2) * (e.2.1 + f.w * e.2.2) +
      f.a3 * ((k.2.2 - f.v * k.1 - f.w * (k.2.1 - f.u * k.1)) / f.a3) * e.2.2 := by
    rw [mul_div_cancel₀ _ h1.ne', mul_div_cancel₀ _ h2.ne', mul_div_cancel₀ _ h3.ne']
    unfold mul3
    ring
  have e2 : f.dual k = f.a1 * (k.1 / f.a1) ^ 2 + f.a2 * ((k.2.1 - f.u * k.1) / f.a2) ^ 2 +
      f.a3 * ((k.2.2 - f.v * k.1 - f.w * (k.2.1 - f.u * k.1)) / f.a3) ^ 2 := by
    unfold Form.dual
    field_simp
  rw [e1, e2]
  exact h

theorem abs_le_of_sq {x y : ℝ} (h : x ^ 2 ≤ y) : |x| ≤ 1 + y := by
  rw [abs_le]
  constructor <;> nlinarith [sq_nonneg (x + 1), sq_nonneg (x - 1)]

theorem abs_mul_le_of_sq {x y p q : ℝ} (h : x ^ 2 ≤ p) (h' : y ^ 2 ≤ q) : |x * y| ≤ p + q := by
  rw [abs_le]
  constructor <;> nlinarith [sq_nonneg (x + y), sq_nonneg (x - y), sq_nonneg x, sq_nonneg y]

/-- A polynomial of degree one times a Gaussian. -/
theorem poly_exp {A B y z : ℝ} (hA : 0 ≤ A) (hB : 0 ≤ B) (hy : 0 ≤ y) (hz : z ≤ A + B * y) :
    z * Real.exp (-Real.pi * y) ≤ (A + B) * Real.exp (-y) := by
  have h1 : A + B * y ≤ (A + B) * Real.exp y := by
    have := Real.add_one_le_exp y
    nlinarith
  calc z * Real.exp (-Real.pi * y) ≤ ((A + B) * Real.exp y) * Real.exp (-Real.pi * y) :=
        mul_le_mul_of_nonneg_right (hz.trans h1) (Real.exp_pos _).le
    _ = (A + B) * Real.exp (y + -Real.pi * y) := by rw [Real.exp_add]; ring
    _ ≤ _ := by
        refine mul_le_mul_of_nonneg_left (Real.exp_le_exp.2 ?_) (by positivity)
        nlinarith [Real.two_le_pi]

/-! ## Moving the origin -/

/-- `r + t e`. -/
def move (r e : ℝ × ℝ × ℝ) (t : ℝ) : ℝ × ℝ × ℝ := (r.1 + t * e.1, r.2.1 + t * e.2.1, r.2.2 + t * e.2.2)

theorem move_zero (r e : ℝ × ℝ × ℝ) : move r e 0 = r := by simp [move]

theorem bil_move (f : Form) (n : ℤ × ℤ × ℤ) (r e g : ℝ × ℝ × ℝ) (t : ℝ) :
    f.bil (at3 n (move r e t)) g = f.bil (at3 n r) g - t * f.bil e g := by
  simp only [Form.bil, at3, move]
  ring

theorem quad_move (f : Form) (n : ℤ × ℤ × ℤ) (r e : ℝ × ℝ × ℝ) (t : ℝ) :
    f.quad (at3 n (move r e t)) = f.quad (at3 n r) - 2 * t * f.bil (at3 n r) e + t ^ 2 * f.quad e := by
  simp only [Form.quad, Form.bil, at3, move]
  ring

theorem quad_move_ge (f : Form) (n : ℤ × ℤ × ℤ) (r e : ℝ × ℝ × ℝ) {t : ℝ} (ht : |t| < 1) :
    f.quad (at3 n r) / 2 - f.quad e ≤ f.quad (at3 n (move r e t)) := by
  have h1 := f.quad_nonneg (at3 n (move r e (2 * t)))
  rw [quad_move] at h1
  have h5 : t ^ 2 * f.quad e ≤ 1 * f.quad e :=
    mul_le_mul_of_nonneg_right (by rw [← sq_abs]; exact pow_le_one₀ (abs_nonneg _) ht.le) (f.quad_nonneg e)
  rw [quad_move]
  nlinarith

/-- The terms that occur, and their derivatives. -/
noncomputable def g0 (f : Form) (q r : ℝ × ℝ × ℝ) (n : ℤ × ℤ × ℤ) : ℂ :=
  ph (dot3 n q) * (Real.exp (-Real.pi * f.quad (at3 n r)) : ℂ)

noncomputable def g1 (f : Form) (q e r : ℝ × ℝ × ℝ) (n : ℤ × ℤ × ℤ) : ℂ :=
  ph (dot3 n q) * ((2 * Real.pi * f.bil (at3 n r) e * Real.exp (-Real.pi * f.quad (at3 n r)) : ℝ) : ℂ)

noncomputable def g2 (f : Form) (q e e' r : ℝ × ℝ × ℝ) (n : ℤ × ℤ × ℤ) : ℂ :=
  ph (dot3 n q) * (((4 * Real.pi ^ 2 * (f.bil (at3 n r) e * f.bil (at3 n r) e') - 2 * Real.pi * f.bil e e') *
    Real.exp (-Real.pi * f.quad (at3 n r)) : ℝ) : ℂ)

noncomputable def k0 (f : Form) (q r : ℝ × ℝ × ℝ) (n : ℤ × ℤ × ℤ) : ℂ :=
  ph (mul3 (add3 n q) r) * (Real.exp (-Real.pi * f.dual (add3 n q)) : ℂ)

noncomputable def k1 (f : Form) (q e r : ℝ × ℝ × ℝ) (n : ℤ × ℤ × ℤ) : ℂ :=
  2 * Real.pi * I * ph (mul3 (add3 n q) r) * ((mul3 (add3 n q) e * Real.exp (-Real.pi * f.dual (add3 n q)) : ℝ) : ℂ)

noncomputable def k2 (f : Form) (q e e' r : ℝ × ℝ × ℝ) (n : ℤ × ℤ × ℤ) : ℂ :=
  -(4 * Real.pi ^ 2) * ph (mul3 (add3 n q) r) *
    ((mul3 (add3 n q) e * mul3 (add3 n q) e' * Real.exp (-Real.pi * f.dual (add3 n q)) : ℝ) : ℂ)

theorem hasDerivAt_quad (f : Form) (n : ℤ × ℤ × ℤ) (r e : ℝ × ℝ × ℝ) (t : ℝ) :
    HasDerivAt (fun t => f.quad (at3 n (move r e t))) (-2 * f.bil (at3 n (move r e t)) e) t := by
  have h : HasDerivAt (fun t => f.quad (at3 n r) - 2 * t * f.bil (at3 n r) e + t ^ 2 * f.quad e)
      (0 - 2 * 1 * f.bil (at3 n r) e + (2 * t ^ (2 - 1) * 1) * f.quad e) t :=
    ((hasDerivAt_const t _).sub (((hasDerivAt_id t).const_mul 2).mul_const _)).add ((hasDerivAt_id t |>.pow 2).mul_const _)
  simp only [quad_move, bil_move]
  convert h using 1
  simp only [Form.quad]
  ring

theorem hasDerivAt_bil (f : Form) (n : ℤ × ℤ × ℤ) (r e g : ℝ × ℝ × ℝ) (t : ℝ) :
    HasDerivAt (fun t => f.bil (at3 n (move r e t)) g) (-f.bil e g) t := by
  have h : HasDerivAt (fun t => f.bil (at3 n r) g - t * f.bil e g) (0 - 1 * f.bil e g) t :=
    (hasDerivAt_const t _).sub ((hasDerivAt_id t).mul_const _)
  simp only [bil_move]
  convert h using 1
  ring

theorem hasDerivAt_g0 (f : Form) (q e r : ℝ × ℝ × ℝ) (n : ℤ × ℤ × ℤ) (t : ℝ) :
    HasDerivAt (fun t => g0 f q (move r e t) n) (g1 f q e (move r e t) n) t := by
  have h := (((hasDerivAt_quad f n r e t).const_mul (-Real.pi)).exp.ofReal_comp).const_mul (ph (dot3 n q))
  refine h.congr_deriv ?_
  unfold g1
  push_cast
  ring

theorem bil_comm (f : Form) (x y : ℝ × ℝ × ℝ) : f.bil x y = f.bil y x := by
  unfold Form.bil
  ring

theorem hasDerivAt_g1 (f : Form) (q e e' r : ℝ × ℝ × ℝ) (n : ℤ × ℤ × ℤ) (t : ℝ) :
    HasDerivAt (fun t => g1 f q e (move r e' t) n) (g2 f q e e' (move r e' t) n) t := by
  have h := ((((hasDerivAt_bil f n r e' e t).const_mul (2 * Real.pi)).mul
    ((hasDerivAt_quad f n r e' t).const_mul (-Real.pi)).exp).ofReal_comp).const_mul (ph (dot3 n q))
  refine h.congr_deriv ?_
  unfold g2
  rw [bil_comm f e e']
  push_cast
  ring

theorem hasDerivAt_phase (k r e : ℝ × ℝ × ℝ) (t : ℝ) :
    HasDerivAt (fun t => ph (mul3 k (move r e t))) (2 * Real.pi * I * ph (mul3 k (move r e t)) * (mul3 k e : ℝ)) t := by
  have h1 : HasDerivAt (fun t => mul3 k (move r e t)) (mul3 k e) t := by
    have h : HasDerivAt (fun t => mul3 k r + t * mul3 k e) (0 + 1 * mul3 k e) t :=
      (hasDerivAt_const t _).add ((hasDerivAt_id t).mul_const _)
    have e1 : (fun t => mul3 k (move r e t)) = fun t => mul3 k r + t * mul3 k e := by
      funext t
      simp only [mul3, move]
      ring
    rw [e1]
    convert h using 1
    ring
  have h := ((h1.ofReal_comp.const_mul (2 * Real.pi : ℂ)).mul_const I).cexp
  refine h.congr_deriv ?_
  unfold ph
  ring

theorem hasDerivAt_k0 (f : Form) (q e r : ℝ × ℝ × ℝ) (n : ℤ × ℤ × ℤ) (t : ℝ) :
    HasDerivAt (fun t => k0 f q (move r e t) n) (k1 f q e (move r e t) n) t := by
  have h := (hasDerivAt_phase (add3 n q) r e t).mul_const (Real.exp (-Real.pi * f.dual (add3 n q)) : ℂ)
  refine h.congr_deriv ?_
  unfold k1
  push_cast
  ring

theorem hasDerivAt_k1 (f : Form) (q e e' r : ℝ × ℝ × ℝ) (n : ℤ × ℤ × ℤ) (t : ℝ) :
    HasDerivAt (fun t => k1 f q e (move r e' t) n) (k2 f q e e' (move r e' t) n) t := by
  have h := ((hasDerivAt_phase (add3 n q) r e' t).const_mul (2 * Real.pi * I)).mul_const
    ((mul3 (add3 n q) e * Real.exp (-Real.pi * f.dual (add3 n q)) : ℝ) : ℂ)
  refine h.congr_deriv ?_
  unfold k2
  push_cast
  linear_combination (norm := skip) (4 * (Real.pi : ℂ) ^ 2 * ph (mul3 (add3 n q) (move r e' t)) * (mul3 (add3 n q) e : ℝ) *
    (mul3 (add3 n q) e' : ℝ) * cexp (-Real.pi * (f.dual (add3 n q) : ℝ))) * I_sq
  ring

/-! ## Bounds that hold near the origin -/

theorem norm_ph_real (x y : ℝ) : ‖ph x * (y : ℂ)‖ = |y| := by
  rw [norm_mul, norm_ph, one_mul, Complex.norm_real, Real.norm_eq_abs]

theorem norm_g1 (f : Form) (q e r : ℝ × ℝ × ℝ) (n : ℤ × ℤ × ℤ) :
    ‖g1 f q e r n‖ ≤ 2 * Real.pi * (1 + f.quad e) * Real.exp (-f.quad (at3 n r)) := by
  have hP := Real.pi_pos
  have h1 := f.quad_nonneg e
  rw [g1, norm_ph_real, abs_mul, abs_of_pos (Real.exp_pos _), abs_mul, abs_of_pos (by positivity : 0 < 2 * Real.pi), mul_assoc,
    mul_assoc (2 * Real.pi)]
  refine mul_le_mul_of_nonneg_left ?_ (by positivity)
  refine poly_exp zero_le_one h1 (f.quad_nonneg _) ?_
  have := abs_le_of_sq (f.bil_sq (at3 n r) e)
  linarith

theorem norm_g2 (f : Form) (q e e' r : ℝ × ℝ × ℝ) (n : ℤ × ℤ × ℤ) :
    ‖g2 f q e e' r n‖ ≤ (2 * Real.pi * |f.bil e e'| + 4 * Real.pi ^ 2 * (f.quad e + f.quad e')) * Real.exp (-f.quad (at3 n r)) := by
  have hP := Real.pi_pos
  have h1 := f.quad_nonneg e
  have h2 := f.quad_nonneg e'
  rw [g2, norm_ph_real, abs_mul, abs_of_pos (Real.exp_pos _)]
  refine poly_exp (by positivity) (by positivity) (f.quad_nonneg _) ?_
  refine (abs_sub _ _).trans ?_
  rw [abs_mul, abs_of_pos (by positivity : 0 < 4 * Real.pi ^ 2), abs_mul (2 * Real.pi), abs_of_pos (by positivity : 0 < 2 * Real.pi)]
  have := mul_le_mul_of_nonneg_left (abs_mul_le_of_sq (f.bil_sq (at3 n r) e) (f.bil_sq (at3 n r) e'))
    (by positivity : 0 ≤ 4 * Real.pi ^ 2)
  linarith

theorem norm_k1 (f : Form) (q e r : ℝ × ℝ × ℝ) (n : ℤ × ℤ × ℤ) :
    ‖k1 f q e r n‖ ≤ 2 * Real.pi * (1 + f.quad e) * Real.exp (-f.dual (add3 n q)) := by
  have hP := Real.pi_pos
  have h1 := f.quad_nonneg e
  have e1 : k1 f q e r n = I * (ph (mul3 (add3 n q) r) *
      ((2 * Real.pi * (mul3 (add3 n q) e * Real.exp (-Real.pi * f.dual (add3 n q))) : ℝ) : ℂ)) := by
    unfold k1
    push_cast
    ring
  rw [e1, norm_mul, norm_ph_real, Complex.norm_I, one_mul, abs_mul, abs_mul (mul3 _ _), abs_of_pos (Real.exp_pos _),
    abs_of_pos (by positivity : 0 < 2 * Real.pi), mul_assoc (2 * Real.pi)]
  refine mul_le_mul_of_nonneg_left ?_ (by positivity)
  refine poly_exp zero_le_one h1 (f.dual_nonneg _) ?_
  have := abs_le_of_sq (f.mul3_sq (add3 n q) e)
  linarith

theorem norm_k2 (f : Form) (q e e' r : ℝ × ℝ × ℝ) (n : ℤ × ℤ × ℤ) :
    ‖k2 f q e e' r n‖ ≤ 4 * Real.pi ^ 2 * (0 + (f.quad e + f.quad e')) * Real.exp (-f.dual (add3 n q)) := by
  have hP := Real.pi_pos
  have h1 := f.quad_nonneg e
  have h2 := f.quad_nonneg e'
  have e1 : k2 f q e e' r n = -(ph (mul3 (add3 n q) r) *
      ((4 * Real.pi ^ 2 * (mul3 (add3 n q) e * mul3 (add3 n q) e' * Real.exp (-Real.pi * f.dual (add3 n q))) : ℝ) : ℂ)) := by
    unfold k2
    push_cast
    ring
  rw [e1, norm_neg, norm_ph_real, abs_mul, abs_mul (mul3 _ _ * _), abs_of_pos (Real.exp_pos _),
    abs_of_pos (by positivity : 0 < 4 * Real.pi ^ 2), mul_assoc (4 * Real.pi ^ 2)]
  refine mul_le_mul_of_nonneg_left ?_ (by positivity)
  refine poly_exp le_rfl (by positivity) (f.dual_nonneg _) ?_
  have := abs_mul_le_of_sq (f.mul3_sq (add3 n q) e) (f.mul3_sq (add3 n q) e')
  linarith

theorem exp_move (f : Form) (r e : ℝ × ℝ × ℝ) (n : ℤ × ℤ × ℤ) {t : ℝ} (ht : |t| < 1) :
    Real.exp (-f.quad (at3 n (move r e t))) ≤ Real.exp (f.quad e) * Real.exp (-(1 / 2) * f.quad (at3 n r)) := by
  rw [← Real.exp_add, Real.exp_le_exp]
  have := quad_move_ge f n r e ht
  linarith

/-! ## The sums -/

theorem mem_ball {t : ℝ} (h : t ∈ Set.Ioo (-1 : ℝ) 1) : |t| < 1 := abs_lt.2 h

theorem zero_mem_ball : (0 : ℝ) ∈ Set.Ioo (-1 : ℝ) 1 := ⟨by norm_num, one_pos⟩

theorem summable_g0 (f : Form) (q r : ℝ × ℝ × ℝ) : Summable (g0 f q r) := summable_wave _ (f.summable Real.pi_pos _)

theorem summable_g1 (f : Form) (q e r : ℝ × ℝ × ℝ) : Summable (g1 f q e r) := by
  refine Summable.of_norm_bounded ((f.summable one_pos r).mul_left (2 * Real.pi * (1 + f.quad e))) fun n => ?_
  simpa using norm_g1 f q e r n

theorem summable_g2 (f : Form) (q e e' r : ℝ × ℝ × ℝ) : Summable (g2 f q e e' r) := by
  refine Summable.of_norm_bounded ((f.summable one_pos r).mul_left
    (2 * Real.pi * |f.bil e e'| + 4 * Real.pi ^ 2 * (f.quad e + f.quad e'))) fun n => ?_
  simpa using norm_g2 f q e e' r n

theorem summable_k0 (f : Form) (q r : ℝ × ℝ × ℝ) : Summable (k0 f q r) := summable_wave _ (f.summable_dual' Real.pi_pos _)

theorem summable_k1 (f : Form) (q e r : ℝ × ℝ × ℝ) : Summable (k1 f q e r) := by
  refine Summable.of_norm_bounded ((f.summable_dual' one_pos q).mul_left (2 * Real.pi * (1 + f.quad e))) fun n => ?_
  simpa using norm_k1 f q e r n

theorem summable_k2 (f : Form) (q e e' r : ℝ × ℝ × ℝ) : Summable (k2 f q e e' r) := by
  refine Summable.of_norm_bounded ((f.summable_dual' one_pos q).mul_left
    (4 * Real.pi ^ 2 * (0 + (f.quad e + f.quad e')))) fun n => ?_
  simpa using norm_k2 f q e e' r n

theorem hasDerivAt_sum_g0 (f : Form) (q e r : ℝ × ℝ × ℝ) :
    HasDerivAt (fun t => ∑' n, g0 f q (move r e t) n) (∑' n, g1 f q e r n) 0 := by
  have h := hasDerivAt_tsum_of_isPreconnected (𝕜 := ℝ) (y := (0 : ℝ)) (y₀ := (0 : ℝ)) (t := Set.Ioo (-1 : ℝ) 1)
    (g := fun n t => g0 f q (move r e t) n) (g' := fun n t => g1 f q e (move r e t) n)
    ((f.summable (half_pos one_pos) r).mul_left (2 * Real.pi * (1 + f.quad e) * Real.exp (f.quad e))) isOpen_Ioo isPreconnected_Ioo
    (fun n t _ => hasDerivAt_g0 f q e r n t) (fun n t ht => ?_) zero_mem_ball (by simpa only [move_zero] using summable_g0 f q r)
    zero_mem_ball
  · simpa only [move_zero] using h
  · refine (norm_g1 f q e _ n).trans ?_
    rw [mul_assoc (_ * _) (Real.exp _)]
    exact mul_le_mul_of_nonneg_left (exp_move f r e n (mem_ball ht)) (by have := Real.pi_pos; have := f.quad_nonneg e; positivity)

theorem hasDerivAt_sum_g1 (f : Form) (q e e' r : ℝ × ℝ × ℝ) :
    HasDerivAt (fun t => ∑' n, g1 f q e (move r e' t) n) (∑' n, g2 f q e e' r n) 0 := by
  have h := hasDerivAt_tsum_of_isPreconnected (𝕜 := ℝ) (y := (0 : ℝ)) (y₀ := (0 : ℝ)) (t := Set.Ioo (-1 : ℝ) 1)
    (g := fun n t => g1 f q e (move r e' t) n) (g' := fun n t => g2 f q e e' (move r e' t) n)
    ((f.summable (half_pos one_pos) r).mul_left ((2 * Real.pi * |f.bil e e'| + 4 * Real.pi ^ 2 * (f.quad e + f.quad e')) *
      Real.exp (f.quad e'))) isOpen_Ioo isPreconnected_Ioo
    (fun n t _ => hasDerivAt_g1 f q e e' r n t) (fun n t ht => ?_) zero_mem_ball (by simpa only [move_zero] using summable_g1 f q e r)
    zero_mem_ball
  · simpa only [move_zero] using h
  · refine (norm_g2 f q e e' _ n).trans ?_
    rw [mul_assoc _ (Real.exp _) (Real.exp _)]
    exact mul_le_mul_of_nonneg_left (exp_move f r e' n (mem_ball ht))
      (by have := Real.pi_pos; have := f.quad_nonneg e; have := f.quad_nonneg e'; positivity)

theorem hasDerivAt_sum_k0 (f : Form) (q e r : ℝ × ℝ × ℝ) :
    HasDerivAt (fun t => ∑' n, k0 f q (move r e t) n) (∑' n, k1 f q e r n) 0 := by
  have h := hasDerivAt_tsum_of_isPreconnected (𝕜 := ℝ) (y := (0 : ℝ)) (y₀ := (0 : ℝ)) (t := Set.Ioo (-1 : ℝ) 1)
    (g := fun n t => k0 f q (move r e t) n) (g' := fun n t => k1 f q e (move r e t) n)
    ((f.summable_dual' one_pos q).mul_left (2 * Real.pi * (1 + f.quad e))) isOpen_Ioo isPreconnected_Ioo
    (fun n t _ => hasDerivAt_k0 f q e r n t) (fun n t _ => by simpa using norm_k1 f q e (move r e t) n) zero_mem_ball
    (by simpa only [move_zero] using summable_k0 f q r) zero_mem_ball
  simpa only [move_zero] using h

theorem hasDerivAt_sum_k1 (f : Form) (q e e' r : ℝ × ℝ × ℝ) :
    HasDerivAt (fun t => ∑' n, k1 f q e (move r e' t) n) (∑' n, k2 f q e e' r n) 0 := by
  have h := hasDerivAt_tsum_of_isPreconnected (𝕜 := ℝ) (y := (0 : ℝ)) (y₀ := (0 : ℝ)) (t := Set.Ioo (-1 : ℝ) 1)
    (g := fun n t => k1 f q e (move r e' t) n) (g' := fun n t => k2 f q e e' (move r e' t) n)
    ((f.summable_dual' one_pos q).mul_left (4 * Real.pi ^ 2 * (0 + (f.quad e + f.quad e')))) isOpen_Ioo isPreconnected_Ioo
    (fun n t _ => hasDerivAt_k1 f q e e' r n t) (fun n t _ => by simpa using norm_k2 f q e e' (move r e' t) n) zero_mem_ball
    (by simpa only [move_zero] using summable_k1 f q e r) zero_mem_ball
  simpa only [move_zero] using h

/-- Poisson's formula, differentiated once. -/
theorem poisson_first (f : Form) (q e r : ℝ × ℝ × ℝ) :
    ∑' n, g1 f q e r n = ((√f.a1)⁻¹ * ((√f.a2)⁻¹ * (√f.a3)⁻¹) : ℝ) * ∑' n, k1 f q e r n := by
  have h1 := hasDerivAt_sum_g0 f q e r
  have h2 := (hasDerivAt_sum_k0 f q e r).const_mul (((√f.a1)⁻¹ * ((√f.a2)⁻¹ * (√f.a3)⁻¹) : ℝ) : ℂ)
  have e1 : (fun t => ∑' n, g0 f q (move r e t) n) =
      fun t => (((√f.a1)⁻¹ * ((√f.a2)⁻¹ * (√f.a3)⁻¹) : ℝ) : ℂ) * ∑' n, k0 f q (move r e t) n := by
    funext t
    exact poisson3 f q (move r e t)
  rw [e1] at h1
  exact h1.unique h2

/-- Poisson's formula, differentiated twice. -/
theorem poisson_second (f : Form) (q e e' r : ℝ × ℝ × ℝ) :
    ∑' n, g2 f q e e' r n = ((√f.a1)⁻¹ * ((√f.a2)⁻¹ * (√f.a3)⁻¹) : ℝ) * ∑' n, k2 f q e e' r n := by
  have h1 := hasDerivAt_sum_g1 f q e e' r
  have h2 := (hasDerivAt_sum_k1 f q e e' r).const_mul (((√f.a1)⁻¹ * ((√f.a2)⁻¹ * (√f.a3)⁻¹) : ℝ) : ℂ)
  have e1 : (fun t => ∑' n, g1 f q e (move r e' t) n) =
      fun t => (((√f.a1)⁻¹ * ((√f.a2)⁻¹ * (√f.a3)⁻¹) : ℝ) : ℂ) * ∑' n, k1 f q e (move r e' t) n := by
    funext t
    exact poisson_first f q e (move r e' t)
  rw [e1] at h1
  exact h1.unique h2

end Euphonic.Poisson
