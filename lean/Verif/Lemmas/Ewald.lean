import Verif.Lemmas.PoissonDiff
import Mathlib.Analysis.Calculus.Deriv.MeanValue
import Mathlib.Analysis.SpecialFunctions.ExpDeriv
import Mathlib.Analysis.SpecialFunctions.Sqrt

/-!
# Sums over a lattice and over its reciprocal lattice that add up to the same for every width of the Gaussians
-/

set_option autoImplicit false

namespace Euphonic.Poisson

open Complex

/-- The complementary error function: its derivative is a Gaussian and it vanishes at infinity. -/
structure IsErfc (erfc : ℝ → ℝ) : Prop where
  deriv : ∀ y, HasDerivAt erfc (-(2 / √Real.pi) * Real.exp (-y ^ 2)) y
  limit : Filter.Tendsto erfc Filter.atTop (nhds 0)

theorem IsErfc.nonneg {erfc : ℝ → ℝ} (h : IsErfc erfc) (y : ℝ) : 0 ≤ erfc y := by
  have ha : Antitone erfc := antitone_of_hasDerivAt_nonpos h.deriv fun y => by
    have := Real.pi_pos
    have : 0 ≤ 2 / √Real.pi * Real.exp (-y ^ 2) := by positivity
    simp only [Pi.zero_apply]
    linarith
  exact ha.le_of_tendsto h.limit y

theorem one_lt_sqrt_pi : 1 < √Real.pi := by
  rw [Real.lt_sqrt zero_le_one]
  linarith [Real.two_le_pi]

theorem IsErfc.le {erfc : ℝ → ℝ} (h : IsErfc erfc) {l : ℝ} (hl : 0 < l) {y : ℝ} (hy : l ≤ y) :
    erfc y ≤ 1 / l * Real.exp (-y ^ 2) := by
  have hs := one_lt_sqrt_pi
  set g := fun y => 1 / l * Real.exp (-y ^ 2) - erfc y with hg
  have hd : ∀ y, HasDerivAt g (1 / l * (Real.exp (-y ^ 2) * (-(2 * y))) - -(2 / √Real.pi) * Real.exp (-y ^ 2)) y := by
    intro y
    have h1 : HasDerivAt (fun y : ℝ => -y ^ 2) (-(2 * y)) y := by
      have := (hasDerivAt_pow 2 y).fun_neg
      simpa using this
    exact (h1.exp.const_mul (1 / l)).sub (h.deriv y)
  have ha : AntitoneOn g (Set.Ici l) := by
    refine antitoneOn_of_deriv_nonpos (convex_Ici l) (fun y _ => (hd y).continuousAt.continuousWithinAt)
      (fun y _ => (hd y).differentiableAt.differentiableWithinAt) fun y hy' => ?_
    rw [(hd y).deriv]
    rw [interior_Ici] at hy'
    have hy' : l < y := hy'
    have e1 : 1 / l * (Real.exp (-y ^ 2) * (-(2 * y))) - -(2 / √Real.pi) * Real.exp (-y ^ 2) =
        -(2 * Real.exp (-y ^ 2) * (y / l - 1 / √Real.pi)) := by ring
    have h2 : 1 ≤ y / l := by rw [le_div_iff₀ hl]; linarith
    have h3 : 1 / √Real.pi ≤ 1 := by rw [div_le_one (by linarith)]; exact hs.le
    rw [e1]
    have : 0 ≤ 2 * Real.exp (-y ^ 2) * (y / l - 1 / √Real.pi) := mul_nonneg (by positivity) (by linarith)
    linarith
  have hlim : Filter.Tendsto g Filter.atTop (nhds (1 / l * 0 - 0)) := by
    refine Filter.Tendsto.sub (Filter.Tendsto.const_mul _ ?_) h.limit
    refine Real.tendsto_exp_neg_atTop_nhds_zero.comp ?_
    exact Filter.tendsto_pow_atTop two_ne_zero
  have : 1 / l * 0 - 0 ≤ g y := by
    refine le_of_tendsto hlim ?_
    filter_upwards [Filter.eventually_ge_atTop y] with z hz
    exact ha hy (hy.trans hz) hz
  simp only [mul_zero, sub_zero, hg] at this
  linarith

theorem lin_exp {c y : ℝ} (hc : 0 < c) (_hy : 0 ≤ y) : y * Real.exp (-c * y) ≤ 2 / c * Real.exp (-(c / 2) * y) := by
  have h1 : c / 2 * y ≤ Real.exp (c / 2 * y) := by linarith [Real.add_one_le_exp (c / 2 * y)]
  have h2 : y ≤ 2 / c * Real.exp (c / 2 * y) := by
    calc y = 2 / c * (c / 2 * y) := by field_simp
      _ ≤ _ := mul_le_mul_of_nonneg_left h1 (by positivity)
  calc y * Real.exp (-c * y) ≤ 2 / c * Real.exp (c / 2 * y) * Real.exp (-c * y) := mul_le_mul_of_nonneg_right h2 (Real.exp_pos _).le
    _ = 2 / c * Real.exp (-(c / 2) * y) := by
      rw [mul_assoc, ← Real.exp_add]
      congr 2
      ring

/-! ## Scaled forms -/

/-- The form times a number. -/
def Form.scale (f : Form) (c : ℝ) (hc : 0 < c) : Form where
  a1 := c * f.a1
  a2 := c * f.a2
  a3 := c * f.a3
  u := f.u
  v := f.v
  w := f.w
  p1 := mul_pos hc f.p1
  p2 := mul_pos hc f.p2
  p3 := mul_pos hc f.p3

theorem Form.scale_bil (f : Form) {c : ℝ} (hc : 0 < c) (x y : ℝ × ℝ × ℝ) : (f.scale c hc).bil x y = c * f.bil x y := by
  simp only [Form.bil, Form.scale]
  ring

theorem Form.scale_quad (f : Form) {c : ℝ} (hc : 0 < c) (x : ℝ × ℝ × ℝ) : (f.scale c hc).quad x = c * f.quad x := f.scale_bil hc x x

theorem Form.scale_dual (f : Form) {c : ℝ} (hc : 0 < c) (x : ℝ × ℝ × ℝ) : (f.scale c hc).dual x = f.dual x / c := by
  have := f.p1
  have := f.p2
  have := f.p3
  simp only [Form.dual, Form.scale]
  field_simp

theorem Form.det_pos (f : Form) : 0 < f.det := mul_pos (mul_pos f.p1 f.p2) f.p3

/-- The second derivative of the Gaussian of width `1 / lam`. -/
noncomputable def dReal (f : Form) (q e e' r : ℝ × ℝ × ℝ) (lam : ℝ) (n : ℤ × ℤ × ℤ) : ℂ :=
  ph (dot3 n q) * (((4 * lam ^ 4 * (f.bil (at3 n r) e * f.bil (at3 n r) e') - 2 * lam ^ 2 * f.bil e e') *
    Real.exp (-lam ^ 2 * f.quad (at3 n r)) : ℝ) : ℂ)

/-- Its Fourier transform. -/
noncomputable def dRecip (f : Form) (q e e' r : ℝ × ℝ × ℝ) (lam : ℝ) (n : ℤ × ℤ × ℤ) : ℂ :=
  ph (mul3 (add3 n q) r) * ((mul3 (add3 n q) e * mul3 (add3 n q) e' * Real.exp (-(Real.pi ^ 2 / lam ^ 2) * f.dual (add3 n q)) : ℝ) : ℂ)

theorem poisson_lam (f : Form) (q e e' r : ℝ × ℝ × ℝ) {lam : ℝ} (hl : 0 < lam) :
    ∑' n, dReal f q e e' r lam n = (-(4 * Real.pi ^ 2) * (Real.pi * √Real.pi / (lam ^ 3 * √f.det)) : ℝ) * ∑' n, dRecip f q e e' r lam n := by
  have hP := Real.pi_pos
  have hc : 0 < lam ^ 2 / Real.pi := by positivity
  have h := poisson_second (f.scale _ hc) q e e' r
  have e1 : ∀ n, g2 (f.scale _ hc) q e e' r n = dReal f q e e' r lam n := by
    intro n
    unfold g2 dReal
    rw [f.scale_bil, f.scale_bil, f.scale_bil, f.scale_quad]
    congr 3
    · field_simp
    · congr 1
      field_simp
  have e2 : ∀ n, k2 (f.scale _ hc) q e e' r n = (-(4 * Real.pi ^ 2) : ℝ) * dRecip f q e e' r lam n := by
    intro n
    unfold k2 dRecip
    rw [f.scale_dual, show -Real.pi * (f.dual (add3 n q) / (lam ^ 2 / Real.pi)) = -(Real.pi ^ 2 / lam ^ 2) * f.dual (add3 n q) by
      field_simp]
    push_cast
    ring
  rw [tsum_congr e1, tsum_congr e2, tsum_mul_left] at h
  rw [h, ← mul_assoc, ← Complex.ofReal_mul]
  congr 2
  have h1 := f.p1
  have h2 := f.p2
  have h3 := f.p3
  have hsc : √(lam ^ 2 / Real.pi) = lam / √Real.pi := by rw [Real.sqrt_div' _ hP.le, Real.sqrt_sq hl.le]
  simp only [Form.scale, Form.det]
  rw [Real.sqrt_mul hc.le, Real.sqrt_mul hc.le, Real.sqrt_mul hc.le, hsc, Real.sqrt_mul (by positivity), Real.sqrt_mul h1.le]
  have s1 := Real.sqrt_pos.2 h1
  have s2 := Real.sqrt_pos.2 h2
  have s3 := Real.sqrt_pos.2 h3
  have sp := Real.sqrt_pos.2 hP
  have hsq : √Real.pi ^ 2 = Real.pi := Real.sq_sqrt hP.le
  field_simp
  rw [hsq]

/-! ## The terms of the sums -/

/-- The term of the sum over the lattice. -/
noncomputable def hReal (erfc : ℝ → ℝ) (f : Form) (e e' : ℝ × ℝ × ℝ) (lam : ℝ) (x : ℝ × ℝ × ℝ) : ℝ :=
  f.bil x e * f.bil x e' * (3 * (erfc (lam * √(f.quad x)) / (√(f.quad x) * f.quad x ^ 2)) +
      2 / √Real.pi * Real.exp (-lam ^ 2 * f.quad x) * (3 * lam / f.quad x ^ 2 + 2 * lam ^ 3 / f.quad x)) -
    f.bil e e' * (erfc (lam * √(f.quad x)) / (√(f.quad x) * f.quad x) +
      2 / √Real.pi * Real.exp (-lam ^ 2 * f.quad x) * lam / f.quad x)

/-- The term of the sum over the reciprocal lattice. -/
noncomputable def hRecip (f : Form) (e e' : ℝ × ℝ × ℝ) (lam : ℝ) (k : ℝ × ℝ × ℝ) : ℝ :=
  mul3 k e * mul3 k e' / f.dual k * Real.exp (-(Real.pi ^ 2 / lam ^ 2) * f.dual k)

theorem hReal_zero {erfc : ℝ → ℝ} {f : Form} {e e' : ℝ × ℝ × ℝ} {lam : ℝ} {x : ℝ × ℝ × ℝ} (h : f.quad x = 0) :
    hReal erfc f e e' lam x = 0 := by
  simp [hReal, h]

theorem hasDerivAt_hReal {erfc : ℝ → ℝ} (he : IsErfc erfc) (f : Form) (e e' : ℝ × ℝ × ℝ) {x : ℝ × ℝ × ℝ} (h : f.quad x ≠ 0) (lam : ℝ) :
    HasDerivAt (fun lam => hReal erfc f e e' lam x) (-(2 / √Real.pi) *
      ((4 * lam ^ 4 * (f.bil x e * f.bil x e') - 2 * lam ^ 2 * f.bil e e') * Real.exp (-lam ^ 2 * f.quad x))) lam := by
  have hQ : 0 < f.quad x := lt_of_le_of_ne (f.quad_nonneg x) (Ne.symm h)
  have hD : 0 < √(f.quad x) := Real.sqrt_pos.2 hQ
  have hD2 : √(f.quad x) ^ 2 = f.quad x := Real.sq_sqrt hQ.le
  unfold hReal
  generalize f.bil x e * f.bil x e' = BB
  generalize f.bil e e' = Be
  have hc : HasDerivAt (fun lam => erfc (lam * √(f.quad x))) (-(2 / √Real.pi) * Real.exp (-lam ^ 2 * f.quad x) * √(f.quad x)) lam := by
    have h1 := (he.deriv (lam * √(f.quad x))).comp lam ((hasDerivAt_id lam).mul_const (√(f.quad x)))
    refine h1.congr_deriv ?_
    rw [mul_pow, hD2, one_mul, neg_mul (lam ^ 2)]
  have hx : HasDerivAt (fun lam : ℝ => Real.exp (-lam ^ 2 * f.quad x)) (Real.exp (-lam ^ 2 * f.quad x) * (-(2 * lam) * f.quad x)) lam := by
    have h1 : HasDerivAt (fun y : ℝ => -y ^ 2 * f.quad x) (-(2 * lam) * f.quad x) lam := by
      have := ((hasDerivAt_pow 2 lam).neg).mul_const (f.quad x)
      simpa using this
    exact h1.exp
  have hp : HasDerivAt (fun lam : ℝ => 3 * lam / f.quad x ^ 2 + 2 * lam ^ 3 / f.quad x)
      (3 / f.quad x ^ 2 + 2 * (3 * lam ^ 2) / f.quad x) lam := by
    have h1 := ((hasDerivAt_id lam).const_mul 3).div_const (f.quad x ^ 2)
    have h2 := ((hasDerivAt_pow 3 lam).const_mul 2).div_const (f.quad x)
    refine (h1.add h2).congr_deriv ?_
    norm_num
  have h1 := ((((hc.div_const (√(f.quad x) * f.quad x ^ 2)).const_mul 3).add ((hx.const_mul (2 / √Real.pi)).mul hp)).const_mul BB).sub
    (((hc.div_const (√(f.quad x) * f.quad x)).add
      (((hx.const_mul (2 / √Real.pi)).mul (hasDerivAt_id lam)).div_const (f.quad x))).const_mul Be)
  refine h1.congr_deriv ?_
  simp only [id]
  generalize Real.exp (-lam ^ 2 * f.quad x) = E
  field_simp
  ring

theorem dual_eq_zero {f : Form} {k : ℝ × ℝ × ℝ} (h : f.dual k = 0) (e : ℝ × ℝ × ℝ) : mul3 k e = 0 := by
  have := f.mul3_sq k e
  rw [h, zero_mul] at this
  nlinarith [sq_nonneg (mul3 k e)]

theorem quad_eq_zero {f : Form} {x : ℝ × ℝ × ℝ} (h : f.quad x = 0) (e : ℝ × ℝ × ℝ) : f.bil x e = 0 := by
  have := f.bil_sq x e
  rw [h, zero_mul] at this
  nlinarith [sq_nonneg (f.bil x e)]

theorem hasDerivAt_hRecip (f : Form) (e e' k : ℝ × ℝ × ℝ) {lam : ℝ} (hl : lam ≠ 0) :
    HasDerivAt (fun lam => hRecip f e e' lam k)
      (2 * Real.pi ^ 2 / lam ^ 3 * (mul3 k e * mul3 k e' * Real.exp (-(Real.pi ^ 2 / lam ^ 2) * f.dual k))) lam := by
  by_cases h : f.dual k = 0
  · have h1 := dual_eq_zero h e
    simp only [hRecip, h1, zero_mul, zero_div, mul_zero]
    exact hasDerivAt_const _ _
  · have hx : HasDerivAt (fun lam : ℝ => Real.exp (-(Real.pi ^ 2 / lam ^ 2) * f.dual k))
        (Real.exp (-(Real.pi ^ 2 / lam ^ 2) * f.dual k) * (2 * Real.pi ^ 2 / lam ^ 3 * f.dual k)) lam := by
      have h1 := (((hasDerivAt_pow 2 lam).inv (pow_ne_zero 2 hl)).const_mul (-Real.pi ^ 2)).mul_const (f.dual k)
      have h2 : HasDerivAt (fun lam : ℝ => -(Real.pi ^ 2 / lam ^ 2) * f.dual k) (2 * Real.pi ^ 2 / lam ^ 3 * f.dual k) lam := by
        refine (h1.congr_of_eventuallyEq (Filter.Eventually.of_forall fun y => ?_)).congr_deriv ?_
        · simp only [Pi.inv_apply]
          ring
        · field_simp
          norm_num
          ring
      exact h2.exp
    refine (hx.const_mul (mul3 k e * mul3 k e' / f.dual k)).congr_deriv ?_
    field_simp

/-! ## The sums -/

/-- The terms with their phases. -/
noncomputable def tReal (erfc : ℝ → ℝ) (f : Form) (q e e' r : ℝ × ℝ × ℝ) (lam : ℝ) (n : ℤ × ℤ × ℤ) : ℂ :=
  ph (dot3 n q) * (hReal erfc f e e' lam (at3 n r) : ℂ)

noncomputable def tRecip (f : Form) (q e e' r : ℝ × ℝ × ℝ) (lam : ℝ) (n : ℤ × ℤ × ℤ) : ℂ :=
  ph (mul3 (add3 n q) r) * (hRecip f e e' lam (add3 n q) : ℂ)

theorem abs_hRecip (f : Form) (e e' k : ℝ × ℝ × ℝ) (lam : ℝ) :
    |hRecip f e e' lam k| ≤ (f.quad e + f.quad e') * Real.exp (-(Real.pi ^ 2 / lam ^ 2) * f.dual k) := by
  have h1 := f.quad_nonneg e
  have h2 := f.quad_nonneg e'
  unfold hRecip
  rw [abs_mul, abs_of_pos (Real.exp_pos _)]
  refine mul_le_mul_of_nonneg_right ?_ (Real.exp_pos _).le
  rcases (f.dual_nonneg k).eq_or_lt with h | h
  · rw [← h, div_zero, abs_zero]
    linarith
  · rw [abs_div, abs_of_pos h, div_le_iff₀ h]
    have := abs_mul_le_of_sq (f.mul3_sq k e) (f.mul3_sq k e')
    linarith

theorem summable_tRecip (f : Form) (q e e' r : ℝ × ℝ × ℝ) {lam : ℝ} (hl : 0 < lam) : Summable (tRecip f q e e' r lam) := by
  have hP := Real.pi_pos
  refine Summable.of_norm_bounded ((f.summable_dual' (by positivity : 0 < Real.pi ^ 2 / lam ^ 2) q).mul_left (f.quad e + f.quad e'))
    fun n => ?_
  rw [tRecip, norm_ph_real]
  exact abs_hRecip _ _ _ _ _

theorem eventually_quad (f : Form) (r : ℝ × ℝ × ℝ) : ∀ᶠ n in Filter.cofinite, 1 ≤ f.quad (at3 n r) := by
  have h := (f.summable one_pos r).tendsto_cofinite_zero
  filter_upwards [h.eventually_lt_const (Real.exp_pos (-1))] with n hn
  rw [Real.exp_lt_exp] at hn
  linarith

theorem abs_hReal {erfc : ℝ → ℝ} (he : IsErfc erfc) (f : Form) (e e' : ℝ × ℝ × ℝ) {lam : ℝ} (hl : 0 < lam) {x : ℝ × ℝ × ℝ}
    (hx : 1 ≤ f.quad x) : |hReal erfc f e e' lam x| ≤ ((f.quad e + f.quad e') * (3 * (1 / lam) + 2 / √Real.pi * (3 * lam + 2 * lam ^ 3)) +
      |f.bil e e'| * (1 / lam + 2 / √Real.pi * lam)) * Real.exp (-lam ^ 2 * f.quad x) := by
  have h1 := f.quad_nonneg e
  have h2 := f.quad_nonneg e'
  have hQ : 0 < f.quad x := by linarith
  have hs : 1 ≤ √(f.quad x) := by rw [Real.one_le_sqrt]; exact hx
  have hb := abs_mul_le_of_sq (f.bil_sq x e) (f.bil_sq x e')
  have hle := he.le hl (y := lam * √(f.quad x)) (by nlinarith)
  have hge := he.nonneg (lam * √(f.quad x))
  rw [mul_pow, Real.sq_sqrt hQ.le, ← neg_mul] at hle
  have hp := Real.sqrt_pos.2 Real.pi_pos
  have hE := Real.exp_pos (-lam ^ 2 * f.quad x)
  unfold hReal
  generalize Real.exp (-lam ^ 2 * f.quad x) = E at *
  generalize erfc (lam * √(f.quad x)) = c at *
  generalize √(f.quad x) = s at *
  generalize f.quad x = Q at *
  have i1 : c / (s * Q ^ 2) ≤ 1 / lam * E / Q := by
    rw [div_le_div_iff₀ (by positivity) hQ]
    have : 1 ≤ s * Q := by nlinarith
    calc c * Q ≤ 1 / lam * E * Q := mul_le_mul_of_nonneg_right hle hQ.le
      _ ≤ 1 / lam * E * (s * Q ^ 2) := by
        refine mul_le_mul_of_nonneg_left ?_ (by positivity)
        nlinarith
  have i2 : c / (s * Q) ≤ 1 / lam * E := by
    rw [div_le_iff₀ (by positivity)]
    have : 1 ≤ s * Q := by nlinarith
    calc c ≤ 1 / lam * E * 1 := by linarith
      _ ≤ _ := mul_le_mul_of_nonneg_left this (by positivity)
  have i3 : 3 * lam / Q ^ 2 + 2 * lam ^ 3 / Q ≤ (3 * lam + 2 * lam ^ 3) / Q := by
    rw [add_div]
    refine add_le_add ?_ le_rfl
    refine div_le_div_of_nonneg_left (by positivity) hQ ?_
    nlinarith
  have i4 : 2 / √Real.pi * E * lam / Q ≤ 2 / √Real.pi * E * lam := div_le_self (by positivity) hx
  have j0 : 0 ≤ c / (s * Q ^ 2) := by positivity
  have j1 : 0 ≤ 3 * (c / (s * Q ^ 2)) + 2 / √Real.pi * E * (3 * lam / Q ^ 2 + 2 * lam ^ 3 / Q) := by positivity
  have j2 : 0 ≤ c / (s * Q) + 2 / √Real.pi * E * lam / Q := by positivity
  refine (abs_sub _ _).trans ?_
  rw [abs_mul (f.bil x e * f.bil x e'), abs_mul (f.bil e e'), abs_of_nonneg j1, abs_of_nonneg j2]
  have k1 : 3 * (c / (s * Q ^ 2)) + 2 / √Real.pi * E * (3 * lam / Q ^ 2 + 2 * lam ^ 3 / Q) ≤
      (3 * (1 / lam) + 2 / √Real.pi * (3 * lam + 2 * lam ^ 3)) * E / Q := by
    have := mul_le_mul_of_nonneg_left i3 (by positivity : 0 ≤ 2 / √Real.pi * E)
    calc _ ≤ 3 * (1 / lam * E / Q) + 2 / √Real.pi * E * ((3 * lam + 2 * lam ^ 3) / Q) := by linarith
      _ = _ := by ring
  have k2 : c / (s * Q) + 2 / √Real.pi * E * lam / Q ≤ (1 / lam + 2 / √Real.pi * lam) * E := by
    calc _ ≤ 1 / lam * E + 2 / √Real.pi * E * lam := add_le_add i2 i4
      _ = _ := by ring
  have m1 := mul_le_mul hb k1 j1 ((abs_nonneg _).trans hb)
  have m2 := mul_le_mul_of_nonneg_left k2 (abs_nonneg (f.bil e e'))
  refine (add_le_add m1 m2).trans (le_of_eq ?_)
  field_simp

theorem summable_tReal {erfc : ℝ → ℝ} (he : IsErfc erfc) (f : Form) (q e e' r : ℝ × ℝ × ℝ) {lam : ℝ} (hl : 0 < lam) :
    Summable (tReal erfc f q e e' r lam) := by
  refine Summable.of_norm_bounded_eventually ((f.summable (by positivity : 0 < lam ^ 2) r).mul_left
    ((f.quad e + f.quad e') * (3 * (1 / lam) + 2 / √Real.pi * (3 * lam + 2 * lam ^ 3)) +
      |f.bil e e'| * (1 / lam + 2 / √Real.pi * lam))) ?_
  filter_upwards [eventually_quad f r] with n hn
  rw [tReal, norm_ph_real]
  exact abs_hReal he f e e' hl hn

/-- The derivative of the term of the sum over the lattice; the term for distance zero is left out of the sum. -/
noncomputable def dReal0 (f : Form) (q e e' r : ℝ × ℝ × ℝ) (lam : ℝ) (n : ℤ × ℤ × ℤ) : ℂ :=
  if f.quad (at3 n r) = 0 then 0 else (-(2 / √Real.pi) : ℝ) * dReal f q e e' r lam n

theorem hasDerivAt_tReal {erfc : ℝ → ℝ} (he : IsErfc erfc) (f : Form) (q e e' r : ℝ × ℝ × ℝ) (n : ℤ × ℤ × ℤ) (lam : ℝ) :
    HasDerivAt (fun lam => tReal erfc f q e e' r lam n) (dReal0 f q e e' r lam n) lam := by
  unfold tReal dReal0
  split
  · rename_i h
    simp only [hReal_zero h, Complex.ofReal_zero, mul_zero]
    exact hasDerivAt_const _ _
  · rename_i h
    refine ((hasDerivAt_hReal he f e e' h lam).ofReal_comp.const_mul (ph (dot3 n q))).congr_deriv ?_
    unfold dReal
    push_cast
    ring

theorem norm_dReal0 (f : Form) (q e e' r : ℝ × ℝ × ℝ) {l L lam : ℝ} (hl : 0 < l) (h1 : l ≤ lam) (h2 : lam ≤ L) (n : ℤ × ℤ × ℤ) :
    ‖dReal0 f q e e' r lam n‖ ≤ 2 / √Real.pi * (4 * L ^ 4 * (f.quad e + f.quad e') * (2 / l ^ 2) + 2 * L ^ 2 * |f.bil e e'|) *
      Real.exp (-(l ^ 2 / 2) * f.quad (at3 n r)) := by
  have hp := Real.sqrt_pos.2 Real.pi_pos
  have n1 := f.quad_nonneg e
  have n2 := f.quad_nonneg e'
  have n3 := f.quad_nonneg (at3 n r)
  have hL : 0 < L := by linarith
  unfold dReal0
  split
  · rw [norm_zero]
    positivity
  · rw [norm_mul, Complex.norm_real, Real.norm_eq_abs, abs_neg, abs_of_pos (by positivity), mul_assoc]
    refine mul_le_mul_of_nonneg_left ?_ (by positivity)
    rw [dReal, norm_ph_real, abs_mul, abs_of_pos (Real.exp_pos _)]
    have hb := abs_mul_le_of_sq (f.bil_sq (at3 n r) e) (f.bil_sq (at3 n r) e')
    have hexp : Real.exp (-lam ^ 2 * f.quad (at3 n r)) ≤ Real.exp (-l ^ 2 * f.quad (at3 n r)) := by
      rw [Real.exp_le_exp]
      have : l ^ 2 ≤ lam ^ 2 := pow_le_pow_left₀ hl.le h1 2
      nlinarith
    have hexp2 : Real.exp (-l ^ 2 * f.quad (at3 n r)) ≤ Real.exp (-(l ^ 2 / 2) * f.quad (at3 n r)) := by
      rw [Real.exp_le_exp]
      have : 0 ≤ l ^ 2 * f.quad (at3 n r) := by positivity
      linarith
    have hlin := lin_exp (c := l ^ 2) (by positivity) n3
    have p4 : lam ^ 4 ≤ L ^ 4 := pow_le_pow_left₀ (by linarith) h2 4
    have p2 : lam ^ 2 ≤ L ^ 2 := pow_le_pow_left₀ (by linarith) h2 2
    have hc : |4 * lam ^ 4 * (f.bil (at3 n r) e * f.bil (at3 n r) e') - 2 * lam ^ 2 * f.bil e e'| ≤
        4 * L ^ 4 * (f.quad e + f.quad e') * f.quad (at3 n r) + 2 * L ^ 2 * |f.bil e e'| := by
      refine (abs_sub _ _).trans ?_
      rw [abs_mul, abs_of_nonneg (by positivity : 0 ≤ 4 * lam ^ 4), abs_mul (2 * lam ^ 2), abs_of_nonneg (by positivity : 0 ≤ 2 * lam ^ 2)]
      refine add_le_add ?_ ?_
      · calc 4 * lam ^ 4 * |f.bil (at3 n r) e * f.bil (at3 n r) e'| ≤
            4 * L ^ 4 * (f.quad (at3 n r) * f.quad e + f.quad (at3 n r) * f.quad e') :=
              mul_le_mul (by linarith) hb (abs_nonneg _) (by positivity)
          _ = _ := by ring
      · exact mul_le_mul_of_nonneg_right (by linarith) (abs_nonneg _)
    generalize f.quad (at3 n r) = Q at *
    calc _ ≤ (4 * L ^ 4 * (f.quad e + f.quad e') * Q + 2 * L ^ 2 * |f.bil e e'|) * Real.exp (-l ^ 2 * Q) :=
          mul_le_mul hc hexp (Real.exp_pos _).le (by positivity)
      _ = 4 * L ^ 4 * (f.quad e + f.quad e') * (Q * Real.exp (-l ^ 2 * Q)) + 2 * L ^ 2 * |f.bil e e'| * Real.exp (-l ^ 2 * Q) := by ring
      _ ≤ 4 * L ^ 4 * (f.quad e + f.quad e') * (2 / l ^ 2 * Real.exp (-(l ^ 2 / 2) * Q)) +
          2 * L ^ 2 * |f.bil e e'| * Real.exp (-(l ^ 2 / 2) * Q) :=
        add_le_add (mul_le_mul_of_nonneg_left hlin (by positivity)) (mul_le_mul_of_nonneg_left hexp2 (by positivity))
      _ = _ := by ring

theorem norm_dRecip (f : Form) (q e e' r : ℝ × ℝ × ℝ) {L lam : ℝ} (h1 : 0 < lam) (h2 : lam ≤ L) (n : ℤ × ℤ × ℤ) :
    ‖dRecip f q e e' r lam n‖ ≤ (f.quad e + f.quad e') * (2 / (Real.pi ^ 2 / L ^ 2)) *
      Real.exp (-(Real.pi ^ 2 / L ^ 2 / 2) * f.dual (add3 n q)) := by
  have hP := Real.pi_pos
  have n1 := f.quad_nonneg e
  have n2 := f.quad_nonneg e'
  have n3 := f.dual_nonneg (add3 n q)
  have hL : 0 < L := by linarith
  rw [dRecip, norm_ph_real, abs_mul, abs_of_pos (Real.exp_pos _)]
  have hb := abs_mul_le_of_sq (f.mul3_sq (add3 n q) e) (f.mul3_sq (add3 n q) e')
  have hexp : Real.exp (-(Real.pi ^ 2 / lam ^ 2) * f.dual (add3 n q)) ≤ Real.exp (-(Real.pi ^ 2 / L ^ 2) * f.dual (add3 n q)) := by
    rw [Real.exp_le_exp]
    have : Real.pi ^ 2 / L ^ 2 ≤ Real.pi ^ 2 / lam ^ 2 :=
      div_le_div_of_nonneg_left (by positivity) (by positivity) (pow_le_pow_left₀ h1.le h2 2)
    nlinarith
  have hlin := lin_exp (c := Real.pi ^ 2 / L ^ 2) (by positivity) n3
  generalize f.dual (add3 n q) = P at *
  calc _ ≤ (P * f.quad e + P * f.quad e') * Real.exp (-(Real.pi ^ 2 / L ^ 2) * P) :=
        mul_le_mul hb hexp (Real.exp_pos _).le (by positivity)
    _ = (f.quad e + f.quad e') * (P * Real.exp (-(Real.pi ^ 2 / L ^ 2) * P)) := by ring
    _ ≤ (f.quad e + f.quad e') * (2 / (Real.pi ^ 2 / L ^ 2) * Real.exp (-(Real.pi ^ 2 / L ^ 2 / 2) * P)) :=
      mul_le_mul_of_nonneg_left hlin (by positivity)
    _ = _ := by ring

theorem hasDerivAt_tRecip (f : Form) (q e e' r : ℝ × ℝ × ℝ) (n : ℤ × ℤ × ℤ) {lam : ℝ} (hl : lam ≠ 0) :
    HasDerivAt (fun lam => tRecip f q e e' r lam n) ((2 * Real.pi ^ 2 / lam ^ 3 : ℝ) * dRecip f q e e' r lam n) lam := by
  refine ((hasDerivAt_hRecip f e e' (add3 n q) hl).ofReal_comp.const_mul (ph (mul3 (add3 n q) r))).congr_deriv ?_
  unfold dRecip
  push_cast
  ring

theorem hasDerivAt_sum_tReal {erfc : ℝ → ℝ} (he : IsErfc erfc) (f : Form) (q e e' r : ℝ × ℝ × ℝ) {lam : ℝ} (hl : 0 < lam) :
    HasDerivAt (fun lam => ∑' n, tReal erfc f q e e' r lam n) (∑' n, dReal0 f q e e' r lam n) lam := by
  have hm : lam ∈ Set.Ioo (lam / 2) (2 * lam) := ⟨by linarith, by linarith⟩
  exact hasDerivAt_tsum_of_isPreconnected (𝕜 := ℝ) (t := Set.Ioo (lam / 2) (2 * lam))
    (g := fun n t => tReal erfc f q e e' r t n) (g' := fun n t => dReal0 f q e e' r t n)
    ((f.summable (by positivity : 0 < (lam / 2) ^ 2 / 2) r).mul_left (2 / √Real.pi * (4 * (2 * lam) ^ 4 * (f.quad e + f.quad e') *
      (2 / (lam / 2) ^ 2) + 2 * (2 * lam) ^ 2 * |f.bil e e'|))) isOpen_Ioo isPreconnected_Ioo
    (fun n t _ => hasDerivAt_tReal he f q e e' r n t) (fun n t ht => norm_dReal0 f q e e' r (half_pos hl) ht.1.le ht.2.le n) hm
    (summable_tReal he f q e e' r hl) hm

theorem hasDerivAt_sum_tRecip (f : Form) (q e e' r : ℝ × ℝ × ℝ) {lam : ℝ} (hl : 0 < lam) :
    HasDerivAt (fun lam => ∑' n, tRecip f q e e' r lam n) ((2 * Real.pi ^ 2 / lam ^ 3 : ℝ) * ∑' n, dRecip f q e e' r lam n) lam := by
  have hP := Real.pi_pos
  have hm : lam ∈ Set.Ioo (lam / 2) (2 * lam) := ⟨by linarith, by linarith⟩
  have n1 := f.quad_nonneg e
  have n2 := f.quad_nonneg e'
  rw [← tsum_mul_left]
  refine hasDerivAt_tsum_of_isPreconnected (𝕜 := ℝ) (t := Set.Ioo (lam / 2) (2 * lam))
    (g := fun n t => tRecip f q e e' r t n) (g' := fun n t => (2 * Real.pi ^ 2 / t ^ 3 : ℝ) * dRecip f q e e' r t n)
    ((f.summable_dual' (by positivity : 0 < Real.pi ^ 2 / (2 * lam) ^ 2 / 2) q).mul_left (2 * Real.pi ^ 2 / (lam / 2) ^ 3 *
      ((f.quad e + f.quad e') * (2 / (Real.pi ^ 2 / (2 * lam) ^ 2))))) isOpen_Ioo isPreconnected_Ioo
    (fun n t ht => hasDerivAt_tRecip f q e e' r n (by have := ht.1; linarith)) (fun n t ht => ?_) hm
    (summable_tRecip f q e e' r hl) hm
  have h0 : 0 < t := by have := ht.1; linarith
  rw [norm_mul, Complex.norm_real, Real.norm_eq_abs, abs_of_pos (by positivity), mul_assoc]
  refine mul_le_mul ?_ (norm_dRecip f q e e' r h0 ht.2.le n) (norm_nonneg _) (by positivity)
  exact div_le_div_of_nonneg_left (by positivity) (by positivity) (pow_le_pow_left₀ (by positivity) ht.1.le 3)

/-- Phases of the points at distance zero. -/
noncomputable def selfPhase (f : Form) (q r : ℝ × ℝ × ℝ) : ℂ := ∑' n, if f.quad (at3 n r) = 0 then ph (dot3 n q) else 0

theorem finite_self (f : Form) (r : ℝ × ℝ × ℝ) : {n : ℤ × ℤ × ℤ | f.quad (at3 n r) = 0}.Finite := by
  have h := eventually_quad f r
  rw [Filter.eventually_cofinite] at h
  refine h.subset fun n hn => ?_
  simp only [Set.mem_ofPred_eq] at hn ⊢
  rw [hn]
  norm_num

theorem summable_self (f : Form) (q r : ℝ × ℝ × ℝ) : Summable fun n => if f.quad (at3 n r) = 0 then ph (dot3 n q) else 0 := by
  refine summable_of_hasFiniteSupport ((finite_self f r).subset fun n hn => ?_)
  by_contra hc
  simp only [Set.mem_ofPred_eq] at hc
  simp [hc] at hn

theorem summable_dReal (f : Form) (q e e' r : ℝ × ℝ × ℝ) {lam : ℝ} (hl : 0 < lam) : Summable (dReal f q e e' r lam) := by
  have hP := Real.pi_pos
  have hc : 0 < lam ^ 2 / Real.pi := by positivity
  refine (summable_g2 (f.scale _ hc) q e e' r).congr fun n => ?_
  unfold g2 dReal
  rw [f.scale_bil, f.scale_bil, f.scale_bil, f.scale_quad]
  congr 3
  · field_simp
  · congr 1
    field_simp

theorem sum_dReal0 (f : Form) (q e e' r : ℝ × ℝ × ℝ) {lam : ℝ} (hl : 0 < lam) : ∑' n, dReal0 f q e e' r lam n =
    (-(2 / √Real.pi) : ℝ) * (∑' n, dReal f q e e' r lam n + (2 * lam ^ 2 * f.bil e e' : ℝ) * selfPhase f q r) := by
  unfold selfPhase
  rw [← tsum_mul_left, ← (summable_dReal f q e e' r hl).tsum_add ((summable_self f q r).mul_left _), ← tsum_mul_left]
  refine tsum_congr fun n => ?_
  unfold dReal0
  split
  · rename_i h
    unfold dReal
    rw [quad_eq_zero h e, h]
    simp only [zero_mul, mul_zero, Real.exp_zero, mul_one, zero_sub]
    push_cast
    ring
  · rw [mul_zero, add_zero]

/-- The two sums together. -/
noncomputable def ewald (erfc : ℝ → ℝ) (f : Form) (q e e' r : ℝ × ℝ × ℝ) (lam : ℝ) : ℂ :=
  (4 * Real.pi : ℝ) * ∑' n, tRecip f q e e' r lam n - (√f.det : ℝ) * ∑' n, tReal erfc f q e e' r lam n

/-- The two sums together depend on the width only through the term left out. -/
theorem hasDerivAt_ewald {erfc : ℝ → ℝ} (he : IsErfc erfc) (f : Form) (q e e' r : ℝ × ℝ × ℝ) {lam : ℝ} (hl : 0 < lam) :
    HasDerivAt (ewald erfc f q e e' r) ((4 / √Real.pi * √f.det * lam ^ 2 * f.bil e e' : ℝ) * selfPhase f q r) lam := by
  have hP := Real.pi_pos
  have h := ((hasDerivAt_sum_tRecip f q e e' r hl).const_mul ((4 * Real.pi : ℝ) : ℂ)).sub
    ((hasDerivAt_sum_tReal he f q e e' r hl).const_mul ((√f.det : ℝ) : ℂ))
  refine h.congr_deriv ?_
  rw [sum_dReal0 f q e e' r hl, poisson_lam f q e e' r hl]
  have hd := Real.sqrt_pos.2 f.det_pos
  have hp := Real.sqrt_pos.2 hP
  have hd' : ((√f.det : ℝ) : ℂ) ≠ 0 := by exact_mod_cast hd.ne'
  have hp' : ((√Real.pi : ℝ) : ℂ) ≠ 0 := by exact_mod_cast hp.ne'
  have hl' : (lam : ℂ) ≠ 0 := by exact_mod_cast hl.ne'
  generalize ∑' n, dRecip f q e e' r lam n = S
  push_cast
  field_simp
  ring

theorem ewald_const {erfc : ℝ → ℝ} (he : IsErfc erfc) (f : Form) (q e e' r : ℝ × ℝ × ℝ) {l l' : ℝ} (hl : 0 < l) (hl' : 0 < l') :
    ewald erfc f q e e' r l - (4 / (3 * √Real.pi) * √f.det * l ^ 3 * f.bil e e' : ℝ) * selfPhase f q r =
      ewald erfc f q e e' r l' - (4 / (3 * √Real.pi) * √f.det * l' ^ 3 * f.bil e e' : ℝ) * selfPhase f q r := by
  have hd : ∀ t : ℝ, 0 < t → HasDerivAt (fun l : ℝ => ewald erfc f q e e' r l -
      (4 / (3 * √Real.pi) * √f.det * l ^ 3 * f.bil e e' : ℝ) * selfPhase f q r) 0 t := by
    intro t ht
    have h1 : HasDerivAt (fun l : ℝ => 4 / (3 * √Real.pi) * √f.det * l ^ 3 * f.bil e e')
        (4 / √Real.pi * √f.det * t ^ 2 * f.bil e e') t := by
      have hp := Real.sqrt_pos.2 Real.pi_pos
      refine (((hasDerivAt_pow 3 t).const_mul (4 / (3 * √Real.pi) * √f.det)).mul_const (f.bil e e')).congr_deriv ?_
      field_simp
      norm_num
      try ring
    refine ((hasDerivAt_ewald he f q e e' r ht).sub (h1.ofReal_comp.mul_const (selfPhase f q r))).congr_deriv ?_
    rw [sub_self]
  wlog h : l ≤ l' generalizing l l'
  · exact (this hl' hl (le_of_not_ge h)).symm
  have := constant_of_has_deriv_right_zero (a := l) (b := l') (fun t ht => (hd t (by have := ht.1; linarith)).continuousAt.continuousWithinAt)
    (fun t ht => (hd t (by have := ht.1; linarith)).hasDerivWithinAt) l' ⟨h, le_rfl⟩
  exact this.symm

end Euphonic.Poisson
