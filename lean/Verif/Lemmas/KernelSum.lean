import Mathlib.Analysis.SpecialFunctions.Gaussian.PoissonSummation
import Mathlib.Analysis.SpecialFunctions.Gaussian.GaussianIntegral
import Mathlib.Analysis.SpecialFunctions.ImproperIntegrals
import Mathlib.Analysis.SpecialFunctions.Trigonometric.Cotangent
import Mathlib.Analysis.SumIntegralComparisons
import Verif.Model.Broaden

/-!
Sums of the broadening kernels over the bins of an axis, compared with their integrals.
-/

set_option autoImplicit false

namespace Euphonic.Broaden

open Real MeasureTheory

/-! ## The kernels -/

theorem normPdf_eq (x s : ℝ) (hs : 0 < s) :
    normPdf x s = (√(2 * π) * s)⁻¹ * exp (-(1 / (2 * s ^ 2)) * x ^ 2) := by
  unfold normPdf
  rw [div_eq_inv_mul]
  congr 2
  field_simp

theorem lorentzian_eq (x g : ℝ) (hg : 0 < g) :
    lorentzian x g = (2 / (π * g)) * (1 + (x * (2 / g)) ^ 2)⁻¹ := by
  unfold lorentzian
  have := Real.pi_pos
  have h1 : x ^ 2 + (g / 2) ^ 2 ≠ 0 := by positivity
  have h2 : 1 + (x * (2 / g)) ^ 2 ≠ 0 := by positivity
  field_simp
  ring

theorem normPdf_pos (x s : ℝ) (hs : 0 < s) : 0 < normPdf x s := by
  unfold normPdf
  have := Real.pi_pos
  positivity

theorem lorentzian_pos (x g : ℝ) (hg : 0 < g) : 0 < lorentzian x g := by
  unfold lorentzian
  have := Real.pi_pos
  positivity

theorem normPdf_even (x s : ℝ) : normPdf (-x) s = normPdf x s := by
  unfold normPdf
  rw [show -x / s = -(x / s) from neg_div _ _, neg_sq]

theorem lorentzian_even (x g : ℝ) : lorentzian (-x) g = lorentzian x g := by
  unfold lorentzian
  rw [neg_sq]

theorem normPdf_integrable (s : ℝ) (hs : 0 < s) : Integrable fun x => normPdf x s := by
  simp only [normPdf_eq _ s hs]
  exact (integrable_exp_neg_mul_sq (by positivity)).const_mul _

theorem lorentzian_integrable (g : ℝ) (hg : 0 < g) : Integrable fun x => lorentzian x g := by
  simp only [lorentzian_eq _ g hg]
  exact (integrable_inv_one_add_sq.comp_mul_right' (by positivity)).const_mul _

theorem normPdf_integral (s : ℝ) (hs : 0 < s) : ∫ x, normPdf x s = 1 := by
  simp only [normPdf_eq _ s hs]
  rw [integral_const_mul, integral_gaussian]
  have : π / (1 / (2 * s ^ 2)) = (2 * π) * s ^ 2 := by field_simp
  rw [this, Real.sqrt_mul (show (0 : ℝ) ≤ 2 * π by positivity) (s ^ 2), Real.sqrt_sq hs.le, inv_mul_cancel₀]
  have := Real.pi_pos
  positivity

theorem lorentzian_integral (g : ℝ) (hg : 0 < g) : ∫ x, lorentzian x g = 1 := by
  simp only [lorentzian_eq _ g hg]
  rw [integral_const_mul, Measure.integral_comp_mul_right (fun x => (1 + x ^ 2)⁻¹),
    integral_univ_inv_one_add_sq]
  have := Real.pi_pos
  rw [abs_of_pos (by positivity), smul_eq_mul]
  field_simp

theorem normPdf_antitone (s : ℝ) (hs : 0 < s) : AntitoneOn (fun x => normPdf x s) (Set.Ici 0) := by
  intro x hx y hy hxy
  simp only [normPdf_eq _ s hs]
  have := Real.pi_pos
  refine mul_le_mul_of_nonneg_left (exp_le_exp.2 ?_) (by positivity)
  rw [neg_mul, neg_mul, neg_le_neg_iff]
  exact mul_le_mul_of_nonneg_left (pow_le_pow_left₀ hx hxy 2) (by positivity)

theorem lorentzian_antitone (g : ℝ) (hg : 0 < g) : AntitoneOn (fun x => lorentzian x g) (Set.Ici 0) := by
  intro x hx y hy hxy
  unfold lorentzian
  have := Real.pi_pos
  refine div_le_div_of_nonneg_left hg.le (by positivity) ?_
  have : x ^ 2 ≤ y ^ 2 := pow_le_pow_left₀ hx hxy 2
  nlinarith

/-! ## Tails -/

theorem tail_le (f : ℝ → ℝ) (h : ℝ) (hh : 0 < h) (anti : AntitoneOn f (Set.Ici 0))
    (hint : IntegrableOn f (Set.Ioi 0)) (hpos : ∀ x, 0 ≤ f x) :
    Summable (fun n : ℕ => h * f (((n : ℝ) + 1) * h)) ∧
    ∀ N : ℕ, ∑' n : ℕ, h * f (((n : ℝ) + N + 1) * h) ≤ ∫ x in Set.Ioi ((N : ℝ) * h), f x := by
  have anti' : AntitoneOn (fun x => f (x * h)) (Set.Ici 0) := by
    intro x hx y hy hxy
    exact anti (mul_nonneg hx hh.le) (mul_nonneg hy hh.le) (mul_le_mul_of_nonneg_right hxy hh.le)
  have hint' : IntegrableOn (fun x => f (x * h)) (Set.Ioi 0) := by
    rw [integrableOn_Ioi_comp_mul_right_iff _ _ hh, zero_mul]
    exact hint
  constructor
  · have := AntitoneOn.summable_of_integrableOn_Ioi_zero anti' hint' fun _ _ => hpos _
    have := ((summable_nat_add_iff 1).2 this).mul_left h
    simpa using this
  · intro N
    have := AntitoneOn.tsum_comp_add_le_integral N
      (anti'.mono (Set.Ici_subset_Ici.2 (Nat.cast_nonneg N)))
      (hint'.mono_set (Set.Ioi_subset_Ioi (Nat.cast_nonneg N))) fun _ _ => hpos _
    rw [integral_comp_mul_right_Ioi _ _ hh, smul_eq_mul] at this
    rw [tsum_mul_left]
    have h2 := mul_le_mul_of_nonneg_left this hh.le
    rw [← mul_assoc, mul_inv_cancel₀ hh.ne', one_mul] at h2
    simpa using h2

theorem normPdf_tail (s : ℝ) (hs : 0 < s) (a : ℝ) (ha : 0 ≤ a) :
    ∫ x in Set.Ioi a, normPdf x s ≤ 1 / 2 * exp (-(a / s) ^ 2 / 2) := by
  have hhalf : ∫ x in Set.Ioi (0 : ℝ), normPdf x s = 1 / 2 := by
    simp only [normPdf_eq _ s hs]
    rw [integral_const_mul, integral_gaussian_Ioi]
    have : π / (1 / (2 * s ^ 2)) = (2 * π) * s ^ 2 := by field_simp
    have := Real.pi_pos
    rw [‹π / (1 / (2 * s ^ 2)) = _›, Real.sqrt_mul (show (0 : ℝ) ≤ 2 * π by positivity) (s ^ 2),
      Real.sqrt_sq hs.le]
    field_simp
  have hshift : ∫ x in Set.Ioi a, normPdf x s = ∫ x in Set.Ioi (0 : ℝ), normPdf (x + a) s := by
    have := (measurePreserving_add_right volume a).setIntegral_preimage_emb
      (measurableEmbedding_addRight a) (fun x => normPdf x s) (Set.Ioi a)
    rw [← this]
    congr 2
    ext x
    simp
  rw [hshift]
  have hle : ∫ x in Set.Ioi (0 : ℝ), normPdf (x + a) s ≤
      ∫ x in Set.Ioi (0 : ℝ), exp (-(a / s) ^ 2 / 2) * normPdf x s := by
    refine setIntegral_mono_on ?_ ?_ measurableSet_Ioi ?_
    · exact ((normPdf_integrable s hs).comp_add_right a).integrableOn
    · exact ((normPdf_integrable s hs).const_mul _).integrableOn
    · intro x hx
      unfold normPdf
      rw [← mul_div_assoc, ← exp_add]
      have := Real.pi_pos
      refine div_le_div_of_nonneg_right (exp_le_exp.2 ?_) (by positivity)
      have h1 : 0 ≤ (x / s) * (a / s) := mul_nonneg (div_nonneg (le_of_lt hx) hs.le) (div_nonneg ha hs.le)
      rw [add_div]
      nlinarith
  rw [integral_const_mul, hhalf] at hle
  linarith

theorem lorentzian_tail (g : ℝ) (hg : 0 < g) (a : ℝ) :
    ∫ x in Set.Ioi a, lorentzian x g = 1 / 2 - arctan (2 * a / g) / π := by
  simp only [lorentzian_eq _ g hg]
  have := Real.pi_pos
  rw [integral_const_mul, integral_comp_mul_right_Ioi (fun x => (1 + x ^ 2)⁻¹) a (by positivity),
    integral_Ioi_inv_one_add_sq, smul_eq_mul, show a * (2 / g) = 2 * a / g by ring]
  field_simp

/-! ## Sums over all bins of an axis without ends -/

theorem int_sum_even (f : ℤ → ℝ) (heven : ∀ n, f (-n) = f n) (hf : Summable f) :
    ∑' n : ℤ, f n = f 0 + 2 * ∑' n : ℕ, f ((n : ℤ) + 1) := by
  have h1 : Summable fun n : ℕ => f n := hf.comp_injective Nat.cast_injective
  have h3 : Summable fun n : ℕ => f ((n : ℤ) + 1) := by
    simpa using (summable_nat_add_iff 1).2 h1
  have h2 : Summable fun n : ℕ => f (-((n : ℤ) + 1)) := by
    simpa only [heven] using h3
  rw [tsum_of_nat_of_neg_add_one h1 h2, h1.tsum_eq_zero_add]
  simp only [heven]
  push_cast
  ring

theorem summable_gauss_int (c : ℝ) (hc : 0 < c) : Summable fun n : ℤ => exp (-c * (n : ℝ) ^ 2) := by
  have hq : ‖exp (-c)‖ < 1 := by
    rw [Real.norm_of_nonneg (exp_pos _).le, exp_lt_one_iff]
    linarith
  have hgeo := summable_geometric_of_norm_lt_one hq
  have hle : ∀ n : ℕ, exp (-c * (n : ℝ) ^ 2) ≤ exp (-c) ^ n := by
    intro n
    rw [← exp_nat_mul]
    refine exp_le_exp.2 ?_
    have : (n : ℝ) ≤ (n : ℝ) ^ 2 := by
      exact_mod_cast Nat.le_self_pow (by norm_num) n
    nlinarith
  have hnat : Summable fun n : ℕ => exp (-c * (n : ℝ) ^ 2) :=
    Summable.of_nonneg_of_le (fun _ => (exp_pos _).le) hle hgeo
  refine Summable.of_nat_of_neg ?_ ?_
  · simpa using hnat
  · simpa using hnat

theorem gauss_total (s h : ℝ) (hs : 0 < s) (hh : 0 < h) :
    h * normPdf 0 s + 2 * ∑' n : ℕ, h * normPdf (((n : ℝ) + 1) * h) s =
      1 + 2 * ∑' n : ℕ, exp (-(2 * π ^ 2 * (s / h) ^ 2) * ((n : ℝ) + 1) ^ 2) := by
  have hpi := Real.pi_pos
  have ha : 0 < h ^ 2 / (2 * π * s ^ 2) := by positivity
  have key := Real.tsum_exp_neg_mul_int_sq ha
  have e1 : ∀ n : ℤ, -π * (h ^ 2 / (2 * π * s ^ 2)) * (n : ℝ) ^ 2 = -(h ^ 2 / (2 * s ^ 2)) * (n : ℝ) ^ 2 := by
    intro n
    field_simp
  have e2 : ∀ n : ℤ, -π / (h ^ 2 / (2 * π * s ^ 2)) * (n : ℝ) ^ 2 =
      -(2 * π ^ 2 * (s / h) ^ 2) * (n : ℝ) ^ 2 := by
    intro n
    field_simp
  have e3 : (h ^ 2 / (2 * π * s ^ 2)) ^ (1 / 2 : ℝ) = h / (√(2 * π) * s) := by
    rw [← Real.sqrt_eq_rpow, Real.sqrt_div (by positivity), Real.sqrt_sq hh.le,
      Real.sqrt_mul (show (0 : ℝ) ≤ 2 * π by positivity) (s ^ 2), Real.sqrt_sq hs.le]
  simp only [e1, e2] at key
  rw [e3, int_sum_even _ (by intro n; push_cast; rw [neg_sq]) (summable_gauss_int _ (by positivity)),
    int_sum_even _ (by intro n; push_cast; rw [neg_sq]) (summable_gauss_int _ (by positivity))] at key
  push_cast at key
  simp only [ne_eq, OfNat.ofNat_ne_zero, not_false_eq_true, zero_pow, mul_zero, exp_zero] at key
  have hterm : ∀ x : ℝ, h * normPdf (x * h) s = h / (√(2 * π) * s) * exp (-(h ^ 2 / (2 * s ^ 2)) * x ^ 2) := by
    intro x
    rw [normPdf_eq _ _ hs, ← mul_assoc, ← div_eq_mul_inv]
    congr 2
    ring
  have h0 : h * normPdf 0 s = h / (√(2 * π) * s) := by
    have := hterm 0
    simpa using this
  simp only [hterm, h0]
  rw [tsum_mul_left]
  have hc : h / (√(2 * π) * s) ≠ 0 := by positivity
  have := congrArg (fun x => h / (√(2 * π) * s) * x) key
  rw [← mul_assoc, mul_one_div_cancel hc, one_mul] at this
  linarith

theorem gauss_excess (c : ℝ) (hc : 0 < c) :
    0 ≤ ∑' n : ℕ, exp (-c * ((n : ℝ) + 1) ^ 2) ∧
      ∑' n : ℕ, exp (-c * ((n : ℝ) + 1) ^ 2) ≤ 1 / (exp c - 1) := by
  refine ⟨tsum_nonneg fun _ => (exp_pos _).le, ?_⟩
  have hq0 := exp_pos (-c)
  have hq1 : exp (-c) < 1 := by
    rw [exp_lt_one_iff]
    linarith
  have hgeo := (hasSum_geometric_of_lt_one hq0.le hq1).mul_left (exp (-c))
  have hle : ∀ n : ℕ, exp (-c * ((n : ℝ) + 1) ^ 2) ≤ exp (-c) * exp (-c) ^ n := by
    intro n
    rw [← exp_nat_mul, ← exp_add]
    refine exp_le_exp.2 ?_
    have : (0 : ℝ) ≤ n := Nat.cast_nonneg n
    nlinarith [mul_nonneg hc.le this, mul_nonneg hc.le (sq_nonneg (n : ℝ))]
  have hsum := Summable.of_nonneg_of_le (fun n => (exp_pos _).le) hle hgeo.summable
  refine (hsum.tsum_le_tsum hle hgeo.summable).trans ?_
  rw [hgeo.tsum_eq, exp_neg]
  have h1 : 1 < exp c := by
    rw [one_lt_exp_iff]
    exact hc
  have h2 : exp c - 1 ≠ 0 := by linarith
  have h3 := (exp_pos c).ne'
  rw [show 1 - (exp c)⁻¹ = (exp c - 1) / exp c by field_simp]
  field_simp
  exact le_rfl

theorem lorentz_total (g h : ℝ) (hg : 0 < g) (hh : 0 < h) :
    h * lorentzian 0 g + 2 * ∑' n : ℕ, h * lorentzian (((n : ℝ) + 1) * h) g =
      1 + 2 / (exp (π * g / h) - 1) := by
  have hpi := Real.pi_pos
  obtain ⟨y, hy⟩ : ∃ y, y = g / (2 * h) := ⟨_, rfl⟩
  have hy0 : 0 < y := by rw [hy]; positivity
  have hx : (Complex.I * (y : ℂ)) ∈ Complex.integerComplement := by
    rw [Complex.mem_integerComplement_iff]
    rintro ⟨n, hn⟩
    have := congrArg Complex.im hn
    simp at this
    exact hy0.ne this
  have key := cot_series_rep' hx
  rw [Complex.cot_pi_eq_exp_ratio] at key
  have hE : Complex.exp (2 * (π : ℂ) * Complex.I * (Complex.I * (y : ℂ))) = ((exp (-(2 * π * y)) : ℝ) : ℂ) := by
    rw [Complex.ofReal_exp]
    congr 1
    push_cast
    linear_combination (2 * (π : ℂ) * y) * Complex.I_mul_I
  rw [hE] at key
  have hterm : ∀ n : ℕ, (1 / (Complex.I * (y : ℂ) - (n + 1)) + 1 / (Complex.I * (y : ℂ) + (n + 1))) =
      -(2 * Complex.I) * (((y / (y ^ 2 + ((n : ℝ) + 1) ^ 2) : ℝ)) : ℂ) := by
    intro n
    have hre : ((y : ℂ) ^ 2 + ((n : ℂ) + 1) ^ 2) ≠ 0 := by
      have : (y ^ 2 + ((n : ℝ) + 1) ^ 2) ≠ 0 := by positivity
      exact_mod_cast this
    have hprod : (Complex.I * (y : ℂ) - (n + 1)) * (Complex.I * (y : ℂ) + (n + 1)) =
        -((y : ℂ) ^ 2 + ((n : ℂ) + 1) ^ 2) := by
      linear_combination ((y : ℂ) ^ 2) * Complex.I_mul_I
    have hne : (Complex.I * (y : ℂ) - (n + 1)) * (Complex.I * (y : ℂ) + (n + 1)) ≠ 0 := by
      rw [hprod]
      exact neg_ne_zero.2 hre
    have hn1 := left_ne_zero_of_mul hne
    have hn2 := right_ne_zero_of_mul hne
    rw [div_add_div _ _ hn1 hn2, hprod]
    push_cast
    field_simp
    ring
  simp only [hterm] at key
  rw [tsum_mul_left, ← Complex.ofReal_tsum] at key
  have h1 : exp (-(2 * π * y)) < 1 := by
    rw [exp_lt_one_iff]
    have : 0 < π * y := by positivity
    linarith
  set S := ∑' n : ℕ, y / (y ^ 2 + ((n : ℝ) + 1) ^ 2) with hS
  set E := exp (-(2 * π * y)) with hEd
  have hE1 : (1 - E) ≠ 0 := by linarith
  have hreal : π * ((E + 1) / (1 - E)) = 1 / y + 2 * S := by
    have hE1' : ((1 : ℂ) - (E : ℂ)) ≠ 0 := by exact_mod_cast hE1
    have hyc : (y : ℂ) ≠ 0 := by exact_mod_cast hy0.ne'
    have : (π : ℂ) * (((E : ℂ) + 1) / (1 - (E : ℂ))) = 1 / (y : ℂ) + 2 * (S : ℂ) := by
      have hI := Complex.I_ne_zero
      have hI2 := Complex.I_mul_I
      have e1 : (π : ℂ) * (((E : ℂ) + 1) / (Complex.I * (1 - (E : ℂ)))) =
          -Complex.I * ((π : ℂ) * (((E : ℂ) + 1) / (1 - (E : ℂ)))) := by
        field_simp
        linear_combination ((E : ℂ) + 1) * hI2
      have e2 : 1 / (Complex.I * (y : ℂ)) = -Complex.I * (1 / (y : ℂ)) := by
        field_simp
        linear_combination hI2
      rw [e1, e2] at key
      have := congrArg (fun z => Complex.I * z) key
      linear_combination this + (-(1 / (y : ℂ)) - 2 * (S : ℂ) + (π : ℂ) * (((E : ℂ) + 1) / (1 - (E : ℂ)))) * hI2
    exact_mod_cast this
  have hl : ∀ x : ℝ, h * lorentzian (x * h) g = 1 / π * (y / (y ^ 2 + x ^ 2)) := by
    intro x
    unfold lorentzian
    rw [hy]
    have : (x * h) ^ 2 + (g / 2) ^ 2 ≠ 0 := by positivity
    have : (g / (2 * h)) ^ 2 + x ^ 2 ≠ 0 := by positivity
    field_simp
    ring
  have hl0 : h * lorentzian 0 g = 1 / π * (1 / y) := by
    have := hl 0
    rw [zero_mul] at this
    rw [this]
    field_simp
    ring
  simp only [hl, hl0]
  rw [tsum_mul_left, ← hS]
  have e3 : 1 / π * (1 / y) + 2 * (1 / π * S) = (E + 1) / (1 - E) := by
    have := congrArg (fun z => 1 / π * z) hreal
    rw [← mul_assoc, one_div_mul_cancel hpi.ne', one_mul] at this
    rw [this]
    ring
  rw [e3, hEd, show π * g / h = 2 * π * y by rw [hy]; field_simp, exp_neg]
  have h4 : 1 < exp (2 * π * y) := by
    rw [one_lt_exp_iff]
    positivity
  have h5 : exp (2 * π * y) - 1 ≠ 0 := by linarith
  have h6 : 1 - (exp (2 * π * y))⁻¹ ≠ 0 := by
    rw [hEd, exp_neg] at hE1
    exact hE1
  field_simp
  ring

end Euphonic.Broaden
