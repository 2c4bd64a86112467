import Mathlib.Analysis.InnerProductSpace.PiL2
import Mathlib.LinearAlgebra.FiniteDimensional.Lemmas
import Mathlib.Analysis.Calculus.Deriv.Comp
import Mathlib.Analysis.Calculus.Deriv.Add
import Mathlib.Analysis.Calculus.Deriv.Mul
import Mathlib.Analysis.Calculus.FDeriv.Linear
import Mathlib.Analysis.Complex.Basic

/-!
# Eigenvalues of Hermitian operators that depend on a parameter

Weyl's inequality for the eigenvalues in increasing order, and the derivative of a simple eigenvalue (the theorem of
Hellmann and Feynman), for families of operators with orthonormal bases of eigenvectors that need not depend
continuously on the parameter.
-/

set_option autoImplicit false
set_option linter.unusedSectionVars false

namespace Euphonic.Eigen

open scoped InnerProductSpace

variable {E : Type} [NormedAddCommGroup E] [InnerProductSpace ℂ E] [FiniteDimensional ℂ E] {m : Nat}

/-- An operator with an orthonormal basis of eigenvectors, eigenvalues in increasing order. -/
structure Diag (T : E →L[ℂ] E) (l : Fin m → ℝ) (b : OrthonormalBasis (Fin m) ℂ E) : Prop where
  mono : Monotone l
  eigen : ∀ i, T (b i) = (l i : ℂ) • b i

theorem Diag.apply {T : E →L[ℂ] E} {l : Fin m → ℝ} {b : OrthonormalBasis (Fin m) ℂ E} (h : Diag T l b) (v : E) :
    T v = ∑ i, ((l i : ℂ) * ⟪b i, v⟫_ℂ) • b i := by
  conv_lhs => rw [← b.sum_repr' v]
  rw [map_sum]
  refine Finset.sum_congr rfl fun i _ => ?_
  rw [map_smul, h.eigen, smul_smul, mul_comm]

theorem Diag.inner_apply {T : E →L[ℂ] E} {l : Fin m → ℝ} {b : OrthonormalBasis (Fin m) ℂ E} (h : Diag T l b)
    (i : Fin m) (v : E) : ⟪b i, T v⟫_ℂ = (l i : ℂ) * ⟪b i, v⟫_ℂ := by
  rw [h.apply v, inner_sum]
  simp only [inner_smul_right, orthonormal_iff_ite.1 b.orthonormal, mul_ite, mul_one, mul_zero]
  simp

theorem Diag.quad {T : E →L[ℂ] E} {l : Fin m → ℝ} {b : OrthonormalBasis (Fin m) ℂ E} (h : Diag T l b) (v : E) :
    (⟪v, T v⟫_ℂ).re = ∑ i, l i * ‖⟪b i, v⟫_ℂ‖ ^ 2 := by
  rw [← b.sum_inner_mul_inner v (T v), Complex.re_sum]
  refine Finset.sum_congr rfl fun i _ => ?_
  rw [h.inner_apply, ← inner_conj_symm v (b i), mul_left_comm, Complex.conj_mul', ← Complex.ofReal_pow,
    ← Complex.ofReal_mul, Complex.ofReal_re]

/-- Weyl's inequality. -/
theorem Diag.weyl {T S : E →L[ℂ] E} {l μ : Fin m → ℝ} {b c : OrthonormalBasis (Fin m) ℂ E} (hT : Diag T l b)
    (hS : Diag S μ c) (s : Fin m) : l s ≤ μ s + ‖T - S‖ := by
  classical
  let L : E →ₗ[ℂ] ({j : Fin m // j ≠ s} → ℂ) :=
    LinearMap.pi fun j => if j.1 < s then (innerSL ℂ (b j.1)).toLinearMap else (innerSL ℂ (c j.1)).toLinearMap
  have hdim : Module.finrank ℂ ({j : Fin m // j ≠ s} → ℂ) < Module.finrank ℂ E := by
    rw [Module.finrank_fintype_fun_eq_card, Module.finrank_eq_card_basis b.toBasis, Fintype.card_subtype_compl,
      Fintype.card_fin, Fintype.card_unique]
    have := s.2
    omega
  obtain ⟨v, hv, hv0⟩ := Submodule.exists_mem_ne_zero_of_ne_bot (LinearMap.ker_ne_bot_of_finrank_lt hdim : LinearMap.ker L ≠ ⊥)
  have hb : ∀ j, j < s → ⟪b j, v⟫_ℂ = 0 := fun j hj => by
    have := congrFun (LinearMap.mem_ker.1 hv) ⟨j, hj.ne⟩
    simpa [L, hj] using this
  have hc : ∀ j, s < j → ⟪c j, v⟫_ℂ = 0 := fun j hj => by
    have := congrFun (LinearMap.mem_ker.1 hv) ⟨j, hj.ne'⟩
    simpa [L, hj.not_gt] using this
  have h1 : l s * ‖v‖ ^ 2 ≤ (⟪v, T v⟫_ℂ).re := by
    rw [hT.quad, ← b.sum_sq_norm_inner_right v, Finset.mul_sum]
    refine Finset.sum_le_sum fun i _ => ?_
    rcases lt_or_ge i s with hi | hi
    · simp [hb i hi]
    · exact mul_le_mul_of_nonneg_right (hT.mono hi) (sq_nonneg _)
  have h2 : (⟪v, S v⟫_ℂ).re ≤ μ s * ‖v‖ ^ 2 := by
    rw [hS.quad, ← c.sum_sq_norm_inner_right v, Finset.mul_sum]
    refine Finset.sum_le_sum fun i _ => ?_
    rcases le_or_gt i s with hi | hi
    · exact mul_le_mul_of_nonneg_right (hS.mono hi) (sq_nonneg _)
    · simp [hc i hi]
  have h3 : (⟪v, T v⟫_ℂ).re ≤ (⟪v, S v⟫_ℂ).re + ‖T - S‖ * ‖v‖ ^ 2 := by
    have h : ⟪v, T v⟫_ℂ = ⟪v, S v⟫_ℂ + ⟪v, (T - S) v⟫_ℂ := by
      rw [← inner_add_right, sub_apply, add_sub_cancel]
    rw [h, Complex.add_re]
    have := (Complex.re_le_norm _).trans (norm_inner_le_norm (𝕜 := ℂ) v ((T - S) v))
    have h' := mul_le_mul_of_nonneg_left ((T - S).le_opNorm v) (norm_nonneg v)
    have h'' : ‖v‖ * (‖T - S‖ * ‖v‖) = ‖T - S‖ * ‖v‖ ^ 2 := by ring
    linarith
  have hp : 0 < ‖v‖ ^ 2 := pow_pos (norm_pos_iff.2 hv0) 2
  have : l s * ‖v‖ ^ 2 ≤ (μ s + ‖T - S‖) * ‖v‖ ^ 2 := by rw [add_mul]; linarith
  exact le_of_mul_le_mul_right this hp

theorem Diag.weyl_abs {T S : E →L[ℂ] E} {l μ : Fin m → ℝ} {b c : OrthonormalBasis (Fin m) ℂ E} (hT : Diag T l b)
    (hS : Diag S μ c) (s : Fin m) : |l s - μ s| ≤ ‖T - S‖ := by
  have h1 := hT.weyl hS s
  have h2 := hS.weyl hT s
  rw [norm_sub_rev] at h2
  rw [abs_le]
  constructor <;> linarith

/-- A bound for vectors orthogonal to a simple eigenvector. -/
theorem Diag.gap {T : E →L[ℂ] E} {l : Fin m → ℝ} {b : OrthonormalBasis (Fin m) ℂ E} (h : Diag T l b) {s : Fin m}
    {g : ℝ} (hg0 : 0 ≤ g) (hg : ∀ j, j ≠ s → g ≤ |l j - l s|) {v : E} (hv : ⟪b s, v⟫_ℂ = 0) :
    g * ‖v‖ ≤ ‖T v - (l s : ℂ) • v‖ := by
  rw [← abs_of_nonneg (mul_nonneg hg0 (norm_nonneg v)), ← abs_of_nonneg (norm_nonneg (T v - (l s : ℂ) • v)),
    ← sq_le_sq, mul_pow, ← b.sum_sq_norm_inner_right v, ← b.sum_sq_norm_inner_right (T v - (l s : ℂ) • v),
    Finset.mul_sum]
  refine Finset.sum_le_sum fun i _ => ?_
  have : ⟪b i, T v - (l s : ℂ) • v⟫_ℂ = ((l i - l s : ℝ) : ℂ) * ⟪b i, v⟫_ℂ := by
    rw [inner_sub_right, h.inner_apply, inner_smul_right]
    push_cast
    ring
  rw [this, norm_mul, mul_pow, Complex.norm_real, Real.norm_eq_abs]
  by_cases hi : i = s
  · rw [hi, hv]; simp
  · exact mul_le_mul_of_nonneg_right (pow_le_pow_left₀ hg0 (hg i hi) 2) (sq_nonneg _)

/-- First order perturbation theory with a bound for the error. -/
theorem Diag.perturb {T S : E →L[ℂ] E} {l μ : Fin m → ℝ} {b c : OrthonormalBasis (Fin m) ℂ E} (hT : Diag T l b)
    (hS : Diag S μ c) {s : Fin m} {g : ℝ} (hg0 : 0 < g) (hg : ∀ j, j ≠ s → g ≤ |l j - l s|)
    (hsmall : 4 * ‖S - T‖ ≤ g) :
    |μ s - l s - (⟪b s, (S - T) (b s)⟫_ℂ).re| ≤ 4 / g * ‖S - T‖ ^ 2 := by
  set a := ⟪b s, c s⟫_ℂ with ha
  set r := c s - a • b s with hr
  have hbs : ‖b s‖ = 1 := b.orthonormal.1 s
  have hcs : ‖c s‖ = 1 := c.orthonormal.1 s
  have hbb : ⟪b s, b s⟫_ℂ = 1 := by rw [inner_self_eq_norm_sq_to_K, hbs]; simp
  have hor : ⟪b s, r⟫_ℂ = 0 := by
    rw [hr, inner_sub_right, inner_smul_right, hbb, mul_one, sub_self]
  -- the remainder is small
  have hrn : g * ‖r‖ ≤ 2 * ‖S - T‖ := by
    refine (hT.gap hg0.le hg hor).trans ?_
    have h1 : T r - (l s : ℂ) • r = ((μ s - l s : ℝ) : ℂ) • c s - (S - T) (c s) := by
      rw [hr, map_sub, map_smul, hT.eigen, sub_apply, hS.eigen]
      push_cast
      simp only [smul_sub, sub_smul, smul_smul, mul_comm a]
      abel
    rw [h1]
    refine (norm_sub_le _ _).trans ?_
    have h2 : ‖((μ s - l s : ℝ) : ℂ) • c s‖ ≤ ‖S - T‖ := by
      rw [norm_smul, hcs, mul_one, Complex.norm_real]
      exact hS.weyl_abs hT s
    have h3 : ‖(S - T) (c s)‖ ≤ ‖S - T‖ := by
      have := (S - T).le_opNorm (c s)
      rwa [hcs, mul_one] at this
    linarith
  have hr2 : ‖r‖ ≤ 1 / 2 := by
    by_contra hlt
    push Not at hlt
    have := mul_lt_mul_of_pos_left hlt hg0
    linarith
  have han : 1 / 2 ≤ ‖a‖ := by
    have h1 : c s = r + a • b s := by rw [hr]; abel
    have h2 : ‖c s‖ ≤ ‖r‖ + ‖a • b s‖ := by
      conv_lhs => rw [h1]
      exact norm_add_le _ _
    rw [norm_smul, hbs, hcs, mul_one] at h2
    linarith
  have ha0 : a ≠ 0 := by
    intro h
    rw [h, norm_zero] at han
    linarith
  -- the identity
  have hid : ((μ s - l s : ℝ) : ℂ) * a = ⟪b s, (S - T) (b s)⟫_ℂ * a + ⟪b s, (S - T) r⟫_ℂ := by
    have h1 : ⟪b s, (S - T) (c s)⟫_ℂ = ((μ s - l s : ℝ) : ℂ) * a := by
      rw [sub_apply, inner_sub_right, hS.eigen, hT.inner_apply, inner_smul_right]
      push_cast
      ring
    have h2 : c s = a • b s + r := by rw [hr]; abel
    rw [← h1]
    conv_lhs => rw [h2]
    rw [map_add, map_smul, inner_add_right, inner_smul_right]
    ring
  have hdiff : ((μ s - l s : ℝ) : ℂ) - ⟪b s, (S - T) (b s)⟫_ℂ = ⟪b s, (S - T) r⟫_ℂ / a := by
    rw [eq_div_iff ha0, sub_mul, hid]
    ring
  have hre : μ s - l s - (⟪b s, (S - T) (b s)⟫_ℂ).re = (⟪b s, (S - T) r⟫_ℂ / a).re := by
    rw [← hdiff, Complex.sub_re, Complex.ofReal_re]
  rw [hre]
  refine (Complex.abs_re_le_norm _).trans ?_
  rw [norm_div]
  have h1 : ‖⟪b s, (S - T) r⟫_ℂ‖ ≤ ‖S - T‖ * ‖r‖ := by
    have := (norm_inner_le_norm (𝕜 := ℂ) (b s) ((S - T) r)).trans
      (mul_le_mul_of_nonneg_left ((S - T).le_opNorm r) (norm_nonneg _))
    rwa [hbs, one_mul] at this
  rw [div_le_iff₀ (by linarith)]
  have h2 : ‖r‖ ≤ 2 / g * ‖S - T‖ := by
    rw [div_mul_eq_mul_div, le_div_iff₀ hg0, mul_comm]
    exact hrn
  have h3 := mul_le_mul_of_nonneg_left h2 (norm_nonneg (S - T))
  have h4 : 4 / g * ‖S - T‖ ^ 2 * (1 / 2) ≤ 4 / g * ‖S - T‖ ^ 2 * ‖a‖ :=
    mul_le_mul_of_nonneg_left han (by positivity)
  have h5 : ‖S - T‖ * (2 / g * ‖S - T‖) = 4 / g * ‖S - T‖ ^ 2 * (1 / 2) := by ring
  linarith

/-- **Hellmann and Feynman.** A simple eigenvalue is differentiable wherever the operator is, and its derivative is the
expectation value of the derivative of the operator. -/
theorem hasDerivAt_eigenvalue {T : ℝ → E →L[ℂ] E} {l : ℝ → Fin m → ℝ} {b : ℝ → OrthonormalBasis (Fin m) ℂ E}
    (h : ∀ t, Diag (T t) (l t) (b t)) {T' : E →L[ℂ] E} {t₀ : ℝ} (hT : HasDerivAt T T' t₀) {s : Fin m}
    (hs : ∀ j, j ≠ s → l t₀ j ≠ l t₀ s) :
    HasDerivAt (fun t => l t s) (⟪b t₀ s, T' (b t₀ s)⟫_ℂ).re t₀ := by
  obtain ⟨g, hg0, hg⟩ : ∃ g : ℝ, 0 < g ∧ ∀ j, j ≠ s → g ≤ |l t₀ j - l t₀ s| := by
    rcases (Finset.univ.filter fun j : Fin m => j ≠ s).eq_empty_or_nonempty with he | hne
    · refine ⟨1, one_pos, fun j hj => ?_⟩
      have : j ∈ Finset.univ.filter fun j : Fin m => j ≠ s := Finset.mem_filter.2 ⟨Finset.mem_univ j, hj⟩
      rw [he] at this
      simp at this
    · obtain ⟨i, hi, hmin⟩ := Finset.exists_min_image _ (fun j => |l t₀ j - l t₀ s|) hne
      refine ⟨_, abs_pos.2 (sub_ne_zero.2 (hs i (Finset.mem_filter.1 hi).2)), fun j hj => ?_⟩
      exact hmin j (Finset.mem_filter.2 ⟨Finset.mem_univ j, hj⟩)
  -- the expectation value of T has the right derivative
  have h1 : HasDerivAt (fun t => (⟪b t₀ s, T t (b t₀ s)⟫_ℂ).re) (⟪b t₀ s, T' (b t₀ s)⟫_ℂ).re t₀ := by
    have h2 : HasDerivAt (fun t => T t (b t₀ s)) (T' (b t₀ s)) t₀ :=
      ((ContinuousLinearMap.apply ℂ E (b t₀ s)).restrictScalars ℝ).hasFDerivAt.comp_hasDerivAt t₀ hT
    have h3 : HasDerivAt (fun t => ⟪b t₀ s, T t (b t₀ s)⟫_ℂ) ⟪b t₀ s, T' (b t₀ s)⟫_ℂ t₀ :=
      ((innerSL ℂ (b t₀ s)).restrictScalars ℝ).hasFDerivAt.comp_hasDerivAt t₀ h2
    exact Complex.reCLM.hasFDerivAt.comp_hasDerivAt t₀ h3
  rw [hasDerivAt_iff_isLittleO] at h1 ⊢
  have hO : (fun t => T t - T t₀) =O[nhds t₀] fun t => t - t₀ := hT.hasFDerivAt.isBigO_sub
  have hlim : Filter.Tendsto (fun t => 4 * ‖T t - T t₀‖) (nhds t₀) (nhds 0) := by
    have : Filter.Tendsto (fun t => 4 * ‖T t - T t₀‖) (nhds t₀) (nhds (4 * ‖T t₀ - T t₀‖)) :=
      ((hT.continuousAt.sub continuousAt_const).norm.const_mul 4 : ContinuousAt _ t₀)
    simpa using this
  have hev : ∀ᶠ t in nhds t₀, ‖l t s - l t₀ s - (⟪b t₀ s, (T t - T t₀) (b t₀ s)⟫_ℂ).re‖
      ≤ 4 / g * ‖‖T t - T t₀‖ ^ 2‖ := by
    filter_upwards [hlim.eventually (ge_mem_nhds hg0)] with t ht
    rw [Real.norm_eq_abs, Real.norm_eq_abs, abs_of_nonneg (sq_nonneg ‖T t - T t₀‖)]
    exact (h t₀).perturb (h t) hg0 hg ht
  have hsq : (fun t => ‖T t - T t₀‖ ^ 2) =o[nhds t₀] fun t => t - t₀ := by
    have h2 := hO.norm_left.pow 2
    refine h2.trans_isLittleO ?_
    have : (fun t : ℝ => (t - t₀) ^ 2) = fun t => (t - t₀) * (t - t₀) := by funext t; ring
    rw [this]
    have h3 : (fun t : ℝ => t - t₀) =o[nhds t₀] fun _ => (1 : ℝ) := by
      rw [Asymptotics.isLittleO_one_iff]
      have : Filter.Tendsto (fun t : ℝ => t - t₀) (nhds t₀) (nhds (t₀ - t₀)) :=
        (continuous_id.sub continuous_const).tendsto t₀
      simpa using this
    simpa using h3.mul_isBigO (Asymptotics.isBigO_refl (fun t : ℝ => t - t₀) (nhds t₀))
  have herr := (Asymptotics.IsBigO.of_bound _ hev).trans_isLittleO hsq
  refine (herr.add h1).congr_left fun t => ?_
  rw [sub_apply, inner_sub_right, Complex.sub_re]
  simp only [smul_eq_mul]
  ring

/-! ## Groups of equal eigenvalues -/

theorem Diag.coeff {T S : E →L[ℂ] E} {l μ : Fin m → ℝ} {b c : OrthonormalBasis (Fin m) ℂ E} (hT : Diag T l b)
    (hS : Diag S μ c) (i j : Fin m) : ((μ j - l i : ℝ) : ℂ) * ⟪b i, c j⟫_ℂ = ⟪b i, (S - T) (c j)⟫_ℂ := by
  rw [sub_apply, inner_sub_right, hS.eigen, hT.inner_apply, inner_smul_right]
  push_cast
  ring

theorem norm_elem_le (A : E →L[ℂ] E) {v w : E} (hv : ‖v‖ = 1) (hw : ‖w‖ = 1) : ‖⟪v, A w⟫_ℂ‖ ≤ ‖A‖ := by
  have := (norm_inner_le_norm (𝕜 := ℂ) v (A w)).trans (mul_le_mul_of_nonneg_left (A.le_opNorm w) (norm_nonneg _))
  rwa [hv, hw, one_mul, mul_one] at this

/-- Eigenvectors of different eigenvalues stay nearly orthogonal. -/
theorem Diag.coeff_small {T S : E →L[ℂ] E} {l μ : Fin m → ℝ} {b c : OrthonormalBasis (Fin m) ℂ E} (hT : Diag T l b)
    (hS : Diag S μ c) {g : ℝ} (hg0 : 0 < g) (hsmall : 4 * ‖S - T‖ ≤ g) {i j : Fin m} (hg : g ≤ |l i - l j|) :
    ‖⟪b i, c j⟫_ℂ‖ ≤ 2 / g * ‖S - T‖ := by
  have h1 := congrArg norm (hT.coeff hS i j)
  rw [norm_mul, Complex.norm_real, Real.norm_eq_abs] at h1
  have h2 := norm_elem_le (S - T) (b.orthonormal.1 i) (c.orthonormal.1 j)
  have h3 : g / 2 ≤ |μ j - l i| := by
    have h4 := hS.weyl_abs hT j
    have h5 : |l i - l j| ≤ |μ j - l i| + |μ j - l j| := by
      have := abs_sub_le (l i) (μ j) (l j)
      rwa [abs_sub_comm (l i) (μ j)] at this
    linarith [norm_nonneg (S - T)]
  have h6 : g / 2 * ‖⟪b i, c j⟫_ℂ‖ ≤ ‖S - T‖ :=
    (mul_le_mul_of_nonneg_right h3 (norm_nonneg _)).trans (h1.le.trans h2)
  rw [div_mul_eq_mul_div, le_div_iff₀ hg0]
  linarith

/-- First order perturbation theory for all the eigenvalues that are equal to `a`, with a bound for the error. -/
theorem Diag.perturb_group {T S : E →L[ℂ] E} {l μ : Fin m → ℝ} {b c : OrthonormalBasis (Fin m) ℂ E}
    (hT : Diag T l b) (hS : Diag S μ c) {G : Finset (Fin m)} {a : ℝ} (hG : ∀ i, i ∈ G → l i = a) {g : ℝ}
    (hg0 : 0 < g) (hg : ∀ i, i ∉ G → g ≤ |l i - a|) (hsmall : 4 * ‖S - T‖ ≤ g) :
    |∑ j ∈ G, (μ j - a) - (∑ j ∈ G, ⟪b j, (S - T) (b j)⟫_ℂ).re| ≤ 6 * m ^ 3 / g * ‖S - T‖ ^ 2 := by
  classical
  set δ := ‖S - T‖ with hδ
  have hδ0 : 0 ≤ δ := norm_nonneg _
  set ε := 2 / g * δ with hε
  have hε0 : 0 ≤ ε := by positivity
  have hε1 : ε ≤ 1 := by
    rw [hε, div_mul_eq_mul_div, div_le_one hg0]
    linarith
  have hX1 : ∀ i j, ‖⟪b i, c j⟫_ℂ‖ ≤ 1 := fun i j => by
    have := norm_inner_le_norm (𝕜 := ℂ) (b i) (c j)
    rwa [b.orthonormal.1, c.orthonormal.1, one_mul] at this
  have hY : ∀ i j, ‖⟪c j, b i⟫_ℂ‖ = ‖⟪b i, c j⟫_ℂ‖ := fun i j => norm_inner_symm _ _
  have hd : ∀ i k, ‖⟪b i, (S - T) (b k)⟫_ℂ‖ ≤ δ := fun i k =>
    norm_elem_le _ (b.orthonormal.1 i) (b.orthonormal.1 k)
  have hout : ∀ i j, i ∈ G → j ∉ G → ‖⟪b i, c j⟫_ℂ‖ ≤ ε := fun i j hi hj =>
    hT.coeff_small hS hg0 hsmall (by rw [hG i hi, abs_sub_comm]; exact hg j hj)
  have hin : ∀ i j, i ∉ G → j ∈ G → ‖⟪b i, c j⟫_ℂ‖ ≤ ε := fun i j hi hj =>
    hT.coeff_small hS hg0 hsmall (by rw [hG j hj]; exact hg i hi)
  have hμ : ∀ j ∈ G, |μ j - a| ≤ δ := fun j hj => by rw [← hG j hj]; exact hS.weyl_abs hT j
  -- the sum, exactly
  have hsplit : ∀ j ∈ G, ((μ j - a : ℝ) : ℂ) = (∑ i ∈ G, ∑ k, ⟪c j, b i⟫_ℂ * (⟪b k, c j⟫_ℂ * ⟪b i, (S - T) (b k)⟫_ℂ))
      + ∑ i ∈ Gᶜ, ((μ j - a : ℝ) : ℂ) * (⟪c j, b i⟫_ℂ * ⟪b i, c j⟫_ℂ) := by
    intro j hj
    have h1 : ∑ i, ⟪c j, b i⟫_ℂ * ⟪b i, c j⟫_ℂ = 1 := by
      rw [b.sum_inner_mul_inner, inner_self_eq_norm_sq_to_K, c.orthonormal.1]
      simp
    have h2 : ((μ j - a : ℝ) : ℂ) = ∑ i, ((μ j - a : ℝ) : ℂ) * (⟪c j, b i⟫_ℂ * ⟪b i, c j⟫_ℂ) := by
      rw [← Finset.mul_sum, h1, mul_one]
    conv_lhs => rw [h2]
    rw [← Finset.sum_add_sum_compl G]
    congr 1
    refine Finset.sum_congr rfl fun i hi => ?_
    have h3 := hT.coeff hS i j
    rw [hG i hi] at h3
    rw [mul_left_comm, h3, ← Finset.mul_sum]
    congr 1
    conv_lhs => rw [← b.sum_repr' (c j)]
    rw [map_sum, inner_sum]
    refine Finset.sum_congr rfl fun k _ => ?_
    rw [map_smul, inner_smul_right]
  have hdiag : ∑ i ∈ G, ⟪b i, (S - T) (b i)⟫_ℂ
      = ∑ i ∈ G, ∑ k ∈ G, ∑ j, ⟪c j, b i⟫_ℂ * (⟪b k, c j⟫_ℂ * ⟪b i, (S - T) (b k)⟫_ℂ) := by
    refine Finset.sum_congr rfl fun i hi => ?_
    have h1 : ∀ k, ∑ j, ⟪c j, b i⟫_ℂ * (⟪b k, c j⟫_ℂ * ⟪b i, (S - T) (b k)⟫_ℂ)
        = if k = i then ⟪b i, (S - T) (b k)⟫_ℂ else 0 := by
      intro k
      have : ∀ j, ⟪c j, b i⟫_ℂ * (⟪b k, c j⟫_ℂ * ⟪b i, (S - T) (b k)⟫_ℂ)
          = ⟪b k, c j⟫_ℂ * ⟪c j, b i⟫_ℂ * ⟪b i, (S - T) (b k)⟫_ℂ := fun j => by ring
      simp only [this]
      rw [← Finset.sum_mul, c.sum_inner_mul_inner, orthonormal_iff_ite.1 b.orthonormal]
      split_ifs <;> simp
    simp only [h1]
    rw [Finset.sum_ite_eq' G i, if_pos hi]
  have hsum : ((∑ j ∈ G, (μ j - a) : ℝ) : ℂ) - ∑ i ∈ G, ⟪b i, (S - T) (b i)⟫_ℂ
      = (∑ j ∈ G, ∑ i ∈ G, ∑ k ∈ Gᶜ, ⟪c j, b i⟫_ℂ * (⟪b k, c j⟫_ℂ * ⟪b i, (S - T) (b k)⟫_ℂ))
        + (∑ j ∈ G, ∑ i ∈ Gᶜ, ((μ j - a : ℝ) : ℂ) * (⟪c j, b i⟫_ℂ * ⟪b i, c j⟫_ℂ))
        - ∑ i ∈ G, ∑ k ∈ G, ∑ j ∈ Gᶜ, ⟪c j, b i⟫_ℂ * (⟪b k, c j⟫_ℂ * ⟪b i, (S - T) (b k)⟫_ℂ) := by
    rw [Complex.ofReal_sum, Finset.sum_congr rfl hsplit, Finset.sum_add_distrib, hdiag]
    have h1 : ∀ j, ∑ i ∈ G, ∑ k, ⟪c j, b i⟫_ℂ * (⟪b k, c j⟫_ℂ * ⟪b i, (S - T) (b k)⟫_ℂ)
        = (∑ i ∈ G, ∑ k ∈ G, ⟪c j, b i⟫_ℂ * (⟪b k, c j⟫_ℂ * ⟪b i, (S - T) (b k)⟫_ℂ))
          + ∑ i ∈ G, ∑ k ∈ Gᶜ, ⟪c j, b i⟫_ℂ * (⟪b k, c j⟫_ℂ * ⟪b i, (S - T) (b k)⟫_ℂ) := by
      intro j
      rw [← Finset.sum_add_distrib]
      exact Finset.sum_congr rfl fun i _ => (Finset.sum_add_sum_compl G _).symm
    have h2 : ∀ i k, ∑ j, ⟪c j, b i⟫_ℂ * (⟪b k, c j⟫_ℂ * ⟪b i, (S - T) (b k)⟫_ℂ)
        = (∑ j ∈ G, ⟪c j, b i⟫_ℂ * (⟪b k, c j⟫_ℂ * ⟪b i, (S - T) (b k)⟫_ℂ))
          + ∑ j ∈ Gᶜ, ⟪c j, b i⟫_ℂ * (⟪b k, c j⟫_ℂ * ⟪b i, (S - T) (b k)⟫_ℂ) :=
      fun i k => (Finset.sum_add_sum_compl G _).symm
    simp only [h1, h2, Finset.sum_add_distrib]
    have h3 : ∑ j ∈ G, ∑ i ∈ G, ∑ k ∈ G, ⟪c j, b i⟫_ℂ * (⟪b k, c j⟫_ℂ * ⟪b i, (S - T) (b k)⟫_ℂ)
        = ∑ i ∈ G, ∑ k ∈ G, ∑ j ∈ G, ⟪c j, b i⟫_ℂ * (⟪b k, c j⟫_ℂ * ⟪b i, (S - T) (b k)⟫_ℂ) := by
      rw [Finset.sum_comm]
      exact Finset.sum_congr rfl fun i _ => Finset.sum_comm
    rw [h3]
    ring
  -- bounds
  have hcard : ∀ H : Finset (Fin m), (H.card : ℝ) ≤ m := fun H => by
    have := Finset.card_le_univ H
    rw [Fintype.card_fin] at this
    exact_mod_cast this
  have hm0 : (0 : ℝ) ≤ m := Nat.cast_nonneg m
  have bound : ∀ (H : Finset (Fin m)) (f : Fin m → ℂ) (C : ℝ), 0 ≤ C → (∀ i ∈ H, ‖f i‖ ≤ C) → ‖∑ i ∈ H, f i‖ ≤ m * C := by
    intro H f C hC hf
    refine (norm_sum_le_of_le H hf).trans ?_
    rw [Finset.sum_const, nsmul_eq_mul]
    exact mul_le_mul_of_nonneg_right (hcard H) hC
  have hεδ : 0 ≤ ε * δ := mul_nonneg hε0 hδ0
  have prod : ∀ x y z : ℂ, ∀ A B C : ℝ, ‖x‖ ≤ A → ‖y‖ ≤ B → ‖z‖ ≤ C → 0 ≤ A → 0 ≤ B → ‖x * (y * z)‖ ≤ A * (B * C) := by
    intro x y z A B C hx hy hz hA hB
    rw [norm_mul, norm_mul]
    exact mul_le_mul hx (mul_le_mul hy hz (norm_nonneg _) hB) (by positivity) hA
  have e1 : ‖∑ j ∈ G, ∑ i ∈ G, ∑ k ∈ Gᶜ, ⟪c j, b i⟫_ℂ * (⟪b k, c j⟫_ℂ * ⟪b i, (S - T) (b k)⟫_ℂ)‖
      ≤ m * (m * (m * (ε * δ))) := by
    refine bound _ _ _ (by positivity) fun j hj => bound _ _ _ (by positivity) fun i hi => bound _ _ _ (by positivity) fun k hk => ?_
    have := prod _ _ _ 1 ε δ ((hY i j).trans_le (hX1 i j)) (hin k j (Finset.mem_compl.1 hk) hj) (hd i k) zero_le_one hε0
    rwa [one_mul] at this
  have e2 : ‖∑ i ∈ G, ∑ k ∈ G, ∑ j ∈ Gᶜ, ⟪c j, b i⟫_ℂ * (⟪b k, c j⟫_ℂ * ⟪b i, (S - T) (b k)⟫_ℂ)‖
      ≤ m * (m * (m * (ε * δ))) := by
    refine bound _ _ _ (by positivity) fun i hi => bound _ _ _ (by positivity) fun k hk => bound _ _ _ (by positivity) fun j hj => ?_
    have := prod _ _ _ 1 ε δ ((hY i j).trans_le (hX1 i j)) (hout k j hk (Finset.mem_compl.1 hj)) (hd i k) zero_le_one hε0
    rwa [one_mul] at this
  have e3 : ‖∑ j ∈ G, ∑ i ∈ Gᶜ, ((μ j - a : ℝ) : ℂ) * (⟪c j, b i⟫_ℂ * ⟪b i, c j⟫_ℂ)‖ ≤ m * (m * (ε * δ)) := by
    refine bound _ _ _ (by positivity) fun j hj => bound _ _ _ (by positivity) fun i hi => ?_
    have h1 : ‖((μ j - a : ℝ) : ℂ)‖ ≤ δ := by
      rw [Complex.norm_real, Real.norm_eq_abs]; exact hμ j hj
    have := prod _ _ _ δ ε 1 h1 ((hY i j).trans_le (hin i j (Finset.mem_compl.1 hi) hj)) (hX1 i j) hδ0 hε0
    have h2 : δ * (ε * 1) = ε * δ := by ring
    rwa [h2] at this
  have hre : ∑ j ∈ G, (μ j - a) - (∑ j ∈ G, ⟪b j, (S - T) (b j)⟫_ℂ).re
      = (((∑ j ∈ G, (μ j - a) : ℝ) : ℂ) - ∑ i ∈ G, ⟪b i, (S - T) (b i)⟫_ℂ).re := by
    rw [Complex.sub_re, Complex.ofReal_re]
  rw [hre, hsum]
  refine (Complex.abs_re_le_norm _).trans ((norm_sub_le _ _).trans ?_)
  refine (add_le_add (norm_add_le _ _) le_rfl).trans ?_
  have e4 : (m : ℝ) * (m * (ε * δ)) ≤ m * (m * (m * (ε * δ))) := by
    rcases Nat.eq_zero_or_pos m with hm | hm
    · have : (m : ℝ) = 0 := by exact_mod_cast hm
      simp [this]
    · have hm1 : (1 : ℝ) ≤ m := by exact_mod_cast hm
      refine mul_le_mul_of_nonneg_left (mul_le_mul_of_nonneg_left ?_ hm0) hm0
      exact le_mul_of_one_le_left hεδ hm1
  have e5 : 6 * (m : ℝ) ^ 3 / g * δ ^ 2 = 3 * (m * (m * (m * (ε * δ)))) := by
    rw [hε]; ring
  rw [e5]
  linarith

/-- The sum of a function of the eigenvalues that are equal to `a` at `t₀`: it has a derivative although the single
eigenvalues need not have one. -/
theorem hasDerivAt_group {T : ℝ → E →L[ℂ] E} {l : ℝ → Fin m → ℝ} {b : ℝ → OrthonormalBasis (Fin m) ℂ E}
    (h : ∀ t, Diag (T t) (l t) (b t)) {T' : E →L[ℂ] E} {t₀ : ℝ} (hT : HasDerivAt T T' t₀) {G : Finset (Fin m)} {a : ℝ}
    (hG : ∀ i, i ∈ G ↔ l t₀ i = a) {f : ℝ → ℝ} {f' : ℝ} (hf : HasDerivAt f f' a) :
    HasDerivAt (fun t => ∑ j ∈ G, f (l t j)) (f' * (∑ j ∈ G, ⟪b t₀ j, T' (b t₀ j)⟫_ℂ).re) t₀ := by
  obtain ⟨g, hg0, hg⟩ : ∃ g : ℝ, 0 < g ∧ ∀ j, j ∉ G → g ≤ |l t₀ j - a| := by
    rcases (Finset.univ.filter fun j : Fin m => j ∉ G).eq_empty_or_nonempty with he | hne
    · refine ⟨1, one_pos, fun j hj => ?_⟩
      have : j ∈ Finset.univ.filter fun j : Fin m => j ∉ G := Finset.mem_filter.2 ⟨Finset.mem_univ j, hj⟩
      rw [he] at this
      simp at this
    · obtain ⟨i, hi, hmin⟩ := Finset.exists_min_image _ (fun j => |l t₀ j - a|) hne
      refine ⟨_, abs_pos.2 (sub_ne_zero.2 (mt (hG i).2 (Finset.mem_filter.1 hi).2)), fun j hj => ?_⟩
      exact hmin j (Finset.mem_filter.2 ⟨Finset.mem_univ j, hj⟩)
  have h1 : HasDerivAt (fun t => (∑ j ∈ G, ⟪b t₀ j, T t (b t₀ j)⟫_ℂ).re) (∑ j ∈ G, ⟪b t₀ j, T' (b t₀ j)⟫_ℂ).re t₀ := by
    have h3 : ∀ j ∈ G, HasDerivAt (fun t => ⟪b t₀ j, T t (b t₀ j)⟫_ℂ) ⟪b t₀ j, T' (b t₀ j)⟫_ℂ t₀ := fun j _ => by
      have h2 : HasDerivAt (fun t => T t (b t₀ j)) (T' (b t₀ j)) t₀ :=
        ((ContinuousLinearMap.apply ℂ E (b t₀ j)).restrictScalars ℝ).hasFDerivAt.comp_hasDerivAt t₀ hT
      exact ((innerSL ℂ (b t₀ j)).restrictScalars ℝ).hasFDerivAt.comp_hasDerivAt t₀ h2
    exact Complex.reCLM.hasFDerivAt.comp_hasDerivAt t₀ (HasDerivAt.fun_sum h3)
  have hO : (fun t => T t - T t₀) =O[nhds t₀] fun t => t - t₀ := hT.hasFDerivAt.isBigO_sub
  have hlim0 : Filter.Tendsto (fun t => ‖T t - T t₀‖) (nhds t₀) (nhds 0) := by
    have : Filter.Tendsto (fun t => ‖T t - T t₀‖) (nhds t₀) (nhds ‖T t₀ - T t₀‖) :=
      ((hT.continuousAt.sub continuousAt_const).norm : ContinuousAt _ t₀)
    simpa using this
  have hlim : Filter.Tendsto (fun t => 4 * ‖T t - T t₀‖) (nhds t₀) (nhds 0) := by simpa using hlim0.const_mul 4
  have hev : ∀ᶠ t in nhds t₀, ‖∑ j ∈ G, (l t j - a) - (∑ j ∈ G, ⟪b t₀ j, (T t - T t₀) (b t₀ j)⟫_ℂ).re‖
      ≤ 6 * m ^ 3 / g * ‖‖T t - T t₀‖ ^ 2‖ := by
    filter_upwards [hlim.eventually (ge_mem_nhds hg0)] with t ht
    rw [Real.norm_eq_abs, Real.norm_eq_abs, abs_of_nonneg (sq_nonneg ‖T t - T t₀‖)]
    exact (h t₀).perturb_group (h t) (fun i hi => (hG i).1 hi) hg0 hg ht
  have hsq : (fun t => ‖T t - T t₀‖ ^ 2) =o[nhds t₀] fun t => t - t₀ := by
    have h2 := hO.norm_left.pow 2
    refine h2.trans_isLittleO ?_
    have : (fun t : ℝ => (t - t₀) ^ 2) = fun t => (t - t₀) * (t - t₀) := by funext t; ring
    rw [this]
    have h3 : (fun t : ℝ => t - t₀) =o[nhds t₀] fun _ => (1 : ℝ) := by
      rw [Asymptotics.isLittleO_one_iff]
      have : Filter.Tendsto (fun t : ℝ => t - t₀) (nhds t₀) (nhds (t₀ - t₀)) :=
        (continuous_id.sub continuous_const).tendsto t₀
      simpa using this
    simpa using h3.mul_isBigO (Asymptotics.isBigO_refl (fun t : ℝ => t - t₀) (nhds t₀))
  -- the sum of the eigenvalues
  have hsum : HasDerivAt (fun t => ∑ j ∈ G, (l t j - a)) (∑ j ∈ G, ⟪b t₀ j, T' (b t₀ j)⟫_ℂ).re t₀ := by
    rw [hasDerivAt_iff_isLittleO] at h1 ⊢
    have herr := (Asymptotics.IsBigO.of_bound _ hev).trans_isLittleO hsq
    refine (herr.add h1).congr_left fun t => ?_
    have h0 : ∑ j ∈ G, (l t₀ j - a) = 0 := Finset.sum_eq_zero fun j hj => by rw [(hG j).1 hj, sub_self]
    simp only [sub_apply, inner_sub_right, Finset.sum_sub_distrib, Complex.sub_re, smul_eq_mul] at h0 ⊢
    rw [h0]
    ring
  -- each eigenvalue moves at most linearly
  have hli : ∀ j ∈ G, (fun t => f (l t j) - f a - (l t j - a) * f') =o[nhds t₀] fun t => t - t₀ := by
    intro j hj
    have hb : (fun t => l t j - a) =O[nhds t₀] fun t => T t - T t₀ := by
      refine Asymptotics.IsBigO.of_bound 1 (Filter.Eventually.of_forall fun t => ?_)
      rw [one_mul, Real.norm_eq_abs, ← (hG j).1 hj]
      exact (h t).weyl_abs (h t₀) j
    have hc : Filter.Tendsto (fun t => l t j) (nhds t₀) (nhds a) := by
      have h2 : Filter.Tendsto (fun t => l t j - a) (nhds t₀) (nhds 0) :=
        (hb.norm_right).trans_tendsto hlim0
      simpa using h2.add_const a
    rw [hasDerivAt_iff_isLittleO] at hf
    exact ((hf.comp_tendsto hc).trans_isBigO (hb.trans hO)).congr_left fun t => by simp [smul_eq_mul]
  have hall : (fun t => ∑ j ∈ G, (f (l t j) - f a - (l t j - a) * f')) =o[nhds t₀] fun t => t - t₀ :=
    (Asymptotics.IsLittleO.sum hli).congr_left fun t => by rw [Finset.sum_apply]
  have hs' := hsum.const_mul f'
  rw [hasDerivAt_iff_isLittleO] at hs' ⊢
  refine (hall.add hs').congr_left fun t => ?_
  have h0 : ∑ j ∈ G, (l t₀ j - a) = 0 := Finset.sum_eq_zero fun j hj => by rw [(hG j).1 hj, sub_self]
  have h0' : ∑ j ∈ G, f (l t₀ j) = ∑ j ∈ G, f a := Finset.sum_congr rfl fun j hj => by rw [(hG j).1 hj]
  rw [h0, h0']
  simp only [Finset.sum_sub_distrib, ← Finset.sum_mul, smul_eq_mul]
  ring

end Euphonic.Eigen
