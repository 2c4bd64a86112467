import Verif.Props.DynMat
import Verif.Lemmas.Eigen
import Mathlib.Analysis.CStarAlgebra.Matrix
import Mathlib.Analysis.Calculus.Deriv.Prod
import Mathlib.Analysis.Calculus.Deriv.Star
import Mathlib.Analysis.SpecialFunctions.ExpDeriv
import Mathlib.Analysis.SpecialFunctions.Sqrt

/-!
# C126: mode gradients are the derivatives of the frequencies
-/

set_option autoImplicit false
set_option linter.unusedSectionVars false

namespace Euphonic.Gradient

open Euphonic.Lattice Euphonic.Supercell Euphonic.Phases Euphonic.Images Euphonic.DynMat
open scoped InnerProductSpace Matrix

variable {N n : Nat}

/-! ## Specification -/

/-- The q-points `p t` (fractional coordinates) move along the Cartesian direction `u` with unit speed (in units of
`u`), starting from `q`. -/
def Along (cv : M3 ℝ) (q u : V3 ℝ) (p : ℝ → V3 ℝ) : Prop :=
  ∀ t, toCart (reciprocalCell (2 * Real.pi) cv) (p t) =
    add (toCart (reciprocalCell (2 * Real.pi) cv) q) (smul t u)

/-! ## The dynamical matrix -/

theorem dot_recip (cv : M3 ℝ) (hv : cellVolume cv ≠ 0) (q R : V3 ℝ) :
    dot (toCart (reciprocalCell (2 * Real.pi) cv) q) (toCart cv R) = 2 * Real.pi * dot q R := by
  have h : cellVolume cv = cv.a.x * (cv.b.y * cv.c.z - cv.b.z * cv.c.y) + cv.a.y * (cv.b.z * cv.c.x - cv.b.x * cv.c.z)
      + cv.a.z * (cv.b.x * cv.c.y - cv.b.y * cv.c.x) := by
    simp [cellVolume, dot, cross]
  simp only [reciprocalCell, dot, toCart, smul, cross]
  have h' : 2 * Real.pi * (q.x * R.x + q.y * R.y + q.z * R.z)
      = 2 * Real.pi / cellVolume cv * (cellVolume cv * (q.x * R.x + q.y * R.y + q.z * R.z)) := by
    field_simp
  rw [h']
  generalize 2 * Real.pi / cellVolume cv = z
  linear_combination (-(z * (q.x * R.x + q.y * R.y + q.z * R.z))) * h

/-- Phases along the path. -/
theorem expQR_along {cv : M3 ℝ} (hv : cellVolume cv ≠ 0) {q u : V3 ℝ} {p : ℝ → V3 ℝ} (hp : Along cv q u p) (t : ℝ)
    (R : V3 ℤ) :
    expQR (p t) R = expQR q R * Complex.exp (t * (Complex.I * (dot u (toCart cv (castV ℝ R)) : ℝ))) := by
  have h1 := dot_recip cv hv (p t) (castV ℝ R)
  have h2 := dot_recip cv hv q (castV ℝ R)
  rw [hp t] at h1
  have h3 : dot (add (toCart (reciprocalCell (2 * Real.pi) cv) q) (smul t u)) (toCart cv (castV ℝ R))
      = dot (toCart (reciprocalCell (2 * Real.pi) cv) q) (toCart cv (castV ℝ R))
        + t * dot u (toCart cv (castV ℝ R)) := by
    simp only [dot, add, smul]; ring
  rw [h3, h2] at h1
  unfold expQR
  rw [← Complex.exp_add]
  congr 1
  have h4 : ∀ v : V3 ℝ, 2 * (Real.pi : ℂ) * (v.x * R.x + v.y * R.y + v.z * R.z : ℝ) * Complex.I
      = Complex.I * ((2 * Real.pi * dot v (castV ℝ R) : ℝ) : ℂ) := by
    intro v
    simp only [dot, castV]
    push_cast
    ring
  rw [h4, h4, ← h1]
  push_cast
  ring

/-- An image index either stands for padding or for a supercell origin. -/
theorem image_cases (cv : M3 ℝ) (scOs : List (V3 ℤ)) (k : ℤ) :
    (∀ q, phaseAt (phasesOf q scOs ++ [0]) k = 0) ∨
      ∃ R, (∀ q, phaseAt (phasesOf q scOs ++ [0]) k = expQR q R) ∧
        scOriginCart cv scOs k = toCart cv (castV ℝ R) := by
  have key : ∀ i : Nat, (∀ q, (phasesOf q scOs ++ [0]).getD i 0 = 0) ∨
      ∃ R, (∀ q, (phasesOf q scOs ++ [0]).getD i 0 = expQR q R) ∧
        (scOs.map (fun v => toCart cv (castV ℝ v)) ++ [(⟨0, 0, 0⟩ : V3 ℝ)]).getD i ⟨0, 0, 0⟩ = toCart cv (castV ℝ R) := by
    intro i
    by_cases hi : i < scOs.length
    · refine .inr ⟨scOs[i], fun q => ?_, ?_⟩
      · rw [C42_phases, List.getD_eq_getElem _ _ (by simp; omega), List.getElem_append_left (by simpa using hi),
          List.getElem_map]
      · rw [List.getD_eq_getElem _ _ (by simp; omega), List.getElem_append_left (by simpa using hi),
          List.getElem_map]
    · refine .inl fun q => ?_
      rw [C42_phases]
      by_cases hi' : i = scOs.length
      · subst hi'
        rw [List.getD_eq_getElem _ _ (by simp), List.getElem_append_right (by simp)]
        simp
      · rw [List.getD_eq_default _ _ (by simp; omega)]
  unfold phaseAt scOriginCart
  dsimp only
  split_ifs with h
  · exact key _
  · have h1 : ∀ q, (phasesOf q scOs ++ [0]).length = scOs.length + 1 := fun q => by simp [C42_phases]
    simp only [h1, List.length_append, List.length_map, List.length_singleton]
    exact key _

theorem hasDerivAt_list_sum {ι : Type} (l : List ι) (f : ι → ℝ → ℂ) (f' : ι → ℂ) (t₀ : ℝ)
    (h : ∀ i ∈ l, HasDerivAt (f i) (f' i) t₀) :
    HasDerivAt (fun t => (l.map fun i => f i t).sum) (l.map f').sum t₀ := by
  induction l with
  | nil => simpa using hasDerivAt_const t₀ (0 : ℂ)
  | cons i l ih =>
    simp only [List.map_cons, List.sum_cons]
    exact (h i (by simp)).add (ih fun j hj => h j (List.mem_cons_of_mem _ hj))

theorem along_zero {cv : M3 ℝ} (hv : cellVolume cv ≠ 0) {q u : V3 ℝ} {p : ℝ → V3 ℝ} (hp : Along cv q u p)
    (R : V3 ℤ) : expQR (p 0) R = expQR q R := by
  rw [expQR_along hv hp]; simp

theorem expQR_deriv {cv : M3 ℝ} (hv : cellVolume cv ≠ 0) {q u : V3 ℝ} {p : ℝ → V3 ℝ} (hp : Along cv q u p)
    (R : V3 ℤ) :
    HasDerivAt (fun t => expQR (p t) R)
      (expQR q R * (Complex.I * (dot u (toCart cv (castV ℝ R)) : ℝ))) 0 := by
  have h : (fun t => expQR (p t) R) = fun t : ℝ => expQR q R *
      Complex.exp (t * (Complex.I * (dot u (toCart cv (castV ℝ R)) : ℝ))) := by
    funext t
    exact expQR_along hv hp t R
  rw [h]
  have h1 : HasDerivAt (fun t : ℝ => (t : ℂ) * (Complex.I * (dot u (toCart cv (castV ℝ R)) : ℝ)))
      (Complex.I * (dot u (toCart cv (castV ℝ R)) : ℝ)) 0 := by
    simpa using (Complex.ofRealCLM.hasDerivAt (x := (0 : ℝ))).mul_const
      (Complex.I * (dot u (toCart cv (castV ℝ R)) : ℝ))
  have h2 := (h1.cexp).const_mul (expQR q R)
  simpa using h2

/-- **C126 (dynamical matrix).** The second result of `_calculate_dyn_mat` is the gradient of the first: along every
Cartesian direction `u` the derivative of each element of the dynamical matrix is the scalar product of `u` and the
gradient. -/
theorem C126_matrix_gradient (cv : M3 ℝ) (hv : cellVolume cv ≠ 0) (fcw : Fin N → Mat n ℝ) (cells : Fin N → V3 ℤ)
    (scOs : List (V3 ℤ)) (img : Fin N → Fin n → Fin n → List ℤ) {q u : V3 ℝ} {p : ℝ → V3 ℝ} (hp : Along cv q u p)
    (k l : Fin (n * 3)) :
    HasDerivAt (fun t => dynMat fcw cells scOs img (p t) k l)
      (u.x * dynGrad cv fcw cells scOs img q 0 k l + u.y * dynGrad cv fcw cells scOs img q 1 k l
        + u.z * dynGrad cv fcw cells scOs img q 2 k l) 0 := by
  have hterm : ∀ (c : Fin N) (im : ℤ), HasDerivAt
      (fun t => cellPhase (p t) cells c * phaseAt (phasesOf (p t) scOs ++ [0]) im)
      (Complex.I * (phaseAt (phasesOf q scOs ++ [0]) im * cellPhase q cells c *
        (dot u (add (scOriginCart cv scOs im) (toCart cv (castV ℝ (cells c)))) : ℝ))) 0 := by
    intro c im
    rcases image_cases cv scOs im with h | ⟨R, h, hR⟩
    · simp only [h, mul_zero, zero_mul]
      exact hasDerivAt_const _ _
    · simp only [h, hR, cellPhase_eq]
      have := (expQR_deriv hv hp (cells c)).mul (expQR_deriv hv hp R)
      refine this.congr_deriv ?_
      simp only [along_zero hv hp, dot, add]
      push_cast
      ring
  have hc : ∀ c, HasDerivAt
      (fun t => cellPhase (p t) cells c * phaseSum (phasesOf (p t) scOs) (img c k.divNat l.divNat))
      ((img c k.divNat l.divNat).map fun im => Complex.I * (phaseAt (phasesOf q scOs ++ [0]) im * cellPhase q cells c *
        (dot u (add (scOriginCart cv scOs im) (toCart cv (castV ℝ (cells c)))) : ℝ))).sum 0 := by
    intro c
    have := hasDerivAt_list_sum (img c k.divNat l.divNat) _ _ 0 fun im _ => hterm c im
    refine this.congr_of_eventuallyEq (Filter.Eventually.of_forall fun t => ?_)
    simp only [phaseSum, List.sum_map_mul_left]
  have hsum := HasDerivAt.fun_sum fun c (_ : c ∈ Finset.univ) => (hc c).const_mul (fcw c k l : ℂ)
  unfold dynMat
  refine hsum.congr_deriv ?_
  unfold dynGrad
  rw [Finset.mul_sum, Finset.mul_sum, Finset.mul_sum, ← Finset.sum_add_distrib, ← Finset.sum_add_distrib]
  refine Finset.sum_congr rfl fun c _ => ?_
  rw [List.sum_map_mul_left]
  have : ∀ L : List ℤ, (L.map fun im => phaseAt (phasesOf q scOs ++ [0]) im * cellPhase q cells c *
        ((dot u (add (scOriginCart cv scOs im) (toCart cv (castV ℝ (cells c)))) : ℝ) : ℂ)).sum
      = u.x * (L.map fun im => phaseAt (phasesOf q scOs ++ [0]) im * cellPhase q cells c *
        ((comp (add (scOriginCart cv scOs im) (toCart cv (castV ℝ (cells c)))) 0 : ℝ) : ℂ)).sum
      + u.y * (L.map fun im => phaseAt (phasesOf q scOs ++ [0]) im * cellPhase q cells c *
        ((comp (add (scOriginCart cv scOs im) (toCart cv (castV ℝ (cells c)))) 1 : ℝ) : ℂ)).sum
      + u.z * (L.map fun im => phaseAt (phasesOf q scOs ++ [0]) im * cellPhase q cells c *
        ((comp (add (scOriginCart cv scOs im) (toCart cv (castV ℝ (cells c)))) 2 : ℝ) : ℂ)).sum := by
    intro L
    induction L with
    | nil => simp
    | cons im L ih =>
      have h0 : ∀ v : V3 ℝ, comp v 0 = v.x := fun v => rfl
      have h1 : ∀ v : V3 ℝ, comp v 1 = v.y := fun v => rfl
      have h2 : ∀ v : V3 ℝ, comp v 2 = v.z := fun v => rfl
      simp only [List.map_cons, List.sum_cons]
      rw [ih]
      simp only [dot, h0, h1, h2]
      push_cast
      ring
  rw [this]
  ring

/-! ## Eigenvalues -/

variable {m : Nat}

/-- A matrix as an operator. -/
noncomputable def toOp (A : Fin m → Fin m → ℂ) : EuclideanSpace ℂ (Fin m) →L[ℂ] EuclideanSpace ℂ (Fin m) :=
  Matrix.toEuclideanCLM (n := Fin m) (𝕜 := ℂ) (Matrix.of A)

theorem toOp_apply (A : Fin m → Fin m → ℂ) (v : Fin m → ℂ) :
    toOp A (WithLp.toLp 2 v) = WithLp.toLp 2 fun k => ∑ l, A k l * v l := rfl

theorem inner_toOp (A : Fin m → Fin m → ℂ) (v : Fin m → ℂ) :
    ⟪(WithLp.toLp 2 v : EuclideanSpace ℂ (Fin m)), toOp A (WithLp.toLp 2 v)⟫_ℂ
      = ∑ j, ∑ k, star (v j) * v k * A j k := by
  rw [toOp_apply, PiLp.inner_apply]
  refine Finset.sum_congr rfl fun j _ => ?_
  rw [RCLike.inner_apply]
  simp only [starRingEnd_apply, Finset.sum_mul]
  refine Finset.sum_congr rfl fun k _ => ?_
  ring

/-- What an eigensolver returns for a Hermitian matrix diagonalises the operator. -/
theorem diag_of_eigh {eigh : (Fin m → Fin m → ℂ) → (Fin m → ℝ) × (Fin m → Fin m → ℂ)} (he : IsEigh eigh)
    {A : Fin m → Fin m → ℂ} (hA : ∀ k l, A l k = star (A k l)) :
    ∃ b : OrthonormalBasis (Fin m) ℂ (EuclideanSpace ℂ (Fin m)),
      Eigen.Diag (toOp A) (eigh A).1 b ∧ ∀ s, b s = WithLp.toLp 2 ((eigh A).2 s) := by
  have ho : Orthonormal ℂ ((Set.univ : Set (Fin m)).domRestrict
      fun s => (WithLp.toLp 2 ((eigh A).2 s) : EuclideanSpace ℂ (Fin m))) := by
    rw [orthonormal_iff_ite]
    rintro ⟨s, hs⟩ ⟨s', hs'⟩
    have := he.ortho A hA s s'
    simp only [Set.domRestrict_apply, PiLp.inner_apply, RCLike.inner_apply, Subtype.mk.injEq]
    rw [← this]
    refine Finset.sum_congr rfl fun k _ => ?_
    rw [mul_comm]
    rfl
  obtain ⟨b, hb⟩ := ho.exists_orthonormalBasis_extension_of_card_eq (by simp)
  refine ⟨b, ⟨he.mono A hA, fun s => ?_⟩, fun s => hb s trivial⟩
  rw [hb s trivial, toOp_apply]
  ext k
  exact he.eigen A hA s k

theorem hasDerivAt_toOp {A : ℝ → Fin m → Fin m → ℂ} {A' : Fin m → Fin m → ℂ} {t₀ : ℝ}
    (h : ∀ k l, HasDerivAt (fun t => A t k l) (A' k l) t₀) : HasDerivAt (fun t => toOp (A t)) (toOp A') t₀ := by
  have h1 : HasDerivAt A A' t₀ := hasDerivAt_pi.2 fun k => hasDerivAt_pi.2 fun l => h k l
  let L : (Fin m → Fin m → ℂ) →ₗ[ℝ] (EuclideanSpace ℂ (Fin m) →L[ℂ] EuclideanSpace ℂ (Fin m)) :=
    { toFun := toOp
      map_add' := fun A B => map_add (Matrix.toEuclideanCLM (n := Fin m) (𝕜 := ℂ)) (Matrix.of A) (Matrix.of B)
      map_smul' := fun c A => by
        ext v k
        simp only [toOp, RingHom.id_apply, Matrix.ofLp_toEuclideanCLM, smul_apply, PiLp.smul_apply,
          Matrix.mulVec, dotProduct, Matrix.of_apply, Pi.smul_apply, Finset.smul_sum, smul_mul_assoc] }
  exact (LinearMap.toContinuousLinearMap L).hasFDerivAt.comp_hasDerivAt t₀ h1

/-- The derivative of a simple eigenvalue as an eigensolver returns it. -/
theorem eigenvalue_deriv {eigh : (Fin m → Fin m → ℂ) → (Fin m → ℝ) × (Fin m → Fin m → ℂ)} (he : IsEigh eigh)
    {A : ℝ → Fin m → Fin m → ℂ} {A' : Fin m → Fin m → ℂ} (hA : ∀ t k l, A t l k = star (A t k l)) {t₀ : ℝ}
    (h : ∀ k l, HasDerivAt (fun t => A t k l) (A' k l) t₀) {s : Fin m}
    (hs : ∀ j, j ≠ s → (eigh (A t₀)).1 j ≠ (eigh (A t₀)).1 s) :
    HasDerivAt (fun t => (eigh (A t)).1 s)
      (∑ j, ∑ k, star ((eigh (A t₀)).2 s j) * (eigh (A t₀)).2 s k * A' j k).re t₀ := by
  choose b hb hb' using fun t => diag_of_eigh he (hA t)
  have := Eigen.hasDerivAt_eigenvalue hb (hasDerivAt_toOp h) hs
  rwa [hb', inner_toOp] at this

/-! ## Paths -/

/-- The path through `q` in direction `u`. -/
noncomputable def path (cv : M3 ℝ) (q u : V3 ℝ) (t : ℝ) : V3 ℝ :=
  add q (smul (t / (2 * Real.pi)) ⟨dot cv.a u, dot cv.b u, dot cv.c u⟩)

theorem path_along (cv : M3 ℝ) (hv : cellVolume cv ≠ 0) (q u : V3 ℝ) : Along cv q u (path cv q u) := by
  intro t
  have h : cellVolume cv = cv.a.x * (cv.b.y * cv.c.z - cv.b.z * cv.c.y) + cv.a.y * (cv.b.z * cv.c.x - cv.b.x * cv.c.z)
      + cv.a.z * (cv.b.x * cv.c.y - cv.b.y * cv.c.x) := by
    simp [cellVolume, dot, cross]
  have hp : Real.pi ≠ 0 := Real.pi_ne_zero
  have hz : 2 * Real.pi / cellVolume cv * (t / (2 * Real.pi)) * cellVolume cv = t := by field_simp
  have key : ∀ A x : ℝ, A = cellVolume cv * x →
      2 * Real.pi / cellVolume cv * (t / (2 * Real.pi)) * A = t * x := by
    intro A x hA
    rw [hA, ← mul_assoc, hz]
  have hx := key _ u.x (show (dot cv.a u) * (cv.b.y * cv.c.z - cv.b.z * cv.c.y)
    + (dot cv.b u) * (cv.c.y * cv.a.z - cv.c.z * cv.a.y) + (dot cv.c u) * (cv.a.y * cv.b.z - cv.a.z * cv.b.y) = _ by
      rw [h]; simp only [dot]; ring)
  have hy := key _ u.y (show (dot cv.a u) * (cv.b.z * cv.c.x - cv.b.x * cv.c.z)
    + (dot cv.b u) * (cv.c.z * cv.a.x - cv.c.x * cv.a.z) + (dot cv.c u) * (cv.a.z * cv.b.x - cv.a.x * cv.b.z) = _ by
      rw [h]; simp only [dot]; ring)
  have hzz := key _ u.z (show (dot cv.a u) * (cv.b.x * cv.c.y - cv.b.y * cv.c.x)
    + (dot cv.b u) * (cv.c.x * cv.a.y - cv.c.y * cv.a.x) + (dot cv.c u) * (cv.a.x * cv.b.y - cv.a.y * cv.b.x) = _ by
      rw [h]; simp only [dot]; ring)
  simp only [reciprocalCell, toCart, add, smul, cross, V3.mk.injEq, path]
  refine ⟨?_, ?_, ?_⟩
  · rw [← hx]; ring
  · rw [← hy]; ring
  · rw [← hzz]; ring

theorem along_start {cv : M3 ℝ} (hv : cellVolume cv ≠ 0) {q u : V3 ℝ} {p : ℝ → V3 ℝ} (hp : Along cv q u p)
    (fcw : Fin N → Mat n ℝ) (cells : Fin N → V3 ℤ) (scOs : List (V3 ℤ)) (img : Fin N → Fin n → Fin n → List ℤ) :
    dynMat fcw cells scOs img (p 0) = dynMat fcw cells scOs img q := by
  funext k l
  have h1 : phasesOf (p 0) scOs = phasesOf q scOs := by
    rw [C42_phases, C42_phases]
    exact List.map_congr_left fun R _ => along_zero hv hp R
  unfold dynMat
  simp only [h1, cellPhase_eq, along_zero hv hp]

/-- If the dynamical matrix is Hermitian everywhere, so is its gradient. -/
theorem C126_gradient_hermitian (cv : M3 ℝ) (hv : cellVolume cv ≠ 0) (fcw : Fin N → Mat n ℝ) (cells : Fin N → V3 ℤ)
    (scOs : List (V3 ℤ)) (img : Fin N → Fin n → Fin n → List ℤ)
    (hH : ∀ q k l, dynMat fcw cells scOs img q l k = star (dynMat fcw cells scOs img q k l)) (q : V3 ℝ) (d : Fin 3)
    (k l : Fin (n * 3)) :
    dynGrad cv fcw cells scOs img q d l k = star (dynGrad cv fcw cells scOs img q d k l) := by
  have key : ∀ u : V3 ℝ,
      (u.x * dynGrad cv fcw cells scOs img q 0 l k + u.y * dynGrad cv fcw cells scOs img q 1 l k
        + u.z * dynGrad cv fcw cells scOs img q 2 l k : ℂ)
      = star (u.x * dynGrad cv fcw cells scOs img q 0 k l + u.y * dynGrad cv fcw cells scOs img q 1 k l
        + u.z * dynGrad cv fcw cells scOs img q 2 k l : ℂ) := by
    intro u
    have h1 := C126_matrix_gradient cv hv fcw cells scOs img (path_along cv hv q u) l k
    have h2 := (C126_matrix_gradient cv hv fcw cells scOs img (path_along cv hv q u) k l).star
    refine h1.unique (h2.congr_of_eventuallyEq (Filter.Eventually.of_forall fun t => ?_))
    exact hH _ k l
  match d with
  | 0 => simpa using key ⟨1, 0, 0⟩
  | 1 => simpa using key ⟨0, 1, 0⟩
  | 2 => simpa using key ⟨0, 0, 1⟩

/-! ## Frequencies -/

theorem freqOf_deriv_pos {f : ℝ → ℝ} {f' t₀ : ℝ} (h : HasDerivAt f f' t₀) (hp : 0 < f t₀) :
    HasDerivAt (fun t => freqOf (f t)) (f' / (2 * freqOf (f t₀))) t₀ := by
  have h1 := h.sqrt hp.ne'
  have h2 : freqOf (f t₀) = √(f t₀) := by
    unfold freqOf; rw [if_neg (not_lt.2 hp.le), abs_of_pos hp]
  rw [h2]
  refine h1.congr_of_eventuallyEq ?_
  filter_upwards [h.continuousAt.eventually (lt_mem_nhds hp)] with t ht
  unfold freqOf
  rw [if_neg (not_lt.2 ht.le), abs_of_pos ht]

theorem freqOf_deriv_neg {f : ℝ → ℝ} {f' t₀ : ℝ} (h : HasDerivAt f f' t₀) (hn : f t₀ < 0) :
    HasDerivAt (fun t => freqOf (f t)) (-(f' / (2 * freqOf (f t₀)))) t₀ := by
  have h1 := (h.neg.sqrt (by simpa using hn.ne)).neg
  have h2 : freqOf (f t₀) = -√(-f t₀) := by
    unfold freqOf; rw [if_pos hn, abs_of_neg hn]; ring
  rw [h2]
  have h3 : -(-f' / (2 * √(-f t₀))) = -(f' / (2 * -√(-f t₀))) := by
    rw [mul_neg, div_neg, neg_div]
  refine (h1.congr_deriv h3).congr_of_eventuallyEq ?_
  filter_upwards [h.continuousAt.eventually (gt_mem_nhds hn)] with t ht
  unfold freqOf
  rw [if_pos ht, abs_of_neg ht]
  simp

/-- What a calculation of mode gradients starts from: the cell, the weighted force constants, cells and images, masses,
the correction of the acoustic sum rule (that does not depend on `q`), and an eigensolver. -/
structure System (N n : Nat) where
  cv : M3 ℝ
  fcw : Fin N → Mat n ℝ
  cells : Fin N → V3 ℤ
  scOs : List (V3 ℤ)
  img : Fin N → Fin n → Fin n → List ℤ
  mass : Fin n → ℝ
  asr : Option (Mat n ℂ)
  eigh : Mat n ℂ → (Fin (n * 3) → ℝ) × Mat n ℂ

namespace System

/-- The dynamical matrix. -/
noncomputable def D (S : System N n) (q : V3 ℝ) : Mat n ℂ := dynMat S.fcw S.cells S.scOs S.img q

/-- The matrix that is diagonalised, with the dipole correction `dip` if there is one. -/
noncomputable def M (S : System N n) (dip : V3 ℝ → Option (Mat n ℂ)) (q : V3 ℝ) : Mat n ℂ :=
  weighted (massWeighting S.mass) (S.D q) (dip q) S.asr none

/-- The frequency that is reported for mode `s` at `q`. -/
noncomputable def freq (S : System N n) (dip : V3 ℝ → Option (Mat n ℂ)) (q : V3 ℝ) (s : Fin (n * 3)) : ℝ :=
  freqOf ((S.eigh (S.M dip q)).1 s)

/-- The gradient that is reported: the real part of what has been computed (euphonic/force_constants.py:733). -/
noncomputable def grad (S : System N n) (dip : V3 ℝ → Option (Mat n ℂ)) (q : V3 ℝ) (s : Fin (n * 3)) (d : Fin 3) : ℝ :=
  (modeGradients (massWeighting S.mass) (S.eigh (S.M dip q)).1 (S.eigh (S.M dip q)).2
    (dynGrad S.cv S.fcw S.cells S.scOs S.img q) s d).re

/-- The component of the reported gradient in direction `u`. -/
noncomputable def gradAlong (S : System N n) (dip : V3 ℝ → Option (Mat n ℂ)) (q u : V3 ℝ) (s : Fin (n * 3)) : ℝ :=
  u.x * S.grad dip q s 0 + u.y * S.grad dip q s 1 + u.z * S.grad dip q s 2

/-- What is assumed: a cell with a volume, an eigensolver that works, a Hermitian dynamical matrix (see
`C43_hermitian`), Hermitian corrections. -/
structure Good (S : System N n) (dip : V3 ℝ → Option (Mat n ℂ)) : Prop where
  volume : cellVolume S.cv ≠ 0
  eigh : IsEigh S.eigh
  hermitian : ∀ q k l, S.D q l k = star (S.D q k l)
  asr : ∀ A, S.asr = some A → ∀ k l, A l k = star (A k l)
  dip : ∀ q A, dip q = some A → ∀ k l, A l k = star (A k l)

end System

theorem weighted_eq (w : Mat n ℝ) (d : Mat n ℂ) (dip asr : Option (Mat n ℂ)) (k l : Fin (n * 3)) :
    weighted w d dip asr none k l = (d k l + orZero dip k l + orZero asr k l) * w k l := by
  cases dip <;> cases asr <;> simp [weighted, orZero]

theorem massWeighting_symm (m : Fin n → ℝ) (k l : Fin (n * 3)) : massWeighting m l k = massWeighting m k l := by
  unfold massWeighting
  rw [mul_comm]

theorem orZero_hermitian {A : Option (Mat n ℂ)} (h : ∀ B, A = some B → ∀ k l, B l k = star (B k l))
    (k l : Fin (n * 3)) : orZero A l k = star (orZero A k l) := by
  cases A with
  | none => simp [orZero]
  | some B => exact h B rfl k l

theorem System.Good.matrix {S : System N n} {dip : V3 ℝ → Option (Mat n ℂ)} (h : S.Good dip) (q : V3 ℝ)
    (k l : Fin (n * 3)) : S.M dip q l k = star (S.M dip q k l) := by
  unfold System.M
  rw [weighted_eq, weighted_eq, h.hermitian q k l, orZero_hermitian (h.dip q) k l, orZero_hermitian h.asr k l,
    massWeighting_symm S.mass k l, star_mul', star_add, star_add]
  congr 1
  exact (Complex.conj_ofReal _).symm

/-- The derivative of the eigenvalue and what is reported, in terms of the same expectation values. -/
theorem eigenvalue_along {S : System N n} {dip : V3 ℝ → Option (Mat n ℂ)} (h : S.Good dip) {q u : V3 ℝ}
    {p : ℝ → V3 ℝ} (hp : Along S.cv q u p) (h0 : p 0 = q) {C' : Mat n ℂ}
    (hC : ∀ k l, HasDerivAt (fun t => orZero (dip (p t)) k l) (C' k l) 0) {s : Fin (n * 3)}
    (hs : ∀ j, j ≠ s → (S.eigh (S.M dip q)).1 j ≠ (S.eigh (S.M dip q)).1 s) (hz : (S.eigh (S.M dip q)).1 s ≠ 0) :
    HasDerivAt (fun t => (S.eigh (S.M dip (p t))).1 s)
      (2 * S.freq dip q s * S.gradAlong dip q u s +
        (∑ j, ∑ k, star ((S.eigh (S.M dip q)).2 s j) * (S.eigh (S.M dip q)).2 s k *
          (C' j k * massWeighting S.mass j k)).re) 0 := by
  subst h0
  have hd : ∀ k l, HasDerivAt (fun t => S.M dip (p t) k l)
      ((u.x * dynGrad S.cv S.fcw S.cells S.scOs S.img (p 0) 0 k l + u.y * dynGrad S.cv S.fcw S.cells S.scOs S.img (p 0) 1 k l
        + u.z * dynGrad S.cv S.fcw S.cells S.scOs S.img (p 0) 2 k l + C' k l) * massWeighting S.mass k l) 0 := by
    intro k l
    unfold System.M
    simp only [weighted_eq]
    exact (((C126_matrix_gradient S.cv h.volume S.fcw S.cells S.scOs S.img hp k l).add (hC k l)).add_const _).mul_const _
  have h1 := eigenvalue_deriv h.eigh (fun t => h.matrix (p t)) hd hs
  refine h1.congr_deriv ?_
  have hf : S.freq dip (p 0) s ≠ 0 := by
    unfold System.freq
    exact mt (C51_frequency_sign _).2.2.1.1 hz
  have hg : ∀ d, 2 * S.freq dip (p 0) s * S.grad dip (p 0) s d
      = (∑ j, ∑ k, star ((S.eigh (S.M dip (p 0))).2 s j) * (S.eigh (S.M dip (p 0))).2 s k *
        (dynGrad S.cv S.fcw S.cells S.scOs S.img (p 0) d j k * massWeighting S.mass j k)).re := by
    intro d
    unfold System.grad modeGradients
    rw [show (freqOf ((S.eigh (S.M dip (p 0))).1 s)) = S.freq dip (p 0) s from rfl]
    have : (2 * (S.freq dip (p 0) s : ℝ) : ℂ) = ((2 * S.freq dip (p 0) s : ℝ) : ℂ) := by push_cast; rfl
    rw [this, Complex.div_ofReal_re]
    field_simp
  unfold System.gradAlong
  rw [mul_add, mul_add, mul_left_comm _ u.x, mul_left_comm _ u.y, mul_left_comm _ u.z, hg 0, hg 1, hg 2,
    ← Complex.re_ofReal_mul, ← Complex.re_ofReal_mul, ← Complex.re_ofReal_mul, ← Complex.add_re, ← Complex.add_re,
    ← Complex.add_re]
  congr 1
  simp only [Finset.mul_sum, ← Finset.sum_add_distrib]
  refine Finset.sum_congr rfl fun j _ => Finset.sum_congr rfl fun k _ => ?_
  ring

/-- **C126 (frequencies).** Without dipole corrections, the mode gradient that is reported for a mode with a real
frequency that no other mode has is the gradient of this frequency: along every Cartesian direction `u` the
frequency, as `_calculate_phonons_at_q` computes it, has the derivative `u . gradient`.  *Missing:* modes with
imaginary frequencies (the sign is wrong, `C126_imaginary_sign`), dipole corrections (their part is missing,
`C126_dipole_missing`), modes of equal frequency (only their sum is the derivative of the sum of the
frequencies: `C126_degenerate_sum`, `C126_degenerate_wrong` in `Props/GradientGroup.lean`). -/
theorem C126_gradients_partial {S : System N n} (h : S.Good fun _ => none) {q u : V3 ℝ} {p : ℝ → V3 ℝ}
    (hp : Along S.cv q u p) (h0 : p 0 = q) {s : Fin (n * 3)}
    (hs : ∀ j, j ≠ s → S.freq (fun _ => none) q j ≠ S.freq (fun _ => none) q s)
    (hpos : 0 < S.freq (fun _ => none) q s) :
    HasDerivAt (fun t => S.freq (fun _ => none) (p t) s) (S.gradAlong (fun _ => none) q u s) 0 := by
  have hs' : ∀ j, j ≠ s → (S.eigh (S.M (fun _ => none) q)).1 j ≠ (S.eigh (S.M (fun _ => none) q)).1 s :=
    fun j hj he => hs j hj (by unfold System.freq; rw [he])
  have hp' : 0 < (S.eigh (S.M (fun _ => none) q)).1 s := by
    unfold System.freq at hpos
    by_contra hn
    rcases (not_lt.1 hn).lt_or_eq with hl | he
    · exact absurd ((C51_frequency_sign _).2.1.2 hl) (not_lt.2 hpos.le)
    · exact hpos.ne' ((C51_frequency_sign _).2.2.1.2 he)
  have h1 := eigenvalue_along h hp h0 (C' := fun _ _ => 0) (fun k l => by simpa [orZero] using hasDerivAt_const (0 : ℝ) (0 : ℂ))
    hs' hp'.ne'
  have h2 := freqOf_deriv_pos h1 (by rw [h0]; exact hp')
  refine h2.congr_deriv ?_
  simp only [zero_mul, mul_zero, Finset.sum_const_zero, Complex.zero_re, add_zero]
  rw [h0]
  change 2 * S.freq (fun _ => none) q s * _ / (2 * S.freq (fun _ => none) q s) = _
  rw [mul_div_cancel_left₀ _ (by linarith)]

/-- **C126, violated.** For a mode with an imaginary frequency (reported as a negative number) the derivative of the
reported frequency is *minus* the reported gradient. -/
theorem C126_imaginary_sign {S : System N n} (h : S.Good fun _ => none) {q u : V3 ℝ} {p : ℝ → V3 ℝ}
    (hp : Along S.cv q u p) (h0 : p 0 = q) {s : Fin (n * 3)}
    (hs : ∀ j, j ≠ s → S.freq (fun _ => none) q j ≠ S.freq (fun _ => none) q s)
    (hneg : S.freq (fun _ => none) q s < 0) :
    HasDerivAt (fun t => S.freq (fun _ => none) (p t) s) (-S.gradAlong (fun _ => none) q u s) 0 := by
  have hs' : ∀ j, j ≠ s → (S.eigh (S.M (fun _ => none) q)).1 j ≠ (S.eigh (S.M (fun _ => none) q)).1 s :=
    fun j hj he => hs j hj (by unfold System.freq; rw [he])
  have hn' : (S.eigh (S.M (fun _ => none) q)).1 s < 0 := (C51_frequency_sign _).2.1.1 hneg
  have h1 := eigenvalue_along h hp h0 (C' := fun _ _ => 0) (fun k l => by simpa [orZero] using hasDerivAt_const (0 : ℝ) (0 : ℂ))
    hs' hn'.ne
  have h2 := freqOf_deriv_neg h1 (by rw [h0]; exact hn')
  refine h2.congr_deriv ?_
  simp only [zero_mul, mul_zero, Finset.sum_const_zero, Complex.zero_re, add_zero]
  rw [h0]
  change -(2 * S.freq (fun _ => none) q s * _ / (2 * S.freq (fun _ => none) q s)) = _
  rw [mul_div_cancel_left₀ _ (by linarith)]

/-- **C126, violated.** With dipole corrections the part of the gradient that comes from the change of the correction
with `q` is missing: the derivative of the frequency is the reported gradient plus the expectation value of the
derivative of the correction. -/
theorem C126_dipole_missing {S : System N n} {dip : V3 ℝ → Option (Mat n ℂ)} (h : S.Good dip) {q u : V3 ℝ}
    {p : ℝ → V3 ℝ} (hp : Along S.cv q u p) (h0 : p 0 = q) {C' : Mat n ℂ}
    (hC : ∀ k l, HasDerivAt (fun t => orZero (dip (p t)) k l) (C' k l) 0) {s : Fin (n * 3)}
    (hs : ∀ j, j ≠ s → S.freq dip q j ≠ S.freq dip q s) (hpos : 0 < S.freq dip q s) :
    HasDerivAt (fun t => S.freq dip (p t) s) (S.gradAlong dip q u s +
      (∑ j, ∑ k, star ((S.eigh (S.M dip q)).2 s j) * (S.eigh (S.M dip q)).2 s k *
          (C' j k * massWeighting S.mass j k)).re / (2 * S.freq dip q s)) 0 := by
  have hs' : ∀ j, j ≠ s → (S.eigh (S.M dip q)).1 j ≠ (S.eigh (S.M dip q)).1 s :=
    fun j hj he => hs j hj (by unfold System.freq; rw [he])
  have hp' : 0 < (S.eigh (S.M dip q)).1 s := by
    unfold System.freq at hpos
    by_contra hn
    rcases (not_lt.1 hn).lt_or_eq with hl | he
    · exact absurd ((C51_frequency_sign _).2.1.2 hl) (not_lt.2 hpos.le)
    · exact hpos.ne' ((C51_frequency_sign _).2.2.1.2 he)
  have h1 := eigenvalue_along h hp h0 hC hs' hp'.ne'
  have h2 := freqOf_deriv_pos h1 (by rw [h0]; exact hp')
  refine h2.congr_deriv ?_
  rw [h0, add_div]
  congr 1
  change 2 * S.freq dip q s * _ / (2 * S.freq dip q s) = _
  rw [mul_div_cancel_left₀ _ (by linarith)]

/-! ## An example: a chain of atoms -/

namespace Ex

/-- Force constants of a chain of atoms along x with springs of strength 1 (of the wrong sign) to its neighbours, and springs
to its place of strengths -1, 1, 2 for displacements in x, y, z. -/
noncomputable def fcw : Fin 3 → Mat 1 ℝ := fun c k l => if k = l then (if c = 0 then ![-1, 1, 2] k else 1) else 0

/-- The cell of the atom and its two neighbours. -/
def cells : Fin 3 → V3 ℤ := ![⟨0, 0, 0⟩, ⟨1, 0, 0⟩, ⟨-1, 0, 0⟩]

/-- The chain. -/
noncomputable def chain (eigh : Mat 1 ℂ → (Fin (1 * 3) → ℝ) × Mat 1 ℂ) : System 3 1 where
  cv := ⟨⟨1, 0, 0⟩, ⟨0, 1, 0⟩, ⟨0, 0, 1⟩⟩
  fcw := fcw
  cells := cells
  scOs := [⟨0, 0, 0⟩]
  img := fun _ _ _ => [0]
  mass := fun _ => 1
  asr := none
  eigh := eigh

/-- A quarter of a reciprocal lattice vector. -/
noncomputable def q : V3 ℝ := ⟨1 / 4, 0, 0⟩

theorem phaseSum_one (q : V3 ℝ) : phaseSum (phasesOf q [⟨0, 0, 0⟩]) [0] = 1 := by
  rw [C42_phases]
  simp [phaseSum, phaseAt, expQR_zero]

theorem D_eq (eigh : Mat 1 ℂ → (Fin (1 * 3) → ℝ) × Mat 1 ℂ) (q : V3 ℝ) (k l : Fin (1 * 3)) :
    (chain eigh).D q k l = if k = l then
      ((![-1, 1, 2] k : ℝ) : ℂ) + (expQR q ⟨1, 0, 0⟩ + star (expQR q ⟨1, 0, 0⟩)) else 0 := by
  have h : expQR q ⟨-1, 0, 0⟩ = star (expQR q ⟨1, 0, 0⟩) := by
    rw [← expQR_neg']; simp [neg]
  simp only [System.D, chain, dynMat, phaseSum_one, cellPhase_eq, Fin.sum_univ_three, cells, fcw]
  by_cases hkl : k = l
  · simp [hkl, expQR_zero, h]
    ring
  · simp [hkl]

theorem expQR_quarter : expQR q ⟨1, 0, 0⟩ = Complex.I := by
  unfold expQR q
  have : (2 * Real.pi * ((1 / 4 : ℝ) * ((1 : ℤ) : ℝ) + 0 * ((0 : ℤ) : ℝ) + 0 * ((0 : ℤ) : ℝ) : ℝ) * Complex.I : ℂ)
      = Real.pi / 2 * Complex.I := by
    push_cast
    ring
  rw [this, Complex.exp_pi_div_two_mul_I]

theorem massWeighting_one (k l : Fin (1 * 3)) : massWeighting (fun _ : Fin 1 => (1 : ℝ)) k l = 1 := by
  simp [massWeighting]

theorem M_eq (eigh : Mat 1 ℂ → (Fin (1 * 3) → ℝ) × Mat 1 ℂ) :
    (chain eigh).M (fun _ => none) q = fun k l => if k = l then ((![-1, 1, 2] k : ℝ) : ℂ) else 0 := by
  funext k l
  unfold System.M
  rw [weighted_eq, D_eq, expQR_quarter]
  simp only [chain, massWeighting_one, orZero]
  split_ifs <;> simp

theorem good (eigh : Mat 1 ℂ → (Fin (1 * 3) → ℝ) × Mat 1 ℂ) (he : IsEigh eigh) :
    (chain eigh).Good fun _ => none where
  volume := by simp [chain, cellVolume, dot, cross]
  eigh := he
  hermitian := fun q k l => by
    rw [D_eq, D_eq]
    by_cases h : k = l
    · subst h
      simp only [if_true, star_add, star_star]
      rw [show star (((![-1, 1, 2] k : ℝ) : ℂ)) = ((![-1, 1, 2] k : ℝ) : ℂ) from Complex.conj_ofReal _]
      ring
    · simp [h, Ne.symm h]
  asr := by simp [chain]
  dip := by simp

theorem evals (eigh : Mat 1 ℂ → (Fin (1 * 3) → ℝ) × Mat 1 ℂ) (he : IsEigh eigh) :
    (eigh ((chain eigh).M (fun _ => none) q)).1 = ![-1, 1, 2] := by
  obtain ⟨b, hb, -⟩ := diag_of_eigh he (fun k l => (good eigh he).matrix q k l)
  have hd : Eigen.Diag (toOp ((chain eigh).M (fun _ => none) q)) ![-1, 1, 2] (EuclideanSpace.basisFun (Fin 3) ℂ) := by
    refine ⟨?_, fun i => ?_⟩
    · intro i j hij
      fin_cases i <;> fin_cases j <;> first | (simp at hij; done) | norm_num
    · rw [M_eq]
      ext k
      simp only [EuclideanSpace.basisFun_apply, EuclideanSpace.single]
      rw [toOp_apply]
      by_cases hik : k = i
      · subst hik; simp
      · simp [hik]
  funext s
  have := hb.weyl_abs hd s
  rw [sub_self, norm_zero, abs_nonpos_iff, sub_eq_zero] at this
  exact this

theorem dynGrad_eq (eigh : Mat 1 ℂ → (Fin (1 * 3) → ℝ) × Mat 1 ℂ) (k l : Fin (1 * 3)) :
    dynGrad (chain eigh).cv (chain eigh).fcw (chain eigh).cells (chain eigh).scOs (chain eigh).img q 0 k l
      = if k = l then -2 else 0 := by
  have h : expQR q ⟨-1, 0, 0⟩ = -Complex.I := by
    have : expQR q ⟨-1, 0, 0⟩ = star (expQR q ⟨1, 0, 0⟩) := by
      rw [← expQR_neg']; simp [neg]
    rw [this, expQR_quarter]
    exact Complex.conj_I
  have h0 : ∀ v : V3 ℝ, comp v 0 = v.x := fun v => rfl
  have hp : phaseAt (phasesOf q [⟨0, 0, 0⟩] ++ [0]) 0 = 1 := by
    rw [C42_phases]
    simp [phaseAt, expQR_zero]
  have hs : scOriginCart (⟨⟨1, 0, 0⟩, ⟨0, 1, 0⟩, ⟨0, 0, 1⟩⟩ : M3 ℝ) [⟨0, 0, 0⟩] 0 = ⟨0, 0, 0⟩ := by
    simp [scOriginCart, toCart, castV]
  simp only [chain, dynGrad, cellPhase_eq, Fin.sum_univ_three, List.map_cons, List.map_nil, List.sum_cons, List.sum_nil, hp, h0,
    hs]
  simp only [cells, Matrix.cons_val_zero, Matrix.cons_val_one, Matrix.cons_val_two, Matrix.head_cons, Matrix.tail_cons,
    expQR_quarter, h, expQR_zero, fcw, add, toCart, castV]
  by_cases hkl : k = l
  · simp [hkl]
    ring_nf
  · simp [hkl]

theorem freqs (eigh : Mat 1 ℂ → (Fin (1 * 3) → ℝ) × Mat 1 ℂ) (he : IsEigh eigh) (s : Fin (1 * 3)) :
    (chain eigh).freq (fun _ => none) q s = ![-1, 1, √2] s := by
  unfold System.freq
  rw [show (chain eigh).eigh = eigh from rfl, evals eigh he]
  fin_cases s <;> simp [freqOf]

theorem gradAlong_eq (eigh : Mat 1 ℂ → (Fin (1 * 3) → ℝ) × Mat 1 ℂ) (he : IsEigh eigh) (s : Fin (1 * 3)) :
    (chain eigh).gradAlong (fun _ => none) q ⟨1, 0, 0⟩ s = -1 / ![-1, 1, √2] s := by
  have h1 := he.ortho _ (fun k l => (good eigh he).matrix q k l) s s
  rw [if_pos rfl] at h1
  have hf : freqOf ((eigh ((chain eigh).M (fun _ => none) q)).1 s) = ![-1, 1, √2] s := freqs eigh he s
  unfold System.gradAlong System.grad modeGradients
  simp only [dynGrad_eq]
  rw [show (chain eigh).eigh = eigh from rfl, hf]
  have h2 : ∀ e : Fin (1 * 3) → ℂ, (∑ j, ∑ k, star (e j) * e k *
      ((if j = k then -2 else 0 : ℂ) * (massWeighting (chain eigh).mass j k : ℝ))) = -2 * ∑ j, star (e j) * e j := by
    intro e
    rw [Finset.mul_sum]
    refine Finset.sum_congr rfl fun j _ => ?_
    rw [Finset.sum_eq_single j]
    · rw [show (chain eigh).mass = fun _ => 1 from rfl, massWeighting_one]
      simp
      ring
    · intro k _ hk; simp [hk.symm]
    · simp
  rw [h2, h1]
  generalize (![-1, 1, √2] s : ℝ) = f
  have : (-2 * 1 / (2 * (f : ℝ)) : ℂ) = ((-1 / f : ℝ) : ℂ) := by
    push_cast
    rw [mul_one, neg_div, neg_div, one_div, div_mul_eq_div_div, div_self (by norm_num), one_div]
  rw [this, Complex.ofReal_re]
  simp

theorem simple (eigh : Mat 1 ℂ → (Fin (1 * 3) → ℝ) × Mat 1 ℂ) (he : IsEigh eigh) (s j : Fin (1 * 3)) (h : j ≠ s) :
    (chain eigh).freq (fun _ => none) q j ≠ (chain eigh).freq (fun _ => none) q s := by
  rw [freqs eigh he, freqs eigh he]
  have h2 : (1 : ℝ) < √2 := by
    rw [Real.lt_sqrt (by norm_num)]; norm_num
  have h3 : (0 : ℝ) < √2 := by linarith
  fin_cases s <;> fin_cases j <;> first | exact absurd rfl h | (simp; done) | (simp; linarith)

/-- Beside C126: the second mode of the chain has frequency 1 and gradient -1, in accordance with `C126_gradients_partial`. -/
example (eigh : Mat 1 ℂ → (Fin (1 * 3) → ℝ) × Mat 1 ℂ) (he : IsEigh eigh) :
    (chain eigh).freq (fun _ => none) q 1 = 1 ∧
      HasDerivAt (fun t => (chain eigh).freq (fun _ => none) (path (chain eigh).cv q ⟨1, 0, 0⟩ t) 1) (-1) 0 := by
  have hf := freqs eigh he 1
  refine ⟨by simpa using hf, ?_⟩
  have h := C126_gradients_partial (good eigh he) (path_along _ (good eigh he).volume q ⟨1, 0, 0⟩)
    (by simp [path, add, smul, q]) (s := 1) (fun j hj => simple eigh he 1 j hj) (by rw [hf]; norm_num)
  rw [gradAlong_eq eigh he] at h
  simpa using h

end Ex

/-- **C126, violated.** The chain of the example has a mode with an imaginary frequency whose reported gradient is not the
derivative of its reported frequency: -1 is the derivative, 1 is reported. -/
theorem C126_imaginary_wrong : ∃ (S : System 3 1) (q u : V3 ℝ) (s : Fin (1 * 3)), S.Good (fun _ => none) ∧
    (∀ j, j ≠ s → S.freq (fun _ => none) q j ≠ S.freq (fun _ => none) q s) ∧
    S.gradAlong (fun _ => none) q u s = 1 ∧
    ∀ p, Along S.cv q u p → p 0 = q → HasDerivAt (fun t => S.freq (fun _ => none) (p t) s) (-1) 0 := by
  obtain ⟨eigh, he⟩ := exists_isEigh (1 * 3)
  refine ⟨Ex.chain eigh, Ex.q, ⟨1, 0, 0⟩, 0, Ex.good eigh he, fun j hj => Ex.simple eigh he 0 j hj, ?_, ?_⟩
  · rw [Ex.gradAlong_eq eigh he]; simp
  · intro p hp h0
    have h := C126_imaginary_sign (Ex.good eigh he) hp h0 (fun j hj => Ex.simple eigh he 0 j hj)
      (by rw [Ex.freqs eigh he]; norm_num)
    rw [Ex.gradAlong_eq eigh he] at h
    simpa using h

end Euphonic.Gradient
