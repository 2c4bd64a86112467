import Verif.Props.GradientGroup
import Verif.Props.Dipole
import Mathlib.Analysis.Analytic.Uniqueness
import Mathlib.Analysis.Analytic.Constructions
import Mathlib.Analysis.SpecialFunctions.ExpDeriv
import Mathlib.Analysis.SpecialFunctions.Trigonometric.Deriv
import Mathlib.Analysis.Calculus.Deriv.MeanValue

/-!
# C126: a polar crystal whose mode gradients are wrong
-/

set_option autoImplicit false

namespace Euphonic.Gradient

namespace Polar

open Euphonic.Lattice Euphonic.Supercell Euphonic.Phases Euphonic.Images Euphonic.DynMat Euphonic.Dipole

/-- A cubic cell of length 2 pi with one atom, which has a charge for displacements along x only. -/
noncomputable def ions : Ions 1 where
  cv := ⟨⟨2 * Real.pi, 0, 0⟩, ⟨0, 2 * Real.pi, 0⟩, ⟨0, 0, 2 * Real.pi⟩⟩
  r := fun _ => ⟨0, 0, 0⟩
  born := fun _ a b => if a = 0 ∧ b = 0 then 1 else 0
  diel := 1

theorem volume_eq : cellVolume ions.cv = (2 * Real.pi) ^ 3 := by
  simp [cellVolume, ions, dot, cross]; ring

theorem volume_ne : cellVolume ions.cv ≠ 0 := by
  rw [volume_eq]; exact pow_ne_zero _ (by positivity)

theorem recip_eq : recip ions = ⟨⟨1, 0, 0⟩, ⟨0, 1, 0⟩, ⟨0, 0, 1⟩⟩ := by
  have h := Real.pi_ne_zero
  simp only [recip, reciprocalCell, volume_eq]
  simp only [ions, cross, smul, mul_zero, sub_zero, zero_mul, sub_self]
  congr 1 <;> congr 1 <;> field_simp

theorem toCart_recip (q : V3 ℝ) : toCart (recip ions) q = q := by
  rw [recip_eq]; simp [toCart]

theorem lam_pos : 0 < upperLambda ions 1 := by
  have := Real.pi_pos
  have h : √(2 * Real.pi * (2 * Real.pi)) = 2 * Real.pi := Real.sqrt_mul_self (by positivity)
  simp only [upperLambda, ions, dot, mul_zero, add_zero, zero_add, h, Matrix.det_one, Nat.cast_one, Real.one_rpow, mul_one]
  positivity

/-- The square of a wave vector. -/
def sqn (k : V3 ℝ) : ℝ := k.x ^ 2 + k.y ^ 2 + k.z ^ 2

theorem kTerm_xx (lam : ℝ) (k : V3 ℝ) :
    kTerm ions lam k 0 0 = k.x ^ 2 * (Real.exp (-(sqn k / (4 * lam ^ 2))) / (sqn k / (4 * lam ^ 2))) := by
  simp only [kTerm, ions, Fin.sum_univ_three, comp, Matrix.one_apply, sqn]
  simp [pow_two]

/-- The part of the correction without the term of `G = 0`. -/
noncomputable def rest (erfc : ℝ → ℝ) (lam : ℝ) (q : V3 ℝ) : ℝ :=
  recipFactor ions lam * ((gvecs ions lam).map fun G => kTerm ions lam (add (castV ℝ G) q) 0 0).sum
  - realFactor ions lam * ((cells erfc ions lam).map fun R =>
      Real.cos (2 * Real.pi * (q.x * R.x + q.y * R.y + q.z * R.z)) * hab erfc ions lam R 0 0 0 0).sum
  - (q0 erfc ions lam 0 0 0).re

/-- The correction. -/
noncomputable def corr (erfc : ℝ → ℝ) (lam : ℝ) (q : V3 ℝ) : ℝ :=
  recipFactor ions lam * kTerm ions lam q 0 0 + rest erfc lam q

theorem re_sum (l : List ℂ) : l.sum.re = (l.map Complex.re).sum := by
  induction l with
  | nil => simp
  | cons a l ih => simp [ih]

theorem born_sum (f : Fin 3 → Fin 3 → ℂ) (a b : Fin 3) :
    ∑ c, ∑ d, (ions.born 0 a c * ions.born 0 b d : ℝ) * f c d = if a = 0 ∧ b = 0 then f 0 0 else 0 := by
  fin_cases a <;> fin_cases b <;> simp [ions, Fin.sum_univ_three]

theorem phase_one (G : V3 ℤ) (q : V3 ℝ) : gPhase ions G 0 = 1 ∧ qPhase ions q 0 = 1 := by
  simp [gPhase, qPhase, ions]

theorem corrAt_re (erfc : ℝ → ℝ) (lam : ℝ) (q : V3 ℝ) (h : isGamma q = false) :
    (corrAt erfc ions lam q 0 0 0 0).re = corr erfc lam q := by
  unfold corrAt
  rw [born_sum]
  simp only [fill, le_refl, if_true, recipTerm, realTerm, h, and_self, Complex.sub_re, Complex.re_ofReal_mul, re_sum,
    List.map_map, toCart_recip, (phase_one _ q).1, (phase_one ⟨0, 0, 0⟩ q).2, corr, rest]
  have h1 : ∀ x : ℝ, (Complex.exp (2 * Complex.I * Real.pi * (x : ℂ))).re = Real.cos (2 * Real.pi * x) := by
    intro x
    rw [show (2 * Complex.I * Real.pi * (x : ℂ)) = ((2 * Real.pi * x : ℝ) : ℂ) * Complex.I by push_cast; ring,
      Complex.exp_ofReal_mul_I_re]
  have h2 : ∀ x : ℝ, ∀ y : ℝ, (Complex.exp (2 * Complex.I * Real.pi * (x : ℂ)) * (y : ℂ)).re
      = Real.cos (2 * Real.pi * x) * y := by
    intro x y
    rw [Complex.re_mul_ofReal, h1]
  have h3 : add (castV ℝ (⟨0, 0, 0⟩ : V3 ℤ)) q = q := by simp [add, castV]
  simp only [Function.comp_def, h2, mul_one, div_one, Complex.ofReal_re, Bool.false_eq_true, if_false]
  rw [List.map_cons, List.sum_cons, h3]
  ring

theorem corrAt_other (erfc : ℝ → ℝ) (lam : ℝ) (q : V3 ℝ) (a b : Fin 3) (h : ¬ (a = 0 ∧ b = 0)) :
    corrAt erfc ions lam q 0 0 a b = 0 := by
  have hb : ∀ f : Fin 1 → Fin 3 → Fin 3 → ℂ, ∀ a b : Fin 3, ¬ (a = 0 ∧ b = 0) →
      ∑ j : Fin 1, ∑ c, ∑ d, (ions.born 0 a c * ions.born j b d : ℝ) * f j c d = 0 := by
    intro f a b hab
    rw [Fin.sum_univ_one, born_sum, if_neg hab]
  unfold corrAt
  rw [born_sum, if_neg h]
  simp only [if_true, q0, q0Raw]
  rw [hb _ a b h, hb _ b a (fun hh => h hh.symm)]
  simp

theorem gvecs_ne (lam : ℝ) (G : V3 ℤ) (h : G ∈ gvecs ions lam) : G ≠ ⟨0, 0, 0⟩ := by
  rintro rfl
  simp only [gvecs, List.mem_flatMap, mem_shell] at h
  obtain ⟨s, hs, h0⟩ := h
  have := List.takeWhile_sublist _ |>.mem hs
  simp only [List.mem_range'_1] at this
  simp [maxAbs] at h0
  omega

theorem sum_analytic {α : Type} (l : List α) (f : α → ℝ → ℝ) (t : ℝ) (h : ∀ a ∈ l, AnalyticAt ℝ (f a) t) :
    AnalyticAt ℝ (fun t => (l.map fun a => f a t).sum) t := by
  induction l with
  | nil => simpa using analyticAt_const
  | cons a l ih =>
    simp only [List.map_cons, List.sum_cons]
    exact (h a (by simp)).add (ih fun b hb => h b (by simp [hb]))

theorem kTerm_analytic {lam : ℝ} (hl : 0 < lam) {k : ℝ → V3 ℝ} {t : ℝ} (hx : AnalyticAt ℝ (fun t => (k t).x) t)
    (hy : AnalyticAt ℝ (fun t => (k t).y) t) (hz : AnalyticAt ℝ (fun t => (k t).z) t) (h : sqn (k t) ≠ 0) :
    AnalyticAt ℝ (fun t => kTerm ions lam (k t) 0 0) t := by
  simp only [kTerm_xx]
  have h2 : AnalyticAt ℝ (fun t => sqn (k t) / (4 * lam ^ 2)) t := by
    unfold sqn
    exact (((hx.pow 2).add (hy.pow 2)).add (hz.pow 2)).div_const
  exact (hx.pow 2).mul (h2.neg.rexp'.div h2 (div_ne_zero h (by positivity)))

/-- Near the origin only the term of `G = 0` is singular. -/
def Small (q : V3 ℝ) : Prop := |q.x| < 1 ∧ |q.y| < 1 ∧ |q.z| < 1

theorem sqn_ne {lam : ℝ} {q : V3 ℝ} (h : Small q) {G : V3 ℤ} (hG : G ∈ gvecs ions lam) : sqn (add (castV ℝ G) q) ≠ 0 := by
  intro h0
  have key : ∀ (g : ℤ) (x : ℝ), |x| < 1 → (g : ℝ) + x = 0 → g = 0 := by
    intro g x hx hg
    have h1 : |(g : ℝ)| < 1 := by
      rw [show (g : ℝ) = -x by linarith, abs_neg]; exact hx
    exact Int.abs_lt_one_iff.1 (by exact_mod_cast h1)
  simp only [sqn, add, castV] at h0
  have hx := sq_nonneg ((G.x : ℝ) + q.x)
  have hy := sq_nonneg ((G.y : ℝ) + q.y)
  have hz := sq_nonneg ((G.z : ℝ) + q.z)
  have ex := key G.x q.x h.1 (pow_eq_zero_iff two_ne_zero |>.1 (by linarith))
  have ey := key G.y q.y h.2.1 (pow_eq_zero_iff two_ne_zero |>.1 (by linarith))
  have ez := key G.z q.z h.2.2 (pow_eq_zero_iff two_ne_zero |>.1 (by linarith))
  apply gvecs_ne lam G hG
  cases G
  simp_all

theorem rest_analytic (erfc : ℝ → ℝ) {lam : ℝ} (hl : 0 < lam) {p : ℝ → V3 ℝ} {t : ℝ}
    (hx : AnalyticAt ℝ (fun t => (p t).x) t) (hy : AnalyticAt ℝ (fun t => (p t).y) t)
    (hz : AnalyticAt ℝ (fun t => (p t).z) t) (h : Small (p t)) : AnalyticAt ℝ (fun t => rest erfc lam (p t)) t := by
  unfold rest
  refine ((analyticAt_const.mul (sum_analytic _ _ _ fun G hG => ?_)).sub
    (analyticAt_const.mul (sum_analytic _ _ _ fun R _ => ?_))).sub analyticAt_const
  · exact kTerm_analytic hl (analyticAt_const.add hx) (analyticAt_const.add hy) (analyticAt_const.add hz) (sqn_ne h hG)
  · refine AnalyticAt.mul ?_ analyticAt_const
    have h1 : AnalyticAt ℝ (fun t => 2 * Real.pi * ((p t).x * R.x + (p t).y * R.y + (p t).z * R.z)) t :=
      analyticAt_const.mul (((hx.mul analyticAt_const).add (hy.mul analyticAt_const)).add (hz.mul analyticAt_const))
    exact AnalyticAt.comp (g := Real.cos) Real.analyticAt_cos h1

theorem corr_analytic (erfc : ℝ → ℝ) {lam : ℝ} (hl : 0 < lam) {p : ℝ → V3 ℝ} {t : ℝ}
    (hx : AnalyticAt ℝ (fun t => (p t).x) t) (hy : AnalyticAt ℝ (fun t => (p t).y) t)
    (hz : AnalyticAt ℝ (fun t => (p t).z) t) (h : Small (p t)) (h0 : sqn (p t) ≠ 0) :
    AnalyticAt ℝ (fun t => corr erfc lam (p t)) t :=
  (analyticAt_const.mul (kTerm_analytic hl hx hy hz h0)).add (rest_analytic erfc hl hx hy hz h)

/-- The correction along x minus the correction along y, at distance `r`. -/
noncomputable def psi (erfc : ℝ → ℝ) (lam r : ℝ) : ℝ :=
  recipFactor ions lam * (4 * lam ^ 2 * Real.exp (-(r ^ 2 / (4 * lam ^ 2)))) +
    (rest erfc lam ⟨r, 0, 0⟩ - rest erfc lam ⟨0, r, 0⟩)

theorem psi_eq (erfc : ℝ → ℝ) {lam r : ℝ} (hl : 0 < lam) (hr : r ≠ 0) :
    psi erfc lam r = corr erfc lam ⟨r, 0, 0⟩ - corr erfc lam ⟨0, r, 0⟩ := by
  unfold psi corr
  have hl' := hl.ne'
  have h1 : kTerm ions lam ⟨r, 0, 0⟩ 0 0 = 4 * lam ^ 2 * Real.exp (-(r ^ 2 / (4 * lam ^ 2))) := by
    rw [kTerm_xx]
    simp only [sqn, ne_eq, OfNat.ofNat_ne_zero, not_false_eq_true, zero_pow, add_zero]
    field_simp
  have h2 : kTerm ions lam ⟨0, r, 0⟩ 0 0 = 0 := by rw [kTerm_xx]; simp
  rw [h1, h2]
  ring

theorem recipFactor_pos {lam : ℝ} (hl : 0 < lam) : 0 < recipFactor ions lam := by
  have := Real.pi_pos
  unfold recipFactor volume
  rw [volume_eq]
  positivity

/-- The correction differs in directions x and y somewhere. -/
theorem exists_ne (erfc : ℝ → ℝ) {lam : ℝ} (hl : 0 < lam) :
    ∃ r : ℝ, 1 / 10 < r ∧ r < 1 / 2 ∧ corr erfc lam ⟨r, 0, 0⟩ ≠ corr erfc lam ⟨0, r, 0⟩ := by
  by_contra hcon
  push Not at hcon
  have han : AnalyticOnNhd ℝ (psi erfc lam) (Set.Ioo (-1) 1) := by
    intro t ht
    have hs : |t| < 1 := abs_lt.2 ht
    have h1 : AnalyticAt ℝ (fun r => rest erfc lam ⟨r, 0, 0⟩) t :=
      rest_analytic (p := fun r => ⟨r, 0, 0⟩) erfc hl analyticAt_id analyticAt_const analyticAt_const
        ⟨hs, by simp, by simp⟩
    have h2 : AnalyticAt ℝ (fun r => rest erfc lam ⟨0, r, 0⟩) t :=
      rest_analytic (p := fun r => ⟨0, r, 0⟩) erfc hl analyticAt_const analyticAt_id analyticAt_const
        ⟨by simp, hs, by simp⟩
    have h3 : AnalyticAt ℝ (fun r : ℝ => -(r ^ 2 / (4 * lam ^ 2))) t := ((analyticAt_id.pow 2).div_const).neg
    exact (analyticAt_const.mul (analyticAt_const.mul h3.rexp')).add (h1.sub h2)
  have hz : psi erfc lam =ᶠ[nhds (1 / 4)] 0 := by
    filter_upwards [Ioo_mem_nhds (show (1 / 10 : ℝ) < 1 / 4 by norm_num) (show (1 / 4 : ℝ) < 1 / 2 by norm_num)] with r hr
    rw [psi_eq erfc hl (by have := hr.1; intro h; rw [h] at this; norm_num at this), hcon r hr.1 hr.2, sub_self]
    rfl
  have h0 := han.eqOn_zero_of_preconnected_of_eventuallyEq_zero isPreconnected_Ioo (by norm_num) hz
    (show (0 : ℝ) ∈ Set.Ioo (-1 : ℝ) 1 by norm_num)
  have : psi erfc lam 0 = recipFactor ions lam * (4 * lam ^ 2) := by simp [psi]
  rw [this] at h0
  have := recipFactor_pos hl
  have : 0 < recipFactor ions lam * (4 * lam ^ 2) := by positivity
  simp at h0
  rcases h0 with h0 | h0
  · linarith
  · exact hl.ne' h0

/-- So it has a derivative that is not zero, somewhere on the line between the two. -/
theorem exists_deriv (erfc : ℝ → ℝ) {lam : ℝ} (hl : 0 < lam) :
    ∃ r τ d : ℝ, 1 / 10 < r ∧ r < 1 / 2 ∧ 0 < τ ∧ τ < r ∧ d ≠ 0 ∧
      HasDerivAt (fun t => corr erfc lam ⟨r - t, t, 0⟩) d τ := by
  obtain ⟨r, h1, h2, h3⟩ := exists_ne erfc hl
  have hd : ∀ t, 0 ≤ t → t ≤ r → HasDerivAt (fun t => corr erfc lam ⟨r - t, t, 0⟩)
      (deriv (fun t => corr erfc lam ⟨r - t, t, 0⟩) t) t := by
    intro t h0 ht
    refine (corr_analytic (p := fun t => ⟨r - t, t, 0⟩) erfc hl (analyticAt_const.sub analyticAt_id) analyticAt_id
      analyticAt_const ⟨?_, ?_, ?_⟩ ?_).differentiableAt.hasDerivAt
    · rw [abs_lt]; constructor <;> dsimp only <;> linarith
    · rw [abs_lt]; constructor <;> dsimp only <;> linarith
    · simp
    · simp only [sqn]
      intro h
      have ha := sq_nonneg (r - t)
      have hb := sq_nonneg t
      have e1 : r - t = 0 := pow_eq_zero_iff two_ne_zero |>.1 (by nlinarith)
      have e2 : t = 0 := pow_eq_zero_iff two_ne_zero |>.1 (by nlinarith)
      linarith
  obtain ⟨τ, hτ, hs⟩ := exists_hasDerivAt_eq_slope (fun t => corr erfc lam ⟨r - t, t, 0⟩)
    (deriv fun t => corr erfc lam ⟨r - t, t, 0⟩) (show 0 < r by linarith)
    (fun t ht => (hd t ht.1 ht.2).continuousAt.continuousWithinAt)
    (fun t ht => hd t ht.1.le ht.2.le)
  refine ⟨r, τ, _, h1, h2, hτ.1, hτ.2, ?_, hd τ hτ.1.le hτ.2.le⟩
  rw [hs]
  refine div_ne_zero ?_ (by linarith)
  simp only [sub_self, sub_zero]
  exact sub_ne_zero.2 (Ne.symm h3)

/-! ## The crystal -/

/-- The correction as Euphonic applies it. -/
noncomputable def dip (erfc : ℝ → ℝ) (q : V3 ℝ) : Option (Mat 1 ℂ) :=
  some (dipoleCorrection erfc ions (upperLambda ions 1) q)

/-- The crystal: besides the correction, springs of strengths `c`, 4, 9 to its place for displacements in x, y, z. -/
noncomputable def crystal (c : ℝ) (eigh : Mat 1 ℂ → (Fin (1 * 3) → ℝ) × Mat 1 ℂ) : System 1 1 where
  cv := ions.cv
  fcw := fun _ k l => if k = l then ![c, 4, 9] k else 0
  cells := fun _ => ⟨0, 0, 0⟩
  scOs := [⟨0, 0, 0⟩]
  img := fun _ _ _ => [0]
  mass := fun _ => 1
  asr := none
  eigh := eigh

variable {c : ℝ} {eigh : Mat 1 ℂ → (Fin (1 * 3) → ℝ) × Mat 1 ℂ}

theorem D_eq (q : V3 ℝ) (k l : Fin (1 * 3)) :
    (crystal c eigh).D q k l = if k = l then ((![c, 4, 9] k : ℝ) : ℂ) else 0 := by
  simp only [System.D, crystal, dynMat, Ex.phaseSum_one, cellPhase_eq, Fin.sum_univ_one, expQR_zero, mul_one]
  split_ifs <;> simp

theorem good (erfc : ℝ → ℝ) (he : IsEigh eigh) : (crystal c eigh).Good (dip erfc) where
  volume := volume_ne
  eigh := he
  hermitian := fun q k l => by
    rw [D_eq, D_eq]
    by_cases h : k = l
    · subst h
      simp only [if_true]
      exact (Complex.conj_ofReal _).symm
    · simp [h, Ne.symm h]
  asr := by simp [crystal]
  dip := by
    intro q A hA k l
    simp only [dip, Option.some.injEq] at hA
    rw [← hA]
    exact C50_hermitian erfc ions _ (by simp [ions]) q k l

theorem rint_small {x : ℝ} (h0 : 0 ≤ x) (h1 : x < 1 / 2) : rint x = 0 := by
  have hf : ⌊x⌋ = 0 := Int.floor_eq_zero_iff.2 ⟨h0, by linarith⟩
  unfold rint
  rw [if_pos (by rw [Int.fract, hf]; simpa using h1), hf]

theorem dip_eq (erfc : ℝ → ℝ) {x y : ℝ} (hx : 0 < x) (hy : 0 < y) (hs : 1 / 10 < x + y) (hxy : x + y < 1 / 2)
    (k l : Fin (1 * 3)) :
    dipoleCorrection erfc ions (upperLambda ions 1) ⟨x, y, 0⟩ k l
      = if k = 0 ∧ l = 0 then ((corr erfc (upperLambda ions 1) ⟨x, y, 0⟩ : ℝ) : ℂ) else 0 := by
  have hr : rem (⟨x, y, 0⟩ : V3 ℝ) = ⟨x, y, 0⟩ := by
    simp [rem, rint_small hx.le (by linarith), rint_small hy.le (by linarith), rint_small (le_refl 0) (by norm_num)]
  have hg : isGamma (⟨x, y, 0⟩ : V3 ℝ) = false := by
    unfold isGamma
    rw [hr]
    simp only [sumAbs, abs_of_pos hx, abs_of_pos hy, abs_zero, add_zero, decide_eq_false_iff_not, not_lt]
    norm_num at hs ⊢
    linarith
  have hk : ∀ k : Fin (1 * 3), k.divNat = (0 : Fin 1) := fun k => Subsingleton.elim _ _
  unfold dipoleCorrection
  rw [hr, hk k, hk l]
  have hm : ∀ k : Fin (1 * 3), k.modNat = (0 : Fin 3) ↔ k = 0 := by decide
  by_cases h : k = 0 ∧ l = 0
  · rw [if_pos h, (hm k).2 h.1, (hm l).2 h.2, ← corrAt_re erfc _ _ hg]
    have := corrAt_hermitian erfc ions (upperLambda ions 1) (by simp [ions]) ⟨x, y, 0⟩ 0 0 0 0
    exact (Complex.conj_eq_iff_re.1 this.symm).symm
  · rw [if_neg h]
    exact corrAt_other _ _ _ _ _ (by rwa [hm, hm])

theorem M_eq (erfc : ℝ → ℝ) {x y : ℝ} (hx : 0 < x) (hy : 0 < y) (hs : 1 / 10 < x + y) (hxy : x + y < 1 / 2) :
    (crystal c eigh).M (dip erfc) ⟨x, y, 0⟩ = fun k l =>
      if k = l then ((![c + corr erfc (upperLambda ions 1) ⟨x, y, 0⟩, 4, 9] k : ℝ) : ℂ) else 0 := by
  funext k l
  unfold System.M
  rw [weighted_eq, D_eq]
  simp only [crystal, Ex.massWeighting_one, orZero, dip, dip_eq erfc hx hy hs hxy]
  by_cases hkl : k = l
  · subst hkl
    fin_cases k <;> simp
  · have : ¬ (k = 0 ∧ l = 0) := fun h => hkl (h.1.trans h.2.symm)
    simp [hkl, this]

/-- The eigenvalues of a diagonal matrix. -/
theorem evals (he : IsEigh eigh) {d : Fin (1 * 3) → ℝ} (hd : Monotone d) :
    (eigh fun k l => if k = l then ((d k : ℝ) : ℂ) else 0).1 = d := by
  obtain ⟨b, hb, -⟩ := diag_of_eigh he (A := fun k l => if k = l then ((d k : ℝ) : ℂ) else 0) (fun k l => by
    by_cases h : k = l
    · subst h
      simp only [if_true]
      exact (Complex.conj_ofReal _).symm
    · simp [h, Ne.symm h])
  have hc : Eigen.Diag (toOp fun k l : Fin (1 * 3) => if k = l then ((d k : ℝ) : ℂ) else 0) d
      (EuclideanSpace.basisFun (Fin (1 * 3)) ℂ) := by
    refine ⟨hd, fun i => ?_⟩
    ext k
    simp only [EuclideanSpace.basisFun_apply, EuclideanSpace.single]
    rw [toOp_apply]
    by_cases hik : k = i
    · subst hik; simp
    · simp [hik]
  funext s
  have := hb.weyl_abs hc s
  rw [sub_self, norm_zero, abs_nonpos_iff, sub_eq_zero] at this
  exact this

theorem freq_eq (erfc : ℝ → ℝ) (he : IsEigh eigh) {x y : ℝ} (hx : 0 < x) (hy : 0 < y) (hs : 1 / 10 < x + y)
    (hxy : x + y < 1 / 2) (hc : c + corr erfc (upperLambda ions 1) ⟨x, y, 0⟩ ≤ 4) (s : Fin (1 * 3)) :
    (crystal c eigh).freq (dip erfc) ⟨x, y, 0⟩ s
      = freqOf (![c + corr erfc (upperLambda ions 1) ⟨x, y, 0⟩, 4, 9] s) := by
  unfold System.freq
  rw [M_eq erfc hx hy hs hxy]
  rw [show (crystal c eigh).eigh = eigh from rfl, evals he]
  intro i j hij
  fin_cases i <;> fin_cases j <;> first | (simp at hij; done) | (simp; try linarith)

/-- The reported gradients are zero: the force constants couple no cells. -/
theorem grad_zero (erfc : ℝ → ℝ) (q : V3 ℝ) (s : Fin (1 * 3)) (d : Fin 3) :
    (crystal c eigh).grad (dip erfc) q s d = 0 := by
  have h : ∀ k l, dynGrad (crystal c eigh).cv (crystal c eigh).fcw (crystal c eigh).cells (crystal c eigh).scOs
      (crystal c eigh).img q d k l = 0 := by
    intro k l
    have h0 : comp (⟨0, 0, 0⟩ : V3 ℝ) d = 0 := by fin_cases d <;> rfl
    have h1 : add (scOriginCart ions.cv [⟨0, 0, 0⟩] 0) (toCart ions.cv (castV ℝ ⟨0, 0, 0⟩)) = ⟨0, 0, 0⟩ := by
      simp [scOriginCart, add, toCart, castV]
    simp only [dynGrad, crystal, List.map_cons, List.map_nil, h1, h0]
    simp
  unfold System.grad modeGradients
  simp [h]

theorem along_eq {q u : V3 ℝ} {p : ℝ → V3 ℝ} (hp : Along ions.cv q u p) (t : ℝ) : p t = add q (smul t u) := by
  have h := hp t
  rw [show reciprocalCell (2 * Real.pi) ions.cv = recip ions from rfl, toCart_recip, toCart_recip] at h
  exact h

end Polar

open Euphonic.Lattice Euphonic.DynMat Euphonic.Dipole in
/-- **C126, violated for polar materials.** A crystal with one charged atom, treated with the dipole correction exactly as
Euphonic computes it (for any function `erfc`): at some q-point the lowest frequency is 1, no other mode has it, its
reported gradient is zero in all directions, but it has a derivative that is not zero. -/
theorem C126_dipole_wrong (erfc : ℝ → ℝ) : ∃ (S : System 1 1) (o : Ions 1) (q u : V3 ℝ), S.cv = o.cv ∧
    let dip := fun q => some (dipoleCorrection erfc o (upperLambda o 1) q)
    S.Good dip ∧ S.freq dip q 0 = 1 ∧ (∀ j, j ≠ 0 → S.freq dip q j ≠ S.freq dip q 0) ∧
    (∀ d, S.grad dip q 0 d = 0) ∧
    ∃ v, v ≠ 0 ∧ ∀ p, Along S.cv q u p → HasDerivAt (fun t => S.freq dip (p t) 0) v 0 := by
  obtain ⟨e, he⟩ := exists_isEigh (1 * 3)
  obtain ⟨r, τ, d, h1, h2, h3, h4, h5, h6⟩ := Polar.exists_deriv erfc Polar.lam_pos
  set f := fun t => Polar.corr erfc (upperLambda Polar.ions 1) ⟨r - t, t, 0⟩ with hf
  have hq : ∀ s, (Polar.crystal (1 - f τ) e).freq (Polar.dip erfc) ⟨r - τ, τ, 0⟩ s = freqOf (![1, 4, 9] s) := by
    intro s
    have hone : (1 - f τ) + f τ = 1 := by ring
    have := Polar.freq_eq (c := 1 - f τ) erfc he (x := r - τ) (y := τ) (by linarith) h3 (by linarith) (by linarith)
      (by rw [show Polar.corr erfc (upperLambda Polar.ions 1) ⟨r - τ, τ, 0⟩ = f τ from rfl, hone]; norm_num) s
    rw [this, show Polar.corr erfc (upperLambda Polar.ions 1) ⟨r - τ, τ, 0⟩ = f τ from rfl, hone]
  refine ⟨Polar.crystal (1 - f τ) e, Polar.ions, ⟨r - τ, τ, 0⟩, ⟨-1, 1, 0⟩, rfl, Polar.good erfc he, ?_, ?_,
    fun d => Polar.grad_zero erfc _ 0 d, d / 2, by simpa using h5, fun p hp => ?_⟩
  · exact (hq 0).trans (by norm_num [freqOf])
  · intro j hj heq
    have := ((hq j).symm.trans (heq.trans (hq 0)))
    have := freqOf_injective this
    fin_cases j
    · exact hj rfl
    · norm_num at this
    · norm_num at this
  · have hpt : ∀ t, p t = ⟨r - (τ + t), τ + t, 0⟩ := by
      intro t
      rw [Polar.along_eq hp t]
      simp only [Images.add, smul, V3.mk.injEq]
      refine ⟨by ring, by ring, by ring⟩
    have hg : HasDerivAt (fun t => (1 - f τ) + f (τ + t)) d 0 := by
      have hc := HasDerivAt.comp_const_add (f := f) (f' := d) τ 0 (by rw [add_zero]; exact h6)
      exact (hc.const_add (1 - f τ))
    have hg1 : (1 - f τ) + f (τ + 0) = 1 := by simp
    have hfr := freqOf_deriv_pos hg (by rw [hg1]; exact one_pos)
    have hlt : ∀ᶠ t in nhds (0 : ℝ), (1 - f τ) + f (τ + t) < 4 :=
      hg.continuousAt.eventually_lt_const (by dsimp only; rw [hg1]; norm_num)
    refine (hfr.congr_of_eventuallyEq ?_).congr_deriv ?_
    · filter_upwards [hlt, Ioo_mem_nhds (show -τ < 0 by linarith) (show 0 < r - τ by linarith)] with t ht ht'
      rw [hpt]
      exact (Polar.freq_eq (c := 1 - f τ) erfc he (x := r - (τ + t)) (y := τ + t) (by linarith [ht'.2])
        (by linarith [ht'.1]) (by linarith) (by linarith) ht.le 0)
    · rw [hg1]; norm_num [freqOf]

end Euphonic.Gradient
