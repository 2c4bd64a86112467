import Verif.Props.DescribeEwald
import Verif.Props.Loto
import Verif.Props.Driver
import Mathlib.Topology.Algebra.Monoid

/-!
# C159: the splitting at gamma points is the limit of the long-range correction

At a gamma point the long-range correction leaves out the reciprocal vector zero, and `interpolate` adds a term that depends on the
direction of approach.  The corrections at q-points near the gamma point tend to the sum of both, and so do the frequencies.  As
q-points closer to the gamma point than 1e-15 are taken for it, the limit is that of the formula used at all other q-points.
-/

set_option autoImplicit false
set_option linter.unusedSectionVars false

namespace Euphonic.Dipole

open Euphonic.Lattice Euphonic.Supercell Euphonic.Phases Euphonic.Images Euphonic.DynMat Euphonic.Describe
open Filter Topology

variable {n N : Nat}

/-! ## Specification -/

/-- The interaction of the sublattices of two atoms as it is summed at q-points that are not gamma points. -/
noncomputable def away (erfc : ℝ → ℝ) (o : Ions n) (lam : ℝ) (q : V3 ℝ) (i j : Fin n) (a b : Fin 3) : ℂ :=
  (((⟨0, 0, 0⟩ : V3 ℤ) :: gvecs o lam).map (recipAt o lam q i j a b)).sum - ((cells erfc o lam).map (realAt erfc o lam q i j a b)).sum

/-- The correction with these. -/
noncomputable def awayCorrection (erfc : ℝ → ℝ) (o : Ions n) (lam : ℝ) (q : V3 ℝ) : Mat n ℂ :=
  fun k l => corrBy o (away erfc o lam) q k.divNat l.divNat k.modNat l.modNat

/-! ## What the code calculates -/

theorem recipAt_origin (o : Ions n) (lam : ℝ) (i j : Fin n) (a b : Fin 3) : recipAt o lam ⟨0, 0, 0⟩ i j a b ⟨0, 0, 0⟩ = 0 := by
  have h : toCart (recip o) (add (castV ℝ ⟨0, 0, 0⟩) ⟨0, 0, 0⟩) = ⟨0, 0, 0⟩ := by simp [toCart, add, castV]
  have h0 : ∀ a, comp (⟨0, 0, 0⟩ : V3 ℝ) a = 0 := by
    intro a
    fin_cases a <;> rfl
  rw [Describe.recipAt_eq, h]
  unfold kTerm
  simp [h0]

theorem terms_away (erfc : ℝ → ℝ) (o : Ions n) (lam : ℝ) {q : V3 ℝ} (hq : isGamma q = false ∨ q = ⟨0, 0, 0⟩) (i j : Fin n)
    (a b : Fin 3) : recipTerm o lam q i j a b - realTerm erfc o lam q i j a b = away erfc o lam q i j a b := by
  have h1 : recipTerm o lam q i j a b = ((usedG o lam q).map (recipAt o lam q i j a b)).sum := by
    unfold recipTerm recipAt usedG
    rw [List.sum_map_mul_left]
  have h2 : realTerm erfc o lam q i j a b = ((cells erfc o lam).map (realAt erfc o lam q i j a b)).sum := by
    unfold realTerm realAt
    rw [List.sum_map_mul_left]
  rw [h1, h2]
  unfold away usedG
  rcases hq with hq | rfl
  · rw [hq]
    rfl
  · split
    · rw [List.map_cons, List.sum_cons, recipAt_origin, zero_add]
    · rfl

theorem isGamma_rem (q : V3 ℝ) : isGamma (rem q) = isGamma q := by
  unfold isGamma
  rw [Driver.rem_rem]

/-- **C159.** At every q-point that is not taken for a gamma point the code uses this formula. -/
theorem C159_away (erfc : ℝ → ℝ) (o : Ions n) (lam : ℝ) {q : V3 ℝ} (hq : isGamma q = false) :
    dipoleCorrection erfc o lam q = awayCorrection erfc o lam (rem q) := by
  funext k l
  unfold dipoleCorrection awayCorrection
  rw [corrAt_eq]
  unfold corrBy
  simp only [terms_away erfc o lam (Or.inl ((isGamma_rem q).trans hq)), terms_away erfc o lam (Or.inr rfl)]

/-- **C159.** And at exact gamma points. -/
theorem C159_gamma (erfc : ℝ → ℝ) (o : Ions n) (lam : ℝ) (K : V3 ℤ) :
    dipoleCorrection erfc o lam (castV ℝ K) = awayCorrection erfc o lam ⟨0, 0, 0⟩ := by
  have h : rem (castV ℝ K) = ⟨0, 0, 0⟩ := by simp [rem, castV, rint_intCast]
  funext k l
  unfold dipoleCorrection awayCorrection
  rw [corrAt_eq, h]
  unfold corrBy
  simp only [terms_away erfc o lam (Or.inr rfl)]

/-! ## The limit -/

theorem comp_line (o : Ions n) (G : V3 ℤ) (u : V3 ℝ) (t : ℝ) (a : Fin 3) :
    comp (toCart (recip o) (add (castV ℝ G) (smul t u))) a = comp (toCart (recip o) (castV ℝ G)) a + t * comp (toCart (recip o) u) a := by
  fin_cases a <;> simp [comp, toCart, add, smul] <;> ring

theorem epsForm_eq (o : Ions n) (v : V3 ℝ) : ∑ a, ∑ b, comp v a * comp v b * o.diel a b = epsForm o (comp v) := by
  unfold epsForm
  exact Finset.sum_congr rfl fun a _ => Finset.sum_congr rfl fun b _ => by ring

theorem toCart_ne {o : Ions n} (hv : cellVolume o.cv ≠ 0) {u : V3 ℝ} (hu : u ≠ ⟨0, 0, 0⟩) : toCart (recip o) u ≠ ⟨0, 0, 0⟩ := by
  intro h
  apply hu
  have key : ∀ R, dot u R = 0 := by
    intro R
    have h1 := Gradient.dot_recip o.cv hv u R
    have h2 : toCart (reciprocalCell (2 * Real.pi) o.cv) u = ⟨0, 0, 0⟩ := h
    rw [h2] at h1
    have h3 : dot (⟨0, 0, 0⟩ : V3 ℝ) (toCart o.cv R) = 0 := by simp [dot]
    rw [h3] at h1
    have := Real.pi_pos
    have h4 : 2 * Real.pi ≠ 0 := by positivity
    exact (mul_eq_zero.1 h1.symm).resolve_left h4
  refine V3.ext' ?_ ?_ ?_
  · simpa [dot] using key ⟨1, 0, 0⟩
  · simpa [dot] using key ⟨0, 1, 0⟩
  · simpa [dot] using key ⟨0, 0, 1⟩

theorem continuous_phase (o : Ions n) (G : V3 ℤ) (u : V3 ℝ) (i j : Fin n) : Continuous fun t : ℝ =>
    Complex.exp (2 * Complex.I * Real.pi * (dot (add (castV ℝ G) (smul t u)) (sub (o.r i) (o.r j)) : ℝ)) := by
  have : Continuous fun t : ℝ => dot (add (castV ℝ G) (smul t u)) (sub (o.r i) (o.r j)) := by
    simp only [dot, add, smul]
    fun_prop
  fun_prop

theorem tendsto_recipAt {o : Ions n} (hv : cellVolume o.cv ≠ 0) (hp : PosDef o) {lam : ℝ} (hl : lam ≠ 0) (u : V3 ℝ) (i j : Fin n)
    (a b : Fin 3) {G : V3 ℤ} (hG : G ≠ ⟨0, 0, 0⟩) :
    Tendsto (fun t => recipAt o lam (smul t u) i j a b G) (𝓝 0) (𝓝 (recipAt o lam ⟨0, 0, 0⟩ i j a b G)) := by
  have h0 : smul 0 u = ⟨0, 0, 0⟩ := by simp [smul]
  have hG' : castV ℝ G ≠ ⟨0, 0, 0⟩ := by
    intro h
    apply hG
    simp only [castV, V3.mk.injEq, Int.cast_eq_zero] at h
    exact V3.ext' h.1 h.2.1 h.2.2
  have hk : ContinuousAt (fun t => kTerm o lam (toCart (recip o) (add (castV ℝ G) (smul t u))) a b) 0 := by
    unfold kTerm
    simp only [comp_line]
    have hc : Continuous fun t : ℝ => (∑ a, ∑ b, (comp (toCart (recip o) (castV ℝ G)) a + t * comp (toCart (recip o) u) a) *
        (comp (toCart (recip o) (castV ℝ G)) b + t * comp (toCart (recip o) u) b) * o.diel a b) / (4 * lam ^ 2) := by fun_prop
    refine ContinuousAt.mul (by fun_prop) (ContinuousAt.div (by fun_prop) hc.continuousAt ?_)
    have := hp _ (toCart_ne hv hG')
    simp only [zero_mul, add_zero]
    positivity
  have h1 : ContinuousAt (fun t => recipAt o lam (smul t u) i j a b G) 0 := by
    simp only [Describe.recipAt_eq]
    refine ContinuousAt.mul ((continuous_const.mul (continuous_phase o G u i j)).continuousAt) ?_
    exact Complex.continuous_ofReal.continuousAt.comp hk
  have h2 := h1.tendsto
  rwa [h0] at h2

theorem tendsto_origin {o : Ions n} (hv : cellVolume o.cv ≠ 0) (hp : PosDef o) {lam : ℝ} (hl : lam ≠ 0) {u : V3 ℝ}
    (hu : u ≠ ⟨0, 0, 0⟩) (i j : Fin n) (a b : Fin 3) :
    Tendsto (fun t => recipAt o lam (smul t u) i j a b ⟨0, 0, 0⟩) (𝓝[≠] 0)
      (𝓝 ((4 * Real.pi / volume o * (cartDir o u a * cartDir o u b / epsForm o (cartDir o u)) : ℝ) : ℂ)) := by
  have he : 0 < epsForm o (cartDir o u) := by
    have := hp _ (toCart_ne hv hu)
    rwa [epsForm_eq] at this
  have hz : ∀ a, comp (toCart (recip o) (castV ℝ ⟨0, 0, 0⟩)) a = 0 := by
    intro a
    fin_cases a <;> simp [comp, toCart, castV]
  have hk : ∀ t : ℝ, t ≠ 0 → kTerm o lam (toCart (recip o) (add (castV ℝ ⟨0, 0, 0⟩) (smul t u))) a b =
      4 * lam ^ 2 * (cartDir o u a * cartDir o u b / epsForm o (cartDir o u)) *
        Real.exp (-(t ^ 2 * epsForm o (cartDir o u) / (4 * lam ^ 2))) := by
    intro t ht
    unfold kTerm
    simp only [comp_line, hz, zero_add]
    have e : ∑ a, ∑ b, t * comp (toCart (recip o) u) a * (t * comp (toCart (recip o) u) b) * o.diel a b =
        t ^ 2 * epsForm o (cartDir o u) := by
      rw [cartDir, ← epsForm_eq, Finset.mul_sum]
      refine Finset.sum_congr rfl fun a _ => ?_
      rw [Finset.mul_sum]
      exact Finset.sum_congr rfl fun b _ => by ring
    rw [e]
    change t * cartDir o u a * (t * cartDir o u b) * _ = _
    generalize Real.exp _ = x
    field_simp
  have hlim : Tendsto (fun t : ℝ => ((recipFactor o lam * (4 * lam ^ 2 * (cartDir o u a * cartDir o u b / epsForm o (cartDir o u)) *
      Real.exp (-(t ^ 2 * epsForm o (cartDir o u) / (4 * lam ^ 2)))) : ℝ) : ℂ) *
      Complex.exp (2 * Complex.I * Real.pi * (dot (add (castV ℝ ⟨0, 0, 0⟩) (smul t u)) (sub (o.r i) (o.r j)) : ℝ))) (𝓝 0)
      (𝓝 ((4 * Real.pi / volume o * (cartDir o u a * cartDir o u b / epsForm o (cartDir o u)) : ℝ) : ℂ)) := by
    have hc : Continuous fun t : ℝ => ((recipFactor o lam * (4 * lam ^ 2 * (cartDir o u a * cartDir o u b / epsForm o (cartDir o u)) *
      Real.exp (-(t ^ 2 * epsForm o (cartDir o u) / (4 * lam ^ 2)))) : ℝ) : ℂ) *
      Complex.exp (2 * Complex.I * Real.pi * (dot (add (castV ℝ ⟨0, 0, 0⟩) (smul t u)) (sub (o.r i) (o.r j)) : ℝ)) :=
      (by fun_prop : Continuous fun t : ℝ => ((recipFactor o lam * (4 * lam ^ 2 * (cartDir o u a * cartDir o u b /
        epsForm o (cartDir o u)) * Real.exp (-(t ^ 2 * epsForm o (cartDir o u) / (4 * lam ^ 2)))) : ℝ) : ℂ)).mul
        (continuous_phase o ⟨0, 0, 0⟩ u i j)
    have h := hc.tendsto 0
    have e1 : dot (add (castV ℝ ⟨0, 0, 0⟩) (smul 0 u)) (sub (o.r i) (o.r j)) = 0 := by simp [dot, add, castV, smul]
    have e2 : recipFactor o lam * (4 * lam ^ 2 * (cartDir o u a * cartDir o u b / epsForm o (cartDir o u)) *
        Real.exp (-((0 : ℝ) ^ 2 * epsForm o (cartDir o u) / (4 * lam ^ 2)))) =
        4 * Real.pi / volume o * (cartDir o u a * cartDir o u b / epsForm o (cartDir o u)) := by
      unfold recipFactor
      have : volume o ≠ 0 := hv
      simp only [ne_eq, OfNat.ofNat_ne_zero, not_false_eq_true, zero_pow, zero_mul, zero_div, neg_zero, Real.exp_zero, mul_one]
      field_simp
    rw [e1, e2] at h
    simpa using h
  refine (hlim.mono_left nhdsWithin_le_nhds).congr' ?_
  filter_upwards [self_mem_nhdsWithin] with t ht
  rw [Describe.recipAt_eq, hk t ht]
  push_cast
  ring

theorem tendsto_realAt (erfc : ℝ → ℝ) (o : Ions n) (lam : ℝ) (u : V3 ℝ) (i j : Fin n) (a b : Fin 3) (R : V3 ℤ) :
    Tendsto (fun t => realAt erfc o lam (smul t u) i j a b R) (𝓝 0) (𝓝 (realAt erfc o lam ⟨0, 0, 0⟩ i j a b R)) := by
  have h0 : smul 0 u = ⟨0, 0, 0⟩ := by simp [smul]
  have hc : Continuous fun t => realAt erfc o lam (smul t u) i j a b R := by
    unfold realAt
    simp only [smul]
    fun_prop
  have := hc.tendsto 0
  rwa [h0] at this

theorem tendsto_away (erfc : ℝ → ℝ) {o : Ions n} (hv : cellVolume o.cv ≠ 0) (hp : PosDef o) {lam : ℝ} (hl : lam ≠ 0) {u : V3 ℝ}
    (hu : u ≠ ⟨0, 0, 0⟩) (i j : Fin n) (a b : Fin 3) :
    Tendsto (fun t => away erfc o lam (smul t u) i j a b) (𝓝[≠] 0) (𝓝 (away erfc o lam ⟨0, 0, 0⟩ i j a b +
      ((4 * Real.pi / volume o * (cartDir o u a * cartDir o u b / epsForm o (cartDir o u)) : ℝ) : ℂ))) := by
  unfold away
  simp only [List.map_cons, List.sum_cons, recipAt_origin, zero_add]
  have h1 := tendsto_list_sum (x := 𝓝[≠] (0 : ℝ)) (f := fun G t => recipAt o lam (smul t u) i j a b G)
    (a := recipAt o lam ⟨0, 0, 0⟩ i j a b) (gvecs o lam) fun G hG =>
      (tendsto_recipAt hv hp hl u i j a b fun e => zero_notMem_gvecs o lam (e ▸ hG)).mono_left nhdsWithin_le_nhds
  have h2 := tendsto_list_sum (x := 𝓝[≠] (0 : ℝ)) (f := fun R t => realAt erfc o lam (smul t u) i j a b R)
    (a := realAt erfc o lam ⟨0, 0, 0⟩ i j a b) (cells erfc o lam) fun R _ =>
      (tendsto_realAt erfc o lam u i j a b R).mono_left nhdsWithin_le_nhds
  have h3 := ((tendsto_origin hv hp hl hu i j a b).add h1).sub h2
  have e : ∀ x y z : ℂ, x + y - z = y - z + x := fun x y z => by ring
  rwa [e _ (List.sum _) (List.sum _)] at h3

theorem kronecker_sum (o : Ions n) (u : V3 ℝ) (k l : Fin (n * 3)) :
    (∑ c, ∑ d, (o.born k.divNat k.modNat c * o.born l.divNat l.modNat d : ℝ) *
      ((4 * Real.pi / volume o * (cartDir o u c * cartDir o u d / epsForm o (cartDir o u)) : ℝ) : ℂ)) =
      (loto o (cartDir o u) k l : ℂ) := by
  norm_cast
  unfold loto bornDot
  rw [Finset.sum_mul_sum, Finset.sum_div, Finset.mul_sum]
  refine Finset.sum_congr rfl fun c _ => ?_
  rw [Finset.sum_div, Finset.mul_sum]
  exact Finset.sum_congr rfl fun d _ => by ring

/-- **C159.** Along every direction the correction tends to the one at the gamma point, which leaves out the reciprocal vector zero,
and the splitting of that direction. -/
theorem C159_correction (erfc : ℝ → ℝ) {o : Ions n} (hv : cellVolume o.cv ≠ 0) (hp : PosDef o) {lam : ℝ} (hl : lam ≠ 0) {u : V3 ℝ}
    (hu : isGamma u = false) (k l : Fin (n * 3)) :
    Tendsto (fun t => awayCorrection erfc o lam (smul t u) k l) (𝓝[≠] 0)
      (𝓝 (dipoleCorrection erfc o lam ⟨0, 0, 0⟩ k l + gammaCorrection o u k l)) := by
  have hu0 : u ≠ ⟨0, 0, 0⟩ := by
    rintro rfl
    have h := rint_intCast (K := ℝ) 0
    rw [Int.cast_zero] at h
    simp [isGamma, sumAbs, rem, h] at hu
  have h0 := C159_gamma erfc o lam ⟨0, 0, 0⟩
  have e0 : castV ℝ ⟨0, 0, 0⟩ = ⟨0, 0, 0⟩ := by simp [castV]
  rw [e0] at h0
  rw [h0, gammaCorrection_eq o u hu, ← kronecker_sum]
  unfold awayCorrection corrBy
  rw [sub_add_eq_add_sub]
  refine Filter.Tendsto.sub_const (G := ℂ) ?_ _
  rw [← Finset.sum_add_distrib]
  refine tendsto_finsetSum (M := ℂ) _ fun c _ => ?_
  rw [← Finset.sum_add_distrib]
  refine tendsto_finsetSum (M := ℂ) _ fun d _ => ?_
  rw [← mul_add]
  exact (tendsto_away erfc hv hp hl hu0 _ _ c d).const_mul _

/-- **C159.** Without the splitting the correction jumps wherever the ions of a row feel the field along the direction. -/
theorem C159_gap (erfc : ℝ → ℝ) {o : Ions n} (hv : cellVolume o.cv ≠ 0) (hp : PosDef o) {lam : ℝ} (hl : lam ≠ 0) {u : V3 ℝ}
    (hu : isGamma u = false) {k : Fin (n * 3)} (hk : bornDot o (cartDir o u) k ≠ 0) :
    ¬ Tendsto (fun t => awayCorrection erfc o lam (smul t u) k k) (𝓝[≠] 0) (𝓝 (dipoleCorrection erfc o lam ⟨0, 0, 0⟩ k k)) := by
  intro h
  have h1 := tendsto_nhds_unique h (C159_correction erfc hv hp hl hu k k)
  rw [left_eq_add, gammaCorrection_eq o u hu, Complex.ofReal_eq_zero] at h1
  have he : epsForm o (cartDir o u) ≠ 0 := by
    intro he
    unfold loto at h1
    have hu0 : u ≠ ⟨0, 0, 0⟩ := by
      rintro rfl
      have h := rint_intCast (K := ℝ) 0
      rw [Int.cast_zero] at h
      simp [isGamma, sumAbs, rem, h] at hu
    have := hp _ (toCart_ne hv hu0)
    rw [epsForm_eq] at this
    exact absurd he (ne_of_gt this)
  have hpi := Real.pi_ne_zero
  have hv' : volume o ≠ 0 := hv
  unfold loto at h1
  have : 4 * Real.pi / volume o * (bornDot o (cartDir o u) k * bornDot o (cartDir o u) k / epsForm o (cartDir o u)) ≠ 0 := by
    positivity
  exact this h1

/-! ## Frequencies -/

theorem away_swap (erfc : ℝ → ℝ) (o : Ions n) (lam : ℝ) (q : V3 ℝ) (i j : Fin n) (a b : Fin 3) :
    away erfc o lam q j i a b = star (away erfc o lam q i j a b) := by
  unfold away
  rw [star_sub]
  congr 1
  · have h : ∀ G, recipAt o lam q j i a b G = star (recipAt o lam q i j a b G) := by
      intro G
      rw [Describe.recipAt_eq, Describe.recipAt_eq]
      simp only [star_mul', star_real]
      congr 2
      rw [Complex.star_def, ← Complex.exp_conj]
      congr 1
      simp only [map_mul, Complex.conj_I, Complex.conj_ofReal, map_ofNat, dot, add, sub, castV]
      push_cast
      ring
    generalize (⟨0, 0, 0⟩ : V3 ℤ) :: gvecs o lam = L
    induction L with
    | nil => simp
    | cons G L ih => rw [List.map_cons, List.sum_cons, List.map_cons, List.sum_cons, star_add, ih, h]
  · have h2 : ∀ i j, realTerm erfc o lam q i j a b = ((cells erfc o lam).map (realAt erfc o lam q i j a b)).sum := by
      intro i j
      unfold realTerm realAt
      rw [List.sum_map_mul_left]
    rw [← h2, ← h2, realTerm_swap]

theorem away_symm (erfc : ℝ → ℝ) (o : Ions n) (lam : ℝ) (hd : o.diel.transpose = o.diel) (q : V3 ℝ) (i j : Fin n) (a b : Fin 3) :
    away erfc o lam q i j a b = away erfc o lam q i j b a := by
  unfold away
  have h1 : recipAt o lam q i j a b = recipAt o lam q i j b a := by
    funext G
    unfold recipAt
    rw [kTerm_symm o lam _ a b]
  have h2 : realAt erfc o lam q i j a b = realAt erfc o lam q i j b a := by
    funext R
    unfold realAt
    rw [hab_symm erfc o lam hd _ i j a b]
  rw [h1, h2]

theorem away_herm (erfc : ℝ → ℝ) (o : Ions n) (lam : ℝ) (hd : o.diel.transpose = o.diel) (q : V3 ℝ) (k l : Fin (n * 3)) :
    awayCorrection erfc o lam q l k = star (awayCorrection erfc o lam q k l) := by
  have hP : ∀ q, (∑ c, ∑ e, (o.born l.divNat l.modNat c * o.born k.divNat k.modNat e : ℝ) * away erfc o lam q l.divNat k.divNat c e) =
      star (∑ c, ∑ e, ((o.born k.divNat k.modNat c * o.born l.divNat l.modNat e : ℝ) : ℂ) * away erfc o lam q k.divNat l.divNat c e) := by
    intro q
    simp only [star_sum, star_mul', star_real]
    rw [Finset.sum_comm]
    refine Finset.sum_congr rfl fun c _ => Finset.sum_congr rfl fun e _ => ?_
    rw [away_swap, away_symm erfc o lam hd _ _ _ e c, mul_comm (o.born l.divNat _ _)]
  have h0 := C50_hermitian erfc o lam hd (castV ℝ ⟨0, 0, 0⟩) k l
  rw [C159_gamma] at h0
  unfold awayCorrection corrBy at h0 ⊢
  rw [star_sub, hP] at h0 ⊢
  rw [sub_right_inj] at h0 ⊢
  exact h0

/-- Eigenvalues follow the elements of Hermitian matrices. -/
theorem tendsto_eigenvalues {eigh : Mat n ℂ → (Fin (n * 3) → ℝ) × Mat n ℂ} (hE : IsEigh eigh) {T : Type} {F : Filter T} {A : T → Mat n ℂ}
    {B : Mat n ℂ} (hA : ∀ t k l, A t l k = star (A t k l)) (hB : ∀ k l, B l k = star (B k l))
    (h : ∀ k l, Tendsto (fun t => A t k l) F (𝓝 (B k l))) (s : Fin (n * 3)) :
    Tendsto (fun t => (eigh (A t)).1 s) F (𝓝 ((eigh B).1 s)) := by
  rw [tendsto_iff_dist_tendsto_zero]
  have hlim : Tendsto (fun t => ∑ k, ∑ l, ‖A t k l - B k l‖) F (𝓝 0) := by
    have h1 : Tendsto (fun t => ∑ k, ∑ l, ‖A t k l - B k l‖) F (𝓝 (∑ k, ∑ l, ‖B k l - B k l‖)) :=
      tendsto_finsetSum _ fun k _ => tendsto_finsetSum _ fun l _ => ((h k l).sub_const _).norm
    simpa using h1
  refine squeeze_zero (fun t => dist_nonneg) (fun t => ?_) hlim
  rw [Real.dist_eq]
  refine Stability.weyl hE (hA t) hB _ (fun k => ?_) s
  exact Finset.single_le_sum (f := fun k => ∑ l, ‖A t k l - B k l‖) (fun k _ => Finset.sum_nonneg fun l _ => norm_nonneg _)
    (Finset.mem_univ k)

theorem tendsto_dynMat {d : Description n N} {images : List (V3 ℤ)} (hok : d.Ok images) (junk : Fin N → Mat n ℝ) (K u : V3 ℝ)
    (k l : Fin (n * 3)) : Tendsto (fun t => d.dynMat images junk (add K (smul t u)) k l) (𝓝 0) (𝓝 (d.dynMat images junk K k l)) := by
  have hnd := (Reduced.mem_shells hok.reduced.shells).1
  have hc : Continuous fun t => d.dynMat images junk (add K (smul t u)) k l := by
    unfold Description.dynMat
    simp only [C43_textbook d.cv d.r d.cells d.c0 d.S images hnd hok.reduced.volume]
    unfold latticeSum expQR
    simp only [add, smul]
    fun_prop
  have h := hc.tendsto 0
  have e : add K (smul 0 u) = K := by simp [add, smul]
  rwa [e] at h

theorem rem_near (K : V3 ℤ) (u : V3 ℝ) : ∀ᶠ t in 𝓝 (0 : ℝ), rem (add (castV ℝ K) (smul t u)) = smul t u := by
  have h : ∀ x : ℝ, ∀ᶠ t in 𝓝 (0 : ℝ), |t * x| < 1 / 2 := by
    intro x
    have hc : Continuous fun t : ℝ => |t * x| := by fun_prop
    exact hc.tendsto 0 (Iio_mem_nhds (by norm_num))
  have hr : ∀ (m : ℤ) (x : ℝ), |x| < 1 / 2 → (m : ℝ) + x - rint ((m : ℝ) + x) = x := by
    intro m x hx
    rw [rint_eq_of_abs_lt _ m (by simpa using hx)]
    ring
  filter_upwards [h u.x, h u.y, h u.z] with t h1 h2 h3
  simp only [rem, add, smul, castV, V3.mk.injEq]
  exact ⟨hr _ _ h1, hr _ _ h2, hr _ _ h3⟩

/-- Specification: the matrix that is diagonalised at q-points that are not taken for gamma points, with whatever acoustic sum rule. -/
noncomputable def awayMatrix (erfc : ℝ → ℝ) (d : Description n N) (born : Fin n → Fin 3 → Fin 3 → ℝ) (diel : Matrix (Fin 3) (Fin 3) ℝ)
    (lam : ℝ) (images : List (V3 ℤ)) (junk : Fin N → Mat n ℝ) (asr : Option (Mat n ℂ)) (q : V3 ℝ) : Mat n ℂ :=
  DynMat.weighted (massWeighting d.mass) (d.dynMat images junk q) (some (awayCorrection erfc (d.ions born diel) lam (rem q))) asr none

/-- What the code diagonalises. -/
noncomputable def codeMatrix (erfc : ℝ → ℝ) (d : Description n N) (born : Fin n → Fin 3 → Fin 3 → ℝ) (diel : Matrix (Fin 3) (Fin 3) ℝ)
    (lam : ℝ) (images : List (V3 ℤ)) (junk : Fin N → Mat n ℝ) (asr : Option (Mat n ℂ)) (q : V3 ℝ) (dir : Option (V3 ℝ)) : Mat n ℂ :=
  DynMat.weighted (massWeighting d.mass) (d.dynMat images junk q) (some (dipoleCorrection erfc (d.ions born diel) lam q)) asr
    (dir.map (gammaCorrection (d.ions born diel)))

/-- **C159.** This is what the code diagonalises at every q-point that is not taken for a gamma point. -/
theorem C159_code (erfc : ℝ → ℝ) (d : Description n N) (born : Fin n → Fin 3 → Fin 3 → ℝ) (diel : Matrix (Fin 3) (Fin 3) ℝ)
    (lam : ℝ) (images : List (V3 ℤ)) (junk : Fin N → Mat n ℝ) (asr : Option (Mat n ℂ)) {q : V3 ℝ} (hq : isGamma q = false) :
    codeMatrix erfc d born diel lam images junk asr q none = awayMatrix erfc d born diel lam images junk asr q := by
  unfold codeMatrix awayMatrix
  rw [C159_away erfc _ lam hq]
  rfl

/-- **C159.** Along every line through a gamma point `K` the frequencies tend to those that are calculated at `K` with the splitting
of the direction of the line.  Without the splitting they do not in general (`C159_gap`). -/
theorem C159_frequencies (erfc : ℝ → ℝ) {d : Description n N} {images : List (V3 ℤ)} (hok : d.Ok images) {op : Fin N → Fin N}
    {t : Fin N → V3 ℤ} (hsym : Symmetric d.cells d.S d.fc op t) {born : Fin n → Fin 3 → Fin 3 → ℝ} {diel : Matrix (Fin 3) (Fin 3) ℝ}
    (hv : cellVolume d.cv ≠ 0) (hd : diel.transpose = diel) (hp : PosDef (d.ions born diel)) {lam : ℝ} (hl : lam ≠ 0)
    (junk : Fin N → Mat n ℝ) {asr : Option (Mat n ℂ)} (ha : Stability.HermOpt asr) (K : V3 ℤ) {u : V3 ℝ} (hu : isGamma u = false)
    {eigh : Mat n ℂ → (Fin (n * 3) → ℝ) × Mat n ℂ} (hE : IsEigh eigh) (s : Fin (n * 3)) :
    Tendsto (fun t => freqOf ((eigh (awayMatrix erfc d born diel lam images junk asr (add (castV ℝ K) (smul t u)))).1 s)) (𝓝[≠] 0)
      (𝓝 (freqOf ((eigh (codeMatrix erfc d born diel lam images junk asr (castV ℝ K) (some u))).1 s))) := by
  refine (Stability.continuous_freqOf.tendsto _).comp (tendsto_eigenvalues hE ?_ ?_ ?_ s)
  · intro t
    refine Stability.weighted_herm d.mass ?_ ?_ ha ?_
    · intro k l
      exact Reduced.C123_hermitian_partial d.cv d.r d.cells d.c0 d.S images hok.reduced.shells hok.reduced.volume hok.reduced.reduced
        hok.reduced.within hsym hok.first junk _ k l
    · rintro M ⟨⟩ k l
      exact away_herm erfc _ _ hd _ k l
    · rintro M ⟨⟩
  · refine Stability.weighted_herm d.mass ?_ ?_ ha ?_
    · intro k l
      exact Reduced.C123_hermitian_partial d.cv d.r d.cells d.c0 d.S images hok.reduced.shells hok.reduced.volume hok.reduced.reduced
        hok.reduced.within hsym hok.first junk _ k l
    · rintro M ⟨⟩ k l
      exact C50_hermitian erfc _ _ hd _ k l
    · rintro M ⟨⟩ k l
      exact gamma_herm _ _ k l
  · intro k l
    have h1 := (tendsto_dynMat hok junk (castV ℝ K) u k l).mono_left (nhdsWithin_le_nhds (s := {0}ᶜ))
    have h2 := C159_correction erfc (o := d.ions born diel) hv hp hl hu k l
    have e0 : dipoleCorrection erfc (d.ions born diel) lam ⟨0, 0, 0⟩ = dipoleCorrection erfc (d.ions born diel) lam (castV ℝ K) := by
      rw [C159_gamma, ← C159_gamma erfc _ lam ⟨0, 0, 0⟩]
      simp [castV]
    rw [e0] at h2
    have h3 : Tendsto (fun t => awayCorrection erfc (d.ions born diel) lam (rem (add (castV ℝ K) (smul t u))) k l) (𝓝[≠] 0)
        (𝓝 (dipoleCorrection erfc (d.ions born diel) lam (castV ℝ K) k l + gammaCorrection (d.ions born diel) u k l)) := by
      refine h2.congr' ?_
      filter_upwards [(rem_near K u).filter_mono nhdsWithin_le_nhds] with t ht
      rw [ht]
    cases asr with
    | none =>
      have h4 := (h1.add h3).mul_const ((massWeighting d.mass k l : ℝ) : ℂ)
      rw [← add_assoc] at h4
      exact h4
    | some A =>
      have h4 := ((h1.add h3).add_const (A k l)).mul_const ((massWeighting d.mass k l : ℝ) : ℂ)
      rw [← add_assoc, add_right_comm _ (gammaCorrection _ _ _ _)] at h4
      exact h4

/-! ### A case meeting the hypotheses -/

namespace LimitEx

open Euphonic.Describe.Ex Euphonic.Reduced

theorem dir_ne : isGamma (⟨1 / 2, 1 / 3, 0⟩ : V3 ℝ) = false := by
  have h1 : rint (1 / 3 : ℝ) = 0 := rint_eq_of_abs_lt _ 0 (by norm_num)
  have h2 : (1 : ℝ) / 10 ^ 15 ≤ |1 / 3 - ((rint (1 / 3 : ℝ) : ℤ) : ℝ)| := by
    rw [h1]
    norm_num
  have h3 := abs_nonneg ((1 / 2 : ℝ) - ((rint (1 / 2 : ℝ) : ℤ) : ℝ))
  have h4 := abs_nonneg ((0 : ℝ) - ((rint (0 : ℝ) : ℤ) : ℝ))
  refine decide_eq_false (not_lt.2 ?_)
  simp only [sumAbs, rem]
  linarith

/-- The frequencies of the polar chain near the gamma point `(1, 0, 2)`. -/
example (junk : Fin 2 → Mat 2 ℝ) {eigh : Mat 2 ℂ → (Fin (2 * 3) → ℝ) × Mat 2 ℂ} (hE : IsEigh eigh) (s : Fin (2 * 3)) :
    Tendsto (fun t => freqOf ((eigh (awayMatrix Poisson.erfc0 Describe.Ex.d born diel 1 shells2 junk none
        (add (castV ℝ ⟨1, 0, 2⟩) (smul t ⟨1 / 2, 1 / 3, 0⟩)))).1 s)) (𝓝[≠] 0)
      (𝓝 (freqOf ((eigh (codeMatrix Poisson.erfc0 Describe.Ex.d born diel 1 shells2 junk none (castV ℝ ⟨1, 0, 2⟩)
        (some ⟨1 / 2, 1 / 3, 0⟩))).1 s))) :=
  C159_frequencies Poisson.erfc0 ok symmetric sound.volume_pos.ne' sound.symm sound.posDef one_ne_zero junk (by simp [Stability.HermOpt])
    ⟨1, 0, 2⟩ dir_ne hE s

/-- Its first atom feels the field. -/
example (erfc : ℝ → ℝ) : ¬ Tendsto (fun t => awayCorrection erfc (Describe.Ex.d.ions born diel) 1 (smul t ⟨1 / 2, 1 / 3, 0⟩) 0 0) (𝓝[≠] 0)
    (𝓝 (dipoleCorrection erfc (Describe.Ex.d.ions born diel) 1 ⟨0, 0, 0⟩ 0 0)) := by
  refine C159_gap erfc sound.volume_pos.ne' sound.posDef one_ne_zero dir_ne ?_
  have h1 : (0 : Fin (2 * 3)).divNat = 0 := rfl
  have h2 : (0 : Fin (2 * 3)).modNat = 0 := rfl
  have := Real.pi_ne_zero
  simp [bornDot, h1, h2, Description.ions, born, cartDir, comp, toCart, recip, Describe.Ex.d, DynMat.Ex.cv,
    reciprocalCell, cellVolume, dot, cross, smul, this]

end LimitEx

end Euphonic.Dipole
