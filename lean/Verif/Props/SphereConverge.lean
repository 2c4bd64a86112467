import Verif.Props.SphereImproved
import Mathlib.Probability.StrongLaw
import Mathlib.Probability.Independence.InfinitePi

/-!
# Which samplings approach the average over the sphere (C152)
-/

set_option autoImplicit false

namespace Euphonic.Sampling

open Euphonic.Lattice MeasureTheory ProbabilityTheory Filter

/-! ## Random points -/

/-- Uniform in the unit square. -/
noncomputable def uniformSquare : Measure (ℝ × ℝ) :=
  ((volume : Measure ℝ).restrict (Set.Ico 0 1)).prod ((volume : Measure ℝ).restrict (Set.Ico 0 1))

theorem ico_integral (g : ℝ → ℝ) : (∫ x in Set.Ico (0 : ℝ) 1, g x) = ∫ x in (0 : ℝ)..1, g x := by
  rw [intervalIntegral.integral_of_le zero_le_one, integral_Ico_eq_integral_Ioo, integral_Ioc_eq_integral_Ioo]

/-- The value at the point of the sphere that a point of the square stands for. -/
theorem square_continuous {L : ℝ} {f : V3 ℝ → ℝ} (h : LipSphere L f) :
    Continuous fun p : ℝ × ℝ => f (out true (squareToPolar p)) := by
  simp only [out, if_true, squareToPolar, onSphere_eq]
  exact h.continuous (X := ℝ × ℝ) (t := fun p => Real.arccos (2 * p.1 - 1)) (p := fun p => 2 * Real.pi * p.2)
    (Real.continuous_arccos.comp (by fun_prop)) (by fun_prop)

theorem square_bounded {L : ℝ} {f : V3 ℝ → ℝ} (h : LipSphere L f) (p : ℝ × ℝ) :
    ‖f (out true (squareToPolar p))‖ ≤ |f (onSphere 0 0)| + 6 * L := by
  simp only [out, if_true, squareToPolar, onSphere_eq, Real.norm_eq_abs]
  have h1 := h.spread (Real.arccos (2 * p.1 - 1)) (2 * Real.pi * p.2) 0 0
  have h2 := abs_sub_abs_le_abs_sub (f (onSphere (Real.arccos (2 * p.1 - 1)) (2 * Real.pi * p.2))) (f (onSphere 0 0))
  linarith

theorem square_integral {L : ℝ} {f : V3 ℝ → ℝ} (h : LipSphere L f) :
    (∫ p, f (out true (squareToPolar p)) ∂uniformSquare) = sphereAverage f := by
  have hpi := Real.pi_pos
  have hint : Integrable (fun p : ℝ × ℝ => f (out true (squareToPolar p))) uniformSquare := by
    unfold uniformSquare
    exact Integrable.of_bound (square_continuous h).aestronglyMeasurable _ (ae_of_all _ fun p => square_bounded h p)
  unfold uniformSquare at hint ⊢
  rw [integral_prod _ hint, ico_integral, sphereAverage_slices h]
  have inner : ∀ x : ℝ, (∫ y in Set.Ico (0 : ℝ) 1, f (out true (squareToPolar (x, y)))) = (2 * Real.pi)⁻¹ * slice f (2 * x - 1) := by
    intro x
    rw [ico_integral]
    simp only [out, if_true, squareToPolar, onSphere_eq]
    have := intervalIntegral.integral_comp_mul_left (a := 0) (b := 1)
      (fun phi => f (onSphere (Real.arccos (2 * x - 1)) phi)) (c := 2 * Real.pi) (by positivity)
    rw [mul_zero, mul_one, smul_eq_mul] at this
    exact this
  simp only [inner]
  rw [intervalIntegral.integral_const_mul, intervalIntegral.integral_comp_mul_sub (fun z => slice f z) two_ne_zero 1]
  norm_num
  field_simp
  norm_num
  ring

/-- **C152**. Random points: if the generator gives pairwise independent pairs, each uniform in the unit square, the means approach the
average over the sphere almost surely. -/
theorem C152_random {L : ℝ} {f : V3 ℝ → ℝ} (h : LipSphere L f) {Ω : Type} [MeasurableSpace Ω] (μ : Measure Ω)
    (rnd : Nat → Ω → ℝ × ℝ) (hm : ∀ i, Measurable (rnd i)) (hu : ∀ i, μ.map (rnd i) = uniformSquare)
    (hi : Pairwise fun i j => IndepFun (rnd i) (rnd j) μ) :
    ∀ᵐ ω ∂μ, Tendsto (fun npts => meanOver (randomSphere npts true fun i => rnd i ω) f) atTop (nhds (sphereAverage f)) := by
  have hg := square_continuous h
  have hint : Integrable (fun ω => f (out true (squareToPolar (rnd 0 ω)))) μ := by
    have : IsFiniteMeasure (μ.map (rnd 0)) := by
      rw [hu 0]
      unfold uniformSquare
      infer_instance
    have h1 : Integrable (fun p : ℝ × ℝ => f (out true (squareToPolar p))) (μ.map (rnd 0)) :=
      Integrable.of_bound hg.aestronglyMeasurable _ (ae_of_all _ fun p => square_bounded h p)
    exact h1.comp_measurable (hm 0)
  have hE : μ[fun ω => f (out true (squareToPolar (rnd 0 ω)))] = sphereAverage f := by
    rw [← square_integral h, ← hu 0, integral_map (hm 0).aemeasurable hg.aestronglyMeasurable]
  have := strong_law_ae_real (fun i ω => f (out true (squareToPolar (rnd i ω)))) hint
    (fun i j hij => (hi hij).comp hg.measurable hg.measurable)
    (fun i => (IdentDistrib.mk (hm i).aemeasurable (hm 0).aemeasurable (by rw [hu i, hu 0])).comp hg.measurable)
  filter_upwards [this] with ω hω
  rw [hE] at hω
  refine hω.congr fun n => ?_
  unfold meanOver randomSphere
  rw [List.map_map, sum_map_range, List.length_map, List.length_range]
  rfl

/-! ## The polar grid -/

/-- The square of the height. -/
def heightSq (v : V3 ℝ) : ℝ := v.z ^ 2

theorem heightSq_lip : LipSphere 2 heightSq := by
  intro u v hu hv
  unfold IsUnitVec at hu hv
  have h1 : |u.z| ≤ 1 := abs_le_one_iff_mul_self_le_one.2 (by nlinarith [sq_nonneg u.x, sq_nonneg u.y])
  have h2 : |v.z| ≤ 1 := abs_le_one_iff_mul_self_le_one.2 (by nlinarith [sq_nonneg v.x, sq_nonneg v.y])
  have h3 : |u.z + v.z| ≤ 2 := (abs_add_le _ _).trans (by linarith)
  unfold heightSq
  rw [show u.z ^ 2 - v.z ^ 2 = (u.z + v.z) * (u.z - v.z) by ring, abs_mul]
  have := mul_le_mul_of_nonneg_right h3 (abs_nonneg (u.z - v.z))
  linarith [abs_nonneg (u.x - v.x), abs_nonneg (u.y - v.y)]

theorem heightSq_average : sphereAverage heightSq = 1 / 3 := by
  have hpi := Real.pi_pos
  rw [sphereAverage_slices heightSq_lip]
  have hs : ∀ z ∈ Set.uIcc (-1 : ℝ) 1, slice heightSq z = 2 * Real.pi * z ^ 2 := by
    intro z hz
    rw [Set.uIcc_of_le (by norm_num)] at hz
    unfold slice
    simp only [heightSq, onSphere, Real.cos_arccos hz.1 hz.2, intervalIntegral.integral_const, smul_eq_mul, sub_zero]
  rw [intervalIntegral.integral_congr hs, intervalIntegral.integral_const_mul, integral_pow]
  field_simp
  norm_num

/-- Cosines of odd multiples cancel around the circle. -/
theorem sum_cos_odd (n : Nat) (hn : 2 ≤ n) : ∑ k ∈ Finset.range n, Real.cos (2 * (((k : ℝ) + 1 / 2) * (Real.pi / n))) = 0 := by
  have hn' : (2 : ℝ) ≤ n := by exact_mod_cast hn
  have hpi := Real.pi_pos
  have hs : 0 < Real.sin (Real.pi / n) := by
    refine Real.sin_pos_of_pos_of_lt_pi (by positivity) ?_
    rw [div_lt_iff₀ (by linarith)]
    nlinarith
  have tel := Finset.sum_range_sub (fun k : ℕ => Real.sin (2 * ((k : ℝ) * (Real.pi / n)))) n
  have e1 : 2 * ((n : ℝ) * (Real.pi / n)) = 2 * Real.pi := by field_simp
  simp only [Nat.cast_zero, zero_mul, mul_zero, Real.sin_zero, sub_zero, e1, Real.sin_two_pi] at tel
  have step : ∀ k ∈ Finset.range n, Real.sin (2 * (((k + 1 : ℕ) : ℝ) * (Real.pi / n))) - Real.sin (2 * ((k : ℝ) * (Real.pi / n)))
      = 2 * Real.sin (Real.pi / n) * Real.cos (2 * (((k : ℝ) + 1 / 2) * (Real.pi / n))) := by
    intro k _
    rw [show 2 * (((k + 1 : ℕ) : ℝ) * (Real.pi / n)) = 2 * (((k : ℝ) + 1 / 2) * (Real.pi / n)) + Real.pi / n by push_cast; ring,
      show 2 * ((k : ℝ) * (Real.pi / n)) = 2 * (((k : ℝ) + 1 / 2) * (Real.pi / n)) - Real.pi / n by ring,
      Real.sin_add, Real.sin_sub]
    ring
  rw [Finset.sum_congr rfl step, ← Finset.mul_sum] at tel
  rcases mul_eq_zero.1 tel with h | h
  · linarith
  · exact h

/-- The points of the polar grid without jitter. -/
theorem polar_points (nPhi nTheta : Nat) (hp : 2 ≤ nPhi) (ht : 2 ≤ nTheta) : sphericalPolarGrid nPhi nTheta true none
    = .ok ((List.range nPhi).flatMap fun (j : Nat) => (List.range nTheta).map fun (k : Nat) =>
      onSphere (((k : ℝ) + 1 / 2) * (Real.pi / nTheta)) (-Real.pi + (j : ℝ) * (2 * Real.pi / nPhi))) := by
  unfold sphericalPolarGrid
  simp only [spacing_linspace (-Real.pi) Real.pi _ hp, Bind.bind, Except.bind, Pure.pure, Except.pure,
    if_neg (by omega : ¬ nTheta = 0), spacing_theta _ ht, displacement, add_zero]
  congr 1
  unfold thetaSequence linspaceOpen
  simp only [List.map_map, zipIdx_map_range]
  rw [List.flatMap_def, zipIdx_map_range, ← List.flatMap_def]
  refine List.flatMap_congr fun j _ => List.map_congr_left fun k _ => ?_
  have hn : (nTheta : ℝ) ≠ 0 := by exact_mod_cast (by omega : nTheta ≠ 0)
  simp only [Function.comp, out, if_true, onSphere_eq]
  congr 1
  · field_simp
    ring
  · ring

/-- **C152** fails for the polar grid: its points are equally spaced in the polar angle and have no weights, so that the mean of the
square of the height is one half however fine the grid is, where the average over the sphere is one third. -/
theorem C152_polar_grid_biased (nPhi nTheta : Nat) (hp : 2 ≤ nPhi) (ht : 2 ≤ nTheta) :
    ∃ l, sphericalPolarGrid nPhi nTheta true none = .ok l ∧ meanOver l heightSq = 1 / 2 ∧ sphereAverage heightSq = 1 / 3 := by
  refine ⟨_, polar_points nPhi nTheta hp ht, ?_, heightSq_average⟩
  have hn : (0 : ℝ) < nTheta := by exact_mod_cast (by omega : 0 < nTheta)
  have hP : (0 : ℝ) < nPhi := by exact_mod_cast (by omega : 0 < nPhi)
  unfold meanOver
  rw [length_flatMap_const _ _ nTheta (fun _ _ => by simp), List.length_range, List.map_flatMap, List.flatMap_def, List.sum_flatten,
    List.map_map, sum_map_range]
  have hring : ∀ j ∈ Finset.range nPhi, (List.sum ∘ fun (j : Nat) => List.map heightSq ((List.range nTheta).map fun (k : Nat) =>
      onSphere (((k : ℝ) + 1 / 2) * (Real.pi / nTheta)) (-Real.pi + (j : ℝ) * (2 * Real.pi / nPhi)))) j = nTheta / 2 := by
    intro j _
    simp only [Function.comp_apply]
    rw [List.map_map, sum_map_range]
    have h1 : ∀ k ∈ Finset.range nTheta, (heightSq ∘ fun (k : Nat) =>
        onSphere (((k : ℝ) + 1 / 2) * (Real.pi / nTheta)) (-Real.pi + (j : ℝ) * (2 * Real.pi / nPhi))) k
        = 1 / 2 + Real.cos (2 * (((k : ℝ) + 1 / 2) * (Real.pi / nTheta))) / 2 := by
      intro k _
      simp only [Function.comp_apply, heightSq, onSphere]
      rw [Real.cos_sq]
    rw [Finset.sum_congr rfl h1, Finset.sum_add_distrib,
      ← Finset.sum_div (f := fun k : ℕ => Real.cos (2 * (((k : ℝ) + 1 / 2) * (Real.pi / nTheta)))), sum_cos_odd nTheta ht]
    simp
    ring
  rw [Finset.sum_congr rfl hring, Finset.sum_const, Finset.card_range, nsmul_eq_mul]
  push_cast
  field_simp

/-! ## Convergence -/

theorem nTheta_ge (npts K : Nat) (h : 2 * K ^ 2 ≤ npts) : K ≤ nTheta npts := by
  unfold nTheta
  apply Nat.le_floor
  apply Real.le_sqrt_of_sq_le
  have h1 : 2 * (K : ℝ) ^ 2 ≤ npts := by exact_mod_cast h
  have hp := Real.pi_gt_three
  nlinarith [sq_nonneg (K : ℝ)]

theorem checkGridpts_ge (npts K : Nat) (h : 2 * K ^ 2 ≤ npts) : K ≤ checkGridpts npts := by
  have h1 := (C74_grid_side npts).1
  by_contra hc
  have h2 : checkGridpts npts < K := by omega
  have h3 : checkGridpts npts ^ 2 < K ^ 2 := Nat.pow_lt_pow_left h2 (by norm_num)
  omega

/-- **C152**. For the golden sampling (the default), the projected grid and the improved polar sampling, with or without jitter, the
means over samplings with more and more points approach the average over the sphere, however the jitter falls.  Random points:
`C152_random`.  This does not hold for the polar grid: `C152_polar_grid_biased`. -/
theorem C152_converges_partial {L : ℝ} {f : V3 ℝ → ℝ} (h : LipSphere L f) (m : Method)
    (hm : m = .golden ∨ m = .projectedGrid ∨ m = .improved) (ε : ℝ) (hε : 0 < ε) :
    ∃ N, ∀ npts ≥ N, ∀ (jitter : Jitter) (rj : Nat → Jitter) (rnd : Nat → ℝ × ℝ), RandomJitter jitter → (∀ k, RandomJitter (rj k)) →
      ∃ l, qptsSphere npts m jitter rj rnd = .ok l ∧ |meanOver l f - sphereAverage f| ≤ ε := by
  have hL := h.nonneg
  have hpi := Real.pi_pos
  rcases hm with rfl | rfl | rfl
  · -- golden: a Fibonacci number first, then the number of points
    obtain ⟨q0, hq0⟩ := exists_nat_gt (L * (8 * Real.pi) * (2 / ε) + 5)
    have hfib : (q0 : ℝ) ≤ Nat.fib (q0 + 1) := by
      have h5 : 5 ≤ q0 := by
        have : (5 : ℝ) < q0 := lt_of_le_of_lt (by have : 0 ≤ L * (8 * Real.pi) * (2 / ε) := by positivity
                                                  linarith) hq0
        exact_mod_cast this.le
      have := Nat.le_fib_self (h5.trans (Nat.le_succ q0))
      exact_mod_cast (Nat.le_succ q0).trans this
    set q : ℝ := (Nat.fib (q0 + 1) : ℝ) with hq
    have hqpos : 0 < q := lt_of_lt_of_le (by have : 0 ≤ L * (8 * Real.pi) * (2 / ε) := by positivity
                                             linarith) hfib
    have hqe : L * (8 * Real.pi / q) ≤ ε / 2 := by
      rw [← mul_div_assoc, div_le_iff₀ hqpos]
      have : L * (8 * Real.pi) * (2 / ε) ≤ q := by linarith
      rw [← mul_div_assoc, div_le_iff₀ hε] at this
      linarith
    have t1 : Tendsto (fun npts : ℕ => (npts : ℝ)) atTop atTop := tendsto_natCast_atTop_atTop
    have t2 : Tendsto (fun npts : ℕ => q / (npts : ℝ)) atTop (nhds 0) := tendsto_const_nhds.div_atTop t1
    have t3 : Tendsto (fun npts : ℕ => √(npts : ℝ)) atTop atTop := Real.tendsto_sqrt_atTop.comp t1
    have t4 : Tendsto (fun npts : ℕ => 1 / √(npts : ℝ)) atTop (nhds 0) := tendsto_const_nhds.div_atTop t3
    have t5 : Tendsto (fun npts : ℕ => Real.pi / √(npts : ℝ)) atTop (nhds 0) := tendsto_const_nhds.div_atTop t3
    have t6 : Tendsto (fun npts : ℕ => 12 * (√(npts : ℝ) + 1) / npts) atTop (nhds 0) := by
      have : Tendsto (fun npts : ℕ => 12 * (1 / √(npts : ℝ)) + 12 / (npts : ℝ)) atTop (nhds (12 * 0 + 0)) :=
        (t4.const_mul 12).add (tendsto_const_nhds.div_atTop t1)
      rw [mul_zero, zero_add] at this
      refine this.congr' ?_
      filter_upwards [eventually_gt_atTop 0] with npts hn
      have hn' : (0 : ℝ) < npts := by exact_mod_cast hn
      have hs := Real.mul_self_sqrt hn'.le
      have hs0 := Real.sqrt_pos.2 hn'
      have h1 : 1 / √(npts : ℝ) = √npts / npts := by
        rw [div_eq_div_iff hs0.ne' hn'.ne', one_mul, hs]
      rw [h1]
      ring
    have s1 : Tendsto (fun npts : ℕ => √(q / (npts : ℝ))) atTop (nhds 0) := by
      have := (Real.continuous_sqrt.tendsto 0).comp t2
      rwa [Real.sqrt_zero] at this
    have s2 : Tendsto (fun npts : ℕ => √(2 * (1 / √(npts : ℝ)))) atTop (nhds 0) := by
      have t : Tendsto (fun npts : ℕ => 2 * (1 / √(npts : ℝ))) atTop (nhds (2 * 0)) := t4.const_mul 2
      rw [mul_zero] at t
      have := (Real.continuous_sqrt.tendsto 0).comp t
      rwa [Real.sqrt_zero] at this
    have tot : Tendsto (fun npts : ℕ => L * (4 * √(q / npts) + 8 * Real.pi / q + 8 * (q / npts))
        + L * (2 * √(2 * (1 / √npts)) + 2 * (Real.pi / √npts) + 1 / √npts + 12 * (√npts + 1) / npts)) atTop
        (nhds (L * (4 * 0 + 8 * Real.pi / q + 8 * 0) + L * (2 * 0 + 2 * 0 + 0 + 0))) :=
      ((((s1.const_mul 4).add tendsto_const_nhds).add (t2.const_mul 8)).const_mul L).add
        (((((s2.const_mul 2).add (t5.const_mul 2)).add t4).add t6).const_mul L)
    have hlim : L * (4 * 0 + 8 * Real.pi / q + 8 * 0) + L * (2 * 0 + 2 * 0 + 0 + 0) < ε := by
      have : L * (4 * 0 + 8 * Real.pi / q + 8 * 0) + L * (2 * 0 + 2 * 0 + 0 + 0) = L * (8 * Real.pi / q) := by ring
      rw [this]
      linarith
    obtain ⟨N, hN⟩ := eventually_atTop.1 ((tot.eventually_lt_const hlim).and (eventually_gt_atTop 0))
    refine ⟨N, fun npts hn jitter rj rnd hj _ => ?_⟩
    obtain ⟨h1, h2⟩ := hN npts hn
    obtain ⟨l, hl, hb⟩ := C152_golden_jitter h npts h2 q0 jitter hj
    exact ⟨l, hl, hb.trans h1.le⟩
  · have t0 : Tendsto (fun C : ℕ => (C : ℝ)) atTop atTop := tendsto_natCast_atTop_atTop
    have t1 : Tendsto (fun C : ℕ => 4 / √(C : ℝ)) atTop (nhds 0) :=
      tendsto_const_nhds.div_atTop (Real.tendsto_sqrt_atTop.comp t0)
    have t2 : Tendsto (fun C : ℕ => 4 * Real.pi / ((C * 2 : ℕ) : ℝ)) atTop (nhds 0) := by
      refine tendsto_const_nhds.div_atTop (tendsto_natCast_atTop_atTop.comp ?_)
      exact tendsto_atTop_mono (fun C => show C ≤ C * 2 by omega) tendsto_id
    have t3 : Tendsto (fun C : ℕ => 2 / (C : ℝ)) atTop (nhds 0) := tendsto_const_nhds.div_atTop t0
    have tot := (((t1.add t2).add t3).const_mul L)
    simp only [add_zero, mul_zero] at tot
    obtain ⟨K, hK⟩ := eventually_atTop.1 ((tot.eventually_lt_const hε).and (eventually_gt_atTop 0))
    refine ⟨2 * K ^ 2, fun npts hn jitter rj rnd hj _ => ?_⟩
    obtain ⟨h1, h2⟩ := hK _ (checkGridpts_ge npts K hn)
    obtain ⟨l, hl, hb⟩ := C152_projected_grid h (checkGridpts npts * 2) (checkGridpts npts) (by omega) h2 jitter hj
    exact ⟨l, hl, hb.trans h1.le⟩
  · have t1 : Tendsto (fun C : ℕ => L * (50 / (C : ℝ))) atTop (nhds (L * 0)) :=
      (tendsto_const_nhds.div_atTop tendsto_natCast_atTop_atTop).const_mul L
    rw [mul_zero] at t1
    obtain ⟨K, hK⟩ := eventually_atTop.1 (t1.eventually_lt_const hε)
    refine ⟨2 * K ^ 2 + 6, fun npts hn jitter rj rnd _ hj => ?_⟩
    obtain ⟨l, hl, hb⟩ := C152_improved h npts (by omega) rj hj
    exact ⟨l, hl, hb.trans (hK _ (nTheta_ge npts K (by omega))).le⟩

/-! ## Examples -/

/-- The product of two coordinates, which changes along a meridian and around the axis. -/
theorem exProduct_lip : LipSphere 1 fun v => v.x * v.z := by
  intro u v hu hv
  unfold IsUnitVec at hu hv
  have h1 : |u.z| ≤ 1 := abs_le_one_iff_mul_self_le_one.2 (by nlinarith [sq_nonneg u.x, sq_nonneg u.y])
  have h2 : |v.x| ≤ 1 := abs_le_one_iff_mul_self_le_one.2 (by nlinarith [sq_nonneg v.y, sq_nonneg v.z])
  show |u.x * u.z - v.x * v.z| ≤ _
  rw [show u.x * u.z - v.x * v.z = u.z * (u.x - v.x) + v.x * (u.z - v.z) by ring]
  refine (abs_add_le _ _).trans ?_
  rw [abs_mul, abs_mul]
  have a1 := mul_le_mul_of_nonneg_right h1 (abs_nonneg (u.x - v.x))
  have a2 := mul_le_mul_of_nonneg_right h2 (abs_nonneg (u.z - v.z))
  linarith [abs_nonneg (u.y - v.y)]

example (ε : ℝ) (hε : 0 < ε) : ∃ N, ∀ npts ≥ N, ∃ l, qptsSphere npts .golden none (fun _ => none) (fun _ => (0, 0)) = .ok l ∧
    |meanOver l heightSq - 1 / 3| ≤ ε := by
  obtain ⟨N, hN⟩ := C152_converges_partial heightSq_lip .golden (Or.inl rfl) ε hε
  refine ⟨N, fun npts hn => ?_⟩
  rw [← heightSq_average]
  exact hN npts hn none (fun _ => none) (fun _ => (0, 0)) (by simp [RandomJitter]) (by simp [RandomJitter])

example : ∃ l, goldenSphere 1000 true none = .ok l ∧ |meanOver l (fun v => v.x * v.z) - sphereAverage fun v => v.x * v.z|
    ≤ 1 * (4 * √((Nat.fib 9 : ℝ) / (1000 : ℕ)) + 8 * Real.pi / Nat.fib 9 + 8 * ((Nat.fib 9 : ℝ) / (1000 : ℕ))) :=
  C152_golden exProduct_lip 1000 (by norm_num) 8

example : ∃ l, sphericalPolarImproved 1000 true (fun _ => none) = .ok l ∧
    |meanOver l (fun v => v.x * v.z) - sphereAverage fun v => v.x * v.z| ≤ 1 * (50 / nTheta 1000) :=
  C152_improved exProduct_lip 1000 (by norm_num) _ (by simp [RandomJitter])

example : ∃ l, sphereFromSquareGrid 40 20 true none = .ok l ∧
    |meanOver l heightSq - sphereAverage heightSq| ≤ 2 * (4 / √(20 : ℕ) + 4 * Real.pi / (40 : ℕ) + 2 / (20 : ℕ)) :=
  C152_projected_grid heightSq_lip 40 20 (by norm_num) (by norm_num) none (by simp [RandomJitter])

example : ∃ l, sphericalPolarGrid 200 100 true none = .ok l ∧ meanOver l heightSq = 1 / 2 ∧ sphereAverage heightSq = 1 / 3 :=
  C152_polar_grid_biased 200 100 (by norm_num) (by norm_num)

/-- Independent pairs, uniform in the unit square, exist. -/
example : ∃ (Ω : Type) (_ : MeasurableSpace Ω) (μ : Measure Ω) (_ : IsProbabilityMeasure μ) (rnd : Nat → Ω → ℝ × ℝ),
    ∀ᵐ ω ∂μ, Tendsto (fun npts => meanOver (randomSphere npts true fun i => rnd i ω) heightSq) atTop (nhds (1 / 3)) := by
  have : IsProbabilityMeasure ((volume : Measure ℝ).restrict (Set.Ico 0 1)) := ⟨by simp⟩
  have : IsProbabilityMeasure uniformSquare := by unfold uniformSquare; infer_instance
  refine ⟨ℕ → ℝ × ℝ, inferInstance, Measure.infinitePi fun _ => uniformSquare, inferInstance, fun i ω => ω i, ?_⟩
  rw [← heightSq_average]
  refine C152_random heightSq_lip _ _ (fun i => measurable_pi_apply i) (fun i => Measure.infinitePi_map_eval _ i) ?_
  have := iIndepFun_infinitePi (P := fun _ : ℕ => uniformSquare) (X := fun _ => id) (fun _ => measurable_id)
  intro i j hij
  exact this.indepFun hij

end Euphonic.Sampling
