import Verif.Props.Sampling
import Mathlib.Analysis.SpecialFunctions.Integrals.Basic
import Mathlib.MeasureTheory.Integral.DominatedConvergence
import Mathlib.MeasureTheory.Integral.IntervalIntegral.Periodic

/-!
# Averages over samplings of a sphere (C152)

A powder average is the mean of the values at the points of a sampling.  It should approach the average over the sphere when the
number of points grows.  This file has the specification, integrals from samples, and the projected grid; the golden sampling is in
`SphereGolden`, the improved polar one in `SphereImproved`, random points and the polar grid in `SphereConverge`.
-/

set_option autoImplicit false

namespace Euphonic.Sampling

open Euphonic.Lattice MeasureTheory

/-! ## Specification -/

/-- The point of the unit sphere with polar angle `theta` and azimuth `phi`. -/
noncomputable def onSphere (theta phi : ℝ) : V3 ℝ :=
  ⟨Real.sin theta * Real.cos phi, Real.sin theta * Real.sin phi, Real.cos theta⟩

/-- The average over the sphere: the integral with the element of area `sin theta`, over the area. -/
noncomputable def sphereAverage (f : V3 ℝ → ℝ) : ℝ :=
  (∫ theta in (0 : ℝ)..Real.pi, (∫ phi in (0 : ℝ)..2 * Real.pi, f (onSphere theta phi)) * Real.sin theta) / (4 * Real.pi)

/-- The mean of the values at the points of a sampling. -/
noncomputable def meanOver (l : List (V3 ℝ)) (f : V3 ℝ → ℝ) : ℝ := (l.map f).sum / l.length

/-- How much the values at points of the sphere can differ. -/
def LipSphere (L : ℝ) (f : V3 ℝ → ℝ) : Prop :=
  ∀ u v, IsUnitVec u → IsUnitVec v → |f u - f v| ≤ L * (|u.x - v.x| + |u.y - v.y| + |u.z - v.z|)

/-! ## Riemann sums -/

theorem sum_map_range (n : Nat) (g : Nat → ℝ) : ((List.range n).map g).sum = ∑ i ∈ Finset.range n, g i := by
  induction n with
  | zero => simp
  | succ n ih => rw [List.range_succ, List.map_append, List.sum_append, ih, Finset.sum_range_succ]; simp

/-- If the values in a cell are those of a sample up to an error, the integral is the sum up to the errors. -/
theorem riemann_cells {G : ℝ → ℝ} (hG : Continuous G) (p : Nat → ℝ) (n : Nat) (s e : Nat → ℝ)
    (hp : ∀ i < n, p i ≤ p (i + 1)) (h : ∀ i < n, ∀ x, p i ≤ x → x ≤ p (i + 1) → |G x - s i| ≤ e i) :
    |(∫ x in p 0..p n, G x) - ∑ i ∈ Finset.range n, (p (i + 1) - p i) * s i|
      ≤ ∑ i ∈ Finset.range n, e i * (p (i + 1) - p i) := by
  have hsum := intervalIntegral.sum_integral_adjacent_intervals (μ := volume) (f := G) (a := p) (n := n)
    fun k _ => hG.intervalIntegrable _ _
  rw [← hsum, ← Finset.sum_sub_distrib]
  refine (Finset.abs_sum_le_sum_abs _ _).trans (Finset.sum_le_sum fun i hi => ?_)
  have hi := Finset.mem_range.1 hi
  have hc : (p (i + 1) - p i) * s i = ∫ _ in p i..p (i + 1), s i := by
    rw [intervalIntegral.integral_const, smul_eq_mul]
  rw [hc, ← intervalIntegral.integral_sub (hG.intervalIntegrable _ _) (continuous_const.intervalIntegrable _ _)]
  have := intervalIntegral.norm_integral_le_of_norm_le_const (a := p i) (b := p (i + 1)) (f := fun x => G x - s i) (C := e i)
    fun x hx => by
      rw [Set.uIoc_of_le (hp i hi)] at hx
      rw [Real.norm_eq_abs]
      exact h i hi x hx.1.le hx.2
  rwa [Real.norm_eq_abs, abs_of_nonneg (sub_nonneg.2 (hp i hi))] at this

/-- The same with equal cells. -/
theorem riemann {G : ℝ → ℝ} (hG : Continuous G) {a b : ℝ} (hab : a ≤ b) {n : Nat} (hn : n = 0 → a = b) (s : Nat → ℝ) {e : ℝ}
    (h : ∀ i < n, ∀ x, a + (b - a) / n * i ≤ x → x ≤ a + (b - a) / n * (i + 1) → |G x - s i| ≤ e) :
    |(∫ x in a..b, G x) - (b - a) / n * ∑ i ∈ Finset.range n, s i| ≤ e * (b - a) := by
  rcases Nat.eq_zero_or_pos n with h0 | h0
  · rw [hn h0]
    simp
  have hn' : (0 : ℝ) < n := by exact_mod_cast h0
  have hw : 0 ≤ (b - a) / n := div_nonneg (by linarith) hn'.le
  set w := (b - a) / n with hwd
  let p : Nat → ℝ := fun i => a + w * i
  have hp0 : p 0 = a := by simp [p]
  have hpn : p n = b := by simp only [p, hwd]; field_simp; ring
  have hps : ∀ i, p (i + 1) - p i = w := by intro i; simp only [p]; push_cast; ring
  have := riemann_cells hG p n s (fun _ => e) (fun i _ => by have := hps i; linarith)
    fun i hi x h1 h2 => h i hi x h1 (by simpa [p] using h2)
  rw [hp0, hpn] at this
  simp only [hps, ← Finset.mul_sum, Finset.sum_const, Finset.card_range, nsmul_eq_mul] at this
  refine this.trans (le_of_eq ?_)
  rw [hwd]
  field_simp

/-! ## Functions on the sphere -/

theorem onSphere_unit (t p : ℝ) : IsUnitVec (onSphere t p) := by
  unfold IsUnitVec onSphere
  have h1 := Real.sin_sq_add_cos_sq t
  have h2 := Real.sin_sq_add_cos_sq p
  simp only
  linear_combination (Real.sin t ^ 2) * h2 + h1

theorem onSphere_eq (t p : ℝ) : toCartesian p t = onSphere t p := by
  simp only [toCartesian, onSphere, V3.mk.injEq]
  exact ⟨mul_comm _ _, mul_comm _ _, trivial⟩

theorem LipSphere.nonneg {L : ℝ} {f : V3 ℝ → ℝ} (h : LipSphere L f) : 0 ≤ L := by
  have := h (onSphere 0 0) (onSphere Real.pi 0) (onSphere_unit _ _) (onSphere_unit _ _)
  have h2 := (abs_nonneg _).trans this
  simp only [onSphere, Real.sin_zero, Real.cos_zero, Real.sin_pi, Real.cos_pi] at h2
  norm_num at h2
  linarith

/-- A Lipschitz function is continuous in the angles. -/
theorem LipSphere.continuous {L : ℝ} {f : V3 ℝ → ℝ} (h : LipSphere L f) {X : Type} [TopologicalSpace X] {t p : X → ℝ}
    (ht : Continuous t) (hp : Continuous p) : Continuous fun x => f (onSphere (t x) (p x)) := by
  rw [continuous_iff_continuousAt]
  intro x
  rw [ContinuousAt, tendsto_iff_dist_tendsto_zero]
  refine squeeze_zero (fun y => dist_nonneg)
    (fun y => (Real.dist_eq _ _).le.trans (h _ _ (onSphere_unit (t y) (p y)) (onSphere_unit (t x) (p x)))) ?_
  have hc : Continuous fun y => L * (|(onSphere (t y) (p y)).x - (onSphere (t x) (p x)).x|
      + |(onSphere (t y) (p y)).y - (onSphere (t x) (p x)).y| + |(onSphere (t y) (p y)).z - (onSphere (t x) (p x)).z|) := by
    simp only [onSphere]
    fun_prop
  have := hc.tendsto x
  simpa using this

/-- The integral over the circle at a height. -/
noncomputable def slice (f : V3 ℝ → ℝ) (z : ℝ) : ℝ := ∫ phi in (0 : ℝ)..2 * Real.pi, f (onSphere (Real.arccos z) phi)

theorem slice_continuous {L : ℝ} {f : V3 ℝ → ℝ} (h : LipSphere L f) : Continuous (slice f) :=
  intervalIntegral.continuous_parametric_intervalIntegral_of_continuous'
    (f := fun z phi => f (onSphere (Real.arccos z) phi))
    (h.continuous (X := ℝ × ℝ) (Real.continuous_arccos.comp continuous_fst) continuous_snd) _ _

theorem slice_shift (f : V3 ℝ → ℝ) (z a : ℝ) :
    slice f z = ∫ phi in a..a + 2 * Real.pi, f (onSphere (Real.arccos z) phi) := by
  have hper : Function.Periodic (fun phi => f (onSphere (Real.arccos z) phi)) (2 * Real.pi) := by
    intro phi
    simp only [onSphere, Real.cos_add_two_pi, Real.sin_add_two_pi]
  have := hper.intervalIntegral_add_eq 0 a
  rw [zero_add] at this
  exact this

/-- The integral over a circle from samples, one for each of equal arcs. -/
theorem slice_samples {L : ℝ} {f : V3 ℝ → ℝ} (h : LipSphere L f) (z a : ℝ) {n : Nat} (hn : 0 < n) (v : Nat → V3 ℝ) {e : ℝ}
    (hv : ∀ j < n, ∀ phi, a + 2 * Real.pi / n * j ≤ phi → phi ≤ a + 2 * Real.pi / n * (j + 1) →
      |f (onSphere (Real.arccos z) phi) - f (v j)| ≤ e) :
    |slice f z - 2 * Real.pi / n * ∑ j ∈ Finset.range n, f (v j)| ≤ e * (2 * Real.pi) := by
  rw [slice_shift f z a]
  have hpi := Real.pi_pos
  have := riemann (h.continuous continuous_const continuous_id (t := fun _ => Real.arccos z)) (a := a)
    (b := a + 2 * Real.pi) (by linarith) (n := n) (by omega) (fun j => f (v j)) (e := e)
    (by rw [add_sub_cancel_left]; exact hv)
  rwa [add_sub_cancel_left] at this

/-- The average as an integral over heights: equal slices have equal areas. -/
theorem sphereAverage_slices {L : ℝ} {f : V3 ℝ → ℝ} (h : LipSphere L f) : sphereAverage f
    = (∫ z in (-1 : ℝ)..1, slice f z) / (4 * Real.pi) := by
  unfold sphereAverage
  congr 1
  have hF := slice_continuous h
  have key := intervalIntegral.integral_comp_mul_deriv (a := 0) (b := Real.pi) (f := Real.cos) (f' := fun x => -Real.sin x)
    (g := slice f) (fun x _ => Real.hasDerivAt_cos x) (Real.continuous_sin.neg.continuousOn) hF
  rw [Real.cos_zero, Real.cos_pi, intervalIntegral.integral_symm (-1) 1] at key
  have h1 : (∫ z in (-1 : ℝ)..1, slice f z) = ∫ x in (0 : ℝ)..Real.pi, slice f (Real.cos x) * Real.sin x := by
    have : (∫ x in (0 : ℝ)..Real.pi, (slice f ∘ Real.cos) x * -Real.sin x) = -∫ x in (0 : ℝ)..Real.pi, slice f (Real.cos x) * Real.sin x := by
      rw [← intervalIntegral.integral_neg]
      congr 1
      funext x
      simp
    rw [this] at key
    linarith
  rw [h1]
  refine intervalIntegral.integral_congr fun x hx => ?_
  rw [Set.uIcc_of_le Real.pi_pos.le] at hx
  simp only [slice]
  rw [Real.arccos_cos hx.1 hx.2]

/-! ## C152: samplings whose means approach the average -/

theorem sqrt_sub_le {a b : ℝ} (ha : 0 ≤ a) (hb : 0 ≤ b) : |√a - √b| ≤ √|a - b| := by
  wlog hab : b ≤ a generalizing a b
  · rw [abs_sub_comm, abs_sub_comm a b]
    exact this hb ha (le_of_lt (not_le.1 hab))
  rw [abs_of_nonneg (sub_nonneg.2 hab), abs_of_nonneg (sub_nonneg.2 (Real.sqrt_le_sqrt hab))]
  have h1 := Real.sq_sqrt ha
  have h2 := Real.sq_sqrt hb
  have h3 := Real.sqrt_le_sqrt hab
  refine Real.le_sqrt_of_sq_le ?_
  nlinarith [Real.sqrt_nonneg b]

/-- Points of the sphere at about the same height and azimuth. -/
theorem near {L : ℝ} {f : V3 ℝ → ℝ} (h : LipSphere L f) {z z' p p' dz dp : ℝ} (h1 : -1 ≤ z) (h2 : z ≤ 1) (h1' : -1 ≤ z')
    (h2' : z' ≤ 1) (hz : |z - z'| ≤ dz) (hp : |p - p'| ≤ dp) :
    |f (onSphere (Real.arccos z) p) - f (onSphere (Real.arccos z') p')| ≤ L * (2 * √(2 * dz) + 2 * dp + dz) := by
  refine (h _ _ (onSphere_unit _ _) (onSphere_unit _ _)).trans (mul_le_mul_of_nonneg_left ?_ h.nonneg)
  have hs : |√(1 - z ^ 2) - √(1 - z' ^ 2)| ≤ √(2 * dz) := by
    refine (sqrt_sub_le (by nlinarith) (by nlinarith)).trans (Real.sqrt_le_sqrt ?_)
    rw [show 1 - z ^ 2 - (1 - z' ^ 2) = -((z - z') * (z + z')) by ring, abs_neg, abs_mul]
    have : |z + z'| ≤ 2 := abs_le.2 ⟨by linarith, by linarith⟩
    calc |z - z'| * |z + z'| ≤ dz * 2 := mul_le_mul hz this (abs_nonneg _) ((abs_nonneg _).trans hz)
      _ = 2 * dz := by ring
  have hs1 : |√(1 - z ^ 2)| ≤ 1 := by
    rw [abs_of_nonneg (Real.sqrt_nonneg _)]
    exact Real.sqrt_le_one.2 (by nlinarith)
  have hcos : |Real.cos p - Real.cos p'| ≤ dp := (Real.abs_cos_sub_cos_le p p').trans hp
  have hsin : |Real.sin p - Real.sin p'| ≤ dp := (Real.abs_sin_sub_sin_le p p').trans hp
  have prod : ∀ s s' c c' : ℝ, |s| ≤ 1 → |c'| ≤ 1 → |s * c - s' * c'| ≤ |c - c'| + |s - s'| := by
    intro s s' c c' hs hc
    calc |s * c - s' * c'| = |s * (c - c') + (s - s') * c'| := by ring_nf
      _ ≤ |s * (c - c')| + |(s - s') * c'| := abs_add_le _ _
      _ = |s| * |c - c'| + |s - s'| * |c'| := by rw [abs_mul, abs_mul]
      _ ≤ 1 * |c - c'| + |s - s'| * 1 :=
        add_le_add (mul_le_mul_of_nonneg_right hs (abs_nonneg _)) (mul_le_mul_of_nonneg_left hc (abs_nonneg _))
      _ = _ := by ring
  simp only [onSphere, Real.sin_arccos, Real.cos_arccos h1 h2, Real.cos_arccos h1' h2']
  have hx := prod (√(1 - z ^ 2)) (√(1 - z' ^ 2)) (Real.cos p) (Real.cos p') hs1 (Real.abs_cos_le_one _)
  have hy := prod (√(1 - z ^ 2)) (√(1 - z' ^ 2)) (Real.sin p) (Real.sin p') hs1 (Real.abs_sin_le_one _)
  linarith


/-- **C152**, grids: samples of equal heights and equal azimuths, one in each cell. -/
theorem grid_mean {L : ℝ} {f : V3 ℝ → ℝ} (h : LipSphere L f) (R C : Nat) (hr : 0 < R) (hc : 0 < C) (z p : Nat → Nat → ℝ)
    (hz : ∀ i < C, ∀ j < R, -1 + 2 / (C : ℝ) * i ≤ z i j ∧ z i j ≤ -1 + 2 / (C : ℝ) * (i + 1))
    (hp : ∀ i < C, ∀ j < R, 2 * Real.pi / (R : ℝ) * j ≤ p i j ∧ p i j ≤ 2 * Real.pi / (R : ℝ) * (j + 1)) :
    |(∑ i ∈ Finset.range C, ∑ j ∈ Finset.range R, f (onSphere (Real.arccos (z i j)) (p i j))) / (C * R) - sphereAverage f|
      ≤ L * (4 / √C + 4 * Real.pi / R + 2 / C) := by
  have hR : (0 : ℝ) < R := by exact_mod_cast hr
  have hC : (0 : ℝ) < C := by exact_mod_cast hc
  have hpi := Real.pi_pos
  have hsq : 2 * √(2 * (2 / (C : ℝ))) = 4 / √C := by
    rw [show 2 * (2 / (C : ℝ)) = 2 ^ 2 / C by ring, Real.sqrt_div (by positivity), Real.sqrt_sq (by norm_num)]
    ring
  rw [sphereAverage_slices h, ← hsq]
  set e := L * (2 * √(2 * (2 / (C : ℝ))) + 4 * Real.pi / R + 2 / C) with he
  have inner : ∀ i < C, ∀ x, -1 + (1 - -1) / (C : ℝ) * i ≤ x → x ≤ -1 + (1 - -1) / (C : ℝ) * (i + 1) →
      |slice f x - 2 * Real.pi / R * ∑ j ∈ Finset.range R, f (onSphere (Real.arccos (z i j)) (p i j))|
      ≤ e * (2 * Real.pi) := by
    intro i hi x hx1 hx2
    have hi0 : (0 : ℝ) ≤ i := Nat.cast_nonneg i
    have hi1 : (i : ℝ) + 1 ≤ C := by exact_mod_cast hi
    rw [show (1 - -1 : ℝ) = 2 by norm_num] at hx1 hx2
    have hlo : -1 ≤ -1 + 2 / (C : ℝ) * i := by
      have : 0 ≤ 2 / (C : ℝ) * i := by positivity
      linarith
    have hhi : -1 + 2 / (C : ℝ) * (i + 1) ≤ 1 := by
      have : 2 / (C : ℝ) * (i + 1) ≤ 2 / (C : ℝ) * C := mul_le_mul_of_nonneg_left hi1 (by positivity)
      rw [div_mul_cancel₀ _ hC.ne'] at this
      linarith
    refine slice_samples h x 0 hr (fun j => onSphere (Real.arccos (z i j)) (p i j)) fun j hj phi h1 h2 => ?_
    obtain ⟨z1, z2⟩ := hz i hi j hj
    obtain ⟨p1, p2⟩ := hp i hi j hj
    refine (near h (dz := 2 / C) (dp := 2 * Real.pi / R) (by linarith) (by linarith) (by linarith) (by linarith) ?_ ?_).trans
      (le_of_eq (by rw [he]; ring))
    · exact abs_le.2 ⟨by linarith, by linarith⟩
    · exact abs_le.2 ⟨by linarith, by linarith⟩
  have outer := riemann (slice_continuous h) (by norm_num : (-1 : ℝ) ≤ 1) (by omega)
    (fun i => 2 * Real.pi / R * ∑ j ∈ Finset.range R, f (onSphere (Real.arccos (z i j)) (p i j))) inner
  rw [← Finset.mul_sum] at outer
  set S := ∑ i ∈ Finset.range C, ∑ j ∈ Finset.range R, f (onSphere (Real.arccos (z i j)) (p i j)) with hS
  set I := ∫ z in (-1 : ℝ)..1, slice f z with hI
  have hq : S / (C * R) - I / (4 * Real.pi) = -((I - (1 - -1) / C * (2 * Real.pi / R * S)) / (4 * Real.pi)) := by
    field_simp
    ring
  rw [hq, abs_neg, abs_div, abs_of_pos (by positivity : 0 < 4 * Real.pi), div_le_iff₀ (by positivity)]
  exact outer.trans (le_of_eq (by ring))

/-- A random displacement of at most half a cell keeps a point in its cell. -/
theorem displacement_frac (jitter : Jitter) (hj : RandomJitter jitter) (i : Nat) (sx sy : ℝ) :
    ∃ a b : ℝ, 0 ≤ a ∧ a ≤ 1 ∧ 0 ≤ b ∧ b ≤ 1 ∧ displacement jitter i sx sy = ((a - 1 / 2) * sx, (b - 1 / 2) * sy) := by
  cases jitter with
  | none => exact ⟨1 / 2, 1 / 2, by norm_num, by norm_num, by norm_num, by norm_num, by simp [displacement]⟩
  | some r =>
    obtain ⟨⟨h1, h2⟩, h3, h4⟩ := hj r rfl i
    exact ⟨_, _, h1, h2.le, h3, h4.le, rfl⟩

/-- **C152**. The projected grid, with or without jitter: the mean is the average over the sphere up to an error that vanishes as
the grid gets finer. -/
theorem C152_projected_grid {L : ℝ} {f : V3 ℝ → ℝ} (h : LipSphere L f) (nRows nCols : Nat) (hr : 0 < nRows)
    (hc : 0 < nCols) (jitter : Jitter) (hj : RandomJitter jitter) : ∃ l, sphereFromSquareGrid nRows nCols true jitter = .ok l ∧
      |meanOver l f - sphereAverage f| ≤ L * (4 / √nCols + 4 * Real.pi / nRows + 2 / nCols) := by
  have hR : (0 : ℝ) < nRows := by exact_mod_cast hr
  have hC : (0 : ℝ) < nCols := by exact_mod_cast hc
  have hpi := Real.pi_pos
  choose a b ha0 ha1 hb0 hb1 hd using fun k => displacement_frac jitter hj k (1 / (nCols : ℝ)) (1 / (nRows : ℝ))
  let z : Nat → Nat → ℝ := fun i j => -1 + 2 / nCols * (i + a (i * nRows + j))
  let p : Nat → Nat → ℝ := fun i j => 2 * Real.pi / nRows * (j + b (i * nRows + j))
  have hl : sphereFromSquareGrid nRows nCols true jitter = .ok ((List.range nCols).flatMap fun i =>
      (List.range nRows).map fun j => onSphere (Real.arccos (z i j)) (p i j)) := by
    unfold sphereFromSquareGrid regularSquare
    rw [if_neg (by omega)]
    simp only [bind, Except.bind, pure, Except.pure, if_true, List.map_flatMap, List.map_map, hd]
    congr 2
    funext i
    refine List.map_congr_left fun j _ => ?_
    simp only [Function.comp, squareToPolar, out, if_true, onSphere_eq]
    congr 1
    · congr 1
      simp only [z]
      field_simp
      ring
    · simp only [p]
      field_simp
      ring
  refine ⟨_, hl, ?_⟩
  have hmean : meanOver ((List.range nCols).flatMap fun i =>
      (List.range nRows).map fun j => onSphere (Real.arccos (z i j)) (p i j)) f
      = (∑ i ∈ Finset.range nCols, ∑ j ∈ Finset.range nRows, f (onSphere (Real.arccos (z i j)) (p i j))) / (nCols * nRows) := by
    unfold meanOver
    congr 1
    · rw [List.map_flatMap, List.flatMap_def, List.sum_flatten, List.map_map, sum_map_range]
      refine Finset.sum_congr rfl fun i _ => ?_
      rw [Function.comp, List.map_map, sum_map_range]
      rfl
    · rw [length_flatMap_const _ _ nRows (fun _ _ => by simp), List.length_range]
      push_cast
      rfl
  rw [hmean]
  refine grid_mean h nRows nCols hr hc z p (fun i hi j hj => ?_) fun i hi j hj => ?_
  · have h1 := ha0 (i * nRows + j)
    have h2 := ha1 (i * nRows + j)
    have hw : (0 : ℝ) ≤ 2 / nCols := by positivity
    exact ⟨by simp only [z]; nlinarith, by simp only [z]; nlinarith⟩
  · have h1 := hb0 (i * nRows + j)
    have h2 := hb1 (i * nRows + j)
    have hw : (0 : ℝ) ≤ 2 * Real.pi / nRows := by positivity
    exact ⟨by simp only [p]; nlinarith, by simp only [p]; nlinarith⟩

end Euphonic.Sampling
