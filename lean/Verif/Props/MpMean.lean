import Verif.Props.SphereMean
import Verif.Props.Stability
import Mathlib.Topology.UniformSpace.HeineCantor

/-!
# Averages over Monkhorst-Pack grids (C155)

Densities of states, Debye-Waller exponents and other averages over the Brillouin zone are calculated as means over the points of
`mp_grid`.  This file proves that such means approach the average over the zone when the grid is refined, how large the error can
be, and for which functions there is none.
-/

set_option autoImplicit false

namespace Euphonic.Lattice

open MeasureTheory Euphonic.Sampling Euphonic.Phases

/-! ## Specification -/

/-- The average over the Brillouin zone, in fractional coordinates. -/
noncomputable def zoneAverage (f : V3 ℝ → ℝ) : ℝ :=
  ∫ x in (-1 / 2 : ℝ)..1 / 2, ∫ y in (-1 / 2 : ℝ)..1 / 2, ∫ z in (-1 / 2 : ℝ)..1 / 2, f ⟨x, y, z⟩

/-- A function that varies continuously with the wavevector. -/
def ContinuousQ (f : V3 ℝ → ℝ) : Prop := Continuous fun p : ℝ × ℝ × ℝ => f ⟨p.1, p.2.1, p.2.2⟩

/-- How much the values at two wavevectors can differ. -/
def LipQ (L : ℝ) (f : V3 ℝ → ℝ) : Prop := ∀ u v, |f u - f v| ≤ L * (|u.x - v.x| + |u.y - v.y| + |u.z - v.z|)

/-! ## One axis -/

theorem axis_mean {G : ℝ → ℝ} (hG : Continuous G) {N : Nat} (hN : 0 < N) (s : Nat → ℝ) {e : ℝ}
    (h : ∀ i < N, ∀ x, |x| ≤ 1 / 2 → |x - mpCoord ℝ N (i + 1)| ≤ 1 / (2 * N) → |G x - s i| ≤ e) :
    |(∫ x in (-1 / 2 : ℝ)..1 / 2, G x) - (∑ i ∈ Finset.range N, s i) / N| ≤ e := by
  have hN' : (0 : ℝ) < N := by exact_mod_cast hN
  have h1 := riemann hG (a := -1 / 2) (b := 1 / 2) (by norm_num) (n := N) (by omega) s (e := e) fun i hi x h1 h2 => by
    have hi' : (i : ℝ) + 1 ≤ N := by exact_mod_cast hi
    have e1 : (1 / 2 - -1 / 2 : ℝ) / N = 1 / N := by norm_num
    rw [e1] at h1 h2
    have e2 : 1 / (N : ℝ) * N = 1 := by field_simp
    have e3 : 0 < 1 / (N : ℝ) := by positivity
    refine h i hi x (abs_le.2 ⟨?_, ?_⟩) (abs_le.2 ?_)
    · have : 0 ≤ 1 / (N : ℝ) * i := by positivity
      linarith
    · have : 1 / (N : ℝ) * (i + 1) ≤ 1 / N * N := mul_le_mul_of_nonneg_left hi' e3.le
      linarith
    · have e4 : mpCoord ℝ N (i + 1) = -1 / 2 + 1 / N * i + 1 / (2 * N) := by
        unfold mpCoord
        push_cast
        field_simp
        ring
      have e5 : 1 / (N : ℝ) = 1 / (2 * N) + 1 / (2 * N) := by field_simp; norm_num
      rw [e4]
      constructor
      · linarith
      · nlinarith
  have e1 : (1 / 2 - -1 / 2 : ℝ) = 1 := by norm_num
  rw [e1, mul_one, one_div_mul_eq_div] at h1
  exact h1

theorem continuous_inner {f : V3 ℝ → ℝ} (hf : ContinuousQ f) (x : ℝ) :
    Continuous fun y => ∫ z in (-1 / 2 : ℝ)..1 / 2, f ⟨x, y, z⟩ :=
  intervalIntegral.continuous_parametric_intervalIntegral_of_continuous'
    (f := fun y z => f ⟨x, y, z⟩) (hf.comp (by fun_prop : Continuous fun p : ℝ × ℝ => (x, p.1, p.2))) _ _

theorem continuous_outer {f : V3 ℝ → ℝ} (hf : ContinuousQ f) :
    Continuous fun x => ∫ y in (-1 / 2 : ℝ)..1 / 2, ∫ z in (-1 / 2 : ℝ)..1 / 2, f ⟨x, y, z⟩ := by
  refine intervalIntegral.continuous_parametric_intervalIntegral_of_continuous'
    (f := fun x y => ∫ z in (-1 / 2 : ℝ)..1 / 2, f ⟨x, y, z⟩) ?_ _ _
  exact intervalIntegral.continuous_parametric_intervalIntegral_of_continuous'
    (f := fun (p : ℝ × ℝ) z => f ⟨p.1, p.2, z⟩)
    (hf.comp (by fun_prop : Continuous fun p : (ℝ × ℝ) × ℝ => (p.1.1, p.1.2, p.2))) _ _

/-! ## Sums over the grid -/

theorem sum_grid {M β : Type} [AddCommMonoid M] (a b c : List β) (f : V3 β → M) :
    ((grid a b c).map f).sum = (a.map fun x => (b.map fun y => (c.map fun z => f ⟨x, y, z⟩).sum).sum).sum := by
  have key : ∀ {α γ : Type} (l : List α) (g : α → List γ) (F : γ → M), ((l.flatMap g).map F).sum = (l.map fun x => ((g x).map F).sum).sum := by
    intro α γ l g F
    induction l with
    | nil => rfl
    | cons x l ih => simp [ih]
  rw [grid, key]
  congr 1
  refine List.map_congr_left fun x _ => ?_
  rw [key]
  congr 1
  refine List.map_congr_left fun y _ => ?_
  rw [List.map_map]
  rfl

theorem sum_mpAxis {M : Type} [AddCommMonoid M] (N : Nat) (f : ℝ → M) :
    ((mpAxis ℝ N).map f).sum = ∑ i ∈ Finset.range N, f (mpCoord ℝ N (i + 1)) := by
  rw [mpAxis, List.map_map]
  have : ∀ (n : Nat) (g : Nat → M), ((List.range n).map g).sum = ∑ i ∈ Finset.range n, g i := by
    intro n g
    induction n with
    | zero => simp
    | succ n ih => rw [List.range_succ, List.map_append, List.sum_append, ih, Finset.sum_range_succ]; simp
  rw [this]
  refine Finset.sum_congr rfl fun i _ => ?_
  simp only [Function.comp, mpCoord]
  push_cast
  rfl

theorem mpGrid_eq (l m n : Nat) : mpGrid ℝ l m n = .ok (grid (mpAxis ℝ l) (mpAxis ℝ m) (mpAxis ℝ n)) := by
  have hlen : ∀ N, (mpAxis ℝ N).length = N := fun N => by simp [mpAxis]
  have := columnStack_grid (mpAxis ℝ l) (mpAxis ℝ m) (mpAxis ℝ n)
  rw [hlen, hlen, hlen] at this
  exact this

theorem sum_mpGrid {M : Type} [AddCommMonoid M] {l m n : Nat} {g : List (V3 ℝ)} (hg : mpGrid ℝ l m n = .ok g) (f : V3 ℝ → M) :
    (g.map f).sum = ∑ i ∈ Finset.range l, ∑ j ∈ Finset.range m, ∑ k ∈ Finset.range n,
      f ⟨mpCoord ℝ l (i + 1), mpCoord ℝ m (j + 1), mpCoord ℝ n (k + 1)⟩ := by
  rw [mpGrid_eq] at hg
  rw [← Except.ok.inj hg, sum_grid, sum_mpAxis]
  refine Finset.sum_congr rfl fun i _ => ?_
  rw [sum_mpAxis]
  refine Finset.sum_congr rfl fun j _ => ?_
  rw [sum_mpAxis]

theorem length_mpGrid {l m n : Nat} {g : List (V3 ℝ)} (hg : mpGrid ℝ l m n = .ok g) : g.length = l * m * n := by
  obtain ⟨g', h1, h2, -⟩ := C31_grid_complete (K := ℝ) l m n
  rw [hg] at h1
  rw [Except.ok.inj h1, h2]

/-! ## Grids approach the zone -/

/-- If the values of `f` around each point of the grid, within half a cell, are those at the point up to an error, so is the
average. -/
theorem grid_average {f : V3 ℝ → ℝ} (hf : ContinuousQ f) {l m n : Nat} (hl : 0 < l) (hm : 0 < m) (hn : 0 < n) {g : List (V3 ℝ)}
    (hg : mpGrid ℝ l m n = .ok g) {e : ℝ}
    (h : ∀ p ∈ g, ∀ q : V3 ℝ, |q.x| ≤ 1 / 2 → |q.y| ≤ 1 / 2 → |q.z| ≤ 1 / 2 →
      |q.x - p.x| ≤ 1 / (2 * l) → |q.y - p.y| ≤ 1 / (2 * m) → |q.z - p.z| ≤ 1 / (2 * n) → |f q - f p| ≤ e) :
    |zoneAverage f - meanOver g f| ≤ e := by
  have hmem : ∀ i < l, ∀ j < m, ∀ k < n,
      (⟨mpCoord ℝ l (i + 1), mpCoord ℝ m (j + 1), mpCoord ℝ n (k + 1)⟩ : V3 ℝ) ∈ g := by
    intro i hi j hj k hk
    obtain ⟨g', h1, -, -, h2⟩ := C31_grid_complete (K := ℝ) l m n
    rw [hg] at h1
    rw [Except.ok.inj h1, h2]
    exact ⟨i + 1, j + 1, k + 1, by omega, by omega, by omega, by omega, by omega, by omega, rfl⟩
  have e1 : meanOver g f = (∑ i ∈ Finset.range l, (∑ j ∈ Finset.range m, (∑ k ∈ Finset.range n,
      f ⟨mpCoord ℝ l (i + 1), mpCoord ℝ m (j + 1), mpCoord ℝ n (k + 1)⟩) / n) / m) / l := by
    rw [meanOver, length_mpGrid hg, sum_mpGrid hg]
    simp only [← Finset.sum_div]
    push_cast
    rw [div_div, div_div]
    congr 1
    ring
  rw [e1]
  refine axis_mean (continuous_outer hf) hl _ fun i hi x hx hx' => ?_
  refine axis_mean (continuous_inner hf x) hm _ fun j hj y hy hy' => ?_
  refine axis_mean (G := fun z => f ⟨x, y, z⟩) (hf.comp (by fun_prop : Continuous fun z : ℝ => (x, y, z))) hn _
    fun k hk z hz hz' => ?_
  exact h _ (hmem i hi j hj k hk) ⟨x, y, z⟩ hx hy hz hx' hy' hz'

theorem LipQ.continuous {L : ℝ} {f : V3 ℝ → ℝ} (h : LipQ L f) : ContinuousQ f := by
  unfold ContinuousQ
  rw [continuous_iff_continuousAt]
  intro u
  have hlim : Filter.Tendsto (fun v : ℝ × ℝ × ℝ => L * (|v.1 - u.1| + |v.2.1 - u.2.1| + |v.2.2 - u.2.2|)) (nhds u) (nhds 0) := by
    have : Continuous fun v : ℝ × ℝ × ℝ => L * (|v.1 - u.1| + |v.2.1 - u.2.1| + |v.2.2 - u.2.2|) := by fun_prop
    simpa using this.tendsto u
  rw [ContinuousAt, tendsto_iff_dist_tendsto_zero]
  refine squeeze_zero (fun v => dist_nonneg) (fun v => ?_) hlim
  rw [Real.dist_eq]
  exact h _ _

theorem LipQ.nonneg {L : ℝ} {f : V3 ℝ → ℝ} (h : LipQ L f) : 0 ≤ L := by
  have h1 := h ⟨1, 0, 0⟩ ⟨0, 0, 0⟩
  simp only [sub_zero, abs_zero, add_zero, abs_one, mul_one] at h1
  exact (abs_nonneg _).trans h1

/-- **C155**: the mean over a Monkhorst-Pack grid differs from the average over the Brillouin zone by at most half the variation
over a cell of the grid. -/
theorem C155_error {L : ℝ} {f : V3 ℝ → ℝ} (hf : LipQ L f) {l m n : Nat} (hl : 0 < l) (hm : 0 < m) (hn : 0 < n)
    {g : List (V3 ℝ)} (hg : mpGrid ℝ l m n = .ok g) :
    |meanOver g f - zoneAverage f| ≤ L / 2 * (1 / l + 1 / m + 1 / n) := by
  rw [abs_sub_comm]
  refine grid_average hf.continuous hl hm hn hg fun p _ q _ _ _ hx hy hz => (hf q p).trans ?_
  have e1 : L / 2 * (1 / l + 1 / m + 1 / n) = L * (1 / (2 * l) + 1 / (2 * m) + 1 / (2 * n)) := by
    field_simp
  rw [e1]
  exact mul_le_mul_of_nonneg_left (by linarith) hf.nonneg

/-- **C155**: means over Monkhorst-Pack grids approach the average over the Brillouin zone, for all quantities that depend
continuously on the wavevector, however the three numbers of points grow. -/
theorem C155_converges {f : V3 ℝ → ℝ} (hf : ContinuousQ f) {ε : ℝ} (hε : 0 < ε) :
    ∃ n0 : Nat, ∀ l m n, n0 ≤ l → n0 ≤ m → n0 ≤ n → ∃ g, mpGrid ℝ l m n = .ok g ∧ |meanOver g f - zoneAverage f| < ε := by
  let I : Set ℝ := Set.Icc (-1 / 2) (1 / 2)
  have hc : IsCompact (I ×ˢ (I ×ˢ I)) := isCompact_Icc.prod (isCompact_Icc.prod isCompact_Icc)
  have hu := hc.uniformContinuousOn_of_continuous hf.continuousOn
  rw [Metric.uniformContinuousOn_iff] at hu
  obtain ⟨δ, hδ, hu⟩ := hu (ε / 2) (by positivity)
  obtain ⟨n0, h0⟩ := exists_nat_gt (1 / δ)
  have h0' : (0 : ℝ) < n0 := lt_trans (by positivity) h0
  have hn0 : 0 < n0 := by exact_mod_cast h0'
  refine ⟨n0, fun l m n hl hm hn => ⟨_, mpGrid_eq l m n, ?_⟩⟩
  have hle := grid_average hf (lt_of_lt_of_le hn0 hl) (lt_of_lt_of_le hn0 hm) (lt_of_lt_of_le hn0 hn) (mpGrid_eq l m n) (e := ε / 2)
    fun p hp q hx hy hz hx' hy' hz' => ?_
  · rw [abs_sub_comm]
    linarith
  obtain ⟨p1, p2, p3⟩ := C31_in_zone l m n _ (mpGrid_eq l m n) p hp
  have hin : ∀ x : ℝ, |x| ≤ 1 / 2 → x ∈ I := fun x h => ⟨by linarith [(abs_le.1 h).1], (abs_le.1 h).2⟩
  have hsm : ∀ (N : Nat) (x y : ℝ), n0 ≤ N → |x - y| ≤ 1 / (2 * N) → dist x y < δ := by
    intro N x y hN h
    rw [Real.dist_eq]
    have hN' : (n0 : ℝ) ≤ N := by exact_mod_cast hN
    have hNp : (0 : ℝ) < N := lt_of_lt_of_le h0' hN'
    refine lt_of_le_of_lt h ?_
    rw [div_lt_iff₀ (by positivity)]
    rw [div_lt_iff₀ hδ] at h0
    nlinarith
  have := hu (q.x, q.y, q.z) ⟨hin _ hx, hin _ hy, hin _ hz⟩ (p.x, p.y, p.z) ⟨hin _ p1.le, hin _ p2.le, hin _ p3.le⟩ (by
    simp only [Prod.dist_eq, max_lt_iff]
    exact ⟨hsm l _ _ hl hx', hsm m _ _ hm hy', hsm n _ _ hn hz'⟩)
  rw [Real.dist_eq] at this
  exact this.le

/-! ## Functions that are averaged exactly -/

/-- The sum of a wave over one axis of a grid. -/
theorem axis_wave {N : Nat} (hN : 0 < N) (R : ℤ) :
    ∑ i ∈ Finset.range N, Complex.exp (2 * Real.pi * ((mpCoord ℝ N (i + 1) * R : ℝ) : ℂ) * Complex.I) =
      if (N : ℤ) ∣ R then ((-1 : ℂ) ^ (R / N * (N - 1))) * N else 0 := by
  have hN' : (N : ℂ) ≠ 0 := by exact_mod_cast hN.ne'
  set ζ := Complex.exp (2 * Real.pi * Complex.I * (R / N)) with hζ
  have hterm : ∀ i : Nat, Complex.exp (2 * Real.pi * ((mpCoord ℝ N (i + 1) * R : ℝ) : ℂ) * Complex.I) =
      Complex.exp (-(R / N * (N - 1)) * (Real.pi * Complex.I)) * ζ ^ i := by
    intro i
    rw [hζ, ← Complex.exp_nat_mul, ← Complex.exp_add]
    congr 1
    unfold mpCoord
    push_cast
    field_simp
    ring
  rw [Finset.sum_congr rfl fun i _ => hterm i, ← Finset.mul_sum]
  have hpow : ζ ^ N = 1 := by
    rw [hζ, ← Complex.exp_nat_mul, Complex.exp_eq_one_iff]
    exact ⟨R, by field_simp⟩
  by_cases hd : (N : ℤ) ∣ R
  · rw [if_pos hd]
    obtain ⟨k, rfl⟩ := hd
    have hk : ((N * k : ℤ) : ℤ) / N = k := Int.mul_ediv_cancel_left _ (by exact_mod_cast hN.ne')
    have h1 : ζ = 1 := by
      rw [hζ, Complex.exp_eq_one_iff]
      exact ⟨k, by push_cast; field_simp⟩
    rw [h1]
    simp only [one_pow, Finset.sum_const, Finset.card_range, nsmul_eq_mul, mul_one]
    rw [hk]
    congr 1
    have e1 : (-(((N * k : ℤ) : ℂ) / N * (N - 1)) * (Real.pi * Complex.I)) =
        ((-(k * (N - 1)) : ℤ) : ℂ) * (Real.pi * Complex.I) := by
      push_cast
      field_simp
    rw [e1, Complex.exp_int_mul, Complex.exp_pi_mul_I, zpow_neg]
    rcases Int.even_or_odd (k * ((N : ℤ) - 1)) with h | h
    · rw [h.neg_one_zpow]; simp
    · rw [h.neg_one_zpow]; norm_num
  · rw [if_neg hd]
    have h1 : ζ ≠ 1 := by
      intro h
      rw [hζ, Complex.exp_eq_one_iff] at h
      obtain ⟨k, hk⟩ := h
      apply hd
      refine ⟨k, ?_⟩
      have h2 : (R : ℂ) / N = k := by
        have := Complex.two_pi_I_ne_zero
        apply mul_left_cancel₀ this
        rw [hk]; ring
      rw [div_eq_iff hN'] at h2
      have h3 : (R : ℂ) = ((N * k : ℤ) : ℂ) := by rw [h2]; push_cast; ring
      exact_mod_cast h3
    have h2 := geom_sum_eq h1 N
    rw [h2, hpow]
    simp

/-- **C155**: waves whose lattice vector is not a multiple of the numbers of points are averaged exactly, to nothing; the others
cannot be told from a constant, up to a sign. -/
theorem C155_waves {l m n : Nat} (hl : 0 < l) (hm : 0 < m) (hn : 0 < n) {g : List (V3 ℝ)} (hg : mpGrid ℝ l m n = .ok g)
    (R : V3 ℤ) :
    (g.map fun q => expQR q R).sum =
      if (l : ℤ) ∣ R.x ∧ (m : ℤ) ∣ R.y ∧ (n : ℤ) ∣ R.z then
        (-1 : ℂ) ^ (R.x / l * (l - 1) + R.y / m * (m - 1) + R.z / n * (n - 1)) * g.length
      else 0 := by
  rw [sum_mpGrid hg, length_mpGrid hg]
  have hterm : ∀ i j k : Nat, expQR ⟨mpCoord ℝ l (i + 1), mpCoord ℝ m (j + 1), mpCoord ℝ n (k + 1)⟩ R =
      Complex.exp (2 * Real.pi * ((mpCoord ℝ l (i + 1) * R.x : ℝ) : ℂ) * Complex.I) *
      (Complex.exp (2 * Real.pi * ((mpCoord ℝ m (j + 1) * R.y : ℝ) : ℂ) * Complex.I) *
      Complex.exp (2 * Real.pi * ((mpCoord ℝ n (k + 1) * R.z : ℝ) : ℂ) * Complex.I)) := by
    intro i j k
    rw [expQR, ← Complex.exp_add, ← Complex.exp_add]
    congr 1
    push_cast
    ring
  simp only [hterm, ← Finset.mul_sum, ← Finset.sum_mul]
  rw [axis_wave hl, axis_wave hm, axis_wave hn]
  by_cases h1 : (l : ℤ) ∣ R.x <;> by_cases h2 : (m : ℤ) ∣ R.y <;> by_cases h3 : (n : ℤ) ∣ R.z <;>
    simp only [h1, h2, h3, and_self,
      and_true, and_false, if_true, if_false, mul_zero, zero_mul]
  rw [zpow_add₀ (by norm_num), zpow_add₀ (by norm_num)]
  push_cast
  ring

/-! ### Cases meeting the hypotheses -/

/-- A function of the wavevector with slope at most `2 pi`. -/
theorem lip_example : LipQ (2 * Real.pi) fun q => Real.cos (2 * Real.pi * q.x) + q.y := by
  intro u v
  have h1 : |Real.cos (2 * Real.pi * u.x) - Real.cos (2 * Real.pi * v.x)| ≤ |2 * Real.pi * u.x - 2 * Real.pi * v.x| :=
    Real.abs_cos_sub_cos_le _ _
  have h2 : 2 * Real.pi * u.x - 2 * Real.pi * v.x = 2 * Real.pi * (u.x - v.x) := by ring
  have h3 := Real.pi_gt_three
  rw [h2, abs_mul, abs_of_pos (by positivity : 0 < 2 * Real.pi)] at h1
  have h4 : Real.cos (2 * Real.pi * u.x) + u.y - (Real.cos (2 * Real.pi * v.x) + v.y) =
      Real.cos (2 * Real.pi * u.x) - Real.cos (2 * Real.pi * v.x) + (u.y - v.y) := by ring
  simp only [h4]
  refine (abs_add_le _ _).trans ?_
  nlinarith [abs_nonneg (u.y - v.y), abs_nonneg (u.z - v.z)]

/-- On the grid 20x10x10 its mean is wrong by less than 0.8. -/
example : ∃ g, mpGrid ℝ 20 10 10 = .ok g ∧
    |meanOver g (fun q => Real.cos (2 * Real.pi * q.x) + q.y) - zoneAverage fun q => Real.cos (2 * Real.pi * q.x) + q.y| < 4 / 5 := by
  refine ⟨_, mpGrid_eq 20 10 10, lt_of_le_of_lt (C155_error lip_example (by norm_num) (by norm_num) (by norm_num) (mpGrid_eq _ _ _)) ?_⟩
  have := Real.pi_lt_d2
  norm_num
  linarith

/-- On the grid 2x3x1 the wave of the lattice vector (1, 0, 0) adds up to nothing, that of (2, 0, 0) is minus one everywhere. -/
example : ∃ g, mpGrid ℝ 2 3 1 = .ok g ∧ (g.map fun q => expQR q ⟨1, 0, 0⟩).sum = 0 ∧ (g.map fun q => expQR q ⟨2, 0, 0⟩).sum = -6 := by
  refine ⟨_, mpGrid_eq 2 3 1, ?_, ?_⟩
  · rw [C155_waves (by norm_num) (by norm_num) (by norm_num) (mpGrid_eq 2 3 1), if_neg (by decide)]
  · rw [C155_waves (by norm_num) (by norm_num) (by norm_num) (mpGrid_eq 2 3 1), if_pos (by decide), length_mpGrid (mpGrid_eq 2 3 1)]
    norm_num

end Euphonic.Lattice
