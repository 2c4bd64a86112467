import Mathlib.Algebra.Order.Floor.Ring
import Mathlib.Analysis.SpecialFunctions.Trigonometric.Bounds
import Mathlib.Analysis.Real.Pi.Bounds
import Mathlib.Analysis.Convex.SpecificFunctions.Deriv
import Mathlib.Data.List.Range
import Mathlib.Tactic.NormNum
import Mathlib.Tactic.Linarith
import Mathlib.Tactic.FieldSimp
import Mathlib.Tactic.IntervalCases
import Verif.Lemmas.ListIdx
import Verif.Lemmas.Split
import Verif.Model.Sampling

/-!
# C66, C74: samplings of the sphere
-/

set_option autoImplicit false

namespace Euphonic.Sampling

open Euphonic.Lattice

/-- A vector of length one. -/
def IsUnitVec (v : V3 ℝ) : Prop := v.x ^ 2 + v.y ^ 2 + v.z ^ 2 = 1

/-- A point of the unit square. -/
def InSquare (p : ℝ × ℝ) : Prop := (0 ≤ p.1 ∧ p.1 < 1) ∧ 0 ≤ p.2 ∧ p.2 < 1

/-- Numbers as drawn by `np.random.random`. -/
def Random (r : Nat → ℝ × ℝ) : Prop := ∀ i, InSquare (r i)

def RandomJitter (j : Jitter) : Prop := ∀ r, j = some r → Random r

theorem toCartesian_unit (a b : ℝ) : IsUnitVec (toCartesian a b) := by
  unfold IsUnitVec toCartesian
  simp only
  have h1 := Real.sin_sq_add_cos_sq a
  have h2 := Real.sin_sq_add_cos_sq b
  linear_combination (Real.sin b ^ 2) * h1 + h2

theorem out_unit (a : ℝ × ℝ) : IsUnitVec (out true a) := toCartesian_unit _ _

/-! ## Squares -/

theorem fract_unit (x : ℝ) : 0 ≤ Int.fract x ∧ Int.fract x < 1 := ⟨Int.fract_nonneg x, Int.fract_lt_one x⟩

/-- **C66**: the golden ratio points are as many as asked for, in the unit square, with or without jitter. -/
theorem C66_golden_square (npts : Nat) (offset : Bool) (jitter : Jitter) (h : 0 < npts) :
    ∃ l, goldenSquare npts offset jitter = .ok l ∧ l.length = npts ∧ ∀ p ∈ l, InSquare p := by
  unfold goldenSquare
  rw [if_neg (by omega)]
  refine ⟨_, rfl, by simp, ?_⟩
  intro p hp
  obtain ⟨i, -, rfl⟩ := List.mem_map.1 hp
  exact ⟨fract_unit _, fract_unit _⟩

theorem grid_in (n i : Nat) (hi : i < n) (t : ℝ) (h0 : 0 ≤ t) (h1 : t < 1) :
    0 ≤ ((i : ℝ) + t) * (1 / n) ∧ ((i : ℝ) + t) * (1 / n) < 1 := by
  have hn : (0 : ℝ) < n := by exact_mod_cast (by omega : 0 < n)
  have hi' : (i : ℝ) + 1 ≤ n := by exact_mod_cast hi
  constructor
  · positivity
  · rw [mul_one_div, div_lt_one hn]
    linarith

/-- **C66**: the regular grid has rows times columns points in the unit square, if points are offset (as they
are for the sphere) or not displaced. -/
theorem C66_regular_square (nRows nCols : Nat) (offset : Bool) (jitter : Jitter) (hr : 0 < nRows)
    (hc : 0 < nCols) (hj : RandomJitter jitter) (ho : offset = true ∨ jitter = none) :
    ∃ l, regularSquare nRows nCols offset jitter = .ok l ∧ l.length = nRows * nCols ∧
      ∀ p ∈ l, InSquare p := by
  unfold regularSquare
  rw [if_neg (by omega)]
  refine ⟨_, rfl, ?_, ?_⟩
  · rw [length_flatMap_const _ _ nRows (fun _ _ => by simp), List.length_range, Nat.mul_comm]
  · intro p hp
    obtain ⟨i, hi, hp⟩ := List.mem_flatMap.1 hp
    obtain ⟨j, hj', rfl⟩ := List.mem_map.1 hp
    rw [List.mem_range] at hi hj'
    have key : ∀ (n k : Nat), k < n → ∀ (d : ℝ) (hd : d = 0 ∨ (offset = true ∧ ∃ r : ℝ, 0 ≤ r ∧ r < 1 ∧
        d = (r - 1 / 2) * (1 / n))),
        0 ≤ (k : ℝ) * (1 / n) + (if offset = true then (1 / (n : ℝ)) / 2 else 0) + d ∧
        (k : ℝ) * (1 / n) + (if offset = true then (1 / (n : ℝ)) / 2 else 0) + d < 1 := by
      intro n k hk d hd
      rcases hd with rfl | ⟨ho', r, h0, h1, rfl⟩
      · cases offset with
        | true =>
          have := grid_in n k hk (1/2) (by norm_num) (by norm_num)
          rw [if_pos rfl]
          rwa [show (k : ℝ) * (1 / n) + 1 / (n : ℝ) / 2 + 0 = ((k : ℝ) + 1/2) * (1 / n) by ring]
        | false =>
          have := grid_in n k hk 0 (by norm_num) (by norm_num)
          rw [if_neg (by simp)]
          rwa [show (k : ℝ) * (1 / n) + 0 + 0 = ((k : ℝ) + 0) * (1 / n) by ring]
      · have := grid_in n k hk r h0 h1
        rw [if_pos ho']
        rwa [show (k : ℝ) * (1 / n) + 1 / (n : ℝ) / 2 + (r - 1 / 2) * (1 / n) = ((k : ℝ) + r) * (1 / n) by ring]
    cases jitter with
    | none => exact ⟨key nCols i hi _ (Or.inl rfl), key nRows j hj' _ (Or.inl rfl)⟩
    | some r =>
      have ho' : offset = true := by rcases ho with h | h; exact h; cases h
      have hr' := hj r rfl (i * nRows + j)
      exact ⟨key nCols i hi _ (Or.inr ⟨ho', _, hr'.1.1, hr'.1.2, rfl⟩),
        key nRows j hj' _ (Or.inr ⟨ho', _, hr'.2.1, hr'.2.2, rfl⟩)⟩

/-- Displaced points that are not offset can leave the square. -/
theorem C66_regular_square_outside : ∃ (jitter : Jitter) (l : List (ℝ × ℝ)), RandomJitter jitter ∧
    regularSquare 1 1 false jitter = .ok l ∧ ∃ p ∈ l, ¬ InSquare p := by
  refine ⟨some fun _ => (0, 0), [(-1/2, -1/2)], ?_, ?_, (-1/2, -1/2), by simp, ?_⟩
  · rintro r hr i
    rw [Option.some.injEq] at hr
    subst hr
    exact ⟨⟨le_refl _, one_pos⟩, le_refl _, one_pos⟩
  · unfold regularSquare
    norm_num [displacement]
  · rintro ⟨⟨h, -⟩, -⟩
    norm_num at h

/-- **C66**: the recurrence sequence has as many points as asked for, each with `order` numbers in `[0, 1)`. -/
theorem C66_recurrence (npts order : Nat) (phi : ℝ) :
    (recurrenceSequence npts order phi).length = npts ∧
    ∀ p ∈ recurrenceSequence npts order phi, p.length = order ∧ ∀ x ∈ p, 0 ≤ x ∧ x < 1 := by
  refine ⟨by simp [recurrenceSequence], fun p hp => ?_⟩
  obtain ⟨i, -, rfl⟩ := List.mem_map.1 hp
  refine ⟨by simp, fun x hx => ?_⟩
  obtain ⟨d, -, rfl⟩ := List.mem_map.1 hx
  exact fract_unit _

/-! ## Spheres -/

/-- **C66**: the golden ratio points on the sphere. -/
theorem C66_golden_sphere (npts : Nat) (jitter : Jitter) (h : 0 < npts) :
    ∃ l, goldenSphere npts true jitter = .ok l ∧ l.length = npts ∧ ∀ v ∈ l, IsUnitVec v := by
  obtain ⟨l, h1, h2, -⟩ := C66_golden_square npts true jitter h
  refine ⟨l.map fun p => out true (squareToPolar p), ?_, by simp [h2], ?_⟩
  · unfold goldenSphere; rw [h1]; rfl
  · intro v hv
    obtain ⟨p, -, rfl⟩ := List.mem_map.1 hv
    exact out_unit _

/-- **C66**: without jitter they divide the polar axis evenly: the height of point `i` is `(2 i + 1) / npts - 1`.
In particular all points are different. -/
theorem C66_golden_heights (npts : Nat) (h : 0 < npts) (l : List (V3 ℝ))
    (hl : goldenSphere npts true none = .ok l) (i : Nat) (hi : i < npts) :
    ∃ v, l[i]? = some v ∧ v.z = (2 * i + 1) / npts - 1 := by
  have hn : (0 : ℝ) < npts := by exact_mod_cast h
  have hi' : (i : ℝ) + 1 ≤ npts := by exact_mod_cast hi
  unfold goldenSphere goldenSquare at hl
  rw [if_neg (by omega)] at hl
  simp only [bind, Except.bind, pure, Except.pure, Except.ok.injEq] at hl
  subst hl
  simp only [List.map_map, List.getElem?_map, List.getElem?_range hi, Option.map_some, Option.some.injEq,
    exists_eq_left', Function.comp, displacement, if_true]
  have hx : (i : ℝ) / npts + 0 + 1 / (2 * npts) = (2 * i + 1) / (2 * npts) := by field_simp; ring
  have h0 : (0 : ℝ) ≤ (2 * i + 1) / (2 * npts) := by positivity
  have h1 : (2 * (i : ℝ) + 1) / (2 * npts) < 1 := by
    rw [div_lt_one (by positivity)]; linarith
  rw [hx, Int.fract_eq_self.2 ⟨h0, h1⟩]
  simp only [out, if_true, toCartesian, squareToPolar]
  rw [Real.cos_arccos (by linarith) (by linarith)]
  field_simp

/-- Without points to distribute the generator divides by zero. -/
theorem C66_golden_zero (cartesian : Bool) (jitter : Jitter) :
    goldenSphere 0 cartesian jitter = .error .zeroDivisionError := by
  unfold goldenSphere goldenSquare
  rw [if_pos ⟨rfl, rfl⟩]
  rfl

/-- **C66**: the projected grid. -/
theorem C66_square_grid (nRows nCols : Nat) (jitter : Jitter) (hr : 0 < nRows) (hc : 0 < nCols)
    (hj : RandomJitter jitter) :
    ∃ l, sphereFromSquareGrid nRows nCols true jitter = .ok l ∧ l.length = nRows * nCols ∧
      ∀ v ∈ l, IsUnitVec v := by
  obtain ⟨l, h1, h2, -⟩ := C66_regular_square nRows nCols true jitter hr hc hj (Or.inl rfl)
  refine ⟨l.map fun p => out true (squareToPolar p), ?_, by simp [h2], ?_⟩
  · unfold sphereFromSquareGrid; rw [h1]; rfl
  · intro v hv
    obtain ⟨p, -, rfl⟩ := List.mem_map.1 hv
    exact out_unit _

theorem length_linspaceOpen (a b : ℝ) (n : Nat) : (linspaceOpen a b n).length = n := by simp [linspaceOpen]

theorem length_thetaSequence (n : Nat) : (thetaSequence n).length = n := by
  simp [thetaSequence, length_linspaceOpen]

theorem spacing_ok (s : List ℝ) (h : 2 ≤ s.length) : ∃ d, spacing s = .ok d := by
  match s, h with
  | a :: b :: _, _ => exact ⟨_, rfl⟩

theorem spacing_error (s : List ℝ) (h : s.length < 2) : spacing s = .error .indexError := by
  match s, h with
  | [], _ => rfl
  | [_], _ => rfl

/-- **C66** (part): the polar grid with at least two rings and two points in each.  Missing: one ring or one
point in a ring, see `C66_polar_grid_narrow`. -/
theorem C66_polar_grid_partial (nPhi nTheta : Nat) (jitter : Jitter) (hp : 2 ≤ nPhi) (ht : 2 ≤ nTheta) :
    ∃ l, sphericalPolarGrid nPhi nTheta true jitter = .ok l ∧ l.length = nPhi * nTheta ∧
      ∀ v ∈ l, IsUnitVec v := by
  obtain ⟨d1, h1⟩ := spacing_ok (linspaceOpen (-Real.pi) Real.pi nPhi) (by rwa [length_linspaceOpen])
  obtain ⟨d2, h2⟩ := spacing_ok (thetaSequence nTheta) (by rwa [length_thetaSequence])
  unfold sphericalPolarGrid
  simp only [h1, h2, bind, Except.bind, pure, Except.pure]
  rw [if_neg (by omega)]
  refine ⟨_, rfl, ?_, ?_⟩
  · rw [length_flatMap_const _ _ nTheta (fun _ _ => by simp [length_thetaSequence]), List.length_zipIdx,
      length_linspaceOpen]
  · intro v hv
    obtain ⟨p, -, hv⟩ := List.mem_flatMap.1 hv
    obtain ⟨t, -, rfl⟩ := List.mem_map.1 hv
    exact out_unit _

/-- With one ring, or one point in each, the polar grid raises `IndexError`. -/
theorem C66_polar_grid_narrow (nPhi nTheta : Nat) (cartesian : Bool) (jitter : Jitter) (hp : 0 < nPhi)
    (ht : 0 < nTheta) (h : nPhi = 1 ∨ nTheta = 1) :
    sphericalPolarGrid nPhi nTheta cartesian jitter = .error .indexError := by
  unfold sphericalPolarGrid
  dsimp only
  by_cases h1 : nPhi = 1
  · rw [spacing_error (linspaceOpen (-Real.pi) Real.pi nPhi) (by rw [length_linspaceOpen]; omega)]
    rfl
  · obtain ⟨d1, h1'⟩ := spacing_ok (linspaceOpen (-Real.pi) Real.pi nPhi) (by rw [length_linspaceOpen]; omega)
    rw [h1', spacing_error (thetaSequence nTheta) (by rw [length_thetaSequence]; omega)]
    simp only [bind, Except.bind, pure, Except.pure]
    rw [if_neg (by omega)]

/-- **C66**: random points. -/
theorem C66_random (npts : Nat) (rnd : Nat → ℝ × ℝ) :
    (randomSphere npts true rnd).length = npts ∧ ∀ v ∈ randomSphere npts true rnd, IsUnitVec v := by
  refine ⟨by simp [randomSphere], fun v hv => ?_⟩
  obtain ⟨i, -, rfl⟩ := List.mem_map.1 hv
  exact out_unit _

/-! ## Rings -/

theorem theta_getD (n k : Nat) (hk : k < n) :
    (thetaSequence n).getD k 0 = ((k : ℝ) + 1 / 2) * (Real.pi / n) := by
  have hn : (n : ℝ) ≠ 0 := by exact_mod_cast (by omega : n ≠ 0)
  simp only [thetaSequence, linspaceOpen, List.map_map, List.getD_eq_getElem?_getD, List.getElem?_map,
    List.getElem?_range hk, Option.map_some, Option.getD_some, Function.comp]
  field_simp
  ring

theorem theta_mem (n k : Nat) (hk : k < n) :
    Real.pi / (2 * n) ≤ ((k : ℝ) + 1 / 2) * (Real.pi / n) ∧
    ((k : ℝ) + 1 / 2) * (Real.pi / n) ≤ Real.pi - Real.pi / (2 * n) := by
  have hn : (0 : ℝ) < n := by exact_mod_cast (by omega : 0 < n)
  have hk' : (k : ℝ) + 1 ≤ n := by exact_mod_cast hk
  have hp := Real.pi_pos
  constructor
  · rw [show Real.pi / (2 * (n : ℝ)) = (1 / 2) * (Real.pi / n) by field_simp]
    exact mul_le_mul_of_nonneg_right (by linarith [Nat.cast_nonneg (α := ℝ) k]) (by positivity)
  · rw [show Real.pi - Real.pi / (2 * (n : ℝ)) = (n - 1 / 2) * (Real.pi / n) by field_simp]
    exact mul_le_mul_of_nonneg_right (by linarith) (by positivity)

/-- The smallest ring is at the pole. -/
theorem sin_theta_ge (n k : Nat) (hk : k < n) (hn : 1 ≤ n) :
    Real.sin (Real.pi / (2 * n)) ≤ Real.sin (((k : ℝ) + 1 / 2) * (Real.pi / n)) := by
  obtain ⟨h1, h2⟩ := theta_mem n k hk
  have hn' : (1 : ℝ) ≤ n := by exact_mod_cast hn
  have hp := Real.pi_pos
  have ha : Real.pi / (2 * n) ≤ Real.pi / 2 := by
    apply div_le_div_of_nonneg_left hp.le (by norm_num) (by linarith)
  have ha0 : 0 < Real.pi / (2 * n) := by positivity
  rcases le_total (((k : ℝ) + 1 / 2) * (Real.pi / n)) (Real.pi / 2) with h | h
  · exact Real.sin_le_sin_of_le_of_le_pi_div_two (by linarith) h h1
  · rw [← Real.sin_pi_sub (((k : ℝ) + 1 / 2) * (Real.pi / n))]
    exact Real.sin_le_sin_of_le_of_le_pi_div_two (by linarith) (by linarith) (by linarith)

theorem sin_pole_pos (n : Nat) (hn : 1 ≤ n) : 0 < Real.sin (Real.pi / (2 * n)) := by
  have hn' : (1 : ℝ) ≤ n := by exact_mod_cast hn
  have hp := Real.pi_pos
  apply Real.sin_pos_of_pos_of_lt_pi (by positivity)
  rw [div_lt_iff₀ (by positivity)]
  nlinarith

theorem circumference_eq (n k : Nat) (hk : k < n) :
    circumference n k = 2 * Real.pi * Real.sin (((k : ℝ) + 1 / 2) * (Real.pi / n)) := by
  unfold circumference
  rw [theta_getD n k hk, abs_of_nonneg]
  have := sin_theta_ge n k hk (by omega)
  have := sin_pole_pos n (by omega)
  linarith

theorem circumference_nonneg (n k : Nat) : 0 ≤ circumference n k := by
  unfold circumference
  have := Real.pi_pos
  positivity

theorem ringEdge_succ (n k : Nat) : ringEdge n (k + 1) = ringEdge n k + circumference n k := by
  unfold ringEdge
  rw [List.range_succ, List.map_append, List.sum_append]
  simp

theorem ringEdge_zero (n : Nat) : ringEdge n 0 = 0 := by simp [ringEdge]

theorem ringEdge_mono (n j k : Nat) (h : j ≤ k) : ringEdge n j ≤ ringEdge n k := by
  induction h with
  | refl => exact le_refl _
  | step h ih => rw [ringEdge_succ]; linarith [circumference_nonneg n ‹_›]

/-- Sum of the circumferences. -/
theorem ringEdge_closed (n k : Nat) (hk : k ≤ n) (hn : 1 ≤ n) :
    ringEdge n k * Real.sin (Real.pi / (2 * n)) = Real.pi * (1 - Real.cos (k * (Real.pi / n))) := by
  have hn' : (n : ℝ) ≠ 0 := by exact_mod_cast (by omega : n ≠ 0)
  induction k with
  | zero => simp [ringEdge_zero]
  | succ k ih =>
    rw [ringEdge_succ, add_mul, ih (by omega), circumference_eq n k (by omega)]
    have e : Real.pi / (2 * n) = (Real.pi / n) / 2 := by field_simp
    have h1 : Real.cos (k * (Real.pi / n)) - Real.cos ((k + 1 : ℕ) * (Real.pi / n)) =
        2 * Real.sin (((k : ℝ) + 1 / 2) * (Real.pi / n)) * Real.sin (Real.pi / (2 * n)) := by
      rw [e]
      have h2 : (k : ℝ) * (Real.pi / n) = ((k : ℝ) + 1 / 2) * (Real.pi / n) - (Real.pi / n) / 2 := by ring
      have h3 : ((k + 1 : ℕ) : ℝ) * (Real.pi / n) = ((k : ℝ) + 1 / 2) * (Real.pi / n) + (Real.pi / n) / 2 := by
        push_cast; ring
      rw [h2, h3, Real.cos_add, Real.cos_sub]
      ring
    linear_combination -Real.pi * h1

theorem total_eq (n : Nat) (hn : 1 ≤ n) :
    ringEdge n n * Real.sin (Real.pi / (2 * n)) = 2 * Real.pi := by
  have hn' : (n : ℝ) ≠ 0 := by exact_mod_cast (by omega : n ≠ 0)
  rw [ringEdge_closed n n (le_refl _) hn, mul_div_cancel₀ _ hn', Real.cos_pi]
  ring

/-- `sin x >= (2 sqrt 2 / pi) x` up to `pi / 4`, squared. -/
theorem sin_sq_ge (n : Nat) (hn : 2 ≤ n) : 2 / (n : ℝ) ^ 2 ≤ Real.sin (Real.pi / (2 * n)) ^ 2 := by
  have hn' : (2 : ℝ) ≤ n := by exact_mod_cast hn
  have hp := Real.pi_pos
  have hc : ConcaveOn ℝ (Set.Icc 0 Real.pi) Real.sin := strictConcaveOn_sin_Icc.concaveOn
  have hm : (0 : ℝ) ∈ Set.Icc 0 Real.pi := ⟨le_refl _, hp.le⟩
  have hm' : Real.pi / 4 ∈ Set.Icc 0 Real.pi := ⟨by positivity, by linarith⟩
  have ha : (0 : ℝ) ≤ 1 - 2 / (n : ℝ) := by rw [sub_nonneg, div_le_one (by linarith)]; exact hn'
  have hb : (0 : ℝ) ≤ 2 / (n : ℝ) := by positivity
  have h := hc.2 hm hm' ha hb (by ring)
  simp only [smul_eq_mul, mul_zero, zero_add, Real.sin_zero, Real.sin_pi_div_four] at h
  have he : 2 / (n : ℝ) * (Real.pi / 4) = Real.pi / (2 * n) := by field_simp; ring
  rw [he] at h
  have h0 : 0 ≤ 2 / (n : ℝ) * (√2 / 2) := by positivity
  have h2 := pow_le_pow_left₀ h0 h 2
  have h3 : (2 / (n : ℝ) * (√2 / 2)) ^ 2 = 2 / (n : ℝ) ^ 2 := by
    rw [mul_pow, div_pow, div_pow, Real.sq_sqrt (by norm_num)]
    field_simp
  rwa [h3] at h2

/-- Facts about the number of rings. -/
theorem nTheta_facts (npts : Nat) (h : 6 ≤ npts) :
    2 ≤ nTheta npts ∧ (nTheta npts : ℝ) ^ 2 ≤ Real.pi / 4 * npts := by
  have hp := Real.pi_gt_three
  have hn : (6 : ℝ) ≤ npts := by exact_mod_cast h
  constructor
  · unfold nTheta
    apply Nat.le_floor
    apply Real.le_sqrt_of_sq_le
    push_cast
    nlinarith
  · have h1 : (nTheta npts : ℝ) ≤ Real.sqrt (Real.pi / 4 * npts) := Nat.floor_le (Real.sqrt_nonneg _)
    calc (nTheta npts : ℝ) ^ 2 ≤ Real.sqrt (Real.pi / 4 * npts) ^ 2 :=
          pow_le_pow_left₀ (Nat.cast_nonneg _) h1 2
      _ = _ := Real.sq_sqrt (by positivity)

/-- Every ring is at least two spacings of the points long. -/
theorem ring_long (npts k : Nat) (h : 6 ≤ npts) (hk : k < nTheta npts) :
    2 * (ringEdge (nTheta npts) (nTheta npts) / ((npts : ℝ) - 1)) ≤ circumference (nTheta npts) k := by
  obtain ⟨h2, hsq⟩ := nTheta_facts npts h
  have hp := Real.pi_pos
  have hn : (6 : ℝ) ≤ npts := by exact_mod_cast h
  rw [circumference_eq _ k hk]
  generalize nTheta npts = n at *
  have hn2 : (2 : ℝ) ≤ n := by exact_mod_cast h2
  have hs := sin_pole_pos n (by omega)
  have ht := total_eq n (by omega)
  have hge := sin_theta_ge n k hk (by omega)
  have hq := sin_sq_ge n h2
  have hpi4 : Real.pi < 3.1416 := Real.pi_lt_d4
  -- `sin^2 (npts - 1) >= 2`
  have hkey : 2 ≤ Real.sin (Real.pi / (2 * n)) ^ 2 * ((npts : ℝ) - 1) := by
    have h3 : 2 / (n : ℝ) ^ 2 * ((npts : ℝ) - 1) ≤ Real.sin (Real.pi / (2 * n)) ^ 2 * ((npts : ℝ) - 1) :=
      mul_le_mul_of_nonneg_right hq (by linarith)
    refine le_trans ?_ h3
    rw [div_mul_eq_mul_div, le_div_iff₀ (by positivity)]
    have h4 : (n : ℝ) ^ 2 ≤ 0.7854 * npts := by
      refine hsq.trans (mul_le_mul_of_nonneg_right (by linarith) (by linarith))
    have h5 : (4 : ℝ) ≤ (n : ℝ) ^ 2 := by nlinarith
    by_cases h6 : (npts : ℝ) ≤ 6
    · have : (npts : ℝ) = 6 := le_antisymm h6 hn
      rw [this] at h4 ⊢
      have h7 : (n : ℝ) ^ 2 < 5 := by linarith
      linarith
    · linarith
  generalize hx : Real.sin (Real.pi / (2 * n)) = s at *
  generalize Real.sin (((k : ℝ) + 1 / 2) * (Real.pi / n)) = t at *
  have hT : ringEdge n n = 2 * Real.pi / s := by rw [eq_div_iff hs.ne', ht]
  rw [hT]
  have hd : (0 : ℝ) < (npts : ℝ) - 1 := by linarith
  have : 2 * (2 * Real.pi / s / ((npts : ℝ) - 1)) ≤ 2 * Real.pi * s := by
    rw [div_div, ← mul_div_assoc, div_le_iff₀ (by positivity)]
    nlinarith
  exact this.trans (mul_le_mul_of_nonneg_left hge (by positivity))

/-- At least two of evenly spaced points fall in a bin two spacings long. -/
theorem two_points (N : Nat) (d a b : ℝ) (hd : 0 < d) (ha : 0 ≤ a) (hab : a + 2 * d ≤ b)
    (hb : b ≤ ((N : ℝ) - 1) * d) (P : ℝ → Bool) (hP : ∀ p, a ≤ p → p < b → P p = true) :
    2 ≤ ((List.range N).map fun i : Nat => (i : ℝ) * d).countP P := by
  have h1 := Nat.le_ceil (a / d)
  have h2 := Nat.ceil_lt_add_one (div_nonneg ha hd.le)
  rw [div_le_iff₀ hd] at h1
  have h2' : (⌈a / d⌉₊ : ℝ) * d < a + d := by
    have h3 : ((⌈a / d⌉₊ : ℝ) - 1) < a / d := by linarith
    rw [lt_div_iff₀ hd] at h3
    nlinarith
  have hlt : ⌈a / d⌉₊ + 1 < N := by
    have h4 : ((⌈a / d⌉₊ : ℝ) + 1) * d < ((N : ℝ) - 1) * d := by nlinarith
    have h5 := lt_of_mul_lt_mul_right h4 hd.le
    have h6 : ((⌈a / d⌉₊ + 1 + 1 : ℕ) : ℝ) < ((N + 1 : ℕ) : ℝ) := by push_cast; linarith
    have := Nat.cast_lt.1 h6
    omega
  rw [List.countP_map, List.countP_eq_length_filter]
  have hs : [⌈a / d⌉₊, ⌈a / d⌉₊ + 1] ⊆ (List.range N).filter (P ∘ fun i : Nat => (i : ℝ) * d) := by
    intro i hi
    simp only [List.mem_cons, List.not_mem_nil, or_false] at hi
    rw [List.mem_filter, List.mem_range]
    rcases hi with rfl | rfl
    · exact ⟨by omega, hP _ h1 (by linarith)⟩
    · refine ⟨hlt, hP _ ?_ ?_⟩ <;> push_cast <;> nlinarith
  have hnd : [⌈a / d⌉₊, ⌈a / d⌉₊ + 1].Nodup := by simp
  exact (hnd.subperm hs).length_le

theorem total_pos (npts : Nat) (h : 6 ≤ npts) : 0 < ringEdge (nTheta npts) (nTheta npts) := by
  obtain ⟨h2, -⟩ := nTheta_facts npts h
  have := total_eq (nTheta npts) (by omega)
  have hs := sin_pole_pos (nTheta npts) (by omega)
  have hp := Real.pi_pos
  by_contra hc
  push Not at hc
  nlinarith

/-- **C66**: every ring gets at least two points. -/
theorem two_le_ringCount (npts k : Nat) (h : 6 ≤ npts) (hk : k < nTheta npts) :
    2 ≤ ringCount (nTheta npts) npts k := by
  have hn : (6 : ℝ) ≤ npts := by exact_mod_cast h
  have hT := total_pos npts h
  have hd : 0 < ringEdge (nTheta npts) (nTheta npts) / ((npts : ℝ) - 1) := div_pos hT (by linarith)
  have hl := ring_long npts k h hk
  have hs := ringEdge_succ (nTheta npts) k
  unfold ringCount ringPoints
  refine two_points npts _ (ringEdge (nTheta npts) k) (ringEdge (nTheta npts) (k + 1)) hd ?_ ?_ ?_ _ ?_
  · rw [← ringEdge_zero (nTheta npts)]; exact ringEdge_mono _ _ _ (Nat.zero_le _)
  · rw [hs]; linarith
  · rw [mul_div_cancel₀ _ (by linarith : (npts : ℝ) - 1 ≠ 0)]
    exact ringEdge_mono _ _ _ (by omega)
  · intro p h1 h2
    rw [decide_eq_true_eq]
    refine ⟨h1, ?_⟩
    split
    · exact h2.le
    · exact h2

open Classical in
/-- Points below an edge. -/
noncomputable def below (n npts k : Nat) : Nat := (ringPoints n npts).countP fun p => decide (p < ringEdge n k)

theorem countP_split {α : Type} (l : List α) (p q : α → Bool) (h : ∀ x ∈ l, p x = true → q x = true) :
    l.countP q = l.countP p + l.countP (fun x => q x && !p x) := by
  induction l with
  | nil => rfl
  | cons a l ih =>
    have := ih fun x hx => h x (by simp [hx])
    have ha := h a (by simp)
    simp only [List.countP_cons]
    cases hp : p a <;> cases hq : q a <;> simp_all <;> omega

theorem ringCount_inner (n npts k : Nat) (hk : k + 1 ≠ n) :
    below n npts (k + 1) = below n npts k + ringCount n npts k := by
  unfold below ringCount
  rw [countP_split (ringPoints n npts) (fun p => decide (p < ringEdge n k))]
  · congr 1
    refine List.countP_congr fun p _ => ?_
    simp only [if_neg hk, Bool.and_eq_true, decide_eq_true_eq, Bool.not_eq_true', decide_eq_false_iff_not, not_lt]
    tauto
  · intro p _ hp
    rw [decide_eq_true_eq] at hp ⊢
    exact hp.trans_le (ringEdge_mono n k (k + 1) (Nat.le_succ k))

theorem ringCount_last (n npts : Nat) (hn : 0 < n) (h : ∀ p ∈ ringPoints n npts, p ≤ ringEdge n n) :
    npts = below n npts (n - 1) + ringCount n npts (n - 1) := by
  have hl : (ringPoints n npts).countP (fun _ => true) = npts := by simp [ringPoints]
  conv_lhs => rw [← hl]
  unfold below ringCount
  rw [countP_split (ringPoints n npts) (fun p => decide (p < ringEdge n (n - 1)))]
  · congr 1
    refine List.countP_congr fun p hp => ?_
    have := h p hp
    simp only [show n - 1 + 1 = n by omega, if_true, Bool.true_and, decide_eq_true_eq, Bool.not_eq_true',
      decide_eq_false_iff_not, not_lt]
    tauto
  · intros; rfl

theorem below_zero (n npts : Nat) (h : ∀ p ∈ ringPoints n npts, 0 ≤ p) : below n npts 0 = 0 := by
  unfold below
  rw [List.countP_eq_zero]
  intro p hp
  rw [decide_eq_true_eq, ringEdge_zero, not_lt]
  exact h p hp

theorem sum_ringCount (n npts m : Nat) (hm : m < n) (h : ∀ p ∈ ringPoints n npts, 0 ≤ p) :
    ((List.range m).map (ringCount n npts)).sum = below n npts m := by
  induction m with
  | zero => rw [below_zero n npts h]; rfl
  | succ m ih =>
    rw [List.range_succ, List.map_append, List.sum_append, ih (by omega), ringCount_inner n npts m (by omega)]
    simp

theorem sum_all (n npts : Nat) (hn : 0 < n) (h0 : ∀ p ∈ ringPoints n npts, 0 ≤ p)
    (h1 : ∀ p ∈ ringPoints n npts, p ≤ ringEdge n n) :
    ((List.range n).map (ringCount n npts)).sum = npts := by
  obtain ⟨m, rfl⟩ : ∃ m, n = m + 1 := ⟨n - 1, by omega⟩
  rw [List.range_succ, List.map_append, List.sum_append, sum_ringCount (m + 1) npts m (by omega) h0]
  have := ringCount_last (m + 1) npts (by omega) h1
  simp only [Nat.add_sub_cancel] at this
  simpa using this.symm

theorem ringPoints_bounds (npts : Nat) (h : 6 ≤ npts) (p : ℝ) (hp : p ∈ ringPoints (nTheta npts) npts) :
    0 ≤ p ∧ p ≤ ringEdge (nTheta npts) (nTheta npts) := by
  have hn : (6 : ℝ) ≤ npts := by exact_mod_cast h
  have hT := total_pos npts h
  have hd : 0 < ringEdge (nTheta npts) (nTheta npts) / ((npts : ℝ) - 1) := div_pos hT (by linarith)
  obtain ⟨i, hi, rfl⟩ := List.mem_map.1 hp
  rw [List.mem_range] at hi
  have hi' : (i : ℝ) + 1 ≤ npts := by exact_mod_cast hi
  refine ⟨by positivity, ?_⟩
  calc (i : ℝ) * (ringEdge (nTheta npts) (nTheta npts) / ((npts : ℝ) - 1))
      ≤ ((npts : ℝ) - 1) * (ringEdge (nTheta npts) (nTheta npts) / ((npts : ℝ) - 1)) :=
        mul_le_mul_of_nonneg_right (by linarith) hd.le
    _ = _ := mul_div_cancel₀ _ (by linarith)

theorem ring_ok (jitter : Nat → Jitter) (dtheta : ℝ) (n npts k : Nat) (h : 2 ≤ ringCount n npts k) :
    ∃ l, ring true jitter dtheta n npts k = .ok l ∧ l.length = ringCount n npts k ∧ ∀ v ∈ l, IsUnitVec v := by
  obtain ⟨d, hd⟩ := spacing_ok (linspaceOpen (-Real.pi) Real.pi (ringCount n npts k)) (by rwa [length_linspaceOpen])
  unfold ring
  simp only [hd, bind, Except.bind, pure, Except.pure]
  refine ⟨_, rfl, by simp [length_linspaceOpen], ?_⟩
  intro v hv
  obtain ⟨p, -, rfl⟩ := List.mem_map.1 hv
  exact out_unit _

theorem mapM_rings {α β : Type} (f : α → Except Err (List β)) (c : α → Nat) (P : β → Prop) (l : List α)
    (h : ∀ a ∈ l, ∃ r, f a = .ok r ∧ r.length = c a ∧ ∀ v ∈ r, P v) :
    ∃ rs, l.mapM f = .ok rs ∧ rs.flatten.length = (l.map c).sum ∧ ∀ v ∈ rs.flatten, P v := by
  induction l with
  | nil => exact ⟨[], rfl, rfl, by simp⟩
  | cons a l ih =>
    obtain ⟨rs, h1, h2, h3⟩ := ih fun b hb => h b (by simp [hb])
    obtain ⟨r, h4, h5, h6⟩ := h a (by simp)
    refine ⟨r :: rs, ?_, ?_, ?_⟩
    · rw [List.mapM_cons, h4, h1]; rfl
    · simp only [List.flatten_cons, List.length_append, List.map_cons, List.sum_cons, h2, h5]
    · intro v hv
      rw [List.flatten_cons, List.mem_append] at hv
      rcases hv with hv | hv
      · exact h6 v hv
      · exact h3 v hv

/-- **C66**: the improved polar sampling gives exactly the number of points asked for, from six points on, and
never fails: the counts of the rings always add up, and no ring is left with fewer than the two points that its
spacing is taken from. -/
theorem C66_improved (npts : Nat) (jitter : Nat → Jitter) (h : 6 ≤ npts) :
    ∃ l, sphericalPolarImproved npts true jitter = .ok l ∧ l.length = npts ∧ ∀ v ∈ l, IsUnitVec v := by
  obtain ⟨h2, -⟩ := nTheta_facts npts h
  obtain ⟨d, hd⟩ := spacing_ok (thetaSequence (nTheta npts)) (by rwa [length_thetaSequence])
  obtain ⟨rs, h3, h4, h5⟩ := mapM_rings (ring true jitter d (nTheta npts) npts)
    (ringCount (nTheta npts) npts) IsUnitVec (List.range (nTheta npts)) fun k hk =>
      ring_ok jitter d _ _ k (two_le_ringCount npts k h (List.mem_range.1 hk))
  refine ⟨rs.flatten, ?_, ?_, h5⟩
  · unfold sphericalPolarImproved
    rw [if_neg (by omega)]
    simp only [bind, Except.bind, pure, Except.pure, hd, h3]
  · rw [h4, sum_all (nTheta npts) npts (by omega) (fun p hp => (ringPoints_bounds npts h p hp).1)
      (fun p hp => (ringPoints_bounds npts h p hp).2)]

/-- **C66**: fewer than six points raise `ValueError`. -/
theorem C66_improved_few (npts : Nat) (cartesian : Bool) (jitter : Nat → Jitter) (h : npts < 6) :
    sphericalPolarImproved npts cartesian jitter = .error .valueError := by
  unfold sphericalPolarImproved
  rw [if_pos h]
  rfl

example : ∃ l, sphericalPolarImproved 100 true (fun _ => none) = .ok l ∧ l.length = 100 := by
  obtain ⟨l, h1, h2, -⟩ := C66_improved 100 (fun _ => none) (by norm_num)
  exact ⟨l, h1, h2⟩

/-! ## Choice of the sampling -/

/-- **C74**: the side of the grid is the least for which the grid has as many points as asked for. -/
theorem C74_grid_side (npts : Nat) :
    npts ≤ 2 * checkGridpts npts ^ 2 ∧ ∀ c, npts ≤ 2 * c ^ 2 → checkGridpts npts ≤ c := by
  unfold checkGridpts
  constructor
  · have h1 := Nat.le_ceil (Real.sqrt ((npts : ℝ) / 2))
    have h2 := pow_le_pow_left₀ (Real.sqrt_nonneg _) h1 2
    rw [Real.sq_sqrt (by positivity)] at h2
    have h3 : (npts : ℝ) ≤ ((2 * ⌈Real.sqrt ((npts : ℝ) / 2)⌉₊ ^ 2 : ℕ) : ℝ) := by push_cast; linarith
    exact_mod_cast h3
  · intro c hc
    apply Nat.ceil_le.2
    apply Real.sqrt_le_iff.2
    have h3 : (npts : ℝ) ≤ 2 * (c : ℝ) ^ 2 := by exact_mod_cast hc
    exact ⟨Nat.cast_nonneg _, by linarith⟩

/-- Number of points of each sampling. -/
noncomputable def pointCount (npts : Nat) : Method → Nat
  | .projectedGrid | .polarGrid => 2 * checkGridpts npts ^ 2
  | _ => npts

/-- **C66**, **C74**: whatever the sampling, the q-points have unit length and their number is the one asked
for, or for the grids the next number of the form `2 c^2`.  (Golden: at least one point; improved: six; polar
grid: three, see `C66_few_polar_grid`.) -/
theorem C74_qpts_sphere_partial (npts : Nat) (m : Method) (jitter : Jitter) (rj : Nat → Jitter)
    (rnd : Nat → ℝ × ℝ) (hj : RandomJitter jitter) (hm : m ≠ .unknown) (h0 : 0 < npts)
    (h6 : m = .improved → 6 ≤ npts) (h3 : m = .polarGrid → 3 ≤ npts) :
    ∃ l, qptsSphere npts m jitter rj rnd = .ok l ∧ l.length = pointCount npts m ∧ npts ≤ l.length ∧
      ∀ v ∈ l, IsUnitVec v := by
  have hc := (C74_grid_side npts).1
  cases m with
  | golden =>
    obtain ⟨l, h1, h2, h⟩ := C66_golden_sphere npts jitter h0
    exact ⟨l, h1, h2, h2.ge, h⟩
  | projectedGrid =>
    have hp : 0 < checkGridpts npts := by
      by_contra hz
      rw [show checkGridpts npts = 0 by omega] at hc
      simp at hc; omega
    obtain ⟨l, h1, h2, h⟩ := C66_square_grid (checkGridpts npts * 2) (checkGridpts npts) jitter (by omega) hp hj
    have h4 : l.length = 2 * checkGridpts npts ^ 2 := by rw [h2]; ring
    exact ⟨l, h1, h4, by omega, h⟩
  | polarGrid =>
    have hp : 2 ≤ checkGridpts npts := by
      by_contra hz
      have := h3 rfl
      have : checkGridpts npts ^ 2 ≤ 1 ^ 2 := Nat.pow_le_pow_left (by omega) 2
      omega
    obtain ⟨l, h1, h2, h⟩ := C66_polar_grid_partial (checkGridpts npts * 2) (checkGridpts npts) jitter (by omega) hp
    have h4 : l.length = 2 * checkGridpts npts ^ 2 := by rw [h2]; ring
    exact ⟨l, h1, h4, by omega, h⟩
  | improved =>
    obtain ⟨l, h1, h2, h⟩ := C66_improved npts rj (h6 rfl)
    exact ⟨l, h1, h2, h2.ge, h⟩
  | random =>
    obtain ⟨h2, h⟩ := C66_random npts rnd
    exact ⟨_, rfl, h2, h2.ge, h⟩
  | unknown => exact absurd rfl hm

/-- One or two points with the polar grid raise `IndexError`. -/
theorem C66_few_polar_grid (npts : Nat) (jitter : Jitter) (rj : Nat → Jitter) (rnd : Nat → ℝ × ℝ)
    (h : npts = 1 ∨ npts = 2) : qptsSphere npts .polarGrid jitter rj rnd = .error .indexError := by
  obtain ⟨h1, h2⟩ := C74_grid_side npts
  have h3 := h2 1 (by omega)
  have h4 : checkGridpts npts = 1 := by
    rcases Nat.lt_or_ge 0 (checkGridpts npts) with h5 | h5
    · omega
    · rw [show checkGridpts npts = 0 by omega] at h1
      simp at h1; omega
  unfold qptsSphere
  simp only [h4]
  exact C66_polar_grid_narrow _ _ _ _ (by omega) (by omega) (Or.inr rfl)

end Euphonic.Sampling
