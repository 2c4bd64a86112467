import Mathlib.Analysis.SpecialFunctions.Gaussian.PoissonSummation
import Mathlib.Analysis.Calculus.SmoothSeries
import Mathlib.Topology.Algebra.InfiniteSum.Real
import Mathlib.Analysis.Normed.Ring.InfiniteSum
import Mathlib.Analysis.SpecificLimits.Normed

/-!
# Sums of Gaussians over lattices in three dimensions

Poisson's formula for Gaussians in one dimension is in Mathlib; here it is extended to positive definite quadratic forms in three
variables, with a shift and a wave.
-/

set_option autoImplicit false

namespace Euphonic.Poisson

open Complex

/-- `e^(2 pi i x)`. -/
noncomputable def ph (x : ℝ) : ℂ := cexp (2 * Real.pi * x * I)

theorem ph_add (x y : ℝ) : ph (x + y) = ph x * ph y := by
  unfold ph
  rw [← Complex.exp_add]
  congr 1
  push_cast
  ring

theorem norm_ph (x : ℝ) : ‖ph x‖ = 1 := by
  unfold ph
  rw [show (2 * Real.pi * x * I : ℂ) = ((2 * Real.pi * x : ℝ) : ℂ) * I by push_cast; ring]
  exact Complex.norm_exp_ofReal_mul_I _

theorem norm_ph_mul (x y : ℝ) : ‖ph x * (Real.exp y : ℂ)‖ = Real.exp y := by
  rw [norm_mul, norm_ph, one_mul, Complex.norm_real, Real.norm_eq_abs, abs_of_pos (Real.exp_pos _)]

/-! ## Summability -/

theorem summable_exp_abs {c : ℝ} (hc : 0 < c) : Summable fun n : ℤ => Real.exp (-c * |(n : ℝ)|) := by
  have h : Summable fun n : ℕ => Real.exp (-c * n) := by
    have h1 := summable_geometric_of_lt_one (Real.exp_pos (-c)).le (by simpa using hc)
    refine h1.congr fun n => ?_
    rw [← Real.exp_nat_mul]
    congr 1
    ring
  refine Summable.of_nat_of_neg ?_ ?_
  · refine h.congr fun n => ?_
    simp
  · refine h.congr fun n => ?_
    simp

/-- Gaussians on a shifted lattice. -/
theorem summable1 {c : ℝ} (hc : 0 < c) (r : ℝ) : Summable fun n : ℤ => Real.exp (-c * ((n : ℝ) - r) ^ 2) := by
  refine Summable.of_nonneg_of_le (fun n => (Real.exp_pos _).le) (fun n => ?_)
    ((summable_exp_abs (half_pos hc)).mul_left (Real.exp (c * r ^ 2)))
  rw [← Real.exp_add, Real.exp_le_exp]
  have h1 : |(n : ℝ)| ≤ (n : ℝ) ^ 2 := by
    have : |n| ≤ n ^ 2 := by
      rw [← sq_abs]
      rcases eq_or_ne n 0 with rfl | h
      · simp
      · nlinarith [Int.one_le_abs h]
    exact_mod_cast this
  nlinarith [sq_nonneg ((n : ℝ) - 2 * r)]

theorem summable3 {c : ℝ} (hc : 0 < c) (r s t : ℝ) : Summable fun n : ℤ × ℤ × ℤ =>
    Real.exp (-c * (((n.1 : ℝ) - r) ^ 2 + ((n.2.1 : ℝ) - s) ^ 2 + ((n.2.2 : ℝ) - t) ^ 2)) := by
  have h2 := (summable1 hc s).mul_of_nonneg (summable1 hc t) (fun _ => (Real.exp_pos _).le) fun _ => (Real.exp_pos _).le
  have h3 := (summable1 hc r).mul_of_nonneg h2 (fun _ => (Real.exp_pos _).le)
    fun _ => mul_nonneg (Real.exp_pos _).le (Real.exp_pos _).le
  refine h3.congr fun n => ?_
  rw [← Real.exp_add, ← Real.exp_add]
  congr 1
  ring

theorem summable2 {c : ℝ} (hc : 0 < c) (s t : ℝ) : Summable fun n : ℤ × ℤ =>
    Real.exp (-c * (((n.1 : ℝ) - s) ^ 2 + ((n.2 : ℝ) - t) ^ 2)) := by
  have h2 := (summable1 hc s).mul_of_nonneg (summable1 hc t) (fun _ => (Real.exp_pos _).le) fun _ => (Real.exp_pos _).le
  refine h2.congr fun n => ?_
  rw [← Real.exp_add]
  congr 1
  ring

/-! ## Quadratic forms -/

/-- A positive definite form in three variables as a sum of squares. -/
structure Form where
  a1 : ℝ
  a2 : ℝ
  a3 : ℝ
  u : ℝ
  v : ℝ
  w : ℝ
  p1 : 0 < a1
  p2 : 0 < a2
  p3 : 0 < a3

/-- The bilinear form. -/
def Form.bil (f : Form) (x y : ℝ × ℝ × ℝ) : ℝ :=
  f.a1 * (x.1 + f.u * x.2.1 + f.v * x.2.2) * (y.1 + f.u * y.2.1 + f.v * y.2.2) + f.a2 * (x.2.1 + f.w * x.2.2) * (y.2.1 + f.w * y.2.2)
    + f.a3 * x.2.2 * y.2.2

/-- The quadratic form. -/
def Form.quad (f : Form) (x : ℝ × ℝ × ℝ) : ℝ := f.bil x x

/-- The dual form. -/
noncomputable def Form.dual (f : Form) (k : ℝ × ℝ × ℝ) : ℝ :=
  k.1 ^ 2 / f.a1 + (k.2.1 - f.u * k.1) ^ 2 / f.a2 + (k.2.2 - f.v * k.1 - f.w * (k.2.1 - f.u * k.1)) ^ 2 / f.a3

/-- The determinant. -/
def Form.det (f : Form) : ℝ := f.a1 * f.a2 * f.a3

/-- A sum of squares is at least a multiple of the squared length. -/
theorem squares_ge {a1 a2 a3 : ℝ} (h1 : 0 < a1) (h2 : 0 < a2) (h3 : 0 < a3) (u v w : ℝ) : ∃ c : ℝ, 0 < c ∧ ∀ x y z : ℝ,
    c * (x ^ 2 + y ^ 2 + z ^ 2) ≤ a1 * (x + u * y + v * z) ^ 2 + a2 * (y + w * z) ^ 2 + a3 * z ^ 2 := by
  set m := min a1 (min a2 a3) with hm
  have hm0 : 0 < m := lt_min h1 (lt_min h2 h3)
  have m1 : m ≤ a1 := min_le_left _ _
  have m2 : m ≤ a2 := (min_le_right _ _).trans (min_le_left _ _)
  have m3 : m ≤ a3 := (min_le_right _ _).trans (min_le_right _ _)
  set M := 3 + (3 * u ^ 2 + 1) * (2 + 2 * w ^ 2) + (3 * v ^ 2 + 1) with hM
  have hM0 : 0 < M := by positivity
  refine ⟨m / M, by positivity, fun x y z => ?_⟩
  set p := x + u * y + v * z with hp
  set r := y + w * z with hr
  have ey : y ^ 2 ≤ 2 * r ^ 2 + 2 * w ^ 2 * z ^ 2 := by
    have : y = r - w * z := by rw [hr]; ring
    rw [this]
    nlinarith [sq_nonneg (r + w * z)]
  have ex : x ^ 2 ≤ 3 * (p ^ 2 + u ^ 2 * y ^ 2 + v ^ 2 * z ^ 2) := by
    have : x = p - u * y - v * z := by rw [hp]; ring
    rw [this]
    nlinarith [sq_nonneg (p + u * y), sq_nonneg (p + v * z), sq_nonneg (u * y - v * z)]
  have h4 : x ^ 2 + y ^ 2 + z ^ 2 ≤ M * (p ^ 2 + r ^ 2 + z ^ 2) := by
    have g1 : (3 * u ^ 2 + 1) * y ^ 2 ≤ (3 * u ^ 2 + 1) * (2 * r ^ 2 + 2 * w ^ 2 * z ^ 2) :=
      mul_le_mul_of_nonneg_left ey (by positivity)
    have g2 : 0 ≤ u ^ 2 * w ^ 2 * r ^ 2 := by positivity
    have g3 : 0 ≤ u ^ 2 * w ^ 2 * p ^ 2 := by positivity
    have g4 : 0 ≤ u ^ 2 * p ^ 2 := by positivity
    have g5 : 0 ≤ w ^ 2 * p ^ 2 := by positivity
    have g6 : 0 ≤ v ^ 2 * p ^ 2 := by positivity
    have g7 : 0 ≤ v ^ 2 * r ^ 2 := by positivity
    have g8 : 0 ≤ w ^ 2 * r ^ 2 := by positivity
    have g9 : 0 ≤ u ^ 2 * z ^ 2 := by positivity
    rw [hM]
    nlinarith [sq_nonneg p, sq_nonneg r, sq_nonneg z]
  have h5 : m * (p ^ 2 + r ^ 2 + z ^ 2) ≤ a1 * p ^ 2 + a2 * r ^ 2 + a3 * z ^ 2 := by
    have g1 := mul_le_mul_of_nonneg_right m1 (sq_nonneg p)
    have g2 := mul_le_mul_of_nonneg_right m2 (sq_nonneg r)
    have g3 := mul_le_mul_of_nonneg_right m3 (sq_nonneg z)
    linarith
  calc m / M * (x ^ 2 + y ^ 2 + z ^ 2) ≤ m / M * (M * (p ^ 2 + r ^ 2 + z ^ 2)) := mul_le_mul_of_nonneg_left h4 (by positivity)
    _ = m * (p ^ 2 + r ^ 2 + z ^ 2) := by field_simp
    _ ≤ _ := h5

theorem Form.quad_eq (f : Form) (x : ℝ × ℝ × ℝ) :
    f.quad x = f.a1 * (x.1 + f.u * x.2.1 + f.v * x.2.2) ^ 2 + f.a2 * (x.2.1 + f.w * x.2.2) ^ 2 + f.a3 * x.2.2 ^ 2 := by
  unfold Form.quad Form.bil
  ring

theorem Form.quad_nonneg (f : Form) (x : ℝ × ℝ × ℝ) : 0 ≤ f.quad x := by
  rw [f.quad_eq]
  have := f.p1
  have := f.p2
  have := f.p3
  positivity

theorem Form.dual_nonneg (f : Form) (x : ℝ × ℝ × ℝ) : 0 ≤ f.dual x := by
  have := f.p1
  have := f.p2
  have := f.p3
  unfold Form.dual
  positivity

/-- The points of the lattice, seen from `r`. -/
def at3 (n : ℤ × ℤ × ℤ) (r : ℝ × ℝ × ℝ) : ℝ × ℝ × ℝ := (n.1 - r.1, n.2.1 - r.2.1, n.2.2 - r.2.2)

/-- Product with a point of the lattice. -/
def dot3 (n : ℤ × ℤ × ℤ) (q : ℝ × ℝ × ℝ) : ℝ := n.1 * q.1 + n.2.1 * q.2.1 + n.2.2 * q.2.2

theorem Form.summable (f : Form) {c : ℝ} (hc : 0 < c) (r : ℝ × ℝ × ℝ) :
    Summable fun n : ℤ × ℤ × ℤ => Real.exp (-c * f.quad (at3 n r)) := by
  obtain ⟨d, hd, h⟩ := squares_ge f.p1 f.p2 f.p3 f.u f.v f.w
  refine Summable.of_nonneg_of_le (fun n => (Real.exp_pos _).le) (fun n => ?_) (summable3 (mul_pos hc hd) r.1 r.2.1 r.2.2)
  rw [Real.exp_le_exp, f.quad_eq]
  have := h (at3 n r).1 (at3 n r).2.1 (at3 n r).2.2
  have := mul_le_mul_of_nonneg_left this hc.le
  simp only [at3] at this ⊢
  linarith

theorem Form.summable_dual (f : Form) {c : ℝ} (hc : 0 < c) (q : ℝ × ℝ × ℝ) :
    Summable fun n : ℤ × ℤ × ℤ => Real.exp (-c * f.dual (at3 n q)) := by
  obtain ⟨d, hd, h⟩ := squares_ge (inv_pos.2 f.p3) (inv_pos.2 f.p2) (inv_pos.2 f.p1) (-f.w) (f.w * f.u - f.v) (-f.u)
  refine Summable.of_nonneg_of_le (fun n => (Real.exp_pos _).le) (fun n => ?_) (summable3 (mul_pos hc hd) q.1 q.2.1 q.2.2)
  rw [Real.exp_le_exp]
  have h1 := h (at3 n q).2.2 (at3 n q).2.1 (at3 n q).1
  have h2 := mul_le_mul_of_nonneg_left h1 hc.le
  have h3 : f.dual (at3 n q) = f.a3⁻¹ * ((at3 n q).2.2 + -f.w * (at3 n q).2.1 + (f.w * f.u - f.v) * (at3 n q).1) ^ 2 +
      f.a2⁻¹ * ((at3 n q).2.1 + -f.u * (at3 n q).1) ^ 2 + f.a1⁻¹ * (at3 n q).1 ^ 2 := by
    unfold Form.dual
    simp only [div_eq_mul_inv]
    ring
  rw [h3]
  simp only [at3] at h2 ⊢
  linarith

/-! ## Poisson's formula -/

theorem poisson1 {a : ℝ} (ha : 0 < a) (q r : ℝ) :
    ∑' n : ℤ, ph (n * q) * (Real.exp (-Real.pi * (a * (n - r) ^ 2)) : ℂ) =
      ((√a)⁻¹ : ℝ) * ∑' m : ℤ, ph ((m + q) * r) * (Real.exp (-Real.pi * ((m + q) ^ 2 / a)) : ℂ) := by
  have h := Complex.tsum_exp_neg_quadratic (a := (a : ℂ)) (by simpa using ha) (a * r + I * q)
  have ha' : (a : ℂ) ≠ 0 := by exact_mod_cast ha.ne'
  have hs : 1 / (a : ℂ) ^ (1 / 2 : ℂ) = (((√a)⁻¹ : ℝ) : ℂ) := by
    rw [Real.sqrt_eq_rpow, Complex.ofReal_inv, Complex.ofReal_cpow ha.le, one_div]
    norm_num
  rw [hs] at h
  have h2 := congrArg (fun z => cexp (-Real.pi * a * r ^ 2) * z) h
  rw [← tsum_mul_left, mul_left_comm, ← tsum_mul_left] at h2
  have e1 : ∀ n : ℤ, cexp (-Real.pi * a * r ^ 2) * cexp (-Real.pi * a * n ^ 2 + 2 * Real.pi * (a * r + I * q) * n) =
      ph (n * q) * (Real.exp (-Real.pi * (a * (n - r) ^ 2)) : ℂ) := by
    intro n
    unfold ph
    rw [Complex.ofReal_exp, ← Complex.exp_add, ← Complex.exp_add]
    congr 1
    push_cast
    ring
  have e2 : ∀ n : ℤ, cexp (-Real.pi * a * r ^ 2) * cexp (-Real.pi / a * (n + I * (a * r + I * q)) ^ 2) =
      ph (((-n : ℤ) + q) * r) * (Real.exp (-Real.pi * (((-n : ℤ) + q) ^ 2 / a)) : ℂ) := by
    intro n
    unfold ph
    rw [Complex.ofReal_exp, ← Complex.exp_add, ← Complex.exp_add]
    congr 1
    push_cast
    have hI : I ^ 2 = -1 := Complex.I_sq
    field_simp
    ring_nf
    simp only [show I ^ 3 = -I by rw [pow_succ, hI]; ring, show I ^ 4 = 1 by rw [show (4 : ℕ) = 2 * 2 by norm_num, pow_mul, hI]; norm_num, hI]
    ring
  simp only [e1, e2] at h2
  rw [h2]
  congr 1
  exact (Equiv.neg ℤ).tsum_eq fun m : ℤ => ph ((m + q) * r) * (Real.exp (-Real.pi * ((m + q) ^ 2 / a)) : ℂ)

theorem pi_pos' : 0 < Real.pi := Real.pi_pos

theorem summable_plus {a : ℝ} (ha : 0 < a) (q : ℝ) : Summable fun m : ℤ => Real.exp (-Real.pi * ((m + q) ^ 2 / a)) := by
  refine (summable1 (c := Real.pi / a) (div_pos Real.pi_pos ha) (-q)).congr fun m => ?_
  congr 1
  field_simp
  ring

theorem summable_minus {a : ℝ} (ha : 0 < a) (r : ℝ) : Summable fun m : ℤ => Real.exp (-Real.pi * (a * (m - r) ^ 2)) := by
  refine (summable1 (c := Real.pi * a) (mul_pos Real.pi_pos ha) r).congr fun m => ?_
  congr 1
  ring

/-- A family of products of waves and Gaussians is summable if the Gaussians are. -/
theorem summable_wave {ι : Type} {e : ι → ℝ} (p : ι → ℝ) (h : Summable fun n => Real.exp (e n)) :
    Summable fun n => ph (p n) * (Real.exp (e n) : ℂ) := by
  refine Summable.of_norm ?_
  simp only [norm_ph_mul]
  exact h

/-- One variable is transformed, the others wait. -/
theorem tsum_step {β : Type} {f g : ℤ × β → ℂ} {c : ℂ} (hf : Summable f) (hg : Summable g)
    (h : ∀ y, ∑' n, f (n, y) = c * ∑' m, g (m, y)) : ∑' z, f z = c * ∑' m, ∑' y, g (m, y) := by
  rw [hf.tsum_prod, ← Summable.tsum_comm (f := fun n y => f (n, y)) hf, tsum_congr h, tsum_mul_left,
    Summable.tsum_comm (f := fun n y => g (n, y)) hg]

theorem mul_both {β β' : Type} {f : β → ℂ} {g : β' → ℂ} {c : ℂ} (h : ∑' n, f n = c * ∑' m, g m) (z : ℂ) :
    ∑' n, z * f n = c * ∑' m, z * g m := by
  rw [tsum_mul_left, tsum_mul_left, h, mul_left_comm]

theorem poisson2 {a b : ℝ} (ha : 0 < a) (hb : 0 < b) (w q1 q2 r1 r2 : ℝ) :
    ∑' n : ℤ × ℤ, ph (n.1 * q1 + n.2 * q2) *
      (Real.exp (-Real.pi * (a * (n.1 - r1 + w * (n.2 - r2)) ^ 2 + b * (n.2 - r2) ^ 2)) : ℂ) =
      ((√a)⁻¹ * (√b)⁻¹ : ℝ) * ∑' m : ℤ × ℤ, ph ((m.1 + q1) * r1 + (m.2 + q2) * r2) *
        (Real.exp (-Real.pi * ((m.1 + q1) ^ 2 / a + (m.2 + q2 - w * (m.1 + q1)) ^ 2 / b)) : ℂ) := by
  have hP := Real.pi_pos
  obtain ⟨d, hd, hge⟩ := squares_ge one_pos ha hb 0 0 w
  have s1 : Summable fun n : ℤ × ℤ => ph (n.1 * q1 + n.2 * q2) *
      (Real.exp (-Real.pi * (a * (n.1 - r1 + w * (n.2 - r2)) ^ 2 + b * (n.2 - r2) ^ 2)) : ℂ) := by
    refine summable_wave (fun n : ℤ × ℤ => n.1 * q1 + n.2 * q2) (Summable.of_nonneg_of_le (fun n => (Real.exp_pos _).le) (fun n => ?_)
      (summable2 (mul_pos hP hd) r1 r2))
    rw [Real.exp_le_exp]
    have := mul_le_mul_of_nonneg_left (hge 0 (n.1 - r1) (n.2 - r2)) hP.le
    nlinarith
  obtain ⟨d', hd', hge'⟩ := squares_ge one_pos (inv_pos.2 hb) (inv_pos.2 ha) 0 0 (-w)
  have s3 : Summable fun m : ℤ × ℤ => ph ((m.1 + q1) * r1 + (m.2 + q2) * r2) *
        (Real.exp (-Real.pi * ((m.1 + q1) ^ 2 / a + (m.2 + q2 - w * (m.1 + q1)) ^ 2 / b)) : ℂ) := by
    refine summable_wave (fun m : ℤ × ℤ => (m.1 + q1) * r1 + (m.2 + q2) * r2)
      (Summable.of_nonneg_of_le (fun n => (Real.exp_pos _).le) (fun n => ?_) (summable2 (mul_pos hP hd') (-q1) (-q2)))
    rw [Real.exp_le_exp]
    have := mul_le_mul_of_nonneg_left (hge' 0 (n.2 + q2) (n.1 + q1)) hP.le
    simp only [div_eq_mul_inv]
    nlinarith
  have s2 : Summable fun z : ℤ × ℤ => ph (z.2 * q2 + (z.1 + q1) * (r1 - w * (z.2 - r2))) *
      (Real.exp (-Real.pi * ((z.1 + q1) ^ 2 / a) + -Real.pi * (b * (z.2 - r2) ^ 2)) : ℂ) := by
    refine summable_wave (fun z : ℤ × ℤ => z.2 * q2 + (z.1 + q1) * (r1 - w * (z.2 - r2))) ?_
    simp only [Real.exp_add]
    exact (summable_plus ha q1).mul_of_nonneg (summable_minus hb r2) (fun _ => (Real.exp_pos _).le) fun _ => (Real.exp_pos _).le
  have e1 : ∀ n2 : ℤ, ∑' n1 : ℤ, ph (n1 * q1 + n2 * q2) *
      (Real.exp (-Real.pi * (a * (n1 - r1 + w * (n2 - r2)) ^ 2 + b * (n2 - r2) ^ 2)) : ℂ) =
      ((√a)⁻¹ : ℝ) * ∑' m1 : ℤ, ph (n2 * q2 + (m1 + q1) * (r1 - w * (n2 - r2))) *
        (Real.exp (-Real.pi * ((m1 + q1) ^ 2 / a) + -Real.pi * (b * (n2 - r2) ^ 2)) : ℂ) := by
    intro n2
    have h := mul_both (poisson1 ha q1 (r1 - w * (n2 - r2))) (ph (n2 * q2) * (Real.exp (-Real.pi * (b * (n2 - r2) ^ 2)) : ℂ))
    refine Eq.trans (tsum_congr fun n1 => ?_) (h.trans (congrArg _ (tsum_congr fun m1 => ?_)))
    · rw [ph_add, mul_comm (ph (n1 * q1)), show -Real.pi * (a * (n1 - r1 + w * (n2 - r2)) ^ 2 + b * (n2 - r2) ^ 2) =
        -Real.pi * (b * (n2 - r2) ^ 2) + -Real.pi * (a * (n1 - (r1 - w * (n2 - r2))) ^ 2) by ring, Real.exp_add]
      push_cast
      ring
    · rw [ph_add, Real.exp_add]
      push_cast
      ring
  have e2 : ∀ m1 : ℤ, ∑' n2 : ℤ, ph (n2 * q2 + (m1 + q1) * (r1 - w * (n2 - r2))) *
        (Real.exp (-Real.pi * ((m1 + q1) ^ 2 / a) + -Real.pi * (b * (n2 - r2) ^ 2)) : ℂ) =
      ((√b)⁻¹ : ℝ) * ∑' m2 : ℤ, ph ((m1 + q1) * r1 + (m2 + q2) * r2) *
        (Real.exp (-Real.pi * ((m1 + q1) ^ 2 / a + (m2 + q2 - w * (m1 + q1)) ^ 2 / b)) : ℂ) := by
    intro m1
    have h := mul_both (poisson1 hb (q2 - w * (m1 + q1)) r2)
      (ph ((m1 + q1) * (r1 + w * r2)) * (Real.exp (-Real.pi * ((m1 + q1) ^ 2 / a)) : ℂ))
    refine Eq.trans (tsum_congr fun n2 => ?_) (h.trans (congrArg _ (tsum_congr fun m2 => ?_)))
    · rw [show n2 * q2 + (m1 + q1) * (r1 - w * (n2 - r2)) = (m1 + q1) * (r1 + w * r2) + n2 * (q2 - w * (m1 + q1)) by ring, ph_add,
        Real.exp_add]
      push_cast
      ring
    · rw [show (m1 + q1) * r1 + (m2 + q2) * r2 = (m1 + q1) * (r1 + w * r2) + (m2 + (q2 - w * (m1 + q1))) * r2 by ring, ph_add,
        show -Real.pi * ((m1 + q1) ^ 2 / a + (m2 + q2 - w * (m1 + q1)) ^ 2 / b) = -Real.pi * ((m1 + q1) ^ 2 / a) +
          -Real.pi * ((m2 + (q2 - w * (m1 + q1))) ^ 2 / b) by ring, Real.exp_add]
      push_cast
      ring
  rw [tsum_step s1 s2 e1, tsum_congr e2, tsum_mul_left, s3.tsum_prod]
  push_cast
  ring

/-- The points of the lattice, moved by `q`. -/
def add3 (n : ℤ × ℤ × ℤ) (q : ℝ × ℝ × ℝ) : ℝ × ℝ × ℝ := (n.1 + q.1, n.2.1 + q.2.1, n.2.2 + q.2.2)

/-- Scalar product. -/
def mul3 (k r : ℝ × ℝ × ℝ) : ℝ := k.1 * r.1 + k.2.1 * r.2.1 + k.2.2 * r.2.2

theorem Form.summable_dual' (f : Form) {c : ℝ} (hc : 0 < c) (q : ℝ × ℝ × ℝ) :
    Summable fun n : ℤ × ℤ × ℤ => Real.exp (-c * f.dual (add3 n q)) := by
  refine (f.summable_dual hc (-q)).congr fun n => ?_
  simp [at3, add3]

/-- Poisson's formula for Gaussians in three dimensions. -/
theorem poisson3 (f : Form) (q r : ℝ × ℝ × ℝ) :
    ∑' n : ℤ × ℤ × ℤ, ph (dot3 n q) * (Real.exp (-Real.pi * f.quad (at3 n r)) : ℂ) =
      ((√f.a1)⁻¹ * ((√f.a2)⁻¹ * (√f.a3)⁻¹) : ℝ) * ∑' m : ℤ × ℤ × ℤ, ph (mul3 (add3 m q) r) *
        (Real.exp (-Real.pi * f.dual (add3 m q)) : ℂ) := by
  have hP := Real.pi_pos
  obtain ⟨q1, q2, q3⟩ := q
  obtain ⟨r1, r2, r3⟩ := r
  have s1 : Summable fun n : ℤ × ℤ × ℤ => ph (dot3 n (q1, q2, q3)) * (Real.exp (-Real.pi * f.quad (at3 n (r1, r2, r3))) : ℂ) :=
    summable_wave _ (f.summable hP _)
  have s3 : Summable fun m : ℤ × ℤ × ℤ => ph (mul3 (add3 m (q1, q2, q3)) (r1, r2, r3)) *
      (Real.exp (-Real.pi * f.dual (add3 m (q1, q2, q3))) : ℂ) := summable_wave _ (f.summable_dual' hP _)
  have s2 : Summable fun z : ℤ × ℤ × ℤ => ph (z.2.1 * q2 + z.2.2 * q3 + (z.1 + q1) * (r1 - f.u * (z.2.1 - r2) - f.v * (z.2.2 - r3))) *
      (Real.exp (-Real.pi * ((z.1 + q1) ^ 2 / f.a1) +
        -Real.pi * (f.a2 * (z.2.1 - r2 + f.w * (z.2.2 - r3)) ^ 2 + f.a3 * (z.2.2 - r3) ^ 2)) : ℂ) := by
    refine summable_wave _ ?_
    simp only [Real.exp_add]
    refine (summable_plus f.p1 q1).mul_of_nonneg (f := fun m1 : ℤ => Real.exp (-Real.pi * ((m1 + q1) ^ 2 / f.a1)))
      (g := fun z : ℤ × ℤ => Real.exp (-Real.pi * (f.a2 * (z.1 - r2 + f.w * (z.2 - r3)) ^ 2 + f.a3 * (z.2 - r3) ^ 2)))
      ?_ (fun _ => (Real.exp_pos _).le) fun _ => (Real.exp_pos _).le
    obtain ⟨d, hd, hge⟩ := squares_ge one_pos f.p2 f.p3 0 0 f.w
    refine Summable.of_nonneg_of_le (fun n => (Real.exp_pos _).le) (fun n => ?_) (summable2 (mul_pos hP hd) r2 r3)
    rw [Real.exp_le_exp]
    have := mul_le_mul_of_nonneg_left (hge 0 (n.1 - r2) (n.2 - r3)) hP.le
    nlinarith
  have e1 : ∀ y : ℤ × ℤ, ∑' n1 : ℤ, ph (dot3 (n1, y) (q1, q2, q3)) *
      (Real.exp (-Real.pi * f.quad (at3 (n1, y) (r1, r2, r3))) : ℂ) =
      ((√f.a1)⁻¹ : ℝ) * ∑' m1 : ℤ, ph (y.1 * q2 + y.2 * q3 + (m1 + q1) * (r1 - f.u * (y.1 - r2) - f.v * (y.2 - r3))) *
        (Real.exp (-Real.pi * ((m1 + q1) ^ 2 / f.a1) +
          -Real.pi * (f.a2 * (y.1 - r2 + f.w * (y.2 - r3)) ^ 2 + f.a3 * (y.2 - r3) ^ 2)) : ℂ) := by
    intro y
    have h := mul_both (poisson1 f.p1 q1 (r1 - f.u * (y.1 - r2) - f.v * (y.2 - r3))) (ph (y.1 * q2 + y.2 * q3) *
      (Real.exp (-Real.pi * (f.a2 * (y.1 - r2 + f.w * (y.2 - r3)) ^ 2 + f.a3 * (y.2 - r3) ^ 2)) : ℂ))
    refine Eq.trans (tsum_congr fun n1 => ?_) (h.trans (congrArg _ (tsum_congr fun m1 => ?_)))
    · rw [f.quad_eq]
      simp only [dot3, at3]
      rw [show n1 * q1 + y.1 * q2 + y.2 * q3 = n1 * q1 + (y.1 * q2 + y.2 * q3) by ring, ph_add, mul_comm (ph (n1 * q1)),
        show -Real.pi * (f.a1 * (n1 - r1 + f.u * (y.1 - r2) + f.v * (y.2 - r3)) ^ 2 + f.a2 * (y.1 - r2 + f.w * (y.2 - r3)) ^ 2 +
          f.a3 * (y.2 - r3) ^ 2) = -Real.pi * (f.a2 * (y.1 - r2 + f.w * (y.2 - r3)) ^ 2 + f.a3 * (y.2 - r3) ^ 2) +
          -Real.pi * (f.a1 * (n1 - (r1 - f.u * (y.1 - r2) - f.v * (y.2 - r3))) ^ 2) by ring, Real.exp_add]
      push_cast
      ring
    · rw [ph_add (y.1 * q2 + y.2 * q3), Real.exp_add]
      push_cast
      ring
  have e2 : ∀ m1 : ℤ, ∑' y : ℤ × ℤ, ph (y.1 * q2 + y.2 * q3 + (m1 + q1) * (r1 - f.u * (y.1 - r2) - f.v * (y.2 - r3))) *
        (Real.exp (-Real.pi * ((m1 + q1) ^ 2 / f.a1) +
          -Real.pi * (f.a2 * (y.1 - r2 + f.w * (y.2 - r3)) ^ 2 + f.a3 * (y.2 - r3) ^ 2)) : ℂ) =
      ((√f.a2)⁻¹ * (√f.a3)⁻¹ : ℝ) * ∑' y : ℤ × ℤ, ph (mul3 (add3 (m1, y) (q1, q2, q3)) (r1, r2, r3)) *
      (Real.exp (-Real.pi * f.dual (add3 (m1, y) (q1, q2, q3))) : ℂ) := by
    intro m1
    have h := mul_both (poisson2 f.p2 f.p3 f.w (q2 - f.u * (m1 + q1)) (q3 - f.v * (m1 + q1)) r2 r3)
      (ph ((m1 + q1) * (r1 + f.u * r2 + f.v * r3)) * (Real.exp (-Real.pi * ((m1 + q1) ^ 2 / f.a1)) : ℂ))
    refine Eq.trans (tsum_congr fun n2 => ?_) (h.trans (congrArg _ (tsum_congr fun y => ?_)))
    · rw [show n2.1 * q2 + n2.2 * q3 + (m1 + q1) * (r1 - f.u * (n2.1 - r2) - f.v * (n2.2 - r3)) =
        (m1 + q1) * (r1 + f.u * r2 + f.v * r3) + (n2.1 * (q2 - f.u * (m1 + q1)) + n2.2 * (q3 - f.v * (m1 + q1))) by ring, ph_add ((m1 + q1) * (r1 + f.u * r2 + f.v * r3)),
        Real.exp_add]
      push_cast
      ring
    · simp only [mul3, add3, Form.dual]
      rw [show (m1 + q1) * r1 + (y.1 + q2) * r2 + (y.2 + q3) * r3 = (m1 + q1) * (r1 + f.u * r2 + f.v * r3) +
          ((y.1 + (q2 - f.u * (m1 + q1))) * r2 + (y.2 + (q3 - f.v * (m1 + q1))) * r3) by ring, ph_add ((m1 + q1) * (r1 + f.u * r2 + f.v * r3)),
        show -Real.pi * ((m1 + q1) ^ 2 / f.a1 + (y.1 + q2 - f.u * (m1 + q1)) ^ 2 / f.a2 +
          (y.2 + q3 - f.v * (m1 + q1) - f.w * (y.1 + q2 - f.u * (m1 + q1))) ^ 2 / f.a3) = -Real.pi * ((m1 + q1) ^ 2 / f.a1) +
          -Real.pi * ((y.1 + (q2 - f.u * (m1 + q1))) ^ 2 / f.a2 +
            (y.2 + (q3 - f.v * (m1 + q1)) - f.w * (y.1 + (q2 - f.u * (m1 + q1)))) ^ 2 / f.a3) by ring, Real.exp_add]
      push_cast
      ring
  rw [tsum_step s1 s2 e1, tsum_congr e2, tsum_mul_left, s3.tsum_prod]
  push_cast
  ring

end Euphonic.Poisson
