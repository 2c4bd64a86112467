import Mathlib.Topology.Order.Compact
import Mathlib.Analysis.SpecialFunctions.Trigonometric.Deriv
import Mathlib.Tactic.Linarith
import Mathlib.Tactic.NormNum
import Verif.Model.Kinematics

/-!
# C67, C68: kinematic constraints
-/

set_option autoImplicit false

namespace Euphonic.Kinematics

open Set

/-! ## C68 -/

section
variable (op : ℝ → ℝ → ℝ)

theorem foldr_mem (h : ∀ a b, op a b = a ∨ op a b = b) (l : List ℝ) (a : ℝ) :
    l.foldr op a = a ∨ l.foldr op a ∈ l := by
  induction l with
  | nil => exact Or.inl rfl
  | cons b l ih =>
    rw [List.foldr_cons]
    rcases h b (l.foldr op a) with h | h
    · rw [h]; exact Or.inr (by simp)
    · rw [h]
      rcases ih with ih | ih
      · exact Or.inl ih
      · exact Or.inr (by simp [ih])

end

theorem le_foldr_max (l : List ℝ) (a x : ℝ) (hx : x ∈ l) : x ≤ l.foldr max a := by
  induction l with
  | nil => cases hx
  | cons b l ih =>
    rw [List.foldr_cons]
    rcases List.mem_cons.1 hx with rfl | hx
    · exact le_max_left _ _
    · exact (ih hx).trans (le_max_right _ _)

theorem foldr_min_le (l : List ℝ) (a x : ℝ) (hx : x ∈ l) : l.foldr min a ≤ x := by
  induction l with
  | nil => cases hx
  | cons b l ih =>
    rw [List.foldr_cons]
    rcases List.mem_cons.1 hx with rfl | hx
    · exact min_le_left _ _
    · exact (min_le_right _ _).trans (ih hx)

/-- Angles translated by whole turns such that the smaller one is in `[0, 2 pi)`. -/
noncomputable def turns (p q : ℝ) : ℝ := ⌊min p q / (2 * Real.pi)⌋ * (2 * Real.pi)

theorem lower_bounds (p q : ℝ) : 0 ≤ min p q - turns p q ∧ min p q - turns p q < 2 * Real.pi := by
  have hp := Real.pi_pos
  have h1 := Int.floor_le (min p q / (2 * Real.pi))
  have h2 := Int.lt_floor_add_one (min p q / (2 * Real.pi))
  rw [le_div_iff₀ (by positivity)] at h1
  rw [div_lt_iff₀ (by positivity)] at h2
  unfold turns
  constructor
  · linarith
  · linarith

theorem cos_turns (p q x : ℝ) : Real.cos (x - turns p q) = Real.cos x := Real.cos_sub_int_mul_two_pi _ _

theorem limitingValues_eq (p q : ℝ) : limitingValues p q = [Real.cos p, Real.cos q] ++
    (if min p q - turns p q < Real.pi ∧ Real.pi < max p q - turns p q then [-1] else []) ++
    (if min p q - turns p q < 2 * Real.pi ∧ 2 * Real.pi < max p q - turns p q then [1] else []) := rfl

/-- Every limiting value is a cosine of an angle of the interval. -/
theorem limitingValues_mem (p q v : ℝ) (hv : v ∈ limitingValues p q) :
    v ∈ Real.cos '' Icc (min p q) (max p q) := by
  rw [limitingValues_eq] at hv
  simp only [List.mem_append, List.mem_cons, List.not_mem_nil, or_false] at hv
  rcases hv with (hv | hv) | hv
  · rcases hv with rfl | rfl
    · exact ⟨p, ⟨min_le_left _ _, le_max_left _ _⟩, rfl⟩
    · exact ⟨q, ⟨min_le_right _ _, le_max_right _ _⟩, rfl⟩
  · split at hv
    · rename_i h
      rw [List.mem_singleton] at hv
      refine ⟨Real.pi + turns p q, ⟨by linarith [h.1], by linarith [h.2]⟩, ?_⟩
      rw [← cos_turns p q, add_sub_cancel_right, Real.cos_pi, hv]
    · cases hv
  · split at hv
    · rename_i h
      rw [List.mem_singleton] at hv
      refine ⟨2 * Real.pi + turns p q, ⟨by linarith [h.1], by linarith [h.2]⟩, ?_⟩
      rw [← cos_turns p q, add_sub_cancel_right, Real.cos_two_pi, hv]
    · cases hv

theorem cos_le_of_mem (l u x M : ℝ) (hl : 0 ≤ l) (hx : x ∈ Icc l u) (h1 : Real.cos l ≤ M)
    (h2 : Real.cos u ≤ M) (h3 : 2 * Real.pi < u → 1 ≤ M) : Real.cos x ≤ M := by
  rcases lt_or_ge (2 * Real.pi) u with h | h
  · exact (Real.cos_le_one x).trans (h3 h)
  · rcases le_total x Real.pi with hp | hp
    · exact (Real.cos_le_cos_of_nonneg_of_le_pi hl hp hx.1).trans h1
    · refine le_trans ?_ h2
      rw [← Real.cos_two_pi_sub x, ← Real.cos_two_pi_sub u]
      exact Real.cos_le_cos_of_nonneg_of_le_pi (by linarith) (by linarith) (by linarith [hx.2])

theorem le_cos_of_mem (l u x m : ℝ) (hl : 0 ≤ l) (hx : x ∈ Icc l u) (h1 : m ≤ Real.cos l)
    (h2 : m ≤ Real.cos u) (h3 : l < Real.pi → Real.pi < u → m ≤ -1) (h4 : l < Real.pi ∨ u ≤ 3 * Real.pi) :
    m ≤ Real.cos x := by
  rcases lt_or_ge l Real.pi with h | h
  · rcases lt_or_ge Real.pi u with h' | h'
    · exact (h3 h h').trans (Real.neg_one_le_cos x)
    · exact h2.trans (Real.cos_le_cos_of_nonneg_of_le_pi (hl.trans hx.1) h' hx.2)
  · have hu : u ≤ 3 * Real.pi := by rcases h4 with h4 | h4; linarith; exact h4
    rcases le_total x (2 * Real.pi) with hp | hp
    · refine h1.trans ?_
      rw [← Real.cos_two_pi_sub x, ← Real.cos_two_pi_sub l]
      exact Real.cos_le_cos_of_nonneg_of_le_pi (by linarith) (by linarith) (by linarith [hx.1])
    · refine h2.trans ?_
      rw [← Real.cos_sub_two_pi x, ← Real.cos_sub_two_pi u]
      exact Real.cos_le_cos_of_nonneg_of_le_pi (by linarith) (by linarith) (by linarith [hx.2])

theorem cos_min_mem (p q : ℝ) : Real.cos (min p q) ∈ limitingValues p q ∧ Real.cos (max p q) ∈ limitingValues p q := by
  rw [limitingValues_eq]
  rcases le_total p q with h | h
  · rw [min_eq_left h, max_eq_right h]; simp
  · rw [min_eq_right h, max_eq_left h]; simp

/-- **C68**: the first value returned is the maximum of the cosine over the interval, for all angles. -/
theorem C68_maximum (p q : ℝ) :
    IsGreatest (Real.cos '' Icc (min p q) (max p q)) (cosRange p q).1 := by
  obtain ⟨hm1, hm2⟩ := cos_min_mem p q
  constructor
  · rcases foldr_mem max (fun a b => max_choice a b) (limitingValues p q) (Real.cos p) with h | h
    · change List.foldr max _ _ ∈ _
      rw [h]
      exact ⟨p, ⟨min_le_left _ _, le_max_left _ _⟩, rfl⟩
    · exact limitingValues_mem p q _ h
  · rintro v ⟨x, hx, rfl⟩
    rw [← cos_turns p q]
    obtain ⟨h0, h2⟩ := lower_bounds p q
    refine cos_le_of_mem (min p q - turns p q) (max p q - turns p q) _ _ h0
      ⟨by linarith [hx.1], by linarith [hx.2]⟩ ?_ ?_ ?_
    · rw [cos_turns]; exact le_foldr_max _ _ _ hm1
    · rw [cos_turns]; exact le_foldr_max _ _ _ hm2
    · intro hu
      refine le_foldr_max _ _ _ ?_
      rw [limitingValues_eq, if_pos (show _ ∧ _ from ⟨h2, hu⟩)]
      simp

/-- **C68** (part): the second value is the minimum, unless the interval begins in the second half of a turn
and goes beyond the middle of the next one.  Missing: such intervals, see `C68_minimum_missed`. -/
theorem C68_minimum_partial (p q : ℝ)
    (h : min p q - turns p q < Real.pi ∨ max p q - turns p q ≤ 3 * Real.pi) :
    IsLeast (Real.cos '' Icc (min p q) (max p q)) (cosRange p q).2 := by
  obtain ⟨hm1, hm2⟩ := cos_min_mem p q
  constructor
  · rcases foldr_mem min (fun a b => min_choice a b) (limitingValues p q) (Real.cos p) with h | h
    · change List.foldr min _ _ ∈ _
      rw [h]
      exact ⟨p, ⟨min_le_left _ _, le_max_left _ _⟩, rfl⟩
    · exact limitingValues_mem p q _ h
  · rintro v ⟨x, hx, rfl⟩
    rw [← cos_turns p q]
    obtain ⟨h0, h2⟩ := lower_bounds p q
    refine le_cos_of_mem (min p q - turns p q) (max p q - turns p q) _ _ h0
      ⟨by linarith [hx.1], by linarith [hx.2]⟩ ?_ ?_ ?_ h
    · rw [cos_turns]; exact foldr_min_le _ _ _ hm1
    · rw [cos_turns]; exact foldr_min_le _ _ _ hm2
    · intro hl hu
      refine foldr_min_le _ _ _ ?_
      rw [limitingValues_eq, if_pos (show _ ∧ _ from ⟨hl, hu⟩)]
      simp

/-- Angles between minus and plus half a turn never are of the exceptional kind. -/
theorem no_exception (p q : ℝ) (hp : p ∈ Icc (-Real.pi) Real.pi) (hq : q ∈ Icc (-Real.pi) Real.pi) :
    min p q - turns p q < Real.pi ∨ max p q - turns p q ≤ 3 * Real.pi := by
  have hpi := Real.pi_pos
  have hm : max p q ≤ Real.pi := max_le hp.2 hq.2
  have hl : -Real.pi ≤ min p q := le_min hp.1 hq.1
  have hk : (-1 : ℤ) ≤ ⌊min p q / (2 * Real.pi)⌋ := by
    apply Int.le_floor.2
    rw [le_div_iff₀ (by positivity)]
    push_cast
    linarith
  have hk' : (-1 : ℝ) ≤ (⌊min p q / (2 * Real.pi)⌋ : ℝ) := by exact_mod_cast hk
  right
  unfold turns
  nlinarith

/-- **C68**: both values are exact for angles between -180 and 180 degrees. -/
theorem C68_half_turn (p q : ℝ) (hp : p ∈ Icc (-Real.pi) Real.pi) (hq : q ∈ Icc (-Real.pi) Real.pi) :
    IsGreatest (Real.cos '' Icc (min p q) (max p q)) (cosRange p q).1 ∧
    IsLeast (Real.cos '' Icc (min p q) (max p q)) (cosRange p q).2 :=
  ⟨C68_maximum p q, C68_minimum_partial p q (no_exception p q hp hq)⟩

/-- Over the angles from 270 to 630 degrees the cosine reaches -1, but the minimum returned is 0. -/
theorem C68_minimum_missed : (cosRange (3 * Real.pi / 2) (7 * Real.pi / 2)).2 = 0 ∧
    -1 ∈ Real.cos '' Icc (min (3 * Real.pi / 2) (7 * Real.pi / 2)) (max (3 * Real.pi / 2) (7 * Real.pi / 2)) := by
  have hp := Real.pi_pos
  have hmin : min (3 * Real.pi / 2) (7 * Real.pi / 2) = 3 * Real.pi / 2 := min_eq_left (by linarith)
  have hmax : max (3 * Real.pi / 2) (7 * Real.pi / 2) = 7 * Real.pi / 2 := max_eq_right (by linarith)
  have hf : ⌊3 * Real.pi / 2 / (2 * Real.pi)⌋ = 0 := by
    rw [Int.floor_eq_zero_iff]
    rw [show 3 * Real.pi / 2 / (2 * Real.pi) = 3 / 4 by field_simp; norm_num]
    constructor <;> norm_num
  have c1 : Real.cos (3 * Real.pi / 2) = 0 := by
    rw [show 3 * Real.pi / 2 = Real.pi / 2 + Real.pi by ring, Real.cos_add_pi, Real.cos_pi_div_two, neg_zero]
  have c2 : Real.cos (7 * Real.pi / 2) = 0 := by
    rw [show 7 * Real.pi / 2 = 3 * Real.pi / 2 + 2 * Real.pi by ring, Real.cos_add_two_pi, c1]
  constructor
  · have ht : turns (3 * Real.pi / 2) (7 * Real.pi / 2) = 0 := by unfold turns; rw [hmin, hf]; simp
    have hl : limitingValues (3 * Real.pi / 2) (7 * Real.pi / 2) = [0, 0, 1] := by
      rw [limitingValues_eq, hmin, hmax, ht, c1, c2, if_neg (by intro h; linarith [h.1]),
        if_pos (by constructor <;> linarith)]
      rfl
    unfold cosRange
    rw [hl, c1]
    simp
  · refine ⟨Real.pi + 2 * Real.pi, ⟨by rw [hmin]; linarith, by rw [hmax]; linarith⟩, ?_⟩
    rw [Real.cos_add_two_pi, Real.cos_pi]

/-! ## C67 -/

theorem norm_real (x : ℝ) (h : 0 ≤ x) : csqrt (x : ℂ) = (Real.sqrt x : ℂ) := by
  unfold csqrt
  apply Complex.ext
  · simp [abs_of_nonneg h, ← two_mul]
  · simp [abs_of_nonneg h]

theorem csqrt_im_ne (z : ℂ) (h : z.im ≠ 0) : (csqrt z).im ≠ 0 := by
  have h1 : |z.re| < ‖z‖ := Complex.abs_re_lt_norm.2 h
  have h2 : 0 < (‖z‖ - z.re) / 2 := by linarith [le_abs_self z.re]
  have h3 := Real.sqrt_pos.2 h2
  unfold csqrt
  simp only
  split
  · exact mul_ne_zero (by norm_num) h3.ne'
  · exact mul_ne_zero (by norm_num) h3.ne'

theorem csqrt_neg (x : ℝ) (h : x < 0) : (csqrt (x : ℂ)).re = 0 ∧ (csqrt (x : ℂ)).im = Real.sqrt (-x) := by
  have : ‖(x : ℂ)‖ = -x := by rw [Complex.norm_real, Real.norm_eq_abs, abs_of_neg h]
  unfold csqrt
  simp only [this, Complex.ofReal_re, Complex.ofReal_im, lt_irrefl, if_false, one_mul]
  constructor
  · simp
  · congr 1; ring

/-- The square of the momentum transfer. -/
noncomputable def q2 (k2i k2f c : ℝ) : ℝ := k2i + k2f - 2 * c * Real.sqrt (k2i * k2f)

theorem q2_nonneg (k2i k2f c : ℝ) (hi : 0 ≤ k2i) (hf : 0 ≤ k2f) (hc : c ≤ 1) : 0 ≤ q2 k2i k2f c := by
  unfold q2
  rw [Real.sqrt_mul hi]
  have h1 := Real.sq_sqrt hi
  have h2 := Real.sq_sqrt hf
  have h3 := mul_nonneg (Real.sqrt_nonneg k2i) (Real.sqrt_nonneg k2f)
  nlinarith [sq_nonneg (Real.sqrt k2i - Real.sqrt k2f)]

theorem qBoundC_real (k2i k2f c : ℝ) (hi : 0 ≤ k2i) (hf : 0 ≤ k2f) (hc : c ≤ 1) :
    qBoundC k2i k2f c = (Real.sqrt (q2 k2i k2f c) : ℂ) := by
  have hq := q2_nonneg k2i k2f c hi hf hc
  unfold qBoundC rsqrt
  rw [norm_real _ (mul_nonneg hi hf)]
  rw [show ((k2i + k2f : ℝ) : ℂ) - 2 * (c : ℂ) * (Real.sqrt (k2i * k2f) : ℂ) = ((q2 k2i k2f c : ℝ) : ℂ) by
    unfold q2; push_cast; ring]
  exact norm_real _ hq

theorem qBoundC_im (k2i k2f c : ℝ) (hn : k2i * k2f < 0) (hc : c ≠ 0) : (qBoundC k2i k2f c).im ≠ 0 := by
  unfold qBoundC rsqrt
  apply csqrt_im_ne
  obtain ⟨h1, h2⟩ := csqrt_neg _ hn
  have h3 : 0 < Real.sqrt (-(k2i * k2f)) := Real.sqrt_pos.2 (by linarith)
  rw [Complex.sub_im, Complex.mul_im, Complex.mul_im, Complex.mul_re, h2]
  simp [hc, h3.ne']

/-- The values of the momentum transfer for scattering angles in the range. -/
def Reachable (k2i k2f lo hi q : ℝ) : Prop :=
  0 ≤ q ∧ ∃ ki kf : ℝ, 0 ≤ ki ∧ 0 ≤ kf ∧ ki ^ 2 = k2i ∧ kf ^ 2 = k2f ∧
    ∃ t ∈ Icc lo hi, q ^ 2 = ki ^ 2 + kf ^ 2 - 2 * ki * kf * Real.cos t

theorem reachable_iff (k2i k2f lo hi q : ℝ) (hi' : 0 ≤ k2i) (hf : 0 ≤ k2f) :
    Reachable k2i k2f lo hi q ↔ 0 ≤ q ∧ ∃ c ∈ Real.cos '' Icc lo hi, q ^ 2 = q2 k2i k2f c := by
  unfold Reachable q2
  constructor
  · rintro ⟨h0, ki, kf, h1, h2, rfl, rfl, t, ht, h⟩
    refine ⟨h0, _, ⟨t, ht, rfl⟩, ?_⟩
    rw [h, ← mul_pow, Real.sqrt_sq (mul_nonneg h1 h2)]
    ring
  · rintro ⟨h0, c, ⟨t, ht, rfl⟩, h⟩
    refine ⟨h0, Real.sqrt k2i, Real.sqrt k2f, Real.sqrt_nonneg _, Real.sqrt_nonneg _, Real.sq_sqrt hi',
      Real.sq_sqrt hf, t, ht, ?_⟩
    rw [h, Real.sqrt_mul hi', Real.sq_sqrt hi', Real.sq_sqrt hf]
    ring

theorem image_cos (lo hi cmax cmin : ℝ) (h : lo ≤ hi) (h1 : IsGreatest (Real.cos '' Icc lo hi) cmax)
    (h2 : IsLeast (Real.cos '' Icc lo hi) cmin) : Real.cos '' Icc lo hi = Icc cmin cmax := by
  rw [Real.continuous_cos.continuousOn.image_Icc h, h1.csSup_eq, h2.csInf_eq]

theorem exists_q (k2i k2f cmin cmax a b : ℝ) (hi : 0 ≤ k2i) (hf : 0 ≤ k2f) (hab : a ≤ b) (hc : cmin ≤ cmax)
    (hc1 : cmax ≤ 1) :
    (∃ q ∈ Icc a b, 0 ≤ q ∧ ∃ c ∈ Icc cmin cmax, q ^ 2 = q2 k2i k2f c) ↔
      ¬ (b < Real.sqrt (q2 k2i k2f cmax) ∨ a > Real.sqrt (q2 k2i k2f cmin)) := by
  have hs := Real.sqrt_nonneg (k2i * k2f)
  have hmono : q2 k2i k2f cmax ≤ q2 k2i k2f cmin := by unfold q2; nlinarith
  have h0 := q2_nonneg k2i k2f cmax hi hf hc1
  have h0' := q2_nonneg k2i k2f cmin hi hf (hc.trans hc1)
  have hsm := Real.sqrt_le_sqrt hmono
  push Not
  constructor
  · rintro ⟨q, hq, hq0, c, hc', h⟩
    have e : Real.sqrt (q2 k2i k2f c) = q := by rw [← h, Real.sqrt_sq hq0]
    have l1 : q2 k2i k2f cmax ≤ q2 k2i k2f c := by unfold q2; nlinarith [hc'.2]
    have l2 : q2 k2i k2f c ≤ q2 k2i k2f cmin := by unfold q2; nlinarith [hc'.1]
    have m1 := Real.sqrt_le_sqrt l1
    have m2 := Real.sqrt_le_sqrt l2
    rw [e] at m1 m2
    exact ⟨m1.trans hq.2, hq.1.trans m2⟩
  · rintro ⟨h1, h2⟩
    refine ⟨max a (Real.sqrt (q2 k2i k2f cmax)), ⟨le_max_left _ _, max_le hab h1⟩,
      (Real.sqrt_nonneg _).trans (le_max_right _ _), ?_⟩
    generalize hq : max a (Real.sqrt (q2 k2i k2f cmax)) = q
    have hql : Real.sqrt (q2 k2i k2f cmax) ≤ q := hq ▸ le_max_right _ _
    have hqu : q ≤ Real.sqrt (q2 k2i k2f cmin) := hq ▸ max_le h2 hsm
    have hq0 : 0 ≤ q := (Real.sqrt_nonneg _).trans hql
    have s1 : q2 k2i k2f cmax ≤ q ^ 2 := (Real.sqrt_le_left hq0).1 hql
    have s2 : q ^ 2 ≤ q2 k2i k2f cmin := by
      have := pow_le_pow_left₀ hq0 hqu 2
      rwa [Real.sq_sqrt h0'] at this
    rcases hs.lt_or_eq with hs' | hs'
    · refine ⟨(k2i + k2f - q ^ 2) / (2 * Real.sqrt (k2i * k2f)), ⟨?_, ?_⟩, ?_⟩
      · rw [le_div_iff₀ (by positivity)]; unfold q2 at s2; linarith
      · rw [div_le_iff₀ (by positivity)]; unfold q2 at s1; linarith
      · unfold q2; field_simp; ring
    · refine ⟨cmin, ⟨le_refl _, hc⟩, ?_⟩
      unfold q2 at s1 s2 ⊢
      rw [← hs'] at s1 s2 ⊢
      linarith

/-- Both energies can be real ones, or one is negative and there is no scattering. -/
theorem masked_iff (k2i k2f : ℝ) (cos : ℝ × ℝ) (lo hi a b : ℝ) (hlh : lo ≤ hi)
    (h1 : IsGreatest (Real.cos '' Icc lo hi) cos.1) (h2 : IsLeast (Real.cos '' Icc lo hi) cos.2)
    (hone : 0 < k2i ∨ 0 < k2f) (hc : cos.1 ≠ 0 ∨ cos.2 ≠ 0) (hab : a ≤ b) :
    masked (qBounds k2i k2f cos) a b = false ↔ ∃ q ∈ Icc a b, Reachable k2i k2f lo hi q := by
  have hc1 : cos.1 ≤ 1 := by obtain ⟨t, -, ht⟩ := h1.1; rw [← ht]; exact Real.cos_le_one t
  have hcc : cos.2 ≤ cos.1 := h2.2 h1.1
  by_cases hp : 0 ≤ k2i ∧ 0 ≤ k2f
  · obtain ⟨hi', hf⟩ := hp
    have e1 := qBoundC_real k2i k2f cos.1 hi' hf hc1
    have e2 := qBoundC_real k2i k2f cos.2 hi' hf (hcc.trans hc1)
    unfold qBounds masked
    simp only [e1, e2, Complex.ofReal_im, ne_eq, not_true_eq_false, or_self, if_false, Complex.ofReal_re,
      decide_eq_false_iff_not]
    rw [← exists_q k2i k2f cos.2 cos.1 a b hi' hf hab hcc hc1]
    simp only [reachable_iff k2i k2f lo hi _ hi' hf, image_cos lo hi _ _ hlh h1 h2]
  · have hn : k2i * k2f < 0 := by
      rcases hone with h | h
      · have : k2f < 0 := by by_contra hc; exact hp ⟨h.le, by linarith⟩
        nlinarith
      · have : k2i < 0 := by by_contra hc; exact hp ⟨by linarith, h.le⟩
        nlinarith
    have hm : qBounds k2i k2f cos = none := by
      unfold qBounds
      rw [if_pos]
      rcases hc with h | h
      · exact Or.inl (qBoundC_im k2i k2f _ hn h)
      · exact Or.inr (qBoundC_im k2i k2f _ hn h)
    rw [hm]
    unfold masked
    simp only [Bool.true_eq_false, false_iff]
    rintro ⟨q, -, -, ki, kf, -, -, rfl, rfl, -⟩
    exact hp ⟨sq_nonneg _, sq_nonneg _⟩

/-- **C67** (part): a bin keeps its value exactly if for the energy transfer at its centre some momentum
transfer in the bin is reached with a scattering angle in the range; otherwise the value is replaced.  `ei`
or `ef` is positive, `c` is the ratio of energy and squared momentum.  Missing: angles beyond half a turn (see
`C67_wrongly_masked`), and ranges over which the cosine is zero throughout (both angles 90 degrees), where in
exact arithmetic an imaginary momentum is not noticed. -/
theorem C67_mask_partial {K : Type} (c : ℝ) (hc : 0 < c) (xEdges yCentres : List ℝ) (z : List (List K))
    (ei ef : Option ℝ) (e : ℝ → ℝ × ℝ)
    (he : (∃ x, ei = some x ∧ 0 < x ∧ ef = none ∧ e = fun w => (x, x - w)) ∨
      (∃ x, ei = none ∧ ef = some x ∧ 0 < x ∧ e = fun w => (x + w, x)))
    (p q : ℝ) (hp : p ∈ Icc (-180) (180 : ℝ)) (hq : q ∈ Icc (-180) (180 : ℝ))
    (h90 : Real.cos (p * Real.pi / 180) ≠ 0 ∨ Real.cos (q * Real.pi / 180) ≠ 0)
    (hx : xEdges.Pairwise (· ≤ ·)) (hz : z.length + 1 = xEdges.length) (hy : ∀ r ∈ z, r.length = yCentres.length) :
    ∃ out, applyConstraints c xEdges yCentres z ei ef (p, q) = .ok out ∧
      ∀ (i j : Nat) (r : List K) (v : K) (a b w : ℝ), z[i]? = some r → r[j]? = some v → xEdges[i]? = some a →
        xEdges[i + 1]? = some b → yCentres[j]? = some w →
        ∃ r', out[i]? = some r' ∧
          ((∃ Q ∈ Icc a b, Reachable ((e w).1 / c) ((e w).2 / c) (min p q * Real.pi / 180)
              (max p q * Real.pi / 180) Q) → r'[j]? = some (some v)) ∧
          (¬ (∃ Q ∈ Icc a b, Reachable ((e w).1 / c) ((e w).2 / c) (min p q * Real.pi / 180)
              (max p q * Real.pi / 180) Q) → r'[j]? = some none) := by
  have hpi := Real.pi_pos
  have scale : ∀ x : ℝ, x ∈ Icc (-180) (180 : ℝ) → x * Real.pi / 180 ∈ Icc (-Real.pi) Real.pi := by
    intro x hx
    constructor
    · rw [le_div_iff₀ (by norm_num)]; nlinarith [hx.1]
    · rw [div_le_iff₀ (by norm_num)]; nlinarith [hx.2]
  obtain ⟨g1, g2⟩ := C68_half_turn _ _ (scale p hp) (scale q hq)
  have hmono : Monotone fun x : ℝ => x * Real.pi / 180 := by
    intro x y hxy
    exact div_le_div_of_nonneg_right (mul_le_mul_of_nonneg_right hxy hpi.le) (by norm_num)
  have emin : min (p * Real.pi / 180) (q * Real.pi / 180) = min p q * Real.pi / 180 := (hmono.map_min).symm
  have emax : max (p * Real.pi / 180) (q * Real.pi / 180) = max p q * Real.pi / 180 := (hmono.map_max).symm
  rw [emin, emax] at g1 g2
  have hne : (cosRange (p * Real.pi / 180) (q * Real.pi / 180)).1 ≠ 0 ∨
      (cosRange (p * Real.pi / 180) (q * Real.pi / 180)).2 ≠ 0 := by
    by_contra hcon
    push Not at hcon
    have hall : ∀ t ∈ Icc (min p q * Real.pi / 180) (max p q * Real.pi / 180), Real.cos t = 0 := by
      intro t ht
      have u := g1.2 ⟨t, ht, rfl⟩
      have l := g2.2 ⟨t, ht, rfl⟩
      rw [hcon.1] at u
      rw [hcon.2] at l
      exact le_antisymm u l
    rcases h90 with h | h
    · exact h (hall _ ⟨hmono (min_le_left _ _), hmono (le_max_left _ _)⟩)
    · exact h (hall _ ⟨hmono (min_le_right _ _), hmono (le_max_right _ _)⟩)
  have hen : energies ei ef = .ok e := by
    rcases he with ⟨x, rfl, -, rfl, rfl⟩ | ⟨x, rfl, rfl, -, rfl⟩
    · rfl
    · unfold energies
      simp only [add_comm]
  have hpos : ∀ w, 0 < (e w).1 / c ∨ 0 < (e w).2 / c := by
    intro w
    rcases he with ⟨x, -, hx0, -, rfl⟩ | ⟨x, -, -, hx0, rfl⟩
    · exact Or.inl (div_pos hx0 hc)
    · exact Or.inr (div_pos hx0 hc)
  refine ⟨_, by unfold applyConstraints; rw [hen]; rfl, ?_⟩
  intro i j r v a b w hr hv ha hb hw
  have hab : a ≤ b := by
    obtain ⟨i1, e1⟩ := List.getElem?_eq_some_iff.1 ha
    obtain ⟨i2, e2⟩ := List.getElem?_eq_some_iff.1 hb
    rw [← e1, ← e2]
    exact List.pairwise_iff_getElem.1 hx i (i + 1) i1 i2 (Nat.lt_succ_self i)
  have hzip : (List.zip (List.zip xEdges xEdges.tail) z)[i]? = some ((a, b), r) := by
    rw [List.getElem?_zip_eq_some, List.getElem?_zip_eq_some]
    refine ⟨⟨ha, ?_⟩, hr⟩
    rw [List.getElem?_tail]; exact hb
  have hm := masked_iff ((e w).1 / c) ((e w).2 / c) _ _ _ a b (hmono min_le_max) g1 g2 (hpos w) hne hab
  have hbd : (yCentres.map fun w => qBounds ((e w).1 / c) ((e w).2 / c)
      (cosRange (p * Real.pi / 180) (q * Real.pi / 180)))[j]? = some (qBounds ((e w).1 / c) ((e w).2 / c)
      (cosRange (p * Real.pi / 180) (q * Real.pi / 180))) := by
    rw [List.getElem?_map, hw, Option.map_some]
  refine ⟨_, by rw [List.getElem?_map, hzip]; rfl, ?_, ?_⟩
  · intro hQ
    have hb' := hm.2 hQ
    have hzz := (List.getElem?_zip_eq_some (z := (qBounds ((e w).1 / c) ((e w).2 / c)
      (cosRange (p * Real.pi / 180) (q * Real.pi / 180)), v))).2 ⟨hbd, hv⟩
    rw [List.getElem?_map, hzz]
    simp only [Option.map_some, hb', Bool.false_eq_true, if_false]
  · intro hQ
    have hb' : masked (qBounds ((e w).1 / c) ((e w).2 / c)
        (cosRange (p * Real.pi / 180) (q * Real.pi / 180))) a b = true := by
      rw [← Bool.not_eq_false]; exact fun h => hQ (hm.1 h)
    have hzz := (List.getElem?_zip_eq_some (z := (qBounds ((e w).1 / c) ((e w).2 / c)
      (cosRange (p * Real.pi / 180) (q * Real.pi / 180)), v))).2 ⟨hbd, hv⟩
    rw [List.getElem?_map, hzz]
    simp only [Option.map_some, hb', if_true]

/-- **C67**: both energies or none raise `ValueError`. -/
theorem C67_both_or_none {K : Type} (c : ℝ) (xEdges yCentres : List ℝ) (z : List (List K)) (ei ef : ℝ)
    (angle : ℝ × ℝ) :
    applyConstraints c xEdges yCentres z (some ei) (some ef) angle = .error .valueError ∧
    applyConstraints c xEdges yCentres z none none angle = .error .valueError := ⟨rfl, rfl⟩

/-- Direct geometry, incident energy 1, elastic line: a momentum transfer of 2 (back scattering) is kept. -/
example : ∃ out, applyConstraints (K := ℕ) 1 [1.9, 2.1] [0] [[7]] (some 1) none (0, 180) = .ok out ∧
    (∃ r', out[0]? = some r' ∧ r'[0]? = some (some 7)) := by
  have hd : ∃ Q ∈ Icc (1.9 : ℝ) 2.1, Reachable ((1 : ℝ) / 1) ((1 - 0 : ℝ) / 1) (min 0 180 * Real.pi / 180)
      (max 0 180 * Real.pi / 180) Q := by
    refine ⟨2, ⟨by norm_num, by norm_num⟩, by norm_num, 1, 1, by norm_num, by norm_num, by norm_num, by norm_num,
      Real.pi, ⟨?_, ?_⟩, ?_⟩
    · norm_num [Real.pi_pos.le]
    · norm_num
    · rw [Real.cos_pi]; norm_num
  obtain ⟨out, h1, h2⟩ := C67_mask_partial (K := ℕ) 1 one_pos [1.9, 2.1] [0] [[7]] (some 1) none
    (fun w => (1, 1 - w)) (Or.inl ⟨1, rfl, one_pos, rfl, rfl⟩) 0 180 (by constructor <;> norm_num)
    (by constructor <;> norm_num) (Or.inl (by simp)) (by norm_num) rfl (by simp)
  obtain ⟨r', h3, h4, -⟩ := h2 0 0 [7] 7 1.9 2.1 0 rfl rfl rfl rfl rfl
  exact ⟨out, h1, r', h3, h4 hd⟩

/-- With angles from 270 to 630 degrees the same bin is reached (at 540 degrees) but its value is replaced. -/
theorem C67_wrongly_masked :
    (∃ Q ∈ Icc (1.9 : ℝ) 2.1, Reachable 1 1 (3 * Real.pi / 2) (7 * Real.pi / 2) Q) ∧
    masked (qBounds 1 1 (cosRange (3 * Real.pi / 2) (7 * Real.pi / 2))) 1.9 2.1 = true := by
  have hp := Real.pi_pos
  constructor
  · refine ⟨2, ⟨by norm_num, by norm_num⟩, by norm_num, 1, 1, by norm_num, by norm_num, by norm_num, by norm_num,
      Real.pi + 2 * Real.pi, ⟨by linarith, by linarith⟩, ?_⟩
    rw [Real.cos_add_two_pi, Real.cos_pi]; norm_num
  · have h0 := C68_minimum_missed.1
    have h1 : (cosRange (3 * Real.pi / 2) (7 * Real.pi / 2)).1 ≤ 1 := by
      obtain ⟨t, -, ht⟩ := (C68_maximum (3 * Real.pi / 2) (7 * Real.pi / 2)).1
      rw [← ht]; exact Real.cos_le_one t
    have e1 := qBoundC_real 1 1 _ zero_le_one zero_le_one h1
    have e2 := qBoundC_real 1 1 _ zero_le_one zero_le_one (h0.trans_le zero_le_one)
    unfold qBounds masked
    simp only [e1, e2, Complex.ofReal_im, ne_eq, not_true_eq_false, or_self, if_false, Complex.ofReal_re,
      decide_eq_true_eq]
    right
    rw [h0]
    unfold q2
    rw [gt_iff_lt, Real.sqrt_lt' (by norm_num)]
    norm_num

end Euphonic.Kinematics
