import Verif.Props.SphereMean
import Mathlib.Data.Nat.ModEq
import Mathlib.Data.Int.GCD

/-!
# Averages over the golden sampling of a sphere (C152)

The golden sampling, the default of `sample_sphere_dos`, `sample_sphere_pdos` and `sample_sphere_structure_factor`, takes one point
in each of equal slices of the sphere and turns by the golden angle from one to the next.  Blocks of as many points as a Fibonacci
number have about equally spaced azimuths, because the golden ratio is close to ratios of Fibonacci numbers: so the mean approaches
the average over the sphere.
-/

set_option autoImplicit false

namespace Euphonic.Sampling

open Euphonic.Lattice MeasureTheory

/-! ## The golden ratio and Fibonacci numbers -/

/-- The inverse of the golden ratio is close to a ratio of successive Fibonacci numbers. -/
theorem golden_approx (k : Nat) :
    |1 / Real.goldenRatio - (Nat.fib k : ℝ) / Nat.fib (k + 1)| ≤ 1 / (Nat.fib (k + 1) : ℝ) ^ 2 := by
  have hq : (0 : ℝ) < Nat.fib (k + 1) := by exact_mod_cast Nat.fib_pos.2 (Nat.succ_pos k)
  have hphi := Real.goldenRatio_pos
  have h1 := Real.goldenConj_mul_fib_succ_add_fib k
  have h2 := Real.fib_succ_sub_goldenConj_mul_fib k
  have hneg := Real.goldenConj_neg
  have hinv := Real.inv_goldenRatio
  have hle : (Nat.fib (k + 1) : ℝ) ≤ Real.goldenRatio ^ k := by
    have : Real.goldenConj * Nat.fib k ≤ 0 := mul_nonpos_of_nonpos_of_nonneg hneg.le (Nat.cast_nonneg _)
    linarith
  have hd : 1 / Real.goldenRatio - (Nat.fib k : ℝ) / Nat.fib (k + 1) = -(Real.goldenConj ^ (k + 1)) / Nat.fib (k + 1) := by
    rw [one_div, hinv, ← h1]
    field_simp
    ring
  have hpow : |Real.goldenConj| = Real.goldenRatio⁻¹ := by rw [hinv, abs_of_neg hneg]
  rw [hd, abs_div, abs_neg, abs_pow, hpow, abs_of_pos hq, div_le_div_iff₀ hq (by positivity), one_mul, pow_two, ← mul_assoc,
    mul_assoc]
  have h3 : Real.goldenRatio⁻¹ ^ (k + 1) * (Nat.fib (k + 1) : ℝ) ≤ 1 := by
    calc Real.goldenRatio⁻¹ ^ (k + 1) * (Nat.fib (k + 1) : ℝ)
        ≤ Real.goldenRatio⁻¹ ^ (k + 1) * Real.goldenRatio ^ k := mul_le_mul_of_nonneg_left hle (by positivity)
      _ = Real.goldenRatio⁻¹ := by rw [pow_succ, mul_right_comm, ← mul_pow, inv_mul_cancel₀ hphi.ne', one_pow, one_mul]
      _ ≤ 1 := inv_le_one_of_one_le₀ Real.one_lt_goldenRatio.le
  nlinarith

/-! ## Sums over blocks -/

theorem sum_blocks (g : Nat → ℝ) (q B r : Nat) : ∑ i ∈ Finset.range (q * B + r), g i
    = (∑ b ∈ Finset.range B, ∑ m ∈ Finset.range q, g (q * b + m)) + ∑ m ∈ Finset.range r, g (q * B + m) := by
  rw [Finset.sum_range_add]
  congr 1
  induction B with
  | zero => simp
  | succ B ih => rw [Nat.mul_succ, Finset.sum_range_add, ih, Finset.sum_range_succ]

/-- Multiples of a number prime to `q` take every remainder once. -/
theorem sum_reorder (g : Nat → ℝ) (p q : Nat) (hq : 0 < q) (hc : p.Coprime q) : ∃ sig : Nat → Nat,
    (∀ j, sig j < q) ∧ (∀ j < q, ∃ t, sig j * p = j + q * t) ∧
    ∑ m ∈ Finset.range q, g m = ∑ j ∈ Finset.range q, g (sig j) := by
  obtain ⟨u, hu⟩ : ∃ u, p * u ≡ 1 [MOD q] := by
    rcases Nat.eq_or_lt_of_le (Nat.succ_le_of_lt hq) with h1 | h1
    · exact ⟨0, by rw [← h1]; exact Nat.modEq_one⟩
    · obtain ⟨u, -, hu⟩ := Nat.exists_mul_mod_eq_one_of_coprime hc h1
      exact ⟨u, by rw [Nat.ModEq, hu, Nat.mod_eq_of_lt h1]⟩
  have hinv : ∀ j, (j * u % q) * p ≡ j [MOD q] := by
    intro j
    calc (j * u % q) * p ≡ (j * u) * p [MOD q] := (Nat.mod_modEq _ _).mul_right _
      _ = j * (p * u) := by ring
      _ ≡ j * 1 [MOD q] := hu.mul_left _
      _ = j := by ring
  have hinv' : ∀ m, (m * p % q) * u ≡ m [MOD q] := by
    intro m
    calc (m * p % q) * u ≡ (m * p) * u [MOD q] := (Nat.mod_modEq _ _).mul_right _
      _ = m * (p * u) := by ring
      _ ≡ m * 1 [MOD q] := hu.mul_left _
      _ = m := by ring
  refine ⟨fun j => j * u % q, fun j => Nat.mod_lt _ hq, fun j hj => ?_, ?_⟩
  · have h1 : (j * u % q) * p % q = j := by rw [hinv j, Nat.mod_eq_of_lt hj]
    exact ⟨(j * u % q) * p / q, by conv_lhs => rw [← Nat.mod_add_div ((j * u % q) * p) q, h1]⟩
  · refine Finset.sum_nbij' (fun m => m * p % q) (fun j => j * u % q) ?_ ?_ ?_ ?_ ?_
    · intro m _; exact Finset.mem_range.2 (Nat.mod_lt _ hq)
    · intro m _; exact Finset.mem_range.2 (Nat.mod_lt _ hq)
    · intro m hm
      show (m * p % q) * u % q = m
      rw [hinv' m, Nat.mod_eq_of_lt (Finset.mem_range.1 hm)]
    · intro j hj
      show (j * u % q) * p % q = j
      rw [hinv j, Nat.mod_eq_of_lt (Finset.mem_range.1 hj)]
    · intro m hm
      show g m = g ((m * p % q) * u % q)
      rw [hinv' m, Nat.mod_eq_of_lt (Finset.mem_range.1 hm)]

/-! ## Turning by nearly rational angles -/

theorem LipSphere.spread {L : ℝ} {f : V3 ℝ → ℝ} (h : LipSphere L f) (t p t' p' : ℝ) :
    |f (onSphere t p) - f (onSphere t' p')| ≤ 6 * L := by
  refine (h _ _ (onSphere_unit t p) (onSphere_unit t' p')).trans ?_
  have key : ∀ v : V3 ℝ, IsUnitVec v → |v.x| ≤ 1 ∧ |v.y| ≤ 1 ∧ |v.z| ≤ 1 := by
    intro v hv
    unfold IsUnitVec at hv
    exact ⟨abs_le_one_iff_mul_self_le_one.2 (by nlinarith [sq_nonneg v.y, sq_nonneg v.z]),
      abs_le_one_iff_mul_self_le_one.2 (by nlinarith [sq_nonneg v.x, sq_nonneg v.z]),
      abs_le_one_iff_mul_self_le_one.2 (by nlinarith [sq_nonneg v.x, sq_nonneg v.y])⟩
  obtain ⟨a1, a2, a3⟩ := key _ (onSphere_unit t p)
  obtain ⟨b1, b2, b3⟩ := key _ (onSphere_unit t' p')
  have c1 := abs_sub (onSphere t p).x (onSphere t' p').x
  have c2 := abs_sub (onSphere t p).y (onSphere t' p').y
  have c3 := abs_sub (onSphere t p).z (onSphere t' p').z
  rw [mul_comm 6 L]
  exact mul_le_mul_of_nonneg_left (by linarith) h.nonneg

/-- One block of slices with turns by an angle that is nearly the fraction `p / q` of a full turn. -/
theorem turning_block {L : ℝ} {f : V3 ℝ → ℝ} (h : LipSphere L f) (α : ℝ) (p q n b : Nat) (hq : 0 < q) (hn : 0 < n)
    (hc : p.Coprime q) (hα : |α - (p : ℝ) / q| ≤ 1 / (q : ℝ) ^ 2) (hb : (q : ℝ) * (b + 1) ≤ n) (z : ℝ)
    (hz1 : -1 + 2 * q / n * b ≤ z) (hz2 : z ≤ -1 + 2 * q / n * (b + 1)) :
    |slice f z - 2 * Real.pi / q * ∑ m ∈ Finset.range q, f (onSphere (Real.arccos (-1 + (2 * ((q * b + m : ℕ) : ℝ) + 1) / n))
        (2 * Real.pi * (((q * b + m : ℕ) : ℝ) * α)))|
      ≤ L * (4 * √((q : ℝ) / n) + 8 * Real.pi / q + 2 * ((q : ℝ) / n)) * (2 * Real.pi) := by
  have hn' : (0 : ℝ) < n := by exact_mod_cast hn
  have hq' : (0 : ℝ) < q := by exact_mod_cast hq
  have hpi := Real.pi_pos
  set P : Nat → V3 ℝ := fun i => onSphere (Real.arccos (-1 + (2 * i + 1) / n)) (2 * Real.pi * (i * α)) with hP
  obtain ⟨sig, hs1, hs2, hs3⟩ := sum_reorder (fun m => f (P (q * b + m))) p q hq hc
  change |slice f z - 2 * Real.pi / q * ∑ m ∈ Finset.range q, f (P (q * b + m))| ≤ _
  rw [hs3]
  refine slice_samples h z (2 * Real.pi * (q * b * α)) hq (fun j => P (q * b + sig j)) fun j hj phi h1 h2 => ?_
  obtain ⟨t, ht⟩ := hs2 j hj
  have ht' : (sig j : ℝ) * p = j + q * t := by exact_mod_cast ht
  have hsig : (sig j : ℝ) + 1 ≤ q := by exact_mod_cast hs1 j
  have hsig0 : (0 : ℝ) ≤ sig j := Nat.cast_nonneg _
  have hb0 : (0 : ℝ) ≤ q * b := by positivity
  have hang : 2 * Real.pi * (((q * b + sig j : ℕ) : ℝ) * α)
      = (2 * Real.pi * (q * b * α) + 2 * Real.pi / q * j + 2 * Real.pi * (sig j * (α - p / q))) + (t : ℕ) * (2 * Real.pi) := by
    have : (sig j : ℝ) * (p / q) = j / q + t := by
      rw [← mul_div_assoc, ht']
      field_simp
    push_cast
    linear_combination (2 * Real.pi) * this
  have hPe : P (q * b + sig j) = onSphere (Real.arccos (-1 + (2 * ((q * b + sig j : ℕ) : ℝ) + 1) / n))
      (2 * Real.pi * (q * b * α) + 2 * Real.pi / q * j + 2 * Real.pi * (sig j * (α - p / q))) := by
    rw [hP]
    show onSphere _ _ = _
    rw [hang]
    simp only [onSphere, Real.cos_add_nat_mul_two_pi, Real.sin_add_nat_mul_two_pi]
  rw [hPe]
  have hcast : ((q * b + sig j : ℕ) : ℝ) = q * b + sig j := by push_cast; ring
  have top : 2 * q / n * ((b : ℝ) + 1) ≤ 2 := by
    rw [div_mul_eq_mul_div, div_le_iff₀ hn']
    linarith
  have bot : 0 ≤ 2 * q / n * (b : ℝ) := by positivity
  have hz' : z ≤ 1 := by linarith
  have hz0 : -1 ≤ z := by linarith
  have lo : 2 * q / n * (b : ℝ) ≤ (2 * ((q * b + sig j : ℕ) : ℝ) + 1) / n := by
    rw [div_mul_eq_mul_div, hcast]
    exact div_le_div_of_nonneg_right (by linarith) hn'.le
  have hi : (2 * ((q * b + sig j : ℕ) : ℝ) + 1) / n ≤ 2 * q / n * ((b : ℝ) + 1) := by
    rw [div_mul_eq_mul_div, hcast]
    exact div_le_div_of_nonneg_right (by linarith) hn'.le
  have hw : 2 * q / n * ((b : ℝ) + 1) = 2 * q / n * b + 2 * (q / n) := by ring
  have hdel : |2 * Real.pi * (sig j * (α - p / q))| ≤ 2 * Real.pi / q := by
    rw [abs_mul, abs_of_pos (by positivity : 0 < 2 * Real.pi), abs_mul, abs_of_nonneg hsig0]
    have : (sig j : ℝ) * |α - p / q| ≤ q * (1 / (q : ℝ) ^ 2) :=
      mul_le_mul (by linarith) hα (abs_nonneg _) hq'.le
    calc 2 * Real.pi * (sig j * |α - p / q|) ≤ 2 * Real.pi * (q * (1 / (q : ℝ) ^ 2)) :=
          mul_le_mul_of_nonneg_left this (by positivity)
      _ = 2 * Real.pi / q := by field_simp
  have hdel' := abs_le.1 hdel
  have harc : 2 * Real.pi / q * ((j : ℝ) + 1) = 2 * Real.pi / q * j + 2 * Real.pi / q := by ring
  have hq2 : 0 < 2 * Real.pi / q := by positivity
  refine (near h (dz := 2 * (q / n)) (dp := 4 * Real.pi / q) hz0 hz' (by linarith) (by linarith) ?_ ?_).trans (le_of_eq ?_)
  · exact abs_le.2 ⟨by linarith, by linarith⟩
  · have : 4 * Real.pi / q = 2 * (2 * Real.pi / q) := by ring
    rw [this]
    exact abs_le.2 ⟨by linarith, by linarith⟩
  · rw [show 2 * (2 * ((q : ℝ) / n)) = 2 ^ 2 * (q / n) by ring, Real.sqrt_mul (by positivity),
      Real.sqrt_sq (by norm_num)]
    ring

/-- Equal slices and turns by an angle that is nearly the fraction `p / q` of a full turn. -/
theorem turning_mean {L : ℝ} {f : V3 ℝ → ℝ} (h : LipSphere L f) (α : ℝ) (p q n : Nat) (hq : 0 < q) (hn : 0 < n)
    (hc : p.Coprime q) (hα : |α - (p : ℝ) / q| ≤ 1 / (q : ℝ) ^ 2) :
    |(∑ i ∈ Finset.range n, f (onSphere (Real.arccos (-1 + (2 * i + 1) / n)) (2 * Real.pi * (i * α)))) / n - sphereAverage f|
      ≤ L * (4 * √((q : ℝ) / n) + 8 * Real.pi / q + 8 * ((q : ℝ) / n)) := by
  have hn' : (0 : ℝ) < n := by exact_mod_cast hn
  have hq' : (0 : ℝ) < q := by exact_mod_cast hq
  have hpi := Real.pi_pos
  have hL := h.nonneg
  rw [sphereAverage_slices h]
  set P : Nat → V3 ℝ := fun i => onSphere (Real.arccos (-1 + (2 * i + 1) / n)) (2 * Real.pi * (i * α)) with hP
  set B := n / q with hB
  set r := n % q with hr
  have hdiv : q * B + r = n := Nat.div_add_mod n q
  have hdiv' : (q : ℝ) * B + r = n := by exact_mod_cast hdiv
  have hrq : (r : ℝ) ≤ q := by exact_mod_cast (Nat.mod_lt n hq).le
  set e := L * (4 * √((q : ℝ) / n) + 8 * Real.pi / q + 2 * ((q : ℝ) / n)) with he
  have he0 : 0 ≤ e := mul_nonneg hL (by positivity)
  -- one block
  have block : ∀ b < B, ∀ z : ℝ, -1 + 2 * q / n * b ≤ z → z ≤ -1 + 2 * q / n * (b + 1) →
      |slice f z - 2 * Real.pi / q * ∑ m ∈ Finset.range q, f (P (q * b + m))| ≤ e * (2 * Real.pi) := by
    intro b hb z hz1 hz2
    refine turning_block h α p q n b hq hn hc hα ?_ z hz1 hz2
    have hb' : (b : ℝ) + 1 ≤ B := by exact_mod_cast hb
    have hqB : (q : ℝ) * (b + 1) ≤ q * B := mul_le_mul_of_nonneg_left hb' hq'.le
    have hr0 : (0 : ℝ) ≤ r := Nat.cast_nonneg _
    linarith
  -- the rest
  have rest : ∀ m < r, ∀ z, |slice f z - 2 * Real.pi * f (P (q * B + m))| ≤ 6 * L * (2 * Real.pi) := by
    intro m _ z
    have := slice_samples h z 0 one_pos (fun _ => P (q * B + m)) (e := 6 * L) fun _ _ phi _ _ => h.spread _ _ _ _
    simpa using this
  set c := -1 + 2 * q / n * (B : ℝ) with hcd
  have hc1 : c + 2 / n * r = 1 := by
    rw [hcd]
    field_simp
    linarith
  have R1 := riemann_cells (slice_continuous h) (fun b => -1 + 2 * q / n * (b : ℝ)) B
    (fun b => 2 * Real.pi / q * ∑ m ∈ Finset.range q, f (P (q * b + m))) (fun _ => e * (2 * Real.pi))
    (fun b _ => by
      have : 0 ≤ 2 * (q : ℝ) / n := by positivity
      push_cast
      nlinarith)
    (fun b hb z h1 h2 => block b hb z h1 (by simpa using h2))
  have R2 := riemann_cells (slice_continuous h) (fun m => c + 2 / n * (m : ℝ)) r
    (fun m => 2 * Real.pi * f (P (q * B + m))) (fun _ => 6 * L * (2 * Real.pi))
    (fun b _ => by
      have : 0 ≤ 2 / (n : ℝ) := by positivity
      push_cast
      nlinarith)
    (fun m hm z _ _ => rest m hm z)
  simp only [Nat.cast_zero, mul_zero, add_zero, hc1, ← hcd] at R1 R2
  have w1 : ∀ b : ℕ, -1 + 2 * q / n * ((b + 1 : ℕ) : ℝ) - (-1 + 2 * q / n * (b : ℝ)) = 2 * q / n := by
    intro b; push_cast; ring
  have w2 : ∀ m : ℕ, c + 2 / n * ((m + 1 : ℕ) : ℝ) - (c + 2 / n * (m : ℝ)) = 2 / n := by
    intro b; push_cast; ring
  simp only [w1, w2, Finset.sum_const, Finset.card_range, nsmul_eq_mul, ← Finset.mul_sum] at R1 R2
  have hsum := sum_blocks (fun i => f (P i)) q B r
  rw [hdiv] at hsum
  have hint := intervalIntegral.integral_add_adjacent_intervals (μ := volume) (a := -1) (b := c) (c := 1) (f := slice f)
    ((slice_continuous h).intervalIntegrable _ _) ((slice_continuous h).intervalIntegrable _ _)
  rw [hsum, ← hint]
  set S1 := ∑ b ∈ Finset.range B, ∑ m ∈ Finset.range q, f (P (q * b + m))
  set S2 := ∑ m ∈ Finset.range r, f (P (q * B + m))
  set I1 := ∫ z in (-1 : ℝ)..c, slice f z
  set I2 := ∫ z in c..1, slice f z
  have hq1 : (S1 + S2) / n - (I1 + I2) / (4 * Real.pi)
      = -((I1 - 2 * q / n * (2 * Real.pi / q * S1)) + (I2 - 2 / n * (2 * Real.pi * S2))) / (4 * Real.pi) := by
    field_simp
    ring
  rw [hq1, abs_div, abs_neg, abs_of_pos (by positivity : 0 < 4 * Real.pi), div_le_iff₀ (by positivity)]
  refine (abs_add_le _ _).trans ((add_le_add R1 R2).trans ?_)
  have hr0 : (0 : ℝ) ≤ r := Nat.cast_nonneg _
  have b1 : (B : ℝ) * (e * (2 * Real.pi) * (2 * q / n)) ≤ e * (4 * Real.pi) := by
    have h1 : (B : ℝ) * (q / n) ≤ 1 := by
      rw [← mul_div_assoc, div_le_one hn']
      linarith
    calc (B : ℝ) * (e * (2 * Real.pi) * (2 * q / n)) = e * (4 * Real.pi) * (B * (q / n)) := by ring
      _ ≤ e * (4 * Real.pi) * 1 := mul_le_mul_of_nonneg_left h1 (by positivity)
      _ = _ := by ring
  have b2 : (r : ℝ) * (6 * L * (2 * Real.pi) * (2 / n)) ≤ 6 * L * (q / n) * (4 * Real.pi) := by
    have h1 : (r : ℝ) / n ≤ q / n := div_le_div_of_nonneg_right hrq hn'.le
    calc (r : ℝ) * (6 * L * (2 * Real.pi) * (2 / n)) = 6 * L * (4 * Real.pi) * (r / n) := by ring
      _ ≤ 6 * L * (4 * Real.pi) * (q / n) := mul_le_mul_of_nonneg_left h1 (by positivity)
      _ = _ := by ring
  refine (add_le_add b1 b2).trans (le_of_eq ?_)
  rw [he]
  ring

/-- **C152**. The golden sampling without jitter: whatever Fibonacci number is taken for `q`, the mean is the average over the sphere
up to the error shown, which is small when `q` is large and the number of points much larger. -/
theorem C152_golden {L : ℝ} {f : V3 ℝ → ℝ} (h : LipSphere L f) (npts : Nat) (hn : 0 < npts) (k : Nat) :
    ∃ l, goldenSphere npts true none = .ok l ∧ |meanOver l f - sphereAverage f|
      ≤ L * (4 * √((Nat.fib (k + 1) : ℝ) / npts) + 8 * Real.pi / Nat.fib (k + 1) + 8 * ((Nat.fib (k + 1) : ℝ) / npts)) := by
  have hn' : (0 : ℝ) < npts := by exact_mod_cast hn
  have hl : goldenSphere npts true none = .ok ((List.range npts).map fun i : Nat =>
      onSphere (Real.arccos (-1 + (2 * i + 1) / npts)) (2 * Real.pi * (i * (1 / Real.goldenRatio)))) := by
    unfold goldenSphere goldenSquare
    rw [if_neg (by simp; omega)]
    simp only [bind, Except.bind, pure, Except.pure, displacement, if_true, List.map_map]
    congr 1
    refine List.map_congr_left fun i hi => ?_
    have hi' : (i : ℝ) + 1 ≤ npts := by exact_mod_cast List.mem_range.1 hi
    simp only [Function.comp, squareToPolar, out, if_true, onSphere_eq]
    have hx : Int.fract ((i : ℝ) / npts + 0 + 1 / (2 * (npts : ℝ))) = (i : ℝ) / npts + 1 / (2 * (npts : ℝ)) := by
      rw [add_zero]
      refine Int.fract_eq_self.2 ⟨by positivity, ?_⟩
      rw [show (i : ℝ) / npts + 1 / (2 * (npts : ℝ)) = (2 * i + 1) / (2 * npts) by field_simp, div_lt_one (by positivity)]
      linarith
    rw [hx, add_zero]
    have hz : 2 * ((i : ℝ) / npts + 1 / (2 * (npts : ℝ))) - 1 = -1 + (2 * i + 1) / npts := by field_simp; ring
    rw [hz]
    have hp : 2 * Real.pi * Int.fract ((i : ℝ) / Real.goldenRatio)
        = 2 * Real.pi * (i * (1 / Real.goldenRatio)) - (⌊(i : ℝ) / Real.goldenRatio⌋ : ℤ) * (2 * Real.pi) := by
      have := Int.fract_add_floor ((i : ℝ) / Real.goldenRatio)
      linear_combination (2 * Real.pi) * this
    rw [hp]
    simp only [onSphere, Real.cos_sub_int_mul_two_pi, Real.sin_sub_int_mul_two_pi]
  refine ⟨_, hl, ?_⟩
  have := turning_mean h (1 / Real.goldenRatio) (Nat.fib k) (Nat.fib (k + 1)) npts (Nat.fib_pos.2 (Nat.succ_pos k)) hn
    (Nat.fib_coprime_fib_succ k) (golden_approx k)
  unfold meanOver
  rw [List.map_map, sum_map_range, List.length_map, List.length_range]
  exact this

/-! ## Jitter -/

/-- The azimuth is only used through its sine and cosine. -/
theorem onSphere_fract (t x : ℝ) : onSphere t (2 * Real.pi * Int.fract x) = onSphere t (2 * Real.pi * x) := by
  have hp : 2 * Real.pi * Int.fract x = 2 * Real.pi * x - (⌊x⌋ : ℤ) * (2 * Real.pi) := by
    have := Int.fract_add_floor x
    linear_combination (2 * Real.pi) * this
  rw [hp]
  simp only [onSphere, Real.cos_sub_int_mul_two_pi, Real.sin_sub_int_mul_two_pi]

/-- Sums over indices of which all but `2 M` at the ends are good. -/
theorem sum_ends_le (n M : Nat) (g : Nat → ℝ) (e E : ℝ) (he : 0 ≤ e) (hE : 0 ≤ E) (hbad : ∀ i < n, g i ≤ E)
    (hgood : ∀ i < n, M ≤ i → i + M < n → g i ≤ e) : ∑ i ∈ Finset.range n, g i ≤ n * e + 2 * M * E := by
  have h1 : ∀ i ∈ Finset.range n, g i ≤ e + ((if i < M then E else 0) + if n ≤ i + M then E else 0) := by
    intro i hi
    have hi := Finset.mem_range.1 hi
    have := hbad i hi
    by_cases ha : i < M
    · rw [if_pos ha]
      split <;> linarith
    · rw [if_neg ha]
      by_cases hb : n ≤ i + M
      · rw [if_pos hb]
        linarith
      · rw [if_neg hb]
        have := hgood i hi (by omega) (by omega)
        linarith
  refine (Finset.sum_le_sum h1).trans ?_
  rw [Finset.sum_add_distrib, Finset.sum_add_distrib, ← Finset.sum_filter, ← Finset.sum_filter]
  simp only [Finset.sum_const, Finset.card_range, nsmul_eq_mul]
  have c1 : ((Finset.range n).filter (· < M)).card ≤ M := by
    calc _ ≤ (Finset.range M).card := Finset.card_le_card fun i hi => by
            rw [Finset.mem_filter] at hi
            exact Finset.mem_range.2 hi.2
      _ = M := Finset.card_range M
  have c2 : ((Finset.range n).filter (fun i => n ≤ i + M)).card ≤ M := by
    calc _ ≤ (Finset.Ico (n - M) n).card := Finset.card_le_card fun i hi => by
            rw [Finset.mem_filter, Finset.mem_range] at hi
            rw [Finset.mem_Ico]
            omega
      _ ≤ M := by rw [Nat.card_Ico]; omega
  have c1' : (((Finset.range n).filter (· < M)).card : ℝ) * E ≤ M * E :=
    mul_le_mul_of_nonneg_right (by exact_mod_cast c1) hE
  have c2' : (((Finset.range n).filter (fun i => n ≤ i + M)).card : ℝ) * E ≤ M * E :=
    mul_le_mul_of_nonneg_right (by exact_mod_cast c2) hE
  linarith

/-- **C152**. The golden sampling with jitter: points that jitter moves past a pole come back at the other one, but these are few. -/
theorem C152_golden_jitter {L : ℝ} {f : V3 ℝ → ℝ} (h : LipSphere L f) (npts : Nat) (hn : 0 < npts) (k : Nat) (jitter : Jitter)
    (hj : RandomJitter jitter) : ∃ l, goldenSphere npts true jitter = .ok l ∧ |meanOver l f - sphereAverage f|
      ≤ L * (4 * √((Nat.fib (k + 1) : ℝ) / npts) + 8 * Real.pi / Nat.fib (k + 1) + 8 * ((Nat.fib (k + 1) : ℝ) / npts))
        + L * (2 * √(2 * (1 / √npts)) + 2 * (Real.pi / √npts) + 1 / √npts + 12 * (√npts + 1) / npts) := by
  have hn' : (0 : ℝ) < npts := by exact_mod_cast hn
  have hs : 0 < √(npts : ℝ) := Real.sqrt_pos.2 hn'
  have hss : √(npts : ℝ) * √(npts : ℝ) = npts := Real.mul_self_sqrt hn'.le
  have hpi := Real.pi_pos
  have hL := h.nonneg
  choose a b ha0 ha1 hb0 hb1 hd using fun i => displacement_frac jitter hj i (1 / √(npts : ℝ)) (1 / √(npts : ℝ))
  let x : Nat → ℝ := fun i => (i : ℝ) / npts + (a i - 1 / 2) * (1 / √npts) + 1 / (2 * (npts : ℝ))
  let y : Nat → ℝ := fun i => (i : ℝ) / Real.goldenRatio + (b i - 1 / 2) * (1 / √npts)
  let P : Nat → V3 ℝ := fun i => onSphere (Real.arccos (2 * Int.fract (x i) - 1)) (2 * Real.pi * y i)
  let P0 : Nat → V3 ℝ := fun i => onSphere (Real.arccos (-1 + (2 * i + 1) / npts)) (2 * Real.pi * (i * (1 / Real.goldenRatio)))
  have hl : goldenSphere npts true jitter = .ok ((List.range npts).map P) := by
    unfold goldenSphere goldenSquare
    rw [if_neg (by simp; omega)]
    simp only [bind, Except.bind, pure, Except.pure, hd, if_true, List.map_map]
    congr 1
    refine List.map_congr_left fun i _ => ?_
    simp only [Function.comp, squareToPolar, out, if_true, onSphere_eq, P, x, y, onSphere_fract]
  refine ⟨_, hl, ?_⟩
  have base := turning_mean h (1 / Real.goldenRatio) (Nat.fib k) (Nat.fib (k + 1)) npts (Nat.fib_pos.2 (Nat.succ_pos k)) hn
    (Nat.fib_coprime_fib_succ k) (golden_approx k)
  have hmean : meanOver ((List.range npts).map P) f = (∑ i ∈ Finset.range npts, f (P i)) / npts := by
    unfold meanOver
    rw [List.map_map, sum_map_range, List.length_map, List.length_range]
    rfl
  rw [hmean]
  set e := L * (2 * √(2 * (1 / √npts)) + 2 * (Real.pi / √npts) + 1 / √npts) with he
  have he0 : 0 ≤ e := mul_nonneg hL (by positivity)
  have hM := Nat.le_ceil (√(npts : ℝ) / 2)
  have hM' := Nat.ceil_lt_add_one (by positivity : 0 ≤ √(npts : ℝ) / 2)
  have hinv : 0 < 1 / √(npts : ℝ) := by positivity
  have diff := sum_ends_le npts ⌈√(npts : ℝ) / 2⌉₊ (fun i => |f (P i) - f (P0 i)|) e (6 * L) he0 (by positivity)
    (fun i _ => h.spread _ _ _ _)
    (fun i hi h1 h2 => by
      have h1' : (⌈√(npts : ℝ) / 2⌉₊ : ℝ) ≤ i := by exact_mod_cast h1
      have h2' : (i : ℝ) + ⌈√(npts : ℝ) / 2⌉₊ + 1 ≤ npts := by exact_mod_cast h2
      have hd1 : |(a i - 1 / 2) * (1 / √(npts : ℝ))| ≤ 1 / 2 * (1 / √(npts : ℝ)) := by
        rw [abs_mul, abs_of_pos hinv]
        exact mul_le_mul_of_nonneg_right (abs_le.2 ⟨by linarith [ha0 i], by linarith [ha1 i]⟩) hinv.le
      have hd2 : |(b i - 1 / 2) * (1 / √(npts : ℝ))| ≤ 1 / 2 * (1 / √(npts : ℝ)) := by
        rw [abs_mul, abs_of_pos hinv]
        exact mul_le_mul_of_nonneg_right (abs_le.2 ⟨by linarith [hb0 i], by linarith [hb1 i]⟩) hinv.le
      obtain ⟨d1, d2⟩ := abs_le.1 hd1
      obtain ⟨d3, d4⟩ := abs_le.1 hd2
      have hhalf : 1 / 2 * (1 / √(npts : ℝ)) = √(npts : ℝ) / 2 / npts := by
        rw [div_div, eq_div_iff (by positivity)]
        calc 1 / 2 * (1 / √(npts : ℝ)) * (2 * npts) = (1 / √(npts : ℝ)) * (√(npts : ℝ) * √(npts : ℝ)) := by rw [hss]; ring
          _ = √(npts : ℝ) := by field_simp
      have lo : 1 / 2 * (1 / √(npts : ℝ)) ≤ (i : ℝ) / npts := by
        rw [hhalf]
        exact div_le_div_of_nonneg_right (by linarith) hn'.le
      have hi' : (i : ℝ) / npts + 1 / (2 * (npts : ℝ)) + 1 / 2 * (1 / √(npts : ℝ)) < 1 := by
        rw [hhalf, show (i : ℝ) / npts + 1 / (2 * (npts : ℝ)) + √(npts : ℝ) / 2 / npts
          = ((i : ℝ) + 1 / 2 + √(npts : ℝ) / 2) / npts by field_simp, div_lt_one hn']
        linarith
      have hpos : 0 < 1 / (2 * (npts : ℝ)) := by positivity
      have hx : Int.fract (x i) = x i := Int.fract_eq_self.2 ⟨by simp only [x]; linarith, by simp only [x]; linarith⟩
      have hz : (-1 : ℝ) + (2 * i + 1) / npts = 2 * ((i : ℝ) / npts + 1 / (2 * (npts : ℝ))) - 1 := by
        field_simp
        ring
      have hi0 : 0 ≤ (i : ℝ) / npts := by positivity
      simp only [P, P0, hx, hz]
      refine near h (dz := 1 / √npts) (dp := Real.pi / √npts) ?_ ?_ ?_ ?_ ?_ ?_
      · simp only [x]; linarith
      · simp only [x]; linarith
      · linarith
      · linarith
      · simp only [x]
        exact abs_le.2 ⟨by linarith, by linarith⟩
      · simp only [y]
        rw [show 2 * Real.pi * ((i : ℝ) / Real.goldenRatio + (b i - 1 / 2) * (1 / √npts))
          - 2 * Real.pi * (i * (1 / Real.goldenRatio)) = 2 * Real.pi * ((b i - 1 / 2) * (1 / √npts)) by ring, abs_mul,
          abs_of_pos (by positivity : 0 < 2 * Real.pi)]
        calc 2 * Real.pi * |(b i - 1 / 2) * (1 / √(npts : ℝ))| ≤ 2 * Real.pi * (1 / 2 * (1 / √(npts : ℝ))) :=
              mul_le_mul_of_nonneg_left hd2 (by positivity)
          _ = Real.pi / √npts := by ring)
  have tri : (∑ i ∈ Finset.range npts, f (P i)) / npts - sphereAverage f
      = ((∑ i ∈ Finset.range npts, f (P0 i)) / npts - sphereAverage f) + (∑ i ∈ Finset.range npts, (f (P i) - f (P0 i))) / npts := by
    rw [Finset.sum_sub_distrib]
    ring
  rw [tri]
  refine (abs_add_le _ _).trans (add_le_add base ?_)
  rw [abs_div, abs_of_pos hn', div_le_iff₀ hn']
  refine (Finset.abs_sum_le_sum_abs _ _).trans (diff.trans ?_)
  have hb : 2 * (⌈√(npts : ℝ) / 2⌉₊ : ℝ) * (6 * L) ≤ L * (12 * (√npts + 1)) := by
    have : (⌈√(npts : ℝ) / 2⌉₊ : ℝ) * (12 * L) ≤ (√(npts : ℝ) + 1) * (12 * L) :=
      mul_le_mul_of_nonneg_right (by linarith) (by positivity)
    linarith
  refine (add_le_add (le_refl _) hb).trans (le_of_eq ?_)
  rw [he]
  field_simp

end Euphonic.Sampling
