import Verif.Model.Powder
import Verif.Props.Lattice
import Verif.Props.Sampling
import Verif.Lemmas.Split

/-! # Properties C76, C80: conversion of q-points, mode widths -/

set_option autoImplicit false

namespace Euphonic.Powder

open Lattice

/-! ## C76 -/

/-- Specification: the Cartesian vector with the given coefficients in a basis. -/
def combine (m : M3 ℝ) (f : V3 ℝ) : V3 ℝ :=
  ⟨f.x * m.a.x + f.y * m.b.x + f.z * m.c.x, f.x * m.a.y + f.y * m.b.y + f.z * m.c.y,
    f.x * m.a.z + f.y * m.b.z + f.z * m.c.z⟩

theorem solveT_combine (m : M3 ℝ) (h : cellVolume m ≠ 0) (q : V3 ℝ) :
    ∃ f, solveT m q = .ok f ∧ combine m f = q := by
  refine ⟨_, if_neg h, ?_⟩
  obtain ⟨⟨ax, ay, az⟩, ⟨bx, by', bz⟩, ⟨cx, cy, cz⟩⟩ := m
  obtain ⟨x, y, z⟩ := q
  have hd : ax * (by' * cz - bz * cy) + ay * (bz * cx - bx * cz) + az * (bx * cy - by' * cx) =
    cellVolume ⟨⟨ax, ay, az⟩, ⟨bx, by', bz⟩, ⟨cx, cy, cz⟩⟩ := rfl
  generalize cellVolume ⟨⟨ax, ay, az⟩, ⟨bx, by', bz⟩, ⟨cx, cy, cz⟩⟩ = D at h hd
  simp only [combine, V3.mk.injEq]
  refine ⟨?_, ?_, ?_⟩ <;> simp only [cellVolume, dot, cross] <;> field_simp
  · linear_combination x * hd
  · linear_combination y * hd
  · linear_combination z * hd

theorem combine_inj (m : M3 ℝ) (h : cellVolume m ≠ 0) (f g : V3 ℝ) (he : combine m f = combine m g) :
    f = g := by
  obtain ⟨⟨ax, ay, az⟩, ⟨bx, by', bz⟩, ⟨cx, cy, cz⟩⟩ := m
  obtain ⟨x, y, z⟩ := f
  obtain ⟨x', y', z'⟩ := g
  simp only [cellVolume, dot, cross] at h
  simp only [combine, V3.mk.injEq] at he ⊢
  obtain ⟨h1, h2, h3⟩ := he
  refine ⟨?_, ?_, ?_⟩ <;> apply mul_right_cancel₀ h
  · linear_combination (by' * cz - bz * cy) * h1 + (bz * cx - bx * cz) * h2 + (bx * cy - by' * cx) * h3
  · linear_combination (cy * az - cz * ay) * h1 + (cz * ax - cx * az) * h2 + (cx * ay - cy * ax) * h3
  · linear_combination (ay * bz - az * by') * h1 + (az * bx - ax * bz) * h2 + (ax * by' - ay * bx) * h3

theorem combine_smul (k : ℝ) (m : M3 ℝ) (f : V3 ℝ) : combine m (smul k f) = smul k (combine m f) := by
  simp only [combine, smul, V3.mk.injEq]; refine ⟨?_, ?_, ?_⟩ <;> ring

theorem recip_volume_ne (cv : M3 ℝ) (h : cellVolume cv ≠ 0) :
    cellVolume (reciprocalCell (2 * Real.pi) cv) ≠ 0 := by
  rw [C30_reciprocal_volume _ _ h]
  have := Real.pi_pos
  positivity

/-- **C76**. The fractional coordinates of Cartesian q-points, multiplied with the reciprocal cell, give
the q-points again (in the unit of the reciprocal cell), for every cell that is not flat. -/
theorem C76_cart_to_frac (conv : ℝ) (qpts : List (V3 ℝ)) (cv : M3 ℝ) (h : cellVolume cv ≠ 0) :
    ∃ l, qptsCartToFrac conv qpts cv = .ok l ∧
      l.map (combine (reciprocalCell (2 * Real.pi) cv)) = qpts.map (smul conv) := by
  have hr := recip_volume_ne cv h
  choose f hf1 hf2 using solveT_combine _ hr
  have : qpts.mapM (solveT (reciprocalCell (2 * Real.pi) cv)) = .ok (qpts.map f) :=
    mapM_ok_of_forall _ f _ fun q _ => hf1 q
  refine ⟨(qpts.map f).map (smul conv), ?_, ?_⟩
  · unfold qptsCartToFrac; rw [this]; rfl
  · rw [List.map_map, List.map_map]
    apply List.map_congr_left
    intro q _
    simp only [Function.comp, combine_smul, hf2]

/-- **C76**. And the other way round: fractional coordinates survive the conversion to Cartesian
coordinates and back. -/
theorem C76_frac_to_cart (l : List (V3 ℝ)) (cv : M3 ℝ) (h : cellVolume cv ≠ 0) :
    qptsCartToFrac 1 (l.map (combine (reciprocalCell (2 * Real.pi) cv))) cv = .ok l := by
  obtain ⟨l', h1, h2⟩ := C76_cart_to_frac 1 (l.map (combine (reciprocalCell (2 * Real.pi) cv))) cv h
  rw [h1]
  congr 1
  have hs : (smul (1 : ℝ)) = id := by funext v; exact smul_one' v
  rw [hs, List.map_id] at h2
  exact List.map_injective_iff.2 (fun f g => combine_inj _ (recip_volume_ne cv h) f g) h2

/-- **C76**. Whatever the sampling, cell and unit, the q-points at which a sphere is sampled have the
modulus asked for, and there are as many as the sampling promises.  (The numbers of points are limited
below as in `C74_qpts_sphere_partial`.) -/
theorem C76_sphere_modulus (npts : Nat) (m : Sampling.Method) (jitter : Sampling.Jitter)
    (rj : Nat → Sampling.Jitter) (rnd : Nat → ℝ × ℝ) (modQ conv : ℝ) (cv : M3 ℝ)
    (h : cellVolume cv ≠ 0) (hj : Sampling.RandomJitter jitter) (hm : m ≠ .unknown) (h0 : 0 < npts)
    (h6 : m = .improved → 6 ≤ npts) (h3 : m = .polarGrid → 3 ≤ npts) :
    ∃ l, sphereQptsFrac npts m jitter rj rnd modQ conv cv = .ok l ∧
      l.length = Sampling.pointCount npts m ∧
      ∀ f ∈ l, (combine (reciprocalCell (2 * Real.pi) cv) f).x ^ 2
        + (combine (reciprocalCell (2 * Real.pi) cv) f).y ^ 2
        + (combine (reciprocalCell (2 * Real.pi) cv) f).z ^ 2 = (conv * modQ) ^ 2 := by
  obtain ⟨s, hs, hlen, -, hu⟩ := Sampling.C74_qpts_sphere_partial npts m jitter rj rnd hj hm h0 h6 h3
  obtain ⟨l, h1, h2⟩ := C76_cart_to_frac conv (s.map (smul modQ)) cv h
  refine ⟨l, ?_, ?_, ?_⟩
  · unfold sphereQptsFrac; rw [hs]; exact h1
  · have := congrArg List.length h2
    simpa [hlen] using this
  · intro f hf
    have : combine (reciprocalCell (2 * Real.pi) cv) f ∈ l.map (combine (reciprocalCell (2 * Real.pi) cv)) :=
      List.mem_map_of_mem hf
    rw [h2, List.map_map] at this
    obtain ⟨v, hv, he⟩ := List.mem_map.1 this
    have hv1 := hu v hv
    unfold Sampling.IsUnitVec at hv1
    rw [← he]
    simp only [Function.comp, smul]
    linear_combination (conv * modQ) ^ 2 * hv1

/-- A triclinic cell sampled with 50 golden points of modulus 3/2 and with a polar grid. -/
example : ∃ l, sphereQptsFrac 50 .golden none (fun _ => none) (fun _ => (0, 0)) (3/2) 1
    ⟨⟨3, 0, 0⟩, ⟨1, 2, 0⟩, ⟨1/2, 1/3, 5⟩⟩ = .ok l ∧ l.length = 50 := by
  obtain ⟨l, h1, h2, -⟩ := C76_sphere_modulus 50 .golden none (fun _ => none) (fun _ => (0, 0)) (3/2) 1
    ⟨⟨3, 0, 0⟩, ⟨1, 2, 0⟩, ⟨1/2, 1/3, 5⟩⟩ (by simp only [cellVolume, dot, cross]; norm_num)
    (by simp [Sampling.RandomJitter]) (by decide) (by norm_num) (by simp) (by simp)
  exact ⟨l, h1, h2⟩

/-! ## C80 -/

theorem cbrt_cube (x : ℝ) : cbrt x ^ 3 = x := by
  unfold cbrt
  split_ifs with h
  · rw [← Real.rpow_natCast, ← Real.rpow_mul h]; norm_num
  · have h' : (0 : ℝ) ≤ -x := by linarith
    have : ((-x) ^ ((1 : ℝ) / 3)) ^ 3 = -x := by
      rw [← Real.rpow_natCast, ← Real.rpow_mul h']; norm_num
    linear_combination -this

theorem cube_inj {x y : ℝ} (h : x ^ 3 = y ^ 3) : x = y :=
  (Odd.strictMono_pow (by decide : Odd 3)).injective h

theorem cbrt_pos {x : ℝ} (h : 0 < x) : 0 < cbrt x := by
  unfold cbrt; rw [if_pos h.le]; exact Real.rpow_pos_of_pos h _

theorem cbrt_neg {x : ℝ} (h : x < 0) : cbrt x < 0 := by
  unfold cbrt; rw [if_neg (not_le.2 h)]
  have := Real.rpow_pos_of_pos (show 0 < -x by linarith) ((1 : ℝ) / 3)
  linarith

/-- Specification: the modulus of the gradient of a mode, for scalar (two dimensional) and vector (three
dimensional, three components) gradients. -/
noncomputable def gradModulus (g : NdArray) (i j : Nat) : ℝ :=
  if g.shape.length = 2 then g.val [i, j]
  else Real.sqrt (g.val [i, j, 0] ^ 2 + g.val [i, j, 1] ^ 2 + g.val [i, j, 2] ^ 2)

/-- The two shapes that are described. -/
def GoodShape (g : NdArray) : Prop := ∃ nq nm, g.shape = [nq, nm] ∨ g.shape = [nq, nm, 3]

theorem widths_val (cg cl : ℝ) (g : NdArray) (cv : M3 ℝ) (hcg : 0 < cg) (hg : GoodShape g) :
    ∃ w, modeGradientsToWidths cg cl g cv = .ok w ∧ w.shape = g.shape.take 2 ∧
      ∀ i j, w.val [i, j] = cl * (2 / cbrt ((g.shape.headD 0 : ℝ) * (cl ^ 3 * cellVolume cv))) *
        gradModulus g i j := by
  obtain ⟨nq, nm, hs | hs⟩ := hg
  · refine ⟨scale (cl / cg) (scale (2 / cbrt ((g.shape.headD 0 : ℝ) * (cl ^ 3 * cellVolume cv)))
      (scale cg g)), ?_, ?_, ?_⟩
    · simp [modeGradientsToWidths, scale, hs]
    · simp [scale, hs]
    · intro i j
      simp only [scale, gradModulus, hs, List.length_cons, List.length_nil]
      norm_num
      field_simp
  · refine ⟨scale (cl / cg) (scale (2 / cbrt ((g.shape.headD 0 : ℝ) * (cl ^ 3 * cellVolume cv)))
      (normLast (scale cg g))), ?_, ?_, ?_⟩
    · simp [modeGradientsToWidths, scale, hs]
    · simp [scale, hs, normLast]
    · intro i j
      simp only [scale, gradModulus, hs, List.length_cons, List.length_nil, normLast, List.cons_append,
        List.nil_append]
      rw [if_neg (by norm_num)]
      have : (cg * g.val [i, j, 0]) ^ 2 + (cg * g.val [i, j, 1]) ^ 2 + (cg * g.val [i, j, 2]) ^ 2 =
        cg ^ 2 * (g.val [i, j, 0] ^ 2 + g.val [i, j, 1] ^ 2 + g.val [i, j, 2] ^ 2) := by ring
      rw [this, Real.sqrt_mul (sq_nonneg _), Real.sqrt_sq hcg.le]
      field_simp

theorem cbrt_unit (n v cl : ℝ) (hcl : 0 < cl) : cbrt (n * (cl ^ 3 * v)) = cl * cbrt (n * v) := by
  apply cube_inj
  rw [cbrt_cube, mul_pow, cbrt_cube]; ring

/-- **C80**. For right handed cells and gradients of the two permitted shapes the width `w` of a mode with
gradient modulus `|g|` satisfies `w^3 * n_q * V = (2 |g|)^3`, has the sign of `|g|` (never negative for a
vector gradient), and there is one per mode.  `w` does not depend on the units `cg`, `cl`: it scales
linearly with the gradients and with the inverse cube root of the number of q-points. -/
theorem C80_widths_partial (cg cl : ℝ) (g : NdArray) (cv : M3 ℝ) (hcg : 0 < cg) (hcl : 0 < cl)
    (hg : GoodShape g) (hn : 0 < g.shape.headD 0) (hv : 0 < cellVolume cv) :
    ∃ w, modeGradientsToWidths cg cl g cv = .ok w ∧ w.shape = g.shape.take 2 ∧
      ∀ i j, w.val [i, j] ^ 3 * ((g.shape.headD 0 : ℝ) * cellVolume cv) = (2 * gradModulus g i j) ^ 3 ∧
        (0 ≤ gradModulus g i j → 0 ≤ w.val [i, j]) := by
  obtain ⟨w, h1, h2, h3⟩ := widths_val cg cl g cv hcg hg
  have hn' : (0 : ℝ) < g.shape.headD 0 := by exact_mod_cast hn
  have hp : 0 < (g.shape.headD 0 : ℝ) * cellVolume cv := mul_pos hn' hv
  have hc := cbrt_pos hp
  have h4 : ∀ i j, w.val [i, j] = 2 / cbrt ((g.shape.headD 0 : ℝ) * cellVolume cv) * gradModulus g i j := by
    intro i j
    rw [h3, cbrt_unit _ _ _ hcl]
    field_simp
  refine ⟨w, h1, h2, fun i j => ⟨?_, fun h => ?_⟩⟩
  · rw [h4]
    have h5 := cbrt_cube ((g.shape.headD 0 : ℝ) * cellVolume cv)
    generalize cbrt ((g.shape.headD 0 : ℝ) * cellVolume cv) = c at *
    rw [← h5]
    field_simp
  · rw [h4]; exact mul_nonneg (div_nonneg (by norm_num) hc.le) h

/-- **C80**. The modulus of a vector gradient is not negative, so neither is its width. -/
theorem C80_vector_nonneg (g : NdArray) (nq nm i j : Nat) (h : g.shape = [nq, nm, 3]) :
    0 ≤ gradModulus g i j := by
  unfold gradModulus
  rw [if_neg (by simp [h])]
  exact Real.sqrt_nonneg _

/-- **C80**. Vector gradients give the widths of their moduli. -/
theorem C80_vector_is_norm (cg cl : ℝ) (g s : NdArray) (cv : M3 ℝ) (nq nm : Nat) (hcg : 0 < cg)
    (hg : g.shape = [nq, nm, 3]) (hs : s.shape = [nq, nm])
    (hv : ∀ i j, s.val [i, j] = Real.sqrt (g.val [i, j, 0] ^ 2 + g.val [i, j, 1] ^ 2 + g.val [i, j, 2] ^ 2)) :
    ∃ w w', modeGradientsToWidths cg cl g cv = .ok w ∧ modeGradientsToWidths cg cl s cv = .ok w' ∧
      w.shape = w'.shape ∧ ∀ i j, w.val [i, j] = w'.val [i, j] := by
  obtain ⟨w, h1, h2, h3⟩ := widths_val cg cl g cv hcg ⟨nq, nm, .inr hg⟩
  obtain ⟨w', h1', h2', h3'⟩ := widths_val cg cl s cv hcg ⟨nq, nm, .inl hs⟩
  refine ⟨w, w', h1, h1', by simp [h2, h2', hg, hs], fun i j => ?_⟩
  rw [h3, h3']
  simp [gradModulus, hg, hs, hv]

/-- **C80**. Every other shape raises. -/
theorem C80_other_shapes (cg cl : ℝ) (g : NdArray) (cv : M3 ℝ) (hg : ¬ GoodShape g) :
    modeGradientsToWidths cg cl g cv = .error .valueError := by
  unfold modeGradientsToWidths
  have h2 : (scale cg g).shape = g.shape := rfl
  have hn : g.shape.length ≠ 2 := fun h => by
    obtain ⟨a, b, hab⟩ := List.length_eq_two.1 h
    exact hg ⟨a, b, .inl hab⟩
  have hn3 : ¬ (g.shape.length = 3 ∧ g.shape.getD 2 0 = 3) := fun h => by
    obtain ⟨a, b, c, hab⟩ := List.length_eq_three.1 h.1
    have := h.2
    rw [hab] at this
    exact hg ⟨a, b, .inr (by rw [hab]; simpa using this)⟩
  simp only [h2, if_neg hn3, if_pos hn]
  rfl

/-- **C80** fails for left handed cells: all widths of vector gradients other than zero are negative. -/
theorem C80_left_handed_negative (cg cl : ℝ) (g : NdArray) (cv : M3 ℝ) (nq nm : Nat) (hcg : 0 < cg)
    (hcl : 0 < cl) (hg : g.shape = [nq, nm, 3]) (hn : 0 < nq) (hv : cellVolume cv < 0) :
    ∃ w, modeGradientsToWidths cg cl g cv = .ok w ∧
      ∀ i j, 0 < gradModulus g i j → w.val [i, j] < 0 := by
  obtain ⟨w, h1, h2, h3⟩ := widths_val cg cl g cv hcg ⟨nq, nm, .inr hg⟩
  refine ⟨w, h1, fun i j h => ?_⟩
  have hn' : (0 : ℝ) < nq := by exact_mod_cast hn
  have hc : cbrt ((nq : ℝ) * (cl ^ 3 * cellVolume cv)) < 0 :=
    cbrt_neg (mul_neg_of_pos_of_neg hn' (mul_neg_of_pos_of_neg (by positivity) hv))
  rw [h3, hg]
  exact mul_neg_of_neg_of_pos (mul_neg_of_pos_of_neg hcl (div_neg_of_pos_of_neg (by norm_num) hc)) h

/-- Two q-points, three modes, gradients `(i, j, 2)` in a triclinic cell; the same cell with two vectors
exchanged is left handed. -/
noncomputable def exGrads : NdArray := ⟨[2, 3, 3], fun l => match l with
  | [i, _, 0] => i
  | [_, j, 1] => j
  | _ => 2⟩

example : GoodShape exGrads ∧ 0 < exGrads.shape.headD 0 ∧
    0 < cellVolume (⟨⟨3, 0, 0⟩, ⟨1, 2, 0⟩, ⟨1/2, 1/3, 5⟩⟩ : M3 ℝ) ∧
    cellVolume (⟨⟨1, 2, 0⟩, ⟨3, 0, 0⟩, ⟨1/2, 1/3, 5⟩⟩ : M3 ℝ) < 0 ∧ 0 < gradModulus exGrads 1 2 := by
  refine ⟨⟨2, 3, .inr rfl⟩, by decide, ?_, ?_, ?_⟩
  · simp only [cellVolume, dot, cross]; norm_num
  · simp only [cellVolume, dot, cross]; norm_num
  · simp only [gradModulus, exGrads, List.length_cons, List.length_nil]
    rw [if_neg (by norm_num)]
    apply Real.sqrt_pos.2
    norm_num

end Euphonic.Powder
