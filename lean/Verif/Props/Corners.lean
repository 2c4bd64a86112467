import Verif.Props.ReorderPath

/-! # Property C150: corners of a path get labels -/

set_option autoImplicit false

namespace Euphonic.Corners

open Euphonic.Lattice Euphonic.Reorder

/-! ## Specification -/

/-- The steps before and after a point are not parallel, nor antiparallel: their cross product is not zero. -/
def Corner (a b c : V3 ℝ) : Prop :=
  ¬ ((b.y - a.y) * (c.z - b.z) = (b.z - a.z) * (c.y - b.y) ∧
    (b.z - a.z) * (c.x - b.x) = (b.x - a.x) * (c.z - b.z) ∧
    (b.x - a.x) * (c.y - b.y) = (b.y - a.y) * (c.x - b.x))

/-- The length of a step, in reciprocal lattice units. -/
noncomputable def len (a b : V3 ℝ) : ℝ := Real.sqrt ((b.x - a.x) ^ 2 + (b.y - a.y) ^ 2 + (b.z - a.z) ^ 2)

/-- Is the point `i` among the labelled points? -/
def HasLabel (table : List (String × V3 ℝ)) (t : V3 ℝ → String) (q : List (V3 ℝ)) (i : Nat) : Prop :=
  i ∈ (qpointLabels table t q).map (·.1)

/-- A path from gamma to (1/2, 0, 0) and on to (1/2, 1/2, 0) with `N` equal steps on each side. -/
noncomputable def elbow (N : Nat) : List (V3 ℝ) :=
  (List.range (2 * N + 1)).map fun i : Nat =>
    if i ≤ N then ⟨(i : ℝ) / (2 * N), 0, 0⟩ else ⟨1 / 2, ((i : ℝ) - N) / (2 * N), 0⟩

/-! ## C150 -/

/-- **C150**, the part that holds: a point at which the path bends by more than the tolerance, `|u| |v| (1 - |cos|) > 5e-6`
for the steps `u` and `v`, is labelled.  Missing: corners of paths with shorter steps, for which the claim is false
(`C150_fine_path`, `C150_elbow`). -/
theorem C150_corner_partial (table : List (String × V3 ℝ)) (t : V3 ℝ → String) (q : List (V3 ℝ)) (i : Nat)
    (hi : i + 2 < q.length) (hb : Bends q[i] q[i + 1] q[i + 2]) : HasLabel table t q (i + 1) := by
  refine ((C35_labelled_points table t q).2 (i + 1)).2 ⟨by omega, Or.inr (Or.inr (Or.inr (Or.inr ⟨by omega, ?_⟩)))⟩
  exact (bends_iff _ _ _).2 hb

/-- **C150**: a right angle is found if the product of the lengths of the two steps exceeds the tolerance. -/
theorem C150_right_angle (table : List (String × V3 ℝ)) (t : V3 ℝ → String) (q : List (V3 ℝ)) (i : Nat)
    (hi : i + 2 < q.length)
    (h0 : (q[i + 1].x - q[i].x) * (q[i + 2].x - q[i + 1].x) + (q[i + 1].y - q[i].y) * (q[i + 2].y - q[i + 1].y) +
      (q[i + 1].z - q[i].z) * (q[i + 2].z - q[i + 1].z) = 0)
    (hl : 5 / 10 ^ 6 < len q[i] q[i + 1] * len q[i + 1] q[i + 2]) : HasLabel table t q (i + 1) := by
  apply C150_corner_partial table t q i hi
  unfold Bends
  rw [h0, abs_zero, sub_zero]
  exact hl

/-- **C150** (violated): whatever its shape, a path with steps of at most 0.002 reciprocal lattice units (more exactly,
with products of the lengths of neighbouring steps of at most 5e-6) has labels at its ends, at gamma points and at
repeated points only; all its corners go without. -/
theorem C150_fine_path (table : List (String × V3 ℝ)) (t : V3 ℝ → String) (q : List (V3 ℝ)) (i : Nat)
    (hi : i + 2 < q.length) (hl : len q[i] q[i + 1] * len q[i + 1] q[i + 2] ≤ 5 / 10 ^ 6) :
    HasLabel table t q (i + 1) ↔ isGamma q[i + 1] = true ∨ q[i + 2] = q[i + 1] := by
  unfold HasLabel
  rw [(C35_labelled_points table t q).2 (i + 1)]
  have hnb : ¬ Bends q[i] q[i + 1] q[i + 2] := by
    unfold Bends
    intro h
    have := abs_nonneg ((q[i + 1].x - q[i].x) * (q[i + 2].x - q[i + 1].x) +
      (q[i + 1].y - q[i].y) * (q[i + 2].y - q[i + 1].y) + (q[i + 1].z - q[i].z) * (q[i + 2].z - q[i + 1].z))
    unfold len at hl
    linarith
  constructor
  · rintro ⟨h1, h | h | h | ⟨_, h⟩ | ⟨_, h⟩⟩
    · omega
    · omega
    · exact Or.inl h
    · exact Or.inr h
    · exact absurd ((bends_iff _ _ _).1 h) hnb
  · rintro (h | h)
    · exact ⟨by omega, Or.inr (Or.inr (Or.inl h))⟩
    · exact ⟨by omega, Or.inr (Or.inr (Or.inr (Or.inl ⟨by omega, h⟩)))⟩

theorem elbow_getElem (N i : Nat) (h : i < (elbow N).length) : (elbow N)[i] =
    if i ≤ N then ⟨(i : ℝ) / (2 * N), 0, 0⟩ else ⟨1 / 2, ((i : ℝ) - N) / (2 * N), 0⟩ := by
  simp [elbow]

/-- **C150** (violated): the right-angled corner of the path from gamma over (1/2, 0, 0) to (1/2, 1/2, 0) is labelled if
it has at most 223 steps on each side, and not labelled if it has more. -/
theorem C150_elbow (table : List (String × V3 ℝ)) (t : V3 ℝ → String) (N : Nat) (hN : 0 < N) :
    (∀ (h : N + 1 < (elbow N).length), Corner (elbow N)[N - 1] (elbow N)[N] (elbow N)[N + 1]) ∧
    (elbow N)[N]? = some ⟨1 / 2, 0, 0⟩ ∧ (HasLabel table t (elbow N) N ↔ N ≤ 223) := by
  have hlen : (elbow N).length = 2 * N + 1 := by simp [elbow]
  have hN' : (0 : ℝ) < N := by exact_mod_cast hN
  have e0 : ∀ h : N - 1 < (elbow N).length, (elbow N)[N - 1] = ⟨1 / 2 - 1 / (2 * N), 0, 0⟩ := by
    intro h
    rw [elbow_getElem, if_pos (by omega)]
    congr 1
    rw [Nat.cast_sub hN]
    field_simp
    push_cast
    ring
  have e1 : ∀ h : N < (elbow N).length, (elbow N)[N] = ⟨1 / 2, 0, 0⟩ := by
    intro h
    rw [elbow_getElem, if_pos le_rfl]
    congr 1
    field_simp
  have e2 : ∀ h : N + 1 < (elbow N).length, (elbow N)[N + 1] = ⟨1 / 2, 1 / (2 * N), 0⟩ := by
    intro h
    rw [elbow_getElem, if_neg (by omega)]
    congr 1
    push_cast
    ring
  have hs : (0 : ℝ) < 1 / (2 * N) := by positivity
  refine ⟨fun h => ?_, by rw [List.getElem?_eq_getElem (by omega), e1], ?_⟩
  · rw [e0 (by omega), e1 (by omega), e2 h]
    unfold Corner
    rintro ⟨_, _, h3⟩
    dsimp only at h3
    nlinarith
  · unfold HasLabel
    rw [(C35_labelled_points table t (elbow N)).2 N]
    have hg : isGamma (⟨1 / 2, 0, 0⟩ : V3 ℝ) = false := by
      unfold isGamma
      rw [decide_eq_false_iff_not, not_lt]
      have hz : ∀ z : ℤ, (1 / 2 : ℝ) ≤ |1 / 2 - (z : ℝ)| := by
        intro z
        rcases le_or_gt z 0 with h | h
        · have : (z : ℝ) ≤ 0 := by exact_mod_cast h
          rw [abs_of_nonneg (by linarith)]; linarith
        · have : (1 : ℝ) ≤ z := by exact_mod_cast h
          rw [abs_of_nonpos (by linarith)]; linarith
      unfold sumAbs rem
      dsimp only
      have h1 := hz (rint (1 / 2 : ℝ))
      have h2 := abs_nonneg ((0 : ℝ) - rint (0 : ℝ))
      have h3 : (1 : ℝ) / 10 ^ 15 ≤ 1 / 2 := by norm_num
      linarith
    have hb : Bends (⟨1 / 2 - 1 / (2 * N), 0, 0⟩ : V3 ℝ) ⟨1 / 2, 0, 0⟩ ⟨1 / 2, 1 / (2 * N), 0⟩ ↔ N ≤ 223 := by
      unfold Bends
      have s1 : ((1 / 2 : ℝ) - (1 / 2 - 1 / (2 * N))) ^ 2 + (0 - 0) ^ 2 + (0 - 0) ^ 2 = (1 / (2 * (N : ℝ))) ^ 2 := by ring
      have s2 : ((1 / 2 : ℝ) - 1 / 2) ^ 2 + (1 / (2 * (N : ℝ)) - 0) ^ 2 + (0 - 0) ^ 2 = (1 / (2 * (N : ℝ))) ^ 2 := by ring
      have s3 : ((1 / 2 : ℝ) - (1 / 2 - 1 / (2 * N))) * (1 / 2 - 1 / 2) + (0 - 0) * (1 / (2 * (N : ℝ)) - 0) +
          (0 - 0) * (0 - 0) = 0 := by ring
      dsimp only
      rw [s1, s2, s3, Real.sqrt_sq hs.le, abs_zero, sub_zero]
      have : 1 / (2 * (N : ℝ)) * (1 / (2 * N)) = 1 / (4 * (N : ℝ) ^ 2) := by field_simp; ring
      rw [this, lt_div_iff₀ (by positivity)]
      constructor
      · intro h
        by_contra hc
        have : (224 : ℝ) ≤ N := by exact_mod_cast Nat.lt_of_not_le hc
        nlinarith
      · intro h
        have : (N : ℝ) ≤ 223 := by exact_mod_cast h
        nlinarith
    constructor
    · rintro ⟨h1, h | h | h | ⟨h2, h⟩ | ⟨h2, h⟩⟩
      · omega
      · omega
      · rw [e1, hg] at h; cases h
      · rw [e1, e2] at h
        have := (V3.mk.injEq _ _ _ _ _ _ ▸ h : _ ∧ _ ∧ _).2.1
        exact absurd this hs.ne'
      · rw [bends_iff, e0, e1, e2] at h
        exact hb.1 h
    · intro h
      refine ⟨by omega, Or.inr (Or.inr (Or.inr (Or.inr ⟨by omega, ?_⟩)))⟩
      rw [bends_iff, e0, e1, e2]
      exact hb.2 h

/-! ## Non-vacuity -/

/-- A path with a corner that is found. -/
example (table : List (String × V3 ℝ)) (t : V3 ℝ → String) : HasLabel table t (elbow 100) 100 :=
  (C150_elbow table t 100 (by norm_num)).2.2.2 (by norm_num)

/-- A path with a corner that is not found. -/
example (table : List (String × V3 ℝ)) (t : V3 ℝ → String) : ¬ HasLabel table t (elbow 500) 500 :=
  fun h => absurd ((C150_elbow table t 500 (by norm_num)).2.2.1 h) (by norm_num)

/-- Steps of 0.002 meet the hypothesis of `C150_fine_path`. -/
example : len ⟨0, 0, 0⟩ ⟨1 / 500, 0, 0⟩ * len ⟨1 / 500, 0, 0⟩ ⟨1 / 500, 1 / 500, 0⟩ ≤ 5 / 10 ^ 6 := by
  unfold len
  have h1 : ((1 / 500 : ℝ) - 0) ^ 2 + (0 - 0) ^ 2 + (0 - 0) ^ 2 = (1 / 500) ^ 2 := by ring
  have h2 : ((1 / 500 : ℝ) - 1 / 500) ^ 2 + (1 / 500 - 0) ^ 2 + (0 - 0) ^ 2 = (1 / 500) ^ 2 := by ring
  rw [h1, h2, Real.sqrt_sq (by norm_num)]
  norm_num

end Euphonic.Corners
