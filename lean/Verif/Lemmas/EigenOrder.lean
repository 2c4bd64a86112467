import Verif.Lemmas.Eigen

/-!
# Eigenvalues and order

Eigenvalues rise with the quadratic form (Weyl), and change by bounded factors under a congruence (Ostrowski).
-/

set_option autoImplicit false

namespace Euphonic.Eigen

open scoped InnerProductSpace

variable {E : Type} [NormedAddCommGroup E] [InnerProductSpace ℂ E] [FiniteDimensional ℂ E] {m : Nat}

/-- A vector that is in the upper part for `S` and whose image is in the lower part for `T`. -/
theorem Diag.meet {T S : E →L[ℂ] E} {l μ : Fin m → ℝ} {b c : OrthonormalBasis (Fin m) ℂ E} (hT : Diag T l b)
    (hS : Diag S μ c) (R : E →ₗ[ℂ] E) (s : Fin m) :
    ∃ v, v ≠ 0 ∧ μ s * ‖v‖ ^ 2 ≤ (⟪v, S v⟫_ℂ).re ∧ (⟪R v, T (R v)⟫_ℂ).re ≤ l s * ‖R v‖ ^ 2 := by
  classical
  let L : E →ₗ[ℂ] ({j : Fin m // j ≠ s} → ℂ) :=
    LinearMap.pi fun j => if j.1 < s then (innerSL ℂ (c j.1)).toLinearMap else (innerSL ℂ (b j.1)).toLinearMap ∘ₗ R
  have hdim : Module.finrank ℂ ({j : Fin m // j ≠ s} → ℂ) < Module.finrank ℂ E := by
    rw [Module.finrank_fintype_fun_eq_card, Module.finrank_eq_card_basis b.toBasis, Fintype.card_subtype_compl,
      Fintype.card_fin, Fintype.card_unique]
    have := s.2
    omega
  obtain ⟨v, hv, hv0⟩ := Submodule.exists_mem_ne_zero_of_ne_bot (LinearMap.ker_ne_bot_of_finrank_lt hdim : LinearMap.ker L ≠ ⊥)
  have hc : ∀ j, j < s → ⟪c j, v⟫_ℂ = 0 := fun j hj => by
    have := congrFun (LinearMap.mem_ker.1 hv) ⟨j, hj.ne⟩
    simpa [L, hj] using this
  have hb : ∀ j, s < j → ⟪b j, R v⟫_ℂ = 0 := fun j hj => by
    have := congrFun (LinearMap.mem_ker.1 hv) ⟨j, hj.ne'⟩
    simpa [L, hj.not_gt] using this
  refine ⟨v, hv0, ?_, ?_⟩
  · rw [hS.quad, ← c.sum_sq_norm_inner_right v, Finset.mul_sum]
    refine Finset.sum_le_sum fun i _ => ?_
    rcases lt_or_ge i s with hi | hi
    · simp [hc i hi]
    · exact mul_le_mul_of_nonneg_right (hS.mono hi) (sq_nonneg _)
  · rw [hT.quad, ← b.sum_sq_norm_inner_right (R v), Finset.mul_sum]
    refine Finset.sum_le_sum fun i _ => ?_
    rcases le_or_gt i s with hi | hi
    · exact mul_le_mul_of_nonneg_right (hT.mono hi) (sq_nonneg _)
    · simp [hb i hi]

/-- A vector that is in the lower part for `S` and whose image is in the upper part for `T`. -/
theorem Diag.meet' {T S : E →L[ℂ] E} {l μ : Fin m → ℝ} {b c : OrthonormalBasis (Fin m) ℂ E} (hT : Diag T l b)
    (hS : Diag S μ c) (R : E →ₗ[ℂ] E) (s : Fin m) :
    ∃ v, v ≠ 0 ∧ (⟪v, S v⟫_ℂ).re ≤ μ s * ‖v‖ ^ 2 ∧ l s * ‖R v‖ ^ 2 ≤ (⟪R v, T (R v)⟫_ℂ).re := by
  classical
  let L : E →ₗ[ℂ] ({j : Fin m // j ≠ s} → ℂ) :=
    LinearMap.pi fun j => if j.1 < s then (innerSL ℂ (b j.1)).toLinearMap ∘ₗ R else (innerSL ℂ (c j.1)).toLinearMap
  have hdim : Module.finrank ℂ ({j : Fin m // j ≠ s} → ℂ) < Module.finrank ℂ E := by
    rw [Module.finrank_fintype_fun_eq_card, Module.finrank_eq_card_basis b.toBasis, Fintype.card_subtype_compl,
      Fintype.card_fin, Fintype.card_unique]
    have := s.2
    omega
  obtain ⟨v, hv, hv0⟩ := Submodule.exists_mem_ne_zero_of_ne_bot (LinearMap.ker_ne_bot_of_finrank_lt hdim : LinearMap.ker L ≠ ⊥)
  have hb : ∀ j, j < s → ⟪b j, R v⟫_ℂ = 0 := fun j hj => by
    have := congrFun (LinearMap.mem_ker.1 hv) ⟨j, hj.ne⟩
    simpa [L, hj] using this
  have hc : ∀ j, s < j → ⟪c j, v⟫_ℂ = 0 := fun j hj => by
    have := congrFun (LinearMap.mem_ker.1 hv) ⟨j, hj.ne'⟩
    simpa [L, hj.not_gt] using this
  refine ⟨v, hv0, ?_, ?_⟩
  · rw [hS.quad, ← c.sum_sq_norm_inner_right v, Finset.mul_sum]
    refine Finset.sum_le_sum fun i _ => ?_
    rcases le_or_gt i s with hi | hi
    · exact mul_le_mul_of_nonneg_right (hS.mono hi) (sq_nonneg _)
    · simp [hc i hi]
  · rw [hT.quad, ← b.sum_sq_norm_inner_right (R v), Finset.mul_sum]
    refine Finset.sum_le_sum fun i _ => ?_
    rcases lt_or_ge i s with hi | hi
    · simp [hb i hi]
    · exact mul_le_mul_of_nonneg_right (hT.mono hi) (sq_nonneg _)

/-- A larger quadratic form has larger eigenvalues. -/
theorem Diag.le_of_quad {T S : E →L[ℂ] E} {l μ : Fin m → ℝ} {b c : OrthonormalBasis (Fin m) ℂ E} (hT : Diag T l b)
    (hS : Diag S μ c) (h : ∀ v, (⟪v, T v⟫_ℂ).re ≤ (⟪v, S v⟫_ℂ).re) (s : Fin m) : l s ≤ μ s := by
  obtain ⟨v, hv, h1, h2⟩ := hT.meet' hS LinearMap.id s
  have hp : 0 < ‖v‖ ^ 2 := pow_pos (norm_pos_iff.2 hv) 2
  exact le_of_mul_le_mul_right ((h2.trans (h v)).trans h1) hp

/-- Ostrowski's theorem. -/
theorem Diag.congruence {T S : E →L[ℂ] E} {l μ : Fin m → ℝ} {b c : OrthonormalBasis (Fin m) ℂ E} (hT : Diag T l b)
    (hS : Diag S μ c) (R : E →ₗ[ℂ] E) (h : ∀ v, (⟪v, S v⟫_ℂ).re = (⟪R v, T (R v)⟫_ℂ).re) {lo hi : ℝ}
    (hlo : ∀ v, lo * ‖v‖ ^ 2 ≤ ‖R v‖ ^ 2) (hhi : ∀ v, ‖R v‖ ^ 2 ≤ hi * ‖v‖ ^ 2) (s : Fin m) :
    (0 ≤ l s → lo * l s ≤ μ s ∧ μ s ≤ hi * l s) ∧ (l s ≤ 0 → hi * l s ≤ μ s ∧ μ s ≤ lo * l s) := by
  obtain ⟨v, hv, h1, h2⟩ := hT.meet hS R s
  obtain ⟨w, hw, h3, h4⟩ := hT.meet' hS R s
  have hp : 0 < ‖v‖ ^ 2 := pow_pos (norm_pos_iff.2 hv) 2
  have hq : 0 < ‖w‖ ^ 2 := pow_pos (norm_pos_iff.2 hw) 2
  have hup := h1.trans ((h v).le.trans h2)
  have hdn := h4.trans ((h w).ge.trans h3)
  refine ⟨fun h0 => ⟨?_, ?_⟩, fun h0 => ⟨?_, ?_⟩⟩
  · refine le_of_mul_le_mul_right (le_trans ?_ hdn) hq
    have := mul_le_mul_of_nonneg_left (hlo w) h0
    linarith
  · refine le_of_mul_le_mul_right (hup.trans ?_) hp
    have := mul_le_mul_of_nonneg_left (hhi v) h0
    linarith
  · refine le_of_mul_le_mul_right (le_trans ?_ hdn) hq
    have := mul_le_mul_of_nonpos_left (hhi w) h0
    linarith
  · refine le_of_mul_le_mul_right (hup.trans ?_) hp
    have := mul_le_mul_of_nonpos_left (hlo v) h0
    linarith

end Euphonic.Eigen
