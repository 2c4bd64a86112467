import Verif.Lemmas.EigenOrder
import Verif.Props.Stability
import Verif.Props.Describe

/-!
# C144: how frequencies respond to masses and force constants
-/

set_option autoImplicit false

namespace Euphonic.Response

open Euphonic.Lattice Euphonic.Supercell Euphonic.Phases Euphonic.Images Euphonic.DynMat Euphonic.Describe Euphonic.Stability
open scoped InnerProductSpace

variable {n N : Nat}

/-! ## Specification -/

/-- The frequencies reported for the matrix `d` with the corrections and the masses given. -/
noncomputable def freqs (eigh : Mat n ℂ → (Fin (n * 3) → ℝ) × Mat n ℂ) (mass : Fin n → ℝ) (d : Mat n ℂ)
    (dip asr loto : Option (Mat n ℂ)) (s : Fin (n * 3)) : ℝ :=
  freqOf ((eigh (DynMat.weighted (massWeighting mass) d dip asr loto)).1 s)

/-- The matrix has no negative eigenvalues. -/
def NonNeg (A : Mat n ℂ) : Prop := ∀ v : Fin (n * 3) → ℂ, 0 ≤ (∑ j, ∑ k, star (v j) * v k * A j k).re

/-! ## Frequencies and eigenvalues -/

theorem freqOf_mul (c e : ℝ) (hc : 0 ≤ c) : freqOf (c * e) = √c * freqOf e := by
  rcases hc.eq_or_lt with rfl | hc
  · simp [freqOf]
  unfold freqOf
  have h : c * e < 0 ↔ e < 0 := by
    constructor
    · intro h
      by_contra h'
      exact absurd (mul_nonneg hc.le (not_lt.1 h')) (not_le.2 h)
    · exact fun h => mul_neg_of_pos_of_neg hc h
  simp only [h, abs_mul, abs_of_pos hc, Real.sqrt_mul hc.le]
  split
  · ring
  · rfl

theorem freqOf_le {e e' : ℝ} (h : e ≤ e') : freqOf e ≤ freqOf e' := by
  rcases h.eq_or_lt with rfl | h
  · exact le_rfl
  · exact ((C51_frequency_sign e).2.2.2.1 e' h).le

theorem freqOf_nonneg {e : ℝ} : 0 ≤ freqOf e ↔ 0 ≤ e := by
  rw [← not_lt, ← not_lt, (C51_frequency_sign e).2.1]

theorem freqOf_nonpos {e : ℝ} : freqOf e ≤ 0 ↔ e ≤ 0 := by
  rw [le_iff_lt_or_eq, le_iff_lt_or_eq, (C51_frequency_sign e).2.1, (C51_frequency_sign e).2.2.1]

/-! ## The matrix that is diagonalised -/

/-- Dividing by the square roots of other masses. -/
noncomputable def rescale (mass mass' : Fin n → ℝ) :
    EuclideanSpace ℂ (Fin (n * 3)) →ₗ[ℂ] EuclideanSpace ℂ (Fin (n * 3)) where
  toFun v := WithLp.toLp 2 fun k => ((√(mass k.divNat / mass' k.divNat) : ℝ) : ℂ) * v k
  map_add' v w := by
    ext k
    simp [mul_add]
  map_smul' c v := by
    ext k
    simp only [PiLp.smul_apply, smul_eq_mul, RingHom.id_apply]
    ring

theorem rescale_norm (mass mass' : Fin n → ℝ) (hm : ∀ i, 0 < mass i) (hm' : ∀ i, 0 < mass' i)
    (v : EuclideanSpace ℂ (Fin (n * 3))) :
    ‖rescale mass mass' v‖ ^ 2 = ∑ k, mass k.divNat / mass' k.divNat * ‖v k‖ ^ 2 := by
  rw [EuclideanSpace.norm_sq_eq]
  refine Finset.sum_congr rfl fun k _ => ?_
  show ‖((√(mass k.divNat / mass' k.divNat) : ℝ) : ℂ) * v k‖ ^ 2 = _
  rw [norm_mul, mul_pow, Complex.norm_real, Real.norm_of_nonneg (Real.sqrt_nonneg _),
    Real.sq_sqrt (div_pos (hm _) (hm' _)).le]

theorem rescale_quad (mass mass' : Fin n → ℝ) (hm : ∀ i, 0 < mass i) (hm' : ∀ i, 0 < mass' i) (d : Mat n ℂ)
    (dip asr loto : Option (Mat n ℂ)) (v : EuclideanSpace ℂ (Fin (n * 3))) :
    ⟪v, Gradient.toOp (DynMat.weighted (massWeighting mass') d dip asr loto) v⟫_ℂ =
      ⟪rescale mass mass' v, Gradient.toOp (DynMat.weighted (massWeighting mass) d dip asr loto) (rescale mass mass' v)⟫_ℂ := by
  have hv : v = WithLp.toLp 2 (fun k => v k) := rfl
  rw [hv, Gradient.inner_toOp]
  show _ = ⟪(WithLp.toLp 2 fun k => ((√(mass k.divNat / mass' k.divNat) : ℝ) : ℂ) * v k : EuclideanSpace ℂ (Fin (n * 3))), _⟫_ℂ
  show _ = ⟪_, Gradient.toOp _ (WithLp.toLp 2 fun k => ((√(mass k.divNat / mass' k.divNat) : ℝ) : ℂ) * v k :
    EuclideanSpace ℂ (Fin (n * 3)))⟫_ℂ
  rw [Gradient.inner_toOp]
  refine Finset.sum_congr rfl fun j _ => Finset.sum_congr rfl fun k _ => ?_
  rw [weighted_addOpt, weighted_addOpt, star_mul', Complex.star_def, Complex.conj_ofReal]
  have key : massWeighting mass' j k =
      √(mass j.divNat / mass' j.divNat) * √(mass k.divNat / mass' k.divNat) * massWeighting mass j k := by
    unfold massWeighting
    have a := Real.sqrt_pos.2 (hm j.divNat)
    have b := Real.sqrt_pos.2 (hm k.divNat)
    have a' := Real.sqrt_pos.2 (hm' j.divNat)
    have b' := Real.sqrt_pos.2 (hm' k.divNat)
    rw [Real.sqrt_mul (hm _).le, Real.sqrt_mul (hm' _).le, Real.sqrt_div (hm _).le, Real.sqrt_div (hm _).le]
    field_simp
  rw [key]
  push_cast
  ring

/-- Eigenvalues for other masses. -/
theorem evals_masses {eigh : Mat n ℂ → (Fin (n * 3) → ℝ) × Mat n ℂ} (he : IsEigh eigh) {mass mass' : Fin n → ℝ}
    (hm : ∀ i, 0 < mass i) (hm' : ∀ i, 0 < mass' i) {lo hi : ℝ} (hlo : ∀ i, lo ≤ mass i / mass' i)
    (hhi : ∀ i, mass i / mass' i ≤ hi) {d : Mat n ℂ} (hd : ∀ k l, d l k = star (d k l)) {dip asr loto : Option (Mat n ℂ)}
    (h1 : HermOpt dip) (h2 : HermOpt asr) (h3 : HermOpt loto) (s : Fin (n * 3)) :
    let e := (eigh (DynMat.weighted (massWeighting mass) d dip asr loto)).1 s
    let e' := (eigh (DynMat.weighted (massWeighting mass') d dip asr loto)).1 s
    (0 ≤ e → lo * e ≤ e' ∧ e' ≤ hi * e) ∧ (e ≤ 0 → hi * e ≤ e' ∧ e' ≤ lo * e) := by
  obtain ⟨b, hb, -⟩ := Gradient.diag_of_eigh he (weighted_herm mass hd h1 h2 h3)
  obtain ⟨c, hc, -⟩ := Gradient.diag_of_eigh he (weighted_herm mass' hd h1 h2 h3)
  refine hb.congruence hc (rescale mass mass') (fun v => congrArg _ (rescale_quad mass mass' hm hm' d dip asr loto v)) ?_ ?_ s
  · intro v
    rw [rescale_norm mass mass' hm hm', EuclideanSpace.norm_sq_eq, Finset.mul_sum]
    exact Finset.sum_le_sum fun k _ => mul_le_mul_of_nonneg_right (hlo _) (sq_nonneg _)
  · intro v
    rw [rescale_norm mass mass' hm hm', EuclideanSpace.norm_sq_eq, Finset.mul_sum]
    exact Finset.sum_le_sum fun k _ => mul_le_mul_of_nonneg_right (hhi _) (sq_nonneg _)

/-! ## The property -/

section masses
variable {eigh : Mat n ℂ → (Fin (n * 3) → ℝ) × Mat n ℂ} (he : IsEigh eigh) {mass mass' : Fin n → ℝ}
  (hm : ∀ i, 0 < mass i) (hm' : ∀ i, 0 < mass' i) {d : Mat n ℂ} (hd : ∀ k l, d l k = star (d k l))
  {dip asr loto : Option (Mat n ℂ)} (h1 : HermOpt dip) (h2 : HermOpt asr) (h3 : HermOpt loto)
include he hm hm' hd h1 h2 h3

/-- **C144**, masses: if every mass is divided by a factor between `lo` and `hi`, every frequency is multiplied with a factor
between `√lo` and `√hi`, also with the corrections for dipoles, the sum rule and the LO-TO splitting. -/
theorem C144_masses {lo hi : ℝ} (h0 : 0 ≤ lo) (hlo : ∀ i, lo ≤ mass i / mass' i) (hhi : ∀ i, mass i / mass' i ≤ hi)
    (s : Fin (n * 3)) :
    (0 ≤ freqs eigh mass d dip asr loto s →
      √lo * freqs eigh mass d dip asr loto s ≤ freqs eigh mass' d dip asr loto s ∧
      freqs eigh mass' d dip asr loto s ≤ √hi * freqs eigh mass d dip asr loto s) ∧
    (freqs eigh mass d dip asr loto s ≤ 0 →
      √hi * freqs eigh mass d dip asr loto s ≤ freqs eigh mass' d dip asr loto s ∧
      freqs eigh mass' d dip asr loto s ≤ √lo * freqs eigh mass d dip asr loto s) := by
  have hn : 0 < n := by
    have := s.2
    omega
  have h0' : 0 ≤ hi := h0.trans ((hlo ⟨0, hn⟩).trans (hhi ⟨0, hn⟩))
  obtain ⟨k1, k2⟩ := evals_masses he hm hm' hlo hhi hd h1 h2 h3 s
  unfold freqs
  rw [← freqOf_mul _ _ h0, ← freqOf_mul _ _ h0', freqOf_nonneg, freqOf_nonpos]
  exact ⟨fun h => ⟨freqOf_le (k1 h).1, freqOf_le (k1 h).2⟩, fun h => ⟨freqOf_le (k2 h).1, freqOf_le (k2 h).2⟩⟩

/-- **C144**, heavier atoms: no frequency moves away from zero, none changes its sign. -/
theorem C144_heavier (hle : ∀ i, mass i ≤ mass' i) (s : Fin (n * 3)) :
    (0 ≤ freqs eigh mass d dip asr loto s → 0 ≤ freqs eigh mass' d dip asr loto s ∧
      freqs eigh mass' d dip asr loto s ≤ freqs eigh mass d dip asr loto s) ∧
    (freqs eigh mass d dip asr loto s ≤ 0 → freqs eigh mass d dip asr loto s ≤ freqs eigh mass' d dip asr loto s ∧
      freqs eigh mass' d dip asr loto s ≤ 0) := by
  have := C144_masses he hm hm' hd h1 h2 h3 (lo := 0) (hi := 1) le_rfl (fun i => (div_pos (hm i) (hm' i)).le)
    (fun i => div_le_one_of_le₀ (hle i) (hm' i).le) s
  simpa only [Real.sqrt_zero, Real.sqrt_one, zero_mul, one_mul] using this

/-- **C144**, all masses multiplied with one factor: all frequencies are divided by its square root. -/
theorem C144_masses_scaled {c : ℝ} (hc : ∀ i, mass' i = c * mass i) (s : Fin (n * 3)) :
    freqs eigh mass' d dip asr loto s = freqs eigh mass d dip asr loto s / √c := by
  have hn : 0 < n := by
    have := s.2
    omega
  have hc0 : 0 < c := by
    have a := hm ⟨0, hn⟩
    have b := hm' ⟨0, hn⟩
    rw [hc] at b
    exact (mul_pos_iff_of_pos_right a).1 b
  have hr : ∀ i, mass i / mass' i = c⁻¹ := by
    intro i
    have := hm i
    rw [hc]
    field_simp
  obtain ⟨k1, k2⟩ := C144_masses he hm hm' hd h1 h2 h3 (inv_pos.2 hc0).le (fun i => (hr i).ge) (fun i => (hr i).le) s
  rw [div_eq_inv_mul, ← Real.sqrt_inv]
  rcases le_total 0 (freqs eigh mass d dip asr loto s) with h | h
  · exact le_antisymm (k1 h).2 (k1 h).1
  · exact le_antisymm (k2 h).2 (k2 h).1

/-- **C144**, signs: which of the modes, in order, are imaginary, and which have frequency zero, does not depend on the masses. -/
theorem C144_signs (s : Fin (n * 3)) :
    (freqs eigh mass' d dip asr loto s < 0 ↔ freqs eigh mass d dip asr loto s < 0) ∧
    (freqs eigh mass' d dip asr loto s = 0 ↔ freqs eigh mass d dip asr loto s = 0) := by
  have key : ∀ {mass mass' : Fin n → ℝ}, (∀ i, 0 < mass i) → (∀ i, 0 < mass' i) →
      (0 ≤ freqs eigh mass d dip asr loto s → 0 ≤ freqs eigh mass' d dip asr loto s) ∧
      (freqs eigh mass d dip asr loto s ≤ 0 → freqs eigh mass' d dip asr loto s ≤ 0) := by
    intro mass mass' hm hm'
    have := C144_masses he hm hm' hd h1 h2 h3 (lo := 0) (hi := ∑ i, mass i / mass' i) le_rfl
      (fun i => (div_pos (hm i) (hm' i)).le)
      (fun i => Finset.single_le_sum (f := fun i => mass i / mass' i) (fun j _ => (div_pos (hm j) (hm' j)).le) (Finset.mem_univ i)) s
    simp only [Real.sqrt_zero, zero_mul] at this
    exact ⟨fun h => (this.1 h).1, fun h => (this.2 h).2⟩
  obtain ⟨a, b⟩ := key hm hm'
  obtain ⟨a', b'⟩ := key hm' hm
  refine ⟨?_, ?_⟩
  · rw [← not_le, ← not_le, not_iff_not]
    exact ⟨a', a⟩
  · rw [le_antisymm_iff, le_antisymm_iff]
    exact ⟨fun h => ⟨b' h.1, a' h.2⟩, fun h => ⟨b h.1, a h.2⟩⟩

end masses

/-! ### Force constants -/

theorem weighted_smul (c : ℝ) (w : Mat n ℝ) (d : Mat n ℂ) (dip asr loto : Option (Mat n ℂ)) :
    DynMat.weighted w ((c : ℂ) • d) (dip.map ((c : ℂ) • ·)) (asr.map ((c : ℂ) • ·)) (loto.map ((c : ℂ) • ·)) =
      (c : ℂ) • DynMat.weighted w d dip asr loto := by
  funext k l
  cases dip <;> cases asr <;> cases loto <;>
    simp only [DynMat.weighted, Option.map_none, Option.map_some, Pi.add_apply, Pi.smul_apply, smul_eq_mul] <;> ring

theorem evals_smul {eigh : Mat n ℂ → (Fin (n * 3) → ℝ) × Mat n ℂ} (he : IsEigh eigh) {A : Mat n ℂ}
    (hA : ∀ k l, A l k = star (A k l)) {c : ℝ} (hc : 0 ≤ c) (s : Fin (n * 3)) : (eigh ((c : ℂ) • A)).1 s = c * (eigh A).1 s := by
  have hA' : ∀ k l, ((c : ℂ) • A) l k = star (((c : ℂ) • A) k l) := by
    intro k l
    simp only [Pi.smul_apply, smul_eq_mul, star_mul', hA k l, Complex.star_def, Complex.conj_ofReal]
  obtain ⟨b, hb, -⟩ := Gradient.diag_of_eigh he hA
  obtain ⟨b', hb', -⟩ := Gradient.diag_of_eigh he hA'
  have hop : ∀ v, Gradient.toOp ((c : ℂ) • A) v = (c : ℂ) • Gradient.toOp A v := by
    intro v
    have hv : v = WithLp.toLp 2 (fun k => v k) := rfl
    rw [hv, Gradient.toOp_apply, Gradient.toOp_apply]
    ext k
    simp only [Pi.smul_apply, smul_eq_mul, PiLp.smul_apply, Finset.mul_sum, mul_assoc]
  have hd : Eigen.Diag (Gradient.toOp ((c : ℂ) • A)) (fun s => c * (eigh A).1 s) b := by
    refine ⟨fun i j h => mul_le_mul_of_nonneg_left (hb.mono h) hc, fun i => ?_⟩
    rw [hop, hb.eigen, smul_smul, Complex.ofReal_mul]
  exact le_antisymm (hb'.le_of_quad hd (fun _ => le_rfl) s) (hd.le_of_quad hb' (fun _ => le_rfl) s)

/-- **C144**, everything multiplied with one factor: all frequencies are multiplied with its square root. -/
theorem C144_scaled {eigh : Mat n ℂ → (Fin (n * 3) → ℝ) × Mat n ℂ} (he : IsEigh eigh) (mass : Fin n → ℝ) {d : Mat n ℂ}
    (hd : ∀ k l, d l k = star (d k l)) {dip asr loto : Option (Mat n ℂ)} (h1 : HermOpt dip) (h2 : HermOpt asr)
    (h3 : HermOpt loto) {c : ℝ} (hc : 0 ≤ c) (s : Fin (n * 3)) :
    freqs eigh mass ((c : ℂ) • d) (dip.map ((c : ℂ) • ·)) (asr.map ((c : ℂ) • ·)) (loto.map ((c : ℂ) • ·)) s =
      √c * freqs eigh mass d dip asr loto s := by
  unfold freqs
  rw [weighted_smul, evals_smul he (weighted_herm mass hd h1 h2 h3) hc, freqOf_mul _ _ hc]

/-- **C144**, stiffer: if what is added to the matrix has no negative eigenvalues, no frequency falls. -/
theorem C144_stiffer {eigh : Mat n ℂ → (Fin (n * 3) → ℝ) × Mat n ℂ} (he : IsEigh eigh) {mass : Fin n → ℝ}
    (hm : ∀ i, 0 < mass i) {d δ : Mat n ℂ} (hd : ∀ k l, d l k = star (d k l)) (hδ : ∀ k l, δ l k = star (δ k l))
    {dip asr loto : Option (Mat n ℂ)} (h1 : HermOpt dip) (h2 : HermOpt asr) (h3 : HermOpt loto) (hp : NonNeg δ)
    (s : Fin (n * 3)) : freqs eigh mass d dip asr loto s ≤ freqs eigh mass (d + δ) dip asr loto s := by
  have hd' : ∀ k l, (d + δ) l k = star ((d + δ) k l) := by
    intro k l
    rw [Pi.add_apply, Pi.add_apply, Pi.add_apply, Pi.add_apply, star_add, hd k l, hδ k l]
  obtain ⟨b, hb, -⟩ := Gradient.diag_of_eigh he (weighted_herm mass hd h1 h2 h3)
  obtain ⟨b', hb', -⟩ := Gradient.diag_of_eigh he (weighted_herm mass hd' h1 h2 h3)
  refine freqOf_le (hb.le_of_quad hb' (fun v => ?_) s)
  have hv : v = WithLp.toLp 2 (fun k => v k) := rfl
  rw [hv, Gradient.inner_toOp, Gradient.inner_toOp]
  have hw : ∀ k l, DynMat.weighted (massWeighting mass) (d + δ) dip asr loto k l =
      DynMat.weighted (massWeighting mass) d dip asr loto k l + δ k l * massWeighting mass k l := by
    intro k l
    cases dip <;> cases asr <;> cases loto <;> simp only [DynMat.weighted, Pi.add_apply] <;> ring
  simp only [hw, mul_add, Finset.sum_add_distrib, Complex.add_re]
  have := hp fun k => ((1 / √(mass k.divNat) : ℝ) : ℂ) * v k
  have e : ∀ j k, star (((1 / √(mass j.divNat) : ℝ) : ℂ) * v j) * (((1 / √(mass k.divNat) : ℝ) : ℂ) * v k) * δ j k =
      star (v j) * v k * (δ j k * massWeighting mass j k) := by
    intro j k
    have hmw : massWeighting mass j k = 1 / √(mass j.divNat) * (1 / √(mass k.divNat)) := by
      unfold massWeighting
      rw [Real.sqrt_mul (hm _).le, one_div_mul_one_div, mul_comm]
    rw [hmw, star_mul', Complex.star_def, Complex.conj_ofReal]
    push_cast
    ring
  simp only [e] at this
  linarith

section forces
variable {cv : M3 ℝ} {r : Fin n → V3 ℝ} {cells : Fin N → V3 ℤ} {c0 : Fin N} {S : M3 ℤ}

theorem fcDynMat_linear (images : List (V3 ℤ)) (hnd : images.Nodup) (hv : cellVolume (scVecs S cv) ≠ 0)
    (fc fc' junk junk' junk'' : Fin N → Mat n ℝ) (c : ℝ) (q : V3 ℝ) :
    fcDynMat cv r cells c0 S images (fc + c • fc') junk q =
      fcDynMat cv r cells c0 S images fc junk' q + (c : ℂ) • fcDynMat cv r cells c0 S images fc' junk'' q := by
  simp only [C43_textbook cv r cells c0 S images hnd hv]
  funext k l
  simp only [latticeSum, Pi.add_apply, Pi.smul_apply, smul_eq_mul, Finset.mul_sum, ← Finset.sum_add_distrib]
  refine Finset.sum_congr rfl fun c _ => Finset.sum_congr rfl fun m _ => ?_
  push_cast
  ring

/-- **C144**, force constants multiplied with one factor: all frequencies at all wavevectors are multiplied with its square root. -/
theorem C144_force_constants_scaled {eigh : Mat n ℂ → (Fin (n * 3) → ℝ) × Mat n ℂ} (he : IsEigh eigh) (mass : Fin n → ℝ)
    (images : List (V3 ℤ)) (hnd : images.Nodup) (hc : Complete cv r cells c0 S images) (hv : cellVolume (scVecs S cv) ≠ 0)
    (h0 : cells c0 = ⟨0, 0, 0⟩) {fc : Fin N → Mat n ℝ} {op : Fin N → Fin N} {t : Fin N → V3 ℤ} (hs : Symmetric cells S fc op t)
    (junk junk' : Fin N → Mat n ℝ) {c : ℝ} (hc0 : 0 ≤ c) (q : V3 ℝ) (s : Fin (n * 3)) :
    freqs eigh mass (fcDynMat cv r cells c0 S images (c • fc) junk q) none none none s =
      √c * freqs eigh mass (fcDynMat cv r cells c0 S images fc junk' q) none none none s := by
  have h := C144_scaled he mass
    (fun k l => (C43_hermitian cv r cells c0 S hs h0 images hnd hc hv junk' q k l).1)
    (dip := none) (asr := none) (loto := none) (by simp [HermOpt]) (by simp [HermOpt]) (by simp [HermOpt]) hc0 s
  rw [← h]
  have e := fcDynMat_linear images hnd hv (cv := cv) (r := r) (cells := cells) (c0 := c0) 0 fc junk junk' junk' c q
  have z : fcDynMat cv r cells c0 S images (0 : Fin N → Mat n ℝ) junk' q = 0 := by
    rw [C43_textbook cv r cells c0 S images hnd hv]
    funext k l
    simp [latticeSum]
  rw [zero_add, z, zero_add] at e
  rw [e]
  rfl

/-- **C144**, force constants added whose own frequencies are all real: no frequency falls, whatever the corrections. -/
theorem C144_force_constants_added {eigh : Mat n ℂ → (Fin (n * 3) → ℝ) × Mat n ℂ} (he : IsEigh eigh) {mass : Fin n → ℝ}
    (hm : ∀ i, 0 < mass i) (images : List (V3 ℤ)) (hnd : images.Nodup) (hc : Complete cv r cells c0 S images)
    (hv : cellVolume (scVecs S cv) ≠ 0) (h0 : cells c0 = ⟨0, 0, 0⟩) {fc fc' : Fin N → Mat n ℝ} {op op' : Fin N → Fin N}
    {t t' : Fin N → V3 ℤ} (hs : Symmetric cells S fc op t) (hs' : Symmetric cells S fc' op' t')
    (junk junk' junk'' : Fin N → Mat n ℝ) {dip asr loto : Option (Mat n ℂ)} (h1 : HermOpt dip) (h2 : HermOpt asr)
    (h3 : HermOpt loto) (q : V3 ℝ)
    (hreal : ∀ s, 0 ≤ freqs eigh mass (fcDynMat cv r cells c0 S images fc' junk'' q) none none none s) (s : Fin (n * 3)) :
    freqs eigh mass (fcDynMat cv r cells c0 S images fc junk q) dip asr loto s ≤
      freqs eigh mass (fcDynMat cv r cells c0 S images (fc + fc') junk' q) dip asr loto s := by
  have hh := fun k l => (C43_hermitian cv r cells c0 S hs h0 images hnd hc hv junk q k l).1
  have hh' := fun k l => (C43_hermitian cv r cells c0 S hs' h0 images hnd hc hv junk'' q k l).1
  have e := fcDynMat_linear images hnd hv (cv := cv) (r := r) (cells := cells) (c0 := c0) fc fc' junk' junk junk'' 1 q
  rw [one_smul, Complex.ofReal_one, one_smul] at e
  rw [e]
  refine C144_stiffer he hm hh hh' h1 h2 h3 ?_ s
  intro v
  obtain ⟨b, hb, -⟩ := Gradient.diag_of_eigh he (weighted_herm mass hh' (dip := none) (asr := none) (loto := none)
    (by simp [HermOpt]) (by simp [HermOpt]) (by simp [HermOpt]))
  have hq := hb.quad (WithLp.toLp 2 fun k => ((√(mass k.divNat) : ℝ) : ℂ) * v k)
  rw [Gradient.inner_toOp] at hq
  have e : ∀ j k, star (((√(mass j.divNat) : ℝ) : ℂ) * v j) * (((√(mass k.divNat) : ℝ) : ℂ) * v k) *
      DynMat.weighted (massWeighting mass) (fcDynMat cv r cells c0 S images fc' junk'' q) none none none j k =
      star (v j) * v k * fcDynMat cv r cells c0 S images fc' junk'' q j k := by
    intro j k
    have hmw : √(mass j.divNat) * √(mass k.divNat) * massWeighting mass j k = 1 := by
      have a := Real.sqrt_pos.2 (hm j.divNat)
      have b := Real.sqrt_pos.2 (hm k.divNat)
      unfold massWeighting
      rw [Real.sqrt_mul (hm _).le]
      field_simp
    have hmw' : ((√(mass j.divNat) : ℝ) : ℂ) * ((√(mass k.divNat) : ℝ) : ℂ) * (massWeighting mass j k : ℂ) = 1 := by
      exact_mod_cast hmw
    rw [star_mul', Complex.star_def, Complex.conj_ofReal]
    simp only [DynMat.weighted]
    linear_combination ((starRingEnd ℂ) (v j) * v k * fcDynMat cv r cells c0 S images fc' junk'' q j k) * hmw'
  simp only [e] at hq
  rw [hq]
  exact Finset.sum_nonneg fun i _ => mul_nonneg (freqOf_nonneg.1 (hreal i)) (sq_nonneg _)

end forces

/-! ## Examples -/

namespace Ex

/-- A Hermitian matrix for two atoms, with a negative eigenvalue. -/
noncomputable def d : Mat 2 ℂ := fun k l => if k = l then 2 else if k.val + 1 = l.val then 2 * Complex.I
  else if l.val + 1 = k.val then -(2 * Complex.I) else 0

theorem herm (k l : Fin (2 * 3)) : d l k = star (d k l) := by
  unfold d
  by_cases h : k = l
  · simp [h]
  · rw [if_neg h, if_neg (Ne.symm h)]
    by_cases h1 : k.val + 1 = l.val
    · rw [if_pos h1, if_neg (by omega), if_pos h1]
      simp
    · by_cases h2 : l.val + 1 = k.val
      · rw [if_pos h2, if_neg h1, if_pos h2]
        simp
      · rw [if_neg h1, if_neg h2, if_neg h1, if_neg h2]
        simp

end Ex

/-- The first atom twice as heavy, with a correction. -/
example {eigh : Mat 2 ℂ → (Fin (2 * 3) → ℝ) × Mat 2 ℂ} (he : IsEigh eigh) (s : Fin (2 * 3)) :
    0 ≤ freqs eigh ![1, 3] Ex.d (some Ex.d) none none s →
      0 ≤ freqs eigh ![2, 3] Ex.d (some Ex.d) none none s ∧
      freqs eigh ![2, 3] Ex.d (some Ex.d) none none s ≤ freqs eigh ![1, 3] Ex.d (some Ex.d) none none s :=
  (C144_heavier he (fun i => by fin_cases i <;> simp) (fun i => by fin_cases i <;> simp) Ex.herm
    (fun M h => by cases h; exact Ex.herm) (by simp [HermOpt]) (by simp [HermOpt])
    (fun i => by fin_cases i <;> simp) s).1

example {eigh : Mat 2 ℂ → (Fin (2 * 3) → ℝ) × Mat 2 ℂ} (he : IsEigh eigh) (s : Fin (2 * 3)) :
    freqs eigh ![4, 12] Ex.d none none none s = freqs eigh ![1, 3] Ex.d none none none s / √4 :=
  C144_masses_scaled he (fun i => by fin_cases i <;> simp) (fun i => by fin_cases i <;> simp) Ex.herm
    (by simp [HermOpt]) (by simp [HermOpt]) (by simp [HermOpt]) (fun i => by fin_cases i <;> norm_num) s

example {eigh : Mat 2 ℂ → (Fin (2 * 3) → ℝ) × Mat 2 ℂ} (he : IsEigh eigh) (s : Fin (2 * 3)) :
    freqs eigh ![2, 3] Ex.d none none none s < 0 ↔ freqs eigh ![1, 70] Ex.d none none none s < 0 :=
  (C144_signs he (fun i => by fin_cases i <;> simp) (fun i => by fin_cases i <;> simp) Ex.herm
    (by simp [HermOpt]) (by simp [HermOpt]) (by simp [HermOpt]) s).1

/-- Force constants of the crystal of `DynMat.Ex`, four times as strong. -/
example : ∃ images, imageShells 2 = .ok images ∧ ∀ (q : V3 ℝ) (eigh : Mat 1 ℂ → (Fin (1 * 3) → ℝ) × Mat 1 ℂ), IsEigh eigh → ∀ s,
    freqs eigh (fun _ => 7) (fcDynMat DynMat.Ex.cv DynMat.Ex.r DynMat.Ex.cells 0 DynMat.Ex.S images ((4 : ℝ) • DynMat.Ex.fc)
      (fun _ _ _ => 0) q) none none none s =
    √4 * freqs eigh (fun _ => 7) (fcDynMat DynMat.Ex.cv DynMat.Ex.r DynMat.Ex.cells 0 DynMat.Ex.S images DynMat.Ex.fc
      (fun _ _ _ => 1) q) none none none s := by
  obtain ⟨ims, h1, h2, h3, -⟩ := C42_image_origins 2 DynMat.Ex.S
  refine ⟨ims, h1, fun q eigh he s => ?_⟩
  exact C144_force_constants_scaled he _ ims h2
    (DynMat.Ex.complete ims fun v hx hy hz => (h3 v).2 ⟨by exact_mod_cast hx, by exact_mod_cast hy, by exact_mod_cast hz⟩)
    DynMat.Ex.volume rfl DynMat.Ex.symmetric _ _ (by norm_num) q s

end Euphonic.Response
