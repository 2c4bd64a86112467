import Verif.Props.Commensurate
import Verif.Props.Gradient
import Verif.Props.Asr
import Verif.Props.Dipole

/-!
# Acoustic modes at the gamma point (C130)

Force constants that are invariant under translations of the crystal give (at least) three zero frequencies at the gamma
point; the corrections `asr='reciprocal'` and `asr='realspace'` achieve this, up to their tolerance, for others.
-/

set_option autoImplicit false
set_option linter.unusedSectionVars false

namespace Euphonic.Acoustic

open Euphonic.Lattice Euphonic.Supercell Euphonic.Phases Euphonic.Images Euphonic.DynMat Euphonic.Reduced
open Euphonic.Gradient Euphonic.Commensurate
open scoped InnerProductSpace

/-- An operator that nearly annihilates a space of dimension `d` has `d` small eigenvalues. -/
theorem small_eigenvalues {E : Type} [NormedAddCommGroup E] [InnerProductSpace ℂ E] [FiniteDimensional ℂ E] {m : Nat}
    {T : E →L[ℂ] E} {l : Fin m → ℝ} {b : OrthonormalBasis (Fin m) ℂ E} (h : Eigen.Diag T l b) {d : Nat}
    (L : (Fin d → ℂ) →ₗ[ℂ] E) (hL : Function.Injective L) (ε : ℝ) (hε : ∀ x, ‖T (L x)‖ ≤ ε * ‖L x‖) :
    d ≤ (Finset.univ.filter fun i => |l i| ≤ ε).card := by
  classical
  by_contra hlt
  rw [not_le] at hlt
  let P : (Fin d → ℂ) →ₗ[ℂ] ({i : Fin m // |l i| ≤ ε} → ℂ) :=
    LinearMap.pi fun i => (innerSL ℂ (b i.1)).toLinearMap.comp L
  have hdim : Module.finrank ℂ ({i : Fin m // |l i| ≤ ε} → ℂ) < Module.finrank ℂ (Fin d → ℂ) := by
    rw [Module.finrank_fintype_fun_eq_card, Module.finrank_fintype_fun_eq_card, Fintype.card_fin, Fintype.card_subtype]
    exact hlt
  obtain ⟨x, hx, hx0⟩ := Submodule.exists_mem_ne_zero_of_ne_bot
    (LinearMap.ker_ne_bot_of_finrank_lt hdim : LinearMap.ker P ≠ ⊥)
  have hv0 : L x ≠ 0 := fun h0 => hx0 (hL (by rw [h0, map_zero]))
  have hz : ∀ i, |l i| ≤ ε → ⟪b i, L x⟫_ℂ = 0 := fun i hi => by
    have := congrFun (LinearMap.mem_ker.1 hx) ⟨i, hi⟩
    simpa [P] using this
  have hle := hε x
  have hε0 : 0 ≤ ε := by
    by_contra hneg
    have h1 : ε * ‖L x‖ < 0 := mul_neg_of_neg_of_pos (not_le.1 hneg) (norm_pos_iff.2 hv0)
    linarith [norm_nonneg (T (L x))]
  have h2 : ‖T (L x)‖ ^ 2 ≤ ε ^ 2 * ‖L x‖ ^ 2 := by
    rw [← mul_pow]
    exact pow_le_pow_left₀ (norm_nonneg _) hle 2
  rw [← b.sum_sq_norm_inner_right (T (L x)), ← b.sum_sq_norm_inner_right (L x), Finset.mul_sum] at h2
  obtain ⟨i, hi⟩ : ∃ i, ⟪b i, L x⟫_ℂ ≠ 0 := by
    by_contra hall
    push Not at hall
    apply hv0
    rw [← b.sum_repr' (L x)]
    simp [hall]
  have hterm : ∀ j, ‖⟪b j, T (L x)⟫_ℂ‖ ^ 2 = |l j| ^ 2 * ‖⟪b j, L x⟫_ℂ‖ ^ 2 := by
    intro j
    rw [h.inner_apply, norm_mul, mul_pow, Complex.norm_real, Real.norm_eq_abs]
  have h3 : ∑ j, ε ^ 2 * ‖⟪b j, L x⟫_ℂ‖ ^ 2 < ∑ j, ‖⟪b j, T (L x)⟫_ℂ‖ ^ 2 := by
    refine Finset.sum_lt_sum (fun j _ => ?_) ⟨i, Finset.mem_univ _, ?_⟩
    · rw [hterm]
      rcases le_or_gt (|l j|) ε with hj | hj
      · simp [hz j hj]
      · exact mul_le_mul_of_nonneg_right (pow_le_pow_left₀ hε0 hj.le 2) (sq_nonneg _)
    · rw [hterm]
      have hj : ε < |l i| := not_le.1 fun hj => hi (hz i hj)
      exact mul_lt_mul_of_pos_right (pow_lt_pow_left₀ hj hε0 (by norm_num)) (pow_pos (norm_pos_iff.2 hi) 2)
  linarith

theorem abs_freqOf (e : ℝ) : |freqOf e| = √|e| := by
  unfold freqOf
  split
  · rw [mul_neg_one, abs_neg, abs_of_nonneg (Real.sqrt_nonneg _)]
  · rw [abs_of_nonneg (Real.sqrt_nonneg _)]

variable {n N : Nat}

/-- The dynamical matrix with the corrections that are switched on. -/
def total (d : Mat n ℂ) (dipole asr loto : Option (Mat n ℂ)) : Mat n ℂ :=
  fun k l => d k l + orZero dipole k l + orZero asr k l + orZero loto k l

theorem weighted_eq (m : Fin n → ℝ) (hm : ∀ i, 0 < m i) (d : Mat n ℂ) (dipole asr loto : Option (Mat n ℂ))
    (k l : Fin (n * 3)) : weighted (massWeighting m) d dipole asr loto k l =
      total d dipole asr loto k l / ((√(m l.divNat) : ℝ) * (√(m k.divNat) : ℝ)) := by
  have : ((massWeighting m k l : ℝ) : ℂ) = 1 / ((√(m l.divNat) : ℝ) * (√(m k.divNat) : ℝ)) := by
    unfold massWeighting
    rw [Real.sqrt_mul (hm _).le]
    push_cast
    rfl
  cases dipole <;> cases asr <;> cases loto <;>
    simp [weighted, total, orZero, this, div_eq_mul_inv]

/-- Three orthonormal eigenvectors of the dynamical matrix with eigenvalues of at most `τ` give three frequencies of at
most `√(τ / m)`, with `m` the smallest mass. -/
theorem small_frequencies (m : Fin n → ℝ) (m0 : ℝ) (hm0 : 0 < m0) (hm : ∀ i, m0 ≤ m i) (d : Mat n ℂ)
    (dipole asr loto : Option (Mat n ℂ))
    (hA : ∀ k l, total d dipole asr loto l k = star (total d dipole asr loto k l)) {p : Nat}
    (v : Fin p → Fin (n * 3) → ℂ) (hv : ∀ i j, ∑ k, star (v i k) * v j k = if i = j then 1 else 0) (μ : Fin p → ℝ)
    (hμ : ∀ i k, ∑ l, total d dipole asr loto k l * v i l = (μ i : ℂ) * v i k) (τ : ℝ) (hτ : ∀ i, |μ i| ≤ τ)
    {eigh : (Fin (n * 3) → Fin (n * 3) → ℂ) → (Fin (n * 3) → ℝ) × (Fin (n * 3) → Fin (n * 3) → ℂ)} (he : IsEigh eigh) :
    p ≤ (Finset.univ.filter fun s =>
      |freqOf ((eigh (weighted (massWeighting m) d dipole asr loto)).1 s)| ≤ √(τ / m0)).card := by
  have hmp : ∀ i, 0 < m i := fun i => hm0.trans_le (hm i)
  set A := weighted (massWeighting m) d dipole asr loto with hAdef
  have hAw : ∀ k l, A l k = star (A k l) := by
    intro k l
    rw [hAdef, weighted_eq m hmp, weighted_eq m hmp, hA k l, star_div₀, star_mul']
    simp only [Complex.star_def, Complex.conj_ofReal]
    rw [mul_comm]
  obtain ⟨b, hb, -⟩ := diag_of_eigh he hAw
  let L : (Fin p → ℂ) →ₗ[ℂ] EuclideanSpace ℂ (Fin (n * 3)) :=
    { toFun := fun x => WithLp.toLp 2 fun k => ((√(m k.divNat) : ℝ) : ℂ) * ∑ i, x i * v i k
      map_add' := fun x y => by
        ext k
        simp [add_mul, Finset.sum_add_distrib, mul_add]
      map_smul' := fun c x => by
        ext k
        simp [Finset.mul_sum]
        refine Finset.sum_congr rfl fun i _ => ?_
        ring }
  have hs : ∀ i, (√(m i) : ℂ) ≠ 0 := fun i => by
    rw [Ne, Complex.ofReal_eq_zero]; exact (Real.sqrt_pos.2 (hmp i)).ne'
  -- the norm of a combination of the vectors
  have hnorm : ∀ x : Fin p → ℂ, ∑ k, ‖∑ i, x i * v i k‖ ^ 2 = ∑ i, ‖x i‖ ^ 2 := by
    intro x
    have h1 : ∑ k, star (∑ i, x i * v i k) * (∑ j, x j * v j k) = ∑ i, star (x i) * x i := by
      calc _ = ∑ k, ∑ i, ∑ j, star (x i) * x j * (star (v i k) * v j k) := by
            refine Finset.sum_congr rfl fun k _ => ?_
            rw [star_sum, Finset.sum_mul]
            refine Finset.sum_congr rfl fun i _ => ?_
            rw [Finset.mul_sum]
            refine Finset.sum_congr rfl fun j _ => ?_
            rw [star_mul']
            ring
        _ = ∑ i, ∑ j, star (x i) * x j * ∑ k, star (v i k) * v j k := by
            rw [Finset.sum_comm]
            refine Finset.sum_congr rfl fun i _ => ?_
            rw [Finset.sum_comm]
            refine Finset.sum_congr rfl fun j _ => ?_
            rw [Finset.mul_sum]
        _ = _ := by simp only [hv, mul_ite, mul_one, mul_zero, Finset.sum_ite_eq, Finset.mem_univ, if_true]
    have h2 : ∀ z : ℂ, star z * z = ((‖z‖ ^ 2 : ℝ) : ℂ) := fun z => by
      rw [Complex.star_def, Complex.conj_mul', Complex.ofReal_pow]
    simp only [h2] at h1
    exact_mod_cast h1
  have hτ0 : p ≠ 0 → 0 ≤ τ := fun hp => (abs_nonneg _).trans (hτ ⟨0, Nat.pos_of_ne_zero hp⟩)
  rcases Nat.eq_zero_or_pos p with rfl | hp
  · exact Nat.zero_le _
  have hτ0 := hτ0 hp.ne'
  have hLn : ∀ x, m0 * ∑ i, ‖x i‖ ^ 2 ≤ ‖L x‖ ^ 2 := by
    intro x
    rw [← hnorm, EuclideanSpace.norm_sq_eq, Finset.mul_sum]
    refine Finset.sum_le_sum fun k _ => ?_
    simp only [L, LinearMap.coe_mk, AddHom.coe_mk, norm_mul, mul_pow, Complex.norm_real, Real.norm_eq_abs, sq_abs,
      Real.sq_sqrt (hmp _).le]
    exact mul_le_mul_of_nonneg_right (hm _) (sq_nonneg _)
  have hinj : Function.Injective L := by
    rw [← LinearMap.ker_eq_bot, LinearMap.ker_eq_bot']
    intro x hx
    have h1 := hLn x
    rw [hx, norm_zero, zero_pow (by norm_num)] at h1
    have h2 : ∑ i, ‖x i‖ ^ 2 ≤ 0 := by
      by_contra hpos
      have := mul_pos hm0 (not_le.1 hpos)
      linarith
    have h3 := (Finset.sum_eq_zero_iff_of_nonneg (fun i _ => sq_nonneg ‖x i‖)).1
      (le_antisymm h2 (Finset.sum_nonneg fun i _ => sq_nonneg _))
    funext i
    exact norm_eq_zero.1 (pow_eq_zero_iff (two_ne_zero) |>.1 (h3 i (Finset.mem_univ _)))
  have hT : ∀ x, toOp A (L x) = WithLp.toLp 2 fun k => (∑ i, (x i * μ i) * v i k) / ((√(m k.divNat) : ℝ) : ℂ) := by
    intro x
    change toOp A (WithLp.toLp 2 _) = _
    rw [toOp_apply]
    congr 1
    funext k
    have h1 : ∀ l, A k l * (((√(m l.divNat) : ℝ) : ℂ) * ∑ i, x i * v i l) =
        ∑ i, (x i * (total d dipole asr loto k l * v i l)) / ((√(m k.divNat) : ℝ) : ℂ) := by
      intro l
      rw [hAdef, weighted_eq m hmp, ← Finset.sum_div, Finset.mul_sum, Finset.mul_sum, Finset.sum_div]
      refine Finset.sum_congr rfl fun i _ => ?_
      have := hs k.divNat
      have := hs l.divNat
      field_simp
    rw [Finset.sum_congr rfl fun l _ => h1 l, Finset.sum_comm, Finset.sum_div]
    refine Finset.sum_congr rfl fun i _ => ?_
    rw [← Finset.sum_div, ← Finset.mul_sum, hμ]
    ring
  have hTn : ∀ x, m0 * ‖toOp A (L x)‖ ^ 2 ≤ τ ^ 2 * ∑ i, ‖x i‖ ^ 2 := by
    intro x
    have h1 : τ ^ 2 * ∑ i, ‖x i‖ ^ 2 ≥ ∑ k, ‖∑ i, (x i * μ i) * v i k‖ ^ 2 := by
      rw [hnorm fun i => x i * μ i, Finset.mul_sum]
      refine Finset.sum_le_sum fun i _ => ?_
      rw [norm_mul, mul_pow, Complex.norm_real, Real.norm_eq_abs, mul_comm]
      exact mul_le_mul_of_nonneg_right (pow_le_pow_left₀ (abs_nonneg _) (hτ i) 2) (sq_nonneg _)
    refine le_trans ?_ h1
    rw [hT, EuclideanSpace.norm_sq_eq, Finset.mul_sum]
    refine Finset.sum_le_sum fun k _ => ?_
    simp only [norm_div, div_pow, Complex.norm_real, Real.norm_eq_abs, sq_abs, Real.sq_sqrt (hmp _).le]
    rw [mul_div_assoc', div_le_iff₀ (hmp _), mul_comm]
    exact mul_le_mul_of_nonneg_left (hm _) (sq_nonneg _)
  have hsmall : ∀ x, ‖toOp A (L x)‖ ≤ τ / m0 * ‖L x‖ := by
    intro x
    have h1 := hTn x
    have h2 := hLn x
    have h3 : ‖toOp A (L x)‖ ^ 2 ≤ (τ / m0 * ‖L x‖) ^ 2 := by
      have h4 : m0 * (m0 * ‖toOp A (L x)‖ ^ 2) ≤ τ ^ 2 * ‖L x‖ ^ 2 := by
        calc _ ≤ m0 * (τ ^ 2 * ∑ i, ‖x i‖ ^ 2) := mul_le_mul_of_nonneg_left h1 hm0.le
          _ = τ ^ 2 * (m0 * ∑ i, ‖x i‖ ^ 2) := by ring
          _ ≤ _ := mul_le_mul_of_nonneg_left h2 (sq_nonneg _)
      rw [mul_pow, div_pow, div_mul_eq_mul_div, le_div_iff₀ (pow_pos hm0 2)]
      linarith
    exact (pow_le_pow_iff_left₀ (norm_nonneg _) (mul_nonneg (div_nonneg hτ0 hm0.le) (norm_nonneg _)) two_ne_zero).1 h3
  refine (small_eigenvalues hb L hinj _ hsmall).trans (Finset.card_le_card fun s hs' => ?_)
  simp only [Finset.mem_filter, Finset.mem_univ, true_and] at hs' ⊢
  rw [abs_freqOf]
  exact Real.sqrt_le_sqrt hs'

/-! ## Specification -/

/-- All atoms displaced by the same amount in direction `b` feel no force. -/
def TranslationInvariant (fc : Fin N → Mat n ℝ) : Prop :=
  ∀ k b, ∑ c, ∑ l, (if l.modNat = b then fc c k l else 0) = 0

/-! ## Translation invariant force constants -/

theorem sum_split {M : Type} [AddCommMonoid M] (f : Fin (n * 3) → M) :
    ∑ k, f k = ∑ j : Fin n, ∑ a : Fin 3, f (finProdFinEquiv (j, a)) := by
  rw [← finProdFinEquiv.sum_comp, Fintype.sum_prod_type]

theorem divNat_pair (j : Fin n) (a : Fin 3) : (finProdFinEquiv (j, a)).divNat = j :=
  congrArg Prod.fst (finProdFinEquiv.symm_apply_apply (j, a))

theorem modNat_pair (j : Fin n) (a : Fin 3) : (finProdFinEquiv (j, a)).modNat = a :=
  congrArg Prod.snd (finProdFinEquiv.symm_apply_apply (j, a))

/-- The displacement of all atoms in direction `b`, normalised. -/
noncomputable def uniform (n : Nat) (b : Fin 3) (k : Fin (n * 3)) : ℂ := if k.modNat = b then ((√(n : ℝ))⁻¹ : ℝ) else 0

theorem uniform_ortho (hn : 0 < n) (a b : Fin 3) :
    ∑ k, star (uniform n a k) * uniform n b k = if a = b then 1 else 0 := by
  rw [sum_split]
  simp only [uniform, modNat_pair]
  have h1 : (((√(n : ℝ))⁻¹ : ℝ) : ℂ) * (((√(n : ℝ))⁻¹ : ℝ) : ℂ) * n = 1 := by
    have hnp : (0 : ℝ) < n := by exact_mod_cast hn
    rw [← Complex.ofReal_mul, ← Complex.ofReal_natCast, ← Complex.ofReal_mul, ← mul_inv, Real.mul_self_sqrt hnp.le,
      inv_mul_cancel₀ hnp.ne', Complex.ofReal_one]
  have h2 : ∀ c : Fin 3, star (if c = a then (((√(n : ℝ))⁻¹ : ℝ) : ℂ) else 0) * (if c = b then (((√(n : ℝ))⁻¹ : ℝ) : ℂ) else 0)
      = if c = a then (if a = b then (((√(n : ℝ))⁻¹ : ℝ) : ℂ) * (((√(n : ℝ))⁻¹ : ℝ) : ℂ) else 0) else 0 := by
    intro c
    by_cases hc : c = a
    · subst hc
      rw [if_pos rfl, if_pos rfl, Complex.star_def, Complex.conj_ofReal]
      split <;> simp
    · rw [if_neg hc, if_neg hc, star_zero, zero_mul]
  simp only [h2, Finset.sum_ite_eq', Finset.mem_univ, if_true, Finset.sum_const, Finset.card_univ, Fintype.card_fin,
    nsmul_eq_mul]
  split
  · rw [mul_comm, h1]
  · rw [mul_zero]

/-- A Hermitian matrix whose rows sum to zero in each direction gives three zero frequencies. -/
theorem zero_frequencies (hn : 0 < n) (m : Fin n → ℝ) (hm : ∀ i, 0 < m i) (d : Mat n ℂ)
    (dipole asr loto : Option (Mat n ℂ))
    (hA : ∀ k l, total d dipole asr loto l k = star (total d dipole asr loto k l))
    (h0 : ∀ k b, ∑ l, (if l.modNat = b then total d dipole asr loto k l else 0) = 0)
    {eigh : (Fin (n * 3) → Fin (n * 3) → ℂ) → (Fin (n * 3) → ℝ) × (Fin (n * 3) → Fin (n * 3) → ℂ)} (he : IsEigh eigh) :
    3 ≤ (Finset.univ.filter fun s => freqOf ((eigh (weighted (massWeighting m) d dipole asr loto)).1 s) = 0).card := by
  have : Nonempty (Fin n) := ⟨⟨0, hn⟩⟩
  obtain ⟨i0, hi0⟩ := Finite.exists_min m
  refine (small_frequencies m (m i0) (hm i0) hi0 d dipole asr loto hA (uniform n) (uniform_ortho hn) (fun _ => 0) ?_ 0
    (fun _ => by simp) he).trans (Finset.card_le_card fun s hs => ?_)
  · intro b k
    have h1 : ∀ l, total d dipole asr loto k l * uniform n b l =
        (if l.modNat = b then total d dipole asr loto k l else 0) * (((√(n : ℝ))⁻¹ : ℝ) : ℂ) := by
      intro l
      unfold uniform
      split <;> simp
    rw [Finset.sum_congr rfl fun l _ => h1 l, ← Finset.sum_mul, h0]
    simp
  · simp only [Finset.mem_filter, Finset.mem_univ, true_and, zero_div, Real.sqrt_zero] at hs ⊢
    exact abs_nonpos_iff.1 hs

theorem fits_int (S : M3 ℤ) (G : V3 ℤ) : Fits S (castV ℝ G) :=
  ⟨⟨G.x * S.a.x + G.y * S.a.y + G.z * S.a.z, G.x * S.b.x + G.y * S.b.y + G.z * S.b.z,
    G.x * S.c.x + G.y * S.c.y + G.z * S.c.z⟩, by simp [castV], by simp [castV], by simp [castV]⟩

theorem expQR_int (G R : V3 ℤ) : expQR (castV ℝ G) R = 1 := by
  unfold expQR
  rw [Complex.exp_eq_one_iff]
  refine ⟨G.x * R.x + G.y * R.y + G.z * R.z, ?_⟩
  simp only [castV]
  push_cast
  ring

section
variable (cv : M3 ℝ) (r : Fin n → V3 ℝ) (cells : Fin N → V3 ℤ) (c0 : Fin N) (S : M3 ℤ)

theorem fcDynMat_gamma (images : List (V3 ℤ)) (hok : ReducedSupercell cv r cells c0 S images)
    (fc junk : Fin N → Mat n ℝ) (G : V3 ℤ) (k l : Fin (n * 3)) :
    fcDynMat cv r cells c0 S images fc junk (castV ℝ G) k l = ∑ c, (fc c k l : ℂ) := by
  rw [C129_exact_partial cv r cells c0 S images hok fc junk _ (fits_int S G)]
  simp only [expQR_int, mul_one]

theorem gamma_rows (images : List (V3 ℤ)) (hok : ReducedSupercell cv r cells c0 S images)
    {fc : Fin N → Mat n ℝ} (ht : TranslationInvariant fc) (junk : Fin N → Mat n ℝ) (G : V3 ℤ) (k : Fin (n * 3)) (b : Fin 3) :
    ∑ l, (if l.modNat = b then fcDynMat cv r cells c0 S images fc junk (castV ℝ G) k l else 0) = 0 := by
  have h := ht k b
  rw [Finset.sum_comm] at h
  have h2 := congrArg (fun x : ℝ => (x : ℂ)) h
  simp only [Complex.ofReal_sum, Complex.ofReal_zero] at h2
  refine Eq.trans (Finset.sum_congr rfl fun l _ => ?_) h2
  split
  · rw [fcDynMat_gamma cv r cells c0 S images hok]
  · simp

theorem gamma_hermitian (images : List (V3 ℤ)) (hok : ReducedSupercell cv r cells c0 S images)
    {fc : Fin N → Mat n ℝ} {op : Fin N → Fin N} {t : Fin N → V3 ℤ} (hs : Symmetric cells S fc op t)
    (junk : Fin N → Mat n ℝ) (G : V3 ℤ) (k l : Fin (n * 3)) :
    fcDynMat cv r cells c0 S images fc junk (castV ℝ G) l k =
      star (fcDynMat cv r cells c0 S images fc junk (castV ℝ G) k l) := by
  rw [fcDynMat_gamma cv r cells c0 S images hok, fcDynMat_gamma cv r cells c0 S images hok, star_sum,
    ← (Function.Involutive.bijective hs.invol).sum_comp]
  refine Finset.sum_congr rfl fun c _ => ?_
  rw [hs.exchange, Complex.star_def, Complex.conj_ofReal]

/-- **C130** (partial: for reduced supercells) Force constants that are invariant under translations of the crystal give
at least three modes of zero frequency at the gamma point and at all reciprocal lattice vectors. -/
theorem C130_translation_partial (images : List (V3 ℤ)) (hok : ReducedSupercell cv r cells c0 S images)
    {fc : Fin N → Mat n ℝ} {op : Fin N → Fin N} {t : Fin N → V3 ℤ} (hs : Symmetric cells S fc op t)
    (ht : TranslationInvariant fc) (junk : Fin N → Mat n ℝ) (G : V3 ℤ) (hn : 0 < n) (m : Fin n → ℝ) (hm : ∀ i, 0 < m i)
    {eigh : (Fin (n * 3) → Fin (n * 3) → ℂ) → (Fin (n * 3) → ℝ) × (Fin (n * 3) → Fin (n * 3) → ℂ)} (he : IsEigh eigh) :
    3 ≤ (Finset.univ.filter fun s => freqOf ((eigh (weighted (massWeighting m)
      (fcDynMat cv r cells c0 S images fc junk (castV ℝ G)) none none none)).1 s) = 0).card := by
  refine zero_frequencies hn m hm _ none none none (fun k l => ?_) (fun k b => ?_) he
  · simp only [total, orZero, add_zero]
    exact gamma_hermitian cv r cells c0 S images hok hs junk G k l
  · simp only [total, orZero, add_zero]
    exact gamma_rows cv r cells c0 S images hok ht junk G k b

/-- **C130** (partial) The same with the dipole-dipole correction, if the tensor that is subtracted from it to keep the
sum rule is symmetric before it is symmetrised. -/
theorem C130_dipole_partial (images : List (V3 ℤ)) (hok : ReducedSupercell cv r cells c0 S images)
    {fc : Fin N → Mat n ℝ} {op : Fin N → Fin N} {t : Fin N → V3 ℤ} (hs : Symmetric cells S fc op t)
    (ht : TranslationInvariant fc) (junk : Fin N → Mat n ℝ) (G : V3 ℤ) (hn : 0 < n) (m : Fin n → ℝ) (hm : ∀ i, 0 < m i)
    (erfc : ℝ → ℝ) (o : Dipole.Ions n) (lam : ℝ) (hd : o.diel.transpose = o.diel)
    (hq : ∀ i a b, Dipole.q0Raw erfc o lam i a b = Dipole.q0Raw erfc o lam i b a)
    {eigh : (Fin (n * 3) → Fin (n * 3) → ℂ) → (Fin (n * 3) → ℝ) × (Fin (n * 3) → Fin (n * 3) → ℂ)} (he : IsEigh eigh) :
    3 ≤ (Finset.univ.filter fun s => freqOf ((eigh (weighted (massWeighting m)
      (fcDynMat cv r cells c0 S images fc junk (castV ℝ G)) (some (Dipole.dipoleCorrection erfc o lam (castV ℝ G)))
      none none)).1 s) = 0).card := by
  refine zero_frequencies hn m hm _ _ none none (fun k l => ?_) (fun k b => ?_) he
  · simp only [total, orZero, add_zero]
    rw [gamma_hermitian cv r cells c0 S images hok hs junk G k l, Dipole.C50_hermitian erfc o lam hd _ k l, star_add]
  · simp only [total, orZero, add_zero, ite_add_zero, Finset.sum_add_distrib]
    rw [gamma_rows cv r cells c0 S images hok ht junk G k b, zero_add, sum_split]
    simp only [modNat_pair, Finset.sum_ite_eq', Finset.mem_univ, if_true, Dipole.dipoleCorrection, divNat_pair]
    rw [Dipole.C50_acoustic_sum_partial, hq, sub_self, mul_zero]

end

/-! ## The correction in reciprocal space -/

/-- **C130** (partial: for real eigenvectors) With `asr='reciprocal'`, whatever the force constants, with and without the
dipole-dipole correction: if three acoustic modes are found, at least three frequencies at the gamma point are at most
`√(10^-14 / m)` (in atomic units), with `m` the smallest mass. -/
theorem C130_reciprocal_partial (m : Fin n → ℝ) (m0 : ℝ) (hm0 : 0 < m0) (hm : ∀ i, m0 ≤ m i) (d : Mat n ℂ)
    (dipole : Option (Mat n ℂ)) (hA : ∀ k l, total d dipole none none l k = star (total d dipole none none k l))
    {eigh : (Fin (n * 3) → Fin (n * 3) → ℂ) → (Fin (n * 3) → ℝ) × (Fin (n * 3) → Fin (n * 3) → ℂ)} (he : IsEigh eigh)
    (hreal : ∀ s k, star ((eigh (total d dipole none none)).2 s k) = (eigh (total d dipole none none)).2 s k)
    (corr : Mat n ℂ)
    (hc : Asr.enforceReciprocal n (fun k => k.modNat) (eigh (total d dipole none none)).1
      (eigh (total d dipole none none)).2 = some corr) :
    3 ≤ (Finset.univ.filter fun s =>
      |freqOf ((eigh (weighted (massWeighting m) d dipole (some corr) none)).1 s)| ≤ √(1 / 10 ^ 14 / m0)).card := by
  obtain ⟨h1, ac, hac, hlen, h2, -⟩ := Asr.C48_reciprocal_partial n (fun k : Fin (n * 3) => k.modNat) _ _ _ hA
    (he.ortho _ hA) (he.eigen _ hA) corr hc hreal
  obtain ⟨-, hnd, -, -⟩ := Asr.C48_selection _ _ _ _ hac
  have e : ∀ k l, total d dipole (some corr) none k l = total d dipole none none k l + corr k l := by
    intro k l
    simp [total, orZero]
  refine small_frequencies m m0 hm0 hm d dipole (some corr) none (fun k l => by rw [e, e, h1])
    (fun i => (eigh (total d dipole none none)).2 (ac[i.val]'(by omega))) ?_ (fun i => -(5 / 10 ^ 15 * (i.val : ℝ))) ?_ _ ?_ he
  · intro i j
    rw [he.ortho _ hA]
    congr 1
    rw [hnd.getElem_inj_iff, Fin.ext_iff]
  · intro i k
    simp only [e]
    exact h2 i.val (by omega) k
  · intro i
    have hi : (i.val : ℝ) ≤ 2 := by exact_mod_cast Nat.le_of_lt_succ i.isLt
    have hi0 : (0 : ℝ) ≤ i.val := Nat.cast_nonneg _
    rw [abs_neg, abs_of_nonneg (by positivity)]
    norm_num
    linarith

/-! ## The correction in real space -/

section
variable (cv : M3 ℝ) (r : Fin n → V3 ℝ) (cells : Fin N → V3 ℤ) (c0 : Fin N) (S : M3 ℤ)

/-- **C130** (partial: for acoustic modes that are the same in all cells, and reduced supercells) With
`asr='realspace'`: if three acoustic modes of the supercell are found, at least three frequencies at the gamma point are
at most `√(τ / m)`, with `m` the smallest mass and `τ` at most `10^-8` times each of the eigenvalues of the force
constant matrix before the correction. -/
theorem C130_realspace_partial (images : List (V3 ℤ)) (hok : ReducedSupercell cv r cells c0 S images)
    (hd : DistinctCells S cells) {rel : Fin N → Fin N → Fin N} (hrel : ∀ i j, IsTranslation S cells i j (rel i j))
    (h0 : cells c0 = ⟨0, 0, 0⟩)
    {fc : Fin N → Mat n ℝ} {op : Fin N → Fin N} {t : Fin N → V3 ℤ} (hs : Symmetric cells S fc op t)
    (junk : Fin N → Mat n ℝ) (G : V3 ℤ) (m : Fin n → ℝ) (m0 : ℝ) (hm0 : 0 < m0) (hm : ∀ i, m0 ≤ m i) {M : Nat}
    {eighR : (Fin N × Fin (n * 3) → Fin N × Fin (n * 3) → ℝ) → (Fin M → ℝ) × (Fin M → Fin N × Fin (n * 3) → ℝ)}
    (hortho : ∀ s s', ∑ k, (eighR (Asr.sqFc fc rel)).2 s k * (eighR (Asr.sqFc fc rel)).2 s' k = if s = s' then 1 else 0)
    (heig : ∀ s k, ∑ l, Asr.sqFc fc rel k l * (eighR (Asr.sqFc fc rel)).2 s l =
      (eighR (Asr.sqFc fc rel)).1 s * (eighR (Asr.sqFc fc rel)).2 s k)
    (ac : List (Fin M))
    (hac : Asr.acoustic (N * n) (fun k : Fin N × Fin (n * 3) => k.2.modNat)
      (fun s k => (((eighR (Asr.sqFc fc rel)).2 s k : ℝ) : ℂ)) = some ac)
    (hcell : ∀ s ∈ ac, ∀ c k, (eighR (Asr.sqFc fc rel)).2 s (c, k) = (eighR (Asr.sqFc fc rel)).2 s (c0, k))
    {eigh : (Fin (n * 3) → Fin (n * 3) → ℂ) → (Fin (n * 3) → ℝ) × (Fin (n * 3) → Fin (n * 3) → ℂ)} (he : IsEigh eigh) :
    ∃ τ : ℝ, 0 ≤ τ ∧ (∀ s, τ ≤ 1 / 10 ^ 8 * |(eighR (Asr.sqFc fc rel)).1 s|) ∧
    3 ≤ (Finset.univ.filter fun s => |freqOf ((eigh (weighted (massWeighting m)
      (fcDynMat cv r cells c0 S images (Asr.enforceRealspace c0 fc rel eighR) junk (castV ℝ G)) none none none)).1 s)|
        ≤ √(τ / m0)).card := by
  set sq := Asr.sqFc fc rel with hsq
  set ev := (eighR sq).1 with hev
  set w := (eighR sq).2 with hw
  obtain ⟨hlen, hnd, -, -⟩ := Asr.C48_selection _ _ _ _ hac
  obtain ⟨hsym, hcol⟩ := Asr.C48_square_matrix S cells hd fc op t hs rel hrel c0 h0
  obtain ⟨-, ⟨τ, hτ0, hτ, hmodes⟩, -⟩ := Asr.C48_realspace sq hsym ev w hortho heig ac hnd
  refine ⟨τ, hτ0, hτ, ?_⟩
  -- what the correction does to the force constants
  have hfc : ∀ c k l, Asr.enforceRealspace c0 fc rel eighR c k l = fc c k l -
      (ac.map fun s => (Asr.fcTol ev + ev s) * (w s (c0, k) * w s (c0, l))).sum := by
    intro c k l
    unfold Asr.enforceRealspace
    rw [hac]
    dsimp only
    unfold Asr.realCorrected
    rw [hcol]
    congr 2
    refine List.map_congr_left fun s hsm => ?_
    rw [← hcell s hsm c k]
  have hs' : Symmetric cells S (Asr.enforceRealspace c0 fc rel eighR) op t :=
    ⟨hs.invol, hs.origin, fun c k l => by
      rw [hfc, hfc, hs.exchange]
      congr 2
      refine List.map_congr_left fun s _ => ?_
      ring⟩
  -- the corrected square matrix, by cells
  have hN : (0 : ℝ) < N := by exact_mod_cast c0.pos
  have hrows : ∀ s ∈ ac, ∀ k, ∑ l, (∑ c, Asr.enforceRealspace c0 fc rel eighR c k l) * w s (c0, l) = -τ * w s (c0, k) := by
    intro s hsm k
    rw [← hmodes s hsm (c0, k), Fintype.sum_prod_type, Finset.sum_comm]
    refine Finset.sum_congr rfl fun l _ => ?_
    rw [Finset.sum_mul]
    have h1 : ∀ c, Asr.realCorrected sq ev w ac (c0, k) (c, l) * w s (c, l) =
        (fc (rel c0 c) l k - (ac.map fun s => (Asr.fcTol ev + ev s) * (w s (c0, k) * w s (c0, l))).sum) * w s (c0, l) := by
      intro c
      unfold Asr.realCorrected
      rw [hcell s hsm c l]
      congr 2
      congr 1
      refine List.map_congr_left fun s' hsm' => ?_
      rw [hcell s' hsm' c l]
    rw [Finset.sum_congr rfl fun c _ => h1 c, (rel_bijective hd hrel c0).sum_comp (fun d =>
      (fc d l k - (ac.map fun s => (Asr.fcTol ev + ev s) * (w s (c0, k) * w s (c0, l))).sum) * w s (c0, l)),
      ← (Function.Involutive.bijective hs.invol).sum_comp]
    refine Finset.sum_congr rfl fun c _ => ?_
    rw [hfc, ← hs.exchange, hs.invol]
  have hsqrt : ((√(N : ℝ) : ℝ) : ℂ) * ((√(N : ℝ) : ℝ) : ℂ) = (N : ℂ) := by
    rw [← Complex.ofReal_mul, Real.mul_self_sqrt hN.le, Complex.ofReal_natCast]
  refine small_frequencies m m0 hm0 hm _ none none none (fun k l => ?_)
    (fun i k => ((√(N : ℝ) : ℝ) : ℂ) * ((w (ac[i.val]'(by omega)) (c0, k) : ℝ) : ℂ)) ?_ (fun _ => -τ) ?_ τ ?_ he
  · simp only [total, orZero, add_zero]
    exact gamma_hermitian cv r cells c0 S images hok hs' junk G k l
  · intro i j
    have h1 := hortho (ac[i.val]'(by omega)) (ac[j.val]'(by omega))
    rw [Fintype.sum_prod_type] at h1
    have h2 : ∀ c, ∑ k, w (ac[i.val]'(by omega)) (c, k) * w (ac[j.val]'(by omega)) (c, k) =
        ∑ k, w (ac[i.val]'(by omega)) (c0, k) * w (ac[j.val]'(by omega)) (c0, k) := by
      intro c
      refine Finset.sum_congr rfl fun k _ => ?_
      rw [hcell _ (List.getElem_mem _) c k, hcell _ (List.getElem_mem _) c k]
    rw [Finset.sum_congr rfl fun c _ => h2 c, Finset.sum_const, Finset.card_univ, Fintype.card_fin, nsmul_eq_mul] at h1
    have h3 := congrArg (fun x : ℝ => (x : ℂ)) h1
    simp only [hnd.getElem_inj_iff] at h3
    rw [show (if i = j then (1 : ℂ) else 0) = (((if i.val = j.val then (1 : ℝ) else 0) : ℝ) : ℂ) by
      by_cases hij : i = j
      · simp [hij]
      · rw [if_neg hij, if_neg (fun h => hij (Fin.ext h))]; simp, ← h3]
    push_cast
    rw [Finset.mul_sum]
    refine Finset.sum_congr rfl fun k _ => ?_
    rw [star_mul', Complex.star_def, Complex.conj_ofReal, Complex.conj_ofReal, ← hsqrt]
    ring
  · intro i k
    have h1 := congrArg (fun x : ℝ => (x : ℂ)) (hrows _ (List.getElem_mem (by omega : i.val < ac.length)) k)
    simp only [Complex.ofReal_sum, Complex.ofReal_mul] at h1
    simp only [total, orZero, add_zero, fcDynMat_gamma cv r cells c0 S images hok]
    rw [mul_left_comm, ← h1, Finset.mul_sum]
    refine Finset.sum_congr rfl fun l _ => ?_
    ring
  · intro i
    rw [abs_neg, abs_of_nonneg hτ0]

end

/-! ## Violation and examples -/

namespace Lost

/-- Two atoms tied to each other by springs of strength `x` in the cell of `C123_lost`. -/
noncomputable def fc (x : ℝ) : Fin 1 → Mat 2 ℝ := fun _ k l =>
  if k.modNat = l.modNat then (if k.divNat = l.divNat then x else -x) else 0

/-- Positions. -/
noncomputable def r : Fin 2 → V3 ℝ := ![⟨0, 0, 0⟩, ⟨0, 1 / 2, 0⟩]

theorem invariant (x : ℝ) : TranslationInvariant (fc x) := by
  intro k b
  rw [Fin.sum_univ_one, sum_split]
  simp only [modNat_pair, divNat_pair, fc, Finset.sum_ite_eq', Finset.mem_univ, if_true, Fin.sum_univ_two]
  by_cases hb : k.modNat = b
  · rw [if_pos hb, if_pos hb]
    generalize k.divNat = i
    fin_cases i <;> simp
  · rw [if_neg hb, if_neg hb, add_zero]

theorem symmetric (x : ℝ) : Symmetric (fun _ : Fin 1 => (⟨0, 0, 0⟩ : V3 ℤ)) one (fc x) id (fun _ => ⟨0, 0, 0⟩) :=
  ⟨fun _ => rfl, fun _ => by decide, fun c k l => by simp only [fc, eq_comm]⟩

theorem volume : cellVolume (scVecs one skewed) ≠ 0 := by
  norm_num [cellVolume, scVecs, one, skewed, toCart, castV, dot, cross]

theorem far (i j : Fin 2) (hij : i ≠ j) (m : V3 ℤ) (hm : m ∈ shells2) :
    ¬ Nearest (scVecs one skewed) (pairVec skewed one ⟨0, 0, 0⟩ ⟨0, 0, 0⟩ (r i) (r j) m) := by
  intro hn
  rw [(mem_shells shells2_eq).2] at hm
  obtain ⟨hx, -, -⟩ := hm
  rw [nearest_iff] at hn
  have h1 := hn 1 0 0 (by simp) (by simp) (by simp)
  have h2 := hn (-1) 0 0 (by simp) (by simp) (by simp)
  have hx1 : (m.x : ℝ) ≤ 2 := by exact_mod_cast (abs_le.1 hx).2
  have hx2 : (-2 : ℝ) ≤ m.x := by exact_mod_cast (abs_le.1 hx).1
  have hi : (r i).y - (r j).y = 1 / 2 ∨ (r i).y - (r j).y = -1 / 2 := by
    fin_cases i <;> fin_cases j <;> first | exact absurd rfl hij | (norm_num [r])
  have hrx : ∀ i, (r i).x = 0 ∧ (r i).z = 0 := by intro i; fin_cases i <;> simp [r]
  simp only [dot, Images.sq, toCart, pairVec, scVecs, skewed, one, castV, mulMat, sub, add, (hrx i).1, (hrx j).1,
    (hrx i).2, (hrx j).2] at h1 h2
  push_cast at h1 h2
  norm_num at h1 h2
  rcases le_or_gt 0 m.y with hy | hy
  · rcases hy.eq_or_lt with hy0 | hy0
    · rw [← hy0] at h1 h2
      push_cast at h1 h2
      rcases hi with hi | hi <;> linarith
    · have : (1 : ℝ) ≤ m.y := by exact_mod_cast (by omega : 1 ≤ m.y)
      rcases hi with hi | hi <;> linarith
  · have : (m.y : ℝ) ≤ -1 := by exact_mod_cast (by omega : m.y ≤ -1)
    rcases hi with hi | hi <;> linarith

theorem near (i : Fin 2) : Nearest (scVecs one skewed) (pairVec skewed one ⟨0, 0, 0⟩ ⟨0, 0, 0⟩ (r i) (r i) ⟨0, 0, 0⟩) := by
  have : pairVec skewed one ⟨0, 0, 0⟩ ⟨0, 0, 0⟩ (r i) (r i) ⟨0, 0, 0⟩ = ⟨0, 0, 0⟩ := by
    simp [pairVec, sub, add, castV, mulMat, toCart]
  rw [this, nearest_iff]
  intro a b c _ _ _
  simp only [dot, Images.sq]
  nlinarith [sq_nonneg (toCart (scVecs one skewed) ⟨(a : ℝ), b, c⟩).x]

theorem dynMat_eq (x : ℝ) (junk : Fin 1 → Mat 2 ℝ) (k l : Fin (2 * 3)) :
    fcDynMat (N := 1) skewed r (fun _ => ⟨0, 0, 0⟩) 0 one shells2 (fc x) junk ⟨0, 0, 0⟩ k l =
      if k = l then (x : ℂ) else 0 := by
  obtain ⟨hnd, hm⟩ := mem_shells shells2_eq
  rw [C43_textbook _ _ _ _ _ _ hnd volume]
  unfold latticeSum
  have e : ∀ R : V3 ℤ, expQR ⟨0, 0, 0⟩ R = 1 := by
    intro R
    unfold expQR
    simp
  simp only [e, Finset.sum_const, nsmul_eq_mul, mul_one, Fin.sum_univ_one]
  by_cases hkl : k.divNat = l.divNat
  · rw [div_mul_cancel₀]
    · have hiff : k = l ↔ k.modNat = l.modNat := by
        refine ⟨fun h => by rw [h], fun h => ?_⟩
        exact finProdFinEquiv.symm.injective (Prod.ext hkl h)
      simp only [fc, hkl, if_true, ← hiff]
      split <;> simp
    · have : (⟨0, 0, 0⟩ : V3 ℤ) ∈ imageSet skewed r (fun _ : Fin 1 => (⟨0, 0, 0⟩ : V3 ℤ)) 0 one shells2 0 k.divNat l.divNat := by
        unfold imageSet
        simp only [Finset.mem_filter]
        refine ⟨List.mem_toFinset.2 ((hm _).2 (by simp)), ?_⟩
        rw [hkl]
        exact near _
      have hc := Finset.card_pos.2 ⟨_, this⟩
      exact_mod_cast hc.ne'
  · have hempty : imageSet skewed r (fun _ : Fin 1 => (⟨0, 0, 0⟩ : V3 ℤ)) 0 one shells2 0 k.divNat l.divNat = ∅ := by
      refine Finset.eq_empty_of_forall_notMem fun m hmem => ?_
      unfold imageSet at hmem
      simp only [Finset.mem_filter] at hmem
      exact far _ _ hkl m (List.mem_toFinset.1 hmem.1) hmem.2
    rw [hempty, if_neg (fun h => hkl (by rw [h]))]
    simp

end Lost

/-- **C130** *Violation:* in a supercell that is not reduced, translation invariant force constants may give no acoustic
modes at all: two atoms of mass 1 tied to each other have six frequencies `√x` at the gamma point. -/
theorem C130_lost (x : ℝ) (hx : 0 < x) (junk : Fin 1 → Mat 2 ℝ)
    {eigh : (Fin (2 * 3) → Fin (2 * 3) → ℂ) → (Fin (2 * 3) → ℝ) × (Fin (2 * 3) → Fin (2 * 3) → ℂ)} (he : IsEigh eigh) :
    TranslationInvariant (Lost.fc x) ∧
    Symmetric (fun _ : Fin 1 => (⟨0, 0, 0⟩ : V3 ℤ)) one (Lost.fc x) id (fun _ => ⟨0, 0, 0⟩) ∧
    ∀ s, freqOf ((eigh (weighted (massWeighting fun _ => 1) (fcDynMat (N := 1) skewed Lost.r (fun _ => ⟨0, 0, 0⟩) 0 one
      shells2 (Lost.fc x) junk ⟨0, 0, 0⟩) none none none)).1 s) = √x := by
  refine ⟨Lost.invariant x, Lost.symmetric x, fun s => ?_⟩
  have hA : ∀ k l, weighted (massWeighting fun _ => 1) (fcDynMat (N := 1) skewed Lost.r (fun _ => ⟨0, 0, 0⟩) 0 one
      shells2 (Lost.fc x) junk ⟨0, 0, 0⟩) none none none k l = if k = l then (x : ℂ) else 0 := by
    intro k l
    simp [weighted, massWeighting, Lost.dynMat_eq]
  generalize weighted (massWeighting fun _ => 1) (fcDynMat (N := 1) skewed Lost.r (fun _ => ⟨0, 0, 0⟩) 0 one
      shells2 (Lost.fc x) junk ⟨0, 0, 0⟩) none none none = A at hA
  have hH : ∀ k l, A l k = star (A k l) := by
    intro k l
    rw [hA, hA]
    by_cases h : k = l
    · simp [h]
    · rw [if_neg h, if_neg (Ne.symm h), star_zero]
  have h1 := he.eigen A hH s
  have h2 := he.ortho A hH s s
  obtain ⟨k, hk⟩ : ∃ k, (eigh A).2 s k ≠ 0 := by
    by_contra hall
    push Not at hall
    simp [hall] at h2
  have h3 := h1 k
  simp only [hA, ite_mul, zero_mul, Finset.sum_ite_eq, Finset.mem_univ, if_true] at h3
  have h4 : x = (eigh A).1 s := by exact_mod_cast mul_right_cancel₀ hk h3
  rw [← h4]
  unfold freqOf
  rw [if_neg (not_lt.2 hx.le), abs_of_pos hx]

theorem _root_.Euphonic.Commensurate.Chain.invariant : TranslationInvariant Chain.fc := by
  intro k b
  simp only [Fin.sum_univ_two, Chain.fc]
  rw [← Finset.sum_add_distrib]
  refine Finset.sum_eq_zero fun l _ => ?_
  by_cases h1 : l.modNat = b <;> by_cases h2 : k = l <;> simp [h1, h2]

/-- The chain of `Commensurate.Chain` is translation invariant: it has three modes of frequency zero at the gamma point. -/
example (junk : Fin 2 → Mat 1 ℝ) (m : Fin 1 → ℝ) (hm : ∀ i, 0 < m i)
    {eigh : (Fin (1 * 3) → Fin (1 * 3) → ℂ) → (Fin (1 * 3) → ℝ) × (Fin (1 * 3) → Fin (1 * 3) → ℂ)} (he : IsEigh eigh) :
    3 ≤ (Finset.univ.filter fun s => freqOf ((eigh (weighted (massWeighting m)
      (fcDynMat DynMat.Ex.cv DynMat.Ex.r DynMat.Ex.cells 0 DynMat.Ex.S shells2 Chain.fc junk (castV ℝ ⟨1, 0, -2⟩)) none none none)).1 s) = 0).card := by
  exact C130_translation_partial DynMat.Ex.cv DynMat.Ex.r DynMat.Ex.cells 0 DynMat.Ex.S shells2 Chain.ok Chain.symmetric
    Chain.invariant junk _ (by norm_num) m hm he

/-- The condition of `C130_dipole_partial` holds if the Born charges of all atoms are isotropic, as in rock salt. -/
theorem q0Raw_isotropic (erfc : ℝ → ℝ) (o : Dipole.Ions n) (lam : ℝ) (hd : o.diel.transpose = o.diel) (z : Fin n → ℝ)
    (hz : ∀ i a b, o.born i a b = if a = b then z i else 0) (i : Fin n) (a b : Fin 3) :
    Dipole.q0Raw erfc o lam i a b = Dipole.q0Raw erfc o lam i b a := by
  have hs : ∀ j, Dipole.q0Term erfc o lam i j a b = Dipole.q0Term erfc o lam i j b a := by
    intro j
    unfold Dipole.q0Term Dipole.fill Dipole.recipQ0Shell
    simp only [Dipole.kTerm_symm o lam _ a b, Dipole.hab_symm erfc o lam hd _ _ _ a b]
  have h1 : ∀ a b, Dipole.q0Raw erfc o lam i a b = ∑ j, ((z i * z j : ℝ) : ℂ) * Dipole.q0Term erfc o lam i j a b := by
    intro a b
    unfold Dipole.q0Raw
    refine Finset.sum_congr rfl fun j _ => ?_
    rw [Finset.sum_eq_single a, Finset.sum_eq_single b]
    · rw [hz, hz, if_pos rfl, if_pos rfl]
    · intro c _ hc
      rw [hz j, if_neg (Ne.symm hc), mul_zero, Complex.ofReal_zero, zero_mul]
    · simp
    · intro c _ hc
      refine Finset.sum_eq_zero fun c' _ => ?_
      rw [hz i, if_neg (Ne.symm hc), zero_mul, Complex.ofReal_zero, zero_mul]
    · simp
  rw [h1, h1]
  simp only [hs]

/-- `C130_dipole_partial` for the chain of `Commensurate.Chain` with any isotropic charge and dielectric constant. -/
example (junk : Fin 2 → Mat 1 ℝ) (m : Fin 1 → ℝ) (hm : ∀ i, 0 < m i) (erfc : ℝ → ℝ) (lam z ε : ℝ)
    {eigh : (Fin (1 * 3) → Fin (1 * 3) → ℂ) → (Fin (1 * 3) → ℝ) × (Fin (1 * 3) → Fin (1 * 3) → ℂ)} (he : IsEigh eigh) :
    let o : Dipole.Ions 1 := ⟨DynMat.Ex.cv, DynMat.Ex.r, fun _ a b => if a = b then z else 0, ε • 1⟩
    3 ≤ (Finset.univ.filter fun s => freqOf ((eigh (weighted (massWeighting m)
      (fcDynMat DynMat.Ex.cv DynMat.Ex.r DynMat.Ex.cells 0 DynMat.Ex.S shells2 Chain.fc junk (castV ℝ ⟨0, 0, 0⟩))
      (some (Dipole.dipoleCorrection erfc o lam (castV ℝ ⟨0, 0, 0⟩))) none none)).1 s) = 0).card := by
  intro o
  have hd : o.diel.transpose = o.diel := by simp [o]
  refine C130_dipole_partial DynMat.Ex.cv DynMat.Ex.r DynMat.Ex.cells 0 DynMat.Ex.S shells2 Chain.ok Chain.symmetric
    Chain.invariant junk _ (by norm_num) m hm erfc o lam hd
    (q0Raw_isotropic erfc o lam hd (fun _ => z) fun _ _ _ => rfl) he

/-- An eigensolver that returns the unit vectors for the unit matrix. -/
theorem exists_unit (p : ℂ) (hp : ‖p‖ = 1) :
    ∃ eigh : (Fin 3 → Fin 3 → ℂ) → (Fin 3 → ℝ) × (Fin 3 → Fin 3 → ℂ), IsEigh eigh ∧
      eigh (fun k l => if k = l then 1 else 0) = (fun _ => 1, Asr.phased p) := by
  classical
  obtain ⟨e, he⟩ := exists_isEigh 3
  refine ⟨fun A => if A = (fun k l => if k = l then (1 : ℂ) else 0) then (fun _ => 1, Asr.phased p) else e A,
    ⟨fun A hA => ?_, fun A hA => ?_, fun A hA => ?_⟩, if_pos rfl⟩
  · by_cases h : A = fun k l => if k = l then (1 : ℂ) else 0
    · rw [if_pos h]; exact monotone_const
    · rw [if_neg h]; exact he.mono A hA
  · by_cases h : A = fun k l => if k = l then (1 : ℂ) else 0
    · rw [if_pos h]; exact (Asr.phased_spec p hp).1
    · rw [if_neg h]; exact he.ortho A hA
  · by_cases h : A = fun k l => if k = l then (1 : ℂ) else 0
    · rw [if_pos h, h]; exact (Asr.phased_spec p hp).2
    · rw [if_neg h]; exact he.eigen A hA

/-- The hypotheses of `C130_reciprocal_partial` can be met: one atom with the force constants `1`. -/
example : ∃ eigh : (Fin (1 * 3) → Fin (1 * 3) → ℂ) → (Fin (1 * 3) → ℝ) × (Fin (1 * 3) → Fin (1 * 3) → ℂ), IsEigh eigh ∧
    let d : Mat 1 ℂ := fun k l => if k = l then 1 else 0
    (∀ k l, total d none none none l k = star (total d none none none k l)) ∧
    (∀ s k, star ((eigh (total d none none none)).2 s k) = (eigh (total d none none none)).2 s k) ∧
    ∃ corr, Asr.enforceReciprocal 1 (fun k => k.modNat) (eigh (total d none none none)).1
      (eigh (total d none none none)).2 = some corr := by
  obtain ⟨e, he, h1⟩ := exists_unit 1 (by simp)
  refine ⟨e, he, ?_⟩
  intro d
  have hd : total d none none none = fun k l => if k = l then 1 else 0 := by
    funext k l
    simp [total, orZero, d]
  have hm : (fun k : Fin (1 * 3) => (k.modNat : Fin 3)) = (id : Fin 3 → Fin 3) := by decide
  rw [hd]
  refine ⟨fun k l => ?_, fun s k => ?_, ?_⟩
  · by_cases h : k = l
    · simp [h]
    · simp [h, Ne.symm h]
  · have h2 : (e fun k l => if k = l then 1 else 0).2 = Asr.phased 1 := by rw [h1]
    change star ((e fun k l => if k = l then 1 else 0).2 s k) = (e fun k l => if k = l then 1 else 0).2 s k
    rw [h2]
    unfold Asr.phased
    split <;> simp
  · have h2 : (Asr.enforceReciprocal 1 (id : Fin 3 → Fin 3) (e fun k l => if k = l then 1 else 0).1
        (e fun k l => if k = l then 1 else 0).2).isSome := by
      rw [h1]
      unfold Asr.enforceReciprocal
      rw [Asr.acoustic_phased 1 (by simp)]
      rfl
    rw [← hm] at h2
    exact Option.isSome_iff_exists.1 h2

namespace RealSpace

open Euphonic.DynMat.Ex

/-- Force constants of two cells that are not translation invariant. -/
noncomputable def fc : Fin 2 → Mat 1 ℝ := fun c k l => if k = l then ![5, -3] c else 0

theorem symmetric : Symmetric cells S fc id ![⟨0, 0, 0⟩, ⟨-1, 0, 0⟩] where
  invol := fun _ => rfl
  origin := by decide
  exchange := by
    intro c k l
    simp only [fc, id, eq_comm]

/-- The eigenvectors: in each direction the two atoms move together or against each other. -/
noncomputable def evecs (s : Fin (2 * 3)) (p : Fin 2 × Fin (1 * 3)) : ℝ :=
  if p.2 = s.modNat then (if p.1 = 0 ∨ s.divNat = 0 then 1 / √2 else -(1 / √2)) else 0

/-- The eigenvalues. -/
noncomputable def evals (s : Fin (2 * 3)) : ℝ := ![2, 8] s.divNat

theorem two : (√2)⁻¹ * (√2)⁻¹ = (1 / 2 : ℝ) := by
  rw [← mul_inv, Real.mul_self_sqrt (by norm_num)]
  norm_num

theorem ortho (s s' : Fin (2 * 3)) : ∑ k, evecs s k * evecs s' k = if s = s' then 1 else 0 := by
  have hiff : s = s' ↔ s.divNat = s'.divNat ∧ s.modNat = s'.modNat :=
    ⟨fun h => by rw [h]; exact ⟨rfl, rfl⟩, fun h => finProdFinEquiv.symm.injective (Prod.ext h.1 h.2)⟩
  simp only [hiff]
  rw [Fintype.sum_prod_type, Fin.sum_univ_two]
  simp only [evecs]
  generalize s.divNat = i
  generalize s'.divNat = j
  generalize s.modNat = a
  generalize s'.modNat = b
  have h2 := two
  by_cases hab : a = b
  · subst hab
    fin_cases i <;> fin_cases j <;> simp <;> linarith
  · simp [hab, Ne.symm hab]

theorem eigen (s : Fin (2 * 3)) (k : Fin 2 × Fin (1 * 3)) :
    ∑ l, Asr.sqFc fc Chain.rel k l * evecs s l = evals s * evecs s k := by
  obtain ⟨c, k⟩ := k
  rw [Fintype.sum_prod_type, Fin.sum_univ_two]
  simp only [evecs, evals, Asr.sqFc, fc]
  generalize s.divNat = i
  generalize s.modNat = a
  by_cases hka : k = a
  · subst hka
    fin_cases i <;> fin_cases c <;> simp [Chain.rel] <;> ring
  · simp [hka, Ne.symm hka]

theorem com (s : Fin (2 * 3)) : Asr.comSq (fun k : Fin 2 × Fin (1 * 3) => (k.2.modNat : Fin 3))
    (fun k => ((evecs s k : ℝ) : ℂ)) = if s.divNat = 0 then 2 else 0 := by
  unfold Asr.comSq
  have h1 : ∀ d : Fin 3, (∑ k : Fin 2 × Fin (1 * 3), if (k.2.modNat : Fin 3) = d then ((evecs s k : ℝ) : ℂ) else 0) =
      if d = s.modNat then (if s.divNat = 0 then ((√2 : ℝ) : ℂ) else 0) else 0 := by
    intro d
    rw [Fintype.sum_prod_type, Fin.sum_univ_two, ← Finset.sum_add_distrib]
    have h2 : ∀ k : Fin (1 * 3), ((if (k.modNat : Fin 3) = d then ((evecs s (0, k) : ℝ) : ℂ) else 0) +
        if (k.modNat : Fin 3) = d then ((evecs s (1, k) : ℝ) : ℂ) else 0) =
        if k = (d : Fin 3) then (if (d : Fin 3) = s.modNat then (if s.divNat = 0 then ((√2 : ℝ) : ℂ) else 0) else 0) else 0 := by
      intro k
      have hk : (k.modNat : Fin 3) = (k : Fin 3) := by revert k; decide
      rw [hk]
      by_cases hkd : (k : Fin 3) = d
      · have hkd' : k = (d : Fin 3) := hkd
        rw [if_pos hkd, if_pos hkd, if_pos hkd', hkd']
        simp only [evecs]
        by_cases hd : d = s.modNat
        · rw [if_pos hd, if_pos hd, if_pos hd]
          have h3 : (1 / √2 + 1 / √2 : ℝ) = √2 := by
            have : √2 * √2 = 2 := Real.mul_self_sqrt (by norm_num)
            field_simp
            linarith
          by_cases hi : s.divNat = 0
          · simp only [hi, or_true, if_true]
            rw [← Complex.ofReal_add, h3]
          · simp [hi]
        · rw [if_neg hd, if_neg hd, if_neg hd]
          simp
      · rw [if_neg hkd, if_neg hkd, if_neg (show ¬ k = (d : Fin 3) from hkd), add_zero]
    rw [Finset.sum_congr rfl fun k _ => h2 k]
    simp
  simp only [h1]
  rw [Finset.sum_eq_single s.modNat]
  · rw [if_pos rfl]
    by_cases hi : s.divNat = 0
    · rw [if_pos hi, if_pos hi, Complex.norm_real, Real.norm_eq_abs, sq_abs, Real.sq_sqrt (by norm_num)]
    · rw [if_neg hi, if_neg hi]
      simp
  · intro d _ hd
    rw [if_neg hd]
    simp
  · simp

/-- The three modes in which the atoms move together are found; they are the same in both cells. -/
theorem found : ∃ ac, Asr.acoustic (2 * 1) (fun k : Fin 2 × Fin (1 * 3) => (k.2.modNat : Fin 3))
    (fun s k => ((evecs s k : ℝ) : ℂ)) = some ac ∧ ∀ s ∈ ac, ∀ c k, evecs s (c, k) = evecs s (0, k) := by
  cases h : Asr.acoustic (2 * 1) (fun k : Fin 2 × Fin (1 * 3) => (k.2.modNat : Fin 3))
    (fun s k => ((evecs s k : ℝ) : ℂ)) with
  | none =>
    exfalso
    unfold Asr.acoustic at h
    simp only [com] at h
    have hlen : ((List.finRange (2 * 3)).filter fun s => decide ((if s.divNat = 0 then (2 : ℝ) else 0) > 1 / 2 * ((2 * 1 : ℕ) : ℝ))).length = 3 := by
      have : (fun s : Fin (2 * 3) => decide ((if s.divNat = 0 then (2 : ℝ) else 0) > 1 / 2 * ((2 * 1 : ℕ) : ℝ))) =
          fun s => decide (s.divNat = 0) := by
        funext s
        by_cases hs : s.divNat = 0
        · simp [hs]
        · simp [hs]
      rw [this]
      decide
    rw [hlen] at h
    simp at h
  | some ac =>
    refine ⟨ac, rfl, fun s hs c k => ?_⟩
    obtain ⟨-, -, h1, -⟩ := Asr.C48_selection _ _ _ _ h
    have := h1 s hs
    rw [com] at this
    by_cases hi : s.divNat = 0
    · simp [evecs, hi]
    · rw [if_neg hi] at this
      norm_num at this

/-- `C130_realspace_partial` for this crystal, with the tolerance `2 * 10^-8`. -/
example (junk : Fin 2 → Mat 1 ℝ) (m : Fin 1 → ℝ) (m0 : ℝ) (hm0 : 0 < m0) (hm : ∀ i, m0 ≤ m i)
    {eigh : (Fin (1 * 3) → Fin (1 * 3) → ℂ) → (Fin (1 * 3) → ℝ) × (Fin (1 * 3) → Fin (1 * 3) → ℂ)} (he : IsEigh eigh) :
    3 ≤ (Finset.univ.filter fun s => |freqOf ((eigh (weighted (massWeighting m)
      (fcDynMat cv r cells 0 S shells2 (Asr.enforceRealspace 0 fc Chain.rel fun _ => (evals, evecs)) junk
        (castV ℝ ⟨0, 0, 0⟩)) none none none)).1 s)| ≤ √(2 / 10 ^ 8 / m0)).card := by
  obtain ⟨ac, hac, hcell⟩ := found
  obtain ⟨τ, -, hτ, h⟩ := C130_realspace_partial cv r cells 0 S shells2 Chain.ok Chain.distinct Chain.translation rfl symmetric
    junk ⟨0, 0, 0⟩ m m0 hm0 hm (eighR := fun _ => (evals, evecs)) ortho eigen ac hac hcell he
  refine h.trans (Finset.card_le_card fun s hs => ?_)
  simp only [Finset.mem_filter, Finset.mem_univ, true_and] at hs ⊢
  refine hs.trans (Real.sqrt_le_sqrt (div_le_div_of_nonneg_right ?_ hm0.le))
  have := hτ 0
  have he : evals 0 = 2 := by
    have : (0 : Fin (2 * 3)).divNat = 0 := by decide
    simp [evals, this]
  dsimp only at this
  rw [he] at this
  norm_num at this ⊢
  linarith

end RealSpace

end Euphonic.Acoustic
