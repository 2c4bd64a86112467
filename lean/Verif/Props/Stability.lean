import Verif.Props.DescribeLost
import Mathlib.Analysis.SpecialFunctions.Trigonometric.Bounds

/-!
# Frequencies change little when force constants or wavevectors change little (C133)

The eigenvalues in increasing order of two Hermitian matrices differ by at most the largest sum of a row of the differences of
their elements.  What the code calculates from force constants and wavevectors is therefore stable: errors of the force constants
(rounding, printed digits) are not magnified, and frequencies are continuous functions of the wavevector.
-/

set_option autoImplicit false
set_option linter.unusedSectionVars false

namespace Euphonic.Stability

open Euphonic.Lattice Euphonic.Supercell Euphonic.Phases Euphonic.Images Euphonic.DynMat Euphonic.Describe

/-! ## Eigenvalues of two Hermitian matrices -/

section weyl
variable {m : Nat} {eigh : (Fin m → Fin m → ℂ) → (Fin m → ℝ) × (Fin m → Fin m → ℂ)}

/-- Component of `v` along an eigenvector. -/
noncomputable def coef (eigh : (Fin m → Fin m → ℂ) → (Fin m → ℝ) × (Fin m → Fin m → ℂ)) (A : Fin m → Fin m → ℂ)
    (v : Fin m → ℂ) (s : Fin m) : ℂ := ∑ k, star ((eigh A).2 s k) * v k

theorem complete (he : IsEigh eigh) (A : Fin m → Fin m → ℂ) (hA : ∀ k l, A l k = star (A k l)) (k l : Fin m) :
    ∑ s, (eigh A).2 s k * star ((eigh A).2 s l) = if k = l then 1 else 0 := by
  set U : Matrix (Fin m) (Fin m) ℂ := Matrix.of fun k s => (eigh A).2 s k with hU
  have h1 : U.conjTranspose * U = 1 := by
    ext s s'
    rw [Matrix.mul_apply, Matrix.one_apply]
    exact he.ortho A hA s s'
  have h3 : U * U.conjTranspose = 1 := mul_eq_one_comm.1 h1
  have h2 := congrFun (congrFun h3 k) l
  rw [Matrix.mul_apply, Matrix.one_apply] at h2
  exact h2

theorem quad_eq (he : IsEigh eigh) (A : Fin m → Fin m → ℂ) (hA : ∀ k l, A l k = star (A k l)) (v : Fin m → ℂ) :
    ∑ k, ∑ l, star (v k) * A k l * v l = ((∑ s, (eigh A).1 s * ‖coef eigh A v s‖ ^ 2 : ℝ) : ℂ) := by
  have h1 : ∀ s, (((eigh A).1 s * ‖coef eigh A v s‖ ^ 2 : ℝ) : ℂ) =
      ∑ k, ∑ l, star (v k) * ((eigh A).2 s k * (eigh A).1 s * star ((eigh A).2 s l)) * v l := by
    intro s
    have e : ((‖coef eigh A v s‖ ^ 2 : ℝ) : ℂ) = star (coef eigh A v s) * coef eigh A v s := by
      rw [Complex.star_def, ← Complex.normSq_eq_conj_mul_self, Complex.normSq_eq_norm_sq]
    rw [Complex.ofReal_mul, e, coef, star_sum, Finset.sum_mul, Finset.mul_sum]
    refine Finset.sum_congr rfl fun k _ => ?_
    rw [Finset.mul_sum, Finset.mul_sum]
    refine Finset.sum_congr rfl fun l _ => ?_
    rw [star_mul', star_star]
    ring
  symm
  rw [Complex.ofReal_sum, Finset.sum_congr rfl fun s _ => h1 s, Finset.sum_comm]
  refine Finset.sum_congr rfl fun k _ => ?_
  rw [Finset.sum_comm]
  refine Finset.sum_congr rfl fun l _ => ?_
  rw [decompose he A hA k l, Finset.mul_sum, Finset.sum_mul]

theorem norm_eq (he : IsEigh eigh) (A : Fin m → Fin m → ℂ) (hA : ∀ k l, A l k = star (A k l)) (v : Fin m → ℂ) :
    ∑ s, ‖coef eigh A v s‖ ^ 2 = ∑ k, ‖v k‖ ^ 2 := by
  have e : ∀ z : ℂ, ((‖z‖ ^ 2 : ℝ) : ℂ) = star z * z := fun z => by
    rw [Complex.star_def, ← Complex.normSq_eq_conj_mul_self, Complex.normSq_eq_norm_sq]
  have h : ((∑ s, ‖coef eigh A v s‖ ^ 2 : ℝ) : ℂ) = ((∑ k, ‖v k‖ ^ 2 : ℝ) : ℂ) := by
    rw [Complex.ofReal_sum, Complex.ofReal_sum]
    simp only [e]
    have h1 : ∀ s, star (coef eigh A v s) * coef eigh A v s =
        ∑ k, ∑ l, star (v k) * v l * ((eigh A).2 s k * star ((eigh A).2 s l)) := by
      intro s
      rw [coef, star_sum, Finset.sum_mul]
      refine Finset.sum_congr rfl fun k _ => ?_
      rw [Finset.mul_sum]
      refine Finset.sum_congr rfl fun l _ => ?_
      rw [star_mul', star_star]
      ring
    rw [Finset.sum_congr rfl fun s _ => h1 s, Finset.sum_comm]
    refine Finset.sum_congr rfl fun k _ => ?_
    rw [Finset.sum_comm]
    have h2 : ∀ l, ∑ s, star (v k) * v l * ((eigh A).2 s k * star ((eigh A).2 s l)) = if k = l then star (v k) * v l else 0 := by
      intro l
      rw [← Finset.mul_sum, complete he A hA]
      split <;> simp
    rw [Finset.sum_congr rfl fun l _ => h2 l, Finset.sum_ite_eq, if_pos (Finset.mem_univ _)]
  exact_mod_cast h

open scoped Matrix in
/-- There is a vector that is orthogonal to the eigenvectors of `A` below and those of `B` above `s`. -/
theorem exists_vec (A B : Fin m → Fin m → ℂ) (s : Fin m) :
    ∃ v : Fin m → ℂ, v ≠ 0 ∧ (∀ t < s, coef eigh A v t = 0) ∧ ∀ t, s < t → coef eigh B v t = 0 := by
  set M : Matrix (Fin m) (Fin m) ℂ := Matrix.of fun t k =>
    if t < s then star ((eigh A).2 t k) else if s < t then star ((eigh B).2 t k) else 0 with hM
  have hd : M.det = 0 := Matrix.det_eq_zero_of_row_eq_zero s fun k => by simp [hM]
  obtain ⟨v, hv, h⟩ := Matrix.exists_mulVec_eq_zero_iff.2 hd
  refine ⟨v, hv, fun t ht => ?_, fun t ht => ?_⟩
  · have := congrFun h t
    simpa [Matrix.mulVec, dotProduct, hM, ht, coef] using this
  · have := congrFun h t
    simpa [Matrix.mulVec, dotProduct, hM, ht, ht.not_gt, coef] using this

/-- Sum of the absolute values of a row of `A - B`. -/
theorem quad_le (E : Fin m → Fin m → ℂ) (hE : ∀ k l, E l k = star (E k l)) (ρ : ℝ) (h : ∀ k, ∑ l, ‖E k l‖ ≤ ρ)
    (v : Fin m → ℂ) : ‖∑ k, ∑ l, star (v k) * E k l * v l‖ ≤ ρ * ∑ k, ‖v k‖ ^ 2 := by
  have h1 : ‖∑ k, ∑ l, star (v k) * E k l * v l‖ ≤ ∑ k, ∑ l, (‖E k l‖ * ‖v k‖ ^ 2 / 2 + ‖E k l‖ * ‖v l‖ ^ 2 / 2) := by
    refine (norm_sum_le _ _).trans (Finset.sum_le_sum fun k _ => (norm_sum_le _ _).trans (Finset.sum_le_sum fun l _ => ?_))
    rw [norm_mul, norm_mul, norm_star]
    nlinarith [mul_nonneg (norm_nonneg (E k l)) (sq_nonneg (‖v k‖ - ‖v l‖))]
  have h2 : ∑ k, ∑ l, ‖E k l‖ * ‖v l‖ ^ 2 / 2 = ∑ k, ∑ l, ‖E k l‖ * ‖v k‖ ^ 2 / 2 := by
    rw [Finset.sum_comm]
    refine Finset.sum_congr rfl fun k _ => Finset.sum_congr rfl fun l _ => ?_
    rw [hE, norm_star]
  refine h1.trans ?_
  simp only [Finset.sum_add_distrib]
  rw [h2, ← Finset.sum_add_distrib, Finset.mul_sum]
  refine Finset.sum_le_sum fun k _ => ?_
  rw [← Finset.sum_add_distrib]
  have h3 : ∑ l, (‖E k l‖ * ‖v k‖ ^ 2 / 2 + ‖E k l‖ * ‖v k‖ ^ 2 / 2) = (∑ l, ‖E k l‖) * ‖v k‖ ^ 2 := by
    rw [Finset.sum_mul]
    exact Finset.sum_congr rfl fun l _ => by ring
  rw [h3]
  exact mul_le_mul_of_nonneg_right (h k) (sq_nonneg _)

theorem weyl_le (he : IsEigh eigh) {A B : Fin m → Fin m → ℂ} (hA : ∀ k l, A l k = star (A k l))
    (hB : ∀ k l, B l k = star (B k l)) (ρ : ℝ) (h : ∀ k, ∑ l, ‖A k l - B k l‖ ≤ ρ) (s : Fin m) :
    (eigh A).1 s ≤ (eigh B).1 s + ρ := by
  obtain ⟨v, hv, h1, h2⟩ := exists_vec (eigh := eigh) A B s
  have hpos : 0 < ∑ k, ‖v k‖ ^ 2 := by
    obtain ⟨k, hk⟩ := Function.ne_iff.1 hv
    exact Finset.sum_pos' (fun k _ => sq_nonneg _) ⟨k, Finset.mem_univ _, by have := norm_pos_iff.2 hk; positivity⟩
  have hqA : (eigh A).1 s * ∑ k, ‖v k‖ ^ 2 ≤ ∑ t, (eigh A).1 t * ‖coef eigh A v t‖ ^ 2 := by
    rw [← norm_eq he A hA v, Finset.mul_sum]
    refine Finset.sum_le_sum fun t _ => ?_
    rcases lt_or_ge t s with ht | ht
    · rw [h1 t ht]; simp
    · exact mul_le_mul_of_nonneg_right (he.mono A hA ht) (sq_nonneg _)
  have hqB : ∑ t, (eigh B).1 t * ‖coef eigh B v t‖ ^ 2 ≤ (eigh B).1 s * ∑ k, ‖v k‖ ^ 2 := by
    rw [← norm_eq he B hB v, Finset.mul_sum]
    refine Finset.sum_le_sum fun t _ => ?_
    rcases lt_or_ge s t with ht | ht
    · rw [h2 t ht]; simp
    · exact mul_le_mul_of_nonneg_right (he.mono B hB ht) (sq_nonneg _)
  have hd : ∑ t, (eigh A).1 t * ‖coef eigh A v t‖ ^ 2 - ∑ t, (eigh B).1 t * ‖coef eigh B v t‖ ^ 2 ≤ ρ * ∑ k, ‖v k‖ ^ 2 := by
    have hE := quad_le (fun k l => A k l - B k l) (fun k l => by rw [star_sub, ← hA, ← hB]) ρ h v
    have hs : ∑ k, ∑ l, star (v k) * (A k l - B k l) * v l =
        ((∑ t, (eigh A).1 t * ‖coef eigh A v t‖ ^ 2 - ∑ t, (eigh B).1 t * ‖coef eigh B v t‖ ^ 2 : ℝ) : ℂ) := by
      rw [Complex.ofReal_sub, ← quad_eq he A hA v, ← quad_eq he B hB v, ← Finset.sum_sub_distrib]
      refine Finset.sum_congr rfl fun k _ => ?_
      rw [← Finset.sum_sub_distrib]
      exact Finset.sum_congr rfl fun l _ => by ring
    rw [hs, Complex.norm_real] at hE
    exact (le_abs_self _).trans hE
  have : (eigh A).1 s * ∑ k, ‖v k‖ ^ 2 ≤ ((eigh B).1 s + ρ) * ∑ k, ‖v k‖ ^ 2 := by linarith
  exact le_of_mul_le_mul_right this hpos

theorem weyl (he : IsEigh eigh) {A B : Fin m → Fin m → ℂ} (hA : ∀ k l, A l k = star (A k l))
    (hB : ∀ k l, B l k = star (B k l)) (ρ : ℝ) (h : ∀ k, ∑ l, ‖A k l - B k l‖ ≤ ρ) (s : Fin m) :
    |(eigh A).1 s - (eigh B).1 s| ≤ ρ := by
  have h1 := weyl_le he hA hB ρ h s
  have h2 := weyl_le he hB hA ρ (fun k => by simpa only [norm_sub_rev] using h k) s
  rw [abs_le]
  constructor <;> linarith

end weyl

/-! ## Frequencies of eigenvalues -/

theorem freqOf_sub_le (x y : ℝ) : |freqOf x - freqOf y| ≤ √(2 * |x - y|) := by
  apply Real.le_sqrt_of_sq_le
  rw [sq_abs]
  have key : ∀ x y : ℝ, (freqOf x - freqOf y) ^ 2 ≤ 2 * |x - y| := by
    have hs : ∀ a b : ℝ, 0 ≤ a → 0 ≤ b → (√a - √b) ^ 2 ≤ 2 * |a - b| := by
      intro a b ha hb
      have e : |a - b| = |√a - √b| * (√a + √b) := by
        have : a - b = (√a - √b) * (√a + √b) := by
          nlinarith [Real.sq_sqrt ha, Real.sq_sqrt hb]
        rw [this, abs_mul, abs_of_nonneg (add_nonneg (Real.sqrt_nonneg a) (Real.sqrt_nonneg b))]
      rw [e, ← sq_abs]
      have h1 : |√a - √b| ≤ √a + √b := by
        rw [abs_le]; constructor <;> linarith [Real.sqrt_nonneg a, Real.sqrt_nonneg b]
      nlinarith [abs_nonneg (√a - √b)]
    intro x y
    unfold freqOf
    split_ifs with h1 h2 h2
    · have := hs |x| |y| (abs_nonneg _) (abs_nonneg _)
      have e : |(|x| - |y|)| = |x - y| := by
        rw [abs_of_neg h1, abs_of_neg h2, ← abs_neg]; congr 1; ring
      rw [e] at this
      nlinarith
    · have e : |x - y| = |x| + |y| := by
        rw [abs_of_neg h1, abs_of_nonneg (not_lt.1 h2), abs_of_neg (by linarith [not_lt.1 h2])]; ring
      rw [e]
      nlinarith [Real.sq_sqrt (abs_nonneg x), Real.sq_sqrt (abs_nonneg y), sq_nonneg (√|x| - √|y|)]
    · have e : |x - y| = |x| + |y| := by
        rw [abs_of_neg h2, abs_of_nonneg (not_lt.1 h1), abs_of_nonneg (by linarith [not_lt.1 h1])]; ring
      rw [e]
      nlinarith [Real.sq_sqrt (abs_nonneg x), Real.sq_sqrt (abs_nonneg y), sq_nonneg (√|x| - √|y|)]
    · have := hs |x| |y| (abs_nonneg _) (abs_nonneg _)
      rw [abs_of_nonneg (not_lt.1 h1), abs_of_nonneg (not_lt.1 h2)] at this ⊢
      exact this
  exact key x y

/-! ## The dynamical matrix -/

section
variable {n N : Nat} (cv : M3 ℝ) (r : Fin n → V3 ℝ) (cells : Fin N → V3 ℤ) (c0 : Fin N) (S : M3 ℤ)

theorem latticeSum_sub (images : List (V3 ℤ)) (fc fc' : Fin N → Mat n ℝ) (F : V3 ℤ → ℂ) (hF : ∀ R, ‖F R‖ ≤ 1) (k l : Fin (n * 3)) :
    ‖latticeSum cv r cells c0 S images fc F k l - latticeSum cv r cells c0 S images fc' F k l‖ ≤ ∑ c, |fc c k l - fc' c k l| := by
  unfold latticeSum
  rw [← Finset.sum_sub_distrib]
  refine (norm_sum_le _ _).trans (Finset.sum_le_sum fun c _ => ?_)
  set I := imageSet cv r cells c0 S images c k.divNat l.divNat
  have h1 : (fc c k l : ℂ) / (I.card : ℂ) * ∑ m ∈ I, F (add (cells c) (mulMat m S)) -
      (fc' c k l : ℂ) / (I.card : ℂ) * ∑ m ∈ I, F (add (cells c) (mulMat m S)) =
      ((fc c k l - fc' c k l : ℝ) : ℂ) * ((∑ m ∈ I, F (add (cells c) (mulMat m S))) / (I.card : ℂ)) := by
    push_cast
    ring
  rw [h1, norm_mul, Complex.norm_real]
  have h2 : ‖(∑ m ∈ I, F (add (cells c) (mulMat m S))) / (I.card : ℂ)‖ ≤ 1 := by
    rw [norm_div, Complex.norm_natCast]
    refine div_le_one_of_le₀ ((norm_sum_le _ _).trans ?_) (Nat.cast_nonneg _)
    refine (Finset.sum_le_sum fun m _ => hF _).trans ?_
    simp
  calc ‖fc c k l - fc' c k l‖ * _ ≤ ‖fc c k l - fc' c k l‖ * 1 := mul_le_mul_of_nonneg_left h2 (norm_nonneg _)
    _ = |fc c k l - fc' c k l| := by rw [mul_one, Real.norm_eq_abs]

theorem latticeSum_sub' (images : List (V3 ℤ)) (fc : Fin N → Mat n ℝ) (F F' : V3 ℤ → ℂ) (k l : Fin (n * 3)) (δ : ℝ)
    (hF : ∀ c, ∀ m ∈ images, ‖F (add (cells c) (mulMat m S)) - F' (add (cells c) (mulMat m S))‖ ≤ δ) (hδ : 0 ≤ δ) :
    ‖latticeSum cv r cells c0 S images fc F k l - latticeSum cv r cells c0 S images fc F' k l‖ ≤ (∑ c, |fc c k l|) * δ := by
  unfold latticeSum
  rw [← Finset.sum_sub_distrib, Finset.sum_mul]
  refine (norm_sum_le _ _).trans (Finset.sum_le_sum fun c _ => ?_)
  set I := imageSet cv r cells c0 S images c k.divNat l.divNat with hI
  have h1 : (fc c k l : ℂ) / (I.card : ℂ) * ∑ m ∈ I, F (add (cells c) (mulMat m S)) -
      (fc c k l : ℂ) / (I.card : ℂ) * ∑ m ∈ I, F' (add (cells c) (mulMat m S)) =
      ((fc c k l : ℝ) : ℂ) * ((∑ m ∈ I, (F (add (cells c) (mulMat m S)) - F' (add (cells c) (mulMat m S)))) / (I.card : ℂ)) := by
    rw [Finset.sum_sub_distrib]
    ring
  rw [h1, norm_mul, Complex.norm_real, Real.norm_eq_abs]
  refine mul_le_mul_of_nonneg_left ?_ (abs_nonneg _)
  rw [norm_div, Complex.norm_natCast]
  have h2 : ‖∑ m ∈ I, (F (add (cells c) (mulMat m S)) - F' (add (cells c) (mulMat m S)))‖ ≤ δ * I.card := by
    refine (norm_sum_le _ _).trans ?_
    refine (Finset.sum_le_sum fun m hm => hF c m ?_).trans ?_
    · classical
      rw [hI] at hm
      exact List.mem_toFinset.1 (Finset.mem_filter.1 hm).1
    · simp [mul_comm]
  rcases Nat.eq_zero_or_pos I.card with h0 | h0
  · rw [h0]; simpa using hδ
  · rw [div_le_iff₀ (by exact_mod_cast h0)]
    exact h2

theorem norm_expQR_le (q : V3 ℝ) (R : V3 ℤ) : ‖expQR q R‖ ≤ 1 := by
  have h : expQR q R = Complex.exp (((2 * Real.pi * (q.x * R.x + q.y * R.y + q.z * R.z) : ℝ) : ℂ) * Complex.I) := by
    unfold expQR
    push_cast
    rfl
  rw [h, Complex.norm_exp_ofReal_mul_I]

/-- Phases at two wavevectors. -/
theorem expQR_sub (q q' : V3 ℝ) (R : V3 ℤ) :
    ‖expQR q R - expQR q' R‖ ≤ 2 * Real.pi * (|q.x - q'.x| * |(R.x : ℝ)| + |q.y - q'.y| * |(R.y : ℝ)| + |q.z - q'.z| * |(R.z : ℝ)|) := by
  set x : ℝ := 2 * Real.pi * ((q.x - q'.x) * R.x + (q.y - q'.y) * R.y + (q.z - q'.z) * R.z) with hx
  have h : expQR q R - expQR q' R = expQR q' R * (Complex.exp (Complex.I * x) - 1) := by
    rw [mul_sub, mul_one]
    congr 1
    unfold expQR
    rw [← Complex.exp_add]
    congr 1
    rw [hx]
    push_cast
    ring
  rw [h, norm_mul]
  calc ‖expQR q' R‖ * ‖Complex.exp (Complex.I * x) - 1‖ ≤ 1 * ‖x‖ :=
        mul_le_mul (norm_expQR_le q' R) (Real.norm_exp_I_mul_ofReal_sub_one_le) (norm_nonneg _) zero_le_one
    _ ≤ _ := by
        rw [one_mul, Real.norm_eq_abs, hx, abs_mul, abs_of_pos Real.two_pi_pos, ← abs_mul, ← abs_mul, ← abs_mul]
        exact mul_le_mul_of_nonneg_left (abs_add_three _ _ _) Real.two_pi_pos.le

theorem weighted_sub (w : Mat n ℝ) (hw : ∀ k l, 0 ≤ w k l) (d d' : Mat n ℂ) (dip asr loto : Option (Mat n ℂ)) (k l : Fin (n * 3)) :
    ‖DynMat.weighted w d dip asr loto k l - DynMat.weighted w d' dip asr loto k l‖ = ‖d k l - d' k l‖ * w k l := by
  have : DynMat.weighted w d dip asr loto k l - DynMat.weighted w d' dip asr loto k l = (d k l - d' k l) * (w k l : ℂ) := by
    cases dip <;> cases asr <;> cases loto <;> simp only [DynMat.weighted, Pi.add_apply] <;> ring
  rw [this, norm_mul, Complex.norm_real, Real.norm_eq_abs, abs_of_nonneg (hw k l)]

theorem massWeighting_nonneg (mass : Fin n → ℝ) (k l : Fin (n * 3)) : 0 ≤ massWeighting mass k l :=
  div_nonneg zero_le_one (Real.sqrt_nonneg _)

/-- Hermitian, if there is a correction. -/
def HermOpt (o : Option (Mat n ℂ)) : Prop := ∀ M, o = some M → ∀ k l, M l k = star (M k l)

theorem weighted_herm (mass : Fin n → ℝ) {d : Mat n ℂ} (hd : ∀ k l, d l k = star (d k l)) {dip asr loto : Option (Mat n ℂ)}
    (h1 : HermOpt dip) (h2 : HermOpt asr) (h3 : HermOpt loto) (k l : Fin (n * 3)) :
    DynMat.weighted (massWeighting mass) d dip asr loto l k = star (DynMat.weighted (massWeighting mass) d dip asr loto k l) := by
  have hw : massWeighting mass l k = massWeighting mass k l := by
    unfold massWeighting
    rw [mul_comm]
  have hr : star ((massWeighting mass k l : ℝ) : ℂ) = (massWeighting mass k l : ℝ) := by simp
  cases dip <;> cases asr <;> cases loto <;>
    simp only [DynMat.weighted, Pi.add_apply, star_mul', star_add, hr, hw] <;>
    first
      | simp only [← hd k l, ← h1 _ rfl k l, ← h2 _ rfl k l, ← h3 _ rfl k l]
      | simp only [← hd k l, ← h1 _ rfl k l, ← h2 _ rfl k l]
      | simp only [← hd k l, ← h1 _ rfl k l, ← h3 _ rfl k l]
      | simp only [← hd k l, ← h2 _ rfl k l, ← h3 _ rfl k l]
      | simp only [← hd k l, ← h1 _ rfl k l]
      | simp only [← hd k l, ← h2 _ rfl k l]
      | simp only [← hd k l, ← h3 _ rfl k l]
      | rw [hd k l]

variable {op op' : Fin N → Fin N} {t t' : Fin N → V3 ℤ} {fc fc' : Fin N → Mat n ℝ}

/-- **C133** If force constants are changed (with whatever corrections, as long as these are the same), the eigenvalues
(squares of frequencies) at every wavevector change by at most the largest sum of a row of the changes divided by the masses,
and each frequency changes by at most the root of twice that. -/
theorem C133_force_constants (mass : Fin n → ℝ) (images : List (V3 ℤ)) (hnd : images.Nodup)
    (hc : Complete cv r cells c0 S images) (hv : cellVolume (scVecs S cv) ≠ 0) (h0 : cells c0 = ⟨0, 0, 0⟩)
    (hs : Symmetric cells S fc op t) (hs' : Symmetric cells S fc' op' t') (junk junk' : Fin N → Mat n ℝ) (q : V3 ℝ)
    {dip asr loto : Option (Mat n ℂ)} (h1 : HermOpt dip) (h2 : HermOpt asr) (h3 : HermOpt loto)
    (ρ : ℝ) (hρ : ∀ k, ∑ l, (∑ c, |fc c k l - fc' c k l|) * massWeighting mass k l ≤ ρ)
    {eigh : Mat n ℂ → (Fin (n * 3) → ℝ) × Mat n ℂ} (he : IsEigh eigh) (s : Fin (n * 3)) :
    let M := DynMat.weighted (massWeighting mass) (fcDynMat cv r cells c0 S images fc junk q) dip asr loto
    let M' := DynMat.weighted (massWeighting mass) (fcDynMat cv r cells c0 S images fc' junk' q) dip asr loto
    |(eigh M).1 s - (eigh M').1 s| ≤ ρ ∧ |freqOf ((eigh M).1 s) - freqOf ((eigh M').1 s)| ≤ √(2 * ρ) := by
  intro M M'
  have hM : ∀ k l, M l k = star (M k l) := weighted_herm mass
    (fun k l => (C43_hermitian cv r cells c0 S hs h0 images hnd hc hv junk q k l).1) h1 h2 h3
  have hM' : ∀ k l, M' l k = star (M' k l) := weighted_herm mass
    (fun k l => (C43_hermitian cv r cells c0 S hs' h0 images hnd hc hv junk' q k l).1) h1 h2 h3
  have h4 : |(eigh M).1 s - (eigh M').1 s| ≤ ρ := by
    refine weyl he hM hM' ρ (fun k => le_trans (Finset.sum_le_sum fun l _ => ?_) (hρ k)) s
    rw [weighted_sub _ (massWeighting_nonneg mass)]
    refine mul_le_mul_of_nonneg_right ?_ (massWeighting_nonneg mass k l)
    rw [C43_textbook cv r cells c0 S images hnd hv, C43_textbook cv r cells c0 S images hnd hv]
    exact latticeSum_sub cv r cells c0 S images fc fc' _ (norm_expQR_le q) k l
  exact ⟨h4, (freqOf_sub_le _ _).trans (Real.sqrt_le_sqrt (by linarith))⟩

/-- **C133** Between two wavevectors the eigenvalues change by at most a constant times the distance.  `B` bounds the
components of the lattice vectors of all images, `ρ` the sums of the rows of the force constants divided by the masses. -/
theorem C133_wavevector (mass : Fin n → ℝ) (images : List (V3 ℤ)) (hnd : images.Nodup)
    (hc : Complete cv r cells c0 S images) (hv : cellVolume (scVecs S cv) ≠ 0) (h0 : cells c0 = ⟨0, 0, 0⟩)
    (hs : Symmetric cells S fc op t) (junk junk' : Fin N → Mat n ℝ) (q q' : V3 ℝ)
    {asr : Option (Mat n ℂ)} (h2 : HermOpt asr) (B ρ : ℝ) (hB0 : 0 ≤ B)
    (hB : ∀ c, ∀ m ∈ images, |((add (cells c) (mulMat m S)).x : ℝ)| ≤ B ∧ |((add (cells c) (mulMat m S)).y : ℝ)| ≤ B ∧
      |((add (cells c) (mulMat m S)).z : ℝ)| ≤ B)
    (hρ : ∀ k, ∑ l, (∑ c, |fc c k l|) * massWeighting mass k l ≤ ρ)
    {eigh : Mat n ℂ → (Fin (n * 3) → ℝ) × Mat n ℂ} (he : IsEigh eigh) (s : Fin (n * 3)) :
    let M := DynMat.weighted (massWeighting mass) (fcDynMat cv r cells c0 S images fc junk q) none asr none
    let M' := DynMat.weighted (massWeighting mass) (fcDynMat cv r cells c0 S images fc junk' q') none asr none
    |(eigh M).1 s - (eigh M').1 s| ≤ ρ * (2 * Real.pi * B * (|q.x - q'.x| + |q.y - q'.y| + |q.z - q'.z|)) := by
  intro M M'
  have hM : ∀ k l, M l k = star (M k l) := weighted_herm mass
    (fun k l => (C43_hermitian cv r cells c0 S hs h0 images hnd hc hv junk q k l).1) (by simp [HermOpt]) h2 (by simp [HermOpt])
  have hM' : ∀ k l, M' l k = star (M' k l) := weighted_herm mass
    (fun k l => (C43_hermitian cv r cells c0 S hs h0 images hnd hc hv junk' q' k l).1) (by simp [HermOpt]) h2 (by simp [HermOpt])
  set δ := 2 * Real.pi * B * (|q.x - q'.x| + |q.y - q'.y| + |q.z - q'.z|) with hδ
  have hδ0 : 0 ≤ δ := by have := Real.pi_pos; positivity
  refine weyl he hM hM' _ (fun k => ?_) s
  have hk : ∀ l, ‖M k l - M' k l‖ ≤ ((∑ c, |fc c k l|) * massWeighting mass k l) * δ := by
    intro l
    rw [weighted_sub _ (massWeighting_nonneg mass), C43_textbook cv r cells c0 S images hnd hv,
      C43_textbook cv r cells c0 S images hnd hv, mul_right_comm]
    refine mul_le_mul_of_nonneg_right ?_ (massWeighting_nonneg mass k l)
    refine latticeSum_sub' cv r cells c0 S images fc _ _ k l δ (fun c m hm => ?_) hδ0
    refine (expQR_sub q q' _).trans ?_
    obtain ⟨bx, by', bz⟩ := hB c m hm
    rw [hδ, mul_assoc (2 * Real.pi)]
    refine mul_le_mul_of_nonneg_left ?_ Real.two_pi_pos.le
    rw [mul_comm B, add_mul, add_mul]
    gcongr
  refine (Finset.sum_le_sum fun l _ => hk l).trans ?_
  rw [← Finset.sum_mul]
  exact mul_le_mul_of_nonneg_right (hρ k) hδ0

/-- Bounds as in `C133_wavevector` always exist. -/
theorem exists_bounds (mass : Fin n → ℝ) (images : List (V3 ℤ)) (fc : Fin N → Mat n ℝ) : ∃ B ρ : ℝ, 0 ≤ B ∧
    (∀ c, ∀ m ∈ images, |((add (cells c) (mulMat m S)).x : ℝ)| ≤ B ∧ |((add (cells c) (mulMat m S)).y : ℝ)| ≤ B ∧
      |((add (cells c) (mulMat m S)).z : ℝ)| ≤ B) ∧ ∀ k, ∑ l, (∑ c, |fc c k l|) * massWeighting mass k l ≤ ρ := by
  classical
  let f : Fin N → V3 ℤ → ℝ := fun c m =>
    |((add (cells c) (mulMat m S)).x : ℝ)| + |((add (cells c) (mulMat m S)).y : ℝ)| + |((add (cells c) (mulMat m S)).z : ℝ)|
  have hf : ∀ c m, 0 ≤ f c m := fun c m => by positivity
  refine ⟨∑ c, ∑ m ∈ images.toFinset, f c m, ∑ k, ∑ l, (∑ c, |fc c k l|) * massWeighting mass k l,
    Finset.sum_nonneg fun c _ => Finset.sum_nonneg fun m _ => hf c m, fun c m hm => ?_, fun k => ?_⟩
  · have h1 : f c m ≤ ∑ c, ∑ m ∈ images.toFinset, f c m :=
      (Finset.single_le_sum (f := f c) (fun m _ => hf c m) (List.mem_toFinset.2 hm)).trans
        (Finset.single_le_sum (f := fun c => ∑ m ∈ images.toFinset, f c m)
          (fun c _ => Finset.sum_nonneg fun m _ => hf c m) (Finset.mem_univ c))
    have a1 := abs_nonneg ((add (cells c) (mulMat m S)).x : ℝ)
    have a2 := abs_nonneg ((add (cells c) (mulMat m S)).y : ℝ)
    have a3 := abs_nonneg ((add (cells c) (mulMat m S)).z : ℝ)
    simp only [f] at h1
    refine ⟨?_, ?_, ?_⟩ <;> linarith
  · exact Finset.single_le_sum (f := fun k => ∑ l, (∑ c, |fc c k l|) * massWeighting mass k l)
      (fun k _ => Finset.sum_nonneg fun l _ => mul_nonneg (Finset.sum_nonneg fun c _ => abs_nonneg _)
        (massWeighting_nonneg mass k l)) (Finset.mem_univ k)

theorem continuous_freqOf : Continuous freqOf := by
  rw [Metric.continuous_iff]
  intro y ε hε
  refine ⟨ε ^ 2 / 2, by positivity, fun x hx => ?_⟩
  rw [Real.dist_eq] at hx ⊢
  refine (freqOf_sub_le x y).trans_lt ?_
  rw [Real.sqrt_lt' hε]
  linarith

/-- **C133** Along every path through reciprocal space each frequency (of the modes in increasing order) is a continuous
function, also with an acoustic sum rule. -/
theorem C133_continuous (mass : Fin n → ℝ) (images : List (V3 ℤ)) (hnd : images.Nodup)
    (hc : Complete cv r cells c0 S images) (hv : cellVolume (scVecs S cv) ≠ 0) (h0 : cells c0 = ⟨0, 0, 0⟩)
    (hs : Symmetric cells S fc op t) (junk : Fin N → Mat n ℝ) {asr : Option (Mat n ℂ)} (h2 : HermOpt asr)
    {eigh : Mat n ℂ → (Fin (n * 3) → ℝ) × Mat n ℂ} (he : IsEigh eigh) (s : Fin (n * 3))
    {T : Type} [TopologicalSpace T] (q : T → V3 ℝ) (hx : Continuous fun u => (q u).x) (hy : Continuous fun u => (q u).y)
    (hz : Continuous fun u => (q u).z) :
    Continuous fun u => freqOf ((eigh (DynMat.weighted (massWeighting mass)
      (fcDynMat cv r cells c0 S images fc junk (q u)) none asr none)).1 s) := by
  refine continuous_freqOf.comp ?_
  obtain ⟨B, ρ, hB0, hB, hρ⟩ := exists_bounds cells S mass images fc
  rw [continuous_iff_continuousAt]
  intro u
  have hlim : Filter.Tendsto (fun v => ρ * (2 * Real.pi * B * (|(q v).x - (q u).x| + |(q v).y - (q u).y| + |(q v).z - (q u).z|)))
      (nhds u) (nhds 0) := by
    have : Continuous fun v => ρ * (2 * Real.pi * B * (|(q v).x - (q u).x| + |(q v).y - (q u).y| + |(q v).z - (q u).z|)) := by
      fun_prop
    simpa using this.tendsto u
  rw [ContinuousAt, tendsto_iff_dist_tendsto_zero]
  refine squeeze_zero (fun v => dist_nonneg) (fun v => ?_) hlim
  rw [Real.dist_eq]
  exact C133_wavevector cv r cells c0 S mass images hnd hc hv h0 hs junk junk (q v) (q u) h2 B ρ hB0 hB hρ he s

end

/-! ### Cases meeting the hypotheses -/

namespace Ex
open DynMat.Ex

/-- Force constants with one entry and its mirror changed. -/
noncomputable def fc' : Fin 2 → Mat 1 ℝ := fun c k l =>
  if k = l then ![4, -3] c else if k.val + l.val = 1 then ![1 + 1 / 100, 2] c else 0

theorem symmetric' : Symmetric DynMat.Ex.cells S fc' id ![⟨0, 0, 0⟩, ⟨-1, 0, 0⟩] where
  invol := fun _ => rfl
  origin := by decide
  exchange := by
    intro c k l
    simp only [fc', id]
    by_cases h : k = l
    · rw [if_pos h, if_pos h.symm]
    · rw [if_neg h, if_neg (Ne.symm h), Nat.add_comm]

theorem change_le (k : Fin (1 * 3)) :
    ∑ l, (∑ c, |DynMat.Ex.fc c k l - fc' c k l|) * massWeighting (fun _ : Fin 1 => (1 : ℝ)) k l ≤ 1 / 100 := by
  have h : ∀ l, (∑ c, |DynMat.Ex.fc c k l - fc' c k l|) * massWeighting (fun _ : Fin 1 => (1 : ℝ)) k l =
      if k ≠ l ∧ k.val + l.val = 1 then 1 / 100 else 0 := by
    intro l
    simp only [massWeighting, DynMat.Ex.fc, fc', Fin.sum_univ_two]
    by_cases h1 : k = l
    · simp [h1]
    · by_cases h2 : k.val + l.val = 1 <;> simp [h1, h2]
  rw [Finset.sum_congr rfl fun l _ => h l]
  have e : ∀ f : Fin (1 * 3) → ℝ, ∑ l, f l = ∑ l : Fin 3, f l := fun f => rfl
  rw [e]
  revert k
  change ∀ k : Fin 3, _
  intro k
  fin_cases k <;> simp [Fin.sum_univ_three]

/-- Frequencies of the crystal of `DynMat.Ex` with this change differ by at most 0.15 (eigenvalues 0.01). -/
example : ∃ images, imageShells 2 = .ok images ∧ ∀ (q : V3 ℝ) (eigh : Mat 1 ℂ → (Fin (1 * 3) → ℝ) × Mat 1 ℂ), IsEigh eigh → ∀ s,
    |(eigh (DynMat.weighted (massWeighting fun _ => 1) (fcDynMat cv DynMat.Ex.r DynMat.Ex.cells 0 S images DynMat.Ex.fc
      (fun _ _ _ => 0) q) none none none)).1 s - (eigh (DynMat.weighted (massWeighting fun _ => 1)
        (fcDynMat cv DynMat.Ex.r DynMat.Ex.cells 0 S images fc' (fun _ _ _ => 0) q) none none none)).1 s| ≤ 1 / 100 := by
  obtain ⟨ims, h1, h2, h3, -⟩ := C42_image_origins 2 S
  refine ⟨ims, h1, fun q eigh he s => ?_⟩
  exact (C133_force_constants cv DynMat.Ex.r DynMat.Ex.cells 0 S (fun _ => 1) ims h2
    (DynMat.Ex.complete ims fun v hx hy hz => (h3 v).2 ⟨by exact_mod_cast hx, by exact_mod_cast hy, by exact_mod_cast hz⟩)
    DynMat.Ex.volume rfl DynMat.Ex.symmetric symmetric' _ _ q (by simp [HermOpt]) (by simp [HermOpt]) (by simp [HermOpt])
    (1 / 100) change_le he s).1

/-- On the line from the gamma point to the zone boundary the frequencies are continuous. -/
example : ∃ images, imageShells 2 = .ok images ∧ ∀ (eigh : Mat 1 ℂ → (Fin (1 * 3) → ℝ) × Mat 1 ℂ), IsEigh eigh → ∀ s,
    Continuous fun u : ℝ => freqOf ((eigh (DynMat.weighted (massWeighting fun _ => 1) (fcDynMat cv DynMat.Ex.r DynMat.Ex.cells 0 S
      images DynMat.Ex.fc (fun _ _ _ => 0) ⟨u / 2, 0, 0⟩) none none none)).1 s) := by
  obtain ⟨ims, h1, h2, h3, -⟩ := C42_image_origins 2 S
  refine ⟨ims, h1, fun eigh he s => ?_⟩
  exact C133_continuous cv DynMat.Ex.r DynMat.Ex.cells 0 S (fun _ => 1) ims h2
    (DynMat.Ex.complete ims fun v hx hy hz => (h3 v).2 ⟨by exact_mod_cast hx, by exact_mod_cast hy, by exact_mod_cast hz⟩)
    DynMat.Ex.volume rfl DynMat.Ex.symmetric _ (by simp [HermOpt]) he s (fun u : ℝ => ⟨u / 2, 0, 0⟩) (by fun_prop) (by fun_prop)
    (by fun_prop)

end Ex

end Euphonic.Stability
