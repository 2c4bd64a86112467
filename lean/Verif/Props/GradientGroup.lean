import Verif.Props.Gradient
import Verif.Props.Reduced
import Mathlib.Analysis.SpecialFunctions.Trigonometric.Deriv
import Mathlib.Analysis.Calculus.Deriv.Abs

/-!
# C126 for modes with equal frequencies, and for force constants of a crystal
-/

set_option autoImplicit false
set_option linter.unusedSectionVars false

namespace Euphonic.Gradient

open Euphonic.Lattice Euphonic.Supercell Euphonic.Phases Euphonic.Images Euphonic.DynMat Euphonic.Reduced
open scoped InnerProductSpace Matrix

variable {N n : Nat}

/-! ## Sums over modes with equal frequencies -/

theorem freqOf_injective {x y : ℝ} (h : freqOf x = freqOf y) : x = y := by
  have key : ∀ z : ℝ, z = freqOf z * |freqOf z| := by
    intro z
    unfold freqOf
    split_ifs with hz
    · rw [abs_mul, abs_neg, abs_one, mul_one, abs_of_nonneg (Real.sqrt_nonneg _), mul_neg_one, neg_mul,
        Real.mul_self_sqrt (abs_nonneg z), abs_of_neg hz, neg_neg]
    · rw [abs_of_nonneg (Real.sqrt_nonneg _), Real.mul_self_sqrt (abs_nonneg z), abs_of_nonneg (not_lt.1 hz)]
  rw [key x, key y, h]

/-- The modes that have the same frequency as mode `s` at `q`. -/
noncomputable def System.group (S : System N n) (dip : V3 ℝ → Option (Mat n ℂ)) (q : V3 ℝ) (s : Fin (n * 3)) :
    Finset (Fin (n * 3)) := by
  classical exact Finset.univ.filter fun j => S.freq dip q j = S.freq dip q s

theorem System.mem_group {S : System N n} {dip : V3 ℝ → Option (Mat n ℂ)} {q : V3 ℝ} {s j : Fin (n * 3)} :
    j ∈ S.group dip q s ↔ S.freq dip q j = S.freq dip q s := by
  classical
  unfold System.group
  simp

/-- Sums of a function of the eigenvalues of a group. -/
theorem group_along {S : System N n} (h : S.Good fun _ => none) {q u : V3 ℝ} {p : ℝ → V3 ℝ}
    (hp : Along S.cv q u p) (h0 : p 0 = q) {s : Fin (n * 3)} {f : ℝ → ℝ} {f' : ℝ}
    (hz : S.freq (fun _ => none) q s ≠ 0) (hf : HasDerivAt f f' ((S.eigh (S.M (fun _ => none) q)).1 s)) :
    HasDerivAt (fun t => ∑ j ∈ S.group (fun _ => none) q s, f ((S.eigh (S.M (fun _ => none) (p t))).1 j))
      (f' * (2 * S.freq (fun _ => none) q s * ∑ j ∈ S.group (fun _ => none) q s, S.gradAlong (fun _ => none) q u j)) 0 := by
  subst h0
  have hd : ∀ k l, HasDerivAt (fun t => S.M (fun _ => none) (p t) k l)
      ((u.x * dynGrad S.cv S.fcw S.cells S.scOs S.img (p 0) 0 k l + u.y * dynGrad S.cv S.fcw S.cells S.scOs S.img (p 0) 1 k l
        + u.z * dynGrad S.cv S.fcw S.cells S.scOs S.img (p 0) 2 k l) * massWeighting S.mass k l) 0 := by
    intro k l
    unfold System.M
    simp only [weighted_eq]
    exact (((C126_matrix_gradient S.cv h.volume S.fcw S.cells S.scOs S.img hp k l).add_const _).add_const _).mul_const _
  choose b hb hb' using fun t => diag_of_eigh h.eigh (h.matrix (dip := fun _ => none) (p t))
  have hG : ∀ i, i ∈ S.group (fun _ => none) (p 0) s ↔
      (S.eigh (S.M (fun _ => none) (p 0))).1 i = (S.eigh (S.M (fun _ => none) (p 0))).1 s := by
    intro i
    rw [System.mem_group]
    exact ⟨fun he => freqOf_injective he, fun he => by unfold System.freq; rw [he]⟩
  have h1 := Eigen.hasDerivAt_group hb (hasDerivAt_toOp hd) hG hf
  refine h1.congr_deriv ?_
  congr 1
  rw [Complex.re_sum, Finset.mul_sum]
  refine Finset.sum_congr rfl fun j hj => ?_
  rw [hb', inner_toOp, ← System.mem_group.1 hj]
  have hj0 : S.freq (fun _ => none) (p 0) j ≠ 0 := by rw [System.mem_group.1 hj]; exact hz
  have hg : ∀ d, 2 * S.freq (fun _ => none) (p 0) j * S.grad (fun _ => none) (p 0) j d
      = (∑ i, ∑ k, star ((S.eigh (S.M (fun _ => none) (p 0))).2 j i) * (S.eigh (S.M (fun _ => none) (p 0))).2 j k *
        (dynGrad S.cv S.fcw S.cells S.scOs S.img (p 0) d i k * massWeighting S.mass i k)).re := by
    intro d
    unfold System.grad modeGradients
    rw [show (freqOf ((S.eigh (S.M (fun _ => none) (p 0))).1 j)) = S.freq (fun _ => none) (p 0) j from rfl]
    have : (2 * (S.freq (fun _ => none) (p 0) j : ℝ) : ℂ) = ((2 * S.freq (fun _ => none) (p 0) j : ℝ) : ℂ) := by push_cast; rfl
    rw [this, Complex.div_ofReal_re]
    field_simp
  unfold System.gradAlong
  rw [mul_add, mul_add, mul_left_comm _ u.x, mul_left_comm _ u.y, mul_left_comm _ u.z, hg 0, hg 1, hg 2,
    ← Complex.re_ofReal_mul, ← Complex.re_ofReal_mul, ← Complex.re_ofReal_mul, ← Complex.add_re, ← Complex.add_re]
  congr 1
  simp only [Finset.mul_sum, ← Finset.sum_add_distrib]
  refine Finset.sum_congr rfl fun j _ => Finset.sum_congr rfl fun k _ => ?_
  ring

/-- **C126 (modes with equal frequencies).** Where several modes have the same real frequency at `q`, the sum of their
reported gradients is the gradient of the sum of their frequencies, whichever eigenvectors have been found for them.  (The
single frequencies, numbered by size, need not have derivatives there; `C126_degenerate_wrong`.) -/
theorem C126_degenerate_sum {S : System N n} (h : S.Good fun _ => none) {q u : V3 ℝ} {p : ℝ → V3 ℝ}
    (hp : Along S.cv q u p) (h0 : p 0 = q) {s : Fin (n * 3)} (hpos : 0 < S.freq (fun _ => none) q s) :
    HasDerivAt (fun t => ∑ j ∈ S.group (fun _ => none) q s, S.freq (fun _ => none) (p t) j)
      (∑ j ∈ S.group (fun _ => none) q s, S.gradAlong (fun _ => none) q u j) 0 := by
  have hp' : 0 < (S.eigh (S.M (fun _ => none) q)).1 s := by
    unfold System.freq at hpos
    by_contra hn
    rcases (not_lt.1 hn).lt_or_eq with hl | he
    · exact absurd ((C51_frequency_sign _).2.1.2 hl) (not_lt.2 hpos.le)
    · exact hpos.ne' ((C51_frequency_sign _).2.2.1.2 he)
  have h1 := group_along h hp h0 hpos.ne' (freqOf_deriv_pos (hasDerivAt_id _) hp')
  refine h1.congr_deriv ?_
  change 1 / (2 * S.freq (fun _ => none) q s) * _ = _
  rw [← mul_assoc, one_div_mul_cancel (by linarith), one_mul]

/-- **C126, violated.** The same for imaginary frequencies: the sign is wrong. -/
theorem C126_degenerate_imaginary {S : System N n} (h : S.Good fun _ => none) {q u : V3 ℝ} {p : ℝ → V3 ℝ}
    (hp : Along S.cv q u p) (h0 : p 0 = q) {s : Fin (n * 3)} (hneg : S.freq (fun _ => none) q s < 0) :
    HasDerivAt (fun t => ∑ j ∈ S.group (fun _ => none) q s, S.freq (fun _ => none) (p t) j)
      (-∑ j ∈ S.group (fun _ => none) q s, S.gradAlong (fun _ => none) q u j) 0 := by
  have hn' : (S.eigh (S.M (fun _ => none) q)).1 s < 0 := (C51_frequency_sign _).2.1.1 hneg
  have h1 := group_along h hp h0 hneg.ne (freqOf_deriv_neg (hasDerivAt_id _) hn')
  refine h1.congr_deriv ?_
  change -(1 / (2 * S.freq (fun _ => none) q s)) * _ = _
  rw [← mul_assoc, neg_mul, one_div_mul_cancel (by linarith), neg_one_mul]

/-! ## Force constants of a crystal -/

/-- The system of `_calculate_phonons_at_qpts`: images of the atoms of the supercell, weights and so on found from the
force constants (euphonic/force_constants.py:541-598). -/
noncomputable def ofForceConstants (cv : M3 ℝ) (r : Fin n → V3 ℝ) (cells : Fin N → V3 ℤ) (c0 : Fin N) (S : M3 ℤ)
    (images : List (V3 ℤ)) (fc junk : Fin N → Mat n ℝ) (mass : Fin n → ℝ) (asr : Option (Mat n ℂ))
    (eigh : Mat n ℂ → (Fin (n * 3) → ℝ) × Mat n ℂ) : System N n where
  cv := cv
  fcw := fcImgWeighted fc junk (imageLoops cv r cells c0 S images).cnt
  cells := cells
  scOs := scOrigins S images
  img := scImageI (imageLoops cv r cells c0 S images)
  mass := mass
  asr := asr
  eigh := eigh

/-- **C126 (conditions).** What C126 asks for is met by symmetric force constants in a reduced supercell. -/
theorem C126_good (cv : M3 ℝ) (r : Fin n → V3 ℝ) (cells : Fin N → V3 ℤ) (c0 : Fin N) (S : M3 ℤ)
    (images : List (V3 ℤ)) (hi : imageShells 2 = .ok images) (hcv : cellVolume cv ≠ 0)
    (hv : cellVolume (scVecs S cv) ≠ 0) (hred : IsReduced (scVecs S cv))
    (hw : ∀ c i j, ∃ f, WithinOne S (sub (add (castV ℝ (cells c0)) (r i)) (add (castV ℝ (cells c)) (r j))) f)
    {fc : Fin N → Mat n ℝ} {op : Fin N → Fin N} {t : Fin N → V3 ℤ} (hs : Symmetric cells S fc op t)
    (h0 : cells c0 = ⟨0, 0, 0⟩) (junk : Fin N → Mat n ℝ) (mass : Fin n → ℝ) {asr : Option (Mat n ℂ)}
    (ha : ∀ A, asr = some A → ∀ k l, A l k = star (A k l)) {eigh : Mat n ℂ → (Fin (n * 3) → ℝ) × Mat n ℂ}
    (he : IsEigh eigh) :
    (ofForceConstants cv r cells c0 S images fc junk mass asr eigh).Good fun _ => none where
  volume := hcv
  eigh := he
  hermitian := fun q k l => C123_hermitian_partial cv r cells c0 S images hi hv hred hw hs h0 junk q k l
  asr := ha
  dip := by simp

/-! ## An example: a chain of atoms with two modes of equal frequency -/

namespace Ex2

/-- Force constants of a chain of atoms along x: springs of strengths 1, 1, 4 to its place for displacements in x, y, z, and
springs of strengths 1 and -1 to its neighbours for displacements in x and y. -/
noncomputable def fcw : Fin 3 → Mat 1 ℝ := fun c k l => if k = l then (if c = 0 then ![1, 1, 4] k else ![1, -1, 0] k) else 0

/-- The chain. -/
noncomputable def chain (eigh : Mat 1 ℂ → (Fin (1 * 3) → ℝ) × Mat 1 ℂ) : System 3 1 :=
  { Ex.chain eigh with fcw := fcw }

theorem D_eq (eigh : Mat 1 ℂ → (Fin (1 * 3) → ℝ) × Mat 1 ℂ) (q : V3 ℝ) (k l : Fin (1 * 3)) :
    (chain eigh).D q k l = if k = l then
      ((![1, 1, 4] k : ℝ) : ℂ) + ((![1, -1, 0] k : ℝ) : ℂ) * (expQR q ⟨1, 0, 0⟩ + star (expQR q ⟨1, 0, 0⟩)) else 0 := by
  have h : expQR q ⟨-1, 0, 0⟩ = star (expQR q ⟨1, 0, 0⟩) := by
    rw [← expQR_neg']; simp [neg]
  simp only [System.D, chain, Ex.chain, dynMat, Ex.phaseSum_one, cellPhase_eq, Fin.sum_univ_three, Ex.cells, fcw]
  by_cases hkl : k = l
  · simp [hkl, expQR_zero, h]
    ring
  · simp [hkl]

theorem good (eigh : Mat 1 ℂ → (Fin (1 * 3) → ℝ) × Mat 1 ℂ) (he : IsEigh eigh) :
    (chain eigh).Good fun _ => none where
  volume := by simp [chain, Ex.chain, cellVolume, dot, cross]
  eigh := he
  hermitian := fun q k l => by
    rw [D_eq, D_eq]
    by_cases h : k = l
    · subst h
      have hr : ∀ x : ℝ, star (x : ℂ) = x := fun x => Complex.conj_ofReal x
      simp only [if_true, star_add, star_star, star_mul', hr]
      ring
    · simp [h, Ne.symm h]
  asr := by simp [chain, Ex.chain]
  dip := by simp

/-- The elements of the matrix along the path. -/
noncomputable def diagonal (t : ℝ) : Fin (1 * 3) → ℝ := ![1 - 2 * Real.sin t, 1 + 2 * Real.sin t, 4]

theorem M_eq (eigh : Mat 1 ℂ → (Fin (1 * 3) → ℝ) × Mat 1 ℂ) {p : ℝ → V3 ℝ}
    (hp : Along (chain eigh).cv Ex.q ⟨1, 0, 0⟩ p) (t : ℝ) :
    (chain eigh).M (fun _ => none) (p t) = fun k l => if k = l then ((diagonal t k : ℝ) : ℂ) else 0 := by
  have hv : cellVolume (chain eigh).cv ≠ 0 := by simp [chain, Ex.chain, cellVolume, dot, cross]
  have h1 : expQR (p t) ⟨1, 0, 0⟩ + star (expQR (p t) ⟨1, 0, 0⟩) = ((-2 * Real.sin t : ℝ) : ℂ) := by
    rw [expQR_along hv hp, Ex.expQR_quarter]
    have h2 : dot (⟨1, 0, 0⟩ : V3 ℝ) (toCart (chain eigh).cv (castV ℝ ⟨1, 0, 0⟩)) = 1 := by
      simp [chain, Ex.chain, dot, toCart, castV]
    rw [h2, Complex.ofReal_one, mul_one, Complex.exp_mul_I]
    apply Complex.ext
    · simp [Complex.cos_ofReal_re, Complex.sin_ofReal_re, Complex.cos_ofReal_im, Complex.sin_ofReal_im]
      ring
    · simp [Complex.cos_ofReal_re, Complex.sin_ofReal_re, Complex.cos_ofReal_im, Complex.sin_ofReal_im]
  funext k l
  unfold System.M
  rw [weighted_eq, D_eq, h1]
  simp only [chain, Ex.chain, Ex.massWeighting_one, orZero]
  by_cases hkl : k = l
  · subst hkl
    fin_cases k <;> simp [diagonal]
    ring
  · simp [hkl]

/-- The eigenvalues along the path. -/
theorem evals (eigh : Mat 1 ℂ → (Fin (1 * 3) → ℝ) × Mat 1 ℂ) (he : IsEigh eigh) {p : ℝ → V3 ℝ}
    (hp : Along (chain eigh).cv Ex.q ⟨1, 0, 0⟩ p) (t : ℝ) :
    (eigh ((chain eigh).M (fun _ => none) (p t))).1 = ![1 - 2 * |Real.sin t|, 1 + 2 * |Real.sin t|, 4] := by
  obtain ⟨b, hb, -⟩ := diag_of_eigh he (fun k l => (good eigh he).matrix (p t) k l)
  have hs : |Real.sin t| ≤ 1 := Real.abs_sin_le_one t
  have hs0 : 0 ≤ |Real.sin t| := abs_nonneg _
  obtain ⟨c, hc⟩ : ∃ c, Eigen.Diag (toOp ((chain eigh).M (fun _ => none) (p t)))
      (![1 - 2 * |Real.sin t|, 1 + 2 * |Real.sin t|, 4] : Fin (1 * 3) → ℝ) c := by
    have hmono : Monotone (![1 - 2 * |Real.sin t|, 1 + 2 * |Real.sin t|, 4] : Fin (1 * 3) → ℝ) := by
      intro i j hij
      fin_cases i <;> fin_cases j <;> first | (simp at hij; done) | (simp; try linarith)
    have hE : ∀ i : Fin (1 * 3), toOp ((chain eigh).M (fun _ => none) (p t)) (EuclideanSpace.basisFun (Fin (1 * 3)) ℂ i)
        = ((diagonal t i : ℝ) : ℂ) • EuclideanSpace.basisFun (Fin (1 * 3)) ℂ i := by
      intro i
      rw [M_eq eigh hp]
      ext k
      simp only [EuclideanSpace.basisFun_apply, EuclideanSpace.single]
      rw [toOp_apply]
      by_cases hik : k = i
      · subst hik; simp
      · simp [hik]
    rcases le_total 0 (Real.sin t) with h | h
    · refine ⟨EuclideanSpace.basisFun (Fin (1 * 3)) ℂ, hmono, fun i => ?_⟩
      rw [hE i, abs_of_nonneg h]
      rfl
    · refine ⟨(EuclideanSpace.basisFun (Fin (1 * 3)) ℂ).reindex (Equiv.swap 0 1), hmono, fun i => ?_⟩
      rw [OrthonormalBasis.reindex_apply, hE, abs_of_nonpos h]
      congr 2
      fin_cases i
      · simp [diagonal]
      · simp [diagonal]; ring
      · simp [diagonal, Equiv.swap_apply_def]
  funext s
  have := hb.weyl_abs hc s
  rw [sub_self, norm_zero, abs_nonpos_iff, sub_eq_zero] at this
  exact this

/-- The matrix at `q`. -/
noncomputable def A0 : Mat 1 ℂ := fun k l => if k = l then ((![1, 1, 4] k : ℝ) : ℂ) else 0

/-- Eigenvectors at `q`, turned in the plane of the two modes with equal frequency. -/
noncomputable def turned : Mat 1 ℂ := ![![3 / 5, 4 / 5, 0], ![4 / 5, -(3 / 5), 0], ![0, 0, 1]]

open Classical in
/-- An eigensolver that finds these eigenvectors. -/
noncomputable def eigh (e : Mat 1 ℂ → (Fin (1 * 3) → ℝ) × Mat 1 ℂ) (A : Mat 1 ℂ) : (Fin (1 * 3) → ℝ) × Mat 1 ℂ :=
  if A = A0 then (![1, 1, 4], turned) else e A

theorem isEigh {e : Mat 1 ℂ → (Fin (1 * 3) → ℝ) × Mat 1 ℂ} (he : IsEigh e) : IsEigh (eigh e) where
  mono := fun A hA => by
    unfold eigh
    split_ifs with h
    · intro i j hij
      fin_cases i <;> fin_cases j <;> first | (simp at hij; done) | norm_num
    · exact he.mono A hA
  ortho := fun A hA s s' => by
    unfold eigh
    split_ifs with h1 h2 h2
    · subst h2
      rw [Fin.sum_univ_three]
      fin_cases s <;> simp [turned] <;> norm_num
    · rw [Fin.sum_univ_three]
      fin_cases s <;> fin_cases s' <;> first | exact absurd rfl h2 | (simp [turned]; done) | (simp [turned]; norm_num)
    · have := he.ortho A hA s s'; rwa [if_pos h2] at this
    · have := he.ortho A hA s s'; rwa [if_neg h2] at this
  eigen := fun A hA s k => by
    unfold eigh
    split_ifs with h
    · subst h
      rw [Fin.sum_univ_three]
      fin_cases s <;> fin_cases k <;> simp [A0, turned]
    · exact he.eigen A hA s k

theorem path0 {cv : M3 ℝ} : path cv Ex.q ⟨1, 0, 0⟩ 0 = Ex.q := by simp [path, add, smul, Ex.q]

theorem M_start (e : Mat 1 ℂ → (Fin (1 * 3) → ℝ) × Mat 1 ℂ) : (chain e).M (fun _ => none) Ex.q = A0 := by
  have hv : cellVolume (chain e).cv ≠ 0 := by simp [chain, Ex.chain, cellVolume, dot, cross]
  have h := M_eq e (path_along _ hv Ex.q ⟨1, 0, 0⟩) 0
  rw [path0] at h
  rw [h]
  funext k l
  unfold A0
  by_cases hkl : k = l
  · subst hkl
    fin_cases k <;> simp [diagonal]
  · simp [hkl]

/-- The gradient of the matrix. -/
theorem dynGrad_eq (e : Mat 1 ℂ → (Fin (1 * 3) → ℝ) × Mat 1 ℂ) (he : IsEigh e) (k l : Fin (1 * 3)) :
    dynGrad (chain e).cv (chain e).fcw (chain e).cells (chain e).scOs (chain e).img Ex.q 0 k l
      = if k = l then ((![-2, 2, 0] k : ℝ) : ℂ) else 0 := by
  have hv := (good e he).volume
  have hp := path_along _ hv Ex.q ⟨1, 0, 0⟩
  have h1 := C126_matrix_gradient (chain e).cv hv (chain e).fcw (chain e).cells (chain e).scOs (chain e).img hp k l
  simp only [Complex.ofReal_one, one_mul, Complex.ofReal_zero, zero_mul, add_zero] at h1
  have h2 : (fun t => dynMat (chain e).fcw (chain e).cells (chain e).scOs (chain e).img (path (chain e).cv Ex.q ⟨1, 0, 0⟩ t) k l)
      = fun t => if k = l then ((diagonal t k : ℝ) : ℂ) else 0 := by
    funext t
    have := congrFun (congrFun (M_eq e hp t) k) l
    rw [← this]
    unfold System.M
    rw [weighted_eq]
    simp [chain, Ex.chain, Ex.massWeighting_one, orZero, System.D]
  rw [h2] at h1
  refine h1.unique ?_
  by_cases hkl : k = l
  · subst hkl
    simp only [if_true]
    refine HasDerivAt.ofReal_comp ?_
    have hs : HasDerivAt (fun t => 2 * Real.sin t) 2 0 := by
      simpa using (Real.hasDerivAt_sin 0).const_mul 2
    fin_cases k
    · simpa [diagonal] using hs.const_sub 1
    · simpa [diagonal] using hs.const_add 1
    · simpa [diagonal] using hasDerivAt_const (0 : ℝ) (4 : ℝ)
  · simp only [if_neg hkl]
    exact hasDerivAt_const _ _

/-- What is reported. -/
theorem reported {e : Mat 1 ℂ → (Fin (1 * 3) → ℝ) × Mat 1 ℂ} (he : IsEigh e) :
    (chain (eigh e)).freq (fun _ => none) Ex.q 0 = 1 ∧ (chain (eigh e)).freq (fun _ => none) Ex.q 1 = 1 ∧
      (chain (eigh e)).gradAlong (fun _ => none) Ex.q ⟨1, 0, 0⟩ 0 = 7 / 25 ∧
      (chain (eigh e)).gradAlong (fun _ => none) Ex.q ⟨1, 0, 0⟩ 1 = -(7 / 25) := by
  have h1 : (chain (eigh e)).eigh ((chain (eigh e)).M (fun _ => none) Ex.q) = (![1, 1, 4], turned) := by
    rw [M_start]
    simp [chain, Ex.chain, eigh]
  have hm : (chain (eigh e)).mass = fun _ => 1 := rfl
  have h2 : ∀ s : Fin (1 * 3), (![1, 1, 4] : Fin (1 * 3) → ℝ) s = 1 →
      (chain (eigh e)).gradAlong (fun _ => none) Ex.q ⟨1, 0, 0⟩ s
        = ((star (turned s 0) * turned s 0 * (-2) + star (turned s 1) * turned s 1 * 2) / 2).re := by
    intro s hs
    unfold System.gradAlong System.grad modeGradients
    simp only [h1, dynGrad_eq _ (isEigh he), hs, hm, Ex.massWeighting_one, one_mul, zero_mul, add_zero]
    have h3 : ∀ f : Fin (1 * 3) → ℂ, ∑ x, f x = f 0 + f 1 + f 2 := Fin.sum_univ_three
    have h4 : freqOf 1 = 1 := by norm_num [freqOf]
    simp only [h3, h4]
    simp
  refine ⟨?_, ?_, ?_, ?_⟩
  · unfold System.freq; rw [h1]; simp [freqOf]
  · unfold System.freq; rw [h1]; simp [freqOf]
  · rw [h2 0 (by simp)]
    have : ((star (turned 0 0) * turned 0 0 * (-2) + star (turned 0 1) * turned 0 1 * 2) / 2 : ℂ) = ((7 / 25 : ℝ) : ℂ) := by
      simp [turned]; norm_num
    rw [this, Complex.ofReal_re]
  · rw [h2 1 (by simp)]
    have : ((star (turned 1 0) * turned 1 0 * (-2) + star (turned 1 1) * turned 1 1 * 2) / 2 : ℂ) = ((-(7 / 25) : ℝ) : ℂ) := by
      simp [turned]; norm_num
    rw [this, Complex.ofReal_re]

/-- How the lowest frequency changes. -/
theorem slope {e : Mat 1 ℂ → (Fin (1 * 3) → ℝ) × Mat 1 ℂ} (he : IsEigh e) {p : ℝ → V3 ℝ}
    (hp : Along (chain e).cv Ex.q ⟨1, 0, 0⟩ p) :
    HasDerivWithinAt (fun t => (chain e).freq (fun _ => none) (p t) 0) (-1) (Set.Ici 0) 0 ∧
    HasDerivWithinAt (fun t => (chain e).freq (fun _ => none) (p t) 0) 1 (Set.Iic 0) 0 := by
  have hf : ∀ t, (chain e).freq (fun _ => none) (p t) 0 = freqOf (1 - 2 * |Real.sin t|) := by
    intro t
    unfold System.freq
    rw [show (chain e).eigh = e from rfl, evals e he hp]
    rfl
  have hs : HasDerivAt (fun t => 2 * Real.sin t) 2 0 := by
    simpa using (Real.hasDerivAt_sin 0).const_mul 2
  have h1 : HasDerivAt (fun t => freqOf (1 - 2 * Real.sin t)) (-1) 0 := by
    have := freqOf_deriv_pos (hs.const_sub 1) (by norm_num)
    refine this.congr_deriv ?_
    norm_num [freqOf]
  have h2 : HasDerivAt (fun t => freqOf (1 + 2 * Real.sin t)) 1 0 := by
    have := freqOf_deriv_pos (hs.const_add 1) (by norm_num)
    refine this.congr_deriv ?_
    norm_num [freqOf]
  have hlt : ∀ᶠ t in nhds (0 : ℝ), t < Real.pi := gt_mem_nhds Real.pi_pos
  have hgt : ∀ᶠ t in nhds (0 : ℝ), -Real.pi < t := lt_mem_nhds (by linarith [Real.pi_pos])
  constructor
  · refine h1.hasDerivWithinAt.congr_of_eventuallyEq ?_ (by rw [hf]; simp)
    filter_upwards [self_mem_nhdsWithin, nhdsWithin_le_nhds hlt] with t ht ht'
    rw [hf, abs_of_nonneg (Real.sin_nonneg_of_nonneg_of_le_pi ht ht'.le)]
  · refine h2.hasDerivWithinAt.congr_of_eventuallyEq ?_ (by rw [hf]; simp)
    filter_upwards [self_mem_nhdsWithin, nhdsWithin_le_nhds hgt] with t ht ht'
    rw [hf, abs_of_nonpos (Real.sin_nonpos_of_nonpos_of_neg_pi_le ht ht'.le)]
    congr 1
    ring

end Ex2

/-- **C126, violated for single modes of equal frequency.** Two modes have frequency 1; an eigensolver may find eigenvectors
such that the reported gradients are 7/25 and -7/25, while the lower frequency falls with slope -1 in one direction and in
the opposite one.  Neither of the slopes is reported. -/
theorem C126_degenerate_wrong : ∃ (S : System 3 1) (q u : V3 ℝ), S.Good (fun _ => none) ∧
    S.freq (fun _ => none) q 0 = 1 ∧ S.freq (fun _ => none) q 1 = 1 ∧
    S.gradAlong (fun _ => none) q u 0 = 7 / 25 ∧ S.gradAlong (fun _ => none) q u 1 = -(7 / 25) ∧
    ∀ p, Along S.cv q u p →
      HasDerivWithinAt (fun t => S.freq (fun _ => none) (p t) 0) (-1) (Set.Ici 0) 0 ∧
      HasDerivWithinAt (fun t => S.freq (fun _ => none) (p t) 0) 1 (Set.Iic 0) 0 := by
  obtain ⟨e, he⟩ := exists_isEigh (1 * 3)
  obtain ⟨h1, h2, h3, h4⟩ := Ex2.reported he
  exact ⟨Ex2.chain (Ex2.eigh e), Ex.q, ⟨1, 0, 0⟩, Ex2.good _ (Ex2.isEigh he), h1, h2, h3, h4,
    fun p hp => Ex2.slope (Ex2.isEigh he) hp⟩

/-- Beside `C126_degenerate_sum`: in the same case the sum of the two frequencies has derivative zero. -/
example {e : Mat 1 ℂ → (Fin (1 * 3) → ℝ) × Mat 1 ℂ} (he : IsEigh e) :
    let S := Ex2.chain (Ex2.eigh e)
    1 ∈ S.group (fun _ => none) Ex.q 0 ∧
    HasDerivAt (fun t => ∑ j ∈ S.group (fun _ => none) Ex.q 0, S.freq (fun _ => none) (path S.cv Ex.q ⟨1, 0, 0⟩ t) j)
      (∑ j ∈ S.group (fun _ => none) Ex.q 0, S.gradAlong (fun _ => none) Ex.q ⟨1, 0, 0⟩ j) 0 := by
  intro S
  obtain ⟨h1, h2, -, -⟩ := Ex2.reported he
  have hg := Ex2.good _ (Ex2.isEigh he)
  exact ⟨System.mem_group.2 (by rw [h1, h2]), C126_degenerate_sum hg (path_along _ hg.volume _ _) Ex2.path0
    (by rw [h1]; exact one_pos)⟩

end Euphonic.Gradient
