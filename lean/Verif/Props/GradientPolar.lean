import Verif.Props.GradientCorrected
import Verif.Props.DescribeDipole

/-!
# C176 with corrections: mode gradients are rotated with the crystal

For descriptions in which all atoms are put in the same cells the matrices of both descriptions are related by a matrix that
does not depend on the wavevector, so that also the part of the gradient that is reported for polar crystals is rotated.
-/

set_option autoImplicit false
set_option linter.unusedSectionVars false

namespace Euphonic.GradientSymmetry

open Euphonic.Lattice Euphonic.Supercell Euphonic.Phases Euphonic.Images Euphonic.DynMat Euphonic.Reduced
open Euphonic.Commensurate Euphonic.Acoustic Euphonic.Describe Euphonic.Gradient Euphonic.Dipole

section

variable {n N N' : Nat} {d : Description n N} {d' : Description n N'} {h : Change n N N'}

/-- What the mode gradients of a description are calculated from (euphonic/force_constants.py:541-603, 700-709), with a
correction of the sum rule. -/
noncomputable def systemAsr (d : Description n N) (images : List (V3 ℤ)) (junk : Fin N → Mat n ℝ) (asr : Option (Mat n ℂ))
    (eigh : Mat n ℂ → (Fin (n * 3) → ℝ) × Mat n ℂ) : System N n :=
  ofForceConstants d.cv d.r d.cells d.c0 d.S images d.fc junk d.mass asr eigh

/-- The gradient of the dynamical matrix of a description (second result of `_calculate_dyn_mat`,
euphonic/force_constants.py:942-949). -/
noncomputable def Dgrad (d : Description n N) (images : List (V3 ℤ)) (junk : Fin N → Mat n ℝ) (q : V3 ℝ) (a : Fin 3) : Mat n ℂ :=
  dynGrad d.cv (fcImgWeighted d.fc junk (imageLoops d.cv d.r d.cells d.c0 d.S images).cnt) d.cells (scOrigins d.S images)
    (scImageI (imageLoops d.cv d.r d.cells d.c0 d.S images)) q a

theorem phase_cancel (q : V3 ℝ) (L : V3 ℤ) : expQR q L * star (expQR q L) = 1 := by
  rw [← expQR_neg', ← expQR_add]
  simp [expQR, add, neg]

/-- The derivative of the dynamical matrix of a description. -/
theorem dynMat_deriv {images : List (V3 ℤ)} (hok : d.Ok images) (junk : Fin N → Mat n ℝ) {q u : V3 ℝ} {p : ℝ → V3 ℝ}
    (hp : Along d.cv q u p) (k l : Fin (n * 3)) :
    HasDerivAt (fun t => d.dynMat images junk (p t) k l) ((u.x : ℂ) * Dgrad d images junk q 0 k l +
      u.y * Dgrad d images junk q 1 k l + u.z * Dgrad d images junk q 2 k l) 0 :=
  C126_matrix_gradient d.cv (volume_ne hok) (fcImgWeighted d.fc junk (imageLoops d.cv d.r d.cells d.c0 d.S images).cnt)
    d.cells (scOrigins d.S images) (scImageI (imageLoops d.cv d.r d.cells d.c0 d.S images)) hp k l

theorem axis_comb (f : Fin 3 → ℂ) (a : Fin 3) : f a = ((axis a).x : ℂ) * f 0 + (axis a).y * f 1 + (axis a).z * f 2 := by
  fin_cases a <;> simp [axis]

/-- The gradients of the dynamical matrices are carried from one description to the other and rotated. -/
theorem grad_carries (hr : h.Relates d d') {images images' : List (V3 ℤ)} (hok : d.Ok images) (hok' : d'.Ok images')
    (hT : ∀ i j, h.T i = h.T j) (junk : Fin N → Mat n ℝ) (junk' : Fin N' → Mat n ℝ) (q : V3 ℝ) (a : Fin 3) :
    h.Carries q (fun k l => ∑ b, (h.R a b : ℂ) * Dgrad d images junk (h.back q) b k l) (Dgrad d' images' junk' q a) := by
  intro i j a1 b1
  have hp' := path_along d'.cv (volume_ne hok') q (axis a)
  have hp := back_along hr hok hok' q a
  have h1 : HasDerivAt (fun t => d'.dynMat images' junk' (path d'.cv q (axis a) t) (row (h.p i) a1) (row (h.p j) b1))
      (((axis a).x : ℂ) * Dgrad d' images' junk' q 0 (row (h.p i) a1) (row (h.p j) b1) +
        (axis a).y * Dgrad d' images' junk' q 1 (row (h.p i) a1) (row (h.p j) b1) +
        (axis a).z * Dgrad d' images' junk' q 2 (row (h.p i) a1) (row (h.p j) b1)) 0 := dynMat_deriv hok' junk' hp' _ _
  have h2 : ∀ k l, HasDerivAt (fun t => d.dynMat images junk (h.back (path d'.cv q (axis a) t)) k l)
      ((h.R a 0 : ℂ) * Dgrad d images junk (h.back q) 0 k l + h.R a 1 * Dgrad d images junk (h.back q) 1 k l +
        h.R a 2 * Dgrad d images junk (h.back q) 2 k l) 0 := fun k l => dynMat_deriv hok junk hp k l
  have h3 : ∀ (p : V3 ℝ) (M : Mat n ℂ), (∑ a', ∑ b', expQR p (h.T i) * h.R a1 a' * M (row i a') (row j b') * star (expQR p (h.T j) * h.R b1 b')) =
      ∑ a', ∑ b', (h.R a1 a' * h.R b1 b' : ℂ) * M (row i a') (row j b') := by
    intro p M
    refine Finset.sum_congr rfl fun a' _ => Finset.sum_congr rfl fun b' _ => ?_
    have := phase_cancel p (h.T i)
    rw [hT j i, star_mul', show star ((h.R b1 b' : ℝ) : ℂ) = h.R b1 b' from Complex.conj_ofReal _]
    linear_combination (h.R a1 a' * h.R b1 b' * M (row i a') (row j b') : ℂ) * this
  have h4 : (fun t => d'.dynMat images' junk' (path d'.cv q (axis a) t) (row (h.p i) a1) (row (h.p j) b1)) =
      fun t => ∑ a', ∑ b', (h.R a1 a' * h.R b1 b' : ℂ) *
        d.dynMat images junk (h.back (path d'.cv q (axis a) t)) (row i a') (row j b') := by
    funext t
    rw [hr.carries hok hok' junk junk' _ i j a1 b1, h3]
  have h5 := HasDerivAt.fun_sum (u := Finset.univ) fun a' _ => HasDerivAt.fun_sum (u := Finset.univ) fun b' _ =>
    (h2 (row i a') (row j b')).const_mul (h.R a1 a' * h.R b1 b' : ℂ)
  have h6 := h1.unique (h5.congr_of_eventuallyEq (Filter.Eventually.of_forall fun t => congrFun h4 t))
  refine Eq.trans ?_ (h3 q fun k l => ∑ b, (h.R a b : ℂ) * Dgrad d images junk (h.back q) b k l).symm
  rw [axis_comb (fun b => Dgrad d' images' junk' q b (row (h.p i) a1) (row (h.p j) b1)) a, h6]
  refine Finset.sum_congr rfl fun a' _ => Finset.sum_congr rfl fun b' _ => ?_
  rw [Fin.sum_univ_three]

/-- Traces of products of matrices that are carried from one description to the other. -/
theorem trace_carries (hr : h.Relates d d') {q : V3 ℝ} {P P' Z Z' : Mat n ℂ} (hP : h.Carries q P P') (hZ : h.Carries q Z Z') :
    ∑ k, ∑ l, P' l k * Z' k l = ∑ k, ∑ l, P l k * Z k l := by
  have key : ∀ A B : Mat n ℂ, ∑ k, ∑ l, A l k * B k l = (Matrix.of A * Matrix.of B).trace := by
    intro A B
    rw [Finset.sum_comm]
    rfl
  rw [key, key, (h.carries_iff q P P').1 hP, (h.carries_iff q Z Z').1 hZ]
  have hu := hr.unitary q
  calc (h.U q * Matrix.of P * (h.U q).conjTranspose * (h.U q * Matrix.of Z * (h.U q).conjTranspose)).trace
      = (h.U q * (Matrix.of P * ((h.U q).conjTranspose * h.U q) * Matrix.of Z) * (h.U q).conjTranspose).trace := by
        simp only [mul_assoc]
    _ = (Matrix.of P * Matrix.of Z).trace := by
        rw [hu, mul_one, Matrix.trace_mul_comm, ← mul_assoc, hu, one_mul]

/-- **C176 (rotated, with corrections).** With corrections of any kind that belong to the crystal, sums of the mode gradients of
modes of equal frequencies are rotated with the crystal, between descriptions in which the atoms are put in the same cells.
*Missing:* supercells that are not reduced; descriptions with atoms in other cells, for which the part of the gradient that is
reported is not determined by the crystal. -/
theorem C176_rotated_corrected_partial (hr : h.Relates d d') {images images' : List (V3 ℤ)} (hok : d.Ok images)
    (hok' : d'.Ok images') (hT : ∀ i j, h.T i = h.T j) (junk : Fin N → Mat n ℝ) (junk' : Fin N' → Mat n ℝ)
    {asr asr' : Option (Mat n ℂ)} {dip dip' : V3 ℝ → Option (Mat n ℂ)} {eigh eigh' : Mat n ℂ → (Fin (n * 3) → ℝ) × Mat n ℂ}
    (hg : (systemAsr d images junk asr eigh).Good dip) (he' : IsEigh eigh') (q : V3 ℝ)
    (hd : h.CarriesOpt q (dip (h.back q)) (dip' q)) (ha : h.CarriesOpt q asr asr') (s : Fin (n * 3)) (a : Fin 3) :
    let S := systemAsr d images junk asr eigh
    let S' := systemAsr d' images' junk' asr' eigh'
    S'.freq dip' q s = S.freq dip (h.back q) s ∧
      ∑ j ∈ S'.group dip' q s, S'.grad dip' q j a =
        ∑ b, h.R a b * ∑ j ∈ S.group dip (h.back q) s, S.grad dip (h.back q) j b := by
  classical
  intro S S'
  have hM : h.Carries q (S.M dip (h.back q)) (S'.M dip' q) :=
    hr.weighted (hr.carries hok hok' junk junk' q) hd ha trivial
  have hev : (eigh' (S'.M dip' q)).1 = (eigh (S.M dip (h.back q))).1 := hr.evals hM (hg.matrix _) hg.eigh he'
  have hf : S'.freq dip' q s = S.freq dip (h.back q) s := by
    unfold System.freq
    rw [show S'.eigh = eigh' from rfl, show S.eigh = eigh from rfl, hev]
  refine ⟨hf, ?_⟩
  have hZ : h.Carries q (fun k l => (∑ b, (h.R a b : ℂ) * Dgrad d images junk (h.back q) b k l) * massWeighting d.mass k l)
      (fun k l => Dgrad d' images' junk' q a k l * massWeighting d'.mass k l) :=
    hr.weighted (grad_carries hr hok hok' hT junk junk' q a) (dip := none) (dip' := none) (asr := none) (asr' := none)
      (loto := none) (loto' := none) trivial trivial trivial
  have hP := hr.spectral (eigh := eigh) hM (hg.matrix _) hg.eigh he' (fun v => if v = (eigh (S.M dip (h.back q))).1 s then 1 else 0)
  have ht := trace_carries hr hP hZ
  have e1 : ∑ j ∈ S'.group dip' q s, S'.grad dip' q j a =
      (∑ k, ∑ l, spectral (eigh' (S'.M dip' q)) (fun v => if v = (eigh' (S'.M dip' q)).1 s then 1 else 0) l k *
        (Dgrad d' images' junk' q a k l * massWeighting d'.mass k l)).re / (2 * S'.freq dip' q s) := group_sum S' dip' q s a
  have e2 : ∀ b, ∑ j ∈ S.group dip (h.back q) s, S.grad dip (h.back q) j b =
      (∑ k, ∑ l, spectral (eigh (S.M dip (h.back q))) (fun v => if v = (eigh (S.M dip (h.back q))).1 s then 1 else 0) l k *
        (Dgrad d images junk (h.back q) b k l * massWeighting d.mass k l)).re / (2 * S.freq dip (h.back q) s) :=
    fun b => group_sum S dip (h.back q) s b
  rw [e1, hf, hev]
  simp only [e2]
  rw [ht]
  simp only [mul_div_assoc', ← Finset.sum_div]
  congr 1
  have hre : ∀ (b : Fin 3) (z : ℂ), h.R a b * z.re = ((h.R a b : ℂ) * z).re := fun b z => (Complex.re_ofReal_mul _ _).symm
  have hs : ∀ f : Fin 3 → ℂ, ∑ b, h.R a b * (f b).re = (∑ b, (h.R a b : ℂ) * f b).re := by
    intro f
    rw [Complex.re_sum]
    exact Finset.sum_congr rfl fun b _ => hre b _
  rw [hs]
  congr 1
  simp only [Fin.sum_univ_three, Finset.mul_sum, ← Finset.sum_add_distrib]
  refine Finset.sum_congr rfl fun k _ => Finset.sum_congr rfl fun l _ => ?_
  ring

/-- **C176 (magnitudes, with corrections).** With corrections, the mode gradient of a mode whose frequency no other mode has is
rotated, and its magnitude, from which the widths of adaptive broadening are calculated, is the same.  *Missing:* as above. -/
theorem C176_magnitude_corrected_partial (hr : h.Relates d d') {images images' : List (V3 ℤ)} (hok : d.Ok images)
    (hok' : d'.Ok images') (hT : ∀ i j, h.T i = h.T j) (junk : Fin N → Mat n ℝ) (junk' : Fin N' → Mat n ℝ)
    {asr asr' : Option (Mat n ℂ)} {dip dip' : V3 ℝ → Option (Mat n ℂ)} {eigh eigh' : Mat n ℂ → (Fin (n * 3) → ℝ) × Mat n ℂ}
    (hg : (systemAsr d images junk asr eigh).Good dip) (he' : IsEigh eigh') (q : V3 ℝ)
    (hd : h.CarriesOpt q (dip (h.back q)) (dip' q)) (ha : h.CarriesOpt q asr asr') {s : Fin (n * 3)}
    (hm : ∀ j, j ≠ s → (systemAsr d images junk asr eigh).freq dip (h.back q) j ≠
      (systemAsr d images junk asr eigh).freq dip (h.back q) s) :
    let S := systemAsr d images junk asr eigh
    let S' := systemAsr d' images' junk' asr' eigh'
    (∀ a, S'.grad dip' q s a = ∑ b, h.R a b * S.grad dip (h.back q) s b) ∧
      √(∑ a, S'.grad dip' q s a ^ 2) = √(∑ a, S.grad dip (h.back q) s a ^ 2) := by
  intro S S'
  have hall := fun s a => C176_rotated_corrected_partial hr hok hok' hT junk junk' hg he' q hd ha s a
  have hG : S.group dip (h.back q) s = {s} := by
    ext j
    rw [System.mem_group, Finset.mem_singleton]
    exact ⟨fun he => by_contra fun hj => hm j hj he, fun he => by rw [he]⟩
  have hG' : S'.group dip' q s = {s} := by
    ext j
    rw [System.mem_group, Finset.mem_singleton, (hall j 0).1, (hall s 0).1]
    exact ⟨fun he => by_contra fun hj => hm j hj he, fun he => by rw [he]⟩
  have h1 : ∀ a, S'.grad dip' q s a = ∑ b, h.R a b * S.grad dip (h.back q) s b := by
    intro a
    have h2 := (hall s a).2
    rwa [show (systemAsr d' images' junk' asr' eigh').group dip' q s = {s} from hG',
      show (systemAsr d images junk asr eigh).group dip (h.back q) s = {s} from hG, Finset.sum_singleton,
      Finset.sum_congr rfl fun b _ => by rw [Finset.sum_singleton]] at h2
  refine ⟨h1, ?_⟩
  simp only [h1]
  generalize S.grad dip (h.back q) s = g
  have := dot_rotV hr.ortho ⟨g 0, g 1, g 2⟩ ⟨g 0, g 1, g 2⟩
  simp only [dot, rotV, comp0, comp1, comp2, Fin.sum_univ_three] at this ⊢
  congr 1
  linear_combination this

/-- The correction for dipoles of a description, for the screening parameter `x` (`_calculate_dipole_correction`,
euphonic/force_constants.py:1137-1235). -/
noncomputable def polarDip (d : Description n N) (born : Fin n → Fin 3 → Fin 3 → ℝ) (diel : Matrix (Fin 3) (Fin 3) ℝ)
    (erfc : ℝ → ℝ) (x : ℝ) : V3 ℝ → Option (Mat n ℂ) :=
  fun q => some (dipoleCorrection erfc (d.ions born diel) (upperLambda (d.ions born diel) x) q)

theorem polar_good (d : Description n N) {images : List (V3 ℤ)} (hok : d.Ok images) {op : Fin N → Fin N}
    {t : Fin N → V3 ℤ} (hs : Symmetric d.cells d.S d.fc op t) (born : Fin n → Fin 3 → Fin 3 → ℝ)
    {diel : Matrix (Fin 3) (Fin 3) ℝ} (hd : diel.transpose = diel) (erfc : ℝ → ℝ) (x : ℝ) (junk : Fin N → Mat n ℝ)
    {eigh : Mat n ℂ → (Fin (n * 3) → ℝ) × Mat n ℂ} (he : IsEigh eigh) :
    (systemAsr d images junk none eigh).Good (polarDip d born diel erfc x) where
  volume := volume_ne hok
  eigh := he
  hermitian := fun q k l =>
    (C123_hermitian_partial d.cv d.r d.cells d.c0 d.S images hok.reduced.shells hok.reduced.volume hok.reduced.reduced
      hok.reduced.within hs hok.first junk q k l)
  asr := by simp [systemAsr, ofForceConstants]
  dip := by
    rintro q M ⟨⟩ k l
    exact C50_hermitian erfc _ _ hd q k l

/-- **C176 (rotated, dipoles).** For polar crystals, with the correction for dipoles as it is calculated, sums of the mode
gradients of modes of equal frequencies are rotated with the crystal, for rotations that exchange or reverse axes.
*Missing:* supercells that are not reduced, other rotations, atoms in other cells. -/
theorem C176_rotated_dipole_partial (hr : h.Relates d d') {images images' : List (V3 ℤ)} (hok : d.Ok images)
    (hok' : d'.Ok images') {op : Fin N → Fin N} {t : Fin N → V3 ℤ} (hs : Symmetric d.cells d.S d.fc op t)
    {born born' : Fin n → Fin 3 → Fin 3 → ℝ} {diel diel' : Matrix (Fin 3) (Fin 3) ℝ}
    (hi : h.RelatesIons (d.ions born diel) (d'.ions born' diel')) (hR : SignedRot h.R) (hd : diel.transpose = diel)
    (erfc : ℝ → ℝ) (x : ℝ) (junk : Fin N → Mat n ℝ) (junk' : Fin N' → Mat n ℝ) (q : V3 ℝ)
    {eigh eigh' : Mat n ℂ → (Fin (n * 3) → ℝ) × Mat n ℂ} (he : IsEigh eigh) (he' : IsEigh eigh') (s : Fin (n * 3)) (a : Fin 3) :
    let S := systemAsr d images junk none eigh
    let S' := systemAsr d' images' junk' none eigh'
    let dip := polarDip d born diel erfc x
    let dip' := polarDip d' born' diel' erfc x
    S'.freq dip' q s = S.freq dip (h.back q) s ∧
      ∑ j ∈ S'.group dip' q s, S'.grad dip' q j a =
        ∑ b, h.R a b * ∑ j ∈ S.group dip (h.back q) s, S.grad dip (h.back q) j b := by
  refine C176_rotated_corrected_partial hr hok hok' (fun i j => by rw [hi.stay i, hi.stay j]) junk junk'
    (asr' := none)
    (polar_good d hok hs born hd erfc x junk he) he' q ?_ trivial s a
  unfold polarDip
  rw [hr.upperLambda_eq hi ⟨rfl, rfl⟩ ⟨rfl, rfl⟩]
  exact hr.dipole_carries hi ⟨rfl, rfl⟩ ⟨rfl, rfl⟩ hok hok' (hr.cells_eq hi ⟨rfl, rfl⟩ ⟨rfl, rfl⟩ hR)
    (hr.gShells_eq hi ⟨rfl, rfl⟩ ⟨rfl, rfl⟩ hok hok' hR) q

end

namespace Ex

/-- A correction that makes the frequencies 4, 5 and 6. -/
noncomputable def corr : Mat 1 ℂ := fun k l => if k = l then ((![15, 21, 27] : Fin 3 → ℝ) k.modNat : ℂ) else 0

theorem corr_herm (k l : Fin (1 * 3)) : corr l k = star (corr k l) := by
  unfold corr
  by_cases h : k = l
  · subst h; rw [if_pos rfl]; exact (Complex.conj_ofReal _).symm
  · rw [if_neg h, if_neg (Ne.symm h), star_zero]

theorem corr_good (junk : Fin 2 → Mat 1 ℝ) {eigh : Mat 1 ℂ → (Fin (1 * 3) → ℝ) × Mat 1 ℂ} (he : IsEigh eigh) :
    (systemAsr d shells2 junk (some corr) eigh).Good noDip := by
  have h := system_good d ok symmetric junk he
  refine ⟨h.volume, he, h.hermitian, ?_, by simp [noDip]⟩
  rintro A ⟨⟩ k l
  exact corr_herm k l

theorem corr_M (junk : Fin 2 → Mat 1 ℝ) (eigh : Mat 1 ℂ → (Fin (1 * 3) → ℝ) × Mat 1 ℂ) (k l : Fin (1 * 3)) :
    (systemAsr d shells2 junk (some corr) eigh).M noDip q k l = if k = l then ((![16, 25, 36] : Fin 3 → ℝ) k.modNat : ℂ) else 0 := by
  have h1 : (systemAsr d shells2 junk (some corr) eigh).M noDip q k l = (system d shells2 junk eigh).M noDip q k l + corr k l := by
    unfold System.M
    rw [Gradient.weighted_eq, Gradient.weighted_eq]
    simp only [orZero]
    rw [show massWeighting (systemAsr d shells2 junk (some corr) eigh).mass k l = 1 from Gradient.Ex.massWeighting_one k l,
      show massWeighting (system d shells2 junk eigh).mass k l = 1 from Gradient.Ex.massWeighting_one k l]
    have e1 : (systemAsr d shells2 junk (some corr) eigh).D q k l = (system d shells2 junk eigh).D q k l := rfl
    have e2 : (systemAsr d shells2 junk (some corr) eigh).asr = some corr := rfl
    have e3 : (system d shells2 junk eigh).asr = none := rfl
    rw [e1, e2, e3]
    simp
  rw [h1, M_eq]
  unfold corr
  by_cases h : k = l
  · subst h
    rw [if_pos rfl, if_pos rfl, if_pos rfl, ← Complex.ofReal_add]
    generalize k.modNat = m
    fin_cases m <;> norm_num
  · rw [if_neg h, if_neg h, if_neg h, add_zero]

theorem corr_evals (junk : Fin 2 → Mat 1 ℝ) {eigh : Mat 1 ℂ → (Fin (1 * 3) → ℝ) × Mat 1 ℂ} (he : IsEigh eigh) :
    (eigh ((systemAsr d shells2 junk (some corr) eigh).M noDip q)).1 = (![16, 25, 36] : Fin 3 → ℝ) := by
  obtain ⟨b, hb, -⟩ := diag_of_eigh he (fun k l => (corr_good junk he).matrix q k l)
  have hd : Eigen.Diag (toOp ((systemAsr d shells2 junk (some corr) eigh).M noDip q)) (![16, 25, 36] : Fin 3 → ℝ)
      (EuclideanSpace.basisFun (Fin 3) ℂ) := by
    refine ⟨?_, fun i => ?_⟩
    · intro i j hij
      fin_cases i <;> fin_cases j <;> first | (simp at hij; done) | norm_num
    · ext k
      simp only [EuclideanSpace.basisFun_apply, EuclideanSpace.single]
      rw [toOp_apply]
      simp only [corr_M]
      by_cases hik : k = i
      · subst hik
        fin_cases k <;> simp [Fin.modNat]
      · simp [hik]
  funext s
  have := hb.weyl_abs hd s
  rw [sub_self, norm_zero, abs_nonpos_iff, sub_eq_zero] at this
  exact this

/-- The chain with springs that differ, its frequencies shifted by the correction: the magnitudes of the gradients at a wavevector
and at its mirror image. -/
example (junk : Fin 2 → Mat 1 ℝ) {eigh : Mat 1 ℂ → (Fin (1 * 3) → ℝ) × Mat 1 ℂ} (he : IsEigh eigh) (s : Fin (1 * 3)) :
    let S := systemAsr d shells2 junk (some corr) eigh
    √(∑ a, S.grad noDip ⟨-1 / 4, 1 / 3, 1 / 7⟩ s a ^ 2) = √(∑ a, S.grad noDip q s a ^ 2) := by
  intro S
  have hb : mirror.back ⟨-1 / 4, 1 / 3, 1 / 7⟩ = q := by
    simp [Change.back, mirror, dot, castV, q]
    norm_num
  have hf : ∀ j : Fin (1 * 3), S.freq noDip q j = freqOf ((![16, 25, 36] : Fin 3 → ℝ) j) := by
    intro j
    unfold System.freq
    rw [show S.eigh = eigh from rfl, corr_evals junk he]
  have h1 := (C176_magnitude_corrected_partial (asr' := some corr) (dip' := noDip) isSymmetry ok ok (fun _ _ => rfl) junk junk
    (corr_good junk he) he ⟨-1 / 4, 1 / 3, 1 / 7⟩ trivial ?_ (s := s) ?_).2
  · rw [hb] at h1
    exact h1
  · intro i j a b
    rw [Subsingleton.elim i 0, Subsingleton.elim j 0]
    simp only [corr, mirror, Equiv.refl_apply, row_eq, row_mod, Fin.sum_univ_three]
    fin_cases a <;> fin_cases b <;> simp [expQR]
  · intro j hj
    rw [hb, show (systemAsr d shells2 junk (some corr) eigh) = S from rfl, hf, hf]
    intro hc
    have := freqOf_injective hc
    revert this
    fin_cases s <;> fin_cases j <;> first | exact absurd rfl hj | norm_num

end Ex

theorem rotation_row (f : Fin 3 → ℝ) : ∑ b, Describe.Ex.rotation.R 1 b * f b = -f 2 := by
  simp [Describe.Ex.rotation, Fin.sum_univ_three]

/-- The polar chain of `Describe.Ex`: the gradients at a wavevector and at the one rotated about the chain, where the second
component of the one is the third of the other, with the sign changed. -/
example (erfc : ℝ → ℝ) (junk : Fin 2 → Mat 2 ℝ) {eigh : Mat 2 ℂ → (Fin (2 * 3) → ℝ) × Mat 2 ℂ} (he : IsEigh eigh) (s : Fin (2 * 3)) :
    let S := systemAsr Describe.Ex.d shells2 junk none eigh
    let dip := polarDip Describe.Ex.d Describe.Ex.born Describe.Ex.diel erfc 1
    ∑ j ∈ S.group dip ⟨1 / 5, 1 / 3, 1 / 7⟩ s, S.grad dip ⟨1 / 5, 1 / 3, 1 / 7⟩ j 1 =
      -∑ j ∈ S.group dip ⟨1 / 5, 1 / 7, -1 / 3⟩ s, S.grad dip ⟨1 / 5, 1 / 7, -1 / 3⟩ j 2 := by
  intro S dip
  have hd : Describe.Ex.diel.transpose = Describe.Ex.diel := by simp [Describe.Ex.diel]
  have h1 := (C176_rotated_dipole_partial Describe.Ex.isSymmetry Describe.Ex.ok Describe.Ex.ok Describe.Ex.symmetric
    Describe.Ex.relatesIons Describe.Ex.signedRot hd erfc 1 junk junk ⟨1 / 5, 1 / 3, 1 / 7⟩ he he s 1).2
  have hb : Describe.Ex.rotation.back ⟨1 / 5, 1 / 3, 1 / 7⟩ = ⟨1 / 5, 1 / 7, -1 / 3⟩ := by
    simp [Change.back, Describe.Ex.rotation, dot, castV]
    norm_num
  rw [hb, rotation_row] at h1
  exact h1

end Euphonic.GradientSymmetry
