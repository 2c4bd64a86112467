import Verif.Props.GradientGroup
import Verif.Props.DescribeScatter
import Verif.Props.AcousticSlope
import Verif.Props.DescribeEwald
import Verif.Props.Powder

/-!
# C176: mode gradients at equivalent wavevectors

Mode gradients do not change when a reciprocal lattice vector is added to the wavevector, they change their sign with
the wavevector, and they are rotated with the crystal.
-/

set_option autoImplicit false
set_option linter.unusedSectionVars false

namespace Euphonic.GradientSymmetry

open Euphonic.Lattice Euphonic.Supercell Euphonic.Phases Euphonic.Images Euphonic.DynMat Euphonic.Reduced
open Euphonic.Commensurate Euphonic.Acoustic Euphonic.Describe Euphonic.Gradient

section

variable {n N N' : Nat} {d : Description n N} {d' : Description n N'} {h : Change n N N'}

/-! ## Specification -/

/-- No dipole correction. -/
abbrev noDip : V3 ℝ → Option (Mat n ℂ) := fun _ => none

/-- What the mode gradients of a description are calculated from: the weighted force constants, the images and the phases
of `ForceConstants._calculate_phonons_at_qpts` (euphonic/force_constants.py:541-603, 700-709), an eigensolver. -/
noncomputable def system (d : Description n N) (images : List (V3 ℤ)) (junk : Fin N → Mat n ℝ)
    (eigh : Mat n ℂ → (Fin (n * 3) → ℝ) × Mat n ℂ) : System N n :=
  ofForceConstants d.cv d.r d.cells d.c0 d.S images d.fc junk d.mass none eigh

/-- The mode can be told from the others by its frequency. -/
def Single (S : System N n) (q : V3 ℝ) (s : Fin (n * 3)) : Prop :=
  S.freq noDip q s ≠ 0 ∧ ∀ j, j ≠ s → S.freq noDip q j ≠ S.freq noDip q s

/-- The array of the mode gradients at some wavevectors, with shape `(n_qpts, n_modes, 3)`. -/
noncomputable def gradArray {nq : Nat} (S : System N n) (qs : Fin nq → V3 ℝ) : Powder.NdArray where
  shape := [nq, n * 3, 3]
  val := fun i => if h : i.getD 0 0 < nq ∧ i.getD 1 0 < n * 3 ∧ i.getD 2 0 < 3
    then S.grad noDip (qs ⟨i.getD 0 0, h.1⟩) ⟨i.getD 1 0, h.2.1⟩ ⟨i.getD 2 0, h.2.2⟩ else 0

/-! ## Theorems -/

/-- The sum of the frequencies of a group has a derivative along every line: what is reported, up to the sign for imaginary
frequencies. -/
theorem deriv_group {S : System N n} (hg : S.Good noDip) {q u : V3 ℝ} {p : ℝ → V3 ℝ} (hp : Along S.cv q u p) (h0 : p 0 = q)
    {s : Fin (n * 3)} (hz : S.freq noDip q s ≠ 0) : HasDerivAt (fun t => ∑ j ∈ S.group noDip q s, S.freq noDip (p t) j)
      ((if 0 < S.freq noDip q s then 1 else -1) * ∑ j ∈ S.group noDip q s, S.gradAlong noDip q u j) 0 := by
  rcases lt_or_gt_of_ne hz with hf | hf
  · rw [if_neg (not_lt.2 hf.le), neg_one_mul]
    exact C126_degenerate_imaginary hg hp h0 hf
  · rw [if_pos hf, one_mul]
    exact C126_degenerate_sum hg hp h0 hf

theorem group_eq {S : System N n} {S' : System N' n} {q q' : V3 ℝ}
    (hq : ∀ j, S'.freq noDip q' j = S.freq noDip q j) (s : Fin (n * 3)) : S'.group noDip q' s = S.group noDip q s := by
  ext j
  rw [System.mem_group, System.mem_group, hq, hq]

/-- Equal frequencies along two lines have equal gradients along them. -/
theorem along_eq {S : System N n} {S' : System N' n} (hg : S.Good noDip) (hg' : S'.Good noDip) {q u q' u' : V3 ℝ}
    {p p' : ℝ → V3 ℝ} (hp : Along S.cv q u p) (h0 : p 0 = q) (hp' : Along S'.cv q' u' p') (h0' : p' 0 = q')
    (hf : ∀ t j, S'.freq noDip (p' t) j = S.freq noDip (p t) j) {s : Fin (n * 3)} (hz : S.freq noDip q s ≠ 0) :
    ∑ j ∈ S'.group noDip q' s, S'.gradAlong noDip q' u' j = ∑ j ∈ S.group noDip q s, S.gradAlong noDip q u j := by
  have hq : ∀ j, S'.freq noDip q' j = S.freq noDip q j := fun j => by rw [← h0, ← h0', hf]
  have h1 := deriv_group hg hp h0 hz
  have h2 := deriv_group hg' hp' h0' (s := s) (by rw [hq]; exact hz)
  rw [group_eq hq s] at h2 ⊢
  simp only [hf] at h2
  have h3 := h2.unique h1
  rw [hq] at h3
  refine mul_left_cancel₀ ?_ h3
  split <;> norm_num

theorem Single.of_eq {S : System N n} {S' : System N' n} {q q' : V3 ℝ}
    (hq : ∀ j, S'.freq noDip q' j = S.freq noDip q j) {s : Fin (n * 3)} (hs : Single S q s) : Single S' q' s :=
  ⟨by rw [hq]; exact hs.1, fun j hj => by rw [hq, hq]; exact hs.2 j hj⟩

theorem Single.group {S : System N n} {q : V3 ℝ} {s : Fin (n * 3)} (hs : Single S q s) : S.group noDip q s = {s} := by
  ext j
  rw [System.mem_group, Finset.mem_singleton]
  exact ⟨fun he => by_contra fun hj => hs.2 j hj he, fun he => by rw [he]⟩

/-- The component along an axis. -/
theorem gradAlong_axis (S : System N n) (q : V3 ℝ) (s : Fin (n * 3)) (a : Fin 3) :
    S.gradAlong noDip q ⟨if a = 0 then 1 else 0, if a = 1 then 1 else 0, if a = 2 then 1 else 0⟩ s = S.grad noDip q s a := by
  fin_cases a <;> simp [System.gradAlong]

/-- **C176 (periodic).** The mode gradients at wavevectors that differ by a reciprocal lattice vector are the same, for
every mode. -/
theorem C176_periodic (S : System N n) (q : V3 ℝ) (G : V3 ℤ) (s : Fin (n * 3)) (a : Fin 3) :
    S.grad noDip (add q (castV ℝ G)) s a = S.grad noDip q s a := by
  obtain ⟨h1, h2⟩ := C44_periodic S.cv S.fcw S.cells S.scOs S.img q G
  have h3 : S.M noDip (add q (castV ℝ G)) = S.M noDip q := by
    unfold System.M System.D
    rw [h1]
  unfold System.grad
  rw [h2, h3]

theorem freq_neg {S : System N n} (hg : S.Good noDip) (ha : S.asr = none) (p : V3 ℝ) (j : Fin (n * 3)) :
    S.freq noDip (neg p) j = S.freq noDip p j := by
  have := (C44_frequencies S.fcw S.cells S.scOs S.img S.mass p ⟨0, 0, 0⟩ S.eigh hg.eigh (hg.hermitian p) j).2
  unfold System.freq System.M
  rw [ha]
  exact this

/-- **C176 (odd, modes of equal frequencies).** The sum of the mode gradients of modes of equal frequencies at `-q` is minus
the one at `q`.  *Missing:* sum rule and dipole corrections (see `C176_odd_corrected`). -/
theorem C176_odd_sum_partial {S : System N n} (hg : S.Good noDip) (ha : S.asr = none) (q : V3 ℝ) {s : Fin (n * 3)}
    (hz : S.freq noDip q s ≠ 0) (a : Fin 3) :
    ∑ j ∈ S.group noDip (neg q) s, S.grad noDip (neg q) j a = -∑ j ∈ S.group noDip q s, S.grad noDip q j a := by
  set u : V3 ℝ := ⟨if a = 0 then 1 else 0, if a = 1 then 1 else 0, if a = 2 then 1 else 0⟩ with hu
  have hp := path_along S.cv hg.volume q (neg u)
  have h0 : path S.cv q (neg u) 0 = q := by simp [path, add, smul]
  have hp' : Along S.cv (neg q) u fun t => neg (path S.cv q (neg u) t) := by
    intro t
    have := hp t
    simp only [toCart, add, smul, neg, V3.mk.injEq] at this ⊢
    obtain ⟨h1, h2, h3⟩ := this
    refine ⟨?_, ?_, ?_⟩
    · linear_combination -h1
    · linear_combination -h2
    · linear_combination -h3
  have := along_eq hg hg hp h0 hp' (by rw [h0]) (fun t j => freq_neg hg ha _ j) hz
  simp only [hu, gradAlong_axis] at this
  rw [this, ← Finset.sum_neg_distrib]
  refine Finset.sum_congr rfl fun j _ => ?_
  rw [← gradAlong_axis]
  simp only [System.gradAlong, neg]
  ring

/-- **C176 (odd).** The mode gradient at `-q` is minus the one at `q`, for modes whose frequency no other mode has.  *Missing:*
sum rule and dipole corrections (see `C176_odd_corrected`). -/
theorem C176_odd_partial {S : System N n} (hg : S.Good noDip) (ha : S.asr = none) (q : V3 ℝ) {s : Fin (n * 3)}
    (hs : Single S q s) (a : Fin 3) : S.grad noDip (neg q) s a = -S.grad noDip q s a := by
  have := C176_odd_sum_partial hg ha q hs.1 a
  rwa [hs.group, (hs.of_eq (freq_neg hg ha q)).group, Finset.sum_singleton, Finset.sum_singleton] at this

/-- The matrix that is diagonalised is the one of the description. -/
theorem system_M (d : Description n N) (images : List (V3 ℤ)) (junk : Fin N → Mat n ℝ)
    (eigh : Mat n ℂ → (Fin (n * 3) → ℝ) × Mat n ℂ) (q : V3 ℝ) :
    (system d images junk eigh).M noDip q = d.weighted images junk q := rfl

theorem system_good (d : Description n N) {images : List (V3 ℤ)} (hok : d.Ok images) {op : Fin N → Fin N}
    {t : Fin N → V3 ℤ} (hs : Symmetric d.cells d.S d.fc op t) (junk : Fin N → Mat n ℝ)
    {eigh : Mat n ℂ → (Fin (n * 3) → ℝ) × Mat n ℂ} (he : IsEigh eigh) : (system d images junk eigh).Good noDip where
  volume := volume_ne hok
  eigh := he
  hermitian := fun q k l =>
    (C123_hermitian_partial d.cv d.r d.cells d.c0 d.S images hok.reduced.shells hok.reduced.volume hok.reduced.reduced
      hok.reduced.within hs hok.first junk q k l)
  asr := by simp [system, ofForceConstants]
  dip := by simp [noDip]

/-- The unit vector along an axis. -/
noncomputable def axis (a : Fin 3) : V3 ℝ := ⟨if a = 0 then 1 else 0, if a = 1 then 1 else 0, if a = 2 then 1 else 0⟩

/-- A line along an axis, in the other description. -/
theorem back_along (hr : h.Relates d d') {images images' : List (V3 ℤ)} (hok : d.Ok images) (hok' : d'.Ok images') (q : V3 ℝ)
    (a : Fin 3) : Along d.cv (h.back q) ⟨h.R a 0, h.R a 1, h.R a 2⟩ fun t => h.back (path d'.cv q (axis a) t) := by
  have hp' := path_along d'.cv (volume_ne hok') q (axis a)
  intro t
  have h1 := hp' t
  rw [hr.cartesian hok hok' (path d'.cv q (axis a) t), hr.cartesian hok hok' q] at h1
  have hc : ∀ b, comp (toCart (reciprocalCell (2 * Real.pi) d.cv) (h.back (path d'.cv q (axis a) t))) b =
      comp (toCart (reciprocalCell (2 * Real.pi) d.cv) (h.back q)) b + t * h.R a b := by
    intro b
    rw [← rotV_inv hr.ortho _ b, h1, ← rotV_inv hr.ortho (toCart (reciprocalCell (2 * Real.pi) d.cv) (h.back q)) b]
    have hcu : ∀ c, comp (add (rotV h.R (toCart (reciprocalCell (2 * Real.pi) d.cv) (h.back q))) (smul t (axis a))) c =
        comp (rotV h.R (toCart (reciprocalCell (2 * Real.pi) d.cv) (h.back q))) c + t * (if a = c then 1 else 0) := by
      intro c
      fin_cases c <;> simp [comp, add, smul, axis]
    simp only [hcu, mul_add, Finset.sum_add_distrib]
    congr 1
    simp [mul_comm]
  exact V3.ext' (hc 0) (hc 1) (hc 2)

/-- **C176 (rotated, modes of equal frequencies).** Sums of mode gradients of modes of equal frequencies are vectors of the
crystal, whichever eigenvectors have been found: in another description of the same crystal (or at a
wavevector that is moved by a symmetry operation of it: then the descriptions are the same) they are rotated.  *Missing:* supercells that are not reduced, sum rule and dipole corrections. -/
theorem C176_rotated_sum_partial (hr : h.Relates d d') {images images' : List (V3 ℤ)} (hok : d.Ok images) (hok' : d'.Ok images')
    {op : Fin N → Fin N} {t : Fin N → V3 ℤ} (hs : Symmetric d.cells d.S d.fc op t) {op' : Fin N' → Fin N'}
    {t' : Fin N' → V3 ℤ} (hs' : Symmetric d'.cells d'.S d'.fc op' t') (junk : Fin N → Mat n ℝ) (junk' : Fin N' → Mat n ℝ)
    {eigh eigh' : Mat n ℂ → (Fin (n * 3) → ℝ) × Mat n ℂ} (he : IsEigh eigh) (he' : IsEigh eigh') (q : V3 ℝ)
    {s : Fin (n * 3)} (hz : (system d images junk eigh).freq noDip (h.back q) s ≠ 0) (a : Fin 3) :
    ∑ j ∈ (system d' images' junk' eigh').group noDip q s, (system d' images' junk' eigh').grad noDip q j a =
      ∑ b, h.R a b * ∑ j ∈ (system d images junk eigh).group noDip (h.back q) s,
        (system d images junk eigh).grad noDip (h.back q) j b := by
  have hg := system_good d hok hs junk he
  have hg' := system_good d' hok' hs' junk' he'
  set u : V3 ℝ := axis a with hu
  have hp' := path_along d'.cv (volume_ne hok') q u
  have h0' : path d'.cv q u 0 = q := by simp [path, add, smul]
  have hp := back_along hr hok hok' q a
  have hf : ∀ t j, (system d' images' junk' eigh').freq noDip (path d'.cv q u t) j =
      (system d images junk eigh).freq noDip (h.back (path d'.cv q u t)) j := fun t j =>
    C131_frequencies_partial hr hok hok' hs junk junk' (path d'.cv q u t) he he' j
  have := along_eq hg hg' hp (by rw [h0']) hp' h0' hf hz
  simp only [hu, axis, gradAlong_axis] at this
  rw [this, Fin.sum_univ_three]
  simp only [System.gradAlong, Finset.sum_add_distrib, Finset.mul_sum]

/-- **C176 (rotated).** Mode gradients are vectors of the crystal: in another description of the same crystal (or at a
wavevector that is moved by a symmetry operation of it: then the descriptions are the same) they are rotated, for modes
whose frequency no other mode has.  *Missing:* supercells that are not reduced, sum rule and dipole corrections. -/
theorem C176_rotated_partial (hr : h.Relates d d') {images images' : List (V3 ℤ)} (hok : d.Ok images) (hok' : d'.Ok images')
    {op : Fin N → Fin N} {t : Fin N → V3 ℤ} (hs : Symmetric d.cells d.S d.fc op t) {op' : Fin N' → Fin N'}
    {t' : Fin N' → V3 ℤ} (hs' : Symmetric d'.cells d'.S d'.fc op' t') (junk : Fin N → Mat n ℝ) (junk' : Fin N' → Mat n ℝ)
    {eigh eigh' : Mat n ℂ → (Fin (n * 3) → ℝ) × Mat n ℂ} (he : IsEigh eigh) (he' : IsEigh eigh') (q : V3 ℝ)
    {s : Fin (n * 3)} (hm : Single (system d images junk eigh) (h.back q) s) (a : Fin 3) :
    (system d' images' junk' eigh').grad noDip q s a =
      ∑ b, h.R a b * (system d images junk eigh).grad noDip (h.back q) s b := by
  have := C176_rotated_sum_partial hr hok hok' hs hs' junk junk' he he' q hm.1 a
  have hf : ∀ j, (system d' images' junk' eigh').freq noDip q j = (system d images junk eigh).freq noDip (h.back q) j :=
    fun j => C131_frequencies_partial hr hok hok' hs junk junk' q he he' j
  rwa [hm.group, (hm.of_eq hf).group, Finset.sum_singleton, Finset.sum_congr rfl fun b _ => by rw [Finset.sum_singleton]] at this

/-- **C176 (magnitudes).** The magnitude of the mode gradient, from which the widths of adaptive broadening are calculated, is
the same in both descriptions and at equivalent wavevectors.  *Missing:* as above. -/
theorem C176_magnitude_partial (hr : h.Relates d d') {images images' : List (V3 ℤ)} (hok : d.Ok images) (hok' : d'.Ok images')
    {op : Fin N → Fin N} {t : Fin N → V3 ℤ} (hs : Symmetric d.cells d.S d.fc op t) {op' : Fin N' → Fin N'}
    {t' : Fin N' → V3 ℤ} (hs' : Symmetric d'.cells d'.S d'.fc op' t') (junk : Fin N → Mat n ℝ) (junk' : Fin N' → Mat n ℝ)
    {eigh eigh' : Mat n ℂ → (Fin (n * 3) → ℝ) × Mat n ℂ} (he : IsEigh eigh) (he' : IsEigh eigh') (q : V3 ℝ)
    {s : Fin (n * 3)} (hm : Single (system d images junk eigh) (h.back q) s) :
    √(∑ a, (system d' images' junk' eigh').grad noDip q s a ^ 2) =
      √(∑ a, (system d images junk eigh).grad noDip (h.back q) s a ^ 2) := by
  simp only [C176_rotated_partial hr hok hok' hs hs' junk junk' he he' q hm]
  generalize (system d images junk eigh).grad noDip (h.back q) s = g
  have := dot_rotV hr.ortho ⟨g 0, g 1, g 2⟩ ⟨g 0, g 1, g 2⟩
  simp only [dot, rotV, comp0, comp1, comp2, Fin.sum_univ_three] at this ⊢
  congr 1
  linear_combination this

theorem volume_eq (hr : h.Relates d d') (hv : 0 < cellVolume d.cv) (hv' : 0 < cellVolume d'.cv) :
    cellVolume d'.cv = cellVolume d.cv := by
  have hs : h.SameIons (d.ions (fun _ _ _ => 0) 0) (d'.ions (fun _ _ _ => 0) 0) :=
    ⟨hr.left, hr.right, hr.ortho, hr.vectors, hr.positions, hv', fun a b => by simp [Description.ions],
      fun i a b => by simp [Description.ions]⟩
  exact hs.volume_eq hv

theorem modulus_gradArray {nq : Nat} (S : System N n) (qs : Fin nq → V3 ℝ) (i : Fin nq) (s : Fin (n * 3)) :
    Powder.gradModulus (gradArray S qs) i s = √(∑ a, S.grad noDip (qs i) s a ^ 2) := by
  unfold Powder.gradModulus
  rw [if_neg (by simp [gradArray]), Fin.sum_univ_three]
  simp [gradArray]

/-- **C176 (widths).** The widths for adaptive broadening that `mode_gradients_to_widths` calculates from the mode gradients at
some wavevectors are the same in both descriptions, for right handed cells.  *Missing:* as above. -/
theorem C176_widths_partial (hr : h.Relates d d') {images images' : List (V3 ℤ)} (hok : d.Ok images) (hok' : d'.Ok images')
    {op : Fin N → Fin N} {t : Fin N → V3 ℤ} (hs : Symmetric d.cells d.S d.fc op t) {op' : Fin N' → Fin N'}
    {t' : Fin N' → V3 ℤ} (hs' : Symmetric d'.cells d'.S d'.fc op' t') (junk : Fin N → Mat n ℝ) (junk' : Fin N' → Mat n ℝ)
    {eigh eigh' : Mat n ℂ → (Fin (n * 3) → ℝ) × Mat n ℂ} (he : IsEigh eigh) (he' : IsEigh eigh') {nq : Nat}
    (qs : Fin nq → V3 ℝ) (hv : 0 < cellVolume d.cv) (hv' : 0 < cellVolume d'.cv) (cg cl : ℝ) (hcg : 0 < cg) :
    ∃ w w', Powder.modeGradientsToWidths cg cl (gradArray (system d images junk eigh) fun i => h.back (qs i)) d.cv = .ok w ∧
      Powder.modeGradientsToWidths cg cl (gradArray (system d' images' junk' eigh') qs) d'.cv = .ok w' ∧
      ∀ (i : Fin nq) (s : Fin (n * 3)), Single (system d images junk eigh) (h.back (qs i)) s →
        w'.val [i, s] = w.val [i, s] := by
  obtain ⟨w, hw, -, h1⟩ := Powder.widths_val cg cl (gradArray (system d images junk eigh) fun i => h.back (qs i)) d.cv hcg
    ⟨nq, n * 3, Or.inr rfl⟩
  obtain ⟨w', hw', -, h2⟩ := Powder.widths_val cg cl (gradArray (system d' images' junk' eigh') qs) d'.cv hcg
    ⟨nq, n * 3, Or.inr rfl⟩
  refine ⟨w, w', hw, hw', fun i s hm => ?_⟩
  rw [h1, h2, modulus_gradArray, modulus_gradArray, volume_eq hr hv hv',
    C176_magnitude_partial hr hok hok' hs hs' junk junk' he he' (qs i) hm]
  rfl

end

/-! ## An example -/

namespace Ex

/-- Beside C176: the gradients of the chain of `Gradient.Ex` at wavevectors of the opposite sign and in another zone. -/
example (eigh : Mat 1 ℂ → (Fin (1 * 3) → ℝ) × Mat 1 ℂ) (he : IsEigh eigh) :
    (Gradient.Ex.chain eigh).grad noDip ⟨-1 / 4, 0, 0⟩ 1 0 = 1 ∧
      (Gradient.Ex.chain eigh).grad noDip ⟨5 / 4, 3, -2⟩ 1 0 = -1 := by
  have hv : (Gradient.Ex.chain eigh).grad noDip Gradient.Ex.q 1 0 = -1 := by
    have := Gradient.Ex.gradAlong_eq eigh he 1
    simpa [System.gradAlong] using this
  have hs : Single (Gradient.Ex.chain eigh) Gradient.Ex.q 1 :=
    ⟨by rw [show (Gradient.Ex.chain eigh).freq noDip Gradient.Ex.q 1 = _ from Gradient.Ex.freqs eigh he 1]; simp,
      fun j hj => Gradient.Ex.simple eigh he 1 j hj⟩
  have h1 := C176_odd_partial (Gradient.Ex.good eigh he) rfl Gradient.Ex.q hs 0
  have h2 := C176_periodic (Gradient.Ex.chain eigh) Gradient.Ex.q ⟨1, 3, -2⟩ 1 0
  rw [hv] at h1 h2
  constructor
  · have he : neg Gradient.Ex.q = ⟨-1 / 4, 0, 0⟩ := by
      simp only [neg, Gradient.Ex.q]
      exact V3.ext' (by norm_num) (by simp) (by simp)
    rw [← he, h1, neg_neg]
  · have he : add Gradient.Ex.q (castV ℝ ⟨1, 3, -2⟩) = ⟨5 / 4, 3, -2⟩ := by
      simp only [add, castV, Gradient.Ex.q]
      exact V3.ext' (by norm_num) (by norm_num) (by norm_num)
    rw [← he, h2]

/-- Two modes of the same frequency: the sum of their gradients has the other sign at the opposite wavevector. -/
example {e : Mat 1 ℂ → (Fin (1 * 3) → ℝ) × Mat 1 ℂ} (he : IsEigh e) :
    let S := Ex2.chain (Ex2.eigh e)
    1 ∈ S.group noDip Gradient.Ex.q 0 ∧ ∑ j ∈ S.group noDip (neg Gradient.Ex.q) 0, S.grad noDip (neg Gradient.Ex.q) j 0 =
      -∑ j ∈ S.group noDip Gradient.Ex.q 0, S.grad noDip Gradient.Ex.q j 0 := by
  intro S
  obtain ⟨h1, h2, -, -⟩ := Ex2.reported he
  exact ⟨System.mem_group.2 (by rw [h1, h2]), C176_odd_sum_partial (Ex2.good _ (Ex2.isEigh he)) rfl _
    (by rw [h1]; exact one_ne_zero) 0⟩

/-- A chain of atoms along x whose springs differ in the three directions. -/
noncomputable def d : Description 1 2 where
  cv := DynMat.Ex.cv
  r := fun _ => ⟨0, 0, 0⟩
  mass := fun _ => 1
  S := DynMat.Ex.S
  cells := DynMat.Ex.cells
  c0 := 0
  fc := fun c k l => if k = l then ![1, 4, 9] k.modNat * ![1, -1] c else 0

/-- The mirror image along the chain. -/
noncomputable def mirror : Change 1 2 2 where
  A := ⟨⟨-1, 0, 0⟩, ⟨0, 1, 0⟩, ⟨0, 0, 1⟩⟩
  B := ⟨⟨-1, 0, 0⟩, ⟨0, 1, 0⟩, ⟨0, 0, 1⟩⟩
  p := Equiv.refl _
  T := fun _ => ⟨0, 0, 0⟩
  w := ⟨0, 0, 0⟩
  R := ![![-1, 0, 0], ![0, 1, 0], ![0, 0, 1]]
  s := fun _ _ c => c

theorem row_eq (a b : Fin 3) : row (0 : Fin 1) a = row (0 : Fin 1) b ↔ a = b :=
  ⟨fun h => by rw [← row_mod (0 : Fin 1) a, h, row_mod], fun h => by rw [h]⟩

theorem isSymmetry : mirror.Relates d d where
  left := fun v => by simp [mulMat, mirror]
  right := fun v => by simp [mulMat, mirror]
  ortho := fun a b => by fin_cases a <;> fin_cases b <;> simp [mirror, Fin.sum_univ_three]
  vectors := fun x => by
    simp [toCart, d, DynMat.Ex.cv, castM, castV, mirror, rotV, Fin.sum_univ_three, comp0, comp1, comp2]
  positions := fun i => by
    fin_cases i; norm_num [mirror, d, toCart, castM, castV, add]
  masses := fun i => rfl
  super := fun v => by
    constructor
    · rintro ⟨m, hm⟩
      refine ⟨⟨-m.x, m.y, m.z⟩, ?_⟩
      simp [mulMat, mirror, d, DynMat.Ex.S, V3.mk.injEq] at hm ⊢
      obtain ⟨h1, h2, h3⟩ := hm
      exact V3.ext' (by simp; omega) (by simp; omega) (by simp; omega)
    · rintro ⟨m, hm⟩
      refine ⟨⟨-m.x, m.y, m.z⟩, ?_⟩
      rw [hm]
      simp [mulMat, mirror, d, DynMat.Ex.S]
  bij := fun i j => Function.bijective_id
  cell := fun i j c => by
    fin_cases c
    · exact ⟨⟨0, 0, 0⟩, by simp [mulMat, sub, add, mirror, d, DynMat.Ex.cells]⟩
    · exact ⟨⟨1, 0, 0⟩, by simp [mulMat, sub, add, mirror, d, DynMat.Ex.cells, DynMat.Ex.S]⟩
  fcs := fun i j c a b => by
    rw [Subsingleton.elim i 0, Subsingleton.elim j 0]
    simp only [d, mirror, Equiv.refl_apply, row_eq, row_mod, Fin.sum_univ_three]
    fin_cases a <;> fin_cases b <;> simp

theorem ok : d.Ok shells2 where
  first := rfl
  reduced := ⟨shells2_eq, DynMat.Ex.volume, Commensurate.Chain.reduced, fun c i j => by
    refine ⟨⟨-(d.cells c).x / 2, 0, 0⟩, ?_, by simp, by simp, ?_⟩
    · fin_cases c <;> norm_num [d, DynMat.Ex.cells, abs_le]
    · fin_cases c <;> norm_num [d, DynMat.Ex.cells, DynMat.Ex.S, sub, add, castV]⟩

theorem symmetric : Symmetric d.cells d.S d.fc id ![⟨0, 0, 0⟩, ⟨-1, 0, 0⟩] where
  invol := fun _ => rfl
  origin := DynMat.Ex.symmetric.origin
  exchange := by
    intro c k l
    simp only [d, id]
    by_cases h : k = l
    · rw [h]
    · rw [if_neg h, if_neg (Ne.symm h)]

/-- The wavevector. -/
noncomputable def q : V3 ℝ := ⟨1 / 4, 1 / 3, 1 / 7⟩

theorem copies_first (L : V3 ℤ) : L ∈ d.copies shells2 0 0 0 ↔ L = ⟨0, 0, 0⟩ := by
  rw [mem_copies d ok]
  constructor
  · rintro ⟨h1, h2⟩
    have h3 := h2 (neg L) (by
      have : InLattice d.S L := by simpa [d, DynMat.Ex.cells, sub] using h1
      have := (InLattice.zero d.S).sub this
      simpa [neg, sub] using this)
    simp [Images.sq, dot, toCart, sub, castV, neg, d, DynMat.Ex.cv] at h3
    have hx : ((L.x : ℤ) : ℝ) = 0 := by nlinarith [sq_nonneg (L.x : ℝ), sq_nonneg (L.y : ℝ), sq_nonneg (L.z : ℝ)]
    have hy : ((L.y : ℤ) : ℝ) = 0 := by nlinarith [sq_nonneg (L.x : ℝ), sq_nonneg (L.y : ℝ), sq_nonneg (L.z : ℝ)]
    have hz : ((L.z : ℤ) : ℝ) = 0 := by nlinarith [sq_nonneg (L.x : ℝ), sq_nonneg (L.y : ℝ), sq_nonneg (L.z : ℝ)]
    exact V3.ext' (by exact_mod_cast hx) (by exact_mod_cast hy) (by exact_mod_cast hz)
  · rintro rfl
    refine ⟨⟨⟨0, 0, 0⟩, by simp [sub, mulMat, d, DynMat.Ex.cells]⟩, fun v _ => ?_⟩
    simp [Images.sq, dot, toCart, sub, castV, d, DynMat.Ex.cv]
    nlinarith [sq_nonneg (v.x : ℝ), sq_nonneg (v.y : ℝ), sq_nonneg (v.z : ℝ)]

theorem copies_second (L : V3 ℤ) : L ∈ d.copies shells2 1 0 0 ↔ L = ⟨1, 0, 0⟩ ∨ L = ⟨-1, 0, 0⟩ := by
  rw [mem_copies d ok]
  constructor
  · rintro ⟨⟨m, hm⟩, h2⟩
    simp [sub, mulMat, d, DynMat.Ex.cells, DynMat.Ex.S] at hm
    obtain ⟨h3, h4, h5⟩ := hm
    have hL : L = ⟨1 + m.x * 2, m.y, m.z⟩ := V3.ext' (by simp; omega) h4 h5
    subst hL
    have h6 := h2 ⟨0, -m.y, -m.z⟩ ⟨⟨0, -m.y, -m.z⟩, by simp [mulMat, d, DynMat.Ex.S]⟩
    simp [Images.sq, dot, toCart, sub, castV, d, DynMat.Ex.cv] at h6
    have hy : (m.y : ℝ) = 0 := by nlinarith [sq_nonneg (m.y : ℝ), sq_nonneg (m.z : ℝ)]
    have hz : (m.z : ℝ) = 0 := by nlinarith [sq_nonneg (m.y : ℝ), sq_nonneg (m.z : ℝ)]
    have hy' : m.y = 0 := by exact_mod_cast hy
    have hz' : m.z = 0 := by exact_mod_cast hz
    have h7 := h2 ⟨-2 * m.x, 0, 0⟩ ⟨⟨-m.x, 0, 0⟩, by simp [mulMat, d, DynMat.Ex.S]; ring⟩
    simp [Images.sq, dot, toCart, sub, castV, d, DynMat.Ex.cv, hy', hz'] at h7
    have h8 : (m.x : ℝ) ^ 2 + m.x ≤ 1 / 500 * (m.x : ℝ) ^ 2 := by nlinarith
    have h9 : m.x ≤ 0 := by
      by_contra hc
      have : (1 : ℝ) ≤ m.x := by exact_mod_cast not_le.1 hc
      nlinarith
    have h10 : -1 ≤ m.x := by
      by_contra hc
      have : (m.x : ℝ) ≤ -2 := by
        have : m.x ≤ -2 := by omega
        exact_mod_cast this
      nlinarith
    rcases (show m.x = 0 ∨ m.x = -1 by omega) with h | h
    · left; exact V3.ext' (by simp [h]) hy' hz'
    · right; exact V3.ext' (by simp [h]) hy' hz'
  · intro h
    refine ⟨?_, ?_⟩
    · rcases h with rfl | rfl
      · exact ⟨⟨0, 0, 0⟩, by simp [sub, mulMat, d, DynMat.Ex.cells]⟩
      · exact ⟨⟨-1, 0, 0⟩, by simp [sub, mulMat, d, DynMat.Ex.cells, DynMat.Ex.S]⟩
    · rintro v ⟨m, rfl⟩
      have h0 : (0 : ℝ) ≤ (m.x : ℝ) ^ 2 + m.x ∧ (0 : ℝ) ≤ (m.x : ℝ) ^ 2 - m.x := by
        have e1 : 0 ≤ m.x ^ 2 + m.x := by nlinarith [Int.emod_emod_of_dvd m.x (dvd_refl 2), mul_self_nonneg (2 * m.x + 1)]
        have e2 : 0 ≤ m.x ^ 2 - m.x := by nlinarith [mul_self_nonneg (2 * m.x - 1)]
        exact ⟨by exact_mod_cast e1, by exact_mod_cast e2⟩
      rcases h with rfl | rfl <;>
      · simp [Images.sq, dot, toCart, sub, castV, mulMat, d, DynMat.Ex.cv, DynMat.Ex.S]
        nlinarith [h0.1, h0.2, sq_nonneg (m.x : ℝ), sq_nonneg (m.y : ℝ), sq_nonneg (m.z : ℝ)]

theorem expQR_one : expQR q ⟨1, 0, 0⟩ = Complex.I := by
  rw [← Gradient.Ex.expQR_quarter]
  simp [expQR, q, Gradient.Ex.q]

theorem M_eq (junk : Fin 2 → Mat 1 ℝ) (eigh : Mat 1 ℂ → (Fin (1 * 3) → ℝ) × Mat 1 ℂ) (k l : Fin (1 * 3)) :
    (system d shells2 junk eigh).M noDip q k l = if k = l then ((![1, 4, 9] : Fin 3 → ℝ) k.modNat : ℂ) else 0 := by
  rw [system_M]
  unfold Description.weighted
  simp only [DynMat.weighted]
  rw [dynMat_copies d ok, show massWeighting d.mass k l = 1 from Gradient.Ex.massWeighting_one k l,
    Subsingleton.elim k.divNat 0, Subsingleton.elim l.divNat 0]
  have e0 : d.copies shells2 0 0 0 = {⟨0, 0, 0⟩} := by
    ext L; rw [copies_first, Finset.mem_singleton]
  have e1 : d.copies shells2 1 0 0 = {⟨1, 0, 0⟩, ⟨-1, 0, 0⟩} := by
    ext L; rw [copies_second]; simp
  rw [Fin.sum_univ_two, e0, e1, Finset.sum_singleton, Finset.sum_pair (by simp), expQR_one]
  have e2 : expQR q ⟨-1, 0, 0⟩ = -Complex.I := by
    have := expQR_neg q ⟨1, 0, 0⟩
    have h3 : expQR q ⟨-1, 0, 0⟩ = star (expQR q ⟨1, 0, 0⟩) := by
      rw [← this]
      simp [expQR, neg]
    rw [h3, expQR_one]
    simp
  rw [e2, add_neg_cancel, mul_zero, add_zero]
  by_cases h : k = l
  · subst h
    simp [d, expQR]
  · simp [d, h]

theorem evals (junk : Fin 2 → Mat 1 ℝ) {eigh : Mat 1 ℂ → (Fin (1 * 3) → ℝ) × Mat 1 ℂ} (he : IsEigh eigh) :
    (eigh ((system d shells2 junk eigh).M noDip q)).1 = (![1, 4, 9] : Fin 3 → ℝ) := by
  obtain ⟨b, hb, -⟩ := diag_of_eigh he (fun k l => (system_good d ok symmetric junk he).matrix q k l)
  have hd : Eigen.Diag (toOp ((system d shells2 junk eigh).M noDip q)) (![1, 4, 9] : Fin 3 → ℝ)
      (EuclideanSpace.basisFun (Fin 3) ℂ) := by
    refine ⟨?_, fun i => ?_⟩
    · intro i j hij
      fin_cases i <;> fin_cases j <;> first | (simp at hij; done) | norm_num
    · ext k
      simp only [EuclideanSpace.basisFun_apply, EuclideanSpace.single]
      rw [toOp_apply]
      simp only [M_eq]
      by_cases hik : k = i
      · subst hik
        fin_cases k <;> simp [Fin.modNat]
      · simp [hik]
  funext s
  have := hb.weyl_abs hd s
  rw [sub_self, norm_zero, abs_nonpos_iff, sub_eq_zero] at this
  exact this

theorem single (junk : Fin 2 → Mat 1 ℝ) {eigh : Mat 1 ℂ → (Fin (1 * 3) → ℝ) × Mat 1 ℂ} (he : IsEigh eigh) (s : Fin (1 * 3)) :
    Single (system d shells2 junk eigh) q s := by
  have hf : ∀ j : Fin (1 * 3), (system d shells2 junk eigh).freq noDip q j = freqOf ((![1, 4, 9] : Fin 3 → ℝ) j) := by
    intro j
    unfold System.freq
    rw [show (system d shells2 junk eigh).eigh = eigh from rfl, evals junk he]
  have h2 : √(4 : ℝ) = 2 := by rw [show (4 : ℝ) = 2 ^ 2 by norm_num]; exact Real.sqrt_sq (by norm_num)
  have h3 : √(9 : ℝ) = 3 := by rw [show (9 : ℝ) = 3 ^ 2 by norm_num]; exact Real.sqrt_sq (by norm_num)
  have hf' : ∀ j : Fin (1 * 3), (system d shells2 junk eigh).freq noDip q j = (![1, 2, 3] : Fin 3 → ℝ) j := by
    intro j
    rw [hf]
    fin_cases j <;> simp [freqOf, h2, h3]
  refine ⟨?_, fun j hj => ?_⟩
  · rw [hf']
    fin_cases s <;> simp
  · rw [hf', hf']
    fin_cases s <;> fin_cases j <;> first | exact absurd rfl hj | norm_num

/-- All the hypotheses hold together: the modes of the chain have frequencies 1, 2 and 3 at this wavevector; in the mirror image
only the component of their gradients along the chain has the other sign. -/
example (junk : Fin 2 → Mat 1 ℝ) {eigh : Mat 1 ℂ → (Fin (1 * 3) → ℝ) × Mat 1 ℂ} (he : IsEigh eigh) (s : Fin (1 * 3)) :
    (system d shells2 junk eigh).grad noDip ⟨-1 / 4, 1 / 3, 1 / 7⟩ s 0 = -(system d shells2 junk eigh).grad noDip q s 0 ∧
      (system d shells2 junk eigh).grad noDip ⟨-1 / 4, 1 / 3, 1 / 7⟩ s 1 = (system d shells2 junk eigh).grad noDip q s 1 := by
  have hb : mirror.back ⟨-1 / 4, 1 / 3, 1 / 7⟩ = q := by
    simp [Change.back, mirror, dot, castV, q]
    norm_num
  have h := C176_rotated_partial isSymmetry ok ok symmetric symmetric junk junk he he ⟨-1 / 4, 1 / 3, 1 / 7⟩ (s := s)
    (by rw [hb]; exact single junk he s)
  rw [hb] at h
  constructor
  · rw [h 0]; simp [mirror, Fin.sum_univ_three]
  · rw [h 1]; simp [mirror, Fin.sum_univ_three]

/-- The widths of all modes at this wavevector and its mirror image. -/
example (junk : Fin 2 → Mat 1 ℝ) {eigh : Mat 1 ℂ → (Fin (1 * 3) → ℝ) × Mat 1 ℂ} (he : IsEigh eigh) : ∃ w w',
    Powder.modeGradientsToWidths 1 1 (gradArray (system d shells2 junk eigh) fun _ : Fin 1 => q) d.cv = .ok w ∧
      Powder.modeGradientsToWidths 1 1 (gradArray (system d shells2 junk eigh) fun _ : Fin 1 => ⟨-1 / 4, 1 / 3, 1 / 7⟩) d.cv
        = .ok w' ∧ ∀ s : Fin (1 * 3), w'.val [0, s] = w.val [0, s] := by
  have hb : mirror.back ⟨-1 / 4, 1 / 3, 1 / 7⟩ = q := by
    simp [Change.back, mirror, dot, castV, q]
    norm_num
  have hv : 0 < cellVolume d.cv := by simp [cellVolume, d, DynMat.Ex.cv, dot, cross]
  obtain ⟨w, w', h1, h2, h3⟩ := C176_widths_partial isSymmetry ok ok symmetric symmetric junk junk he he
    (fun _ : Fin 1 => ⟨-1 / 4, 1 / 3, 1 / 7⟩) hv hv 1 1 one_pos
  rw [hb] at h1
  exact ⟨w, w', h1, h2, fun s => h3 0 s (by rw [hb]; exact single junk he s)⟩

end Ex

end Euphonic.GradientSymmetry
