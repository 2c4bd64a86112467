import Verif.Props.GradientPolar
import Verif.Props.DescribeLost

/-!
# C176 with corrections: atoms that are put in other cells

What is reported for a polar crystal lacks the derivative of the correction (C126), and therefore depends on the cells that the
atoms are put in, by an amount that is given here.  It does not if the corrections do not couple atoms that are moved differently.
-/

set_option autoImplicit false
set_option linter.unusedSectionVars false

namespace Euphonic.GradientSymmetry

open Euphonic.Lattice Euphonic.Supercell Euphonic.Phases Euphonic.Images Euphonic.DynMat Euphonic.Reduced
open Euphonic.Commensurate Euphonic.Acoustic Euphonic.Describe Euphonic.Gradient Euphonic.Dipole

section

variable {n N N' : Nat} {d : Description n N} {d' : Description n N'} {h : Change n N N'}

/-- How far the atom of a row is moved along an axis by the change of the cells the atoms are put in (a specification, not part of
the code). -/
noncomputable def moved (d' : Description n N') (h : Change n N N') (a : Fin 3) (k : Fin (n * 3)) : ℝ :=
  dot (axis a) (toCart d'.cv (castV ℝ (h.T k.divNat)))

theorem phase_diff (p : V3 ℝ) (T T' : V3 ℤ) : expQR p T * star (expQR p T') = expQR p (add T (neg T')) := by
  rw [expQR_add, expQR_neg']

theorem moved_diff (a : Fin 3) (i j : Fin n) (a' b' : Fin 3) :
    dot (axis a) (toCart d'.cv (castV ℝ (add (h.T i) (neg (h.T j))))) = moved d' h a (row i a') - moved d' h a (row j b') := by
  unfold moved
  rw [row_div, row_div]
  simp only [dot, toCart, castV, add, neg]
  push_cast
  ring

/-- The gradients of the dynamical matrices, for atoms in any cells. -/
theorem grad_carries_all (hr : h.Relates d d') {images images' : List (V3 ℤ)} (hok : d.Ok images) (hok' : d'.Ok images')
    (junk : Fin N → Mat n ℝ) (junk' : Fin N' → Mat n ℝ) (q : V3 ℝ) (a : Fin 3) :
    h.Carries q (fun k l => ∑ b, (h.R a b : ℂ) * Dgrad d images junk (h.back q) b k l +
      Complex.I * ((moved d' h a k - moved d' h a l : ℝ) : ℂ) * d.dynMat images junk (h.back q) k l) (Dgrad d' images' junk' q a) := by
  intro i j a1 b1
  have hp' := path_along d'.cv (volume_ne hok') q (axis a)
  have hp := back_along hr hok hok' q a
  have h1 : HasDerivAt (fun t => d'.dynMat images' junk' (path d'.cv q (axis a) t) (row (h.p i) a1) (row (h.p j) b1))
      (((axis a).x : ℂ) * Dgrad d' images' junk' q 0 (row (h.p i) a1) (row (h.p j) b1) +
        (axis a).y * Dgrad d' images' junk' q 1 (row (h.p i) a1) (row (h.p j) b1) +
        (axis a).z * Dgrad d' images' junk' q 2 (row (h.p i) a1) (row (h.p j) b1)) 0 := dynMat_deriv hok' junk' hp' _ _
  have h2 : ∀ k l, HasDerivAt (fun t => d.dynMat images junk (h.back (path d'.cv q (axis a) t)) k l)
      ((h.R a 0 : ℂ) * Dgrad d images junk (h.back q) 0 k l + h.R a 1 * Dgrad d images junk (h.back q) 1 k l +
        h.R a 2 * Dgrad d images junk (h.back q) 2 k l) 0 := fun k l => dynMat_deriv hok junk hp k l
  have hph := expQR_deriv (volume_ne hok') hp' (add (h.T i) (neg (h.T j)))
  have h3 : ∀ (p : V3 ℝ) (M : Mat n ℂ), (∑ a', ∑ b', expQR p (h.T i) * h.R a1 a' * M (row i a') (row j b') * star (expQR p (h.T j) * h.R b1 b')) =
      ∑ a', ∑ b', (h.R a1 a' * h.R b1 b' : ℂ) * (expQR p (add (h.T i) (neg (h.T j))) * M (row i a') (row j b')) := by
    intro p M
    refine Finset.sum_congr rfl fun a' _ => Finset.sum_congr rfl fun b' _ => ?_
    rw [← phase_diff, star_mul', show star ((h.R b1 b' : ℝ) : ℂ) = h.R b1 b' from Complex.conj_ofReal _]
    ring
  have h4 : (fun t => d'.dynMat images' junk' (path d'.cv q (axis a) t) (row (h.p i) a1) (row (h.p j) b1)) =
      fun t => ∑ a', ∑ b', (h.R a1 a' * h.R b1 b' : ℂ) * (expQR (path d'.cv q (axis a) t) (add (h.T i) (neg (h.T j))) *
        d.dynMat images junk (h.back (path d'.cv q (axis a) t)) (row i a') (row j b')) := by
    funext t
    rw [hr.carries hok hok' junk junk' _ i j a1 b1, h3]
  have h5 := HasDerivAt.fun_sum (u := Finset.univ) fun a' _ => HasDerivAt.fun_sum (u := Finset.univ) fun b' _ =>
    (hph.mul (h2 (row i a') (row j b'))).const_mul (h.R a1 a' * h.R b1 b' : ℂ)
  have h6 := h1.unique (h5.congr_of_eventuallyEq (Filter.Eventually.of_forall fun t => congrFun h4 t))
  have h0 : path d'.cv q (axis a) 0 = q := by
    simp [path, add, smul]
  refine Eq.trans ?_ (h3 q fun k l => ∑ b, (h.R a b : ℂ) * Dgrad d images junk (h.back q) b k l +
    Complex.I * ((moved d' h a k - moved d' h a l : ℝ) : ℂ) * d.dynMat images junk (h.back q) k l).symm
  rw [axis_comb (fun b => Dgrad d' images' junk' q b (row (h.p i) a1) (row (h.p j) b1)) a, h6]
  refine Finset.sum_congr rfl fun a' _ => Finset.sum_congr rfl fun b' _ => ?_
  rw [Fin.sum_univ_three, h0, moved_diff (d' := d') (h := h) a i j a' b']
  ring

open Classical in
/-- A trace with the projection on the modes of a group. -/
theorem group_trace (S : System N n) (dip : V3 ℝ → Option (Mat n ℂ)) (q : V3 ℝ) (s : Fin (n * 3)) (Z : Mat n ℂ) :
    ∑ k, ∑ l, spectral (S.eigh (S.M dip q)) (fun v => if v = (S.eigh (S.M dip q)).1 s then 1 else 0) l k * Z k l =
      ∑ j ∈ S.group dip q s, ∑ k, ∑ l, star ((S.eigh (S.M dip q)).2 j k) * (S.eigh (S.M dip q)).2 j l * Z k l := by
  rw [Finset.sum_comm (s := S.group dip q s)]
  refine Finset.sum_congr rfl fun k _ => ?_
  rw [Finset.sum_comm (s := S.group dip q s)]
  refine Finset.sum_congr rfl fun l _ => ?_
  unfold spectral
  rw [← Finset.sum_mul]
  congr 1
  have hG : S.group dip q s = Finset.univ.filter fun j => (S.eigh (S.M dip q)).1 j = (S.eigh (S.M dip q)).1 s := by
    ext j
    rw [System.mem_group, Finset.mem_filter]
    exact ⟨fun h => ⟨Finset.mem_univ _, freqOf_injective h⟩, fun h => by unfold System.freq; rw [h.2]⟩
  rw [hG, Finset.sum_filter]
  refine Finset.sum_congr rfl fun j _ => ?_
  dsimp only
  by_cases hj : (S.eigh (S.M dip q)).1 j = (S.eigh (S.M dip q)).1 s
  · rw [if_pos hj, if_pos hj]; push_cast; ring
  · rw [if_neg hj, if_neg hj]; push_cast; ring

/-- For an eigenvector the commutator with a diagonal matrix has no expectation value. -/
theorem commutator_zero {m : Nat} {M : Fin m → Fin m → ℂ} (hM : ∀ k l, M l k = star (M k l)) {e : Fin m → ℂ} {v : ℝ}
    (he : ∀ k, ∑ l, M k l * e l = v * e k) (f : Fin m → ℂ) :
    ∑ k, ∑ l, star (e k) * e l * ((f k - f l) * M k l) = 0 := by
  have h1 : ∑ k, ∑ l, star (e k) * e l * (f k * M k l) = ∑ k, f k * v * (star (e k) * e k) := by
    refine Finset.sum_congr rfl fun k _ => ?_
    rw [show ∑ l, star (e k) * e l * (f k * M k l) = f k * star (e k) * ∑ l, M k l * e l by
      rw [Finset.mul_sum]; exact Finset.sum_congr rfl fun l _ => by ring, he]
    ring
  have h2 : ∑ k, ∑ l, star (e k) * e l * (f l * M k l) = ∑ l, f l * v * (star (e l) * e l) := by
    rw [Finset.sum_comm]
    refine Finset.sum_congr rfl fun l _ => ?_
    have h3 : ∑ k, star (e k) * M k l = v * star (e l) := by
      have := congrArg star (he l)
      rw [star_sum, star_mul', show star (v : ℂ) = v from Complex.conj_ofReal _] at this
      rw [← this]
      refine Finset.sum_congr rfl fun k _ => ?_
      rw [star_mul', ← hM, mul_comm]
    rw [show ∑ k, star (e k) * e l * (f l * M k l) = f l * e l * ∑ k, star (e k) * M k l by
      rw [Finset.mul_sum]; exact Finset.sum_congr rfl fun k _ => by ring, h3]
    ring
  simp only [sub_mul, mul_sub, Finset.sum_sub_distrib]
  rw [h1, h2, sub_self]

/-- **C176 (other cells, with corrections).** In a description that puts atoms in other cells, the reported sums of gradients
of modes of equal frequencies are rotated and, if there are corrections that couple atoms that are moved differently, changed by
the expectation values of the corrections times the differences of the distances the atoms are moved.
*Missing:* supercells that are not reduced. -/
theorem C176_cells_corrected_partial (hr : h.Relates d d') {images images' : List (V3 ℤ)} (hok : d.Ok images)
    (hok' : d'.Ok images') (junk : Fin N → Mat n ℝ) (junk' : Fin N' → Mat n ℝ)
    {asr asr' : Option (Mat n ℂ)} {dip dip' : V3 ℝ → Option (Mat n ℂ)} {eigh eigh' : Mat n ℂ → (Fin (n * 3) → ℝ) × Mat n ℂ}
    (hg : (systemAsr d images junk asr eigh).Good dip) (he' : IsEigh eigh') (q : V3 ℝ)
    (hd : h.CarriesOpt q (dip (h.back q)) (dip' q)) (ha : h.CarriesOpt q asr asr') (s : Fin (n * 3)) (a : Fin 3) :
    let S := systemAsr d images junk asr eigh
    let S' := systemAsr d' images' junk' asr' eigh'
    let e := (eigh (S.M dip (h.back q))).2
    S'.freq dip' q s = S.freq dip (h.back q) s ∧
      ∑ j ∈ S'.group dip' q s, S'.grad dip' q j a =
        ∑ b, h.R a b * ∑ j ∈ S.group dip (h.back q) s, S.grad dip (h.back q) j b -
        (∑ j ∈ S.group dip (h.back q) s, ∑ k, ∑ l, star (e j k) * e j l *
          (Complex.I * ((moved d' h a k - moved d' h a l : ℝ) : ℂ) * (orZero (dip (h.back q)) k l + orZero asr k l) *
            massWeighting d.mass k l)).re / (2 * S.freq dip (h.back q) s) := by
  classical
  intro S S' e
  have hM : h.Carries q (S.M dip (h.back q)) (S'.M dip' q) :=
    hr.weighted (hr.carries hok hok' junk junk' q) hd ha trivial
  have hev : (eigh' (S'.M dip' q)).1 = (eigh (S.M dip (h.back q))).1 := hr.evals hM (hg.matrix _) hg.eigh he'
  have hf : S'.freq dip' q s = S.freq dip (h.back q) s := by
    unfold System.freq
    rw [show S'.eigh = eigh' from rfl, show S.eigh = eigh from rfl, hev]
  refine ⟨hf, ?_⟩
  set τ := moved d' h a with hτ
  have hZ : h.Carries q (fun k l => (∑ b, (h.R a b : ℂ) * Dgrad d images junk (h.back q) b k l +
      Complex.I * ((τ k - τ l : ℝ) : ℂ) * d.dynMat images junk (h.back q) k l) * massWeighting d.mass k l)
      (fun k l => Dgrad d' images' junk' q a k l * massWeighting d'.mass k l) :=
    hr.weighted (grad_carries_all hr hok hok' junk junk' q a) (dip := none) (dip' := none) (asr := none) (asr' := none)
      (loto := none) (loto' := none) trivial trivial trivial
  have hP := hr.spectral (eigh := eigh) hM (hg.matrix _) hg.eigh he' (fun v => if v = (eigh (S.M dip (h.back q))).1 s then 1 else 0)
  have ht := trace_carries hr hP hZ
  have e1 : ∑ j ∈ S'.group dip' q s, S'.grad dip' q j a =
      (∑ k, ∑ l, spectral (eigh' (S'.M dip' q)) (fun v => if v = (eigh' (S'.M dip' q)).1 s then 1 else 0) l k *
        (Dgrad d' images' junk' q a k l * massWeighting d'.mass k l)).re / (2 * S'.freq dip' q s) := group_sum S' dip' q s a
  have e2 : ∀ b, ∑ j ∈ S.group dip (h.back q) s, S.grad dip (h.back q) j b =
      (∑ k, ∑ l, spectral (eigh (S.M dip (h.back q))) (fun v => if v = (eigh (S.M dip (h.back q))).1 s then 1 else 0) l k *
        (Dgrad d images junk (h.back q) b k l * massWeighting d.mass k l)).re / (2 * S.freq dip (h.back q) s) :=
    fun b => group_sum S dip (h.back q) s b
  have e3 : ∀ Z : Mat n ℂ,
      ∑ k, ∑ l, spectral (eigh (S.M dip (h.back q))) (fun v => if v = (eigh (S.M dip (h.back q))).1 s then 1 else 0) l k * Z k l =
      ∑ j ∈ S.group dip (h.back q) s, ∑ k, ∑ l, star (e j k) * e j l * Z k l := fun Z => group_trace S dip (h.back q) s Z
  rw [e1, hf, hev, ht]
  simp only [e2]
  simp only [mul_div_assoc', ← Finset.sum_div, ← sub_div]
  congr 1
  have hs : ∀ f : Fin 3 → ℂ, ∑ b, h.R a b * (f b).re = (∑ b, (h.R a b : ℂ) * f b).re := by
    intro f
    rw [Complex.re_sum]
    exact Finset.sum_congr rfl fun b _ => (Complex.re_ofReal_mul _ _).symm
  rw [hs, ← Complex.sub_re]
  congr 1
  have hsplit : ∀ P : Mat n ℂ, ∑ k, ∑ l, P l k * ((∑ b, (h.R a b : ℂ) * Dgrad d images junk (h.back q) b k l +
      Complex.I * ((τ k - τ l : ℝ) : ℂ) * d.dynMat images junk (h.back q) k l) * massWeighting d.mass k l) =
      ∑ b, (h.R a b : ℂ) * ∑ k, ∑ l, P l k * (Dgrad d images junk (h.back q) b k l * massWeighting d.mass k l) +
      ∑ k, ∑ l, P l k * (Complex.I * ((τ k - τ l : ℝ) : ℂ) * d.dynMat images junk (h.back q) k l * massWeighting d.mass k l) := by
    intro P
    simp only [Fin.sum_univ_three, Finset.mul_sum, ← Finset.sum_add_distrib]
    refine Finset.sum_congr rfl fun k _ => Finset.sum_congr rfl fun l _ => ?_
    ring
  rw [hsplit, sub_eq_add_neg]
  congr 1
  rw [e3, ← Finset.sum_neg_distrib]
  refine Finset.sum_congr rfl fun j _ => ?_
  have hc := commutator_zero (hg.matrix (h.back q)) (hg.eigh.eigen _ (hg.matrix (h.back q)) j) (fun k => Complex.I * (τ k : ℂ))
  have hw : ∀ k l, S.M dip (h.back q) k l =
      (d.dynMat images junk (h.back q) k l + orZero (dip (h.back q)) k l + orZero asr k l) * massWeighting d.mass k l :=
    fun k l => Gradient.weighted_eq (massWeighting d.mass) (d.dynMat images junk (h.back q)) (dip (h.back q)) asr k l
  rw [eq_neg_iff_add_eq_zero, ← Finset.sum_add_distrib, ← hc]
  refine Finset.sum_congr rfl fun k _ => ?_
  rw [← Finset.sum_add_distrib]
  refine Finset.sum_congr rfl fun l _ => ?_
  rw [show (systemAsr d images junk asr eigh).M dip (h.back q) k l = _ from hw k l]
  change star (e j k) * e j l * _ + star (e j k) * e j l * _ = star (e j k) * e j l * _
  push_cast
  ring

/-- **C176 (other cells, corrections that do not couple).** If the corrections do not couple atoms that are moved differently,
the sums of gradients are rotated for all descriptions; so, without corrections, also those of modes of frequency zero.
*Missing:* supercells that are not reduced. -/
theorem C176_rotated_uncoupled_partial (hr : h.Relates d d') {images images' : List (V3 ℤ)} (hok : d.Ok images)
    (hok' : d'.Ok images') (junk : Fin N → Mat n ℝ) (junk' : Fin N' → Mat n ℝ)
    {asr asr' : Option (Mat n ℂ)} {dip dip' : V3 ℝ → Option (Mat n ℂ)} {eigh eigh' : Mat n ℂ → (Fin (n * 3) → ℝ) × Mat n ℂ}
    (hg : (systemAsr d images junk asr eigh).Good dip) (he' : IsEigh eigh') (q : V3 ℝ)
    (hd : h.CarriesOpt q (dip (h.back q)) (dip' q)) (ha : h.CarriesOpt q asr asr')
    (hu : ∀ k l : Fin (n * 3), h.T k.divNat ≠ h.T l.divNat → orZero (dip (h.back q)) k l + orZero asr k l = 0)
    (s : Fin (n * 3)) (a : Fin 3) :
    let S := systemAsr d images junk asr eigh
    let S' := systemAsr d' images' junk' asr' eigh'
    ∑ j ∈ S'.group dip' q s, S'.grad dip' q j a =
      ∑ b, h.R a b * ∑ j ∈ S.group dip (h.back q) s, S.grad dip (h.back q) j b := by
  intro S S'
  have h1 := (C176_cells_corrected_partial hr hok hok' junk junk' hg he' q hd ha s a).2
  rw [h1, sub_eq_self, div_eq_zero_iff]
  left
  rw [← Complex.zero_re]
  congr 1
  refine Finset.sum_eq_zero fun j _ => Finset.sum_eq_zero fun k _ => Finset.sum_eq_zero fun l _ => ?_
  by_cases hT : h.T k.divNat = h.T l.divNat
  · unfold moved
    rw [hT]
    simp
  · rw [hu k l hT]
    simp

theorem systemAsr_eigh (d : Description n N) (images : List (V3 ℤ)) (junk : Fin N → Mat n ℝ) (asr : Option (Mat n ℂ))
    (eigh : Mat n ℂ → (Fin (n * 3) → ℝ) × Mat n ℂ) : (systemAsr d images junk asr eigh).eigh = eigh := rfl

theorem systemAsr_M (d : Description n N) (images : List (V3 ℤ)) (junk : Fin N → Mat n ℝ) (asr : Option (Mat n ℂ))
    (eigh : Mat n ℂ → (Fin (n * 3) → ℝ) × Mat n ℂ) (dip : V3 ℝ → Option (Mat n ℂ)) (q : V3 ℝ) (k l : Fin (n * 3)) :
    (systemAsr d images junk asr eigh).M dip q k l =
      (d.dynMat images junk q k l + orZero (dip q) k l + orZero asr k l) * massWeighting d.mass k l :=
  Gradient.weighted_eq _ _ _ _ k l

theorem systemAsr_good (d : Description n N) {images : List (V3 ℤ)} (hok : d.Ok images) {op : Fin N → Fin N}
    {t : Fin N → V3 ℤ} (hs : Symmetric d.cells d.S d.fc op t) (junk : Fin N → Mat n ℝ)
    {eigh : Mat n ℂ → (Fin (n * 3) → ℝ) × Mat n ℂ} (he : IsEigh eigh) {X : Mat n ℂ} (hX : ∀ k l, X l k = star (X k l)) :
    (systemAsr d images junk none eigh).Good fun _ => some X where
  volume := volume_ne hok
  eigh := he
  hermitian := fun q k l =>
    (C123_hermitian_partial d.cv d.r d.cells d.c0 d.S images hok.reduced.shells hok.reduced.volume hok.reduced.reduced
      hok.reduced.within hs hok.first junk q k l)
  asr := by simp [systemAsr, ofForceConstants]
  dip := by
    rintro q A ⟨⟩ k l
    exact hX k l

theorem sum_zero {images : List (V3 ℤ)} {junk : Fin N → Mat n ℝ} {asr : Option (Mat n ℂ)}
    {eigh : Mat n ℂ → (Fin (n * 3) → ℝ) × Mat n ℂ} (dip : V3 ℝ → Option (Mat n ℂ)) {q : V3 ℝ} {b : Fin 3}
    (hz : ∀ k l, Dgrad d images junk q b k l = 0) (s : Fin (n * 3)) :
    ∑ j ∈ (systemAsr d images junk asr eigh).group dip q s, (systemAsr d images junk asr eigh).grad dip q j b = 0 := by
  have hz' : ∀ k l, dynGrad (systemAsr d images junk asr eigh).cv (systemAsr d images junk asr eigh).fcw
      (systemAsr d images junk asr eigh).cells (systemAsr d images junk asr eigh).scOs (systemAsr d images junk asr eigh).img
      q b k l = 0 := hz
  rw [group_sum]
  simp [hz']

end

/-! ## A molecule whose atoms are put in different cells -/

namespace Cells

open Describe.Lost (fc dynMat_d mass_one)

/-- The strength of the correction. -/
noncomputable def c : ℝ := √3 / 2

theorem c_sq : (c : ℂ) * c = 3 / 4 := by
  have h : c * c = 3 / 4 := by
    unfold c
    have := Real.mul_self_sqrt (show (0 : ℝ) ≤ 3 by norm_num)
    linarith
  rw [← Complex.ofReal_mul, h]
  norm_num

/-- The coupling of the two atoms by the correction. -/
noncomputable def x : Fin 2 → Fin 2 → ℂ := ![![0, Complex.I * c], ![-(Complex.I * c), 0]]

/-- The coupling with the force constants. -/
noncomputable def m : Fin 2 → Fin 2 → ℂ := ![![1, -1 / 2 + Complex.I * c], ![-1 / 2 - Complex.I * c, 1]]

/-- The correction. -/
noncomputable def X : Mat 2 ℂ := fun k l => if k.modNat = l.modNat then x k.divNat l.divNat else 0

/-- The correction in the description with the second atom in the next cell. -/
noncomputable def X' (q : V3 ℝ) : Mat 2 ℂ :=
  fun k l => (Describe.Lost.change.U q * Matrix.of X * (Describe.Lost.change.U q).conjTranspose) k l

theorem X_herm (k l : Fin (2 * 3)) : X l k = star (X k l) := by
  unfold X
  by_cases h : k.modNat = l.modNat
  · rw [if_pos h, if_pos h.symm]
    generalize k.divNat = i
    generalize l.divNat = j
    fin_cases i <;> fin_cases j <;> simp [x]
  · rw [if_neg h, if_neg (Ne.symm h), star_zero]

variable (junk : Fin 1 → Mat 2 ℝ) {eigh : Mat 2 ℂ → (Fin (2 * 3) → ℝ) × Mat 2 ℂ}

/-- The molecule with both atoms in the same cell. -/
noncomputable abbrev S (eigh : Mat 2 ℂ → (Fin (2 * 3) → ℝ) × Mat 2 ℂ) : System 1 2 :=
  systemAsr Describe.Lost.d shells2 junk none eigh

theorem good (he : IsEigh eigh) : (S junk eigh).Good fun _ => some X :=
  systemAsr_good Describe.Lost.d Describe.Lost.ok Describe.Lost.symmetric junk he X_herm

theorem M_eq (q : V3 ℝ) (k l : Fin (2 * 3)) : (S junk eigh).M (fun _ => some X) q k l =
    if k.modNat = l.modNat then m k.divNat l.divNat else 0 := by
  rw [systemAsr_M, dynMat_d, mass_one]
  simp only [orZero, fc, X]
  by_cases h : k.modNat = l.modNat
  · rw [if_pos h, if_pos h, if_pos h]
    generalize k.divNat = i
    generalize l.divNat = j
    fin_cases i <;> fin_cases j <;> simp [x, m, sub_eq_add_neg, neg_div]
  · rw [if_neg h, if_neg h, if_neg h]
    simp

theorem M_row (q : V3 ℝ) (i j : Fin 2) (a b : Fin 3) : (S junk eigh).M (fun _ => some X) q (row i a) (row j b) =
    if a = b then m i j else 0 := by
  rw [M_eq, row_mod, row_mod, row_div, row_div]

/-- The matrix is twice a projection. -/
theorem M_sq (q : V3 ℝ) (k l : Fin (2 * 3)) :
    ∑ r, (S junk eigh).M (fun _ => some X) q k r * (S junk eigh).M (fun _ => some X) q r l =
      2 * (S junk eigh).M (fun _ => some X) q k l := by
  obtain ⟨i, a, rfl⟩ := exists_row_id k
  obtain ⟨j, b, rfl⟩ := exists_row_id l
  rw [sum_rows]
  simp only [M_row]
  have h1 : ∀ r : Fin 2, ∑ a', (if a = a' then m i r else 0) * (if a' = b then m r j else 0) =
      if a = b then m i r * m r j else 0 := by
    intro r
    simp [ite_mul]
  rw [Finset.sum_congr rfl fun r _ => h1 r]
  by_cases hab : a = b
  · simp only [if_pos hab, Fin.sum_univ_two]
    have hI := Complex.I_mul_I
    have hc := c_sq
    fin_cases i <;> fin_cases j <;> simp [m] <;> first | ring1 | linear_combination (-(c : ℂ) * c) * hI + hc
  · simp [if_neg hab]

/-- The eigenvalues are 0 and 2. -/
theorem evals (he : IsEigh eigh) (q : V3 ℝ) (s : Fin (2 * 3)) :
    (eigh ((S junk eigh).M (fun _ => some X) q)).1 s = 0 ∨ (eigh ((S junk eigh).M (fun _ => some X) q)).1 s = 2 := by
  set M := (S junk eigh).M (fun _ => some X) q with hM
  have hh : ∀ k l, M l k = star (M k l) := (good junk he).matrix q
  set v := (eigh M).1 s with hv
  have h1 := he.eigen M hh s
  have h2 : ∀ k, (v : ℂ) * v * (eigh M).2 s k = 2 * v * (eigh M).2 s k := by
    intro k
    have e1 : ∑ r, M k r * ∑ l, M r l * (eigh M).2 s l = v * (v * (eigh M).2 s k) := by
      rw [Finset.sum_congr rfl fun r _ => by rw [h1 r]]
      rw [← h1 k, Finset.mul_sum]
      exact Finset.sum_congr rfl fun r _ => by ring
    have e2 : ∑ r, M k r * ∑ l, M r l * (eigh M).2 s l = 2 * (v * (eigh M).2 s k) := by
      rw [← h1 k, Finset.mul_sum]
      simp only [Finset.mul_sum]
      rw [Finset.sum_comm]
      refine Finset.sum_congr rfl fun l _ => ?_
      rw [← mul_assoc, ← M_sq junk q k l, Finset.sum_mul]
      exact Finset.sum_congr rfl fun r _ => by ring
    linear_combination e2 - e1
  have h3 := he.ortho M hh s s
  rw [if_pos rfl] at h3
  have h4 : (v : ℂ) * v = 2 * v := by
    have : (v : ℂ) * v * ∑ k, star ((eigh M).2 s k) * (eigh M).2 s k = 2 * v * ∑ k, star ((eigh M).2 s k) * (eigh M).2 s k := by
      rw [Finset.mul_sum, Finset.mul_sum]
      refine Finset.sum_congr rfl fun k _ => ?_
      linear_combination star ((eigh M).2 s k) * h2 k
    rwa [h3, mul_one, mul_one] at this
  have h5 : v * v = 2 * v := by exact_mod_cast h4
  have h6 : v * (v - 2) = 0 := by linarith
  rcases mul_eq_zero.1 h6 with h | h
  · exact Or.inl h
  · exact Or.inr (by linarith)

theorem exists_two (he : IsEigh eigh) (q : V3 ℝ) : ∃ s, (eigh ((S junk eigh).M (fun _ => some X) q)).1 s = 2 := by
  by_contra hno
  have h0 : ∀ s, (eigh ((S junk eigh).M (fun _ => some X) q)).1 s = 0 := fun s =>
    (evals junk he q s).resolve_right fun h => hno ⟨s, h⟩
  have ht := Describe.trace_eq he ((S junk eigh).M (fun _ => some X) q) ((good junk he).matrix q)
  simp only [h0] at ht
  rw [show ∑ _ : Fin (2 * 3), ((0 : ℝ) : ℂ) = 0 by simp, sum_rows] at ht
  simp [M_row, m] at ht
  norm_num at ht

theorem Dgrad_zero (q : V3 ℝ) (b : Fin 3) (k l : Fin (2 * 3)) : Dgrad Describe.Lost.d shells2 junk q b k l = 0 := by
  have h1 := dynMat_deriv Describe.Lost.ok junk (path_along _ (volume_ne Describe.Lost.ok) q (axis b)) k l
  simp only [dynMat_d] at h1
  rw [axis_comb (fun b => Dgrad Describe.Lost.d shells2 junk q b k l) b]
  exact h1.unique (hasDerivAt_const _ _)

/-- **C176 (other cells, a violation).** A correction that belongs to the crystal (some Hermitian one, not the one calculated for
dipoles) for which the mode gradients depend on the description: the frequencies of the highest modes are the same, the gradients
reported for them vanish if both atoms are in the same cell, and do not if one is put in the next cell.  (Also a case for
`C176_cells_corrected_partial` in which the last term is not zero.) -/
theorem C176_cells_differ (he : IsEigh eigh) {eigh' : Mat 2 ℂ → (Fin (2 * 3) → ℝ) × Mat 2 ℂ} (he' : IsEigh eigh') (junk' : Fin 1 → Mat 2 ℝ)
    (q : V3 ℝ) : ∃ s,
    let S' := systemAsr Describe.Lost.d' shells2 junk' none eigh'
    let dip' := fun q => some (X' q)
    (S junk eigh).freq (fun _ => some X) (Describe.Lost.change.back q) s = √2 ∧ S'.freq dip' q s = √2 ∧
      ∑ j ∈ (S junk eigh).group (fun _ => some X) (Describe.Lost.change.back q) s,
        (S junk eigh).grad (fun _ => some X) (Describe.Lost.change.back q) j 0 = 0 ∧
      ∑ j ∈ S'.group dip' q s, S'.grad dip' q j 0 ≠ 0 := by
  classical
  set p := Describe.Lost.change.back q with hp
  obtain ⟨s, hs⟩ := exists_two junk he p
  refine ⟨s, ?_⟩
  intro S' dip'
  have hX : Describe.Lost.change.Carries q X (X' q) := (Change.carries_iff _ q X (X' q)).2 rfl
  have h := C176_cells_corrected_partial Describe.Lost.relates Describe.Lost.ok Describe.Lost.ok' junk junk' (asr := none)
    (asr' := none) (dip' := dip') (good junk he) he' q hX trivial s 0
  have hf : (S junk eigh).freq (fun _ => some X) p s = √2 := by
    unfold System.freq
    rw [systemAsr_eigh, hs]
    simp [freqOf]
  have h0 : ∀ b, ∑ j ∈ (S junk eigh).group (fun _ => some X) p s, (S junk eigh).grad (fun _ => some X) p j b = 0 := by
    exact fun b => sum_zero _ (Dgrad_zero junk p b) s
  refine ⟨hf, h.1.trans hf, h0 0, ?_⟩
  have h2 := h.2
  rw [h2]
  have hsum : ∑ b, Describe.Lost.change.R 0 b * ∑ j ∈ (S junk eigh).group (fun _ => some X) p s,
      (S junk eigh).grad (fun _ => some X) p j b = 0 := Finset.sum_eq_zero fun b _ => by rw [h0, mul_zero]
  rw [hsum, zero_sub, neg_ne_zero, show (systemAsr Describe.Lost.d shells2 junk none eigh).freq (fun _ => some X) p s = √2 from hf]
  have hP : ∀ k l, spectral (eigh ((S junk eigh).M (fun _ => some X) p))
      (fun v => if v = (eigh ((S junk eigh).M (fun _ => some X) p)).1 s then 1 else 0) l k =
      (S junk eigh).M (fun _ => some X) p l k / 2 := by
    intro k l
    conv_rhs => rw [Describe.decompose he _ ((good junk he).matrix p) l k]
    unfold spectral
    rw [Finset.sum_div]
    refine Finset.sum_congr rfl fun j _ => ?_
    dsimp only
    rw [hs]
    rcases evals junk he p j with hj | hj
    · rw [hj, if_neg (by norm_num)]; simp
    · rw [hj, if_pos rfl]; push_cast; ring
  have hT := group_trace (S junk eigh) (fun _ => some X) p s fun k l =>
    Complex.I * ((moved Describe.Lost.d' Describe.Lost.change 0 k - moved Describe.Lost.d' Describe.Lost.change 0 l : ℝ) : ℂ) *
      (orZero (some X) k l + orZero none k l) * massWeighting Describe.Lost.d.mass k l
  have hgoal : ∑ k, ∑ l, (S junk eigh).M (fun _ => some X) p l k / 2 * (Complex.I *
      ((moved Describe.Lost.d' Describe.Lost.change 0 k - moved Describe.Lost.d' Describe.Lost.change 0 l : ℝ) : ℂ) *
      (orZero (some X) k l + orZero none k l) * massWeighting Describe.Lost.d.mass k l) = ((3 * c / 2 : ℝ) : ℂ) := by
    have hm : ∀ (i : Fin 2) (a : Fin 3), moved Describe.Lost.d' Describe.Lost.change 0 (row i a) = ![0, -1] i := by
      intro i a
      unfold moved
      rw [row_div]
      fin_cases i <;> simp [dot, axis, toCart, castV, Describe.Lost.d', Describe.Lost.d, Describe.Lost.change, DynMat.Ex.cv]
    have hX' : ∀ i j a b, X (row i a) (row j b) = if a = b then x i j else 0 := by
      intro i j a b
      unfold X
      rw [row_mod, row_mod, row_div, row_div]
    rw [sum_rows, mass_one]
    simp only [sum_rows (n := 2), M_row, hm, hX', orZero]
    simp only [Fin.sum_univ_two, Fin.sum_univ_three]
    have hI := Complex.I_mul_I
    simp [x, m]
    linear_combination (-(3 / 2) * (c : ℂ)) * hI
  rw [systemAsr_eigh] at hT
  simp only [hP] at hT
  rw [hgoal] at hT
  have hT' := congrArg Complex.re hT
  rw [Complex.ofReal_re] at hT'
  rw [div_ne_zero_iff]
  refine ⟨?_, by positivity⟩
  refine Eq.trans_ne hT'.symm ?_
  unfold c
  positivity

/-- For the same molecule, a correction that does not couple the atoms. -/
example (he : IsEigh eigh) {eigh' : Mat 2 ℂ → (Fin (2 * 3) → ℝ) × Mat 2 ℂ} (he' : IsEigh eigh') (junk' : Fin 1 → Mat 2 ℝ)
    (q : V3 ℝ) (s : Fin (2 * 3)) :
    let D : Mat 2 ℂ := fun k l => if k = l then 5 else 0
    let S' := systemAsr Describe.Lost.d' shells2 junk' none eigh'
    ∑ j ∈ S'.group (fun _ => some D) q s, S'.grad (fun _ => some D) q j 0 =
      ∑ b, Describe.Lost.change.R 0 b * ∑ j ∈ (S junk eigh).group (fun _ => some D) (Describe.Lost.change.back q) s,
        (S junk eigh).grad (fun _ => some D) (Describe.Lost.change.back q) j b := by
  intro D S'
  have hD : ∀ k l, D l k = star (D k l) := by
    intro k l
    simp only [D, eq_comm (a := l)]
    split <;> simp
  refine C176_rotated_uncoupled_partial Describe.Lost.relates Describe.Lost.ok Describe.Lost.ok' junk junk' (asr := none)
    (asr' := none) (dip := fun _ => some D) (dip' := fun _ => some D)
    (systemAsr_good Describe.Lost.d Describe.Lost.ok Describe.Lost.symmetric junk he hD) he' q ?_ trivial (fun k l hT => ?_) s 0
  · refine (Change.carries_iff _ q D D).2 ?_
    have h1 : Matrix.of D = (5 : ℂ) • (1 : Matrix (Fin (2 * 3)) (Fin (2 * 3)) ℂ) := by
      ext k l
      simp [D, Matrix.one_apply]
    rw [h1, Matrix.mul_smul, Matrix.mul_one, Matrix.smul_mul, Describe.Lost.relates.unitary' q]
  · have hkl : k ≠ l := fun hkl => hT (by rw [hkl])
    simp [orZero, D, hkl]

end Cells

end Euphonic.GradientSymmetry
