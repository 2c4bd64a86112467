import Verif.Props.GradientSymmetry
import Verif.Props.GradientDipole
import Verif.Props.DebyeGrid

/-!
# C176 with corrections: mode gradients in other zones and at opposite wavevectors

With corrections for dipoles the mode gradients are not the derivatives of the frequencies (C126), but they have the
periodicity and the sign that derivatives have.
-/

set_option autoImplicit false
set_option linter.unusedSectionVars false

namespace Euphonic.GradientSymmetry

open Euphonic.Lattice Euphonic.Supercell Euphonic.Phases Euphonic.Images Euphonic.DynMat Euphonic.Reduced
open Euphonic.Commensurate Euphonic.Acoustic Euphonic.Describe Euphonic.Gradient Euphonic.Dipole

section

variable {n N N' : Nat}

theorem row_surj (k : Fin (n * 3)) : ∃ i a, k = row i a := ⟨k.divNat, k.modNat, by
  apply Fin.ext
  have := Nat.div_add_mod (k : Nat) 3
  simp only [row, Fin.divNat, Fin.modNat]
  simp
  omega⟩

/-- Any crystal. -/
noncomputable def dummy (n : Nat) : Description n 1 where
  cv := ⟨⟨0, 0, 0⟩, ⟨0, 0, 0⟩, ⟨0, 0, 0⟩⟩
  r := fun _ => ⟨0, 0, 0⟩
  mass := fun _ => 1
  S := ⟨⟨0, 0, 0⟩, ⟨0, 0, 0⟩, ⟨0, 0, 0⟩⟩
  cells := fun _ => ⟨0, 0, 0⟩
  c0 := 0
  fc := fun _ _ _ => 0

theorem spectral_eq {M : Mat n ℂ} (hh : ∀ k l, M l k = star (M k l))
    {eigh eigh' : Mat n ℂ → (Fin (n * 3) → ℝ) × Mat n ℂ} (he : IsEigh eigh) (he' : IsEigh eigh') (g : ℝ → ℝ)
    (k l : Fin (n * 3)) : spectral (eigh' M) g k l = spectral (eigh M) g k l := by
  obtain ⟨i, a, rfl⟩ := row_surj k
  obtain ⟨j, b, rfl⟩ := row_surj l
  exact DebyeSym.spectral_unique (dummy n) hh he he' g i j a b

open Classical in
/-- The sum of the gradients of a group in terms of the projection on its modes. -/
theorem group_sum (S : System N n) (dip : V3 ℝ → Option (Mat n ℂ)) (q : V3 ℝ) (s : Fin (n * 3)) (a : Fin 3) :
    ∑ j ∈ S.group dip q s, S.grad dip q j a =
      (∑ k, ∑ l, spectral (S.eigh (S.M dip q)) (fun v => if v = (S.eigh (S.M dip q)).1 s then 1 else 0) l k *
        (dynGrad S.cv S.fcw S.cells S.scOs S.img q a k l * massWeighting S.mass k l)).re / (2 * S.freq dip q s) := by
  have h1 : ∀ j ∈ S.group dip q s, S.grad dip q j a =
      (∑ k, ∑ l, star ((S.eigh (S.M dip q)).2 j k) * (S.eigh (S.M dip q)).2 j l *
        (dynGrad S.cv S.fcw S.cells S.scOs S.img q a k l * massWeighting S.mass k l)).re / (2 * S.freq dip q s) := by
    intro j hj
    have hf : freqOf ((S.eigh (S.M dip q)).1 j) = S.freq dip q s := System.mem_group.1 hj
    unfold System.grad modeGradients
    rw [hf, show (2 * (S.freq dip q s : ℝ) : ℂ) = ((2 * S.freq dip q s : ℝ) : ℂ) by push_cast; rfl, Complex.div_ofReal_re]
  rw [Finset.sum_congr rfl h1, ← Finset.sum_div, ← Complex.re_sum]
  congr 2
  rw [Finset.sum_comm]
  refine Finset.sum_congr rfl fun k _ => ?_
  rw [Finset.sum_comm]
  refine Finset.sum_congr rfl fun l _ => ?_
  unfold spectral
  rw [← Finset.sum_mul]
  congr 1
  have hG : S.group dip q s = Finset.univ.filter fun j => (S.eigh (S.M dip q)).1 j = (S.eigh (S.M dip q)).1 s := by
    ext j
    rw [System.mem_group, Finset.mem_filter]
    exact ⟨fun h => ⟨Finset.mem_univ _, freqOf_injective h⟩, fun h => by unfold System.freq; rw [h.2]⟩
  rw [hG, Finset.sum_filter]
  refine Finset.sum_congr rfl fun j _ => ?_
  dsimp only
  by_cases hj : (S.eigh (S.M dip q)).1 j = (S.eigh (S.M dip q)).1 s
  · rw [if_pos hj, if_pos hj]; push_cast; ring
  · rw [if_neg hj, if_neg hj]; push_cast; ring

/-- **C176 (periodic, with corrections).** With any corrections, if the one for dipoles is the same at both wavevectors. -/
theorem C176_periodic_corrected (S : System N n) (dip : V3 ℝ → Option (Mat n ℂ)) (q : V3 ℝ) (G : V3 ℤ)
    (hd : dip (add q (castV ℝ G)) = dip q) (s : Fin (n * 3)) (a : Fin 3) :
    S.grad dip (add q (castV ℝ G)) s a = S.grad dip q s a := by
  obtain ⟨h1, h2⟩ := C44_periodic S.cv S.fcw S.cells S.scOs S.img q G
  have h3 : S.M dip (add q (castV ℝ G)) = S.M dip q := by
    unfold System.M System.D
    rw [h1, hd]
  unfold System.grad
  rw [h2, h3]

/-- **C176 (odd, with corrections).** With any corrections, if the one of the sum rule is real and the one for dipoles becomes its
complex conjugate at the opposite wavevector, the sum of the gradients of modes of equal frequencies changes its sign. -/
theorem C176_odd_corrected {S : System N n} {dip : V3 ℝ → Option (Mat n ℂ)} (hg : S.Good dip) (q : V3 ℝ)
    (hd : ∀ k l, orZero (dip (neg q)) k l = star (orZero (dip q) k l)) (ha : ∀ k l, star (orZero S.asr k l) = orZero S.asr k l)
    (s : Fin (n * 3)) (a : Fin 3) :
    S.freq dip (neg q) s = S.freq dip q s ∧
      ∑ j ∈ S.group dip (neg q) s, S.grad dip (neg q) j a = -∑ j ∈ S.group dip q s, S.grad dip q j a := by
  classical
  have hM : (fun k l => star (S.M dip (neg q) k l)) = S.M dip q := by
    funext k l
    unfold System.M System.D
    rw [Gradient.weighted_eq, Gradient.weighted_eq, (C44_even S.cv S.fcw S.cells S.scOs S.img q k l).1, hd, star_mul', star_add, star_add, star_star,
      star_star, ha]
    congr 1
    exact Complex.conj_ofReal _
  have hc : DebyeSym.conjEigh S.eigh (S.M dip (neg q)) =
      ((S.eigh (S.M dip q)).1, fun s k => star ((S.eigh (S.M dip q)).2 s k)) := by
    unfold DebyeSym.conjEigh
    rw [hM]
  have hev : (S.eigh (S.M dip (neg q))).1 = (S.eigh (S.M dip q)).1 := by
    rw [eigh_unique hg.eigh (DebyeSym.isEigh_conj hg.eigh) _ (hg.matrix (neg q)), hc]
  have hf : S.freq dip (neg q) s = S.freq dip q s := by
    unfold System.freq
    rw [hev]
  refine ⟨hf, ?_⟩
  rw [group_sum, group_sum, hf, ← neg_div]
  congr 1
  have hre : ∀ z w : ℂ, z = -(starRingEnd ℂ) w → z.re = -w.re := by
    intro z w h
    rw [h, Complex.neg_re, Complex.conj_re]
  apply hre
  rw [map_sum, ← Finset.sum_neg_distrib]
  refine Finset.sum_congr rfl fun k _ => ?_
  rw [map_sum, ← Finset.sum_neg_distrib]
  refine Finset.sum_congr rfl fun l _ => ?_
  rw [hev, ← spectral_eq (hg.matrix (neg q)) hg.eigh (DebyeSym.isEigh_conj hg.eigh), hc,
    (C44_even S.cv S.fcw S.cells S.scOs S.img q k l).2 a]
  have h1 : ∀ g : ℝ → ℝ, spectral ((S.eigh (S.M dip q)).1, fun s k => star ((S.eigh (S.M dip q)).2 s k)) g l k =
      star (spectral (S.eigh (S.M dip q)) g l k) := by
    intro g
    unfold spectral
    rw [star_sum]
    refine Finset.sum_congr rfl fun j _ => ?_
    rw [star_mul', star_mul']
    congr 1
    exact (Complex.conj_ofReal _).symm
  rw [h1, map_mul, map_mul, Complex.conj_ofReal]
  simp only [Complex.star_def]
  ring

/-- **C176 (dipoles).** With the correction for dipoles as it is calculated, the mode gradients at wavevectors that differ by a
reciprocal lattice vector are the same (unless a component is a half-integer, where rounding decides which sums are made), and the
sums of the gradients of modes of equal frequencies at opposite wavevectors differ in sign. -/
theorem C176_dipole {S : System N n} (erfc : ℝ → ℝ) (o : Ions n) (lam : ℝ)
    (hg : S.Good fun q => some (dipoleCorrection erfc o lam q)) (ha : ∀ k l, star (orZero S.asr k l) = orZero S.asr k l) (q : V3 ℝ)
    (s : Fin (n * 3)) (a : Fin 3) :
    let dip := fun q => some (dipoleCorrection erfc o lam q)
    (∀ G : V3 ℤ, |q.x - rint q.x| < 1 / 2 → |q.y - rint q.y| < 1 / 2 → |q.z - rint q.z| < 1 / 2 →
      S.grad dip (add q (castV ℝ G)) s a = S.grad dip q s a) ∧
    ∑ j ∈ S.group dip (neg q) s, S.grad dip (neg q) j a = -∑ j ∈ S.group dip q s, S.grad dip q j a := by
  intro dip
  refine ⟨fun G hx hy hz => C176_periodic_corrected S dip q G ?_ s a, (C176_odd_corrected hg q (fun k l => ?_) ha s a).2⟩
  · simp only [dip]
    rw [C50_periodic erfc o lam q G hx hy hz]
  · exact C50_even erfc o lam q k l

end

/-- The crystal of charged atoms of `C126_dipole_wrong`, at a general wavevector. -/
example (erfc : ℝ → ℝ) (c : ℝ) {eigh : Mat 1 ℂ → (Fin (1 * 3) → ℝ) × Mat 1 ℂ} (he : IsEigh eigh) (s : Fin (1 * 3)) (a : Fin 3) :
    let S := Gradient.Polar.crystal c eigh
    ∑ j ∈ S.group (Gradient.Polar.dip erfc) (neg ⟨1 / 5, 1 / 3, 1 / 7⟩) s, S.grad (Gradient.Polar.dip erfc) (neg ⟨1 / 5, 1 / 3, 1 / 7⟩) j a =
      -∑ j ∈ S.group (Gradient.Polar.dip erfc) ⟨1 / 5, 1 / 3, 1 / 7⟩ s, S.grad (Gradient.Polar.dip erfc) ⟨1 / 5, 1 / 3, 1 / 7⟩ j a :=
  (C176_dipole erfc Gradient.Polar.ions _ (Gradient.Polar.good erfc he) (fun k l => by simp [Gradient.Polar.crystal, orZero])
    ⟨1 / 5, 1 / 3, 1 / 7⟩ s a).2

/-- A real correction of the sum rule, besides no correction for dipoles, for the chain of `Gradient.Ex`. -/
example {eigh : Mat 1 ℂ → (Fin (1 * 3) → ℝ) × Mat 1 ℂ} (he : IsEigh eigh) (s : Fin (1 * 3)) (a : Fin 3) :
    let S : System 3 1 := { Gradient.Ex.chain eigh with asr := some fun k l => if k = l then 5 else 2 }
    ∑ j ∈ S.group noDip (neg Gradient.Ex.q) s, S.grad noDip (neg Gradient.Ex.q) j a =
      -∑ j ∈ S.group noDip Gradient.Ex.q s, S.grad noDip Gradient.Ex.q j a := by
  intro S
  have hg := Gradient.Ex.good eigh he
  have hr : ∀ k l : Fin (1 * 3), star ((if k = l then 5 else 2 : ℂ)) = if k = l then 5 else 2 := by
    intro k l
    split <;> simp
  refine (C176_odd_corrected (S := S) ⟨hg.volume, he, hg.hermitian, fun A hA k l => ?_, by simp⟩ Gradient.Ex.q (by simp [orZero])
    (fun k l => ?_) s a).2
  · simp only [S, Option.some.injEq] at hA
    rw [← hA, hr]
    simp only [eq_comm]
  · simp only [S, orZero]
    exact hr k l

end Euphonic.GradientSymmetry
