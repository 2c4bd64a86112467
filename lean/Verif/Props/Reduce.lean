import Verif.Props.Driver
import Verif.Props.Dipole

/-! # C45 for the modelled dynamical matrix -/

set_option autoImplicit false

namespace Euphonic.DynMat

open Euphonic.Lattice Euphonic.Phases Euphonic.Images Euphonic.Driver Euphonic.Dipole

variable {N n : Nat}

/-- The matrix diagonalised at `q` with splitting direction `dir`
(euphonic/force_constants.py:812-830): force constants, dipole correction if `dip`, reciprocal-space sum
rule correction `asr`, LO-TO correction. -/
noncomputable def fullMat (erfc : ℝ → ℝ) (ions : Ions n) (lam : ℝ) (dip : Bool) (asr : Option (Mat n ℂ))
    (loto : V3 ℝ → Mat n ℂ) (w : Mat n ℝ) (fcw : Fin N → Mat n ℝ) (cells : Fin N → V3 ℤ)
    (scOs : List (V3 ℤ)) (img : Fin N → Fin n → Fin n → List ℤ) (q : V3 ℝ) (dir : Option (V3 ℝ)) :
    Mat n ℂ :=
  weighted w (dynMat fcw cells scOs img q)
    (if dip then some (dipoleCorrection erfc ions lam q) else none) asr (dir.map loto)

theorem evalPoint_shift (q : V3 ℝ) (h : isGamma q = true → ∃ G : V3 ℤ, q = castV ℝ G) :
    evalPoint true q = add q (castV ℝ ⟨-rint q.x, -rint q.y, -rint q.z⟩) := by
  unfold evalPoint
  simp only [if_true]
  split
  · rename_i hg
    obtain ⟨G, rfl⟩ := h hg
    simp [castV, add, rint_intCast]
  · simp [rem, add, castV, sub_eq_add_neg]

theorem rem_evalPoint (q : V3 ℝ) (h : isGamma q = true → ∃ G : V3 ℤ, q = castV ℝ G) :
    rem (evalPoint true q) = rem q := by
  unfold evalPoint
  simp only [if_true]
  split
  · rename_i hg
    obtain ⟨G, rfl⟩ := h hg
    have h0 : rint (0 : ℝ) = 0 := by exact_mod_cast rint_intCast (K := ℝ) 0
    simp [rem, castV, rint_intCast, h0]
  · exact rem_rem q

/-- **C45.** With the modelled matrices, whatever is computed from the matrix at a q-point
(frequencies, eigenvectors), `reduce_qpts` does not change the list of results; gamma points have to be
exact lattice vectors, other q-points are arbitrary. -/
theorem C45_no_effect_matrix {R : Type} (erfc : ℝ → ℝ) (ions : Ions n) (lam : ℝ) (dip splitting : Bool)
    (asr : Option (Mat n ℂ)) (loto : V3 ℝ → Mat n ℂ) (w : Mat n ℝ) (fcw : Fin N → Mat n ℝ)
    (cells : Fin N → V3 ℤ) (scOs : List (V3 ℤ)) (img : Fin N → Fin n → Fin n → List ℤ)
    (solve : Mat n ℂ → R) (qs : List (V3 ℝ))
    (hq : ∀ q ∈ qs, isGamma q = true → ∃ G : V3 ℤ, q = castV ℝ G) :
    let at1 := fun q dir => solve (fullMat erfc ions lam dip asr loto w fcw cells scOs img q dir)
    atQpts true splitting qs at1 = atQpts false splitting qs at1 := by
  intro at1
  apply C45_no_effect
  intro q hm d
  have h1 : dynMat fcw cells scOs img (evalPoint true q) = dynMat fcw cells scOs img q := by
    rw [evalPoint_shift q (hq q hm)]
    exact (C44_periodic ⟨⟨0, 0, 0⟩, ⟨0, 0, 0⟩, ⟨0, 0, 0⟩⟩ fcw cells scOs img q _).1
  have h2 : dipoleCorrection erfc ions lam (evalPoint true q) = dipoleCorrection erfc ions lam q := by
    unfold dipoleCorrection
    rw [rem_evalPoint q (hq q hm)]
  simp only [at1, fullMat, h1, h2]

/-- A list of q-points with gamma points, equivalent points and a half-integer point. -/
example : ∀ q ∈ ([⟨2, 0, 0⟩, ⟨1 / 2, 0, 0⟩, ⟨3 / 2, 0, 0⟩] : List (V3 ℝ)), isGamma q = true →
    ∃ G : V3 ℤ, q = castV ℝ G := by
  have hh : ∀ x : ℝ, x = 1 / 2 ∨ x = 3 / 2 → ¬ isGamma (⟨x, 0, 0⟩ : V3 ℝ) = true := by
    intro x hx hg
    unfold isGamma sumAbs rem at hg
    simp only [decide_eq_true_eq] at hg
    have h1 : (1 / 2 : ℝ) ≤ |x - rint x| := by
      rw [le_abs]
      have : ∀ m : ℤ, (1 / 2 : ℝ) ≤ x - m ∨ (1 / 2 : ℝ) ≤ -(x - m) := by
        intro m
        rcases hx with rfl | rfl
        · rcases le_or_gt m 0 with h | h
          · left
            have : (m : ℝ) ≤ 0 := by exact_mod_cast h
            linarith
          · right
            have : (1 : ℝ) ≤ m := by exact_mod_cast h
            linarith
        · rcases le_or_gt m 1 with h | h
          · left
            have : (m : ℝ) ≤ 1 := by exact_mod_cast h
            linarith
          · right
            have : (2 : ℝ) ≤ m := by exact_mod_cast h
            linarith
      exact this _
    have h2 := abs_nonneg ((0 : ℝ) - rint (0 : ℝ))
    have h3 : (1 / 10 ^ 15 : ℝ) < 1 / 2 := by norm_num
    linarith
  intro q hq hg
  simp only [List.mem_cons, List.not_mem_nil, or_false] at hq
  rcases hq with rfl | rfl | rfl
  · exact ⟨⟨2, 0, 0⟩, by simp [castV]⟩
  · exact absurd hg (hh _ (Or.inl rfl))
  · exact absurd hg (hh _ (Or.inr rfl))

end Euphonic.DynMat
