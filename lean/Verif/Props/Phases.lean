import Verif.Model.Phases
import Verif.Props.Origins

/-! # C42: phases are exponentials of `q.R` -/

set_option autoImplicit false

namespace Euphonic.Phases

open Euphonic.Lattice Euphonic.Supercell

/-- Specification: `exp(2 pi i q.R)`. -/
noncomputable def expQR (q : V3 ℝ) (R : V3 ℤ) : ℂ :=
  Complex.exp (2 * Real.pi * (q.x * R.x + q.y * R.y + q.z * R.z : ℝ) * Complex.I)

/-- `np.unique`: the values are distinct, sorted, and indexing them with the inverse gives the list. -/
theorem npUnique_rebuild {α : Type} [DecidableEq α] (le : α → α → Bool) (l : List α) (d : α) :
    ((npUnique le l).2.map fun k => (npUnique le l).1.getD k d) = l := by
  unfold npUnique
  simp only [List.map_map]
  conv_rhs => rw [← List.map_id l]
  apply List.map_congr_left
  intro a ha
  have hm : a ∈ (l.mergeSort le).dedup := by
    rw [List.mem_dedup, List.mem_mergeSort]; exact ha
  simp only [Function.comp, id]
  rw [List.getD_eq_getElem _ _ (List.idxOf_lt_length_of_mem hm), List.getElem_idxOf]

theorem uniqueCoords_map {β : Type} (os : List (V3 ℤ)) (i : Fin 3) (f : ℤ → β) (d : β) :
    ((uniqueCoords os i).2.map fun k => ((uniqueCoords os i).1.map f).getD k d)
      = os.map fun v => f (comp v i) := by
  have h := npUnique_rebuild (fun a b : ℤ => decide (a ≤ b)) (os.map fun v => comp v i) 0
  have hlt : ∀ k ∈ (uniqueCoords os i).2, k < (uniqueCoords os i).1.length := by
    unfold uniqueCoords npUnique
    simp only [List.mem_map]
    rintro k ⟨a, ⟨v, hv, rfl⟩, rfl⟩
    apply List.idxOf_lt_length_of_mem
    rw [List.mem_dedup, List.mem_mergeSort]
    exact List.mem_map.2 ⟨v, hv, rfl⟩
  have h' : ((uniqueCoords os i).2.map fun k => f ((uniqueCoords os i).1.getD k 0))
      = os.map fun v => f (comp v i) := by
    have := congrArg (List.map f) h
    rw [List.map_map, List.map_map] at this
    exact this
  rw [← h']
  apply List.map_congr_left
  intro k hk
  rw [List.getD_eq_getElem _ _ (by simpa using hlt k hk), List.getD_eq_getElem _ _ (hlt k hk),
    List.getElem_map]

theorem foldl_zipWith {β γ : Type} [CommMonoid γ] (os : List β) (f g h : β → γ) :
    List.zipWith (· * ·) (List.zipWith (· * ·) (List.zipWith (· * ·) (List.replicate os.length 1)
      (os.map f)) (os.map g)) (os.map h) = os.map fun v => f v * g v * h v := by
  induction os with
  | nil => rfl
  | cons a l ih =>
    rw [List.length_cons, List.replicate_succ, List.map_cons, List.map_cons, List.map_cons,
      List.map_cons]
    simp only [List.zipWith_cons_cons, one_mul]
    rw [ih]

/-- **C42.** For every q-point and every list of integer origins (negative ones included) the factored
phase computation gives `exp(2 pi i q.R)` for every origin, in order. -/
theorem C42_phases (q : V3 ℝ) (os : List (V3 ℤ)) : phasesOf q os = os.map (expQR q) := by
  unfold phasesOf calculatePhases
  simp only [uniqueCoords_map]
  have : List.finRange 3 = [0, 1, 2] := by decide
  rw [this]
  simp only [List.foldl_cons, List.foldl_nil]
  rw [foldl_zipWith]
  apply List.map_congr_left
  intro v _
  unfold expQR
  simp only [comp, Matrix.cons_val_zero, Matrix.cons_val_one, Matrix.cons_val]
  rw [← Complex.exp_int_mul, ← Complex.exp_int_mul, ← Complex.exp_int_mul, ← Complex.exp_add,
    ← Complex.exp_add]
  congr 1
  push_cast
  ring

/-- **C42.** The images: the phase sum of a pair whose recorded images are `ims` (indices into the
list of image origins), padded with any number of `-1`, is the sum of `exp(2 pi i q.L)` over the recorded
images only. -/
theorem C42_image_sum (q : V3 ℝ) (os : List (V3 ℤ)) (ims : List Nat) (pad : Nat)
    (hims : ∀ k ∈ ims, k < os.length) :
    phaseSum (phasesOf q os) (ims.map (fun (k : Nat) => (k : ℤ)) ++ List.replicate pad (-1))
      = (ims.map fun k => expQR q (os.getD k ⟨0, 0, 0⟩)).sum := by
  unfold phaseSum
  rw [List.map_append, List.sum_append, C42_phases]
  have h1 : (List.map (fun k => phaseAt (List.map (expQR q) os ++ [0]) k)
      (List.replicate pad (-1))).sum = 0 := by
    rw [List.map_replicate, List.sum_replicate]
    have : phaseAt (List.map (expQR q) os ++ [0]) (-1) = 0 := by
      unfold phaseAt
      simp
    rw [this, smul_zero]
  rw [h1, add_zero, List.map_map]
  congr 1
  apply List.map_congr_left
  intro k hk
  have hlt := hims k hk
  simp only [Function.comp, phaseAt, Int.natCast_nonneg, if_true, Int.toNat_natCast]
  rw [List.getD_eq_getElem _ _ (by simp; omega), List.getElem_append_left (by simpa using hlt),
    List.getElem_map, List.getD_eq_getElem _ _ hlt]

/-- **C42.** The image list: with `s` shells it is exactly the integer triples of maximum norm at most
`s`, each once, and the origins are these triples times the supercell matrix. -/
theorem C42_image_origins (s : Nat) (S : M3 ℤ) :
    ∃ ims, imageShells s = .ok ims ∧ ims.Nodup
      ∧ (∀ v, v ∈ ims ↔ |v.x| ≤ s ∧ |v.y| ≤ s ∧ |v.z| ≤ s)
      ∧ ims.length = (2 * s + 1) ^ 3
      ∧ (scOrigins S ims).length = ims.length
      ∧ ∀ k (hk : k < ims.length), (scOrigins S ims).getD k ⟨0, 0, 0⟩ = mulMat ims[k] S := by
  obtain ⟨g, hg, hm, hnd, -, hl⟩ := C37_origins ⟨(s : ℤ) + 1, (s : ℤ) + 1, (s : ℤ) + 1⟩
    ⟨-(s : ℤ), -(s : ℤ), -(s : ℤ)⟩ (by dsimp only; omega) (by dsimp only; omega) (by dsimp only; omega)
  refine ⟨g, hg, hnd, fun v => ?_, ?_, by simp [scOrigins], fun k hk => ?_⟩
  · rw [hm]
    simp only [abs_le]
    omega
  · rw [hl]
    have : ((s : ℤ) + 1 - -(s : ℤ)).toNat = 2 * s + 1 := by omega
    dsimp only
    rw [this]
    ring
  · unfold scOrigins
    rw [List.getD_eq_getElem _ _ (by simpa using hk), List.getElem_map]

/-- Two of the 27 images of one shell, and two unused entries. -/
example (q : V3 ℝ) : ∃ ims, imageShells 1 = .ok ims ∧
    phaseSum (phasesOf q (scOrigins ⟨⟨2, 0, 0⟩, ⟨0, 2, 0⟩, ⟨0, 0, 1⟩⟩ ims)) [4, 13, -1, -1]
      = expQR q ⟨-2, 0, 0⟩ + expQR q ⟨0, 0, 0⟩ := by
  refine ⟨(imageShells 1).toOption.getD [], by decide +kernel, ?_⟩
  have h := C42_image_sum q (scOrigins ⟨⟨2, 0, 0⟩, ⟨0, 2, 0⟩, ⟨0, 0, 1⟩⟩
    ((imageShells 1).toOption.getD [])) [4, 13] 2 (by decide +kernel)
  have e1 : (scOrigins ⟨⟨2, 0, 0⟩, ⟨0, 2, 0⟩, ⟨0, 0, 1⟩⟩ ((imageShells 1).toOption.getD [])).getD 4
      ⟨0, 0, 0⟩ = ⟨-2, 0, 0⟩ := by decide +kernel
  have e2 : (scOrigins ⟨⟨2, 0, 0⟩, ⟨0, 2, 0⟩, ⟨0, 0, 1⟩⟩ ((imageShells 1).toOption.getD [])).getD 13
      ⟨0, 0, 0⟩ = ⟨0, 0, 0⟩ := by decide +kernel
  simp only [List.map_cons, List.map_nil, e1, e2, List.sum_cons, List.sum_nil, add_zero] at h
  exact h

/-- Non-vacuous: at the zone boundary the phase of the first negative neighbour is `-1`. -/
example : phasesOf ⟨1 / 2, 0, 0⟩ [⟨-1, 5, 0⟩, ⟨2, 0, 0⟩] = [-1, 1] := by
  rw [C42_phases]
  have h1 : (2 * Real.pi * ((1 / 2 : ℝ) * ((-1 : ℤ) : ℝ) + 0 * ((5 : ℤ) : ℝ) + 0 * ((0 : ℤ) : ℝ) : ℝ)
      * Complex.I : ℂ) = -(Real.pi * Complex.I) := by push_cast; ring
  have h2 : (2 * Real.pi * ((1 / 2 : ℝ) * ((2 : ℤ) : ℝ) + 0 * ((0 : ℤ) : ℝ) + 0 * ((0 : ℤ) : ℝ) : ℝ)
      * Complex.I : ℂ) = 2 * Real.pi * Complex.I := by push_cast; ring
  simp only [List.map_cons, List.map_nil, expQR, h1, h2, Complex.exp_neg, Complex.exp_pi_mul_I,
    Complex.exp_two_pi_mul_I]
  norm_num

end Euphonic.Phases
