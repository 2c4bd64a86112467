import Verif.Props.DescribeEwald
import Verif.Props.Folding
import Mathlib.LinearAlgebra.FreeModule.Finite.CardQuotient

/-!
# C160: a larger cell of a polar crystal

The modes of a polar crystal in a cell that holds several copies of the smallest one are those of the smallest cell at all wavevectors
that are folded onto each other, also with the long-range correction, calculated from the complete series, and with the splitting
at gamma points.
-/

set_option autoImplicit false
set_option linter.unusedSectionVars false

namespace Euphonic.Folding

open Euphonic.Lattice Euphonic.Supercell Euphonic.Phases Euphonic.Images Euphonic.DynMat Euphonic.Reduced
open Euphonic.Commensurate Euphonic.Acoustic Euphonic.Describe Euphonic.Dipole Euphonic.Poisson

variable {n n' N N' M : Nat} {d : Description n N} {d' : Description n' N'} {h : Multiple n n' N N'}

/-! ## The number of copies -/

theorem Multiple.Relates.scVecs_eq (hr : h.Relates d d') : d'.cv = scVecs h.P d.cv := by
  have hx : d'.cv.a = toCart d.cv (castV ℝ h.P.a) := by
    have := hr.vectors ⟨1, 0, 0⟩
    simp [toCart, castM] at this
    exact V3.ext' this.1 this.2.1 this.2.2
  have hy : d'.cv.b = toCart d.cv (castV ℝ h.P.b) := by
    have := hr.vectors ⟨0, 1, 0⟩
    simp [toCart, castM] at this
    exact V3.ext' this.1 this.2.1 this.2.2
  have hz : d'.cv.c = toCart d.cv (castV ℝ h.P.c) := by
    have := hr.vectors ⟨0, 0, 1⟩
    simp [toCart, castM] at this
    exact V3.ext' this.1 this.2.1 this.2.2
  cases hcv : d'.cv
  rw [hcv] at hx hy hz
  simp only at hx hy hz
  rw [hx, hy, hz]
  rfl

theorem Multiple.Relates.det_pos (hr : h.Relates d d') (hv : 0 < cellVolume d.cv) (hv' : 0 < cellVolume d'.cv) : 0 < det h.P := by
  rw [hr.scVecs_eq, volume_scVecs] at hv'
  have := pos_of_mul_pos_left hv' hv.le
  exact_mod_cast this

/-- The matrix as a linear map. -/
def mapOf (P : M3 ℤ) : (Fin 3 → ℤ) →ₗ[ℤ] (Fin 3 → ℤ) :=
  Matrix.toLin' !![P.a.x, P.b.x, P.c.x; P.a.y, P.b.y, P.c.y; P.a.z, P.b.z, P.c.z]

theorem mapOf_apply (P : M3 ℤ) (v : Fin 3 → ℤ) :
    mapOf P v = ![(mulMat ⟨v 0, v 1, v 2⟩ P).x, (mulMat ⟨v 0, v 1, v 2⟩ P).y, (mulMat ⟨v 0, v 1, v 2⟩ P).z] := by
  funext a
  rw [mapOf, Matrix.toLin'_apply]
  fin_cases a <;> simp [Matrix.mulVec, dotProduct, Fin.sum_univ_three, mulMat] <;> ring

theorem det_mapOf (P : M3 ℤ) : LinearMap.det (mapOf P) = det P := by
  rw [mapOf, LinearMap.det_toLin', Matrix.det_fin_three]
  simp [det]
  ring

theorem mem_range_mapOf (P : M3 ℤ) (v : Fin 3 → ℤ) : v ∈ LinearMap.range (mapOf P) ↔ InLattice P ⟨v 0, v 1, v 2⟩ := by
  constructor
  · rintro ⟨w, rfl⟩
    refine ⟨⟨w 0, w 1, w 2⟩, ?_⟩
    rw [mapOf_apply]
    rfl
  · rintro ⟨m, hm⟩
    refine ⟨![m.x, m.y, m.z], ?_⟩
    rw [mapOf_apply]
    funext a
    have := hm
    fin_cases a
    · exact (congrArg V3.x hm).symm
    · exact (congrArg V3.y hm).symm
    · exact (congrArg V3.z hm).symm

/-- Each atom has as many copies as the larger cell holds cells. -/
theorem Multiple.Relates.copies (hr : h.Relates d d') (hP : det h.P ≠ 0) (i : Fin n) :
    (Finset.univ.filter fun i' => h.home i' = i).card = (det h.P).natAbs := by
  have hinj : Function.Injective (mapOf h.P) := by
    intro v w he
    rw [mapOf_apply, mapOf_apply] at he
    have h0 := congrFun he 0
    have h1 := congrFun he 1
    have h2 := congrFun he 2
    have := mulMat_injective hP (V3.ext' h0 h1 h2)
    simp only [V3.mk.injEq] at this
    funext a
    fin_cases a
    · exact this.1
    · exact this.2.1
    · exact this.2.2
  have hcard := Submodule.natAbs_det_equiv (LinearMap.range (mapOf h.P)) (LinearEquiv.ofInjective (mapOf h.P) hinj)
  have hcomp : (LinearMap.range (mapOf h.P)).subtype ∘ₗ
      AddMonoidHom.toIntLinearMap ((LinearEquiv.ofInjective (mapOf h.P) hinj : (Fin 3 → ℤ) ≃ₗ[ℤ] LinearMap.range (mapOf h.P)) :
        (Fin 3 → ℤ) →+ LinearMap.range (mapOf h.P)) = mapOf h.P := rfl
  rw [hcomp, det_mapOf] at hcard
  rw [hcard]
  have hbij : Function.Bijective fun x : {i' : Fin n' // h.home i' = i} =>
      (Submodule.Quotient.mk ![(h.off x).x, (h.off x).y, (h.off x).z] : (Fin 3 → ℤ) ⧸ LinearMap.range (mapOf h.P)) := by
    constructor
    · rintro ⟨x, hx⟩ ⟨y, hy⟩ he
      have h1 := (mem_range_mapOf _ _).1 ((Submodule.Quotient.eq _).1 he)
      obtain ⟨k, -, hk⟩ := hr.atoms i (h.off x)
      have e0 : sub (h.off x) (h.off x) = ⟨0, 0, 0⟩ := by simp [sub]
      have e1 : y = k := hk y ⟨hy, h1⟩
      have e2 : x = k := hk x ⟨hx, by rw [e0]; exact InLattice.zero _⟩
      exact Subtype.ext (e2.trans e1.symm)
    · intro g
      obtain ⟨v, rfl⟩ := Submodule.Quotient.mk_surjective _ g
      obtain ⟨k, ⟨hk, hl⟩, -⟩ := hr.atoms i ⟨v 0, v 1, v 2⟩
      refine ⟨⟨k, hk⟩, ?_⟩
      refine ((Submodule.Quotient.eq _).2 ?_).symm
      exact (mem_range_mapOf _ _).2 hl
  rw [← Nat.card_congr (Equiv.ofBijective _ hbij), Nat.card_eq_fintype_card, Fintype.card_subtype]

/-! ## Reciprocal vectors -/

theorem dot_fold (h : Multiple n n' N N') (x y : V3 ℝ) : dot (h.fold x) y = dot x (toCart (castM h.P) y) := by
  simp only [Multiple.fold, dot, toCart, castM]
  ring

theorem Multiple.Relates.recip_eq (hr : h.Relates d d') (hv : 0 < cellVolume d.cv) (hv' : 0 < cellVolume d'.cv)
    (born : Fin n → Fin 3 → Fin 3 → ℝ) (born' : Fin n' → Fin 3 → Fin 3 → ℝ) (diel : Matrix (Fin 3) (Fin 3) ℝ) (x : V3 ℝ) :
    toCart (recip (d'.ions born' diel)) (h.fold x) = toCart (recip (d.ions born diel)) x := by
  unfold recip
  refine eq_of_dots (cv := d'.cv) hv'.ne' fun y => ?_
  refine (Gradient.dot_recip d'.cv hv'.ne' _ _).trans ?_
  rw [hr.vectors]
  refine Eq.trans ?_ (Gradient.dot_recip d.cv hv.ne' _ _).symm
  rw [dot_fold]

theorem Multiple.unfold (h : Multiple n n' N N') (hP : det h.P ≠ 0) (y : V3 ℝ) : ∃ x, h.fold x = y := by
  have hv : cellVolume (castM h.P) ≠ 0 := by
    have e : cellVolume (castM h.P) = (det h.P : ℝ) := by
      simp [cellVolume, castM, castV, dot, cross, det]
      ring
    rw [e]
    exact_mod_cast hP
  have hpi : 2 * Real.pi ≠ 0 := by have := Real.pi_pos; positivity
  refine ⟨smul (1 / (2 * Real.pi)) (toCart (reciprocalCell (2 * Real.pi) (castM h.P)) y), ?_⟩
  have key : ∀ R, dot (h.fold (smul (1 / (2 * Real.pi)) (toCart (reciprocalCell (2 * Real.pi) (castM h.P)) y))) R = dot y R := by
    intro R
    rw [dot_fold]
    have h1 := Gradient.dot_recip (castM h.P) hv y R
    have h2 : ∀ (c : ℝ) (u v : V3 ℝ), dot (smul c u) v = c * dot u v := by
      intro c u v
      simp only [dot, smul]
      ring
    rw [h2, h1]
    field_simp
  refine V3.ext' ?_ ?_ ?_
  · simpa [dot] using key ⟨1, 0, 0⟩
  · simpa [dot] using key ⟨0, 1, 0⟩
  · simpa [dot] using key ⟨0, 0, 1⟩

/-- Reciprocal vectors of the smaller cell are among those of the larger one. -/
def Multiple.foldZ (h : Multiple n n' N N') (G : V3 ℤ) : V3 ℤ :=
  ⟨h.P.a.x * G.x + h.P.a.y * G.y + h.P.a.z * G.z, h.P.b.x * G.x + h.P.b.y * G.y + h.P.b.z * G.z,
    h.P.c.x * G.x + h.P.c.y * G.y + h.P.c.z * G.z⟩

theorem castV_foldZ (h : Multiple n n' N N') (G : V3 ℤ) : castV ℝ (h.foldZ G) = h.fold (castV ℝ G) := by
  simp [Multiple.foldZ, Multiple.fold, castV, dot]

theorem fold_add (h : Multiple n n' N N') (x y : V3 ℝ) : h.fold (add x y) = add (h.fold x) (h.fold y) := by
  simp only [Multiple.fold, add, dot, V3.mk.injEq]
  refine ⟨?_, ?_, ?_⟩ <;> ring

theorem fold_injective (h : Multiple n n' N N') (hP : det h.P ≠ 0) : Function.Injective h.fold := by
  intro x y hxy
  have hv : cellVolume (castM h.P) ≠ 0 := by
    have e : cellVolume (castM h.P) = (det h.P : ℝ) := by
      simp [cellVolume, castM, castV, dot, cross, det]
      ring
    rw [e]
    exact_mod_cast hP
  refine eq_of_dots (cv := castM h.P) hv fun z => ?_
  rw [← dot_fold, ← dot_fold, hxy]

theorem foldZ_injective (h : Multiple n n' N N') (hP : det h.P ≠ 0) : Function.Injective h.foldZ := by
  intro G G' hG
  have h1 := fold_injective h hP (by rw [← castV_foldZ, ← castV_foldZ, hG] : h.fold (castV ℝ G) = h.fold (castV ℝ G'))
  simp only [castV, V3.mk.injEq, Int.cast_inj] at h1
  exact V3.ext' h1.1 h1.2.1 h1.2.2

/-! ## The terms of the sums -/

section
variable {born : Fin n → Fin 3 → Fin 3 → ℝ} {born' : Fin n' → Fin 3 → Fin 3 → ℝ} {diel : Matrix (Fin 3) (Fin 3) ℝ}

theorem expQR_dot (x : V3 ℝ) (R : V3 ℤ) : expQR x R = Complex.exp (2 * Complex.I * Real.pi * (dot x (castV ℝ R) : ℝ)) := by
  unfold expQR
  congr 1
  simp only [dot, castV]
  push_cast
  ring

/-- A reciprocal vector `fold x` of the larger cell. -/
theorem Multiple.Relates.recipAt_fold (hr : h.Relates d d') (hv : 0 < cellVolume d.cv) (hv' : 0 < cellVolume d'.cv) (lam : ℝ) (q : V3 ℝ)
    (i j : Fin n') (a b : Fin 3) {G' : V3 ℤ} {x : V3 ℝ} (hx : h.fold x = castV ℝ G') :
    expQR q (h.off j) * recipAt (d'.ions born' diel) lam (h.fold q) i j a b G' =
      (recipFactor (d'.ions born' diel) lam * Complex.exp (2 * Complex.I * Real.pi *
        (dot (add x q) (sub (d.r (h.home i)) (d.r (h.home j))) : ℝ)) *
        (kTerm (d.ions born diel) lam (toCart (recip (d.ions born diel)) (add x q)) a b : ℂ)) *
        (expQR (add x q) (h.off i) * star (expQR x (h.off j))) := by
  have hk : ∀ k, kTerm (d'.ions born' diel) lam k a b = kTerm (d.ions born diel) lam k a b := fun k => rfl
  have hp : dot (h.fold (add x q)) (sub (d'.r i) (d'.r j)) = dot (add x q) (sub (d.r (h.home i)) (d.r (h.home j))) +
      dot (add x q) (castV ℝ (h.off i)) - dot (add x q) (castV ℝ (h.off j)) := by
    have e : toCart (castM h.P) (sub (d'.r i) (d'.r j)) = sub (toCart (castM h.P) (d'.r i)) (toCart (castM h.P) (d'.r j)) := by
      simp only [toCart, sub, V3.mk.injEq]
      refine ⟨?_, ?_, ?_⟩ <;> ring
    rw [dot_fold, e, hr.positions, hr.positions]
    simp only [dot, add, sub]
    ring
  rw [Describe.recipAt_eq, ← hx, ← fold_add, hr.recip_eq hv hv' born, hk]
  change expQR q (h.off j) * (_ * Complex.exp (2 * Complex.I * Real.pi * (dot (h.fold (add x q)) (sub (d'.r i) (d'.r j)) : ℝ)) * _) = _
  rw [hp]
  have he : Complex.exp (2 * Complex.I * Real.pi * ((dot (add x q) (sub (d.r (h.home i)) (d.r (h.home j))) +
      dot (add x q) (castV ℝ (h.off i)) - dot (add x q) (castV ℝ (h.off j)) : ℝ) : ℂ)) =
      Complex.exp (2 * Complex.I * Real.pi * (dot (add x q) (sub (d.r (h.home i)) (d.r (h.home j))) : ℝ)) *
        expQR (add x q) (h.off i) * star (expQR (add x q) (h.off j)) := by
    rw [← expQR_neg', expQR_dot, expQR_dot, ← Complex.exp_add, ← Complex.exp_add]
    congr 1
    simp only [dot, castV, DynMat.neg]
    push_cast
    ring
  have hs : star (expQR (add x q) (h.off j)) = star (expQR x (h.off j)) * star (expQR q (h.off j)) := by
    have : expQR (add x q) (h.off j) = expQR x (h.off j) * expQR q (h.off j) := by
      rw [expQR_dot, expQR_dot, expQR_dot, ← Complex.exp_add]
      congr 1
      simp only [dot, add]
      push_cast
      ring
    rw [this, star_mul']
  have hn := norm_expQR q (h.off j)
  rw [he, hs]
  generalize Complex.exp _ = E
  generalize ((kTerm _ _ _ _ _ : ℝ) : ℂ) = k
  linear_combination (recipFactor (d'.ions born' diel) lam * E * k * expQR (add x q) (h.off i) * star (expQR x (h.off j))) * hn

/-- The copies of an atom together. -/
noncomputable def Multiple.recipOf (h : Multiple n n' N N') (o' : Ions n') (lam : ℝ) (q : V3 ℝ) (i : Fin n') (j : Fin n) (a b : Fin 3)
    (G' : V3 ℤ) : ℂ :=
  ∑ j' ∈ Finset.univ.filter fun j' => h.home j' = j, expQR q (h.off j') * recipAt o' lam (h.fold q) i j' a b G'

theorem Multiple.Relates.recipOf_eq (hr : h.Relates d d') (hv : 0 < cellVolume d.cv) (hv' : 0 < cellVolume d'.cv) (lam : ℝ) (q : V3 ℝ)
    (i : Fin n') (j : Fin n) (a b : Fin 3) {G' : V3 ℤ} {x : V3 ℝ} (hx : h.fold x = castV ℝ G') :
    h.recipOf (d'.ions born' diel) lam q i j a b G' =
      (recipFactor (d'.ions born' diel) lam * Complex.exp (2 * Complex.I * Real.pi *
        (dot (add x q) (sub (d.r (h.home i)) (d.r j)) : ℝ)) *
        (kTerm (d.ions born diel) lam (toCart (recip (d.ions born diel)) (add x q)) a b : ℂ)) *
        (expQR (add x q) (h.off i) * star (∑ j' ∈ Finset.univ.filter fun j' => h.home j' = j, expQR x (h.off j'))) := by
  unfold Multiple.recipOf
  rw [star_sum, Finset.mul_sum, Finset.mul_sum]
  refine Finset.sum_congr rfl fun j' hj => ?_
  rw [hr.recipAt_fold (born := born) hv hv' lam q i j' a b hx, (Finset.mem_filter.1 hj).2]

theorem Multiple.Relates.recipOf_foldZ (hr : h.Relates d d') (hv : 0 < cellVolume d.cv) (hv' : 0 < cellVolume d'.cv) (lam : ℝ) (q : V3 ℝ)
    (i : Fin n') (j : Fin n) (a b : Fin 3) (G : V3 ℤ) :
    h.recipOf (d'.ions born' diel) lam q i j a b (h.foldZ G) =
      expQR q (h.off i) * recipAt (d.ions born diel) lam q (h.home i) j a b G := by
  have hP := hr.det_pos hv hv'
  rw [hr.recipOf_eq (born := born) hv hv' lam q i j a b (castV_foldZ h G).symm, Describe.recipAt_eq]
  have h1 : ∑ j' ∈ Finset.univ.filter fun j' => h.home j' = j, expQR (castV ℝ G) (h.off j') = ((det h.P : ℤ) : ℂ) := by
    rw [Finset.sum_congr rfl fun j' _ => expQR_int G (h.off j'), Finset.sum_const, hr.copies hP.ne', nsmul_eq_mul, mul_one]
    rw [← Int.cast_natCast, Int.natCast_natAbs, abs_of_pos hP]
  have h2 : expQR (add (castV ℝ G) q) (h.off i) = expQR q (h.off i) := by
    have := expQR_periodic q G (h.off i)
    rw [← this]
    congr 1
    simp only [add, castV, V3.mk.injEq]
    refine ⟨?_, ?_, ?_⟩ <;> ring
  have h3 : ((recipFactor (d'.ions born' diel) lam : ℝ) : ℂ) * ((det h.P : ℤ) : ℂ) = (recipFactor (d.ions born diel) lam : ℝ) := by
    unfold recipFactor Dipole.volume
    have e : cellVolume (d'.ions born' diel).cv = (det h.P : ℝ) * cellVolume d.cv := by
      change cellVolume d'.cv = _
      rw [hr.scVecs_eq, volume_scVecs]
    rw [e]
    have hv0 : ((cellVolume d.cv : ℝ) : ℂ) ≠ 0 := by exact_mod_cast hv.ne'
    have hp0 : ((det h.P : ℤ) : ℂ) ≠ 0 := by exact_mod_cast hP.ne'
    change _ = ((Real.pi / (cellVolume d.cv * lam ^ 2) : ℝ) : ℂ)
    push_cast
    by_cases hl : (lam : ℂ) = 0
    · simp [hl]
    · field_simp
  rw [h1, h2, star_intCast, ← h3]
  change _ = expQR q (h.off i) * (_ * Complex.exp (2 * Complex.I * Real.pi * (dot (add (castV ℝ G) q) (sub (d.r (h.home i)) (d.r j)) : ℝ)) * _)
  ring

theorem Multiple.Relates.recipOf_zero (hr : h.Relates d d') (hv : 0 < cellVolume d.cv) (hv' : 0 < cellVolume d'.cv) (lam : ℝ) (q : V3 ℝ)
    (i : Fin n') (j : Fin n) (a b : Fin 3) {G' : V3 ℤ} (hG : G' ∉ Set.range h.foldZ) :
    h.recipOf (d'.ions born' diel) lam q i j a b G' = 0 := by
  have hP := (hr.det_pos hv hv').ne'
  obtain ⟨x, hx⟩ := h.unfold hP (castV ℝ G')
  have hne : ¬ ∃ G : V3 ℤ, x = castV ℝ G := by
    rintro ⟨G, rfl⟩
    rw [← castV_foldZ] at hx
    simp only [castV, V3.mk.injEq, Int.cast_inj] at hx
    exact hG ⟨G, V3.ext' hx.1 hx.2.1 hx.2.2⟩
  have hfit : Fits h.P x := by
    refine ⟨G', ?_⟩
    simp only [Multiple.fold, castV, dot, V3.mk.injEq] at hx
    refine ⟨?_, ?_, ?_⟩
    · rw [← hx.1]; ring
    · rw [← hx.2.1]; ring
    · rw [← hx.2.2]; ring
  have hc := hr.character hfit hne fun k => if k = j then 1 else 0
  have hs : ∑ j' ∈ Finset.univ.filter fun j' => h.home j' = j, expQR x (h.off j') = 0 := by
    rw [Finset.sum_filter]
    refine Eq.trans ?_ hc
    refine Finset.sum_congr rfl fun j' _ => ?_
    split <;> simp
  rw [hr.recipOf_eq (born := fun _ _ _ => 0) hv hv' lam q i j a b hx, hs, star_zero, mul_zero, mul_zero]

/-- The reciprocal sums. -/
theorem Multiple.Relates.tsum_recip (hr : h.Relates d d') (ho : Sound (d.ions born diel)) (ho' : Sound (d'.ions born' diel)) {lam : ℝ}
    (hl : 0 < lam) (q : V3 ℝ) (i : Fin n') (j : Fin n) (a b : Fin 3) :
    ∑ j' ∈ Finset.univ.filter fun j' => h.home j' = j,
      expQR q (h.off j') * ∑' G', recipAt (d'.ions born' diel) lam (h.fold q) i j' a b G' =
      expQR q (h.off i) * ∑' G, recipAt (d.ions born diel) lam q (h.home i) j a b G := by
  have hv : 0 < cellVolume d.cv := ho.volume_pos
  have hv' : 0 < cellVolume d'.cv := ho'.volume_pos
  rw [Finset.sum_congr rfl fun j' _ => tsum_mul_left.symm]
  rw [← Summable.tsum_finsetSum fun j' _ => (summable_recipAt ho' hl (h.fold q) i j' a b).mul_left _]
  change ∑' G', h.recipOf (d'.ions born' diel) lam q i j a b G' = _
  rw [← (foldZ_injective h (hr.det_pos hv hv').ne').tsum_eq, ← tsum_mul_left]
  · exact tsum_congr fun G => hr.recipOf_foldZ hv hv' lam q i j a b G
  · intro G' hG
    by_contra hc
    exact hG (hr.recipOf_zero hv hv' lam q i j a b hc)

/-! ## Cells -/

theorem Multiple.Relates.move_bijective (hr : h.Relates d d') (hP : det h.P ≠ 0) (i : Fin n') (j : Fin n) :
    Function.Bijective fun x : {j' : Fin n' // h.home j' = j} × V3 ℤ => h.move i x.1 x.2 := by
  constructor
  · rintro ⟨⟨x, hx⟩, L⟩ ⟨⟨y, hy⟩, L'⟩ he
    simp only [Multiple.move, add, sub, V3.mk.injEq] at he
    obtain ⟨e1, e2, e3⟩ := he
    have hl : InLattice h.P (sub (h.off x) (h.off y)) := by
      refine ⟨sub L' L, ?_⟩
      rw [mulMat_sub]
      refine V3.ext' ?_ ?_ ?_ <;> simp only [sub]
      · linear_combination e1
      · linear_combination e2
      · linear_combination e3
    obtain ⟨k, -, hk⟩ := hr.atoms j (h.off x)
    have e0 : sub (h.off x) (h.off x) = ⟨0, 0, 0⟩ := by simp [sub]
    have f1 : y = k := hk y ⟨hy, hl⟩
    have f2 : x = k := hk x ⟨hx, by rw [e0]; exact InLattice.zero _⟩
    obtain rfl : x = y := f2.trans f1.symm
    have : L = L' := mulMat_injective hP (V3.ext' (by linear_combination e1) (by linear_combination e2) (by linear_combination e3))
    rw [this]
  · intro u
    obtain ⟨k, ⟨hk, m, hm⟩, -⟩ := hr.atoms j (add u (h.off i))
    refine ⟨⟨⟨k, hk⟩, m⟩, ?_⟩
    simp only [Multiple.move, ← hm]
    simp only [add, sub]
    exact V3.ext' (by ring) (by ring) (by ring)

theorem Multiple.Relates.hab_move (hr : h.Relates d d') (hP : det h.P ≠ 0) (erfc : ℝ → ℝ) (lam : ℝ) (i j : Fin n') (a b : Fin 3)
    (L : V3 ℤ) : hab erfc (d'.ions born' diel) lam L i j a b =
      hab erfc (d.ions born diel) lam (h.move i j L) (h.home i) (h.home j) a b := by
  have hsep : sep (d'.ions born' diel) L i j = sep (d.ions born diel) (h.move i j L) (h.home i) (h.home j) := by
    change sub (sub (toCart d'.cv (d'.r i)) (toCart d'.cv (d'.r j))) (toCart d'.cv (castV ℝ L)) =
      sub (sub (toCart d.cv (d.r (h.home i))) (toCart d.cv (d.r (h.home j)))) (toCart d.cv (castV ℝ (h.move i j L)))
    have e : toCart (castM h.P) (castV ℝ L) = castV ℝ (mulMat L h.P) := by
      simp [toCart, castM, castV, mulMat]
    rw [hr.vectors, hr.vectors, hr.vectors, hr.positions, hr.positions, e]
    simp only [Multiple.move, toCart, add, sub, castV, V3.mk.injEq]
    push_cast
    refine ⟨?_, ?_, ?_⟩ <;> ring
  have hiff : (L = ⟨0, 0, 0⟩ ∧ i = j) ↔ (h.move i j L = ⟨0, 0, 0⟩ ∧ h.home i = h.home j) := by
    constructor
    · rintro ⟨rfl, rfl⟩
      simp [Multiple.move, mulMat, add, sub]
    · rintro ⟨h1, h2⟩
      have e : h.move i i ⟨0, 0, 0⟩ = ⟨0, 0, 0⟩ := by simp [Multiple.move, mulMat, add, sub]
      have := (hr.move_bijective hP i (h.home i)).1 (a₁ := (⟨⟨j, h2.symm⟩, L⟩ : {j' : Fin n' // h.home j' = h.home i} × V3 ℤ))
        (a₂ := ⟨⟨i, rfl⟩, ⟨0, 0, 0⟩⟩) (h1.trans e.symm)
      simp only [Prod.mk.injEq, Subtype.mk.injEq] at this
      exact ⟨this.2, this.1.symm⟩
  rw [hab_eq, hab_eq, hsep]
  simp only [hiff]
  rfl

/-- The real-space sums. -/
theorem Multiple.Relates.tsum_real (hr : h.Relates d d') {erfc : ℝ → ℝ} (he : IsErfc erfc) (ho : Sound (d.ions born diel))
    (ho' : Sound (d'.ions born' diel)) {lam : ℝ} (hl : 0 < lam) (q : V3 ℝ) (i : Fin n') (j : Fin n) (a b : Fin 3) :
    ∑ j' ∈ Finset.univ.filter fun j' => h.home j' = j,
      expQR q (h.off j') * ∑' L, realAt erfc (d'.ions born' diel) lam (h.fold q) i j' a b L =
      expQR q (h.off i) * ∑' L, realAt erfc (d.ions born diel) lam q (h.home i) j a b L := by
  have hv : 0 < cellVolume d.cv := ho.volume_pos
  have hv' : 0 < cellVolume d'.cv := ho'.volume_pos
  have hP := (hr.det_pos hv hv').ne'
  have hterm : ∀ (x : {j' : Fin n' // h.home j' = j}) (L : V3 ℤ),
      expQR q (h.off x) * realAt erfc (d'.ions born' diel) lam (h.fold q) i x a b L =
      expQR q (h.off i) * realAt erfc (d.ions born diel) lam q (h.home i) j a b (h.move i x L) := by
    intro x L
    have hf : realFactor (d'.ions born' diel) lam = realFactor (d.ions born diel) lam := rfl
    rw [Describe.realAt_eq, Describe.realAt_eq, hr.hab_move (born := born) hP, h.expQR_move q i x L, x.2, hf]
    have hn := norm_expQR q (h.off x)
    generalize ((hab _ _ _ _ _ _ _ _ : ℝ) : ℂ) = k
    linear_combination ((realFactor (d.ions born diel) lam : ℂ) * k * expQR q (h.off i) * expQR q (h.move i x L)) * hn
  let e : {j' : Fin n' // h.home j' = j} × V3 ℤ ≃ V3 ℤ := Equiv.ofBijective _ (hr.move_bijective hP i j)
  have hsum : Summable fun L => expQR q (h.off i) * realAt erfc (d.ions born diel) lam q (h.home i) j a b L :=
    (summable_realAt he ho hl q (h.home i) j a b).mul_left _
  have hsum' := e.summable_iff.2 hsum
  rw [← tsum_mul_left, ← e.tsum_eq]
  refine Eq.trans ?_ (Summable.tsum_prod hsum').symm
  rw [tsum_fintype]
  rw [Finset.sum_subtype (p := fun j' => h.home j' = j) _ (by simp)]
  refine Finset.sum_congr rfl fun x _ => ?_
  rw [← tsum_mul_left]
  exact tsum_congr fun L => hterm x L

/-- **C160.** The interactions of all copies of an atom add up to those of the atom. -/
theorem C160_interaction (hr : h.Relates d d') {erfc : ℝ → ℝ} (he : IsErfc erfc) (ho : Sound (d.ions born diel))
    (ho' : Sound (d'.ions born' diel)) {lam : ℝ} (hl : 0 < lam) (q : V3 ℝ) (i : Fin n') (j : Fin n) (a b : Fin 3) :
    ∑ j' ∈ Finset.univ.filter fun j' => h.home j' = j, expQR q (h.off j') * complete erfc (d'.ions born' diel) lam (h.fold q) i j' a b =
      expQR q (h.off i) * complete erfc (d.ions born diel) lam q (h.home i) j a b := by
  unfold Dipole.complete
  simp only [mul_sub, Finset.sum_sub_distrib]
  rw [hr.tsum_recip ho ho' hl, hr.tsum_real he ho ho' hl]

/-! ## Matrices -/

/-- Specification: the blocks of all copies of an atom, with their phases, add up to the block of the atom. -/
def Multiple.Folds (h : Multiple n n' N N') (q : V3 ℝ) (X : Mat n ℂ) (X' : Mat n' ℂ) : Prop :=
  ∀ i j a b, ∑ j' ∈ Finset.univ.filter fun j' => h.home j' = j, expQR q (h.off j') * X' (row i a) (row j' b) =
    expQR q (h.off i) * X (row (h.home i) a) (row j b)

theorem Multiple.Folds.add {q : V3 ℝ} {X Y : Mat n ℂ} {X' Y' : Mat n' ℂ} (h1 : h.Folds q X X') (h2 : h.Folds q Y Y') :
    h.Folds q (X + Y) (X' + Y') := by
  intro i j a b
  simp only [Pi.add_apply, mul_add, Finset.sum_add_distrib, h1 i j a b, h2 i j a b]

theorem sum_fibres {R : Type} [AddCommMonoid R] (h : Multiple n n' N N') (f : Fin n' → R) :
    ∑ j', f j' = ∑ j, ∑ j' ∈ Finset.univ.filter fun j' => h.home j' = j, f j' :=
  (Finset.sum_fiberwise_of_maps_to (s := Finset.univ) (t := Finset.univ) (g := h.home) (fun _ _ => Finset.mem_univ _) f).symm

theorem Multiple.Folds.apply {q : V3 ℝ} {X : Mat n ℂ} {X' : Mat n' ℂ} (hf : h.Folds q X X') {mass : Fin n → ℝ} {mass' : Fin n' → ℝ}
    (hm : ∀ i, mass' i = mass (h.home i)) (e : Fin (n * 3) → ℂ) (k : Fin (n' * 3)) :
    ∑ l, X' k l * (massWeighting mass' k l : ℂ) * h.spread q e l =
      h.spread q (fun k => ∑ l, X k l * (massWeighting mass k l : ℂ) * e l) k := by
  obtain ⟨i, a, rfl⟩ := exists_row_id k
  unfold Multiple.spread
  simp only [row_div, row_mod]
  rw [sum_rows, sum_rows, sum_fibres h, Finset.mul_sum]
  refine Finset.sum_congr rfl fun j _ => ?_
  rw [Finset.sum_comm, Finset.mul_sum]
  refine Finset.sum_congr rfl fun b _ => ?_
  have h1 := hf i j a b
  calc ∑ j' ∈ Finset.univ.filter fun j' => h.home j' = j, X' (row i a) (row j' b) * (massWeighting mass' (row i a) (row j' b) : ℂ) *
        (expQR q (h.off (row j' b).divNat) * e (row (h.home (row j' b).divNat) (row j' b).modNat))
      = ∑ j' ∈ Finset.univ.filter fun j' => h.home j' = j, (expQR q (h.off j') * X' (row i a) (row j' b)) *
        ((massWeighting mass (row (h.home i) a) (row j b) : ℂ) * e (row j b)) := by
        refine Finset.sum_congr rfl fun j' hj => ?_
        have hw : massWeighting mass' (row i a) (row j' b) = massWeighting mass (row (h.home i) a) (row j b) := by
          simp only [massWeighting, row_div, hm, (Finset.mem_filter.1 hj).2]
        rw [hw, row_div, row_mod, (Finset.mem_filter.1 hj).2]
        ring
    _ = _ := by
        rw [← Finset.sum_mul, h1]
        ring

theorem Multiple.Relates.folds_dynMat (hr : h.Relates d d') {images images' : List (V3 ℤ)} (hok : d.Ok images)
    (hok' : d'.Ok images') (junk : Fin N → Mat n ℝ) (junk' : Fin N' → Mat n' ℝ) (q : V3 ℝ) :
    h.Folds q (d.dynMat images junk q) (d'.dynMat images' junk' (h.fold q)) := by
  intro i j a b
  simp only [hr.dynMat_eq hok hok', dynMat_copies d hok]
  set F : Fin n × Fin N → ℂ := fun x => if x.1 = j then term d images q x.2 (row (h.home i) a) (row j b) else 0 with hF
  have h1 := (hr.bij i).sum_comp F
  rw [Fintype.sum_prod_type, Fintype.sum_prod_type] at h1
  have h2 : ∑ x, ∑ y, F (x, y) = ∑ c, term d images q c (row (h.home i) a) (row j b) := by
    rw [Finset.sum_eq_single j]
    · simp [hF]
    · intro x _ hx
      simp [hF, hx]
    · simp
  have h3 : ∑ j' ∈ Finset.univ.filter fun j' => h.home j' = j, ∑ c, term d images q (h.s i j' c) (row (h.home i) a) (row j b) =
      ∑ c, term d images q c (row (h.home i) a) (row j b) := by
    rw [← h2, ← h1, Finset.sum_filter]
    refine Finset.sum_congr rfl fun j' _ => ?_
    simp only [hF]
    split <;> simp
  have h4 : ∀ c, term d images q c (row (h.home i) a) (row j b) = (d.fc c (row (h.home i) a) (row j b) : ℂ) /
      ((d.copies images c (h.home i) j).card : ℂ) * ∑ L ∈ d.copies images c (h.home i) j, expQR q L := by
    intro c
    simp only [term, row_div]
  simp only [← h4, row_div]
  rw [← h3, Finset.mul_sum]
  refine Finset.sum_congr rfl fun j' hj => ?_
  rw [(Finset.mem_filter.1 hj).2]
  have hn := norm_expQR q (h.off j')
  linear_combination (expQR q (h.off i) * ∑ c, term d images q (h.s i j' c) (row (h.home i) a) (row j b)) * hn

theorem fold_zero (h : Multiple n n' N N') : h.fold ⟨0, 0, 0⟩ = ⟨0, 0, 0⟩ := by
  simp [Multiple.fold, dot]

theorem Multiple.Relates.sound (hr : h.Relates d d') (ho : Sound (d.ions born diel)) (hv' : 0 < cellVolume d'.cv) :
    Sound (d'.ions born' diel) where
  volume_pos := hv'
  symm := ho.symm
  posDef := ho.posDef
  apart := by
    intro i j hij R hR
    have hR' : sub (d'.r i) (d'.r j) = castV ℝ R := hR
    have e : toCart (castM h.P) (sub (d'.r i) (d'.r j)) = sub (toCart (castM h.P) (d'.r i)) (toCart (castM h.P) (d'.r j)) := by
      simp only [toCart, sub, V3.mk.injEq]
      refine ⟨?_, ?_, ?_⟩ <;> ring
    have e2 : toCart (castM h.P) (castV ℝ R) = castV ℝ (mulMat R h.P) := by
      simp [toCart, castM, castV, mulMat]
    rw [hR', e2, hr.positions, hr.positions] at e
    simp only [castV, add, sub, V3.mk.injEq] at e
    by_cases hh : h.home i = h.home j
    · rw [hh] at e
      have hl : InLattice h.P (sub (h.off i) (h.off j)) := by
        refine ⟨R, ?_⟩
        refine V3.ext' ?_ ?_ ?_ <;> simp only [sub]
        · exact_mod_cast (by linear_combination -e.1 : ((h.off i).x : ℝ) - (h.off j).x = (mulMat R h.P).x)
        · exact_mod_cast (by linear_combination -e.2.1 : ((h.off i).y : ℝ) - (h.off j).y = (mulMat R h.P).y)
        · exact_mod_cast (by linear_combination -e.2.2 : ((h.off i).z : ℝ) - (h.off j).z = (mulMat R h.P).z)
      obtain ⟨k, -, hk⟩ := hr.atoms (h.home j) (h.off i)
      have e0 : sub (h.off i) (h.off i) = ⟨0, 0, 0⟩ := by simp [sub]
      have f1 : j = k := hk j ⟨rfl, hl⟩
      have f2 : i = k := hk i ⟨hh, by rw [e0]; exact InLattice.zero _⟩
      exact hij (f2.trans f1.symm)
    · refine ho.apart _ _ hh (add (mulMat R h.P) (sub (h.off j) (h.off i))) ?_
      change sub (d.r (h.home i)) (d.r (h.home j)) = _
      simp only [castV, add, sub, V3.mk.injEq]
      push_cast
      refine ⟨?_, ?_, ?_⟩
      · linear_combination -e.1
      · linear_combination -e.2.1
      · linear_combination -e.2.2

/-- **C160.** The long-range correction of the larger cell, with whatever values of `dipole_parameter`. -/
theorem C160_correction (hr : h.Relates d d') {erfc : ℝ → ℝ} (he : IsErfc erfc) (ho : Sound (d.ions born diel))
    (hv' : 0 < cellVolume d'.cv) (hb : ∀ i, born' i = born (h.home i)) {lam lam' : ℝ} (hl : 0 < lam) (hl' : 0 < lam') (q : V3 ℝ) :
    h.Folds q (completeCorrection erfc (d.ions born diel) lam q) (completeCorrection erfc (d'.ions born' diel) lam' (h.fold q)) := by
  have ho' : Sound (d'.ions born' diel) := hr.sound ho hv'
  rw [C157_parameter he ho' hl' hl]
  have hbo : ∀ i, (d'.ions born' diel).born i = born (h.home i) := hb
  have hbo2 : ∀ i, (d.ions born diel).born i = born i := fun _ => rfl
  have hT := fun q i j c e => C160_interaction (born' := born') hr he ho ho' hl q i j c e
  set T' := complete erfc (d'.ions born' diel) lam with hT'
  set T := complete erfc (d.ions born diel) lam with hTT
  have hpart : ∀ q i j a b, ∑ j' ∈ Finset.univ.filter fun j' => h.home j' = j, expQR q (h.off j') *
      ∑ c, ∑ e, ((born (h.home i) a c * born (h.home j') b e : ℝ) : ℂ) * T' (h.fold q) i j' c e =
      expQR q (h.off i) * ∑ c, ∑ e, ((born (h.home i) a c * born j b e : ℝ) : ℂ) * T q (h.home i) j c e := by
    intro q i j a b
    calc _ = ∑ c, ∑ e, ((born (h.home i) a c * born j b e : ℝ) : ℂ) *
          ∑ j' ∈ Finset.univ.filter fun j' => h.home j' = j, expQR q (h.off j') * T' (h.fold q) i j' c e := by
          simp only [Finset.mul_sum]
          rw [Finset.sum_comm]
          refine Finset.sum_congr rfl fun c _ => ?_
          rw [Finset.sum_comm]
          refine Finset.sum_congr rfl fun e _ => Finset.sum_congr rfl fun j' hj => ?_
          rw [(Finset.mem_filter.1 hj).2]
          ring
      _ = _ := by
          simp only [hT, Finset.mul_sum]
          exact Finset.sum_congr rfl fun c _ => Finset.sum_congr rfl fun e _ => by ring
  have hself : ∀ i a b, ∑ j', ∑ c, ∑ e, ((born (h.home i) a c * born (h.home j') b e : ℝ) : ℂ) * T' ⟨0, 0, 0⟩ i j' c e =
      ∑ j, ∑ c, ∑ e, ((born (h.home i) a c * born j b e : ℝ) : ℂ) * T ⟨0, 0, 0⟩ (h.home i) j c e := by
    intro i a b
    rw [sum_fibres h]
    refine Finset.sum_congr rfl fun j _ => ?_
    have := hpart ⟨0, 0, 0⟩ i j a b
    rw [fold_zero] at this
    simpa only [Describe.expQR_zero, one_mul] using this
  intro i j a b
  simp only [corr_rem, row_div, row_mod]
  unfold corrBy
  simp only [hbo, hbo2, mul_sub, Finset.sum_sub_distrib]
  rw [hpart]
  congr 1
  rw [hself, hself]
  by_cases hij : h.home i = j
  · rw [if_pos hij, Finset.sum_eq_single i]
    · rw [if_pos rfl]
    · intro j' _ hj
      rw [if_neg (Ne.symm hj), mul_zero]
    · intro hc
      simp [hij] at hc
  · rw [if_neg hij, mul_zero]
    refine Finset.sum_eq_zero fun j' hj => ?_
    rw [if_neg, mul_zero]
    rintro rfl
    exact hij (Finset.mem_filter.1 hj).2

/-! ## Splitting at gamma points -/

theorem Multiple.Relates.gamma_eq (hr : h.Relates d d') (hv : 0 < cellVolume d.cv) (hv' : 0 < cellVolume d'.cv)
    (hb : ∀ i, born' i = born (h.home i)) {u : V3 ℝ} (h1 : isGamma u = false) (h2 : isGamma (h.fold u) = false) (i j : Fin n')
    (a b : Fin 3) :
    gammaCorrection (d'.ions born' diel) (h.fold u) (row i a) (row j b) =
      gammaCorrection (d.ions born diel) u (row (h.home i) a) (row (h.home j) b) / (det h.P : ℂ) := by
  unfold gammaCorrection
  rw [h1, h2]
  simp only [Bool.false_eq_true, if_false, row_div, row_mod, hr.recip_eq hv hv' born born' diel, Dipole.volume]
  have e1 : ∀ i, (d'.ions born' diel).born i = (d.ions born diel).born (h.home i) := hb
  have e2 : (d'.ions born' diel).diel = (d.ions born diel).diel := rfl
  have e3 : cellVolume (d'.ions born' diel).cv = (det h.P : ℝ) * cellVolume (d.ions born diel).cv := by
    change cellVolume d'.cv = _ * cellVolume d.cv
    rw [hr.scVecs_eq, volume_scVecs]
  simp only [e1, e2, e3]
  have e4 : ((det h.P : ℤ) : ℂ) = (((det h.P : ℤ) : ℝ) : ℂ) := by simp
  rw [e4, ← Complex.ofReal_div]
  congr 1
  rw [mul_assoc ((det h.P : ℤ) : ℝ), mul_comm ((det h.P : ℤ) : ℝ), ← div_div]
  ring

/-- **C160.** The splitting at gamma points appears at the one wavevector of the smaller cell that is a gamma point. -/
theorem C160_splitting (hr : h.Relates d d') (hv : 0 < cellVolume d.cv) (hv' : 0 < cellVolume d'.cv)
    (hb : ∀ i, born' i = born (h.home i)) {u : V3 ℝ} (h1 : isGamma u = false) (h2 : isGamma (h.fold u) = false) {q : V3 ℝ}
    (hq : ∃ K, h.fold q = castV ℝ K) :
    ((∃ K, q = castV ℝ K) → h.Folds q (gammaCorrection (d.ions born diel) u) (gammaCorrection (d'.ions born' diel) (h.fold u))) ∧
      ((¬ ∃ K, q = castV ℝ K) → h.Folds q 0 (gammaCorrection (d'.ions born' diel) (h.fold u))) := by
  have hdet := hr.det_pos hv hv'
  have h0 : ((det h.P : ℤ) : ℂ) ≠ 0 := by exact_mod_cast hdet.ne'
  constructor
  · rintro ⟨K, rfl⟩ i j a b
    have hc := hr.copies hdet.ne' j
    simp only [expQR_int, one_mul, hr.gamma_eq hv hv' hb h1 h2]
    rw [Finset.sum_congr rfl fun j' hj => by rw [(Finset.mem_filter.1 hj).2], Finset.sum_const, hc, nsmul_eq_mul]
    have e : (((det h.P).natAbs : ℕ) : ℂ) = ((det h.P : ℤ) : ℂ) := by
      have : (((det h.P).natAbs : ℕ) : ℤ) = det h.P := Int.natAbs_of_nonneg hdet.le
      have h3 := congrArg (fun z : ℤ => (z : ℂ)) this
      simpa only [Int.cast_natCast] using h3
    rw [e]
    field_simp
  · intro hn i j a b
    simp only [hr.gamma_eq hv hv' hb h1 h2, Pi.zero_apply, mul_zero]
    have hf : Fits h.P q := by
      obtain ⟨K, hK⟩ := hq
      simp only [Multiple.fold, dot, castV, V3.mk.injEq] at hK
      refine ⟨K, ?_, ?_, ?_⟩
      · linear_combination hK.1
      · linear_combination hK.2.1
      · linear_combination hK.2.2
    have := hr.character hf hn fun k => if k = j then
      gammaCorrection (d.ions born diel) u (row (h.home i) a) (row j b) / (det h.P : ℂ) else 0
    rw [Finset.sum_filter]
    refine Eq.trans (Finset.sum_congr rfl fun j' _ => ?_) this
    by_cases hj : h.home j' = j
    · rw [if_pos hj, if_pos hj, hj, mul_comm]
    · rw [if_neg hj, if_neg hj, zero_mul]

/-! ## Modes and frequencies -/

open Classical in
/-- Specification: with the splitting in the direction `dir`, if the wavevector is a reciprocal lattice vector. -/
noncomputable def atGamma (dir : Option (V3 ℝ)) (q : V3 ℝ) : Option (V3 ℝ) := if ∃ K, q = castV ℝ K then dir else none

/-- **C160.** A mode of the smaller cell, continued over the larger one, is a mode of the larger cell. -/
theorem C160_modes (hr : h.Relates d d') {images images' : List (V3 ℤ)} (hok : d.Ok images) (hok' : d'.Ok images') {erfc : ℝ → ℝ}
    (he : IsErfc erfc) (ho : Sound (d.ions born diel)) (hv' : 0 < cellVolume d'.cv) (hb : ∀ i, born' i = born (h.home i))
    {lam lam' : ℝ} (hl : 0 < lam) (hl' : 0 < lam') (junk : Fin N → Mat n ℝ) (junk' : Fin N' → Mat n' ℝ) (q : V3 ℝ)
    (dir : Option (V3 ℝ))
    (hdir : ∀ u ∈ dir, isGamma u = false ∧ isGamma (h.fold u) = false ∧ ∃ K, h.fold q = castV ℝ K)
    (e : Fin (n * 3) → ℂ) (k : Fin (n' * 3)) :
    ∑ l, d'.polarComplete born' diel erfc lam' images' junk' (h.fold q) (dir.map h.fold) k l * h.spread q e l =
      h.spread q (fun k => ∑ l, d.polarComplete born diel erfc lam images junk q (atGamma dir q) k l * e l) k := by
  have hD := hr.folds_dynMat hok hok' junk junk' q
  have hC := C160_correction hr he ho hv' hb hl hl' q
  unfold Description.polarComplete DynMat.weighted
  cases dir with
  | none =>
    have : atGamma none q = none := by simp [atGamma]
    rw [this]
    exact (hD.add hC).apply hr.masses e k
  | some u =>
    obtain ⟨h1, h2, hK⟩ := hdir u rfl
    obtain ⟨hy, hn⟩ := C160_splitting (diel := diel) hr ho.volume_pos hv' hb h1 h2 hK
    by_cases hg : ∃ K, q = castV ℝ K
    · have : atGamma (some u) q = some u := by simp only [atGamma, if_pos hg]
      rw [this]
      exact ((hD.add hC).add (hy hg)).apply hr.masses e k
    · have : atGamma (some u) q = none := by simp only [atGamma, if_neg hg]
      rw [this]
      have := ((hD.add hC).add (hn hg)).apply hr.masses e k
      rw [add_zero] at this
      exact this

theorem folded_sum (hr : h.Relates d d') {ks : Fin M → V3 ℝ} {q' : V3 ℝ} (hq : h.FoldedOnto ks q') {A' : Mat n' ℂ} {A : Fin M → Mat n ℂ}
    (hA' : ∀ k l, A' l k = star (A' k l)) (hA : ∀ m k l, A m l k = star (A m k l))
    (happ : ∀ m e k, ∑ l, A' k l * h.spread (ks m) e l = h.spread (ks m) (fun k => ∑ l, A m k l * e l) k)
    {eigh : Mat n ℂ → (Fin (n * 3) → ℝ) × Mat n ℂ} (hE : IsEigh eigh)
    {eigh' : Mat n' ℂ → (Fin (n' * 3) → ℝ) × Mat n' ℂ} (hE' : IsEigh eigh') (g : ℝ → ℝ) :
    ∑ s, g ((eigh' A').1 s) = ∑ m, ∑ s, g ((eigh (A m)).1 s) := by
  have hO : ∀ m s s', ∑ k, star ((eigh (A m)).2 s k) * (eigh (A m)).2 s' k = if s = s' then 1 else 0 :=
    fun m s s' => hE.ortho _ (hA m) s s'
  have hspec : Matrix.of (spectral (eigh' A') g) = h.basis ks (fun m => (eigh (A m)).2) *
      (Matrix.diagonal fun x : Fin M × Fin (n * 3) => (g ((eigh (A x.1)).1 x.2) : ℂ)) *
      (h.basis ks fun m => (eigh (A m)).2).conjTranspose := by
    refine spectral_basis (x := fun x : Fin M × Fin (n * 3) => (eigh (A x.1)).1 x.2) hA' hE' (hr.complete hq _ hO) ?_ g
    ext k ⟨m, s⟩
    rw [Matrix.mul_apply, Matrix.mul_diagonal]
    have h1 := happ m ((eigh (A m)).2 s) k
    have h2 : (fun k => ∑ l, A m k l * (eigh (A m)).2 s l) = fun k => ((eigh (A m)).1 s : ℂ) * (eigh (A m)).2 s k :=
      funext fun k => hE.eigen _ (hA m) s k
    rw [h2] at h1
    simp only [Multiple.basis, Matrix.of_apply]
    simp only [← mul_div_assoc, ← Finset.sum_div, h1]
    unfold Multiple.spread
    ring
  have h1 := congrArg Matrix.trace hspec
  rw [Matrix.trace_mul_comm, ← Matrix.mul_assoc, hr.orthonormal hq _ hO, Matrix.one_mul, Matrix.trace_diagonal,
    Fintype.sum_prod_type] at h1
  have h2 : Matrix.trace (Matrix.of (spectral (eigh' A') g)) = ∑ s, ((g ((eigh' A').1 s) : ℝ) : ℂ) := by
    unfold Matrix.trace spectral
    simp only [Matrix.diag_apply, Matrix.of_apply]
    rw [Finset.sum_comm]
    refine Finset.sum_congr rfl fun s _ => ?_
    rw [← Finset.mul_sum]
    have := hE'.ortho _ hA' s s
    rw [if_pos rfl] at this
    rw [Finset.sum_congr rfl fun k _ => mul_comm _ _, this, mul_one]
  rw [h2] at h1
  exact_mod_cast h1

theorem polarComplete_herm {n N : Nat} {d : Description n N} {images : List (V3 ℤ)} (hok : d.Ok images) {op : Fin N → Fin N}
    {t : Fin N → V3 ℤ} (hs : Symmetric d.cells d.S d.fc op t) {born : Fin n → Fin 3 → Fin 3 → ℝ} {diel : Matrix (Fin 3) (Fin 3) ℝ}
    (ho : Sound (d.ions born diel)) (erfc : ℝ → ℝ) (lam : ℝ) (junk : Fin N → Mat n ℝ) (q : V3 ℝ) (dir : Option (V3 ℝ))
    (k l : Fin (n * 3)) :
    d.polarComplete born diel erfc lam images junk q dir l k = star (d.polarComplete born diel erfc lam images junk q dir k l) := by
  unfold Description.polarComplete
  refine Stability.weighted_herm d.mass ?_ ?_ ?_ ?_ k l
  · intro k l
    exact C123_hermitian_partial d.cv d.r d.cells d.c0 d.S images hok.reduced.shells hok.reduced.volume hok.reduced.reduced
      hok.reduced.within hs hok.first junk _ k l
  · rintro M ⟨⟩ k l
    exact corr_herm erfc _ _ ho.symm _ k l
  · rintro M ⟨⟩
  · intro M hM k l
    cases dir with
    | none => cases hM
    | some dir =>
      obtain rfl := Option.some.inj hM
      exact gamma_herm _ _ k l

theorem polarComplete_periodic {n N : Nat} {d : Description n N} {images : List (V3 ℤ)} {born : Fin n → Fin 3 → Fin 3 → ℝ}
    {diel : Matrix (Fin 3) (Fin 3) ℝ} (erfc : ℝ → ℝ) (lam : ℝ) (junk : Fin N → Mat n ℝ) (q : V3 ℝ) (G : V3 ℤ)
    (dir : Option (V3 ℝ)) :
    d.polarComplete born diel erfc lam images junk (add q (castV ℝ G)) dir = d.polarComplete born diel erfc lam images junk q dir := by
  unfold Description.polarComplete Description.dynMat fcDynMat
  rw [C158_periodic, (C44_periodic d.cv _ _ _ _ q G).1]

open Classical in
/-- **C160.** The frequencies of the larger cell at a wavevector are those of the smaller cell at all the wavevectors that are folded
onto it, with their multiplicities: with the long-range correction, and with the splitting where there is one. -/
theorem C160_frequencies (hr : h.Relates d d') {images images' : List (V3 ℤ)} (hok : d.Ok images) (hok' : d'.Ok images')
    {op : Fin N → Fin N} {t : Fin N → V3 ℤ} (hs : Symmetric d.cells d.S d.fc op t) {op' : Fin N' → Fin N'} {t' : Fin N' → V3 ℤ}
    (hs' : Symmetric d'.cells d'.S d'.fc op' t') {erfc : ℝ → ℝ} (he : IsErfc erfc) (ho : Sound (d.ions born diel))
    (hv' : 0 < cellVolume d'.cv) (hb : ∀ i, born' i = born (h.home i)) {lam lam' : ℝ} (hl : 0 < lam) (hl' : 0 < lam')
    (junk : Fin N → Mat n ℝ) (junk' : Fin N' → Mat n' ℝ) {ks : Fin M → V3 ℝ} {q' : V3 ℝ} (hq : h.FoldedOnto ks q')
    (dir : Option (V3 ℝ)) (hdir : ∀ u ∈ dir, isGamma u = false ∧ isGamma (h.fold u) = false ∧ ∃ K, q' = castV ℝ K)
    {eigh : Mat n ℂ → (Fin (n * 3) → ℝ) × Mat n ℂ} (hE : IsEigh eigh)
    {eigh' : Mat n' ℂ → (Fin (n' * 3) → ℝ) × Mat n' ℂ} (hE' : IsEigh eigh') :
    (Finset.univ.val.map fun s => freqOf ((eigh' (d'.polarComplete born' diel erfc lam' images' junk' q' (dir.map h.fold))).1 s)) =
      ∑ m, Finset.univ.val.map fun s =>
        freqOf ((eigh (d.polarComplete born diel erfc lam images junk (ks m) (atGamma dir (ks m)))).1 s) := by
  have ho' : Sound (d'.ions born' diel) := hr.sound ho hv'
  have hsum := folded_sum hr hq (polarComplete_herm hok' hs' ho' erfc lam' junk' q' (dir.map h.fold))
    (fun m => polarComplete_herm hok hs ho erfc lam junk (ks m) (atGamma dir (ks m))) (fun m e k => by
      obtain ⟨G, hG⟩ := hq.same m
      rw [← C160_modes hr hok hok' he ho hv' hb hl hl' junk junk' (ks m) dir (fun u hu => ?_) e k, hG,
        polarComplete_periodic]
      obtain ⟨h1, h2, K, hK⟩ := hdir u hu
      refine ⟨h1, h2, add K G, ?_⟩
      rw [hG, hK]
      simp [add, castV]) hE hE'
  ext f
  have h1 := hsum fun x => if f = freqOf x then 1 else 0
  rw [Multiset.count_sum']
  simp only [Multiset.count_map]
  have h2 : ∀ {k : Nat} (x : Fin k → ℝ), ((Multiset.card (Multiset.filter (fun s => f = freqOf (x s)) Finset.univ.val) : ℕ) : ℝ) =
      ∑ s, if f = freqOf (x s) then (1 : ℝ) else 0 := by
    intro k x
    rw [Finset.sum_ite, Finset.sum_const_zero, add_zero, Finset.sum_const, nsmul_eq_mul, mul_one]
    rfl
  have h3 : ((Multiset.card (Multiset.filter (fun s => f =
      freqOf ((eigh' (d'.polarComplete born' diel erfc lam' images' junk' q' (dir.map h.fold))).1 s)) Finset.univ.val) : ℕ) : ℝ) =
      ((∑ m, Multiset.card (Multiset.filter (fun s => f =
        freqOf ((eigh (d.polarComplete born diel erfc lam images junk (ks m) (atGamma dir (ks m)))).1 s)) Finset.univ.val) : ℕ) : ℝ) := by
    push_cast
    rw [h2, h1]
    exact Finset.sum_congr rfl fun m _ => (h2 _).symm
  exact_mod_cast h3

end

/-! ### A case meeting the hypotheses -/

namespace Ex

/-- Charges of the four ions. -/
noncomputable def born' : Fin 4 → Fin 3 → Fin 3 → ℝ := fun i => Describe.Ex.born (double.home i)

theorem volume' : 0 < cellVolume Folding.Ex.d'.cv := by simp [Folding.Ex.d', cellVolume, dot, cross]

theorem not_gamma (x z : ℝ) : isGamma (⟨x, 1 / 2, z⟩ : V3 ℝ) = false := by
  unfold isGamma
  rw [decide_eq_false_iff_not, not_lt]
  have hz : ∀ z : ℤ, (1 / 2 : ℝ) ≤ |1 / 2 - (z : ℝ)| := by
    intro z
    rcases le_or_gt z 0 with h | h
    · have : (z : ℝ) ≤ 0 := by exact_mod_cast h
      rw [abs_of_nonneg (by linarith)]; linarith
    · have : (1 : ℝ) ≤ z := by exact_mod_cast h
      rw [abs_of_nonpos (by linarith)]; linarith
  simp only [sumAbs, rem]
  refine le_trans ?_ (le_add_of_nonneg_right (abs_nonneg _))
  refine le_trans ?_ (le_add_of_nonneg_left (abs_nonneg _))
  exact le_trans (by norm_num) (hz _)

/-- The chain of ions at a wavevector, with different values of `dipole_parameter`. -/
example (junk : Fin 2 → Mat 2 ℝ) (junk' : Fin 1 → Mat 4 ℝ) {eigh : Mat 2 ℂ → (Fin (2 * 3) → ℝ) × Mat 2 ℂ} (he : IsEigh eigh)
    {eigh' : Mat 4 ℂ → (Fin (4 * 3) → ℝ) × Mat 4 ℂ} (he' : IsEigh eigh') (x : ℝ) :
    (Finset.univ.val.map fun s => freqOf ((eigh' (Folding.Ex.d'.polarComplete born' Describe.Ex.diel erfc0 2 shells2 junk' ⟨2 * x, 0, 0⟩ none)).1 s)) =
      (Finset.univ.val.map fun s =>
        freqOf ((eigh (Describe.Ex.d.polarComplete Describe.Ex.born Describe.Ex.diel erfc0 1 shells2 junk ⟨x, 0, 0⟩ none)).1 s)) +
      (Finset.univ.val.map fun s =>
        freqOf ((eigh (Describe.Ex.d.polarComplete Describe.Ex.born Describe.Ex.diel erfc0 1 shells2 junk ⟨x + 1 / 2, 0, 0⟩ none)).1 s)) := by
  have := C160_frequencies relates Describe.Ex.ok ok' Describe.Ex.symmetric symmetric' isErfc_erfc0 Describe.Ex.sound volume'
    (born' := born') (fun _ => rfl) one_pos two_pos junk junk' (folded x 0 0) none (by simp) he he'
  simpa [Fin.sum_univ_two, atGamma] using this

/-- At the gamma point, with the splitting in one direction: it is only in the modes of the smaller cell at its gamma point. -/
example (junk : Fin 2 → Mat 2 ℝ) (junk' : Fin 1 → Mat 4 ℝ) {eigh : Mat 2 ℂ → (Fin (2 * 3) → ℝ) × Mat 2 ℂ} (he : IsEigh eigh)
    {eigh' : Mat 4 ℂ → (Fin (4 * 3) → ℝ) × Mat 4 ℂ} (he' : IsEigh eigh') :
    (Finset.univ.val.map fun s =>
        freqOf ((eigh' (Folding.Ex.d'.polarComplete born' Describe.Ex.diel erfc0 2 shells2 junk' ⟨0, 0, 0⟩ (some ⟨2 / 3, 1 / 2, 0⟩))).1 s)) =
      (Finset.univ.val.map fun s => freqOf ((eigh (Describe.Ex.d.polarComplete Describe.Ex.born Describe.Ex.diel erfc0 1 shells2 junk
        ⟨0, 0, 0⟩ (some ⟨1 / 3, 1 / 2, 0⟩))).1 s)) +
      (Finset.univ.val.map fun s => freqOf ((eigh (Describe.Ex.d.polarComplete Describe.Ex.born Describe.Ex.diel erfc0 1 shells2 junk
        ⟨1 / 2, 0, 0⟩ none)).1 s)) := by
  have hf : double.fold ⟨1 / 3, 1 / 2, 0⟩ = ⟨2 / 3, 1 / 2, 0⟩ := by
    norm_num [Multiple.fold, double, dot, castV]
  have := C160_frequencies relates Describe.Ex.ok ok' Describe.Ex.symmetric symmetric' isErfc_erfc0 Describe.Ex.sound volume'
    (born' := born') (fun _ => rfl) one_pos two_pos junk junk' (folded 0 0 0) (some ⟨1 / 3, 1 / 2, 0⟩) (by
      rintro u ⟨⟩
      rw [hf]
      exact ⟨not_gamma _ _, not_gamma _ _, ⟨0, 0, 0⟩, by simp [castV]⟩) he he'
  have g0 : atGamma (some ⟨1 / 3, 1 / 2, 0⟩) ⟨0, 0, 0⟩ = some ⟨1 / 3, 1 / 2, 0⟩ := by
    rw [atGamma, if_pos ⟨⟨0, 0, 0⟩, by simp [castV]⟩]
  have g1 : atGamma (some ⟨1 / 3, 1 / 2, 0⟩) ⟨1 / 2, 0, 0⟩ = none := by
    rw [atGamma, if_neg]
    rintro ⟨K, hK⟩
    have h1 : (1 / 2 : ℝ) = K.x := congrArg V3.x hK
    have h2 : ((2 * K.x : ℤ) : ℝ) = ((1 : ℤ) : ℝ) := by push_cast; linarith
    have := Int.cast_injective h2
    omega
  rw [Fin.sum_univ_two, Option.map_some, hf] at this
  simp only [Matrix.cons_val_zero, Matrix.cons_val_one, mul_zero, zero_add, g0, g1] at this
  exact this

end Ex

end Euphonic.Folding
