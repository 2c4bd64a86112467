import Verif.Props.FoldEwald
import Verif.Props.TotalFc
import Verif.Props.PolarGrid

/-!
# C165: total force constants survive the subtraction of the dipole term

`from_total_fc_with_dipole` subtracts the long-range interaction of the periodic supercell from the force constants; when modes
are calculated, the long-range interaction of the infinite crystal is added.  At wavevectors that fit into the supercell the
two cancel: the dynamical matrix is the Fourier sum of the total force constants.
-/

set_option autoImplicit false
set_option linter.unusedSectionVars false

namespace Euphonic.TotalExact

open Euphonic.Lattice Euphonic.Supercell Euphonic.Phases Euphonic.Images Euphonic.DynMat Euphonic.Commensurate
open Euphonic.Dipole Euphonic.Poisson Euphonic.TotalFc Euphonic.Folding
open Euphonic.Reduced (shells2)
open Euphonic.Describe (Description castM row_div row_mod)

variable {N n : Nat}

/-! ## Specification -/

/-- The crystal, in atomic units. -/
def crystal (x : Args N n) : Ions n := ⟨x.cv, x.r, fun i a b => x.born i a b * x.bornUnit, x.diel⟩

/-- The cells of the supercell are all the cells there are, up to supercell vectors, each of them once. -/
def AllCells (S : M3 ℤ) (cells : Fin N → V3 ℤ) : Prop := ∀ u : V3 ℤ, ∃! c, InLattice S (Lattice.sub u (cells c))

/-- The arguments are those of a polar crystal in atomic units of charge and permittivity and in a supercell with a symmetric
matrix (see C77); `c0` is the first cell. -/
structure Polar (x : Args N n) (c0 : Fin N) : Prop where
  sound : Sound (crystal x)
  volume : 0 < cellVolume (trueVecs x.cv x.S)
  symm : Symm x.S
  unit : x.fcUnit ≠ 0
  cells : AllCells x.S x.cells
  first : c0.val = 0
  origin : x.cells c0 = ⟨0, 0, 0⟩

/-- The Fourier sum of the total force constants, in atomic units. -/
noncomputable def fourier (x : Args N n) (q : V3 ℝ) (k l : Fin (n * 3)) : ℂ :=
  ∑ c, ((x.fcUnit * x.fc c k l : ℝ) : ℂ) * expQR q (x.cells c)

/-- The force constants without the dipole term `C` of the supercell: what `from_total_fc_with_dipole` is meant to return. -/
noncomputable def without (x : Args N n) (c0 : Fin N) (C : Mat (N * n) ℂ) (c : Fin N) : Mat n ℝ :=
  fun k l => x.fc c k l - (C (scIndex c l) (scIndex c0 k)).re / x.fcUnit

/-! ## The supercell as a larger cell -/

/-- The crystal as a `Description`; masses do not matter here. -/
noncomputable def small (x : Args N n) (c0 : Fin N) : Description n N := ⟨x.cv, x.r, fun _ => 1, x.S, x.cells, c0, x.fc⟩

/-- The supercell as a cell. -/
noncomputable def large (x : Args N n) (rel : Fin N → Fin N → Fin N) : Description (N * n) 1 where
  cv := scVecs x.S x.cv
  r := fun k => toScell x.S (scAtomR x k)
  mass := fun _ => 1
  S := ⟨⟨1, 0, 0⟩, ⟨0, 1, 0⟩, ⟨0, 0, 1⟩⟩
  cells := fun _ => ⟨0, 0, 0⟩
  c0 := 0
  fc := fun _ k l => x.fc (rel k.divNat.divNat l.divNat.divNat) (Describe.row k.divNat.modNat k.modNat)
    (Describe.row l.divNat.modNat l.modNat)

/-- How they are related. -/
def multiple (x : Args N n) (rel : Fin N → Fin N → Fin N) : Multiple n (N * n) N 1 where
  P := x.S
  home := fun k => k.modNat
  off := fun k => x.cells k.divNat
  s := fun i j _ => rel i.divNat j.divNat

theorem pair_div {N n : Nat} (c : Fin N) (i : Fin n) : (finProdFinEquiv (c, i) : Fin (N * n)).divNat = c :=
  congrArg Prod.fst (finProdFinEquiv.symm_apply_apply (c, i))

theorem pair_mod {N n : Nat} (c : Fin N) (i : Fin n) : (finProdFinEquiv (c, i) : Fin (N * n)).modNat = i :=
  congrArg Prod.snd (finProdFinEquiv.symm_apply_apply (c, i))

theorem pair_eta {N n : Nat} (k : Fin (N * n)) : finProdFinEquiv (k.divNat, k.modNat) = k :=
  finProdFinEquiv.apply_symm_apply k

theorem scIndex_row (c : Fin N) (i : Fin n) (a : Fin 3) :
    scIndex c (Describe.row i a) = Describe.row (finProdFinEquiv (c, i)) a := by
  apply Fin.ext
  simp only [scIndex, Describe.row, finProdFinEquiv_apply_val]
  ring

theorem distinct {S : M3 ℤ} {cells : Fin N → V3 ℤ} (h : AllCells S cells) : DistinctCells S cells := by
  intro c c' hl
  exact (h (cells c)).unique (by
    convert InLattice.zero S using 1
    simp only [Lattice.sub, V3.mk.injEq]
    refine ⟨?_, ?_, ?_⟩ <;> ring) hl

theorem relates (x : Args N n) {c0 : Fin N} (hx : Polar x c0) {rel : Fin N → Fin N → Fin N}
    (hrel : ∀ i j, IsTranslation x.S x.cells i j (rel i j)) (hdet : (matrixOf x.S).det ≠ 0) :
    (multiple x rel).Relates (small x c0) (large x rel) where
  vectors := fun v => by
    change toCart (scVecs x.S x.cv) v = toCart x.cv (toCart (castM x.S) v)
    simp only [scVecs, toCart, castM, castV, V3.mk.injEq]
    refine ⟨?_, ?_, ?_⟩ <;> ring
  positions := fun k => by
    change toCart (castM x.S) (toScell x.S (scAtomR x k)) = add (x.r k.modNat) (castV ℝ (x.cells k.divNat))
    have h1 := pos_symm (castM ⟨⟨1, 0, 0⟩, ⟨0, 1, 0⟩, ⟨0, 0, 1⟩⟩) x.S hdet hx.symm (scAtomR x k)
    have e1 : trueVecs (castM ⟨⟨1, 0, 0⟩, ⟨0, 1, 0⟩, ⟨0, 0, 1⟩⟩) x.S = castM x.S := by
      simp [trueVecs, Powder.combine, castM, castV]
    rw [e1, ← toCart_combine] at h1
    rw [h1]
    simp [Powder.combine, castM, castV, scAtomR, add, add_comm]
  masses := fun _ => rfl
  atoms := fun i u => by
    obtain ⟨c, hc, hu⟩ := hx.cells u
    refine ⟨finProdFinEquiv (c, i), ⟨pair_mod c i, ?_⟩, ?_⟩
    · change InLattice x.S (Lattice.sub u (x.cells (finProdFinEquiv (c, i)).divNat))
      rw [pair_div]
      exact hc
    · rintro k ⟨hk, hl⟩
      have h1 : k.divNat = c := hu _ hl
      have h2 : k.modNat = i := hk
      rw [← pair_eta k, h1, h2]
  super := fun u => by
    constructor
    · rintro ⟨m, rfl⟩
      exact ⟨m, ⟨m, by simp [large, mulMat]⟩, rfl⟩
    · rintro ⟨v, _, rfl⟩
      exact ⟨v, rfl⟩
  cell := fun i j c => by
    have h1 := hrel i.divNat j.divNat
    have h2 := (InLattice.zero x.S).sub h1
    change InLattice x.S (Lattice.sub (x.cells (rel i.divNat j.divNat)) (add (mulMat ⟨0, 0, 0⟩ x.S)
      (Lattice.sub (x.cells j.divNat) (x.cells i.divNat))))
    convert h2 using 1
    simp only [Lattice.sub, add, mulMat, V3.mk.injEq]
    refine ⟨?_, ?_, ?_⟩ <;> ring
  bij := fun i => by
    have hb := rel_bijective (distinct hx.cells) hrel i.divNat
    constructor
    · rintro ⟨k, c⟩ ⟨k', c'⟩ e
      simp only [multiple, Prod.mk.injEq] at e
      have h1 := hb.1 e.2
      rw [Prod.mk.injEq]
      refine ⟨?_, Subsingleton.elim _ _⟩
      rw [← pair_eta k, ← pair_eta k', h1, e.1]
    · rintro ⟨j, c⟩
      obtain ⟨c', hc'⟩ := hb.2 c
      refine ⟨(finProdFinEquiv (c', j), 0), ?_⟩
      simp only [multiple, Prod.mk.injEq]
      rw [pair_mod, pair_div]
      exact ⟨rfl, hc'⟩
  fcs := fun i j c a b => by
    simp only [large, small, multiple, row_div, row_mod]

/-- Cells that are all there have translations. -/
theorem exists_rel {S : M3 ℤ} {cells : Fin N → V3 ℤ} (h : AllCells S cells) :
    ∃ rel : Fin N → Fin N → Fin N, ∀ i j, IsTranslation S cells i j (rel i j) := by
  choose rel hrel _ using fun i j => h (Lattice.sub (cells j) (cells i))
  exact ⟨rel, hrel⟩

theorem det_ne (x : Args N n) {c0 : Fin N} (hx : Polar x c0) : (matrixOf x.S).det ≠ 0 := by
  have := hx.volume
  rw [volume_trueVecs] at this
  intro h
  rw [h, zero_mul] at this
  exact lt_irrefl _ this

/-- At a wavevector that fits, the interactions of the supercell with the phases of the cells add up to that of the crystal. -/
theorem corr_sum {erfc : ℝ → ℝ} (he : IsErfc erfc) (x : Args N n) {c0 : Fin N} (hx : Polar x c0) {lam lam' : ℝ}
    (hl : 0 < lam) (hl' : 0 < lam') (q : V3 ℝ) (hq : Fits x.S q) (k l : Fin (n * 3)) :
    ∑ c, ((completeCorrection erfc (scIons x) lam' ⟨0, 0, 0⟩ (scIndex c l) (scIndex c0 k)).re : ℂ) * expQR q (x.cells c) =
      completeCorrection erfc (crystal x) lam q k l := by
  obtain ⟨rel, hrel⟩ := exists_rel hx.cells
  have hr := relates x hx hrel (det_ne x hx)
  obtain ⟨i, a, rfl⟩ := Describe.exists_row_id k
  obtain ⟨j, b, rfl⟩ := Describe.exists_row_id l
  have hv' : 0 < cellVolume (large x rel).cv := by
    have := hx.volume
    rw [← scVecs_eq] at this
    exact this
  have hC := C160_correction (born := (crystal x).born) (born' := (scIons x).born) (diel := x.diel) hr he hx.sound hv'
    (fun _ => rfl) hl hl' q (finProdFinEquiv (c0, i)) j a b
  obtain ⟨K, hK1, hK2, hK3⟩ := hq
  have hfold : (multiple x rel).fold q = castV ℝ K := by
    simp only [Multiple.fold, dot, castV, multiple, V3.mk.injEq]
    refine ⟨?_, ?_, ?_⟩
    · rw [← hK1]; ring
    · rw [← hK2]; ring
    · rw [← hK3]; ring
  have hzero : ∀ k l, completeCorrection erfc (scIons x) lam' (castV ℝ K) k l =
      completeCorrection erfc (scIons x) lam' ⟨0, 0, 0⟩ k l := by
    intro k l
    unfold completeCorrection
    rw [show rem (castV ℝ K) = rem (⟨0, 0, 0⟩ : V3 ℝ) by
      have h0 : rint (0 : ℝ) = 0 := by simpa using rint_intCast (K := ℝ) 0
      simp [rem, castV, rint_intCast, h0]]
  have hreal : ∀ k l, ((completeCorrection erfc (scIons x) lam' ⟨0, 0, 0⟩ k l).re : ℂ) =
      completeCorrection erfc (scIons x) lam' ⟨0, 0, 0⟩ l k := by
    intro k l
    have h1 := PolarGrid.corr_neg erfc (scIons x) lam' ⟨0, 0, 0⟩ k l
    have h2 := Describe.corr_herm erfc (scIons x) lam' hx.sound.symm ⟨0, 0, 0⟩ k l
    have h0 : neg (⟨0, 0, 0⟩ : V3 ℝ) = ⟨0, 0, 0⟩ := by simp [neg]
    rw [h0] at h1
    rw [h2, ← h1]
    exact Complex.conj_eq_iff_re.1 (by rw [← Complex.star_def, ← h1])
  have ho : expQR q ((multiple x rel).off (finProdFinEquiv (c0, i))) = 1 := by
    change expQR q (x.cells (finProdFinEquiv (c0, i)).divNat) = 1
    rw [pair_div, hx.origin]
    simp [expQR]
  rw [ho, one_mul, hfold] at hC
  have hh : (multiple x rel).home (finProdFinEquiv (c0, i)) = i := pair_mod c0 i
  rw [hh] at hC
  change _ = completeCorrection erfc ((small x c0).ions (crystal x).born x.diel) lam q _ _
  rw [← hC]
  refine Finset.sum_bij (fun c _ => finProdFinEquiv (c, j)) ?_ ?_ ?_ ?_
  · intro c _
    rw [Finset.mem_filter]
    exact ⟨Finset.mem_univ _, pair_mod c j⟩
  · intro c _ c' _ e
    have := finProdFinEquiv.injective e
    rw [Prod.mk.injEq] at this
    exact this.1
  · intro k hk
    refine ⟨k.divNat, Finset.mem_univ _, ?_⟩
    have h1 : k.modNat = j := (Finset.mem_filter.1 hk).2
    rw [← h1, pair_eta]
  · intro c _
    change _ = expQR q (x.cells (finProdFinEquiv (c, j)).divNat) *
      completeCorrection erfc (scIons x) lam' (castV ℝ K) _ _
    rw [hreal, hzero, scIndex_row, scIndex_row, pair_div, mul_comm]

theorem sound_supercell (x : Args N n) {c0 : Fin N} (hx : Polar x c0) : Sound (scIons x) := by
  obtain ⟨rel, hrel⟩ := exists_rel hx.cells
  have hv' : 0 < cellVolume (large x rel).cv := by
    have := hx.volume
    rw [← scVecs_eq] at this
    exact this
  exact (relates x hx hrel (det_ne x hx)).sound (born := (crystal x).born) (born' := (scIons x).born) (diel := x.diel)
    hx.sound hv'

theorem norm_phase (q : V3 ℝ) (R : V3 ℤ) : ‖expQR q R‖ = 1 := by
  have h := congrArg norm (norm_expQR q R)
  rw [norm_mul, norm_star, norm_one] at h
  nlinarith [norm_nonneg (expQR q R)]

/-! ## Theorems -/

theorem det_sum_sub (x : Args N n) {c0 : Fin N} (hx : Polar x c0) (C : Mat (N * n) ℂ) (q : V3 ℝ) (k l : Fin (n * 3)) :
    ∑ c, ((x.fcUnit * without x c0 C c k l : ℝ) : ℂ) * expQR q (x.cells c) =
      fourier x q k l - ∑ c, ((C (scIndex c l) (scIndex c0 k)).re : ℂ) * expQR q (x.cells c) := by
  unfold fourier
  rw [← Finset.sum_sub_distrib]
  refine Finset.sum_congr rfl fun c _ => ?_
  have : x.fcUnit * without x c0 C c k l = x.fcUnit * x.fc c k l - (C (scIndex c l) (scIndex c0 k)).re := by
    unfold without
    have := hx.unit
    field_simp
  rw [this]
  push_cast
  ring

/-- The function returns `without` with the sums as they are cut in the code. -/
theorem fromTotal_eq (erfc : ℝ → ℝ) (x : Args N n) {c0 : Fin N} (hx : Polar x c0) :
    fromTotal erfc x =
      .ok (without x c0 (dipoleCorrection erfc (scIons x) (upperLambda (scIons x) 1) ⟨0, 0, 0⟩)) := by
  have hN : 0 < N := lt_of_le_of_lt (Nat.zero_le _) c0.isLt
  have h0 : (⟨0, hN⟩ : Fin N) = c0 := Fin.ext hx.first.symm
  have hu := hx.unit
  unfold fromTotal
  rw [if_neg (det_ne x hx), dif_pos hN]
  dsimp only
  congr 1
  funext c k l
  simp only [reshapeCorr, without, h0, Complex.sub_re, Complex.ofReal_re]
  field_simp

/-- **C165** (partial: for symmetric supercell matrices and reduced supercells) If the sums over ions were carried to the end,
then at every wavevector that fits into the supercell the corrected force constants and the long-range correction would add up
to the Fourier sum of the total force constants, whatever the values of `dipole_parameter` in the two calculations. -/
theorem C165_exact_partial {erfc : ℝ → ℝ} (he : IsErfc erfc) (x : Args N n) {c0 : Fin N} (hx : Polar x c0) {lam lam' : ℝ}
    (hl : 0 < lam) (hl' : 0 < lam') (images : List (V3 ℤ)) (hok : ReducedSupercell x.cv x.r x.cells c0 x.S images)
    (junk : Fin N → Mat n ℝ) (q : V3 ℝ) (hq : Fits x.S q) (k l : Fin (n * 3)) :
    fcDynMat x.cv x.r x.cells c0 x.S images (fun c k l => x.fcUnit *
        without x c0 (completeCorrection erfc (scIons x) lam' ⟨0, 0, 0⟩) c k l) junk q k l +
      completeCorrection erfc (crystal x) lam q k l = fourier x q k l := by
  rw [C129_exact_partial x.cv x.r x.cells c0 x.S images hok _ junk q hq, det_sum_sub x hx,
    corr_sum he x hx hl hl' q hq]
  ring

/-- **C165** (partial: for symmetric supercell matrices and reduced supercells) With the sums as they are cut in the code: the
result differs from the Fourier sum of the total force constants at most by the error of the correction at the wavevector
and, for every cell of the supercell, the error of the correction of the supercell. -/
theorem C165_code_partial {erfc : ℝ → ℝ} (he : IsErfc erfc) (x : Args N n) {c0 : Fin N} (hx : Polar x c0) {lam : ℝ}
    (hl : 0 < lam) (images : List (V3 ℤ))
    (hok : ReducedSupercell x.cv x.r x.cells c0 x.S images) (junk : Fin N → Mat n ℝ) (q : V3 ℝ) (hq : Fits x.S q) {ε ε' : ℝ}
    (hε : ∀ k l, ‖dipoleCorrection erfc (crystal x) lam q k l - completeCorrection erfc (crystal x) lam q k l‖ ≤ ε)
    (hε' : ∀ k l, ‖dipoleCorrection erfc (scIons x) (upperLambda (scIons x) 1) ⟨0, 0, 0⟩ k l -
      completeCorrection erfc (scIons x) (upperLambda (scIons x) 1) ⟨0, 0, 0⟩ k l‖ ≤ ε') :
    ∃ fc', fromTotal erfc x = .ok fc' ∧ ∀ k l,
      ‖fcDynMat x.cv x.r x.cells c0 x.S images (fun c k l => x.fcUnit * fc' c k l) junk q k l +
        dipoleCorrection erfc (crystal x) lam q k l - fourier x q k l‖ ≤ ε + N * ε' := by
  refine ⟨_, fromTotal_eq erfc x hx, fun k l => ?_⟩
  have hn : N * n ≠ 0 := by
    have := c0.isLt
    have := k.isLt
    exact Nat.mul_ne_zero (by omega) (by omega)
  have hl' : 0 < upperLambda (scIons x) 1 := upperLambda_pos (sound_supercell x hx) hn one_pos
  rw [C129_exact_partial x.cv x.r x.cells c0 x.S images hok _ junk q hq, det_sum_sub x hx]
  set D := dipoleCorrection erfc (scIons x) (upperLambda (scIons x) 1) ⟨0, 0, 0⟩ with hD
  set C := completeCorrection erfc (scIons x) (upperLambda (scIons x) 1) ⟨0, 0, 0⟩ with hC
  have e : fourier x q k l - ∑ c, ((D (scIndex c l) (scIndex c0 k)).re : ℂ) * expQR q (x.cells c) +
      dipoleCorrection erfc (crystal x) lam q k l - fourier x q k l =
      (dipoleCorrection erfc (crystal x) lam q k l - completeCorrection erfc (crystal x) lam q k l) +
        ∑ c, (((C (scIndex c l) (scIndex c0 k)).re - (D (scIndex c l) (scIndex c0 k)).re : ℝ) : ℂ) * expQR q (x.cells c) := by
    have h1 := corr_sum he x hx hl hl' q hq k l
    rw [← hC] at h1
    rw [← h1]
    simp only [Complex.ofReal_sub, sub_mul, Finset.sum_sub_distrib]
    ring
  rw [e]
  refine (norm_add_le _ _).trans (add_le_add (hε k l) ((norm_sum_le _ _).trans ?_))
  have h2 : ∀ c ∈ Finset.univ, ‖(((C (scIndex c l) (scIndex c0 k)).re - (D (scIndex c l) (scIndex c0 k)).re : ℝ) : ℂ) *
      expQR q (x.cells c)‖ ≤ ε' := by
    intro c _
    rw [norm_mul, norm_phase, mul_one, Complex.norm_real, Real.norm_eq_abs, ← Complex.sub_re, ← abs_neg, ← Complex.neg_re,
      neg_sub]
    exact (Complex.abs_re_le_norm _).trans (hε' _ _)
  refine (Finset.sum_le_card_nsmul _ _ _ h2).trans ?_
  simp

/-- **C165** (partial: as above) With all the sums, modes at a wavevector that fits are those of the total force constants
without any dipole term. -/
theorem C165_matrix_partial {erfc : ℝ → ℝ} (he : IsErfc erfc) (x : Args N n) {c0 : Fin N} (hx : Polar x c0) {lam lam' : ℝ}
    (hl : 0 < lam) (hl' : 0 < lam') (images : List (V3 ℤ)) (hok : ReducedSupercell x.cv x.r x.cells c0 x.S images)
    (junk : Fin N → Mat n ℝ) (q : V3 ℝ) (hq : Fits x.S q) (w : Mat n ℝ) :
    weighted w (fcDynMat x.cv x.r x.cells c0 x.S images (fun c k l => x.fcUnit *
        without x c0 (completeCorrection erfc (scIons x) lam' ⟨0, 0, 0⟩) c k l) junk q)
      (some (completeCorrection erfc (crystal x) lam q)) none none =
    weighted w (fcDynMat x.cv x.r x.cells c0 x.S images (fun c k l => x.fcUnit * x.fc c k l) junk q) none none none := by
  funext k l
  have h := C165_exact_partial he x hx hl hl' images hok junk q hq k l
  have h2 := C129_exact_partial x.cv x.r x.cells c0 x.S images hok (fun c k l => x.fcUnit * x.fc c k l) junk q hq k l
  simp only [weighted, Pi.add_apply]
  rw [h, h2]
  rfl

/-- **C165** (partial: as above) A mode at a wavevector that fits into the supercell is a normal mode of the supercell in which
the force constants were calculated: displaced along it, every atom feels the force `-w^2 m u` of the total force
constants. -/
theorem C165_normal_mode_partial {erfc : ℝ → ℝ} (he : IsErfc erfc) (x : Args N n) {c0 : Fin N} (hx : Polar x c0) {lam lam' : ℝ}
    (hl : 0 < lam) (hl' : 0 < lam') (images : List (V3 ℤ)) (hok : ReducedSupercell x.cv x.r x.cells c0 x.S images)
    (junk : Fin N → Mat n ℝ) (q : V3 ℝ) (hq : Fits x.S q) {rel : Fin N → Fin N → Fin N}
    (hrel : ∀ i j, IsTranslation x.S x.cells i j (rel i j)) (m : Fin n → ℝ) (hm : ∀ i, 0 < m i) (e : Fin (n * 3) → ℂ) (v : ℂ)
    (h : ∀ k, ∑ l, weighted (massWeighting m) (fcDynMat x.cv x.r x.cells c0 x.S images (fun c k l => x.fcUnit *
        without x c0 (completeCorrection erfc (scIons x) lam' ⟨0, 0, 0⟩) c k l) junk q)
      (some (completeCorrection erfc (crystal x) lam q)) none none k l * e l = v * e k) (c : Fin N) (k : Fin (n * 3)) :
    ∑ c', ∑ l, (periodicFc (fun c k l => x.fcUnit * x.fc c k l) rel c k c' l : ℂ) *
        (e l / (√(m l.divNat) : ℝ) * expQR q (x.cells c')) =
      v * (m k.divNat : ℝ) * (e k / (√(m k.divNat) : ℝ) * expQR q (x.cells c)) := by
  rw [C165_matrix_partial he x hx hl hl' images hok junk q hq] at h
  exact C129_normal_mode_partial x.cv x.r x.cells c0 x.S images hok (distinct hx.cells) hrel _ junk q hq m hm e v h c k

/-- **C165** (partial: as above) If no displacement of the atoms of the supercell lowers the energy, then no frequency at a
wavevector that fits is imaginary. -/
theorem C165_stable_partial {erfc : ℝ → ℝ} (he : IsErfc erfc) (x : Args N n) {c0 : Fin N} (hx : Polar x c0) {lam lam' : ℝ}
    (hl : 0 < lam) (hl' : 0 < lam') (images : List (V3 ℤ)) (hok : ReducedSupercell x.cv x.r x.cells c0 x.S images)
    (junk : Fin N → Mat n ℝ) (q : V3 ℝ) (hq : Fits x.S q) {rel : Fin N → Fin N → Fin N}
    (hrel : ∀ i j, IsTranslation x.S x.cells i j (rel i j)) {op : Fin N → Fin N} {t : Fin N → V3 ℤ}
    (hs : Symmetric x.cells x.S (fun c k l => x.fcUnit * x.fc c k l) op t)
    (hE : ∀ u, 0 ≤ energy (fun c k l => x.fcUnit * x.fc c k l) rel u) (m : Fin n → ℝ) (hm : ∀ i, 0 < m i)
    {eigh : (Fin (n * 3) → Fin (n * 3) → ℂ) → (Fin (n * 3) → ℝ) × (Fin (n * 3) → Fin (n * 3) → ℂ)} (hg : IsEigh eigh)
    (s : Fin (n * 3)) :
    0 ≤ freqOf ((eigh (weighted (massWeighting m) (fcDynMat x.cv x.r x.cells c0 x.S images (fun c k l => x.fcUnit *
        without x c0 (completeCorrection erfc (scIons x) lam' ⟨0, 0, 0⟩) c k l) junk q)
      (some (completeCorrection erfc (crystal x) lam q)) none none)).1 s) := by
  rw [C165_matrix_partial he x hx hl hl' images hok junk q hq]
  exact C129_stable_partial x.cv x.r x.cells c0 x.S images hok (distinct hx.cells) hrel hs junk hE q hq m hm hg s

/-! ## Example: a chain of ions in the supercell 2x1x1 -/

namespace Ex

/-- The chain, with force constants in another unit and half charges. -/
noncomputable def x : Args 2 2 where
  cv := Describe.Ex.d.cv
  r := Describe.Ex.d.r
  fc := Describe.Ex.d.fc
  fcUnit := 3
  S := Describe.Ex.d.S
  cells := Describe.Ex.d.cells
  born := fun i a b => Describe.Ex.born i a b / 2
  bornUnit := 2
  diel := Describe.Ex.diel
  dielUnit := 1

theorem crystal_eq : crystal x = Describe.Ex.d.ions Describe.Ex.born Describe.Ex.diel := by
  simp [crystal, x, Description.ions]

theorem polar : Polar x 0 where
  sound := by
    rw [crystal_eq]
    exact Describe.Ex.sound
  volume := by
    simp [x, Describe.Ex.d, trueVecs, Powder.combine, DynMat.Ex.cv, DynMat.Ex.S, cellVolume, dot, cross]
  symm := by simp [x, Describe.Ex.d, DynMat.Ex.S, Symm]
  unit := by norm_num [x]
  cells := by
    intro u
    have key : ∀ c : Fin 2, InLattice x.S (Lattice.sub u (x.cells c)) ↔ (u.x - c.val) % 2 = 0 := by
      intro c
      constructor
      · rintro ⟨m, hm⟩
        have h1 := congrArg V3.x hm
        fin_cases c <;> simp [x, Describe.Ex.d, DynMat.Ex.S, DynMat.Ex.cells, Lattice.sub, mulMat] at h1 ⊢ <;> omega
      · intro h
        refine ⟨⟨(u.x - c.val) / 2, u.y, u.z⟩, ?_⟩
        fin_cases c <;> simp [x, Describe.Ex.d, DynMat.Ex.S, DynMat.Ex.cells, Lattice.sub, mulMat] at h ⊢ <;> omega
    rcases Int.emod_two_eq_zero_or_one u.x with h | h
    · refine ⟨0, (key 0).2 (by simpa using h), fun c hc => ?_⟩
      have := (key c).1 hc
      fin_cases c
      · rfl
      · simp at this; omega
    · refine ⟨1, (key 1).2 (by simp; omega), fun c hc => ?_⟩
      have := (key c).1 hc
      fin_cases c
      · simp at this; omega
      · rfl
  first := rfl
  origin := by simp [x, Describe.Ex.d, DynMat.Ex.cells]

/-- All the hypotheses hold together, at the boundary of the zone. -/
example (junk : Fin 2 → Mat 2 ℝ) (k l : Fin (2 * 3)) :
    fcDynMat x.cv x.r x.cells 0 x.S shells2 (fun c k l => x.fcUnit *
        without x 0 (completeCorrection erfc0 (scIons x) 2 ⟨0, 0, 0⟩) c k l) junk ⟨1 / 2, 3, -1⟩ k l +
      completeCorrection erfc0 (crystal x) 1 ⟨1 / 2, 3, -1⟩ k l = fourier x ⟨1 / 2, 3, -1⟩ k l :=
  C165_exact_partial isErfc_erfc0 x polar one_pos two_pos shells2 Describe.Ex.ok.reduced junk _ Chain.fits k l

/-- The sum of what is wrong with all elements. -/
noncomputable def wrong {n : Nat} (D C : Mat n ℂ) : ℝ := ∑ p : Fin (n * 3) × Fin (n * 3), ‖D p.1 p.2 - C p.1 p.2‖

theorem le_wrong {n : Nat} (D C : Mat n ℂ) (k l : Fin (n * 3)) : ‖D k l - C k l‖ ≤ wrong D C :=
  Finset.single_le_sum (f := fun p : Fin (n * 3) × Fin (n * 3) => ‖D p.1 p.2 - C p.1 p.2‖) (fun _ _ => norm_nonneg _)
    (Finset.mem_univ (k, l))

/-- The code's own sums, with whatever they leave out. -/
example (junk : Fin 2 → Mat 2 ℝ) : ∃ fc', fromTotal erfc0 x = .ok fc' ∧ ∀ k l,
    ‖fcDynMat x.cv x.r x.cells 0 x.S shells2 (fun c k l => x.fcUnit * fc' c k l) junk ⟨1 / 2, 3, -1⟩ k l +
        dipoleCorrection erfc0 (crystal x) 1 ⟨1 / 2, 3, -1⟩ k l - fourier x ⟨1 / 2, 3, -1⟩ k l‖ ≤
      wrong (dipoleCorrection erfc0 (crystal x) 1 ⟨1 / 2, 3, -1⟩) (completeCorrection erfc0 (crystal x) 1 ⟨1 / 2, 3, -1⟩) +
      (2 : ℕ) * wrong (dipoleCorrection erfc0 (scIons x) (upperLambda (scIons x) 1) ⟨0, 0, 0⟩)
        (completeCorrection erfc0 (scIons x) (upperLambda (scIons x) 1) ⟨0, 0, 0⟩) :=
  C165_code_partial isErfc_erfc0 x polar one_pos shells2 Describe.Ex.ok.reduced junk _ Chain.fits (le_wrong _ _) (le_wrong _ _)

/-- The Fourier sum there is not zero: three times the difference of the force constants of the two cells. -/
example : fourier x ⟨1 / 2, 3, -1⟩ 0 0 = 45 := by
  have e0 : expQR ⟨1 / 2, 3, -1⟩ (x.cells 0) = 1 := by simp [expQR, x, Describe.Ex.d, DynMat.Ex.cells]
  have e1 : expQR ⟨1 / 2, 3, -1⟩ (x.cells 1) = -1 := by
    have h : (2 : ℂ) * Real.pi * ((1 / 2 : ℝ) * ((x.cells 1).x : ℝ) + 3 * ((x.cells 1).y : ℝ) + -1 * ((x.cells 1).z : ℝ) : ℝ)
        * Complex.I = Real.pi * Complex.I := by
      simp [x, Describe.Ex.d, DynMat.Ex.cells]
      ring
    unfold expQR
    rw [h, Complex.exp_pi_mul_I]
  unfold fourier
  rw [Fin.sum_univ_two, e0, e1]
  simp [x, Describe.Ex.d, Describe.Ex.K, Fin.modNat, Fin.divNat]
  norm_num

end Ex

end Euphonic.TotalExact
