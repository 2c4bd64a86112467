import Verif.Props.DosGrid
import Mathlib.Analysis.Fourier.FiniteAbelian.PontryaginDuality

/-!
# C138: a larger cell

The same crystal and force constants can be written down in a cell that holds several copies of the smallest one.  The modes at
a wavevector of the larger cell are those of the smaller one at all the wavevectors that are folded onto it.
-/

set_option autoImplicit false
set_option linter.unusedSectionVars false

namespace Euphonic.Folding

open Euphonic.Lattice Euphonic.Supercell Euphonic.Phases Euphonic.Images Euphonic.DynMat Euphonic.Reduced
open Euphonic.Commensurate Euphonic.Acoustic Euphonic.Scatter Euphonic.Describe

/-! ## Specification -/

variable {n n' N N' nq M : Nat}

/-- A larger cell: its vectors are `P` times those of the smaller one; its atom `i` is a copy of the atom `home i` of the
smaller cell, `off i` cells away; cell `c`, as seen from atom `i` for atom `j`, is cell `s i j c` of the first description. -/
structure Multiple (n n' N N' : Nat) where
  P : M3 ℤ
  home : Fin n' → Fin n
  off : Fin n' → V3 ℤ
  s : Fin n' → Fin n' → Fin N' → Fin N

/-- The second description is the first one, with a larger cell. -/
structure Multiple.Relates (h : Multiple n n' N N') (d : Description n N) (d' : Description n' N') : Prop where
  /-- the cell is larger -/
  vectors : ∀ x, toCart d'.cv x = toCart d.cv (toCart (castM h.P) x)
  /-- the atoms are the same -/
  positions : ∀ i, toCart (castM h.P) (d'.r i) = add (d.r (h.home i)) (castV ℝ (h.off i))
  masses : ∀ i, d'.mass i = d.mass (h.home i)
  /-- each copy of an atom is in the larger cell once, up to vectors of the larger lattice -/
  atoms : ∀ i u, ∃! i', h.home i' = i ∧ InLattice h.P (sub u (h.off i'))
  /-- the supercell is the same -/
  super : ∀ u, InLattice d.S u ↔ ∃ v, InLattice d'.S v ∧ u = mulMat v h.P
  /-- the cells are the same, up to supercell vectors, and each atom of the supercell is there once -/
  cell : ∀ i j c, InLattice d.S (sub (d.cells (h.s i j c)) (add (mulMat (d'.cells c) h.P) (sub (h.off j) (h.off i))))
  bij : ∀ i, Function.Bijective fun x : Fin n' × Fin N' => (h.home x.1, h.s i x.1 x.2)
  /-- the force constants are the same -/
  fcs : ∀ i j c a b, d'.fc c (row i a) (row j b) = d.fc (h.s i j c) (row (h.home i) a) (row (h.home j) b)

/-- A wavevector in terms of the reciprocal lattice vectors of the larger cell. -/
noncomputable def Multiple.fold (h : Multiple n n' N N') (q : V3 ℝ) : V3 ℝ :=
  ⟨dot (castV ℝ h.P.a) q, dot (castV ℝ h.P.b) q, dot (castV ℝ h.P.c) q⟩

/-- The wavevectors `ks` are different, are all folded onto `q'`, and there are as many of them as there are copies of an atom
in the larger cell. -/
structure Multiple.FoldedOnto (h : Multiple n n' N N') (ks : Fin M → V3 ℝ) (q' : V3 ℝ) : Prop where
  same : ∀ m, ∃ G : V3 ℤ, h.fold (ks m) = add q' (castV ℝ G)
  distinct : ∀ m m', (∃ G : V3 ℤ, ks m' = add (ks m) (castV ℝ G)) → m = m'
  count : ∀ i, (Finset.univ.filter fun i' => h.home i' = i).card = M

/-! ## The matrix -/

section
variable {d : Description n N} {d' : Description n' N'} {h : Multiple n n' N N'}

/-- Where the cell `L` of the larger lattice is. -/
def Multiple.move (h : Multiple n n' N N') (i j : Fin n') (L : V3 ℤ) : V3 ℤ := add (mulMat L h.P) (sub (h.off j) (h.off i))

theorem Multiple.Relates.volume (hr : h.Relates d d') {images' : List (V3 ℤ)} (hok' : d'.Ok images') : det h.P ≠ 0 := by
  intro h0
  have hv := volume_ne hok'
  apply hv
  have hx : d'.cv.a = toCart d.cv (castV ℝ h.P.a) := by
    have := hr.vectors ⟨1, 0, 0⟩
    simp [toCart, castM] at this
    exact V3.ext' this.1 this.2.1 this.2.2
  have hy : d'.cv.b = toCart d.cv (castV ℝ h.P.b) := by
    have := hr.vectors ⟨0, 1, 0⟩
    simp [toCart, castM] at this
    exact V3.ext' this.1 this.2.1 this.2.2
  have hz : d'.cv.c = toCart d.cv (castV ℝ h.P.c) := by
    have := hr.vectors ⟨0, 0, 1⟩
    simp [toCart, castM] at this
    exact V3.ext' this.1 this.2.1 this.2.2
  have he : d'.cv = scVecs h.P d.cv := by
    cases hcv : d'.cv
    rw [hcv] at hx hy hz
    simp only at hx hy hz
    rw [hx, hy, hz]
    rfl
  rw [he, volume_scVecs, h0]
  simp

theorem Multiple.Relates.move_injective (hr : h.Relates d d') {images' : List (V3 ℤ)} (hok' : d'.Ok images') (i j : Fin n') :
    Function.Injective (h.move i j) := by
  intro L L' he
  unfold Multiple.move at he
  simp only [add, V3.mk.injEq] at he
  exact mulMat_injective (hr.volume hok')
    (V3.ext' (add_right_cancel he.1) (add_right_cancel he.2.1) (add_right_cancel he.2.2))

theorem mulMat_sub (S : M3 ℤ) (u v : V3 ℤ) : mulMat (sub u v) S = sub (mulMat u S) (mulMat v S) := by
  simp only [mulMat, sub, V3.mk.injEq]
  refine ⟨?_, ?_, ?_⟩ <;> ring

theorem Multiple.Relates.nearest_iff (hr : h.Relates d d') {images' : List (V3 ℤ)} (hok' : d'.Ok images') (c : Fin N')
    (i j : Fin n') (L : V3 ℤ) :
    d.IsNearestCopy (h.s i j c) (h.home i) (h.home j) (h.move i j L) ↔ d'.IsNearestCopy c i j L := by
  unfold Description.IsNearestCopy
  have h1 : sub (sub (d.r (h.home i)) (d.r (h.home j))) (castV ℝ (h.move i j L)) =
      toCart (castM h.P) (sub (sub (d'.r i) (d'.r j)) (castV ℝ L)) := by
    rw [toCart_sub, toCart_sub, hr.positions, hr.positions, ← castV_mulMat, Multiple.move]
    simp only [sub, add, castV, V3.mk.injEq]
    push_cast
    refine ⟨?_, ?_, ?_⟩ <;> ring
  have h2 : InLattice d.S (sub (h.move i j L) (d.cells (h.s i j c))) ↔ InLattice d'.S (sub L (d'.cells c)) := by
    have h3 : InLattice d.S (mulMat (sub L (d'.cells c)) h.P) ↔ InLattice d'.S (sub L (d'.cells c)) := by
      rw [hr.super]
      constructor
      · rintro ⟨v, hv, he⟩
        rwa [mulMat_injective (hr.volume hok') he]
      · intro hv
        exact ⟨_, hv, rfl⟩
    rw [← h3]
    refine InLattice.congr ?_
    have h4 := (InLattice.zero d.S).sub (hr.cell i j c)
    have he : sub (sub (h.move i j L) (d.cells (h.s i j c))) (mulMat (sub L (d'.cells c)) h.P) =
        sub ⟨0, 0, 0⟩ (sub (d.cells (h.s i j c)) (add (mulMat (d'.cells c) h.P) (sub (h.off j) (h.off i)))) := by
      simp only [Multiple.move, sub, add, mulMat, V3.mk.injEq]
      refine ⟨?_, ?_, ?_⟩ <;> ring
    rwa [he]
  rw [h1, h2, ← hr.vectors]
  refine and_congr_right fun _ => ⟨fun hn v hv => ?_, fun hn u hu => ?_⟩
  · have := hn _ ((hr.super _).2 ⟨v, hv, rfl⟩)
    rwa [castV_mulMat, ← hr.vectors] at this
  · obtain ⟨v, hv, rfl⟩ := (hr.super _).1 hu
    rw [castV_mulMat, ← hr.vectors]
    exact hn v hv

theorem Multiple.Relates.copies_eq (hr : h.Relates d d') {images images' : List (V3 ℤ)} (hok : d.Ok images)
    (hok' : d'.Ok images') (c : Fin N') (i j : Fin n') :
    d.copies images (h.s i j c) (h.home i) (h.home j) =
      (d'.copies images' c i j).map ⟨h.move i j, hr.move_injective hok' i j⟩ := by
  ext L
  rw [Finset.mem_map, mem_copies d hok]
  constructor
  · intro hL
    have h1 : InLattice d.S (sub L (add (mulMat (d'.cells c) h.P) (sub (h.off j) (h.off i)))) := by
      refine (InLattice.congr ?_).2 hL.1
      have he : sub (sub L (add (mulMat (d'.cells c) h.P) (sub (h.off j) (h.off i)))) (sub L (d.cells (h.s i j c))) =
          sub (d.cells (h.s i j c)) (add (mulMat (d'.cells c) h.P) (sub (h.off j) (h.off i))) := by
        simp only [sub, add, V3.mk.injEq]
        refine ⟨?_, ?_, ?_⟩ <;> ring
      rw [he]
      exact hr.cell i j c
    obtain ⟨v, -, hv⟩ := (hr.super _).1 h1
    have he : h.move i j (add (d'.cells c) v) = L := by
      simp only [Multiple.move, sub, add, mulMat, V3.mk.injEq] at hv ⊢
      obtain ⟨e1, e2, e3⟩ := hv
      refine V3.ext' ?_ ?_ ?_
      · simp only; linear_combination -e1
      · simp only; linear_combination -e2
      · simp only; linear_combination -e3
    rw [← he] at hL
    exact ⟨_, (mem_copies d' hok' ..).2 ((hr.nearest_iff hok' c i j _).1 hL), he⟩
  · rintro ⟨L', hL, rfl⟩
    exact (hr.nearest_iff hok' c i j L').2 ((mem_copies d' hok' ..).1 hL)

theorem Multiple.expQR_fold (h : Multiple n n' N N') (q : V3 ℝ) (L : V3 ℤ) :
    expQR (h.fold q) L = expQR q (mulMat L h.P) := by
  unfold expQR
  have : (h.fold q).x * L.x + (h.fold q).y * L.y + (h.fold q).z * L.z =
      q.x * (mulMat L h.P).x + q.y * (mulMat L h.P).y + q.z * (mulMat L h.P).z := by
    simp only [mulMat, Multiple.fold, dot, castV]
    push_cast
    ring
  rw [this]

theorem Multiple.expQR_move (h : Multiple n n' N N') (q : V3 ℝ) (i j : Fin n') (L : V3 ℤ) :
    expQR (h.fold q) L = expQR q (h.off i) * star (expQR q (h.off j)) * expQR q (h.move i j L) := by
  have : sub (h.off j) (h.off i) = add (h.off j) (DynMat.neg (h.off i)) := by
    simp only [sub, add, DynMat.neg, sub_eq_add_neg]
  rw [h.expQR_fold, Multiple.move, expQR_add, this, expQR_add, expQR_neg']
  have h1 := norm_expQR q (h.off i)
  have h2 := norm_expQR q (h.off j)
  linear_combination (-(expQR q (mulMat L h.P)) * star (expQR q (h.off j)) * expQR q (h.off j)) * h1 - expQR q (mulMat L h.P) * h2

/-- One force constant in the dynamical matrix. -/
noncomputable def term (d : Description n N) (images : List (V3 ℤ)) (q : V3 ℝ) (c : Fin N) (k l : Fin (n * 3)) : ℂ :=
  (d.fc c k l : ℂ) / ((d.copies images c k.divNat l.divNat).card : ℂ) * ∑ L ∈ d.copies images c k.divNat l.divNat, expQR q L

theorem Multiple.Relates.dynMat_eq (hr : h.Relates d d') {images images' : List (V3 ℤ)} (hok : d.Ok images)
    (hok' : d'.Ok images') (junk' : Fin N' → Mat n' ℝ) (q : V3 ℝ) (i j : Fin n') (a b : Fin 3) :
    d'.dynMat images' junk' (h.fold q) (row i a) (row j b) = expQR q (h.off i) * star (expQR q (h.off j)) *
      ∑ c, term d images q (h.s i j c) (row (h.home i) a) (row (h.home j) b) := by
  rw [dynMat_copies d' hok', Finset.mul_sum]
  refine Finset.sum_congr rfl fun c _ => ?_
  unfold term
  simp only [row_div, hr.copies_eq hok hok', Finset.card_map, Finset.sum_map, Function.Embedding.coeFn_mk, hr.fcs,
    h.expQR_move q i j]
  rw [← Finset.mul_sum]
  ring

/-- The phases of a wave. -/
noncomputable def Multiple.spread (h : Multiple n n' N N') (q : V3 ℝ) (e : Fin (n * 3) → ℂ) : Fin (n' * 3) → ℂ :=
  fun k => expQR q (h.off k.divNat) * e (row (h.home k.divNat) k.modNat)

theorem Multiple.Relates.apply (hr : h.Relates d d') {images images' : List (V3 ℤ)} (hok : d.Ok images)
    (hok' : d'.Ok images') (junk : Fin N → Mat n ℝ) (junk' : Fin N' → Mat n' ℝ) (q : V3 ℝ) (e : Fin (n * 3) → ℂ)
    (k : Fin (n' * 3)) :
    ∑ l, d'.weighted images' junk' (h.fold q) k l * h.spread q e l =
      h.spread q (fun k => ∑ l, d.weighted images junk q k l * e l) k := by
  obtain ⟨i, a, rfl⟩ := exists_row_id k
  unfold Multiple.spread
  simp only [row_div, row_mod]
  rw [sum_rows, sum_rows]
  unfold Description.weighted
  simp only [DynMat.weighted, hr.dynMat_eq hok hok', row_div, row_mod, dynMat_copies d hok]
  set F : Fin n × Fin N → ℂ := fun x => ∑ b, term d images q x.2 (row (h.home i) a) (row x.1 b) *
    (massWeighting d.mass (row (h.home i) a) (row x.1 b) : ℂ) * e (row x.1 b) with hF
  have h1 := (hr.bij i).sum_comp F
  rw [Fintype.sum_prod_type, Fintype.sum_prod_type] at h1
  have hl : ∀ j, ∑ b, expQR q (h.off i) * star (expQR q (h.off j)) *
      (∑ c, term d images q (h.s i j c) (row (h.home i) a) (row (h.home j) b)) *
        (massWeighting d'.mass (row i a) (row j b) : ℂ) * (expQR q (h.off j) * e (row (h.home j) b)) =
      expQR q (h.off i) * ∑ c, F (h.home j, h.s i j c) := by
    intro j
    simp only [hF]
    rw [Finset.sum_comm, Finset.mul_sum]
    refine Finset.sum_congr rfl fun b _ => ?_
    have hm : massWeighting d'.mass (row i a) (row j b) = massWeighting d.mass (row (h.home i) a) (row (h.home j) b) := by
      simp only [massWeighting, row_div, hr.masses]
    rw [hm]
    simp only [← Finset.sum_mul]
    have h2 := norm_expQR q (h.off j)
    linear_combination (expQR q (h.off i) * (∑ c, term d images q (h.s i j c) (row (h.home i) a) (row (h.home j) b)) *
      (massWeighting d.mass (row (h.home i) a) (row (h.home j) b) : ℂ) * e (row (h.home j) b)) * h2
  rw [Finset.sum_congr rfl fun j _ => hl j, ← Finset.mul_sum, h1]
  congr 1
  refine Finset.sum_congr rfl fun j _ => ?_
  simp only [hF]
  rw [Finset.sum_comm]
  refine Finset.sum_congr rfl fun b _ => ?_
  simp only [← Finset.sum_mul]
  unfold term
  simp only [row_div]

/-- **C138** (partial: supercells are reduced, no corrections) Each mode of the smaller cell is a mode of the larger one, with
the same frequency, at the wavevector it is folded onto. -/
theorem C138_mode_partial (hr : h.Relates d d') {images images' : List (V3 ℤ)} (hok : d.Ok images)
    (hok' : d'.Ok images') (junk : Fin N → Mat n ℝ) (junk' : Fin N' → Mat n' ℝ) (q : V3 ℝ) {e : Fin (n * 3) → ℂ} {v : ℂ}
    (he : ∀ k, ∑ l, d.weighted images junk q k l * e l = v * e k) {e' : Fin (n' * 3) → ℂ}
    (he' : ∀ i a, e' (row i a) = expQR q (h.off i) * e (row (h.home i) a)) (k : Fin (n' * 3)) :
    ∑ l, d'.weighted images' junk' (h.fold q) k l * e' l = v * e' k := by
  have h1 : e' = h.spread q e := by
    funext k
    obtain ⟨i, a, rfl⟩ := exists_row_id k
    rw [he']
    simp only [Multiple.spread, row_div, row_mod]
  rw [h1, hr.apply hok hok' junk junk']
  unfold Multiple.spread
  dsimp only
  rw [he]
  ring

end

/-! ## All modes -/

/-- Functions of a Hermitian matrix can be calculated from any basis of eigenvectors. -/
theorem spectral_basis {ι : Type} [Fintype ι] [DecidableEq ι] {A : Mat n ℂ} (hA : ∀ k l, A l k = star (A k l))
    {eigh : Mat n ℂ → (Fin (n * 3) → ℝ) × Mat n ℂ} (he : IsEigh eigh) {U : Matrix (Fin (n * 3)) ι ℂ} {x : ι → ℝ}
    (o' : U * U.conjTranspose = 1)
    (e : Matrix.of A * U = U * Matrix.diagonal fun s => (x s : ℂ)) (g : ℝ → ℝ) :
    Matrix.of (spectral (eigh A) g) = U * (Matrix.diagonal fun s => (g (x s) : ℂ)) * U.conjTranspose := by
  set E : Matrix (Fin (n * 3)) (Fin (n * 3)) ℂ := Matrix.of fun k s => (eigh A).2 s k with hE
  set D : Matrix (Fin (n * 3)) (Fin (n * 3)) ℂ := Matrix.diagonal fun s => ((eigh A).1 s : ℂ) with hD
  have oE : E.conjTranspose * E = 1 := by
    ext s s'
    rw [Matrix.mul_apply, Matrix.one_apply]
    exact he.ortho A hA s s'
  have oE' : E * E.conjTranspose = 1 := mul_eq_one_comm.1 oE
  have eE : Matrix.of A * E = E * D := by
    ext k s
    rw [Matrix.mul_apply, hD, Matrix.mul_diagonal]
    refine (he.eigen A hA s k).trans ?_
    rw [hE, Matrix.of_apply, mul_comm]
  have herm : (Matrix.of A).conjTranspose = Matrix.of A := by
    ext k l
    rw [Matrix.conjTranspose_apply]
    exact (hA l k).symm
  have hDh : D.conjTranspose = D := by
    rw [hD, Matrix.diagonal_conjTranspose]
    congr 1
    ext s
    simp
  set C := E.conjTranspose * U with hC
  have hcomm : D * C = C * Matrix.diagonal fun s => (x s : ℂ) := by
    have h1 : E.conjTranspose * Matrix.of A = D * E.conjTranspose := by
      have := congrArg Matrix.conjTranspose eE
      rwa [Matrix.conjTranspose_mul (Matrix.of A) E, Matrix.conjTranspose_mul E D, herm, hDh] at this
    rw [hC, ← Matrix.mul_assoc, ← h1, Matrix.mul_assoc, e, Matrix.mul_assoc]
  have hcommG : (Matrix.diagonal fun s => (g ((eigh A).1 s) : ℂ)) * C = C * Matrix.diagonal fun s => (g (x s) : ℂ) := by
    ext s t
    have := congrFun (congrFun hcomm s) t
    rw [hD, Matrix.diagonal_mul, Matrix.mul_diagonal] at this
    rw [Matrix.diagonal_mul, Matrix.mul_diagonal]
    by_cases hst : (eigh A).1 s = x t
    · rw [hst, mul_comm]
    · have h0 : (((eigh A).1 s : ℂ) - x t) * C s t = 0 := by
        rw [sub_mul, this]
        ring
      rcases mul_eq_zero.1 h0 with h1 | h1
      · exact absurd (by exact_mod_cast sub_eq_zero.1 h1) hst
      · rw [h1, mul_zero, zero_mul]
  have hsp : Matrix.of (spectral (eigh A) g) = E * (Matrix.diagonal fun s => (g ((eigh A).1 s) : ℂ)) * E.conjTranspose := by
    ext k l
    rw [Matrix.mul_apply]
    simp only [Matrix.mul_diagonal, hE, Matrix.of_apply, Matrix.conjTranspose_apply]
    refine Finset.sum_congr rfl fun s _ => ?_
    ring
  have hU : U = E * C := by rw [hC, ← Matrix.mul_assoc, oE', Matrix.one_mul]
  have hEU : E.conjTranspose = C * U.conjTranspose := by rw [hC, Matrix.mul_assoc, o', Matrix.mul_one]
  rw [hsp, hEU, Matrix.mul_assoc, ← Matrix.mul_assoc _ C, hcommG, Matrix.mul_assoc C, ← Matrix.mul_assoc E, ← hU, Matrix.mul_assoc]

section
variable {d : Description n N} {d' : Description n' N'} {h : Multiple n n' N N'}

/-- Waves of different wavelength are orthogonal. -/
theorem Multiple.Relates.character (hr : h.Relates d d') {δ : V3 ℝ} (hf : Fits h.P δ) (hne : ¬ ∃ G : V3 ℤ, δ = castV ℝ G)
    (F : Fin n → ℂ) : ∑ i, F (h.home i) * expQR δ (h.off i) = 0 := by
  -- a translation that changes the phase
  obtain ⟨y, hy⟩ : ∃ y : V3 ℤ, expQR δ y ≠ 1 := by
    by_contra hc
    push Not at hc
    apply hne
    have hx : ∀ t : ℝ, Complex.exp (2 * Real.pi * (t : ℂ) * Complex.I) = 1 → ∃ z : ℤ, t = z := by
      intro t ht
      rw [Complex.exp_eq_one_iff] at ht
      obtain ⟨z, hz⟩ := ht
      refine ⟨z, ?_⟩
      have h2 : (2 * Real.pi * Complex.I : ℂ) ≠ 0 := Complex.two_pi_I_ne_zero
      have : (2 * Real.pi * Complex.I : ℂ) * t = (2 * Real.pi * Complex.I) * z := by linear_combination hz
      exact_mod_cast mul_left_cancel₀ h2 this
    obtain ⟨zx, h1⟩ := hx δ.x (by have := hc ⟨1, 0, 0⟩; simpa [expQR] using this)
    obtain ⟨zy, h2⟩ := hx δ.y (by have := hc ⟨0, 1, 0⟩; simpa [expQR] using this)
    obtain ⟨zz, h3⟩ := hx δ.z (by have := hc ⟨0, 0, 1⟩; simpa [expQR] using this)
    refine ⟨⟨zx, zy, zz⟩, V3.ext' ?_ ?_ ?_⟩ <;> simp [castV, h1, h2, h3]
  choose p hp hpu using fun i => hr.atoms (h.home i) (add (h.off i) y)
  have hinj : Function.Injective p := by
    intro i j hij
    obtain ⟨h1, h2⟩ := hp i
    obtain ⟨h3, h4⟩ := hp j
    rw [← hij] at h3 h4
    obtain ⟨k, -, hk⟩ := hr.atoms (h.home i) (h.off i)
    have e1 : i = k := hk i ⟨rfl, by
      have : sub (h.off i) (h.off i) = ⟨0, 0, 0⟩ := by simp [sub]
      rw [this]
      exact InLattice.zero _⟩
    have e2 : j = k := hk j ⟨by rw [← h1, h3], by
      have := h2.sub h4
      have he : sub (sub (add (h.off i) y) (h.off (p i))) (sub (add (h.off j) y) (h.off (p i))) = sub (h.off i) (h.off j) := by
        simp only [sub, add, V3.mk.injEq]
        refine ⟨?_, ?_, ?_⟩ <;> ring
      rwa [he] at this⟩
    rw [e1, e2]
  have hbij : Function.Bijective p := Finite.injective_iff_bijective.1 hinj
  have hS := hbij.sum_comp fun i => F (h.home i) * expQR δ (h.off i)
  have hterm : ∀ i, F (h.home (p i)) * expQR δ (h.off (p i)) = expQR δ y * (F (h.home i) * expQR δ (h.off i)) := by
    intro i
    obtain ⟨h1, h2⟩ := hp i
    have h3 := expQR_lattice hf _ h2
    have h4 : expQR δ (add (h.off i) y) = expQR δ (h.off (p i)) := by
      have : add (h.off i) y = add (sub (add (h.off i) y) (h.off (p i))) (h.off (p i)) := by
        simp only [sub, add, V3.mk.injEq]
        refine ⟨?_, ?_, ?_⟩ <;> ring
      rw [this, expQR_add, h3, one_mul]
    rw [h1, ← h4, expQR_add]
    ring
  simp only [hterm] at hS
  rw [← Finset.mul_sum] at hS
  have h0 : (expQR δ y - 1) * ∑ i, F (h.home i) * expQR δ (h.off i) = 0 := by linear_combination hS
  rcases mul_eq_zero.1 h0 with h1 | h1
  · exact absurd (sub_eq_zero.1 h1) hy
  · exact h1

theorem expQR_sub_left (q q' : V3 ℝ) (R : V3 ℤ) : expQR (sub q' q) R = star (expQR q R) * expQR q' R := by
  rw [← expQR_neg']
  unfold expQR
  rw [← Complex.exp_add]
  congr 1
  simp only [sub, DynMat.neg]
  push_cast
  ring

/-- Number of atoms. -/
theorem Multiple.FoldedOnto.atoms {ks : Fin M → V3 ℝ} {q' : V3 ℝ} (hq : h.FoldedOnto ks q') : n' = M * n := by
  have := Finset.card_eq_sum_card_fiberwise (f := h.home) (s := Finset.univ) (t := Finset.univ) (fun _ _ => Finset.mem_univ _)
  rw [Finset.card_univ, Fintype.card_fin] at this
  rw [this, Finset.sum_congr rfl fun i _ => hq.count i]
  simp [mul_comm]

theorem Multiple.FoldedOnto.sum_home {ks : Fin M → V3 ℝ} {q' : V3 ℝ} (hq : h.FoldedOnto ks q') {R : Type} [CommSemiring R]
    (F : Fin n → R) : ∑ i, F (h.home i) = M * ∑ i, F i := by
  rw [← Finset.sum_fiberwise_of_maps_to (s := Finset.univ) (t := Finset.univ) (g := h.home) (fun _ _ => Finset.mem_univ _),
    Finset.mul_sum]
  refine Finset.sum_congr rfl fun i _ => ?_
  rw [Finset.sum_congr rfl fun x hx => by rw [(Finset.mem_filter.1 hx).2], Finset.sum_const, hq.count, nsmul_eq_mul]

theorem Multiple.FoldedOnto.differ {ks : Fin M → V3 ℝ} {q' : V3 ℝ} (hq : h.FoldedOnto ks q') {m m' : Fin M} (hm : m ≠ m') :
    Fits h.P (sub (ks m') (ks m)) ∧ ¬ ∃ G : V3 ℤ, sub (ks m') (ks m) = castV ℝ G := by
  constructor
  · obtain ⟨G, hG⟩ := hq.same m
    obtain ⟨G', hG'⟩ := hq.same m'
    simp only [Multiple.fold, dot, castV, add, V3.mk.injEq] at hG hG'
    refine ⟨sub G' G, ?_, ?_, ?_⟩ <;> simp only [sub] <;> push_cast
    · linear_combination hG'.1 - hG.1
    · linear_combination hG'.2.1 - hG.2.1
    · linear_combination hG'.2.2 - hG.2.2
  · rintro ⟨G, hG⟩
    refine hm (hq.distinct m m' ⟨G, ?_⟩)
    rw [← hG]
    simp only [add, sub]
    exact V3.ext' (by ring) (by ring) (by ring)

/-- The modes of the smaller cell as modes of the larger one. -/
noncomputable def Multiple.basis (h : Multiple n n' N N') (ks : Fin M → V3 ℝ) (E : Fin M → Mat n ℂ) :
    Matrix (Fin (n' * 3)) (Fin M × Fin (n * 3)) ℂ :=
  Matrix.of fun k x => h.spread (ks x.1) (E x.1 x.2) k / (√(M : ℝ) : ℝ)

theorem Multiple.Relates.orthonormal (hr : h.Relates d d') {ks : Fin M → V3 ℝ} {q' : V3 ℝ} (hq : h.FoldedOnto ks q')
    (E : Fin M → Mat n ℂ) (hE : ∀ m s s', ∑ k, star (E m s k) * E m s' k = if s = s' then 1 else 0) :
    (h.basis ks E).conjTranspose * h.basis ks E = 1 := by
  ext ⟨m, s⟩ ⟨m', s'⟩
  have hM : 0 < M := m.pos
  have hM0 : (M : ℂ) ≠ 0 := by exact_mod_cast hM.ne'
  have hsq : ((√(M : ℝ) : ℝ) : ℂ) * (√(M : ℝ) : ℝ) = M := by
    rw [← Complex.ofReal_mul, Real.mul_self_sqrt (by positivity)]
    simp
  have hsq0 : ((√(M : ℝ) : ℝ) : ℂ) ≠ 0 := by
    intro h0
    rw [h0, zero_mul] at hsq
    exact hM0 hsq.symm
  rw [Matrix.mul_apply, Matrix.one_apply, sum_rows]
  have h1 : ∀ i a, (h.basis ks E).conjTranspose (m, s) (row i a) * h.basis ks E (row i a) (m', s') =
      star (E m s (row (h.home i) a)) * E m' s' (row (h.home i) a) * expQR (sub (ks m') (ks m)) (h.off i) / M := by
    intro i a
    simp only [Matrix.conjTranspose_apply, Multiple.basis, Matrix.of_apply, Multiple.spread, row_div, row_mod, expQR_sub_left]
    rw [← hsq, star_div₀, star_mul', show star (((√(M : ℝ) : ℝ) : ℂ)) = (√(M : ℝ) : ℝ) from Complex.conj_ofReal _]
    field_simp
  simp only [h1, ← Finset.sum_div]
  by_cases hm : m = m'
  · subst hm
    have h0 : ∀ i, expQR (sub (ks m) (ks m)) (h.off i) = 1 := fun i => by simp [expQR, sub]
    simp only [h0, mul_one]
    rw [hq.sum_home fun i => ∑ a, star (E m s (row i a)) * E m s' (row i a), ← sum_rows fun k => star (E m s k) * E m s' k, hE,
      mul_div_assoc]
    by_cases hs : s = s'
    · simp [hs, hM0]
    · simp [hs]
  · rw [if_neg (fun e => hm (Prod.mk.inj e).1)]
    obtain ⟨hfit, hne⟩ := hq.differ hm
    have := hr.character hfit hne fun i => ∑ a, star (E m s (row i a)) * E m' s' (row i a)
    simp only [Finset.sum_mul] at this
    rw [this, zero_div]

theorem Multiple.Relates.complete (hr : h.Relates d d') {ks : Fin M → V3 ℝ} {q' : V3 ℝ} (hq : h.FoldedOnto ks q')
    (E : Fin M → Mat n ℂ) (hE : ∀ m s s', ∑ k, star (E m s k) * E m s' k = if s = s' then 1 else 0) :
    h.basis ks E * (h.basis ks E).conjTranspose = 1 := by
  refine (Matrix.mul_eq_one_comm_of_card_eq (Fin M × Fin (n * 3)) (Fin (n' * 3)) ℂ ?_).1 (hr.orthonormal hq E hE)
  simp [hq.atoms, mul_assoc]

variable {images images' : List (V3 ℤ)} (hok : d.Ok images) (hok' : d'.Ok images')
  {op : Fin N → Fin N} {t : Fin N → V3 ℤ} (hs : Symmetric d.cells d.S d.fc op t) {op' : Fin N' → Fin N'} {t' : Fin N' → V3 ℤ}
  (hs' : Symmetric d'.cells d'.S d'.fc op' t') (junk : Fin N → Mat n ℝ) (junk' : Fin N' → Mat n' ℝ)
  {eigh : Mat n ℂ → (Fin (n * 3) → ℝ) × Mat n ℂ} (he : IsEigh eigh)
  {eigh' : Mat n' ℂ → (Fin (n' * 3) → ℝ) × Mat n' ℂ} (he' : IsEigh eigh')
include hok hok' hs hs' he he'

/-- Functions of the larger matrix. -/
theorem Multiple.Relates.spectral_of (hr : h.Relates d d') {ks : Fin M → V3 ℝ} {q' : V3 ℝ} (hq : h.FoldedOnto ks q') (g : ℝ → ℝ) :
    let E := fun m => (eigh (d.weighted images junk (ks m))).2
    Matrix.of (spectral (eigh' (d'.weighted images' junk' q')) g) = h.basis ks E *
      (Matrix.diagonal fun x : Fin M × Fin (n * 3) => (g ((eigh (d.weighted images junk (ks x.1))).1 x.2) : ℂ)) *
      (h.basis ks E).conjTranspose := by
  intro E
  have hE : ∀ m s s', ∑ k, star (E m s k) * E m s' k = if s = s' then 1 else 0 :=
    fun m s s' => he.ortho _ (d.hermitian hok hs junk (ks m)) s s'
  refine spectral_basis (x := fun x : Fin M × Fin (n * 3) => (eigh (d.weighted images junk (ks x.1))).1 x.2)
    (d'.hermitian hok' hs' junk' q') he' (hr.complete hq E hE) ?_ g
  ext k ⟨m, s⟩
  rw [Matrix.mul_apply, Matrix.mul_diagonal]
  obtain ⟨G, hG⟩ := hq.same m
  have hw : d'.weighted images' junk' q' = d'.weighted images' junk' (h.fold (ks m)) := by
    rw [hG, DebyeSym.weighted_periodic]
  have h1 := hr.apply hok hok' junk junk' (ks m) (E m s) k
  have h2 : (fun k => ∑ l, d.weighted images junk (ks m) k l * E m s l) = fun k => ((eigh (d.weighted images junk (ks m))).1 s : ℂ) * E m s k :=
    funext fun k => he.eigen _ (d.hermitian hok hs junk (ks m)) s k
  rw [h2] at h1
  simp only [Multiple.basis, Matrix.of_apply]
  rw [hw]
  simp only [← mul_div_assoc, ← Finset.sum_div, h1]
  unfold Multiple.spread
  ring

theorem Multiple.Relates.spectral_entry (hr : h.Relates d d') {ks : Fin M → V3 ℝ} {q' : V3 ℝ} (hq : h.FoldedOnto ks q') (g : ℝ → ℝ)
    (i j : Fin n') (a b : Fin 3) :
    spectral (eigh' (d'.weighted images' junk' q')) g (row i a) (row j b) =
      (∑ m, expQR (ks m) (h.off i) * star (expQR (ks m) (h.off j)) *
        spectral (eigh (d.weighted images junk (ks m))) g (row (h.home i) a) (row (h.home j) b)) / M := by
  have hsq : ((√(M : ℝ) : ℝ) : ℂ) * (√(M : ℝ) : ℝ) = M := by
    rw [← Complex.ofReal_mul, Real.mul_self_sqrt (by positivity)]
    simp
  have := congrFun (congrFun (hr.spectral_of hok hok' hs hs' junk junk' he he' hq g) (row i a)) (row j b)
  rw [Matrix.of_apply] at this
  rw [this, Matrix.mul_apply, Fintype.sum_prod_type, Finset.sum_div]
  refine Finset.sum_congr rfl fun m _ => ?_
  unfold spectral
  rw [Finset.mul_sum, Finset.sum_div]
  refine Finset.sum_congr rfl fun s _ => ?_
  simp only [Matrix.mul_diagonal, Matrix.conjTranspose_apply, Multiple.basis, Matrix.of_apply, Multiple.spread, row_div, row_mod]
  rw [← hsq, star_div₀, star_mul', show star (((√(M : ℝ) : ℝ) : ℂ)) = (√(M : ℝ) : ℝ) from Complex.conj_ofReal _]
  generalize ((√(M : ℝ) : ℝ) : ℂ) = r
  rw [div_mul_eq_mul_div, div_mul_div_comm]
  congr 1
  ring

/-- Sums over modes. -/
theorem Multiple.Relates.sum_modes (hr : h.Relates d d') {ks : Fin M → V3 ℝ} {q' : V3 ℝ} (hq : h.FoldedOnto ks q') (g : ℝ → ℝ) :
    ∑ s, g ((eigh' (d'.weighted images' junk' q')).1 s) = ∑ m, ∑ s, g ((eigh (d.weighted images junk (ks m))).1 s) := by
  have h1 := congrArg Matrix.trace (hr.spectral_of hok hok' hs hs' junk junk' he he' hq g)
  have hE : ∀ m s s', ∑ k, star ((eigh (d.weighted images junk (ks m))).2 s k) * (eigh (d.weighted images junk (ks m))).2 s' k =
      if s = s' then 1 else 0 := fun m s s' => he.ortho _ (d.hermitian hok hs junk (ks m)) s s'
  rw [Matrix.trace_mul_comm, ← Matrix.mul_assoc, hr.orthonormal hq _ hE, Matrix.one_mul, Matrix.trace_diagonal,
    Fintype.sum_prod_type] at h1
  have h2 : Matrix.trace (Matrix.of (spectral (eigh' (d'.weighted images' junk' q')) g)) =
      ∑ s, ((g ((eigh' (d'.weighted images' junk' q')).1 s) : ℝ) : ℂ) := by
    unfold Matrix.trace spectral
    simp only [Matrix.diag_apply, Matrix.of_apply]
    rw [Finset.sum_comm]
    refine Finset.sum_congr rfl fun s _ => ?_
    rw [← Finset.mul_sum]
    have := he'.ortho _ (d'.hermitian hok' hs' junk' q') s s
    rw [if_pos rfl] at this
    rw [Finset.sum_congr rfl fun k _ => mul_comm _ _, this, mul_one]
  rw [h2] at h1
  exact_mod_cast h1

/-- **C138** (partial: supercells are reduced, no corrections) The frequencies of the larger cell at a wavevector are those of
the smaller cell at all the wavevectors that are folded onto it, with their multiplicities. -/
theorem C138_frequencies_partial (hr : h.Relates d d') {ks : Fin M → V3 ℝ} {q' : V3 ℝ} (hq : h.FoldedOnto ks q') :
    (Finset.univ.val.map fun s => freqOf ((eigh' (d'.weighted images' junk' q')).1 s)) =
      ∑ m, Finset.univ.val.map fun s => freqOf ((eigh (d.weighted images junk (ks m))).1 s) := by
  classical
  ext f
  have h1 := hr.sum_modes hok hok' hs hs' junk junk' he he' hq fun x => if f = freqOf x then 1 else 0
  rw [Multiset.count_sum']
  simp only [Multiset.count_map]
  have h2 : ∀ {k : Nat} (x : Fin k → ℝ), ((Multiset.card (Multiset.filter (fun s => f = freqOf (x s)) Finset.univ.val) : ℕ) : ℝ) =
      ∑ s, if f = freqOf (x s) then (1 : ℝ) else 0 := by
    intro k x
    rw [Finset.sum_ite, Finset.sum_const_zero, add_zero, Finset.sum_const, nsmul_eq_mul, mul_one]
    rfl
  have h3 : ((Multiset.card (Multiset.filter (fun s => f = freqOf ((eigh' (d'.weighted images' junk' q')).1 s)) Finset.univ.val) : ℕ) : ℝ) =
      ((∑ m, Multiset.card (Multiset.filter (fun s => f = freqOf ((eigh (d.weighted images junk (ks m))).1 s)) Finset.univ.val) : ℕ) : ℝ) := by
    push_cast
    rw [h2, h1]
    exact Finset.sum_congr rfl fun m _ => (h2 _).symm
  exact_mod_cast h3

end

/-! ## Wavevectors that are folded onto the same one -/

/-- Vectors of the larger lattice, in units of the smaller cell. -/
def sublattice (P : M3 ℤ) : AddSubgroup (ℤ × ℤ × ℤ) where
  carrier := {t | InLattice P ⟨t.1, t.2.1, t.2.2⟩}
  zero_mem' := InLattice.zero _
  add_mem' := fun {a b} ha hb => by
    have := InLattice.sub ha ((InLattice.zero P).sub hb)
    have he : sub (⟨a.1, a.2.1, a.2.2⟩ : V3 ℤ) (sub ⟨0, 0, 0⟩ ⟨b.1, b.2.1, b.2.2⟩) = ⟨(a + b).1, (a + b).2.1, (a + b).2.2⟩ := by
      simp [sub]
    rwa [he] at this
  neg_mem' := fun {a} ha => by
    have := (InLattice.zero P).sub ha
    have he : sub ⟨0, 0, 0⟩ (⟨a.1, a.2.1, a.2.2⟩ : V3 ℤ) = ⟨(-a).1, (-a).2.1, (-a).2.2⟩ := by
      simp [sub]
    rwa [he] at this

/-- A wavevector with the phases of a character. -/
theorem exists_wave {P : M3 ℤ} [Finite ((ℤ × ℤ × ℤ) ⧸ sublattice P)] (ψ : AddChar ((ℤ × ℤ × ℤ) ⧸ sublattice P) ℂ) :
    ∃ k : V3 ℝ, ∀ R : V3 ℤ, expQR k R = ψ ((R.x, R.y, R.z) : ℤ × ℤ × ℤ) := by
  have hu : ∀ z : ℂ, ‖z‖ = 1 → ∃ t : ℝ, Complex.exp (2 * Real.pi * t * Complex.I) = z := by
    intro z hz
    obtain ⟨t, ht⟩ := (Complex.norm_eq_one_iff z).1 hz
    refine ⟨t / (2 * Real.pi), ?_⟩
    rw [← ht]
    congr 1
    have : (Real.pi : ℂ) ≠ 0 := by exact_mod_cast Real.pi_ne_zero
    push_cast
    field_simp
  obtain ⟨x, hx⟩ := hu _ (ψ.norm_apply (((1, 0, 0) : ℤ × ℤ × ℤ) : (ℤ × ℤ × ℤ) ⧸ sublattice P))
  obtain ⟨y, hy⟩ := hu _ (ψ.norm_apply (((0, 1, 0) : ℤ × ℤ × ℤ) : (ℤ × ℤ × ℤ) ⧸ sublattice P))
  obtain ⟨z, hz⟩ := hu _ (ψ.norm_apply (((0, 0, 1) : ℤ × ℤ × ℤ) : (ℤ × ℤ × ℤ) ⧸ sublattice P))
  refine ⟨⟨x, y, z⟩, fun R => ?_⟩
  have hR : ((R.x, R.y, R.z) : ℤ × ℤ × ℤ) = R.x • ((1, 0, 0) : ℤ × ℤ × ℤ) + (R.y • ((0, 1, 0) : ℤ × ℤ × ℤ) + R.z • ((0, 0, 1) : ℤ × ℤ × ℤ)) := by
    simp
  rw [hR, QuotientAddGroup.mk_add, QuotientAddGroup.mk_add, QuotientAddGroup.mk_zsmul, QuotientAddGroup.mk_zsmul,
    QuotientAddGroup.mk_zsmul, AddChar.map_add_eq_mul, AddChar.map_add_eq_mul, AddChar.map_zsmul_eq_zpow, AddChar.map_zsmul_eq_zpow,
    AddChar.map_zsmul_eq_zpow, ← hx, ← hy, ← hz, ← Complex.exp_int_mul, ← Complex.exp_int_mul, ← Complex.exp_int_mul,
    ← Complex.exp_add, ← Complex.exp_add]
  unfold expQR
  congr 1
  push_cast
  ring

section
variable {d : Description n N} {d' : Description n' N'} {h : Multiple n n' N N'}

theorem int_of_exp {t : ℝ} (ht : Complex.exp (2 * Real.pi * (t : ℂ) * Complex.I) = 1) : ∃ z : ℤ, t = z := by
  rw [Complex.exp_eq_one_iff] at ht
  obtain ⟨z, hz⟩ := ht
  refine ⟨z, ?_⟩
  have h2 : (2 * Real.pi * Complex.I : ℂ) ≠ 0 := Complex.two_pi_I_ne_zero
  have : (2 * Real.pi * Complex.I : ℂ) * t = (2 * Real.pi * Complex.I) * z := by linear_combination hz
  exact_mod_cast mul_left_cancel₀ h2 this

/-- Every wavevector is one of those that are folded onto the same one: the hypothesis of the theorems can always be met. -/
theorem Multiple.Relates.exists_folded (hr : h.Relates d d') (q : V3 ℝ) :
    ∃ (M : Nat) (ks : Fin M → V3 ℝ), h.FoldedOnto ks (h.fold q) ∧ ∃ m, ks m = q := by
  rcases Nat.eq_zero_or_pos n with rfl | hn
  · refine ⟨1, fun _ => q, ⟨fun _ => ⟨⟨0, 0, 0⟩, by simp [add, castV]⟩, fun m m' _ => Subsingleton.elim _ _, fun i => i.elim0⟩,
      0, rfl⟩
  -- the copies of an atom are the elements of the quotient
  have hbij : ∀ i : Fin n, Function.Bijective fun x : {i' : Fin n' // h.home i' = i} =>
      (((h.off x).x, (h.off x).y, (h.off x).z) : (ℤ × ℤ × ℤ) ⧸ sublattice h.P) := by
    intro i
    constructor
    · rintro ⟨x, hx⟩ ⟨y, hy⟩ he
      have h1 : InLattice h.P (sub (h.off y) (h.off x)) := by
        have := QuotientAddGroup.eq.1 he
        have e : sub (h.off y) (h.off x) = ⟨-(h.off x).x + (h.off y).x, -(h.off x).y + (h.off y).y, -(h.off x).z + (h.off y).z⟩ := by
          simp only [sub, V3.mk.injEq]
          refine ⟨?_, ?_, ?_⟩ <;> ring
        rw [e]
        exact this
      obtain ⟨k, -, hk⟩ := hr.atoms i (h.off y)
      have e0 : sub (h.off y) (h.off y) = ⟨0, 0, 0⟩ := by simp [sub]
      have e1 : x = k := hk x ⟨hx, h1⟩
      have e2 : y = k := hk y ⟨hy, by rw [e0]; exact InLattice.zero _⟩
      exact Subtype.ext (e1.trans e2.symm)
    · intro g
      obtain ⟨⟨a, b, c⟩, rfl⟩ := QuotientAddGroup.mk_surjective g
      obtain ⟨k, ⟨hk, hl⟩, -⟩ := hr.atoms i ⟨a, b, c⟩
      refine ⟨⟨k, hk⟩, QuotientAddGroup.eq.2 ?_⟩
      have e : (-((h.off k).x, (h.off k).y, (h.off k).z) + (a, b, c) : ℤ × ℤ × ℤ) =
          (a - (h.off k).x, b - (h.off k).y, c - (h.off k).z) := by
        simp only [Prod.neg_mk, Prod.mk_add_mk, Prod.mk.injEq]
        refine ⟨?_, ?_, ?_⟩ <;> ring
      rw [e]
      exact hl
  have : Finite ((ℤ × ℤ × ℤ) ⧸ sublattice h.P) := Finite.of_surjective _ (hbij ⟨0, hn⟩).2
  have := Fintype.ofFinite ((ℤ × ℤ × ℤ) ⧸ sublattice h.P)
  set G := (ℤ × ℤ × ℤ) ⧸ sublattice h.P with hG
  choose kk hkk using fun ψ : AddChar G ℂ => exists_wave ψ
  classical
  -- all characters; the trivial one stands for `q` itself
  set M := Fintype.card (AddChar G ℂ) with hM
  let e : Fin M ≃ AddChar G ℂ := (Fintype.equivFin _).symm
  let ks : Fin M → V3 ℝ := fun m => if e m = 1 then q else add q (kk (e m))
  have hphase : ∀ m R, expQR (ks m) R = expQR q R * e m ((R.x, R.y, R.z) : ℤ × ℤ × ℤ) := by
    intro m R
    simp only [ks]
    split
    · rename_i h1
      rw [h1, AddChar.one_apply, mul_one]
    · rw [← hkk]
      unfold expQR
      rw [← Complex.exp_add]
      congr 1
      simp only [add]
      push_cast
      ring
  refine ⟨M, ks, ⟨fun m => ?_, fun m m' hmm => ?_, fun i => ?_⟩, e.symm 1, by simp [ks]⟩
  · have hl : ∀ u : V3 ℤ, InLattice h.P u → expQR (sub (ks m) q) u = 1 := by
      intro u hu
      rw [expQR_sub_left, hphase]
      have h0 : (((u.x, u.y, u.z) : ℤ × ℤ × ℤ) : G) = 0 := (QuotientAddGroup.eq_zero_iff _).2 hu
      rw [h0, AddChar.map_zero_eq_one, mul_one]
      exact norm_expQR q u
    have hz : ∀ u : V3 ℤ, InLattice h.P u → ∃ z : ℤ, dot (castV ℝ u) (sub (ks m) q) = z := by
      intro u hu
      apply int_of_exp
      rw [← hl u hu]
      unfold expQR
      congr 1
      simp only [dot, castV]
      push_cast
      ring
    obtain ⟨zx, hzx⟩ := hz h.P.a ⟨⟨1, 0, 0⟩, by simp [mulMat]⟩
    obtain ⟨zy, hzy⟩ := hz h.P.b ⟨⟨0, 1, 0⟩, by simp [mulMat]⟩
    obtain ⟨zz, hzz⟩ := hz h.P.c ⟨⟨0, 0, 1⟩, by simp [mulMat]⟩
    refine ⟨⟨zx, zy, zz⟩, ?_⟩
    simp only [dot, sub] at hzx hzy hzz
    simp only [Multiple.fold, add, castV, dot] at hzx hzy hzz ⊢
    refine V3.ext' ?_ ?_ ?_ <;> dsimp only
    · linear_combination hzx
    · linear_combination hzy
    · linear_combination hzz
  · obtain ⟨K, hK⟩ := hmm
    apply e.injective
    ext g
    obtain ⟨⟨a, b, c⟩, rfl⟩ := QuotientAddGroup.mk_surjective g
    have h1 := hphase m ⟨a, b, c⟩
    have h2 := hphase m' ⟨a, b, c⟩
    have h3 : expQR (ks m') ⟨a, b, c⟩ = expQR (ks m) ⟨a, b, c⟩ := by
      rw [hK]
      exact expQR_periodic _ _ _
    rw [h3, h1] at h2
    refine mul_left_cancel₀ ?_ h2
    unfold expQR
    exact Complex.exp_ne_zero _
  · rw [hM, AddChar.card_eq, ← Fintype.card_of_bijective (hbij i), Fintype.card_subtype]

end

/-! ## Results -/

/-- The wavevectors of the smaller cell, one after another. -/
def flatten {α : Type} (ks : Fin nq → Fin M → α) : Fin (nq * M) → α := fun x => ks x.divNat x.modNat

theorem sum_flatten {α : Type} (ks : Fin nq → Fin M → α) (F : α → Fin nq → ℝ) :
    ∑ x : Fin (nq * M), F (flatten ks x) x.divNat = ∑ q, ∑ m, F (ks q m) q := by
  rw [← Fintype.sum_prod_type', ← Equiv.sum_comp finProdFinEquiv]
  refine Finset.sum_congr rfl fun x _ => ?_
  have h1 : (finProdFinEquiv x).divNat = x.1 := congrArg Prod.fst (finProdFinEquiv.symm_apply_apply x)
  have h2 : (finProdFinEquiv x).modNat = x.2 := congrArg Prod.snd (finProdFinEquiv.symm_apply_apply x)
  simp only [flatten, h1, h2]

section
variable {d : Description n N} {d' : Description n' N'} {h : Multiple n n' N N'}
  {images images' : List (V3 ℤ)} (hok : d.Ok images) (hok' : d'.Ok images')
  {op : Fin N → Fin N} {t : Fin N → V3 ℤ} (hs : Symmetric d.cells d.S d.fc op t) {op' : Fin N' → Fin N'} {t' : Fin N' → V3 ℤ}
  (hs' : Symmetric d'.cells d'.S d'.fc op' t') (junk : Fin N → Mat n ℝ) (junk' : Fin N' → Mat n' ℝ)
  {eigh : Mat n ℂ → (Fin (n * 3) → ℝ) × Mat n ℂ} (he : IsEigh eigh)
  {eigh' : Mat n' ℂ → (Fin (n' * 3) → ℝ) × Mat n' ℂ} (he' : IsEigh eigh')
include hok hok' hs hs' he he'

theorem Multiple.Relates.spectral_atom (hr : h.Relates d d') {ks : Fin M → V3 ℝ} {q' : V3 ℝ} (hq : h.FoldedOnto ks q') (g : ℝ → ℝ)
    (i : Fin n') (a b : Fin 3) :
    spectral (eigh' (d'.weighted images' junk' q')) g (row i a) (row i b) =
      (∑ m, spectral (eigh (d.weighted images junk (ks m))) g (row (h.home i) a) (row (h.home i) b)) / M := by
  rw [hr.spectral_entry hok hok' hs hs' junk junk' he he' hq]
  congr 1
  refine Finset.sum_congr rfl fun m _ => ?_
  rw [mul_comm (expQR _ _), norm_expQR, one_mul]

theorem Multiple.Relates.unit_eq (hr : h.Relates d d') {ks : Fin M → V3 ℝ} {q' : V3 ℝ} (hq : h.FoldedOnto ks q')
    (kB temp fmin : ℝ) (i : Fin n') (a b : Fin 3) :
    DebyeSym.unit d' images' junk' eigh' kB temp fmin q' i a b =
      (∑ m, DebyeSym.unit d images junk eigh kB temp fmin (ks m) (h.home i) a b) / M := by
  unfold DebyeSym.unit
  rw [hr.spectral_atom hok hok' hs hs' junk junk' he he' hq, hr.masses, ← Finset.mul_sum, mul_div_assoc, ← Complex.re_sum,
    Complex.div_natCast_re]

theorem Multiple.Relates.part_eq (hr : h.Relates d d') {ks : Fin M → V3 ℝ} {q' : V3 ℝ} (hq : h.FoldedOnto ks q') (g : ℝ → ℝ)
    (i : Fin n') :
    DebyeSym.part d' images' junk' eigh' g q' i = (∑ m, DebyeSym.part d images junk eigh g (ks m) (h.home i)) / M := by
  unfold DebyeSym.part
  simp only [hr.spectral_atom hok hok' hs hs' junk junk' he he' hq, Complex.div_natCast_re, Complex.re_sum]
  rw [← Finset.sum_div, Finset.sum_comm]

/-- **C138** (partial: as above, no symmetrisation) Debye-Waller exponents of an atom of the larger cell are those of the atom it
is a copy of. -/
theorem C138_debye_waller_partial (hr : h.Relates d d') {ks : Fin nq → Fin M → V3 ℝ} {qs' : Fin nq → V3 ℝ}
    (hq : ∀ q, h.FoldedOnto (ks q) (qs' q)) (hM : 0 < M) (types : Fin n → String) (types' : Fin n' → String) (w : Fin nq → ℝ)
    (chunk chunk' : Nat) (hc : 0 < chunk) (hc' : 0 < chunk') (kB temp fmin : ℝ) (i : Fin n') (a b : Fin 3) :
    (calculateDebyeWaller chunk' (d'.modes types' images' junk' eigh' qs' w) kB temp fmin none).w i a b =
      (calculateDebyeWaller chunk (d.modes types images junk eigh (flatten ks) fun x => w x.divNat) kB temp fmin none).w
        (h.home i) a b := by
  simp only [calculateDebyeWaller, DebyeSym.raw_eq types images junk eigh _ _ chunk hc,
    DebyeSym.raw_eq types' images' junk' eigh' _ _ chunk' hc']
  rw [sum_flatten ks fun k q => w q * DebyeSym.unit d images junk eigh kB temp fmin k (h.home i) a b,
    sum_flatten ks fun _ q => w q]
  simp only [hr.unit_eq hok hok' hs hs' junk junk' he he' (hq _), ← Finset.mul_sum, Finset.sum_const, Finset.card_univ,
    Fintype.card_fin, nsmul_eq_mul]
  have hM' : (M : ℝ) ≠ 0 := by exact_mod_cast hM.ne'
  simp only [← mul_div_assoc, ← Finset.sum_div, div_div]

/-- **C138** (partial: as above, no broadening) The line of an atom of the larger cell in the partial density of states is that
of the atom it is a copy of, divided by the number of copies. -/
theorem C138_pdos_partial (hr : h.Relates d d') {ks : Fin nq → Fin M → V3 ℝ} {qs' : Fin nq → V3 ℝ}
    (hq : ∀ q, h.FoldedOnto (ks q) (qs' q)) (hM : 0 < M) {types : Fin n → String} {types' : Fin n' → String}
    (ht : ∀ i, types' i = types (h.home i)) (w : Fin nq → ℝ) {c : ℝ} (hc : 0 < c) {b : List ℝ} (hb : b.Pairwise (· ≤ ·))
    (cs : Option (String → ℝ)) (hq0 : 0 < nq) :
    ∃ rows rows', DebyeSym.pdos d types images junk eigh c b cs (flatten ks) (fun x => w x.divNat) = .ok rows ∧
      DebyeSym.pdos d' types' images' junk' eigh' c b cs qs' w = .ok rows' ∧
      ∀ i, ∀ e < b.length - 1, DebyeSym.line rows' i e = DebyeSym.line rows (h.home i) e / M := by
  obtain ⟨rows, h1, -, h2⟩ := DebyeSym.pdos_eq (d := d) types images junk eigh hc hb cs (flatten ks) fun x => w x.divNat
  obtain ⟨rows', h1', -, h2'⟩ := DebyeSym.pdos_eq (d := d') types' images' junk' eigh' hc hb cs qs' w
  refine ⟨rows, rows', h1, h1', fun i e hl => ?_⟩
  have hM' : (M : ℝ) ≠ 0 := by exact_mod_cast hM.ne'
  have hn : (n' : ℝ) = M * n := by rw [(hq ⟨0, hq0⟩).atoms]; push_cast; rfl
  have hfac : DebyeSym.factorOf d'.mass types' cs i = DebyeSym.factorOf d.mass types cs (h.home i) := by
    unfold DebyeSym.factorOf
    cases cs with
    | none => rfl
    | some f =>
      dsimp only
      have hmean : (∑ j, d'.mass j) / (n' : ℝ) = (∑ j, d.mass j) / n := by
        simp only [hr.masses]
        rw [(hq ⟨0, hq0⟩).sum_home fun k => d.mass k, hn, mul_div_mul_left _ _ hM']
      rw [ht, hr.masses, hmean]
  rw [(h2' i).2 e hl, (h2 (h.home i)).2 e hl, hfac,
    sum_flatten ks fun k q => w q * DebyeSym.part d images junk eigh (DebyeSym.binOf b c e) k (h.home i), sum_flatten ks fun _ q => w q]
  simp only [hr.part_eq hok hok' hs hs' junk junk' he he' (hq _), ← Finset.mul_sum, Finset.sum_const, Finset.card_univ,
    Fintype.card_fin, nsmul_eq_mul]
  rw [hn]
  simp only [← mul_div_assoc, ← Finset.sum_div, div_div]
  congr 1
  ring

/-- **C138** (partial: as above) The partial density of states of each species is that of the smaller cell. -/
theorem C138_species_partial (hr : h.Relates d d') {ks : Fin nq → Fin M → V3 ℝ} {qs' : Fin nq → V3 ℝ}
    (hq : ∀ q, h.FoldedOnto (ks q) (qs' q)) (hM : 0 < M) {types : Fin n → String} {types' : Fin n' → String}
    (ht : ∀ i, types' i = types (h.home i)) (w : Fin nq → ℝ) {c : ℝ} (hc : 0 < c) {b : List ℝ} (hb : b.Pairwise (· ≤ ·))
    (cs : Option (String → ℝ)) (hq0 : 0 < nq) :
    ∃ rows rows', DebyeSym.pdos d types images junk eigh c b cs (flatten ks) (fun x => w x.divNat) = .ok rows ∧
      DebyeSym.pdos d' types' images' junk' eigh' c b cs qs' w = .ok rows' ∧
      ∀ species, ∀ e < b.length - 1, ∑ i with types' i = species, DebyeSym.line rows' i e =
        ∑ k with types k = species, DebyeSym.line rows k e := by
  obtain ⟨rows, rows', h1, h1', h2⟩ := C138_pdos_partial hok hok' hs hs' junk junk' he he' hr hq hM ht w hc hb cs hq0
  refine ⟨rows, rows', h1, h1', fun species e hl => ?_⟩
  have hM' : (M : ℝ) ≠ 0 := by exact_mod_cast hM.ne'
  rw [Finset.sum_filter, Finset.sum_filter]
  simp only [ht, h2 _ e hl]
  rw [(hq ⟨0, hq0⟩).sum_home fun k => if types k = species then DebyeSym.line rows k e / (M : ℝ) else 0, Finset.mul_sum]
  refine Finset.sum_congr rfl fun k _ => ?_
  split
  · field_simp
  · simp

/-- **C138** (partial: as above) The density of states of the larger cell is that of the smaller one at all the wavevectors that
are folded. -/
theorem C138_dos_partial (hr : h.Relates d d') {ks : Fin nq → Fin M → V3 ℝ} {qs' : Fin nq → V3 ℝ}
    (hq : ∀ q, h.FoldedOnto (ks q) (qs' q)) (hM : 0 < M) (hn : 0 < n) (hq0 : 0 < nq) (types : Fin n → String) (types' : Fin n' → String)
    (w : Fin nq → ℝ) {c : ℝ} (hc : 0 < c) {b : List ℝ} (hb : b.Pairwise (· ≤ ·)) :
    ∃ y, DebyeSym.dos d types images junk eigh c b (flatten ks) (fun x => w x.divNat) = .ok y ∧
      DebyeSym.dos d' types' images' junk' eigh' c b qs' w = .ok y := by
  have hnn := (hq ⟨0, hq0⟩).atoms
  have hn' : 0 < n' := by rw [hnn]; exact Nat.mul_pos hM hn
  have hM' : (M : ℝ) ≠ 0 := by exact_mod_cast hM.ne'
  have hn0 : (n : ℝ) ≠ 0 := by exact_mod_cast hn.ne'
  unfold DebyeSym.dos
  rw [Dos.C21_dos_counts_modes_in_bin c hc b hb (by omega), Dos.C21_dos_counts_modes_in_bin c hc b hb (by omega)]
  refine ⟨_, rfl, ?_⟩
  congr 1
  apply List.map_congr_left
  intro e _
  have hall : ∀ {l L nk : Nat} (D : Description l L) (T : Fin l → String) (I : List (V3 ℤ)) (J : Fin L → Mat l ℝ)
      (E : Mat l ℂ → (Fin (l * 3) → ℝ) × Mat l ℂ) (k : Fin nk → V3 ℝ) (u : Fin nk → ℝ),
      Dos.binTotal b c (D.modes T I J E k u).freqs (fun q _ => u q * (3 / ((l * 3 : ℕ) : ℝ))) e =
        (∑ q, u q * ∑ s, DebyeSym.binOf b c e ((E (D.weighted I J (k q))).1 s)) / l := by
    intro l L nk D T I J E k u
    unfold Dos.binTotal
    rw [Finset.sum_div]
    refine Finset.sum_congr rfl fun q _ => ?_
    rw [Finset.mul_sum, Finset.sum_div]
    refine Finset.sum_congr rfl fun s _ => ?_
    unfold DebyeSym.binOf Description.modes
    dsimp only
    split
    · rw [mul_one]
      push_cast
      rcases Nat.eq_zero_or_pos l with rfl | hl
      · simp
      · have : (l : ℝ) ≠ 0 := by exact_mod_cast hl.ne'
        field_simp
    · simp
  rw [show (d.modes types images junk eigh (flatten ks) fun x => w x.divNat).weights = fun x => w x.divNat from rfl,
    show (d'.modes types' images' junk' eigh' qs' w).weights = w from rfl, hall, hall,
    sum_flatten ks fun k q => w q * ∑ s, DebyeSym.binOf b c e ((eigh (d.weighted images junk k)).1 s), sum_flatten ks fun _ q => w q]
  simp only [hr.sum_modes hok hok' hs hs' junk junk' he he' (hq _), ← Finset.mul_sum, Finset.sum_const, Finset.card_univ,
    Fintype.card_fin, nsmul_eq_mul]
  rw [show (n' : ℝ) = M * n by rw [hnn]; push_cast; rfl]
  simp only [div_div]
  congr 1
  ring

/-- `f† A f` of a wave in the larger cell. -/
theorem Multiple.Relates.quad_eq (hr : h.Relates d d') {ks : Fin M → V3 ℝ} {q' : V3 ℝ} (hq : h.FoldedOnto ks q') (g : ℝ → ℝ)
    (m : Fin M) (f : Fin (n * 3) → ℂ) :
    quad (spectral (eigh' (d'.weighted images' junk' q')) g) (h.spread (ks m) f) =
      M * quad (spectral (eigh (d.weighted images junk (ks m))) g) f := by
  have hM0 : (M : ℂ) ≠ 0 := by exact_mod_cast m.pos.ne'
  have key : ∀ m', ∑ i, ∑ a, ∑ j, ∑ b, star (h.spread (ks m) f (row i a)) * (expQR (ks m') (h.off i) * star (expQR (ks m') (h.off j)) *
      spectral (eigh (d.weighted images junk (ks m'))) g (row (h.home i) a) (row (h.home j) b)) * h.spread (ks m) f (row j b) =
      if m' = m then (M : ℂ) * M * quad (spectral (eigh (d.weighted images junk (ks m))) g) f else 0 := by
    intro m'
    have e1 : ∀ i a j b, star (h.spread (ks m) f (row i a)) * (expQR (ks m') (h.off i) * star (expQR (ks m') (h.off j)) *
        spectral (eigh (d.weighted images junk (ks m'))) g (row (h.home i) a) (row (h.home j) b)) * h.spread (ks m) f (row j b) =
        (star (f (row (h.home i) a)) * spectral (eigh (d.weighted images junk (ks m'))) g (row (h.home i) a) (row (h.home j) b) *
          f (row (h.home j) b)) * expQR (sub (ks m) (ks m')) (h.off j) * expQR (sub (ks m') (ks m)) (h.off i) := by
      intro i a j b
      simp only [Multiple.spread, row_div, row_mod, expQR_sub_left, star_mul']
      ring
    simp only [e1]
    split
    · rename_i hm
      subst hm
      have h0 : ∀ i, expQR (sub (ks m') (ks m')) (h.off i) = 1 := fun i => by simp [expQR, sub]
      simp only [h0, mul_one]
      rw [hq.sum_home fun i => ∑ a, ∑ j, ∑ b, star (f (row i a)) * spectral (eigh (d.weighted images junk (ks m'))) g (row i a)
        (row (h.home j) b) * f (row (h.home j) b), mul_assoc]
      congr 1
      unfold quad
      rw [sum_rows, Finset.mul_sum]
      refine Finset.sum_congr rfl fun i _ => ?_
      rw [Finset.mul_sum]
      refine Finset.sum_congr rfl fun a _ => ?_
      rw [hq.sum_home fun j => ∑ b, star (f (row i a)) * spectral (eigh (d.weighted images junk (ks m'))) g (row i a) (row j b) *
        f (row j b)]
      congr 1
      rw [sum_rows fun l => star (f (row i a)) * spectral (eigh (d.weighted images junk (ks m'))) g (row i a) l * f l]
    · rename_i hm
      obtain ⟨hfit, hne⟩ := hq.differ (fun e => hm e.symm)
      have := hr.character hfit hne fun i => ∑ a, ∑ j, ∑ b, (star (f (row i a)) *
        spectral (eigh (d.weighted images junk (ks m'))) g (row i a) (row (h.home j) b) * f (row (h.home j) b)) *
        expQR (sub (ks m) (ks m')) (h.off j)
      simp only [Finset.sum_mul] at this
      exact this
  have hsum : quad (spectral (eigh' (d'.weighted images' junk' q')) g) (h.spread (ks m) f) =
      (∑ m', ∑ i, ∑ a, ∑ j, ∑ b, star (h.spread (ks m) f (row i a)) * (expQR (ks m') (h.off i) * star (expQR (ks m') (h.off j)) *
      spectral (eigh (d.weighted images junk (ks m'))) g (row (h.home i) a) (row (h.home j) b)) * h.spread (ks m) f (row j b)) / M := by
    unfold quad
    rw [sum_rows]
    simp only [sum_rows, hr.spectral_entry hok hok' hs hs' junk junk' he he' hq]
    simp only [Finset.sum_div, Finset.mul_sum, Finset.sum_mul]
    have hcomm : ∀ F : Fin n' → Fin 3 → Fin n' → Fin 3 → Fin M → ℂ,
        ∑ i, ∑ a, ∑ j, ∑ b, ∑ m, F i a j b m = ∑ m, ∑ i, ∑ a, ∑ j, ∑ b, F i a j b m := by
      intro F
      have h1 : ∀ i a j, ∑ b, ∑ m, F i a j b m = ∑ m, ∑ b, F i a j b m := fun i a j => Finset.sum_comm
      have h2 : ∀ i a, ∑ j, ∑ m, ∑ b, F i a j b m = ∑ m, ∑ j, ∑ b, F i a j b m := fun i a => Finset.sum_comm
      have h3 : ∀ i, ∑ a, ∑ m, ∑ j, ∑ b, F i a j b m = ∑ m, ∑ a, ∑ j, ∑ b, F i a j b m := fun i => Finset.sum_comm
      simp only [h1, h2, h3]
      exact Finset.sum_comm
    rw [hcomm]
    refine Finset.sum_congr rfl fun m' _ => Finset.sum_congr rfl fun i _ => Finset.sum_congr rfl fun a _ =>
      Finset.sum_congr rfl fun j _ => Finset.sum_congr rfl fun b _ => ?_
    rw [mul_div_assoc', div_mul_eq_mul_div]
  rw [hsum, Finset.sum_congr rfl fun m' _ => key m', Finset.sum_ite_eq' Finset.univ m, if_pos (Finset.mem_univ _)]
  field_simp

end

section
variable {d : Description n N} {d' : Description n' N'} {h : Multiple n n' N N'}

/-- The wavevector in Cartesian coordinates is the same. -/
theorem Multiple.Relates.cartesian (hr : h.Relates d d') {images images' : List (V3 ℤ)} (hok : d.Ok images)
    (hok' : d'.Ok images') (q : V3 ℝ) :
    toCart (reciprocalCell (2 * Real.pi) d'.cv) (h.fold q) = toCart (reciprocalCell (2 * Real.pi) d.cv) q := by
  refine eq_of_dots (volume_ne hok') fun y => ?_
  rw [Gradient.dot_recip _ (volume_ne hok'), hr.vectors, Gradient.dot_recip _ (volume_ne hok)]
  simp only [Multiple.fold, dot, toCart, castM]
  ring

theorem Multiple.Relates.phase (hr : h.Relates d d') (types : Fin n → String) (types' : Fin n' → String) (images images' : List (V3 ℤ))
    (junk : Fin N → Mat n ℝ) (junk' : Fin N' → Mat n' ℝ) (eigh : Mat n ℂ → (Fin (n * 3) → ℝ) × Mat n ℂ)
    (eigh' : Mat n' ℂ → (Fin (n' * 3) → ℝ) × Mat n' ℂ) (qs : Fin nq → V3 ℝ) (weights weights' : Fin nq → ℝ) (q : Fin nq) (i : Fin n') :
    expFactor (d'.modes types' images' junk' eigh' (fun q => h.fold (qs q)) weights') q i =
      expQR (qs q) (h.off i) * expFactor (d.modes types images junk eigh qs weights) q (h.home i) := by
  unfold expFactor expQR
  rw [← Complex.exp_add]
  have hp := hr.positions i
  simp only [toCart, castM, add, castV, V3.mk.injEq] at hp
  have e : ∑ j, (d'.modes types' images' junk' eigh' (fun q => h.fold (qs q)) weights').qpts q j * (d'.cryst types').atomR i j =
      ((qs q).x * (h.off i).x + (qs q).y * (h.off i).y + (qs q).z * (h.off i).z) +
        ∑ j, (d.modes types images junk eigh qs weights).qpts q j * (d.cryst types).atomR (h.home i) j := by
    simp only [Description.modes, Description.cryst, Fin.sum_univ_three, comp0, comp1, comp2, Multiple.fold, dot, castV]
    linear_combination (qs q).x * hp.1 + (qs q).y * hp.2.1 + (qs q).z * hp.2.2
  rw [e]
  push_cast
  congr 1
  ring

theorem quad_scaled (r : (Fin (n * 3) → ℝ) × Mat n ℂ) (c : ℝ) (g : ℝ → ℝ) (f : Fin (n * 3) → ℂ) :
    quad (spectral r fun x => c * g x) f = (c : ℂ) * quad (spectral r g) f := by
  unfold quad spectral
  simp only [Finset.mul_sum, Finset.sum_mul]
  refine Finset.sum_congr rfl fun k _ => Finset.sum_congr rfl fun l _ => Finset.sum_congr rfl fun s _ => ?_
  push_cast
  ring

/-- No Debye-Waller exponents, or those of the copies are the same. -/
def Multiple.CarriesDWOpt (h : Multiple n n' N N') : Option DW → Option DW → Prop
  | none, none => True
  | some w, some w' => ∃ (e : w.nAtoms = n) (e' : w'.nAtoms = n'),
    ∀ i a b, w'.w (Fin.cast e'.symm i) a b = w.w (Fin.cast e.symm (h.home i)) a b
  | _, _ => False

theorem Multiple.Relates.dwFactors (hr : h.Relates d d') {images images' : List (V3 ℤ)} (hok : d.Ok images)
    (hok' : d'.Ok images') (types : Fin n → String) (types' : Fin n' → String) (junk : Fin N → Mat n ℝ) (junk' : Fin N' → Mat n' ℝ)
    (eigh : Mat n ℂ → (Fin (n * 3) → ℝ) × Mat n ℂ) (eigh' : Mat n' ℂ → (Fin (n' * 3) → ℝ) × Mat n' ℂ) (qs : Fin nq → V3 ℝ)
    (weights weights' : Fin nq → ℝ) {dw dw' : Option DW} (hdw : h.CarriesDWOpt dw dw') {f : Fin nq → Fin n → ℝ} {f' : Fin nq → Fin n' → ℝ}
    (hf : Scatter.dwFactors (d.modes types images junk eigh qs weights) dw = .ok f)
    (hf' : Scatter.dwFactors (d'.modes types' images' junk' eigh' (fun q => h.fold (qs q)) weights') dw' = .ok f') (q : Fin nq)
    (i : Fin n') : f' q i = f q (h.home i) := by
  cases dw with
  | none =>
    cases dw' with
    | none =>
      simp only [Scatter.dwFactors, Except.ok.injEq] at hf hf'
      rw [← hf, ← hf']
    | some w' => exact hdw.elim
  | some w =>
    cases dw' with
    | none => exact hdw.elim
    | some w' =>
      obtain ⟨e, e', hc⟩ := hdw
      simp only [Scatter.dwFactors, dif_pos e, dif_pos e', Except.ok.injEq] at hf hf'
      rw [← hf, ← hf']
      unfold dwFactor
      simp only [cartQ_eq, hr.cartesian hok hok', hc]

/-- **C138** (partial: as above) Structure factors of the larger cell at a scattering vector are those of the smaller cell: for
every set of frequencies (every function `g` of the frequency) the sum over modes is the same.  In particular the modes of the
larger cell that do not belong to this wavevector of the smaller cell have no intensity. -/
theorem C138_structure_factor_partial (hr : h.Relates d d') {images images' : List (V3 ℤ)} (hok : d.Ok images)
    (hok' : d'.Ok images') {op : Fin N → Fin N} {t : Fin N → V3 ℤ} (hs : Symmetric d.cells d.S d.fc op t)
    {op' : Fin N' → Fin N'} {t' : Fin N' → V3 ℤ} (hs' : Symmetric d'.cells d'.S d'.fc op' t')
    (junk : Fin N → Mat n ℝ) (junk' : Fin N' → Mat n' ℝ) {types : Fin n → String} {types' : Fin n' → String}
    (ht : ∀ i, types' i = types (h.home i)) {eigh : Mat n ℂ → (Fin (n * 3) → ℝ) × Mat n ℂ} (he : IsEigh eigh)
    {eigh' : Mat n' ℂ → (Fin (n' * 3) → ℝ) × Mat n' ℂ} (he' : IsEigh eigh') (qs : Fin nq → V3 ℝ)
    (weights weights' : Fin nq → ℝ) (data : String → Option ℂ) {dw dw' : Option DW} (hdw : h.CarriesDWOpt dw dw')
    {r : SF nq (n * 3)} {r' : SF nq (n' * 3)}
    (hsf : calculateStructureFactor (d.modes types images junk eigh qs weights) data dw = .ok r)
    (hsf' : calculateStructureFactor (d'.modes types' images' junk' eigh' (fun q => h.fold (qs q)) weights') data dw' = .ok r')
    (q : Fin nq) (g : ℝ → ℝ) : ∑ s, g (r'.freqs q s) * r'.sf q s = ∑ s, g (r.freqs q s) * r.sf q s := by
  obtain ⟨sl, f, hl, hf, rfl⟩ := sf_ok _ data dw r hsf
  obtain ⟨sl', f', hl', hf', rfl⟩ := sf_ok _ data dw' r' hsf'
  simp only [sfTerm_amplitude]
  have hm : ∀ s k, (d.modes types images junk eigh qs weights).evecs q s k.divNat k.modNat =
      (eigh (d.weighted images junk (qs q))).2 s k := by
    intro s k
    obtain ⟨i, a, rfl⟩ := exists_row_id k
    rw [row_div, row_mod]
    rfl
  have hm' : ∀ s k, (d'.modes types' images' junk' eigh' (fun q => h.fold (qs q)) weights').evecs q s k.divNat k.modNat =
      (eigh' (d'.weighted images' junk' (h.fold (qs q)))).2 s k := by
    intro s k
    obtain ⟨i, a, rfl⟩ := exists_row_id k
    rw [row_div, row_mod]
    rfl
  simp only [hm, hm']
  refine (sum_sfValue (eigh' (d'.weighted images' junk' (h.fold (qs q)))) _ g).trans
    (Eq.trans ?_ (sum_sfValue (eigh (d.weighted images junk (qs q))) _ g).symm)
  obtain ⟨M, ks, hq, m, hkm⟩ := hr.exists_folded (qs q)
  have hM : 0 < M := m.pos
  have hM0 : (M : ℝ) ≠ 0 := by exact_mod_cast hM.ne'
  set F := amplitude (d.cryst types) (cartQ (d.modes types images junk eigh qs weights) q)
    (expFactor (d.modes types images junk eigh qs weights) q) sl (f q) with hF
  have hamp : amplitude (d'.cryst types') (cartQ (d'.modes types' images' junk' eigh' (fun q => h.fold (qs q)) weights') q)
      (expFactor (d'.modes types' images' junk' eigh' (fun q => h.fold (qs q)) weights') q) sl' (f' q) = h.spread (ks m) F := by
    funext k
    obtain ⟨i, a, rfl⟩ := exists_row_id k
    rw [hF, hkm]
    unfold amplitude Multiple.spread
    simp only [row_div, row_mod, cartQ_eq, hr.cartesian hok hok']
    have hsl : sl' i = sl (h.home i) := by
      rw [lookup_eq hl', lookup_eq hl]
      simp only [Description.cryst, ht]
    rw [hr.phase types types' images images' junk junk' eigh eigh' qs weights weights' q i,
      hr.dwFactors hok hok' types types' junk junk' eigh eigh' qs weights weights' hdw hf hf' q i,
      show (d'.cryst types').mass i = (d.cryst types).mass (h.home i) from hr.masses i, hsl]
    ring
  rw [hamp, hr.quad_eq hok hok' hs hs' junk junk' he he' hq _ m, hkm, ← Complex.ofReal_natCast, Complex.re_ofReal_mul]
  have hsc : (fun x => g (freqOf x) / |freqOf x| / (2 * (n' : ℝ))) = fun x => (1 / (M : ℝ)) * (g (freqOf x) / |freqOf x| / (2 * n)) := by
    funext x
    rw [show (n' : ℝ) = M * n by rw [hq.atoms]; push_cast; rfl, one_div, div_eq_mul_inv _ (2 * (n : ℝ)), div_eq_mul_inv _ (2 * _)]
    simp only [mul_inv]
    ring
  rw [hsc, quad_scaled, Complex.re_ofReal_mul, ← mul_assoc, mul_one_div_cancel hM0, one_mul]

end

/-! ## A concrete case -/

namespace Ex

/-- Couplings of the four atoms. -/
def coupling : Fin 4 → Fin 4 → ℝ := ![![4, -2, -1, -1], ![-2, 4, -1, -1], ![-1, -1, 4, -2], ![-1, -1, -2, 4]]

/-- The chain of two kinds of atoms, in a cell of twice the length, with four atoms: the supercell is this cell. -/
noncomputable def d' : Description 4 1 where
  cv := ⟨⟨2, 0, 0⟩, ⟨0, 1, 0⟩, ⟨0, 0, 1⟩⟩
  r := ![⟨0, 0, 0⟩, ⟨1 / 4, 0, 0⟩, ⟨1 / 2, 0, 0⟩, ⟨3 / 4, 0, 0⟩]
  mass := ![1, 3, 1, 3]
  S := ⟨⟨1, 0, 0⟩, ⟨0, 1, 0⟩, ⟨0, 0, 1⟩⟩
  cells := fun _ => ⟨0, 0, 0⟩
  c0 := 0
  fc := fun _ k l => if k.modNat = l.modNat then Describe.Ex.K k.modNat * coupling k.divNat l.divNat else 0

/-- From the smaller to the larger cell. -/
def double : Multiple 2 4 2 1 where
  P := ⟨⟨2, 0, 0⟩, ⟨0, 1, 0⟩, ⟨0, 0, 1⟩⟩
  home := ![0, 1, 0, 1]
  off := ![⟨0, 0, 0⟩, ⟨0, 0, 0⟩, ⟨1, 0, 0⟩, ⟨1, 0, 0⟩]
  s := fun i j _ => if i.val / 2 = j.val / 2 then 0 else 1

theorem relates : double.Relates Describe.Ex.d d' where
  vectors := fun x => by
    simp [toCart, Describe.Ex.d, d', DynMat.Ex.cv, castM, castV, double]
  positions := fun i => by
    fin_cases i <;> norm_num [double, Describe.Ex.d, d', toCart, castM, castV, add]
  masses := fun i => by fin_cases i <;> simp [double, Describe.Ex.d, d']
  atoms := fun i u => by
    have hl : ∀ v : V3 ℤ, InLattice double.P v ↔ v.x % 2 = 0 := by
      intro v
      constructor
      · rintro ⟨m, rfl⟩
        simp [mulMat, double]
      · intro hv
        refine ⟨⟨v.x / 2, v.y, v.z⟩, V3.ext' ?_ ?_ ?_⟩ <;> (simp [mulMat, double]; try omega)
    simp only [hl, sub]
    rcases Int.emod_two_eq_zero_or_one u.x with hu | hu
    · refine ⟨![0, 1] i, ⟨by fin_cases i <;> simp [double], by fin_cases i <;> simp [double] <;> omega⟩, ?_⟩
      rintro k ⟨h1, h2⟩
      fin_cases i <;> fin_cases k <;> simp [double] at h1 h2 ⊢ <;> omega
    · refine ⟨![2, 3] i, ⟨by fin_cases i <;> simp [double], by fin_cases i <;> simp [double] <;> omega⟩, ?_⟩
      rintro k ⟨h1, h2⟩
      fin_cases i <;> fin_cases k <;> simp [double] at h1 h2 ⊢ <;> omega
  super := fun u => by
    constructor
    · rintro ⟨m, rfl⟩
      exact ⟨m, ⟨m, by simp [mulMat, d']⟩, by simp [mulMat, double, Describe.Ex.d, DynMat.Ex.S]⟩
    · rintro ⟨v, -, rfl⟩
      exact ⟨v, by simp [mulMat, double, Describe.Ex.d, DynMat.Ex.S]⟩
  cell := fun i j c => by
    refine ⟨⟨?_, 0, 0⟩, ?_⟩
    · exact if i.val / 2 = 1 ∧ j.val / 2 = 0 then 1 else 0
    · fin_cases i <;> fin_cases j <;> simp [mulMat, sub, add, double, Describe.Ex.d, DynMat.Ex.S, d', DynMat.Ex.cells]
  bij := fun i => by
    rw [Fintype.bijective_iff_injective_and_card]
    refine ⟨?_, by simp⟩
    rintro ⟨x, y⟩ ⟨x', y'⟩ hx
    simp only [double, Prod.mk.injEq] at hx
    fin_cases i <;> fin_cases x <;> fin_cases x' <;> simp at hx ⊢ <;> exact Subsingleton.elim _ _
  fcs := fun i j c a b => by
    simp only [Describe.Ex.d, d', row_div, row_mod, double]
    fin_cases i <;> fin_cases j <;> simp [coupling]

theorem ok' : d'.Ok shells2 where
  first := rfl
  reduced := ⟨shells2_eq, by simp [cellVolume, scVecs, d', toCart, castV, dot, cross], by
      have e : scVecs d'.S d'.cv = scVecs DynMat.Ex.S DynMat.Ex.cv := by
        simp [scVecs, d', DynMat.Ex.S, DynMat.Ex.cv, toCart, castV]
      rw [e]
      exact Commensurate.Chain.reduced, fun c i j => by
    refine ⟨⟨(d'.r i).x - (d'.r j).x, 0, 0⟩, ?_, by simp, by simp, ?_⟩
    · fin_cases i <;> fin_cases j <;> norm_num [d', abs_le]
    · fin_cases i <;> fin_cases j <;> norm_num [d', sub, add, castV]⟩

theorem symmetric' : Symmetric d'.cells d'.S d'.fc id fun _ => ⟨0, 0, 0⟩ where
  invol := fun _ => rfl
  origin := fun c => by simp [d', add, DynMat.neg, mulMat]
  exchange := by
    intro c k l
    simp only [d', id]
    by_cases h : k.modNat = l.modNat
    · rw [if_pos h, if_pos h.symm, h]
      congr 1
      generalize k.divNat = i
      generalize l.divNat = j
      fin_cases i <;> fin_cases j <;> simp [coupling]
    · rw [if_neg h, if_neg (Ne.symm h)]

/-- Two wavevectors are folded onto the same one. -/
theorem folded (x y z : ℝ) : double.FoldedOnto ![⟨x, y, z⟩, ⟨x + 1 / 2, y, z⟩] ⟨2 * x, y, z⟩ where
  same := fun m => by
    refine ⟨⟨m.val, 0, 0⟩, ?_⟩
    fin_cases m <;> simp [Multiple.fold, double, dot, castV, add]
    ring
  distinct := fun m m' hG => by
    obtain ⟨G, hG⟩ := hG
    have h1 := congrArg V3.x hG
    fin_cases m <;> fin_cases m'
    · rfl
    · simp [add, castV] at h1
      have h2 : ((2 * G.x : ℤ) : ℝ) = ((1 : ℤ) : ℝ) := by push_cast; linarith
      have := Int.cast_injective h2
      omega
    · simp [add, castV] at h1
      have h2 : ((2 * G.x : ℤ) : ℝ) = ((-1 : ℤ) : ℝ) := by push_cast; linarith
      have := Int.cast_injective h2
      omega
    · rfl
  count := fun i => by fin_cases i <;> decide

/-- All the hypotheses of the theorems above hold together. -/
example (junk : Fin 2 → Mat 2 ℝ) (junk' : Fin 1 → Mat 4 ℝ) {eigh : Mat 2 ℂ → (Fin (2 * 3) → ℝ) × Mat 2 ℂ} (he : IsEigh eigh)
    {eigh' : Mat 4 ℂ → (Fin (4 * 3) → ℝ) × Mat 4 ℂ} (he' : IsEigh eigh') (x : ℝ) :
    (Finset.univ.val.map fun s => freqOf ((eigh' (d'.weighted shells2 junk' ⟨2 * x, 0, 0⟩)).1 s)) =
      (Finset.univ.val.map fun s => freqOf ((eigh (Describe.Ex.d.weighted shells2 junk ⟨x, 0, 0⟩)).1 s)) +
      (Finset.univ.val.map fun s => freqOf ((eigh (Describe.Ex.d.weighted shells2 junk ⟨x + 1 / 2, 0, 0⟩)).1 s)) := by
  have := C138_frequencies_partial Describe.Ex.ok ok' Describe.Ex.symmetric symmetric' junk junk' he he' relates (folded x 0 0)
  simpa [Fin.sum_univ_two] using this

/-- The density of states of the larger cell on a grid of three wavevectors is that of the smaller one on one of six. -/
example (junk : Fin 2 → Mat 2 ℝ) (junk' : Fin 1 → Mat 4 ℝ) {eigh : Mat 2 ℂ → (Fin (2 * 3) → ℝ) × Mat 2 ℂ} (he : IsEigh eigh)
    {eigh' : Mat 4 ℂ → (Fin (4 * 3) → ℝ) × Mat 4 ℂ} (he' : IsEigh eigh') :
    ∃ y, DebyeSym.dos Describe.Ex.d !["Na", "Cl"] shells2 junk eigh 1 [0, 1, 2, 4]
        (flatten fun (q : Fin 3) => ![⟨q.val / 6, 0, 0⟩, ⟨q.val / 6 + 1 / 2, 0, 0⟩]) (fun _ => 1) = .ok y ∧
      DebyeSym.dos d' !["Na", "Cl", "Na", "Cl"] shells2 junk' eigh' 1 [0, 1, 2, 4] (fun q : Fin 3 => ⟨2 * (q.val / 6), 0, 0⟩) (fun _ => 1)
        = .ok y :=
  C138_dos_partial Describe.Ex.ok ok' Describe.Ex.symmetric symmetric' junk junk' he he' relates (fun q => folded _ 0 0) (by norm_num)
    (by norm_num) (by norm_num) _ _ (fun _ => 1) one_pos (by simp; norm_num)

/-- Structure factors, each with the Debye-Waller exponents calculated from its own grid. -/
example (junk : Fin 2 → Mat 2 ℝ) (junk' : Fin 1 → Mat 4 ℝ) {eigh : Mat 2 ℂ → (Fin (2 * 3) → ℝ) × Mat 2 ℂ} (he : IsEigh eigh)
    {eigh' : Mat 4 ℂ → (Fin (4 * 3) → ℝ) × Mat 4 ℂ} (he' : IsEigh eigh') (qs : Fin 3 → V3 ℝ) :
    ∃ r r', calculateStructureFactor (Describe.Ex.d.modes !["Na", "Cl"] shells2 junk eigh qs 1) Describe.Ex.data
        (some (calculateDebyeWaller 5 (Describe.Ex.d.modes !["Na", "Cl"] shells2 junk eigh
          (flatten fun (q : Fin 3) => ![⟨q.val / 6, 0, 0⟩, ⟨q.val / 6 + 1 / 2, 0, 0⟩]) fun _ => 1) 1 (1 / 10) (1 / 100) none)) = .ok r ∧
      calculateStructureFactor (d'.modes !["Na", "Cl", "Na", "Cl"] shells2 junk' eigh' (fun q => double.fold (qs q)) 1) Describe.Ex.data
        (some (calculateDebyeWaller 2 (d'.modes !["Na", "Cl", "Na", "Cl"] shells2 junk' eigh'
          (fun q : Fin 3 => ⟨2 * (q.val / 6), 0, 0⟩) fun _ => 1) 1 (1 / 10) (1 / 100) none)) = .ok r' ∧
      ∀ q (g : ℝ → ℝ), ∑ s, g (r'.freqs q s) * r'.sf q s = ∑ s, g (r.freqs q s) * r.sf q s := by
  have hd : ∀ x, Describe.Ex.data x ≠ none := by
    intro x
    unfold Describe.Ex.data
    split <;> simp
  obtain ⟨r, hr⟩ := (C27_refusals (Describe.Ex.d.modes !["Na", "Cl"] shells2 junk eigh qs 1) Describe.Ex.data
    (some (calculateDebyeWaller 5 (Describe.Ex.d.modes !["Na", "Cl"] shells2 junk eigh
          (flatten fun (q : Fin 3) => ![⟨q.val / 6, 0, 0⟩, ⟨q.val / 6 + 1 / 2, 0, 0⟩]) fun _ => 1) 1 (1 / 10) (1 / 100) none))).2.2
    (fun k => hd _) (by rintro w hw; cases hw; rfl)
  obtain ⟨r', hr'⟩ := (C27_refusals (d'.modes !["Na", "Cl", "Na", "Cl"] shells2 junk' eigh' (fun q => double.fold (qs q)) 1)
    Describe.Ex.data (some (calculateDebyeWaller 2 (d'.modes !["Na", "Cl", "Na", "Cl"] shells2 junk' eigh'
          (fun q : Fin 3 => ⟨2 * (q.val / 6), 0, 0⟩) fun _ => 1) 1 (1 / 10) (1 / 100) none))).2.2
    (fun k => hd _) (by rintro w hw; cases hw; rfl)
  refine ⟨r, r', hr, hr', fun q g => ?_⟩
  refine C138_structure_factor_partial relates Describe.Ex.ok ok' Describe.Ex.symmetric symmetric' junk junk' ?_ he he' qs 1 1 _ ?_
    hr hr' q g
  · intro i
    fin_cases i <;> simp [double]
  · exact ⟨rfl, rfl, fun i a b => C138_debye_waller_partial Describe.Ex.ok ok' Describe.Ex.symmetric symmetric' junk junk' he he' relates
      (fun q => folded _ 0 0) (by norm_num) _ _ (fun _ => 1) 5 2 (by norm_num) (by norm_num) _ _ _ i a b⟩

end Ex

end Euphonic.Folding
