import Verif.Props.Reduced
import Verif.Props.Supercell

/-!
# Wavevectors that fit into the supercell (C129)

At a wavevector that fits into the supercell the interpolation is exact: the images of a pair of atoms have the same
phase, so the dynamical matrix is the Fourier sum of the force constants, each mode is a normal mode of the supercell
with periodic boundary conditions, and a stable supercell has no imaginary frequencies.
-/

set_option autoImplicit false
set_option linter.unusedSectionVars false

namespace Euphonic.Commensurate

open Euphonic.Lattice Euphonic.Supercell Euphonic.Phases Euphonic.Images Euphonic.DynMat Euphonic.Reduced

/-! ## Specification -/

/-- The wavevector `q` (in reciprocal lattice units) fits into the supercell with the vectors `S`: a plane wave has the
same phase at the two ends of each of them. -/
def Fits (S : M3 ℤ) (q : V3 ℝ) : Prop :=
  ∃ z : V3 ℤ, q.x * S.a.x + q.y * S.a.y + q.z * S.a.z = z.x ∧ q.x * S.b.x + q.y * S.b.y + q.z * S.b.z = z.y ∧
    q.x * S.c.x + q.y * S.c.y + q.z * S.c.z = z.z

variable {N n : Nat}

/-- The force constant between row `k` of cell `c` and row `l` of cell `c'` of the supercell with periodic boundary
conditions; `rel c c'` is the translation from `c` to `c'`. -/
def periodicFc (fc : Fin N → Mat n ℝ) (rel : Fin N → Fin N → Fin N) (c : Fin N) (k : Fin (n * 3)) (c' : Fin N)
    (l : Fin (n * 3)) : ℝ := fc (rel c c') k l

/-- Twice the harmonic energy of the displacements `u` of the atoms of the supercell. -/
def energy (fc : Fin N → Mat n ℝ) (rel : Fin N → Fin N → Fin N) (u : Fin N → Fin (n * 3) → ℝ) : ℝ :=
  ∑ c, ∑ k, ∑ c', ∑ l, u c k * periodicFc fc rel c k c' l * u c' l

/-- The supercell vectors are reduced (the three shortest, see `IsReduced`), the atoms lie within one supercell of each
other, and two shells of images are searched, as `ForceConstants` does. -/
structure ReducedSupercell (cv : M3 ℝ) (r : Fin n → V3 ℝ) (cells : Fin N → V3 ℤ) (c0 : Fin N) (S : M3 ℤ)
    (images : List (V3 ℤ)) : Prop where
  shells : imageShells 2 = .ok images
  volume : cellVolume (scVecs S cv) ≠ 0
  reduced : IsReduced (scVecs S cv)
  within : ∀ c i j, ∃ f, WithinOne S (sub (add (castV ℝ (cells c0)) (r i)) (add (castV ℝ (cells c)) (r j))) f

/-! ## Proofs -/

theorem expQR_lattice {S : M3 ℤ} {q : V3 ℝ} (h : Fits S q) (v : V3 ℤ) (hv : InLattice S v) : expQR q v = 1 := by
  obtain ⟨z, h1, h2, h3⟩ := h
  obtain ⟨m, rfl⟩ := hv
  unfold expQR
  rw [Complex.exp_eq_one_iff]
  refine ⟨m.x * z.x + m.y * z.y + m.z * z.z, ?_⟩
  have e : q.x * ((mulMat m S).x : ℤ) + q.y * ((mulMat m S).y : ℤ) + q.z * ((mulMat m S).z : ℤ)
      = ((m.x * z.x + m.y * z.y + m.z * z.z : ℤ) : ℝ) := by
    simp only [mulMat]
    push_cast
    linear_combination (m.x : ℝ) * h1 + m.y * h2 + m.z * h3
  rw [e]
  push_cast
  ring

theorem expQR_sub (q : V3 ℝ) (u v : V3 ℤ) : expQR q u = expQR q (sub u v) * expQR q v := by
  unfold expQR
  rw [← Complex.exp_add]
  congr 1
  simp only [sub]
  push_cast
  ring

theorem expQR_translation {S : M3 ℤ} {q : V3 ℝ} (h : Fits S q) (cells : Fin N → V3 ℤ) {i j k : Fin N}
    (ht : IsTranslation S cells i j k) : expQR q (cells j) = expQR q (cells k) * expQR q (cells i) := by
  rw [expQR_sub q (cells j) (cells i), expQR_sub q (sub (cells j) (cells i)) (cells k), expQR_lattice h _ ht, one_mul]

theorem rel_bijective {S : M3 ℤ} {cells : Fin N → V3 ℤ} (hd : DistinctCells S cells)
    {rel : Fin N → Fin N → Fin N} (hrel : ∀ i j, IsTranslation S cells i j (rel i j)) (i : Fin N) :
    Function.Bijective (rel i) := by
  refine Finite.injective_iff_bijective.1 fun j j' h => hd j j' ?_
  obtain ⟨m, hm⟩ := hrel i j
  obtain ⟨m', hm'⟩ := hrel i j'
  rw [h] at hm
  refine ⟨⟨m.x - m'.x, m.y - m'.y, m.z - m'.z⟩, ?_⟩
  simp only [sub, mulMat, V3.mk.injEq] at hm hm' ⊢
  obtain ⟨a1, a2, a3⟩ := hm
  obtain ⟨b1, b2, b3⟩ := hm'
  refine ⟨?_, ?_, ?_⟩ <;> linarith

section
variable (cv : M3 ℝ) (r : Fin n → V3 ℝ) (cells : Fin N → V3 ℤ) (c0 : Fin N) (S : M3 ℤ)

/-- At a wavevector that fits into the supercell, the dynamical matrix is the Fourier sum of the force constants:
it does not matter which images of the cells are taken, nor how many. -/
theorem exact_of_counts (images : List (V3 ℤ)) (hnd : images.Nodup) (hv : cellVolume (scVecs S cv) ≠ 0)
    (hcnt : ∀ c i j, (imageLoops cv r cells c0 S images).cnt c i j ≠ 0) (fc junk : Fin N → Mat n ℝ) (q : V3 ℝ)
    (hq : Fits S q) (k l : Fin (n * 3)) :
    fcDynMat cv r cells c0 S images fc junk q k l = ∑ c, (fc c k l : ℂ) * expQR q (cells c) := by
  rw [C43_textbook cv r cells c0 S images hnd hv]
  unfold latticeSum
  apply Finset.sum_congr rfl
  intro c _
  obtain ⟨h1, -⟩ := imageLoops_rep cv r cells c0 S images hv c k.divNat l.divNat
  rw [good_length cv r cells c0 S images hnd] at h1
  have e : ∀ m, expQR q (add (cells c) (mulMat m S)) = expQR q (cells c) := by
    intro m
    have e2 := expQR_sub q (add (cells c) (mulMat m S)) (cells c)
    rw [e2, expQR_lattice hq _ ⟨m, by simp only [sub, add, mulMat, V3.mk.injEq]; refine ⟨?_, ?_, ?_⟩ <;> ring⟩, one_mul]
  simp only [e, Finset.sum_const, nsmul_eq_mul]
  rw [← mul_assoc, div_mul_cancel₀]
  have := hcnt c k.divNat l.divNat
  rw [h1] at this
  exact_mod_cast this

/-- In a reduced supercell every pair has an image. -/
theorem counts_pos {images : List (V3 ℤ)} (hi : imageShells 2 = .ok images) (hv : cellVolume (scVecs S cv) ≠ 0)
    (hred : IsReduced (scVecs S cv))
    (hw : ∀ c i j, ∃ f, WithinOne S (sub (add (castV ℝ (cells c0)) (r i)) (add (castV ℝ (cells c)) (r j))) f)
    (c : Fin N) (i j : Fin n) : (imageLoops cv r cells c0 S images).cnt c i j ≠ 0 := by
  obtain ⟨L, hL, -, -, hc, -⟩ := C123_nearest_partial cv r cells c0 S images hi hv hred c i j (hw _ _ _)
  rw [hc]
  simpa using hL

end

/-- The forces on the atoms of a supercell that is displaced in a plane wave. -/
theorem plane_wave {S : M3 ℤ} {cells : Fin N → V3 ℤ} (hd : DistinctCells S cells)
    {rel : Fin N → Fin N → Fin N} (hrel : ∀ i j, IsTranslation S cells i j (rel i j)) {q : V3 ℝ} (hq : Fits S q)
    (fc : Fin N → Mat n ℝ) (x : Fin (n * 3) → ℂ) (c : Fin N) (k : Fin (n * 3)) :
    ∑ c', ∑ l, (periodicFc fc rel c k c' l : ℂ) * (x l * expQR q (cells c')) =
      (∑ l, (∑ d, (fc d k l : ℂ) * expQR q (cells d)) * x l) * expQR q (cells c) := by
  have h1 : ∀ c', ∑ l, (periodicFc fc rel c k c' l : ℂ) * (x l * expQR q (cells c')) =
      (fun d => ∑ l, (fc d k l : ℂ) * expQR q (cells d) * x l * expQR q (cells c)) (rel c c') := by
    intro c'
    dsimp only [periodicFc]
    refine Finset.sum_congr rfl fun l _ => ?_
    rw [expQR_translation hq cells (hrel c c')]
    ring
  rw [Finset.sum_congr rfl fun c' _ => h1 c', (rel_bijective hd hrel c).sum_comp
    (fun d => ∑ l, (fc d k l : ℂ) * expQR q (cells d) * x l * expQR q (cells c)), Finset.sum_comm, Finset.sum_mul]
  refine Finset.sum_congr rfl fun l _ => ?_
  rw [Finset.sum_mul, Finset.sum_mul]

section
variable (cv : M3 ℝ) (r : Fin n → V3 ℝ) (cells : Fin N → V3 ℤ) (c0 : Fin N) (S : M3 ℤ)

/-- A mode at a wavevector that fits into the supercell is a normal mode of the supercell with periodic boundary
conditions: displaced along it, every atom feels the force `-w^2 m u`. -/
theorem normal_mode_of_counts (hd : DistinctCells S cells) {rel : Fin N → Fin N → Fin N}
    (hrel : ∀ i j, IsTranslation S cells i j (rel i j)) (images : List (V3 ℤ)) (hnd : images.Nodup)
    (hv : cellVolume (scVecs S cv) ≠ 0) (hcnt : ∀ c i j, (imageLoops cv r cells c0 S images).cnt c i j ≠ 0)
    (fc junk : Fin N → Mat n ℝ) (q : V3 ℝ) (hq : Fits S q) (m : Fin n → ℝ) (hm : ∀ i, 0 < m i)
    (e : Fin (n * 3) → ℂ) (v : ℂ)
    (h : ∀ k, ∑ l, weighted (massWeighting m) (fcDynMat cv r cells c0 S images fc junk q) none none none k l * e l
      = v * e k) (c : Fin N) (k : Fin (n * 3)) :
    ∑ c', ∑ l, (periodicFc fc rel c k c' l : ℂ) * (e l / (√(m l.divNat) : ℝ) * expQR q (cells c')) =
      v * (m k.divNat : ℝ) * (e k / (√(m k.divNat) : ℝ) * expQR q (cells c)) := by
  rw [plane_wave hd hrel hq fc (fun l => e l / (√(m l.divNat) : ℝ)) c k, ← mul_assoc,
    ← C90_equation_of_motion m hm _ none none none e v h k]
  congr 1
  refine Finset.sum_congr rfl fun l _ => ?_
  rw [exact_of_counts cv r cells c0 S images hnd hv hcnt fc junk q hq k l]
  simp [orZero]

/-- The matrix that is diagonalised is then Hermitian. -/
theorem weighted_hermitian (images : List (V3 ℤ)) (hnd : images.Nodup) (hv : cellVolume (scVecs S cv) ≠ 0)
    (hcnt : ∀ c i j, (imageLoops cv r cells c0 S images).cnt c i j ≠ 0)
    {fc : Fin N → Mat n ℝ} {op : Fin N → Fin N} {t : Fin N → V3 ℤ} (hs : Symmetric cells S fc op t)
    (junk : Fin N → Mat n ℝ) (q : V3 ℝ) (hq : Fits S q) (m : Fin n → ℝ) (k l : Fin (n * 3)) :
    weighted (massWeighting m) (fcDynMat cv r cells c0 S images fc junk q) none none none l k =
      star (weighted (massWeighting m) (fcDynMat cv r cells c0 S images fc junk q) none none none k l) := by
  simp only [weighted]
  rw [exact_of_counts cv r cells c0 S images hnd hv hcnt fc junk q hq, exact_of_counts cv r cells c0 S images hnd hv hcnt fc junk q hq,
    star_mul', star_sum]
  have hw : star ((massWeighting m k l : ℝ) : ℂ) = (massWeighting m l k : ℝ) := by
    rw [Complex.star_def, Complex.conj_ofReal]
    unfold massWeighting
    rw [mul_comm]
  rw [hw]
  congr 1
  rw [← (Function.Involutive.bijective hs.invol).sum_comp]
  refine Finset.sum_congr rfl fun c _ => ?_
  rw [hs.exchange, star_mul', Complex.star_def, Complex.conj_ofReal, ← Complex.star_def, ← expQR_neg',
    expQR_sub q (cells (op c)) (neg (cells c))]
  rw [expQR_lattice hq _ ⟨neg (t c), ?_⟩, one_mul]
  have ho := hs.origin c
  simp only [sub, add, neg, mulMat, V3.mk.injEq] at ho ⊢
  obtain ⟨h1, h2, h3⟩ := ho
  refine ⟨?_, ?_, ?_⟩ <;> linarith

theorem re_energy (fc : Fin N → Mat n ℝ) (rel : Fin N → Fin N → Fin N) (U : Fin N → Fin (n * 3) → ℂ) :
    (∑ c, ∑ k, star (U c k) * ∑ c', ∑ l, (periodicFc fc rel c k c' l : ℂ) * U c' l).re =
      energy fc rel (fun c k => (U c k).re) + energy fc rel (fun c k => (U c k).im) := by
  unfold energy
  simp only [Finset.mul_sum, Complex.re_sum, ← Finset.sum_add_distrib]
  refine Finset.sum_congr rfl fun c _ => Finset.sum_congr rfl fun k _ => Finset.sum_congr rfl fun c' _ =>
    Finset.sum_congr rfl fun l _ => ?_
  simp [Complex.mul_re, Complex.mul_im]
  ring

theorem norm_expQR (q : V3 ℝ) (R : V3 ℤ) : star (expQR q R) * expQR q R = 1 := by
  unfold expQR
  rw [Complex.star_def, ← Complex.exp_conj, ← Complex.exp_add, Complex.exp_eq_one_iff]
  exact ⟨0, by
    simp only [map_mul, Complex.conj_ofReal, Complex.conj_I, Complex.conj_ofNat]
    push_cast
    ring⟩

/-- If no displacement of the atoms of the supercell (with periodic boundary conditions) lowers the harmonic
energy, then no frequency at a wavevector that fits into the supercell is imaginary (negative, in the output). -/
theorem stable_of_counts (hd : DistinctCells S cells) {rel : Fin N → Fin N → Fin N}
    (hrel : ∀ i j, IsTranslation S cells i j (rel i j)) (images : List (V3 ℤ)) (hnd : images.Nodup)
    (hv : cellVolume (scVecs S cv) ≠ 0) (hcnt : ∀ c i j, (imageLoops cv r cells c0 S images).cnt c i j ≠ 0)
    {fc : Fin N → Mat n ℝ} {op : Fin N → Fin N} {t : Fin N → V3 ℤ} (hs : Symmetric cells S fc op t)
    (junk : Fin N → Mat n ℝ) (hE : ∀ u, 0 ≤ energy fc rel u) (q : V3 ℝ) (hq : Fits S q) (m : Fin n → ℝ)
    (hm : ∀ i, 0 < m i) {eigh : (Fin (n * 3) → Fin (n * 3) → ℂ) → (Fin (n * 3) → ℝ) × (Fin (n * 3) → Fin (n * 3) → ℂ)}
    (he : IsEigh eigh) (s : Fin (n * 3)) :
    0 ≤ freqOf ((eigh (weighted (massWeighting m) (fcDynMat cv r cells c0 S images fc junk q) none none none)).1 s) := by
  have hA := weighted_hermitian cv r cells c0 S images hnd hv hcnt hs junk q hq m
  set A := weighted (massWeighting m) (fcDynMat cv r cells c0 S images fc junk q) none none none with hAdef
  set v := (eigh A).1 s with hvdef
  set e := (eigh A).2 s with hedef
  have heig := he.eigen A hA s
  have hort := he.ortho A hA s s
  rw [if_pos rfl] at hort
  set U : Fin N → Fin (n * 3) → ℂ := fun c k => e k / (√(m k.divNat) : ℝ) * expQR q (cells c) with hU
  have hpos := add_nonneg (hE fun c k => (U c k).re) (hE fun c k => (U c k).im)
  rw [← re_energy] at hpos
  have hmode := normal_mode_of_counts cv r cells c0 S hd hrel images hnd hv hcnt fc junk q hq m hm e v heig
  have hsum : (∑ c, ∑ k, star (U c k) * ∑ c', ∑ l, (periodicFc fc rel c k c' l : ℂ) * U c' l) = (N : ℂ) * v := by
    have h1 : ∀ c k, star (U c k) * ∑ c', ∑ l, (periodicFc fc rel c k c' l : ℂ) * U c' l = v * (star (e k) * e k) := by
      intro c k
      rw [hU] at *
      dsimp only
      rw [hmode c k]
      have hs : (√(m k.divNat) : ℂ) ≠ 0 := by
        rw [Ne, Complex.ofReal_eq_zero]; exact (Real.sqrt_pos.2 (hm _)).ne'
      have hmm : ((m k.divNat : ℝ) : ℂ) = (√(m k.divNat) : ℝ) * (√(m k.divNat) : ℝ) := by
        rw [← Complex.ofReal_mul, Real.mul_self_sqrt (hm _).le]
      have hn := norm_expQR q (cells c)
      have hst : star (e k / ((√(m k.divNat) : ℝ) : ℂ) * expQR q (cells c)) =
          star (e k) / ((√(m k.divNat) : ℝ) : ℂ) * star (expQR q (cells c)) := by
        rw [star_mul', star_div₀]
        congr 2
        exact Complex.conj_ofReal _
      rw [hst, hmm]
      calc _ = v * (star (e k) * e k) * (star (expQR q (cells c)) * expQR q (cells c)) := by field_simp
        _ = _ := by rw [hn, mul_one]
    simp only [h1, ← Finset.mul_sum, Finset.sum_const, Finset.card_univ, Fintype.card_fin, nsmul_eq_mul]
    rw [hort]
    ring
  rw [hsum] at hpos
  have hN : (0 : ℝ) < N := by exact_mod_cast c0.pos
  have hv0 : 0 ≤ v := by
    have : ((N : ℂ) * (v : ℂ)).re = N * v := by
      rw [← Complex.ofReal_natCast, ← Complex.ofReal_mul, Complex.ofReal_re]
    rw [this] at hpos
    exact nonneg_of_mul_nonneg_right hpos hN
  unfold freqOf
  rw [if_neg (not_lt.2 hv0)]
  exact Real.sqrt_nonneg _

end

/-! ## Theorems -/

section
variable (cv : M3 ℝ) (r : Fin n → V3 ℝ) (cells : Fin N → V3 ℤ) (c0 : Fin N) (S : M3 ℤ)

/-- **C129** (partial: for reduced supercells) At a wavevector that fits into the supercell, the dynamical matrix is the
Fourier sum of the force constants: it does not matter which images of the cells are taken, nor how many. -/
theorem C129_exact_partial (images : List (V3 ℤ)) (hok : ReducedSupercell cv r cells c0 S images)
    (fc junk : Fin N → Mat n ℝ) (q : V3 ℝ) (hq : Fits S q) (k l : Fin (n * 3)) :
    fcDynMat cv r cells c0 S images fc junk q k l = ∑ c, (fc c k l : ℂ) * expQR q (cells c) :=
  exact_of_counts cv r cells c0 S images (mem_shells hok.shells).1 hok.volume
    (counts_pos cv r cells c0 S hok.shells hok.volume hok.reduced hok.within) fc junk q hq k l

/-- **C129** (partial: for reduced supercells) A mode at a wavevector that fits into the supercell is a normal mode of the
supercell with periodic boundary conditions: displaced along it, every atom feels the force `-w^2 m u`. -/
theorem C129_normal_mode_partial (images : List (V3 ℤ)) (hok : ReducedSupercell cv r cells c0 S images)
    (hd : DistinctCells S cells) {rel : Fin N → Fin N → Fin N} (hrel : ∀ i j, IsTranslation S cells i j (rel i j))
    (fc junk : Fin N → Mat n ℝ) (q : V3 ℝ) (hq : Fits S q) (m : Fin n → ℝ) (hm : ∀ i, 0 < m i)
    (e : Fin (n * 3) → ℂ) (v : ℂ)
    (h : ∀ k, ∑ l, weighted (massWeighting m) (fcDynMat cv r cells c0 S images fc junk q) none none none k l * e l
      = v * e k) (c : Fin N) (k : Fin (n * 3)) :
    ∑ c', ∑ l, (periodicFc fc rel c k c' l : ℂ) * (e l / (√(m l.divNat) : ℝ) * expQR q (cells c')) =
      v * (m k.divNat : ℝ) * (e k / (√(m k.divNat) : ℝ) * expQR q (cells c)) :=
  normal_mode_of_counts cv r cells c0 S hd hrel images (mem_shells hok.shells).1 hok.volume
    (counts_pos cv r cells c0 S hok.shells hok.volume hok.reduced hok.within) fc junk q hq m hm e v h c k

/-- **C129** (partial: for reduced supercells) If no displacement of the atoms of the supercell (with periodic boundary
conditions) lowers the harmonic energy, then no frequency at a wavevector that fits into the supercell is imaginary
(negative, in the output). -/
theorem C129_stable_partial (images : List (V3 ℤ)) (hok : ReducedSupercell cv r cells c0 S images)
    (hd : DistinctCells S cells) {rel : Fin N → Fin N → Fin N} (hrel : ∀ i j, IsTranslation S cells i j (rel i j))
    {fc : Fin N → Mat n ℝ} {op : Fin N → Fin N} {t : Fin N → V3 ℤ} (hs : Symmetric cells S fc op t)
    (junk : Fin N → Mat n ℝ) (hE : ∀ u, 0 ≤ energy fc rel u) (q : V3 ℝ) (hq : Fits S q) (m : Fin n → ℝ)
    (hm : ∀ i, 0 < m i) {eigh : (Fin (n * 3) → Fin (n * 3) → ℂ) → (Fin (n * 3) → ℝ) × (Fin (n * 3) → Fin (n * 3) → ℂ)}
    (he : IsEigh eigh) (s : Fin (n * 3)) :
    0 ≤ freqOf ((eigh (weighted (massWeighting m) (fcDynMat cv r cells c0 S images fc junk q) none none none)).1 s) :=
  stable_of_counts cv r cells c0 S hd hrel images (mem_shells hok.shells).1 hok.volume
    (counts_pos cv r cells c0 S hok.shells hok.volume hok.reduced hok.within) hs junk hE q hq m hm he s

end

/-- **C129** *Violation:* in a supercell that is not reduced, the force constants of a pair of atoms are lost at all
wavevectors, also at those that fit: the Fourier sum is whatever the force constant is, the dynamical matrix is zero. -/
theorem C129_lost (x : ℝ) (hx : x ≠ 0) (junk : Fin 1 → Mat 2 ℝ) : Fits one ⟨0, 0, 0⟩ ∧ ∃ k l : Fin (2 * 3),
    fcDynMat (N := 1) skewed ![⟨0, 0, 0⟩, ⟨0, 1 / 2, 0⟩] (fun _ => ⟨0, 0, 0⟩) 0 one shells2 (fun _ _ _ => x) junk
      ⟨0, 0, 0⟩ k l ≠ ∑ c : Fin 1, (((fun _ _ _ => x : Fin 1 → Mat 2 ℝ) c k l : ℝ) : ℂ) * expQR ⟨0, 0, 0⟩ ⟨0, 0, 0⟩ := by
  refine ⟨⟨⟨0, 0, 0⟩, by simp [one], by simp [one], by simp [one]⟩, 0, 3, ?_⟩
  rw [(C123_lost (fun _ _ _ => x) junk ⟨0, 0, 0⟩ 0 3 (by decide) (by decide)).2]
  simp [expQR, hx, eq_comm]

/-! ## Example: a chain of atoms on springs in the supercell 2x1x1 -/

namespace Chain

open Euphonic.DynMat.Ex

/-- An atom is tied to its neighbour in each direction. -/
noncomputable def fc : Fin 2 → Mat 1 ℝ := fun c k l => if k = l then ![2, -2] c else 0

/-- Translations between the two cells. -/
def rel : Fin 2 → Fin 2 → Fin 2 := fun i j => if i = j then 0 else 1

theorem distinct : DistinctCells S cells := by
  intro j k h
  obtain ⟨m, hm⟩ := h
  fin_cases j <;> fin_cases k <;> first | rfl | (exfalso; simp [cells, S, sub, mulMat] at hm; omega)

theorem translation : ∀ i j, IsTranslation S cells i j (rel i j) := by
  intro i j
  fin_cases i <;> fin_cases j
  · exact ⟨⟨0, 0, 0⟩, by decide⟩
  · exact ⟨⟨0, 0, 0⟩, by decide⟩
  · exact ⟨⟨-1, 0, 0⟩, by decide⟩
  · exact ⟨⟨0, 0, 0⟩, by decide⟩

theorem symmetric : Symmetric cells S fc id ![⟨0, 0, 0⟩, ⟨-1, 0, 0⟩] where
  invol := fun _ => rfl
  origin := by decide
  exchange := by
    intro c k l
    simp only [fc, id, eq_comm]

theorem stable (u : Fin 2 → Fin (1 * 3) → ℝ) : 0 ≤ energy fc rel u := by
  have : energy fc rel u = ∑ k, 2 * (u 0 k - u 1 k) ^ 2 := by
    unfold energy periodicFc fc rel
    simp [Fin.sum_univ_two, ← Finset.sum_add_distrib, Finset.sum_ite_eq]
    refine Finset.sum_congr rfl fun k _ => ?_
    ring
  rw [this]
  positivity

theorem fits : Fits S ⟨1 / 2, 3, -1⟩ := ⟨⟨1, 3, -1⟩, by norm_num [S], by norm_num [S], by norm_num [S]⟩

theorem reduced : IsReduced (scVecs S cv) := by
  have e : ∀ a b c : ℝ, Images.sq (toCart (scVecs S cv) ⟨a, b, c⟩) = 4 * a ^ 2 + b ^ 2 + c ^ 2 := by
    intro a b c
    simp [Images.sq, dot, toCart, scVecs, S, cv, castV]
    ring
  have ea : Images.sq (scVecs S cv).a = 4 := by simp [Images.sq, dot, toCart, scVecs, S, cv, castV]; norm_num
  have eb : Images.sq (scVecs S cv).b = 1 := by simp [Images.sq, dot, toCart, scVecs, S, cv, castV]
  have ec : Images.sq (scVecs S cv).c = 1 := by simp [Images.sq, dot, toCart, scVecs, S, cv, castV]
  have h1 : ∀ x : ℤ, |x| = 1 → (x : ℝ) ^ 2 = 1 := by
    intro x hx
    have : x ^ 2 = 1 := by rw [← sq_abs, hx, one_pow]
    exact_mod_cast this
  refine ⟨fun a b c ha hb hc => ?_, fun a b c ha hb hc => ?_, fun a b c ha hb hc => ?_⟩
  · rw [e, ea, h1 a ha]; nlinarith [sq_nonneg (b : ℝ), sq_nonneg (c : ℝ)]
  · rw [e, eb, h1 b hb]; nlinarith [sq_nonneg (a : ℝ), sq_nonneg (c : ℝ)]
  · rw [e, ec, h1 c hc]; nlinarith [sq_nonneg (a : ℝ), sq_nonneg (b : ℝ)]

theorem within : ∀ (c : Fin 2) (i j : Fin 1), ∃ f,
    WithinOne S (sub (add (castV ℝ (cells 0)) (r i)) (add (castV ℝ (cells c)) (r j))) f := by
  intro c i j
  fin_cases c
  · exact ⟨⟨0, 0, 0⟩, by simp, by simp, by simp, by simp [S, cells, r, sub, add, castV]⟩
  · exact ⟨⟨-1 / 2, 0, 0⟩, by norm_num [abs_le], by simp, by simp, by simp [S, cells, r, sub, add, castV]⟩

theorem ok : ReducedSupercell cv r cells 0 S shells2 := ⟨shells2_eq, volume, reduced, within⟩

/-- All the hypotheses hold together; at the boundary of the zone (with a reciprocal lattice vector added) the dynamical
matrix has `4` on the diagonal. -/
example (junk : Fin 2 → Mat 1 ℝ) (k : Fin (1 * 3)) : fcDynMat cv r cells 0 S shells2 fc junk ⟨1 / 2, 3, -1⟩ k k = 4 := by
  rw [C129_exact_partial cv r cells 0 S shells2 ok fc junk _ fits]
  have e0 : expQR ⟨1 / 2, 3, -1⟩ (cells 0) = 1 := by simp [expQR, cells]
  have e1 : expQR ⟨1 / 2, 3, -1⟩ (cells 1) = -1 := by
    have h : (2 : ℂ) * Real.pi * ((1 / 2 : ℝ) * ((cells 1).x : ℝ) + 3 * ((cells 1).y : ℝ) + -1 * ((cells 1).z : ℝ) : ℝ)
        * Complex.I = Real.pi * Complex.I := by
      simp [cells]
      ring
    unfold expQR
    rw [h, Complex.exp_pi_mul_I]
  rw [Fin.sum_univ_two, e0, e1]
  simp [fc]
  norm_num

/-- The chain has no imaginary frequencies there, whatever the mass. -/
example (junk : Fin 2 → Mat 1 ℝ) (m : Fin 1 → ℝ) (hm : ∀ i, 0 < m i)
    {eigh : (Fin (1 * 3) → Fin (1 * 3) → ℂ) → (Fin (1 * 3) → ℝ) × (Fin (1 * 3) → Fin (1 * 3) → ℂ)} (he : IsEigh eigh)
    (s : Fin (1 * 3)) : 0 ≤ freqOf ((eigh (weighted (massWeighting m)
      (fcDynMat cv r cells 0 S shells2 fc junk ⟨1 / 2, 3, -1⟩) none none none)).1 s) :=
  C129_stable_partial cv r cells 0 S shells2 ok distinct translation symmetric junk stable _ fits m hm he s

end Chain

end Euphonic.Commensurate
