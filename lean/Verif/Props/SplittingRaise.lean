import Verif.Props.SplittingLimit
import Verif.Props.Response

/-!
# The splitting at gamma points raises frequencies, one mode at a time (C171)

The term that depends on the direction of approach describes the electric field of a longitudinal wave.  It acts only on the dipole
moment of a mode along the direction, so it raises the frequencies of longitudinal modes and leaves transverse modes as they are;
the ordered frequencies with and without it interlace, and the squares of the frequencies grow together by the square of the plasma
frequency of the ions.
-/

set_option autoImplicit false
set_option linter.unusedSectionVars false

namespace Euphonic.SplittingRaise

open Euphonic.Lattice Euphonic.DynMat Euphonic.Dipole Euphonic.Stability

section linear
variable {m : Nat} {eigh : (Fin m → Fin m → ℂ) → (Fin m → ℝ) × (Fin m → Fin m → ℂ)}

/-- `star v A v`. -/
noncomputable def quad (A : Fin m → Fin m → ℂ) (v : Fin m → ℂ) : ℂ := ∑ k, ∑ l, star (v k) * A k l * v l

theorem le_quad (he : IsEigh eigh) {A : Fin m → Fin m → ℂ} (hA : ∀ k l, A l k = star (A k l)) {v : Fin m → ℂ} {s : Fin m}
    (h : ∀ t < s, coef eigh A v t = 0) : (eigh A).1 s * ∑ k, ‖v k‖ ^ 2 ≤ (quad A v).re := by
  rw [quad, quad_eq he A hA v, Complex.ofReal_re, ← norm_eq he A hA v, Finset.mul_sum]
  refine Finset.sum_le_sum fun t _ => ?_
  rcases lt_or_ge t s with ht | ht
  · rw [h t ht]; simp
  · exact mul_le_mul_of_nonneg_right (he.mono A hA ht) (sq_nonneg _)

theorem quad_le' (he : IsEigh eigh) {A : Fin m → Fin m → ℂ} (hA : ∀ k l, A l k = star (A k l)) {v : Fin m → ℂ} {s : Fin m}
    (h : ∀ t, s < t → coef eigh A v t = 0) : (quad A v).re ≤ (eigh A).1 s * ∑ k, ‖v k‖ ^ 2 := by
  rw [quad, quad_eq he A hA v, Complex.ofReal_re, ← norm_eq he A hA v, Finset.mul_sum]
  refine Finset.sum_le_sum fun t _ => ?_
  rcases lt_or_ge s t with ht | ht
  · rw [h t ht]; simp
  · exact mul_le_mul_of_nonneg_right (he.mono A hA ht) (sq_nonneg _)

theorem norm_pos {v : Fin m → ℂ} (hv : v ≠ 0) : 0 < ∑ k, ‖v k‖ ^ 2 := by
  obtain ⟨k, hk⟩ := Function.ne_iff.1 hv
  exact Finset.sum_pos' (fun k _ => sq_nonneg _) ⟨k, Finset.mem_univ _, by have := norm_pos_iff.2 hk; positivity⟩

/-- Larger matrices have larger eigenvalues. -/
theorem eigenvalue_mono (he : IsEigh eigh) {A B : Fin m → Fin m → ℂ} (hA : ∀ k l, A l k = star (A k l))
    (hB : ∀ k l, B l k = star (B k l)) (h : ∀ v, (quad A v).re ≤ (quad B v).re) (s : Fin m) : (eigh A).1 s ≤ (eigh B).1 s := by
  obtain ⟨v, hv, h1, h2⟩ := exists_vec (eigh := eigh) A B s
  exact le_of_mul_le_mul_right ((le_quad he hA h1).trans ((h v).trans (quad_le' he hB h2))) (norm_pos hv)

open scoped Matrix in
/-- There is a vector orthogonal to the modes of `B` below `s`, to `b`, and to the modes of `A` above `s + 1`. -/
theorem exists_vec_one (A B : Fin m → Fin m → ℂ) (b : Fin m → ℝ) (s s' : Fin m) (hs : s'.val = s.val + 1) :
    ∃ v : Fin m → ℂ, v ≠ 0 ∧ (∀ t < s, coef eigh B v t = 0) ∧ ∑ k, (b k : ℂ) * v k = 0 ∧ ∀ t, s' < t → coef eigh A v t = 0 := by
  set M : Matrix (Fin m) (Fin m) ℂ := Matrix.of fun t k =>
    if t < s then star ((eigh B).2 t k) else if t = s then (b k : ℂ) else if s' < t then star ((eigh A).2 t k) else 0 with hM
  have hne : ¬ s' < s ∧ s' ≠ s := ⟨fun h => by have : s'.val < s.val := h; omega, fun h => by rw [h] at hs; omega⟩
  have hd : M.det = 0 := Matrix.det_eq_zero_of_row_eq_zero s' fun k => by
    simp only [hM, Matrix.of_apply]
    rw [if_neg hne.1, if_neg hne.2, if_neg (lt_irrefl _)]
  obtain ⟨v, hv, h⟩ := Matrix.exists_mulVec_eq_zero_iff.2 hd
  refine ⟨v, hv, fun t ht => ?_, ?_, fun t ht => ?_⟩
  · have := congrFun h t
    simpa [Matrix.mulVec, dotProduct, hM, ht, coef] using this
  · have := congrFun h s
    simpa [Matrix.mulVec, dotProduct, hM] using this
  · have h1 : ¬ t < s ∧ t ≠ s := by
      have : s'.val < t.val := ht
      exact ⟨fun h => by have : t.val < s.val := h; omega, fun h => by rw [h] at this; omega⟩
    have := congrFun h t
    simpa [Matrix.mulVec, dotProduct, hM, ht, h1.1, h1.2, coef] using this

/-- If the quadratic forms agree on the vectors orthogonal to `b`, at most one eigenvalue passes the next. -/
theorem interlace (he : IsEigh eigh) {A B : Fin m → Fin m → ℂ} (hA : ∀ k l, A l k = star (A k l))
    (hB : ∀ k l, B l k = star (B k l)) (b : Fin m → ℝ) (h : ∀ v, ∑ k, (b k : ℂ) * v k = 0 → quad B v = quad A v) (s s' : Fin m)
    (hs : s'.val = s.val + 1) : (eigh B).1 s ≤ (eigh A).1 s' := by
  obtain ⟨v, hv, h1, h2, h3⟩ := exists_vec_one (eigh := eigh) A B b s s' hs
  have h4 := le_quad he hB h1
  rw [h v h2] at h4
  exact le_of_mul_le_mul_right (h4.trans (quad_le' he hA h3)) (norm_pos hv)

end linear

section
variable {n : Nat}

/-- Strength of the splitting. -/
noncomputable def strength (o : Ions n) (u : V3 ℝ) : ℝ := 4 * Real.pi / (cellVolume o.cv * epsForm o (cartDir o u))

/-- The matrix that the code diagonalises at a gamma point, with or without the splitting of a direction. -/
noncomputable def atGamma (mass : Fin n → ℝ) (o : Ions n) (d : Mat n ℂ) (dip asr : Option (Mat n ℂ)) (dir : Option (V3 ℝ)) : Mat n ℂ :=
  weighted (massWeighting mass) d dip asr (dir.map (gammaCorrection o))

/-- Dipole moment along the direction (times its length) of a displacement given by mass weighted components. -/
noncomputable def moment (mass : Fin n → ℝ) (o : Ions n) (u : V3 ℝ) (v : Fin (n * 3) → ℂ) : ℂ :=
  ∑ k, ((bornDot o (cartDir o u) k / √(mass k.divNat) : ℝ) : ℂ) * v k

theorem atGamma_eq (mass : Fin n → ℝ) (hm : ∀ i, 0 < mass i) (o : Ions n) (d : Mat n ℂ) (dip asr : Option (Mat n ℂ)) {u : V3 ℝ}
    (hu : isGamma u = false) (k l : Fin (n * 3)) :
    atGamma mass o d dip asr (some u) k l = atGamma mass o d dip asr none k l +
      ((strength o u * (bornDot o (cartDir o u) k / √(mass k.divNat)) * (bornDot o (cartDir o u) l / √(mass l.divNat)) : ℝ) : ℂ) := by
  have h1 : atGamma mass o d dip asr (some u) k l = atGamma mass o d dip asr none k l +
      gammaCorrection o u k l * (massWeighting mass k l : ℂ) := by
    unfold atGamma
    cases dip <;> cases asr <;> simp only [Option.map_some, Option.map_none, weighted, Pi.add_apply] <;> ring
  rw [h1, gammaCorrection_eq o u hu, ← Complex.ofReal_mul]
  congr 2
  unfold loto massWeighting strength volume
  rw [Real.sqrt_mul (hm _).le]
  ring

theorem quad_atGamma (mass : Fin n → ℝ) (hm : ∀ i, 0 < mass i) (o : Ions n) (d : Mat n ℂ) (dip asr : Option (Mat n ℂ)) {u : V3 ℝ}
    (hu : isGamma u = false) (v : Fin (n * 3) → ℂ) :
    quad (atGamma mass o d dip asr (some u)) v = quad (atGamma mass o d dip asr none) v +
      ((strength o u * ‖moment mass o u v‖ ^ 2 : ℝ) : ℂ) := by
  have e : ((‖moment mass o u v‖ ^ 2 : ℝ) : ℂ) = star (moment mass o u v) * moment mass o u v := by
    rw [Complex.star_def, ← Complex.normSq_eq_conj_mul_self, Complex.normSq_eq_norm_sq]
  rw [Complex.ofReal_mul, e, moment, star_sum, Finset.sum_mul, Finset.mul_sum, quad, quad, ← Finset.sum_add_distrib]
  refine Finset.sum_congr rfl fun k _ => ?_
  rw [Finset.mul_sum, Finset.mul_sum, ← Finset.sum_add_distrib]
  refine Finset.sum_congr rfl fun l _ => ?_
  rw [atGamma_eq mass hm o d dip asr hu, star_mul', Complex.star_def, Complex.conj_ofReal]
  push_cast
  ring

theorem isGamma_ne {u : V3 ℝ} (hu : isGamma u = false) : u ≠ ⟨0, 0, 0⟩ := by
  rintro rfl
  have h := rint_intCast (K := ℝ) 0
  rw [Int.cast_zero] at h
  simp [isGamma, sumAbs, rem, h] at hu

theorem epsForm_pos {o : Ions n} (hv : cellVolume o.cv ≠ 0) (hp : PosDef o) {u : V3 ℝ} (hu : isGamma u = false) :
    0 < epsForm o (cartDir o u) := by
  have h := hp _ (toCart_ne hv (isGamma_ne hu))
  rwa [epsForm_eq] at h

section
variable {mass : Fin n → ℝ} {o : Ions n} {d : Mat n ℂ} {dip asr : Option (Mat n ℂ)}

theorem atGamma_herm (hd : ∀ k l, d l k = star (d k l)) (h1 : HermOpt dip) (h2 : HermOpt asr) (dir : Option (V3 ℝ))
    (k l : Fin (n * 3)) : atGamma mass o d dip asr dir l k = star (atGamma mass o d dip asr dir k l) := by
  refine weighted_herm mass hd h1 h2 ?_ k l
  intro M hM k l
  cases dir with
  | none => simp at hM
  | some u =>
    simp only [Option.map_some, Option.some.injEq] at hM
    subst hM
    unfold gammaCorrection
    split
    · simp
    · simp only [Complex.star_def, Complex.conj_ofReal]
      congr 1
      ring

variable {eigh : Mat n ℂ → (Fin (n * 3) → ℝ) × Mat n ℂ}

/-! ## Theorems -/

/-- **C171** (partial: for right handed cells) No frequency is lowered by the splitting. -/
theorem C171_raises_partial (hm : ∀ i, 0 < mass i) (hv : 0 < cellVolume o.cv) (hp : PosDef o) (hd : ∀ k l, d l k = star (d k l))
    (h1 : HermOpt dip) (h2 : HermOpt asr) {u : V3 ℝ} (hu : isGamma u = false) (he : IsEigh eigh) (s : Fin (n * 3)) :
    freqOf ((eigh (atGamma mass o d dip asr none)).1 s) ≤ freqOf ((eigh (atGamma mass o d dip asr (some u))).1 s) := by
  refine Response.freqOf_le (eigenvalue_mono he (atGamma_herm hd h1 h2 _) (atGamma_herm hd h1 h2 _) (fun v => ?_) s)
  rw [quad_atGamma mass hm o d dip asr hu, Complex.add_re, Complex.ofReal_re, le_add_iff_nonneg_right]
  have := epsForm_pos hv.ne' hp hu
  have := Real.pi_pos
  unfold strength
  positivity

/-- **C171** *Violation:* for left handed cells no frequency is raised. -/
theorem C171_left_handed (hm : ∀ i, 0 < mass i) (hv : cellVolume o.cv < 0) (hp : PosDef o) (hd : ∀ k l, d l k = star (d k l))
    (h1 : HermOpt dip) (h2 : HermOpt asr) {u : V3 ℝ} (hu : isGamma u = false) (he : IsEigh eigh) (s : Fin (n * 3)) :
    freqOf ((eigh (atGamma mass o d dip asr (some u))).1 s) ≤ freqOf ((eigh (atGamma mass o d dip asr none)).1 s) := by
  refine Response.freqOf_le (eigenvalue_mono he (atGamma_herm hd h1 h2 _) (atGamma_herm hd h1 h2 _) (fun v => ?_) s)
  rw [quad_atGamma mass hm o d dip asr hu, Complex.add_re, Complex.ofReal_re, add_le_iff_nonpos_right]
  have h3 := mul_neg_of_neg_of_pos hv (epsForm_pos hv.ne hp hu)
  refine mul_nonpos_of_nonpos_of_nonneg ?_ (sq_nonneg _)
  exact div_nonpos_of_nonneg_of_nonpos (by have := Real.pi_pos; positivity) h3.le

/-- **C171** At most one mode passes the next: the frequencies with and without the splitting interlace. -/
theorem C171_interlace (hm : ∀ i, 0 < mass i) (hd : ∀ k l, d l k = star (d k l))
    (h1 : HermOpt dip) (h2 : HermOpt asr) {u : V3 ℝ} (hu : isGamma u = false) (he : IsEigh eigh) (s s' : Fin (n * 3))
    (hs : s'.val = s.val + 1) :
    freqOf ((eigh (atGamma mass o d dip asr (some u))).1 s) ≤ freqOf ((eigh (atGamma mass o d dip asr none)).1 s') ∧
    freqOf ((eigh (atGamma mass o d dip asr none)).1 s) ≤ freqOf ((eigh (atGamma mass o d dip asr (some u))).1 s') := by
  have h : ∀ v, ∑ k, ((bornDot o (cartDir o u) k / √(mass k.divNat) : ℝ) : ℂ) * v k = 0 →
      quad (atGamma mass o d dip asr (some u)) v = quad (atGamma mass o d dip asr none) v := by
    intro v hv
    have h0 : moment mass o u v = 0 := hv
    rw [quad_atGamma mass hm o d dip asr hu, h0]
    simp
  exact ⟨Response.freqOf_le (interlace he (atGamma_herm hd h1 h2 _) (atGamma_herm hd h1 h2 _) _ h s s' hs),
    Response.freqOf_le (interlace he (atGamma_herm hd h1 h2 _) (atGamma_herm hd h1 h2 _) _ (fun v hv => (h v hv).symm) s s' hs)⟩

/-- **C171** Transverse modes, those without a dipole moment along the direction, are modes of the same frequency with and without
the splitting. -/
theorem C171_transverse (hm : ∀ i, 0 < mass i) {u : V3 ℝ} (hu : isGamma u = false) (v : Fin (n * 3) → ℂ)
    (hv : moment mass o u v = 0) (x : ℂ) :
    (∀ k, ∑ l, atGamma mass o d dip asr (some u) k l * v l = x * v k) ↔
      ∀ k, ∑ l, atGamma mass o d dip asr none k l * v l = x * v k := by
  refine forall_congr' fun k => ?_
  have e : ∑ l, atGamma mass o d dip asr (some u) k l * v l = ∑ l, atGamma mass o d dip asr none k l * v l +
      ((strength o u * (bornDot o (cartDir o u) k / √(mass k.divNat)) : ℝ) : ℂ) * moment mass o u v := by
    rw [moment, Finset.mul_sum, ← Finset.sum_add_distrib]
    refine Finset.sum_congr rfl fun l _ => ?_
    rw [atGamma_eq mass hm o d dip asr hu]
    push_cast
    ring
  rw [e, hv, mul_zero, add_zero]

/-- **C171** The squares of the frequencies (with the sign of the frequencies) grow together by the square of the plasma frequency
of the ions for the direction, whatever the force constants are. -/
theorem C171_total (hm : ∀ i, 0 < mass i) (hd : ∀ k l, d l k = star (d k l)) (h1 : HermOpt dip) (h2 : HermOpt asr) {u : V3 ℝ}
    (hu : isGamma u = false) (he : IsEigh eigh) :
    let f := fun (dir : Option (V3 ℝ)) s => freqOf ((eigh (atGamma mass o d dip asr dir)).1 s)
    ∑ s, f (some u) s * |f (some u) s| = ∑ s, f none s * |f none s| +
      4 * Real.pi / (cellVolume o.cv * epsForm o (cartDir o u)) * ∑ k, bornDot o (cartDir o u) k ^ 2 / mass k.divNat := by
  intro f
  simp only [f, (C51_frequency_sign _).1]
  have h3 := Describe.trace_eq he _ (atGamma_herm (mass := mass) (o := o) (asr := asr) hd h1 h2 (some u))
  have h4 := Describe.trace_eq he _ (atGamma_herm (mass := mass) (o := o) (asr := asr) hd h1 h2 none)
  have h5 : ∀ k, atGamma mass o d dip asr (some u) k k = atGamma mass o d dip asr none k k +
      ((strength o u * (bornDot o (cartDir o u) k ^ 2 / mass k.divNat) : ℝ) : ℂ) := by
    intro k
    rw [atGamma_eq mass hm o d dip asr hu]
    congr 2
    rw [mul_assoc, div_mul_div_comm, Real.mul_self_sqrt (hm _).le, ← sq]
  rw [Finset.sum_congr rfl fun k _ => h5 k, Finset.sum_add_distrib, ← h4, ← Complex.ofReal_sum, ← Complex.ofReal_sum,
    ← Complex.ofReal_sum, ← Complex.ofReal_add, Complex.ofReal_inj, ← Finset.mul_sum] at h3
  exact h3

/-- **C171** (partial: for right handed cells) If an ion feels the field along the direction, some frequency is raised. -/
theorem C171_strict_partial (hm : ∀ i, 0 < mass i) (hv : 0 < cellVolume o.cv) (hp : PosDef o) (hd : ∀ k l, d l k = star (d k l))
    (h1 : HermOpt dip) (h2 : HermOpt asr) {u : V3 ℝ} (hu : isGamma u = false) (he : IsEigh eigh) {k : Fin (n * 3)}
    (hk : bornDot o (cartDir o u) k ≠ 0) :
    ∃ s, freqOf ((eigh (atGamma mass o d dip asr none)).1 s) < freqOf ((eigh (atGamma mass o d dip asr (some u))).1 s) := by
  by_contra hcon
  push Not at hcon
  have h3 := C171_total (o := o) hm hd h1 h2 hu he
  have h4 : ∀ s, freqOf ((eigh (atGamma mass o d dip asr none)).1 s) = freqOf ((eigh (atGamma mass o d dip asr (some u))).1 s) :=
    fun s => le_antisymm (C171_raises_partial hm hv hp hd h1 h2 hu he s) (hcon s)
  simp only [h4] at h3
  rw [left_eq_add] at h3
  have h5 : 0 < ∑ k, bornDot o (cartDir o u) k ^ 2 / mass k.divNat :=
    Finset.sum_pos' (fun k _ => div_nonneg (sq_nonneg _) (hm _).le) ⟨k, Finset.mem_univ _, div_pos (by positivity) (hm _)⟩
  have h6 := epsForm_pos hv.ne' hp hu
  have := Real.pi_pos
  have : 0 < 4 * Real.pi / (cellVolume o.cv * epsForm o (cartDir o u)) * ∑ k, bornDot o (cartDir o u) k ^ 2 / mass k.divNat := by
    positivity
  linarith

end

end

/-! ## A case meeting the hypotheses -/

namespace Ex

open Euphonic.Describe Euphonic.Describe.Ex Euphonic.Reduced Euphonic.Images

/-- In the polar chain of `Describe.Ex` with the direction (1/2, 1/3, 0) some frequency is raised, and none is lowered. -/
example (junk : Fin 2 → Mat 2 ℝ) {eigh : Mat 2 ℂ → (Fin (2 * 3) → ℝ) × Mat 2 ℂ} (hE : IsEigh eigh) :
    (∀ s, freqOf ((eigh (codeMatrix Poisson.erfc0 Describe.Ex.d born diel 1 shells2 junk none ⟨0, 0, 0⟩ none)).1 s) ≤
      freqOf ((eigh (codeMatrix Poisson.erfc0 Describe.Ex.d born diel 1 shells2 junk none ⟨0, 0, 0⟩ (some ⟨1 / 2, 1 / 3, 0⟩))).1 s)) ∧
    ∃ s, freqOf ((eigh (codeMatrix Poisson.erfc0 Describe.Ex.d born diel 1 shells2 junk none ⟨0, 0, 0⟩ none)).1 s) <
      freqOf ((eigh (codeMatrix Poisson.erfc0 Describe.Ex.d born diel 1 shells2 junk none ⟨0, 0, 0⟩ (some ⟨1 / 2, 1 / 3, 0⟩))).1 s) := by
  have hH : ∀ k l, Describe.Ex.d.dynMat shells2 junk ⟨0, 0, 0⟩ l k = star (Describe.Ex.d.dynMat shells2 junk ⟨0, 0, 0⟩ k l) :=
    fun k l => Reduced.C123_hermitian_partial Describe.Ex.d.cv Describe.Ex.d.r Describe.Ex.d.cells Describe.Ex.d.c0 Describe.Ex.d.S
      shells2 ok.reduced.shells ok.reduced.volume ok.reduced.reduced ok.reduced.within symmetric ok.first junk _ k l
  have hD : HermOpt (some (dipoleCorrection Poisson.erfc0 (Describe.Ex.d.ions born diel) 1 ⟨0, 0, 0⟩)) := by
    rintro M ⟨⟩ k l
    have h0 := C159_gamma Poisson.erfc0 (Describe.Ex.d.ions born diel) 1 ⟨0, 0, 0⟩
    have e0 : castV ℝ ⟨0, 0, 0⟩ = ⟨0, 0, 0⟩ := by simp [castV]
    rw [e0] at h0
    rw [h0]
    exact away_herm _ _ _ sound.symm _ k l
  have hm : ∀ i, 0 < Describe.Ex.d.mass i := by
    intro i
    fin_cases i <;> norm_num [Describe.Ex.d]
  refine ⟨fun s => C171_raises_partial hm sound.volume_pos sound.posDef hH hD (by simp [HermOpt]) LimitEx.dir_ne hE s,
    C171_strict_partial hm sound.volume_pos sound.posDef hH hD (by simp [HermOpt]) LimitEx.dir_ne hE (k := 0) ?_⟩
  have h1 : (0 : Fin (2 * 3)).divNat = 0 := rfl
  have h2 : (0 : Fin (2 * 3)).modNat = 0 := rfl
  have := Real.pi_ne_zero
  simp [bornDot, h1, h2, Description.ions, born, cartDir, Phases.comp, toCart, recip, Describe.Ex.d, DynMat.Ex.cv,
    reciprocalCell, cellVolume, dot, cross, Lattice.smul, this]

end Ex

end Euphonic.SplittingRaise
