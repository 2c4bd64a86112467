import Verif.Props.Describe
import Verif.Props.GradientGroup

/-!
# With `asr='reciprocal'` the frequencies depend on the description of the crystal (C131)

The correction is calculated at the gamma point and added at all wavevectors as it is.  The dynamical matrix has phases that
depend on the cell an atom is in; the correction has not.
-/

set_option autoImplicit false
set_option linter.unusedSectionVars false

namespace Euphonic.Describe

open Euphonic.Lattice Euphonic.Supercell Euphonic.Phases Euphonic.Images Euphonic.DynMat Euphonic.Reduced
open Euphonic.Commensurate Euphonic.Acoustic

variable {n N N' : Nat}

/-- The matrix that is diagonalised with `asr='reciprocal'`
(euphonic/force_constants.py:606-612, 827-832). -/
noncomputable def Description.corrected (d : Description n N) (images : List (V3 ℤ)) (junk : Fin N → Mat n ℝ)
    (eigh : Mat n ℂ → (Fin (n * 3) → ℝ) × Mat n ℂ) (q : V3 ℝ) : Mat n ℂ :=
  DynMat.weighted (massWeighting d.mass) (d.dynMat images junk q) none
    (Asr.enforceReciprocal n (fun k => k.modNat) (eigh (d.dynMat images junk ⟨0, 0, 0⟩)).1
      (eigh (d.dynMat images junk ⟨0, 0, 0⟩)).2) none

open Classical in
/-- There is an eigensolver that finds real eigenvectors for real matrices. -/
theorem exists_isEigh_real (m : Nat) :
    ∃ eigh : (Fin m → Fin m → ℂ) → (Fin m → ℝ) × (Fin m → Fin m → ℂ), IsEigh eigh ∧
      ∀ B : Fin m → Fin m → ℝ, (∀ k l, B l k = B k l) → ∀ s k,
        star ((eigh fun k l => (B k l : ℂ)).2 s k) = (eigh fun k l => (B k l : ℂ)).2 s k := by
  obtain ⟨e, he⟩ := exists_isEigh m
  have key : ∀ B : Fin m → Fin m → ℝ, (∀ k l, B l k = B k l) → ∃ p : (Fin m → ℝ) × (Fin m → Fin m → ℝ),
      Monotone p.1 ∧ (∀ s s', ∑ k, p.2 s k * p.2 s' k = if s = s' then 1 else 0) ∧
      ∀ s k, ∑ l, B k l * p.2 s l = p.1 s * p.2 s k := by
    intro B h
    have hA : (Matrix.of B).IsHermitian := by
      ext k l
      rw [Matrix.conjTranspose_apply]
      simpa using (h l k).symm
    refine ⟨(fun s => hA.eigenvalues (Tuple.sort hA.eigenvalues s),
      fun s k => hA.eigenvectorBasis (Tuple.sort hA.eigenvalues s) k), ?_, ?_, ?_⟩
    · exact Tuple.monotone_sort hA.eigenvalues
    · intro s s'
      have := orthonormal_iff_ite.1 hA.eigenvectorBasis.orthonormal (Tuple.sort hA.eigenvalues s)
        (Tuple.sort hA.eigenvalues s')
      rw [PiLp.inner_apply] at this
      simp only [EmbeddingLike.apply_eq_iff_eq] at this
      rw [← this]
      apply Finset.sum_congr rfl
      intro k _
      rw [RCLike.inner_apply, mul_comm]
      rfl
    · intro s k
      have := congrFun (hA.mulVec_eigenvectorBasis (Tuple.sort hA.eigenvalues s)) k
      rw [Matrix.mulVec, dotProduct] at this
      simpa using this
  choose f hf1 hf2 hf3 using key
  have hre : ∀ A : Fin m → Fin m → ℂ, (∃ B : Fin m → Fin m → ℝ, A = (fun k l => (B k l : ℂ)) ∧ ∀ k l, B l k = B k l) →
      A = (fun k l => ((A k l).re : ℂ)) ∧ ∀ k l, (A l k).re = (A k l).re := by
    rintro A ⟨B, rfl, hB⟩
    exact ⟨by funext k l; simp, fun k l => by simp [hB k l]⟩
  let eigh : (Fin m → Fin m → ℂ) → (Fin m → ℝ) × (Fin m → Fin m → ℂ) := fun A =>
    if h : ∃ B : Fin m → Fin m → ℝ, A = (fun k l => (B k l : ℂ)) ∧ ∀ k l, B l k = B k l then
      ((f (fun k l => (A k l).re) (hre A h).2).1, fun s k => ((f (fun k l => (A k l).re) (hre A h).2).2 s k : ℂ))
    else e A
  refine ⟨eigh, ⟨fun A hA => ?_, fun A hA => ?_, fun A hA => ?_⟩, ?_⟩
  · by_cases h : ∃ B : Fin m → Fin m → ℝ, A = (fun k l => (B k l : ℂ)) ∧ ∀ k l, B l k = B k l
    · simp only [eigh, dif_pos h]; exact hf1 _ _
    · simp only [eigh, dif_neg h]; exact he.mono A hA
  · by_cases h : ∃ B : Fin m → Fin m → ℝ, A = (fun k l => (B k l : ℂ)) ∧ ∀ k l, B l k = B k l
    · simp only [eigh, dif_pos h]
      intro s s'
      have := hf2 (fun k l => (A k l).re) (hre A h).2 s s'
      have h2 := congrArg (fun x : ℝ => (x : ℂ)) this
      push_cast at h2
      simp only [Complex.star_def, Complex.conj_ofReal]
      refine h2.trans ?_
      split <;> simp
    · simp only [eigh, dif_neg h]; exact he.ortho A hA
  · by_cases h : ∃ B : Fin m → Fin m → ℝ, A = (fun k l => (B k l : ℂ)) ∧ ∀ k l, B l k = B k l
    · simp only [eigh, dif_pos h]
      intro s k
      have := hf3 (fun k l => (A k l).re) (hre A h).2 s k
      have h2 := congrArg (fun x : ℝ => (x : ℂ)) this
      push_cast at h2
      refine Eq.trans ?_ h2
      refine Finset.sum_congr rfl fun l _ => ?_
      rw [← congrFun (congrFun (hre A h).1 k) l]
    · simp only [eigh, dif_neg h]; exact he.eigen A hA
  · intro B hB s k
    have h : ∃ B' : Fin m → Fin m → ℝ, (fun k l => (B k l : ℂ)) = (fun k l => (B' k l : ℂ)) ∧ ∀ k l, B' l k = B' k l :=
      ⟨B, rfl, hB⟩
    simp only [eigh, dif_pos h, Complex.star_def, Complex.conj_ofReal]

section traces
variable {m : Nat} {eigh : (Fin m → Fin m → ℂ) → (Fin m → ℝ) × (Fin m → Fin m → ℂ)}

theorem decompose (he : IsEigh eigh) (A : Fin m → Fin m → ℂ) (hA : ∀ k l, A l k = star (A k l)) (k l : Fin m) :
    A k l = ∑ s, (eigh A).2 s k * (eigh A).1 s * star ((eigh A).2 s l) := by
  set U : Matrix (Fin m) (Fin m) ℂ := Matrix.of fun k s => (eigh A).2 s k with hU
  set D : Matrix (Fin m) (Fin m) ℂ := Matrix.diagonal fun s => ((eigh A).1 s : ℂ) with hD
  have h1 : U.conjTranspose * U = 1 := by
    ext s s'
    rw [Matrix.mul_apply, Matrix.one_apply]
    exact he.ortho A hA s s'
  have h2 : Matrix.of A * U = U * D := by
    ext k s
    rw [Matrix.mul_apply, hD, Matrix.mul_diagonal]
    refine (he.eigen A hA s k).trans ?_
    rw [hU, Matrix.of_apply, mul_comm]
  have h3 : Matrix.of A = U * D * U.conjTranspose := by
    rw [← h2, mul_assoc, mul_eq_one_comm.1 h1, mul_one]
  have h4 := congrFun (congrFun h3 k) l
  rw [Matrix.mul_apply] at h4
  refine h4.trans (Finset.sum_congr rfl fun s _ => ?_)
  rw [hD, Matrix.mul_diagonal, Matrix.conjTranspose_apply]
  rfl

theorem trace_eq (he : IsEigh eigh) (A : Fin m → Fin m → ℂ) (hA : ∀ k l, A l k = star (A k l)) :
    ∑ s, ((eigh A).1 s : ℂ) = ∑ k, A k k := by
  rw [Finset.sum_congr rfl fun k _ => decompose he A hA k k, Finset.sum_comm]
  refine Finset.sum_congr rfl fun s _ => ?_
  have := he.ortho A hA s s
  rw [if_pos rfl] at this
  have h2 : ∑ k, (eigh A).2 s k * ((eigh A).1 s : ℂ) * star ((eigh A).2 s k) =
      ((eigh A).1 s : ℂ) * ∑ k, star ((eigh A).2 s k) * (eigh A).2 s k := by
    rw [Finset.mul_sum]
    exact Finset.sum_congr rfl fun k _ => by ring
  rw [h2, this, mul_one]

theorem trace_sq (he : IsEigh eigh) (A : Fin m → Fin m → ℂ) (hA : ∀ k l, A l k = star (A k l)) :
    ∑ s, ((eigh A).1 s : ℂ) ^ 2 = ∑ k, ∑ l, A k l * A l k := by
  have h1 : ∀ k, ∑ l, A k l * A l k = ∑ s, (eigh A).2 s k * ((eigh A).1 s : ℂ) ^ 2 * star ((eigh A).2 s k) := by
    intro k
    have : ∀ l, A k l * A l k = ∑ s, A k l * (eigh A).2 s l * (eigh A).1 s * star ((eigh A).2 s k) := by
      intro l
      rw [decompose he A hA l k, Finset.mul_sum]
      exact Finset.sum_congr rfl fun s _ => by ring
    rw [Finset.sum_congr rfl fun l _ => this l, Finset.sum_comm]
    refine Finset.sum_congr rfl fun s _ => ?_
    have h2 := he.eigen A hA s k
    rw [← Finset.sum_mul, ← Finset.sum_mul, h2]
    ring
  rw [Finset.sum_congr rfl fun k _ => h1 k, Finset.sum_comm]
  refine Finset.sum_congr rfl fun s _ => ?_
  have := he.ortho A hA s s
  rw [if_pos rfl] at this
  have h2 : ∑ k, (eigh A).2 s k * ((eigh A).1 s : ℂ) ^ 2 * star ((eigh A).2 s k) =
      ((eigh A).1 s : ℂ) ^ 2 * ∑ k, star ((eigh A).2 s k) * (eigh A).2 s k := by
    rw [Finset.mul_sum]
    exact Finset.sum_congr rfl fun k _ => by ring
  rw [h2, this, mul_one]

end traces

/-! ## A molecule in a cubic cell -/

namespace Lost

/-- Two atoms that are tied to each other and to their places, without forces between cells. -/
noncomputable def fc : Fin 1 → Mat 2 ℝ := fun _ k l =>
  if k.modNat = l.modNat then (if k.divNat = l.divNat then 1 else -1 / 2) else 0

/-- The two atoms are in the same cell. -/
noncomputable def d : Description 2 1 where
  cv := DynMat.Ex.cv
  r := ![⟨0, 0, 0⟩, ⟨1 / 4, 0, 0⟩]
  mass := fun _ => 1
  S := one
  cells := fun _ => ⟨0, 0, 0⟩
  c0 := 0
  fc := fc

/-- The second atom is in the next cell. -/
noncomputable def d' : Description 2 1 := { d with r := ![⟨0, 0, 0⟩, ⟨-3 / 4, 0, 0⟩] }

/-- From one to the other. -/
noncomputable def change : Change 2 1 1 where
  A := one
  B := one
  p := Equiv.refl _
  T := ![⟨0, 0, 0⟩, ⟨-1, 0, 0⟩]
  w := ⟨0, 0, 0⟩
  R := fun a b => if a = b then 1 else 0
  s := fun _ _ c => c

theorem relates : change.Relates d d' where
  left := fun v => by simp [mulMat, change, one]
  right := fun v => by simp [mulMat, change, one]
  ortho := fun a b => by simp [change, eq_comm]
  vectors := fun x => by
    simp [toCart, d, d', DynMat.Ex.cv, castM, castV, change, rotV, comp0, comp1, comp2, one]
  positions := fun i => by
    fin_cases i <;> norm_num [change, d, d', toCart, castM, castV, add, one]
  masses := fun i => rfl
  super := fun v => by
    have : mulMat v change.A = v := by simp [mulMat, change, one]
    rw [this]
    rfl
  bij := fun i j => Function.bijective_id
  cell := fun i j c => by
    refine ⟨sub ⟨0, 0, 0⟩ (sub (change.T i) (change.T j)), ?_⟩
    simp [mulMat, sub, add, d', d, one]
  fcs := fun i j c a b => by
    simp [d, d', change]

theorem reduced : IsReduced (scVecs one DynMat.Ex.cv) := by
  have e : ∀ a b c : ℝ, Images.sq (toCart (scVecs one DynMat.Ex.cv) ⟨a, b, c⟩) = a ^ 2 + b ^ 2 + c ^ 2 := by
    intro a b c
    simp [Images.sq, dot, toCart, scVecs, one, DynMat.Ex.cv, castV]
    ring
  have ea : Images.sq (scVecs one DynMat.Ex.cv).a = 1 := by simp [Images.sq, dot, toCart, scVecs, one, DynMat.Ex.cv, castV]
  have eb : Images.sq (scVecs one DynMat.Ex.cv).b = 1 := by simp [Images.sq, dot, toCart, scVecs, one, DynMat.Ex.cv, castV]
  have ec : Images.sq (scVecs one DynMat.Ex.cv).c = 1 := by simp [Images.sq, dot, toCart, scVecs, one, DynMat.Ex.cv, castV]
  have h1 : ∀ x : ℤ, |x| = 1 → (x : ℝ) ^ 2 = 1 := by
    intro x hx
    have : x ^ 2 = 1 := by rw [← sq_abs, hx, one_pow]
    exact_mod_cast this
  refine ⟨fun a b c ha hb hc => ?_, fun a b c ha hb hc => ?_, fun a b c ha hb hc => ?_⟩
  · rw [e, ea, h1 a ha]; nlinarith [sq_nonneg (b : ℝ), sq_nonneg (c : ℝ)]
  · rw [e, eb, h1 b hb]; nlinarith [sq_nonneg (a : ℝ), sq_nonneg (c : ℝ)]
  · rw [e, ec, h1 c hc]; nlinarith [sq_nonneg (a : ℝ), sq_nonneg (b : ℝ)]

theorem volume : cellVolume (scVecs one DynMat.Ex.cv) ≠ 0 := by
  simp [cellVolume, scVecs, one, DynMat.Ex.cv, toCart, castV, dot, cross]

theorem ok : d.Ok shells2 where
  first := rfl
  reduced := ⟨shells2_eq, volume, reduced, fun c i j => by
    refine ⟨⟨(d.r i).x - (d.r j).x, 0, 0⟩, ?_, by simp, by simp, ?_⟩
    · fin_cases i <;> fin_cases j <;> norm_num [d, abs_le]
    · fin_cases i <;> fin_cases j <;> norm_num [d, one, sub, add, castV]⟩

theorem ok' : d'.Ok shells2 where
  first := rfl
  reduced := ⟨shells2_eq, volume, reduced, fun c i j => by
    refine ⟨⟨(d'.r i).x - (d'.r j).x, 0, 0⟩, ?_, by simp, by simp, ?_⟩
    · fin_cases i <;> fin_cases j <;> norm_num [d', d, abs_le]
    · fin_cases i <;> fin_cases j <;> norm_num [d', d, one, sub, add, castV]⟩

theorem symmetric : Symmetric d.cells d.S d.fc id (fun _ => ⟨0, 0, 0⟩) :=
  ⟨fun _ => rfl, fun _ => by simp [d, one, add, mulMat, DynMat.neg], fun c k l => by simp only [d, fc, eq_comm, id]⟩

theorem copies_eq (c : Fin 1) (i j : Fin 2) : d.copies shells2 c i j = {⟨0, 0, 0⟩} := by
  ext L
  rw [mem_copies d ok, Finset.mem_singleton]
  obtain ⟨x, y, z⟩ := L
  have hx : -(1 / 4 : ℝ) ≤ (d.r i).x - (d.r j).x ∧ (d.r i).x - (d.r j).x ≤ 1 / 4 := by
    fin_cases i <;> fin_cases j <;> norm_num [d]
  have hy : (d.r i).y - (d.r j).y = 0 ∧ (d.r i).z - (d.r j).z = 0 := by
    fin_cases i <;> fin_cases j <;> norm_num [d]
  have hin : ∀ v : V3 ℤ, InLattice d.S v := fun v => ⟨v, by simp [mulMat, d, one]⟩
  constructor
  · rintro ⟨-, hn⟩
    have key : ∀ u : V3 ℤ, 2 * (((d.r i).x - (d.r j).x - x) * u.x + (0 - y) * u.y + (0 - z) * u.z) ≤
        (1 + 1 / 500) * ((u.x : ℝ) ^ 2 + (u.y : ℝ) ^ 2 + (u.z : ℝ) ^ 2) := by
      intro u
      have := hn u (hin u)
      simp only [Images.sq, dot, toCart, sub, castV, show d.cv = DynMat.Ex.cv from rfl, DynMat.Ex.cv] at this
      rw [hy.1, hy.2] at this
      nlinarith
    have h1 := key ⟨1, 0, 0⟩
    have h2 := key ⟨-1, 0, 0⟩
    have h3 := key ⟨0, 1, 0⟩
    have h4 := key ⟨0, -1, 0⟩
    have h5 := key ⟨0, 0, 1⟩
    have h6 := key ⟨0, 0, -1⟩
    push_cast at h1 h2 h3 h4 h5 h6
    have c : ∀ a : ℤ, (-1 : ℝ) < a → (a : ℝ) < 1 → a = 0 := by
      intro a ha hb
      have h1 : -1 < a := by exact_mod_cast ha
      have h2 : a < 1 := by exact_mod_cast hb
      omega
    rw [c x (by linarith [hx.1, hx.2]) (by linarith [hx.1, hx.2]), c y (by linarith) (by linarith),
      c z (by linarith) (by linarith)]
  · intro h0
    simp only [V3.mk.injEq] at h0
    obtain ⟨rfl, rfl, rfl⟩ := h0
    refine ⟨hin _, fun u _ => ?_⟩
    simp only [Images.sq, dot, toCart, sub, castV, show d.cv = DynMat.Ex.cv from rfl, DynMat.Ex.cv]
    rw [hy.1, hy.2]
    have hu : |(u.x : ℝ)| ≤ (u.x : ℝ) ^ 2 := by
      have : |u.x| ≤ u.x ^ 2 := by
        rw [← sq_abs]
        rcases (abs_nonneg u.x).eq_or_lt with h | h
        · rw [← h]; norm_num
        · nlinarith
      exact_mod_cast this
    have h1 : ((d.r i).x - (d.r j).x) * u.x ≤ 1 / 4 * |(u.x : ℝ)| := by
      calc ((d.r i).x - (d.r j).x) * u.x ≤ |((d.r i).x - (d.r j).x) * u.x| := le_abs_self _
        _ = |(d.r i).x - (d.r j).x| * |(u.x : ℝ)| := abs_mul _ _
        _ ≤ 1 / 4 * |(u.x : ℝ)| := mul_le_mul_of_nonneg_right (abs_le.2 ⟨by linarith [hx.1], hx.2⟩) (abs_nonneg _)
    push_cast
    nlinarith [sq_nonneg (u.x : ℝ), sq_nonneg (u.y : ℝ), sq_nonneg (u.z : ℝ)]

/-- The crystal has no dispersion. -/
theorem dynMat_d (junk : Fin 1 → Mat 2 ℝ) (q : V3 ℝ) (k l : Fin (2 * 3)) : d.dynMat shells2 junk q k l = fc 0 k l := by
  rw [dynMat_copies d ok, Fin.sum_univ_one, copies_eq]
  simp [expQR_zero, d]

theorem dynMat_d' (junk : Fin 1 → Mat 2 ℝ) (q : V3 ℝ) (k l : Fin (2 * 3)) : d'.dynMat shells2 junk q k l =
    expQR q (change.T k.divNat) * star (expQR q (change.T l.divNat)) * fc 0 k l := by
  obtain ⟨i, a, rfl⟩ := exists_row_id k
  obtain ⟨j, b, rfl⟩ := exists_row_id l
  have := relates.dynMat_eq ok ok' junk junk q i j a b
  simp only [dynMat_d] at this
  rw [row_div, row_div]
  refine this.trans ?_
  rw [Finset.sum_eq_single a, Finset.sum_eq_single b]
  · simp [change]
    ring
  · intro c _ hc
    simp [change, Ne.symm hc]
  · simp
  · intro c _ hc
    simp [change, Ne.symm hc]
  · simp

/-- The dynamical matrix at the gamma point, in both descriptions. -/
noncomputable def G : Mat 2 ℂ := fun k l => fc 0 k l

theorem G_herm (k l : Fin (2 * 3)) : G l k = star (G k l) := by
  simp only [G, fc, Complex.star_def, Complex.conj_ofReal, eq_comm]

theorem gamma_d (junk : Fin 1 → Mat 2 ℝ) : d.dynMat shells2 junk ⟨0, 0, 0⟩ = G := by
  funext k l
  exact dynMat_d junk _ k l

theorem gamma_d' (junk : Fin 1 → Mat 2 ℝ) : d'.dynMat shells2 junk ⟨0, 0, 0⟩ = G := by
  funext k l
  have e : ∀ R : V3 ℤ, expQR ⟨0, 0, 0⟩ R = 1 := fun R => by simp [expQR]
  rw [dynMat_d', e, e, star_one, one_mul, one_mul]
  rfl

/-- `1` for the first, `-1` for the second atom. -/
def sg (i : Fin 2) : ℂ := ![1, -1] i

theorem half_d' (junk : Fin 1 → Mat 2 ℝ) (k l : Fin (2 * 3)) :
    d'.dynMat shells2 junk ⟨1 / 2, 0, 0⟩ k l = sg k.divNat * sg l.divNat * G k l := by
  have e : ∀ i, expQR ⟨1 / 2, 0, 0⟩ (change.T i) = sg i := by
    intro i
    fin_cases i
    · simp [change, expQR, sg]
    · have h : (2 * Real.pi * ((1 / 2 : ℝ) * ((-1 : ℤ) : ℝ) + 0 * ((0 : ℤ) : ℝ) + 0 * ((0 : ℤ) : ℝ) : ℝ) * Complex.I : ℂ) =
          -(Real.pi * Complex.I) := by
        push_cast
        ring
      change Complex.exp _ = _
      refine (congrArg Complex.exp h).trans ?_
      rw [Complex.exp_neg, Complex.exp_pi_mul_I]
      norm_num [sg]
  have hs : ∀ i, star (sg i) = sg i := by intro i; fin_cases i <;> simp [sg]
  rw [dynMat_d', e, e, hs]
  rfl

theorem G_mul (f : Fin (2 * 3) → ℂ) (a : Fin 3) :
    ∑ l, G (row 0 a) l * f l = f (row 0 a) - 1 / 2 * f (row 1 a) ∧
    ∑ l, G (row 1 a) l * f l = f (row 1 a) - 1 / 2 * f (row 0 a) := by
  constructor <;>
  · rw [sum_rows, Fin.sum_univ_two]
    simp only [G, fc, row_div, row_mod]
    rw [Finset.sum_eq_single a, Finset.sum_eq_single a]
    · simp
      ring
    · intro b _ hb; simp [Ne.symm hb]
    · simp
    · intro b _ hb; simp [Ne.symm hb]
    · simp

section
variable {eigh : Mat 2 ℂ → (Fin (2 * 3) → ℝ) × Mat 2 ℂ} (he : IsEigh eigh)
include he

theorem norm_evec (s : Fin (2 * 3)) :
    ∑ a, (‖(eigh G).2 s (row 0 a)‖ ^ 2 + ‖(eigh G).2 s (row 1 a)‖ ^ 2) = 1 := by
  have h := he.ortho G G_herm s s
  rw [if_pos rfl, sum_rows, Fin.sum_univ_two, ← Finset.sum_add_distrib] at h
  have e : ∀ z : ℂ, star z * z = ((‖z‖ ^ 2 : ℝ) : ℂ) := by
    intro z
    rw [Complex.star_def, ← Complex.normSq_eq_conj_mul_self, Complex.normSq_eq_norm_sq]
  simp only [e] at h
  exact_mod_cast h

/-- The eigenvectors: the atoms move together or against each other. -/
theorem modes (s : Fin (2 * 3)) :
    ((eigh G).1 s = 1 / 2 ∧ (∀ a, (eigh G).2 s (row 1 a) = (eigh G).2 s (row 0 a)) ∧
      Asr.comSq (fun k => k.modNat) ((eigh G).2 s) = 2) ∨
    ((eigh G).1 s = 3 / 2 ∧ Asr.comSq (fun k => k.modNat) ((eigh G).2 s) = 0) := by
  have hn := norm_evec he s
  have h0 : ∀ a, (eigh G).2 s (row 0 a) - 1 / 2 * (eigh G).2 s (row 1 a) = (eigh G).1 s * (eigh G).2 s (row 0 a) := fun a =>
    (G_mul _ a).1.symm.trans (he.eigen G G_herm s (row 0 a))
  have h1 : ∀ a, (eigh G).2 s (row 1 a) - 1 / 2 * (eigh G).2 s (row 0 a) = (eigh G).1 s * (eigh G).2 s (row 1 a) := fun a =>
    (G_mul _ a).2.symm.trans (he.eigen G G_herm s (row 1 a))
  have hp : ∀ a, ((eigh G).1 s - 1 / 2 : ℂ) * ((eigh G).2 s (row 0 a) + (eigh G).2 s (row 1 a)) = 0 := fun a => by
    linear_combination - h0 a - h1 a
  have hm : ∀ a, ((eigh G).1 s - 3 / 2 : ℂ) * ((eigh G).2 s (row 0 a) - (eigh G).2 s (row 1 a)) = 0 := fun a => by
    linear_combination - h0 a + h1 a
  have hcom : Asr.comSq (fun k => k.modNat) ((eigh G).2 s) =
      ∑ a, ‖(eigh G).2 s (row 0 a) + (eigh G).2 s (row 1 a)‖ ^ 2 := by
    unfold Asr.comSq
    refine Finset.sum_congr rfl fun a _ => ?_
    rw [sum_rows, Fin.sum_univ_two]
    simp only [row_mod, Finset.sum_ite_eq', Finset.mem_univ, if_true]
  by_cases hl : (eigh G).1 s = 1 / 2
  · left
    have h2 : ∀ a, (eigh G).2 s (row 1 a) = (eigh G).2 s (row 0 a) := by
      intro a
      rcases mul_eq_zero.1 (hm a) with h | h
      · rw [hl] at h
        norm_num at h
      · exact (sub_eq_zero.1 h).symm
    refine ⟨hl, h2, ?_⟩
    rw [hcom]
    simp only [h2] at hn ⊢
    have e : ∀ a, ‖(eigh G).2 s (row 0 a) + (eigh G).2 s (row 0 a)‖ ^ 2 =
        2 * (‖(eigh G).2 s (row 0 a)‖ ^ 2 + ‖(eigh G).2 s (row 0 a)‖ ^ 2) := by
      intro a
      rw [← two_mul, norm_mul]
      norm_num
      ring
    rw [Finset.sum_congr rfl fun a _ => e a, ← Finset.mul_sum, hn, mul_one]
  · right
    have h2 : ∀ a, (eigh G).2 s (row 0 a) + (eigh G).2 s (row 1 a) = 0 := by
      intro a
      rcases mul_eq_zero.1 (hp a) with h | h
      · exact absurd (by exact_mod_cast sub_eq_zero.1 (by push_cast; exact h : (((eigh G).1 s : ℝ) : ℂ) - ((1 / 2 : ℝ) : ℂ) = 0)) hl
      · exact h
    refine ⟨?_, by rw [hcom]; simp [h2]⟩
    by_contra hne
    have h3 : ∀ a, (eigh G).2 s (row 0 a) - (eigh G).2 s (row 1 a) = 0 := by
      intro a
      rcases mul_eq_zero.1 (hm a) with h | h
      · exact absurd (by exact_mod_cast sub_eq_zero.1 (by push_cast; exact h : (((eigh G).1 s : ℝ) : ℂ) - ((3 / 2 : ℝ) : ℂ) = 0)) hne
      · exact h
    have h4 : ∀ a, (eigh G).2 s (row 0 a) = 0 := fun a => by linear_combination (h2 a + h3 a) / 2
    have h5 : ∀ a, (eigh G).2 s (row 1 a) = 0 := fun a => by linear_combination (h2 a - h3 a) / 2
    simp [h4, h5] at hn

/-- Three modes are found to be acoustic; in all of them the atoms move together. -/
theorem acoustic_eq : ∃ ac, Asr.acoustic 2 (fun k => k.modNat) (eigh G).2 = some ac ∧ ac.length = 3 ∧
    ∀ s ∈ ac, (eigh G).1 s = 1 / 2 ∧ ∀ a, (eigh G).2 s (row 1 a) = (eigh G).2 s (row 0 a) := by
  have htr := trace_eq he G G_herm
  have h6 : ∑ k, G k k = 6 := by
    simp [G, fc]
  rw [h6] at htr
  have htr' : ∑ s, (eigh G).1 s = 6 := by exact_mod_cast htr
  have hl : ∀ s, (eigh G).1 s = 3 / 2 - if Asr.comSq (fun k => k.modNat) ((eigh G).2 s) > 1 / 2 * ((2 : ℕ) : ℝ) then 1 else 0 := by
    intro s
    rcases modes he s with ⟨h1, -, h2⟩ | ⟨h1, h2⟩ <;> rw [h1, h2] <;> norm_num
  rw [Finset.sum_congr rfl fun s _ => hl s, Finset.sum_sub_distrib, Finset.sum_boole] at htr'
  have hcard : ((Finset.univ.filter fun s => Asr.comSq (fun k => k.modNat) ((eigh G).2 s) > 1 / 2 * ((2 : ℕ) : ℝ)).card : ℝ) = 3 := by
    simp only [Finset.sum_const, Finset.card_univ, Fintype.card_fin, nsmul_eq_mul] at htr'
    push_cast at htr' ⊢
    linarith
  have hlen : ((List.finRange (2 * 3)).filter fun s =>
      decide (Asr.comSq (fun k => k.modNat) ((eigh G).2 s) > 1 / 2 * ((2 : ℕ) : ℝ))).length = 3 := by
    have : (Finset.univ.filter fun s => Asr.comSq (fun k => k.modNat) ((eigh G).2 s) > 1 / 2 * ((2 : ℕ) : ℝ)).card = 3 := by
      exact_mod_cast hcard
    exact Eq.trans rfl this
  have hne : ∃ ac, Asr.acoustic 2 (fun k => k.modNat) (eigh G).2 = some ac := by
    unfold Asr.acoustic
    dsimp only
    rw [hlen, if_neg (by norm_num)]
    exact ⟨_, rfl⟩
  obtain ⟨ac, hac⟩ := hne
  obtain ⟨h1, -, h2, -⟩ := Asr.C48_selection _ _ _ _ hac
  refine ⟨ac, hac, h1, fun s hs => ?_⟩
  have h3 := h2 s hs
  rcases modes he s with ⟨h4, h5, -⟩ | ⟨-, h5⟩
  · exact ⟨h4, h5⟩
  · rw [h5] at h3
    norm_num at h3

end

/-- Weight of the acoustic mode `i` in the correction. -/
noncomputable def wt (i : ℝ) : ℝ := Asr.recipTol * i + 1 / 2

theorem wt_pos (i : ℝ) (h : 0 ≤ i) : 0 < wt i := by
  have : (0 : ℝ) ≤ Asr.recipTol := by unfold Asr.recipTol; positivity
  unfold wt
  positivity

/-- The correction of both descriptions. -/
theorem correction_eq {eigh : Mat 2 ℂ → (Fin (2 * 3) → ℝ) × Mat 2 ℂ} (he : IsEigh eigh) :
    ∃ s0 s1 s2 : Fin (2 * 3), (∀ s ∈ [s0, s1, s2], ∀ a, (eigh G).2 s (row 1 a) = (eigh G).2 s (row 0 a)) ∧
      Asr.enforceReciprocal 2 (fun k => k.modNat) (eigh G).1 (eigh G).2 = some fun k l =>
        -((wt 0 : ℂ) * ((eigh G).2 s0 k * (eigh G).2 s0 l) + ((wt 1 : ℂ) * ((eigh G).2 s1 k * (eigh G).2 s1 l) +
          (wt 2 : ℂ) * ((eigh G).2 s2 k * (eigh G).2 s2 l))) := by
  obtain ⟨ac, h1, h2, h3⟩ := acoustic_eq he
  obtain ⟨s0, s1, s2, rfl⟩ := List.length_eq_three.1 h2
  refine ⟨s0, s1, s2, fun s hs => (h3 s hs).2, ?_⟩
  have e0 := (h3 s0 (by simp)).1
  have e1 := (h3 s1 (by simp)).1
  have e2 := (h3 s2 (by simp)).1
  unfold Asr.enforceReciprocal
  rw [h1, Option.map_some]
  congr 1
  funext k l
  simp only [Asr.recipCorrection, List.mapIdx_cons, List.mapIdx_nil, List.sum_cons, List.sum_nil, e0, e1, e2, wt]
  norm_num

/-- With atoms moving together, `G` gives `1/2`, and with the second atom described elsewhere `3/2`. -/
theorem quad {f : Fin (2 * 3) → ℂ} (hf : ∀ a, f (row 1 a) = f (row 0 a)) (hn : ∑ k, f k * f k = 1) :
    ∑ k, ∑ l, G k l * (f l * f k) = 1 / 2 ∧
    ∑ k, ∑ l, sg k.divNat * sg l.divNat * G k l * (f l * f k) = 3 / 2 := by
  have h1 : ∀ k, ∑ l, G k l * f l = 1 / 2 * f k := by
    intro k
    obtain ⟨i, a, rfl⟩ := exists_row_id k
    fin_cases i
    · change ∑ l, G (row 0 a) l * f l = 1 / 2 * f (row 0 a)
      rw [(G_mul f a).1, hf]; ring
    · change ∑ l, G (row 1 a) l * f l = 1 / 2 * f (row 1 a)
      rw [(G_mul f a).2, hf]; ring
  have h2 : ∀ k, ∑ l, sg k.divNat * sg l.divNat * G k l * f l = 3 / 2 * f k := by
    intro k
    have : ∑ l, sg k.divNat * sg l.divNat * G k l * f l = sg k.divNat * ∑ l, G k l * (sg l.divNat * f l) := by
      rw [Finset.mul_sum]
      exact Finset.sum_congr rfl fun l _ => by ring
    rw [this]
    obtain ⟨i, a, rfl⟩ := exists_row_id k
    fin_cases i
    · change sg (row 0 a).divNat * ∑ l, G (row 0 a) l * (sg l.divNat * f l) = 3 / 2 * f (row 0 a)
      rw [(G_mul _ a).1, hf, row_div, row_div]; simp [sg]; ring
    · change sg (row 1 a).divNat * ∑ l, G (row 1 a) l * (sg l.divNat * f l) = 3 / 2 * f (row 1 a)
      rw [(G_mul _ a).2, hf, row_div, row_div]; simp [sg]; ring
  constructor
  · have : ∀ k, ∑ l, G k l * (f l * f k) = 1 / 2 * (f k * f k) := by
      intro k
      rw [← mul_assoc, ← h1, Finset.sum_mul]
      exact Finset.sum_congr rfl fun l _ => by ring
    rw [Finset.sum_congr rfl fun k _ => this k, ← Finset.mul_sum, hn, mul_one]
  · have : ∀ k, ∑ l, sg k.divNat * sg l.divNat * G k l * (f l * f k) = 3 / 2 * (f k * f k) := by
      intro k
      rw [← mul_assoc, ← h2, Finset.sum_mul]
      exact Finset.sum_congr rfl fun l _ => by ring
    rw [Finset.sum_congr rfl fun k _ => this k, ← Finset.mul_sum, hn, mul_one]

theorem mass_one : massWeighting d.mass = fun _ _ => 1 := by
  funext k l
  simp [massWeighting, d]

theorem mass_one' : massWeighting d'.mass = fun _ _ => 1 := by
  funext k l
  simp [massWeighting, d', d]

/-- The trace of the square of a sum of symmetric matrices. -/
theorem trace_add {m : Nat} (A C : Fin m → Fin m → ℂ) :
    ∑ k, ∑ l, (A k l + C k l) * (A l k + C l k) =
      ∑ k, ∑ l, A k l * A l k + 2 * ∑ k, ∑ l, A k l * C l k + ∑ k, ∑ l, C k l * C l k := by
  have h : ∑ k, ∑ l, C k l * A l k = ∑ k, ∑ l, A k l * C l k := by
    rw [Finset.sum_comm]
    exact Finset.sum_congr rfl fun k _ => Finset.sum_congr rfl fun l _ => mul_comm _ _
  have h2 : ∀ k l, (A k l + C k l) * (A l k + C l k) =
      A k l * A l k + A k l * C l k + (C k l * A l k + C k l * C l k) := fun k l => by ring
  simp only [h2, Finset.sum_add_distrib, h]
  ring

/-- **C131** (violation) With `asr='reciprocal'` the frequencies depend on the description of the crystal.  `d` and `d'` are
the same crystal; in `d'` the second atom is given by another of its copies.  Away from the gamma point their frequencies
are not the same, if the eigensolver finds real eigenvectors for the real matrix at the gamma point. -/
theorem C131_reciprocal_lost : change.Relates d d' ∧ d.Ok shells2 ∧ d'.Ok shells2 ∧
    Symmetric d.cells d.S d.fc id (fun _ => ⟨0, 0, 0⟩) ∧
    ∃ q : V3 ℝ, ∀ (junk junk' : Fin 1 → Mat 2 ℝ) (eigh : Mat 2 ℂ → (Fin (2 * 3) → ℝ) × Mat 2 ℂ), IsEigh eigh →
      (∀ B : Fin (2 * 3) → Fin (2 * 3) → ℝ, (∀ k l, B l k = B k l) → ∀ s k,
        star ((eigh fun k l => (B k l : ℂ)).2 s k) = (eigh fun k l => (B k l : ℂ)).2 s k) →
      ∃ s, freqOf ((eigh (d'.corrected shells2 junk' eigh q)).1 s) ≠
        freqOf ((eigh (d.corrected shells2 junk eigh (change.back q))).1 s) := by
  refine ⟨relates, ok, ok', symmetric, ⟨1 / 2, 0, 0⟩, fun junk junk' eigh he hreal => ?_⟩
  have hre : ∀ s k, star ((eigh G).2 s k) = (eigh G).2 s k :=
    hreal (fun k l => fc 0 k l) (fun k l => by simp only [fc, eq_comm])
  have hn : ∀ s, ∑ k, (eigh G).2 s k * (eigh G).2 s k = 1 := by
    intro s
    have h := he.ortho G G_herm s s
    rw [if_pos rfl] at h
    rw [← h]
    exact Finset.sum_congr rfl fun k _ => by rw [hre]
  obtain ⟨s0, s1, s2, hsym, hcorr⟩ := correction_eq he
  set C : Mat 2 ℂ := fun k l =>
    -((wt 0 : ℂ) * ((eigh G).2 s0 k * (eigh G).2 s0 l) + ((wt 1 : ℂ) * ((eigh G).2 s1 k * (eigh G).2 s1 l) +
          (wt 2 : ℂ) * ((eigh G).2 s2 k * (eigh G).2 s2 l))) with hC
  have hM : d.corrected shells2 junk eigh (change.back ⟨1 / 2, 0, 0⟩) = fun k l => G k l + C k l := by
    funext k l
    unfold Description.corrected
    rw [gamma_d, hcorr, mass_one]
    simp only [DynMat.weighted, Pi.add_apply, Complex.ofReal_one, mul_one]
    rw [dynMat_d]
    rfl
  have hM' : d'.corrected shells2 junk' eigh ⟨1 / 2, 0, 0⟩ = fun k l => sg k.divNat * sg l.divNat * G k l + C k l := by
    funext k l
    unfold Description.corrected
    rw [gamma_d', hcorr, mass_one']
    simp only [DynMat.weighted, Pi.add_apply, Complex.ofReal_one, mul_one]
    rw [half_d']
  have hCh : ∀ k l, C l k = star (C k l) := by
    intro k l
    have hw : ∀ x : ℝ, star (x : ℂ) = x := fun x => by simp
    simp only [hC, star_neg, star_add, star_mul', hre, hw]
    ring
  have hsg : ∀ i, star (sg i) = sg i := by intro i; fin_cases i <;> simp [sg]
  have hsq : ∀ i, sg i * sg i = 1 := by intro i; fin_cases i <;> simp [sg]
  have hMh : ∀ k l, G l k + C l k = star (G k l + C k l) := fun k l => by rw [star_add, ← G_herm, ← hCh]
  have hMh' : ∀ k l : Fin (2 * 3), sg l.divNat * sg k.divNat * G l k + C l k = star (sg k.divNat * sg l.divNat * G k l + C k l) :=
    fun k l => by
      rw [star_add, star_mul', star_mul', ← G_herm, ← hCh, hsg, hsg, mul_comm (sg l.divNat)]
  by_contra hall
  push Not at hall
  have heq : ∀ s, (eigh fun k l => sg k.divNat * sg l.divNat * G k l + C k l).1 s = (eigh fun k l => G k l + C k l).1 s := by
    intro s
    have := hall s
    rw [hM, hM'] at this
    exact Gradient.freqOf_injective this
  have t1 := trace_sq he (fun k l => G k l + C k l) hMh
  have t2 := trace_sq he (fun k l => sg k.divNat * sg l.divNat * G k l + C k l) hMh'
  rw [Finset.sum_congr rfl fun s _ => by rw [heq s], t1, trace_add, trace_add] at t2
  have hDD : ∑ k, ∑ l, sg (Fin.divNat k) * sg (Fin.divNat l) * G k l * (sg (Fin.divNat l) * sg (Fin.divNat k) * G l k) =
      ∑ k, ∑ l, G k l * G l k := by
    refine Finset.sum_congr rfl fun k _ => Finset.sum_congr rfl fun l _ => ?_
    linear_combination (G k l * G l k) * (sg l.divNat * sg l.divNat * hsq k.divNat + hsq l.divNat)
  have hq0 := quad (hsym s0 (by simp)) (hn s0)
  have hq1 := quad (hsym s1 (by simp)) (hn s1)
  have hq2 := quad (hsym s2 (by simp)) (hn s2)
  have split : ∀ A : Mat 2 ℂ, ∑ k, ∑ l, A k l * C l k =
      -((wt 0 : ℂ) * ∑ k, ∑ l, A k l * ((eigh G).2 s0 l * (eigh G).2 s0 k) +
        ((wt 1 : ℂ) * ∑ k, ∑ l, A k l * ((eigh G).2 s1 l * (eigh G).2 s1 k) +
        (wt 2 : ℂ) * ∑ k, ∑ l, A k l * ((eigh G).2 s2 l * (eigh G).2 s2 k))) := by
    intro A
    simp only [Finset.mul_sum, ← Finset.sum_add_distrib, ← Finset.sum_neg_distrib]
    refine Finset.sum_congr rfl fun k _ => Finset.sum_congr rfl fun l _ => ?_
    simp only [hC]
    ring
  rw [hDD, split G, split fun k l => sg k.divNat * sg l.divNat * G k l, hq0.1, hq0.2, hq1.1, hq1.2, hq2.1, hq2.2] at t2
  have h3 : ((wt 0 + wt 1 + wt 2 : ℝ) : ℂ) = 0 := by
    push_cast
    linear_combination t2 / 2
  have h4 : wt 0 + wt 1 + wt 2 = 0 := by exact_mod_cast h3
  have := wt_pos 0 le_rfl
  have := wt_pos 1 zero_le_one
  have := wt_pos 2 zero_le_two
  linarith

/-- There are such eigensolvers. -/
example : ∃ (eigh : Mat 2 ℂ → (Fin (2 * 3) → ℝ) × Mat 2 ℂ) (q : V3 ℝ), IsEigh eigh ∧
    ∃ s, freqOf ((eigh (d'.corrected shells2 (fun _ _ _ => 0) eigh q)).1 s) ≠
      freqOf ((eigh (d.corrected shells2 (fun _ _ _ => 0) eigh (change.back q))).1 s) := by
  obtain ⟨eigh, he, hr⟩ := exists_isEigh_real (2 * 3)
  obtain ⟨-, -, -, -, q, h⟩ := C131_reciprocal_lost
  exact ⟨eigh, q, he, h _ _ eigh he hr⟩

end Lost

end Euphonic.Describe
