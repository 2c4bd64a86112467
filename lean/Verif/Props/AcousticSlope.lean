import Verif.Props.Acoustic
import Verif.Props.Stability

/-!
# Near the gamma point the three lowest frequencies are at most a constant times the wavevector (C170)

The modes in which the crystal moves as a whole become sound waves when the wavevector is not zero.  Their frequencies must leave
zero with a finite slope: the speed of sound, which is read off dispersion curves, and the density of states at low energies, which
determines heat capacities and Debye-Waller factors, depend on it.
-/

set_option autoImplicit false
set_option linter.unusedSectionVars false

namespace Euphonic.AcousticSlope

open Euphonic.Lattice Euphonic.Supercell Euphonic.Phases Euphonic.Images Euphonic.DynMat Euphonic.Describe Euphonic.Reduced
  Euphonic.Commensurate Euphonic.Acoustic Euphonic.Stability

/-- Size of a wavevector (in units of the reciprocal lattice vectors). -/
noncomputable def size (q : V3 ℝ) : ℝ := |q.x| + |q.y| + |q.z|

/-- Phase of a wave between the origin and a lattice vector. -/
noncomputable def ang (q : V3 ℝ) (R : V3 ℤ) : ℝ := 2 * Real.pi * (q.x * R.x + q.y * R.y + q.z * R.z)

/-- `t q`. -/
def scale (t : ℝ) (q : V3 ℝ) : V3 ℝ := ⟨t * q.x, t * q.y, t * q.z⟩

theorem size_nonneg (q : V3 ℝ) : 0 ≤ size q := by unfold size; positivity

theorem size_scale (t : ℝ) (q : V3 ℝ) : size (scale t q) = |t| * size q := by
  simp only [size, scale, abs_mul]
  ring

theorem ang_scale (t : ℝ) (q : V3 ℝ) (R : V3 ℤ) : ang (scale t q) R = t * ang q R := by
  simp only [ang, scale]
  ring

/-- The phase factor without its terms of order zero and one. -/
noncomputable def remainder (q : V3 ℝ) (R : V3 ℤ) : ℂ := expQR q R - 1 - Complex.I * (ang q R : ℂ)

theorem remainder_le (q : V3 ℝ) (R : V3 ℤ) : ‖remainder q R‖ ≤ 2 * ang q R ^ 2 := by
  have e : expQR q R = Complex.exp (Complex.I * (ang q R : ℂ)) := by
    unfold expQR ang
    congr 1
    push_cast
    ring
  unfold remainder
  rw [e]
  set x := ang q R
  have hI : ‖Complex.I * (x : ℂ)‖ = |x| := by rw [norm_mul, Complex.norm_I, one_mul, Complex.norm_real, Real.norm_eq_abs]
  rcases le_or_gt |x| 1 with h | h
  · refine (Complex.norm_exp_sub_one_sub_id_le (by rw [hI]; exact h)).trans ?_
    rw [hI, sq_abs]
    nlinarith [sq_nonneg x]
  · refine (norm_sub_le _ _).trans ?_
    have h1 : ‖Complex.exp (Complex.I * (x : ℂ)) - 1‖ ≤ ‖x‖ := Real.norm_exp_I_mul_ofReal_sub_one_le
    rw [Real.norm_eq_abs] at h1
    rw [hI, ← sq_abs]
    nlinarith

section
variable {n N : Nat}

/-- Quadratic form of a matrix for a displacement `a` of the whole crystal. -/
noncomputable def form (a : Fin 3 → ℂ) (d : Mat n ℂ) : ℂ := ∑ k, ∑ l, star (a k.modNat) * d k l * a l.modNat

/-- The displacement times the roots of the masses. -/
noncomputable def vec (m : Fin n → ℝ) (a : Fin 3 → ℂ) (k : Fin (n * 3)) : ℂ := ((√(m k.divNat) : ℝ) : ℂ) * a k.modNat

theorem norm_vec (m : Fin n → ℝ) (hm : ∀ i, 0 < m i) (a : Fin 3 → ℂ) :
    ∑ k, ‖vec m a k‖ ^ 2 = (∑ i, m i) * ∑ b, ‖a b‖ ^ 2 := by
  rw [sum_split, Finset.sum_mul]
  refine Finset.sum_congr rfl fun i _ => ?_
  rw [Finset.mul_sum]
  refine Finset.sum_congr rfl fun b _ => ?_
  simp only [vec, divNat_pair, modNat_pair]
  rw [norm_mul, Complex.norm_real, Real.norm_eq_abs, abs_of_nonneg (Real.sqrt_nonneg _), mul_pow, Real.sq_sqrt (hm i).le]

theorem quad_vec (m : Fin n → ℝ) (hm : ∀ i, 0 < m i) (a : Fin 3 → ℂ) (d : Mat n ℂ) :
    ∑ k, ∑ l, star (vec m a k) * weighted (massWeighting m) d none none none k l * vec m a l = form a d := by
  unfold form
  refine Finset.sum_congr rfl fun k _ => Finset.sum_congr rfl fun l _ => ?_
  have hs : (√(m k.divNat) : ℝ) * massWeighting m k l * √(m l.divNat) = 1 := by
    unfold massWeighting
    rw [Real.sqrt_mul (hm _).le]
    have h1 := (Real.sqrt_pos.2 (hm k.divNat)).ne'
    have h2 := (Real.sqrt_pos.2 (hm l.divNat)).ne'
    field_simp
  have hs' : ((√(m k.divNat) : ℝ) : ℂ) * (massWeighting m k l : ℂ) * ((√(m l.divNat) : ℝ) : ℂ) = 1 := by
    rw [← Complex.ofReal_mul, ← Complex.ofReal_mul, hs, Complex.ofReal_one]
  simp only [vec, weighted, star_mul', Complex.star_def, Complex.conj_ofReal]
  calc _ = (((√(m k.divNat) : ℝ) : ℂ) * (massWeighting m k l : ℂ) * ((√(m l.divNat) : ℝ) : ℂ)) *
        ((starRingEnd ℂ) (a k.modNat) * d k l * a l.modNat) := by ring
    _ = _ := by rw [hs', one_mul]

theorem form_add (a : Fin 3 → ℂ) (d e : Mat n ℂ) : form a (fun k l => d k l + e k l) = form a d + form a e := by
  simp only [form, mul_add, add_mul, Finset.sum_add_distrib]

theorem form_le (a : Fin 3 → ℂ) (E : Mat n ℂ) : ‖form a E‖ ≤ (∑ k, ∑ l, ‖E k l‖) * ∑ b, ‖a b‖ ^ 2 := by
  unfold form
  rw [Finset.sum_mul]
  refine (norm_sum_le _ _).trans (Finset.sum_le_sum fun k _ => ?_)
  rw [Finset.sum_mul]
  refine (norm_sum_le _ _).trans (Finset.sum_le_sum fun l _ => ?_)
  rw [norm_mul, norm_mul, norm_star]
  have h1 : ∀ b, ‖a b‖ ^ 2 ≤ ∑ b, ‖a b‖ ^ 2 := fun b =>
    Finset.single_le_sum (f := fun b => ‖a b‖ ^ 2) (fun b _ => sq_nonneg _) (Finset.mem_univ b)
  have h2 : ‖a k.modNat‖ * ‖a l.modNat‖ ≤ ∑ b, ‖a b‖ ^ 2 := by
    nlinarith [h1 k.modNat, h1 l.modNat, sq_nonneg (‖a k.modNat‖ - ‖a l.modNat‖)]
  calc _ = ‖E k l‖ * (‖a k.modNat‖ * ‖a l.modNat‖) := by ring
    _ ≤ _ := mul_le_mul_of_nonneg_left h2 (norm_nonneg _)

theorem form_rows (a : Fin 3 → ℂ) (d : Mat n ℂ) (h : ∀ k b, ∑ l, (if l.modNat = b then d k l else 0) = 0) : form a d = 0 := by
  unfold form
  refine Finset.sum_eq_zero fun k _ => ?_
  have e : ∀ l : Fin (n * 3), star (a k.modNat) * d k l * a l.modNat =
      ∑ b, star (a k.modNat) * a b * (if l.modNat = b then d k l else 0) := by
    intro l
    simp only [mul_ite, mul_zero, Finset.sum_ite_eq, Finset.mem_univ, if_true]
    ring
  rw [Finset.sum_congr rfl fun l _ => e l, Finset.sum_comm]
  refine Finset.sum_eq_zero fun b _ => ?_
  rw [← Finset.mul_sum, h, mul_zero]

open scoped Matrix in
/-- There is a displacement that is orthogonal to the modes below the third or an earlier one. -/
theorem exists_displacement {eigh : Mat n ℂ → (Fin (n * 3) → ℝ) × Mat n ℂ} (m : Fin n → ℝ) (A : Mat n ℂ) (s : Fin (n * 3))
    (hs : s.val < 3) : ∃ a : Fin 3 → ℂ, a ≠ 0 ∧ ∀ t < s, coef eigh A (vec m a) t = 0 := by
  set C : Fin (n * 3) → Fin 3 → ℂ := fun t b =>
    ∑ k : Fin (n * 3), if k.modNat = b then star ((eigh A).2 t k) * ((√(m k.divNat) : ℝ) : ℂ) else 0 with hC
  set M : Matrix (Fin 3) (Fin 3) ℂ := Matrix.of fun u b =>
    if h : u.val < s.val then C ⟨u.val, h.trans s.isLt⟩ b else 0 with hM
  have hd : M.det = 0 := Matrix.det_eq_zero_of_row_eq_zero ⟨s.val, hs⟩ fun b => by simp [hM]
  obtain ⟨a, ha, h⟩ := Matrix.exists_mulVec_eq_zero_iff.2 hd
  refine ⟨a, ha, fun t ht => ?_⟩
  have ht' : t.val < s.val := ht
  have h1 := congrFun h ⟨t.val, ht'.trans hs⟩
  have h2 : ∑ b, C t b * a b = 0 := by
    simpa [Matrix.mulVec, dotProduct, hM, ht'] using h1
  rw [← h2]
  unfold coef
  simp only [hC, Finset.sum_mul]
  rw [Finset.sum_comm]
  refine Finset.sum_congr rfl fun k _ => ?_
  simp only [ite_mul, zero_mul, Finset.sum_ite_eq, Finset.mem_univ, if_true, vec]
  ring

theorem eigenvalue_le {eigh : Mat n ℂ → (Fin (n * 3) → ℝ) × Mat n ℂ} (he : IsEigh eigh) (A : Mat n ℂ)
    (hA : ∀ k l, A l k = star (A k l)) (v : Fin (n * 3) → ℂ) (s : Fin (n * 3)) (h : ∀ t < s, coef eigh A v t = 0) :
    (eigh A).1 s * ∑ k, ‖v k‖ ^ 2 ≤ (∑ k, ∑ l, star (v k) * A k l * v l).re := by
  rw [quad_eq he A hA v, Complex.ofReal_re, ← norm_eq he A hA v, Finset.mul_sum]
  refine Finset.sum_le_sum fun t _ => ?_
  rcases lt_or_ge t s with ht | ht
  · rw [h t ht]; simp
  · exact mul_le_mul_of_nonneg_right (he.mono A hA ht) (sq_nonneg _)

theorem form_nonneg {eigh : Mat n ℂ → (Fin (n * 3) → ℝ) × Mat n ℂ} (he : IsEigh eigh) (m : Fin n → ℝ) (hm : ∀ i, 0 < m i)
    (d : Mat n ℂ) (hd : ∀ k l, d l k = star (d k l))
    (h : ∀ s, 0 ≤ freqOf ((eigh (weighted (massWeighting m) d none none none)).1 s)) (a : Fin 3 → ℂ) : 0 ≤ (form a d).re := by
  have hA : ∀ k l, weighted (massWeighting m) d none none none l k = star (weighted (massWeighting m) d none none none k l) :=
    weighted_herm m hd (by simp [HermOpt]) (by simp [HermOpt]) (by simp [HermOpt])
  rw [← quad_vec m hm a d, quad_eq he _ hA, Complex.ofReal_re]
  refine Finset.sum_nonneg fun s _ => mul_nonneg ?_ (sq_nonneg _)
  by_contra hn
  have hn := not_le.1 hn
  have h1 := h s
  unfold freqOf at h1
  rw [if_pos hn] at h1
  have : 0 < √|(eigh (weighted (massWeighting m) d none none none)).1 s| := Real.sqrt_pos.2 (abs_pos.2 hn.ne)
  linarith

variable (cv : M3 ℝ) (r : Fin n → V3 ℝ) (cells : Fin N → V3 ℤ) (c0 : Fin N) (S : M3 ℤ)

theorem latticeSum_add (images : List (V3 ℤ)) (fc : Fin N → Mat n ℝ) (F G : V3 ℤ → ℂ) (k l : Fin (n * 3)) :
    latticeSum cv r cells c0 S images fc (fun R => F R + G R) k l =
      latticeSum cv r cells c0 S images fc F k l + latticeSum cv r cells c0 S images fc G k l := by
  simp only [latticeSum, Finset.sum_add_distrib, mul_add]

theorem latticeSum_le (images : List (V3 ℤ)) (fc : Fin N → Mat n ℝ) (F : V3 ℤ → ℂ) (k l : Fin (n * 3)) (δ : ℝ)
    (hF : ∀ c, ∀ m ∈ images, ‖F (add (cells c) (mulMat m S))‖ ≤ δ) (hδ : 0 ≤ δ) :
    ‖latticeSum cv r cells c0 S images fc F k l‖ ≤ (∑ c, |fc c k l|) * δ := by
  have h := latticeSum_sub' cv r cells c0 S images fc F (fun _ => 0) k l δ (fun c m hm => by simpa using hF c m hm) hδ
  have h0 : latticeSum cv r cells c0 S images fc (fun _ => 0) k l = 0 := by simp [latticeSum]
  rwa [h0, sub_zero] at h

theorem latticeSum_smul (images : List (V3 ℤ)) (fc : Fin N → Mat n ℝ) (z : ℂ) (F : V3 ℤ → ℂ) (k l : Fin (n * 3)) :
    latticeSum cv r cells c0 S images fc (fun R => z * F R) k l = z * latticeSum cv r cells c0 S images fc F k l := by
  simp only [latticeSum, ← Finset.mul_sum]
  rw [Finset.mul_sum]
  exact Finset.sum_congr rfl fun c _ => by ring

/-- The part of the first order in the wavevector. -/
noncomputable def first (images : List (V3 ℤ)) (fc : Fin N → Mat n ℝ) (q : V3 ℝ) : Mat n ℂ :=
  latticeSum cv r cells c0 S images fc fun R => Complex.I * (ang q R : ℂ)

/-- The rest. -/
noncomputable def second (images : List (V3 ℤ)) (fc : Fin N → Mat n ℝ) (q : V3 ℝ) : Mat n ℂ :=
  latticeSum cv r cells c0 S images fc (remainder q)

theorem form_split (images : List (V3 ℤ)) (hok : ReducedSupercell cv r cells c0 S images) {fc : Fin N → Mat n ℝ}
    (ht : TranslationInvariant fc) (junk : Fin N → Mat n ℝ) (q : V3 ℝ) (a : Fin 3 → ℂ) :
    form a (fcDynMat cv r cells c0 S images fc junk q) =
      form a (first cv r cells c0 S images fc q) + form a (second cv r cells c0 S images fc q) := by
  obtain ⟨hnd, -⟩ := mem_shells hok.shells
  have h1 : fcDynMat cv r cells c0 S images fc junk q = fun k l =>
      latticeSum cv r cells c0 S images fc (fun _ => 1) k l +
        (first cv r cells c0 S images fc q k l + second cv r cells c0 S images fc q k l) := by
    funext k l
    rw [C43_textbook cv r cells c0 S images hnd hok.volume, first, second, ← latticeSum_add, ← latticeSum_add]
    congr 1
    funext R
    unfold remainder
    ring
  have h0 : latticeSum cv r cells c0 S images fc (fun _ => 1) =
      fcDynMat cv r cells c0 S images fc junk (castV ℝ ⟨0, 0, 0⟩) := by
    rw [C43_textbook cv r cells c0 S images hnd hok.volume]
    congr 1
    funext R
    rw [expQR_int]
  rw [h1, form_add, form_add, h0, form_rows a _ fun k b => gamma_rows cv r cells c0 S images hok ht junk ⟨0, 0, 0⟩ k b, zero_add]

theorem form_second_le (images : List (V3 ℤ)) (fc : Fin N → Mat n ℝ) (q : V3 ℝ) (a : Fin 3 → ℂ) (B : ℝ)
    (hB : ∀ c, ∀ m ∈ images, |((add (cells c) (mulMat m S)).x : ℝ)| ≤ B ∧ |((add (cells c) (mulMat m S)).y : ℝ)| ≤ B ∧
      |((add (cells c) (mulMat m S)).z : ℝ)| ≤ B) :
    ‖form a (second cv r cells c0 S images fc q)‖ ≤
      (∑ k, ∑ l, ∑ c, |fc c k l|) * (2 * (2 * Real.pi * B * size q) ^ 2) * ∑ b, ‖a b‖ ^ 2 := by
  refine (form_le a _).trans (mul_le_mul_of_nonneg_right ?_ (Finset.sum_nonneg fun b _ => sq_nonneg _))
  rw [Finset.sum_mul]
  refine Finset.sum_le_sum fun k _ => ?_
  rw [Finset.sum_mul]
  refine Finset.sum_le_sum fun l _ => ?_
  refine latticeSum_le cv r cells c0 S images fc _ k l _ (fun c m hm => ?_) (by positivity)
  refine (remainder_le q _).trans (mul_le_mul_of_nonneg_left ?_ zero_le_two)
  obtain ⟨bx, by', bz⟩ := hB c m hm
  refine sq_le_sq' (neg_le_of_abs_le ?_) (le_of_abs_le ?_)
  all_goals
    unfold ang size
    rw [abs_mul, abs_of_pos Real.two_pi_pos, mul_assoc (2 * Real.pi)]
    refine mul_le_mul_of_nonneg_left ((abs_add_three _ _ _).trans ?_) Real.two_pi_pos.le
    rw [abs_mul, abs_mul, abs_mul, mul_comm B, add_mul, add_mul]
    gcongr

theorem first_scale (images : List (V3 ℤ)) (fc : Fin N → Mat n ℝ) (t : ℝ) (q : V3 ℝ) (a : Fin 3 → ℂ) :
    form a (first cv r cells c0 S images fc (scale t q)) = (t : ℂ) * form a (first cv r cells c0 S images fc q) := by
  have h : ∀ k l, first cv r cells c0 S images fc (scale t q) k l = (t : ℂ) * first cv r cells c0 S images fc q k l := by
    intro k l
    unfold first
    rw [← latticeSum_smul]
    congr 1
    funext R
    rw [ang_scale]
    push_cast
    ring
  unfold form
  rw [Finset.mul_sum]
  refine Finset.sum_congr rfl fun k _ => ?_
  rw [Finset.mul_sum]
  exact Finset.sum_congr rfl fun l _ => by rw [h]; ring

/-- Without imaginary frequencies near the gamma point there is no term of first order. -/
theorem first_zero (images : List (V3 ℤ)) (hok : ReducedSupercell cv r cells c0 S images) {fc : Fin N → Mat n ℝ}
    (ht : TranslationInvariant fc) (junk : Fin N → Mat n ℝ) (a : Fin 3 → ℂ) (ε : ℝ) (hε : 0 < ε)
    (hp : ∀ q, size q ≤ ε → 0 ≤ (form a (fcDynMat cv r cells c0 S images fc junk q)).re) (B : ℝ)
    (hB : ∀ c, ∀ m ∈ images, |((add (cells c) (mulMat m S)).x : ℝ)| ≤ B ∧ |((add (cells c) (mulMat m S)).y : ℝ)| ≤ B ∧
      |((add (cells c) (mulMat m S)).z : ℝ)| ≤ B) (q : V3 ℝ) :
    (form a (first cv r cells c0 S images fc q)).re = 0 := by
  set h := (form a (first cv r cells c0 S images fc q)).re with hh
  set K := (∑ k, ∑ l, ∑ c, |fc c k l|) * (2 * (2 * Real.pi * B * size q) ^ 2) * ∑ b, ‖a b‖ ^ 2 with hK
  have hK0 : 0 ≤ K := by
    have : 0 ≤ ∑ k, ∑ l, ∑ c, |fc c k l| :=
      Finset.sum_nonneg fun k _ => Finset.sum_nonneg fun l _ => Finset.sum_nonneg fun c _ => abs_nonneg _
    have : 0 ≤ ∑ b, ‖a b‖ ^ 2 := Finset.sum_nonneg fun b _ => sq_nonneg _
    positivity
  have key : ∀ t : ℝ, |t| * size q ≤ ε → 0 ≤ t * h + t ^ 2 * K := by
    intro t hts
    have h1 := hp (scale t q) (by rw [size_scale]; exact hts)
    rw [form_split cv r cells c0 S images hok ht, first_scale, Complex.add_re, Complex.re_ofReal_mul] at h1
    have h2 := (Complex.re_le_norm _).trans (form_second_le cv r cells c0 S images fc (scale t q) a B hB)
    have h3 : (∑ k, ∑ l, ∑ c, |fc c k l|) * (2 * (2 * Real.pi * B * size (scale t q)) ^ 2) * ∑ b, ‖a b‖ ^ 2 = t ^ 2 * K := by
      rw [hK, size_scale, ← sq_abs t]
      ring
    rw [h3] at h2
    linarith
  by_contra hne
  have hpos : 0 < |h| := abs_pos.2 hne
  have hs := size_nonneg q
  set τ := min (ε / (size q + 1)) (|h| / (2 * (K + 1))) with hτ
  have hτ0 : 0 < τ := lt_min (by positivity) (by positivity)
  have hτ1 : τ * size q ≤ ε := by
    calc τ * size q ≤ ε / (size q + 1) * (size q + 1) :=
          mul_le_mul (min_le_left _ _) (by linarith) hs (by positivity)
      _ = ε := by field_simp
  have hτ2 : τ * K < |h| := by
    have h1 : τ * (2 * (K + 1)) ≤ |h| := by
      rw [← le_div_iff₀ (by positivity)]
      exact min_le_right _ _
    nlinarith
  have k1 := key τ (by rw [abs_of_pos hτ0]; exact hτ1)
  have k2 := key (-τ) (by rw [abs_neg, abs_of_pos hτ0]; exact hτ1)
  have e1 : 0 ≤ τ * (h + τ * K) := by linarith [k1, (by ring : τ * (h + τ * K) = τ * h + τ ^ 2 * K)]
  have e2 : 0 ≤ τ * (-h + τ * K) := by linarith [k2, (by ring : τ * (-h + τ * K) = -τ * h + (-τ) ^ 2 * K)]
  have f1 := nonneg_of_mul_nonneg_right e1 hτ0
  have f2 := nonneg_of_mul_nonneg_right e2 hτ0
  have : |h| ≤ τ * K := abs_le.2 ⟨by linarith, by linarith⟩
  linarith

/-- For real displacements there never is a term of first order. -/
theorem first_real (images : List (V3 ℤ)) (fc : Fin N → Mat n ℝ) (q : V3 ℝ) (a : Fin 3 → ℝ) :
    (form (fun b => (a b : ℂ)) (first cv r cells c0 S images fc q)).re = 0 := by
  unfold form
  simp only [Complex.re_sum]
  refine Finset.sum_eq_zero fun k _ => Finset.sum_eq_zero fun l _ => ?_
  have h : (first cv r cells c0 S images fc q k l).re = 0 := by
    unfold first
    rw [latticeSum_smul cv r cells c0 S images fc Complex.I (fun R => (ang q R : ℂ))]
    have : latticeSum cv r cells c0 S images fc (fun R => (ang q R : ℂ)) k l =
        ((∑ c, fc c k l / ((imageSet cv r cells c0 S images c k.divNat l.divNat).card : ℝ) *
          ∑ m ∈ imageSet cv r cells c0 S images c k.divNat l.divNat, ang q (add (cells c) (mulMat m S)) : ℝ) : ℂ) := by
      unfold latticeSum
      push_cast
      rfl
    rw [this]
    simp
  simp [h]

/-- The largest speed (radians per unit of time for a wavevector of size one). -/
noncomputable def speed (m : Fin n → ℝ) (fc : Fin N → Mat n ℝ) (B : ℝ) : ℝ :=
  2 * Real.pi * B * √(2 * (∑ k, ∑ l, ∑ c, |fc c k l|) / ∑ i, m i)

theorem freqOf_le {x y : ℝ} (hy : 0 ≤ y) (h : x ≤ y ^ 2) : freqOf x ≤ y := by
  unfold freqOf
  split
  · have := Real.sqrt_nonneg |x|
    linarith
  · rename_i hx
    rw [abs_of_nonneg (not_lt.1 hx)]
    exact Real.sqrt_le_iff.2 ⟨hy, h⟩

theorem complete_of_reduced (images : List (V3 ℤ)) (hok : ReducedSupercell cv r cells c0 S images) :
    Complete cv r cells c0 S images := by
  intro c i j l hl
  obtain ⟨L, -, -, h, -⟩ := C123_nearest_partial cv r cells c0 S images hok.shells hok.volume hok.reduced c i j (hok.within c i j)
  obtain ⟨m, -, hm⟩ := (h l).1 ((nearestOfAll_iff hok.reduced hok.volume _).1 hl)
  exact List.mem_of_getElem? hm

theorem hermitian_of_reduced (images : List (V3 ℤ)) (hok : ReducedSupercell cv r cells c0 S images) (h0 : cells c0 = ⟨0, 0, 0⟩)
    {fc : Fin N → Mat n ℝ} {op : Fin N → Fin N} {t : Fin N → V3 ℤ} (hs : Symmetric cells S fc op t) (junk : Fin N → Mat n ℝ)
    (q : V3 ℝ) (k l : Fin (n * 3)) :
    fcDynMat cv r cells c0 S images fc junk q l k = star (fcDynMat cv r cells c0 S images fc junk q k l) :=
  (C43_hermitian cv r cells c0 S hs h0 images (mem_shells hok.shells).1 (complete_of_reduced cv r cells c0 S images hok)
    hok.volume junk q k l).1

/-- A displacement of the whole crystal that is orthogonal to the modes below `s` bounds the frequency of mode `s`. -/
theorem slow (images : List (V3 ℤ)) (hok : ReducedSupercell cv r cells c0 S images) (h0 : cells c0 = ⟨0, 0, 0⟩)
    {fc : Fin N → Mat n ℝ} {op : Fin N → Fin N} {t : Fin N → V3 ℤ} (hs : Symmetric cells S fc op t)
    (ht : TranslationInvariant fc) (junk : Fin N → Mat n ℝ) (m : Fin n → ℝ) (hm : ∀ i, 0 < m i) (B : ℝ) (hB0 : 0 ≤ B)
    (hB : ∀ c, ∀ m ∈ images, |((add (cells c) (mulMat m S)).x : ℝ)| ≤ B ∧ |((add (cells c) (mulMat m S)).y : ℝ)| ≤ B ∧
      |((add (cells c) (mulMat m S)).z : ℝ)| ≤ B)
    {eigh : Mat n ℂ → (Fin (n * 3) → ℝ) × Mat n ℂ} (he : IsEigh eigh) (q : V3 ℝ) (s : Fin (n * 3)) (a : Fin 3 → ℂ) (ha : a ≠ 0)
    (hlow : ∀ u < s, coef eigh (weighted (massWeighting m) (fcDynMat cv r cells c0 S images fc junk q) none none none) (vec m a) u = 0)
    (hz : (form a (first cv r cells c0 S images fc q)).re = 0) :
    freqOf ((eigh (weighted (massWeighting m) (fcDynMat cv r cells c0 S images fc junk q) none none none)).1 s) ≤
      speed m fc B * size q := by
  set d := fcDynMat cv r cells c0 S images fc junk q with hd
  have hA : ∀ k l, weighted (massWeighting m) d none none none l k = star (weighted (massWeighting m) d none none none k l) :=
    weighted_herm m (hermitian_of_reduced cv r cells c0 S images hok h0 hs junk q) (by simp [HermOpt]) (by simp [HermOpt])
      (by simp [HermOpt])
  have h1 := eigenvalue_le he _ hA (vec m a) s hlow
  rw [quad_vec m hm, norm_vec m hm, hd, form_split cv r cells c0 S images hok ht, Complex.add_re, hz, zero_add, ← hd] at h1
  have h2 := h1.trans ((Complex.re_le_norm _).trans (form_second_le cv r cells c0 S images fc q a B hB))
  have ha2 : 0 < ∑ b, ‖a b‖ ^ 2 := by
    obtain ⟨b, hb⟩ := Function.ne_iff.1 ha
    exact Finset.sum_pos' (fun k _ => sq_nonneg _) ⟨b, Finset.mem_univ _, by have := norm_pos_iff.2 hb; positivity⟩
  have hM : 0 < ∑ i, m i := Finset.sum_pos (fun i _ => hm i) ⟨s.divNat, Finset.mem_univ _⟩
  have hF : 0 ≤ ∑ k, ∑ l, ∑ c, |fc c k l| :=
    Finset.sum_nonneg fun k _ => Finset.sum_nonneg fun l _ => Finset.sum_nonneg fun c _ => abs_nonneg _
  rw [← mul_assoc] at h2
  have h3 := le_of_mul_le_mul_right h2 ha2
  have hπ := Real.pi_pos
  have hq := size_nonneg q
  refine freqOf_le (by unfold speed; positivity) ?_
  unfold speed
  rw [mul_pow, mul_pow, Real.sq_sqrt (by positivity), mul_div_assoc', div_mul_eq_mul_div, le_div_iff₀ hM]
  calc _ ≤ _ := h3
    _ = _ := by ring

/-! ## Theorems -/

/-- **C170** (partial: for reduced supercells) If force constants are invariant under translations of the crystal and there are no
imaginary frequencies near the gamma point, the three lowest frequencies at every wavevector are at most a constant times the
size of the wavevector.  The constant is explicit: the sum of the absolute values of the force constants over the sum of the
masses, and `B` bounds the components of the lattice vectors between interacting atoms. -/
theorem C170_acoustic_partial (images : List (V3 ℤ)) (hok : ReducedSupercell cv r cells c0 S images) (h0 : cells c0 = ⟨0, 0, 0⟩)
    {fc : Fin N → Mat n ℝ} {op : Fin N → Fin N} {t : Fin N → V3 ℤ} (hs : Symmetric cells S fc op t)
    (ht : TranslationInvariant fc) (junk : Fin N → Mat n ℝ) (m : Fin n → ℝ) (hm : ∀ i, 0 < m i) (B : ℝ) (hB0 : 0 ≤ B)
    (hB : ∀ c, ∀ m ∈ images, |((add (cells c) (mulMat m S)).x : ℝ)| ≤ B ∧ |((add (cells c) (mulMat m S)).y : ℝ)| ≤ B ∧
      |((add (cells c) (mulMat m S)).z : ℝ)| ≤ B)
    {eigh : Mat n ℂ → (Fin (n * 3) → ℝ) × Mat n ℂ} (he : IsEigh eigh) (ε : ℝ) (hε : 0 < ε)
    (hst : ∀ q, size q ≤ ε → ∀ s, 0 ≤ freqOf ((eigh (weighted (massWeighting m)
      (fcDynMat cv r cells c0 S images fc junk q) none none none)).1 s)) (q : V3 ℝ) (s : Fin (n * 3)) (h3 : s.val < 3) :
    freqOf ((eigh (weighted (massWeighting m) (fcDynMat cv r cells c0 S images fc junk q) none none none)).1 s) ≤
      speed m fc B * size q := by
  obtain ⟨a, ha, hlow⟩ := exists_displacement (eigh := eigh) m
    (weighted (massWeighting m) (fcDynMat cv r cells c0 S images fc junk q) none none none) s h3
  refine slow cv r cells c0 S images hok h0 hs ht junk m hm B hB0 hB he q s a ha hlow ?_
  exact first_zero cv r cells c0 S images hok ht junk a ε hε (fun q' hq' => form_nonneg he m hm _
    (hermitian_of_reduced cv r cells c0 S images hok h0 hs junk q') (hst q' hq') a) B hB q

/-- **C170** (partial: for reduced supercells) The lowest frequency satisfies the bound also if there are imaginary ones. -/
theorem C170_lowest_partial (images : List (V3 ℤ)) (hok : ReducedSupercell cv r cells c0 S images) (h0 : cells c0 = ⟨0, 0, 0⟩)
    {fc : Fin N → Mat n ℝ} {op : Fin N → Fin N} {t : Fin N → V3 ℤ} (hs : Symmetric cells S fc op t)
    (ht : TranslationInvariant fc) (junk : Fin N → Mat n ℝ) (m : Fin n → ℝ) (hm : ∀ i, 0 < m i) (B : ℝ) (hB0 : 0 ≤ B)
    (hB : ∀ c, ∀ m ∈ images, |((add (cells c) (mulMat m S)).x : ℝ)| ≤ B ∧ |((add (cells c) (mulMat m S)).y : ℝ)| ≤ B ∧
      |((add (cells c) (mulMat m S)).z : ℝ)| ≤ B)
    {eigh : Mat n ℂ → (Fin (n * 3) → ℝ) × Mat n ℂ} (he : IsEigh eigh) (q : V3 ℝ) (s : Fin (n * 3)) (h3 : s.val = 0) :
    freqOf ((eigh (weighted (massWeighting m) (fcDynMat cv r cells c0 S images fc junk q) none none none)).1 s) ≤
      speed m fc B * size q := by
  refine slow cv r cells c0 S images hok h0 hs ht junk m hm B hB0 hB he q s (fun b => (((1 : Fin 3 → ℝ) b : ℝ) : ℂ)) ?_ ?_
    (first_real cv r cells c0 S images fc q 1)
  · exact Function.ne_iff.2 ⟨0, by simp⟩
  · intro u hu
    have : u.val < s.val := hu
    omega

/-- **C170** (partial: for reduced supercells) There is a speed of sound: without imaginary frequencies near the gamma point, the
frequencies of the three lowest modes lie between zero and a constant times the size of the wavevector there. -/
theorem C170_sound_partial (images : List (V3 ℤ)) (hok : ReducedSupercell cv r cells c0 S images) (h0 : cells c0 = ⟨0, 0, 0⟩)
    {fc : Fin N → Mat n ℝ} {op : Fin N → Fin N} {t : Fin N → V3 ℤ} (hs : Symmetric cells S fc op t)
    (ht : TranslationInvariant fc) (junk : Fin N → Mat n ℝ) (m : Fin n → ℝ) (hm : ∀ i, 0 < m i)
    {eigh : Mat n ℂ → (Fin (n * 3) → ℝ) × Mat n ℂ} (he : IsEigh eigh) (ε : ℝ) (hε : 0 < ε)
    (hst : ∀ q, size q ≤ ε → ∀ s, 0 ≤ freqOf ((eigh (weighted (massWeighting m)
      (fcDynMat cv r cells c0 S images fc junk q) none none none)).1 s)) :
    ∃ v : ℝ, 0 ≤ v ∧ ∀ q, size q ≤ ε → ∀ s : Fin (n * 3), s.val < 3 →
      0 ≤ freqOf ((eigh (weighted (massWeighting m) (fcDynMat cv r cells c0 S images fc junk q) none none none)).1 s) ∧
      freqOf ((eigh (weighted (massWeighting m) (fcDynMat cv r cells c0 S images fc junk q) none none none)).1 s) ≤ v * size q := by
  obtain ⟨B, -, hB0, hB, -⟩ := exists_bounds cells S m images fc
  refine ⟨speed m fc B, ?_, fun q hq s h3 => ⟨hst q hq s, ?_⟩⟩
  · have := Real.pi_pos
    unfold speed
    positivity
  · exact C170_acoustic_partial cv r cells c0 S images hok h0 hs ht junk m hm B hB0 hB he ε hε hst q s h3

end

/-- **C170** *Violation:* in a supercell that is not reduced no constant is large enough, not even for the lowest frequency: for the
translation invariant force constants of `C130_lost` all frequencies are `√x` at the gamma point. -/
theorem C170_lost (x : ℝ) (hx : 0 < x) (junk : Fin 1 → Mat 2 ℝ) {eigh : Mat 2 ℂ → (Fin (2 * 3) → ℝ) × Mat 2 ℂ} (he : IsEigh eigh) :
    TranslationInvariant (Lost.fc x) ∧
    Symmetric (fun _ : Fin 1 => (⟨0, 0, 0⟩ : V3 ℤ)) one (Lost.fc x) id (fun _ => ⟨0, 0, 0⟩) ∧
    ∀ (v : ℝ) (s : Fin (2 * 3)), v * size ⟨0, 0, 0⟩ < freqOf ((eigh (weighted (massWeighting fun _ => 1)
      (fcDynMat (N := 1) skewed Lost.r (fun _ => ⟨0, 0, 0⟩) 0 one shells2 (Lost.fc x) junk ⟨0, 0, 0⟩) none none none)).1 s) := by
  obtain ⟨h1, h2, h3⟩ := C130_lost x hx junk he
  refine ⟨h1, h2, fun v s => ?_⟩
  rw [h3 s]
  simpa [size] using hx

/-! ## A case meeting the hypotheses -/

namespace Ex
open DynMat.Ex

theorem only (i : Fin 1) : imageSet cv DynMat.Ex.r DynMat.Ex.cells 0 S shells2 0 i i = {⟨0, 0, 0⟩} := by
  obtain ⟨-, hm⟩ := mem_shells shells2_eq
  ext l
  unfold imageSet
  simp only [Finset.mem_filter, List.mem_toFinset, Finset.mem_singleton]
  constructor
  · rintro ⟨-, h⟩
    have h1 := h 1 0 0 (by decide) (by decide) (by decide) (by decide)
    have h2 := h (-1) 0 0 (by decide) (by decide) (by decide) (by decide)
    have h3 := h 0 1 0 (by decide) (by decide) (by decide) (by decide)
    have h4 := h 0 (-1) 0 (by decide) (by decide) (by decide) (by decide)
    have h5 := h 0 0 1 (by decide) (by decide) (by decide) (by decide)
    have h6 := h 0 0 (-1) (by decide) (by decide) (by decide) (by decide)
    obtain ⟨lx, ly, lz⟩ := l
    have key : -1 < lx ∧ lx < 1 ∧ -1 < ly ∧ ly < 1 ∧ -1 < lz ∧ lz < 1 := by
      simp [Images.sq, dot, sub, pairVec, toCart, scVecs, S, cv, castV, add, DynMat.Ex.cells, DynMat.Ex.r, mulMat]
        at h1 h2 h3 h4 h5 h6
      refine ⟨?_, ?_, ?_, ?_, ?_, ?_⟩ <;>
      · have : ∀ a b : ℤ, (a : ℝ) < b → a < b := fun a b => by exact_mod_cast id
        apply this
        push_cast
        linarith
    simp only [V3.mk.injEq]
    omega
  · rintro rfl
    refine ⟨(hm _).2 (by simp), ?_⟩
    rw [nearest_iff]
    intro a b c _ _ _
    have : pairVec cv S (DynMat.Ex.cells 0) (DynMat.Ex.cells 0) (DynMat.Ex.r i) (DynMat.Ex.r i) ⟨0, 0, 0⟩ = ⟨0, 0, 0⟩ := by
      simp [pairVec, sub, add, castV, mulMat, toCart, DynMat.Ex.cells]
    rw [this]
    simp only [dot, Images.sq]
    nlinarith [sq_nonneg (toCart (scVecs S cv) ⟨(a : ℝ), b, c⟩).x, sq_nonneg (toCart (scVecs S cv) ⟨(a : ℝ), b, c⟩).y,
      sq_nonneg (toCart (scVecs S cv) ⟨(a : ℝ), b, c⟩).z]

/-- The chain of `Commensurate.Chain` has no imaginary frequencies at any wavevector. -/
theorem chain_stable (junk : Fin 2 → Mat 1 ℝ) (m : ℝ) {eigh : Mat 1 ℂ → (Fin (1 * 3) → ℝ) × Mat 1 ℂ} (he : IsEigh eigh)
    (q : V3 ℝ) (s : Fin (1 * 3)) : 0 ≤ freqOf ((eigh (weighted (massWeighting fun _ => m)
      (fcDynMat cv DynMat.Ex.r DynMat.Ex.cells 0 S shells2 Chain.fc junk q) none none none)).1 s) := by
  have hA : ∀ k l, weighted (massWeighting fun _ => m) (fcDynMat cv DynMat.Ex.r DynMat.Ex.cells 0 S shells2 Chain.fc junk q)
      none none none l k = star (weighted (massWeighting fun _ => m)
        (fcDynMat cv DynMat.Ex.r DynMat.Ex.cells 0 S shells2 Chain.fc junk q) none none none k l) :=
    weighted_herm _ (hermitian_of_reduced cv _ _ 0 S shells2 Chain.ok rfl Chain.symmetric junk q) (by simp [HermOpt])
      (by simp [HermOpt]) (by simp [HermOpt])
  have hoff : ∀ k l, k ≠ l → weighted (massWeighting fun _ => m)
      (fcDynMat cv DynMat.Ex.r DynMat.Ex.cells 0 S shells2 Chain.fc junk q) none none none k l = 0 := by
    intro k l hkl
    simp only [weighted]
    rw [C43_textbook cv _ _ 0 S shells2 (mem_shells shells2_eq).1 volume]
    unfold latticeSum
    simp only [Chain.fc, if_neg hkl, Complex.ofReal_zero, zero_div, zero_mul, Finset.sum_const_zero]
  have hdiag : ∀ k, 0 ≤ (weighted (massWeighting fun _ => m)
      (fcDynMat cv DynMat.Ex.r DynMat.Ex.cells 0 S shells2 Chain.fc junk q) none none none k k).re := by
    intro k
    simp only [weighted]
    rw [C43_textbook cv _ _ 0 S shells2 (mem_shells shells2_eq).1 volume, Complex.re_mul_ofReal]
    refine mul_nonneg ?_ (massWeighting_nonneg _ k k)
    simp only [latticeSum, Fin.sum_univ_two, only, Finset.sum_singleton, Finset.card_singleton, Chain.fc, if_true]
    set I := imageSet cv DynMat.Ex.r DynMat.Ex.cells 0 S shells2 1 k.divNat k.divNat
    set tot := ∑ x ∈ I, expQR q (add (DynMat.Ex.cells 1) (mulMat x S))
    have e : expQR q (add (DynMat.Ex.cells 0) (mulMat ⟨0, 0, 0⟩ S)) = 1 := by
      simp [expQR, add, DynMat.Ex.cells, mulMat]
    have h2 : ‖tot / (I.card : ℂ)‖ ≤ 1 := by
      rw [norm_div, Complex.norm_natCast]
      refine div_le_one_of_le₀ ((norm_sum_le _ _).trans ?_) (Nat.cast_nonneg _)
      refine (Finset.sum_le_sum fun m _ => norm_expQR_le q _).trans ?_
      rw [Finset.sum_const, nsmul_eq_mul, mul_one]
    have h3 := (Complex.re_le_norm _).trans h2
    rw [e]
    have h4 : (((![(2 : ℝ), -2] 0 : ℝ) : ℂ) / ((1 : ℕ) : ℂ) * 1 + ((![(2 : ℝ), -2] 1 : ℝ) : ℂ) / (I.card : ℂ) * tot) =
        ((2 : ℝ) : ℂ) - ((2 : ℝ) : ℂ) * (tot / (I.card : ℂ)) := by
      simp only [Matrix.cons_val_zero, Matrix.cons_val_one, Nat.cast_one, div_one, mul_one]
      push_cast
      ring
    rw [h4, Complex.sub_re, Complex.re_ofReal_mul, Complex.ofReal_re]
    linarith
  have h2 := he.ortho _ hA s s
  generalize weighted (massWeighting fun _ => m) (fcDynMat cv DynMat.Ex.r DynMat.Ex.cells 0 S shells2 Chain.fc junk q)
    none none none = A at hA hoff hdiag h2
  obtain ⟨k, hk⟩ : ∃ k, (eigh A).2 s k ≠ 0 := by
    by_contra hall
    push Not at hall
    simp [hall] at h2
  have h3 := he.eigen A hA s k
  rw [Finset.sum_eq_single k (fun l _ hl => by rw [hoff k l (Ne.symm hl), zero_mul]) (by simp)] at h3
  have h4 := congrArg Complex.re (mul_right_cancel₀ hk h3)
  rw [Complex.ofReal_re] at h4
  unfold freqOf
  rw [← h4, if_neg (not_lt.2 (hdiag k))]
  exact Real.sqrt_nonneg _

/-- The chain has a speed of sound: all three of its frequencies are between zero and a multiple of the wavevector. -/
example (junk : Fin 2 → Mat 1 ℝ) (m : ℝ) (hm : 0 < m) {eigh : Mat 1 ℂ → (Fin (1 * 3) → ℝ) × Mat 1 ℂ} (he : IsEigh eigh) :
    ∃ v : ℝ, 0 ≤ v ∧ ∀ q, size q ≤ 1 → ∀ s : Fin (1 * 3), s.val < 3 →
      0 ≤ freqOf ((eigh (weighted (massWeighting fun _ => m)
        (fcDynMat cv DynMat.Ex.r DynMat.Ex.cells 0 S shells2 Chain.fc junk q) none none none)).1 s) ∧
      freqOf ((eigh (weighted (massWeighting fun _ => m)
        (fcDynMat cv DynMat.Ex.r DynMat.Ex.cells 0 S shells2 Chain.fc junk q) none none none)).1 s) ≤ v * size q :=
  C170_sound_partial cv _ _ 0 S shells2 Chain.ok rfl Chain.symmetric Chain.invariant junk (fun _ => m) (fun _ => hm) he 1 one_pos
    fun q _ s => chain_stable junk m he q s

end Ex

end Euphonic.AcousticSlope
