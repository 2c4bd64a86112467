import Verif.Props.Dipole

/-!
# How the long-range corrections depend on lengths, charges and screening (C151)

The electrostatic energy of charges `Z e` a distance `d` apart in a medium with dielectric constant `eps` is
`(Z e)^2 / (eps d)`; its second derivatives are proportional to `Z^2 / (eps d^3)`.  The calculated corrections have this
property exactly, although they are cut off sums, because the cutoffs move with the cell.
-/

set_option autoImplicit false

namespace Euphonic.Dipole

open Euphonic.Lattice Euphonic.Phases Euphonic.Images Euphonic.DynMat

variable {n : Nat}

/-! ## Specification -/

/-- The same crystal with all lengths multiplied by `s`, the dielectric tensor by `e` and the charges by `z`. -/
noncomputable def rescaled (o : Ions n) (s e z : ℝ) : Ions n :=
  ⟨⟨smul s o.cv.a, smul s o.cv.b, smul s o.cv.c⟩, o.r, fun i a b => z * o.born i a b, e • o.diel⟩

/-! ## Ingredients -/

theorem toCart_rescaled (o : Ions n) (s e z : ℝ) (q : V3 ℝ) :
    toCart (rescaled o s e z).cv q = smul s (toCart o.cv q) := by
  simp only [rescaled, toCart, smul, V3.mk.injEq]
  exact ⟨by ring, by ring, by ring⟩

theorem volume_rescaled (o : Ions n) (s e z : ℝ) : volume (rescaled o s e z) = s ^ 3 * volume o := by
  simp only [volume, rescaled, cellVolume, cross, dot, smul]
  ring

theorem toCart_recip_rescaled (o : Ions n) {s : ℝ} (hs : 0 < s) (e z : ℝ) (q : V3 ℝ) :
    toCart (recip (rescaled o s e z)) q = smul s⁻¹ (toCart (recip o) q) := by
  have hv := volume_rescaled o s e z
  unfold volume at hv
  have h2 : 2 * Real.pi / (s ^ 3 * cellVolume o.cv) = s⁻¹ * s⁻¹ * s⁻¹ * (2 * Real.pi / cellVolume o.cv) := by
    rw [div_mul_eq_div_div, div_right_comm, div_eq_mul_inv _ (s ^ 3), ← inv_pow]
    ring
  have hss : s * s⁻¹ = 1 := mul_inv_cancel₀ hs.ne'
  simp only [recip, reciprocalCell]
  rw [hv, h2]
  generalize 2 * Real.pi / cellVolume o.cv = w
  have key : ∀ x : ℝ, s⁻¹ * s⁻¹ * s⁻¹ * w * (s * s * x) = s⁻¹ * (w * x) := by
    intro x
    calc s⁻¹ * s⁻¹ * s⁻¹ * w * (s * s * x) = (s * s⁻¹) * (s * s⁻¹) * (s⁻¹ * (w * x)) := by ring
      _ = _ := by rw [hss]; ring
  have kc : ∀ u v : V3 ℝ, smul (s⁻¹ * s⁻¹ * s⁻¹ * w) (cross (smul s u) (smul s v)) = smul s⁻¹ (smul w (cross u v)) := by
    intro u v
    simp only [smul, cross, V3.mk.injEq]
    refine ⟨?_, ?_, ?_⟩ <;> rw [← key] <;> ring
  simp only [rescaled, kc]
  simp only [toCart, smul, V3.mk.injEq]
  exact ⟨by ring, by ring, by ring⟩

theorem comp_smul (k : ℝ) (v : V3 ℝ) (a : Fin 3) : comp (smul k v) a = k * comp v a := by
  fin_cases a <;> rfl

theorem det_rescaled (o : Ions n) (s e z : ℝ) : (rescaled o s e z).diel.det = e ^ 3 * o.diel.det := by
  simp [rescaled]

theorem inv_rescaled (o : Ions n) (s z : ℝ) {e : ℝ} (he : 0 < e) (hd : 0 < o.diel.det) :
    (rescaled o s e z).diel⁻¹ = e⁻¹ • o.diel⁻¹ := by
  have hu : IsUnit o.diel.det := hd.ne'.isUnit
  apply Matrix.inv_eq_right_inv
  simp only [rescaled]
  rw [Matrix.smul_mul, Matrix.mul_smul, smul_smul, mul_inv_cancel₀ he.ne', one_smul, Matrix.mul_nonsing_inv _ hu]

theorem sqrt_cube {e : ℝ} (he : 0 < e) : √(e ^ 3) = e * √e := by
  rw [show e ^ 3 = (e * √e) ^ 2 by rw [mul_pow, Real.sq_sqrt he.le]; ring]
  exact Real.sqrt_sq (by positivity)

/-- **C151**. The parameter that balances the two sums: it is proportional to `dipole_parameter`, inversely proportional to
lengths and grows with the square root of the dielectric constant; charges do not matter. -/
theorem C151_balance (o : Ions n) {s e : ℝ} (hs : 0 < s) (he : 0 < e) (z : ℝ) (hd : 0 < o.diel.det) (x y : ℝ) :
    upperLambda (rescaled o s e z) (y * x) = y * (√e / s) * upperLambda o x := by
  have hn : ∀ v : V3 ℝ, √(dot (smul s v) (smul s v)) = s * √(dot v v) := by
    intro v
    rw [show dot (smul s v) (smul s v) = s ^ 2 * dot v v by simp only [dot, smul]; ring, Real.sqrt_mul (by positivity),
      Real.sqrt_sq hs.le]
  have hm : ∀ a b c : ℝ, 0 ≤ a → 0 ≤ b → 0 ≤ c →
      (s * a * (s * b) * (s * c)) ^ (1 / 3 : ℝ) = s * (a * b * c) ^ (1 / 3 : ℝ) := by
    intro a b c ha hb hc
    rw [show s * a * (s * b) * (s * c) = s ^ 3 * (a * b * c) by ring, Real.mul_rpow (by positivity) (by positivity)]
    congr 1
    rw [← Real.rpow_natCast, ← Real.rpow_mul hs.le]
    norm_num
  have h6 : (e ^ 3) ^ (1 / 6 : ℝ) = √e := by
    rw [← Real.rpow_natCast, ← Real.rpow_mul he.le, Real.sqrt_eq_rpow]
    norm_num
  simp only [upperLambda]
  rw [det_rescaled, Real.mul_rpow (by positivity) hd.le, h6]
  simp only [rescaled, hn]
  rw [hm _ _ _ (Real.sqrt_nonneg _) (Real.sqrt_nonneg _) (Real.sqrt_nonneg _)]
  rw [div_mul_eq_div_div, div_eq_mul_inv (√Real.pi / s), div_eq_mul_inv, div_eq_mul_inv, div_eq_mul_inv]
  ring

/-- What follows uses only this of the parameter. -/
theorem factor_sq (s : ℝ) {e : ℝ} (he : 0 < e) (lam : ℝ) : (√e / s * lam) ^ 2 = e / s ^ 2 * lam ^ 2 := by
  rw [mul_pow, div_pow, Real.sq_sqrt he.le]

theorem hab_rescaled (erfc : ℝ → ℝ) (o : Ions n) {s e : ℝ} (hs : 0 < s) (he : 0 < e) (z : ℝ) (hd : 0 < o.diel.det)
    (lam : ℝ) (R : V3 ℤ) (i j : Fin n) (a b : Fin 3) :
    hab erfc (rescaled o s e z) (√e / s * lam) R i j a b = e⁻¹ * hab erfc o lam R i j a b := by
  unfold hab
  split_ifs with h
  · simp
  have hdel : ∀ (v : V3 ℝ) (k : Fin 3), vecMat (smul s v) (e⁻¹ • o.diel⁻¹) k = s * e⁻¹ * vecMat v o.diel⁻¹ k := by
    intro v k
    simp only [vecMat, comp_smul, Matrix.smul_apply, smul_eq_mul, Finset.mul_sum]
    exact Finset.sum_congr rfl fun _ _ => by ring
  have hsub : ∀ u v w : V3 ℝ, sub (sub (smul s u) (smul s v)) (smul s w) = smul s (sub (sub u v) w) := by
    intro u v w
    simp only [sub, smul, V3.mk.injEq]
    exact ⟨by ring, by ring, by ring⟩
  have hr : (rescaled o s e z).r = o.r := rfl
  simp only [inv_rescaled o s z he hd, toCart_rescaled, hdel, hsub, comp_smul, hr, ← mul_sub, factor_sq s he,
    Matrix.smul_apply, smul_eq_mul]
  generalize toCart o.cv (o.r i) = u
  generalize toCart o.cv (o.r j) = v
  generalize toCart o.cv (castV ℝ R) = w
  have hes : s ^ 2 * s⁻¹ ^ 2 = 1 := by rw [← mul_pow, mul_inv_cancel₀ hs.ne', one_pow]
  have hee : e * e⁻¹ = 1 := mul_inv_cancel₀ he.ne'
  have hN : (∑ k, s * e⁻¹ * (vecMat u o.diel⁻¹ k - vecMat v o.diel⁻¹ k - vecMat w o.diel⁻¹ k)
        * (s * comp (sub (sub u v) w) k)) * (e / s ^ 2 * lam ^ 2)
      = (∑ k, (vecMat u o.diel⁻¹ k - vecMat v o.diel⁻¹ k - vecMat w o.diel⁻¹ k) * comp (sub (sub u v) w) k) * lam ^ 2 := by
    rw [Finset.sum_mul, Finset.sum_mul]
    refine Finset.sum_congr rfl fun k _ => ?_
    generalize vecMat u o.diel⁻¹ k - vecMat v o.diel⁻¹ k - vecMat w o.diel⁻¹ k = p
    generalize comp (sub (sub u v) w) k = q
    field_simp
  rw [hN]
  generalize (∑ k, (vecMat u o.diel⁻¹ k - vecMat v o.diel⁻¹ k - vecMat w o.diel⁻¹ k) * comp (sub (sub u v) w) k) * lam ^ 2 = N
  generalize vecMat u o.diel⁻¹ a - vecMat v o.diel⁻¹ a - vecMat w o.diel⁻¹ a = pa
  generalize vecMat u o.diel⁻¹ b - vecMat v o.diel⁻¹ b - vecMat w o.diel⁻¹ b = pb
  generalize o.diel⁻¹ a b = I
  generalize 3 * (erfc √N / (√N * N)) / N + 2 * Real.exp (-N) / (√Real.pi * N) * (3 / N + 2) = F
  generalize erfc √N / (√N * N) + 2 * Real.exp (-N) / (√Real.pi * N) = F2
  field_simp

theorem amax_mul {c : ℝ} (hc : 0 ≤ c) (l : List ℝ) : amax (l.map (c * ·)) = c * amax l := by
  have : ∀ (l : List ℝ) (m : ℝ), (l.map (c * ·)).foldl max (c * m) = c * l.foldl max m := by
    intro l
    induction l with
    | nil => intro m; rfl
    | cons x l ih =>
      intro m
      rw [List.map_cons, List.foldl_cons, List.foldl_cons, ← mul_max_of_nonneg _ _ hc]
      exact ih _
  have h0 := this l 0
  rw [mul_zero] at h0
  exact h0

/-- **C151**. The same cells are summed over. -/
theorem C151_same_cells (erfc : ℝ → ℝ) (o : Ions n) {s e : ℝ} (hs : 0 < s) (he : 0 < e) (z : ℝ) (hd : 0 < o.diel.det)
    (lam : ℝ) : cells erfc (rescaled o s e z) (√e / s * lam) = cells erfc o lam := by
  have hm : ∀ m : Nat, amax ((shell m).flatMap fun R => (upperElems n).map fun el =>
        |hab erfc (rescaled o s e z) (√e / s * lam) R el.1 el.2.1 el.2.2.1 el.2.2.2|)
      = e⁻¹ * amax ((shell m).flatMap fun R => (upperElems n).map fun el =>
        |hab erfc o lam R el.1 el.2.1 el.2.2.1 el.2.2.2|) := by
    intro m
    rw [← amax_mul (inv_nonneg.2 he.le)]
    congr 1
    rw [List.map_flatMap]
    congr 1
    funext R
    rw [List.map_map]
    refine List.map_congr_left fun el _ => ?_
    rw [hab_rescaled erfc o hs he z hd, abs_mul, abs_of_pos (inv_pos.2 he)]
    rfl
  unfold cells
  simp only [hm]
  congr 1
  refine congrArg (fun p => List.takeWhile p _) (funext fun m => ?_)
  refine decide_eq_decide.2 ?_
  rw [gt_iff_lt, gt_iff_lt, mul_left_comm, mul_lt_mul_iff_right₀ (inv_pos.2 he)]

theorem kTerm_rescaled (o : Ions n) {s e : ℝ} (hs : 0 < s) (he : 0 < e) (z lam : ℝ) (k : V3 ℝ) (a b : Fin 3) :
    kTerm (rescaled o s e z) (√e / s * lam) (smul s⁻¹ k) a b = s⁻¹ ^ 2 * kTerm o lam k a b := by
  unfold kTerm
  have hd : (rescaled o s e z).diel = e • o.diel := rfl
  have hN : (∑ a, ∑ b, comp (smul s⁻¹ k) a * comp (smul s⁻¹ k) b * (e • o.diel) a b) / (4 * (e / s ^ 2 * lam ^ 2))
      = (∑ a, ∑ b, comp k a * comp k b * o.diel a b) / (4 * lam ^ 2) := by
    have : (∑ a, ∑ b, comp (smul s⁻¹ k) a * comp (smul s⁻¹ k) b * (e • o.diel) a b)
        = e / s ^ 2 * ∑ a, ∑ b, comp k a * comp k b * o.diel a b := by
      rw [Finset.mul_sum]
      refine Finset.sum_congr rfl fun a _ => ?_
      rw [Finset.mul_sum]
      refine Finset.sum_congr rfl fun b _ => ?_
      simp only [comp_smul, Matrix.smul_apply, smul_eq_mul]
      field_simp
    have hne : e / s ^ 2 ≠ 0 := by positivity
    rw [this, mul_left_comm, mul_div_mul_left _ _ hne]
  simp only [hd, factor_sq s he]
  rw [hN, comp_smul, comp_smul]
  ring

theorem recipQ0Shell_rescaled (o : Ions n) {s e : ℝ} (hs : 0 < s) (he : 0 < e) (z lam : ℝ) (m : Nat) (i j : Fin n)
    (a b : Fin 3) : recipQ0Shell (rescaled o s e z) (√e / s * lam) m i j a b
      = ((s⁻¹ ^ 2 : ℝ) : ℂ) * recipQ0Shell o lam m i j a b := by
  unfold recipQ0Shell
  rw [← List.sum_map_mul_left]
  congr 1
  refine List.map_congr_left fun G _ => ?_
  rw [toCart_recip_rescaled o hs, kTerm_rescaled o hs he, Complex.ofReal_mul, mul_assoc]
  rfl

theorem gShells_rescaled (o : Ions n) {s e : ℝ} (hs : 0 < s) (he : 0 < e) (z lam : ℝ) :
    gShells (rescaled o s e z) (√e / s * lam) = gShells o lam := by
  have hp : 0 < s⁻¹ ^ 2 := by positivity
  have hm : ∀ m : Nat, amax ((upperElems n).map fun el =>
        ‖recipQ0Shell (rescaled o s e z) (√e / s * lam) m el.1 el.2.1 el.2.2.1 el.2.2.2‖)
      = s⁻¹ ^ 2 * amax ((upperElems n).map fun el => ‖recipQ0Shell o lam m el.1 el.2.1 el.2.2.1 el.2.2.2‖) := by
    intro m
    rw [← amax_mul hp.le, List.map_map]
    congr 1
    refine List.map_congr_left fun el _ => ?_
    rw [recipQ0Shell_rescaled o hs he, norm_mul, Complex.norm_real, Real.norm_of_nonneg hp.le]
    rfl
  unfold gShells
  simp only [hm]
  refine congrArg (fun p => List.takeWhile p _) (funext fun m => ?_)
  refine decide_eq_decide.2 ?_
  rw [gt_iff_lt, gt_iff_lt, mul_left_comm, mul_lt_mul_iff_right₀ hp]

/-- **C151**. The same reciprocal lattice vectors are summed over. -/
theorem C151_same_gvecs (o : Ions n) {s e : ℝ} (hs : 0 < s) (he : 0 < e) (z lam : ℝ) :
    gvecs (rescaled o s e z) (√e / s * lam) = gvecs o lam := by
  unfold gvecs
  rw [gShells_rescaled o hs he]

/-- The product of factor and term in real space. -/
theorem realFactor_rescaled (o : Ions n) (s : ℝ) {e : ℝ} (he : 0 < e) (z : ℝ) (lam : ℝ) :
    realFactor (rescaled o s e z) (√e / s * lam) * e⁻¹ = (e * s ^ 3)⁻¹ * realFactor o lam := by
  unfold realFactor
  rw [det_rescaled, Real.sqrt_mul (by positivity), sqrt_cube he]
  have h1 : (√e / s * lam) ^ 3 = e * √e * ((s ^ 3)⁻¹ * lam ^ 3) := by
    rw [mul_pow, div_pow, show √e ^ 3 = √e ^ 2 * √e by ring, Real.sq_sqrt he.le]
    ring
  rw [h1, mul_div_mul_left _ _ (by positivity), mul_inv]
  ring

theorem recipFactor_rescaled (o : Ions n) {s e : ℝ} (hs : 0 < s) (he : 0 < e) (z : ℝ) (lam : ℝ) :
    recipFactor (rescaled o s e z) (√e / s * lam) * s⁻¹ ^ 2 = (e * s ^ 3)⁻¹ * recipFactor o lam := by
  unfold recipFactor
  rw [volume_rescaled, factor_sq s he]
  have h1 : s ^ 3 * volume o * (e / s ^ 2 * lam ^ 2) = e * s * (volume o * lam ^ 2) := by
    have : s ^ 3 * volume o * (e / s ^ 2 * lam ^ 2) = (s ^ 3 / s ^ 2) * (e * (volume o * lam ^ 2)) := by ring
    rw [this, show s ^ 3 / s ^ 2 = s by field_simp]
    ring
  rw [h1, div_mul_eq_div_div, div_eq_mul_inv (Real.pi / (e * s)), div_eq_mul_inv Real.pi (volume o * lam ^ 2)]
  have h2 : Real.pi / (e * s) * s⁻¹ ^ 2 = (e * s ^ 3)⁻¹ * Real.pi := by field_simp
  rw [mul_right_comm, h2]
  ring

theorem fill_mul (c : ℝ) (u : Fin n → Fin n → Fin 3 → Fin 3 → ℂ) (i j : Fin n) (a b : Fin 3) :
    fill (fun i j a b => (c : ℂ) * u i j a b) i j a b = (c : ℂ) * fill u i j a b := by
  unfold fill
  split_ifs
  · rfl
  · simp

theorem realTerm_rescaled (erfc : ℝ → ℝ) (o : Ions n) {s e : ℝ} (hs : 0 < s) (he : 0 < e) (z : ℝ) (hd : 0 < o.diel.det)
    (lam : ℝ) (q : V3 ℝ) : realTerm erfc (rescaled o s e z) (√e / s * lam) q
      = fun i j a b => (((e * s ^ 3)⁻¹ : ℝ) : ℂ) * realTerm erfc o lam q i j a b := by
  funext i j a b
  unfold realTerm
  rw [C151_same_cells erfc o hs he z hd]
  rw [← mul_assoc (((e * s ^ 3)⁻¹ : ℝ) : ℂ), ← Complex.ofReal_mul, ← realFactor_rescaled o s he z lam, Complex.ofReal_mul,
    mul_assoc _ ((e⁻¹ : ℝ) : ℂ)]
  refine congrArg _ ?_
  rw [← List.sum_map_mul_left]
  congr 1
  refine List.map_congr_left fun R _ => ?_
  rw [hab_rescaled erfc o hs he z hd, Complex.ofReal_mul, mul_left_comm]

theorem recipTerm_rescaled (o : Ions n) {s e : ℝ} (hs : 0 < s) (he : 0 < e) (z : ℝ) (lam : ℝ) (q : V3 ℝ) :
    recipTerm (rescaled o s e z) (√e / s * lam) q
      = fun i j a b => (((e * s ^ 3)⁻¹ : ℝ) : ℂ) * recipTerm o lam q i j a b := by
  funext i j a b
  unfold recipTerm
  simp only [C151_same_gvecs o hs he]
  rw [← mul_assoc, ← Complex.ofReal_mul, ← recipFactor_rescaled o hs he z lam, Complex.ofReal_mul, mul_assoc]
  congr 1
  rw [← List.sum_map_mul_left]
  congr 1
  refine List.map_congr_left fun G _ => ?_
  have hadd : ∀ u v : V3 ℝ, add (smul s⁻¹ u) (smul s⁻¹ v) = smul s⁻¹ (add u v) := by
    intro u v
    simp only [add, smul, V3.mk.injEq]
    exact ⟨by ring, by ring, by ring⟩
  rw [toCart_recip_rescaled o hs, toCart_recip_rescaled o hs, hadd, kTerm_rescaled o hs he, Complex.ofReal_mul, mul_assoc]
  rfl

theorem q0Term_rescaled (erfc : ℝ → ℝ) (o : Ions n) {s e : ℝ} (hs : 0 < s) (he : 0 < e) (z : ℝ) (hd : 0 < o.diel.det)
    (lam : ℝ) (i j : Fin n) (a b : Fin 3) : q0Term erfc (rescaled o s e z) (√e / s * lam) i j a b
      = (((e * s ^ 3)⁻¹ : ℝ) : ℂ) * q0Term erfc o lam i j a b := by
  have h1 : (fun (i j : Fin n) (a b : Fin 3) => (recipFactor (rescaled o s e z) (√e / s * lam) : ℂ) *
        ((gShells (rescaled o s e z) (√e / s * lam)).map fun m =>
          recipQ0Shell (rescaled o s e z) (√e / s * lam) m i j a b).sum)
      = fun i j a b => (((e * s ^ 3)⁻¹ : ℝ) : ℂ) * ((recipFactor o lam : ℂ) *
        ((gShells o lam).map fun m => recipQ0Shell o lam m i j a b).sum) := by
    funext i j a b
    rw [gShells_rescaled o hs he, ← mul_assoc, ← Complex.ofReal_mul, ← recipFactor_rescaled o hs he z lam,
      Complex.ofReal_mul, mul_assoc]
    congr 1
    rw [← List.sum_map_mul_left]
    congr 1
    exact List.map_congr_left fun m _ => recipQ0Shell_rescaled o hs he z lam m i j a b
  have h2 : (fun (i j : Fin n) (a b : Fin 3) => ((realFactor (rescaled o s e z) (√e / s * lam) *
        ((cells erfc (rescaled o s e z) (√e / s * lam)).map fun R =>
          hab erfc (rescaled o s e z) (√e / s * lam) R i j a b).sum : ℝ) : ℂ))
      = fun i j a b => (((e * s ^ 3)⁻¹ : ℝ) : ℂ) * ((realFactor o lam *
        ((cells erfc o lam).map fun R => hab erfc o lam R i j a b).sum : ℝ) : ℂ) := by
    funext i j a b
    rw [C151_same_cells erfc o hs he z hd, ← Complex.ofReal_mul, ← mul_assoc, ← realFactor_rescaled o s he z lam,
      mul_assoc]
    congr 2
    rw [← List.sum_map_mul_left]
    congr 1
    exact List.map_congr_left fun R _ => hab_rescaled erfc o hs he z hd lam R i j a b
  unfold q0Term
  rw [h1, h2, fill_mul ((e * s ^ 3)⁻¹) (fun i j a b => (recipFactor o lam : ℂ) *
      ((gShells o lam).map fun m => recipQ0Shell o lam m i j a b).sum),
    fill_mul ((e * s ^ 3)⁻¹) (fun i j a b => ((realFactor o lam *
      ((cells erfc o lam).map fun R => hab erfc o lam R i j a b).sum : ℝ) : ℂ)), mul_sub]

theorem q0_rescaled (erfc : ℝ → ℝ) (o : Ions n) {s e : ℝ} (hs : 0 < s) (he : 0 < e) (z : ℝ) (hd : 0 < o.diel.det)
    (lam : ℝ) (i : Fin n) (a b : Fin 3) : q0 erfc (rescaled o s e z) (√e / s * lam) i a b
      = ((z ^ 2 / (e * s ^ 3) : ℝ) : ℂ) * q0 erfc o lam i a b := by
  have hr : ∀ a b, q0Raw erfc (rescaled o s e z) (√e / s * lam) i a b
      = ((z ^ 2 / (e * s ^ 3) : ℝ) : ℂ) * q0Raw erfc o lam i a b := by
    intro a b
    unfold q0Raw
    simp only [Finset.mul_sum]
    refine Finset.sum_congr rfl fun j _ => Finset.sum_congr rfl fun c _ => Finset.sum_congr rfl fun d _ => ?_
    rw [q0Term_rescaled erfc o hs he z hd, show (rescaled o s e z).born = fun i a b => z * o.born i a b from rfl,
      div_eq_mul_inv]
    push_cast
    ring
  unfold q0
  rw [hr, hr]
  ring

/-! ## C151 -/

/-- **C151**. The dipole correction calculated with the same `dipole_parameter` for the crystal with all lengths, the
dielectric tensor and the charges multiplied by `s`, `e` and `z` is `z^2 / (e s^3)` times that for the crystal. -/
theorem C151_dipole (erfc : ℝ → ℝ) (o : Ions n) {s e : ℝ} (hs : 0 < s) (he : 0 < e) (z : ℝ) (hd : 0 < o.diel.det)
    (x : ℝ) (q : V3 ℝ) (k l : Fin (n * 3)) :
    dipoleCorrection erfc (rescaled o s e z) (upperLambda (rescaled o s e z) x) q k l
      = ((z ^ 2 / (e * s ^ 3) : ℝ) : ℂ) * dipoleCorrection erfc o (upperLambda o x) q k l := by
  have hl := C151_balance o hs he z hd x 1
  rw [one_mul, one_mul] at hl
  rw [hl]
  unfold dipoleCorrection corrAt
  rw [realTerm_rescaled erfc o hs he z hd, recipTerm_rescaled o hs he, mul_sub]
  congr 1
  · simp only [Finset.mul_sum, fill_mul]
    refine Finset.sum_congr rfl fun c _ => Finset.sum_congr rfl fun d _ => ?_
    rw [show (rescaled o s e z).born = fun i a b => z * o.born i a b from rfl, div_eq_mul_inv]
    push_cast
    ring
  · split_ifs
    · exact q0_rescaled erfc o hs he z hd _ _ _ _
    · simp

/-- **C151**. So is the correction for the splitting of longitudinal and transverse modes. -/
theorem C151_splitting (o : Ions n) {s e : ℝ} (hs : 0 < s) (he : 0 < e) (z : ℝ) (qdir : V3 ℝ) (k l : Fin (n * 3)) :
    gammaCorrection (rescaled o s e z) qdir k l
      = ((z ^ 2 / (e * s ^ 3) : ℝ) : ℂ) * gammaCorrection o qdir k l := by
  unfold gammaCorrection
  split_ifs with h
  · simp
  simp only [toCart_recip_rescaled o hs, comp_smul, volume_rescaled]
  rw [show (rescaled o s e z).born = fun i a b => z * o.born i a b from rfl,
    show (rescaled o s e z).diel = e • o.diel from rfl, ← Complex.ofReal_mul]
  congr 1
  have h1 : ∑ a, ∑ b, (e • o.diel) a b * (s⁻¹ * comp (toCart (recip o) qdir) a) * (s⁻¹ * comp (toCart (recip o) qdir) b)
      = e * s⁻¹ ^ 2 * ∑ a, ∑ b, o.diel a b * comp (toCart (recip o) qdir) a * comp (toCart (recip o) qdir) b := by
    simp only [Finset.mul_sum, Matrix.smul_apply, smul_eq_mul]
    exact Finset.sum_congr rfl fun _ _ => Finset.sum_congr rfl fun _ _ => by ring
  have h2 : ∀ i a, ∑ b, z * o.born i a b * (s⁻¹ * comp (toCart (recip o) qdir) b)
      = z * s⁻¹ * ∑ b, o.born i a b * comp (toCart (recip o) qdir) b := by
    intro i a
    simp only [Finset.mul_sum]
    exact Finset.sum_congr rfl fun _ _ => by ring
  rw [h1, h2, h2]
  generalize ∑ a, ∑ b, o.diel a b * comp (toCart (recip o) qdir) a * comp (toCart (recip o) qdir) b = D
  generalize ∑ b, o.born k.divNat k.modNat b * comp (toCart (recip o) qdir) b = p
  generalize ∑ b, o.born l.divNat l.modNat b * comp (toCart (recip o) qdir) b = r
  have h3 : 4 * Real.pi / (s ^ 3 * volume o * (e * s⁻¹ ^ 2 * D)) = 1 / (e * s) * (4 * Real.pi / (volume o * D)) := by
    rw [show s ^ 3 * volume o * (e * s⁻¹ ^ 2 * D) = (s ^ 3 * s⁻¹ ^ 2) * e * (volume o * D) by ring,
      show s ^ 3 * s⁻¹ ^ 2 = s by field_simp, div_mul_eq_div_div, mul_comm s e]
    ring
  rw [h3]
  field_simp

/-- A crystal that meets the hypotheses: two opposite charges in an orthorhombic cell. -/
noncomputable def exPolar : Ions 2 :=
  ⟨⟨⟨4, 0, 0⟩, ⟨0, 5, 0⟩, ⟨0, 0, 6⟩⟩, fun i => if i = 0 then ⟨0, 0, 0⟩ else ⟨1 / 2, 1 / 2, 1 / 2⟩,
    fun i a b => if a = b then (if i = 0 then 1 else -1) else 0, 2⟩

theorem exPolar_det : 0 < exPolar.diel.det := by
  have : exPolar.diel = (2 : ℝ) • (1 : Matrix (Fin 3) (Fin 3) ℝ) := by
    ext i j
    fin_cases i <;> fin_cases j <;> simp [exPolar, Matrix.ofNat_apply]
  rw [this, Matrix.det_smul]
  norm_num

/-- Twice the lengths, three times the screening and half the charges: 1/96 of the correction. -/
example (erfc : ℝ → ℝ) (q : V3 ℝ) (k l : Fin (2 * 3)) :
    dipoleCorrection erfc (rescaled exPolar 2 3 (1 / 2)) (upperLambda (rescaled exPolar 2 3 (1 / 2)) 1) q k l
      = ((1 / 96 : ℝ) : ℂ) * dipoleCorrection erfc exPolar (upperLambda exPolar 1) q k l := by
  rw [C151_dipole erfc exPolar (by norm_num) (by norm_num) (1 / 2) exPolar_det]
  norm_num

/-! ## Crystals with one atom -/

theorem amax_zero {ι : Type} (l : List ι) (f : ι → ℝ) (h : ∀ x ∈ l, f x = 0) : amax (l.map f) = 0 := by
  unfold amax
  induction l with
  | nil => rfl
  | cons x l ih =>
    rw [List.map_cons, List.foldl_cons, h x (by simp), max_self]
    exact ih fun y hy => h y (by simp [hy])

/-- **C50**. For a crystal with one atom per cell the series in real space ends before its first shell: the largest term of the
cell at the origin, to which the others are compared, is zero.  (The charge of a single atom is zero for any neutral crystal, so
that there is no correction at all.) -/
theorem C50_one_atom (erfc : ℝ → ℝ) (o : Ions 1) (lam : ℝ) : cells erfc o lam = [] := by
  have hs : shell 0 = [⟨0, 0, 0⟩] := by decide
  have h0 : amax ((shell 0).flatMap fun R =>
      (upperElems 1).map fun e => |hab erfc o lam R e.1 e.2.1 e.2.2.1 e.2.2.2|) = 0 := by
    rw [hs, List.flatMap_singleton]
    refine amax_zero _ _ fun e _ => ?_
    rw [hab, if_pos ⟨rfl, Subsingleton.elim _ _⟩, abs_zero]
  have hr : List.range 50 = 0 :: (List.range 49).map Nat.succ := List.range_succ_eq_map
  unfold cells
  dsimp only
  rw [hr, List.takeWhile_cons]
  simp only [h0]
  simp

end Euphonic.Dipole
