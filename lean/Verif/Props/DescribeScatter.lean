import Verif.Props.Describe
import Verif.Props.Scatter
import Verif.Props.Gradient

/-!
# Debye-Waller exponents and structure factors of different descriptions of the same crystal (C131)
-/

set_option autoImplicit false
set_option linter.unusedSectionVars false

namespace Euphonic.Describe

open Euphonic.Lattice Euphonic.Supercell Euphonic.Phases Euphonic.Images Euphonic.DynMat Euphonic.Reduced
open Euphonic.Commensurate Euphonic.Acoustic Euphonic.Scatter
open scoped ComplexConjugate

variable {n N N' nq : Nat} {d : Description n N} {d' : Description n N'} {h : Change n N N'}

/-! ## Specification -/

/-- The crystal of a description, with the names of the atoms. -/
noncomputable def Description.cryst (d : Description n N) (types : Fin n → String) : Cryst n where
  atomR := fun k j => comp (d.r k) j
  atomType := types
  mass := d.mass
  recip := fun i j => comp (comp ⟨(reciprocalCell (2 * Real.pi) d.cv).a, (reciprocalCell (2 * Real.pi) d.cv).b,
    (reciprocalCell (2 * Real.pi) d.cv).c⟩ i) j

/-- The modes at a list of wavevectors. -/
noncomputable def Description.modes (d : Description n N) (types : Fin n → String) (images : List (V3 ℤ))
    (junk : Fin N → Mat n ℝ) (eigh : Mat n ℂ → (Fin (n * 3) → ℝ) × Mat n ℂ) (qs : Fin nq → V3 ℝ) (weights : Fin nq → ℝ) :
    Modes (d.cryst types) nq (n * 3) where
  qpts := fun q j => comp (qs q) j
  freqs := fun q s => freqOf ((eigh (d.weighted images junk (qs q))).1 s)
  evecs := fun q s k l => (eigh (d.weighted images junk (qs q))).2 s (row k l)
  weights := weights

/-- The exponents of the second description are those of the first one, rotated. -/
def Change.CarriesDW (h : Change n N N') (w w' : Fin n → Fin 3 → Fin 3 → ℝ) : Prop :=
  ∀ i a b, w' (h.p i) a b = ∑ a', ∑ b', h.R a a' * h.R b b' * w i a' b'

/-! ## Debye-Waller exponents -/

theorem dwContribution_spectral (types : Fin n → String) (images : List (V3 ℤ)) (junk : Fin N → Mat n ℝ)
    (eigh : Mat n ℂ → (Fin (n * 3) → ℝ) × Mat n ℂ) (qs : Fin nq → V3 ℝ) (weights : Fin nq → ℝ) (kB temp fmin : ℝ)
    (k : Fin n) (a b : Fin 3) (q : Fin nq) :
    dwContribution (d.modes types images junk eigh qs weights) kB temp fmin k a b q = weights q * (1 / (4 * d.mass k)) *
      (spectral (eigh (d.weighted images junk (qs q))) (fun x => freqTerm kB temp fmin (freqOf x)) (row k a) (row k b)).re := by
  unfold dwContribution Describe.spectral
  rw [Complex.re_sum, Finset.mul_sum]
  refine Finset.sum_congr rfl fun s _ => ?_
  rw [Complex.re_ofReal_mul]
  simp only [Description.modes, Description.cryst, Complex.star_def]
  ring

/-- **C131** (partial: reduced supercells, no corrections, no symmetrisation) Debye-Waller exponents of the two descriptions
are the same, up to the rotation, whichever eigenvectors have been found. -/
theorem C131_debye_waller_partial (hr : h.Relates d d') {images images' : List (V3 ℤ)} (hok : d.Ok images)
    (hok' : d'.Ok images') {op : Fin N → Fin N} {t : Fin N → V3 ℤ} (hs : Symmetric d.cells d.S d.fc op t)
    (junk : Fin N → Mat n ℝ) (junk' : Fin N' → Mat n ℝ) (types types' : Fin n → String)
    {eigh eigh' : Mat n ℂ → (Fin (n * 3) → ℝ) × Mat n ℂ} (he : IsEigh eigh) (he' : IsEigh eigh') (qs : Fin nq → V3 ℝ)
    (weights : Fin nq → ℝ) (chunk chunk' : Nat) (hc : 0 < chunk) (hc' : 0 < chunk') (kB temp fmin : ℝ) :
    h.CarriesDW
      (calculateDebyeWaller chunk (d.modes types images junk eigh (fun q => h.back (qs q)) weights) kB temp fmin none).w
      (calculateDebyeWaller chunk' (d'.modes types' images' junk' eigh' qs weights) kB temp fmin none).w := by
  intro i a b
  simp only [calculateDebyeWaller, dwRaw, C28_chunking_irrelevant chunk hc, C28_chunking_irrelevant chunk' hc', ← Fin.sum_univ_def]
  have key : ∀ q, dwContribution (d'.modes types' images' junk' eigh' qs weights) kB temp fmin (h.p i) a b q =
      ∑ a', ∑ b', h.R a a' * h.R b b' *
        dwContribution (d.modes types images junk eigh (fun q => h.back (qs q)) weights) kB temp fmin i a' b' q := by
    intro q
    simp only [dwContribution_spectral]
    rw [hr.spectral (hr.carries_weighted hok hok' junk junk' (qs q)) (d.hermitian hok hs junk _) he he', hr.masses,
      Complex.re_sum, Finset.mul_sum]
    refine Finset.sum_congr rfl fun a' _ => ?_
    rw [Complex.re_sum, Finset.mul_sum]
    refine Finset.sum_congr rfl fun b' _ => ?_
    have e : ∀ z : ℂ, expQR (qs q) (h.T i) * (h.R a a' : ℂ) * z * star (expQR (qs q) (h.T i) * (h.R b b' : ℂ)) =
        ((h.R a a' * h.R b b' : ℝ) : ℂ) * z := by
      intro z
      rw [star_mul', Complex.star_def, Complex.conj_ofReal]
      have := norm_expQR (qs q) (h.T i)
      rw [Complex.star_def] at this
      push_cast
      linear_combination ((h.R a a' : ℂ) * h.R b b' * z) * this
    rw [e, Complex.re_ofReal_mul]
    ring
  simp only [key]
  simp only [div_eq_mul_inv, Finset.sum_mul, Finset.mul_sum]
  have hcomm : ∀ f : Fin nq → Fin 3 → Fin 3 → ℝ, ∑ q, ∑ a', ∑ b', f q a' b' = ∑ a', ∑ b', ∑ q, f q a' b' := by
    intro f
    rw [Finset.sum_comm]
    exact Finset.sum_congr rfl fun a' _ => Finset.sum_comm
  rw [hcomm]
  refine Finset.sum_congr rfl fun a' _ => Finset.sum_congr rfl fun b' _ => Finset.sum_congr rfl fun q _ => ?_
  simp only [Description.modes]
  ring

/-! ## Structure factors -/

/-- What the eigenvectors are multiplied with. -/
noncomputable def amplitude (C : Cryst n) (Q : Fin 3 → ℝ) (phase sl : Fin n → ℂ) (dw : Fin n → ℝ) (k : Fin (n * 3)) : ℂ :=
  Q k.modNat * (phase k.divNat * dw k.divNat) * (sl k.divNat / (Real.sqrt (C.mass k.divNat) : ℂ))

theorem sfTerm_amplitude {C : Cryst n} (m : Modes C nq (n * 3)) (sl : Fin n → ℂ) (f : Fin nq → Fin n → ℝ) (q : Fin nq)
    (s : Fin (n * 3)) : sfTerm m sl f q s =
      ∑ k, star (m.evecs q s k.divNat k.modNat) * amplitude C (cartQ m q) (expFactor m q) sl (f q) k := by
  unfold sfTerm evecDotQ amplitude
  rw [sum_rows]
  simp only [row_div, row_mod, Finset.sum_mul]
  refine Finset.sum_congr rfl fun i _ => Finset.sum_congr rfl fun a _ => ?_
  rw [Complex.star_def]
  ring

/-- `f† A f` -/
noncomputable def quad (A : Mat n ℂ) (f : Fin (n * 3) → ℂ) : ℂ := ∑ k, ∑ l, star (f k) * A k l * f l

theorem quad_eq (A : Mat n ℂ) (f : Fin (n * 3) → ℂ) : quad A f = star f ⬝ᵥ (Matrix.of A).mulVec f := by
  unfold quad dotProduct Matrix.mulVec dotProduct
  refine Finset.sum_congr rfl fun k _ => ?_
  rw [Finset.mul_sum]
  refine Finset.sum_congr rfl fun l _ => ?_
  change _ = star (f k) * (A k l * f l)
  ring

theorem Change.Relates.quad (hr : h.Relates d d') {q : V3 ℝ} {A A' : Mat n ℂ} (hA : h.Carries q A A')
    {f f' : Fin (n * 3) → ℂ} (hf : h.CarriesV q f f') : Describe.quad A' f' = Describe.quad A f := by
  rw [quad_eq, quad_eq, (h.carriesV_iff q f f').1 hf, (h.carries_iff q A A').1 hA, Matrix.star_mulVec, Matrix.mulVec_mulVec,
    mul_assoc, hr.unitary, mul_one, ← Matrix.dotProduct_mulVec, Matrix.mulVec_mulVec, ← mul_assoc, hr.unitary, one_mul]

theorem quad_phase {c : ℂ} (hc : ‖c‖ = 1) (A : Mat n ℂ) (f : Fin (n * 3) → ℂ) :
    Describe.quad A (fun k => c * f k) = Describe.quad A f := by
  unfold Describe.quad
  refine Finset.sum_congr rfl fun k _ => Finset.sum_congr rfl fun l _ => ?_
  have h1 : star c * c = 1 := by
    rw [Complex.star_def, ← Complex.normSq_eq_conj_mul_self, Complex.normSq_eq_norm_sq, hc]
    norm_num
  rw [star_mul']
  linear_combination (star (f k) * A k l * f l) * h1

theorem sum_sfValue (r : (Fin (n * 3) → ℝ) × Mat n ℂ) (f : Fin (n * 3) → ℂ) (g : ℝ → ℝ) :
    ∑ s, g (freqOf (r.1 s)) * sfValue n (∑ k, star (r.2 s k) * f k) (freqOf (r.1 s)) =
      (Describe.quad (spectral r fun x => g (freqOf x) / |freqOf x| / (2 * n)) f).re := by
  have e : Describe.quad (spectral r fun x => g (freqOf x) / |freqOf x| / (2 * n)) f =
      ∑ s, ((g (freqOf (r.1 s)) / |freqOf (r.1 s)| / (2 * n) : ℝ) : ℂ) *
        ((∑ k, star (r.2 s k) * f k) * star (∑ k, star (r.2 s k) * f k)) := by
    unfold Describe.quad spectral
    simp only [star_sum, star_mul', star_star, Finset.sum_mul, Finset.mul_sum]
    have hcomm : ∀ F : Fin (n * 3) → Fin (n * 3) → Fin (n * 3) → ℂ, ∑ k, ∑ l, ∑ s, F k l s = ∑ s, ∑ k, ∑ l, F k l s := by
      intro F
      rw [Finset.sum_congr rfl fun k _ => Finset.sum_comm, Finset.sum_comm]
    rw [hcomm]
    refine Finset.sum_congr rfl fun s _ => ?_
    refine Finset.sum_congr rfl fun l _ => Finset.sum_congr rfl fun k _ => ?_
    ring
  rw [e, Complex.re_sum]
  refine Finset.sum_congr rfl fun s _ => ?_
  rw [Complex.re_ofReal_mul]
  unfold sfValue
  rw [Complex.star_def, Complex.mul_conj, Complex.ofReal_re, Complex.norm_real, Real.norm_of_nonneg (Complex.normSq_nonneg _)]
  ring

theorem cartQ_eq (types : Fin n → String) (images : List (V3 ℤ)) (junk : Fin N → Mat n ℝ)
    (eigh : Mat n ℂ → (Fin (n * 3) → ℝ) × Mat n ℂ) (qs : Fin nq → V3 ℝ) (weights : Fin nq → ℝ) (q : Fin nq) (a : Fin 3) :
    cartQ (d.modes types images junk eigh qs weights) q a = comp (toCart (reciprocalCell (2 * Real.pi) d.cv) (qs q)) a := by
  unfold cartQ
  rw [Fin.sum_univ_three]
  fin_cases a <;> simp [Description.modes, Description.cryst, comp, toCart]

/-- A vector is known from its products with three independent ones. -/
theorem eq_of_dots {cv : M3 ℝ} (hv : cellVolume cv ≠ 0) {u v : V3 ℝ} (huv : ∀ x, dot u (toCart cv x) = dot v (toCart cv x)) :
    u = v := by
  have h1 := huv ⟨1, 0, 0⟩
  have h2 := huv ⟨0, 1, 0⟩
  have h3 := huv ⟨0, 0, 1⟩
  have hd : cellVolume cv = cv.a.x * (cv.b.y * cv.c.z - cv.b.z * cv.c.y) + cv.a.y * (cv.b.z * cv.c.x - cv.b.x * cv.c.z)
      + cv.a.z * (cv.b.x * cv.c.y - cv.b.y * cv.c.x) := by
    simp [cellVolume, dot, cross]
  simp only [dot, toCart, one_mul, zero_mul, add_zero, zero_add] at h1 h2 h3
  refine V3.ext' ?_ ?_ ?_ <;> refine mul_left_cancel₀ hv ?_ <;> rw [hd]
  · linear_combination (cv.b.y * cv.c.z - cv.b.z * cv.c.y) * h1 + (cv.c.y * cv.a.z - cv.c.z * cv.a.y) * h2
      + (cv.a.y * cv.b.z - cv.a.z * cv.b.y) * h3
  · linear_combination (cv.b.z * cv.c.x - cv.b.x * cv.c.z) * h1 + (cv.c.z * cv.a.x - cv.c.x * cv.a.z) * h2
      + (cv.a.z * cv.b.x - cv.a.x * cv.b.z) * h3
  · linear_combination (cv.b.x * cv.c.y - cv.b.y * cv.c.x) * h1 + (cv.c.x * cv.a.y - cv.c.y * cv.a.x) * h2
      + (cv.a.x * cv.b.y - cv.a.y * cv.b.x) * h3

theorem volume_ne {images : List (V3 ℤ)} (hok : d.Ok images) : cellVolume d.cv ≠ 0 := by
  intro h0
  have := hok.reduced.volume
  rw [volume_scVecs, h0, mul_zero] at this
  exact this rfl

theorem comp_rotV (R : Fin 3 → Fin 3 → ℝ) (v : V3 ℝ) (a : Fin 3) : comp (rotV R v) a = ∑ b, R a b * comp v b := by
  fin_cases a <;> rfl

theorem rotV_inv {R : Fin 3 → Fin 3 → ℝ} (hR : ∀ a b, ∑ c, R c a * R c b = if a = b then 1 else 0) (v : V3 ℝ) (a : Fin 3) :
    ∑ b, R b a * comp (rotV R v) b = comp v a := by
  simp only [comp_rotV, Finset.mul_sum]
  rw [Finset.sum_comm]
  have : ∀ c, ∑ b, R b a * (R b c * comp v c) = (if a = c then 1 else 0) * comp v c := by
    intro c
    rw [← hR, Finset.sum_mul]
    exact Finset.sum_congr rfl fun b _ => by ring
  simp [this]

/-- The wavevector in Cartesian coordinates is rotated. -/
theorem Change.Relates.cartesian (hr : h.Relates d d') {images images' : List (V3 ℤ)} (hok : d.Ok images)
    (hok' : d'.Ok images') (q : V3 ℝ) : toCart (reciprocalCell (2 * Real.pi) d'.cv) q =
      rotV h.R (toCart (reciprocalCell (2 * Real.pi) d.cv) (h.back q)) := by
  refine eq_of_dots (volume_ne hok') fun y => ?_
  obtain ⟨x, rfl⟩ : ∃ x, toCart (castM h.A) x = y := by
    refine ⟨toCart (castM h.B) y, ?_⟩
    have e1 := hr.right ⟨1, 0, 0⟩
    have e2 := hr.right ⟨0, 1, 0⟩
    have e3 := hr.right ⟨0, 0, 1⟩
    simp only [mulMat, V3.mk.injEq] at e1 e2 e3
    have c : ∀ {a b : ℤ}, a = b → (a : ℝ) = b := fun e => by rw [e]
    have f1 := c e1.1; have f2 := c e1.2.1; have f3 := c e1.2.2
    have g1 := c e2.1; have g2 := c e2.2.1; have g3 := c e2.2.2
    have k1 := c e3.1; have k2 := c e3.2.1; have k3 := c e3.2.2
    push_cast at f1 f2 f3 g1 g2 g3 k1 k2 k3
    simp only [toCart, castM, castV]
    refine V3.ext' ?_ ?_ ?_ <;> dsimp only
    · linear_combination y.x * f1 + y.y * g1 + y.z * k1
    · linear_combination y.x * f2 + y.y * g2 + y.z * k2
    · linear_combination y.x * f3 + y.y * g3 + y.z * k3
  rw [Gradient.dot_recip _ (volume_ne hok'), hr.vectors, dot_rotV hr.ortho, Gradient.dot_recip _ (volume_ne hok)]
  simp only [Change.back, dot, toCart, castM]
  ring

/-- The positions of the atoms in the phases. -/
theorem Change.Relates.phase (hr : h.Relates d d') (types types' : Fin n → String) (images images' : List (V3 ℤ))
    (junk : Fin N → Mat n ℝ) (junk' : Fin N' → Mat n ℝ) (eigh eigh' : Mat n ℂ → (Fin (n * 3) → ℝ) × Mat n ℂ)
    (qs : Fin nq → V3 ℝ) (weights weights' : Fin nq → ℝ) (q : Fin nq) (i : Fin n) :
    expFactor (d'.modes types' images' junk' eigh' qs weights') q (h.p i) =
      Complex.exp (Complex.I * 2 * Real.pi * (dot (qs q) h.w : ℝ)) * expQR (qs q) (h.T i) *
        expFactor (d.modes types images junk eigh (fun q => h.back (qs q)) weights) q i := by
  unfold expFactor expQR
  rw [← Complex.exp_add, ← Complex.exp_add]
  have e : ∑ j, (d'.modes types' images' junk' eigh' qs weights').qpts q j * (d'.cryst types').atomR (h.p i) j =
      dot (qs q) h.w + ((qs q).x * (h.T i).x + (qs q).y * (h.T i).y + (qs q).z * (h.T i).z) +
        ∑ j, (d.modes types images junk eigh (fun q => h.back (qs q)) weights).qpts q j * (d.cryst types).atomR i j := by
    simp only [Description.modes, Description.cryst, Fin.sum_univ_three, comp0, comp1, comp2, hr.positions]
    simp only [add, toCart, castM, castV, Change.back, dot]
    ring
  rw [e]
  push_cast
  congr 1
  ring

/-- The Debye-Waller exponents are absent from both descriptions, or carried from one to the other. -/
def Change.CarriesDWOpt (h : Change n N N') : Option DW → Option DW → Prop
  | none, none => True
  | some w, some w' => ∃ (e : w.nAtoms = n) (e' : w'.nAtoms = n),
    h.CarriesDW (fun k => w.w (Fin.cast e.symm k)) (fun k => w'.w (Fin.cast e'.symm k))
  | _, _ => False

theorem Change.Relates.dwFactors (hr : h.Relates d d') {images images' : List (V3 ℤ)} (hok : d.Ok images)
    (hok' : d'.Ok images') (types types' : Fin n → String) (junk : Fin N → Mat n ℝ) (junk' : Fin N' → Mat n ℝ)
    (eigh eigh' : Mat n ℂ → (Fin (n * 3) → ℝ) × Mat n ℂ) (qs : Fin nq → V3 ℝ) (weights weights' : Fin nq → ℝ)
    {dw dw' : Option DW} (hdw : h.CarriesDWOpt dw dw') {f f' : Fin nq → Fin n → ℝ}
    (hf : Scatter.dwFactors (d.modes types images junk eigh (fun q => h.back (qs q)) weights) dw = .ok f)
    (hf' : Scatter.dwFactors (d'.modes types' images' junk' eigh' qs weights') dw' = .ok f') (q : Fin nq) (i : Fin n) :
    f' q (h.p i) = f q i := by
  cases dw with
  | none =>
    cases dw' with
    | none =>
      simp only [Scatter.dwFactors, Except.ok.injEq] at hf hf'
      rw [← hf, ← hf']
    | some w' => exact hdw.elim
  | some w =>
    cases dw' with
    | none => exact hdw.elim
    | some w' =>
      obtain ⟨e, e', hc⟩ := hdw
      simp only [Scatter.dwFactors, dif_pos e, dif_pos e', Except.ok.injEq] at hf hf'
      rw [← hf, ← hf']
      unfold dwFactor
      simp only [cartQ_eq, hr.cartesian hok hok']
      have hcc := fun a b => hc i a b
      simp only at hcc
      simp only [hcc, Finset.sum_mul]
      generalize toCart (reciprocalCell (2 * Real.pi) d.cv) (h.back (qs q)) = Q
      have hin : ∀ a', comp Q a' = ∑ a, h.R a a' * comp (rotV h.R Q) a := fun a' => (rotV_inv hr.ortho Q a').symm
      have hcomm : ∀ F : Fin 3 → Fin 3 → Fin 3 → Fin 3 → ℝ, ∑ a, ∑ b, ∑ a', ∑ b', F a b a' b' =
          ∑ a', ∑ b', ∑ a, ∑ b, F a b a' b' := by
        intro F
        simp only [Fin.sum_univ_three]
        ring
      rw [hcomm]
      refine congrArg (fun x => Real.exp (-x)) ?_
      refine Finset.sum_congr rfl fun a' _ => ?_
      refine Finset.sum_congr rfl fun b' _ => ?_
      rw [mul_assoc, hin a', hin b', Finset.sum_mul_sum, Finset.mul_sum]
      refine Finset.sum_congr rfl fun a _ => ?_
      rw [Finset.mul_sum]
      refine Finset.sum_congr rfl fun b _ => ?_
      ring

theorem lookup_eq {data : String → Option ℂ} {types : Fin n → String} {sl : Fin n → ℂ} (hl : lookupAll data types = .ok sl)
    (k : Fin n) : sl k = (data (types k)).getD 0 := by
  unfold lookupAll at hl
  split at hl
  · rw [Except.ok.injEq] at hl
    rw [← hl]
  · cases hl

/-- **C131** (partial: reduced supercells, no corrections) Structure factors of the two descriptions are the same: they have
the same frequencies, and for every set of frequencies (every function `g` of the frequency) the same sum over modes.  (The
values for single modes of equal frequencies depend on the eigenvectors that have been found.) -/
theorem C131_structure_factor_partial (hr : h.Relates d d') {images images' : List (V3 ℤ)} (hok : d.Ok images)
    (hok' : d'.Ok images') {op : Fin N → Fin N} {t : Fin N → V3 ℤ} (hs : Symmetric d.cells d.S d.fc op t)
    (junk : Fin N → Mat n ℝ) (junk' : Fin N' → Mat n ℝ) {types types' : Fin n → String} (ht : ∀ i, types' (h.p i) = types i)
    {eigh eigh' : Mat n ℂ → (Fin (n * 3) → ℝ) × Mat n ℂ} (he : IsEigh eigh) (he' : IsEigh eigh') (qs : Fin nq → V3 ℝ)
    (weights weights' : Fin nq → ℝ) (data : String → Option ℂ) {dw dw' : Option DW} (hdw : h.CarriesDWOpt dw dw')
    {r r' : SF nq (n * 3)}
    (hsf : calculateStructureFactor (d.modes types images junk eigh (fun q => h.back (qs q)) weights) data dw = .ok r)
    (hsf' : calculateStructureFactor (d'.modes types' images' junk' eigh' qs weights') data dw' = .ok r') (q : Fin nq) :
    r'.freqs q = r.freqs q ∧
    ∀ g : ℝ → ℝ, ∑ s, g (r'.freqs q s) * r'.sf q s = ∑ s, g (r.freqs q s) * r.sf q s := by
  obtain ⟨sl, f, hl, hf, rfl⟩ := sf_ok _ data dw r hsf
  obtain ⟨sl', f', hl', hf', rfl⟩ := sf_ok _ data dw' r' hsf'
  refine ⟨?_, fun g => ?_⟩
  · funext s
    exact C131_frequencies_partial hr hok hok' hs junk junk' (qs q) he he' s
  · simp only [sfTerm_amplitude]
    have hm : ∀ s k, (d.modes types images junk eigh (fun q => h.back (qs q)) weights).evecs q s k.divNat k.modNat =
        (eigh (d.weighted images junk (h.back (qs q)))).2 s k := by
      intro s k
      obtain ⟨i, a, rfl⟩ := exists_row_id k
      rw [row_div, row_mod]
      rfl
    have hm' : ∀ s k, (d'.modes types' images' junk' eigh' qs weights').evecs q s k.divNat k.modNat =
        (eigh' (d'.weighted images' junk' (qs q))).2 s k := by
      intro s k
      obtain ⟨i, a, rfl⟩ := exists_row_id k
      rw [row_div, row_mod]
      rfl
    simp only [hm, hm']
    refine (sum_sfValue (eigh' (d'.weighted images' junk' (qs q))) _ g).trans
      (Eq.trans ?_ (sum_sfValue (eigh (d.weighted images junk (h.back (qs q)))) _ g).symm)
    congr 1
    have hph : ‖Complex.exp (Complex.I * 2 * Real.pi * (dot (qs q) h.w : ℝ))‖ = 1 := by
      have : Complex.I * 2 * Real.pi * (dot (qs q) h.w : ℝ) = ((2 * Real.pi * dot (qs q) h.w : ℝ) : ℂ) * Complex.I := by
        push_cast
        ring
      rw [this, Complex.norm_exp_ofReal_mul_I]
    rw [← quad_phase hph (spectral (eigh (d.weighted images junk (h.back (qs q)))) _)]
    refine hr.quad (hr.spectral (hr.carries_weighted hok hok' junk junk' (qs q)) (d.hermitian hok hs junk _) he he' _) ?_
    intro i a
    unfold amplitude
    simp only [row_div, row_mod, cartQ_eq, hr.cartesian hok hok', comp_rotV]
    rw [hr.phase types types' images images' junk junk' eigh eigh' qs weights weights' q i,
      hr.dwFactors hok hok' types types' junk junk' eigh eigh' qs weights weights' hdw hf hf' q i,
      show (d'.cryst types').mass (h.p i) = (d.cryst types).mass i from hr.masses i]
    have hsl : sl' (h.p i) = sl i := by
      rw [lookup_eq hl', lookup_eq hl]
      simp only [Description.cryst, ht]
    rw [hsl]
    push_cast
    rw [Finset.sum_mul, Finset.sum_mul]
    refine Finset.sum_congr rfl fun a' _ => ?_
    ring

/-- Scattering lengths of the example. -/
noncomputable def Ex.data : String → Option ℂ := fun x => if x = "Na" then some 3 else some ⟨9, -1 / 2⟩

/-- All the hypotheses hold together: the structure factors of the two descriptions of the chain, each with the Debye-Waller
exponents calculated from it on a grid of two wavevectors. -/
example (junk junk' : Fin 2 → Mat 2 ℝ) {eigh eigh' : Mat 2 ℂ → (Fin (2 * 3) → ℝ) × Mat 2 ℂ} (he : IsEigh eigh)
    (he' : IsEigh eigh') (grid : Fin 2 → V3 ℝ) (qs : Fin 3 → V3 ℝ) :
    ∃ r r', calculateStructureFactor (Ex.d.modes !["Na", "Cl"] shells2 junk eigh (fun q => Ex.change.back (qs q)) 1) Ex.data
        (some (calculateDebyeWaller 5 (Ex.d.modes !["Na", "Cl"] shells2 junk eigh (fun q => Ex.change.back (grid q)) 1)
          1 (1 / 10) (1 / 100) none)) = .ok r ∧
      calculateStructureFactor (Ex.d'.modes !["Cl", "Na"] shells2 junk' eigh' qs 1) Ex.data
        (some (calculateDebyeWaller 1 (Ex.d'.modes !["Cl", "Na"] shells2 junk' eigh' grid 1) 1 (1 / 10) (1 / 100) none))
          = .ok r' ∧
      ∀ q, r'.freqs q = r.freqs q ∧ ∀ g : ℝ → ℝ, ∑ s, g (r'.freqs q s) * r'.sf q s = ∑ s, g (r.freqs q s) * r.sf q s := by
  have hd : ∀ x, Ex.data x ≠ none := by
    intro x
    unfold Ex.data
    split <;> simp
  obtain ⟨r, hr⟩ := (C27_refusals (Ex.d.modes !["Na", "Cl"] shells2 junk eigh (fun q => Ex.change.back (qs q)) 1) Ex.data
    (some (calculateDebyeWaller 5 (Ex.d.modes !["Na", "Cl"] shells2 junk eigh (fun q => Ex.change.back (grid q)) 1)
          1 (1 / 10) (1 / 100) none))).2.2 (fun k => hd _) (by rintro w hw; cases hw; rfl)
  obtain ⟨r', hr'⟩ := (C27_refusals (Ex.d'.modes !["Cl", "Na"] shells2 junk' eigh' qs 1) Ex.data
    (some (calculateDebyeWaller 1 (Ex.d'.modes !["Cl", "Na"] shells2 junk' eigh' grid 1) 1 (1 / 10) (1 / 100)
      none))).2.2 (fun k => hd _) (by rintro w hw; cases hw; rfl)
  refine ⟨r, r', hr, hr', fun q => ?_⟩
  refine C131_structure_factor_partial Ex.relates Ex.ok Ex.ok' Ex.symmetric junk junk' ?_ he he' qs 1 1 Ex.data ?_ hr hr' q
  · intro i
    fin_cases i <;> simp [Ex.change]
  · exact ⟨rfl, rfl, C131_debye_waller_partial Ex.relates Ex.ok Ex.ok' Ex.symmetric junk junk' _ _ he he' grid 1 5 1 (by norm_num)
      (by norm_num) _ _ _⟩

end Euphonic.Describe
