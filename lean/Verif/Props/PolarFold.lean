import Verif.Props.PolarScatter

/-!
# C174: structure factors of a polar crystal in a larger cell

Structure factors and Debye-Waller exponents of a polar crystal do not depend on the number of primitive cells in the chosen unit cell.
-/

set_option autoImplicit false
set_option linter.unusedSectionVars false

namespace Euphonic.PolarFold

open Euphonic.Lattice Euphonic.Supercell Euphonic.Phases Euphonic.Images Euphonic.DynMat Euphonic.Reduced
open Euphonic.Commensurate Euphonic.Acoustic Euphonic.Scatter Euphonic.Describe Euphonic.Dipole Euphonic.Poisson Euphonic.Folding
open Euphonic.PolarScatter

variable {n n' N N' M nq : Nat} {d : Description n N} {d' : Description n' N'} {h : Multiple n n' N N'}

/-! ## Any matrices -/

/-- Waves of the smaller cell are multiplied by the matrix of the larger one as by those of the smaller one. -/
structure Folds (h : Multiple n n' N N') (ks : Fin M → V3 ℝ) (A' : Mat n' ℂ) (A : Fin M → Mat n ℂ) : Prop where
  herm' : ∀ k l, A' l k = star (A' k l)
  herm : ∀ m k l, A m l k = star (A m k l)
  wave : ∀ m e k, ∑ l, A' k l * h.spread (ks m) e l = h.spread (ks m) (fun k => ∑ l, A m k l * e l) k

section
variable {eigh : Mat n ℂ → (Fin (n * 3) → ℝ) × Mat n ℂ} (he : IsEigh eigh)
  {eigh' : Mat n' ℂ → (Fin (n' * 3) → ℝ) × Mat n' ℂ} (he' : IsEigh eigh') {A' : Mat n' ℂ} {A : Fin M → Mat n ℂ}
include he he'

theorem spectral_of_by (hr : h.Relates d d') {ks : Fin M → V3 ℝ} {q' : V3 ℝ} (hq : h.FoldedOnto ks q')
    (hF : Folds h ks A' A) (g : ℝ → ℝ) :
    Matrix.of (spectral (eigh' A') g) = h.basis ks (fun m => (eigh (A m)).2) *
      (Matrix.diagonal fun x : Fin M × Fin (n * 3) => (g ((eigh (A x.1)).1 x.2) : ℂ)) *
      (h.basis ks fun m => (eigh (A m)).2).conjTranspose := by
  have hO : ∀ m s s', ∑ k, star ((eigh (A m)).2 s k) * (eigh (A m)).2 s' k = if s = s' then 1 else 0 :=
    fun m s s' => he.ortho _ (hF.herm m) s s'
  refine spectral_basis (x := fun x : Fin M × Fin (n * 3) => (eigh (A x.1)).1 x.2) hF.herm' he' (hr.complete hq _ hO) ?_ g
  ext k ⟨m, s⟩
  rw [Matrix.mul_apply, Matrix.mul_diagonal]
  have h1 := hF.wave m ((eigh (A m)).2 s) k
  have h2 : (fun k => ∑ l, A m k l * (eigh (A m)).2 s l) = fun k => ((eigh (A m)).1 s : ℂ) * (eigh (A m)).2 s k :=
    funext fun k => he.eigen _ (hF.herm m) s k
  rw [h2] at h1
  simp only [Multiple.basis, Matrix.of_apply]
  simp only [← mul_div_assoc, ← Finset.sum_div, h1]
  unfold Multiple.spread
  ring

theorem spectral_entry_by (hr : h.Relates d d') {ks : Fin M → V3 ℝ} {q' : V3 ℝ} (hq : h.FoldedOnto ks q')
    (hF : Folds h ks A' A) (g : ℝ → ℝ)
    (i j : Fin n') (a b : Fin 3) :
    spectral (eigh' (A')) g (row i a) (row j b) =
      (∑ m, expQR (ks m) (h.off i) * star (expQR (ks m) (h.off j)) *
        spectral (eigh (A m)) g (row (h.home i) a) (row (h.home j) b)) / M := by
  have hsq : ((√(M : ℝ) : ℝ) : ℂ) * (√(M : ℝ) : ℝ) = M := by
    rw [← Complex.ofReal_mul, Real.mul_self_sqrt (by positivity)]
    simp
  have := congrFun (congrFun (spectral_of_by he he' hr hq hF g) (row i a)) (row j b)
  rw [Matrix.of_apply] at this
  rw [this, Matrix.mul_apply, Fintype.sum_prod_type, Finset.sum_div]
  refine Finset.sum_congr rfl fun m _ => ?_
  unfold spectral
  rw [Finset.mul_sum, Finset.sum_div]
  refine Finset.sum_congr rfl fun s _ => ?_
  simp only [Matrix.mul_diagonal, Matrix.conjTranspose_apply, Multiple.basis, Matrix.of_apply, Multiple.spread, row_div, row_mod]
  rw [← hsq, star_div₀, star_mul', show star (((√(M : ℝ) : ℝ) : ℂ)) = (√(M : ℝ) : ℝ) from Complex.conj_ofReal _]
  generalize ((√(M : ℝ) : ℝ) : ℂ) = r
  rw [div_mul_eq_mul_div, div_mul_div_comm]
  congr 1
  ring

theorem spectral_atom_by (hr : h.Relates d d') {ks : Fin M → V3 ℝ} {q' : V3 ℝ} (hq : h.FoldedOnto ks q')
    (hF : Folds h ks A' A) (g : ℝ → ℝ)
    (i : Fin n') (a b : Fin 3) :
    spectral (eigh' (A')) g (row i a) (row i b) =
      (∑ m, spectral (eigh (A m)) g (row (h.home i) a) (row (h.home i) b)) / M := by
  rw [spectral_entry_by he he' hr hq hF]
  congr 1
  refine Finset.sum_congr rfl fun m _ => ?_
  rw [mul_comm (expQR _ _), norm_expQR, one_mul]

/-- `f† A f` of a wave in the larger cell. -/
theorem quad_by (hr : h.Relates d d') {ks : Fin M → V3 ℝ} {q' : V3 ℝ} (hq : h.FoldedOnto ks q')
    (hF : Folds h ks A' A) (g : ℝ → ℝ)
    (m : Fin M) (f : Fin (n * 3) → ℂ) :
    quad (spectral (eigh' (A')) g) (h.spread (ks m) f) =
      M * quad (spectral (eigh (A m)) g) f := by
  have hM0 : (M : ℂ) ≠ 0 := by exact_mod_cast m.pos.ne'
  have key : ∀ m', ∑ i, ∑ a, ∑ j, ∑ b, star (h.spread (ks m) f (row i a)) * (expQR (ks m') (h.off i) * star (expQR (ks m') (h.off j)) *
      spectral (eigh (A m')) g (row (h.home i) a) (row (h.home j) b)) * h.spread (ks m) f (row j b) =
      if m' = m then (M : ℂ) * M * quad (spectral (eigh (A m)) g) f else 0 := by
    intro m'
    have e1 : ∀ i a j b, star (h.spread (ks m) f (row i a)) * (expQR (ks m') (h.off i) * star (expQR (ks m') (h.off j)) *
        spectral (eigh (A m')) g (row (h.home i) a) (row (h.home j) b)) * h.spread (ks m) f (row j b) =
        (star (f (row (h.home i) a)) * spectral (eigh (A m')) g (row (h.home i) a) (row (h.home j) b) *
          f (row (h.home j) b)) * expQR (sub (ks m) (ks m')) (h.off j) * expQR (sub (ks m') (ks m)) (h.off i) := by
      intro i a j b
      simp only [Multiple.spread, row_div, row_mod, expQR_sub_left, star_mul']
      ring
    simp only [e1]
    split
    · rename_i hm
      subst hm
      have h0 : ∀ i, expQR (sub (ks m') (ks m')) (h.off i) = 1 := fun i => by simp [expQR, sub]
      simp only [h0, mul_one]
      rw [hq.sum_home fun i => ∑ a, ∑ j, ∑ b, star (f (row i a)) * spectral (eigh (A m')) g (row i a)
        (row (h.home j) b) * f (row (h.home j) b), mul_assoc]
      congr 1
      unfold quad
      rw [sum_rows, Finset.mul_sum]
      refine Finset.sum_congr rfl fun i _ => ?_
      rw [Finset.mul_sum]
      refine Finset.sum_congr rfl fun a _ => ?_
      rw [hq.sum_home fun j => ∑ b, star (f (row i a)) * spectral (eigh (A m')) g (row i a) (row j b) *
        f (row j b)]
      congr 1
      rw [sum_rows fun l => star (f (row i a)) * spectral (eigh (A m')) g (row i a) l * f l]
    · rename_i hm
      obtain ⟨hfit, hne⟩ := hq.differ (fun e => hm e.symm)
      have := hr.character hfit hne fun i => ∑ a, ∑ j, ∑ b, (star (f (row i a)) *
        spectral (eigh (A m')) g (row i a) (row (h.home j) b) * f (row (h.home j) b)) *
        expQR (sub (ks m) (ks m')) (h.off j)
      simp only [Finset.sum_mul] at this
      exact this
  have hsum : quad (spectral (eigh' (A')) g) (h.spread (ks m) f) =
      (∑ m', ∑ i, ∑ a, ∑ j, ∑ b, star (h.spread (ks m) f (row i a)) * (expQR (ks m') (h.off i) * star (expQR (ks m') (h.off j)) *
      spectral (eigh (A m')) g (row (h.home i) a) (row (h.home j) b)) * h.spread (ks m) f (row j b)) / M := by
    unfold quad
    rw [sum_rows]
    simp only [sum_rows, spectral_entry_by he he' hr hq hF]
    simp only [Finset.sum_div, Finset.mul_sum, Finset.sum_mul]
    have hcomm : ∀ F : Fin n' → Fin 3 → Fin n' → Fin 3 → Fin M → ℂ,
        ∑ i, ∑ a, ∑ j, ∑ b, ∑ m, F i a j b m = ∑ m, ∑ i, ∑ a, ∑ j, ∑ b, F i a j b m := by
      intro F
      have h1 : ∀ i a j, ∑ b, ∑ m, F i a j b m = ∑ m, ∑ b, F i a j b m := fun i a j => Finset.sum_comm
      have h2 : ∀ i a, ∑ j, ∑ m, ∑ b, F i a j b m = ∑ m, ∑ j, ∑ b, F i a j b m := fun i a => Finset.sum_comm
      have h3 : ∀ i, ∑ a, ∑ m, ∑ j, ∑ b, F i a j b m = ∑ m, ∑ a, ∑ j, ∑ b, F i a j b m := fun i => Finset.sum_comm
      simp only [h1, h2, h3]
      exact Finset.sum_comm
    rw [hcomm]
    refine Finset.sum_congr rfl fun m' _ => Finset.sum_congr rfl fun i _ => Finset.sum_congr rfl fun a _ =>
      Finset.sum_congr rfl fun j _ => Finset.sum_congr rfl fun b _ => ?_
    rw [mul_div_assoc', div_mul_eq_mul_div]
  rw [hsum, Finset.sum_congr rfl fun m' _ => key m', Finset.sum_ite_eq' Finset.univ m, if_pos (Finset.mem_univ _)]
  field_simp

end

/-! ## Structure factors and exponents from any matrices -/

theorem structure_factor_folds (hr : h.Relates d d') {images images' : List (V3 ℤ)} (hok : d.Ok images)
    (hok' : d'.Ok images') {types : Fin n → String} {types' : Fin n' → String}
    (ht : ∀ i, types' i = types (h.home i)) {eigh : Mat n ℂ → (Fin (n * 3) → ℝ) × Mat n ℂ} (he : IsEigh eigh)
    {eigh' : Mat n' ℂ → (Fin (n' * 3) → ℝ) × Mat n' ℂ} (he' : IsEigh eigh') (qs : Fin nq → V3 ℝ) {B : Fin nq → Mat n ℂ}
    {B' : Fin nq → Mat n' ℂ} (hB : ∀ q, ∃ (M : Nat) (ks : Fin M → V3 ℝ) (A : Fin M → Mat n ℂ), h.FoldedOnto ks (h.fold (qs q)) ∧
      ∃ m, ks m = qs q ∧ A m = B q ∧ Folds h ks (B' q) A)
    (weights weights' : Fin nq → ℝ) (data : String → Option ℂ) {dw dw' : Option DW} (hdw : h.CarriesDWOpt dw dw')
    {r : SF nq (n * 3)} {r' : SF nq (n' * 3)}
    (hsf : calculateStructureFactor (modesBy d types B eigh qs weights) data dw = .ok r)
    (hsf' : calculateStructureFactor (modesBy d' types' B' eigh' (fun q => h.fold (qs q)) weights') data dw' = .ok r')
    (q : Fin nq) (g : ℝ → ℝ) : ∑ s, g (r'.freqs q s) * r'.sf q s = ∑ s, g (r.freqs q s) * r.sf q s := by
  obtain ⟨sl, f, hl, hf, rfl⟩ := sf_ok _ data dw r hsf
  obtain ⟨sl', f', hl', hf', rfl⟩ := sf_ok _ data dw' r' hsf'
  simp only [sfTerm_amplitude]
  have hm : ∀ s k, (modesBy d types B eigh qs weights).evecs q s k.divNat k.modNat =
      (eigh (B q)).2 s k := by
    intro s k
    obtain ⟨i, a, rfl⟩ := exists_row_id k
    rw [row_div, row_mod]
    rfl
  have hm' : ∀ s k, (modesBy d' types' B' eigh' (fun q => h.fold (qs q)) weights').evecs q s k.divNat k.modNat =
      (eigh' (B' q)).2 s k := by
    intro s k
    obtain ⟨i, a, rfl⟩ := exists_row_id k
    rw [row_div, row_mod]
    rfl
  simp only [hm, hm']
  refine (sum_sfValue (eigh' (B' q)) _ g).trans
    (Eq.trans ?_ (sum_sfValue (eigh (B q)) _ g).symm)
  obtain ⟨M, ks, A, hq, m, hkm, hAm, hFo⟩ := hB q
  have hM : 0 < M := m.pos
  have hM0 : (M : ℝ) ≠ 0 := by exact_mod_cast hM.ne'
  set F := amplitude (d.cryst types) (cartQ (modesBy d types B eigh qs weights) q)
    (expFactor (modesBy d types B eigh qs weights) q) sl (f q) with hF
  have hamp : amplitude (d'.cryst types') (cartQ (modesBy d' types' B' eigh' (fun q => h.fold (qs q)) weights') q)
      (expFactor (modesBy d' types' B' eigh' (fun q => h.fold (qs q)) weights') q) sl' (f' q) = h.spread (ks m) F := by
    funext k
    obtain ⟨i, a, rfl⟩ := exists_row_id k
    rw [hF, hkm]
    unfold amplitude Multiple.spread
    have hQ : ∀ a, cartQ (modesBy d types B eigh qs weights) q a = comp (toCart (reciprocalCell (2 * Real.pi) d.cv) (qs q)) a :=
      fun a => cartQ_eq types images (fun _ _ _ => 0) eigh qs weights q a
    have hQ' : ∀ a, cartQ (modesBy d' types' B' eigh' (fun q => h.fold (qs q)) weights') q a =
        comp (toCart (reciprocalCell (2 * Real.pi) d'.cv) (h.fold (qs q))) a :=
      fun a => cartQ_eq types' images' (fun _ _ _ => 0) eigh' (fun q => h.fold (qs q)) weights' q a
    have hP : expFactor (modesBy d' types' B' eigh' (fun q => h.fold (qs q)) weights') q i =
        expQR (qs q) (h.off i) * expFactor (modesBy d types B eigh qs weights) q (h.home i) :=
      hr.phase types types' images images' (fun _ _ _ => 0) (fun _ _ _ => 0) eigh eigh' qs weights weights' q i
    have hW : f' q i = f q (h.home i) :=
      hr.dwFactors hok hok' types types' (fun _ _ _ => 0) (fun _ _ _ => 0) eigh eigh' qs weights weights' hdw hf hf' q i
    simp only [row_div, row_mod, hQ, hQ', hr.cartesian hok hok']
    have hsl : sl' i = sl (h.home i) := by
      rw [lookup_eq hl', lookup_eq hl]
      simp only [Description.cryst, ht]
    rw [hP, hW,
      show (d'.cryst types').mass i = (d.cryst types).mass (h.home i) from hr.masses i, hsl]
    ring
  rw [hamp, quad_by he he' hr hq hFo _ m, hAm, ← Complex.ofReal_natCast, Complex.re_ofReal_mul]
  have hsc : (fun x => g (freqOf x) / |freqOf x| / (2 * (n' : ℝ))) = fun x => (1 / (M : ℝ)) * (g (freqOf x) / |freqOf x| / (2 * n)) := by
    funext x
    rw [show (n' : ℝ) = M * n by rw [hq.atoms]; push_cast; rfl, one_div, div_eq_mul_inv _ (2 * (n : ℝ)), div_eq_mul_inv _ (2 * _)]
    simp only [mul_inv]
    ring
  rw [hsc, quad_scaled, Complex.re_ofReal_mul, ← mul_assoc, mul_one_div_cancel hM0, one_mul]


theorem raw_by (types : Fin n → String) (B : Fin nq → Mat n ℂ)
    (eigh : Mat n ℂ → (Fin (n * 3) → ℝ) × Mat n ℂ) (qs : Fin nq → V3 ℝ) (w : Fin nq → ℝ) (chunk : Nat) (hc : 0 < chunk)
    (kB temp fmin : ℝ) (k : Fin n) (a b : Fin 3) :
    dwRaw chunk (modesBy d types B eigh qs w) kB temp fmin k a b =
      (∑ i, w i * (1 / (4 * d.mass k) *
        (spectral (eigh (B i)) (fun x => freqTerm kB temp fmin (freqOf x)) (row k a) (row k b)).re)) / ∑ i, w i := by
  simp only [dwRaw, C28_chunking_irrelevant chunk hc, ← Fin.sum_univ_def, dwContribution_by, mul_assoc]
  rfl

theorem debye_waller_folds (hr : h.Relates d d') {eigh : Mat n ℂ → (Fin (n * 3) → ℝ) × Mat n ℂ} (he : IsEigh eigh)
    {eigh' : Mat n' ℂ → (Fin (n' * 3) → ℝ) × Mat n' ℂ} (he' : IsEigh eigh') {ks : Fin nq → Fin M → V3 ℝ} {qs' : Fin nq → V3 ℝ}
    (hq : ∀ q, h.FoldedOnto (ks q) (qs' q)) (hM : 0 < M) {A : Fin nq → Fin M → Mat n ℂ} {A' : Fin nq → Mat n' ℂ}
    (hF : ∀ q, Folds h (ks q) (A' q) (A q)) (types : Fin n → String) (types' : Fin n' → String) (w : Fin nq → ℝ)
    (chunk chunk' : Nat) (hc : 0 < chunk) (hc' : 0 < chunk') (kB temp fmin : ℝ) (i : Fin n') (a b : Fin 3) :
    (calculateDebyeWaller chunk' (modesBy d' types' A' eigh' qs' w) kB temp fmin none).w i a b =
      (calculateDebyeWaller chunk (modesBy d types (flatten A) eigh (flatten ks) fun x => w x.divNat) kB temp fmin none).w
        (h.home i) a b := by
  simp only [calculateDebyeWaller, raw_by types (flatten A) eigh _ _ chunk hc, raw_by types' A' eigh' _ _ chunk' hc']
  rw [sum_flatten A fun B q => w q * (1 / (4 * d.mass (h.home i)) * (spectral (eigh B) (fun x => freqTerm kB temp fmin (freqOf x))
    (row (h.home i) a) (row (h.home i) b)).re), sum_flatten A fun _ q => w q]
  simp only [spectral_atom_by he he' hr (hq _) (hF _), hr.masses, ← Finset.mul_sum, Finset.sum_const, Finset.card_univ,
    Fintype.card_fin, nsmul_eq_mul, Complex.div_natCast_re, Complex.re_sum]
  have hM' : (M : ℝ) ≠ 0 := by exact_mod_cast hM.ne'
  simp only [← mul_div_assoc, ← Finset.sum_div, div_div]

theorem dos_folds (hr : h.Relates d d') {eigh : Mat n ℂ → (Fin (n * 3) → ℝ) × Mat n ℂ} (he : IsEigh eigh)
    {eigh' : Mat n' ℂ → (Fin (n' * 3) → ℝ) × Mat n' ℂ} (he' : IsEigh eigh') {ks : Fin nq → Fin M → V3 ℝ} {qs' : Fin nq → V3 ℝ}
    (hq : ∀ q, h.FoldedOnto (ks q) (qs' q)) (hM : 0 < M) (hn : 0 < n) (hq0 : 0 < nq) {A : Fin nq → Fin M → Mat n ℂ}
    {A' : Fin nq → Mat n' ℂ} (hF : ∀ q, Folds h (ks q) (A' q) (A q)) (types : Fin n → String) (types' : Fin n' → String)
    (w : Fin nq → ℝ) {c : ℝ} (hc : 0 < c) {b : List ℝ} (hb : b.Pairwise (· ≤ ·)) :
    ∃ y, Dos.calculateDos c b (modesBy d types (flatten A) eigh (flatten ks) fun x => w x.divNat).freqs (fun x => w x.divNat) = .ok y ∧
      Dos.calculateDos c b (modesBy d' types' A' eigh' qs' w).freqs w = .ok y := by
  have hnn := (hq ⟨0, hq0⟩).atoms
  have hn' : 0 < n' := by rw [hnn]; exact Nat.mul_pos hM hn
  have hM' : (M : ℝ) ≠ 0 := by exact_mod_cast hM.ne'
  have hn0 : (n : ℝ) ≠ 0 := by exact_mod_cast hn.ne'
  rw [Dos.C21_dos_counts_modes_in_bin c hc b hb (by omega), Dos.C21_dos_counts_modes_in_bin c hc b hb (by omega)]
  refine ⟨_, rfl, ?_⟩
  congr 1
  apply List.map_congr_left
  intro e _
  have hall : ∀ {l L nk : Nat} (D : Description l L) (T : Fin l → String) (B : Fin nk → Mat l ℂ)
      (E : Mat l ℂ → (Fin (l * 3) → ℝ) × Mat l ℂ) (k : Fin nk → V3 ℝ) (u : Fin nk → ℝ),
      Dos.binTotal b c (modesBy D T B E k u).freqs (fun q _ => u q * (3 / ((l * 3 : ℕ) : ℝ))) e =
        (∑ q, u q * ∑ s, DebyeSym.binOf b c e ((E (B q)).1 s)) / l := by
    intro l L nk D T B E k u
    unfold Dos.binTotal
    rw [Finset.sum_div]
    refine Finset.sum_congr rfl fun q _ => ?_
    rw [Finset.mul_sum, Finset.sum_div]
    refine Finset.sum_congr rfl fun s _ => ?_
    unfold DebyeSym.binOf modesBy
    dsimp only
    split
    · rw [mul_one]
      push_cast
      rcases Nat.eq_zero_or_pos l with rfl | hl
      · simp
      · have : (l : ℝ) ≠ 0 := by exact_mod_cast hl.ne'
        field_simp
    · simp
  have hsum : ∀ q, ∑ s, DebyeSym.binOf b c e ((eigh' (A' q)).1 s) = ∑ m, ∑ s, DebyeSym.binOf b c e ((eigh (A q m)).1 s) :=
    fun q => folded_sum hr (hq q) (hF q).herm' (hF q).herm (hF q).wave he he' _
  rw [hall, hall, sum_flatten A fun B q => w q * ∑ s, DebyeSym.binOf b c e ((eigh B).1 s), sum_flatten A fun _ q => w q]
  simp only [hsum, ← Finset.mul_sum, Finset.sum_const, Finset.card_univ, Fintype.card_fin, nsmul_eq_mul]
  rw [show (n' : ℝ) = M * n by rw [hnn]; push_cast; rfl]
  simp only [div_div]
  congr 1
  ring

/-! ## Polar crystals -/

section
variable {images images' : List (V3 ℤ)} (hok : d.Ok images) (hok' : d'.Ok images') {op : Fin N → Fin N} {t : Fin N → V3 ℤ}
  (hs : Symmetric d.cells d.S d.fc op t) {op' : Fin N' → Fin N'} {t' : Fin N' → V3 ℤ} (hs' : Symmetric d'.cells d'.S d'.fc op' t')
  {born : Fin n → Fin 3 → Fin 3 → ℝ} {born' : Fin n' → Fin 3 → Fin 3 → ℝ} {diel : Matrix (Fin 3) (Fin 3) ℝ}
  {erfc : ℝ → ℝ} (herfc : IsErfc erfc) (ho : Sound (d.ions born diel))
  (hv' : 0 < cellVolume d'.cv) (hb : ∀ i, born' i = born (h.home i)) {lam lam' : ℝ} (hl : 0 < lam) (hl' : 0 < lam')
  (junk : Fin N → Mat n ℝ) (junk' : Fin N' → Mat n' ℝ) {eigh : Mat n ℂ → (Fin (n * 3) → ℝ) × Mat n ℂ} (he : IsEigh eigh)
  {eigh' : Mat n' ℂ → (Fin (n' * 3) → ℝ) × Mat n' ℂ} (he' : IsEigh eigh') (hr : h.Relates d d')

include hok hok' hs hs' herfc ho hv' hb hl hl' hr in
theorem polar_folds {ks : Fin M → V3 ℝ} {q' : V3 ℝ} (hq : h.FoldedOnto ks q')
    (dir : Option (V3 ℝ)) (hdir : ∀ u ∈ dir, isGamma u = false ∧ isGamma (h.fold u) = false ∧ ∃ K, q' = castV ℝ K) :
    Folds h ks (d'.polarComplete born' diel erfc lam' images' junk' q' (dir.map h.fold))
      fun m => d.polarComplete born diel erfc lam images junk (ks m) (atGamma dir (ks m)) where
  herm' := polarComplete_herm hok' hs' (hr.sound ho hv') erfc lam' junk' q' (dir.map h.fold)
  herm := fun m => polarComplete_herm hok hs ho erfc lam junk (ks m) (atGamma dir (ks m))
  wave := fun m e k => by
    obtain ⟨G, hG⟩ := hq.same m
    rw [← C160_modes hr hok hok' herfc ho hv' hb hl hl' junk junk' (ks m) dir (fun u hu => ?_) e k, hG, polarComplete_periodic]
    obtain ⟨h1, h2, K, hK⟩ := hdir u hu
    refine ⟨h1, h2, add K G, ?_⟩
    rw [hG, hK]
    simp [add, castV]

include hok hok' hs hs' herfc ho hv' hb hl hl' he he' hr

/-- **C174.** Structure factors of a polar crystal in a larger cell are those in the smaller cell: for every function of the frequency
the sum over modes is the same at every scattering vector, so modes of the larger cell that belong to other wavevectors of the smaller
one have no intensity.  With a direction of approach the modes of the larger cell are split at its gamma points, and those of the
smaller cell at its gamma points. -/
theorem C174_structure_factor {types : Fin n → String} {types' : Fin n' → String} (ht : ∀ i, types' i = types (h.home i))
    (qs : Fin nq → V3 ℝ) (dirs : Fin nq → Option (V3 ℝ))
    (hdir : ∀ q, ∀ u ∈ dirs q, isGamma u = false ∧ isGamma (h.fold u) = false ∧ ∃ K, h.fold (qs q) = castV ℝ K)
    (weights weights' : Fin nq → ℝ) (data : String → Option ℂ) {dw dw' : Option DW} (hdw : h.CarriesDWOpt dw dw')
    {r : SF nq (n * 3)} {r' : SF nq (n' * 3)}
    (hsf : calculateStructureFactor (polarModes d types born diel erfc lam images junk eigh qs
      (fun q => atGamma (dirs q) (qs q)) weights) data dw = .ok r)
    (hsf' : calculateStructureFactor (polarModes d' types' born' diel erfc lam' images' junk' eigh' (fun q => h.fold (qs q))
      (fun q => (dirs q).map h.fold) weights') data dw' = .ok r') (q : Fin nq) (g : ℝ → ℝ) :
    ∑ s, g (r'.freqs q s) * r'.sf q s = ∑ s, g (r.freqs q s) * r.sf q s := by
  refine structure_factor_folds hr hok hok' ht he he' qs (fun q => ?_) weights weights' data hdw hsf hsf' q g
  obtain ⟨M, ks, hq, m, hm⟩ := hr.exists_folded (qs q)
  exact ⟨M, ks, _, hq, m, hm, by rw [hm],
    polar_folds hok hok' hs hs' herfc ho hv' hb hl hl' junk junk' hr hq (dirs q) (hdir q)⟩

/-- **C174.** Debye-Waller exponents of an atom of the larger cell are those of the atom it is a copy of. -/
theorem C174_debye_waller {ks : Fin nq → Fin M → V3 ℝ} {qs' : Fin nq → V3 ℝ} (hq : ∀ q, h.FoldedOnto (ks q) (qs' q)) (hM : 0 < M)
    (dirs : Fin nq → Option (V3 ℝ))
    (hdir : ∀ q, ∀ u ∈ dirs q, isGamma u = false ∧ isGamma (h.fold u) = false ∧ ∃ K, qs' q = castV ℝ K)
    (types : Fin n → String) (types' : Fin n' → String) (w : Fin nq → ℝ) (chunk chunk' : Nat) (hc : 0 < chunk) (hc' : 0 < chunk')
    (kB temp fmin : ℝ) (i : Fin n') (a b : Fin 3) :
    (calculateDebyeWaller chunk' (polarModes d' types' born' diel erfc lam' images' junk' eigh' qs' (fun q => (dirs q).map h.fold) w)
      kB temp fmin none).w i a b =
    (calculateDebyeWaller chunk (polarModes d types born diel erfc lam images junk eigh (flatten ks)
      (flatten fun q m => atGamma (dirs q) (ks q m)) fun x => w x.divNat) kB temp fmin none).w (h.home i) a b :=
  debye_waller_folds hr he he' hq hM (A := fun q m => d.polarComplete born diel erfc lam images junk (ks q m) (atGamma (dirs q) (ks q m)))
    (fun q => polar_folds hok hok' hs hs' herfc ho hv' hb hl hl' junk junk' hr (hq q) (dirs q) (hdir q)) types types' w chunk chunk'
    hc hc' kB temp fmin i a b

/-- **C174.** The density of states of the larger cell is that of the smaller one at all the wavevectors that are folded. -/
theorem C174_dos {ks : Fin nq → Fin M → V3 ℝ} {qs' : Fin nq → V3 ℝ} (hq : ∀ q, h.FoldedOnto (ks q) (qs' q)) (hM : 0 < M)
    (hn : 0 < n) (hq0 : 0 < nq) (dirs : Fin nq → Option (V3 ℝ))
    (hdir : ∀ q, ∀ u ∈ dirs q, isGamma u = false ∧ isGamma (h.fold u) = false ∧ ∃ K, qs' q = castV ℝ K)
    (types : Fin n → String) (types' : Fin n' → String) (w : Fin nq → ℝ) {c : ℝ} (hc : 0 < c) {b : List ℝ}
    (hb' : b.Pairwise (· ≤ ·)) :
    ∃ y, Dos.calculateDos c b (polarModes d types born diel erfc lam images junk eigh (flatten ks)
        (flatten fun q m => atGamma (dirs q) (ks q m)) fun x => w x.divNat).freqs (fun x => w x.divNat) = .ok y ∧
      Dos.calculateDos c b (polarModes d' types' born' diel erfc lam' images' junk' eigh' qs' (fun q => (dirs q).map h.fold) w).freqs w =
        .ok y :=
  dos_folds hr he he' hq hM hn hq0
    (A := fun q m => d.polarComplete born diel erfc lam images junk (ks q m) (atGamma (dirs q) (ks q m)))
    (fun q => polar_folds hok hok' hs hs' herfc ho hv' hb hl hl' junk junk' hr (hq q) (dirs q) (hdir q)) types types' w hc hb'

end

/-! ## A case -/

namespace Ex

open Euphonic.Folding.Ex

/-- The polar chain in a cell of twice the length: structure factors at any scattering vectors, each with the exponents from its own
grid (the first wavevector of which is a gamma point with a direction of approach). -/
example (junk : Fin 2 → Mat 2 ℝ) (junk' : Fin 1 → Mat 4 ℝ) {eigh : Mat 2 ℂ → (Fin (2 * 3) → ℝ) × Mat 2 ℂ} (he : IsEigh eigh)
    {eigh' : Mat 4 ℂ → (Fin (4 * 3) → ℝ) × Mat 4 ℂ} (he' : IsEigh eigh') (qs : Fin nq → V3 ℝ) :
    ∃ r r', calculateStructureFactor (polarModes Describe.Ex.d !["Na", "Cl"] Describe.Ex.born Describe.Ex.diel erfc0 1 shells2 junk eigh
        qs (fun q => atGamma none (qs q)) 1) Describe.Ex.data
        (some (calculateDebyeWaller 5 (polarModes Describe.Ex.d !["Na", "Cl"] Describe.Ex.born Describe.Ex.diel erfc0 1 shells2 junk eigh
          (flatten fun (q : Fin 3) => ![⟨q.val / 6, 0, 0⟩, ⟨q.val / 6 + 1 / 2, 0, 0⟩])
          (flatten fun (q : Fin 3) m => atGamma (if q = 0 then some ⟨1 / 3, 1 / 2, 0⟩ else none)
            ((![⟨q.val / 6, 0, 0⟩, ⟨q.val / 6 + 1 / 2, 0, 0⟩] : Fin 2 → V3 ℝ) m)) fun _ => 1) 1 (1 / 10) (1 / 100) none)) = .ok r ∧
      calculateStructureFactor (polarModes Folding.Ex.d' !["Na", "Cl", "Na", "Cl"] born' Describe.Ex.diel erfc0 2 shells2 junk' eigh'
        (fun q => double.fold (qs q)) (fun _ => none) 1) Describe.Ex.data
        (some (calculateDebyeWaller 2 (polarModes Folding.Ex.d' !["Na", "Cl", "Na", "Cl"] born' Describe.Ex.diel erfc0 2 shells2 junk' eigh'
          (fun q : Fin 3 => ⟨2 * (q.val / 6), 0, 0⟩) (fun q => (if q = 0 then some ⟨1 / 3, 1 / 2, 0⟩ else none : Option (V3 ℝ)).map double.fold)
          fun _ => 1) 1 (1 / 10) (1 / 100) none)) = .ok r' ∧
      ∀ q (g : ℝ → ℝ), ∑ s, g (r'.freqs q s) * r'.sf q s = ∑ s, g (r.freqs q s) * r.sf q s := by
  have hd : ∀ x, Describe.Ex.data x ≠ none := by
    intro x
    unfold Describe.Ex.data
    split <;> simp
  have hf : double.fold ⟨1 / 3, 1 / 2, 0⟩ = ⟨2 / 3, 1 / 2, 0⟩ := by
    norm_num [Multiple.fold, double, dot, castV]
  obtain ⟨r, hr⟩ := (C27_refusals (polarModes Describe.Ex.d !["Na", "Cl"] Describe.Ex.born Describe.Ex.diel erfc0 1 shells2 junk eigh
        qs (fun q => atGamma none (qs q)) 1) Describe.Ex.data (some (calculateDebyeWaller 5 (polarModes Describe.Ex.d !["Na", "Cl"]
          Describe.Ex.born Describe.Ex.diel erfc0 1 shells2 junk eigh
          (flatten fun (q : Fin 3) => ![⟨q.val / 6, 0, 0⟩, ⟨q.val / 6 + 1 / 2, 0, 0⟩])
          (flatten fun (q : Fin 3) m => atGamma (if q = 0 then some ⟨1 / 3, 1 / 2, 0⟩ else none)
            ((![⟨q.val / 6, 0, 0⟩, ⟨q.val / 6 + 1 / 2, 0, 0⟩] : Fin 2 → V3 ℝ) m)) fun _ => 1) 1 (1 / 10) (1 / 100) none))).2.2
    (fun k => hd _) (by rintro w hw; cases hw; rfl)
  obtain ⟨r', hr'⟩ := (C27_refusals (polarModes Folding.Ex.d' !["Na", "Cl", "Na", "Cl"] born' Describe.Ex.diel erfc0 2 shells2 junk' eigh'
        (fun q => double.fold (qs q)) (fun _ => none) 1) Describe.Ex.data
        (some (calculateDebyeWaller 2 (polarModes Folding.Ex.d' !["Na", "Cl", "Na", "Cl"] born' Describe.Ex.diel erfc0 2 shells2 junk' eigh'
          (fun q : Fin 3 => ⟨2 * (q.val / 6), 0, 0⟩) (fun q => (if q = 0 then some ⟨1 / 3, 1 / 2, 0⟩ else none : Option (V3 ℝ)).map double.fold)
          fun _ => 1) 1 (1 / 10) (1 / 100) none))).2.2
    (fun k => hd _) (by rintro w hw; cases hw; rfl)
  refine ⟨r, r', hr, hr', fun q g => ?_⟩
  refine C174_structure_factor Describe.Ex.ok ok' Describe.Ex.symmetric symmetric' isErfc_erfc0 Describe.Ex.sound volume'
    (born' := born') (fun _ => rfl) one_pos two_pos junk junk' he he' relates ?_ qs (fun _ => none) (by simp) 1 1 _ ?_ hr hr' q g
  · intro i
    fin_cases i <;> simp [double]
  · refine ⟨rfl, rfl, fun i a b => ?_⟩
    exact C174_debye_waller Describe.Ex.ok ok' Describe.Ex.symmetric symmetric' isErfc_erfc0 Describe.Ex.sound volume'
      (born' := born') (fun _ => rfl) one_pos two_pos junk junk' he he' relates (fun q => folded _ 0 0) (by norm_num)
      (fun q : Fin 3 => if q = 0 then some ⟨1 / 3, 1 / 2, 0⟩ else none) (by
        intro q u hu
        by_cases h0 : q = 0
        · subst h0
          simp only [if_true, Option.mem_def, Option.some.injEq] at hu
          subst hu
          rw [hf]
          exact ⟨not_gamma _ _, not_gamma _ _, ⟨0, 0, 0⟩, by simp [castV]⟩
        · simp [h0] at hu) _ _ (fun _ => 1) 5 2 (by norm_num) (by norm_num) _ _ _ i a b

/-- The densities of states of the chain in cells of both lengths, with the splitting at gamma. -/
example (junk : Fin 2 → Mat 2 ℝ) (junk' : Fin 1 → Mat 4 ℝ) {eigh : Mat 2 ℂ → (Fin (2 * 3) → ℝ) × Mat 2 ℂ} (he : IsEigh eigh)
    {eigh' : Mat 4 ℂ → (Fin (4 * 3) → ℝ) × Mat 4 ℂ} (he' : IsEigh eigh') :
    ∃ y, Dos.calculateDos 1 [0, 1, 2, 7] (polarModes Describe.Ex.d !["Na", "Cl"] Describe.Ex.born Describe.Ex.diel erfc0 1 shells2 junk eigh
          (flatten fun (_ : Fin 1) => ![⟨0, 0, 0⟩, ⟨0 + 1 / 2, 0, 0⟩])
          (flatten fun (_ : Fin 1) m => atGamma (some ⟨1 / 3, 1 / 2, 0⟩) ((![⟨0, 0, 0⟩, ⟨0 + 1 / 2, 0, 0⟩] : Fin 2 → V3 ℝ) m))
          fun _ => 3).freqs (fun _ => 3) = .ok y ∧
      Dos.calculateDos 1 [0, 1, 2, 7] (polarModes Folding.Ex.d' !["Na", "Cl", "Na", "Cl"] born' Describe.Ex.diel erfc0 2 shells2 junk' eigh'
          (fun _ : Fin 1 => ⟨2 * 0, 0, 0⟩) (fun _ => (some ⟨1 / 3, 1 / 2, 0⟩ : Option (V3 ℝ)).map double.fold) fun _ => 3).freqs
          (fun _ => 3) = .ok y := by
  have hf : double.fold ⟨1 / 3, 1 / 2, 0⟩ = ⟨2 / 3, 1 / 2, 0⟩ := by
    norm_num [Multiple.fold, double, dot, castV]
  exact C174_dos Describe.Ex.ok ok' Describe.Ex.symmetric symmetric' isErfc_erfc0 Describe.Ex.sound volume'
    (born' := born') (fun _ => rfl) one_pos two_pos junk junk' he he' relates (fun q => folded _ 0 0) (by norm_num) (by norm_num)
    (by norm_num) (fun _ : Fin 1 => some ⟨1 / 3, 1 / 2, 0⟩) (by
      intro q u hu
      simp only [Option.mem_def, Option.some.injEq] at hu
      subst hu
      rw [hf]
      exact ⟨not_gamma _ _, not_gamma _ _, ⟨0, 0, 0⟩, by simp [castV]⟩) _ _ (fun _ => 3) one_pos (by norm_num)

end Ex

end Euphonic.PolarFold
