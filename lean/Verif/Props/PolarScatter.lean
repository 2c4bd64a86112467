import Verif.Props.PolarGrid
import Verif.Props.EquivalentVectors

/-!
# C173: structure factors of polar crystals

They do not depend on how the crystal is described, and are the same at wavevectors that a symmetry of the crystal moves into each
other, gamma points with a direction of approach included.
-/

set_option autoImplicit false
set_option linter.unusedSectionVars false

namespace Euphonic.PolarScatter

open Euphonic.Lattice Euphonic.Supercell Euphonic.Phases Euphonic.Images Euphonic.DynMat Euphonic.Reduced
open Euphonic.Commensurate Euphonic.Acoustic Euphonic.Scatter Euphonic.Describe Euphonic.Symmetry Euphonic.DebyeSym
open Euphonic.Dipole Euphonic.Poisson Euphonic.SiteSymmetry Euphonic.Dos Euphonic.EquivalentVectors

variable {n N N' nq nG nm : Nat} {d : Description n N} {d' : Description n N'} {h : Change n N N'}

/-! ## Specification -/

/-- The modes from the matrices `M`, one for each wavevector (as `Description.modes`, for other matrices). -/
noncomputable def modesBy (d : Description n N) (types : Fin n → String) (M : Fin nq → Mat n ℂ)
    (eigh : Mat n ℂ → (Fin (n * 3) → ℝ) × Mat n ℂ) (qs : Fin nq → V3 ℝ) (weights : Fin nq → ℝ) :
    Modes (d.cryst types) nq (n * 3) where
  qpts := fun q j => comp (qs q) j
  freqs := fun q s => freqOf ((eigh (M q)).1 s)
  evecs := fun q s k l => (eigh (M q)).2 s (row k l)
  weights := weights

/-- The modes of a polar crystal (complete long-range sums), at gamma points with the splitting for the direction `dirs q` if there is
one. -/
noncomputable def polarModes (d : Description n N) (types : Fin n → String) (born : Fin n → Fin 3 → Fin 3 → ℝ)
    (diel : Matrix (Fin 3) (Fin 3) ℝ) (erfc : ℝ → ℝ) (lam : ℝ) (images : List (V3 ℤ)) (junk : Fin N → Mat n ℝ)
    (eigh : Mat n ℂ → (Fin (n * 3) → ℝ) × Mat n ℂ) (qs : Fin nq → V3 ℝ) (dirs : Fin nq → Option (V3 ℝ)) (weights : Fin nq → ℝ) :
    Modes (d.cryst types) nq (n * 3) :=
  modesBy d types (fun q => d.polarComplete born diel erfc lam images junk (qs q) (dirs q)) eigh qs weights

/-! ## Structure factors from any matrices -/

theorem structure_factor_by (hr : h.Relates d d') {images images' : List (V3 ℤ)} (hok : d.Ok images)
    (hok' : d'.Ok images') {types types' : Fin n → String} (ht : ∀ i, types' (h.p i) = types i)
    {eigh eigh' : Mat n ℂ → (Fin (n * 3) → ℝ) × Mat n ℂ} (he : IsEigh eigh) (he' : IsEigh eigh') (qs : Fin nq → V3 ℝ)
    {M M' : Fin nq → Mat n ℂ} (hM : ∀ q, h.Carries (qs q) (M q) (M' q)) (hh : ∀ q k l, M q l k = star (M q k l))
    (weights weights' : Fin nq → ℝ) (data : String → Option ℂ) {dw dw' : Option DW} (hdw : h.CarriesDWOpt dw dw')
    {r r' : SF nq (n * 3)}
    (hsf : calculateStructureFactor (modesBy d types M eigh (fun q => h.back (qs q)) weights) data dw = .ok r)
    (hsf' : calculateStructureFactor (modesBy d' types' M' eigh' qs weights') data dw' = .ok r') (q : Fin nq) :
    r'.freqs q = r.freqs q ∧
    ∀ g : ℝ → ℝ, ∑ s, g (r'.freqs q s) * r'.sf q s = ∑ s, g (r.freqs q s) * r.sf q s := by
  obtain ⟨sl, f, hl, hf, rfl⟩ := sf_ok _ data dw r hsf
  obtain ⟨sl', f', hl', hf', rfl⟩ := sf_ok _ data dw' r' hsf'
  refine ⟨?_, fun g => ?_⟩
  · funext s
    change freqOf ((eigh' (M' q)).1 s) = freqOf ((eigh (M q)).1 s)
    rw [hr.evals (hM q) (hh q) he he']
  · simp only [sfTerm_amplitude]
    have hm : ∀ s k, (modesBy d types M eigh (fun q => h.back (qs q)) weights).evecs q s k.divNat k.modNat =
        (eigh (M q)).2 s k := by
      intro s k
      obtain ⟨i, a, rfl⟩ := exists_row_id k
      rw [row_div, row_mod]
      rfl
    have hm' : ∀ s k, (modesBy d' types' M' eigh' qs weights').evecs q s k.divNat k.modNat =
        (eigh' (M' q)).2 s k := by
      intro s k
      obtain ⟨i, a, rfl⟩ := exists_row_id k
      rw [row_div, row_mod]
      rfl
    simp only [hm, hm']
    refine (sum_sfValue (eigh' (M' q)) _ g).trans
      (Eq.trans ?_ (sum_sfValue (eigh (M q)) _ g).symm)
    congr 1
    have hph : ‖Complex.exp (Complex.I * 2 * Real.pi * (dot (qs q) h.w : ℝ))‖ = 1 := by
      have : Complex.I * 2 * Real.pi * (dot (qs q) h.w : ℝ) = ((2 * Real.pi * dot (qs q) h.w : ℝ) : ℂ) * Complex.I := by
        push_cast
        ring
      rw [this, Complex.norm_exp_ofReal_mul_I]
    rw [← quad_phase hph (spectral (eigh (M q)) _)]
    refine hr.quad (hr.spectral (hM q) (hh q) he he' _) ?_
    intro i a
    unfold amplitude
    have hQ : ∀ a, cartQ (modesBy d types M eigh (fun q => h.back (qs q)) weights) q a =
        comp (toCart (reciprocalCell (2 * Real.pi) d.cv) (h.back (qs q))) a :=
      fun a => cartQ_eq types images (fun _ _ _ => 0) eigh (fun q => h.back (qs q)) weights q a
    have hQ' : ∀ a, cartQ (modesBy d' types' M' eigh' qs weights') q a =
        comp (toCart (reciprocalCell (2 * Real.pi) d'.cv) (qs q)) a :=
      fun a => cartQ_eq types' images' (fun _ _ _ => 0) eigh' qs weights' q a
    have hP : expFactor (modesBy d' types' M' eigh' qs weights') q (h.p i) =
        Complex.exp (Complex.I * 2 * Real.pi * (dot (qs q) h.w : ℝ)) * expQR (qs q) (h.T i) *
          expFactor (modesBy d types M eigh (fun q => h.back (qs q)) weights) q i :=
      hr.phase types types' images images' (fun _ _ _ => 0) (fun _ _ _ => 0) eigh eigh' qs weights weights' q i
    have hW : f' q (h.p i) = f q i :=
      hr.dwFactors hok hok' types types' (fun _ _ _ => 0) (fun _ _ _ => 0) eigh eigh' qs weights weights' hdw hf hf' q i
    simp only [row_div, row_mod, hQ, hQ', hr.cartesian hok hok', comp_rotV]
    rw [hP, hW, show (d'.cryst types').mass (h.p i) = (d.cryst types).mass i from hr.masses i]
    have hsl : sl' (h.p i) = sl i := by
      rw [lookup_eq hl', lookup_eq hl]
      simp only [Description.cryst, ht]
    rw [hsl]
    push_cast
    rw [Finset.sum_mul, Finset.sum_mul]
    refine Finset.sum_congr rfl fun a' _ => ?_
    ring

/-! ## Debye-Waller exponents from any matrices -/

theorem dwContribution_by (types : Fin n → String) (M : Fin nq → Mat n ℂ)
    (eigh : Mat n ℂ → (Fin (n * 3) → ℝ) × Mat n ℂ) (qs : Fin nq → V3 ℝ) (weights : Fin nq → ℝ) (kB temp fmin : ℝ)
    (k : Fin n) (a b : Fin 3) (q : Fin nq) :
    dwContribution (modesBy d types M eigh qs weights) kB temp fmin k a b q = weights q * (1 / (4 * d.mass k)) *
      (spectral (eigh (M q)) (fun x => freqTerm kB temp fmin (freqOf x)) (row k a) (row k b)).re := by
  unfold dwContribution Describe.spectral
  rw [Complex.re_sum, Finset.mul_sum]
  refine Finset.sum_congr rfl fun s _ => ?_
  rw [Complex.re_ofReal_mul]
  simp only [modesBy, Description.cryst, Complex.star_def]
  ring

theorem debye_waller_by (hr : h.Relates d d') (types types' : Fin n → String)
    {eigh eigh' : Mat n ℂ → (Fin (n * 3) → ℝ) × Mat n ℂ} (he : IsEigh eigh) (he' : IsEigh eigh') (qs : Fin nq → V3 ℝ)
    {M M' : Fin nq → Mat n ℂ} (hM : ∀ q, h.Carries (qs q) (M q) (M' q)) (hh : ∀ q k l, M q l k = star (M q k l))
    (weights : Fin nq → ℝ) (chunk chunk' : Nat) (hc : 0 < chunk) (hc' : 0 < chunk') (kB temp fmin : ℝ) :
    h.CarriesDW
      (calculateDebyeWaller chunk (modesBy d types M eigh (fun q => h.back (qs q)) weights) kB temp fmin none).w
      (calculateDebyeWaller chunk' (modesBy d' types' M' eigh' qs weights) kB temp fmin none).w := by
  intro i a b
  simp only [calculateDebyeWaller, dwRaw, C28_chunking_irrelevant chunk hc, C28_chunking_irrelevant chunk' hc', ← Fin.sum_univ_def]
  have key : ∀ q, dwContribution (modesBy d' types' M' eigh' qs weights) kB temp fmin (h.p i) a b q =
      ∑ a', ∑ b', h.R a a' * h.R b b' *
        dwContribution (modesBy d types M eigh (fun q => h.back (qs q)) weights) kB temp fmin i a' b' q := by
    intro q
    simp only [dwContribution_by]
    rw [hr.spectral (hM q) (hh q) he he', hr.masses, Complex.re_sum, Finset.mul_sum]
    refine Finset.sum_congr rfl fun a' _ => ?_
    rw [Complex.re_sum, Finset.mul_sum]
    refine Finset.sum_congr rfl fun b' _ => ?_
    have e : ∀ z : ℂ, expQR (qs q) (h.T i) * (h.R a a' : ℂ) * z * star (expQR (qs q) (h.T i) * (h.R b b' : ℂ)) =
        ((h.R a a' * h.R b b' : ℝ) : ℂ) * z := by
      intro z
      rw [star_mul', Complex.star_def, Complex.conj_ofReal]
      have := norm_expQR (qs q) (h.T i)
      rw [Complex.star_def] at this
      push_cast
      linear_combination ((h.R a a' : ℂ) * h.R b b' * z) * this
    rw [e, Complex.re_ofReal_mul]
    ring
  simp only [key]
  simp only [div_eq_mul_inv, Finset.sum_mul, Finset.mul_sum]
  have hcomm : ∀ f : Fin nq → Fin 3 → Fin 3 → ℝ, ∑ q, ∑ a', ∑ b', f q a' b' = ∑ a', ∑ b', ∑ q, f q a' b' := by
    intro f
    rw [Finset.sum_comm]
    exact Finset.sum_congr rfl fun a' _ => Finset.sum_comm
  rw [hcomm]
  refine Finset.sum_congr rfl fun a' _ => Finset.sum_congr rfl fun b' _ => Finset.sum_congr rfl fun q _ => ?_
  simp only [modesBy]
  ring

/-! ## Polar crystals -/

section
variable {images images' : List (V3 ℤ)} (hok : d.Ok images) (hok' : d'.Ok images') {op : Fin N → Fin N} {t : Fin N → V3 ℤ}
  (hs : Symmetric d.cells d.S d.fc op t) {born born' : Fin n → Fin 3 → Fin 3 → ℝ} {diel diel' : Matrix (Fin 3) (Fin 3) ℝ}
  (ho : Sound (d.ions born diel)) {erfc : ℝ → ℝ} (herfc : IsErfc erfc) {lam lam' : ℝ} (hl : 0 < lam) (hl' : 0 < lam')
  (junk : Fin N → Mat n ℝ) (junk' : Fin N' → Mat n ℝ) {eigh eigh' : Mat n ℂ → (Fin (n * 3) → ℝ) × Mat n ℂ} (he : IsEigh eigh)
  (he' : IsEigh eigh')

include hok hok' ho herfc hl hl' in
theorem polar_carries_dir (hr : h.Relates d d') (hi : h.SameIons (d.ions born diel) (d'.ions born' diel')) (q : V3 ℝ)
    (dir : Option (V3 ℝ)) (hdir : ∀ v ∈ dir, isGamma (h.back v) = isGamma v ∧ ∃ K, q = castV ℝ K) :
    h.Carries q (d.polarComplete born diel erfc lam images junk (h.back q) (dir.map h.back))
      (d'.polarComplete born' diel' erfc lam' images' junk' q dir) := by
  unfold Description.polarComplete
  refine hr.weighted (hr.carries hok hok' junk junk' q) ?_ trivial ?_
  · exact C158_correction herfc hi ho hl hl' q
  · cases dir with
    | none => trivial
    | some v =>
      obtain ⟨h1, K, h2⟩ := hdir v rfl
      refine hi.gamma_carries ho.volume_pos (fun T => ?_) h1
      rw [h2, expQR_int]

include hok hok' hs ho herfc hl hl' he he' in
/-- **C173.** Structure factors of a polar crystal (complete long-range sums) do not depend on its description: the same frequencies,
and for every function of the frequency the same sum over modes; the parameters of the sums need not be the same.  Gamma points may
have a direction of approach, if it is not taken for a lattice vector in one of the descriptions only. -/
theorem C173_description (hr : h.Relates d d') (hi : h.SameIons (d.ions born diel) (d'.ions born' diel'))
    {types types' : Fin n → String} (ht : ∀ i, types' (h.p i) = types i) (qs : Fin nq → V3 ℝ) (dirs : Fin nq → Option (V3 ℝ))
    (hdir : ∀ q, ∀ v ∈ dirs q, isGamma (h.back v) = isGamma v ∧ ∃ K, qs q = castV ℝ K) (weights weights' : Fin nq → ℝ)
    (data : String → Option ℂ) {dw dw' : Option DW} (hdw : h.CarriesDWOpt dw dw') {r r' : SF nq (n * 3)}
    (hsf : calculateStructureFactor (polarModes d types born diel erfc lam images junk eigh (fun q => h.back (qs q))
      (fun q => (dirs q).map h.back) weights) data dw = .ok r)
    (hsf' : calculateStructureFactor (polarModes d' types' born' diel' erfc lam' images' junk' eigh' qs dirs weights') data dw' =
      .ok r') (q : Fin nq) :
    r'.freqs q = r.freqs q ∧
    ∀ g : ℝ → ℝ, ∑ s, g (r'.freqs q s) * r'.sf q s = ∑ s, g (r.freqs q s) * r.sf q s :=
  structure_factor_by hr hok hok' ht he he' qs
    (fun q => polar_carries_dir hok hok' ho herfc hl hl' junk junk' hr hi (qs q) (dirs q) (hdir q))
    (fun _ => Folding.polarComplete_herm hok hs ho erfc lam junk _ _) weights weights' data hdw hsf hsf' q

include hok hok' hs ho herfc hl hl' he he' in
/-- **C173.** Debye-Waller exponents of a polar crystal do not depend on its description (up to the rotation of the axes). -/
theorem C173_debye_waller (hr : h.Relates d d') (hi : h.SameIons (d.ions born diel) (d'.ions born' diel'))
    (types types' : Fin n → String) (qs : Fin nq → V3 ℝ) (dirs : Fin nq → Option (V3 ℝ))
    (hdir : ∀ q, ∀ v ∈ dirs q, isGamma (h.back v) = isGamma v ∧ ∃ K, qs q = castV ℝ K) (weights : Fin nq → ℝ)
    (chunk chunk' : Nat) (hc : 0 < chunk) (hc' : 0 < chunk') (kB temp fmin : ℝ) :
    h.CarriesDW
      (calculateDebyeWaller chunk (polarModes d types born diel erfc lam images junk eigh (fun q => h.back (qs q))
        (fun q => (dirs q).map h.back) weights) kB temp fmin none).w
      (calculateDebyeWaller chunk' (polarModes d' types' born' diel' erfc lam' images' junk' eigh' qs dirs weights)
        kB temp fmin none).w :=
  debye_waller_by hr types types' he he' qs
    (fun q => polar_carries_dir hok hok' ho herfc hl hl' junk junk' hr hi (qs q) (dirs q) (hdir q))
    (fun _ => Folding.polarComplete_herm hok hs ho erfc lam junk _ _) weights chunk chunk' hc hc' kB temp fmin

end

/-! ## Wavevectors that a symmetry moves into each other -/

/-- The exponents: none, or those of any modes of the crystal at any temperature, symmetrised. -/
inductive AnyExponents (d : Description n N) (types : Fin n → String) (tol : ℝ) (ops : List (Op ℝ)) : Option DW → Prop
  | none : AnyExponents d types tol ops none
  | symmetrised {nG nm : Nat} (m : Modes (d.cryst types) nG nm) (chunk : Nat) (kB temp fmin : ℝ) (w : DW)
      (h : debyeWaller d.cv d.r tol (some ops) chunk m kB temp fmin true = .ok w) : AnyExponents d types tol ops (some w)

section
variable {types : Fin n → String} {tol : ℝ} {ops : List (Op ℝ)} {g : Fin ops.length → Change n N N}
  (hg : SymmetryGroup d types tol ops g) {images : List (V3 ℤ)} (hok : d.Ok images) {op : Fin N → Fin N} {t : Fin N → V3 ℤ}
  (hs : Symmetric d.cells d.S d.fc op t) {born : Fin n → Fin 3 → Fin 3 → ℝ} {diel : Matrix (Fin 3) (Fin 3) ℝ}
  (ho : Sound (d.ions born diel)) (hd : ∀ s, CarryR (g s).R (fun a b => diel a b) (fun a b => diel a b))
  (hb : ∀ s i, CarryR (g s).R (born i) (born ((g s).p i))) {erfc : ℝ → ℝ} (herfc : IsErfc erfc) {lam lam' : ℝ} (hl : 0 < lam)
  (hl' : 0 < lam') (junk junk' : Fin N → Mat n ℝ) {eigh eigh' : Mat n ℂ → (Fin (n * 3) → ℝ) × Mat n ℂ} (he : IsEigh eigh)
  (he' : IsEigh eigh') {dw : Option DW} (hw : AnyExponents d types tol ops dw)

include hg hok hw in
theorem carries_any (s : Fin ops.length) : (g s).CarriesDWOpt dw dw := by
  cases hw with
  | none => trivial
  | symmetrised m chunk kB temp fmin w hw =>
    obtain ⟨u, h1, h2⟩ := C167_equivalent_atoms (symmetries_of_group hg hok) chunk m kB temp fmin
    rw [hw] at h1
    injection h1 with h1
    subst h1
    refine ⟨rfl, rfl, fun i a b => ?_⟩
    refine (h2 s _ i _ (cartesian_of_genuine (hg.genuine s)) (takes_of_genuine (hg.genuine s) i) a b).trans ?_
    refine Finset.sum_congr rfl fun a' _ => Finset.sum_congr rfl fun b' _ => ?_
    rw [mul_assoc, mul_comm (u i a' b'), ← mul_assoc]
    rfl

include hg hok hs ho hd hb herfc hl hl' he he' hw

/-- **C173.** Wavevectors that a symmetry of the polar crystal moves into each other have the same frequencies and the same structure
factors (summed over modes with any function of the frequency); at gamma points the direction of approach is moved along. -/
theorem C173_equivalent (s : Fin ops.length) (Qs : Fin nq → V3 ℝ) (dirs : Fin nq → Option (V3 ℝ))
    (hdir : ∀ q, ∀ v ∈ dirs q, isGamma (unrotated ops[s] v) = isGamma v ∧ ∃ K, Qs q = castV ℝ K) (weights weights' : Fin nq → ℝ)
    (data : String → Option ℂ) {r : SF nq (n * 3)}
    (hsf : calculateStructureFactor (polarModes d types born diel erfc lam images junk eigh Qs dirs weights) data dw = .ok r) :
    ∃ r', calculateStructureFactor (polarModes d types born diel erfc lam' images junk' eigh' (fun q => unrotated ops[s] (Qs q))
        (fun q => (dirs q).map (unrotated ops[s])) weights') data dw = .ok r' ∧
      ∀ q, r'.freqs q = r.freqs q ∧
        ∀ f : ℝ → ℝ, ∑ m, f (r'.freqs q m) * r'.sf q m = ∑ m, f (r.freqs q m) * r.sf q m := by
  obtain ⟨r', hr'⟩ := sf_exists (m' := polarModes d types born diel erfc lam' images junk' eigh' (fun q => unrotated ops[s] (Qs q))
        (fun q => (dirs q).map (unrotated ops[s])) weights') hsf
  refine ⟨r', hr', fun q => ?_⟩
  have e : unrotated ops[s] = (g s).back := funext fun v => (unrotated_eq (hg.genuine s) v).symm
  rw [e] at hr' hdir
  obtain ⟨h1, h2⟩ := C173_description hok hok hs ho herfc hl' hl junk' junk he' he (hg.genuine s).relates
    ((hg.genuine s).relates.sameIons ho.volume_pos (hd s) (hb s)) (hg.genuine s).types Qs dirs hdir weights' weights data
    (carries_any hg hok hw s) hr' hsf q
  exact ⟨h1.symm, fun f => (h2 f).symm⟩

/-- **C173.** So are their maps, bin by bin. -/
theorem C173_sqw_map (s : Fin ops.length) (Qs : Fin nq → V3 ℝ) (dirs : Fin nq → Option (V3 ℝ))
    (hdir : ∀ q, ∀ v ∈ dirs q, isGamma (unrotated ops[s] v) = isGamma v ∧ ∃ K, Qs q = castV ℝ K) (weights weights' : Fin nq → ℝ)
    (data : String → Option ℂ) {r r' : SF nq (n * 3)}
    (hsf : calculateStructureFactor (polarModes d types born diel erfc lam images junk eigh Qs dirs weights) data dw = .ok r)
    (hsf' : calculateStructureFactor (polarModes d types born diel erfc lam' images junk' eigh' (fun q => unrotated ops[s] (Qs q))
        (fun q => (dirs q).map (unrotated ops[s])) weights') data dw = .ok r')
    (kB c sfConv : ℝ) (hc : 0 < c) (b : List ℝ) (hbins : b.Pairwise (· < ·)) (calcBose : Bool) (given T : Option ℝ)
    (hT : usedTemperature calcBose r.temperature given = .ok T)
    (hz : ∀ t, T = some t → 0 < t → ∀ q m, Real.exp (|r.freqs q m| / (kB * t)) ≠ 1) :
    ∃ rows, calculateSqwMap Real.exp kB c sfConv b calcBose r.temperature given r.freqs r.sf = .ok rows ∧
      calculateSqwMap Real.exp kB c sfConv b calcBose r'.temperature given r'.freqs r'.sf = .ok rows := by
  obtain ⟨r'', h1, h2⟩ := C173_equivalent hg hok hs ho hd hb herfc hl hl' junk junk' he he' hw s Qs dirs hdir weights weights' data hsf
  rw [hsf'] at h1
  injection h1 with h1
  subst h1
  refine sqw_map_congr ?_ h2 kB c sfConv hc b hbins calcBose given T hT hz
  obtain ⟨_, _, _, _, rfl⟩ := sf_ok _ data dw r hsf
  obtain ⟨_, _, _, _, rfl⟩ := sf_ok _ data dw r' hsf'
  rfl

end

/-! ## A case -/

namespace Ex

open Euphonic.DebyeSym.Ex Euphonic.EquivalentVectors.Ex Euphonic.PolarGrid.Ex

theorem gamma_half (x y z : ℝ) : isGamma (⟨x, -y, -z⟩ : V3 ℝ) = isGamma ⟨x, y, z⟩ := by
  have e : ∀ y : ℝ, |-y - (rint (-y) : ℝ)| = |y - rint y| := by
    intro y
    rw [rint_neg, Int.cast_neg, ← abs_neg]
    congr 1
    ring
  unfold isGamma
  rw [decide_eq_decide]
  simp only [sumAbs, rem, e]

/-- The polar chain at two wavevectors that a half turn exchanges, and at a reciprocal lattice vector, approached from two directions
that it exchanges; with the symmetrised exponents of some other wavevector. -/
example (junk : Fin 2 → Mat 2 ℝ) {eigh : Mat 2 ℂ → (Fin (2 * 3) → ℝ) × Mat 2 ℂ} (he : IsEigh eigh) (kB : ℝ) :
    ∃ (w : DW) (r r' : SF 2 (2 * 3)),
      debyeWaller Describe.Ex.d.cv Describe.Ex.d.r (1 / 1000) (some DebyeSym.Ex.ops) 1000 (polarModes Describe.Ex.d DebyeSym.Ex.types
        Describe.Ex.born Describe.Ex.diel erfc0 1 shells2 junk eigh (fun _ : Fin 1 => ⟨1 / 4, 1 / 5, 1 / 6⟩) (fun _ => none)
        fun _ => 1) kB 300 0 true = .ok w ∧
      calculateStructureFactor (polarModes Describe.Ex.d DebyeSym.Ex.types Describe.Ex.born Describe.Ex.diel erfc0 1 shells2 junk eigh
        ![⟨1 / 5, 1 / 3, 1 / 7⟩, ⟨1, 1, 1⟩] ![none, some ⟨0, 1 / 4, 0⟩] fun _ => 1) (fun _ => some 1) (some w) = .ok r ∧
      calculateStructureFactor (polarModes Describe.Ex.d DebyeSym.Ex.types Describe.Ex.born Describe.Ex.diel erfc0 2 shells2 junk eigh
        ![⟨1 / 5, -1 / 3, -1 / 7⟩, ⟨1, -1, -1⟩] ![none, some ⟨0, -1 / 4, 0⟩] fun _ => 1) (fun _ => some 1) (some w) = .ok r' ∧
      ∀ q, ∑ m, r'.sf q m = ∑ m, r.sf q m := by
  obtain ⟨w, h1, -⟩ := C167_equivalent_atoms (symmetries_of_group crystal Describe.Ex.ok) 1000 (polarModes Describe.Ex.d
    DebyeSym.Ex.types Describe.Ex.born Describe.Ex.diel erfc0 1 shells2 junk eigh (fun _ : Fin 1 => ⟨1 / 4, 1 / 5, 1 / 6⟩)
    (fun _ => none) fun _ => 1) kB 300 0
  have h2 : ∃ r, calculateStructureFactor (polarModes Describe.Ex.d DebyeSym.Ex.types Describe.Ex.born Describe.Ex.diel erfc0 1 shells2
      junk eigh ![⟨1 / 5, 1 / 3, 1 / 7⟩, ⟨1, 1, 1⟩] ![none, some ⟨0, 1 / 4, 0⟩] fun _ => 1) (fun _ => some 1)
      (some ⟨2, w, 300⟩) = .ok r := by
    unfold calculateStructureFactor
    simp [lookupAll, dwFactors, bind, Except.bind, pure, Except.pure]
  obtain ⟨r, hr⟩ := h2
  obtain ⟨r', h3, h4⟩ := C173_equivalent crystal Describe.Ex.ok Describe.Ex.symmetric Describe.Ex.sound carries_diel carries_born
    isErfc_erfc0 one_pos two_pos junk junk he he (.symmetrised _ _ _ _ _ _ h1) (1 : Fin 2) _ _ (by
      intro q v hv
      fin_cases q
      · simp at hv
      · simp only [Fin.mk_one, Matrix.cons_val_one, Matrix.cons_val_fin_one, Option.mem_def, Option.some.injEq] at hv
        subst hv
        refine ⟨?_, ⟨1, 1, 1⟩, by simp [castV]⟩
        have e : unrotated (DebyeSym.Ex.ops[(1 : Fin 2)]) (⟨0, 1 / 4, 0⟩ : V3 ℝ) = ⟨0, -(1 / 4), -0⟩ := by
          simp [DebyeSym.Ex.ops, unrotated]
        exact (congrArg isGamma e).trans (gamma_half _ _ _)) _ (fun _ => 1) _ hr
  refine ⟨_, r, r', h1, hr, ?_, fun q => by simpa using (h4 q).2 fun _ => 1⟩
  rw [← h3]
  congr 2
  · funext q
    fin_cases q <;> simp [DebyeSym.Ex.ops, unrotated, neg_div]
  · funext q
    fin_cases q <;> simp [DebyeSym.Ex.ops, unrotated, neg_div]

/-- The polar chain in two cells: the exponents of each, and the structure factors calculated with them, at any wavevectors. -/
example (junk junk' : Fin 2 → Mat 2 ℝ) {eigh eigh' : Mat 2 ℂ → (Fin (2 * 3) → ℝ) × Mat 2 ℂ} (he : IsEigh eigh) (he' : IsEigh eigh')
    (grid : Fin 3 → V3 ℝ) (qs : Fin nq → V3 ℝ) (kB : ℝ) {r r' : SF nq (2 * 3)}
    (hr : calculateStructureFactor (polarModes Describe.Ex.d !["Na", "Cl"] Describe.Ex.born Describe.Ex.diel erfc0 1 shells2 junk eigh
      (fun q => Describe.Ex.shear.back (qs q)) (fun _ => none) 1) (fun _ => some 1)
      (some (calculateDebyeWaller 5 (polarModes Describe.Ex.d !["Na", "Cl"] Describe.Ex.born Describe.Ex.diel erfc0 1 shells2 junk eigh
        (fun q => Describe.Ex.shear.back (grid q)) (fun _ => none) 1) kB 300 0 none)) = .ok r)
    (hr' : calculateStructureFactor (polarModes Describe.Ex.dSheared !["Na", "Cl"] Describe.Ex.born Describe.Ex.diel erfc0 2 shells2
      junk' eigh' qs (fun _ => none) 1) (fun _ => some 1)
      (some (calculateDebyeWaller 1 (polarModes Describe.Ex.dSheared !["Na", "Cl"] Describe.Ex.born Describe.Ex.diel erfc0 2 shells2
        junk' eigh' grid (fun _ => none) 1) kB 300 0 none)) = .ok r') (q : Fin nq) : r'.freqs q = r.freqs q := by
  have hs : Describe.Ex.shear.SameIons (Describe.Ex.d.ions Describe.Ex.born Describe.Ex.diel)
      (Describe.Ex.dSheared.ions Describe.Ex.born Describe.Ex.diel) := by
    refine Describe.Ex.relates_shear.sameIons ?_ ?_ ?_
    · simp [Describe.Ex.dSheared, cellVolume, dot, cross]
    · intro a b
      fin_cases a <;> fin_cases b <;> simp [Describe.Ex.shear]
    · intro i a b
      fin_cases a <;> fin_cases b <;> simp [Describe.Ex.shear]
  have hw := C173_debye_waller Describe.Ex.ok Describe.Ex.ok_shear Describe.Ex.symmetric Describe.Ex.sound isErfc_erfc0 one_pos two_pos
    junk junk' he he' Describe.Ex.relates_shear hs !["Na", "Cl"] !["Na", "Cl"] grid (fun _ => none) (by simp) 1 5 1
    (by norm_num) (by norm_num) kB 300 0
  refine (C173_description Describe.Ex.ok Describe.Ex.ok_shear Describe.Ex.symmetric Describe.Ex.sound isErfc_erfc0 one_pos two_pos
    junk junk' he he' Describe.Ex.relates_shear hs (fun i => by fin_cases i <;> simp [Describe.Ex.shear]) qs (fun _ => none) (by simp)
    1 1 (fun _ => some 1) ?_ hr hr' q).1
  exact ⟨rfl, rfl, hw⟩

end Ex

end Euphonic.PolarScatter
