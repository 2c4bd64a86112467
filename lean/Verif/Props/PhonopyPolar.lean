import Verif.Props.PhonopyExact
import Verif.Props.TotalExact

/-!
# From a Phonopy file of a polar crystal to modes (C166)

With Born charges in the file, `ForceConstants.from_phonopy` subtracts the dipole term, and the calculation of modes adds that
of the infinite crystal.  At wavevectors that fit into the supercell the result is still that of the force constants written in
the file.
-/

set_option autoImplicit false
set_option linter.unusedSectionVars false

namespace Euphonic.PhonopyPolar

open Euphonic.Lattice Euphonic.Phonopy Euphonic.PhonopyFc Euphonic.Phases Euphonic.DynMat Euphonic.Commensurate
open Euphonic.Dipole Euphonic.Poisson Euphonic.TotalFc Euphonic.TotalExact Euphonic.PhonopyExact
open Euphonic.Describe (row row_div row_mod sum_rows)

variable {K : Type} [Field K] [LinearOrder K] [IsStrictOrderedRing K] [FloorRing K]

/-! ## Model -/

/-- The arguments with which `from_phonopy` calls `from_total_fc_with_dipole` (euphonic/force_constants.py:1880-1883).  The
data are read in atomic units (`o` of `readInterpolation`), those the object keeps; the unit of the permittivity that
`read_interpolation_data` is asked for by default is the atomic one. -/
noncomputable def argsOf (ι : K →+* ℝ) (out : Data K) (b : List (M3 K)) (e : M3 K) : Args out.nc out.nu where
  cv := cellOf ι out
  r := positions ι out
  fc := matrices ι out
  fcUnit := 1
  S := out.S
  cells := out.sc.cells
  born := fun i a c => ι (elem (b.getD i.val ⟨⟨0, 0, 0⟩, ⟨0, 0, 0⟩, ⟨0, 0, 0⟩⟩) a c)
  bornUnit := 1
  diel := fun a c => ι (elem e a c)
  dielUnit := 1

/-- `ForceConstants.from_phonopy` (euphonic/force_constants.py:1875-1884): the force constants of the object.  Charges without
dielectric tensor are an `AttributeError` of the constructor (euphonic/force_constants.py:111-116), a wrong number of charges
is its `ValueError` (euphonic/force_constants.py:97-102). -/
noncomputable def fromPhonopy (erfc : ℝ → ℝ) (ι : K →+* ℝ) (out : Data K) : Except Err (Fin out.nc → Mat out.nu ℝ) :=
  match out.born, out.dielectric with
  | none, _ => .ok (matrices ι out)
  | some b, d =>
    if b.length ≠ out.nu then .error .valueError
    else match d with
      | some e => fromTotal erfc (argsOf ι out b e)
      | none => .error .attributeError

/-! ## Theorems -/

/-- **C166** What is returned: without charges the force constants as read, with charges those less the dipole term. -/
theorem C166_returns (erfc : ℝ → ℝ) (ι : K →+* ℝ) (out : Data K) :
    (out.born = none → fromPhonopy erfc ι out = .ok (matrices ι out)) ∧
    ∀ b e, out.born = some b → out.dielectric = some e → b.length = out.nu → ∀ c0, Polar (argsOf ι out b e) c0 →
      ∃ fc', fromPhonopy erfc ι out = .ok fc' ∧ ∀ c k l, fc' c k l = matrices ι out c k l -
        (dipoleCorrection erfc (scIons (argsOf ι out b e)) (upperLambda (scIons (argsOf ι out b e)) 1) ⟨0, 0, 0⟩
          (scIndex c l) (scIndex c0 k)).re := by
  refine ⟨fun h => ?_, fun b e hb he hl c0 hx => ?_⟩
  · unfold fromPhonopy
    rw [h]
  · refine ⟨without (argsOf ι out b e) c0 (dipoleCorrection erfc (scIons (argsOf ι out b e))
      (upperLambda (scIons (argsOf ι out b e)) 1) ⟨0, 0, 0⟩), ?_, fun c k l => ?_⟩
    · unfold fromPhonopy
      rw [hb, he]
      simp only [ne_eq, hl, not_true, if_false]
      exact fromTotal_eq erfc (argsOf ι out b e) hx
    · simp [without, argsOf]

section
variable (u : Ureg K) (o : OutUnits K) {fmax thr : K} (d : Doc K) (fs : Files K) (out : Data K)
  (h : readInterpolation u o fmax thr d fs = .ok out) {nu ns : Nat} {rep : Fin (nu + 1) → Fin (ns + 1)}
  {kind : Fin (ns + 1) → Fin (nu + 1)} (L : Layout d rep kind) (F : Fin (ns + 1) → Fin (ns + 1) → M3 K)
  (fc : List (List (M3 K))) (hfc : d.fc = some fc) (hF : Written rep F fc)
  (hn : Supercell.Numeric d.S fmax thr 100) (ha : Apart d) (O : Fin (ns + 1) → V3 ℤ) (hO : Copies d kind (1 / 4) O)
  (ι : K →+* ℝ) {b : List (M3 K)} {e : M3 K} {c0 : Fin out.nc} (hx : Polar (argsOf ι out b e) c0) {erfc : ℝ → ℝ}
  (herfc : IsErfc erfc)

/-- The dynamical matrix with the dipole term from complete sums, of force constants from which it has been subtracted. -/
noncomputable def completeMatrix (erfc : ℝ → ℝ) (b : List (M3 K)) (e : M3 K) (c0 : Fin out.nc) (lam lam' : ℝ)
    (images : List (V3 ℤ)) (junk : Fin out.nc → Mat out.nu ℝ) (q : V3 ℝ) : Mat out.nu ℂ :=
  weighted (massWeighting (masses ι out)) (fcDynMat (cellOf ι out) (positions ι out) out.sc.cells c0 out.S images
      (without (argsOf ι out b e) c0 (completeCorrection erfc (scIons (argsOf ι out b e)) lam' ⟨0, 0, 0⟩)) junk q)
    (some (completeCorrection erfc (crystal (argsOf ι out b e)) lam q)) none none

include hx herfc in
/-- With complete sums the matrix is that of the force constants as read. -/
theorem completeMatrix_eq (hS : out.S = d.S) {lam lam' : ℝ} (hl : 0 < lam) (hl' : 0 < lam') (images : List (V3 ℤ))
    (hok : ReducedSupercell (cellOf ι out) (positions ι out) out.sc.cells c0 d.S images)
    (junk : Fin out.nc → Mat out.nu ℝ) (q : V3 ℝ) (hq : Fits d.S q) :
    completeMatrix out ι erfc b e c0 lam lam' images junk q = weighted (massWeighting (masses ι out))
      (fcDynMat (cellOf ι out) (positions ι out) out.sc.cells c0 d.S images (matrices ι out) junk q) none none none := by
  have := C165_matrix_partial herfc (argsOf ι out b e) hx hl hl' images (by simpa only [argsOf, hS] using hok) junk q
    (by simpa only [argsOf, hS] using hq) (massWeighting (masses ι out))
  unfold completeMatrix
  simp only [argsOf, one_mul, hS] at this ⊢
  exact this

include h L hfc hF hn ha hO hx herfc in
/-- **C166** (partial: for symmetric supercell matrices and reduced supercells, with complete sums) A mode at a wavevector that
fits into the supercell is a normal mode of the supercell of the file: if all its atoms are displaced along the mode, the force
on each of them, with the force constants and masses written in the file, is `-w^2 m u`. -/
theorem C166_all_atoms_partial (hP : Periodic d.S rep kind O F) (hnu : out.nu = nu + 1) {lam lam' : ℝ} (hl : 0 < lam)
    (hl' : 0 < lam') (images : List (V3 ℤ))
    (hok : ReducedSupercell (cellOf ι out) (positions ι out) out.sc.cells c0 d.S images)
    (junk : Fin out.nc → Mat out.nu ℝ) (q : V3 ℝ) (hq : Fits d.S q) (hm : ∀ j, j < nu + 1 → 0 < ι (massOf u o d j))
    (ev : Fin (out.nu * 3) → ℂ) (v : ℂ)
    (he : ∀ k, ∑ l, completeMatrix out ι erfc b e c0 lam lam' images junk q k l * ev l = v * ev k) (k : Fin (ns + 1))
    (a : Fin 3) :
    ∑ k', ∑ b, (ι (forceOf u o d (F k k') a b) : ℂ) * displacement (kind := kind) u o d O ι hnu q ev k' b =
      v * (ι (massOf u o d (kind k).val) : ℝ) * displacement (kind := kind) u o d O ι hnu q ev k a := by
  obtain ⟨_, _, _, hS, _, _⟩ := C141_crystal u o d fs out h fc hfc
  rw [completeMatrix_eq d out ι hx herfc hS hl hl' images hok junk q hq] at he
  exact C164_all_atoms_partial u o d fs out h L F fc hfc hF hn ha O hO ι hP hnu c0 images hok junk q hq hm ev v he k a

include h L hfc hF hn ha hO hx herfc in
/-- **C166** (partial: as above) If the force constants of the file are periodic and reciprocal and no displacement of the atoms
of its supercell lowers the energy, no frequency at a wavevector that fits is imaginary. -/
theorem C166_stable_partial (hP : Periodic d.S rep kind O F) (hR : Reciprocal F)
    (hE : ∀ w, 0 ≤ energyOf (fun k k' a b => ι (forceOf u o d (F k k') a b)) w)
    (hm : ∀ j, j < nu + 1 → 0 < ι (massOf u o d j)) {lam lam' : ℝ} (hl : 0 < lam) (hl' : 0 < lam') (images : List (V3 ℤ))
    (hok : ReducedSupercell (cellOf ι out) (positions ι out) out.sc.cells c0 d.S images)
    (junk : Fin out.nc → Mat out.nu ℝ) (q : V3 ℝ) (hq : Fits d.S q)
    {eigh : (Fin (out.nu * 3) → Fin (out.nu * 3) → ℂ) →
      (Fin (out.nu * 3) → ℝ) × (Fin (out.nu * 3) → Fin (out.nu * 3) → ℂ)} (he : IsEigh eigh) (s : Fin (out.nu * 3)) :
    0 ≤ freqOf ((eigh (completeMatrix out ι erfc b e c0 lam lam' images junk q)).1 s) := by
  obtain ⟨_, _, _, hS, _, _⟩ := C141_crystal u o d fs out h fc hfc
  rw [completeMatrix_eq d out ι hx herfc hS hl hl' images hok junk q hq]
  exact C164_stable_partial u o d fs out h L F fc hfc hF hn ha O hO ι hP hR hE hm c0 images hok junk q hq he s

include h L hfc hF hn ha hO hx herfc in
/-- **C166** (partial: as above) The code's own sums: the dynamical matrix between two atoms, dipole term included, differs from
the sum over the copies of the second in the supercell of the file, force constants of the file times phases, at most by
what the sums for the wavevector and (for each cell) those for the supercell leave out. -/
theorem C166_code_partial (hb : out.born = some b) (he : out.dielectric = some e) (hlen : b.length = out.nu)
    (hnu : out.nu = nu + 1) {lam : ℝ} (hl : 0 < lam) (images : List (V3 ℤ))
    (hok : ReducedSupercell (cellOf ι out) (positions ι out) out.sc.cells c0 d.S images)
    (junk : Fin out.nc → Mat out.nu ℝ) (q : V3 ℝ) (hq : Fits d.S q) {ε ε' : ℝ}
    (hε : ∀ k l, ‖dipoleCorrection erfc (crystal (argsOf ι out b e)) lam q k l -
      completeCorrection erfc (crystal (argsOf ι out b e)) lam q k l‖ ≤ ε)
    (hε' : ∀ k l, ‖dipoleCorrection erfc (scIons (argsOf ι out b e)) (upperLambda (scIons (argsOf ι out b e)) 1) ⟨0, 0, 0⟩ k l -
      completeCorrection erfc (scIons (argsOf ι out b e)) (upperLambda (scIons (argsOf ι out b e)) 1) ⟨0, 0, 0⟩ k l‖ ≤ ε') :
    ∃ fc', fromPhonopy erfc ι out = .ok fc' ∧ ∀ (i j : Fin (nu + 1)) (a b' : Fin 3),
      ‖fcDynMat (cellOf ι out) (positions ι out) out.sc.cells c0 d.S images fc' junk q
          (row (i.cast hnu.symm) a) (row (j.cast hnu.symm) b') +
        dipoleCorrection erfc (crystal (argsOf ι out b e)) lam q (row (i.cast hnu.symm) a) (row (j.cast hnu.symm) b') -
        ∑ k with kind k = j, (ι (forceOf u o d (F (rep i) k) a b') : ℂ) * expQR q (Lattice.sub (O k) (O (rep i)))‖ ≤
      ε + out.nc * ε' := by
  obtain ⟨_, _, _, hS, _, _⟩ := C141_crystal u o d fs out h fc hfc
  obtain ⟨fc', h1, h2⟩ := C165_code_partial herfc (argsOf ι out b e) hx hl images
    (by simpa only [argsOf, hS] using hok) junk q (by simpa only [argsOf, hS] using hq) hε hε'
  refine ⟨fc', ?_, fun i j a b' => ?_⟩
  · unfold fromPhonopy
    rw [hb, he]
    simp only [ne_eq, hlen, not_true, if_false]
    exact h1
  · have h3 := h2 (row (i.cast hnu.symm) a) (row (j.cast hnu.symm) b')
    have h4 : TotalExact.fourier (argsOf ι out b e) q (row (i.cast hnu.symm) a) (row (j.cast hnu.symm) b') =
        ∑ k with kind k = j, (ι (forceOf u o d (F (rep i) k) a b') : ℂ) * expQR q (Lattice.sub (O k) (O (rep i))) := by
      rw [← C164_fourier_partial u o d fs out h L F fc hfc hF hn ha O hO ι hnu c0 images hok junk q hq i j a b',
        C129_exact_partial _ _ _ _ _ _ hok _ _ _ hq]
      unfold TotalExact.fourier
      simp only [argsOf, one_mul]
    rw [h4] at h3
    simp only [argsOf, one_mul, hS] at h3 ⊢
    exact h3

end

/-! ## Example: the crystal of `PhonopyExact.Ex` with charges and a dielectric tensor -/

namespace Ex

open Euphonic.PhonopyFc.Ex (doc rep kind blk reg unitsOut files)
open Euphonic.PhonopyExact.Ex (springs O)

/-- A multiple of the identity. -/
def diag (x : ℚ) : M3 ℚ := ⟨⟨x, 0, 0⟩, ⟨0, x, 0⟩, ⟨0, 0, x⟩⟩

/-- The file. -/
def d : Doc ℚ := { doc (1 / 4) springs with nac := some ⟨some (1 / 2), some [diag 3, diag (-3)], some (diag 2)⟩ }

theorem layout : Layout d rep kind where
  primitive := rfl
  supercell := rfl
  increasing := by decide
  kind_rep := by decide
  first := by decide
  reduced := fun k => by fin_cases k <;> rfl

theorem apart : Apart d := PhonopyExact.Ex.apart

theorem numeric : Supercell.Numeric d.S (1000 : ℚ) (16 / 2 ^ 52) 100 := PhonopyExact.Ex.numeric

/-- Cell vectors, atoms, cells, charges and dielectric tensor of the result. -/
def summary : Option ((List (V3 ℚ) × List (V3 ℤ)) × (Option (List (M3 ℚ)) × Option (M3 ℚ))) :=
  (readInterpolation reg unitsOut 1000 (16 / 2 ^ 52) d files).toOption.map fun out =>
    ((out.cell.a :: out.cell.b :: out.cell.c :: out.r, ⟨out.nu, 0, 0⟩ :: (List.finRange out.nc).map out.sc.cells),
      (out.born, out.dielectric))

/-- The file is read, and the data are as the theorems require. -/
theorem read : ∃ out, readInterpolation reg unitsOut 1000 (16 / 2 ^ 52) d files = .ok out ∧ out.nu = 2 ∧
    out.born = some [diag 3, diag (-3)] ∧ out.dielectric = some (diag 4) ∧
    ∃ c0, Polar (argsOf (Rat.castHom ℝ) out [diag 3, diag (-3)] (diag 4)) c0 ∧
      ReducedSupercell (cellOf (Rat.castHom ℝ) out) (positions (Rat.castHom ℝ) out) out.sc.cells c0 d.S Reduced.shells2 := by
  have hr : summary =
      some (([⟨2, 0, 0⟩, ⟨0, 3, 0⟩, ⟨0, 0, 4⟩, ⟨0, 0, 0⟩, ⟨1 / 4, 0, 0⟩], [⟨2, 0, 0⟩, ⟨0, 0, 0⟩, ⟨1, 0, 0⟩]),
        (some [diag 3, diag (-3)], some (diag 4))) := by
    decide +kernel
  unfold summary at hr
  cases hout : readInterpolation reg unitsOut 1000 (16 / 2 ^ 52) d files with
  | error e => rw [hout] at hr; cases hr
  | ok out =>
    rw [hout] at hr
    simp only [Except.toOption, Option.map_some, Option.some.injEq, Prod.mk.injEq] at hr
    obtain ⟨⟨hq, hz⟩, hborn, hdiel⟩ := hr
    obtain ⟨ha, hq⟩ := List.cons.inj hq
    obtain ⟨hb, hq⟩ := List.cons.inj hq
    obtain ⟨hc, hrr⟩ := List.cons.inj hq
    obtain ⟨hnu, hcells⟩ := List.cons.inj hz
    have hnu : out.nu = 2 := by have := congrArg V3.x hnu; dsimp only at this; omega
    have hnc : out.nc = 2 := by have := congrArg List.length hcells; simpa using this
    have hS : out.S = d.S := (C141_crystal _ _ _ _ out hout _ rfl).2.2.2.1
    have hcv : cellOf (Rat.castHom ℝ) out = ⟨⟨2, 0, 0⟩, ⟨0, 3, 0⟩, ⟨0, 0, 4⟩⟩ := by
      unfold cellOf
      rw [ha, hb, hc]
      simp
    have hsv : Images.scVecs d.S (cellOf (Rat.castHom ℝ) out) = ⟨⟨4, 0, 0⟩, ⟨0, 3, 0⟩, ⟨0, 0, 4⟩⟩ := by
      rw [hcv]
      simp [Images.scVecs, d, doc, toCart, Images.castV]
      norm_num
    have hcs : ∀ c, out.sc.cells c = ⟨(c.val : ℤ), 0, 0⟩ := by
      intro c
      have h1 : ((List.finRange out.nc).map out.sc.cells)[c.val]? = some (out.sc.cells c) := by
        simp
      rw [hcells] at h1
      rcases (by have := c.isLt; omega : c.val = 0 ∨ c.val = 1) with h0 | h0 <;> rw [h0] at h1 ⊢ <;>
        simpa using h1.symm
    have hps : ∀ i, positions (Rat.castHom ℝ) out i = ⟨(i.val : ℝ) / 4, 0, 0⟩ := by
      intro i
      unfold positions importedCoord
      rw [hrr]
      rcases (by have := i.isLt; omega : i.val = 0 ∨ i.val = 1) with h0 | h0 <;> rw [h0] <;> simp
    refine ⟨out, rfl, hnu, hborn, hdiel, ⟨0, by omega⟩, ?_, ?_⟩
    · exact {
        sound := {
          volume_pos := by
            change 0 < cellVolume (cellOf (Rat.castHom ℝ) out)
            rw [hcv]
            norm_num [cellVolume, dot, cross]
          symm := by
            funext a b
            change (Rat.castHom ℝ) (elem (diag 4) b a) = (Rat.castHom ℝ) (elem (diag 4) a b)
            fin_cases a <;> fin_cases b <;> rfl
          posDef := by
            intro k hk
            have e : ∑ a, ∑ b, comp k a * comp k b *
                (crystal (argsOf (Rat.castHom ℝ) out [diag 3, diag (-3)] (diag 4))).diel a b =
                4 * k.x ^ 2 + 4 * k.y ^ 2 + 4 * k.z ^ 2 := by
              simp [crystal, argsOf, elem, diag, Fin.sum_univ_three, comp]
              ring
            rw [e]
            by_contra hc
            refine hk (V3.ext' ?_ ?_ ?_) <;> refine pow_eq_zero_iff two_ne_zero |>.1 ?_ <;>
              nlinarith [sq_nonneg k.x, sq_nonneg k.y, sq_nonneg k.z]
          apart := by
            intro i j hij R hR
            change Lattice.sub (positions (Rat.castHom ℝ) out i) (positions (Rat.castHom ℝ) out j) = _ at hR
            rw [hps, hps] at hR
            have h1 : (i.val : ℝ) / 4 - (j.val : ℝ) / 4 = (R.x : ℝ) := congrArg V3.x hR
            have h2 : ((i.val : ℤ) : ℝ) - ((j.val : ℤ) : ℝ) = ((4 * R.x : ℤ) : ℝ) := by push_cast; linarith
            have h3 : (i.val : ℤ) - j.val = 4 * R.x := by exact_mod_cast h2
            have := i.isLt
            have := j.isLt
            exact hij (Fin.ext (by omega)) }
        volume := by
          rw [← scVecs_eq]
          change 0 < cellVolume (Images.scVecs out.S (cellOf (Rat.castHom ℝ) out))
          rw [hS, hsv]
          norm_num [cellVolume, dot, cross]
        symm := by
          change Symm out.S
          rw [hS]
          simp [Symm, d, doc]
        unit := one_ne_zero
        cells := by
          change AllCells out.S out.sc.cells
          rw [hS]
          intro u
          have key : ∀ c, Supercell.InLattice d.S (Lattice.sub u (out.sc.cells c)) ↔ (u.x - c.val) % 2 = 0 := by
            intro c
            rw [hcs]
            constructor
            · rintro ⟨m, hm⟩
              have h1 := congrArg V3.x hm
              simp [d, doc, Lattice.sub, Supercell.mulMat] at h1
              omega
            · intro h
              refine ⟨⟨(u.x - c.val) / 2, u.y, u.z⟩, ?_⟩
              simp [d, doc, Lattice.sub, Supercell.mulMat]
              omega
          refine ⟨⟨(u.x % 2).toNat, by omega⟩, (key _).2 (by dsimp only; omega), fun c hc => Fin.ext ?_⟩
          have := (key c).1 hc
          have := c.isLt
          dsimp only
          omega
        first := rfl
        origin := by
          change out.sc.cells _ = _
          rw [hcs]
          simp }
    · have e : ∀ a b c : ℝ, Images.sq (toCart (⟨⟨4, 0, 0⟩, ⟨0, 3, 0⟩, ⟨0, 0, 4⟩⟩ : M3 ℝ) ⟨a, b, c⟩) =
          16 * a ^ 2 + 9 * b ^ 2 + 16 * c ^ 2 := by
        intro a b c
        simp [Images.sq, dot, toCart]
        ring
      have h1 : ∀ x : ℤ, |x| = 1 → (x : ℝ) ^ 2 = 1 := by
        intro x hx
        have : x ^ 2 = 1 := by rw [← sq_abs, hx, one_pow]
        exact_mod_cast this
      refine ⟨Reduced.shells2_eq, ?_, ?_, ?_⟩
      · rw [hsv]
        norm_num [cellVolume, dot, cross]
      · rw [hsv]
        refine ⟨fun a b c ha hb hc => ?_, fun a b c ha hb hc => ?_, fun a b c ha hb hc => ?_⟩
        · rw [e, h1 a ha]; simp only [Images.sq, dot]; nlinarith [sq_nonneg (b : ℝ), sq_nonneg (c : ℝ)]
        · rw [e, h1 b hb]; simp only [Images.sq, dot]; nlinarith [sq_nonneg (a : ℝ), sq_nonneg (c : ℝ)]
        · rw [e, h1 c hc]; simp only [Images.sq, dot]; nlinarith [sq_nonneg (a : ℝ), sq_nonneg (b : ℝ)]
      · intro c i j
        rw [hcs, hcs, hps, hps]
        have b1 : ((i.val : ℕ) : ℝ) ≤ 1 := by exact_mod_cast (by have := i.isLt; omega : i.val ≤ 1)
        have b2 : ((j.val : ℕ) : ℝ) ≤ 1 := by exact_mod_cast (by have := j.isLt; omega : j.val ≤ 1)
        have b3 : ((c.val : ℕ) : ℝ) ≤ 1 := by exact_mod_cast (by have := c.isLt; omega : c.val ≤ 1)
        have p1 : (0 : ℝ) ≤ i.val := Nat.cast_nonneg _
        have p2 : (0 : ℝ) ≤ j.val := Nat.cast_nonneg _
        have p3 : (0 : ℝ) ≤ c.val := Nat.cast_nonneg _
        refine ⟨⟨((i.val : ℝ) / 4 - (c.val + (j.val : ℝ) / 4)) / 2, 0, 0⟩, ?_, by simp, by simp, ?_⟩
        · rw [abs_le]
          constructor <;> linarith
        · simp [d, doc, Lattice.sub, Images.add, Images.castV]

/-- All the hypotheses hold together: the frequencies of this polar crystal at the boundary of the zone are real. -/
example : ∃ out, readInterpolation reg unitsOut 1000 (16 / 2 ^ 52) d files = .ok out ∧
    ∃ c0, ∀ (junk : Fin out.nc → Mat out.nu ℝ) (eigh : (Fin (out.nu * 3) → Fin (out.nu * 3) → ℂ) →
      (Fin (out.nu * 3) → ℝ) × (Fin (out.nu * 3) → Fin (out.nu * 3) → ℂ)) (_ : IsEigh eigh) (s : Fin (out.nu * 3)),
    0 ≤ freqOf ((eigh (completeMatrix out (Rat.castHom ℝ) erfc0 [diag 3, diag (-3)] (diag 4) c0 1 2 Reduced.shells2 junk
        ⟨1 / 2, 0, 0⟩)).1 s) := by
  obtain ⟨out, h, _, _, _, c0, hx, hok⟩ := read
  refine ⟨out, h, c0, fun junk eigh he s => ?_⟩
  refine C166_stable_partial reg unitsOut d files out h layout springs _ rfl (Or.inl rfl) numeric apart O
    PhonopyExact.Ex.copies (Rat.castHom ℝ) hx isErfc_erfc0 PhonopyExact.Ex.periodic PhonopyExact.Ex.reciprocal
    PhonopyExact.Ex.stable ?_ one_pos two_pos Reduced.shells2 hok junk _ ?_ he s
  · intro j hj
    have : 0 < massOf reg unitsOut d j := by
      rcases (by omega : j = 0 ∨ j = 1) with rfl | rfl <;> decide +kernel
    simpa using this
  · exact ⟨⟨1, 0, 0⟩, by simp [d, doc], by simp [d, doc], by simp [d, doc]⟩

end Ex

end Euphonic.PhonopyPolar
