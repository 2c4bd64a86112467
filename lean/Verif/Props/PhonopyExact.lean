import Verif.Props.PhonopyFc
import Verif.Props.Commensurate
import Verif.Props.Describe

/-!
# From a Phonopy file to modes (C164)

At wavevectors that fit into the supercell, the modes calculated from force constants read from Phonopy are normal modes of
the supercell of the file, with the force constants and masses written in it.
-/

set_option autoImplicit false
set_option linter.unusedSectionVars false

namespace Euphonic.PhonopyExact

open Euphonic.Lattice Euphonic.Phonopy Euphonic.PhonopyFc Euphonic.Phases Euphonic.DynMat Euphonic.Commensurate
open Euphonic.Describe (row row_div row_mod sum_rows)

variable {K : Type} [Field K] [LinearOrder K] [IsStrictOrderedRing K] [FloorRing K]

/-! ## Specification -/

/-- Atom `k` of the supercell of the file is, up to `tol`, the copy in cell `O k` of its kind of atom of the primitive
cell of the file. -/
def Copies (d : Doc K) {nu ns : Nat} (kind : Fin (ns + 1) → Fin (nu + 1)) (tol : K) (O : Fin (ns + 1) → V3 ℤ) : Prop :=
  ∀ k : Fin (ns + 1),
    |(inCell d.S ((d.supercell.map (·.coord)).getD k.val ⟨0, 0, 0⟩)).x - ((coordOf d (kind k).val).x + (O k).x)| ≤ tol ∧
    |(inCell d.S ((d.supercell.map (·.coord)).getD k.val ⟨0, 0, 0⟩)).y - ((coordOf d (kind k).val).y + (O k).y)| ≤ tol ∧
    |(inCell d.S ((d.supercell.map (·.coord)).getD k.val ⟨0, 0, 0⟩)).z - ((coordOf d (kind k).val).z + (O k).z)| ≤ tol

/-- Element `a b` of a block. -/
def elem (m : M3 K) (a b : Fin 3) : K := comp (![m.a, m.b, m.c] a) b

/-- The mass of atom `j` of the primitive cell, in the unit asked for. -/
def massOf (u : Ureg K) (o : OutUnits K) (d : Doc K) (j : Nat) : K :=
  (d.primitive.map (·.mass)).getD j 0 * (u.mass (unitNames d.units).mass / o.mass)

/-- The force constant between `a` and `b` of two atoms, in the unit asked for. -/
def forceOf (u : Ureg K) (o : OutUnits K) (d : Doc K) (f : M3 K) (a b : Fin 3) : K :=
  u.fc (unitNames d.units).fc / o.fc * elem f a b

/-- The force constants between all the atoms of the supercell have the periodicity of the crystal: those of atom `k` are
those of its representative, moved. -/
def Periodic (S : M3 ℤ) {nu ns : Nat} (rep : Fin (nu + 1) → Fin (ns + 1)) (kind : Fin (ns + 1) → Fin (nu + 1))
    (O : Fin (ns + 1) → V3 ℤ) (F : Fin (ns + 1) → Fin (ns + 1) → M3 K) : Prop :=
  ∀ k k1 k2, kind k1 = kind k2 →
    Supercell.InLattice S (Lattice.sub (Lattice.sub (O k1) (O k)) (Lattice.sub (O k2) (O (rep (kind k))))) →
    F k k1 = F (rep (kind k)) k2

/-- Action and reaction. -/
def Reciprocal {ns : Nat} (F : Fin (ns + 1) → Fin (ns + 1) → M3 K) : Prop :=
  ∀ k k' a b, elem (F k k') a b = elem (F k' k) b a

/-- Twice the harmonic energy of the displacements `w` of the atoms of the supercell, with the force constants `Φ`. -/
def energyOf {ns : Nat} (Φ : Fin (ns + 1) → Fin (ns + 1) → Fin 3 → Fin 3 → ℝ) (w : Fin (ns + 1) → Fin 3 → ℝ) : ℝ :=
  ∑ k, ∑ a, ∑ k', ∑ b, w k a * Φ k k' a b * w k' b

/-! ## The `ForceConstants` object made from the data; numbers are taken to be real numbers by `ι` -/

/-- `ForceConstants.from_phonopy` (euphonic/force_constants.py:1839-1884): cell vectors. -/
def cellOf (ι : K →+* ℝ) (out : Data K) : M3 ℝ :=
  ⟨⟨ι out.cell.a.x, ι out.cell.a.y, ι out.cell.a.z⟩, ⟨ι out.cell.b.x, ι out.cell.b.y, ι out.cell.b.z⟩,
    ⟨ι out.cell.c.x, ι out.cell.c.y, ι out.cell.c.z⟩⟩

/-- `ForceConstants.from_phonopy` (euphonic/force_constants.py:1839-1884): positions of the atoms. -/
def positions (ι : K →+* ℝ) (out : Data K) (i : Fin out.nu) : V3 ℝ :=
  ⟨ι (importedCoord out i.val).x, ι (importedCoord out i.val).y, ι (importedCoord out i.val).z⟩

/-- `ForceConstants.from_phonopy` (euphonic/force_constants.py:1839-1884): masses of the atoms. -/
def masses (ι : K →+* ℝ) (out : Data K) (i : Fin out.nu) : ℝ := ι (out.mass.getD i.val 0)

/-- The matrices `force_constants[c]` as `convert_fc_phases` returns them (euphonic/util.py:431-434): row `3 i + a` and column
`3 j + b` is element `a b` of the block between atoms `i` and `j`. -/
def matrices (ι : K →+* ℝ) (out : Data K) (c : Fin out.nc) : Mat out.nu ℝ :=
  fun k l => ι (elem (out.sc.fc c k.divNat l.divNat) k.modNat l.modNat)

/-! ## Proofs -/

theorem int_close {x : K} {m n : ℤ} (h1 : |x - m| ≤ 1 / 10 ^ 5) (h2 : |x - n| ≤ 1 / 4) : m = n := by
  have h : |((m - n : ℤ) : K)| < 1 := by
    rw [abs_le] at h1 h2
    rw [abs_lt]
    push_cast
    constructor <;> linarith [h1.1, h1.2, h2.1, h2.2]
  have h' : |m - n| < 1 := by exact_mod_cast h
  have := Int.abs_lt_one_iff.1 h'
  omega

/-- Cells are distinct modulo the supercell, and their translations are among them. -/
theorem convert_cells {B : Type} (zero unset : B) {fmax thr : K} (tol : K) {N nu ns : Nat}
    (inp : Supercell.ScIn K (nu + 1) ns) (hn : Supercell.Numeric inp.S fmax thr N) (rows : Fin (nu + 1) → Fin ns → B)
    (out : Supercell.ScOut B (nu + 1) (Supercell.atom0Idx inp).length)
    (h : Supercell.convertFcPhases zero unset fmax thr tol N inp rows = .ok out)
    (o : Fin ns → V3 ℤ) (ho : Supercell.cellOriginsPerAtom inp tol = .ok o) (hd : Supercell.DistinctAtoms inp o)
    (i : Fin (nu + 1)) (k0 : Fin ns) (hk0 : Supercell.IsFirstCopy inp i k0) :
    Supercell.DistinctCells inp.S out.cells ∧ ∀ c c', ∃ c'', Supercell.IsTranslation inp.S out.cells c c' c'' := by
  unfold Supercell.convertFcPhases at h
  rw [ho] at h
  simp only [bind, Except.bind] at h
  set cells := fun c : Fin (Supercell.atom0Idx inp).length => o ((Supercell.atom0Idx inp).get c) with hcells
  cases hmap : Supercell.finMapM (fun k => Supercell.mapOrigin inp.S cells (o k)) with
  | error e => rw [hmap] at h; cases h
  | ok cmap =>
    rw [hmap] at h
    dsimp only at h
    split at h
    · cases h
    · split at h
      · cases h
      · rename_i conv hconv
        have hout := Except.ok.inj h
        have hdc : Supercell.DistinctCells inp.S cells := by
          intro c c' hl
          apply Supercell.atom0_injective inp
          exact hd _ _ (by rw [Supercell.atom0_type, Supercell.atom0_type]) hl
        have hi := Supercell.finMapM_ok _ _ hconv i
        rw [Supercell.find_first inp i k0 hk0] at hi
        dsimp only at hi
        cases hrels : Supercell.relativeIdx inp.S cells fmax thr N with
        | error e => rw [hrels] at hi; cases hi
        | ok rels =>
          obtain ⟨hl, hrow⟩ := Supercell.mapM_ok_getElem _ _ _ hrels
          rw [← hout]
          refine ⟨hdc, fun c c' => ?_⟩
          have hr0 := hrow c.val (by simp)
          rw [List.getElem_finRange] at hr0
          have hcast : Fin.cast (List.length_finRange (n := (Supercell.atom0Idx inp).length))
              ⟨c.val, by simp⟩ = c := by
            apply Fin.ext; simp
          rw [hcast] at hr0
          obtain ⟨k, _, hk, _⟩ := Supercell.C39_sound inp.S hn cells c _ hr0 c'
          exact ⟨k, hk⟩

/-- The blocks of row `i` are moved, without loss or repetition, to the cells congruent to the vectors between the atoms. -/
theorem blocks_equiv (u : Ureg K) (o : OutUnits K) {fmax thr : K} (d : Doc K) (fs : Files K) (out : Data K)
    (h : readInterpolation u o fmax thr d fs = .ok out) {nu ns : Nat} {rep : Fin (nu + 1) → Fin (ns + 1)}
    {kind : Fin (ns + 1) → Fin (nu + 1)} (L : Layout d rep kind) (F : Fin (ns + 1) → Fin (ns + 1) → M3 K)
    (fc : List (List (M3 K))) (hfc : d.fc = some fc) (hF : Written rep F fc)
    (hn : Supercell.Numeric d.S fmax thr 100) (ha : Apart d) (i : Fin (nu + 1)) :
    ∃ hnu : out.nu = nu + 1, (∃ O, Copies d kind (1 / 10 ^ 5) O) ∧
    (Supercell.DistinctCells d.S out.sc.cells ∧ ∀ c c', ∃ c'', Supercell.IsTranslation d.S out.sc.cells c c' c'') ∧
    ∀ O : Fin (ns + 1) → V3 ℤ, Copies d kind (1 / 4) O → ∃ E : Fin (ns + 1) ≃ Fin out.nc × Fin (nu + 1), ∀ k, (E k).2 = kind k ∧
      out.sc.fc (E k).1 (i.cast hnu.symm) ((kind k).cast hnu.symm) =
        times (u.fc (unitNames d.units).fc / o.fc) (F (rep i) k) ∧
      Supercell.InLattice d.S (Lattice.sub (Lattice.sub (O k) (O (rep i))) (out.sc.cells (E k).1)) := by
  obtain ⟨p, s, n, x, hp, hs, _, _, h⟩ := readInterpolation_ok u o d fs out h fc hfc
  obtain ⟨_, hpr, _, _, _⟩ := extractCrystal_ok _ _ _ hp
  obtain ⟨_, hsr, _, _, _⟩ := extractCrystal_ok _ _ _ hs
  have hnu : p.r.length - 1 = nu := by rw [hpr, List.length_map, L.primitive]; rfl
  have hns : s.r.length - 1 = ns := by rw [hsr, List.length_map, L.supercell]; rfl
  rw [hnu, hns] at h
  unfold assemble at h
  dsimp only at h
  cases hi : scIn nu ns p.r (s.r.map (toPrimitive d.S))
      (npUnique (s.idx.map (· - 1)), npUniqueInverse (s.idx.map (· - 1))) d.S with
  | error e => rw [hi] at h; cases h
  | ok inp =>
    rw [hi] at h
    simp only [bind, Except.bind] at h
    cases hr : fcRows inp fc with
    | error e => rw [hr] at h; cases h
    | ok rows =>
      rw [hr] at h
      dsimp only at h
      cases hc : Supercell.convertFcPhases zeroBlock unsetBlock fmax thr (1 / 10 ^ 5) 100 inp rows with
      | error e => rw [hc] at h; cases h
      | ok sc =>
        rw [hc] at h
        obtain rfl := Except.ok.inj h
        refine ⟨rfl, ?_⟩
        dsimp only
        have hdist := distinct_of_apart hi (by
          intro k k' hkk hnl
          have hk : k.val < d.supercell.length := by have := L.supercell; have := k.isLt; omega
          have hk' : k'.val < d.supercell.length := by have := L.supercell; have := k'.isLt; omega
          refine ha k.val k'.val hk hk' (fun h => hkk (Fin.ext h)) ?_
          have g : ∀ j (hj : j < d.supercell.length), (s.r.map (toPrimitive d.S)).getD j ⟨0, 0, 0⟩ =
              inCell d.S (d.supercell[j]).coord := by
            intro j hj
            rw [hsr, List.map_map, List.getD_eq_getElem _ _ (by simpa using hj)]
            simp [inCell_eq]
          rw [g _ hk, g _ hk'] at hnl
          exact hnl)
        obtain ⟨_, hinp⟩ := scIn_ok hi
        have hidx := L.idx hs
        rw [hidx, npUnique_ofFn L.increasing L.kind_rep, npUniqueInverse_ofFn L.increasing L.kind_rep] at hinp
        have hkind : ∀ k, inp.scToUc k = kind k := by
          intro k
          rw [hinp]
          have : (List.ofFn fun k => (kind k).val).getD k.val 0 = (kind k).val := getD_ofFn _ k 0
          dsimp only
          rw [this]
          exact Fin.ofNat_val_eq_self _
        have hrep : ∀ i, inp.ucToSc i = rep i := by
          intro i
          rw [hinp]
          have : (List.ofFn fun j => ((rep j).val : Int)).getD i.val 0 = ((rep i).val : Int) := getD_ofFn _ i 0
          dsimp only
          rw [this, Int.toNat_natCast]
          exact Fin.ofNat_val_eq_self _
        have hS : inp.S = d.S := by rw [hinp]
        have hfirst : Supercell.IsFirstCopy inp i (rep i) := by
          refine ⟨by rw [hkind, L.kind_rep], fun k hk hkk => ?_⟩
          rw [hkind] at hkk
          have := L.first k
          rw [hkk] at this
          exact absurd hk (not_lt.2 this)
        have hrows : ∀ k, rows i k = F (rep i) k := by
          intro k
          unfold fcRows at hr
          split at hr
          · cases hr
          · rcases hF with rfl | rfl
            · rw [if_pos (by rw [List.length_ofFn])] at hr
              obtain rfl := Except.ok.inj hr
              unfold Supercell.fullRows
              rw [hrep]
              dsimp only
              rw [getD_ofFn, getD_ofFn]
            · by_cases he : nu + 1 = ns + 1
              · rw [if_pos (by rw [List.length_ofFn]; exact he)] at hr
                obtain rfl := Except.ok.inj hr
                obtain rfl : nu = ns := by omega
                unfold Supercell.fullRows
                rw [hrep]
                dsimp only
                rw [getD_ofFn, getD_ofFn, rep_id rep L.increasing]
                rfl
              · rw [if_neg (by rw [List.length_ofFn]; exact he)] at hr
                obtain rfl := Except.ok.inj hr
                dsimp only
                rw [getD_ofFn, getD_ofFn]
        obtain ⟨oo, hoo⟩ : ∃ oo, Supercell.cellOriginsPerAtom inp (1 / 10 ^ 5) = .ok oo := by
          cases ho : Supercell.cellOriginsPerAtom inp (1 / 10 ^ 5) with
          | error e => unfold Supercell.convertFcPhases at hc; rw [ho] at hc; cases hc
          | ok oo => exact ⟨oo, rfl⟩
        obtain ⟨E, hE⟩ := Supercell.C40_blocks_kept _ _ (1 / 10 ^ 5) inp (hS ▸ hn) rows sc hc oo hoo (hdist oo hoo) i (rep i)
          hfirst
        obtain ⟨_, g2, g3⟩ := Supercell.cellOrigins_ok _ _ oo hoo
        have r0 : ∀ k, Supercell.rawOrigin inp k =
            minus (inCell d.S ((d.supercell.map (·.coord)).getD k.val ⟨0, 0, 0⟩)) (coordOf d (kind k).val) := by
          intro k
          have hsca : inp.scAtomR k = inCell d.S ((d.supercell.map (·.coord)).getD k.val ⟨0, 0, 0⟩) := by
            have hk : k.val < d.supercell.length := by have := L.supercell; have := k.isLt; omega
            rw [hinp]
            dsimp only
            rw [hsr, List.getD_eq_getElem _ _ (by simpa using hk), List.getD_eq_getElem _ _ (by simpa using hk),
              List.getElem_map]
            rfl
          have hat : inp.atomR (kind k) = coordOf d (kind k).val := by
            rw [hinp]
            dsimp only
            rw [hpr]
            rfl
          unfold Supercell.rawOrigin minus
          rw [hkind, hsca, hat]
        refine ⟨⟨fun k => Supercell.rint3 (Supercell.rawOrigin inp k), fun k => ?_⟩, ?_, fun O hO => ?_⟩
        · obtain ⟨a1, a2, a3⟩ := near_rint _ _ (g2 k)
          dsimp only
          rw [r0] at a1 a2 a3 ⊢
          have q : ∀ x y z : K, x - (y + z) = x - y - z := fun x y z => by ring
          rw [q, q, q]
          exact ⟨a1, a2, a3⟩
        · have := convert_cells _ _ (1 / 10 ^ 5) inp (hS ▸ hn) rows sc hc oo hoo (hdist oo hoo) i (rep i) hfirst
          rw [hS] at this
          exact this
        have hOk : ∀ k, Supercell.rint3 (Supercell.rawOrigin inp k) = O k := by
          intro k
          obtain ⟨a1, a2, a3⟩ := near_rint _ _ (g2 k)
          obtain ⟨b1, b2, b3⟩ := hO k
          rw [r0] at a1 a2 a3 ⊢
          have q : ∀ x y z : K, x - (y + z) = x - y - z := fun x y z => by ring
          rw [q] at b1 b2 b3
          exact V3.ext' (int_close a1 b1) (int_close a2 b2) (int_close a3 b3)
        refine ⟨E, fun k => ?_⟩
        obtain ⟨h1, h2, h3⟩ := hE k
        rw [hkind] at h1
        refine ⟨h1, ?_, ?_⟩
        · rw [h1, hrows] at h2
          exact congrArg _ h2
        · obtain ⟨m, hm⟩ := h3
          rw [g3, g3, hS, hOk, hOk, hOk] at hm
          refine ⟨m, ?_⟩
          rw [← hm]
          simp only [Lattice.sub, V3.mk.injEq]
          refine ⟨?_, ?_, ?_⟩ <;> ring

section
variable (u : Ureg K) (o : OutUnits K) {fmax thr : K} (d : Doc K) (fs : Files K) (out : Data K)
  (h : readInterpolation u o fmax thr d fs = .ok out) {nu ns : Nat} {rep : Fin (nu + 1) → Fin (ns + 1)}
  {kind : Fin (ns + 1) → Fin (nu + 1)} (L : Layout d rep kind) (F : Fin (ns + 1) → Fin (ns + 1) → M3 K)
  (fc : List (List (M3 K))) (hfc : d.fc = some fc) (hF : Written rep F fc)
  (hn : Supercell.Numeric d.S fmax thr 100) (ha : Apart d) (O : Fin (ns + 1) → V3 ℤ) (hO : Copies d kind (1 / 4) O)
  (ι : K →+* ℝ)

theorem elem_times (x : K) (m : M3 K) (a b : Fin 3) : elem (times x m) a b = x * elem m a b := by
  fin_cases a <;> fin_cases b <;> rfl

include h L hfc hF hn ha hO in
/-- **C164** At a wavevector that fits into the supercell, the dynamical matrix between atoms `i` and `j` of the primitive
cell is the sum, over the copies of `j` in the supercell of the file, of the force constants of the file times the phase from
the cell of the representative of `i` to that of the copy. -/
theorem C164_fourier_partial (hnu : out.nu = nu + 1) (c0 : Fin out.nc) (images : List (V3 ℤ))
    (hok : ReducedSupercell (cellOf ι out) (positions ι out) out.sc.cells c0 d.S images)
    (junk : Fin out.nc → Mat out.nu ℝ) (q : V3 ℝ) (hq : Fits d.S q) (i j : Fin (nu + 1)) (a b : Fin 3) :
    fcDynMat (cellOf ι out) (positions ι out) out.sc.cells c0 d.S images (matrices ι out) junk q
        (row (i.cast hnu.symm) a) (row (j.cast hnu.symm) b) =
      ∑ k with kind k = j, (ι (forceOf u o d (F (rep i) k) a b) : ℂ) * expQR q (Lattice.sub (O k) (O (rep i))) := by
  obtain ⟨_, _, _, hblk⟩ := blocks_equiv u o d fs out h L F fc hfc hF hn ha i
  obtain ⟨E, hE⟩ := hblk O hO
  rw [C129_exact_partial _ _ _ _ _ _ hok _ _ _ hq, Finset.sum_filter]
  have h1 : ∀ k, (if kind k = j then (ι (forceOf u o d (F (rep i) k) a b) : ℂ) * expQR q (Lattice.sub (O k) (O (rep i)))
      else 0) = (fun p : Fin out.nc × Fin (nu + 1) => if p.2 = j then
        (matrices ι out p.1 (row (i.cast hnu.symm) a) (row (j.cast hnu.symm) b) : ℂ) * expQR q (out.sc.cells p.1)
        else 0) (E k) := by
    intro k
    obtain ⟨e1, e2, e3⟩ := hE k
    dsimp only
    rw [e1]
    split_ifs with hj
    · subst hj
      rw [expQR_sub q (Lattice.sub (O k) (O (rep i))) (out.sc.cells (E k).1), expQR_lattice hq _ e3, one_mul]
      unfold matrices
      rw [row_div, row_div, row_mod, row_mod, e2, elem_times]
      rfl
    · rfl
  have h2 := E.sum_comp (fun p : Fin out.nc × Fin (nu + 1) => if p.2 = j then
        (matrices ι out p.1 (row (i.cast hnu.symm) a) (row (j.cast hnu.symm) b) : ℂ) * expQR q (out.sc.cells p.1)
        else 0)
  rw [Finset.sum_congr rfl fun k _ => h1 k]
  refine Eq.trans ?_ h2.symm
  rw [Fintype.sum_prod_type]
  refine Finset.sum_congr rfl fun c _ => ?_
  simp

/-- Displacement of atom `k` of the supercell in a mode with the eigenvector `e` at `q`. -/
noncomputable def displacement {n : Nat} (hnu : n = nu + 1) (q : V3 ℝ) (e : Fin (n * 3) → ℂ) (k : Fin (ns + 1))
    (b : Fin 3) : ℂ :=
  e (row ((kind k).cast hnu.symm) b) / (√(ι (massOf u o d (kind k).val)) : ℝ) * expQR q (O k)

include h L hfc hF hn ha hO in
/-- **C164** A mode at a wavevector that fits into the supercell is a normal mode of the supercell of the file: if all its
atoms are displaced along the mode, the force on every representative, with the force constants and masses of the file, is
`-w^2 m u`. -/
theorem C164_normal_mode_partial (hnu : out.nu = nu + 1) (c0 : Fin out.nc) (images : List (V3 ℤ))
    (hok : ReducedSupercell (cellOf ι out) (positions ι out) out.sc.cells c0 d.S images)
    (junk : Fin out.nc → Mat out.nu ℝ) (q : V3 ℝ) (hq : Fits d.S q) (hm : ∀ j, j < nu + 1 → 0 < ι (massOf u o d j))
    (e : Fin (out.nu * 3) → ℂ) (v : ℂ)
    (he : ∀ k, ∑ l, weighted (massWeighting (masses ι out))
      (fcDynMat (cellOf ι out) (positions ι out) out.sc.cells c0 d.S images (matrices ι out) junk q) none none none k l * e l
        = v * e k) (i : Fin (nu + 1)) (a : Fin 3) :
    ∑ k, ∑ b, (ι (forceOf u o d (F (rep i) k) a b) : ℂ) * displacement (kind := kind) u o d O ι hnu q e k b =
      v * (ι (massOf u o d i.val) : ℝ) * displacement (kind := kind) u o d O ι hnu q e (rep i) a := by
  obtain ⟨_, hmass, _, _, _, _⟩ := C141_crystal u o d fs out h fc hfc
  have hms : ∀ j : Fin out.nu, masses ι out j = ι (massOf u o d j.val) := by
    intro j
    have hj : j.val < d.primitive.length := by rw [L.primitive, ← hnu]; exact j.isLt
    unfold masses massOf
    rw [hmass, List.getD_eq_getElem _ _ (by simpa using hj), List.getD_eq_getElem _ _ (by simpa using hj)]
    simp
  have hpos : ∀ j, 0 < masses ι out j := fun j => by rw [hms]; exact hm _ (by rw [← hnu]; exact j.isLt)
  have hmot := C90_equation_of_motion (masses ι out) hpos _ none none none e v he (row (i.cast hnu.symm) a)
  simp only [orZero, add_zero, row_div, hms, Fin.val_cast] at hmot
  rw [sum_rows] at hmot
  simp only [row_div] at hmot
  have hre : ∀ f : Fin out.nu → ℂ, ∑ j, f j = ∑ j : Fin (nu + 1), f (j.cast hnu.symm) := fun f =>
    ((finCongr hnu.symm).sum_comp f).symm
  rw [hre] at hmot
  simp only [C164_fourier_partial u o d fs out h L F fc hfc hF hn ha O hO ι hnu c0 images hok junk q hq,
    Fin.val_cast] at hmot
  have hk := L.kind_rep i
  unfold displacement
  rw [hk, ← mul_assoc, ← hmot, Finset.sum_mul]
  have hsplit : ∀ g : Fin (ns + 1) → ℂ, ∑ k, g k = ∑ j, ∑ k with kind k = j, g k := fun g =>
    (Finset.sum_fiberwise _ kind g).symm
  rw [hsplit]
  refine Finset.sum_congr rfl fun j _ => ?_
  rw [Finset.sum_comm, Finset.sum_mul]
  refine Finset.sum_congr rfl fun b _ => ?_
  rw [Finset.sum_mul, Finset.sum_mul]
  refine Finset.sum_congr rfl fun k hk => ?_
  obtain rfl := (Finset.mem_filter.1 hk).2
  rw [expQR_sub q (O k) (O (rep i))]
  ring

include h L hfc hF hn ha in
/-- **C164** If the file is read, then every atom of its supercell is (up to 1e-5) a copy, in some cell, of its kind of atom
of the primitive cell. -/
theorem C164_copies : out.nu = nu + 1 ∧ ∃ O, Copies d kind (1 / 10 ^ 5) O := by
  obtain ⟨h1, h2, _, _⟩ := blocks_equiv u o d fs out h L F fc hfc hF hn ha 0
  exact ⟨h1, h2⟩

include h L hfc hF hn ha hO in
theorem distinct_copies (k k' : Fin (ns + 1)) (hk : kind k = kind k')
    (hl : Supercell.InLattice d.S (Lattice.sub (O k) (O k'))) : k = k' := by
  obtain ⟨_, _, ⟨hd, _⟩, hblk⟩ := blocks_equiv u o d fs out h L F fc hfc hF hn ha 0
  obtain ⟨E, hE⟩ := hblk O hO
  obtain ⟨a1, _, a3⟩ := hE k
  obtain ⟨b1, _, b3⟩ := hE k'
  apply E.injective
  refine Prod.ext (hd _ _ ?_) (by rw [a1, b1, hk])
  have := (hl.sub a3).sub (Supercell.InLattice.sub (Supercell.InLattice.zero d.S) b3)
  convert this using 1
  simp only [Lattice.sub, V3.mk.injEq]
  refine ⟨?_, ?_, ?_⟩ <;> ring

include h L hfc hF hn ha hO in
/-- Seen from another copy of an atom the supercell is the same. -/
theorem moved (k k1 : Fin (ns + 1)) : ∃ k2, kind k1 = kind k2 ∧
    Supercell.InLattice d.S (Lattice.sub (Lattice.sub (O k1) (O k)) (Lattice.sub (O k2) (O (rep (kind k))))) := by
  obtain ⟨_, _, ⟨_, ht⟩, hblk⟩ := blocks_equiv u o d fs out h L F fc hfc hF hn ha (kind k)
  obtain ⟨E, hE⟩ := hblk O hO
  obtain ⟨c, hc⟩ := ht (E k).1 (E k1).1
  refine ⟨E.symm (c, kind k1), ?_, ?_⟩
  · have := (hE (E.symm (c, kind k1))).1
    rw [Equiv.apply_symm_apply] at this
    exact this
  · obtain ⟨_, _, a3⟩ := hE k
    obtain ⟨_, _, b3⟩ := hE k1
    obtain ⟨_, _, c3⟩ := hE (E.symm (c, kind k1))
    rw [Equiv.apply_symm_apply] at c3
    have := ((b3.sub a3).sub c3).sub ((Supercell.InLattice.zero d.S).sub hc)
    convert this using 1
    simp only [Lattice.sub, V3.mk.injEq]
    refine ⟨?_, ?_, ?_⟩ <;> ring

include h L hfc hF hn ha hO in
theorem moved_perm (k : Fin (ns + 1)) : ∃ σ : Equiv.Perm (Fin (ns + 1)), ∀ k1, kind k1 = kind (σ k1) ∧
    Supercell.InLattice d.S (Lattice.sub (Lattice.sub (O k1) (O k)) (Lattice.sub (O (σ k1)) (O (rep (kind k))))) := by
  choose σ h1 h2 using moved u o d fs out h L F fc hfc hF hn ha O hO k
  have hinj : Function.Injective σ := by
    intro x y e
    refine distinct_copies u o d fs out h L F fc hfc hF hn ha O hO x y (by rw [h1 x, h1 y, e]) ?_
    have hx := h2 x
    have hy := h2 y
    rw [e] at hx
    have := hx.sub hy
    convert this using 1
    simp only [Lattice.sub, V3.mk.injEq]
    refine ⟨?_, ?_, ?_⟩ <;> ring
  exact ⟨Equiv.ofBijective σ (Finite.injective_iff_bijective.1 hinj), fun k1 => ⟨h1 k1, h2 k1⟩⟩

include h L hfc hF hn ha hO in
/-- **C164** A mode at a wavevector that fits into the supercell is a normal mode of the supercell of the file: if all its
atoms are displaced along the mode, the force on each of them, with the force constants and masses of the file, is
`-w^2 m u`. -/
theorem C164_all_atoms_partial (hP : Periodic d.S rep kind O F) (hnu : out.nu = nu + 1) (c0 : Fin out.nc)
    (images : List (V3 ℤ)) (hok : ReducedSupercell (cellOf ι out) (positions ι out) out.sc.cells c0 d.S images)
    (junk : Fin out.nc → Mat out.nu ℝ) (q : V3 ℝ) (hq : Fits d.S q) (hm : ∀ j, j < nu + 1 → 0 < ι (massOf u o d j))
    (e : Fin (out.nu * 3) → ℂ) (v : ℂ)
    (he : ∀ k, ∑ l, weighted (massWeighting (masses ι out))
      (fcDynMat (cellOf ι out) (positions ι out) out.sc.cells c0 d.S images (matrices ι out) junk q) none none none k l * e l
        = v * e k) (k : Fin (ns + 1)) (a : Fin 3) :
    ∑ k', ∑ b, (ι (forceOf u o d (F k k') a b) : ℂ) * displacement (kind := kind) u o d O ι hnu q e k' b =
      v * (ι (massOf u o d (kind k).val) : ℝ) * displacement (kind := kind) u o d O ι hnu q e k a := by
  obtain ⟨σ, hσ⟩ := moved_perm u o d fs out h L F fc hfc hF hn ha O hO k
  have hrep := C164_normal_mode_partial u o d fs out h L F fc hfc hF hn ha O hO ι hnu c0 images hok junk q hq hm e v he
    (kind k) a
  have hph : ∀ k', expQR q (O k') = expQR q (O (σ k')) * expQR q (Lattice.sub (O k) (O (rep (kind k)))) := by
    intro k'
    have h2 := (hσ k').2
    rw [expQR_sub q (O k') (O (σ k')), mul_comm]
    congr 1
    rw [expQR_sub q _ (Lattice.sub (O k) (O (rep (kind k)))), expQR_lattice hq _ ?_, one_mul]
    convert h2 using 1
    simp only [Lattice.sub, V3.mk.injEq]
    refine ⟨?_, ?_, ?_⟩ <;> ring
  have hk : expQR q (O k) = expQR q (O (rep (kind k))) * expQR q (Lattice.sub (O k) (O (rep (kind k)))) := by
    rw [expQR_sub q (O k) (O (rep (kind k))), mul_comm]
  have hterm : ∀ k', ∑ b, (ι (forceOf u o d (F k k') a b) : ℂ) * displacement (kind := kind) u o d O ι hnu q e k' b =
      (fun k' => (∑ b, (ι (forceOf u o d (F (rep (kind k)) k') a b) : ℂ) *
        displacement (kind := kind) u o d O ι hnu q e k' b) * expQR q (Lattice.sub (O k) (O (rep (kind k))))) (σ k') := by
    intro k'
    dsimp only
    rw [hP k k' (σ k') (hσ k').1 (hσ k').2, Finset.sum_mul]
    refine Finset.sum_congr rfl fun b _ => ?_
    unfold displacement
    rw [hph k', (hσ k').1]
    ring
  rw [Finset.sum_congr rfl fun k' _ => hterm k', Equiv.sum_comp σ (fun k' => (∑ b,
    (ι (forceOf u o d (F (rep (kind k)) k') a b) : ℂ) * displacement (kind := kind) u o d O ι hnu q e k' b) *
      expQR q (Lattice.sub (O k) (O (rep (kind k))))), ← Finset.sum_mul, hrep]
  unfold displacement
  rw [L.kind_rep, hk]
  ring

include h L hfc hF hn ha hO in
/-- The dynamical matrix is Hermitian. -/
theorem hermitian (hP : Periodic d.S rep kind O F) (hR : Reciprocal F) (hnu : out.nu = nu + 1) (c0 : Fin out.nc)
    (images : List (V3 ℤ)) (hok : ReducedSupercell (cellOf ι out) (positions ι out) out.sc.cells c0 d.S images)
    (junk : Fin out.nc → Mat out.nu ℝ) (q : V3 ℝ) (hq : Fits d.S q) (k l : Fin (out.nu * 3)) :
    fcDynMat (cellOf ι out) (positions ι out) out.sc.cells c0 d.S images (matrices ι out) junk q l k =
      star (fcDynMat (cellOf ι out) (positions ι out) out.sc.cells c0 d.S images (matrices ι out) junk q k l) := by
  have hrow : ∀ k : Fin (out.nu * 3), ∃ (i : Fin (nu + 1)) (a : Fin 3), k = row (i.cast hnu.symm) a := by
    intro k
    obtain ⟨i, a, rfl⟩ := Describe.exists_row_id k
    exact ⟨i.cast hnu, a, by simp⟩
  obtain ⟨i, a, rfl⟩ := hrow k
  obtain ⟨j, b, rfl⟩ := hrow l
  rw [C164_fourier_partial u o d fs out h L F fc hfc hF hn ha O hO ι hnu c0 images hok junk q hq,
    C164_fourier_partial u o d fs out h L F fc hfc hF hn ha O hO ι hnu c0 images hok junk q hq, star_sum]
  choose g g1 g2 using moved u o d fs out h L F fc hfc hF hn ha O hO
  have huniq := distinct_copies u o d fs out h L F fc hfc hF hn ha O hO
  have hinv : ∀ (i j : Fin (nu + 1)) k, kind k = i → g (g k (rep j)) (rep i) = k := by
    intro i j k hk
    refine huniq _ _ (by rw [← g1, L.kind_rep, hk]) ?_
    have e1 := g2 k (rep j)
    have e2 := g2 (g k (rep j)) (rep i)
    have e3 : kind (g k (rep j)) = j := by rw [← g1, L.kind_rep]
    rw [e3] at e2
    rw [hk] at e1
    have := e1.sub e2
    convert this using 1
    simp only [Lattice.sub, V3.mk.injEq]
    refine ⟨?_, ?_, ?_⟩ <;> ring
  refine Finset.sum_bij' (fun k _ => g k (rep j)) (fun k _ => g k (rep i)) ?_ ?_ ?_ ?_ ?_
  · intro k _
    rw [Finset.mem_filter]
    exact ⟨Finset.mem_univ _, by rw [← g1, L.kind_rep]⟩
  · intro k _
    rw [Finset.mem_filter]
    exact ⟨Finset.mem_univ _, by rw [← g1, L.kind_rep]⟩
  · intro k hk
    exact hinv i j k (Finset.mem_filter.1 hk).2
  · intro k hk
    exact hinv j i k (Finset.mem_filter.1 hk).2
  · intro k hk
    have hki := (Finset.mem_filter.1 hk).2
    have e1 := g2 k (rep j)
    have e0 : F k (rep j) = F (rep i) (g k (rep j)) := by
      rw [hP k (rep j) _ (g1 k (rep j)) e1, hki]
    have hf : forceOf u o d (F (rep j) k) b a = forceOf u o d (F (rep i) (g k (rep j))) a b := by
      unfold forceOf
      rw [hR (rep j) k b a, e0]
    rw [hf, star_mul', Complex.star_def, Complex.conj_ofReal, ← Complex.star_def]
    congr 1
    have hneg : star (expQR q (Lattice.sub (O (g k (rep j))) (O (rep i)))) =
        expQR q (neg (Lattice.sub (O (g k (rep j))) (O (rep i)))) := (expQR_neg' _ _).symm
    rw [hneg, expQR_sub q (Lattice.sub (O k) (O (rep j))) (neg (Lattice.sub (O (g k (rep j))) (O (rep i)))),
      expQR_lattice hq _ ?_, one_mul]
    rw [hki] at e1
    convert (Supercell.InLattice.zero d.S).sub e1 using 1
    simp only [Lattice.sub, neg, V3.mk.injEq]
    refine ⟨?_, ?_, ?_⟩ <;> ring

theorem re_energyOf (Φ : Fin (ns + 1) → Fin (ns + 1) → Fin 3 → Fin 3 → ℝ) (U : Fin (ns + 1) → Fin 3 → ℂ) :
    (∑ k, ∑ a, star (U k a) * ∑ k', ∑ b, (Φ k k' a b : ℂ) * U k' b).re =
      energyOf Φ (fun k a => (U k a).re) + energyOf Φ (fun k a => (U k a).im) := by
  unfold energyOf
  simp only [Finset.mul_sum, Complex.re_sum, ← Finset.sum_add_distrib]
  refine Finset.sum_congr rfl fun c _ => Finset.sum_congr rfl fun k _ => Finset.sum_congr rfl fun c' _ =>
    Finset.sum_congr rfl fun l _ => ?_
  simp [Complex.mul_re, Complex.mul_im]
  ring

include h L hfc hF hn ha hO in
/-- **C164** If no displacement of the atoms of the supercell of the file lowers its harmonic energy, then no frequency at a
wavevector that fits into the supercell is imaginary (negative, in the output). -/
theorem C164_stable_partial (hP : Periodic d.S rep kind O F) (hR : Reciprocal F)
    (hE : ∀ w, 0 ≤ energyOf (fun k k' a b => ι (forceOf u o d (F k k') a b)) w)
    (hm : ∀ j, j < nu + 1 → 0 < ι (massOf u o d j)) (c0 : Fin out.nc) (images : List (V3 ℤ))
    (hok : ReducedSupercell (cellOf ι out) (positions ι out) out.sc.cells c0 d.S images)
    (junk : Fin out.nc → Mat out.nu ℝ) (q : V3 ℝ) (hq : Fits d.S q)
    {eigh : (Fin (out.nu * 3) → Fin (out.nu * 3) → ℂ) →
      (Fin (out.nu * 3) → ℝ) × (Fin (out.nu * 3) → Fin (out.nu * 3) → ℂ)} (he : IsEigh eigh) (s : Fin (out.nu * 3)) :
    0 ≤ freqOf ((eigh (weighted (massWeighting (masses ι out)) (fcDynMat (cellOf ι out) (positions ι out) out.sc.cells c0
      d.S images (matrices ι out) junk q) none none none)).1 s) := by
  have hnu := (C164_copies u o d fs out h L F fc hfc hF hn ha).1
  have hA : ∀ k l, weighted (massWeighting (masses ι out)) (fcDynMat (cellOf ι out) (positions ι out) out.sc.cells c0
      d.S images (matrices ι out) junk q) none none none l k = star (weighted (massWeighting (masses ι out))
        (fcDynMat (cellOf ι out) (positions ι out) out.sc.cells c0 d.S images (matrices ι out) junk q) none none none k l) := by
    intro k l
    simp only [weighted]
    rw [hermitian u o d fs out h L F fc hfc hF hn ha O hO ι hP hR hnu c0 images hok junk q hq k l, star_mul']
    congr 1
    rw [Complex.star_def, Complex.conj_ofReal]
    unfold massWeighting
    rw [mul_comm]
  set A := weighted (massWeighting (masses ι out)) (fcDynMat (cellOf ι out) (positions ι out) out.sc.cells c0
      d.S images (matrices ι out) junk q) none none none with hAdef
  set v := (eigh A).1 s with hvdef
  set e := (eigh A).2 s with hedef
  have heig := he.eigen A hA s
  have hort := he.ortho A hA s s
  rw [if_pos rfl] at hort
  set U : Fin (ns + 1) → Fin 3 → ℂ := fun k a => displacement (kind := kind) u o d O ι hnu q e k a with hU
  have hpos := add_nonneg (hE fun k a => (U k a).re) (hE fun k a => (U k a).im)
  rw [← re_energyOf] at hpos
  have hmode := C164_all_atoms_partial u o d fs out h L F fc hfc hF hn ha O hO ι hP hnu c0 images hok junk q hq hm e v heig
  have h1 : ∀ k a, star (U k a) * ∑ k', ∑ b, ((ι (forceOf u o d (F k k') a b) : ℝ) : ℂ) * U k' b =
      ((v * Complex.normSq (e (row ((kind k).cast hnu.symm) a)) : ℝ) : ℂ) := by
    intro k a
    rw [hU]
    dsimp only
    rw [hmode k a]
    have hmk := hm (kind k).val (kind k).isLt
    have hs : (√(ι (massOf u o d (kind k).val)) : ℂ) ≠ 0 := by
      rw [Ne, Complex.ofReal_eq_zero]; exact (Real.sqrt_pos.2 hmk).ne'
    have hmm : ((ι (massOf u o d (kind k).val) : ℝ) : ℂ) =
        (√(ι (massOf u o d (kind k).val)) : ℝ) * (√(ι (massOf u o d (kind k).val)) : ℝ) := by
      rw [← Complex.ofReal_mul, Real.mul_self_sqrt hmk.le]
    have hn := norm_expQR q (O k)
    have hst : star (displacement (kind := kind) u o d O ι hnu q e k a) =
        star (e (row ((kind k).cast hnu.symm) a)) / ((√(ι (massOf u o d (kind k).val)) : ℝ) : ℂ) * star (expQR q (O k)) := by
      unfold displacement
      rw [star_mul', star_div₀]
      congr 2
      exact Complex.conj_ofReal _
    rw [hst, hmm]
    unfold displacement
    rw [Complex.ofReal_mul, Complex.normSq_eq_conj_mul_self, ← Complex.star_def]
    calc _ = v * (star (e (row ((kind k).cast hnu.symm) a)) * e (row ((kind k).cast hnu.symm) a)) *
          (star (expQR q (O k)) * expQR q (O k)) := by field_simp
      _ = _ := by rw [hn, mul_one]
  simp only [h1] at hpos
  have hpos' : 0 ≤ v * ∑ k, ∑ a, Complex.normSq (e (row ((kind k).cast hnu.symm) a)) := by
    refine le_of_le_of_eq hpos ?_
    simp only [Complex.re_sum, Complex.ofReal_re, Finset.mul_sum]
  obtain ⟨l, hl⟩ : ∃ l, e l ≠ 0 := by
    by_contra hcon
    push Not at hcon
    rw [Finset.sum_eq_zero fun k _ => by rw [show (eigh A).2 s k = 0 from hcon k, mul_zero]] at hort
    exact zero_ne_one hort
  obtain ⟨j, a, rfl⟩ := Describe.exists_row_id l
  have hS : 0 < ∑ k, ∑ a, Complex.normSq (e (row ((kind k).cast hnu.symm) a)) := by
    refine Finset.sum_pos' (fun k _ => Finset.sum_nonneg fun a _ => Complex.normSq_nonneg _)
      ⟨rep (j.cast hnu), Finset.mem_univ _, Finset.sum_pos' (fun a _ => Complex.normSq_nonneg _) ⟨a, Finset.mem_univ _, ?_⟩⟩
    rw [L.kind_rep]
    exact Complex.normSq_pos.2 (by simpa using hl)
  have hv0 : 0 ≤ v := nonneg_of_mul_nonneg_left hpos' hS
  unfold freqOf
  rw [if_neg (not_lt.2 hv0)]
  exact Real.sqrt_nonneg _

end

/-! ## Example: sodium and chlorine on springs, in the supercell 2x1x1 -/

namespace Ex

open Euphonic.PhonopyFc.Ex (doc rep kind blk reg unitsOut files)

/-- Every atom is tied to all the atoms of the other kind. -/
def springs : Fin 4 → Fin 4 → M3 ℚ := fun a b => blk (if a = b then 2 else if kind a = kind b then 0 else -1)

/-- The file. -/
def d : Doc ℚ := doc (1 / 4) springs

/-- Cells of the atoms of the supercell. -/
def O : Fin 4 → V3 ℤ := ![⟨0, 0, 0⟩, ⟨1, 0, 0⟩, ⟨0, 0, 0⟩, ⟨-1, 0, 0⟩]

theorem layout : Layout d rep kind where
  primitive := rfl
  supercell := rfl
  increasing := by decide
  kind_rep := by decide
  first := by decide
  reduced := fun k => by fin_cases k <;> rfl

theorem apart : Apart d := by
  have := PhonopyFc.Ex.apart 0
  rw [Int.cast_zero, add_zero] at this
  exact this

theorem numeric : Supercell.Numeric d.S (1000 : ℚ) (16 / 2 ^ 52) 100 := PhonopyFc.Ex.numeric (1 / 4)

theorem copies : Copies d kind (1 / 4) O := by
  intro k
  fin_cases k <;> decide +kernel

theorem periodic : Periodic d.S rep kind O springs := by
  intro k k1 k2 hk hl
  obtain ⟨m, hm⟩ := hl
  have hx := congrArg V3.x hm
  simp only [Lattice.sub, Supercell.mulMat, d, doc] at hx
  have key : ∀ k k1 k2 : Fin 4, kind k1 = kind k2 → ((O k1).x - (O k).x - ((O k2).x - (O (rep (kind k))).x)) % 2 = 0 →
      springs k k1 = springs (rep (kind k)) k2 := by decide +kernel
  refine key k k1 k2 hk ?_
  omega

theorem reciprocal : Reciprocal springs := by
  unfold Reciprocal
  decide +kernel

theorem stable (w : Fin 4 → Fin 3 → ℝ) :
    0 ≤ energyOf (ns := 3) (fun k k' a b => (Rat.castHom ℝ) (forceOf reg unitsOut d (springs k k') a b)) w := by
  have e : energyOf (ns := 3) (fun k k' a b => (Rat.castHom ℝ) (forceOf reg unitsOut d (springs k k') a b)) w =
      (w 0 0 - w 2 0) ^ 2 + (w 0 0 - w 3 0) ^ 2 + (w 1 0 - w 2 0) ^ 2 + (w 1 0 - w 3 0) ^ 2 := by
    have h0 : ∀ k k' a b, forceOf reg unitsOut d (springs k k') a b = if a = 0 ∧ b = 0 then
        (if k = k' then 2 else if kind k = kind k' then 0 else -1) else 0 := by decide +kernel
    unfold energyOf
    simp only [h0]
    simp [Fin.sum_univ_succ, kind]
    ring
  rw [e]
  positivity

/-- Cell vectors, atoms and cells of the result. -/
def summary : Option (List (V3 ℚ) × List (V3 ℤ)) :=
  (readInterpolation reg unitsOut 1000 (16 / 2 ^ 52) d files).toOption.map fun out =>
    (out.cell.a :: out.cell.b :: out.cell.c :: out.r, ⟨out.nu, 0, 0⟩ :: (List.finRange out.nc).map out.sc.cells)

/-- The file is read, and the data are as `C164_stable_partial` requires. -/
theorem read : ∃ out, readInterpolation reg unitsOut 1000 (16 / 2 ^ 52) d files = .ok out ∧
    ∃ c0, ReducedSupercell (cellOf (Rat.castHom ℝ) out) (positions (Rat.castHom ℝ) out) out.sc.cells c0 d.S
      Reduced.shells2 := by
  have hr : summary =
      some ([⟨2, 0, 0⟩, ⟨0, 3, 0⟩, ⟨0, 0, 4⟩, ⟨0, 0, 0⟩, ⟨1 / 4, 0, 0⟩], [⟨2, 0, 0⟩, ⟨0, 0, 0⟩, ⟨1, 0, 0⟩]) := by
    decide +kernel
  unfold summary at hr
  cases hout : readInterpolation reg unitsOut 1000 (16 / 2 ^ 52) d files with
  | error e => rw [hout] at hr; cases hr
  | ok out =>
    rw [hout] at hr
    simp only [Except.toOption, Option.map_some, Option.some.injEq, Prod.mk.injEq] at hr
    obtain ⟨hq, hz⟩ := hr
    obtain ⟨ha, hq⟩ := List.cons.inj hq
    obtain ⟨hb, hq⟩ := List.cons.inj hq
    obtain ⟨hc, hrr⟩ := List.cons.inj hq
    obtain ⟨hnu, hcells⟩ := List.cons.inj hz
    have hnu : out.nu = 2 := by have := congrArg V3.x hnu; dsimp only at this; omega
    have hnc : out.nc = 2 := by have := congrArg List.length hcells; simpa using this
    refine ⟨out, rfl, ⟨0, by omega⟩, ?_⟩
    have hcv : Images.scVecs d.S (cellOf (Rat.castHom ℝ) out) = ⟨⟨4, 0, 0⟩, ⟨0, 3, 0⟩, ⟨0, 0, 4⟩⟩ := by
      unfold cellOf
      rw [ha, hb, hc]
      simp [Images.scVecs, d, doc, toCart, Images.castV]
      norm_num
    have e : ∀ a b c : ℝ, Images.sq (toCart (⟨⟨4, 0, 0⟩, ⟨0, 3, 0⟩, ⟨0, 0, 4⟩⟩ : M3 ℝ) ⟨a, b, c⟩) =
        16 * a ^ 2 + 9 * b ^ 2 + 16 * c ^ 2 := by
      intro a b c
      simp [Images.sq, dot, toCart]
      ring
    have h1 : ∀ x : ℤ, |x| = 1 → (x : ℝ) ^ 2 = 1 := by
      intro x hx
      have : x ^ 2 = 1 := by rw [← sq_abs, hx, one_pow]
      exact_mod_cast this
    have hcs : ∀ c, out.sc.cells c = ⟨0, 0, 0⟩ ∨ out.sc.cells c = ⟨1, 0, 0⟩ := by
      intro c
      have : out.sc.cells c ∈ (List.finRange out.nc).map out.sc.cells := List.mem_map_of_mem (List.mem_finRange c)
      rw [hcells] at this
      simpa using this
    have hps : ∀ i, positions (Rat.castHom ℝ) out i = ⟨0, 0, 0⟩ ∨ positions (Rat.castHom ℝ) out i = ⟨1 / 4, 0, 0⟩ := by
      intro i
      have hi : i.val = 0 ∨ i.val = 1 := by have := i.isLt; omega
      unfold positions importedCoord
      rw [hrr]
      rcases hi with hi | hi <;> rw [hi] <;> simp
    refine ⟨Reduced.shells2_eq, ?_, ?_, ?_⟩
    · rw [hcv]
      norm_num [cellVolume, dot, cross]
    · rw [hcv]
      refine ⟨fun a b c ha hb hc => ?_, fun a b c ha hb hc => ?_, fun a b c ha hb hc => ?_⟩
      · rw [e, h1 a ha]; simp only [Images.sq, dot]; nlinarith [sq_nonneg (b : ℝ), sq_nonneg (c : ℝ)]
      · rw [e, h1 b hb]; simp only [Images.sq, dot]; nlinarith [sq_nonneg (a : ℝ), sq_nonneg (c : ℝ)]
      · rw [e, h1 c hc]; simp only [Images.sq, dot]; nlinarith [sq_nonneg (a : ℝ), sq_nonneg (b : ℝ)]
    · intro c i j
      have hd : ∀ x : ℝ, |x| ≤ 5 / 4 → |x / 2| ≤ 1 := by
        intro x hx
        rw [abs_le] at *
        constructor <;> linarith [hx.1, hx.2]
      have hw : ∀ x : ℝ, |x| ≤ 5 / 4 → Reduced.WithinOne d.S (⟨x, 0, 0⟩ : V3 ℝ) ⟨x / 2, 0, 0⟩ := by
        intro x hx
        refine ⟨hd x hx, by simp, by simp, ?_⟩
        simp [d, doc]
      have hv : ∀ w, w = Lattice.sub (Images.add (Images.castV ℝ (out.sc.cells ⟨0, by omega⟩)) (positions (Rat.castHom ℝ) out i))
          (Images.add (Images.castV ℝ (out.sc.cells c)) (positions (Rat.castHom ℝ) out j)) →
          w = ⟨w.x, 0, 0⟩ ∧ |w.x| ≤ 5 / 4 := by
        intro w h
        subst h
        rcases hcs ⟨0, by omega⟩ with h0 | h0 <;> rcases hcs c with h2 | h2 <;> rcases hps i with h3 | h3 <;>
          rcases hps j with h4 | h4 <;> rw [h0, h2, h3, h4] <;> simp only [Lattice.sub, Images.add, Images.castV] <;>
          norm_num [abs_le]
      obtain ⟨hv1, hv2⟩ := hv _ rfl
      rw [hv1]
      exact ⟨_, hw _ hv2⟩

end Ex

/-- All the hypotheses hold together: the frequencies of this crystal at the boundary of the zone are real. -/
example : ∃ out, readInterpolation PhonopyFc.Ex.reg PhonopyFc.Ex.unitsOut 1000 (16 / 2 ^ 52) Ex.d PhonopyFc.Ex.files = .ok out ∧
    ∃ c0, ∀ (junk : Fin out.nc → Mat out.nu ℝ) (eigh : (Fin (out.nu * 3) → Fin (out.nu * 3) → ℂ) →
      (Fin (out.nu * 3) → ℝ) × (Fin (out.nu * 3) → Fin (out.nu * 3) → ℂ)) (_ : IsEigh eigh) (s : Fin (out.nu * 3)),
    0 ≤ freqOf ((eigh (weighted (massWeighting (masses (Rat.castHom ℝ) out)) (fcDynMat (cellOf (Rat.castHom ℝ) out)
      (positions (Rat.castHom ℝ) out) out.sc.cells c0 Ex.d.S Reduced.shells2 (matrices (Rat.castHom ℝ) out) junk
        ⟨1 / 2, 0, 0⟩) none none none)).1 s) := by
  obtain ⟨out, h, c0, hok⟩ := Ex.read
  refine ⟨out, h, c0, fun junk eigh he s => ?_⟩
  refine C164_stable_partial _ _ Ex.d _ out h Ex.layout Ex.springs _ rfl (Or.inl rfl) Ex.numeric Ex.apart Ex.O Ex.copies
    (Rat.castHom ℝ) Ex.periodic Ex.reciprocal Ex.stable ?_ c0 _ hok junk _ ?_ he s
  · intro j hj
    have : 0 < massOf PhonopyFc.Ex.reg PhonopyFc.Ex.unitsOut Ex.d j := by
      rcases (by omega : j = 0 ∨ j = 1) with rfl | rfl <;> decide +kernel
    simpa using this
  · exact ⟨⟨1, 0, 0⟩, by simp [Ex.d, PhonopyFc.Ex.doc], by simp [Ex.d, PhonopyFc.Ex.doc], by simp [Ex.d, PhonopyFc.Ex.doc]⟩

end Euphonic.PhonopyExact
