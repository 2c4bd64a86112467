import Verif.Props.Temperature
import Verif.Props.Sqw
import Verif.Props.DescribeScatter

/-!
# The sum rule for one-phonon scattering (C135)

The sum over all modes of frequency times structure factor does not depend on the force constants: it is the recoil energy of the
free atoms, weighted with the squares of scattering lengths and Debye-Waller factors.  The first moment of S(Q,w) at any temperature
is the same number, as far as the width of the bins permits.
-/

set_option autoImplicit false
set_option linter.unusedSectionVars false

namespace Euphonic.Scatter

open scoped ComplexConjugate

variable {na : Nat} {C : Cryst na} {nq nm : Nat}

/-! ## Specification -/

/-- The eigenvectors at a wavevector are normalised and orthogonal to each other. -/
def Orthonormal (m : Modes C nq nm) (q : Fin nq) : Prop :=
  ∀ j j', ∑ k, ∑ l, conj (m.evecs q j k l) * m.evecs q j' k l = if j = j' then 1 else 0

/-- Exponent of atom `k` with an optional Debye-Waller object. -/
noncomputable def expo (m : Modes C nq nm) (dw : Option DW) (q : Fin nq) (k : Fin na) : ℝ :=
  match dw with
  | none => 0
  | some dw => if h : dw.nAtoms = na then exponent m dw h q k else 0

/-- Recoil of the free atoms: `1/(2 n_atoms) sum_k |b_k|^2 exp(-2 W_k) Q^2 / M_k`. -/
noncomputable def recoil (m : Modes C nq nm) (data : String → Option ℂ) (dw : Option DW) (q : Fin nq) : ℝ :=
  (∑ k, ‖(data (C.atomType k)).getD 0‖ ^ 2 * Real.exp (-2 * expo m dw q k) / C.mass k * ∑ l, cartQ m q l ^ 2) / (2 * na)

/-! ## The sum over modes -/

theorem parseval (m : Modes C nq nm) (q : Fin nq) (ho : Orthonormal m q) (hn : nm = na * 3) (v : Fin na × Fin 3 → ℂ) :
    ∑ j, ‖∑ x : Fin na × Fin 3, conj (m.evecs q j x.1 x.2) * v x‖ ^ 2 = ∑ x, ‖v x‖ ^ 2 := by
  classical
  set E : Matrix (Fin nm) (Fin na × Fin 3) ℂ := Matrix.of fun j x => conj (m.evecs q j x.1 x.2) with hE
  have h1 : E * E.conjTranspose = 1 := by
    ext j j'
    rw [Matrix.mul_apply, Matrix.one_apply]
    have := ho j j'
    rw [← Fintype.sum_prod_type' (f := fun k l => conj (m.evecs q j k l) * m.evecs q j' k l)] at this
    rw [← this]
    refine Finset.sum_congr rfl fun x _ => ?_
    simp [hE, Matrix.conjTranspose_apply]
  have h2 : E.conjTranspose * E = 1 :=
    (Matrix.mul_eq_one_comm_of_card_eq _ _ _ (by simp [hn])).1 h1
  have e : ∀ z : ℂ, ((‖z‖ ^ 2 : ℝ) : ℂ) = star z * z := fun z => by
    rw [Complex.star_def, ← Complex.normSq_eq_conj_mul_self, Complex.normSq_eq_norm_sq]
  have h : ((∑ j, ‖∑ x : Fin na × Fin 3, conj (m.evecs q j x.1 x.2) * v x‖ ^ 2 : ℝ) : ℂ) = ((∑ x, ‖v x‖ ^ 2 : ℝ) : ℂ) := by
    rw [Complex.ofReal_sum, Complex.ofReal_sum]
    simp only [e]
    have h3 : ∀ j, star (∑ x : Fin na × Fin 3, conj (m.evecs q j x.1 x.2) * v x) *
        (∑ x : Fin na × Fin 3, conj (m.evecs q j x.1 x.2) * v x) =
        ∑ x, ∑ y, star (v x) * v y * (star (E j x) * E j y) := by
      intro j
      rw [star_sum, Finset.sum_mul]
      refine Finset.sum_congr rfl fun x _ => ?_
      rw [Finset.mul_sum]
      refine Finset.sum_congr rfl fun y _ => ?_
      rw [star_mul', hE, Matrix.of_apply, Matrix.of_apply]
      ring
    rw [Finset.sum_congr rfl fun j _ => h3 j, Finset.sum_comm]
    refine Finset.sum_congr rfl fun x _ => ?_
    rw [Finset.sum_comm]
    have h4 : ∀ y, ∑ j, star (v x) * v y * (star (E j x) * E j y) = if x = y then star (v x) * v y else 0 := by
      intro y
      rw [← Finset.mul_sum]
      have := congrFun (congrFun h2 x) y
      rw [Matrix.mul_apply, Matrix.one_apply] at this
      simp only [Matrix.conjTranspose_apply] at this
      rw [this]
      split <;> simp
    rw [Finset.sum_congr rfl fun y _ => h4 y, Finset.sum_ite_eq, if_pos (Finset.mem_univ _)]
  exact_mod_cast h

theorem norm_expFactor (m : Modes C nq nm) (q : Fin nq) (k : Fin na) : ‖expFactor m q k‖ = 1 := by
  unfold expFactor
  have : Complex.I * 2 * Real.pi * ((∑ j, m.qpts q j * C.atomR k j : ℝ) : ℂ) =
      ((2 * Real.pi * ∑ j, m.qpts q j * C.atomR k j : ℝ) : ℂ) * Complex.I := by
    push_cast
    ring
  rw [this, Complex.norm_exp_ofReal_mul_I]

theorem dwFactors_expo (m : Modes C nq nm) (dw : Option DW) (d : Fin nq → Fin na → ℝ) (h : dwFactors m dw = .ok d) (q : Fin nq)
    (k : Fin na) : d q k ^ 2 = Real.exp (-2 * expo m dw q k) := by
  cases dw with
  | none =>
    simp only [dwFactors, Except.ok.injEq] at h
    rw [← h]
    simp [expo]
  | some dw =>
    unfold dwFactors at h
    dsimp only at h
    split at h
    · rename_i hn
      simp only [Except.ok.injEq] at h
      rw [← h]
      simp only [expo, dif_pos hn, dwFactor, exponent]
      rw [← Real.exp_nat_mul]
      congr 1
      push_cast
      ring
    · cases h

/-- **C135** The sum over modes of frequency times structure factor is the recoil of the free atoms, whatever the force
constants. -/
theorem C135_sum_rule (m : Modes C nq nm) (data : String → Option ℂ) (dw : Option DW) (r : SF nq nm)
    (h : calculateStructureFactor m data dw = .ok r) (hM : ∀ k, 0 < C.mass k) (q : Fin nq) (ho : Orthonormal m q)
    (hn : nm = na * 3) (hf : ∀ j, m.freqs q j ≠ 0) :
    ∑ j, |r.freqs q j| * r.sf q j = recoil m data dw q := by
  obtain ⟨sl, d, h1, h2, rfl⟩ := sf_ok m data dw r h
  have hsl : ∀ k, sl k = (data (C.atomType k)).getD 0 := by
    unfold lookupAll at h1
    split at h1
    · simp only [Except.ok.injEq] at h1
      intro k
      rw [← h1]
    · cases h1
  set v : Fin na × Fin 3 → ℂ := fun x =>
    (cartQ m q x.2 : ℂ) * (expFactor m q x.1 * (d q x.1 : ℂ)) * (sl x.1 / (Real.sqrt (C.mass x.1) : ℂ)) with hv
  have hterm : ∀ j, sfTerm m sl d q j = ∑ x : Fin na × Fin 3, conj (m.evecs q j x.1 x.2) * v x := by
    intro j
    rw [Fintype.sum_prod_type]
    unfold sfTerm evecDotQ
    refine Finset.sum_congr rfl fun k _ => ?_
    rw [Finset.sum_mul, Finset.sum_mul]
    refine Finset.sum_congr rfl fun l _ => ?_
    simp only [hv]
    ring
  have hval : ∀ j, |m.freqs q j| * sfValue na (sfTerm m sl d q j) (m.freqs q j) =
      ‖∑ x : Fin na × Fin 3, conj (m.evecs q j x.1 x.2) * v x‖ ^ 2 / (2 * na) := by
    intro j
    have := abs_pos.2 (hf j)
    unfold sfValue
    rw [hterm, norm_mul, Complex.norm_conj]
    field_simp
  change ∑ j, |m.freqs q j| * sfValue na (sfTerm m sl d q j) (m.freqs q j) = _
  rw [Finset.sum_congr rfl fun j _ => hval j, ← Finset.sum_div, parseval m q ho hn, recoil, Fintype.sum_prod_type]
  congr 1
  refine Finset.sum_congr rfl fun k _ => ?_
  rw [Finset.mul_sum]
  refine Finset.sum_congr rfl fun l _ => ?_
  rw [hv, norm_mul, norm_mul, norm_mul, norm_expFactor, norm_div, Complex.norm_real, Complex.norm_real, Complex.norm_real, Real.norm_eq_abs,
    Real.norm_eq_abs, Real.norm_eq_abs, one_mul, mul_pow, mul_pow, sq_abs, sq_abs, div_pow, sq_abs, Real.sq_sqrt (hM k).le,
    dwFactors_expo m dw d h2, hsl]
  ring

/-- **C135** Also with population factors of any temperature: energies lost minus energies gained give the same sum. -/
theorem C135_any_temperature (m : Modes C nq nm) (data : String → Option ℂ) (dw : Option DW) (r : SF nq nm)
    (h : calculateStructureFactor m data dw = .ok r) (hM : ∀ k, 0 < C.mass k) (q : Fin nq) (ho : Orthonormal m q)
    (hn : nm = na * 3) (hf : ∀ j, 0 < m.freqs q j) (kB T : ℝ) :
    ∑ j, (r.freqs q j * (Dos.intensities Real.exp kB (some T) (r.freqs q j) (r.sf q j)).1 +
      (-r.freqs q j) * (Dos.intensities Real.exp kB (some T) (r.freqs q j) (r.sf q j)).2) = recoil m data dw q := by
  rw [← C135_sum_rule m data dw r h hM q ho hn fun j => (hf j).ne']
  obtain ⟨sl, d, h1, h2, rfl⟩ := sf_ok m data dw r h
  refine Finset.sum_congr rfl fun j _ => ?_
  simp only [Dos.intensities]
  rw [abs_of_pos (hf j)]
  ring

/-! ## The map -/

/-- Sum over bins of the distance between the centres of the bins and an energy in one of them. -/
theorem moment_le (b : List ℝ) (hs : b.Pairwise (· < ·)) (δ : ℝ)
    (hw : ∀ i < b.length - 1, b.getD (i + 1) 0 - b.getD i 0 ≤ δ) (x v : ℝ) (hv : 0 ≤ v) (hr : Dos.InRange b x) :
    |(∑ i ∈ Finset.range (b.length - 1), (b.getD i 0 + b.getD (i + 1) 0) / 2 * if Dos.InBin b i x then v else 0) - x * v| ≤ δ / 2 * v := by
  have h1 := Dos.sum_inBin b (hs.imp le_of_lt) x v
  rw [if_pos hr] at h1
  have e : (∑ i ∈ Finset.range (b.length - 1), (b.getD i 0 + b.getD (i + 1) 0) / 2 * if Dos.InBin b i x then v else 0) - x * v =
      ∑ i ∈ Finset.range (b.length - 1), ((b.getD i 0 + b.getD (i + 1) 0) / 2 - x) * if Dos.InBin b i x then v else 0 := by
    simp only [sub_mul, Finset.sum_sub_distrib]
    rw [← Finset.mul_sum, h1]
  rw [e]
  have h2 : δ / 2 * v = ∑ i ∈ Finset.range (b.length - 1), δ / 2 * if Dos.InBin b i x then v else 0 := by
    rw [← Finset.mul_sum, h1]
  rw [h2]
  refine (Finset.abs_sum_le_sum_abs _ _).trans (Finset.sum_le_sum fun i hi => ?_)
  split
  · rename_i hb
    rw [abs_mul, abs_of_nonneg hv]
    refine mul_le_mul_of_nonneg_right ?_ hv
    have := hw i (Finset.mem_range.1 hi)
    obtain ⟨b1, b2⟩ := hb
    rw [abs_le]
    constructor <;> linarith
  · simp

/-- **C135** The first moment of a row of the S(Q,w) map, calculated with the centres of the bins, is the recoil of the free
atoms (in the units of the map) at every temperature, with an error of at most half a bin width times the total intensity, if
the bins cover the energies of all modes on both sides (no mode at any q-point of the map has exactly zero frequency, where the
population factor is infinite). -/
theorem C135_first_moment (m : Modes C nq nm) (data : String → Option ℂ) (dw : Option DW) (r : SF nq nm)
    (h : calculateStructureFactor m data dw = .ok r) (hM : ∀ k, 0 < C.mass k) (q : Fin nq) (ho : Orthonormal m q)
    (hn : nm = na * 3) (hf : ∀ j, 0 < m.freqs q j) (hz : ∀ p j, m.freqs p j ≠ 0) (kB c sfConv T : ℝ) (hk : 0 < kB) (hc : 0 < c)
    (hsf : 0 ≤ sfConv) (b : List ℝ) (hs : b.Pairwise (· < ·)) (δ : ℝ) (hw : ∀ i < b.length - 1, b.getD (i + 1) 0 - b.getD i 0 ≤ δ)
    (hr : ∀ j, Dos.InRange b (m.freqs q j / c) ∧ Dos.InRange b (-(m.freqs q j / c))) (given : Option ℝ)
    (hT : Dos.usedTemperature true r.temperature given = .ok (some T)) :
    ∃ rows, Dos.calculateSqwMap Real.exp kB c sfConv b true r.temperature given r.freqs r.sf = .ok rows ∧
      |(∑ i ∈ Finset.range (b.length - 1), (b.getD i 0 + b.getD (i + 1) 0) / 2 *
          ((rows.getD q.val []).getD i 0 * (b.getD (i + 1) 0 - b.getD i 0))) - sfConv * (recoil m data dw q / c)| ≤
        δ / 2 * (sfConv * ∑ j, (1 + 2 * bose kB T (r.freqs q j)) * r.sf q j) := by
  obtain ⟨rows, h1, -, h2⟩ := Dos.C24_sqw_bins Real.exp kB c sfConv hc b hs true r.temperature given r.freqs r.sf (some T) hT
    (by
      rintro t - ht p j
      have hfr : r.freqs = m.freqs := by
        obtain ⟨sl, d, -, -, rfl⟩ := sf_ok m data dw r h
        rfl
      rw [hfr]
      exact Dos.exp_ne_one hk ht (hz p j))
  refine ⟨rows, h1, ?_⟩
  have hrec := C135_any_temperature m data dw r h hM q ho hn hf kB T
  have hsfn : ∀ j, 0 ≤ r.sf q j := fun j => C27_nonneg m data dw r h q j
  have hfr : r.freqs = m.freqs := by
    obtain ⟨sl, d, -, -, rfl⟩ := sf_ok m data dw r h
    rfl
  simp only [Dos.intensities] at hrec
  rw [hfr] at hrec h2 ⊢
  have hb : ∀ j, 0 ≤ bose kB T (m.freqs q j) := fun j => (C134_bose_mono hk (hf j).ne' (le_refl T)).1
  have hbe : ∀ j, Dos.boseFactor Real.exp kB T (m.freqs q j) = bose kB T (m.freqs q j) := fun j => rfl
  simp only [hbe] at hrec h2
  have e1 : (∑ i ∈ Finset.range (b.length - 1), (b.getD i 0 + b.getD (i + 1) 0) / 2 *
      ((rows.getD q.val []).getD i 0 * (b.getD (i + 1) 0 - b.getD i 0))) =
      sfConv * ∑ j, ((∑ i ∈ Finset.range (b.length - 1), (b.getD i 0 + b.getD (i + 1) 0) / 2 *
        if Dos.InBin b i (m.freqs q j / c) then (1 + bose kB T (m.freqs q j)) * r.sf q j else 0) +
        ∑ i ∈ Finset.range (b.length - 1), (b.getD i 0 + b.getD (i + 1) 0) / 2 *
        if Dos.InBin b i (-(m.freqs q j / c)) then bose kB T (m.freqs q j) * r.sf q j else 0) := by
    have e2 : ∀ i ∈ Finset.range (b.length - 1), (b.getD i 0 + b.getD (i + 1) 0) / 2 *
        ((rows.getD q.val []).getD i 0 * (b.getD (i + 1) 0 - b.getD i 0)) =
        sfConv * ∑ j, ((b.getD i 0 + b.getD (i + 1) 0) / 2 *
          (if Dos.InBin b i (m.freqs q j / c) then (1 + bose kB T (m.freqs q j)) * r.sf q j else 0) +
          (b.getD i 0 + b.getD (i + 1) 0) / 2 *
          if Dos.InBin b i (-(m.freqs q j / c)) then bose kB T (m.freqs q j) * r.sf q j else 0) := by
      intro i hi
      rw [(h2 q).2 i (Finset.mem_range.1 hi)]
      simp only [Dos.sqwBin, ← mul_add, hbe]
      rw [← Finset.mul_sum, mul_left_comm]
    rw [Finset.sum_congr rfl e2, ← Finset.mul_sum, Finset.sum_comm]
    simp only [Finset.sum_add_distrib]
  rw [e1, ← hrec, Finset.sum_div, ← mul_sub, ← Finset.sum_sub_distrib, abs_mul, abs_of_nonneg hsf]
  rw [mul_left_comm (δ / 2)]
  refine mul_le_mul_of_nonneg_left ?_ hsf
  rw [Finset.mul_sum]
  refine (Finset.abs_sum_le_sum_abs _ _).trans (Finset.sum_le_sum fun j _ => ?_)
  have m1 := moment_le b hs δ hw _ ((1 + bose kB T (m.freqs q j)) * r.sf q j)
    (mul_nonneg (by linarith [hb j]) (hsfn j)) (hr j).1
  have m2 := moment_le b hs δ hw _ (bose kB T (m.freqs q j) * r.sf q j) (mul_nonneg (hb j) (hsfn j)) (hr j).2
  rw [abs_le] at m1 m2 ⊢
  have e3 : (m.freqs q j * ((1 + bose kB T (m.freqs q j)) * r.sf q j) + -m.freqs q j * (bose kB T (m.freqs q j) * r.sf q j)) / c =
      m.freqs q j / c * ((1 + bose kB T (m.freqs q j)) * r.sf q j) + -(m.freqs q j / c) * (bose kB T (m.freqs q j) * r.sf q j) := by
    ring
  rw [e3]
  constructor <;> linarith [m1.1, m1.2, m2.1, m2.2]

/-! ## Modes calculated from force constants -/

open Euphonic.DynMat Euphonic.Describe Euphonic.Supercell Euphonic.Lattice in
/-- **C135** Modes calculated from force constants meet the hypotheses: two sets of force constants of the same crystal give
the same sum of frequency times structure factor, without Debye-Waller factors. -/
theorem C135_any_force_constants {n N : Nat} (d : Description n N) (fc' : Fin N → Mat n ℝ) {images : List (V3 ℤ)}
    (hok : d.Ok images) {op op' : Fin N → Fin N} {t t' : Fin N → V3 ℤ} (hs : Symmetric d.cells d.S d.fc op t)
    (hs' : Symmetric d.cells d.S fc' op' t') (junk : Fin N → Mat n ℝ) (types : Fin n → String)
    {eigh : Mat n ℂ → (Fin (n * 3) → ℝ) × Mat n ℂ} (he : IsEigh eigh) (qs : Fin nq → V3 ℝ) (weights : Fin nq → ℝ)
    (hM : ∀ k, 0 < d.mass k) (data : String → Option ℂ) (r r' : SF nq (n * 3))
    (h : calculateStructureFactor (d.modes types images junk eigh qs weights) data none = .ok r)
    (h' : calculateStructureFactor (({ d with fc := fc' } : Description n N).modes types images junk eigh qs weights) data none = .ok r')
    (q : Fin nq) (hf : ∀ s, r.freqs q s ≠ 0) (hf' : ∀ s, r'.freqs q s ≠ 0) :
    ∑ s, |r.freqs q s| * r.sf q s = ∑ s, |r'.freqs q s| * r'.sf q s := by
  have key : ∀ d : Description n N, d.Ok images → ∀ op t, Symmetric d.cells d.S d.fc op t →
      Orthonormal (d.modes types images junk eigh qs weights) q := by
    intro d hok op t hs j j'
    have h := he.ortho _ (d.hermitian hok hs junk (qs q)) j j'
    rw [← h, sum_rows]
    rfl
  have e1 : r.freqs = (d.modes types images junk eigh qs weights).freqs := by
    obtain ⟨sl, D, -, -, rfl⟩ := sf_ok _ data none r h
    rfl
  have e2 : r'.freqs = (({ d with fc := fc' } : Description n N).modes types images junk eigh qs weights).freqs := by
    obtain ⟨sl, D, -, -, rfl⟩ := sf_ok _ data none r' h'
    rfl
  rw [C135_sum_rule _ data none r h hM q (key d hok op t hs) rfl (fun s => e1 ▸ hf s),
    C135_sum_rule _ data none r' h' hM q (key { d with fc := fc' } ⟨hok.reduced, hok.first⟩ op' t' hs') rfl (fun s => e2 ▸ hf' s)]
  rfl

/-! ### A case meeting the hypotheses -/

namespace SumRuleEx

/-- One atom of mass 2 in a cubic cell. -/
noncomputable def cr : Cryst 1 where
  atomR := fun _ _ => 0
  atomType := fun _ => "Si"
  mass := fun _ => 2
  recip := fun i j => if i = j then 1 else 0

/-- Its three modes at a wavevector with three different components. -/
noncomputable def modes : Modes cr 1 3 where
  qpts := fun _ j => j.val + 1
  freqs := fun _ j => j.val + 1
  evecs := fun _ j _ l => if j = l then 1 else 0
  weights := fun _ => 1

theorem modes_ortho : Orthonormal modes 0 := by
  intro j j'
  simp only [modes]
  fin_cases j <;> fin_cases j' <;> simp

/-- The recoil of an absorbing nucleus is `|b|^2 (1 + 4 + 9) / (2 * 2)` with `|b|^2 = 16`, and bins of width 1 between -4 and 4 cover the modes. -/
example : ∃ r, calculateStructureFactor modes (fun _ => some ⟨12 / 5, -(16 / 5)⟩) none = .ok r ∧ ∑ j, |r.freqs 0 j| * r.sf 0 j = 56 ∧
    (∀ j, Dos.InRange [-4, -3, -2, -1, 0, 1, 2, 3, 4] (modes.freqs 0 j / 1) ∧
      Dos.InRange [-4, -3, -2, -1, 0, 1, 2, 3, 4] (-(modes.freqs 0 j / 1))) := by
  have hl : lookupAll (n := 1) (fun _ => some ⟨12 / 5, -(16 / 5)⟩) cr.atomType = .ok fun _ => (⟨12 / 5, -(16 / 5)⟩ : ℂ) := by
    simp [lookupAll]
  refine ⟨_, by simp only [calculateStructureFactor, hl, dwFactors, bind, Except.bind, pure, Except.pure]; rfl, ?_, ?_⟩
  · rw [C135_sum_rule modes (fun _ => some ⟨12 / 5, -(16 / 5)⟩) none _
      (by simp only [calculateStructureFactor, hl, dwFactors, bind, Except.bind, pure, Except.pure])
      (by simp [cr]) 0 modes_ortho rfl (by intro j; change ((j.val : ℝ) + 1) ≠ 0; positivity)]
    simp [recoil, expo, cartQ, modes, cr, Fin.sum_univ_three, Complex.sq_norm, Complex.normSq_mk]
    norm_num
  · intro j
    fin_cases j <;> norm_num [Dos.InRange, modes]

end SumRuleEx

end Euphonic.Scatter
