import Verif.Props.DebyeGrid
import Verif.Props.Dos

/-!
# C137: densities of states from symmetry-reduced wavevectors

A symmetry-reduced set of wavevectors, weighted with the number of wavevectors each one stands for, gives the total density of
states of the full set and the partial ones of each species, but not those of the single atoms.
-/

set_option autoImplicit false
set_option linter.unusedSectionVars false

namespace Euphonic.DebyeSym

open Euphonic.Lattice Euphonic.Supercell Euphonic.Phases Euphonic.Images Euphonic.DynMat Euphonic.Reduced
open Euphonic.Commensurate Euphonic.Acoustic Euphonic.Scatter Euphonic.Describe Euphonic.Symmetry

variable {n N nq nF : Nat} {d : Description n N}

/-! ## Specification -/

/-- What `calculate_pdos` gets from the modes of a crystal (euphonic/qpoint_phonon_modes.py:563-596); cross-sections are given
for each species. -/
noncomputable def pdos (d : Description n N) (types : Fin n → String) (images : List (V3 ℤ)) (junk : Fin N → Mat n ℝ)
    (eigh : Mat n ℂ → (Fin (n * 3) → ℝ) × Mat n ℂ) (c : ℝ) (b : List ℝ) (cs : Option (String → ℝ)) (qs : Fin nq → V3 ℝ)
    (w : Fin nq → ℝ) : Except Err (List (List ℝ)) :=
  let m := d.modes types images junk eigh qs w
  Dos.calculatePdos c b m.freqs m.weights (fun q s k l => ((m.evecs q s k l).re, (m.evecs q s k l).im)) d.mass
    (cs.map fun f k => f (types k))

/-- What `calculate_dos` gets (euphonic/qpoint_frequencies.py:152-158). -/
noncomputable def dos (d : Description n N) (types : Fin n → String) (images : List (V3 ℤ)) (junk : Fin N → Mat n ℝ)
    (eigh : Mat n ℂ → (Fin (n * 3) → ℝ) × Mat n ℂ) (c : ℝ) (b : List ℝ) (qs : Fin nq → V3 ℝ) (w : Fin nq → ℝ) :
    Except Err (List ℝ) :=
  let m := d.modes types images junk eigh qs w
  Dos.calculateDos c b m.freqs m.weights

/-- Bin `i` of the line of atom `k`. -/
def line (rows : List (List ℝ)) (k : Fin n) (i : Nat) : ℝ := (rows.getD k.val []).getD i 0

/-! ## One wavevector -/

/-- The part of atom `k` in the modes at a wavevector, counted with the weight `g` of their eigenvalue. -/
noncomputable def part (d : Description n N) (images : List (V3 ℤ)) (junk : Fin N → Mat n ℝ)
    (eigh : Mat n ℂ → (Fin (n * 3) → ℝ) × Mat n ℂ) (g : ℝ → ℝ) (q : V3 ℝ) (k : Fin n) : ℝ :=
  ∑ a, (spectral (eigh (d.weighted images junk q)) g (row k a) (row k a)).re

section
variable {images : List (V3 ℤ)} (hok : d.Ok images) {op : Fin N → Fin N} {t : Fin N → V3 ℤ}
  (hs : Symmetric d.cells d.S d.fc op t) (junk : Fin N → Mat n ℝ) {eigh : Mat n ℂ → (Fin (n * 3) → ℝ) × Mat n ℂ}
  (he : IsEigh eigh) (g : ℝ → ℝ)
include hok hs he

theorem part_neg (q : V3 ℝ) (k : Fin n) :
    part d images junk eigh g (neg q) k = part d images junk eigh g q k := by
  unfold part
  refine Finset.sum_congr rfl fun a _ => ?_
  rw [weighted_neg]
  have hh := d.hermitian hok hs junk q
  rw [← spectral_unique d hh he (isEigh_conj he) g k k a a]
  unfold spectral conjEigh
  rw [Complex.re_sum, Complex.re_sum]
  refine Finset.sum_congr rfl fun s _ => ?_
  rw [Complex.re_ofReal_mul, Complex.re_ofReal_mul]
  congr 1
  simp

theorem part_same {q q' : V3 ℝ} (h : SameUpTo q q') (k : Fin n) :
    part d images junk eigh g q' k = part d images junk eigh g q k := by
  obtain ⟨G, rfl | rfl⟩ := h
  · unfold part
    rw [weighted_periodic]
  · rw [← part_neg hok hs junk he g q]
    unfold part
    rw [weighted_periodic]

/-- A rotated wavevector. -/
theorem part_rotated {h : Change n N N} (hr : h.Relates d d) (q : V3 ℝ) (i : Fin n) :
    part d images junk eigh g q (h.p i) = part d images junk eigh g (h.back q) i := by
  have e1 : ∀ a, (spectral (eigh (d.weighted images junk q)) g (row (h.p i) a) (row (h.p i) a)).re =
      ∑ a', ∑ b', h.R a a' * h.R a b' * (spectral (eigh (d.weighted images junk (h.back q))) g (row i a') (row i b')).re := by
    intro a
    rw [hr.spectral (hr.carries_weighted hok hok junk junk q) (d.hermitian hok hs junk _) he he, Complex.re_sum]
    refine Finset.sum_congr rfl fun a' _ => ?_
    rw [Complex.re_sum]
    refine Finset.sum_congr rfl fun b' _ => ?_
    have e : ∀ z : ℂ, expQR q (h.T i) * (h.R a a' : ℂ) * z * star (expQR q (h.T i) * (h.R a b' : ℂ)) =
        ((h.R a a' * h.R a b' : ℝ) : ℂ) * z := by
      intro z
      rw [star_mul', Complex.star_def, Complex.conj_ofReal]
      have := norm_expQR q (h.T i)
      rw [Complex.star_def] at this
      push_cast
      linear_combination ((h.R a a' : ℂ) * h.R a b' * z) * this
    rw [e, Complex.re_ofReal_mul]
  unfold part
  rw [Finset.sum_congr rfl fun a _ => e1 a, Finset.sum_comm]
  refine Finset.sum_congr rfl fun a' _ => ?_
  rw [Finset.sum_comm]
  rw [Finset.sum_eq_single a']
  · rw [← Finset.sum_mul, hr.ortho, if_pos rfl, one_mul]
  · intro b' _ hb
    rw [← Finset.sum_mul, hr.ortho, if_neg (Ne.symm hb), zero_mul]
  · simp

end

/-! ## What the code adds up -/

/-- A mode in bin `i`. -/
noncomputable def binOf (b : List ℝ) (c : ℝ) (i : Nat) (x : ℝ) : ℝ := if Dos.InBin b i (freqOf x / c) then 1 else 0

/-- Factor of the neutron-weighted density of states. -/
noncomputable def factorOf (mass : Fin n → ℝ) (types : Fin n → String) (cs : Option (String → ℝ)) (k : Fin n) : ℝ :=
  match cs with
  | none => 1
  | some f => f (types k) * ((∑ b, mass b) / (n : ℝ)) / mass k

theorem binTotal_part (types : Fin n → String) (images : List (V3 ℤ)) (junk : Fin N → Mat n ℝ)
    (eigh : Mat n ℂ → (Fin (n * 3) → ℝ) × Mat n ℂ) (c : ℝ) (b : List ℝ) (qs : Fin nq → V3 ℝ) (w : Fin nq → ℝ) (k : Fin n)
    (i : Nat) :
    Dos.binTotal b c (d.modes types images junk eigh qs w).freqs (fun q m => w q *
      Dos.evecWeights (fun q s k l => (((d.modes types images junk eigh qs w).evecs q s k l).re,
        ((d.modes types images junk eigh qs w).evecs q s k l).im)) q m k) i =
      (∑ q, w q * part d images junk eigh (binOf b c i) (qs q) k) / n := by
  unfold Dos.binTotal
  rw [Finset.sum_div]
  refine Finset.sum_congr rfl fun q _ => ?_
  unfold part spectral
  simp only [Complex.re_sum]
  rw [Finset.sum_comm, mul_div_assoc, Finset.sum_div, Finset.mul_sum]
  refine Finset.sum_congr rfl fun s _ => ?_
  have e : ∀ a, ((binOf b c i ((eigh (d.weighted images junk (qs q))).1 s) : ℝ) *
      ((eigh (d.weighted images junk (qs q))).2 s (row k a) * star ((eigh (d.weighted images junk (qs q))).2 s (row k a))) : ℂ).re
      = binOf b c i ((eigh (d.weighted images junk (qs q))).1 s) * (((eigh (d.weighted images junk (qs q))).2 s (row k a)).re *
        ((eigh (d.weighted images junk (qs q))).2 s (row k a)).re + ((eigh (d.weighted images junk (qs q))).2 s (row k a)).im *
        ((eigh (d.weighted images junk (qs q))).2 s (row k a)).im) := by
    intro a
    rw [Complex.re_ofReal_mul]
    simp
  rw [Finset.sum_congr rfl fun a _ => e a, ← Finset.mul_sum]
  unfold Dos.evecWeights binOf Description.modes
  dsimp only
  split <;> simp

theorem pdos_eq (types : Fin n → String) (images : List (V3 ℤ)) (junk : Fin N → Mat n ℝ)
    (eigh : Mat n ℂ → (Fin (n * 3) → ℝ) × Mat n ℂ) {c : ℝ} (hc : 0 < c) {b : List ℝ} (hb : b.Pairwise (· ≤ ·))
    (cs : Option (String → ℝ)) (qs : Fin nq → V3 ℝ) (w : Fin nq → ℝ) :
    ∃ rows, pdos d types images junk eigh c b cs qs w = .ok rows ∧ rows.length = n ∧ ∀ k : Fin n,
      (rows.getD k.val []).length = b.length - 1 ∧ ∀ i < b.length - 1, line rows k i =
        factorOf d.mass types cs k * ((∑ q, w q * part d images junk eigh (binOf b c i) (qs q) k) / ∑ q, w q) /
          (n * (b.getD (i + 1) 0 - b.getD i 0)) := by
  have hrow : pdos d types images junk eigh c b cs qs w = .ok ((List.finRange n).map fun k =>
      (List.range (b.length - 1)).map fun i =>
        (∑ q, w q * part d images junk eigh (binOf b c i) (qs q) k) / n / (b.getD (i + 1) 0 - b.getD i 0) / (∑ q, w q) *
          factorOf d.mass types cs k) := by
    unfold pdos Dos.calculatePdos
    apply mapM_ok_of_forall
    intro k _
    rw [show (d.modes types images junk eigh qs w).weights = w from rfl]
    simp only [Dos.calculateDos_mw c hc b hb, bind, Except.bind, pure, Except.pure, binTotal_part]
    cases cs with
    | none => simp [factorOf]
    | some f => simp [factorOf, List.map_map, Function.comp_def]
  refine ⟨_, hrow, by simp, fun k => ⟨?_, fun i hi => ?_⟩⟩
  · simp
  · unfold line
    rw [List.getD_eq_getElem _ _ (by simp : k.val < (List.map _ (List.finRange n)).length), List.getElem_map, List.getElem_finRange,
      List.getD_eq_getElem _ _ (by simpa using hi), List.getElem_map, List.getElem_range]
    simp only [Fin.cast_mk, Fin.eta]
    rw [mul_div_assoc', div_div, div_div, mul_comm, div_div, ← mul_div_assoc, mul_comm (∑ q, w q)]
    congr 1
    ring

/-! ## Main theorems -/

section
variable {images : List (V3 ℤ)} (hok : d.Ok images) {op : Fin N → Fin N} {t : Fin N → V3 ℤ}
  (hs : Symmetric d.cells d.S d.fc op t) (junk : Fin N → Mat n ℝ) {eigh : Mat n ℂ → (Fin (n * 3) → ℝ) × Mat n ℂ}
  (he : IsEigh eigh) {types : Fin n → String} {ops : List (Op ℝ)} {h : Fin ops.length → Change n N N}
  (hg : ∀ s, Genuine d types ops[s] (h s))
include hok hs he hg

theorem average_eq {qs : Fin nq → V3 ℝ} {w : Fin nq → ℝ} {Qs : Fin nF → V3 ℝ} {v : Fin nF → ℝ} (hf : StandsFor ops qs w Qs v)
    (g : ℝ → ℝ) (k : Fin n) :
    (∑ j, v j * part d images junk eigh g (Qs j) k) / ∑ j, v j =
      (∑ s, (∑ i, w i * part d images junk eigh g (qs i) ((h s).p.symm k)) / ∑ i, w i) / ops.length := by
  have e1 : ∀ s i, part d images junk eigh g (qs i) ((h s).p.symm k) = part d images junk eigh g (Qs (hf.goes i s)) k := by
    intro s i
    have := part_rotated hok hs junk he g (hg s).relates (Qs (hf.goes i s)) ((h s).p.symm k)
    rw [Equiv.apply_symm_apply] at this
    rw [this, unrotated_eq (hg s)]
    exact part_same hok hs junk he g (hf.moved i s) _
  simp only [e1]
  generalize part d images junk eigh g = u
  have e2 : ∑ s, ∑ i, w i * u (Qs (hf.goes i s)) k = hf.factor * ∑ j, v j * u (Qs j) k := by
    rw [Finset.mul_sum, Finset.sum_comm]
    have : ∀ j, hf.factor * (v j * u (Qs j) k) = ∑ i, ∑ s, if hf.goes i s = j then w i * u (Qs j) k else 0 := by
      intro j
      rw [← mul_assoc, hf.share, Finset.sum_mul]
      refine Finset.sum_congr rfl fun i _ => ?_
      rw [Finset.sum_mul]
      refine Finset.sum_congr rfl fun s _ => ?_
      split <;> simp
    simp only [this]
    conv_rhs => rw [Finset.sum_comm]
    refine Finset.sum_congr rfl fun i _ => ?_
    conv_rhs => rw [Finset.sum_comm]
    refine Finset.sum_congr rfl fun s _ => ?_
    simp
  have e3 : (∑ i, w i) * ops.length = hf.factor * ∑ j, v j := by
    rw [Finset.mul_sum]
    simp only [hf.share]
    rw [Finset.sum_comm, Finset.sum_mul]
    refine Finset.sum_congr rfl fun i _ => ?_
    rw [Finset.sum_comm]
    simp [mul_comm]
  rw [← Finset.sum_div, div_div, e2, e3, mul_div_mul_left _ _ hf.factor_ne]

theorem group_average {qs : Fin nq → V3 ℝ} {w : Fin nq → ℝ} (hne : ops ≠ []) {Qs : Fin nF → V3 ℝ} {v : Fin nF → ℝ}
    (hf : StandsFor ops qs w Qs v) (g : ℝ → ℝ) (F : Fin n → ℝ) (hF : ∀ s k, F ((h s).p k) = F k) :
    ∑ k, F k * ((∑ j, v j * part d images junk eigh g (Qs j) k) / ∑ j, v j) =
      ∑ k, F k * ((∑ i, w i * part d images junk eigh g (qs i) k) / ∑ i, w i) := by
  simp only [average_eq hok hs junk he hg hf g]
  generalize hu : (fun k => (∑ i, w i * part d images junk eigh g (qs i) k) / ∑ i, w i) = u
  have hu' : ∀ k, (∑ i, w i * part d images junk eigh g (qs i) k) / ∑ i, w i = u k := fun k => by rw [← hu]
  simp only [hu']
  have e : ∀ s, ∑ k, F k * u ((h s).p.symm k) = ∑ k, F k * u k := by
    intro s
    rw [← Equiv.sum_comp (h s).p fun k => F k * u ((h s).p.symm k)]
    simp [hF]
  simp only [← mul_div_assoc, Finset.mul_sum]
  rw [← Finset.sum_div, Finset.sum_comm, Finset.sum_congr rfl fun s _ => e s]
  have : (ops.length : ℝ) ≠ 0 := by
    have := List.length_pos_iff.2 hne
    positivity
  simp
  field_simp

/-- **C137** (partial: see the violation for single atoms; supercells are reduced, no corrections, no broadening) The lines of
the partial density of states, added up over a set of atoms that the symmetry operations only exchange among themselves, are the
same for the reduced and for the full set of wavevectors; with or without neutron weighting. -/
theorem C137_group_partial {c : ℝ} (hc : 0 < c) {b : List ℝ} (hb : b.Pairwise (· ≤ ·)) (cs : Option (String → ℝ))
    {qs : Fin nq → V3 ℝ} {w : Fin nq → ℝ} (_hw : ∑ i, w i ≠ 0) (hne : ops ≠ []) {Qs : Fin nF → V3 ℝ} {v : Fin nF → ℝ}
    (hf : StandsFor ops qs w Qs v) (A : Finset (Fin n)) (hA : ∀ s k, (h s).p k ∈ A ↔ k ∈ A) :
    ∃ rows rows', pdos d types images junk eigh c b cs qs w = .ok rows ∧ pdos d types images junk eigh c b cs Qs v = .ok rows' ∧
      ∀ i < b.length - 1, ∑ k ∈ A, line rows k i = ∑ k ∈ A, line rows' k i := by
  obtain ⟨rows, h1, -, h2⟩ := pdos_eq (d := d) types images junk eigh hc hb cs qs w
  obtain ⟨rows', h1', -, h2'⟩ := pdos_eq (d := d) types images junk eigh hc hb cs Qs v
  refine ⟨rows, rows', h1, h1', fun i hi => ?_⟩
  rw [Finset.sum_congr rfl fun k _ => (h2 k).2 i hi, Finset.sum_congr rfl fun k _ => (h2' k).2 i hi, ← Finset.sum_div,
    ← Finset.sum_div]
  congr 1
  have key := group_average hok hs junk he hg hne hf (binOf b c i) (fun k => if k ∈ A then factorOf d.mass types cs k else 0) (by
    intro s k
    simp only [hA]
    congr 1
    unfold factorOf
    cases cs with
    | none => rfl
    | some f =>
      dsimp only
      rw [(hg s).types, (hg s).relates.masses])
  simp only [ite_mul, zero_mul] at key
  rw [← Finset.sum_filter, ← Finset.sum_filter, Finset.filter_mem_eq_inter, Finset.univ_inter] at key
  exact key.symm

/-- **C137** (partial: as above) The partial density of states of each species is the same for the reduced and for the full set
of wavevectors. -/
theorem C137_species_partial {c : ℝ} (hc : 0 < c) {b : List ℝ} (hb : b.Pairwise (· ≤ ·)) (cs : Option (String → ℝ))
    {qs : Fin nq → V3 ℝ} {w : Fin nq → ℝ} (hw : ∑ i, w i ≠ 0) (hne : ops ≠ []) {Qs : Fin nF → V3 ℝ} {v : Fin nF → ℝ}
    (hf : StandsFor ops qs w Qs v) :
    ∃ rows rows', pdos d types images junk eigh c b cs qs w = .ok rows ∧ pdos d types images junk eigh c b cs Qs v = .ok rows' ∧
      ∀ species, ∀ i < b.length - 1, ∑ k with types k = species, line rows k i = ∑ k with types k = species, line rows' k i := by
  obtain ⟨rows, h1, -, -⟩ := pdos_eq (d := d) types images junk eigh hc hb cs qs w
  obtain ⟨rows', h1', -, -⟩ := pdos_eq (d := d) types images junk eigh hc hb cs Qs v
  refine ⟨rows, rows', h1, h1', fun species i hi => ?_⟩
  obtain ⟨r, r', e, e', h2⟩ := C137_group_partial hok hs junk he hg hc hb cs hw hne hf (Finset.univ.filter fun k => types k = species)
    (fun s k => by simp [(hg s).types])
  rw [h1] at e
  rw [h1'] at e'
  cases e
  cases e'
  exact h2 i hi

/-- **C137** (partial: as above) What the full set gives for a single atom is the mean of what the reduced set gives for the
atoms that the operations move there. -/
theorem C137_atom_mean_partial {c : ℝ} (hc : 0 < c) {b : List ℝ} (hb : b.Pairwise (· ≤ ·))
    {qs : Fin nq → V3 ℝ} {w : Fin nq → ℝ} (_hw : ∑ i, w i ≠ 0) (_hne : ops ≠ []) {Qs : Fin nF → V3 ℝ} {v : Fin nF → ℝ}
    (hf : StandsFor ops qs w Qs v) :
    ∃ rows rows', pdos d types images junk eigh c b none qs w = .ok rows ∧ pdos d types images junk eigh c b none Qs v = .ok rows' ∧
      ∀ k, ∀ i < b.length - 1, line rows' k i = (∑ s, line rows ((h s).p.symm k) i) / ops.length := by
  obtain ⟨rows, h1, -, h2⟩ := pdos_eq (d := d) types images junk eigh hc hb none qs w
  obtain ⟨rows', h1', -, h2'⟩ := pdos_eq (d := d) types images junk eigh hc hb none Qs v
  refine ⟨rows, rows', h1, h1', fun k i hi => ?_⟩
  rw [(h2' k).2 i hi, average_eq hok hs junk he hg hf, Finset.sum_congr rfl fun s _ => (h2 ((h s).p.symm k)).2 i hi]
  simp only [factorOf, one_mul, ← Finset.sum_div, div_div]
  congr 1
  ring

/-- **C137** (partial: as above) The density of states is the same for the reduced and for the full set of wavevectors. -/
theorem C137_dos_partial (hn : 0 < n) {c : ℝ} (hc : 0 < c) {b : List ℝ} (hb : b.Pairwise (· ≤ ·))
    {qs : Fin nq → V3 ℝ} {w : Fin nq → ℝ} (_hw : ∑ i, w i ≠ 0) (hne : ops ≠ []) {Qs : Fin nF → V3 ℝ} {v : Fin nF → ℝ}
    (hf : StandsFor ops qs w Qs v) : ∃ y, dos d types images junk eigh c b qs w = .ok y ∧ dos d types images junk eigh c b Qs v = .ok y := by
  have hm : 0 < n * 3 := by omega
  unfold dos
  rw [Dos.C21_dos_counts_modes_in_bin c hc b hb hm, Dos.C21_dos_counts_modes_in_bin c hc b hb hm]
  refine ⟨_, rfl, ?_⟩
  congr 1
  apply List.map_congr_left
  intro i _
  -- all atoms together
  have hall : ∀ {m : Nat} (ks : Fin m → V3 ℝ) (u : Fin m → ℝ),
      Dos.binTotal b c (d.modes types images junk eigh ks u).freqs (fun q _ => u q * (3 / ((n * 3 : ℕ) : ℝ))) i =
        (∑ k, ∑ q, u q * part d images junk eigh (binOf b c i) (ks q) k) * (3 / ((n * 3 : ℕ) : ℝ)) := by
    intro m ks u
    rw [Finset.sum_comm, Finset.sum_mul]
    unfold Dos.binTotal
    refine Finset.sum_congr rfl fun q _ => ?_
    rw [← Finset.mul_sum]
    have hp : ∑ k, part d images junk eigh (binOf b c i) (ks q) k =
        ∑ s, binOf b c i ((eigh (d.weighted images junk (ks q))).1 s) := by
      unfold part
      rw [← Fintype.sum_prod_type' fun (k : Fin n) (a : Fin 3) =>
        (spectral (eigh (d.weighted images junk (ks q))) (binOf b c i) (row k a) (row k a)).re]
      rw [show (∑ x : Fin n × Fin 3, (spectral (eigh (d.weighted images junk (ks q))) (binOf b c i) (row x.1 x.2)
        (row x.1 x.2)).re) = ∑ k, (spectral (eigh (d.weighted images junk (ks q))) (binOf b c i) k k).re from
        Equiv.sum_comp finProdFinEquiv fun k => (spectral (eigh (d.weighted images junk (ks q))) (binOf b c i) k k).re]
      unfold spectral
      simp only [Complex.re_sum]
      rw [Finset.sum_comm]
      refine Finset.sum_congr rfl fun s _ => ?_
      rw [← Complex.re_sum, ← Finset.mul_sum, Complex.re_ofReal_mul]
      have := he.ortho _ (d.hermitian hok hs junk (ks q)) s s
      rw [if_pos rfl] at this
      rw [Finset.sum_congr rfl fun k _ => mul_comm _ _, this]
      simp
    rw [hp, mul_assoc, Finset.sum_mul, Finset.mul_sum]
    refine Finset.sum_congr rfl fun s _ => ?_
    unfold binOf Description.modes
    dsimp only
    split <;> simp
  rw [show (d.modes types images junk eigh qs w).weights = w from rfl, show (d.modes types images junk eigh Qs v).weights = v from rfl,
    hall, hall]
  have key := group_average hok hs junk he hg hne hf (binOf b c i) (fun _ => 1) (fun _ _ => rfl)
  simp only [one_mul, ← Finset.sum_div] at key
  rw [div_right_comm, mul_div_right_comm, key, ← mul_div_right_comm, div_right_comm]

end

/-! ## Single atoms: a counterexample, which also meets the hypotheses above -/

namespace Square

/-- Supercell 2x2x1. -/
def S : M3 ℤ := ⟨⟨2, 0, 0⟩, ⟨0, 2, 0⟩, ⟨0, 0, 1⟩⟩

/-- Its cells. -/
def cells : Fin 4 → V3 ℤ := ![⟨0, 0, 0⟩, ⟨1, 0, 0⟩, ⟨0, 1, 0⟩, ⟨1, 1, 0⟩]

/-- A square lattice of chains along x, and of chains along y, of the same atoms. -/
noncomputable def chains : Description 2 4 where
  cv := DynMat.Ex.cv
  r := ![⟨1 / 2, 0, 0⟩, ⟨0, 1 / 2, 0⟩]
  mass := fun _ => 1
  S := S
  cells := cells
  c0 := 0
  fc := fun c k l => if k = l then (if k.divNat = 0 then ![2, -2, 0, 0] c else ![2, 0, -2, 0] c) else 0

def types : Fin 2 → String := fun _ => "C"

/-- The mirror plane between the chains. -/
noncomputable def mirror : Change 2 4 4 where
  A := ⟨⟨0, 1, 0⟩, ⟨1, 0, 0⟩, ⟨0, 0, 1⟩⟩
  B := ⟨⟨0, 1, 0⟩, ⟨1, 0, 0⟩, ⟨0, 0, 1⟩⟩
  p := Equiv.swap 0 1
  T := fun _ => ⟨0, 0, 0⟩
  w := ⟨0, 0, 0⟩
  R := ![![0, 1, 0], ![1, 0, 0], ![0, 0, 1]]
  s := fun _ _ => ![0, 2, 1, 3]

theorem relates : mirror.Relates chains chains where
  left := fun v => by simp [mulMat, mirror]
  right := fun v => by simp [mulMat, mirror]
  ortho := fun a b => by fin_cases a <;> fin_cases b <;> simp [mirror, Fin.sum_univ_three]
  vectors := fun x => by
    simp [toCart, chains, DynMat.Ex.cv, castM, castV, mirror, rotV, Fin.sum_univ_three, comp0, comp1, comp2]
  positions := fun i => by
    fin_cases i <;> norm_num [mirror, chains, toCart, castM, castV, add]
  masses := fun i => rfl
  super := fun v => by
    constructor
    · rintro ⟨m, hm⟩
      refine ⟨⟨m.y, m.x, m.z⟩, ?_⟩
      simp [mulMat, mirror, chains, S, V3.mk.injEq] at hm ⊢
      obtain ⟨h1, h2, h3⟩ := hm
      exact V3.ext' (by simp; omega) (by simp; omega) (by simp; omega)
    · rintro ⟨m, hm⟩
      refine ⟨⟨m.y, m.x, m.z⟩, ?_⟩
      rw [hm]
      simp [mulMat, mirror, chains, S]
  bij := fun i j => by
    simp only [mirror]
    rw [← Finite.injective_iff_bijective]
    decide
  cell := fun i j c => by
    refine ⟨⟨0, 0, 0⟩, ?_⟩
    fin_cases c <;> simp [mulMat, sub, add, mirror, chains, cells]
  fcs := fun i j c a b => by
    have hrow : ∀ (i j : Fin 2) (a b : Fin 3), (row i a = row j b) ↔ (i = j ∧ a = b) := by
      intro i j a b
      simp [row]
    simp only [chains, row_div, hrow, mirror, Fin.sum_univ_three]
    fin_cases a <;> fin_cases b <;> fin_cases i <;> fin_cases j <;> fin_cases c <;> simp

/-- The identity and the mirror plane. -/
noncomputable def ops : List (Op ℝ) :=
  [⟨⟨⟨1, 0, 0⟩, ⟨0, 1, 0⟩, ⟨0, 0, 1⟩⟩, ⟨0, 0, 0⟩⟩, ⟨⟨⟨0, 1, 0⟩, ⟨1, 0, 0⟩, ⟨0, 0, 1⟩⟩, ⟨0, 0, 0⟩⟩]

theorem genuine : ∀ s : Fin ops.length, Genuine chains types ops[s] (![same 2 4, mirror] s) := by
  intro s
  change Fin 2 at s
  fin_cases s
  · exact ⟨same_relates _, rfl, rfl, fun _ => rfl⟩
  · exact ⟨relates, rfl, rfl, fun _ => rfl⟩

theorem reduced : IsReduced (scVecs S DynMat.Ex.cv) := by
  have e : ∀ a b c : ℝ, Images.sq (toCart (scVecs S DynMat.Ex.cv) ⟨a, b, c⟩) = 4 * a ^ 2 + 4 * b ^ 2 + c ^ 2 := by
    intro a b c
    simp [Images.sq, dot, toCart, scVecs, S, DynMat.Ex.cv, castV]
    ring
  have ea : Images.sq (scVecs S DynMat.Ex.cv).a = 4 := by
    simp [Images.sq, dot, toCart, scVecs, S, DynMat.Ex.cv, castV]; norm_num
  have eb : Images.sq (scVecs S DynMat.Ex.cv).b = 4 := by
    simp [Images.sq, dot, toCart, scVecs, S, DynMat.Ex.cv, castV]; norm_num
  have ec : Images.sq (scVecs S DynMat.Ex.cv).c = 1 := by simp [Images.sq, dot, toCart, scVecs, S, DynMat.Ex.cv, castV]
  have h1 : ∀ x : ℤ, |x| = 1 → (x : ℝ) ^ 2 = 1 := by
    intro x hx
    have : x ^ 2 = 1 := by rw [← sq_abs, hx, one_pow]
    exact_mod_cast this
  refine ⟨fun a b c ha hb hc => ?_, fun a b c ha hb hc => ?_, fun a b c ha hb hc => ?_⟩
  · rw [e, ea, h1 a ha]; nlinarith [sq_nonneg (b : ℝ), sq_nonneg (c : ℝ)]
  · rw [e, eb, h1 b hb]; nlinarith [sq_nonneg (a : ℝ), sq_nonneg (c : ℝ)]
  · rw [e, ec, h1 c hc]; nlinarith [sq_nonneg (a : ℝ), sq_nonneg (b : ℝ)]

theorem ok : chains.Ok shells2 where
  first := rfl
  reduced := ⟨shells2_eq, by simp [cellVolume, scVecs, chains, S, DynMat.Ex.cv, toCart, castV, dot, cross], reduced, fun c i j => by
    refine ⟨⟨((chains.r i).x - (chains.r j).x - (chains.cells c).x) / 2, ((chains.r i).y - (chains.r j).y - (chains.cells c).y) / 2, 0⟩, ?_, ?_, by simp, ?_⟩
    · fin_cases c <;> fin_cases i <;> fin_cases j <;> norm_num [chains, cells, abs_le]
    · fin_cases c <;> fin_cases i <;> fin_cases j <;> norm_num [chains, cells, abs_le]
    · fin_cases c <;> fin_cases i <;> fin_cases j <;> norm_num [chains, cells, S, sub, add, castV]⟩

theorem symmetric : Symmetric chains.cells chains.S chains.fc id ![⟨0, 0, 0⟩, ⟨-1, 0, 0⟩, ⟨0, -1, 0⟩, ⟨-1, -1, 0⟩] where
  invol := fun _ => rfl
  origin := by decide
  exchange := by
    intro c k l
    simp only [chains, id]
    by_cases h : k = l
    · rw [h]
    · rw [if_neg h, if_neg (Ne.symm h)]

/-- One of two equivalent wavevectors, with weight two, stands for both. -/
noncomputable def standsFor : StandsFor ops (fun _ : Fin 1 => ⟨1 / 2, 0, 0⟩) (fun _ => 2) ![⟨1 / 2, 0, 0⟩, ⟨0, 1 / 2, 0⟩] fun _ => 1 where
  goes := fun _ s => s
  moved := fun i s => by
    change Fin 2 at s
    refine ⟨⟨0, 0, 0⟩, Or.inl ?_⟩
    fin_cases s <;> simp [ops, unrotated, add, castV]
  factor := 2
  factor_ne := by norm_num
  share := fun j => by
    rw [Fin.sum_univ_one]
    change _ = ∑ s : Fin 2, if s = j then (2 : ℝ) else 0
    simp

theorem part_diagonal {m : Nat} {A : Mat m ℂ} (a : Fin (m * 3) → ℝ) (hA : ∀ k l, A k l = if k = l then (a k : ℂ) else 0)
    {eigh : Mat m ℂ → (Fin (m * 3) → ℝ) × Mat m ℂ} (he : IsEigh eigh) (g : ℝ → ℝ) (k : Fin (m * 3)) :
    (spectral (eigh A) g k k).re = g (a k) := by
  have hh : ∀ k l, A l k = star (A k l) := by
    intro k l
    rw [hA, hA]
    by_cases h : k = l
    · subst h; simp
    · rw [if_neg h, if_neg (Ne.symm h)]; simp
  have h1 : ∀ s, (g ((eigh A).1 s) : ℂ) * ((eigh A).2 s k * star ((eigh A).2 s k)) =
      (g (a k) : ℂ) * ((eigh A).2 s k * star ((eigh A).2 s k)) := by
    intro s
    have := he.eigen A hh s k
    simp only [hA, ite_mul, zero_mul, Finset.sum_ite_eq, Finset.mem_univ, if_true] at this
    by_cases h0 : (eigh A).2 s k = 0
    · simp [h0]
    · have h2 : (a k : ℂ) = (eigh A).1 s := mul_right_cancel₀ h0 this
      rw [show a k = (eigh A).1 s by exact_mod_cast h2]
  unfold spectral
  rw [Finset.sum_congr rfl fun s _ => h1 s, ← Finset.mul_sum, Complex.re_ofReal_mul]
  have h3 : ∑ s, (eigh A).2 s k * star ((eigh A).2 s k) = 1 := by
    set U : Matrix (Fin (m * 3)) (Fin (m * 3)) ℂ := Matrix.of fun s k => (eigh A).2 s k with hU
    have h4 : U * U.conjTranspose = 1 := by
      ext s s'
      rw [Matrix.mul_apply]
      have := he.ortho A hh s' s
      simp only [hU, Matrix.conjTranspose_apply, Matrix.of_apply, Matrix.one_apply]
      rw [Finset.sum_congr rfl fun k _ => mul_comm _ _, this]
      simp only [eq_comm]
    have h5 : (U.conjTranspose * U) k k = 1 := by rw [mul_eq_one_comm.1 h4, Matrix.one_apply_eq]
    rw [Matrix.mul_apply] at h5
    rw [← h5]
    refine Finset.sum_congr rfl fun s _ => ?_
    simp [hU, mul_comm]
  rw [h3]
  simp

/-- The matrix at the two wavevectors. -/
theorem weighted_eq (junk : Fin 4 → Mat 2 ℝ) (x y : ℝ) (hxy : x = 1 ∧ y = 0 ∨ x = 0 ∧ y = 1) (k l : Fin (2 * 3)) :
    chains.weighted shells2 junk ⟨x / 2, y / 2, 0⟩ k l = if k = l then ((if k.divNat = 0 then 4 * x else 4 * y : ℝ) : ℂ) else 0 := by
  have hf : Fits chains.S ⟨x / 2, y / 2, 0⟩ := by
    rcases hxy with ⟨rfl, rfl⟩ | ⟨rfl, rfl⟩
    · exact ⟨⟨1, 0, 0⟩, by norm_num [chains, S], by norm_num [chains, S], by norm_num [chains, S]⟩
    · exact ⟨⟨0, 1, 0⟩, by norm_num [chains, S], by norm_num [chains, S], by norm_num [chains, S]⟩
  have h1 := C129_exact_partial chains.cv chains.r chains.cells chains.c0 chains.S shells2 ok.reduced chains.fc junk _ hf k l
  have e : ∀ q : V3 ℝ, ∀ R : V3 ℤ, (q.x * R.x + q.y * R.y + q.z * R.z = 0 → expQR q R = 1) ∧
      (q.x * R.x + q.y * R.y + q.z * R.z = 1 / 2 → expQR q R = -1) := by
    intro q R
    constructor <;> intro h
    · simp [expQR, h]
    · unfold expQR
      rw [h, ← Complex.exp_pi_mul_I]
      congr 1
      push_cast
      ring
  unfold Description.weighted DynMat.weighted Description.dynMat
  dsimp only
  rw [h1]
  by_cases hkl : k = l
  · subst hkl
    simp only [Fin.sum_univ_four, chains, massWeighting, cells, if_true]
    have h0 : expQR ⟨x / 2, y / 2, 0⟩ ⟨0, 0, 0⟩ = 1 := (e _ _).1 (by simp)
    by_cases hk : k.divNat = 0
    · have h2 : expQR ⟨x / 2, y / 2, 0⟩ ⟨1, 0, 0⟩ = ((1 - 2 * x : ℝ) : ℂ) := by
        rcases hxy with ⟨rfl, rfl⟩ | ⟨rfl, rfl⟩
        · rw [(e _ _).2 (by norm_num)]; norm_num
        · rw [(e _ _).1 (by norm_num)]; norm_num
      simp [hk, h0, h2]
      ring
    · have h2 : expQR ⟨x / 2, y / 2, 0⟩ ⟨0, 1, 0⟩ = ((1 - 2 * y : ℝ) : ℂ) := by
        rcases hxy with ⟨rfl, rfl⟩ | ⟨rfl, rfl⟩
        · rw [(e _ _).1 (by norm_num)]; norm_num
        · rw [(e _ _).2 (by norm_num)]; norm_num
      simp [hk, h0, h2]
      ring
  · simp [hkl, chains]

theorem part_eq (junk : Fin 4 → Mat 2 ℝ) {eigh : Mat 2 ℂ → (Fin (2 * 3) → ℝ) × Mat 2 ℂ} (he : IsEigh eigh) (g : ℝ → ℝ) :
    part chains shells2 junk eigh g ⟨1 / 2, 0, 0⟩ = ![3 * g 4, 3 * g 0] ∧
      part chains shells2 junk eigh g ⟨0, 1 / 2, 0⟩ = ![3 * g 0, 3 * g 4] := by
  have h : ∀ x y : ℝ, x = 1 ∧ y = 0 ∨ x = 0 ∧ y = 1 →
      part chains shells2 junk eigh g ⟨x / 2, y / 2, 0⟩ = ![3 * g (4 * x), 3 * g (4 * y)] := by
    intro x y hxy
    funext k
    unfold part
    rw [Finset.sum_congr rfl fun a _ => part_diagonal _ (weighted_eq junk x y hxy) he g (row k a)]
    fin_cases k <;> simp [row_div]
  constructor
  · have := h 1 0 (Or.inl ⟨rfl, rfl⟩)
    norm_num at this
    norm_num
    exact this
  · have := h 0 1 (Or.inr ⟨rfl, rfl⟩)
    norm_num at this
    norm_num
    exact this

/-- **C137** *Violation:* two equivalent atoms (the mirror plane exchanges them), and one of two equivalent wavevectors with
weight two.  The partial density of states of the first atom is twice that from both wavevectors, that of the other is zero. -/
theorem C137_atom_lost (junk : Fin 4 → Mat 2 ℝ) {eigh : Mat 2 ℂ → (Fin (2 * 3) → ℝ) × Mat 2 ℂ} (he : IsEigh eigh) :
    ∃ rows rows',
      pdos chains types shells2 junk eigh 1 [1, 3] none (fun _ : Fin 1 => ⟨1 / 2, 0, 0⟩) (fun _ => 2) = .ok rows ∧
      pdos chains types shells2 junk eigh 1 [1, 3] none ![⟨1 / 2, 0, 0⟩, ⟨0, 1 / 2, 0⟩] (fun _ => 1) = .ok rows' ∧
      line rows (0 : Fin 2) 0 = 3 / 4 ∧ line rows (1 : Fin 2) 0 = 0 ∧ line rows' (0 : Fin 2) 0 = 3 / 8 ∧
      line rows' (1 : Fin 2) 0 = 3 / 8 := by
  have hb : ([1, 3] : List ℝ).Pairwise (· ≤ ·) := by simp
  obtain ⟨rows, h1, -, h2⟩ := pdos_eq (d := chains) types shells2 junk eigh one_pos hb none (fun _ : Fin 1 => ⟨1 / 2, 0, 0⟩) (fun _ => 2)
  obtain ⟨rows', h1', -, h2'⟩ := pdos_eq (d := chains) types shells2 junk eigh one_pos hb none ![⟨1 / 2, 0, 0⟩, ⟨0, 1 / 2, 0⟩] (fun _ => 1)
  have g4 : binOf [1, 3] 1 0 4 = 1 := by
    have : √(4 : ℝ) = 2 := by rw [show (4 : ℝ) = 2 ^ 2 by norm_num]; exact Real.sqrt_sq (by norm_num)
    norm_num [binOf, Dos.InBin, freqOf, this]
  have g0 : binOf [1, 3] 1 0 0 = 0 := by
    norm_num [binOf, Dos.InBin, freqOf]
  obtain ⟨p1, p2⟩ := part_eq junk he (binOf [1, 3] 1 0)
  refine ⟨rows, rows', h1, h1', ?_, ?_, ?_, ?_⟩
  · rw [(h2 0).2 0 (by simp)]
    norm_num [factorOf, p1, g4]
  · rw [(h2 1).2 0 (by simp)]
    norm_num [factorOf, p1, g0]
  · rw [(h2' 0).2 0 (by simp)]
    norm_num [factorOf, p1, p2, g4, g0, Fin.sum_univ_two]
  · rw [(h2' 1).2 0 (by simp)]
    norm_num [factorOf, p1, p2, g4, g0, Fin.sum_univ_two]

/-- The hypotheses of the theorems above hold for this crystal. -/
example (junk : Fin 4 → Mat 2 ℝ) {eigh : Mat 2 ℂ → (Fin (2 * 3) → ℝ) × Mat 2 ℂ} (he : IsEigh eigh) :
    (∃ y, dos chains types shells2 junk eigh 1 [1, 3] (fun _ : Fin 1 => ⟨1 / 2, 0, 0⟩) (fun _ => 2) = .ok y ∧
      dos chains types shells2 junk eigh 1 [1, 3] ![⟨1 / 2, 0, 0⟩, ⟨0, 1 / 2, 0⟩] (fun _ => 1) = .ok y) ∧
    ∃ rows rows',
      pdos chains types shells2 junk eigh 1 [1, 3] none (fun _ : Fin 1 => ⟨1 / 2, 0, 0⟩) (fun _ => 2) = .ok rows ∧
      pdos chains types shells2 junk eigh 1 [1, 3] none ![⟨1 / 2, 0, 0⟩, ⟨0, 1 / 2, 0⟩] (fun _ => 1) = .ok rows' ∧
      ∀ species, ∀ i < 1, ∑ k with types k = species, line rows k i = ∑ k with types k = species, line rows' k i := by
  have hb : ([1, 3] : List ℝ).Pairwise (· ≤ ·) := by simp
  exact ⟨C137_dos_partial ok symmetric junk he genuine (by norm_num) one_pos hb (by simp) (by simp [ops]) standsFor,
    C137_species_partial ok symmetric junk he genuine one_pos hb none (by simp) (by simp [ops]) standsFor⟩

end Square

end Euphonic.DebyeSym
