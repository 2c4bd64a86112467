import Verif.Props.DosGrid
import Verif.Props.FoldEwald

/-!
# C163: Debye-Waller exponents and densities of states of polar crystals from symmetry-reduced wavevectors

What C136 and C137 say holds for all families of matrices that are Hermitian, periodic, even and symmetric; the matrices of a polar
crystal, with the complete long-range sums, are such a family.
-/

set_option autoImplicit false
set_option linter.unusedSectionVars false

namespace Euphonic.PolarGrid

open Euphonic.Lattice Euphonic.Supercell Euphonic.Phases Euphonic.Images Euphonic.DynMat Euphonic.Reduced
open Euphonic.Commensurate Euphonic.Acoustic Euphonic.Scatter Euphonic.Describe Euphonic.Symmetry Euphonic.DebyeSym
open Euphonic.Dipole Euphonic.Poisson

variable {n N nq nF : Nat} {d : Description n N}

/-! ## Specification -/

/-- What the results below need of the matrices that are diagonalised. -/
structure Family (D : V3 ℝ → Mat n ℂ) : Prop where
  herm : ∀ q k l, D q l k = star (D q k l)
  periodic : ∀ q G, D (add q (castV ℝ G)) = D q
  even : ∀ q, D (neg q) = fun k l => star (D q k l)

/-- The modes from the matrices `D` (as `Description.modes`, for other matrices). -/
noncomputable def modesOf (d : Description n N) (types : Fin n → String) (D : V3 ℝ → Mat n ℂ)
    (eigh : Mat n ℂ → (Fin (n * 3) → ℝ) × Mat n ℂ) (qs : Fin nq → V3 ℝ) (weights : Fin nq → ℝ) :
    Modes (d.cryst types) nq (n * 3) where
  qpts := fun q j => comp (qs q) j
  freqs := fun q s => freqOf ((eigh (D (qs q))).1 s)
  evecs := fun q s k l => (eigh (D (qs q))).2 s (row k l)
  weights := weights

/-- What `calculate_pdos` gets from them (euphonic/qpoint_phonon_modes.py:563-596); cross-sections are given for each species. -/
noncomputable def pdosOf (d : Description n N) (types : Fin n → String) (D : V3 ℝ → Mat n ℂ)
    (eigh : Mat n ℂ → (Fin (n * 3) → ℝ) × Mat n ℂ) (c : ℝ) (b : List ℝ) (cs : Option (String → ℝ)) (qs : Fin nq → V3 ℝ)
    (w : Fin nq → ℝ) : Except Err (List (List ℝ)) :=
  let m := modesOf d types D eigh qs w
  Dos.calculatePdos c b m.freqs m.weights (fun q s k l => ((m.evecs q s k l).re, (m.evecs q s k l).im)) d.mass
    (cs.map fun f k => f (types k))

/-- What `calculate_dos` gets (euphonic/qpoint_frequencies.py:152-158). -/
noncomputable def dosOf (d : Description n N) (types : Fin n → String) (D : V3 ℝ → Mat n ℂ)
    (eigh : Mat n ℂ → (Fin (n * 3) → ℝ) × Mat n ℂ) (c : ℝ) (b : List ℝ) (qs : Fin nq → V3 ℝ) (w : Fin nq → ℝ) :
    Except Err (List ℝ) :=
  let m := modesOf d types D eigh qs w
  Dos.calculateDos c b m.freqs m.weights

/-! ## One wavevector -/

/-- Some crystal. -/
noncomputable def d0 (n : Nat) : Description n 1 where
  cv := ⟨⟨1, 0, 0⟩, ⟨0, 1, 0⟩, ⟨0, 0, 1⟩⟩
  r := fun _ => ⟨0, 0, 0⟩
  mass := fun _ => 1
  S := ⟨⟨1, 0, 0⟩, ⟨0, 1, 0⟩, ⟨0, 0, 1⟩⟩
  cells := fun _ => ⟨0, 0, 0⟩
  c0 := 0
  fc := fun _ _ _ => 0

/-- The contribution of one wavevector with weight one. -/
noncomputable def unitOf (mass : Fin n → ℝ) (D : V3 ℝ → Mat n ℂ) (eigh : Mat n ℂ → (Fin (n * 3) → ℝ) × Mat n ℂ)
    (kB temp fmin : ℝ) (q : V3 ℝ) (k : Fin n) (a b : Fin 3) : ℝ :=
  1 / (4 * mass k) * (spectral (eigh (D q)) (fun x => freqTerm kB temp fmin (freqOf x)) (row k a) (row k b)).re

/-- The part of atom `k` in the modes at a wavevector, counted with the weight `g` of their eigenvalue. -/
noncomputable def partOf (D : V3 ℝ → Mat n ℂ) (eigh : Mat n ℂ → (Fin (n * 3) → ℝ) × Mat n ℂ) (g : ℝ → ℝ) (q : V3 ℝ)
    (k : Fin n) : ℝ :=
  ∑ a, (spectral (eigh (D q)) g (row k a) (row k a)).re

theorem dwContribution_of (types : Fin n → String) (D : V3 ℝ → Mat n ℂ)
    (eigh : Mat n ℂ → (Fin (n * 3) → ℝ) × Mat n ℂ) (qs : Fin nq → V3 ℝ) (weights : Fin nq → ℝ) (kB temp fmin : ℝ)
    (k : Fin n) (a b : Fin 3) (q : Fin nq) :
    dwContribution (modesOf d types D eigh qs weights) kB temp fmin k a b q = weights q * (1 / (4 * d.mass k)) *
      (spectral (eigh (D (qs q))) (fun x => freqTerm kB temp fmin (freqOf x)) (row k a) (row k b)).re := by
  unfold dwContribution Describe.spectral
  rw [Complex.re_sum, Finset.mul_sum]
  refine Finset.sum_congr rfl fun s _ => ?_
  rw [Complex.re_ofReal_mul]
  simp only [modesOf, Description.cryst, Complex.star_def]
  ring

theorem raw_eq_of (types : Fin n → String) (D : V3 ℝ → Mat n ℂ)
    (eigh : Mat n ℂ → (Fin (n * 3) → ℝ) × Mat n ℂ) (qs : Fin nq → V3 ℝ) (w : Fin nq → ℝ) (chunk : Nat) (hc : 0 < chunk)
    (kB temp fmin : ℝ) (k : Fin n) (a b : Fin 3) :
    dwRaw chunk (modesOf d types D eigh qs w) kB temp fmin k a b =
      (∑ i, w i * unitOf d.mass D eigh kB temp fmin (qs i) k a b) / ∑ i, w i := by
  simp only [dwRaw, C28_chunking_irrelevant chunk hc, ← Fin.sum_univ_def, dwContribution_of, unitOf, mul_assoc]
  rfl

section
variable {D : V3 ℝ → Mat n ℂ} (hD : Family D) {eigh : Mat n ℂ → (Fin (n * 3) → ℝ) × Mat n ℂ} (he : IsEigh eigh)
include hD he

section
variable (mass : Fin n → ℝ) (kB temp fmin : ℝ)

theorem unitOf_neg (q : V3 ℝ) (k : Fin n) (a b : Fin 3) :
    unitOf mass D eigh kB temp fmin (neg q) k a b = unitOf mass D eigh kB temp fmin q k a b := by
  unfold unitOf
  rw [hD.even]
  have hh := hD.herm q
  have h1 := spectral_unique (d0 n) hh he (isEigh_conj he) (fun x => freqTerm kB temp fmin (freqOf x)) k k a b
  rw [← h1]
  congr 1
  unfold spectral conjEigh
  rw [Complex.re_sum, Complex.re_sum]
  refine Finset.sum_congr rfl fun s _ => ?_
  rw [Complex.re_ofReal_mul, Complex.re_ofReal_mul]
  congr 1
  simp

theorem unitOf_same {q q' : V3 ℝ} (h : SameUpTo q q') (k : Fin n) (a b : Fin 3) :
    unitOf mass D eigh kB temp fmin q' k a b = unitOf mass D eigh kB temp fmin q k a b := by
  obtain ⟨G, rfl | rfl⟩ := h
  · unfold unitOf
    rw [hD.periodic]
  · rw [← unitOf_neg hD he mass kB temp fmin q]
    unfold unitOf
    rw [hD.periodic]

/-- A rotated wavevector. -/
theorem unitOf_rotated {h : Change n N N} (hr : h.Relates d d) (hc : ∀ q, h.Carries q (D (h.back q)) (D q)) (q : V3 ℝ) (i : Fin n) (a b : Fin 3) :
    unitOf d.mass D eigh kB temp fmin q (h.p i) a b =
      ∑ a', ∑ b', h.R a a' * unitOf d.mass D eigh kB temp fmin (h.back q) i a' b' * h.R b b' := by
  unfold unitOf
  rw [hr.spectral (hc q) (hD.herm _) he he, hr.masses, Complex.re_sum,
    Finset.mul_sum]
  refine Finset.sum_congr rfl fun a' _ => ?_
  rw [Complex.re_sum, Finset.mul_sum]
  refine Finset.sum_congr rfl fun b' _ => ?_
  have e : ∀ z : ℂ, expQR q (h.T i) * (h.R a a' : ℂ) * z * star (expQR q (h.T i) * (h.R b b' : ℂ)) =
      ((h.R a a' * h.R b b' : ℝ) : ℂ) * z := by
    intro z
    rw [star_mul', Complex.star_def, Complex.conj_ofReal]
    have := norm_expQR q (h.T i)
    rw [Complex.star_def] at this
    push_cast
    linear_combination ((h.R a a' : ℂ) * h.R b b' * z) * this
  rw [e, Complex.re_ofReal_mul]
  ring

end

section
variable (g : ℝ → ℝ)

theorem partOf_neg (q : V3 ℝ) (k : Fin n) :
    partOf D eigh g (neg q) k = partOf D eigh g q k := by
  unfold partOf
  refine Finset.sum_congr rfl fun a _ => ?_
  rw [hD.even]
  have hh := hD.herm q
  rw [← spectral_unique (d0 n) hh he (isEigh_conj he) g k k a a]
  unfold spectral conjEigh
  rw [Complex.re_sum, Complex.re_sum]
  refine Finset.sum_congr rfl fun s _ => ?_
  rw [Complex.re_ofReal_mul, Complex.re_ofReal_mul]
  congr 1
  simp

theorem partOf_same {q q' : V3 ℝ} (h : SameUpTo q q') (k : Fin n) :
    partOf D eigh g q' k = partOf D eigh g q k := by
  obtain ⟨G, rfl | rfl⟩ := h
  · unfold partOf
    rw [hD.periodic]
  · rw [← partOf_neg hD he g q]
    unfold partOf
    rw [hD.periodic]

/-- A rotated wavevector. -/
theorem partOf_rotated {h : Change n N N} (hr : h.Relates d d) (hc : ∀ q, h.Carries q (D (h.back q)) (D q)) (q : V3 ℝ) (i : Fin n) :
    partOf D eigh g q (h.p i) = partOf D eigh g (h.back q) i := by
  have e1 : ∀ a, (spectral (eigh (D q)) g (row (h.p i) a) (row (h.p i) a)).re =
      ∑ a', ∑ b', h.R a a' * h.R a b' * (spectral (eigh (D (h.back q))) g (row i a') (row i b')).re := by
    intro a
    rw [hr.spectral (hc q) (hD.herm _) he he, Complex.re_sum]
    refine Finset.sum_congr rfl fun a' _ => ?_
    rw [Complex.re_sum]
    refine Finset.sum_congr rfl fun b' _ => ?_
    have e : ∀ z : ℂ, expQR q (h.T i) * (h.R a a' : ℂ) * z * star (expQR q (h.T i) * (h.R a b' : ℂ)) =
        ((h.R a a' * h.R a b' : ℝ) : ℂ) * z := by
      intro z
      rw [star_mul', Complex.star_def, Complex.conj_ofReal]
      have := norm_expQR q (h.T i)
      rw [Complex.star_def] at this
      push_cast
      linear_combination ((h.R a a' : ℂ) * h.R a b' * z) * this
    rw [e, Complex.re_ofReal_mul]
  unfold partOf
  rw [Finset.sum_congr rfl fun a _ => e1 a, Finset.sum_comm]
  refine Finset.sum_congr rfl fun a' _ => ?_
  rw [Finset.sum_comm]
  rw [Finset.sum_eq_single a']
  · rw [← Finset.sum_mul, hr.ortho, if_pos rfl, one_mul]
  · intro b' _ hb
    rw [← Finset.sum_mul, hr.ortho, if_neg (Ne.symm hb), zero_mul]
  · simp

end

end

/-- Nothing is raised if the operations are symmetries and atoms of the same kind are further apart than the
tolerance. -/
theorem returns_of {d : Description n N} {types : Fin n → String} {tol : ℝ} (ht : 0 < tol) {ops : List (Op ℝ)}
    {h : Fin ops.length → Change n N N} (hg : ∀ s, Genuine d types ops[s] (h s))
    (hsep : Separated d.cv (List.ofFn types) (List.ofFn d.r) tol) (D : V3 ℝ → Mat n ℂ)
    (eigh : Mat n ℂ → (Fin (n * 3) → ℝ) × Mat n ℂ) (qs : Fin nq → V3 ℝ) (w : Fin nq → ℝ) (chunk : Nat) (kB temp fmin : ℝ)
    (symmetrise : Bool) : ∃ dw,
    debyeWaller d.cv d.r tol (some ops) chunk (modesOf d types D eigh qs w) kB temp fmin symmetrise = .ok dw := by
  cases symmetrise with
  | false => exact ⟨_, rfl⟩
  | true =>
    obtain ⟨T, hT⟩ := C75_symmetric_ok d.cv (List.ofFn types) (List.ofFn d.r) tol ht (by simp) ops (fun op hop i hi => by
      obtain ⟨s, hs, rfl⟩ := List.getElem_of_mem hop
      have hi' : i < n := by simpa using hi
      refine ⟨(h ⟨s, hs⟩).p ⟨i, hi'⟩, by simp, ?_, ?_⟩
      · have := (hg ⟨s, hs⟩).types ⟨i, hi'⟩
        simp [hi', this]
      · simp only [List.getElem_ofFn, Fin.eta]
        exact genuine_image (hg ⟨s, hs⟩) ⟨i, hi'⟩) hsep
    unfold debyeWaller symOps
    rw [if_pos rfl, show (d.cryst types).atomType = types from rfl, hT]
    exact ⟨_, rfl⟩

/-! ## What the code adds up -/

theorem binTotal_part_of (types : Fin n → String) (D : V3 ℝ → Mat n ℂ)
    (eigh : Mat n ℂ → (Fin (n * 3) → ℝ) × Mat n ℂ) (c : ℝ) (b : List ℝ) (qs : Fin nq → V3 ℝ) (w : Fin nq → ℝ) (k : Fin n)
    (i : Nat) :
    Dos.binTotal b c (modesOf d types D eigh qs w).freqs (fun q m => w q *
      Dos.evecWeights (fun q s k l => (((modesOf d types D eigh qs w).evecs q s k l).re,
        ((modesOf d types D eigh qs w).evecs q s k l).im)) q m k) i =
      (∑ q, w q * partOf D eigh (binOf b c i) (qs q) k) / n := by
  unfold Dos.binTotal
  rw [Finset.sum_div]
  refine Finset.sum_congr rfl fun q _ => ?_
  unfold partOf spectral
  simp only [Complex.re_sum]
  rw [Finset.sum_comm, mul_div_assoc, Finset.sum_div, Finset.mul_sum]
  refine Finset.sum_congr rfl fun s _ => ?_
  have e : ∀ a, ((binOf b c i ((eigh (D (qs q))).1 s) : ℝ) *
      ((eigh (D (qs q))).2 s (row k a) * star ((eigh (D (qs q))).2 s (row k a))) : ℂ).re
      = binOf b c i ((eigh (D (qs q))).1 s) * (((eigh (D (qs q))).2 s (row k a)).re *
        ((eigh (D (qs q))).2 s (row k a)).re + ((eigh (D (qs q))).2 s (row k a)).im *
        ((eigh (D (qs q))).2 s (row k a)).im) := by
    intro a
    rw [Complex.re_ofReal_mul]
    simp
  rw [Finset.sum_congr rfl fun a _ => e a, ← Finset.mul_sum]
  unfold Dos.evecWeights binOf modesOf
  dsimp only
  split <;> simp

theorem pdos_eq_of (types : Fin n → String) (D : V3 ℝ → Mat n ℂ)
    (eigh : Mat n ℂ → (Fin (n * 3) → ℝ) × Mat n ℂ) {c : ℝ} (hc : 0 < c) {b : List ℝ} (hb : b.Pairwise (· ≤ ·))
    (cs : Option (String → ℝ)) (qs : Fin nq → V3 ℝ) (w : Fin nq → ℝ) :
    ∃ rows, pdosOf d types D eigh c b cs qs w = .ok rows ∧ rows.length = n ∧ ∀ k : Fin n,
      (rows.getD k.val []).length = b.length - 1 ∧ ∀ i < b.length - 1, line rows k i =
        factorOf d.mass types cs k * ((∑ q, w q * partOf D eigh (binOf b c i) (qs q) k) / ∑ q, w q) /
          (n * (b.getD (i + 1) 0 - b.getD i 0)) := by
  have hrow : pdosOf d types D eigh c b cs qs w = .ok ((List.finRange n).map fun k =>
      (List.range (b.length - 1)).map fun i =>
        (∑ q, w q * partOf D eigh (binOf b c i) (qs q) k) / n / (b.getD (i + 1) 0 - b.getD i 0) / (∑ q, w q) *
          factorOf d.mass types cs k) := by
    unfold pdosOf Dos.calculatePdos
    apply mapM_ok_of_forall
    intro k _
    rw [show (modesOf d types D eigh qs w).weights = w from rfl]
    simp only [Dos.calculateDos_mw c hc b hb, bind, Except.bind, pure, Except.pure, binTotal_part_of]
    cases cs with
    | none => simp [factorOf]
    | some f => simp [factorOf, List.map_map, Function.comp_def]
  refine ⟨_, hrow, by simp, fun k => ⟨?_, fun i hi => ?_⟩⟩
  · simp
  · unfold line
    rw [List.getD_eq_getElem _ _ (by simp : k.val < (List.map _ (List.finRange n)).length), List.getElem_map, List.getElem_finRange,
      List.getD_eq_getElem _ _ (by simpa using hi), List.getElem_map, List.getElem_range]
    simp only [Fin.cast_mk, Fin.eta]
    rw [mul_div_assoc', div_div, div_div, mul_comm, div_div, ← mul_div_assoc, mul_comm (∑ q, w q)]
    congr 1
    ring

/-! ## All of them -/

section
variable {D : V3 ℝ → Mat n ℂ} (hD : Family D) {eigh : Mat n ℂ → (Fin (n * 3) → ℝ) × Mat n ℂ} (he : IsEigh eigh)
  {types : Fin n → String} {tol : ℝ} {ops : List (Op ℝ)} {h : Fin ops.length → Change n N N}
  (hg : ∀ s, Genuine d types ops[s] (h s)) (hcar : ∀ s q, (h s).Carries q (D ((h s).back q)) (D q)) (hv : cellVolume d.cv ≠ 0)
include hD he hg hcar hv

theorem symmetrised_eq_of {T : Table} (hT : equivalentAtoms d.cv (List.ofFn types) (List.ofFn d.r) tol (some ops) = .ok T)
    (qs : Fin nq → V3 ℝ) (w : Fin nq → ℝ) (chunk : Nat) (hc : 0 < chunk) (kB temp fmin : ℝ) (k : Fin n) (a b : Fin 3) :
    (calculateDebyeWaller chunk (modesOf d types D eigh qs w) kB temp fmin
      (some (ops.mapIdx fun s op => ⟨rotCart d.cv op.W, eqRow T s⟩))).w k a b =
    (∑ s, ∑ i, w i * ∑ a', ∑ b', (h s).R a a' * unitOf d.mass D eigh kB temp fmin (qs i) ((h s).p.symm k) a' b' * (h s).R b b')
      / ((∑ i, w i) * ops.length) := by
  set l := ops.mapIdx fun s op => (⟨rotCart d.cv op.W, eqRow T s⟩ : SymOp n) with hl
  have hlen : l.length = ops.length := by simp [hl]
  have hget : ∀ s : Fin l.length, l[s] = ⟨rotCart d.cv ops[s.cast hlen].W, eqRow T (s.cast hlen)⟩ := by
    intro s
    simp [hl]
  simp only [calculateDebyeWaller]
  rw [foldl_perm (dwRaw chunk (modesOf d types D eigh qs w) kB temp fmin) l (fun s => (h (s.cast hlen)).p)
    (fun s i => by rw [hget]; exact eqRow_eq hT _ (hg _) i), zero_add,
    show ((l.length : ℕ) : ℝ) = ops.length by rw [hlen]]
  have e : ∀ s : Fin l.length, rotate l[s].rot (dwRaw chunk (modesOf d types D eigh qs w) kB temp fmin)
      ((h (s.cast hlen)).p.symm k) a b = (∑ i, w i * ∑ a', ∑ b', (h (s.cast hlen)).R a a' *
        unitOf d.mass D eigh kB temp fmin (qs i) ((h (s.cast hlen)).p.symm k) a' b' * (h (s.cast hlen)).R b b') / ∑ i, w i := by
    intro s
    rw [hget]
    simp only [rotate, rotCart_eq (hg _) (hv), raw_eq_of types D eigh qs w chunk hc]
    generalize unitOf d.mass D eigh kB temp fmin = u
    generalize (h (s.cast hlen)) = g
    generalize ∑ i, w i = W
    simp only [Finset.mul_sum, Finset.sum_mul, Finset.sum_div]
    have hcomm : ∀ f : Fin nq → Fin 3 → Fin 3 → ℝ, ∑ q, ∑ a', ∑ b', f q a' b' = ∑ a', ∑ b', ∑ q, f q a' b' := by
      intro f
      rw [Finset.sum_comm]
      exact Finset.sum_congr rfl fun a' _ => Finset.sum_comm
    rw [hcomm]
    refine Finset.sum_congr rfl fun a' _ => Finset.sum_congr rfl fun b' _ => Finset.sum_congr rfl fun q _ => ?_
    ring
  rw [Finset.sum_congr rfl fun s _ => e s, ← Finset.sum_div, div_div]
  congr 1
  exact Equiv.sum_comp (finCongr hlen) fun s => ∑ i, w i * ∑ a', ∑ b', (h s).R a a' *
    unitOf d.mass D eigh kB temp fmin (qs i) ((h s).p.symm k) a' b' * (h s).R b b'

/-- Exponents from reduced wavevectors. -/
theorem reduced_of {qs : Fin nq → V3 ℝ} {w : Fin nq → ℝ} (_hw : ∑ i, w i ≠ 0) (_hne : ops ≠ []) {Qs : Fin nF → V3 ℝ}
    {v : Fin nF → ℝ} (hf : StandsFor ops qs w Qs v) {chunk : Nat} (hc : 0 < chunk) (kB temp fmin : ℝ) {dw : DW}
    (hdw : debyeWaller d.cv d.r tol (some ops) chunk (modesOf d types D eigh qs w) kB temp fmin true = .ok dw) :
    debyeWaller d.cv d.r tol (some ops) chunk (modesOf d types D eigh Qs v) kB temp fmin false = .ok dw := by
  unfold debyeWaller at hdw ⊢
  simp only [if_true, Bool.false_eq_true, if_false, symOps] at hdw ⊢
  have hty : (d.cryst types).atomType = types := rfl
  rw [hty] at hdw
  cases hT : equivalentAtoms d.cv (List.ofFn types) (List.ofFn d.r) tol (some ops) with
  | error e => rw [hT] at hdw; cases hdw
  | ok T =>
    rw [hT] at hdw
    simp only [Except.map, Option.getD_some, Except.ok.injEq] at hdw
    rw [← hdw]
    have key : ∀ (k : Fin n) (a b : Fin 3), dwRaw chunk (modesOf d types D eigh Qs v) kB temp fmin k a b =
        (calculateDebyeWaller chunk (modesOf d types D eigh qs w) kB temp fmin
          (some (ops.mapIdx fun s op => ⟨rotCart d.cv op.W, eqRow T s⟩))).w k a b := by
      intro k a b
      rw [symmetrised_eq_of hD he hg hcar hv hT qs w chunk hc]
      rw [raw_eq_of types D eigh Qs v chunk hc]
      have e1 : ∀ s i, ∑ a', ∑ b', (h s).R a a' * unitOf d.mass D eigh kB temp fmin (qs i) ((h s).p.symm k) a' b' * (h s).R b b' =
          unitOf d.mass D eigh kB temp fmin (Qs (hf.goes i s)) k a b := by
        intro s i
        have := unitOf_rotated hD he kB temp fmin (hg s).relates (hcar s) (Qs (hf.goes i s)) ((h s).p.symm k) a b
        rw [Equiv.apply_symm_apply] at this
        rw [this, unrotated_eq (hg s)]
        simp only [unitOf_same hD he d.mass kB temp fmin (hf.moved i s)]
      simp only [e1]
      generalize unitOf d.mass D eigh kB temp fmin = u
      have e2 : ∑ s, ∑ i, w i * u (Qs (hf.goes i s)) k a b = hf.factor * ∑ j, v j * u (Qs j) k a b := by
        rw [Finset.mul_sum, Finset.sum_comm]
        have : ∀ j, hf.factor * (v j * u (Qs j) k a b) = ∑ i, ∑ s, if hf.goes i s = j then w i * u (Qs j) k a b else 0 := by
          intro j
          rw [← mul_assoc, hf.share, Finset.sum_mul]
          refine Finset.sum_congr rfl fun i _ => ?_
          rw [Finset.sum_mul]
          refine Finset.sum_congr rfl fun s _ => ?_
          split <;> simp
        simp only [this]
        conv_rhs => rw [Finset.sum_comm]
        refine Finset.sum_congr rfl fun i _ => ?_
        conv_rhs => rw [Finset.sum_comm]
        refine Finset.sum_congr rfl fun s _ => ?_
        simp
      have e3 : (∑ i, w i) * ops.length = hf.factor * ∑ j, v j := by
        rw [Finset.mul_sum]
        simp only [hf.share]
        rw [Finset.sum_comm, Finset.sum_mul]
        refine Finset.sum_congr rfl fun i _ => ?_
        rw [Finset.sum_comm]
        simp [mul_comm]
      rw [e2, e3, mul_div_mul_left _ _ hf.factor_ne]
    have : (calculateDebyeWaller chunk (modesOf d types D eigh Qs v) kB temp fmin none) =
        ⟨n, dwRaw chunk (modesOf d types D eigh Qs v) kB temp fmin, temp⟩ := rfl
    rw [this, show dwRaw chunk (modesOf d types D eigh Qs v) kB temp fmin = _ from
      funext fun k => funext fun a => funext fun b => key k a b]
    rfl

end

section
variable {D : V3 ℝ → Mat n ℂ} (hD : Family D) {eigh : Mat n ℂ → (Fin (n * 3) → ℝ) × Mat n ℂ} (he : IsEigh eigh)
  {types : Fin n → String} {tol : ℝ} {ops : List (Op ℝ)} {h : Fin ops.length → Change n N N}
  (hg : ∀ s, Genuine d types ops[s] (h s)) (hcar : ∀ s q, (h s).Carries q (D ((h s).back q)) (D q)) (hv : cellVolume d.cv ≠ 0)
  (ht : 0 < tol) (hsep : Separated d.cv (List.ofFn types) (List.ofFn d.r) tol)
include hD he hg hcar hv ht hsep

/-- One wavevector of each set of equivalent ones. -/
theorem irreducible_of {G : Type} [Group G] [Fintype G] [MulAction G (Fin nF)] (e : G ≃ Fin ops.length)
    (Qs : Fin nF → V3 ℝ) (hact : ∀ g j, SameUpTo (unrotated ops[e g] (Qs (g • j))) (Qs j)) (pick : Fin nq → Fin nF)
    (hpick : ∀ j, ∃! i, j ∈ MulAction.orbit G (pick i)) (hn : 0 < nF) {chunk : Nat} (hc : 0 < chunk) (kB temp fmin : ℝ) :
    ∃ dw, debyeWaller d.cv d.r tol (some ops) chunk (modesOf d types D eigh (fun i => Qs (pick i))
        fun i => (Nat.card (MulAction.orbit G (pick i)) : ℝ)) kB temp fmin true = .ok dw ∧
      debyeWaller d.cv d.r tol (some ops) chunk (modesOf d types D eigh Qs fun _ => 1) kB temp fmin false = .ok dw := by
  obtain ⟨dw, hdw⟩ := returns_of ht hg hsep D eigh (fun i => Qs (pick i))
    (fun i => (Nat.card (MulAction.orbit G (pick i)) : ℝ)) chunk kB temp fmin true
  refine ⟨dw, hdw, reduced_of hD he hg hcar hv ?_ ?_ (orbitsStandFor e Qs hact pick hpick) hc kB temp fmin hdw⟩
  · obtain ⟨i, -, -⟩ := hpick ⟨0, hn⟩
    refine ne_of_gt (Finset.sum_pos (fun i _ => ?_) ⟨i, Finset.mem_univ i⟩)
    have : Nonempty (MulAction.orbit G (pick i)) := ⟨⟨pick i, MulAction.mem_orbit_self _⟩⟩
    have : 0 < Nat.card (MulAction.orbit G (pick i)) := Nat.card_pos
    positivity
  · rintro rfl
    exact (e 1).elim0

/-- A set that is symmetric itself. -/
theorem symmetric_set_of (hne : ops ≠ []) (Qs : Fin nF → V3 ℝ) (goes : Fin ops.length → Equiv.Perm (Fin nF))
    (hact : ∀ s j, SameUpTo (unrotated ops[s] (Qs (goes s j))) (Qs j)) {c : ℝ} (hc0 : c ≠ 0) (hn : 0 < nF) {chunk : Nat}
    (hc : 0 < chunk) (kB temp fmin : ℝ) :
    ∃ dw, ∀ symmetrise,
      debyeWaller d.cv d.r tol (some ops) chunk (modesOf d types D eigh Qs fun _ => c) kB temp fmin symmetrise = .ok dw := by
  obtain ⟨dw, hdw⟩ := returns_of ht hg hsep D eigh Qs (fun _ => c) chunk kB temp fmin true
  refine ⟨dw, fun b => ?_⟩
  cases b with
  | true => exact hdw
  | false =>
    refine reduced_of hD he hg hcar hv ?_ hne (symmetricStandsFor hne Qs goes hact c) hc kB temp fmin hdw
    simp [hn.ne', hc0]

end

section
variable {D : V3 ℝ → Mat n ℂ} (hD : Family D) {eigh : Mat n ℂ → (Fin (n * 3) → ℝ) × Mat n ℂ} (he : IsEigh eigh)
  {types : Fin n → String} {ops : List (Op ℝ)} {h : Fin ops.length → Change n N N}
  (hg : ∀ s, Genuine d types ops[s] (h s)) (hcar : ∀ s q, (h s).Carries q (D ((h s).back q)) (D q))
include hD he hg hcar

theorem average_eq_of {qs : Fin nq → V3 ℝ} {w : Fin nq → ℝ} {Qs : Fin nF → V3 ℝ} {v : Fin nF → ℝ} (hf : StandsFor ops qs w Qs v)
    (g : ℝ → ℝ) (k : Fin n) :
    (∑ j, v j * partOf D eigh g (Qs j) k) / ∑ j, v j =
      (∑ s, (∑ i, w i * partOf D eigh g (qs i) ((h s).p.symm k)) / ∑ i, w i) / ops.length := by
  have e1 : ∀ s i, partOf D eigh g (qs i) ((h s).p.symm k) = partOf D eigh g (Qs (hf.goes i s)) k := by
    intro s i
    have := partOf_rotated hD he g (hg s).relates (hcar s) (Qs (hf.goes i s)) ((h s).p.symm k)
    rw [Equiv.apply_symm_apply] at this
    rw [this, unrotated_eq (hg s)]
    exact partOf_same hD he g (hf.moved i s) _
  simp only [e1]
  generalize partOf D eigh g = u
  have e2 : ∑ s, ∑ i, w i * u (Qs (hf.goes i s)) k = hf.factor * ∑ j, v j * u (Qs j) k := by
    rw [Finset.mul_sum, Finset.sum_comm]
    have : ∀ j, hf.factor * (v j * u (Qs j) k) = ∑ i, ∑ s, if hf.goes i s = j then w i * u (Qs j) k else 0 := by
      intro j
      rw [← mul_assoc, hf.share, Finset.sum_mul]
      refine Finset.sum_congr rfl fun i _ => ?_
      rw [Finset.sum_mul]
      refine Finset.sum_congr rfl fun s _ => ?_
      split <;> simp
    simp only [this]
    conv_rhs => rw [Finset.sum_comm]
    refine Finset.sum_congr rfl fun i _ => ?_
    conv_rhs => rw [Finset.sum_comm]
    refine Finset.sum_congr rfl fun s _ => ?_
    simp
  have e3 : (∑ i, w i) * ops.length = hf.factor * ∑ j, v j := by
    rw [Finset.mul_sum]
    simp only [hf.share]
    rw [Finset.sum_comm, Finset.sum_mul]
    refine Finset.sum_congr rfl fun i _ => ?_
    rw [Finset.sum_comm]
    simp [mul_comm]
  rw [← Finset.sum_div, div_div, e2, e3, mul_div_mul_left _ _ hf.factor_ne]

theorem group_average_of {qs : Fin nq → V3 ℝ} {w : Fin nq → ℝ} (hne : ops ≠ []) {Qs : Fin nF → V3 ℝ} {v : Fin nF → ℝ}
    (hf : StandsFor ops qs w Qs v) (g : ℝ → ℝ) (F : Fin n → ℝ) (hF : ∀ s k, F ((h s).p k) = F k) :
    ∑ k, F k * ((∑ j, v j * partOf D eigh g (Qs j) k) / ∑ j, v j) =
      ∑ k, F k * ((∑ i, w i * partOf D eigh g (qs i) k) / ∑ i, w i) := by
  simp only [average_eq_of hD he hg hcar hf g]
  generalize hu : (fun k => (∑ i, w i * partOf D eigh g (qs i) k) / ∑ i, w i) = u
  have hu' : ∀ k, (∑ i, w i * partOf D eigh g (qs i) k) / ∑ i, w i = u k := fun k => by rw [← hu]
  simp only [hu']
  have e : ∀ s, ∑ k, F k * u ((h s).p.symm k) = ∑ k, F k * u k := by
    intro s
    rw [← Equiv.sum_comp (h s).p fun k => F k * u ((h s).p.symm k)]
    simp [hF]
  simp only [← mul_div_assoc, Finset.mul_sum]
  rw [← Finset.sum_div, Finset.sum_comm, Finset.sum_congr rfl fun s _ => e s]
  have : (ops.length : ℝ) ≠ 0 := by
    have := List.length_pos_iff.2 hne
    positivity
  simp
  field_simp

/-- Atoms that are exchanged among themselves. -/
theorem group_of {c : ℝ} (hc : 0 < c) {b : List ℝ} (hb : b.Pairwise (· ≤ ·)) (cs : Option (String → ℝ))
    {qs : Fin nq → V3 ℝ} {w : Fin nq → ℝ} (_hw : ∑ i, w i ≠ 0) (hne : ops ≠ []) {Qs : Fin nF → V3 ℝ} {v : Fin nF → ℝ}
    (hf : StandsFor ops qs w Qs v) (A : Finset (Fin n)) (hA : ∀ s k, (h s).p k ∈ A ↔ k ∈ A) :
    ∃ rows rows', pdosOf d types D eigh c b cs qs w = .ok rows ∧ pdosOf d types D eigh c b cs Qs v = .ok rows' ∧
      ∀ i < b.length - 1, ∑ k ∈ A, line rows k i = ∑ k ∈ A, line rows' k i := by
  obtain ⟨rows, h1, -, h2⟩ := pdos_eq_of (d := d) types D eigh hc hb cs qs w
  obtain ⟨rows', h1', -, h2'⟩ := pdos_eq_of (d := d) types D eigh hc hb cs Qs v
  refine ⟨rows, rows', h1, h1', fun i hi => ?_⟩
  rw [Finset.sum_congr rfl fun k _ => (h2 k).2 i hi, Finset.sum_congr rfl fun k _ => (h2' k).2 i hi, ← Finset.sum_div,
    ← Finset.sum_div]
  congr 1
  have key := group_average_of hD he hg hcar hne hf (binOf b c i) (fun k => if k ∈ A then factorOf d.mass types cs k else 0) (by
    intro s k
    simp only [hA]
    congr 1
    unfold factorOf
    cases cs with
    | none => rfl
    | some f =>
      dsimp only
      rw [(hg s).types, (hg s).relates.masses])
  simp only [ite_mul, zero_mul] at key
  rw [← Finset.sum_filter, ← Finset.sum_filter, Finset.filter_mem_eq_inter, Finset.univ_inter] at key
  exact key.symm

/-- Each species. -/
theorem species_of {c : ℝ} (hc : 0 < c) {b : List ℝ} (hb : b.Pairwise (· ≤ ·)) (cs : Option (String → ℝ))
    {qs : Fin nq → V3 ℝ} {w : Fin nq → ℝ} (hw : ∑ i, w i ≠ 0) (hne : ops ≠ []) {Qs : Fin nF → V3 ℝ} {v : Fin nF → ℝ}
    (hf : StandsFor ops qs w Qs v) :
    ∃ rows rows', pdosOf d types D eigh c b cs qs w = .ok rows ∧ pdosOf d types D eigh c b cs Qs v = .ok rows' ∧
      ∀ species, ∀ i < b.length - 1, ∑ k with types k = species, line rows k i = ∑ k with types k = species, line rows' k i := by
  obtain ⟨rows, h1, -, -⟩ := pdos_eq_of (d := d) types D eigh hc hb cs qs w
  obtain ⟨rows', h1', -, -⟩ := pdos_eq_of (d := d) types D eigh hc hb cs Qs v
  refine ⟨rows, rows', h1, h1', fun species i hi => ?_⟩
  obtain ⟨r, r', e, e', h2⟩ := group_of hD he hg hcar hc hb cs hw hne hf (Finset.univ.filter fun k => types k = species)
    (fun s k => by simp [(hg s).types])
  rw [h1] at e
  rw [h1'] at e'
  cases e
  cases e'
  exact h2 i hi

/-- Single atoms. -/
theorem atom_mean_of {c : ℝ} (hc : 0 < c) {b : List ℝ} (hb : b.Pairwise (· ≤ ·))
    {qs : Fin nq → V3 ℝ} {w : Fin nq → ℝ} (_hw : ∑ i, w i ≠ 0) (_hne : ops ≠ []) {Qs : Fin nF → V3 ℝ} {v : Fin nF → ℝ}
    (hf : StandsFor ops qs w Qs v) :
    ∃ rows rows', pdosOf d types D eigh c b none qs w = .ok rows ∧ pdosOf d types D eigh c b none Qs v = .ok rows' ∧
      ∀ k, ∀ i < b.length - 1, line rows' k i = (∑ s, line rows ((h s).p.symm k) i) / ops.length := by
  obtain ⟨rows, h1, -, h2⟩ := pdos_eq_of (d := d) types D eigh hc hb none qs w
  obtain ⟨rows', h1', -, h2'⟩ := pdos_eq_of (d := d) types D eigh hc hb none Qs v
  refine ⟨rows, rows', h1, h1', fun k i hi => ?_⟩
  rw [(h2' k).2 i hi, average_eq_of hD he hg hcar hf, Finset.sum_congr rfl fun s _ => (h2 ((h s).p.symm k)).2 i hi]
  simp only [factorOf, one_mul, ← Finset.sum_div, div_div]
  congr 1
  ring

/-- All atoms. -/
theorem dos_of (hn : 0 < n) {c : ℝ} (hc : 0 < c) {b : List ℝ} (hb : b.Pairwise (· ≤ ·))
    {qs : Fin nq → V3 ℝ} {w : Fin nq → ℝ} (_hw : ∑ i, w i ≠ 0) (hne : ops ≠ []) {Qs : Fin nF → V3 ℝ} {v : Fin nF → ℝ}
    (hf : StandsFor ops qs w Qs v) : ∃ y, dosOf d types D eigh c b qs w = .ok y ∧ dosOf d types D eigh c b Qs v = .ok y := by
  have hm : 0 < n * 3 := by omega
  unfold dosOf
  rw [Dos.C21_dos_counts_modes_in_bin c hc b hb hm, Dos.C21_dos_counts_modes_in_bin c hc b hb hm]
  refine ⟨_, rfl, ?_⟩
  congr 1
  apply List.map_congr_left
  intro i _
  -- all atoms together
  have hall : ∀ {m : Nat} (ks : Fin m → V3 ℝ) (u : Fin m → ℝ),
      Dos.binTotal b c (modesOf d types D eigh ks u).freqs (fun q _ => u q * (3 / ((n * 3 : ℕ) : ℝ))) i =
        (∑ k, ∑ q, u q * partOf D eigh (binOf b c i) (ks q) k) * (3 / ((n * 3 : ℕ) : ℝ)) := by
    intro m ks u
    rw [Finset.sum_comm, Finset.sum_mul]
    unfold Dos.binTotal
    refine Finset.sum_congr rfl fun q _ => ?_
    rw [← Finset.mul_sum]
    have hp : ∑ k, partOf D eigh (binOf b c i) (ks q) k =
        ∑ s, binOf b c i ((eigh (D (ks q))).1 s) := by
      unfold partOf
      rw [← Fintype.sum_prod_type' fun (k : Fin n) (a : Fin 3) =>
        (spectral (eigh (D (ks q))) (binOf b c i) (row k a) (row k a)).re]
      rw [show (∑ x : Fin n × Fin 3, (spectral (eigh (D (ks q))) (binOf b c i) (row x.1 x.2)
        (row x.1 x.2)).re) = ∑ k, (spectral (eigh (D (ks q))) (binOf b c i) k k).re from
        Equiv.sum_comp finProdFinEquiv fun k => (spectral (eigh (D (ks q))) (binOf b c i) k k).re]
      unfold spectral
      simp only [Complex.re_sum]
      rw [Finset.sum_comm]
      refine Finset.sum_congr rfl fun s _ => ?_
      rw [← Complex.re_sum, ← Finset.mul_sum, Complex.re_ofReal_mul]
      have := he.ortho _ (hD.herm (ks q)) s s
      rw [if_pos rfl] at this
      rw [Finset.sum_congr rfl fun k _ => mul_comm _ _, this]
      simp
    rw [hp, mul_assoc, Finset.sum_mul, Finset.mul_sum]
    refine Finset.sum_congr rfl fun s _ => ?_
    unfold binOf modesOf
    dsimp only
    split <;> simp
  rw [show (modesOf d types D eigh qs w).weights = w from rfl, show (modesOf d types D eigh Qs v).weights = v from rfl,
    hall, hall]
  have key := group_average_of hD he hg hcar hne hf (binOf b c i) (fun _ => 1) (fun _ _ => rfl)
  simp only [one_mul, ← Finset.sum_div] at key
  rw [div_right_comm, mul_div_right_comm, key, ← mul_div_right_comm, div_right_comm]

end

/-! ## Polar crystals -/

theorem complete_neg (erfc : ℝ → ℝ) (o : Ions n) (lam : ℝ) (q : V3 ℝ) (i j : Fin n) (a b : Fin 3) :
    complete erfc o lam (neg q) i j a b = star (complete erfc o lam q i j a b) := by
  unfold complete
  rw [star_sub]
  congr 1
  · rw [tsum_star, ← negZ.tsum_eq]
    refine tsum_congr fun G => ?_
    change recipAt o lam _ i j a b (neg G) = _
    have hk : toCart (recip o) (add (castV ℝ (neg G)) (neg q)) = neg (toCart (recip o) (add (castV ℝ G) q)) := by
      simp only [toCart, add, neg, castV, V3.mk.injEq]
      push_cast
      refine ⟨?_, ?_, ?_⟩ <;> ring
    rw [Describe.recipAt_eq, Describe.recipAt_eq, hk, kTerm_neg]
    simp only [star_mul', star_real]
    congr 2
    rw [Complex.star_def, ← Complex.exp_conj]
    congr 1
    simp only [map_mul, Complex.conj_I, Complex.conj_ofReal, map_ofNat, dot, add, sub, castV, neg]
    push_cast
    ring
  · rw [tsum_star]
    refine tsum_congr fun L => ?_
    rw [Describe.realAt_eq, Describe.realAt_eq, expQR_neg]
    simp only [star_mul', star_real]

theorem corr_neg (erfc : ℝ → ℝ) (o : Ions n) (lam : ℝ) (q : V3 ℝ) (k l : Fin (n * 3)) :
    completeCorrection erfc o lam (neg q) k l = star (completeCorrection erfc o lam q k l) := by
  rw [corr_rem, corr_rem]
  unfold corrBy
  rw [star_sub]
  congr 1
  · simp only [star_sum, star_mul', star_real, complete_neg]
  · by_cases hkl : k.divNat = l.divNat
    · rw [if_pos hkl, star_mul', star_add]
      simp only [star_sum, star_mul', star_real, complete_real]
      congr 1
      simp
    · rw [if_neg hkl, star_zero]

section
variable {images : List (V3 ℤ)} (hok : d.Ok images) {op : Fin N → Fin N} {t : Fin N → V3 ℤ}
  (hs : Symmetric d.cells d.S d.fc op t) {born : Fin n → Fin 3 → Fin 3 → ℝ} {diel : Matrix (Fin 3) (Fin 3) ℝ}
  (ho : Sound (d.ions born diel)) {erfc : ℝ → ℝ} (herfc : IsErfc erfc) {lam : ℝ} (hl : 0 < lam) (junk : Fin N → Mat n ℝ)
  {eigh : Mat n ℂ → (Fin (n * 3) → ℝ) × Mat n ℂ} (he : IsEigh eigh) {types : Fin n → String} {ops : List (Op ℝ)}
  {h : Fin ops.length → Change n N N} (hg : ∀ s, Genuine d types ops[s] (h s))
  (hd : ∀ s, CarryR (h s).R (fun a b => diel a b) (fun a b => diel a b)) (hb : ∀ s i, CarryR (h s).R (born i) (born ((h s).p i)))

include hok hs ho in
/-- The matrices of a polar crystal. -/
theorem polar_family (erfc : ℝ → ℝ) (lam : ℝ) : Family fun q => d.polarComplete born diel erfc lam images junk q none where
  herm := fun q k l => Folding.polarComplete_herm hok hs ho erfc lam junk q none k l
  periodic := fun q G => Folding.polarComplete_periodic erfc lam junk q G none
  even := fun q => by
    unfold Description.polarComplete Description.dynMat fcDynMat
    funext k l
    simp only [DynMat.weighted, Option.map_none, Pi.add_apply]
    rw [(C44_even d.cv _ _ _ _ q k l).1, corr_neg, star_mul', star_add, Complex.star_def, Complex.conj_ofReal]

include hok ho herfc hl hg hd hb in
theorem polar_carries (s : Fin ops.length) (q : V3 ℝ) :
    (h s).Carries q (d.polarComplete born diel erfc lam images junk ((h s).back q) none)
      (d.polarComplete born diel erfc lam images junk q none) := by
  have hr := (hg s).relates
  unfold Description.polarComplete
  exact hr.weighted (hr.carries hok hok junk junk q)
    (C158_correction herfc (hr.sameIons ho.volume_pos (hd s) (hb s)) ho hl hl q) trivial trivial

include hok hs ho herfc hl he hg hd hb

/-- **C163.** Polar crystals, complete long-range sums: if the symmetry operations found are symmetries of the crystal, its force
constants, charges and dielectric tensor, and one wavevector is taken from each set of equivalent ones, weighted with their number,
then the Debye-Waller exponents with `symmetrise=True` are those of the full set without, and nothing is raised. -/
theorem C163_debye_waller {tol : ℝ} (ht : 0 < tol) (hsep : Separated d.cv (List.ofFn types) (List.ofFn d.r) tol) {G : Type} [Group G]
    [Fintype G] [MulAction G (Fin nF)] (e : G ≃ Fin ops.length) (Qs : Fin nF → V3 ℝ)
    (hact : ∀ g j, SameUpTo (unrotated ops[e g] (Qs (g • j))) (Qs j)) (pick : Fin nq → Fin nF)
    (hpick : ∀ j, ∃! i, j ∈ MulAction.orbit G (pick i)) (hn : 0 < nF) {chunk : Nat} (hc : 0 < chunk) (kB temp fmin : ℝ) :
    ∃ dw, debyeWaller d.cv d.r tol (some ops) chunk (modesOf d types (fun q => d.polarComplete born diel erfc lam images junk q none)
        eigh (fun i => Qs (pick i)) fun i => (Nat.card (MulAction.orbit G (pick i)) : ℝ)) kB temp fmin true = .ok dw ∧
      debyeWaller d.cv d.r tol (some ops) chunk (modesOf d types (fun q => d.polarComplete born diel erfc lam images junk q none)
        eigh Qs fun _ => 1) kB temp fmin false = .ok dw :=
  irreducible_of (polar_family hok hs ho junk erfc lam) he hg (polar_carries hok ho herfc hl junk hg hd hb) (volume_ne hok) ht hsep
    e Qs hact pick hpick hn hc kB temp fmin

/-- **C163.** The same for any reduced set that stands for a full set. -/
theorem C163_reduced {tol : ℝ} {qs : Fin nq → V3 ℝ} {w : Fin nq → ℝ} (hw : ∑ i, w i ≠ 0) (hne : ops ≠ []) {Qs : Fin nF → V3 ℝ}
    {v : Fin nF → ℝ} (hf : StandsFor ops qs w Qs v) {chunk : Nat} (hc : 0 < chunk) (kB temp fmin : ℝ) {dw : DW}
    (hdw : debyeWaller d.cv d.r tol (some ops) chunk (modesOf d types (fun q => d.polarComplete born diel erfc lam images junk q none)
      eigh qs w) kB temp fmin true = .ok dw) :
    debyeWaller d.cv d.r tol (some ops) chunk (modesOf d types (fun q => d.polarComplete born diel erfc lam images junk q none)
      eigh Qs v) kB temp fmin false = .ok dw :=
  reduced_of (polar_family hok hs ho junk erfc lam) he hg (polar_carries hok ho herfc hl junk hg hd hb) (volume_ne hok) hw hne hf hc
    kB temp fmin hdw

/-- **C163.** The density of states of a polar crystal, and the partial ones of each species (with or without neutron weighting),
are the same for the reduced and for the full set of wavevectors. -/
theorem C163_dos (hn : 0 < n) {c : ℝ} (hc : 0 < c) {b : List ℝ} (hbins : b.Pairwise (· ≤ ·)) (cs : Option (String → ℝ))
    {qs : Fin nq → V3 ℝ} {w : Fin nq → ℝ} (hw : ∑ i, w i ≠ 0) (hne : ops ≠ []) {Qs : Fin nF → V3 ℝ} {v : Fin nF → ℝ}
    (hf : StandsFor ops qs w Qs v) :
    (∃ y, dosOf d types (fun q => d.polarComplete born diel erfc lam images junk q none) eigh c b qs w = .ok y ∧
      dosOf d types (fun q => d.polarComplete born diel erfc lam images junk q none) eigh c b Qs v = .ok y) ∧
    ∃ rows rows', pdosOf d types (fun q => d.polarComplete born diel erfc lam images junk q none) eigh c b cs qs w = .ok rows ∧
      pdosOf d types (fun q => d.polarComplete born diel erfc lam images junk q none) eigh c b cs Qs v = .ok rows' ∧
      ∀ species, ∀ i < b.length - 1, ∑ k with types k = species, line rows k i = ∑ k with types k = species, line rows' k i :=
  ⟨dos_of (polar_family hok hs ho junk erfc lam) he hg (polar_carries hok ho herfc hl junk hg hd hb) hn hc hbins hw hne hf,
    species_of (polar_family hok hs ho junk erfc lam) he hg (polar_carries hok ho herfc hl junk hg hd hb) hc hbins cs hw hne hf⟩

/-- **C163.** What the full set gives for a single atom is the mean of what the reduced set gives for the atoms that the operations
move there. -/
theorem C163_atom_mean {c : ℝ} (hc : 0 < c) {b : List ℝ} (hbins : b.Pairwise (· ≤ ·))
    {qs : Fin nq → V3 ℝ} {w : Fin nq → ℝ} (hw : ∑ i, w i ≠ 0) (hne : ops ≠ []) {Qs : Fin nF → V3 ℝ} {v : Fin nF → ℝ}
    (hf : StandsFor ops qs w Qs v) :
    ∃ rows rows', pdosOf d types (fun q => d.polarComplete born diel erfc lam images junk q none) eigh c b none qs w = .ok rows ∧
      pdosOf d types (fun q => d.polarComplete born diel erfc lam images junk q none) eigh c b none Qs v = .ok rows' ∧
      ∀ k, ∀ i < b.length - 1, line rows' k i = (∑ s, line rows ((h s).p.symm k) i) / ops.length :=
  atom_mean_of (polar_family hok hs ho junk erfc lam) he hg (polar_carries hok ho herfc hl junk hg hd hb) hc hbins hw hne hf

end

/-! ### A case meeting the hypotheses -/

namespace Ex

open Euphonic.DebyeSym.Ex

theorem carries_diel : ∀ s : Fin ops.length,
    CarryR (![same 2 2, half] s : Change 2 2 2).R (fun a b => Describe.Ex.diel a b) (fun a b => Describe.Ex.diel a b) := by
  intro s
  change Fin 2 at s
  fin_cases s <;> intro a b <;> fin_cases a <;> fin_cases b <;>
    simp [same, half, Describe.Ex.diel, Fin.sum_univ_three]

theorem carries_born : ∀ (s : Fin ops.length) (i : Fin 2), CarryR (![same 2 2, half] s : Change 2 2 2).R (Describe.Ex.born i)
    (Describe.Ex.born ((![same 2 2, half] s : Change 2 2 2).p i)) := by
  intro s i
  change Fin 2 at s
  fin_cases s <;> intro a b <;> fin_cases a <;> fin_cases b <;>
    simp [same, half, Describe.Ex.born, Fin.sum_univ_three]

/-- The polar chain: exponents from one of two wavevectors that a half turn exchanges, with twice the weight, and from both. -/
example (junk : Fin 2 → Mat 2 ℝ) {eigh : Mat 2 ℂ → (Fin (2 * 3) → ℝ) × Mat 2 ℂ} (he : IsEigh eigh) (kB temp fmin : ℝ) :
    ∃ dw, debyeWaller Describe.Ex.d.cv Describe.Ex.d.r (1 / 1000) (some ops) 1000 (modesOf Describe.Ex.d types
        (fun q => Describe.Ex.d.polarComplete Describe.Ex.born Describe.Ex.diel erfc0 1 shells2 junk q none) eigh
        (fun _ : Fin 1 => Qs 0) fun _ => 2) kB temp fmin true = .ok dw ∧
      debyeWaller Describe.Ex.d.cv Describe.Ex.d.r (1 / 1000) (some ops) 1000 (modesOf Describe.Ex.d types
        (fun q => Describe.Ex.d.polarComplete Describe.Ex.born Describe.Ex.diel erfc0 1 shells2 junk q none) eigh
        Qs fun _ => 1) kB temp fmin false = .ok dw := by
  have h := C163_debye_waller Describe.Ex.ok Describe.Ex.symmetric Describe.Ex.sound isErfc_erfc0 one_pos junk he genuine carries_diel
    carries_born (by norm_num : (0 : ℝ) < 1 / 1000) (separated _) e Qs acts
    (![0] : Fin 1 → Fin 2) (fun j => ⟨0, by simp [MulAction.orbit_eq_univ], fun i _ => Subsingleton.elim _ _⟩) (by norm_num)
    (by norm_num : 0 < 1000) kB temp fmin
  have hcard : ∀ i : Fin 1, ((Nat.card (MulAction.orbit (Equiv.Perm (Fin 2)) ((![0] : Fin 1 → Fin 2) i)) : ℕ) : ℝ) = 2 := by
    intro i
    rw [MulAction.orbit_eq_univ]
    simp
  have hq : (fun i : Fin 1 => Qs ((![0] : Fin 1 → Fin 2) i)) = fun _ => Qs 0 := by
    funext i
    fin_cases i
    rfl
  rw [hq, funext hcard] at h
  exact h

end Ex

end Euphonic.PolarGrid
