import Verif.Model.Base
import Verif.Model.Dos
import Mathlib.Analysis.SpecialFunctions.Complex.Circle
import Mathlib.Analysis.SpecialFunctions.Trigonometric.DerivHyp

/-!
# Model of structure factors and Debye-Waller exponents

Models `QpointPhononModes.calculate_structure_factor` and `calculate_debye_waller`
(euphonic/qpoint_phonon_modes.py:168-423) with real and complex numbers in place of floats.  Arrays are
functions on `Fin n` (shapes are guaranteed by the constructors, C19); everything is in internal units
(hartree, bohr, electron mass), the unit conversions of the result are factors.  Not modelled: NaN and
infinity (division by a frequency that is exactly zero), reading the reference data files (a lookup
function is a parameter), the symmetry search of spglib (its result is a parameter).
-/

set_option autoImplicit false

namespace Euphonic.Scatter

open scoped ComplexConjugate

/-- Data of a `DebyeWaller` object: one 3x3 matrix per atom (bohr**2) and the temperature
(euphonic/debye_waller.py:30-61). -/
structure DW where
  nAtoms : Nat
  w : Fin nAtoms → Fin 3 → Fin 3 → ℝ
  temperature : ℝ

/-- The parts of a `Crystal` that are used (euphonic/crystal.py:66-79, 106-124); `recip` is
`reciprocal_cell().to('1/bohr')`. -/
structure Cryst (nAtoms : Nat) where
  atomR : Fin nAtoms → Fin 3 → ℝ
  atomType : Fin nAtoms → String
  mass : Fin nAtoms → ℝ
  recip : Fin 3 → Fin 3 → ℝ

/-- Data of a `QpointPhononModes` (euphonic/qpoint_phonon_modes.py:46-79). -/
structure Modes {na : Nat} (C : Cryst na) (nq nm : Nat) where
  qpts : Fin nq → Fin 3 → ℝ
  freqs : Fin nq → Fin nm → ℝ
  evecs : Fin nq → Fin nm → Fin na → Fin 3 → ℂ
  weights : Fin nq → ℝ

/-- Data of a `StructureFactor` (euphonic/structure_factor.py:43-92). -/
structure SF (nq nm : Nat) where
  freqs : Fin nq → Fin nm → ℝ
  sf : Fin nq → Fin nm → ℝ
  weights : Fin nq → ℝ
  temperature : Option ℝ

variable {na : Nat} {C : Cryst na} {nq nm : Nat}

/-- `np.einsum('ij,kj->ik', qpts, atom_r)` and the phase factor (euphonic/qpoint_phonon_modes.py:249-250). -/
noncomputable def expFactor (m : Modes C nq nm) (q : Fin nq) (k : Fin na) : ℂ :=
  Complex.exp (Complex.I * 2 * Real.pi * (∑ j, m.qpts q j * C.atomR k j : ℝ))

/-- `Q = np.einsum('ij,jk->ik', qpts, recip)` (euphonic/qpoint_phonon_modes.py:255). -/
noncomputable def cartQ (m : Modes C nq nm) (q : Fin nq) (k : Fin 3) : ℝ :=
  ∑ j, m.qpts q j * C.recip j k

/-- `np.einsum('ijkl,il->ijk', np.conj(eigenvectors), Q)` (euphonic/qpoint_phonon_modes.py:259). -/
noncomputable def evecDotQ (m : Modes C nq nm) (q : Fin nq) (j : Fin nm) (k : Fin na) : ℂ :=
  ∑ l, conj (m.evecs q j k l) * (cartQ m q l : ℂ)

/-- `np.exp(-np.einsum('jkl,ik,il->ij', dw._debye_waller, Q, Q))`
(euphonic/qpoint_phonon_modes.py:270-271). -/
noncomputable def dwFactor (w : Fin na → Fin 3 → Fin 3 → ℝ) (m : Modes C nq nm) (q : Fin nq)
    (k : Fin na) : ℝ :=
  Real.exp (-∑ a, ∑ b, w k a b * cartQ m q a * cartQ m q b)

/-- `term = np.einsum('ijk,ik,k->ij', ...)` (euphonic/qpoint_phonon_modes.py:275) with per-atom factors
`d` (the Debye-Waller factors, or one).  Scattering lengths are complex: those of absorbing nuclei are
(euphonic/util.py:216-218, euphonic/data/sears-1992.json). -/
noncomputable def sfTerm (m : Modes C nq nm) (sl : Fin na → ℂ)
    (d : Fin nq → Fin na → ℝ) (q : Fin nq) (j : Fin nm) : ℂ :=
  ∑ k, evecDotQ m q j k * (expFactor m q k * (d q k : ℂ)) * (sl k / (Real.sqrt (C.mass k) : ℂ))

/-- `np.real(np.absolute(term*np.conj(term))/np.absolute(freqs))/(2*n_atoms)`
(euphonic/qpoint_phonon_modes.py:278-280), for a frequency that is not zero; for one that is, numpy gives an infinity or NaN
for this mode, which is not described. -/
noncomputable def sfValue (na : Nat) (term : ℂ) (f : ℝ) : ℝ :=
  ‖term * conj term‖ / |f| / (2 * (na : ℝ))

/-- Scattering lengths per atom: `[data[x].to('bohr').magnitude for x in atom_type]`, `KeyError` if a
species is missing (euphonic/qpoint_phonon_modes.py:241-242). -/
def lookupAll {n : Nat} (data : String → Option ℂ) (t : Fin n → String) :
    Except Err (Fin n → ℂ) :=
  if ∀ k, (data (t k)).isSome then .ok fun k => (data (t k)).getD 0 else .error .keyError

/-- The per-atom factors used for the optional Debye-Waller object: one without it, `ValueError` for a
different number of atoms (euphonic/qpoint_phonon_modes.py:262-272). -/
noncomputable def dwFactors (m : Modes C nq nm) (dw : Option DW) :
    Except Err (Fin nq → Fin na → ℝ) :=
  match dw with
  | none => .ok fun _ _ => 1
  | some dw =>
    if h : dw.nAtoms = na then
      .ok fun q k => dwFactor (fun k => dw.w (Fin.cast h.symm k)) m q k
    else .error .valueError

/-- `calculate_structure_factor` (euphonic/qpoint_phonon_modes.py:229-286); `data` is the dictionary of
scattering lengths.  The result has no weights argument, so it gets equal weights
(euphonic/qpoint_frequencies.py:75-78). -/
noncomputable def calculateStructureFactor (m : Modes C nq nm) (data : String → Option ℂ)
    (dw : Option DW) : Except Err (SF nq nm) := do
  let sl ← lookupAll data C.atomType
  let d ← dwFactors m dw
  return ⟨m.freqs, fun q j => sfValue na (sfTerm m sl d q j) (m.freqs q j), Dos.defaultWeights nq,
    dw.map (·.temperature)⟩

/-! ## Debye-Waller -/

/-- `freq_term*freq_mask` for one frequency (euphonic/qpoint_phonon_modes.py:378-386); `kB` in
hartree/K. -/
noncomputable def freqTerm (kB temp fmin f : ℝ) : ℝ :=
  (if 0 < temp then 1 / (f * Real.tanh (f / (2 * kB * temp))) else 1 / f) *
    (if f < fmin then 0 else 1)

/-- Contribution of q-point `q` to element `(l, n)` of the matrix of atom `k`: the sum over modes of
`weights * mass_term * freq_term * freq_mask * real(e_l conj(e_n))`
(euphonic/qpoint_phonon_modes.py:394-401). -/
noncomputable def dwContribution (m : Modes C nq nm) (kB temp fmin : ℝ) (k : Fin na)
    (l n : Fin 3) (q : Fin nq) : ℝ :=
  ∑ j, m.weights q * (1 / (4 * C.mass k)) * freqTerm kB temp fmin (m.freqs q j) *
    (m.evecs q j k l * conj (m.evecs q j k n)).re

/-- The chunked accumulation (euphonic/qpoint_phonon_modes.py:388-401): chunk `i` covers q-points
`i*chunk` to `min((i+1)*chunk, n) - 1`, for `i < int((n - 1)/chunk) + 1`.  `v` are the contributions of
the single q-points; Python's `int` truncates, so the number of chunks for `n = 0` is one. -/
def chunkedSum {K : Type} [AddCommMonoid K] (chunk : Nat) (v : List K) : K :=
  (List.range ((v.length - 1) / chunk + 1)).foldl (fun acc i =>
    acc + ((v.take (min ((i + 1) * chunk) v.length)).drop (i * chunk)).sum) 0

/-- The matrices before symmetrisation (euphonic/qpoint_phonon_modes.py:387-403). -/
noncomputable def dwRaw (chunk : Nat) (m : Modes C nq nm) (kB temp fmin : ℝ) (k : Fin na)
    (l n : Fin 3) : ℝ :=
  chunkedSum chunk ((List.finRange nq).map (dwContribution m kB temp fmin k l n)) / ∑ q, m.weights q

/-- Floating-point values as far as infinities and NaN are concerned (the sign of an infinity is not
tracked; IEEE 754 semantics of numpy). -/
inductive Fl where
  | num (x : ℝ)
  | inf
  | nan

/-- IEEE division. -/
noncomputable def Fl.div : Fl → Fl → Fl
  | .num a, .num b => if b = 0 then (if a = 0 then .nan else .inf) else .num (a / b)
  | .num _, .inf => .num 0
  | .inf, .num _ => .inf
  | _, _ => .nan

/-- IEEE multiplication: zero times infinity is NaN. -/
noncomputable def Fl.mul : Fl → Fl → Fl
  | .num a, .num b => .num (a * b)
  | .num a, .inf => if a = 0 then .nan else .inf
  | .inf, .num a => if a = 0 then .nan else .inf
  | .inf, .inf => .inf
  | _, _ => .nan

/-- IEEE addition (NaN as soon as one summand is; infinities of opposite sign are not distinguished). -/
noncomputable def Fl.add : Fl → Fl → Fl
  | .num a, .num b => .num (a + b)
  | .num _, .inf => .inf
  | .inf, .num _ => .inf
  | .inf, .inf => .inf
  | _, _ => .nan

/-- `freq_term` with floating-point division (euphonic/qpoint_phonon_modes.py:382-386). -/
noncomputable def freqTermFl (kB temp f : ℝ) : Fl :=
  (Fl.num 1).div (if 0 < temp then .num (f * Real.tanh (f / (2 * kB * temp))) else .num f)

/-- One element of the matrices before the division by the sum of the weights, with floating-point
special values: the sum of `weights*mass_term*freq_term*freq_mask*evec_term` over q-points and modes
(euphonic/qpoint_phonon_modes.py:376-401, without the cut into chunks). -/
noncomputable def dwElementFl (m : Modes C nq nm) (kB temp fmin : ℝ) (k : Fin na) (l n : Fin 3) : Fl :=
  ((List.finRange nq).flatMap fun q => (List.finRange nm).map fun j => (q, j)).foldl
    (fun acc p => acc.add
      ((((Fl.num (m.weights p.1 * (1 / (4 * C.mass k)))).mul
        (freqTermFl kB temp (m.freqs p.1 p.2))).mul
        (.num (if m.freqs p.1 p.2 < fmin then 0 else 1))).mul
        (.num (m.evecs p.1 p.2 k l * conj (m.evecs p.1 p.2 k n)).re))) (.num 0)

/-- Result of the symmetry search: rotations (already in Cartesian coordinates, `rot_cart`) and, for
each, the index of the atom every atom is mapped on (euphonic/crystal.py:202-277). -/
structure SymOp (n : Nat) where
  rot : Fin 3 → Fin 3 → ℝ
  eqAtoms : Fin n → Fin n

/-- `np.einsum('ij,kjl,ml->kim', rot, dw, rot)` (euphonic/qpoint_phonon_modes.py:413-414). -/
noncomputable def rotate {n : Nat} (r : Fin 3 → Fin 3 → ℝ) (w : Fin n → Fin 3 → Fin 3 → ℝ)
    (k : Fin n) (i m : Fin 3) : ℝ := ∑ j, ∑ l, r i j * w k j l * r m l

/-- `dw_tmp[eq] += v` with an index array: numpy reads the old values first, so of several `k` with the
same index the last one wins (euphonic/qpoint_phonon_modes.py:413-414). -/
noncomputable def indexedAdd {n : Nat} (acc v : Fin n → Fin 3 → Fin 3 → ℝ) (eq : Fin n → Fin n) :
    Fin n → Fin 3 → Fin 3 → ℝ :=
  fun k => match (List.finRange n).reverse.find? fun k' => decide (eq k' = k) with
    | some k' => fun i m => acc k i m + v k' i m
    | none => acc k

/-- `calculate_debye_waller` (euphonic/qpoint_phonon_modes.py:362-423); `sym` is `none` for
`symmetrise=False`. -/
noncomputable def calculateDebyeWaller (chunk : Nat) (m : Modes C nq nm) (kB temp fmin : ℝ)
    (sym : Option (List (SymOp na))) : DW :=
  let dw := dwRaw chunk m kB temp fmin
  let dw := match sym with
    | none => dw
    | some ops =>
      let tmp := ops.foldl (fun acc s => indexedAdd acc (rotate s.rot dw) s.eqAtoms) fun _ _ _ => 0
      fun k i j => tmp k i j / (ops.length : ℝ)
  ⟨na, dw, temp⟩

end Euphonic.Scatter
