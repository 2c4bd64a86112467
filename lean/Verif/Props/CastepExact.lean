import Verif.Props.CastepWrite
import Verif.Props.Commensurate

/-!
# C168: from a `.castep_bin` file to exact phonons
-/

set_option autoImplicit false
set_option linter.unusedSectionVars false

namespace Euphonic.CastepExact

open Euphonic.Lattice Euphonic.Supercell Euphonic.Phases Euphonic.Images Euphonic.DynMat Euphonic.Reduced Euphonic.Commensurate
open Euphonic.CastepBin

variable {K : Type} [Field K] [LinearOrder K] [IsStrictOrderedRing K] [FloorRing K]

/-! ## The `ForceConstants` object made from the data; numbers are taken to be real numbers by `ι` -/

/-- `ForceConstants.from_castep` (euphonic/force_constants.py:1822-1836): cell vectors.  Simplified, here and below: the units
asked for are left out, since calculations are done in atomic units again (C14). -/
def cellOf (ι : K →+* ℝ) (d : Data K) : M3 ℝ :=
  let x := fun k => ι (d.cellVectors.getD k 0)
  ⟨⟨x 0, x 1, x 2⟩, ⟨x 3, x 4, x 5⟩, ⟨x 6, x 7, x 8⟩⟩

/-- `ForceConstants.from_castep` (euphonic/force_constants.py:1822-1836): positions of the `n` atoms. -/
def positions (ι : K →+* ℝ) (d : Data K) (n : Nat) (i : Fin n) : V3 ℝ :=
  let v := d.atomR.getD i ⟨0, 0, 0⟩
  ⟨ι v.x, ι v.y, ι v.z⟩

/-- `ForceConstants.from_castep` (euphonic/force_constants.py:1822-1836): masses of the `n` atoms. -/
def masses (ι : K →+* ℝ) (d : Data K) (n : Nat) (i : Fin n) : ℝ := ι (d.masses.getD i 0)

/-- `ForceConstants.from_castep` (euphonic/force_constants.py:1822-1836): supercell matrix. -/
def supercell (d : Data K) : M3 ℤ :=
  let x := fun k => d.scMatrix.getD k 0
  ⟨⟨x 0, x 1, x 2⟩, ⟨x 3, x 4, x 5⟩, ⟨x 6, x 7, x 8⟩⟩

/-- `ForceConstants.from_castep` (euphonic/force_constants.py:1822-1836): origins of the `N` cells. -/
def origins (d : Data K) (N : Nat) (c : Fin N) : V3 ℤ :=
  let x := fun k => d.origins.getD (3 * c.val + k) 0
  ⟨x 0, x 1, x 2⟩

/-- `ForceConstants.from_castep` (euphonic/force_constants.py:1822-1836): force constants. -/
def matrices (ι : K →+* ℝ) (d : Data K) (N n : Nat) (c : Fin N) : Mat n ℝ := fun k l => ι (d.fc c k l)

/-! ## Specification: what is in the file -/

/-- The lattice vectors in the file. -/
def lattice (ι : K →+* ℝ) (w : FileW K) : M3 ℝ :=
  let m := w.cell.lattice
  ⟨⟨ι m.a.x, ι m.a.y, ι m.a.z⟩, ⟨ι m.b.x, ι m.b.y, ι m.b.z⟩, ⟨ι m.c.x, ι m.c.y, ι m.c.z⟩⟩

/-- The species of the atoms, in the order of the file. -/
def speciesOf (w : FileW K) : List (Species K) := w.cell.species.flatMap fun s => List.replicate s.atoms.length s

/-- The mass of an atom: that of its species. -/
def massOf (ι : K →+* ℝ) (w : FileW K) (i : Fin w.cell.n) : ℝ := ι (((speciesOf w).map (·.mass)).getD i 0)

/-- The force constants of a block. -/
def blockFc (ι : K →+* ℝ) (F : Nat → Nat → Nat → K) (N n : Nat) (c : Fin N) : Mat n ℝ := fun k l => ι (F c k l)

/-- The cells of a block. -/
def blockCells (o : List (V3 ℤ)) (N : Nat) (c : Fin N) : V3 ℤ := o.getD c ⟨0, 0, 0⟩

/-- The object holds what is in the file. -/
structure Holds (ι : K →+* ℝ) (w : FileW K) (S : M3 ℤ) (F : Nat → Nat → Nat → K) (o : List (V3 ℤ)) (d : Data K) : Prop where
  atoms : d.nAtoms = w.cell.n
  cell : cellOf ι d = lattice ι w
  super : supercell d = S
  cells : ∀ c, origins d (det S).natAbs c = blockCells o (det S).natAbs c
  masses : ∀ i, masses ι d w.cell.n i = massOf ι w i
  fc : ∀ c k l, matrices ι d (det S).natAbs w.cell.n c k l = blockFc ι F (det S).natAbs w.cell.n c k l

/-! ## Proofs -/

theorem getD_flatMap_vec (o : List (V3 ℤ)) (c : Nat) (hc : c < o.length) :
    (⟨(o.flatMap vec).getD (3 * c) 0, (o.flatMap vec).getD (3 * c + 1) 0, (o.flatMap vec).getD (3 * c + 2) 0⟩ : V3 ℤ) =
      o.getD c ⟨0, 0, 0⟩ := by
  induction o generalizing c with
  | nil => simp at hc
  | cons v o ih =>
    cases c with
    | zero => simp [vec]
    | succ c =>
      have e : ∀ k, (List.flatMap vec (v :: o)).getD (3 * (c + 1) + k) 0 = (o.flatMap vec).getD (3 * c + k) 0 := by
        intro k
        rw [List.flatMap_cons, show 3 * (c + 1) + k = 3 * c + k + 3 by ring]
        simp [vec]
      have := ih c (by simpa using hc)
      have e0 := e 0
      have e1 := e 1
      have e2 := e 2
      rw [add_zero, add_zero] at e0
      rw [e0, e1, e2, this]
      simp

section
variable (dbl : List UInt8 → K) (enc : K → List UInt8) (old : List UInt8 → Except Err Bool) (w : FileW K)
  (henc : ∀ x ∈ w.numbers, Stored dbl enc x) (hw : w.Valid) (hold : old (strip w.version) = .ok false) (tail : File)
  (S : M3 ℤ) (F : Nat → Nat → Nat → K) (o : List (V3 ℤ)) (hf : (w.items.filterMap Item.force?).getLast? = some (S, F, o))
  (ι : K →+* ℝ)
include henc hw hold hf

omit henc hold in
theorem block_length : o.length = (det S).natAbs := by
  have hm := List.mem_of_mem_getLast? (by rw [hf]; rfl : (S, F, o) ∈ (w.items.filterMap Item.force?).getLast?)
  obtain ⟨i, hi, he⟩ := List.mem_filterMap.1 hm
  have hv := hw.items i hi
  cases i with
  | force S' F' o' r =>
    simp only [Item.force?, Option.some.injEq, Prod.mk.injEq] at he
    obtain ⟨rfl, rfl, rfl⟩ := he
    exact hv.2.2.1
  | noise p => simp [Item.force?] at he
  | born l => simp [Item.force?] at he
  | diel m => simp [Item.force?] at he

/-- **C168** The file is read, and the object holds its contents. -/
theorem C168_read : ∃ d, readInterpolation dbl old (w.bytes enc tail) = .ok d ∧ Holds ι w S F o d ∧
    (StrictMono ι → ∀ i, (0 ≤ (positions ι d w.cell.n i).x ∧ (positions ι d w.cell.n i).x < 1) ∧
      (0 ≤ (positions ι d w.cell.n i).y ∧ (positions ι d w.cell.n i).y < 1) ∧
      (0 ≤ (positions ι d w.cell.n i).z ∧ (positions ι d w.cell.n i).z < 1)) := by
  obtain ⟨d, h1, h2, h3, h4, h5, -, h6, h7, h8, -⟩ := C84_file dbl enc old w henc hw hold tail S F o hf
  have hlen := block_length w hw S F o hf
  refine ⟨d, h1, ⟨h2, ?_, ?_, ?_, ?_, ?_⟩, ?_⟩
  · unfold cellOf lattice
    rw [h3]
    rfl
  · unfold supercell
    rw [h6]
    rfl
  · intro c
    unfold origins blockCells
    rw [h7]
    exact getD_flatMap_vec o c.val (by rw [hlen]; exact c.2)
  · intro i
    unfold masses massOf speciesOf
    rw [h5, List.map_flatMap]
    simp only [List.map_replicate]
  · intro c k l
    unfold matrices blockFc
    rw [h8 c k l c.2 (by have := k.2; omega) (by have := l.2; omega)]
  · intro hι i
    have hl : d.atomR.length = w.cell.n := by
      rw [← h4.length_eq, List.length_flatMap]
      rfl
    have hi : i.val < d.atomR.length := by rw [hl]; exact i.2
    have hin := h4.get (i := i.val) (by rw [h4.length_eq]; exact hi) hi
    simp only [List.get_eq_getElem] at hin
    unfold positions
    rw [List.getD_eq_getElem _ _ hi]
    have m0 : ∀ {x : K}, 0 ≤ x → 0 ≤ ι x := fun h => by simpa using hι.monotone h
    have m1 : ∀ {x : K}, x < 1 → ι x < 1 := fun h => by simpa using hι h
    exact ⟨⟨m0 hin.1.1, m1 hin.1.2⟩, ⟨m0 hin.2.1.1, m1 hin.2.1.2⟩, ⟨m0 hin.2.2.1.1, m1 hin.2.2.1.2⟩⟩

end

/-- In a box of cells, atoms whose coordinates have been moved into the cell are within one supercell of each other. -/
theorem within_box {N n : Nat} {S : M3 ℤ} {m : V3 ℤ} (hm : 0 < m.x ∧ 0 < m.y ∧ 0 < m.z)
    (hS : S = ⟨⟨m.x, 0, 0⟩, ⟨0, m.y, 0⟩, ⟨0, 0, m.z⟩⟩) {cells : Fin N → V3 ℤ}
    (hc : ∀ c, (0 ≤ (cells c).x ∧ (cells c).x < m.x) ∧ (0 ≤ (cells c).y ∧ (cells c).y < m.y) ∧ (0 ≤ (cells c).z ∧ (cells c).z < m.z))
    {r : Fin n → V3 ℝ} (hr : ∀ i, (0 ≤ (r i).x ∧ (r i).x < 1) ∧ (0 ≤ (r i).y ∧ (r i).y < 1) ∧ (0 ≤ (r i).z ∧ (r i).z < 1))
    (c0 c : Fin N) (i j : Fin n) :
    ∃ f, WithinOne S (sub (add (castV ℝ (cells c0)) (r i)) (add (castV ℝ (cells c)) (r j))) f := by
  have one : ∀ {m a b : ℤ} {x y : ℝ}, 0 < m → 0 ≤ a → a < m → 0 ≤ b → b < m → 0 ≤ x → x < 1 → 0 ≤ y → y < 1 →
      |((a : ℝ) + x - (b + y)) / m| ≤ 1 := by
    intro m a b x y hm ha ha' hb hb' hx hx' hy hy'
    have hm' : (0 : ℝ) < m := by exact_mod_cast hm
    have h1 : (a : ℝ) + 1 ≤ m := by exact_mod_cast ha'
    have h2 : (b : ℝ) + 1 ≤ m := by exact_mod_cast hb'
    have h3 : (0 : ℝ) ≤ a := by exact_mod_cast ha
    have h4 : (0 : ℝ) ≤ b := by exact_mod_cast hb
    rw [abs_div, abs_of_pos hm', div_le_one hm', abs_le]
    constructor <;> linarith
  obtain ⟨⟨a1, a2⟩, ⟨a3, a4⟩, ⟨a5, a6⟩⟩ := hc c0
  obtain ⟨⟨b1, b2⟩, ⟨b3, b4⟩, ⟨b5, b6⟩⟩ := hc c
  obtain ⟨⟨x1, x2⟩, ⟨x3, x4⟩, ⟨x5, x6⟩⟩ := hr i
  obtain ⟨⟨y1, y2⟩, ⟨y3, y4⟩, ⟨y5, y6⟩⟩ := hr j
  refine ⟨⟨(((cells c0).x : ℝ) + (r i).x - ((cells c).x + (r j).x)) / m.x, (((cells c0).y : ℝ) + (r i).y - ((cells c).y + (r j).y)) / m.y,
    (((cells c0).z : ℝ) + (r i).z - ((cells c).z + (r j).z)) / m.z⟩, one hm.1 a1 a2 b1 b2 x1 x2 y1 y2,
    one hm.2.1 a3 a4 b3 b4 x3 x4 y3 y4, one hm.2.2 a5 a6 b5 b6 x5 x6 y5 y6, ?_⟩
  have h1 : (m.x : ℝ) ≠ 0 := by exact_mod_cast hm.1.ne'
  have h2 : (m.y : ℝ) ≠ 0 := by exact_mod_cast hm.2.1.ne'
  have h3 : (m.z : ℝ) ≠ 0 := by exact_mod_cast hm.2.2.ne'
  rw [hS]
  simp [sub, add, castV, h1, h2, h3]

/-! ## Theorems -/

/-- The dynamical matrix of the object, as `_calculate_phonons_at_q` diagonalises it (euphonic/force_constants.py:815-838). -/
noncomputable def matrix (ι : K →+* ℝ) (d : Data K) (n N : Nat) (c0 : Fin N) (junk : Fin N → Mat n ℝ) (q : V3 ℝ) : Mat n ℂ :=
  weighted (massWeighting (masses ι d n)) (fcDynMat (cellOf ι d) (positions ι d n) (origins d N) c0
    (supercell d) shells2 (matrices ι d N n) junk q) none none none

/-- The cells of the block fill a box of `m.x` times `m.y` times `m.z` cells, and the vectors of the supercell are reduced. -/
structure ReducedBox (ι : K →+* ℝ) (w : FileW K) (S : M3 ℤ) (o : List (V3 ℤ)) (m : V3 ℤ) : Prop where
  diagonal : S = ⟨⟨m.x, 0, 0⟩, ⟨0, m.y, 0⟩, ⟨0, 0, m.z⟩⟩
  positive : 0 < m.x ∧ 0 < m.y ∧ 0 < m.z
  box : ∀ v ∈ o, (0 ≤ v.x ∧ v.x < m.x) ∧ (0 ≤ v.y ∧ v.y < m.y) ∧ (0 ≤ v.z ∧ v.z < m.z)
  once : o.Nodup
  volume : cellVolume (scVecs S (lattice ι w)) ≠ 0
  reduced : IsReduced (scVecs S (lattice ι w))

theorem distinct_box {ι : K →+* ℝ} {w : FileW K} {S : M3 ℤ} {o : List (V3 ℤ)} {m : V3 ℤ} (hb : ReducedBox ι w S o m)
    (hlen : o.length = (det S).natAbs) : DistinctCells S (blockCells o (det S).natAbs) := by
  intro j k hjk
  have hj : j.val < o.length := by rw [hlen]; exact j.2
  have hk : k.val < o.length := by rw [hlen]; exact k.2
  have one : ∀ {M a b : ℤ} (t : ℤ), 0 ≤ a → a < M → 0 ≤ b → b < M → a - b = t * M → a = b := by
    intro M a b t h1 h2 h3 h4 e
    have : t = 0 := by
      rcases lt_trichotomy t 0 with h | h | h
      · nlinarith
      · exact h
      · nlinarith
    subst this
    omega
  have e : o[j.val] = o[k.val] := by
    obtain ⟨t, ht⟩ := hjk
    unfold blockCells at ht
    rw [List.getD_eq_getElem _ _ hj, List.getD_eq_getElem _ _ hk] at ht
    replace ht := ht.trans (congrArg (mulMat t) hb.diagonal)
    obtain ⟨⟨a1, a2⟩, ⟨a3, a4⟩, ⟨a5, a6⟩⟩ := hb.box _ (List.getElem_mem hj)
    obtain ⟨⟨b1, b2⟩, ⟨b3, b4⟩, ⟨b5, b6⟩⟩ := hb.box _ (List.getElem_mem hk)
    have hx := congrArg V3.x ht
    have hy := congrArg V3.y ht
    have hz := congrArg V3.z ht
    simp [Lattice.sub, mulMat] at hx hy hz
    exact DynMat.V3.ext' (one t.x a1 a2 b1 b2 hx) (one t.y a3 a4 b3 b4 hy) (one t.z a5 a6 b5 b6 hz)
  exact Fin.ext ((List.Nodup.getElem_inj_iff hb.once).1 e)

section
variable (dbl : List UInt8 → K) (enc : K → List UInt8) (old : List UInt8 → Except Err Bool) (w : FileW K)
  (henc : ∀ x ∈ w.numbers, Stored dbl enc x) (hw : w.Valid) (hold : old (strip w.version) = .ok false) (tail : File)
  (S : M3 ℤ) (F : Nat → Nat → Nat → K) (o : List (V3 ℤ)) (hf : (w.items.filterMap Item.force?).getLast? = some (S, F, o))
  (ι : K →+* ℝ) (hι : StrictMono ι) (m : V3 ℤ) (hb : ReducedBox ι w S o m)
include henc hw hold hf hι hb

theorem read_box : ∃ d, readInterpolation dbl old (w.bytes enc tail) = .ok d ∧
    (∀ c0, ReducedSupercell (lattice ι w) (positions ι d w.cell.n) (blockCells o (det S).natAbs) c0 S shells2) ∧
    ∀ c0 junk q, matrix ι d w.cell.n (det S).natAbs c0 junk q = weighted (massWeighting (massOf ι w)) (fcDynMat (lattice ι w)
      (positions ι d w.cell.n) (blockCells o (det S).natAbs) c0 S shells2 (blockFc ι F (det S).natAbs w.cell.n) junk q)
      none none none := by
  obtain ⟨d, h1, h, h2⟩ := C168_read dbl enc old w henc hw hold tail S F o hf ι
  have hlen := block_length w hw S F o hf
  refine ⟨d, h1, fun c0 => ⟨shells2_eq, hb.volume, hb.reduced, fun c i j => ?_⟩, fun c0 junk q => ?_⟩
  · refine within_box hb.positive hb.diagonal (fun c => ?_) (h2 hι) c0 c i j
    have hc : c.val < o.length := by rw [hlen]; exact c.2
    unfold blockCells
    rw [List.getD_eq_getElem _ _ hc]
    exact hb.box _ (List.getElem_mem hc)
  · unfold matrix
    rw [h.cell, h.super, funext h.cells, funext h.masses,
      (funext fun c => funext fun k => funext fun l => h.fc c k l : matrices ι d (det S).natAbs w.cell.n = _)]

/-- **C168** (partial: for reduced supercells) A file with force constants of a box of cells is read, and at a wavevector that
fits into the supercell the dynamical matrix is the Fourier sum of the force constants in the file over the cells in the file,
divided by the square roots of the masses in the file. -/
theorem C168_fourier_partial : ∃ d, readInterpolation dbl old (w.bytes enc tail) = .ok d ∧ ∀ c0 junk q, Fits S q → ∀ k l,
    matrix ι d w.cell.n (det S).natAbs c0 junk q k l =
      (∑ c : Fin (det S).natAbs, (ι (F c k l) : ℂ) * expQR q (o.getD c ⟨0, 0, 0⟩)) *
        ((1 / √(massOf ι w l.divNat * massOf ι w k.divNat) : ℝ) : ℂ) := by
  obtain ⟨d, h1, hok, hm⟩ := read_box dbl enc old w henc hw hold tail S F o hf ι hι m hb
  refine ⟨d, h1, fun c0 junk q hq k l => ?_⟩
  rw [hm]
  change fcDynMat _ _ _ _ _ _ _ _ _ k l * _ = _
  rw [C129_exact_partial _ _ _ _ _ _ (hok c0) _ _ _ hq]
  rfl

/-- **C168** (partial: for reduced supercells) If all atoms of the supercell are displaced along a mode, the force on each of them
from the force constants in the file is minus the squared frequency times mass times displacement. -/
theorem C168_normal_mode_partial : ∃ d, readInterpolation dbl old (w.bytes enc tail) = .ok d ∧ ∀ c0 junk q, Fits S q →
    ∀ rel : Fin (det S).natAbs → Fin (det S).natAbs → Fin (det S).natAbs,
    (∀ i j, IsTranslation S (blockCells o (det S).natAbs) i j (rel i j)) → (∀ i, 0 < massOf ι w i) →
    ∀ (e : Fin (w.cell.n * 3) → ℂ) (v : ℂ),
    (∀ k, ∑ l, matrix ι d w.cell.n (det S).natAbs c0 junk q k l * e l = v * e k) →
    ∀ c (k : Fin (w.cell.n * 3)),
    ∑ c', ∑ l : Fin (w.cell.n * 3), (ι (F (rel c c') k l) : ℂ) *
        (e l / (√(massOf ι w l.divNat) : ℝ) * expQR q (o.getD c' ⟨0, 0, 0⟩)) =
      v * (massOf ι w k.divNat : ℝ) * (e k / (√(massOf ι w k.divNat) : ℝ) * expQR q (o.getD c ⟨0, 0, 0⟩)) := by
  obtain ⟨d, h1, hok, hm⟩ := read_box dbl enc old w henc hw hold tail S F o hf ι hι m hb
  refine ⟨d, h1, fun c0 junk q hq rel hrel hpos e v he c k => ?_⟩
  rw [hm] at he
  exact C129_normal_mode_partial _ _ _ _ _ shells2 (hok c0) (distinct_box hb (block_length w hw S F o hf)) hrel _ junk q hq _
    hpos e v he c k

/-- **C168** (partial: for reduced supercells) If no displacement of the atoms of the supercell lowers the energy, then no
frequency at a wavevector that fits into the supercell is imaginary. -/
theorem C168_stable_partial : ∃ d, readInterpolation dbl old (w.bytes enc tail) = .ok d ∧ ∀ c0 junk q, Fits S q →
    ∀ rel : Fin (det S).natAbs → Fin (det S).natAbs → Fin (det S).natAbs,
    (∀ i j, IsTranslation S (blockCells o (det S).natAbs) i j (rel i j)) →
    ∀ op t, Symmetric (blockCells o (det S).natAbs) S (blockFc ι F (det S).natAbs w.cell.n) op t →
    (∀ u, 0 ≤ energy (blockFc ι F (det S).natAbs w.cell.n) rel u) → (∀ i, 0 < massOf ι w i) →
    ∀ eigh : Mat w.cell.n ℂ → (Fin (w.cell.n * 3) → ℝ) × Mat w.cell.n ℂ, IsEigh eigh → ∀ s,
    0 ≤ freqOf ((eigh (matrix ι d w.cell.n (det S).natAbs c0 junk q)).1 s) := by
  obtain ⟨d, h1, hok, hm⟩ := read_box dbl enc old w henc hw hold tail S F o hf ι hι m hb
  refine ⟨d, h1, fun c0 junk q hq rel hrel op t hs hE hpos eigh he s => ?_⟩
  rw [hm]
  exact C129_stable_partial _ _ _ _ _ shells2 (hok c0) (distinct_box hb (block_length w hw S F o hf)) hrel hs junk hE q hq _
    hpos he s

end

/-! ## Example: a file with a chain of atoms on springs in the supercell 2x1x1 -/

namespace Ex

/-- One atom, written outside of the cell; an atom is tied to its neighbour in each direction. -/
def file : FileW ℚ where
  pad := 3
  version := ascii "17.1"
  noise := [ascii "ABC"]
  cellNoise := fun _ => []
  cell := ⟨⟨⟨2, 0, 0⟩, ⟨0, 3, 0⟩, ⟨0, 0, 4⟩⟩, [⟨ascii "O       ", 16, [⟨5/4, -1/3, 0⟩]⟩], ⟨7, 7, 7⟩⟩
  items := [.noise (ascii "BEGIN_UNIT_CELL"),
    .force ⟨⟨2, 0, 0⟩, ⟨0, 1, 0⟩, ⟨0, 0, 1⟩⟩ (fun nc i j => if i = j then if nc = 0 then 2 else -2 else 0)
      [⟨0, 0, 0⟩, ⟨1, 0, 0⟩] [1, 1]]

theorem valid : file.Valid where
  pad := by decide
  version := by decide
  noise := by decide +kernel
  cellNoise := by
    intro i p hp
    simp [file] at hp
  cell := ⟨by decide, by decide, by decide, by decide⟩
  items := by
    intro i hi
    simp only [file, List.mem_cons, List.not_mem_nil, or_false] at hi
    rcases hi with rfl | rfl
    · change FileNoise _; decide +kernel
    · exact ⟨by decide, by decide, by decide, by decide, by decide, by decide, by decide, by decide, by decide⟩

theorem numbers : ∀ x ∈ file.numbers, Stored Demo.dbl Demo.enc x := by
  have : ∀ x ∈ file.numbers, Is32 x.num ∧ Is32 x.den := by decide +kernel
  exact fun x hx => Demo.stored x (this x hx).1 (this x hx).2

theorem box : ReducedBox (Rat.castHom ℝ) file ⟨⟨2, 0, 0⟩, ⟨0, 1, 0⟩, ⟨0, 0, 1⟩⟩ [⟨0, 0, 0⟩, ⟨1, 0, 0⟩] ⟨2, 1, 1⟩ := by
  have hcv : scVecs ⟨⟨2, 0, 0⟩, ⟨0, 1, 0⟩, ⟨0, 0, 1⟩⟩ (lattice (Rat.castHom ℝ) file) = ⟨⟨4, 0, 0⟩, ⟨0, 3, 0⟩, ⟨0, 0, 4⟩⟩ := by
    simp [scVecs, lattice, file, toCart, castV]
    norm_num
  have e : ∀ a b c : ℝ, Images.sq (toCart (⟨⟨4, 0, 0⟩, ⟨0, 3, 0⟩, ⟨0, 0, 4⟩⟩ : M3 ℝ) ⟨a, b, c⟩) =
      16 * a ^ 2 + 9 * b ^ 2 + 16 * c ^ 2 := by
    intro a b c
    simp [Images.sq, dot, toCart]
    ring
  have h1 : ∀ x : ℤ, |x| = 1 → (x : ℝ) ^ 2 = 1 := by
    intro x hx
    have : x ^ 2 = 1 := by rw [← sq_abs, hx, one_pow]
    exact_mod_cast this
  refine ⟨rfl, by decide, by decide, by decide, ?_, ?_⟩
  · rw [hcv]
    norm_num [cellVolume, dot, cross]
  · rw [hcv]
    refine ⟨fun a b c ha hb hc => ?_, fun a b c ha hb hc => ?_, fun a b c ha hb hc => ?_⟩
    · rw [e, h1 a ha]; simp [Images.sq, dot]; nlinarith [sq_nonneg (b : ℝ), sq_nonneg (c : ℝ)]
    · rw [e, h1 b hb]; simp [Images.sq, dot]; nlinarith [sq_nonneg (a : ℝ), sq_nonneg (c : ℝ)]
    · rw [e, h1 c hc]; simp [Images.sq, dot]; nlinarith [sq_nonneg (a : ℝ), sq_nonneg (b : ℝ)]

theorem fc_eq : (blockFc (Rat.castHom ℝ) (fun nc i j => if i = j then if nc = 0 then 2 else -2 else 0) 2 1 : Fin 2 → Mat 1 ℝ) =
    Commensurate.Chain.fc := by
  funext c k l
  unfold blockFc Commensurate.Chain.fc
  by_cases h : k = l
  · subst h
    fin_cases c <;> simp
  · have : k.val ≠ l.val := fun e => h (Fin.ext e)
    simp [h, this]

theorem cells_eq : (blockCells [⟨0, 0, 0⟩, ⟨1, 0, 0⟩] 2 : Fin 2 → V3 ℤ) = DynMat.Ex.cells := by
  funext c
  fin_cases c <;> rfl

/-- The file is read, and the chain has no imaginary frequencies at the boundary of the zone. -/
example (tail : File) : ∃ d, readInterpolation Demo.dbl (fun _ => .ok false) (file.bytes Demo.enc tail) = .ok d ∧
    ∀ junk (eigh : Mat 1 ℂ → (Fin (1 * 3) → ℝ) × Mat 1 ℂ), IsEigh eigh → ∀ s,
      0 ≤ freqOf ((eigh (matrix (Rat.castHom ℝ) d 1 2 0 junk ⟨1 / 2, 3, -1⟩)).1 s) := by
  obtain ⟨d, h1, h2⟩ := C168_stable_partial Demo.dbl Demo.enc (fun _ => .ok false) file numbers valid rfl tail
    _ _ _ rfl (Rat.castHom ℝ) Rat.cast_strictMono _ box
  refine ⟨d, h1, fun junk eigh he s => ?_⟩
  refine h2 (0 : Fin 2) junk ⟨1 / 2, 3, -1⟩ ⟨⟨1, 3, -1⟩, by norm_num, by norm_num, by norm_num⟩ Commensurate.Chain.rel ?_ id
    ![⟨0, 0, 0⟩, ⟨-1, 0, 0⟩] ?_ ?_ ?_ eigh he s
  · exact cells_eq ▸ Commensurate.Chain.translation
  · exact cells_eq ▸ fc_eq ▸ Commensurate.Chain.symmetric
  · exact fc_eq ▸ Commensurate.Chain.stable
  · intro i
    have : i = (0 : Fin 1) := Subsingleton.elim (α := Fin 1) _ _
    subst this
    norm_num [massOf, speciesOf, file]

end Ex

end Euphonic.CastepExact
