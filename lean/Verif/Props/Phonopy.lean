import Mathlib.Algebra.BigOperators.Group.List.Basic
import Mathlib.Algebra.BigOperators.Ring.List
import Mathlib.Algebra.Order.BigOperators.Group.List
import Mathlib.Algebra.Order.Field.Basic
import Mathlib.Algebra.Order.Field.Rat
import Mathlib.Data.List.Infix
import Mathlib.Tactic.FieldSimp
import Mathlib.Tactic.NormNum
import Mathlib.Tactic.Linarith
import Verif.Lemmas.ListIdx
import Mathlib.Tactic.FinCases
import Verif.Lemmas.Rint
import Verif.Lemmas.Group
import Verif.Model.Phonopy

/-!
# C61-C64, C85-C88: the Phonopy readers
-/

set_option autoImplicit false
set_option linter.unusedSectionVars false

namespace Euphonic.Phonopy

open Euphonic.Lattice

/-! ## C61 -/

section
variable {K : Type} [Field K]

theorem sum_map_div (w : List K) (c : K) : (w.map (· / c)).sum = w.sum / c := by
  simp only [div_eq_mul_inv]
  induction w with
  | nil => simp
  | cons a w ih => simp only [List.map_cons, List.sum_cons, ih]; ring

/-- **C61**: weights read from Phonopy sum to one. -/
theorem C61_normalised (w : List K) (h : w.sum ≠ 0) : (convertWeights w).sum = 1 := by
  rw [convertWeights, sum_map_div, div_self h]

/-- **C61**: and keep their ratios. -/
theorem C61_ratios (w : List K) (i j : Nat) (hi : i < w.length) (hj : j < w.length) :
    (convertWeights w).length = w.length ∧
    ∀ a b, (convertWeights w)[i]? = some a → (convertWeights w)[j]? = some b → a * w[j] = b * w[i] := by
  refine ⟨by simp [convertWeights], fun a b ha hb => ?_⟩
  simp only [convertWeights, List.getElem?_map, List.getElem?_eq_getElem hi, List.getElem?_eq_getElem hj,
    Option.map_some, Option.some.injEq] at ha hb
  rw [← ha, ← hb]
  simp only [div_eq_mul_inv]
  ring

/-- **C61**: positive weights stay positive. -/
theorem C61_positive [LinearOrder K] [IsStrictOrderedRing K] (w : List K) (h : ∀ x ∈ w, 0 < x) :
    ∀ x ∈ convertWeights w, 0 < x := by
  intro x hx
  obtain ⟨y, hy, rfl⟩ := List.mem_map.1 hx
  have : 0 < w.sum := by
    refine List.sum_pos _ h ?_
    intro hc
    rw [hc] at hy
    simp at hy
  exact div_pos (h y hy) this

end

example : convertWeights [1, 6, (8 : ℚ)] = [1/15, 6/15, 8/15] ∧ ([1, 6, 8] : List ℚ).sum ≠ 0 := by
  decide +kernel

/-! ## C62 -/

/-- The phase `exp(2 pi i q.r)`. -/
noncomputable def phase (q r : V3 ℝ) : ℂ :=
  Complex.exp ((2 * Real.pi * (q.x * r.x + q.y * r.y + q.z * r.z) : ℝ) * Complex.I)

theorem norm_phase (q r : V3 ℝ) : ‖phase q r‖ = 1 := Complex.norm_exp_ofReal_mul_I _

theorem star_phase (q r : V3 ℝ) : star (phase q r) * phase q r = 1 := by
  have := Complex.conj_mul' (phase q r)
  rw [norm_phase] at this
  simpa using this

theorem conversion_eq (q rj rl : V3 ℝ) : conversion q rj rl = star (phase q rj) * phase q rl := by
  unfold conversion phase qDotDiff
  rw [Complex.star_def, ← Complex.exp_conj, ← Complex.exp_add]
  congr 1
  simp only [map_mul, Complex.conj_ofReal, Complex.conj_I]
  push_cast
  ring

variable {n : Nat}

/-- **C62**: every component is multiplied by a phase of the mode and `exp(2 pi i q.r)` of its atom. -/
theorem C62_phases (q : V3 ℝ) (r : Fin n → V3 ℝ) (e : Fin (n * 3) → Fin n → Fin 3 → ℂ) :
    ∃ u : Fin (n * 3) → ℂ, (∀ s, ‖u s‖ = 1) ∧
      ∀ s l m, convertPhases q r e s l m = u s * (phase q (r l) * e s l m) := by
  refine ⟨fun s => star (phase q (r s.divNat)), fun s => by rw [norm_star, norm_phase], fun s l m => ?_⟩
  simp only [convertPhases, conversion_eq]
  ring

/-- **C62**: overlaps of modes are kept up to phases of the modes; in particular norms and orthogonality. -/
theorem C62_overlaps (q : V3 ℝ) (r : Fin n → V3 ℝ) (e : Fin (n * 3) → Fin n → Fin 3 → ℂ) :
    ∃ u : Fin (n * 3) → ℂ, (∀ s, ‖u s‖ = 1) ∧ ∀ s t,
      ∑ l, ∑ m, star (convertPhases q r e s l m) * convertPhases q r e t l m =
        star (u s) * u t * ∑ l, ∑ m, star (e s l m) * e t l m := by
  obtain ⟨u, h1, h2⟩ := C62_phases q r e
  refine ⟨u, h1, fun s t => ?_⟩
  rw [Finset.mul_sum]
  refine Finset.sum_congr rfl fun l _ => ?_
  rw [Finset.mul_sum]
  refine Finset.sum_congr rfl fun m _ => ?_
  rw [h2, h2, star_mul', star_mul']
  linear_combination (star (u s) * u t * (star (e s l m) * e t l m)) * star_phase q (r l)

/-- **C62**: norms are kept. -/
theorem C62_norm (q : V3 ℝ) (r : Fin n → V3 ℝ) (e : Fin (n * 3) → Fin n → Fin 3 → ℂ) (s : Fin (n * 3))
    (l : Fin n) (m : Fin 3) : ‖convertPhases q r e s l m‖ = ‖e s l m‖ := by
  obtain ⟨u, h1, h2⟩ := C62_phases q r e
  rw [h2, norm_mul, norm_mul, h1, norm_phase, one_mul, one_mul]

/-- **C62**: nothing changes at gamma. -/
theorem C62_gamma (r : Fin n → V3 ℝ) (e : Fin (n * 3) → Fin n → Fin 3 → ℂ) :
    convertPhases ⟨0, 0, 0⟩ r e = e := by
  funext s l m
  simp [convertPhases, conversion, qDotDiff]

/-- **C62**: an eigenvector of the dynamical matrix in Phonopy's convention (phases of atoms) becomes an
eigenvector, with the same eigenvalue, of the matrix in Euphonic's convention (phases of cells). -/
theorem C62_eigenvector (q : V3 ℝ) (r : Fin n → V3 ℝ) (e : Fin (n * 3) → Fin n → Fin 3 → ℂ)
    (D : Fin n → Fin 3 → Fin n → Fin 3 → ℂ) (lam : ℂ) (s : Fin (n * 3))
    (h : ∀ l m, ∑ l', ∑ m', D l m l' m' * (star (phase q (r l)) * phase q (r l')) * e s l' m' = lam * e s l m) :
    ∀ l m, ∑ l', ∑ m', D l m l' m' * convertPhases q r e s l' m' = lam * convertPhases q r e s l m := by
  obtain ⟨u, h1, h2⟩ := C62_phases q r e
  intro l m
  have hp := star_phase q (r l)
  have : lam * convertPhases q r e s l m = u s * phase q (r l) * (lam * e s l m) := by rw [h2]; ring
  rw [this, ← h l m, Finset.mul_sum]
  refine Finset.sum_congr rfl fun l' _ => ?_
  rw [Finset.mul_sum]
  refine Finset.sum_congr rfl fun m' _ => ?_
  rw [h2]
  linear_combination (-(u s * D l m l' m' * phase q (r l') * e s l' m')) * hp

/-- At a zone boundary with atoms at 0 and 1/2 the phases are not trivial: the second atom is multiplied
by `i` in the modes of the first block. -/
example : phase ⟨1/2, 0, 0⟩ ⟨1/2, 0, 0⟩ = Complex.I := by
  unfold phase
  rw [show (2 * Real.pi * ((1 : ℝ)/2 * (1/2) + 0 * 0 + 0 * 0)) = Real.pi / 2 by ring]
  push_cast
  exact Complex.exp_pi_div_two_mul_I

/-! ## C63 -/

theorem baseName_append (d b : List Char) (hb : '/' ∉ b) : baseName (d ++ '/' :: b) = b ∧ baseName b = b := by
  have h1 : ∀ x ∈ b.reverse, decide (x ≠ '/') = true := by
    intro x hx
    rw [List.mem_reverse] at hx
    exact decide_eq_true fun hc => hb (hc ▸ hx)
  unfold baseName
  constructor
  · rw [List.reverse_append, List.reverse_cons, List.append_assoc, List.takeWhile_append_of_pos h1]
    simp
  · have := List.takeWhile_append_of_pos (l₂ := []) h1
    simp only [List.append_nil, List.takeWhile_nil] at this
    rw [this, List.reverse_reverse]

/-- The extension of `stem.ext`, in any directory, if the stem does not consist of dots only. -/
theorem splitExt_eq (p stem ext : List Char) (hp : baseName p = stem ++ '.' :: ext) (he : '.' ∉ ext)
    (hs : ∃ c ∈ stem, c ≠ '.') : splitExt p = '.' :: ext := by
  have h1 : ∀ x ∈ ext.reverse, decide (x ≠ '.') = true := by
    intro x hx
    rw [List.mem_reverse] at hx
    exact decide_eq_true fun hc => he (hc ▸ hx)
  have h2 : (stem ++ '.' :: ext).reverse = ext.reverse ++ '.' :: stem.reverse := by simp
  unfold splitExt
  simp only [hp, h2]
  rw [List.takeWhile_append_of_pos h1, List.dropWhile_append_of_pos h1]
  obtain ⟨c, hc, hc'⟩ := hs
  have h3 : stem.any (fun x => decide (x ≠ '.')) = true := List.any_eq_true.2 ⟨c, hc, by simpa using hc'⟩
  simp [h3]
  exact ⟨c, hc, hc'⟩

theorem stripDots_ext (ext : List Char) (he : '.' ∉ ext) : stripDots ('.' :: ext) = ext := by
  have h1 : ∀ l : List Char, '.' ∉ l → l.dropWhile (fun x => decide (x = '.')) = l := by
    intro l hl
    cases l with
    | nil => rfl
    | cons a l =>
      rw [List.dropWhile_cons, if_neg]
      simp only [decide_eq_true_eq]
      rintro rfl
      exact hl (by simp)
  unfold stripDots
  rw [List.dropWhile_cons, if_pos (by simp), h1 ext he, h1 ext.reverse (by simpa using he), List.reverse_reverse]

/-- A file `stem.ext` in a directory (or none). -/
structure Named (p stem ext : List Char) : Prop where
  base : p = stem ++ '.' :: ext ∨ ∃ d, p = d ++ '/' :: (stem ++ '.' :: ext)
  noSlash : '/' ∉ stem ++ ext
  noDot : '.' ∉ ext
  stem : ∃ c ∈ stem, c ≠ '.'

theorem Named.ext {p stem ext : List Char} (h : Named p stem ext) : stripDots (splitExt p) = ext := by
  have hb : '/' ∉ stem ++ '.' :: ext := by
    have := h.noSlash
    simp only [List.mem_append, List.mem_cons, not_or] at this ⊢
    exact ⟨this.1, by decide, this.2⟩
  have : baseName p = stem ++ '.' :: ext := by
    rcases h.base with rfl | ⟨d, rfl⟩
    · exact (baseName_append [] _ hb).2
    · exact (baseName_append d _ hb).1
  rw [splitExt_eq p stem ext this h.noDot h.stem, stripDots_ext _ h.noDot]

/-- **C63**: a phonon file is read as HDF5 for the three HDF5 extensions and as YAML for the three YAML
extensions, in any directory and for any stem; the format argument takes precedence; everything else raises
`ValueError`. -/
theorem C63_phonon_format (p stem ext : List Char) (h : Named p stem ext) (f : List Char) :
    phononFormat none p = (if ext ∈ ["hdf5".toList, "hd5".toList, "h5".toList] then .ok .hdf5
      else if ext ∈ ["yaml".toList, "yml".toList, "yl".toList] then .ok .yaml else .error .valueError) ∧
    phononFormat (some f) p = (if f ∈ ["hdf5".toList, "hd5".toList, "h5".toList] then .ok .hdf5
      else if f ∈ ["yaml".toList, "yml".toList, "yl".toList] then .ok .yaml else .error .valueError) := by
  unfold phononFormat
  rw [h.ext]
  exact ⟨rfl, rfl⟩

example : Named "data.d/mesh.out.yml".toList "mesh.out".toList "yml".toList :=
  ⟨Or.inr ⟨"data.d".toList, by decide⟩, by decide, by decide, 'm', by decide⟩

theorem fcFormat_some (f p : List Char) : fcFormat (some f) p = (if f = "phonopy".toList then .ok .phonopy
    else if isSubstring f "hdf5".toList then .ok .hdf5 else .error .valueError) := rfl

/-- **C63** (part): force constants in a file ending in `.hdf5`, or with the format `hdf5` given, are read as
HDF5; a file with an extension that is not one for HDF5 is read as FORCE_CONSTANTS.  Missing: the extensions
`.hd5` and `.h5` (see `C63_fc_short_extensions_refused`). -/
theorem C63_fc_format_partial (p stem ext : List Char) (h : Named p stem ext) :
    (ext = "hdf5".toList → fcFormat none p = .ok .hdf5) ∧
    (ext ∉ ["hdf5".toList, "hd5".toList, "h5".toList] → fcFormat none p = .ok .phonopy) ∧
    fcFormat (some "hdf5".toList) p = .ok .hdf5 ∧ fcFormat (some "phonopy".toList) p = .ok .phonopy := by
  have h4 : isSubstring "hdf5".toList "hdf5".toList = true := by decide
  refine ⟨?_, ?_, by rw [fcFormat_some]; decide, by rw [fcFormat_some]; decide⟩
  all_goals unfold fcFormat; rw [h.ext]
  · rintro rfl; decide
  · intro hn
    have : ext ∉ hdf5Exts := hn
    simp [this]

/-- Force constants files ending in `.hd5` or `.h5`, which the code lists as HDF5, are refused, because the
test is whether the extension is a substring of `hdf5`. -/
theorem C63_fc_short_extensions_refused (p stem ext : List Char) (h : Named p stem ext)
    (he : ext = "hd5".toList ∨ ext = "h5".toList) : fcFormat none p = .error .valueError := by
  unfold fcFormat
  rw [h.ext]
  rcases he with rfl | rfl <;> decide

/-- Formats that are not documented are accepted as HDF5. -/
theorem C63_fc_substrings_accepted (p : List Char) : fcFormat (some []) p = .ok .hdf5 ∧
    fcFormat (some "df".toList) p = .ok .hdf5 :=
  ⟨by rw [fcFormat_some]; decide, by rw [fcFormat_some]; decide⟩

/-- **C63**: force constants are taken from the summary if it has them, whatever file is named, and otherwise
from the file. -/
theorem C63_force_constants {C B D N : Type} (s : Summary C B D N) (format : Option (List Char))
    (name : List Char) (read : Format → Except Err C) :
    (∀ c, s.fc = some c → chooseFc s format name read = .ok c) ∧
    (s.fc = none → chooseFc s format name read = fcFormat format name >>= read) := by
  unfold chooseFc
  constructor
  · intro c hc; rw [hc]
  · intro hc; rw [hc]

/-- **C63**: the BORN file has no influence if the summary has Born charges, dielectric tensor and factor. -/
theorem C63_born_from_summary {C B D N : Type} (s : Summary C B D N) (b : B) (d : D) (x : N)
    (hb : s.born = some b) (hd : s.dielectric = some d) (hn : s.nac = some x)
    (file : Option (Except Err (BornFile B D N))) :
    chooseDipole s file = .ok (some b, some d, some x) := by
  unfold chooseDipole
  rw [hb, hd, hn]
  cases file <;> rfl

/-- **C63**: what is used in all cases: without a BORN file the summary; with one that is needed its Born
charges, dielectric tensor and - if it has one - its factor. -/
theorem C63_born_file {C B D N : Type} (s : Summary C B D N) (f : BornFile B D N)
    (h : s.born = none ∨ s.dielectric = none ∨ s.nac = none) (x : N)
    (hx : f.nac = some x ∨ (f.nac = none ∧ s.nac = some x)) :
    chooseDipole s (some (.ok f)) = .ok (some f.born, some f.dielectric, some x) := by
  have : (s.born.isSome && s.dielectric.isSome && s.nac.isSome) = false := by
    rcases h with h | h | h <;> simp [h]
  unfold chooseDipole
  simp only [this, Bool.false_eq_true, if_false]
  rcases hx with hx | ⟨h1, h2⟩
  · simp [hx, bind, Except.bind, pure, Except.pure]
  · simp [h1, h2, bind, Except.bind, pure, Except.pure]

/-- **C63**: Born charges without a conversion factor raise `KeyError`; this is the only error besides those
of reading the BORN file. -/
theorem C63_factor_missing {C B D N : Type} (s : Summary C B D N)
    (file : Option (BornFile B D N)) :
    (∃ e, chooseDipole s (file.map .ok) = .error e) ↔
      s.nac = none ∧ ((file = none ∧ s.born.isSome) ∨ ∃ f, file = some f ∧ f.nac = none) := by
  unfold chooseDipole
  cases file with
  | none =>
    cases hb : s.born <;> cases hn : s.nac <;>
      simp [bind, Except.bind, pure, Except.pure, throw, throwThe, MonadExceptOf.throw]
  | some f =>
    cases hb : s.born <;> cases hd : s.dielectric <;> cases hn : s.nac <;> cases hf : f.nac <;>
      simp [bind, Except.bind, pure, Except.pure, throw, throwThe, MonadExceptOf.throw, hf]

/-- If only the factor is absent from the summary, Born charges and dielectric tensor of the summary are
replaced by those of the BORN file. -/
theorem C63_born_overridden : ∃ (s : Summary Unit ℕ ℕ ℕ) (f : BornFile ℕ ℕ ℕ), s.born = some 1 ∧
    s.dielectric = some 1 ∧ chooseDipole s (some (.ok f)) = .ok (some 2, some 2, some 3) :=
  ⟨⟨none, some 1, some 1, none⟩, ⟨2, 2, some 3⟩, rfl, rfl, rfl⟩

/-! ## C64 -/

/-- **C64**: exactly the compact and the full shape are accepted. -/
theorem C64_shapes (a b : Nat) (rest : List Nat) (n N : Nat) :
    checkFcShape (a :: b :: rest) n N = .ok () ↔ (a, b) = (n, n * N) ∨ (a, b) = (n * N, n * N) := by
  simp only [checkFcShape, Prod.mk.injEq, Nat.mul_comm N n]
  by_cases h : (a = n ∨ a = n * N) ∧ b = n * N
  · rw [if_neg (not_not.2 h)]
    simp only [true_iff]
    rcases h with ⟨h1 | h1, h2⟩
    · exact Or.inl ⟨h1, h2⟩
    · exact Or.inr ⟨h1, h2⟩
  · rw [if_pos h]
    simp only [reduceCtorEq, false_iff]
    rintro (⟨h1, h2⟩ | ⟨h1, h2⟩)
    · exact h ⟨Or.inl h1, h2⟩
    · exact h ⟨Or.inr h1, h2⟩

/-- **C64**: a refused shape raises `ValueError`; shapes with fewer than two entries are never accepted. -/
theorem C64_refused (shape : List Nat) (n N : Nat) :
    (∃ e, checkFcShape shape n N = .error e) ↔
      ¬ ∃ rest, shape = n :: n * N :: rest ∨ shape = n * N :: n * N :: rest := by
  match shape with
  | [] => simp [checkFcShape]
  | [a] =>
    simp only [checkFcShape]
    constructor
    · rintro - ⟨rest, h | h⟩ <;> simp at h
    · intro; split <;> exact ⟨_, rfl⟩
  | a :: b :: rest =>
    have h := C64_shapes a b rest n N
    simp only [Prod.mk.injEq] at h
    constructor
    · rintro ⟨e, he⟩ ⟨r, hr⟩
      rw [h.2 (by rcases hr with hr | hr <;> simp at hr <;> tauto)] at he
      cases he
    · intro hno
      cases hc : checkFcShape (a :: b :: rest) n N with
      | error e => exact ⟨e, rfl⟩
      | ok u =>
        exfalso
        rcases h.1 (by rw [hc]) with ⟨rfl, rfl⟩ | ⟨rfl, rfl⟩
        · exact hno ⟨rest, Or.inl rfl⟩
        · exact hno ⟨rest, Or.inr rfl⟩

/-- **C64**: a header with one number means the full shape. -/
theorem C64_header (n N : Nat) : fcDims [n * N] n N = .ok [n * N, n * N] ∧
    fcDims [n, n * N] n N = .ok [n, n * N] := by
  have h1 := (C64_shapes (n * N) (n * N) [] n N).2 (Or.inr rfl)
  have h2 := (C64_shapes n (n * N) [] n N).2 (Or.inl rfl)
  unfold fcDims
  constructor
  · simp only [List.length_singleton, if_true, List.headD_cons, List.singleton_append, h1]; rfl
  · rw [if_neg (by simp)]; simp only [h2]; rfl

example : checkFcShape [2, 16] 2 8 = .ok () ∧ checkFcShape [16, 2] 2 8 = .error .valueError := by decide

/-! ## C85: FORCE_CONSTANTS -/

section
variable {K : Type}

/-- The three lines of a 3x3 matrix. -/
def matLines (m : M3 K) : List (List K) :=
  [[m.a.x, m.a.y, m.a.z], [m.b.x, m.b.y, m.b.z], [m.c.x, m.c.y, m.c.z]]

/-- Its numbers. -/
def matNums (m : M3 K) : List K := [m.a.x, m.a.y, m.a.z, m.b.x, m.b.y, m.b.z, m.c.x, m.c.y, m.c.z]

/-- The lines behind the header: for every pair of atoms a line with two numbers and three lines with the
matrix. -/
def fcLines (blocks : List ((K × K) × M3 K)) : List (List K) :=
  blocks.flatMap fun b => [b.1.1, b.1.2] :: matLines b.2

/-- The lines that have three numbers. -/
def rows3 (lines : List (List K)) : List (List K) := lines.filterMap fun l => match l with
  | a :: b :: c :: _ => some [a, b, c]
  | _ => none

theorem rows3_fcLines (blocks : List ((K × K) × M3 K)) :
    rows3 (fcLines blocks) = blocks.flatMap fun b => matLines b.2 := by
  unfold rows3 fcLines
  induction blocks with
  | nil => rfl
  | cons b bs ih => rw [List.flatMap_cons, List.filterMap_append, ih]; rfl

theorem length_rows3 (blocks : List ((K × K) × M3 K)) :
    (rows3 (fcLines blocks)).length = blocks.length * 3 := by
  rw [rows3_fcLines, length_flatMap_const _ _ 3 (fun _ _ => rfl)]

theorem flatten_rows3 (blocks : List ((K × K) × M3 K)) :
    (rows3 (fcLines blocks)).flatten = blocks.flatMap fun b => matNums b.2 := by
  rw [rows3_fcLines]
  induction blocks with
  | nil => rfl
  | cons b bs ih => rw [List.flatMap_cons, List.flatten_append, ih]; rfl

theorem genfromtxt_eq (m : Nat) (lines : List (List K)) : genfromtxt m lines = (rows3 lines).take m := rfl

/-- Number of pairs of atoms in the two shapes, never more than a third of the rows asked for. -/
theorem pairs_le (n N : Nat) (dims : List Nat) (h : dims = [n, n * N] ∨ dims = [n * N, n * N])
    (hN : 0 < N) : dims.prod * 3 ≤ 4 * (n * N) ^ 2 := by
  rcases h with rfl | rfl
  · simp only [List.prod_cons, List.prod_nil, mul_one]
    have h1 : n * (n * N) ≤ n * (n * N) * N := Nat.le_mul_of_pos_right _ hN
    have h2 : n * (n * N) * N = (n * N) ^ 2 := by ring
    omega
  · simp only [List.prod_cons, List.prod_nil, mul_one]
    have h2 : n * N * (n * N) = (n * N) ^ 2 := by ring
    omega

/-- Headers of the two shapes. -/
def Header (header dims : List Nat) (n N : Nat) : Prop :=
  (dims = [n, n * N] ∧ header = [n, n * N]) ∨ (dims = [n * N, n * N] ∧ (header = [n * N] ∨ header = [n * N, n * N]))

theorem fcDims_of_header (header dims : List Nat) (n N : Nat) (h : Header header dims n N) :
    fcDims header n N = .ok dims := by
  rcases h with ⟨rfl, rfl⟩ | ⟨rfl, rfl | rfl⟩
  · exact (C64_header n N).2
  · exact (C64_header n N).1
  · have h1 := (C64_shapes (n * N) (n * N) [] n N).2 (Or.inr rfl)
    unfold fcDims
    rw [if_neg (by simp)]
    simp only [h1]; rfl

/-- **C85**: a FORCE_CONSTANTS file with one matrix for every pair of atoms gives back the matrices, row by
row, in the order of the file; the labels of the pairs are not used. -/
theorem C85_round_trip (header dims : List Nat) (n N : Nat) (h : Header header dims n N) (hN : 0 < N)
    (blocks : List ((K × K) × M3 K)) (hb : blocks.length = dims.prod) :
    extractFc header (fcLines blocks) n N = .ok (dims, blocks.flatMap fun b => matNums b.2) := by
  have hd : dims = [n, n * N] ∨ dims = [n * N, n * N] := by
    rcases h with h | h
    · exact Or.inl h.1
    · exact Or.inr h.1
  have h1 := pairs_le n N dims hd hN
  unfold extractFc
  rw [fcDims_of_header header dims n N h, genfromtxt_eq,
    List.take_of_length_le (by rw [length_rows3, hb]; exact h1), flatten_rows3]
  simp only [bind, Except.bind]
  rw [if_pos]
  · rfl
  · rw [length_flatMap_const _ _ 9 (fun _ _ => rfl), hb]

theorem rows3_flat_length (lines : List (List K)) : (rows3 lines).flatten.length = (rows3 lines).length * 3 := by
  have h3 : ∀ l ∈ rows3 lines, l.length = 3 := by
    intro l hl
    obtain ⟨a, -, ha⟩ := List.mem_filterMap.1 hl
    match a, ha with
    | _ :: _ :: _ :: _, ha => simp only [Option.some.injEq] at ha; rw [← ha]; rfl
  rw [List.length_flatten, List.map_congr_left h3, List.map_const', List.sum_replicate]
  simp

/-- A file that lacks its last line has fewer rows. -/
theorem rows3_dropped (blocks : List ((K × K) × M3 K)) (k : Nat) (hk : k < (fcLines blocks).length) :
    (rows3 ((fcLines blocks).take k)).length < blocks.length * 3 := by
  rw [← length_rows3 blocks]
  conv_rhs => rw [← List.take_append_drop k (fcLines blocks)]
  unfold rows3
  rw [List.filterMap_append, List.length_append]
  suffices h : ∃ l ∈ (fcLines blocks).drop k, 3 ≤ l.length by
    obtain ⟨l, hl, h3⟩ := h
    match l, h3, hl with
    | a :: b :: c :: t, _, hl =>
      have : [a, b, c] ∈ rows3 ((fcLines blocks).drop k) := List.mem_filterMap.2 ⟨_, hl, rfl⟩
      have := List.length_pos_of_mem this
      unfold rows3 at this
      omega
  rcases List.eq_nil_or_concat blocks with rfl | ⟨bs, b, rfl⟩
  · simp [fcLines] at hk
  · have he : ∃ pre, fcLines (bs ++ [b]) = pre ++ [[b.2.c.x, b.2.c.y, b.2.c.z]] := by
      refine ⟨fcLines bs ++ [[b.1.1, b.1.2], [b.2.a.x, b.2.a.y, b.2.a.z], [b.2.b.x, b.2.b.y, b.2.b.z]], ?_⟩
      unfold fcLines
      rw [List.flatMap_append]
      simp [matLines]
    obtain ⟨pre, he⟩ := he
    rw [List.concat_eq_append] at hk ⊢
    rw [he] at hk ⊢
    simp only [List.length_append, List.length_singleton] at hk
    refine ⟨[b.2.c.x, b.2.c.y, b.2.c.z], ?_, by simp⟩
    rw [List.drop_append_of_le_length (by omega)]
    simp

/-- **C85**: if the file ends early at any line, `ValueError` is raised. -/
theorem C85_truncated (header dims : List Nat) (n N : Nat) (h : Header header dims n N)
    (blocks : List ((K × K) × M3 K)) (hb : blocks.length = dims.prod) (k : Nat)
    (hk : k < (fcLines blocks).length) :
    extractFc header ((fcLines blocks).take k) n N = .error .valueError := by
  have h1 := rows3_dropped blocks k hk
  unfold extractFc
  rw [fcDims_of_header header dims n N h, genfromtxt_eq]
  simp only [bind, Except.bind]
  rw [if_neg]
  · rfl
  · intro hc
    have h2 : ((rows3 ((fcLines blocks).take k)).take (4 * (n * N) ^ 2)).flatten.length ≤
        (rows3 ((fcLines blocks).take k)).length * 3 := by
      rw [← rows3_flat_length]
      exact ((List.take_sublist _ _).flatten).length_le
    rw [hb] at h1
    omega

/-- One atom, two cells, compact. -/
example : extractFc [1, 2] (fcLines [((1, 1), (⟨⟨1, 2, 3⟩, ⟨4, 5, 6⟩, ⟨7, 8, 9⟩⟩ : M3 ℚ)),
    ((1, 2), ⟨⟨-1, 0, 0⟩, ⟨0, -1, 0⟩, ⟨0, 0, -1⟩⟩)]) 1 2 =
    .ok ([1, 2], [1, 2, 3, 4, 5, 6, 7, 8, 9, -1, 0, 0, 0, -1, 0, 0, 0, -1]) :=
  C85_round_trip [1, 2] [1, 2] 1 2 (Or.inl ⟨rfl, rfl⟩) (by decide) _ rfl

/-! ## C86: BORN -/

/-- The lines of a BORN file: comments anywhere, the factor on a line of its own or not at all, the dielectric
tensor, the charges. -/
inductive BornText : List (BornLine K) → List (List K) → Prop where
  | nil : BornText [] []
  | comment {l r} : BornText l r → BornText (.comment :: l) r
  | numbers {l r} (x : List K) : BornText l r → BornText (.numbers x :: l) (x :: r)

def IsBornFile (lines : List (BornLine K)) (nac : Option K) (d : M3 K) (b : List (M3 K)) : Prop :=
  BornText lines (nac.toList.map (fun x => [x]) ++ matNums d :: b.map matNums)

theorem numberLines_eq {l : List (BornLine K)} {r : List (List K)} (h : BornText l r) : numberLines l = r := by
  induction h with
  | nil => rfl
  | comment h ih => exact ih
  | numbers x h ih => exact congrArg (x :: ·) ih

theorem bornFactor_eq (nac : Option K) (d : M3 K) (t : List (List K)) :
    bornFactor (nac.toList.map (fun x => [x]) ++ matNums d :: t) = .ok (nac, matNums d :: t) := by
  cases nac <;> rfl

theorem reshape33_matNums (m : M3 K) : reshape33 (matNums m) = .ok m := rfl

theorem mapM_reshape33 (b : List (M3 K)) : (b.map matNums).mapM reshape33 = .ok b := by
  induction b with
  | nil => rfl
  | cons m b ih => rw [List.map_cons, List.mapM_cons, ih, reshape33_matNums]; rfl

/-- **C86**: a BORN file gives back its factor, dielectric tensor and charges, with or without factor. -/
theorem C86_round_trip (lines : List (BornLine K)) (nac : Option K) (d : M3 K) (b : List (M3 K))
    (h : IsBornFile lines nac d b) : extractBorn lines = .ok ⟨b, d, nac⟩ := by
  unfold extractBorn
  rw [numberLines_eq h, bornFactor_eq]
  simp only [bind, Except.bind, bornTensors, reshape33_matNums, mapM_reshape33]
  rfl

/-- **C86**: a line of numbers behind the tensors that does not have nine of them - a blank line at the end
included - raises `ValueError`. -/
theorem C86_bad_line (lines : List (BornLine K)) (nac : Option K) (d : M3 K) (b : List (M3 K))
    (h : IsBornFile lines nac d b) (bad : List K) (hbad : bad.length ≠ 9) (more : List (BornLine K)) :
    extractBorn (lines ++ .numbers bad :: more) = .error .valueError := by
  have hr : reshape33 bad = .error .valueError := by
    unfold reshape33
    split
    · simp at hbad
    · rfl
  have hm : ∀ (b : List (M3 K)) (t : List (List K)),
      (b.map matNums ++ bad :: t).mapM reshape33 = .error .valueError := by
    intro b t
    induction b with
    | nil => rw [List.map_nil, List.nil_append, List.mapM_cons, hr]; rfl
    | cons m b ih => rw [List.map_cons, List.cons_append, List.mapM_cons, reshape33_matNums, ih]; rfl
  have hl : numberLines (lines ++ .numbers bad :: more) =
      nac.toList.map (fun x => [x]) ++ matNums d :: (b.map matNums ++ bad :: numberLines more) := by
    have h1 := numberLines_eq h
    unfold numberLines at h1 ⊢
    rw [List.filterMap_append, h1]
    simp
  unfold extractBorn
  rw [hl, bornFactor_eq]
  simp only [bind, Except.bind, bornTensors, reshape33_matNums, hm]

example : extractBorn [.comment, .numbers [(14.4 : ℚ)], .numbers [2, 0, 0, 0, 2, 0, 0, 0, 2],
    .numbers [1, 2, 3, 4, 5, 6, 7, 8, 9]] =
    .ok ⟨[⟨⟨1, 2, 3⟩, ⟨4, 5, 6⟩, ⟨7, 8, 9⟩⟩], ⟨⟨2, 0, 0⟩, ⟨0, 2, 0⟩, ⟨0, 0, 2⟩⟩, some 14.4⟩ :=
  C86_round_trip _ (some 14.4) ⟨⟨2, 0, 0⟩, ⟨0, 2, 0⟩, ⟨0, 0, 2⟩⟩ [⟨⟨1, 2, 3⟩, ⟨4, 5, 6⟩, ⟨7, 8, 9⟩⟩]
    (.comment (.numbers _ (.numbers _ (.numbers _ .nil))))

end

/-! ## C87: units -/

/-- **C87**: in the unit `num/d1/.../dk` every denominator is put in brackets, so that a product in a
denominator is divided by as a whole. -/
theorem C87_brackets (num : List Char) (ds : List (List Char)) (hds : ds ≠ []) (hn : '/' ∉ num)
    (hd : ∀ d ∈ ds, '/' ∉ d ∧ d ≠ []) :
    bracketUnit (List.intercalate ['/'] (num :: ds)) = num ++ ds.flatMap fun d => "/(".toList ++ d ++ [')'] := by
  have hs : splitSlash (List.intercalate ['/'] (num :: ds)) = num :: ds := by
    refine List.splitOn_intercalate _ ?_ (by simp)
    intro l hl
    rcases List.mem_cons.1 hl with rfl | hl
    · exact hn
    · exact (hd l hl).1
  have hf : (num :: ds).tail.filter (fun d => decide (d ≠ [])) = ds :=
    List.filter_eq_self.2 fun d hd' => decide_eq_true (hd d hd').2
  unfold bracketUnit denominators
  rw [hs, hf, List.headD_cons, List.append_assoc]
  congr 1
  clear hs hf hd
  induction ds with
  | nil => exact absurd rfl hds
  | cons d ds ih =>
    rcases ds with _ | ⟨d', ds⟩
    · simp [List.intercalate]
    · have := ih (by simp)
      rw [List.map_cons, List.flatMap_cons, ← this]
      simp [List.intercalate, List.intersperse]

example : bracketUnit "eV/Angstrom.au".toList = "eV/(Angstrom.au)".toList := by decide

/-- A unit without a denominator comes out with an open bracket at its end. -/
theorem C87_no_denominator (s : List Char) (h : '/' ∉ s) : bracketUnit s = s ++ "/(".toList := by
  have hs : splitSlash s = [s] := by
    have := List.splitOn_intercalate (ls := [s]) '/' (by simpa using h) (by simp)
    simpa [List.intercalate, splitSlash] using this
  unfold bracketUnit denominators
  rw [hs]
  simp [List.intercalate]

/-! ## C88: atoms of the supercell -/

theorem mem_npUnique (a : List Int) (x : Int) : x ∈ npUnique a ↔ x ∈ a := by
  unfold npUnique
  rw [(List.perm_insertionSort _ _).mem_iff, List.mem_eraseDups]

theorem npUnique_sorted (a : List Int) : (npUnique a).Pairwise (· < ·) := by
  have h1 : (npUnique a).Pairwise (· ≤ ·) := List.pairwise_insertionSort _ _
  have h2 : (npUnique a).Nodup := (List.perm_insertionSort _ _).nodup_iff.2 (nodup_eraseDups a)
  refine (h1.and h2).imp ?_
  rintro x y ⟨h, hne⟩
  omega

theorem getElem_npUniqueInverse (a : List Int) (i : Nat) (hi : i < a.length) :
    ∃ k, (npUniqueInverse a)[i]? = some k ∧ (npUnique a)[k]? = some a[i] := by
  refine ⟨(npUnique a).idxOf a[i], by simp [npUniqueInverse, hi], ?_⟩
  have : a[i] ∈ npUnique a := (mem_npUnique a _).2 (List.getElem_mem hi)
  rw [List.getElem?_eq_getElem (List.idxOf_lt_length_of_mem this)]
  simp

/-- **C88**: following the two maps from an atom of the supercell leads to the atom (counted from zero) that
the file reduces it to, and the primitive atoms are listed once each in increasing order. -/
theorem C88_maps (red : List Int) (n : Nat) (i : Nat) (hi : i < red.length) :
    (atomMaps (some red) n).1.Pairwise (· < ·) ∧
    (∀ x, x ∈ (atomMaps (some red) n).1 ↔ x + 1 ∈ red) ∧
    ∃ k, (atomMaps (some red) n).2[i]? = some k ∧ (atomMaps (some red) n).1[k]? = some (red[i] - 1) := by
  refine ⟨npUnique_sorted _, fun x => ?_, ?_⟩
  · simp only [atomMaps, idxInCell, mem_npUnique, List.mem_map]
    constructor
    · rintro ⟨y, hy, rfl⟩; simpa using hy
    · intro h; exact ⟨x + 1, h, by omega⟩
  · have := getElem_npUniqueInverse (red.map (· - 1)) i (by simpa using hi)
    simpa [atomMaps, idxInCell] using this

/-- **C88**: two atoms of the supercell belong to the same primitive atom exactly if they are reduced to the
same atom. -/
theorem C88_same (red : List Int) (n : Nat) (i j : Nat) (hi : i < red.length) (hj : j < red.length) :
    (atomMaps (some red) n).2[i]? = (atomMaps (some red) n).2[j]? ↔ red[i] = red[j] := by
  obtain ⟨-, -, k, h1, h2⟩ := C88_maps red n i hi
  obtain ⟨-, -, l, h3, h4⟩ := C88_maps red n j hj
  rw [h1, h3]
  constructor
  · intro h
    rw [Option.some.injEq] at h
    subst h
    rw [h2, Option.some.injEq] at h4
    omega
  · intro h
    have h5 : (atomMaps (some red) n).2[i]? = some ((npUnique (red.map (· - 1))).idxOf (red[i] - 1)) := by
      simp [atomMaps, idxInCell, npUniqueInverse, hi]
    have h6 : (atomMaps (some red) n).2[j]? = some ((npUnique (red.map (· - 1))).idxOf (red[j] - 1)) := by
      simp [atomMaps, idxInCell, npUniqueInverse, hj]
    rw [← h1, ← h3, h5, h6, h]

example : atomMaps (some [1, 1, 1, 1, 5, 5, 5, 5]) 8 = ([0, 4], [0, 0, 0, 0, 1, 1, 1, 1]) := by decide +kernel

/-- Without `reduced_to` the primitive atoms are off by one: the first is atom -1, that is the last. -/
theorem C88_absent_off_by_one (n : Nat) (hn : 0 < n) : (-1 : Int) ∈ (atomMaps none n).1 := by
  simp only [atomMaps, idxInCell, mem_npUnique, List.mem_map, List.mem_range]
  exact ⟨0, ⟨0, hn, rfl⟩, rfl⟩

/-! ## C89: matrix of the supercell -/

open Matrix

/-- Rounding leaves a matrix of integers alone. -/
theorem map_rint (m : Matrix (Fin 3) (Fin 3) ℤ) :
    (m.map fun x : ℤ => (x : ℝ)).map (fun x => (rint x : ℝ)) = m.map fun x : ℤ => (x : ℝ) := by
  ext i j
  simp [rint_intCast]

/-- **C89**: let the primitive cell be `Pᵀ U` (rows are cell vectors) and the supercell `S U` be made of whole
primitive cells, `S U = M Pᵀ U`.  Then `sc_matrix` is `M`. -/
theorem C89_matrix (S P U : Matrix (Fin 3) (Fin 3) ℝ) (M : Matrix (Fin 3) (Fin 3) ℤ)
    (hP : IsUnit P.det) (hU : IsUnit U.det) (h : S * U = M.map (fun x : ℤ => (x : ℝ)) * (Pᵀ * U)) :
    scMatrix S (some P) = M.map fun x : ℤ => (x : ℝ) := by
  have h1 : S = M.map (fun x : ℤ => (x : ℝ)) * Pᵀ := by
    rw [← Matrix.mul_assoc] at h
    have := congrArg (· * U⁻¹) h
    simpa [Matrix.mul_assoc, Matrix.mul_nonsing_inv _ hU] using this
  unfold scMatrix
  simp only
  rw [h1, Matrix.mul_assoc, ← Matrix.transpose_mul, Matrix.nonsing_inv_mul _ hP, Matrix.transpose_one, Matrix.mul_one,
    map_rint]

/-- **C89**: positions of atoms in fractions of the supercell become positions in fractions of the primitive
cell: both describe the same points. -/
theorem C89_positions {m : Nat} (r : Matrix (Fin m) (Fin 3) ℝ) (S P U : Matrix (Fin 3) (Fin 3) ℝ)
    (M : Matrix (Fin 3) (Fin 3) ℤ) (hP : IsUnit P.det) (hU : IsUnit U.det)
    (h : S * U = M.map (fun x : ℤ => (x : ℝ)) * (Pᵀ * U)) :
    scAtomR r (scMatrix S (some P)) * (Pᵀ * U) = r * (S * U) := by
  rw [C89_matrix S P U M hP hU h, scAtomR, Matrix.mul_assoc, ← h]

/-- Phonopy documents `supercell_matrix` like `primitive_matrix`, for column vectors: the supercell is `Sᵀ U`.
With a matrix `S` that is not symmetric the positions then are wrong. -/
theorem C89_transposed : ∃ (S : Matrix (Fin 3) (Fin 3) ℝ) (r : Matrix (Fin 1) (Fin 3) ℝ),
    scAtomR r (scMatrix S none) * (1 : Matrix (Fin 3) (Fin 3) ℝ) ≠ r * (Sᵀ * 1) := by
  refine ⟨!![1, 1, 0; 0, 1, 0; 0, 0, 1], !![1, 0, 0], fun h => ?_⟩
  have := congrFun (congrFun h 0) 1
  simp [scAtomR, scMatrix, Matrix.mul_apply, Fin.sum_univ_three, Matrix.transpose_apply] at this

/-- **C89** (part): with a symmetric matrix (a diagonal one, say) they are right.  Missing: all others. -/
theorem C89_symmetric_partial {m : Nat} (r : Matrix (Fin m) (Fin 3) ℝ) (S P U : Matrix (Fin 3) (Fin 3) ℝ)
    (M : Matrix (Fin 3) (Fin 3) ℤ) (hP : IsUnit P.det) (hU : IsUnit U.det) (hS : Sᵀ = S)
    (h : Sᵀ * U = M.map (fun x : ℤ => (x : ℝ)) * (Pᵀ * U)) :
    scAtomR r (scMatrix S (some P)) * (Pᵀ * U) = r * (Sᵀ * U) := by
  rw [hS] at h ⊢
  exact C89_positions r S P U M hP hU h

/-- NaCl: doubled cubic cell and primitive cell with half face diagonals. -/
example : ∃ (M : Matrix (Fin 3) (Fin 3) ℤ) (P : Matrix (Fin 3) (Fin 3) ℝ), IsUnit P.det ∧
    (2 : Matrix (Fin 3) (Fin 3) ℝ) * 1 = M.map (fun x : ℤ => (x : ℝ)) * (Pᵀ * 1) ∧ M 0 0 = -2 ∧ P 0 1 = 1/2 := by
  refine ⟨!![-2, 2, 2; 2, -2, 2; 2, 2, -2], !![0, 1/2, 1/2; 1/2, 0, 1/2; 1/2, 1/2, 0], ?_, ?_, rfl, rfl⟩
  · rw [Matrix.det_fin_three]
    simp
  · ext i j
    fin_cases i <;> fin_cases j <;> simp [Matrix.mul_apply, Fin.sum_univ_three, Matrix.transpose_apply, Matrix.ofNat_apply] <;> norm_num

end Euphonic.Phonopy
