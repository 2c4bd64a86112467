import Verif.Model.DebyeSym
import Verif.Props.DescribeScatter
import Verif.Props.Symmetry
import Mathlib.GroupTheory.GroupAction.Quotient

/-!
# C136: Debye-Waller exponents from symmetry-reduced wavevectors

With `symmetrise=True` the exponents of a reduced set of wavevectors are those of the full set.
-/

set_option autoImplicit false
set_option linter.unusedSectionVars false

namespace Euphonic.DebyeSym

open Euphonic.Lattice Euphonic.Supercell Euphonic.Phases Euphonic.Images Euphonic.DynMat Euphonic.Reduced
open Euphonic.Commensurate Euphonic.Acoustic Euphonic.Scatter Euphonic.Describe Euphonic.Symmetry

variable {n N nq nF : Nat} {d : Description n N}

/-! ## Specification -/

/-- The operation leaves crystal and force constants as they are (`h` says what it does to atoms, cells and directions). -/
structure Genuine (d : Description n N) (types : Fin n → String) (op : Op ℝ) (h : Change n N N) : Prop where
  relates : h.Relates d d
  rotation : h.A = ⟨⟨op.W.a.x, op.W.b.x, op.W.c.x⟩, ⟨op.W.a.y, op.W.b.y, op.W.c.y⟩, ⟨op.W.a.z, op.W.b.z, op.W.c.z⟩⟩
  origin : h.w = op.t
  types : ∀ i, types (h.p i) = types i

/-- The wavevector that the operation moves to `Q` (fractional coordinates, so the transposed matrix). -/
noncomputable def unrotated (op : Op ℝ) (Q : V3 ℝ) : V3 ℝ :=
  ⟨op.W.a.x * Q.x + op.W.b.x * Q.y + op.W.c.x * Q.z, op.W.a.y * Q.x + op.W.b.y * Q.y + op.W.c.y * Q.z,
    op.W.a.z * Q.x + op.W.b.z * Q.y + op.W.c.z * Q.z⟩

/-- Wavevectors that differ by a reciprocal lattice vector, or do after one of them has been reversed. -/
def SameUpTo (q q' : V3 ℝ) : Prop := ∃ G : V3 ℤ, q' = add q (castV ℝ G) ∨ q' = add (neg q) (castV ℝ G)

/-- The reduced wavevectors `qs` with their weights `w` stand for the wavevectors `Qs` with the weights `v`: operation `s`
moves `qs i` to `Qs (at i s)`, and the weights of what is moved there add up to the weight of the wavevector (up to a factor for
all of them). -/
structure StandsFor (ops : List (Op ℝ)) (qs : Fin nq → V3 ℝ) (w : Fin nq → ℝ) (Qs : Fin nF → V3 ℝ) (v : Fin nF → ℝ) where
  goes : Fin nq → Fin ops.length → Fin nF
  moved : ∀ i s, SameUpTo (unrotated ops[s] (Qs (goes i s))) (qs i)
  factor : ℝ
  factor_ne : factor ≠ 0
  share : ∀ j, factor * v j = ∑ i, ∑ s, if goes i s = j then w i else 0

/-! ## One wavevector -/

/-- The contribution of one wavevector with weight one. -/
noncomputable def unit (d : Description n N) (images : List (V3 ℤ)) (junk : Fin N → Mat n ℝ)
    (eigh : Mat n ℂ → (Fin (n * 3) → ℝ) × Mat n ℂ) (kB temp fmin : ℝ) (q : V3 ℝ) (k : Fin n) (a b : Fin 3) : ℝ :=
  1 / (4 * d.mass k) *
    (spectral (eigh (d.weighted images junk q)) (fun x => freqTerm kB temp fmin (freqOf x)) (row k a) (row k b)).re

theorem raw_eq (types : Fin n → String) (images : List (V3 ℤ)) (junk : Fin N → Mat n ℝ)
    (eigh : Mat n ℂ → (Fin (n * 3) → ℝ) × Mat n ℂ) (qs : Fin nq → V3 ℝ) (w : Fin nq → ℝ) (chunk : Nat) (hc : 0 < chunk)
    (kB temp fmin : ℝ) (k : Fin n) (a b : Fin 3) :
    dwRaw chunk (d.modes types images junk eigh qs w) kB temp fmin k a b =
      (∑ i, w i * unit d images junk eigh kB temp fmin (qs i) k a b) / ∑ i, w i := by
  simp only [dwRaw, C28_chunking_irrelevant chunk hc, ← Fin.sum_univ_def, dwContribution_spectral, unit, mul_assoc]
  rfl

/-- The change that changes nothing. -/
noncomputable def same (n N : Nat) : Change n N N where
  A := ⟨⟨1, 0, 0⟩, ⟨0, 1, 0⟩, ⟨0, 0, 1⟩⟩
  B := ⟨⟨1, 0, 0⟩, ⟨0, 1, 0⟩, ⟨0, 0, 1⟩⟩
  p := Equiv.refl _
  T := fun _ => ⟨0, 0, 0⟩
  w := ⟨0, 0, 0⟩
  R := fun a b => if a = b then 1 else 0
  s := fun _ _ c => c

theorem same_relates (d : Description n N) : (same n N).Relates d d where
  left := fun v => by simp [mulMat, same]
  right := fun v => by simp [mulMat, same]
  ortho := fun a b => by simp [same, eq_comm]
  vectors := fun x => by
    simp [toCart, castM, castV, same, rotV, comp0, comp1, comp2]
  positions := fun i => by simp [same, toCart, castM, castV, add]
  masses := fun i => rfl
  super := fun v => by simp [same, mulMat]
  bij := fun _ _ => Function.bijective_id
  cell := fun i j c => ⟨⟨0, 0, 0⟩, by simp [same, mulMat, sub, add]⟩
  fcs := fun i j c a b => by simp [same]

theorem same_carries (q : V3 ℝ) (M M' : Mat n ℂ) : (same n N).Carries q M M' ↔ ∀ i j a b, M' (row i a) (row j b) = M (row i a) (row j b) := by
  have h0 : expQR q ⟨0, 0, 0⟩ = 1 := by simp [expQR]
  have h1 : ∀ a b : Fin 3, (((if a = b then 1 else 0 : ℝ)) : ℂ) = if a = b then 1 else 0 := fun a b => by split <;> simp
  unfold Change.Carries
  simp [same, h0, h1]

/-- Functions of a Hermitian matrix do not depend on the eigenvectors that have been found. -/
theorem spectral_unique (d : Description n N) {M : Mat n ℂ} (hh : ∀ k l, M l k = star (M k l))
    {eigh eigh' : Mat n ℂ → (Fin (n * 3) → ℝ) × Mat n ℂ} (he : IsEigh eigh) (he' : IsEigh eigh') (g : ℝ → ℝ) (i j : Fin n)
    (a b : Fin 3) : spectral (eigh' M) g (row i a) (row j b) = spectral (eigh M) g (row i a) (row j b) :=
  (same_carries (N := N) ⟨0, 0, 0⟩ _ _).1
    ((same_relates d).spectral ((same_carries ⟨0, 0, 0⟩ _ _).2 fun _ _ _ _ => rfl) hh he he' g) i j a b

/-- Diagonalisation by way of the complex conjugate matrix. -/
noncomputable def conjEigh {m : Nat} (eigh : (Fin m → Fin m → ℂ) → (Fin m → ℝ) × (Fin m → Fin m → ℂ)) (A : Fin m → Fin m → ℂ) :
    (Fin m → ℝ) × (Fin m → Fin m → ℂ) :=
  ((eigh fun k l => star (A k l)).1, fun s k => star ((eigh fun k l => star (A k l)).2 s k))

theorem isEigh_conj {m : Nat} {eigh : (Fin m → Fin m → ℂ) → (Fin m → ℝ) × (Fin m → Fin m → ℂ)} (he : IsEigh eigh) :
    IsEigh (conjEigh eigh) where
  mono := fun A hA => he.mono _ fun k l => by rw [hA k l]
  ortho := fun A hA s s' => by
    have := congrArg star (he.ortho (fun k l => star (A k l)) (fun k l => by rw [hA k l]) s s')
    rw [star_sum] at this
    simp only [star_mul', star_star] at this
    simp only [conjEigh, star_star]
    rw [this]
    split <;> simp
  eigen := fun A hA s k => by
    have := congrArg star (he.eigen (fun k l => star (A k l)) (fun k l => by rw [hA k l]) s k)
    rw [star_sum] at this
    simp only [star_mul', star_star] at this
    simp only [conjEigh]
    rw [this]
    simp [Complex.conj_ofReal]

theorem weighted_periodic (d : Description n N) (images : List (V3 ℤ)) (junk : Fin N → Mat n ℝ) (q : V3 ℝ) (G : V3 ℤ) :
    d.weighted images junk (add q (castV ℝ G)) = d.weighted images junk q := by
  unfold Description.weighted Description.dynMat fcDynMat
  rw [(C44_periodic d.cv _ _ _ _ q G).1]

theorem weighted_neg (d : Description n N) (images : List (V3 ℤ)) (junk : Fin N → Mat n ℝ) (q : V3 ℝ) :
    d.weighted images junk (neg q) = fun k l => star (d.weighted images junk q k l) := by
  unfold Description.weighted Description.dynMat fcDynMat
  funext k l
  simp only [DynMat.weighted]
  rw [(C44_even d.cv _ _ _ _ q k l).1, star_mul', Complex.star_def, Complex.conj_ofReal]

section
variable {images : List (V3 ℤ)} (hok : d.Ok images) {op : Fin N → Fin N} {t : Fin N → V3 ℤ}
  (hs : Symmetric d.cells d.S d.fc op t) (junk : Fin N → Mat n ℝ) {eigh : Mat n ℂ → (Fin (n * 3) → ℝ) × Mat n ℂ}
  (he : IsEigh eigh) (kB temp fmin : ℝ)
include hok hs he

theorem unit_neg (q : V3 ℝ) (k : Fin n) (a b : Fin 3) :
    unit d images junk eigh kB temp fmin (neg q) k a b = unit d images junk eigh kB temp fmin q k a b := by
  unfold unit
  rw [weighted_neg]
  have hh := d.hermitian hok hs junk q
  have h1 := spectral_unique d hh he (isEigh_conj he) (fun x => freqTerm kB temp fmin (freqOf x)) k k a b
  rw [← h1]
  congr 1
  unfold spectral conjEigh
  rw [Complex.re_sum, Complex.re_sum]
  refine Finset.sum_congr rfl fun s _ => ?_
  rw [Complex.re_ofReal_mul, Complex.re_ofReal_mul]
  congr 1
  simp

theorem unit_same {q q' : V3 ℝ} (h : SameUpTo q q') (k : Fin n) (a b : Fin 3) :
    unit d images junk eigh kB temp fmin q' k a b = unit d images junk eigh kB temp fmin q k a b := by
  obtain ⟨G, rfl | rfl⟩ := h
  · unfold unit
    rw [weighted_periodic]
  · rw [← unit_neg hok hs junk he kB temp fmin q]
    unfold unit
    rw [weighted_periodic]

/-- A rotated wavevector. -/
theorem unit_rotated {h : Change n N N} (hr : h.Relates d d) (q : V3 ℝ) (i : Fin n) (a b : Fin 3) :
    unit d images junk eigh kB temp fmin q (h.p i) a b =
      ∑ a', ∑ b', h.R a a' * unit d images junk eigh kB temp fmin (h.back q) i a' b' * h.R b b' := by
  unfold unit
  rw [hr.spectral (hr.carries_weighted hok hok junk junk q) (d.hermitian hok hs junk _) he he, hr.masses, Complex.re_sum,
    Finset.mul_sum]
  refine Finset.sum_congr rfl fun a' _ => ?_
  rw [Complex.re_sum, Finset.mul_sum]
  refine Finset.sum_congr rfl fun b' _ => ?_
  have e : ∀ z : ℂ, expQR q (h.T i) * (h.R a a' : ℂ) * z * star (expQR q (h.T i) * (h.R b b' : ℂ)) =
      ((h.R a a' * h.R b b' : ℝ) : ℂ) * z := by
    intro z
    rw [star_mul', Complex.star_def, Complex.conj_ofReal]
    have := norm_expQR q (h.T i)
    rw [Complex.star_def] at this
    push_cast
    linear_combination ((h.R a a' : ℂ) * h.R b b' * z) * this
  rw [e, Complex.re_ofReal_mul]
  ring

end

/-! ## What the code finds -/

theorem unrotated_eq {types : Fin n → String} {op : Op ℝ} {h : Change n N N} (hg : Genuine d types op h) (Q : V3 ℝ) :
    h.back Q = unrotated op Q := by
  simp only [Change.back, hg.rotation, dot, castV, unrotated]

/-- The Cartesian rotation. -/
theorem rotCart_eq {types : Fin n → String} {op : Op ℝ} {h : Change n N N} (hg : Genuine d types op h)
    (hv : cellVolume d.cv ≠ 0) : rotCart d.cv op.W = h.R := by
  funext l m
  set R := reciprocalCell (2 * Real.pi) d.cv with hR
  have hpi : 2 * Real.pi ≠ 0 := by positivity
  -- the fractional coordinates of a unit vector
  have hu : ∀ l m, (∑ k, entry R k m * entry d.cv k l) / (2 * Real.pi) = if l = m then 1 else 0 := by
    intro l m
    have hs : ∑ k, entry R k m * entry d.cv k l = (2 * Real.pi / cellVolume d.cv) * if l = m then cellVolume d.cv else 0 := by
      rw [hR]
      unfold reciprocalCell
      generalize 2 * Real.pi / cellVolume d.cv = c
      simp only [cellVolume, Lattice.smul, cross, dot, Fin.sum_univ_three, entry]
      fin_cases l <;> fin_cases m <;> simp [comp] <;> ring
    rw [hs]
    split
    · field_simp
    · simp
  set x : V3 ℝ := ⟨entry R 0 m / (2 * Real.pi), entry R 1 m / (2 * Real.pi), entry R 2 m / (2 * Real.pi)⟩ with hx
  have h1 : ∀ l, comp (toCart d.cv x) l = if l = m then 1 else 0 := by
    intro l
    rw [← hu l m, Fin.sum_univ_three]
    fin_cases l <;> simp [toCart, comp, entry, hx] <;> ring
  have h2 := congrArg (fun v => comp v l) (hg.relates.vectors x)
  simp only [comp_rotV, h1] at h2
  simp only [mul_ite, mul_one, mul_zero, Finset.sum_ite_eq', Finset.mem_univ, if_true] at h2
  rw [← h2]
  unfold rotCart
  simp only [hg.rotation, Fin.sum_univ_three]
  rw [← hR]
  fin_cases l <;> simp [toCart, castM, castV, comp, entry, hx] <;> ring

theorem genuine_image {types : Fin n → String} {op : Op ℝ} {h : Change n N N} (hg : Genuine d types op h) (i : Fin n) :
    LatticeEq (image op (d.r i)) (d.r (h.p i)) := by
  have hp := hg.relates.positions i
  have ha : ∀ v : V3 ℝ, toCart (castM h.A) v = ⟨op.W.a.x * v.x + op.W.a.y * v.y + op.W.a.z * v.z,
      op.W.b.x * v.x + op.W.b.y * v.y + op.W.b.z * v.z, op.W.c.x * v.x + op.W.c.y * v.y + op.W.c.z * v.z⟩ := by
    intro v
    rw [hg.rotation]
    simp only [toCart, castM, castV, V3.mk.injEq]
    refine ⟨?_, ?_, ?_⟩ <;> ring
  rw [ha, hg.origin] at hp
  refine ⟨⟨-(h.T i).x, -(h.T i).y, -(h.T i).z⟩, ?_⟩
  simp only [hp, image, add, castV]
  push_cast
  refine ⟨?_, ?_, ?_⟩ <;> simp

/-- The equivalent atoms. -/
theorem eqRow_eq {types : Fin n → String} {tol : ℝ} {ops : List (Op ℝ)} {T : Table}
    (hT : equivalentAtoms d.cv (List.ofFn types) (List.ofFn d.r) tol (some ops) = .ok T) (s : Fin ops.length) {h : Change n N N}
    (hg : Genuine d types ops[s] h) (i : Fin n) : eqRow T s i = h.p i := by
  obtain ⟨j, h1, ⟨_, hj, _, m, hm, ht, _⟩, h3⟩ := C75_table d.cv (List.ofFn types) (List.ofFn d.r) tol (by simp) ops T hT s s.2 i (by simp)
  have h4 : ((h.p i : Fin n) : Nat) = j := by
    apply h3
    refine ⟨by simp, by simp, by simp [hg.types], near_of_latticeEq d.cv tol ht _ _ ?_⟩
    simp only [List.getElem_ofFn, Fin.eta]
    exact genuine_image hg i
  unfold eqRow
  rw [dif_pos]
  · ext
    simp [h1, h4]
  · rw [h1]
    have := (h.p i).2
    constructor
    · omega
    · simp; omega

theorem indexedAdd_perm (acc v : Fin n → Fin 3 → Fin 3 → ℝ) (p : Equiv.Perm (Fin n)) (i : Fin n) (a b : Fin 3) :
    indexedAdd acc v p (p i) a b = acc (p i) a b + v i a b := by
  unfold indexedAdd
  have : (List.finRange n).reverse.find? (fun k' => decide (p k' = p i)) = some i := by
    cases hf : (List.finRange n).reverse.find? (fun k' => decide (p k' = p i)) with
    | none =>
      rw [List.find?_eq_none] at hf
      exact absurd (by simp) (hf i (by simp))
    | some k =>
      have := List.find?_some hf
      simp at this
      rw [this]
  rw [this]

theorem foldl_perm (w : Fin n → Fin 3 → Fin 3 → ℝ) (l : List (SymOp n)) (p : Fin l.length → Equiv.Perm (Fin n))
    (hp : ∀ s i, l[s].eqAtoms i = p s i) (acc : Fin n → Fin 3 → Fin 3 → ℝ) (k : Fin n) (a b : Fin 3) :
    l.foldl (fun acc s => indexedAdd acc (rotate s.rot w) s.eqAtoms) acc k a b =
      acc k a b + ∑ s, rotate l[s].rot w ((p s).symm k) a b := by
  induction l generalizing acc with
  | nil => simp
  | cons x l ih =>
    rw [List.foldl_cons, ih (fun s => p s.succ) (fun s i => hp s.succ i)]
    have h0 : x.eqAtoms = p 0 := funext fun i => hp 0 i
    have h1 := indexedAdd_perm acc (rotate x.rot w) (p 0) ((p 0).symm k) a b
    rw [Equiv.apply_symm_apply] at h1
    rw [h0, h1]
    have := Fin.sum_univ_succ (fun s : Fin (l.length + 1) => rotate (x :: l)[s].rot w ((p s).symm k) a b)
    rw [add_assoc]
    exact congrArg _ this.symm

/-! ## Main theorems -/

section
variable {images : List (V3 ℤ)} (hok : d.Ok images) {op : Fin N → Fin N} {t : Fin N → V3 ℤ}
  (hs : Symmetric d.cells d.S d.fc op t) (junk : Fin N → Mat n ℝ) {eigh : Mat n ℂ → (Fin (n * 3) → ℝ) × Mat n ℂ}
  (he : IsEigh eigh) {types : Fin n → String} {tol : ℝ} {ops : List (Op ℝ)} {h : Fin ops.length → Change n N N}
  (hg : ∀ s, Genuine d types ops[s] (h s))
include hok hs he hg

theorem symmetrised_eq {T : Table} (hT : equivalentAtoms d.cv (List.ofFn types) (List.ofFn d.r) tol (some ops) = .ok T)
    (qs : Fin nq → V3 ℝ) (w : Fin nq → ℝ) (chunk : Nat) (hc : 0 < chunk) (kB temp fmin : ℝ) (k : Fin n) (a b : Fin 3) :
    (calculateDebyeWaller chunk (d.modes types images junk eigh qs w) kB temp fmin
      (some (ops.mapIdx fun s op => ⟨rotCart d.cv op.W, eqRow T s⟩))).w k a b =
    (∑ s, ∑ i, w i * ∑ a', ∑ b', (h s).R a a' * unit d images junk eigh kB temp fmin (qs i) ((h s).p.symm k) a' b' * (h s).R b b')
      / ((∑ i, w i) * ops.length) := by
  set l := ops.mapIdx fun s op => (⟨rotCart d.cv op.W, eqRow T s⟩ : SymOp n) with hl
  have hlen : l.length = ops.length := by simp [hl]
  have hget : ∀ s : Fin l.length, l[s] = ⟨rotCart d.cv ops[s.cast hlen].W, eqRow T (s.cast hlen)⟩ := by
    intro s
    simp [hl]
  simp only [calculateDebyeWaller]
  rw [foldl_perm (dwRaw chunk (d.modes types images junk eigh qs w) kB temp fmin) l (fun s => (h (s.cast hlen)).p)
    (fun s i => by rw [hget]; exact eqRow_eq hT _ (hg _) i), zero_add,
    show ((l.length : ℕ) : ℝ) = ops.length by rw [hlen]]
  have e : ∀ s : Fin l.length, rotate l[s].rot (dwRaw chunk (d.modes types images junk eigh qs w) kB temp fmin)
      ((h (s.cast hlen)).p.symm k) a b = (∑ i, w i * ∑ a', ∑ b', (h (s.cast hlen)).R a a' *
        unit d images junk eigh kB temp fmin (qs i) ((h (s.cast hlen)).p.symm k) a' b' * (h (s.cast hlen)).R b b') / ∑ i, w i := by
    intro s
    rw [hget]
    simp only [rotate, rotCart_eq (hg _) (volume_ne hok), raw_eq types images junk eigh qs w chunk hc]
    generalize unit d images junk eigh kB temp fmin = u
    generalize (h (s.cast hlen)) = g
    generalize ∑ i, w i = W
    simp only [Finset.mul_sum, Finset.sum_mul, Finset.sum_div]
    have hcomm : ∀ f : Fin nq → Fin 3 → Fin 3 → ℝ, ∑ q, ∑ a', ∑ b', f q a' b' = ∑ a', ∑ b', ∑ q, f q a' b' := by
      intro f
      rw [Finset.sum_comm]
      exact Finset.sum_congr rfl fun a' _ => Finset.sum_comm
    rw [hcomm]
    refine Finset.sum_congr rfl fun a' _ => Finset.sum_congr rfl fun b' _ => Finset.sum_congr rfl fun q _ => ?_
    ring
  rw [Finset.sum_congr rfl fun s _ => e s, ← Finset.sum_div, div_div]
  congr 1
  exact Equiv.sum_comp (finCongr hlen) fun s => ∑ i, w i * ∑ a', ∑ b', (h s).R a a' *
    unit d images junk eigh kB temp fmin (qs i) ((h s).p.symm k) a' b' * (h s).R b b'

/-- **C136** (partial: supercells are reduced, no corrections) If the symmetry operations found are symmetries of the crystal
and its force constants, and the reduced wavevectors stand for the full set, then the exponents calculated from the reduced
wavevectors with `symmetrise=True` are those calculated from the full set without.  (Without operations, or if the weights sum to
zero, the code divides by zero.) -/
theorem C136_reduced_partial {qs : Fin nq → V3 ℝ} {w : Fin nq → ℝ} (_hw : ∑ i, w i ≠ 0) (_hne : ops ≠ []) {Qs : Fin nF → V3 ℝ}
    {v : Fin nF → ℝ} (hf : StandsFor ops qs w Qs v) {chunk : Nat} (hc : 0 < chunk) (kB temp fmin : ℝ) {dw : DW}
    (hdw : debyeWaller d.cv d.r tol (some ops) chunk (d.modes types images junk eigh qs w) kB temp fmin true = .ok dw) :
    debyeWaller d.cv d.r tol (some ops) chunk (d.modes types images junk eigh Qs v) kB temp fmin false = .ok dw := by
  unfold debyeWaller at hdw ⊢
  simp only [if_true, Bool.false_eq_true, if_false, symOps] at hdw ⊢
  have hty : (d.cryst types).atomType = types := rfl
  rw [hty] at hdw
  cases hT : equivalentAtoms d.cv (List.ofFn types) (List.ofFn d.r) tol (some ops) with
  | error e => rw [hT] at hdw; cases hdw
  | ok T =>
    rw [hT] at hdw
    simp only [Except.map, Option.getD_some, Except.ok.injEq] at hdw
    rw [← hdw]
    have key : ∀ (k : Fin n) (a b : Fin 3), dwRaw chunk (d.modes types images junk eigh Qs v) kB temp fmin k a b =
        (calculateDebyeWaller chunk (d.modes types images junk eigh qs w) kB temp fmin
          (some (ops.mapIdx fun s op => ⟨rotCart d.cv op.W, eqRow T s⟩))).w k a b := by
      intro k a b
      rw [symmetrised_eq hok hs junk he hg hT qs w chunk hc]
      rw [raw_eq types images junk eigh Qs v chunk hc]
      have e1 : ∀ s i, ∑ a', ∑ b', (h s).R a a' * unit d images junk eigh kB temp fmin (qs i) ((h s).p.symm k) a' b' * (h s).R b b' =
          unit d images junk eigh kB temp fmin (Qs (hf.goes i s)) k a b := by
        intro s i
        have := unit_rotated hok hs junk he kB temp fmin (hg s).relates (Qs (hf.goes i s)) ((h s).p.symm k) a b
        rw [Equiv.apply_symm_apply] at this
        rw [this, unrotated_eq (hg s)]
        simp only [unit_same hok hs junk he kB temp fmin (hf.moved i s)]
      simp only [e1]
      generalize unit d images junk eigh kB temp fmin = u
      have e2 : ∑ s, ∑ i, w i * u (Qs (hf.goes i s)) k a b = hf.factor * ∑ j, v j * u (Qs j) k a b := by
        rw [Finset.mul_sum, Finset.sum_comm]
        have : ∀ j, hf.factor * (v j * u (Qs j) k a b) = ∑ i, ∑ s, if hf.goes i s = j then w i * u (Qs j) k a b else 0 := by
          intro j
          rw [← mul_assoc, hf.share, Finset.sum_mul]
          refine Finset.sum_congr rfl fun i _ => ?_
          rw [Finset.sum_mul]
          refine Finset.sum_congr rfl fun s _ => ?_
          split <;> simp
        simp only [this]
        conv_rhs => rw [Finset.sum_comm]
        refine Finset.sum_congr rfl fun i _ => ?_
        conv_rhs => rw [Finset.sum_comm]
        refine Finset.sum_congr rfl fun s _ => ?_
        simp
      have e3 : (∑ i, w i) * ops.length = hf.factor * ∑ j, v j := by
        rw [Finset.mul_sum]
        simp only [hf.share]
        rw [Finset.sum_comm, Finset.sum_mul]
        refine Finset.sum_congr rfl fun i _ => ?_
        rw [Finset.sum_comm]
        simp [mul_comm]
      rw [e2, e3, mul_div_mul_left _ _ hf.factor_ne]
    have : (calculateDebyeWaller chunk (d.modes types images junk eigh Qs v) kB temp fmin none) =
        ⟨n, dwRaw chunk (d.modes types images junk eigh Qs v) kB temp fmin, temp⟩ := rfl
    rw [this, show dwRaw chunk (d.modes types images junk eigh Qs v) kB temp fmin = _ from
      funext fun k => funext fun a => funext fun b => key k a b]
    rfl

end

/-- **C136** Nothing is raised if the operations are symmetries and atoms of the same kind are further apart than the
tolerance. -/
theorem C136_returns {d : Description n N} {types : Fin n → String} {tol : ℝ} (ht : 0 < tol) {ops : List (Op ℝ)}
    {h : Fin ops.length → Change n N N} (hg : ∀ s, Genuine d types ops[s] (h s))
    (hsep : Separated d.cv (List.ofFn types) (List.ofFn d.r) tol) (images : List (V3 ℤ)) (junk : Fin N → Mat n ℝ)
    (eigh : Mat n ℂ → (Fin (n * 3) → ℝ) × Mat n ℂ) (qs : Fin nq → V3 ℝ) (w : Fin nq → ℝ) (chunk : Nat) (kB temp fmin : ℝ)
    (symmetrise : Bool) : ∃ dw,
    debyeWaller d.cv d.r tol (some ops) chunk (d.modes types images junk eigh qs w) kB temp fmin symmetrise = .ok dw := by
  cases symmetrise with
  | false => exact ⟨_, rfl⟩
  | true =>
    obtain ⟨T, hT⟩ := C75_symmetric_ok d.cv (List.ofFn types) (List.ofFn d.r) tol ht (by simp) ops (fun op hop i hi => by
      obtain ⟨s, hs, rfl⟩ := List.getElem_of_mem hop
      have hi' : i < n := by simpa using hi
      refine ⟨(h ⟨s, hs⟩).p ⟨i, hi'⟩, by simp, ?_, ?_⟩
      · have := (hg ⟨s, hs⟩).types ⟨i, hi'⟩
        simp [hi', this]
      · simp only [List.getElem_ofFn, Fin.eta]
        exact genuine_image (hg ⟨s, hs⟩) ⟨i, hi'⟩) hsep
    unfold debyeWaller symOps
    rw [if_pos rfl, show (d.cryst types).atomType = types from rfl, hT]
    exact ⟨_, rfl⟩

/-! ## Which sets of wavevectors stand for others -/

/-- **C136** Weights of the symmetry-reduced set: if the operations act as a group on the full set (equal weights), one
wavevector is taken from each set of equivalent ones, and its weight is their number, then the reduced set stands for the full
one. -/
noncomputable def orbitsStandFor {ops : List (Op ℝ)} {G : Type} [Group G] [Fintype G] [MulAction G (Fin nF)] (e : G ≃ Fin ops.length)
    (Qs : Fin nF → V3 ℝ) (hact : ∀ g j, SameUpTo (unrotated ops[e g] (Qs (g • j))) (Qs j)) (pick : Fin nq → Fin nF)
    (hpick : ∀ j, ∃! i, j ∈ MulAction.orbit G (pick i)) :
    StandsFor ops (fun i => Qs (pick i)) (fun i => (Nat.card (MulAction.orbit G (pick i)) : ℝ)) Qs fun _ => 1 where
  goes := fun i s => e.symm s • pick i
  moved := fun i s => by
    have : ∀ s', s' = s → SameUpTo (unrotated ops[s'] (Qs (e.symm s • pick i))) (Qs (pick i)) →
        SameUpTo (unrotated ops[s] (Qs (e.symm s • pick i))) (Qs (pick i)) := by rintro s' rfl h; exact h
    exact this _ (Equiv.apply_symm_apply e s) (hact (e.symm s) (pick i))
  factor := Nat.card G
  factor_ne := by
    have : 0 < Nat.card G := Nat.card_pos
    positivity
  share := fun j => by
    classical
    obtain ⟨i0, h0, huniq⟩ := hpick j
    rw [mul_one, Finset.sum_eq_single i0]
    · rw [Equiv.sum_comp e.symm fun g => if g • pick i0 = j then (Nat.card (MulAction.orbit G (pick i0)) : ℝ) else 0]
      rw [← Finset.sum_filter, Finset.sum_const, nsmul_eq_mul]
      obtain ⟨g0, hg0⟩ := h0
      have hcard : (Finset.univ.filter fun g : G => g • pick i0 = j).card = Nat.card (MulAction.stabilizer G (pick i0)) := by
        rw [← Fintype.card_subtype, ← Nat.card_eq_fintype_card]
        refine Nat.card_congr ⟨fun g => ⟨g0⁻¹ * g.1, ?_⟩, fun g => ⟨g0 * g.1, ?_⟩, fun g => by simp, fun g => by simp⟩
        · rw [MulAction.mem_stabilizer_iff, mul_smul, g.2, ← hg0]
          exact inv_smul_smul g0 _
        · rw [mul_smul, MulAction.mem_stabilizer_iff.1 g.2]
          exact hg0
      rw [hcard]
      have := MulAction.card_orbit_mul_card_stabilizer_eq_card_group G (pick i0)
      rw [← Nat.card_eq_fintype_card, ← Nat.card_eq_fintype_card, ← Nat.card_eq_fintype_card] at this
      rw [← this]
      push_cast
      ring
    · intro i _ hi
      refine Finset.sum_eq_zero fun s _ => if_neg fun hs => hi (huniq i ⟨e.symm s, hs⟩)
    · simp

/-- Wavevectors that operations only exchange stand for themselves, with equal weights. -/
noncomputable def symmetricStandsFor {ops : List (Op ℝ)} (hne : ops ≠ []) (Qs : Fin nF → V3 ℝ) (goes : Fin ops.length → Equiv.Perm (Fin nF))
    (hact : ∀ s j, SameUpTo (unrotated ops[s] (Qs (goes s j))) (Qs j)) (c : ℝ) :
    StandsFor ops Qs (fun _ => c) Qs fun _ => c where
  goes := fun i s => goes s i
  moved := fun i s => hact s i
  factor := ops.length
  factor_ne := by
    have := List.length_pos_iff.2 hne
    positivity
  share := fun j => by
    rw [Finset.sum_comm]
    have : ∀ s, ∑ i, (if goes s i = j then c else 0) = c := by
      intro s
      rw [Equiv.sum_comp (goes s) fun i => if i = j then c else 0]
      simp
    simp [this]

section
variable {images : List (V3 ℤ)} (hok : d.Ok images) {op : Fin N → Fin N} {t : Fin N → V3 ℤ}
  (hs : Symmetric d.cells d.S d.fc op t) (junk : Fin N → Mat n ℝ) {eigh : Mat n ℂ → (Fin (n * 3) → ℝ) × Mat n ℂ}
  (he : IsEigh eigh) {types : Fin n → String} {tol : ℝ} (ht : 0 < tol) {ops : List (Op ℝ)} {h : Fin ops.length → Change n N N}
  (hg : ∀ s, Genuine d types ops[s] (h s)) (hsep : Separated d.cv (List.ofFn types) (List.ofFn d.r) tol)
include hok hs he ht hg hsep

/-- **C136** (partial: supercells are reduced, no corrections) Symmetry-reduced wavevectors: one from each set of equivalent
ones, weighted with their number, give with `symmetrise=True` what the full set gives without, and nothing is raised. -/
theorem C136_irreducible_partial {G : Type} [Group G] [Fintype G] [MulAction G (Fin nF)] (e : G ≃ Fin ops.length)
    (Qs : Fin nF → V3 ℝ) (hact : ∀ g j, SameUpTo (unrotated ops[e g] (Qs (g • j))) (Qs j)) (pick : Fin nq → Fin nF)
    (hpick : ∀ j, ∃! i, j ∈ MulAction.orbit G (pick i)) (hn : 0 < nF) {chunk : Nat} (hc : 0 < chunk) (kB temp fmin : ℝ) :
    ∃ dw, debyeWaller d.cv d.r tol (some ops) chunk (d.modes types images junk eigh (fun i => Qs (pick i))
        fun i => (Nat.card (MulAction.orbit G (pick i)) : ℝ)) kB temp fmin true = .ok dw ∧
      debyeWaller d.cv d.r tol (some ops) chunk (d.modes types images junk eigh Qs fun _ => 1) kB temp fmin false = .ok dw := by
  obtain ⟨dw, hdw⟩ := C136_returns ht hg hsep images junk eigh (fun i => Qs (pick i))
    (fun i => (Nat.card (MulAction.orbit G (pick i)) : ℝ)) chunk kB temp fmin true
  refine ⟨dw, hdw, C136_reduced_partial hok hs junk he hg ?_ ?_ (orbitsStandFor e Qs hact pick hpick) hc kB temp fmin hdw⟩
  · obtain ⟨i, -, -⟩ := hpick ⟨0, hn⟩
    refine ne_of_gt (Finset.sum_pos (fun i _ => ?_) ⟨i, Finset.mem_univ i⟩)
    have : Nonempty (MulAction.orbit G (pick i)) := ⟨⟨pick i, MulAction.mem_orbit_self _⟩⟩
    have : 0 < Nat.card (MulAction.orbit G (pick i)) := Nat.card_pos
    positivity
  · rintro rfl
    exact (e 1).elim0

/-- **C136** (partial: supercells are reduced, no corrections) For a set of wavevectors that the operations only exchange,
with equal weights, symmetrisation changes nothing. -/
theorem C136_symmetric_set_partial (hne : ops ≠ []) (Qs : Fin nF → V3 ℝ) (goes : Fin ops.length → Equiv.Perm (Fin nF))
    (hact : ∀ s j, SameUpTo (unrotated ops[s] (Qs (goes s j))) (Qs j)) {c : ℝ} (hc0 : c ≠ 0) (hn : 0 < nF) {chunk : Nat}
    (hc : 0 < chunk) (kB temp fmin : ℝ) :
    ∃ dw, ∀ symmetrise,
      debyeWaller d.cv d.r tol (some ops) chunk (d.modes types images junk eigh Qs fun _ => c) kB temp fmin symmetrise = .ok dw := by
  obtain ⟨dw, hdw⟩ := C136_returns ht hg hsep images junk eigh Qs (fun _ => c) chunk kB temp fmin true
  refine ⟨dw, fun b => ?_⟩
  cases b with
  | true => exact hdw
  | false =>
    refine C136_reduced_partial hok hs junk he hg ?_ hne (symmetricStandsFor hne Qs goes hact c) hc kB temp fmin hdw
    simp [hn.ne', hc0]

end

/-! ### A case meeting the hypotheses -/

namespace Ex

open Euphonic.Describe.Ex (K ok symmetric)

/-- The half turn about the chain. -/
noncomputable def half : Change 2 2 2 where
  A := ⟨⟨1, 0, 0⟩, ⟨0, -1, 0⟩, ⟨0, 0, -1⟩⟩
  B := ⟨⟨1, 0, 0⟩, ⟨0, -1, 0⟩, ⟨0, 0, -1⟩⟩
  p := Equiv.refl _
  T := fun _ => ⟨0, 0, 0⟩
  w := ⟨0, 0, 0⟩
  R := ![![1, 0, 0], ![0, -1, 0], ![0, 0, -1]]
  s := fun _ _ c => c

theorem half_relates : half.Relates Describe.Ex.d Describe.Ex.d where
  left := fun v => by simp [mulMat, half]
  right := fun v => by simp [mulMat, half]
  ortho := fun a b => by fin_cases a <;> fin_cases b <;> simp [half, Fin.sum_univ_three]
  vectors := fun x => by
    simp [toCart, Describe.Ex.d, DynMat.Ex.cv, castM, castV, half, rotV, Fin.sum_univ_three, comp0, comp1, comp2]
  positions := fun i => by
    fin_cases i <;> norm_num [half, Describe.Ex.d, toCart, castM, castV, add]
  masses := fun i => rfl
  super := fun v => by
    constructor
    · rintro ⟨m, hm⟩
      refine ⟨⟨m.x, -m.y, -m.z⟩, ?_⟩
      simp [mulMat, half, Describe.Ex.d, DynMat.Ex.S, V3.mk.injEq] at hm ⊢
      obtain ⟨h1, h2, h3⟩ := hm
      exact V3.ext' (by simp; omega) (by simp; omega) (by simp; omega)
    · rintro ⟨m, hm⟩
      refine ⟨⟨m.x, -m.y, -m.z⟩, ?_⟩
      rw [hm]
      simp [mulMat, half, Describe.Ex.d, DynMat.Ex.S]
  bij := fun i j => Function.bijective_id
  cell := fun i j c => by
    refine ⟨⟨0, 0, 0⟩, ?_⟩
    fin_cases c <;> simp [mulMat, sub, add, half, Describe.Ex.d, DynMat.Ex.cells]
  fcs := fun i j c a b => by
    simp only [Describe.Ex.d, row_div, row_mod, half, Fin.sum_univ_three, Equiv.refl_apply]
    fin_cases a <;> fin_cases b <;> simp [K]

/-- The identity and the half turn, as spglib gives them. -/
noncomputable def ops : List (Op ℝ) :=
  [⟨⟨⟨1, 0, 0⟩, ⟨0, 1, 0⟩, ⟨0, 0, 1⟩⟩, ⟨0, 0, 0⟩⟩, ⟨⟨⟨1, 0, 0⟩, ⟨0, -1, 0⟩, ⟨0, 0, -1⟩⟩, ⟨0, 0, 0⟩⟩]

def types : Fin 2 → String := !["Na", "Cl"]

theorem genuine : ∀ s : Fin ops.length, Genuine Describe.Ex.d types ops[s] (![same 2 2, half] s) := by
  intro s
  change Fin 2 at s
  fin_cases s
  · exact ⟨same_relates _, rfl, rfl, fun _ => rfl⟩
  · exact ⟨half_relates, rfl, rfl, fun _ => rfl⟩

theorem separated (tol : ℝ) : Separated Describe.Ex.d.cv (List.ofFn types) (List.ofFn Describe.Ex.d.r) tol := by
  intro i j hi hj ht _
  simp at hi hj
  interval_cases i <;> interval_cases j <;> simp [types] at ht ⊢

/-- Two wavevectors that are exchanged by the half turn (up to a reciprocal lattice vector). -/
noncomputable def Qs : Fin 2 → V3 ℝ := ![⟨1 / 5, 1 / 3, 1 / 7⟩, ⟨1 / 5, 2 / 3, -1 / 7⟩]

/-- The group of two elements. -/
def e : Equiv.Perm (Fin 2) ≃ Fin 2 where
  toFun := fun g => g 0
  invFun := fun i => Equiv.swap 0 i
  left_inv := by unfold Function.LeftInverse; decide
  right_inv := fun i => Equiv.swap_apply_left 0 i

theorem acts : ∀ (g : Equiv.Perm (Fin 2)) (j : Fin 2), SameUpTo (unrotated (ops[(e g : Fin ops.length)]) (Qs (g • j))) (Qs j) := by
  have h0 : ∀ j, SameUpTo (unrotated (ops[(0 : Fin 2)]) (Qs j)) (Qs j) := by
    intro j
    refine ⟨⟨0, 0, 0⟩, Or.inl ?_⟩
    simp [ops, unrotated, add, castV]
  have h1 : ∀ j, SameUpTo (unrotated (ops[(1 : Fin 2)]) (Qs (Equiv.swap 0 1 j))) (Qs j) := by
    intro j
    refine ⟨⟨0, 1, 0⟩, Or.inl ?_⟩
    fin_cases j <;> norm_num [ops, unrotated, add, castV, Qs]
  have hg : ∀ g : Equiv.Perm (Fin 2), g = 1 ∨ g = Equiv.swap 0 1 := by decide
  intro g j
  rcases hg g with rfl | rfl
  · exact h0 j
  · exact h1 j

/-- The exponents from one of the two wavevectors, with twice the weight, and from both. -/
example (junk : Fin 2 → Mat 2 ℝ) {eigh : Mat 2 ℂ → (Fin (2 * 3) → ℝ) × Mat 2 ℂ} (he : IsEigh eigh) (kB temp fmin : ℝ) :
    ∃ dw, debyeWaller Describe.Ex.d.cv Describe.Ex.d.r (1 / 1000) (some ops) 1000 (Describe.Ex.d.modes types shells2 junk eigh
        (fun _ : Fin 1 => ⟨1 / 5, 1 / 3, 1 / 7⟩) fun _ => 2) kB temp fmin true = .ok dw ∧
      debyeWaller Describe.Ex.d.cv Describe.Ex.d.r (1 / 1000) (some ops) 1000 (Describe.Ex.d.modes types shells2 junk eigh
        Qs fun _ => 1) kB temp fmin false = .ok dw := by
  have h := C136_irreducible_partial ok symmetric junk he (by norm_num : (0 : ℝ) < 1 / 1000) genuine (separated _) e Qs acts
    (![0] : Fin 1 → Fin 2) (fun j => ⟨0, by simp [MulAction.orbit_eq_univ], fun i _ => Subsingleton.elim _ _⟩) (by norm_num)
    (by norm_num : 0 < 1000) kB temp fmin
  have hcard : ∀ i : Fin 1, ((Nat.card (MulAction.orbit (Equiv.Perm (Fin 2)) ((![0] : Fin 1 → Fin 2) i)) : ℕ) : ℝ) = 2 := by
    intro i
    rw [MulAction.orbit_eq_univ]
    simp
  have hq : (fun i : Fin 1 => Qs ((![0] : Fin 1 → Fin 2) i)) = fun _ => ⟨1 / 5, 1 / 3, 1 / 7⟩ := by
    funext i
    fin_cases i
    rfl
  rw [hq, funext hcard] at h
  exact h

end Ex

end Euphonic.DebyeSym
