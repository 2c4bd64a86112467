import Verif.Props.Acoustic

/-!
# Different descriptions of the same crystal (C131) and symmetry (C132)

The same crystal and force constants can be written down in many ways: with other cell vectors, another orientation,
another origin, the atoms in another order or in other cells, the cells of the supercell in another order or represented
by others, other vectors for the same supercell.  All of them give the same frequencies.
-/

set_option autoImplicit false
set_option linter.unusedSectionVars false

namespace Euphonic.Describe

open Euphonic.Lattice Euphonic.Supercell Euphonic.Phases Euphonic.Images Euphonic.DynMat Euphonic.Reduced
open Euphonic.Commensurate Euphonic.Acoustic

/-! ## Specification -/

/-- A crystal with `n` atoms and its force constants in a supercell of `N` cells. -/
structure Description (n N : Nat) where
  /-- cell vectors -/
  cv : M3 ℝ
  /-- fractional positions -/
  r : Fin n → V3 ℝ
  /-- masses -/
  mass : Fin n → ℝ
  /-- supercell vectors in terms of the cell vectors -/
  S : M3 ℤ
  /-- the cells of the supercell -/
  cells : Fin N → V3 ℤ
  /-- the first cell -/
  c0 : Fin N
  /-- force constants between the first and the other cells -/
  fc : Fin N → Mat n ℝ

variable {n N N' : Nat}

/-- The dynamical matrix that is calculated from a description. -/
noncomputable def Description.dynMat (d : Description n N) (images : List (V3 ℤ)) (junk : Fin N → Mat n ℝ) (q : V3 ℝ) :
    Mat n ℂ := fcDynMat d.cv d.r d.cells d.c0 d.S images d.fc junk q

/-- The matrix that is diagonalised. -/
noncomputable def Description.weighted (d : Description n N) (images : List (V3 ℤ)) (junk : Fin N → Mat n ℝ) (q : V3 ℝ) :
    Mat n ℂ := DynMat.weighted (massWeighting d.mass) (d.dynMat images junk q) none none none

/-- The supercell is reduced, the first cell is the one at the origin. -/
structure Description.Ok (d : Description n N) (images : List (V3 ℤ)) : Prop where
  reduced : ReducedSupercell d.cv d.r d.cells d.c0 d.S images
  first : d.cells d.c0 = ⟨0, 0, 0⟩

/-- A matrix of integers as one of real numbers. -/
noncomputable def castM (A : M3 ℤ) : M3 ℝ := ⟨castV ℝ A.a, castV ℝ A.b, castV ℝ A.c⟩

/-- The vector `R v`. -/
noncomputable def rotV (R : Fin 3 → Fin 3 → ℝ) (v : V3 ℝ) : V3 ℝ :=
  ⟨∑ b, R 0 b * comp v b, ∑ b, R 1 b * comp v b, ∑ b, R 2 b * comp v b⟩

/-- The row of atom `i` and direction `a`. -/
def row (i : Fin n) (a : Fin 3) : Fin (n * 3) := finProdFinEquiv (i, a)

/-- What it takes to go from one description of a crystal to another: the lattice vector `v` becomes `v A`, atom `i` becomes
atom `p i` moved by the lattice vector `T i`, the origin is moved by `w`, everything is rotated by `R`; cell `c`, as seen
from atom `i` for atom `j`, becomes cell `s i j c`. -/
structure Change (n N N' : Nat) where
  A : M3 ℤ
  B : M3 ℤ
  p : Equiv.Perm (Fin n)
  T : Fin n → V3 ℤ
  w : V3 ℝ
  R : Fin 3 → Fin 3 → ℝ
  s : Fin n → Fin n → Fin N → Fin N'

/-- The second description is the first one after the change. -/
structure Change.Relates (h : Change n N N') (d : Description n N) (d' : Description n N') : Prop where
  /-- `A` has the inverse `B` -/
  left : ∀ v, mulMat (mulMat v h.A) h.B = v
  right : ∀ v, mulMat (mulMat v h.B) h.A = v
  /-- `R` is a rotation (proper or improper) -/
  ortho : ∀ a b, ∑ c, h.R c a * h.R c b = if a = b then 1 else 0
  /-- the lattice is the same -/
  vectors : ∀ x, toCart d'.cv (toCart (castM h.A) x) = rotV h.R (toCart d.cv x)
  /-- the atoms are the same -/
  positions : ∀ i, d'.r (h.p i) = add (add (toCart (castM h.A) (d.r i)) h.w) (castV ℝ (h.T i))
  masses : ∀ i, d'.mass (h.p i) = d.mass i
  /-- the supercell is the same -/
  super : ∀ v, InLattice d'.S (mulMat v h.A) ↔ InLattice d.S v
  /-- the cells are the same, up to supercell vectors -/
  bij : ∀ i j, Function.Bijective (h.s i j)
  cell : ∀ i j c, InLattice d'.S (sub (d'.cells (h.s i j c)) (add (mulMat (d.cells c) h.A) (sub (h.T i) (h.T j))))
  /-- the force constants are the same -/
  fcs : ∀ i j c a b, d'.fc (h.s i j c) (row (h.p i) a) (row (h.p j) b) =
    ∑ a', ∑ b', h.R a a' * h.R b b' * d.fc c (row i a') (row j b')

/-- The wavevector that is `q` in the second description, in the first one. -/
noncomputable def Change.back (h : Change n N N') (q : V3 ℝ) : V3 ℝ :=
  ⟨dot (castV ℝ h.A.a) q, dot (castV ℝ h.A.b) q, dot (castV ℝ h.A.c) q⟩

/-! ## The dynamical matrix without reference to the images that are searched -/

section
variable (d : Description n N)

/-- Atom `j` in the cell `L`, a copy of the one in cell `c`, is as near to atom `i` in the first cell as any other copy (up to
the tolerance of the code). -/
def Description.IsNearestCopy (c : Fin N) (i j : Fin n) (L : V3 ℤ) : Prop :=
  InLattice d.S (sub L (d.cells c)) ∧ ∀ v, InLattice d.S v →
    Images.sq (toCart d.cv (sub (sub (d.r i) (d.r j)) (castV ℝ L))) ≤
      Images.sq (sub (toCart d.cv (sub (sub (d.r i) (d.r j)) (castV ℝ L))) (toCart d.cv (castV ℝ v)))
        + 1 / 500 * Images.sq (toCart d.cv (castV ℝ v))

open Classical in
/-- The cells of the nearest copies. -/
noncomputable def Description.copies (images : List (V3 ℤ)) (c : Fin N) (i j : Fin n) : Finset (V3 ℤ) :=
  (imageSet d.cv d.r d.cells d.c0 d.S images c i j).image fun m => add (d.cells c) (mulMat m d.S)

theorem toCart_scVecs (S : M3 ℤ) (cv : M3 ℝ) (m : V3 ℤ) :
    toCart (scVecs S cv) (castV ℝ m) = toCart cv (castV ℝ (mulMat m S)) := by
  simp only [toCart, scVecs, castV, mulMat, V3.mk.injEq]
  push_cast
  refine ⟨?_, ?_, ?_⟩ <;> ring

theorem volume_scVecs (S : M3 ℤ) (cv : M3 ℝ) : cellVolume (scVecs S cv) = (det S : ℝ) * cellVolume cv := by
  simp only [cellVolume, dot, cross, scVecs, toCart, castV, det]
  push_cast
  ring

theorem mulMat_injective {S : M3 ℤ} (h : det S ≠ 0) {m m' : V3 ℤ} (he : mulMat m S = mulMat m' S) : m = m' := by
  have h1 := mulMat_mulAdj m S
  have h2 := mulMat_mulAdj m' S
  rw [he, h2, V3.mk.injEq] at h1
  obtain ⟨a, b, c⟩ := h1
  exact V3.ext' (mul_left_cancel₀ h a.symm) (mul_left_cancel₀ h b.symm) (mul_left_cancel₀ h c.symm)

theorem det_ne {images : List (V3 ℤ)} (hok : d.Ok images) : det d.S ≠ 0 := by
  intro h0
  have := hok.reduced.volume
  rw [volume_scVecs, h0] at this
  simp at this

theorem mem_copies {images : List (V3 ℤ)} (hok : d.Ok images) (c : Fin N) (i j : Fin n) (L : V3 ℤ) :
    L ∈ d.copies images c i j ↔ d.IsNearestCopy c i j L := by
  have hred := hok.reduced
  have hpv : ∀ m, pairVec d.cv d.S (d.cells d.c0) (d.cells c) (d.r i) (d.r j) m =
      toCart d.cv (sub (sub (d.r i) (d.r j)) (castV ℝ (add (d.cells c) (mulMat m d.S)))) := by
    intro m
    rw [hok.first]
    simp only [pairVec, toCart, sub, add, castV, V3.mk.injEq]
    push_cast
    refine ⟨?_, ?_, ?_⟩ <;> ring
  have hall : ∀ m, NearestOfAll (scVecs d.S d.cv) (pairVec d.cv d.S (d.cells d.c0) (d.cells c) (d.r i) (d.r j) m) ↔
      d.IsNearestCopy c i j (add (d.cells c) (mulMat m d.S)) := by
    intro m
    unfold NearestOfAll Description.IsNearestCopy
    rw [hpv]
    constructor
    · intro h
      refine ⟨⟨m, ?_⟩, ?_⟩
      · simp only [sub, add, mulMat, V3.mk.injEq]
        refine ⟨?_, ?_, ?_⟩ <;> ring
      · rintro v ⟨k, rfl⟩
        have := h k.x k.y k.z
        rw [show (⟨(k.x : ℝ), (k.y : ℝ), (k.z : ℝ)⟩ : V3 ℝ) = castV ℝ k from rfl, toCart_scVecs] at this
        exact this
    · rintro ⟨-, h⟩ a b c'
      have := h _ ⟨⟨a, b, c'⟩, rfl⟩
      rw [show (⟨(a : ℝ), (b : ℝ), (c' : ℝ)⟩ : V3 ℝ) = castV ℝ ⟨a, b, c'⟩ from rfl, toCart_scVecs]
      exact this
  unfold Description.copies
  simp only [Finset.mem_image, imageSet, Finset.mem_filter, List.mem_toFinset]
  constructor
  · rintro ⟨m, ⟨-, hm⟩, rfl⟩
    exact (hall m).1 ((nearestOfAll_iff hred.reduced hred.volume _).1 hm)
  · intro h
    obtain ⟨m, hm⟩ := h.1
    have hL : L = add (d.cells c) (mulMat m d.S) := by
      rw [← hm]
      simp only [sub, add]
      refine V3.ext' ?_ ?_ ?_ <;> simp
    rw [hL] at h
    have hn := (hall m).2 h
    obtain ⟨L', -, -, hall', -, -⟩ := C123_nearest_partial d.cv d.r d.cells d.c0 d.S images hred.shells hred.volume
      hred.reduced c i j (hred.within _ _ _)
    obtain ⟨m', -, he⟩ := (hall' m).1 hn
    exact ⟨m, ⟨List.mem_of_getElem? he, (nearestOfAll_iff hred.reduced hred.volume _).2 hn⟩, hL.symm⟩

/-- The dynamical matrix: each force constant is shared equally between the nearest copies. -/
theorem dynMat_copies {images : List (V3 ℤ)} (hok : d.Ok images) (junk : Fin N → Mat n ℝ) (q : V3 ℝ) (k l : Fin (n * 3)) :
    d.dynMat images junk q k l = ∑ c, (d.fc c k l : ℂ) / ((d.copies images c k.divNat l.divNat).card : ℂ) *
      ∑ L ∈ d.copies images c k.divNat l.divNat, expQR q L := by
  classical
  unfold Description.dynMat
  rw [C43_textbook d.cv d.r d.cells d.c0 d.S images (mem_shells hok.reduced.shells).1 hok.reduced.volume]
  unfold latticeSum Description.copies
  refine Finset.sum_congr rfl fun c _ => ?_
  have hinj : Function.Injective fun m => add (d.cells c) (mulMat m d.S) := by
    intro m m' h
    refine mulMat_injective (det_ne d hok) ?_
    simp only [add, V3.mk.injEq] at h
    exact V3.ext' (add_left_cancel h.1) (add_left_cancel h.2.1) (add_left_cancel h.2.2)
  rw [Finset.card_image_of_injective _ hinj, Finset.sum_image fun _ _ _ _ h => hinj h]

end

/-! ## The change of the dynamical matrix -/

section
variable {d : Description n N} {d' : Description n N'} {h : Change n N N'}

theorem row_div (i : Fin n) (a : Fin 3) : (row i a).divNat = i := divNat_pair i a

theorem row_mod (i : Fin n) (a : Fin 3) : (row i a).modNat = a := modNat_pair i a

theorem castV_mulMat (A : M3 ℤ) (v : V3 ℤ) : castV ℝ (mulMat v A) = toCart (castM A) (castV ℝ v) := by
  simp only [castV, mulMat, toCart, castM]
  push_cast
  rfl

theorem toCart_sub (cv : M3 ℝ) (u v : V3 ℝ) : toCart cv (sub u v) = sub (toCart cv u) (toCart cv v) := by
  simp only [toCart, sub, V3.mk.injEq]
  refine ⟨?_, ?_, ?_⟩ <;> ring

theorem comp0 (v : V3 ℝ) : comp v 0 = v.x := rfl

theorem comp1 (v : V3 ℝ) : comp v 1 = v.y := rfl

theorem comp2 (v : V3 ℝ) : comp v 2 = v.z := rfl

theorem rotV_sub (R : Fin 3 → Fin 3 → ℝ) (u v : V3 ℝ) : rotV R (sub u v) = sub (rotV R u) (rotV R v) := by
  simp only [rotV, sub, comp0, comp1, comp2, Fin.sum_univ_three, V3.mk.injEq]
  refine ⟨?_, ?_, ?_⟩ <;> ring

theorem dot_rotV {R : Fin 3 → Fin 3 → ℝ} (hR : ∀ a b, ∑ c, R c a * R c b = if a = b then 1 else 0) (u v : V3 ℝ) :
    dot (rotV R u) (rotV R v) = dot u v := by
  have h00 := hR 0 0
  have h01 := hR 0 1
  have h02 := hR 0 2
  have h11 := hR 1 1
  have h12 := hR 1 2
  have h22 := hR 2 2
  simp only [Fin.sum_univ_three, if_true, if_false, Fin.reduceEq] at h00 h01 h02 h11 h12 h22
  simp only [dot, rotV, Fin.sum_univ_three, comp0, comp1, comp2]
  linear_combination (u.x * v.x) * h00 + (u.x * v.y + u.y * v.x) * h01 + (u.x * v.z + u.z * v.x) * h02
    + (u.y * v.y) * h11 + (u.y * v.z + u.z * v.y) * h12 + (u.z * v.z) * h22

theorem sq_rotV {R : Fin 3 → Fin 3 → ℝ} (hR : ∀ a b, ∑ c, R c a * R c b = if a = b then 1 else 0) (v : V3 ℝ) :
    Images.sq (rotV R v) = Images.sq v := dot_rotV hR v v

theorem InLattice.congr {S : M3 ℤ} {u v : V3 ℤ} (huv : InLattice S (sub u v)) : InLattice S u ↔ InLattice S v := by
  constructor
  · intro hu
    have := hu.sub huv
    have he : sub u (sub u v) = v := by
      simp only [sub]
      exact V3.ext' (by ring) (by ring) (by ring)
    rwa [he] at this
  · intro hv
    have h0 : InLattice S (sub ⟨0, 0, 0⟩ v) := (InLattice.zero S).sub hv
    have := huv.sub h0
    have he : sub (sub u v) (sub ⟨0, 0, 0⟩ v) = u := by
      simp only [sub]
      exact V3.ext' (by ring) (by ring) (by ring)
    rwa [he] at this

/-- Where the cell `L`, as seen from atom `i` for atom `j`, is in the second description. -/
def Change.move (h : Change n N N') (i j : Fin n) (L : V3 ℤ) : V3 ℤ := add (mulMat L h.A) (sub (h.T i) (h.T j))

theorem Change.Relates.move_injective (hr : h.Relates d d') (i j : Fin n) : Function.Injective (h.move i j) := by
  intro L L' he
  unfold Change.move at he
  simp only [add, V3.mk.injEq] at he
  have : mulMat L h.A = mulMat L' h.A :=
    V3.ext' (add_right_cancel he.1) (add_right_cancel he.2.1) (add_right_cancel he.2.2)
  rw [← hr.left L, this, hr.left]

theorem Change.Relates.nearest_iff (hr : h.Relates d d') (c : Fin N) (i j : Fin n) (L : V3 ℤ) :
    d'.IsNearestCopy (h.s i j c) (h.p i) (h.p j) (h.move i j L) ↔ d.IsNearestCopy c i j L := by
  unfold Description.IsNearestCopy
  have h1 : sub (sub (d'.r (h.p i)) (d'.r (h.p j))) (castV ℝ (h.move i j L)) =
      toCart (castM h.A) (sub (sub (d.r i) (d.r j)) (castV ℝ L)) := by
    rw [hr.positions, hr.positions, Change.move, toCart_sub, toCart_sub, ← castV_mulMat]
    simp only [sub, add, castV, V3.mk.injEq]
    push_cast
    refine ⟨?_, ?_, ?_⟩ <;> ring
  have h2 : InLattice d'.S (sub (h.move i j L) (d'.cells (h.s i j c))) ↔ InLattice d.S (sub L (d.cells c)) := by
    rw [← hr.super]
    refine InLattice.congr ?_
    have h3 := (InLattice.zero d'.S).sub (hr.cell i j c)
    have he : sub (sub (h.move i j L) (d'.cells (h.s i j c))) (mulMat (sub L (d.cells c)) h.A) =
        sub ⟨0, 0, 0⟩ (sub (d'.cells (h.s i j c)) (add (mulMat (d.cells c) h.A) (sub (h.T i) (h.T j)))) := by
      simp only [Change.move, sub, add, mulMat, V3.mk.injEq]
      refine ⟨?_, ?_, ?_⟩ <;> ring
    rwa [he]
  rw [h1, h2, hr.vectors, sq_rotV hr.ortho]
  refine and_congr_right fun _ => ⟨fun hn v hv => ?_, fun hn v hv => ?_⟩
  · have := hn _ ((hr.super v).2 hv)
    rwa [castV_mulMat, hr.vectors, ← rotV_sub, sq_rotV hr.ortho, sq_rotV hr.ortho] at this
  · have hv' : v = mulMat (mulMat v h.B) h.A := (hr.right v).symm
    rw [hv'] at hv ⊢
    have := hn _ ((hr.super _).1 hv)
    rwa [castV_mulMat, hr.vectors, ← rotV_sub, sq_rotV hr.ortho, sq_rotV hr.ortho]

theorem Change.Relates.copies_eq (hr : h.Relates d d') {images images' : List (V3 ℤ)} (hok : d.Ok images)
    (hok' : d'.Ok images') (c : Fin N) (i j : Fin n) :
    d'.copies images' (h.s i j c) (h.p i) (h.p j) =
      (d.copies images c i j).map ⟨h.move i j, hr.move_injective i j⟩ := by
  ext L
  rw [Finset.mem_map, mem_copies d' hok']
  constructor
  · intro hL
    have he : h.move i j (mulMat (sub L (sub (h.T i) (h.T j))) h.B) = L := by
      unfold Change.move
      rw [hr.right]
      simp only [add, sub]
      exact V3.ext' (by ring) (by ring) (by ring)
    rw [← he] at hL
    exact ⟨_, (mem_copies d hok ..).2 ((hr.nearest_iff c i j _).1 hL), he⟩
  · rintro ⟨M, hM, rfl⟩
    exact (hr.nearest_iff c i j M).2 ((mem_copies d hok ..).1 hM)

theorem Change.expQR_mulMat (h : Change n N N') (q : V3 ℝ) (L : V3 ℤ) :
    expQR q (mulMat L h.A) = expQR (h.back q) L := by
  unfold expQR
  have : q.x * (mulMat L h.A).x + q.y * (mulMat L h.A).y + q.z * (mulMat L h.A).z =
      (h.back q).x * L.x + (h.back q).y * L.y + (h.back q).z * L.z := by
    simp only [mulMat, Change.back, dot, castV]
    push_cast
    ring
  rw [this]

theorem Change.expQR_move (h : Change n N N') (q : V3 ℝ) (i j : Fin n) (L : V3 ℤ) :
    expQR q (h.move i j L) = expQR q (h.T i) * star (expQR q (h.T j)) * expQR (h.back q) L := by
  unfold Change.move
  have : sub (h.T i) (h.T j) = add (h.T i) (DynMat.neg (h.T j)) := by
    simp only [sub, add, DynMat.neg, sub_eq_add_neg]
  rw [expQR_add, this, expQR_add, expQR_neg', h.expQR_mulMat]
  ring

/-- The dynamical matrix of the second description is that of the first one, rotated, with a phase for the atoms that are in
other cells. -/
theorem Change.Relates.dynMat_eq (hr : h.Relates d d') {images images' : List (V3 ℤ)} (hok : d.Ok images)
    (hok' : d'.Ok images') (junk : Fin N → Mat n ℝ) (junk' : Fin N' → Mat n ℝ) (q : V3 ℝ) (i j : Fin n) (a b : Fin 3) :
    d'.dynMat images' junk' q (row (h.p i) a) (row (h.p j) b) =
      ∑ a', ∑ b', expQR q (h.T i) * h.R a a' * d.dynMat images junk (h.back q) (row i a') (row j b') *
        star (expQR q (h.T j) * h.R b b') := by
  rw [dynMat_copies d' hok']
  simp only [dynMat_copies d hok, row_div]
  rw [← (hr.bij i j).sum_comp]
  simp only [hr.copies_eq hok hok', Finset.card_map, Finset.sum_map, Function.Embedding.coeFn_mk, h.expQR_move, hr.fcs]
  simp only [← Finset.mul_sum]
  simp only [Finset.mul_sum (s := Finset.univ (α := Fin N)), Finset.sum_mul (s := Finset.univ (α := Fin N))]
  have hcomm : ∀ f : Fin 3 → Fin 3 → Fin N → ℂ, ∑ a', ∑ b', ∑ c, f a' b' c = ∑ c, ∑ a', ∑ b', f a' b' c := by
    intro f
    rw [Finset.sum_comm]
    rw [Finset.sum_congr rfl fun b' _ => Finset.sum_comm, Finset.sum_comm]
    refine Finset.sum_congr rfl fun c _ => Finset.sum_comm
  rw [hcomm]
  refine Finset.sum_congr rfl fun c _ => ?_
  push_cast
  rw [Finset.sum_div, Finset.sum_mul]
  refine Finset.sum_congr rfl fun a' _ => ?_
  rw [Finset.sum_div, Finset.sum_mul]
  refine Finset.sum_congr rfl fun b' _ => ?_
  rw [star_mul, Complex.star_def, Complex.conj_ofReal]
  ring

/-! ## Frequencies -/

/-- The second matrix is the first one after the change. -/
def Change.Carries (h : Change n N N') (q : V3 ℝ) (M M' : Mat n ℂ) : Prop :=
  ∀ i j a b, M' (row (h.p i) a) (row (h.p j) b) = ∑ a', ∑ b', expQR q (h.T i) * h.R a a' * M (row i a') (row j b') *
    star (expQR q (h.T j) * h.R b b')

/-- The second vector is the first one after the change. -/
def Change.CarriesV (h : Change n N N') (q : V3 ℝ) (e e' : Fin (n * 3) → ℂ) : Prop :=
  ∀ i a, e' (row (h.p i) a) = ∑ a', expQR q (h.T i) * h.R a a' * e (row i a')

/-- The change as a matrix. -/
noncomputable def Change.U (h : Change n N N') (q : V3 ℝ) : Matrix (Fin (n * 3)) (Fin (n * 3)) ℂ :=
  Matrix.of fun k l => if k.divNat = h.p l.divNat then expQR q (h.T l.divNat) * h.R k.modNat l.modNat else 0

theorem sum_rows {M : Type} [AddCommMonoid M] (f : Fin (n * 3) → M) : ∑ k, f k = ∑ i, ∑ a, f (row i a) := sum_split f

theorem sum_rows' {M : Type} [AddCommMonoid M] (p : Equiv.Perm (Fin n)) (f : Fin (n * 3) → M) :
    ∑ k, f k = ∑ i, ∑ a, f (row (p i) a) := by
  rw [sum_rows]
  exact (Equiv.sum_comp p fun i => ∑ a, f (row i a)).symm

theorem exists_row (p : Equiv.Perm (Fin n)) (k : Fin (n * 3)) : ∃ i a, k = row (p i) a := by
  refine ⟨p.symm (finProdFinEquiv.symm k).1, (finProdFinEquiv.symm k).2, ?_⟩
  unfold row
  rw [Equiv.apply_symm_apply, Prod.mk.eta, Equiv.apply_symm_apply]

theorem exists_row_id (k : Fin (n * 3)) : ∃ i a, k = row i a := exists_row (Equiv.refl _) k

theorem Change.U_apply (h : Change n N N') (q : V3 ℝ) (i j : Fin n) (a b : Fin 3) :
    h.U q (row (h.p i) a) (row j b) = if i = j then expQR q (h.T j) * h.R a b else 0 := by
  unfold Change.U
  rw [Matrix.of_apply, row_div, row_div, row_mod, row_mod]
  simp only [EmbeddingLike.apply_eq_iff_eq]

theorem Change.Relates.unitary (hr : h.Relates d d') (q : V3 ℝ) : (h.U q).conjTranspose * h.U q = 1 := by
  ext k l
  obtain ⟨i, a, rfl⟩ := exists_row_id k
  obtain ⟨j, b, rfl⟩ := exists_row_id l
  rw [Matrix.mul_apply, sum_rows' h.p]
  simp only [Matrix.conjTranspose_apply, h.U_apply, Matrix.one_apply]
  have hrow : row i a = row j b ↔ i = j ∧ a = b := by
    constructor
    · intro e
      exact ⟨by rw [← row_div i a, e, row_div], by rw [← row_mod i a, e, row_mod]⟩
    · rintro ⟨rfl, rfl⟩
      rfl
  by_cases hij : i = j
  · subst hij
    rw [Finset.sum_eq_single i]
    · simp only [if_true]
      have h1 : ∀ c, star (expQR q (h.T i) * (h.R c a : ℂ)) * (expQR q (h.T i) * h.R c b) =
          star (expQR q (h.T i)) * expQR q (h.T i) * ((h.R c a * h.R c b : ℝ) : ℂ) := by
        intro c
        rw [star_mul', Complex.star_def, Complex.conj_ofReal]
        push_cast
        ring
      simp only [h1]
      rw [← Finset.mul_sum, ← Complex.ofReal_sum, hr.ortho, norm_expQR]
      by_cases hab : a = b
      · simp [hab]
      · simp [hab, hrow]
    · intro c _ hc
      simp [hc]
    · simp
  · rw [if_neg (fun e => hij (hrow.1 e).1)]
    refine Finset.sum_eq_zero fun c _ => Finset.sum_eq_zero fun x _ => ?_
    by_cases hc : c = i
    · subst hc
      simp [hij]
    · simp [hc]

theorem Change.Relates.unitary' (hr : h.Relates d d') (q : V3 ℝ) : h.U q * (h.U q).conjTranspose = 1 :=
  mul_eq_one_comm.1 (hr.unitary q)

theorem Change.carries_iff (h : Change n N N') (q : V3 ℝ) (M M' : Mat n ℂ) :
    h.Carries q M M' ↔ Matrix.of M' = h.U q * Matrix.of M * (h.U q).conjTranspose := by
  have key : ∀ i j a b, (h.U q * Matrix.of M * (h.U q).conjTranspose) (row (h.p i) a) (row (h.p j) b) =
      ∑ a', ∑ b', expQR q (h.T i) * h.R a a' * M (row i a') (row j b') * star (expQR q (h.T j) * h.R b b') := by
    intro i j a b
    rw [Matrix.mul_apply, sum_rows]
    simp only [Matrix.conjTranspose_apply, h.U_apply, apply_ite star, star_zero, mul_ite, mul_zero]
    rw [Finset.sum_eq_single j]
    · simp only [if_true]
      rw [Finset.sum_comm]
      refine Finset.sum_congr rfl fun b' _ => ?_
      rw [Matrix.mul_apply, sum_rows, Finset.sum_eq_single i, Finset.sum_mul]
      · simp only [h.U_apply, if_true, Matrix.of_apply]
      · intro c _ hc
        simp [h.U_apply, Ne.symm hc]
      · simp
    · intro c _ hc
      simp [Ne.symm hc]
    · simp
  constructor
  · intro hc
    ext k l
    obtain ⟨i, a, rfl⟩ := exists_row h.p k
    obtain ⟨j, b, rfl⟩ := exists_row h.p l
    rw [key]
    exact hc i j a b
  · intro hM i j a b
    rw [← key, ← hM]
    rfl

theorem Change.carriesV_iff (h : Change n N N') (q : V3 ℝ) (e e' : Fin (n * 3) → ℂ) :
    h.CarriesV q e e' ↔ e' = (h.U q).mulVec e := by
  have key : ∀ i a, (h.U q).mulVec e (row (h.p i) a) = ∑ a', expQR q (h.T i) * h.R a a' * e (row i a') := by
    intro i a
    rw [Matrix.mulVec, dotProduct, sum_rows, Finset.sum_eq_single i]
    · simp only [h.U_apply, if_true]
    · intro c _ hc
      simp [h.U_apply, Ne.symm hc]
    · simp
  constructor
  · intro hc
    ext k
    obtain ⟨i, a, rfl⟩ := exists_row h.p k
    rw [key]
    exact hc i a
  · intro hM i a
    rw [← key, ← hM]

theorem Change.Carries.add {q : V3 ℝ} {M M' X X' : Mat n ℂ} (hM : h.Carries q M M') (hX : h.Carries q X X') :
    h.Carries q (M + X) (M' + X') := by
  intro i j a b
  rw [Pi.add_apply, Pi.add_apply, hM, hX, ← Finset.sum_add_distrib]
  refine Finset.sum_congr rfl fun a' _ => ?_
  rw [← Finset.sum_add_distrib]
  refine Finset.sum_congr rfl fun b' _ => ?_
  rw [Pi.add_apply, Pi.add_apply]
  ring

/-- Corrections are absent from both descriptions, or carried from one to the other. -/
def Change.CarriesOpt (h : Change n N N') (q : V3 ℝ) : Option (Mat n ℂ) → Option (Mat n ℂ) → Prop
  | none, none => True
  | some X, some X' => h.Carries q X X'
  | _, _ => False

/-- A matrix with an optional correction. -/
def addOpt (M : Mat n ℂ) : Option (Mat n ℂ) → Mat n ℂ
  | some m => M + m
  | none => M

theorem weighted_addOpt (w : Mat n ℝ) (M : Mat n ℂ) (dip asr loto : Option (Mat n ℂ)) (k l : Fin (n * 3)) :
    DynMat.weighted w M dip asr loto k l = addOpt (addOpt (addOpt M dip) asr) loto k l * w k l := by
  cases dip <;> cases asr <;> cases loto <;> rfl

theorem Change.Relates.weighted (hr : h.Relates d d') {q : V3 ℝ} {M M' : Mat n ℂ} (hM : h.Carries q M M')
    {dip asr loto dip' asr' loto' : Option (Mat n ℂ)} (h1 : h.CarriesOpt q dip dip') (h2 : h.CarriesOpt q asr asr')
    (h3 : h.CarriesOpt q loto loto') :
    h.Carries q (DynMat.weighted (massWeighting d.mass) M dip asr loto)
      (DynMat.weighted (massWeighting d'.mass) M' dip' asr' loto') := by
  have hopt : ∀ {M M' : Mat n ℂ} {x x' : Option (Mat n ℂ)}, h.Carries q M M' → h.CarriesOpt q x x' →
      h.Carries q (addOpt M x) (addOpt M' x') := by
    intro M M' x x' hM hx
    cases x <;> cases x'
    · exact hM
    · exact hx.elim
    · exact hx.elim
    · exact hM.add hx
  have hall := hopt (hopt (hopt hM h1) h2) h3
  intro i j a b
  simp only [weighted_addOpt]
  rw [hall, Finset.sum_mul]
  refine Finset.sum_congr rfl fun a' _ => ?_
  rw [Finset.sum_mul]
  refine Finset.sum_congr rfl fun b' _ => ?_
  have hw : massWeighting d'.mass (row (h.p i) a) (row (h.p j) b) = massWeighting d.mass (row i a') (row j b') := by
    simp only [massWeighting, row_div, hr.masses]
  rw [hw]
  ring

theorem Change.Relates.hermitian {q : V3 ℝ} {M M' : Mat n ℂ} (hM : h.Carries q M M')
    (hh : ∀ k l, M l k = star (M k l)) (k l : Fin (n * 3)) : M' l k = star (M' k l) := by
  obtain ⟨i, a, rfl⟩ := exists_row h.p k
  obtain ⟨j, b, rfl⟩ := exists_row h.p l
  rw [hM, hM, star_sum, Finset.sum_comm]
  refine Finset.sum_congr rfl fun a' _ => ?_
  rw [star_sum]
  refine Finset.sum_congr rfl fun b' _ => ?_
  rw [hh (row i a') (row j b')]
  simp only [star_mul', star_star]
  ring

theorem Change.Relates.charpoly (hr : h.Relates d d') {q : V3 ℝ} {M M' : Mat n ℂ} (hM : h.Carries q M M') :
    (Matrix.of M').charpoly = (Matrix.of M).charpoly := by
  rw [(h.carries_iff q M M').1 hM, mul_assoc, Matrix.charpoly_mul_comm, mul_assoc, hr.unitary, mul_one]

open scoped Matrix in
/-- Two eigensolvers find the same eigenvalues. -/
theorem eigh_unique {m : Nat} {eigh eigh' : (Fin m → Fin m → ℂ) → (Fin m → ℝ) × (Fin m → Fin m → ℂ)} (he : IsEigh eigh)
    (he' : IsEigh eigh') (A : Fin m → Fin m → ℂ) (hA : ∀ k l, A l k = star (A k l)) : (eigh A).1 = (eigh' A).1 := by
  have h := (he.charpoly A hA).symm.trans (he'.charpoly A hA)
  have hr := congrArg Polynomial.roots h
  rw [Polynomial.roots_prod _ _ (by simp [Finset.prod_ne_zero_iff, Polynomial.X_sub_C_ne_zero]),
    Polynomial.roots_prod _ _ (by simp [Finset.prod_ne_zero_iff, Polynomial.X_sub_C_ne_zero])] at hr
  simp only [Polynomial.roots_X_sub_C, Multiset.bind_singleton] at hr
  have hr' := congrArg (Multiset.map Complex.re) hr
  rw [Multiset.map_map, Multiset.map_map] at hr'
  simp only [Function.comp_def, Complex.ofReal_re, Fin.univ_val_map] at hr'
  exact List.ofFn_injective (List.Perm.eq_of_sortedLE (he.mono A hA).sortedLE_ofFn (he'.mono A hA).sortedLE_ofFn
    (Multiset.coe_eq_coe.1 hr'))

/-- The dynamical matrices of the two descriptions. -/
theorem Change.Relates.carries (hr : h.Relates d d') {images images' : List (V3 ℤ)} (hok : d.Ok images)
    (hok' : d'.Ok images') (junk : Fin N → Mat n ℝ) (junk' : Fin N' → Mat n ℝ) (q : V3 ℝ) :
    h.Carries q (d.dynMat images junk (h.back q)) (d'.dynMat images' junk' q) :=
  fun i j a b => hr.dynMat_eq hok hok' junk junk' q i j a b

theorem Change.Relates.evals (hr : h.Relates d d') {q : V3 ℝ} {M M' : Mat n ℂ} (hM : h.Carries q M M')
    (hh : ∀ k l, M l k = star (M k l)) {eigh eigh' : Mat n ℂ → (Fin (n * 3) → ℝ) × Mat n ℂ} (he : IsEigh eigh)
    (he' : IsEigh eigh') : (eigh' M').1 = (eigh M).1 := by
  have h1 := he.evals_eq M' M (Change.Relates.hermitian hM hh) hh (hr.charpoly hM)
  rw [← h1]
  exact eigh_unique he' he M' (Change.Relates.hermitian hM hh)

/-! ## Functions of the frequencies -/

/-- `Σ_s g(λ_s) e_s e_s†`: what a sum over modes weighted by a function of the eigenvalue depends on. -/
noncomputable def spectral (r : (Fin (n * 3) → ℝ) × Mat n ℂ) (g : ℝ → ℝ) : Mat n ℂ :=
  fun k l => ∑ s, (g (r.1 s) : ℂ) * (r.2 s k * star (r.2 s l))

theorem Change.Relates.spectral (hr : h.Relates d d') {q : V3 ℝ} {M M' : Mat n ℂ} (hM : h.Carries q M M')
    (hh : ∀ k l, M l k = star (M k l)) {eigh eigh' : Mat n ℂ → (Fin (n * 3) → ℝ) × Mat n ℂ} (he : IsEigh eigh)
    (he' : IsEigh eigh') (g : ℝ → ℝ) : h.Carries q (spectral (eigh M) g) (spectral (eigh' M') g) := by
  have hh' := Change.Relates.hermitian hM hh
  have hev := hr.evals hM hh he he'
  rw [h.carries_iff]
  set E : Matrix (Fin (n * 3)) (Fin (n * 3)) ℂ := Matrix.of fun k s => (eigh M).2 s k with hE
  set E' : Matrix (Fin (n * 3)) (Fin (n * 3)) ℂ := Matrix.of fun k s => (eigh' M').2 s k with hE'
  set D : Matrix (Fin (n * 3)) (Fin (n * 3)) ℂ := Matrix.diagonal fun s => ((eigh M).1 s : ℂ) with hD
  set G : Matrix (Fin (n * 3)) (Fin (n * 3)) ℂ := Matrix.diagonal fun s => (g ((eigh M).1 s) : ℂ) with hG
  set V := h.U q * E with hV
  have o : E.conjTranspose * E = 1 := by
    ext s s'
    rw [Matrix.mul_apply, Matrix.one_apply]
    exact he.ortho M hh s s'
  have o' : E'.conjTranspose * E' = 1 := by
    ext s s'
    rw [Matrix.mul_apply, Matrix.one_apply]
    exact he'.ortho M' hh' s s'
  have oV : V.conjTranspose * V = 1 := by
    rw [hV, Matrix.conjTranspose_mul, mul_assoc, ← mul_assoc _ (h.U q) E, hr.unitary, one_mul, o]
  have oV' : V * V.conjTranspose = 1 := mul_eq_one_comm.1 oV
  have e : Matrix.of M * E = E * D := by
    ext k s
    rw [Matrix.mul_apply, hD, Matrix.mul_diagonal]
    refine (he.eigen M hh s k).trans ?_
    rw [hE, Matrix.of_apply, mul_comm]
  have e' : Matrix.of M' * E' = E' * D := by
    ext k s
    rw [Matrix.mul_apply, hD, Matrix.mul_diagonal, ← hev]
    refine (he'.eigen M' hh' s k).trans ?_
    rw [hE', Matrix.of_apply, mul_comm]
  have eV : Matrix.of M' * V = V * D := by
    rw [(h.carries_iff q M M').1 hM, hV, mul_assoc _ _ (h.U q * E), ← mul_assoc _ (h.U q) E, hr.unitary, one_mul, mul_assoc, e,
      mul_assoc]
  have herm : (Matrix.of M').conjTranspose = Matrix.of M' := by
    ext k l
    rw [Matrix.conjTranspose_apply]
    exact (hh' l k).symm
  have hDh : D.conjTranspose = D := by
    rw [hD, Matrix.diagonal_conjTranspose]
    congr 1
    ext s
    simp
  set C := V.conjTranspose * E' with hC
  have hcomm : D * C = C * D := by
    have h1 : V.conjTranspose * Matrix.of M' = D * V.conjTranspose := by
      have := congrArg Matrix.conjTranspose eV
      rwa [Matrix.conjTranspose_mul (Matrix.of M') V, Matrix.conjTranspose_mul V D, herm, hDh] at this
    rw [hC, ← mul_assoc, ← h1, mul_assoc, e', mul_assoc]
  have hcommG : G * C = C * G := by
    ext s t
    have := congrFun (congrFun hcomm s) t
    rw [hD, Matrix.diagonal_mul, Matrix.mul_diagonal] at this
    rw [hG, Matrix.diagonal_mul, Matrix.mul_diagonal]
    by_cases hst : (eigh M).1 s = (eigh M).1 t
    · rw [hst, mul_comm]
    · have h0 : (((eigh M).1 s : ℂ) - (eigh M).1 t) * C s t = 0 := by
        rw [sub_mul, this]
        ring
      rcases mul_eq_zero.1 h0 with h1 | h1
      · exact absurd (by exact_mod_cast sub_eq_zero.1 h1) hst
      · rw [h1, mul_zero, zero_mul]
  have hE'V : E' = V * C := by rw [hC, ← mul_assoc, oV', one_mul]
  have hCC : C * C.conjTranspose = 1 := by
    refine mul_eq_one_comm.1 ?_
    rw [hC, Matrix.conjTranspose_mul, Matrix.conjTranspose_conjTranspose, mul_assoc, ← mul_assoc V, oV', one_mul, o']
  have hsp : Matrix.of (Describe.spectral (eigh M) g) = E * G * E.conjTranspose := by
    ext k l
    rw [Matrix.mul_apply]
    simp only [hG, Matrix.mul_diagonal, hE, Matrix.of_apply, Matrix.conjTranspose_apply]
    refine Finset.sum_congr rfl fun s _ => ?_
    ring
  have hsp' : Matrix.of (Describe.spectral (eigh' M') g) = E' * G * E'.conjTranspose := by
    ext k l
    rw [Matrix.mul_apply]
    simp only [hG, Matrix.mul_diagonal, hE', Matrix.of_apply, Matrix.conjTranspose_apply]
    unfold Describe.spectral
    rw [hev]
    refine Finset.sum_congr rfl fun s _ => ?_
    ring
  rw [hsp, hsp', hE'V, mul_assoc V, ← hcommG, Matrix.conjTranspose_mul, ← mul_assoc V, mul_assoc (V * G), ← mul_assoc C, hCC,
    one_mul, hV, Matrix.conjTranspose_mul]
  simp only [mul_assoc]

theorem Description.hermitian (d : Description n N) {images : List (V3 ℤ)} (hok : d.Ok images) {op : Fin N → Fin N}
    {t : Fin N → V3 ℤ} (hs : Symmetric d.cells d.S d.fc op t) (junk : Fin N → Mat n ℝ) (q : V3 ℝ) (k l : Fin (n * 3)) :
    d.weighted images junk q l k = star (d.weighted images junk q k l) := by
  have h1 := C123_hermitian_partial d.cv d.r d.cells d.c0 d.S images hok.reduced.shells hok.reduced.volume hok.reduced.reduced
    hok.reduced.within hs hok.first junk q k l
  unfold Description.weighted Description.dynMat
  simp only [DynMat.weighted]
  rw [h1, star_mul', Complex.star_def, Complex.conj_ofReal]
  have : massWeighting d.mass l k = massWeighting d.mass k l := by
    unfold massWeighting
    rw [mul_comm]
  rw [this]

theorem Change.Relates.carries_weighted (hr : h.Relates d d') {images images' : List (V3 ℤ)} (hok : d.Ok images)
    (hok' : d'.Ok images') (junk : Fin N → Mat n ℝ) (junk' : Fin N' → Mat n ℝ) (q : V3 ℝ) :
    h.Carries q (d.weighted images junk (h.back q)) (d'.weighted images' junk' q) :=
  hr.weighted (hr.carries hok hok' junk junk' q) (dip := none) (dip' := none) (asr := none) (asr' := none)
    (loto := none) (loto' := none) trivial trivial trivial

/-- **C131** (partial: supercells are reduced, corrections are not covered) Frequencies do not depend on how the crystal is
described: on the orientation, the origin, the order of the atoms, the cells they are in, the choice of cell vectors and of
supercell vectors, the order of the cells of the supercell and the cells that represent them, nor on the eigensolver. -/
theorem C131_frequencies_partial (hr : h.Relates d d') {images images' : List (V3 ℤ)} (hok : d.Ok images)
    (hok' : d'.Ok images') {op : Fin N → Fin N} {t : Fin N → V3 ℤ} (hs : Symmetric d.cells d.S d.fc op t)
    (junk : Fin N → Mat n ℝ) (junk' : Fin N' → Mat n ℝ) (q : V3 ℝ)
    {eigh eigh' : Mat n ℂ → (Fin (n * 3) → ℝ) × Mat n ℂ} (he : IsEigh eigh) (he' : IsEigh eigh') (s : Fin (n * 3)) :
    freqOf ((eigh' (d'.weighted images' junk' q)).1 s) = freqOf ((eigh (d.weighted images junk (h.back q))).1 s) := by
  rw [hr.evals (hr.carries_weighted hok hok' junk junk' q) (d.hermitian hok hs junk _) he he']

/-- **C131** (partial: as above) Eigenvectors of the first description become eigenvectors of the second one. -/
theorem C131_eigenvectors_partial (hr : h.Relates d d') {images images' : List (V3 ℤ)} (hok : d.Ok images)
    (hok' : d'.Ok images') (junk : Fin N → Mat n ℝ) (junk' : Fin N' → Mat n ℝ) (q : V3 ℝ) {e e' : Fin (n * 3) → ℂ}
    (hc : h.CarriesV q e e') {v : ℂ} (he : ∀ k, ∑ l, d.weighted images junk (h.back q) k l * e l = v * e k)
    (k : Fin (n * 3)) : ∑ l, d'.weighted images' junk' q k l * e' l = v * e' k := by
  have h1 := (h.carries_iff q _ _).1 (hr.carries_weighted hok hok' junk junk' q)
  have h2 := (h.carriesV_iff q e e').1 hc
  have h3 : (Matrix.of (d.weighted images junk (h.back q))).mulVec e = v • e := by
    ext k
    exact he k
  have h4 : (Matrix.of (d'.weighted images' junk' q)).mulVec e' = v • e' := by
    rw [h1, h2, ← Matrix.mulVec_mulVec, Matrix.mulVec_mulVec _ (h.U q).conjTranspose, hr.unitary, Matrix.one_mulVec,
      ← Matrix.mulVec_mulVec, h3, Matrix.mulVec_smul]
  exact congrFun h4 k

/-- **C132** (partial: supercells are reduced, corrections are not covered) For an operation that leaves the crystal and its
force constants as they are, the frequencies at a wavevector and at the one it is moved to are equal. -/
theorem C132_equivalent_partial {h : Change n N N} (hr : h.Relates d d) {images : List (V3 ℤ)} (hok : d.Ok images)
    {op : Fin N → Fin N} {t : Fin N → V3 ℤ} (hs : Symmetric d.cells d.S d.fc op t) (junk : Fin N → Mat n ℝ) (q : V3 ℝ)
    {eigh : Mat n ℂ → (Fin (n * 3) → ℝ) × Mat n ℂ} (he : IsEigh eigh) (s : Fin (n * 3)) :
    freqOf ((eigh (d.weighted images junk q)).1 s) = freqOf ((eigh (d.weighted images junk (h.back q))).1 s) :=
  C131_frequencies_partial hr hok hok hs junk junk q he he s

end

/-! ## An example -/

namespace Ex

/-- Strength of the springs in the three directions. -/
def K : Fin 3 → ℝ := ![3, 1, 1]

/-- A chain of two kinds of atoms along x, in a cubic cell; a supercell of two cells. -/
noncomputable def d : Description 2 2 where
  cv := DynMat.Ex.cv
  r := ![⟨0, 0, 0⟩, ⟨1 / 2, 0, 0⟩]
  mass := ![1, 3]
  S := DynMat.Ex.S
  cells := DynMat.Ex.cells
  c0 := 0
  fc := fun c k l => if k.modNat = l.modNat then K k.modNat * (if k.divNat = l.divNat then ![4, -1] c else ![-2, -1] c) else 0

/-- The same chain along y, with the atoms in the other order, one of them in another cell, another origin, other supercell
vectors, the cells in another order. -/
noncomputable def d' : Description 2 2 where
  cv := DynMat.Ex.cv
  r := ![⟨1 / 10, -1 / 2, 0⟩, ⟨1 / 10, 0, 0⟩]
  mass := ![3, 1]
  S := ⟨⟨0, -2, 0⟩, ⟨1, 0, 0⟩, ⟨0, 0, 1⟩⟩
  cells := ![⟨0, -1, 0⟩, ⟨0, 0, 0⟩]
  c0 := 1
  fc := fun c k l => if k.modNat = l.modNat then
    ![1, 3, 1] k.modNat * (if k.divNat = l.divNat then ![-1, 4] c else ![-2, -1] c) else 0

/-- From one to the other. -/
noncomputable def change : Change 2 2 2 where
  A := ⟨⟨0, 1, 0⟩, ⟨0, 0, 1⟩, ⟨1, 0, 0⟩⟩
  B := ⟨⟨0, 0, 1⟩, ⟨1, 0, 0⟩, ⟨0, 1, 0⟩⟩
  p := Equiv.swap 0 1
  T := ![⟨0, 0, 0⟩, ⟨0, -1, 0⟩]
  w := ⟨1 / 10, 0, 0⟩
  R := fun a b => if b = ![2, 0, 1] a then 1 else 0
  s := fun i j c => if i = j then 1 - c else c

theorem relates : change.Relates d d' where
  left := fun v => by simp [mulMat, change]
  right := fun v => by simp [mulMat, change]
  ortho := fun a b => by fin_cases a <;> fin_cases b <;> simp [change, Fin.sum_univ_three]
  vectors := fun x => by
    simp [toCart, d, d', DynMat.Ex.cv, castM, castV, change, rotV, Fin.sum_univ_three, comp0, comp1, comp2]
  positions := fun i => by
    fin_cases i <;> norm_num [change, d, d', toCart, castM, castV, add]
  masses := fun i => by fin_cases i <;> simp [change, d, d']
  super := fun v => by
    constructor
    · rintro ⟨m, hm⟩
      refine ⟨⟨-m.x, m.z, m.y⟩, ?_⟩
      simp [mulMat, change, d, d', DynMat.Ex.S, V3.mk.injEq] at hm ⊢
      obtain ⟨h1, h2, h3⟩ := hm
      exact V3.ext' (by simp; omega) (by simp; omega) (by simp; omega)
    · rintro ⟨m, hm⟩
      refine ⟨⟨-m.x, m.z, m.y⟩, ?_⟩
      rw [hm]
      simp [mulMat, change, d, d', DynMat.Ex.S]
  bij := fun i j => by
    rw [Finite.injective_iff_bijective.symm]
    intro c c' hc
    fin_cases i <;> fin_cases j <;> simpa [change] using hc
  cell := fun i j c => by
    refine ⟨⟨?_, 0, 0⟩, ?_⟩
    · exact if i = j then (if c = 0 then 0 else 1) else if i = 0 then (if c = 0 then 1 else 1) else 0
    · fin_cases i <;> fin_cases j <;> fin_cases c <;> simp [mulMat, sub, add, change, d, d', DynMat.Ex.cells]
  fcs := fun i j c a b => by
    simp only [d, d', row_div, row_mod, change, Fin.sum_univ_three]
    fin_cases a <;> fin_cases b <;> fin_cases i <;> fin_cases j <;> fin_cases c <;> simp [K]

theorem reduced' : IsReduced (scVecs d'.S d'.cv) := by
  have e : ∀ a b c : ℝ, Images.sq (toCart (scVecs d'.S d'.cv) ⟨a, b, c⟩) = 4 * a ^ 2 + b ^ 2 + c ^ 2 := by
    intro a b c
    simp [Images.sq, dot, toCart, scVecs, d', DynMat.Ex.cv, castV]
    ring
  have ea : Images.sq (scVecs d'.S d'.cv).a = 4 := by
    simp [Images.sq, dot, toCart, scVecs, d', DynMat.Ex.cv, castV]; norm_num
  have eb : Images.sq (scVecs d'.S d'.cv).b = 1 := by simp [Images.sq, dot, toCart, scVecs, d', DynMat.Ex.cv, castV]
  have ec : Images.sq (scVecs d'.S d'.cv).c = 1 := by simp [Images.sq, dot, toCart, scVecs, d', DynMat.Ex.cv, castV]
  have h1 : ∀ x : ℤ, |x| = 1 → (x : ℝ) ^ 2 = 1 := by
    intro x hx
    have : x ^ 2 = 1 := by rw [← sq_abs, hx, one_pow]
    exact_mod_cast this
  refine ⟨fun a b c ha hb hc => ?_, fun a b c ha hb hc => ?_, fun a b c ha hb hc => ?_⟩
  · rw [e, ea, h1 a ha]; nlinarith [sq_nonneg (b : ℝ), sq_nonneg (c : ℝ)]
  · rw [e, eb, h1 b hb]; nlinarith [sq_nonneg (a : ℝ), sq_nonneg (c : ℝ)]
  · rw [e, ec, h1 c hc]; nlinarith [sq_nonneg (a : ℝ), sq_nonneg (b : ℝ)]

theorem ok : d.Ok shells2 where
  first := rfl
  reduced := ⟨shells2_eq, DynMat.Ex.volume, Commensurate.Chain.reduced, fun c i j => by
    refine ⟨⟨((d.r i).x - (d.r j).x - (d.cells c).x) / 2, 0, 0⟩, ?_, by simp, by simp, ?_⟩
    · fin_cases c <;> fin_cases i <;> fin_cases j <;> norm_num [d, DynMat.Ex.cells, abs_le]
    · fin_cases c <;> fin_cases i <;> fin_cases j <;> norm_num [d, DynMat.Ex.cells, DynMat.Ex.S, sub, add, castV]⟩

theorem ok' : d'.Ok shells2 where
  first := rfl
  reduced := ⟨shells2_eq, by simp [cellVolume, scVecs, d', DynMat.Ex.cv, toCart, castV, dot, cross], reduced',
    fun c i j => by
    refine ⟨⟨-((d'.r i).y - (d'.r j).y - (d'.cells c).y) / 2, 0, 0⟩, ?_, by simp, by simp, ?_⟩
    · fin_cases c <;> fin_cases i <;> fin_cases j <;> norm_num [d', abs_le]
    · fin_cases c <;> fin_cases i <;> fin_cases j <;> norm_num [d', sub, add, castV]⟩

theorem symmetric : Symmetric d.cells d.S d.fc id ![⟨0, 0, 0⟩, ⟨-1, 0, 0⟩] where
  invol := fun _ => rfl
  origin := DynMat.Ex.symmetric.origin
  exchange := by
    intro c k l
    simp only [d, id]
    by_cases h : k.modNat = l.modNat
    · rw [if_pos h, if_pos h.symm, h]
      simp only [eq_comm]
    · rw [if_neg h, if_neg (Ne.symm h)]

/-- All the hypotheses hold together: both descriptions have the same frequencies at wavevectors along and across the
chain. -/
example (junk junk' : Fin 2 → Mat 2 ℝ) {eigh eigh' : Mat 2 ℂ → (Fin (2 * 3) → ℝ) × Mat 2 ℂ} (he : IsEigh eigh)
    (he' : IsEigh eigh') (s : Fin (2 * 3)) :
    freqOf ((eigh' (d'.weighted shells2 junk' ⟨1 / 5, 1 / 3, 1 / 7⟩)).1 s) =
      freqOf ((eigh (d.weighted shells2 junk ⟨1 / 3, 1 / 7, 1 / 5⟩)).1 s) := by
  rw [C131_frequencies_partial relates ok ok' symmetric junk junk' _ he he']
  congr 4
  simp [Change.back, change, dot, castV]

/-- The rotation by 90 degrees about the chain. -/
noncomputable def rotation : Change 2 2 2 where
  A := ⟨⟨1, 0, 0⟩, ⟨0, 0, 1⟩, ⟨0, -1, 0⟩⟩
  B := ⟨⟨1, 0, 0⟩, ⟨0, 0, -1⟩, ⟨0, 1, 0⟩⟩
  p := Equiv.refl _
  T := fun _ => ⟨0, 0, 0⟩
  w := ⟨0, 0, 0⟩
  R := ![![1, 0, 0], ![0, 0, -1], ![0, 1, 0]]
  s := fun _ _ c => c

theorem isSymmetry : rotation.Relates d d where
  left := fun v => by simp [mulMat, rotation]
  right := fun v => by simp [mulMat, rotation]
  ortho := fun a b => by fin_cases a <;> fin_cases b <;> simp [rotation, Fin.sum_univ_three]
  vectors := fun x => by
    simp [toCart, d, DynMat.Ex.cv, castM, castV, rotation, rotV, Fin.sum_univ_three, comp0, comp1, comp2]
  positions := fun i => by
    fin_cases i <;> norm_num [rotation, d, toCart, castM, castV, add]
  masses := fun i => rfl
  super := fun v => by
    constructor
    · rintro ⟨m, hm⟩
      refine ⟨⟨m.x, m.z, -m.y⟩, ?_⟩
      simp [mulMat, rotation, d, DynMat.Ex.S, V3.mk.injEq] at hm ⊢
      obtain ⟨h1, h2, h3⟩ := hm
      exact V3.ext' (by simp; omega) (by simp; omega) (by simp; omega)
    · rintro ⟨m, hm⟩
      refine ⟨⟨m.x, -m.z, m.y⟩, ?_⟩
      rw [hm]
      simp [mulMat, rotation, d, DynMat.Ex.S]
  bij := fun i j => Function.bijective_id
  cell := fun i j c => by
    refine ⟨⟨0, 0, 0⟩, ?_⟩
    fin_cases c <;> simp [mulMat, sub, add, rotation, d, DynMat.Ex.cells]
  fcs := fun i j c a b => by
    simp only [d, row_div, row_mod, rotation, Fin.sum_univ_three, Equiv.refl_apply]
    fin_cases a <;> fin_cases b <;> simp [K]

/-- The frequencies at wavevectors that are rotated about the chain. -/
example (junk : Fin 2 → Mat 2 ℝ) {eigh : Mat 2 ℂ → (Fin (2 * 3) → ℝ) × Mat 2 ℂ} (he : IsEigh eigh) (s : Fin (2 * 3)) :
    freqOf ((eigh (d.weighted shells2 junk ⟨1 / 5, 1 / 3, 1 / 7⟩)).1 s) =
      freqOf ((eigh (d.weighted shells2 junk ⟨1 / 5, 1 / 7, -1 / 3⟩)).1 s) := by
  rw [C132_equivalent_partial isSymmetry ok symmetric junk _ he]
  congr 4
  simp [Change.back, rotation, dot, castV]
  norm_num

end Ex

end Euphonic.Describe
