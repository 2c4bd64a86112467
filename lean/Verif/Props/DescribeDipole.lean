import Verif.Props.Stability
import Verif.Props.DescribeScatter
import Verif.Props.Dipole

/-!
# Different descriptions of the same polar crystal (C131, C132)

The long-range corrections depend on the description of the crystal through the shells of cells that are summed.  If the
shells are carried into each other (axes exchanged or reversed, atoms and origin anywhere, every rotation for which the same
number of shells is used) the corrections are carried over, so that frequencies are the same.
-/

set_option autoImplicit false
set_option linter.unusedSectionVars false

namespace Euphonic.Describe

open Euphonic.Lattice Euphonic.Supercell Euphonic.Phases Euphonic.Images Euphonic.DynMat Euphonic.Reduced
open Euphonic.Commensurate Euphonic.Acoustic Euphonic.Dipole
open scoped ComplexConjugate

variable {n N N' : Nat} {d : Description n N} {d' : Description n N'} {h : Change n N N'}

/-! ## Specification -/

/-- The data the corrections are calculated from. -/
def Description.ions (d : Description n N) (born : Fin n → Fin 3 → Fin 3 → ℝ) (diel : Matrix (Fin 3) (Fin 3) ℝ) : Ions n :=
  ⟨d.cv, d.r, born, diel⟩

/-- A tensor and the same tensor after a rotation. -/
def Carry (R : Fin 3 → Fin 3 → ℝ) (X X' : Fin 3 → Fin 3 → ℂ) : Prop :=
  ∀ a b, X' a b = ∑ a', ∑ b', (R a a' : ℂ) * R b b' * X a' b'

/-- The same for real numbers. -/
def CarryR (R : Fin 3 → Fin 3 → ℝ) (X X' : Fin 3 → Fin 3 → ℝ) : Prop :=
  ∀ a b, X' a b = ∑ a', ∑ b', R a a' * R b b' * X a' b'

/-- The axes are exchanged and reversed: `A` has one entry in each row and column, which is 1 or -1. -/
def SignedPerm (A : M3 ℤ) : Prop :=
  ∃ (σ : Equiv.Perm (Fin 3)) (ε : Fin 3 → ℤ), (∀ i, ε i = 1 ∨ ε i = -1) ∧
    ∀ i j, comp (comp ⟨A.a, A.b, A.c⟩ i) j = if j = σ i then ε i else 0

/-- The same for a rotation. -/
def SignedRot (R : Fin 3 → Fin 3 → ℝ) : Prop :=
  ∃ (τ : Equiv.Perm (Fin 3)) (δ : Fin 3 → ℝ), (∀ b, δ b = 1 ∨ δ b = -1) ∧ ∀ a b, R a b = if a = τ b then δ b else 0

/-- What it takes for the long-range corrections: axes exchanged or reversed, no atom moved to another cell, cells of the same
handedness, Born charges and dielectric tensor rotated. -/
structure Change.RelatesIons (h : Change n N N') (o o' : Ions n) : Prop where
  axes : SignedPerm h.A
  stay : ∀ i, h.T i = ⟨0, 0, 0⟩
  volume : cellVolume o'.cv = cellVolume o.cv
  diel : CarryR h.R (fun a b => o.diel a b) (fun a b => o'.diel a b)
  born : ∀ i, CarryR h.R (o.born i) (o'.born (h.p i))

/-! ## Tensors -/

theorem CarryR.ofReal {R : Fin 3 → Fin 3 → ℝ} {X X' : Fin 3 → Fin 3 → ℝ} (hX : CarryR R X X') :
    Carry R (fun a b => (X a b : ℂ)) (fun a b => (X' a b : ℂ)) := by
  intro a b
  dsimp only
  rw [hX a b]
  push_cast
  rfl

theorem Carry.add {R : Fin 3 → Fin 3 → ℝ} {X X' Y Y' : Fin 3 → Fin 3 → ℂ} (hX : Carry R X X') (hY : Carry R Y Y') :
    Carry R (fun a b => X a b + Y a b) (fun a b => X' a b + Y' a b) := by
  intro a b
  simp only [hX a b, hY a b, ← Finset.sum_add_distrib, mul_add]

theorem Carry.sub {R : Fin 3 → Fin 3 → ℝ} {X X' Y Y' : Fin 3 → Fin 3 → ℂ} (hX : Carry R X X') (hY : Carry R Y Y') :
    Carry R (fun a b => X a b - Y a b) (fun a b => X' a b - Y' a b) := by
  intro a b
  simp only [hX a b, hY a b, ← Finset.sum_sub_distrib, mul_sub]

theorem Carry.smul {R : Fin 3 → Fin 3 → ℝ} {X X' : Fin 3 → Fin 3 → ℂ} (c : ℂ) (hX : Carry R X X') :
    Carry R (fun a b => c * X a b) (fun a b => c * X' a b) := by
  intro a b
  simp only [hX a b, Finset.mul_sum]
  exact Finset.sum_congr rfl fun a' _ => Finset.sum_congr rfl fun b' _ => by ring

theorem Carry.zero (R : Fin 3 → Fin 3 → ℝ) : Carry R (fun _ _ => 0) (fun _ _ => 0) := by
  intro a b
  simp

theorem Carry.transpose {R : Fin 3 → Fin 3 → ℝ} {X X' : Fin 3 → Fin 3 → ℂ} (hX : Carry R X X') :
    Carry R (fun a b => X b a) (fun a b => X' b a) := by
  intro a b
  dsimp only
  rw [hX b a, Finset.sum_comm]
  exact Finset.sum_congr rfl fun a' _ => Finset.sum_congr rfl fun b' _ => by ring

theorem Carry.list {R : Fin 3 → Fin 3 → ℝ} {ι : Type} (l : List ι) {X X' : ι → Fin 3 → Fin 3 → ℂ}
    (hX : ∀ v ∈ l, Carry R (X v) (X' v)) :
    Carry R (fun a b => (l.map fun v => X v a b).sum) (fun a b => (l.map fun v => X' v a b).sum) := by
  induction l with
  | nil => exact Carry.zero R
  | cons v l ih =>
    simp only [List.map_cons, List.sum_cons]
    exact (hX v (by simp)).add (ih fun w hw => hX w (by simp [hw]))

theorem Carry.sum {R : Fin 3 → Fin 3 → ℝ} {ι : Type} (s : Finset ι) {X X' : ι → Fin 3 → Fin 3 → ℂ}
    (hX : ∀ v, Carry R (X v) (X' v)) :
    Carry R (fun a b => ∑ v ∈ s, X v a b) (fun a b => ∑ v ∈ s, X' v a b) := by
  classical
  induction s using Finset.induction_on with
  | empty => simpa using Carry.zero R
  | insert v s hv ih =>
    simp only [Finset.sum_insert hv]
    exact (hX v).add ih

open scoped Matrix in
theorem carry_iff {R : Fin 3 → Fin 3 → ℝ} {X X' : Fin 3 → Fin 3 → ℂ} : Carry R X X' ↔
    Matrix.of X' = (Matrix.of fun a b => (R a b : ℂ)) * Matrix.of X * (Matrix.of fun a b => (R a b : ℂ))ᵀ := by
  constructor
  · intro hX
    ext a b
    rw [Matrix.of_apply, hX a b, Matrix.mul_apply]
    simp only [Matrix.mul_apply, Matrix.of_apply, Matrix.transpose_apply, Finset.sum_mul]
    rw [Finset.sum_comm]
    exact Finset.sum_congr rfl fun a' _ => Finset.sum_congr rfl fun b' _ => by ring
  · intro hX a b
    have := congrFun (congrFun hX a) b
    rw [Matrix.of_apply, Matrix.mul_apply] at this
    simp only [Matrix.mul_apply, Matrix.of_apply, Matrix.transpose_apply, Finset.sum_mul] at this
    rw [this, Finset.sum_comm]
    exact Finset.sum_congr rfl fun a' _ => Finset.sum_congr rfl fun b' _ => by ring

open scoped Matrix in
theorem carryR_iff {R : Fin 3 → Fin 3 → ℝ} {X X' : Fin 3 → Fin 3 → ℝ} : CarryR R X X' ↔
    Matrix.of X' = Matrix.of R * Matrix.of X * (Matrix.of R)ᵀ := by
  constructor
  · intro hX
    ext a b
    rw [Matrix.of_apply, hX a b, Matrix.mul_apply]
    simp only [Matrix.mul_apply, Matrix.of_apply, Matrix.transpose_apply, Finset.sum_mul]
    rw [Finset.sum_comm]
    exact Finset.sum_congr rfl fun a' _ => Finset.sum_congr rfl fun b' _ => by ring
  · intro hX a b
    have := congrFun (congrFun hX a) b
    rw [Matrix.of_apply, Matrix.mul_apply] at this
    simp only [Matrix.mul_apply, Matrix.of_apply, Matrix.transpose_apply, Finset.sum_mul] at this
    rw [this, Finset.sum_comm]
    exact Finset.sum_congr rfl fun a' _ => Finset.sum_congr rfl fun b' _ => by ring

section
variable {R : Fin 3 → Fin 3 → ℝ} (hR : ∀ a b, ∑ c, R c a * R c b = if a = b then 1 else 0)
include hR

open scoped Matrix in
theorem rot_left : (Matrix.of R)ᵀ * Matrix.of R = 1 := by
  ext a b
  rw [Matrix.mul_apply, Matrix.one_apply, ← hR a b]
  rfl

open scoped Matrix in
theorem rot_leftC : (Matrix.of fun a b => (R a b : ℂ))ᵀ * (Matrix.of fun a b => (R a b : ℂ)) = 1 := by
  ext a b
  rw [Matrix.mul_apply, Matrix.one_apply]
  have := congrArg (fun x : ℝ => (x : ℂ)) (hR a b)
  push_cast at this
  refine Eq.trans ?_ (this.trans ?_)
  · rfl
  · split <;> simp

open scoped Matrix in
/-- Tensors on both sides of another one. -/
theorem Carry.sandwich {B B' C C' X X' : Fin 3 → Fin 3 → ℂ} (hB : Carry R B B') (hC : Carry R C C') (hX : Carry R X X') :
    Carry R (fun a b => ∑ c, ∑ e, B a c * C b e * X c e) (fun a b => ∑ c, ∑ e, B' a c * C' b e * X' c e) := by
  have e : ∀ B C X : Fin 3 → Fin 3 → ℂ, (Matrix.of fun a b => ∑ c, ∑ e, B a c * C b e * X c e) =
      Matrix.of B * Matrix.of X * (Matrix.of C)ᵀ := by
    intro B C X
    ext a b
    rw [Matrix.of_apply, Matrix.mul_apply]
    simp only [Matrix.mul_apply, Matrix.of_apply, Matrix.transpose_apply, Finset.sum_mul]
    rw [Finset.sum_comm]
    exact Finset.sum_congr rfl fun a' _ => Finset.sum_congr rfl fun b' _ => by ring
  rw [carry_iff, e, e, carry_iff.1 hB, carry_iff.1 hC, carry_iff.1 hX]
  have hl := rot_leftC hR
  simp only [Matrix.transpose_mul, Matrix.transpose_transpose, Matrix.mul_assoc]
  congr 2
  rw [← Matrix.mul_assoc _ _ (Matrix.of X * _), hl, Matrix.one_mul]
  congr 1
  rw [← Matrix.mul_assoc _ _ ((Matrix.of C)ᵀ * _), hl, Matrix.one_mul]

open scoped Matrix in
/-- The inverse of a tensor. -/
theorem CarryR.inv {D D' : Matrix (Fin 3) (Fin 3) ℝ} (hD : CarryR R (fun a b => D a b) (fun a b => D' a b)) :
    CarryR R (fun a b => D⁻¹ a b) (fun a b => D'⁻¹ a b) := by
  have h1 : D' = Matrix.of R * D * (Matrix.of R)ᵀ := carryR_iff.1 hD
  have hl := rot_left hR
  have e1 : (Matrix.of R)⁻¹ = (Matrix.of R)ᵀ := Matrix.inv_eq_left_inv hl
  have e2 : ((Matrix.of R)ᵀ)⁻¹ = Matrix.of R := Matrix.inv_eq_right_inv hl
  refine carryR_iff.2 ?_
  change D'⁻¹ = Matrix.of R * D⁻¹ * (Matrix.of R)ᵀ
  rw [h1, Matrix.mul_inv_rev, Matrix.mul_inv_rev, e1, e2, Matrix.mul_assoc]

open scoped Matrix in
theorem CarryR.det {D D' : Matrix (Fin 3) (Fin 3) ℝ} (hD : CarryR R (fun a b => D a b) (fun a b => D' a b)) :
    D'.det = D.det := by
  have h1 : D' = Matrix.of R * D * (Matrix.of R)ᵀ := carryR_iff.1 hD
  have hl := congrArg Matrix.det (rot_left hR)
  rw [Matrix.det_mul, Matrix.det_one] at hl
  rw [h1, Matrix.det_mul, Matrix.det_mul]
  linear_combination D.det * hl

theorem vecMat_rotV {D D' : Matrix (Fin 3) (Fin 3) ℝ} (hD : CarryR R (fun a b => D a b) (fun a b => D' a b)) (v : V3 ℝ)
    (k : Fin 3) : vecMat (rotV R v) D' k = ∑ k', R k k' * vecMat v D k' := by
  have e : vecMat (rotV R v) D' k = ∑ k', R k k' * ∑ c, (∑ j, R j c * comp (rotV R v) j) * D c k' := by
    unfold vecMat
    have : ∀ j, D' j k = ∑ a', ∑ b', R j a' * R k b' * D a' b' := fun j => hD j k
    simp only [this, Finset.mul_sum, Finset.sum_mul]
    rw [Finset.sum_comm]
    rw [Finset.sum_congr rfl fun c _ => Finset.sum_comm, Finset.sum_comm]
    exact Finset.sum_congr rfl fun b' _ => Finset.sum_congr rfl fun c _ => Finset.sum_congr rfl fun j _ => by ring
  rw [e]
  simp only [rotV_inv hR]
  rfl

theorem sum_rot (u : Fin 3 → ℝ) (v : V3 ℝ) : ∑ k, (∑ k', R k k' * u k') * comp (rotV R v) k = ∑ k, u k * comp v k := by
  simp only [Finset.sum_mul]
  rw [Finset.sum_comm]
  refine Finset.sum_congr rfl fun k' _ => ?_
  rw [← rotV_inv hR v k', Finset.mul_sum]
  exact Finset.sum_congr rfl fun k _ => by ring

end

/-! ## The terms of the sums -/

/-- `hab` as a function of the distance vector. -/
noncomputable def habOf (erfc : ℝ → ℝ) (lam : ℝ) (inv : Matrix (Fin 3) (Fin 3) ℝ) (v : V3 ℝ) (a b : Fin 3) : ℝ :=
  let n2 := (∑ k, vecMat v inv k * comp v k) * lam ^ 2
  lam ^ 2 * (3 * (erfc √n2 / (√n2 * n2)) / n2 + 2 * Real.exp (-n2) / (√Real.pi * n2) * (3 / n2 + 2)) *
      (vecMat v inv a * vecMat v inv b) -
    (erfc √n2 / (√n2 * n2) + 2 * Real.exp (-n2) / (√Real.pi * n2)) * inv a b

/-- The distance vector. -/
noncomputable def sep (o : Ions n) (L : V3 ℤ) (i j : Fin n) : V3 ℝ :=
  sub (sub (toCart o.cv (o.r i)) (toCart o.cv (o.r j))) (toCart o.cv (castV ℝ L))

theorem vecMat_sub (u v : V3 ℝ) (m : Matrix (Fin 3) (Fin 3) ℝ) (k : Fin 3) :
    vecMat (Lattice.sub u v) m k = vecMat u m k - vecMat v m k := by
  unfold vecMat
  rw [← Finset.sum_sub_distrib]
  refine Finset.sum_congr rfl fun j _ => ?_
  rw [Dipole.comp_sub]
  ring

theorem hab_eq (erfc : ℝ → ℝ) (o : Ions n) (lam : ℝ) (L : V3 ℤ) (i j : Fin n) (a b : Fin 3) :
    hab erfc o lam L i j a b = if L = ⟨0, 0, 0⟩ ∧ i = j then 0 else habOf erfc lam o.diel⁻¹ (sep o L i j) a b := by
  unfold hab
  split
  · rfl
  · simp only [habOf, sep, vecMat_sub]

theorem habOf_neg (erfc : ℝ → ℝ) (lam : ℝ) (inv : Matrix (Fin 3) (Fin 3) ℝ) (v : V3 ℝ) (a b : Fin 3) :
    habOf erfc lam inv (neg v) a b = habOf erfc lam inv v a b := by
  simp only [habOf, vecMat_neg, Dipole.comp_neg, neg_mul, mul_neg, neg_neg]

theorem habOf_carry (erfc : ℝ → ℝ) (lam : ℝ) {R : Fin 3 → Fin 3 → ℝ}
    (hR : ∀ a b, ∑ c, R c a * R c b = if a = b then 1 else 0) {D D' : Matrix (Fin 3) (Fin 3) ℝ}
    (hD : CarryR R (fun a b => D a b) (fun a b => D' a b)) (v : V3 ℝ) :
    CarryR R (habOf erfc lam D v) (habOf erfc lam D' (rotV R v)) := by
  intro a b
  simp only [habOf, vecMat_rotV hR hD, sum_rot hR]
  have hab : D' a b = ∑ a', ∑ b', R a a' * R b b' * D a' b' := hD a b
  rw [hab]
  generalize lam ^ 2 * (_ + _) = f1
  generalize erfc _ / _ + _ = f2
  rw [Finset.sum_mul_sum, Finset.mul_sum, Finset.mul_sum, ← Finset.sum_sub_distrib]
  refine Finset.sum_congr rfl fun a' _ => ?_
  rw [Finset.mul_sum, Finset.mul_sum, ← Finset.sum_sub_distrib]
  exact Finset.sum_congr rfl fun b' _ => by ring

theorem kTerm_carry {R : Fin 3 → Fin 3 → ℝ} (hR : ∀ a b, ∑ c, R c a * R c b = if a = b then 1 else 0) {o o' : Ions n}
    (hD : CarryR R (fun a b => o.diel a b) (fun a b => o'.diel a b)) (lam : ℝ) (k : V3 ℝ) :
    CarryR R (kTerm o lam k) (kTerm o' lam (rotV R k)) := by
  have e : ∀ (o : Ions n) (k : V3 ℝ), ∑ a, ∑ b, comp k a * comp k b * o.diel a b = ∑ b, vecMat k o.diel b * comp k b := by
    intro o k
    unfold vecMat
    simp only [Finset.sum_mul]
    rw [Finset.sum_comm]
    exact Finset.sum_congr rfl fun b _ => Finset.sum_congr rfl fun a _ => by ring
  intro a b
  unfold kTerm
  have e2 : ∑ a, ∑ b, comp (rotV R k) a * comp (rotV R k) b * o'.diel a b = ∑ a, ∑ b, comp k a * comp k b * o.diel a b := by
    rw [e, e]
    simp only [vecMat_rotV hR hD, sum_rot hR]
  simp only [e2]
  generalize Real.exp _ / _ = f
  rw [comp_rotV, comp_rotV, Finset.sum_mul_sum, Finset.sum_mul]
  refine Finset.sum_congr rfl fun a' _ => ?_
  rw [Finset.sum_mul]
  exact Finset.sum_congr rfl fun b' _ => by ring

/-! ## Signed permutations -/

/-- The reciprocal lattice vector that is `G` in the second description, in the first one. -/
def Change.backZ (h : Change n N N') (G : V3 ℤ) : V3 ℤ :=
  ⟨h.A.a.x * G.x + h.A.a.y * G.y + h.A.a.z * G.z, h.A.b.x * G.x + h.A.b.y * G.y + h.A.b.z * G.z,
    h.A.c.x * G.x + h.A.c.y * G.y + h.A.c.z * G.z⟩

theorem castV_backZ (h : Change n N N') (G : V3 ℤ) : castV ℝ (h.backZ G) = h.back (castV ℝ G) := by
  simp only [castV, Change.backZ, Change.back, dot]
  push_cast
  rfl

theorem comp_mulMat (v : V3 ℤ) (A : M3 ℤ) (j : Fin 3) :
    comp (mulMat v A) j = ∑ i, comp v i * comp (comp ⟨A.a, A.b, A.c⟩ i) j := by
  fin_cases j <;> simp [Fin.sum_univ_three, comp, mulMat]

theorem comp_backZ (h : Change n N N') (G : V3 ℤ) (i : Fin 3) :
    comp (h.backZ G) i = ∑ j, comp (comp ⟨h.A.a, h.A.b, h.A.c⟩ i) j * comp G j := by
  fin_cases i <;> simp [Fin.sum_univ_three, comp, Change.backZ]

theorem comp_back (h : Change n N N') (q : V3 ℝ) (i : Fin 3) :
    comp (h.back q) i = ∑ j, ((comp (comp ⟨h.A.a, h.A.b, h.A.c⟩ i) j : ℤ) : ℝ) * comp q j := by
  fin_cases i <;> simp [Fin.sum_univ_three, comp, Change.back, dot, castV]

theorem maxAbs_eq (v : V3 ℤ) : maxAbs v = Finset.univ.sup fun i => (comp v i).natAbs := by
  apply le_antisymm
  · have e : ∀ i, (comp v i).natAbs ≤ Finset.univ.sup fun i => (comp v i).natAbs :=
      fun i => Finset.le_sup (f := fun i => (comp v i).natAbs) (Finset.mem_univ i)
    exact max_le (e 0) (max_le (e 1) (e 2))
  · refine Finset.sup_le fun i _ => ?_
    unfold maxAbs
    fin_cases i
    · exact le_max_left _ _
    · exact le_max_of_le_right (le_max_left _ _)
    · exact le_max_of_le_right (le_max_right _ _)

theorem ext_comp {α : Type} {u v : V3 α} (e : ∀ i, comp u i = comp v i) : u = v :=
  V3.ext' (e 0) (e 1) (e 2)

section
variable {A : M3 ℤ}

theorem SignedPerm.maxAbs_mulMat (hA : SignedPerm A) (v : V3 ℤ) : maxAbs (mulMat v A) = maxAbs v := by
  obtain ⟨σ, ε, hε, hA⟩ := hA
  have e : ∀ i, comp (mulMat v A) (σ i) = comp v i * ε i := by
    intro i
    rw [comp_mulMat]
    simp only [hA, EmbeddingLike.apply_eq_iff_eq, mul_ite, mul_zero]
    simp
  rw [maxAbs_eq, maxAbs_eq]
  have h2 : (Finset.univ.sup fun j => (comp (mulMat v A) j).natAbs) = Finset.univ.sup fun i => (comp (mulMat v A) (σ i)).natAbs := by
    apply le_antisymm
    · refine Finset.sup_le fun j _ => ?_
      have := Finset.le_sup (f := fun i => (comp (mulMat v A) (σ i)).natAbs) (Finset.mem_univ (σ.symm j))
      simpa using this
    · exact Finset.sup_le fun i _ => Finset.le_sup (f := fun j => (comp (mulMat v A) j).natAbs) (Finset.mem_univ (σ i))
  rw [h2]
  refine Finset.sup_congr rfl fun i _ => ?_
  rw [e]
  rcases hε i with h1 | h1 <;> simp [h1]

end

theorem SignedPerm.comp_back (hA : SignedPerm h.A) : ∃ (σ : Equiv.Perm (Fin 3)) (ε : Fin 3 → ℤ), (∀ i, ε i = 1 ∨ ε i = -1) ∧
    (∀ q i, comp (h.back q) i = ε i * comp q (σ i)) ∧ ∀ G i, comp (h.backZ G) i = ε i * comp G (σ i) := by
  obtain ⟨σ, ε, hε, hA⟩ := hA
  refine ⟨σ, ε, hε, fun q i => ?_, fun G i => ?_⟩
  · rw [Describe.comp_back]
    simp only [hA]
    rw [Finset.sum_eq_single (σ i)]
    · simp
    · intro j _ hj
      simp [hj]
    · simp
  · rw [comp_backZ]
    simp only [hA]
    rw [Finset.sum_eq_single (σ i)]
    · simp
    · intro j _ hj
      simp [hj]
    · simp

theorem SignedPerm.maxAbs_backZ (hA : SignedPerm h.A) (G : V3 ℤ) : maxAbs (h.backZ G) = maxAbs G := by
  obtain ⟨σ, ε, hε, -, e⟩ := hA.comp_back
  rw [maxAbs_eq, maxAbs_eq]
  have h2 : (Finset.univ.sup fun j => (comp G j).natAbs) = Finset.univ.sup fun i => (comp G (σ i)).natAbs := by
    apply le_antisymm
    · refine Finset.sup_le fun j _ => ?_
      have := Finset.le_sup (f := fun i => (comp G (σ i)).natAbs) (Finset.mem_univ (σ.symm j))
      simpa using this
    · exact Finset.sup_le fun i _ => Finset.le_sup (f := fun j => (comp G j).natAbs) (Finset.mem_univ (σ i))
  rw [h2]
  refine Finset.sup_congr rfl fun i _ => ?_
  rw [e]
  rcases hε i with h1 | h1 <;> simp [h1]

theorem SignedPerm.backZ_injective (hA : SignedPerm h.A) : Function.Injective h.backZ := by
  obtain ⟨σ, ε, hε, -, e⟩ := hA.comp_back
  intro G G' hG
  refine ext_comp fun j => ?_
  have h1 := e G (σ.symm j)
  have h2 := e G' (σ.symm j)
  rw [hG] at h1
  rw [Equiv.apply_symm_apply] at h1 h2
  have h3 := h1.symm.trans h2
  rcases hε (σ.symm j) with h4 | h4 <;> simpa [h4] using h3

theorem comp_rem (q : V3 ℝ) (i : Fin 3) : comp (rem q) i = comp q i - rint (comp q i) := by
  fin_cases i <;> rfl

theorem SignedPerm.rem_back (hA : SignedPerm h.A) (q : V3 ℝ) : rem (h.back q) = h.back (rem q) := by
  obtain ⟨σ, ε, hε, e, -⟩ := hA.comp_back
  refine ext_comp fun i => ?_
  rw [comp_rem, e, e, comp_rem]
  rcases hε i with h4 | h4
  · simp [h4]
  · simp only [h4, Int.cast_neg, Int.cast_one, neg_mul, one_mul, rint_neg]
    ring

theorem sumAbs_eq (q : V3 ℝ) : sumAbs q = ∑ i, |comp q i| := by
  simp [sumAbs, Fin.sum_univ_three, comp]

theorem SignedPerm.isGamma_back (hA : SignedPerm h.A) (q : V3 ℝ) : isGamma (h.back q) = isGamma q := by
  have h1 := hA.rem_back q
  obtain ⟨σ, ε, hε, e, -⟩ := hA.comp_back
  unfold isGamma
  have : sumAbs (rem (h.back q)) = sumAbs (rem q) := by
    rw [h1, sumAbs_eq, sumAbs_eq, ← Equiv.sum_comp σ fun j => |comp (rem q) j|]
    refine Finset.sum_congr rfl fun i _ => ?_
    rw [e, abs_mul]
    rcases hε i with h4 | h4 <;> simp [h4]
  rw [this]

/-- A map that keeps the shells permutes the terms of sums over shells. -/
theorem sum_shells {β : Type} [AddCommMonoid β] (ms : List Nat) (hms : ms.Nodup) (g : V3 ℤ → V3 ℤ) (hg : Function.Injective g)
    (hm : ∀ v, maxAbs (g v) = maxAbs v) (f : V3 ℤ → β) :
    (((ms.flatMap shell).map fun v => f (g v)).sum) = ((ms.flatMap shell).map f).sum := by
  have hn := (negClosed_shells ms hms).1
  have hp : ((ms.flatMap shell).map g).Perm (ms.flatMap shell) := by
    have hsub : (ms.flatMap shell).map g ⊆ ms.flatMap shell := by
      intro v hv
      rw [List.mem_map] at hv
      obtain ⟨w, hw, rfl⟩ := hv
      rw [List.mem_flatMap] at hw ⊢
      obtain ⟨m, h1, h2⟩ := hw
      refine ⟨m, h1, ?_⟩
      rw [mem_shell] at h2 ⊢
      rw [hm, h2]
    exact (List.Nodup.subperm (hn.map hg) hsub).perm_of_length_le (by simp)
  have := (hp.map f).sum_eq
  rw [List.map_map] at this
  exact this

/-! ## Filling in the other triangle changes nothing -/

theorem fill_eq (u : Fin n → Fin n → Fin 3 → Fin 3 → ℂ) (hu : ∀ i j a b, u j i a b = star (u i j a b)) : fill u = u := by
  funext i j a b
  unfold fill
  split
  · rfl
  · rw [← hu]

theorem sep_neg (o : Ions n) (L : V3 ℤ) (i j : Fin n) : sep o (neg L) j i = neg (sep o L i j) := by
  unfold sep
  rw [castV_neg, toCart_neg]
  simp only [Lattice.sub, neg, V3.mk.injEq]
  refine ⟨?_, ?_, ?_⟩ <;> ring

theorem hab_neg (erfc : ℝ → ℝ) (o : Ions n) (lam : ℝ) (L : V3 ℤ) (i j : Fin n) (a b : Fin 3) :
    hab erfc o lam (neg L) j i a b = hab erfc o lam L i j a b := by
  have hz : neg L = ⟨0, 0, 0⟩ ↔ L = ⟨0, 0, 0⟩ := by
    obtain ⟨x, y, z⟩ := L
    simp [neg]
  rw [hab_eq, hab_eq, sep_neg, habOf_neg]
  simp only [hz, eq_comm (a := j)]

theorem star_gPhase (o : Ions n) (G : V3 ℤ) (i : Fin n) : star (gPhase o G i) = (gPhase o G i)⁻¹ := by
  unfold gPhase
  rw [Complex.star_def, Complex.inv_eq_conj]
  rw [show 2 * Complex.I * Real.pi * ((G.x * (o.r i).x + G.y * (o.r i).y + G.z * (o.r i).z : ℝ) : ℂ) =
    ((2 * Real.pi * (G.x * (o.r i).x + G.y * (o.r i).y + G.z * (o.r i).z) : ℝ) : ℂ) * Complex.I by push_cast; ring,
    Complex.norm_exp_ofReal_mul_I]

theorem star_qPhase (o : Ions n) (q : V3 ℝ) (i : Fin n) : star (qPhase o q i) = (qPhase o q i)⁻¹ := by
  unfold qPhase
  rw [Complex.star_def, Complex.inv_eq_conj]
  rw [show 2 * Complex.I * Real.pi * ((q.x * (o.r i).x + q.y * (o.r i).y + q.z * (o.r i).z : ℝ) : ℂ) =
    ((2 * Real.pi * (q.x * (o.r i).x + q.y * (o.r i).y + q.z * (o.r i).z) : ℝ) : ℂ) * Complex.I by push_cast; ring,
    Complex.norm_exp_ofReal_mul_I]

theorem recipTerm_swap (o : Ions n) (lam : ℝ) (q : V3 ℝ) (i j : Fin n) (a b : Fin 3) :
    recipTerm o lam q j i a b = star (recipTerm o lam q i j a b) := by
  unfold recipTerm
  dsimp only
  rw [star_mul', star_real, star_list_sum]
  simp only [star_mul', star_real, star_div₀, star_gPhase, star_qPhase]
  congr 2
  refine List.map_congr_left fun G _ => ?_
  congr 1
  rw [← mul_inv, ← mul_inv, div_eq_mul_inv, div_eq_mul_inv, inv_inv, mul_comm]

theorem realTerm_swap (erfc : ℝ → ℝ) (o : Ions n) (lam : ℝ) (q : V3 ℝ) (i j : Fin n) (a b : Fin 3) :
    realTerm erfc o lam q j i a b = star (realTerm erfc o lam q i j a b) := by
  unfold realTerm
  rw [star_mul', star_real, star_list_sum, (negClosed_cells erfc o lam).sum_eq]
  simp only [star_mul', star_real, hab_neg]
  congr 2
  refine List.map_congr_left fun L _ => ?_
  congr 1
  rw [Complex.star_def, ← Complex.exp_conj]
  congr 1
  simp only [neg, map_mul, Complex.conj_I, Complex.conj_ofReal, map_ofNat]
  push_cast
  ring

theorem recipQ0_swap (o : Ions n) (lam : ℝ) (s : Nat) (i j : Fin n) (a b : Fin 3) :
    recipQ0Shell o lam s j i a b = star (recipQ0Shell o lam s i j a b) := by
  unfold recipQ0Shell
  rw [star_list_sum]
  simp only [star_mul', star_real, star_div₀, star_gPhase]
  congr 2
  funext G
  congr 1
  rw [div_eq_mul_inv, div_eq_mul_inv, inv_inv, mul_comm]

theorem realQ0_swap (erfc : ℝ → ℝ) (o : Ions n) (lam : ℝ) (i j : Fin n) (a b : Fin 3) :
    ((cells erfc o lam).map fun L => hab erfc o lam L j i a b).sum = ((cells erfc o lam).map fun L => hab erfc o lam L i j a b).sum := by
  rw [(negClosed_cells erfc o lam).sum_eq]
  simp only [hab_neg]

/-! ## The corrections are carried over -/

section
variable {o o' : Ions n}

theorem Change.Relates.sep_eq (hr : h.Relates d d') (ho : o.cv = d.cv ∧ o.r = d.r) (ho' : o'.cv = d'.cv ∧ o'.r = d'.r)
    (hT : ∀ i, h.T i = ⟨0, 0, 0⟩) (L : V3 ℤ) (i j : Fin n) :
    sep o' (mulMat L h.A) (h.p i) (h.p j) = rotV h.R (sep o L i j) := by
  unfold sep
  rw [ho.1, ho.2, ho'.1, ho'.2, ← toCart_sub, ← toCart_sub, ← toCart_sub, ← toCart_sub, ← hr.vectors, castV_mulMat,
    hr.positions, hr.positions, hT, hT]
  congr 1
  simp only [Lattice.sub, add, toCart, castV, V3.mk.injEq]
  refine ⟨?_, ?_, ?_⟩ <;> ring

theorem Change.Relates.hab_carry (hr : h.Relates d d') (hi : h.RelatesIons o o') (ho : o.cv = d.cv ∧ o.r = d.r)
    (ho' : o'.cv = d'.cv ∧ o'.r = d'.r) (erfc : ℝ → ℝ) (lam : ℝ) (L : V3 ℤ) (i j : Fin n) :
    CarryR h.R (hab erfc o lam L i j) (hab erfc o' lam (mulMat L h.A) (h.p i) (h.p j)) := by
  have hz : mulMat L h.A = ⟨0, 0, 0⟩ ↔ L = ⟨0, 0, 0⟩ := by
    constructor
    · intro e
      rw [← hr.left L, e]
      simp [mulMat]
    · rintro rfl
      simp [mulMat]
  intro a b
  rw [hab_eq, hr.sep_eq ho ho' hi.stay]
  simp only [hab_eq, hz, EmbeddingLike.apply_eq_iff_eq]
  split
  · simp
  · exact habOf_carry erfc lam hr.ortho (CarryR.inv hr.ortho hi.diel) _ a b

theorem Change.Relates.gPhase_eq (hr : h.Relates d d') (ho : o.cv = d.cv ∧ o.r = d.r)
    (ho' : o'.cv = d'.cv ∧ o'.r = d'.r) (hT : ∀ i, h.T i = ⟨0, 0, 0⟩) (G : V3 ℤ) (i : Fin n) :
    gPhase o' G (h.p i) = gPhase o (h.backZ G) i *
      Complex.exp (2 * Complex.I * Real.pi * ((G.x * h.w.x + G.y * h.w.y + G.z * h.w.z : ℝ) : ℂ)) := by
  unfold gPhase
  rw [← Complex.exp_add, ho.2, ho'.2, hr.positions, hT]
  congr 1
  simp only [add, toCart, castM, castV, Change.backZ]
  push_cast
  ring

theorem Change.Relates.qPhase_eq (hr : h.Relates d d') (ho : o.cv = d.cv ∧ o.r = d.r)
    (ho' : o'.cv = d'.cv ∧ o'.r = d'.r) (hT : ∀ i, h.T i = ⟨0, 0, 0⟩) (q : V3 ℝ) (i : Fin n) :
    qPhase o' q (h.p i) = qPhase o (h.back q) i *
      Complex.exp (2 * Complex.I * Real.pi * ((q.x * h.w.x + q.y * h.w.y + q.z * h.w.z : ℝ) : ℂ)) := by
  unfold qPhase
  rw [← Complex.exp_add, ho.2, ho'.2, hr.positions, hT]
  congr 1
  simp only [add, toCart, castM, castV, Change.back, dot]
  push_cast
  ring

theorem Change.Relates.recip_eq (hr : h.Relates d d') (ho : o.cv = d.cv ∧ o.r = d.r)
    (ho' : o'.cv = d'.cv ∧ o'.r = d'.r) {images images' : List (V3 ℤ)} (hok : d.Ok images) (hok' : d'.Ok images') (q : V3 ℝ) :
    toCart (recip o') q = rotV h.R (toCart (recip o) (h.back q)) := by
  unfold recip
  rw [ho.1, ho'.1]
  exact hr.cartesian hok hok' q

theorem rotV_add (R : Fin 3 → Fin 3 → ℝ) (u v : V3 ℝ) : rotV R (Images.add u v) = Images.add (rotV R u) (rotV R v) := by
  refine ext_comp fun a => ?_
  have e : ∀ u v : V3 ℝ, ∀ a, comp (Images.add u v) a = comp u a + comp v a := by
    intro u v a
    fin_cases a <;> rfl
  rw [comp_rotV, e, comp_rotV, comp_rotV, ← Finset.sum_add_distrib]
  exact Finset.sum_congr rfl fun b _ => by rw [e]; ring

variable {images images' : List (V3 ℤ)} {erfc : ℝ → ℝ} {lam : ℝ}

theorem Change.Relates.realTerm_carry (hr : h.Relates d d') (hi : h.RelatesIons o o') (ho : o.cv = d.cv ∧ o.r = d.r)
    (ho' : o'.cv = d'.cv ∧ o'.r = d'.r) (hc : cells erfc o' lam = cells erfc o lam) (q : V3 ℝ) (i j : Fin n) :
    Carry h.R (realTerm erfc o lam (h.back q) i j) (realTerm erfc o' lam q (h.p i) (h.p j)) := by
  have hf : realFactor o' lam = realFactor o lam := by
    unfold realFactor
    rw [CarryR.det hr.ortho hi.diel]
  have hinj : Function.Injective fun L => mulMat L h.A := fun u v e => by
    rw [← hr.left u, ← hr.left v]
    exact congrArg (fun x => mulMat x h.B) e
  have e : realTerm erfc o' lam q (h.p i) (h.p j) = fun a b => (realFactor o lam : ℂ) * ((cells erfc o lam).map fun L =>
      Complex.exp (2 * Complex.I * Real.pi * (((h.back q).x * L.x + (h.back q).y * L.y + (h.back q).z * L.z : ℝ) : ℂ))
        * (hab erfc o' lam (mulMat L h.A) (h.p i) (h.p j) a b : ℂ)).sum := by
    funext a b
    unfold realTerm
    rw [hf, hc]
    congr 1
    have hs := sum_shells _ ((List.nodup_range (n := 50)).sublist (List.takeWhile_sublist (fun s => decide (amax ((shell s).flatMap fun R =>
      (upperElems n).map fun e => |hab erfc o lam R e.1 e.2.1 e.2.2.1 e.2.2.2|) > 1 / 10 ^ 15 * amax ((shell 0).flatMap fun R =>
      (upperElems n).map fun e => |hab erfc o lam R e.1 e.2.1 e.2.2.1 e.2.2.2|))))) (fun L => mulMat L h.A) hinj
      (hi.axes.maxAbs_mulMat) (fun L => Complex.exp (2 * Complex.I * Real.pi * ((q.x * L.x + q.y * L.y + q.z * L.z : ℝ) : ℂ))
      * (hab erfc o' lam L (h.p i) (h.p j) a b : ℂ))
    refine Eq.trans hs.symm ?_
    refine congrArg List.sum (List.map_congr_left fun L _ => ?_)
    congr 3
    simp only [mulMat, Change.back, dot, castV]
    push_cast
    ring
  rw [e]
  unfold realTerm
  refine Carry.smul _ (Carry.list _ fun L _ => Carry.smul _ ?_)
  exact (hr.hab_carry hi ho ho' erfc lam L i j).ofReal

theorem Change.Relates.kTerm_carry (hr : h.Relates d d') (hi : h.RelatesIons o o') (ho : o.cv = d.cv ∧ o.r = d.r)
    (ho' : o'.cv = d'.cv ∧ o'.r = d'.r) (hok : d.Ok images) (hok' : d'.Ok images') (G : V3 ℤ) :
    CarryR h.R (kTerm o lam (toCart (recip o) (castV ℝ (h.backZ G)))) (kTerm o' lam (toCart (recip o') (castV ℝ G))) := by
  rw [hr.recip_eq ho ho' hok hok', castV_backZ]
  exact Describe.kTerm_carry hr.ortho hi.diel lam _

theorem Change.Relates.recipQ0_carry (hr : h.Relates d d') (hi : h.RelatesIons o o') (ho : o.cv = d.cv ∧ o.r = d.r)
    (ho' : o'.cv = d'.cv ∧ o'.r = d'.r) (hok : d.Ok images) (hok' : d'.Ok images') (s : Nat) (i j : Fin n) :
    Carry h.R (recipQ0Shell o lam s i j) (recipQ0Shell o' lam s (h.p i) (h.p j)) := by
  have e : recipQ0Shell o lam s i j = fun a b => ((shell s).map fun G =>
      (kTerm o lam (toCart (recip o) (castV ℝ (h.backZ G))) a b : ℂ) * (gPhase o (h.backZ G) i / gPhase o (h.backZ G) j)).sum := by
    funext a b
    unfold recipQ0Shell
    have hs := sum_shells [s] (by simp) h.backZ hi.axes.backZ_injective hi.axes.maxAbs_backZ
      (fun G => (kTerm o lam (toCart (recip o) (castV ℝ G)) a b : ℂ) * (gPhase o G i / gPhase o G j))
    simp only [List.flatMap_cons, List.flatMap_nil, List.append_nil] at hs
    exact hs.symm
  rw [e]
  unfold recipQ0Shell
  refine Carry.list _ fun G _ => ?_
  have h1 := (hr.kTerm_carry (lam := lam) hi ho ho' hok hok' G).ofReal.smul (gPhase o (h.backZ G) i / gPhase o (h.backZ G) j)
  have h2 : gPhase o' G (h.p i) / gPhase o' G (h.p j) = gPhase o (h.backZ G) i / gPhase o (h.backZ G) j := by
    rw [hr.gPhase_eq ho ho' hi.stay, hr.gPhase_eq ho ho' hi.stay, mul_div_mul_right _ _ (Complex.exp_ne_zero _)]
  rw [h2]
  simpa only [mul_comm] using h1

theorem Change.Relates.recipTerm_carry (hr : h.Relates d d') (hi : h.RelatesIons o o') (ho : o.cv = d.cv ∧ o.r = d.r)
    (ho' : o'.cv = d'.cv ∧ o'.r = d'.r) (hok : d.Ok images) (hok' : d'.Ok images') (hg : gShells o' lam = gShells o lam) (q : V3 ℝ)
    (i j : Fin n) : Carry h.R (recipTerm o lam (h.back q) i j) (recipTerm o' lam q (h.p i) (h.p j)) := by
  have hf : recipFactor o' lam = recipFactor o lam := by
    unfold recipFactor Dipole.volume
    rw [hi.volume]
  have hg' : gvecs o' lam = gvecs o lam := by unfold gvecs; rw [hg]
  -- one term
  have hterm : ∀ G, Carry h.R
      (fun a b => (kTerm o lam (Images.add (toCart (recip o) (castV ℝ (h.backZ G))) (toCart (recip o) (h.back q))) a b : ℂ) *
        ((gPhase o (h.backZ G) i * qPhase o (h.back q) i) / (gPhase o (h.backZ G) j * qPhase o (h.back q) j)))
      (fun a b => (kTerm o' lam (Images.add (toCart (recip o') (castV ℝ G)) (toCart (recip o') q)) a b : ℂ) *
        ((gPhase o' G (h.p i) * qPhase o' q (h.p i)) / (gPhase o' G (h.p j) * qPhase o' q (h.p j)))) := by
    intro G
    have h1 := (Describe.kTerm_carry hr.ortho hi.diel lam (Images.add (toCart (recip o) (castV ℝ (h.backZ G)))
      (toCart (recip o) (h.back q)))).ofReal.smul
        ((gPhase o (h.backZ G) i * qPhase o (h.back q) i) / (gPhase o (h.backZ G) j * qPhase o (h.back q) j))
    rw [rotV_add, castV_backZ, ← hr.recip_eq ho ho' hok hok', ← hr.recip_eq ho ho' hok hok'] at h1
    have h2 : (gPhase o' G (h.p i) * qPhase o' q (h.p i)) / (gPhase o' G (h.p j) * qPhase o' q (h.p j)) =
        (gPhase o (h.backZ G) i * qPhase o (h.back q) i) / (gPhase o (h.backZ G) j * qPhase o (h.back q) j) := by
      rw [hr.gPhase_eq ho ho' hi.stay, hr.gPhase_eq ho ho' hi.stay, hr.qPhase_eq ho ho' hi.stay, hr.qPhase_eq ho ho' hi.stay,
        mul_mul_mul_comm, mul_mul_mul_comm (gPhase o (h.backZ G) j),
        mul_div_mul_right _ _ (mul_ne_zero (Complex.exp_ne_zero _) (Complex.exp_ne_zero _))]
    rw [h2, castV_backZ]
    simpa only [mul_comm] using h1
  have hz : h.backZ ⟨0, 0, 0⟩ = ⟨0, 0, 0⟩ := by simp [Change.backZ]
  have hs : ∀ f : V3 ℤ → ℂ, ((gvecs o lam).map fun G => f (h.backZ G)).sum = ((gvecs o lam).map f).sum := fun f =>
    sum_shells _ (nodup_gShells o lam) h.backZ hi.axes.backZ_injective hi.axes.maxAbs_backZ f
  have e : recipTerm o lam (h.back q) i j = fun a b => (recipFactor o lam : ℂ) *
      ((if isGamma q then gvecs o lam else ⟨0, 0, 0⟩ :: gvecs o lam).map fun G =>
        (kTerm o lam (Images.add (toCart (recip o) (castV ℝ (h.backZ G))) (toCart (recip o) (h.back q))) a b : ℂ) *
        ((gPhase o (h.backZ G) i * qPhase o (h.back q) i) / (gPhase o (h.backZ G) j * qPhase o (h.back q) j))).sum := by
    funext a b
    unfold recipTerm
    dsimp only
    rw [hi.axes.isGamma_back]
    congr 1
    split
    · exact (hs fun G => (kTerm o lam (Images.add (toCart (recip o) (castV ℝ G)) (toCart (recip o) (h.back q))) a b : ℂ) *
        ((gPhase o G i * qPhase o (h.back q) i) / (gPhase o G j * qPhase o (h.back q) j))).symm
    · rw [List.map_cons, List.map_cons, List.sum_cons, List.sum_cons, hz]
      congr 1
      exact (hs fun G => (kTerm o lam (Images.add (toCart (recip o) (castV ℝ G)) (toCart (recip o) (h.back q))) a b : ℂ) *
        ((gPhase o G i * qPhase o (h.back q) i) / (gPhase o G j * qPhase o (h.back q) j))).symm
  rw [e]
  unfold recipTerm
  rw [hf, hg']
  exact Carry.smul _ (Carry.list _ fun G _ => hterm G)

theorem Change.Relates.q0Term_carry (hr : h.Relates d d') (hi : h.RelatesIons o o') (ho : o.cv = d.cv ∧ o.r = d.r)
    (ho' : o'.cv = d'.cv ∧ o'.r = d'.r) (hok : d.Ok images) (hok' : d'.Ok images') (hc : cells erfc o' lam = cells erfc o lam)
    (hg : gShells o' lam = gShells o lam) (i j : Fin n) :
    Carry h.R (q0Term erfc o lam i j) (q0Term erfc o' lam (h.p i) (h.p j)) := by
  have e : ∀ o : Ions n, q0Term erfc o lam = fun i j a b =>
      recipFactor o lam * ((gShells o lam).map fun s => recipQ0Shell o lam s i j a b).sum -
        realTerm erfc o lam ⟨0, 0, 0⟩ i j a b := by
    intro o
    funext i j a b
    unfold q0Term
    rw [fill_eq, fill_eq]
    · congr 1
      unfold realTerm
      push_cast
      congr 1
      rw [← Complex.ofRealHom_eq_coe, map_list_sum, List.map_map]
      refine congrArg List.sum (List.map_congr_left fun L _ => ?_)
      simp
    · intro i j a b
      rw [star_real, realQ0_swap]
    · intro i j a b
      rw [star_mul', star_real, star_list_sum]
      simp only [recipQ0_swap o lam _ i j]
  have hf : recipFactor o' lam = recipFactor o lam := by
    unfold recipFactor Dipole.volume
    rw [hi.volume]
  have hb : h.back ⟨0, 0, 0⟩ = ⟨0, 0, 0⟩ := by simp [Change.back, dot]
  have h1 := hr.realTerm_carry (lam := lam) hi ho ho' hc ⟨0, 0, 0⟩ i j
  rw [hb] at h1
  rw [e, e]
  dsimp only
  rw [hf, hg]
  exact (Carry.smul _ (Carry.list _ fun s _ => hr.recipQ0_carry hi ho ho' hok hok' s i j)).sub h1

theorem Change.RelatesIons.sandwich (hi : h.RelatesIons o o') (hR : ∀ a b, ∑ c, h.R c a * h.R c b = if a = b then 1 else 0)
    (i j : Fin n) {X X' : Fin 3 → Fin 3 → ℂ} (hX : Carry h.R X X') :
    Carry h.R (fun a b => ∑ c, ∑ e, ((o.born i a c * o.born j b e : ℝ) : ℂ) * X c e)
      (fun a b => ∑ c, ∑ e, ((o'.born (h.p i) a c * o'.born (h.p j) b e : ℝ) : ℂ) * X' c e) := by
  simp only [Complex.ofReal_mul]
  exact Carry.sandwich hR (hi.born i).ofReal (hi.born j).ofReal hX

/-- The dipole correction of the second description is the one of the first, if the same shells are summed. -/
theorem Change.Relates.dipole_carries (hr : h.Relates d d') (hi : h.RelatesIons o o') (ho : o.cv = d.cv ∧ o.r = d.r)
    (ho' : o'.cv = d'.cv ∧ o'.r = d'.r) (hok : d.Ok images) (hok' : d'.Ok images') (hc : cells erfc o' lam = cells erfc o lam)
    (hg : gShells o' lam = gShells o lam) (q : V3 ℝ) :
    h.Carries q (dipoleCorrection erfc o lam (h.back q)) (dipoleCorrection erfc o' lam q) := by
  have hq0raw : ∀ i, Carry h.R (q0Raw erfc o lam i) (q0Raw erfc o' lam (h.p i)) := by
    intro i
    have e : q0Raw erfc o' lam (h.p i) = fun a b => ∑ j, ∑ c, ∑ e, ((o'.born (h.p i) a c * o'.born (h.p j) b e : ℝ) : ℂ) *
        q0Term erfc o' lam (h.p i) (h.p j) c e := by
      funext a b
      unfold q0Raw
      exact (Equiv.sum_comp h.p _).symm
    rw [e]
    unfold q0Raw
    exact Carry.sum _ fun j => hi.sandwich hr.ortho i j (hr.q0Term_carry hi ho ho' hok hok' hc hg i j)
  have hq0 : ∀ i, Carry h.R (q0 erfc o lam i) (q0 erfc o' lam (h.p i)) := fun i =>
    Carry.smul (1 / 2) ((hq0raw i).add (hq0raw i).transpose)
  have hcorr : ∀ i j, Carry h.R (corrAt erfc o lam (h.back (rem q)) i j) (corrAt erfc o' lam (rem q) (h.p i) (h.p j)) := by
    intro i j
    unfold corrAt
    simp only [fill_eq _ (recipTerm_swap _ lam _), fill_eq _ (realTerm_swap erfc _ lam _), EmbeddingLike.apply_eq_iff_eq]
    refine Carry.sub (hi.sandwich hr.ortho i j ((hr.recipTerm_carry hi ho ho' hok hok' hg _ i j).sub
      (hr.realTerm_carry hi ho ho' hc _ i j))) ?_
    split
    · exact hq0 i
    · exact Carry.zero _
  intro i j a b
  unfold dipoleCorrection
  simp only [row_div, row_mod, hi.stay, hi.axes.rem_back]
  have h0 : expQR q ⟨0, 0, 0⟩ = 1 := by simp [expQR]
  rw [hcorr i j a b, h0]
  refine Finset.sum_congr rfl fun a' _ => Finset.sum_congr rfl fun b' _ => ?_
  rw [one_mul, one_mul, Complex.star_def, Complex.conj_ofReal]
  ring

/-- The same for the correction that depends on the direction of approach. -/
theorem Change.Relates.gamma_carries (hr : h.Relates d d') (hi : h.RelatesIons o o') (ho : o.cv = d.cv ∧ o.r = d.r)
    (ho' : o'.cv = d'.cv ∧ o'.r = d'.r) (hok : d.Ok images) (hok' : d'.Ok images') (q dir : V3 ℝ) :
    h.Carries q (gammaCorrection o (h.back dir)) (gammaCorrection o' dir) := by
  intro i j a b
  unfold gammaCorrection
  simp only [hi.axes.isGamma_back]
  split
  · simp
  · have h0 : expQR q ⟨0, 0, 0⟩ = 1 := by simp [expQR]
    simp only [row_div, row_mod, hi.stay, h0, hr.recip_eq ho ho' hok hok', Dipole.volume, hi.volume]
    set v := toCart (recip o) (h.back dir) with hv
    have e1 : ∀ (D : Matrix (Fin 3) (Fin 3) ℝ) (k : V3 ℝ), ∑ a, ∑ b, D a b * comp k a * comp k b = ∑ b, vecMat k D b * comp k b := by
      intro D k
      unfold vecMat
      simp only [Finset.sum_mul]
      rw [Finset.sum_comm]
      exact Finset.sum_congr rfl fun b _ => Finset.sum_congr rfl fun a _ => by ring
    have e2 : ∑ a, ∑ b, o'.diel a b * comp (rotV h.R v) a * comp (rotV h.R v) b = ∑ a, ∑ b, o.diel a b * comp v a * comp v b := by
      rw [e1, e1]
      simp only [vecMat_rotV hr.ortho hi.diel, sum_rot hr.ortho]
    have e3 : ∀ i a, ∑ b, o'.born (h.p i) a b * comp (rotV h.R v) b = ∑ a', h.R a a' * ∑ b', o.born i a' b' * comp v b' := by
      intro i a
      have hb : ∀ b, o'.born (h.p i) a b = ∑ a', ∑ b', h.R a a' * h.R b b' * o.born i a' b' := fun b => hi.born i a b
      simp only [hb]
      have : ∀ a', ∑ b', o.born i a' b' * comp v b' = ∑ b', o.born i a' b' * ∑ b, h.R b b' * comp (rotV h.R v) b := by
        intro a'
        refine Finset.sum_congr rfl fun b' _ => ?_
        rw [rotV_inv hr.ortho]
      simp only [this, Finset.mul_sum, Finset.sum_mul]
      rw [Finset.sum_comm]
      refine Finset.sum_congr rfl fun a' _ => ?_
      rw [Finset.sum_comm]
      exact Finset.sum_congr rfl fun b' _ => Finset.sum_congr rfl fun b _ => by ring
    rw [e2, e3, e3]
    generalize 4 * Real.pi / _ = f
    rw [Finset.sum_mul_sum, Finset.sum_mul]
    push_cast
    refine Finset.sum_congr rfl fun a' _ => ?_
    rw [Finset.sum_mul]
    refine Finset.sum_congr rfl fun b' _ => ?_
    rw [one_mul, one_mul, Complex.star_def, Complex.conj_ofReal]
    ring

/-! ## The shells that are summed -/

theorem foldl_max_le {l : List ℝ} {x c : ℝ} : l.foldl max x ≤ c ↔ x ≤ c ∧ ∀ y ∈ l, y ≤ c := by
  induction l generalizing x with
  | nil => simp
  | cons a l ih =>
    rw [List.foldl_cons, ih, max_le_iff]
    simp only [List.mem_cons, forall_eq_or_imp]
    tauto

theorem amax_le {l : List ℝ} {c : ℝ} : amax l ≤ c ↔ 0 ≤ c ∧ ∀ y ∈ l, y ≤ c := foldl_max_le

theorem amax_nonneg (l : List ℝ) : 0 ≤ amax l := (amax_le.1 le_rfl).1

theorem le_amax {l : List ℝ} {y : ℝ} (hy : y ∈ l) : y ≤ amax l := (amax_le.1 le_rfl).2 y hy

theorem mem_upperElems {e : Fin n × Fin n × Fin 3 × Fin 3} : e ∈ upperElems n ↔ e.1 ≤ e.2.1 := by
  obtain ⟨i, j, a, b⟩ := e
  simp [upperElems]

/-- The largest term of a shell, over all pairs of atoms. -/
theorem hab_le_amax (erfc : ℝ → ℝ) (o : Ions n) (lam : ℝ) (s : Nat) {L : V3 ℤ} (hL : L ∈ shell s) (i j : Fin n) (a b : Fin 3) :
    |hab erfc o lam L i j a b| ≤ amax ((shell s).flatMap fun R =>
      (upperElems n).map fun e => |hab erfc o lam R e.1 e.2.1 e.2.2.1 e.2.2.2|) := by
  rcases le_total i j with hij | hij
  · exact le_amax (List.mem_flatMap.2 ⟨L, hL, List.mem_map.2 ⟨(i, j, a, b), mem_upperElems.2 hij, rfl⟩⟩)
  · have hL' : neg L ∈ shell s := by
      have := (negClosed_shells [s] (by simp)).2 L (by simpa using hL)
      simpa using this
    rw [← hab_neg]
    exact le_amax (List.mem_flatMap.2 ⟨neg L, hL', List.mem_map.2 ⟨(j, i, a, b), mem_upperElems.2 hij, rfl⟩⟩)

theorem recip_le_amax (o : Ions n) (lam : ℝ) (s : Nat) (i j : Fin n) (a b : Fin 3) :
    ‖recipQ0Shell o lam s i j a b‖ ≤ amax ((upperElems n).map fun e => ‖recipQ0Shell o lam s e.1 e.2.1 e.2.2.1 e.2.2.2‖) := by
  rcases le_total i j with hij | hij
  · exact le_amax (List.mem_map.2 ⟨(i, j, a, b), mem_upperElems.2 hij, rfl⟩)
  · rw [recipQ0_swap, norm_star]
    exact le_amax (List.mem_map.2 ⟨(j, i, a, b), mem_upperElems.2 hij, rfl⟩)

theorem SignedRot.carry {R : Fin 3 → Fin 3 → ℝ} (hR : SignedRot R) : ∃ τ : Equiv.Perm (Fin 3),
    (∀ X X' : Fin 3 → Fin 3 → ℝ, CarryR R X X' → ∀ a b, |X' (τ a) (τ b)| = |X a b|) ∧
    ∀ X X' : Fin 3 → Fin 3 → ℂ, Carry R X X' → ∀ a b, ‖X' (τ a) (τ b)‖ = ‖X a b‖ := by
  obtain ⟨τ, δ, hδ, hR⟩ := hR
  have hd : ∀ b, |δ b| = 1 := fun b => by rcases hδ b with e | e <;> simp [e]
  refine ⟨τ, fun X X' h a b => ?_, fun X X' h a b => ?_⟩
  · rw [h]
    simp only [hR, EmbeddingLike.apply_eq_iff_eq]
    simp [abs_mul, hd]
  · rw [h]
    simp only [hR, EmbeddingLike.apply_eq_iff_eq]
    rw [Finset.sum_eq_single a]
    · rw [Finset.sum_eq_single b]
      · rw [if_pos rfl, if_pos rfl, norm_mul, norm_mul, Complex.norm_real, Complex.norm_real, Real.norm_eq_abs, Real.norm_eq_abs, hd,
          hd]
        ring
      · intro b' _ hb
        simp [Ne.symm hb]
      · simp
    · intro a' _ ha
      simp [Ne.symm ha]
    · simp

theorem Change.Relates.cells_eq (hr : h.Relates d d') (hi : h.RelatesIons o o') (ho : o.cv = d.cv ∧ o.r = d.r)
    (ho' : o'.cv = d'.cv ∧ o'.r = d'.r) (hR : SignedRot h.R) : cells erfc o' lam = cells erfc o lam := by
  obtain ⟨τ, hτ, -⟩ := hR.carry
  have hm : ∀ s, amax ((shell s).flatMap fun R => (upperElems n).map fun e => |hab erfc o' lam R e.1 e.2.1 e.2.2.1 e.2.2.2|) =
      amax ((shell s).flatMap fun R => (upperElems n).map fun e => |hab erfc o lam R e.1 e.2.1 e.2.2.1 e.2.2.2|) := by
    intro s
    apply le_antisymm
    · refine amax_le.2 ⟨amax_nonneg _, fun y hy => ?_⟩
      obtain ⟨L, hL, hy⟩ := List.mem_flatMap.1 hy
      obtain ⟨⟨i, j, a, b⟩, -, rfl⟩ := List.mem_map.1 hy
      have h1 := hτ _ _ (hr.hab_carry hi ho ho' erfc lam (mulMat L h.B) (h.p.symm i) (h.p.symm j)) (τ.symm a) (τ.symm b)
      rw [hr.right] at h1
      simp only [Equiv.apply_symm_apply] at h1
      simp only [h1]
      refine hab_le_amax erfc o lam s ?_ _ _ _ _
      rw [mem_shell] at hL ⊢
      rw [← hL, ← hi.axes.maxAbs_mulMat, hr.right]
    · refine amax_le.2 ⟨amax_nonneg _, fun y hy => ?_⟩
      obtain ⟨L, hL, hy⟩ := List.mem_flatMap.1 hy
      obtain ⟨⟨i, j, a, b⟩, -, rfl⟩ := List.mem_map.1 hy
      have h1 := hτ _ _ (hr.hab_carry hi ho ho' erfc lam L i j) a b
      simp only [← h1]
      refine hab_le_amax erfc o' lam s ?_ _ _ _ _
      rw [mem_shell] at hL ⊢
      rw [hi.axes.maxAbs_mulMat, hL]
  unfold cells
  simp only [hm]

theorem Change.Relates.gShells_eq (hr : h.Relates d d') (hi : h.RelatesIons o o') (ho : o.cv = d.cv ∧ o.r = d.r)
    (ho' : o'.cv = d'.cv ∧ o'.r = d'.r) (hok : d.Ok images) (hok' : d'.Ok images') (hR : SignedRot h.R) :
    gShells o' lam = gShells o lam := by
  obtain ⟨τ, -, hτ⟩ := hR.carry
  have hm : ∀ s, amax ((upperElems n).map fun e => ‖recipQ0Shell o' lam s e.1 e.2.1 e.2.2.1 e.2.2.2‖) =
      amax ((upperElems n).map fun e => ‖recipQ0Shell o lam s e.1 e.2.1 e.2.2.1 e.2.2.2‖) := by
    intro s
    apply le_antisymm
    · refine amax_le.2 ⟨amax_nonneg _, fun y hy => ?_⟩
      obtain ⟨⟨i, j, a, b⟩, -, rfl⟩ := List.mem_map.1 hy
      have h1 := hτ _ _ (hr.recipQ0_carry (lam := lam) hi ho ho' hok hok' s (h.p.symm i) (h.p.symm j)) (τ.symm a) (τ.symm b)
      simp only [Equiv.apply_symm_apply] at h1
      simp only [h1]
      exact recip_le_amax o lam s _ _ _ _
    · refine amax_le.2 ⟨amax_nonneg _, fun y hy => ?_⟩
      obtain ⟨⟨i, j, a, b⟩, -, rfl⟩ := List.mem_map.1 hy
      have h1 := hτ _ _ (hr.recipQ0_carry (lam := lam) hi ho ho' hok hok' s i j) a b
      simp only [← h1]
      exact recip_le_amax o' lam s _ _ _ _
  unfold gShells
  simp only [hm]

/-- The screening parameter. -/
theorem Change.Relates.upperLambda_eq (hr : h.Relates d d') (hi : h.RelatesIons o o') (ho : o.cv = d.cv ∧ o.r = d.r)
    (ho' : o'.cv = d'.cv ∧ o'.r = d'.r) (x : ℝ) : upperLambda o' x = upperLambda o x := by
  obtain ⟨σ, ε, hε, hA⟩ := hi.axes
  have hlen : ∀ i, dot (comp ⟨d'.cv.a, d'.cv.b, d'.cv.c⟩ (σ i)) (comp ⟨d'.cv.a, d'.cv.b, d'.cv.c⟩ (σ i)) =
      dot (comp ⟨d.cv.a, d.cv.b, d.cv.c⟩ i) (comp ⟨d.cv.a, d.cv.b, d.cv.c⟩ i) := by
    intro i
    -- the unit vector
    set e : V3 ℝ := ⟨if i = 0 then 1 else 0, if i = 1 then 1 else 0, if i = 2 then 1 else 0⟩ with he
    have h1 := hr.vectors e
    have h2 : toCart d.cv e = comp ⟨d.cv.a, d.cv.b, d.cv.c⟩ i := by
      fin_cases i <;> simp [he, toCart, comp]
    have h3 : toCart (castM h.A) e = castV ℝ (comp ⟨h.A.a, h.A.b, h.A.c⟩ i) := by
      fin_cases i <;> simp [he, toCart, comp, castM]
    have h4 : toCart d'.cv (castV ℝ (comp ⟨h.A.a, h.A.b, h.A.c⟩ i)) = smul (ε i : ℝ) (comp ⟨d'.cv.a, d'.cv.b, d'.cv.c⟩ (σ i)) := by
      have e0 := hA i 0
      have e1 := hA i 1
      have e2 := hA i 2
      rw [show comp (comp ⟨h.A.a, h.A.b, h.A.c⟩ i) 0 = (comp ⟨h.A.a, h.A.b, h.A.c⟩ i).x from rfl] at e0
      rw [show comp (comp ⟨h.A.a, h.A.b, h.A.c⟩ i) 1 = (comp ⟨h.A.a, h.A.b, h.A.c⟩ i).y from rfl] at e1
      rw [show comp (comp ⟨h.A.a, h.A.b, h.A.c⟩ i) 2 = (comp ⟨h.A.a, h.A.b, h.A.c⟩ i).z from rfl] at e2
      simp only [toCart, castV, e0, e1, e2, smul]
      generalize σ i = k
      fin_cases k <;> simp [comp]
    have h5 : dot (rotV h.R (toCart d.cv e)) (rotV h.R (toCart d.cv e)) = dot (toCart d.cv e) (toCart d.cv e) := dot_rotV hr.ortho _ _
    rw [← h1, h3, h4, h2] at h5
    rw [← h5]
    simp only [dot, smul]
    rcases hε i with h6 | h6 <;> simp [h6]
  have hprod : ∏ i, √(dot (comp ⟨d'.cv.a, d'.cv.b, d'.cv.c⟩ i) (comp ⟨d'.cv.a, d'.cv.b, d'.cv.c⟩ i)) =
      ∏ i, √(dot (comp ⟨d.cv.a, d.cv.b, d.cv.c⟩ i) (comp ⟨d.cv.a, d.cv.b, d.cv.c⟩ i)) := by
    rw [← Equiv.prod_comp σ]
    exact Finset.prod_congr rfl fun i _ => by rw [hlen]
  rw [Fin.prod_univ_three, Fin.prod_univ_three] at hprod
  have hprod' : √(dot d'.cv.a d'.cv.a) * √(dot d'.cv.b d'.cv.b) * √(dot d'.cv.c d'.cv.c) =
      √(dot d.cv.a d.cv.a) * √(dot d.cv.b d.cv.b) * √(dot d.cv.c d.cv.c) := hprod
  unfold upperLambda
  simp only [ho.1, ho'.1]
  rw [hprod', CarryR.det hr.ortho hi.diel]

end

/-! ## Frequencies -/

/-- The matrix that is diagonalised for a polar crystal: with the dipole correction for the screening parameter `x` and, at gamma
points, the splitting for a direction. -/
noncomputable def Description.polar (d : Description n N) (born : Fin n → Fin 3 → Fin 3 → ℝ) (diel : Matrix (Fin 3) (Fin 3) ℝ)
    (erfc : ℝ → ℝ) (x : ℝ) (images : List (V3 ℤ)) (junk : Fin N → Mat n ℝ) (q : V3 ℝ) (dir : Option (V3 ℝ)) : Mat n ℂ :=
  DynMat.weighted (massWeighting d.mass) (d.dynMat images junk q)
    (some (dipoleCorrection erfc (d.ions born diel) (upperLambda (d.ions born diel) x) q)) none
    (dir.map (gammaCorrection (d.ions born diel)))

theorem gamma_herm (o : Ions n) (dir : V3 ℝ) (k l : Fin (n * 3)) : gammaCorrection o dir l k = star (gammaCorrection o dir k l) := by
  unfold gammaCorrection
  split
  · simp
  · dsimp only
    rw [star_real, mul_comm (∑ b, _) (∑ b, _)]

theorem Change.Relates.polar_carries (hr : h.Relates d d') {images images' : List (V3 ℤ)} (hok : d.Ok images)
    (hok' : d'.Ok images') {born born' : Fin n → Fin 3 → Fin 3 → ℝ} {diel diel' : Matrix (Fin 3) (Fin 3) ℝ}
    (hi : h.RelatesIons (d.ions born diel) (d'.ions born' diel')) (erfc : ℝ → ℝ) (x : ℝ)
    (hc : ∀ lam, cells erfc (d'.ions born' diel') lam = cells erfc (d.ions born diel) lam)
    (hg : ∀ lam, gShells (d'.ions born' diel') lam = gShells (d.ions born diel) lam)
    (junk : Fin N → Mat n ℝ) (junk' : Fin N' → Mat n ℝ) (q : V3 ℝ) (dir : Option (V3 ℝ)) :
    h.Carries q (d.polar born diel erfc x images junk (h.back q) (dir.map h.back))
      (d'.polar born' diel' erfc x images' junk' q dir) := by
  unfold Description.polar
  refine hr.weighted (hr.carries hok hok' junk junk' q) ?_ trivial ?_
  · rw [hr.upperLambda_eq hi ⟨rfl, rfl⟩ ⟨rfl, rfl⟩]
    exact hr.dipole_carries hi ⟨rfl, rfl⟩ ⟨rfl, rfl⟩ hok hok' (hc _) (hg _) q
  · cases dir with
    | none => trivial
    | some dir => exact hr.gamma_carries hi ⟨rfl, rfl⟩ ⟨rfl, rfl⟩ hok hok' q dir

theorem Description.polar_herm (d : Description n N) {images : List (V3 ℤ)} (hok : d.Ok images) {op : Fin N → Fin N}
    {t : Fin N → V3 ℤ} (hs : Symmetric d.cells d.S d.fc op t) (born : Fin n → Fin 3 → Fin 3 → ℝ)
    {diel : Matrix (Fin 3) (Fin 3) ℝ} (hd : diel.transpose = diel) (erfc : ℝ → ℝ) (x : ℝ) (junk : Fin N → Mat n ℝ) (q : V3 ℝ)
    (dir : Option (V3 ℝ)) (k l : Fin (n * 3)) :
    d.polar born diel erfc x images junk q dir l k = star (d.polar born diel erfc x images junk q dir k l) := by
  unfold Description.polar
  refine Stability.weighted_herm d.mass ?_ ?_ ?_ ?_ k l
  · intro k l
    exact C123_hermitian_partial d.cv d.r d.cells d.c0 d.S images hok.reduced.shells hok.reduced.volume hok.reduced.reduced
      hok.reduced.within hs hok.first junk q k l
  · rintro M ⟨⟩ k l
    exact C50_hermitian erfc _ _ hd q k l
  · rintro M ⟨⟩
  · intro M hM k l
    cases dir with
    | none => cases hM
    | some dir =>
      obtain rfl := Option.some.inj hM
      exact gamma_herm _ _ k l

/-- **C131** (partial: supercells are reduced, axes exchanged or reversed, rotations of which the same shells of cells are
summed) Frequencies of polar crystals, with dipole correction and splitting, do not depend on how the crystal is described. -/
theorem C131_polar_shells_partial (hr : h.Relates d d') {images images' : List (V3 ℤ)} (hok : d.Ok images)
    (hok' : d'.Ok images') {op : Fin N → Fin N} {t : Fin N → V3 ℤ} (hs : Symmetric d.cells d.S d.fc op t)
    {born born' : Fin n → Fin 3 → Fin 3 → ℝ} {diel diel' : Matrix (Fin 3) (Fin 3) ℝ}
    (hi : h.RelatesIons (d.ions born diel) (d'.ions born' diel')) (hd : diel.transpose = diel) (erfc : ℝ → ℝ) (x : ℝ)
    (hc : ∀ lam, cells erfc (d'.ions born' diel') lam = cells erfc (d.ions born diel) lam)
    (hg : ∀ lam, gShells (d'.ions born' diel') lam = gShells (d.ions born diel) lam)
    (junk : Fin N → Mat n ℝ) (junk' : Fin N' → Mat n ℝ) (q : V3 ℝ) (dir : Option (V3 ℝ))
    {eigh eigh' : Mat n ℂ → (Fin (n * 3) → ℝ) × Mat n ℂ} (he : IsEigh eigh) (he' : IsEigh eigh') (s : Fin (n * 3)) :
    freqOf ((eigh' (d'.polar born' diel' erfc x images' junk' q dir)).1 s) =
      freqOf ((eigh (d.polar born diel erfc x images junk (h.back q) (dir.map h.back))).1 s) := by
  rw [hr.evals (hr.polar_carries hok hok' hi erfc x hc hg junk junk' q dir) (d.polar_herm hok hs born hd erfc x junk _ _) he he']

/-- **C131** (partial: as above) The same shells are summed, and the frequencies are the same, if the atoms are written down in
another order, the origin is moved, or axes are exchanged or reversed. -/
theorem C131_polar_partial (hr : h.Relates d d') {images images' : List (V3 ℤ)} (hok : d.Ok images)
    (hok' : d'.Ok images') {op : Fin N → Fin N} {t : Fin N → V3 ℤ} (hs : Symmetric d.cells d.S d.fc op t)
    {born born' : Fin n → Fin 3 → Fin 3 → ℝ} {diel diel' : Matrix (Fin 3) (Fin 3) ℝ}
    (hi : h.RelatesIons (d.ions born diel) (d'.ions born' diel')) (hR : SignedRot h.R) (hd : diel.transpose = diel)
    (erfc : ℝ → ℝ) (x : ℝ) (junk : Fin N → Mat n ℝ) (junk' : Fin N' → Mat n ℝ) (q : V3 ℝ) (dir : Option (V3 ℝ))
    {eigh eigh' : Mat n ℂ → (Fin (n * 3) → ℝ) × Mat n ℂ} (he : IsEigh eigh) (he' : IsEigh eigh') (s : Fin (n * 3)) :
    freqOf ((eigh' (d'.polar born' diel' erfc x images' junk' q dir)).1 s) =
      freqOf ((eigh (d.polar born diel erfc x images junk (h.back q) (dir.map h.back))).1 s) :=
  C131_polar_shells_partial hr hok hok' hs hi hd erfc x (fun _ => hr.cells_eq hi ⟨rfl, rfl⟩ ⟨rfl, rfl⟩ hR)
    (fun _ => hr.gShells_eq hi ⟨rfl, rfl⟩ ⟨rfl, rfl⟩ hok hok' hR) junk junk' q dir he he' s

/-- **C132** (partial: supercells are reduced; operations that exchange or reverse axes, as all of a cubic lattice do) Polar
crystals: for a proper operation that leaves crystal, force constants, Born charges and dielectric tensor as they are, the
frequencies at a wavevector and at the one it is moved to are equal. -/
theorem C132_polar_partial {h : Change n N N} (hr : h.Relates d d) {images : List (V3 ℤ)} (hok : d.Ok images)
    {op : Fin N → Fin N} {t : Fin N → V3 ℤ} (hs : Symmetric d.cells d.S d.fc op t) {born : Fin n → Fin 3 → Fin 3 → ℝ}
    {diel : Matrix (Fin 3) (Fin 3) ℝ} (hi : h.RelatesIons (d.ions born diel) (d.ions born diel)) (hR : SignedRot h.R)
    (hd : diel.transpose = diel) (erfc : ℝ → ℝ) (x : ℝ) (junk : Fin N → Mat n ℝ) (q : V3 ℝ) (dir : Option (V3 ℝ))
    {eigh : Mat n ℂ → (Fin (n * 3) → ℝ) × Mat n ℂ} (he : IsEigh eigh) (s : Fin (n * 3)) :
    freqOf ((eigh (d.polar born diel erfc x images junk q dir)).1 s) =
      freqOf ((eigh (d.polar born diel erfc x images junk (h.back q) (dir.map h.back))).1 s) :=
  C131_polar_partial hr hok hok hs hi hR hd erfc x junk junk q dir he he s

/-! ### A case meeting the hypotheses -/

namespace Ex

/-- Charges of the two kinds of atoms. -/
noncomputable def born : Fin 2 → Fin 3 → Fin 3 → ℝ := fun i a b => if a = b then ![2, -2] i * ![3, 1, 1] a else 0

/-- Dielectric tensor. -/
noncomputable def diel : Matrix (Fin 3) (Fin 3) ℝ := Matrix.diagonal ![4, 5, 5]

theorem relatesIons : rotation.RelatesIons (Ex.d.ions born diel) (Ex.d.ions born diel) where
  axes := by
    refine ⟨Equiv.swap 1 2, ![1, 1, -1], fun i => by fin_cases i <;> simp, fun i j => ?_⟩
    fin_cases i <;> fin_cases j <;> simp [rotation, comp, Equiv.swap_apply_def]
  stay := fun _ => rfl
  volume := rfl
  diel := fun a b => by
    fin_cases a <;> fin_cases b <;> simp [rotation, Description.ions, diel, Fin.sum_univ_three, Matrix.diagonal_apply]
  born := fun i a b => by
    fin_cases a <;> fin_cases b <;> fin_cases i <;> simp [rotation, Description.ions, born, Fin.sum_univ_three]

theorem signedRot : SignedRot rotation.R := by
  refine ⟨Equiv.swap 1 2, ![1, 1, -1], fun i => by fin_cases i <;> simp, fun i j => ?_⟩
  fin_cases i <;> fin_cases j <;> simp [rotation, Equiv.swap_apply_def]

/-- The frequencies of the polar chain at wavevectors that are rotated about it, and for directions that are. -/
example (erfc : ℝ → ℝ) (junk : Fin 2 → Mat 2 ℝ) {eigh : Mat 2 ℂ → (Fin (2 * 3) → ℝ) × Mat 2 ℂ} (he : IsEigh eigh) (s : Fin (2 * 3)) :
    freqOf ((eigh (Ex.d.polar born diel erfc 1 shells2 junk ⟨1 / 5, 1 / 3, 1 / 7⟩ none)).1 s) =
      freqOf ((eigh (Ex.d.polar born diel erfc 1 shells2 junk ⟨1 / 5, 1 / 7, -1 / 3⟩ none)).1 s) ∧
    freqOf ((eigh (Ex.d.polar born diel erfc 1 shells2 junk ⟨0, 0, 0⟩ (some ⟨0, 1 / 3, 0⟩))).1 s) =
      freqOf ((eigh (Ex.d.polar born diel erfc 1 shells2 junk ⟨0, 0, 0⟩ (some ⟨0, 0, -1 / 3⟩))).1 s) := by
  have hd : diel.transpose = diel := by simp [diel]
  constructor
  · rw [C132_polar_partial isSymmetry ok symmetric relatesIons signedRot hd erfc 1 junk _ none he]
    congr 4
    simp [Change.back, rotation, dot, castV]
    norm_num
  · rw [C132_polar_partial isSymmetry ok symmetric relatesIons signedRot hd erfc 1 junk _ (some ⟨0, 1 / 3, 0⟩) he]
    simp only [Option.map_some, Change.back, rotation, dot, castV]
    norm_num

end Ex

end Euphonic.Describe
