import Verif.Props.DipoleEwald

/-!
# C158: what the long-range sums converge to belongs to the crystal, not to its description

Shells of cells depend on the choice of the cell vectors, and so does the splitting of the sums.  The complete series do not: for
every choice of cell vectors, origin, order of the atoms and cells they are written down in, for every orientation and for every two
values of `dipole_parameter` the correction is the same, so that frequencies are.  What the code calculates in two descriptions
differs by what is left out only.
-/

set_option autoImplicit false
set_option linter.unusedSectionVars false

namespace Euphonic.Describe

open Euphonic.Lattice Euphonic.Supercell Euphonic.Phases Euphonic.Images Euphonic.DynMat Euphonic.Reduced
open Euphonic.Commensurate Euphonic.Acoustic Euphonic.Dipole Euphonic.Poisson

variable {n N N' : Nat} {d : Description n N} {d' : Description n N'} {h : Change n N N'} {o o' : Ions n}

/-! ## Specification -/

/-- Two descriptions of the same ions: any cell vectors of the same lattice, right-handed in both cases, any orientation, origin,
order of the atoms and cells that they are written down in. -/
structure Change.SameIons (h : Change n N N') (o o' : Ions n) : Prop where
  left : ∀ v, mulMat (mulMat v h.A) h.B = v
  right : ∀ v, mulMat (mulMat v h.B) h.A = v
  ortho : ∀ a b, ∑ c, h.R c a * h.R c b = if a = b then 1 else 0
  vectors : ∀ x, toCart o'.cv (toCart (castM h.A) x) = rotV h.R (toCart o.cv x)
  positions : ∀ i, o'.r (h.p i) = add (add (toCart (castM h.A) (o.r i)) h.w) (castV ℝ (h.T i))
  handed : 0 < cellVolume o'.cv
  diel : CarryR h.R (fun a b => o.diel a b) (fun a b => o'.diel a b)
  born : ∀ i, CarryR h.R (o.born i) (o'.born (h.p i))

/-- The matrix that is diagonalised for a polar crystal, with the correction from complete series. -/
noncomputable def Description.polarComplete (d : Description n N) (born : Fin n → Fin 3 → Fin 3 → ℝ) (diel : Matrix (Fin 3) (Fin 3) ℝ)
    (erfc : ℝ → ℝ) (lam : ℝ) (images : List (V3 ℤ)) (junk : Fin N → Mat n ℝ) (q : V3 ℝ) (dir : Option (V3 ℝ)) : Mat n ℂ :=
  DynMat.weighted (massWeighting d.mass) (d.dynMat images junk q) (some (completeCorrection erfc (d.ions born diel) lam q)) none
    (dir.map (gammaCorrection (d.ions born diel)))

/-! ## Geometry -/

theorem Change.SameIons.mul_cells (hs : h.SameIons o o') :
    cellMat (castM h.A) * cellMat o'.cv = cellMat o.cv * (Matrix.of h.R).transpose := by
  have h1 := hs.vectors ⟨1, 0, 0⟩
  have h2 := hs.vectors ⟨0, 1, 0⟩
  have h3 := hs.vectors ⟨0, 0, 1⟩
  simp only [toCart, rotV, V3.mk.injEq, Fin.sum_univ_three, comp0, comp1, comp2] at h1 h2 h3
  obtain ⟨a1, a2, a3⟩ := h1
  obtain ⟨b1, b2, b3⟩ := h2
  obtain ⟨c1, c2, c3⟩ := h3
  ext i j
  rw [Matrix.mul_apply, Matrix.mul_apply, Fin.sum_univ_three, Fin.sum_univ_three]
  fin_cases i <;> fin_cases j <;> simp [cellMat] <;> first
    | linear_combination a1 | linear_combination a2 | linear_combination a3 | linear_combination b1 | linear_combination b2
    | linear_combination b3 | linear_combination c1 | linear_combination c2 | linear_combination c3

/-- The determinant. -/
def det3 (A : M3 ℤ) : ℤ :=
  A.a.x * (A.b.y * A.c.z - A.b.z * A.c.y) - A.a.y * (A.b.x * A.c.z - A.b.z * A.c.x) + A.a.z * (A.b.x * A.c.y - A.b.y * A.c.x)

theorem det_castM (A : M3 ℤ) : (cellMat (castM A)).det = det3 A := by
  rw [Matrix.det_fin_three]
  simp [cellMat, castM, castV, det3]
  ring

theorem Change.SameIons.det_unit (hs : h.SameIons o o') : det3 h.A = 1 ∨ det3 h.A = -1 := by
  have h1 := hs.left ⟨1, 0, 0⟩
  have h2 := hs.left ⟨0, 1, 0⟩
  have h3 := hs.left ⟨0, 0, 1⟩
  have e : (⟨mulMat h.A.a h.B, mulMat h.A.b h.B, mulMat h.A.c h.B⟩ : M3 ℤ) = ⟨⟨1, 0, 0⟩, ⟨0, 1, 0⟩, ⟨0, 0, 1⟩⟩ := by
    have u : ∀ A : M3 ℤ, mulMat ⟨1, 0, 0⟩ A = A.a ∧ mulMat ⟨0, 1, 0⟩ A = A.b ∧ mulMat ⟨0, 0, 1⟩ A = A.c := by
      intro A
      simp [mulMat]
    rw [(u h.A).1] at h1
    rw [(u h.A).2.1] at h2
    rw [(u h.A).2.2] at h3
    rw [h1, h2, h3]
  have m : ∀ A B : M3 ℤ, det3 A * det3 B = det3 ⟨mulMat A.a B, mulMat A.b B, mulMat A.c B⟩ := by
    intro A B
    simp only [det3, mulMat]
    ring
  have hz : det3 h.A * det3 h.B = 1 := by
    rw [m, e]
    rfl
  exact Int.isUnit_iff.1 (IsUnit.of_mul_eq_one _ hz)

theorem Change.SameIons.volume_eq (hs : h.SameIons o o') (hv : 0 < cellVolume o.cv) : cellVolume o'.cv = cellVolume o.cv := by
  have hR := congrArg Matrix.det (rot_left hs.ortho)
  rw [Matrix.det_mul, Matrix.det_transpose, Matrix.det_one] at hR
  have hR' : (Matrix.of h.R).det = 1 ∨ (Matrix.of h.R).det = -1 := mul_self_eq_one_iff.1 hR
  have hd := congrArg Matrix.det hs.mul_cells
  rw [Matrix.det_mul, Matrix.det_mul, Matrix.det_transpose, det_cellMat o'.cv, det_cellMat o.cv, det_castM] at hd
  have hv' := hs.handed
  rcases hs.det_unit with ha | ha <;> rcases hR' with hr | hr <;> rw [ha, hr] at hd <;> push_cast at hd <;> linarith

theorem Change.SameIons.recip_eq (hs : h.SameIons o o') (hv : 0 < cellVolume o.cv) (q : V3 ℝ) :
    toCart (recip o') q = rotV h.R (toCart (recip o) (h.back q)) := by
  unfold recip
  refine eq_of_dots hs.handed.ne' fun y => ?_
  obtain ⟨x, rfl⟩ : ∃ x, toCart (castM h.A) x = y := by
    refine ⟨toCart (castM h.B) y, ?_⟩
    have e1 := hs.right ⟨1, 0, 0⟩
    have e2 := hs.right ⟨0, 1, 0⟩
    have e3 := hs.right ⟨0, 0, 1⟩
    simp only [mulMat, V3.mk.injEq] at e1 e2 e3
    have c : ∀ {a b : ℤ}, a = b → (a : ℝ) = b := fun e => by rw [e]
    have f1 := c e1.1; have f2 := c e1.2.1; have f3 := c e1.2.2
    have g1 := c e2.1; have g2 := c e2.2.1; have g3 := c e2.2.2
    have k1 := c e3.1; have k2 := c e3.2.1; have k3 := c e3.2.2
    push_cast at f1 f2 f3 g1 g2 g3 k1 k2 k3
    simp only [toCart, castM, castV]
    refine V3.ext' ?_ ?_ ?_ <;> dsimp only
    · linear_combination y.x * f1 + y.y * g1 + y.z * k1
    · linear_combination y.x * f2 + y.y * g2 + y.z * k2
    · linear_combination y.x * f3 + y.y * g3 + y.z * k3
  rw [Gradient.dot_recip _ hs.handed.ne', hs.vectors, dot_rotV hs.ortho, Gradient.dot_recip _ hv.ne']
  simp only [Change.back, dot, toCart, castM]
  ring

/-- Reciprocal vectors in both descriptions. -/
def Change.SameIons.eqG (hs : h.SameIons o o') : V3 ℤ ≃ V3 ℤ where
  toFun := h.backZ
  invFun G := ⟨h.B.a.x * G.x + h.B.a.y * G.y + h.B.a.z * G.z, h.B.b.x * G.x + h.B.b.y * G.y + h.B.b.z * G.z,
    h.B.c.x * G.x + h.B.c.y * G.y + h.B.c.z * G.z⟩
  left_inv G := by
    have e1 := hs.right ⟨1, 0, 0⟩
    have e2 := hs.right ⟨0, 1, 0⟩
    have e3 := hs.right ⟨0, 0, 1⟩
    simp only [mulMat, V3.mk.injEq] at e1 e2 e3
    refine V3.ext' ?_ ?_ ?_ <;> simp only [Change.backZ]
    · linear_combination G.x * e1.1 + G.y * e1.2.1 + G.z * e1.2.2
    · linear_combination G.x * e2.1 + G.y * e2.2.1 + G.z * e2.2.2
    · linear_combination G.x * e3.1 + G.y * e3.2.1 + G.z * e3.2.2
  right_inv G := by
    have e1 := hs.left ⟨1, 0, 0⟩
    have e2 := hs.left ⟨0, 1, 0⟩
    have e3 := hs.left ⟨0, 0, 1⟩
    simp only [mulMat, V3.mk.injEq] at e1 e2 e3
    refine V3.ext' ?_ ?_ ?_ <;> simp only [Change.backZ]
    · linear_combination G.x * e1.1 + G.y * e1.2.1 + G.z * e1.2.2
    · linear_combination G.x * e2.1 + G.y * e2.2.1 + G.z * e2.2.2
    · linear_combination G.x * e3.1 + G.y * e3.2.1 + G.z * e3.2.2

/-- Cells in both descriptions. -/
def Change.SameIons.eqR (hs : h.SameIons o o') (i j : Fin n) : V3 ℤ ≃ V3 ℤ where
  toFun L := add (mulMat L h.A) (sub (h.T i) (h.T j))
  invFun L := mulMat (sub L (sub (h.T i) (h.T j))) h.B
  left_inv L := by
    have : sub (add (mulMat L h.A) (sub (h.T i) (h.T j))) (sub (h.T i) (h.T j)) = mulMat L h.A := by
      simp [sub, add]
    exact (congrArg (fun v => mulMat v h.B) this).trans (hs.left L)
  right_inv L := by
    change add (mulMat (mulMat _ h.B) h.A) _ = _
    rw [hs.right]
    simp [sub, add]

/-! ## The terms -/

theorem phases_eq (o : Ions n) (G : V3 ℤ) (q : V3 ℝ) (i j : Fin n) :
    gPhase o G i * qPhase o q i / (gPhase o G j * qPhase o q j) =
      Complex.exp (2 * Complex.I * Real.pi * (dot (add (castV ℝ G) q) (sub (o.r i) (o.r j)) : ℝ)) := by
  unfold gPhase qPhase
  rw [← Complex.exp_add, ← Complex.exp_add, ← Complex.exp_sub]
  congr 1
  simp only [dot, add, sub, castV]
  push_cast
  ring

theorem recipAt_eq (o : Ions n) (lam : ℝ) (q : V3 ℝ) (i j : Fin n) (a b : Fin 3) (G : V3 ℤ) :
    recipAt o lam q i j a b G = (recipFactor o lam *
      Complex.exp (2 * Complex.I * Real.pi * (dot (add (castV ℝ G) q) (sub (o.r i) (o.r j)) : ℝ))) *
        (kTerm o lam (toCart (recip o) (add (castV ℝ G) q)) a b : ℂ) := by
  unfold recipAt
  rw [phases_eq, Dipole.toCart_add]
  ring

theorem realAt_eq (erfc : ℝ → ℝ) (o : Ions n) (lam : ℝ) (q : V3 ℝ) (i j : Fin n) (a b : Fin 3) (L : V3 ℤ) :
    realAt erfc o lam q i j a b L = (realFactor o lam * expQR q L) * (hab erfc o lam L i j a b : ℂ) := by
  unfold realAt expQR
  rw [← mul_assoc]
  congr 3
  push_cast
  ring

theorem exp_int (z : ℤ) : Complex.exp (2 * Complex.I * Real.pi * ((z : ℝ) : ℂ)) = 1 := by
  rw [Complex.exp_eq_one_iff]
  exact ⟨z, by push_cast; ring⟩

theorem Change.SameIons.recipAt_carry (hs : h.SameIons o o') (hv : 0 < cellVolume o.cv) (lam : ℝ) (q : V3 ℝ) (i j : Fin n) (G : V3 ℤ) :
    Carry h.R (fun a b => expQR q (h.T i) * star (expQR q (h.T j)) * recipAt o lam (h.back q) i j a b (h.backZ G))
      (fun a b => recipAt o' lam q (h.p i) (h.p j) a b G) := by
  have hf : recipFactor o' lam = recipFactor o lam := by
    unfold recipFactor Dipole.volume
    rw [hs.volume_eq hv]
  have hk : add (castV ℝ (h.backZ G)) (h.back q) = h.back (add (castV ℝ G) q) := by
    rw [castV_backZ]
    simp only [Change.back, dot, add, castV, V3.mk.injEq]
    refine ⟨?_, ?_, ?_⟩ <;> ring
  have hp : Complex.exp (2 * Complex.I * Real.pi * (dot (add (castV ℝ G) q) (sub (o'.r (h.p i)) (o'.r (h.p j))) : ℝ)) =
      expQR q (h.T i) * star (expQR q (h.T j)) *
        Complex.exp (2 * Complex.I * Real.pi * (dot (h.back (add (castV ℝ G) q)) (sub (o.r i) (o.r j)) : ℝ)) := by
    rw [← expQR_neg', ← expQR_add]
    unfold expQR
    rw [← Complex.exp_add]
    have e := exp_int (G.x * (h.T i).x + G.y * (h.T i).y + G.z * (h.T i).z - (G.x * (h.T j).x + G.y * (h.T j).y + G.z * (h.T j).z))
    rw [← one_mul (Complex.exp (_ + _)), ← e, ← Complex.exp_add, hs.positions, hs.positions]
    congr 1
    simp only [dot, add, sub, neg, castV, Change.back, toCart, castM]
    push_cast
    ring
  intro a b
  have key := ((Describe.kTerm_carry hs.ortho hs.diel lam (toCart (recip o) (h.back (add (castV ℝ G) q)))).ofReal.smul
    (expQR q (h.T i) * star (expQR q (h.T j)) * (recipFactor o lam * Complex.exp (2 * Complex.I * Real.pi *
      (dot (h.back (add (castV ℝ G) q)) (sub (o.r i) (o.r j)) : ℝ))))) a b
  dsimp only at key ⊢
  rw [recipAt_eq, hp, hf, hs.recip_eq hv]
  simp only [recipAt_eq, hk]
  refine Eq.trans ?_ (key.trans ?_)
  · ring
  · refine Finset.sum_congr rfl fun a' _ => Finset.sum_congr rfl fun b' _ => ?_
    ring

theorem Change.SameIons.sep_eq (hs : h.SameIons o o') (L : V3 ℤ) (i j : Fin n) :
    sep o' (add (mulMat L h.A) (sub (h.T i) (h.T j))) (h.p i) (h.p j) = rotV h.R (sep o L i j) := by
  unfold sep
  rw [← toCart_sub, ← toCart_sub, ← toCart_sub, ← toCart_sub, ← hs.vectors, hs.positions, hs.positions]
  congr 1
  simp only [Lattice.sub, add, toCart, castV, castM, mulMat, V3.mk.injEq]
  push_cast
  refine ⟨?_, ?_, ?_⟩ <;> ring

theorem Change.SameIons.realAt_carry (hs : h.SameIons o o') (erfc : ℝ → ℝ) (lam : ℝ) (q : V3 ℝ) (i j : Fin n) (L : V3 ℤ) :
    Carry h.R (fun a b => expQR q (h.T i) * star (expQR q (h.T j)) * realAt erfc o lam (h.back q) i j a b L)
      (fun a b => realAt erfc o' lam q (h.p i) (h.p j) a b (hs.eqR i j L)) := by
  have hf : realFactor o' lam = realFactor o lam := by
    unfold realFactor
    rw [CarryR.det hs.ortho hs.diel]
  have hz : (add (mulMat L h.A) (sub (h.T i) (h.T j)) = ⟨0, 0, 0⟩ ∧ h.p i = h.p j) ↔ (L = ⟨0, 0, 0⟩ ∧ i = j) := by
    rw [EmbeddingLike.apply_eq_iff_eq]
    refine and_congr_left fun hij => ?_
    subst hij
    have e : add (mulMat L h.A) (sub (h.T i) (h.T i)) = mulMat L h.A := by simp [add, sub]
    rw [e]
    constructor
    · intro e
      rw [← hs.left L, e]
      simp [mulMat]
    · rintro rfl
      simp [mulMat]
  have hh : CarryR h.R (hab erfc o lam L i j) (hab erfc o' lam (add (mulMat L h.A) (sub (h.T i) (h.T j))) (h.p i) (h.p j)) := by
    intro a b
    rw [hab_eq, hs.sep_eq]
    simp only [hab_eq, hz]
    split
    · simp
    · exact habOf_carry erfc lam hs.ortho (CarryR.inv hs.ortho hs.diel) _ a b
  have hp : expQR q (add (mulMat L h.A) (sub (h.T i) (h.T j))) =
      expQR q (h.T i) * star (expQR q (h.T j)) * expQR (h.back q) L := by
    have e : add (mulMat L h.A) (sub (h.T i) (h.T j)) = add (mulMat L h.A) (add (h.T i) (neg (h.T j))) := by
      simp [add, sub, neg, sub_eq_add_neg]
    rw [e, expQR_add, expQR_add, expQR_neg', mul_comm]
    congr 1
    unfold expQR
    congr 1
    simp only [mulMat, Change.back, dot, castV]
    push_cast
    ring
  intro a b
  have key := (hh.ofReal.smul (expQR q (h.T i) * star (expQR q (h.T j)) * (realFactor o lam * expQR (h.back q) L))) a b
  change realAt erfc o' lam q (h.p i) (h.p j) a b (add (mulMat L h.A) (sub (h.T i) (h.T j))) = _
  dsimp only at key ⊢
  rw [realAt_eq, hp, hf]
  simp only [realAt_eq]
  refine Eq.trans ?_ (key.trans ?_)
  · ring
  · refine Finset.sum_congr rfl fun a' _ => Finset.sum_congr rfl fun b' _ => ?_
    ring

theorem Carry.tsum {R : Fin 3 → Fin 3 → ℝ} {ι : Type} {X X' : ι → Fin 3 → Fin 3 → ℂ} (hX : ∀ v, Carry R (X v) (X' v))
    (hsum : ∀ a b, Summable fun v => X v a b) : Carry R (fun a b => ∑' v, X v a b) (fun a b => ∑' v, X' v a b) := by
  intro a b
  have : (fun v => X' v a b) = fun v => ∑ a', ∑ b', (R a a' : ℂ) * R b b' * X v a' b' := funext fun v => hX v a b
  dsimp only
  rw [this, Summable.tsum_finsetSum fun a' _ => summable_sum fun b' _ => (hsum a' b').mul_left _]
  refine Finset.sum_congr rfl fun a' _ => ?_
  rw [Summable.tsum_finsetSum fun b' _ => (hsum a' b').mul_left _]
  exact Finset.sum_congr rfl fun b' _ => tsum_mul_left

/-! ## The complete series -/

theorem Change.SameIons.complete_carry {erfc : ℝ → ℝ} (he : IsErfc erfc) (hs : h.SameIons o o') (ho : Sound o) {lam : ℝ} (hl : 0 < lam)
    (q : V3 ℝ) (i j : Fin n) :
    Carry h.R (fun a b => expQR q (h.T i) * star (expQR q (h.T j)) * complete erfc o lam (h.back q) i j a b)
      (fun a b => complete erfc o' lam q (h.p i) (h.p j) a b) := by
  have s1 : ∀ a b, Summable fun G => expQR q (h.T i) * star (expQR q (h.T j)) * recipAt o lam (h.back q) i j a b (h.backZ G) :=
    fun a b => ((hs.eqG.summable_iff (f := fun G => recipAt o lam (h.back q) i j a b G)).2
      (C157_converge he ho hl (h.back q) i j a b).1.of_norm).mul_left _
  have s2 : ∀ a b, Summable fun L => expQR q (h.T i) * star (expQR q (h.T j)) * realAt erfc o lam (h.back q) i j a b L :=
    fun a b => (C157_converge he ho hl (h.back q) i j a b).2.of_norm.mul_left _
  have k1 := Carry.tsum (fun G => hs.recipAt_carry ho.volume_pos lam q i j G) s1
  have k2 := Carry.tsum (fun L => hs.realAt_carry erfc lam q i j L) s2
  have k := k1.sub k2
  intro a b
  have e2 : ∑' L, realAt erfc o' lam q (h.p i) (h.p j) a b (hs.eqR i j L) = ∑' L, realAt erfc o' lam q (h.p i) (h.p j) a b L :=
    (hs.eqR i j).tsum_eq fun L => realAt erfc o' lam q (h.p i) (h.p j) a b L
  have e1 : ∀ a b, ∑' G, recipAt o lam (h.back q) i j a b (h.backZ G) = ∑' G, recipAt o lam (h.back q) i j a b G :=
    fun a b => hs.eqG.tsum_eq fun G => recipAt o lam (h.back q) i j a b G
  have key := k a b
  simp only [tsum_mul_left, e1] at key
  rw [e2] at key
  unfold complete
  refine key.trans ?_
  refine Finset.sum_congr rfl fun a' _ => Finset.sum_congr rfl fun b' _ => ?_
  ring

/-- Translation by a reciprocal vector. -/
def shiftZ (K : V3 ℤ) : V3 ℤ ≃ V3 ℤ where
  toFun G := add G K
  invFun G := sub G K
  left_inv G := by simp [add, sub]
  right_inv G := by simp [add, sub]

/-- The complete series are periodic in reciprocal space. -/
theorem complete_periodic (erfc : ℝ → ℝ) (o : Ions n) (lam : ℝ) (q : V3 ℝ) (K : V3 ℤ) (i j : Fin n) (a b : Fin 3) :
    complete erfc o lam (add q (castV ℝ K)) i j a b = complete erfc o lam q i j a b := by
  unfold complete
  congr 1
  · rw [← (shiftZ K).tsum_eq fun G => recipAt o lam q i j a b G]
    refine tsum_congr fun G => ?_
    rw [recipAt_eq, recipAt_eq]
    have : add (castV ℝ G) (add q (castV ℝ K)) = add (castV ℝ (shiftZ K G)) q := by
      simp only [add, castV, shiftZ, Equiv.coe_fn_mk, V3.mk.injEq]
      push_cast
      refine ⟨?_, ?_, ?_⟩ <;> ring
    rw [this]
  · refine tsum_congr fun L => ?_
    rw [realAt_eq, realAt_eq]
    have : expQR (add q (castV ℝ K)) L = expQR q L := by
      have e := expQR_int K L
      rw [← mul_one (expQR q L), ← e]
      unfold expQR
      rw [← Complex.exp_add]
      congr 1
      simp only [add, castV]
      push_cast
      ring
    rw [this]

theorem rem_eq (q : V3 ℝ) : ∃ K : V3 ℤ, rem q = add q (castV ℝ K) :=
  ⟨⟨-rint q.x, -rint q.y, -rint q.z⟩, by simp [rem, add, castV, sub_eq_add_neg]⟩

theorem complete_rem (erfc : ℝ → ℝ) (o : Ions n) (lam : ℝ) (q : V3 ℝ) : complete erfc o lam (rem q) = complete erfc o lam q := by
  obtain ⟨K, hK⟩ := rem_eq q
  funext i j a b
  rw [hK, complete_periodic]

theorem corr_rem (erfc : ℝ → ℝ) (o : Ions n) (lam : ℝ) (q : V3 ℝ) (k l : Fin (n * 3)) :
    completeCorrection erfc o lam q k l = corrBy o (complete erfc o lam) q k.divNat l.divNat k.modNat l.modNat := by
  unfold completeCorrection corrBy
  rw [complete_rem]

theorem Change.SameIons.sandwich (hs : h.SameIons o o') (i j : Fin n) {X X' : Fin 3 → Fin 3 → ℂ} (hX : Carry h.R X X') :
    Carry h.R (fun a b => ∑ c, ∑ e, ((o.born i a c * o.born j b e : ℝ) : ℂ) * X c e)
      (fun a b => ∑ c, ∑ e, ((o'.born (h.p i) a c * o'.born (h.p j) b e : ℝ) : ℂ) * X' c e) := by
  simp only [Complex.ofReal_mul]
  exact Carry.sandwich hs.ortho (hs.born i).ofReal (hs.born j).ofReal hX

theorem expQR_zero (T : V3 ℤ) : expQR ⟨0, 0, 0⟩ T = 1 := by simp [expQR]

theorem back_zero (h : Change n N N') : h.back ⟨0, 0, 0⟩ = ⟨0, 0, 0⟩ := by simp [Change.back, dot]

theorem Change.SameIons.corr_carries {erfc : ℝ → ℝ} (he : IsErfc erfc) (hs : h.SameIons o o') (ho : Sound o) {lam : ℝ} (hl : 0 < lam)
    (q : V3 ℝ) : h.Carries q (completeCorrection erfc o lam (h.back q)) (completeCorrection erfc o' lam q) := by
  have hq0 : ∀ i, Carry h.R (fun a b => ∑ j, ∑ c, ∑ d, ((o.born i a c * o.born j b d : ℝ) : ℂ) * complete erfc o lam ⟨0, 0, 0⟩ i j c d)
      (fun a b => ∑ j, ∑ c, ∑ d, ((o'.born (h.p i) a c * o'.born j b d : ℝ) : ℂ) * complete erfc o' lam ⟨0, 0, 0⟩ (h.p i) j c d) := by
    intro i
    have e : (fun a b => ∑ j, ∑ c, ∑ d, ((o'.born (h.p i) a c * o'.born j b d : ℝ) : ℂ) * complete erfc o' lam ⟨0, 0, 0⟩ (h.p i) j c d) =
        fun a b => ∑ j, ∑ c, ∑ d, ((o'.born (h.p i) a c * o'.born (h.p j) b d : ℝ) : ℂ) *
          complete erfc o' lam ⟨0, 0, 0⟩ (h.p i) (h.p j) c d := by
      funext a b
      exact (Equiv.sum_comp h.p _).symm
    rw [e]
    refine Carry.sum _ fun j => hs.sandwich i j ?_
    have k := hs.complete_carry he ho hl ⟨0, 0, 0⟩ i j
    simp only [expQR_zero, back_zero, star_one, one_mul] at k
    exact k
  intro i j a b
  rw [corr_rem]
  simp only [corr_rem]
  unfold corrBy
  simp only [row_div, row_mod, EmbeddingLike.apply_eq_iff_eq]
  have k1 := hs.sandwich i j (hs.complete_carry he ho hl q i j) a b
  have k2 := (Carry.smul (1 / 2) ((hq0 i).add (hq0 i).transpose)) a b
  dsimp only at k1 k2
  rw [k1]
  have move : ∀ a' b', ∑ c, ∑ e, ((o.born i a' c * o.born j b' e : ℝ) : ℂ) *
      (expQR q (h.T i) * star (expQR q (h.T j)) * complete erfc o lam (h.back q) i j c e) =
      expQR q (h.T i) * star (expQR q (h.T j)) * ∑ c, ∑ e, ((o.born i a' c * o.born j b' e : ℝ) : ℂ) *
        complete erfc o lam (h.back q) i j c e := by
    intro a' b'
    simp only [Finset.mul_sum]
    exact Finset.sum_congr rfl fun c _ => Finset.sum_congr rfl fun e _ => by ring
  simp only [move]
  by_cases hij : i = j
  · subst hij
    simp only [if_true]
    rw [k2, ← Finset.sum_sub_distrib]
    refine Finset.sum_congr rfl fun a' _ => ?_
    rw [← Finset.sum_sub_distrib]
    refine Finset.sum_congr rfl fun b' _ => ?_
    have hn := norm_expQR q (h.T i)
    rw [star_mul', star_real]
    generalize (1 / 2 : ℂ) * _ = y
    linear_combination ((h.R a a' : ℂ) * h.R b b' * y) * hn
  · simp only [if_neg hij, sub_zero]
    refine Finset.sum_congr rfl fun a' _ => Finset.sum_congr rfl fun b' _ => ?_
    rw [star_mul', star_real]
    ring

/-! ## The matrix is Hermitian -/

/-- The other sign. -/
def negZ : V3 ℤ ≃ V3 ℤ where
  toFun := neg
  invFun := neg
  left_inv G := by simp [neg]
  right_inv G := by simp [neg]

theorem complete_swap (erfc : ℝ → ℝ) (o : Ions n) (lam : ℝ) (q : V3 ℝ) (i j : Fin n) (a b : Fin 3) :
    complete erfc o lam q j i a b = star (complete erfc o lam q i j a b) := by
  unfold complete
  rw [star_sub]
  congr 1
  · rw [tsum_star]
    refine tsum_congr fun G => ?_
    rw [recipAt_eq, recipAt_eq]
    simp only [star_mul', star_real]
    congr 2
    rw [Complex.star_def, ← Complex.exp_conj]
    congr 1
    simp only [map_mul, Complex.conj_I, Complex.conj_ofReal, map_ofNat, dot, add, sub, castV]
    push_cast
    ring
  · rw [tsum_star, ← negZ.tsum_eq]
    refine tsum_congr fun L => ?_
    change realAt erfc o lam q j i a b (neg L) = _
    rw [realAt_eq, realAt_eq, hab_neg, expQR_neg']
    simp only [star_mul', star_real]

theorem complete_symm (erfc : ℝ → ℝ) (o : Ions n) (lam : ℝ) (hd : o.diel.transpose = o.diel) (q : V3 ℝ) (i j : Fin n) (a b : Fin 3) :
    complete erfc o lam q i j a b = complete erfc o lam q i j b a := by
  unfold complete recipAt realAt
  simp only [kTerm_symm o lam _ a b, hab_symm erfc o lam hd _ i j a b]

theorem complete_real (erfc : ℝ → ℝ) (o : Ions n) (lam : ℝ) (i j : Fin n) (a b : Fin 3) :
    star (complete erfc o lam ⟨0, 0, 0⟩ i j a b) = complete erfc o lam ⟨0, 0, 0⟩ i j a b := by
  unfold complete
  rw [star_sub]
  congr 1
  · rw [tsum_star, ← negZ.tsum_eq]
    refine tsum_congr fun G => ?_
    change star (recipAt o lam _ i j a b (neg G)) = _
    have hk : toCart (recip o) (add (castV ℝ (neg G)) ⟨0, 0, 0⟩) = neg (toCart (recip o) (add (castV ℝ G) ⟨0, 0, 0⟩)) := by
      simp only [toCart, add, neg, castV, V3.mk.injEq]
      push_cast
      refine ⟨?_, ?_, ?_⟩ <;> ring
    rw [recipAt_eq, recipAt_eq, hk, kTerm_neg]
    simp only [star_mul', star_real]
    congr 2
    rw [Complex.star_def, ← Complex.exp_conj]
    congr 1
    simp only [map_mul, Complex.conj_I, Complex.conj_ofReal, map_ofNat, dot, add, sub, castV, neg]
    push_cast
    ring
  · rw [tsum_star]
    refine tsum_congr fun L => ?_
    rw [realAt_eq, expQR_zero]
    simp only [star_mul', star_real, star_one]

theorem corr_herm (erfc : ℝ → ℝ) (o : Ions n) (lam : ℝ) (hd : o.diel.transpose = o.diel) (q : V3 ℝ) (k l : Fin (n * 3)) :
    completeCorrection erfc o lam q l k = star (completeCorrection erfc o lam q k l) := by
  rw [corr_rem, corr_rem]
  unfold corrBy
  rw [star_sub]
  congr 1
  · simp only [star_sum, star_mul', star_real]
    rw [Finset.sum_comm]
    refine Finset.sum_congr rfl fun c _ => Finset.sum_congr rfl fun e _ => ?_
    rw [complete_swap, complete_symm erfc o lam hd _ _ _ e c, mul_comm (o.born l.divNat _ _)]
  · by_cases hkl : k.divNat = l.divNat
    · rw [if_pos hkl, if_pos hkl.symm, hkl, star_mul', star_add]
      simp only [star_sum, star_mul', star_real, complete_real]
      rw [add_comm]
      congr 1
      simp
    · rw [if_neg hkl, if_neg (Ne.symm hkl), star_zero]

/-! ## Both descriptions are sensible if one is -/

theorem Change.SameIons.sound (hs : h.SameIons o o') (ho : Sound o) : Sound o' where
  volume_pos := hs.handed
  symm := by
    have h1 : o'.diel = Matrix.of h.R * o.diel * (Matrix.of h.R).transpose := carryR_iff.1 hs.diel
    rw [h1, Matrix.transpose_mul, Matrix.transpose_mul, Matrix.transpose_transpose, ho.symm, Matrix.mul_assoc]
  posDef := by
    intro k hk
    have e : ∀ (D : Matrix (Fin 3) (Fin 3) ℝ) (k : V3 ℝ), ∑ a, ∑ b, comp k a * comp k b * D a b = ∑ b, vecMat k D b * comp k b := by
      intro D k
      unfold vecMat
      simp only [Finset.sum_mul]
      rw [Finset.sum_comm]
      exact Finset.sum_congr rfl fun b _ => Finset.sum_congr rfl fun a _ => by ring
    have hR : (Matrix.of h.R) * (Matrix.of h.R).transpose = 1 := mul_eq_one_comm.1 (rot_left hs.ortho)
    obtain ⟨v, rfl⟩ : ∃ v, rotV h.R v = k := by
      refine ⟨⟨∑ a, h.R a 0 * comp k a, ∑ a, h.R a 1 * comp k a, ∑ a, h.R a 2 * comp k a⟩, ext_comp fun a => ?_⟩
      have e1 : ∀ b, comp (⟨∑ a, h.R a 0 * comp k a, ∑ a, h.R a 1 * comp k a, ∑ a, h.R a 2 * comp k a⟩ : V3 ℝ) b =
          ∑ a, h.R a b * comp k a := by
        intro b
        fin_cases b <;> rfl
      have e2 : ∀ c, ∑ b, h.R a b * h.R c b = if a = c then 1 else 0 := by
        intro c
        have := congrFun (congrFun hR a) c
        rw [Matrix.mul_apply, Matrix.one_apply] at this
        exact this
      rw [comp_rotV]
      simp only [e1, Finset.mul_sum]
      rw [Finset.sum_comm]
      have e3 : ∀ c, ∑ b, h.R a b * (h.R c b * comp k c) = (if a = c then 1 else 0) * comp k c := by
        intro c
        rw [← e2, Finset.sum_mul]
        exact Finset.sum_congr rfl fun b _ => by ring
      simp [e3]
    have hv : v ≠ ⟨0, 0, 0⟩ := by
      rintro rfl
      exact hk (by simp [rotV, Fin.sum_univ_three, comp0, comp1, comp2])
    have := ho.posDef v hv
    rw [e] at this ⊢
    simp only [vecMat_rotV hs.ortho hs.diel, sum_rot hs.ortho]
    exact this
  apart := by
    intro i' j' hij L hL
    obtain ⟨i, rfl⟩ := h.p.surjective i'
    obtain ⟨j, rfl⟩ := h.p.surjective j'
    refine ho.apart i j (fun e => hij (congrArg h.p e)) (mulMat (sub L (sub (h.T i) (h.T j))) h.B) ?_
    rw [hs.positions, hs.positions] at hL
    have e1 : toCart (castM h.A) (sub (o.r i) (o.r j)) = castV ℝ (sub L (sub (h.T i) (h.T j))) := by
      simp only [sub, add, castV, V3.mk.injEq, toCart] at hL ⊢
      push_cast
      obtain ⟨h1, h2, h3⟩ := hL
      refine ⟨?_, ?_, ?_⟩
      · linear_combination h1
      · linear_combination h2
      · linear_combination h3
    rw [castV_mulMat, ← e1]
    have f1 := hs.left ⟨1, 0, 0⟩
    have f2 := hs.left ⟨0, 1, 0⟩
    have f3 := hs.left ⟨0, 0, 1⟩
    simp only [mulMat, V3.mk.injEq] at f1 f2 f3
    have c : ∀ {a b : ℤ}, a = b → (a : ℝ) = b := fun e => by rw [e]
    have a1 := c f1.1; have a2 := c f1.2.1; have a3 := c f1.2.2
    have b1 := c f2.1; have b2 := c f2.2.1; have b3 := c f2.2.2
    have c1 := c f3.1; have c2 := c f3.2.1; have c3 := c f3.2.2
    push_cast at a1 a2 a3 b1 b2 b3 c1 c2 c3
    generalize sub (o.r i) (o.r j) = y
    simp only [toCart, castM, castV]
    refine V3.ext' ?_ ?_ ?_ <;> dsimp only
    · linear_combination -(y.x * a1 + y.y * b1 + y.z * c1)
    · linear_combination -(y.x * a2 + y.y * b2 + y.z * c2)
    · linear_combination -(y.x * a3 + y.y * b3 + y.z * c3)

theorem Change.SameIons.gamma_carries (hs : h.SameIons o o') (hv : 0 < cellVolume o.cv) {q : V3 ℝ} (hq : ∀ T, expQR q T = 1)
    {dir : V3 ℝ} (hdir : isGamma (h.back dir) = isGamma dir) :
    h.Carries q (gammaCorrection o (h.back dir)) (gammaCorrection o' dir) := by
  intro i j a b
  unfold gammaCorrection
  simp only [hdir]
  split
  · simp
  · simp only [row_div, row_mod, hq, hs.recip_eq hv, Dipole.volume, hs.volume_eq hv]
    set v := toCart (recip o) (h.back dir) with hv
    have e1 : ∀ (D : Matrix (Fin 3) (Fin 3) ℝ) (k : V3 ℝ), ∑ a, ∑ b, D a b * comp k a * comp k b = ∑ b, vecMat k D b * comp k b := by
      intro D k
      unfold vecMat
      simp only [Finset.sum_mul]
      rw [Finset.sum_comm]
      exact Finset.sum_congr rfl fun b _ => Finset.sum_congr rfl fun a _ => by ring
    have e2 : ∑ a, ∑ b, o'.diel a b * comp (rotV h.R v) a * comp (rotV h.R v) b = ∑ a, ∑ b, o.diel a b * comp v a * comp v b := by
      rw [e1, e1]
      simp only [vecMat_rotV hs.ortho hs.diel, sum_rot hs.ortho]
    have e3 : ∀ i a, ∑ b, o'.born (h.p i) a b * comp (rotV h.R v) b = ∑ a', h.R a a' * ∑ b', o.born i a' b' * comp v b' := by
      intro i a
      have hb : ∀ b, o'.born (h.p i) a b = ∑ a', ∑ b', h.R a a' * h.R b b' * o.born i a' b' := fun b => hs.born i a b
      simp only [hb]
      have : ∀ a', ∑ b', o.born i a' b' * comp v b' = ∑ b', o.born i a' b' * ∑ b, h.R b b' * comp (rotV h.R v) b := by
        intro a'
        refine Finset.sum_congr rfl fun b' _ => ?_
        rw [rotV_inv hs.ortho]
      simp only [this, Finset.mul_sum, Finset.sum_mul]
      rw [Finset.sum_comm]
      refine Finset.sum_congr rfl fun a' _ => ?_
      rw [Finset.sum_comm]
      exact Finset.sum_congr rfl fun b' _ => Finset.sum_congr rfl fun b _ => by ring
    rw [e2, e3, e3]
    generalize 4 * Real.pi / _ = f
    rw [Finset.sum_mul_sum, Finset.sum_mul]
    push_cast
    refine Finset.sum_congr rfl fun a' _ => ?_
    rw [Finset.sum_mul]
    refine Finset.sum_congr rfl fun b' _ => ?_
    rw [one_mul, one_mul, Complex.star_def, Complex.conj_ofReal]
    ring

theorem Change.Relates.sameIons (hr : h.Relates d d') {born born' : Fin n → Fin 3 → Fin 3 → ℝ} {diel diel' : Matrix (Fin 3) (Fin 3) ℝ}
    (hv' : 0 < cellVolume d'.cv) (hd : CarryR h.R (fun a b => diel a b) (fun a b => diel' a b))
    (hb : ∀ i, CarryR h.R (born i) (born' (h.p i))) : h.SameIons (d.ions born diel) (d'.ions born' diel') :=
  ⟨hr.left, hr.right, hr.ortho, hr.vectors, hr.positions, hv', hd, hb⟩

/-! ## C158 -/

/-- **C158.** The correction that the sums converge to is the same in all descriptions of the crystal and for all values of the
parameter that divides the sums: blocks are rotated, and multiplied by phases for atoms that are written down in other cells. -/
theorem C158_correction {erfc : ℝ → ℝ} (he : IsErfc erfc) (hs : h.SameIons o o') (ho : Sound o) {lam lam' : ℝ} (hl : 0 < lam)
    (hl' : 0 < lam') (q : V3 ℝ) (i j : Fin n) (a b : Fin 3) :
    completeCorrection erfc o' lam' q (row (h.p i) a) (row (h.p j) b) = ∑ a', ∑ b', expQR q (h.T i) * h.R a a' *
      completeCorrection erfc o lam (h.back q) (row i a') (row j b') * star (expQR q (h.T j) * h.R b b') := by
  rw [C157_parameter he ho hl hl']
  exact hs.corr_carries he ho hl' q i j a b

/-- **C158.** It is periodic in reciprocal space, also where q-points are brought back to different places (1/2 and 3/2). -/
theorem C158_periodic (erfc : ℝ → ℝ) (o : Ions n) (lam : ℝ) (q : V3 ℝ) (K : V3 ℤ) :
    completeCorrection erfc o lam (add q (castV ℝ K)) = completeCorrection erfc o lam q := by
  funext k l
  rw [corr_rem, corr_rem]
  unfold corrBy
  simp only [complete_periodic]

/-- **C158.** What the code calculates in two descriptions, with two values of `dipole_parameter`, is the same up to what is left
out of the sums. -/
theorem C158_code {erfc : ℝ → ℝ} (he : IsErfc erfc) (hs : h.SameIons o o') (ho : Sound o) {x x' : ℝ} (hx : 0 < x)
    (hx' : 0 < x') (q : V3 ℝ) (i j : Fin n) (a b : Fin 3) :
    dipoleCorrection erfc o' (upperLambda o' x') q (row (h.p i) a) (row (h.p j) b) +
      corrBy o' (leftOut erfc o' (upperLambda o' x')) (rem q) (h.p i) (h.p j) a b =
    ∑ a', ∑ b', expQR q (h.T i) * h.R a a' * (dipoleCorrection erfc o (upperLambda o x) (h.back q) (row i a') (row j b') +
      corrBy o (leftOut erfc o (upperLambda o x)) (rem (h.back q)) i j a' b') * star (expQR q (h.T j) * h.R b b') := by
  have hn : n ≠ 0 := fun e => (Fin.cast e i).elim0
  have hl := upperLambda_pos ho hn hx
  have ho' := hs.sound ho
  have hl' := upperLambda_pos ho' hn hx'
  have e : ∀ {o : Ions n} (_ : Sound o) {lam : ℝ} (_ : 0 < lam) (q : V3 ℝ) (i j : Fin n) (a b : Fin 3),
      dipoleCorrection erfc o lam q (row i a) (row j b) + corrBy o (leftOut erfc o lam) (rem q) i j a b =
        completeCorrection erfc o lam q (row i a) (row j b) := by
    intro o ho lam hl q i j a b
    rw [C157_left_out he ho hl]
    simp only [row_div, row_mod, sub_add_cancel]
  rw [e ho' hl', C158_correction he hs ho hl hl']
  refine Finset.sum_congr rfl fun a' _ => Finset.sum_congr rfl fun b' _ => ?_
  rw [e ho hl]

/-- **C158.** Frequencies of polar crystals calculated with complete sums are the same for all descriptions of the crystal whose
supercells are reduced; at gamma points with a direction of approach that is not taken for a lattice vector in one of them only. -/
theorem C158_frequencies {erfc : ℝ → ℝ} (he : IsErfc erfc) (hr : h.Relates d d') {images images' : List (V3 ℤ)} (hok : d.Ok images)
    (hok' : d'.Ok images') {op : Fin N → Fin N} {t : Fin N → V3 ℤ} (hsym : Symmetric d.cells d.S d.fc op t)
    {born born' : Fin n → Fin 3 → Fin 3 → ℝ} {diel diel' : Matrix (Fin 3) (Fin 3) ℝ}
    (hs : h.SameIons (d.ions born diel) (d'.ions born' diel')) (ho : Sound (d.ions born diel)) {lam lam' : ℝ} (hl : 0 < lam)
    (hl' : 0 < lam') (junk : Fin N → Mat n ℝ) (junk' : Fin N' → Mat n ℝ) (q : V3 ℝ) (dir : Option (V3 ℝ))
    (hdir : ∀ v ∈ dir, isGamma (h.back v) = isGamma v ∧ ∃ K, q = castV ℝ K)
    {eigh eigh' : Mat n ℂ → (Fin (n * 3) → ℝ) × Mat n ℂ} (hE : IsEigh eigh) (hE' : IsEigh eigh') (s : Fin (n * 3)) :
    freqOf ((eigh' (d'.polarComplete born' diel' erfc lam' images' junk' q dir)).1 s) =
      freqOf ((eigh (d.polarComplete born diel erfc lam images junk (h.back q) (dir.map h.back))).1 s) := by
  have hc : h.Carries q (d.polarComplete born diel erfc lam images junk (h.back q) (dir.map h.back))
      (d'.polarComplete born' diel' erfc lam' images' junk' q dir) := by
    unfold Description.polarComplete
    refine hr.weighted (hr.carries hok hok' junk junk' q) ?_ trivial ?_
    · exact C158_correction he hs ho hl hl' q
    · cases dir with
      | none => trivial
      | some v =>
        obtain ⟨h1, K, h2⟩ := hdir v rfl
        refine hs.gamma_carries ho.volume_pos (fun T => ?_) h1
        rw [h2, expQR_int]
  have hh : ∀ k l, d.polarComplete born diel erfc lam images junk (h.back q) (dir.map h.back) l k =
      star (d.polarComplete born diel erfc lam images junk (h.back q) (dir.map h.back) k l) := by
    intro k l
    unfold Description.polarComplete
    refine Stability.weighted_herm d.mass ?_ ?_ ?_ ?_ k l
    · intro k l
      exact C123_hermitian_partial d.cv d.r d.cells d.c0 d.S images hok.reduced.shells hok.reduced.volume hok.reduced.reduced
        hok.reduced.within hsym hok.first junk _ k l
    · rintro M ⟨⟩ k l
      exact corr_herm erfc _ _ ho.symm _ k l
    · rintro M ⟨⟩
    · intro M hM k l
      cases dir with
      | none => cases hM
      | some dir =>
        obtain rfl := Option.some.inj hM
        exact gamma_herm _ _ k l
  rw [hr.evals hc hh hE hE']

/-- **C158.** Symmetry: for an operation that leaves crystal, force constants, charges and dielectric tensor as they are, the
frequencies at a wavevector and at the one it is moved to are equal, for all lattices. -/
theorem C158_equivalent {erfc : ℝ → ℝ} (he : IsErfc erfc) {h : Change n N N} (hr : h.Relates d d) {images : List (V3 ℤ)}
    (hok : d.Ok images) {op : Fin N → Fin N} {t : Fin N → V3 ℤ} (hsym : Symmetric d.cells d.S d.fc op t)
    {born : Fin n → Fin 3 → Fin 3 → ℝ} {diel : Matrix (Fin 3) (Fin 3) ℝ} (hd : CarryR h.R (fun a b => diel a b) (fun a b => diel a b))
    (hb : ∀ i, CarryR h.R (born i) (born (h.p i))) (ho : Sound (d.ions born diel)) {lam : ℝ} (hl : 0 < lam) (junk : Fin N → Mat n ℝ)
    (q : V3 ℝ) {eigh : Mat n ℂ → (Fin (n * 3) → ℝ) × Mat n ℂ} (hE : IsEigh eigh) (s : Fin (n * 3)) :
    freqOf ((eigh (d.polarComplete born diel erfc lam images junk q none)).1 s) =
      freqOf ((eigh (d.polarComplete born diel erfc lam images junk (h.back q) none)).1 s) :=
  C158_frequencies he hr hok hok hsym (hr.sameIons ho.volume_pos hd hb) ho hl hl junk junk q none (by simp) hE hE s

/-! ### A case meeting the hypotheses -/

namespace Ex

/-- The chain `Ex.d` in a cell with vectors `a - b`, `b` and `c`, with another origin and the second atom in another cell. -/
noncomputable def dSheared : Description 2 2 where
  cv := ⟨⟨1, -1, 0⟩, ⟨0, 1, 0⟩, ⟨0, 0, 1⟩⟩
  r := ![⟨1 / 10, 0, 0⟩, ⟨3 / 5, 1 / 2, 1⟩]
  mass := ![1, 3]
  S := ⟨⟨2, 2, 0⟩, ⟨0, 1, 0⟩, ⟨0, 0, 1⟩⟩
  cells := ![⟨0, 0, 0⟩, ⟨1, 1, 0⟩]
  c0 := 0
  fc := Ex.d.fc

/-- From one to the other. -/
noncomputable def shear : Change 2 2 2 where
  A := ⟨⟨1, 1, 0⟩, ⟨0, 1, 0⟩, ⟨0, 0, 1⟩⟩
  B := ⟨⟨1, -1, 0⟩, ⟨0, 1, 0⟩, ⟨0, 0, 1⟩⟩
  p := Equiv.refl _
  T := ![⟨0, 0, 0⟩, ⟨0, 0, 1⟩]
  w := ⟨1 / 10, 0, 0⟩
  R := fun a b => if a = b then 1 else 0
  s := fun _ _ c => c

theorem relates_shear : shear.Relates Ex.d dSheared where
  left := fun v => by simp [mulMat, shear]
  right := fun v => by simp [mulMat, shear]
  ortho := fun a b => by fin_cases a <;> fin_cases b <;> simp [shear]
  vectors := fun x => by
    simp [toCart, Ex.d, dSheared, DynMat.Ex.cv, castM, castV, shear, rotV, comp0, comp1, comp2]
  positions := fun i => by
    fin_cases i <;> norm_num [shear, Ex.d, dSheared, toCart, castM, castV, add]
  masses := fun i => by fin_cases i <;> simp [shear, Ex.d, dSheared]
  super := fun v => by
    constructor
    · rintro ⟨m, hm⟩
      refine ⟨m, ?_⟩
      simp [mulMat, shear, Ex.d, dSheared, DynMat.Ex.S, V3.mk.injEq] at hm ⊢
      obtain ⟨h1, h2, h3⟩ := hm
      exact V3.ext' (by simp; omega) (by simp; omega) (by simp; omega)
    · rintro ⟨m, hm⟩
      refine ⟨m, ?_⟩
      rw [hm]
      simp [mulMat, shear, Ex.d, dSheared, DynMat.Ex.S]
  bij := fun i j => Function.bijective_id
  cell := fun i j c => by
    refine ⟨⟨0, 0, (shear.T j).z - (shear.T i).z⟩, ?_⟩
    fin_cases i <;> fin_cases j <;> fin_cases c <;> simp [mulMat, sub, add, shear, Ex.d, dSheared, DynMat.Ex.cells]
  fcs := fun i j c a b => by
    simp only [dSheared, shear, Equiv.refl_apply]
    fin_cases a <;> fin_cases b <;> simp

theorem scVecs_shear : scVecs dSheared.S dSheared.cv = scVecs Ex.d.S Ex.d.cv := by
  simp [scVecs, dSheared, Ex.d, DynMat.Ex.S, DynMat.Ex.cv, toCart, castV]

theorem ok_shear : dSheared.Ok shells2 where
  first := rfl
  reduced := ⟨shells2_eq, by rw [scVecs_shear]; exact ok.reduced.volume, by rw [scVecs_shear]; exact ok.reduced.reduced,
    fun c i j => by
    refine ⟨⟨((Ex.d.r i).x - (Ex.d.r j).x - (Ex.d.cells c).x) / 2, 0, (dSheared.r i).z - (dSheared.r j).z⟩, ?_, by simp, ?_, ?_⟩
    · fin_cases c <;> fin_cases i <;> fin_cases j <;> norm_num [Ex.d, DynMat.Ex.cells, abs_le]
    · fin_cases i <;> fin_cases j <;> norm_num [dSheared]
    · fin_cases c <;> fin_cases i <;> fin_cases j <;> norm_num [Ex.d, dSheared, DynMat.Ex.cells, sub, add, castV]⟩

theorem sound : Sound (Ex.d.ions born diel) where
  volume_pos := by simp [Description.ions, Ex.d, DynMat.Ex.cv, cellVolume, dot, cross]
  symm := by simp [Description.ions, diel]
  posDef := by
    intro k hk
    have e : ∑ a, ∑ b, comp k a * comp k b * (Ex.d.ions born diel).diel a b = 4 * k.x ^ 2 + 5 * k.y ^ 2 + 5 * k.z ^ 2 := by
      simp [Description.ions, diel, Fin.sum_univ_three, Matrix.diagonal_apply, comp0, comp1, comp2]
      ring
    rw [e]
    by_contra hc
    refine hk (V3.ext' ?_ ?_ ?_) <;> refine pow_eq_zero_iff two_ne_zero |>.1 ?_ <;>
      nlinarith [sq_nonneg k.x, sq_nonneg k.y, sq_nonneg k.z]
  apart := by
    have half : ∀ z : ℤ, (z : ℝ) ≠ 1 / 2 ∧ (z : ℝ) ≠ -(1 / 2) := by
      intro z
      constructor
      · intro h
        have : (2 * z : ℝ) = 1 := by linarith
        have : 2 * z = 1 := by exact_mod_cast this
        omega
      · intro h
        have : (2 * z : ℝ) = -1 := by linarith
        have : 2 * z = -1 := by exact_mod_cast this
        omega
    intro i j hij R hR
    fin_cases i <;> fin_cases j <;> simp [Description.ions, Ex.d, sub, castV] at hij hR
    · exact (half R.x).2 (by linarith [hR.1])
    · exact (half R.x).1 (by linarith [hR.1])

/-- The polar chain has the same frequencies in both cells. -/
example (junk junk' : Fin 2 → Mat 2 ℝ) {eigh eigh' : Mat 2 ℂ → (Fin (2 * 3) → ℝ) × Mat 2 ℂ} (hE : IsEigh eigh)
    (hE' : IsEigh eigh') (s : Fin (2 * 3)) :
    freqOf ((eigh' (dSheared.polarComplete born diel erfc0 2 shells2 junk' ⟨1 / 5, 1 / 3, 1 / 7⟩ none)).1 s) =
      freqOf ((eigh (Ex.d.polarComplete born diel erfc0 1 shells2 junk ⟨8 / 15, 1 / 3, 1 / 7⟩ none)).1 s) := by
  have hs : shear.SameIons (Ex.d.ions born diel) (dSheared.ions born diel) := by
    refine relates_shear.sameIons ?_ ?_ ?_
    · simp [dSheared, cellVolume, dot, cross]
    · intro a b
      fin_cases a <;> fin_cases b <;> simp [shear]
    · intro i a b
      fin_cases a <;> fin_cases b <;> simp [shear]
  rw [C158_frequencies isErfc_erfc0 relates_shear ok ok_shear symmetric hs sound one_pos two_pos junk junk' _ none (by simp) hE hE']
  congr 4
  simp [Change.back, shear, dot, castV]
  norm_num

end Ex

end Euphonic.Describe
