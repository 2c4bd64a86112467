import Verif.Props.Dipole

/-! # C95: the order of the cell vectors

The same crystal can be described with its cell vectors in another order.  Long-range corrections (in
Cartesian coordinates) must not depend on that order.
-/

set_option autoImplicit false
set_option linter.unusedSectionVars false

namespace Euphonic.Dipole

open Euphonic.Lattice Euphonic.Phases Euphonic.Images Euphonic.DynMat

variable {n : Nat}

/-- Specification: `x, y, z` become `y, z, x`. -/
def cycV {K : Type} (v : V3 K) : V3 K := ⟨v.y, v.z, v.x⟩

/-- Specification: the first two components are exchanged. -/
def swapV {K : Type} (v : V3 K) : V3 K := ⟨v.y, v.x, v.z⟩

/-- Specification: the same crystal with the cell vectors `b, c, a` instead of `a, b, c`. -/
def cycIons (o : Ions n) : Ions n :=
  ⟨⟨o.cv.b, o.cv.c, o.cv.a⟩, fun i => cycV (o.r i), o.born, o.diel⟩

/-- Specification: the same crystal with the cell vectors `b, a, c` instead of `a, b, c`. -/
def swapIons (o : Ions n) : Ions n :=
  ⟨⟨o.cv.b, o.cv.a, o.cv.c⟩, fun i => swapV (o.r i), o.born, o.diel⟩

/-- What the two changes of order have in common: `o'` is `o` in other coordinates `P`, `s` is the sign of
the permutation. -/
structure Relabel (o o' : Ions n) (s : ℝ) where
  P : V3 ℝ → V3 ℝ
  Z : V3 ℤ → V3 ℤ
  Zi : V3 ℤ → V3 ℤ
  left : ∀ v, Zi (Z v) = v
  right : ∀ v, Z (Zi v) = v
  cast : ∀ v, castV ℝ (Z v) = P (castV ℝ v)
  zero : Z ⟨0, 0, 0⟩ = ⟨0, 0, 0⟩
  shells : ∀ v, maxAbs (Z v) = maxAbs v
  cart : ∀ v, toCart o'.cv (P v) = toCart o.cv v
  recipc : ∀ v, toCart (recip o') (P v) = toCart (recip o) v
  pos : ∀ i, o'.r i = P (o.r i)
  inner : ∀ u v, (P u).x * (P v).x + (P u).y * (P v).y + (P u).z * (P v).z = u.x * v.x + u.y * v.y + u.z * v.z
  gamma : ∀ v, isGamma (P v) = isGamma v
  remc : ∀ v, rem (P v) = P (rem v)
  vol : volume o' = s * volume o
  born : o'.born = o.born
  diel : o'.diel = o.diel

theorem recip_swap (a b c : V3 ℝ) (t : ℝ) :
    reciprocalCell t ⟨b, a, c⟩ =
      ⟨(reciprocalCell t ⟨a, b, c⟩).b, (reciprocalCell t ⟨a, b, c⟩).a, (reciprocalCell t ⟨a, b, c⟩).c⟩ := by
  have hv : cellVolume ⟨b, a, c⟩ = -cellVolume ⟨a, b, c⟩ := (C30_volume_permutations a b c).2.2.1
  have hc : ∀ u v : V3 ℝ, cross v u = smul (-1) (cross u v) := by
    intro u v; simp only [cross, smul, V3.mk.injEq]; refine ⟨?_, ?_, ?_⟩ <;> ring
  unfold reciprocalCell
  dsimp only
  rw [hv, hc c a, hc b c, hc a b]
  simp only [smul_smul', div_neg, neg_mul_neg, mul_one]

theorem recip_cyc (a b c : V3 ℝ) (t : ℝ) :
    reciprocalCell t ⟨b, c, a⟩ =
      ⟨(reciprocalCell t ⟨a, b, c⟩).b, (reciprocalCell t ⟨a, b, c⟩).c, (reciprocalCell t ⟨a, b, c⟩).a⟩ := by
  unfold reciprocalCell
  dsimp only
  rw [volume_cyclic a b c]

/-- Exchange of two vectors. -/
noncomputable def relabelSwap (o : Ions n) : Relabel o (swapIons o) (-1) where
  P := swapV
  Z := swapV
  Zi := swapV
  left := fun _ => rfl
  right := fun _ => rfl
  cast := fun _ => rfl
  zero := rfl
  shells := fun v => by simp only [maxAbs, swapV]; omega
  cart := fun v => by simp only [toCart, swapIons, swapV, V3.mk.injEq]; refine ⟨?_, ?_, ?_⟩ <;> ring
  recipc := fun v => by
    have : recip (swapIons o) = ⟨(recip o).b, (recip o).a, (recip o).c⟩ := recip_swap o.cv.a o.cv.b o.cv.c _
    rw [this]
    simp only [toCart, swapV, V3.mk.injEq]; refine ⟨?_, ?_, ?_⟩ <;> ring
  pos := fun _ => rfl
  inner := fun u v => by simp only [swapV]; ring
  gamma := fun v => by
    unfold isGamma sumAbs rem swapV
    simp only [add_comm |v.y - _|]
  remc := fun _ => rfl
  vol := by
    have := (C30_volume_permutations o.cv.a o.cv.b o.cv.c).2.2.1
    unfold volume swapIons
    rw [this, neg_one_mul]
  born := rfl
  diel := rfl

/-- Cyclic change of the vectors. -/
noncomputable def relabelCyc (o : Ions n) : Relabel o (cycIons o) 1 where
  P := cycV
  Z := cycV
  Zi := fun v => cycV (cycV v)
  left := fun _ => rfl
  right := fun _ => rfl
  cast := fun _ => rfl
  zero := rfl
  shells := fun v => by simp only [maxAbs, cycV]; omega
  cart := fun v => by simp only [toCart, cycIons, cycV, V3.mk.injEq]; refine ⟨?_, ?_, ?_⟩ <;> ring
  recipc := fun v => by
    have : recip (cycIons o) = ⟨(recip o).b, (recip o).c, (recip o).a⟩ := recip_cyc o.cv.a o.cv.b o.cv.c _
    rw [this]
    simp only [toCart, cycV, V3.mk.injEq]; refine ⟨?_, ?_, ?_⟩ <;> ring
  pos := fun _ => rfl
  inner := fun u v => by simp only [cycV]; ring
  gamma := fun v => by
    unfold isGamma sumAbs rem cycV
    congr 1
    rw [show |v.y - (rint v.y : ℝ)| + |v.z - rint v.z| + |v.x - rint v.x| =
      |v.x - rint v.x| + |v.y - rint v.y| + |v.z - rint v.z| by ring]
  remc := fun _ => rfl
  vol := by
    have := (C30_volume_permutations o.cv.a o.cv.b o.cv.c).1
    unfold volume cycIons
    rw [this, one_mul]
  born := rfl
  diel := rfl

section
variable {o o' : Ions n} {s : ℝ} (R : Relabel o o' s)
include R

/-- A shell in new coordinates is the same shell, in another order. -/
theorem Relabel.shell_perm (m : Nat) : ((shell m).map R.Z).Perm (shell m) := by
  have hinj : Function.Injective R.Z := fun a b h => by rw [← R.left a, ← R.left b, h]
  rw [List.perm_ext_iff_of_nodup ((nodup_shell m).map hinj) (nodup_shell m)]
  intro v
  rw [List.mem_map, mem_shell]
  constructor
  · rintro ⟨w, hw, rfl⟩
    rw [mem_shell] at hw
    rw [R.shells, hw]
  · intro hv
    refine ⟨R.Zi v, ?_, R.right v⟩
    rw [mem_shell, ← R.shells, R.right, hv]

theorem Relabel.shells_sum {β : Type} [AddCommMonoid β] (ms : List Nat) (f : V3 ℤ → β) :
    ((ms.flatMap shell).map f).sum = ((ms.flatMap shell).map fun v => f (R.Z v)).sum := by
  have hp : ((ms.flatMap shell).map R.Z).Perm (ms.flatMap shell) := by
    rw [List.map_flatMap]
    exact List.Perm.flatMap_left _ fun m _ => R.shell_perm m
  have := (hp.map f).sum_eq
  rw [List.map_map] at this
  exact this.symm

theorem Relabel.zero_iff (v : V3 ℤ) : R.Z v = ⟨0, 0, 0⟩ ↔ v = ⟨0, 0, 0⟩ := by
  constructor
  · intro h
    rw [← R.left v, h]
    conv_lhs => rw [← R.zero]
    exact R.left _
  · rintro rfl; exact R.zero

theorem Relabel.hab_eq (erfc : ℝ → ℝ) (lam : ℝ) (v : V3 ℤ) (i j : Fin n) (a b : Fin 3) :
    hab erfc o' lam (R.Z v) i j a b = hab erfc o lam v i j a b := by
  unfold hab
  simp only [R.zero_iff, R.pos, R.cart, R.cast, R.diel]

theorem amax_perm {l l' : List ℝ} (h : l.Perm l') : amax l = amax l' := by
  unfold amax
  exact h.foldl_eq (rcomm := ⟨fun a b c => by rw [max_assoc, max_comm b c, max_assoc]⟩) 0

theorem Relabel.cells_eq (erfc : ℝ → ℝ) (lam : ℝ) : cells erfc o' lam = cells erfc o lam := by
  unfold cells
  have : ∀ m, amax ((shell m).flatMap fun v => (upperElems n).map fun e =>
      |hab erfc o' lam v e.1 e.2.1 e.2.2.1 e.2.2.2|) = amax ((shell m).flatMap fun v =>
      (upperElems n).map fun e => |hab erfc o lam v e.1 e.2.1 e.2.2.1 e.2.2.2|) := by
    intro m
    have h1 : ((shell m).flatMap fun v => (upperElems n).map fun e =>
        |hab erfc o lam v e.1 e.2.1 e.2.2.1 e.2.2.2|) = ((shell m).map R.Z).flatMap fun v =>
        (upperElems n).map fun e => |hab erfc o' lam v e.1 e.2.1 e.2.2.1 e.2.2.2| := by
      rw [List.flatMap_map]
      simp only [R.hab_eq]
    rw [h1]
    exact amax_perm R ((R.shell_perm m).flatMap_right _).symm
  simp only [this]

theorem Relabel.gPhase_eq (G : V3 ℤ) (i : Fin n) : gPhase o' (R.Z G) i = gPhase o G i := by
  unfold gPhase
  have h := R.inner (castV ℝ G) (o.r i)
  rw [← R.cast, ← R.pos] at h
  simp only [castV] at h
  rw [h]

theorem Relabel.qPhase_eq (q : V3 ℝ) (i : Fin n) : qPhase o' (R.P q) i = qPhase o q i := by
  unfold qPhase
  rw [R.pos, R.inner]

theorem Relabel.kTerm_eq (lam : ℝ) (k : V3 ℝ) (a b : Fin 3) : kTerm o' lam k a b = kTerm o lam k a b := by
  unfold kTerm
  rw [R.diel]

theorem Relabel.recipQ0Shell_eq (lam : ℝ) (m : Nat) (i j : Fin n) (a b : Fin 3) :
    recipQ0Shell o' lam m i j a b = recipQ0Shell o lam m i j a b := by
  unfold recipQ0Shell
  have := R.shells_sum [m] fun G => (kTerm o' lam (toCart (recip o') (castV ℝ G)) a b : ℂ) *
    (gPhase o' G i / gPhase o' G j)
  simp only [List.flatMap_cons, List.flatMap_nil, List.append_nil] at this
  rw [this]
  simp only [R.gPhase_eq, R.kTerm_eq, R.cast, R.recipc]

theorem Relabel.gShells_eq (lam : ℝ) : gShells o' lam = gShells o lam := by
  unfold gShells
  simp only [R.recipQ0Shell_eq]

theorem Relabel.recipFactor_eq (lam : ℝ) (hs : s * s = 1) :
    recipFactor o' lam = s * recipFactor o lam := by
  unfold recipFactor
  rw [R.vol]
  have h0 : s ≠ 0 := fun h => by rw [h] at hs; norm_num at hs
  rw [mul_assoc s, div_mul_eq_div_div, show Real.pi / s = s * Real.pi from by
    rw [div_eq_iff h0, mul_comm s, mul_assoc, hs, mul_one], mul_div_assoc]

/-- The reciprocal sum gets the sign of the change. -/
theorem Relabel.recipTerm_eq (lam : ℝ) (hs : s * s = 1) (q : V3 ℝ) (i j : Fin n) (a b : Fin 3) :
    recipTerm o' lam (R.P q) i j a b = (s : ℂ) * recipTerm o lam q i j a b := by
  unfold recipTerm
  dsimp only
  rw [R.gamma, R.recipFactor_eq lam hs, Complex.ofReal_mul, mul_assoc]
  congr 2
  have h : ∀ f : V3 ℤ → ℂ, ((gvecs o' lam).map f).sum = ((gvecs o lam).map fun v => f (R.Z v)).sum := by
    intro f
    unfold gvecs
    rw [R.gShells_eq, R.shells_sum]
  have hadd : ∀ G q, add (toCart (recip o') (castV ℝ (R.Z G))) (toCart (recip o') (R.P q)) =
      add (toCart (recip o) (castV ℝ G)) (toCart (recip o) q) := by
    intro G q; rw [R.cast, R.recipc, R.recipc]
  split
  · rw [h]
    simp only [hadd, R.kTerm_eq, R.gPhase_eq, R.qPhase_eq]
  · rw [List.map_cons, List.map_cons, List.sum_cons, List.sum_cons, h]
    conv_lhs => rw [← R.zero]
    simp only [hadd, R.kTerm_eq, R.gPhase_eq, R.qPhase_eq]

/-- The real-space sum does not change. -/
theorem Relabel.realTerm_eq (erfc : ℝ → ℝ) (lam : ℝ) (q : V3 ℝ) (i j : Fin n) (a b : Fin 3) :
    realTerm erfc o' lam (R.P q) i j a b = realTerm erfc o lam q i j a b := by
  unfold realTerm
  rw [R.cells_eq]
  have hf : realFactor o' lam = realFactor o lam := by unfold realFactor; rw [R.diel]
  rw [hf]
  congr 1
  unfold cells
  rw [R.shells_sum]
  congr 1
  apply List.map_congr_left
  intro v _
  rw [R.hab_eq]
  have h := R.inner q (castV ℝ v)
  rw [← R.cast] at h
  simp only [castV] at h
  rw [h]

end

/-- Specification: the two sums of the correction without the `q = 0` term, for a sign in front of the
reciprocal one. -/
noncomputable def ewald (erfc : ℝ → ℝ) (o : Ions n) (lam s : ℝ) (q : V3 ℝ) (i j : Fin n) (a b : Fin 3) : ℂ :=
  ∑ c, ∑ d, (o.born i a c * o.born j b d : ℝ) *
    ((s : ℂ) * fill (recipTerm o lam q) i j c d - fill (realTerm erfc o lam q) i j c d)

theorem corrAt_ewald (erfc : ℝ → ℝ) (o : Ions n) (lam : ℝ) (q : V3 ℝ) (i j : Fin n) (a b : Fin 3) :
    corrAt erfc o lam q i j a b = ewald erfc o lam 1 q i j a b -
      if i = j then 1 / 2 * ∑ j', (ewald erfc o lam 1 ⟨0, 0, 0⟩ i j' a b + ewald erfc o lam 1 ⟨0, 0, 0⟩ i j' b a)
        else 0 := by
  unfold corrAt
  congr 1
  · unfold ewald; simp only [Complex.ofReal_one, one_mul]
  · split
    · unfold q0 q0Raw ewald
      rw [Finset.sum_add_distrib]
      simp only [Complex.ofReal_one, one_mul, terms_zero]
    · rfl

theorem fill_smul (s : ℝ) (u : Fin n → Fin n → Fin 3 → Fin 3 → ℂ) (i j : Fin n) (a b : Fin 3) :
    fill (fun i j a b => (s : ℂ) * u i j a b) i j a b = (s : ℂ) * fill u i j a b := by
  unfold fill
  split
  · rfl
  · rw [star_mul', star_real]

theorem Relabel.ewald_eq {o o' : Ions n} {s : ℝ} (R : Relabel o o' s) (hs : s * s = 1) (erfc : ℝ → ℝ)
    (lam : ℝ) (q : V3 ℝ) (i j : Fin n) (a b : Fin 3) :
    ewald erfc o' lam 1 (R.P q) i j a b = ewald erfc o lam s q i j a b := by
  unfold ewald
  have h1 : recipTerm o' lam (R.P q) = fun i j a b => (s : ℂ) * recipTerm o lam q i j a b := by
    funext i j a b; exact R.recipTerm_eq lam hs q i j a b
  have h2 : realTerm erfc o' lam (R.P q) = realTerm erfc o lam q := by
    funext i j a b; exact R.realTerm_eq erfc lam q i j a b
  rw [h1, h2, R.born]
  simp only [fill_smul, Complex.ofReal_one, one_mul]

/-- The correction in other coordinates. -/
theorem Relabel.dipole_eq {o o' : Ions n} {s : ℝ} (R : Relabel o o' s) (hs : s * s = 1)
    (hP0 : R.P ⟨0, 0, 0⟩ = ⟨0, 0, 0⟩) (erfc : ℝ → ℝ) (lam : ℝ) (q : V3 ℝ) (k l : Fin (n * 3)) :
    dipoleCorrection erfc o' lam (R.P q) k l =
      ewald erfc o lam s (rem q) k.divNat l.divNat k.modNat l.modNat -
      if k.divNat = l.divNat then 1 / 2 * ∑ j', (ewald erfc o lam s ⟨0, 0, 0⟩ k.divNat j' k.modNat l.modNat +
        ewald erfc o lam s ⟨0, 0, 0⟩ k.divNat j' l.modNat k.modNat) else 0 := by
  unfold dipoleCorrection
  rw [corrAt_ewald, R.remc, R.ewald_eq hs]
  have := R.ewald_eq hs erfc lam ⟨0, 0, 0⟩
  rw [hP0] at this
  simp only [this]

/-- **C95.** The dipole correction does not depend on which of the three cell vectors is called the first, as
long as they are numbered in the same sense: for every crystal, q-point, screening parameter and error
function. -/
theorem C95_dipole_cyclic_partial (erfc : ℝ → ℝ) (o : Ions n) (lam : ℝ) (q : V3 ℝ) :
    dipoleCorrection erfc (cycIons o) lam (cycV q) = dipoleCorrection erfc o lam q := by
  funext k l
  have h := (relabelCyc o).dipole_eq (by norm_num) rfl erfc lam q k l
  refine Eq.trans h ?_
  unfold dipoleCorrection
  rw [corrAt_ewald]

/-- **C95** fails for an exchange of two cell vectors: the reciprocal sum changes its sign, the real-space
sum does not, because the triple product of the cell vectors is used as the volume. -/
theorem C95_dipole_exchange (erfc : ℝ → ℝ) (o : Ions n) (lam : ℝ) (q : V3 ℝ) (k l : Fin (n * 3)) :
    dipoleCorrection erfc (swapIons o) lam (swapV q) k l =
      ewald erfc o lam (-1) (rem q) k.divNat l.divNat k.modNat l.modNat -
      if k.divNat = l.divNat then
        1 / 2 * ∑ j', (ewald erfc o lam (-1) ⟨0, 0, 0⟩ k.divNat j' k.modNat l.modNat +
        ewald erfc o lam (-1) ⟨0, 0, 0⟩ k.divNat j' l.modNat k.modNat) else 0 :=
  (relabelSwap o).dipole_eq (by norm_num) rfl erfc lam q k l

/-- **C95.** The LO-TO correction does not depend on which cell vector is the first, in the same sense. -/
theorem C95_loto_cyclic_partial (o : Ions n) (q : V3 ℝ) :
    gammaCorrection (cycIons o) (cycV q) = gammaCorrection o q := by
  have R := relabelCyc o
  have h1 := (relabelCyc o).gamma q
  have h2 := (relabelCyc o).recipc q
  have h3 := (relabelCyc o).vol
  simp only [relabelCyc] at h1 h2 h3
  unfold gammaCorrection
  rw [h1, h2, h3, one_mul]
  rfl

/-- **C95** fails for an exchange of two cell vectors: the LO-TO correction changes its sign. -/
theorem C95_loto_exchange (o : Ions n) (q : V3 ℝ) (k l : Fin (n * 3)) :
    gammaCorrection (swapIons o) (swapV q) k l = -gammaCorrection o q k l := by
  have h1 := (relabelSwap o).gamma q
  have h2 := (relabelSwap o).recipc q
  have h3 := (relabelSwap o).vol
  simp only [relabelSwap] at h1 h2 h3
  unfold gammaCorrection
  rw [h1, h2, h3]
  by_cases hg : isGamma q = true
  · rw [if_pos hg, if_pos hg, neg_zero]
  · rw [if_neg hg, if_neg hg]
    dsimp only
    rw [← Complex.ofReal_neg]
    congr 1
    rw [show (swapIons o).born = o.born from rfl, show (swapIons o).diel = o.diel from rfl,
      neg_one_mul, neg_mul, div_neg, mul_neg]

/-- **C95**, **C49** fail: for left handed cells the LO-TO correction is the textbook term with the wrong
sign. -/
theorem C95_loto_wrong_sign (o : Ions n) (q : V3 ℝ) (k l : Fin (n * 3)) (h : isGamma q = false)
    (hv : dot o.cv.a (cross o.cv.b o.cv.c) < 0) :
    gammaCorrection o q k l = (-nonAnalytic o (cartDir o q) k l : ℝ) := by
  rw [gammaCorrection_eq o q h k l]
  congr 1
  unfold loto nonAnalytic
  rw [abs_of_neg hv, div_neg, neg_mul, neg_neg]
  rfl

/-- A left handed crystal in which the correction is not zero: the exchanged cubic crystal of `exIons`. -/
theorem C95_not_independent : ∃ (o : Ions 1) (q : V3 ℝ),
    gammaCorrection (swapIons o) (swapV q) ≠ gammaCorrection o q := by
  refine ⟨exIons, ⟨1 / 2, 0, 0⟩, fun h => ?_⟩
  have h1 := congrFun (congrFun h 0) 0
  rw [C95_loto_exchange, gammaCorrection_eq _ _ exIons_notGamma, exIons_form _ (by norm_num)] at h1
  have h2 : (((4 * Real.pi : ℝ)) : ℂ) = 0 := by
    have := h1; linear_combination (-1 / 2 : ℂ) * this
  have h3 : (4 * Real.pi : ℝ) = 0 := by exact_mod_cast h2
  have := Real.pi_pos
  linarith

example : dot (swapIons exIons).cv.a (cross (swapIons exIons).cv.b (swapIons exIons).cv.c) < 0 ∧
    0 < dot exIons.cv.a (cross exIons.cv.b exIons.cv.c) := by
  simp only [swapIons, exIons, dot, cross]; norm_num

end Euphonic.Dipole
