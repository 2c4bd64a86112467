import Verif.Props.Loto
import Verif.Props.Origins

/-! # C50: the Ewald dipole correction -/

set_option autoImplicit false
set_option linter.unusedSectionVars false

namespace Euphonic.Dipole

open Euphonic.Lattice Euphonic.Phases Euphonic.Images Euphonic.DynMat

variable {n : Nat}

/-! ## Lists closed under inversion -/

/-- Every vector appears once and its negative appears too. -/
def NegClosed (l : List (V3 ℤ)) : Prop := l.Nodup ∧ ∀ v ∈ l, neg v ∈ l

theorem neg_neg' (v : V3 ℤ) : neg (neg v) = v := by
  simp [neg]

theorem NegClosed.sum_eq {β : Type} [AddCommMonoid β] {l : List (V3 ℤ)} (h : NegClosed l)
    (f : V3 ℤ → β) : (l.map f).sum = (l.map fun v => f (neg v)).sum := by
  have hp : (l.map neg).Perm l := by
    rw [List.perm_ext_iff_of_nodup (h.1.map fun a b hab => by
      rw [← neg_neg' a, ← neg_neg' b, hab]) h.1]
    intro v
    rw [List.mem_map]
    constructor
    · rintro ⟨w, hw, rfl⟩
      exact h.2 w hw
    · intro hv
      exact ⟨neg v, h.2 v hv, neg_neg' v⟩
  have := (hp.map f).sum_eq
  rw [List.map_map] at this
  exact this.symm

theorem mem_shell (m : Nat) (v : V3 ℤ) : v ∈ shell m ↔ maxAbs v = m := by
  obtain ⟨g, h1, h2, -⟩ := C38_shell m
  unfold shell
  rw [h1]
  exact h2 v

theorem nodup_shell (m : Nat) : (shell m).Nodup := by
  obtain ⟨g, h1, -, h3⟩ := C38_shell m
  unfold shell
  rw [h1]
  exact h3

theorem negClosed_shells (ms : List Nat) (hms : ms.Nodup) : NegClosed (ms.flatMap shell) := by
  constructor
  · rw [List.nodup_flatMap]
    refine ⟨fun m _ => nodup_shell m, ?_⟩
    refine hms.imp ?_
    intro a b hab v ha hb
    rw [mem_shell] at ha hb
    exact hab (ha.symm.trans hb)
  · intro v hv
    rw [List.mem_flatMap] at hv ⊢
    obtain ⟨m, hm, hv⟩ := hv
    refine ⟨m, hm, ?_⟩
    rw [mem_shell] at hv ⊢
    rw [← hv]
    exact maxAbs_neg v

theorem negClosed_cells (erfc : ℝ → ℝ) (o : Ions n) (lam : ℝ) : NegClosed (cells erfc o lam) :=
  negClosed_shells _ ((List.nodup_range).sublist (List.takeWhile_sublist _))

theorem nodup_gShells (o : Ions n) (lam : ℝ) : (gShells o lam).Nodup :=
  (List.nodup_range' ..).sublist (List.takeWhile_sublist _)

theorem negClosed_gvecs (o : Ions n) (lam : ℝ) : NegClosed (gvecs o lam) :=
  negClosed_shells _ (nodup_gShells o lam)

theorem zero_notMem_gvecs (o : Ions n) (lam : ℝ) : (⟨0, 0, 0⟩ : V3 ℤ) ∉ gvecs o lam := by
  unfold gvecs
  rw [List.mem_flatMap]
  rintro ⟨m, hm, hv⟩
  rw [mem_shell] at hv
  have h1 := (List.takeWhile_sublist _).subset hm
  rw [List.mem_range'_1] at h1
  simp only [maxAbs, Int.natAbs_zero, max_self] at hv
  omega

/-! ## Blocks -/

theorem castV_neg (v : V3 ℤ) : castV ℝ (neg v) = neg (castV ℝ v) := by
  simp [castV, neg]

theorem toCart_neg (m : M3 ℝ) (v : V3 ℝ) : toCart m (neg v) = neg (toCart m v) := by
  simp only [toCart, neg, V3.mk.injEq]
  refine ⟨?_, ?_, ?_⟩ <;> ring

theorem comp_neg (v : V3 ℝ) (a : Fin 3) : comp (neg v) a = -comp v a := by
  fin_cases a <;> simp [comp, neg]

theorem comp_sub (u v : V3 ℝ) (a : Fin 3) : comp (sub u v) a = comp u a - comp v a := by
  fin_cases a <;> simp [comp, sub]

theorem vecMat_neg (v : V3 ℝ) (m : Matrix (Fin 3) (Fin 3) ℝ) (k : Fin 3) :
    vecMat (neg v) m k = -vecMat v m k := by
  unfold vecMat
  rw [← Finset.sum_neg_distrib]
  refine Finset.sum_congr rfl fun j _ => ?_
  rw [comp_neg]
  ring

theorem hab_symm (erfc : ℝ → ℝ) (o : Ions n) (lam : ℝ) (hd : o.diel.transpose = o.diel) (R : V3 ℤ)
    (i j : Fin n) (a b : Fin 3) : hab erfc o lam R i j a b = hab erfc o lam R i j b a := by
  have hinv : ∀ a b, (o.diel⁻¹) a b = (o.diel⁻¹) b a := by
    intro a b
    have : (o.diel⁻¹).transpose = o.diel⁻¹ := by rw [Matrix.transpose_nonsing_inv, hd]
    conv_lhs => rw [← this]
    rfl
  unfold hab
  split
  · rfl
  · dsimp only
    rw [hinv a b]
    ring

theorem hab_even (erfc : ℝ → ℝ) (o : Ions n) (lam : ℝ) (R : V3 ℤ) (i : Fin n) (a b : Fin 3) :
    hab erfc o lam (neg R) i i a b = hab erfc o lam R i i a b := by
  have hz : neg R = ⟨0, 0, 0⟩ ↔ R = ⟨0, 0, 0⟩ := by
    obtain ⟨x, y, z⟩ := R
    simp [neg]
  unfold hab
  by_cases h : R = ⟨0, 0, 0⟩
  · rw [if_pos ⟨hz.2 h, rfl⟩, if_pos ⟨h, rfl⟩]
  · rw [if_neg (fun hh => h (hz.1 hh.1)), if_neg (fun hh => h hh.1)]
    dsimp only
    simp only [castV_neg, toCart_neg, vecMat_neg, comp_sub, comp_neg, sub_self, zero_sub, neg_neg,
      neg_mul, mul_neg]

theorem kTerm_symm (o : Ions n) (lam : ℝ) (k : V3 ℝ) (a b : Fin 3) :
    kTerm o lam k a b = kTerm o lam k b a := by
  unfold kTerm
  dsimp only
  rw [mul_comm (comp k a)]

theorem kTerm_neg (o : Ions n) (lam : ℝ) (k : V3 ℝ) (a b : Fin 3) :
    kTerm o lam (neg k) a b = kTerm o lam k a b := by
  unfold kTerm
  simp only [comp_neg, neg_mul_neg]

theorem star_real (x : ℝ) : star (x : ℂ) = x := Complex.conj_ofReal x

theorem gPhase_neg (o : Ions n) (G : V3 ℤ) (i : Fin n) : gPhase o (neg G) i = star (gPhase o G i) := by
  unfold gPhase
  rw [Complex.star_def, ← Complex.exp_conj]
  congr 1
  simp only [neg, map_mul, Complex.conj_I, Complex.conj_ofReal, map_ofNat]
  push_cast
  ring

theorem qPhase_neg (o : Ions n) (q : V3 ℝ) (i : Fin n) : qPhase o (neg q) i = star (qPhase o q i) := by
  unfold qPhase
  rw [Complex.star_def, ← Complex.exp_conj]
  congr 1
  simp only [neg, map_mul, Complex.conj_I, Complex.conj_ofReal, map_ofNat]
  push_cast
  ring

theorem gPhase_ne (o : Ions n) (G : V3 ℤ) (i : Fin n) : gPhase o G i ≠ 0 := Complex.exp_ne_zero _

theorem qPhase_ne (o : Ions n) (q : V3 ℝ) (i : Fin n) : qPhase o q i ≠ 0 := Complex.exp_ne_zero _

theorem realTerm_symm (erfc : ℝ → ℝ) (o : Ions n) (lam : ℝ) (hd : o.diel.transpose = o.diel) (q : V3 ℝ)
    (i j : Fin n) (a b : Fin 3) : realTerm erfc o lam q i j a b = realTerm erfc o lam q i j b a := by
  unfold realTerm
  simp only [hab_symm erfc o lam hd _ i j a b]

theorem recipTerm_symm (o : Ions n) (lam : ℝ) (q : V3 ℝ) (i j : Fin n) (a b : Fin 3) :
    recipTerm o lam q i j a b = recipTerm o lam q i j b a := by
  unfold recipTerm
  simp only [kTerm_symm o lam _ a b]

/-- The diagonal real-space block is real: cells `R` and `-R` are both in the sum. -/
theorem realTerm_diag (erfc : ℝ → ℝ) (o : Ions n) (lam : ℝ) (q : V3 ℝ) (i : Fin n) (a b : Fin 3) :
    star (realTerm erfc o lam q i i a b) = realTerm erfc o lam q i i a b := by
  unfold realTerm
  rw [star_mul', star_real, star_list_sum, (negClosed_cells erfc o lam).sum_eq]
  congr 2
  apply List.map_congr_left
  intro R _
  rw [star_mul', star_real, hab_even]
  congr 1
  rw [Complex.star_def, ← Complex.exp_conj]
  congr 1
  simp only [neg, map_mul, Complex.conj_I, Complex.conj_ofReal, map_ofNat]
  push_cast
  ring

theorem recipTerm_diag (o : Ions n) (lam : ℝ) (q : V3 ℝ) (i : Fin n) (a b : Fin 3) :
    star (recipTerm o lam q i i a b) = recipTerm o lam q i i a b := by
  unfold recipTerm
  dsimp only
  rw [star_mul', star_real, star_list_sum]
  congr 2
  apply List.map_congr_left
  intro G _
  rw [div_self (mul_ne_zero (gPhase_ne o G i) (qPhase_ne o q i)), mul_one, star_real]

/-- Filled blocks are Hermitian if the upper blocks are symmetric and the diagonal ones real. -/
theorem fill_hermitian (u : Fin n → Fin n → Fin 3 → Fin 3 → ℂ) (hs : ∀ i j a b, u i j a b = u i j b a)
    (hr : ∀ i a b, star (u i i a b) = u i i a b) (i j : Fin n) (a b : Fin 3) :
    fill u j i b a = star (fill u i j a b) := by
  unfold fill
  rcases lt_trichotomy i j with h | rfl | h
  · rw [if_neg (not_le.2 h), if_pos h.le, hs]
  · rw [if_pos le_rfl, if_pos le_rfl, hr, hs]
  · rw [if_pos h.le, if_neg (not_le.2 h), star_star, hs]

/-- The reciprocal `q = 0` sum of a shell is real. -/
theorem recipQ0Shell_real (o : Ions n) (lam : ℝ) (s : Nat) (i j : Fin n) (a b : Fin 3) :
    star (recipQ0Shell o lam s i j a b) = recipQ0Shell o lam s i j a b := by
  have hc : NegClosed (shell s) := by
    have := negClosed_shells [s] (by simp)
    simpa using this
  unfold recipQ0Shell
  rw [star_list_sum, hc.sum_eq]
  congr 1
  apply List.map_congr_left
  intro G _
  rw [star_mul', star_real, star_div₀, gPhase_neg, gPhase_neg, star_star, star_star, castV_neg,
    toCart_neg, kTerm_neg]

theorem q0Term_real (erfc : ℝ → ℝ) (o : Ions n) (lam : ℝ) (i j : Fin n) (a b : Fin 3) :
    star (q0Term erfc o lam i j a b) = q0Term erfc o lam i j a b := by
  have h1 : ∀ i j a b, star (((recipFactor o lam : ℝ) : ℂ) *
      ((gShells o lam).map fun s => recipQ0Shell o lam s i j a b).sum)
      = (recipFactor o lam : ℂ) * ((gShells o lam).map fun s => recipQ0Shell o lam s i j a b).sum := by
    intro i j a b
    rw [star_mul', star_real, star_list_sum]
    simp only [recipQ0Shell_real]
  unfold q0Term fill
  split
  · rw [star_sub, h1, star_real]
  · rw [star_sub, h1, star_real, h1, star_real]

theorem q0_real (erfc : ℝ → ℝ) (o : Ions n) (lam : ℝ) (i : Fin n) (a b : Fin 3) :
    star (q0 erfc o lam i a b) = q0 erfc o lam i a b := by
  have h1 : ∀ a b, star (q0Raw erfc o lam i a b) = q0Raw erfc o lam i a b := by
    intro a b
    unfold q0Raw
    simp only [star_sum, star_mul', star_real, q0Term_real]
  unfold q0
  rw [star_mul', star_add, h1, h1]
  congr 1
  simp

theorem q0_symm (erfc : ℝ → ℝ) (o : Ions n) (lam : ℝ) (i : Fin n) (a b : Fin 3) :
    q0 erfc o lam i a b = q0 erfc o lam i b a := by
  unfold q0
  rw [add_comm]

/-! ## C50 -/

theorem corrAt_hermitian (erfc : ℝ → ℝ) (o : Ions n) (lam : ℝ) (hd : o.diel.transpose = o.diel)
    (q : V3 ℝ) (i j : Fin n) (a b : Fin 3) :
    corrAt erfc o lam q j i b a = star (corrAt erfc o lam q i j a b) := by
  unfold corrAt
  rw [star_sub]
  congr 1
  · simp only [star_sum, star_mul', star_real, star_sub]
    rw [Finset.sum_comm]
    refine Finset.sum_congr rfl fun c _ => Finset.sum_congr rfl fun d _ => ?_
    rw [← fill_hermitian _ (recipTerm_symm o lam q) (recipTerm_diag o lam q),
      ← fill_hermitian _ (realTerm_symm erfc o lam hd q) (realTerm_diag erfc o lam q)]
    push_cast
    ring
  · by_cases h : i = j
    · subst h
      rw [if_pos rfl, if_pos rfl, q0_real, q0_symm]
    · rw [if_neg h, if_neg (Ne.symm h), star_zero]

/-- **C50.** For a symmetric dielectric tensor the dipole correction is Hermitian at every q-point, for
any crystal, Born charges, screening parameter and complementary error function. -/
theorem C50_hermitian (erfc : ℝ → ℝ) (o : Ions n) (lam : ℝ) (hd : o.diel.transpose = o.diel) (q : V3 ℝ)
    (k l : Fin (n * 3)) :
    dipoleCorrection erfc o lam q l k = star (dipoleCorrection erfc o lam q k l) :=
  corrAt_hermitian erfc o lam hd (rem q) k.divNat l.divNat k.modNat l.modNat

theorem isGamma_neg (q : V3 ℝ) : isGamma (neg q) = isGamma q := by
  unfold isGamma sumAbs rem neg
  simp only [abs_sub_rint_neg]

theorem rem_neg (q : V3 ℝ) : rem (neg q) = neg (rem q) := by
  simp only [rem, neg, rint_neg, V3.mk.injEq]
  push_cast
  refine ⟨?_, ?_, ?_⟩ <;> ring

theorem star_fill (u : Fin n → Fin n → Fin 3 → Fin 3 → ℂ) (i j : Fin n) (a b : Fin 3) :
    fill (fun i j a b => star (u i j a b)) i j a b = star (fill u i j a b) := by
  unfold fill
  split <;> rfl

/-- **C50.** Reversing `q` conjugates the correction (so, with C44, frequencies stay even in `q`). -/
theorem C50_even (erfc : ℝ → ℝ) (o : Ions n) (lam : ℝ) (q : V3 ℝ) (k l : Fin (n * 3)) :
    dipoleCorrection erfc o lam (neg q) k l = star (dipoleCorrection erfc o lam q k l) := by
  have h1 : ∀ (p : V3 ℝ), realTerm erfc o lam (neg p) = fun i j a b => star (realTerm erfc o lam p i j a b) := by
    intro p
    funext i j a b
    unfold realTerm
    rw [star_mul', star_real, star_list_sum]
    congr 2
    apply List.map_congr_left
    intro R _
    rw [star_mul', star_real]
    congr 1
    rw [Complex.star_def, ← Complex.exp_conj]
    congr 1
    simp only [neg, map_mul, Complex.conj_I, Complex.conj_ofReal, map_ofNat]
    push_cast
    ring
  have h2 : ∀ (p : V3 ℝ), recipTerm o lam (neg p) = fun i j a b => star (recipTerm o lam p i j a b) := by
    intro p
    funext i j a b
    unfold recipTerm
    dsimp only
    rw [isGamma_neg, star_mul', star_real, star_list_sum]
    congr 1
    have hcl : NegClosed (if isGamma p = true then gvecs o lam else ⟨0, 0, 0⟩ :: gvecs o lam) := by
      split
      · exact negClosed_gvecs o lam
      · obtain ⟨hn, hc⟩ := negClosed_gvecs o lam
        refine ⟨List.nodup_cons.2 ⟨zero_notMem_gvecs o lam, hn⟩, ?_⟩
        intro v hv
        rcases List.mem_cons.1 hv with rfl | hv
        · exact List.mem_cons.2 (Or.inl (by simp [neg]))
        · exact List.mem_cons_of_mem _ (hc v hv)
    rw [hcl.sum_eq]
    congr 1
    apply List.map_congr_left
    intro G _
    have hk : add (toCart (recip o) (castV ℝ (neg G))) (toCart (recip o) (neg p))
        = neg (add (toCart (recip o) (castV ℝ G)) (toCart (recip o) p)) := by
      rw [castV_neg, toCart_neg, toCart_neg]
      simp only [add, neg, V3.mk.injEq]
      refine ⟨?_, ?_, ?_⟩ <;> ring
    rw [hk, kTerm_neg, gPhase_neg, gPhase_neg, qPhase_neg, qPhase_neg, star_mul', star_real,
      star_div₀, star_mul', star_mul']
  unfold dipoleCorrection corrAt
  rw [rem_neg, h1, h2]
  rw [star_sub]
  congr 1
  · simp only [star_sum, star_mul', star_real, star_sub, star_fill]
  · split
    · rw [q0_real]
    · rw [star_zero]

/-- **C50.** The correction is periodic: adding a reciprocal lattice vector changes nothing, unless a
component of `q` is a half-integer (where rounding decides between `1/2` and `-1/2`). -/
theorem C50_periodic (erfc : ℝ → ℝ) (o : Ions n) (lam : ℝ) (q : V3 ℝ) (G : V3 ℤ)
    (hx : |q.x - rint q.x| < 1 / 2) (hy : |q.y - rint q.y| < 1 / 2) (hz : |q.z - rint q.z| < 1 / 2) :
    dipoleCorrection erfc o lam (add q (castV ℝ G)) = dipoleCorrection erfc o lam q := by
  have h : ∀ (x : ℝ) (m : ℤ), |x - rint x| < 1 / 2 → rint (x + m) = rint x + m := by
    intro x m hx
    apply rint_eq_of_abs_lt
    push_cast
    rw [show x + (m : ℝ) - ((rint x : ℝ) + m) = x - rint x by ring]
    exact hx
  have : rem (add q (castV ℝ G)) = rem q := by
    simp only [rem, add, castV, h _ _ hx, h _ _ hy, h _ _ hz, V3.mk.injEq]
    push_cast
    refine ⟨?_, ?_, ?_⟩ <;> ring
  unfold dipoleCorrection
  rw [this]

/-- A q-point away from the half-integers. -/
example : |(9 / 4 : ℝ) - rint (9 / 4 : ℝ)| < 1 / 2 := by
  rw [rint_eq_of_abs_lt (9 / 4 : ℝ) 2 (by rw [abs_lt]; norm_num)]
  rw [abs_lt]
  norm_num

theorem list_sum_flatMap {ι κ : Type} (l : List ι) (g : ι → List κ) (f : κ → ℂ) :
    ((l.flatMap g).map f).sum = (l.map fun a => ((g a).map f).sum).sum := by
  induction l with
  | nil => simp
  | cons a l ih => simp [List.flatMap_cons, ih]

/-- At `q = 0` the terms are the ones stored in `dipole_q0`. -/
theorem terms_zero (erfc : ℝ → ℝ) (o : Ions n) (lam : ℝ) (i j : Fin n) (a b : Fin 3) :
    fill (recipTerm o lam ⟨0, 0, 0⟩) i j a b - fill (realTerm erfc o lam ⟨0, 0, 0⟩) i j a b
      = q0Term erfc o lam i j a b := by
  have hg : isGamma (⟨0, 0, 0⟩ : V3 ℝ) = true := by
    have h2 : rint (0 : ℝ) = 0 := by exact_mod_cast rint_intCast (K := ℝ) 0
    unfold isGamma sumAbs rem
    simp [h2]
  have hq : ∀ i, qPhase o ⟨0, 0, 0⟩ i = 1 := by
    intro i
    unfold qPhase
    simp
  have h1 : recipTerm o lam ⟨0, 0, 0⟩ = fun i j a b => (recipFactor o lam : ℂ) *
      ((gShells o lam).map fun s => recipQ0Shell o lam s i j a b).sum := by
    funext i j a b
    unfold recipTerm
    dsimp only
    rw [if_pos hg]
    congr 1
    unfold gvecs
    rw [list_sum_flatMap]
    congr 1
    apply List.map_congr_left
    intro s _
    unfold recipQ0Shell
    congr 1
    apply List.map_congr_left
    intro G _
    rw [hq, hq, mul_one, mul_one]
    congr 2
    congr 1
    simp [add, toCart]
  have h2 : realTerm erfc o lam ⟨0, 0, 0⟩ = fun i j a b => ((realFactor o lam *
      ((cells erfc o lam).map fun R => hab erfc o lam R i j a b).sum : ℝ) : ℂ) := by
    funext i j a b
    unfold realTerm
    push_cast
    congr 1
    have : ∀ l : List (V3 ℤ), (((l.map fun R => hab erfc o lam R i j a b).sum : ℝ) : ℂ)
        = (l.map fun R => (hab erfc o lam R i j a b : ℂ)).sum := by
      intro l
      induction l with
      | nil => simp
      | cons x l ih => simp [ih]
    rw [this]
    congr 1
    apply List.map_congr_left
    intro R _
    simp
  rw [h1, h2]
  rfl

/-- **C50 (partial).** At every gamma point (integer `q`) the sum of the correction over the atoms `j` is
the antisymmetric part of the stored `q = 0` term; it vanishes, i.e. the acoustic sum rule holds exactly,
whenever that term is symmetric.  Missing: nothing forces the term to be symmetric, the code
symmetrises it before subtracting. -/
theorem C50_acoustic_sum_partial (erfc : ℝ → ℝ) (o : Ions n) (lam : ℝ) (G : V3 ℤ) (i : Fin n)
    (a b : Fin 3) :
    ∑ j, corrAt erfc o lam (rem (castV ℝ G)) i j a b
      = 1 / 2 * (q0Raw erfc o lam i a b - q0Raw erfc o lam i b a) := by
  have h0 : rem (castV ℝ G) = ⟨0, 0, 0⟩ := by
    simp [rem, castV, rint_intCast]
  rw [h0]
  unfold corrAt
  rw [Finset.sum_sub_distrib]
  have h1 : ∑ j, (if i = j then q0 erfc o lam i a b else 0) = q0 erfc o lam i a b := by simp
  rw [h1]
  simp only [terms_zero]
  have h2 : (∑ j, ∑ c, ∑ d, ((o.born i a c * o.born j b d : ℝ) : ℂ) * q0Term erfc o lam i j c d)
      = q0Raw erfc o lam i a b := rfl
  rw [h2]
  unfold q0
  ring

/-- Two ions of opposite charge in an orthorhombic cell; an asymmetric position, a dielectric tensor with
off-diagonal elements: the hypothesis of `C50_hermitian` holds. -/
example : ∃ o : Ions 2, o.diel.transpose = o.diel ∧ o.diel 0 1 ≠ 0 ∧ o.born 0 ≠ o.born 1 := by
  refine ⟨⟨⟨⟨1, 0, 0⟩, ⟨0, 2, 0⟩, ⟨0, 0, 3⟩⟩, ![⟨0, 0, 0⟩, ⟨1 / 3, 1 / 5, 0⟩],
    ![fun a b => if a = b then 1 else 0, fun a b => if a = b then -1 else 0],
    !![3, 1, 0; 1, 2, 0; 0, 0, 4]⟩, ?_, ?_, ?_⟩
  · ext a b
    fin_cases a <;> fin_cases b <;> rfl
  · simp
  · intro h
    have := congrFun (congrFun h 0) 0
    norm_num at this

/-! ## Packed indices -/

theorem filter_ge (n i : Nat) (hi : i ≤ n) :
    ((List.range n).filter fun j => decide (i ≤ j)) = List.range' i (n - i) := by
  have h : List.range n = List.range' 0 i ++ List.range' i (n - i) := by
    rw [List.range_eq_range', show List.range' i (n - i) = List.range' (0 + i) (n - i) by rw [zero_add],
      List.range'_append_1]
    congr 1
    omega
  rw [h, List.filter_append, List.filter_eq_nil_iff.2, List.nil_append, List.filter_eq_self.2]
  · intro j hj
    rw [List.mem_range'_1] at hj
    simpa using hj.1
  · intro j hj
    rw [List.mem_range'_1] at hj
    simp
    omega

theorem prefix_length (n i : Nat) (hi : i ≤ n) :
    ((List.range i).flatMap fun i => ((List.range n).filter fun j => decide (i ≤ j)).map fun j =>
      (i, j)).length = (List.range' (n - i) i).sum + i := by
  induction i with
  | zero => simp
  | succ i ih =>
    rw [List.range_succ, List.flatMap_append, List.length_append, ih (by omega), List.flatMap_singleton,
      List.length_map, filter_ge n i (by omega), List.length_range', List.range'_succ,
      List.sum_cons, show n - (i + 1) + 1 = n - i by omega]
    omega

/-- **C50.** Filling the upper triangle through `np.triu_indices` reads each pair from where it was
stored: the packed position of `(i, j)` is its position in the list of upper-triangle indices. -/
theorem C50_packed_position (n i j : Nat) (hij : i ≤ j) (hj : j < n) :
    (triuIndices n)[packed n i j]? = some (i, j) := by
  have h : List.range n = List.range i ++ (i :: List.range' (i + 1) (n - i - 1)) := by
    rw [← List.range'_succ, List.range_eq_range', List.range_eq_range',
      show List.range' i (n - i - 1 + 1) = List.range' (0 + i) (n - i - 1 + 1) by rw [zero_add],
      List.range'_append_1]
    congr 1
    omega
  have h2 : triuIndices n = ((List.range i).flatMap fun i =>
      ((List.range n).filter fun j => decide (i ≤ j)).map fun j => (i, j)) ++
      (((List.range n).filter fun j => decide (i ≤ j)).map fun j => (i, j)) ++
      ((List.range' (i + 1) (n - i - 1)).flatMap fun i =>
      ((List.range n).filter fun j => decide (i ≤ j)).map fun j => (i, j)) := by
    conv_lhs => unfold triuIndices; enter [2]; rw [h]
    rw [List.flatMap_append, List.flatMap_cons, List.append_assoc]
  rw [h2, List.append_assoc, List.getElem?_append_right (by
    rw [prefix_length n i (by omega)]; unfold packed; omega), prefix_length n i (by omega),
    show packed n i j - ((List.range' (n - i) i).sum + i) = j - i by unfold packed; omega,
    filter_ge n i (by omega), List.getElem?_append_left (by simp; omega), List.getElem?_map,
    List.getElem?_range' (by omega)]
  simp
  omega

/-- Packed positions of a three-atom cell. -/
example : (triuIndices 3)[packed 3 1 2]? = some (1, 2) ∧ packed 3 1 2 = 4 := by decide

end Euphonic.Dipole
