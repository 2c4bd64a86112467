import Verif.Props.CDipole
import Verif.Props.Loto
import Verif.Props.Asr

/-! # C52: the matrix diagonalised by the C extension, frequencies and mode gradients -/

set_option autoImplicit false

namespace Euphonic.CExt

open Euphonic.Lattice Euphonic.Phases Euphonic.Images Euphonic.DynMat Euphonic.Dipole

/-! ## LO-TO splitting -/

/-- Loops that set the real parts of the blocks on and above the diagonal. -/
theorem setUpper_at (n : Nat) (qb : Nat → Nat → ℝ) (fac : ℝ) (corr : Mem) (i j : Fin n) (a b : Fin 3) :
    cAt (loop 0 n (fun i => loop i n fun j => loop 0 3 fun a => loop 0 3 fun b m =>
        setAt m (2 * elemIdx n i a j b) (fac * qb i a * qb j b)) corr) (elemIdx n i a j b)
      = if i ≤ j then ⟨fac * qb i a * qb j b, (cAt corr (elemIdx n i a j b)).im⟩
        else cAt corr (elemIdx n i a j b) := by
  have lb : ∀ i j a, j < n → a < 3 → _ := fun i j a hj ha => loop_writes 0 3 (fun b m =>
      setAt m (2 * elemIdx n i a j b) (fac * qb i a * qb j b))
    (fun b p => p = 2 * elemIdx n i a j b) (fun _ _ => False)
    (fun b _ hb => ⟨fun m p hp => by simp [setAt, hp],
      fun m m' p hp _ => by subst hp; simp [setAt]⟩)
    (fun b _ hb b' _ hb' p => by
      rintro rfl h
      exact (elemIdx_inj ha hb hj ha hb' hj (show elemIdx n i a j b = elemIdx n i a j b' by omega)).2.2.2)
    (fun b _ hb b' _ hb' p h => h.elim)
  have la : ∀ i j, j < n → _ := fun i j hj => loop_writes 0 3 _ _ _ (fun a _ ha => (lb i j a hj ha).1)
    (fun a _ ha a' _ ha' p => by
      rintro ⟨b, _, hb, rfl⟩ ⟨b', _, hb', h⟩
      exact (elemIdx_inj ha hb hj ha' hb' hj (show elemIdx n i a j b = elemIdx n i a' j b' by omega)).2.1)
    (fun a _ ha a' _ ha' p => by rintro ⟨_, _, _, h⟩; exact h.elim)
  have lj : ∀ i, i < n → _ := fun i hi => loop_writes i n _ _ _ (fun j _ hj => (la i j hj).1)
    (fun j _ hj j' _ hj' p => by
      rintro ⟨a, _, ha, b, _, hb, rfl⟩ ⟨a', _, ha', b', _, hb', h⟩
      exact (elemIdx_inj ha hb hj ha' hb' hj' (show elemIdx n i a j b = elemIdx n i a' j' b' by omega)).2.2.1)
    (fun j _ hj j' _ hj' p => by rintro ⟨_, _, _, _, _, _, h⟩; exact h.elim)
  have li := loop_writes 0 n _ _ _ (fun i _ hi => (lj i hi).1)
    (fun i _ hi i' _ hi' p => by
      rintro ⟨j, _, hj, a, _, ha, b, _, hb, rfl⟩ ⟨j', _, hj', a', _, ha', b', _, hb', h⟩
      exact (elemIdx_inj ha hb hj ha' hb' hj' (show elemIdx n i a j b = elemIdx n i' a' j' b' by omega)).1)
    (fun i _ hi i' _ hi' p => by rintro ⟨_, _, _, _, _, _, _, _, _, h⟩; exact h.elim)
  have him : ∀ p, (∀ i' j' a' b', i' ≤ j' → p ≠ 2 * elemIdx n i' a' j' b' ∨ ¬ j' < n ∨ ¬ a' < 3 ∨ ¬ b' < 3) →
      loop 0 n (fun i => loop i n fun j => loop 0 3 fun a => loop 0 3 fun b m =>
        setAt m (2 * elemIdx n i a j b) (fac * qb i a * qb j b)) corr p = corr p := by
    intro p hp
    refine li.1.frame corr p ?_
    rintro ⟨i', _, hi', j', hij', hj', a', _, ha', b', _, hb', h⟩
    rcases hp i' j' a' b' hij' with h' | h' | h' | h'
    · exact h' h
    · exact h' hj'
    · exact h' ha'
    · exact h' hb'
  have him1 : loop 0 n (fun i => loop i n fun j => loop 0 3 fun a => loop 0 3 fun b m =>
        setAt m (2 * elemIdx n i a j b) (fac * qb i a * qb j b)) corr (2 * elemIdx n i a j b + 1)
      = corr (2 * elemIdx n i a j b + 1) :=
    him _ fun i' j' a' b' _ => Or.inl (by omega)
  by_cases hij : i ≤ j
  · rw [if_pos hij]
    unfold cAt
    rw [him1]
    apply Complex.ext
    · change loop 0 n _ corr (2 * elemIdx n i a j b) = _
      rw [li.2 i (Nat.zero_le _) i.2 corr _ ⟨j, hij, j.2, a, Nat.zero_le _, a.2, b, Nat.zero_le _, b.2, rfl⟩,
        (lj i i.2).2 j hij j.2 corr _ ⟨a, Nat.zero_le _, a.2, b, Nat.zero_le _, b.2, rfl⟩,
        (la i j j.2).2 a (Nat.zero_le _) a.2 corr _ ⟨b, Nat.zero_le _, b.2, rfl⟩,
        (lb i j a j.2 a.2).2 b (Nat.zero_le _) b.2 corr _ rfl]
      simp only [setAt, Function.update_self]
    · rfl
  · rw [if_neg hij]
    have hn : ¬(i : Nat) ≤ j := hij
    unfold cAt
    rw [him1]
    apply Complex.ext
    · refine him _ fun i' j' a' b' hij' => ?_
      by_contra hcon
      simp only [not_or, not_not, ne_eq] at hcon
      have := elemIdx_inj a.2 b.2 j.2 hcon.2.2.1 hcon.2.2.2 hcon.2.1
        (show elemIdx n i a j b = elemIdx n i' a' j' b' by omega)
      omega
    · rfl

/-- What `calculate_gamma_correction` writes for a direction that is not a gamma point: the real parts of
the blocks on and above the diagonal. -/
theorem calcGamma_at (D : DipIn) (o : Ions D.n) (hcv : HoldsM3 D.cellVec o.cv) (hr : HoldsM3 D.recip (Dipole.recip o))
    (hb : ∀ (i : Fin D.n) (a b : Fin 3), D.born ((i * 3 + a) * 3 + b) = o.born i a b)
    (hd : HoldsMat D.diel o.diel) {v : V3 ℝ} {dir : Mem} (hv : Holds dir v) (corr : Mem)
    (i j : Fin D.n) (a b : Fin 3) (hg : isGamma v = false) :
    cAt (calcGamma D dir corr) (elemIdx D.n i a j b) =
      if i ≤ j then ⟨((∑ c, o.born i a c * comp (toCart (Dipole.recip o) v) c)
          * (∑ c, o.born j b c * comp (toCart (Dipole.recip o) v) c)
          * (4 * Real.pi / (volume o * ∑ a, ∑ b, o.diel a b * comp (toCart (Dipole.recip o) v) a
            * comp (toCart (Dipole.recip o) v) b))),
          (cAt corr (elemIdx D.n i a j b)).im⟩
      else cAt corr (elemIdx D.n i a j b) := by
  unfold calcGamma
  rw [C53_is_gamma dir v hv, hg, if_neg (by simp)]
  dsimp only
  have hqc : ∀ c : Fin 3, loop 0 3 (fun b acc => acc + D.recip (3 * b + c) * dir b) 0
      = comp (toCart (Dipole.recip o) v) c := by
    intro c
    have h := hr c
    rw [loop_three, hv.1, hv.2.1, hv.2.2]
    simp only [Nat.mul_zero, Nat.zero_add, Nat.mul_one, Nat.reduceMul]
    rw [h.1, h.2.1, h.2.2]
    fin_cases c <;> simp [toCart, comp] <;> ring
  have hden : loop 0 3 (fun a => loop 0 3 fun b acc => acc + D.diel (3 * a + b)
        * loop 0 3 (fun b acc => acc + D.recip (3 * b + a) * dir b) 0
        * loop 0 3 (fun b' acc => acc + D.recip (3 * b' + b) * dir b') 0) 0
      = ∑ a, ∑ b, o.diel a b * comp (toCart (Dipole.recip o) v) a * comp (toCart (Dipole.recip o) v) b := by
    rw [loop_add 0 3 _ _ (fun a _ _ s => loop_add 0 3 _ _ (fun b _ _ s => rfl) s), zero_add, sum_Ico_fin]
    simp only [sum_Ico_fin, hqc]
    refine Finset.sum_congr rfl fun a _ => Finset.sum_congr rfl fun b _ => ?_
    rw [mul_comm 3 (a : Nat), hd a b]
  have hqb : ∀ (i : Fin D.n) (a : Fin 3), loop 0 3 (fun b acc => acc + D.born (9 * i + 3 * a + b)
        * loop 0 3 (fun b' acc => acc + D.recip (3 * b' + b) * dir b') 0) 0
      = ∑ c, o.born i a c * comp (toCart (Dipole.recip o) v) c := by
    intro i a
    rw [loop_add 0 3 _ _ (fun b _ _ s => rfl), zero_add, sum_Ico_fin]
    simp only [hqc]
    refine Finset.sum_congr rfl fun c _ => ?_
    rw [← hb i a c]
    congr 2
    ring
  rw [hden, C53_cell_volume _ _ hcv]
  refine (setUpper_at D.n (fun i a => loop 0 3 (fun b acc => acc + D.born (9 * i + 3 * a + b)
        * loop 0 3 (fun b' acc => acc + D.recip (3 * b' + b) * dir b') 0) 0) _ corr i j a b).trans ?_
  rw [hqb, hqb]
  by_cases hij : i ≤ j
  · rw [if_pos hij, if_pos hij]
    apply Complex.ext
    · change 4 * Real.pi / (cellVolume o.cv * _) * _ * _ = _ * _ * (4 * Real.pi / (cellVolume o.cv * _))
      ring
    · rfl
  · rw [if_neg hij, if_neg hij]

/-! ## Sums and masses -/

theorem cAt_addArrays (n : Nat) (x m : Mem) {p : Nat} (hp : p < 9 * n * n) :
    cAt (addArrays (2 * 9 * n * n) x m) p = cAt m p + cAt x p := by
  have : 2 * 9 * n * n = 2 * (9 * n * n) := by ring
  unfold cAt
  rw [addArrays_apply, addArrays_apply, if_pos (by omega), if_pos (by omega)]
  rfl

theorem massWeight_apply (w : Mem) (n r : Nat) (m : Mem) {i j : Nat} (hi : i < 9 * n * n) (hj : j < r) :
    massWeight w n r m (r * i + j) = m (r * i + j) * w i := by
  have inj : ∀ {i j i' j'}, j < r → j' < r → r * i + j = r * i' + j' → i = i' ∧ j = j' := by
    intro i j i' j' hj hj' h
    have hm := congrArg (· % r) h
    have hd := congrArg (· / r) h
    simp only [Nat.mul_add_mod, Nat.mod_eq_of_lt hj, Nat.mod_eq_of_lt hj'] at hm
    beta_reduce at hd
    rw [Nat.mul_add_div (by omega), Nat.mul_add_div (by omega), Nat.div_eq_of_lt hj, Nat.div_eq_of_lt hj'] at hd
    omega
  have lj : ∀ i, _ := fun i => loop_writes 0 r (fun j m => setAt m (r * i + j) (m (r * i + j) * w i))
    (fun j p => p = r * i + j) (fun j p => p = r * i + j)
    (fun j _ hj => ⟨fun m p hp => by simp [setAt, hp],
      fun m m' p hp h => by subst hp; simp [setAt, h]⟩)
    (fun j _ hj j' _ hj' p => by rintro rfl h; exact (inj hj hj' h).2)
    (fun j _ hj j' _ hj' p => by rintro rfl h; exact (inj hj hj' h).2)
  have li := loop_writes 0 (9 * n * n) _ _ _ (fun i _ _ => (lj i).1)
    (fun i _ hi i' _ hi' p => by
      rintro ⟨j, _, hj, rfl⟩ ⟨j', _, hj', h⟩; exact (inj hj hj' h).1)
    (fun i _ hi i' _ hi' p => by
      rintro ⟨j, _, hj, rfl⟩ ⟨j', _, hj', h⟩; exact (inj hj hj' h).1)
  unfold massWeight
  rw [li.2 i (Nat.zero_le _) hi m _ ⟨j, Nat.zero_le _, hj, rfl⟩, (lj i).2 j (Nat.zero_le _) hj m _ rfl]
  simp [setAt]

theorem cAt_massWeight (w : Mem) (n : Nat) (m : Mem) {p : Nat} (hp : p < 9 * n * n) :
    cAt (massWeight w n 2 m) p = cAt m p * (w p : ℂ) := by
  unfold cAt
  have h0 := massWeight_apply w n 2 m hp (show 0 < 2 by omega)
  have h1 := massWeight_apply w n 2 m hp (show 1 < 2 by omega)
  rw [add_zero] at h0
  rw [h0, h1]
  apply Complex.ext
  · rw [Complex.re_mul_ofReal]
  · rw [Complex.im_mul_ofReal]

theorem cAt_massWeight6 (w : Mem) (n : Nat) (m : Mem) {p d : Nat} (hp : p < 9 * n * n) (hd : d < 3) :
    cAt (massWeight w n 6 m) (p * 3 + d) = cAt m (p * 3 + d) * (w p : ℂ) := by
  unfold cAt
  have h0 := massWeight_apply w n 6 m hp (show 2 * d < 6 by omega)
  have h1 := massWeight_apply w n 6 m hp (show 2 * d + 1 < 6 by omega)
  have e : 2 * (p * 3 + d) = 6 * p + 2 * d := by ring
  rw [e]
  rw [h0]
  rw [← add_assoc] at h1
  rw [h1]
  apply Complex.ext
  · rw [Complex.re_mul_ofReal]
  · rw [Complex.im_mul_ofReal]

/-! ## The matrix that is diagonalised -/

theorem cRem_int (G : V3 ℤ) : cRem (castV ℝ G) = ⟨0, 0, 0⟩ := by
  have h : ∀ m : ℤ, (m : ℝ) - cround (m : ℝ) = 0 := by
    intro m
    have h1 := (C53_round (m : ℝ)).1
    rw [rint_intCast, sub_self, abs_zero, abs_eq_zero] at h1
    exact h1
  simp [cRem, castV, h]

theorem corrAt_zero_real (erfc : ℝ → ℝ) {n : Nat} (o : Ions n) (lam : ℝ) (i j : Fin n) (a b : Fin 3) :
    star (corrAt erfc o lam ⟨0, 0, 0⟩ i j a b) = corrAt erfc o lam ⟨0, 0, 0⟩ i j a b := by
  have hf : ∀ k : Fin n × Fin 3, ∃ m : Fin (n * 3), m.divNat = k.1 ∧ m.modNat = k.2 := by
    intro k
    refine ⟨finProdFinEquiv k, ?_, ?_⟩
    · exact congrArg Prod.fst (finProdFinEquiv.symm_apply_apply k)
    · exact congrArg Prod.snd (finProdFinEquiv.symm_apply_apply k)
  obtain ⟨k, hk1, hk2⟩ := hf (i, a)
  obtain ⟨l, hl1, hl2⟩ := hf (j, b)
  have h := C50_even erfc o lam ⟨0, 0, 0⟩ k l
  have hz : DynMat.neg (⟨0, 0, 0⟩ : V3 ℝ) = ⟨0, 0, 0⟩ := by simp [DynMat.neg]
  have h2 : rint (0 : ℝ) = 0 := by exact_mod_cast rint_intCast (K := ℝ) 0
  have hr : rem (⟨0, 0, 0⟩ : V3 ℝ) = ⟨0, 0, 0⟩ := by simp [rem, h2]
  rw [hz] at h
  unfold dipoleCorrection at h
  rw [hr, hk1, hk2, hl1, hl2] at h
  exact h.symm

theorem DipLayout.gamma_upper {D : DipIn} {erfc : ℝ → ℝ} {o : Ions D.n} (LD : DipLayout D erfc o)
    (hdet : detArray D.diel = o.diel.det) {q : V3 ℝ} {qpt : Mem} (hq : Holds qpt q) (G : V3 ℤ)
    (hG : q = castV ℝ G) {m : Mem} {u : V3 ℝ} (hv : Holds m u) (corr : Mem) (k l : Fin (D.n * 3))
    (hblk : k.divNat ≤ l.divNat) :
    cAt (calcGamma D m (calcDipole D qpt corr)) (k * (3 * D.n) + l) = star (gammaCorrection o u k l) := by
  rw [(C49_symmetric o u k l).2, ← elemIdx_fin]
  cases hg : isGamma u with
  | true =>
      unfold calcGamma gammaCorrection
      rw [C53_is_gamma m u hv, hg, if_pos rfl, if_pos rfl]
      exact cAt_clear _ _ (elemIdx_lt k.divNat.2 k.modNat.2 l.divNat.2 l.modNat.2)
  | false =>
      rw [calcGamma_at D o LD.cellVec LD.recip LD.born LD.diel hv _ _ _ _ _ hg, if_pos hblk]
      have hi := LD.calcDipole_eq hdet hq corr k.divNat l.divNat k.modNat l.modNat
      have hre := corrAt_zero_real erfc o D.lam k.divNat l.divNat k.modNat l.modNat
      rw [if_pos hblk, hG, cRem_int] at hi
      rw [hi, hre, Complex.conj_eq_iff_im.1 hre]
      unfold gammaCorrection
      rw [hg, if_neg (by simp)]
      rfl

section chain

variable {I : DynIn} {cv : M3 ℝ} {fcw : Fin I.nCells → Mat I.n ℝ} {cells : Fin I.nCells → V3 ℤ}
  {scOs : List (V3 ℤ)} {ims : Fin I.nCells → Fin I.n → Fin I.n → List Nat}

/-- Specification: the direction array is present exactly when the Python code uses a direction, and
holds it. -/
def HoldsOpt : Option Mem → Option (V3 ℝ) → Prop
  | none, none => True
  | some m, some v => Holds m v
  | _, _ => False

/-- No coordinate of the q-point is halfway between two integers, where C and Python round differently. -/
def NotHalf (q : V3 ℝ) : Prop :=
  |q.x - rint q.x| ≠ 1 / 2 ∧ |q.y - rint q.y| ≠ 1 / 2 ∧ |q.z - rint q.z| ≠ 1 / 2

/-- The upper triangle of the array that C diagonalises is the complex conjugate of the Python matrix. -/
theorem matrixAtQ_upper (L : Layout I cv fcw cells scOs ims) {D : DipIn} {erfc : ℝ → ℝ} {o : Ions I.n}
    (hn : D.n = I.n) (dipole grad : Bool) (LD : dipole = true → DipLayout D erfc (hn ▸ o))
    (hdet : dipole = true → detArray D.diel = o.diel.det) {q : V3 ℝ} {qpt : Mem} (hq : Holds qpt q)
    (hhalf : dipole = true → NotHalf q) {A : Option (Mat I.n ℂ)} {asr : Option Mem}
    (hA : ∀ M ∈ A, ∃ m ∈ asr, ∀ k l : Fin (I.n * 3), cAt m (k * (3 * I.n) + l) = star (M l k))
    (hA0 : A = none → asr = none) (hsym : ∀ M ∈ A, ∀ k l, M k l = M l k)
    {dir : Option Mem} {v : Option (V3 ℝ)} (hv : HoldsOpt dir v)
    (hdir : v.isSome → dipole = true ∧ ∃ G : V3 ℤ, q = castV ℝ G)
    {w : Mem} {W : Mat I.n ℝ} (hw : ∀ k l : Fin (I.n * 3), w (k * (3 * I.n) + l) = W k l)
    (dm dg corr : Mem) (k l : Fin (I.n * 3)) (hkl : k ≤ l) :
    cAt (matrixAtQ I D dipole grad asr dir w qpt dm dg corr).1 (k * (3 * I.n) + l)
      = star (weighted W (dynMat fcw cells scOs (padded I ims) q)
          (if dipole then some (dipoleCorrection erfc o D.lam q) else none) A
          (v.map fun u => gammaCorrection o u) k l) := by
  have hv' := hv
  obtain ⟨n, c1, c2, c3, c4, c5, c6, c7, c8, c9, c10, c11, c12, lam⟩ := D
  dsimp only at hn
  subst hn
  have hblk : k.divNat ≤ l.divNat := Nat.div_le_div_right (Fin.le_def.1 hkl)
  have hlt : k * (3 * I.n) + l < 9 * I.n * I.n := by
    rw [← elemIdx_fin]; exact elemIdx_lt k.divNat.2 k.modNat.2 l.divNat.2 l.modNat.2
  have hD := fun h => (C52_dipole_partial (LD h) (hdet h) hq (hhalf h).1 (hhalf h).2.1 (hhalf h).2.2 corr k l).trans
    (if_pos hblk)
  have hM := C52_dyn_mat L hq grad dm dg k l
  rw [if_pos hblk] at hM
  have hasr : ∀ M ∈ A, ∃ m, asr = some m ∧ cAt m (k * (3 * I.n) + l) = star (M k l) := by
    intro M hMA
    obtain ⟨m, hm, hml⟩ := hA M hMA
    exact ⟨m, hm, by rw [hml, hsym M hMA]⟩
  have hgam : ∀ m u, dir = some m → v = some u → dipole = true ∧
      cAt (calcGamma ⟨I.n, c1, c2, c3, c4, c5, c6, c7, c8, c9, c10, c11, c12, lam⟩ m
        (calcDipole ⟨I.n, c1, c2, c3, c4, c5, c6, c7, c8, c9, c10, c11, c12, lam⟩ qpt corr)) (k * (3 * I.n) + l)
        = star (gammaCorrection o u k l) := by
    rintro m u rfl rfl
    obtain ⟨hdip, G, hG⟩ := hdir rfl
    refine ⟨hdip, ?_⟩
    exact (LD hdip).gamma_upper (hdet hdip) hq G hG hv corr k l hblk
  unfold matrixAtQ
  dsimp only
  rw [cAt_massWeight w I.n _ hlt, hw]
  unfold weighted
  rw [star_mul', star_real]
  congr 1
  clear hdir hv hA hw hsym
  cases v with
  | none =>
      obtain rfl : dir = none := by
        cases dir with
        | none => rfl
        | some m => exact hv'.elim
      cases A with
      | none =>
          obtain rfl := hA0 rfl
          cases dipole <;>
            simp [cAt_addArrays _ _ _ hlt, hM, hD, Option.map]
      | some M =>
          obtain ⟨m, rfl, hm⟩ := hasr M rfl
          cases dipole <;>
            simp [cAt_addArrays _ _ _ hlt, hM, hD, hm, Option.map]
  | some u =>
      obtain ⟨m', rfl⟩ : ∃ m, dir = some m := by
        cases dir with
        | none => exact hv'.elim
        | some m => exact ⟨m, rfl⟩
      obtain ⟨rfl, hg⟩ := hgam m' u rfl rfl
      cases A with
      | none =>
          obtain rfl := hA0 rfl
          simp [cAt_addArrays _ _ _ hlt, hM, hD, hg, Option.map]
      | some M =>
          obtain ⟨m, rfl, hm⟩ := hasr M rfl
          simp [cAt_addArrays _ _ _ hlt, hM, hD, hm, hg, Option.map]

/-- Specification: the Hermitian matrix that `np.linalg.eigh(M, UPLO='U')` diagonalises
(euphonic/force_constants.py:830), whatever the lower triangle of `M` and the imaginary parts of its diagonal are. -/
noncomputable def eighReads {n : Nat} (M : Mat n ℂ) (r c : Fin (n * 3)) : ℂ :=
  if r = c then ((M r r).re : ℂ) else if r < c then M r c else star (M c r)

theorem eighReads_hermitian {n : Nat} (M : Mat n ℂ) (herm : ∀ k l, M l k = star (M k l)) (r c : Fin (n * 3)) :
    eighReads M r c = M r c := by
  unfold eighReads
  split
  · rename_i h
    subst h
    exact Complex.conj_eq_iff_re.1 (herm r r).symm
  · split
    · rfl
    · exact (herm c r).symm

/-- **C52, partial.** For every q-point, with any combination of dipole correction, acoustic sum rule
correction and LO-TO splitting, LAPACK is given the same Hermitian matrix by the C code as by the Python code, whatever the
work arrays contained before.
Missing: with dipole corrections, as in `C52_dipole_partial`; LO-TO splitting is covered for q-points that are exactly
lattice vectors, not for those within 1e-15 of one (where an imaginary part of the dipole correction stays in the array,
`C52_stale_imaginary`).  The sum rule correction has to be symmetric; the one Euphonic computes is
(`C52_asr_symmetric`). -/
theorem C52_upper_partial (L : Layout I cv fcw cells scOs ims) {D : DipIn} {erfc : ℝ → ℝ} {o : Ions I.n}
    (hn : D.n = I.n) (dipole grad : Bool) (LD : dipole = true → DipLayout D erfc (hn ▸ o))
    (hdet : dipole = true → detArray D.diel = o.diel.det) {q : V3 ℝ} {qpt : Mem} (hq : Holds qpt q)
    (hhalf : dipole = true → NotHalf q) {A : Option (Mat I.n ℂ)} {asr : Option Mem}
    (hA : ∀ M ∈ A, ∃ m ∈ asr, ∀ k l : Fin (I.n * 3), cAt m (k * (3 * I.n) + l) = star (M l k))
    (hA0 : A = none → asr = none) (hsym : ∀ M ∈ A, ∀ k l, M k l = M l k)
    {dir : Option Mem} {v : Option (V3 ℝ)} (hv : HoldsOpt dir v)
    (hdir : v.isSome → dipole = true ∧ ∃ G : V3 ℤ, q = castV ℝ G)
    {w : Mem} {W : Mat I.n ℝ} (hw : ∀ k l : Fin (I.n * 3), w (k * (3 * I.n) + l) = W k l)
    (dm dg corr : Mem) (r c : Fin (I.n * 3)) :
    zheevdReads (3 * I.n) (matrixAtQ I D dipole grad asr dir w qpt dm dg corr).1 r c =
      eighReads (weighted W (dynMat fcw cells scOs (padded I ims) q)
          (if dipole then some (dipoleCorrection erfc o D.lam q) else none) A
          (v.map fun u => gammaCorrection o u)) r c := by
  have key := matrixAtQ_upper L hn dipole grad LD hdet hq hhalf hA hA0 hsym hv hdir hw dm dg corr
  generalize weighted W (dynMat fcw cells scOs (padded I ims) q)
    (if dipole then some (dipoleCorrection erfc o D.lam q) else none) A (v.map fun u => gammaCorrection o u) = M at key ⊢
  unfold zheevdReads eighReads
  by_cases h1 : (r : Nat) = c
  · have h1' : r = c := Fin.ext h1
    subst h1'
    rw [if_pos rfl, if_pos rfl]
    have h := congrArg Complex.re (key r r (le_refl _))
    have h2 : (star (M r r)).re = (M r r).re := rfl
    rw [h2] at h
    rw [← h]
    rfl
  · rw [if_neg h1, if_neg (fun h => h1 (congrArg Fin.val h))]
    by_cases h2 : (c : Nat) < r
    · rw [if_pos h2, if_neg (by rw [Fin.lt_def]; omega)]
      exact key c r (Fin.le_def.2 (by omega))
    · rw [if_neg h2, if_pos (by rw [Fin.lt_def]; omega)]
      have h := key r c (Fin.le_def.2 (by omega))
      have h' := congrArg star h
      rw [star_star] at h'
      rw [← h']
      rfl

/-- **C52, partial.** The same, whenever the Python matrix is Hermitian: it is this matrix that C diagonalises. -/
theorem C52_matrix_partial (L : Layout I cv fcw cells scOs ims) {D : DipIn} {erfc : ℝ → ℝ} {o : Ions I.n}
    (hn : D.n = I.n) (dipole grad : Bool) (LD : dipole = true → DipLayout D erfc (hn ▸ o))
    (hdet : dipole = true → detArray D.diel = o.diel.det) {q : V3 ℝ} {qpt : Mem} (hq : Holds qpt q)
    (hhalf : dipole = true → NotHalf q) {A : Option (Mat I.n ℂ)} {asr : Option Mem}
    (hA : ∀ M ∈ A, ∃ m ∈ asr, ∀ k l : Fin (I.n * 3), cAt m (k * (3 * I.n) + l) = star (M l k))
    (hA0 : A = none → asr = none) (hsym : ∀ M ∈ A, ∀ k l, M k l = M l k)
    {dir : Option Mem} {v : Option (V3 ℝ)} (hv : HoldsOpt dir v)
    (hdir : v.isSome → dipole = true ∧ ∃ G : V3 ℤ, q = castV ℝ G)
    {w : Mem} {W : Mat I.n ℝ} (hw : ∀ k l : Fin (I.n * 3), w (k * (3 * I.n) + l) = W k l)
    (M : Mat I.n ℂ) (hM : M = weighted W (dynMat fcw cells scOs (padded I ims) q)
          (if dipole then some (dipoleCorrection erfc o D.lam q) else none) A
          (v.map fun u => gammaCorrection o u))
    (herm : ∀ k l, M l k = star (M k l)) (dm dg corr : Mem) (r c : Fin (I.n * 3)) :
    zheevdReads (3 * I.n) (matrixAtQ I D dipole grad asr dir w qpt dm dg corr).1 r c = M r c := by
  rw [C52_upper_partial L hn dipole grad LD hdet hq hhalf hA hA0 hsym hv hdir hw, ← hM, eighReads_hermitian M herm]

end chain

/-- The sum rule correction of `_enforce_reciprocal_asr` is symmetric (not Hermitian), so passing its
conjugate transpose gives the conjugate that C works with. -/
theorem C52_asr_symmetric {n N : Nat} (nAtoms : Nat) (dir : Fin (n * 3) → Fin 3) (evals : Fin N → ℝ)
    (evecs : Fin N → Fin (n * 3) → ℂ) (M : Mat n ℂ) (h : Asr.enforceReciprocal nAtoms dir evals evecs = some M)
    (k l : Fin (n * 3)) : M k l = M l k := by
  unfold Asr.enforceReciprocal at h
  rw [Option.map_eq_some_iff] at h
  obtain ⟨ac, _, rfl⟩ := h
  unfold Asr.recipCorrection
  simp only [mul_comm (evecs _ k)]

/-! ## Frequencies and mode gradients -/

/-- **C52, C51.** `evals_to_freqs` replaces every eigenvalue by the frequency Python computes. -/
theorem C52_frequencies (n : Nat) (e : Mem) (i : Nat) (hi : i < 3 * n) :
    evalsToFreqs n e i = freqOf (e i) := by
  have h := loop_writes 0 (3 * n) (fun i m => setAt m i (copysign (√|m i|) (m i)))
    (fun i p => p = i) (fun i p => p = i)
    (fun j _ hj => ⟨fun m p hp => by simp [setAt, hp],
      fun m m' p hp h => by subst hp; simp [setAt, h]⟩)
    (fun j _ hj j' _ hj' p => by rintro rfl h; exact h)
    (fun j _ hj j' _ hj' p => by rintro rfl h; exact h)
  unfold evalsToFreqs
  rw [h.2 i (Nat.zero_le _) hi e i rfl, ← (C51_frequency_sign (e i)).2.2.2.2]
  simp only [setAt, Function.update_self, copysign, freqOfC, abs_of_nonneg (Real.sqrt_nonneg _)]

theorem cAt_pair {m : Mem} {p : Nat} {z : ℂ} (h : cAt m p = z) :
    (m (2 * p), m (2 * p + 1)) = (z.re, z.im) := by
  subst h; rfl

theorem sum_atoms {β : Type} [AddCommMonoid β] (n : Nat) (f : Fin n → Fin 3 → β) :
    ∑ i, ∑ a, f i a = ∑ k : Fin (n * 3), f k.divNat k.modNat := by
  rw [← Fintype.sum_prod_type', ← finProdFinEquiv.sum_comp]
  refine Finset.sum_congr rfl fun x _ => ?_
  have h := finProdFinEquiv.symm_apply_apply x
  rw [show (finProdFinEquiv x).divNat = x.1 from congrArg Prod.fst h,
    show (finProdFinEquiv x).modNat = x.2 from congrArg Prod.snd h]

/-- **C52.** `calculate_mode_gradients` adds to the array (which Python creates with zeros) the mode
gradients that the Python formula gives, for all eigenvectors, frequencies and gradients. -/
theorem C52_mode_gradients (n : Nat) (freqs evecs grad modeg : Mem) (E : Fin (n * 3) → Fin (n * 3) → ℂ)
    (e : Fin (n * 3) → ℝ) (W : Mat n ℝ) (G : Fin 3 → Mat n ℂ)
    (hf : ∀ s : Fin (n * 3), freqs s = freqOf (e s))
    (hE : ∀ s k : Fin (n * 3), cAt evecs (s * (3 * n) + k) = E s k)
    (hG : ∀ (k l : Fin (n * 3)) (d : Fin 3), cAt grad ((k * (3 * n) + l) * 3 + d) = G d k l * (W k l : ℝ))
    (s : Fin (n * 3)) (d : Fin 3) :
    cAt (calcModeGradients n freqs evecs grad modeg) (s * 3 + d)
      = cAt modeg (s * 3 + d) + modeGradients W e E G s d := by
  have h : calcModeGradients n freqs evecs grad modeg = modeg + ∑ s ∈ Finset.Ico 0 (3 * n),
      ∑ i ∈ Finset.Ico 0 n, ∑ a ∈ Finset.Ico 0 3, ∑ j ∈ Finset.Ico 0 n, ∑ b ∈ Finset.Ico 0 3,
      ∑ k ∈ Finset.Ico 0 3,
        let t := cmult (pairAt grad (3 * (3 * i + a) * (2 * 3 * n) + 3 * (6 * j + 2 * b) + 2 * k))
          (cmultConj (pairAt evecs (s * (2 * 3 * n) + 6 * j + 2 * b)) (pairAt evecs (s * (2 * 3 * n) + 6 * i + 2 * a)))
        (Pi.single (2 * (s * 3 + k)) (0.5 * t.1 / freqs s) + Pi.single (2 * (s * 3 + k) + 1) (0.5 * t.2 / freqs s) : Mem) := by
    unfold calcModeGradients
    refine loop_add _ _ _ _ (fun s _ _ x => ?_) _
    refine loop_add _ _ _ _ (fun i _ _ x => ?_) _
    refine loop_add _ _ _ _ (fun a _ _ x => ?_) _
    refine loop_add _ _ _ _ (fun j _ _ x => ?_) _
    refine loop_add _ _ _ _ (fun b _ _ x => ?_) _
    refine loop_add _ _ _ _ (fun k _ _ x => ?_) _
    dsimp only
    rw [addTo_eq, addTo_eq, add_assoc]
    rw [show 6 * s + 2 * k = 2 * (s * 3 + k) by ring]
  rw [h, cAt_add]
  dsimp only
  simp only [cAt_sum, cAt_singles]
  congr 1
  rw [Finset.sum_eq_single (s : Nat)]
  · simp only [sum_Ico_fin]
    unfold modeGradients
    have e1 : ∀ (f : Fin (n * 3) → Fin (n * 3) → ℂ), ∑ j, ∑ k, f j k
        = ∑ i : Fin n, ∑ a : Fin 3, ∑ j : Fin n, ∑ b : Fin 3, f (finProdFinEquiv (i, a)) (finProdFinEquiv (j, b)) := by
      intro f
      rw [← finProdFinEquiv.sum_comp, Fintype.sum_prod_type]
      refine Finset.sum_congr rfl fun i _ => Finset.sum_congr rfl fun a _ => ?_
      rw [← finProdFinEquiv.sum_comp, Fintype.sum_prod_type]
    rw [e1]
    simp only [Finset.sum_div]
    refine Finset.sum_congr rfl fun i _ => Finset.sum_congr rfl fun a _ => Finset.sum_congr rfl fun j _ =>
      Finset.sum_congr rfl fun b _ => ?_
    rw [Finset.sum_eq_single d]
    · rw [if_pos rfl]
      have hk : ((finProdFinEquiv (i, a) : Fin (n * 3)) : Nat) = a + 3 * i := rfl
      have hl : ((finProdFinEquiv (j, b) : Fin (n * 3)) : Nat) = b + 3 * j := rfl
      have p1 := cAt_pair (hE s (finProdFinEquiv (j, b)))
      have p2 := cAt_pair (hE s (finProdFinEquiv (i, a)))
      have p3 := cAt_pair (hG (finProdFinEquiv (i, a)) (finProdFinEquiv (j, b)) d)
      rw [hk] at p2 p3
      rw [hl] at p1 p3
      have q1 : pairAt evecs (s * (2 * 3 * n) + 6 * j + 2 * b) =
          (evecs (2 * (s * (3 * n) + (b + 3 * j))), evecs (2 * (s * (3 * n) + (b + 3 * j)) + 1)) := by
        rw [show (s : Nat) * (2 * 3 * n) + 6 * j + 2 * b = 2 * (s * (3 * n) + (b + 3 * j)) by ring]; rfl
      have q2 : pairAt evecs (s * (2 * 3 * n) + 6 * i + 2 * a) =
          (evecs (2 * (s * (3 * n) + (a + 3 * i))), evecs (2 * (s * (3 * n) + (a + 3 * i)) + 1)) := by
        rw [show (s : Nat) * (2 * 3 * n) + 6 * i + 2 * a = 2 * (s * (3 * n) + (a + 3 * i)) by ring]; rfl
      have q3 : pairAt grad (3 * (3 * i + a) * (2 * 3 * n) + 3 * (6 * j + 2 * b) + 2 * d) =
          (grad (2 * (((a + 3 * i) * (3 * n) + (b + 3 * j)) * 3 + d)),
            grad (2 * (((a + 3 * i) * (3 * n) + (b + 3 * j)) * 3 + d) + 1)) := by
        rw [show 3 * (3 * (i : Nat) + a) * (2 * 3 * n) + 3 * (6 * j + 2 * b) + 2 * d
          = 2 * (((a + 3 * i) * (3 * n) + (b + 3 * j)) * 3 + d) by ring]; rfl
      rw [q1, q2, q3, p1, p2, p3, (C53_complex _ _).2, (C53_complex _ _).1, hf]
      have : ∀ (z : ℂ) (x : ℝ), (⟨0.5 * z.re / x, 0.5 * z.im / x⟩ : ℂ) = z / (2 * (x : ℂ)) := by
        intro z x
        have e2 : z / (2 * (x : ℂ)) = ((0.5 / x : ℝ) : ℂ) * z := by
          push_cast
          by_cases hx : (x : ℂ) = 0
          · simp [hx]
          · field_simp; ring
        rw [e2]
        apply Complex.ext
        · rw [Complex.re_ofReal_mul]; ring
        · rw [Complex.im_ofReal_mul]; ring
      rw [this]
      congr 1
      ring
    · intro k _ hk
      rw [if_neg]
      intro h
      exact hk (Fin.ext (by omega))
    · intro hnm; exact absurd (Finset.mem_univ _) hnm
  · intro s' _ hs'
    refine Finset.sum_eq_zero fun i _ => Finset.sum_eq_zero fun a _ => Finset.sum_eq_zero fun j _ =>
      Finset.sum_eq_zero fun b _ => Finset.sum_eq_zero fun k hk => ?_
    rw [if_neg]
    have := (Finset.mem_Ico.1 hk).2
    have := d.2
    omega
  · intro hnm
    exact absurd (Finset.mem_Ico.2 ⟨Nat.zero_le _, by have := s.2; omega⟩) hnm

/-- **C52, violation.** For a direction that is not a gamma point the correction array keeps whatever imaginary
parts it had (those of the dipole correction, which are then added a second time). -/
theorem C52_stale_imaginary (D : DipIn) (o : Ions D.n) (hcv : HoldsM3 D.cellVec o.cv)
    (hr : HoldsM3 D.recip (Dipole.recip o))
    (hb : ∀ (i : Fin D.n) (a b : Fin 3), D.born ((i * 3 + a) * 3 + b) = o.born i a b)
    (hd : HoldsMat D.diel o.diel) {v : V3 ℝ} {dir : Mem} (hv : Holds dir v) (hg : isGamma v = false)
    (corr : Mem) (k l : Fin (D.n * 3)) :
    (cAt (calcGamma D dir corr) (k * (3 * D.n) + l)).im = (cAt corr (k * (3 * D.n) + l)).im := by
  rw [← elemIdx_fin, calcGamma_at D o hcv hr hb hd hv corr _ _ _ _ hg]
  split <;> rfl

/-! ## The layouts can be realised

The hypotheses of the theorems above are met for every crystal and all data: there are arrays that hold
them in the required layout. -/

theorem div_unique {n a b a' b' : Nat} (hb : b < n) (hb' : b' < n) (h : a * n + b = a' * n + b') :
    a = a' ∧ b = b' := by
  have hm := congrArg (· % n) h
  have hd := congrArg (· / n) h
  simp only [Nat.mul_add_mod', Nat.mod_eq_of_lt hb, Nat.mod_eq_of_lt hb'] at hm
  beta_reduce at hd
  rw [mul_comm a, mul_comm a', Nat.mul_add_div (by omega), Nat.mul_add_div (by omega), Nat.div_eq_of_lt hb,
    Nat.div_eq_of_lt hb'] at hd
  omega

/-- An array with given values at different places. -/
theorem exists_array {ι α : Type} [Inhabited α] (idx : ι → Nat) (h : Function.Injective idx) (v : ι → α) :
    ∃ m : Nat → α, ∀ x, m (idx x) = v x :=
  ⟨Function.extend idx v fun _ => default, fun x => h.extend_apply v _ x⟩

theorem exists_layout (N n : Nat) (cv : M3 ℝ) (fcw : Fin N → Mat n ℝ) (cells : Fin N → V3 ℤ)
    (scOs : List (V3 ℤ)) (ims : Fin N → Fin n → Fin n → List Nat) (maxIm : Nat)
    (hle : ∀ c i j, (ims c i j).length ≤ maxIm) (hr : ∀ c i j, ∀ m ∈ ims c i j, m < scOs.length) :
    ∃ (I : DynIn) (hN : I.nCells = N) (hn : I.n = n), I.maxIm = maxIm ∧
      Layout I cv (fun c k l => fcw (hN ▸ c) (hn ▸ k) (hn ▸ l)) (fun c => cells (hN ▸ c)) scOs
        (fun c i j => ims (hN ▸ c) (hn ▸ i) (hn ▸ j)) := by
  obtain ⟨a1, h1⟩ := exists_array (fun x : Fin N × Fin n × Fin n => (x.1 * n + x.2.1) * n + x.2.2)
    (by
      rintro ⟨c, i, j⟩ ⟨c', i', j'⟩ h
      obtain ⟨h, h3⟩ := div_unique j.2 j'.2 h
      obtain ⟨h, h2⟩ := div_unique i.2 i'.2 h
      simp only [Prod.mk.injEq, Fin.ext_iff]
      simp [*]
      exact h) (fun x => (ims x.1 x.2.1 x.2.2).length)
  obtain ⟨a2, h2⟩ := exists_array (fun x : Fin N × Fin n × Fin n × Fin maxIm =>
      ((x.1 * n + x.2.1) * n + x.2.2.1) * maxIm + x.2.2.2)
    (by
      rintro ⟨c, i, j, m⟩ ⟨c', i', j', m'⟩ h
      obtain ⟨h, h4⟩ := div_unique m.2 m'.2 h
      obtain ⟨h, h3⟩ := div_unique j.2 j'.2 h
      obtain ⟨h, h2⟩ := div_unique i.2 i'.2 h
      simp only [Prod.mk.injEq, Fin.ext_iff]
      simp [*]
      exact h) (fun x => (((ims x.1 x.2.1 x.2.2.1).getD x.2.2.2 0 : Nat) : ℤ))
  obtain ⟨a3, h3⟩ := exists_array (fun x : Fin N × Fin 3 => x.1 * 3 + x.2)
    (by
      rintro ⟨c, i⟩ ⟨c', i'⟩ h
      obtain ⟨h, h2⟩ := div_unique i.2 i'.2 h
      simp only [Prod.mk.injEq, Fin.ext_iff]
      simp [*]
      exact h) (fun x => comp (cells x.1) x.2)
  obtain ⟨a4, h4⟩ := exists_array (fun x : Nat × Fin 3 => x.1 * 3 + x.2)
    (by
      rintro ⟨c, i⟩ ⟨c', i'⟩ h
      obtain ⟨h, h2⟩ := div_unique i.2 i'.2 h
      simp only [Prod.mk.injEq, Fin.ext_iff]
      simp [*]
      exact h) (fun x => comp (scOs.getD x.1 ⟨0, 0, 0⟩) x.2)
  obtain ⟨a5, h5⟩ := exists_array (fun x : Fin N × Fin (n * 3) × Fin (n * 3) => (x.1 * (n * 3) + x.2.1) * (n * 3) + x.2.2)
    (by
      rintro ⟨c, i, j⟩ ⟨c', i', j'⟩ h
      obtain ⟨h, h3⟩ := div_unique j.2 j'.2 h
      obtain ⟨h, h2⟩ := div_unique i.2 i'.2 h
      simp only [Prod.mk.injEq, Fin.ext_iff]
      simp [*]
      exact h) (fun x => fcw x.1 x.2.1 x.2.2)
  obtain ⟨a6, h6⟩ := exists_array (fun x : Fin N × Fin n × Fin n × Fin maxIm × Fin 3 =>
      (((x.1 * n + x.2.1) * n + x.2.2.1) * maxIm + x.2.2.2.1) * 3 + x.2.2.2.2)
    (by
      rintro ⟨c, i, j, m, d⟩ ⟨c', i', j', m', d'⟩ h
      obtain ⟨h, h5⟩ := div_unique d.2 d'.2 h
      obtain ⟨h, h4⟩ := div_unique m.2 m'.2 h
      obtain ⟨h, h3⟩ := div_unique j.2 j'.2 h
      obtain ⟨h, h2⟩ := div_unique i.2 i'.2 h
      simp only [Prod.mk.injEq, Fin.ext_iff]
      simp [*]
      exact h) (fun x => comp (add (scOriginCart cv scOs
        (((ims x.1 x.2.1 x.2.2.1).getD x.2.2.2.1 0 : Nat) : ℤ)) (toCart cv (castV ℝ (cells x.1)))) x.2.2.2.2)
  refine ⟨⟨n, N, maxIm, a1, a2, a3, fun z => a4 z.toNat, a5, a6⟩, rfl, rfl, rfl, ?_⟩
  refine ⟨fun c i j => h1 (c, i, j), hle, hr, ?_, fun c k => h3 (c, k), ?_, fun c k l => h5 (c, k, l), ?_⟩
  · intro c i j m hm
    have := h2 (c, i, j, ⟨m, lt_of_lt_of_le hm (hle c i j)⟩)
    dsimp only at this ⊢
    rw [this, List.getD_eq_getElem _ _ hm]
  · intro s hs k
    have := h4 (s, k)
    dsimp only at this ⊢
    rw [show ((s : ℤ) * 3 + (k : Nat)).toNat = s * 3 + k by omega, this, List.getD_eq_getElem _ _ hs]
  · intro c i j m hm d
    have := h6 (c, i, j, ⟨m, lt_of_lt_of_le hm (hle c i j)⟩, d)
    dsimp only at this ⊢
    rw [this, List.getD_eq_getElem _ _ hm]

theorem exists_complex {ι : Type} (idx : ι → Nat) (h : Function.Injective idx) (v : ι → ℂ) :
    ∃ m : Mem, ∀ x, cAt m (idx x) = v x := by
  obtain ⟨m, hm⟩ := exists_array (fun x : ι × Fin 2 => idx x.1 * 2 + x.2)
    (by
      rintro ⟨c, i⟩ ⟨c', i'⟩ e
      obtain ⟨e, h2⟩ := div_unique i.2 i'.2 e
      exact Prod.ext (h e) (Fin.ext h2)) (fun x => if x.2 = 0 then (v x.1).re else (v x.1).im)
  refine ⟨m, fun x => ?_⟩
  have e0 := hm (x, 0)
  have e1 := hm (x, 1)
  simp only [Fin.val_zero, Fin.val_one, if_true, one_ne_zero, if_false, add_zero] at e0 e1
  unfold cAt
  rw [mul_comm 2, e0, e1]

theorem exists_holdsM3 (M : M3 ℝ) : ∃ m : Mem, HoldsM3 m M := by
  obtain ⟨m, hm⟩ := exists_array (fun x : Fin 3 × Fin 3 => (x.1 : Nat) * 3 + x.2)
    (by
      rintro ⟨c, i⟩ ⟨c', i'⟩ e
      obtain ⟨e, h2⟩ := div_unique i.2 i'.2 e
      exact Prod.ext (Fin.ext e) (Fin.ext h2)) (fun x => comp (![M.a, M.b, M.c] x.1) x.2)
  refine ⟨m, fun b => ⟨?_, ?_, ?_⟩⟩
  · simpa using hm (0, b)
  · simpa using hm (1, b)
  · simpa using hm (2, b)

theorem exists_dipLayout (n : Nat) (erfc : ℝ → ℝ) (o : Ions n) (lam : ℝ) :
    ∃ (D : DipIn) (hn : D.n = n), D.lam = lam ∧ DipLayout D erfc (hn ▸ o) := by
  obtain ⟨a1, h1⟩ := exists_holdsM3 o.cv
  obtain ⟨a2, h2⟩ := exists_holdsM3 (Dipole.recip o)
  obtain ⟨a3, h3⟩ := exists_array (fun x : Fin n × Fin 3 => x.1 * 3 + x.2)
    (by
      rintro ⟨c, i⟩ ⟨c', i'⟩ e
      obtain ⟨e, h2⟩ := div_unique i.2 i'.2 e
      exact Prod.ext (Fin.ext e) (Fin.ext h2)) (fun x => comp (o.r x.1) x.2)
  obtain ⟨a4, h4⟩ := exists_array (fun x : Fin n × Fin 3 × Fin 3 => (x.1 * 3 + x.2.1) * 3 + x.2.2)
    (by
      rintro ⟨c, i, j⟩ ⟨c', i', j'⟩ e
      obtain ⟨e, h3⟩ := div_unique j.2 j'.2 e
      obtain ⟨e, h2⟩ := div_unique i.2 i'.2 e
      exact Prod.ext (Fin.ext e) (Prod.ext (Fin.ext h2) (Fin.ext h3))) (fun x => o.born x.1 x.2.1 x.2.2)
  obtain ⟨a5, h5⟩ := exists_array (fun x : Fin 3 × Fin 3 => (x.1 : Nat) * 3 + x.2)
    (by
      rintro ⟨c, i⟩ ⟨c', i'⟩ e
      obtain ⟨e, h2⟩ := div_unique i.2 i'.2 e
      exact Prod.ext (Fin.ext e) (Fin.ext h2)) (fun x => o.diel x.1 x.2)
  obtain ⟨a6, h6⟩ := exists_array (fun x : Nat × Fin 3 => x.1 * 3 + x.2)
    (by
      rintro ⟨c, i⟩ ⟨c', i'⟩ e
      obtain ⟨e, h2⟩ := div_unique i.2 i'.2 e
      exact Prod.ext e (Fin.ext h2)) (fun x => ((comp ((Dipole.cells erfc o lam).getD x.1 ⟨0, 0, 0⟩) x.2 : ℤ) : ℝ))
  have hp : ∀ i j : Fin n, i ≤ j → packed n i j < n * (n + 1) / 2 := by
    intro i j hij
    rw [packed_eq n i j hij j.2, ← before_total]
    have h1 : before n (i + 1) = before n i + (n - i) := before_succ n i
    have h2 : before n (i + 1) ≤ before n n := by
      unfold before
      refine Finset.sum_le_sum_of_subset (Finset.Ico_subset_Ico (le_refl _) ?_)
      have := i.2; omega
    have := j.2
    have : (i : Nat) ≤ j := hij
    omega
  obtain ⟨a7, h7⟩ := exists_array (fun x : Nat × {y : Fin n × Fin n // y.1 ≤ y.2} × Fin 3 × Fin 3 =>
      ((x.1 * (n * (n + 1) / 2) + packed n x.2.1.1.1 x.2.1.1.2) * 3 + x.2.2.1) * 3 + x.2.2.2)
    (by
      rintro ⟨c, ⟨⟨i, j⟩, hij⟩, a, b⟩ ⟨c', ⟨⟨i', j'⟩, hij'⟩, a', b'⟩ e
      obtain ⟨e, h4⟩ := div_unique b.2 b'.2 e
      obtain ⟨e, h3⟩ := div_unique a.2 a'.2 e
      obtain ⟨e, h2⟩ := div_unique (hp i j hij) (hp i' j' hij') e
      have p1 := C50_packed_position n i j hij j.2
      have p2 := C50_packed_position n i' j' hij' j'.2
      rw [h2, p2] at p1
      simp only [Option.some.injEq, Prod.mk.injEq] at p1
      have : i = i' := Fin.ext p1.1.symm
      have : j = j' := Fin.ext p1.2.symm
      have : a = a' := Fin.ext h3
      have : b = b' := Fin.ext h4
      dsimp only at e
      subst_vars
      rfl)
    (fun x => Dipole.hab erfc o lam ((Dipole.cells erfc o lam).getD x.1 ⟨0, 0, 0⟩) x.2.1.1.1 x.2.1.1.2 x.2.2.1 x.2.2.2)
  obtain ⟨a8, h8⟩ := exists_complex (fun x : Nat × Fin n => x.1 * n + x.2)
    (by
      rintro ⟨c, i⟩ ⟨c', i'⟩ e
      obtain ⟨e, h2⟩ := div_unique i.2 i'.2 e
      exact Prod.ext e (Fin.ext h2)) (fun x => gPhase o ((⟨0, 0, 0⟩ :: gvecs o lam).getD x.1 ⟨0, 0, 0⟩) x.2)
  obtain ⟨a9, h9⟩ := exists_array (fun x : Nat × Fin 3 => x.1 * 3 + x.2)
    (by
      rintro ⟨c, i⟩ ⟨c', i'⟩ e
      obtain ⟨e, h2⟩ := div_unique i.2 i'.2 e
      exact Prod.ext e (Fin.ext h2)) (fun x => comp (toCart (Dipole.recip o)
        (castV ℝ ((⟨0, 0, 0⟩ :: gvecs o lam).getD x.1 ⟨0, 0, 0⟩))) x.2)
  obtain ⟨a10, h10⟩ := exists_complex (fun x : Fin n × Fin 3 × Fin 3 => (x.1 * 3 + x.2.1) * 3 + x.2.2)
    (by
      rintro ⟨c, i, j⟩ ⟨c', i', j'⟩ e
      obtain ⟨e, h3⟩ := div_unique j.2 j'.2 e
      obtain ⟨e, h2⟩ := div_unique i.2 i'.2 e
      exact Prod.ext (Fin.ext e) (Prod.ext (Fin.ext h2) (Fin.ext h3))) (fun x => Dipole.q0 erfc o lam x.1 x.2.1 x.2.2)
  refine ⟨⟨n, a1, a2, a3, a4, a5, a7, a6, (Dipole.cells erfc o lam).length, a8, a9,
    (gvecs o lam).length + 1, a10, lam⟩, rfl, rfl, ?_⟩
  refine ⟨h1, h2, fun i k => h3 (i, k), fun i a b => h4 (i, a, b), fun a b => h5 (a, b), rfl, ?_, ?_, rfl, ?_, ?_,
    fun i a b => h10 (i, a, b)⟩
  · intro c hc k
    have := h6 (c, k)
    dsimp only at this ⊢
    rw [this, List.getD_eq_getElem _ _ hc]
  · intro c hc i j hij a b
    have := h7 (c, ⟨(i, j), hij⟩, a, b)
    dsimp only at this ⊢
    rw [this, List.getD_eq_getElem _ _ hc]
  · intro g hg i
    have := h8 (g, i)
    dsimp only at this ⊢
    rw [this, List.getD_eq_getElem _ _ hg]
  · intro g hg k
    have := h9 (g, k)
    dsimp only at this ⊢
    rw [this, List.getD_eq_getElem _ _ hg]

/-- For the rock-salt-like example of `Props/Loto.lean` (diagonal dielectric tensor) the arrays exist and
`det_array` is right, so `C52_dipole_partial` applies at every q-point without half-integer components. -/
example (erfc : ℝ → ℝ) (lam : ℝ) : ∃ D : DipIn, ∃ o : Ions D.n, D.n = 2 ∧ DipLayout D erfc o
    ∧ detArray D.diel = o.diel.det := by
  let o : Ions 2 := ⟨⟨⟨1, 0, 0⟩, ⟨0, 1, 0⟩, ⟨0, 0, 1⟩⟩, ![⟨0, 0, 0⟩, ⟨1 / 2, 1 / 3, 1 / 2⟩],
    ![fun a b => if a = b then 1 else 0, fun a b => if a = b then -1 else 0], !![2, 0, 0; 0, 3, 0; 0, 0, 5]⟩
  obtain ⟨D, hn, _, L⟩ := exists_dipLayout 2 erfc o lam
  refine ⟨D, hn ▸ o, hn, L, ?_⟩
  rw [C53_det_partial _ _ L.diel]
  obtain ⟨n, c1, c2, c3, c4, c5, c6, c7, c8, c9, c10, c11, c12, lam⟩ := D
  dsimp only at hn
  subst hn
  simp [o]

end Euphonic.CExt
