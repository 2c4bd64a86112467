import Verif.Props.CUtil
import Verif.Props.Dipole

/-! # C52: long-range corrections of the C extension -/

set_option autoImplicit false

namespace Euphonic.CExt

open Euphonic.Lattice Euphonic.Phases Euphonic.Images Euphonic.DynMat Euphonic.Dipole

/-- Specification: the arrays given to C hold the data that the Python code prepares, in row-major order
(`H_ab` has shape `(cells, n(n+1)/2, 3, 3)`, `gvec_phases` `(gvecs, n)`, `dipole_q0` `(n, 3, 3)`,
the last two complex). -/
structure DipLayout (D : DipIn) (erfc : ℝ → ℝ) (o : Ions D.n) : Prop where
  cellVec : HoldsM3 D.cellVec o.cv
  recip : HoldsM3 D.recip (Dipole.recip o)
  atomR : ∀ (i : Fin D.n) (k : Fin 3), D.atomR (i * 3 + k) = comp (o.r i) k
  born : ∀ (i : Fin D.n) (a b : Fin 3), D.born ((i * 3 + a) * 3 + b) = o.born i a b
  diel : HoldsMat D.diel o.diel
  nCells : D.nCells = (cells erfc o D.lam).length
  cells : ∀ (c : Nat) (hc : c < (cells erfc o D.lam).length) (k : Fin 3),
    D.cells (c * 3 + k) = ((comp (Dipole.cells erfc o D.lam)[c] k : ℤ) : ℝ)
  hab : ∀ (c : Nat) (hc : c < (Dipole.cells erfc o D.lam).length) (i j : Fin D.n), i ≤ j → ∀ a b : Fin 3,
    D.hab (((c * (D.n * (D.n + 1) / 2) + packed D.n i j) * 3 + a) * 3 + b)
      = Dipole.hab erfc o D.lam (Dipole.cells erfc o D.lam)[c] i j a b
  nG : D.nG = (gvecs o D.lam).length + 1
  gPhases : ∀ (g : Nat) (hg : g < (⟨0, 0, 0⟩ :: gvecs o D.lam).length) (i : Fin D.n),
    cAt D.gPhases (g * D.n + i) = gPhase o (⟨0, 0, 0⟩ :: gvecs o D.lam)[g] i
  gCart : ∀ (g : Nat) (hg : g < (⟨0, 0, 0⟩ :: gvecs o D.lam).length) (k : Fin 3),
    D.gCart (g * 3 + k) = comp (toCart (Dipole.recip o) (castV ℝ (⟨0, 0, 0⟩ :: gvecs o D.lam)[g])) k
  q0 : ∀ (i : Fin D.n) (a b : Fin 3),
    cAt D.q0 ((i * 3 + a) * 3 + b) = Dipole.q0 erfc o D.lam i a b

/-! ## Real-space sum -/

/-- Number of pairs in the rows before row `i` of the upper triangle. -/
def before (n i : Nat) : Nat := ∑ i' ∈ Finset.Ico 0 i, (n - i')

theorem before_succ (n i : Nat) : before n (i + 1) = before n i + (n - i) := by
  unfold before; rw [Finset.sum_Ico_succ_top (by omega)]

theorem packed_eq (n i j : Nat) (hij : i ≤ j) (hj : j < n) : packed n i j = before n i + (j - i) := by
  have h : ∀ i, i ≤ n → (List.range' (n - i) i).sum + i = before n i := by
    intro i
    induction i with
    | zero => intro _; simp [before]
    | succ i ih =>
        intro hi
        have := ih (by omega)
        rw [List.range'_succ, List.sum_cons, show n - (i + 1) + 1 = n - i by omega, before_succ]
        omega
  have := h i (by omega)
  unfold packed
  omega

theorem before_total (n : Nat) : before n n = n * (n + 1) / 2 := by
  have h : ∀ i, i ≤ n → 2 * before n i + i * i = 2 * n * i + i := by
    intro i
    induction i with
    | zero => intro _; simp [before]
    | succ i ih =>
        intro hi
        have := ih (by omega)
        rw [before_succ]
        obtain ⟨k, rfl⟩ : ∃ k, n = i + k := ⟨n - i, by omega⟩
        simp only [Nat.add_sub_cancel_left]
        nlinarith
  have := h n (le_refl _)
  have e : 2 * before n n = n * (n + 1) := by nlinarith
  omega

/-- What one element of one cell contributes to the real-space sum. -/
noncomputable def realAdd (idx : Nat) (re im h : ℝ) : Mem :=
  Pi.single (2 * idx) (-(re * h)) + Pi.single (2 * idx + 1) (-(im * h))

theorem realStep (D : DipIn) (re im : ℝ) (s : Mem × Nat) :
    loop 0 D.n (fun i => loop i D.n fun j => loop 0 3 fun a => loop 0 3 fun b s =>
      (addTo (addTo s.1 (2 * elemIdx D.n i a j b) (-(re * D.hab s.2))) (2 * elemIdx D.n i a j b + 1)
        (-(im * D.hab s.2)), s.2 + 1)) s
      = (s.1 + ∑ i ∈ Finset.Ico 0 D.n, ∑ j ∈ Finset.Ico i D.n, ∑ a ∈ Finset.Ico 0 3, ∑ b ∈ Finset.Ico 0 3,
          realAdd (elemIdx D.n i a j b) re im (D.hab (s.2 + before D.n i * 9 + (j - i) * 9 + a * 3 + b)),
          s.2 + D.n * (D.n + 1) / 2 * 9) := by
  rw [loop_count 0 D.n (Nat.zero_le _) _ (fun i c => ∑ j ∈ Finset.Ico i D.n, ∑ a ∈ Finset.Ico 0 3,
      ∑ b ∈ Finset.Ico 0 3, realAdd (elemIdx D.n i a j b) re im
          (D.hab (c + (j - i) * 9 + a * 3 + b))) (fun i => (D.n - i) * 9)]
  · have hb : ∀ i, ∑ k ∈ Finset.Ico 0 i, (D.n - k) * 9 = before D.n i * 9 := by
      intro i; rw [before, Finset.sum_mul]
    simp only [hb, before_total]
  · intro i _ hi s
    rw [loop_count i D.n (by omega) _ (fun j c => ∑ a ∈ Finset.Ico 0 3,
      ∑ b ∈ Finset.Ico 0 3, realAdd (elemIdx D.n i a j b) re im (D.hab (c + a * 3 + b))) (fun _ => 9)]
    · simp
    · intro j _ hj s
      rw [loop_count 0 3 (by omega) _ (fun a c =>
        ∑ b ∈ Finset.Ico 0 3, realAdd (elemIdx D.n i a j b) re im (D.hab (c + b))) (fun _ => 3)]
      · simp
      · intro a _ ha s
        rw [loop_count 0 3 (by omega) _ (fun b c => realAdd (elemIdx D.n i a j b) re im (D.hab c)) (fun _ => 1)]
        · simp
        · intro b _ hb s
          rw [addTo_eq, addTo_eq, add_assoc]
          rfl

/-- The angle of one cell of the real-space sum. -/
noncomputable def cellAngle (D : DipIn) (qn : Mem) (nc : Nat) : ℝ :=
  2 * Real.pi * loop 0 3 (fun a acc => acc + qn a * D.cells (3 * nc + a)) 0

theorem realLoops_eq (D : DipIn) (qn corr : Mem) :
    (realLoops D qn corr).1 = corr + ∑ nc ∈ Finset.Ico 0 D.nCells, ∑ i ∈ Finset.Ico 0 D.n,
      ∑ j ∈ Finset.Ico i D.n, ∑ a ∈ Finset.Ico 0 3, ∑ b ∈ Finset.Ico 0 3,
        realAdd (elemIdx D.n i a j b) (Real.cos (cellAngle D qn nc)) (-Real.sin (cellAngle D qn nc))
          (D.hab (((nc * (D.n * (D.n + 1) / 2) + (before D.n i + (j - i))) * 3 + a) * 3 + b)) := by
  unfold realLoops
  rw [loop_count 0 D.nCells (Nat.zero_le _) _ (fun nc c => ∑ i ∈ Finset.Ico 0 D.n, ∑ j ∈ Finset.Ico i D.n,
      ∑ a ∈ Finset.Ico 0 3, ∑ b ∈ Finset.Ico 0 3,
          realAdd (elemIdx D.n i a j b) (Real.cos (cellAngle D qn nc)) (-Real.sin (cellAngle D qn nc))
            (D.hab (c + before D.n i * 9 + (j - i) * 9 + a * 3 + b)))
      (fun _ => D.n * (D.n + 1) / 2 * 9)]
  · simp only [Finset.sum_const, Nat.card_Ico, tsub_zero, smul_eq_mul, zero_add]
    refine congrArg (corr + ·) ?_
    refine Finset.sum_congr rfl fun nc _ => Finset.sum_congr rfl fun i _ => Finset.sum_congr rfl fun j _ =>
      Finset.sum_congr rfl fun a _ => Finset.sum_congr rfl fun b _ => ?_
    have e : ∀ T B J : Nat, nc * (T * 9) + B * 9 + J * 9 + a * 3 + b = ((nc * T + (B + J)) * 3 + a) * 3 + b := by
      intros; ring
    rw [e]
  · intro nc _ _ s
    exact realStep D _ _ s

theorem cAt_add (m m' : Mem) (p : Nat) : cAt (m + m') p = cAt m p + cAt m' p := by
  apply Complex.ext <;> simp [cAt]

theorem cAt_sum {ι : Type} (s : Finset ι) (f : ι → Mem) (p : Nat) : cAt (∑ x ∈ s, f x) p = ∑ x ∈ s, cAt (f x) p := by
  apply Complex.ext <;> simp [cAt]

theorem cAt_singles (idx p : Nat) (x y : ℝ) :
    cAt (Pi.single (2 * idx) x + Pi.single (2 * idx + 1) y) p = if idx = p then ⟨x, y⟩ else 0 := by
  have h1 : (2 * p = 2 * idx) = (idx = p) := by apply propext; omega
  have h2 : (2 * p + 1 = 2 * idx + 1) = (idx = p) := by apply propext; omega
  have h3 : ¬2 * p = 2 * idx + 1 := by omega
  have h4 : ¬2 * p + 1 = 2 * idx := by omega
  by_cases h : idx = p
  · apply Complex.ext <;> simp [cAt, Pi.single_apply, h, h3, h4]
  · apply Complex.ext <;> simp [cAt, Pi.single_apply, h, h3, h4]

theorem collapse4 {σ : Type} [AddCommMonoid σ] (n i0 a0 j0 b0 : Nat) (hj0 : j0 < n) (ha0 : a0 < 3)
    (hb0 : b0 < 3) (F : Nat → Nat → Nat → Nat → σ)
    (h : ∀ i j a b, j < n → a < 3 → b < 3 → elemIdx n i a j b ≠ elemIdx n i0 a0 j0 b0 → F i j a b = 0) :
    ∑ i ∈ Finset.Ico 0 n, ∑ j ∈ Finset.Ico i n, ∑ a ∈ Finset.Ico 0 3, ∑ b ∈ Finset.Ico 0 3, F i j a b
      = if i0 ≤ j0 then F i0 j0 a0 b0 else 0 := by
  have := collapse n 1 i0 a0 j0 b0 hj0 ha0 hb0 (fun i j _ a b => F i j a b) fun i j _ a b => h i j a b
  simpa using this

theorem cAt_clear (n : Nat) (m : Mem) {p : Nat} (hp : p < 9 * n * n) : cAt (clear (2 * 9 * n * n) m) p = 0 := by
  have : 2 * 9 * n * n = 2 * (9 * n * n) := by ring
  unfold cAt
  rw [clear_lt _ (by omega), clear_lt _ (by omega)]
  rfl

theorem realLoops_at (D : DipIn) (qn corr : Mem) {i a j b : Nat} (hi : i < D.n) (ha : a < 3) (hj : j < D.n)
    (hb : b < 3) :
    cAt (realLoops D qn (clear (2 * 9 * D.n * D.n) corr)).1 (elemIdx D.n i a j b)
      = if i ≤ j then -∑ nc ∈ Finset.Ico 0 D.nCells,
          (⟨Real.cos (cellAngle D qn nc), -Real.sin (cellAngle D qn nc)⟩ : ℂ) *
          (D.hab (((nc * (D.n * (D.n + 1) / 2) + (before D.n i + (j - i))) * 3 + a) * 3 + b) : ℝ) else 0 := by
  rw [realLoops_eq, cAt_add, cAt_clear _ _ (elemIdx_lt hi ha hj hb), zero_add]
  simp only [cAt_sum, realAdd, cAt_singles]
  have e : ∀ nc, _ := fun nc => collapse4 D.n i a j b hj ha hb (fun i' j' a' b' =>
    if elemIdx D.n i' a' j' b' = elemIdx D.n i a j b then
      (⟨-(Real.cos (cellAngle D qn nc) *
          D.hab (((nc * (D.n * (D.n + 1) / 2) + (before D.n i' + (j' - i'))) * 3 + a') * 3 + b')),
        -(-Real.sin (cellAngle D qn nc) *
          D.hab (((nc * (D.n * (D.n + 1) / 2) + (before D.n i' + (j' - i'))) * 3 + a') * 3 + b'))⟩ : ℂ)
    else 0) (fun i j a b _ _ _ hne => if_neg hne)
  simp only [e, if_true]
  by_cases hle : i ≤ j
  · simp only [if_pos hle, ← Finset.sum_neg_distrib]
    refine Finset.sum_congr rfl fun nc _ => ?_
    apply Complex.ext <;> simp
  · simp [if_neg hle]

/-! ## Reciprocal sum -/

/-- The factor `exp(-k^2)/k^2` times `k_a k_b` in C. -/
noncomputable def ckTerm (D : DipIn) (qn : Mem) (g a b : Nat) : ℝ :=
  (D.gCart (3 * g + a) + qCart D qn a) * (D.gCart (3 * g + b) + qCart D qn b) *
    (Real.exp (-kLen2 D fun a => D.gCart (3 * g + a) + qCart D qn a)
      / kLen2 D fun a => D.gCart (3 * g + a) + qCart D qn a)

/-- The phase of the pair `(i, j)` in C. -/
noncomputable def cPairPhase (D : DipIn) (qn : Mem) (g i j : Nat) : ℝ × ℝ :=
  cmultConj (cmultConj (cqPhase D qn i) (pairAt D.gPhases (2 * (g * D.n + i))))
    (cmultConj (cqPhase D qn j) (pairAt D.gPhases (2 * (g * D.n + j))))

theorem recipLoops_at (D : DipIn) (qn corr : Mem) (off : Nat) {i a j b : Nat} (ha : a < 3)
    (hj : j < D.n) (hb : b < 3) :
    cAt (recipLoops D qn off corr) (elemIdx D.n i a j b)
      = cAt corr (elemIdx D.n i a j b) + if i ≤ j then ∑ ng ∈ Finset.Ico 0 (D.nG - off),
        ((Real.pi / (cCellVolume D.cellVec * D.lam ^ 2) * ckTerm D qn (off + ng) a b : ℝ) : ℂ) *
          ⟨(cPairPhase D qn (off + ng) i j).1, (cPairPhase D qn (off + ng) i j).2⟩ else 0 := by
  have h : recipLoops D qn off corr = corr + ∑ ng ∈ Finset.Ico 0 (D.nG - off), ∑ i ∈ Finset.Ico 0 D.n,
      ∑ j ∈ Finset.Ico i D.n, ∑ a ∈ Finset.Ico 0 3, ∑ b ∈ Finset.Ico 0 3,
        (Pi.single (2 * elemIdx D.n i a j b) (Real.pi / (cCellVolume D.cellVec * D.lam ^ 2) *
            (cPairPhase D qn (off + ng) i j).1 * ckTerm D qn (off + ng) a b)
        + Pi.single (2 * elemIdx D.n i a j b + 1) (Real.pi / (cCellVolume D.cellVec * D.lam ^ 2) *
            (cPairPhase D qn (off + ng) i j).2 * ckTerm D qn (off + ng) a b) : Mem) := by
    unfold recipLoops
    refine loop_add _ _ _ _ (fun ng _ _ s => ?_) _
    refine loop_add _ _ _ _ (fun i _ _ s => ?_) _
    refine loop_add _ _ _ _ (fun j _ _ s => ?_) _
    refine loop_add _ _ _ _ (fun a _ _ s => ?_) _
    refine loop_add _ _ _ _ (fun b _ _ s => ?_) _
    rw [addTo_eq, addTo_eq, add_assoc]
    rfl
  rw [h, cAt_add]
  simp only [cAt_sum, cAt_singles]
  refine congrArg (cAt corr (elemIdx D.n i a j b) + ·) ?_
  have e : ∀ ng, _ := fun ng => collapse4 D.n i a j b hj ha hb (fun i' j' a' b' =>
    if elemIdx D.n i' a' j' b' = elemIdx D.n i a j b then
      (⟨Real.pi / (cCellVolume D.cellVec * D.lam ^ 2) *
            (cPairPhase D qn (off + ng) i' j').1 * ckTerm D qn (off + ng) a' b',
        Real.pi / (cCellVolume D.cellVec * D.lam ^ 2) *
            (cPairPhase D qn (off + ng) i' j').2 * ckTerm D qn (off + ng) a' b'⟩ : ℂ)
    else 0) (fun i j a b _ _ _ hne => if_neg hne)
  simp only [e, if_true]
  by_cases hle : i ≤ j
  · simp only [if_pos hle]
    refine Finset.sum_congr rfl fun ng _ => ?_
    apply Complex.ext
    · rw [Complex.re_ofReal_mul]; ring
    · rw [Complex.im_ofReal_mul]; ring
  · simp [if_neg hle]

/-! ## Born charges -/

/-- The doubles of the block `(i, j)`. -/
def BlockPos (n i j : Nat) (p : Nat) : Prop :=
  ∃ a b part, a < 3 ∧ b < 3 ∧ part < 2 ∧ p = 2 * elemIdx n i a j b + part

theorem blockPos_inj {n i j i' j' p : Nat} (hj : j < n) (hj' : j' < n) (h : BlockPos n i j p)
    (h' : BlockPos n i' j' p) : i = i' ∧ j = j' := by
  obtain ⟨a, b, pt, ha, hb, hpt, rfl⟩ := h
  obtain ⟨a', b', pt', ha', hb', hpt', h⟩ := h'
  have := elemIdx_inj ha hb hj ha' hb' hj' (show elemIdx n i a j b = elemIdx n i' a' j' b' by omega)
  exact ⟨this.1, this.2.2.1⟩

/-- Setting the elements of a block to given values. -/
theorem setBlock (n i j : Nat) (hj : j < n) (v : Nat → Nat → Nat → ℝ) (m : Mem) :
    let m' := loop 0 3 (fun a => loop 0 3 fun b m =>
        setAt (setAt m (2 * elemIdx n i a j b) (v a b 0)) (2 * elemIdx n i a j b + 1) (v a b 1)) m
    (∀ a b part, a < 3 → b < 3 → part < 2 → m' (2 * elemIdx n i a j b + part) = v a b part)
    ∧ ∀ p, ¬BlockPos n i j p → m' p = m p := by
  intro m'
  have lb : ∀ a, a < 3 → _ := fun a ha => loop_writes 0 3 (fun b m =>
      setAt (setAt m (2 * elemIdx n i a j b) (v a b 0)) (2 * elemIdx n i a j b + 1) (v a b 1))
    (fun b p => ∃ part < 2, p = 2 * elemIdx n i a j b + part) (fun _ _ => False)
    (fun b _ hb => ⟨fun m p hp => by
        have h0 : p ≠ 2 * elemIdx n i a j b := fun h => hp ⟨0, by omega, by omega⟩
        have h1 : p ≠ 2 * elemIdx n i a j b + 1 := fun h => hp ⟨1, by omega, by omega⟩
        simp [setAt, Function.update_of_ne h0, Function.update_of_ne h1],
      fun m m' p hp _ => by
        obtain ⟨pt, hpt, rfl⟩ := hp
        obtain rfl | rfl : pt = 0 ∨ pt = 1 := by omega
        · simp [setAt, Function.update_apply]
        · simp [setAt]⟩)
    (fun b _ hb b' _ hb' p => by
      rintro ⟨pt, hpt, rfl⟩ ⟨pt', hpt', h⟩
      exact (elemIdx_inj ha hb hj ha hb' hj (show elemIdx n i a j b = elemIdx n i a j b' by omega)).2.2.2)
    (fun b _ hb b' _ hb' p h => h.elim)
  have la := loop_writes 0 3 _ _ _ (fun a _ ha => (lb a ha).1)
    (fun a _ ha a' _ ha' p => by
      rintro ⟨b, _, hb, pt, hpt, rfl⟩ ⟨b', _, hb', pt', hpt', h⟩
      exact (elemIdx_inj ha hb hj ha' hb' hj (show elemIdx n i a j b = elemIdx n i a' j b' by omega)).2.1)
    (fun a _ ha a' _ ha' p => by rintro ⟨_, _, _, h⟩; exact h.elim)
  refine ⟨fun a b part ha hb hpt => ?_, fun p hp => ?_⟩
  · have e1 := la.2 a (by omega) ha m (2 * elemIdx n i a j b + part) ⟨b, by omega, hb, part, hpt, rfl⟩
    rw [(lb a ha).2 b (by omega) hb m _ ⟨part, hpt, rfl⟩] at e1
    refine e1.trans ?_
    obtain rfl | rfl : part = 0 ∨ part = 1 := by omega
    · simp [setAt, Function.update_apply]
    · simp [setAt]
  · refine la.1.frame m p ?_
    rintro ⟨a, _, ha, b, _, hb, pt, hpt, rfl⟩
    exact hp ⟨a, b, pt, ha, hb, hpt, rfl⟩

theorem bornSum_eq (D : DipIn) (m : Mem) (i j a b part : Nat) :
    bornSum D m i j a b part = ∑ c ∈ Finset.Ico 0 3, ∑ d ∈ Finset.Ico 0 3,
      D.born (9 * i + 3 * a + c) * D.born (9 * j + 3 * b + d) * m (2 * elemIdx D.n i c j d + part) := by
  unfold bornSum
  rw [loop_add 0 3 _ _ (fun c _ _ s => loop_add 0 3 _ _ (fun d _ _ s => rfl) s), zero_add]

theorem bornLoops_at (D : DipIn) (m : Mem) {i a j b part : Nat} (hi : i < D.n) (ha : a < 3) (hj : j < D.n)
    (hb : b < 3) (hpt : part < 2) :
    bornLoops D m (2 * elemIdx D.n i a j b + part) =
      if i ≤ j then bornSum D m i j a b part
        - (if i = j then D.q0 (18 * i + 6 * a + 2 * b + part) else 0)
      else m (2 * elemIdx D.n i a j b + part) := by
  -- one block
  have blk : ∀ i j, j < D.n → Writes (fun corr => loop 0 3 (fun a => loop 0 3 fun b m =>
        setAt (setAt m (2 * elemIdx D.n i a j b) (bornSum D corr i j a b 0)) (2 * elemIdx D.n i a j b + 1)
          (bornSum D corr i j a b 1)) corr) (BlockPos D.n i j) (BlockPos D.n i j) := by
    intro i j hj
    refine ⟨fun m p hp => (setBlock D.n i j hj (bornSum D m i j) m).2 p hp, fun m m' p hp hag => ?_⟩
    obtain ⟨a, b, pt, ha, hb, hpt, rfl⟩ := hp
    refine ((setBlock D.n i j hj (bornSum D m i j) m).1 a b pt ha hb hpt).trans ?_
    refine Eq.trans ?_ ((setBlock D.n i j hj (bornSum D m' i j) m').1 a b pt ha hb hpt).symm
    rw [bornSum_eq, bornSum_eq]
    refine Finset.sum_congr rfl fun c hc => Finset.sum_congr rfl fun d hd => ?_
    rw [hag _ ⟨c, d, pt, (Finset.mem_Ico.1 hc).2, (Finset.mem_Ico.1 hd).2, hpt, rfl⟩]
  have row : ∀ i, i < D.n → _ := fun i hi => loop_writes i D.n _ _ _ (fun j _ hj => blk i j hj)
    (fun j _ hj j' _ hj' p h h' => (blockPos_inj hj hj' h h').2)
    (fun j _ hj j' _ hj' p h h' => (blockPos_inj hj hj' h h').2)
  -- subtraction on the diagonal block
  have sub : ∀ i (m : Mem), loop 0 3 (fun a => loop 0 3 fun b m =>
      addTo (addTo m (2 * elemIdx D.n i a i b) (-D.q0 (18 * i + 6 * a + 2 * b))) (2 * elemIdx D.n i a i b + 1)
        (-D.q0 (18 * i + 6 * a + 2 * b + 1))) m
      = m + ∑ a ∈ Finset.Ico 0 3, ∑ b ∈ Finset.Ico 0 3,
          (Pi.single (2 * elemIdx D.n i a i b) (-D.q0 (18 * i + 6 * a + 2 * b))
          + Pi.single (2 * elemIdx D.n i a i b + 1) (-D.q0 (18 * i + 6 * a + 2 * b + 1)) : Mem) := by
    intro i m
    refine loop_add _ _ _ _ (fun a _ _ s => ?_) _
    refine loop_add _ _ _ _ (fun b _ _ s => ?_) _
    rw [addTo_eq, addTo_eq, add_assoc]
  have subVal : ∀ i, i < D.n → ∀ j a b pt, j < D.n → a < 3 → b < 3 → pt < 2 →
      (∑ a ∈ Finset.Ico 0 3, ∑ b ∈ Finset.Ico 0 3,
          (Pi.single (2 * elemIdx D.n i a i b) (-D.q0 (18 * i + 6 * a + 2 * b))
          + Pi.single (2 * elemIdx D.n i a i b + 1) (-D.q0 (18 * i + 6 * a + 2 * b + 1)) : Mem))
        (2 * elemIdx D.n i a j b + pt) = -if i = j then D.q0 (18 * i + 6 * a + 2 * b + pt) else 0 := by
    intro i hi j a b pt hj ha hb hpt
    simp only [Finset.sum_apply, Pi.add_apply, Pi.single_apply]
    by_cases hij : i = j
    · subst hij
      rw [if_pos rfl, collapse3 a b ha hb]
      · obtain rfl | rfl : pt = 0 ∨ pt = 1 := by omega
        · rw [if_pos (by omega), if_neg (by omega), add_zero, add_zero]
        · rw [if_neg (by omega), if_pos (by omega), zero_add]
      · intro a' b' ha' hb' hne
        rw [if_neg, if_neg, add_zero]
        · intro h
          have := elemIdx_inj ha hb hi ha' hb' hi (show elemIdx D.n i a i b = elemIdx D.n i a' i b' by omega)
          exact hne (by rw [this.2.1, this.2.2.2])
        · intro h
          have := elemIdx_inj ha hb hi ha' hb' hi (show elemIdx D.n i a i b = elemIdx D.n i a' i b' by omega)
          exact hne (by rw [this.2.1, this.2.2.2])
    · rw [if_neg hij, neg_zero]
      refine Finset.sum_eq_zero fun a' ha' => Finset.sum_eq_zero fun b' hb' => ?_
      have ha' := (Finset.mem_Ico.1 ha').2
      have hb' := (Finset.mem_Ico.1 hb').2
      rw [if_neg, if_neg, add_zero]
      · intro h
        have := elemIdx_inj ha hb hj ha' hb' hi (show elemIdx D.n i a j b = elemIdx D.n i a' i b' by omega)
        omega
      · intro h
        have := elemIdx_inj ha hb hj ha' hb' hi (show elemIdx D.n i a j b = elemIdx D.n i a' i b' by omega)
        omega
  have subFrame : ∀ i, i < D.n → ∀ p, ¬BlockPos D.n i i p →
      (∑ a ∈ Finset.Ico 0 3, ∑ b ∈ Finset.Ico 0 3,
          (Pi.single (2 * elemIdx D.n i a i b) (-D.q0 (18 * i + 6 * a + 2 * b))
          + Pi.single (2 * elemIdx D.n i a i b + 1) (-D.q0 (18 * i + 6 * a + 2 * b + 1)) : Mem)) p = 0 := by
    intro i hi p hp
    simp only [Finset.sum_apply, Pi.add_apply, Pi.single_apply]
    refine Finset.sum_eq_zero fun a' ha' => Finset.sum_eq_zero fun b' hb' => ?_
    have ha' := (Finset.mem_Ico.1 ha').2
    have hb' := (Finset.mem_Ico.1 hb').2
    rw [if_neg, if_neg, add_zero]
    · intro h; exact hp ⟨a', b', 1, ha', hb', by omega, h⟩
    · intro h; exact hp ⟨a', b', 0, ha', hb', by omega, h⟩
  -- one row
  have full : ∀ i, i < D.n → Writes (fun corr : Mem =>
      loop i D.n (fun j corr => loop 0 3 (fun a => loop 0 3 fun b m =>
        setAt (setAt m (2 * elemIdx D.n i a j b) (bornSum D corr i j a b 0)) (2 * elemIdx D.n i a j b + 1)
          (bornSum D corr i j a b 1)) corr) corr
      + ∑ a ∈ Finset.Ico 0 3, ∑ b ∈ Finset.Ico 0 3,
          (Pi.single (2 * elemIdx D.n i a i b) (-D.q0 (18 * i + 6 * a + 2 * b))
          + Pi.single (2 * elemIdx D.n i a i b + 1) (-D.q0 (18 * i + 6 * a + 2 * b + 1)) : Mem))
      (fun p => ∃ j, i ≤ j ∧ j < D.n ∧ BlockPos D.n i j p)
      (fun p => ∃ j, i ≤ j ∧ j < D.n ∧ BlockPos D.n i j p) := by
    intro i hi
    refine ⟨fun m p hp => ?_, fun m m' p hp hag => ?_⟩
    · rw [Pi.add_apply, subFrame i hi p fun h => hp ⟨i, le_refl _, hi, h⟩, add_zero]
      exact (row i hi).1.frame m p hp
    · rw [Pi.add_apply, Pi.add_apply]
      rw [(row i hi).1.reads m m' p hp hag]
  have all := loop_writes 0 D.n _ _ _ (fun i _ hi => full i hi)
    (fun i _ hi i' _ hi' p => by
      rintro ⟨j, _, hj, h⟩ ⟨j', _, hj', h'⟩; exact (blockPos_inj hj hj' h h').1)
    (fun i _ hi i' _ hi' p => by
      rintro ⟨j, _, hj, h⟩ ⟨j', _, hj', h'⟩; exact (blockPos_inj hj hj' h h').1)
  have eq : bornLoops D m = loop 0 D.n (fun i (corr : Mem) =>
      loop i D.n (fun j corr => loop 0 3 (fun a => loop 0 3 fun b m =>
        setAt (setAt m (2 * elemIdx D.n i a j b) (bornSum D corr i j a b 0)) (2 * elemIdx D.n i a j b + 1)
          (bornSum D corr i j a b 1)) corr) corr
      + ∑ a ∈ Finset.Ico 0 3, ∑ b ∈ Finset.Ico 0 3,
          (Pi.single (2 * elemIdx D.n i a i b) (-D.q0 (18 * i + 6 * a + 2 * b))
          + Pi.single (2 * elemIdx D.n i a i b + 1) (-D.q0 (18 * i + 6 * a + 2 * b + 1)) : Mem)) m := by
    unfold bornLoops
    congr 1
    funext i corr
    exact sub i _
  rw [eq]
  have hbp : BlockPos D.n i j (2 * elemIdx D.n i a j b + part) := ⟨a, b, part, ha, hb, hpt, rfl⟩
  by_cases hle : i ≤ j
  · rw [if_pos hle, all.2 i (by omega) hi m _ ⟨j, hle, hj, hbp⟩, Pi.add_apply,
      (row i hi).2 j hle hj m _ hbp, subVal i hi j a b part hj ha hb hpt,
      (setBlock D.n i j hj (bornSum D m i j) m).1 a b part ha hb hpt]
    ring
  · rw [if_neg hle]
    refine all.1.frame m _ ?_
    rintro ⟨i', _, hi', j', hij', hj', h'⟩
    have := blockPos_inj hj hj' hbp h'
    omega

/-! ## Comparison with Python -/

/-- The normalised q-point of the C code. -/
noncomputable def cRem (q : V3 ℝ) : V3 ℝ := ⟨q.x - cround q.x, q.y - cround q.y, q.z - cround q.z⟩

theorem exp_conj_angle (x y : ℝ) (h : x = 2 * Real.pi * y) :
    (⟨Real.cos x, -Real.sin x⟩ : ℂ) = star (Complex.exp (2 * Complex.I * Real.pi * (y : ℂ))) := by
  have e : (2 * Complex.I * Real.pi * (y : ℂ)) = ((2 * Real.pi * y : ℝ) : ℂ) * Complex.I := by
    push_cast; ring
  rw [e, h]
  apply Complex.ext
  · rw [Complex.star_def, Complex.conj_re, Complex.exp_ofReal_mul_I_re]
  · rw [Complex.star_def, Complex.conj_im, Complex.exp_ofReal_mul_I_im]

theorem unit_conj (y : ℝ) : Complex.exp (2 * Complex.I * Real.pi * (y : ℂ)) *
    star (Complex.exp (2 * Complex.I * Real.pi * (y : ℂ))) = 1 := by
  rw [Complex.star_def, ← Complex.exp_conj, ← Complex.exp_add]
  simp only [map_mul, Complex.conj_I, Complex.conj_ofReal, map_ofNat]
  rw [show 2 * Complex.I * (Real.pi : ℂ) * y + 2 * -Complex.I * Real.pi * y = 0 by ring, Complex.exp_zero]

theorem unit_inv (y : ℝ) : (Complex.exp (2 * Complex.I * Real.pi * (y : ℂ)))⁻¹ =
    star (Complex.exp (2 * Complex.I * Real.pi * (y : ℂ))) :=
  inv_eq_of_mul_eq_one_right (unit_conj y)

theorem sum_list_Ico {β γ : Type} [AddCommMonoid β] (l : List γ) (f : Nat → β) (g : γ → β)
    (h : ∀ m (hm : m < l.length), f m = g l[m]) :
    ∑ m ∈ Finset.Ico 0 l.length, f m = (l.map g).sum := by
  induction l generalizing f with
  | nil => simp
  | cons x l ih =>
      rw [List.length_cons, Finset.sum_Ico_eq_sum_range, Nat.sub_zero, Finset.sum_range_succ']
      simp only [Nat.zero_add]
      rw [List.map_cons, List.sum_cons, add_comm, h 0 (by simp)]
      rw [Finset.range_eq_Ico, ih (fun m => f (m + 1)) fun m hm => h (m + 1) (by simpa using hm)]
      rfl

section dip

variable {D : DipIn} {erfc : ℝ → ℝ} {o : Ions D.n}

theorem DipLayout.cellAngle_eq (L : DipLayout D erfc o) {q : V3 ℝ} {qn : Mem} (hq : Holds qn q) (c : Nat)
    (hc : c < (Dipole.cells erfc o D.lam).length) :
    cellAngle D qn c = 2 * Real.pi * (q.x * (Dipole.cells erfc o D.lam)[c].x
      + q.y * (Dipole.cells erfc o D.lam)[c].y + q.z * (Dipole.cells erfc o D.lam)[c].z) := by
  have c0 := L.cells c hc 0
  have c1 := L.cells c hc 1
  have c2 := L.cells c hc 2
  simp only [comp] at c0 c1 c2
  rw [mul_comm c 3] at c0 c1 c2
  simp only [Fin.val_zero, Fin.val_one, Fin.val_two] at c0 c1 c2
  unfold cellAngle
  rw [loop_three, c0, c1, c2, hq.1, hq.2.1, hq.2.2]
  simp

theorem DipLayout.real_eq (L : DipLayout D erfc o) {q : V3 ℝ} {qn : Mem} (hq : Holds qn q) (corr : Mem)
    (i j : Fin D.n) (a b : Fin 3) (hij : i ≤ j) :
    ((D.lam ^ 3 / √o.diel.det : ℝ) : ℂ) *
        cAt (realLoops D qn (clear (2 * 9 * D.n * D.n) corr)).1 (elemIdx D.n i a j b)
      = -star (realTerm erfc o D.lam q i j a b) := by
  rw [realLoops_at D qn corr i.2 a.2 j.2 b.2, if_pos (Fin.le_def.1 hij), L.nCells,
    sum_list_Ico (Dipole.cells erfc o D.lam) _ (fun R =>
      star (Complex.exp (2 * Complex.I * Real.pi * ((q.x * R.x + q.y * R.y + q.z * R.z : ℝ) : ℂ))
      * (Dipole.hab erfc o D.lam R i j a b : ℂ)))]
  · unfold realTerm
    rw [star_mul', star_real, star_list_sum, mul_neg]
    rfl
  · intro c hc
    rw [exp_conj_angle _ _ (L.cellAngle_eq hq c hc), star_mul', star_real]
    congr 2
    rw [← packed_eq D.n i j hij j.2]
    exact L.hab c hc i j hij a b

theorem DipLayout.qCart_eq (L : DipLayout D erfc o) {q : V3 ℝ} {qn : Mem} (hq : Holds qn q) (a : Fin 3) :
    qCart D qn a = comp (toCart (Dipole.recip o) q) a := by
  have h := L.recip a
  unfold qCart
  rw [loop_three, hq.1, hq.2.1, hq.2.2]
  simp only [Nat.mul_zero, Nat.zero_add, Nat.mul_one, Nat.reduceMul]
  rw [h.1, h.2.1, h.2.2]
  fin_cases a <;> simp [toCart, comp] <;> ring

theorem kLen2_eq (m : Matrix (Fin 3) (Fin 3) ℝ) (h : HoldsMat D.diel m) (kv : Nat → ℝ) (k : V3 ℝ)
    (hk : ∀ a : Fin 3, kv a = comp k a) :
    kLen2 D kv = (∑ a, ∑ b, comp k a * comp k b * m a b) / (4 * D.lam ^ 2) := by
  unfold kLen2
  rw [loop_add 0 3 _ _ (fun a _ _ s => loop_add 0 3 _ _ (fun b _ _ s => rfl) s), zero_add, sum_Ico_fin]
  simp only [sum_Ico_fin]
  rw [Finset.sum_div]
  refine Finset.sum_congr rfl fun a _ => ?_
  rw [Finset.sum_div]
  refine Finset.sum_congr rfl fun b _ => ?_
  rw [hk, hk, mul_comm 3 (a : Nat), h a b]
  ring

theorem DipLayout.kTerm_eq (L : DipLayout D erfc o) {q : V3 ℝ} {qn : Mem} (hq : Holds qn q) (g : Nat)
    (hg : g < (⟨0, 0, 0⟩ :: gvecs o D.lam).length) (a b : Fin 3) :
    ckTerm D qn g a b = kTerm o D.lam (add (toCart (Dipole.recip o)
      (castV ℝ (⟨0, 0, 0⟩ :: gvecs o D.lam)[g])) (toCart (Dipole.recip o) q)) a b := by
  have hk : ∀ a : Fin 3, (fun a => D.gCart (3 * g + a) + qCart D qn a) (a : Nat)
      = comp (add (toCart (Dipole.recip o) (castV ℝ (⟨0, 0, 0⟩ :: gvecs o D.lam)[g]))
        (toCart (Dipole.recip o) q)) a := by
    intro a
    have := L.gCart g hg a
    rw [mul_comm g 3] at this
    beta_reduce
    rw [this, L.qCart_eq hq]
    fin_cases a <;> rfl
  unfold ckTerm kTerm
  rw [kLen2_eq _ L.diel _ _ hk]
  have ha := hk a
  have hb := hk b
  beta_reduce at ha hb
  rw [ha, hb]

theorem DipLayout.cqPhase_eq (L : DipLayout D erfc o) {q : V3 ℝ} {qn : Mem} (hq : Holds qn q) (i : Fin D.n) :
    (⟨(cqPhase D qn i).1, (cqPhase D qn i).2⟩ : ℂ) = star (qPhase o q i) := by
  have c0 := L.atomR i 0
  have c1 := L.atomR i 1
  have c2 := L.atomR i 2
  simp only [comp] at c0 c1 c2
  rw [mul_comm (i : Nat) 3] at c0 c1 c2
  simp only [Fin.val_zero, Fin.val_one, Fin.val_two] at c0 c1 c2
  unfold cqPhase qPhase
  refine exp_conj_angle _ _ ?_
  rw [loop_three, c0, c1, c2, hq.1, hq.2.1, hq.2.2]
  simp

theorem pair_eq {x : ℝ × ℝ} {z : ℂ} (h : (⟨x.1, x.2⟩ : ℂ) = z) : x = (z.re, z.im) := by
  subst h; rfl

theorem DipLayout.pairPhase_eq (L : DipLayout D erfc o) {q : V3 ℝ} {qn : Mem} (hq : Holds qn q) (g : Nat)
    (hg : g < (⟨0, 0, 0⟩ :: gvecs o D.lam).length) (i j : Fin D.n) :
    (⟨(cPairPhase D qn g i j).1, (cPairPhase D qn g i j).2⟩ : ℂ)
      = star ((gPhase o (⟨0, 0, 0⟩ :: gvecs o D.lam)[g] i * qPhase o q i) /
        (gPhase o (⟨0, 0, 0⟩ :: gvecs o D.lam)[g] j * qPhase o q j)) := by
  have hp : ∀ i : Fin D.n, pairAt D.gPhases (2 * (g * D.n + i))
      = ((gPhase o (⟨0, 0, 0⟩ :: gvecs o D.lam)[g] i).re, (gPhase o (⟨0, 0, 0⟩ :: gvecs o D.lam)[g] i).im) :=
    fun i => pair_eq (L.gPhases g hg i)
  have e : cPairPhase D qn g i j = (((star (qPhase o q i) * star (gPhase o (⟨0, 0, 0⟩ :: gvecs o D.lam)[g] i)) *
      star (star (qPhase o q j) * star (gPhase o (⟨0, 0, 0⟩ :: gvecs o D.lam)[g] j))).re,
      ((star (qPhase o q i) * star (gPhase o (⟨0, 0, 0⟩ :: gvecs o D.lam)[g] i)) *
      star (star (qPhase o q j) * star (gPhase o (⟨0, 0, 0⟩ :: gvecs o D.lam)[g] j))).im) := by
    unfold cPairPhase
    rw [hp i, hp j, pair_eq (L.cqPhase_eq hq i), pair_eq (L.cqPhase_eq hq j), (C53_complex _ _).2,
      (C53_complex _ _).2, (C53_complex _ _).2]
  rw [e]
  rw [div_eq_mul_inv, mul_inv, star_mul', star_mul', star_mul']
  have h1 : (gPhase o (⟨0, 0, 0⟩ :: gvecs o D.lam)[g] j)⁻¹
      = star (gPhase o (⟨0, 0, 0⟩ :: gvecs o D.lam)[g] j) := unit_inv _
  have h2 : (qPhase o q j)⁻¹ = star (qPhase o q j) := unit_inv _
  rw [h1, h2]
  simp only [star_mul', star_star]
  apply Complex.ext <;> ring_nf

theorem DipLayout.recip_eq (L : DipLayout D erfc o) {q : V3 ℝ} {qn : Mem} (hq : Holds qn q) (corr : Mem)
    (i j : Fin D.n) (a b : Fin 3) (hij : i ≤ j) :
    cAt (recipLoops D qn (if cIsGamma qn then 1 else 0) corr) (elemIdx D.n i a j b)
      = cAt corr (elemIdx D.n i a j b) + star (recipTerm o D.lam q i j a b) := by
  rw [recipLoops_at D qn corr _ a.2 j.2 b.2, if_pos (Fin.le_def.1 hij)]
  refine congrArg (cAt corr (elemIdx D.n i a j b) + ·) ?_
  rw [C53_is_gamma qn q hq, C53_cell_volume _ _ L.cellVec, L.nG]
  have term : ∀ g (hg : g < (⟨0, 0, 0⟩ :: gvecs o D.lam).length),
      ((Real.pi / (cellVolume o.cv * D.lam ^ 2) * ckTerm D qn g a b : ℝ) : ℂ) *
        ⟨(cPairPhase D qn g i j).1, (cPairPhase D qn g i j).2⟩
      = (recipFactor o D.lam : ℂ) * star ((kTerm o D.lam (add (toCart (Dipole.recip o)
        (castV ℝ (⟨0, 0, 0⟩ :: gvecs o D.lam)[g])) (toCart (Dipole.recip o) q)) a b : ℂ) *
        ((gPhase o (⟨0, 0, 0⟩ :: gvecs o D.lam)[g] i * qPhase o q i) /
        (gPhase o (⟨0, 0, 0⟩ :: gvecs o D.lam)[g] j * qPhase o q j))) := by
    intro g hg
    rw [L.pairPhase_eq hq g hg i j, L.kTerm_eq hq g hg a b, star_mul', star_real, ← mul_assoc]
    congr 1
    rw [← Complex.ofReal_mul]
    rfl
  unfold recipTerm
  dsimp only
  rw [star_mul', star_real, star_list_sum, ← List.sum_map_mul_left]
  by_cases hG : isGamma q = true
  · simp only [hG, if_true, Nat.add_sub_cancel]
    exact sum_list_Ico _ _ (fun G => (recipFactor o D.lam : ℂ) * star ((kTerm o D.lam (add (toCart (Dipole.recip o)
        (castV ℝ G)) (toCart (Dipole.recip o) q)) a b : ℂ) * ((gPhase o G i * qPhase o q i) /
        (gPhase o G j * qPhase o q j)))) fun m hm => by
      rw [add_comm 1 m, term (m + 1) (by simpa using hm)]
      rfl
  · simp only [hG]
    rw [show (gvecs o D.lam).length + 1 - (if false = true then 1 else 0)
      = (⟨0, 0, 0⟩ :: gvecs o D.lam).length by simp]
    exact sum_list_Ico _ _ (fun G => (recipFactor o D.lam : ℂ) * star ((kTerm o D.lam (add (toCart (Dipole.recip o)
        (castV ℝ G)) (toCart (Dipole.recip o) q)) a b : ℂ) * ((gPhase o G i * qPhase o q i) /
        (gPhase o G j * qPhase o q j)))) fun m hm => by
      rw [← term m hm]
      simp

theorem cAt_multiply (n : Nat) (c : ℝ) (m : Mem) {p : Nat} (hp : p < 9 * n * n) :
    cAt (multiplyArray (2 * 9 * n * n) c m) p = (c : ℂ) * cAt m p := by
  have : 2 * 9 * n * n = 2 * (9 * n * n) := by ring
  unfold cAt
  rw [multiplyArray_apply, multiplyArray_apply, if_pos (by omega), if_pos (by omega)]
  apply Complex.ext
  · rw [Complex.re_ofReal_mul]; ring
  · rw [Complex.im_ofReal_mul]; ring

theorem cAt_bornLoops (D : DipIn) (m : Mem) (i j : Fin D.n) (a b : Fin 3) (hij : i ≤ j) :
    cAt (bornLoops D m) (elemIdx D.n i a j b) =
      (∑ c : Fin 3, ∑ d : Fin 3, ((D.born ((i * 3 + a) * 3 + c) * D.born ((j * 3 + b) * 3 + d) : ℝ) : ℂ) *
        cAt m (elemIdx D.n i c j d)) - if i = j then cAt D.q0 ((i * 3 + a) * 3 + b) else 0 := by
  have h0 := bornLoops_at D m i.2 a.2 j.2 b.2 (show 0 < 2 by omega)
  have h1 := bornLoops_at D m i.2 a.2 j.2 b.2 (show 1 < 2 by omega)
  rw [if_pos (Fin.le_def.1 hij), bornSum_eq] at h0 h1
  simp only [sum_Ico_fin] at h0 h1
  have e1 : ∀ (i a b : Nat), 9 * i + 3 * a + b = (i * 3 + a) * 3 + b := by intros; ring
  have e2 : ∀ (i a b p : Nat), 18 * i + 6 * a + 2 * b + p = 2 * ((i * 3 + a) * 3 + b) + p := by intros; ring
  simp only [e1, e2, add_zero] at h0 h1
  unfold cAt
  rw [h0, h1]
  by_cases h : i = j
  · simp only [h, if_true]
    apply Complex.ext
    · simp only [Complex.sub_re, Complex.re_sum, Complex.re_ofReal_mul]
    · simp only [Complex.sub_im, Complex.im_sum, Complex.im_ofReal_mul]
  · have h' : ¬(i : Nat) = j := fun e => h (Fin.ext e)
    simp only [h, h', if_false]
    apply Complex.ext
    · simp only [Complex.sub_re, Complex.re_sum, Complex.re_ofReal_mul, Complex.zero_re]
    · simp only [Complex.sub_im, Complex.im_sum, Complex.im_ofReal_mul, Complex.zero_im]

theorem DipLayout.calcDipole_eq (L : DipLayout D erfc o) (hdet : detArray D.diel = o.diel.det) {q : V3 ℝ}
    {qpt : Mem} (hq : Holds qpt q) (corr : Mem) (i j : Fin D.n) (a b : Fin 3) :
    cAt (calcDipole D qpt corr) (elemIdx D.n i a j b)
      = if i ≤ j then star (corrAt erfc o D.lam (cRem q) i j a b) else 0 := by
  have hqn : Holds (fun a => qpt a - cround (qpt a)) (cRem q) := by
    refine ⟨?_, ?_, ?_⟩ <;> simp [hq.1, hq.2.1, hq.2.2, cRem]
  unfold calcDipole
  dsimp only
  rw [hdet]
  by_cases hij : i ≤ j
  · rw [if_pos hij, cAt_bornLoops D _ i j a b hij]
    have hel : ∀ c d : Fin 3, cAt (recipLoops D (fun a => qpt a - cround (qpt a))
        (if cIsGamma fun a => qpt a - cround (qpt a) then 1 else 0)
        (multiplyArray (2 * 9 * D.n * D.n) (D.lam ^ 3 / √o.diel.det)
          (realLoops D (fun a => qpt a - cround (qpt a)) (clear (2 * 9 * D.n * D.n) corr)).1))
        (elemIdx D.n i c j d)
        = star (recipTerm o D.lam (cRem q) i j c d - realTerm erfc o D.lam (cRem q) i j c d) := by
      intro c d
      rw [L.recip_eq hqn _ i j c d hij, cAt_multiply _ _ _ (elemIdx_lt i.2 c.2 j.2 d.2),
        L.real_eq hqn corr i j c d hij, star_sub]
      ring
    simp only [hel]
    unfold corrAt
    rw [star_sub]
    congr 1
    · simp only [star_sum, star_mul', star_real, fill, if_pos hij]
      refine Finset.sum_congr rfl fun c _ => Finset.sum_congr rfl fun d _ => ?_
      rw [L.born i a c, L.born j b d]
    · by_cases h : i = j
      · rw [if_pos h, if_pos h, q0_real]; exact L.q0 i a b
      · rw [if_neg h, if_neg h, star_zero]
  · rw [if_neg hij]
    have hn : ¬(i : Nat) ≤ j := hij
    have hz : ∀ part < 2, bornLoops D (recipLoops D (fun a => qpt a - cround (qpt a))
        (if cIsGamma fun a => qpt a - cround (qpt a) then 1 else 0)
        (multiplyArray (2 * 9 * D.n * D.n) (D.lam ^ 3 / √o.diel.det)
          (realLoops D (fun a => qpt a - cround (qpt a)) (clear (2 * 9 * D.n * D.n) corr)).1))
        (2 * elemIdx D.n i a j b + part) = (recipLoops D (fun a => qpt a - cround (qpt a))
        (if cIsGamma fun a => qpt a - cround (qpt a) then 1 else 0)
        (multiplyArray (2 * 9 * D.n * D.n) (D.lam ^ 3 / √o.diel.det)
          (realLoops D (fun a => qpt a - cround (qpt a)) (clear (2 * 9 * D.n * D.n) corr)).1))
        (2 * elemIdx D.n i a j b + part) := by
      intro part hpt
      rw [bornLoops_at D _ i.2 a.2 j.2 b.2 hpt, if_neg hn]
    have h0 := hz 0 (by omega)
    have h1 := hz 1 (by omega)
    have : ∀ m m' : Mem, m (2 * elemIdx D.n i a j b + 0) = m' (2 * elemIdx D.n i a j b + 0) →
        m (2 * elemIdx D.n i a j b + 1) = m' (2 * elemIdx D.n i a j b + 1) →
        cAt m (elemIdx D.n i a j b) = cAt m' (elemIdx D.n i a j b) := by
      intro m m' h h'
      unfold cAt
      rw [← h']
      exact Complex.ext h rfl
    rw [this _ _ h0 h1, recipLoops_at D _ _ _ a.2 j.2 b.2, if_neg hn,
      cAt_multiply _ _ _ (elemIdx_lt i.2 a.2 j.2 b.2), realLoops_at D _ _ i.2 a.2 j.2 b.2, if_neg hn]
    simp

/-- **C52, partial.** For every q-point without a component halfway between integers, and a dielectric
tensor whose determinant `det_array` gives correctly, the array filled by `calculate_dipole_correction` holds the
complex conjugate of the Python correction in the blocks on and above the diagonal and zero below.
Missing: other tensors (C53_det_wrong), and components of one half, where C normalises to another
equivalent q-point than Python (C53_round_half; the truncated sums there are not the same). -/
theorem C52_dipole_partial (L : DipLayout D erfc o) (hdet : detArray D.diel = o.diel.det) {q : V3 ℝ}
    {qpt : Mem} (hq : Holds qpt q) (hx : |q.x - rint q.x| ≠ 1 / 2) (hy : |q.y - rint q.y| ≠ 1 / 2)
    (hz : |q.z - rint q.z| ≠ 1 / 2) (corr : Mem) (k l : Fin (D.n * 3)) :
    cAt (calcDipole D qpt corr) (k * (3 * D.n) + l)
      = if k.divNat ≤ l.divNat then star (dipoleCorrection erfc o D.lam q k l) else 0 := by
  rw [← elemIdx_fin, L.calcDipole_eq hdet hq]
  have : cRem q = rem q := by
    unfold cRem rem
    rw [(C53_round _).2 hx, (C53_round _).2 hy, (C53_round _).2 hz]
  rw [this]
  rfl

end dip

end Euphonic.CExt
