import Verif.Props.Acoustic
import Verif.Props.Stability

/-!
# C175: sum rule corrections of force constants that obey the sum rule

Corrections for the acoustic sum rule are no larger than the violation of the sum rule: force constants that obey it already are not
changed by `asr='realspace'`.
-/

set_option autoImplicit false
set_option linter.unusedSectionVars false

namespace Euphonic.SumRuleKept

open Euphonic.Lattice Euphonic.Supercell Euphonic.Phases Euphonic.Images Euphonic.DynMat Euphonic.Reduced
open Euphonic.Commensurate Euphonic.Acoustic Euphonic.Stability

variable {n N M : Nat} {ι : Type} [Fintype ι]

/-! ## Specification -/

/-- The squares of the forces when all atoms are displaced by the same unit length along `x`, `y` or `z`, added up for all atoms of a
cell: zero if the sum rule holds. -/
noncomputable def violation (fc : Fin N → Mat n ℝ) : ℝ :=
  ∑ b : Fin 3, ∑ k, (∑ c, ∑ l, if l.modNat = b then fc c k l else 0) ^ 2

theorem violation_zero {fc : Fin N → Mat n ℝ} (ht : TranslationInvariant fc) : violation fc = 0 := by
  unfold violation
  exact Finset.sum_eq_zero fun b _ => Finset.sum_eq_zero fun k _ => by rw [ht k b]; norm_num

/-- Force constants obey the sum rule exactly if nothing violates it. -/
theorem violation_zero_iff (fc : Fin N → Mat n ℝ) : violation fc = 0 ↔ TranslationInvariant fc := by
  refine ⟨fun h k b => ?_, violation_zero⟩
  unfold violation at h
  rw [Finset.sum_eq_zero_iff_of_nonneg fun _ _ => Finset.sum_nonneg fun _ _ => sq_nonneg _] at h
  have h1 := h b (Finset.mem_univ _)
  rw [Finset.sum_eq_zero_iff_of_nonneg fun _ _ => sq_nonneg _] at h1
  exact pow_eq_zero_iff two_ne_zero |>.1 (h1 k (Finset.mem_univ _))

/-! ## Eigenvalues of modes that move the centre of mass -/

theorem eval_bound (dir : ι → Fin 3) (A : ι → ι → ℂ) (e : ι → ℂ) (x : ℝ) (he : ∀ k, ∑ l, A k l * e l = x * e k)
    (h1 : ∑ k, ‖e k‖ ^ 2 = 1) :
    x ^ 2 * Asr.comSq dir e ≤ ∑ b : Fin 3, ∑ l, ‖∑ k, if dir k = b then A k l else 0‖ ^ 2 := by
  unfold Asr.comSq
  rw [Finset.mul_sum]
  refine Finset.sum_le_sum fun b _ => ?_
  have h2 : (x : ℂ) * (∑ k, if dir k = b then e k else 0) = ∑ l, (∑ k, if dir k = b then A k l else 0) * e l := by
    simp only [Finset.mul_sum, Finset.sum_mul]
    rw [Finset.sum_comm]
    refine Finset.sum_congr rfl fun k _ => ?_
    by_cases hk : dir k = b
    · simp only [if_pos hk]
      exact (he k).symm
    · simp [if_neg hk]
  have h3 : x ^ 2 * ‖∑ k, if dir k = b then e k else 0‖ ^ 2 = ‖∑ l, (∑ k, if dir k = b then A k l else 0) * e l‖ ^ 2 := by
    rw [← h2, norm_mul, mul_pow, Complex.norm_real, Real.norm_eq_abs, sq_abs]
  rw [h3]
  have h4 : ‖∑ l, (∑ k, if dir k = b then A k l else 0) * e l‖ ≤ ∑ l, ‖∑ k, if dir k = b then A k l else 0‖ * ‖e l‖ :=
    (norm_sum_le _ _).trans (Finset.sum_le_sum fun l _ => (norm_mul _ _).le)
  have h5 := Finset.sum_mul_sq_le_sq_mul_sq Finset.univ (fun l => ‖∑ k, if dir k = b then A k l else 0‖) fun l => ‖e l‖
  rw [h1, mul_one] at h5
  exact (pow_le_pow_left₀ (norm_nonneg _) h4 2).trans h5

theorem entry_le_one (e : ι → ℂ) (h1 : ∑ k, ‖e k‖ ^ 2 = 1) (k : ι) : ‖e k‖ ≤ 1 := by
  have h2 : ‖e k‖ ^ 2 ≤ 1 := by
    rw [← h1]
    exact Finset.single_le_sum (f := fun k => ‖e k‖ ^ 2) (fun _ _ => sq_nonneg _) (Finset.mem_univ k)
  exact (pow_le_one_iff_of_nonneg (norm_nonneg _) two_ne_zero).1 h2

/-- The eigenvalues of the modes that are selected. -/
theorem selected_bound {m : Nat} (hm : 0 < m) (dir : ι → Fin 3) (A : ι → ι → ℂ) (evals : Fin M → ℝ) (evecs : Fin M → ι → ℂ)
    (he : ∀ s k, ∑ l, A k l * evecs s l = evals s * evecs s k) (h1 : ∀ s, ∑ k, ‖evecs s k‖ ^ 2 = 1) {ac : List (Fin M)}
    (hac : Asr.acoustic m dir evecs = some ac) {V : ℝ}
    (hV : ∑ b : Fin 3, ∑ l, ‖∑ k, if dir k = b then A k l else 0‖ ^ 2 = V) (s : Fin M) (hs : s ∈ ac) :
    |evals s| ≤ √(2 * V / m) := by
  obtain ⟨-, -, h2, -⟩ := Asr.C48_selection _ _ _ _ hac
  have h3 := eval_bound dir A (evecs s) (evals s) (he s) (h1 s)
  rw [hV] at h3
  have hm' : (0 : ℝ) < m := by exact_mod_cast hm
  apply Real.abs_le_sqrt
  rw [le_div_iff₀ hm']
  have h4 := mul_le_mul_of_nonneg_left (h2 s hs).le (sq_nonneg (evals s))
  linarith

theorem list_bound {α : Type} (l : List α) (f : α → ℝ) (B : ℝ) (h : ∀ a ∈ l, |f a| ≤ B) : |(l.map f).sum| ≤ l.length * B := by
  induction l with
  | nil => simp
  | cons a l ih =>
    rw [List.map_cons, List.sum_cons, List.length_cons]
    have h1 := ih fun x hx => h x (List.mem_cons_of_mem _ hx)
    have h2 := h a List.mem_cons_self
    refine (abs_add_le _ _).trans ?_
    push_cast
    linarith

theorem list_sum_bound {α β : Type} [Fintype β] (l : List α) (f : β → α → ℝ) (B : ℝ) (h : ∀ a ∈ l, ∑ x, |f x a| ≤ B) :
    ∑ x, |(l.map (f x)).sum| ≤ l.length * B := by
  induction l with
  | nil => simp
  | cons a l ih =>
    simp only [List.map_cons, List.sum_cons, List.length_cons]
    have h1 := ih fun x hx => h x (List.mem_cons_of_mem _ hx)
    have h2 := h a List.mem_cons_self
    refine (Finset.sum_le_sum fun x _ => abs_add_le _ _).trans ?_
    rw [Finset.sum_add_distrib]
    push_cast
    linarith

theorem massWeighting_le (m : Fin n → ℝ) (m0 : ℝ) (hm0 : 0 < m0) (hm : ∀ i, m0 ≤ m i) (k l : Fin (n * 3)) :
    massWeighting m k l ≤ 1 / m0 := by
  unfold massWeighting
  refine one_div_le_one_div_of_le hm0 ?_
  rw [Real.le_sqrt' hm0, pow_two]
  exact mul_le_mul (hm _) (hm _) hm0.le (hm0.le.trans (hm _))

/-- A mode that is the same in all cells. -/
theorem mode_rows {e : Fin N × Fin (n * 3) → ℝ} (h1 : ∑ k, e k ^ 2 = 1) (c0 : Fin N) (hcell : ∀ c k, e (c, k) = e (c0, k))
    (k : Fin (n * 3)) : ∑ c, ∑ l, |e (c, k) * e (c0, l)| ≤ √(3 * n) := by
  have hN : (0 : ℝ) < N := by exact_mod_cast c0.pos
  have h2 : N * ∑ l, e (c0, l) ^ 2 = 1 := by
    rw [← h1, Fintype.sum_prod_type]
    simp only [hcell _ _]
    rw [Finset.sum_const, Finset.card_univ, Fintype.card_fin, nsmul_eq_mul]
  have h3 : N * e (c0, k) ^ 2 ≤ 1 := by
    rw [← h2]
    exact mul_le_mul_of_nonneg_left (Finset.single_le_sum (f := fun l => e (c0, l) ^ 2) (fun _ _ => sq_nonneg _) (Finset.mem_univ k)) hN.le
  have h4 : (∑ l, |e (c0, l)|) ^ 2 ≤ 3 * n * ∑ l, e (c0, l) ^ 2 := by
    have := Finset.sum_mul_sq_le_sq_mul_sq Finset.univ (fun _ : Fin (n * 3) => (1 : ℝ)) fun l => |e (c0, l)|
    simp only [one_mul, one_pow, Finset.sum_const, Finset.card_univ, Fintype.card_fin, nsmul_eq_mul, mul_one, sq_abs] at this
    push_cast at this
    linarith
  simp only [hcell _ k, abs_mul, ← Finset.mul_sum, Finset.sum_const, Finset.card_univ, Fintype.card_fin, nsmul_eq_mul]
  apply Real.le_sqrt_of_sq_le
  calc (|e (c0, k)| * (N * ∑ l, |e (c0, l)|)) ^ 2 = (N * e (c0, k) ^ 2) * (N * (∑ l, |e (c0, l)|) ^ 2) := by
        rw [mul_pow, mul_pow, sq_abs]; ring
    _ ≤ 1 * (N * (∑ l, |e (c0, l)|) ^ 2) := mul_le_mul_of_nonneg_right h3 (by positivity)
    _ ≤ N * (3 * n * ∑ l, e (c0, l) ^ 2) := by rw [one_mul]; exact mul_le_mul_of_nonneg_left h4 hN.le
    _ = 3 * n * (N * ∑ l, e (c0, l) ^ 2) := by ring
    _ = 3 * n := by rw [h2, mul_one]

/-! ## In real space -/

section
variable {S : M3 ℤ} {cells : Fin N → V3 ℤ} (hd : DistinctCells S cells) {fc : Fin N → Mat n ℝ} {op : Fin N → Fin N} {t : Fin N → V3 ℤ}
  (hs : Symmetric cells S fc op t) {rel : Fin N → Fin N → Fin N} (hrel : ∀ i j, IsTranslation S cells i j (rel i j)) {c0 : Fin N}
  (h0 : cells c0 = ⟨0, 0, 0⟩)
include hd hrel

theorem rel_bijective (c : Fin N) : Function.Bijective fun c' => rel c' c := by
  apply Function.Injective.bijective_of_finite
  intro i j hij
  dsimp only at hij
  apply hd
  obtain ⟨a, ha⟩ := hrel i c
  obtain ⟨b, hb⟩ := hrel j c
  rw [hij] at ha
  refine ⟨⟨b.x - a.x, b.y - a.y, b.z - a.z⟩, ?_⟩
  simp only [Lattice.sub, mulMat, V3.mk.injEq] at ha hb ⊢
  refine ⟨?_, ?_, ?_⟩
  · linear_combination hb.1 - ha.1
  · linear_combination hb.2.1 - ha.2.1
  · linear_combination hb.2.2 - ha.2.2

include hs h0

theorem sq_violation : ∑ b : Fin 3, ∑ l : Fin N × Fin (n * 3),
    ‖∑ k : Fin N × Fin (n * 3), if (k.2.modNat : Fin 3) = b then ((Asr.sqFc fc rel k l : ℝ) : ℂ) else 0‖ ^ 2 = N * violation fc := by
  have hsum : ∀ (b : Fin 3) (l : Fin N × Fin (n * 3)),
      (∑ k : Fin N × Fin (n * 3), if (k.2.modNat : Fin 3) = b then ((Asr.sqFc fc rel k l : ℝ) : ℂ) else 0) =
        ((∑ c, ∑ k, if k.modNat = b then fc c l.2 k else 0 : ℝ) : ℂ) := by
    intro b l
    rw [Fintype.sum_prod_type, ← (rel_bijective hd hrel l.1).sum_comp fun c => ∑ k, if k.modNat = b then fc c l.2 k else 0]
    push_cast
    refine Finset.sum_congr rfl fun c _ => Finset.sum_congr rfl fun k _ => ?_
    split
    · rfl
    · simp
  unfold violation
  rw [Finset.mul_sum]
  refine Finset.sum_congr rfl fun b _ => ?_
  simp only [hsum, Complex.norm_real, Real.norm_eq_abs, sq_abs]
  rw [Fintype.sum_prod_type]
  dsimp only
  rw [Finset.sum_const, Finset.card_univ, Fintype.card_fin, nsmul_eq_mul]

/-- **C175.** With `asr='realspace'` no force constant changes by more than `3 (1 + 10^-8) √(2 V / n)`, with `n` atoms per cell and `V`
the sum of the squares of the forces on the atoms of a cell when the whole crystal is moved by a unit length along `x`, `y` and `z`.
This holds for all orthonormal eigenvectors of the force constants of the supercell that the eigensolver may have chosen. -/
theorem C175_realspace {eighR : (Fin N × Fin (n * 3) → Fin N × Fin (n * 3) → ℝ) → (Fin M → ℝ) × (Fin M → Fin N × Fin (n * 3) → ℝ)}
    (hortho : ∀ s s', ∑ k, (eighR (Asr.sqFc fc rel)).2 s k * (eighR (Asr.sqFc fc rel)).2 s' k = if s = s' then 1 else 0)
    (heig : ∀ s k, ∑ l, Asr.sqFc fc rel k l * (eighR (Asr.sqFc fc rel)).2 s l =
      (eighR (Asr.sqFc fc rel)).1 s * (eighR (Asr.sqFc fc rel)).2 s k) (c : Fin N) (k l : Fin (n * 3)) :
    |Asr.enforceRealspace c0 fc rel eighR c k l - fc c k l| ≤ 3 * (1 + 1 / 10 ^ 8) * √(2 * violation fc / n) := by
  have hn : 0 < n := by
    rcases Nat.eq_zero_or_pos n with rfl | h
    · exact absurd k.isLt (by omega)
    · exact h
  have hcol := (Asr.C48_square_matrix S cells hd fc op t hs rel hrel c0 h0).2
  set sq := Asr.sqFc fc rel with hsq
  have h1 : ∀ s, ∑ k, ‖(((eighR sq).2 s k : ℝ) : ℂ)‖ ^ 2 = 1 := by
    intro s
    simp only [Complex.norm_real, Real.norm_eq_abs, sq_abs]
    have := hortho s s
    rw [if_pos rfl] at this
    rw [← this]
    exact Finset.sum_congr rfl fun k _ => pow_two _
  unfold Asr.enforceRealspace
  cases hac : Asr.acoustic (N * n) (fun k : Fin N × Fin (n * 3) => k.2.modNat)
      (fun s k => (((eighR (Asr.sqFc fc rel)).2 s k : ℝ) : ℂ)) with
  | none =>
    simp only [sub_self, abs_zero]
    positivity
  | some ac =>
    have hN : 0 < N := c0.pos
    have hb : ∀ s ∈ ac, |(eighR sq).1 s| ≤ √(2 * violation fc / n) := by
      intro s hsm
      refine (selected_bound (Nat.mul_pos hN hn) _ (fun k l => ((sq k l : ℝ) : ℂ)) (eighR sq).1 _ (fun s k => ?_) h1 hac
        (sq_violation hd hs hrel h0) s hsm).trans (le_of_eq ?_)
      · have := congrArg (fun x : ℝ => (x : ℂ)) (heig s k)
        push_cast at this
        exact this
      · congr 1
        have : (N : ℝ) ≠ 0 := by exact_mod_cast hN.ne'
        push_cast
        rw [show 2 * (N * violation fc) = N * (2 * violation fc) by ring, mul_div_mul_left _ _ this]
    obtain ⟨hlen, -, -, -⟩ := Asr.C48_selection _ _ _ _ hac
    dsimp only
    unfold Asr.realCorrected
    rw [← hsq, hcol, sub_sub_cancel_left, abs_neg]
    refine (list_bound ac _ ((1 + 1 / 10 ^ 8) * √(2 * violation fc / n)) fun s hsm => ?_).trans (le_of_eq ?_)
    · rw [abs_mul, abs_mul]
      have e1 : ∀ p, |(eighR sq).2 s p| ≤ 1 := by
        intro p
        have := entry_le_one _ (h1 s) p
        rwa [Complex.norm_real, Real.norm_eq_abs] at this
      have e2 : |(eighR sq).2 s (c, k)| * |(eighR sq).2 s (c0, l)| ≤ 1 := mul_le_one₀ (e1 _) (abs_nonneg _) (e1 _)
      have e3 : |Asr.fcTol (eighR sq).1 + (eighR sq).1 s| ≤ (1 + 1 / 10 ^ 8) * √(2 * violation fc / n) := by
        refine (abs_add_le _ _).trans ?_
        rw [abs_of_nonneg (Asr.fcTol_bounds _).1]
        have e4 := (Asr.fcTol_bounds (eighR sq).1).2 s
        have e5 := hb s hsm
        linarith
      exact (mul_le_of_le_one_right (abs_nonneg _) e2).trans e3
    · rw [hlen]
      push_cast
      ring

theorem selected_real {eighR : (Fin N × Fin (n * 3) → Fin N × Fin (n * 3) → ℝ) → (Fin M → ℝ) × (Fin M → Fin N × Fin (n * 3) → ℝ)}
    (hn : 0 < n)
    (hortho : ∀ s s', ∑ k, (eighR (Asr.sqFc fc rel)).2 s k * (eighR (Asr.sqFc fc rel)).2 s' k = if s = s' then 1 else 0)
    (heig : ∀ s k, ∑ l, Asr.sqFc fc rel k l * (eighR (Asr.sqFc fc rel)).2 s l =
      (eighR (Asr.sqFc fc rel)).1 s * (eighR (Asr.sqFc fc rel)).2 s k) {ac : List (Fin M)}
    (hac : Asr.acoustic (N * n) (fun k : Fin N × Fin (n * 3) => k.2.modNat)
      (fun s k => (((eighR (Asr.sqFc fc rel)).2 s k : ℝ) : ℂ)) = some ac) (s : Fin M) (hsm : s ∈ ac) :
    |Asr.fcTol (eighR (Asr.sqFc fc rel)).1 + (eighR (Asr.sqFc fc rel)).1 s| ≤ (1 + 1 / 10 ^ 8) * √(2 * violation fc / n) := by
  set sq := Asr.sqFc fc rel with hsq
  have h1 : ∀ s, ∑ k, ‖(((eighR sq).2 s k : ℝ) : ℂ)‖ ^ 2 = 1 := by
    intro s
    simp only [Complex.norm_real, Real.norm_eq_abs, sq_abs]
    have := hortho s s
    rw [if_pos rfl] at this
    rw [← this]
    exact Finset.sum_congr rfl fun k _ => pow_two _
  have hN : 0 < N := c0.pos
  have hb : |(eighR sq).1 s| ≤ √(2 * violation fc / n) := by
    refine (selected_bound (Nat.mul_pos hN hn) _ (fun k l => ((sq k l : ℝ) : ℂ)) (eighR sq).1 _ (fun s k => ?_) h1 hac
      (sq_violation hd hs hrel h0) s hsm).trans (le_of_eq ?_)
    · have := congrArg (fun x : ℝ => (x : ℂ)) (heig s k)
      push_cast at this
      exact this
    · congr 1
      have : (N : ℝ) ≠ 0 := by exact_mod_cast hN.ne'
      push_cast
      rw [show 2 * (N * violation fc) = N * (2 * violation fc) by ring, mul_div_mul_left _ _ this]
  refine (abs_add_le _ _).trans ?_
  rw [abs_of_nonneg (Asr.fcTol_bounds _).1]
  have e4 := (Asr.fcTol_bounds (eighR sq).1).2 s
  linarith

/-- **C175.** If the acoustic modes that are found are the same in all cells, the square of no frequency changes by more than
`3 (1 + 10^-8) √(6 V) / m`, with `m` the smallest mass, at any wavevector, whatever the numbers of atoms and cells, and no frequency by
more than the square root of twice this. -/
theorem C175_frequencies (cv : M3 ℝ) (r : Fin n → V3 ℝ) (images : List (V3 ℤ)) (hnd : images.Nodup)
    (hc : Complete cv r cells c0 S images) (hv : cellVolume (scVecs S cv) ≠ 0)
    (mass : Fin n → ℝ) (m0 : ℝ) (hm0 : 0 < m0) (hm : ∀ i, m0 ≤ mass i)
    {eighR : (Fin N × Fin (n * 3) → Fin N × Fin (n * 3) → ℝ) → (Fin M → ℝ) × (Fin M → Fin N × Fin (n * 3) → ℝ)}
    (hortho : ∀ s s', ∑ k, (eighR (Asr.sqFc fc rel)).2 s k * (eighR (Asr.sqFc fc rel)).2 s' k = if s = s' then 1 else 0)
    (heig : ∀ s k, ∑ l, Asr.sqFc fc rel k l * (eighR (Asr.sqFc fc rel)).2 s l =
      (eighR (Asr.sqFc fc rel)).1 s * (eighR (Asr.sqFc fc rel)).2 s k) (ac : List (Fin M))
    (hac : Asr.acoustic (N * n) (fun k : Fin N × Fin (n * 3) => k.2.modNat)
      (fun s k => (((eighR (Asr.sqFc fc rel)).2 s k : ℝ) : ℂ)) = some ac)
    (hcell : ∀ s ∈ ac, ∀ c k, (eighR (Asr.sqFc fc rel)).2 s (c, k) = (eighR (Asr.sqFc fc rel)).2 s (c0, k))
    (junk junk' : Fin N → Mat n ℝ) (q : V3 ℝ) {dip loto : Option (Mat n ℂ)} (h2 : HermOpt dip) (h3 : HermOpt loto)
    {eigh : Mat n ℂ → (Fin (n * 3) → ℝ) × Mat n ℂ} (he : IsEigh eigh) (s : Fin (n * 3)) :
    let x := (eigh (DynMat.weighted (massWeighting mass) (fcDynMat cv r cells c0 S images fc junk q) dip none loto)).1 s
    let x' := (eigh (DynMat.weighted (massWeighting mass)
      (fcDynMat cv r cells c0 S images (Asr.enforceRealspace c0 fc rel eighR) junk' q) dip none loto)).1 s
    |x - x'| ≤ 3 * (1 + 1 / 10 ^ 8) * √(6 * violation fc) / m0 ∧
    |freqOf x - freqOf x'| ≤ √(2 * (3 * (1 + 1 / 10 ^ 8) * √(6 * violation fc) / m0)) := by
  have hn : 0 < n := by
    rcases Nat.eq_zero_or_pos n with rfl | h
    · exact absurd s.isLt (by omega)
    · exact h
  have hcol := (Asr.C48_square_matrix S cells hd fc op t hs rel hrel c0 h0).2
  have hsel := selected_real hd hs hrel h0 hn hortho heig hac
  obtain ⟨hlen, -, -, -⟩ := Asr.C48_selection _ _ _ _ hac
  set sq := Asr.sqFc fc rel with hsq
  set w := (eighR sq).2 with hw
  have hfc : ∀ c k l, Asr.enforceRealspace c0 fc rel eighR c k l = fc c k l -
      (ac.map fun s => (Asr.fcTol (eighR sq).1 + (eighR sq).1 s) * (w s (c, k) * w s (c0, l))).sum := by
    intro c k l
    unfold Asr.enforceRealspace
    rw [hac]
    dsimp only
    unfold Asr.realCorrected
    rw [← hsq, hcol]
  have hs' : Symmetric cells S (Asr.enforceRealspace c0 fc rel eighR) op t :=
    ⟨hs.invol, hs.origin, fun c k l => by
      rw [hfc, hfc, hs.exchange]
      congr 2
      refine List.map_congr_left fun s hsm => ?_
      rw [hcell s hsm c, hcell s hsm (op c)]
      ring⟩
  refine C133_force_constants cv r cells c0 S mass images hnd hc hv h0 hs hs' junk junk' q h2 (by simp [HermOpt]) h3 _ (fun k => ?_) he s
  have hb : ∑ x : Fin N × Fin (n * 3), |(ac.map fun s => (Asr.fcTol (eighR sq).1 + (eighR sq).1 s) *
      (w s (x.1, k) * w s (c0, x.2))).sum| ≤ ac.length * ((1 + 1 / 10 ^ 8) * √(2 * violation fc / n) * √(3 * n)) := by
    refine list_sum_bound ac _ _ fun s hsm => ?_
    simp only [abs_mul (Asr.fcTol _ + _), ← Finset.mul_sum]
    refine mul_le_mul (hsel s hsm) ?_ (Finset.sum_nonneg fun _ _ => abs_nonneg _) (by positivity)
    rw [Fintype.sum_prod_type]
    refine mode_rows ?_ c0 (hcell s hsm) k
    have := hortho s s
    rw [if_pos rfl] at this
    rw [← this]
    exact Finset.sum_congr rfl fun k _ => pow_two _
  have hsqrt : √(2 * violation fc / n) * √(3 * n) = √(6 * violation fc) := by
    rw [← Real.sqrt_mul' _ (by positivity)]
    congr 1
    have : (n : ℝ) ≠ 0 := by exact_mod_cast hn.ne'
    field_simp
    ring
  rw [hlen, mul_assoc, hsqrt, Fintype.sum_prod_type, Finset.sum_comm] at hb
  calc ∑ l, (∑ c, |fc c k l - Asr.enforceRealspace c0 fc rel eighR c k l|) * massWeighting mass k l
      ≤ ∑ l, (∑ c, |fc c k l - Asr.enforceRealspace c0 fc rel eighR c k l|) * (1 / m0) :=
        Finset.sum_le_sum fun l _ => mul_le_mul_of_nonneg_left (massWeighting_le mass m0 hm0 hm k l)
          (Finset.sum_nonneg fun _ _ => abs_nonneg _)
    _ = (∑ l, ∑ c, |fc c k l - Asr.enforceRealspace c0 fc rel eighR c k l|) / m0 := by
        rw [← Finset.sum_mul, mul_one_div]
    _ ≤ _ := by
        refine div_le_div_of_nonneg_right ?_ hm0.le
        simp only [hfc, sub_sub_cancel]
        refine hb.trans (le_of_eq ?_)
        push_cast
        ring

/-- **C175.** Force constants that obey the sum rule are not changed by `asr='realspace'`: all results are those without correction. -/
theorem C175_unchanged (ht : TranslationInvariant fc)
    {eighR : (Fin N × Fin (n * 3) → Fin N × Fin (n * 3) → ℝ) → (Fin M → ℝ) × (Fin M → Fin N × Fin (n * 3) → ℝ)}
    (hortho : ∀ s s', ∑ k, (eighR (Asr.sqFc fc rel)).2 s k * (eighR (Asr.sqFc fc rel)).2 s' k = if s = s' then 1 else 0)
    (heig : ∀ s k, ∑ l, Asr.sqFc fc rel k l * (eighR (Asr.sqFc fc rel)).2 s l =
      (eighR (Asr.sqFc fc rel)).1 s * (eighR (Asr.sqFc fc rel)).2 s k) :
    Asr.enforceRealspace c0 fc rel eighR = fc := by
  funext c k l
  have h := C175_realspace hd hs hrel h0 hortho heig c k l
  rw [violation_zero ht, mul_zero, zero_div, Real.sqrt_zero, mul_zero] at h
  exact sub_eq_zero.1 (abs_nonpos_iff.1 h)

end

/-! ## In reciprocal space -/

theorem mapIdx_bound {α : Type} (l : List α) (f : Nat → α → ℂ) (B : Nat → ℝ) (h : ∀ i, ∀ a ∈ l, ‖f i a‖ ≤ B i) :
    ‖(l.mapIdx f).sum‖ ≤ ((List.range l.length).map B).sum := by
  induction l generalizing f B with
  | nil => simp
  | cons a l ih =>
    rw [List.mapIdx_cons, List.sum_cons, List.length_cons, List.range_succ_eq_map, List.map_cons, List.sum_cons, List.map_map]
    exact (norm_add_le _ _).trans (add_le_add (h 0 a List.mem_cons_self)
      (ih _ _ fun i x hx => h (i + 1) x (List.mem_cons_of_mem _ hx)))

/-- **C175.** With `asr='reciprocal'` no element of the correction is larger than `1.5 * 10^-14 + 3 √(2 V / n)` (atomic units), with
`n` atoms per cell and `V` the sum of the squares of the forces for uniform displacements, from the dynamical matrix `G` at the gamma
point with or without dipole correction. -/
theorem C175_reciprocal (G : Mat n ℂ) (hG : ∀ k l, G l k = star (G k l))
    {eigh : Mat n ℂ → (Fin (n * 3) → ℝ) × Mat n ℂ} (he : IsEigh eigh) (corr : Mat n ℂ)
    (hc : Asr.enforceReciprocal n (fun k => k.modNat) (eigh G).1 (eigh G).2 = some corr) (k l : Fin (n * 3)) :
    ‖corr k l‖ ≤ 15 / 10 ^ 15 + 3 * √(2 * (∑ b : Fin 3, ∑ k, ‖∑ l, if l.modNat = b then G k l else 0‖ ^ 2) / n) := by
  have hn : 0 < n := by
    rcases Nat.eq_zero_or_pos n with rfl | h
    · exact absurd k.isLt (by omega)
    · exact h
  set V := ∑ b : Fin 3, ∑ k, ‖∑ l, if l.modNat = b then G k l else 0‖ ^ 2 with hVdef
  have hV : ∑ b : Fin 3, ∑ l, ‖∑ k : Fin (n * 3), if (k.modNat : Fin 3) = b then G k l else 0‖ ^ 2 = V := by
    refine Finset.sum_congr rfl fun b _ => Finset.sum_congr rfl fun l _ => ?_
    rw [← norm_star, star_sum]
    congr 2
    refine Finset.sum_congr rfl fun k _ => ?_
    split
    · rw [hG k l]
    · simp
  have h1 : ∀ s, ∑ k, ‖(eigh G).2 s k‖ ^ 2 = 1 := by
    intro s
    have := he.ortho G hG s s
    rw [if_pos rfl] at this
    have h2 : ((∑ k, ‖(eigh G).2 s k‖ ^ 2 : ℝ) : ℂ) = 1 := by
      rw [← this]
      push_cast
      refine Finset.sum_congr rfl fun k _ => ?_
      rw [Complex.star_def, Complex.conj_mul']
    exact_mod_cast h2
  unfold Asr.enforceReciprocal at hc
  cases hac : Asr.acoustic n (fun k : Fin (n * 3) => k.modNat) (eigh G).2 with
  | none => rw [hac] at hc; simp at hc
  | some ac =>
    rw [hac] at hc
    simp only [Option.map_some, Option.some.injEq] at hc
    subst hc
    obtain ⟨hlen, -, -, -⟩ := Asr.C48_selection _ _ _ _ hac
    unfold Asr.recipCorrection
    rw [norm_neg]
    refine (mapIdx_bound ac _ (fun i => Asr.recipTol * i + √(2 * V / n)) fun i s hs => ?_).trans (le_of_eq ?_)
    · rw [norm_mul, norm_mul, Complex.norm_real, Real.norm_eq_abs]
      have e2 : ‖(eigh G).2 s k‖ * ‖(eigh G).2 s l‖ ≤ 1 :=
        mul_le_one₀ (entry_le_one _ (h1 s) _) (norm_nonneg _) (entry_le_one _ (h1 s) _)
      refine (mul_le_of_le_one_right (abs_nonneg _) e2).trans ((abs_add_le _ _).trans ?_)
      have e3 : 0 ≤ Asr.recipTol * (i : ℝ) := mul_nonneg (by unfold Asr.recipTol; norm_num) (Nat.cast_nonneg _)
      rw [abs_of_nonneg e3]
      exact add_le_add le_rfl (selected_bound hn _ G _ _ (he.eigen G hG) h1 hac hV s hs)
    · rw [hlen]
      simp only [List.range_succ, List.range_zero, List.nil_append, List.map_append, List.map_cons, List.map_nil, List.sum_append,
        List.sum_cons, List.sum_nil, Asr.recipTol]
      push_cast
      ring

/-- **C175.** For force constants without dipole correction in a reduced supercell `V` is what it is in real space; if they obey the sum
rule, no element of the correction is larger than `1.5 * 10^-14`. -/
theorem C175_reciprocal_kept (cv : M3 ℝ) (r : Fin n → V3 ℝ) (cells : Fin N → V3 ℤ) (c0 : Fin N) (S : M3 ℤ) (images : List (V3 ℤ))
    (hok : ReducedSupercell cv r cells c0 S images) {fc : Fin N → Mat n ℝ} {op : Fin N → Fin N} {t : Fin N → V3 ℤ}
    (hs : Symmetric cells S fc op t) (junk : Fin N → Mat n ℝ) {eigh : Mat n ℂ → (Fin (n * 3) → ℝ) × Mat n ℂ} (he : IsEigh eigh)
    (corr : Mat n ℂ)
    (hc : Asr.enforceReciprocal n (fun k => k.modNat) (eigh (fcDynMat cv r cells c0 S images fc junk (castV ℝ ⟨0, 0, 0⟩))).1
      (eigh (fcDynMat cv r cells c0 S images fc junk (castV ℝ ⟨0, 0, 0⟩))).2 = some corr) :
    (∀ k l, ‖corr k l‖ ≤ 15 / 10 ^ 15 + 3 * √(2 * violation fc / n)) ∧
    (TranslationInvariant fc → ∀ k l, ‖corr k l‖ ≤ 15 / 10 ^ 15) := by
  have hG := gamma_hermitian cv r cells c0 S images hok hs junk ⟨0, 0, 0⟩
  have h1 : ∀ k l, ‖corr k l‖ ≤ 15 / 10 ^ 15 + 3 * √(2 * violation fc / n) := by
    intro k l
    refine (C175_reciprocal _ hG he corr hc k l).trans (le_of_eq ?_)
    congr 5
    refine Finset.sum_congr rfl fun b _ => Finset.sum_congr rfl fun k _ => ?_
    rw [← sq_abs (∑ c, ∑ l, _), ← Real.norm_eq_abs, ← Complex.norm_real]
    congr 2
    push_cast
    rw [Finset.sum_comm]
    refine Finset.sum_congr rfl fun l _ => ?_
    split
    · rw [fcDynMat_gamma cv r cells c0 S images hok]
    · simp
  refine ⟨h1, fun ht k l => ?_⟩
  have := h1 k l
  rwa [violation_zero ht, mul_zero, zero_div, Real.sqrt_zero, mul_zero, add_zero] at this

/-! ## Cases -/

namespace Ex

open Euphonic.DynMat.Ex

/-- The modes of the chain of two cells tied to each other. -/
noncomputable def evals (s : Fin (2 * 3)) : ℝ := ![0, 4] s.divNat

theorem eigen (s : Fin (2 * 3)) (k : Fin 2 × Fin (1 * 3)) :
    ∑ l, Asr.sqFc Chain.fc Chain.rel k l * RealSpace.evecs s l = evals s * RealSpace.evecs s k := by
  obtain ⟨c, k⟩ := k
  rw [Fintype.sum_prod_type, Fin.sum_univ_two]
  simp only [RealSpace.evecs, evals, Asr.sqFc, Chain.fc]
  generalize s.divNat = i
  generalize s.modNat = a
  by_cases hka : k = a
  · subst hka
    fin_cases i <;> fin_cases c <;> simp [Chain.rel] <;> ring
  · simp [hka, Ne.symm hka]

/-- The chain obeys the sum rule; three acoustic modes are found and the force constants stay as they are. -/
example : Asr.enforceRealspace 0 Chain.fc Chain.rel (fun _ => (evals, RealSpace.evecs)) = Chain.fc ∧
    (Asr.acoustic (2 * 1) (fun k : Fin 2 × Fin (1 * 3) => (k.2.modNat : Fin 3))
      (fun s k => ((RealSpace.evecs s k : ℝ) : ℂ))).isSome :=
  ⟨C175_unchanged Chain.distinct Chain.symmetric Chain.translation rfl Chain.invariant
    (eighR := fun _ => (evals, RealSpace.evecs)) RealSpace.ortho eigen, by
    obtain ⟨ac, hac, -⟩ := RealSpace.found
    rw [hac]
    rfl⟩

theorem violation_chain : violation RealSpace.fc = 12 := by
  unfold violation
  have e : ∀ (b : Fin 3) (k : Fin (1 * 3)), (∑ c, ∑ l, if l.modNat = b then RealSpace.fc c k l else 0) =
      if k.modNat = b then 2 else 0 := by
    intro b k
    rw [Fin.sum_univ_two, ← Finset.sum_add_distrib, Finset.sum_eq_single k]
    · by_cases hb : k.modNat = b
      · simp [hb, RealSpace.fc]
        norm_num
      · simp [hb]
    · intro l _ hl
      simp [RealSpace.fc, Ne.symm hl]
    · simp
  simp only [e, ite_pow]
  rw [Finset.sum_comm]
  simp
  norm_num

/-- The chain that violates the sum rule: the violation is 12, so nothing changes by more than 15. -/
example (c : Fin 2) (k l : Fin (1 * 3)) :
    |Asr.enforceRealspace 0 RealSpace.fc Chain.rel (fun _ => (RealSpace.evals, RealSpace.evecs)) c k l - RealSpace.fc c k l| ≤ 15 := by
  have h := C175_realspace Chain.distinct RealSpace.symmetric Chain.translation (c0 := 0) rfl
    (eighR := fun _ => (RealSpace.evals, RealSpace.evecs)) RealSpace.ortho RealSpace.eigen c k l
  rw [violation_chain] at h
  have h5 : √(2 * 12 / ((1 : ℕ) : ℝ)) ≤ 49 / 10 := by
    rw [Real.sqrt_le_left (by norm_num)]
    norm_num
  refine h.trans ?_
  norm_num at h5 ⊢
  linarith

/-- The frequencies of this chain with atoms of mass 10^4: no square changes by more than 0.003 at any wavevector. -/
example : ∃ images, imageShells 2 = .ok images ∧ ∀ (q : V3 ℝ) (eigh : Mat 1 ℂ → (Fin (1 * 3) → ℝ) × Mat 1 ℂ), IsEigh eigh → ∀ s,
    |(eigh (DynMat.weighted (massWeighting fun _ => 10 ^ 4) (fcDynMat cv r cells 0 S images RealSpace.fc
      (fun _ _ _ => 0) q) none none none)).1 s - (eigh (DynMat.weighted (massWeighting fun _ => 10 ^ 4)
        (fcDynMat cv r cells 0 S images (Asr.enforceRealspace 0 RealSpace.fc Chain.rel fun _ => (RealSpace.evals, RealSpace.evecs))
          (fun _ _ _ => 0) q) none none none)).1 s| ≤ 3 / 1000 := by
  obtain ⟨ims, h1, h2, h3, -⟩ := C42_image_origins 2 S
  refine ⟨ims, h1, fun q eigh he s => ?_⟩
  obtain ⟨ac, hac, hcell⟩ := RealSpace.found
  have h := (C175_frequencies Chain.distinct RealSpace.symmetric Chain.translation (c0 := 0) rfl cv r ims h2
    (DynMat.Ex.complete ims fun v hx hy hz => (h3 v).2 ⟨by exact_mod_cast hx, by exact_mod_cast hy, by exact_mod_cast hz⟩)
    DynMat.Ex.volume (fun _ => 10 ^ 4) (10 ^ 4) (by norm_num) (fun _ => le_rfl)
    (eighR := fun _ => (RealSpace.evals, RealSpace.evecs)) RealSpace.ortho RealSpace.eigen ac hac hcell (fun _ _ _ => 0) (fun _ _ _ => 0) q
    (dip := none) (loto := none) (by simp [HermOpt]) (by simp [HermOpt]) he s).1
  refine h.trans ?_
  rw [violation_chain]
  have h5 : √(6 * 12 : ℝ) ≤ 17 / 2 := by
    rw [Real.sqrt_le_left (by norm_num)]
    norm_num
  norm_num at h5 ⊢
  linarith

/-- With one atom in the cell the acoustic modes are always found: the correction of the chain in reciprocal space is at most
`1.5 * 10^-14`, whichever eigenvectors of the zero matrix are taken. -/
example (junk : Fin 2 → Mat 1 ℝ) {eigh : Mat 1 ℂ → (Fin (1 * 3) → ℝ) × Mat 1 ℂ} (he : IsEigh eigh) :
    ∃ corr, Asr.enforceReciprocal 1 (fun k => k.modNat) (eigh (fcDynMat cv r cells 0 S shells2 Chain.fc junk (castV ℝ ⟨0, 0, 0⟩))).1
      (eigh (fcDynMat cv r cells 0 S shells2 Chain.fc junk (castV ℝ ⟨0, 0, 0⟩))).2 = some corr ∧ ∀ k l, ‖corr k l‖ ≤ 15 / 10 ^ 15 := by
  have hG := gamma_hermitian cv r cells 0 S shells2 Chain.ok Chain.symmetric junk ⟨0, 0, 0⟩
  have hcom : ∀ s, Asr.comSq (fun k : Fin (1 * 3) => (k.modNat : Fin 3))
      ((eigh (fcDynMat cv r cells 0 S shells2 Chain.fc junk (castV ℝ ⟨0, 0, 0⟩))).2 s) = 1 := by
    intro s
    have h1 := he.ortho _ hG s s
    rw [if_pos rfl] at h1
    set e := (eigh (fcDynMat cv r cells 0 S shells2 Chain.fc junk (castV ℝ ⟨0, 0, 0⟩))).2 s
    have h2 : ((Asr.comSq (fun k : Fin (1 * 3) => (k.modNat : Fin 3)) e : ℝ) : ℂ) = 1 := by
      rw [← h1]
      unfold Asr.comSq
      push_cast
      refine Finset.sum_congr rfl fun d _ => ?_
      rw [Complex.star_def, Complex.conj_mul']
      congr 3
      refine (Finset.sum_eq_single (d : Fin (1 * 3)) (fun k _ hk => ?_) (by simp)).trans ?_
      · rw [if_neg]
        intro h
        apply hk
        revert h
        revert k d
        decide
      · rw [if_pos]
        revert d
        decide
    exact_mod_cast h2
  obtain ⟨ac, hac⟩ : ∃ ac, Asr.acoustic 1 (fun k : Fin (1 * 3) => (k.modNat : Fin 3))
      (eigh (fcDynMat cv r cells 0 S shells2 Chain.fc junk (castV ℝ ⟨0, 0, 0⟩))).2 = some ac := by
    unfold Asr.acoustic
    simp only [hcom]
    norm_num
  obtain ⟨corr, hc⟩ : ∃ corr, Asr.enforceReciprocal 1 (fun k => k.modNat)
      (eigh (fcDynMat cv r cells 0 S shells2 Chain.fc junk (castV ℝ ⟨0, 0, 0⟩))).1
      (eigh (fcDynMat cv r cells 0 S shells2 Chain.fc junk (castV ℝ ⟨0, 0, 0⟩))).2 = some corr := by
    unfold Asr.enforceReciprocal
    rw [hac]
    exact ⟨_, rfl⟩
  exact ⟨corr, hc, (C175_reciprocal_kept cv r cells 0 S shells2 Chain.ok Chain.symmetric junk he _ hc).2 Chain.invariant⟩

end Ex

end Euphonic.SumRuleKept
