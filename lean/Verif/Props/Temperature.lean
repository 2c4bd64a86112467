import Verif.Props.Scatter

/-!
# How results depend on temperature (C134)

Population factors and Debye-Waller exponents grow with temperature, tend to what is returned for zero temperature (which the code
treats separately) and to the classical values at high temperature.
-/

set_option autoImplicit false
set_option linter.unusedSectionVars false

namespace Euphonic.Scatter

open Filter Topology
open scoped ComplexConjugate

/-! ## Population factors -/

/-- Population factor with the real exponential. -/
noncomputable def bose (kB T f : ℝ) : ℝ := Dos.boseFactor Real.exp kB T f

theorem bose_of_pos {kB T f : ℝ} (hT : 0 < T) : bose kB T f = 1 / (Real.exp (|f| / (kB * T)) - 1) := by
  unfold bose Dos.boseFactor
  rw [if_pos hT]

theorem bose_of_not_pos {kB T f : ℝ} (hT : ¬ 0 < T) : bose kB T f = 0 := by
  unfold bose Dos.boseFactor
  rw [if_neg hT]

/-- **C134** Population factors are positive above zero temperature and grow with temperature. -/
theorem C134_bose_mono {kB T T' f : ℝ} (hk : 0 < kB) (hf : f ≠ 0) (h : T ≤ T') :
    0 ≤ bose kB T f ∧ bose kB T f ≤ bose kB T' f ∧ (0 < T' → T < T' → bose kB T f < bose kB T' f) := by
  have hf' : 0 < |f| := abs_pos.2 hf
  have hpos : ∀ t, 0 < t → 0 < Real.exp (|f| / (kB * t)) - 1 := by
    intro t ht
    have : 0 < |f| / (kB * t) := by positivity
    linarith [Real.add_one_lt_exp this.ne']
  have hnn : ∀ t, 0 ≤ bose kB t f := by
    intro t
    by_cases ht : 0 < t
    · rw [bose_of_pos ht]; exact (one_div_pos.2 (hpos t ht)).le
    · rw [bose_of_not_pos ht]
  have hlt : 0 < T' → T < T' → bose kB T f < bose kB T' f := by
    intro h' hlt
    rw [bose_of_pos h']
    by_cases ht : 0 < T
    · rw [bose_of_pos ht]
      apply one_div_lt_one_div_of_lt (hpos T' h')
      have : |f| / (kB * T') < |f| / (kB * T) := by
        apply div_lt_div_of_pos_left hf' (by positivity)
        exact mul_lt_mul_of_pos_left hlt hk
      linarith [Real.exp_lt_exp.2 this]
    · rw [bose_of_not_pos ht]; exact one_div_pos.2 (hpos T' h')
  refine ⟨hnn T, ?_, hlt⟩
  rcases h.eq_or_lt with rfl | h2
  · exact le_rfl
  · by_cases h' : 0 < T'
    · exact (hlt h' h2).le
    · rw [bose_of_not_pos h', bose_of_not_pos (fun h3 => h' (h3.trans h2))]

/-- **C134** The population factor tends to zero, the value for zero temperature, as the temperature goes to zero. -/
theorem C134_bose_zero {kB f : ℝ} (hk : 0 < kB) (hf : f ≠ 0) :
    Tendsto (fun T => bose kB T f) (𝓝[>] 0) (𝓝 (bose kB 0 f)) := by
  rw [bose_of_not_pos (lt_irrefl 0)]
  have hf' : 0 < |f| := abs_pos.2 hf
  have h1 : Tendsto (fun T : ℝ => |f| / (kB * T)) (𝓝[>] 0) atTop := by
    have : (fun T : ℝ => |f| / (kB * T)) = fun T => |f| / kB * T⁻¹ := by
      funext T
      rw [div_mul_eq_div_div, div_eq_mul_inv (|f| / kB)]
    rw [this]
    exact tendsto_inv_nhdsGT_zero.const_mul_atTop (by positivity)
  have h2 : Tendsto (fun T : ℝ => 1 / (Real.exp (|f| / (kB * T)) - 1)) (𝓝[>] 0) (𝓝 0) := by
    simp only [one_div]
    exact tendsto_inv_atTop_zero.comp (tendsto_atTop_add_const_right _ (-1) (Real.tendsto_exp_atTop.comp h1))
  refine h2.congr' ?_
  filter_upwards [self_mem_nhdsWithin] with T hT
  exact (bose_of_pos hT).symm

/-- **C134** At high temperature the energy of a mode, population times frequency, is `kB T` (equipartition). -/
theorem C134_bose_classical {kB f : ℝ} (hk : 0 < kB) (hf : f ≠ 0) :
    Tendsto (fun T => bose kB T f * |f| / (kB * T)) atTop (𝓝 1) := by
  have hf' : 0 < |f| := abs_pos.2 hf
  have h1 : Tendsto (fun T : ℝ => |f| / (kB * T)) atTop (𝓝[≠] 0) := by
    rw [tendsto_nhdsWithin_iff]
    constructor
    · exact Tendsto.const_div_atTop (tendsto_id.const_mul_atTop hk) _
    · filter_upwards [eventually_gt_atTop 0] with T hT
      have : 0 < |f| / (kB * T) := by positivity
      exact this.ne'
  have h2 : Tendsto (fun x : ℝ => (Real.exp x - 1) / x) (𝓝[≠] 0) (𝓝 1) := by
    have := (Real.hasDerivAt_exp 0).tendsto_slope
    rw [Real.exp_zero] at this
    refine this.congr fun x => ?_
    rw [slope_def_field, Real.exp_zero, sub_zero]
  have h3 := (h2.inv₀ one_ne_zero).comp h1
  rw [inv_one] at h3
  refine h3.congr' ?_
  filter_upwards [eventually_gt_atTop 0] with T hT
  rw [bose_of_pos hT, Function.comp_apply, inv_div]
  rw [div_mul_eq_mul_div, one_mul, div_div, div_div, mul_comm (Real.exp _ - 1)]

/-! ## Debye-Waller exponents -/

/-- The factor of a mode in the exponent: `(2n + 1)/f` with the population factor of the same temperature. -/
theorem freqTerm_eq (kB T fmin f : ℝ) (hk : 0 < kB) (hf : 0 < f) :
    freqTerm kB T fmin f = (1 + 2 * bose kB T f) / f * (if f < fmin then 0 else 1) := by
  unfold freqTerm
  congr 1
  by_cases hT : 0 < T
  · rw [if_pos hT, bose_of_pos hT, abs_of_pos hf]
    set x := f / (2 * kB * T) with hx
    have e : f / (kB * T) = x + x := by rw [hx]; field_simp; ring
    have hx0 : 0 < x := by positivity
    have h1 : 1 < Real.exp x := Real.one_lt_exp_iff.2 hx0
    rw [e, Real.exp_add, Real.tanh_eq, Real.exp_neg]
    have h2 : Real.exp x * Real.exp x - 1 ≠ 0 := by nlinarith
    have h3 : Real.exp x ≠ 0 := (Real.exp_pos x).ne'
    have h4 : Real.exp x ^ 2 - 1 ≠ 0 := by nlinarith
    field_simp
    ring
  · rw [if_neg hT, bose_of_not_pos hT]
    ring

variable {na : Nat} {C : Cryst na} {nq nm : Nat}

/-- Exponents that are combinations of the factors of the modes with coefficients independent of the temperature. -/
def Rep (m : Modes C nq nm) (kB fmin : ℝ) (W : ℝ → Fin na → Fin 3 → Fin 3 → ℝ) : Prop :=
  ∃ coef : Fin na → Fin nq → Fin nm → Fin 3 → Fin 3 → ℝ, (∀ k q b, SymPSD (coef k q b)) ∧
    ∀ T k i j, W T k i j = ∑ q, ∑ b, coef k q b i j * freqTerm kB T fmin (m.freqs q b)

theorem rep_raw (chunk : Nat) (hc : 0 < chunk) (m : Modes C nq nm) (kB fmin : ℝ) (hM : ∀ k, 0 < C.mass k)
    (hw : ∀ q, 0 ≤ m.weights q) : Rep m kB fmin fun T => dwRaw chunk m kB T fmin := by
  refine ⟨fun k q b i j => m.weights q * (1 / (4 * C.mass k)) * (m.evecs q b k i * conj (m.evecs q b k j)).re / ∑ q, m.weights q,
    fun k q b => ?_, fun T k i j => ?_⟩
  · refine symPSD_div _ ⟨fun i j => ?_, fun x => ?_⟩ _ (Finset.sum_nonneg fun q _ => hw q)
    · congr 1
      simp only [Complex.mul_re, Complex.conj_re, Complex.conj_im]
      ring
    · have : ∑ i, ∑ j, x i * (m.weights q * (1 / (4 * C.mass k)) * (m.evecs q b k i * conj (m.evecs q b k j)).re) * x j =
          m.weights q * (1 / (4 * C.mass k)) * ∑ i, ∑ j, x i * (m.evecs q b k i * conj (m.evecs q b k j)).re * x j := by
        simp only [Finset.mul_sum]
        exact Finset.sum_congr rfl fun i _ => Finset.sum_congr rfl fun j _ => by ring
      rw [this, quad_re]
      have := hM k
      have := hw q
      have := Complex.normSq_nonneg (∑ i, (x i : ℂ) * m.evecs q b k i)
      positivity
  · simp only [dwRaw, C28_chunking_irrelevant chunk hc, ← Fin.sum_univ_def, dwContribution, Finset.sum_div]
    exact Finset.sum_congr rfl fun q _ => Finset.sum_congr rfl fun b _ => by ring

theorem rep_calculate (chunk : Nat) (hc : 0 < chunk) (m : Modes C nq nm) (kB fmin : ℝ) (hM : ∀ k, 0 < C.mass k)
    (hw : ∀ q, 0 ≤ m.weights q) (sym : Option (List (SymOp na))) :
    Rep m kB fmin fun T => (calculateDebyeWaller chunk m kB T fmin sym).w := by
  have hraw := rep_raw chunk hc m kB fmin hM hw
  cases sym with
  | none => exact hraw
  | some ops =>
    have key : ∀ (ops : List (SymOp na)) (acc : ℝ → Fin na → Fin 3 → Fin 3 → ℝ), Rep m kB fmin acc →
        Rep m kB fmin fun T => ops.foldl (fun acc s => indexedAdd acc (rotate s.rot (dwRaw chunk m kB T fmin)) s.eqAtoms) (acc T) := by
      intro ops
      induction ops with
      | nil => exact fun acc h => h
      | cons s ops ih =>
        intro acc h
        simp only [List.foldl_cons]
        refine ih (fun T => indexedAdd (acc T) (rotate s.rot (dwRaw chunk m kB T fmin)) s.eqAtoms) ?_
        obtain ⟨c1, p1, e1⟩ := h
        obtain ⟨c0, p0, e0⟩ := hraw
        refine ⟨fun k q b => match (List.finRange na).reverse.find? fun k' => decide (s.eqAtoms k' = k) with
          | some k' => fun i j => c1 k q b i j + rotate s.rot (fun k => c0 k q b) k' i j
          | none => c1 k q b, fun k q b => ?_, fun T k i j => ?_⟩
        · dsimp only
          split
          · exact symPSD_add _ _ (p1 _ _ _) (symPSD_rotate _ _ _ (p0 _ _ _))
          · exact p1 _ _ _
        · unfold indexedAdd
          dsimp only
          cases hfind : (List.finRange na).reverse.find? fun k' => decide (s.eqAtoms k' = k) with
          | some k' =>
            dsimp only at e0 ⊢
            simp only [add_mul, Finset.sum_add_distrib]
            rw [e1]
            congr 1
            unfold rotate
            simp only [e0, Finset.mul_sum, Finset.sum_mul, Fin.sum_univ_three, Finset.sum_add_distrib, add_mul]
            simp only [← Finset.sum_add_distrib]
            exact Finset.sum_congr rfl fun q _ => Finset.sum_congr rfl fun b _ => by ring
          | none => exact e1 T k i j
    obtain ⟨c, p, e⟩ := key ops (fun _ _ _ _ => 0) ⟨fun _ _ _ _ _ => 0, fun _ _ _ => symPSD_zero, fun _ _ _ _ => by simp⟩
    refine ⟨fun k q b i j => c k q b i j / ops.length, fun k q b => symPSD_div _ (p k q b) _ (by positivity), fun T k i j => ?_⟩
    change (_ : ℝ) / _ = _
    have e' := e T k i j
    refine (congrArg (· / (ops.length : ℝ)) e').trans ?_
    simp only [Finset.sum_div]
    exact Finset.sum_congr rfl fun q _ => Finset.sum_congr rfl fun b _ => by ring

/-- **C134** Debye-Waller exponents grow with temperature: the difference is positive semidefinite. -/
theorem C134_exponents_grow (chunk : Nat) (hc : 0 < chunk) (m : Modes C nq nm) (kB fmin : ℝ) (hk : 0 < kB) (hmin : 0 < fmin)
    (hM : ∀ k, 0 < C.mass k) (hw : ∀ q, 0 ≤ m.weights q) (sym : Option (List (SymOp na))) {T T' : ℝ} (h : T ≤ T') (k : Fin na) :
    SymPSD fun i j => (calculateDebyeWaller chunk m kB T' fmin sym).w k i j - (calculateDebyeWaller chunk m kB T fmin sym).w k i j := by
  obtain ⟨c, p, e⟩ := rep_calculate chunk hc m kB fmin hM hw sym
  have hd : ∀ q b, 0 ≤ freqTerm kB T' fmin (m.freqs q b) - freqTerm kB T fmin (m.freqs q b) := by
    intro q b
    by_cases hf : m.freqs q b < fmin
    · simp [freqTerm, hf]
    · have hf' : 0 < m.freqs q b := hmin.trans_le (not_lt.1 hf)
      rw [freqTerm_eq kB T' fmin _ hk hf', freqTerm_eq kB T fmin _ hk hf', if_neg hf, mul_one, mul_one, ← sub_div]
      have := (C134_bose_mono (T := T) (T' := T') hk hf'.ne' h).2.1
      exact div_nonneg (by linarith) hf'.le
  have h2 : (fun i j => (calculateDebyeWaller chunk m kB T' fmin sym).w k i j - (calculateDebyeWaller chunk m kB T fmin sym).w k i j) =
      fun i j => ∑ q, ∑ b, c k q b i j * (freqTerm kB T' fmin (m.freqs q b) - freqTerm kB T fmin (m.freqs q b)) := by
    funext i j
    refine (congrArg₂ (fun a b : ℝ => a - b) (e T' k i j) (e T k i j)).trans ?_
    simp only [← Finset.sum_sub_distrib, mul_sub]
  rw [h2]
  refine symPSD_sum _ fun q => symPSD_sum _ fun b => ⟨fun i j => by dsimp only; rw [(p k q b).1 i j], fun x => ?_⟩
  have h3 : ∑ i, ∑ j, x i * (c k q b i j * (freqTerm kB T' fmin (m.freqs q b) - freqTerm kB T fmin (m.freqs q b))) * x j =
      (freqTerm kB T' fmin (m.freqs q b) - freqTerm kB T fmin (m.freqs q b)) * ∑ i, ∑ j, x i * c k q b i j * x j := by
    simp only [Finset.mul_sum]
    exact Finset.sum_congr rfl fun i _ => Finset.sum_congr rfl fun j _ => by ring
  rw [h3]
  exact mul_nonneg (hd q b) ((p k q b).2 x)

/-- **C134** The exponents for zero temperature are the limit of those for small temperatures. -/
theorem C134_exponents_zero (chunk : Nat) (hc : 0 < chunk) (m : Modes C nq nm) (kB fmin : ℝ) (hk : 0 < kB) (hmin : 0 < fmin)
    (hM : ∀ k, 0 < C.mass k) (hw : ∀ q, 0 ≤ m.weights q) (sym : Option (List (SymOp na))) (k : Fin na) (i j : Fin 3) :
    Tendsto (fun T => (calculateDebyeWaller chunk m kB T fmin sym).w k i j) (𝓝[>] 0)
      (𝓝 ((calculateDebyeWaller chunk m kB 0 fmin sym).w k i j)) := by
  obtain ⟨c, -, e⟩ := rep_calculate chunk hc m kB fmin hM hw sym
  have h2 : (fun T => (calculateDebyeWaller chunk m kB T fmin sym).w k i j) =
      fun T => ∑ q, ∑ b, c k q b i j * freqTerm kB T fmin (m.freqs q b) := funext fun T => e T k i j
  have h0 : (calculateDebyeWaller chunk m kB 0 fmin sym).w k i j = ∑ q, ∑ b, c k q b i j * freqTerm kB 0 fmin (m.freqs q b) :=
    e 0 k i j
  rw [h2, h0]
  refine tendsto_finsetSum _ fun q _ => tendsto_finsetSum _ fun b _ => Tendsto.const_mul _ ?_
  by_cases hf : m.freqs q b < fmin
  · simp [freqTerm, hf]
  · have hf' : 0 < m.freqs q b := hmin.trans_le (not_lt.1 hf)
    simp only [freqTerm_eq kB _ fmin _ hk hf']
    exact (((C134_bose_zero hk hf'.ne').const_mul 2).const_add 1).div_const _ |>.mul_const _

/-- **C134** At high temperature the exponents are half the mean square displacements of classical oscillators with energy
`kB T` in every mode. -/
theorem C134_exponents_classical (chunk : Nat) (hc : 0 < chunk) (m : Modes C nq nm) (kB fmin : ℝ) (hk : 0 < kB) (hmin : 0 < fmin)
    (hf : ∀ q b, fmin ≤ m.freqs q b) (k : Fin na) (i j : Fin 3) :
    Tendsto (fun T => (calculateDebyeWaller chunk m kB T fmin none).w k i j / T) atTop
      (𝓝 (1 / 2 * ((∑ q, ∑ b, m.weights q * (kB / (C.mass k * m.freqs q b ^ 2)) *
        (m.evecs q b k i * conj (m.evecs q b k j)).re) / ∑ q, m.weights q))) := by
  have h2 : ∀ T, (calculateDebyeWaller chunk m kB T fmin none).w k i j / T = (∑ q, ∑ b,
      m.weights q * (1 / (4 * C.mass k)) * (freqTerm kB T fmin (m.freqs q b) / T) *
        (m.evecs q b k i * conj (m.evecs q b k j)).re) / ∑ q, m.weights q := by
    intro T
    change dwRaw chunk m kB T fmin k i j / T = _
    simp only [dwRaw, C28_chunking_irrelevant chunk hc, ← Fin.sum_univ_def, dwContribution]
    rw [div_right_comm, Finset.sum_div]
    congr 1
    refine Finset.sum_congr rfl fun q _ => ?_
    rw [Finset.sum_div]
    exact Finset.sum_congr rfl fun b _ => by ring
  simp only [h2]
  rw [← mul_div_assoc, Finset.mul_sum]
  refine Tendsto.div_const (tendsto_finsetSum _ fun q _ => ?_) _
  rw [Finset.mul_sum]
  refine tendsto_finsetSum _ fun b _ => ?_
  have hf' : 0 < m.freqs q b := hmin.trans_le (hf q b)
  have h3 : Tendsto (fun T => freqTerm kB T fmin (m.freqs q b) / T) atTop (𝓝 (2 * (kB / m.freqs q b ^ 2))) := by
    have h4 := (C134_bose_classical hk hf'.ne').const_mul (2 * kB / m.freqs q b ^ 2)
    have h5 : Tendsto (fun T : ℝ => 1 / m.freqs q b / T) atTop (𝓝 0) := tendsto_const_nhds.div_atTop tendsto_id
    have h6 := h5.add h4
    rw [zero_add, mul_one] at h6
    rw [← mul_div_assoc]
    refine h6.congr' ?_
    filter_upwards [eventually_gt_atTop 0] with T hT
    rw [freqTerm_eq kB T fmin _ hk hf', if_neg (not_lt.2 (hf q b)), abs_of_pos hf']
    field_simp
  have h7 := (h3.const_mul (m.weights q * (1 / (4 * C.mass k)))).mul_const ((m.evecs q b k i * conj (m.evecs q b k j)).re)
  have e : 1 / 2 * (m.weights q * (kB / (C.mass k * m.freqs q b ^ 2)) * (m.evecs q b k i * conj (m.evecs q b k j)).re) =
      m.weights q * (1 / (4 * C.mass k)) * (2 * (kB / m.freqs q b ^ 2)) * (m.evecs q b k i * conj (m.evecs q b k j)).re := by
    by_cases hm : C.mass k = 0
    · simp [hm]
    · field_simp
      ring
  rw [e]
  exact h7

/-! ### A case meeting the hypotheses -/

/-- The exponents of the crystal of two atoms grow from zero temperature to 300 K, where the mode is populated. -/
example (kB : ℝ) (hk : 0 < kB) : (∀ k : Fin 2, SymPSD fun i j =>
    (calculateDebyeWaller 1000 exM kB 300 (1 / 100) none).w k i j - (calculateDebyeWaller 1000 exM kB 0 (1 / 100) none).w k i j) ∧
    bose kB 0 (exM.freqs 0 0) < bose kB 300 (exM.freqs 0 0) ∧ 1 / 100 ≤ exM.freqs 0 0 := by
  refine ⟨fun k => C134_exponents_grow 1000 (by norm_num) exM kB (1 / 100) hk (by norm_num) (fun _ => zero_lt_one) (fun _ => zero_le_one)
    none (T := 0) (T' := 300) (by norm_num) k, (C134_bose_mono (T := 0) (T' := 300) hk (by simp [exM]) (by norm_num)).2.2 (by norm_num) (by norm_num), by norm_num [exM]⟩

end Euphonic.Scatter
