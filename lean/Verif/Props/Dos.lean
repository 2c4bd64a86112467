import Verif.Lemmas.Dos
import Verif.Lemmas.Group

/-! # Properties C20-C23: density of states -/

set_option autoImplicit false
set_option linter.unusedSectionVars false

namespace Euphonic.Dos

variable {K : Type} [Field K] [LinearOrder K] [IsStrictOrderedRing K]

/-! ## Specification -/

/-- Energy `f` lies in bin `i`: `edge[i] ≤ f < edge[i+1]`. -/
def InBin (b : List K) (i : Nat) (f : K) : Prop := b.getD i 0 ≤ f ∧ f < b.getD (i + 1) 0

instance (b : List K) (i : Nat) (f : K) : Decidable (InBin b i f) := by
  unfold InBin; infer_instance

/-- Energy `f` lies in the range of the bins: first edge `≤ f <` last edge. -/
def InRange (b : List K) (f : K) : Prop := b.getD 0 0 ≤ f ∧ f < b.getD (b.length - 1) 0

instance (b : List K) (f : K) : Decidable (InRange b f) := by
  unfold InRange; infer_instance

/-- Sum of `v q m` over the modes whose energy (in the unit of the bins) lies in bin `i`. -/
def binTotal (b : List K) (c : K) {nq nm : Nat} (freqs v : Fin nq → Fin nm → K) (i : Nat) : K :=
  ∑ q, ∑ m, if InBin b i (freqs q m / c) then v q m else 0

/-! ## Auxiliary facts -/

theorem inBin_scale (b : List K) (c : K) (hc : 0 < c) (i : Nat) (f : K) :
    ((b.map (· * c)).getD i 0 ≤ f ∧ f < (b.map (· * c)).getD (i + 1) 0) ↔ InBin b i (f / c) := by
  rw [getD_scale, getD_scale, InBin, le_div_iff₀ hc, div_lt_iff₀ hc]

theorem calculateDos_mw (c : K) (hc : 0 < c) (b : List K) (hs : b.Pairwise (· ≤ ·)) {nq nm : Nat}
    (freqs : Fin nq → Fin nm → K) (w : Fin nq → K) (mw : Fin nq → Fin nm → K) :
    calculateDos_ c b freqs w (some mw) = .ok ((List.range (b.length - 1)).map fun i =>
      binTotal b c freqs (fun q m => w q * mw q m) i / (b.getD (i + 1) 0 - b.getD i 0) /
        ∑ q, w q) := by
  unfold calculateDos_
  simp only [bind, Except.bind, pure, Except.pure, histogram_eq _ (pairwise_scale b hs c hc),
    normalise, List.map_map, List.length_map]
  congr 1
  apply List.map_congr_left
  intro i _
  have ht : (∑ q, ∑ m, if (b.map (· * c)).getD i 0 ≤ freqs q m ∧
      freqs q m < (b.map (· * c)).getD (i + 1) 0 then w q * mw q m else 0) =
      binTotal b c freqs (fun q m => w q * mw q m) i :=
    Finset.sum_congr rfl fun q _ => Finset.sum_congr rfl fun m _ =>
      if_congr (inBin_scale b c hc i _) rfl rfl
  rw [Function.comp_apply, ht, getD_scale, getD_scale, ← sub_mul]
  generalize b.getD (i + 1) 0 - b.getD i 0 = d
  by_cases hd : d = 0
  · simp [hd]
  by_cases hw : ∑ q, w q = 0
  · simp [hw]
  have := hc.ne'
  field_simp

theorem calculateDos_none (c : K) (b : List K) {nq nm : Nat} (hm : 0 < nm)
    (freqs : Fin nq → Fin nm → K) (w : Fin nq → K) :
    calculateDos c b freqs w = calculateDos_ c b freqs w (some fun _ _ => 3 / (nm : K)) := by
  unfold calculateDos calculateDos_
  simp [hm.ne', bind, Except.bind, pure, Except.pure]

theorem sum_inBin (b : List K) (hs : b.Pairwise (· ≤ ·)) (f v : K) :
    (∑ i ∈ Finset.range (b.length - 1), if InBin b i f then v else 0) =
      if InRange b f then v else 0 := by
  rcases Nat.eq_zero_or_pos b.length with h0 | hpos
  · have : b = [] := List.length_eq_zero_iff.1 h0
    subst this
    simp [InRange]
  set k := b.countP fun e => decide (e ≤ f) with hk
  have hrange : InRange b f ↔ 1 ≤ k ∧ k ≤ b.length - 1 := by
    rw [InRange, ← not_le (a := b.getD (b.length - 1) 0), countP_le_spec b hs f 0 hpos,
      countP_le_spec b hs f (b.length - 1) (by omega), ← hk]
    omega
  have hin : ∀ i ∈ Finset.range (b.length - 1), (if InBin b i f then v else 0) =
      if k = i + 1 then v else 0 := by
    intro i hi
    rw [Finset.mem_range] at hi
    simp only [InBin, ← countP_eq_iff b hs f i (by omega), ← hk]
  rw [Finset.sum_congr rfl hin]
  by_cases hr : InRange b f
  · rw [if_pos hr]
    have h2 := hrange.1 hr
    rw [Finset.sum_eq_single (k - 1)]
    · rw [if_pos (by omega)]
    · intro j _ hj
      rw [if_neg (by omega)]
    · intro h
      rw [Finset.mem_range] at h
      omega
  · rw [if_neg hr]
    apply Finset.sum_eq_zero
    intro i hi
    rw [Finset.mem_range] at hi
    rw [if_neg]
    intro h
    exact hr (hrange.2 (by omega))

/-! ## C21 -/

/-- **C21** (density of states). For non-decreasing bin edges, bin `i` of the density of states is the
sum of the weights of exactly the modes with `edge[i] ≤ f < edge[i+1]` (per bin width and divided by
the sum of the q-point weights, which must not be zero); nothing else is counted in any bin. -/
theorem C21_dos_counts_modes_in_bin (c : K) (hc : 0 < c) (b : List K) (hs : b.Pairwise (· ≤ ·))
    {nq nm : Nat} (hm : 0 < nm) (freqs : Fin nq → Fin nm → K) (w : Fin nq → K) :
    calculateDos c b freqs w = .ok ((List.range (b.length - 1)).map fun i =>
      binTotal b c freqs (fun q _ => w q * (3 / (nm : K))) i / (b.getD (i + 1) 0 - b.getD i 0) /
        ∑ q, w q) := by
  rw [calculateDos_none c b hm, calculateDos_mw c hc b hs]

/-- **C21**: an energy in the range of the bins lies in exactly one bin; an energy below the first edge
or at or above the last one lies in none. -/
theorem C21_exactly_one_bin (b : List K) (hs : b.Pairwise (· ≤ ·)) (f : K) :
    (InRange b f → ∃! i, i < b.length - 1 ∧ InBin b i f) ∧
    (¬ InRange b f → ∀ i < b.length - 1, ¬ InBin b i f) := by
  have huniq : ∀ i j, i < b.length - 1 → j < b.length - 1 → InBin b i f → InBin b j f → i = j := by
    intro i j hi hj h1 h2
    have e1 := (countP_eq_iff b hs f i (by omega)).2 h1
    have e2 := (countP_eq_iff b hs f j (by omega)).2 h2
    omega
  have hsum := sum_inBin b hs f 1
  constructor
  · intro h
    rw [if_pos h] at hsum
    have : ∃ i ∈ Finset.range (b.length - 1), (if InBin b i f then (1 : K) else 0) ≠ 0 := by
      by_contra hne
      push Not at hne
      rw [Finset.sum_eq_zero hne] at hsum
      exact zero_ne_one hsum
    obtain ⟨i, hi, hne⟩ := this
    rw [Finset.mem_range] at hi
    have hb : InBin b i f := by
      by_contra hn
      rw [if_neg hn] at hne
      exact hne rfl
    exact ⟨i, ⟨hi, hb⟩, fun j hj => huniq j i hj.1 hi hj.2 hb⟩
  · intro h i hi hb
    rw [if_neg h, Finset.sum_eq_zero_iff_of_nonneg] at hsum
    · have := hsum i (Finset.mem_range.2 hi)
      rw [if_pos hb] at this
      exact one_ne_zero this
    · intro j _
      split
      · exact zero_le_one
      · exact le_rfl

/-- **C21**: bin edges that are neither sorted upwards nor downwards are refused (if there is a mode to
bin). -/
theorem C21_unsorted_bins_refused (c : K) (hc : 0 < c) (b : List K)
    (h1 : ¬ b.Pairwise (· ≤ ·)) (h2 : ¬ b.Pairwise (· ≥ ·)) {nq nm : Nat} (hq : 0 < nq) (hm : 0 < nm)
    (freqs : Fin nq → Fin nm → K) (w : Fin nq → K) :
    calculateDos c b freqs w = .error .valueError := by
  have e1 : ¬ (b.map (· * c)).Pairwise (· ≤ ·) := by
    rw [List.pairwise_map]
    exact fun h => h1 (h.imp fun h => le_of_mul_le_mul_right h hc)
  have e2 : ¬ (b.map (· * c)).Pairwise (· ≥ ·) := by
    rw [List.pairwise_map]
    exact fun h => h2 (h.imp fun h => le_of_mul_le_mul_right h hc)
  obtain ⟨nq, rfl⟩ : ∃ k, nq = k + 1 := ⟨nq - 1, by omega⟩
  obtain ⟨nm, rfl⟩ : ∃ k, nm = k + 1 := ⟨nm - 1, by omega⟩
  rw [calculateDos_none c b hm]
  unfold calculateDos_ histogram
  simp [bind, Except.bind, pure, Except.pure, List.finRange_succ, List.flatMap_cons,
    List.mapM_cons, digitize, e1, e2]

/-! ## C20 -/

/-- **C20**. The area under the density of states is three times the weighted fraction of the modes
whose frequency lies between the first (included) and the last (excluded) edge. -/
theorem C20_dos_area (c : K) (hc : 0 < c) (b : List K) (hs : b.Pairwise (· ≤ ·)) {nq nm : Nat}
    (hm : 0 < nm) (freqs : Fin nq → Fin nm → K) (w : Fin nq → K) :
    ∃ d, calculateDos c b freqs w = .ok d ∧
      (∑ i ∈ Finset.range (b.length - 1), d.getD i 0 * (b.getD (i + 1) 0 - b.getD i 0)) =
        3 * ((∑ q, w q * ∑ m, if InRange b (freqs q m / c) then (1 : K) else 0) /
          (nm * ∑ q, w q)) := by
  refine ⟨_, C21_dos_counts_modes_in_bin c hc b hs hm freqs w, ?_⟩
  have hterm : ∀ i ∈ Finset.range (b.length - 1),
      (((List.range (b.length - 1)).map fun i =>
      binTotal b c freqs (fun q _ => w q * (3 / (nm : K))) i / (b.getD (i + 1) 0 - b.getD i 0) /
        ∑ q, w q).getD i 0) * (b.getD (i + 1) 0 - b.getD i 0) =
      (∑ q, ∑ m, if InBin b i (freqs q m / c) then w q * (3 / (nm : K)) else 0) / ∑ q, w q := by
    intro i hi
    rw [Finset.mem_range] at hi
    rw [List.getD_eq_getElem _ _ (by simpa using hi), List.getElem_map, List.getElem_range]
    by_cases hd : b.getD (i + 1) 0 - b.getD i 0 = 0
    · have hno : ∀ f, ¬ InBin b i f := by
        rintro f ⟨h1, h2⟩
        rw [sub_eq_zero.1 hd] at h2
        exact absurd (h1.trans_lt h2) (lt_irrefl _)
      rw [hd, mul_zero]
      simp [hno]
    · rw [binTotal, div_right_comm, div_mul_cancel₀ _ hd]
  rw [Finset.sum_congr rfl hterm, ← Finset.sum_div, Finset.sum_comm]
  have hq : ∀ q : Fin nq, (∑ i ∈ Finset.range (b.length - 1),
      ∑ m, if InBin b i (freqs q m / c) then w q * (3 / (nm : K)) else 0) =
      3 / nm * (w q * ∑ m, if InRange b (freqs q m / c) then (1 : K) else 0) := by
    intro q
    rw [Finset.sum_comm, Finset.mul_sum, Finset.mul_sum]
    refine Finset.sum_congr rfl fun m _ => ?_
    rw [sum_inBin b hs]
    split <;> ring
  rw [Finset.sum_congr rfl fun q _ => hq q, ← Finset.mul_sum]
  have : (nm : K) ≠ 0 := by exact_mod_cast hm.ne'
  by_cases hw : ∑ q, w q = 0
  · simp [hw]
  · field_simp

/-- **C20**: when every frequency lies inside the bins the area is three. -/
theorem C20_dos_area_three (c : K) (hc : 0 < c) (b : List K) (hs : b.Pairwise (· ≤ ·)) {nq nm : Nat}
    (hm : 0 < nm) (freqs : Fin nq → Fin nm → K) (w : Fin nq → K) (hw : ∑ q, w q ≠ 0)
    (hin : ∀ q m, InRange b (freqs q m / c)) :
    ∃ d, calculateDos c b freqs w = .ok d ∧
      (∑ i ∈ Finset.range (b.length - 1), d.getD i 0 * (b.getD (i + 1) 0 - b.getD i 0)) = 3 := by
  obtain ⟨d, h1, h2⟩ := C20_dos_area c hc b hs hm freqs w
  refine ⟨d, h1, h2.trans ?_⟩
  have : (nm : K) ≠ 0 := by exact_mod_cast hm.ne'
  simp only [hin, if_true, Finset.sum_const, Finset.card_univ, Fintype.card_fin, nsmul_eq_mul,
    mul_one, ← Finset.sum_mul]
  field_simp

/-! ## C22 -/

/-- **C22**: multiplying all weights by a nonzero constant does not change the density of states. -/
theorem C22_dos_weight_scale (c : K) (hc : 0 < c) (b : List K) (hs : b.Pairwise (· ≤ ·)) {nq nm : Nat}
    (hm : 0 < nm) (freqs : Fin nq → Fin nm → K) (w : Fin nq → K) (k : K) (hk : k ≠ 0) :
    calculateDos c b freqs (fun q => k * w q) = calculateDos c b freqs w := by
  rw [C21_dos_counts_modes_in_bin c hc b hs hm, C21_dos_counts_modes_in_bin c hc b hs hm]
  congr 1
  apply List.map_congr_left
  intro i _
  have : binTotal b c freqs (fun q _ => k * w q * (3 / (nm : K))) i =
      k * binTotal b c freqs (fun q _ => w q * (3 / (nm : K))) i := by
    simp only [binTotal, Finset.mul_sum]
    refine Finset.sum_congr rfl fun q _ => Finset.sum_congr rfl fun m _ => ?_
    split <;> ring
  rw [this, ← Finset.mul_sum, mul_div_assoc, mul_div_mul_left _ _ hk]

/-- **C22**: permuting the q-points together with their weights does not change it. -/
theorem C22_dos_permutation (c : K) (hc : 0 < c) (b : List K) (hs : b.Pairwise (· ≤ ·)) {nq nm : Nat}
    (hm : 0 < nm) (freqs : Fin nq → Fin nm → K) (w : Fin nq → K) (σ : Equiv.Perm (Fin nq)) :
    calculateDos c b (fun q => freqs (σ q)) (fun q => w (σ q)) = calculateDos c b freqs w := by
  rw [C21_dos_counts_modes_in_bin c hc b hs hm, C21_dos_counts_modes_in_bin c hc b hs hm]
  congr 1
  apply List.map_congr_left
  intro i _
  have h1 : binTotal b c (fun q => freqs (σ q)) (fun q _ => w (σ q) * (3 / (nm : K))) i =
      binTotal b c freqs (fun q _ => w q * (3 / (nm : K))) i :=
    Equiv.sum_comp σ fun q => ∑ m, if InBin b i (freqs q m / c) then w q * (3 / (nm : K)) else 0
  rw [h1, Equiv.sum_comp σ w]

/-- **C22**: permuting the modes at each q-point does not change it. -/
theorem C22_dos_mode_permutation (c : K) (hc : 0 < c) (b : List K) (hs : b.Pairwise (· ≤ ·))
    {nq nm : Nat} (hm : 0 < nm) (freqs : Fin nq → Fin nm → K) (w : Fin nq → K)
    (σ : Fin nq → Equiv.Perm (Fin nm)) :
    calculateDos c b (fun q m => freqs q (σ q m)) w = calculateDos c b freqs w := by
  rw [C21_dos_counts_modes_in_bin c hc b hs hm, C21_dos_counts_modes_in_bin c hc b hs hm]
  congr 1
  apply List.map_congr_left
  intro i _
  have h1 : binTotal b c (fun q m => freqs q (σ q m)) (fun q _ => w q * (3 / (nm : K))) i =
      binTotal b c freqs (fun q _ => w q * (3 / (nm : K))) i :=
    Finset.sum_congr rfl fun q _ => Equiv.sum_comp (σ q)
      fun m => if InBin b i (freqs q m / c) then w q * (3 / (nm : K)) else 0
  rw [h1]

/-- **C22**: without weights the result is that of any equal, nonzero weights. -/
theorem C22_dos_default_weights (c : K) (hc : 0 < c) (b : List K) (hs : b.Pairwise (· ≤ ·))
    {nq nm : Nat} (hm : 0 < nm) (freqs : Fin nq → Fin nm → K) (k : K) (hk : k ≠ 0) :
    calculateDos c b freqs (defaultWeights nq) = calculateDos c b freqs (fun _ => k) := by
  rcases Nat.eq_zero_or_pos nq with rfl | hq
  · congr 1
    funext q
    exact q.elim0
  have hq' : (nq : K) ≠ 0 := by exact_mod_cast hq.ne'
  rw [← C22_dos_weight_scale c hc b hs hm freqs (defaultWeights nq) (k * nq) (mul_ne_zero hk hq')]
  congr 1
  funext q
  simp only [defaultWeights]
  field_simp

/-- What `adaptive_method='reference'` computes: a sum of one peak per mode. -/
theorem adaptive_eq (pdf : K → K → K → K) (c : K) (b : List K) {nq nm : Nat}
    (freqs widths : Fin nq → Fin nm → K) (wmin : K) (w : Fin nq → K) :
    calculateDosAdaptive pdf c b freqs widths wmin w =
      (List.zipWith (fun a d => a + d / 2) (b.map (· * c)) (npDiff (b.map (· * c)))).map fun x =>
        (∑ q, ∑ m, pdf x (freqs q m) (max (widths q m) wmin) * w q * (3 / (nm : K))) /
          (∑ q, w q) / (1 / c) := by
  have key : ∀ (ps : List (Fin nq × Fin nm)) (cs acc : List K), acc.length = cs.length →
      ps.foldl (fun dos p => List.zipWith (· + ·) dos (cs.map fun x =>
        pdf x (freqs p.1 p.2) (max (widths p.1 p.2) wmin) * w p.1 * (3 / (nm : K)))) acc =
      List.zipWith (· + ·) acc (cs.map fun x => (ps.map fun p =>
        pdf x (freqs p.1 p.2) (max (widths p.1 p.2) wmin) * w p.1 * (3 / (nm : K))).sum) := by
    intro ps cs
    induction ps with
    | nil =>
      intro acc hacc
      rw [List.foldl_nil]
      apply List.ext_getElem
      · simp [hacc]
      · intro i h1 h2
        simp
    | cons p ps ih =>
      intro acc hacc
      rw [List.foldl_cons, ih _ (by simp [hacc])]
      apply List.ext_getElem
      · simp
      · intro i h1 h2
        simp [add_assoc]
  unfold calculateDosAdaptive normalise adaptiveReference
  dsimp only
  rw [key _ _ _ (by simp)]
  apply List.ext_getElem
  · simp
  · intro i h1 h2
    have := sum_qm (nq := nq) (nm := nm) fun q m =>
      pdf ((List.zipWith (fun a d => a + d / 2) (b.map (· * c)) (npDiff (b.map (· * c))))[i]'(by
        simpa using h2)) (freqs q m) (max (widths q m) wmin) * w q * (3 / (nm : K))
    simp only [List.getElem_map, List.getElem_zipWith, List.getElem_replicate, zero_add] at this ⊢
    rw [this]

/-- **C22** with adaptive broadening (`adaptive_method='reference'`): scale of the weights. -/
theorem C22_adaptive_weight_scale (pdf : K → K → K → K) (c : K) (b : List K) {nq nm : Nat}
    (freqs widths : Fin nq → Fin nm → K) (wmin : K) (w : Fin nq → K) (k : K) (hk : k ≠ 0) :
    calculateDosAdaptive pdf c b freqs widths wmin (fun q => k * w q) =
      calculateDosAdaptive pdf c b freqs widths wmin w := by
  rw [adaptive_eq, adaptive_eq]
  apply List.map_congr_left
  intro x _
  congr 1
  rw [← Finset.mul_sum, ← mul_div_mul_left _ (∑ q, w q) hk]
  congr 1
  rw [Finset.mul_sum]
  refine Finset.sum_congr rfl fun q _ => ?_
  rw [Finset.mul_sum]
  refine Finset.sum_congr rfl fun m _ => ?_
  ring

/-- **C22** with adaptive broadening: order of the q-points. -/
theorem C22_adaptive_permutation (pdf : K → K → K → K) (c : K) (b : List K) {nq nm : Nat}
    (freqs widths : Fin nq → Fin nm → K) (wmin : K) (w : Fin nq → K) (σ : Equiv.Perm (Fin nq)) :
    calculateDosAdaptive pdf c b (fun q => freqs (σ q)) (fun q => widths (σ q)) wmin
      (fun q => w (σ q)) = calculateDosAdaptive pdf c b freqs widths wmin w := by
  rw [adaptive_eq, adaptive_eq]
  apply List.map_congr_left
  intro x _
  rw [Equiv.sum_comp σ w, Equiv.sum_comp σ fun q =>
    ∑ m, pdf x (freqs q m) (max (widths q m) wmin) * w q * (3 / (nm : K))]

/-! ## C23 -/

/-- Eigenvectors are normalised to one for each mode. -/
def Normalised {nq nm na : Nat} (e : Fin nq → Fin nm → Fin na → Fin 3 → K × K) : Prop :=
  ∀ q m, ∑ a, ∑ l, ((e q m a l).1 ^ 2 + (e q m a l).2 ^ 2) = 1

/-- **C23**. With `n_modes = 3 n_atoms` and normalised eigenvectors the partial densities of states add
up to the density of states in every bin. -/
theorem C23_pdos_sums_to_dos (c : K) (hc : 0 < c) (b : List K) (hs : b.Pairwise (· ≤ ·)) {nq na : Nat}
    (ha : 0 < na) (freqs : Fin nq → Fin (3 * na) → K) (w : Fin nq → K)
    (e : Fin nq → Fin (3 * na) → Fin na → Fin 3 → K × K) (he : Normalised e) (mass : Fin na → K) :
    ∃ rows dos, calculatePdos c b freqs w e mass none = .ok rows ∧
      calculateDos c b freqs w = .ok dos ∧ rows.length = na ∧ dos.length = b.length - 1 ∧
      (∀ r ∈ rows, r.length = b.length - 1) ∧
      ∀ i < b.length - 1, (rows.map (·.getD i 0)).sum = dos.getD i 0 := by
  have hrow : (calculatePdos c b freqs w e mass none) = .ok ((List.finRange na).map fun a =>
      (List.range (b.length - 1)).map fun i =>
        binTotal b c freqs (fun q m => w q * evecWeights e q m a) i /
          (b.getD (i + 1) 0 - b.getD i 0) / ∑ q, w q) := by
    unfold calculatePdos
    apply mapM_ok_of_forall
    intro a _
    simp only [calculateDos_mw c hc b hs, bind, Except.bind, pure, Except.pure]
  refine ⟨_, _, hrow, C21_dos_counts_modes_in_bin c hc b hs (by omega) freqs w, by simp, by simp,
    ?_, fun i hi => ?_⟩
  · intro r hr
    rw [List.mem_map] at hr
    obtain ⟨a, _, rfl⟩ := hr
    simp
  · rw [List.map_map, ← Fin.sum_univ_def, List.getD_eq_getElem _ _ (by simpa using hi),
      List.getElem_map, List.getElem_range]
    have : ∀ a : Fin na, ((fun r : List K => r.getD i 0) ∘ fun a =>
        (List.range (b.length - 1)).map fun i =>
        binTotal b c freqs (fun q m => w q * evecWeights e q m a) i /
          (b.getD (i + 1) 0 - b.getD i 0) / ∑ q, w q) a =
        binTotal b c freqs (fun q m => w q * evecWeights e q m a) i /
          (b.getD (i + 1) 0 - b.getD i 0) / ∑ q, w q := by
      intro a
      simp only [Function.comp_apply]
      rw [List.getD_eq_getElem _ _ (by simpa using hi), List.getElem_map, List.getElem_range]
    rw [Finset.sum_congr rfl fun a _ => this a, ← Finset.sum_div, ← Finset.sum_div]
    congr 2
    unfold binTotal
    rw [Finset.sum_comm]
    refine Finset.sum_congr rfl fun q _ => ?_
    rw [Finset.sum_comm]
    refine Finset.sum_congr rfl fun m _ => ?_
    split
    · rw [← Finset.mul_sum]
      congr 1
      simp only [evecWeights]
      rw [← Finset.sum_div]
      have h1 : ∑ a, ∑ l, ((e q m a l).1 * (e q m a l).1 + (e q m a l).2 * (e q m a l).2) = 1 := by
        rw [← he q m]
        refine Finset.sum_congr rfl fun a _ => Finset.sum_congr rfl fun l _ => ?_
        ring
      rw [h1]
      have : (na : K) ≠ 0 := by exact_mod_cast ha.ne'
      push_cast
      field_simp
    · simp

/-- **C23**: neutron weighting multiplies the line of atom `a` by `cs_a * mean(mass) / mass_a`. -/
theorem C23_neutron_weighting (c : K) (hc : 0 < c) (b : List K) (hs : b.Pairwise (· ≤ ·))
    {nq nm na : Nat} (freqs : Fin nq → Fin nm → K) (w : Fin nq → K)
    (e : Fin nq → Fin nm → Fin na → Fin 3 → K × K) (mass cs : Fin na → K) :
    ∃ rows wrows, calculatePdos c b freqs w e mass none = .ok rows ∧
      calculatePdos c b freqs w e mass (some cs) = .ok wrows ∧
      rows.length = na ∧ wrows.length = na ∧ ∀ a : Fin na,
        wrows.getD a.val [] =
          (rows.getD a.val []).map (· * (cs a / mass a * ((∑ b, mass b) / na))) := by
  have h1 : calculatePdos c b freqs w e mass none = .ok ((List.finRange na).map fun a =>
      (List.range (b.length - 1)).map fun i =>
        binTotal b c freqs (fun q m => w q * evecWeights e q m a) i /
          (b.getD (i + 1) 0 - b.getD i 0) / ∑ q, w q) := by
    unfold calculatePdos
    apply mapM_ok_of_forall
    intro a _
    simp only [calculateDos_mw c hc b hs, bind, Except.bind, pure, Except.pure]
  have h2 : calculatePdos c b freqs w e mass (some cs) = .ok ((List.finRange na).map fun a =>
      ((List.range (b.length - 1)).map fun i =>
        binTotal b c freqs (fun q m => w q * evecWeights e q m a) i /
          (b.getD (i + 1) 0 - b.getD i 0) / ∑ q, w q).map
            (· * (cs a / mass a * ((∑ b, mass b) / na)))) := by
    unfold calculatePdos
    apply mapM_ok_of_forall
    intro a _
    simp only [calculateDos_mw c hc b hs, bind, Except.bind, pure, Except.pure]
    congr 1
    apply List.map_congr_left
    intro x _
    ring
  refine ⟨_, _, h1, h2, by simp, by simp, fun a => ?_⟩
  rw [List.getD_eq_getElem _ _ (by simp), List.getD_eq_getElem _ _ (by simp), List.getElem_map,
    List.getElem_map]
  simp

/-! ## C82: maps -/

/-- **C82**. Row `i` of the DOS map is the density of states of q-point `i` alone (with any nonzero
weight), and the weighted mean of the rows is the density of states of the whole object. -/
theorem C82_dos_map (c : K) (hc : 0 < c) (b : List K) (hs : b.Pairwise (· ≤ ·)) {nq nm : Nat}
    (hm : 0 < nm) (freqs : Fin nq → Fin nm → K) (w : Fin nq → K) (hw : ∀ q, w q ≠ 0) :
    ∃ rows dos, calculateDosMap c b freqs w = .ok rows ∧ calculateDos c b freqs w = .ok dos ∧
      rows.length = nq ∧
      (∀ q : Fin nq, ∀ k ≠ 0,
        calculateDos c b (fun _ : Fin 1 => freqs q) (fun _ => k) = .ok (rows.getD q.val [])) ∧
      ∀ i < b.length - 1,
        dos.getD i 0 = (∑ q, w q * (rows.getD q.val []).getD i 0) / ∑ q, w q := by
  have hrow : ∀ q : Fin nq, ∀ k : K, k ≠ 0 →
      calculateDos_ c b (fun _ : Fin 1 => freqs q) (fun _ => k) none =
      .ok ((List.range (b.length - 1)).map fun i =>
        (∑ m, if InBin b i (freqs q m / c) then 3 / (nm : K) else 0) /
          (b.getD (i + 1) 0 - b.getD i 0)) := by
    intro q k hk
    have := C21_dos_counts_modes_in_bin c hc b hs hm (fun _ : Fin 1 => freqs q) (fun _ => k)
    unfold calculateDos at this
    rw [this]
    congr 1
    apply List.map_congr_left
    intro i _
    simp only [binTotal, Finset.univ_unique, Finset.sum_singleton]
    rw [div_right_comm]
    congr 1
    rw [Finset.sum_div]
    refine Finset.sum_congr rfl fun m _ => ?_
    split
    · field_simp
    · simp
  refine ⟨(List.finRange nq).map fun q => (List.range (b.length - 1)).map fun i =>
        (∑ m, if InBin b i (freqs q m / c) then 3 / (nm : K) else 0) /
          (b.getD (i + 1) 0 - b.getD i 0), _, ?_,
    C21_dos_counts_modes_in_bin c hc b hs hm freqs w, by simp, ?_, ?_⟩
  · unfold calculateDosMap
    apply mapM_ok_of_forall
    intro q _
    exact hrow q _ (hw q)
  · intro q k hk
    unfold calculateDos
    rw [hrow q k hk, List.getD_eq_getElem _ _ (by simp), List.getElem_map]
    simp
  · intro i hi
    rw [List.getD_eq_getElem _ _ (by simpa using hi), List.getElem_map, List.getElem_range]
    congr 1
    have : ∀ q : Fin nq, w q * ((((List.finRange nq).map fun q =>
        (List.range (b.length - 1)).map fun i =>
        (∑ m, if InBin b i (freqs q m / c) then 3 / (nm : K) else 0) /
          (b.getD (i + 1) 0 - b.getD i 0)).getD q.val []).getD i 0) =
        (∑ m, if InBin b i (freqs q m / c) then w q * (3 / (nm : K)) else 0) /
          (b.getD (i + 1) 0 - b.getD i 0) := by
      intro q
      rw [List.getD_eq_getElem _ [] (by simp), List.getElem_map, List.getElem_finRange,
        List.getD_eq_getElem _ 0 (by simpa using hi), List.getElem_map, List.getElem_range,
        ← mul_div_assoc, Finset.mul_sum]
      congr 1
      refine Finset.sum_congr rfl fun m _ => ?_
      simp only [Fin.cast_mk, Fin.eta]
      split <;> ring
    rw [Finset.sum_congr rfl fun q _ => this q, ← Finset.sum_div]
    rfl

/-! ## Non-vacuity -/

/-- Two q-points with three modes each, one mode outside the bins: the area is 3 * 5/6. -/
example : ∃ d, calculateDos (2 : ℚ) [0, 1, 2, 4]
    (fun q m => ![![1, 2, 3], ![4, 5, 9]] q m : Fin 2 → Fin 3 → ℚ) (fun _ => 1) = .ok d ∧
      (∑ i ∈ Finset.range 3, d.getD i 0 * (([0, 1, 2, 4] : List ℚ).getD (i + 1) 0 -
        ([0, 1, 2, 4] : List ℚ).getD i 0)) = 5 / 2 := by
  obtain ⟨d, h1, h2⟩ := C20_dos_area (2 : ℚ) (by norm_num) [0, 1, 2, 4] (by decide) (by norm_num)
    (fun q m => ![![1, 2, 3], ![4, 5, 9]] q m : Fin 2 → Fin 3 → ℚ) (fun _ => 1)
  refine ⟨d, h1, h2.trans ?_⟩
  decide +kernel

/-- Normalised complex eigenvectors of one atom. -/
example : Normalised (fun _ m _ l => if m = l then (3 / 5, -4 / 5) else (0, 0) :
    Fin 1 → Fin (3 * 1) → Fin 1 → Fin 3 → ℚ × ℚ) := by
  unfold Normalised
  decide +kernel

end Euphonic.Dos
