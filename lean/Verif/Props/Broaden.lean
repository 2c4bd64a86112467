import Verif.Prelude
import Verif.Model.Broaden
import Verif.Lemmas.Split
import Verif.Props.Bins
import Verif.Lemmas.Dos
import Mathlib.Algebra.BigOperators.Intervals
import Mathlib.Algebra.Order.BigOperators.Group.Finset
import Mathlib.Order.Interval.Finset.Basic
import Mathlib.Data.Int.Interval
import Mathlib.Analysis.SpecialFunctions.Pow.Real
import Mathlib.Tactic.Linarith
import Mathlib.Tactic.Positivity
import Mathlib.Tactic.NormNum
import Mathlib.Tactic.FieldSimp

/-!
# C70, C91: broadening with fixed widths
-/

set_option autoImplicit false

namespace Euphonic.Broaden

/-! ## The correlation with a kernel -/

theorem get0_add {n : Nat} (a b : ℝ) (s t : Fin n → ℝ) (z : Int) :
    get0 (fun i => a * s i + b * t i) z = a * get0 s z + b * get0 t z := by
  unfold get0
  split <;> simp

theorem get0_nonneg {n : Nat} (d : Fin n → ℝ) (hd : ∀ i, 0 ≤ d i) (z : Int) : 0 ≤ get0 d z := by
  unfold get0
  split
  · exact hd _
  · exact le_rfl

theorem get0_fin {n : Nat} (d : Fin n → ℝ) (i : Fin n) : get0 d (i : Int) = d i := by
  unfold get0
  rw [dif_pos ⟨by omega, by simp⟩]
  congr 1

theorem get0_out {n : Nat} (d : Fin n → ℝ) (z : Int) (h : ¬ (0 ≤ z ∧ z < n)) : get0 d z = 0 := by
  unfold get0
  rw [dif_neg (by omega)]

theorem correlate1d_add {n : Nat} (w : List ℝ) (a b : ℝ) (s t : Fin n → ℝ) :
    correlate1d w (fun i => a * s i + b * t i) =
      fun i => a * correlate1d w s i + b * correlate1d w t i := by
  funext i
  unfold correlate1d
  simp only [get0_add]
  rw [Finset.mul_sum, Finset.mul_sum, ← Finset.sum_add_distrib]
  exact Finset.sum_congr rfl fun k _ => by ring

theorem correlate1d_nonneg {n : Nat} (w : List ℝ) (hw : ∀ v ∈ w, 0 ≤ v) (d : Fin n → ℝ)
    (hd : ∀ i, 0 ≤ d i) (i : Fin n) : 0 ≤ correlate1d w d i :=
  Finset.sum_nonneg fun _ _ => mul_nonneg (hw _ (List.get_mem _ _)) (get0_nonneg d hd _)

theorem sum_get0 {n : Nat} (d : Fin n → ℝ) (z : Int) :
    ∑ i : Fin n, get0 d ((i : Int) + z) = ∑ t ∈ Finset.Ico z (n + z), get0 d t := by
  have h : ∑ t ∈ Finset.Ico (0 : Int) n, get0 d (t + z) = ∑ t ∈ Finset.Ico z (n + z), get0 d t := by
    rw [Finset.sum_Ico_add' (fun t => get0 d t) 0 (n : Int) z, zero_add]
  rw [← h, Fin.sum_univ_eq_sum_range (fun i => get0 d ((i : Int) + z)) n]
  refine Finset.sum_bij' (fun i _ => (i : Int)) (fun t _ => t.toNat) ?_ ?_ ?_ ?_ ?_
  · intro i hi
    simp only [Finset.mem_range] at hi
    simp only [Finset.mem_Ico]
    omega
  · intro t ht
    simp only [Finset.mem_Ico] at ht
    simp only [Finset.mem_range]
    omega
  · intro i _
    simp
  · intro t ht
    simp only [Finset.mem_Ico] at ht
    exact Int.toNat_of_nonneg ht.1
  · intro i _
    rfl

theorem sum_get0_le {n : Nat} (d : Fin n → ℝ) (hd : ∀ i, 0 ≤ d i) (z : Int) :
    ∑ i : Fin n, get0 d ((i : Int) + z) ≤ ∑ i, d i := by
  have h0 : ∑ i, d i = ∑ t ∈ Finset.Ico (0 : Int) n, get0 d t := by
    have := sum_get0 d 0
    simp only [add_zero, get0_fin] at this
    exact this
  rw [sum_get0, h0]
  rw [← Finset.sum_filter_add_sum_filter_not (Finset.Ico z (n + z)) (fun t : Int => 0 ≤ t ∧ t < n)]
  have hz : ∑ t ∈ (Finset.Ico z (n + z)).filter (fun t : Int => ¬ (0 ≤ t ∧ t < n)), get0 d t = 0 :=
    Finset.sum_eq_zero fun t ht => get0_out d t (Finset.mem_filter.1 ht).2
  rw [hz, add_zero]
  refine Finset.sum_le_sum_of_subset_of_nonneg ?_ fun t _ _ => get0_nonneg d hd t
  intro t ht
  have := (Finset.mem_filter.1 ht).2
  exact Finset.mem_Ico.2 this

theorem sum_get0_eq {n : Nat} (d : Fin n → ℝ) (z : Int)
    (hz : ∀ i, d i ≠ 0 → z ≤ i ∧ (i : Int) < n + z) :
    ∑ i : Fin n, get0 d ((i : Int) + z) = ∑ i, d i := by
  have h0 : ∑ i, d i = ∑ t ∈ Finset.Ico (0 : Int) n, get0 d t := by
    have := sum_get0 d 0
    simp only [add_zero, get0_fin] at this
    exact this
  rw [sum_get0, h0]
  have key : ∀ t, get0 d t ≠ 0 → (0 ≤ t ∧ t < n) ∧ z ≤ t ∧ t < n + z := by
    intro t ht
    have hin : 0 ≤ t ∧ t < n := by
      by_contra hc
      exact ht (get0_out d t hc)
    refine ⟨hin, ?_⟩
    have e : t = (((⟨t.toNat, by omega⟩ : Fin n) : ℕ) : Int) := by
      simp only
      omega
    rw [e, get0_fin] at ht
    have := hz _ ht
    rw [e]
    exact this
  rw [← Finset.sum_filter_ne_zero (s := Finset.Ico z (n + z)),
    ← Finset.sum_filter_ne_zero (s := Finset.Ico (0 : Int) n)]
  refine Finset.sum_congr ?_ fun _ _ => rfl
  ext t
  simp only [Finset.mem_filter, Finset.mem_Ico]
  constructor
  · rintro ⟨_, h⟩
    exact ⟨(key t h).1, h⟩
  · rintro ⟨_, h⟩
    exact ⟨(key t h).2, h⟩

theorem sum_get_fin (w : List ℝ) : ∑ k : Fin w.length, w.get k = w.sum := by
  simp [List.get_eq_getElem, Fin.sum_univ_getElem]

theorem sum_correlate1d {n : Nat} (w : List ℝ) (d : Fin n → ℝ) :
    ∑ i, correlate1d w d i =
      ∑ k : Fin w.length, w.get k * ∑ i : Fin n,
        get0 d ((i : Int) + ((k : Int) - ((w.length / 2 : Nat) : Int))) := by
  unfold correlate1d
  rw [Finset.sum_comm]
  refine Finset.sum_congr rfl fun k _ => ?_
  rw [Finset.mul_sum]
  refine Finset.sum_congr rfl fun i _ => ?_
  rw [add_sub_assoc]

theorem sum_correlate1d_le {n : Nat} (w : List ℝ) (hw : ∀ v ∈ w, 0 ≤ v) (d : Fin n → ℝ)
    (hd : ∀ i, 0 ≤ d i) : ∑ i, correlate1d w d i ≤ w.sum * ∑ i, d i := by
  rw [sum_correlate1d, ← sum_get_fin, Finset.sum_mul]
  exact Finset.sum_le_sum fun k _ =>
    mul_le_mul_of_nonneg_left (sum_get0_le d hd _) (hw _ (List.get_mem _ _))

theorem sum_correlate1d_eq {n : Nat} (w : List ℝ) (d : Fin n → ℝ) (r : Nat)
    (hw : w.length = 2 * r + 1) (hd : ∀ i, d i ≠ 0 → r ≤ i.val ∧ i.val + r < n) :
    ∑ i, correlate1d w d i = w.sum * ∑ i, d i := by
  rw [sum_correlate1d, ← sum_get_fin, Finset.sum_mul]
  refine Finset.sum_congr rfl fun k _ => ?_
  rw [sum_get0_eq]
  intro i hi
  have := hd i hi
  have hk := k.isLt
  omega

/-! ## The kernels -/

theorem sum_map_div (w : List ℝ) (c : ℝ) : (w.map (· / c)).sum = w.sum / c := by
  induction w with
  | nil => simp
  | cons a l ih => simp [ih, add_div]

theorem sum_normalise (w : List ℝ) (h : w.sum ≠ 0) : (normalise w).sum = 1 := by
  rw [normalise, sum_map_div, div_self h]

theorem sum_pos_of_pos (w : List ℝ) (h : w ≠ []) (hp : ∀ v ∈ w, 0 < v) : 0 < w.sum := by
  induction w with
  | nil => exact absurd rfl h
  | cons a l ih =>
    rw [List.sum_cons]
    rcases l with _ | ⟨b, l⟩
    · simpa using hp a (by simp)
    · have h1 := ih (by simp) fun v hv => hp v (by simp [hv])
      have h2 := hp a (by simp)
      linarith

theorem normalise_pos (w : List ℝ) (hp : ∀ v ∈ w, 0 < v) : ∀ v ∈ normalise w, 0 < v := by
  intro v hv
  rcases List.eq_nil_or_concat w with rfl | ⟨l, b, rfl⟩
  · simp [normalise] at hv
  · obtain ⟨x, hx, rfl⟩ := List.mem_map.1 hv
    exact div_pos (hp x hx) (sum_pos_of_pos _ (by simp) hp)

theorem length_gaussianKernel (sigma : ℝ) :
    (gaussianKernel sigma).length = 2 * ⌊4 * sigma + 1 / 2⌋₊ + 1 := by
  simp [gaussianKernel, normalise, symmetric]

theorem gaussianKernel_pos (sigma : ℝ) : ∀ v ∈ gaussianKernel sigma, 0 < v := by
  refine normalise_pos _ fun v hv => ?_
  obtain ⟨x, _, rfl⟩ := List.mem_map.1 hv
  exact Real.exp_pos _

theorem gaussianKernel_sum (sigma : ℝ) : (gaussianKernel sigma).sum = 1 := by
  refine sum_normalise _ (ne_of_gt (sum_pos_of_pos _ (by simp [symmetric]) fun v hv => ?_))
  obtain ⟨x, _, rfl⟩ := List.mem_map.1 hv
  exact Real.exp_pos _

theorem length_distribution1d (b : List ℝ) (g : ℝ) : (distribution1d b g).length = b.length * 2 + 1 := by
  simp [distribution1d, normalise, distBins]

theorem lorentzian_pos (x g : ℝ) (hg : 0 < g) : 0 < lorentzian x g := by
  unfold lorentzian
  have : 0 < x ^ 2 + (g / 2) ^ 2 := by positivity
  positivity

theorem lorentzian_neg (x g : ℝ) : lorentzian x (-g) = -lorentzian x g := by
  unfold lorentzian
  rw [neg_div, neg_div]
  congr 2
  ring

theorem normalise_neg (w : List ℝ) : normalise (w.map fun v => -v) = normalise w := by
  unfold normalise
  have : (w.map fun v => -v).sum = -w.sum := by
    induction w with
    | nil => simp
    | cons a l ih => simp [ih]; ring
  rw [this, List.map_map]
  refine List.map_congr_left fun v _ => ?_
  simp [neg_div_neg_eq]

theorem distribution1d_neg (b : List ℝ) (g : ℝ) : distribution1d b (-g) = distribution1d b g := by
  unfold distribution1d
  rw [← normalise_neg]
  congr 1
  rw [List.map_map]
  refine List.map_congr_left fun v _ => ?_
  simp [lorentzian_neg]

theorem distribution1d_spec (b : List ℝ) (g : ℝ) (hg : g ≠ 0) :
    (∀ v ∈ distribution1d b g, 0 < v) ∧ (distribution1d b g).sum = 1 := by
  wlog hp : 0 < g generalizing g with H
  · have := H (-g) (by simpa using hg) (by
      rcases lt_or_gt_of_ne hg with h | h
      · linarith
      · exact absurd h hp)
    rwa [distribution1d_neg] at this
  have hpos : ∀ v ∈ (distBins b).map fun x => lorentzian x g, 0 < v := by
    intro v hv
    obtain ⟨x, _, rfl⟩ := List.mem_map.1 hv
    exact lorentzian_pos x g hp
  refine ⟨normalise_pos _ hpos, sum_normalise _ (ne_of_gt (sum_pos_of_pos _ ?_ hpos))⟩
  simp [distBins]

/-! ## One axis -/

theorem axisFilter_add (shape : String) (c : List ℝ) (w : ℝ) {n : Nat} (a b : ℝ) (s t : Fin n → ℝ) :
    axisFilter shape c w (fun i => a * s i + b * t i) =
      fun i => a * axisFilter shape c w s i + b * axisFilter shape c w t i := by
  unfold axisFilter gaussianFilter
  split
  · split
    · exact correlate1d_add _ a b s t
    · rfl
  · exact correlate1d_add _ a b s t

theorem axisFilter_nonneg (shape : String) (c : List ℝ) (w : ℝ) (hw : shape ≠ "gauss" → w ≠ 0) {n : Nat}
    (d : Fin n → ℝ) (hd : ∀ i, 0 ≤ d i) :
    (∀ i, 0 ≤ axisFilter shape c w d i) ∧ ∑ i, axisFilter shape c w d i ≤ ∑ i, d i := by
  unfold axisFilter gaussianFilter
  split
  · split
    · have hp := fun v hv => le_of_lt (gaussianKernel_pos (gfwhmToSigma w c) v hv)
      refine ⟨correlate1d_nonneg _ hp d hd, ?_⟩
      have := sum_correlate1d_le _ hp d hd
      rwa [gaussianKernel_sum, one_mul] at this
    · exact ⟨hd, le_rfl⟩
  · rename_i hs
    obtain ⟨hp, h1⟩ := distribution1d_spec c w (hw hs)
    have hp' := fun v hv => le_of_lt (hp v hv)
    refine ⟨correlate1d_nonneg _ hp' d hd, ?_⟩
    have := sum_correlate1d_le _ hp' d hd
    rwa [h1, one_mul] at this

/-! ## Property theorems -/

theorem broaden1d_ok {shape : String} {method : Option String} {n : Nat} {x : List ℝ} {w : ℝ}
    {d d' : Fin n → ℝ} (h : broaden1d shape method x w d = .ok d') :
    ∃ c, getBinCentres n x = .ok c ∧ checks shape method c (some w) [] none = .ok () ∧
      d' = axisFilter shape c w d := by
  unfold broaden1d at h
  cases hc : getBinCentres n x with
  | error e => rw [hc] at h; cases h
  | ok c =>
    rw [hc] at h
    cases hk : checks shape method c (some w) [] none with
    | error e => simp [bind, Except.bind, hk] at h
    | ok u =>
      simp only [bind, Except.bind, hk, pure, Except.pure] at h
      injection h with h
      exact ⟨c, rfl, hk, h.symm⟩

theorem broaden1d_of {shape : String} {method : Option String} {n : Nat} {x : List ℝ} {w : ℝ}
    {c : List ℝ} (h1 : getBinCentres n x = .ok c) (h2 : checks shape method c (some w) [] none = .ok ())
    (d : Fin n → ℝ) : broaden1d shape method x w d = .ok (axisFilter shape c w d) := by
  unfold broaden1d
  rw [h1]
  simp [bind, Except.bind, h2, pure, Except.pure]

/-- **C70.** Broadening is linear, and whether it is refused does not depend on the data. -/
theorem C70_linear (shape : String) (method : Option String) {n : Nat} (x : List ℝ) (w a b : ℝ)
    (s t : Fin n → ℝ) :
    (∀ s', broaden1d shape method x w s = .ok s' → ∃ t', broaden1d shape method x w t = .ok t' ∧
      broaden1d shape method x w (fun i => a * s i + b * t i) = .ok fun i => a * s' i + b * t' i) ∧
    ∀ e, broaden1d shape method x w s = .error e → broaden1d shape method x w t = .error e := by
  constructor
  · intro s' hs
    obtain ⟨c, h1, h2, rfl⟩ := broaden1d_ok hs
    exact ⟨_, broaden1d_of h1 h2 t, by rw [broaden1d_of h1 h2, axisFilter_add]⟩
  · intro e he
    unfold broaden1d at he ⊢
    cases hc : getBinCentres n x with
    | error e' => rw [hc] at he; exact he
    | ok c =>
      rw [hc] at he
      cases hk : checks shape method c (some w) [] none with
      | error e' => simpa [bind, Except.bind, hk] using he
      | ok u => simp [bind, Except.bind, hk, pure, Except.pure] at he

/-- **C70.** Non-negative data stay non-negative and the total never increases. (A Lorentzian of width
zero is left out: there the code divides zero by zero.) -/
theorem C70_intensity (shape : String) (method : Option String) {n : Nat} (x : List ℝ) (w : ℝ)
    (hw : shape = "lorentz" → w ≠ 0) (d d' : Fin n → ℝ) (hd : ∀ i, 0 ≤ d i)
    (h : broaden1d shape method x w d = .ok d') :
    (∀ i, 0 ≤ d' i) ∧ ∑ i, d' i ≤ ∑ i, d i := by
  obtain ⟨c, h1, h2, rfl⟩ := broaden1d_ok h
  refine axisFilter_nonneg shape c w (fun hs => hw ?_) d hd
  by_contra hl
  have : checks shape method c (some w) [] none = .error .valueError := by
    simp [checks, hs, hl, bind, Except.bind, throw, throwThe, MonadExceptOf.throw]
  rw [this] at h2
  cases h2

/-- An axis of `n` equally spaced bin centres. -/
noncomputable def regular (x0 dx : ℝ) (n : Nat) : List ℝ := (List.range n).map fun k : Nat => x0 + k * dx

theorem npDiff_regular (x0 dx : ℝ) (n : Nat) : npDiff (regular x0 dx (n + 1)) = List.replicate n dx := by
  apply List.ext_getElem
  · rw [Euphonic.Dos.length_npDiff]
    simp [regular]
  · intro i h1 h2
    rw [Euphonic.Dos.length_npDiff] at h1
    have h1' : i + 1 < (regular x0 dx (n + 1)).length := by omega
    have := Euphonic.Dos.getD_npDiff (regular x0 dx (n + 1)) i h1'
    rw [List.getD_eq_getElem _ _ (by rw [Euphonic.Dos.length_npDiff]; exact h1),
      List.getD_eq_getElem _ _ h1', List.getD_eq_getElem _ _ (by omega)] at this
    rw [this]
    simp only [regular, List.getElem_map, List.getElem_range, List.getElem_replicate]
    push_cast
    ring

theorem length_regular (x0 dx : ℝ) (n : Nat) : (regular x0 dx n).length = n := by simp [regular]

theorem gfwhmToSigma_regular (w x0 dx : ℝ) (n : Nat) :
    gfwhmToSigma w (regular x0 dx (n + 2)) = w / (2 * Real.sqrt (2 * Real.log 2)) / dx := by
  unfold gfwhmToSigma
  rw [npDiff_regular, List.sum_replicate, List.length_replicate, nsmul_eq_mul]
  congr 1
  field_simp

theorem checks_regular (shape : String) (method : Option String) (w x0 dx : ℝ) (n : Nat)
    (hs : shape = "gauss" ∨ shape = "lorentz") (hm : method = none ∨ method = some "convolve") :
    checks shape method (regular x0 dx (n + 2)) (some w) [] none = .ok () := by
  have he : equalBins (regular x0 dx (n + 2)) (some w) = .ok true := by
    unfold equalBins
    simp only [npDiff_regular, List.replicate_succ]
    congr 1
    rw [List.all_eq_true]
    intro v hv
    have : v = dx := by
      rcases List.mem_cons.1 hv with h | h
      · exact h
      · exact (List.mem_replicate.1 h).2
    subst this
    simp only [npIsClose, sub_self, abs_zero, decide_eq_true_eq]
    positivity
  have h1 : ¬ (shape ≠ "gauss" ∧ shape ≠ "lorentz") := by tauto
  have h2 : ¬ (method ≠ none ∧ method ≠ some "convolve") := by tauto
  unfold checks
  rw [if_neg h1, if_neg h2, he]
  rfl

/-- **C70.** The width of a Gaussian kernel reaches `r` bins to each side; when all data are at least
`r` bins away from both ends of a regular axis the total is kept exactly. -/
theorem C70_total_kept (method : Option String) {m : Nat} (x : List ℝ) (x0 dx w : ℝ)
    (hx : getBinCentres (m + 2) x = .ok (regular x0 dx (m + 2)))
    (hm : method = none ∨ method = some "convolve") (d : Fin (m + 2) → ℝ)
    (hd : ∀ i, d i ≠ 0 →
      ⌊4 * (w / (2 * Real.sqrt (2 * Real.log 2)) / dx) + 1 / 2⌋₊ ≤ i.val ∧
      i.val + ⌊4 * (w / (2 * Real.sqrt (2 * Real.log 2)) / dx) + 1 / 2⌋₊ < m + 2) :
    ∃ d', broaden1d "gauss" method x w d = .ok d' ∧ ∑ i, d' i = ∑ i, d i := by
  refine ⟨_, broaden1d_of hx (checks_regular "gauss" method w x0 dx m (Or.inl rfl) hm) d, ?_⟩
  unfold axisFilter
  rw [if_pos rfl, gfwhmToSigma_regular]
  unfold gaussianFilter
  split
  · rw [sum_correlate1d_eq _ d _ (length_gaussianKernel _) hd, gaussianKernel_sum, one_mul]
  · rfl

/-- **C70, loss.** The Lorentzian kernel spans twice the axis, so some intensity always leaves the axis:
for non-negative data that are not all zero the total strictly decreases. -/
theorem C70_lorentz_loses (method : Option String) {m : Nat} (x : List ℝ) (x0 dx w : ℝ)
    (hx : getBinCentres (m + 2) x = .ok (regular x0 dx (m + 2)))
    (hm : method = none ∨ method = some "convolve") (hw : w ≠ 0) (d : Fin (m + 2) → ℝ)
    (hd : ∀ i, 0 ≤ d i) (hp : ∃ i, 0 < d i) :
    ∃ d', broaden1d "lorentz" method x w d = .ok d' ∧ ∑ i, d' i < ∑ i, d i := by
  refine ⟨_, broaden1d_of hx (checks_regular "lorentz" method w x0 dx m (Or.inr rfl) hm) d, ?_⟩
  unfold axisFilter
  rw [if_neg (by decide)]
  obtain ⟨hpos, h1⟩ := distribution1d_spec (regular x0 dx (m + 2)) w hw
  have hlen := length_distribution1d (regular x0 dx (m + 2)) w
  rw [length_regular] at hlen
  have htot : 0 < ∑ i, d i := by
    obtain ⟨i, hi⟩ := hp
    exact Finset.sum_pos' (fun j _ => hd j) ⟨i, Finset.mem_univ i, hi⟩
  rw [sum_correlate1d]
  calc _ < ∑ k : Fin (distribution1d (regular x0 dx (m + 2)) w).length,
        (distribution1d (regular x0 dx (m + 2)) w).get k * ∑ i, d i := by
        refine Finset.sum_lt_sum (fun k _ => mul_le_mul_of_nonneg_left (sum_get0_le d hd _)
          (le_of_lt (hpos _ (List.get_mem _ _)))) ⟨⟨0, by omega⟩, Finset.mem_univ _, ?_⟩
        refine mul_lt_mul_of_pos_left ?_ (hpos _ (List.get_mem _ _))
        refine lt_of_eq_of_lt (Finset.sum_eq_zero fun i _ => get0_out d _ ?_) htot
        have := i.isLt
        simp only [hlen]
        omega
    _ = ∑ i, d i := by rw [← Finset.sum_mul, sum_get_fin, h1, one_mul]

/-- **C70, refusals.** An axis with a single bin cannot be broadened: `bin_widths[0]` does not exist. -/
theorem C70_single_bin (shape : String) (hs : shape = "gauss" ∨ shape = "lorentz") (method : Option String)
    (hm : method = none ∨ method = some "convolve") (a b w : ℝ) (d : Fin 1 → ℝ) :
    broaden1d shape method [a, b] w d = .error .indexError ∧
      broaden1d shape method [a] w d = .error .indexError := by
  have h1 : ¬ (shape ≠ "gauss" ∧ shape ≠ "lorentz") := by tauto
  have h2 : ¬ (method ≠ none ∧ method ≠ some "convolve") := by tauto
  have hc : ∀ c : ℝ, checks shape method [c] (some w) [] none = .error .indexError := by
    intro c
    unfold checks
    rw [if_neg h1, if_neg h2]
    rfl
  have e1 : getBinCentres 1 [a, b] = .ok [a + 1 / 2 * (b - a)] := rfl
  have e2 : getBinCentres 1 [a] = .ok [a] := rfl
  unfold broaden1d
  rw [e1, e2]
  simp [bind, Except.bind, hc]

/-- **C70, refusals.** Without an explicit `method='convolve'` an axis whose bins differ by more than the
tolerances is refused, and with it the same data are broadened. -/
theorem C70_unequal_bins (shape : String) (hs : shape = "gauss" ∨ shape = "lorentz") {n : Nat}
    (x c : List ℝ) (w : ℝ) (hx : getBinCentres n x = .ok c) (w0 v : ℝ) (l : List ℝ)
    (hd : npDiff c = w0 :: l) (hv : v ∈ l) (hne : 1 / 10 ^ 8 + 1 / 10 ^ 5 * |w0| < |v - w0|)
    (d : Fin n → ℝ) :
    broaden1d shape none x w d = .error .valueError ∧
      ∃ d', broaden1d shape (some "convolve") x w d = .ok d' := by
  have h1 : ¬ (shape ≠ "gauss" ∧ shape ≠ "lorentz") := by tauto
  have he : equalBins c (some w) = .ok false := by
    unfold equalBins
    simp only [hd]
    congr 1
    rw [List.all_eq_false]
    exact ⟨v, List.mem_cons_of_mem _ hv, by simpa [npIsClose] using hne⟩
  constructor
  · have hk : checks shape none c (some w) [] none = .error .valueError := by
      unfold checks
      rw [he, if_neg h1, if_neg (by simp)]
      rfl
    unfold broaden1d
    rw [hx]
    simp [bind, Except.bind, hk]
  · refine ⟨_, broaden1d_of hx ?_ d⟩
    unfold checks
    rw [he, if_neg h1, if_neg (by simp)]
    rfl

/-- **C70, finding.** On a descending axis a Gaussian width does nothing: the width in bins is negative
and the filter leaves such an axis out without notice. -/
theorem C70_descending_ignored (method : Option String) {m : Nat} (x : List ℝ) (x0 dx w : ℝ)
    (hx : getBinCentres (m + 2) x = .ok (regular x0 dx (m + 2))) (hdx : dx < 0) (hw : 0 < w)
    (hm : method = none ∨ method = some "convolve") (d : Fin (m + 2) → ℝ) :
    broaden1d "gauss" method x w d = .ok d := by
  rw [broaden1d_of hx (checks_regular "gauss" method w x0 dx m (Or.inl rfl) hm) d]
  unfold axisFilter gaussianFilter
  rw [if_pos rfl, gfwhmToSigma_regular, if_neg]
  rw [not_lt]
  have h : w / (2 * Real.sqrt (2 * Real.log 2)) / dx ≤ 0 :=
    div_nonpos_of_nonneg_of_nonpos (by positivity) hdx.le
  exact h.trans (by positivity)

/-! ## The requested width -/

theorem correlate1d_single {n : Nat} (w : List ℝ) (a : ℝ) (p i : Fin n) (k : Nat) (hk : k < w.length)
    (he : i.val + k = p.val + w.length / 2) :
    correlate1d w (fun j => if j = p then a else 0) i = w[k] * a := by
  unfold correlate1d
  rw [Finset.sum_eq_single (⟨k, hk⟩ : Fin w.length)]
  · congr 1
    have : ((i : Int) + ((⟨k, hk⟩ : Fin w.length) : Int) - ((w.length / 2 : Nat) : Int)) = (p : Int) := by
      simp only
      omega
    rw [this, get0_fin, if_pos rfl]
  · intro k' _ hne
    have : get0 (fun j => if j = p then a else 0)
        ((i : Int) + (k' : Int) - ((w.length / 2 : Nat) : Int)) = 0 := by
      unfold get0
      split
      · show (if _ then a else 0) = 0
        rw [if_neg]
        intro hc
        have := congrArg Fin.val hc
        simp only at this
        exact hne (Fin.ext (by simp only; omega))
      · rfl
    rw [this, mul_zero]
  · intro h
    exact absurd (Finset.mem_univ _) h

theorem getElem_normalise (w : List ℝ) (k : Nat) (h : k < (normalise w).length) :
    (normalise w)[k] = w[k]'(by simpa [normalise] using h) / w.sum := by
  simp [normalise]

/-- **C91** (Gaussian half). A single peak on a regular axis is broadened to a Gaussian of the requested
full width at half maximum: the height falls as `2 ^ (-(2 distance / width)^2)`, in particular to one
half at a distance of half the width. (As far as the kernel reaches.) -/
theorem C91_gauss_partial (method : Option String) {m : Nat} (x : List ℝ) (x0 dx w : ℝ)
    (hx : getBinCentres (m + 2) x = .ok (regular x0 dx (m + 2)))
    (hm : method = none ∨ method = some "convolve")
    (hs : 1 / 10 ^ 15 < w / (2 * Real.sqrt (2 * Real.log 2)) / dx) (hdx : dx ≠ 0) (hw : w ≠ 0) (a : ℝ)
    (p : Fin (m + 2)) :
    ∃ d', broaden1d "gauss" method x w (fun j => if j = p then a else 0) = .ok d' ∧
      ∀ i : Fin (m + 2),
        p.val ≤ i.val + ⌊4 * (w / (2 * Real.sqrt (2 * Real.log 2)) / dx) + 1 / 2⌋₊ →
        i.val ≤ p.val + ⌊4 * (w / (2 * Real.sqrt (2 * Real.log 2)) / dx) + 1 / 2⌋₊ →
        d' i = d' p * (2 : ℝ) ^ (-(2 * ((x0 + i * dx) - (x0 + p * dx)) / w) ^ 2) := by
  refine ⟨_, broaden1d_of hx (checks_regular "gauss" method w x0 dx m (Or.inl rfl) hm) _, ?_⟩
  intro i hi1 hi2
  have hlog : 0 < Real.log 2 := Real.log_pos (by norm_num)
  unfold axisFilter gaussianFilter
  rw [if_pos rfl, gfwhmToSigma_regular, if_pos hs]
  set sg := w / (2 * Real.sqrt (2 * Real.log 2)) / dx with hsg
  set r := ⌊4 * sg + 1 / 2⌋₊ with hr
  have hlen : (gaussianKernel sg).length = 2 * r + 1 := length_gaussianKernel sg
  have hlen' := hlen
  unfold gaussianKernel at hlen'
  rw [correlate1d_single (gaussianKernel sg) a p i (p.val + r - i.val) (by omega) (by omega),
    correlate1d_single (gaussianKernel sg) a p p r (by omega) (by omega)]
  unfold gaussianKernel
  rw [getElem_normalise, getElem_normalise]
  simp only [List.getElem_map, symmetric, List.getElem_range, ← hr]
  have hcast : ((p.val + r - i.val : ℕ) : ℝ) = (p.val : ℝ) + r - i.val := by
    rw [Nat.cast_sub (by omega), Nat.cast_add]
  rw [hcast, Real.rpow_def_of_pos (by norm_num : (0 : ℝ) < 2)]
  have e0 : -(1 / 2) / sg ^ 2 * ((r : ℝ) - r) ^ 2 = 0 := by simp
  have e1 : -(1 / 2) / sg ^ 2 * ((p.val : ℝ) + r - i.val - r) ^ 2 =
      Real.log 2 * -(2 * ((x0 + i * dx) - (x0 + p * dx)) / w) ^ 2 := by
    have hq : (Real.sqrt (2 * Real.log 2)) ^ 2 = 2 * Real.log 2 := Real.sq_sqrt (by positivity)
    have hq0 : Real.sqrt (2 * Real.log 2) ≠ 0 := by positivity
    have hs2 : sg ^ 2 = w ^ 2 / (4 * (2 * Real.log 2)) / dx ^ 2 := by
      rw [hsg, div_pow, div_pow, mul_pow, hq]
      norm_num
    rw [hs2]
    field_simp
    ring
  rw [e0, e1, Real.exp_zero]
  ring

/-- **C91, what a Lorentzian width means in the code.** On a regular axis of `n` bins a single peak is
broadened to a Lorentzian of full width `n / (n - 1)` times the requested one, because the kernel is
tabulated with `(n - 1) / n` of the spacing of the axis. -/
theorem C91_lorentz_actual_width (method : Option String) {m : Nat} (x : List ℝ) (x0 dx w : ℝ)
    (hx : getBinCentres (m + 2) x = .ok (regular x0 dx (m + 2)))
    (hm : method = none ∨ method = some "convolve") (hw : w ≠ 0) (a : ℝ) (p : Fin (m + 2)) :
    ∃ d', broaden1d "lorentz" method x w (fun j => if j = p then a else 0) = .ok d' ∧
      ∀ i : Fin (m + 2), d' i = d' p /
        (1 + (2 * ((x0 + i * dx) - (x0 + p * dx)) / (w * ((m + 2 : ℝ) / (m + 1)))) ^ 2) := by
  refine ⟨_, broaden1d_of hx (checks_regular "lorentz" method w x0 dx m (Or.inr rfl) hm) _, ?_⟩
  intro i
  unfold axisFilter
  rw [if_neg (by decide)]
  have hlen := length_distribution1d (regular x0 dx (m + 2)) w
  rw [length_regular] at hlen
  have hi := i.isLt
  have hp := p.isLt
  rw [correlate1d_single (distribution1d (regular x0 dx (m + 2)) w) a p i (p.val + (m + 2) - i.val)
      (by omega) (by omega),
    correlate1d_single (distribution1d (regular x0 dx (m + 2)) w) a p p (m + 2) (by omega) (by omega)]
  unfold distribution1d
  rw [getElem_normalise, getElem_normalise]
  have hrange : (regular x0 dx (m + 2)).getLastD 0 - (regular x0 dx (m + 2)).headD 0 = (m + 1) * dx := by
    have h1 : (regular x0 dx (m + 2)).getLastD 0 = x0 + ((m + 1 : ℕ) : ℝ) * dx := by
      simp only [regular]
      rw [List.range_succ, List.map_append]
      simp only [List.map_cons, List.map_nil, List.getLastD_concat]
    have h2 : (regular x0 dx (m + 2)).headD 0 = x0 := by
      simp only [regular]
      rw [List.range_succ_eq_map]
      simp
    rw [h1, h2]
    push_cast
    ring
  simp only [List.getElem_map, distBins, List.getElem_range, hrange, length_regular]
  have hcast : ((p.val + (m + 2) - i.val : ℕ) : ℝ) = (p.val : ℝ) + (m + 2) - i.val := by
    rw [Nat.cast_sub (by omega)]
    push_cast
    ring
  have hm1 : (m : ℝ) + 1 ≠ 0 := by positivity
  have hm2 : (m : ℝ) + 2 ≠ 0 := by positivity
  have e1 : -((m + 1) * dx) + ((p.val + (m + 2) - i.val : ℕ) : ℝ) *
      (((m + 1) * dx - -((m + 1) * dx)) / (((m + 2) * 2 : ℕ) : ℝ)) =
      ((p.val : ℝ) - i.val) * ((m + 1) / (m + 2)) * dx := by
    rw [hcast]
    push_cast
    field_simp
    ring
  have e0 : -((m + 1) * dx) + ((m + 2 : ℕ) : ℝ) *
      (((m + 1) * dx - -((m + 1) * dx)) / (((m + 2) * 2 : ℕ) : ℝ)) = 0 := by
    push_cast
    field_simp
    ring
  rw [e0, e1]
  have hL : lorentzian (((p.val : ℝ) - i.val) * ((m + 1) / (m + 2)) * dx) w = lorentzian 0 w /
      (1 + (2 * ((x0 + i * dx) - (x0 + p * dx)) / (w * ((m + 2 : ℝ) / (m + 1)))) ^ 2) := by
    have hA : (0 : ℝ) < 1 + (2 * ((x0 + i * dx) - (x0 + p * dx)) / (w * ((m + 2 : ℝ) / (m + 1)))) ^ 2 := by
      positivity
    have hpi := Real.pi_ne_zero
    unfold lorentzian
    rw [eq_div_iff hA.ne', div_mul_eq_mul_div, div_eq_div_iff]
    · field_simp
      ring
    · have : 0 < (((p.val : ℝ) - i.val) * ((m + 1) / (m + 2)) * dx) ^ 2 + (w / 2) ^ 2 := by positivity
      positivity
    · have : 0 < (0 : ℝ) ^ 2 + (w / 2) ^ 2 := by positivity
      positivity
  rw [hL]
  ring

/-- **C91 is violated** for Lorentzian kernels: at a distance of half the requested width the peak has
not yet fallen to one half. -/
theorem C91_lorentz_too_wide (method : Option String) {m : Nat} (x : List ℝ) (x0 dx w : ℝ)
    (hx : getBinCentres (m + 2) x = .ok (regular x0 dx (m + 2)))
    (hm : method = none ∨ method = some "convolve") (hw : 0 < w) (a : ℝ) (ha : 0 < a)
    (p i : Fin (m + 2)) (hd : (x0 + i * dx) - (x0 + p * dx) = w / 2) :
    ∃ d', broaden1d "lorentz" method x w (fun j => if j = p then a else 0) = .ok d' ∧
      d' p / 2 < d' i := by
  obtain ⟨d', h, hall⟩ := C91_lorentz_actual_width method x x0 dx w hx hm hw.ne' a p
  refine ⟨d', h, ?_⟩
  have hpos : 0 < d' p := by
    obtain ⟨c, hc, -, rfl⟩ := broaden1d_ok h
    rw [hx] at hc
    injection hc with hc
    subst hc
    have hlen := length_distribution1d (regular x0 dx (m + 2)) w
    rw [length_regular] at hlen
    unfold axisFilter
    rw [if_neg (by decide), correlate1d_single (distribution1d (regular x0 dx (m + 2)) w) a p p (m + 2)
      (by omega) (by omega)]
    exact mul_pos ((distribution1d_spec _ w hw.ne').1 _ (List.getElem_mem _)) ha
  rw [hall i, hd]
  have hm1 : (0 : ℝ) < (m : ℝ) + 1 := by positivity
  have hlt : (2 * (w / 2) / (w * ((m + 2 : ℝ) / (m + 1)))) ^ 2 < 1 := by
    have : 2 * (w / 2) / (w * ((m + 2 : ℝ) / (m + 1))) = (m + 1) / (m + 2) := by
      field_simp
    rw [this]
    have h1 : (m + 1 : ℝ) / (m + 2) < 1 := by
      rw [div_lt_one (by positivity)]
      linarith
    have h0 : (0 : ℝ) < (m + 1 : ℝ) / (m + 2) := by positivity
    nlinarith
  rw [div_lt_div_iff_of_pos_left hpos (by norm_num) (by positivity)]
  linarith

/-! ## Two axes -/

theorem broaden2d_cases (shape : String) (method : Option String) {n m : Nat} (x y : List ℝ)
    (wx wy : Option ℝ) :
    (∃ e, ∀ d : Fin n → Fin m → ℝ, broaden2d shape method x y wx wy d = .error e) ∨
    (∀ d : Fin n → Fin m → ℝ, broaden2d shape method x y wx wy d = .ok d) ∨
    ∃ cx cy, (shape = "gauss" ∨ shape = "lorentz") ∧ ∀ d : Fin n → Fin m → ℝ,
      broaden2d shape method x y wx wy d = .ok (filterY shape cy wy (filterX shape cx wx d)) := by
  unfold broaden2d
  cases anyWidth wx wy with
  | false => exact Or.inr (Or.inl fun d => rfl)
  | true =>
    simp only [if_true]
    cases hx : getBinCentres n x with
    | error e => exact Or.inl ⟨e, fun d => rfl⟩
    | ok cx =>
      cases hy : getBinCentres m y with
      | error e => exact Or.inl ⟨e, fun d => rfl⟩
      | ok cy =>
        cases hc : checks shape method cx wx cy wy with
        | error e => exact Or.inl ⟨e, fun d => by simp [bind, Except.bind, hc]⟩
        | ok u =>
          refine Or.inr (Or.inr ⟨cx, cy, ?_, fun d => by simp [bind, Except.bind, hc, pure, Except.pure]⟩)
          by_contra hs
          rw [not_or] at hs
          simp [checks, hs, bind, Except.bind, throw, throwThe, MonadExceptOf.throw] at hc

/-- **C70.** Broadening a map along x only is broadening each of its lines along x. -/
theorem C70_one_axis_x (shape : String) (method : Option String) {n m : Nat} (x y cy : List ℝ)
    (hy : getBinCentres m y = .ok cy) (w : ℝ) (hw : w ≠ 0) (d d' : Fin n → Fin m → ℝ)
    (h : broaden2d shape method x y (some w) none d = .ok d') (j : Fin m) :
    broaden1d shape method x w (fun i => d i j) = .ok fun i => d' i j := by
  have ha : anyWidth (some w) none = true := by simp [anyWidth, hw]
  unfold broaden2d at h
  rw [ha, hy] at h
  cases hc : getBinCentres n x with
  | error e => rw [hc] at h; cases h
  | ok cx =>
    rw [hc] at h
    have hk : checks shape method cx (some w) cy none = checks shape method cx (some w) [] none := rfl
    cases hk' : checks shape method cx (some w) [] none with
    | error e => simp [bind, Except.bind, hk, hk'] at h
    | ok u =>
      simp only [if_true, bind, Except.bind, hk, hk', pure, Except.pure, filterX, filterY] at h
      injection h with h
      subst h
      exact broaden1d_of hc hk' _

/-- **C70.** Broadening a map along y only is broadening each of its rows along y. -/
theorem C70_one_axis_y (shape : String) (method : Option String) {n m : Nat} (x y cx : List ℝ)
    (hx : getBinCentres n x = .ok cx) (w : ℝ) (hw : w ≠ 0) (d d' : Fin n → Fin m → ℝ)
    (h : broaden2d shape method x y none (some w) d = .ok d') (i : Fin n) :
    broaden1d shape method y w (d i) = .ok (d' i) := by
  have ha : anyWidth none (some w) = true := by simp [anyWidth, hw]
  unfold broaden2d at h
  rw [ha, hx] at h
  cases hc : getBinCentres m y with
  | error e => simp only [if_true, bind, Except.bind, hc] at h; cases h
  | ok cy =>
    have hk : checks shape method cx none cy (some w) = checks shape method cy (some w) [] none := by
      unfold checks equalBins
      cases npDiff cy <;> simp [bind, Except.bind]
    cases hk' : checks shape method cy (some w) [] none with
    | error e => simp [bind, Except.bind, hk, hk', hc] at h
    | ok u =>
      simp only [if_true, bind, Except.bind, hk, hk', hc, pure, Except.pure, filterX, filterY] at h
      injection h with h
      subst h
      exact broaden1d_of hc hk' _

/-- **C70**, two axes: broadening along either or both axes is linear. -/
theorem C70_linear_2d (shape : String) (method : Option String) {n m : Nat} (x y : List ℝ)
    (wx wy : Option ℝ) (a b : ℝ) (s t s' : Fin n → Fin m → ℝ)
    (hs : broaden2d shape method x y wx wy s = .ok s') :
    ∃ t', broaden2d shape method x y wx wy t = .ok t' ∧
      broaden2d shape method x y wx wy (fun i j => a * s i j + b * t i j) =
        .ok fun i j => a * s' i j + b * t' i j := by
  rcases broaden2d_cases (n := n) (m := m) shape method x y wx wy with ⟨e, h⟩ | h | ⟨cx, cy, -, h⟩
  · rw [h] at hs
    cases hs
  · rw [h] at hs
    injection hs with hs
    subst hs
    exact ⟨t, h t, h _⟩
  · rw [h] at hs
    injection hs with hs
    subst hs
    refine ⟨_, h t, ?_⟩
    rw [h]
    congr 1
    have hX : filterX shape cx wx (fun i j => a * s i j + b * t i j) =
        fun i j => a * filterX shape cx wx s i j + b * filterX shape cx wx t i j := by
      cases wx with
      | none => rfl
      | some w =>
        funext i j
        exact congrFun (axisFilter_add shape cx w a b (fun i' => s i' j) fun i' => t i' j) i
    rw [hX]
    cases wy with
    | none => rfl
    | some w =>
      funext i
      exact axisFilter_add shape cy w a b (filterX shape cx wx s i) (filterX shape cx wx t i)

/-- **C70**, two axes: non-negative data stay non-negative and the total never increases. -/
theorem C70_intensity_2d (shape : String) (method : Option String) {n m : Nat} (x y : List ℝ)
    (wx wy : Option ℝ) (hw : shape = "lorentz" → (∀ w ∈ wx, w ≠ 0) ∧ ∀ w ∈ wy, w ≠ 0)
    (d d' : Fin n → Fin m → ℝ) (hd : ∀ i j, 0 ≤ d i j)
    (h : broaden2d shape method x y wx wy d = .ok d') :
    (∀ i j, 0 ≤ d' i j) ∧ ∑ i, ∑ j, d' i j ≤ ∑ i, ∑ j, d i j := by
  rcases broaden2d_cases (n := n) (m := m) shape method x y wx wy with ⟨e, h'⟩ | h' | ⟨cx, cy, hs, h'⟩
  · rw [h'] at h
    cases h
  · rw [h'] at h
    injection h with h
    subst h
    exact ⟨hd, le_rfl⟩
  · rw [h'] at h
    injection h with h
    subst h
    have hne : shape ≠ "gauss" → shape = "lorentz" := fun hg => hs.resolve_left hg
    have hX : (∀ i j, 0 ≤ filterX shape cx wx d i j) ∧
        ∑ i, ∑ j, filterX shape cx wx d i j ≤ ∑ i, ∑ j, d i j := by
      cases wx with
      | none => exact ⟨hd, le_rfl⟩
      | some w =>
        have hk := fun j => axisFilter_nonneg shape cx w (fun hg => (hw (hne hg)).1 w rfl)
          (fun i' => d i' j) fun i' => hd i' j
        refine ⟨fun i j => (hk j).1 i, ?_⟩
        rw [Finset.sum_comm, Finset.sum_comm (f := fun i j => d i j)]
        exact Finset.sum_le_sum fun j _ => (hk j).2
    cases wy with
    | none => exact hX
    | some w =>
      have hk := fun i => axisFilter_nonneg shape cy w (fun hg => (hw (hne hg)).2 w rfl)
        (filterX shape cx wx d i) (hX.1 i)
      refine ⟨fun i j => (hk i).1 j, ?_⟩
      exact (Finset.sum_le_sum fun i _ => (hk i).2).trans hX.2

/-- Non-trivial case of the hypotheses: bin edges 0, 1, 2, 3 have regular centres. -/
example : getBinCentres (1 + 2) [(0 : ℝ), 1, 2, 3] = .ok (regular (1 / 2) 1 (1 + 2)) := by
  have : getBinCentres (1 + 2) [(0 : ℝ), 1, 2, 3] =
      .ok [0 + 1 / 2 * (1 - 0), 1 + 1 / 2 * (2 - 1), 2 + 1 / 2 * (3 - 2)] := rfl
  rw [this]
  simp only [regular, List.range_succ, List.range_zero]
  norm_num

/-- A map with three by two bins that is broadened along x only (with the method named, so that nothing is
refused). -/
example (d : Fin 3 → Fin 2 → ℝ) : ∃ d', broaden2d "gauss" (some "convolve") [(0 : ℝ), 1, 2, 3]
    [(0 : ℝ), 1, 2] (some 1) none d = .ok d' := by
  have h1 : getBinCentres 3 [(0 : ℝ), 1, 2, 3] =
      .ok [0 + 1 / 2 * (1 - 0), 1 + 1 / 2 * (2 - 1), 2 + 1 / 2 * (3 - 2)] := rfl
  have h2 : getBinCentres 2 [(0 : ℝ), 1, 2] = .ok [0 + 1 / 2 * (1 - 0), 1 + 1 / 2 * (2 - 1)] := rfl
  have ha : anyWidth (some 1) none = true := by simp [anyWidth]
  unfold broaden2d
  rw [ha, h1, h2]
  exact ⟨filterX "gauss" [0 + 1 / 2 * (1 - 0), 1 + 1 / 2 * (2 - 1), 2 + 1 / 2 * (3 - 2)] (some 1) d, by
    simp [bind, Except.bind, checks, equalBins, npDiff, pure, Except.pure, filterY]⟩

/-- ... and 0, 1, 3 are unequal enough to be refused. -/
example : (1 : ℝ) / 10 ^ 8 + 1 / 10 ^ 5 * |(1 : ℝ)| < |(2 : ℝ) - 1| := by
  rw [abs_of_pos, abs_of_pos] <;> norm_num

/-- The peak of `C91_lorentz_too_wide`: three bins of width one, width 2, next bin. -/
example : ((1 / 2 : ℝ) + (2 : Fin (1 + 2)) * 1) - (1 / 2 + (1 : Fin (1 + 2)) * 1) = 2 / 2 := by
  norm_num

end Euphonic.Broaden
