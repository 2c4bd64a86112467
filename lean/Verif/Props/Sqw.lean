import Verif.Props.Dos
import Mathlib.Analysis.SpecialFunctions.Exp

/-! # Properties C24-C26: S(Q,w) maps and population factors -/

set_option autoImplicit false
set_option linter.unusedSectionVars false

namespace Euphonic.Dos

variable {K : Type} [Field K] [LinearOrder K] [IsStrictOrderedRing K]

/-! ## Specification -/

/-- Intensity that the modes of one q-point put into bin `i`: `loss m` at energy `w_m` and `gain m` at
energy `-w_m` (energies in the unit of the bins). -/
def sqwBin (b : List K) {nm : Nat} (w loss gain : Fin nm → K) (i : Nat) : K :=
  ∑ m, ((if InBin b i (w m) then loss m else 0) + if InBin b i (-w m) then gain m else 0)

/-! ## Auxiliary -/

theorem sum_finRange {nm : Nat} (f : Fin nm → K) : ((List.finRange nm).map f).sum = ∑ m, f m :=
  (Fin.sum_univ_def f).symm

theorem sqwRow_eq (exp : K → K) (kB c sfConv : K) (hc : 0 < c) (b : List K)
    (hs : b.Pairwise (· ≤ ·)) (t : Option K) {nm : Nat} (f s : Fin nm → K) :
    sqwRow exp kB c sfConv b t f s = .ok ((List.range (b.length - 1)).map fun i =>
      sqwBin b (fun m => f m / c) (fun m => (intensities exp kB t (f m) (s m)).1)
        (fun m => (intensities exp kB t (f m) (s m)).2) i /
        (b.getD (i + 1) 0 - b.getD i 0) * sfConv) := by
  have hs' := pairwise_scale b hs c hc
  set e := b.map (· * c) with he
  have hlen : e.length = b.length := by simp [he]
  set idx : K → Nat := fun x => e.countP fun b => decide (b ≤ x) with hidx
  have hm : ∀ (g v : Fin nm → K), (List.finRange nm).mapM (fun m => (do
      return (← digitize e (g m), v m) : Except Err (Nat × K))) =
      .ok ((List.finRange nm).map fun m => (idx (g m), v m)) := by
    intro g v
    apply mapM_ok_of_forall
    intro p _
    rw [digitize_sorted _ hs']
    rfl
  have hb : ∀ (g v : Fin nm → K), ∀ p ∈ (List.finRange nm).map fun m => (idx (g m), v m),
      p.1 < b.length + 1 := by
    intro g v p hp
    simp only [List.mem_map] at hp
    obtain ⟨p', _, rfl⟩ := hp
    have : idx (g p') ≤ e.length := List.countP_le_length
    simp only
    omega
  obtain ⟨r1, a1, a2, a3⟩ := foldlM_addAt
    ((List.finRange nm).map fun m => (idx (f m), (intensities exp kB t (f m) (s m)).1))
    (List.replicate (b.length + 1) 0) (by
      intro p hp
      simpa using hb _ _ p hp)
  rw [List.length_replicate] at a2
  obtain ⟨r2, b1, b2, b3⟩ := foldlM_addAt
    ((List.finRange nm).map fun m => (idx (-(f m)), (intensities exp kB t (f m) (s m)).2))
    r1 (by
      intro p hp
      rw [a2]
      exact hb _ _ p hp)
  unfold sqwRow
  dsimp only
  rw [hm f, ← he]
  simp only [bind, Except.bind]
  have hm2 := hm (fun m => -(f m)) fun m => (intensities exp kB t (f m) (s m)).2
  simp only [bind, Except.bind] at hm2
  rw [hm2]
  simp only [a1, b1, pure, Except.pure]
  congr 1
  have hpl := length_paddedWidths e
  apply List.ext_getElem
  · simp [b2, a2, hpl, hlen]
  intro i hi1 hi2
  have hi : i + 1 < b.length := by simp at hi2; omega
  have hz : (List.zipWith (· / ·) r2 (paddedWidths e)).length = b.length + 1 := by
    simp [b2, a2, hpl, hlen]
  rw [List.getElem_map, List.getElem_map, List.getElem_range,
    ← List.getD_eq_getElem (l := ((List.zipWith (· / ·) r2 (paddedWidths e)).drop 1).dropLast) 0,
    getD_trim _ _ (by omega), List.getD_eq_getElem _ _ (by omega), List.getElem_zipWith,
    ← List.getD_eq_getElem (l := r2) 0, ← List.getD_eq_getElem (l := paddedWidths e) 0,
    getD_paddedWidths _ _ _ (by omega), b3, a3, List.getD_eq_getElem _ _ (by simp; omega),
    List.getElem_replicate, zero_add, List.map_map, List.map_map, sum_finRange, sum_finRange,
    ← Finset.sum_add_distrib]
  have ht : (∑ m, (((fun p : Nat × K => if p.1 = i + 1 then p.2 else 0) ∘ fun m =>
      (idx (f m), (intensities exp kB t (f m) (s m)).1)) m +
      ((fun p : Nat × K => if p.1 = i + 1 then p.2 else 0) ∘ fun m =>
      (idx (-(f m)), (intensities exp kB t (f m) (s m)).2)) m)) =
      sqwBin b (fun m => f m / c) (fun m => (intensities exp kB t (f m) (s m)).1)
        (fun m => (intensities exp kB t (f m) (s m)).2) i := by
    refine Finset.sum_congr rfl fun m _ => ?_
    simp only [Function.comp_apply]
    congr 1
    · refine if_congr ?_ rfl rfl
      rw [← inBin_scale b c hc]
      exact countP_eq_iff e hs' _ i (by omega)
    · refine if_congr ?_ rfl rfl
      rw [← neg_div, ← inBin_scale b c hc]
      exact countP_eq_iff e hs' _ i (by omega)
  rw [ht, he, getD_scale, getD_scale, ← sub_mul]
  generalize b.getD (i + 1) 0 - b.getD i 0 = d
  by_cases hd : d = 0
  · simp [hd]
  have := hc.ne'
  field_simp

/-! ## C24 -/

theorem not_diverges {exp : K → K} {kB : K} {T : Option K} {nq nm : Nat} {f : Fin nq → Fin nm → K}
    (hz : ∀ t, T = some t → 0 < t → ∀ q m, exp (|f q m| / (kB * t)) ≠ 1) : ¬ BoseDiverges exp kB T f := by
  cases T with
  | none => exact id
  | some t =>
    rintro ⟨ht, q, m, h⟩
    exact hz t rfl ht q m (sub_eq_zero.1 h)

/-- For the exponential function and `T > 0` the population factors are finite if no frequency is zero. -/
theorem exp_ne_one {kB t f : ℝ} (hk : 0 < kB) (ht : 0 < t) (hf : f ≠ 0) : Real.exp (|f| / (kB * t)) ≠ 1 := by
  have := abs_pos.2 hf
  exact (Real.one_lt_exp_iff.2 (by positivity)).ne'

/-- **C24**. Bin `i` of row `q` of the S(Q,w) map is the sum, over the modes, of `(1+n) S` if the bin
contains the mode energy and of `n S` if it contains minus the mode energy (without a temperature: `S`
and `S`), per bin width; `T` is the temperature in use, the edges are strictly increasing. No mode has exactly zero
frequency if there is a temperature (its population factor would be infinite). -/
theorem C24_sqw_bins (exp : K → K) (kB c sfConv : K) (hc : 0 < c) (b : List K)
    (hs : b.Pairwise (· < ·)) (calcBose : Bool) (stored given : Option K) {nq nm : Nat}
    (f s : Fin nq → Fin nm → K) (T : Option K)
    (hT : usedTemperature calcBose stored given = .ok T)
    (hz : ∀ t, T = some t → 0 < t → ∀ q m, exp (|f q m| / (kB * t)) ≠ 1) :
    ∃ rows, calculateSqwMap exp kB c sfConv b calcBose stored given f s = .ok rows ∧
      rows.length = nq ∧ ∀ q : Fin nq, (rows.getD q.val []).length = b.length - 1 ∧
        ∀ i < b.length - 1, (rows.getD q.val []).getD i 0 * (b.getD (i + 1) 0 - b.getD i 0) =
          sfConv * match (generalizing := false) T with
            | some t => sqwBin b (fun m => f q m / c)
                (fun m => (1 + boseFactor exp kB t (f q m)) * s q m)
                (fun m => boseFactor exp kB t (f q m) * s q m) i
            | none => sqwBin b (fun m => f q m / c) (s q) (s q) i := by
  have hs' : b.Pairwise (· ≤ ·) := hs.imp le_of_lt
  refine ⟨(List.finRange nq).map fun q => (List.range (b.length - 1)).map fun i =>
      sqwBin b (fun m => f q m / c) (fun m => (intensities exp kB T (f q m) (s q m)).1)
        (fun m => (intensities exp kB T (f q m) (s q m)).2) i /
        (b.getD (i + 1) 0 - b.getD i 0) * sfConv, ?_, by simp, fun q => ?_⟩
  · unfold calculateSqwMap
    rw [hT]
    simp only [bind, Except.bind, if_neg (not_diverges hz)]
    exact mapM_ok_of_forall _ _ _ fun q _ => sqwRow_eq exp kB c sfConv hc b hs' T (f q) (s q)
  · rw [List.getD_eq_getElem _ [] (by simp), List.getElem_map, List.getElem_finRange]
    simp only [Fin.cast_mk, Fin.eta]
    refine ⟨by simp, fun i hi => ?_⟩
    rw [List.getD_eq_getElem _ 0 (by simpa using hi), List.getElem_map, List.getElem_range]
    have hd : b.getD (i + 1) 0 - b.getD i 0 ≠ 0 := by
      rw [List.getD_eq_getElem _ _ (by omega), List.getD_eq_getElem _ _ (by omega)]
      exact (sub_pos.2 (List.pairwise_iff_getElem.1 hs i (i + 1) _ _ (by omega))).ne'
    have : (match (generalizing := false) T with
            | some t => sqwBin b (fun m => f q m / c)
                (fun m => (1 + boseFactor exp kB t (f q m)) * s q m)
                (fun m => boseFactor exp kB t (f q m) * s q m) i
            | none => sqwBin b (fun m => f q m / c) (s q) (s q) i) =
        sqwBin b (fun m => f q m / c) (fun m => (intensities exp kB T (f q m) (s q m)).1)
        (fun m => (intensities exp kB T (f q m) (s q m)).2) i := by
      cases T <;> rfl
    rw [this, mul_comm (_ / _) sfConv, mul_assoc, div_mul_cancel₀ _ hd]

/-- **C24**: the total of a row is the total of the contributions that fall in the range of the bins. -/
theorem C24_row_total (b : List K) (hs : b.Pairwise (· < ·)) {nm : Nat} (w loss gain : Fin nm → K) :
    (∑ i ∈ Finset.range (b.length - 1), sqwBin b w loss gain i) =
      ∑ m, ((if InRange b (w m) then loss m else 0) + if InRange b (-w m) then gain m else 0) := by
  unfold sqwBin
  rw [Finset.sum_comm]
  refine Finset.sum_congr rfl fun m _ => ?_
  rw [Finset.sum_add_distrib, sum_inBin b (hs.imp le_of_lt), sum_inBin b (hs.imp le_of_lt)]

/-- **C24** for `calculate_1d_average`: the weighted mean of the rows of the map; the weights given as
argument replace the stored ones, and weights adding up to zero are refused. -/
theorem C24_1d_average (exp : K → K) (kB c sfConv : K) (hc : 0 < c) (b : List K)
    (hs : b.Pairwise (· < ·)) (calcBose : Bool) (stored given : Option K) {nq nm : Nat}
    (f s : Fin nq → Fin nm → K) (sw : Fin nq → K) (aw : Option (Fin nq → K)) (T : Option K)
    (hT : usedTemperature calcBose stored given = .ok T)
    (hz : ∀ t, T = some t → 0 < t → ∀ q m, exp (|f q m| / (kB * t)) ≠ 1) :
    ∃ rows, calculateSqwMap exp kB c sfConv b calcBose stored given f s = .ok rows ∧
      ∀ w, (aw = some w ∨ aw = none ∧ w = sw) →
        (∑ q, w q = 0 → calculate1dAverage exp kB c sfConv b calcBose stored given f s sw aw =
          .error .zeroDivisionError) ∧
        (∑ q, w q ≠ 0 → ∃ d, calculate1dAverage exp kB c sfConv b calcBose stored given f s sw aw =
          .ok d ∧ d.length = b.length - 1 ∧ ∀ i < b.length - 1,
            d.getD i 0 * ∑ q, w q = ∑ q, w q * (rows.getD q.val []).getD i 0) := by
  obtain ⟨rows, h1, h2, h3⟩ := C24_sqw_bins exp kB c sfConv hc b hs calcBose stored given f s T hT hz
  refine ⟨rows, h1, fun w hw => ?_⟩
  have hw' : aw.getD sw = w := by
    rcases hw with rfl | ⟨rfl, rfl⟩ <;> rfl
  constructor
  · intro h0
    simp only [calculate1dAverage, hw', h1, bind, Except.bind, h0, if_true]
    rfl
  · intro h0
    refine ⟨(List.range (b.length - 1)).map fun i =>
      (∑ q, w q * (rows.getD q.val []).getD i 0) / ∑ q, w q, ?_, by simp, fun i hi => ?_⟩
    · simp only [calculate1dAverage, hw', h1, bind, Except.bind, h0, if_false]
      rfl
    · rw [List.getD_eq_getElem _ _ (by simpa using hi), List.getElem_map, List.getElem_range,
        div_mul_cancel₀ _ h0]

/-! ## C25 -/

/-- **C25**. Detailed balance: for a mode of energy `w > 0` at temperature `T > 0` the intensity on the
energy-gain side is `exp(-w/kT)` times that on the energy-loss side. -/
theorem C25_detailed_balance (kB T w s : ℝ) (hk : 0 < kB) (hT : 0 < T) (hw : 0 < w) :
    (intensities Real.exp kB (some T) w s).2 =
      Real.exp (-w / (kB * T)) * (intensities Real.exp kB (some T) w s).1 := by
  have hx : 0 < w / (kB * T) := by positivity
  have hne : Real.exp (w / (kB * T)) - 1 ≠ 0 := by
    have := Real.one_lt_exp_iff.2 hx
    linarith
  have hb : boseFactor Real.exp kB T w = 1 / (Real.exp (w / (kB * T)) - 1) := by
    simp [boseFactor, hT, abs_of_pos hw]
  simp only [intensities, hb]
  rw [neg_div, Real.exp_neg]
  have := (Real.exp_pos (w / (kB * T))).ne'
  field_simp
  ring

/-- **C25**: both sides are strictly positive multiples of the structure factor when `w, T > 0`. -/
theorem C25_population_positive (kB T w : ℝ) (hk : 0 < kB) (hT : 0 < T) (hw : w ≠ 0) :
    0 < boseFactor Real.exp kB T w := by
  have hx : 0 < |w| / (kB * T) := by have := abs_pos.2 hw; positivity
  have := Real.one_lt_exp_iff.2 hx
  simp only [boseFactor, hT, if_true]
  apply one_div_pos.2
  linarith

/-- **C25**: at zero temperature nothing is found on the gain side and the loss side is unmodified. -/
theorem C25_zero_temperature (exp : K → K) (kB w s : K) :
    intensities exp kB (some 0) w s = (s, 0) := by
  simp [intensities, boseFactor]

/-! ## C26 -/

/-- `np.isclose` of two temperatures in kelvin: `|given - stored| ≤ 1e-8 + 1e-5 |stored|`. -/
def CloseTemp (given stored : K) : Prop := |given - stored| ≤ 1 / 10 ^ 8 + 1 / 10 ^ 5 * |stored|

/-- **C26**. All combinations: a given temperature not close to the stored one is refused with
`ValueError`; otherwise the stored one is used, or the given one if none is stored, or no population
factor is applied if there is neither. -/
theorem C26_temperature_choice (stored given : Option K) :
    (∀ s g, stored = some s → given = some g → ¬ CloseTemp g s →
      usedTemperature true stored given = .error .valueError) ∧
    (∀ s, stored = some s → (∀ g, given = some g → CloseTemp g s) →
      usedTemperature true stored given = .ok (some s)) ∧
    (stored = none → usedTemperature true stored given = .ok given) ∧
    usedTemperature false stored given = .ok none := by
  refine ⟨?_, ?_, ?_, by simp [usedTemperature]⟩
  · rintro s g rfl rfl h
    simp only [CloseTemp] at h
    simp only [usedTemperature, boseTemperature, if_true, if_neg h]
  · rintro s rfl h
    cases given with
    | none => rfl
    | some g =>
      have := h g rfl
      simp only [CloseTemp] at this
      simp only [usedTemperature, boseTemperature, if_true, if_pos this]
  · rintro rfl
    cases given <;> rfl

/-- **C26**: the S(Q,w) map and the 1-D average of a structure factor with a stored temperature refuse
a conflicting one. -/
theorem C26_conflict_refused (exp : K → K) (kB c sfConv : K) (b : List K) (s g : K)
    (h : ¬ CloseTemp g s) {nq nm : Nat} (f sf : Fin nq → Fin nm → K) (sw : Fin nq → K)
    (aw : Option (Fin nq → K)) :
    calculateSqwMap exp kB c sfConv b true (some s) (some g) f sf = .error .valueError ∧
    calculate1dAverage exp kB c sfConv b true (some s) (some g) f sf sw aw =
      .error .valueError := by
  have h1 := (C26_temperature_choice (some s) (some g)).1 s g rfl rfl h
  have : calculateSqwMap exp kB c sfConv b true (some s) (some g) f sf = .error .valueError := by
    unfold calculateSqwMap
    rw [h1]
    rfl
  refine ⟨this, ?_⟩
  unfold calculate1dAverage
  dsimp only
  rw [this]
  rfl

/-! ## Non-vacuity -/

example : CloseTemp (300 : ℚ) 300 ∧ ¬ CloseTemp (300 : ℚ) 301 ∧ CloseTemp (300.001 : ℚ) 300 := by
  unfold CloseTemp
  norm_num [abs_of_pos, abs_of_neg]

/-- One mode at energy 3, bins from -4 to 4: gain in the second, loss in the fourth bin. -/
example : calculateSqwMap (fun _ => (3 : ℚ)) 1 1 1 [-4, -3, -2, 0, 4] true (some 5) none
    (fun (_ : Fin 1) (_ : Fin 1) => 3) (fun _ _ => 8) = .ok [[0, 4, 0, 3]] := by
  decide +kernel

end Euphonic.Dos
