import Verif.Props.BroadenVar
import Mathlib.Analysis.Complex.ExponentialBounds

/-!
# C70, C91, C93: `Spectrum1D.broaden` with a width function
-/

set_option autoImplicit false

namespace Euphonic.Broaden

theorem inHistBin_regular (e0 bw : ℝ) (hbw : 0 < bw) {n : Nat} (i j : Fin n) :
    InHistBin (fun k : Fin (n + 1) => e0 + (k : ℝ) * bw) j
      ((e0 + (i.castSucc : ℝ) * bw) + 1 / 2 * ((e0 + (i.succ : ℝ) * bw) - (e0 + (i.castSucc : ℝ) * bw))) ↔
      j = i := by
  unfold InHistBin
  simp only [Fin.val_castSucc, Fin.val_succ, Nat.cast_add, Nat.cast_one]
  constructor
  · rintro ⟨h1, h2⟩
    have h1' : (j : ℝ) * bw ≤ ((i : ℝ) + 1 / 2) * bw := by linarith
    have h1'' : (j : ℝ) ≤ (i : ℝ) + 1 / 2 := le_of_mul_le_mul_right h1' hbw
    have hji : j.val ≤ i.val := by
      by_contra hc
      have : ((i.val + 1 : ℕ) : ℝ) ≤ (j.val : ℝ) := Nat.cast_le.2 (by omega)
      push_cast at this
      linarith
    have hij : i.val ≤ j.val := by
      have h3 : ((i : ℝ) + 1 / 2) * bw ≤ ((j : ℝ) + 1) * bw := by
        rcases h2 with h | h <;> linarith
      have h4 : (i : ℝ) + 1 / 2 ≤ (j : ℝ) + 1 := le_of_mul_le_mul_right h3 hbw
      by_contra hc
      have : ((j.val + 1 : ℕ) : ℝ) ≤ (i.val : ℝ) := Nat.cast_le.2 (by omega)
      push_cast at this
      linarith
    exact Fin.ext (le_antisymm hji hij)
  · rintro rfl
    constructor
    · linarith
    · left
      linarith

theorem mapM_ok_map {α β : Type} (l : List α) (f : α → Except Err β) (g : α → β)
    (h : ∀ a ∈ l, f a = .ok (g a)) : l.mapM f = .ok (l.map g) := by
  induction l with
  | nil => rfl
  | cons a l ih =>
    rw [List.mapM_cons, h a (by simp), ih fun b hb => h b (by simp [hb])]
    rfl

theorem mapM_error_of {α β : Type} (l : List α) (f : α → Except Err β) (e : Err)
    (hne : l ≠ []) (h : ∀ a ∈ l, f a = .error e) : l.mapM f = .error e := by
  cases l with
  | nil => exact absurd rfl hne
  | cons a l =>
    rw [List.mapM_cons, h a (by simp)]
    rfl

/-- **C91** for a function that gives the same width everywhere: on a regular axis every bin is spread
with the kernel of that width (as far as half of the axis), for both shapes. `w'` is the width after
conversion and lower limit. -/
theorem C91_constant_function (coeffs : ℝ → List ℝ) (convention shape fit : String) (error : ℝ)
    (herr : 0 < error) (limit : ℝ) {n : Nat} (e0 bw : ℝ) (hbw : 0 < bw) (w w' : ℝ)
    (hw : effectiveWidth convention shape limit w = .ok w') (d d' : Fin (n + 1) → ℝ)
    (h : broadenFunction coeffs convention shape fit error (some limit)
      (fun k : Fin (n + 2) => e0 + (k : ℝ) * bw) (fun _ => w) d = .ok d') (b : Fin (n + 1)) :
    d' b = ∑ j : Fin (n + 1), if |(b : Int) - (j : Int)| ≤ (((n + 1) / 2 : Nat) : Int)
      then d j * bw * pdf shape (((b : ℝ) - (j : ℝ)) * bw) w' else 0 := by
  unfold broadenFunction at h
  simp only [Option.getD_some, hw] at h
  rw [mapM_ok_map _ _ (fun i : Fin (n + 1) => Peak.mk
      ((e0 + (i.castSucc : ℝ) * bw) + 1 / 2 * ((e0 + (i.succ : ℝ) * bw) - (e0 + (i.castSucc : ℝ) * bw)))
      w' (d i * bw))] at h
  · simp only [bind, Except.bind] at h
    have hfw : firstWidth (n := n + 1) (by omega) (fun k : Fin (n + 2) => e0 + (k : ℝ) * bw) = bw := by
      unfold firstWidth
      simp only
      push_cast
      ring
    have := C69_single_width coeffs shape fit error herr (by omega)
      (fun k : Fin (n + 2) => e0 + (k : ℝ) * bw) (by rw [hfw]; exact hbw.ne') _ w' (by
        intro p hp
        obtain ⟨i, -, rfl⟩ := List.mem_map.1 hp
        rfl) d' h b
    rw [this, hfw, List.map_map, ← List.ofFn_eq_map, List.sum_ofFn]
    refine Finset.sum_congr rfl fun i _ => ?_
    simp only [Function.comp]
    unfold response
    rw [Finset.sum_eq_single i]
    · by_cases hk : |(b : Int) - (i : Int)| ≤ (((n + 1) / 2 : Nat) : Int)
      · rw [if_pos ⟨(inHistBin_regular e0 bw hbw i i).2 rfl, hk⟩, if_pos hk]
      · rw [if_neg (fun hc => hk hc.2), if_neg hk, mul_zero]
    · intro j _ hj
      rw [if_neg (fun hc => hj ((inHistBin_regular e0 bw hbw i j).1 hc.1))]
    · intro hc
      exact absurd (Finset.mem_univ _) hc
  · intro i _
    simp only [bind, Except.bind, pure, Except.pure]
    congr 2
    rw [List.finRange_succ]
    simp

theorem lorentzian_half (x g : ℝ) (hg : 0 < g) :
    lorentzian x g = lorentzian 0 g / (1 + (2 * x / g) ^ 2) := by
  have hA : (0 : ℝ) < 1 + (2 * x / g) ^ 2 := by positivity
  have hpi := Real.pi_ne_zero
  unfold lorentzian
  rw [eq_div_iff hA.ne', div_mul_eq_mul_div, div_eq_div_iff]
  · field_simp
    ring
  · have : 0 < x ^ 2 + (g / 2) ^ 2 := by positivity
    positivity
  · have : 0 < (0 : ℝ) ^ 2 + (g / 2) ^ 2 := by positivity
    positivity

theorem normPdf_half (x w : ℝ) (hw : 0 < w) :
    normPdf x (w / Real.sqrt (8 * Real.log 2)) =
      normPdf 0 (w / Real.sqrt (8 * Real.log 2)) * (2 : ℝ) ^ (-(2 * x / w) ^ 2) := by
  have hlog : 0 < Real.log 2 := Real.log_pos (by norm_num)
  unfold normPdf
  rw [Real.rpow_def_of_pos (by norm_num : (0 : ℝ) < 2)]
  have hq : (Real.sqrt (8 * Real.log 2)) ^ 2 = 8 * Real.log 2 := Real.sq_sqrt (by positivity)
  have e1 : -(x / (w / Real.sqrt (8 * Real.log 2))) ^ 2 / 2 = Real.log 2 * -(2 * x / w) ^ 2 := by
    rw [div_div_eq_mul_div, div_pow, mul_pow, hq, div_pow]
    field_simp
    ring
  have e0 : -((0 : ℝ) / (w / Real.sqrt (8 * Real.log 2))) ^ 2 / 2 = 0 := by simp
  rw [e1, e0, Real.exp_zero]
  ring

/-- **C91** for width functions: with the default convention and no lower limit in the way, the kernels of
both shapes have the requested full width at half maximum. -/
theorem C91_function_width (w x : ℝ) (hw : 0 < w) :
    (∃ s, effectiveWidth "fwhm" "gauss" 0 w = .ok s ∧
      pdf "gauss" x s = pdf "gauss" 0 s * (2 : ℝ) ^ (-(2 * x / w) ^ 2)) ∧
    ∃ s, effectiveWidth "fwhm" "lorentz" 0 w = .ok s ∧
      pdf "lorentz" x s = pdf "lorentz" 0 s / (1 + (2 * x / w) ^ 2) := by
  constructor
  · refine ⟨w / Real.sqrt (8 * Real.log 2), ?_, ?_⟩
    · unfold effectiveWidth
      rw [if_pos ⟨rfl, rfl⟩, max_eq_left]
      positivity
    · unfold pdf
      rw [if_pos rfl, if_pos rfl]
      exact normPdf_half x w hw
  · refine ⟨w, ?_, ?_⟩
    · unfold effectiveWidth
      rw [if_neg (by decide), if_neg (by decide), if_pos (Or.inr rfl), max_eq_left hw.le]
    · unfold pdf
      rw [if_neg (by decide), if_neg (by decide)]
      exact lorentzian_half x w hw

/-- **C93** (where it holds). With standard deviations, and for Lorentzian kernels, a width above the lower
limit is used as the function gives it and a width below is replaced by the limit. -/
theorem C93_limit_partial (convention shape : String) (limit w : ℝ)
    (h : (convention = "std" ∧ shape = "gauss") ∨ (convention = "fwhm" ∧ shape = "lorentz")) :
    effectiveWidth convention shape limit w = .ok (if limit ≤ w then w else limit) := by
  have : max w limit = if limit ≤ w then w else limit := by
    split
    · rename_i hl
      exact max_eq_left hl
    · rename_i hl
      exact max_eq_right (not_le.1 hl).le
  unfold effectiveWidth
  rcases h with ⟨rfl, rfl⟩ | ⟨rfl, rfl⟩
  · rw [if_neg (by decide), if_neg (by decide), if_pos (Or.inl rfl), this]
  · rw [if_neg (by decide), if_neg (by decide), if_pos (Or.inr rfl), this]

/-- **C93 is violated by the default options**: for Gaussian kernels and full widths the limit is compared
with the standard deviation, so a width that is above the limit, but less than about 2.35 times the
limit, is enlarged. -/
theorem C93_limit_on_sigma (limit w : ℝ) (hlimit : 0 < limit) (h1 : limit ≤ w)
    (h2 : w < Real.sqrt (8 * Real.log 2) * limit) :
    effectiveWidth "fwhm" "gauss" limit w = .ok limit ∧ w / Real.sqrt (8 * Real.log 2) < limit := by
  have hlog : 0 < Real.log 2 := Real.log_pos (by norm_num)
  have hq : 0 < Real.sqrt (8 * Real.log 2) := by positivity
  have hlt : w / Real.sqrt (8 * Real.log 2) < limit := by
    rw [div_lt_iff₀ hq]
    linarith
  refine ⟨?_, hlt⟩
  unfold effectiveWidth
  rw [if_pos ⟨rfl, rfl⟩, max_eq_right hlt.le]

/-- The range of widths is not empty: twice the limit. -/
example : (1 : ℝ) ≤ 2 ∧ (2 : ℝ) < Real.sqrt (8 * Real.log 2) * 1 := by
  refine ⟨by norm_num, ?_⟩
  rw [mul_one, Real.lt_sqrt (by norm_num)]
  have := Real.log_two_gt_d9
  linarith

/-- **C93**, refusals: a standard deviation is not defined for a Lorentzian, and other conventions do not
exist. -/
theorem C93_conventions (shape : String) (limit w : ℝ) :
    effectiveWidth "std" "lorentz" limit w = .error .valueError ∧
    ∀ convention, convention ≠ "std" → convention ≠ "fwhm" →
      effectiveWidth convention shape limit w = .error .valueError := by
  constructor
  · unfold effectiveWidth
    rw [if_neg (by decide), if_pos ⟨rfl, rfl⟩]
  · intro c h1 h2
    unfold effectiveWidth
    rw [if_neg (fun h => h2 h.1), if_neg (fun h => h1 h.1), if_neg (by tauto)]

/-- Values with given positions and widths, and weights. -/
noncomputable def peaksOf {k : Nat} (pos width : Fin k → ℝ) (wts : Fin k → ℝ) : List Peak :=
  (List.finRange k).map fun i => ⟨pos i, width i, wts i⟩

theorem sum_peaksOf {k : Nat} (pos width wts : Fin k → ℝ) (f : Peak → ℝ) :
    ((peaksOf pos width wts).map f).sum = ∑ i, f ⟨pos i, width i, wts i⟩ := by
  unfold peaksOf
  rw [List.map_map, ← List.ofFn_eq_map, List.sum_ofFn]
  rfl

theorem widthInterpolated_linear (coeffs : ℝ → List ℝ) (shape fit : String) (error : ℝ)
    (herr : 0 < error) {n : Nat} (hn : n ≠ 0) (edges : Fin (n + 1) → ℝ)
    (hbw : firstWidth hn edges ≠ 0) {k : Nat} (pos width : Fin k → ℝ) :
    (∃ e, ∀ wts, widthInterpolated coeffs shape fit error edges (peaksOf pos width wts) = .error e) ∨
    ∃ G : Fin k → Fin n → ℝ, ∀ wts, widthInterpolated coeffs shape fit error edges (peaksOf pos width wts) =
      .ok fun b => ∑ j, wts j * G j b := by
  cases hsp : getSpacing error shape fit with
  | error e =>
    left
    refine ⟨e, fun wts => ?_⟩
    unfold widthInterpolated
    rw [hsp]
    rfl
  | ok spacing =>
    cases k with
    | zero =>
      left
      refine ⟨.valueError, fun wts => ?_⟩
      unfold widthInterpolated
      rw [hsp]
      simp only [bind, Except.bind, dif_neg hn]
      rfl
    | succ k =>
      have hcons : ∀ wts, peaksOf pos width wts = ⟨pos 0, width 0, wts 0⟩ ::
          peaksOf (fun i : Fin k => pos i.succ) (fun i => width i.succ) (fun i => wts i.succ) := by
        intro wts
        unfold peaksOf
        rw [List.finRange_succ, List.map_cons, List.map_map]
        rfl
      set M := List.foldr min (width 0) ((List.finRange k).map fun i => width i.succ) with hM
      set X := List.foldr max (width 0) ((List.finRange k).map fun i => width i.succ) with hX
      have hmin : ∀ wts : Fin (k + 1) → ℝ, minWidth ⟨pos 0, width 0, wts 0⟩
          (peaksOf (fun i : Fin k => pos i.succ) (fun i => width i.succ) (fun i => wts i.succ)) = M := by
        intro wts
        unfold minWidth peaksOf
        rw [List.map_map]
        rfl
      have hmax : ∀ wts : Fin (k + 1) → ℝ, maxWidth ⟨pos 0, width 0, wts 0⟩
          (peaksOf (fun i : Fin k => pos i.succ) (fun i => width i.succ) (fun i => wts i.succ)) = X := by
        intro wts
        unfold maxWidth peaksOf
        rw [List.map_map]
        rfl
      by_cases h1 : M ≤ 0
      · left
        refine ⟨.valueError, fun wts => ?_⟩
        unfold widthInterpolated
        rw [hsp, hcons]
        simp only [bind, Except.bind, dif_neg hn, hmin, if_pos h1]
      · by_cases h2 : shape ≠ "gauss" ∧ shape ≠ "lorentz"
        · left
          refine ⟨.unboundLocalError, fun wts => ?_⟩
          unfold widthInterpolated
          rw [hsp, hcons]
          simp only [bind, Except.bind, dif_neg hn, hmin, if_neg h1, if_pos h2]
        · right
          have hshape : shape = "gauss" ∨ shape = "lorentz" := by tauto
          have hs1 := C92_spacing_above_one error herr shape fit hshape spacing hsp
          have hM0 : 0 < M := not_le.1 h1
          set nk := nKernels spacing X M with hnk
          set cs := (if nk + 1 = 1 then [1] else coeffs spacing) with hcs
          refine ⟨fun j b => mixOf cs spacing M nk ⟨pos j, width j, 0⟩ *
              response shape edges (firstWidth hn edges)
                (widthSample spacing M (kernelIdx spacing M nk (width j) - 1)) (pos j) b +
            if kernelIdx spacing M nk (width j) ≤ nk then (1 - mixOf cs spacing M nk ⟨pos j, width j, 0⟩) *
              response shape edges (firstWidth hn edges)
                (widthSample spacing M (kernelIdx spacing M nk (width j))) (pos j) b
            else 0, fun wts => ?_⟩
          have hrun : widthInterpolated coeffs shape fit error edges (peaksOf pos width wts) =
              .ok (((List.range (nk + 1)).map (· + 1)).foldl
                (loopStep shape edges (firstWidth hn edges) cs spacing M nk (peaksOf pos width wts))
                ⟨fun _ => 0, []⟩).spectrum := by
            unfold widthInterpolated
            rw [hsp, hcons]
            simp only [bind, Except.bind, dif_neg hn, hmin, hmax, if_neg h1, if_neg h2]
            rfl
          rw [hrun]
          congr 1
          funext b
          rw [loop_total shape edges (firstWidth hn edges) hbw cs spacing M nk _ ?_ b, sum_peaksOf]
          · rfl
          · intro q hq
            have hq' := hq
            rw [hcons] at hq'
            have := (width_range _ _ q hq').1
            rw [hmin] at this
            have h3 := (kernelIdx_spec spacing M hs1 hM0 nk q.width 0 (Nat.zero_le _)).1 (by
              unfold widthSample
              rw [pow_zero, one_mul]
              exact this)
            omega

/-- **C70** for width functions: the result is linear in the data, and whether broadening is refused does
not depend on them. -/
theorem C70_linear_function (coeffs : ℝ → List ℝ) (convention shape fit : String) (error : ℝ)
    (herr : 0 < error) (limit : Option ℝ) {n : Nat} (hn : n ≠ 0) (edges : Fin (n + 1) → ℝ)
    (hbw : firstWidth hn edges ≠ 0) (width : ℝ → ℝ) :
    (∃ e, ∀ d, broadenFunction coeffs convention shape fit error limit edges width d = .error e) ∨
    ∃ G : Fin n → Fin n → ℝ, ∀ d, broadenFunction coeffs convention shape fit error limit edges width d =
      .ok fun b => ∑ j, d j * G j b := by
  have hne : (List.finRange n) ≠ [] := by
    intro hc
    have := congrArg List.length hc
    simp at this
    exact hn this
  -- whether a width is accepted does not depend on its value
  have hconv : ∀ lim, (∃ e, ∀ w, effectiveWidth convention shape lim w = .error e) ∨
      ∃ g : ℝ → ℝ, ∀ w, effectiveWidth convention shape lim w = .ok (g w) := by
    intro lim
    unfold effectiveWidth
    by_cases h1 : convention = "fwhm" ∧ shape = "gauss"
    · right
      exact ⟨fun w => max (w / Real.sqrt (8 * Real.log 2)) lim, fun w => by rw [if_pos h1]⟩
    · by_cases h2 : convention = "std" ∧ shape = "lorentz"
      · left
        exact ⟨_, fun w => by rw [if_neg h1, if_pos h2]⟩
      · by_cases h3 : convention = "std" ∨ convention = "fwhm"
        · right
          exact ⟨fun w => max w lim, fun w => by rw [if_neg h1, if_neg h2, if_pos h3]⟩
        · left
          exact ⟨_, fun w => by rw [if_neg h1, if_neg h2, if_neg h3]⟩
  unfold broadenFunction
  dsimp only
  generalize limit.getD _ = lim
  generalize ((List.finRange n).map fun i => edges i.succ - edges i.castSucc).headD 0 = bw
  rcases hconv lim with ⟨e, he⟩ | ⟨g, hg⟩
  · left
    refine ⟨e, fun d => ?_⟩
    rw [mapM_error_of _ _ e hne]
    · rfl
    · intro i _
      rw [he]
      rfl
  · have hrun : ∀ d : Fin n → ℝ, ((List.finRange n).mapM fun i => do
          let w ← effectiveWidth convention shape lim
            (width (edges i.castSucc + 1 / 2 * (edges i.succ - edges i.castSucc)))
          return Peak.mk (edges i.castSucc + 1 / 2 * (edges i.succ - edges i.castSucc)) w (d i * bw)) =
        (.ok (peaksOf (fun i : Fin n => edges i.castSucc + 1 / 2 * (edges i.succ - edges i.castSucc))
          (fun i => g (width (edges i.castSucc + 1 / 2 * (edges i.succ - edges i.castSucc))))
          (fun i => d i * bw)) : Except Err (List Peak)) := by
      intro d
      unfold peaksOf
      apply mapM_ok_map
      intro i _
      rw [hg]
      rfl
    rcases widthInterpolated_linear coeffs shape fit error herr hn edges hbw
      (fun i : Fin n => edges i.castSucc + 1 / 2 * (edges i.succ - edges i.castSucc))
      (fun i => g (width (edges i.castSucc + 1 / 2 * (edges i.succ - edges i.castSucc)))) with
      ⟨e, he⟩ | ⟨G, hG⟩
    · left
      refine ⟨e, fun d => ?_⟩
      rw [hrun d]
      exact he _
    · right
      refine ⟨fun j b => bw * G j b, fun d => ?_⟩
      rw [hrun d]
      refine (hG _).trans ?_
      congr 1
      funext b
      exact Finset.sum_congr rfl fun j _ => by ring

end Euphonic.Broaden
