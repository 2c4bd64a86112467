import Verif.Props.BroadenFn
import Verif.Lemmas.KernelSum
import Mathlib.Analysis.Real.Pi.Bounds
import Mathlib.Analysis.Complex.ExponentialBounds

/-!
# C142: how much intensity is kept when a spectrum is broadened

The area of a broadened value on a regular axis (bin width times the sum over the bins) compared with the
value itself, for both shapes, and what follows for whole spectra.
-/

set_option autoImplicit false

namespace Euphonic.Broaden

open Real MeasureTheory

/-- **C142**, the kernels are densities: the area under either kernel is one for every positive width. -/
theorem C142_kernel_area (shape : String) (s : ℝ) (hs : 0 < s) : ∫ x, pdf shape x s = 1 := by
  unfold pdf
  split
  · exact normPdf_integral s hs
  · exact lorentzian_integral s hs

/-! ## Sums over bins -/

theorem sum_bins {n : Nat} (j : Fin n) (g : ℕ → ℝ) :
    (∑ b : Fin n, if |(b : Int) - (j : Int)| ≤ ((n / 2 : Nat) : Int) then g ((b : Int) - (j : Int)).natAbs
      else 0) =
    g 0 + ∑ i ∈ Finset.range (min j.val (n / 2)), g (i + 1) +
      ∑ i ∈ Finset.range (min (n - 1 - j.val) (n / 2)), g (i + 1) := by
  have hj := j.isLt
  rw [Fin.sum_univ_eq_sum_range (fun b : ℕ => if |(b : Int) - (j : Int)| ≤ ((n / 2 : Nat) : Int)
    then g ((b : Int) - (j : Int)).natAbs else 0) n]
  have hn : n = (j.val + 1) + (n - 1 - j.val) := by omega
  have hcut : ∀ m : ℕ, ∑ i ∈ Finset.range (min m (n / 2)), g (i + 1) =
      ∑ i ∈ Finset.range m, if i + 1 ≤ n / 2 then g (i + 1) else 0 := by
    intro m
    rw [← Finset.sum_filter]
    refine Finset.sum_congr ?_ fun _ _ => rfl
    ext i
    simp only [Finset.mem_range, Finset.mem_filter]
    omega
  rw [show Finset.range n = Finset.range ((j.val + 1) + (n - 1 - j.val)) from congrArg _ hn,
    Finset.sum_range_add, Finset.sum_range_succ, hcut, hcut, ← Finset.sum_range_reflect _ j.val]
  rw [add_comm (g 0)]
  congr 1
  · congr 1
    · refine Finset.sum_congr rfl fun i hi => ?_
      have := Finset.mem_range.1 hi
      have e : ((j.val - 1 - i : ℕ) : Int) - (j.val : Int) = -((i : Int) + 1) := by omega
      rw [e, abs_neg, Int.natAbs_neg, abs_of_nonneg (by omega),
        show ((i : Int) + 1).natAbs = i + 1 by omega]
      by_cases h : i + 1 ≤ n / 2
      · rw [if_pos h, if_pos (by exact_mod_cast h)]
      · rw [if_neg h, if_neg (by exact_mod_cast h)]
    · rw [sub_self, abs_zero, if_pos (by omega)]
      rfl
  · refine Finset.sum_congr rfl fun i _ => ?_
    have e : ((j.val + 1 + i : ℕ) : Int) - (j.val : Int) = (i : Int) + 1 := by push_cast; ring
    rw [e, abs_of_nonneg (by omega), show ((i : Int) + 1).natAbs = i + 1 by omega]
    by_cases h : i + 1 ≤ n / 2
    · rw [if_pos h, if_pos (by exact_mod_cast h)]
    · rw [if_neg h, if_neg (by exact_mod_cast h)]

theorem pdf_even (shape : String) (x s : ℝ) : pdf shape (-x) s = pdf shape x s := by
  unfold pdf
  split
  · exact normPdf_even x s
  · exact lorentzian_even x s

theorem pdf_pos (shape : String) (x s : ℝ) (hs : 0 < s) : 0 < pdf shape x s := by
  unfold pdf
  split
  · exact normPdf_pos x s hs
  · exact lorentzian_pos x s hs

theorem pdf_integrable (shape : String) (s : ℝ) (hs : 0 < s) : Integrable fun x => pdf shape x s := by
  unfold pdf
  split
  · exact normPdf_integrable s hs
  · exact lorentzian_integrable s hs

theorem pdf_antitone (shape : String) (s : ℝ) (hs : 0 < s) :
    AntitoneOn (fun x => pdf shape x s) (Set.Ici 0) := by
  unfold pdf
  split
  · exact normPdf_antitone s hs
  · exact lorentzian_antitone s hs

/-- The area that a value in bin `j` of a regular axis of `n` bins of width `bw` gets per unit weight: the
kernel of width `s` at the distances of the bins, as far as half of the axis, times the bin width. -/
noncomputable def keptArea (shape : String) (n : Nat) (j : Fin n) (bw s : ℝ) : ℝ :=
  ∑ b : Fin n, if |(b : Int) - (j : Int)| ≤ ((n / 2 : Nat) : Int)
    then bw * pdf shape (((b : ℝ) - (j : ℝ)) * bw) s else 0

/-- Area of the kernel on an axis without ends. -/
noncomputable def fullArea (shape : String) (bw s : ℝ) : ℝ :=
  bw * pdf shape 0 s + 2 * ∑' n : ℕ, bw * pdf shape (((n : ℝ) + 1) * bw) s

theorem keptArea_eq (shape : String) (n : Nat) (j : Fin n) (bw s : ℝ) :
    keptArea shape n j bw s = bw * pdf shape 0 s +
      ∑ i ∈ Finset.range (min j.val (n / 2)), bw * pdf shape (((i : ℝ) + 1) * bw) s +
      ∑ i ∈ Finset.range (min (n - 1 - j.val) (n / 2)), bw * pdf shape (((i : ℝ) + 1) * bw) s := by
  have := sum_bins j fun i => bw * pdf shape ((i : ℝ) * bw) s
  simp only [Nat.cast_zero, zero_mul, Nat.cast_add, Nat.cast_one] at this
  rw [← this]
  unfold keptArea
  refine Finset.sum_congr rfl fun b _ => ?_
  congr 2
  have hcast : (((((b : Int) - (j : Int)).natAbs : ℕ) : ℝ)) = |(b : ℝ) - (j : ℝ)| := by
    rw [Nat.cast_natAbs]
    push_cast
    rfl
  rw [hcast]
  rcases abs_choice ((b : ℝ) - (j : ℝ)) with h | h
  · rw [h]
  · rw [h, neg_mul, pdf_even]

/-- What is lost at the ends of the axis is at most the area of the kernel beyond the last bin. -/
theorem keptArea_bounds (shape : String) (n : Nat) (j : Fin n) (bw s : ℝ) (hbw : 0 < bw) (hs : 0 < s) :
    keptArea shape n j bw s ≤ fullArea shape bw s ∧
    fullArea shape bw s - (∫ x in Set.Ioi (((min j.val (n / 2) : ℕ) : ℝ) * bw), pdf shape x s) -
      (∫ x in Set.Ioi (((min (n - 1 - j.val) (n / 2) : ℕ) : ℝ) * bw), pdf shape x s) ≤
      keptArea shape n j bw s := by
  obtain ⟨hsum, htail⟩ := tail_le (fun x => pdf shape x s) bw hbw (pdf_antitone shape s hs)
    (pdf_integrable shape s hs).integrableOn fun x => (pdf_pos shape x s hs).le
  have hpos : ∀ i : ℕ, 0 ≤ bw * pdf shape (((i : ℝ) + 1) * bw) s := fun i =>
    mul_nonneg hbw.le (pdf_pos shape _ s hs).le
  have hsplit : ∀ N : ℕ, (∑' n : ℕ, bw * pdf shape (((n : ℝ) + 1) * bw) s) =
      (∑ i ∈ Finset.range N, bw * pdf shape (((i : ℝ) + 1) * bw) s) +
        ∑' n : ℕ, bw * pdf shape (((n : ℝ) + N + 1) * bw) s := by
    intro N
    rw [← hsum.sum_add_tsum_nat_add N]
    push_cast
    rfl
  have htp : ∀ N : ℕ, 0 ≤ ∑' n : ℕ, bw * pdf shape (((n : ℝ) + N + 1) * bw) s := fun N =>
    tsum_nonneg fun i => mul_nonneg hbw.le (pdf_pos shape _ s hs).le
  rw [keptArea_eq]
  unfold fullArea
  have h1 := hsplit (min j.val (n / 2))
  have h2 := hsplit (min (n - 1 - j.val) (n / 2))
  have h3 := htail (min j.val (n / 2))
  have h4 := htail (min (n - 1 - j.val) (n / 2))
  have h5 := htp (min j.val (n / 2))
  have h6 := htp (min (n - 1 - j.val) (n / 2))
  constructor <;> linarith

/-! ## Gaussian -/

theorem fullArea_gauss (bw s : ℝ) (hbw : 0 < bw) (hs : 0 < s) :
    1 ≤ fullArea "gauss" bw s ∧
      fullArea "gauss" bw s ≤ 1 + 2 / (exp (2 * π ^ 2 * (s / bw) ^ 2) - 1) := by
  have h := gauss_total s bw hs hbw
  have hpi := Real.pi_pos
  obtain ⟨h0, h1⟩ := gauss_excess (2 * π ^ 2 * (s / bw) ^ 2) (by positivity)
  unfold fullArea pdf
  simp only [if_true]
  rw [h]
  constructor
  · linarith
  · have : 2 / (exp (2 * π ^ 2 * (s / bw) ^ 2) - 1) = 2 * (1 / (exp (2 * π ^ 2 * (s / bw) ^ 2) - 1)) := by
      ring
    linarith

theorem gauss_excess_small (bw s : ℝ) (hbw : 0 < bw) (hs : bw ≤ s) :
    2 / (exp (2 * π ^ 2 * (s / bw) ^ 2) - 1) ≤ 1 / 10 ^ 8 := by
  have hpi : 3.14 < π := Real.pi_gt_d2
  have hr : 1 ≤ s / bw := by rwa [le_div_iff₀ hbw, one_mul]
  have hc : 19.7 ≤ 2 * π ^ 2 * (s / bw) ^ 2 := by
    have h1 : 9.85 ≤ π ^ 2 := by nlinarith
    have h2 : 1 ≤ (s / bw) ^ 2 := by nlinarith
    nlinarith
  have he : 3 * 10 ^ 8 ≤ exp (2 * π ^ 2 * (s / bw) ^ 2) := by
    refine le_trans ?_ (exp_le_exp.2 hc)
    have e1 : exp (19.7 : ℝ) = exp 1 ^ 19 * exp 0.7 := by
      rw [← exp_nat_mul, ← exp_add]
      norm_num
    rw [e1]
    have h1 : (2.7182 : ℝ) ^ 19 ≤ exp 1 ^ 19 :=
      pow_le_pow_left₀ (by norm_num) (by linarith [Real.exp_one_gt_d9]) 19
    have h2 : (1.945 : ℝ) ≤ exp 0.7 := by
      have := Real.quadratic_le_exp_of_nonneg (x := 0.7) (by norm_num)
      norm_num at this ⊢
      linarith
    have h3 : (2.7182 : ℝ) ^ 19 * 1.945 ≤ exp 1 ^ 19 * exp 0.7 :=
      mul_le_mul h1 h2 (by norm_num) (by positivity)
    refine le_trans ?_ h3
    norm_num
  rw [div_le_div_iff₀ (by linarith) (by norm_num)]
  linarith

/-- **C142**, Gaussian of standard deviation not below the bin width, on a regular axis: a value keeps all of
its area but the part of the Gaussian beyond the ends of the axis (or beyond half of its length), and gains at
most one part in 10⁸. -/
theorem C142_gauss_value (n : Nat) (j : Fin n) (bw s : ℝ) (hbw : 0 < bw) (hs : bw ≤ s) :
    1 - 1 / 2 * exp (-((min j.val (n / 2) : ℕ) * bw / s) ^ 2 / 2) -
        1 / 2 * exp (-((min (n - 1 - j.val) (n / 2) : ℕ) * bw / s) ^ 2 / 2) ≤ keptArea "gauss" n j bw s ∧
      keptArea "gauss" n j bw s ≤ 1 + 1 / 10 ^ 8 := by
  have hs0 : 0 < s := hbw.trans_le hs
  obtain ⟨h1, h2⟩ := keptArea_bounds "gauss" n j bw s hbw hs0
  obtain ⟨h3, h4⟩ := fullArea_gauss bw s hbw hs0
  have h5 := gauss_excess_small bw s hbw hs
  have t := normPdf_tail s hs0
  have t1 := t ((min j.val (n / 2) : ℕ) * bw) (by positivity)
  have t2 := t ((min (n - 1 - j.val) (n / 2) : ℕ) * bw) (by positivity)
  simp only [pdf, if_true] at h2
  constructor <;> linarith

/-- In the middle of 101 bins a Gaussian two bins wide keeps more than 99 % -/
example : 0.99 ≤ keptArea "gauss" 101 50 1 2 ∧ keptArea "gauss" 101 50 1 2 ≤ 1 + 1 / 10 ^ 8 := by
  obtain ⟨h1, h2⟩ := C142_gauss_value 101 50 1 2 (by norm_num) (by norm_num)
  refine ⟨le_trans ?_ h1, h2⟩
  have e : ((50 : Fin 101) : ℕ) = 50 := rfl
  rw [e]
  norm_num
  have h3 : exp (-(625 / 2 : ℝ)) ≤ 1 / 100 := by
    rw [exp_neg, inv_eq_one_div]
    refine one_div_le_one_div_of_le (by norm_num) ?_
    have := Real.add_one_le_exp (625 / 2 : ℝ)
    norm_num at this
    linarith
  norm_num at h3 ⊢
  linarith

/-- **C142**, any width: the gain of a Gaussian is at most `2/(exp(2π²(s/bw)²) - 1)`. -/
theorem C142_gauss_any_width (n : Nat) (j : Fin n) (bw s : ℝ) (hbw : 0 < bw) (hs : 0 < s) :
    keptArea "gauss" n j bw s ≤ 1 + 2 / (exp (2 * π ^ 2 * (s / bw) ^ 2) - 1) :=
  (keptArea_bounds "gauss" n j bw s hbw hs).1.trans (fullArea_gauss bw s hbw hs).2

/-! ## Lorentzian -/

theorem fullArea_lorentz (bw g : ℝ) (hbw : 0 < bw) (hg : 0 < g) :
    fullArea "lorentz" bw g = 1 + 2 / (exp (π * g / bw) - 1) := by
  rw [← lorentz_total g bw hg hbw]
  unfold fullArea pdf
  simp only [show ("lorentz" = "gauss") = False by decide, if_false]

/-- **C142**, Lorentzian of full width `g`: the sum over an axis without ends is `1 + 2/(exp(πg/bw) - 1)`
exactly, so a value gains at most this, and it loses at most the tails beyond the ends of the axis (or beyond
half of its length). -/
theorem C142_lorentz_value (n : Nat) (j : Fin n) (bw g : ℝ) (hbw : 0 < bw) (hg : 0 < g) :
    2 / (exp (π * g / bw) - 1) + arctan (2 * ((min j.val (n / 2) : ℕ) * bw) / g) / π +
        arctan (2 * ((min (n - 1 - j.val) (n / 2) : ℕ) * bw) / g) / π ≤ keptArea "lorentz" n j bw g ∧
      keptArea "lorentz" n j bw g ≤ 1 + 2 / (exp (π * g / bw) - 1) := by
  obtain ⟨h1, h2⟩ := keptArea_bounds "lorentz" n j bw g hbw hg
  rw [fullArea_lorentz bw g hbw hg] at h1 h2
  simp only [pdf, show ("lorentz" = "gauss") = False by decide, if_false] at h2
  rw [lorentzian_tail g hg, lorentzian_tail g hg] at h2
  constructor <;> linarith

/-- **C142**: with a Lorentzian as wide as a bin (the default lower limit of widths) the sum over the bins
gains less than a tenth. -/
theorem C142_lorentz_gain (n : Nat) (j : Fin n) (bw g : ℝ) (hbw : 0 < bw) (hg : bw ≤ g) :
    keptArea "lorentz" n j bw g ≤ 1 + 1 / 10 := by
  refine (C142_lorentz_value n j bw g hbw (hbw.trans_le hg)).2.trans ?_
  have hpi : 3.14 < π := Real.pi_gt_d2
  have hr : 1 ≤ g / bw := by rwa [le_div_iff₀ hbw, one_mul]
  have hc : 3.14 ≤ π * g / bw := by
    rw [mul_div_assoc]
    nlinarith
  have he : 21 ≤ exp (π * g / bw) := by
    refine le_trans ?_ (exp_le_exp.2 hc)
    have e1 : exp (3.14 : ℝ) = exp 1 ^ 3 * exp 0.14 := by
      rw [← exp_nat_mul, ← exp_add]
      norm_num
    rw [e1]
    have h1 : (2.7182 : ℝ) ^ 3 ≤ exp 1 ^ 3 :=
      pow_le_pow_left₀ (by norm_num) (by linarith [Real.exp_one_gt_d9]) 3
    have h2 : (1.14 : ℝ) ≤ exp 0.14 := by
      have := Real.add_one_le_exp (0.14 : ℝ)
      norm_num at this ⊢
      linarith
    have h3 : (2.7182 : ℝ) ^ 3 * 1.14 ≤ exp 1 ^ 3 * exp 0.14 :=
      mul_le_mul h1 h2 (by norm_num) (by positivity)
    refine le_trans ?_ h3
    norm_num
  have : 2 / (exp (π * g / bw) - 1) ≤ 1 / 10 := by
    rw [div_le_div_iff₀ (by linarith) (by norm_num)]
    linarith
  linarith

/-! ## Whole spectra -/

/-- **C142**, width function that is constant: the area of the broadened spectrum is the sum over the bins of
their area times what each of them keeps. -/
theorem C142_spectrum (coeffs : ℝ → List ℝ) (convention shape fit : String) (error : ℝ)
    (herr : 0 < error) (limit : ℝ) {n : Nat} (e0 bw : ℝ) (hbw : 0 < bw) (w w' : ℝ)
    (hw : effectiveWidth convention shape limit w = .ok w') (d d' : Fin (n + 1) → ℝ)
    (h : broadenFunction coeffs convention shape fit error (some limit)
      (fun k : Fin (n + 2) => e0 + (k : ℝ) * bw) (fun _ => w) d = .ok d') :
    ∑ b, bw * d' b = ∑ j, (bw * d j) * keptArea shape (n + 1) j bw w' := by
  simp only [C91_constant_function coeffs convention shape fit error herr limit e0 bw hbw w w' hw d d' h]
  simp only [Finset.mul_sum]
  rw [Finset.sum_comm]
  refine Finset.sum_congr rfl fun j _ => ?_
  unfold keptArea
  rw [Finset.mul_sum]
  refine Finset.sum_congr rfl fun b _ => ?_
  split
  · ring
  · ring

/-- **C142**, Gaussian: broadening with a constant width does not add intensity to a spectrum without
negative values, except for one part in 10⁸, if the standard deviation is not below the bin width; of a bin it
loses at most the part of the Gaussian beyond the ends of the axis (or beyond half of its length). -/
theorem C142_spectrum_gauss (coeffs : ℝ → List ℝ) (convention fit : String) (error : ℝ)
    (herr : 0 < error) (limit : ℝ) {n : Nat} (e0 bw : ℝ) (hbw : 0 < bw) (w w' : ℝ)
    (hw : effectiveWidth convention "gauss" limit w = .ok w') (hw' : bw ≤ w') (d d' : Fin (n + 1) → ℝ)
    (hd : ∀ j, 0 ≤ d j)
    (h : broadenFunction coeffs convention "gauss" fit error (some limit)
      (fun k : Fin (n + 2) => e0 + (k : ℝ) * bw) (fun _ => w) d = .ok d') :
    ∑ b, bw * d' b ≤ (1 + 1 / 10 ^ 8) * ∑ j, bw * d j ∧
      ∑ j : Fin (n + 1), (bw * d j) *
        (1 - 1 / 2 * exp (-((min j.val ((n + 1) / 2) : ℕ) * bw / w') ^ 2 / 2) -
          1 / 2 * exp (-((min (n - j.val) ((n + 1) / 2) : ℕ) * bw / w') ^ 2 / 2)) ≤ ∑ b, bw * d' b := by
  rw [C142_spectrum coeffs convention "gauss" fit error herr limit e0 bw hbw w w' hw d d' h, Finset.mul_sum]
  constructor
  · refine Finset.sum_le_sum fun j _ => ?_
    rw [mul_comm]
    exact mul_le_mul_of_nonneg_right (C142_gauss_value (n + 1) j bw w' hbw hw').2
      (mul_nonneg hbw.le (hd j))
  · refine Finset.sum_le_sum fun j _ => ?_
    exact mul_le_mul_of_nonneg_left (C142_gauss_value (n + 1) j bw w' hbw hw').1
      (mul_nonneg hbw.le (hd j))

/-- Three bins of width one broadened with a standard deviation of two meet the hypotheses (of
`C91_constant_function` as well). -/
example (coeffs : ℝ → List ℝ) : effectiveWidth "std" "gauss" 1 2 = .ok 2 ∧ (1 : ℝ) ≤ 2 ∧
    ∃ d', broadenFunction coeffs "std" "gauss" "cubic" (1 / 100) (some 1)
      (fun k : Fin (2 + 2) => 0 + (k : ℝ) * 1) (fun _ => 2) (fun j : Fin (2 + 1) => (j : ℝ)) = .ok d' := by
  have hw : effectiveWidth "std" "gauss" 1 2 = .ok 2 := by
    unfold effectiveWidth
    rw [if_neg (by decide), if_neg (by decide), if_pos (Or.inl rfl)]
    norm_num
  refine ⟨hw, by norm_num, ?_⟩
  unfold broadenFunction
  simp only [Option.getD_some, hw]
  rw [mapM_ok_map _ _ (fun i : Fin (2 + 1) => Peak.mk
      ((0 + (i.castSucc : ℝ) * 1) + 1 / 2 * ((0 + (i.succ : ℝ) * 1) - (0 + (i.castSucc : ℝ) * 1)))
      2 ((i : ℝ) * (List.map (fun i : Fin (2 + 1) => (0 + (i.succ : ℝ) * 1) - (0 + (i.castSucc : ℝ) * 1))
        (List.finRange (2 + 1))).headD 0))]
  · simp only [bind, Except.bind]
    unfold widthInterpolated
    rw [cubic_spacing]
    simp only [bind, Except.bind, List.finRange_succ, List.map_cons]
    rw [dif_neg (by omega), if_neg, if_neg (by decide)]
    · exact ⟨_, rfl⟩
    · simp [minWidth]
  · intro i _
    rfl

theorem response_area (shape : String) {n : Nat} (e0 bw s x : ℝ) (hbw : 0 < bw) (hs : 0 < s) (M : ℝ)
    (hM0 : 0 ≤ M) (hM : ∀ j : Fin n, keptArea shape n j bw s ≤ M) :
    0 ≤ ∑ b, bw * response shape (fun k : Fin (n + 1) => e0 + (k : ℝ) * bw) bw s x b ∧
      ∑ b, bw * response shape (fun k : Fin (n + 1) => e0 + (k : ℝ) * bw) bw s x b ≤ M := by
  classical
  constructor
  · refine Finset.sum_nonneg fun b _ => mul_nonneg hbw.le (Finset.sum_nonneg fun j _ => ?_)
    split
    · exact (pdf_pos shape _ s hs).le
    · exact le_rfl
  · by_cases hn : n = 0
    · subst hn
      simpa using hM0
    have hmono : StrictMono fun k : Fin (n + 1) => e0 + (k : ℝ) * bw := by
      intro a b hab
      have : ((a : ℕ) : ℝ) < ((b : ℕ) : ℝ) := by exact_mod_cast hab
      simp only
      nlinarith
    by_cases hx : ∃ j, CountedIn (fun k : Fin (n + 1) => e0 + (k : ℝ) * bw) j x
    · obtain ⟨j, hj⟩ := hx
      have huniq : ∀ i, CountedIn (fun k : Fin (n + 1) => e0 + (k : ℝ) * bw) i x → i = j := by
        intro i hi
        have hin : (fun k : Fin (n + 1) => e0 + (k : ℝ) * bw) 0 ≤ x ∧
            x ≤ (fun k : Fin (n + 1) => e0 + (k : ℝ) * bw) (Fin.last n) := by
          refine ⟨(hmono.monotone (Fin.zero_le j.castSucc)).trans hj.1, ?_⟩
          have := hmono.monotone (Fin.le_last j.succ)
          rcases hj.2 with h | ⟨-, h⟩
          · exact h.le.trans this
          · exact h.le.trans this
        exact ((C69_counted_once _ hn hmono x).1 hin).unique hi hj
      refine le_trans (le_of_eq ?_) (hM j)
      unfold keptArea response
      refine Finset.sum_congr rfl fun b _ => ?_
      rw [Finset.sum_eq_single j]
      · by_cases hb : |(b : Int) - (j : Int)| ≤ ((n / 2 : Nat) : Int)
        · rw [if_pos ⟨hj, hb⟩, if_pos hb]
        · rw [if_neg fun hc => hb hc.2, if_neg hb, mul_zero]
      · intro i _ hi
        rw [if_neg fun hc => hi (huniq i hc.1)]
      · intro hc
        exact absurd (Finset.mem_univ _) hc
    · have : ∀ b, response shape (fun k : Fin (n + 1) => e0 + (k : ℝ) * bw) bw s x b = 0 := by
        intro b
        unfold response
        refine Finset.sum_eq_zero fun j _ => ?_
        rw [if_neg fun hc => hx ⟨j, hc.1⟩]
      simpa [this] using hM0

/-- **C142**, different widths: values without negative weights whose widths are not below the bin width do
not gain intensity by the broadening with mixed kernels, except for one part in 10⁸ with Gaussians and a tenth
with Lorentzians. The fitted polynomial is taken to lie between zero and one for widths between the two
kernels. -/
theorem C142_different_widths (coeffs : ℝ → List ℝ) (shape fit : String) (error : ℝ) (herr : 0 < error)
    {n : Nat} (e0 bw : ℝ) (hbw : 0 < bw) (peaks : List Peak)
    (hw : ∀ p ∈ peaks, 0 ≤ p.weight ∧ bw ≤ p.width)
    (hfit : ∀ spacing, getSpacing error shape fit = .ok spacing →
      ∀ x, 1 ≤ x → x ≤ spacing → 0 ≤ polyval (coeffs spacing) x ∧ polyval (coeffs spacing) x ≤ 1)
    (s : Fin (n + 1) → ℝ)
    (h : widthInterpolated coeffs shape fit error (fun k : Fin (n + 2) => e0 + (k : ℝ) * bw) peaks = .ok s) :
    ∑ b, bw * s b ≤ (1 + if shape = "gauss" then 1 / 10 ^ 8 else 1 / 10) * (peaks.map Peak.weight).sum := by
  have hfw : firstWidth (n := n + 1) (by omega) (fun k : Fin (n + 2) => e0 + (k : ℝ) * bw) = bw := by
    unfold firstWidth
    simp only
    push_cast
    ring
  obtain ⟨spacing, top, lo, hi, α, β, hsp, hs1, hp, hsum⟩ := C69_mixture_partial coeffs shape fit error herr
    (by omega) (fun k : Fin (n + 2) => e0 + (k : ℝ) * bw) (by rw [hfw]; exact hbw.ne') peaks s h
  rw [hfw] at hsum
  obtain ⟨M, hMd⟩ : ∃ M : ℝ, M = 1 + if shape = "gauss" then 1 / 10 ^ 8 else 1 / 10 := ⟨_, rfl⟩
  have hM0 : 0 ≤ M := by
    rw [hMd]
    split <;> norm_num
  have hshape : shape = "gauss" ∨ shape = "lorentz" := by
    obtain ⟨_, _, _, _, _, _, _, hsh, _⟩ := widthInterpolated_ok h
    exact hsh
  have hkept : ∀ w, bw ≤ w → ∀ j : Fin (n + 1), keptArea shape (n + 1) j bw w ≤ M := by
    intro w hbw' j
    rw [hMd]
    rcases hshape with rfl | rfl
    · rw [if_pos rfl]
      exact (C142_gauss_value (n + 1) j bw w hbw hbw').2
    · rw [if_neg (by decide)]
      exact C142_lorentz_gain (n + 1) j bw w hbw hbw'
  rw [← hMd]
  have hswap : ∑ b, bw * s b = (peaks.map fun p => p.weight *
      (α p * (∑ b, bw * response shape (fun k : Fin (n + 2) => e0 + (k : ℝ) * bw) bw (lo p) p.x b) +
        β p * (∑ b, bw * response shape (fun k : Fin (n + 2) => e0 + (k : ℝ) * bw) bw (hi p) p.x b))).sum := by
    simp only [hsum]
    clear hsum h hp hw
    induction peaks with
    | nil => simp
    | cons q l ih =>
      simp only [List.map_cons, List.sum_cons, mul_add, Finset.sum_add_distrib] at ih ⊢
      rw [ih]
      simp only [Finset.mul_sum]
      congr 1
      congr 1 <;> exact Finset.sum_congr rfl fun b _ => by ring
  rw [hswap, ← List.sum_map_mul_left]
  refine List.sum_le_sum fun p hpm => ?_
  obtain ⟨-, hlo0, hlw, hwh, hhi, -, -, -, hα, hβ, hm⟩ := hp p hpm
  have hlo : bw ≤ lo p := hm bw fun q hq => (hw q hq).2
  have hhi' : bw ≤ hi p := (hw p hpm).2.trans hwh
  have hα01 : 0 ≤ α p ∧ α p ≤ 1 := by
    rcases hα with h1 | h1
    · rw [h1]
      exact ⟨zero_le_one, le_rfl⟩
    · rw [h1]
      refine hfit spacing hsp _ ((one_le_div hlo0).2 hlw) ?_
      rw [div_le_iff₀ hlo0]
      rcases hhi with h2 | h2
      · rw [h2] at hwh
        nlinarith
      · rw [← h2]
        exact hwh
  have hβ01 : 0 ≤ β p ∧ β p ≤ 1 - α p := by
    rcases hβ with h1 | h1
    · rw [h1]
      exact ⟨by linarith, le_rfl⟩
    · rw [h1]
      exact ⟨le_rfl, by linarith⟩
  obtain ⟨a0, a1⟩ := response_area shape e0 bw (lo p) p.x hbw (hbw.trans_le hlo) M hM0 (hkept _ hlo)
  obtain ⟨b0, b1⟩ := response_area shape e0 bw (hi p) p.x hbw (hbw.trans_le hhi') M hM0 (hkept _ hhi')
  rw [mul_comm M]
  refine mul_le_mul_of_nonneg_left ?_ (hw p hpm).1
  have c1 := mul_le_mul_of_nonneg_left a1 hα01.1
  have c2 := mul_le_mul_of_nonneg_left b1 hβ01.1
  nlinarith

/-- Two values with different widths and a mixing polynomial that falls from one to zero meet the
hypotheses. -/
example : ∃ (coeffs : ℝ → List ℝ) (s : Fin 3 → ℝ),
    widthInterpolated coeffs "gauss" "cubic" (1 / 100) (fun k : Fin 4 => (0 : ℝ) + (k : ℝ) * 1)
      [⟨1 / 2, 1, 2⟩, ⟨3 / 2, 3, 1⟩] = .ok s ∧
    (∀ spacing, getSpacing (1 / 100) "gauss" "cubic" = .ok spacing → ∀ x, 1 ≤ x → x ≤ spacing →
      0 ≤ polyval (coeffs spacing) x ∧ polyval (coeffs spacing) x ≤ 1) ∧
    ∀ p ∈ [(⟨1 / 2, 1, 2⟩ : Peak), ⟨3 / 2, 3, 1⟩], 0 ≤ p.weight ∧ 1 ≤ p.width := by
  refine ⟨fun sp => [-(1 / (sp - 1)), sp / (sp - 1)], ?_⟩
  have h : ∃ s, widthInterpolated (fun sp => [-(1 / (sp - 1)), sp / (sp - 1)]) "gauss" "cubic" (1 / 100)
      (fun k : Fin 4 => (0 : ℝ) + (k : ℝ) * 1) [⟨1 / 2, 1, 2⟩, ⟨3 / 2, 3, 1⟩] = .ok s := by
    unfold widthInterpolated
    rw [cubic_spacing]
    simp only [bind, Except.bind]
    rw [dif_neg (by omega), if_neg, if_neg (by decide)]
    · exact ⟨_, rfl⟩
    · simp only [minWidth, List.map_cons, List.map_nil, List.foldr_cons, List.foldr_nil, not_le]
      norm_num
  obtain ⟨s, hs⟩ := h
  refine ⟨s, hs, ?_, ?_⟩
  · intro spacing hsp x hx1 hx2
    have h1 := C92_spacing_above_one (1 / 100) (by norm_num) "gauss" "cubic" (Or.inl rfl) spacing hsp
    have hval : polyval [-(1 / (spacing - 1)), spacing / (spacing - 1)] x = (spacing - x) / (spacing - 1) := by
      simp only [polyval, List.foldl_cons, List.foldl_nil]
      ring
    simp only [hval]
    constructor
    · exact div_nonneg (by linarith) (by linarith)
    · rw [div_le_one (by linarith)]
      linarith
  · intro p hp
    simp only [List.mem_cons, List.not_mem_nil, or_false] at hp
    rcases hp with rfl | rfl <;> norm_num

end Euphonic.Broaden
