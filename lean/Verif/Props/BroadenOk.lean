import Verif.Props.BroadenMap
import Verif.Props.Bins

/-!
# C153: for which arguments broadening works
-/

set_option autoImplicit false

namespace Euphonic.Broaden

open Supercell

/-! ## Specification -/

/-- Edges of `n` equally wide bins. -/
def EqualEdges (n : Nat) (x : List ℝ) : Prop :=
  x.length = n + 1 ∧ ∃ w, 0 < w ∧ ∀ i, i < n → x.getD (i + 1) 0 - x.getD i 0 = w

/-- The permitted errors of the interpolation for a shape and a fit: the 'cubic' fit is for Gaussians only and takes every
error (negative ones are excluded in the theorems, see `nKernels`), the 'cheby-log' fit takes errors from `10⁻⁴` up to
`10⁻¹` (Gaussians) or `10^(-1.35)` (Lorentzians). -/
def ErrorFits (shape fit : String) (error : ℝ) : Prop :=
  (shape = "gauss" ∧ (fit = "cubic" ∨ (fit = "cheby-log" ∧ (10 : ℝ) ^ (-4 : ℝ) ≤ error ∧ error ≤ (10 : ℝ) ^ (-1 : ℝ)))) ∨
  (shape = "lorentz" ∧ fit = "cheby-log" ∧ (10 : ℝ) ^ (-4 : ℝ) ≤ error ∧ error ≤ (10 : ℝ) ^ (-1.35 : ℝ))

/-- The documented meanings of a width: a full width at half maximum, or the standard deviation of a Gaussian. -/
def Meaning (shape convention : String) : Prop :=
  convention = "fwhm" ∨ (convention = "std" ∧ shape = "gauss")

/-- A lower limit of the widths: none is given, or a positive one. -/
def LimitOk (limit : Option ℝ) : Prop := ∀ l ∈ limit, 0 < l

/-! ## Lemmas -/

theorem getSpacing_ok_iff {error : ℝ} {shape fit : String} (hs : shape = "gauss" ∨ shape = "lorentz") :
    (∃ s, getSpacing error shape fit = .ok s) ↔ ErrorFits shape fit error := by
  have key : ∀ hi : ℝ, hi < 0 → ((¬ (error < 0 ∨ Real.logb 10 error < -4 ∨ Real.logb 10 error > hi)) ↔
      ((10 : ℝ) ^ (-4 : ℝ) ≤ error ∧ error ≤ (10 : ℝ) ^ hi)) := by
    intro hi hhi
    have hp : (0 : ℝ) < (10 : ℝ) ^ (-4 : ℝ) := by positivity
    constructor
    · intro h
      push Not at h
      obtain ⟨h0, h1, h2⟩ := h
      rcases h0.eq_or_lt with h0 | h0
      · rw [← h0, Real.logb_zero] at h2
        linarith
      · exact ⟨(Real.le_logb_iff_rpow_le (by norm_num) h0).1 h1, (Real.logb_le_iff_le_rpow (by norm_num) h0).1 h2⟩
    · rintro ⟨h1, h2⟩
      have h0 : 0 < error := hp.trans_le h1
      push Not
      exact ⟨h0.le, (Real.le_logb_iff_rpow_le (by norm_num) h0).2 h1, (Real.logb_le_iff_le_rpow (by norm_num) h0).2 h2⟩
  unfold getSpacing ErrorFits
  rcases hs with rfl | rfl
  · by_cases hc : fit = "cubic"
    · simp [hc]
    · by_cases hl : fit = "cheby-log"
      · subst hl
        rw [if_neg (by decide), if_pos rfl, if_neg (by decide)]
        have := key (-1) (by norm_num)
        split
        · rename_i h
          have h' := fun h2 => (this.2 h2) h
          simp only [reduceCtorEq, exists_false, false_iff]
          rintro (⟨-, h2 | ⟨-, h2⟩⟩ | ⟨h2, -⟩)
          · exact absurd h2 (by decide)
          · exact h' h2
          · exact absurd h2 (by decide)
        · rename_i h
          exact ⟨fun _ => Or.inl ⟨rfl, Or.inr ⟨rfl, this.1 h⟩⟩, fun _ => ⟨_, rfl⟩⟩
      · simp [hc, hl]
  · by_cases hl : fit = "cheby-log"
    · subst hl
      rw [if_neg (by decide), if_pos rfl, if_pos rfl]
      have := key (-1.35) (by norm_num)
      split
      · rename_i h
        have h' := fun h2 => (this.2 h2) h
        simp only [reduceCtorEq, exists_false, false_iff]
        rintro (⟨h2, -⟩ | ⟨-, -, h2⟩)
        · exact absurd h2 (by decide)
        · exact h' h2
      · rename_i h
        exact ⟨fun _ => Or.inr ⟨rfl, rfl, this.1 h⟩, fun _ => ⟨_, rfl⟩⟩
    · rw [if_neg (by rintro ⟨-, h⟩; exact absurd h (by decide)), if_neg hl]
      simp [hl]

theorem effectiveWidth_ok_iff {convention shape : String} (hs : shape = "gauss" ∨ shape = "lorentz") (limit w : ℝ) :
    (∃ v, effectiveWidth convention shape limit w = .ok v) ↔ Meaning shape convention := by
  unfold effectiveWidth Meaning
  rcases hs with rfl | rfl <;> by_cases h1 : convention = "fwhm" <;> by_cases h2 : convention = "std" <;> simp [h1, h2]

theorem le_effectiveWidth {convention shape : String} {limit w v : ℝ}
    (h : effectiveWidth convention shape limit w = .ok v) : limit ≤ v := by
  unfold effectiveWidth at h
  split at h
  · rw [← Except.ok.inj h]; exact le_max_right _ _
  · split at h
    · cases h
    · split at h
      · rw [← Except.ok.inj h]; exact le_max_right _ _
      · cases h

theorem minWidth_pos {p : Peak} {l : List Peak} (h : ∀ q ∈ p :: l, 0 < q.width) : 0 < minWidth p l := by
  unfold minWidth
  induction l with
  | nil => exact h p (by simp)
  | cons q l ih =>
    simp only [List.map_cons, List.foldr_cons]
    apply lt_min (h q (by simp))
    apply ih
    intro r hr
    apply h
    simp only [List.mem_cons] at hr ⊢
    tauto

theorem widthInterpolated_ok_iff (coeffs : ℝ → List ℝ) {shape fit : String} (error : ℝ) {n : Nat} (hn : n ≠ 0)
    (edges : Fin (n + 1) → ℝ) {peaks : List Peak} (hp : peaks ≠ []) (hw : ∀ p ∈ peaks, 0 < p.width) :
    (∃ r, widthInterpolated coeffs shape fit error edges peaks = .ok r) ↔
      (shape = "gauss" ∨ shape = "lorentz") ∧ ErrorFits shape fit error := by
  constructor
  · rintro ⟨r, h⟩
    obtain ⟨s, -, p, l, -, hs, -, hsh, -⟩ := widthInterpolated_ok h
    exact ⟨hsh, (getSpacing_ok_iff hsh).1 ⟨s, hs⟩⟩
  · rintro ⟨hsh, he⟩
    obtain ⟨s, hs⟩ := (getSpacing_ok_iff hsh).2 he
    cases peaks with
    | nil => exact absurd rfl hp
    | cons p l =>
      unfold widthInterpolated
      rw [hs]
      simp only [bind, Except.bind, dif_neg hn]
      rw [if_neg (not_le.2 (minWidth_pos hw)), if_neg (by tauto)]
      exact ⟨_, rfl⟩

theorem head_le_foldr_max (l : List ℝ) : l.headD 0 ≤ l.foldr max (l.headD 0) := by
  cases l with
  | nil => simp
  | cons a l => simp

/-- The condition for broadening with a function to work. -/
def FnWorks (convention shape fit : String) (error : ℝ) : Prop :=
  (shape = "gauss" ∨ shape = "lorentz") ∧ Meaning shape convention ∧ ErrorFits shape fit error

theorem variableWidth_ok_iff (coeffs : ℝ → List ℝ) (convention shape fit : String) (error : ℝ) {limit : Option ℝ}
    (hl : LimitOk limit) {n : Nat} (hn : n ≠ 0) (a : Axis n) (hd : 0 < a.diffs.headD 0) (width : ℝ → ℝ) (wts : Fin n → ℝ) :
    (∃ r, variableWidth coeffs convention shape fit error limit a width wts = .ok r) ↔ FnWorks convention shape fit error := by
  have hlim : 0 < limit.getD (a.diffs.foldr max (a.diffs.headD 0)) := by
    cases limit with
    | none => exact hd.trans_le (head_le_foldr_max _)
    | some l => exact hl l rfl
  have hne : List.finRange n ≠ [] := by
    intro h
    have := congrArg List.length h
    simp at this
    exact hn this
  constructor
  · rintro ⟨r, h⟩
    unfold variableWidth at h
    obtain ⟨ps, hps, h⟩ := bind_ok'.1 h
    obtain ⟨s, -, p, l, hpl, hs, -, hsh, -⟩ := widthInterpolated_ok h
    refine ⟨hsh, ?_, (getSpacing_ok_iff hsh).1 ⟨s, hs⟩⟩
    obtain ⟨i0, t, hit⟩ := List.exists_cons_of_ne_nil hne
    rw [hit, List.mapM_cons] at hps
    obtain ⟨q, hq, -⟩ := bind_ok'.1 hps
    obtain ⟨w, hw, -⟩ := bind_ok'.1 hq
    exact (effectiveWidth_ok_iff hsh _ _).1 ⟨w, hw⟩
  · rintro ⟨hsh, hm, he⟩
    have h1 : ∀ i : Fin n, ∃ v, effectiveWidth convention shape (limit.getD (a.diffs.foldr max (a.diffs.headD 0)))
        (width (a.centres i)) = .ok v := fun i => (effectiveWidth_ok_iff hsh _ _).2 hm
    choose v hv using h1
    have h2 : (List.finRange n).mapM (fun i => do
        let w ← effectiveWidth convention shape (limit.getD (a.diffs.foldr max (a.diffs.headD 0))) (width (a.centres i))
        return Peak.mk (a.centres i) w (wts i)) =
        .ok ((List.finRange n).map fun i => Peak.mk (a.centres i) (v i) (wts i)) := by
      apply mapM_ok_map
      intro i _
      rw [hv i]
      rfl
    unfold variableWidth
    rw [h2]
    apply (widthInterpolated_ok_iff coeffs error hn a.edges (by simpa using hne) _).2 ⟨hsh, he⟩
    intro p hp
    obtain ⟨i, -, rfl⟩ := List.mem_map.1 hp
    exact hlim.trans_le (le_effectiveWidth (hv i))

theorem EqualEdges.eq_regular {n : Nat} {x : List ℝ} (h : EqualEdges n x) :
    ∃ x0 w, 0 < w ∧ x = regular x0 w (n + 1) := by
  obtain ⟨hl, w, hw, h⟩ := h
  refine ⟨x.getD 0 0, w, hw, ?_⟩
  have key : ∀ i, i ≤ n → x.getD i 0 = x.getD 0 0 + (i : ℝ) * w := by
    intro i
    induction i with
    | zero => intro _; simp
    | succ i ih =>
      intro hi
      have h1 := h i (by omega)
      have h2 := ih (by omega)
      push_cast
      linarith
  apply List.ext_getElem
  · rw [hl, length_regular]
  · intro i h1 h2
    have := key i (by omega)
    rw [List.getD_eq_getElem _ _ h1] at this
    rw [this]
    simp [regular]

theorem centres_regular (x0 w : ℝ) (n : Nat) :
    getBinCentres n (regular x0 w (n + 1)) = .ok (regular (x0 + w / 2) w n) := by
  rw [getBinCentres_edges n _ (length_regular _ _ _)]
  congr 1
  unfold binEdgesToCentres
  rw [npDiff_regular]
  apply List.ext_getElem
  · simp [regular]
  · intro i h1 h2
    simp [regular]
    ring

/-- The bins of an axis with equal edges. -/
theorem EqualEdges.axis {n : Nat} (hn : n ≠ 0) {x : List ℝ} (h : EqualEdges n x) :
    ∃ a w, 0 < w ∧ axisOf n x = .ok a ∧ a.diffs = List.replicate n w ∧ a.diffs.headD 0 = w := by
  obtain ⟨x0, w, hw, rfl⟩ := h.eq_regular
  have he := getBinEdges_edges n (regular x0 w (n + 1)) (length_regular _ _ _)
  obtain ⟨a, ha⟩ := axisOf_ok he
  have hd := axis_diffs ha
  unfold getBinWidths at hd
  rw [he] at hd
  simp only [bind, Except.bind, pure, Except.pure, npDiff_regular, Except.ok.injEq] at hd
  refine ⟨a, w, hw, ha, hd.symm, ?_⟩
  rw [← hd]
  obtain ⟨k, rfl⟩ := Nat.exists_eq_succ_of_ne_zero hn
  rfl

theorem all_close (w : ℝ) (rtol atol : ℝ) (hr : 0 ≤ rtol) (ha : 0 ≤ atol) (n : Nat) :
    (List.replicate n w).all (fun v => npIsClose rtol atol v w) = true := by
  rw [List.all_eq_true]
  intro v hv
  rw [(List.mem_replicate.1 hv).2]
  simp only [npIsClose, sub_self, abs_zero, decide_eq_true_eq]
  positivity

theorem EqualEdges.regularBins {n : Nat} (hn : n ≠ 0) {x : List ℝ} (h : EqualEdges n x) :
    assertRegularBins n x (1 / 10 ^ 5) 0 = .ok () := by
  obtain ⟨a, w, hw, ha, hd, hh⟩ := h.axis hn
  unfold assertRegularBins
  rw [axis_diffs ha, hd]
  obtain ⟨k, rfl⟩ := Nat.exists_eq_succ_of_ne_zero hn
  have := all_close w (1 / 10 ^ 5) 0 (by positivity) le_rfl (k + 1)
  simp only [bind, Except.bind, List.replicate_succ] at this ⊢
  rw [if_pos this]

theorem mapBinWidth_equal {n : Nat} (hn : n ≠ 0) (w : ℝ) : mapBinWidth (List.replicate n w) = .ok w := by
  obtain ⟨k, rfl⟩ := Nat.exists_eq_succ_of_ne_zero hn
  have := all_close w (1 / 10 ^ 5) (1 / 10 ^ 8) (by positivity) (by positivity) (k + 1)
  unfold mapBinWidth
  simp only [List.replicate_succ] at this ⊢
  rw [if_pos this]

theorem equalBins_regular (x0 w : ℝ) {n : Nat} (hn : 2 ≤ n) (width : Option ℝ) :
    equalBins (regular x0 w n) width = .ok true := by
  obtain ⟨k, rfl⟩ := Nat.exists_eq_add_of_le' hn
  cases width with
  | none => rfl
  | some v =>
    unfold equalBins
    have := all_close w (1 / 10 ^ 5) (1 / 10 ^ 8) (by positivity) (by positivity) (k + 1)
    simp only [npDiff_regular, List.replicate_succ] at this ⊢
    rw [this]

/-- Can a fixed width be applied with this shape and method? -/
def FixedWorks (shape : String) (method : Option String) : Prop :=
  (shape = "gauss" ∨ shape = "lorentz") ∧ (method = none ∨ method = some "convolve")

theorem checks_iff {shape : String} {method : Option String} {cx cy : List ℝ} {wx wy : Option ℝ}
    (hx : equalBins cx wx = .ok true) (hy : equalBins cy wy = .ok true) :
    checks shape method cx wx cy wy = .ok () ↔ FixedWorks shape method := by
  unfold checks FixedWorks
  by_cases h1 : shape = "gauss" ∨ shape = "lorentz"
  · by_cases h2 : method = none ∨ method = some "convolve"
    · rw [if_neg (by tauto), if_neg (by tauto), hx, hy]
      simp only [h1, h2, and_self, iff_true]
      rfl
    · rw [if_neg (by tauto), if_pos (by tauto)]
      simp only [h1, h2, and_false, iff_false]
      intro h
      cases h
  · rw [if_pos (by tauto)]
    simp only [h1, false_and, iff_false]
    intro h
    cases h

/-! ## Theorems -/

/-- **C153.** A spectrum with at least two equal bins can be broadened with a fixed width exactly if the shape is 'gauss' or
'lorentz' and the method is missing or 'convolve', whatever the width. -/
theorem C153_fixed (shape : String) (method : Option String) {n : Nat} (hn : 2 ≤ n) {x : List ℝ} (hx : EqualEdges n x)
    (w : ℝ) (d : Fin n → ℝ) : (∃ r, broaden1d shape method x w d = .ok r) ↔ FixedWorks shape method := by
  obtain ⟨x0, bw, hbw, rfl⟩ := hx.eq_regular
  have hc := checks_iff (shape := shape) (method := method) (equalBins_regular (x0 + bw / 2) bw hn (some w))
    (show equalBins [] none = .ok true from rfl)
  unfold broaden1d
  rw [centres_regular]
  simp only [bind, Except.bind]
  rw [← hc]
  cases checks shape method (regular (x0 + bw / 2) bw n) (some w) [] none with
  | error e => simp
  | ok u => simp [pure, Except.pure]

/-- **C153.** A spectrum with a single bin cannot be broadened with a fixed width. -/
theorem C153_one_bin (shape : String) (method : Option String) (h : FixedWorks shape method) {x : List ℝ}
    (hx : x.length = 2) (w : ℝ) (d : Fin 1 → ℝ) : broaden1d shape method x w d = .error .indexError := by
  obtain ⟨h1, h2⟩ := h
  match x, hx with
  | [a, b], _ =>
    unfold broaden1d
    rw [getBinCentres_edges 1 _ rfl]
    simp only [bind, Except.bind]
    unfold checks
    rw [if_neg (by tauto), if_neg (by tauto)]
    rfl

/-- **C153.** A spectrum with equal bins (one or more) can be broadened with a function of the energy exactly if the shape is
'gauss' or 'lorentz', the width is a full width at half maximum or the standard deviation of a Gaussian, and the permitted
error is in the range of the fit; the values of the function do not matter, not even zero or negative ones. -/
theorem C153_function (coeffs : ℝ → List ℝ) (convention shape fit : String) (error : ℝ) (_herr : 0 ≤ error) {limit : Option ℝ}
    (hl : LimitOk limit) {n : Nat} (hn : n ≠ 0) {x : List ℝ} (hx : EqualEdges n x) (width : ℝ → ℝ) (d : Fin n → ℝ) :
    (∃ r, broaden1dFn coeffs convention shape fit error limit x width d = .ok r) ↔ FnWorks convention shape fit error := by
  obtain ⟨a, w, hw, ha, hd, hh⟩ := hx.axis hn
  unfold broaden1dFn
  rw [hx.regularBins hn, ha]
  simp only [bind, Except.bind]
  exact variableWidth_ok_iff coeffs convention shape fit error hl hn a (by rw [hh]; exact hw) width _

theorem alongY_ok_iff (coeffs : ℝ → List ℝ) (convention shape fit : String) (error : ℝ) {limit : Option ℝ}
    (hl : LimitOk limit) {n m : Nat} (hn : n ≠ 0) (hm : m ≠ 0) {y : List ℝ} (hy : EqualEdges m y) (width : ℝ → ℝ)
    (d : Fin n → Fin m → ℝ) :
    (∃ r, alongY coeffs convention shape fit error limit y width d = .ok r) ↔ FnWorks convention shape fit error := by
  obtain ⟨a, w, hw, ha, hd, hh⟩ := hy.axis hm
  have hv := fun wts => variableWidth_ok_iff coeffs convention shape fit error hl hm a (by rw [hh]; exact hw) width wts
  unfold alongY
  rw [ha]
  simp only [bind, Except.bind]
  rw [hd, mapBinWidth_equal hm]
  simp only
  constructor
  · rintro ⟨r, h⟩
    exact (hv _).1 ⟨_, (finMapM_iff _ _).1 h ⟨0, by omega⟩⟩
  · intro h
    choose r hr using fun i : Fin n => (hv fun j => d i j * w).2 h
    exact ⟨r, (finMapM_iff _ _).2 hr⟩

theorem alongX_ok_iff (coeffs : ℝ → List ℝ) (convention shape fit : String) (error : ℝ) {limit : Option ℝ}
    (hl : LimitOk limit) {n m : Nat} (hn : n ≠ 0) (hm : m ≠ 0) {x : List ℝ} (hx : EqualEdges n x) (width : ℝ → ℝ)
    (d : Fin n → Fin m → ℝ) :
    (∃ r, alongX coeffs convention shape fit error limit x width d = .ok r) ↔ FnWorks convention shape fit error := by
  rw [← alongY_ok_iff coeffs convention shape fit error hl hm hn hx width fun j i => d i j]
  unfold alongX
  constructor
  · rintro ⟨r, h⟩
    obtain ⟨s, hs, -⟩ := bind_ok'.1 h
    exact ⟨s, hs⟩
  · rintro ⟨s, hs⟩
    rw [hs]
    exact ⟨_, rfl⟩

/-- Is a width of a map a function? -/
def Width.IsFn : Width → Prop
  | .fn _ => True
  | _ => False

/-- Is a width of a map a quantity other than zero? -/
def Width.Nonzero : Width → Prop
  | .fixed w => w ≠ 0
  | _ => False

theorem broaden2d_ok_iff (shape : String) (method : Option String) {n m : Nat} (hn : 2 ≤ n) (hm : 2 ≤ m) {x y : List ℝ}
    (hx : EqualEdges n x) (hy : EqualEdges m y) (wx wy : Width) (d : Fin n → Fin m → ℝ) :
    (∃ r, broaden2d shape method x y wx.quantity wy.quantity d = .ok r) ↔
      (wx.Nonzero ∨ wy.Nonzero → FixedWorks shape method) := by
  obtain ⟨x0, bx, -, rfl⟩ := hx.eq_regular
  obtain ⟨y0, bY, -, rfl⟩ := hy.eq_regular
  have hany : anyWidth wx.quantity wy.quantity = true ↔ wx.Nonzero ∨ wy.Nonzero := by
    unfold anyWidth
    rw [decide_eq_true_eq]
    cases wx <;> cases wy <;> simp [Width.quantity, Width.Nonzero]
  unfold broaden2d
  rw [← hany]
  cases anyWidth wx.quantity wy.quantity with
  | false => simp
  | true =>
    simp only [if_true, forall_const]
    rw [centres_regular, centres_regular]
    simp only [bind, Except.bind]
    rw [← checks_iff (shape := shape) (method := method) (equalBins_regular (x0 + bx / 2) bx hn wx.quantity)
      (equalBins_regular (y0 + bY / 2) bY hm wy.quantity)]
    cases checks shape method (regular (x0 + bx / 2) bx n) wx.quantity (regular (y0 + bY / 2) bY m) wy.quantity with
    | error e => simp
    | ok u => simp [pure, Except.pure]

/-- **C153.** A map with at least two equal bins along both axes can be broadened - with no width, a quantity or a function
along each axis - exactly if the shape and the method are known where a quantity other than zero is given, and the conditions
for functions hold where a function is given. -/
theorem C153_map (o : FnOpts) (_herr : 0 ≤ o.error) (method : Option String) {limx limy : Option ℝ}
    (hlx : LimitOk limx) (hly : LimitOk limy) {n m : Nat} (hn : 2 ≤ n) (hm : 2 ≤ m) {x y : List ℝ} (hx : EqualEdges n x) (hy : EqualEdges m y) (wx wy : Width)
    (d : Fin n → Fin m → ℝ) :
    (∃ r, broadenMap o method limx limy x y wx wy d = .ok r) ↔
      (wx.Nonzero ∨ wy.Nonzero → FixedWorks o.shape method) ∧
      (wx.IsFn ∨ wy.IsFn → FnWorks o.convention o.shape o.fit o.error) := by
  have hfx : ∀ s, (∃ r, fnX (n := n) (m := m) o limx x wx s = .ok r) ↔ (wx.IsFn → FnWorks o.convention o.shape o.fit o.error) := by
    intro s
    cases wx with
    | none => simp [fnX, Width.IsFn]
    | fixed w => simp [fnX, Width.IsFn]
    | fn f =>
      simp only [fnX, Width.IsFn, true_imp_iff]
      exact alongX_ok_iff _ _ _ _ _ hlx (by omega) (by omega) hx f s
  have hfy : ∀ s, (∃ r, fnY (n := n) (m := m) o limy y wy s = .ok r) ↔ (wy.IsFn → FnWorks o.convention o.shape o.fit o.error) := by
    intro s
    cases wy with
    | none => simp [fnY, Width.IsFn]
    | fixed w => simp [fnY, Width.IsFn]
    | fn f =>
      simp only [fnY, Width.IsFn, true_imp_iff]
      exact alongY_ok_iff _ _ _ _ _ hly (by omega) (by omega) hy f s
  have h2 := broaden2d_ok_iff o.shape method hn hm hx hy wx wy d
  unfold broadenMap
  constructor
  · rintro ⟨r, h⟩
    obtain ⟨s, hs, h⟩ := bind_ok'.1 h
    obtain ⟨t, ht, h⟩ := bind_ok'.1 h
    refine ⟨h2.1 ⟨s, hs⟩, ?_⟩
    rintro (hf | hf)
    · exact (hfx s).1 ⟨t, ht⟩ hf
    · exact (hfy t).1 ⟨r, h⟩ hf
  · rintro ⟨h, hf⟩
    obtain ⟨s, hs⟩ := h2.2 h
    obtain ⟨t, ht⟩ := (hfx s).2 fun h => hf (Or.inl h)
    obtain ⟨r, hr⟩ := (hfy t).2 fun h => hf (Or.inr h)
    refine ⟨r, ?_⟩
    rw [hs]
    show (fnX o limx x wx s >>= fnY o limy y wy) = _
    rw [ht]
    exact hr

/-! ## Cases -/

namespace OkEx

theorem edges3 : EqualEdges 3 [0, 2, 4, 6] := by
  refine ⟨rfl, 2, by norm_num, ?_⟩
  intro i hi
  rcases i with _ | _ | _ | i
  · norm_num
  · norm_num
  · norm_num
  · omega

theorem hundredth_fits (shape : String) (h : shape = "gauss" ∨ shape = "lorentz") : ErrorFits shape "cheby-log" (1 / 100) := by
  have h4 : (10 : ℝ) ^ (-4 : ℝ) ≤ 1 / 100 := by
    rw [Real.rpow_neg (by norm_num), show (4 : ℝ) = ((4 : ℕ) : ℝ) by norm_num, Real.rpow_natCast]
    norm_num
  have h2 : (10 : ℝ) ^ (-2 : ℝ) = 1 / 100 := by
    rw [Real.rpow_neg (by norm_num), show (2 : ℝ) = ((2 : ℕ) : ℝ) by norm_num, Real.rpow_natCast]
    norm_num
  rcases h with rfl | rfl
  · refine Or.inl ⟨rfl, Or.inr ⟨rfl, h4, ?_⟩⟩
    rw [← h2]
    exact Real.rpow_le_rpow_of_exponent_le (by norm_num) (by norm_num)
  · refine Or.inr ⟨rfl, rfl, h4, ?_⟩
    rw [← h2]
    exact Real.rpow_le_rpow_of_exponent_le (by norm_num) (by norm_num)

/-- A width that is negative nearly everywhere works. -/
example (coeffs : ℝ → List ℝ) : ∃ r, broaden1dFn coeffs "fwhm" "lorentz" "cheby-log" (1 / 100) none [0, 2, 4, 6]
    (fun e => 1 - e ^ 2) (fun i : Fin 3 => (i : ℝ)) = .ok r :=
  (C153_function coeffs "fwhm" "lorentz" "cheby-log" (1 / 100) (by norm_num) (by intro l hl; cases hl) (by norm_num) edges3 _ _).2
    ⟨Or.inr rfl, Or.inl rfl, hundredth_fits _ (Or.inr rfl)⟩

/-- The largest error of a Lorentzian is smaller than that of a Gaussian: 0.05 is too large. -/
theorem twentieth : ¬ ErrorFits "lorentz" "cheby-log" (1 / 20) ∧ ErrorFits "gauss" "cheby-log" (1 / 20) := by
  have h4 : (10 : ℝ) ^ (-4 : ℝ) ≤ 1 / 20 := by
    rw [Real.rpow_neg (by norm_num), show (4 : ℝ) = ((4 : ℕ) : ℝ) by norm_num, Real.rpow_natCast]
    norm_num
  have h1 : (10 : ℝ) ^ (-1 : ℝ) = 1 / 10 := by
    rw [Real.rpow_neg (by norm_num), Real.rpow_one]
    norm_num
  constructor
  · rintro (⟨h, -⟩ | ⟨-, -, -, h⟩)
    · exact absurd h (by decide)
    · have hp : (0 : ℝ) < (10 : ℝ) ^ (-1.35 : ℝ) := by positivity
      have h3 : ((10 : ℝ) ^ (-1.35 : ℝ)) ^ (20 : ℕ) = (10 : ℝ) ^ (-27 : ℝ) := by
        rw [← Real.rpow_natCast, ← Real.rpow_mul (by norm_num)]
        norm_num
      have h5 : (10 : ℝ) ^ (-27 : ℝ) = 1 / 10 ^ 27 := by
        rw [Real.rpow_neg (by norm_num), show (27 : ℝ) = ((27 : ℕ) : ℝ) by norm_num, Real.rpow_natCast]
        norm_num
      have h6 := pow_le_pow_left₀ (by norm_num : (0 : ℝ) ≤ 1 / 20) h 20
      rw [h3, h5] at h6
      norm_num at h6
  · exact Or.inl ⟨rfl, Or.inr ⟨rfl, h4, by rw [h1]; norm_num⟩⟩

example (coeffs : ℝ → List ℝ) : ¬ ∃ r, broaden1dFn coeffs "fwhm" "lorentz" "cheby-log" (1 / 20) none [0, 2, 4, 6]
    (fun e => 1 - e ^ 2) (fun i : Fin 3 => (i : ℝ)) = .ok r := fun h =>
  twentieth.1 ((C153_function coeffs "fwhm" "lorentz" "cheby-log" (1 / 20) (by norm_num) (by intro l hl; cases hl) (by norm_num)
    edges3 _ _).1 h).2.2

/-- A fixed width along x, a function along y. -/
example (coeffs : ℝ → List ℝ) : ∃ r, broadenMap ⟨coeffs, "std", "gauss", "cubic", 1 / 1000⟩ none none (some 1) [0, 2, 4, 6]
    [0, 2, 4, 6] (.fixed 3) (.fn fun e => e) (fun (i j : Fin 3) => (i : ℝ) + j) = .ok r :=
  (C153_map _ (by norm_num) none (by intro l hl; cases hl) (by intro l hl; cases hl; norm_num) (by norm_num) (by norm_num) edges3
    edges3 _ _ _).2 ⟨fun _ => ⟨Or.inl rfl, Or.inl rfl⟩, fun _ => ⟨Or.inl rfl, Or.inr ⟨rfl, rfl⟩, Or.inl ⟨rfl, Or.inl rfl⟩⟩⟩

example : broaden1d "gauss" none [0, 2] 1 (fun _ : Fin 1 => 1) = .error .indexError :=
  C153_one_bin "gauss" none ⟨Or.inl rfl, Or.inl rfl⟩ rfl 1 _

example : ∃ r, broaden1d "lorentz" (some "convolve") [0, 2, 4, 6] 1 (fun i : Fin 3 => (i : ℝ)) = .ok r :=
  (C153_fixed _ _ (by norm_num) edges3 _ _).2 ⟨Or.inr rfl, Or.inr rfl⟩

end OkEx

end Euphonic.Broaden
