import Verif.Model.Bins
import Mathlib.Analysis.SpecialFunctions.Log.Base
import Mathlib.Analysis.SpecialFunctions.Sqrt
import Mathlib.Algebra.BigOperators.Fin

/-!
# Model of broadening

Models `Spectrum._broaden_data`, `Spectrum._gfwhm_to_sigma`, `Spectrum1D.broaden`,
`Spectrum2D.broaden` with fixed widths, `_distribution_1d`, `_get_dist_bins`, `_lorentzian`
(euphonic/spectra.py:221-304, 595-676, 1528-1689, 2087-2112) and the variable width broadening of
euphonic/broadening.py:21-326.

Numbers are real numbers (no rounding, no NaN); lengths along an axis are in the unit of the axis.
A data row of `n` values is a function on `Fin n`: the constructors guarantee the shapes (C08).
External functions are modelled by their documentation: `scipy.ndimage.correlate1d`,
`scipy.ndimage.gaussian_filter`, `scipy.signal.convolve(mode='same')`, `numpy.histogram`,
`scipy.stats.norm.pdf`, `numpy.polynomial.Chebyshev`.  The result of the least squares fits of
`find_coeffs` (broadening.py:286-326) is a parameter: any list of coefficients.
-/

set_option autoImplicit false

namespace Euphonic.Broaden

/-- An element of an array, zero outside of it (`mode='constant'` of `scipy.ndimage`). -/
def get0 {n : Nat} (d : Fin n → ℝ) (z : Int) : ℝ :=
  if h : 0 ≤ z ∧ z.toNat < n then d ⟨z.toNat, h.2⟩ else 0

/-- `scipy.ndimage.correlate1d(d, w, mode='constant')` (used at euphonic/spectra.py:277-279 and inside
`gaussian_filter`): `out[i] = sum_k w[k] * d[i + k - len(w)//2]`. -/
def correlate1d {n : Nat} (w : List ℝ) (d : Fin n → ℝ) : Fin n → ℝ := fun i =>
  ∑ k : Fin w.length, w.get k * get0 d ((i : Int) + (k : Int) - ((w.length / 2 : Nat) : Int))

/-- Division of every value by the sum (`phi_x / phi_x.sum()` in `scipy.ndimage`, and
euphonic/spectra.py:2094). -/
noncomputable def normalise (w : List ℝ) : List ℝ := w.map (· / w.sum)

/-- The values `-r, ..., r`. -/
noncomputable def symmetric (r : Nat) : List ℝ := (List.range (2 * r + 1)).map fun k : Nat => (k : ℝ) - r

/-- The kernel of `scipy.ndimage.gaussian_filter` for a standard deviation in bins: radius
`int(4*sigma + 0.5)`, values `exp(-x^2/(2 sigma^2))`, normalised. -/
noncomputable def gaussianKernel (sigma : ℝ) : List ℝ :=
  normalise ((symmetric ⌊4 * sigma + 1 / 2⌋₊).map fun x => Real.exp (-(1 / 2) / sigma ^ 2 * x ^ 2))

/-- `scipy.ndimage.gaussian_filter(d, sigma, mode='constant')` along one axis: axes with
`sigma <= 1e-15` are left out. -/
noncomputable def gaussianFilter {n : Nat} (sigma : ℝ) (d : Fin n → ℝ) : Fin n → ℝ :=
  if 1 / 10 ^ 15 < sigma then correlate1d (gaussianKernel sigma) d else d

/-- `Spectrum._gfwhm_to_sigma` (euphonic/spectra.py:283-304): the standard deviation in units of the
mean distance of the bin centres. -/
noncomputable def gfwhmToSigma (fwhm : ℝ) (centres : List ℝ) : ℝ :=
  fwhm / (2 * Real.sqrt (2 * Real.log 2)) / ((npDiff centres).sum / ((npDiff centres).length : ℝ))

/-- `_lorentzian(x, gamma)` (euphonic/spectra.py:2111-2112, euphonic/broadening.py:161-162). -/
noncomputable def lorentzian (x gamma : ℝ) : ℝ := gamma / (2 * Real.pi * (x ^ 2 + (gamma / 2) ^ 2))

/-- `_get_dist_bins(bins)` (euphonic/spectra.py:2101-2108): `2*len(bins) + 1` values from minus to plus
the length of the axis (`np.linspace` with end point).  `bins` is not empty (checked before). -/
noncomputable def distBins (bins : List ℝ) : List ℝ :=
  let range := bins.getLastD 0 - bins.headD 0
  (List.range (bins.length * 2 + 1)).map fun k : Nat =>
    -range + (k : ℝ) * ((range - -range) / ((bins.length * 2 : Nat) : ℝ))

/-- `_distribution_1d(xbins, xwidth)` (euphonic/spectra.py:2087-2098).  With `xwidth = 0` numpy divides
zero by zero and everything is NaN; that case is not modelled (theorems assume a width other than zero). -/
noncomputable def distribution1d (xbins : List ℝ) (xwidth : ℝ) : List ℝ :=
  normalise ((distBins xbins).map fun x => lorentzian x xwidth)

/-- Broadening along one axis by the chosen kernel (the two branches of euphonic/spectra.py:264-279 for
one axis; `shape` has been checked, so anything but 'gauss' is 'lorentz'). -/
noncomputable def axisFilter (shape : String) (centres : List ℝ) (width : ℝ) {n : Nat} (d : Fin n → ℝ) :
    Fin n → ℝ :=
  if shape = "gauss" then gaussianFilter (gfwhmToSigma width centres) d
  else correlate1d (distribution1d centres width) d

/-- Are the bins of one axis close to equal (euphonic/spectra.py:249-252)?  An axis without a width is not
looked at; `bin_widths[0]` raises `IndexError` if there are fewer than two centres. -/
noncomputable def equalBins (centres : List ℝ) (width : Option ℝ) : Except Err Bool :=
  match width with
  | none => .ok true
  | some _ =>
    match npDiff centres with
    | [] => .error .indexError
    | w0 :: l => .ok ((w0 :: l).all fun v => npIsClose (1 / 10 ^ 5) (1 / 10 ^ 8) v w0)

/-- The checks at the beginning of `_broaden_data` (euphonic/spectra.py:233-262) for the two axes (an
absent axis is one without width).  A warning has no effect on the result and is left out. -/
noncomputable def checks (shape : String) (method : Option String) (cx : List ℝ) (wx : Option ℝ)
    (cy : List ℝ) (wy : Option ℝ) : Except Err Unit := do
  if shape ≠ "gauss" ∧ shape ≠ "lorentz" then throw .valueError
  if method ≠ none ∧ method ≠ some "convolve" then throw .valueError
  let ex ← equalBins cx wx
  let ey ← equalBins cy wy
  if (ex && ey) = false ∧ method = none then throw .valueError

/-- `Spectrum1D.broaden` with a width that is a quantity (euphonic/spectra.py:648-654): the new y data.
`x` is `x_data` (edges or centres), `width` is in its unit. -/
noncomputable def broaden1d (shape : String) (method : Option String) {n : Nat} (x : List ℝ) (width : ℝ)
    (d : Fin n → ℝ) : Except Err (Fin n → ℝ) := do
  let c ← getBinCentres n x
  checks shape method c (some width) [] none
  return axisFilter shape c width d

/-- Filter along the first axis of a two dimensional array (`axis=0`), if there is a width. -/
noncomputable def filterX (shape : String) (centres : List ℝ) (width : Option ℝ) {n m : Nat}
    (d : Fin n → Fin m → ℝ) : Fin n → Fin m → ℝ :=
  match width with
  | none => d
  | some w => fun i j => axisFilter shape centres w (fun i' => d i' j) i

/-- Filter along the second axis of a two dimensional array (`axis=1`), if there is a width. -/
noncomputable def filterY (shape : String) (centres : List ℝ) (width : Option ℝ) {n m : Nat}
    (d : Fin n → Fin m → ℝ) : Fin n → Fin m → ℝ :=
  match width with
  | none => d
  | some w => fun i => axisFilter shape centres w (d i)

/-- `any(widths_in_bin_units)` (euphonic/spectra.py:1608): some width is given and is not zero. -/
noncomputable def anyWidth (wx wy : Option ℝ) : Bool :=
  decide ((∃ w ∈ wx, w ≠ 0) ∨ ∃ w ∈ wy, w ≠ 0)

/-- `Spectrum2D.broaden` with widths that are quantities or missing (euphonic/spectra.py:1596-1622,
1635): the new z data. -/
noncomputable def broaden2d (shape : String) (method : Option String) {n m : Nat} (x y : List ℝ)
    (wx wy : Option ℝ) (d : Fin n → Fin m → ℝ) : Except Err (Fin n → Fin m → ℝ) :=
  if anyWidth wx wy then do
    let cx ← getBinCentres n x
    let cy ← getBinCentres m y
    checks shape method cx wx cy wy
    return filterY shape cy wy (filterX shape cx wx d)
  else .ok d

/-! ## Variable widths (euphonic/broadening.py) -/

/-- Chebyshev polynomials of the first kind (numpy documentation). -/
def chebT : Nat → ℝ → ℝ
  | 0, _ => 1
  | 1, u => u
  | k + 2, u => 2 * u * chebT (k + 1) u - chebT k u

/-- `numpy.polynomial.Chebyshev(coef, domain, window)(x)`: the argument is mapped linearly from the
domain to the window, then the series is evaluated. -/
noncomputable def chebEval (coef : List ℝ) (domain window : ℝ × ℝ) (x : ℝ) : ℝ :=
  let off := (domain.2 * window.1 - domain.1 * window.2) / (domain.2 - domain.1)
  let scl := (window.2 - window.1) / (domain.2 - domain.1)
  ((List.range coef.length).map fun k : Nat => coef.getD k 0 * chebT k (off + scl * x)).sum

/-- `numpy.polyval(p, x)`: highest power first. -/
def polyval (p : List ℝ) (x : ℝ) : ℝ := p.foldl (fun acc c => acc * x + c) 0

/-- `_get_spacing(error, shape, fit)` (euphonic/broadening.py:165-203).  The logarithm of a negative error is NaN, and with a
NaN for the spacing `int` fails in euphonic/broadening.py:234; this `ValueError` is raised here. -/
noncomputable def getSpacing (error : ℝ) (shape fit : String) : Except Err ℝ :=
  if fit = "cubic" ∧ shape = "gauss" then
    .ok (polyval [612.7, -122.7, 15.40, 1.0831] error)
  else if fit = "cheby-log" then
    if shape = "lorentz" then
      if error < 0 ∨ Real.logb 10 error < -4 ∨ Real.logb 10 error > -1.35 then .error .valueError
      else .ok (chebEval [1.26039672, 0.39900457, 0.20392176, 0.08602507, 0.03337662, 0.00878684,
        0.00619626] (-4.99146317, -1.34655197) (1, 1) (Real.logb 10 error))
    else
      if error < 0 ∨ Real.logb 10 error < -4 ∨ Real.logb 10 error > -1 then .error .valueError
      else .ok (chebEval [1.25885858, 0.39803148, 0.20311735, 0.08654827, 0.03447873, 0.00894006,
        0.00715706] (-4.64180022, -1.00029948) (-1, 1) (Real.logb 10 error))
  else .error .valueError

/-- One value to be broadened: position, width, weight (the raveled arrays of
euphonic/broadening.py:220-222). -/
structure Peak where
  x : ℝ
  width : ℝ
  weight : ℝ

/-- `n_kernels` (euphonic/broadening.py:234-235); a negative ceiling cannot occur for a spacing above
one (a spacing below one, which a negative error with the 'cubic' fit gives, is not modelled). -/
noncomputable def nKernels (spacing wmax wmin : ℝ) : Nat :=
  ⌈Real.log (wmax / wmin) / Real.log spacing⌉₊

/-- `width_samples[i]` (euphonic/broadening.py:236). -/
noncomputable def widthSample (spacing wmin : ℝ) (i : Nat) : ℝ := spacing ^ i * wmin

/-- `np.searchsorted(width_samples, w, side="right")` (euphonic/broadening.py:252) for `n + 1` samples in
increasing order: the number of samples `<= w`. -/
noncomputable def kernelIdx (spacing wmin : ℝ) (n : Nat) (w : ℝ) : Nat :=
  (List.range (n + 1)).countP fun i => decide (widthSample spacing wmin i ≤ w)

/-- Does `numpy.histogram` count a value in bin `j` of `n` bins with the given edges?  Bins are half
open, the last one includes its right edge. -/
def InHistBin {n : Nat} (edges : Fin (n + 1) → ℝ) (j : Fin n) (x : ℝ) : Prop :=
  edges j.castSucc ≤ x ∧ (x < edges j.succ ∨ (j.val + 1 = n ∧ x = edges j.succ))

open Classical in
/-- `numpy.histogram(x, bins=bins, weights=w)[0]` (used at euphonic/broadening.py:269-276) for a list of
positions with weights. -/
noncomputable def npHistogram {n : Nat} (edges : Fin (n + 1) → ℝ) (l : List (ℝ × ℝ)) : Fin n → ℝ :=
  fun j => (l.map fun p => if InHistBin edges j p.1 then p.2 else 0).sum

/-- `x_values` (euphonic/broadening.py:240-243) for `len(bins) = n + 1`: the number of values and the
first one, in bins. -/
def kernelLength (n : Nat) : Nat := if (n + 1) % 2 = 0 then n else n + 1

/-- `x_values[k] / bin_width` (euphonic/broadening.py:240-243). -/
noncomputable def xValue (n k : Nat) : ℝ :=
  if (n + 1) % 2 = 0 then -((n + 1 : ℕ) : ℝ) / 2 + 1 + k else -(((n + 1) / 2 : ℕ) : ℝ) + k

/-- `scipy.stats.norm.pdf(x, scale=s)`. -/
noncomputable def normPdf (x s : ℝ) : ℝ := Real.exp (-(x / s) ^ 2 / 2) / (Real.sqrt (2 * Real.pi) * s)

/-- The kernel function of a shape (euphonic/broadening.py:245-250; the shape has passed
`_get_spacing`). For any other shape `kernels` is unbound in Python; `_get_spacing` accepts every other
shape as 'gauss' with the 'cheby-log' fit, see `widthInterpolated`. -/
noncomputable def pdf (shape : String) (x s : ℝ) : ℝ :=
  if shape = "gauss" then normPdf x s else lorentzian x s

/-- `scipy.signal.convolve(hist, kernel, mode="same")` with a kernel of `k` values: the middle `n`
values of the full convolution. -/
noncomputable def convolveSame {n : Nat} (hist : Fin n → ℝ) (k : Nat) (kernel : Nat → ℝ) : Fin n → ℝ :=
  fun i => ∑ j : Fin n,
    let z : Int := (i : Int) + (((k - 1) / 2 : Nat) : Int) - (j : Int)
    hist j * if 0 ≤ z ∧ z < k then kernel z.toNat else 0

/-- State of the loop (euphonic/broadening.py:262-281): the spectrum, and positions with upper weights of
the previous block. -/
structure Acc (n : Nat) where
  spectrum : Fin n → ℝ
  prev : List (ℝ × ℝ)

/-- The values with kernel index `i` (`masked_block`, euphonic/broadening.py:263). -/
noncomputable def block (spacing wmin : ℝ) (nk : Nat) (peaks : List Peak) (i : Nat) : List Peak :=
  peaks.filter fun p => kernelIdx spacing wmin nk p.width = i

/-- `lower_mix` of one value (euphonic/broadening.py:264-265), `i` counting from one. -/
noncomputable def lowerMix (coeffs : List ℝ) (spacing wmin : ℝ) (i : Nat) (p : Peak) : ℝ :=
  polyval coeffs (p.width / widthSample spacing wmin (i - 1))

/-- One round of the loop (euphonic/broadening.py:262-281); `binWidth` is the width of the first bin. The
list `prev` is empty in the first round, which gives the branch `i == 1`. -/
noncomputable def loopStep (shape : String) {n : Nat} (edges : Fin (n + 1) → ℝ) (binWidth : ℝ)
    (coeffs : List ℝ) (spacing wmin : ℝ) (nk : Nat) (peaks : List Peak) (a : Acc n) (i : Nat) : Acc n :=
  let b := block spacing wmin nk peaks i
  let lower := b.map fun p => (p.x, lowerMix coeffs spacing wmin i p * p.weight)
  let hist := npHistogram edges ((a.prev ++ lower).map fun p => (p.1, p.2 / binWidth))
  let kernel := fun k => pdf shape (xValue n k * binWidth) (widthSample spacing wmin (i - 1)) * binWidth
  { spectrum := fun j => a.spectrum j + convolveSame hist (kernelLength n) kernel j
    prev := b.map fun p => (p.x, p.weight - lowerMix coeffs spacing wmin i p * p.weight) }

/-- The smallest and largest width (`min(widths)`, `max(widths)`; euphonic/broadening.py:235-236). -/
noncomputable def minWidth (p : Peak) (l : List Peak) : ℝ := (l.map Peak.width).foldr min p.width

/-- See `minWidth`. -/
noncomputable def maxWidth (p : Peak) (l : List Peak) : ℝ := (l.map Peak.width).foldr max p.width

/-- `_width_interpolated_broadening` (euphonic/broadening.py:206-283).  `coeffs spacing` is the result of
`find_coeffs`.  `min` and `max` of no widths raise `ValueError`, as does the conversion of NaN to an
integer; `bin_widths[0]` without bins raises `IndexError`.  With a non-positive smallest width the real
code takes logarithms of non-positive or infinite numbers; this is represented by `ValueError`.  A shape
other than the two with the 'cheby-log' fit leaves `kernels` unassigned. -/
noncomputable def widthInterpolated (coeffs : ℝ → List ℝ) (shape fit : String) (error : ℝ) {n : Nat}
    (edges : Fin (n + 1) → ℝ) (peaks : List Peak) : Except Err (Fin n → ℝ) := do
  let spacing ← getSpacing error shape fit
  if hn : n = 0 then .error .indexError
  else
    let binWidth := edges ⟨1, by omega⟩ - edges ⟨0, by omega⟩
    match peaks with
    | [] => .error .valueError
    | p :: l =>
      let wmin := minWidth p l
      if wmin ≤ 0 then .error .valueError
      else if shape ≠ "gauss" ∧ shape ≠ "lorentz" then .error .unboundLocalError
      else
        let nk := nKernels spacing (maxWidth p l) wmin
        let cs := if nk + 1 = 1 then [1] else coeffs spacing
        return (((List.range (nk + 1)).map (· + 1)).foldl
          (loopStep shape edges binWidth cs spacing wmin nk (p :: l)) ⟨fun _ => 0, []⟩).spectrum

/-- The widths handed to the kernel interpolation by `variable_width_broadening`
(euphonic/broadening.py:73-89): a full width at half maximum of a Gaussian is converted to a standard
deviation, widths below the limit are raised to it.  `convention` has been converted to lower case. -/
noncomputable def effectiveWidth (convention shape : String) (limit w : ℝ) : Except Err ℝ :=
  if convention = "fwhm" ∧ shape = "gauss" then .ok (max (w / Real.sqrt (8 * Real.log 2)) limit)
  else if convention = "std" ∧ shape = "lorentz" then .error .valueError
  else if convention = "std" ∨ convention = "fwhm" then .ok (max w limit)
  else .error .valueError

/-- `Spectrum1D.broaden` with a function (euphonic/spectra.py:656-670) through
`variable_width_broadening` (euphonic/broadening.py:84-101) for an axis given by its bin edges: every bin
is a value at its centre with the width the function gives there and the weight `y * bin width`.
The check for regular bins (C81) precedes this; without a lower limit the largest bin width is used. -/
noncomputable def broadenFunction (coeffs : ℝ → List ℝ) (convention shape fit : String) (error : ℝ)
    (limit : Option ℝ) {n : Nat} (edges : Fin (n + 1) → ℝ) (width : ℝ → ℝ) (d : Fin n → ℝ) :
    Except Err (Fin n → ℝ) := do
  let centre := fun i : Fin n => edges i.castSucc + 1 / 2 * (edges i.succ - edges i.castSucc)
  let diffs := (List.finRange n).map fun i => edges i.succ - edges i.castSucc
  let peaks ← (List.finRange n).mapM fun i => do
    let w ← effectiveWidth convention shape (limit.getD (diffs.foldr max (diffs.headD 0))) (width (centre i))
    return Peak.mk (centre i) w (d i * diffs.headD 0)
  widthInterpolated coeffs shape fit error edges peaks

end Euphonic.Broaden
