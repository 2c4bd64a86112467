import Verif.Props.BroadenOk
import Verif.Props.DosCli

/-!
# C153: for which widths `euphonic-dos` works
-/

set_option autoImplicit false

namespace Euphonic.DosCli

open Broaden

/-- Equal bins are increasing. -/
theorem equalEdges_sorted {n : Nat} {x : List ℝ} (h : EqualEdges n x) : x.Pairwise (· ≤ ·) := by
  obtain ⟨x0, w, hw, rfl⟩ := h.eq_regular
  rw [List.pairwise_iff_getElem]
  intro i j hi hj hij
  simp only [regular, List.getElem_map, List.getElem_range]
  have : (i : ℝ) * w ≤ (j : ℝ) * w := mul_le_mul_of_nonneg_right (by exact_mod_cast hij.le) hw.le
  linarith

/-- For equal bins the broadening of `euphonic-dos` is that of `Spectrum1D.broaden` with a function. -/
theorem broadenFunction_eq (coeffs : ℝ → List ℝ) (convention shape fit : String) (error : ℝ) (limit : Option ℝ) {n : Nat}
    (hn : n ≠ 0) {x : List ℝ} (hx : EqualEdges n x) (width : ℝ → ℝ) (d : Fin n → ℝ) :
    broadenFunction coeffs convention shape fit error limit (fun i : Fin (n + 1) => x.getD i 0) width d =
      broaden1dFn coeffs convention shape fit error limit x width d := by
  unfold broaden1dFn
  rw [hx.regularBins hn]
  have hax : axisOf n x = .ok ⟨fun i : Fin (n + 1) => x.getD i.val 0, fun i : Fin n =>
      x.getD i.val 0 + 1 / 2 * (x.getD (i.val + 1) 0 - x.getD i.val 0)⟩ := by
    unfold axisOf
    rw [getBinEdges_edges n x hx.1]
    obtain ⟨x0, w, hw, rfl⟩ := hx.eq_regular
    rw [centres_regular]
    simp only [bind, Except.bind, pure, Except.pure]
    congr 2
    funext i
    have hi := i.2
    rw [List.getD_eq_getElem _ _ (by rw [length_regular]; exact hi), List.getD_eq_getElem _ _ (by rw [length_regular]; omega),
      List.getD_eq_getElem _ _ (by rw [length_regular]; omega)]
    simp only [regular, List.getElem_map, List.getElem_range]
    push_cast
    ring
  rw [hax]
  rfl

variable (coeffs : ℝ → List ℝ) (error c wmin : ℝ) (k : Kind) (bins : List ℝ) {nq nm : Nat}
  (freqs grads : Fin nq → Fin nm → ℝ) (weights : Fin nq → ℝ)

/-- `euphonic-dos` without `--adaptive`, with instrumental widths `coef`. -/
structure Plain (a : Args) (coef : List ℝ) : Prop where
  adaptive : a.adaptive = false
  kind : k = .frequencies → a.weighting = "dos" ∧ a.pdos = none
  widths : (a.energyBroadening = none ∧ a.instBroadening = some coef) ∨
    (a.energyBroadening = some coef ∧ a.instBroadening = none)

variable {k} in
theorem Plain.resolved {a : Args} {coef : List ℝ} (h : Plain k a coef) : ∃ s, resolve a = .ok s ∧ s.inst = some coef := by
  obtain ⟨ha, -, hw⟩ := h
  unfold resolve
  rcases hw with ⟨h1, h2⟩ | ⟨h1, h2⟩
  · rw [h1, h2]; exact ⟨_, rfl, rfl⟩
  · rw [h1, h2, ha]
    simp

/-- What is left when the options are in order: the density of states, its broadening and the scale. -/
theorem Plain.main {a : Args} {coef : List ℝ} (h : Plain k a coef) {n : Nat} {y : List ℝ} (hl : y.length = n)
    (hy : Dos.calculateDos c bins (fun q m => freqs q m * c) weights = .ok y) :
    dosMain coeffs error c wmin k bins freqs grads weights a =
      (applyPost coeffs error a.shape bins (fun i : Fin n => y.getD i 0)
        (if coef.length > 1 then .variable coef else .fixed (coef.headD 0))).map
        fun d => List.ofFn (applyScale d a.scale) := by
  obtain ⟨s, hs, hi⟩ := h.resolved
  have hk := kind_ok k a (by rw [h.adaptive]; intro h; cases h) h.kind
  have hp : post a s = if coef.length > 1 then .variable coef else .fixed (coef.headD 0) := by
    unfold post
    rw [hi]
    simp [h.adaptive]
  have hr : rawDos c wmin bins freqs grads weights a s = .ok y := by
    unfold rawDos
    rw [h.adaptive]
    exact hy
  subst hl
  have hyf : (fun i : Fin y.length => y.get i) = fun i : Fin y.length => y.getD i 0 := by
    funext i
    rw [List.getD_eq_getElem _ _ i.2]
    rfl
  unfold dosMain
  simp only [hk, hs, hr, hp, bind, Except.bind, hyf]
  cases applyPost coeffs error a.shape bins (fun i : Fin y.length => y.getD i 0)
    (if coef.length > 1 then .variable coef else .fixed (coef.headD 0)) <;> rfl

/-- **C153.** `euphonic-dos` with several coefficients gives the density of states broadened with the polynomial as function:
full widths at half maximum, no lower limit but the bins, the default fit, the error of `--adaptive-error`. -/
theorem C153_dos_polynomial {a : Args} {coef : List ℝ} (h : Plain k a coef) (h2 : 2 ≤ coef.length) (hsc : a.scale = none)
    {n : Nat} (hn : n ≠ 0) (hb : EqualEdges n bins) {y : Fin n → ℝ}
    (hy : Dos.calculateDos c bins (fun q m => freqs q m * c) weights = .ok (List.ofFn y)) :
    dosMain coeffs error c wmin k bins freqs grads weights a =
      (broaden1dFn coeffs "fwhm" a.shape "cheby-log" error none bins
        (fun e => ∑ i : Fin coef.length, coef[i] * e ^ i.val) y).map List.ofFn := by
  have hpoly : polyEval coef = fun e => ∑ i : Fin coef.length, coef[i] * e ^ i.val := by
    clear h h2
    funext t
    induction coef with
    | nil => simp [polyEval]
    | cons c cs ih =>
      have h1 : polyEval (c :: cs) t = c + t * polyEval cs t := rfl
      rw [h1, ih]
      simp only [List.length_cons]
      rw [Fin.sum_univ_succ]
      simp only [Fin.getElem_fin, Fin.val_zero, List.getElem_cons_zero, pow_zero, mul_one, Fin.val_succ,
        List.getElem_cons_succ, Finset.mul_sum]
      congr 1
      exact Finset.sum_congr rfl fun k _ => by ring
  rw [Plain.main coeffs error c wmin k bins freqs grads weights h (n := n) (by simp) hy, if_pos (show coef.length > 1 from h2),
    hsc]
  have hyf : (fun i : Fin n => (List.ofFn y).getD i 0) = y := by
    funext i
    rw [List.getD_eq_getElem _ _ (by simp)]
    simp
  rw [hyf, ← broadenFunction_eq coeffs _ _ _ _ _ hn hb, ← hpoly]
  rfl

/-- **C153.** When `euphonic-dos` without `--adaptive` works, for at least two equal bins and a known shape: always with one
width, with several coefficients exactly if `--adaptive-error` is in the range of the fit - whatever the values of the
widths. -/
theorem C153_dos (_herr : 0 ≤ error) {a : Args} {coef : List ℝ} (h : Plain k a coef)
    (hsh : a.shape = "gauss" ∨ a.shape = "lorentz") {n : Nat} (hn : 2 ≤ n) (hb : EqualEdges n bins) (hc : 0 < c)
    (hm : 0 < nm) :
    (∃ r, dosMain coeffs error c wmin k bins freqs grads weights a = .ok r) ↔
      (2 ≤ coef.length → ErrorFits a.shape "cheby-log" error) := by
  obtain ⟨y, hy, hl⟩ : ∃ y, Dos.calculateDos c bins (fun q m => freqs q m * c) weights = .ok y ∧ y.length = n := by
    rw [Dos.calculateDos_none c bins hm, Dos.calculateDos_mw c hc bins (equalEdges_sorted hb)]
    refine ⟨_, rfl, ?_⟩
    rw [List.length_map, List.length_range, hb.1]
    omega
  rw [Plain.main coeffs error c wmin k bins freqs grads weights h hl hy]
  have hmap : ∀ e : Except Err (Fin n → ℝ), (∃ r, e.map (fun d => List.ofFn (applyScale d a.scale)) = .ok r) ↔ ∃ r, e = .ok r := by
    intro e
    cases e <;> simp [Except.map]
  rw [hmap]
  by_cases h2 : 2 ≤ coef.length
  · rw [if_pos (show coef.length > 1 from h2)]
    unfold applyPost
    simp only
    rw [broadenFunction_eq coeffs _ _ _ _ _ (by omega) hb,
      C153_function coeffs _ _ _ _ _herr (by intro l hl; cases hl) (by omega) hb]
    unfold FnWorks Meaning
    simp [hsh, h2]
  · rw [if_neg (show ¬ coef.length > 1 from h2)]
    unfold applyPost
    simp only
    rw [C153_fixed _ _ hn hb]
    simp [FixedWorks, hsh, h2]

/-! ## Cases -/

/-- Two q-points with one mode, three bins, the width `1/2 + e/10`. -/
example : ∃ r, dosMain coeffs (1 / 100) 1 wmin .frequencies [0, 2, 4, 6] (fun (q : Fin 2) (_ : Fin 1) => 1 + 2 * (q : ℝ))
    (fun _ _ => 0) (fun _ => 1 / 2) ⟨"dos", none, false, none, some [1 / 2, 1 / 10], none, "lorentz", none⟩ = .ok r :=
  (C153_dos coeffs (1 / 100) 1 wmin .frequencies _ _ _ _ (by norm_num) (coef := [1 / 2, 1 / 10])
    ⟨rfl, fun _ => ⟨rfl, rfl⟩, Or.inr ⟨rfl, rfl⟩⟩ (Or.inr rfl) (by norm_num) OkEx.edges3 (by norm_num) (by norm_num)).2
    fun _ => OkEx.hundredth_fits _ (Or.inr rfl)

/-- The same with an error that is too large for Lorentzians; a single width does not mind. -/
example : (¬ ∃ r, dosMain coeffs (1 / 20) 1 wmin .frequencies [0, 2, 4, 6] (fun (q : Fin 2) (_ : Fin 1) => 1 + 2 * (q : ℝ))
      (fun _ _ => 0) (fun _ => 1 / 2) ⟨"dos", none, false, none, some [1 / 2, 1 / 10], none, "lorentz", none⟩ = .ok r) ∧
    ∃ r, dosMain coeffs (1 / 20) 1 wmin .frequencies [0, 2, 4, 6] (fun (q : Fin 2) (_ : Fin 1) => 1 + 2 * (q : ℝ))
      (fun _ _ => 0) (fun _ => 1 / 2) ⟨"dos", none, false, none, none, some [1 / 2], "lorentz", none⟩ = .ok r := by
  constructor
  · rw [C153_dos coeffs (1 / 20) 1 wmin .frequencies _ _ _ _ (by norm_num) (coef := [1 / 2, 1 / 10])
      ⟨rfl, fun _ => ⟨rfl, rfl⟩, Or.inr ⟨rfl, rfl⟩⟩ (Or.inr rfl) (by norm_num) OkEx.edges3 (by norm_num) (by norm_num)]
    intro h
    exact OkEx.twentieth.1 (h (by simp))
  · rw [C153_dos coeffs (1 / 20) 1 wmin .frequencies _ _ _ _ (by norm_num) (coef := [1 / 2])
      ⟨rfl, fun _ => ⟨rfl, rfl⟩, Or.inl ⟨rfl, rfl⟩⟩ (Or.inr rfl) (by norm_num) OkEx.edges3 (by norm_num) (by norm_num)]
    intro h
    simp at h

end Euphonic.DosCli
