import Verif.Model.DosCli
import Verif.Props.Dos
import Verif.Props.Broaden
import Verif.Props.BroadenFn

/-!
# C101, C102: broadening of `euphonic-dos`

**C101** every given width is used exactly once, contradictory options are refused;
**C102** the width of `--instrument-broadening` is a full width at half maximum.
-/

set_option autoImplicit false

namespace Euphonic.DosCli

open Broaden

variable (coeffs : ℝ → List ℝ) (error c wmin : ℝ) (k : Kind) (bins : List ℝ) {nq nm : Nat}
  (freqs grads : Fin nq → Fin nm → ℝ) (weights : Fin nq → ℝ)

/-! ## Options -/

/-- **C101**, data that do not fit the options are refused. -/
theorem C101_kind (a : Args)
    (h : (a.adaptive = true ∧ k ≠ .forceConstants) ∨
      ((a.weighting ≠ "dos" ∨ a.pdos ≠ none) ∧ k = .frequencies)) :
    dosMain coeffs error c wmin k bins freqs grads weights a = .error .typeError := by
  have : checkKind a k = .error .typeError := by
    unfold checkKind
    rcases h with h | ⟨h1, h2⟩
    · rw [if_pos h, ite_self]
    · rw [if_pos]
      refine ⟨?_, h2⟩
      unfold frequenciesOnly
      rw [decide_eq_false_iff_not, not_and_or]
      exact h1
  simp [dosMain, this, bind, Except.bind]

theorem kind_ok (a : Args) (h1 : a.adaptive = true → k = .forceConstants)
    (h2 : k = .frequencies → a.weighting = "dos" ∧ a.pdos = none) : checkKind a k = .ok () := by
  unfold checkKind
  rw [if_neg, if_neg]
  · rintro ⟨h3, h4⟩; exact h4 (h1 h3)
  · rintro ⟨h3, h4⟩
    unfold frequenciesOnly at h3
    exact of_decide_eq_false h3 (h2 h4)

/-- **C101**, a width given twice is refused. -/
theorem C101_twice (a : Args) (h1 : a.adaptive = true → k = .forceConstants)
    (h2 : k = .frequencies → a.weighting = "dos" ∧ a.pdos = none) (eb : List ℝ)
    (heb : a.energyBroadening = some eb)
    (h : (a.adaptive = true ∧ eb.length = 1 ∧ ∃ x, a.adaptiveScale = some x) ∨
      (¬ (a.adaptive = true ∧ eb.length = 1) ∧ ∃ l, a.instBroadening = some l)) :
    dosMain coeffs error c wmin k bins freqs grads weights a = .error .valueError := by
  have : resolve a = .error .valueError := by
    unfold resolve
    rw [heb]
    dsimp only
    rcases h with ⟨h3, h4, x, h5⟩ | ⟨h3, x, h5⟩
    · rw [if_pos ⟨h3, h4⟩, h5]
    · rw [if_neg h3, h5]
  simp [dosMain, this, kind_ok k a h1 h2, bind, Except.bind]

/-- **C101**, `--energy-broadening` is another name: of `--adaptive-scale` for one value with `--adaptive`, of
`--instrument-broadening` otherwise. -/
theorem C101_alias (a : Args) (eb : List ℝ) (heb : a.energyBroadening = some eb) :
    (∀ x, eb = [x] → a.adaptive = true → a.adaptiveScale = none →
      dosMain coeffs error c wmin k bins freqs grads weights a =
        dosMain coeffs error c wmin k bins freqs grads weights
          { a with energyBroadening := none, adaptiveScale := some x }) ∧
    (a.adaptive = false ∨ eb.length ≠ 1 → a.instBroadening = none →
      dosMain coeffs error c wmin k bins freqs grads weights a =
        dosMain coeffs error c wmin k bins freqs grads weights
          { a with energyBroadening := none, instBroadening := some eb }) := by
  constructor
  · intro x hx ha hs
    have : resolve a = resolve { a with energyBroadening := none, adaptiveScale := some x } := by
      unfold resolve
      rw [heb]
      simp [hx, ha, hs]
    unfold dosMain
    rw [← this]
    rfl
  · intro h hs
    have : resolve a = resolve { a with energyBroadening := none, instBroadening := some eb } := by
      unfold resolve
      rw [heb]
      dsimp only
      rw [if_neg, hs]
      rintro ⟨h1, h2⟩
      rcases h with h | h
      · rw [h] at h1; cases h1
      · exact h h2
    unfold dosMain
    rw [← this]
    rfl

/-- **C101**, without `--adaptive` the gradients and `--adaptive-scale` have no effect. -/
theorem C101_not_adaptive (a : Args) (ha : a.adaptive = false) (grads' : Fin nq → Fin nm → ℝ) (s : Option ℝ) :
    dosMain coeffs error c wmin k bins freqs grads weights a =
      dosMain coeffs error c wmin k bins freqs grads' weights { a with adaptiveScale := s } := by
  obtain ⟨w, pd, ad, as, eb, ib, sh, sc⟩ := a
  cases ha
  unfold dosMain
  have hk : checkKind ⟨w, pd, false, as, eb, ib, sh, sc⟩ k = checkKind ⟨w, pd, false, s, eb, ib, sh, sc⟩ k := rfl
  dsimp only
  rw [hk]
  cases checkKind ⟨w, pd, false, s, eb, ib, sh, sc⟩ k with
  | error e => rfl
  | ok u =>
    rcases eb with _ | eb
    · rfl
    · rcases ib with _ | ib <;> simp [resolve, bind, Except.bind, rawDos, post]

/-- Settings without the instrumental width. -/
def Settings.noInst (s : Settings) : Settings := { s with inst := none }

/-- **C101**, the instrumental width is used exactly once: either the modes have it and nothing is done to the spectrum, or the
modes are as without it and the spectrum is broadened. -/
theorem C101_once (a : Args) (s : Settings) (coef : List ℝ) (hs : s.inst = some coef) :
    (post a s = .nothing ∧ a.adaptive = true ∧ a.shape = "gauss" ∧
      ∀ w f, modeWidth s a.shape w f ^ 2 = modeWidth s.noInst a.shape w f ^ 2 + polyEval coef f ^ 2) ∨
    ((∀ w, coef = [w] → post a s = .fixed w) ∧ (2 ≤ coef.length → post a s = .variable coef) ∧
      rawDos c wmin bins freqs grads weights a s = rawDos c wmin bins freqs grads weights a s.noInst) := by
  by_cases h : a.shape = "gauss" ∧ a.adaptive = true
  · refine Or.inl ⟨?_, h.2, h.1, ?_⟩
    · unfold post
      rw [hs]
      simp [h]
    · intro w f
      unfold modeWidth
      rw [hs]
      simp only [Settings.noInst, h.1, if_true]
      rw [Real.sq_sqrt (by positivity)]
      rfl
  · refine Or.inr ⟨?_, ?_, ?_⟩
    · rintro w rfl
      unfold post
      rw [hs]
      dsimp only
      rw [if_neg h]
      rfl
    · intro h2
      unfold post
      rw [hs]
      dsimp only
      rw [if_neg h, if_pos (show coef.length > 1 from h2)]
    · unfold rawDos
      by_cases ha : a.adaptive = true
      · rw [if_pos ha, if_pos ha]
        have hsh : a.shape ≠ "gauss" := fun hg => h ⟨hg, ha⟩
        have : ∀ w f, modeWidth s a.shape w f = modeWidth s.noInst a.shape w f := by
          intro w f
          unfold modeWidth
          rw [hs]
          simp only [Settings.noInst, if_neg hsh]
          rfl
        simp only [this]
      · rw [if_neg ha, if_neg ha]

/-- **C101**, `--scale` multiplies the result and does nothing else. -/
theorem C101_output_scale (a : Args) (x : ℝ) :
    dosMain coeffs error c wmin k bins freqs grads weights { a with scale := some x } =
      (dosMain coeffs error c wmin k bins freqs grads weights { a with scale := none }).map (List.map (· * x)) := by
  obtain ⟨w, pd, ad, as, eb, ib, sh, sc⟩ := a
  unfold dosMain
  have hk : checkKind ⟨w, pd, ad, as, eb, ib, sh, some x⟩ k = checkKind ⟨w, pd, ad, as, eb, ib, sh, none⟩ k := rfl
  have hr : resolve ⟨w, pd, ad, as, eb, ib, sh, some x⟩ = resolve ⟨w, pd, ad, as, eb, ib, sh, none⟩ := rfl
  dsimp only
  rw [hk, hr]
  cases checkKind ⟨w, pd, ad, as, eb, ib, sh, none⟩ k with
  | error e => rfl
  | ok u =>
    cases resolve ⟨w, pd, ad, as, eb, ib, sh, none⟩ with
    | error e => rfl
    | ok s =>
      have h1 : rawDos c wmin bins freqs grads weights ⟨w, pd, ad, as, eb, ib, sh, some x⟩ s =
        rawDos c wmin bins freqs grads weights ⟨w, pd, ad, as, eb, ib, sh, none⟩ s := rfl
      have h2 : post ⟨w, pd, ad, as, eb, ib, sh, some x⟩ s = post ⟨w, pd, ad, as, eb, ib, sh, none⟩ s := rfl
      simp only [bind, Except.bind]
      rw [h1, h2]
      cases rawDos c wmin bins freqs grads weights ⟨w, pd, ad, as, eb, ib, sh, none⟩ s with
      | error e => rfl
      | ok y =>
        simp only
        cases applyPost coeffs error sh bins (fun i : Fin y.length => y.get i)
          (post ⟨w, pd, ad, as, eb, ib, sh, none⟩ s) with
        | error e => rfl
        | ok d =>
          simp only [Except.map, applyScale, pure, Except.pure, List.map_ofFn, Function.comp_def]

/-- **C101 fails** for `--adaptive-scale 0`: the widths are not scaled to zero (and then raised to the smallest width), the option
is ignored. -/
theorem C101_scale_zero_ignored (a : Args) (h : a.adaptiveScale = some 0) (heb : a.energyBroadening = none) :
    dosMain coeffs error c wmin k bins freqs grads weights a =
      dosMain coeffs error c wmin k bins freqs grads weights { a with adaptiveScale := some 1 } := by
  obtain ⟨w, pd, ad, as, eb, ib, sh, sc⟩ := a
  cases h
  cases heb
  unfold dosMain
  have hk : checkKind ⟨w, pd, ad, some 0, none, ib, sh, sc⟩ k = checkKind ⟨w, pd, ad, some 1, none, ib, sh, sc⟩ k := rfl
  dsimp only
  rw [hk]
  cases checkKind ⟨w, pd, ad, some 1, none, ib, sh, sc⟩ k with
  | error e => rfl
  | ok u =>
    have hw : ∀ w f : ℝ, modeWidth ⟨some 0, ib⟩ sh w f = modeWidth ⟨some 1, ib⟩ sh w f := by
      intro w f
      unfold modeWidth scaleWidth
      simp
    have hr : rawDos c wmin bins freqs grads weights ⟨w, pd, ad, some 0, none, ib, sh, sc⟩ ⟨some 0, ib⟩ =
        rawDos c wmin bins freqs grads weights ⟨w, pd, ad, some 1, none, ib, sh, sc⟩ ⟨some 1, ib⟩ := by
      unfold rawDos
      simp only [hw]
    simp only [resolve, bind, Except.bind, hr]
    rfl

/-- **C101**, a scale other than zero multiplies the widths from the gradients. -/
theorem C101_scale (a : Args) (x : ℝ) (hx : x ≠ 0) (h : a.adaptiveScale = some x) (heb : a.energyBroadening = none) :
    dosMain coeffs error c wmin k bins freqs grads weights a =
      dosMain coeffs error c wmin k bins freqs (fun q m => x * grads q m) weights { a with adaptiveScale := none } := by
  obtain ⟨w, pd, ad, as, eb, ib, sh, sc⟩ := a
  cases h
  cases heb
  unfold dosMain
  have hk : checkKind ⟨w, pd, ad, some x, none, ib, sh, sc⟩ k = checkKind ⟨w, pd, ad, none, none, ib, sh, sc⟩ k := rfl
  dsimp only
  rw [hk]
  cases checkKind ⟨w, pd, ad, none, none, ib, sh, sc⟩ k with
  | error e => rfl
  | ok u =>
    have hw : ∀ w f : ℝ, modeWidth ⟨some x, ib⟩ sh w f = modeWidth ⟨none, ib⟩ sh (x * w) f := by
      intro w f
      unfold modeWidth scaleWidth
      simp only [if_neg hx, mul_comm w x]
    have hr : rawDos c wmin bins freqs grads weights ⟨w, pd, ad, some x, none, ib, sh, sc⟩ ⟨some x, ib⟩ =
        rawDos c wmin bins freqs (fun q m => x * grads q m) weights ⟨w, pd, ad, none, none, ib, sh, sc⟩ ⟨none, ib⟩ := by
      unfold rawDos
      simp only [hw]
    simp only [resolve, bind, Except.bind, hr]
    rfl

/-! ## The meaning of the width -/

/-- **C102** (what holds). Without `--adaptive`, modes that fall into one bin give a Gaussian peak whose full width at half
maximum is the width of `--instrument-broadening` (or `--energy-broadening`), as far as the kernel reaches. -/
theorem C102_fixed_width_partial (a : Args) (ha : a.adaptive = false) (hsh : a.shape = "gauss") (hsc : a.scale = none)
    (hk : k = .frequencies → a.weighting = "dos" ∧ a.pdos = none) (W : ℝ)
    (hW : (a.energyBroadening = none ∧ a.instBroadening = some [W]) ∨
      (a.energyBroadening = some [W] ∧ a.instBroadening = none))
    (m : Nat) (p : Fin (m + 2)) (height : ℝ)
    (hdos : Dos.calculateDos c bins (fun q m => freqs q m * c) weights =
      .ok (List.ofFn fun i : Fin (m + 2) => if i = p then height else 0))
    (x0 dx : ℝ) (hx : getBinCentres (m + 2) bins = .ok (regular x0 dx (m + 2)))
    (hs : 1 / 10 ^ 15 < W / (2 * Real.sqrt (2 * Real.log 2)) / dx) (hdx : dx ≠ 0) (hW0 : W ≠ 0) :
    ∃ y : Fin (m + 2) → ℝ, dosMain coeffs error c wmin k bins freqs grads weights a = .ok (List.ofFn y) ∧
      ∀ i : Fin (m + 2),
        p.val ≤ i.val + ⌊4 * (W / (2 * Real.sqrt (2 * Real.log 2)) / dx) + 1 / 2⌋₊ →
        i.val ≤ p.val + ⌊4 * (W / (2 * Real.sqrt (2 * Real.log 2)) / dx) + 1 / 2⌋₊ →
        y i = y p * (2 : ℝ) ^ (-(2 * ((x0 + i * dx) - (x0 + p * dx)) / W) ^ 2) := by
  obtain ⟨d', hd', hval⟩ := C91_gauss_partial none bins x0 dx W hx (Or.inl rfl) hs hdx hW0 height p
  refine ⟨d', ?_, hval⟩
  have hkind := kind_ok k a (by rw [ha]; intro h; cases h) hk
  have hres : ∃ as, resolve a = .ok ⟨as, some [W]⟩ := by
    unfold resolve
    rcases hW with ⟨h1, h2⟩ | ⟨h1, h2⟩
    · rw [h1, h2]; exact ⟨_, rfl⟩
    · rw [h1, h2, ha]
      simp
  obtain ⟨as, hres⟩ := hres
  have hpost : post a ⟨as, some [W]⟩ = .fixed W := by
    unfold post
    simp [ha]
  have hraw : rawDos c wmin bins freqs grads weights a ⟨as, some [W]⟩ =
      .ok (List.ofFn fun i : Fin (m + 2) => if i = p then height else 0) := by
    unfold rawDos
    rw [ha]
    exact hdos
  unfold dosMain
  simp only [hkind, hres, hraw, hpost, bind, Except.bind, applyPost, hsh]
  have key : ∀ (n : Nat) (l : List ℝ) (hl : l.length = n) (d : Fin n → ℝ),
      (∀ i : Fin l.length, l.get i = d (Fin.cast hl i)) → ∀ r, broaden1d "gauss" none bins W d = .ok r →
      (broaden1d "gauss" none bins W (fun i : Fin l.length => l.get i) >>= fun v =>
        (pure (List.ofFn (applyScale v a.scale)) : Except Err (List ℝ))) = .ok (List.ofFn r) := by
    intro n l hl d hd r hr
    subst hl
    have : (fun i : Fin l.length => l.get i) = d := by
      funext i
      rw [hd i]
      rfl
    rw [this, hr, hsc]
    rfl
  refine key (m + 2) (List.ofFn fun i : Fin (m + 2) => if i = p then height else 0) List.length_ofFn
    (fun j => if j = p then height else 0) (fun i => ?_) d' hd'
  rw [List.get_ofFn]

/-- The profile of an isolated mode with `--adaptive`: one q-point, one mode, no dispersion. -/
theorem adaptive_profile (a : Args) (ha : a.adaptive = true) (hsh : a.shape = "gauss") (hsc : a.scale = none) (W f wt : ℝ)
    (hW : a.instBroadening = some [W]) (heb : a.energyBroadening = none) (hc : 0 < c) (hw : wmin ≤ W * c)
    (hW0 : 0 < W) (hwt : wt ≠ 0) :
    dosMain coeffs error c wmin .forceConstants bins (fun (_ _ : Fin 1) => f) (fun _ _ => 0) (fun _ => wt) a =
      .ok ((List.zipWith (fun a d => a + d / 2) (bins.map (· * c)) (npDiff (bins.map (· * c)))).map fun x =>
        3 * c * normPdf (x - f * c) (W * c)) := by
  have hkind := kind_ok .forceConstants a (fun _ => rfl) (by intro h; cases h)
  have hres : resolve a = .ok ⟨a.adaptiveScale, some [W]⟩ := by
    unfold resolve
    rw [heb, hW]
  have hpost : post a ⟨a.adaptiveScale, some [W]⟩ = .nothing := by
    unfold post
    simp [ha, hsh]
  have hmw : modeWidth ⟨a.adaptiveScale, some [W]⟩ a.shape 0 f = W := by
    unfold modeWidth
    simp only [hsh, if_true]
    have : scaleWidth ⟨a.adaptiveScale, some [W]⟩ 0 = 0 := by
      unfold scaleWidth
      cases a.adaptiveScale with
      | none => rfl
      | some x => show (if x = 0 then (0 : ℝ) else 0 * x) = 0; simp
    rw [this]
    have hp : polyEval [W] f = W := by simp [polyEval]
    rw [hp]
    simp [Real.sqrt_sq hW0.le]
  unfold dosMain
  simp only [hkind, hres, bind, Except.bind, rawDos, ha, if_true, hpost, applyPost, hsc, applyScale]
  simp only [pure, Except.pure, List.ofFn_get]
  rw [Dos.adaptive_eq]
  simp only [hmw, Finset.univ_unique, Finset.sum_const, Finset.card_singleton, one_smul, Nat.cast_one, max_eq_left hw]
  congr 1
  apply List.map_congr_left
  intro x _
  field_simp

theorem normPdf_ratio (x s : ℝ) : normPdf x s = normPdf 0 s * Real.exp (-(x / s) ^ 2 / 2) := by
  unfold normPdf
  simp only [zero_div, ne_eq, OfNat.ofNat_ne_zero, not_false_eq_true, zero_pow, neg_zero, Real.exp_zero]
  ring

/-- The centres of the bins (in the unit of the bins). -/
noncomputable def centresOf (bins : List ℝ) : List ℝ := List.zipWith (fun a d => a + d / 2) bins (npDiff bins)

theorem npDiff_scale (c : ℝ) : ∀ l : List ℝ, npDiff (l.map (· * c)) = (npDiff l).map (· * c)
  | [] => rfl
  | [_] => rfl
  | a :: b :: l => by
    have := npDiff_scale c (b :: l)
    simp only [List.map_cons, npDiff] at this ⊢
    rw [this]
    simp [sub_mul]

theorem centres_scaled (c : ℝ) (bins : List ℝ) :
    List.zipWith (fun a d => a + d / 2) (bins.map (· * c)) (npDiff (bins.map (· * c))) =
      (centresOf bins).map (· * c) := by
  rw [npDiff_scale, centresOf, List.zipWith_map, List.map_zipWith]
  congr 1
  funext a d
  ring

/-- **C102 fails** with `--adaptive`: the instrumental width is used as a standard deviation.  The peak of an isolated mode with
flat dispersion falls to one half at the distance `sqrt(2 ln 2) W` from its centre, so that its full width at half maximum is
`2.355 W`, not `W`; at half the width given it has still `exp(-1/8)`, 88 per cent, of the height. -/
theorem C102_adaptive_too_wide (a : Args) (ha : a.adaptive = true) (hsh : a.shape = "gauss") (hsc : a.scale = none)
    (W f wt : ℝ) (hW : a.instBroadening = some [W]) (heb : a.energyBroadening = none) (hc : 0 < c) (hw : wmin ≤ W * c)
    (hW0 : 0 < W) (hwt : wt ≠ 0) :
    ∃ (y : List ℝ) (h : ℝ), 0 < h ∧
      dosMain coeffs error c wmin .forceConstants bins (fun (_ _ : Fin 1) => f) (fun _ _ => 0) (fun _ => wt) a = .ok y ∧
      y.length = (centresOf bins).length ∧
      ∀ i : Nat, ∀ x v : ℝ, (centresOf bins)[i]? = some x → y[i]? = some v →
        (x = f → v = h) ∧
        (v = h / 2 ↔ |x - f| = Real.sqrt (2 * Real.log 2) * W) ∧
        (|x - f| = W / 2 → v = h * Real.exp (-(1 / 8))) := by
  have hWc : 0 < W * c := by positivity
  have hlog : 0 < Real.log 2 := Real.log_pos (by norm_num)
  have hn0 : 0 < normPdf 0 (W * c) := by
    unfold normPdf
    positivity
  refine ⟨_, 3 * c * normPdf 0 (W * c), by positivity, adaptive_profile coeffs error c wmin bins a ha hsh hsc W f wt hW heb hc
    hw hW0 hwt, ?_, ?_⟩
  · rw [centres_scaled]; simp
  · intro i x v hx hv
    rw [centres_scaled, List.map_map, List.getElem?_map, hx] at hv
    simp only [Option.map_some, Function.comp, Option.some.injEq] at hv
    have hv' : v = 3 * c * normPdf 0 (W * c) * Real.exp (-((x - f) / W) ^ 2 / 2) := by
      rw [← hv, normPdf_ratio]
      have : (x * c - f * c) / (W * c) = (x - f) / W := by field_simp
      rw [this]
      ring
    set h := 3 * c * normPdf 0 (W * c) with hh
    have hpos : 0 < h := by positivity
    refine ⟨?_, ?_, ?_⟩
    · intro hxf
      rw [hv', hxf]
      simp
    · rw [hv']
      constructor
      · intro he
        have h1 : Real.exp (-((x - f) / W) ^ 2 / 2) = 1 / 2 := by
          have : h * Real.exp (-((x - f) / W) ^ 2 / 2) = h * (1 / 2) := by linarith
          exact mul_left_cancel₀ hpos.ne' this
        have h2 : -((x - f) / W) ^ 2 / 2 = -Real.log 2 := by
          have := congrArg Real.log h1
          rw [Real.log_exp] at this
          rw [this, one_div, Real.log_inv]
        have h3 : ((x - f) / W) ^ 2 = 2 * Real.log 2 := by linarith
        have h4 : |(x - f) / W| = Real.sqrt (2 * Real.log 2) := by
          rw [← h3, Real.sqrt_sq_eq_abs]
        rw [abs_div, abs_of_pos hW0, div_eq_iff hW0.ne'] at h4
        exact h4
      · intro he
        have h4 : ((x - f) / W) ^ 2 = 2 * Real.log 2 := by
          rw [← sq_abs, abs_div, abs_of_pos hW0, he, mul_div_assoc, div_self hW0.ne', mul_one,
            Real.sq_sqrt (by positivity)]
        rw [neg_div, h4]
        have : -(2 * Real.log 2 / 2) = -Real.log 2 := by ring
        rw [this, Real.exp_neg, Real.exp_log (by norm_num)]
        ring
    · intro he
      have h4 : ((x - f) / W) ^ 2 = 1 / 4 := by
        rw [← sq_abs, abs_div, abs_of_pos hW0, he]
        field_simp
        norm_num
      rw [hv', neg_div, h4]
      norm_num

/-! ## Concrete cases -/

/-- Options of `euphonic-dos --adaptive --instrument-broadening 2`. -/
def adaptiveArgs : Args := ⟨"dos", none, true, none, none, some [2], "gauss", none⟩

/-- `C102_adaptive_too_wide` for bins of width 1 from 0 to 10 and a mode at 4.5: the bin at 5.5, half the width away, has
88 per cent of the height. -/
example : ∃ (y : List ℝ) (h : ℝ), 0 < h ∧
    dosMain (fun _ => []) 0.01 1 0.01 .forceConstants ((List.range 11).map fun i : Nat => (i : ℝ))
      (fun (_ _ : Fin 1) => 4.5) (fun _ _ => 0) (fun _ => 1) adaptiveArgs = .ok y ∧
    ∀ v, y[5]? = some v → v = h * Real.exp (-(1 / 8)) := by
  obtain ⟨y, h, h0, hy, _, hv⟩ := C102_adaptive_too_wide (fun _ => []) 0.01 1 0.01
    ((List.range 11).map fun i : Nat => (i : ℝ)) adaptiveArgs rfl rfl rfl 2 4.5 1 rfl rfl one_pos (by norm_num) two_pos
    one_ne_zero
  refine ⟨y, h, h0, hy, fun v hyv => ?_⟩
  refine (hv 5 5.5 v ?_ hyv).2.2 ?_
  · simp [centresOf, npDiff, List.range_succ]
    norm_num
  · norm_num [abs_of_pos]

/-- `C102_fixed_width_partial` for one mode at 0.5 on two bins of width 1. -/
example : ∃ y : Fin 2 → ℝ,
    dosMain (fun _ => []) 0.01 1 0.01 .modes [0, 1, 2] (fun (_ _ : Fin 1) => 0.5) (fun _ _ => 0) (fun _ => 1)
      ⟨"dos", none, false, none, some [2], none, "gauss", none⟩ = .ok (List.ofFn y) ∧ y 1 = y 0 / 2 := by
  have hl : Real.log 2 < 1 := by linarith [Real.log_two_lt_d9]
  have hlog : 0 < Real.log 2 := Real.log_pos (by norm_num)
  have hsq : Real.sqrt (2 * Real.log 2) ≤ 2 := by
    rw [Real.sqrt_le_left (by norm_num)]; linarith
  have hsq0 : 0 < Real.sqrt (2 * Real.log 2) := by positivity
  have hsig : 1 / 2 ≤ 2 / (2 * Real.sqrt (2 * Real.log 2)) / 1 := by
    rw [div_one, div_le_div_iff₀ (by norm_num) (by positivity)]
    linarith
  obtain ⟨y, hy, hv⟩ := C102_fixed_width_partial (fun _ => []) 0.01 1 0.01 .modes [0, 1, 2]
    (fun (_ _ : Fin 1) => 0.5) (fun _ _ => 0) (fun _ => 1) ⟨"dos", none, false, none, some [2], none, "gauss", none⟩
    rfl rfl rfl (by simp) 2 (Or.inr ⟨rfl, rfl⟩) 0 0 3 (by
      simp [Dos.calculateDos, Dos.calculateDos_, Dos.histogram, Dos.digitize, Dos.paddedWidths, npDiff, Dos.normalise,
        Dos.addAt, List.finRange_succ, bind, Except.bind, pure, Except.pure]
      norm_num) 0.5 1 (by
      simp [getBinCentres, regular, List.range_succ, isBinEdge, binEdgesToCentres, npDiff, bind, Except.bind, pure,
        Except.pure]
      norm_num) (lt_of_lt_of_le (by norm_num) hsig) (by norm_num) (by norm_num)
  refine ⟨y, hy, ?_⟩
  have hfl : 1 ≤ ⌊4 * (2 / (2 * Real.sqrt (2 * Real.log 2)) / 1) + 1 / 2⌋₊ := by
    apply Nat.le_floor
    push_cast
    linarith
  rw [hv 1 (by simp) (by simpa using hfl)]
  norm_num
  ring

/-- `C101_twice`: both names of the width. -/
example : dosMain (fun _ => []) 0.01 1 0.01 .modes [0, 1, 2] (fun (_ _ : Fin 1) => 0.5) (fun _ _ => 0) (fun _ => 1)
    ⟨"dos", none, false, none, some [1], some [2], "gauss", none⟩ = .error .valueError :=
  C101_twice _ _ _ _ _ _ _ _ _ _ (by simp) (by simp) [1] rfl (Or.inr ⟨by simp, _, rfl⟩)

/-- `C101_kind`: `--adaptive` with a file of modes. -/
example : dosMain (fun _ => []) 0.01 1 0.01 .modes [0, 1, 2] (fun (_ _ : Fin 1) => 0.5) (fun _ _ => 0) (fun _ => 1)
    ⟨"dos", none, true, none, none, none, "gauss", none⟩ = .error .typeError :=
  C101_kind _ _ _ _ _ _ _ _ _ _ (Or.inl ⟨rfl, by decide⟩)

/-- `C101_alias`, `C101_scale`: `--adaptive --energy-broadening 3` triples the widths. -/
example (grads : Fin 1 → Fin 1 → ℝ) :
    dosMain (fun _ => []) 0.01 1 0.01 .forceConstants [0, 1, 2] (fun (_ _ : Fin 1) => 0.5) grads (fun _ => 1)
      ⟨"dos", none, true, none, some [3], none, "gauss", none⟩ =
    dosMain (fun _ => []) 0.01 1 0.01 .forceConstants [0, 1, 2] (fun (_ _ : Fin 1) => 0.5) (fun q m => 3 * grads q m)
      (fun _ => 1) ⟨"dos", none, true, none, none, none, "gauss", none⟩ := by
  rw [(C101_alias _ _ _ _ _ _ _ _ _ ⟨"dos", none, true, none, some [3], none, "gauss", none⟩ [3] rfl).1 3 rfl rfl rfl]
  exact C101_scale _ _ _ _ _ _ _ _ _ _ 3 (by norm_num) rfl rfl

end Euphonic.DosCli
