import Verif.Prelude
import Verif.Model.Scatter
import Verif.Props.Sqw

/-! # Properties C27, C28 (and the end of C26, C83): structure factors and Debye-Waller exponents -/

set_option autoImplicit false
set_option linter.unusedSectionVars false

namespace Euphonic.Scatter

open scoped ComplexConjugate

variable {na : Nat} {C : Cryst na} {nq nm : Nat}

theorem sf_ok (m : Modes C nq nm) (data : String → Option ℂ) (dw : Option DW) (r : SF nq nm)
    (h : calculateStructureFactor m data dw = .ok r) :
    ∃ sl d, lookupAll data C.atomType = .ok sl ∧ dwFactors m dw = .ok d ∧
      r = ⟨m.freqs, fun q j => sfValue na (sfTerm m sl d q j) (m.freqs q j), Dos.defaultWeights nq,
        dw.map (·.temperature)⟩ := by
  unfold calculateStructureFactor at h
  cases h1 : lookupAll data C.atomType with
  | error e => simp [h1, bind, Except.bind] at h
  | ok sl =>
    cases h2 : dwFactors m dw with
    | error e => simp [h1, h2, bind, Except.bind] at h
    | ok d =>
      simp only [h1, h2, bind, Except.bind, pure, Except.pure, Except.ok.injEq] at h
      exact ⟨sl, d, rfl, rfl, h.symm⟩

/-! ## C27 -/

/-- **C27**: structure factors are never negative. -/
theorem C27_nonneg (m : Modes C nq nm) (data : String → Option ℂ) (dw : Option DW) (r : SF nq nm)
    (h : calculateStructureFactor m data dw = .ok r) (q : Fin nq) (j : Fin nm) : 0 ≤ r.sf q j := by
  obtain ⟨sl, d, _, _, rfl⟩ := sf_ok m data dw r h
  simp only [sfValue]
  positivity

/-- **C27**: multiplying each eigenvector by any complex number of modulus one changes nothing. -/
theorem C27_phase_invariant (m : Modes C nq nm) (data : String → Option ℂ) (dw : Option DW)
    (θ : Fin nq → Fin nm → ℂ) (hθ : ∀ q j, ‖θ q j‖ = 1) :
    calculateStructureFactor (C := C) { m with evecs := fun q j k l => θ q j * m.evecs q j k l } data dw =
      calculateStructureFactor m data dw := by
  set m' : Modes C nq nm := { m with evecs := fun q j k l => θ q j * m.evecs q j k l } with hm'
  have h1 : dwFactors m' dw = dwFactors m dw := by
    cases dw <;> rfl
  have h2 : ∀ sl d q j, sfTerm m' sl d q j = conj (θ q j) * sfTerm m sl d q j := by
    intro sl d q j
    simp only [sfTerm, Finset.mul_sum]
    refine Finset.sum_congr rfl fun k _ => ?_
    have : evecDotQ m' q j k = conj (θ q j) * evecDotQ m q j k := by
      simp only [evecDotQ, Finset.mul_sum, hm']
      refine Finset.sum_congr rfl fun l _ => ?_
      rw [map_mul, mul_assoc]
      rfl
    rw [this]
    have : expFactor m' q k = expFactor m q k := rfl
    rw [this]
    ring
  unfold calculateStructureFactor
  rw [h1]
  congr 1
  funext sl
  congr 1
  funext d
  have : (fun q j => sfValue na (sfTerm m' sl d q j) (m'.freqs q j)) =
      fun q j => sfValue na (sfTerm m sl d q j) (m.freqs q j) := by
    funext q j
    rw [h2]
    simp only [sfValue, map_mul, norm_mul, RCLike.norm_conj, hθ, one_mul]
    rfl
  rw [this]

/-- The crystal with all atoms moved by the same fractional vector. -/
def shift (C : Cryst na) (t : Fin 3 → ℝ) : Cryst na :=
  { C with atomR := fun k j => C.atomR k j + t j }

/-- **C27**: the choice of the origin (moving all atoms by the same vector) does not matter. -/
theorem C27_origin_invariant (m : Modes C nq nm) (data : String → Option ℂ) (dw : Option DW)
    (t : Fin 3 → ℝ) :
    calculateStructureFactor (C := shift C t) ⟨m.qpts, m.freqs, m.evecs, m.weights⟩ data dw =
      calculateStructureFactor m data dw := by
  set m' : Modes (shift C t) nq nm := ⟨m.qpts, m.freqs, m.evecs, m.weights⟩ with hm'
  have h1 : dwFactors m' dw = dwFactors m dw := by
    cases dw <;> rfl
  have h2 : ∀ sl d q j, sfTerm m' sl d q j =
      Complex.exp (Complex.I * 2 * Real.pi * (∑ j, m.qpts q j * t j : ℝ)) * sfTerm m sl d q j := by
    intro sl d q j
    simp only [sfTerm, Finset.mul_sum]
    refine Finset.sum_congr rfl fun k _ => ?_
    have e1 : expFactor m' q k =
        Complex.exp (Complex.I * 2 * Real.pi * (∑ j, m.qpts q j * t j : ℝ)) * expFactor m q k := by
      simp only [expFactor, hm', shift, mul_add, Finset.sum_add_distrib]
      rw [← Complex.exp_add, Complex.ofReal_add]
      congr 1
      ring
    have e2 : evecDotQ m' q j k = evecDotQ m q j k := rfl
    rw [e1, e2]
    have e3 : (shift C t).mass = C.mass := rfl
    rw [e3]
    ring
  have hnorm : ∀ q : Fin nq,
      ‖Complex.exp (Complex.I * 2 * Real.pi * (∑ j, m.qpts q j * t j : ℝ))‖ = 1 := by
    intro q
    have : Complex.I * 2 * Real.pi * (∑ j, m.qpts q j * t j : ℝ) =
        ((2 * Real.pi * ∑ j, m.qpts q j * t j : ℝ) : ℂ) * Complex.I := by
      push_cast
      ring
    rw [this, Complex.norm_exp_ofReal_mul_I]
  have hlook : lookupAll data (shift C t).atomType = lookupAll data C.atomType := rfl
  change (lookupAll data (shift C t).atomType >>= fun sl => dwFactors m' dw >>= fun d => _) = _
  rw [hlook, h1]
  unfold calculateStructureFactor
  congr 1
  funext sl
  congr 1
  funext d
  have : (fun q j => sfValue na (sfTerm m' sl d q j) (m'.freqs q j)) =
      fun q j => sfValue na (sfTerm m sl d q j) (m.freqs q j) := by
    funext q j
    rw [h2]
    simp only [sfValue, map_mul, norm_mul, RCLike.norm_conj, hnorm, one_mul]
    rfl
  rw [this]

/-- The Debye-Waller exponent of atom `k` at `q`: `Q . W_k . Q`. -/
noncomputable def exponent (m : Modes C nq nm) (dw : DW) (h : dw.nAtoms = na) (q : Fin nq)
    (k : Fin na) : ℝ :=
  ∑ a, ∑ b, dw.w (Fin.cast h.symm k) a b * cartQ m q a * cartQ m q b

/-- **C27**: with non-negative Debye-Waller exponents the structure factor is at most the square of the
sum over atoms of the moduli of the undamped terms (whatever their phases). -/
theorem C27_debye_waller_bound (m : Modes C nq nm) (data : String → Option ℂ) (dw : DW)
    (hn : dw.nAtoms = na) (r : SF nq nm)
    (h : calculateStructureFactor m data (some dw) = .ok r) (q : Fin nq) (j : Fin nm)
    (hpos : ∀ k, 0 ≤ exponent m dw hn q k) :
    r.sf q j ≤ (∑ k, ‖evecDotQ m q j k‖ * (‖(data (C.atomType k)).getD 0‖ / Real.sqrt (C.mass k))) ^ 2
      / |m.freqs q j| / (2 * na) := by
  obtain ⟨sl, d, h1, h2, rfl⟩ := sf_ok m data _ r h
  have hsl : sl = fun k => (data (C.atomType k)).getD 0 := by
    unfold lookupAll at h1
    split at h1
    · simp only [Except.ok.injEq] at h1
      exact h1.symm
    · simp at h1
  have hd : d = fun q k => Real.exp (-exponent m dw hn q k) := by
    simp only [dwFactors, hn, dite_true, Except.ok.injEq] at h2
    rw [← h2]
    rfl
  subst hsl hd
  simp only [sfValue]
  refine div_le_div_of_nonneg_right (div_le_div_of_nonneg_right ?_ (abs_nonneg (m.freqs q j)))
    (by positivity)
  rw [norm_mul, RCLike.norm_conj, ← pow_two]
  refine pow_le_pow_left₀ (norm_nonneg _) ?_ 2
  refine (norm_sum_le _ _).trans (Finset.sum_le_sum fun k _ => ?_)
  rw [norm_mul, norm_mul, norm_mul]
  have he : ‖expFactor m q k‖ = 1 := by
    unfold expFactor
    have : Complex.I * 2 * Real.pi * (∑ j, m.qpts q j * C.atomR k j : ℝ) =
        ((2 * Real.pi * ∑ j, m.qpts q j * C.atomR k j : ℝ) : ℂ) * Complex.I := by
      push_cast
      ring
    rw [this, Complex.norm_exp_ofReal_mul_I]
  have hd1 : ‖((Real.exp (-exponent m dw hn q k) : ℝ) : ℂ)‖ ≤ 1 := by
    rw [Complex.norm_real, Real.norm_eq_abs, abs_of_pos (Real.exp_pos _)]
    exact Real.exp_le_one_iff.2 (neg_nonpos.2 (hpos k))
  have hs : ‖(data (C.atomType k)).getD 0 / (Real.sqrt (C.mass k) : ℂ)‖ =
      ‖(data (C.atomType k)).getD 0‖ / Real.sqrt (C.mass k) := by
    rw [norm_div, Complex.norm_real, Real.norm_eq_abs, abs_of_nonneg (Real.sqrt_nonneg _)]
  rw [he, one_mul, hs]
  refine mul_le_mul_of_nonneg_right ?_ (by positivity)
  exact mul_le_of_le_one_right (norm_nonneg _) hd1

/-- **C27**: when all atoms have the same exponent `E` at a q-point (in particular with one atom), the
structure factor is exactly `exp(-2E)` times the one without Debye-Waller factor. -/
theorem C27_debye_waller_equal_exponents (m : Modes C nq nm) (data : String → Option ℂ) (dw : DW)
    (hn : dw.nAtoms = na) (r r0 : SF nq nm)
    (h : calculateStructureFactor m data (some dw) = .ok r)
    (h0 : calculateStructureFactor m data none = .ok r0) (q : Fin nq) (j : Fin nm) (E : ℝ)
    (hE : ∀ k, exponent m dw hn q k = E) : r.sf q j = Real.exp (-2 * E) * r0.sf q j := by
  obtain ⟨sl, d, h1, h2, rfl⟩ := sf_ok m data _ r h
  obtain ⟨sl0, d0, h10, h20, rfl⟩ := sf_ok m data _ r0 h0
  rw [h1] at h10
  obtain rfl : sl = sl0 := by simpa using h10
  have hd0 : d0 = fun _ _ => 1 := by
    simp only [dwFactors, Except.ok.injEq] at h20
    exact h20.symm
  have hd : d = fun q k => Real.exp (-exponent m dw hn q k) := by
    simp only [dwFactors, hn, dite_true, Except.ok.injEq] at h2
    rw [← h2]
    rfl
  subst hd hd0
  have : sfTerm m sl (fun q k => Real.exp (-exponent m dw hn q k)) q j =
      (Real.exp (-E) : ℂ) * sfTerm m sl (fun _ _ => 1) q j := by
    simp only [sfTerm, Finset.mul_sum, hE]
    refine Finset.sum_congr rfl fun k _ => ?_
    push_cast
    ring
  simp only [this, sfValue, map_mul, norm_mul, RCLike.norm_conj]
  rw [Complex.norm_real, Real.norm_eq_abs, abs_of_pos (Real.exp_pos _)]
  have : Real.exp (-2 * E) = Real.exp (-E) * Real.exp (-E) := by
    rw [← Real.exp_add]
    congr 1
    ring
  rw [this]
  ring

/-- Two atoms at the origin moving against each other. -/
noncomputable def exC : Cryst 2 where
  atomR _ _ := 0
  atomType _ := "Na"
  mass _ := 1
  recip i j := if i = j then 1 else 0

/-- One q-point (1,0,0), one mode of frequency 1, eigenvector along Q with opposite signs. -/
noncomputable def exM : Modes exC 1 1 where
  qpts _ l := if l = 0 then 1 else 0
  freqs _ _ := 1
  evecs _ _ k l := if l = 0 then (if k.val = 0 then 1 else -1) else 0
  weights _ := 1

/-- **C27**: "never larger than without the Debye-Waller factor" does not hold for several atoms: two
terms that cancel without the factor no longer do when only one atom is damped. -/
theorem C27_debye_waller_can_increase : ∃ (dw : DW) (hn : dw.nAtoms = 2) (r r0 : SF 1 1),
    calculateStructureFactor exM (fun _ => some 1) (some dw) = .ok r ∧
    calculateStructureFactor exM (fun _ => some 1) none = .ok r0 ∧
    (∀ k, 0 ≤ exponent exM dw hn 0 k) ∧ r0.sf 0 0 < r.sf 0 0 := by
  let dw : DW := ⟨2, fun k a b => if k.val = 0 ∧ a = b then 1 else 0, 0⟩
  have hl : lookupAll (n := 2) (fun _ => some 1) exC.atomType = .ok fun _ => (1 : ℂ) := by
    simp [lookupAll]
  have hQ : ∀ l, cartQ exM 0 l = if l = 0 then 1 else 0 := by
    intro l
    simp [cartQ, exM, exC]
  have hex : ∀ k, exponent exM dw rfl 0 k = if k.val = 0 then 1 else 0 := by
    intro k
    simp only [exponent, hQ, dw]
    simp [Fin.sum_univ_succ]
  have hev : ∀ k : Fin 2, evecDotQ exM 0 0 k = if k.val = 0 then 1 else -1 := by
    intro k
    simp only [evecDotQ, hQ]
    rw [Fin.sum_univ_three]
    fin_cases k <;> simp [exM]
  have hterm : ∀ d, sfTerm exM (fun _ => (1 : ℂ)) d 0 0 = ((d 0 0 - d 0 1 : ℝ) : ℂ) := by
    intro d
    have hx : ∀ k, expFactor exM 0 k = 1 := by simp [expFactor, exC]
    simp only [sfTerm, hev, hx]
    rw [Fin.sum_univ_two]
    simp [exC]
    ring
  have e1 : calculateStructureFactor exM (fun _ => some 1) (some dw) = .ok ⟨exM.freqs,
      fun q j => sfValue 2 (sfTerm exM (fun _ => (1 : ℂ))
        (fun q k => Real.exp (-exponent exM dw rfl q k)) q j) (exM.freqs q j),
      Dos.defaultWeights 1, some 0⟩ := by
    unfold calculateStructureFactor
    rw [hl]
    simp only [dwFactors, bind, Except.bind, pure, Except.pure]
    rw [dif_pos (show dw.nAtoms = 2 from rfl)]
    rfl
  have e2 : calculateStructureFactor exM (fun _ => some 1) none = .ok ⟨exM.freqs,
      fun q j => sfValue 2 (sfTerm exM (fun _ => (1 : ℂ)) (fun _ _ => 1) q j) (exM.freqs q j),
      Dos.defaultWeights 1, none⟩ := by
    unfold calculateStructureFactor
    rw [hl]
    rfl
  refine ⟨dw, rfl, _, _, e1, e2, ?_, ?_⟩
  · intro k
    rw [hex]
    split <;> norm_num
  · change sfValue 2 (sfTerm exM (fun _ => (1 : ℂ)) (fun _ _ => 1) 0 0) 1 <
      sfValue 2 (sfTerm exM (fun _ => (1 : ℂ))
        (fun q k => Real.exp (-exponent exM dw rfl q k)) 0 0) 1
    rw [hterm, hterm]
    have he : Real.exp (-1) < 1 := by
      rw [Real.exp_lt_one_iff]
      norm_num
    have hne : Real.exp (-1) - 1 ≠ 0 := by linarith
    have hv : ∀ x : ℝ, sfValue 2 ((x : ℝ) : ℂ) 1 = x * x / 4 := by
      intro x
      simp only [sfValue]
      rw [norm_mul, RCLike.norm_conj, Complex.norm_real, Real.norm_eq_abs, abs_mul_abs_self]
      norm_num
    rw [hv, hv]
    simp only [hex]
    have := mul_self_pos.2 hne
    simpa using this

/-- **C27**: refusals — a species without scattering length is a `KeyError`, a Debye-Waller object with
another number of atoms a `ValueError`; otherwise there is a result. -/
theorem C27_refusals (m : Modes C nq nm) (data : String → Option ℂ) (dw : Option DW) :
    ((∃ k, data (C.atomType k) = none) → calculateStructureFactor m data dw = .error .keyError) ∧
    ((∀ k, data (C.atomType k) ≠ none) → (∃ w, dw = some w ∧ w.nAtoms ≠ na) →
      calculateStructureFactor m data dw = .error .valueError) ∧
    ((∀ k, data (C.atomType k) ≠ none) → (∀ w, dw = some w → w.nAtoms = na) →
      ∃ r, calculateStructureFactor m data dw = .ok r) := by
  have hl : (∀ k, data (C.atomType k) ≠ none) → ∃ sl, lookupAll data C.atomType = .ok sl := by
    intro h
    refine ⟨fun k => (data (C.atomType k)).getD 0, if_pos fun k => ?_⟩
    exact Option.isSome_iff_ne_none.2 (h k)
  refine ⟨?_, ?_, ?_⟩
  · rintro ⟨k, hk⟩
    have : lookupAll data C.atomType = .error .keyError := by
      refine if_neg fun h => ?_
      simpa [hk] using h k
    unfold calculateStructureFactor
    rw [this]
    rfl
  · rintro h ⟨w, rfl, hw⟩
    obtain ⟨sl, e⟩ := hl h
    unfold calculateStructureFactor
    rw [e]
    simp [dwFactors, hw, bind, Except.bind]
  · intro h hw
    obtain ⟨sl, e⟩ := hl h
    unfold calculateStructureFactor
    rw [e]
    cases dw with
    | none => exact ⟨_, rfl⟩
    | some w =>
      simp only [dwFactors, hw w rfl, dite_true, bind, Except.bind]
      exact ⟨_, rfl⟩

/-! ## C26 through the Debye-Waller temperature -/

/-- **C26**: a structure factor calculated with a Debye-Waller object carries its temperature, so the
S(Q,w) map refuses any other one and uses it when none is given. -/
theorem C26_debye_waller_temperature (m : Modes C nq nm) (data : String → Option ℂ) (dw : DW)
    (r : SF nq nm) (h : calculateStructureFactor m data (some dw) = .ok r)
    (kB c sfConv : ℝ) (b : List ℝ) :
    (∀ T, ¬ Dos.CloseTemp T dw.temperature →
      Dos.calculateSqwMap Real.exp kB c sfConv b true r.temperature (some T) r.freqs r.sf =
        .error .valueError) ∧
    Dos.usedTemperature true r.temperature none = .ok (some dw.temperature) := by
  obtain ⟨sl, d, _, _, rfl⟩ := sf_ok m data _ r h
  refine ⟨fun T hT => ?_, rfl⟩
  exact (Dos.C26_conflict_refused Real.exp kB c sfConv b dw.temperature T hT _ _
    (fun _ => 0) none).1

/-! ## C83 -/

/-- **C83** (violated). The weights of the q-points are not passed on: the structure factor of modes
with unequal weights has equal weights. -/
theorem C83_weights_lost : ∃ (m : Modes exC 2 1) (r : SF 2 1),
    calculateStructureFactor m (fun _ => some 1) none = .ok r ∧ r.weights ≠ m.weights ∧
      r.weights = fun _ => 1 / 2 := by
  obtain ⟨r, h⟩ := (C27_refusals (C := exC) (nq := 2) (nm := 1)
    ⟨fun _ _ => 0, fun _ _ => 1, fun _ _ _ _ => 0, fun q => if q = 0 then 1 else 3⟩
    (fun _ => some 1) none).2.2 (by simp) (by simp)
  refine ⟨_, r, h, ?_, ?_⟩
  · obtain ⟨sl, d, _, _, rfl⟩ := sf_ok _ _ _ r h
    intro hh
    have := congrFun hh 0
    simp [Dos.defaultWeights] at this
  · obtain ⟨sl, d, _, _, rfl⟩ := sf_ok _ _ _ r h
    funext q
    simp [Dos.defaultWeights]

/-- **C83**, the part that holds: equal weights with sum one are kept. -/
theorem C83_equal_weights_kept_partial (m : Modes C nq nm) (data : String → Option ℂ) (dw : Option DW)
    (r : SF nq nm) (h : calculateStructureFactor m data dw = .ok r) (k : ℝ)
    (hw : ∀ q, m.weights q = k) (hsum : ∑ q, m.weights q = 1) : r.weights = m.weights := by
  obtain ⟨sl, d, _, _, rfl⟩ := sf_ok m data _ r h
  funext q
  simp only [hw, Finset.sum_const, Finset.card_univ, Fintype.card_fin, nsmul_eq_mul] at hsum
  have : (nq : ℝ) ≠ 0 := by
    rintro h0
    rw [h0, zero_mul] at hsum
    exact zero_ne_one hsum
  rw [hw]
  simp only [Dos.defaultWeights]
  field_simp
  linarith

/-! ## C28 -/

theorem drop_take_sum {K : Type} [AddCommMonoid K] (v : List K) (a b : Nat) (h : a ≤ b) :
    (v.take a).sum + ((v.take b).drop a).sum = (v.take b).sum := by
  have : v.take b = v.take a ++ (v.take b).drop a := by
    conv_lhs => rw [← List.take_append_drop a (v.take b)]
    rw [List.take_take, min_eq_left h]
  conv_rhs => rw [this, List.sum_append]

/-- **C28**: cutting the q-points into chunks of any size gives the plain sum. -/
theorem C28_chunking_irrelevant {K : Type} [AddCommMonoid K] (chunk : Nat) (hc : 0 < chunk)
    (v : List K) : chunkedSum chunk v = v.sum := by
  have key : ∀ n, (List.range n).foldl (fun acc i =>
      acc + ((v.take (min ((i + 1) * chunk) v.length)).drop (i * chunk)).sum) 0 =
      (v.take (n * chunk)).sum := by
    intro n
    induction n with
    | zero => simp
    | succ n ih =>
      rw [List.range_succ, List.foldl_append, ih, List.foldl_cons, List.foldl_nil]
      have : v.take (min ((n + 1) * chunk) v.length) = v.take ((n + 1) * chunk) := by
        rw [List.take_eq_take_iff]
        omega
      rw [this]
      exact drop_take_sum v _ _ (Nat.mul_le_mul_right _ (by omega))
  unfold chunkedSum
  rw [key]
  congr 1
  apply List.take_of_length_le
  have := Nat.lt_div_mul_add (a := v.length - 1) hc
  rw [Nat.add_mul]
  omega

/-- A 3x3 matrix is symmetric with non-negative quadratic form. -/
def SymPSD (w : Fin 3 → Fin 3 → ℝ) : Prop :=
  (∀ i j, w i j = w j i) ∧ ∀ x : Fin 3 → ℝ, 0 ≤ ∑ i, ∑ j, x i * w i j * x j

theorem freqTerm_nonneg (kB temp fmin f : ℝ) (hk : 0 < kB) (hmin : 0 < fmin) :
    0 ≤ freqTerm kB temp fmin f := by
  unfold freqTerm
  by_cases hf : f < fmin
  · simp [hf]
  · have hpos : 0 < f := hmin.trans_le (not_lt.1 hf)
    rw [if_neg hf, mul_one]
    split
    · rename_i ht
      have : 0 < Real.tanh (f / (2 * kB * temp)) := by
        rw [Real.tanh_eq_sinh_div_cosh]
        have : 0 < f / (2 * kB * temp) := by positivity
        exact div_pos (Real.sinh_pos_iff.2 this) (Real.cosh_pos _)
      positivity
    · positivity

theorem quad_re (e : Fin 3 → ℂ) (x : Fin 3 → ℝ) :
    ∑ i, ∑ j, x i * (e i * conj (e j)).re * x j = Complex.normSq (∑ i, (x i : ℂ) * e i) := by
  simp only [Fin.sum_univ_three, Complex.normSq_apply, Complex.add_re, Complex.add_im,
    Complex.mul_re, Complex.mul_im, Complex.conj_re, Complex.conj_im, Complex.ofReal_re,
    Complex.ofReal_im]
  ring

theorem dwContribution_psd (m : Modes C nq nm) (kB temp fmin : ℝ) (hk : 0 < kB) (hmin : 0 < fmin)
    (k : Fin na) (hM : 0 < C.mass k) (q : Fin nq) (hw : 0 ≤ m.weights q) :
    SymPSD fun l n => dwContribution m kB temp fmin k l n q := by
  constructor
  · intro i j
    refine Finset.sum_congr rfl fun b _ => ?_
    congr 1
    simp only [Complex.mul_re, Complex.conj_re, Complex.conj_im]
    ring
  · intro x
    have : ∑ i, ∑ j, x i * dwContribution m kB temp fmin k i j q * x j =
        ∑ b, m.weights q * (1 / (4 * C.mass k)) * freqTerm kB temp fmin (m.freqs q b) *
          ∑ i, ∑ j, x i * (m.evecs q b k i * conj (m.evecs q b k j)).re * x j := by
      simp only [dwContribution, Finset.mul_sum, Finset.sum_mul]
      rw [Finset.sum_congr rfl fun i _ => Finset.sum_comm, Finset.sum_comm]
      refine Finset.sum_congr rfl fun b _ => Finset.sum_congr rfl fun i _ =>
        Finset.sum_congr rfl fun j _ => ?_
      ring
    rw [this]
    refine Finset.sum_nonneg fun b _ => ?_
    rw [quad_re]
    have := freqTerm_nonneg kB temp fmin (m.freqs q b) hk hmin
    have := Complex.normSq_nonneg (∑ i, (x i : ℂ) * m.evecs q b k i)
    positivity

theorem symPSD_zero : SymPSD fun _ _ => 0 := ⟨fun _ _ => rfl, fun x => by simp⟩

theorem symPSD_add (a b : Fin 3 → Fin 3 → ℝ) (ha : SymPSD a) (hb : SymPSD b) :
    SymPSD fun i j => a i j + b i j := by
  refine ⟨fun i j => by dsimp only; rw [ha.1 i j, hb.1 i j], fun x => ?_⟩
  have := add_nonneg (ha.2 x) (hb.2 x)
  simpa only [← Finset.sum_add_distrib, mul_add, add_mul] using this

theorem symPSD_div (a : Fin 3 → Fin 3 → ℝ) (ha : SymPSD a) (c : ℝ) (hc : 0 ≤ c) :
    SymPSD fun i j => a i j / c := by
  refine ⟨fun i j => by dsimp only; rw [ha.1 i j], fun x => ?_⟩
  have := div_nonneg (ha.2 x) hc
  refine this.trans_eq ?_
  rw [Finset.sum_div]
  refine Finset.sum_congr rfl fun i _ => ?_
  rw [Finset.sum_div]
  refine Finset.sum_congr rfl fun j _ => ?_
  ring

theorem symPSD_sum {n : Nat} (a : Fin n → Fin 3 → Fin 3 → ℝ) (ha : ∀ q, SymPSD (a q)) :
    SymPSD fun i j => ∑ q, a q i j := by
  refine ⟨fun i j => Finset.sum_congr rfl fun q _ => (ha q).1 i j, fun x => ?_⟩
  have : ∑ i, ∑ j, x i * (∑ q, a q i j) * x j = ∑ q, ∑ i, ∑ j, x i * a q i j * x j := by
    simp only [Finset.mul_sum, Finset.sum_mul]
    rw [Finset.sum_congr rfl fun i _ => Finset.sum_comm, Finset.sum_comm]
  rw [this]
  exact Finset.sum_nonneg fun q _ => (ha q).2 x

theorem symPSD_rotate {n : Nat} (r : Fin 3 → Fin 3 → ℝ) (w : Fin n → Fin 3 → Fin 3 → ℝ) (k : Fin n)
    (hw : SymPSD (w k)) : SymPSD (rotate r w k) := by
  constructor
  · intro i j
    simp only [rotate]
    rw [Finset.sum_comm]
    refine Finset.sum_congr rfl fun a _ => Finset.sum_congr rfl fun b _ => ?_
    rw [hw.1 b a]
    ring
  · intro x
    have := hw.2 fun a => ∑ i, x i * r i a
    have h2 : ∑ i, ∑ j, x i * rotate r w k i j * x j =
        ∑ a, ∑ b, (∑ i, x i * r i a) * w k a b * ∑ i, x i * r i b := by
      simp only [rotate, Fin.sum_univ_three]
      ring
    rw [h2]
    exact this

/-- **C28**. For non-negative weights, positive masses, a positive lower frequency limit and any
eigenvectors, every matrix of the Debye-Waller exponent is symmetric and positive semidefinite, with
or without symmetrisation (for any result of the symmetry search) and for any chunk size.  (Frequencies
that are exactly zero are excluded: they make the result NaN, see `C28_zero_frequency_nan`.) -/
theorem C28_symmetric_psd_partial (chunk : Nat) (hc : 0 < chunk) (m : Modes C nq nm)
    (kB temp fmin : ℝ) (hk : 0 < kB) (hmin : 0 < fmin) (hM : ∀ k, 0 < C.mass k)
    (hw : ∀ q, 0 ≤ m.weights q) (sym : Option (List (SymOp na))) (k : Fin na) :
    SymPSD ((calculateDebyeWaller chunk m kB temp fmin sym).w k) := by
  have hraw : ∀ k, SymPSD (dwRaw chunk m kB temp fmin k) := by
    intro k
    have : dwRaw chunk m kB temp fmin k = fun l n =>
        (∑ q, dwContribution m kB temp fmin k l n q) / ∑ q, m.weights q := by
      funext l n
      simp only [dwRaw, C28_chunking_irrelevant chunk hc, ← Fin.sum_univ_def]
    rw [this]
    exact symPSD_div _ (symPSD_sum (fun q l n => dwContribution m kB temp fmin k l n q)
      fun q => dwContribution_psd m kB temp fmin hk hmin k (hM k) q (hw q)) _
      (Finset.sum_nonneg fun q _ => hw q)
  cases sym with
  | none => exact hraw k
  | some ops =>
    have key : ∀ (ops : List (SymOp na)) (acc : Fin na → Fin 3 → Fin 3 → ℝ),
        (∀ k, SymPSD (acc k)) → ∀ k, SymPSD ((ops.foldl (fun acc s => indexedAdd acc
          (rotate s.rot (dwRaw chunk m kB temp fmin)) s.eqAtoms) acc) k) := by
      intro ops
      induction ops with
      | nil => exact fun acc h => h
      | cons s ops ih =>
        intro acc h
        rw [List.foldl_cons]
        refine ih _ fun k => ?_
        unfold indexedAdd
        split
        · exact symPSD_add _ _ (h k) (symPSD_rotate _ _ _ (hraw _))
        · exact h k
    exact symPSD_div _ (key ops _ (fun _ => symPSD_zero) k) _ (by positivity)

/-- **C28**: the result does not depend on the chunk size. -/
theorem C28_independent_of_chunk (c1 c2 : Nat) (h1 : 0 < c1) (h2 : 0 < c2) (m : Modes C nq nm)
    (kB temp fmin : ℝ) (sym : Option (List (SymOp na))) :
    calculateDebyeWaller c1 m kB temp fmin sym = calculateDebyeWaller c2 m kB temp fmin sym := by
  have : dwRaw c1 m kB temp fmin = dwRaw c2 m kB temp fmin := by
    funext k l n
    simp only [dwRaw, C28_chunking_irrelevant c1 h1, C28_chunking_irrelevant c2 h2]
  unfold calculateDebyeWaller
  rw [this]

theorem fl_sum_nan {ι : Type} (l : List ι) (f : ι → Fl) (i : ι) (hi : i ∈ l) (h : f i = .nan) :
    l.foldl (fun acc i => acc.add (f i)) (Fl.num 0) = .nan := by
  have habs : ∀ (l : List ι), l.foldl (fun acc i => acc.add (f i)) Fl.nan = .nan := by
    intro l
    induction l with
    | nil => rfl
    | cons a l ih => rw [List.foldl_cons]; exact ih
  have hadd : ∀ a : Fl, a.add .nan = .nan := by
    intro a
    cases a <;> rfl
  obtain ⟨l1, l2, rfl⟩ := List.append_of_mem hi
  rw [List.foldl_append, List.foldl_cons, h, hadd, habs]

/-- **C28** (violated). A mode whose frequency is exactly zero makes every element of the matrices NaN,
although the frequency is below `frequency_min`: `1/0` is infinite and multiplying it by the mask value
zero gives NaN. -/
theorem C28_zero_frequency_nan (m : Modes C nq nm) (kB temp fmin : ℝ) (k : Fin na) (l n : Fin 3)
    (q : Fin nq) (j : Fin nm) (hz : m.freqs q j = 0) (hmin : 0 < fmin) :
    dwElementFl m kB temp fmin k l n = .nan := by
  refine fl_sum_nan _ _ (q, j) ?_ ?_
  · simp
  · simp only [hz, freqTermFl]
    have : (Fl.num 1).div (if 0 < temp then .num (0 * Real.tanh (0 / (2 * kB * temp))) else .num 0) =
        .inf := by
      split <;> simp [Fl.div]
    rw [this]
    have h2 : ∀ x : ℝ, ((Fl.num x).mul .inf = .nan ∨ (Fl.num x).mul .inf = .inf) := by
      intro x
      by_cases hx : x = 0
      · simp [Fl.mul, hx]
      · simp [Fl.mul, hx]
    simp only [hmin, if_true]
    rcases h2 (m.weights q * (1 / (4 * C.mass k))) with h | h <;> rw [h] <;> simp [Fl.mul]

/-- **C27/C28**: the exponents used by the structure factor are therefore never negative, so the bound
of `C27_debye_waller_bound` applies to every Debye-Waller object calculated by the code. -/
theorem C27_calculated_exponents_nonneg (chunk : Nat) (hc : 0 < chunk) (m m' : Modes C nq nm)
    (kB temp fmin : ℝ) (hk : 0 < kB) (hmin : 0 < fmin) (hM : ∀ k, 0 < C.mass k)
    (hw : ∀ q, 0 ≤ m.weights q) (sym : Option (List (SymOp na))) (q : Fin nq) (k : Fin na) :
    0 ≤ exponent m' (calculateDebyeWaller chunk m kB temp fmin sym) rfl q k := by
  have := (C28_symmetric_psd_partial chunk hc m kB temp fmin hk hmin hM hw sym k).2 (cartQ m' q)
  unfold exponent
  refine this.trans_eq ?_
  refine Finset.sum_congr rfl fun a _ => Finset.sum_congr rfl fun b _ => ?_
  change _ = (calculateDebyeWaller chunk m kB temp fmin sym).w k a b * _ * _
  ring

/-! ## Non-vacuity -/

example : (∀ k, 0 < exC.mass k) ∧ (∀ q, 0 ≤ exM.weights q) ∧ exM.freqs 0 0 ≠ 0 := by
  simp [exC, exM]

end Euphonic.Scatter
