import Verif.Props.DescribeScatter
import Verif.Props.GradientGroup
import Verif.Props.Sqw
import Verif.Props.Dos

/-!
# C143: results do not depend on the choice of eigenvectors for modes of equal frequency

Eigenvectors of modes with the same frequency are determined only up to unitary combinations; different
libraries return different ones.  Everything that is calculated from them for a whole set of such modes is
the same for all choices.
-/

set_option autoImplicit false

namespace Euphonic.Degenerate

open Euphonic.Scatter Euphonic.DynMat
open scoped ComplexConjugate

variable {na : Nat} {C : Cryst na} {nq nm : Nat}

/-! ## Specification -/

/-- Two sets of modes at the same wavevectors with the same frequencies, where the eigenvectors of the second
are unitary combinations of those of the first, mixing modes of equal frequency only. -/
structure Mixed (m m' : Modes C nq nm) : Prop where
  qpts : m'.qpts = m.qpts
  freqs : m'.freqs = m.freqs
  weights : m'.weights = m.weights
  mix : ∀ q, ∃ U : Fin nm → Fin nm → ℂ, (∀ t t', ∑ s, conj (U s t) * U s t' = if t = t' then 1 else 0) ∧
    (∀ s t, U s t ≠ 0 → m.freqs q s = m.freqs q t) ∧
    ∀ s k l, m'.evecs q s k l = ∑ t, U s t * m.evecs q t k l

/-! ## The sums over modes that occur -/

theorem mixed_sum {n : Nat} (f : Fin n → ℝ) (U : Fin n → Fin n → ℂ)
    (hU : ∀ t t', ∑ s, conj (U s t) * U s t' = if t = t' then 1 else 0)
    (hf : ∀ s t, U s t ≠ 0 → f s = f t) (g : ℝ → ℂ) (a b : Fin n → ℂ) :
    ∑ s, g (f s) * ((∑ t, conj (U s t) * a t) * ∑ t, U s t * b t) = ∑ s, g (f s) * (a s * b s) := by
  have h1 : ∀ s t, g (f s) * conj (U s t) = g (f t) * conj (U s t) := by
    intro s t
    by_cases h : U s t = 0
    · rw [h, map_zero, mul_zero, mul_zero]
    · rw [hf s t h]
  have h2 : ∀ s, g (f s) * ((∑ t, conj (U s t) * a t) * ∑ t, U s t * b t) =
      ∑ t, ∑ t', (g (f t) * (a t * b t')) * (conj (U s t) * U s t') := by
    intro s
    rw [Finset.sum_mul_sum, Finset.mul_sum]
    refine Finset.sum_congr rfl fun t _ => ?_
    rw [Finset.mul_sum]
    refine Finset.sum_congr rfl fun t' _ => ?_
    have := h1 s t
    linear_combination (a t * U s t' * b t') * this
  simp only [h2]
  rw [Finset.sum_comm]
  refine Finset.sum_congr rfl fun t _ => ?_
  rw [Finset.sum_comm]
  rw [Finset.sum_eq_single t]
  · rw [← Finset.mul_sum, hU, if_pos rfl, mul_one]
  · intro t' _ hne
    rw [← Finset.mul_sum, hU, if_neg (Ne.symm hne), mul_zero]
  · intro h
    exact absurd (Finset.mem_univ _) h

theorem sfTerm_mixed {m m' : Modes C nq nm} (h : Mixed m m') (sl : Fin na → ℂ) (d : Fin nq → Fin na → ℝ) (q : Fin nq)
    {U : Fin nm → Fin nm → ℂ} (hU : ∀ s k l, m'.evecs q s k l = ∑ t, U s t * m.evecs q t k l) (s : Fin nm) :
    sfTerm m' sl d q s = ∑ t, conj (U s t) * sfTerm m sl d q t := by
  have hQ : cartQ m' q = cartQ m q := by
    funext k
    unfold cartQ
    rw [h.qpts]
  have hE : expFactor m' q = expFactor m q := by
    funext k
    unfold expFactor
    rw [h.qpts]
  have hev : ∀ k, evecDotQ m' q s k = ∑ t, conj (U s t) * evecDotQ m q t k := by
    intro k
    unfold evecDotQ
    simp only [hU, map_sum, map_mul, hQ, Finset.sum_mul, Finset.mul_sum]
    rw [Finset.sum_comm]
    refine Finset.sum_congr rfl fun t _ => Finset.sum_congr rfl fun l _ => ?_
    ring
  unfold sfTerm
  simp only [hev, hE, Finset.sum_mul, Finset.mul_sum]
  rw [Finset.sum_comm]
  refine Finset.sum_congr rfl fun t _ => Finset.sum_congr rfl fun k _ => ?_
  ring

theorem sfValue_eq (na : Nat) (z : ℂ) (f : ℝ) : sfValue na z f = (z * conj z).re / |f| / (2 * na) := by
  unfold sfValue
  congr 2
  rw [Complex.mul_conj, Complex.norm_real, Complex.ofReal_re, Real.norm_of_nonneg (Complex.normSq_nonneg z)]

theorem dwFactors_mixed {m m' : Modes C nq nm} (h : Mixed m m') (dw : Option DW) : dwFactors m' dw = dwFactors m dw := by
  have hQ : ∀ q, cartQ m' q = cartQ m q := by
    intro q
    funext k
    unfold cartQ
    rw [h.qpts]
  cases dw with
  | none => rfl
  | some dw =>
    unfold dwFactors dwFactor
    simp only [hQ]

theorem sf_sum {m m' : Modes C nq nm} (h : Mixed m m') (sl : Fin na → ℂ) (d : Fin nq → Fin na → ℝ) (q : Fin nq) (g : ℝ → ℝ) :
    ∑ s, g (m.freqs q s) * sfValue na (sfTerm m' sl d q s) (m.freqs q s) =
      ∑ s, g (m.freqs q s) * sfValue na (sfTerm m sl d q s) (m.freqs q s) := by
  obtain ⟨U, hU, hf, hev⟩ := h.mix q
  have key := mixed_sum (m.freqs q) U hU hf (fun x => ((g x / |x| / (2 * na) : ℝ) : ℂ)) (sfTerm m sl d q)
    fun t => conj (sfTerm m sl d q t)
  have key' := congrArg Complex.re key
  rw [Complex.re_sum, Complex.re_sum] at key'
  have hconj : ∀ s, ∑ t, U s t * conj (sfTerm m sl d q t) = conj (sfTerm m' sl d q s) := by
    intro s
    rw [sfTerm_mixed h sl d q hev s, map_sum]
    refine Finset.sum_congr rfl fun t _ => ?_
    rw [map_mul, Complex.conj_conj]
  simp only [hconj, ← sfTerm_mixed h sl d q hev, Complex.re_ofReal_mul] at key'
  rw [Finset.sum_congr rfl fun s _ => show g (m.freqs q s) * sfValue na (sfTerm m' sl d q s) (m.freqs q s) =
      g (m.freqs q s) / |m.freqs q s| / (2 * na) * (sfTerm m' sl d q s * conj (sfTerm m' sl d q s)).re by
    rw [sfValue_eq]; ring, key']
  refine Finset.sum_congr rfl fun s _ => ?_
  rw [sfValue_eq]
  ring

/-! ## Structure factors -/

/-- **C143**, structure factors: at every wavevector the structure factors of all modes of one frequency add up
to the same value; the frequencies are the same, and one is refused exactly when the other is. -/
theorem C143_structure_factor {m m' : Modes C nq nm} (h : Mixed m m') (data : String → Option ℂ) (dw : Option DW) :
    (∀ e, calculateStructureFactor m' data dw = .error e ↔ calculateStructureFactor m data dw = .error e) ∧
    ∀ r r', calculateStructureFactor m data dw = .ok r → calculateStructureFactor m' data dw = .ok r' →
      r'.freqs = r.freqs ∧ r'.weights = r.weights ∧ r'.temperature = r.temperature ∧
      ∀ q f, ∑ s with r'.freqs q s = f, r'.sf q s = ∑ s with r.freqs q s = f, r.sf q s := by
  unfold calculateStructureFactor
  rw [dwFactors_mixed h]
  cases hl : lookupAll data C.atomType with
  | error e => exact ⟨fun _ => Iff.rfl, fun r r' h1 => by cases h1⟩
  | ok sl =>
    cases hd : dwFactors m dw with
    | error e => exact ⟨fun _ => Iff.rfl, fun r r' h1 => by cases h1⟩
    | ok d =>
      simp only [bind, Except.bind, pure, Except.pure]
      refine ⟨fun e => by simp, fun r r' h1 h2 => ?_⟩
      simp only [Except.ok.injEq] at h1 h2
      subst h1 h2
      refine ⟨h.freqs, rfl, rfl, fun q f => ?_⟩
      have key := sf_sum h sl d q fun x => if x = f then 1 else 0
      simp only [h.freqs]
      rw [Finset.sum_filter, Finset.sum_filter]
      simpa using key

theorem sum_over_bins {n : Nat} (f s s' : Fin n → ℝ) (hs : ∀ g : ℝ → ℝ, ∑ m, g (f m) * s' m = ∑ m, g (f m) * s m)
    (b : List ℝ) (c kB : ℝ) (T : Option ℝ) (i : Nat) :
    Dos.sqwBin b (fun m => f m / c) (fun m => (Dos.intensities Real.exp kB T (f m) (s' m)).1)
        (fun m => (Dos.intensities Real.exp kB T (f m) (s' m)).2) i =
      Dos.sqwBin b (fun m => f m / c) (fun m => (Dos.intensities Real.exp kB T (f m) (s m)).1)
        (fun m => (Dos.intensities Real.exp kB T (f m) (s m)).2) i := by
  have hlin : ∃ G : ℝ → ℝ, ∀ s : Fin n → ℝ,
      Dos.sqwBin b (fun m => f m / c) (fun m => (Dos.intensities Real.exp kB T (f m) (s m)).1)
        (fun m => (Dos.intensities Real.exp kB T (f m) (s m)).2) i = ∑ m, G (f m) * s m := by
    cases T with
    | none =>
      refine ⟨fun x => (if Dos.InBin b i (x / c) then 1 else 0) + if Dos.InBin b i (-(x / c)) then 1 else 0, fun s => ?_⟩
      unfold Dos.sqwBin Dos.intensities
      refine Finset.sum_congr rfl fun m _ => ?_
      simp only
      split_ifs <;> ring
    | some t =>
      refine ⟨fun x => (if Dos.InBin b i (x / c) then 1 + Dos.boseFactor Real.exp kB t x else 0) +
        if Dos.InBin b i (-(x / c)) then Dos.boseFactor Real.exp kB t x else 0, fun s => ?_⟩
      unfold Dos.sqwBin Dos.intensities
      refine Finset.sum_congr rfl fun m _ => ?_
      simp only
      split_ifs <;> ring
  obtain ⟨G, hG⟩ := hlin
  rw [hG, hG, hs]

/-- **C143**, S(Q,ω): maps and averages over wavevectors are the same, at any temperature, for all
non-decreasing bins. -/
theorem C143_sqw {m m' : Modes C nq nm} (h : Mixed m m') (data : String → Option ℂ) (dw : Option DW) {r r' : SF nq nm}
    (h1 : calculateStructureFactor m data dw = .ok r) (h2 : calculateStructureFactor m' data dw = .ok r') (kB c sfConv : ℝ)
    (hc : 0 < c) (b : List ℝ) (hb : b.Pairwise (· ≤ ·)) (calcBose : Bool) (given : Option ℝ) (aw : Option (Fin nq → ℝ)) :
    Dos.calculateSqwMap Real.exp kB c sfConv b calcBose r'.temperature given r'.freqs r'.sf =
      Dos.calculateSqwMap Real.exp kB c sfConv b calcBose r.temperature given r.freqs r.sf ∧
    Dos.calculate1dAverage Real.exp kB c sfConv b calcBose r'.temperature given r'.freqs r'.sf r'.weights aw =
      Dos.calculate1dAverage Real.exp kB c sfConv b calcBose r.temperature given r.freqs r.sf r.weights aw := by
  have hmap : Dos.calculateSqwMap Real.exp kB c sfConv b calcBose r'.temperature given r'.freqs r'.sf =
      Dos.calculateSqwMap Real.exp kB c sfConv b calcBose r.temperature given r.freqs r.sf := by
    obtain ⟨sl, d, e1, e2, rfl⟩ := sf_ok m data dw r h1
    obtain ⟨sl', d', e1', e2', rfl⟩ := sf_ok m' data dw r' h2
    rw [dwFactors_mixed h, e2, Except.ok.injEq] at e2'
    rw [e1, Except.ok.injEq] at e1'
    subst e1' e2'
    have hrow : ∀ T q, Dos.sqwRow Real.exp kB c sfConv b T (m'.freqs q)
          (fun j => sfValue na (sfTerm m' sl d q j) (m'.freqs q j)) =
        Dos.sqwRow Real.exp kB c sfConv b T (m.freqs q) (fun j => sfValue na (sfTerm m sl d q j) (m.freqs q j)) := by
      intro T q
      simp only [h.freqs]
      rw [Dos.sqwRow_eq _ _ _ _ hc b hb, Dos.sqwRow_eq _ _ _ _ hc b hb]
      congr 1
      refine List.map_congr_left fun i _ => ?_
      rw [sum_over_bins _ _ _ (sf_sum h sl d q)]
    unfold Dos.calculateSqwMap
    simp only [h.freqs] at hrow ⊢
    simp only [hrow]
  refine ⟨hmap, ?_⟩
  unfold Dos.calculate1dAverage
  rw [hmap, ((C143_structure_factor h data dw).2 r r' h1 h2).2.1]

/-! ## Debye-Waller exponents -/

/-- The Debye-Waller exponents are the same. -/
theorem C143_debye_waller {m m' : Modes C nq nm} (h : Mixed m m') (chunk : Nat) (kB temp fmin : ℝ)
    (sym : Option (List (SymOp na))) :
    calculateDebyeWaller chunk m' kB temp fmin sym = calculateDebyeWaller chunk m kB temp fmin sym := by
  have key : ∀ k l n q, dwContribution m' kB temp fmin k l n q = dwContribution m kB temp fmin k l n q := by
    intro k l n q
    obtain ⟨U, hU, hf, hev⟩ := h.mix q
    have := congrArg Complex.re (mixed_sum (m.freqs q) U hU hf
      (fun x => ((m.weights q * (1 / (4 * C.mass k)) * freqTerm kB temp fmin x : ℝ) : ℂ))
      (fun t => conj (m.evecs q t k n)) fun t => m.evecs q t k l)
    rw [Complex.re_sum, Complex.re_sum] at this
    unfold dwContribution
    rw [h.weights, h.freqs]
    refine Eq.trans (Finset.sum_congr rfl fun s _ => ?_) (this.trans (Finset.sum_congr rfl fun s _ => ?_))
    · rw [Complex.re_ofReal_mul, mul_comm (∑ t, conj (U s t) * _), ← hev]
      congr 3
      rw [hev, map_sum]
      refine Finset.sum_congr rfl fun t _ => ?_
      rw [map_mul]
    · rw [Complex.re_ofReal_mul, mul_comm (conj _)]
  unfold calculateDebyeWaller dwRaw
  simp only [funext fun k => funext fun l => funext fun n => funext fun q => key k l n q, h.weights]

/-! ## Partial densities of states -/

/-- Real and imaginary parts of the eigenvectors. -/
def parts (m : Modes C nq nm) (q : Fin nq) (s : Fin nm) (k : Fin na) (l : Fin 3) : ℝ × ℝ :=
  ((m.evecs q s k l).re, (m.evecs q s k l).im)

/-- **C143**, densities of states: the partial densities of states of all atoms are the same, with and without
weights of the cross-sections, for all non-decreasing bins. -/
theorem C143_pdos {m m' : Modes C nq nm} (h : Mixed m m') {c : ℝ} (hc : 0 < c) {b : List ℝ} (hb : b.Pairwise (· ≤ ·))
    (cs : Option (Fin na → ℝ)) :
    Dos.calculatePdos c b m'.freqs m'.weights (parts m') C.mass cs =
      Dos.calculatePdos c b m.freqs m.weights (parts m) C.mass cs := by
  have key : ∀ q a (g : ℝ → ℝ), ∑ s, g (m.freqs q s) * Dos.evecWeights (parts m') q s a =
      ∑ s, g (m.freqs q s) * Dos.evecWeights (parts m) q s a := by
    intro q a g
    obtain ⟨U, hU, hf, hev⟩ := h.mix q
    have hl : ∀ l, ∑ s, g (m.freqs q s) * (m'.evecs q s a l * conj (m'.evecs q s a l)).re =
        ∑ s, g (m.freqs q s) * (m.evecs q s a l * conj (m.evecs q s a l)).re := by
      intro l
      have := congrArg Complex.re (mixed_sum (m.freqs q) U hU hf (fun x => ((g x : ℝ) : ℂ))
        (fun t => conj (m.evecs q t a l)) fun t => m.evecs q t a l)
      rw [Complex.re_sum, Complex.re_sum] at this
      refine Eq.trans (Finset.sum_congr rfl fun s _ => ?_) (this.trans (Finset.sum_congr rfl fun s _ => ?_))
      · rw [Complex.re_ofReal_mul, mul_comm (∑ t, conj (U s t) * _), ← hev]
        congr 3
        rw [hev, map_sum]
        refine Finset.sum_congr rfl fun t _ => ?_
        rw [map_mul]
      · rw [Complex.re_ofReal_mul, mul_comm (conj _)]
    have hw : ∀ (m : Modes C nq nm) s, Dos.evecWeights (parts m) q s a =
        ∑ l, (m.evecs q s a l * conj (m.evecs q s a l)).re / na := by
      intro m s
      unfold Dos.evecWeights parts
      rw [Finset.sum_div]
      refine Finset.sum_congr rfl fun l _ => ?_
      rw [Complex.mul_re, Complex.conj_re, Complex.conj_im]
      ring
    simp only [hw, Finset.mul_sum]
    rw [Finset.sum_comm, Finset.sum_comm (s := Finset.univ (α := Fin nm))]
    refine Finset.sum_congr rfl fun l _ => ?_
    simp only [← mul_div_assoc]
    rw [← Finset.sum_div, ← Finset.sum_div, hl]
  unfold Dos.calculatePdos
  congr 1
  funext a
  rw [Dos.calculateDos_mw c hc b hb, Dos.calculateDos_mw c hc b hb, h.freqs, h.weights]
  have hbin : ∀ i, Dos.binTotal b c m.freqs (fun q s => m.weights q * Dos.evecWeights (parts m') q s a) i =
      Dos.binTotal b c m.freqs (fun q s => m.weights q * Dos.evecWeights (parts m) q s a) i := by
    intro i
    unfold Dos.binTotal
    refine Finset.sum_congr rfl fun q _ => ?_
    have := key q a fun x => if Dos.InBin b i (x / c) then m.weights q else 0
    refine Eq.trans (Finset.sum_congr rfl fun s _ => ?_) (this.trans (Finset.sum_congr rfl fun s _ => ?_)) <;>
      · split_ifs <;> ring
  simp only [hbin]

/-! ## Every diagonalisation -/

/-- **C143**: the modes obtained with any two ways to diagonalise the same Hermitian matrices are such sets. -/
theorem C143_any_diagonalisation {n : Nat} (C : Cryst n) (qpts : Fin nq → Fin 3 → ℝ) (weights : Fin nq → ℝ) (A : Fin nq → Mat n ℂ)
    (hA : ∀ q k l, A q l k = star (A q k l)) {eigh eigh' : Mat n ℂ → (Fin (n * 3) → ℝ) × Mat n ℂ} (he : IsEigh eigh)
    (he' : IsEigh eigh') :
    Mixed (⟨qpts, fun q s => freqOf ((eigh (A q)).1 s), fun q s k l => (eigh (A q)).2 s (Describe.row k l), weights⟩ :
        Modes C nq (n * 3))
      ⟨qpts, fun q s => freqOf ((eigh' (A q)).1 s), fun q s k l => (eigh' (A q)).2 s (Describe.row k l), weights⟩ where
  qpts := rfl
  freqs := by
    funext q s
    simp only [Describe.eigh_unique he he' (A q) (hA q)]
  weights := rfl
  mix := by
    intro q
    have hev := Describe.eigh_unique he he' (A q) (hA q)
    obtain ⟨V, hV⟩ : ∃ V : Matrix (Fin (n * 3)) (Fin (n * 3)) ℂ, V = Matrix.of (eigh (A q)).2 := ⟨_, rfl⟩
    obtain ⟨W, hW⟩ : ∃ W : Matrix (Fin (n * 3)) (Fin (n * 3)) ℂ, W = Matrix.of (eigh' (A q)).2 := ⟨_, rfl⟩
    have ortho : ∀ {e : Mat n ℂ → (Fin (n * 3) → ℝ) × Mat n ℂ}, IsEigh e →
        (Matrix.of (e (A q)).2) * (Matrix.of (e (A q)).2).conjTranspose = 1 := by
      intro e hi
      ext s t
      rw [Matrix.mul_apply, Matrix.one_apply]
      have := hi.ortho (A q) (hA q) t s
      rw [show (if s = t then (1 : ℂ) else 0) = if t = s then 1 else 0 by simp only [eq_comm], ← this]
      refine Finset.sum_congr rfl fun k _ => ?_
      rw [Matrix.conjTranspose_apply, mul_comm]
      rfl
    have hV1 : V * V.conjTranspose = 1 := hV ▸ ortho he
    have hW1 : W * W.conjTranspose = 1 := hW ▸ ortho he'
    have hV2 : V.conjTranspose * V = 1 := mul_eq_one_comm.1 hV1
    have hW2 : W.conjTranspose * W = 1 := mul_eq_one_comm.1 hW1
    refine ⟨fun s t => (W * V.conjTranspose) s t, ?_, ?_, ?_⟩
    · intro t t'
      have h1 : (W * V.conjTranspose).conjTranspose * (W * V.conjTranspose) = 1 := by
        rw [Matrix.conjTranspose_mul, Matrix.conjTranspose_conjTranspose, Matrix.mul_assoc, ← Matrix.mul_assoc W.conjTranspose,
          hW2, Matrix.one_mul, hV1]
      have := congrFun (congrFun h1 t) t'
      rw [Matrix.mul_apply, Matrix.one_apply] at this
      exact this
    · intro s t hne
      have hU : (W * V.conjTranspose) s t = ∑ l, (eigh' (A q)).2 s l * star ((eigh (A q)).2 t l) := by
        rw [Matrix.mul_apply, hV, hW]
        rfl
      have e1 : ∑ k, star ((eigh (A q)).2 t k) * ∑ l, A q k l * (eigh' (A q)).2 s l =
          (eigh' (A q)).1 s * (W * V.conjTranspose) s t := by
        rw [hU, Finset.mul_sum]
        refine Finset.sum_congr rfl fun k _ => ?_
        rw [he'.eigen (A q) (hA q) s k]
        ring
      have e2 : ∑ k, star ((eigh (A q)).2 t k) * ∑ l, A q k l * (eigh' (A q)).2 s l =
          (eigh (A q)).1 t * (W * V.conjTranspose) s t := by
        rw [hU, Finset.mul_sum]
        simp only [Finset.mul_sum]
        rw [Finset.sum_comm]
        refine Finset.sum_congr rfl fun l _ => ?_
        have h3 := congrArg star (he.eigen (A q) (hA q) t l)
        rw [star_sum] at h3
        have h4 : ∀ k, star ((eigh (A q)).2 t k) * (A q k l * (eigh' (A q)).2 s l) =
            star (A q l k * (eigh (A q)).2 t k) * (eigh' (A q)).2 s l := by
          intro k
          rw [hA q l k, star_mul']
          ring
        simp only [h4]
        rw [← Finset.sum_mul, h3, star_mul', Complex.star_def, Complex.conj_ofReal]
        ring
      have h5 : ((eigh' (A q)).1 s : ℂ) = (eigh (A q)).1 t := mul_right_cancel₀ hne (e1.symm.trans e2)
      have h6 : (eigh (A q)).1 s = (eigh (A q)).1 t := by
        rw [congrFun hev s]
        exact_mod_cast h5
      simp only [h6]
    · intro s k l
      have h1 : W * V.conjTranspose * V = W := by rw [Matrix.mul_assoc, hV2, Matrix.mul_one]
      have := congrFun (congrFun h1 s) (Describe.row k l)
      rw [Matrix.mul_apply] at this
      rw [hV, hW] at this ⊢
      exact this.symm

/-! ## A case -/

/-- A crystal with one atom. -/
noncomputable def Ex.cr : Cryst 1 where
  atomR := fun _ _ => 0
  atomType := fun _ => "Al"
  mass := fun _ => 1
  recip := fun i j => if i = j then 1 else 0

/-- One atom that vibrates along the axes, with equal frequencies along y and z. -/
noncomputable def Ex.linear : Modes Ex.cr 1 3 where
  qpts := fun _ l => if l = 1 then 1 / 4 else 0
  freqs := fun _ s => if s = 0 then 1 else 2
  evecs := fun _ s _ l => if s = l then 1 else 0
  weights := fun _ => 1

/-- The same with the modes along y and z replaced by `(3y + 4iz)/5` and `(4iy + 3z)/5`. -/
noncomputable def Ex.elliptic : Modes Ex.cr 1 3 where
  qpts := fun _ l => if l = 1 then 1 / 4 else 0
  freqs := fun _ s => if s = 0 then 1 else 2
  evecs := fun _ s _ l => (![![1, 0, 0], ![0, 3 / 5, 4 / 5 * Complex.I], ![0, 4 / 5 * Complex.I, 3 / 5]] : Fin 3 → Fin 3 → ℂ) s l
  weights := fun _ => 1

theorem Ex.mixed : Mixed Ex.linear Ex.elliptic where
  qpts := rfl
  freqs := rfl
  weights := rfl
  mix := by
    intro q
    refine ⟨![![1, 0, 0], ![0, 3 / 5, 4 / 5 * Complex.I], ![0, 4 / 5 * Complex.I, 3 / 5]], ?_, ?_, ?_⟩
    · intro t t'
      rw [Fin.sum_univ_three]
      have hI := Complex.I_mul_I
      have h3 : (starRingEnd ℂ) (3 / 5 : ℂ) = 3 / 5 := by
        rw [map_div₀, map_ofNat, map_ofNat]
      have h4 : (starRingEnd ℂ) (4 / 5 : ℂ) = 4 / 5 := by
        rw [map_div₀, map_ofNat, map_ofNat]
      fin_cases t <;> fin_cases t' <;> simp [h3, h4] <;>
        first | ring1 | linear_combination (-16 / 25 : ℂ) * hI
    · intro s t hne
      fin_cases s <;> fin_cases t <;> first | rfl | (exfalso; exact hne rfl)
    · intro s k l
      rw [Fin.sum_univ_three]
      fin_cases s <;> fin_cases l <;> simp [Ex.linear, Ex.elliptic]

/-- **C143**, what does depend on the choice: the structure factors of single modes of equal frequency. -/
theorem C143_single_modes_differ : ∃ r r', calculateStructureFactor Ex.linear (fun _ => some 1) none = .ok r ∧
    calculateStructureFactor Ex.elliptic (fun _ => some 1) none = .ok r' ∧ r'.sf 0 1 < r.sf 0 1 ∧ r.sf 0 2 < r'.sf 0 2 := by
  have hl : lookupAll (n := 1) (fun _ => some 1) Ex.cr.atomType = .ok fun _ => (1 : ℝ) := by
    simp [lookupAll]
  have e : ∀ m : Modes Ex.cr 1 3, calculateStructureFactor m (fun _ => some 1) none =
      .ok ⟨m.freqs, fun q j => sfValue 1 (sfTerm m (fun _ => 1) (fun _ _ => 1) q j) (m.freqs q j), Dos.defaultWeights 1, none⟩ := by
    intro m
    unfold calculateStructureFactor
    rw [hl]
    rfl
  refine ⟨_, _, e _, e _, ?_⟩
  have hx : ∀ m : Modes Ex.cr 1 3, expFactor m 0 0 = 1 := by
    intro m
    simp [expFactor, Ex.cr]
  have hQ : ∀ l, cartQ Ex.linear 0 l = if l = 1 then 1 / 4 else 0 := by
    intro l
    simp [cartQ, Ex.linear, Ex.cr]
  have hQ' : ∀ l, cartQ Ex.elliptic 0 l = if l = 1 then 1 / 4 else 0 := by
    intro l
    simp [cartQ, Ex.elliptic, Ex.cr]
  have hm : Ex.cr.mass 0 = 1 := rfl
  have h3 : (starRingEnd ℂ) (3 / 5 : ℂ) = 3 / 5 := by
    rw [map_div₀, map_ofNat, map_ofNat]
  have h4 : (starRingEnd ℂ) (4 / 5 : ℂ) = 4 / 5 := by
    rw [map_div₀, map_ofNat, map_ofNat]
  have v : ∀ s k l, Ex.linear.evecs 0 s k l = if s = l then 1 else 0 := fun _ _ _ => rfl
  have v' : ∀ s k l, Ex.elliptic.evecs 0 s k l =
      (![![1, 0, 0], ![0, 3 / 5, 4 / 5 * Complex.I], ![0, 4 / 5 * Complex.I, 3 / 5]] : Fin 3 → Fin 3 → ℂ) s l := fun _ _ _ => rfl
  have t1 : sfTerm Ex.linear (fun _ => 1) (fun _ _ => 1) 0 1 = 1 / 4 := by
    simp [sfTerm, evecDotQ, hx, hQ, hm, v]
  have t2 : sfTerm Ex.linear (fun _ => 1) (fun _ _ => 1) 0 2 = 0 := by
    simp [sfTerm, evecDotQ, hQ, v]
  have t3 : sfTerm Ex.elliptic (fun _ => 1) (fun _ _ => 1) 0 1 = 3 / 20 := by
    simp [sfTerm, evecDotQ, hx, hQ', hm, v', Fin.sum_univ_three, h3]
    norm_num
  have t4 : sfTerm Ex.elliptic (fun _ => 1) (fun _ _ => 1) 0 2 = -(1 / 5) * Complex.I := by
    simp [sfTerm, evecDotQ, hx, hQ', hm, v', Fin.sum_univ_three, h4]
    ring
  simp only [t1, t2, t3, t4, sfValue_eq]
  have f1 : Ex.linear.freqs 0 1 = 2 := rfl
  have f2 : Ex.linear.freqs 0 2 = 2 := rfl
  have f3 : Ex.elliptic.freqs 0 1 = 2 := rfl
  have f4 : Ex.elliptic.freqs 0 2 = 2 := rfl
  have h20 : (starRingEnd ℂ) (3 / 20 : ℂ) = 3 / 20 := by
    rw [map_div₀, map_ofNat, map_ofNat]
  rw [f1, f2, f3, f4, h20]
  constructor
  · norm_num [Complex.mul_re]
  · norm_num [Complex.mul_re]

end Euphonic.Degenerate
