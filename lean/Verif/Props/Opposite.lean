import Verif.Props.Degenerate
import Verif.Props.DebyeGrid
import Verif.Props.DescribeDipole

/-!
# C146: scattering at opposite scattering vectors

Force constants are real, so the modes at `-Q` are the complex conjugates of those at `Q`.  For real scattering
lengths the intensities at `Q` and `-Q` are the same.  Scattering lengths of absorbing nuclei are complex; then
the intensities at `-Q` are those at `Q` with the complex conjugate scattering lengths, which may differ.
-/

set_option autoImplicit false

namespace Euphonic.Opposite

open Euphonic.Lattice Euphonic.Supercell Euphonic.Phases Euphonic.Images Euphonic.DynMat Euphonic.Reduced
open Euphonic.Commensurate Euphonic.Acoustic Euphonic.Scatter Euphonic.Describe Euphonic.Degenerate
open scoped ComplexConjugate

variable {na : Nat} {C : Cryst na} {nq nm : Nat}

/-! ## Specification -/

/-- The complex conjugate modes, at the opposite wavevectors. -/
structure Reversed (m m' : Modes C nq nm) : Prop where
  qpts : ∀ q j, m'.qpts q j = -m.qpts q j
  freqs : m'.freqs = m.freqs
  weights : m'.weights = m.weights
  evecs : ∀ q s k l, m'.evecs q s k l = conj (m.evecs q s k l)

/-- The complex conjugate scattering lengths. -/
noncomputable def conjData (data : String → Option ℂ) : String → Option ℂ := fun x => (data x).map conj

/-- All scattering lengths are real. -/
def RealData (data : String → Option ℂ) : Prop := ∀ x b, data x = some b → b.im = 0

theorem conjData_real {data : String → Option ℂ} (h : RealData data) : conjData data = data := by
  funext x
  unfold conjData
  cases hx : data x with
  | none => rfl
  | some b =>
    rw [Option.map_some, Option.some.injEq]
    exact Complex.conj_eq_iff_im.2 (h x b hx)

theorem conjData_conj (data : String → Option ℂ) : conjData (conjData data) = data := by
  funext x
  unfold conjData
  cases data x <;> simp

/-! ## Modes -/

theorem cartQ_opposite {m m' : Modes C nq nm} (h : Reversed m m') (q : Fin nq) (l : Fin 3) : cartQ m' q l = -cartQ m q l := by
  unfold cartQ
  rw [← Finset.sum_neg_distrib]
  refine Finset.sum_congr rfl fun j _ => ?_
  rw [h.qpts]
  ring

theorem dwFactors_opposite {m m' : Modes C nq nm} (h : Reversed m m') (dw : Option DW) : dwFactors m' dw = dwFactors m dw := by
  cases dw with
  | none => rfl
  | some w =>
    unfold dwFactors dwFactor
    simp only [cartQ_opposite h, mul_neg, neg_mul, neg_neg]

theorem expFactor_opposite {m m' : Modes C nq nm} (h : Reversed m m') (q : Fin nq) (k : Fin na) :
    expFactor m' q k = conj (expFactor m q k) := by
  unfold expFactor
  rw [← Complex.exp_conj]
  congr 1
  simp only [h.qpts, map_mul, Complex.conj_I, map_ofNat, Complex.conj_ofReal, neg_mul, Finset.sum_neg_distrib, Complex.ofReal_neg,
    mul_neg]

theorem sfTerm_opposite {m m' : Modes C nq nm} (h : Reversed m m') (sl : Fin na → ℂ) (d : Fin nq → Fin na → ℝ) (q : Fin nq)
    (s : Fin nm) : sfTerm m' (fun k => conj (sl k)) d q s = -conj (sfTerm m sl d q s) := by
  unfold sfTerm
  rw [map_sum, ← Finset.sum_neg_distrib]
  refine Finset.sum_congr rfl fun k _ => ?_
  have he : evecDotQ m' q s k = -conj (evecDotQ m q s k) := by
    unfold evecDotQ
    rw [map_sum, ← Finset.sum_neg_distrib]
    refine Finset.sum_congr rfl fun l _ => ?_
    rw [h.evecs, cartQ_opposite h, map_mul, Complex.conj_ofReal, Complex.ofReal_neg]
    ring
  rw [he, expFactor_opposite h, map_mul, map_mul, map_mul, map_div₀, Complex.conj_ofReal, Complex.conj_ofReal]
  ring

theorem lookupAll_conj (data : String → Option ℂ) {n : Nat} (t : Fin n → String) :
    lookupAll (conjData data) t = (lookupAll data t).map fun sl k => conj (sl k) := by
  unfold lookupAll
  have h1 : (∀ k, (conjData data (t k)).isSome) ↔ ∀ k, (data (t k)).isSome := by
    simp [conjData]
  by_cases h : ∀ k, (data (t k)).isSome
  · rw [if_pos h, if_pos (h1.2 h), Except.map]
    congr 1
    funext k
    unfold conjData
    cases hk : data (t k) <;> simp [hk]
  · rw [if_neg h, if_neg fun h' => h (h1.1 h')]
    rfl

/-- **C146**, mode by mode: the structure factors of the complex conjugate modes at the opposite wavevectors, with the complex
conjugate scattering lengths, are the same, with the same Debye-Waller factors, and refusals are the same. -/
theorem C146_conjugate_lengths {m m' : Modes C nq nm} (h : Reversed m m') (data : String → Option ℂ) (dw : Option DW) :
    calculateStructureFactor m' (conjData data) dw = calculateStructureFactor m data dw := by
  unfold calculateStructureFactor
  rw [lookupAll_conj, dwFactors_opposite h]
  cases lookupAll data C.atomType with
  | error e => rfl
  | ok sl =>
    cases dwFactors m dw with
    | error e => rfl
    | ok d =>
      simp only [Except.map, bind, Except.bind, pure, Except.pure, sfTerm_opposite h, h.freqs]
      congr 2
      funext q s
      unfold sfValue
      simp only [map_neg, neg_mul_neg, norm_mul, Complex.norm_conj]

/-- **C146**, mode by mode: with real scattering lengths the structure factors at opposite wavevectors are the same. -/
theorem C146_real_lengths {m m' : Modes C nq nm} (h : Reversed m m') {data : String → Option ℂ} (hd : RealData data)
    (dw : Option DW) : calculateStructureFactor m' data dw = calculateStructureFactor m data dw := by
  rw [← C146_conjugate_lengths h data dw, conjData_real hd]

/-- **C146**: the Debye-Waller exponents from the opposite wavevectors are the same. -/
theorem C146_debye_waller {m m' : Modes C nq nm} (h : Reversed m m') (chunk : Nat) (kB temp fmin : ℝ)
    (sym : Option (List (SymOp na))) :
    calculateDebyeWaller chunk m' kB temp fmin sym = calculateDebyeWaller chunk m kB temp fmin sym := by
  have key : ∀ k l n q, dwContribution m' kB temp fmin k l n q = dwContribution m kB temp fmin k l n q := by
    intro k l n q
    unfold dwContribution
    refine Finset.sum_congr rfl fun j _ => ?_
    rw [h.weights, h.freqs, h.evecs, h.evecs, ← map_mul, Complex.conj_re]
  unfold calculateDebyeWaller dwRaw
  simp only [funext fun k => funext fun l => funext fun n => funext fun q => key k l n q, h.weights]

/-! ## Force constants -/

/-- The modes found by diagonalising a matrix for every wavevector. -/
noncomputable def found {n : Nat} (C : Cryst n) (eigh : Mat n ℂ → (Fin (n * 3) → ℝ) × Mat n ℂ) (A : V3 ℝ → Mat n ℂ)
    (qs : Fin nq → V3 ℝ) (weights : Fin nq → ℝ) : Modes C nq (n * 3) where
  qpts := fun q j => comp (qs q) j
  freqs := fun q s => freqOf ((eigh (A (qs q))).1 s)
  evecs := fun q s k l => (eigh (A (qs q))).2 s (row k l)
  weights := weights

/-- The modes found at the opposite wavevectors: up to the choice of eigenvectors of equal frequency, the complex conjugate ones. -/
theorem found_opposite {n : Nat} (C : Cryst n) {eigh eigh' : Mat n ℂ → (Fin (n * 3) → ℝ) × Mat n ℂ} (he : IsEigh eigh)
    (he' : IsEigh eigh') {A : V3 ℝ → Mat n ℂ} (hA : ∀ q k l, A q l k = star (A q k l))
    (hneg : ∀ q k l, A (neg q) k l = star (A q k l)) (qs : Fin nq → V3 ℝ) (weights : Fin nq → ℝ) :
    ∃ mid : Modes C nq (n * 3), Reversed (found C eigh A qs weights) mid ∧
      Mixed mid (found C eigh' A (fun q => neg (qs q)) weights) := by
  have hq : ∀ q, (fun k l => star (A (neg (qs q)) k l)) = A (qs q) := by
    intro q
    funext k l
    rw [hneg, star_star]
  have hn : ∀ q j, comp (neg (qs q)) j = -comp (qs q) j := fun q j => Dipole.comp_neg _ _
  refine ⟨⟨fun q j => comp (neg (qs q)) j, fun q s => freqOf ((DebyeSym.conjEigh eigh (A (neg (qs q)))).1 s),
    fun q s k l => (DebyeSym.conjEigh eigh (A (neg (qs q)))).2 s (row k l), weights⟩, ?_, ?_⟩
  · refine ⟨fun q j => hn q j, ?_, rfl, fun q s k l => ?_⟩
    · funext q s
      simp only [DebyeSym.conjEigh, found, hq]
    · simp only [DebyeSym.conjEigh, found, hq]
      rfl
  · exact C143_any_diagonalisation C _ weights (fun q => A (neg (qs q))) (fun q => hA _) (DebyeSym.isEigh_conj he) he'

/-- **C146**: whichever eigenvectors are found at `-Q` and at `Q`, for Hermitian matrices that are complex conjugate for opposite
wavevectors frequencies are the same, and structure factors of all modes of one frequency add up to the same value, if the
scattering lengths used at `-Q` are the complex conjugates of those at `Q`. -/
theorem C146_any_diagonalisation {n : Nat} (C : Cryst n) {eigh eigh' : Mat n ℂ → (Fin (n * 3) → ℝ) × Mat n ℂ} (he : IsEigh eigh)
    (he' : IsEigh eigh') {A : V3 ℝ → Mat n ℂ} (hA : ∀ q k l, A q l k = star (A q k l))
    (hneg : ∀ q k l, A (neg q) k l = star (A q k l)) (qs : Fin nq → V3 ℝ) (weights : Fin nq → ℝ) (data : String → Option ℂ)
    (dw : Option DW) {r r' : SF nq (n * 3)}
    (h1 : calculateStructureFactor (found C eigh A qs weights) data dw = .ok r)
    (h2 : calculateStructureFactor (found C eigh' A (fun q => neg (qs q)) weights) (conjData data) dw = .ok r') :
    r'.freqs = r.freqs ∧ ∀ q f, ∑ s with r'.freqs q s = f, r'.sf q s = ∑ s with r.freqs q s = f, r.sf q s := by
  obtain ⟨mid, hop, hmix⟩ := found_opposite C he he' hA hneg qs weights
  rw [← C146_conjugate_lengths hop] at h1
  have := (C143_structure_factor hmix (conjData data) dw).2 r r' h1 h2
  exact ⟨this.1, this.2.2.2⟩

variable {n N : Nat} {d : Description n N}

/-- The crystal with force constants and, optionally, Born charges and dielectric tensor (LO-TO splitting not included). -/
noncomputable def matrixOf (d : Description n N) (images : List (V3 ℤ)) (junk : Fin N → Mat n ℝ)
    (ions : Option ((Fin n → Fin 3 → Fin 3 → ℝ) × Matrix (Fin 3) (Fin 3) ℝ)) (erfc : ℝ → ℝ) (x : ℝ) (q : V3 ℝ) : Mat n ℂ :=
  DynMat.weighted (massWeighting d.mass) (d.dynMat images junk q)
    (ions.map fun o => Dipole.dipoleCorrection erfc (d.ions o.1 o.2) (Dipole.upperLambda (d.ions o.1 o.2) x) q) none none

theorem matrixOf_eq (d : Description n N) (images : List (V3 ℤ)) (junk : Fin N → Mat n ℝ)
    (ions : Option ((Fin n → Fin 3 → Fin 3 → ℝ) × Matrix (Fin 3) (Fin 3) ℝ)) (erfc : ℝ → ℝ) (x : ℝ) (q : V3 ℝ) (k l : Fin (n * 3)) :
    matrixOf d images junk ions erfc x q k l = d.weighted images junk q k l + match ions with
      | none => 0
      | some o => Dipole.dipoleCorrection erfc (d.ions o.1 o.2) (Dipole.upperLambda (d.ions o.1 o.2) x) q k l *
          massWeighting d.mass k l := by
  cases ions <;> simp [matrixOf, Description.weighted, DynMat.weighted, add_mul]

theorem massWeighting_symm (m : Fin n → ℝ) (k l : Fin (n * 3)) : massWeighting m l k = massWeighting m k l := by
  unfold massWeighting
  rw [mul_comm]

theorem matrixOf_herm {images : List (V3 ℤ)} (hok : d.Ok images) {op : Fin N → Fin N} {t : Fin N → V3 ℤ}
    (hs : Symmetric d.cells d.S d.fc op t) (junk : Fin N → Mat n ℝ)
    {ions : Option ((Fin n → Fin 3 → Fin 3 → ℝ) × Matrix (Fin 3) (Fin 3) ℝ)} (ho : ∀ o, ions = some o → o.2.transpose = o.2)
    (erfc : ℝ → ℝ) (x : ℝ) (q : V3 ℝ) (k l : Fin (n * 3)) :
    matrixOf d images junk ions erfc x q l k = star (matrixOf d images junk ions erfc x q k l) := by
  rw [matrixOf_eq, matrixOf_eq, d.hermitian hok hs junk q k l, star_add]
  congr 1
  cases ions with
  | none => simp
  | some o =>
    dsimp only
    rw [Dipole.C50_hermitian erfc (d.ions o.1 o.2) _ (ho o rfl) q k l, star_mul', massWeighting_symm, Complex.star_def,
      Complex.conj_ofReal]

theorem matrixOf_neg (d : Description n N) (images : List (V3 ℤ)) (junk : Fin N → Mat n ℝ)
    (ions : Option ((Fin n → Fin 3 → Fin 3 → ℝ) × Matrix (Fin 3) (Fin 3) ℝ)) (erfc : ℝ → ℝ) (x : ℝ) (q : V3 ℝ) (k l : Fin (n * 3)) :
    matrixOf d images junk ions erfc x (neg q) k l = star (matrixOf d images junk ions erfc x q k l) := by
  rw [matrixOf_eq, matrixOf_eq, star_add, congrFun (congrFun (DebyeSym.weighted_neg d images junk q) k) l]
  refine congrArg₂ (· + ·) rfl ?_
  cases ions with
  | none => simp
  | some o =>
    dsimp only
    rw [Dipole.C50_even, star_mul', Complex.star_def, Complex.conj_ofReal]

/-- **C146**, force constants: with real scattering lengths, rows of the S(Q,w) map at `-Q` are those at `Q`, and so are averages
over wavevectors, with and without the dipole correction, whatever eigenvectors are found. -/
theorem C146_sqw {images : List (V3 ℤ)} (hok : d.Ok images) {op : Fin N → Fin N} {t : Fin N → V3 ℤ}
    (hs : Symmetric d.cells d.S d.fc op t) (junk : Fin N → Mat n ℝ)
    {ions : Option ((Fin n → Fin 3 → Fin 3 → ℝ) × Matrix (Fin 3) (Fin 3) ℝ)} (ho : ∀ o, ions = some o → o.2.transpose = o.2)
    (erfc : ℝ → ℝ) (x : ℝ) (types : Fin n → String) {eigh eigh' : Mat n ℂ → (Fin (n * 3) → ℝ) × Mat n ℂ} (he : IsEigh eigh)
    (he' : IsEigh eigh') (qs : Fin nq → V3 ℝ) (weights : Fin nq → ℝ) {data : String → Option ℂ} (hd : RealData data)
    (dw : Option DW) {r r' : SF nq (n * 3)}
    (h1 : calculateStructureFactor (found (d.cryst types) eigh (matrixOf d images junk ions erfc x) qs weights) data dw = .ok r)
    (h2 : calculateStructureFactor (found (d.cryst types) eigh' (matrixOf d images junk ions erfc x) (fun q => neg (qs q)) weights)
      data dw = .ok r')
    (kB c sfConv : ℝ) (hc : 0 < c) (b : List ℝ) (hb : b.Pairwise (· ≤ ·)) (calcBose : Bool) (given : Option ℝ)
    (aw : Option (Fin nq → ℝ)) :
    r'.freqs = r.freqs ∧
    Dos.calculateSqwMap Real.exp kB c sfConv b calcBose r'.temperature given r'.freqs r'.sf =
      Dos.calculateSqwMap Real.exp kB c sfConv b calcBose r.temperature given r.freqs r.sf ∧
    Dos.calculate1dAverage Real.exp kB c sfConv b calcBose r'.temperature given r'.freqs r'.sf r'.weights aw =
      Dos.calculate1dAverage Real.exp kB c sfConv b calcBose r.temperature given r.freqs r.sf r.weights aw := by
  obtain ⟨mid, hop, hmix⟩ := found_opposite (d.cryst types) he he' (matrixOf_herm hok hs junk ho erfc x)
    (matrixOf_neg d images junk ions erfc x) qs weights
  rw [← C146_real_lengths hop hd] at h1
  exact ⟨((C143_structure_factor hmix data dw).2 r r' h1 h2).1, C143_sqw hmix data dw h1 h2 kB c sfConv hc b hb calcBose given aw⟩

/-- All the hypotheses hold together: the chain of two kinds of atoms, with opposite charges and real scattering lengths. -/
example (junk : Fin 2 → Mat 2 ℝ) {eigh : Mat 2 ℂ → (Fin (2 * 3) → ℝ) × Mat 2 ℂ} (he : IsEigh eigh) (erfc : ℝ → ℝ)
    (qs : Fin 3 → V3 ℝ) :
    ∃ r r' : SF 3 (2 * 3), calculateStructureFactor (found (Describe.Ex.d.cryst !["Na", "Cl"]) eigh (matrixOf Describe.Ex.d shells2 junk
        (some (fun i a b => if a = b then (if i = 0 then 1 else -1) else 0, 1)) erfc 1) qs 1) (fun _ => some 3) none = .ok r ∧
      calculateStructureFactor (found (Describe.Ex.d.cryst !["Na", "Cl"]) eigh (matrixOf Describe.Ex.d shells2 junk
        (some (fun i a b => if a = b then (if i = 0 then 1 else -1) else 0, 1)) erfc 1) (fun q => neg (qs q)) 1)
        (fun _ => some 3) none = .ok r' ∧
      r'.freqs = r.freqs ∧ Dos.calculateSqwMap Real.exp 1 1 1 [0, 1, 2] true r'.temperature (some 5) r'.freqs r'.sf =
        Dos.calculateSqwMap Real.exp 1 1 1 [0, 1, 2] true r.temperature (some 5) r.freqs r.sf := by
  obtain ⟨r, hr⟩ := (C27_refusals (found (Describe.Ex.d.cryst !["Na", "Cl"]) eigh (matrixOf Describe.Ex.d shells2 junk
    (some (fun i a b => if a = b then (if i = 0 then 1 else -1) else 0, 1)) erfc 1) qs 1) (fun _ => some 3) none).2.2
    (by simp) (by simp)
  obtain ⟨r', hr'⟩ := (C27_refusals (found (Describe.Ex.d.cryst !["Na", "Cl"]) eigh (matrixOf Describe.Ex.d shells2 junk
    (some (fun i a b => if a = b then (if i = 0 then 1 else -1) else 0, 1)) erfc 1) (fun q => neg (qs q)) 1) (fun _ => some 3)
    none).2.2 (by simp) (by simp)
  have hd : RealData fun _ => some 3 := by
    intro x b hb
    simp only [Option.some.injEq] at hb
    rw [← hb]
    simp
  have h := C146_sqw Describe.Ex.ok Describe.Ex.symmetric junk (fun o ho => by
    simp only [Option.some.injEq] at ho
    rw [← ho]
    simp) erfc 1 !["Na", "Cl"] he he qs 1 hd none hr hr' 1 1 1 one_pos [0, 1, 2] (by norm_num) true (some 5) none
  exact ⟨r, r', hr, hr', h.1, h.2.1⟩

/-! ## Absorbing nuclei -/

namespace Ex

/-- A crystal without inversion symmetry: two kinds of atoms, a quarter of the cell apart. -/
noncomputable def cr : Cryst 2 where
  atomR := fun k j => if k = 1 ∧ j = 0 then 1 / 4 else 0
  atomType := ![ "O", "Gd"]
  mass := fun _ => 1
  recip := fun i j => if i = j then 1 else 0

/-- A mode where both atoms move alike. -/
noncomputable def together (x : ℝ) : Modes cr 1 1 where
  qpts := fun _ j => if j = 0 then x else 0
  freqs := fun _ _ => 1
  evecs := fun _ _ _ l => if l = 0 then 1 else 0
  weights := fun _ => 1

/-- Scattering lengths, one of them imaginary. -/
noncomputable def lengths : String → Option ℂ := fun x => if x = "O" then some 1 else some Complex.I

theorem opposite : Reversed (together 1) (together (-1)) where
  qpts := fun q j => by
    simp only [together]
    split <;> simp
  freqs := rfl
  weights := rfl
  evecs := fun q s k l => by
    simp only [together]
    split <;> simp

theorem look : lookupAll lengths cr.atomType = .ok ![1, Complex.I] := by
  have h1 : lengths "O" = some 1 := by simp [lengths]
  have h2 : lengths "Gd" = some Complex.I := by simp [lengths]
  unfold lookupAll
  rw [if_pos]
  · congr 1
    funext k
    fin_cases k
    · change (lengths "O").getD 0 = 1
      rw [h1]
      rfl
    · change (lengths "Gd").getD 0 = Complex.I
      rw [h2]
      rfl
  · intro k
    fin_cases k
    · change (lengths "O").isSome
      rw [h1]
      rfl
    · change (lengths "Gd").isSome
      rw [h2]
      rfl

theorem term (x : ℝ) : sfTerm (together x) ![1, Complex.I] (fun _ _ => 1) 0 0 =
    x * (1 + Complex.exp (Complex.I * 2 * Real.pi * (x * (1 / 4) : ℝ)) * Complex.I) := by
  have hc : ∀ l, cartQ (together x) 0 l = if l = 0 then x else 0 := by
    intro l
    simp [cartQ, together, cr]
  have he : ∀ k, evecDotQ (together x) 0 0 k = x := by
    intro k
    unfold evecDotQ
    simp only [hc]
    rw [Fin.sum_univ_three]
    simp [together]
  unfold sfTerm
  rw [Fin.sum_univ_two, he, he]
  simp [expFactor, together, cr]
  ring

theorem value (x : ℝ) : ∃ r, calculateStructureFactor (together x) lengths none = .ok r ∧
    r.sf 0 0 = sfValue 2 (x * (1 + Complex.exp (Complex.I * 2 * Real.pi * (x * (1 / 4) : ℝ)) * Complex.I)) 1 := by
  unfold calculateStructureFactor
  rw [look]
  refine ⟨_, rfl, ?_⟩
  change sfValue 2 (sfTerm (together x) ![1, Complex.I] (fun _ _ => 1) 0 0) 1 = _
  rw [term]

theorem phase_one : Complex.exp (Complex.I * 2 * Real.pi * ((1 * (1 / 4) : ℝ) : ℂ)) = Complex.I := by
  rw [show Complex.I * 2 * Real.pi * ((1 * (1 / 4) : ℝ) : ℂ) = Real.pi / 2 * Complex.I by push_cast; ring, Complex.exp_pi_div_two_mul_I]

theorem phase_minus : Complex.exp (Complex.I * 2 * Real.pi * ((-1 * (1 / 4) : ℝ) : ℂ)) = -Complex.I := by
  rw [show Complex.I * 2 * Real.pi * ((-1 * (1 / 4) : ℝ) : ℂ) = -Real.pi / 2 * Complex.I by push_cast; ring,
    Complex.exp_neg_pi_div_two_mul_I]

end Ex

/-- **C146**, absorbing nuclei: with complex scattering lengths the structure factors at opposite wavevectors can differ. -/
theorem C146_absorbing_differ : ∃ r r', Reversed (Ex.together 1) (Ex.together (-1)) ∧
    calculateStructureFactor (Ex.together 1) Ex.lengths none = .ok r ∧
    calculateStructureFactor (Ex.together (-1)) Ex.lengths none = .ok r' ∧ r.sf 0 0 = 0 ∧ r'.sf 0 0 = 1 := by
  obtain ⟨r, h1, e1⟩ := Ex.value 1
  obtain ⟨r', h2, e2⟩ := Ex.value (-1)
  refine ⟨r, r', Ex.opposite, h1, h2, ?_, ?_⟩
  · rw [e1, Ex.phase_one, Complex.I_mul_I]
    simp [sfValue]
  · rw [e2, Ex.phase_minus, neg_mul, Complex.I_mul_I]
    norm_num [sfValue]

end Euphonic.Opposite
