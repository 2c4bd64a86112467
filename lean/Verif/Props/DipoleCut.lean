import Verif.Props.DipoleScale
import Verif.Props.Lattice

/-!
# C154: which cells and reciprocal vectors the long-range sums contain
-/

set_option autoImplicit false

namespace Euphonic.Dipole

open Euphonic.Lattice Euphonic.Phases Euphonic.Images Euphonic.DynMat

variable {n : Nat}

/-! ## Specification -/

/-- Atoms of a pair in the order in which pairs are summed, and two directions. -/
structure Pick (n : Nat) where
  i : Fin n
  j : Fin n
  le : i ≤ j
  a : Fin 3
  b : Fin 3

/-- A set of numbers `x` counts beside `y`: one of them is above 10⁻¹⁵ times each of the `y`. -/
def Counts {ι κ : Type} (x : ι → ℝ) (y : κ → ℝ) : Prop := ∃ i, ∀ k, 1 / 10 ^ 15 * y k < x i

/-- The contributions of the cells with largest component `s` to the series in real space. -/
noncomputable def cellTerm (erfc : ℝ → ℝ) (o : Ions n) (lam : ℝ) (s : Nat) (p : {R : V3 ℤ // maxAbs R = s} × Pick n) : ℝ :=
  |hab erfc o lam p.1 p.2.i p.2.j p.2.a p.2.b|

/-- The contributions of the reciprocal vectors with largest component `s`, added up for each pair of atoms. -/
noncomputable def shellTerm (o : Ions n) (lam : ℝ) (s : Nat) (p : Pick n) : ℝ :=
  ‖recipQ0Shell o lam s p.i p.j p.a p.b‖

/-! ## Lemmas -/

theorem mem_takeWhile_range' (p : Nat → Bool) (k : Nat) : ∀ a s,
    s ∈ (List.range' a k).takeWhile p ↔ a ≤ s ∧ s < a + k ∧ ∀ t, a ≤ t → t ≤ s → p t = true := by
  induction k with
  | zero =>
    intro a s
    simp only [List.range'_zero, List.takeWhile_nil, List.not_mem_nil, false_iff]
    rintro ⟨h1, h2, -⟩
    omega
  | succ k ih =>
    intro a s
    rw [List.range'_succ, List.takeWhile_cons]
    split
    · rename_i h
      rw [List.mem_cons, ih]
      constructor
      · rintro (rfl | ⟨h1, h2, h3⟩)
        · exact ⟨le_rfl, by omega, fun t h1 h2 => by rw [le_antisymm h2 h1]; exact h⟩
        · refine ⟨by omega, by omega, fun t g1 g2 => ?_⟩
          rcases g1.eq_or_lt with rfl | g1
          · exact h
          · exact h3 t g1 g2
      · rintro ⟨h1, h2, h3⟩
        rcases h1.eq_or_lt with rfl | h1
        · exact Or.inl rfl
        · exact Or.inr ⟨h1, by omega, fun t g1 g2 => h3 t (by omega) g2⟩
    · rename_i h
      simp only [List.not_mem_nil, false_iff]
      rintro ⟨h1, h2, h3⟩
      exact h (h3 a le_rfl h1)

theorem le_amax {l : List ℝ} {x : ℝ} (h : x ∈ l) : x ≤ amax l := by
  have : ∀ (l : List ℝ) (v : ℝ), v ≤ l.foldl max v ∧ ∀ x ∈ l, x ≤ l.foldl max v := by
    intro l
    induction l with
    | nil => intro v; exact ⟨le_rfl, by simp⟩
    | cons y l ih =>
      intro v
      obtain ⟨h1, h2⟩ := ih (max v y)
      refine ⟨(le_max_left _ _).trans h1, ?_⟩
      intro x hx
      rcases List.mem_cons.1 hx with rfl | hx
      · exact (le_max_right _ _).trans h1
      · exact h2 x hx
  exact (this l 0).2 x h

theorem amax_nonneg (l : List ℝ) : 0 ≤ amax l := by
  have : ∀ (l : List ℝ) (v : ℝ), v ≤ l.foldl max v := by
    intro l
    induction l with
    | nil => intro v; exact le_rfl
    | cons y l ih => intro v; exact (le_max_left _ _).trans (ih _)
  exact this l 0

theorem amax_mem (l : List ℝ) : amax l = 0 ∨ amax l ∈ l := by
  have : ∀ (l : List ℝ) (v : ℝ), l.foldl max v = v ∨ l.foldl max v ∈ l := by
    intro l
    induction l with
    | nil => intro v; exact Or.inl rfl
    | cons y l ih =>
      intro v
      rcases ih (max v y) with h | h
      · rw [List.foldl_cons, h]
        rcases max_choice v y with h' | h'
        · exact Or.inl h'
        · right; rw [h']; simp
      · right
        exact List.mem_cons_of_mem _ h
  exact this l 0

theorem amax_gt_iff {ι κ : Type} {l m : List ℝ} {x : ι → ℝ} {y : κ → ℝ} (hl : ∀ v, v ∈ l ↔ ∃ i, x i = v)
    (hm : ∀ v, v ∈ m ↔ ∃ k, y k = v) (hne : Nonempty ι → Nonempty κ) (hy : ∀ k, 0 ≤ y k) :
    amax l > 1 / 10 ^ 15 * amax m ↔ Counts x y := by
  constructor
  · intro h
    have h0 : 0 < amax l := lt_of_le_of_lt (mul_nonneg (by positivity) (amax_nonneg m)) h
    rcases amax_mem l with h1 | h1
    · rw [h1] at h0
      exact absurd h0 (lt_irrefl _)
    · obtain ⟨i, hi⟩ := (hl _).1 h1
      refine ⟨i, fun k => ?_⟩
      rw [hi]
      refine lt_of_le_of_lt ?_ h
      exact mul_le_mul_of_nonneg_left (le_amax ((hm _).2 ⟨k, rfl⟩)) (by positivity)
  · rintro ⟨i, hi⟩
    refine lt_of_lt_of_le ?_ (le_amax ((hl _).2 ⟨i, rfl⟩))
    rcases amax_mem m with h1 | h1
    · rw [h1, mul_zero]
      obtain ⟨k⟩ := hne ⟨i⟩
      exact lt_of_le_of_lt (mul_nonneg (by positivity) (hy k)) (hi k)
    · obtain ⟨k, hk⟩ := (hm _).1 h1
      rw [← hk]
      exact hi k

theorem mem_upperElems (e : Fin n × Fin n × Fin 3 × Fin 3) : e ∈ upperElems n ↔ e.1 ≤ e.2.1 := by
  obtain ⟨i, j, a, b⟩ := e
  unfold upperElems
  simp

theorem shellTerms (o : Ions n) (lam : ℝ) (s : Nat) (v : ℝ) :
    v ∈ (upperElems n).map (fun e => ‖recipQ0Shell o lam s e.1 e.2.1 e.2.2.1 e.2.2.2‖) ↔ ∃ p, shellTerm o lam s p = v := by
  rw [List.mem_map]
  constructor
  · rintro ⟨e, he, rfl⟩
    exact ⟨⟨e.1, e.2.1, (mem_upperElems e).1 he, e.2.2.1, e.2.2.2⟩, rfl⟩
  · rintro ⟨p, rfl⟩
    exact ⟨(p.i, p.j, p.a, p.b), (mem_upperElems _).2 p.le, rfl⟩

theorem cellTerms (erfc : ℝ → ℝ) (o : Ions n) (lam : ℝ) (s : Nat) (v : ℝ) :
    v ∈ ((shell s).flatMap fun R => (upperElems n).map fun e => |hab erfc o lam R e.1 e.2.1 e.2.2.1 e.2.2.2|) ↔
      ∃ p, cellTerm erfc o lam s p = v := by
  simp only [List.mem_flatMap, List.mem_map]
  constructor
  · rintro ⟨R, hR, e, he, rfl⟩
    exact ⟨⟨⟨R, (mem_shell s R).1 hR⟩, ⟨e.1, e.2.1, (mem_upperElems e).1 he, e.2.2.1, e.2.2.2⟩⟩, rfl⟩
  · rintro ⟨p, rfl⟩
    exact ⟨p.1, (mem_shell s _).2 p.1.2, (p.2.i, p.2.j, p.2.a, p.2.b), (mem_upperElems _).2 p.2.le, rfl⟩

theorem mem_gShells (o : Ions n) (lam : ℝ) (s : Nat) : s ∈ gShells o lam ↔
    1 ≤ s ∧ s < 50 ∧ ∀ t, 1 ≤ t → t ≤ s → Counts (shellTerm o lam t) (shellTerm o lam 1) := by
  unfold gShells
  rw [mem_takeWhile_range']
  have key : ∀ t, decide (amax ((upperElems n).map fun e => ‖recipQ0Shell o lam t e.1 e.2.1 e.2.2.1 e.2.2.2‖) >
      1 / 10 ^ 15 * amax ((upperElems n).map fun e => ‖recipQ0Shell o lam 1 e.1 e.2.1 e.2.2.1 e.2.2.2‖)) = true ↔
      Counts (shellTerm o lam t) (shellTerm o lam 1) := by
    intro t
    rw [decide_eq_true_eq]
    exact amax_gt_iff (shellTerms o lam t) (shellTerms o lam 1) id fun _ => norm_nonneg _
  simp only [key]

/-! ## Theorems -/

/-- **C154.** A reciprocal vector with largest component `s` is in the sums exactly if `1 ≤ s < 50` and every set of vectors
from the first to this one counts beside the first: it has an element above 10⁻¹⁵ times all elements of the first. -/
theorem C154_reciprocal (o : Ions n) (lam : ℝ) (G : V3 ℤ) : G ∈ gvecs o lam ↔
    1 ≤ maxAbs G ∧ maxAbs G < 50 ∧ ∀ t, 1 ≤ t → t ≤ maxAbs G → Counts (shellTerm o lam t) (shellTerm o lam 1) := by
  unfold gvecs
  rw [List.mem_flatMap, ← mem_gShells]
  constructor
  · rintro ⟨s, hs, hG⟩
    rw [(mem_shell s G).1 hG]
    exact hs
  · intro h
    exact ⟨_, h, (mem_shell _ G).2 rfl⟩

/-- **C154.** A cell with largest component `s` is in the sums exactly if `s < 50` and every set of cells from the origin to
this one counts beside the cell at the origin. -/
theorem C154_cells (erfc : ℝ → ℝ) (o : Ions n) (lam : ℝ) (R : V3 ℤ) : R ∈ cells erfc o lam ↔
    maxAbs R < 50 ∧ ∀ t, t ≤ maxAbs R → Counts (cellTerm erfc o lam t) (cellTerm erfc o lam 0) := by
  have key : ∀ t, decide (amax ((shell t).flatMap fun R => (upperElems n).map fun e =>
      |hab erfc o lam R e.1 e.2.1 e.2.2.1 e.2.2.2|) > 1 / 10 ^ 15 * amax ((shell 0).flatMap fun R =>
      (upperElems n).map fun e => |hab erfc o lam R e.1 e.2.1 e.2.2.1 e.2.2.2|)) = true ↔
      Counts (cellTerm erfc o lam t) (cellTerm erfc o lam 0) := by
    intro t
    rw [decide_eq_true_eq]
    exact amax_gt_iff (cellTerms erfc o lam t) (cellTerms erfc o lam 0)
      (fun ⟨p⟩ => ⟨⟨⟨⟨0, 0, 0⟩, rfl⟩, p.2⟩⟩) fun _ => abs_nonneg _
  unfold cells
  rw [List.mem_flatMap]
  simp only [List.range_eq_range', mem_takeWhile_range', key, mem_shell]
  constructor
  · rintro ⟨s, ⟨-, h2, h3⟩, rfl⟩
    exact ⟨by omega, fun t ht => h3 t (by omega) ht⟩
  · rintro ⟨h1, h2⟩
    exact ⟨_, ⟨by omega, by omega, fun t _ ht => h2 t ht⟩, rfl⟩

/-- **C154.** No cell and no reciprocal vector is used twice. -/
theorem C154_once (erfc : ℝ → ℝ) (o : Ions n) (lam : ℝ) : (cells erfc o lam).Nodup ∧ (gvecs o lam).Nodup :=
  ⟨(negClosed_cells erfc o lam).1, (negClosed_gvecs o lam).1⟩

/-- A positive definite dielectric tensor. -/
def PosDef (o : Ions n) : Prop := ∀ k : V3 ℝ, k ≠ ⟨0, 0, 0⟩ → 0 < ∑ a, ∑ b, comp k a * comp k b * o.diel a b

theorem kTerm_diag_nonneg {o : Ions n} (hp : PosDef o) (lam : ℝ) (k : V3 ℝ) (a : Fin 3) : 0 ≤ kTerm o lam k a a := by
  unfold kTerm
  by_cases hk : k = ⟨0, 0, 0⟩
  · subst hk
    have : comp (⟨0, 0, 0⟩ : V3 ℝ) a = 0 := by fin_cases a <;> rfl
    simp [this]
  · have := hp k hk
    have h2 : 0 ≤ comp k a * comp k a := mul_self_nonneg _
    positivity

theorem kTerm_diag_pos {o : Ions n} (hp : PosDef o) {lam : ℝ} (hl : lam ≠ 0) {k : V3 ℝ} {a : Fin 3} (hk : comp k a ≠ 0) :
    0 < kTerm o lam k a a := by
  unfold kTerm
  have hk0 : k ≠ ⟨0, 0, 0⟩ := by
    rintro rfl
    apply hk
    fin_cases a <;> rfl
  have := hp k hk0
  have h2 : 0 < comp k a * comp k a := mul_self_pos.2 hk
  positivity

/-- **C154.** For a crystal with at least one atom, independent cell vectors and a positive definite dielectric tensor the 26
reciprocal vectors around the origin are always in the sums. -/
theorem C154_first_shell (o : Ions n) (hn : n ≠ 0) (hv : cellVolume o.cv ≠ 0) (hp : PosDef o) {lam : ℝ} (hl : lam ≠ 0)
    (G : V3 ℤ) (hG : maxAbs G = 1) : G ∈ gvecs o lam := by
  obtain ⟨⟨hd, -⟩, -⟩ := C30_reciprocal_dual (2 * Real.pi) o.cv hv
  obtain ⟨a, ha⟩ : ∃ a, comp (toCart (recip o) (castV ℝ ⟨1, 0, 0⟩)) a ≠ 0 := by
    by_contra hc
    push Not at hc
    have h0 := hc 0
    have h1 := hc 1
    have h2 := hc 2
    simp only [comp, toCart, castV] at h0 h1 h2
    norm_num at h0 h1 h2
    change (recip o).a.z = 0 at h2
    have hpi := Real.pi_pos
    change dot o.cv.a (recip o).a = 2 * Real.pi at hd
    simp only [dot, h0, h1, h2] at hd
    linarith
  have hterm : 0 < shellTerm o lam 1 ⟨⟨0, by omega⟩, ⟨0, by omega⟩, le_rfl, a, a⟩ := by
    have hs : recipQ0Shell o lam 1 ⟨0, by omega⟩ ⟨0, by omega⟩ a a =
        ((((shell 1).map fun G => kTerm o lam (toCart (recip o) (castV ℝ G)) a a).sum : ℝ) : ℂ) := by
      unfold recipQ0Shell
      simp only [div_self (gPhase_ne o _ _), mul_one]
      induction shell 1 with
      | nil => simp
      | cons R l ih => simp only [List.map_cons, List.sum_cons, ih, Complex.ofReal_add]
    have hpos : 0 < ((shell 1).map fun G => kTerm o lam (toCart (recip o) (castV ℝ G)) a a).sum := by
      refine lt_of_lt_of_le (kTerm_diag_pos hp hl ha) ?_
      apply List.single_le_sum
      · intro x hx
        obtain ⟨G, -, rfl⟩ := List.mem_map.1 hx
        exact kTerm_diag_nonneg hp lam _ a
      · exact List.mem_map.2 ⟨⟨1, 0, 0⟩, (mem_shell 1 _).2 (by decide), rfl⟩
    unfold shellTerm
    rw [hs, Complex.norm_real, Real.norm_eq_abs, abs_of_pos hpos]
    exact hpos
  rw [C154_reciprocal, hG]
  refine ⟨le_rfl, by norm_num, ?_⟩
  intro t h1 h2
  obtain rfl : t = 1 := by omega
  rw [← amax_gt_iff (shellTerms o lam 1) (shellTerms o lam 1) id fun _ => norm_nonneg _]
  have := hterm.trans_le (le_amax ((shellTerms o lam 1 _).2 ⟨_, rfl⟩))
  linarith

/-! ## Cases -/

theorem exPolar_posDef : PosDef exPolar := by
  intro k hk
  have hd : ∀ a b, exPolar.diel a b = if a = b then 2 else 0 := by
    intro a b
    fin_cases a <;> fin_cases b <;> simp [exPolar, Matrix.ofNat_apply]
  simp only [hd, Fin.sum_univ_three]
  simp [comp]
  by_contra hc
  apply hk
  have hx := mul_self_nonneg k.x
  have hy := mul_self_nonneg k.y
  have hz := mul_self_nonneg k.z
  have h1 : k.x * k.x = 0 := by linarith
  have h2 : k.y * k.y = 0 := by linarith
  have h3 : k.z * k.z = 0 := by linarith
  cases k
  simp only [mul_self_eq_zero] at h1 h2 h3
  simp only [h1, h2, h3]

/-- Two opposite charges in an orthorhombic cell. -/
example : (⟨1, -1, 0⟩ : V3 ℤ) ∈ gvecs exPolar 1 :=
  C154_first_shell exPolar (by norm_num) (by simp [exPolar, cellVolume, dot, cross]) exPolar_posDef one_ne_zero _ (by decide)

theorem exPolar_inv : exPolar.diel⁻¹ = (1 / 2 : ℝ) • (1 : Matrix (Fin 3) (Fin 3) ℝ) := by
  apply Matrix.inv_eq_right_inv
  ext a b
  fin_cases a <;> fin_cases b <;> simp [exPolar, Matrix.ofNat_apply]

/-- The pair of ions within the cell contributes, so that the series in real space is not empty (`erfc` is replaced by zero to
have a number). -/
example : (⟨0, 0, 0⟩ : V3 ℤ) ∈ cells (fun _ => 0) exPolar 1 := by
  have hterm : 0 < cellTerm (fun _ => 0) exPolar 1 0 (⟨⟨0, 0, 0⟩, rfl⟩, ⟨0, 1, by decide, 0, 1⟩) := by
    unfold cellTerm
    rw [abs_pos]
    unfold hab
    rw [if_neg (by rintro ⟨-, h⟩; exact absurd h (by decide)), exPolar_inv]
    have hpi := Real.pi_pos
    simp [exPolar, toCart, castV, comp, Euphonic.Lattice.sub, vecMat, Fin.sum_univ_three, Matrix.one_apply]
    exact ⟨⟨(Real.sqrt_pos.2 hpi).ne', by norm_num⟩, by norm_num⟩
  rw [C154_cells]
  refine ⟨by decide, fun t ht => ?_⟩
  obtain rfl : t = 0 := by
    have : maxAbs (⟨0, 0, 0⟩ : V3 ℤ) = 0 := rfl
    omega
  rw [← amax_gt_iff (cellTerms _ exPolar 1 0) (cellTerms _ exPolar 1 0) id fun _ => abs_nonneg _]
  have := hterm.trans_le (le_amax ((cellTerms _ exPolar 1 0 _).2 ⟨_, rfl⟩))
  linarith

end Euphonic.Dipole
