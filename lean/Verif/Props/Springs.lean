import Verif.Props.Response

/-!
# C145: a crystal held together by springs has no imaginary frequencies
-/

set_option autoImplicit false

namespace Euphonic.Springs

open Euphonic.Lattice Euphonic.Supercell Euphonic.Phases Euphonic.Images Euphonic.DynMat Euphonic.Describe Euphonic.Stability
  Euphonic.Response Euphonic.Acoustic Euphonic.Reduced Euphonic.Commensurate

variable {n N : Nat}

/-! ## Specification -/

/-- Every two different atoms are pulled back to each other or left alone, never pushed apart, whatever the direction of the
displacement (the negative of the block of force constants is symmetric without negative eigenvalues), and no atom is pushed
away when all atoms move together (for translation invariant force constants the sum is zero). -/
structure IsSprings (c0 : Fin N) (fc : Fin N → Mat n ℝ) : Prop where
  symm : ∀ c i j, ¬ (c = c0 ∧ i = j) → ∀ a b, fc c (row i a) (row j b) = fc c (row i b) (row j a)
  pull : ∀ c i j, ¬ (c = c0 ∧ i = j) → ∀ x : Fin 3 → ℝ, ∑ a, ∑ b, x a * x b * fc c (row i a) (row j b) ≤ 0
  total : ∀ i, ∀ x : Fin 3 → ℝ, 0 ≤ ∑ a, ∑ b, x a * x b * ∑ c, ∑ j, fc c (row i a) (row j b)

/-! ## Quadratic forms -/

/-- The quadratic form of a real matrix at a complex vector. -/
noncomputable def form (K : Fin 3 → Fin 3 → ℝ) (u w : Fin 3 → ℂ) : ℝ := (∑ a, ∑ b, star (u a) * w b * (K a b : ℂ)).re

theorem form_self (K : Fin 3 → Fin 3 → ℝ) (u : Fin 3 → ℂ) : form K u u =
    (∑ a, ∑ b, (u a).re * (u b).re * K a b) + ∑ a, ∑ b, (u a).im * (u b).im * K a b := by
  unfold form
  simp only [Complex.re_sum, ← Finset.sum_add_distrib]
  refine Finset.sum_congr rfl fun a _ => Finset.sum_congr rfl fun b _ => ?_
  simp [Complex.mul_re]
  ring

theorem form_swap (K : Fin 3 → Fin 3 → ℝ) (u w : Fin 3 → ℂ) : form (fun a b => K b a) u w = form K w u := by
  unfold form
  rw [Finset.sum_comm, ← Complex.conj_re, map_sum]
  congr 1
  refine Finset.sum_congr rfl fun a _ => ?_
  rw [map_sum]
  refine Finset.sum_congr rfl fun b _ => ?_
  simp only [map_mul, Complex.star_def, Complex.conj_conj, Complex.conj_ofReal]
  ring

theorem form_phase (K : Fin 3 → Fin 3 → ℝ) (w : Fin 3 → ℂ) (P : ℂ) :
    form K (fun b => w b * P) (fun b => w b * P) = ‖P‖ ^ 2 * form K w w := by
  unfold form
  rw [← Complex.re_ofReal_mul, Finset.mul_sum]
  congr 1
  refine Finset.sum_congr rfl fun a _ => ?_
  rw [Finset.mul_sum]
  refine Finset.sum_congr rfl fun b _ => ?_
  have : star P * P = ((‖P‖ ^ 2 : ℝ) : ℂ) := by
    rw [Complex.star_def, Complex.conj_mul', Complex.ofReal_pow]
  rw [← this, star_mul']
  ring

theorem form_sum {ι : Type} (s : Finset ι) (K : ι → Fin 3 → Fin 3 → ℝ) (u w : Fin 3 → ℂ) :
    form (fun a b => ∑ c ∈ s, K c a b) u w = ∑ c ∈ s, form (K c) u w := by
  unfold form
  rw [← Complex.re_sum]
  congr 1
  conv_rhs => rw [Finset.sum_comm]
  refine Finset.sum_congr rfl fun a _ => ?_
  conv_rhs => rw [Finset.sum_comm]
  refine Finset.sum_congr rfl fun b _ => ?_
  push_cast
  rw [Finset.mul_sum]

/-- Two atoms tied to each other by a spring. -/
theorem form_pair {B : Fin 3 → Fin 3 → ℝ} (hs : ∀ a b, B a b = B b a) (hB : ∀ x : Fin 3 → ℝ, ∑ a, ∑ b, x a * x b * B a b ≤ 0)
    (u w : Fin 3 → ℂ) {P : ℂ} (hP : ‖P‖ ≤ 1) : form B u u + form B w w ≤ 2 * form B u fun b => w b * P := by
  have neg : ∀ v : Fin 3 → ℂ, form B v v ≤ 0 := fun v => by
    rw [form_self]
    exact add_nonpos (hB _) (hB _)
  have hw : form B w w ≤ ‖P‖ ^ 2 * form B w w := by
    nlinarith [neg w, pow_le_one₀ (norm_nonneg P) hP (n := 2)]
  have hd := neg fun b => u b - w b * P
  have e : form B (fun b => u b - w b * P) (fun b => u b - w b * P) =
      form B u u - form B u (fun b => w b * P) - form B (fun b => w b * P) u + form B (fun b => w b * P) (fun b => w b * P) := by
    unfold form
    simp only [← Complex.sub_re, ← Complex.add_re, ← Finset.sum_sub_distrib, ← Finset.sum_add_distrib]
    congr 1
    refine Finset.sum_congr rfl fun a _ => Finset.sum_congr rfl fun b _ => ?_
    rw [star_sub]
    ring
  have hsw : form B (fun b => w b * P) u = form B u fun b => w b * P := by
    rw [← form_swap]
    congr 1
    funext a b
    exact (hs a b).symm
  rw [e, hsw, form_phase] at hd
  linarith

/-! ## The dynamical matrix -/

section
variable {d : Description n N}

/-- The mean of the phases of the nearest copies. -/
noncomputable def phase (d : Description n N) (images : List (V3 ℤ)) (q : V3 ℝ) (c : Fin N) (i j : Fin n) : ℂ :=
  (∑ L ∈ d.copies images c i j, expQR q L) / ((d.copies images c i j).card : ℂ)

theorem norm_phase (images : List (V3 ℤ)) (q : V3 ℝ) (c : Fin N) (i j : Fin n) : ‖phase d images q c i j‖ ≤ 1 := by
  unfold phase
  rw [norm_div, Complex.norm_natCast]
  refine div_le_one_of_le₀ ((norm_sum_le _ _).trans ?_) (Nat.cast_nonneg _)
  refine (Finset.sum_le_sum fun m _ => norm_expQR_le q m).trans ?_
  simp

theorem phase_self {images : List (V3 ℤ)} (hok : d.Ok images) (q : V3 ℝ) (i : Fin n) : phase d images q d.c0 i i = 1 := by
  have hz : ∀ L, d.IsNearestCopy d.c0 i i L ↔ L = ⟨0, 0, 0⟩ := by
    intro L
    constructor
    · rintro ⟨h1, h2⟩
      rw [hok.first] at h1
      have hL : InLattice d.S L := by
        have e : sub L ⟨0, 0, 0⟩ = L := by
          simp only [sub]
          exact V3.ext' (by ring) (by ring) (by ring)
        rwa [e] at h1
      have hn : InLattice d.S (sub ⟨0, 0, 0⟩ L) := (InLattice.zero d.S).sub hL
      have h3 := h2 _ hn
      set X := toCart d.cv (castV ℝ L) with hX
      have e1 : toCart d.cv (sub (sub (d.r i) (d.r i)) (castV ℝ L)) = ⟨-X.x, -X.y, -X.z⟩ := by
        simp only [hX, toCart, sub, V3.mk.injEq]
        refine ⟨?_, ?_, ?_⟩ <;> ring
      have e2 : toCart d.cv (castV ℝ (sub ⟨0, 0, 0⟩ L)) = ⟨-X.x, -X.y, -X.z⟩ := by
        simp only [hX, toCart, sub, castV, V3.mk.injEq]
        push_cast
        refine ⟨?_, ?_, ?_⟩ <;> ring
      rw [e1, e2] at h3
      simp only [Images.sq, dot, sub] at h3
      have hx : X.x = 0 ∧ X.y = 0 ∧ X.z = 0 := by
        have : X.x ^ 2 + X.y ^ 2 + X.z ^ 2 ≤ 0 := by nlinarith
        refine ⟨?_, ?_, ?_⟩ <;> nlinarith [sq_nonneg X.x, sq_nonneg X.y, sq_nonneg X.z]
      have hv : cellVolume d.cv ≠ 0 := by
        intro h
        have := hok.reduced.volume
        rw [volume_scVecs, h, mul_zero] at this
        exact this rfl
      obtain ⟨k1, k2, k3⟩ := hx
      simp only [hX, toCart, castV] at k1 k2 k3
      have z : ∀ x : ℤ, cellVolume d.cv * (x : ℝ) = 0 → x = 0 := fun x h => by
        exact_mod_cast (mul_eq_zero.1 h).resolve_left hv
      refine V3.ext' (z _ ?_) (z _ ?_) (z _ ?_)
      · simp only [cellVolume, dot, cross]
        linear_combination (d.cv.b.y * d.cv.c.z - d.cv.b.z * d.cv.c.y) * k1 + (d.cv.b.z * d.cv.c.x - d.cv.b.x * d.cv.c.z) * k2 +
          (d.cv.b.x * d.cv.c.y - d.cv.b.y * d.cv.c.x) * k3
      · simp only [cellVolume, dot, cross]
        linear_combination (d.cv.c.y * d.cv.a.z - d.cv.c.z * d.cv.a.y) * k1 + (d.cv.c.z * d.cv.a.x - d.cv.c.x * d.cv.a.z) * k2 +
          (d.cv.c.x * d.cv.a.y - d.cv.c.y * d.cv.a.x) * k3
      · simp only [cellVolume, dot, cross]
        linear_combination (d.cv.a.y * d.cv.b.z - d.cv.a.z * d.cv.b.y) * k1 + (d.cv.a.z * d.cv.b.x - d.cv.a.x * d.cv.b.z) * k2 +
          (d.cv.a.x * d.cv.b.y - d.cv.a.y * d.cv.b.x) * k3
    · rintro rfl
      refine ⟨?_, fun v _ => ?_⟩
      · rw [hok.first]
        exact (InLattice.zero d.S)
      · have e1 : toCart d.cv (sub (sub (d.r i) (d.r i)) (castV ℝ ⟨0, 0, 0⟩)) = ⟨0, 0, 0⟩ := by
          simp [toCart, sub, castV]
        rw [e1]
        simp only [Images.sq, dot, sub]
        nlinarith [sq_nonneg (toCart d.cv (castV ℝ v)).x, sq_nonneg (toCart d.cv (castV ℝ v)).y, sq_nonneg (toCart d.cv (castV ℝ v)).z]
  have hc : d.copies images d.c0 i i = {⟨0, 0, 0⟩} := by
    ext L
    rw [mem_copies d hok, hz, Finset.mem_singleton]
  unfold phase
  rw [hc, Finset.sum_singleton, Finset.card_singleton, expQR_zero, Nat.cast_one, div_one]

/-- The sum of the squared frequencies, weighted with the displacements. -/
theorem quad_eq {images : List (V3 ℤ)} (hok : d.Ok images) (junk : Fin N → Mat n ℝ) (q : V3 ℝ) (v : Fin (n * 3) → ℂ) :
    (∑ k, ∑ l, star (v k) * v l * d.dynMat images junk q k l).re = ∑ c, ∑ i, ∑ j,
      form (fun a b => d.fc c (row i a) (row j b)) (fun a => v (row i a)) fun b => v (row j b) * phase d images q c i j := by
  have e : ∑ k, ∑ l, star (v k) * v l * d.dynMat images junk q k l = ∑ c, ∑ i, ∑ j, ∑ a, ∑ b,
      star (v (row i a)) * (v (row j b) * phase d images q c i j) * ((d.fc c (row i a) (row j b) : ℝ) : ℂ) := by
    rw [sum_rows]
    simp only [sum_rows (n := n)]
    have h1 : ∀ i a j b, star (v (row i a)) * v (row j b) * d.dynMat images junk q (row i a) (row j b) =
        ∑ c, star (v (row i a)) * (v (row j b) * phase d images q c i j) * ((d.fc c (row i a) (row j b) : ℝ) : ℂ) := by
      intro i a j b
      rw [dynMat_copies d hok, Finset.mul_sum]
      refine Finset.sum_congr rfl fun c _ => ?_
      rw [row_div, row_div]
      unfold phase
      ring
    simp only [h1]
    have h2 : ∀ i, ∑ a, ∑ j, ∑ b, ∑ c, star (v (row i a)) * (v (row j b) * phase d images q c i j) * ((d.fc c (row i a) (row j b) : ℝ) : ℂ) =
        ∑ c, ∑ j, ∑ a, ∑ b, star (v (row i a)) * (v (row j b) * phase d images q c i j) * ((d.fc c (row i a) (row j b) : ℝ) : ℂ) := by
      intro i
      rw [Finset.sum_comm]
      conv_rhs => rw [Finset.sum_comm]
      refine Finset.sum_congr rfl fun j _ => ?_
      conv_rhs => rw [Finset.sum_comm]
      refine Finset.sum_congr rfl fun a _ => ?_
      rw [Finset.sum_comm]
    rw [Finset.sum_congr rfl fun i _ => h2 i, Finset.sum_comm]
  rw [e, Complex.re_sum]
  refine Finset.sum_congr rfl fun c _ => ?_
  rw [Complex.re_sum]
  refine Finset.sum_congr rfl fun i _ => ?_
  rw [Complex.re_sum]
  rfl

/-- The dynamical matrix of springs has no negative eigenvalues. -/
theorem springs_nonneg {images : List (V3 ℤ)} (hok : d.Ok images) {op : Fin N → Fin N} {t : Fin N → V3 ℤ}
    (hs : Symmetric d.cells d.S d.fc op t) (hk : IsSprings d.c0 d.fc) (junk : Fin N → Mat n ℝ) (q : V3 ℝ) :
    NonNeg (d.dynMat images junk q) := by
  intro v
  rw [quad_eq hok]
  set B : Fin N → Fin n → Fin n → Fin 3 → Fin 3 → ℝ := fun c i j a b => d.fc c (row i a) (row j b) with hB
  set u : Fin n → Fin 3 → ℂ := fun i a => v (row i a) with hu
  have h1 : ∀ c i j, form (B c i j) (u i) (u i) + form (B c i j) (u j) (u j) ≤
      2 * form (B c i j) (u i) fun b => u j b * phase d images q c i j := by
    intro c i j
    by_cases h : c = d.c0 ∧ i = j
    · obtain ⟨rfl, rfl⟩ := h
      simp only [phase_self hok, mul_one]
      linarith
    · exact form_pair (hk.symm c i j h) (hk.pull c i j h) _ _ (norm_phase images q c i j)
  have h2 : ∑ c, ∑ i, ∑ j, form (B c i j) (u j) (u j) = ∑ c, ∑ i, ∑ j, form (B c i j) (u i) (u i) := by
    have e : ∀ c i j, form (B c i j) (u j) (u j) = form (B (op c) j i) (u j) (u j) := by
      intro c i j
      rw [← form_swap]
      congr 1
      funext a b
      exact (hs.exchange c (row i b) (row j a)).symm
    simp only [e]
    rw [show (∑ c, ∑ i, ∑ j, form (B (op c) j i) (u j) (u j)) = ∑ c, ∑ i, ∑ j, form (B c j i) (u j) (u j) from
      Equiv.sum_comp (⟨op, op, hs.invol, hs.invol⟩ : Equiv.Perm (Fin N)) fun c => ∑ i, ∑ j, form (B c j i) (u j) (u j)]
    exact Finset.sum_congr rfl fun c _ => Finset.sum_comm
  have h3 : 0 ≤ ∑ c, ∑ i, ∑ j, form (B c i j) (u i) (u i) := by
    have e : ∑ c, ∑ i, ∑ j, form (B c i j) (u i) (u i) =
        ∑ i, form (fun a b => ∑ c, ∑ j, d.fc c (row i a) (row j b)) (u i) (u i) := by
      rw [Finset.sum_comm]
      refine Finset.sum_congr rfl fun i _ => ?_
      rw [form_sum]
      refine Finset.sum_congr rfl fun c _ => ?_
      rw [form_sum]
    rw [e]
    refine Finset.sum_nonneg fun i _ => ?_
    rw [form_self]
    exact add_nonneg (hk.total i _) (hk.total i _)
  have h4 := Finset.sum_le_sum fun c (_ : c ∈ Finset.univ) => Finset.sum_le_sum fun i (_ : i ∈ Finset.univ) =>
    Finset.sum_le_sum fun j (_ : j ∈ Finset.univ) => h1 c i j
  simp only [Finset.sum_add_distrib, ← Finset.mul_sum] at h4
  rw [h2] at h4
  linarith

/-! ## The property -/

/-- **C145** With springs between the atoms no mode is imaginary, at any wavevector. -/
theorem C145_no_imaginary_modes {images : List (V3 ℤ)} (hok : d.Ok images) {op : Fin N → Fin N} {t : Fin N → V3 ℤ}
    (hs : Symmetric d.cells d.S d.fc op t) (hk : IsSprings d.c0 d.fc) (hm : ∀ i, 0 < d.mass i) (junk : Fin N → Mat n ℝ) (q : V3 ℝ)
    {eigh : Mat n ℂ → (Fin (n * 3) → ℝ) × Mat n ℂ} (he : IsEigh eigh) (s : Fin (n * 3)) :
    0 ≤ freqOf ((eigh (d.weighted images junk q)).1 s) := by
  have h0 : ∀ k l : Fin (n * 3), (0 : Mat n ℂ) l k = star ((0 : Mat n ℂ) k l) := by simp
  have hh : ∀ k l, d.dynMat images junk q l k = star (d.dynMat images junk q k l) := by
    intro k l
    exact C123_hermitian_partial d.cv d.r d.cells d.c0 d.S images hok.reduced.shells hok.reduced.volume hok.reduced.reduced
      hok.reduced.within hs hok.first junk q k l
  have h := C144_stiffer he hm h0 hh (dip := none) (asr := none) (loto := none) (by simp [HermOpt]) (by simp [HermOpt])
    (by simp [HermOpt]) (springs_nonneg hok hs hk junk q) s
  rw [zero_add] at h
  refine le_trans ?_ h
  have hz := C144_scaled he d.mass h0 (dip := none) (asr := none) (loto := none) (by simp [HermOpt]) (by simp [HermOpt])
    (by simp [HermOpt]) (c := 0) le_rfl s
  rw [smul_zero, Real.sqrt_zero, zero_mul] at hz
  exact hz.ge

/-- **C145** Springs that are added raise frequencies or leave them as they are, also with corrections. -/
theorem C145_springs_added {images : List (V3 ℤ)} (hok : d.Ok images) {op op' : Fin N → Fin N} {t t' : Fin N → V3 ℤ}
    (hs : Symmetric d.cells d.S d.fc op t) {fc' : Fin N → Mat n ℝ} (hs' : Symmetric d.cells d.S fc' op' t')
    (hk : IsSprings d.c0 fc') (hm : ∀ i, 0 < d.mass i) (junk junk' : Fin N → Mat n ℝ) {dip asr loto : Option (Mat n ℂ)}
    (h1 : HermOpt dip) (h2 : HermOpt asr) (h3 : HermOpt loto) (q : V3 ℝ) {eigh : Mat n ℂ → (Fin (n * 3) → ℝ) × Mat n ℂ}
    (he : IsEigh eigh) (s : Fin (n * 3)) :
    freqOf ((eigh (DynMat.weighted (massWeighting d.mass) (d.dynMat images junk q) dip asr loto)).1 s) ≤
      freqOf ((eigh (DynMat.weighted (massWeighting d.mass)
        (({ d with fc := d.fc + fc' } : Description n N).dynMat images junk' q) dip asr loto)).1 s) := by
  have hherm : ∀ fc (op : Fin N → Fin N) (t : Fin N → V3 ℤ), Symmetric d.cells d.S fc op t → ∀ k l,
      fcDynMat d.cv d.r d.cells d.c0 d.S images fc junk q l k = star (fcDynMat d.cv d.r d.cells d.c0 d.S images fc junk q k l) := by
    intro fc op t hs k l
    exact C123_hermitian_partial d.cv d.r d.cells d.c0 d.S images hok.reduced.shells hok.reduced.volume hok.reduced.reduced
      hok.reduced.within hs hok.first junk q k l
  have hok' : ({ d with fc := fc' } : Description n N).Ok images := ⟨hok.reduced, hok.first⟩
  have hp := springs_nonneg hok' hs' hk junk q
  have e := fcDynMat_linear images (mem_shells hok.reduced.shells).1 hok.reduced.volume (cv := d.cv) (r := d.r) (cells := d.cells)
    (c0 := d.c0) d.fc fc' junk' junk junk 1 q
  rw [one_smul, Complex.ofReal_one, one_smul] at e
  unfold Description.dynMat at hp ⊢
  rw [e]
  exact C144_stiffer he hm (hherm _ _ _ hs) (hherm _ _ _ hs') h1 h2 h3 hp s

end

/-! ## An example -/

/-- The chain of two kinds of atoms of `Describe.Ex` is held together by springs. -/
theorem chain_springs : IsSprings Describe.Ex.d.c0 Describe.Ex.d.fc where
  symm := by
    intro c i j _ a b
    simp only [Describe.Ex.d, row_div, row_mod]
    by_cases h : a = b
    · rw [h]
    · rw [if_neg h, if_neg (Ne.symm h)]
  pull := by
    intro c i j h x
    simp only [Describe.Ex.d, row_div, row_mod, Fin.sum_univ_three, Describe.Ex.K] at h ⊢
    have p0 := mul_self_nonneg (x 0)
    have p1 := mul_self_nonneg (x 1)
    have p2 := mul_self_nonneg (x 2)
    fin_cases c <;> fin_cases i <;> fin_cases j <;> simp at h ⊢ <;> nlinarith
  total := by
    intro i x
    simp only [Describe.Ex.d, row_div, row_mod, Fin.sum_univ_three, Fin.sum_univ_two, Describe.Ex.K]
    fin_cases i <;> simp <;> nlinarith

example (junk : Fin 2 → Mat 2 ℝ) (q : V3 ℝ) {eigh : Mat 2 ℂ → (Fin (2 * 3) → ℝ) × Mat 2 ℂ} (he : IsEigh eigh) (s : Fin (2 * 3)) :
    0 ≤ freqOf ((eigh (Describe.Ex.d.weighted shells2 junk q)).1 s) :=
  C145_no_imaginary_modes Describe.Ex.ok Describe.Ex.symmetric chain_springs
    (fun i => by fin_cases i <;> simp [Describe.Ex.d]) junk q he s

/-- All springs of this chain twice as strong. -/
example (junk junk' : Fin 2 → Mat 2 ℝ) (q : V3 ℝ) {eigh : Mat 2 ℂ → (Fin (2 * 3) → ℝ) × Mat 2 ℂ} (he : IsEigh eigh)
    (s : Fin (2 * 3)) :
    freqOf ((eigh (DynMat.weighted (massWeighting Describe.Ex.d.mass) (Describe.Ex.d.dynMat shells2 junk q) none none none)).1 s) ≤
      freqOf ((eigh (DynMat.weighted (massWeighting Describe.Ex.d.mass)
        (({ Describe.Ex.d with fc := Describe.Ex.d.fc + Describe.Ex.d.fc } : Description 2 2).dynMat shells2 junk' q)
        none none none)).1 s) :=
  C145_springs_added Describe.Ex.ok Describe.Ex.symmetric Describe.Ex.symmetric chain_springs
    (fun i => by fin_cases i <;> simp [Describe.Ex.d]) junk junk' (by simp [HermOpt]) (by simp [HermOpt]) (by simp [HermOpt]) q he s

/-- The hypotheses of `C144_force_constants_added` hold for the chain. -/
example (junk : Fin 2 → Mat 2 ℝ) (q : V3 ℝ) {eigh : Mat 2 ℂ → (Fin (2 * 3) → ℝ) × Mat 2 ℂ} (he : IsEigh eigh)
    (s : Fin (2 * 3)) :
    freqs eigh Describe.Ex.d.mass (fcDynMat Describe.Ex.d.cv Describe.Ex.d.r Describe.Ex.d.cells Describe.Ex.d.c0 Describe.Ex.d.S
      shells2 Describe.Ex.d.fc junk q) none none none s ≤
    freqs eigh Describe.Ex.d.mass (fcDynMat Describe.Ex.d.cv Describe.Ex.d.r Describe.Ex.d.cells Describe.Ex.d.c0 Describe.Ex.d.S
      shells2 (Describe.Ex.d.fc + Describe.Ex.d.fc) junk q) none none none s := by
  have hok := Describe.Ex.ok
  have hm : ∀ i, 0 < Describe.Ex.d.mass i := fun i => by fin_cases i <;> simp [Describe.Ex.d]
  refine C144_force_constants_added he hm shells2 (mem_shells hok.reduced.shells).1 ?_ hok.reduced.volume hok.first
    Describe.Ex.symmetric Describe.Ex.symmetric junk junk junk (by simp [HermOpt]) (by simp [HermOpt]) (by simp [HermOpt]) q
    (fun s => C145_no_imaginary_modes hok Describe.Ex.symmetric chain_springs hm junk q he s) s
  intro c i j m hm
  obtain ⟨L, -, -, hall, -, -⟩ := C123_nearest_partial Describe.Ex.d.cv Describe.Ex.d.r Describe.Ex.d.cells Describe.Ex.d.c0
    Describe.Ex.d.S shells2 hok.reduced.shells hok.reduced.volume hok.reduced.reduced c i j (hok.reduced.within _ _ _)
  obtain ⟨m', -, he⟩ := (hall m).1 ((nearestOfAll_iff hok.reduced.reduced hok.reduced.volume _).1 hm)
  exact List.mem_of_getElem? he

end Euphonic.Springs
