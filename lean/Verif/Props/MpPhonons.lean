import Verif.Props.MpMean

/-!
# Phonons on Monkhorst-Pack grids (C155, C156)

Any average of frequencies over a grid of wavevectors approaches the average over the zone; the average of the squared
frequencies is exact as soon as the grid is finer than the supercell: it is the force that holds an atom in its place, over its
mass.
-/

set_option autoImplicit false
set_option linter.unusedSectionVars false

namespace Euphonic.Describe

open Euphonic.Lattice Euphonic.Supercell Euphonic.Phases Euphonic.Images Euphonic.DynMat Euphonic.Stability Euphonic.Sampling
  Euphonic.Reduced

variable {n N : Nat}

/-! ## Averages of frequencies -/

theorem Description.complete (d : Description n N) {images : List (V3 ℤ)} (hok : d.Ok images) :
    Complete d.cv d.r d.cells d.c0 d.S images := by
  intro c i j m hm
  obtain ⟨L, -, -, hall, -, -⟩ := C123_nearest_partial d.cv d.r d.cells d.c0 d.S images hok.reduced.shells hok.reduced.volume
    hok.reduced.reduced c i j (hok.reduced.within _ _ _)
  obtain ⟨k, -, hk⟩ := (hall m).1 ((nearestOfAll_iff hok.reduced.reduced hok.reduced.volume _).1 hm)
  exact List.mem_of_getElem? hk

/-- The frequencies at a wavevector. -/
noncomputable def Description.freqs (d : Description n N) (images : List (V3 ℤ)) (junk : Fin N → Mat n ℝ)
    (eigh : Mat n ℂ → (Fin (n * 3) → ℝ) × Mat n ℂ) (q : V3 ℝ) (s : Fin (n * 3)) : ℝ :=
  freqOf ((eigh (d.weighted images junk q)).1 s)

/-- **C155**: every average over a Monkhorst-Pack grid of a quantity that depends continuously on the frequencies - a mean energy, a
heat capacity, a density of states with a given broadening - approaches the average over the zone. -/
theorem C155_frequencies (d : Description n N) {images : List (V3 ℤ)} (hok : d.Ok images) {op : Fin N → Fin N} {t : Fin N → V3 ℤ}
    (hs : Symmetric d.cells d.S d.fc op t) (junk : Fin N → Mat n ℝ) {eigh : Mat n ℂ → (Fin (n * 3) → ℝ) × Mat n ℂ}
    (he : IsEigh eigh) (F : (Fin (n * 3) → ℝ) → ℝ) (hF : Continuous F) {ε : ℝ} (hε : 0 < ε) :
    ∃ n0 : Nat, ∀ l m k, n0 ≤ l → n0 ≤ m → n0 ≤ k → ∃ g, mpGrid ℝ l m k = .ok g ∧
      |meanOver g (fun q => F (d.freqs images junk eigh q)) - zoneAverage fun q => F (d.freqs images junk eigh q)| < ε := by
  refine C155_converges ?_ hε
  refine hF.comp (continuous_pi fun s => ?_)
  exact C133_continuous d.cv d.r d.cells d.c0 d.S d.mass images (mem_shells hok.reduced.shells).1 (d.complete hok)
    hok.reduced.volume hok.first hs junk (asr := none) (by simp [HermOpt]) he s (fun p : ℝ × ℝ × ℝ => ⟨p.1, p.2.1, p.2.2⟩)
    (by fun_prop) (by fun_prop) (by fun_prop)

/-! ## The second moment -/

/-- No cell with a nearest copy of an atom is a multiple of the numbers of points of the grid away from it. -/
def Description.FinerGrid (d : Description n N) (l m k : Nat) : Prop :=
  ∀ c i L, d.IsNearestCopy c i i L → (l : ℤ) ∣ L.x ∧ (m : ℤ) ∣ L.y ∧ (k : ℤ) ∣ L.z → L = ⟨0, 0, 0⟩

/-- The squared frequency, negative if the frequency is imaginary. -/
noncomputable def signedSquare (w : ℝ) : ℝ := w * |w|

theorem signedSquare_freqOf (e : ℝ) : signedSquare (freqOf e) = e := by
  unfold signedSquare freqOf
  split_ifs with h
  · rw [abs_mul, abs_of_nonneg (Real.sqrt_nonneg _)]
    have := Real.mul_self_sqrt (abs_nonneg e)
    rw [abs_of_neg h] at this ⊢
    norm_num
    linarith
  · rw [abs_of_nonneg (Real.sqrt_nonneg _), Real.mul_self_sqrt (abs_nonneg e), abs_of_nonneg (not_lt.1 h)]

theorem volume_cv (d : Description n N) {images : List (V3 ℤ)} (hok : d.Ok images) : cellVolume d.cv ≠ 0 := by
  intro h
  have := hok.reduced.volume
  rw [volume_scVecs, h] at this
  simp at this

theorem sq_pos_cv (d : Description n N) {images : List (V3 ℤ)} (hok : d.Ok images) {L : V3 ℤ} (hL : L ≠ ⟨0, 0, 0⟩) :
    0 < Images.sq (toCart d.cv (castV ℝ L)) := by
  have := sq_pos_of_volume d.cv (volume_cv d hok) L.x L.y L.z
  simp only [castV]
  refine this ?_
  intro h
  apply hL
  simp only [Prod.mk.injEq] at h
  exact V3.ext' h.1 h.2.1 h.2.2

/-- The nearest copy of an atom is the atom itself. -/
theorem nearest_self (d : Description n N) {images : List (V3 ℤ)} (hok : d.Ok images) (hd : DistinctCells d.S d.cells)
    (c : Fin N) (i : Fin n) : d.IsNearestCopy c i i ⟨0, 0, 0⟩ ↔ c = d.c0 := by
  constructor
  · rintro ⟨h, -⟩
    refine (hd d.c0 c ?_).symm
    rw [hok.first]
    exact h
  · rintro rfl
    refine ⟨?_, fun v _ => ?_⟩
    · rw [hok.first]
      exact ⟨⟨0, 0, 0⟩, by simp [sub, mulMat]⟩
    · have e1 : toCart d.cv (sub (sub (d.r i) (d.r i)) (castV ℝ ⟨0, 0, 0⟩)) = ⟨0, 0, 0⟩ := by
        simp [toCart, sub, castV]
      rw [e1]
      have e2 : Images.sq (⟨0, 0, 0⟩ : V3 ℝ) = 0 := by simp [Images.sq, dot]
      rw [e2]
      have h1 : 0 ≤ Images.sq (sub ⟨0, 0, 0⟩ (toCart d.cv (castV ℝ v))) := by
        simp only [Images.sq, dot]; nlinarith [sq_nonneg (sub ⟨0, 0, 0⟩ (toCart d.cv (castV ℝ v))).x,
          sq_nonneg (sub ⟨0, 0, 0⟩ (toCart d.cv (castV ℝ v))).y, sq_nonneg (sub ⟨0, 0, 0⟩ (toCart d.cv (castV ℝ v))).z]
      have h2 : 0 ≤ Images.sq (toCart d.cv (castV ℝ v)) := by
        simp only [Images.sq, dot]; nlinarith [sq_nonneg (toCart d.cv (castV ℝ v)).x,
          sq_nonneg (toCart d.cv (castV ℝ v)).y, sq_nonneg (toCart d.cv (castV ℝ v)).z]
      linarith

theorem copies_self (d : Description n N) {images : List (V3 ℤ)} (hok : d.Ok images) (hd : DistinctCells d.S d.cells) (i : Fin n) :
    d.copies images d.c0 i i = {⟨0, 0, 0⟩} := by
  ext L
  rw [mem_copies d hok, Finset.mem_singleton]
  constructor
  · rintro ⟨h1, h2⟩
    by_contra hL
    have hp := sq_pos_cv d hok hL
    rw [hok.first] at h1
    have h1' : InLattice d.S (DynMat.neg L) := by
      obtain ⟨m, hm⟩ := h1
      refine ⟨DynMat.neg m, ?_⟩
      simp only [sub, mulMat, DynMat.neg, V3.mk.injEq] at hm ⊢
      obtain ⟨a, b, c⟩ := hm
      refine ⟨?_, ?_, ?_⟩ <;> linarith
    have h3 := h2 (DynMat.neg L) h1'
    have e1 : toCart d.cv (sub (sub (d.r i) (d.r i)) (castV ℝ L)) = toCart d.cv (castV ℝ (DynMat.neg L)) := by
      simp only [toCart, sub, castV, DynMat.neg, V3.mk.injEq]
      push_cast
      refine ⟨?_, ?_, ?_⟩ <;> ring
    have e2 : Images.sq (toCart d.cv (castV ℝ (DynMat.neg L))) = Images.sq (toCart d.cv (castV ℝ L)) := by
      simp only [Images.sq, dot, toCart, castV, DynMat.neg]
      push_cast
      ring
    rw [e1, e2] at h3
    have e3 : Images.sq (sub (toCart d.cv (castV ℝ (DynMat.neg L))) (toCart d.cv (castV ℝ (DynMat.neg L)))) = 0 := by
      simp [Images.sq, dot, sub]
    rw [e3] at h3
    linarith
  · rintro rfl
    exact (nearest_self d hok hd d.c0 i).2 rfl

theorem list_sum_comm {ι α : Type} (s : Finset ι) (g : List α) (f : α → ι → ℂ) :
    (g.map fun q => ∑ c ∈ s, f q c).sum = ∑ c ∈ s, (g.map fun q => f q c).sum := by
  induction g with
  | nil => simp
  | cons x g ih => simp only [List.map_cons, List.sum_cons, Finset.sum_add_distrib, ih]

theorem sum_dynMat (d : Description n N) {images : List (V3 ℤ)} (hok : d.Ok images) (hd : DistinctCells d.S d.cells)
    (junk : Fin N → Mat n ℝ) {l m k : Nat} (hl : 0 < l) (hm : 0 < m) (hk : 0 < k) (hfine : d.FinerGrid l m k) {g : List (V3 ℝ)}
    (hg : mpGrid ℝ l m k = .ok g) (a b : Fin (n * 3)) (hab : a.divNat = b.divNat) :
    (g.map fun q => d.dynMat images junk q a b).sum = g.length * (d.fc d.c0 a b : ℂ) := by
  classical
  have e1 : ∀ q, d.dynMat images junk q a b = ∑ c, (d.fc c a b : ℂ) / ((d.copies images c a.divNat a.divNat).card : ℂ) *
      ∑ L ∈ d.copies images c a.divNat a.divNat, expQR q L := by
    intro q
    rw [dynMat_copies d hok, hab]
  have e2 : ∀ c, ∑ L ∈ d.copies images c a.divNat a.divNat, (g.map fun q => expQR q L).sum =
      if c = d.c0 then (g.length : ℂ) else 0 := by
    intro c
    have e3 : ∀ L ∈ d.copies images c a.divNat a.divNat, (g.map fun q => expQR q L).sum =
        if L = ⟨0, 0, 0⟩ then (g.length : ℂ) else 0 := by
      intro L hL
      rw [C155_waves hl hm hk hg]
      by_cases h0 : L = ⟨0, 0, 0⟩
      · subst h0
        simp
      · rw [if_neg h0, if_neg fun h => h0 (hfine c _ L ((mem_copies d hok _ _ _ _).1 hL) h)]
    rw [Finset.sum_congr rfl e3, Finset.sum_ite_eq']
    simp only [mem_copies d hok, nearest_self d hok hd]
  rw [List.map_congr_left fun q _ => e1 q, list_sum_comm]
  have e4 : ∀ c, (g.map fun q => (d.fc c a b : ℂ) / ((d.copies images c a.divNat a.divNat).card : ℂ) *
      ∑ L ∈ d.copies images c a.divNat a.divNat, expQR q L).sum = if c = d.c0 then g.length * (d.fc d.c0 a b : ℂ) else 0 := by
    intro c
    rw [List.sum_map_mul_left, list_sum_comm, e2]
    split_ifs with h
    · subst h
      rw [copies_self d hok hd]
      simp [mul_comm]
    · simp
  rw [Finset.sum_congr rfl fun c _ => e4 c, Finset.sum_ite_eq', if_pos (Finset.mem_univ _)]

/-- **C156**: the squared frequencies on a grid finer than the supercell, weighted with the displacements of an atom in the
directions `a` and `b`, have the mean `Phi_ab / m`: the force on the atom in direction `a` when it alone is displaced in direction
`b`, over its mass. -/
theorem C156_atom (d : Description n N) {images : List (V3 ℤ)} (hok : d.Ok images) (hd : DistinctCells d.S d.cells)
    {op : Fin N → Fin N} {t : Fin N → V3 ℤ} (hs : Symmetric d.cells d.S d.fc op t) (hmass : ∀ i, 0 < d.mass i)
    (junk : Fin N → Mat n ℝ) {l m k : Nat} (hl : 0 < l) (hm : 0 < m) (hk : 0 < k) (hfine : d.FinerGrid l m k) {g : List (V3 ℝ)}
    (hg : mpGrid ℝ l m k = .ok g) {eigh : Mat n ℂ → (Fin (n * 3) → ℝ) × Mat n ℂ} (he : IsEigh eigh) (i : Fin n) (a b : Fin 3) :
    (g.map fun q => ∑ s, (eigh (d.weighted images junk q)).2 s (row i a) * signedSquare (d.freqs images junk eigh q s) *
      star ((eigh (d.weighted images junk q)).2 s (row i b))).sum / g.length =
      ((d.fc d.c0 (row i a) (row i b) / d.mass i : ℝ) : ℂ) := by
  have hlen : (g.length : ℂ) ≠ 0 := by
    rw [length_mpGrid hg]
    exact_mod_cast (Nat.mul_pos (Nat.mul_pos hl hm) hk).ne'
  have e1 : ∀ q, ∑ s, (eigh (d.weighted images junk q)).2 s (row i a) * signedSquare (d.freqs images junk eigh q s) *
      star ((eigh (d.weighted images junk q)).2 s (row i b)) =
      d.dynMat images junk q (row i a) (row i b) * ((1 / d.mass i : ℝ) : ℂ) := by
    intro q
    simp only [Description.freqs, signedSquare_freqOf]
    rw [← decompose he _ (fun k l => d.hermitian hok hs junk q k l)]
    simp only [Description.weighted, DynMat.weighted, massWeighting, row_div]
    rw [Real.sqrt_mul_self (hmass i).le]
  rw [List.map_congr_left fun q _ => e1 q, List.sum_map_mul_right,
    sum_dynMat d hok hd junk hl hm hk hfine hg _ _ (by rw [row_div, row_div]), div_eq_iff hlen]
  push_cast
  ring

/-- **C156**: on a grid finer than the supercell the mean of the sum of the squared frequencies is the sum of `Phi_aa / m` over all
atoms and directions, whatever the forces between different atoms are. -/
theorem C156_total (d : Description n N) {images : List (V3 ℤ)} (hok : d.Ok images) (hd : DistinctCells d.S d.cells)
    {op : Fin N → Fin N} {t : Fin N → V3 ℤ} (hs : Symmetric d.cells d.S d.fc op t) (hmass : ∀ i, 0 < d.mass i)
    (junk : Fin N → Mat n ℝ) {l m k : Nat} (hl : 0 < l) (hm : 0 < m) (hk : 0 < k) (hfine : d.FinerGrid l m k) {g : List (V3 ℝ)}
    (hg : mpGrid ℝ l m k = .ok g) {eigh : Mat n ℂ → (Fin (n * 3) → ℝ) × Mat n ℂ} (he : IsEigh eigh) :
    meanOver g (fun q => ∑ s, signedSquare (d.freqs images junk eigh q s)) =
      ∑ i, ∑ a, d.fc d.c0 (row i a) (row i a) / d.mass i := by
  have hlen : (g.length : ℝ) ≠ 0 := by
    rw [length_mpGrid hg]
    exact_mod_cast (Nat.mul_pos (Nat.mul_pos hl hm) hk).ne'
  have e1 : ∀ q, ((∑ s, signedSquare (d.freqs images junk eigh q s) : ℝ) : ℂ) =
      ∑ j : Fin (n * 3), d.dynMat images junk q j j * ((1 / d.mass j.divNat : ℝ) : ℂ) := by
    intro q
    simp only [Description.freqs, signedSquare_freqOf]
    push_cast
    rw [trace_eq he _ (fun k l => d.hermitian hok hs junk q k l)]
    refine Finset.sum_congr rfl fun j _ => ?_
    simp only [Description.weighted, DynMat.weighted, massWeighting]
    rw [Real.sqrt_mul_self (hmass _).le]
    push_cast
    rfl
  have e2 : (((g.map fun q => ∑ s, signedSquare (d.freqs images junk eigh q s)).sum : ℝ) : ℂ) =
      ((g.length * ∑ j : Fin (n * 3), d.fc d.c0 j j / d.mass j.divNat : ℝ) : ℂ) := by
    have e3 : (((g.map fun q => ∑ s, signedSquare (d.freqs images junk eigh q s)).sum : ℝ) : ℂ) =
        (g.map fun q => ((∑ s, signedSquare (d.freqs images junk eigh q s) : ℝ) : ℂ)).sum := by
      clear hg hlen
      induction g with
      | nil => simp
      | cons x g ih => rw [List.map_cons, List.sum_cons, List.map_cons, List.sum_cons, Complex.ofReal_add, ih]
    rw [e3, List.map_congr_left fun q _ => e1 q, list_sum_comm]
    push_cast
    rw [Finset.mul_sum]
    refine Finset.sum_congr rfl fun j _ => ?_
    rw [List.sum_map_mul_right, sum_dynMat d hok hd junk hl hm hk hfine hg _ _ rfl]
    ring
  have e4 := Complex.ofReal_injective e2
  rw [meanOver, e4, mul_div_cancel_left₀ _ hlen, ← Equiv.sum_comp finProdFinEquiv, Fintype.sum_prod_type]
  refine Finset.sum_congr rfl fun i _ => Finset.sum_congr rfl fun a _ => ?_
  change d.fc d.c0 (row i a) (row i a) / d.mass (row i a).divNat = _
  rw [row_div]

/-! ### Cases meeting the hypotheses -/

namespace Ex

theorem finer : d.FinerGrid 2 3 1 := by
  intro c i L hL h
  have key : ∀ v : V3 ℤ, InLattice d.S v → (L.x : ℝ) ^ 2 + L.y ^ 2 + L.z ^ 2 ≤
      (L.x + v.x) ^ 2 + (L.y + v.y) ^ 2 + (L.z + v.z) ^ 2 + 1 / 500 * (v.x ^ 2 + v.y ^ 2 + v.z ^ 2) := by
    intro v hv
    have := hL.2 v hv
    simp only [Images.sq, dot, toCart, sub, castV, d, DynMat.Ex.cv] at this
    ring_nf at this ⊢
    linarith
  have lat : ∀ a b c : ℤ, InLattice d.S ⟨2 * a, b, c⟩ := fun a b c => ⟨⟨a, b, c⟩, by simp [mulMat, d, DynMat.Ex.S, mul_comm]⟩
  have x1 := key _ (lat 1 0 0)
  have x2 := key _ (lat (-1) 0 0)
  have y1 := key _ (lat 0 1 0)
  have y2 := key _ (lat 0 (-1) 0)
  have z1 := key _ (lat 0 0 1)
  have z2 := key _ (lat 0 0 (-1))
  push_cast at x1 x2 y1 y2 z1 z2
  have hy1 : (-1 : ℝ) < L.y := by linarith
  have hy2 : (L.y : ℝ) < 1 := by linarith
  have hz1 : (-1 : ℝ) < L.z := by linarith
  have hz2 : (L.z : ℝ) < 1 := by linarith
  have hx1 : (-2 : ℝ) < L.x := by linarith
  have hx2 : (L.x : ℝ) < 2 := by linarith
  have hy1' : -1 < L.y := by exact_mod_cast hy1
  have hy2' : L.y < 1 := by exact_mod_cast hy2
  have hz1' : -1 < L.z := by exact_mod_cast hz1
  have hz2' : L.z < 1 := by exact_mod_cast hz2
  have hx1' : -2 < L.x := by exact_mod_cast hx1
  have hx2' : L.x < 2 := by exact_mod_cast hx2
  obtain ⟨⟨a, ha⟩, -, -⟩ := h
  exact V3.ext' (show L.x = 0 by push_cast at ha; omega) (show L.y = 0 by omega) (show L.z = 0 by omega)

theorem distinct : DistinctCells d.S d.cells := Commensurate.Chain.distinct

/-- The squared frequencies of the chain on the grid 2x3x1 have the mean sum `4 (3 + 1 + 1) (1 + 1/3)`. -/
example (junk : Fin 2 → Mat 2 ℝ) {eigh : Mat 2 ℂ → (Fin (2 * 3) → ℝ) × Mat 2 ℂ} (he : IsEigh eigh) :
    ∃ g, mpGrid ℝ 2 3 1 = .ok g ∧ meanOver g (fun q => ∑ s, signedSquare (d.freqs shells2 junk eigh q s)) = 80 / 3 := by
  refine ⟨_, mpGrid_eq 2 3 1, ?_⟩
  rw [C156_total d ok distinct symmetric (fun i => by fin_cases i <;> simp [d]) junk (by norm_num) (by norm_num) (by norm_num)
    finer (mpGrid_eq 2 3 1) he]
  simp only [Fin.sum_univ_two, Fin.sum_univ_three]
  simp [d, row_mod, K]
  norm_num

/-- The heavier atom alone, along the chain: `4 * 3 / 3`. -/
example (junk : Fin 2 → Mat 2 ℝ) {eigh : Mat 2 ℂ → (Fin (2 * 3) → ℝ) × Mat 2 ℂ} (he : IsEigh eigh) :
    ∃ g, mpGrid ℝ 2 3 1 = .ok g ∧
      (g.map fun q => ∑ s, (eigh (d.weighted shells2 junk q)).2 s (row 1 0) * signedSquare (d.freqs shells2 junk eigh q s) *
        star ((eigh (d.weighted shells2 junk q)).2 s (row 1 0))).sum / g.length = ((4 : ℝ) : ℂ) := by
  refine ⟨_, mpGrid_eq 2 3 1, ?_⟩
  rw [C156_atom d ok distinct symmetric (fun i => by fin_cases i <;> simp [d]) junk (by norm_num) (by norm_num) (by norm_num)
    finer (mpGrid_eq 2 3 1) he]
  congr 1
  simp [d, row_mod, K]

/-- The zero-point energy of the chain on a grid approaches that of the zone. -/
example (junk : Fin 2 → Mat 2 ℝ) {eigh : Mat 2 ℂ → (Fin (2 * 3) → ℝ) × Mat 2 ℂ} (he : IsEigh eigh) :
    ∃ n0 : Nat, ∀ l m k, n0 ≤ l → n0 ≤ m → n0 ≤ k → ∃ g, mpGrid ℝ l m k = .ok g ∧
      |meanOver g (fun q => ∑ s, d.freqs shells2 junk eigh q s / 2) - zoneAverage fun q => ∑ s, d.freqs shells2 junk eigh q s / 2|
        < 1 / 1000 :=
  C155_frequencies d ok symmetric junk he (fun w => ∑ s, w s / 2) (by fun_prop) (by norm_num)

end Ex

end Euphonic.Describe
