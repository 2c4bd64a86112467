import Verif.Model.DwCli
import Verif.Props.Scatter
import Verif.Props.Sqw
import Verif.Props.PowderSample
import Verif.Props.DebyeGrid

/-!
# C161: the tools use the Debye-Waller factor of the grid and temperature asked for
-/

set_option autoImplicit false

namespace Euphonic.DwCli

open Euphonic.Lattice Euphonic.Scatter

variable {na : Nat}

/-! ## Specification -/

/-- The numbers of divisions asked for: those of `--grid`, otherwise the smallest ones with parts no longer than
`--grid-spacing`. -/
def GridAsked (cell : M3 ℝ) (a : Args) (l m n : ℕ) : Prop :=
  match a.grid with
  | some g => g = ((l : ℤ), (m : ℤ), (n : ℤ))
  | none =>
    let r := reciprocalCell (2 * Real.pi) cell
    SmallestDivision (a.conv * norm3 r.a) a.gridSpacing l ∧ SmallestDivision (a.conv * norm3 r.b) a.gridSpacing m
      ∧ SmallestDivision (a.conv * norm3 r.c) a.gridSpacing n

/-- The options ask for a grid that has points. -/
def Sensible (cell : M3 ℝ) (a : Args) : Prop :=
  match a.grid with
  | some g => 0 < g.1 ∧ 0 < g.2.1 ∧ 0 < g.2.2
  | none => 0 < a.conv ∧ 0 < a.gridSpacing ∧ cellVolume cell ≠ 0

/-- The points of a Monkhorst-Pack grid, each of them once. -/
def IsGrid (G : List (V3 ℝ)) (l m n : ℕ) : Prop :=
  G.Nodup ∧ ∀ q : V3 ℝ, q ∈ G ↔ ∃ i j k, 1 ≤ i ∧ i ≤ l ∧ 1 ≤ j ∧ j ≤ m ∧ 1 ≤ k ∧ k ≤ n ∧
    q = ⟨(2 * (i : ℝ) - l - 1) / (2 * l), (2 * (j : ℝ) - m - 1) / (2 * m), (2 * (k : ℝ) - n - 1) / (2 * n)⟩

/-- The mean square amplitude of a mode of energy `w`, up to a factor: `coth(w/2kT)/w`; modes below `fmin` are left out. -/
noncomputable def amplitude (kB T fmin w : ℝ) : ℝ :=
  if w < fmin then 0 else if 0 < T then 1 / (w * Real.tanh (w / (2 * kB * T))) else 1 / w

/-- The tensor of atom `k`, from the mean over the grid. -/
noncomputable def tensor (f : Fc na) (kB T fmin : ℝ) (G : List (V3 ℝ)) (k : Fin na) (x y : Fin 3) : ℝ :=
  (G.map fun q => ∑ j, amplitude kB T fmin (f.freqs q j) * (f.evecs q j k x * (starRingEnd ℂ) (f.evecs q j k y)).re).sum
    / (4 * f.cryst.mass k) / G.length

/-- The mean over the symmetry operations of the tensors that atoms carried to `k` have before they are rotated. -/
noncomputable def symTensor (f : Fc na) (p : Fin f.sym.length → Equiv.Perm (Fin na)) (w : Fin na → Fin 3 → Fin 3 → ℝ)
    (k : Fin na) (x y : Fin 3) : ℝ :=
  (∑ s, ∑ x', ∑ y', f.sym[s].rot x x' * w ((p s).symm k) x' y' * f.sym[s].rot y y') / f.sym.length

/-- The wavevector in Cartesian coordinates. -/
def cart (f : Fc na) (q : V3 ℝ) (x : Fin 3) : ℝ := q.x * f.cryst.recip 0 x + q.y * f.cryst.recip 1 x + q.z * f.cryst.recip 2 x

/-- `W` are the Debye-Waller exponents that the options ask for: none without a temperature, otherwise those of the grid asked
for at that temperature. -/
def Asked (s : Settings) (f : Fc na) (p : Fin f.sym.length → Equiv.Perm (Fin na)) (a : Args)
    (W : Fin na → V3 ℝ → ℝ) : Prop :=
  match a.temperature with
  | none => ∀ k q, W k q = 0
  | some T => ∃ l m n G, GridAsked f.cell a l m n ∧ IsGrid G l m n ∧ ∀ k q, W k q =
      ∑ x, ∑ y, symTensor f p (tensor f s.kB T s.fmin G) k x y * cart f q x * cart f q y

/-- The one-phonon structure factor of a mode, for scattering lengths `b` and exponents `W`. -/
noncomputable def onePhonon (f : Fc na) (b : Fin na → ℂ) (W : Fin na → V3 ℝ → ℝ) (q : V3 ℝ) (j : Fin (3 * na)) : ℝ :=
  ‖∑ k, (∑ x, (starRingEnd ℂ) (f.evecs q j k x) * (cart f q x : ℂ)) *
      Complex.exp (Complex.I * 2 * Real.pi * (q.x * f.cryst.atomR k 0 + q.y * f.cryst.atomR k 1 + q.z * f.cryst.atomR k 2 : ℝ)) *
      (Real.exp (-W k q) : ℂ) * b k / (Real.sqrt (f.cryst.mass k) : ℂ)‖ ^ 2 / |f.freqs q j| / (2 * na)

/-- What a mode puts into bin `i`: at its energy and at the opposite one, with the population factors of the temperature. -/
noncomputable def binned (kB c : ℝ) (T : Option ℝ) (bins : List ℝ) (i : Nat) (w S : ℝ) : ℝ :=
  (if Dos.InBin bins i (w / c) then PowderSample.loss kB T w * S else 0) +
    if Dos.InBin bins i (-(w / c)) then PowderSample.gain kB T w * S else 0

/-! ## The Debye-Waller object -/

theorem grid_asked (cell : M3 ℝ) (a : Args) (h : Sensible cell a) :
    ∃ l m n : ℕ, gridSpecFromArgs cell a = ((l : ℤ), (m : ℤ), (n : ℤ)) ∧ 0 < l ∧ 0 < m ∧ 0 < n ∧ GridAsked cell a l m n := by
  unfold Sensible at h
  unfold gridSpecFromArgs GridAsked
  cases hg : a.grid with
  | some g =>
    rw [hg] at h
    obtain ⟨x, y, z⟩ := g
    obtain ⟨h1, h2, h3⟩ := h
    dsimp only at h1 h2 h3 ⊢
    refine ⟨x.toNat, y.toNat, z.toNat, ?_, by omega, by omega, by omega, ?_⟩ <;>
      (rw [Int.toNat_of_nonneg h1.le, Int.toNat_of_nonneg h2.le, Int.toNat_of_nonneg h3.le])
  | none =>
    rw [hg] at h
    obtain ⟨h1, h2, h3⟩ := h
    have := C32_grid_spec (2 * Real.pi) a.conv a.gridSpacing cell (by positivity) h1 h2 h3
    dsimp only at this ⊢
    generalize mpGridSpec (2 * Real.pi) a.conv a.gridSpacing cell = g at this ⊢
    obtain ⟨x, y, z⟩ := g
    obtain ⟨e1, e2, e3⟩ := this
    have p1 := e1.1
    have p2 := e2.1
    have p3 := e3.1
    dsimp only at p1 p2 p3 e1 e2 e3
    refine ⟨x.toNat, y.toNat, z.toNat, ?_, by omega, by omega, by omega, ?_⟩
    · rw [Int.toNat_of_nonneg p1.le, Int.toNat_of_nonneg p2.le, Int.toNat_of_nonneg p3.le]
    · rw [Int.toNat_of_nonneg p1.le, Int.toNat_of_nonneg p2.le, Int.toNat_of_nonneg p3.le]
      exact ⟨e1, e2, e3⟩

theorem freqTerm_eq (kB T fmin w : ℝ) : freqTerm kB T fmin w = amplitude kB T fmin w := by
  unfold freqTerm amplitude
  split_ifs <;> simp

theorem raw_tensor (s : Settings) (hc : 0 < s.chunk) (f : Fc na) (T : ℝ) (G : List (V3 ℝ)) (hG : 0 < G.length) (k : Fin na)
    (x y : Fin 3) : dwRaw s.chunk (modesAt f G) s.kB T s.fmin k x y = tensor f s.kB T s.fmin G k x y := by
  have hG' : (G.length : ℝ) ≠ 0 := by exact_mod_cast hG.ne'
  unfold dwRaw tensor
  rw [C28_chunking_irrelevant _ hc, ← Fin.sum_univ_def]
  have h1 : ∑ q, (modesAt f G).weights q = 1 := by
    simp only [modesAt, Dos.defaultWeights, Finset.sum_const, Finset.card_univ, Fintype.card_fin, nsmul_eq_mul]
    field_simp
  rw [h1, div_one, ← PowderSample.sum_fin_list, Finset.sum_div, Finset.sum_div]
  refine Finset.sum_congr rfl fun q _ => ?_
  simp only [dwContribution, modesAt, Dos.defaultWeights, freqTerm_eq, Finset.sum_div]
  refine Finset.sum_congr rfl fun j _ => ?_
  rw [one_div, one_div]
  simp only [div_eq_mul_inv]
  ring

/-- **C161**. The exponents of `--temperature`: those of all points of the grid asked for, each once, at that temperature. -/
theorem C161_debye_waller (s : Settings) (hc : 0 < s.chunk) (f : Fc na) (p : Fin f.sym.length → Equiv.Perm (Fin na))
    (hp : ∀ t i, f.sym[t].eqAtoms i = p t i) (a : Args) (hs : Sensible f.cell a) (T : ℝ) :
    ∃ l m n G, GridAsked f.cell a l m n ∧ IsGrid G l m n ∧ G.length = l * m * n ∧
      getDebyeWaller s f a T = .ok ⟨na, symTensor f p (tensor f s.kB T s.fmin G), T⟩ := by
  obtain ⟨l, m, n, h1, pl, pm, pn, h2⟩ := grid_asked f.cell a hs
  obtain ⟨G, g1, g2, g3, g4⟩ := C31_grid_complete (K := ℝ) l m n
  refine ⟨l, m, n, G, h2, ⟨g3, g4⟩, g2, ?_⟩
  have hpos : 0 < G.length := by rw [g2]; positivity
  unfold getDebyeWaller
  simp only [h1, Int.toNat_natCast, g1, bind, Except.bind, pure, Except.pure]
  congr 1
  unfold calculateDebyeWaller
  dsimp only
  congr 1
  funext k x y
  rw [DebyeSym.foldl_perm _ f.sym p hp, zero_add]
  unfold symTensor
  congr 1
  refine Finset.sum_congr rfl fun t _ => ?_
  unfold rotate
  simp only [raw_tensor s hc f T G hpos]

/-! ## The structure factor -/

theorem cartQ_eq (f : Fc na) (l : List (V3 ℝ)) (q : Fin l.length) (x : Fin 3) : cartQ (modesAt f l) q x = cart f l[q] x := by
  unfold cartQ cart
  rw [Fin.sum_univ_three]
  rfl

theorem sf_eq (f : Fc na) (l : List (V3 ℝ)) (b : Fin na → ℂ) (W : Fin na → V3 ℝ → ℝ) (q : Fin l.length) (j : Fin (3 * na)) :
    sfValue na (sfTerm (modesAt f l) b (fun q k => Real.exp (-W k l[q])) q j) ((modesAt f l).freqs q j) =
      onePhonon f b W l[q] j := by
  unfold sfValue onePhonon
  rw [norm_mul, RCLike.norm_conj, ← pow_two]
  congr 4
  unfold sfTerm
  refine Finset.sum_congr rfl fun k _ => ?_
  unfold evecDotQ expFactor
  rw [Fin.sum_univ_three (fun j => (modesAt f l).qpts q j * f.cryst.atomR k j)]
  simp only [cartQ_eq]
  have : (modesAt f l).evecs q j k = f.evecs l[q] j k := rfl
  rw [this, show (modesAt f l).qpts q 0 = l[q].x from rfl, show (modesAt f l).qpts q 1 = l[q].y from rfl,
    show (modesAt f l).qpts q 2 = l[q].z from rfl]
  ring

/-- The structure factor with what the options ask for. -/
theorem structure_factor (s : Settings) (hc : 0 < s.chunk) (f : Fc na) (p : Fin f.sym.length → Equiv.Perm (Fin na))
    (hp : ∀ t i, f.sym[t].eqAtoms i = p t i) (a : Args) (hs : a.temperature.isSome → Sensible f.cell a)
    (data : String → Option ℂ) (b : Fin na → ℂ) (hb : ∀ k, data (f.cryst.atomType k) = some (b k)) :
    ∃ W dw, Asked s f p a W ∧ dwOf s f a = .ok dw ∧ dw.map (·.temperature) = a.temperature ∧
      ∀ l : List (V3 ℝ), calculateStructureFactor (modesAt f l) data dw =
        .ok ⟨fun q => f.freqs l[q], fun q j => onePhonon f b W l[q] j, Dos.defaultWeights l.length, a.temperature⟩ := by
  have hl : lookupAll data f.cryst.atomType = .ok b := by
    unfold lookupAll
    rw [if_pos fun k => by rw [hb k]; rfl]
    congr 1
    funext k
    rw [hb k]; rfl
  cases hT : a.temperature with
  | none =>
    refine ⟨fun _ _ => 0, none, by simp [Asked, hT], by simp [dwOf, hT], by simp, fun l => ?_⟩
    unfold calculateStructureFactor
    simp only [hl, dwFactors, bind, Except.bind, pure, Except.pure, Option.map_none]
    congr 2
    funext q j
    rw [← sf_eq]
    simp
  | some T =>
    obtain ⟨l, m, n, G, h1, h2, -, h3⟩ := C161_debye_waller s hc f p hp a (hs (by simp [hT])) T
    refine ⟨fun k q => ∑ x, ∑ y, symTensor f p (tensor f s.kB T s.fmin G) k x y * cart f q x * cart f q y,
      some ⟨na, symTensor f p (tensor f s.kB T s.fmin G), T⟩,
      by simpa only [Asked, hT] using ⟨l, m, n, G, h1, h2, fun _ _ => rfl⟩,
      by simp only [dwOf, hT, h3, bind, Except.bind, pure, Except.pure], by simp, fun l => ?_⟩
    unfold calculateStructureFactor
    simp only [hl, dwFactors, bind, Except.bind, pure, Except.pure, Option.map_some, dif_pos]
    congr 2
    funext q j
    rw [← sf_eq]
    simp only [dwFactor, cartQ_eq]
    rfl

/-! ## The two tools -/

section
variable (s : Settings) (hc : 0 < s.chunk) (hk : 0 < s.kB) (f : Fc na) (p : Fin f.sym.length → Equiv.Perm (Fin na))
  (hp : ∀ t i, f.sym[t].eqAtoms i = p t i) (a : Args) (hs : a.temperature.isSome → Sensible f.cell a)
  (data : String → Option ℂ) (b : Fin na → ℂ) (hb : ∀ k, data (f.cryst.atomType k) = some (b k))
  (c : ℝ) (hcp : 0 < c) (bins : List ℝ) (hbins : bins.Pairwise (· < ·))
include hc hk hp hs hb hcp hbins

/-- **C161**. `euphonic-intensity-map --weighting coherent`: each row holds the structure factors of the modes of its q-point,
with the Debye-Waller factor of the grid and the temperature asked for and the population factors of the same temperature; both
are left out without a temperature. -/
theorem C161_intensity : ∃ W, Asked s f p a W ∧ ∀ path : List (V3 ℝ), (∀ q ∈ path, ∀ j, f.freqs q j ≠ 0) →
    ∃ rows, intensityRows s c data f a path bins = .ok rows ∧ rows.length = path.length ∧
      ∀ q : Fin path.length, (rows.getD q.val []).length = bins.length - 1 ∧ ∀ i < bins.length - 1,
        (rows.getD q.val []).getD i 0 * (bins.getD (i + 1) 0 - bins.getD i 0) =
          s.sfConv * ∑ j, binned s.kB c a.temperature bins i (f.freqs path[q] j) (onePhonon f b W path[q] j) := by
  obtain ⟨W, dw, h1, h2, h3, h4⟩ := structure_factor s hc f p hp a hs data b hb
  refine ⟨W, h1, fun path hz => ?_⟩
  have hT : Dos.usedTemperature true a.temperature none = .ok a.temperature := by cases a.temperature <;> rfl
  obtain ⟨rows, r1, r2, r3⟩ := Dos.C24_sqw_bins Real.exp s.kB c s.sfConv hcp bins hbins true a.temperature none
    (fun q : Fin path.length => f.freqs path[q]) (fun q j => onePhonon f b W path[q] j) _ hT
    fun t _ ht q m => Dos.exp_ne_one hk ht (hz _ (List.getElem_mem _) m)
  refine ⟨rows, ?_, r2, fun q => ⟨(r3 q).1, fun i hi => ?_⟩⟩
  · unfold intensityRows
    simp only [h2, h4, bind, Except.bind]
    exact r1
  · rw [(r3 q).2 i hi]
    congr 1
    cases a.temperature
    · simp only [Dos.sqwBin, binned, PowderSample.loss, PowderSample.gain, Option.elim_none, one_mul]
    · rfl

/-- **C161**. `euphonic-powder-map --weighting coherent`: the row of a sphere is the mean over its points of the same. -/
theorem C161_powder : ∃ W, Asked s f p a W ∧ ∀ sphere : List (V3 ℝ), 0 < sphere.length → (∀ q ∈ sphere, ∀ j, f.freqs q j ≠ 0) →
    ∃ row, powderRow s c data f a sphere bins = .ok row ∧ row.length = bins.length - 1 ∧ ∀ i < bins.length - 1,
        row.getD i 0 * (bins.getD (i + 1) 0 - bins.getD i 0) * sphere.length =
          s.sfConv * PowderSample.total sphere fun q j =>
            binned s.kB c a.temperature bins i (f.freqs q j) (onePhonon f b W q j) := by
  obtain ⟨W, dw, h1, h2, h3, h4⟩ := structure_factor s hc f p hp a hs data b hb
  refine ⟨W, h1, fun l hl hz => ?_⟩
  have hl' : (l.length : ℝ) ≠ 0 := by exact_mod_cast hl.ne'
  have hT : Dos.usedTemperature true a.temperature none = .ok a.temperature := by cases a.temperature <;> rfl
  obtain ⟨rows, r1, r2⟩ := Dos.C24_1d_average Real.exp s.kB c s.sfConv hcp bins hbins true a.temperature none
    (fun q : Fin l.length => f.freqs l[q]) (fun q j => onePhonon f b W l[q] j) (Dos.defaultWeights l.length) none _ hT
    fun t _ ht q m => Dos.exp_ne_one hk ht (hz _ (List.getElem_mem _) m)
  obtain ⟨rows', r1', -, r3⟩ := Dos.C24_sqw_bins Real.exp s.kB c s.sfConv hcp bins hbins true a.temperature none
    (fun q : Fin l.length => f.freqs l[q]) (fun q j => onePhonon f b W l[q] j) _ hT
    fun t _ ht q m => Dos.exp_ne_one hk ht (hz _ (List.getElem_mem _) m)
  rw [r1] at r1'
  obtain rfl := Except.ok.inj r1'
  obtain ⟨y, y1, y2, y3⟩ := (r2 _ (Or.inr ⟨rfl, rfl⟩)).2
    (by rw [PowderSample.sum_defaultWeights _ hl]; exact one_ne_zero)
  refine ⟨y, ?_, y2, fun i hi => ?_⟩
  · unfold powderRow
    have hclose : ∀ t : ℝ, PowderSample.closeTemp t t = true := fun t => by
      simp only [PowderSample.closeTemp, sub_self, abs_zero, decide_eq_true_eq]; positivity
    simp only [h2, h4, bind, Except.bind]
    cases hd : dw with
    | none =>
      rw [hd] at h3
      rw [← h3] at y1 ⊢
      exact y1
    | some d =>
      rw [hd] at h3
      rw [← h3] at y1 ⊢
      simp only [Option.map_some, hclose, if_true]
      exact y1
  · have h1 := y3 i hi
    rw [PowderSample.sum_defaultWeights _ hl, mul_one] at h1
    have h2 : ∀ q : Fin l.length, (rows.getD q.val []).getD i 0 * (bins.getD (i + 1) 0 - bins.getD i 0) =
        s.sfConv * ∑ j, binned s.kB c a.temperature bins i (f.freqs l[q] j) (onePhonon f b W l[q] j) := by
      intro q
      rw [(r3 q).2 i hi]
      congr 1
      cases a.temperature
      · simp only [Dos.sqwBin, binned, PowderSample.loss, PowderSample.gain, Option.elim_none, one_mul]
      · rfl
    rw [h1]
    unfold PowderSample.total
    rw [← PowderSample.sum_fin_list fun q => ∑ j, binned s.kB c a.temperature bins i (f.freqs q j) (onePhonon f b W q j),
      Finset.mul_sum, Finset.sum_mul, Finset.sum_mul]
    refine Finset.sum_congr rfl fun q _ => ?_
    rw [← h2 q]
    unfold Dos.defaultWeights
    field_simp

end

/-! ## A case -/

namespace Ex

/-- One atom of sodium with modes of energies 1, 2, 3 along the axes at all wavevectors, and inversion. -/
noncomputable def sodium : Fc 1 where
  cell := ⟨⟨1, 0, 0⟩, ⟨0, 1, 0⟩, ⟨0, 0, 1⟩⟩
  cryst := ⟨fun _ _ => 0, fun _ => "Na", fun _ => 23, fun i j => if i = j then 2 * Real.pi else 0⟩
  freqs := fun _ j => j.val + 1
  evecs := fun _ j _ x => if j.val = x.val then 1 else 0
  sym := [⟨fun i j => if i = j then 1 else 0, id⟩, ⟨fun i j => if i = j then -1 else 0, id⟩]

noncomputable def opts : Args := ⟨some 300, none, 1 / 10, 1⟩

example : ∃ W, Asked ⟨1 / 1000, 1 / 100, 10, 1⟩ sodium (fun _ => Equiv.refl _) opts W ∧ ∃ row,
    powderRow ⟨1 / 1000, 1 / 100, 10, 1⟩ 1 (fun _ => some 3) sodium opts [⟨1, 0, 0⟩, ⟨0, 1, 0⟩] [-5/2, 0, 5/2] = .ok row ∧
    row.length = 2 := by
  obtain ⟨W, h1, h2⟩ := C161_powder ⟨1 / 1000, 1 / 100, 10, 1⟩ (by norm_num) (by norm_num) sodium (fun _ => Equiv.refl _)
    (by
      intro t i
      have : ∀ u ∈ sodium.sym, u.eqAtoms i = i := by simp [sodium]
      exact this _ (List.getElem_mem _))
    opts (fun _ => by
      simp only [Sensible, opts, sodium, cellVolume, dot, cross]; norm_num)
    (fun _ => some 3) (fun _ => 3) (fun _ => rfl) 1 one_pos [-5/2, 0, 5/2] (by norm_num [List.pairwise_cons])
  obtain ⟨row, r1, r2, -⟩ := h2 [⟨1, 0, 0⟩, ⟨0, 1, 0⟩] (by simp) (fun q _ j => by
    simp only [sodium]; positivity)
  exact ⟨W, h1, row, r1, by simpa using r2⟩

end Ex

end Euphonic.DwCli
