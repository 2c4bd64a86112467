import Verif.Model.PowderCli
import Verif.Props.IntensityCli
import Verif.Props.Powder
import Verif.Props.CliPdos
import Verif.Props.Kinematics
import Verif.Props.Cli
import Verif.Props.BroadenOk

/-!
# C111: what `euphonic-powder-map` draws
-/

set_option autoImplicit false

namespace Euphonic.PowderCli

open Euphonic.Lattice Euphonic.Plot Set

/-! ## Specification -/

/-- The |q| bins: from the lower to the upper limit, equally wide, at most as wide as asked for, and as few as
possible. -/
structure QGrid (a : Args) (edges : List ℝ) : Prop where
  two : 2 ≤ edges.length
  first : edges.head? = some a.qMin
  last : edges.getLast? = some a.qMax
  step : ∃ w : ℝ, (∀ i (h : i + 1 < edges.length), edges[i + 1] - edges[i] = w) ∧ 0 < w ∧ w ≤ a.qSpacing
  few : a.qSpacing * ((edges.length : ℝ) - 2) < a.qMax - a.qMin

/-- The lower limit of the energies: the one asked for, otherwise 0 or just below the lowest frequency at the point
(0, 0, 1/2). -/
def IsLow (u : Units) (a : Args) (fr : List (List ℝ)) (lo : ℝ) : Prop :=
  match a.eMin with
  | some e => lo = e
  | none => lo ≤ 0 ∧ (∀ v ∈ fr.flatten, lo ≤ v * u.energy - u.room) ∧
    (lo = 0 ∨ ∃ v ∈ fr.flatten, lo = v * u.energy - u.room)

/-- The upper limit of the energies: the one asked for, otherwise the incident energy, otherwise 6/5 of the highest
frequency at the point (0, 0, 1/2). -/
def IsHigh (u : Units) (a : Args) (fr : List (List ℝ)) (hi : ℝ) : Prop :=
  match a.eMax, a.eI with
  | some e, _ => hi = e
  | none, some e => hi = e
  | none, none => ∃ v ∈ fr.flatten, hi = v * u.energy * (6 / 5) ∧ ∀ v' ∈ fr.flatten, v' * u.energy ≤ v * u.energy

/-- The energy bins: equally wide, between the limits. -/
structure EGrid (u : Units) (a : Args) (f : Fc) (y : List ℝ) : Prop where
  length : y.length = a.ebins + 1
  limits : ∃ fr lo hi, f.freqs [⟨0, 0, 1 / 2⟩] = .ok fr ∧ IsLow u a fr lo ∧ IsHigh u a fr hi ∧ lo < hi ∧
    y.head? = some lo ∧ y.getLast? = some hi ∧ ∀ j (h : j < y.length), (y[j] - lo) * a.ebins = j * (hi - lo)

/-- The number of points asked for on a sphere of radius `q`: fixed, or by area and between two limits. -/
def Wanted (a : Args) (q : ℝ) (n : Nat) : Prop :=
  match a.nptsDensity with
  | none => n = a.npts
  | some d => a.nptsMin ≤ n ∧ (n : Int) ≤ max a.nptsMin a.nptsMax ∧ ((n : Int) < a.nptsMax → d * q ^ 2 ≤ n) ∧
    (a.nptsMin < n → (n : ℝ) < d * q ^ 2 + 1)

/-- The q-points for a sphere of radius `q`, in fractional coordinates: enough of them, and all on the sphere. -/
structure OnSphere (u : Units) (a : Args) (f : Fc) (q : ℝ) (pts : List (V3 ℝ)) : Prop where
  count : ∃ n, Wanted a q n ∧ pts.length = Sampling.pointCount n a.sampling ∧ n ≤ pts.length
  radius : ∀ p ∈ pts, (Powder.combine (reciprocalCell (2 * Real.pi) f.cell) p).x ^ 2 +
    (Powder.combine (reciprocalCell (2 * Real.pi) f.cell) p).y ^ 2 +
    (Powder.combine (reciprocalCell (2 * Real.pi) f.cell) p).z ^ 2 = (u.recip * q) ^ 2

/-- What the calculations of the library that are parameters here give: `species` are the species of the atoms. -/
structure Sound (f : Fc) (species : List String) : Prop where
  modes : 0 < f.nModes
  freqs : ∀ l r, f.freqs l = .ok r → r.length = l.length ∧ ∀ x ∈ r, x.length = f.nModes
  pdos : ∀ w l y c, f.pdos w l y = .ok c → c.WF (y.length - 1) ∧ c.len = species.length ∧
    ∀ i, i < c.len → c.lineValue i "species" = some (species.getD i "")
  sqw : ∀ t l y r, f.sqw t l y = .ok r → r.length = y.length - 1

/-- The spectrum for the q-points of one sphere. -/
def Line (u : Units) (a : Args) (f : Fc) (species : List String) (y : List ℝ) (pts : List (V3 ℝ)) (line : List ℝ) : Prop :=
  line.length = a.ebins ∧
  (a.weighting = "coherent" → f.sqw a.temperature pts y = .ok line) ∧
  (a.weighting = "dos" → a.pdos = none → ∃ fr, f.freqs pts = .ok fr ∧ ∀ j < a.ebins, line.getD j 0 =
    ((fr.flatten.countP fun v => decide (Dos.InBin y j (v * u.energy)) : Nat) : ℝ) * (3 / f.nModes) /
      (y.getD (j + 1) 0 - y.getD j 0) / pts.length) ∧
  (a.weighting ≠ "coherent" → (a.weighting = "dos" → a.pdos ≠ none) → ∃ w c,
    (a.weighting = "dos" ∧ w = none ∨ ∃ v, a.weighting = v ++ "-dos" ∧ w = some v.toList) ∧ f.pdos w pts y = .ok c ∧
    ∀ j < a.ebins, line.getD j 0 = (((List.range species.length).filter fun i =>
      decide (∀ s, a.pdos = some s → species.getD i "" = s)).map fun i => (c.rows.getD i []).getD j 0).sum)

/-- A width: none, a number, or a polynomial of the position. -/
def IsWidth : Option (List ℝ) → Broaden.Width → Prop
  | some [v], .fixed w => w = v
  | some (c0 :: c1 :: cs), .fn g => ∀ t, g t = ∑ k : Fin (c0 :: c1 :: cs).length, (c0 :: c1 :: cs)[k] * t ^ k.val
  | none, .none => True
  | some [], .none => True
  | _, _ => False

/-- The map after broadening in both directions. -/
def Broadened (coeffs : ℝ → List ℝ) (a : Args) {n : Nat} (x y : List ℝ) (z z' : Fin n → Fin a.ebins → ℝ) : Prop :=
  (a.qBroadening = none → a.energyBroadening = none → z' = z) ∧
  ∃ wx wy, IsWidth a.qBroadening wx ∧ IsWidth a.energyBroadening wy ∧
    Broaden.broadenMap ⟨coeffs, "fwhm", a.shape, "cheby-log", 1 / 100⟩ none none none x y wx wy z = .ok z'

/-- Is the bin between moduli `q0` and `q1` and with energy `w` at its centre reached by a neutron, if an energy of the
neutron is given? -/
def Kept (u : Units) (a : Args) (q0 q1 w : ℝ) : Prop :=
  (∀ e, a.eI = some e → ∃ Q ∈ Icc q0 q1, Kinematics.Reachable (e / u.momentum) ((e - w) / u.momentum)
    (min a.angleRange.1 a.angleRange.2 * Real.pi / 180) (max a.angleRange.1 a.angleRange.2 * Real.pi / 180) Q) ∧
  (∀ e, a.eF = some e → ∃ Q ∈ Icc q0 q1, Kinematics.Reachable ((e + w) / u.momentum) (e / u.momentum)
    (min a.angleRange.1 a.angleRange.2 * Real.pi / 180) (max a.angleRange.1 a.angleRange.2 * Real.pi / 180) Q)

/-- The fewest points for which a sampling works (C66, C74). -/
def fewest : Sampling.Method → Nat
  | .polarGrid => 3
  | .improved => 6
  | _ => 1

/-- Options that can be used together, and for which the constraints are right (C67). -/
structure Usable (u : Units) (a : Args) (f : Fc) : Prop where
  energy : 0 < u.energy
  momentum : 0 < u.momentum
  spacing : 0 < a.qSpacing
  cell : cellVolume f.cell ≠ 0
  weighting : a.weighting ∈ ["dos", "coherent-dos", "incoherent-dos", "coherent-plus-incoherent-dos", "coherent"]
  sampling : a.sampling ≠ .unknown
  npts : a.nptsDensity = none → fewest a.sampling ≤ a.npts
  nptsMin : a.nptsDensity ≠ none → (fewest a.sampling : Int) ≤ a.nptsMin
  one : a.eI = none ∨ a.eF = none
  incident : ∀ e, a.eI = some e → 0 < e
  final : ∀ e, a.eF = some e → 0 < e
  angle1 : a.angleRange.1 ∈ Icc (-180) (180 : ℝ)
  angle2 : a.angleRange.2 ∈ Icc (-180) (180 : ℝ)
  right : Real.cos (a.angleRange.1 * Real.pi / 180) ≠ 0 ∨ Real.cos (a.angleRange.2 * Real.pi / 180) ≠ 0

/-- What must be seen. -/
structure Shown (u : Units) (a : Args) (edges y : List ℝ) {n : Nat} (z : Fin n → Fin a.ebins → ℝ) (im : Image) :
    Prop where
  xs : im.xs = midpoints edges
  ys : im.ys = midpoints y
  xlim : im.xlim = (a.qMin, a.qMax)
  ylim : y.head? = some im.ylim.1 ∧ y.getLast? = some im.ylim.2
  nrow : im.nrow = a.ebins
  ncol : im.ncol = n
  kept : ∀ (j : Fin im.nrow) (i : Fin im.ncol), Kept u a (edges.getD i 0) (edges.getD (i + 1) 0)
    ((midpoints y).getD j 0) → im.pixel j i = some (z (i.cast ncol) (j.cast nrow) * a.scale.getD 1)
  dropped : ∀ (j : Fin im.nrow) (i : Fin im.ncol), ¬ Kept u a (edges.getD i 0) (edges.getD (i + 1) 0)
    ((midpoints y).getD j 0) → im.pixel j i = none
  coloured : ∀ w j i, im.pixel j i = some w → ∃ lo hi, im.norm = (some lo, some hi)
  lowest : ∀ v, a.vmin = some v → im.norm.1 = some v
  highest : ∀ v, a.vmax = some v → im.norm.2 = some v
  least : ∀ v, a.vmin = none → im.norm.1 = some v → IsLeast {w | ∃ j i, im.pixel j i = some w} v
  greatest : ∀ v, a.vmax = none → im.norm.2 = some v → IsGreatest {w | ∃ j i, im.pixel j i = some w} v

/-! ## Steps -/

theorem pdosWeighting_of {w : String} (h : w ∈ ["dos", "coherent-dos", "incoherent-dos", "coherent-plus-incoherent-dos"]) :
    ∃ w', Cli.pdosWeighting w.toList = .ok w' ∧ (w = "dos" ∧ w' = none ∨ ∃ v, w = v ++ "-dos" ∧ w' = some v.toList) := by
  simp only [List.mem_cons, List.not_mem_nil, or_false] at h
  rcases h with rfl | rfl | rfl | rfl
  · exact ⟨none, rfl, Or.inl ⟨rfl, rfl⟩⟩
  · exact ⟨_, rfl, Or.inr ⟨"coherent", rfl, rfl⟩⟩
  · exact ⟨_, rfl, Or.inr ⟨"incoherent", rfl, rfl⟩⟩
  · exact ⟨_, rfl, Or.inr ⟨"coherent-plus-incoherent", rfl, rfl⟩⟩

theorem npts_wanted (a : Args) (q : ℝ) (h0 : a.nptsDensity ≠ none → 0 ≤ a.nptsMin) : Wanted a q (npts a q) := by
  unfold Wanted npts
  cases hd : a.nptsDensity with
  | none => rfl
  | some d =>
    have h0 := h0 (by rw [hd]; simp)
    simp only
    unfold Cli.sphereNpts
    have hle : 0 ≤ max a.nptsMin (min a.nptsMax ⌈(d : ℝ) * q ^ 2⌉) := le_max_of_le_left h0
    have hcast : (((max a.nptsMin (min a.nptsMax ⌈(d : ℝ) * q ^ 2⌉)).toNat : Nat) : Int) =
        max a.nptsMin (min a.nptsMax ⌈(d : ℝ) * q ^ 2⌉) := Int.toNat_of_nonneg hle
    have hcastR : (((max a.nptsMin (min a.nptsMax ⌈(d : ℝ) * q ^ 2⌉)).toNat : Nat) : ℝ) =
        ((max a.nptsMin (min a.nptsMax ⌈(d : ℝ) * q ^ 2⌉) : Int) : ℝ) := by
      rw [← Int.cast_natCast, hcast]
    rw [hcast, hcastR]
    have h1 := Int.le_ceil ((d : ℝ) * q ^ 2)
    have h2 := Int.ceil_lt_add_one ((d : ℝ) * q ^ 2)
    generalize ⌈(d : ℝ) * q ^ 2⌉ = c at h1 h2 ⊢
    refine ⟨le_max_left _ _, max_le_max le_rfl (min_le_left _ _), ?_, ?_⟩
    · intro h
      have : c ≤ max a.nptsMin (min a.nptsMax c) := by omega
      have : (c : ℝ) ≤ ((max a.nptsMin (min a.nptsMax c) : Int) : ℝ) := by exact_mod_cast this
      linarith
    · intro h
      have : max a.nptsMin (min a.nptsMax c) ≤ c := by omega
      have : ((max a.nptsMin (min a.nptsMax c) : Int) : ℝ) ≤ (c : ℝ) := by exact_mod_cast this
      linarith

theorem qGrid {a : Args} (hs : 0 < a.qSpacing) {e : List ℝ} (h : Cli.qBinEdges a.qMin a.qMax a.qSpacing = .ok e)
    (h2 : 2 ≤ e.length) : QGrid a e ∧ e.Pairwise (· ≤ ·) := by
  by_cases hq : a.qMin < a.qMax
  · obtain ⟨e', w, h1, g2, g3, g4, g5, g6, g7, g8⟩ := Cli.C94_q_bins a.qMin a.qMax a.qSpacing hs hq
    rw [h] at h1
    cases h1
    refine ⟨⟨g2, g3, g4, ⟨w, g5, g6, g7⟩, g8⟩, ?_⟩
    rw [← List.isChain_iff_pairwise, List.isChain_iff_getElem]
    intro i hi
    have := g5 i hi
    linarith
  · exfalso
    have hn : Cli.nQBins a.qMin a.qMax a.qSpacing ≤ 0 := by
      unfold Cli.nQBins
      rw [Int.ceil_le]
      have : (a.qMax - a.qMin) / a.qSpacing ≤ 0 := div_nonpos_of_nonpos_of_nonneg (by linarith) hs.le
      simpa using this
    unfold Cli.qBinEdges at h
    split at h
    · cases h
    · cases h
      rw [Cli.linspace, List.length_map, List.length_range] at h2
      omega

theorem foldl_min_mem (v : ℝ) (l : List ℝ) : l.foldl min v ∈ v :: l := by
  induction l generalizing v with
  | nil => simp
  | cons w l ih =>
    rw [List.foldl_cons]
    rcases min_choice v w with h | h
    · rw [h]; rcases List.mem_cons.1 (ih v) with h' | h'
      · rw [h']; simp
      · simp [h']
    · rw [h]; rcases List.mem_cons.1 (ih w) with h' | h'
      · rw [h']; simp
      · simp [h']

theorem lowerLimit_spec {u : Units} {a : Args} {fr : List (List ℝ)} {lo : ℝ}
    (hlo : Cli.lowerLimit (fr.flatten.map (· * u.energy)) u.room a.eMin = .ok lo) : IsLow u a fr lo := by
  unfold IsLow
  cases hm : a.eMin with
  | some e => rw [hm] at hlo; cases hlo; rfl
  | none =>
    rw [hm] at hlo
    simp only
    unfold Cli.lowerLimit at hlo
    obtain ⟨m, hm', hlo⟩ := bind_ok hlo
    cases hlo
    have hne : (fr.flatten.map (· * u.energy)).map (fun f => f - u.room) ≠ [] := by
      intro hn; rw [hn] at hm'; cases hm'
    have key : m ∈ (fr.flatten.map (· * u.energy)).map (fun f => f - u.room) ∧
        ∀ v ∈ (fr.flatten.map (· * u.energy)).map (fun f => f - u.room), m ≤ v := by
      generalize (fr.flatten.map (· * u.energy)).map (fun f => f - u.room) = l at hm' hne
      cases l with
      | nil => exact absurd rfl hne
      | cons v l =>
        cases hm'
        constructor
        · exact foldl_min_mem v l
        · intro x hx
          rcases List.mem_cons.1 hx with rfl | hx
          · exact (Cli.foldl_min_le l _).1
          · exact (Cli.foldl_min_le l v).2 x hx
    refine ⟨min_le_right _ _, ?_, ?_⟩
    · intro v hv
      refine (min_le_left _ _).trans (key.2 _ ?_)
      rw [List.map_map]
      exact List.mem_map.2 ⟨v, hv, rfl⟩
    · rcases min_choice m 0 with h | h
      · right
        rw [h]
        have := key.1
        rw [List.map_map] at this
        obtain ⟨v, hv, he⟩ := List.mem_map.1 this
        exact ⟨v, hv, he.symm⟩
      · exact Or.inl h

theorem upperLimit_spec {u : Units} {a : Args} {fr : List (List ℝ)} {hi : ℝ}
    (hhi : Cli.upperLimit (fr.flatten.map (· * u.energy)) (12 / 10) (emax a) = .ok hi) : IsHigh u a fr hi := by
  unfold IsHigh
  cases hm : a.eMax with
  | some e =>
    unfold emax at hhi
    rw [hm] at hhi
    rw [if_neg (by simp)] at hhi
    cases hhi; rfl
  | none =>
    unfold emax at hhi
    rw [hm] at hhi
    cases hi' : a.eI with
    | some e =>
      rw [hi', if_pos ⟨rfl, rfl⟩] at hhi
      cases hhi; rfl
    | none =>
      rw [hi', if_neg (by simp)] at hhi
      unfold Cli.upperLimit at hhi
      obtain ⟨m, hm', hhi⟩ := bind_ok hhi
      cases hhi
      have hne : fr.flatten.map (· * u.energy) ≠ [] := by
        intro hn; rw [hn] at hm'; cases hm'
      obtain ⟨M, k1, k2, k3⟩ := Cli.npMax_spec _ hne
      rw [hm'] at k1
      cases k1
      obtain ⟨v, hv, rfl⟩ := List.mem_map.1 k2
      refine ⟨v, hv, by norm_num, ?_⟩
      intro v' hv'
      exact k3 _ (List.mem_map.2 ⟨v', hv', rfl⟩)

theorem eGrid {u : Units} {a : Args} {f : Fc} (h0 : 0 < a.ebins) {y : List ℝ} (h : bins u a f = .ok y) :
    EGrid u a f y ∧ y.Pairwise (· < ·) := by
  unfold bins at h
  obtain ⟨fr, hfr, h⟩ := bind_ok h
  unfold Cli.energyBins at h
  obtain ⟨lo, hlo, h⟩ := bind_ok h
  obtain ⟨hi, hhi, h⟩ := bind_ok h
  split at h
  · cases h
  · rename_i hlt
    have hlt : lo < hi := not_le.1 hlt
    obtain ⟨e, g1, g2, g3, g4, g5, g6⟩ := (Cli.C72_limits ([] : List ℝ) (a.ebins + 1) lo hi 1 1 (by omega)).1 hlt
    have : Cli.energyBins ([] : List ℝ) (a.ebins + 1) (some lo) (some hi) 1 1 = .ok (Cli.linspace lo hi (a.ebins + 1)) := by
      show (if lo ≥ hi then Except.error Err.valueError else .ok (Cli.linspace lo hi (a.ebins + 1))) = _
      rw [if_neg (not_le.2 hlt)]
    rw [this] at g1
    cases g1
    cases h
    refine ⟨⟨g2, fr, lo, hi, hfr, ?_, ?_, hlt, g4, g5, ?_⟩, g3⟩
    · exact lowerLimit_spec hlo
    · exact upperLimit_spec hhi
    · intro j hj
      have := g6 j hj
      push_cast at this
      linarith

theorem onSphere {u : Units} {a : Args} {f : Fc} (hU : Usable u a f) {d : Draws} (hd : Sampling.RandomJitter d.jitter)
    {q : ℝ} {pts : List (V3 ℝ)}
    (h : Powder.sphereQptsFrac (npts a q) a.sampling d.jitter d.ringJitter d.rnd q u.recip f.cell = .ok pts) :
    OnSphere u a f q pts ∧ 0 < pts.length := by
  have hf1 : 1 ≤ fewest a.sampling := by unfold fewest; split <;> omega
  have hw : Wanted a q (npts a q) := npts_wanted a q fun hn => by
    have := hU.nptsMin hn
    omega
  have hle : fewest a.sampling ≤ npts a q := by
    cases hn : a.nptsDensity with
    | none =>
      unfold Wanted at hw
      rw [hn] at hw
      rw [hw]
      exact hU.npts hn
    | some n =>
      have := hU.nptsMin (by rw [hn]; simp)
      unfold Wanted at hw
      rw [hn] at hw
      have := hw.1
      omega
  have h0 : 0 < npts a q := by omega
  have h6 : a.sampling = .improved → 6 ≤ npts a q := fun h => by rw [h] at hle; exact hle
  have h3 : a.sampling = .polarGrid → 3 ≤ npts a q := fun h => by rw [h] at hle; exact hle
  obtain ⟨l, g1, g2, g3⟩ := Powder.C76_sphere_modulus (npts a q) a.sampling d.jitter d.ringJitter d.rnd q u.recip f.cell
    hU.cell hd hU.sampling h0 h6 h3
  obtain ⟨l', -, k2, k3, -⟩ := Sampling.C74_qpts_sphere_partial (npts a q) a.sampling d.jitter d.ringJitter d.rnd hd
    hU.sampling h0 h6 h3
  rw [h] at g1
  cases g1
  refine ⟨⟨⟨_, hw, g2, by omega⟩, g3⟩, by omega⟩

theorem dosRow_spec {u : Units} {a : Args} {f : Fc} {species : List String} (hU : Usable u a f) (hS : Sound f species)
    {y : List ℝ} (hy : y.Pairwise (· < ·)) {pts : List (V3 ℝ)} (hp : 0 < pts.length)
    {line : List ℝ} (h : dosRow u f y pts = .ok line) : line.length = y.length - 1 ∧
      ∃ fr, f.freqs pts = .ok fr ∧ ∀ j < y.length - 1, line.getD j 0 =
    ((fr.flatten.countP fun v => decide (Dos.InBin y j (v * u.energy)) : Nat) : ℝ) * (3 / f.nModes) /
      (y.getD (j + 1) 0 - y.getD j 0) / pts.length := by
  unfold dosRow at h
  obtain ⟨fr, hfr, h⟩ := bind_ok h
  obtain ⟨hl, hm⟩ := hS.freqs _ _ hfr
  have hc : (0 : ℝ) < 1 / u.energy := by have := hU.energy; positivity
  rw [Dos.C21_dos_counts_modes_in_bin (1 / u.energy) hc y (hy.imp fun h => le_of_lt h) hS.modes] at h
  cases h
  refine ⟨by simp, fr, hfr, ?_⟩
  intro j hj
  rw [List.getD_eq_getElem _ _ (by simpa using hj), List.getElem_map, List.getElem_range]
  have hpR : (0 : ℝ) < pts.length := by exact_mod_cast hp
  have hsum : ∑ q : Fin pts.length, Dos.defaultWeights (K := ℝ) pts.length q = 1 := by
    simp [Dos.defaultWeights, hpR.ne']
  rw [hsum, div_one]
  have hcount : Dos.binTotal y (1 / u.energy) (fun (q : Fin pts.length) (m : Fin f.nModes) => (fr.getD q.val []).getD m.val 0)
      (fun q _ => Dos.defaultWeights pts.length q * (3 / (f.nModes : ℝ))) j =
      ((fr.flatten.countP fun v => decide (Dos.InBin y j (v * u.energy)) : Nat) : ℝ) * (3 / f.nModes) / pts.length := by
    unfold Dos.binTotal Dos.defaultWeights
    have hrow : ∀ q : Fin pts.length, (∑ m : Fin f.nModes,
        if Dos.InBin y j ((fr.getD q.val []).getD m.val 0 / (1 / u.energy)) then 1 / (pts.length : ℝ) * (3 / (f.nModes : ℝ))
        else 0) = (((fr.getD q.val []).countP fun v => decide (Dos.InBin y j (v * u.energy)) : Nat) : ℝ) *
          (1 / (pts.length : ℝ) * (3 / (f.nModes : ℝ))) := by
      intro q
      have hq : q.val < fr.length := by rw [hl]; exact q.isLt
      have hlen : (fr.getD q.val []).length = f.nModes := by
        rw [List.getD_eq_getElem _ _ hq]; exact hm _ (List.getElem_mem hq)
      have := IntensityCli.sum_count (fr.getD q.val []) (fun v => decide (Dos.InBin y j (v * u.energy)))
        (1 / (pts.length : ℝ) * (3 / (f.nModes : ℝ)))
      rw [← this]
      generalize 1 / (pts.length : ℝ) * (3 / (f.nModes : ℝ)) = k
      generalize fr.getD q.val [] = r at hlen ⊢
      rw [← hlen]
      refine Finset.sum_congr rfl fun m _ => ?_
      simp only [decide_eq_true_eq, div_div_eq_mul_div, div_one]
    rw [Finset.sum_congr rfl fun q _ => hrow q, ← Finset.sum_mul]
    have htot : ∀ (l : List (List ℝ)) (P : ℝ → Bool), ∑ q : Fin l.length, (((l.getD q.val []).countP P : Nat) : ℝ) =
        ((l.flatten.countP P : Nat) : ℝ) := by
      intro l P
      induction l with
      | nil => simp
      | cons r l ih =>
        rw [List.flatten_cons, List.countP_append]
        simp only [List.length_cons, Fin.sum_univ_succ, Fin.val_zero, List.getD_cons_zero, Fin.val_succ,
          List.getD_cons_succ, ih]
        push_cast
        ring
    have := htot fr fun v => decide (Dos.InBin y j (v * u.energy))
    rw [hl] at this
    rw [this]
    ring
  rw [hcount]
  ring

theorem pdosRow_spec {a : Args} {f : Fc} {species : List String} (hS : Sound f species) (hw : dosLike a.weighting = true)
    {y : List ℝ} {pts : List (V3 ℝ)} {line : List ℝ} (h : pdosRow a f y pts = .ok line) :
    line.length = y.length - 1 ∧ ∃ w c,
    (a.weighting = "dos" ∧ w = none ∨ ∃ v, a.weighting = v ++ "-dos" ∧ w = some v.toList) ∧ f.pdos w pts y = .ok c ∧
    ∀ j < y.length - 1, line.getD j 0 = (((List.range species.length).filter fun i =>
      decide (∀ s, a.pdos = some s → species.getD i "" = s)).map fun i => (c.rows.getD i []).getD j 0).sum := by
  obtain ⟨w, hw1, hw2⟩ := pdosWeighting_of (w := a.weighting) (by simpa [dosLike] using hw)
  unfold pdosRow at h
  obtain ⟨w', hw', h⟩ := bind_ok h
  rw [hw1] at hw'
  cases hw'
  obtain ⟨c, hc, h⟩ := bind_ok h
  obtain ⟨r, hr, h⟩ := bind_ok h
  obtain ⟨hwf, hlen, hsp⟩ := hS.pdos _ _ _ _ hc
  have hpos : 0 < c.len := by unfold MColl.len; exact List.length_pos_iff.2 hwf.ne
  have hrows : c.rows.length = species.length := hlen
  refine (fun (hgoal : line.length = y.length - 1 ∧ ∀ j < y.length - 1, line.getD j 0 =
      (((List.range species.length).filter fun i =>
      decide (∀ s, a.pdos = some s → species.getD i "" = s)).map fun i => (c.rows.getD i []).getD j 0).sum) =>
    ⟨hgoal.1, w, c, hw2, hc, hgoal.2⟩) ?_
  cases hp : a.pdos with
  | none =>
    obtain ⟨d, g1, -, g2, g3⟩ := Cli.C73_total_only "Total" c _ hwf
    rw [hp, Option.map_none, g1] at hr
    cases hr
    cases h
    refine ⟨g2, ?_⟩
    intro j hj
    rw [g3 j hj]
    congr 1
    simp only [reduceCtorEq, false_implies, implies_true, decide_true, List.filter_true]
    apply List.ext_getElem
    · simp [hrows]
    · intro i h1 h2
      rw [List.length_map] at h1
      simp [h1]
  | some s =>
    rw [hp, Option.map_some] at hr
    by_cases h2 : 2 ≤ (Cli.speciesList (fun i => species.getD i "") c.len).length
    · obtain ⟨k1, k2⟩ := Cli.C73_named_partial "Total" c _ hwf (fun i => species.getD i "") hsp h2 [s] (by simp) _ rfl
      by_cases hs : ∃ i, i < c.len ∧ species.getD i "" = s
      · have hf : ([s].filter fun v => decide (∃ i, i < c.len ∧ species.getD i "" = v)) = [s] := by
          rw [List.filter_cons_of_pos (by simpa using hs), List.filter_nil]
        rw [hf] at k2
        obtain ⟨r', g1, g2, -, g3, g4⟩ := k2 (by simp)
        rw [g1] at hr
        cases hr
        obtain ⟨r0, hr0⟩ := List.length_eq_one_iff.1 g3
        unfold rowOf at h
        simp only [hr0] at h
        cases h
        refine ⟨g2.rect _ (by rw [hr0]; simp), ?_⟩
        intro j hj
        have := (g4 0 (by simp)).2.2 j hj
        rw [hr0] at this
        simp only [List.getD_cons_zero, List.getElem_cons_zero] at this
        rw [this]
        unfold Cli.linesOf
        rw [hlen]
        congr 2
        apply List.filter_congr
        intro i _
        simp only [Option.some.injEq, forall_eq']
      · have hf : ([s].filter fun v => decide (∃ i, i < c.len ∧ species.getD i "" = v)) = [] := by
          rw [List.filter_cons_of_neg (by simpa using hs), List.filter_nil]
        rw [k1 hf] at hr
        cases hr
    · exfalso
      have hall : ∀ i, i < c.len → c.lineValue i "species" = some (species.getD 0 "") := by
        intro i hi
        rw [hsp i hi]
        by_contra hne
        apply h2
        have m0 := (Cli.mem_speciesList (fun i => species.getD i "") c.len (species.getD 0 "")).2 ⟨0, hpos, rfl⟩
        have m1 := (Cli.mem_speciesList (fun i => species.getD i "") c.len (species.getD i "")).2 ⟨i, hi, rfl⟩
        generalize Cli.speciesList (fun i => species.getD i "") c.len = l at m0 m1
        match l, m0, m1 with
        | [], m0, _ => simp at m0
        | [v], m0, m1 =>
          rw [List.mem_singleton] at m0 m1
          rw [m0, m1] at hne
          exact absurd rfl hne
        | _ :: _ :: _, _, _ => simp
      rw [Cli.C73_one_species_fails "Total" c _ hwf _ hall [s]] at hr
      cases hr

theorem row_spec {u : Units} {a : Args} {f : Fc} {species : List String} (hU : Usable u a f) (hS : Sound f species)
    {y : List ℝ} (hy : y.Pairwise (· < ·)) (hyl : y.length = a.ebins + 1) {d : Draws} (hd : Sampling.RandomJitter d.jitter)
    {q : ℝ} {line : List ℝ} (h : row u a f y d q = .ok line) :
    ∃ pts, OnSphere u a f q pts ∧ Line u a f species y pts line := by
  unfold row at h
  obtain ⟨pts, hpts, h⟩ := bind_ok h
  obtain ⟨hon, hp⟩ := onSphere hU hd hpts
  refine ⟨pts, hon, ?_⟩
  have hn : y.length - 1 = a.ebins := by omega
  split at h
  · rename_i hc
    obtain ⟨g1, g2⟩ := dosRow_spec (a := a) hU hS hy hp h
    rw [hn] at g1 g2
    refine ⟨g1, ?_, fun _ _ => g2, ?_⟩
    · intro hco; rw [hc.1] at hco; simp at hco
    · intro _ hd; exact absurd hc.2 (hd hc.1)
  · rename_i hc
    split at h
    · rename_i hl
      obtain ⟨g1, g2⟩ := pdosRow_spec (a := a) hS hl h
      rw [hn] at g1 g2
      refine ⟨g1, ?_, fun h1 h2 => absurd ⟨h1, h2⟩ hc, fun _ _ => g2⟩
      intro hco
      rw [hco] at hl
      simp [dosLike] at hl
    · rename_i hl
      have hco : a.weighting = "coherent" := by
        have := hU.weighting
        simp only [dosLike, List.mem_cons, List.not_mem_nil, or_false, decide_eq_true_eq] at hl this
        tauto
      refine ⟨by rw [← hn]; exact hS.sqw _ _ _ _ h, fun _ => h, fun h1 h2 => absurd ⟨h1, h2⟩ hc, ?_⟩
      intro hne
      exact absurd hco hne

theorem length_midpoints (y : List ℝ) : (midpoints y).length = y.length - 1 := by
  simp [midpoints]

theorem constrain_spec {u : Units} {a : Args} {f : Fc} (hU : Usable u a f) {x y : List ℝ} {z : List (List ℝ)}
    (hz : ∀ r ∈ z, r.length = a.ebins) (hx : x.length = z.length + 1) (hxs : x.Pairwise (· ≤ ·))
    (hy : y.length = a.ebins + 1) {out : List (List (Option ℝ))} (h : constrain u a x y z = .ok out) :
    out.length = z.length ∧ (∀ r ∈ out, r.length = a.ebins) ∧ ∀ i < z.length, ∀ j < a.ebins,
      (Kept u a (x.getD i 0) (x.getD (i + 1) 0) ((midpoints y).getD j 0) →
        (out.getD i []).getD j none = some (entry z i j)) ∧
      (¬ Kept u a (x.getD i 0) (x.getD (i + 1) 0) ((midpoints y).getD j 0) → (out.getD i []).getD j none = none) := by
  have hrl : ∀ i (hi : i < z.length), z[i].length = a.ebins := fun i hi => hz _ (List.getElem_mem hi)
  unfold constrain at h
  split at h
  · rename_i hc
    cases h
    refine ⟨by simp, ?_, ?_⟩
    · intro r hr
      obtain ⟨r', hr', rfl⟩ := List.mem_map.1 hr
      rw [List.length_map]
      exact hz _ hr'
    · intro i hi j hj
      constructor
      · intro _
        unfold entry
        have hj' : j < z[i].length := by rw [hrl i hi]; exact hj
        simp [List.getD_eq_getElem?_getD, hi, hj']
      · intro hk
        exfalso
        apply hk
        unfold Kept
        rw [hc.1, hc.2]
        simp
  · rename_i hc
    rw [getBinEdges_edges _ _ hx, IntensityCli.centres_midpoints _ _ hy] at h
    simp only [bind, Except.bind] at h
    have hml : (midpoints y).length = a.ebins := by rw [length_midpoints]; omega
    have hout := h
    unfold Kinematics.applyConstraints at h
    obtain ⟨e', he', h⟩ := bind_ok h
    have hlen : out.length = z.length ∧ ∀ r ∈ out, r.length = a.ebins := by
      cases h
      refine ⟨by simp [hx], ?_⟩
      intro r hr
      obtain ⟨t, ht, rfl⟩ := List.mem_map.1 hr
      have := hz _ (List.of_mem_zip ht).2
      simp [this, hml]
    clear h he'
    refine ⟨hlen.1, hlen.2, ?_⟩
    obtain ⟨e, he⟩ : ∃ e : ℝ → ℝ × ℝ, (∃ x, a.eI = some x ∧ 0 < x ∧ a.eF = none ∧ e = fun w => (x, x - w)) ∨
        (∃ x, a.eI = none ∧ a.eF = some x ∧ 0 < x ∧ e = fun w => (x + w, x)) := by
      cases h1 : a.eI with
      | some v =>
        have : a.eF = none := by
          rcases hU.one with h | h
          · rw [h] at h1; cases h1
          · exact h
        exact ⟨_, Or.inl ⟨v, rfl, hU.incident v h1, this, rfl⟩⟩
      | none =>
        cases h2 : a.eF with
        | none => exact absurd ⟨h1, h2⟩ hc
        | some v => exact ⟨_, Or.inr ⟨v, rfl, rfl, hU.final v h2, rfl⟩⟩
    obtain ⟨out', g1, g2⟩ := Kinematics.C67_mask_partial u.momentum hU.momentum x (midpoints y) z a.eI a.eF e he
      a.angleRange.1 a.angleRange.2 hU.angle1 hU.angle2 hU.right hxs hx.symm (fun r hr => by rw [hml]; exact hz r hr)
    rw [hout] at g1
    cases g1
    intro i hi j hj
    have hj' : j < z[i].length := by rw [hrl i hi]; exact hj
    have hxi : i < x.length := by omega
    have hxi1 : i + 1 < x.length := by omega
    have hyj : j < (midpoints y).length := by omega
    obtain ⟨r', k1, k2, k3⟩ := g2 i j z[i] z[i][j] x[i] x[i + 1] (midpoints y)[j] (List.getElem?_eq_getElem hi)
      (List.getElem?_eq_getElem hj') (List.getElem?_eq_getElem hxi) (List.getElem?_eq_getElem hxi1)
      (List.getElem?_eq_getElem hyj)
    rw [List.getD_eq_getElem _ _ hxi, List.getD_eq_getElem _ _ hxi1, List.getD_eq_getElem _ _ hyj]
    have hkept : Kept u a x[i] x[i + 1] (midpoints y)[j] ↔ ∃ Q ∈ Icc x[i] x[i + 1],
        Kinematics.Reachable ((e (midpoints y)[j]).1 / u.momentum) ((e (midpoints y)[j]).2 / u.momentum)
          (min a.angleRange.1 a.angleRange.2 * Real.pi / 180) (max a.angleRange.1 a.angleRange.2 * Real.pi / 180) Q := by
      unfold Kept
      rcases he with ⟨v, h1, -, h2, rfl⟩ | ⟨v, h1, h2, -, rfl⟩
      · rw [h1, h2]
        simp
      · rw [h1, h2]
        simp
    have hent : entry z i j = z[i][j] := by
      unfold entry
      rw [List.getD_eq_getElem _ _ hi, List.getD_eq_getElem _ _ hj']
    rw [hkept, hent]
    have hrow : (out.getD i []).getD j none = r'.getD j none := by
      rw [List.getD_eq_getElem?_getD (l := out), k1, Option.getD_some]
    rw [hrow, List.getD_eq_getElem?_getD]
    refine ⟨fun hk => ?_, fun hk => ?_⟩
    · rw [k2 hk]; rfl
    · rw [k3 hk]; rfl

theorem polyEval_sum (cs : List ℝ) (t : ℝ) : DosCli.polyEval cs t = ∑ k : Fin cs.length, cs[k] * t ^ k.val := by
  induction cs with
  | nil => simp [DosCli.polyEval]
  | cons c cs ih =>
    have : DosCli.polyEval (c :: cs) t = c + t * DosCli.polyEval cs t := rfl
    rw [this, ih]
    simp only [List.length_cons]
    rw [Fin.sum_univ_succ]
    simp only [Fin.getElem_fin, Fin.val_zero, List.getElem_cons_zero, pow_zero, mul_one, Fin.val_succ,
      List.getElem_cons_succ, Finset.mul_sum]
    congr 1
    exact Finset.sum_congr rfl fun k _ => by ring

theorem widthOf_spec (l : Option (List ℝ)) : IsWidth l (widthOf l) := by
  unfold IsWidth widthOf
  match l with
  | none => trivial
  | some [] => trivial
  | some [w] => rfl
  | some (c0 :: c1 :: cs) => exact fun t => polyEval_sum _ t

theorem entry_ofFn {n m : Nat} (g : Fin n → Fin m → ℝ) (i : Fin n) (j : Fin m) :
    entry (List.ofFn fun i => List.ofFn fun j => g i j) i j = g i j := by
  unfold entry
  simp [List.getD_eq_getElem?_getD]

theorem broaden_spec {coeffs : ℝ → List ℝ} {a : Args} {x y : List ℝ} {z z' : List (List ℝ)}
    (hz : ∀ r ∈ z, r.length = a.ebins) (h : broaden coeffs a x y z = .ok z') :
    z'.length = z.length ∧ (∀ r ∈ z', r.length = a.ebins) ∧
      Broadened coeffs a (n := z.length) x y (fun i j => entry z i j) (fun i j => entry z' i j) := by
  unfold broaden at h
  split at h
  · rename_i hc
    obtain ⟨r, hr, h⟩ := bind_ok h
    cases h
    refine ⟨by simp, ?_, ?_, _, _, widthOf_spec _, widthOf_spec _, ?_⟩
    · intro t ht
      obtain ⟨i, rfl⟩ := List.mem_ofFn.1 ht
      simp
    · intro h1 h2
      rw [h1, h2] at hc
      simp at hc
    · rw [hr]
      congr 1
      funext i j
      exact (entry_ofFn r i j).symm
  · rename_i hc
    cases h
    refine ⟨rfl, hz, fun _ _ => rfl, _, _, widthOf_spec _, widthOf_spec _, ?_⟩
    have h1 : a.qBroadening = none := by
      cases hq : a.qBroadening with
      | none => rfl
      | some v => rw [hq] at hc; simp at hc
    have h2 : a.energyBroadening = none := by
      cases hq : a.energyBroadening with
      | none => rfl
      | some v => rw [hq] at hc; simp at hc
    rw [h1, h2]
    simp [widthOf, Broaden.broadenMap, Broaden.broaden2d, Broaden.anyWidth, Broaden.Width.quantity, Broaden.fnX,
      Broaden.fnY, bind, Except.bind]

theorem minMax_sorted {l : List ℝ} (hs : l.Pairwise (· ≤ ·)) {p q : ℝ} (hp : l.head? = some p) (hq : l.getLast? = some q)
    {m : ℝ × ℝ} (h : minMax l = .ok m) : m = (p, q) := by
  have hne : l ≠ [] := by intro hn; rw [hn] at hp; cases hp
  obtain ⟨m', h1, h2, h3, h4⟩ := minMax_ok l hne
  rw [h] at h1
  cases h1
  have hpm : p ∈ l := List.mem_of_mem_head? hp
  have hqm : q ∈ l := List.mem_of_mem_getLast? hq
  have hle : ∀ v ∈ l, p ≤ v ∧ v ≤ q := by
    intro v hv
    obtain ⟨i, hi, rfl⟩ := List.getElem_of_mem hv
    have e1 : p = l[0]'(by omega) := by
      rw [List.head?_eq_getElem?, List.getElem?_eq_getElem (by omega)] at hp
      exact (Option.some.inj hp).symm
    have e2 : q = l[l.length - 1]'(by omega) := by
      rw [List.getLast?_eq_getElem?, List.getElem?_eq_getElem (by omega)] at hq
      exact (Option.some.inj hq).symm
    rw [List.pairwise_iff_getElem] at hs
    constructor
    · rw [e1]
      rcases Nat.eq_zero_or_pos i with h0 | h0
      · subst h0; exact le_rfl
      · exact hs 0 i _ hi h0
    · rw [e2]
      rcases Nat.lt_or_ge i (l.length - 1) with h0 | h0
      · exact hs i _ hi _ h0
      · have : i = l.length - 1 := by omega
        subst this; exact le_rfl
  exact Prod.ext (le_antisymm (h4 p hpm).1 (hle _ h2).1) (le_antisymm (hle _ h3).2 (h4 q hqm).2)

theorem scaled_spec (a : Args) (z : List (List (Option ℝ))) :
    (scaled a z).length = z.length ∧ (∀ n, (∀ r ∈ z, r.length = n) → ∀ r ∈ scaled a z, r.length = n) ∧
    ∀ i j, ((scaled a z).getD i []).getD j none = ((z.getD i []).getD j none).map (· * a.scale.getD 1) := by
  unfold scaled
  cases a.scale with
  | none =>
    refine ⟨rfl, fun n h => h, ?_⟩
    intro i j
    simp
  | some k =>
    refine ⟨by simp, ?_, ?_⟩
    · intro n h r hr
      obtain ⟨r', hr', rfl⟩ := List.mem_map.1 hr
      rw [List.length_map]
      exact h _ hr'
    · intro i j
      simp only [List.getD_eq_getElem?_getD, List.getElem?_map, Option.getD_some]
      cases z[i]? with
      | none => simp
      | some r =>
        simp only [Option.map_some, Option.getD_some, List.getElem?_map]
        cases r[j]? with
        | none => simp
        | some v => simp

theorem nanMinMax_spec {l : List (Option ℝ)} {m : Option ℝ × Option ℝ} (h : nanMinMax l = .ok m) :
    (∀ w, some w ∈ l → ∃ lo hi, m = (some lo, some hi)) ∧ (∀ v, m.1 = some v → IsLeast {w | some w ∈ l} v) ∧
      (∀ v, m.2 = some v → IsGreatest {w | some w ∈ l} v) := by
  unfold nanMinMax at h
  split at h
  · cases h
  · have hmem : ∀ w, w ∈ l.filterMap id ↔ some w ∈ l := by
      intro w
      simp
    split at h
    · rename_i he
      cases h
      refine ⟨?_, ?_, ?_⟩
      · intro w hw
        rw [← hmem, he] at hw
        cases hw
      · intro v hv; cases hv
      · intro v hv; cases hv
    · rename_i v vs he
      cases h
      obtain ⟨m', k1, k2, k3, k4⟩ := minMax_ok (v :: vs) (by simp)
      have k1 : (vs.foldl min v, vs.foldl max v) = m' := by
        unfold minMax at k1
        exact Except.ok.inj k1
      subst k1
      have hset : {w | some w ∈ l} = {w | w ∈ v :: vs} := by
        ext w
        rw [Set.mem_ofPred_eq, ← hmem, he]
        rfl
      rw [hset]
      refine ⟨fun _ _ => ⟨_, _, rfl⟩, ?_, ?_⟩
      · intro w hw
        cases hw
        exact ⟨k2, fun t ht => (k4 t ht).1⟩
      · intro w hw
        cases hw
        exact ⟨k3, fun t ht => (k4 t ht).2⟩

/-- **C111** (part). What `euphonic-powder-map` draws, if it draws something: the axes cover the moduli and energies asked
for, in bins as described by `QGrid` and `EGrid`; each column belongs to a sphere with the radius at the middle of its bin,
on which there are as many q-points as asked for, all with this modulus (`OnSphere`); it has the spectrum of these points
(`Line`), broadened (`Broadened`), times the scale; bins that a neutron cannot reach are blank (`Kept`), and the colours span
the values shown.  Missing: the limits of the kinematic constraints (C67) and of the samplings (C74). -/
theorem C111_map_partial (coeffs : ℝ → List ℝ) (u : Units) (d : Nat → Draws)
    (hd : ∀ i, Sampling.RandomJitter (d i).jitter) (a : Args) (f : Fc) (species : List String) (hU : Usable u a f)
    (hS : Sound f species) (im : Image) (h : powderMain coeffs u d a (.fc f) = .ok im) :
    ∃ (edges y : List ℝ) (n : Nat) (line : Nat → List ℝ) (z : Fin n → Fin a.ebins → ℝ),
      edges.length = n + 1 ∧ QGrid a edges ∧ EGrid u a f y ∧
      (∀ i < n, ∃ pts, OnSphere u a f ((edges.getD i 0 + edges.getD (i + 1) 0) / 2) pts ∧
        Line u a f species y pts (line i)) ∧
      Broadened coeffs a edges y (fun i j => (line i).getD j 0) z ∧ Shown u a edges y z im := by
  unfold powderMain powderMap at h
  obtain ⟨m, hm, h⟩ := bind_ok h
  obtain ⟨f', hf', hm⟩ := bind_ok hm
  have hff : f' = f := by
    unfold checkData at hf'
    simp only at hf'
    split at hf'
    · cases hf'
    · exact (Except.ok.inj hf').symm
  rw [hff] at hm
  clear hf' hff f'
  obtain ⟨x, hx, hm⟩ := bind_ok hm
  obtain ⟨y, hy, hm⟩ := bind_ok hm
  obtain ⟨z0, hz0, hm⟩ := bind_ok hm
  obtain ⟨z1, hz1, hm⟩ := bind_ok hm
  obtain ⟨z2, hz2, hm⟩ := bind_ok hm
  cases hm
  unfold draw at h
  simp only at h
  obtain ⟨mm, hmm, h⟩ := bind_ok h
  obtain ⟨xe, hxe, h⟩ := bind_ok h
  obtain ⟨xl, hxl, h⟩ := bind_ok h
  obtain ⟨ye, hye, h⟩ := bind_ok h
  obtain ⟨yl, hyl, h⟩ := bind_ok h
  obtain ⟨xc, hxc, h⟩ := bind_ok h
  obtain ⟨yc, hyc, h⟩ := bind_ok h
  cases h
  -- rows
  unfold rows at hz0
  split at hz0
  · cases hz0
  obtain ⟨rs, hrs, hz0⟩ := bind_ok hz0
  split at hz0
  · cases hz0
  rename_i hne
  cases hz0
  rw [mapM_ok_iff] at hrs
  have hlen0 : z0.length = x.length - 1 := by
    rw [← hrs.length_eq, List.length_range]
  have hz0pos : 0 < z0.length := by
    rw [List.length_pos_iff]
    simpa using hne
  obtain ⟨hQ, hxs⟩ := qGrid hU.spacing hx (by omega)
  have hyl' : y.length = a.ebins + 1 := by
    have hy' := hy
    unfold bins at hy'
    obtain ⟨r, -, hy'⟩ := bind_ok hy'
    exact IntensityCli.bins_length hy'
  have hys : y.Pairwise (· < ·) := by
    rcases Nat.eq_zero_or_pos a.ebins with h0 | h0
    · rw [h0] at hyl'
      obtain ⟨v, rfl⟩ := List.length_eq_one_iff.1 hyl'
      simp
    · exact (eGrid h0 hy).2
  have hrow : ∀ i (hi : i < z0.length), ∃ pts, OnSphere u a f ((x.getD i 0 + x.getD (i + 1) 0) / 2) pts ∧
      Line u a f species y pts z0[i] := by
    intro i hi
    have := (List.forall₂_iff_get.1 hrs).2 i (by rw [List.length_range]; omega) hi
    simp only [List.get_eq_getElem, List.getElem_range] at this
    exact row_spec hU hS hys hyl' (hd i) this
  have hz0r : ∀ r ∈ z0, r.length = a.ebins := by
    intro r hr
    obtain ⟨i, hi, rfl⟩ := List.getElem_of_mem hr
    obtain ⟨_, _, hl⟩ := hrow i hi
    exact hl.1
  obtain ⟨b1, b2, b3⟩ := broaden_spec hz0r hz1
  have hxlen : x.length = z0.length + 1 := by omega
  obtain ⟨c1, c2, c3⟩ := constrain_spec hU b2 (by rw [b1]; exact hxlen) hxs hyl' hz2
  obtain ⟨s1, s2, s3⟩ := scaled_spec a z2
  have hebins : 0 < a.ebins := by
    rcases Nat.eq_zero_or_pos a.ebins with h0 | h0
    · exfalso
      have : (scaled a z2).flatten = [] := by
        rw [List.flatten_eq_nil_iff]
        intro r hr
        exact List.length_eq_zero_iff.1 ((s2 _ c2 r hr).trans h0)
      rw [this] at hmm
      cases hmm
    · exact h0
  have hE := (eGrid hebins hy).1
  have hn : (scaled a z2).length = z0.length := by rw [s1, c1, b1]
  rw [hn] at hxe hxc
  rw [getBinEdges_edges _ _ hxlen] at hxe
  rw [getBinEdges_edges _ _ hyl'] at hye
  rw [IntensityCli.centres_midpoints _ _ hxlen] at hxc
  rw [IntensityCli.centres_midpoints _ _ hyl'] at hyc
  cases hxe
  cases hye
  cases hxc
  cases hyc
  obtain ⟨fr, lo, hi, -, -, -, -, hlo, hhi, -⟩ := hE.limits
  have exl := minMax_sorted hxs hQ.first hQ.last hxl
  have eyl := minMax_sorted (hys.imp fun h => le_of_lt h) hlo hhi hyl
  subst exl
  subst eyl
  obtain ⟨n1, n2, n3⟩ := nanMinMax_spec hmm
  have hpix : ∀ w, (some w ∈ (scaled a z2).flatten ↔ ∃ (j : Fin a.ebins) (i : Fin (scaled a z2).length),
      ((scaled a z2).getD i.val []).getD j.val none = some w) := by
    intro w
    rw [List.mem_flatten]
    constructor
    · rintro ⟨r, hr, hw⟩
      obtain ⟨i, hi, rfl⟩ := List.getElem_of_mem hr
      obtain ⟨j, hj, hjw⟩ := List.getElem_of_mem hw
      have hrl := s2 _ c2 _ hr
      refine ⟨⟨j, by rw [← hrl]; exact hj⟩, ⟨i, hi⟩, ?_⟩
      simp only
      rw [List.getD_eq_getElem _ _ hi, List.getD_eq_getElem _ _ hj, hjw]
    · rintro ⟨j, i, hw⟩
      have hrl := s2 _ c2 _ (List.getElem_mem i.isLt)
      have hj : j.val < (scaled a z2)[i.val].length := by rw [hrl]; exact j.isLt
      rw [List.getD_eq_getElem _ _ i.isLt, List.getD_eq_getElem _ _ hj] at hw
      exact ⟨_, List.getElem_mem i.isLt, by rw [← hw]; exact List.getElem_mem hj⟩
  refine ⟨x, y, z0.length, fun i => z0.getD i [], fun i j => entry z1 i j, hxlen, hQ, hE, ?_, b3, ?_⟩
  · intro i hi
    simp only
    rw [List.getD_eq_getElem _ _ hi]
    exact hrow i hi
  · refine ⟨rfl, rfl, rfl, ⟨hlo, hhi⟩, rfl, hn, ?_, ?_, ?_, ?_, ?_, ?_, ?_⟩
    · intro j i hk
      have := (c3 i.val (by rw [← c1, ← s1]; exact i.isLt) j.val j.isLt).1 hk
      show ((scaled a z2).getD i.val []).getD j.val none = _
      rw [s3, this]
      rfl
    · intro j i hk
      have := (c3 i.val (by rw [← c1, ← s1]; exact i.isLt) j.val j.isLt).2 hk
      show ((scaled a z2).getD i.val []).getD j.val none = _
      rw [s3, this]
      rfl
    · intro w j i hw
      obtain ⟨lo', hi', hnm⟩ := n1 w ((hpix w).2 ⟨j, i, hw⟩)
      cases hv : a.vmin <;> cases hv' : a.vmax <;> simp [hnm]
    · intro v hv
      simp [hv]
    · intro v hv
      simp [hv]
    · intro v hv hnv
      simp only [hv, Option.orElse_none] at hnv
      have := n2 v hnv
      simp only [hpix] at this
      exact this
    · intro v hv hnv
      simp only [hv, Option.orElse_none] at hnv
      have := n3 v hnv
      simp only [hpix] at this
      exact this

/-! ## When something is drawn -/

theorem isLow_unique {u : Units} {a : Args} {fr : List (List ℝ)} {l l' : ℝ} (h : IsLow u a fr l) (h' : IsLow u a fr l') :
    l = l' := by
  unfold IsLow at h h'
  cases hm : a.eMin with
  | some e => rw [hm] at h h'; exact h.trans h'.symm
  | none =>
    rw [hm] at h h'
    simp only at h h'
    obtain ⟨h1, h2, h3⟩ := h
    obtain ⟨k1, k2, k3⟩ := h'
    apply le_antisymm
    · rcases k3 with rfl | ⟨v, hv, rfl⟩
      · exact h1
      · exact h2 v hv
    · rcases h3 with rfl | ⟨v, hv, rfl⟩
      · exact k1
      · exact k2 v hv

theorem isHigh_unique {u : Units} {a : Args} {fr : List (List ℝ)} {l l' : ℝ} (h : IsHigh u a fr l) (h' : IsHigh u a fr l') :
    l = l' := by
  unfold IsHigh at h h'
  cases hm : a.eMax with
  | some e => rw [hm] at h h'; exact h.trans h'.symm
  | none =>
    cases hi : a.eI with
    | some e => rw [hm, hi] at h h'; exact h.trans h'.symm
    | none =>
      rw [hm, hi] at h h'
      obtain ⟨v, hv, rfl, h2⟩ := h
      obtain ⟨w, hw, rfl, k2⟩ := h'
      have := h2 w hw
      have := k2 v hv
      linarith

/-- The energy bins are made if and only if the lower limit is below the upper one. -/
theorem bins_iff {u : Units} {a : Args} {f : Fc} {fr : List (List ℝ)}
    (hfr : f.freqs [⟨0, 0, 1 / 2⟩] = .ok fr) (hne : fr.flatten ≠ []) {lo hi : ℝ} (hlo : IsLow u a fr lo)
    (hhi : IsHigh u a fr hi) : (lo < hi → ∃ y, bins u a f = .ok y) ∧ (hi ≤ lo → bins u a f = .error .valueError) := by
  have hne' : fr.flatten.map (· * u.energy) ≠ [] := by simpa using hne
  have elo : ∃ l, Cli.lowerLimit (fr.flatten.map (· * u.energy)) u.room a.eMin = .ok l := by
    cases a.eMin with
    | some e => exact ⟨e, rfl⟩
    | none =>
      obtain ⟨m, hm, -⟩ := Cli.npMin_spec ((fr.flatten.map (· * u.energy)).map fun f => f - u.room) (by simpa using hne)
      exact ⟨min m 0, by unfold Cli.lowerLimit; rw [hm]; rfl⟩
  have ehi : ∃ l, Cli.upperLimit (fr.flatten.map (· * u.energy)) (12 / 10) (emax a) = .ok l := by
    cases emax a with
    | some e => exact ⟨e, rfl⟩
    | none =>
      obtain ⟨m, hm, -⟩ := Cli.npMax_spec _ hne'
      exact ⟨_, by unfold Cli.upperLimit; rw [hm]; rfl⟩
  obtain ⟨l, hl⟩ := elo
  obtain ⟨r, hr⟩ := ehi
  have hb : bins u a f = if l ≥ r then .error .valueError else .ok (Cli.linspace l r (a.ebins + 1)) := by
    unfold bins
    rw [hfr]
    show Cli.energyBins _ _ _ _ _ _ = _
    unfold Cli.energyBins
    rw [hl, hr]
    rfl
  rw [isLow_unique hlo (lowerLimit_spec hl), isHigh_unique hhi (upperLimit_spec hr), hb]
  constructor
  · intro h
    rw [if_neg (not_le.2 h)]
    exact ⟨_, rfl⟩
  · intro h
    rw [if_pos h]

/-- What the calculations of the library give does not lack anything. -/
structure Total (f : Fc) : Prop where
  freqs : ∀ l, ∃ r, f.freqs l = .ok r
  pdos : ∀ w l y, ∃ c, f.pdos w l y = .ok c
  sqw : ∀ t l y, ∃ r, f.sqw t l y = .ok r

theorem sphere_ok {u : Units} {a : Args} {f : Fc} (hU : Usable u a f) {d : Draws} (hd : Sampling.RandomJitter d.jitter)
    (q : ℝ) : ∃ pts, Powder.sphereQptsFrac (npts a q) a.sampling d.jitter d.ringJitter d.rnd q u.recip f.cell = .ok pts := by
  have hf1 : 1 ≤ fewest a.sampling := by unfold fewest; split <;> omega
  have hw : Wanted a q (npts a q) := npts_wanted a q fun hn => by
    have := hU.nptsMin hn
    omega
  have hle : fewest a.sampling ≤ npts a q := by
    cases hn : a.nptsDensity with
    | none =>
      unfold Wanted at hw
      rw [hn] at hw
      rw [hw]
      exact hU.npts hn
    | some n =>
      have := hU.nptsMin (by rw [hn]; simp)
      unfold Wanted at hw
      rw [hn] at hw
      have := hw.1
      omega
  have h0 : 0 < npts a q := by omega
  have h6 : a.sampling = .improved → 6 ≤ npts a q := fun h => by rw [h] at hle; exact hle
  have h3 : a.sampling = .polarGrid → 3 ≤ npts a q := fun h => by rw [h] at hle; exact hle
  obtain ⟨l, g1, -⟩ := Powder.C76_sphere_modulus (npts a q) a.sampling d.jitter d.ringJitter d.rnd q u.recip f.cell
    hU.cell hd hU.sampling h0 h6 h3
  exact ⟨l, g1⟩

/-- Two species, of which `s` is one. -/
def AmongOthers (species : List String) (s : String) : Prop := s ∈ species ∧ ∃ t ∈ species, t ≠ s

theorem two_species {species : List String} {s : String} (h : AmongOthers species s) :
    2 ≤ (Cli.speciesList (fun i => species.getD i "") species.length).length := by
  obtain ⟨hs, t, ht, hts⟩ := h
  have mem : ∀ v ∈ species, v ∈ Cli.speciesList (fun i => species.getD i "") species.length := by
    intro v hv
    obtain ⟨i, hi, rfl⟩ := List.mem_iff_getElem.1 hv
    rw [Cli.mem_speciesList]
    exact ⟨i, hi, by rw [List.getD_eq_getElem _ _ hi]⟩
  by_contra hlt
  have h1 := mem s hs
  have h2 := mem t ht
  generalize Cli.speciesList (fun i => species.getD i "") species.length = l at h1 h2 hlt
  match l, h1, h2, hlt with
  | [], h1, _, _ => cases h1
  | [v], h1, h2, _ =>
    simp only [List.mem_singleton] at h1 h2
    exact hts (h2.trans h1.symm)
  | _ :: _ :: _, _, _, hlt => simp at hlt

theorem pdosRow_ok {a : Args} {f : Fc} {species : List String} (hS : Sound f species) (hT : Total f)
    (hw : dosLike a.weighting = true) (hp : ∀ s, a.pdos = some s → AmongOthers species s) (y : List ℝ) (pts : List (V3 ℝ)) :
    ∃ line, pdosRow a f y pts = .ok line := by
  obtain ⟨w, hw1, -⟩ := pdosWeighting_of (w := a.weighting) (by simpa [dosLike] using hw)
  obtain ⟨c, hc⟩ := hT.pdos w pts y
  obtain ⟨hwf, hlen, hsp⟩ := hS.pdos _ _ _ _ hc
  unfold pdosRow
  rw [hw1]
  simp only [bind, Except.bind]
  rw [hc]
  simp only
  cases hpd : a.pdos with
  | none =>
    obtain ⟨d, hd, -⟩ := Cli.C73_total_only "Total" c _ hwf
    rw [Option.map_none, hd]
    exact ⟨_, rfl⟩
  | some s =>
    have ha := hp s hpd
    have h2 := two_species ha
    rw [← hlen] at h2
    obtain ⟨r, hr, -, -, hr2, -⟩ := (Cli.C73_named_partial "Total" c _ hwf (fun i => species.getD i "") hsp h2 [s] (by simp)
      [s] (by
        obtain ⟨i, hi, hsi⟩ := List.mem_iff_getElem.1 ha.1
        have : ∃ i, i < c.len ∧ species.getD i "" = s := ⟨i, by omega, by rw [List.getD_eq_getElem _ _ hi]; exact hsi⟩
        rw [List.filter_cons_of_pos (by simpa using this), List.filter_nil])).2 (by simp)
    rw [Option.map_some, hr]
    simp only [rowOf]
    obtain ⟨l, hl⟩ := List.length_eq_one_iff.1 hr2
    rw [hl]
    exact ⟨_, rfl⟩

theorem row_ok {u : Units} {a : Args} {f : Fc} {species : List String} (hU : Usable u a f) (hS : Sound f species)
    (hT : Total f) (hp : ∀ s, a.pdos = some s → AmongOthers species s) {y : List ℝ} (hy : y.Pairwise (· < ·))
    {d : Draws} (hd : Sampling.RandomJitter d.jitter) (q : ℝ) : ∃ line, row u a f y d q = .ok line := by
  obtain ⟨pts, hpts⟩ := sphere_ok hU hd q
  unfold row
  rw [hpts]
  simp only [bind, Except.bind]
  split
  · obtain ⟨fr, hfr⟩ := hT.freqs pts
    unfold dosRow
    rw [hfr]
    simp only [bind, Except.bind]
    have hc : (0 : ℝ) < 1 / u.energy := by have := hU.energy; positivity
    rw [Dos.C21_dos_counts_modes_in_bin (1 / u.energy) hc y (hy.imp fun h => le_of_lt h) hS.modes]
    exact ⟨_, rfl⟩
  · split
    · exact pdosRow_ok hS hT (by assumption) hp y pts
    · exact hT.sqw _ _ _

theorem constrain_ok {u : Units} {a : Args} {f : Fc} (hU : Usable u a f) {x y : List ℝ} {z : List (List ℝ)}
    (hx : x.length = z.length + 1) (hy : y.length = a.ebins + 1) : ∃ out, constrain u a x y z = .ok out := by
  unfold constrain
  split
  · exact ⟨_, rfl⟩
  · rename_i hc
    rw [getBinEdges_edges _ _ hx, IntensityCli.centres_midpoints _ _ hy]
    simp only [bind, Except.bind]
    obtain ⟨e, he⟩ : ∃ e, Kinematics.energies a.eI a.eF = .ok e := by
      cases h1 : a.eI with
      | some v =>
        have h2 : a.eF = none := by
          rcases hU.one with h | h
          · rw [h] at h1; cases h1
          · exact h
        rw [h2]
        exact ⟨_, rfl⟩
      | none =>
        cases h2 : a.eF with
        | none => exact absurd ⟨h1, h2⟩ hc
        | some v => exact ⟨_, rfl⟩
    unfold Kinematics.applyConstraints
    rw [he]
    exact ⟨_, rfl⟩

theorem draw_ok (a : Args) {x y : List ℝ} {z : List (List (Option ℝ))} (hx : x.length = z.length + 1)
    (hy : y.length = a.ebins + 1) (hz : z.flatten ≠ []) : ∃ im, draw a x y z = .ok im := by
  have mm : ∀ l : List ℝ, l ≠ [] → ∃ p, Plot.minMax l = .ok p := by
    intro l hl
    cases l with
    | nil => exact absurd rfl hl
    | cons v l => exact ⟨_, rfl⟩
  obtain ⟨p, hp⟩ := mm x (by intro h; rw [h] at hx; simp at hx)
  obtain ⟨r, hr⟩ := mm y (by intro h; rw [h] at hy; simp at hy)
  obtain ⟨n, hn⟩ : ∃ n, nanMinMax z.flatten = .ok n := by
    unfold nanMinMax
    rw [if_neg (by simpa using hz)]
    split
    · exact ⟨_, rfl⟩
    · exact ⟨_, rfl⟩
  unfold draw
  rw [hn, getBinEdges_edges _ _ hx, getBinEdges_edges _ _ hy, IntensityCli.centres_midpoints _ _ hx,
    IntensityCli.centres_midpoints _ _ hy]
  simp only [bind, Except.bind, hp, hr]
  exact ⟨_, rfl⟩

/-- With two bins or more along both axes and a known shape every width works. -/
theorem broaden_ok {coeffs : ℝ → List ℝ} {u : Units} {a : Args} {f : Fc} {x y : List ℝ} {z : List (List ℝ)}
    (hs : 0 < a.qSpacing) (hq : a.qMin < a.qMax)
    (hb : a.qBroadening ≠ none ∨ a.energyBroadening ≠ none →
      (a.shape = "gauss" ∨ a.shape = "lorentz") ∧ 2 ≤ a.ebins ∧ a.qSpacing < a.qMax - a.qMin)
    (hx : Cli.qBinEdges a.qMin a.qMax a.qSpacing = .ok x) (hy : EGrid u a f y) (hxz : x.length = z.length + 1) :
    ∃ z', broaden coeffs a x y z = .ok z' := by
  unfold broaden
  split
  · rename_i hc
    obtain ⟨hsh, h2, hw⟩ := hb (by
      rw [Bool.or_eq_true, Option.isSome_iff_ne_none, Option.isSome_iff_ne_none] at hc
      exact hc.symm)
    obtain ⟨x', w, hx', hl2, hhead, hlast, hdiff, hw0, hws, -⟩ := Cli.C94_q_bins a.qMin a.qMax a.qSpacing hs hq
    rw [hx] at hx'
    obtain rfl := Except.ok.inj hx'
    have hn : 2 ≤ z.length := by
      by_contra hcon
      have hlen : x.length = 2 := by omega
      match x, hlen with
      | [p, q], _ =>
        simp only [List.head?_cons, Option.some.injEq] at hhead
        simp only [List.getLast?_cons_cons, List.getLast?_singleton, Option.some.injEq] at hlast
        have := hdiff 0 (by simp)
        simp at this
        linarith
    have hex : Broaden.EqualEdges z.length x := by
      refine ⟨hxz, w, hw0, fun i hi => ?_⟩
      rw [List.getD_eq_getElem _ _ (by omega), List.getD_eq_getElem _ _ (by omega)]
      exact hdiff i (by omega)
    obtain ⟨hyl, fr, lo, hi, -, -, -, hlt, -, -, hyv⟩ := hy
    have he0 : (0 : ℝ) < a.ebins := by exact_mod_cast (by omega : 0 < a.ebins)
    have hey : Broaden.EqualEdges a.ebins y := by
      refine ⟨hyl, (hi - lo) / a.ebins, div_pos (by linarith) he0, fun i hi' => ?_⟩
      rw [List.getD_eq_getElem _ _ (by omega), List.getD_eq_getElem _ _ (by omega), eq_div_iff he0.ne']
      have h1 := hyv i (by omega)
      have h2 := hyv (i + 1) (by omega)
      push_cast at h2
      linarith
    obtain ⟨r, hr⟩ := (Broaden.C153_map ⟨coeffs, "fwhm", a.shape, "cheby-log", 1 / 100⟩ (by norm_num) none
      (limx := none) (limy := none) (by intro l hl; cases hl) (by intro l hl; cases hl) hn h2 hex hey
      (widthOf a.qBroadening) (widthOf a.energyBroadening) fun i j => entry z i.val j.val).2
      ⟨fun _ => ⟨hsh, Or.inl rfl⟩, fun _ => ⟨hsh, Or.inl rfl, Broaden.OkEx.hundredth_fits _ hsh⟩⟩
    rw [hr]
    exact ⟨_, rfl⟩
  · exact ⟨z, rfl⟩

/-- **C111** When something is drawn: options that can be used together, at least one bin in each direction, a species
that is one of several, with a broadening at least two bins in each direction and a known shape, calculations of the
library that do not fail. The widths can be anything. -/
theorem C111_drawn (coeffs : ℝ → List ℝ) (u : Units) (d : Nat → Draws) (hd : ∀ i, Sampling.RandomJitter (d i).jitter)
    (a : Args) (f : Fc) (species : List String) (hU : Usable u a f) (hS : Sound f species) (hT : Total f)
    (hq : a.qMin < a.qMax) (he : 0 < a.ebins) {fr : List (List ℝ)} (hfr : f.freqs [⟨0, 0, 1 / 2⟩] = .ok fr) {lo hi : ℝ}
    (hlo : IsLow u a fr lo) (hhi : IsHigh u a fr hi) (hlt : lo < hi)
    (hp : ∀ s, a.pdos = some s → a.weighting ≠ "coherent" ∧ AmongOthers species s)
    (hb : a.qBroadening ≠ none ∨ a.energyBroadening ≠ none →
      (a.shape = "gauss" ∨ a.shape = "lorentz") ∧ 2 ≤ a.ebins ∧ a.qSpacing < a.qMax - a.qMin) :
    ∃ im, powderMain coeffs u d a (.fc f) = .ok im := by
  obtain ⟨hfl, hfm⟩ := hS.freqs _ _ hfr
  have hne : fr.flatten ≠ [] := by
    obtain ⟨r, hr⟩ := List.length_eq_one_iff.1 hfl
    have := hfm r (by rw [hr]; simp)
    rw [hr]
    intro h
    have hm := hS.modes
    simp at h
    rw [h] at this
    simp at this
    omega
  obtain ⟨y, hy⟩ := (bins_iff hfr hne hlo hhi).1 hlt
  obtain ⟨⟨hyl, -⟩, hys⟩ := eGrid he hy
  obtain ⟨x, w, hx, hx2, -, -, -, -, -, -⟩ := Cli.C94_q_bins a.qMin a.qMax a.qSpacing hU.spacing hq
  obtain ⟨-, hxs⟩ := qGrid hU.spacing hx hx2
  have hcheck : checkData a (.fc f) = .ok f := by
    unfold checkData
    simp only
    rw [if_neg]
    rintro ⟨h1, h2⟩
    obtain ⟨s, hs⟩ := Option.isSome_iff_exists.1 h1
    exact (hp s hs).1 h2
  have hrow : ∀ i, ∃ line, row u a f y (d i) ((x.getD i 0 + x.getD (i + 1) 0) / 2) = .ok line := fun i =>
    row_ok hU hS hT (fun s hs => (hp s hs).2) hys (hd i) _
  choose line hline using hrow
  have hnq : ¬ Cli.nQBins a.qMin a.qMax a.qSpacing < 0 := by
    intro h
    unfold Cli.nQBins at h
    have : 0 < (a.qMax - a.qMin) / a.qSpacing := div_pos (by linarith) hU.spacing
    have := Int.ceil_pos.2 this
    omega
  have hrows : rows u a f x y d = .ok ((List.range (x.length - 1)).map line) := by
    unfold rows
    rw [if_neg hnq, mapM_ok_of_forall _ line _ (fun i _ => hline i)]
    simp only [bind, Except.bind]
    rw [if_neg (by simp; omega)]
  have hlen : ∀ i, (line i).length = a.ebins := by
    intro i
    have := hline i
    obtain ⟨_, _, hl⟩ := row_spec hU hS hys hyl (hd i) this
    exact hl.1
  have hz : ∀ r ∈ (List.range (x.length - 1)).map line, r.length = a.ebins := by
    intro r hr
    obtain ⟨i, -, rfl⟩ := List.mem_map.1 hr
    exact hlen i
  have hxz : x.length = ((List.range (x.length - 1)).map line).length + 1 := by simp; omega
  obtain ⟨z1, hbr⟩ := broaden_ok hU.spacing hq hb hx (eGrid he hy).1 hxz (coeffs := coeffs)
  obtain ⟨k1, k2, -⟩ := broaden_spec hz hbr
  rw [← k1] at hxz
  obtain ⟨z, hzc⟩ := constrain_ok hU (y := y) hxz hyl
  obtain ⟨g1, g2, -⟩ := constrain_spec hU k2 hxz hxs hyl hzc
  have hmap : powderMap coeffs u d a (.fc f) = .ok (x, y, scaled a z) := by
    unfold powderMap
    rw [hcheck, hx]
    simp only [bind, Except.bind, hy, hrows, hbr, hzc]
    rfl
  have hsl : (scaled a z).length = z.length ∧ ∀ r ∈ scaled a z, r.length = a.ebins := by
    unfold scaled
    split
    · exact ⟨rfl, g2⟩
    · refine ⟨by simp, ?_⟩
      intro r hr
      obtain ⟨r', hr', rfl⟩ := List.mem_map.1 hr
      rw [List.length_map]
      exact g2 r' hr'
  unfold powderMain
  rw [hmap]
  apply draw_ok a (by rw [hsl.1, g1]; exact hxz) hyl
  intro hnil
  rw [List.flatten_eq_nil_iff] at hnil
  have hpos : 0 < (scaled a z).length := by rw [hsl.1, g1]; omega
  have h1 := hnil _ (List.getElem_mem hpos)
  have h2 := hsl.2 _ (List.getElem_mem hpos)
  rw [h1] at h2
  simp at h2
  omega

/-! ## When nothing is drawn -/

theorem qBins_le {a : Args} (hs : 0 < a.qSpacing) (hq : a.qMax ≤ a.qMin) : Cli.nQBins a.qMin a.qMax a.qSpacing ≤ 0 := by
  unfold Cli.nQBins
  rw [Int.ceil_le]
  have : (a.qMax - a.qMin) / a.qSpacing ≤ 0 := div_nonpos_of_nonpos_of_nonneg (by linarith) hs.le
  simpa using this

theorem error_of_not_ok {α : Type} {e : Except Err α} (h : ∀ v, e ≠ .ok v) : ∃ r, e = .error r := by
  cases e with
  | error r => exact ⟨r, rfl⟩
  | ok v => exact absurd rfl (h v)

/-- What a map that is drawn is made of. -/
theorem stages {coeffs : ℝ → List ℝ} {u : Units} {d : Nat → Draws} {a : Args} {f : Fc} {im : Image}
    (h : powderMain coeffs u d a (.fc f) = .ok im) : ∃ x y z z1 z2, Cli.qBinEdges a.qMin a.qMax a.qSpacing = .ok x ∧
      bins u a f = .ok y ∧ rows u a f x y d = .ok z ∧ broaden coeffs a x y z = .ok z1 ∧ constrain u a x y z1 = .ok z2 ∧
      draw a x y (scaled a z2) = .ok im := by
  unfold powderMain powderMap at h
  obtain ⟨m, hm, h⟩ := bind_ok h
  obtain ⟨f', hf', hm⟩ := bind_ok hm
  have hff : f' = f := by
    unfold checkData at hf'
    simp only at hf'
    split at hf'
    · cases hf'
    · exact (Except.ok.inj hf').symm
  rw [hff] at hm
  clear hf' hff f'
  obtain ⟨x, hx, hm⟩ := bind_ok hm
  obtain ⟨y, hy, hm⟩ := bind_ok hm
  obtain ⟨z0, hz0, hm⟩ := bind_ok hm
  obtain ⟨z1, hz1, hm⟩ := bind_ok hm
  obtain ⟨z2, hz2, hm⟩ := bind_ok hm
  cases hm
  exact ⟨x, y, z0, z1, z2, hx, hy, hz0, hz1, hz2, h⟩

theorem rows_first {u : Units} {a : Args} {f : Fc} {x y : List ℝ} {d : Nat → Draws} {z : List (List ℝ)}
    (h : rows u a f x y d = .ok z) : ∃ q line, row u a f y (d 0) q = .ok line := by
  unfold rows at h
  split at h
  · cases h
  obtain ⟨rs, hrs, h⟩ := bind_ok h
  split at h
  · cases h
  rename_i hne
  cases h
  rw [mapM_ok_iff] at hrs
  have hpos : 0 < z.length := by
    rw [List.length_pos_iff]
    simpa using hne
  have hl := hrs.length_eq
  have := List.forall₂_iff_get.1 hrs
  have h0 := this.2 0 (by rw [hl]; exact hpos) hpos
  simp only [List.get_eq_getElem, List.getElem_range] at h0
  exact ⟨_, _, h0⟩

theorem pdos_arranged {u : Units} {a : Args} {f : Fc} {y : List ℝ} {d : Draws} {q : ℝ} {line : List ℝ} {s : String}
    (hp : a.pdos = some s) (hw : dosLike a.weighting = true) (h : row u a f y d q = .ok line) :
    ∃ w pts c r, f.pdos w pts y = .ok c ∧ Cli.arrangePdos "Total" c (some [s]) = .ok r := by
  unfold row at h
  obtain ⟨pts, -, h⟩ := bind_ok h
  rw [if_neg (by rw [hp]; simp), if_pos hw] at h
  unfold pdosRow at h
  obtain ⟨w, -, h⟩ := bind_ok h
  obtain ⟨c, hc, h⟩ := bind_ok h
  obtain ⟨r, hr, -⟩ := bind_ok h
  rw [hp] at hr
  exact ⟨w, pts, c, r, hc, hr⟩

/-- **C111** `--pdos` for a crystal with one species: nothing is drawn, although the species that is named is there. -/
theorem C111_single_species (coeffs : ℝ → List ℝ) (u : Units) (d : Nat → Draws) (a : Args) (f : Fc)
    (species : List String) (hS : Sound f species) (v : String) (hv : ∀ s ∈ species, s = v) (s : String)
    (hp : a.pdos = some s) (hw : dosLike a.weighting = true) : ∃ e, powderMain coeffs u d a (.fc f) = .error e := by
  apply error_of_not_ok
  intro im h
  obtain ⟨x, y, z, z1, z2, -, -, hz, -⟩ := stages h
  obtain ⟨q, line, hl⟩ := rows_first hz
  obtain ⟨w, pts, c, r, hc, hr⟩ := pdos_arranged hp hw hl
  obtain ⟨hwf, hlen, hsp⟩ := hS.pdos _ _ _ _ hc
  rw [Cli.C73_one_species_fails "Total" c _ hwf v (fun i hi => by
    rw [hsp i hi, List.getD_eq_getElem _ _ (by omega), hv _ (List.getElem_mem _)])] at hr
  cases hr

/-- **C111** What is refused: data other than force constants, `--pdos` with the coherent weighting, empty or reversed
ranges of |q| and of energy, both an incident and a final energy, a species that is not in the crystal, no energy bins. -/
theorem C111_refused (coeffs : ℝ → List ℝ) (u : Units) (d : Nat → Draws) (a : Args) (f : Fc) (species : List String)
    (hs : 0 < a.qSpacing) (hS : Sound f species) :
    powderMain coeffs u d a .other = .error .typeError ∧
    (a.pdos ≠ none → a.weighting = "coherent" → powderMain coeffs u d a (.fc f) = .error .valueError) ∧
    (a.qMax ≤ a.qMin → ∃ e, powderMain coeffs u d a (.fc f) = .error e) ∧
    (∀ fr lo hi, f.freqs [⟨0, 0, 1 / 2⟩] = .ok fr → IsLow u a fr lo → IsHigh u a fr hi → hi ≤ lo →
      ∃ e, powderMain coeffs u d a (.fc f) = .error e) ∧
    (a.eI ≠ none → a.eF ≠ none → ∃ e, powderMain coeffs u d a (.fc f) = .error e) ∧
    (∀ s, a.pdos = some s → s ∉ species → dosLike a.weighting = true →
      ∃ e, powderMain coeffs u d a (.fc f) = .error e) ∧
    (Usable u a f → (∀ i, Sampling.RandomJitter (d i).jitter) → a.ebins = 0 →
      ∃ e, powderMain coeffs u d a (.fc f) = .error e) := by
  refine ⟨rfl, ?_, ?_, ?_, ?_, ?_, ?_⟩
  · intro h1 h2
    unfold powderMain powderMap checkData
    simp only
    rw [if_pos ⟨Option.isSome_iff_ne_none.2 h1, h2⟩]
    rfl
  · intro hq
    apply error_of_not_ok
    intro im h
    obtain ⟨x, y, z, z1, z2, hx, -, hz, -⟩ := stages h
    have hn := qBins_le hs hq
    unfold rows at hz
    split at hz
    · cases hz
    unfold Cli.qBinEdges at hx
    split at hx
    · cases hx
    cases hx
    have : (Cli.linspace a.qMin a.qMax (Cli.nQBins a.qMin a.qMax a.qSpacing + 1).toNat).length - 1 = 0 := by
      simp only [Cli.linspace, List.length_map, List.length_range]
      omega
    rw [this] at hz
    cases hz
  · intro fr lo hi hfr hlo hhi hle
    apply error_of_not_ok
    intro im h
    obtain ⟨x, y, z, z1, z2, -, hy, -⟩ := stages h
    obtain ⟨hfl, hfm⟩ := hS.freqs _ _ hfr
    have hne : fr.flatten ≠ [] := by
      obtain ⟨r, hr⟩ := List.length_eq_one_iff.1 hfl
      have := hfm r (by rw [hr]; simp)
      rw [hr]
      intro h
      have hm := hS.modes
      simp at h
      rw [h] at this
      simp at this
      omega
    rw [(bins_iff hfr hne hlo hhi).2 hle] at hy
    cases hy
  · intro h1 h2
    apply error_of_not_ok
    intro im h
    obtain ⟨x, y, z, z1, z2, -, -, -, -, hz, -⟩ := stages h
    unfold constrain at hz
    rw [if_neg (fun h => h1 h.1)] at hz
    obtain ⟨xe, -, hz⟩ := bind_ok hz
    obtain ⟨yc, -, hz⟩ := bind_ok hz
    unfold Kinematics.applyConstraints at hz
    obtain ⟨e, he, -⟩ := bind_ok hz
    obtain ⟨v1, e1⟩ := Option.ne_none_iff_exists'.1 h1
    obtain ⟨v2, e2⟩ := Option.ne_none_iff_exists'.1 h2
    rw [e1, e2] at he
    cases he
  · intro s hp hns hw
    by_cases hv : ∃ v, ∀ t ∈ species, t = v
    · obtain ⟨v, hv⟩ := hv
      exact C111_single_species coeffs u d a f species hS v hv s hp hw
    apply error_of_not_ok
    intro im h
    obtain ⟨x, y, z, z1, z2, -, -, hz, -⟩ := stages h
    obtain ⟨q, line, hl⟩ := rows_first hz
    obtain ⟨w, pts, c, r, hc, hr⟩ := pdos_arranged hp hw hl
    obtain ⟨hwf, hlen, hsp⟩ := hS.pdos _ _ _ _ hc
    have h2 : 2 ≤ (Cli.speciesList (fun i => species.getD i "") species.length).length := by
      push Not at hv
      obtain ⟨t, ht, -⟩ := hv ""
      obtain ⟨t', ht', hne⟩ := hv t
      exact two_species ⟨ht, t', ht', hne⟩
    rw [← hlen] at h2
    rw [(Cli.C73_named_partial "Total" c _ hwf (fun i => species.getD i "") hsp h2 [s] (by simp) [] (by
      symm
      rw [List.filter_eq_nil_iff]
      intro t ht
      rw [List.mem_singleton.1 ht]
      simp only [decide_eq_true_eq]
      rintro ⟨i, hi, rfl⟩
      apply hns
      rw [List.getD_eq_getElem _ _ (by omega)]
      exact List.getElem_mem _)).1 rfl] at hr
    cases hr
  · intro hU hd h0
    apply error_of_not_ok
    intro im h
    obtain ⟨edges, y, n, line, z, -, -, hE, -⟩ := C111_map_partial coeffs u d hd a f species hU hS im h
    obtain ⟨fr, lo, hi, -, -, -, hlt, g1, g2, -⟩ := hE.limits
    have hl := hE.length
    rw [h0] at hl
    obtain ⟨v, rfl⟩ := List.length_eq_one_iff.1 hl
    simp only [List.head?_cons, List.getLast?_singleton, Option.some.injEq] at g1 g2
    linarith

/-! ## A concrete case: two atoms, a species, an incident energy -/

/-- Rock salt: frequencies do not depend on the q-point. -/
noncomputable def exFc : Fc where
  cell := ⟨⟨4, 0, 0⟩, ⟨0, 4, 0⟩, ⟨0, 0, 4⟩⟩
  nModes := 6
  freqs l := .ok (l.map fun _ => [1, 2, 3, 4, 5, 6])
  pdos _ _ y := .ok ⟨y, "meV", [List.replicate (y.length - 1) 1, List.replicate (y.length - 1) 2], "1/meV", none,
    ⟨[], some [[("species", "Na")], [("species", "Cl")]]⟩⟩
  sqw _ _ y := .ok (List.replicate (y.length - 1) 1)

noncomputable def exArgs : Args where
  weighting := "coherent-dos"
  pdos := some "Cl"
  temperature := none
  qMin := 0
  qMax := 3
  qSpacing := 1 / 2
  npts := 0
  nptsDensity := some 400
  nptsMin := 100
  nptsMax := 1000
  sampling := .golden
  ebins := 200
  eMin := none
  eMax := none
  eI := some 50
  eF := none
  angleRange := (0, 180)
  qBroadening := some [1 / 5]
  energyBroadening := some [1, 1 / 10]
  shape := "gauss"
  scale := some 2
  vmin := none
  vmax := some 10

noncomputable def exUnits : Units := ⟨10, 1 / 100000, 1, 2⟩

theorem exSound : Sound exFc ["Na", "Cl"] where
  modes := by show 0 < 6; omega
  freqs := by
    intro l r h
    cases h
    refine ⟨by simp, ?_⟩
    intro x hx
    obtain ⟨-, -, rfl⟩ := List.mem_map.1 hx
    rfl
  pdos := by
    intro w l y c h
    cases h
    refine ⟨⟨by simp, ?_, ?_, ?_, by simp [DWF], ?_, rfl, ?_⟩, rfl, ?_⟩
    · intro r hr
      simp only [List.mem_cons, List.not_mem_nil, or_false] at hr
      rcases hr with rfl | rfl <;> simp
    · simp only
      omega
    · intro ls hls
      cases hls
      rfl
    · intro ls hls d hd
      cases hls
      simp only [List.mem_cons, List.not_mem_nil, or_false] at hd
      rcases hd with rfl | rfl <;> simp [DWF]
    · intro ls hls d hd
      cases hls
      simp only [List.mem_cons, List.not_mem_nil, or_false] at hd
      rcases hd with rfl | rfl <;> decide
    · intro i hi
      have : i = 0 ∨ i = 1 := by
        change i < 2 at hi
        omega
      rcases this with rfl | rfl <;> rfl
  sqw := by
    intro t l y r h
    cases h
    simp

theorem exTotal : Total exFc := ⟨fun _ => ⟨_, rfl⟩, fun _ _ _ => ⟨_, rfl⟩, fun _ _ _ => ⟨_, rfl⟩⟩

theorem exUsable : Usable exUnits exArgs exFc where
  energy := by norm_num [exUnits]
  momentum := by norm_num [exUnits]
  spacing := by norm_num [exArgs]
  cell := by norm_num [exFc, cellVolume, Lattice.dot, Lattice.cross]
  weighting := by simp [exArgs]
  sampling := by simp [exArgs]
  npts := by simp [exArgs]
  nptsMin := by simp [exArgs, fewest]
  one := Or.inr rfl
  incident := by intro e h; cases h; norm_num
  final := by intro e h; cases h
  angle1 := by norm_num [exArgs]
  angle2 := by norm_num [exArgs]
  right := by left; norm_num [exArgs]

/-- The hypotheses of `C111_map_partial` and of `C111_drawn` are met. -/
example (coeffs : ℝ → List ℝ) (d : Nat → Draws) (hd : ∀ i, Sampling.RandomJitter (d i).jitter) :
    ∃ im, powderMain coeffs exUnits d exArgs (.fc exFc) = .ok im ∧ im.ylim = (0, 50) ∧ im.norm.2 = some 10 := by
  obtain ⟨im, h⟩ := C111_drawn coeffs exUnits d hd exArgs exFc _ exUsable exSound exTotal (by norm_num [exArgs])
    (by norm_num [exArgs]) (fr := [[1, 2, 3, 4, 5, 6]]) rfl (lo := 0) (hi := 50)
    (by
      show (0 : ℝ) ≤ 0 ∧ _
      refine ⟨le_rfl, ?_, Or.inl rfl⟩
      intro v hv
      simp only [List.flatten_cons, List.flatten_nil, List.append_nil, List.mem_cons, List.not_mem_nil, or_false] at hv
      rcases hv with rfl | rfl | rfl | rfl | rfl | rfl <;> norm_num [exUnits])
    rfl (by norm_num) (by
      intro s hs
      cases hs
      exact ⟨by decide, by simp, "Na", by simp, by decide⟩) (fun _ => ⟨Or.inl rfl, by norm_num [exArgs], by norm_num [exArgs]⟩)
  refine ⟨im, h, ?_⟩
  obtain ⟨edges, y, n, line, z, -, -, hE, -, -, hsh⟩ := C111_map_partial coeffs exUnits d hd exArgs exFc _ exUsable exSound im h
  obtain ⟨fr, lo, hi, g1, g2, g3, -, g4, g5, -⟩ := hE.limits
  cases g1
  obtain rfl : hi = 50 := g3
  have hlo : lo = 0 := by
    refine isLow_unique (a := exArgs) (u := exUnits) g2 ?_
    show (0 : ℝ) ≤ 0 ∧ _
    refine ⟨le_rfl, ?_, Or.inl rfl⟩
    intro v hv
    simp only [List.map_cons, List.map_nil, List.flatten_cons, List.flatten_nil, List.append_nil, List.mem_cons,
      List.not_mem_nil, or_false] at hv
    rcases hv with rfl | rfl | rfl | rfl | rfl | rfl <;> norm_num [exUnits]
  subst hlo
  obtain ⟨k1, k2⟩ := hsh.ylim
  rw [g4] at k1
  rw [g5] at k2
  exact ⟨Prod.ext (Option.some.inj k1).symm (Option.some.inj k2).symm, hsh.highest 10 rfl⟩

/-- The hypotheses of `C111_refused`: the same data, a species which is not there. -/
example (coeffs : ℝ → List ℝ) (d : Nat → Draws) :
    ∃ e, powderMain coeffs exUnits d { exArgs with pdos := some "K" } (.fc exFc) = .error e := by
  obtain ⟨-, -, -, -, -, h, -⟩ := C111_refused coeffs exUnits d { exArgs with pdos := some "K" } exFc _
    (by norm_num [exArgs]) exSound
  exact h "K" rfl (by decide) rfl

/-- Silicon: the hypotheses of `C111_single_species`. -/
noncomputable def exSiFc : Fc := { exFc with
  pdos := fun _ _ y => .ok ⟨y, "meV", [List.replicate (y.length - 1) 1, List.replicate (y.length - 1) 2], "1/meV", none,
    ⟨[("species", "Si")], some [[], []]⟩⟩ }

theorem exSiSound : Sound exSiFc ["Si", "Si"] where
  modes := exSound.modes
  freqs := exSound.freqs
  sqw := exSound.sqw
  pdos := by
    intro w l y c h
    cases h
    refine ⟨⟨by simp, ?_, ?_, ?_, by simp [DWF], ?_, rfl, ?_⟩, rfl, ?_⟩
    · intro r hr
      simp only [List.mem_cons, List.not_mem_nil, or_false] at hr
      rcases hr with rfl | rfl <;> simp
    · simp only
      omega
    · intro ls hls
      cases hls
      rfl
    · intro ls hls d hd
      cases hls
      simp only [List.mem_cons, List.not_mem_nil, or_false] at hd
      rcases hd with rfl | rfl <;> simp [DWF]
    · intro ls hls d hd
      cases hls
      simp only [List.mem_cons, List.not_mem_nil, or_false] at hd
      rcases hd with rfl | rfl <;> decide
    · intro i hi
      have : i = 0 ∨ i = 1 := by
        change i < 2 at hi
        omega
      rcases this with rfl | rfl <;> rfl

example (coeffs : ℝ → List ℝ) (d : Nat → Draws) :
    ∃ e, powderMain coeffs exUnits d { exArgs with pdos := some "Si" } (.fc exSiFc) = .error e :=
  C111_single_species coeffs exUnits d _ exSiFc _ exSiSound "Si" (by simp) "Si" rfl rfl

end Euphonic.PowderCli
