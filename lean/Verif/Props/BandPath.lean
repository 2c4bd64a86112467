import Verif.Model.BandPath
import Verif.Props.Driver
import Verif.Props.Gradient
import Verif.Props.DescribeScatter
import Verif.Props.Folding

/-!
# C162: the path that the bands are calculated along

`euphonic-dispersion` and `euphonic-intensity-map` promise a path of q-points with the spacing asked for, through the
high-symmetry points of the crystal.
-/

set_option autoImplicit false

namespace Euphonic.BandPath

open Euphonic.Lattice Euphonic.Phases Euphonic.Supercell

/-! ## Specification -/

/-- What is relied on of Seekpath: a crystal that is `s` times as large, with a spacing `s` times smaller, has the same path.
(Lengths are read in any unit, as long as the spacing is in its inverse.) -/
structure IsSeek (seek : Cell → ℝ → Path) : Prop where
  rel : ∀ (s : ℝ) (c : Cell) (ρ : ℝ), 0 < s →
    (seek ⟨scaleM s c.lattice, c.positions, c.numbers⟩ ρ).rel = (seek c (s * ρ)).rel
  labels : ∀ (s : ℝ) (c : Cell) (ρ : ℝ), 0 < s →
    (seek ⟨scaleM s c.lattice, c.positions, c.numbers⟩ ρ).labels = (seek c (s * ρ)).labels
  primitive : ∀ (s : ℝ) (c : Cell) (ρ : ℝ), 0 < s →
    (seek ⟨scaleM s c.lattice, c.positions, c.numbers⟩ ρ).primitive = scaleM s (seek c (s * ρ)).primitive

/-- Atoms have the same number exactly when they are of the same type. -/
def NumbersSpecies (types : List String) (numbers : List Nat) : Prop :=
  numbers.length = types.length ∧ ∀ i j, i < types.length → j < types.length →
    (numbers.getD i 0 = numbers.getD j 0 ↔ types.getD i "" = types.getD j "")

/-- The crystal in angstrom. -/
def inAngstrom (c : Crystal) (numbers : List Nat) : Cell := ⟨c.cv, c.r, numbers⟩

/-- A wavevector given relative to one lattice, in terms of another that has the cell vectors `M`, in units of the first. -/
noncomputable def translate (M : M3 ℝ) (k : V3 ℝ) : V3 ℝ := ⟨dot M.a k, dot M.b k, dot M.c k⟩

/-! ## Theorems -/

/-- C162: the species are told apart. -/
theorem C162_numbers (c : Crystal) : NumbersSpecies c.types (toSpglibCell c).numbers := by
  refine ⟨by simp [toSpglibCell, Driver.npUnique_length], fun i j hi hj => ?_⟩
  have h1 := (Driver.npUnique_get (fun a b => decide (a ≤ b)) c.types "" i hi).2
  have h2 := (Driver.npUnique_get (fun a b => decide (a ≤ b)) c.types "" j hj).2
  constructor
  · intro h
    rw [← h1, ← h2]
    exact congrArg (fun k => (npUnique (fun a b => decide (a ≤ b)) c.types).1.getD k "") h
  · intro h
    simp only [toSpglibCell, npUnique]
    rw [List.getD_eq_getElem _ _ (by simpa using hi), List.getD_eq_getElem _ _ (by simpa using hj), List.getElem_map,
      List.getElem_map]
    rw [List.getD_eq_getElem _ _ hi, List.getD_eq_getElem _ _ hj] at h
    rw [h]

/-- C162: refusals. -/
theorem C162_errors (seek : Cell → ℝ → Path) (c : Crystal) (q : ℝ) :
    bandPath seek c .unknown q = .error .valueError ∧ bandPath seek c .other q = .error .dimensionalityError := ⟨rfl, rfl⟩

/-- C162: what is done, exactly: the spacing is the one asked for divided by the size of the unit that the crystal is held
in, in angstrom. -/
theorem C162_spacing {seek : Cell → ℝ → Path} (hs : IsSeek seek) (c : Crystal) (hu : 0 < c.unit) (v q : ℝ) :
    ∃ p numbers, bandPath seek c (.length v) q = .ok p ∧ NumbersSpecies c.types numbers
      ∧ p.rel = (seek (inAngstrom c numbers) (q / v / c.unit)).rel
      ∧ p.labels = (seek (inAngstrom c numbers) (q / v / c.unit)).labels
      ∧ p.primitive = scaleM (1 / c.unit) (seek (inAngstrom c numbers) (q / v / c.unit)).primitive := by
  have hpos : 0 < 1 / c.unit := by positivity
  have he : 1 / c.unit * (q / v) = q / v / c.unit := by ring
  refine ⟨_, (toSpglibCell c).numbers, rfl, C162_numbers c, ?_, ?_, ?_⟩
  · rw [← he]; exact hs.rel _ (inAngstrom c (toSpglibCell c).numbers) _ hpos
  · rw [← he]; exact hs.labels _ (inAngstrom c (toSpglibCell c).numbers) _ hpos
  · rw [← he]; exact hs.primitive _ (inAngstrom c (toSpglibCell c).numbers) _ hpos

/-- C162: a crystal held in angstrom has the path that was asked for.
Missing: any other unit (`C162_unit_matters`), and cells that are not the primitive cell of Seekpath (`C162_conventional`). -/
theorem C162_angstrom_partial (seek : Cell → ℝ → Path) (c : Crystal) (hu : c.unit = 1) (v q : ℝ) :
    ∃ numbers, NumbersSpecies c.types numbers
      ∧ bandPath seek c (.length v) q = .ok (seek (inAngstrom c numbers) (q / v)) := by
  refine ⟨_, C162_numbers c, ?_⟩
  have : scaleM (1 / c.unit) c.cv = c.cv := by
    rw [hu]; simp [scaleM, smul]
  simp only [bandPath, getQDistance, toSpglibCell, this, inAngstrom]
  rfl

theorem recip_cart {cv cv' : M3 ℝ} {M : M3 ℝ} (hv : cellVolume cv ≠ 0) (hv' : cellVolume cv' ≠ 0)
    (hM : ∀ x, toCart cv' x = toCart cv (toCart M x)) (k : V3 ℝ) :
    toCart (reciprocalCell (2 * Real.pi) cv') (translate M k) = toCart (reciprocalCell (2 * Real.pi) cv) k := by
  refine Describe.eq_of_dots hv' fun x => ?_
  rw [Gradient.dot_recip cv' hv', hM x, Gradient.dot_recip cv hv]
  simp only [translate, toCart, dot]
  ring

theorem recip_inj {cv : M3 ℝ} (hv : cellVolume cv ≠ 0) {k k' : V3 ℝ}
    (h : toCart (reciprocalCell (2 * Real.pi) cv) k = toCart (reciprocalCell (2 * Real.pi) cv) k') : k = k' := by
  have e : ∀ x, dot k x = dot k' x := fun x => by
    have h1 := Gradient.dot_recip cv hv k x
    rw [h, Gradient.dot_recip cv hv] at h1
    have hp : (2 * Real.pi : ℝ) ≠ 0 := by positivity
    exact (mul_left_cancel₀ hp h1).symm
  have e1 := e ⟨1, 0, 0⟩
  have e2 := e ⟨0, 1, 0⟩
  have e3 := e ⟨0, 0, 1⟩
  simp [dot] at e1 e2 e3
  exact DynMat.V3.ext' e1 e2 e3

/-- C162: where the cell of the crystal is the primitive cell of Seekpath, the modes are calculated at the points meant. -/
theorem C162_primitive_partial (c : Crystal) (p : Path) (prim : M3 ℝ) (hp : c.cv = prim) :
    qpointsUsed c p = p.rel.map (toCart (reciprocalCell (2 * Real.pi) prim)) := by rw [qpointsUsed, hp]

/-- C162: with cell vectors that are combinations `M` of the vectors of the primitive cell, the point used is the one meant
only if its coordinates do not change between the two cells. -/
theorem C162_conventional (c : Crystal) (p : Path) (prim M : M3 ℝ) (hv : cellVolume prim ≠ 0) (hv' : cellVolume c.cv ≠ 0)
    (hM : ∀ x, toCart c.cv x = toCart prim (toCart M x)) :
    qpointsUsed c p = p.rel.map (toCart (reciprocalCell (2 * Real.pi) prim)) ↔ ∀ k ∈ p.rel, translate M k = k := by
  rw [qpointsUsed, List.map_inj_left]
  refine forall₂_congr fun k _ => ?_
  rw [← recip_cart hv hv' hM k]
  exact ⟨fun h => (recip_inj hv' h).symm, fun h => by rw [h]⟩

/-! ## The promise is not kept -/

namespace Ex

/-- A straight line from gamma towards a corner, with a number of points according to the spacing. -/
noncomputable def seekLine (c : Cell) (ρ : ℝ) : Path :=
  let n := ⌊norm3 (reciprocalCell (2 * Real.pi) c.lattice).a / (2 * ρ)⌋₊
  ⟨(List.range (n + 1)).map fun i : ℕ => ⟨(i : ℝ) / (2 * n), 0, 0⟩, (List.range (n + 1)).map fun i : ℕ => if i = 0 then "GAMMA" else "",
    c.lattice⟩

theorem norm_recip_scale (s : ℝ) (hs : 0 < s) (m : M3 ℝ) :
    norm3 (reciprocalCell (2 * Real.pi) (scaleM s m)).a = norm3 (reciprocalCell (2 * Real.pi) m).a / s := by
  have hvol : cellVolume (scaleM s m) = s ^ 3 * cellVolume m := by
    simp only [cellVolume, scaleM, smul, dot, cross]; ring
  have hx : (reciprocalCell (2 * Real.pi) (scaleM s m)).a = smul (1 / s) (reciprocalCell (2 * Real.pi) m).a := by
    have hc : 2 * Real.pi / (s ^ 3 * cellVolume m) * s ^ 2 = 1 / s * (2 * Real.pi / cellVolume m) := by
      rcases eq_or_ne (cellVolume m) 0 with h0 | h0
      · simp [h0]
      · field_simp
    simp only [reciprocalCell, hvol]
    apply DynMat.V3.ext'
    all_goals
      simp only [smul, cross, scaleM]
      first
        | linear_combination (m.b.y * m.c.z - m.b.z * m.c.y) * hc
        | linear_combination (m.b.z * m.c.x - m.b.x * m.c.z) * hc
        | linear_combination (m.b.x * m.c.y - m.b.y * m.c.x) * hc
  rw [hx]
  have : dot (smul (1 / s) (reciprocalCell (2 * Real.pi) m).a) (smul (1 / s) (reciprocalCell (2 * Real.pi) m).a)
      = (1 / s) ^ 2 * dot (reciprocalCell (2 * Real.pi) m).a (reciprocalCell (2 * Real.pi) m).a := by
    simp only [dot, smul]; ring
  rw [norm3, this, Real.sqrt_mul (by positivity), Real.sqrt_sq (by positivity), norm3]
  ring

theorem seekLine_isSeek : IsSeek seekLine := by
  have key : ∀ (s : ℝ) (c : Cell) (ρ : ℝ), 0 < s →
      norm3 (reciprocalCell (2 * Real.pi) (scaleM s c.lattice)).a / (2 * ρ)
        = norm3 (reciprocalCell (2 * Real.pi) c.lattice).a / (2 * (s * ρ)) := fun s c ρ hs => by
    rw [norm_recip_scale s hs, div_div]; congr 1; ring
  refine ⟨fun s c ρ hs => ?_, fun s c ρ hs => ?_, fun s c ρ hs => rfl⟩
  · simp only [seekLine, key s c ρ hs]
  · simp only [seekLine, key s c ρ hs]

/-- A cubic crystal, held in a unit of `u` angstrom. -/
noncomputable def cubic (u : ℝ) : Crystal :=
  ⟨⟨⟨2 * Real.pi, 0, 0⟩, ⟨0, 2 * Real.pi, 0⟩, ⟨0, 0, 2 * Real.pi⟩⟩, u, [⟨0, 0, 0⟩, ⟨1/2, 1/2, 1/2⟩], ["Cs", "Cl"]⟩

theorem norm_cubic : norm3 (reciprocalCell (2 * Real.pi) (cubic 1).cv).a = 1 := by
  have hp : (Real.pi : ℝ) ≠ 0 := Real.pi_ne_zero
  have : (reciprocalCell (2 * Real.pi) (cubic 1).cv).a = ⟨1, 0, 0⟩ := by
    apply DynMat.V3.ext'
    · simp [reciprocalCell, cubic, smul, cross, cellVolume, dot]; field_simp
    · simp [reciprocalCell, cubic, smul, cross, cellVolume, dot]
    · simp [reciprocalCell, cubic, smul, cross, cellVolume, dot]
  rw [this]; simp [norm3, dot]

end Ex

/-- C162, the promise fails: the same crystal, held in bohr and in angstrom, with the same spacing asked for: 11 points in one
case, 21 in the other. -/
theorem C162_unit_matters : ∃ seek, IsSeek seek ∧ ∃ (c c' : Crystal) (q : ℝ),
    c.cv = c'.cv ∧ c.r = c'.r ∧ c.types = c'.types ∧ 0 < c.unit ∧ 0 < c'.unit ∧
    ∃ p p', bandPath seek c (.length 1) q = .ok p ∧ bandPath seek c' (.length 1) q = .ok p'
      ∧ p.rel.length = 21 ∧ p'.rel.length = 11 := by
  have hb : (0 : ℝ) < 529177 / 1000000 := by norm_num
  obtain ⟨p, n, h1, -, h2, -, -⟩ := C162_spacing Ex.seekLine_isSeek (Ex.cubic 1) one_pos 1 (1 / 40)
  obtain ⟨p', n', h1', -, h2', -, -⟩ := C162_spacing Ex.seekLine_isSeek (Ex.cubic (529177 / 1000000)) hb 1 (1 / 40)
  refine ⟨_, Ex.seekLine_isSeek, Ex.cubic 1, Ex.cubic (529177 / 1000000), 1 / 40, rfl, rfl, rfl, one_pos, hb, p, p', h1, h1',
    ?_, ?_⟩
  · have e : (⌊(1 : ℝ) / (2 * (1 / 40 / 1 / 1))⌋₊ : ℕ) = 20 := by
      rw [Nat.floor_eq_iff (by norm_num)]; norm_num
    have hn := Ex.norm_cubic
    rw [h2]
    simp only [Ex.seekLine, inAngstrom, List.length_map, List.length_range]
    rw [hn, show (Ex.cubic 1).unit = 1 from rfl, e]
  · have e : (⌊(1 : ℝ) / (2 * (1 / 40 / 1 / (529177 / 1000000)))⌋₊ : ℕ) = 10 := by
      rw [Nat.floor_eq_iff (by norm_num)]; norm_num
    have hn := Ex.norm_cubic
    rw [h2']
    simp only [Ex.seekLine, inAngstrom, List.length_map, List.length_range]
    rw [show (Ex.cubic (529177 / 1000000)).cv = (Ex.cubic 1).cv from rfl, hn,
      show (Ex.cubic (529177 / 1000000)).unit = 529177 / 1000000 from rfl, e]

namespace Ex

/-- The primitive cell of a face-centred crystal. -/
noncomputable def fcc (a : ℝ) : M3 ℝ := ⟨⟨0, a / 2, a / 2⟩, ⟨a / 2, 0, a / 2⟩, ⟨a / 2, a / 2, 0⟩⟩

/-- The vectors of the conventional cell in terms of it. -/
def fccM : M3 ℝ := ⟨⟨-1, 1, 1⟩, ⟨1, -1, 1⟩, ⟨1, 1, -1⟩⟩

/-- Copper in its conventional cell. -/
noncomputable def copper (a : ℝ) : Crystal :=
  ⟨⟨⟨a, 0, 0⟩, ⟨0, a, 0⟩, ⟨0, 0, a⟩⟩, 1, [⟨0, 0, 0⟩, ⟨0, 1/2, 1/2⟩, ⟨1/2, 0, 1/2⟩, ⟨1/2, 1/2, 0⟩], ["Cu", "Cu", "Cu", "Cu"]⟩

end Ex

/-- C162, the promise fails: for a face-centred crystal in its conventional cell, what is labelled `X` is another point than
X: with coordinates of the conventional cell, X is `(0, 1, 0)`, and the point used is `(1/2, 0, 1/2)`. -/
theorem C162_face_centred (a : ℝ) (ha : 0 < a) :
    let p : Path := ⟨[⟨1/2, 0, 1/2⟩], ["X"], Ex.fcc a⟩
    qpointsUsed (Ex.copper a) p ≠ p.rel.map (toCart (reciprocalCell (2 * Real.pi) p.primitive))
    ∧ p.rel.map (toCart (reciprocalCell (2 * Real.pi) p.primitive))
      = [toCart (reciprocalCell (2 * Real.pi) (Ex.copper a).cv) ⟨0, 1, 0⟩] := by
  have hv : cellVolume (Ex.fcc a) ≠ 0 := by
    have : cellVolume (Ex.fcc a) = a ^ 3 / 4 := by simp only [cellVolume, Ex.fcc, dot, cross]; ring
    rw [this]; positivity
  have hv' : cellVolume (Ex.copper a).cv ≠ 0 := by
    have : cellVolume (Ex.copper a).cv = a ^ 3 := by simp only [cellVolume, Ex.copper, dot, cross]; ring
    rw [this]; positivity
  have hM : ∀ x, toCart (Ex.copper a).cv x = toCart (Ex.fcc a) (toCart Ex.fccM x) := fun x => by
    apply DynMat.V3.ext' <;> (simp only [toCart, Ex.copper, Ex.fcc, Ex.fccM]; ring)
  refine ⟨fun h => ?_, ?_⟩
  · have h1 := (C162_conventional _ _ _ _ hv hv' hM).1 h ⟨1/2, 0, 1/2⟩ (by simp)
    have h2 := congrArg V3.y h1
    simp only [translate, Ex.fccM, dot] at h2
    norm_num at h2
  · have h1 := recip_cart hv hv' hM ⟨1/2, 0, 1/2⟩
    rw [List.map_singleton, ← h1]
    congr 2
    apply DynMat.V3.ext' <;> (simp only [translate, Ex.fccM, dot]; norm_num)

/-! ## A case -/

namespace Ex

example : (toSpglibCell (cubic 2)).numbers.getD 0 0 ≠ (toSpglibCell (cubic 2)).numbers.getD 1 0 := fun h =>
  absurd (((C162_numbers (cubic 2)).2 0 1 (by decide) (by decide)).1 h) (by decide)

example : ∃ p numbers, bandPath seekLine (cubic 2) (.length 10) (1 / 4) = .ok p ∧ NumbersSpecies ["Cs", "Cl"] numbers
    ∧ p.rel = (seekLine (inAngstrom (cubic 2) numbers) (1 / 4 / 10 / 2)).rel := by
  obtain ⟨p, n, h1, h2, h3, -⟩ := C162_spacing seekLine_isSeek (cubic 2) two_pos 10 (1 / 4)
  exact ⟨p, n, h1, h2, h3⟩

end Ex

end Euphonic.BandPath
