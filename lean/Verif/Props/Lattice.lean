import Verif.Prelude
import Verif.Lemmas.Rint
import Verif.Model.Lattice
import Mathlib.Data.List.Nodup
import Mathlib.Data.List.ProdSigma

/-! # Properties C30-C33: lattices, grids, species -/

set_option autoImplicit false
set_option linter.unusedSectionVars false

namespace Euphonic.Lattice

/-! ## C30 -/

section Recip
variable {K : Type} [Field K]

theorem dot_smul (k : K) (u v : V3 K) : dot u (smul k v) = k * dot u v := by
  simp only [dot, smul]; ring

theorem cross_smul (k : K) (u v : V3 K) : cross (smul k u) (smul k v) = smul (k ^ 2) (cross u v) := by
  simp only [cross, smul, V3.mk.injEq]; refine ⟨?_, ?_, ?_⟩ <;> ring

theorem smul_smul' (j k : K) (v : V3 K) : smul j (smul k v) = smul (j * k) v := by
  simp only [smul, V3.mk.injEq]; refine ⟨?_, ?_, ?_⟩ <;> ring

theorem smul_one' (v : V3 K) : smul 1 v = v := by simp [smul]

theorem cross_cross (a b c : V3 K) :
    cross (cross c a) (cross a b) = smul (cellVolume ⟨a, b, c⟩) a := by
  simp only [cross, smul, cellVolume, dot, V3.mk.injEq]; refine ⟨?_, ?_, ?_⟩ <;> ring

theorem volume_cyclic (a b c : V3 K) : cellVolume ⟨b, c, a⟩ = cellVolume ⟨a, b, c⟩ := by
  simp only [cellVolume, dot, cross]; ring

theorem volume_smul (k : K) (u v w : V3 K) :
    cellVolume ⟨smul k u, smul k v, smul k w⟩ = k ^ 3 * cellVolume ⟨u, v, w⟩ := by
  simp only [cellVolume, dot, cross, smul]; ring

theorem volume_crosses (a b c : V3 K) :
    cellVolume ⟨cross b c, cross c a, cross a b⟩ = cellVolume ⟨a, b, c⟩ ^ 2 := by
  simp only [cellVolume, dot, cross]; ring

theorem dot_cross_self_left (a b : V3 K) : dot a (cross a b) = 0 := by
  simp only [dot, cross]; ring

theorem dot_cross_self_right (a b : V3 K) : dot b (cross a b) = 0 := by
  simp only [dot, cross]; ring

/-- **C30**: `a_i . b_j = 2 pi delta_ij` for every cell of non-zero volume. -/
theorem C30_reciprocal_dual (twoPi : K) (cv : M3 K) (h : cellVolume cv ≠ 0) :
    let r := reciprocalCell twoPi cv
    (dot cv.a r.a = twoPi ∧ dot cv.a r.b = 0 ∧ dot cv.a r.c = 0) ∧
    (dot cv.b r.a = 0 ∧ dot cv.b r.b = twoPi ∧ dot cv.b r.c = 0) ∧
    (dot cv.c r.a = 0 ∧ dot cv.c r.b = 0 ∧ dot cv.c r.c = twoPi) := by
  obtain ⟨a, b, c⟩ := cv
  have e1 : dot a (cross b c) = cellVolume ⟨a, b, c⟩ := rfl
  have e2 : dot b (cross c a) = cellVolume ⟨a, b, c⟩ := volume_cyclic a b c
  have e3 : dot c (cross a b) = cellVolume ⟨a, b, c⟩ :=
    (volume_cyclic b c a).trans (volume_cyclic a b c)
  simp only [reciprocalCell, dot_smul, e1, e2, e3, dot_cross_self_left, dot_cross_self_right,
    mul_zero, div_mul_cancel₀ _ h, and_self]

/-- **C30**: the volume of the reciprocal cell is `(2 pi)^3 / volume`. -/
theorem C30_reciprocal_volume (twoPi : K) (cv : M3 K) (h : cellVolume cv ≠ 0) :
    cellVolume (reciprocalCell twoPi cv) = twoPi ^ 3 / cellVolume cv := by
  obtain ⟨a, b, c⟩ := cv
  simp only [reciprocalCell, volume_smul, volume_crosses]
  field_simp

/-- **C30**: the reciprocal cell of the reciprocal cell is the cell again. -/
theorem C30_reciprocal_involutive (twoPi : K) (cv : M3 K) (h : cellVolume cv ≠ 0) (h2 : twoPi ≠ 0) :
    reciprocalCell twoPi (reciprocalCell twoPi cv) = cv := by
  have hv := C30_reciprocal_volume twoPi cv h
  obtain ⟨a, b, c⟩ := cv
  unfold reciprocalCell at hv ⊢
  dsimp only at hv ⊢
  rw [hv]
  have f2 : cellVolume ⟨b, c, a⟩ = cellVolume ⟨a, b, c⟩ := volume_cyclic a b c
  have f3 : cellVolume ⟨c, a, b⟩ = cellVolume ⟨a, b, c⟩ :=
    (volume_cyclic b c a).trans (volume_cyclic a b c)
  simp only [cross_smul, cross_cross, smul_smul', f2, f3]
  generalize cellVolume ⟨a, b, c⟩ = V at *
  have : twoPi / (twoPi ^ 3 / V) * ((twoPi / V) ^ 2 * V) = 1 := by field_simp
  simp only [this, smul_one']

/-- **C30**: the volume does not change under cyclic permutation of the vectors and changes sign under
exchange of two of them; it is the sum over the six permutations (the determinant). -/
theorem C30_volume_permutations (a b c : V3 K) :
    cellVolume ⟨b, c, a⟩ = cellVolume ⟨a, b, c⟩ ∧ cellVolume ⟨c, a, b⟩ = cellVolume ⟨a, b, c⟩ ∧
    cellVolume ⟨b, a, c⟩ = -cellVolume ⟨a, b, c⟩ ∧
    cellVolume ⟨a, b, c⟩ = a.x * b.y * c.z + a.y * b.z * c.x + a.z * b.x * c.y - a.x * b.z * c.y
      - a.y * b.x * c.z - a.z * b.y * c.x := by
  simp only [cellVolume, dot, cross]
  refine ⟨?_, ?_, ?_, ?_⟩ <;> ring

end Recip

/-- A triclinic cell has a non-zero volume. -/
example : cellVolume (⟨⟨3, 0, 0⟩, ⟨1, 2, 0⟩, ⟨1/2, 1/3, 5⟩⟩ : M3 ℚ) ≠ 0 := by
  simp only [cellVolume, dot, cross]; norm_num

/-! ## C32 -/

theorem norm3_smul (k : ℝ) (hk : 0 ≤ k) (v : V3 ℝ) : norm3 (smul k v) = k * norm3 v := by
  unfold norm3
  have : dot (smul k v) (smul k v) = k ^ 2 * dot v v := by simp only [dot, smul]; ring
  rw [this, Real.sqrt_mul (by positivity), Real.sqrt_sq hk]

theorem norm3_pos (v : V3 ℝ) (u : V3 ℝ) (h : dot u v ≠ 0) : 0 < norm3 v := by
  unfold norm3
  apply Real.sqrt_pos.2
  by_contra hn
  apply h
  have h2 : v.x * v.x + v.y * v.y + v.z * v.z ≤ 0 := by simpa [dot] using hn
  have hx : v.x = 0 := by nlinarith [mul_self_nonneg v.x, mul_self_nonneg v.y, mul_self_nonneg v.z]
  have hy : v.y = 0 := by nlinarith [mul_self_nonneg v.x, mul_self_nonneg v.y, mul_self_nonneg v.z]
  have hz : v.z = 0 := by nlinarith [mul_self_nonneg v.x, mul_self_nonneg v.y, mul_self_nonneg v.z]
  simp [dot, hx, hy, hz]

/-- `N` is the smallest positive number of divisions of a length `len` into parts not longer than
`spacing`. -/
def SmallestDivision (len spacing : ℝ) (N : ℤ) : Prop :=
  0 < N ∧ len / N ≤ spacing ∧ ∀ M : ℤ, 0 < M → len / M ≤ spacing → N ≤ M

theorem smallest_ceil (len spacing : ℝ) (hl : 0 < len) (hs : 0 < spacing) :
    SmallestDivision len spacing ⌈len / spacing⌉ := by
  have hp : 0 < ⌈len / spacing⌉ := Int.ceil_pos.2 (div_pos hl hs)
  have hpr : (0 : ℝ) < ⌈len / spacing⌉ := Int.cast_pos.2 hp
  refine ⟨hp, ?_, fun M hM h => ?_⟩
  · rw [div_le_iff₀ hpr]
    have := Int.le_ceil (len / spacing)
    rw [div_le_iff₀ hs] at this
    linarith
  · have hMr : (0 : ℝ) < M := Int.cast_pos.2 hM
    apply Int.ceil_le.2
    rw [div_le_iff₀ hs]
    rw [div_le_iff₀ hMr] at h
    linarith

/-- **C32**: for every non-degenerate cell, positive spacing and unit conversion factor, each entry is
the smallest positive number of divisions of the reciprocal lattice vector (in the unit of `spacing`)
into parts not longer than `spacing`. -/
theorem C32_grid_spec (twoPi conv spacing : ℝ) (cv : M3 ℝ) (hp : 0 < twoPi) (hc : 0 < conv)
    (hs : 0 < spacing) (hv : cellVolume cv ≠ 0) :
    let r := reciprocalCell twoPi cv
    let s := mpGridSpec twoPi conv spacing cv
    SmallestDivision (conv * norm3 r.a) spacing s.1 ∧
    SmallestDivision (conv * norm3 r.b) spacing s.2.1 ∧
    SmallestDivision (conv * norm3 r.c) spacing s.2.2 := by
  intro r s
  obtain ⟨⟨h1, _, _⟩, ⟨_, h2, _⟩, ⟨_, _, h3⟩⟩ := C30_reciprocal_dual twoPi cv hv
  have e1 : 0 < norm3 r.a := norm3_pos _ cv.a (by rw [h1]; exact hp.ne')
  have e2 : 0 < norm3 r.b := norm3_pos _ cv.b (by rw [h2]; exact hp.ne')
  have e3 : 0 < norm3 r.c := norm3_pos _ cv.c (by rw [h3]; exact hp.ne')
  simp only [s, mpGridSpec]
  rw [norm3_smul _ hc.le, norm3_smul _ hc.le, norm3_smul _ hc.le]
  exact ⟨smallest_ceil _ _ (mul_pos hc e1) hs, smallest_ceil _ _ (mul_pos hc e2) hs,
    smallest_ceil _ _ (mul_pos hc e3) hs⟩

/-- **C32**: the divisions do not depend on the unit the spacing is given in. -/
theorem C32_unit_independent (twoPi conv spacing k : ℝ) (cv : M3 ℝ) (hc : 0 < conv) (hk : 0 < k) :
    mpGridSpec twoPi (k * conv) (k * spacing) cv = mpGridSpec twoPi conv spacing cv := by
  simp only [mpGridSpec]
  rw [norm3_smul _ (mul_pos hk hc).le, norm3_smul _ (mul_pos hk hc).le,
    norm3_smul _ (mul_pos hk hc).le, norm3_smul _ hc.le, norm3_smul _ hc.le, norm3_smul _ hc.le,
    mul_assoc, mul_assoc, mul_assoc, mul_div_mul_left _ _ hk.ne', mul_div_mul_left _ _ hk.ne',
    mul_div_mul_left _ _ hk.ne']

/-- Exact multiples are not rounded up: a reciprocal vector of length 1 (`twoPi` taken as 1) and spacing
1/4 give exactly four divisions. -/
example : (mpGridSpec 1 1 (1/4) ⟨⟨1, 0, 0⟩, ⟨0, 1, 0⟩, ⟨0, 0, 1⟩⟩).1 = 4 := by
  have : norm3 (smul 1 (reciprocalCell 1 (⟨⟨1, 0, 0⟩, ⟨0, 1, 0⟩, ⟨0, 0, 1⟩⟩ : M3 ℝ)).a) = 1 := by
    simp [norm3, reciprocalCell, smul, cellVolume, dot, cross]
  simp only [mpGridSpec, this]
  norm_num

/-! ## Grids: the product of three lists -/

/-- All combinations, the last coordinate running fastest. -/
def grid {β : Type} (a b c : List β) : List (V3 β) :=
  a.flatMap fun x => b.flatMap fun y => c.map fun z => ⟨x, y, z⟩

theorem length_npRepeat {β : Type} (l : List β) (k : Nat) : (npRepeat l k).length = l.length * k := by
  simp [npRepeat, List.length_flatMap]

theorem length_npTile {β : Type} (l : List β) (k : Nat) : (npTile l k).length = k * l.length := by
  unfold npTile
  rw [List.length_flatten, List.map_replicate, List.sum_replicate, smul_eq_mul]

theorem npTile_succ {β : Type} (l : List β) (k : Nat) : npTile l (k + 1) = l ++ npTile l k := by
  simp [npTile, List.replicate_succ]

theorem npTile_add {β : Type} (l : List β) (j k : Nat) :
    npTile l (j + k) = npTile l j ++ npTile l k := by
  unfold npTile
  rw [List.replicate_add, List.flatten_append]

theorem npRepeat_cons {β : Type} (x : β) (l : List β) (k : Nat) :
    npRepeat (x :: l) k = List.replicate k x ++ npRepeat l k := by
  simp [npRepeat]

theorem zip_repeat_tile {β : Type} (b c : List β) :
    (npRepeat b c.length).zip (npTile c b.length) =
      b.flatMap fun y => c.map fun z => (y, z) := by
  induction b with
  | nil => simp [npRepeat]
  | cons y b ih =>
    rw [npRepeat_cons, List.length_cons, npTile_succ, List.zip_append (by simp), ih,
      List.flatMap_cons]
    congr 1
    apply List.ext_getElem <;> simp

theorem zipWith_repeat_tile {β γ δ : Type} (f : β → γ → δ) (a : List β) (c : List γ) :
    List.zipWith f (npRepeat a c.length) (npTile c a.length) =
      a.flatMap fun x => c.map fun z => f x z := by
  induction a with
  | nil => simp [npRepeat]
  | cons x a ih =>
    rw [npRepeat_cons, List.length_cons, npTile_succ, List.zipWith_append (by simp), ih,
      List.flatMap_cons]
    congr 1
    apply List.ext_getElem <;> simp

theorem zip_npTile {β γ : Type} (b : List β) (c : List γ) (h : b.length = c.length) (k : Nat) :
    (npTile b k).zip (npTile c k) = npTile (b.zip c) k := by
  induction k with
  | zero => simp [npTile]
  | succ k ih => rw [npTile_succ, npTile_succ, npTile_succ, List.zip_append h, ih]

theorem npTile_mul {β : Type} (c : List β) (j k : Nat) : npTile c (j * k) = npTile (npTile c k) j := by
  induction j with
  | zero => simp [npTile]
  | succ j ih => rw [Nat.succ_mul, Nat.add_comm, npTile_add, ih, npTile_succ]

/-- The repeat/tile construction used by `mp_grid` and `get_all_origins` is the product of the axes. -/
theorem columnStack_grid {β : Type} (a b c : List β) :
    columnStack (npRepeat a (b.length * c.length)) (npTile (npRepeat b c.length) a.length)
      (npTile c (a.length * b.length)) = .ok (grid a b c) := by
  unfold columnStack
  rw [if_pos (by
    rw [length_npRepeat, length_npTile, length_npTile, length_npRepeat]
    exact ⟨rfl, by ring⟩)]
  congr 1
  rw [npTile_mul, zip_npTile _ _ (by rw [length_npRepeat, length_npTile]), zip_repeat_tile]
  have hl : b.length * c.length = (b.flatMap fun y => c.map fun z => (y, z)).length := by
    simp [List.length_flatMap]
  rw [hl, zipWith_repeat_tile]
  unfold grid
  congr 1
  funext x
  rw [List.map_flatMap]
  congr 1
  funext y
  rw [List.map_map]
  rfl

theorem npRepeat_tile_comm {β : Type} (b : List β) (j k : Nat) :
    npRepeat (npTile b j) k = npTile (npRepeat b k) j := by
  induction j with
  | zero => simp [npTile, npRepeat]
  | succ j ih =>
    rw [npTile_succ, npTile_succ, ← ih]
    simp [npRepeat]

theorem mem_grid {β : Type} (a b c : List β) (v : V3 β) :
    v ∈ grid a b c ↔ v.x ∈ a ∧ v.y ∈ b ∧ v.z ∈ c := by
  obtain ⟨x, y, z⟩ := v
  simp [grid]

theorem length_grid {β : Type} (a b c : List β) :
    (grid a b c).length = a.length * b.length * c.length := by
  simp [grid, List.length_flatMap, mul_assoc]

theorem nodup_grid {β : Type} (a b c : List β) (ha : a.Nodup) (hb : b.Nodup) (hc : c.Nodup) :
    (grid a b c).Nodup := by
  unfold grid
  rw [List.nodup_flatMap]
  refine ⟨fun x _ => ?_, ?_⟩
  · rw [List.nodup_flatMap]
    refine ⟨fun y _ => ?_, ?_⟩
    · exact hc.map fun z z' h => by simpa using h
    · refine hb.imp fun {y y'} hne => ?_
      intro v h1 h2
      obtain ⟨z, _, rfl⟩ := List.mem_map.1 h1
      obtain ⟨z', _, h⟩ := List.mem_map.1 h2
      exact hne (by simpa using (V3.mk.inj h).2.1.symm)
  · refine ha.imp fun {x x'} hne => ?_
    intro v h1 h2
    simp only [List.mem_flatMap, List.mem_map] at h1 h2
    obtain ⟨y, _, z, _, rfl⟩ := h1
    obtain ⟨y', _, z', _, h⟩ := h2
    exact hne (V3.mk.inj h).1.symm

/-! ## C31 -/

section Mp
variable {K : Type} [Field K] [LinearOrder K] [IsStrictOrderedRing K]

/-- Coordinate `r = 1..N` of a Monkhorst-Pack axis. -/
def mpCoord (K : Type) [Field K] (N r : Nat) : K := (2 * (r : K) - N - 1) / (2 * N)

theorem mem_mpAxis (N : Nat) (q : K) :
    q ∈ mpAxis K N ↔ ∃ r, 1 ≤ r ∧ r ≤ N ∧ q = mpCoord K N r := by
  simp only [mpAxis, List.mem_map, List.mem_range, mpCoord]
  constructor
  · rintro ⟨i, hi, rfl⟩
    exact ⟨i + 1, by omega, by omega, by push_cast; ring⟩
  · rintro ⟨r, h1, h2, rfl⟩
    refine ⟨r - 1, by omega, ?_⟩
    rw [Nat.cast_sub h1]
    push_cast; ring

theorem mpCoord_strictMono (N : Nat) (hN : 0 < N) (r s : Nat) (h : r < s) :
    mpCoord K N r < mpCoord K N s := by
  unfold mpCoord
  have : (0 : K) < N := Nat.cast_pos.2 hN
  have h2 : (r : K) < s := Nat.cast_lt.2 h
  apply div_lt_div_of_pos_right _ (by linarith)
  linarith

theorem nodup_mpAxis (N : Nat) : (mpAxis K N).Nodup := by
  rcases Nat.eq_zero_or_pos N with rfl | hN
  · simp [mpAxis]
  · unfold mpAxis
    refine List.Nodup.map ?_ List.nodup_range
    intro r s h
    have hN' : (0 : K) < N := Nat.cast_pos.2 hN
    have h2 : (2 * (N : K)) ≠ 0 := by linarith
    have : (r : K) = s := by
      have h3 := (div_left_inj' h2).1 h
      linarith
    exact Nat.cast_injective this

/-- **C31**: for all sizes `mp_grid` returns every combination of the axis coordinates exactly once:
`l*m*n` distinct points, point `(i, j, k)` being listed iff each coordinate is one of
`(2r - N - 1)/(2N)`, `r = 1..N`. -/
theorem C31_grid_complete (l m n : Nat) :
    ∃ g, mpGrid K l m n = .ok g ∧ g.length = l * m * n ∧ g.Nodup ∧
      ∀ q : V3 K, q ∈ g ↔ ∃ i j k, 1 ≤ i ∧ i ≤ l ∧ 1 ≤ j ∧ j ≤ m ∧ 1 ≤ k ∧ k ≤ n ∧
        q = ⟨mpCoord K l i, mpCoord K m j, mpCoord K n k⟩ := by
  have hlen : ∀ N, (mpAxis K N).length = N := fun N => by simp [mpAxis]
  refine ⟨grid (mpAxis K l) (mpAxis K m) (mpAxis K n), ?_, ?_, ?_, ?_⟩
  · have := columnStack_grid (mpAxis K l) (mpAxis K m) (mpAxis K n)
    rw [hlen, hlen, hlen] at this
    exact this
  · rw [length_grid, hlen, hlen, hlen]
  · exact nodup_grid _ _ _ (nodup_mpAxis l) (nodup_mpAxis m) (nodup_mpAxis n)
  · intro q
    rw [mem_grid, mem_mpAxis, mem_mpAxis, mem_mpAxis]
    constructor
    · rintro ⟨⟨i, h1, h2, h3⟩, ⟨j, h4, h5, h6⟩, ⟨k, h7, h8, h9⟩⟩
      refine ⟨i, j, k, h1, h2, h4, h5, h7, h8, ?_⟩
      obtain ⟨x, y, z⟩ := q
      simp_all
    · rintro ⟨i, j, k, h1, h2, h4, h5, h7, h8, rfl⟩
      exact ⟨⟨i, h1, h2, rfl⟩, ⟨j, h4, h5, rfl⟩, ⟨k, h7, h8, rfl⟩⟩

/-- **C31**: every coordinate lies strictly between -1/2 and 1/2. -/
theorem C31_in_zone (l m n : Nat) (g : List (V3 K)) (h : mpGrid K l m n = .ok g) (q : V3 K)
    (hq : q ∈ g) : |q.x| < 1 / 2 ∧ |q.y| < 1 / 2 ∧ |q.z| < 1 / 2 := by
  obtain ⟨g', h1, _, _, h2⟩ := C31_grid_complete (K := K) l m n
  rw [h] at h1
  obtain rfl := Except.ok.inj h1
  obtain ⟨i, j, k, a1, a2, b1, b2, c1, c2, rfl⟩ := (h2 q).1 hq
  have key : ∀ N r : Nat, 1 ≤ r → r ≤ N → |mpCoord K N r| < 1 / 2 := by
    intro N r h1 h2
    have hN : (1 : K) ≤ N := by exact_mod_cast h1.trans h2
    have hr : (1 : K) ≤ r := by exact_mod_cast h1
    have hrN : (r : K) ≤ N := by exact_mod_cast h2
    unfold mpCoord
    rw [abs_lt]
    constructor
    · rw [lt_div_iff₀ (by linarith)]; linarith
    · rw [div_lt_iff₀ (by linarith)]; linarith
  exact ⟨key _ _ a1 a2, key _ _ b1 b2, key _ _ c1 c2⟩

theorem mpCoord_neg (N r : Nat) (h : r ≤ N) : -mpCoord K N r = mpCoord K N (N + 1 - r) := by
  unfold mpCoord
  rw [Nat.cast_sub (by omega)]
  push_cast
  rw [← neg_div]
  congr 1; ring

/-- **C31**: the grid is closed under inversion. -/
theorem C31_inversion (l m n : Nat) (g : List (V3 K)) (h : mpGrid K l m n = .ok g) (q : V3 K)
    (hq : q ∈ g) : (⟨-q.x, -q.y, -q.z⟩ : V3 K) ∈ g := by
  obtain ⟨g', h1, _, _, h2⟩ := C31_grid_complete (K := K) l m n
  rw [h] at h1
  obtain rfl := Except.ok.inj h1
  obtain ⟨i, j, k, a1, a2, b1, b2, c1, c2, rfl⟩ := (h2 q).1 hq
  rw [h2]
  refine ⟨l + 1 - i, m + 1 - j, n + 1 - k, by omega, by omega, by omega, by omega, by omega, by omega,
    ?_⟩
  simp only [mpCoord_neg _ _ a2, mpCoord_neg _ _ b2, mpCoord_neg _ _ c2]

/-- **C31**: the points add up to zero along every axis, so the mean is the zone centre. -/
theorem C31_centred (l m n : Nat) (g : List (V3 K)) (h : mpGrid K l m n = .ok g) :
    (g.map (·.x)).sum = 0 ∧ (g.map (·.y)).sum = 0 ∧ (g.map (·.z)).sum = 0 := by
  obtain ⟨g', h1, _, hnd, _⟩ := C31_grid_complete (K := K) l m n
  rw [h] at h1
  obtain rfl := Except.ok.inj h1
  let neg : V3 K → V3 K := fun q => ⟨-q.x, -q.y, -q.z⟩
  have hinj : Function.Injective neg := by
    rintro ⟨a, b, c⟩ ⟨a', b', c'⟩ h
    simpa [neg] using h
  have hperm : (g.map neg).Perm g := by
    refine (List.subperm_of_subset (hnd.map hinj) ?_).perm_of_length_le (by simp)
    intro q hq
    obtain ⟨p, hp, rfl⟩ := List.mem_map.1 hq
    exact C31_inversion l m n g h p hp
  have key : ∀ f : V3 K → K, (∀ q, f (neg q) = -f q) → (g.map f).sum = 0 := by
    intro f hf
    have h1 := (hperm.map f).sum_eq
    rw [List.map_map] at h1
    have h2 : ∀ l : List (V3 K), (l.map (f ∘ neg)).sum = -(l.map f).sum := by
      intro l
      induction l with
      | nil => simp
      | cons a l ih =>
        simp only [List.map_cons, List.sum_cons, Function.comp_apply, hf] at ih ⊢
        rw [ih]; ring
    rw [h2] at h1
    linarith
  exact ⟨key _ fun _ => rfl, key _ fun _ => rfl, key _ fun _ => rfl⟩

/-- **C31**: neighbouring coordinates of an axis differ by `1/N`. -/
theorem C31_spacing (N r : Nat) (hN : 0 < N) : mpCoord K N (r + 1) - mpCoord K N r = 1 / N := by
  unfold mpCoord
  have : (N : K) ≠ 0 := Nat.cast_ne_zero.2 hN.ne'
  push_cast
  field_simp
  ring

end Mp

/-- Even sizes avoid the zone centre, odd sizes contain it. -/
example : mpGrid ℚ 2 1 3 = .ok
    [⟨-1/4, 0, -1/3⟩, ⟨-1/4, 0, 0⟩, ⟨-1/4, 0, 1/3⟩, ⟨1/4, 0, -1/3⟩, ⟨1/4, 0, 0⟩, ⟨1/4, 0, 1/3⟩] := by
  decide +kernel

/-! ## C33 -/

section Species
variable {β : Type} [DecidableEq β]

theorem foldl_keys (l acc : List β) (hacc : acc.Nodup) :
    ((l.foldl (fun acc a => if a ∈ acc then acc else acc ++ [a]) acc)).Nodup ∧
    (∀ a, a ∈ l.foldl (fun acc a => if a ∈ acc then acc else acc ++ [a]) acc ↔ a ∈ acc ∨ a ∈ l) := by
  induction l generalizing acc with
  | nil => simp [hacc]
  | cons b l ih =>
    rw [List.foldl_cons]
    by_cases hb : b ∈ acc
    · rw [if_pos hb]
      refine ⟨(ih acc hacc).1, fun a => ?_⟩
      rw [(ih acc hacc).2, List.mem_cons]
      constructor
      · rintro (h | h)
        · exact Or.inl h
        · exact Or.inr (Or.inr h)
      · rintro (h | rfl | h)
        · exact Or.inl h
        · exact Or.inl hb
        · exact Or.inr h
    · rw [if_neg hb]
      have hn : (acc ++ [b]).Nodup := by
        rw [List.nodup_append]
        exact ⟨hacc, by simp, by
          intro a ha b' hb' e
          simp only [List.mem_singleton] at hb'
          rw [e, hb'] at ha
          exact hb ha⟩
      refine ⟨(ih _ hn).1, fun a => ?_⟩
      rw [(ih _ hn).2]
      simp [or_assoc]

theorem mem_orderedKeys (l : List β) (a : β) : a ∈ orderedKeys l ↔ a ∈ l := by
  have := (foldl_keys l [] List.nodup_nil).2 a
  simpa [orderedKeys] using this

theorem nodup_orderedKeys (l : List β) : (orderedKeys l).Nodup := (foldl_keys l [] List.nodup_nil).1

/-- Appending one element. -/
theorem orderedKeys_concat (l : List β) (a : β) :
    orderedKeys (l ++ [a]) = if a ∈ l then orderedKeys l else orderedKeys l ++ [a] := by
  have : orderedKeys (l ++ [a]) =
      if a ∈ orderedKeys l then orderedKeys l else orderedKeys l ++ [a] := by
    unfold orderedKeys
    rw [List.foldl_append]
    rfl
  rw [this]
  exact if_congr (mem_orderedKeys l a) rfl rfl

theorem orderedKeys_order (l : List β) :
    (orderedKeys l).Pairwise fun a b => l.idxOf a < l.idxOf b := by
  induction l using List.reverseRecOn with
  | nil => simp [orderedKeys]
  | append_singleton l a ih =>
    rw [orderedKeys_concat]
    have hold : ∀ b ∈ l, (l ++ [a]).idxOf b = l.idxOf b := fun b hb => List.idxOf_append_of_mem hb
    have ih' : (orderedKeys l).Pairwise fun x y => (l ++ [a]).idxOf x < (l ++ [a]).idxOf y := by
      refine ih.imp_of_mem fun {x y} hx hy h => ?_
      rw [hold x ((mem_orderedKeys l x).1 hx), hold y ((mem_orderedKeys l y).1 hy)]
      exact h
    split
    · exact ih'
    · rename_i ha
      rw [List.pairwise_append]
      refine ⟨ih', by simp, fun x hx y hy => ?_⟩
      simp only [List.mem_singleton] at hy
      rw [hy, hold x ((mem_orderedKeys l x).1 hx), List.idxOf_append_of_notMem ha]
      have := List.idxOf_lt_length_of_mem ((mem_orderedKeys l x).1 hx)
      omega

/-- Indices of the entries equal to `e`. -/
theorem mem_idx (l : List β) (e : β) (i : Nat) :
    i ∈ (l.zipIdx.filter fun p => e = p.1).map (·.2) ↔ l[i]? = some e := by
  simp only [List.mem_map, List.mem_filter, decide_eq_true_eq, Prod.exists]
  constructor
  · rintro ⟨a, j, ⟨h1, rfl⟩, rfl⟩
    exact List.mem_zipIdx_iff_getElem?.1 h1
  · intro h
    exact ⟨e, i, ⟨List.mem_zipIdx_iff_getElem?.2 h, rfl⟩, rfl⟩

/-- **C33**: each species of the list appears once as a key, in order of first appearance; its value is
the strictly increasing list of exactly the positions where it occurs. -/
theorem C33_species_idx (l : List β) :
    let d := uniqueElemsAndIdx l
    (d.map (·.1)).Nodup ∧ (∀ e, e ∈ d.map (·.1) ↔ e ∈ l) ∧
    (d.map (·.1)).Pairwise (fun a b => l.idxOf a < l.idxOf b) ∧
    ∀ e is, (e, is) ∈ d → is.Pairwise (· < ·) ∧ is ≠ [] ∧ ∀ i, i ∈ is ↔ l[i]? = some e := by
  intro d
  have hk : d.map (·.1) = orderedKeys l := by
    simp [d, uniqueElemsAndIdx, Function.comp_def]
  rw [hk]
  refine ⟨nodup_orderedKeys l, mem_orderedKeys l, orderedKeys_order l, ?_⟩
  intro e is h
  simp only [d, uniqueElemsAndIdx, List.mem_map, Prod.mk.injEq] at h
  obtain ⟨e', he', rfl, rfl⟩ := h
  refine ⟨?_, ?_, mem_idx l e'⟩
  · have h1 : (l.zipIdx.map (·.2)).Pairwise (· < ·) := by
      rw [List.zipIdx_map_snd]
      exact List.pairwise_lt_range'
    rw [List.pairwise_map] at h1 ⊢
    exact h1.filter _
  · obtain ⟨i, hi, h2⟩ := List.getElem_of_mem ((mem_orderedKeys l e').1 he')
    have : i ∈ (l.zipIdx.filter fun p => e' = p.1).map (·.2) := by
      rw [mem_idx, List.getElem?_eq_getElem hi, h2]
    exact List.ne_nil_of_mem this

/-- **C33**: every atom belongs to exactly one species. -/
theorem C33_partition (l : List β) (i : Nat) (hi : i < l.length) :
    ∃! e, ∃ is, (e, is) ∈ uniqueElemsAndIdx l ∧ i ∈ is := by
  obtain ⟨_, h2, _, h4⟩ := C33_species_idx l
  obtain ⟨p, hp, hpe⟩ := List.mem_map.1 ((h2 l[i]).2 (List.getElem_mem hi))
  refine ⟨l[i], ⟨p.2, by rw [← hpe]; exact hp, ?_⟩, ?_⟩
  · rw [(h4 p.1 p.2 hp).2.2, hpe, List.getElem?_eq_getElem hi]
  · rintro e ⟨is, h5, h6⟩
    have := (h4 e is h5).2.2 i |>.1 h6
    rw [List.getElem?_eq_getElem hi] at this
    exact (Option.some.inj this).symm

end Species

example : uniqueElemsAndIdx ["O", "Si", "O", "Na", "Si"] =
    [("O", [0, 2]), ("Si", [1, 4]), ("Na", [3])] := by decide +kernel

end Euphonic.Lattice
