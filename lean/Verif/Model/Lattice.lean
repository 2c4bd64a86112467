import Verif.Model.Base
import Verif.Model.Rint
import Mathlib.Analysis.SpecialFunctions.Sqrt

/-!
# Model of lattices, grids, species and paths (euphonic/crystal.py, euphonic/util.py)

Numbers are elements of a field (`ℝ` where a square root is taken); units are not modelled here except
for the conversion factor in `mpGridSpec`.
-/

set_option autoImplicit false

namespace Euphonic.Lattice

/-- A vector with three components. -/
structure V3 (K : Type) where
  x : K
  y : K
  z : K
  deriving DecidableEq, Repr

/-- A 3x3 matrix as three row vectors. -/
structure M3 (K : Type) where
  a : V3 K
  b : V3 K
  c : V3 K
  deriving DecidableEq, Repr

section Field
variable {K : Type} [Field K]

/-- `np.dot` of two vectors (used in euphonic/util.py:439). -/
def dot (u v : V3 K) : K := u.x * v.x + u.y * v.y + u.z * v.z

/-- `np.cross` (used in euphonic/util.py:440 and euphonic/crystal.py:118-120). -/
def cross (u v : V3 K) : V3 K :=
  ⟨u.y * v.z - u.z * v.y, u.z * v.x - u.x * v.z, u.x * v.y - u.y * v.x⟩

/-- Multiplication of a vector by a number. -/
def smul (k : K) (v : V3 K) : V3 K := ⟨k * v.x, k * v.y, k * v.z⟩

/-- `_cell_vectors_to_volume` (euphonic/util.py:437-442), `Crystal.cell_volume`
(euphonic/crystal.py:126-135). -/
def cellVolume (cv : M3 K) : K := dot cv.a (cross cv.b cv.c)

/-- `Crystal.reciprocal_cell` (euphonic/crystal.py:106-124); `twoPi` stands for `2*np.pi`. -/
def reciprocalCell (twoPi : K) (cv : M3 K) : M3 K :=
  let norm := twoPi / cellVolume cv
  ⟨smul norm (cross cv.b cv.c), smul norm (cross cv.c cv.a), smul norm (cross cv.a cv.b)⟩

end Field

/-- `np.linalg.norm` of a vector. -/
noncomputable def norm3 (v : V3 ℝ) : ℝ := Real.sqrt (dot v v)

/-- `Crystal.get_mp_grid_spec` (euphonic/crystal.py:137-163); `conv` is the factor that converts the
reciprocal cell to the unit of `spacing`. -/
noncomputable def mpGridSpec (twoPi conv spacing : ℝ) (cv : M3 ℝ) : ℤ × ℤ × ℤ :=
  let l := reciprocalCell twoPi cv
  (⌈norm3 (smul conv l.a) / spacing⌉, ⌈norm3 (smul conv l.b) / spacing⌉,
    ⌈norm3 (smul conv l.c) / spacing⌉)

/-! ## Grids -/

/-- `np.repeat(l, k)`: every element `k` times (used in euphonic/util.py:93-99, 126-129). -/
def npRepeat {β : Type} (l : List β) (k : Nat) : List β := l.flatMap fun a => List.replicate k a

/-- `np.tile(l, k)`: the list `k` times (used in euphonic/util.py:93-99, 126-129). -/
def npTile {β : Type} (l : List β) (k : Nat) : List β := (List.replicate k l).flatten

/-- `np.column_stack` of three one-dimensional arrays: `ValueError` unless they have equal lengths
(used in euphonic/util.py:100, 131). -/
def columnStack {β : Type} (a b c : List β) : Except Err (List (V3 β)) :=
  if a.length = b.length ∧ b.length = c.length then
    .ok (List.zipWith (fun x (yz : β × β) => ⟨x, yz.1, yz.2⟩) a (b.zip c))
  else .error .valueError

/-- One axis of a Monkhorst-Pack grid: `(2*(arange(N)+1) - N - 1)/(2*N)` (euphonic/util.py:91-92). -/
def mpAxis (K : Type) [Field K] (N : Nat) : List K :=
  (List.range N).map fun (r : Nat) => (2 * ((r : K) + 1) - (N : K) - 1) / (2 * (N : K))

/-- `mp_grid` (euphonic/util.py:75-100). -/
def mpGrid (K : Type) [Field K] (l m n : Nat) : Except Err (List (V3 K)) :=
  columnStack (npRepeat (mpAxis K l) (m * n)) (npTile (npRepeat (mpAxis K m) n) l)
    (npTile (mpAxis K n) (l * m))

/-- Python `range(a, b, step)` for `step > 0`. -/
def pyRange (a b : ℤ) (step : Nat) : List ℤ :=
  (List.range (((b - a).toNat + step - 1) / step)).map fun (i : Nat) => a + step * i

/-- `get_all_origins` (euphonic/util.py:103-131), for a positive step. -/
def getAllOrigins (max min : V3 ℤ) (step : Nat := 1) : Except Err (List (V3 ℤ)) :=
  let d0 := (max.x - min.x).natAbs
  let d1 := (max.y - min.y).natAbs
  let d2 := (max.z - min.z).natAbs
  columnStack (npRepeat (pyRange min.x max.x step) (d1 * d2))
    (npRepeat (npTile (pyRange min.y max.y step) d0) d2)
    (npTile (pyRange min.z max.z step) (d0 * d1))

/-- Overwrites `a[i:i+len(b)]` with `b` (numpy slice assignment, in range). -/
def setSlice {β : Type} (a : List β) (i : Nat) (b : List β) : List β :=
  a.take i ++ b ++ a.drop (i + b.length)

/-- One pass of the loop in `_get_shell_origins` (euphonic/force_constants.py:1351-1362): the planes at
offset `ni`, `i = 0, 1`. -/
def shellStep (xy xz yz : List (V3 ℤ)) (origins : List (V3 ℤ)) (i : Nat) (ni : ℤ) : List (V3 ℤ) :=
  let o1 := setSlice origins (i * xy.length) (xy.map fun v => { v with z := ni })
  let io1 := 2 * xy.length
  let o2 := setSlice o1 (io1 + i * xz.length) (xz.map fun v => { v with y := ni })
  let io2 := 2 * (xy.length + xz.length)
  setSlice o2 (io2 + i * yz.length) (yz.map fun v => { v with x := ni })

/-- `_get_shell_origins` (euphonic/force_constants.py:1321-1364). -/
def shellOrigins (n : Nat) : Except Err (List (V3 ℤ)) :=
  if n = 0 then .ok [⟨0, 0, 0⟩] else do
    let N : ℤ := n
    let xy ← getAllOrigins ⟨N + 1, N + 1, 1⟩ ⟨-N, -N, 0⟩
    let xz ← getAllOrigins ⟨N + 1, 1, N⟩ ⟨-N, 0, -N + 1⟩
    let yz ← getAllOrigins ⟨1, N, N⟩ ⟨0, -N + 1, -N + 1⟩
    let origins : List (V3 ℤ) :=
      List.replicate ((2 * n + 1) ^ 3 - (2 * n - 1) ^ 3) ⟨0, 0, 0⟩
    let origins := shellStep xy xz yz origins 0 (-N)
    return shellStep xy xz yz origins 1 N

/-! ## Species -/

/-- Keys of `dict(zip(all, cycle([None])))`: a key inserted again keeps its place
(euphonic/util.py:453). -/
def orderedKeys {β : Type} [DecidableEq β] (l : List β) : List β :=
  l.foldl (fun acc a => if a ∈ acc then acc else acc ++ [a]) []

/-- `_get_unique_elems_and_idx` (euphonic/util.py:445-458), also `Crystal.get_species_idx`
(euphonic/crystal.py:185-200, where the one-element tuples are unpacked again). -/
def uniqueElemsAndIdx {β : Type} [DecidableEq β] (l : List β) : List (β × List Nat) :=
  (orderedKeys l).map fun e => (e, (l.zipIdx.filter fun p => e = p.1).map (·.2))

/-! ## Paths through reciprocal space -/

/-- Sum of the absolute values of the components. -/
def sumAbs {K : Type} [Field K] [LinearOrder K] (v : V3 K) : K := |v.x| + |v.y| + |v.z|

/-- Difference of two vectors. -/
def sub {K : Type} [Sub K] (u v : V3 K) : V3 K := ⟨u.x - v.x, u.y - v.y, u.z - v.z⟩

/-- `v - np.rint(v)` (used in euphonic/util.py:71, 492). -/
def rem {K : Type} [Field K] [LinearOrder K] [FloorRing K] (v : V3 K) : V3 K :=
  ⟨v.x - rint v.x, v.y - rint v.y, v.z - rint v.z⟩

/-- `einsum('ji,kj->ki', recip, delta)` for one `k` (euphonic/util.py:503): `q` in Cartesian
coordinates. -/
def toCart {K : Type} [Field K] (m : M3 K) (q : V3 K) : V3 K :=
  ⟨q.x * m.a.x + q.y * m.b.x + q.z * m.c.x, q.x * m.a.y + q.y * m.b.y + q.z * m.c.y,
   q.x * m.a.z + q.y * m.b.z + q.z * m.c.z⟩

/-- Consecutive differences `np.diff(qpts, axis=0)` (euphonic/util.py:43, 483). -/
def diffs {K : Type} [Sub K] : List (V3 K) → List (V3 K)
  | [] => []
  | [_] => []
  | a :: b :: l => sub b a :: diffs (b :: l)

/-- Length of one step along the path (euphonic/util.py:492-511): zero if the points are equivalent but
different (`TOL = 0.001`). -/
noncomputable def stepLength (recip : M3 ℝ) (delta : V3 ℝ) : ℝ :=
  if 1 / 1000 < sumAbs delta ∧ sumAbs (rem delta) < 1 / 1000 then 0
  else norm3 (toCart recip delta)

/-- `_calc_abscissa` (euphonic/util.py:461-516) up to the constant unit factor: cumulative sum of the
step lengths with 0 in front. -/
noncomputable def calcAbscissa (recip : M3 ℝ) (qpts : List (V3 ℝ)) : List ℝ :=
  (((diffs qpts).map (stepLength recip)).scanl (· + ·) 0)

/-- `is_gamma` (euphonic/util.py:54-72), `tol = 1e-15`. -/
def isGamma {K : Type} [Field K] [LinearOrder K] [FloorRing K] (q : V3 K) : Bool :=
  decide (sumAbs (rem q) < 1 / 10 ^ 15)

/-- `direction_changed` for one pair of consecutive difference vectors (euphonic/util.py:43-51). -/
noncomputable def dirChanged (d1 d2 : V3 ℝ) : Bool :=
  decide (5 / 10 ^ 6 < |(|dot d2 d1| - norm3 d2 * norm3 d1)|)

/-- Which interior points get a label (euphonic/util.py:549-558). -/
noncomputable def interiorLabels : List (V3 ℝ) → List Bool
  | a :: b :: c :: l =>
    (dirChanged (sub b a) (sub c b) || isGamma b ||
      (decide (c.x = b.x) && decide (c.y = b.y) && decide (c.z = b.z))) ::
      interiorLabels (b :: c :: l)
  | _ => []

/-- `qpt_has_label` (euphonic/util.py:546-558). -/
noncomputable def hasLabel (qpts : List (V3 ℝ)) : List Bool :=
  if qpts.length ≤ 2 then List.replicate qpts.length true
  else true :: interiorLabels qpts ++ [true]

/-- `np.where(mask)[0]`. -/
def whereIdx (mask : List Bool) : List Nat :=
  (mask.zipIdx.filter fun p => p.1).map (·.2)

/-- `x - floor(x)` for every component (euphonic/util.py:637). -/
def norm01 {K : Type} [Field K] [LinearOrder K] [FloorRing K] (q : V3 K) : V3 K :=
  ⟨q.x - ⌊q.x⌋, q.y - ⌊q.y⌋, q.z - ⌊q.z⌋⟩

/-- `np.isclose(coords, q, atol=1e-6).all()` (euphonic/util.py:648): the default `rtol = 1e-5` is
relative to the q-point. -/
def closeTo {K : Type} [Field K] [LinearOrder K] (c q : V3 K) : Bool :=
  let cl := fun a b : K => decide (|a - b| ≤ 1 / 10 ^ 6 + 1 / 10 ^ 5 * |b|)
  cl c.x q.x && cl c.y q.y && cl c.z q.z

/-- `np.roll(v, 1)`. -/
def roll {K : Type} (v : V3 K) : V3 K := ⟨v.z, v.x, v.y⟩

/-- `_get_qpt_label` (euphonic/util.py:612-663). -/
def qptLabel {K : Type} [Field K] [LinearOrder K] [FloorRing K] (table : List (String × V3 K))
    (q : V3 K) : String :=
  let qn := norm01 q
  let look := fun v : V3 K => table.find? fun e => closeTo e.2 v
  match look qn with
  | some e => e.1
  | none => match look (roll qn) with
    | some e => e.1
    | none => match look (roll (roll qn)) with
      | some e => e.1
      | none => ""

/-- `get_qpoint_labels` (euphonic/util.py:134-167) with a given table of labels (`seekpath` and the
generic table are not modelled); `coordText` is the text used if no label is found at all. -/
noncomputable def qpointLabels (table : List (String × V3 ℝ)) (coordText : V3 ℝ → String)
    (qpts : List (V3 ℝ)) : List (Nat × String) :=
  let idx := whereIdx (hasLabel qpts)
  let qs := idx.map fun i => qpts.getD i ⟨0, 0, 0⟩
  let labels := qs.map fun q => let s := qptLabel table q; if s = "GAMMA" then "$\\Gamma$" else s
  let labels := if labels.all (· = "") then qs.map coordText else labels
  idx.zip labels

end Euphonic.Lattice
