import Verif.Model.Lattice
import Mathlib.Data.List.FinRange

/-!
# Model of supercell bookkeeping (euphonic/util.py:302-434, 666-725)

Numbers are exact (an ordered field with `floor`); integer matrices are inverted exactly.  A 3x3 block
of force constants is an element of an arbitrary type `B`.
-/

set_option autoImplicit false

namespace Euphonic.Supercell

open Euphonic.Lattice

section Rel
variable {K : Type} [Field K] [LinearOrder K] [FloorRing K]

/-- Determinant of an integer matrix (`np.linalg.det`, euphonic/util.py:360). -/
def det (S : M3 ℤ) : ℤ :=
  S.a.x * (S.b.y * S.c.z - S.b.z * S.c.y) - S.a.y * (S.b.x * S.c.z - S.b.z * S.c.x)
    + S.a.z * (S.b.x * S.c.y - S.b.y * S.c.x)

/-- The integer vector `v * adj(S)`, i.e. `det(S)` times the coordinates of `v` in the basis of the rows
of `S`. -/
def mulAdj (v : V3 ℤ) (S : M3 ℤ) : V3 ℤ :=
  ⟨v.x * (S.b.y * S.c.z - S.b.z * S.c.y) + v.y * (S.b.z * S.c.x - S.b.x * S.c.z)
      + v.z * (S.b.x * S.c.y - S.b.y * S.c.x),
   v.x * (S.a.z * S.c.y - S.a.y * S.c.z) + v.y * (S.a.x * S.c.z - S.a.z * S.c.x)
      + v.z * (S.a.y * S.c.x - S.a.x * S.c.y),
   v.x * (S.a.y * S.b.z - S.a.z * S.b.y) + v.y * (S.a.z * S.b.x - S.a.x * S.b.z)
      + v.z * (S.a.x * S.b.y - S.a.y * S.b.x)⟩

/-- Cell origin in fractional coordinates of the supercell: `origins @ inv(S)`
(euphonic/util.py:692-693). -/
def fracSc (K : Type) [Field K] (S : M3 ℤ) (v : V3 ℤ) : V3 K :=
  ⟨((mulAdj v S).x : K) / (det S : K), ((mulAdj v S).y : K) / (det S : K),
    ((mulAdj v S).z : K) / (det S : K)⟩

/-- `dist_frac_sum` for cells `nc -> j` compared with origin `k` (euphonic/util.py:698-714). -/
def relDist (K : Type) [Field K] [LinearOrder K] [FloorRing K] (S : M3 ℤ) {n : Nat}
    (os : Fin n → V3 ℤ) (nc j k : Fin n) : K :=
  sumAbs (rem (sub (sub (fracSc K S (os j)) (fracSc K S (os nc))) (fracSc K S (os k))))

/-- `np.argmin`: first index of the smallest value. -/
def argminFirst {β : Type} (v : β → K) : List β → Option β
  | [] => none
  | a :: l => some (l.foldl (fun best x => if v x < v best then x else best) a)

/-- One chunk (euphonic/util.py:709-719): `st j` is `(dist_min[j], sc_relative_index[nc, j])`. -/
def chunkStep {n : Nat} (d : Fin n → Fin n → K) (chunk : List (Fin n)) (st : Fin n → K × Nat) :
    Fin n → K × Nat :=
  fun j => match argminFirst (d j) chunk with
    | some k => if d j k < (st j).1 then (d j k, k.val) else st j
    | none => st j

/-- The loop over chunks of `N` cells with its early exit (euphonic/util.py:707-721). -/
def chunkLoop {n : Nat} (d : Fin n → Fin n → K) (thr : K) (N : Nat) :
    List Nat → (Fin n → K × Nat) → (Fin n → K × Nat)
  | [], st => st
  | i :: is, st =>
    let st' := chunkStep d (((List.finRange n).drop (i * N)).take N) st
    if ∀ j, (st' j).1 ≤ thr then st' else chunkLoop d thr N is st'

/-- One row of `_get_supercell_relative_idx` (euphonic/util.py:695-724): `fmax` is
`sys.float_info.max`, `thr` is `16*sys.float_info.epsilon`, `N` the chunk size (100). -/
def relRow {n : Nat} (d : Fin n → Fin n → K) (fmax thr : K) (N : Nat) : Except Err (Fin n → Nat) :=
  let st := chunkLoop d thr N (List.range ((n - 1) / N + 1)) fun _ => (fmax, 0)
  if ∃ j, thr < (st j).1 then .error .valueError else .ok fun j => (st j).2

/-- `_get_supercell_relative_idx` (euphonic/util.py:666-725), row `nc`; a singular matrix makes
`np.linalg.inv` fail (`LinAlgError`, a `ValueError`).  The rows are independent of each other, the
function fails if one of them does. -/
def relativeIdxRow (S : M3 ℤ) {n : Nat} (os : Fin n → V3 ℤ) (fmax thr : K) (N : Nat) (nc : Fin n) :
    Except Err (Fin n → Nat) :=
  if det S = 0 then .error .valueError
  else relRow (fun j k => relDist K S os nc j k) fmax thr N

/-- `_get_supercell_relative_idx` (euphonic/util.py:666-725). -/
def relativeIdx (S : M3 ℤ) {n : Nat} (os : Fin n → V3 ℤ) (fmax thr : K) (N : Nat) :
    Except Err (List (Fin n → Nat)) :=
  (List.finRange n).mapM (relativeIdxRow S os fmax thr N)

end Rel

/-! ## `convert_fc_phases` -/

section Convert
variable {K : Type} [Field K] [LinearOrder K] [FloorRing K] {B : Type}

/-- Inputs of `convert_fc_phases` that describe the structure: `nu` atoms in the unit cell, `ns` in the
supercell. -/
structure ScIn (K : Type) (nu ns : Nat) where
  atomR : Fin nu → V3 K
  scAtomR : Fin ns → V3 K
  ucToSc : Fin nu → Fin ns
  scToUc : Fin ns → Fin nu
  S : M3 ℤ

variable {nu ns : Nat}

/-- `np.rint` of every component. -/
def rint3 (v : V3 K) : V3 ℤ := ⟨rint v.x, rint v.y, rint v.z⟩

/-- Is some component further than `tol` from an integer? (euphonic/util.py:369-371) -/
def nonInt (tol : K) (v : V3 K) : Bool :=
  decide (tol < |v.x - rint v.x|) || decide (tol < |v.y - rint v.y|) || decide (tol < |v.z - rint v.z|)

/-- The checks and `cell_origins_per_atom` (euphonic/util.py:358-379).  `n_cells` is the exact absolute
value of the determinant; dividing by zero atoms is an error. -/
def cellOriginsPerAtom (inp : ScIn K (nu + 1) ns) (tol : K) : Except Err (Fin ns → V3 ℤ) :=
  if ns ≠ (det inp.S).natAbs * (nu + 1) then .error .valueError
  else
    let raw := fun k : Fin ns => sub (inp.scAtomR k) (inp.atomR (inp.scToUc k))
    if ∃ k, nonInt tol (raw k) = true then .error .runtimeError
    else
      let o := fun k => rint3 (raw k)
      .ok fun k => sub (o k) (o (inp.ucToSc 0))

/-- Supercell atoms that are copies of atom 0: `atom0_idx` (euphonic/util.py:383). -/
def atom0Idx (inp : ScIn K (nu + 1) ns) : List (Fin ns) :=
  (List.finRange ns).filter fun k => decide (inp.scToUc k = 0)

/-- Vector-matrix product with integers (euphonic/util.py:393). -/
def mulMat (v : V3 ℤ) (S : M3 ℤ) : V3 ℤ :=
  ⟨v.x * S.a.x + v.y * S.b.x + v.z * S.c.x, v.x * S.a.y + v.y * S.b.y + v.z * S.c.y,
   v.x * S.a.z + v.y * S.b.z + v.z * S.c.z⟩

/-- The 27 neighbouring supercells (euphonic/util.py:392-393). -/
def neighbours (S : M3 ℤ) : List (V3 ℤ) :=
  match getAllOrigins ⟨2, 2, 2⟩ ⟨-1, -1, -1⟩ with
  | .ok l => l.map fun v => mulMat v S
  | .error _ => []

/-- `cell_origins_map` for one atom with origin `o` (euphonic/util.py:394-413). -/
def mapOrigin (S : M3 ℤ) {nc : Nat} (cells : Fin nc → V3 ℤ) (o : V3 ℤ) : Except Err (Fin nc) :=
  match (List.finRange nc).filter fun c => decide (o = cells c) with
  | [c] => .ok c
  | _ =>
    match (List.finRange nc).find? fun c => (neighbours S).any fun s => decide (sub o s = cells c) with
    | some c => .ok c
    | none => .error .valueError

/-- `a[idx] = values` for an index array: assignments in order, the last one wins. -/
def assignAll {ι V : Type} [DecidableEq ι] (init : ι → V) (l : List (ι × V)) : ι → V :=
  l.foldl (fun a p => Function.update a p.1 p.2) init

/-- `mapM` over all atoms as a function. -/
def finMapM {n : Nat} {β : Type} (f : Fin n → Except Err β) : Except Err (Fin n → β) :=
  match h : (List.finRange n).mapM f with
  | .error e => .error e
  | .ok l => if hl : l.length = n then .ok fun i => l[i.val]'(by omega) else .error .indexError

/-- Result of `convert_fc_phases`: cell origins and blocks `fc[c, i, j]`. -/
structure ScOut (B : Type) (nu nc : Nat) where
  cells : Fin nc → V3 ℤ
  fc : Fin nc → Fin nu → Fin nu → B

/-- `convert_fc_phases` (euphonic/util.py:302-434).  `rows i k` is the block between unit cell atom `i`
and supercell atom `k`: `force_constants[i]`, or `force_constants[uc_to_sc_atom_idx[i]]` if the matrix
is full (euphonic/util.py:415-417).  `zero` and `unset` are the blocks the work arrays are filled with
(0 and -1).  If the number of copies of atom 0 differs from the number of cells numpy fails somewhere
in the loop; this is an error here. -/
def convertFcPhases (zero unset : B) (fmax thr tol : K) (N : Nat) (inp : ScIn K (nu + 1) ns)
    (rows : Fin (nu + 1) → Fin ns → B) :
    Except Err (ScOut B (nu + 1) (atom0Idx inp).length) := do
  let o ← cellOriginsPerAtom inp tol
  let cells := fun c : Fin (atom0Idx inp).length => o ((atom0Idx inp).get c)
  let cmap ← finMapM fun k => mapOrigin inp.S cells (o k)
  if (atom0Idx inp).length ≠ (det inp.S).natAbs then throw .valueError
  let conv ← finMapM fun i : Fin (nu + 1) => do
    let fcTmp := assignAll (fun _ => zero)
      ((List.finRange ns).map fun k => ((cmap k, inp.scToUc k), rows i k))
    match (List.finRange ns).find? fun k => decide (inp.scToUc k = i) with
    | none => throw .indexError
    | some k0 =>
      let rels ← relativeIdx inp.S cells fmax thr N
      let rel := rels.getD (cmap k0).val fun _ => 0
      return assignAll (fun _ => fun _ => unset)
        ((List.finRange (atom0Idx inp).length).map fun c => (rel c, fun j => fcTmp (c, j)))
  return { cells := cells, fc := fun c i j => conv i c.val j }

/-- Choice of rows for a full matrix (euphonic/util.py:415-417). -/
def fullRows (inp : ScIn K nu ns) (fc : Fin ns → Fin ns → B) : Fin nu → Fin ns → B :=
  fun i k => fc (inp.ucToSc i) k

end Convert

end Euphonic.Supercell
