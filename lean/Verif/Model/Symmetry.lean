import Verif.Model.Images

/-!
# Model of `Crystal.get_symmetry_equivalent_atoms` (euphonic/crystal.py:202-277)

Numbers are exact.  The operations found by `spglib.get_symmetry` are a parameter (`none` if it returns `None`);
so is the conversion of the tolerance to bohr (`tol` is `tol_calc`).
-/

set_option autoImplicit false

namespace Euphonic.Symmetry

open Euphonic.Lattice Euphonic.Images

variable {K : Type} [Field K] [LinearOrder K] [FloorRing K]

/-- A symmetry operation: integer rotation matrix and translation, both in fractional coordinates. -/
structure Op (K : Type) where
  W : M3 ℤ
  t : V3 K

/-- `x -= np.floor(x + 0.5)` (euphonic/crystal.py:245, 255). -/
def wrap (x : K) : K := x - (⌊x + 1 / 2⌋ : ℤ)

/-- `wrap` of each component. -/
def wrapV (v : V3 K) : V3 K := ⟨wrap v.x, wrap v.y, wrap v.z⟩

/-- One element of `einsum('ijk,lk->ilj', rotations, atom_r) + translations` (euphonic/crystal.py:243-244). -/
def act (op : Op K) (r : V3 K) : V3 K :=
  ⟨dot (castV K op.W.a) r + op.t.x, dot (castV K op.W.b) r + op.t.y, dot (castV K op.W.c) r + op.t.z⟩

/-- `np.linalg.norm(d) < tol` (euphonic/crystal.py:257-258), without the square root. -/
def normLt (d : V3 K) (tol : K) : Bool := decide (0 < tol ∧ dot d d < tol ^ 2)

/-- `np.where(diff_r_op < tol_calc)[0]` for one operation and one atom at `r` (euphonic/crystal.py:249-258): the
positions within `idx` of the atoms close to the image. -/
def closeTo (cv : M3 K) (tol : K) (rs : List (V3 K)) (idx : List Nat) (op : Op K) (r : V3 K) : List Nat :=
  (List.range idx.length).filter fun k =>
    normLt (toCart cv (wrapV (sub (wrapV (act op r)) (rs.getD (idx.getD k 0) ⟨0, 0, 0⟩)))) tol

/-- `equiv_idx` (euphonic/crystal.py:258) as a list of pairs. -/
def equivIdx (cv : M3 K) (tol : K) (rs : List (V3 K)) (idx : List Nat) (ops : List (Op K)) (r : V3 K) :
    List (Nat × Nat) :=
  ops.zipIdx.flatMap fun p => (closeTo cv tol rs idx p.1 r).map fun k => (p.2, k)

/-- The loop that raises for the first operation without or with several close atoms
(euphonic/crystal.py:261-271). -/
def raiseLoop (cv : M3 K) (tol : K) (rs : List (V3 K)) (idx : List Nat) (r : V3 K) :
    List (Op K) → Except Err Unit
  | [] => .ok ()
  | op :: ops =>
    if (closeTo cv tol rs idx op r).length = 0 then .error .runtimeError
    else if (closeTo cv tol rs idx op r).length > 1 then .error .runtimeError
    else raiseLoop cv tol rs idx r ops

/-- The column assigned to atom `i` (euphonic/crystal.py:247-272). -/
def column (cv : M3 K) (tol : K) (rs : List (V3 K)) (idx : List Nat) (ops : List (Op K)) (i : Nat) :
    Except Err (List Nat) := do
  let e := equivIdx cv tol rs idx ops (rs.getD i ⟨0, 0, 0⟩)
  if e.map (·.1) ≠ List.range ops.length then
    raiseLoop cv tol rs idx (rs.getD i ⟨0, 0, 0⟩) ops
  return e.map fun p => idx.getD p.2 0

/-- `equiv_atoms` (euphonic/crystal.py:241-272) as a function of operation and atom, `-1` where nothing has been
assigned. -/
abbrev Table := Nat → Nat → Int

/-- `equiv_atoms[:, i] = col`. -/
def setColumn (t : Table) (i : Nat) (col : List Nat) : Table :=
  fun s a => if a = i then (col.getD s 0 : Int) else t s a

/-- `get_symmetry_equivalent_atoms` (euphonic/crystal.py:202-277): the table of equivalent atoms (the operations
are returned as they are). -/
def equivalentAtoms (cv : M3 K) (types : List String) (rs : List (V3 K)) (tol : K)
    (symm : Option (List (Op K))) : Except Err Table :=
  match symm with
  | none => .error .runtimeError
  | some ops =>
    (uniqueElemsAndIdx types).foldlM (fun t (p : String × List Nat) =>
      p.2.foldlM (fun t i => (column cv tol rs p.2 ops i).map fun c => setColumn t i c) t) fun _ _ => -1

end Euphonic.Symmetry
