import Verif.Model.Phases
import Mathlib.Data.Finset.Max
import Mathlib.Order.ConditionallyCompleteLattice.Finset

/-!
# Model of the supercell images (euphonic/force_constants.py:576-612, 1569-1661)

Numbers are exact.  Arrays are functions; the loops are kept.
-/

set_option autoImplicit false

namespace Euphonic.Images

open Euphonic.Lattice Euphonic.Supercell Euphonic.Phases

variable {K : Type} [Field K] [LinearOrder K]

/-- Integer vector as a vector of numbers. -/
def castV (K : Type) [Field K] (v : V3 ℤ) : V3 K := ⟨v.x, v.y, v.z⟩

/-- Sum of two vectors. -/
def add {K : Type} [Add K] (u v : V3 K) : V3 K := ⟨u.x + v.x, u.y + v.y, u.z + v.z⟩

/-- `ws_frac[1:]` (euphonic/force_constants.py:1592-1595). -/
def wsFrac : List (V3 ℤ) :=
  [⟨0, 0, 1⟩, ⟨0, 1, 0⟩, ⟨0, 1, 1⟩, ⟨0, 1, -1⟩, ⟨1, 0, 0⟩, ⟨1, 0, 1⟩, ⟨1, 0, -1⟩, ⟨1, 1, 0⟩,
   ⟨1, 1, 1⟩, ⟨1, 1, -1⟩, ⟨1, -1, 0⟩, ⟨1, -1, 1⟩, ⟨1, -1, -1⟩]

/-- `sc_vecs` (euphonic/force_constants.py:1599). -/
def scVecs (S : M3 ℤ) (cv : M3 K) : M3 K :=
  ⟨toCart cv (castV K S.a), toCart cv (castV K S.b), toCart cv (castV K S.c)⟩

/-- `ws_list_norm` (euphonic/force_constants.py:1600-1602). -/
def wsListNorm (sv : M3 K) : List (V3 K) :=
  wsFrac.map fun f => smul (1 / dot (toCart sv (castV K f)) (toCart sv (castV K f)))
    (toCart sv (castV K f))

/-- `sc_atom_cart` (euphonic/force_constants.py:1608-1610). -/
def scAtomCart (cv : M3 K) (o : V3 ℤ) (r : V3 K) : V3 K := toCart cv (add (castV K o) r)

/-- The loop over Wigner-Seitz points with its progressive selection and early exit
(euphonic/force_constants.py:1632-1652); the limit is `0.5*cutoff_scale + 0.001`. -/
def wsLoop {ι : Type} (dists : ι → V3 K) : List (V3 K) → List ι → List ι
  | [], kept => kept
  | w :: ws, kept =>
    let kept' := kept.filter fun p => decide (|dot (dists p) w| ≤ 1 / 2 * 1 + 1 / 1000)
    if kept'.isEmpty then [] else wsLoop dists ws kept'

/-- `(sc_image_i, n_sc_images)` while they are filled in. -/
structure ImState (N n : Nat) where
  img : Fin N → Fin n → Fin n → Nat → ℤ
  cnt : Fin N → Fin n → Fin n → Nat

/-- Record image `im` for the pairs `(c, i, j)`, `(c, j)` in `kept`
(euphonic/force_constants.py:1653-1656). -/
def saveImages {N n : Nat} (st : ImState N n) (i : Fin n) (im : Nat) (kept : List (Fin N × Fin n)) :
    ImState N n :=
  { img := fun c i' j k =>
      if i' = i ∧ (c, j) ∈ kept ∧ k = st.cnt c i j then (im : ℤ) else st.img c i' j k
    cnt := fun c i' j => if i' = i ∧ (c, j) ∈ kept then st.cnt c i' j + 1 else st.cnt c i' j }

/-- The two outer loops of `_calculate_supercell_images` (euphonic/force_constants.py:1612-1656).
`c0` is the first cell. -/
def imageLoops {N n : Nat} (cv : M3 K) (r : Fin n → V3 K) (cells : Fin N → V3 ℤ) (c0 : Fin N)
    (S : M3 ℤ) (images : List (V3 ℤ)) : ImState N n :=
  (List.finRange n).foldl (fun st i =>
    images.zipIdx.foldl (fun st p =>
      let dists := fun cj : Fin N × Fin n =>
        sub (sub (scAtomCart cv (cells c0) (r i)) (scAtomCart cv (cells cj.1) (r cj.2)))
          (toCart (scVecs S cv) (castV K p.1))
      saveImages st i p.2 (wsLoop dists (wsListNorm (scVecs S cv))
        ((List.finRange N).flatMap fun c => (List.finRange n).map fun j => (c, j)))) st)
    { img := fun _ _ _ _ => -1, cnt := fun _ _ _ => 0 }

/-- `np.max(n_sc_images)` (euphonic/force_constants.py:1661). -/
def maxCount {N n : Nat} (st : ImState N n) : Nat :=
  Finset.univ.sup fun c => Finset.univ.sup fun i => Finset.univ.sup fun j => st.cnt c i j

/-- `_sc_image_i` for one pair: the columns that are kept (euphonic/force_constants.py:1658-1661). -/
def scImageI {N n : Nat} (st : ImState N n) (c : Fin N) (i j : Fin n) : List ℤ :=
  (List.range (maxCount st)).map (st.img c i j)

/-- `fc_img_weighted` (euphonic/force_constants.py:595-598) for one element: where there is no image
the array keeps the uninitialised value `junk`. -/
def fcWeighted (fc : K) (count : Nat) (junk : K) : K := if count ≠ 0 then fc / count else junk

end Euphonic.Images
