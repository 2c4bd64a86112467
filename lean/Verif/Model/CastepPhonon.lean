import Mathlib.Data.Finset.Card
import Mathlib.Algebra.Field.Defs
import Verif.Model.Base

/-!
# Model of the `.phonon` reader: q-point blocks and weights (euphonic/readers/castep.py:121-271)

How the text of a block is parsed is not part of this file; here a block is what
`_read_frequency_block` and the eigenvector lines give.  `Q`, `F`, `E` are the types of a q-point, of the
frequencies of a q-point and of its eigenvectors.
-/

set_option autoImplicit false

namespace Euphonic.Phonon

/-- A frequency block with its eigenvectors (`_FrequencyBlock`, euphonic/readers/castep.py:321-327, and
`qeigenvec`, lines 207-214).  `split` tells whether there is a direction vector. -/
structure Block (K Q F E : Type) where
  id : Nat
  qpt : Q
  split : Bool
  weight : K
  freqs : F
  evecs : E

/-- Local variables of the loop (euphonic/readers/castep.py:175-189). -/
structure Vars (K Q F E : Type) where
  qpts : List Q
  weights : List K
  freqs : List F
  evecs : Option (List E)
  idx : Nat
  prevId : Int
  repeated : List (Nat × Finset Nat)
  loto : Finset Nat

variable {K Q F E : Type}

/-- Values before the loop: zeros for the announced number of q-points (euphonic/readers/castep.py:175-189). -/
def Vars.init [Zero K] [Zero Q] [Zero F] [Zero E] (n : Nat) (readEvecs : Bool) : Vars K Q F E where
  qpts := List.replicate n 0
  weights := List.replicate n 0
  freqs := List.replicate n 0
  evecs := if readEvecs then some (List.replicate n 0) else none
  idx := 0
  prevId := -1
  repeated := []
  loto := ∅

/-- `repeated_qpt_ids[q].update(s)` on a `defaultdict(set)` (euphonic/readers/castep.py:199). -/
def dictUpdate (d : List (Nat × Finset Nat)) (q : Nat) (s : Finset Nat) : List (Nat × Finset Nat) :=
  if d.any (fun e => e.1 = q) then d.map fun e => if e.1 = q then (q, e.2 ∪ s) else e
  else d ++ [(q, s)]

/-- One pass of the loop over the blocks (euphonic/readers/castep.py:191-230). -/
def step (average prefer : Bool) (v : Vars K Q F E) (b : Block K Q F E) : Vars K Q F E :=
  { qpts := if v.idx < v.qpts.length then v.qpts.set v.idx b.qpt else v.qpts ++ [b.qpt]
    freqs := if v.idx < v.qpts.length then v.freqs.set v.idx b.freqs else v.freqs ++ [b.freqs]
    weights := if v.idx < v.qpts.length then v.weights.set v.idx b.weight else v.weights ++ [b.weight]
    evecs := v.evecs.map fun e =>
      if v.idx < v.qpts.length then e.set v.idx b.evecs else e ++ [b.evecs]
    idx := v.idx + 1
    prevId := b.id
    repeated := if (average || prefer) && decide ((b.id : Int) = v.prevId)
      then dictUpdate v.repeated b.id {v.idx - 1, v.idx} else v.repeated
    loto := if prefer && b.split then insert v.idx v.loto else v.loto }

/-- `weights[indices] = f(weights[indices])` (euphonic/readers/castep.py:241, 249). -/
def onIndices (s : Finset Nat) (f : K → K) (w : List K) : List K :=
  w.mapIdx fun i x => if i ∈ s then f x else x

variable [Field K]

/-- One pass of the loop over the repeated q-points (euphonic/readers/castep.py:233-249). -/
def fixWeights (average prefer : Bool) (loto : Finset Nat) (w : List K) (e : Nat × Finset Nat) :
    Except Err (List K) :=
  let inter := e.2 ∩ loto
  if prefer && decide (inter.card ≠ 0) && decide (inter.card < e.2.card) then
    if e.2.card - inter.card = 1 then .ok (onIndices inter (fun _ => 0) w)
    else .error .valueError
  else if average then .ok (onIndices e.2 (fun x => x / (e.2.card : K)) w)
  else .ok w

/-- What the loops of `read_phonon_data` give (euphonic/readers/castep.py:175-249), for the blocks of a file
whose header announces `n` q-points.  Unit conversions and the crystal are not part of it. -/
def readBlocks [Zero Q] [Zero F] [Zero E] (n : Nat) (readEvecs average prefer : Bool)
    (bs : List (Block K Q F E)) : Except Err (List Q × List K × List F × Option (List E)) := do
  let v := bs.foldl (step average prefer) (Vars.init n readEvecs)
  let w ← v.repeated.foldlM (fixWeights average prefer v.loto) v.weights
  return (v.qpts, w, v.freqs, v.evecs)

end Euphonic.Phonon
