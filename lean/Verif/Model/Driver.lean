import Verif.Model.Phases

/-!
# Model of `_calculate_phonons_at_qpts` (euphonic/force_constants.py:429-736)

The preparation of q-points and weights, the choice of splitting directions, the caches kept on the
object, the choice of backend and the loop over reduced q-points.  The numerical work at one q-point is a
parameter of the model (it is modelled in `Verif.Model.DynMat` and `Verif.Model.Dipole`).  Numbers are
elements of an ordered field.
-/

set_option autoImplicit false

namespace Euphonic.Driver

open Euphonic.Lattice Euphonic.Phases

variable {K : Type} [Field K] [LinearOrder K] [FloorRing K]

/-- The zero vector. -/
def zeroV : V3 K := ⟨0, 0, 0⟩

/-- `np.where(is_gamma(qpts))[0]` (euphonic/force_constants.py:483, 506, 533). -/
def whereGamma (qs : List (V3 K)) : List Nat :=
  (List.range qs.length).filter fun i => isGamma (qs.getD i zeroV)

/-- Worker of `npInsert`: `i` is the index of the next element of the original array. -/
def npInsertGo {α : Type} : Nat → List (Nat × α) → List α → List α
  | _, [], arr => arr
  | i, (_, v) :: ins, [] => v :: npInsertGo i ins []
  | i, (k, v) :: ins, a :: arr =>
    if k ≤ i then v :: npInsertGo i ins (a :: arr) else a :: npInsertGo (i + 1) ((k, v) :: ins) arr
termination_by _ ins arr => ins.length + arr.length

/-- `np.insert(arr, idx, vals, axis=0)` for increasing `idx`: each value goes before the element with
that index in the original array (used in euphonic/force_constants.py:486, 494). -/
def npInsert {α : Type} (arr : List α) (idx : List Nat) (vals : List α) : List α :=
  npInsertGo 0 (idx.zip vals) arr

/-- `split_gamma` (euphonic/force_constants.py:483-485). -/
def splitGamma (qs : List (V3 K)) : List Nat :=
  (whereGamma qs).filter fun i => decide (0 < i) && decide (i < qs.length - 1)

/-- Inserting gamma points (euphonic/force_constants.py:481-496). -/
def insertGamma (qs : List (V3 K)) (ws : Option (List K)) : List (V3 K) × Option (List K) :=
  let sg := splitGamma qs
  (npInsert qs sg (sg.map fun i => qs.getD i zeroV),
    ws.map fun w =>
      let w1 := w.mapIdx fun i x => if i ∈ sg then x / 2 else x
      npInsert w1 sg (sg.map fun i => w1.getD i 0))

/-- Order of rows used by `np.unique(axis=0)`. -/
def rowLe (u v : V3 K) : Bool :=
  decide (u.x < v.x ∨ u.x = v.x ∧ (u.y < v.y ∨ u.y = v.y ∧ u.z ≤ v.z))

/-- `norm_qpts` (euphonic/force_constants.py:499, 506-508): gamma points are set to exactly zero. -/
def normQ (q : V3 K) : V3 K := if isGamma q then zeroV else rem q

/-- `l[idx] = vals` for an integer array. -/
def setMany (l : List Nat) (idx vals : List Nat) : List Nat :=
  (idx.zip vals).foldl (fun l p => l.set p.1 p.2) l

/-- `reduced_qpts` and `qpts_i` (euphonic/force_constants.py:498-529). -/
def reduceQ (reduce splitting : Bool) (qs : List (V3 K)) : List (V3 K) × List Nat :=
  if reduce then
    let gamma := whereGamma qs
    let (u, inv) := npUnique rowLe (qs.map normQ)
    if splitting && decide (1 < gamma.length) then
      (u ++ List.replicate (gamma.length - 1) zeroV,
        setMany inv gamma.tail (List.range' u.length (gamma.length - 1)))
    else (u, inv)
  else (qs, List.range qs.length)

/-- `np.where(qpts_i == idx)[0]` (euphonic/force_constants.py:1262). -/
def positions (qi : List Nat) (idx : Nat) : List Nat :=
  (List.range qi.length).filter fun p => qi.getD p 0 == idx

/-- One direction of `_get_q_dirs` for the point at position `p` of `qpts`
(euphonic/force_constants.py:1263-1276). -/
def qDir (qs : List (V3 K)) (p : Nat) : V3 K :=
  if p = 0 then sub (qs.getD 1 zeroV) (qs.getD 0 zeroV)
  else if p = qs.length - 1 then
    sub (qs.getD (qs.length - 1) zeroV) (qs.getD (qs.length - 2) zeroV)
  else
    let d := sub (qs.getD (p + 1) zeroV) (qs.getD p zeroV)
    if isGamma d then sub (qs.getD p zeroV) (qs.getD (p - 1) zeroV) else d

/-- `_get_q_dirs` (euphonic/force_constants.py:1237-1277).  The truth value of an array that does not
have exactly one element raises `ValueError`. -/
def getQDirs (qs : List (V3 K)) (qi gamma : List Nat) : Except Err (List (V3 K)) :=
  if 1 < qs.length then
    gamma.mapM fun idx =>
      match positions qi idx with
      | [p] => .ok (qDir qs p)
      | _ => .error .valueError
  else .ok (gamma.map fun _ => zeroV)

/-- `q_dirs` (euphonic/force_constants.py:532-537). -/
def dirsIf (splitting : Bool) (qs : List (V3 K)) (qi splitIdx : List Nat) : Except Err (List (V3 K)) :=
  if splitting then getQDirs qs qi splitIdx else .ok []

/-- Direction used for reduced point `qi` in the Python loop (euphonic/force_constants.py:694-699):
`np.where(split_idx == qi)[0][0]`. -/
def loopDir (splitting : Bool) (splitIdx : List Nat) (dirs : List (V3 K)) (q : V3 K) (qi : Nat) :
    Except Err (Option (V3 K)) :=
  if splitting && isGamma q then
    match positions splitIdx qi with
    | [] => .error .indexError
    | p :: _ => if p < dirs.length then .ok (some (dirs.getD p zeroV)) else .error .indexError
  else .ok none

/-- From the q-points (after insertion) to the results at each of them
(euphonic/force_constants.py:498-537, 694-716): reduce, find directions, calculate the reduced points,
index back. -/
def atQpts {R : Type} (reduce splitting : Bool) (qs : List (V3 K))
    (at1 : V3 K → Option (V3 K) → R) : Except Err (List R) := do
  let (rq, qi) := reduceQ reduce splitting qs
  let splitIdx := if splitting then whereGamma rq else []
  let dirs ← dirsIf splitting qs qi splitIdx
  let res ← (List.range rq.length).mapM fun i => do
    let d ← loopDir splitting splitIdx dirs (rq.getD i zeroV) i
    .ok (at1 (rq.getD i zeroV) d)
  qi.mapM fun i => match res[i]? with
    | some r => .ok r
    | none => .error .indexError

/-! ## The whole function -/

/-- `asr` argument. -/
inductive Asr
  | realspace
  | reciprocal
  deriving DecidableEq

/-- Arguments of `_calculate_phonons_at_qpts` (euphonic/force_constants.py:429-442). -/
structure Args (K : Type) where
  qpts : List (V3 K)
  weights : Option (List K)
  asr : Option Asr
  dipole : Bool
  dipoleParameter : K
  splitting : Bool
  insertGamma : Bool
  reduceQpts : Bool
  useC : Option Bool
  nThreads : Option ℤ
  gradients : Bool
  eigenvectors : Bool

/-- Which implementation computes the reduced q-points, with how many threads. -/
inductive Backend
  | python
  | c (threads : ℤ)
  deriving DecidableEq

/-- Warnings given by the function. -/
inductive Warn
  | noC
  deriving DecidableEq

/-- Surroundings: whether the compiled extension can be imported, the environment variable
`EUPHONIC_NUM_THREADS` (`int()` of it; `none` if it is not an integer), and the number of CPUs. -/
structure Sys where
  cext : Bool
  envSet : Bool
  envValue : Option ℤ
  cpus : ℤ

/-- The numerical parts: `D` the attributes of the object (crystal, force constants, cells, Born charges,
dielectric), `I` supercell images, `P` data for the dipole correction, `F` force constants, `C`
reciprocal-space correction, `R` result at one point. -/
structure Num (K D I P F C R : Type) where
  hasBorn : D → Bool
  images : D → I
  dipoleInit : D → K → Except Err P
  rawFc : D → F
  asrFc : D → F
  recipAsr : D → I → F → Option P → C
  at1 : Backend → D → I → F → Option P → Option C → Bool → Bool → V3 K → Option (V3 K) → R

/-- Caches kept on the object: `_sc_image_i` and `_n_sc_images`, `_dipole_init_data`,
`_force_constants_asr`. -/
structure Caches (K I P F : Type) where
  images : Option I
  dipole : Option (K × P)
  fcAsr : Option F

/-- Caches of a new object. -/
def Caches.empty {I P F : Type} : Caches K I P F := ⟨none, none, none⟩

/-- What is returned: q-points, results at each of them, weights; also which backend was used. -/
structure Out (K R : Type) where
  qpts : List (V3 K)
  results : List R
  weights : Option (List K)
  backend : Backend

/-- `dipole` and `splitting` in effect (euphonic/force_constants.py:475-479). -/
def flags (born dipole splitting : Bool) : Bool × Bool :=
  let dipole := if born then dipole else false
  let splitting := if dipole then splitting else false
  (dipole, splitting)

/-- Backend chosen (euphonic/force_constants.py:633-656) and warnings. -/
def chooseBackend (s : Sys) (useC : Option Bool) (nThreads : Option ℤ) :
    Except Err Backend × List Warn :=
  if useC = some false then (.ok .python, [])
  else if s.cext then
    match nThreads with
    | some n => (.ok (.c n), [])
    | none =>
      if s.envSet then
        match s.envValue with
        | some n => (.ok (.c n), [])
        | none => (.error .valueError, [])
      else (.ok (.c s.cpus), [])
  else if useC = none then (.ok .python, [.noC])
  else (.error .importCError, [])

variable {D I P F C R : Type}

/-- Cached images (euphonic/force_constants.py:541-542). -/
def useImages (m : Num K D I P F C R) (d : D) (c : Caches K I P F) : I × Caches K I P F :=
  match c.images with
  | some i => (i, c)
  | none => (m.images d, { c with images := some (m.images d) })

/-- Cached dipole data (euphonic/force_constants.py:582-586). -/
def useDipole (m : Num K D I P F C R) (d : D) (dipole : Bool) (par : K) (c : Caches K I P F) :
    Except Err (Option P) × Caches K I P F :=
  if dipole then
    match c.dipole with
    | some (p', x) =>
      if par = p' then (.ok (some x), c)
      else match m.dipoleInit d par with
        | .ok y => (.ok (some y), { c with dipole := some (par, y) })
        | .error e => (.error e, c)
    | none => match m.dipoleInit d par with
      | .ok y => (.ok (some y), { c with dipole := some (par, y) })
      | .error e => (.error e, c)
  else (.ok none, c)

/-- Cached corrected force constants (euphonic/force_constants.py:588-592). -/
def useFc (m : Num K D I P F C R) (d : D) (asr : Option Asr) (c : Caches K I P F) :
    F × Caches K I P F :=
  if asr = some .realspace then
    match c.fcAsr with
    | some f => (f, c)
    | none => (m.asrFc d, { c with fcAsr := some (m.asrFc d) })
  else (m.rawFc d, c)

/-- `_calculate_phonons_at_qpts` (euphonic/force_constants.py:429-736).  Not modelled: the final unit
conversions and the warning about complex gradients.  The checks of the splitting directions (533-537)
come before the caches are filled; both do not depend on each other, here they are done together with the
loop. -/
def calculatePhonons (m : Num K D I P F C R) (s : Sys) (d : D) (a : Args K) (c : Caches K I P F) :
    Except Err (Out K R) × Caches K I P F × List Warn :=
  match a.weights with
  | some w => if w.length ≠ a.qpts.length then (.error .valueError, c, []) else go
  | none => go
where
  /-- The rest, after the check of the weights. -/
  go : Except Err (Out K R) × Caches K I P F × List Warn :=
    let (dipole, splitting) := flags (m.hasBorn d) a.dipole a.splitting
    let (qs, ws) := if splitting && a.insertGamma then Driver.insertGamma a.qpts a.weights
      else (a.qpts, a.weights)
    let (i, c1) := useImages m d c
    match useDipole m d dipole a.dipoleParameter c1 with
    | (.error e, c2) => (.error e, c2, [])
    | (.ok p, c2) =>
      let (f, c3) := useFc m d a.asr c2
      let corr := if a.asr = some .reciprocal then some (m.recipAsr d i f p) else none
      match chooseBackend s a.useC a.nThreads with
      | (.error e, w) => (.error e, c3, w)
      | (.ok b, w) =>
        match atQpts a.reduceQpts splitting qs
            (m.at1 b d i f p corr a.gradients a.eigenvectors) with
        | .error e => (.error e, c3, w)
        | .ok rs => (.ok ⟨qs, rs, ws, b⟩, c3, w)

end Euphonic.Driver
