import Verif.Prelude

/-!
# Model of the parallel loop over q-points (c/_euphonic.c:89, 203-286)

The variables `i` and `qpos` are declared outside the parallel region, so all threads share them; all
other variables used in the body are private to a thread, and the output arrays are split by q-point.  One
step of the model is one access of a thread to a shared variable (sequentially consistent; in C a race is
undefined behaviour, so real executions may be worse).  The work of one q-point apart from the search of the
direction is one step, with result `f q d`, where `d` is the position of the direction that was used.
-/

set_option autoImplicit false

namespace Euphonic.Omp

/-- Where a thread is in the body of the loop (c/_euphonic.c:254-270): `rd`/`wr` are the two halves of
`qpos = i`, `rdInc`/`wrInc` those of `i++`. -/
inductive Pc
  | idle | setI | test | cmp | rd | wr (tmp : Nat) | rdInc | wrInc (tmp : Nat) | use
  deriving DecidableEq, Repr

/-- A thread: where it is, and the q-points it still has to do, the current one first. -/
structure Thread where
  pc : Pc
  queue : List Nat
  deriving DecidableEq, Repr

/-- The state: shared variables, threads, results; `bad` records an access outside `split_idx` or
`q_dirs`. -/
structure State (R : Type) where
  i : Nat
  qpos : ℤ
  threads : Nat → Thread
  out : Nat → Option R
  bad : Bool

/-- The inputs: `split_idx`, the q-points for which a direction is looked up, and the result of the
calculation for a q-point with a direction. -/
structure Input (R : Type) where
  split : List Nat
  gamma : Nat → Bool
  f : Nat → Option ℤ → R

variable {R : Type}

/-- Replace one thread. -/
def setThread (s : State R) (t : Nat) (th : Thread) : State R :=
  { s with threads := fun t' => if t' = t then th else s.threads t' }

/-- Store a result. -/
def setOut (s : State R) (q : Nat) (r : R) : State R :=
  { s with out := fun q' => if q' = q then some r else s.out q' }

/-- One step of thread `t` (c/_euphonic.c:224-284). -/
def step (I : Input R) (t : Nat) (s : State R) : State R :=
  match s.threads t with
  | ⟨_, []⟩ => s
  | ⟨.idle, q :: rest⟩ =>
      if I.gamma q then setThread { s with qpos := -1 } t ⟨.setI, q :: rest⟩
      else setThread (setOut s q (I.f q none)) t ⟨.idle, rest⟩
  | ⟨.setI, qs⟩ => setThread { s with i := 0 } t ⟨.test, qs⟩
  | ⟨.test, qs⟩ => setThread s t ⟨if s.i < I.split.length then .cmp else .use, qs⟩
  | ⟨.cmp, q :: rest⟩ =>
      setThread { s with bad := s.bad || decide (I.split.length ≤ s.i) } t
        ⟨if I.split[s.i]? = some q then .rd else .rdInc, q :: rest⟩
  | ⟨.rd, qs⟩ => setThread s t ⟨.wr s.i, qs⟩
  | ⟨.wr tmp, qs⟩ => setThread { s with qpos := tmp } t ⟨.use, qs⟩
  | ⟨.rdInc, qs⟩ => setThread s t ⟨.wrInc s.i, qs⟩
  | ⟨.wrInc tmp, qs⟩ => setThread { s with i := tmp + 1 } t ⟨.test, qs⟩
  | ⟨.use, q :: rest⟩ =>
      setThread (setOut { s with bad := s.bad || decide (s.qpos < 0 ∨ (I.split.length : ℤ) ≤ s.qpos) } q
        (I.f q (some s.qpos))) t ⟨.idle, rest⟩

/-- An execution: the threads take steps in the order given by the schedule. -/
def run (I : Input R) (sched : List Nat) (s : State R) : State R :=
  sched.foldl (fun s t => step I t s) s

/-- The state at the start of the loop; `work t` are the q-points OpenMP gives to thread `t`. -/
def start (work : Nat → List Nat) (i0 : Nat) (qpos0 : ℤ) : State R :=
  ⟨i0, qpos0, fun t => ⟨.idle, work t⟩, fun _ => none, false⟩

end Euphonic.Omp
