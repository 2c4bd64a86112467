import Verif.Model.CAddr
import Mathlib.Tactic.Linarith
import Mathlib.Tactic.Ring

/-!
# C119: the C extension reads and writes only elements of its arrays

The numbers of elements of the arrays (as allocated in Python or C) are stated here; an access is safe if its index can be
computed with 32-bit integers and lies within the array.
-/

set_option autoImplicit false

namespace Euphonic.CAddr

/-- Numbers of elements (doubles or `int`s) of the arrays: arguments (euphonic/force_constants.py:573-663), attributes, and
buffers of each thread (c/_euphonic.c:208-223, c/dyn_mat.c:177, 300). The eigenvectors have one row more than q-points. -/
def size (d : Dims) : Name → Nat
  | .nScImages => d.nCells * d.n * d.n
  | .scImageI => d.nCells * d.n * d.n * d.maxIm
  | .cellOrigins => d.nCells * 3
  | .scOrigins => d.nSc * 3
  | .fc => d.nCells * (3 * d.n) * (3 * d.n)
  | .allOrigins => if d.grad then d.nCells * d.n * d.n * d.maxIm * 3 else 0
  | .weighting => 3 * d.n * (3 * d.n)
  | .asr => if d.asr then 3 * d.n * (3 * d.n) * 2 else 0
  | .rqpts => d.nq * 3
  | .splitIdx => d.nSplit
  | .qDirs => d.nSplit * 3
  | .evals => d.nq * (3 * d.n)
  | .dmats => if d.evecs then (d.nq + 1) * (3 * d.n) * d.n * 3 * 2 else 2 * 9 * d.n * d.n
  | .modegs => if d.grad then d.nq * (3 * d.n) * 3 * 2 else 0
  | .dmatGrad => if d.grad then 3 * (2 * 9 * d.n * d.n) else 0
  | .corr => if d.dipole then 2 * 9 * d.n * d.n else 0
  | .hab => d.nD * (d.n * (d.n + 1) / 2) * 3 * 3
  | .cells => d.nD * 3
  | .gPhases => d.nG * d.n * 2
  | .gCart => d.nG * 3
  | .q0 => d.n * 3 * 3 * 2
  | .atomR => d.n * 3
  | .born => d.n * 3 * 3
  | .qPhases => 2 * d.n
  | .qBorn => 3 * d.n

/-- What the Python code ensures: no pair of atoms has more images than there is room for, and images are positions in the
list of supercells; there are atoms. -/
structure Ok (d : Dims) : Prop where
  atoms : 0 < d.n
  images : ∀ k, d.nScImages k ≤ d.maxIm
  supercells : ∀ k, d.scImage k < d.nSc

/-- The index can be computed and belongs to the array. -/
def Safe (d : Dims) (a : Access) : Prop := ∃ k, a.idx.eval = some k ∧ a.base + k < size d a.arr

/-! ## Expressions -/

/-- The value without a limit. -/
def Ex.val : Ex → Nat
  | .v k => k
  | .add a b => a.val + b.val
  | .mul a b => a.val * b.val

/-- Every intermediate result is an `int`. -/
def Ex.Fits : Ex → Prop
  | .v k => k < 2 ^ 31
  | .add a b => a.Fits ∧ b.Fits ∧ a.val + b.val < 2 ^ 31
  | .mul a b => a.Fits ∧ b.Fits ∧ a.val * b.val < 2 ^ 31

theorem Ex.eval_of_fits (e : Ex) (h : e.Fits) : e.eval = some e.val := by
  induction e with
  | v k => exact if_pos h
  | add a b iha ihb =>
    obtain ⟨ha, hb, h⟩ := h
    simp only [Ex.eval, iha ha, ihb hb, Ex.val, int32, h, if_true]
  | mul a b iha ihb =>
    obtain ⟨ha, hb, h⟩ := h
    simp only [Ex.eval, iha ha, ihb hb, Ex.val, int32, h, if_true]

@[simp] theorem val_coe (k : Nat) : Ex.val (k : Ex) = k := rfl
@[simp] theorem val_add (a b : Ex) : Ex.val (a + b) = a.val + b.val := rfl
@[simp] theorem val_mul (a b : Ex) : Ex.val (a * b) = a.val * b.val := rfl
@[simp] theorem val_0 : Ex.val 0 = 0 := rfl
@[simp] theorem fits_0 : Ex.Fits 0 ↔ True := by simp [Ex.Fits, OfNat.ofNat]
@[simp] theorem val_1 : Ex.val 1 = 1 := rfl
@[simp] theorem fits_1 : Ex.Fits 1 ↔ True := by simp [Ex.Fits, OfNat.ofNat]
@[simp] theorem val_2 : Ex.val 2 = 2 := rfl
@[simp] theorem fits_2 : Ex.Fits 2 ↔ True := by simp [Ex.Fits, OfNat.ofNat]
@[simp] theorem val_3 : Ex.val 3 = 3 := rfl
@[simp] theorem fits_3 : Ex.Fits 3 ↔ True := by simp [Ex.Fits, OfNat.ofNat]
@[simp] theorem val_6 : Ex.val 6 = 6 := rfl
@[simp] theorem fits_6 : Ex.Fits 6 ↔ True := by simp [Ex.Fits, OfNat.ofNat]
@[simp] theorem val_9 : Ex.val 9 = 9 := rfl
@[simp] theorem fits_9 : Ex.Fits 9 ↔ True := by simp [Ex.Fits, OfNat.ofNat]
@[simp] theorem val_18 : Ex.val 18 = 18 := rfl
@[simp] theorem fits_18 : Ex.Fits 18 ↔ True := by simp [Ex.Fits, OfNat.ofNat]
@[simp] theorem fits_coe (k : Nat) : Ex.Fits (k : Ex) ↔ k < 2 ^ 31 := Iff.rfl
@[simp] theorem fits_add (a b : Ex) : Ex.Fits (a + b) ↔ a.Fits ∧ b.Fits ∧ a.val + b.val < 2 ^ 31 := Iff.rfl
@[simp] theorem fits_mul (a b : Ex) : Ex.Fits (a * b) ↔ a.Fits ∧ b.Fits ∧ a.val * b.val < 2 ^ 31 := Iff.rfl

/-! ## Lists of accesses -/

def AllSafe (d : Dims) (l : List Access) : Prop := ∀ a ∈ l, Safe d a

theorem allSafe_nil (d : Dims) : AllSafe d [] := fun _ h => by simp at h

theorem allSafe_append {d : Dims} {l l' : List Access} (h : AllSafe d l) (h' : AllSafe d l') : AllSafe d (l ++ l') := by
  intro a ha
  rcases List.mem_append.1 ha with ha | ha
  · exact h a ha
  · exact h' a ha

theorem allSafe_cons {d : Dims} {a : Access} {l : List Access} (h : Safe d a) (h' : AllSafe d l) : AllSafe d (a :: l) := by
  intro b hb
  rcases List.mem_cons.1 hb with rfl | hb
  · exact h
  · exact h' b hb

theorem allSafe_over {d : Dims} {lo hi : Nat} {f : Nat → List Access}
    (h : ∀ k, lo ≤ k → k < hi → AllSafe d (f k)) : AllSafe d (over lo hi f) := by
  intro a ha
  simp only [over, List.mem_flatMap, List.mem_range'_1] at ha
  obtain ⟨k, ⟨h1, h2⟩, ha⟩ := ha
  exact h k h1 (by omega) a ha

theorem safe_of {d : Dims} {arr : Name} {base : Nat} {e : Ex} (hf : e.Fits) (h : base + e.val < size d arr) :
    Safe d ⟨arr, base, e⟩ := ⟨_, e.eval_of_fits hf, h⟩

theorem allSafe_both {d : Dims} {arr : Name} {base : Nat} {e : Ex} (hf : e.Fits) (h : base + e.val + 1 < size d arr)
    (hs : e.val + 1 < 2 ^ 31) : AllSafe d (both arr base e) := by
  refine allSafe_cons (safe_of hf (by omega)) (allSafe_cons (safe_of ?_ ?_) (allSafe_nil d))
  · simp only [fits_add, fits_1, val_1]; exact ⟨hf, trivial, hs⟩
  · simp only [val_add, val_1]; omega

/-! ## Bounds of single indices -/

theorem elem_bound {n i ii j jj : Nat} (hi : i < n) (hj : j < n) (hii : ii < 3) (hjj : jj < 3) (h : 9 * n * n < 2 ^ 31) :
    (elem n i ii j jj).Fits ∧ (elem n i ii j jj).val < 9 * n * n := by
  have hn : 1 ≤ n := by omega
  have h1 : 3 * i + ii + 1 ≤ 3 * n := by omega
  have h2 : 3 * j + jj + 1 ≤ 3 * n := by omega
  have h3 : (3 * i + ii + 1) * (3 * n) ≤ 3 * n * (3 * n) := Nat.mul_le_mul_right _ h1
  have h4 : (3 * i + ii) * 3 ≤ (3 * i + ii) * (3 * n) := Nat.mul_le_mul_left _ (by omega)
  have h5 : n ≤ 9 * n * n := by nlinarith
  have e1 : (3 * i + ii + 1) * (3 * n) = (3 * i + ii) * (3 * n) + 3 * n := by ring
  have e2 : 3 * n * (3 * n) = 9 * n * n := by ring
  have e3 : (3 * i + ii) * 3 * n = (3 * i + ii) * (3 * n) := by ring
  constructor
  · simp only [elem, fits_add, fits_mul, fits_coe, val_add, val_mul, val_coe, fits_3, val_3]
    rw [e3]
    refine ⟨⟨⟨⟨⟨⟨?_, ?_, ?_⟩, ?_, ?_⟩, ?_, ?_⟩, ?_, ?_⟩, ⟨?_, ?_, ?_⟩, ?_⟩, ?_, ?_⟩ <;> first | trivial | omega
  · simp only [elem, val_add, val_mul, val_coe, val_3]
    rw [e3]; omega

theorem corr_bound {n i a j b : Nat} (hi : i < n) (hj : j < n) (ha : a < 3) (hb : b < 3) (h : 2 * 9 * n * n < 2 ^ 31) :
    (corrIdx n i a j b).Fits ∧ (corrIdx n i a j b).val + 1 < 2 * 9 * n * n := by
  have hn : 1 ≤ n := by omega
  have h1 : 3 * i + a + 1 ≤ 3 * n := by omega
  have h2 : 3 * j + b + 1 ≤ 3 * n := by omega
  have h3 : (3 * i + a + 1) * (3 * n) ≤ 3 * n * (3 * n) := Nat.mul_le_mul_right _ h1
  have h4 : (3 * i + a) * 3 ≤ (3 * i + a) * (3 * n) := Nat.mul_le_mul_left _ (by omega)
  have h5 : n ≤ 2 * 9 * n * n := by nlinarith
  have e1 : (3 * i + a + 1) * (3 * n) = (3 * i + a) * (3 * n) + 3 * n := by ring
  have e2 : 2 * 9 * n * n = 2 * (3 * n * (3 * n)) := by ring
  have e3 : 3 * (3 * i + a) * n = (3 * i + a) * (3 * n) := by ring
  constructor
  · simp only [corrIdx, fits_add, fits_mul, fits_coe, val_add, val_mul, val_coe, fits_3, val_3, fits_2, val_2]
    rw [e3]
    refine ⟨?_, ⟨⟨⟨⟨?_, ⟨⟨?_, ?_, ?_⟩, ?_, ?_⟩, ?_⟩, ?_, ?_⟩, ⟨?_, ?_, ?_⟩, ?_⟩, ?_, ?_⟩, ?_⟩ <;> first | trivial | omega
  · simp only [corrIdx, val_add, val_mul, val_coe, val_3, val_2]
    rw [e3]; omega

theorem pair_bound {d : Dims} {nc i j : Nat} (hc : nc < d.nCells) (hi : i < d.n) (hj : j < d.n)
    (h : d.nCells * d.n * d.n < 2 ^ 31) :
    (pairIdx d nc i j).Fits ∧ (pairIdx d nc i j).val < d.nCells * d.n * d.n := by
  have h1 : (nc + 1) * (d.n * d.n) ≤ d.nCells * (d.n * d.n) := Nat.mul_le_mul_right _ hc
  have h2 : (i + 1) * d.n ≤ d.n * d.n := Nat.mul_le_mul_right _ hi
  have h3 : d.n ≤ d.n * d.n := Nat.le_mul_self _
  have h4 : d.nCells ≤ d.nCells * (d.n * d.n) := Nat.le_mul_of_pos_right _ (by nlinarith)
  have e1 : (nc + 1) * (d.n * d.n) = nc * (d.n * d.n) + d.n * d.n := by ring
  have e2 : (i + 1) * d.n = i * d.n + d.n := by ring
  have e3 : d.nCells * d.n * d.n = d.nCells * (d.n * d.n) := by ring
  rw [e3] at h ⊢
  constructor
  · simp only [pairIdx, fits_add, fits_mul, fits_coe, val_add, val_mul, val_coe]
    refine ⟨⟨⟨?_, ⟨?_, ?_, ?_⟩, ?_⟩, ⟨?_, ?_, ?_⟩, ?_⟩, ?_, ?_⟩ <;> omega
  · simp only [pairIdx, val_add, val_mul, val_coe]; omega

theorem img_bound {d : Dims} {nc i j m : Nat} (hc : nc < d.nCells) (hi : i < d.n) (hj : j < d.n) (hm : m < d.maxIm)
    (h : d.nCells * d.n * d.n * d.maxIm < 2 ^ 31) :
    (imgIdx d nc i j m).Fits ∧ (imgIdx d nc i j m).val < d.nCells * d.n * d.n * d.maxIm := by
  have hn : 1 ≤ d.n := by omega
  have hM : 1 ≤ d.maxIm := by omega
  have h1 : (nc + 1) * (d.n * d.n * d.maxIm) ≤ d.nCells * (d.n * d.n * d.maxIm) := Nat.mul_le_mul_right _ hc
  have h2 : (i + 1) * (d.n * d.maxIm) ≤ d.n * (d.n * d.maxIm) := Nat.mul_le_mul_right _ hi
  have h3 : (j + 1) * d.maxIm ≤ d.n * d.maxIm := Nat.mul_le_mul_right _ hj
  have h4 : d.n ≤ d.n * d.maxIm := Nat.le_mul_of_pos_right _ hM
  have h5 : d.n * d.n ≤ d.n * d.n * d.maxIm := Nat.le_mul_of_pos_right _ hM
  have h6 : d.nCells ≤ d.nCells * (d.n * d.n * d.maxIm) :=
    Nat.le_mul_of_pos_right _ (Nat.mul_pos (Nat.mul_pos hn hn) hM)
  have e1 : (nc + 1) * (d.n * d.n * d.maxIm) = nc * (d.n * d.n * d.maxIm) + d.n * d.n * d.maxIm := by ring
  have e2 : (i + 1) * (d.n * d.maxIm) = i * (d.n * d.maxIm) + d.n * d.maxIm := by ring
  have e3 : (j + 1) * d.maxIm = j * d.maxIm + d.maxIm := by ring
  have e4 : d.nCells * d.n * d.n * d.maxIm = d.nCells * (d.n * d.n * d.maxIm) := by ring
  have e5 : d.n * (d.n * d.maxIm) = d.n * d.n * d.maxIm := by ring
  rw [e4] at h ⊢
  rw [e5] at h2
  constructor
  · simp only [imgIdx, fits_add, fits_mul, fits_coe, val_add, val_mul, val_coe]
    refine ⟨⟨⟨⟨?_, ⟨⟨?_, ?_, ?_⟩, ?_, ?_⟩, ?_⟩, ⟨?_, ⟨?_, ?_, ?_⟩, ?_⟩, ?_⟩, ⟨?_, ?_, ?_⟩, ?_⟩, ?_, ?_⟩ <;> omega
  · simp only [imgIdx, val_add, val_mul, val_coe]; omega

theorem fc_bound {d : Dims} {nc i ii j jj : Nat} (hc : nc < d.nCells) (hi : i < d.n) (hj : j < d.n) (hii : ii < 3) (hjj : jj < 3)
    (h : d.nCells * (3 * d.n) * (3 * d.n) < 2 ^ 31) :
    (fcIdx d nc i ii j jj).Fits ∧ (fcIdx d nc i ii j jj).val < d.nCells * (3 * d.n) * (3 * d.n) := by
  have hn : 1 ≤ d.n := by omega
  have h1 : (nc + 1) * (9 * d.n * d.n) ≤ d.nCells * (9 * d.n * d.n) := Nat.mul_le_mul_right _ hc
  have h2 : 9 * d.n ≤ 9 * d.n * d.n := Nat.le_mul_of_pos_right _ hn
  have h3 : d.nCells ≤ d.nCells * (9 * d.n * d.n) := Nat.le_mul_of_pos_right _ (by omega)
  have e1 : (nc + 1) * (9 * d.n * d.n) = nc * (9 * d.n * d.n) + 9 * d.n * d.n := by ring
  have e2 : d.nCells * (3 * d.n) * (3 * d.n) = d.nCells * (9 * d.n * d.n) := by ring
  rw [e2] at h ⊢
  obtain ⟨hf, hv⟩ := elem_bound hi hj hii hjj (n := d.n) (by omega)
  constructor
  · simp only [fcIdx, fits_add, fits_mul, fits_coe, val_mul, val_coe, fits_9, val_9]
    refine ⟨⟨?_, ⟨⟨?_, ?_, ?_⟩, ?_, ?_⟩, ?_⟩, hf, ?_⟩ <;> first | trivial | omega
  · simp only [fcIdx, val_add, val_mul, val_coe, val_9]; omega

/-- `3*x + k`. -/
theorem three_bound {x k N : Nat} (hx : x < N) (hk : k < 3) (h : N * 3 < 2 ^ 31) :
    (3 * (x : Ex) + k).Fits ∧ (3 * (x : Ex) + (k : Ex)).val < N * 3 := by
  constructor
  · simp only [fits_add, fits_mul, fits_coe, val_mul, val_coe, fits_3, val_3]
    refine ⟨⟨?_, ?_, ?_⟩, ?_, ?_⟩ <;> first | trivial | omega
  · simp only [val_add, val_mul, val_coe, val_3]; omega

/-! ## The functions -/

theorem dynMat_safe {d : Dims} (hd : Ok d) (hs : ∀ a, size d a < 2 ^ 31) {base : Nat}
    (hb : base + 2 * 9 * d.n * d.n ≤ size d .dmats) : AllSafe d (dynMat d base) := by
  have hdm := hs .dmats
  have hn := hd.atoms
  have h9 : 2 * 9 * d.n * d.n = 2 * (9 * d.n * d.n) := by ring
  have hgr : ∀ i ii j jj k : Nat, i < d.n → j < d.n → ii < 3 → jj < 3 → k < 3 → d.grad = true →
      AllSafe d (both .dmatGrad 0 (6 * elem d.n i ii j jj + 2 * (k : Ex))) := by
    intro i ii j jj k hi hj hii hjj hk hg
    obtain ⟨hf, hv⟩ := elem_bound hi hj hii hjj (n := d.n) (by omega)
    have hgs := hs .dmatGrad
    have es : size d .dmatGrad = 3 * (2 * 9 * d.n * d.n) := by simp [size, hg]
    rw [es] at hgs
    have hv6 : 6 * (elem d.n i ii j jj).val + 2 * k + 1 < 3 * (2 * 9 * d.n * d.n) := by omega
    refine allSafe_both ?_ ?_ ?_
    · simp only [fits_add, fits_mul, fits_coe, val_mul, val_coe, fits_6, val_6, fits_2, val_2]
      refine ⟨⟨trivial, hf, ?_⟩, ⟨trivial, ?_, ?_⟩, ?_⟩ <;> omega
    · rw [es]; simp only [val_add, val_mul, val_coe, val_6, val_2]; omega
    · simp only [val_add, val_mul, val_coe, val_6, val_2]; omega
  refine allSafe_append ?_ ?_
  · refine allSafe_over fun i _ hi => allSafe_over fun j hij hj => allSafe_over fun nc _ hc => allSafe_cons ?_ (allSafe_append ?_ ?_)
    · obtain ⟨hf, hv⟩ := pair_bound hc hi hj (hs .nScImages)
      exact safe_of hf (by simpa [size] using hv)
    · refine allSafe_over fun m _ hm => ?_
      have hm' : m < d.maxIm := lt_of_lt_of_le hm (hd.images _)
      obtain ⟨hf, hv⟩ := img_bound hc hi hj hm' (hs .scImageI)
      refine allSafe_cons (safe_of hf (by simpa [size] using hv)) (allSafe_over fun k _ hk => allSafe_append ?_ ?_)
      · obtain ⟨hf1, hv1⟩ := three_bound (hd.supercells
          (nc * (d.n * d.n * d.maxIm) + i * (d.n * d.maxIm) + j * d.maxIm + m)) hk (hs .scOrigins)
        obtain ⟨hf2, hv2⟩ := three_bound hc hk (hs .cellOrigins)
        exact allSafe_cons (safe_of hf1 (by simpa [size] using hv1))
          (allSafe_cons (safe_of hf2 (by simpa [size] using hv2)) (allSafe_nil d))
      · split
        · rename_i hg
          have ho := hs .allOrigins
          have es : size d .allOrigins = d.nCells * d.n * d.n * d.maxIm * 3 := by simp [size, hg]
          rw [es] at ho
          refine allSafe_cons (safe_of ?_ ?_) (allSafe_nil d)
          · simp only [fits_add, fits_mul, fits_coe, val_mul, val_coe, fits_3, val_3]
            refine ⟨⟨trivial, hf, ?_⟩, ?_, ?_⟩ <;> omega
          · rw [es]; simp only [val_add, val_mul, val_coe, val_3]; omega
        · exact allSafe_nil d
    · refine allSafe_over fun ii _ hii => allSafe_over fun jj _ hjj => allSafe_append (allSafe_append ?_ ?_) ?_
      · obtain ⟨hf, hv⟩ := elem_bound hi hj hii hjj (n := d.n) (by omega)
        refine allSafe_both ?_ ?_ ?_
        · simp only [fits_mul, fits_2, val_2]
          refine ⟨trivial, hf, ?_⟩; omega
        · simp only [val_mul, val_2]; omega
        · simp only [val_mul, val_2]; omega
      · obtain ⟨hf, hv⟩ := fc_bound hc hi hj hii hjj (hs .fc)
        exact allSafe_cons (safe_of hf (by simpa [size] using hv)) (allSafe_nil d)
      · split
        · rename_i hg
          exact allSafe_over fun k _ hk => hgr i ii j jj k hi hj hii hjj hk hg
        · exact allSafe_nil d
  · split
    · rename_i hg
      refine allSafe_over fun i _ hi => allSafe_over fun j _ hj => allSafe_over fun ii _ hii => allSafe_over fun jj _ hjj =>
        allSafe_over fun k _ hk => ?_
      exact allSafe_append (hgr i ii j jj k hi (by omega) hii hjj hk hg) (hgr j jj i ii k (by omega) hi hjj hii hk hg)
    · exact allSafe_nil d

theorem corr_size {d : Dims} (hp : d.dipole = true) : size d .corr = 2 * 9 * d.n * d.n := by simp [size, hp]

theorem corr_safe {d : Dims} (hs : ∀ a, size d a < 2 ^ 31) (hp : d.dipole = true) {i a j b : Nat} (hi : i < d.n) (hj : j < d.n)
    (ha : a < 3) (hb : b < 3) : AllSafe d (both .corr 0 (corrIdx d.n i a j b)) := by
  have hc := hs .corr
  rw [corr_size hp] at hc
  obtain ⟨hf, hv⟩ := corr_bound hi hj ha hb hc
  exact allSafe_both hf (by rw [corr_size hp]; omega) (by omega)

theorem dipole_safe {d : Dims} (hd : Ok d) (hs : ∀ a, size d a < 2 ^ 31) (hp : d.dipole = true) {off : Nat} (ho : off ≤ d.nG) :
    AllSafe d (dipole d off) := by
  have hc := hs .corr
  rw [corr_size hp] at hc
  have hn := hd.atoms
  refine allSafe_append (allSafe_append (allSafe_append (allSafe_append (allSafe_append (allSafe_append (allSafe_append
    ?_ ?_) ?_) ?_) ?_) ?_) ?_) ?_
  · refine allSafe_over fun nc _ hnc => allSafe_over fun a _ ha => ?_
    obtain ⟨hf, hv⟩ := three_bound hnc ha (hs .cells)
    exact allSafe_cons (safe_of hf (by simpa [size] using hv)) (allSafe_nil d)
  · refine allSafe_over fun p _ hlt => allSafe_cons (safe_of (by simp) ?_) (allSafe_nil d)
    have e : size d .hab = d.nD * (d.n * (d.n + 1) / 2 * 9) := by simp only [size]; ring
    rw [e]; simpa using hlt
  · exact allSafe_over fun i _ hi => allSafe_over fun j _ hj => allSafe_over fun a _ ha => allSafe_over fun b _ hb =>
      corr_safe hs hp hi hj ha hb
  · refine allSafe_over fun i _ hi => allSafe_cons (safe_of ?_ ?_) (allSafe_nil d)
    · rw [fits_coe]; omega
    · rw [corr_size hp, val_coe]; omega
  · refine allSafe_over fun i _ hi => allSafe_append (allSafe_over fun a _ ha => ?_) ?_
    · obtain ⟨hf, hv⟩ := three_bound hi ha (hs .atomR)
      exact allSafe_cons (safe_of hf (by simpa [size] using hv)) (allSafe_nil d)
    · have h := hs .qPhases
      have es : size d .qPhases = 2 * d.n := rfl
      rw [es] at h
      refine allSafe_both ?_ ?_ ?_
      · simp only [fits_mul, fits_2, fits_coe, val_2, val_coe]
        refine ⟨trivial, ?_, ?_⟩ <;> omega
      · rw [es]; simp only [val_mul, val_2, val_coe]; omega
      · simp only [val_mul, val_2, val_coe]; omega
  · refine allSafe_over fun ng _ hng => allSafe_append (allSafe_over fun a _ ha => ?_) (allSafe_over fun i _ hi => ?_)
    · obtain ⟨hf, _⟩ := three_bound (show ng < d.nG by omega) ha (hs .gCart)
      refine allSafe_cons (safe_of hf ?_) (allSafe_nil d)
      have es : size d .gCart = d.nG * 3 := rfl
      rw [es]; simp only [val_add, val_mul, val_coe, val_3]; omega
    · have h := hs .gPhases
      have es : size d .gPhases = d.nG * d.n * 2 := rfl
      rw [es] at h
      have h1 : (ng + off + 1) * d.n ≤ d.nG * d.n := Nat.mul_le_mul_right _ (by omega)
      have e1 : (ng + off + 1) * d.n = ng * d.n + off * d.n + d.n := by ring
      have e2 : off * (2 * d.n) = 2 * (off * d.n) := by ring
      have h2 : ng ≤ ng * d.n := Nat.le_mul_of_pos_right _ hn
      refine allSafe_both ?_ ?_ ?_
      · simp only [fits_add, fits_mul, fits_2, fits_coe, val_add, val_mul, val_2, val_coe]
        refine ⟨trivial, ⟨⟨?_, ?_, ?_⟩, ?_, ?_⟩, ?_⟩ <;> omega
      · rw [es, e2]; simp only [val_add, val_mul, val_2, val_coe]; omega
      · simp only [val_add, val_mul, val_2, val_coe]; omega
  · have h := hs .born
    have es : size d .born = d.n * 3 * 3 := rfl
    rw [es] at h
    have hb : ∀ i a aa : Nat, i < d.n → a < 3 → aa < 3 → Safe d ⟨.born, 0, 9 * (i : Ex) + 3 * (a : Ex) + aa⟩ := by
      intro i a aa hi ha haa
      refine safe_of ?_ ?_
      · simp only [fits_add, fits_mul, fits_9, fits_3, fits_coe, val_add, val_mul, val_9, val_3, val_coe]
        refine ⟨⟨⟨trivial, ?_, ?_⟩, ⟨trivial, ?_, ?_⟩, ?_⟩, ?_, ?_⟩ <;> omega
      · rw [es]; simp only [val_add, val_mul, val_9, val_3, val_coe]; omega
    exact allSafe_over fun i _ hi => allSafe_over fun j _ hj => allSafe_over fun a _ ha => allSafe_over fun aa _ haa =>
      allSafe_cons (hb i a aa hi ha haa) (allSafe_cons (hb j a aa hj ha haa) (allSafe_nil d))
  · have h := hs .q0
    have es : size d .q0 = d.n * 3 * 3 * 2 := rfl
    rw [es] at h
    refine allSafe_over fun i _ hi => allSafe_over fun a _ ha => allSafe_over fun b _ hb =>
      allSafe_append (corr_safe hs hp hi hi ha hb) (allSafe_both ?_ ?_ ?_)
    · simp only [fits_add, fits_mul, fits_18, fits_6, fits_2, fits_coe, val_add, val_mul, val_18, val_6, val_2, val_coe]
      refine ⟨⟨⟨trivial, ?_, ?_⟩, ⟨trivial, ?_, ?_⟩, ?_⟩, ⟨trivial, ?_, ?_⟩, ?_⟩ <;> omega
    · rw [es]; simp only [val_add, val_mul, val_18, val_6, val_2, val_coe]; omega
    · simp only [val_add, val_mul, val_18, val_6, val_2, val_coe]; omega

theorem gamma_safe {d : Dims} (hs : ∀ a, size d a < 2 ^ 31) (hp : d.dipole = true) : AllSafe d (gamma d) := by
  have hq : ∀ i a : Nat, i < d.n → a < 3 → Safe d ⟨.qBorn, 0, 3 * (i : Ex) + a⟩ := by
    intro i a hi ha
    have es : size d .qBorn = d.n * 3 := Nat.mul_comm _ _
    have h := hs .qBorn
    rw [es] at h
    obtain ⟨hf, hv⟩ := three_bound hi ha h
    exact safe_of hf (by rw [es]; simpa using hv)
  refine allSafe_append ?_ ?_
  · refine allSafe_over fun i _ hi => allSafe_over fun a _ ha => allSafe_over fun b _ hb =>
      allSafe_cons (hq i a hi ha) (allSafe_cons (safe_of ?_ ?_) (allSafe_nil d))
    · have h := hs .born
      have es : size d .born = d.n * 3 * 3 := rfl
      rw [es] at h
      simp only [fits_add, fits_mul, fits_9, fits_3, fits_coe, val_add, val_mul, val_9, val_3, val_coe]
      refine ⟨⟨⟨trivial, ?_, ?_⟩, ⟨trivial, ?_, ?_⟩, ?_⟩, ?_, ?_⟩ <;> omega
    · have es : size d .born = d.n * 3 * 3 := rfl
      rw [es]; simp only [val_add, val_mul, val_9, val_3, val_coe]; omega
  · exact allSafe_over fun i _ hi => allSafe_over fun j _ hj => allSafe_over fun a _ ha => allSafe_over fun b _ hb =>
      allSafe_cons (corr_safe hs hp hi hj ha hb _ (by simp [both]))
        (allSafe_cons (hq i a hi ha) (allSafe_cons (hq j b hj hb) (allSafe_nil d)))

theorem addTo_safe {d : Dims} (hs : ∀ a, size d a < 2 ^ 31) {arr : Name} (ha : size d arr = 2 * 9 * d.n * d.n) {base : Nat}
    (hb : base + 2 * 9 * d.n * d.n ≤ size d .dmats) : AllSafe d (addTo d arr base) := by
  have hdm := hs .dmats
  refine allSafe_over fun i _ hi => allSafe_cons (safe_of ?_ ?_) (allSafe_cons (safe_of ?_ ?_) (allSafe_nil d))
  · rw [fits_coe]; omega
  · rw [ha, val_coe]; omega
  · rw [fits_coe]; omega
  · rw [val_coe]; omega

theorem massWeight_safe {d : Dims} (hs : ∀ a, size d a < 2 ^ 31) {arr : Name} {base repeats : Nat} (hr : repeats < 2 ^ 31)
    (hb : base + repeats * (9 * d.n * d.n) ≤ size d arr) : AllSafe d (massWeight d arr base repeats) := by
  have hdm := hs arr
  have hw := hs .weighting
  have ew : size d .weighting = 9 * d.n * d.n := by simp only [size]; ring
  rw [ew] at hw
  refine allSafe_over fun i _ hi => allSafe_over fun j _ hj =>
    allSafe_cons (safe_of ?_ ?_) (allSafe_cons (safe_of ?_ ?_) (allSafe_nil d))
  · have h1 : repeats * (i + 1) ≤ repeats * (9 * d.n * d.n) := Nat.mul_le_mul_left _ (by omega)
    have e1 : repeats * (i + 1) = repeats * i + repeats := by ring
    simp only [fits_add, fits_mul, fits_coe, val_mul, val_coe]
    refine ⟨⟨?_, ?_, ?_⟩, ?_, ?_⟩ <;> omega
  · have h1 : repeats * (i + 1) ≤ repeats * (9 * d.n * d.n) := Nat.mul_le_mul_left _ (by omega)
    have e1 : repeats * (i + 1) = repeats * i + repeats := by ring
    simp only [val_add, val_mul, val_coe]; omega
  · rw [fits_coe]; omega
  · rw [ew, val_coe]; omega

theorem modeGradients_safe {d : Dims} (hd : Ok d) (hs : ∀ a, size d a < 2 ^ 31) (hg : d.grad = true) {be bv bg : Nat}
    (he : be + 3 * d.n ≤ size d .evals) (hv : bv + 2 * 9 * d.n * d.n ≤ size d .dmats)
    (hgb : bg + 18 * d.n ≤ size d .modegs) : AllSafe d (modeGradients d be bv bg) := by
  have hn := hd.atoms
  have h1 := hs .evals
  have h2 := hs .dmats
  have h3 := hs .modegs
  have h4 := hs .dmatGrad
  have es : size d .dmatGrad = 54 * (d.n * d.n) := by simp only [size, hg, if_true]; ring
  rw [es] at h4
  have e0 : 2 * 9 * d.n * d.n = 18 * (d.n * d.n) := by ring
  rw [e0] at hv
  have hnn : d.n ≤ d.n * d.n := Nat.le_mul_self _
  have hvec : ∀ m j b : Nat, m < 3 * d.n → j < d.n → b < 3 →
      AllSafe d (both .dmats bv ((m : Ex) * (2 * 3 * (d.n : Ex)) + 6 * (j : Ex) + 2 * (b : Ex))) := by
    intro m j b hm hj hb
    have hm1 : (m + 1) * (2 * 3 * d.n) ≤ 3 * d.n * (2 * 3 * d.n) := Nat.mul_le_mul_right _ hm
    have e1 : (m + 1) * (2 * 3 * d.n) = m * (2 * 3 * d.n) + 6 * d.n := by ring
    have e2 : 3 * d.n * (2 * 3 * d.n) = 18 * (d.n * d.n) := by ring
    refine allSafe_both ?_ ?_ ?_
    · simp only [fits_add, fits_mul, fits_6, fits_3, fits_2, fits_coe, val_add, val_mul, val_6, val_3, val_2, val_coe]
      refine ⟨⟨⟨?_, ⟨⟨trivial, trivial, ?_⟩, ?_, ?_⟩, ?_⟩, ⟨trivial, ?_, ?_⟩, ?_⟩, ⟨trivial, ?_, ?_⟩, ?_⟩ <;> omega
    · simp only [val_add, val_mul, val_6, val_3, val_2, val_coe]; omega
    · simp only [val_add, val_mul, val_6, val_3, val_2, val_coe]; omega
  refine allSafe_over fun m _ hm => allSafe_over fun i _ hi => allSafe_over fun a _ ha => allSafe_over fun j _ hj =>
    allSafe_over fun b _ hb => allSafe_over fun k _ hk => allSafe_append (allSafe_append (allSafe_append (allSafe_append
      (hvec m j b hm hj hb) (hvec m i a hm hi ha)) ?_) ?_) (allSafe_cons (safe_of ?_ ?_) (allSafe_nil d))
  · have hi1 : (3 * i + a + 1) * (18 * d.n) ≤ 3 * d.n * (18 * d.n) := Nat.mul_le_mul_right _ (by omega)
    have e1 : (3 * i + a + 1) * (18 * d.n) = (3 * i + a) * (18 * d.n) + 18 * d.n := by ring
    have e2 : 3 * d.n * (18 * d.n) = 54 * (d.n * d.n) := by ring
    have e3 : 3 * (3 * i + a) * (2 * 3 * d.n) = (3 * i + a) * (18 * d.n) := by ring
    refine allSafe_both ?_ ?_ ?_
    · simp only [fits_add, fits_mul, fits_6, fits_3, fits_2, fits_coe, val_add, val_mul, val_6, val_3, val_2, val_coe]
      rw [e3]
      refine ⟨⟨⟨⟨trivial, ⟨⟨trivial, ?_, ?_⟩, ?_, ?_⟩, ?_⟩, ⟨⟨trivial, trivial, ?_⟩, ?_, ?_⟩, ?_⟩,
        ⟨trivial, ⟨⟨trivial, ?_, ?_⟩, ⟨trivial, ?_, ?_⟩, ?_⟩, ?_⟩, ?_⟩, ⟨trivial, ?_, ?_⟩, ?_⟩ <;> omega
    · rw [es]; simp only [val_add, val_mul, val_6, val_3, val_2, val_coe]; rw [e3]; omega
    · simp only [val_add, val_mul, val_6, val_3, val_2, val_coe]; rw [e3]; omega
  · refine allSafe_both ?_ ?_ ?_
    · simp only [fits_add, fits_mul, fits_6, fits_2, fits_coe, val_mul, val_6, val_2, val_coe]
      refine ⟨⟨trivial, ?_, ?_⟩, ⟨trivial, ?_, ?_⟩, ?_⟩ <;> omega
    · simp only [val_add, val_mul, val_6, val_2, val_coe]; omega
    · simp only [val_add, val_mul, val_6, val_2, val_coe]; omega
  · rw [fits_coe]; omega
  · rw [val_coe]; omega

/-! ## The property -/

/-- **C119** If no array has 2^31 elements or more, then for each q-point all pointers and indices can be computed with
`int`s and every access is to an element of the array concerned. `off` and `split` are what the code finds for this
q-point: whether `G = 0` is left out, and the position of a split q-point. -/
theorem C119_within_arrays_partial (d : Dims) (hd : Ok d) (hs : ∀ a, size d a < 2 ^ 31) (q off : Nat) (hq : q < d.nq)
    (ho : off ≤ d.nG) (split : Option Nat) (hsp : ∀ p, split = some p → p < d.nSplit ∧ d.dipole = true) :
    ∃ l, atQ d q off split = some l ∧ ∀ a ∈ l, Safe d a := by
  have hn := hd.atoms
  have e18 : 2 * 9 * d.n * d.n = 18 * (d.n * d.n) := by ring
  -- the pointers
  have hrq := hs .rqpts
  have erq : size d .rqpts = d.nq * 3 := rfl
  rw [erq] at hrq
  have h1 : (rqptOff q).eval = some (3 * q) := by
    rw [Ex.eval_of_fits]
    · rfl
    · simp only [rqptOff, fits_mul, fits_3, fits_coe, val_3, val_coe]
      refine ⟨trivial, ?_, ?_⟩ <;> omega
  have hev := hs .evals
  have eev : size d .evals = d.nq * (3 * d.n) := rfl
  have hqe : (q + 1) * (3 * d.n) ≤ d.nq * (3 * d.n) := Nat.mul_le_mul_right _ hq
  have eqe : (q + 1) * (3 * d.n) = q * 3 * d.n + 3 * d.n := by ring
  have hq3 : q * 3 ≤ q * 3 * d.n := Nat.le_mul_of_pos_right _ hn
  rw [eev] at hev
  have h2 : (evalOff d q).eval = some (q * 3 * d.n) := by
    rw [Ex.eval_of_fits]
    · rfl
    · simp only [evalOff, fits_mul, fits_3, fits_coe, val_mul, val_3, val_coe]
      refine ⟨⟨?_, trivial, ?_⟩, ?_, ?_⟩ <;> omega
  obtain ⟨bd, h3, hbd⟩ : ∃ bd, (dmatOff d q).eval = some bd ∧ bd + 2 * 9 * d.n * d.n ≤ size d .dmats := by
    by_cases hv : d.evecs = true
    · have hdm := hs .dmats
      have edm : size d .dmats = (d.nq + 1) * (18 * (d.n * d.n)) := by simp only [size, hv, if_true]; ring
      have hqd : (q + 1) * (18 * (d.n * d.n)) ≤ (d.nq + 1) * (18 * (d.n * d.n)) := Nat.mul_le_mul_right _ (by omega)
      have eqd : (q + 1) * (18 * (d.n * d.n)) = q * (2 * 9 * d.n * d.n) + 2 * 9 * d.n * d.n := by ring
      have hnn : 2 * 9 * d.n ≤ 2 * 9 * d.n * d.n := Nat.le_mul_of_pos_right _ hn
      rw [edm] at hdm ⊢
      refine ⟨q * (2 * 9 * d.n * d.n), ?_, by omega⟩
      rw [Ex.eval_of_fits]
      · simp [dmatOff, hv]
      · simp only [dmatOff, hv, if_true, fits_mul, fits_2, fits_9, fits_coe, val_mul, val_2, val_9, val_coe]
        refine ⟨?_, ⟨⟨⟨trivial, trivial, ?_⟩, ?_, ?_⟩, ?_, ?_⟩, ?_⟩ <;> omega
    · refine ⟨0, ?_, ?_⟩
      · simp only [dmatOff, hv]; rfl
      · simp only [size, hv]; simp
  have hrest : ∀ bg, (modegOff d q).eval = some bg → (d.grad = true → bg + 18 * d.n ≤ size d .modegs) →
      ∃ l, atQ d q off split = some l ∧ ∀ a ∈ l, Safe d a := by
    intro bg h4 hbg
    refine ⟨_, by simp only [atQ, h1, h2, h3, h4]; rfl, ?_⟩
    show AllSafe d _
    refine allSafe_append (allSafe_append (allSafe_append (allSafe_append (allSafe_append (allSafe_append (allSafe_append
      ?_ ?_) ?_) ?_) ?_) ?_) ?_) ?_
    · refine allSafe_over fun k _ hk => allSafe_cons (safe_of ?_ ?_) (allSafe_nil d)
      · rw [fits_coe]; omega
      · rw [erq, val_coe]; omega
    · exact dynMat_safe hd hs hbd
    · split
      · rename_i hp
        exact allSafe_append (dipole_safe hd hs hp ho) (addTo_safe hs (corr_size hp) hbd)
      · exact allSafe_nil d
    · split
      · rename_i ha
        exact addTo_safe hs (by simp only [size, ha, if_true]; ring) hbd
      · exact allSafe_nil d
    · match split, hsp with
      | none, _ => exact allSafe_nil d
      | some p, hsp =>
        obtain ⟨hp, hdp⟩ := hsp p rfl
        have hsi := hs .splitIdx
        have esi : size d .splitIdx = d.nSplit := rfl
        rw [esi] at hsi
        refine allSafe_append (allSafe_append (allSafe_append ?_ ?_) (gamma_safe hs hdp)) (addTo_safe hs (corr_size hdp) hbd)
        · refine allSafe_over fun i _ hi => allSafe_cons (safe_of ?_ ?_) (allSafe_nil d)
          · rw [fits_coe]; omega
          · rw [esi, val_coe]; omega
        · refine allSafe_over fun a _ ha => allSafe_cons (safe_of ?_ ?_) (allSafe_nil d)
          · rw [fits_coe]; omega
          · have : size d .qDirs = d.nSplit * 3 := rfl
            rw [this, val_coe]; omega
    · have e9 : 2 * (9 * d.n * d.n) = 2 * 9 * d.n * d.n := by ring
      exact massWeight_safe hs (by norm_num) (by rw [e9]; exact hbd)
    · refine allSafe_over fun i _ hi => allSafe_cons (safe_of ?_ ?_) (allSafe_nil d)
      · rw [fits_coe]; omega
      · rw [eev, val_coe]; omega
    · split
      · rename_i hg
        refine allSafe_append (massWeight_safe hs (by norm_num) ?_)
          (modeGradients_safe hd hs hg (by rw [eev]; omega) hbd (hbg hg))
        have : size d .dmatGrad = 6 * (9 * d.n * d.n) := by simp only [size, hg, if_true]; ring
        omega
      · exact allSafe_nil d
  by_cases hg : d.grad = true
  · have hm := hs .modegs
    have em : size d .modegs = d.nq * (18 * d.n) := by simp only [size, hg, if_true]; ring
    have hqm : (q + 1) * (18 * d.n) ≤ d.nq * (18 * d.n) := Nat.mul_le_mul_right _ hq
    have eqm : (q + 1) * (18 * d.n) = q * 3 * d.n * 6 + 18 * d.n := by ring
    rw [em] at hm
    refine hrest (q * 3 * d.n * 6) ?_ (fun _ => by rw [em]; omega)
    rw [Ex.eval_of_fits]
    · simp [modegOff, hg]
    · simp only [modegOff, hg, if_true, fits_mul, fits_3, fits_6, fits_coe, val_mul, val_3, val_6, val_coe]
      refine ⟨⟨⟨?_, trivial, ?_⟩, ?_, ?_⟩, trivial, ?_⟩ <;> omega
  · exact hrest 0 (by simp only [modegOff, hg]; rfl) (fun h => absurd h hg)

/-- **C119** *Violation:* with eigenvectors, the pointer to the matrix of a q-point whose start lies 2^31 doubles (16 GiB) or
more into the array cannot be computed: the multiplication overflows, which nothing prevents. -/
theorem C119_overflow (d : Dims) (hv : d.evecs = true) (q off : Nat) (split : Option Nat)
    (h : 2 ^ 31 ≤ q * (2 * 9 * d.n * d.n)) : atQ d q off split = none := by
  have : (dmatOff d q).eval = none := by
    have key : ∀ a b : Ex, ∀ x y : Nat, (∀ u, a.eval = some u → u = x) → (∀ u, b.eval = some u → u = y) →
        2 ^ 31 ≤ x * y → (Ex.mul a b).eval = none := by
      intro a b x y ha hb hxy
      simp only [Ex.eval]
      split
      · rename_i u w hu hw
        rw [ha u hu, hb w hw, int32, if_neg (by omega)]
      · rfl
    have hval : ∀ e : Ex, ∀ u, e.eval = some u → u = e.val := by
      intro e
      induction e with
      | v k => intro u hu; simp only [Ex.eval, int32] at hu; split at hu <;> simp_all [Ex.val]
      | add a b iha ihb =>
        intro u hu
        simp only [Ex.eval] at hu
        split at hu
        · rename_i x y hx hy
          simp only [int32] at hu
          split at hu
          · rw [← Option.some.inj hu, iha x hx, ihb y hy]; rfl
          · cases hu
        · cases hu
      | mul a b iha ihb =>
        intro u hu
        simp only [Ex.eval] at hu
        split at hu
        · rename_i x y hx hy
          simp only [int32] at hu
          split at hu
          · rw [← Option.some.inj hu, iha x hx, ihb y hy]; rfl
          · cases hu
        · cases hu
    simp only [dmatOff, hv, if_true]
    exact key _ _ q (2 * 9 * d.n * d.n) (hval _) (hval _) h
  simp only [atQ, this]
  split
  · simp_all
  · rfl

/-- Two atoms with dipole corrections and gradients; q-point 3 of 4, which is split. -/
def exampleDims : Dims :=
  ⟨2, 8, 4, fun k => k % 5, fun k => k % 125, 125, 4, 1, 27, 50, true, true, true, true⟩

example : ∃ l, atQ exampleDims 3 1 (some 0) = some l ∧ (∀ a ∈ l, Safe exampleDims a) ∧ l ≠ [] := by
  obtain ⟨l, h, hl⟩ := C119_within_arrays_partial exampleDims
    ⟨by decide, fun k => by simp only [exampleDims]; omega, fun k => by simp only [exampleDims]; omega⟩
    (fun a => by cases a <;> decide) 3 1 (by decide) (by decide) (some 0) (by intro p hp; cases hp; decide)
  refine ⟨l, h, hl, ?_⟩
  rintro rfl
  have hlen : (atQ exampleDims 3 1 (some 0)).all (fun l => !l.isEmpty) = true := by
    decide +kernel
  rw [h] at hlen
  simp at hlen

/-- A hundred atoms and twelve thousand q-points. -/
example : atQ ⟨100, 8, 4, fun _ => 1, fun _ => 0, 125, 12000, 0, 0, 0, false, false, true, false⟩ 11999 0 none = none :=
  C119_overflow _ rfl _ _ _ (by norm_num)

end Euphonic.CAddr
