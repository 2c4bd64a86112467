import Verif.Props.DebyeGrid
import Mathlib.LinearAlgebra.Matrix.Trace

/-!
# C167: symmetrised Debye-Waller exponents have the symmetry of the crystal

For any modes at any wavevectors: symmetry enters only by `symmetrise=True`.
-/

set_option autoImplicit false
set_option linter.unusedSectionVars false

namespace Euphonic.SiteSymmetry

open Euphonic.Lattice Euphonic.Phases Euphonic.Symmetry Euphonic.Scatter Euphonic.DebyeSym Euphonic.Describe

/-! ## Specification -/

/-- The rotation of an operation, applied to a vector in fractional coordinates. -/
noncomputable def turn (op : Op ℝ) (v : V3 ℝ) : V3 ℝ :=
  ⟨op.W.a.x * v.x + op.W.a.y * v.y + op.W.a.z * v.z, op.W.b.x * v.x + op.W.b.y * v.y + op.W.b.z * v.z,
   op.W.c.x * v.x + op.W.c.y * v.y + op.W.c.z * v.z⟩

/-- The same operation up to lattice vectors. -/
structure Same (a b : Op ℝ) : Prop where
  turn : ∀ v, turn a v = turn b v
  shift : LatticeEq a.t b.t

/-- `c` is, up to lattice vectors, `b` followed by `a`. -/
structure Composes (a b c : Op ℝ) : Prop where
  turn : ∀ v, turn c v = SiteSymmetry.turn a (SiteSymmetry.turn b v)
  shift : LatticeEq c.t (image a b.t)

/-- The operations are a group (each of them listed once). -/
structure IsGroup (ops : List (Op ℝ)) : Prop where
  closed : ∀ s t : Fin ops.length, ∃ u : Fin ops.length, Composes ops[s] ops[t] ops[u]
  inverse : ∀ s : Fin ops.length, ∃ t : Fin ops.length, Composes ops[t] ops[s] identity
  once : ∀ s t : Fin ops.length, Same ops[s] ops[t] → s = t

/-- The matrix of the rotation in Cartesian coordinates. -/
def Cartesian (cv : M3 ℝ) (op : Op ℝ) (R : Fin 3 → Fin 3 → ℝ) : Prop := ∀ v, toCart cv (turn op v) = rotV R (toCart cv v)

/-- The operation takes atom `i` to atom `j`. -/
structure Takes {n : Nat} (types : Fin n → String) (r : Fin n → V3 ℝ) (op : Op ℝ) (i j : Fin n) : Prop where
  types : types i = types j
  place : LatticeEq (image op (r i)) (r j)

/-- A matrix seen from rotated axes. -/
noncomputable def rotated (R w : Fin 3 → Fin 3 → ℝ) (a b : Fin 3) : ℝ := ∑ a', ∑ b', R a a' * w a' b' * R b b'

/-- What a crystal and its operations have to satisfy. -/
structure Symmetries {n : Nat} (cv : M3 ℝ) (types : Fin n → String) (r : Fin n → V3 ℝ) (tol : ℝ) (ops : List (Op ℝ)) : Prop where
  volume : cellVolume cv ≠ 0
  pos : 0 < tol
  group : IsGroup ops
  symmetry : ∀ (s : Fin ops.length) i, ∃ j, Takes types r ops[s] i j
  separated : Separated cv (List.ofFn types) (List.ofFn r) tol

/-! ## Points up to lattice vectors -/

theorem lat_symm {p q : V3 ℝ} (h : LatticeEq p q) : LatticeEq q p := by
  obtain ⟨m, h1, h2, h3⟩ := h
  exact ⟨⟨-m.x, -m.y, -m.z⟩, by push_cast; linarith, by push_cast; linarith, by push_cast; linarith⟩

theorem lat_trans {p q r : V3 ℝ} (h : LatticeEq p q) (h' : LatticeEq q r) : LatticeEq p r := by
  obtain ⟨m, h1, h2, h3⟩ := h
  obtain ⟨k, k1, k2, k3⟩ := h'
  exact ⟨⟨m.x + k.x, m.y + k.y, m.z + k.z⟩, by push_cast; linarith, by push_cast; linarith, by push_cast; linarith⟩

theorem image_eq (op : Op ℝ) (v : V3 ℝ) :
    image op v = ⟨(turn op v).x + op.t.x, (turn op v).y + op.t.y, (turn op v).z + op.t.z⟩ := rfl

theorem lat_turn (op : Op ℝ) {p q : V3 ℝ} (h : LatticeEq p q) : LatticeEq (turn op p) (turn op q) := by
  obtain ⟨m, h1, h2, h3⟩ := h
  refine ⟨⟨op.W.a.x * m.x + op.W.a.y * m.y + op.W.a.z * m.z, op.W.b.x * m.x + op.W.b.y * m.y + op.W.b.z * m.z,
    op.W.c.x * m.x + op.W.c.y * m.y + op.W.c.z * m.z⟩, ?_, ?_, ?_⟩ <;> simp only [turn, h1, h2, h3] <;> push_cast <;> ring

theorem lat_image (op : Op ℝ) {p q : V3 ℝ} (h : LatticeEq p q) : LatticeEq (image op p) (image op q) := by
  obtain ⟨m, h1, h2, h3⟩ := lat_turn op h
  exact ⟨m, by rw [image_eq, image_eq]; linarith, by rw [image_eq, image_eq]; linarith, by rw [image_eq, image_eq]; linarith⟩

theorem turn_add (op : Op ℝ) (u v : V3 ℝ) : turn op ⟨u.x + v.x, u.y + v.y, u.z + v.z⟩ =
    ⟨(turn op u).x + (turn op v).x, (turn op u).y + (turn op v).y, (turn op u).z + (turn op v).z⟩ := by
  simp only [turn, V3.mk.injEq]
  refine ⟨?_, ?_, ?_⟩ <;> ring

theorem lat_compose {a b c : Op ℝ} (h : Composes a b c) (v : V3 ℝ) : LatticeEq (image c v) (image a (image b v)) := by
  obtain ⟨m, h1, h2, h3⟩ := h.shift
  rw [image_eq] at h1 h2 h3
  have e : image a (image b v) = ⟨(turn a (turn b v)).x + (turn a b.t).x + a.t.x, (turn a (turn b v)).y + (turn a b.t).y + a.t.y,
      (turn a (turn b v)).z + (turn a b.t).z + a.t.z⟩ := by
    rw [image_eq, image_eq b, turn_add a (turn b v) b.t]
  rw [e, image_eq c, h.turn]
  exact ⟨m, by simp only at *; linarith, by simp only at *; linarith, by simp only at *; linarith⟩

theorem turn_identity (v : V3 ℝ) : turn identity v = v := by
  cases v
  simp [turn, identity]

/-! ## Cartesian coordinates -/

theorem exists_frac {cv : M3 ℝ} (hv : cellVolume cv ≠ 0) (v : V3 ℝ) : ∃ x, toCart cv x = v := by
  have h : cellVolume cv = cv.a.x * (cv.b.y * cv.c.z - cv.b.z * cv.c.y) + cv.a.y * (cv.b.z * cv.c.x - cv.b.x * cv.c.z)
      + cv.a.z * (cv.b.x * cv.c.y - cv.b.y * cv.c.x) := by simp [cellVolume, dot, cross]
  refine ⟨⟨dot (cross cv.b cv.c) v / cellVolume cv, dot (cross cv.c cv.a) v / cellVolume cv,
    dot (cross cv.a cv.b) v / cellVolume cv⟩, ?_⟩
  cases v
  simp only [toCart, dot, cross, V3.mk.injEq]
  refine ⟨?_, ?_, ?_⟩ <;> field_simp <;> rw [h] <;> ring

theorem cartesian_unique {cv : M3 ℝ} (hv : cellVolume cv ≠ 0) {op : Op ℝ} {R R' : Fin 3 → Fin 3 → ℝ} (h : Cartesian cv op R)
    (h' : Cartesian cv op R') : R = R' := by
  funext a b
  obtain ⟨x, hx⟩ := exists_frac hv ⟨if b = 0 then 1 else 0, if b = 1 then 1 else 0, if b = 2 then 1 else 0⟩
  have := congrArg (fun v => comp v a) ((h x).symm.trans (h' x))
  simp only [comp_rotV, hx, Fin.sum_univ_three, comp0, comp1, comp2] at this
  fin_cases b <;> simpa using this

theorem rotCart_cartesian {cv : M3 ℝ} (hv : cellVolume cv ≠ 0) (op : Op ℝ) : Cartesian cv op (rotCart cv op.W) := by
  intro x
  set R := reciprocalCell (2 * Real.pi) cv with hR
  have hpi : 2 * Real.pi ≠ 0 := by positivity
  have key : ∀ k, ∑ m, entry R k m * comp (toCart cv x) m = 2 * Real.pi * comp x k := by
    intro k
    have := Gradient.dot_recip cv hv ⟨if k = 0 then 1 else 0, if k = 1 then 1 else 0, if k = 2 then 1 else 0⟩ x
    rw [← hR] at this
    rw [Fin.sum_univ_three]
    fin_cases k <;> simpa [dot, toCart, comp, entry] using this
  have h1 : ∀ l, comp (rotV (rotCart cv op.W) (toCart cv x)) l = comp (toCart cv (turn op x)) l := by
    intro l
    rw [comp_rotV]
    unfold rotCart
    rw [← hR]
    have e : ∀ m, (∑ j, ∑ k, ((entry op.W j k : ℤ) : ℝ) * entry cv j l * entry R k m) / (2 * Real.pi) * comp (toCart cv x) m =
        (∑ j, ∑ k, ((entry op.W j k : ℤ) : ℝ) * entry cv j l * (entry R k m * comp (toCart cv x) m)) / (2 * Real.pi) := by
      intro m
      rw [div_mul_eq_mul_div]
      congr 1
      simp only [Finset.sum_mul]
      exact Finset.sum_congr rfl fun j _ => Finset.sum_congr rfl fun k _ => by ring
    simp only [e]
    rw [← Finset.sum_div, Finset.sum_comm]
    have e2 : ∀ j, ∑ m, ∑ k, ((entry op.W j k : ℤ) : ℝ) * entry cv j l * (entry R k m * comp (toCart cv x) m) =
        ∑ k, ((entry op.W j k : ℤ) : ℝ) * entry cv j l * (2 * Real.pi * comp x k) := by
      intro j
      rw [Finset.sum_comm]
      exact Finset.sum_congr rfl fun k _ => by rw [← Finset.mul_sum, key]
    simp only [e2]
    rw [div_eq_iff hpi]
    simp only [Fin.sum_univ_three]
    fin_cases l <;> simp [toCart, turn, comp, entry] <;> ring
  exact DynMat.V3.ext' (h1 0).symm (h1 1).symm (h1 2).symm

theorem rotV_rotV (R R' : Fin 3 → Fin 3 → ℝ) (v : V3 ℝ) : rotV R (rotV R' v) = rotV (fun a b => ∑ c, R a c * R' c b) v := by
  simp only [rotV, comp0, comp1, comp2, Fin.sum_univ_three, V3.mk.injEq]
  refine ⟨?_, ?_, ?_⟩ <;> ring

theorem cartesian_compose {cv : M3 ℝ} {a b c : Op ℝ} {R R' : Fin 3 → Fin 3 → ℝ} (h : Composes a b c) (ha : Cartesian cv a R)
    (hb : Cartesian cv b R') : Cartesian cv c fun i j => ∑ k, R i k * R' k j := by
  intro v
  rw [h.turn, ha, hb, rotV_rotV]

theorem rotated_rotated (R R' w : Fin 3 → Fin 3 → ℝ) :
    rotated R (rotated R' w) = rotated (fun i j => ∑ k, R i k * R' k j) w := by
  funext a b
  simp only [rotated, Fin.sum_univ_three]
  ring

/-! ## The group -/

section
variable {n : Nat} {cv : M3 ℝ} {types : Fin n → String} {r : Fin n → V3 ℝ} {tol : ℝ} {ops : List (Op ℝ)}

theorem atom_unique (h : Symmetries cv types r tol ops) {i j : Fin n} (ht : types i = types j) (hl : LatticeEq (r i) (r j)) :
    i = j := by
  have := h.separated i j (by simp) (by simp) (by simp [ht]) (near_of_latticeEq cv tol h.pos _ _ (by simpa using hl))
  exact Fin.ext this

theorem takes_unique (h : Symmetries cv types r tol ops) {op : Op ℝ} {i j j' : Fin n} (h1 : Takes types r op i j)
    (h2 : Takes types r op i j') : j = j' :=
  atom_unique h (h1.types.symm.trans h2.types) (lat_trans (lat_symm h1.place) h2.place)

theorem takes_compose {a b c : Op ℝ} (hc : Composes a b c) {i j k : Fin n} (h1 : Takes types r b i j)
    (h2 : Takes types r a j k) : Takes types r c i k :=
  ⟨h1.types.trans h2.types, lat_trans (lat_compose hc _) (lat_trans (lat_image a h1.place) h2.place)⟩

/-- Where the operation takes the atom. -/
noncomputable def dest (h : Symmetries cv types r tol ops) (s : Fin ops.length) (i : Fin n) : Fin n := (h.symmetry s i).choose

theorem dest_takes (h : Symmetries cv types r tol ops) (s : Fin ops.length) (i : Fin n) : Takes types r ops[s] i (dest h s i) :=
  (h.symmetry s i).choose_spec

theorem dest_injective (h : Symmetries cv types r tol ops) (s : Fin ops.length) : Function.Injective (dest h s) := by
  intro i i' he
  obtain ⟨t, ht⟩ := h.group.inverse s
  have h1 := takes_compose ht (dest_takes h s i) (dest_takes h t _)
  have h2 := takes_compose ht (dest_takes h s i') (dest_takes h t _)
  rw [he] at h1
  have hid : ∀ v : V3 ℝ, image identity v = v := fun v => by cases v; simp [image, identity]
  have p1 := h1.place
  have p2 := h2.place
  rw [hid] at p1 p2
  exact atom_unique h (h1.types.trans h2.types.symm) (lat_trans p1 (lat_symm p2))

/-- The permutation of the atoms. -/
noncomputable def perm (h : Symmetries cv types r tol ops) (s : Fin ops.length) : Equiv.Perm (Fin n) :=
  Equiv.ofBijective _ (Finite.injective_iff_bijective.1 (dest_injective h s))

theorem perm_takes (h : Symmetries cv types r tol ops) (s : Fin ops.length) (i : Fin n) : Takes types r ops[s] i (perm h s i) :=
  dest_takes h s i

/-- The product of two operations. -/
noncomputable def times (h : Symmetries cv types r tol ops) (s t : Fin ops.length) : Fin ops.length := (h.group.closed s t).choose

theorem times_composes (h : Symmetries cv types r tol ops) (s t : Fin ops.length) : Composes ops[s] ops[t] ops[times h s t] :=
  (h.group.closed s t).choose_spec

theorem times_injective (h : Symmetries cv types r tol ops) (s : Fin ops.length) : Function.Injective (times h s) := by
  intro t t' he
  obtain ⟨k, hk⟩ := h.group.inverse s
  have h1 := times_composes h s t
  have h2 := times_composes h s t'
  have h1 : Composes ops[s] ops[t] ops[times h s t'] := by simpa only [he] using h1
  have back : ∀ v, turn ops[k] (turn ops[s] v) = v := fun v => by rw [← hk.turn, turn_identity]
  refine h.group.once t t' ⟨fun v => ?_, ?_⟩
  · have := congrArg (turn ops[k]) ((h1.turn v).symm.trans (h2.turn v))
    rwa [back, back] at this
  · have h3 := lat_trans (lat_symm h1.shift) h2.shift
    have h4 : LatticeEq (turn ops[s] ops[t].t) (turn ops[s] ops[t'].t) := by
      obtain ⟨m, m1, m2, m3⟩ := h3
      rw [image_eq, image_eq] at m1 m2 m3
      exact ⟨m, by simp only at m1; linarith, by simp only at m2; linarith, by simp only at m3; linarith⟩
    have h5 := lat_turn ops[k] h4
    rwa [back, back] at h5

theorem perm_times (h : Symmetries cv types r tol ops) (s t : Fin ops.length) (i : Fin n) :
    perm h (times h s t) i = perm h s (perm h t i) :=
  takes_unique h (perm_takes h _ i) (takes_compose (times_composes h s t) (perm_takes h t i) (perm_takes h s _))

theorem rotCart_times (h : Symmetries cv types r tol ops) (s t : Fin ops.length) :
    rotCart cv ops[times h s t].W = fun i j => ∑ k, rotCart cv ops[s].W i k * rotCart cv ops[t].W k j :=
  cartesian_unique h.volume (rotCart_cartesian h.volume _)
    (cartesian_compose (times_composes h s t) (rotCart_cartesian h.volume _) (rotCart_cartesian h.volume _))

/-! ## What the code computes -/

theorem eqRow_perm (h : Symmetries cv types r tol ops) {T : Table}
    (hT : equivalentAtoms cv (List.ofFn types) (List.ofFn r) tol (some ops) = .ok T) (s : Fin ops.length) (i : Fin n) :
    eqRow T s i = perm h s i := by
  obtain ⟨j, h1, ⟨_, hj, _, m, hm, ht, _⟩, h3⟩ := C75_table cv (List.ofFn types) (List.ofFn r) tol (by simp) ops T hT s s.2 i (by simp)
  have h4 : ((perm h s i : Fin n) : Nat) = j := by
    apply h3
    refine ⟨by simp, by simp, by simp [(perm_takes h s i).types], near_of_latticeEq cv tol ht _ _ ?_⟩
    simp only [List.getElem_ofFn, Fin.eta]
    exact (perm_takes h s i).place
  unfold eqRow
  rw [dif_pos]
  · ext
    simp [h1, h4]
  · rw [h1]
    have := (perm h s i).2
    constructor
    · omega
    · simp; omega

/-- The symmetrised matrices. -/
noncomputable def mean (h : Symmetries cv types r tol ops) (w : Fin n → Fin 3 → Fin 3 → ℝ) (k : Fin n) (a b : Fin 3) : ℝ :=
  (∑ s, rotated (rotCart cv ops[s].W) (w ((perm h s).symm k)) a b) / (ops.length : ℝ)

end

section
variable {na nq nm : Nat} {C : Cryst na} {cv : M3 ℝ} {r : Fin na → V3 ℝ} {tol : ℝ} {ops : List (Op ℝ)}

theorem debyeWaller_eq (h : Symmetries cv C.atomType r tol ops) (chunk : Nat) (m : Modes C nq nm) (kB temp fmin : ℝ) :
    debyeWaller cv r tol (some ops) chunk m kB temp fmin true = .ok ⟨na, mean h (dwRaw chunk m kB temp fmin), temp⟩ := by
  obtain ⟨T, hT⟩ := C75_symmetric_ok cv (List.ofFn C.atomType) (List.ofFn r) tol h.pos (by simp) ops (fun op hop i hi => by
      obtain ⟨s, hs, rfl⟩ := List.getElem_of_mem hop
      have hi' : i < na := by simpa using hi
      obtain ⟨j, hj⟩ := h.symmetry ⟨s, hs⟩ ⟨i, hi'⟩
      refine ⟨j, by simp, ?_, ?_⟩
      · have := hj.types
        simp [hi', this]
      · simp only [List.getElem_ofFn, Fin.eta]
        exact hj.place) h.separated
  unfold debyeWaller symOps
  rw [if_pos rfl, hT]
  simp only [Except.map, Option.getD_some, Except.ok.injEq, calculateDebyeWaller]
  congr 1
  funext k a b
  set l := ops.mapIdx fun s op => (⟨rotCart cv op.W, eqRow T s⟩ : SymOp na) with hl
  have hlen : l.length = ops.length := by simp [hl]
  have hget : ∀ s : Fin l.length, l[s] = ⟨rotCart cv ops[s.cast hlen].W, eqRow T (s.cast hlen)⟩ := by
    intro s
    simp [hl]
  rw [foldl_perm (dwRaw chunk m kB temp fmin) l (fun s => perm h (s.cast hlen))
    (fun s i => by rw [hget]; exact eqRow_perm h hT _ i), zero_add, show ((l.length : ℕ) : ℝ) = ops.length by rw [hlen]]
  unfold mean
  congr 1
  rw [← Equiv.sum_comp (finCongr hlen) fun s => rotated (rotCart cv ops[s].W) (dwRaw chunk m kB temp fmin ((perm h s).symm k)) a b]
  refine Finset.sum_congr rfl fun s _ => ?_
  rw [hget]
  rfl

/-! ## Main theorems -/

theorem rotated_mean {m : Nat} (R : Fin 3 → Fin 3 → ℝ) (f : Fin m → Fin 3 → Fin 3 → ℝ) (c : ℝ) :
    rotated R (fun a b => (∑ s, f s a b) / c) = fun a b => (∑ s, rotated R (f s) a b) / c := by
  funext a b
  simp only [rotated, Fin.sum_univ_three, div_eq_mul_inv, Finset.sum_add_distrib]
  simp only [Finset.sum_mul, Finset.mul_sum, ← Finset.sum_add_distrib]
  exact Finset.sum_congr rfl fun s _ => by ring

theorem mean_covariant {n : Nat} {types : Fin n → String} {r : Fin n → V3 ℝ} (h : Symmetries cv types r tol ops)
    (w : Fin n → Fin 3 → Fin 3 → ℝ) (t : Fin ops.length) (i : Fin n) :
    mean h w (perm h t i) = rotated (rotCart cv ops[t].W) (mean h w i) := by
  have e : mean h w i = fun a b => (∑ s, rotated (rotCart cv ops[s].W) (w ((perm h s).symm i)) a b) / (ops.length : ℝ) := rfl
  rw [e, rotated_mean]
  funext a b
  unfold mean
  congr 1
  rw [← Equiv.sum_comp (Equiv.ofBijective _ (Finite.injective_iff_bijective.1 (times_injective h t)))]
  refine Finset.sum_congr rfl fun s _ => ?_
  rw [rotated_rotated, Equiv.ofBijective_apply, ← rotCart_times h]
  congr 2
  rw [Equiv.symm_apply_eq, perm_times, Equiv.apply_symm_apply]

/-- **C167** With `symmetrise=True`, for any modes at any wavevectors: the matrix of the atom to which an operation takes an atom
is the rotated matrix of that atom. -/
theorem C167_equivalent_atoms (h : Symmetries cv C.atomType r tol ops) (chunk : Nat) (m : Modes C nq nm) (kB temp fmin : ℝ) :
    ∃ w, debyeWaller cv r tol (some ops) chunk m kB temp fmin true = .ok ⟨na, w, temp⟩ ∧
      ∀ (s : Fin ops.length) (R : Fin 3 → Fin 3 → ℝ) (i j : Fin na), Cartesian cv ops[s] R → Takes C.atomType r ops[s] i j →
        ∀ a b, w j a b = ∑ a', ∑ b', R a a' * w i a' b' * R b b' := by
  refine ⟨_, debyeWaller_eq h chunk m kB temp fmin, fun s R i j hR hij a b => ?_⟩
  rw [cartesian_unique h.volume hR (rotCart_cartesian h.volume _), takes_unique h hij (perm_takes h s i), mean_covariant]
  rfl

open scoped Matrix in
theorem isotropic {w U : Matrix (Fin 3) (Fin 3) ℝ} (hU : Uᵀ * U = 1)
    (h3 : (U * !![0, 0, 1; 1, 0, 0; 0, 1, 0] * Uᵀ) * w * (U * !![0, 0, 1; 1, 0, 0; 0, 1, 0] * Uᵀ)ᵀ = w)
    (h2 : (U * !![-1, 0, 0; 0, -1, 0; 0, 0, 1] * Uᵀ) * w * (U * !![-1, 0, 0; 0, -1, 0; 0, 0, 1] * Uᵀ)ᵀ = w) :
    ∃ c : ℝ, w = c • (1 : Matrix (Fin 3) (Fin 3) ℝ) := by
  have hU' : U * Uᵀ = 1 := mul_eq_one_comm.1 hU
  have tr : ∀ A : Matrix (Fin 3) (Fin 3) ℝ, (U * A * Uᵀ) * w * (U * A * Uᵀ)ᵀ = w → A * (Uᵀ * w * U) * Aᵀ = Uᵀ * w * U := by
    intro A hA
    have := congrArg (fun X => Uᵀ * X * U) hA
    simp only [Matrix.transpose_mul, Matrix.transpose_transpose] at this
    calc A * (Uᵀ * w * U) * Aᵀ = (Uᵀ * U) * A * (Uᵀ * w * U) * Aᵀ * (Uᵀ * U) := by rw [hU, one_mul, mul_one]
      _ = Uᵀ * (U * A * Uᵀ * w * (U * (Aᵀ * Uᵀ))) * U := by simp only [mul_assoc]
      _ = Uᵀ * w * U := this
  have k3 := tr _ h3
  have k2 := tr _ h2
  set v := Uᵀ * w * U with hv
  have hw : w = U * v * Uᵀ := by
    calc w = (U * Uᵀ) * w * (U * Uᵀ) := by rw [hU', one_mul, mul_one]
      _ = U * v * Uᵀ := by rw [hv]; simp only [mul_assoc]
  have e3 := fun i j => congrFun (congrFun k3 i) j
  have e2 := fun i j => congrFun (congrFun k2 i) j
  have e300 := e3 0 0
  have e311 := e3 1 1
  have e301 := e3 0 1
  have e310 := e3 1 0
  have e312 := e3 1 2
  have e321 := e3 2 1
  have e302 := e3 0 2
  have e320 := e3 2 0
  have e202 := e2 0 2
  have e220 := e2 2 0
  have e212 := e2 1 2
  have e221 := e2 2 1
  simp [Matrix.mul_apply, Matrix.vecMul, dotProduct, Fin.sum_univ_three] at e300 e311 e301 e310 e312 e321 e302 e320 e202 e220 e212 e221
  refine ⟨v 0 0, ?_⟩
  have hvd : v = v 0 0 • (1 : Matrix (Fin 3) (Fin 3) ℝ) := by
    ext i j
    fin_cases i <;> fin_cases j <;> simp <;> linarith
  rw [hw, hvd]
  simp [hU']

open scoped Matrix in
/-- **C167** An atom at a site of cubic symmetry (a threefold rotation about the diagonal and a twofold one about an axis of some
orthogonal frame `U` leave it in place) has an isotropic matrix. -/
theorem C167_cubic_site (h : Symmetries cv C.atomType r tol ops) (chunk : Nat) (m : Modes C nq nm) (kB temp fmin : ℝ) (i : Fin na)
    (U : Matrix (Fin 3) (Fin 3) ℝ) (hU : Uᵀ * U = 1) (s3 s2 : Fin ops.length)
    (h3 : Cartesian cv ops[s3] (U * !![0, 0, 1; 1, 0, 0; 0, 1, 0] * Uᵀ))
    (h2 : Cartesian cv ops[s2] (U * !![-1, 0, 0; 0, -1, 0; 0, 0, 1] * Uᵀ))
    (f3 : LatticeEq (image ops[s3] (r i)) (r i)) (f2 : LatticeEq (image ops[s2] (r i)) (r i)) :
    ∃ w, debyeWaller cv r tol (some ops) chunk m kB temp fmin true = .ok ⟨na, w, temp⟩ ∧
      ∃ c : ℝ, ∀ a b, w i a b = if a = b then c else 0 := by
  obtain ⟨w, hw, hc⟩ := C167_equivalent_atoms h chunk m kB temp fmin
  refine ⟨w, hw, ?_⟩
  have mk : ∀ (s : Fin ops.length) (R : Matrix (Fin 3) (Fin 3) ℝ), Cartesian cv ops[s] R → LatticeEq (image ops[s] (r i)) (r i) →
      R * Matrix.of (w i) * Rᵀ = Matrix.of (w i) := by
    intro s R hR hf
    ext a b
    have := hc s R i i hR ⟨rfl, hf⟩ a b
    rw [Matrix.of_apply, this]
    simp only [Matrix.mul_apply, Matrix.transpose_apply, Matrix.of_apply, Fin.sum_univ_three]
    ring
  obtain ⟨c, hcc⟩ := isotropic hU (mk s3 _ h3 f3) (mk s2 _ h2 f2)
  refine ⟨c, fun a b => ?_⟩
  have := congrFun (congrFun hcc a) b
  rw [Matrix.of_apply] at this
  rw [this]
  simp [Matrix.one_apply]

/-- **C167** Matrices that have the symmetry already are left as they are. -/
theorem C167_unchanged (h : Symmetries cv C.atomType r tol ops) (hne : ops ≠ []) (chunk : Nat) (m : Modes C nq nm) (kB temp fmin : ℝ)
    {w : Fin na → Fin 3 → Fin 3 → ℝ} (hw : debyeWaller cv r tol (some ops) chunk m kB temp fmin false = .ok ⟨na, w, temp⟩)
    (hsym : ∀ (s : Fin ops.length) (R : Fin 3 → Fin 3 → ℝ) (i j : Fin na), Cartesian cv ops[s] R → Takes C.atomType r ops[s] i j →
      ∀ a b, w j a b = ∑ a', ∑ b', R a a' * w i a' b' * R b b') :
    debyeWaller cv r tol (some ops) chunk m kB temp fmin true = .ok ⟨na, w, temp⟩ := by
  rw [debyeWaller_eq h]
  have hraw : dwRaw chunk m kB temp fmin = w := by
    simp only [debyeWaller, Bool.false_eq_true, if_false, calculateDebyeWaller, Except.ok.injEq, DW.mk.injEq, heq_eq_eq,
      and_true, true_and] at hw
    exact hw
  rw [hraw]
  congr 2
  funext k a b
  have hl : (ops.length : ℝ) ≠ 0 := by
    have := List.length_pos_iff.2 hne
    positivity
  unfold mean
  rw [div_eq_iff hl]
  have : ∀ s, rotated (rotCart cv ops[s].W) (w ((perm h s).symm k)) a b = w k a b := by
    intro s
    have ht := perm_takes h s ((perm h s).symm k)
    rw [Equiv.apply_symm_apply] at ht
    exact (hsym s _ _ _ (rotCart_cartesian h.volume _) ht a b).symm
  rw [Finset.sum_congr rfl fun s _ => this s]
  simp [mul_comm]

theorem rotated_trace {cv : M3 ℝ} (hv : cellVolume cv ≠ 0) {op : Op ℝ} {R : Fin 3 → Fin 3 → ℝ} (hR : Cartesian cv op R)
    (hlen : ∀ v, lengthSq cv (turn op v) = lengthSq cv v) (w : Fin 3 → Fin 3 → ℝ) : ∑ a, rotated R w a a = ∑ a, w a a := by
  have hn : ∀ v : V3 ℝ, ∑ a, comp (rotV R v) a ^ 2 = ∑ a, comp v a ^ 2 := by
    intro v
    obtain ⟨x, rfl⟩ := exists_frac hv v
    rw [← hR]
    have := hlen x
    simpa only [lengthSq, Fin.sum_univ_three, toCart, comp0, comp1, comp2] using this
  have q := fun x y z => hn ⟨x, y, z⟩
  simp only [comp_rotV, Fin.sum_univ_three, comp0, comp1, comp2] at q
  have q100 := q 1 0 0
  have q010 := q 0 1 0
  have q001 := q 0 0 1
  have q110 := q 1 1 0
  have q101 := q 1 0 1
  have q011 := q 0 1 1
  have o01 : R 0 0 * R 0 1 + R 1 0 * R 1 1 + R 2 0 * R 2 1 = 0 := by linarith
  have o02 : R 0 0 * R 0 2 + R 1 0 * R 1 2 + R 2 0 * R 2 2 = 0 := by linarith
  have o12 : R 0 1 * R 0 2 + R 1 1 * R 1 2 + R 2 1 * R 2 2 = 0 := by linarith
  simp only [rotated, Fin.sum_univ_three]
  linear_combination (w 0 0) * q100 + (w 1 1) * q010 + (w 2 2) * q001 + (w 0 1 + w 1 0) * o01 + (w 0 2 + w 2 0) * o02
    + (w 1 2 + w 2 1) * o12

/-- **C167** The traces of the matrices (mean square displacements) of the atoms of a species add up to what they do without
symmetrisation. -/
theorem C167_trace (h : Symmetries cv C.atomType r tol ops) (hne : ops ≠ [])
    (hlen : ∀ (s : Fin ops.length) v, lengthSq cv (turn ops[s] v) = lengthSq cv v) (chunk : Nat) (m : Modes C nq nm) (kB temp fmin : ℝ)
    (species : String) :
    ∃ w w', debyeWaller cv r tol (some ops) chunk m kB temp fmin true = .ok ⟨na, w, temp⟩ ∧
      debyeWaller cv r tol (some ops) chunk m kB temp fmin false = .ok ⟨na, w', temp⟩ ∧
      ∑ i, (if C.atomType i = species then ∑ a, w i a a else 0) = ∑ i, if C.atomType i = species then ∑ a, w' i a a else 0 := by
  refine ⟨_, dwRaw chunk m kB temp fmin, debyeWaller_eq h chunk m kB temp fmin, rfl, ?_⟩
  set w' := dwRaw chunk m kB temp fmin
  have hl : (ops.length : ℝ) ≠ 0 := by
    have := List.length_pos_iff.2 hne
    positivity
  have e1 : ∀ i, ∑ a, mean h w' i a a = (∑ s, ∑ a, w' ((perm h s).symm i) a a) / (ops.length : ℝ) := by
    intro i
    unfold mean
    rw [← Finset.sum_div, Finset.sum_comm]
    congr 1
    exact Finset.sum_congr rfl fun s _ => rotated_trace h.volume (rotCart_cartesian h.volume _) (hlen s) _
  have e2 : ∀ s, ∑ i, (if C.atomType i = species then ∑ a, w' ((perm h s).symm i) a a else 0) =
      ∑ i, if C.atomType i = species then ∑ a, w' i a a else 0 := by
    intro s
    rw [← Equiv.sum_comp (perm h s)]
    refine Finset.sum_congr rfl fun i _ => ?_
    rw [Equiv.symm_apply_apply, ← (perm_takes h s i).types]
  have e3 : ∀ i, (if C.atomType i = species then ∑ a, mean h w' i a a else 0) =
      (∑ s, if C.atomType i = species then ∑ a, w' ((perm h s).symm i) a a else 0) / (ops.length : ℝ) := by
    intro i
    split
    · rw [e1]
    · simp
  rw [Finset.sum_congr rfl fun i _ => e3 i, ← Finset.sum_div, Finset.sum_comm, Finset.sum_congr rfl fun s _ => e2 s]
  rw [div_eq_iff hl]
  simp [mul_comm]

end

/-! ### A case meeting the hypotheses -/

namespace Ex

/-- The twelve rotations of a tetrahedron. -/
def turns : List (M3 ℤ) :=
  let d : List (ℤ × ℤ × ℤ) := [(1, 1, 1), (1, -1, -1), (-1, 1, -1), (-1, -1, 1)]
  d.map (fun s => ⟨⟨s.1, 0, 0⟩, ⟨0, s.2.1, 0⟩, ⟨0, 0, s.2.2⟩⟩) ++ d.map (fun s => ⟨⟨0, 0, s.1⟩, ⟨s.2.1, 0, 0⟩, ⟨0, s.2.2, 0⟩⟩) ++
    d.map fun s => ⟨⟨0, s.1, 0⟩, ⟨0, 0, s.2.1⟩, ⟨s.2.2, 0, 0⟩⟩

noncomputable def ops : List (Op ℝ) := turns.map fun W => ⟨W, ⟨0, 0, 0⟩⟩

/-- The components of the product of two matrices of integers. -/
def prod (A B : M3 ℤ) : M3 ℤ :=
  let r : V3 ℤ → V3 ℤ := fun v => ⟨v.x * B.a.x + v.y * B.b.x + v.z * B.c.x, v.x * B.a.y + v.y * B.b.y + v.z * B.c.y,
    v.x * B.a.z + v.y * B.b.z + v.z * B.c.z⟩
  ⟨r A.a, r A.b, r A.c⟩

def list (A : M3 ℤ) : List ℤ := [A.a.x, A.a.y, A.a.z, A.b.x, A.b.y, A.b.z, A.c.x, A.c.y, A.c.z]

theorem list_inj {A B : M3 ℤ} (h : list A = list B) : A = B := by
  obtain ⟨⟨_, _, _⟩, ⟨_, _, _⟩, ⟨_, _, _⟩⟩ := A
  obtain ⟨⟨_, _, _⟩, ⟨_, _, _⟩, ⟨_, _, _⟩⟩ := B
  simpa [list, and_assoc] using h

theorem turn_prod (A B : M3 ℤ) (v : V3 ℝ) :
    turn ⟨prod A B, ⟨0, 0, 0⟩⟩ v = turn ⟨A, ⟨0, 0, 0⟩⟩ (turn ⟨B, ⟨0, 0, 0⟩⟩ v) := by
  simp only [turn, prod, V3.mk.injEq]
  push_cast
  refine ⟨?_, ?_, ?_⟩ <;> ring

theorem composes {A B C : M3 ℤ} (h : list (prod A B) = list C) :
    Composes ⟨A, ⟨0, 0, 0⟩⟩ ⟨B, ⟨0, 0, 0⟩⟩ (⟨C, ⟨0, 0, 0⟩⟩ : Op ℝ) := by
  rw [← list_inj h]
  exact ⟨turn_prod A B, ⟨⟨0, 0, 0⟩, by simp [image]⟩⟩

theorem ops_get (s : Fin ops.length) : ∃ s' : Fin 12, (s : Nat) = s' ∧ ops[s] = ⟨turns[s'], ⟨0, 0, 0⟩⟩ :=
  ⟨⟨s, by have := s.2; simpa [ops, turns] using this⟩, rfl, List.getElem_map (l := turns) (fun W => (⟨W, ⟨0, 0, 0⟩⟩ : Op ℝ))⟩

theorem get_ops (s : Fin 12) : ∃ s' : Fin ops.length, (s' : Nat) = s ∧ ops[s'] = ⟨turns[s], ⟨0, 0, 0⟩⟩ :=
  ⟨⟨s, by simp [ops, turns]⟩, rfl, by simp [ops]⟩

theorem group : IsGroup ops where
  closed := fun s t => by
    obtain ⟨s', -, es⟩ := ops_get s
    obtain ⟨t', -, et⟩ := ops_get t
    have : ∀ s t : Fin 12, ∃ u : Fin 12, list (prod turns[s] turns[t]) = list turns[u] := by decide
    obtain ⟨u, hu⟩ := this s' t'
    obtain ⟨u', -, eu⟩ := get_ops u
    refine ⟨u', ?_⟩
    rw [es, et, eu]
    exact composes hu
  inverse := fun s => by
    obtain ⟨s', -, es⟩ := ops_get s
    have : ∀ s : Fin 12, ∃ t : Fin 12, list (prod turns[t] turns[s]) = [1, 0, 0, 0, 1, 0, 0, 0, 1] := by decide
    obtain ⟨u, hu⟩ := this s'
    obtain ⟨u', -, eu⟩ := get_ops u
    refine ⟨u', ?_⟩
    rw [es, eu]
    exact composes hu
  once := fun s t h => by
    obtain ⟨s', hs, es⟩ := ops_get s
    obtain ⟨t', ht, et⟩ := ops_get t
    rw [es, et] at h
    have h1 := h.turn ⟨1, 0, 0⟩
    have h2 := h.turn ⟨0, 1, 0⟩
    have h3 := h.turn ⟨0, 0, 1⟩
    simp only [turn, V3.mk.injEq, mul_one, mul_zero, add_zero, zero_add, Int.cast_inj] at h1 h2 h3
    have he : list turns[s'] = list turns[t'] := by
      simp only [list, h1.1, h1.2.1, h1.2.2, h2.1, h2.2.1, h2.2.2, h3.1, h3.2.1, h3.2.2]
    have : ∀ s t : Fin 12, list turns[s] = list turns[t] → s = t := by decide
    exact Fin.ext (by rw [hs, ht, this s' t' he])

/-- Caesium chloride. -/
noncomputable def cv : M3 ℝ := ⟨⟨7, 0, 0⟩, ⟨0, 7, 0⟩, ⟨0, 0, 7⟩⟩

noncomputable def r : Fin 2 → V3 ℝ := ![⟨0, 0, 0⟩, ⟨1 / 2, 1 / 2, 1 / 2⟩]

def types : Fin 2 → String := !["Cs", "Cl"]

theorem fixed (s : Fin ops.length) (i : Fin 2) : LatticeEq (image ops[s] (r i)) (r i) := by
  obtain ⟨s', -, es⟩ := ops_get s
  rw [es]
  have : ∀ s : Fin 12, ∃ m : Fin 3 → Fin 2, (turns[s].a.x + turns[s].a.y + turns[s].a.z = 1 - 2 * (m 0 : ℤ)) ∧
    (turns[s].b.x + turns[s].b.y + turns[s].b.z = 1 - 2 * (m 1 : ℤ)) ∧
    (turns[s].c.x + turns[s].c.y + turns[s].c.z = 1 - 2 * (m 2 : ℤ)) := by decide
  obtain ⟨m, m0, m1, m2⟩ := this s'
  have cast : ∀ {a b : ℤ}, a = b → (a : ℝ) = b := fun h => by rw [h]
  fin_cases i
  · exact ⟨⟨0, 0, 0⟩, by simp [image, r]⟩
  · refine ⟨⟨-m 0, -m 1, -m 2⟩, ?_, ?_, ?_⟩
    · have := cast m0
      push_cast at this ⊢
      simp [image, r] at this ⊢
      linarith
    · have := cast m1
      push_cast at this ⊢
      simp [image, r] at this ⊢
      linarith
    · have := cast m2
      push_cast at this ⊢
      simp [image, r] at this ⊢
      linarith

theorem symmetries : Symmetries cv types r (1 / 1000) ops where
  volume := by norm_num [cellVolume, cv, dot, cross]
  pos := by norm_num
  group := group
  symmetry := fun s i => ⟨i, rfl, fixed s i⟩
  separated := by
    intro i j hi hj ht _
    simp at hi hj
    have : ∀ i < 2, ∀ j < 2, (List.ofFn types)[i]? = (List.ofFn types)[j]? → i = j := by decide
    exact this i (by omega) j (by omega) ht

open scoped Matrix in
theorem three : Cartesian cv (⟨⟨⟨0, 0, 1⟩, ⟨1, 0, 0⟩, ⟨0, 1, 0⟩⟩, ⟨0, 0, 0⟩⟩ : Op ℝ)
    ((1 : Matrix (Fin 3) (Fin 3) ℝ) * !![0, 0, 1; 1, 0, 0; 0, 1, 0] * (1 : Matrix (Fin 3) (Fin 3) ℝ)ᵀ) := by
  have e : ((1 : Matrix (Fin 3) (Fin 3) ℝ) * !![0, 0, 1; 1, 0, 0; 0, 1, 0] * (1 : Matrix (Fin 3) (Fin 3) ℝ)ᵀ) = !![0, 0, 1; 1, 0, 0; 0, 1, 0] := by
    rw [Matrix.transpose_one, one_mul, mul_one]
  intro v
  refine Eq.trans ?_ (congrArg (fun R => rotV R (toCart cv v)) e).symm
  simp [toCart, cv, turn, rotV, Fin.sum_univ_three, comp0, comp1, comp2]

open scoped Matrix in
theorem two : Cartesian cv (⟨⟨⟨-1, 0, 0⟩, ⟨0, -1, 0⟩, ⟨0, 0, 1⟩⟩, ⟨0, 0, 0⟩⟩ : Op ℝ)
    ((1 : Matrix (Fin 3) (Fin 3) ℝ) * !![-1, 0, 0; 0, -1, 0; 0, 0, 1] * (1 : Matrix (Fin 3) (Fin 3) ℝ)ᵀ) := by
  have e : ((1 : Matrix (Fin 3) (Fin 3) ℝ) * !![-1, 0, 0; 0, -1, 0; 0, 0, 1] * (1 : Matrix (Fin 3) (Fin 3) ℝ)ᵀ) = !![-1, 0, 0; 0, -1, 0; 0, 0, 1] := by
    rw [Matrix.transpose_one, one_mul, mul_one]
  intro v
  refine Eq.trans ?_ (congrArg (fun R => rotV R (toCart cv v)) e).symm
  simp [toCart, cv, turn, rotV, Fin.sum_univ_three, comp0, comp1, comp2]

/-- Both atoms of caesium chloride have isotropic matrices, whatever the modes. -/
example {nq nm : Nat} (C : Cryst 2) (hC : C.atomType = types) (m : Modes C nq nm) (kB temp fmin : ℝ) (i : Fin 2) :
    ∃ w, debyeWaller cv r (1 / 1000) (some ops) 1000 m kB temp fmin true = .ok ⟨2, w, temp⟩ ∧
      ∃ c : ℝ, ∀ a b, w i a b = if a = b then c else 0 := by
  obtain ⟨s3, -, e3⟩ := get_ops 4
  obtain ⟨s2, -, e2⟩ := get_ops 3
  refine C167_cubic_site (by rw [hC]; exact symmetries) 1000 m kB temp fmin i 1 (by simp) s3 s2 ?_ ?_ (fixed s3 i) (fixed s2 i)
  · rw [e3]
    exact three
  · rw [e2]
    exact two

/-- The rotations keep lengths. -/
example (s : Fin ops.length) (v : V3 ℝ) : lengthSq cv (turn ops[s] v) = lengthSq cv v := by
  obtain ⟨s', -, es⟩ := ops_get s
  rw [es]
  fin_cases s' <;> simp [turns, lengthSq, turn, cv] <;> ring

end Ex

end Euphonic.SiteSymmetry
