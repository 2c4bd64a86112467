import Verif.Model.Symmetry
import Verif.Props.Lattice
import Mathlib.Tactic.IntervalCases

/-! # C75: symmetry equivalent atoms -/

set_option autoImplicit false
set_option linter.unusedSectionVars false

namespace Euphonic.Symmetry

open Euphonic.Lattice Euphonic.Images

variable {K : Type} [Field K] [LinearOrder K] [IsStrictOrderedRing K] [FloorRing K]

/-! ## Specification -/

/-- Specification: `r` rotated and shifted by an operation. -/
def image (op : Op K) (r : V3 K) : V3 K :=
  ⟨op.W.a.x * r.x + op.W.a.y * r.y + op.W.a.z * r.z + op.t.x,
   op.W.b.x * r.x + op.W.b.y * r.y + op.W.b.z * r.z + op.t.y,
   op.W.c.x * r.x + op.W.c.y * r.y + op.W.c.z * r.z + op.t.z⟩

/-- Specification: square of the length of the vector with the given fractional coordinates. -/
def lengthSq (cv : M3 K) (f : V3 K) : K :=
  (f.x * cv.a.x + f.y * cv.b.x + f.z * cv.c.x) ^ 2 + (f.x * cv.a.y + f.y * cv.b.y + f.z * cv.c.y) ^ 2 +
    (f.x * cv.a.z + f.y * cv.b.z + f.z * cv.c.z) ^ 2

/-- Specification: all components are in `[-1/2, 1/2)`. -/
def Reduced (f : V3 K) : Prop :=
  (-(1 / 2) ≤ f.x ∧ f.x < 1 / 2) ∧ (-(1 / 2) ≤ f.y ∧ f.y < 1 / 2) ∧ (-(1 / 2) ≤ f.z ∧ f.z < 1 / 2)

/-- Specification: `p - q - m`. -/
def diffBy (p q : V3 K) (m : V3 ℤ) : V3 K := ⟨p.x - q.x - m.x, p.y - q.y - m.y, p.z - q.z - m.z⟩

/-- Specification: up to a lattice vector, `p` is nearer to `q` than the tolerance; the difference is reduced to
the cell centred at the origin. -/
def Near (cv : M3 K) (tol : K) (p q : V3 K) : Prop :=
  ∃ m : V3 ℤ, Reduced (diffBy p q m) ∧ 0 < tol ∧ lengthSq cv (diffBy p q m) < tol ^ 2

/-- Specification: atom `j` is of the species of atom `i` and at the place to which the operation takes it. -/
def Matches (cv : M3 K) (types : List String) (rs : List (V3 K)) (tol : K) (op : Op K) (i j : Nat) : Prop :=
  ∃ (hi : i < rs.length) (hj : j < rs.length), types[i]? = types[j]? ∧ Near cv tol (image op rs[i]) rs[j]

/-! ## Reduction of components -/

theorem wrap_eq (x : K) (m : ℤ) : (-(1 / 2) ≤ x - m ∧ x - m < 1 / 2) ↔ ⌊x + 1 / 2⌋ = m := by
  rw [Int.floor_eq_iff]
  constructor
  · rintro ⟨h1, h2⟩; constructor <;> linarith
  · rintro ⟨h1, h2⟩; constructor <;> linarith

theorem wrap_wrap_sub (x y : K) : wrap (wrap x - y) = wrap (x - y) := by
  unfold wrap
  have : x - ((⌊x + 1 / 2⌋ : ℤ) : K) - y + 1 / 2 = (x - y + 1 / 2) - ((⌊x + 1 / 2⌋ : ℤ) : K) := by ring
  rw [this, Int.floor_sub_intCast]
  push_cast
  ring

theorem act_eq (op : Op K) (r : V3 K) : act op r = image op r := by
  simp only [act, image, dot, castV]

theorem close_iff (cv : M3 K) (tol : K) (p q : V3 K) :
    normLt (toCart cv (wrapV (sub (wrapV p) q))) tol = true ↔ Near cv tol p q := by
  have hw : wrapV (sub (wrapV p) q) = wrapV (sub p q) := by
    simp only [wrapV, sub, wrap_wrap_sub]
  rw [hw]
  unfold normLt Near
  rw [decide_eq_true_iff]
  have hl : ∀ f : V3 K, dot (toCart cv f) (toCart cv f) = lengthSq cv f := by
    intro f; simp only [dot, toCart, lengthSq]; ring
  rw [hl]
  have hd : wrapV (sub p q) =
      diffBy p q ⟨⌊p.x - q.x + 1 / 2⌋, ⌊p.y - q.y + 1 / 2⌋, ⌊p.z - q.z + 1 / 2⌋⟩ := rfl
  constructor
  · rintro ⟨h1, h2⟩
    refine ⟨_, ⟨?_, ?_, ?_⟩, h1, hd ▸ h2⟩
    · exact (wrap_eq (p.x - q.x) _).2 rfl
    · exact (wrap_eq (p.y - q.y) _).2 rfl
    · exact (wrap_eq (p.z - q.z) _).2 rfl
  · rintro ⟨m, ⟨hx, hy, hz⟩, h1, h2⟩
    refine ⟨h1, ?_⟩
    rw [hd, (wrap_eq (p.x - q.x) m.x).1 hx, (wrap_eq (p.y - q.y) m.y).1 hy, (wrap_eq (p.z - q.z) m.z).1 hz]
    exact h2

/-! ## One column -/

/-- `np.where` with one hit per row. -/
theorem flatMap_replicate_range' {α : Type} (len : α → Nat) (l : List α) (k : Nat) :
    ((l.zipIdx k).flatMap fun p => List.replicate (len p.1) p.2) = List.range' k l.length ↔
      ∀ a ∈ l, len a = 1 := by
  induction l generalizing k with
  | nil => simp
  | cons a l ih =>
    rw [List.zipIdx_cons, List.flatMap_cons, List.length_cons, List.range'_succ]
    have hge : ∀ x ∈ (l.zipIdx (k + 1)).flatMap fun p => List.replicate (len p.1) p.2, k + 1 ≤ x := by
      intro x hx
      obtain ⟨p, hp, hx⟩ := List.mem_flatMap.1 hx
      rw [List.eq_of_mem_replicate hx]
      obtain ⟨h1, -, -⟩ := List.mem_zipIdx (x := p.1) (i := p.2) hp
      exact h1
    simp only [List.forall_mem_cons]
    rw [← ih (k + 1)]
    generalize ((l.zipIdx (k + 1)).flatMap fun p => List.replicate (len p.1) p.2) = rest at hge ⊢
    rcases h : len a with _ | _ | m
    · constructor
      · intro he
        simp only [List.replicate_zero, List.nil_append] at he
        have := hge k (by rw [he]; simp)
        omega
      · rintro ⟨h, -⟩; omega
    · simp [List.replicate_succ]
    · constructor
      · intro he
        simp only [List.replicate_succ, List.cons_append, List.cons.injEq, true_and] at he
        have h2 : k ∈ List.range' (k + 1) l.length := by rw [← he]; simp
        rw [List.mem_range'_1] at h2
        omega
      · rintro ⟨h, -⟩; omega

theorem equivIdx_fst (cv : M3 K) (tol : K) (rs : List (V3 K)) (idx : List Nat) (ops : List (Op K)) (r : V3 K) :
    (equivIdx cv tol rs idx ops r).map (·.1) = List.range ops.length ↔
      ∀ op ∈ ops, (closeTo cv tol rs idx op r).length = 1 := by
  unfold equivIdx
  rw [List.map_flatMap, List.range_eq_range']
  simp only [List.map_map, Function.comp_def, List.map_const']
  exact flatMap_replicate_range' (fun op => (closeTo cv tol rs idx op r).length) ops 0

theorem raiseLoop_eq (cv : M3 K) (tol : K) (rs : List (V3 K)) (idx : List Nat) (r : V3 K) (ops : List (Op K)) :
    ((∀ op ∈ ops, (closeTo cv tol rs idx op r).length = 1) → raiseLoop cv tol rs idx r ops = .ok ()) ∧
    ((¬ ∀ op ∈ ops, (closeTo cv tol rs idx op r).length = 1) →
      raiseLoop cv tol rs idx r ops = .error .runtimeError) := by
  induction ops with
  | nil => simp [raiseLoop]
  | cons op ops ih =>
    simp only [List.forall_mem_cons]
    unfold raiseLoop
    constructor
    · rintro ⟨h1, h2⟩
      rw [if_neg (by omega), if_neg (by omega)]
      exact ih.1 h2
    · intro h
      split_ifs with h1 h2
      · rfl
      · rfl
      · exact ih.2 fun h3 => h ⟨by omega, h3⟩

/-- The column of an atom for which every operation has one match. -/
def goodColumn (cv : M3 K) (tol : K) (rs : List (V3 K)) (idx : List Nat) (ops : List (Op K)) (i : Nat) :
    List Nat :=
  ops.map fun op => idx.getD ((closeTo cv tol rs idx op (rs.getD i ⟨0, 0, 0⟩)).headD 0) 0

/-- One match for every operation. -/
def Good (cv : M3 K) (tol : K) (rs : List (V3 K)) (idx : List Nat) (ops : List (Op K)) (i : Nat) : Prop :=
  ∀ op ∈ ops, (closeTo cv tol rs idx op (rs.getD i ⟨0, 0, 0⟩)).length = 1

theorem column_eq (cv : M3 K) (tol : K) (rs : List (V3 K)) (idx : List Nat) (ops : List (Op K)) (i : Nat) :
    (Good cv tol rs idx ops i → column cv tol rs idx ops i = .ok (goodColumn cv tol rs idx ops i)) ∧
    (¬ Good cv tol rs idx ops i → column cv tol rs idx ops i = .error .runtimeError) := by
  unfold column
  dsimp only
  constructor
  · intro h
    rw [if_neg (not_not.2 ((equivIdx_fst ..).2 h))]
    show Except.ok _ = Except.ok _
    congr 1
    unfold equivIdx goodColumn
    rw [List.map_flatMap]
    have : ∀ p ∈ ops.zipIdx, (((closeTo cv tol rs idx p.1 (rs.getD i ⟨0, 0, 0⟩)).map fun k => (p.2, k)).map
        fun q => idx.getD q.2 0) =
        [idx.getD ((closeTo cv tol rs idx p.1 (rs.getD i ⟨0, 0, 0⟩)).headD 0) 0] := by
      intro p hp
      have h1 := h p.1 (List.fst_mem_of_mem_zipIdx hp)
      obtain ⟨k, hk⟩ := List.length_eq_one_iff.1 h1
      rw [hk]
      simp
    rw [List.flatMap_congr this, ← List.map_eq_flatMap]
    conv_rhs => rw [← List.zipIdx_map_fst 0 ops]
    rw [List.map_map]
    rfl
  · intro h
    rw [if_pos fun he => h ((equivIdx_fst ..).1 he), (raiseLoop_eq ..).2 h]
    rfl

/-! ## The table -/

theorem inner_eq (cv : M3 K) (tol : K) (rs : List (V3 K)) (idx : List Nat) (ops : List (Op K)) (is : List Nat)
    (t : Table) :
    ((∀ i ∈ is, Good cv tol rs idx ops i) →
      is.foldlM (fun t i => (column cv tol rs idx ops i).map fun c => setColumn t i c) t =
        .ok fun s a => if a ∈ is then ((goodColumn cv tol rs idx ops a).getD s 0 : Int) else t s a) ∧
    ((¬ ∀ i ∈ is, Good cv tol rs idx ops i) →
      is.foldlM (fun t i => (column cv tol rs idx ops i).map fun c => setColumn t i c) t =
        .error .runtimeError) := by
  induction is generalizing t with
  | nil => simp; rfl
  | cons i is ih =>
    simp only [List.forall_mem_cons, List.foldlM_cons]
    constructor
    · rintro ⟨h1, h2⟩
      rw [(column_eq ..).1 h1]
      show List.foldlM _ _ is = _
      rw [(ih _).1 h2]
      congr 1
      funext s a
      unfold setColumn
      by_cases ha : a ∈ is
      · simp [ha]
      · by_cases hi : a = i
        · subst hi; simp [ha]
        · simp [ha, hi]
    · intro h
      by_cases h1 : Good cv tol rs idx ops i
      · rw [(column_eq ..).1 h1]
        show List.foldlM _ _ is = _
        exact (ih _).2 fun h2 => h ⟨h1, h2⟩
      · rw [(column_eq ..).2 h1]
        rfl

theorem outer_eq (cv : M3 K) (tol : K) (rs : List (V3 K)) (ops : List (Op K)) (D : List (String × List Nat))
    (t : Table)
    (hdis : D.Pairwise fun p q => ∀ i ∈ p.2, i ∉ q.2) :
    ((∀ p ∈ D, ∀ i ∈ p.2, Good cv tol rs p.2 ops i) →
      ∃ t', D.foldlM (fun t (p : String × List Nat) =>
        p.2.foldlM (fun t i => (column cv tol rs p.2 ops i).map fun c => setColumn t i c) t) t = .ok t' ∧
        (∀ p ∈ D, ∀ i ∈ p.2, ∀ s, t' s i = ((goodColumn cv tol rs p.2 ops i).getD s 0 : Int)) ∧
        ∀ i, (∀ p ∈ D, i ∉ p.2) → ∀ s, t' s i = t s i) ∧
    ((¬ ∀ p ∈ D, ∀ i ∈ p.2, Good cv tol rs p.2 ops i) →
      D.foldlM (fun t (p : String × List Nat) =>
        p.2.foldlM (fun t i => (column cv tol rs p.2 ops i).map fun c => setColumn t i c) t) t =
        .error .runtimeError) := by
  induction D generalizing t with
  | nil => exact ⟨fun _ => ⟨t, rfl, by simp, fun _ _ _ => rfl⟩, by simp⟩
  | cons p D ih =>
    rw [List.pairwise_cons] at hdis
    simp only [List.foldlM_cons]
    constructor
    · intro h
      rw [List.forall_mem_cons] at h
      rw [(inner_eq ..).1 h.1]
      obtain ⟨t', h1, h2, h3⟩ := (ih (fun s a => if a ∈ p.2 then
        ((goodColumn cv tol rs p.2 ops a).getD s 0 : Int) else t s a) hdis.2).1 h.2
      refine ⟨t', h1, ?_, ?_⟩
      · rw [List.forall_mem_cons]
        refine ⟨fun i hi s => ?_, h2⟩
        rw [h3 i (fun q hq => hdis.1 q hq i hi), if_pos hi]
      · intro i hi s
        rw [List.forall_mem_cons] at hi
        rw [h3 i hi.2, if_neg hi.1]
    · intro h
      by_cases hp : ∀ i ∈ p.2, Good cv tol rs p.2 ops i
      · rw [(inner_eq ..).1 hp]
        refine (ih _ hdis.2).2 fun h2 => h ?_
        rw [List.forall_mem_cons]
        exact ⟨hp, h2⟩
      · rw [(inner_eq ..).2 hp]
        rfl

theorem species_disjoint (types : List String) :
    (uniqueElemsAndIdx types).Pairwise fun p q => ∀ i ∈ p.2, i ∉ q.2 := by
  obtain ⟨h1, -, -, h4⟩ := C33_species_idx types
  have h5 : (uniqueElemsAndIdx types).Pairwise fun p q => p.1 ≠ q.1 := by
    rw [List.Nodup, List.pairwise_map] at h1
    exact h1
  refine h5.imp_of_mem ?_
  intro p q hp hq hne i hi hi'
  have e1 := ((h4 p.1 p.2 hp).2.2 i).1 hi
  have e2 := ((h4 q.1 q.2 hq).2.2 i).1 hi'
  rw [e1] at e2
  exact hne (Option.some.inj e2)

/-- The list of close atoms of a species has one element iff one atom matches. -/
theorem closeTo_spec (cv : M3 K) (types : List String) (rs : List (V3 K)) (tol : K) (hlen : types.length = rs.length)
    (e : String) (idx : List Nat) (hidx : (e, idx) ∈ uniqueElemsAndIdx types) (op : Op K) (i : Nat)
    (hi : i ∈ idx) :
    (∀ k, k ∈ closeTo cv tol rs idx op (rs.getD i ⟨0, 0, 0⟩) ↔
      k < idx.length ∧ Matches cv types rs tol op i (idx.getD k 0)) ∧
    ((closeTo cv tol rs idx op (rs.getD i ⟨0, 0, 0⟩)).length = 1 ↔ ∃! j, Matches cv types rs tol op i j) ∧
    ((closeTo cv tol rs idx op (rs.getD i ⟨0, 0, 0⟩)).length = 1 →
      Matches cv types rs tol op i
        (idx.getD ((closeTo cv tol rs idx op (rs.getD i ⟨0, 0, 0⟩)).headD 0) 0)) := by
  obtain ⟨-, -, -, h4⟩ := C33_species_idx types
  obtain ⟨hsort, -, hmem⟩ := h4 e idx hidx
  have hti := (hmem i).1 hi
  have hilt : i < rs.length := by
    rw [← hlen]; exact (List.getElem?_eq_some_iff.1 hti).1
  have hri : rs.getD i ⟨0, 0, 0⟩ = rs[i] := List.getD_eq_getElem _ _ hilt
  have key : ∀ k, k ∈ closeTo cv tol rs idx op (rs.getD i ⟨0, 0, 0⟩) ↔
      k < idx.length ∧ Matches cv types rs tol op i (idx.getD k 0) := by
    intro k
    unfold closeTo
    rw [List.mem_filter, List.mem_range, close_iff, act_eq, hri]
    refine and_congr_right fun hk => ?_
    have hkm : idx.getD k 0 ∈ idx := by
      rw [List.getD_eq_getElem _ _ hk]; exact List.getElem_mem hk
    have htk := (hmem _).1 hkm
    have hklt : idx.getD k 0 < rs.length := by
      rw [← hlen]; exact (List.getElem?_eq_some_iff.1 htk).1
    constructor
    · intro h
      refine ⟨hilt, hklt, by rw [hti, htk], ?_⟩
      rwa [List.getD_eq_getElem _ _ hklt] at h
    · rintro ⟨_, _, _, h⟩
      rwa [List.getD_eq_getElem _ _ hklt]
  have hnd : idx.Nodup := hsort.imp fun h => Nat.ne_of_lt h
  have hinj : ∀ k k', k < idx.length → k' < idx.length → idx.getD k 0 = idx.getD k' 0 → k = k' := by
    intro k k' hk hk' h
    rw [List.getD_eq_getElem _ _ hk, List.getD_eq_getElem _ _ hk'] at h
    exact (List.Nodup.getElem_inj_iff hnd).1 h
  have hsurj : ∀ j, Matches cv types rs tol op i j → ∃ k, k < idx.length ∧ idx.getD k 0 = j := by
    rintro j ⟨_, _, ht, _⟩
    rw [hti] at ht
    obtain ⟨k, hk, hkj⟩ := List.getElem_of_mem ((hmem j).2 ht.symm)
    exact ⟨k, hk, by rw [List.getD_eq_getElem _ _ hk, hkj]⟩
  have hcnd : (closeTo cv tol rs idx op (rs.getD i ⟨0, 0, 0⟩)).Nodup := List.nodup_range.filter _
  generalize closeTo cv tol rs idx op (rs.getD i ⟨0, 0, 0⟩) = L at key hcnd ⊢
  refine ⟨key, ⟨?_, ?_⟩, ?_⟩
  · intro h1
    obtain ⟨k, rfl⟩ := List.length_eq_one_iff.1 h1
    have hk := (key k).1 (by simp)
    refine ⟨idx.getD k 0, hk.2, ?_⟩
    intro j hj
    obtain ⟨k', hk', rfl⟩ := hsurj j hj
    have := (key k').2 ⟨hk', hj⟩
    rw [List.mem_singleton] at this
    rw [this]
  · rintro ⟨j, hj, hu⟩
    obtain ⟨k, hk, rfl⟩ := hsurj j hj
    rw [List.length_eq_one_iff]
    refine ⟨k, ?_⟩
    have hall : ∀ k', k' ∈ L ↔ k' = k := by
      intro k'
      rw [key]
      constructor
      · rintro ⟨h1, h2⟩
        exact hinj _ _ h1 hk (hu _ h2)
      · rintro rfl; exact ⟨hk, hj⟩
    have := (List.perm_ext_iff_of_nodup hcnd (List.nodup_singleton k)).2 (by simpa using hall)
    exact List.perm_singleton.1 this
  · intro h1
    obtain ⟨k, rfl⟩ := List.length_eq_one_iff.1 h1
    exact ((key k).1 (by simp)).2

theorem good_iff (cv : M3 K) (types : List String) (rs : List (V3 K)) (tol : K) (hlen : types.length = rs.length)
    (ops : List (Op K)) :
    (∀ p ∈ uniqueElemsAndIdx types, ∀ i ∈ p.2, Good cv tol rs p.2 ops i) ↔
      ∀ op ∈ ops, ∀ i, i < rs.length → ∃! j, Matches cv types rs tol op i j := by
  constructor
  · intro h op hop i hi
    obtain ⟨e, ⟨idx, h1, h2⟩, -⟩ := C33_partition types i (by omega)
    exact (closeTo_spec cv types rs tol hlen e idx h1 op i h2).2.1.1 (h (e, idx) h1 i h2 op hop)
  · intro h p hp i hi op hop
    obtain ⟨-, -, -, h4⟩ := C33_species_idx types
    have h5 := ((h4 p.1 p.2 hp).2.2 i).1 hi
    have hlt : i < rs.length := by rw [← hlen]; exact (List.getElem?_eq_some_iff.1 h5).1
    exact (closeTo_spec cv types rs tol hlen p.1 p.2 hp op i hi).2.1.2 (h op hop i hlt)

/-- **C75.** A table is returned exactly if for every operation every atom has one and only one match (an atom of
its species at the place where the operation takes it); otherwise, and if no operations were found,
`RuntimeError` is raised. -/
theorem C75_outcome (cv : M3 K) (types : List String) (rs : List (V3 K)) (tol : K)
    (hlen : types.length = rs.length) :
    equivalentAtoms cv types rs tol none = .error .runtimeError ∧
    ∀ ops : List (Op K),
      ((∃ T, equivalentAtoms cv types rs tol (some ops) = .ok T) ↔
        ∀ op ∈ ops, ∀ i, i < rs.length → ∃! j, Matches cv types rs tol op i j) ∧
      ((¬ ∃ T, equivalentAtoms cv types rs tol (some ops) = .ok T) →
        equivalentAtoms cv types rs tol (some ops) = .error .runtimeError) := by
  refine ⟨rfl, fun ops => ?_⟩
  have ho := outer_eq cv tol rs ops (uniqueElemsAndIdx types) (fun _ _ => -1) (species_disjoint types)
  rw [← good_iff cv types rs tol hlen ops]
  constructor
  · constructor
    · rintro ⟨T, hT⟩
      by_contra hc
      have : equivalentAtoms cv types rs tol (some ops) = .error .runtimeError := ho.2 hc
      rw [this] at hT
      cases hT
    · intro h
      obtain ⟨t, h1, -⟩ := ho.1 h
      exact ⟨t, h1⟩
  · intro h
    refine ho.2 fun hc => h ?_
    obtain ⟨t, h1, -⟩ := ho.1 hc
    exact ⟨t, h1⟩

/-- **C75.** The returned table names for every operation and atom the one atom that matches. -/
theorem C75_table (cv : M3 K) (types : List String) (rs : List (V3 K)) (tol : K)
    (hlen : types.length = rs.length) (ops : List (Op K)) (T : Table)
    (h : equivalentAtoms cv types rs tol (some ops) = .ok T) (s : Nat) (hs : s < ops.length) (i : Nat)
    (hi : i < rs.length) :
    ∃ j : Nat, T s i = j ∧ Matches cv types rs tol ops[s] i j ∧
      ∀ j', Matches cv types rs tol ops[s] i j' → j' = j := by
  have ho := outer_eq cv tol rs ops (uniqueElemsAndIdx types) (fun _ _ => -1) (species_disjoint types)
  by_cases hg : ∀ p ∈ uniqueElemsAndIdx types, ∀ i ∈ p.2, Good cv tol rs p.2 ops i
  · obtain ⟨t, h1, h2, -⟩ := ho.1 hg
    have h1' : equivalentAtoms cv types rs tol (some ops) = .ok t := h1
    rw [h] at h1'
    cases h1'
    obtain ⟨e, ⟨idx, h3, h4⟩, -⟩ := C33_partition types i (by omega)
    have h5 := h2 (e, idx) h3 i h4 s
    have hspec := closeTo_spec cv types rs tol hlen e idx h3 ops[s] i h4
    have h6 := hg (e, idx) h3 i h4 ops[s] (List.getElem_mem hs)
    refine ⟨_, h5, ?_, ?_⟩
    · have h7 : (goodColumn cv tol rs idx ops i).getD s 0 =
          idx.getD ((closeTo cv tol rs idx ops[s] (rs.getD i ⟨0, 0, 0⟩)).headD 0) 0 := by
        unfold goodColumn
        rw [List.getD_eq_getElem _ _ (by simpa using hs), List.getElem_map]
      rw [h7]
      exact hspec.2.2 h6
    · have h7 : (goodColumn cv tol rs idx ops i).getD s 0 =
          idx.getD ((closeTo cv tol rs idx ops[s] (rs.getD i ⟨0, 0, 0⟩)).headD 0) 0 := by
        unfold goodColumn
        rw [List.getD_eq_getElem _ _ (by simpa using hs), List.getElem_map]
      intro j' hj'
      rw [h7]
      exact (hspec.2.1.1 h6).unique hj' (hspec.2.2 h6)
  · have : equivalentAtoms cv types rs tol (some ops) = .error .runtimeError := ho.2 hg
    rw [this] at h
    cases h

/-- The identity. -/
def identity : Op K := ⟨⟨⟨1, 0, 0⟩, ⟨0, 1, 0⟩, ⟨0, 0, 1⟩⟩, ⟨0, 0, 0⟩⟩

/-- Specification: the two points differ by a lattice vector. -/
def LatticeEq (p q : V3 K) : Prop := ∃ m : V3 ℤ, p.x = q.x + m.x ∧ p.y = q.y + m.y ∧ p.z = q.z + m.z

theorem near_of_latticeEq (cv : M3 K) (tol : K) (ht : 0 < tol) (p q : V3 K) (h : LatticeEq p q) :
    Near cv tol p q := by
  obtain ⟨m, hx, hy, hz⟩ := h
  have hd : diffBy p q m = ⟨0, 0, 0⟩ := by
    simp only [diffBy, V3.mk.injEq]; refine ⟨?_, ?_, ?_⟩ <;> linarith
  refine ⟨m, ?_, ht, ?_⟩
  · rw [hd]; simp only [Reduced]; norm_num
  · rw [hd]; simp only [lengthSq]
    have : 0 < tol ^ 2 := by positivity
    simpa using this

theorem latticeEq_refl (p : V3 K) : LatticeEq p p := ⟨⟨0, 0, 0⟩, by simp⟩

/-- **C75.** In a returned table the identity takes every atom to itself. -/
theorem C75_identity (cv : M3 K) (types : List String) (rs : List (V3 K)) (tol : K)
    (hlen : types.length = rs.length) (ops : List (Op K)) (T : Table)
    (h : equivalentAtoms cv types rs tol (some ops) = .ok T) (s : Nat) (hs : s < ops.length)
    (hid : ops[s] = identity) (i : Nat) (hi : i < rs.length) : T s i = i := by
  obtain ⟨j, h1, ⟨_, _, _, h2⟩, h3⟩ := C75_table cv types rs tol hlen ops T h s hs i hi
  obtain ⟨m, _, ht, _⟩ := h2
  rw [h1, h3 i ⟨hi, hi, rfl, ?_⟩]
  apply near_of_latticeEq cv tol ht
  rw [hid]
  have : image identity rs[i] = rs[i] := by
    obtain ⟨x, y, z⟩ := rs[i]
    simp [image, identity]
  rw [this]
  exact latticeEq_refl _

/-- **C75.** Atoms are mapped to atoms of the same species, and the image of the atom is, up to a lattice vector,
nearer than the tolerance to the atom named. -/
theorem C75_same_species (cv : M3 K) (types : List String) (rs : List (V3 K)) (tol : K)
    (hlen : types.length = rs.length) (ops : List (Op K)) (T : Table)
    (h : equivalentAtoms cv types rs tol (some ops) = .ok T) (s : Nat) (hs : s < ops.length) (i : Nat)
    (hi : i < rs.length) :
    ∃ (j : Nat) (_ : j < rs.length) (m : V3 ℤ), T s i = j ∧ types[j]? = types[i]? ∧
      lengthSq cv (diffBy (image ops[s] rs[i]) rs[j] m) < tol ^ 2 := by
  obtain ⟨j, h1, ⟨_, h2, h3, m, _, _, h4⟩, -⟩ := C75_table cv types rs tol hlen ops T h s hs i hi
  exact ⟨j, h2, m, h1, h3.symm, h4⟩

/-- Specification: the operation maps the crystal exactly to itself. -/
def IsSymmetry (types : List String) (rs : List (V3 K)) (op : Op K) : Prop :=
  ∀ i (hi : i < rs.length), ∃ j, ∃ hj : j < rs.length, types[i]? = types[j]? ∧ LatticeEq (image op rs[i]) rs[j]

/-- Specification: no two atoms of one species are nearer than the tolerance. -/
def Separated (cv : M3 K) (types : List String) (rs : List (V3 K)) (tol : K) : Prop :=
  ∀ i j (hi : i < rs.length) (hj : j < rs.length), types[i]? = types[j]? → Near cv tol rs[i] rs[j] → i = j

/-- Specification: an integer matrix with integer inverse. -/
def Unimodular (W : M3 ℤ) : Prop :=
  ∃ V : M3 ℤ, ∀ v : V3 ℤ, (⟨dot V.a ⟨dot W.a v, dot W.b v, dot W.c v⟩, dot V.b ⟨dot W.a v, dot W.b v, dot W.c v⟩,
    dot V.c ⟨dot W.a v, dot W.b v, dot W.c v⟩⟩ : V3 ℤ) = v
where
  /-- Scalar product of integer vectors. -/
  dot (u v : V3 ℤ) : ℤ := u.x * v.x + u.y * v.y + u.z * v.z

theorem near_latticeEq (cv : M3 K) (tol : K) (p q r : V3 K) (h : LatticeEq p q) (hn : Near cv tol p r) :
    Near cv tol q r := by
  obtain ⟨m, hx, hy, hz⟩ := h
  obtain ⟨k, h1, h2, h3⟩ := hn
  have he : diffBy q r ⟨k.x - m.x, k.y - m.y, k.z - m.z⟩ = diffBy p r k := by
    simp only [diffBy, V3.mk.injEq]; push_cast
    refine ⟨?_, ?_, ?_⟩ <;> linarith
  exact ⟨_, he ▸ h1, h2, he ▸ h3⟩

/-- **C75.** If all operations are exact symmetries of the crystal and atoms of one species are separated by more
than the tolerance, a table is returned. -/
theorem C75_symmetric_ok (cv : M3 K) (types : List String) (rs : List (V3 K)) (tol : K) (ht : 0 < tol)
    (hlen : types.length = rs.length) (ops : List (Op K)) (hsym : ∀ op ∈ ops, IsSymmetry types rs op)
    (hsep : Separated cv types rs tol) : ∃ T, equivalentAtoms cv types rs tol (some ops) = .ok T := by
  rw [((C75_outcome cv types rs tol hlen).2 ops).1]
  intro op hop i hi
  obtain ⟨j, hj, h1, h2⟩ := hsym op hop i hi
  refine ⟨j, ⟨hi, hj, h1, near_of_latticeEq cv tol ht _ _ h2⟩, ?_⟩
  rintro j' ⟨_, hj', h3, h4⟩
  exact (hsep j j' hj hj' (by rw [← h1, h3]) (near_latticeEq cv tol _ _ _ h2 h4)).symm

/-- **C75.** Then every operation with an integer inverse acts as a permutation: different atoms are mapped to
different atoms (so every atom is reached). -/
theorem C75_permutation (cv : M3 K) (types : List String) (rs : List (V3 K)) (tol : K)
    (hlen : types.length = rs.length) (ops : List (Op K)) (hsep : Separated cv types rs tol)
    (hsym : ∀ op ∈ ops, IsSymmetry types rs op) (T : Table)
    (h : equivalentAtoms cv types rs tol (some ops) = .ok T) (s : Nat) (hs : s < ops.length)
    (hW : Unimodular ops[s].W) (i i' : Nat) (hi : i < rs.length) (hi' : i' < rs.length)
    (he : T s i = T s i') : i = i' := by
  have key : ∀ i (hi : i < rs.length), ∃ j, ∃ hj : j < rs.length, T s i = j ∧ types[i]? = types[j]? ∧
      LatticeEq (image ops[s] rs[i]) rs[j] ∧ 0 < tol := by
    intro i hi
    obtain ⟨j, h1, ⟨_, _, _, _, _, ht, _⟩, h3⟩ := C75_table cv types rs tol hlen ops T h s hs i hi
    obtain ⟨j', hj', h4, h5⟩ := hsym ops[s] (List.getElem_mem hs) i hi
    have := h3 j' ⟨hi, hj', h4, near_of_latticeEq cv tol ht _ _ h5⟩
    subst this
    exact ⟨j', hj', h1, h4, h5, ht⟩
  obtain ⟨j, hj, h1, h2, ⟨m, mx, my, mz⟩, ht⟩ := key i hi
  obtain ⟨j', hj', h1', h2', ⟨m', mx', my', mz'⟩, -⟩ := key i' hi'
  have hjj : j = j' := by
    rw [h1, h1'] at he
    exact_mod_cast he
  subst hjj
  refine hsep i i' hi hi' (by rw [h2, h2']) (near_of_latticeEq cv tol ht _ _ ?_)
  obtain ⟨V, hV⟩ := hW
  -- the rows of V W are those of the identity
  have e1 := hV ⟨1, 0, 0⟩
  have e2 := hV ⟨0, 1, 0⟩
  have e3 := hV ⟨0, 0, 1⟩
  simp only [Unimodular.dot, V3.mk.injEq, mul_one, mul_zero, add_zero, zero_add] at e1 e2 e3
  generalize ops[s] = op at *
  simp only [image] at mx my mz mx' my' mz'
  set d : V3 ℤ := ⟨m.x - m'.x, m.y - m'.y, m.z - m'.z⟩ with hd
  have c1 : ∀ {a b : ℤ}, a = b → (a : K) = (b : K) := fun h => by rw [h]
  refine ⟨⟨V.a.x * d.x + V.a.y * d.y + V.a.z * d.z, V.b.x * d.x + V.b.y * d.y + V.b.z * d.z,
    V.c.x * d.x + V.c.y * d.y + V.c.z * d.z⟩, ?_, ?_, ?_⟩
  · have f1 := c1 e1.1
    have f2 := c1 e2.1
    have f3 := c1 e3.1
    push_cast [hd] at f1 f2 f3 ⊢
    linear_combination (-(rs[i].x - rs[i'].x)) * f1 - (rs[i].y - rs[i'].y) * f2 - (rs[i].z - rs[i'].z) * f3
      + (V.a.x : K) * (mx - mx') + (V.a.y : K) * (my - my') + (V.a.z : K) * (mz - mz')
  · have f1 := c1 e1.2.1
    have f2 := c1 e2.2.1
    have f3 := c1 e3.2.1
    push_cast [hd] at f1 f2 f3 ⊢
    linear_combination (-(rs[i].x - rs[i'].x)) * f1 - (rs[i].y - rs[i'].y) * f2 - (rs[i].z - rs[i'].z) * f3
      + (V.b.x : K) * (mx - mx') + (V.b.y : K) * (my - my') + (V.b.z : K) * (mz - mz')
  · have f1 := c1 e1.2.2
    have f2 := c1 e2.2.2
    have f3 := c1 e3.2.2
    push_cast [hd] at f1 f2 f3 ⊢
    linear_combination (-(rs[i].x - rs[i'].x)) * f1 - (rs[i].y - rs[i'].y) * f2 - (rs[i].z - rs[i'].z) * f3
      + (V.c.x : K) * (mx - mx') + (V.c.y : K) * (my - my') + (V.c.z : K) * (mz - mz')

/-! ## Example: rock salt like square arrangement with a fourfold screw operation -/

/-- Two sodium and two chlorine atoms in a plane. -/
def exRs : List (V3 ℚ) := [⟨0, 0, 0⟩, ⟨1/2, 1/2, 0⟩, ⟨1/2, 0, 0⟩, ⟨0, 1/2, 0⟩]

/-- Species of the example. -/
def exTypes : List String := ["Na", "Na", "Cl", "Cl"]

/-- Cell of the example. -/
def exCv : M3 ℚ := ⟨⟨8, 0, 0⟩, ⟨0, 8, 0⟩, ⟨0, 0, 6⟩⟩

/-- Rotation by 90 degrees, and the same followed by a shift by half of the diagonal. -/
def exOps : List (Op ℚ) := [identity, ⟨⟨⟨0, -1, 0⟩, ⟨1, 0, 0⟩, ⟨0, 0, 1⟩⟩, ⟨0, 0, 0⟩⟩,
  ⟨⟨⟨0, -1, 0⟩, ⟨1, 0, 0⟩, ⟨0, 0, 1⟩⟩, ⟨1/2, 1/2, 0⟩⟩]

/-- The table of the example as a list of rows. -/
def rows (T : Except Err Table) (ns n : Nat) : Except Err (List (List Int)) :=
  T.map fun t => (List.range ns).map fun s => (List.range n).map (t s)

example : rows (equivalentAtoms exCv exTypes exRs (1/100) (some exOps)) 3 4 =
    .ok [[0, 1, 2, 3], [0, 1, 3, 2], [1, 0, 2, 3]] := by decide +kernel

/-- An operation that is no symmetry raises; so does a tolerance that is too large. -/
example : rows (equivalentAtoms exCv exTypes exRs (1/100) (some [⟨(identity (K := ℚ)).W, ⟨1/4, 0, 0⟩⟩])) 1 4 =
      .error .runtimeError ∧
    rows (equivalentAtoms exCv exTypes exRs 7 (some [identity])) 1 4 = .error .runtimeError := by decide +kernel

/-- The hypotheses of `C75_symmetric_ok` and `C75_permutation` hold for the example. -/
example : Separated exCv exTypes exRs (1/100) ∧ IsSymmetry exTypes exRs ⟨⟨⟨0, -1, 0⟩, ⟨1, 0, 0⟩, ⟨0, 0, 1⟩⟩, ⟨1/2, 1/2, 0⟩⟩ := by
  constructor
  · intro i j hi hj ht hn
    rw [← close_iff, ← List.getD_eq_getElem _ ⟨0, 0, 0⟩ hi, ← List.getD_eq_getElem _ ⟨0, 0, 0⟩ hj] at hn
    have hc : ∀ i < 4, ∀ j < 4, normLt (toCart exCv (wrapV (sub (wrapV (exRs.getD i ⟨0, 0, 0⟩))
        (exRs.getD j ⟨0, 0, 0⟩)))) (1 / 100) = true → i = j := by decide +kernel
    exact hc i hi j hj hn
  · intro i hi
    simp only [exRs, List.length_cons, List.length_nil] at hi
    interval_cases i
    · exact ⟨1, by decide, by decide, ⟨0, 0, 0⟩, by norm_num [exRs, image]⟩
    · exact ⟨0, by decide, by decide, ⟨0, 1, 0⟩, by norm_num [exRs, image]⟩
    · exact ⟨2, by decide, by decide, ⟨0, 1, 0⟩, by norm_num [exRs, image]⟩
    · exact ⟨3, by decide, by decide, ⟨0, 0, 0⟩, by norm_num [exRs, image]⟩

example : Unimodular ⟨⟨0, -1, 0⟩, ⟨1, 0, 0⟩, ⟨0, 0, 1⟩⟩ := by
  refine ⟨⟨⟨0, 1, 0⟩, ⟨-1, 0, 0⟩, ⟨0, 0, 1⟩⟩, ?_⟩
  rintro ⟨x, y, z⟩
  simp only [Unimodular.dot, V3.mk.injEq]
  refine ⟨?_, ?_, ?_⟩ <;> ring

end Euphonic.Symmetry
