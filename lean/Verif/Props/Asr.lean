import Verif.Model.Asr
import Verif.Props.DynMat
import Verif.Props.Supercell

/-! # C48: acoustic sum rule corrections -/

set_option autoImplicit false
set_option linter.unusedSectionVars false

namespace Euphonic.Asr

open Euphonic.Lattice Euphonic.DynMat Euphonic.Supercell Euphonic.Phases Euphonic.Images

variable {ι : Type} [Fintype ι] {M : Nat}

/-! ## Selection of the acoustic modes -/

/-- **C48.** The modes selected are three different ones, each with a centre-of-mass displacement above the
limit, and no other mode has a larger displacement. -/
theorem C48_selection (nAtoms : Nat) (dir : ι → Fin 3) (evecs : Fin M → ι → ℂ) (ac : List (Fin M))
    (h : acoustic nAtoms dir evecs = some ac) :
    ac.length = 3 ∧ ac.Nodup
    ∧ (∀ s ∈ ac, (nAtoms : ℝ) / 2 < comSq dir (evecs s))
    ∧ ∀ s ∈ ac, ∀ s', s' ∉ ac → comSq dir (evecs s') ≤ comSq dir (evecs s) := by
  unfold acoustic at h
  dsimp only at h
  split at h
  · cases h
  rename_i hcount
  simp only [Option.some.injEq] at h
  set c := fun s => comSq dir (evecs s) with hc
  set le := fun s s' : Fin M => decide (c s ≤ c s') with hle
  set srt := (List.finRange M).mergeSort le with hsrt
  have hperm : srt.Perm (List.finRange M) := List.mergeSort_perm _ _
  have hlen : srt.length = M := by rw [hperm.length_eq, List.length_finRange]
  have hnd : srt.Nodup := hperm.nodup_iff.2 (List.nodup_finRange M)
  have hM : 3 ≤ M := by
    have h1 : ((List.finRange M).filter fun s => decide (c s > 1 / 2 * (nAtoms : ℝ))).length
        ≤ (List.finRange M).length := List.length_filter_le _ _
    rw [List.length_finRange] at h1
    exact (not_lt.1 hcount).trans h1
  have hsorted : srt.Pairwise fun a b => c a ≤ c b := by
    have := List.pairwise_mergeSort (le := le) (fun a b d h1 h2 => by
      simp only [hle, decide_eq_true_eq] at *; linarith) (fun a b => by
      simp only [hle, Bool.or_eq_true, decide_eq_true_eq]; exact le_total _ _) (List.finRange M)
    exact this.imp fun h => by simpa [hle] using h
  have hsplit : srt.take (M - 3) ++ srt.drop (M - 3) = srt := List.take_append_drop _ _
  rw [h] at hsplit
  have hlen3 : ac.length = 3 := by
    rw [← h, List.length_drop, hlen]
    omega
  rw [← hsplit] at hsorted hnd
  rw [List.pairwise_append] at hsorted
  refine ⟨hlen3, (List.nodup_append.1 hnd).2.1, ?_, ?_⟩
  · intro s hs
    by_contra hlt
    rw [not_lt] at hlt
    -- everything before `s` is small too, so at most two modes are large
    obtain ⟨k, hk, rfl⟩ := List.getElem_of_mem hs
    have hall : ((List.finRange M).filter fun s => decide (c s > 1 / 2 * (nAtoms : ℝ))).length ≤
        (ac.drop (k + 1)).length := by
      rw [← (hperm.filter _).length_eq, ← hsplit, List.filter_append, List.length_append]
      have h0 : (List.filter (fun s => decide (c s > 1 / 2 * (nAtoms : ℝ))) (srt.take (M - 3))) = [] := by
        rw [List.filter_eq_nil_iff]
        intro a ha
        have := hsorted.2.2 a ha ac[k] hs
        simp only [decide_eq_true_eq, not_lt, gt_iff_lt]
        have h2 : c ac[k] ≤ (nAtoms : ℝ) / 2 := hlt
        linarith
      rw [h0, List.length_nil, zero_add]
      conv_lhs => rw [← List.take_append_drop (k + 1) ac, List.filter_append, List.length_append]
      have h1 : (List.filter (fun s => decide (c s > 1 / 2 * (nAtoms : ℝ))) (ac.take (k + 1))) = [] := by
        rw [List.filter_eq_nil_iff]
        intro a ha
        have hle' : c a ≤ c ac[k] := by
          obtain ⟨j, hj, rfl⟩ := List.getElem_of_mem ha
          rw [List.length_take] at hj
          rw [List.getElem_take]
          rcases Nat.lt_or_ge j k with hjk | hjk
          · exact List.pairwise_iff_getElem.1 hsorted.2.1 j k (by omega) hk hjk
          · have : j = k := by omega
            subst this
            exact le_rfl
        simp only [decide_eq_true_eq, not_lt, gt_iff_lt]
        have h2 : c ac[k] ≤ (nAtoms : ℝ) / 2 := hlt
        linarith
      rw [h1, List.length_nil, zero_add]
      exact List.length_filter_le _ _
    rw [List.length_drop, hlen3] at hall
    have hcount' := not_lt.1 hcount
    change 3 ≤ ((List.finRange M).filter fun s => decide (c s > 1 / 2 * (nAtoms : ℝ))).length at hcount'
    omega
  · intro s hs s' hs'
    have hmem : s' ∈ srt := hperm.mem_iff.2 (List.mem_finRange s')
    rw [← hsplit, List.mem_append] at hmem
    rcases hmem with hm | hm
    · exact hsorted.2.2 s' hm s hs
    · exact absurd hm hs'

/-! ## Rank-one corrections -/

theorem sum_mul_list {β : Type} (l : List β) (f : β → ι → ℂ) (v : ι → ℂ) :
    ∑ k, (l.map fun s => f s k).sum * v k = (l.map fun s => ∑ k, f s k * v k).sum := by
  induction l with
  | nil => simp
  | cons a l ih => simp [add_mul, Finset.sum_add_distrib, ih]

theorem sum_mul_mapIdx {β : Type} (l : List β) (f : Nat → β → ι → ℂ) (v : ι → ℂ) :
    ∑ k, (l.mapIdx fun i s => f i s k).sum * v k = (l.mapIdx fun i s => ∑ k, f i s k * v k).sum := by
  induction l generalizing f with
  | nil => simp
  | cons a l ih =>
    simp only [List.mapIdx_cons, List.sum_cons, add_mul, Finset.sum_add_distrib]
    rw [ih fun i => f (i + 1)]

/-- Only the term of the selected mode survives. -/
theorem sum_mapIdx_single (ac : List (Fin M)) (hn : ac.Nodup) (g : Nat → Fin M → ℂ) (i : Nat)
    (hi : i < ac.length) :
    (ac.mapIdx fun j s => if s = ac[i] then g j s else 0).sum = g i ac[i] := by
  induction ac generalizing i g with
  | nil => simp at hi
  | cons a ac ih =>
    rw [List.nodup_cons] at hn
    rw [List.mapIdx_cons, List.sum_cons]
    cases i with
    | zero =>
      simp only [List.getElem_cons_zero, if_true]
      have : (ac.mapIdx fun j s => if s = a then g (j + 1) s else 0) = ac.mapIdx fun _ _ => 0 := by
        apply List.ext_getElem
        · simp
        · intro k h1 h2
          rw [List.getElem_mapIdx, List.getElem_mapIdx, if_neg]
          intro e
          exact hn.1 (e ▸ List.getElem_mem _)
      rw [this]
      have hz : ∀ l : List (Fin M), (l.mapIdx fun _ _ => (0 : ℂ)).sum = 0 := by
        intro l
        induction l with
        | nil => simp
        | cons x l ih => rw [List.mapIdx_cons, List.sum_cons, ih, add_zero]
      rw [hz, add_zero]
    | succ i =>
      simp only [List.getElem_cons_succ]
      have hne : a ≠ ac[i]'(by simpa using hi) := by
        intro e
        exact hn.1 (e ▸ List.getElem_mem _)
      rw [if_neg hne, zero_add, ih hn.2 (fun j => g (j + 1)) i (by simpa using hi)]

/-- **C48 (partial).** If the eigensolver returns real acoustic eigenvectors, the corrected matrix is
Hermitian, the acoustic eigenvectors get the eigenvalues `0, -5e-15, -1e-14`, and the matrix is unchanged on
every vector orthogonal to them.  Missing: complex eigenvectors, for which this fails
(`C48_complex_eigenvectors`). -/
theorem C48_reciprocal_partial (nAtoms : Nat) (dir : ι → Fin 3) (A : ι → ι → ℂ) (evals : Fin M → ℝ)
    (evecs : Fin M → ι → ℂ) (hA : ∀ k l, A l k = star (A k l))
    (hortho : ∀ s s', ∑ k, star (evecs s k) * evecs s' k = if s = s' then 1 else 0)
    (heig : ∀ s k, ∑ l, A k l * evecs s l = evals s * evecs s k)
    (corr : ι → ι → ℂ) (hcorr : enforceReciprocal nAtoms dir evals evecs = some corr)
    (hreal : ∀ s k, star (evecs s k) = evecs s k) :
    (∀ k l, A l k + corr l k = star (A k l + corr k l))
    ∧ ∃ ac : List (Fin M), acoustic nAtoms dir evecs = some ac ∧ ac.length = 3 ∧
      (∀ i (hi : i < ac.length) k, ∑ l, (A k l + corr k l) * evecs ac[i] l
        = ((-(5 / 10 ^ 15 * i) : ℝ) : ℂ) * evecs ac[i] k)
      ∧ ∀ v : ι → ℂ, (∀ s ∈ ac, ∑ k, star (evecs s k) * v k = 0) →
        ∀ k, ∑ l, (A k l + corr k l) * v l = ∑ l, A k l * v l := by
  unfold enforceReciprocal at hcorr
  rw [Option.map_eq_some_iff] at hcorr
  obtain ⟨ac, hac, rfl⟩ := hcorr
  obtain ⟨hlen, hnd, -, -⟩ := C48_selection nAtoms dir evecs ac hac
  -- action of the correction on a vector
  have hact : ∀ (v : ι → ℂ) k, ∑ l, recipCorrection recipTol evals evecs ac k l * v l
      = -(ac.mapIdx fun i s => ((recipTol * i + evals s : ℝ) : ℂ) * evecs s k *
          ∑ l, star (evecs s l) * v l).sum := by
    intro v k
    unfold recipCorrection
    simp only [neg_mul, Finset.sum_neg_distrib]
    rw [sum_mul_mapIdx ac (fun i s l => ((recipTol * i + evals s : ℝ) : ℂ) * (evecs s k * evecs s l)) v]
    congr 2
    apply List.ext_getElem
    · simp
    · intro j h1 h2
      rw [List.getElem_mapIdx, List.getElem_mapIdx, Finset.mul_sum]
      refine Finset.sum_congr rfl fun l _ => ?_
      rw [hreal]
      ring
  refine ⟨?_, ac, hac, hlen, ?_, ?_⟩
  · intro k l
    rw [star_add, ← hA k l]
    congr 1
    unfold recipCorrection
    rw [star_neg, show star (ac.mapIdx fun i s => ((recipTol * i + evals s : ℝ) : ℂ) *
      (evecs s k * evecs s l)).sum = ((ac.mapIdx fun i s => ((recipTol * i + evals s : ℝ) : ℂ) *
      (evecs s k * evecs s l)).map star).sum from map_list_sum (starAddEquiv (R := ℂ)) _]
    congr 2
    apply List.ext_getElem
    · simp
    · intro j h1 h2
      simp only [List.getElem_mapIdx, List.getElem_map]
      have hr : ∀ x : ℝ, star (x : ℂ) = x := fun x => Complex.conj_ofReal x
      rw [star_mul', star_mul', hreal, hreal, hr]
      ring
  · intro i hi k
    simp only [add_mul, Finset.sum_add_distrib]
    rw [heig, hact]
    have : (ac.mapIdx fun j s => ((recipTol * j + evals s : ℝ) : ℂ) * evecs s k *
        ∑ l, star (evecs s l) * evecs ac[i] l)
        = ac.mapIdx fun j s => if s = ac[i] then ((recipTol * j + evals s : ℝ) : ℂ) * evecs s k else 0 := by
      apply List.ext_getElem
      · simp
      · intro j h1 h2
        rw [List.getElem_mapIdx, List.getElem_mapIdx, hortho]
        split
        · rw [mul_one]
        · rw [mul_zero]
    rw [this, sum_mapIdx_single ac hnd (fun j s => ((recipTol * j + evals s : ℝ) : ℂ) * evecs s k) i hi]
    unfold recipTol
    push_cast
    ring
  · intro v hv k
    simp only [add_mul, Finset.sum_add_distrib]
    rw [hact]
    have : (ac.mapIdx fun j s => ((recipTol * j + evals s : ℝ) : ℂ) * evecs s k *
        ∑ l, star (evecs s l) * v l) = ac.mapIdx fun _ _ => 0 := by
      apply List.ext_getElem
      · simp
      · intro j h1 h2
        rw [List.getElem_mapIdx, List.getElem_mapIdx, hv _ (List.getElem_mem _), mul_zero]
    rw [this]
    have hz : ∀ l : List (Fin M), (l.mapIdx fun _ _ => (0 : ℂ)).sum = 0 := by
      intro l
      induction l with
      | nil => simp
      | cons x l ih => rw [List.mapIdx_cons, List.sum_cons, ih, add_zero]
    rw [hz, neg_zero, add_zero]

/-- Eigenvectors of the identity matrix with the common phase `p`. -/
noncomputable def phased (p : ℂ) : Fin 3 → Fin 3 → ℂ := fun s k => if s = k then p else 0

theorem comSq_phased (p : ℂ) (hp : ‖p‖ = 1) (s : Fin 3) : comSq (id : Fin 3 → Fin 3) (phased p s) = 1 := by
  unfold comSq phased
  have : ∀ d, (∑ k, if id k = d then (if s = k then p else 0) else 0) = if s = d then p else 0 := by
    intro d
    simp
  simp only [this]
  rw [Finset.sum_eq_single s]
  · simp [hp]
  · intro d _ hd
    rw [if_neg (Ne.symm hd)]
    simp
  · simp

theorem acoustic_phased (p : ℂ) (hp : ‖p‖ = 1) :
    acoustic 1 (id : Fin 3 → Fin 3) (phased p) = some [0, 1, 2] := by
  unfold acoustic
  simp only [comSq_phased p hp]
  rw [if_neg (by norm_num)]
  congr 1
  rw [List.mergeSort_of_pairwise (by
    simp only [le_refl, decide_true]
    exact List.pairwise_of_forall fun _ _ => trivial)]
  rfl

theorem phased_spec (p : ℂ) (hp : ‖p‖ = 1) :
    (∀ s s', ∑ k, star (phased p s k) * phased p s' k = if s = s' then 1 else 0)
    ∧ ∀ s k, ∑ l, (if k = l then (1 : ℂ) else 0) * phased p s l = ((1 : ℝ) : ℂ) * phased p s k := by
  constructor
  · intro s s'
    unfold phased
    have hpp : star p * p = 1 := by
      rw [Complex.star_def, Complex.conj_mul', hp]
      simp
    rcases eq_or_ne s s' with rfl | h
    · rw [Complex.star_def] at hpp
      simp [hpp]
    · simp [h]
  · intro s k
    simp

/-- The hypotheses of the theorem are met by one atom and the real eigenvectors of the identity. -/
example : ∃ corr, enforceReciprocal 1 (id : Fin 3 → Fin 3) (fun _ => 1) (phased 1) = some corr
    ∧ ∀ s k, star (phased 1 s k) = phased 1 s k := by
  refine ⟨_, by unfold enforceReciprocal; rw [acoustic_phased 1 (by simp)]; rfl, ?_⟩
  intro s k
  unfold phased
  split <;> simp

/-- **C48, violation.** With the equally valid eigenvectors `i e_k` of the identity matrix the
correction doubles the acoustic eigenvalues (about `2` instead of `0`), because the outer product is not
conjugated. -/
theorem C48_complex_eigenvectors :
    (∀ s s', ∑ k, star (phased Complex.I s k) * phased Complex.I s' k = if s = s' then 1 else 0)
    ∧ (∀ s k, ∑ l, (if k = l then (1 : ℂ) else 0) * phased Complex.I s l
        = ((1 : ℝ) : ℂ) * phased Complex.I s k)
    ∧ ∃ corr, enforceReciprocal 1 (id : Fin 3 → Fin 3) (fun _ => 1) (phased Complex.I) = some corr
      ∧ ∀ k, ∑ l, ((if k = l then (1 : ℂ) else 0) + corr k l) * phased Complex.I 0 l
        = 2 * phased Complex.I 0 k := by
  refine ⟨(phased_spec _ (by simp)).1, (phased_spec _ (by simp)).2, _, by
    unfold enforceReciprocal; rw [acoustic_phased _ (by simp)]; rfl, ?_⟩
  intro k
  unfold recipCorrection phased
  fin_cases k <;>
    simp [Fin.sum_univ_three, recipTol, ← mul_assoc] <;> norm_num

/-! ## Real-space correction -/

variable {N n : Nat}

/-- **C48.** With the indices of `_get_supercell_relative_idx`, force constants that are symmetric under
exchanging atoms and reversing the cell vector give a symmetric square matrix, and its first block
column is the original array: the two rearrangements are inverse to each other. -/
theorem C48_square_matrix (S : M3 ℤ) (cells : Fin N → V3 ℤ) (hd : DistinctCells S cells)
    (fc : Fin N → Mat n ℝ) (op : Fin N → Fin N) (t : Fin N → V3 ℤ) (hs : Symmetric cells S fc op t)
    (rel : Fin N → Fin N → Fin N) (hrel : ∀ i j, IsTranslation S cells i j (rel i j)) (c0 : Fin N)
    (h0 : cells c0 = ⟨0, 0, 0⟩) :
    (∀ k l, sqFc fc rel k l = sqFc fc rel l k)
    ∧ ∀ c k l, sqFc fc rel (c, k) (c0, l) = fc c k l := by
  have hneg : ∀ c, InLattice S (add (cells (op c)) (cells c)) := by
    intro c
    refine ⟨neg (t c), ?_⟩
    rw [hs.origin c]
    simp only [neg, mulMat, V3.mk.injEq]
    refine ⟨?_, ?_, ?_⟩ <;> ring
  -- a difference of two lattice vectors is a lattice vector
  have hcomb : ∀ u v : V3 ℤ, InLattice S u → InLattice S v →
      InLattice S ⟨-u.x - v.x, -u.y - v.y, -u.z - v.z⟩ := by
    rintro u v ⟨a, rfl⟩ ⟨b, rfl⟩
    refine ⟨⟨-a.x - b.x, -a.y - b.y, -a.z - b.z⟩, ?_⟩
    simp only [mulMat, V3.mk.injEq]
    refine ⟨?_, ?_, ?_⟩ <;> ring
  have hop : ∀ i j, rel j i = op (rel i j) := by
    intro i j
    apply hd
    have h1 := hrel j i
    have h2 := hrel i j
    have h3 := hneg (rel i j)
    have h4 := hcomb _ _ h1 (hcomb _ _ h2 h3)
    unfold IsTranslation at h1 h2
    obtain ⟨a, ha⟩ := h1
    obtain ⟨b, hb⟩ := h2
    obtain ⟨e, he⟩ := h3
    refine ⟨⟨-a.x - b.x - e.x, -a.y - b.y - e.y, -a.z - b.z - e.z⟩, ?_⟩
    simp only [Lattice.sub, add, mulMat, V3.mk.injEq] at ha hb he ⊢
    refine ⟨?_, ?_, ?_⟩
    · linear_combination -ha.1 - hb.1 - he.1
    · linear_combination -ha.2.1 - hb.2.1 - he.2.1
    · linear_combination -ha.2.2 - hb.2.2 - he.2.2
  constructor
  · intro k l
    unfold sqFc
    rw [hop k.1 l.1]
    exact (hs.exchange _ _ _).symm
  · intro c k l
    unfold sqFc
    dsimp only
    rw [hop c0 c]
    have hc : rel c0 c = c := by
      apply hd
      obtain ⟨a, ha⟩ := hrel c0 c
      refine ⟨neg a, ?_⟩
      rw [h0] at ha
      simp only [Lattice.sub, neg, mulMat, V3.mk.injEq] at ha ⊢
      refine ⟨?_, ?_, ?_⟩
      · linear_combination -ha.1
      · linear_combination -ha.2.1
      · linear_combination -ha.2.2
    rw [hc]
    exact hs.exchange _ _ _

theorem fcTol_bounds (evals : Fin M → ℝ) : 0 ≤ fcTol evals
    ∧ ∀ s, fcTol evals ≤ 1 / 10 ^ 8 * |evals s| := by
  unfold fcTol
  cases hm : (List.ofFn fun s => |evals s|).min? with
  | none =>
    simp only [Option.getD_none, mul_zero, le_refl, true_and]
    intro s
    positivity
  | some m =>
    rw [List.min?_eq_some_iff] at hm
    simp only [Option.getD_some]
    constructor
    · obtain ⟨s, hs⟩ := (List.mem_ofFn' _ _).1 hm.1
      rw [← hs]
      positivity
    · intro s
      have := hm.2 |evals s| ((List.mem_ofFn' _ _).2 ⟨s, rfl⟩)
      have h8 : (0 : ℝ) ≤ 1 / 10 ^ 8 := by norm_num
      exact mul_le_mul_of_nonneg_left this h8

theorem sum_map_single (ac : List (Fin M)) (hn : ac.Nodup) (g : Fin M → ℝ) (s : Fin M) (hs : s ∈ ac) :
    (ac.map fun s' => if s' = s then g s' else 0).sum = g s := by
  induction ac with
  | nil => simp at hs
  | cons a ac ih =>
    rw [List.nodup_cons] at hn
    rw [List.map_cons, List.sum_cons]
    rcases List.mem_cons.1 hs with rfl | hs'
    · rw [if_pos rfl]
      have : (ac.map fun s' => if s' = s then g s' else 0) = ac.map fun _ => 0 := by
        apply List.map_congr_left
        intro x hx
        rw [if_neg]
        rintro rfl
        exact hn.1 hx
      rw [this]
      simp
    · rw [if_neg (by rintro rfl; exact hn.1 hs'), zero_add, ih hn.2 hs']

/-- **C48.** The corrected square matrix is symmetric, every acoustic eigenvector gets the eigenvalue
`-fc_tol` with `0 <= fc_tol <= 1e-8 |e|` for all eigenvalues `e`, and the matrix is unchanged on
vectors orthogonal to the acoustic ones. -/
theorem C48_realspace (sq : ι → ι → ℝ) (hsq : ∀ k l, sq k l = sq l k) (evals : Fin M → ℝ)
    (evecs : Fin M → ι → ℝ)
    (hortho : ∀ s s', ∑ k, evecs s k * evecs s' k = if s = s' then 1 else 0)
    (heig : ∀ s k, ∑ l, sq k l * evecs s l = evals s * evecs s k) (ac : List (Fin M)) (hnd : ac.Nodup) :
    (∀ k l, realCorrected sq evals evecs ac k l = realCorrected sq evals evecs ac l k)
    ∧ (∃ tol : ℝ, 0 ≤ tol ∧ (∀ s, tol ≤ 1 / 10 ^ 8 * |evals s|) ∧
      ∀ s ∈ ac, ∀ k, ∑ l, realCorrected sq evals evecs ac k l * evecs s l = -tol * evecs s k)
    ∧ ∀ v : ι → ℝ, (∀ s ∈ ac, ∑ k, evecs s k * v k = 0) →
      ∀ k, ∑ l, realCorrected sq evals evecs ac k l * v l = ∑ l, sq k l * v l := by
  have hact : ∀ (v : ι → ℝ) k, ∑ l, realCorrected sq evals evecs ac k l * v l
      = ∑ l, sq k l * v l - (ac.map fun s => (fcTol evals + evals s) * evecs s k *
          ∑ l, evecs s l * v l).sum := by
    intro v k
    unfold realCorrected
    simp only [sub_mul, Finset.sum_sub_distrib]
    congr 1
    have h1 : ∀ (l : List (Fin M)) (f : Fin M → ι → ℝ),
        ∑ k, (l.map fun s => f s k).sum * v k = (l.map fun s => ∑ k, f s k * v k).sum := by
      intro l f
      induction l with
      | nil => simp
      | cons a l ih => simp [add_mul, Finset.sum_add_distrib, ih]
    rw [h1 ac fun s l => (fcTol evals + evals s) * (evecs s k * evecs s l)]
    congr 1
    apply List.map_congr_left
    intro s _
    rw [Finset.mul_sum]
    refine Finset.sum_congr rfl fun l _ => ?_
    ring
  refine ⟨?_, ⟨fcTol evals, (fcTol_bounds evals).1, (fcTol_bounds evals).2, ?_⟩, ?_⟩
  · intro k l
    unfold realCorrected
    rw [hsq k l]
    congr 2
    apply List.map_congr_left
    intro s _
    ring
  · intro s hs k
    rw [hact, heig]
    simp only [hortho, mul_ite, mul_one, mul_zero]
    rw [sum_map_single ac hnd (fun s' => (fcTol evals + evals s') * evecs s' k) s hs]
    ring
  · intro v hv k
    rw [hact]
    have : (ac.map fun s => (fcTol evals + evals s) * evecs s k * ∑ l, evecs s l * v l)
        = ac.map fun _ => 0 := by
      apply List.map_congr_left
      intro s hs
      rw [hv s hs, mul_zero]
    rw [this]
    simp

/-- **C48.** The array returned is the first block column of the corrected square matrix; if three
acoustic modes cannot be found the force constants are returned unchanged. -/
theorem C48_realspace_result (c0 : Fin N) (fc : Fin N → Mat n ℝ) (rel : Fin N → Fin N → Fin N)
    (eigh : (Fin N × Fin (n * 3) → Fin N × Fin (n * 3) → ℝ) →
      (Fin M → ℝ) × (Fin M → Fin N × Fin (n * 3) → ℝ)) (S : M3 ℤ) (cells : Fin N → V3 ℤ)
    (hd : DistinctCells S cells) (op : Fin N → Fin N) (t : Fin N → V3 ℤ)
    (hs : Symmetric cells S fc op t) (hrel : ∀ i j, IsTranslation S cells i j (rel i j))
    (h0 : cells c0 = ⟨0, 0, 0⟩) :
    ∃ ac : List (Fin M), (ac = [] ∨ ac.length = 3 ∧ ac.Nodup) ∧
      ∀ c k l, enforceRealspace c0 fc rel eigh c k l = fc c k l -
        (ac.map fun s => (fcTol (eigh (sqFc fc rel)).1 + (eigh (sqFc fc rel)).1 s) *
          ((eigh (sqFc fc rel)).2 s (c, k) * (eigh (sqFc fc rel)).2 s (c0, l))).sum := by
  unfold enforceRealspace
  cases hac : acoustic (N * n) (fun k : Fin N × Fin (n * 3) => k.2.modNat)
      (fun s k => (((eigh (sqFc fc rel)).2 s k : ℝ) : ℂ)) with
  | none => exact ⟨[], Or.inl rfl, fun c k l => by simp⟩
  | some ac =>
    obtain ⟨h1, h2, -, -⟩ := C48_selection _ _ _ _ hac
    refine ⟨ac, Or.inr ⟨h1, h2⟩, fun c k l => ?_⟩
    unfold realCorrected
    dsimp only
    rw [(C48_square_matrix S cells hd fc op t hs rel hrel c0 h0).2]

/-- One cell, one atom with three different force constants: the hypotheses of `C48_realspace` hold. -/
example : let sq : Fin 3 → Fin 3 → ℝ := fun k l => if k = l then (k : ℝ) + 1 else 0
    (∀ k l, sq k l = sq l k)
    ∧ (∀ s k, ∑ l, sq k l * (if s = l then (1 : ℝ) else 0) = ((s : ℝ) + 1) * if s = k then 1 else 0) := by
  intro sq
  constructor
  · intro k l
    simp only [sq]
    split
    · rename_i h
      rw [if_pos h.symm, h]
    · rename_i h
      rw [if_neg (Ne.symm h)]
  · intro s k
    simp only [sq, mul_ite, mul_one, mul_zero, Finset.sum_ite_eq, Finset.mem_univ, if_true]
    rcases eq_or_ne s k with rfl | h
    · simp
    · rw [if_neg (Ne.symm h), if_neg h]

end Euphonic.Asr
