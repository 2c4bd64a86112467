import Verif.Model.Images
import Verif.Props.Phases
import Verif.Props.Lattice
import Mathlib.Tactic.Linarith
import Mathlib.Tactic.FieldSimp
import Mathlib.Tactic.IntervalCases

/-! # C47: supercell images are exactly those in the Wigner-Seitz cell -/

set_option autoImplicit false
set_option linter.unusedSectionVars false

namespace Euphonic.Images

open Euphonic.Lattice Euphonic.Supercell Euphonic.Phases

variable {K : Type} [Field K] [LinearOrder K] [IsStrictOrderedRing K]

/-! ## The loops -/

theorem wsLoop_eq {ι : Type} (dists : ι → V3 K) (ws : List (V3 K)) (kept : List ι) :
    wsLoop dists ws kept
      = kept.filter fun p => decide (∀ w ∈ ws, |dot (dists p) w| ≤ 1 / 2 * 1 + 1 / 1000) := by
  induction ws generalizing kept with
  | nil => simp [wsLoop]
  | cons w ws ih =>
    have hf : kept.filter (fun p => decide (∀ w' ∈ w :: ws, |dot (dists p) w'| ≤ 1 / 2 * 1 + 1 / 1000))
        = (kept.filter fun p => decide (|dot (dists p) w| ≤ 1 / 2 * 1 + 1 / 1000)).filter
          fun p => decide (∀ w' ∈ ws, |dot (dists p) w'| ≤ 1 / 2 * 1 + 1 / 1000) := by
      rw [List.filter_filter]
      apply List.filter_congr
      intro p _
      simp [List.forall_mem_cons, Bool.and_comm]
    rw [hf]
    unfold wsLoop
    dsimp only
    split
    · rename_i h
      rw [List.isEmpty_iff] at h
      rw [h, List.filter_nil]
    · exact ih _

/-- The arrays hold the list `L` of images for the pair `(c, i, j)`. -/
def Rep {N n : Nat} (st : ImState N n) (c : Fin N) (i j : Fin n) (L : List Nat) : Prop :=
  st.cnt c i j = L.length ∧ ∀ k, st.img c i j k = (L.map fun (m : Nat) => (m : ℤ)).getD k (-1)

theorem saveImages_rep {N n : Nat} (st : ImState N n) (i i' : Fin n) (im : Nat)
    (kept : List (Fin N × Fin n)) (c : Fin N) (j : Fin n) (L : List Nat) (h : Rep st c i' j L) :
    Rep (saveImages st i im kept) c i' j (if i' = i ∧ (c, j) ∈ kept then L ++ [im] else L) := by
  obtain ⟨h1, h2⟩ := h
  unfold saveImages Rep
  dsimp only
  by_cases hc : i' = i ∧ (c, j) ∈ kept
  · obtain ⟨rfl, hk⟩ := hc
    simp only [hk, and_self, if_true, true_and, List.length_append, List.length_singleton, h1]
    intro k
    by_cases hkl : k = L.length
    · subst hkl
      rw [if_pos rfl, List.getD_eq_getElem _ _ (by simp)]
      simp
    · rw [if_neg hkl, h2 k, List.map_append]
      by_cases hlt : k < L.length
      · rw [List.getD_eq_getElem _ _ (by simpa using hlt), List.getD_eq_getElem _ _ (by simp; omega),
          List.getElem_append_left]
      · rw [List.getD_eq_default _ _ (by simp; omega), List.getD_eq_default _ _ (by simp; omega)]
  · rw [if_neg hc, if_neg hc]
    refine ⟨h1, fun k => ?_⟩
    rw [if_neg (fun hh => hc ⟨hh.1, hh.2.1⟩)]
    exact h2 k

theorem inner_rep {N n : Nat} (kept : V3 ℤ → List (Fin N × Fin n)) (i i' : Fin n)
    (images : List (V3 ℤ × Nat)) (st : ImState N n) (c : Fin N) (j : Fin n) (L : List Nat)
    (h : Rep st c i' j L) :
    Rep (images.foldl (fun st p => saveImages st i p.2 (kept p.1)) st) c i' j
      (L ++ if i' = i then (images.filter fun p => decide ((c, j) ∈ kept p.1)).map (·.2) else []) := by
  induction images generalizing st L with
  | nil => simpa using h
  | cons p l ih =>
    rw [List.foldl_cons]
    have := ih _ _ (saveImages_rep st i i' p.2 (kept p.1) c j L h)
    convert this using 1
    by_cases hi : i' = i
    · simp only [hi, true_and, if_true]
      by_cases hk : (c, j) ∈ kept p.1
      · rw [List.filter_cons_of_pos (by simpa using hk), if_pos hk]
        simp
      · rw [List.filter_cons_of_neg (by simpa using hk), if_neg hk]
    · simp [hi]

/-- The list of the images recorded for the pair `(c, i, j)`. -/
def recorded {N n : Nat} (kept : Fin n → V3 ℤ → List (Fin N × Fin n)) (images : List (V3 ℤ))
    (c : Fin N) (i j : Fin n) : List Nat :=
  (images.zipIdx.filter fun p => decide ((c, j) ∈ kept i p.1)).map (·.2)

theorem outer_rep {N n : Nat} (kept : Fin n → V3 ℤ → List (Fin N × Fin n)) (images : List (V3 ℤ))
    (is : List (Fin n)) (hnd : is.Nodup) (st : ImState N n) (c : Fin N) (i' j : Fin n) (L : List Nat)
    (h : Rep st c i' j L) :
    Rep (is.foldl (fun st i => images.zipIdx.foldl (fun st p => saveImages st i p.2 (kept i p.1)) st) st)
      c i' j (L ++ if i' ∈ is then recorded kept images c i' j else []) := by
  induction is generalizing st L with
  | nil => simpa using h
  | cons i l ih =>
    rw [List.foldl_cons]
    have := ih hnd.of_cons _ _ (inner_rep (kept i) i i' images.zipIdx st c j L h)
    convert this using 1
    by_cases hi : i' = i
    · subst hi
      have hni : i' ∉ l := (List.nodup_cons.1 hnd).1
      simp [hni, recorded]
    · simp [hi]

/-! ## Specification -/

/-- Squared length. -/
def sq (v : V3 K) : K := dot v v

/-- Specification: `v` is at most as far from the origin as from each of the 26 neighbouring points of
the lattice spanned by the rows of `sv`, up to a tolerance of 0.2 % of the squared length of the lattice
vector (the code's limit 0.501 instead of 0.5). -/
def Nearest (sv : M3 K) (v : V3 K) : Prop :=
  ∀ a b c : ℤ, |a| ≤ 1 → |b| ≤ 1 → |c| ≤ 1 → (a, b, c) ≠ (0, 0, 0) →
    sq v ≤ sq (sub v (toCart sv ⟨a, b, c⟩)) + 1 / 500 * sq (toCart sv ⟨a, b, c⟩)

/-- The vector tested for atom `i` of the first cell, atom `j` of cell `o` and image `l`:
`r_i - (o + r_j) - l`, in Cartesian coordinates. -/
def pairVec (cv : M3 K) (S : M3 ℤ) (o0 o : V3 ℤ) (ri rj : V3 K) (l : V3 ℤ) : V3 K :=
  toCart cv (sub (sub (add (castV K o0) ri) (add (castV K o) rj)) (castV K (mulMat l S)))

theorem dists_eq (cv : M3 K) (S : M3 ℤ) (o0 o : V3 ℤ) (ri rj : V3 K) (l : V3 ℤ) :
    sub (sub (scAtomCart cv o0 ri) (scAtomCart cv o rj)) (toCart (scVecs S cv) (castV K l))
      = pairVec cv S o0 o ri rj l := by
  simp only [sub, scAtomCart, toCart, scVecs, castV, pairVec, add, mulMat, V3.mk.injEq]
  push_cast
  refine ⟨?_, ?_, ?_⟩ <;> ring

theorem sq_pos_of_volume (sv : M3 K) (hv : cellVolume sv ≠ 0) (a b c : ℤ)
    (h0 : (a, b, c) ≠ (0, 0, 0)) : 0 < sq (toCart sv ⟨(a : K), b, c⟩) := by
  have hnn : 0 ≤ sq (toCart sv ⟨(a : K), b, c⟩) := by
    unfold sq dot
    nlinarith [mul_self_nonneg (toCart sv ⟨(a : K), b, c⟩).x,
      mul_self_nonneg (toCart sv ⟨(a : K), b, c⟩).y, mul_self_nonneg (toCart sv ⟨(a : K), b, c⟩).z]
  rcases hnn.lt_or_eq with h | h
  · exact h
  exfalso
  have hx : (toCart sv ⟨(a : K), b, c⟩).x = 0 ∧ (toCart sv ⟨(a : K), b, c⟩).y = 0
      ∧ (toCart sv ⟨(a : K), b, c⟩).z = 0 := by
    unfold sq dot at h
    have h1 := mul_self_nonneg (toCart sv ⟨(a : K), b, c⟩).x
    have h2 := mul_self_nonneg (toCart sv ⟨(a : K), b, c⟩).y
    have h3 := mul_self_nonneg (toCart sv ⟨(a : K), b, c⟩).z
    refine ⟨?_, ?_, ?_⟩ <;> apply mul_self_eq_zero.1 <;> linarith
  obtain ⟨hx, hy, hz⟩ := hx
  simp only [toCart] at hx hy hz
  have ha : (a : K) * cellVolume sv = 0 := by
    unfold cellVolume dot cross
    simp only
    linear_combination (sv.b.y * sv.c.z - sv.b.z * sv.c.y) * hx
      + (sv.b.z * sv.c.x - sv.b.x * sv.c.z) * hy + (sv.b.x * sv.c.y - sv.b.y * sv.c.x) * hz
  have hb : (b : K) * cellVolume sv = 0 := by
    unfold cellVolume dot cross
    simp only
    linear_combination (sv.c.y * sv.a.z - sv.c.z * sv.a.y) * hx
      + (sv.c.z * sv.a.x - sv.c.x * sv.a.z) * hy + (sv.c.x * sv.a.y - sv.c.y * sv.a.x) * hz
  have hc : (c : K) * cellVolume sv = 0 := by
    unfold cellVolume dot cross
    simp only
    linear_combination (sv.a.y * sv.b.z - sv.a.z * sv.b.y) * hx
      + (sv.a.z * sv.b.x - sv.a.x * sv.b.z) * hy + (sv.a.x * sv.b.y - sv.a.y * sv.b.x) * hz
  have za := (mul_eq_zero.1 ha).resolve_right hv
  have zb := (mul_eq_zero.1 hb).resolve_right hv
  have zc := (mul_eq_zero.1 hc).resolve_right hv
  apply h0
  rw [Prod.mk.injEq, Prod.mk.injEq]
  exact ⟨by exact_mod_cast za, by exact_mod_cast zb, by exact_mod_cast zc⟩

/-- One plane test is the comparison of distances with `+w` and `-w`. -/
theorem plane_iff (v w : V3 K) (hw : 0 < sq w) :
    |dot v (smul (1 / dot w w) w)| ≤ 1 / 2 * 1 + 1 / 1000 ↔
      sq v ≤ sq (sub v w) + 1 / 500 * sq w ∧ sq v ≤ sq (add v w) + 1 / 500 * sq w := by
  have h1 : dot v (smul (1 / dot w w) w) = dot v w / sq w := by
    unfold smul dot sq
    simp only [dot]
    ring
  have h2 : sq (sub v w) = sq v - 2 * dot v w + sq w := by unfold sq sub dot; simp only; ring
  have h3 : sq (add v w) = sq v + 2 * dot v w + sq w := by unfold sq add dot; simp only; ring
  rw [h1, abs_div, abs_of_pos hw, div_le_iff₀ hw, h2, h3, abs_le]
  constructor
  · rintro ⟨ha, hb⟩
    constructor <;> linarith
  · rintro ⟨ha, hb⟩
    constructor <;> linarith

theorem wsFrac_all (a b c : ℤ) (ha : |a| ≤ 1) (hb : |b| ≤ 1) (hc : |c| ≤ 1)
    (h0 : (a, b, c) ≠ (0, 0, 0)) : (⟨a, b, c⟩ : V3 ℤ) ∈ wsFrac ∨ (⟨-a, -b, -c⟩ : V3 ℤ) ∈ wsFrac := by
  rw [abs_le] at ha hb hc
  obtain ⟨ha1, ha2⟩ := ha
  obtain ⟨hb1, hb2⟩ := hb
  obtain ⟨hc1, hc2⟩ := hc
  interval_cases a <;> interval_cases b <;> interval_cases c <;> first | (exact absurd rfl h0) | decide

theorem wsFrac_ok : ∀ f ∈ wsFrac, |f.x| ≤ 1 ∧ |f.y| ≤ 1 ∧ |f.z| ≤ 1 ∧ (f.x, f.y, f.z) ≠ (0, 0, 0) := by
  decide

theorem tests_iff (sv : M3 K) (hv : cellVolume sv ≠ 0) (v : V3 K) :
    (∀ w ∈ wsListNorm sv, |dot v w| ≤ 1 / 2 * 1 + 1 / 1000) ↔ Nearest sv v := by
  unfold wsListNorm Nearest
  simp only [List.forall_mem_map]
  have hneg : ∀ a b c : ℤ, sub v (toCart sv ⟨((-a : ℤ) : K), ((-b : ℤ) : K), ((-c : ℤ) : K)⟩)
      = add v (toCart sv ⟨(a : K), b, c⟩) := by
    intro a b c
    simp only [sub, add, toCart, V3.mk.injEq]
    push_cast
    refine ⟨?_, ?_, ?_⟩ <;> ring
  have hneg' : ∀ a b c : ℤ, sub v (toCart sv ⟨(a : K), b, c⟩)
      = add v (toCart sv ⟨((-a : ℤ) : K), ((-b : ℤ) : K), ((-c : ℤ) : K)⟩) := by
    intro a b c
    simp only [sub, add, toCart, V3.mk.injEq]
    push_cast
    refine ⟨?_, ?_, ?_⟩ <;> ring
  have hsq : ∀ a b c : ℤ, sq (toCart sv ⟨((-a : ℤ) : K), ((-b : ℤ) : K), ((-c : ℤ) : K)⟩)
      = sq (toCart sv ⟨(a : K), b, c⟩) := by
    intro a b c
    simp only [sq, dot, toCart]
    push_cast
    ring
  constructor
  · intro h a b c ha hb hc h0
    have hp := sq_pos_of_volume sv hv a b c h0
    rcases wsFrac_all a b c ha hb hc h0 with hm | hm
    · have h1 := h _ hm
      simp only [castV] at h1
      exact ((plane_iff v _ hp).1 h1).1
    · have hp' : 0 < sq (toCart sv ⟨((-a : ℤ) : K), ((-b : ℤ) : K), ((-c : ℤ) : K)⟩) := by
        rw [hsq]; exact hp
      have h1 := h _ hm
      simp only [castV] at h1
      have := ((plane_iff v _ hp').1 h1).2
      rw [hsq, ← hneg'] at this
      exact this
  · intro h f hf
    obtain ⟨h1, h2, h3, h0⟩ := wsFrac_ok f hf
    have hp := sq_pos_of_volume sv hv f.x f.y f.z h0
    simp only [castV]
    refine (plane_iff v _ hp).2 ⟨h _ _ _ h1 h2 h3 h0, ?_⟩
    have := h (-f.x) (-f.y) (-f.z) (by rwa [abs_neg]) (by rwa [abs_neg]) (by rwa [abs_neg]) (by
      intro hh
      apply h0
      simp only [Prod.mk.injEq, neg_eq_zero] at hh ⊢
      exact hh)
    rw [hsq, hneg] at this
    exact this

/-! ## C47 -/

open Classical in
/-- The indices of the images passing the specification, in increasing order. -/
noncomputable def goodImages {N n : Nat} (cv : M3 K) (S : M3 ℤ) (r : Fin n → V3 K)
    (cells : Fin N → V3 ℤ) (c0 : Fin N) (images : List (V3 ℤ)) (c : Fin N) (i j : Fin n) : List Nat :=
  (images.zipIdx.filter fun p =>
    decide (Nearest (scVecs S cv) (pairVec cv S (cells c0) (cells c) (r i) (r j) p.1))).map (·.2)

theorem imageLoops_rep {N n : Nat} (cv : M3 K) (r : Fin n → V3 K) (cells : Fin N → V3 ℤ) (c0 : Fin N)
    (S : M3 ℤ) (images : List (V3 ℤ)) (hv : cellVolume (scVecs S cv) ≠ 0) (c : Fin N) (i j : Fin n) :
    Rep (imageLoops cv r cells c0 S images) c i j (goodImages cv S r cells c0 images c i j) := by
  have h := outer_rep (fun i l => wsLoop (fun cj : Fin N × Fin n =>
        sub (sub (scAtomCart cv (cells c0) (r i)) (scAtomCart cv (cells cj.1) (r cj.2)))
          (toCart (scVecs S cv) (castV K l))) (wsListNorm (scVecs S cv))
        ((List.finRange N).flatMap fun c => (List.finRange n).map fun j => (c, j))) images
    (List.finRange n) (List.nodup_finRange n) { img := fun _ _ _ _ => -1, cnt := fun _ _ _ => 0 }
    c i j [] ⟨rfl, fun k => by simp⟩
  unfold imageLoops
  convert h using 1
  rw [if_pos (List.mem_finRange i), List.nil_append]
  unfold goodImages recorded
  congr 1
  apply List.filter_congr
  intro p _
  rw [decide_eq_decide]
  dsimp only
  rw [wsLoop_eq, List.mem_filter]
  have : (c, j) ∈ (List.finRange N).flatMap fun c => (List.finRange n).map fun j => (c, j) := by
    simp [List.mem_flatMap]
  simp only [this, true_and, decide_eq_true_eq, dists_eq]
  exact (tests_iff _ hv _).symm

theorem length_le_max {N n : Nat} (st : ImState N n) (c : Fin N) (i j : Fin n) :
    st.cnt c i j ≤ maxCount st := by
  unfold maxCount
  exact le_trans (Finset.le_sup (f := fun j => st.cnt c i j) (Finset.mem_univ j))
    (le_trans (Finset.le_sup (f := fun i => Finset.univ.sup fun j => st.cnt c i j) (Finset.mem_univ i))
    (Finset.le_sup (f := fun c => Finset.univ.sup fun i => Finset.univ.sup fun j => st.cnt c i j)
      (Finset.mem_univ c)))

/-- **C47.** For a non-degenerate supercell and any list of candidate images, what is recorded for each
pair of atoms is exactly the list of images in the (tolerant) Wigner-Seitz cell in increasing order,
padded with `-1`; the count is the number of recorded images. -/
theorem C47_images {N n : Nat} (cv : M3 K) (r : Fin n → V3 K) (cells : Fin N → V3 ℤ) (c0 : Fin N)
    (S : M3 ℤ) (images : List (V3 ℤ)) (hv : cellVolume (scVecs S cv) ≠ 0) (c : Fin N) (i j : Fin n) :
    let st := imageLoops cv r cells c0 S images
    ∃ L : List Nat, L.Pairwise (· < ·)
      ∧ (∀ m, m ∈ L ↔ ∃ hm : m < images.length,
          Nearest (scVecs S cv) (pairVec cv S (cells c0) (cells c) (r i) (r j) images[m]))
      ∧ st.cnt c i j = L.length
      ∧ scImageI st c i j = L.map (fun (m : Nat) => (m : ℤ))
          ++ List.replicate (maxCount st - L.length) (-1) := by
  intro st
  obtain ⟨h1, h2⟩ := imageLoops_rep cv r cells c0 S images hv c i j
  refine ⟨goodImages cv S r cells c0 images c i j, ?_, ?_, h1, ?_⟩
  · unfold goodImages
    have hp : (images.zipIdx.map (·.2)).Pairwise (· < ·) := by
      rw [List.zipIdx_map_snd, List.range'_eq_map_range]
      rw [List.pairwise_map]
      exact List.pairwise_lt_range.imp (by intro a b h; omega)
    rw [List.pairwise_map] at hp ⊢
    exact hp.filter _
  · intro m
    unfold goodImages
    simp only [List.mem_map, List.mem_filter, decide_eq_true_eq, Prod.exists, exists_eq_right]
    constructor
    · rintro ⟨v, hv1, hv2⟩
      rw [List.mem_zipIdx_iff_getElem?] at hv1
      obtain ⟨hm, he⟩ := List.getElem?_eq_some_iff.1 hv1
      exact ⟨hm, he ▸ hv2⟩
    · rintro ⟨hm, hn⟩
      exact ⟨images[m], List.mem_zipIdx_iff_getElem?.2 (List.getElem?_eq_some_iff.2 ⟨hm, rfl⟩), hn⟩
  · have hle : (goodImages cv S r cells c0 images c i j).length ≤ maxCount st := by
      rw [← h1]; exact length_le_max st c i j
    apply List.ext_getElem
    · simp [scImageI]; omega
    · intro k hk1 hk2
      have e : (scImageI st c i j)[k] = st.img c i j k := by
        simp only [scImageI, List.getElem_map, List.getElem_range]
      rw [e]
      refine (h2 k).trans ?_
      by_cases hlt : k < (goodImages cv S r cells c0 images c i j).length
      · rw [List.getD_eq_getElem _ _ (by simpa using hlt), List.getElem_append_left]
      · rw [List.getD_eq_default _ _ (by simp; omega), List.getElem_append_right (by simp; omega),
          List.getElem_replicate]

/-- **C47.** The weighted force constants of the recorded images add up to the force constant whenever
at least one image exists, whatever the uninitialised memory contains; with no image the phase sum that
multiplies the uninitialised value is zero. -/
theorem C47_weights (fc junk : K) (L : List Nat) :
    (L ≠ [] → (L.map fun _ => fcWeighted fc L.length junk).sum = fc) ∧
      (L = [] → ∀ (phases : List ℂ) (pad : Nat), 
        phaseSum phases (L.map (fun (m : Nat) => (m : ℤ)) ++ List.replicate pad (-1)) = 0) := by
  constructor
  · intro h
    have hl : L.length ≠ 0 := fun h0 => h (List.length_eq_zero_iff.1 h0)
    have hl' : (L.length : K) ≠ 0 := by exact_mod_cast hl
    unfold fcWeighted
    rw [if_pos hl, List.map_const', List.sum_replicate, nsmul_eq_mul]
    field_simp
  · rintro rfl phases pad
    unfold phaseSum
    have : phaseAt (phases ++ [0]) (-1) = 0 := by unfold phaseAt; simp
    simp only [List.map_nil, List.nil_append, List.map_replicate, this, List.sum_replicate, smul_zero]

/-- Non-vacuous: a cubic cell of side 1, two cells along x (supercell 2x1x1), one atom.  The atom in the
second cell is half-way to its own image, so it has two images (0 and -1 along x). -/
example :
    let images : List (V3 ℤ) := [⟨-1, 0, 0⟩, ⟨0, 0, 0⟩, ⟨1, 0, 0⟩]
    let st := imageLoops (K := ℚ) (N := 2) (n := 1) ⟨⟨1, 0, 0⟩, ⟨0, 1, 0⟩, ⟨0, 0, 1⟩⟩
      (fun _ => ⟨0, 0, 0⟩) ![⟨0, 0, 0⟩, ⟨1, 0, 0⟩] 0 ⟨⟨2, 0, 0⟩, ⟨0, 1, 0⟩, ⟨0, 0, 1⟩⟩ images
    scImageI st 0 0 0 = [1, -1] ∧ scImageI st 1 0 0 = [0, 1] ∧ st.cnt 1 0 0 = 2 := by
  decide +kernel

end Euphonic.Images
