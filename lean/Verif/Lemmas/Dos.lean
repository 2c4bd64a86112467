import Verif.Prelude
import Verif.Model.Dos
import Verif.Lemmas.Split
import Mathlib.Algebra.BigOperators.Field

/-! Lemmas on binning. -/

set_option autoImplicit false
set_option linter.unusedSectionVars false

namespace Euphonic.Dos

variable {K : Type} [Field K] [LinearOrder K] [IsStrictOrderedRing K]

theorem countP_le_spec (bins : List K) (hs : bins.Pairwise (· ≤ ·)) (x : K) (j : Nat)
    (hj : j < bins.length) :
    bins.getD j 0 ≤ x ↔ j < bins.countP (fun b => decide (b ≤ x)) := by
  induction bins generalizing j with
  | nil => simp at hj
  | cons a l ih =>
    rw [List.pairwise_cons] at hs
    by_cases ha : a ≤ x
    · rw [List.countP_cons_of_pos (by simpa using ha)]
      cases j with
      | zero => simp [ha]
      | succ j =>
        rw [List.getD_cons_succ, ih hs.2 j (by simpa using hj)]
        omega
    · have h0 : l.countP (fun b => decide (b ≤ x)) = 0 := by
        rw [List.countP_eq_zero]
        intro b hb
        have := hs.1 b hb
        simp only [decide_eq_true_eq]
        intro h
        exact ha (this.trans h)
      rw [List.countP_cons_of_neg (by simpa using ha), h0]
      simp only [Nat.not_lt_zero, iff_false]
      cases j with
      | zero => simpa using ha
      | succ j =>
        have hj' : j < l.length := by simpa using hj
        rw [List.getD_cons_succ, List.getD_eq_getElem _ _ hj']
        intro h
        exact ha ((hs.1 _ (List.getElem_mem hj')).trans h)

theorem digitize_sorted (bins : List K) (hs : bins.Pairwise (· ≤ ·)) (x : K) :
    digitize bins x = .ok (bins.countP fun b => decide (b ≤ x)) := by
  simp [digitize, hs]

theorem countP_eq_iff (bins : List K) (hs : bins.Pairwise (· ≤ ·)) (x : K) (i : Nat)
    (hi : i + 1 < bins.length) :
    bins.countP (fun b => decide (b ≤ x)) = i + 1 ↔
      bins.getD i 0 ≤ x ∧ x < bins.getD (i + 1) 0 := by
  rw [← not_le, countP_le_spec bins hs x i (by omega), countP_le_spec bins hs x (i + 1) hi]
  omega

theorem getD_modify (a : List K) (i j : Nat) (v : K) (hi : i < a.length) :
    (a.modify i (· + v)).getD j 0 = a.getD j 0 + if i = j then v else 0 := by
  by_cases hj : j < a.length
  · rw [List.getD_eq_getElem _ _ (by simpa using hj), List.getElem_modify,
      List.getD_eq_getElem _ _ hj]
    split <;> simp
  · have : i ≠ j := by omega
    rw [List.getD_eq_default _ _ (by simpa using hj), List.getD_eq_default _ _ (by simpa using hj)]
    simp [this]

theorem foldlM_addAt (l : List (Nat × K)) (acc : List K) (h : ∀ p ∈ l, p.1 < acc.length) :
    ∃ r, l.foldlM addAt acc = .ok r ∧ r.length = acc.length ∧
      ∀ j, r.getD j 0 = acc.getD j 0 + (l.map fun p => if p.1 = j then p.2 else 0).sum := by
  induction l generalizing acc with
  | nil => exact ⟨acc, rfl, rfl, fun j => by simp⟩
  | cons p l ih =>
    have hp := h p (by simp)
    obtain ⟨r, h1, h2, h3⟩ := ih (acc.modify p.1 (· + p.2)) fun q hq => by
      simpa using h q (by simp [hq])
    refine ⟨r, ?_, by simpa using h2, fun j => ?_⟩
    · rw [List.foldlM_cons]
      simp only [addAt, hp, if_true]
      exact h1
    · rw [h3, getD_modify _ _ _ _ hp, List.map_cons, List.sum_cons, add_assoc]

theorem length_npDiff (l : List K) : (npDiff l).length = l.length - 1 := by
  match l with
  | [] => rfl
  | [_] => rfl
  | a :: b :: l =>
    rw [npDiff, List.length_cons, length_npDiff (b :: l)]
    simp

theorem getD_npDiff (l : List K) (i : Nat) (h : i + 1 < l.length) :
    (npDiff l).getD i 0 = l.getD (i + 1) 0 - l.getD i 0 := by
  match l, i with
  | [], _ => simp at h
  | [_], _ => simp at h
  | a :: b :: l, 0 => simp [npDiff]
  | a :: b :: l, i + 1 =>
    rw [npDiff, List.getD_cons_succ, getD_npDiff (b :: l) i (by simpa using h)]
    simp

theorem length_paddedWidths (bins : List K) : (paddedWidths bins).length = bins.length + 1 := by
  cases bins with
  | nil => rfl
  | cons a l => simp [paddedWidths, length_npDiff]

theorem getD_paddedWidths (bins : List K) (i : Nat) (d : K) (h : i + 1 < bins.length) :
    (paddedWidths bins).getD (i + 1) d = bins.getD (i + 1) 0 - bins.getD i 0 := by
  cases bins with
  | nil => simp at h
  | cons a l =>
    rw [← getD_npDiff (a :: l) i h]
    have hl : i < (npDiff (a :: l)).length := by rw [length_npDiff]; simp at h ⊢; omega
    simp only [paddedWidths, List.cons_append, List.nil_append, List.getD_cons_succ]
    rw [List.getD_append _ _ _ _ hl, List.getD_eq_getElem _ _ hl, List.getD_eq_getElem _ _ hl]

theorem getD_trim (r : List K) (i : Nat) (h : i + 2 < r.length) :
    ((r.drop 1).dropLast).getD i 0 = r.getD (i + 1) 0 := by
  have h1 : i < ((r.drop 1).dropLast).length := by simp; omega
  rw [List.getD_eq_getElem _ _ h1, List.getD_eq_getElem _ _ (by omega), List.getElem_dropLast,
    List.getElem_drop]
  congr 1
  omega

theorem sum_flatMap_map {β γ : Type} (l : List β) (g : β → List γ) (f : γ → K) :
    ((l.flatMap g).map f).sum = (l.map fun b => ((g b).map f).sum).sum := by
  induction l with
  | nil => rfl
  | cons b l ih => simp [List.flatMap_cons, List.map_append, ih]

theorem sum_qm {nq nm : Nat} (f : Fin nq → Fin nm → K) :
    ((((List.finRange nq).flatMap fun q => (List.finRange nm).map fun m => (q, m)).map
      fun p => f p.1 p.2).sum) = ∑ q, ∑ m, f q m := by
  rw [sum_flatMap_map, Fin.sum_univ_def]
  congr 1
  apply List.map_congr_left
  intro q _
  rw [Fin.sum_univ_def, List.map_map]
  rfl

theorem pairwise_scale (bins : List K) (hs : bins.Pairwise (· ≤ ·)) (c : K) (hc : 0 < c) :
    (bins.map (· * c)).Pairwise (· ≤ ·) := by
  rw [List.pairwise_map]
  exact hs.imp fun h => mul_le_mul_of_nonneg_right h hc.le

theorem getD_scale (bins : List K) (c : K) (i : Nat) :
    (bins.map (· * c)).getD i 0 = bins.getD i 0 * c := by
  have h : (0 : K) = 0 * c := by ring
  conv_lhs => rw [h]
  exact List.getD_map (f := (· * c)) ..

/-- The value of the histogram. -/
theorem histogram_eq (bins : List K) (hs : bins.Pairwise (· ≤ ·)) {nq nm : Nat}
    (freqs : Fin nq → Fin nm → K) (weights : Fin nq → K) (mw : Fin nq → Fin nm → K) :
    histogram bins freqs weights mw = .ok ((List.range (bins.length - 1)).map fun i =>
      (∑ q, ∑ m, if bins.getD i 0 ≤ freqs q m ∧ freqs q m < bins.getD (i + 1) 0
        then weights q * mw q m else 0) / (bins.getD (i + 1) 0 - bins.getD i 0)) := by
  set idx : K → Nat := fun x => bins.countP fun b => decide (b ≤ x) with hidx
  have hm : (((List.finRange nq).flatMap fun q => (List.finRange nm).map fun m => (q, m)).mapM
      fun p => (do
        let i ← digitize bins (freqs p.1 p.2)
        return (i, weights p.1 * mw p.1 p.2 / (paddedWidths bins).getD i 1) :
          Except Err (Nat × K))) =
      .ok (((List.finRange nq).flatMap fun q => (List.finRange nm).map fun m => (q, m)).map
        fun p => (idx (freqs p.1 p.2),
          weights p.1 * mw p.1 p.2 / (paddedWidths bins).getD (idx (freqs p.1 p.2)) 1)) := by
    apply mapM_ok_of_forall
    intro p _
    rw [digitize_sorted _ hs]
    rfl
  obtain ⟨r, h1, h2, h3⟩ := foldlM_addAt
    (((List.finRange nq).flatMap fun q => (List.finRange nm).map fun m => (q, m)).map
        fun p => (idx (freqs p.1 p.2),
          weights p.1 * mw p.1 p.2 / (paddedWidths bins).getD (idx (freqs p.1 p.2)) 1))
    (List.replicate (bins.length + 1) 0) (by
      intro p hp
      simp only [List.mem_map] at hp
      obtain ⟨p', _, rfl⟩ := hp
      have : idx (freqs p'.1 p'.2) ≤ bins.length := List.countP_le_length
      simpa using by omega)
  unfold histogram
  dsimp only
  rw [hm]
  simp only [bind, Except.bind, h1, pure, Except.pure]
  congr 1
  rw [List.length_replicate] at h2
  apply List.ext_getElem
  · simp [h2]
  intro i hi1 hi2
  have hi : i + 1 < bins.length := by simp at hi2; omega
  rw [← List.getD_eq_getElem _ 0 hi1, getD_trim _ _ (by omega), h3, List.getElem_map,
    List.getElem_range, List.map_map]
  have := sum_qm (nq := nq) (nm := nm) fun q m => if idx (freqs q m) = i + 1 then
    weights q * mw q m / (paddedWidths bins).getD (idx (freqs q m)) 1 else 0
  simp only [Function.comp_def] at this ⊢
  rw [this, List.getD_eq_getElem _ _ (by simp; omega), List.getElem_replicate, zero_add,
    Finset.sum_div]
  refine Finset.sum_congr rfl fun q _ => ?_
  rw [Finset.sum_div]
  refine Finset.sum_congr rfl fun m _ => ?_
  have := countP_eq_iff bins hs (freqs q m) i hi
  by_cases hc : idx (freqs q m) = i + 1
  · rw [if_pos hc, if_pos (this.1 hc), hc, getD_paddedWidths _ _ _ hi]
  · rw [if_neg hc, if_neg fun h => hc (this.2 h), zero_div]

end Euphonic.Dos
