import Verif.Model.Split
import Mathlib.Tactic.Linarith
import Mathlib.Data.List.Infix
import Mathlib.Algebra.Order.Group.Defs

/-! Helper lemmas for `split`. -/

set_option autoImplicit false

namespace Euphonic

variable {α M : Type}

/-- Recursive form of `rangesFromIndices`. -/
def rangesFrom : Int → List Int → List (Int × Option Int)
  | a, [] => [(a, none)]
  | a, i :: is => (a, some i) :: rangesFrom i is

theorem rangesFrom_eq (a : Int) (is : List Int) :
    rangesFrom a is = List.zipWith (fun a b => (a, some b)) (a :: is) is
      ++ [((a :: is).getLast (by simp), none)] := by
  induction is generalizing a with
  | nil => rfl
  | cons i is ih => simp [rangesFrom, ih]

theorem rangesFromIndices_eq (is : List Int) : rangesFromIndices is = rangesFrom 0 is := by
  cases is with
  | nil => rfl
  | cons i is =>
    rw [rangesFrom, rangesFrom_eq]
    cases is <;> simp [rangesFromIndices]

theorem length_rangesFrom (a : Int) (is : List Int) :
    (rangesFrom a is).length = is.length + 1 := by
  induction is generalizing a with
  | nil => rfl
  | cons i is ih => simp [rangesFrom, ih]

theorem pyIdx_of_range {n : Nat} {i : Int} (h0 : 0 ≤ i) (h1 : i ≤ n) : (pyIdx n i : Int) = i := by
  unfold pyIdx; split <;> omega

theorem pyIdx_le (n : Nat) (i : Int) : pyIdx n i ≤ n := by
  unfold pyIdx; split <;> omega

theorem pySlice_none (l : List α) (a : Int) : pySlice l a none = l.drop (pyIdx l.length a) := by
  simp [pySlice]

/-- Indices in range and non-decreasing, starting from `a`. -/
def GoodFrom (n : Nat) : Int → List Int → Prop
  | a, [] => 0 ≤ a ∧ a ≤ n
  | a, i :: is => 0 ≤ a ∧ a ≤ i ∧ i ≤ n ∧ GoodFrom n i is

theorem GoodFrom.start {n : Nat} {a : Int} {is : List Int} (h : GoodFrom n a is) :
    0 ≤ a ∧ a ≤ n := by
  cases is with
  | nil => exact h
  | cons i is => obtain ⟨h1, h2, h3, _⟩ := h; omega

theorem flatten_slices (l : List α) (n : Nat) (hn : n ≤ l.length) (a : Int) (is : List Int)
    (h : GoodFrom n a is) :
    ((rangesFrom a is).map (fun r => pySlice l r.1 r.2)).flatten = l.drop a.toNat := by
  induction is generalizing a with
  | nil =>
    obtain ⟨h0, h1⟩ := h
    simp only [rangesFrom, List.map_cons, List.map_nil, List.flatten_cons, List.flatten_nil,
      List.append_nil, pySlice_none]
    have := pyIdx_of_range h0 (show a ≤ (l.length : Int) by omega)
    congr 1; omega
  | cons i is ih =>
    obtain ⟨h0, h1, h2, h3⟩ := h
    simp only [rangesFrom, List.map_cons, List.flatten_cons, ih i h3]
    have e1 := pyIdx_of_range h0 (show a ≤ (l.length : Int) by omega)
    have e2 := pyIdx_of_range (show 0 ≤ i by omega) (show i ≤ (l.length : Int) by omega)
    simp only [pySlice]
    have e1' : pyIdx l.length a = a.toNat := by omega
    have e2' : pyIdx l.length i = i.toNat := by omega
    rw [e1', e2', List.drop_take]
    have : i.toNat = a.toNat + (i.toNat - a.toNat) := by omega
    conv_lhs => rw [this]
    rw [← List.drop_drop]
    simp

theorem length_pySlice (l : List α) (a : Int) (b : Option Int) :
    (pySlice l a b).length =
      (match b with | none => l.length | some e => pyIdx l.length e) - pyIdx l.length a := by
  cases b with
  | none => simp [pySlice]
  | some e =>
    have := pyIdx_le l.length e
    simp [pySlice]; omega

/-- Lengths of the pieces for a good list of indices. -/
theorem good_range_mem {n : Nat} {a : Int} {is : List Int} (h : GoodFrom n a is)
    {r : Int × Option Int} (hr : r ∈ rangesFrom a is) :
    0 ≤ r.1 ∧ r.1 ≤ n ∧ ∀ e, r.2 = some e → r.1 ≤ e ∧ e ≤ n := by
  induction is generalizing a with
  | nil =>
    simp only [rangesFrom, List.mem_singleton] at hr
    subst hr
    exact ⟨h.1, h.2, by simp⟩
  | cons i is ih =>
    obtain ⟨h0, h1, h2, h3⟩ := h
    simp only [rangesFrom, List.mem_cons] at hr
    rcases hr with rfl | hr
    · refine ⟨h0, by show a ≤ _; omega, ?_⟩
      intro e he
      simp only [Option.some.injEq] at he
      subst he
      exact ⟨h1, h2⟩
    · exact ih h3 hr

theorem mapM_ok_of_forall {β γ : Type} (f : β → Except Err γ) (g : β → γ) (l : List β)
    (h : ∀ b ∈ l, f b = .ok (g b)) : l.mapM f = .ok (l.map g) := by
  induction l with
  | nil => rfl
  | cons b l ih =>
    rw [List.mapM_cons, h b (by simp), ih (fun b hb => h b (by simp [hb]))]
    rfl

theorem goodFrom_of_sorted (n : Nat) (a : Int) (is : List Int) (ha : 0 ≤ a) (han : a ≤ n)
    (hs : (a :: is).Pairwise (· ≤ ·)) (hb : ∀ i ∈ is, i ≤ n) : GoodFrom n a is := by
  induction is generalizing a with
  | nil => exact ⟨ha, han⟩
  | cons i is ih =>
    have hai : a ≤ i := by
      have := List.pairwise_cons.1 hs
      exact this.1 i (by simp)
    exact ⟨ha, hai, hb i (by simp),
      ih i (by omega) (hb i (by simp)) (List.pairwise_cons.1 hs).2 (fun j hj => hb j (by simp [hj]))⟩

/-! ### diff, breakpoints -/

theorem length_npDiff [Sub α] (l : List α) : (npDiff l).length = l.length - 1 := by
  induction l using npDiff.induct with
  | case1 => rfl
  | case2 => rfl
  | case3 a b l ih => simp only [npDiff, List.length_cons] at *; omega

theorem getElem_npDiff [Sub α] (l : List α) (i : Nat) (h : i < (npDiff l).length) :
    (npDiff l)[i] = l[i+1]'(by rw [length_npDiff] at h; omega)
      - l[i]'(by rw [length_npDiff] at h; omega) := by
  induction l using npDiff.induct generalizing i with
  | case1 => simp [npDiff] at h
  | case2 => simp [npDiff] at h
  | case3 a b l ih =>
    cases i with
    | zero => simp [npDiff]
    | succ i =>
      simp only [npDiff, List.getElem_cons_succ]
      exact ih i _

theorem mem_whereTrue (bs : List Bool) (k i : Int) :
    i ∈ whereTrue bs k ↔ k ≤ i ∧ bs[(i - k).toNat]? = some true := by
  induction bs generalizing k with
  | nil => simp [whereTrue]
  | cons b bs ih =>
    rcases lt_trichotomy i k with h | h | h
    · have h1 : ¬ k ≤ i := by omega
      have h2 : ¬ k + 1 ≤ i := by omega
      unfold whereTrue
      split <;> simp [ih, h1, h2, ne_of_lt h]
    · subst h
      unfold whereTrue
      cases b <;> simp [ih]
    · have h1 : k ≤ i := by omega
      have h2 : k + 1 ≤ i := by omega
      have e : (i - k).toNat = (i - (k + 1)).toNat + 1 := by omega
      unfold whereTrue
      cases b <;> simp [ih, h1, h2, e, ne_of_gt h]

theorem whereTrue_pairwise (bs : List Bool) (k : Int) :
    (whereTrue bs k).Pairwise (· < ·) ∧ ∀ i ∈ whereTrue bs k, k ≤ i := by
  induction bs generalizing k with
  | nil => simp [whereTrue]
  | cons b bs ih =>
    obtain ⟨h1, h2⟩ := ih (k + 1)
    unfold whereTrue
    split
    · refine ⟨List.pairwise_cons.2 ⟨fun i hi => ?_, h1⟩, ?_⟩
      · have := h2 i hi; omega
      · intro i hi
        rcases List.mem_cons.1 hi with rfl | hi
        · exact le_rfl
        · have := h2 i hi; omega
    · exact ⟨h1, fun i hi => by have := h2 i hi; omega⟩

theorem ratioExceeds_iff [Field α] [LinearOrder α] [IsStrictOrderedRing α] (d m t : α)
    (hm : 0 ≤ m) : ratioExceeds d m t = true ↔ t * m < d := by
  unfold ratioExceeds
  split
  · rename_i h; simp [h]
  · rename_i h
    have hm' : 0 < m := lt_of_le_of_ne hm (Ne.symm h)
    simp only [gt_iff_lt, decide_eq_true_eq]
    rw [lt_div_iff₀ hm']

theorem npMedian_nonneg [Field α] [LinearOrder α] [IsStrictOrderedRing α] (l : List α)
    (h : ∀ a ∈ l, 0 ≤ a) : 0 ≤ npMedian l := by
  have hs : ∀ a ∈ l.mergeSort (fun a b => decide (a ≤ b)), 0 ≤ a := by
    intro a ha
    exact h a ((List.mergeSort_perm l _).mem_iff.1 ha)
  have hg : ∀ i, 0 ≤ (l.mergeSort (fun a b => decide (a ≤ b))).getD i 0 := by
    intro i
    rw [List.getD_eq_getElem?_getD]
    cases hi : (l.mergeSort (fun a b => decide (a ≤ b)))[i]? with
    | none => simp
    | some a => exact hs a (List.mem_of_getElem? hi)
  unfold npMedian
  dsimp only
  split
  · exact hg _
  · have h2 : (0:α) < 2 := two_pos
    apply div_nonneg _ h2.le
    exact add_nonneg (hg _) (hg _)

theorem mem_breakpoints [Field α] [LinearOrder α] [IsStrictOrderedRing α] (x : List α) (t : α)
    (hm : 0 ≤ npMedian (npDiff x)) (i : Int) :
    i ∈ breakpoints x t ↔ ∃ (k : Nat) (hk : k + 1 < x.length), i = k + 1 ∧
      t * npMedian (npDiff x) < x[k+1] - x[k] := by
  unfold breakpoints
  rw [mem_whereTrue]
  constructor
  · rintro ⟨h1, h2⟩
    rw [List.getElem?_map, Option.map_eq_some_iff] at h2
    obtain ⟨d, hd, hr⟩ := h2
    rw [List.getElem?_eq_some_iff] at hd
    obtain ⟨hlt, hd⟩ := hd
    rw [getElem_npDiff] at hd
    rw [ratioExceeds_iff _ _ _ hm] at hr
    have hl := length_npDiff x
    refine ⟨(i-1).toNat, by omega, by omega, ?_⟩
    rw [hd]; exact hr
  · rintro ⟨k, hk, rfl, hr⟩
    refine ⟨by omega, ?_⟩
    have hl := length_npDiff x
    have e : ((k:Int) + 1 - 1).toNat = k := by omega
    rw [e, List.getElem?_map, List.getElem?_eq_getElem (by omega), Option.map_some,
      getElem_npDiff]
    simp [ratioExceeds_iff _ _ _ hm, hr]

/-- Between two consecutive range bounds there is no index of the list. -/
theorem no_index_inside {a : Int} {is : List Int} (h : (a :: is).Pairwise (· < ·))
    {r : Int × Option Int} (hr : r ∈ rangesFrom a is) (c : Int) (hc : c ∈ is) (h1 : r.1 < c) :
    ∃ e, r.2 = some e ∧ e ≤ c := by
  induction is generalizing a with
  | nil => simp at hc
  | cons i is ih =>
    obtain ⟨ha, hp⟩ := List.pairwise_cons.1 h
    simp only [rangesFrom, List.mem_cons] at hr
    rcases hr with rfl | hr
    · refine ⟨i, rfl, ?_⟩
      rcases List.mem_cons.1 hc with rfl | hc
      · exact le_rfl
      · exact le_of_lt ((List.pairwise_cons.1 hp).1 c hc)
    · rcases List.mem_cons.1 hc with rfl | hc
      · exfalso
        have : c ≤ r.1 := by
          clear ih h hc
          induction is generalizing c with
          | nil => simp only [rangesFrom, List.mem_singleton] at hr; subst hr; exact le_rfl
          | cons j is ih2 =>
            simp only [rangesFrom, List.mem_cons] at hr
            have hcj : c < j := (List.pairwise_cons.1 hp).1 j (by simp)
            rcases hr with rfl | hr
            · exact le_rfl
            · have := ih2 j (by have := ha c (by simp); omega) (by
                intro b hb
                exact ha b (by
                  rcases List.mem_cons.1 hb with rfl | hb
                  · simp
                  · simp [hb])) (List.pairwise_cons.1 hp).2 hr
              omega
        omega
      · exact ih hp hr hc

theorem rangesFrom_ne_nil (a : Int) (is : List Int) : rangesFrom a is ≠ [] := by
  cases is <;> simp [rangesFrom]

theorem getElem_pySlice (l : List α) (a : Int) (b : Option Int) (k : Nat)
    (hk : k < (pySlice l a b).length) :
    ∃ h : pyIdx l.length a + k < l.length, (pySlice l a b)[k] = l[pyIdx l.length a + k] := by
  rw [length_pySlice] at hk
  have : pyIdx l.length a + k < l.length := by
    cases b with
    | none => simp only at hk; omega
    | some e => have := pyIdx_le l.length e; simp only at hk; omega
  refine ⟨this, ?_⟩
  simp [pySlice]

end Euphonic
