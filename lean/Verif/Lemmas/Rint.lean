import Verif.Prelude
import Verif.Model.Rint
import Mathlib.Algebra.Order.Floor.Ring
import Mathlib.Algebra.Ring.Int.Parity

/-! Elementary facts about `rint`. -/

set_option autoImplicit false
set_option linter.unusedSectionVars false

namespace Euphonic

variable {K : Type} [Field K] [LinearOrder K] [IsStrictOrderedRing K] [FloorRing K]

theorem abs_sub_rint_le (x : K) : |x - rint x| ≤ 1 / 2 := by
  have h0 := Int.floor_add_fract x
  have h1 := Int.fract_nonneg x
  have h2 := Int.fract_lt_one x
  unfold rint
  rw [abs_le]
  split_ifs with a b c <;> push_cast <;> constructor <;> linarith

theorem rint_intCast (m : ℤ) : rint (m : K) = m := by
  unfold rint
  rw [Int.fract_intCast, if_pos (by norm_num), Int.floor_intCast]

/-- `rint x` is a nearest integer. -/
theorem abs_sub_rint_le_abs_sub (x : K) (m : ℤ) : |x - rint x| ≤ |x - m| := by
  by_cases h : m = rint x
  · rw [h]
  · have h1 : (1 : K) ≤ |((rint x - m : ℤ) : K)| := by
      have : (1 : ℤ) ≤ |rint x - m| := Int.one_le_abs (sub_ne_zero.2 (Ne.symm h))
      have h2 : ((1 : ℤ) : K) ≤ ((|rint x - m| : ℤ) : K) := Int.cast_le.2 this
      simpa using h2
    have h2 := abs_sub_rint_le x
    have h3 : ((rint x - m : ℤ) : K) = (x - m) - (x - rint x) := by push_cast; ring
    have h4 := abs_sub (x - m : K) (x - rint x)
    rw [← h3] at h4
    linarith

/-- The distance to the nearest integer does not change under integer translations. -/
theorem abs_sub_rint_add_int (x : K) (m : ℤ) :
    |(x + m) - rint (x + m)| = |x - rint x| := by
  apply le_antisymm
  · have := abs_sub_rint_le_abs_sub (x + m) (rint x + m)
    refine this.trans (le_of_eq ?_)
    push_cast
    congr 1; ring
  · have := abs_sub_rint_le_abs_sub x (rint (x + m) - m)
    refine this.trans (le_of_eq ?_)
    push_cast
    congr 1; ring

theorem abs_sub_rint_neg (x : K) : |-x - rint (-x)| = |x - rint x| := by
  apply le_antisymm
  · have := abs_sub_rint_le_abs_sub (-x) (-rint x)
    refine this.trans (le_of_eq ?_)
    rw [← abs_neg]
    push_cast
    congr 1; ring
  · have := abs_sub_rint_le_abs_sub x (-rint (-x))
    refine this.trans (le_of_eq ?_)
    rw [← abs_neg]
    push_cast
    congr 1; ring

/-- Less than one half away from an integer means that integer is the answer. -/
theorem rint_eq_of_abs_lt (x : K) (m : ℤ) (h : |x - m| < 1 / 2) : rint x = m := by
  by_contra hne
  have h1 : (1 : K) ≤ |((rint x - m : ℤ) : K)| := by
    have : (1 : ℤ) ≤ |rint x - m| := Int.one_le_abs (sub_ne_zero.2 hne)
    have h2 : ((1 : ℤ) : K) ≤ ((|rint x - m| : ℤ) : K) := Int.cast_le.2 this
    simpa using h2
  have h2 := abs_sub_rint_le x
  have h3 : ((rint x - m : ℤ) : K) = (x - m) - (x - rint x) := by push_cast; ring
  have h4 := abs_sub (x - m : K) (x - rint x)
  rw [← h3] at h4
  linarith

theorem sub_rint_eq_zero_iff (x : K) : |x - rint x| = 0 ↔ ∃ m : ℤ, x = m := by
  constructor
  · intro h
    exact ⟨rint x, by rw [abs_eq_zero, sub_eq_zero] at h; exact h⟩
  · rintro ⟨m, rfl⟩
    rw [rint_intCast]; simp

/-- Rounding is odd: halves go to the even neighbour on both sides. -/
theorem rint_neg (x : K) : rint (-x) = -rint x := by
  rcases lt_or_eq_of_le (abs_sub_rint_le x) with h | h
  · apply rint_eq_of_abs_lt
    have : -x - ((-rint x : ℤ) : K) = -(x - rint x) := by push_cast; ring
    rw [this, abs_neg]
    exact h
  · -- a half-integer
    have hx := Int.floor_add_fract x
    have hf : Int.fract x = 1 / 2 := by
      by_contra hne
      rcases lt_or_gt_of_ne hne with hl | hg
      · have e : rint x = ⌊x⌋ := by unfold rint; rw [if_pos hl]
        rw [e, show x - (⌊x⌋ : K) = Int.fract x from rfl, abs_of_nonneg (Int.fract_nonneg x)] at h
        exact hne h
      · have e : rint x = ⌊x⌋ + 1 := by unfold rint; rw [if_neg (not_lt.2 hg.le), if_pos hg]
        rw [e] at h
        have h1 := Int.fract_lt_one x
        have : x - ((⌊x⌋ + 1 : ℤ) : K) = -(1 - Int.fract x) := by
          push_cast
          rw [Int.fract]
          ring
        rw [this, abs_neg, abs_of_pos (by linarith)] at h
        apply hne
        linarith
    have hfl : ⌊-x⌋ = -⌊x⌋ - 1 := by
      rw [Int.floor_eq_iff]
      push_cast
      constructor <;> linarith
    have hfr : Int.fract (-x) = 1 / 2 := by
      rw [Int.fract, hfl]
      push_cast
      linarith
    unfold rint
    rw [hfl, hfr, hf]
    simp only [lt_self_iff_false, if_false]
    by_cases he : Even ⌊x⌋
    · rw [if_pos he, if_neg (by
        intro h'
        have := (Int.even_add.1 (show Even (-⌊x⌋ + -1) from h')).1 (by simpa using he)
        simp at this)]
      ring
    · rw [if_neg he, if_pos (by
        have ho := Int.not_even_iff_odd.1 he
        obtain ⟨t, ht⟩ := ho
        exact ⟨-t - 1, by omega⟩)]
      ring

end Euphonic
