import Verif.Props.DynMat
import Verif.Props.Origins
import Mathlib.Tactic.LinearCombination

/-!
# C123: no force constant is lost, and images are nearest, if the supercell is reduced
-/

set_option autoImplicit false
set_option linter.unusedSectionVars false

namespace Euphonic.Reduced

open Euphonic.Lattice Euphonic.Supercell Euphonic.Phases Euphonic.Images

variable {K : Type} [Field K] [LinearOrder K] [IsStrictOrderedRing K]

/-! ## Specification -/

/-- The supercell vectors cannot be shortened by adding or subtracting the others once (this is Minkowski's reduction for
three vectors in any order). -/
structure IsReduced (sv : M3 K) : Prop where
  a : ∀ e1 e2 e3 : ℤ, |e1| = 1 → |e2| ≤ 1 → |e3| ≤ 1 → sq sv.a ≤ sq (toCart sv ⟨e1, e2, e3⟩)
  b : ∀ e1 e2 e3 : ℤ, |e1| ≤ 1 → |e2| = 1 → |e3| ≤ 1 → sq sv.b ≤ sq (toCart sv ⟨e1, e2, e3⟩)
  c : ∀ e1 e2 e3 : ℤ, |e1| ≤ 1 → |e2| ≤ 1 → |e3| = 1 → sq sv.c ≤ sq (toCart sv ⟨e1, e2, e3⟩)

/-- `v` is at most as far from the origin as from all other points of the lattice, up to the same tolerance as in
`Images.Nearest`. -/
def NearestOfAll (sv : M3 K) (v : V3 K) : Prop :=
  ∀ a b c : ℤ, sq v ≤ sq (sub v (toCart sv ⟨a, b, c⟩)) + 1 / 500 * sq (toCart sv ⟨a, b, c⟩)

/-! ## Quadratic forms -/

/-- The products of three vectors with each other: `a.a`, `b.b`, `c.c`, `a.b`, `a.c`, `b.c`. -/
structure Gram (K : Type) where
  A : K
  B : K
  C : K
  D : K
  E : K
  F : K

/-- The products of the rows of a matrix. -/
def gram (sv : M3 K) : Gram K := ⟨sq sv.a, sq sv.b, sq sv.c, dot sv.a sv.b, dot sv.a sv.c, dot sv.b sv.c⟩

/-- The product of two vectors with given coefficients. -/
def Gram.bil (G : Gram K) (e1 e2 e3 g1 g2 g3 : K) : K :=
  e1 * (g1 * G.A + g2 * G.D + g3 * G.E) + e2 * (g1 * G.D + g2 * G.B + g3 * G.F) + e3 * (g1 * G.E + g2 * G.F + g3 * G.C)

/-- Squared length. -/
def Gram.quad (G : Gram K) (e1 e2 e3 : K) : K := G.bil e1 e2 e3 e1 e2 e3

/-- `IsReduced` for the products. -/
structure Gram.Red (G : Gram K) : Prop where
  a : ∀ e1 e2 e3 : ℤ, |e1| = 1 → |e2| ≤ 1 → |e3| ≤ 1 → G.A ≤ G.quad e1 e2 e3
  b : ∀ e1 e2 e3 : ℤ, |e1| ≤ 1 → |e2| = 1 → |e3| ≤ 1 → G.B ≤ G.quad e1 e2 e3
  c : ∀ e1 e2 e3 : ℤ, |e1| ≤ 1 → |e2| ≤ 1 → |e3| = 1 → G.C ≤ G.quad e1 e2 e3
  pos : 0 < G.A ∧ 0 < G.B ∧ 0 < G.C

/-- Exchange of the first two vectors. -/
def Gram.swap12 (G : Gram K) : Gram K := ⟨G.B, G.A, G.C, G.D, G.F, G.E⟩

/-- Exchange of the last two vectors. -/
def Gram.swap23 (G : Gram K) : Gram K := ⟨G.A, G.C, G.B, G.E, G.D, G.F⟩

/-- The first vector is reversed. -/
def Gram.flip (G : Gram K) : Gram K := ⟨G.A, G.B, G.C, -G.D, -G.E, G.F⟩

theorem Gram.Red.swap12 {G : Gram K} (h : G.Red) : G.swap12.Red := by
  have e : ∀ x y z : K, G.swap12.quad x y z = G.quad y x z := by
    intro x y z; simp only [Gram.quad, Gram.bil, Gram.swap12]; ring
  refine ⟨fun a b c h1 h2 h3 => ?_, fun a b c h1 h2 h3 => ?_, fun a b c h1 h2 h3 => ?_, h.pos.2.1, h.pos.1, h.pos.2.2⟩
  · rw [e]; exact h.b _ _ _ h2 h1 h3
  · rw [e]; exact h.a _ _ _ h2 h1 h3
  · rw [e]; exact h.c _ _ _ h2 h1 h3

theorem Gram.Red.swap23 {G : Gram K} (h : G.Red) : G.swap23.Red := by
  have e : ∀ x y z : K, G.swap23.quad x y z = G.quad x z y := by
    intro x y z; simp only [Gram.quad, Gram.bil, Gram.swap23]; ring
  refine ⟨fun a b c h1 h2 h3 => ?_, fun a b c h1 h2 h3 => ?_, fun a b c h1 h2 h3 => ?_, h.pos.1, h.pos.2.2, h.pos.2.1⟩
  · rw [e]; exact h.a _ _ _ h1 h3 h2
  · rw [e]; exact h.c _ _ _ h1 h3 h2
  · rw [e]; exact h.b _ _ _ h1 h3 h2

theorem Gram.Red.flip {G : Gram K} (h : G.Red) : G.flip.Red := by
  have e : ∀ (x y z : ℤ), G.flip.quad (x : K) y z = G.quad ((-x : ℤ) : K) y z := by
    intro x y z; simp only [Gram.quad, Gram.bil, Gram.flip]; push_cast; ring
  refine ⟨fun a b c h1 h2 h3 => ?_, fun a b c h1 h2 h3 => ?_, fun a b c h1 h2 h3 => ?_, h.pos⟩
  · rw [e]; exact h.a _ _ _ (by rwa [abs_neg]) h2 h3
  · rw [e]; exact h.b _ _ _ (by rwa [abs_neg]) h2 h3
  · rw [e]; exact h.c _ _ _ (by rwa [abs_neg]) h2 h3

/-- The inequalities used. -/
theorem Gram.Red.ineqs {G : Gram K} (h : G.Red) :
    0 ≤ G.B + 2 * G.D ∧ 0 ≤ G.A + 2 * G.D ∧ 0 ≤ G.C + 2 * G.E ∧ 0 ≤ G.A + 2 * G.E ∧ 0 ≤ G.C + 2 * G.F ∧ 0 ≤ G.B + 2 * G.F ∧
    G.A ≤ G.A + G.B + G.C + 2 * (G.D + G.E + G.F) ∧ G.B ≤ G.A + G.B + G.C + 2 * (G.D + G.E + G.F) ∧
    G.C ≤ G.A + G.B + G.C + 2 * (G.D + G.E + G.F) := by
  have h1 := h.a 1 1 0 (by simp) (by simp) (by simp)
  have h2 := h.b 1 1 0 (by simp) (by simp) (by simp)
  have h3 := h.a 1 0 1 (by simp) (by simp) (by simp)
  have h4 := h.c 1 0 1 (by simp) (by simp) (by simp)
  have h5 := h.b 0 1 1 (by simp) (by simp) (by simp)
  have h6 := h.c 0 1 1 (by simp) (by simp) (by simp)
  have h7 := h.a 1 1 1 (by simp) (by simp) (by simp)
  have h8 := h.b 1 1 1 (by simp) (by simp) (by simp)
  have h9 := h.c 1 1 1 (by simp) (by simp) (by simp)
  simp only [Gram.quad, Gram.bil] at *
  push_cast at *
  refine ⟨?_, ?_, ?_, ?_, ?_, ?_, ?_, ?_, ?_⟩ <;> linarith

theorem scalar (α β γ : K) (hα : 1 - 1 / 500 ≤ α) (hβ : 0 ≤ β) (hγ : 0 ≤ γ) :
    0 < α * (2 * α - (1 + 1 / 500)) + γ * (2 * γ + 2 * β - (1 + 1 / 500)) := by
  have h1 : (1 - 1 / 500) * (1 - 3 / 500) ≤ α * (2 * α - (1 + 1 / 500)) :=
    mul_le_mul hα (by linarith) (by norm_num) (by linarith)
  have h2 : 0 ≤ γ * β := mul_nonneg hγ hβ
  have h3 := sq_nonneg (γ - 1 / 4)
  nlinarith

/-- A vector with a coefficient of at least 2 is not in the Wigner-Seitz cell, even with the tolerance: coefficients in order. -/
theorem ordered {G : Gram K} (h : G.Red) (g1 g2 g3 : K) (h12 : g2 ≤ g1) (h23 : g3 ≤ g2) (h3 : 0 ≤ g3) (hg : 2 ≤ g1) :
    (1 + 1 / 500) * G.quad 1 0 0 < 2 * G.bil 1 0 0 g1 g2 g3 ∨ (1 + 1 / 500) * G.quad 1 1 0 < 2 * G.bil 1 1 0 g1 g2 g3 ∨
    (1 + 1 / 500) * G.quad 1 1 1 < 2 * G.bil 1 1 1 g1 g2 g3 := by
  by_contra hcon
  push Not at hcon
  obtain ⟨k1, k2, k3⟩ := hcon
  obtain ⟨i1, i2, i3, i4, i5, i6, i7, i8, i9⟩ := h.ineqs
  obtain ⟨pA, pB, pC⟩ := h.pos
  obtain ⟨A, B, C, D, E, F⟩ := G
  simp only [Gram.quad, Gram.bil] at *
  simp only [one_mul, zero_mul, add_zero] at k1 k2 k3
  have m1 := mul_nonneg (h3.trans h23) i2
  have m2 := mul_nonneg h3 i4
  have m3 := mul_le_mul_of_nonneg_left h12 pA.le
  have hγ : g1 - g3 ≤ 1 + 1 / 500 := by
    by_contra hlt
    push Not at hlt
    have : 0 < A * (g1 - g3 - (1 + 1 / 500)) := mul_pos pA (by linarith)
    linarith
  have hα : 1 - 1 / 500 ≤ g3 := by linarith
  obtain ⟨β, rfl⟩ : ∃ β, g2 = g3 + β := ⟨g2 - g3, by ring⟩
  obtain ⟨γ, rfl⟩ : ∃ γ, g1 = g3 + β + γ := ⟨g1 - (g3 + β), by ring⟩
  have hβ0 : 0 ≤ β := by linarith
  have hγ0 : 0 ≤ γ := by linarith
  have s1 := mul_le_mul_of_nonneg_left k3 h3
  have s2 := mul_le_mul_of_nonneg_left k2 hβ0
  have s3 := mul_le_mul_of_nonneg_left k1 hγ0
  have t1 : 0 ≤ g3 * β * (A + B + C + 2 * (D + E + F) - C) := mul_nonneg (mul_nonneg h3 hβ0) (by linarith)
  have t2 : 0 ≤ g3 * γ * (2 * A + 2 * D + 2 * E) := mul_nonneg (mul_nonneg h3 hγ0) (by linarith)
  have t3 : 0 ≤ β * γ * (A + 2 * D) := mul_nonneg (mul_nonneg hβ0 hγ0) (by linarith)
  have u1 : 0 ≤ g3 * (2 * g3 - (1 + 1 / 500)) * (A + B + C + 2 * (D + E + F) - A) :=
    mul_nonneg (mul_nonneg h3 (by linarith)) (by linarith)
  have u2 : 0 ≤ β * (2 * β + 2 * g3 - (1 + 1 / 500)) * (A + B + 2 * D) :=
    mul_nonneg (mul_nonneg hβ0 (by linarith)) (by linarith)
  have u3 := mul_pos pA (scalar g3 β γ hα hβ0 hγ0)
  linarith

/-- What is to be shown for coefficients in any order and with any signs. -/
def Leaves (G : Gram K) (g1 g2 g3 : K) : Prop :=
  ∃ e1 e2 e3 : ℤ, |e1| ≤ 1 ∧ |e2| ≤ 1 ∧ |e3| ≤ 1 ∧ 0 ≤ e1 * g1 ∧ 0 ≤ e2 * g2 ∧ 0 ≤ e3 * g3 ∧
    (1 + 1 / 500) * G.quad e1 e2 e3 < 2 * G.bil e1 e2 e3 g1 g2 g3

theorem Leaves.swap12 {G : Gram K} {g1 g2 g3 : K} (h : Leaves G.swap12 g2 g1 g3) : Leaves G g1 g2 g3 := by
  obtain ⟨e1, e2, e3, a1, a2, a3, b1, b2, b3, h⟩ := h
  refine ⟨e2, e1, e3, a2, a1, a3, b2, b1, b3, ?_⟩
  simp only [Gram.quad, Gram.bil, Gram.swap12] at h ⊢
  linarith

theorem Leaves.swap23 {G : Gram K} {g1 g2 g3 : K} (h : Leaves G.swap23 g1 g3 g2) : Leaves G g1 g2 g3 := by
  obtain ⟨e1, e2, e3, a1, a2, a3, b1, b2, b3, h⟩ := h
  refine ⟨e1, e3, e2, a1, a3, a2, b1, b3, b2, ?_⟩
  simp only [Gram.quad, Gram.bil, Gram.swap23] at h ⊢
  linarith

theorem Leaves.flip {G : Gram K} {g1 g2 g3 : K} (h : Leaves G.flip (-g1) g2 g3) : Leaves G g1 g2 g3 := by
  obtain ⟨e1, e2, e3, a1, a2, a3, b1, b2, b3, h⟩ := h
  refine ⟨-e1, e2, e3, by rwa [abs_neg], a2, a3, by push_cast; linarith, b2, b3, ?_⟩
  simp only [Gram.quad, Gram.bil, Gram.flip] at h ⊢
  push_cast
  linarith

theorem leaves_ordered {G : Gram K} (h : G.Red) (g1 g2 g3 : K) (h12 : g2 ≤ g1) (h23 : g3 ≤ g2) (h3 : 0 ≤ g3) (hg : 2 ≤ g1) :
    Leaves G g1 g2 g3 := by
  rcases ordered h g1 g2 g3 h12 h23 h3 hg with k | k | k
  · exact ⟨1, 0, 0, by simp, by simp, by simp, by simp; linarith, by simp, by simp, by push_cast; exact k⟩
  · exact ⟨1, 1, 0, by simp, by simp, by simp, by simp; linarith, by simp; linarith, by simp, by push_cast; exact k⟩
  · exact ⟨1, 1, 1, by simp, by simp, by simp, by simp; linarith, by simp; linarith, by simpa using h3,
      by push_cast; exact k⟩

theorem leaves_nonneg {G : Gram K} (h : G.Red) (g1 g2 g3 : K) (h1 : 0 ≤ g1) (h2 : 0 ≤ g2) (h3 : 0 ≤ g3)
    (hg : 2 ≤ g1 ∨ 2 ≤ g2 ∨ 2 ≤ g3) : Leaves G g1 g2 g3 := by
  rcases le_total g1 g2 with o12 | o12 <;> rcases le_total g2 g3 with o23 | o23 <;> rcases le_total g1 g3 with o13 | o13
  · have : 2 ≤ g3 := by rcases hg with h | h | h <;> linarith
    exact .swap12 (.swap23 (.swap12 (leaves_ordered h.swap12.swap23.swap12 g3 g2 g1 o23 o12 h1 this)))
  · have : 2 ≤ g3 := by rcases hg with h | h | h <;> linarith
    exact .swap12 (.swap23 (.swap12 (leaves_ordered h.swap12.swap23.swap12 g3 g2 g1 o23 o12 h1 this)))
  · have : 2 ≤ g2 := by rcases hg with h | h | h <;> linarith
    exact .swap12 (.swap23 (leaves_ordered h.swap12.swap23 g2 g3 g1 o23 o13 h1 this))
  · have : 2 ≤ g2 := by rcases hg with h | h | h <;> linarith
    exact .swap12 (leaves_ordered h.swap12 g2 g1 g3 o12 o13 h3 this)
  · have : 2 ≤ g3 := by rcases hg with h | h | h <;> linarith
    exact .swap23 (.swap12 (leaves_ordered h.swap23.swap12 g3 g1 g2 o13 o12 h2 this))
  · have : 2 ≤ g1 := by rcases hg with h | h | h <;> linarith
    exact .swap23 (leaves_ordered h.swap23 g1 g3 g2 o13 o23 h2 this)
  · have : 2 ≤ g1 := by rcases hg with h | h | h <;> linarith
    exact leaves_ordered h g1 g2 g3 o12 o23 h3 this
  · have : 2 ≤ g1 := by rcases hg with h | h | h <;> linarith
    exact leaves_ordered h g1 g2 g3 o12 o23 h3 this

theorem leaves_first {G : Gram K} (h : G.Red) (g1 g2 g3 : K) (h2 : 0 ≤ g2) (h3 : 0 ≤ g3)
    (hg : 2 ≤ |g1| ∨ 2 ≤ g2 ∨ 2 ≤ g3) : Leaves G g1 g2 g3 := by
  rcases le_total 0 g1 with o | o
  · exact leaves_nonneg h g1 g2 g3 o h2 h3 (by rwa [abs_of_nonneg o] at hg)
  · exact .flip (leaves_nonneg h.flip (-g1) g2 g3 (by linarith) h2 h3 (by rwa [abs_of_nonpos o] at hg))

theorem leaves_second {G : Gram K} (h : G.Red) (g1 g2 g3 : K) (h3 : 0 ≤ g3)
    (hg : 2 ≤ |g1| ∨ 2 ≤ |g2| ∨ 2 ≤ g3) : Leaves G g1 g2 g3 := by
  rcases le_total 0 g2 with o | o
  · exact leaves_first h g1 g2 g3 o h3 (by rwa [abs_of_nonneg o] at hg)
  · refine .swap12 (.flip ?_)
    exact .swap12 (leaves_first h.swap12.flip.swap12 g1 (-g2) g3 (by linarith) h3 (by rwa [abs_of_nonpos o] at hg))

theorem leaves {G : Gram K} (h : G.Red) (g1 g2 g3 : K) (hg : 2 ≤ |g1| ∨ 2 ≤ |g2| ∨ 2 ≤ |g3|) : Leaves G g1 g2 g3 := by
  rcases le_total 0 g3 with o | o
  · exact leaves_second h g1 g2 g3 o (by rwa [abs_of_nonneg o] at hg)
  · refine .swap23 (.swap12 (.flip (.swap12 (.swap23 ?_))))
    exact leaves_second h.swap23.swap12.flip.swap12.swap23 g1 g2 (-g3) (by linarith) (by rwa [abs_of_nonpos o] at hg)

/-- The conditions of the 26 neighbours for a vector with products `x1`, `x2`, `x3` with the lattice vectors. -/
def Inside (G : Gram K) (t x1 x2 x3 : K) : Prop :=
  ∀ e1 e2 e3 : ℤ, |e1| ≤ 1 → |e2| ≤ 1 → |e3| ≤ 1 → 2 * (e1 * x1 + e2 * x2 + e3 * x3) ≤ t * G.quad e1 e2 e3

theorem Inside.swap12 {G : Gram K} {t x1 x2 x3 : K} (h : Inside G t x1 x2 x3) : Inside G.swap12 t x2 x1 x3 := by
  intro e1 e2 e3 h1 h2 h3
  have := h e2 e1 e3 h2 h1 h3
  simp only [Gram.quad, Gram.bil, Gram.swap12] at this ⊢
  linarith

theorem Inside.swap23 {G : Gram K} {t x1 x2 x3 : K} (h : Inside G t x1 x2 x3) : Inside G.swap23 t x1 x3 x2 := by
  intro e1 e2 e3 h1 h2 h3
  have := h e1 e3 e2 h1 h3 h2
  simp only [Gram.quad, Gram.bil, Gram.swap23] at this ⊢
  linarith

theorem Inside.flip {G : Gram K} {t x1 x2 x3 : K} (h : Inside G t x1 x2 x3) : Inside G.flip t (-x1) x2 x3 := by
  intro e1 e2 e3 h1 h2 h3
  have := h (-e1) e2 e3 (by rwa [abs_neg]) h2 h3
  simp only [Gram.quad, Gram.bil, Gram.flip] at this ⊢
  push_cast at this
  linarith

/-- The condition of one lattice vector. -/
def Bounded (G : Gram K) (t x1 x2 x3 : K) (n1 n2 n3 : ℤ) : Prop :=
  2 * (n1 * x1 + n2 * x2 + n3 * x3) ≤ t * G.quad n1 n2 n3

theorem Bounded.swap12 {G : Gram K} {t x1 x2 x3 : K} {n1 n2 n3 : ℤ} (h : Bounded G.swap12 t x2 x1 x3 n2 n1 n3) :
    Bounded G t x1 x2 x3 n1 n2 n3 := by
  unfold Bounded at h ⊢
  simp only [Gram.quad, Gram.bil, Gram.swap12] at h ⊢
  linarith

theorem Bounded.swap23 {G : Gram K} {t x1 x2 x3 : K} {n1 n2 n3 : ℤ} (h : Bounded G.swap23 t x1 x3 x2 n1 n3 n2) :
    Bounded G t x1 x2 x3 n1 n2 n3 := by
  unfold Bounded at h ⊢
  simp only [Gram.quad, Gram.bil, Gram.swap23] at h ⊢
  linarith

theorem Bounded.flip {G : Gram K} {t x1 x2 x3 : K} {n1 n2 n3 : ℤ} (h : Bounded G.flip t (-x1) x2 x3 (-n1) n2 n3) :
    Bounded G t x1 x2 x3 n1 n2 n3 := by
  unfold Bounded at h ⊢
  simp only [Gram.quad, Gram.bil, Gram.flip] at h ⊢
  push_cast at h
  linarith

theorem int_sq (m : ℤ) (h : 0 ≤ m) : (m : K) ≤ (m : K) * m := by
  have : m ≤ m * m := by
    rcases h.eq_or_lt with rfl | h
    · simp
    · exact le_mul_of_one_le_left h.le h
  exact_mod_cast this

theorem bounded_ordered {G : Gram K} (h : G.Red) {t x1 x2 x3 : K} (ht : 0 ≤ t) (hi : Inside G t x1 x2 x3) (n1 n2 n3 : ℤ)
    (h12 : n2 ≤ n1) (h23 : n3 ≤ n2) (h3 : 0 ≤ n3) : Bounded G t x1 x2 x3 n1 n2 n3 := by
  obtain ⟨i1, i2, i3, i4, i5, i6, i7, i8, i9⟩ := h.ineqs
  obtain ⟨pA, pB, pC⟩ := h.pos
  have k1 := hi 1 0 0 (by simp) (by simp) (by simp)
  have k2 := hi 1 1 0 (by simp) (by simp) (by simp)
  have k3 := hi 1 1 1 (by simp) (by simp) (by simp)
  obtain ⟨A, B, C, D, E, F⟩ := G
  unfold Bounded
  simp only [Gram.quad, Gram.bil] at *
  simp only [Int.cast_one, Int.cast_zero, one_mul, zero_mul, add_zero] at k1 k2 k3
  obtain ⟨β, rfl⟩ : ∃ β, n2 = n3 + β := ⟨n2 - n3, by ring⟩
  obtain ⟨γ, rfl⟩ : ∃ γ, n1 = n3 + β + γ := ⟨n1 - (n3 + β), by ring⟩
  have hβ : 0 ≤ β := by omega
  have hγ : 0 ≤ γ := by omega
  have c3 : (0 : K) ≤ n3 := by exact_mod_cast h3
  have cβ : (0 : K) ≤ β := by exact_mod_cast hβ
  have cγ : (0 : K) ≤ γ := by exact_mod_cast hγ
  have s1 := mul_le_mul_of_nonneg_left k3 c3
  have s2 := mul_le_mul_of_nonneg_left k2 cβ
  have s3 := mul_le_mul_of_nonneg_left k1 cγ
  have t1 : 0 ≤ (n3 : K) * β * (A + B + C + 2 * (D + E + F) - C + (A + B + 2 * D)) := mul_nonneg (mul_nonneg c3 cβ) (by linarith)
  have t2 : 0 ≤ (n3 : K) * γ * (2 * A + 2 * D + 2 * E) := mul_nonneg (mul_nonneg c3 cγ) (by linarith)
  have t3 : 0 ≤ (β : K) * γ * (A + 2 * D + A) := mul_nonneg (mul_nonneg cβ cγ) (by linarith)
  have u1 : 0 ≤ ((n3 : K) * n3 - n3) * (A + B + C + 2 * (D + E + F)) :=
    mul_nonneg (sub_nonneg.2 (int_sq n3 h3)) (by linarith)
  have u2 : 0 ≤ ((β : K) * β - β) * (A + B + 2 * D) := mul_nonneg (sub_nonneg.2 (int_sq β hβ)) (by linarith)
  have u3 : 0 ≤ ((γ : K) * γ - γ) * A := mul_nonneg (sub_nonneg.2 (int_sq γ hγ)) pA.le
  have := mul_nonneg ht (add_nonneg (add_nonneg (add_nonneg t1 t2) t3) (add_nonneg (add_nonneg u1 u2) u3))
  push_cast
  linarith

theorem bounded_nonneg {G : Gram K} (h : G.Red) {t x1 x2 x3 : K} (ht : 0 ≤ t) (hi : Inside G t x1 x2 x3) (n1 n2 n3 : ℤ)
    (h1 : 0 ≤ n1) (h2 : 0 ≤ n2) (h3 : 0 ≤ n3) : Bounded G t x1 x2 x3 n1 n2 n3 := by
  rcases le_total n1 n2 with o12 | o12 <;> rcases le_total n2 n3 with o23 | o23 <;> rcases le_total n1 n3 with o13 | o13
  · exact .swap12 (.swap23 (.swap12 (bounded_ordered h.swap12.swap23.swap12 ht hi.swap12.swap23.swap12 n3 n2 n1 o23 o12 h1)))
  · exact .swap12 (.swap23 (.swap12 (bounded_ordered h.swap12.swap23.swap12 ht hi.swap12.swap23.swap12 n3 n2 n1 o23 o12 h1)))
  · exact .swap12 (.swap23 (bounded_ordered h.swap12.swap23 ht hi.swap12.swap23 n2 n3 n1 o23 o13 h1))
  · exact .swap12 (bounded_ordered h.swap12 ht hi.swap12 n2 n1 n3 o12 o13 h3)
  · exact .swap23 (.swap12 (bounded_ordered h.swap23.swap12 ht hi.swap23.swap12 n3 n1 n2 o13 o12 h2))
  · exact .swap23 (bounded_ordered h.swap23 ht hi.swap23 n1 n3 n2 o13 o23 h2)
  · exact bounded_ordered h ht hi n1 n2 n3 o12 o23 h3
  · exact bounded_ordered h ht hi n1 n2 n3 o12 o23 h3

theorem bounded_first {G : Gram K} (h : G.Red) {t x1 x2 x3 : K} (ht : 0 ≤ t) (hi : Inside G t x1 x2 x3) (n1 n2 n3 : ℤ)
    (h2 : 0 ≤ n2) (h3 : 0 ≤ n3) : Bounded G t x1 x2 x3 n1 n2 n3 := by
  rcases le_total 0 n1 with o | o
  · exact bounded_nonneg h ht hi n1 n2 n3 o h2 h3
  · exact .flip (bounded_nonneg h.flip ht hi.flip (-n1) n2 n3 (by omega) h2 h3)

theorem bounded_second {G : Gram K} (h : G.Red) {t x1 x2 x3 : K} (ht : 0 ≤ t) (hi : Inside G t x1 x2 x3) (n1 n2 n3 : ℤ)
    (h3 : 0 ≤ n3) : Bounded G t x1 x2 x3 n1 n2 n3 := by
  rcases le_total 0 n2 with o | o
  · exact bounded_first h ht hi n1 n2 n3 o h3
  · refine .swap12 (.flip (.swap12 ?_))
    exact bounded_first h.swap12.flip.swap12 ht hi.swap12.flip.swap12 n1 (-n2) n3 (by omega) h3

theorem bounded {G : Gram K} (h : G.Red) {t x1 x2 x3 : K} (ht : 0 ≤ t) (hi : Inside G t x1 x2 x3) (n1 n2 n3 : ℤ) :
    Bounded G t x1 x2 x3 n1 n2 n3 := by
  rcases le_total 0 n3 with o | o
  · exact bounded_second h ht hi n1 n2 n3 o
  · refine .swap23 (.swap12 (.flip (.swap12 (.swap23 ?_))))
    exact bounded_second h.swap23.swap12.flip.swap12.swap23 ht hi.swap23.swap12.flip.swap12.swap23 n1 n2 (-n3) (by omega)

/-! ## Lattices -/

theorem sq_toCart (sv : M3 K) (e1 e2 e3 : K) : sq (toCart sv ⟨e1, e2, e3⟩) = (gram sv).quad e1 e2 e3 := by
  simp only [Images.sq, dot, toCart, gram, Gram.quad, Gram.bil]
  ring

theorem dot_toCart (sv : M3 K) (g1 g2 g3 e1 e2 e3 : K) :
    dot (toCart sv ⟨g1, g2, g3⟩) (toCart sv ⟨e1, e2, e3⟩) = (gram sv).bil e1 e2 e3 g1 g2 g3 := by
  simp only [Images.sq, dot, toCart, gram, Gram.bil]
  ring

theorem sq_sub (u v : V3 K) : sq (sub u v) = sq u - 2 * dot u v + sq v := by
  simp only [Images.sq, dot, sub]
  ring

theorem sq_pos_of {v : V3 K} (h : v ≠ ⟨0, 0, 0⟩) : 0 < sq v := by
  unfold Images.sq dot
  rcases eq_or_ne v.x 0 with hx | hx
  · rcases eq_or_ne v.y 0 with hy | hy
    · rcases eq_or_ne v.z 0 with hz | hz
      · exact absurd (by cases v; simp_all) h
      · nlinarith [mul_self_pos.2 hz, mul_self_nonneg v.x, mul_self_nonneg v.y]
    · nlinarith [mul_self_pos.2 hy, mul_self_nonneg v.x, mul_self_nonneg v.z]
  · nlinarith [mul_self_pos.2 hx, mul_self_nonneg v.z, mul_self_nonneg v.y]

theorem gram_red {sv : M3 K} (h : IsReduced sv) (hv : cellVolume sv ≠ 0) : (gram sv).Red := by
  refine ⟨fun a b c h1 h2 h3 => ?_, fun a b c h1 h2 h3 => ?_, fun a b c h1 h2 h3 => ?_, ?_, ?_, ?_⟩
  · rw [← sq_toCart]; exact h.a a b c h1 h2 h3
  · rw [← sq_toCart]; exact h.b a b c h1 h2 h3
  · rw [← sq_toCart]; exact h.c a b c h1 h2 h3
  all_goals
    apply sq_pos_of
    intro h0
    apply hv
    unfold cellVolume cross dot
    rw [h0]
    ring

/-- `Nearest` in terms of products. -/
theorem nearest_iff (sv : M3 K) (v : V3 K) : Nearest sv v ↔
    ∀ a b c : ℤ, |a| ≤ 1 → |b| ≤ 1 → |c| ≤ 1 → 2 * dot v (toCart sv ⟨a, b, c⟩) ≤ (1 + 1 / 500) * sq (toCart sv ⟨a, b, c⟩) := by
  constructor
  · intro h a b c ha hb hc
    by_cases h0 : (a, b, c) = (0, 0, 0)
    · simp only [Prod.mk.injEq] at h0
      obtain ⟨rfl, rfl, rfl⟩ := h0
      simp [dot, toCart, Images.sq]
    · have := h a b c ha hb hc h0
      rw [sq_sub] at this
      linarith
  · intro h a b c ha hb hc _
    have := h a b c ha hb hc
    rw [sq_sub]
    linarith

/-- In a reduced lattice the 26 neighbours decide. -/
theorem nearestOfAll_iff {sv : M3 K} (h : IsReduced sv) (hv : cellVolume sv ≠ 0) (v : V3 K) :
    Nearest sv v ↔ NearestOfAll sv v := by
  have hlin : ∀ a b c : K, dot v (toCart sv ⟨a, b, c⟩) = a * dot v sv.a + b * dot v sv.b + c * dot v sv.c := by
    intro a b c
    simp only [dot, toCart]
    ring
  constructor
  · intro hn a b c
    rw [nearest_iff] at hn
    have hi : Inside (gram sv) (1 + 1 / 500) (dot v sv.a) (dot v sv.b) (dot v sv.c) := by
      intro e1 e2 e3 h1 h2 h3
      have := hn e1 e2 e3 h1 h2 h3
      rw [hlin, sq_toCart] at this
      exact this
    have := bounded (gram_red h hv) (by norm_num) hi a b c
    unfold Bounded at this
    rw [sq_sub, hlin, sq_toCart]
    linarith
  · intro hn a b c _ _ _ _
    exact hn a b c

/-- A vector with a coefficient of at least 2 is not nearest. -/
theorem not_nearest {sv : M3 K} (h : IsReduced sv) (hv : cellVolume sv ≠ 0) (g : V3 K)
    (hg : 2 ≤ |g.x| ∨ 2 ≤ |g.y| ∨ 2 ≤ |g.z|) : ¬ Nearest sv (toCart sv g) := by
  intro hn
  rw [nearest_iff] at hn
  obtain ⟨e1, e2, e3, a1, a2, a3, -, -, -, hl⟩ := leaves (gram_red h hv) g.x g.y g.z hg
  have := hn e1 e2 e3 a1 a2 a3
  rw [show toCart sv g = toCart sv ⟨g.x, g.y, g.z⟩ from rfl, dot_toCart, sq_toCart] at this
  linarith

/-! ## Pairs -/

/-- The vector between two atoms in units of the supercell vectors has no component above 1. -/
def WithinOne (S : M3 ℤ) (w : V3 K) (f : V3 K) : Prop :=
  |f.x| ≤ 1 ∧ |f.y| ≤ 1 ∧ |f.z| ≤ 1 ∧ w = ⟨f.x * S.a.x + f.y * S.b.x + f.z * S.c.x, f.x * S.a.y + f.y * S.b.y + f.z * S.c.y,
    f.x * S.a.z + f.y * S.b.z + f.z * S.c.z⟩

theorem pairVec_of {cv : M3 K} {S : M3 ℤ} {o0 o : V3 ℤ} {ri rj f : V3 K}
    (h : WithinOne S (sub (add (castV K o0) ri) (add (castV K o) rj)) f) (l : V3 ℤ) :
    pairVec cv S o0 o ri rj l = toCart (scVecs S cv) ⟨f.x - l.x, f.y - l.y, f.z - l.z⟩ := by
  obtain ⟨-, -, -, h⟩ := h
  unfold pairVec
  rw [h]
  simp only [sub, toCart, castV, mulMat, scVecs, V3.mk.injEq]
  push_cast
  refine ⟨?_, ?_, ?_⟩ <;> ring

theorem mem_shells {s : Nat} {images : List (V3 ℤ)} (h : imageShells s = .ok images) :
    images.Nodup ∧ ∀ l : V3 ℤ, l ∈ images ↔ |l.x| ≤ s ∧ |l.y| ≤ s ∧ |l.z| ≤ s := by
  obtain ⟨g, h1, h2, h3, -⟩ := C37_origins ⟨(s : ℤ) + 1, (s : ℤ) + 1, (s : ℤ) + 1⟩ ⟨-(s : ℤ), -(s : ℤ), -(s : ℤ)⟩
    (by dsimp only; omega) (by dsimp only; omega) (by dsimp only; omega)
  unfold imageShells at h
  rw [h1] at h
  cases h
  refine ⟨h3, fun l => ?_⟩
  rw [h2]
  simp only [abs_le]
  constructor <;> intro h <;> omega

theorem stays {f : K} (hf : |f| ≤ 1) (p e : ℤ) (hp : |p| ≤ 3) (he : |e| ≤ 1) (h : 0 ≤ (e : K) * (f - p)) : |p + e| ≤ 3 := by
  rw [abs_le] at *
  have he' : e = -1 ∨ e = 0 ∨ e = 1 := by omega
  rcases he' with rfl | rfl | rfl
  · by_cases hp3 : p = -3
    · subst hp3
      push_cast at h
      linarith
    · omega
  · omega
  · by_cases hp3 : p = 3
    · subst hp3
      push_cast at h
      linarith
    · omega

/-- There is a nearest image among the two shells. -/
theorem exists_nearest {sv : M3 K} (h : IsReduced sv) (hv : cellVolume sv ≠ 0) (f : V3 K) (hx : |f.x| ≤ 1) (hy : |f.y| ≤ 1)
    (hz : |f.z| ≤ 1) : ∃ l : V3 ℤ, |l.x| ≤ 2 ∧ |l.y| ≤ 2 ∧ |l.z| ≤ 2 ∧ Nearest sv (toCart sv ⟨f.x - l.x, f.y - l.y, f.z - l.z⟩) := by
  obtain ⟨box, hbox⟩ : ∃ box, imageShells 3 = .ok box := by
    obtain ⟨g, h1, -⟩ := C37_origins ⟨((3 : Nat) : ℤ) + 1, ((3 : Nat) : ℤ) + 1, ((3 : Nat) : ℤ) + 1⟩
      ⟨-((3 : Nat) : ℤ), -((3 : Nat) : ℤ), -((3 : Nat) : ℤ)⟩ (by norm_num) (by norm_num) (by norm_num)
    exact ⟨g, h1⟩
  obtain ⟨-, hm⟩ := mem_shells hbox
  obtain ⟨p, hp, hmin⟩ := box.toFinset.exists_min_image
    (fun l : V3 ℤ => Images.sq (toCart sv (⟨f.x - l.x, f.y - l.y, f.z - l.z⟩ : V3 K)))
    ⟨⟨0, 0, 0⟩, by rw [List.mem_toFinset, hm]; simp⟩
  rw [List.mem_toFinset, hm] at hp
  obtain ⟨p1, p2, p3⟩ := hp
  have hmove : ∀ e1 e2 e3 : ℤ, toCart sv (⟨f.x - ((p.x + e1 : ℤ) : K), f.y - ((p.y + e2 : ℤ) : K), f.z - ((p.z + e3 : ℤ) : K)⟩ : V3 K) =
      sub (toCart sv ⟨f.x - p.x, f.y - p.y, f.z - p.z⟩) (toCart sv ⟨e1, e2, e3⟩) := by
    intro e1 e2 e3
    simp only [toCart, sub, V3.mk.injEq]
    push_cast
    refine ⟨?_, ?_, ?_⟩ <;> ring
  have hin : |p.x| ≤ 2 ∧ |p.y| ≤ 2 ∧ |p.z| ≤ 2 := by
    by_contra hcon
    have hfar : 2 ≤ |f.x - p.x| ∨ 2 ≤ |f.y - p.y| ∨ 2 ≤ |f.z - p.z| := by
      have far : ∀ (x : K) (k : ℤ), |x| ≤ 1 → ¬ |k| ≤ 2 → 2 ≤ |x - k| := by
        intro x k hx hk
        have h3 : (3 : ℤ) ≤ |k| := by omega
        have h3' : (3 : K) ≤ |(k : K)| := by
          rw [← Int.cast_abs]; exact_mod_cast h3
        have := abs_sub_abs_le_abs_sub (k : K) x
        rw [abs_sub_comm] at this
        linarith
      by_cases q1 : |p.x| ≤ 2
      · by_cases q2 : |p.y| ≤ 2
        · exact .inr (.inr (far _ _ hz fun q3 => hcon ⟨q1, q2, q3⟩))
        · exact .inr (.inl (far _ _ hy q2))
      · exact .inl (far _ _ hx q1)
    obtain ⟨e1, e2, e3, a1, a2, a3, b1, b2, b3, hl⟩ := leaves (gram_red h hv) _ _ _ hfar
    have hmem : (⟨p.x + e1, p.y + e2, p.z + e3⟩ : V3 ℤ) ∈ box.toFinset := by
      rw [List.mem_toFinset, hm]
      exact ⟨stays hx _ _ p1 a1 b1, stays hy _ _ p2 a2 b2, stays hz _ _ p3 a3 b3⟩
    have hle := hmin _ hmem
    dsimp only at hle
    rw [hmove, sq_sub, dot_toCart, sq_toCart sv (e1 : K)] at hle
    have hq : 0 ≤ (gram sv).quad (e1 : K) e2 e3 := by
      rw [← sq_toCart]
      unfold Images.sq dot
      nlinarith [mul_self_nonneg (toCart sv (⟨e1, e2, e3⟩ : V3 K)).x, mul_self_nonneg (toCart sv (⟨e1, e2, e3⟩ : V3 K)).y,
        mul_self_nonneg (toCart sv (⟨e1, e2, e3⟩ : V3 K)).z]
    linarith
  refine ⟨p, hin.1, hin.2.1, hin.2.2, ?_⟩
  intro a b c ha hb hc _
  have hmem : (⟨p.x + a, p.y + b, p.z + c⟩ : V3 ℤ) ∈ box.toFinset := by
    rw [List.mem_toFinset, hm]
    refine ⟨?_, ?_, ?_⟩
    · have := abs_add_le p.x a; push_cast; omega
    · have := abs_add_le p.y b; push_cast; omega
    · have := abs_add_le p.z c; push_cast; omega
  have hle := hmin _ hmem
  dsimp only at hle
  rw [hmove] at hle
  have : 0 ≤ Images.sq (toCart sv (⟨a, b, c⟩ : V3 K)) := by
    unfold Images.sq dot
    nlinarith [mul_self_nonneg (toCart sv (⟨a, b, c⟩ : V3 K)).x, mul_self_nonneg (toCart sv (⟨a, b, c⟩ : V3 K)).y,
      mul_self_nonneg (toCart sv (⟨a, b, c⟩ : V3 K)).z]
  linarith

/-! ## Theorems -/

section
variable {N n : Nat}

/-- **C123** If the supercell vectors are reduced, each force constant is shared between exactly those images that are
nearest among all images, however far out, and there is at least one: for all pairs of atoms within one supercell.
*Missing:* supercells that are not reduced, see `C123_lost` and `C123_not_nearest`. -/
theorem C123_nearest_partial (cv : M3 K) (r : Fin n → V3 K) (cells : Fin N → V3 ℤ) (c0 : Fin N) (S : M3 ℤ)
    (images : List (V3 ℤ)) (hi : imageShells 2 = .ok images) (hv : cellVolume (scVecs S cv) ≠ 0)
    (hred : IsReduced (scVecs S cv)) (c : Fin N) (i j : Fin n)
    (hw : ∃ f, WithinOne S (sub (add (castV K (cells c0)) (r i)) (add (castV K (cells c)) (r j))) f) :
    let st := imageLoops cv r cells c0 S images
    ∃ L : List Nat, L ≠ [] ∧ L.Pairwise (· < ·)
      ∧ (∀ l : V3 ℤ, NearestOfAll (scVecs S cv) (pairVec cv S (cells c0) (cells c) (r i) (r j) l) ↔
          ∃ m ∈ L, images[m]? = some l)
      ∧ st.cnt c i j = L.length
      ∧ scImageI st c i j = L.map (fun (m : Nat) => (m : ℤ)) ++ List.replicate (maxCount st - L.length) (-1) := by
  intro st
  obtain ⟨L, h1, h2, h3, h4⟩ := C47_images cv r cells c0 S images hv c i j
  obtain ⟨f, hf⟩ := hw
  obtain ⟨-, hm⟩ := mem_shells hi
  have hin : ∀ l : V3 ℤ, Nearest (scVecs S cv) (pairVec cv S (cells c0) (cells c) (r i) (r j) l) → l ∈ images := by
    intro l hl
    rw [pairVec_of hf] at hl
    rw [hm]
    by_contra hcon
    refine not_nearest hred hv _ ?_ hl
    have far : ∀ (x : K) (k : ℤ), |x| ≤ 1 → ¬ |k| ≤ 2 → 2 ≤ |x - k| := by
      intro x k hx hk
      have h3 : (3 : ℤ) ≤ |k| := by omega
      have h3' : (3 : K) ≤ |(k : K)| := by
        rw [← Int.cast_abs]; exact_mod_cast h3
      have := abs_sub_abs_le_abs_sub (k : K) x
      rw [abs_sub_comm] at this
      linarith
    push_cast at hcon
    by_cases q1 : |l.x| ≤ 2
    · by_cases q2 : |l.y| ≤ 2
      · exact .inr (.inr (far _ _ hf.2.2.1 fun q3 => hcon ⟨q1, q2, q3⟩))
      · exact .inr (.inl (far _ _ hf.2.1 q2))
    · exact .inl (far _ _ hf.1 q1)
  have hall : ∀ l : V3 ℤ, NearestOfAll (scVecs S cv) (pairVec cv S (cells c0) (cells c) (r i) (r j) l) ↔
      ∃ m ∈ L, images[m]? = some l := by
    intro l
    rw [← nearestOfAll_iff hred hv]
    constructor
    · intro hl
      obtain ⟨m, hlt, rfl⟩ := List.getElem_of_mem (hin l hl)
      exact ⟨m, (h2 m).2 ⟨hlt, hl⟩, List.getElem?_eq_getElem hlt⟩
    · rintro ⟨m, hmL, he⟩
      obtain ⟨hlt, hn⟩ := (h2 m).1 hmL
      rw [List.getElem?_eq_getElem hlt] at he
      cases he
      exact hn
  refine ⟨L, ?_, h1, hall, h3, h4⟩
  rintro rfl
  obtain ⟨l, l1, l2, l3, hl⟩ := exists_nearest hred hv f hf.1 hf.2.1 hf.2.2.1
  rw [← pairVec_of hf, nearestOfAll_iff hred hv] at hl
  obtain ⟨m, hm', -⟩ := (hall l).1 hl
  simp at hm'

/-- **C123** In the usual case, `n1 * n2 * n3` unit cells with fractional coordinates between 0 and 1, all pairs are within
one supercell. -/
theorem C123_within_one (n1 n2 n3 : ℤ) (h1 : 0 < n1) (h2 : 0 < n2) (h3 : 0 < n3) (o : V3 ℤ) (ri rj : V3 K)
    (ho : (0 ≤ o.x ∧ o.x < n1) ∧ (0 ≤ o.y ∧ o.y < n2) ∧ (0 ≤ o.z ∧ o.z < n3))
    (hi : (0 ≤ ri.x ∧ ri.x ≤ 1) ∧ (0 ≤ ri.y ∧ ri.y ≤ 1) ∧ (0 ≤ ri.z ∧ ri.z ≤ 1))
    (hj : (0 ≤ rj.x ∧ rj.x ≤ 1) ∧ (0 ≤ rj.y ∧ rj.y ≤ 1) ∧ (0 ≤ rj.z ∧ rj.z ≤ 1)) :
    ∃ f, WithinOne (⟨⟨n1, 0, 0⟩, ⟨0, n2, 0⟩, ⟨0, 0, n3⟩⟩ : M3 ℤ)
      (sub (add (castV K ⟨0, 0, 0⟩) ri) (add (castV K o) rj)) f := by
  have key : ∀ (m k : ℤ) (x y : K), 0 < m → 0 ≤ k → k < m → 0 ≤ x → x ≤ 1 → 0 ≤ y → y ≤ 1 →
      |(x - (k + y)) / m| ≤ 1 ∧ (x - (k + y)) / m * m = x - (k + y) := by
    intro m k x y hm hk hkm hx hx1 hy hy1
    have hm' : (0 : K) < m := by exact_mod_cast hm
    have hk' : (0 : K) ≤ k := by exact_mod_cast hk
    have hkm' : (k : K) + 1 ≤ m := by exact_mod_cast hkm
    refine ⟨?_, div_mul_cancel₀ _ hm'.ne'⟩
    rw [abs_le, le_div_iff₀ hm', div_le_iff₀ hm']
    constructor <;> linarith
  obtain ⟨a1, b1⟩ := key n1 o.x ri.x rj.x h1 ho.1.1 ho.1.2 hi.1.1 hi.1.2 hj.1.1 hj.1.2
  obtain ⟨a2, b2⟩ := key n2 o.y ri.y rj.y h2 ho.2.1.1 ho.2.1.2 hi.2.1.1 hi.2.1.2 hj.2.1.1 hj.2.1.2
  obtain ⟨a3, b3⟩ := key n3 o.z ri.z rj.z h3 ho.2.2.1 ho.2.2.2 hi.2.2.1 hi.2.2.2 hj.2.2.1 hj.2.2.2
  refine ⟨⟨_, _, _⟩, a1, a2, a3, ?_⟩
  simp only [sub, add, castV, V3.mk.injEq]
  push_cast
  refine ⟨?_, ?_, ?_⟩
  · rw [b1]; ring
  · rw [b2]; ring
  · rw [b3]; ring

open Euphonic.DynMat

/-- **C123** At gamma every force constant then enters the dynamical matrix as it is. -/
theorem C123_gamma_partial (cv : M3 ℝ) (r : Fin n → V3 ℝ) (cells : Fin N → V3 ℤ) (c0 : Fin N) (S : M3 ℤ)
    (images : List (V3 ℤ)) (hi : imageShells 2 = .ok images) (hv : cellVolume (scVecs S cv) ≠ 0)
    (hred : IsReduced (scVecs S cv))
    (hw : ∀ c i j, ∃ f, WithinOne S (sub (add (castV ℝ (cells c0)) (r i)) (add (castV ℝ (cells c)) (r j))) f)
    (fc junk : Fin N → Mat n ℝ) (k l : Fin (n * 3)) :
    fcDynMat cv r cells c0 S images fc junk ⟨0, 0, 0⟩ k l = ∑ c, (fc c k l : ℂ) := by
  obtain ⟨hnd, -⟩ := mem_shells hi
  rw [C43_textbook cv r cells c0 S images hnd hv]
  unfold latticeSum
  apply Finset.sum_congr rfl
  intro c _
  have e : ∀ R : V3 ℤ, expQR ⟨0, 0, 0⟩ R = 1 := by
    intro R
    unfold expQR
    simp
  simp only [e, Finset.sum_const, nsmul_eq_mul, mul_one]
  apply div_mul_cancel₀
  obtain ⟨L, hL, -, -, hc, -⟩ := C123_nearest_partial cv r cells c0 S images hi hv hred c k.divNat l.divNat (hw _ _ _)
  obtain ⟨h1, -⟩ := imageLoops_rep cv r cells c0 S images hv c k.divNat l.divNat
  rw [good_length cv r cells c0 S images hnd, hc] at h1
  rw [← h1]
  simpa using hL

/-- **C123** The dynamical matrix and its gradient are then Hermitian for symmetric force constants at every q-point. -/
theorem C123_hermitian_partial (cv : M3 ℝ) (r : Fin n → V3 ℝ) (cells : Fin N → V3 ℤ) (c0 : Fin N) (S : M3 ℤ)
    (images : List (V3 ℤ)) (hi : imageShells 2 = .ok images) (hv : cellVolume (scVecs S cv) ≠ 0)
    (hred : IsReduced (scVecs S cv))
    (hw : ∀ c i j, ∃ f, WithinOne S (sub (add (castV ℝ (cells c0)) (r i)) (add (castV ℝ (cells c)) (r j))) f)
    {fc : Fin N → Mat n ℝ} {op : Fin N → Fin N} {t : Fin N → V3 ℤ} (hs : Symmetric cells S fc op t)
    (h0 : cells c0 = ⟨0, 0, 0⟩) (junk : Fin N → Mat n ℝ) (q : V3 ℝ) (k l : Fin (n * 3)) :
    fcDynMat cv r cells c0 S images fc junk q l k = star (fcDynMat cv r cells c0 S images fc junk q k l) := by
  obtain ⟨hnd, -⟩ := mem_shells hi
  refine (C43_hermitian cv r cells c0 S hs h0 images hnd ?_ hv junk q k l).1
  intro c i j m hm
  obtain ⟨L, -, -, hall, -, -⟩ := C123_nearest_partial cv r cells c0 S images hi hv hred c i j (hw _ _ _)
  obtain ⟨m', -, he⟩ := (hall m).1 ((nearestOfAll_iff hred hv _).1 hm)
  exact List.mem_of_getElem? he

end

/-! ## Cells that are not reduced -/

/-- The first two shells. -/
def shells2 : List (V3 ℤ) := (imageShells 2).toOption.getD []

theorem shells2_eq : imageShells 2 = .ok shells2 := by decide +kernel

/-- A simple cubic lattice of side 1 described by the vectors (1, 0, 0), (10, 1, 0), (0, 0, 1). -/
noncomputable def skewed : M3 ℝ := ⟨⟨1, 0, 0⟩, ⟨10, 1, 0⟩, ⟨0, 0, 1⟩⟩

/-- One unit cell. -/
def one : M3 ℤ := ⟨⟨1, 0, 0⟩, ⟨0, 1, 0⟩, ⟨0, 0, 1⟩⟩

open Euphonic.DynMat in
/-- **C123** *Violation:* in this cell no image is found for the pair of an atom at the origin and one at (0, 1/2, 0): the
force constants between them are divided by nothing (the array keeps uninitialised memory there) and do not enter the
dynamical matrix at any q-point. -/
theorem C123_lost (fc junk : Fin 1 → Mat 2 ℝ) (q : V3 ℝ) (k l : Fin (2 * 3)) (hk : k.divNat = 0) (hl : l.divNat = 1) :
    (imageLoops (N := 1) skewed ![⟨0, 0, 0⟩, ⟨0, 1 / 2, 0⟩] (fun _ => ⟨0, 0, 0⟩) 0 one shells2).cnt 0 0 1 = 0 ∧
    fcDynMat (N := 1) skewed ![⟨0, 0, 0⟩, ⟨0, 1 / 2, 0⟩] (fun _ => ⟨0, 0, 0⟩) 0 one shells2 fc junk q k l = 0 := by
  obtain ⟨hnd, hm⟩ := mem_shells shells2_eq
  have hv : cellVolume (scVecs one skewed) ≠ 0 := by
    norm_num [cellVolume, scVecs, one, skewed, toCart, castV, dot, cross]
  have hfar : ∀ m ∈ shells2, ¬ Nearest (scVecs one skewed)
      (pairVec skewed one ⟨0, 0, 0⟩ ⟨0, 0, 0⟩ (⟨0, 0, 0⟩ : V3 ℝ) ⟨0, 1 / 2, 0⟩ m) := by
    intro m hmem hn
    rw [hm] at hmem
    obtain ⟨hx, -, -⟩ := hmem
    rw [nearest_iff] at hn
    have h1 := hn 1 0 0 (by simp) (by simp) (by simp)
    have h2 := hn (-1) 0 0 (by simp) (by simp) (by simp)
    simp only [dot, Images.sq, toCart, pairVec, scVecs, skewed, one, castV, mulMat, sub, add] at h1 h2
    push_cast at h1 h2
    norm_num at h1 h2
    have hx1 : (m.x : ℝ) ≤ 2 := by exact_mod_cast (abs_le.1 hx).2
    have hx2 : (-2 : ℝ) ≤ m.x := by exact_mod_cast (abs_le.1 hx).1
    rcases le_or_gt 0 m.y with hy | hy
    · have : (0 : ℝ) ≤ m.y := by exact_mod_cast hy
      linarith
    · have : (m.y : ℝ) ≤ -1 := by exact_mod_cast (by omega : m.y ≤ -1)
      linarith
  have hempty : imageSet skewed ![⟨0, 0, 0⟩, ⟨0, 1 / 2, 0⟩] (fun _ : Fin 1 => (⟨0, 0, 0⟩ : V3 ℤ)) 0 one shells2 0 0 1 = ∅ := by
    refine Finset.eq_empty_of_forall_notMem fun m hmem => ?_
    unfold imageSet at hmem
    simp only [Finset.mem_filter] at hmem
    exact hfar m (List.mem_toFinset.1 hmem.1) hmem.2
  constructor
  · obtain ⟨h1, -⟩ := imageLoops_rep skewed ![⟨0, 0, 0⟩, ⟨0, 1 / 2, 0⟩] (fun _ : Fin 1 => (⟨0, 0, 0⟩ : V3 ℤ)) 0 one shells2 hv 0 0 1
    rw [h1, good_length _ _ _ _ _ _ hnd, hempty]
    rfl
  · rw [C43_textbook _ _ _ _ _ _ hnd hv]
    unfold latticeSum
    rw [hk, hl, Fin.sum_univ_one, hempty]
    simp

/-- The same lattice described by the vectors (1, 0, 0), (2, 1, 0), (0, 0, 1). -/
def skewed2 : M3 ℚ := ⟨⟨1, 0, 0⟩, ⟨2, 1, 0⟩, ⟨0, 0, 1⟩⟩

/-- **C123** *Violation:* in this cell the force constants of an atom at (1/5, 9/10, 0) with one at the origin are also given
to an image at a distance of 9/10, although another one is at a distance of 1/10. -/
theorem C123_not_nearest :
    (∃ m ∈ scImageI (imageLoops (N := 1) skewed2 (![⟨1 / 5, 9 / 10, 0⟩, ⟨0, 0, 0⟩] : Fin 2 → V3 ℚ) (fun _ => ⟨0, 0, 0⟩) 0 one
      shells2) 0 0 1, 0 ≤ m ∧ shells2[m.toNat]? = some ⟨2, 0, 0⟩) ∧
    pairVec skewed2 one ⟨0, 0, 0⟩ ⟨0, 0, 0⟩ (⟨1 / 5, 9 / 10, 0⟩ : V3 ℚ) ⟨0, 0, 0⟩ ⟨2, 0, 0⟩ = ⟨0, 9 / 10, 0⟩ ∧
    pairVec skewed2 one ⟨0, 0, 0⟩ ⟨0, 0, 0⟩ (⟨1 / 5, 9 / 10, 0⟩ : V3 ℚ) ⟨0, 0, 0⟩ ⟨0, 1, 0⟩ = ⟨0, -(1 / 10), 0⟩ ∧
    ¬ NearestOfAll (scVecs one skewed2) (⟨0, 9 / 10, 0⟩ : V3 ℚ) := by
  refine ⟨by decide +kernel, by decide +kernel, by decide +kernel, ?_⟩
  intro h
  have := h (-2) 1 0
  norm_num [Images.sq, dot, sub, toCart, scVecs, one, skewed2, castV] at this

/-- The conditions can be met: the primitive cell of a face-centred cubic lattice, twice in each direction. -/
example : ∃ cells : Fin 8 → V3 ℤ,
    let cv : M3 ℚ := ⟨⟨0, 1, 1⟩, ⟨1, 0, 1⟩, ⟨1, 1, 0⟩⟩
    let S : M3 ℤ := ⟨⟨2, 0, 0⟩, ⟨0, 2, 0⟩, ⟨0, 0, 2⟩⟩
    let r : Fin 2 → V3 ℚ := ![⟨0, 0, 0⟩, ⟨1 / 4, 1 / 4, 1 / 4⟩]
    cellVolume (scVecs S cv) ≠ 0 ∧ IsReduced (scVecs S cv) ∧ cells 0 = ⟨0, 0, 0⟩ ∧ ∀ c i j, ∃ f,
      WithinOne S (sub (add (castV ℚ (cells 0)) (r i)) (add (castV ℚ (cells c)) (r j))) f := by
  refine ⟨![⟨0, 0, 0⟩, ⟨0, 0, 1⟩, ⟨0, 1, 0⟩, ⟨0, 1, 1⟩, ⟨1, 0, 0⟩, ⟨1, 0, 1⟩, ⟨1, 1, 0⟩, ⟨1, 1, 1⟩], ?_, ?_, rfl, ?_⟩
  · norm_num [cellVolume, scVecs, toCart, castV, dot, cross]
  · have key : ∀ a b c : ℤ, (a = -1 ∨ a = 0 ∨ a = 1) → (b = -1 ∨ b = 0 ∨ b = 1) → (c = -1 ∨ c = 0 ∨ c = 1) → ¬ (a = 0 ∧ b = 0 ∧ c = 0) →
        (8 : ℚ) ≤ Images.sq (toCart (scVecs (⟨⟨2, 0, 0⟩, ⟨0, 2, 0⟩, ⟨0, 0, 2⟩⟩ : M3 ℤ)
          (⟨⟨0, 1, 1⟩, ⟨1, 0, 1⟩, ⟨1, 1, 0⟩⟩ : M3 ℚ)) ⟨a, b, c⟩) := by
      rintro a b c (rfl | rfl | rfl) (rfl | rfl | rfl) (rfl | rfl | rfl) h <;>
        first
        | exact absurd ⟨rfl, rfl, rfl⟩ h
        | norm_num [Images.sq, dot, toCart, scVecs, castV]
    have three : ∀ x : ℤ, |x| ≤ 1 → x = -1 ∨ x = 0 ∨ x = 1 := by intro x hx; rw [abs_le] at hx; omega
    refine ⟨fun a b c h1 h2 h3 => ?_, fun a b c h1 h2 h3 => ?_, fun a b c h1 h2 h3 => ?_⟩
    · exact (by norm_num [Images.sq, dot, toCart, scVecs, castV] : _ ≤ (8 : ℚ)).trans
        (key a b c (three a h1.le) (three b h2) (three c h3) (by rintro ⟨rfl, -, -⟩; simp at h1))
    · exact (by norm_num [Images.sq, dot, toCart, scVecs, castV] : _ ≤ (8 : ℚ)).trans
        (key a b c (three a h1) (three b h2.le) (three c h3) (by rintro ⟨-, rfl, -⟩; simp at h2))
    · exact (by norm_num [Images.sq, dot, toCart, scVecs, castV] : _ ≤ (8 : ℚ)).trans
        (key a b c (three a h1) (three b h2) (three c h3.le) (by rintro ⟨-, -, rfl⟩; simp at h3))
  · intro c i j
    apply C123_within_one 2 2 2 (by norm_num) (by norm_num) (by norm_num)
    · fin_cases c <;> decide
    · fin_cases i <;> norm_num
    · fin_cases j <;> norm_num

end Euphonic.Reduced
