import Verif.Model.GradWarn
import Verif.Props.Gradient
import Mathlib.Data.Fintype.Card
import Mathlib.Data.Fintype.Prod
import Mathlib.Tactic.Linarith
import Mathlib.Tactic.NormNum
import Mathlib.Tactic.FieldSimp
import Mathlib.Order.Bounds.Basic

/-!
# C147: the warning about complex mode gradients
-/

set_option autoImplicit false
set_option linter.unusedSectionVars false

namespace Euphonic.GradWarn

variable {K : Type} [Field K] [LinearOrder K] [IsStrictOrderedRing K] {nr m nq : Nat}

/-! ## Specification -/

/-- `M` is the largest absolute value of a real part. -/
def LargestReal (re : Ix nr m → K) (M : K) : Prop := IsGreatest (Set.range fun i => |re i|) M

/-- The imaginary part at `i` is above the threshold. -/
def Above (im : Ix nr m → K) (M : K) (i : Ix nr m) : Prop := M / 10 ^ 10 < im i

instance (im : Ix nr m → K) (M : K) : DecidablePred (Above im M) := fun _ => by unfold Above; infer_instance

/-- Row-major order of indices. -/
def Before (i j : Ix nr m) : Prop :=
  i.1 < j.1 ∨ i.1 = j.1 ∧ (i.2.1 < j.2.1 ∨ i.2.1 = j.2.1 ∧ i.2.2 < j.2.2)

/-! ## The indices -/

theorem mem_indices (i : Ix nr m) : i ∈ indices nr m := by
  obtain ⟨q, s, d⟩ := i
  simp [indices, List.mem_flatMap]

theorem indices_sorted : (indices nr m).Pairwise Before := by
  unfold indices
  rw [List.pairwise_flatMap]
  refine ⟨fun q _ => ?_, ?_⟩
  · rw [List.pairwise_flatMap]
    refine ⟨fun s _ => ?_, ?_⟩
    · rw [List.pairwise_map]
      exact (List.pairwise_lt_finRange 3).imp fun h => Or.inr ⟨rfl, Or.inr ⟨rfl, h⟩⟩
    · refine (List.pairwise_lt_finRange m).imp fun {a b} h x hx y hy => ?_
      simp only [List.mem_map] at hx hy
      obtain ⟨_, _, rfl⟩ := hx
      obtain ⟨_, _, rfl⟩ := hy
      exact Or.inr ⟨rfl, Or.inl h⟩
  · refine (List.pairwise_lt_finRange nr).imp fun {a b} h x hx y hy => ?_
    simp only [List.mem_flatMap, List.mem_map] at hx hy
    obtain ⟨_, _, _, _, rfl⟩ := hx
    obtain ⟨_, _, _, _, rfl⟩ := hy
    exact Or.inl h

theorem not_before_self (i : Ix nr m) : ¬ Before i i := by simp [Before]

theorem indices_nodup : (indices nr m).Nodup :=
  indices_sorted.imp fun {a b} h => by rintro rfl; exact not_before_self a h

theorem indices_length : (indices nr m).length = nr * m * 3 := by
  simp [indices, List.length_flatMap, Nat.mul_assoc]

theorem indices_toFinset : (indices nr m).toFinset = Finset.univ := by
  ext i
  simp [mem_indices]

/-! ## The largest real part -/

theorem foldl_max (xs : List K) (x : K) :
    (xs.foldl max x = x ∨ xs.foldl max x ∈ xs) ∧ x ≤ xs.foldl max x ∧ ∀ y ∈ xs, y ≤ xs.foldl max x := by
  induction xs generalizing x with
  | nil => simp
  | cons a l ih =>
    obtain ⟨h1, h2, h3⟩ := ih (max x a)
    simp only [List.foldl_cons]
    refine ⟨?_, (le_max_left _ _).trans h2, ?_⟩
    · rcases h1 with h | h
      · rcases max_choice x a with h' | h'
        · left; rw [h, h']
        · right; rw [h, h']; simp
      · right; simp [h]
    · intro y hy
      rcases List.mem_cons.1 hy with rfl | hy
      · exact (le_max_right _ _).trans h2
      · exact h3 y hy

theorem amax_spec {l : List K} {M : K} (h : IsGreatest {x | x ∈ l} M) : amax l = .ok M := by
  cases l with
  | nil => exact absurd h.1 (by simp)
  | cons x xs =>
    obtain ⟨h1, h2, h3⟩ := foldl_max xs x
    simp only [amax]
    congr 1
    refine le_antisymm (h.2 ?_) ?_
    · rcases h1 with h | h <;> simp [h]
    · rcases List.mem_cons.1 h.1 with h | h
      · rw [h]; exact h2
      · exact h3 M h

theorem largest_amax {re : Ix nr m → K} {M : K} (h : LargestReal re M) :
    amax ((indices nr m).map fun i => |re i|) = .ok M := by
  refine amax_spec ⟨?_, ?_⟩
  · obtain ⟨i, hi⟩ := h.1
    exact List.mem_map.2 ⟨i, mem_indices i, hi⟩
  · rintro x hx
    obtain ⟨i, -, rfl⟩ := List.mem_map.1 hx
    exact h.2 ⟨i, rfl⟩

theorem largest_nonneg {re : Ix nr m → K} {M : K} (h : LargestReal re M) : 0 ≤ M := by
  obtain ⟨i, hi⟩ := h.1
  rw [← hi]
  exact abs_nonneg _

theorem exists_largest (re : Ix nr m → K) (i : Ix nr m) : ∃ M, LargestReal re M := by
  have : ((Finset.univ : Finset (Ix nr m)).image fun i => |re i|).Nonempty :=
    ⟨|re i|, Finset.mem_image.2 ⟨i, Finset.mem_univ i, rfl⟩⟩
  refine ⟨((Finset.univ : Finset (Ix nr m)).image fun i => |re i|).max' this, ?_, ?_⟩
  · obtain ⟨j, -, hj⟩ := Finset.mem_image.1 (Finset.max'_mem _ this)
    exact ⟨j, hj⟩
  · rintro x ⟨j, rfl⟩
    exact Finset.le_max' ((Finset.univ : Finset (Ix nr m)).image fun i => |re i|) _
      (Finset.mem_image.2 ⟨j, Finset.mem_univ j, rfl⟩)

theorem unexpected_iff {M x : K} (h : 0 ≤ M) : unexpected M x = true ↔ M / 10 ^ 10 < x := by
  unfold unexpected
  rcases h.eq_or_lt with h | h
  · simp [← h]
  · rw [if_neg h.ne', decide_eq_true_iff, lt_div_iff₀ h]
    constructor <;> intro h' <;> linarith

theorem idx_eq {re im : Ix nr m → K} {M : K} (h : LargestReal re M) :
    ((indices nr m).filter fun i => unexpected M (im i)) = (indices nr m).filter fun i => decide (Above im M i) := by
  refine List.filter_congr fun i _ => ?_
  rw [Bool.eq_iff_iff, unexpected_iff (largest_nonneg h), decide_eq_true_iff]
  rfl

theorem take_print {α : Type} (l : List α) : l.take (if l.length < 5 then l.length else 5) = l.take 5 := by
  split
  · rw [List.take_length, List.take_of_length_le (by omega)]
  · rfl

theorem check_eq {re im : Ix nr m → K} {M : K} (h : LargestReal re M) :
    check re im = .ok (let l := (indices nr m).filter fun i => decide (Above im M i)
      if 0 < l.length then some ⟨l.length, nr * m * 3, l.take 5, (l.map im).take 5, M⟩ else none) := by
  unfold check
  rw [largest_amax h]
  simp only [bind, Except.bind, pure, Except.pure, idx_eq h, gt_iff_lt, indices_length, take_print]
  have : ∀ l : List (Ix nr m), (l.map im).take (if l.length < 5 then l.length else 5) = (l.map im).take 5 := by
    intro l
    have := take_print (l.map im)
    rwa [List.length_map] at this
  rw [this]
  split <;> simp

/-! ## Theorems -/

/-- The real parts are returned, for each q-point those of the reduced q-point that it stands for. -/
theorem C147_values (re im : Ix nr m → K) (inv : Fin nq → Fin nr) {w : Option (Warning K nr m)}
    {g : Fin nq → Fin m → Fin 3 → K} (h : castGradients re im inv = .ok (w, g)) (q : Fin nq) (s : Fin m) (d : Fin 3) :
    g q s d = re (inv q, s, d) := by
  unfold castGradients at h
  cases hc : check re im with
  | error e => rw [hc] at h; cases h
  | ok w' =>
    rw [hc] at h
    simp only [bind, Except.bind, pure, Except.pure, Except.ok.injEq, Prod.mk.injEq] at h
    rw [← h.2]

/-- A warning is given if and only if some imaginary part is larger than `1e-10` times the largest absolute value of a
real part. -/
theorem C147_warns (re im : Ix nr m → K) (inv : Fin nq → Fin nr) {M : K} (hM : LargestReal re M) :
    ∃ w g, castGradients re im inv = .ok (w, g) ∧ (w.isSome ↔ ∃ i, Above im M i) := by
  refine ⟨_, _, by unfold castGradients; rw [check_eq hM]; rfl, ?_⟩
  dsimp only
  constructor
  · intro h
    split at h
    · rename_i h'
      obtain ⟨i, hi⟩ := List.exists_mem_of_length_pos h'
      exact ⟨i, by simpa using (List.mem_filter.1 hi).2⟩
    · cases h
  · rintro ⟨i, hi⟩
    rw [if_pos (List.length_pos_of_mem (List.mem_filter.2 ⟨mem_indices i, by simpa using hi⟩))]
    rfl

/-- What the warning says: how many imaginary parts are above the threshold, of how many; the first five indices (in
row-major order, or all if there are fewer), the imaginary parts there; the largest real part. -/
theorem C147_text (re im : Ix nr m → K) (inv : Fin nq → Fin nr) {M : K} (hM : LargestReal re M) {w : Warning K nr m}
    {g : Fin nq → Fin m → Fin 3 → K} (h : castGradients re im inv = .ok (some w, g)) :
    w.count = (Finset.univ.filter (Above im M)).card ∧ w.size = nr * m * 3 ∧ w.maxReal = M
      ∧ w.at_.length = min 5 w.count ∧ w.at_.Pairwise Before
      ∧ (∀ i ∈ w.at_, Above im M i) ∧ (∀ i ∈ w.at_, ∀ j, Above im M j → j ∉ w.at_ → Before i j)
      ∧ w.values = w.at_.map im := by
  unfold castGradients at h
  rw [check_eq hM] at h
  simp only [bind, Except.bind, pure, Except.pure, Except.ok.injEq, Prod.mk.injEq] at h
  have h := h.1
  set l := (indices nr m).filter fun i => decide (Above im M i) with hl
  have hs : l.Pairwise Before := indices_sorted.filter _
  split at h
  · simp only [Option.some.injEq] at h
    subst h
    refine ⟨?_, rfl, rfl, ?_, ?_, ?_, ?_, ?_⟩
    · rw [← List.toFinset_card_of_nodup (indices_nodup.filter _), List.toFinset_filter, indices_toFinset]
      simp
    · simp
    · exact hs.sublist (List.take_sublist _ _)
    · intro i hi
      simpa using (List.mem_filter.1 (List.mem_of_mem_take hi)).2
    · intro i hi j hj hn
      have hj' : j ∈ l := List.mem_filter.2 ⟨mem_indices j, by simpa using hj⟩
      rw [← List.take_append_drop 5 l] at hj' hs
      exact (List.pairwise_append.1 hs).2.2 i hi j ((List.mem_append.1 hj').resolve_left hn)
    · simp [List.map_take]
  · cases h

/-- Without a warning no imaginary part is above the threshold. `_partial`: the full claim is that then no imaginary part
of more than `1e-10` times the largest real part has been dropped, whatever its sign; it does not hold, see
`C147_negative_lost`. -/
theorem C147_no_loss_partial (re im : Ix nr m → K) (inv : Fin nq → Fin nr) {M : K} (hM : LargestReal re M)
    {g : Fin nq → Fin m → Fin 3 → K} (h : castGradients re im inv = .ok (none, g)) (i : Ix nr m) :
    im i ≤ M / 10 ^ 10 ∧ (0 ≤ im i → |im i| ≤ M / 10 ^ 10) := by
  obtain ⟨w, g', hw, hiff⟩ := C147_warns re im inv hM
  rw [h] at hw
  simp only [Except.ok.injEq, Prod.mk.injEq] at hw
  have h1 : im i ≤ M / 10 ^ 10 := by
    by_contra hc
    have := hiff.2 ⟨i, not_le.1 hc⟩
    rw [← hw.1] at this
    cases this
  exact ⟨h1, fun h2 => by rwa [abs_of_nonneg h2]⟩

/-- Imaginary parts that are negative are dropped without a warning, however large they are compared to the real parts. -/
theorem C147_negative_lost (re : Ix nr m → K) (inv : Fin nq → Fin nr) (i : Ix nr m) (r : K) :
    ∃ im : Ix nr m → K, (∀ M, LargestReal re M → r * M < |im i|) ∧
      ∃ g, castGradients re im inv = .ok (none, g) ∧ ∀ q s d, g q s d = re (inv q, s, d) := by
  obtain ⟨M, hM⟩ := exists_largest re i
  have h0 := largest_nonneg hM
  refine ⟨fun _ => -(|r| * M + 1), ?_, ?_⟩
  · intro M' hM'
    rw [hM'.unique hM, abs_neg, abs_of_nonneg (by positivity)]
    have := mul_le_mul_of_nonneg_right (le_abs_self r) h0
    linarith
  · obtain ⟨w, g, hw, hiff⟩ := C147_warns re (fun _ => -(|r| * M + 1)) inv hM
    have hn : w = none := by
      rw [← Option.not_isSome_iff_eq_none, hiff]
      rintro ⟨j, hj⟩
      unfold Above at hj
      have h1 : 0 ≤ |r| * M := by positivity
      have h2 : 0 ≤ M / 10 ^ 10 := by positivity
      linarith
    subst hn
    exact ⟨g, hw, fun q s d => C147_values re _ inv hw q s d⟩

/-- The calculation fails with `ValueError` if and only if there is no q-point or no mode. -/
theorem C147_empty (re im : Ix nr m → K) (inv : Fin nq → Fin nr) :
    (castGradients re im inv).isOk = false ↔ nr = 0 ∨ m = 0 := by
  constructor
  · intro h
    by_contra hc
    push Not at hc
    obtain ⟨M, hM⟩ := exists_largest re (⟨0, by omega⟩, ⟨0, by omega⟩, 0)
    obtain ⟨w, g, hw, -⟩ := C147_warns re im inv hM
    rw [hw] at h
    cases h
  · intro h
    have hl : indices nr m = [] := by
      rw [← List.length_eq_zero_iff, indices_length]
      rcases h with rfl | rfl <;> simp
    unfold castGradients check
    rw [hl]
    rfl

theorem C147_empty_error (re im : Ix nr m → K) (inv : Fin nq → Fin nr) (e : Err)
    (h : castGradients re im inv = .error e) : e = .valueError := by
  unfold castGradients check amax at h
  cases hl : (indices nr m).map fun i => |re i| with
  | nil =>
    rw [hl] at h
    simp only [bind, Except.bind, Except.error.injEq] at h
    exact h.symm
  | cons x xs =>
    rw [hl] at h
    simp only [bind, Except.bind, pure, Except.pure] at h
    split at h <;> simp at h
    rename_i h'
    split at h' <;> simp at h'

open Euphonic.Gradient Euphonic.DynMat Euphonic.Lattice

/-- The computed mode gradients of a system with Hermitian matrices have no imaginary part. -/
theorem gradients_real {N n : Nat} (S : System N n) (dip : V3 ℝ → Option (Mat n ℂ)) (h : S.Good dip) (q : V3 ℝ)
    (s : Fin (n * 3)) (d : Fin 3) :
    (modeGradients (massWeighting S.mass) (S.eigh (S.M dip q)).1 (S.eigh (S.M dip q)).2
      (dynGrad S.cv S.fcw S.cells S.scOs S.img q) s d).im = 0 := by
  rw [← Complex.conj_eq_iff_im]
  unfold modeGradients
  rw [map_div₀, map_sum]
  have h2 : (starRingEnd ℂ) (2 * ((freqOf ((S.eigh (S.M dip q)).1 s) : ℝ) : ℂ))
      = 2 * ((freqOf ((S.eigh (S.M dip q)).1 s) : ℝ) : ℂ) := by
    rw [map_mul, Complex.conj_ofReal, Complex.conj_ofNat]
  rw [h2]
  congr 1
  simp only [map_sum]
  rw [Finset.sum_comm]
  refine Finset.sum_congr rfl fun j _ => Finset.sum_congr rfl fun k _ => ?_
  rw [C126_gradient_hermitian S.cv h.volume S.fcw S.cells S.scOs S.img h.hermitian q d j k, massWeighting_symm]
  simp only [map_mul, Complex.star_def, Complex.conj_conj, Complex.conj_ofReal]
  ring

/-- For a system with Hermitian matrices (see `C126`) there is no warning, and nothing is lost. -/
theorem C147_hermitian {N n : Nat} (S : System N n) (dip : V3 ℝ → Option (Mat n ℂ)) (h : S.Good dip) (hn : 0 < n)
    (hr : 0 < nr) (qs : Fin nr → V3 ℝ) (inv : Fin nq → Fin nr) :
    let G : Ix nr (n * 3) → ℂ := fun i =>
      modeGradients (massWeighting S.mass) (S.eigh (S.M dip (qs i.1))).1 (S.eigh (S.M dip (qs i.1))).2
        (dynGrad S.cv S.fcw S.cells S.scOs S.img (qs i.1)) i.2.1 i.2.2
    ∃ g, castGradients (fun i => (G i).re) (fun i => (G i).im) inv = .ok (none, g)
      ∧ ∀ q s d, (g q s d : ℂ) = G (inv q, s, d) := by
  intro G
  have him : ∀ i, (G i).im = 0 := fun i => gradients_real S dip h (qs i.1) i.2.1 i.2.2
  obtain ⟨M, hM⟩ := exists_largest (fun i => (G i).re) (⟨0, hr⟩, ⟨0, by omega⟩, 0)
  obtain ⟨w, g, hw, hiff⟩ := C147_warns (fun i => (G i).re) (fun i => (G i).im) inv hM
  have hnone : w = none := by
    rw [← Option.not_isSome_iff_eq_none, hiff]
    rintro ⟨j, hj⟩
    have hj : M / 10 ^ 10 < (G j).im := hj
    have h2 : 0 ≤ M / 10 ^ 10 := by
      have := largest_nonneg hM
      positivity
    rw [him j] at hj
    linarith
  subst hnone
  refine ⟨g, hw, fun q s d => ?_⟩
  rw [C147_values _ _ inv hw q s d]
  apply Complex.ext
  · simp
  · rw [him]; simp

/-! ## A case -/

/-- Real parts `1, -4, 2` and imaginary parts `1e-9, 3, -5` (times `1`): the threshold is `4e-10`; the first two are
reported, the last, the largest, is not; alone it is not noticed. -/
example :
    let re : Ix 1 1 → ℚ := fun i => ![1, -4, 2] i.2.2
    let im : Ix 1 1 → ℚ := fun i => ![1 / 10 ^ 9, 3, -5] i.2.2
    let only : Ix 1 1 → ℚ := fun i => ![0, 0, -5] i.2.2
    let inv : Fin 2 → Fin 1 := fun _ => 0
    LargestReal re 4
      ∧ (∃ g, castGradients re im inv = .ok (some ⟨2, 3, [(0, 0, 0), (0, 0, 1)], [1 / 10 ^ 9, 3], 4⟩, g) ∧ g 1 0 1 = -4)
      ∧ ∃ g, castGradients re only inv = .ok (none, g) ∧ g 1 0 2 = 2 := by
  intro re im only inv
  have hM : LargestReal re 4 := by
    refine ⟨⟨(0, 0, 1), by simp [re]⟩, ?_⟩
    rintro x ⟨⟨q, s, d⟩, rfl⟩
    fin_cases d <;> norm_num [re]
  have h1 : check re im = .ok (some ⟨2, 3, [(0, 0, 0), (0, 0, 1)], [1 / 10 ^ 9, 3], 4⟩) := by
    rw [check_eq hM]
    decide +kernel
  have h2 : check re only = .ok none := by
    rw [check_eq hM]
    decide +kernel
  refine ⟨hM, ⟨fun q s d => re (inv q, s, d), ?_, rfl⟩, ⟨fun q s d => re (inv q, s, d), ?_, rfl⟩⟩
  · unfold castGradients; rw [h1]; rfl
  · unfold castGradients; rw [h2]; rfl

end Euphonic.GradWarn
