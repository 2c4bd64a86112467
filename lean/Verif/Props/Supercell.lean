import Verif.Props.Origins
import Verif.Model.Supercell
import Mathlib.Data.Fintype.EquivFin

/-! # Properties C39-C41: supercell indices and conversion of force constants -/

set_option autoImplicit false
set_option linter.unusedSectionVars false

namespace Euphonic.Supercell

open Euphonic.Lattice

variable {K : Type} [Field K] [LinearOrder K] [IsStrictOrderedRing K] [FloorRing K]

/-! ## The supercell lattice -/

/-- `v` is an integer combination of the rows of `S`. -/
def InLattice (S : M3 ℤ) (v : V3 ℤ) : Prop := ∃ m : V3 ℤ, v = mulMat m S

theorem mulAdj_mulMat (v : V3 ℤ) (S : M3 ℤ) :
    mulMat (mulAdj v S) S = ⟨det S * v.x, det S * v.y, det S * v.z⟩ := by
  simp only [mulMat, mulAdj, det, V3.mk.injEq]
  refine ⟨?_, ?_, ?_⟩ <;> ring

theorem mulMat_mulAdj (m : V3 ℤ) (S : M3 ℤ) :
    mulAdj (mulMat m S) S = ⟨det S * m.x, det S * m.y, det S * m.z⟩ := by
  simp only [mulMat, mulAdj, det, V3.mk.injEq]
  refine ⟨?_, ?_, ?_⟩ <;> ring

theorem mulAdj_sub (u v : V3 ℤ) (S : M3 ℤ) :
    mulAdj (sub u v) S = sub (mulAdj u S) (mulAdj v S) := by
  simp only [mulAdj, sub, V3.mk.injEq]
  refine ⟨?_, ?_, ?_⟩ <;> ring

theorem fracSc_sub (u v : V3 ℤ) (S : M3 ℤ) :
    fracSc K S (sub u v) = sub (fracSc K S u) (fracSc K S v) := by
  rw [fracSc, mulAdj_sub]
  simp only [fracSc, sub, V3.mk.injEq]
  push_cast
  refine ⟨?_, ?_, ?_⟩ <;> ring

theorem inLattice_iff (S : M3 ℤ) (hS : det S ≠ 0) (v : V3 ℤ) :
    InLattice S v ↔ ∃ m : V3 ℤ, mulAdj v S = ⟨det S * m.x, det S * m.y, det S * m.z⟩ := by
  constructor
  · rintro ⟨m, rfl⟩
    exact ⟨m, mulMat_mulAdj m S⟩
  · rintro ⟨m, hm⟩
    refine ⟨m, ?_⟩
    have h := mulAdj_mulMat v S
    rw [hm] at h
    obtain ⟨v1, v2, v3⟩ := v
    simp only [mulMat, V3.mk.injEq] at h ⊢
    obtain ⟨h1, h2, h3⟩ := h
    refine ⟨?_, ?_, ?_⟩ <;> apply mul_left_cancel₀ hS
    · rw [← h1]; ring
    · rw [← h2]; ring
    · rw [← h3]; ring

theorem InLattice.sub {S : M3 ℤ} {u v : V3 ℤ} (hu : InLattice S u) (hv : InLattice S v) :
    InLattice S (Lattice.sub u v) := by
  obtain ⟨a, rfl⟩ := hu
  obtain ⟨b, rfl⟩ := hv
  refine ⟨Lattice.sub a b, ?_⟩
  simp only [mulMat, Lattice.sub, V3.mk.injEq]
  refine ⟨?_, ?_, ?_⟩ <;> ring

theorem InLattice.zero (S : M3 ℤ) : InLattice S ⟨0, 0, 0⟩ := ⟨⟨0, 0, 0⟩, by simp [mulMat]⟩

/-- A fraction with denominator `d` is an integer or at least `1/|d|` away from every integer. -/
theorem rem_div (m d : ℤ) (hd : d ≠ 0) :
    (∃ r : ℤ, m = d * r ∧ |((m : K) / d) - rint ((m : K) / d)| = 0) ∨
    1 / |(d : K)| ≤ |((m : K) / d) - rint ((m : K) / d)| := by
  have hd' : (d : K) ≠ 0 := Int.cast_ne_zero.2 hd
  set r := rint ((m : K) / d) with hr
  by_cases h : m = d * r
  · left
    refine ⟨r, h, ?_⟩
    rw [abs_eq_zero, sub_eq_zero, div_eq_iff hd']
    calc (m : K) = ((d * r : ℤ) : K) := by rw [← h]
      _ = r * d := by push_cast; ring
  · right
    have h1 : (m : K) / d - r = ((m - d * r : ℤ) : K) / d := by
      push_cast; field_simp
    rw [h1, abs_div]
    apply div_le_div_of_nonneg_right _ (abs_nonneg _)
    have h2 : (1 : ℤ) ≤ |m - d * r| := Int.one_le_abs (sub_ne_zero.2 h)
    have h3 : ((1 : ℤ) : K) ≤ ((|m - d * r| : ℤ) : K) := Int.cast_le.2 h2
    simpa using h3

/-- `v` is the difference of two supercell lattice points: either the distance vanishes and it is, or the
distance is at least `1/|det S|` and it is not. -/
theorem dist_dichotomy (S : M3 ℤ) (hS : det S ≠ 0) (v : V3 ℤ) :
    (InLattice S v ∧ sumAbs (rem (fracSc K S v)) = 0) ∨
    (¬ InLattice S v ∧ 1 / |(det S : K)| ≤ sumAbs (rem (fracSc K S v))) := by
  have hx := rem_div (K := K) (mulAdj v S).x (det S) hS
  have hy := rem_div (K := K) (mulAdj v S).y (det S) hS
  have hz := rem_div (K := K) (mulAdj v S).z (det S) hS
  have hd' : (det S : K) ≠ 0 := Int.cast_ne_zero.2 hS
  by_cases hin : InLattice S v
  · left
    refine ⟨hin, ?_⟩
    obtain ⟨m, hm⟩ := (inLattice_iff S hS v).1 hin
    have h0 : ∀ r : ℤ, ((det S * r : ℤ) : K) / det S = (r : K) := by
      intro r; push_cast; field_simp
    simp only [sumAbs, rem, fracSc, hm, h0, rint_intCast, sub_self, abs_zero, add_zero]
  · right
    refine ⟨hin, ?_⟩
    simp only [sumAbs, rem, fracSc]
    have nx := abs_nonneg (((mulAdj v S).x : K) / det S - rint (((mulAdj v S).x : K) / det S))
    have ny := abs_nonneg (((mulAdj v S).y : K) / det S - rint (((mulAdj v S).y : K) / det S))
    have nz := abs_nonneg (((mulAdj v S).z : K) / det S - rint (((mulAdj v S).z : K) / det S))
    rcases hx with ⟨r1, h1, _⟩ | h1
    · rcases hy with ⟨r2, h2, _⟩ | h2
      · rcases hz with ⟨r3, h3, _⟩ | h3
        · exact absurd ((inLattice_iff S hS v).2 ⟨⟨r1, r2, r3⟩, by
            rw [← h1, ← h2, ← h3]⟩) hin
        · linarith
      · linarith
    · linarith

theorem sumAbs_nonneg (v : V3 K) : 0 ≤ sumAbs v := by
  unfold sumAbs; positivity

theorem relDist_eq (S : M3 ℤ) {n : Nat} (os : Fin n → V3 ℤ) (nc j k : Fin n) :
    relDist K S os nc j k =
      sumAbs (rem (fracSc K S (Lattice.sub (Lattice.sub (os j) (os nc)) (os k)))) := by
  unfold relDist
  rw [fracSc_sub, fracSc_sub]

/-! ## The chunked search -/

theorem foldl_argmin {n : Nat} (v : Fin n → K) (l : List (Fin n)) (a : Fin n)
    (hs : (a :: l).Pairwise (· < ·)) :
    let r := l.foldl (fun best x => if v x < v best then x else best) a
    r ∈ a :: l ∧ ∀ x ∈ a :: l, v r ≤ v x ∧ (v x = v r → r ≤ x) := by
  induction l generalizing a with
  | nil => simp
  | cons b l ih =>
    rw [List.foldl_cons]
    have hab : a < b := (List.pairwise_cons.1 hs).1 b (by simp)
    have hbl : (b :: l).Pairwise (· < ·) := (List.pairwise_cons.1 hs).2
    have hal : (a :: l).Pairwise (· < ·) := by
      rw [List.pairwise_cons]
      exact ⟨fun x hx => (List.pairwise_cons.1 hs).1 x (List.mem_cons_of_mem _ hx),
        (List.pairwise_cons.1 hbl).2⟩
    by_cases h : v b < v a
    · rw [if_pos h]
      obtain ⟨h1, h2⟩ := ih b hbl
      refine ⟨List.mem_cons_of_mem _ h1, fun x hx => ?_⟩
      rcases List.mem_cons.1 hx with rfl | hx
      · have := (h2 b (by simp)).1
        exact ⟨this.trans h.le, fun e => absurd (this.trans_lt h) (by rw [e]; exact lt_irrefl _)⟩
      · exact h2 x hx
    · rw [if_neg h]
      obtain ⟨h1, h2⟩ := ih a hal
      refine ⟨?_, fun x hx => ?_⟩
      · rcases List.mem_cons.1 h1 with e | h1
        · rw [e]; simp
        · exact List.mem_cons_of_mem _ (List.mem_cons_of_mem _ h1)
      · rcases List.mem_cons.1 hx with rfl | hx
        · exact h2 _ (by simp)
        · rcases List.mem_cons.1 hx with rfl | hx
          · have ha := h2 a (by simp)
            refine ⟨ha.1.trans (not_lt.1 h), fun e => ?_⟩
            have : v a = v (l.foldl (fun best x => if v x < v best then x else best) a) :=
              le_antisymm (by rw [← e]; exact not_lt.1 h) ha.1
            exact (ha.2 this).trans hab.le
          · exact h2 x (List.mem_cons_of_mem _ hx)

theorem argmin_spec {n : Nat} (v : Fin n → K) (l : List (Fin n)) (hs : l.Pairwise (· < ·)) :
    (l = [] ∧ argminFirst v l = none) ∨
    ∃ r, argminFirst v l = some r ∧ r ∈ l ∧ ∀ x ∈ l, v r ≤ v x ∧ (v x = v r → r ≤ x) := by
  cases l with
  | nil => exact Or.inl ⟨rfl, rfl⟩
  | cons a l => exact Or.inr ⟨_, rfl, foldl_argmin v l a hs⟩

/-- What the search knows about column `j` after looking at the first `m` cells. -/
def Found {n : Nat} (d : Fin n → Fin n → K) (thr : K) (m : Nat) (st : Fin n → K × Nat) : Prop :=
  ∀ j, (∃ k : Fin n, k.val < m ∧ d j k = 0 ∧ (∀ k' : Fin n, k' < k → d j k' ≠ 0) ∧
      st j = (0, k.val)) ∨
    ((∀ k : Fin n, k.val < m → d j k ≠ 0) ∧ thr < (st j).1)

theorem mem_chunk (n i N : Nat) (k : Fin n) :
    k ∈ ((List.finRange n).drop (i * N)).take N ↔ i * N ≤ k.val ∧ k.val < i * N + N := by
  rw [List.mem_take_iff_getElem]
  constructor
  · rintro ⟨p, hp, h⟩
    simp only [List.length_drop, List.length_finRange, List.getElem_drop, List.getElem_finRange] at h hp
    rw [← h]
    simp only [Fin.val_cast]
    omega
  · rintro ⟨h1, h2⟩
    refine ⟨k.val - i * N, ?_, ?_⟩
    · simp only [List.length_drop, List.length_finRange]
      have := k.isLt
      omega
    · simp only [List.getElem_drop, List.getElem_finRange]
      apply Fin.ext
      simp only [Fin.val_cast]
      omega

theorem sorted_chunk (n i N : Nat) :
    (((List.finRange n).drop (i * N)).take N).Pairwise (· < ·) := by
  apply List.Pairwise.sublist (List.take_sublist _ _)
  apply List.Pairwise.sublist (List.drop_sublist _ _)
  exact List.pairwise_lt_finRange n

theorem chunkStep_found {n : Nat} (d : Fin n → Fin n → K) (thr : K) (hthr : 0 ≤ thr)
    (hd0 : ∀ j k, 0 ≤ d j k) (hdisc : ∀ j k, d j k ≤ thr → d j k = 0) (i N : Nat)
    (st : Fin n → K × Nat) (h : Found d thr (i * N) st) :
    Found d thr ((i + 1) * N)
      (chunkStep d (((List.finRange n).drop (i * N)).take N) st) := by
  intro j
  unfold chunkStep
  have hmul : (i + 1) * N = i * N + N := by ring
  rcases h j with ⟨k, h1, h2, h3, h4⟩ | ⟨h1, h2⟩
  · left
    refine ⟨k, by omega, h2, h3, ?_⟩
    rw [h4]
    cases argminFirst (d j) (((List.finRange n).drop (i * N)).take N) with
    | none => rfl
    | some r => dsimp only; rw [if_neg (not_lt.2 (hd0 j r))]
  · rcases argmin_spec (d j) _ (sorted_chunk n i N) with ⟨e1, e2⟩ | ⟨r, e1, e2, e3⟩
    · rw [e2]
      right
      refine ⟨fun k hk => ?_, h2⟩
      by_cases hlt : k.val < i * N
      · exact h1 k hlt
      · have := (mem_chunk n i N k).2 ⟨by omega, by omega⟩
        rw [e1] at this
        simp at this
    · rw [e1]
      dsimp only
      by_cases hz : d j r = 0
      · left
        have hr := (mem_chunk n i N r).1 e2
        refine ⟨r, by omega, hz, fun k' hk' e => ?_, ?_⟩
        · by_cases hlt : k'.val < i * N
          · exact h1 k' hlt e
          · have hm := (mem_chunk n i N k').2 ⟨by omega, by
              have : k'.val < r.val := hk'
              omega⟩
            have := (e3 k' hm).2 (by rw [e, hz])
            exact absurd hk' (not_lt.2 this)
        · rw [hz, if_pos (hthr.trans_lt h2)]
      · right
        refine ⟨fun k hk e => ?_, ?_⟩
        · by_cases hlt : k.val < i * N
          · exact h1 k hlt e
          · have hm := (mem_chunk n i N k).2 ⟨by omega, by omega⟩
            have := (e3 k hm).1
            rw [e] at this
            exact hz (le_antisymm this (hd0 j r))
        · split
          · dsimp only
            by_contra hle
            exact hz (hdisc j r (not_lt.1 hle))
          · exact h2

theorem chunkLoop_found {n : Nat} (d : Fin n → Fin n → K) (thr : K) (hthr : 0 ≤ thr)
    (hd0 : ∀ j k, 0 ≤ d j k) (hdisc : ∀ j k, d j k ≤ thr → d j k = 0) (N : Nat) (c i : Nat)
    (st : Fin n → K × Nat) (h : Found d thr (i * N) st) :
    ∃ m, Found d thr m (chunkLoop d thr N (List.range' i c) st) ∧
      (m = (i + c) * N ∨ ∀ j, (chunkLoop d thr N (List.range' i c) st j).1 ≤ thr) := by
  induction c generalizing i st with
  | zero => exact ⟨i * N, by simpa [chunkLoop] using h, Or.inl rfl⟩
  | succ c ih =>
    rw [List.range'_succ]
    unfold chunkLoop
    dsimp only
    have hstep := chunkStep_found d thr hthr hd0 hdisc i N st h
    split
    · rename_i hall
      exact ⟨_, hstep, Or.inr hall⟩
    · obtain ⟨m, h1, h2⟩ := ih (i + 1) _ hstep
      refine ⟨m, h1, ?_⟩
      rcases h2 with h2 | h2
      · left; rw [h2]; congr 1; omega
      · exact Or.inr h2

/-- The search succeeds iff every column has a cell at distance zero, and then returns the first one,
whatever the chunk size. -/
theorem relRow_spec {n : Nat} (d : Fin n → Fin n → K) (fmax thr : K) (hthr : 0 ≤ thr)
    (hf : thr < fmax) (hd0 : ∀ j k, 0 ≤ d j k) (hdisc : ∀ j k, d j k ≤ thr → d j k = 0) (N : Nat)
    (hN : 0 < N) :
    (∀ f, relRow d fmax thr N = .ok f →
      ∀ j, ∃ k : Fin n, f j = k.val ∧ d j k = 0 ∧ ∀ k' : Fin n, k' < k → d j k' ≠ 0) ∧
    ((∀ j, ∃ k, d j k = 0) → ∃ f, relRow d fmax thr N = .ok f) := by
  have h0 : Found d thr (0 * N) (fun _ => ((fmax, 0) : K × Nat)) := by
    intro j
    right
    exact ⟨fun k hk => by simp at hk, hf⟩
  obtain ⟨m, h1, h2⟩ := chunkLoop_found d thr hthr hd0 hdisc N ((n - 1) / N + 1) 0 _ h0
  rw [← List.range_eq_range'] at h1 h2
  have hcover : n ≤ ((n - 1) / N + 1) * N := by
    have h3 := Nat.div_add_mod (n - 1) N
    have h4 := Nat.mod_lt (n - 1) hN
    have h5 : ((n - 1) / N + 1) * N = N * ((n - 1) / N) + N := by ring
    omega
  constructor
  · intro f hok j
    unfold relRow at hok
    dsimp only at hok
    split at hok
    · cases hok
    · rename_i hne
      push Not at hne
      have hfeq := Except.ok.inj hok
      rcases h1 j with ⟨k, _, e2, e3, e4⟩ | ⟨_, e2⟩
      · exact ⟨k, by rw [← hfeq]; exact congrArg Prod.snd e4, e2, e3⟩
      · exact absurd e2 (not_lt.2 (hne j))
  · intro hex
    unfold relRow
    dsimp only
    rw [if_neg]
    · exact ⟨_, rfl⟩
    · rintro ⟨j, hj⟩
      rcases h2 with h2 | h2
      · rcases h1 j with ⟨k, _, _, _, e4⟩ | ⟨e1, _⟩
        · rw [e4] at hj
          exact absurd hj (not_lt.2 hthr)
        · obtain ⟨k, hk⟩ := hex j
          exact e1 k (by have := k.isLt; simp only [Nat.zero_add] at h2; omega) hk
      · exact absurd hj (not_lt.2 (h2 j))

/-! ## C39 -/

/-- The numeric setting: the threshold is not negative, below `1/|det S|` and below the largest float. -/
structure Numeric (S : M3 ℤ) (fmax thr : K) (N : Nat) : Prop where
  det_ne : det S ≠ 0
  thr_nonneg : 0 ≤ thr
  thr_lt : thr * |(det S : K)| < 1
  lt_fmax : thr < fmax
  chunk_pos : 0 < N

theorem relDist_facts (S : M3 ℤ) {fmax thr : K} {N : Nat} (hn : Numeric S fmax thr N) {n : Nat}
    (os : Fin n → V3 ℤ) (nc j k : Fin n) :
    0 ≤ relDist K S os nc j k ∧ (relDist K S os nc j k ≤ thr → relDist K S os nc j k = 0) ∧
    (relDist K S os nc j k = 0 ↔
      InLattice S (Lattice.sub (Lattice.sub (os j) (os nc)) (os k))) := by
  have hd : (0 : K) < |(det S : K)| := abs_pos.2 (Int.cast_ne_zero.2 hn.det_ne)
  rw [relDist_eq]
  refine ⟨sumAbs_nonneg _, ?_, ?_⟩
  · intro h
    rcases dist_dichotomy (K := K) S hn.det_ne (Lattice.sub (Lattice.sub (os j) (os nc)) (os k)) with
      h1 | h1
    · exact h1.2
    · exfalso
      have h2 := h1.2.trans h
      rw [div_le_iff₀ hd] at h2
      linarith [hn.thr_lt]
  · rcases dist_dichotomy (K := K) S hn.det_ne (Lattice.sub (Lattice.sub (os j) (os nc)) (os k)) with
      h1 | h1
    · exact ⟨fun _ => h1.1, fun _ => h1.2⟩
    · refine ⟨fun h => ?_, fun h => absurd h h1.1⟩
      exfalso
      have h2 := h1.2
      rw [h, div_le_iff₀ hd] at h2
      linarith

/-- The cell `k` is the translation from `i` to `j`, modulo the supercell. -/
def IsTranslation (S : M3 ℤ) {n : Nat} (os : Fin n → V3 ℤ) (i j k : Fin n) : Prop :=
  InLattice S (Lattice.sub (Lattice.sub (os j) (os i)) (os k))

/-- **C39**: if the function succeeds, entry `(i, j)` is the first cell equivalent, modulo the supercell,
to the vector from cell `i` to cell `j` — whatever the chunk size. -/
theorem C39_sound (S : M3 ℤ) {fmax thr : K} {N : Nat} (hn : Numeric S fmax thr N) {n : Nat}
    (os : Fin n → V3 ℤ) (i : Fin n) (f : Fin n → Nat)
    (h : relativeIdxRow S os fmax thr N i = .ok f) (j : Fin n) :
    ∃ k : Fin n, f j = k.val ∧ IsTranslation S os i j k ∧
      ∀ k', k' < k → ¬ IsTranslation S os i j k' := by
  unfold relativeIdxRow at h
  rw [if_neg hn.det_ne] at h
  have hs := (relRow_spec (fun j k => relDist K S os i j k) fmax thr hn.thr_nonneg hn.lt_fmax
    (fun j k => (relDist_facts S hn os i j k).1) (fun j k => (relDist_facts S hn os i j k).2.1) N
    hn.chunk_pos).1 f h j
  obtain ⟨k, h1, h2, h3⟩ := hs
  exact ⟨k, h1, (relDist_facts S hn os i j k).2.2.1 h2, fun k' hk' ht =>
    h3 k' hk' ((relDist_facts S hn os i j k').2.2.2 ht)⟩

/-- **C39**: it succeeds iff every vector between two cells has an equivalent cell. -/
theorem C39_succeeds_iff (S : M3 ℤ) {fmax thr : K} {N : Nat} (hn : Numeric S fmax thr N) {n : Nat}
    (os : Fin n → V3 ℤ) (i : Fin n) :
    (∃ f, relativeIdxRow S os fmax thr N i = .ok f) ↔ ∀ j, ∃ k, IsTranslation S os i j k := by
  constructor
  · rintro ⟨f, h⟩ j
    obtain ⟨k, _, h2, _⟩ := C39_sound S hn os i f h j
    exact ⟨k, h2⟩
  · intro h
    unfold relativeIdxRow
    rw [if_neg hn.det_ne]
    apply (relRow_spec (fun j k => relDist K S os i j k) fmax thr hn.thr_nonneg hn.lt_fmax
      (fun j k => (relDist_facts S hn os i j k).1) (fun j k => (relDist_facts S hn os i j k).2.1) N
      hn.chunk_pos).2
    intro j
    obtain ⟨k, hk⟩ := h j
    exact ⟨k, (relDist_facts S hn os i j k).2.2.2 hk⟩

/-- The cells are distinct modulo the supercell. -/
def DistinctCells (S : M3 ℤ) {n : Nat} (os : Fin n → V3 ℤ) : Prop :=
  ∀ j k, InLattice S (Lattice.sub (os j) (os k)) → j = k

/-- **C39**: for cells distinct modulo the supercell, the equivalent cell is unique and `j -> n` is a
permutation of the cells for every `i`. -/
theorem C39_permutation (S : M3 ℤ) {fmax thr : K} {N : Nat} (hn : Numeric S fmax thr N) {n : Nat}
    (os : Fin n → V3 ℤ) (hd : DistinctCells S os) (i : Fin n) (f : Fin n → Nat)
    (h : relativeIdxRow S os fmax thr N i = .ok f) :
    ∃ σ : Equiv.Perm (Fin n), ∀ j, f j = (σ j).val ∧ ∀ k, IsTranslation S os i j k ↔ k = σ j := by
  choose g hg ht _ using C39_sound S hn os i f h
  have key : ∀ j k, IsTranslation S os i j k ↔ k = g j := by
    intro j k
    constructor
    · intro hk
      apply hd
      have := (ht j).sub hk
      convert this using 1
      simp only [Lattice.sub, V3.mk.injEq]
      refine ⟨?_, ?_, ?_⟩ <;> ring
    · rintro rfl
      exact ht j
  have hinj : Function.Injective g := by
    intro j j' e
    apply hd
    have h1 := ht j
    have h2 := ht j'
    rw [← e] at h2
    have := h1.sub h2
    convert this using 1
    simp only [Lattice.sub, V3.mk.injEq]
    refine ⟨?_, ?_, ?_⟩ <;> ring
  refine ⟨Equiv.ofBijective g (Finite.injective_iff_bijective.1 hinj), fun j => ⟨hg j, key j⟩⟩

/-- **C39**: the result does not depend on the chunk size (nor on the threshold, within its range). -/
theorem C39_chunk_independent (S : M3 ℤ) {fmax thr fmax' thr' : K} {N N' : Nat}
    (hn : Numeric S fmax thr N) (hn' : Numeric S fmax' thr' N') {n : Nat} (os : Fin n → V3 ℤ)
    (i : Fin n) (f : Fin n → Nat) (h : relativeIdxRow S os fmax thr N i = .ok f) :
    relativeIdxRow S os fmax' thr' N' i = .ok f := by
  obtain ⟨f', h'⟩ := (C39_succeeds_iff S hn' os i).2 ((C39_succeeds_iff S hn os i).1 ⟨f, h⟩)
  rw [h']
  congr 1
  funext j
  obtain ⟨k, a1, a2, a3⟩ := C39_sound S hn os i f h j
  obtain ⟨k', b1, b2, b3⟩ := C39_sound S hn' os i f' h' j
  rw [a1, b1]
  congr 1
  rcases lt_trichotomy k k' with hlt | heq | hgt
  · exact absurd a2 (b3 k hlt)
  · exact heq.symm
  · exact absurd b2 (a3 k' hgt)

/-- A sheared supercell with three cells, threshold `16 * 2^-52` and chunks of two cells. -/
example : (relativeIdx (K := ℚ) ⟨⟨1, 1, 0⟩, ⟨-1, 2, 0⟩, ⟨0, 0, 1⟩⟩
    (fun i : Fin 3 => ⟨0, (i.val : ℤ), 0⟩) 1000 (16 / 2 ^ 52) 2).toOption.map
      (fun l => l.map List.ofFn) = some [[0, 1, 2], [2, 0, 1], [1, 2, 0]] := by
  decide +kernel

example : Numeric (K := ℚ) ⟨⟨1, 1, 0⟩, ⟨-1, 2, 0⟩, ⟨0, 0, 1⟩⟩ 1000 (16 / 2 ^ 52) 100 :=
  ⟨by decide, by norm_num, by norm_num [det], by norm_num, by norm_num⟩

end Euphonic.Supercell
