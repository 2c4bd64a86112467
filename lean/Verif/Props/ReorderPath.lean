import Verif.Model.ReorderPath
import Verif.Props.Path
import Verif.Props.Reorder
import Verif.Props.ConvertFc
import Verif.Lemmas.Split

/-! # Property C148: where modes are matched, and that phases of eigenvectors do not matter -/

set_option autoImplicit false

namespace Euphonic.Reorder

open Euphonic.Lattice

/-! ## Specification -/

/-- The path bends at `b` by more than the tolerance: with the steps `u` and `v`, `|u| |v| - |u . v|` exceeds `5e-6`. -/
def Bends (a b c : V3 ℝ) : Prop :=
  5 / 10 ^ 6 <
    Real.sqrt ((b.x - a.x) ^ 2 + (b.y - a.y) ^ 2 + (b.z - a.z) ^ 2) *
      Real.sqrt ((c.x - b.x) ^ 2 + (c.y - b.y) ^ 2 + (c.z - b.z) ^ 2) -
    |(b.x - a.x) * (c.x - b.x) + (b.y - a.y) * (c.y - b.y) + (b.z - a.z) * (c.z - b.z)|

/-- The modes of q-point `i` are not matched to those of q-point `i - 1` by their eigenvectors. -/
def NotMatched (reorderGamma : Bool) (q : List (V3 ℝ)) (i : Nat) : Prop :=
  (∃ (_ : 2 ≤ i) (_ : i < q.length), Bends q[i - 2] q[i - 1] q[i]) ∨
    reorderGamma = false ∧ ((∃ _ : i < q.length, isGamma q[i] = true) ∨
      ∃ _ : i - 1 < q.length, isGamma q[i - 1] = true)

/-- Product of complex numbers. -/
def cmul (z w : ℝ × ℝ) : ℝ × ℝ := (z.1 * w.1 - z.2 * w.2, z.1 * w.2 + z.2 * w.1)

/-! ## Lemmas -/

theorem dirChanged_iff (u v : V3 ℝ) : dirChanged u v = true ↔ 5 / 10 ^ 6 < norm3 u * norm3 v - |dot u v| := by
  unfold dirChanged
  rw [decide_eq_true_eq]
  have h0 : dot v u = dot u v := by simp only [dot]; ring
  have hu : 0 ≤ dot u u := by simp only [dot]; nlinarith [mul_self_nonneg u.x, mul_self_nonneg u.y, mul_self_nonneg u.z]
  have hcs : |dot u v| ≤ norm3 u * norm3 v := by
    unfold norm3
    rw [← Real.sqrt_mul hu]
    apply Real.abs_le_sqrt
    simp only [dot]
    nlinarith [sq_nonneg (u.x * v.y - u.y * v.x), sq_nonneg (u.x * v.z - u.z * v.x),
      sq_nonneg (u.y * v.z - u.z * v.y)]
  rw [h0, abs_of_nonpos (by rw [mul_comm (norm3 v)]; linarith), mul_comm (norm3 v)]
  constructor <;> intro h <;> linarith

theorem bends_iff (a b c : V3 ℝ) : dirChanged (sub b a) (sub c b) = true ↔ Bends a b c := by
  rw [dirChanged_iff]
  unfold Bends norm3
  simp only [dot, sub, ← pow_two]

theorem length_directionKept (l : List (V3 ℝ)) : (directionKept l).length = l.length - 2 := by
  induction l with
  | nil => rfl
  | cons a l ih =>
    cases l with
    | nil => rfl
    | cons b l =>
      cases l with
      | nil => rfl
      | cons c l => simp only [directionKept, List.length_cons] at ih ⊢; omega

theorem getElem?_directionKept (l : List (V3 ℝ)) (i : Nat) (h : i + 2 < l.length) :
    (directionKept l)[i]? = some (!dirChanged (sub l[i + 1] l[i]) (sub l[i + 2] l[i + 1])) := by
  induction l generalizing i with
  | nil => simp at h
  | cons a l ih =>
    cases l with
    | nil => simp at h
    | cons b l =>
      cases l with
      | nil => simp at h
      | cons c l =>
        cases i with
        | zero => simp [directionKept]
        | succ i =>
          simp only [directionKept, List.getElem?_cons_succ]
          rw [ih i (by simpa using h)]
          simp

theorem length_clearAt (a : List Bool) (idx : List Nat) : (clearAt a idx).length = a.length := by
  induction idx generalizing a with
  | nil => rfl
  | cons i l ih =>
    show (clearAt (a.set i false) l).length = _
    rw [ih, List.length_set]

theorem getElem?_clearAt (a : List Bool) (idx : List Nat) (i : Nat) (hi : i < a.length) :
    (clearAt a idx)[i]? = some (a[i] && decide (i ∉ idx)) := by
  induction idx generalizing a with
  | nil => simp [clearAt, hi]
  | cons j l ih =>
    show (clearAt (a.set j false) l)[i]? = _
    rw [ih _ (by simpa using hi)]
    by_cases hij : i = j
    · subst hij
      simp
    · rw [List.getElem_set_ne (by omega)]
      simp [hij]

theorem mem_gammaAt (q : List (V3 ℝ)) (i : Nat) : i ∈ gammaAt q ↔ ∃ _ : i < q.length, isGamma q[i] = true := by
  simp only [gammaAt, List.mem_filter, List.mem_range]
  constructor
  · rintro ⟨h1, h2⟩
    refine ⟨h1, ?_⟩
    rwa [List.getD_eq_getElem _ _ h1] at h2
  · rintro ⟨h1, h2⟩
    refine ⟨h1, ?_⟩
    rwa [List.getD_eq_getElem _ _ h1]

theorem base_getElem? (q : List (V3 ℝ)) (i : Nat) (hi : i + 1 < q.length) :
    ∃ b, (true :: directionKept q)[i]? = some b ∧
      (b = false ↔ ∃ (_ : 2 ≤ i + 1) (_ : i + 1 < q.length), Bends q[i + 1 - 2] q[i + 1 - 1] q[i + 1]) := by
  cases i with
  | zero =>
    refine ⟨true, rfl, ?_⟩
    simp
  | succ j =>
    refine ⟨_, by rw [List.getElem?_cons_succ, getElem?_directionKept q j (by omega)], ?_⟩
    rw [Bool.not_eq_false', bends_iff]
    constructor
    · intro h
      exact ⟨by omega, hi, h⟩
    · rintro ⟨_, _, h⟩
      exact h

theorem calcReorder_spec (rg : Bool) (q : List (V3 ℝ)) (i : Nat) (hi : i + 1 < q.length) :
    (calcReorder rg q).getD i true = false ↔ NotMatched rg q (i + 1) := by
  obtain ⟨b, hb, hs⟩ := base_getElem? q i hi
  have hlen : i < (true :: directionKept q).length := by
    rw [List.length_cons, length_directionKept]; omega
  have hb' : (true :: directionKept q)[i] = b := by
    rw [List.getElem?_eq_getElem hlen] at hb
    exact Option.some.inj hb
  cases rg with
  | true =>
    have e : (calcReorder true q).getD i true = b := by
      show (true :: directionKept q).getD i true = b
      rw [List.getD_eq_getElem?_getD, hb]; rfl
    rw [e, hs]
    simp [NotMatched]
  | false =>
    set a1 := clearAt (true :: directionKept q) (((gammaAt q).filter fun i => decide (0 < i)).map (· - 1)) with ha1
    have l1 : i < a1.length := by rw [ha1, length_clearAt]; exact hlen
    have e1 : a1[i]? = some (b && decide (i ∉ ((gammaAt q).filter fun i => decide (0 < i)).map (· - 1))) := by
      rw [ha1, getElem?_clearAt _ _ _ hlen, hb']
    have e1' : a1[i] = (b && decide (i ∉ ((gammaAt q).filter fun i => decide (0 < i)).map (· - 1))) := by
      rw [List.getElem?_eq_getElem l1] at e1
      exact Option.some.inj e1
    have e2 : (calcReorder false q).getD i true =
        (a1[i] && decide (i ∉ (gammaAt q).filter fun i => decide (i < q.length - 1))) := by
      show (clearAt a1 ((gammaAt q).filter fun i => decide (i < q.length - 1))).getD i true = _
      rw [List.getD_eq_getElem?_getD, getElem?_clearAt _ _ _ l1]; rfl
    have m1 : i ∈ ((gammaAt q).filter fun i => decide (0 < i)).map (· - 1) ↔ i + 1 ∈ gammaAt q := by
      simp only [List.mem_map, List.mem_filter, decide_eq_true_eq]
      constructor
      · rintro ⟨k, ⟨h1, h2⟩, rfl⟩
        rwa [Nat.sub_add_cancel h2]
      · intro h
        exact ⟨i + 1, ⟨h, by omega⟩, by omega⟩
    have m2 : i ∈ ((gammaAt q).filter fun i => decide (i < q.length - 1)) ↔ i ∈ gammaAt q := by
      simp only [List.mem_filter, decide_eq_true_eq]
      exact ⟨fun h => h.1, fun h => ⟨h, by omega⟩⟩
    rw [e2, e1', Bool.and_eq_false_iff, Bool.and_eq_false_iff, decide_eq_false_iff_not, decide_eq_false_iff_not,
      not_not, not_not, m1, m2, mem_gammaAt, mem_gammaAt, hs]
    unfold NotMatched
    simp only [Nat.add_sub_cancel, true_and]
    exact or_assoc

theorem reordered_of_map {n d : Nat} [NeZero n] (ev : Nat → Fin n → Fin d → ℝ × ℝ) (calcAt : Nat → Bool)
    (freqs : Nat → Fin n → ℝ) (i : Nat) (m : Fin n → Fin n) (h : modeMap (overlap modulus ev) calcAt i = .ok m) :
    reordered modulus ev calcAt freqs i = .ok (fun j => freqs i (m j), fun j => ev i (m j)) := by
  unfold reordered
  rw [h]
  rfl

theorem mapM_range_ok {β : Type} (N : Nat) (f : Nat → Except Err β) (l : List β)
    (h : (List.range N).mapM f = .ok l) :
    l.length = N ∧ ∀ i (hi : i < l.length), f i = .ok l[i] := by
  obtain ⟨hl, hi⟩ := Supercell.mapM_ok_getElem f _ l h
  refine ⟨by simpa using hl, fun i h2 => ?_⟩
  have := hi i (by omega)
  simpa using this

theorem modeMap_of_reordered {n d : Nat} [NeZero n] (ev : Nat → Fin n → Fin d → ℝ × ℝ) (calcAt : Nat → Bool)
    (freqs : Nat → Fin n → ℝ) (i : Nat) (r : (Fin n → ℝ) × (Fin n → Fin d → ℝ × ℝ))
    (h : reordered modulus ev calcAt freqs i = .ok r) :
    ∃ m, modeMap (overlap modulus ev) calcAt i = .ok m ∧ r = (fun j => freqs i (m j), fun j => ev i (m j)) := by
  cases hm : modeMap (overlap modulus ev) calcAt i with
  | error e =>
    unfold reordered at h
    rw [hm] at h
    cases h
  | ok m =>
    rw [reordered_of_map ev calcAt freqs i m hm] at h
    exact ⟨m, rfl, (Except.ok.inj h).symm⟩

theorem modulus_cmul (z w : ℝ × ℝ) (h : z.1 ^ 2 + z.2 ^ 2 = 1) : modulus (cmul z w) = modulus w := by
  unfold modulus cmul
  congr 1
  have : (z.1 * w.1 - z.2 * w.2) ^ 2 + (z.1 * w.2 + z.2 * w.1) ^ 2 =
      (z.1 ^ 2 + z.2 ^ 2) * (w.1 ^ 2 + w.2 ^ 2) := by ring
  rw [this, h, one_mul]

theorem overlap_phase {n d : Nat} (ev : Nat → Fin n → Fin d → ℝ × ℝ) (z : Nat → Fin n → ℝ × ℝ)
    (hz : ∀ i j, (z i j).1 ^ 2 + (z i j).2 ^ 2 = 1) :
    overlap modulus (fun i j k => cmul (z i j) (ev i j k)) = overlap modulus ev := by
  funext i r c
  have e := modulus_cmul (cmul ((z (i - 1) c).1, -(z (i - 1) c).2) (z i r))
    (∑ k, ((ev (i - 1) c k).1 * (ev i r k).1 + (ev (i - 1) c k).2 * (ev i r k).2),
      ∑ k, ((ev (i - 1) c k).1 * (ev i r k).2 - (ev (i - 1) c k).2 * (ev i r k).1)) (by
      have h1 := hz (i - 1) c
      have h2 := hz i r
      simp only [cmul]
      have : ((z (i - 1) c).1 * (z i r).1 - -(z (i - 1) c).2 * (z i r).2) ^ 2 +
          ((z (i - 1) c).1 * (z i r).2 + -(z (i - 1) c).2 * (z i r).1) ^ 2 =
          ((z (i - 1) c).1 ^ 2 + (z (i - 1) c).2 ^ 2) * ((z i r).1 ^ 2 + (z i r).2 ^ 2) := by ring
      rw [this, h1, h2, one_mul])
  unfold overlap
  rw [← e]
  congr 1
  simp only [cmul, Prod.mk.injEq, Finset.mul_sum, ← Finset.sum_sub_distrib, ← Finset.sum_add_distrib]
  exact ⟨Finset.sum_congr rfl fun k _ => by ring, Finset.sum_congr rfl fun k _ => by ring⟩

/-! ## C148 -/

/-- **C148**: for a path of q-points of any length, the q-points whose modes are matched to the previous ones by their
eigenvectors are all but the first, those after a bend of the path, and, without `reorder_gamma`, gamma points and their
successors. -/
theorem C148_where (reorderGamma : Bool) (q : List (V3 ℝ)) (i : Nat) (h0 : 0 < i) (hi : i < q.length) :
    (calcReorder reorderGamma q).getD (i - 1) true = false ↔ NotMatched reorderGamma q i := by
  obtain ⟨k, rfl⟩ : ∃ k, i = k + 1 := ⟨i - 1, by omega⟩
  exact calcReorder_spec reorderGamma q k hi

/-- **C148**: the first q-point keeps its order, and a q-point whose modes are not matched is put into the order of the
q-point before it. -/
theorem C148_carried_over {n d : Nat} [NeZero n] (reorderGamma : Bool) (q : List (V3 ℝ))
    (ev : Nat → Fin n → Fin d → ℝ × ℝ) (freqs : Nat → Fin n → ℝ)
    (r : List ((Fin n → ℝ) × (Fin n → Fin d → ℝ × ℝ)))
    (h : reorderFrequencies reorderGamma q ev freqs = .ok r) :
    r.length = q.length ∧ r[0]? = some (freqs 0, ev 0) ∧
    ∀ i, 0 < i → i < q.length → NotMatched reorderGamma q i →
      ∃ m : Fin n → Fin n, r[i - 1]? = some (fun j => freqs (i - 1) (m j), fun j => ev (i - 1) (m j)) ∧
        r[i]? = some (fun j => freqs i (m j), fun j => ev i (m j)) := by
  unfold reorderFrequencies at h
  split at h
  · cases h
  rename_i hq
  obtain ⟨hl, hr⟩ := mapM_range_ok _ _ _ h
  refine ⟨hl, ?_, fun i h0 hi hn => ?_⟩
  · have h1 := hr 0 (by omega)
    rw [reordered_of_map ev _ freqs 0 id rfl] at h1
    rw [List.getElem?_eq_getElem (by omega), ← Except.ok.inj h1]
    rfl
  · obtain ⟨k, rfl⟩ : ∃ k, i = k + 1 := ⟨i - 1, by omega⟩
    rw [← C148_where _ _ _ h0 hi] at hn
    simp only [Nat.add_sub_cancel] at hn ⊢
    obtain ⟨m, hm, e1⟩ := modeMap_of_reordered _ _ _ _ _ (hr k (by omega))
    refine ⟨m, by rw [List.getElem?_eq_getElem (by omega), e1], ?_⟩
    have hm' : modeMap (overlap modulus ev) (fun i => (calcReorder reorderGamma q).getD i true) (k + 1) = .ok m := by
      unfold modeMap
      rw [hm]
      simp only [bind, Except.bind, hn]
      rfl
    have h2 := hr (k + 1) (by omega)
    rw [reordered_of_map ev _ freqs (k + 1) m hm'] at h2
    rw [List.getElem?_eq_getElem (by omega), ← Except.ok.inj h2]

/-- **C148**: multiplying the eigenvectors by phases, which the physics leaves open, does not change the order: the
same frequencies are returned, and the eigenvectors are those returned without the phases, each with its phase. -/
theorem C148_phases {n d : Nat} [NeZero n] (reorderGamma : Bool) (q : List (V3 ℝ))
    (ev : Nat → Fin n → Fin d → ℝ × ℝ) (freqs : Nat → Fin n → ℝ) (z : Nat → Fin n → ℝ × ℝ)
    (hz : ∀ i j, (z i j).1 ^ 2 + (z i j).2 ^ 2 = 1) :
    (∀ e, reorderFrequencies reorderGamma q ev freqs = .error e →
      reorderFrequencies reorderGamma q (fun i j k => cmul (z i j) (ev i j k)) freqs = .error e) ∧
    ∀ r, reorderFrequencies reorderGamma q ev freqs = .ok r →
      ∃ m : Nat → Fin n → Fin n,
        r = (List.range q.length).map (fun i => (fun j => freqs i (m i j), fun j => ev i (m i j))) ∧
        reorderFrequencies reorderGamma q (fun i j k => cmul (z i j) (ev i j k)) freqs =
          .ok ((List.range q.length).map fun i =>
            (fun j => freqs i (m i j), fun j k => cmul (z i (m i j)) (ev i (m i j) k))) := by
  unfold reorderFrequencies
  split
  · refine ⟨fun e h => h, fun r h => by cases h⟩
  rename_i hq
  set calcAt := fun i => (calcReorder reorderGamma q).getD i true with hc
  have key : ∀ i e, reordered modulus ev calcAt freqs i = .error e →
      reordered modulus (fun i j k => cmul (z i j) (ev i j k)) calcAt freqs i = .error e := by
    intro i e h
    unfold reordered at h ⊢
    rw [overlap_phase ev z hz]
    cases hm : modeMap (overlap modulus ev) calcAt i with
    | error e' => rw [hm] at h; cases h; rfl
    | ok m => rw [hm] at h; cases h
  have key2 : ∀ i m, modeMap (overlap modulus ev) calcAt i = .ok m →
      reordered modulus (fun i j k => cmul (z i j) (ev i j k)) calcAt freqs i =
        .ok (fun j => freqs i (m j), fun j k => cmul (z i (m j)) (ev i (m j) k)) := by
    intro i m h
    apply reordered_of_map
    rw [overlap_phase ev z hz]
    exact h
  constructor
  · intro e h
    have : ∀ l : List Nat, l.mapM (reordered modulus ev calcAt freqs) = .error e →
        l.mapM (reordered modulus (fun i j k => cmul (z i j) (ev i j k)) calcAt freqs) = .error e := by
      intro l
      induction l with
      | nil => intro h; cases h
      | cons i l ih =>
        intro h
        rw [List.mapM_cons] at h ⊢
        cases hi : reordered modulus ev calcAt freqs i with
        | error e' =>
          rw [hi] at h
          cases h
          rw [key i e hi]
          rfl
        | ok v =>
          rw [hi] at h
          obtain ⟨m, hm, _⟩ := modeMap_of_reordered _ _ _ _ _ hi
          rw [key2 i m hm]
          simp only [bind, Except.bind] at h ⊢
          cases hl : l.mapM (reordered modulus ev calcAt freqs) with
          | error e' =>
            rw [hl] at h
            cases h
            rw [ih hl]
          | ok w => rw [hl] at h; cases h
    exact this _ h
  · intro r h
    obtain ⟨hl, hr⟩ := mapM_range_ok _ _ _ h
    have hm : ∀ i, ∃ m : Fin n → Fin n, ∀ hi : i < r.length,
        modeMap (overlap modulus ev) calcAt i = .ok m ∧ r[i] = (fun j => freqs i (m j), fun j => ev i (m j)) := by
      intro i
      by_cases hi : i < r.length
      · obtain ⟨m, h1, h2⟩ := modeMap_of_reordered _ _ _ _ _ (hr i hi)
        exact ⟨m, fun _ => ⟨h1, h2⟩⟩
      · exact ⟨id, fun h => absurd h hi⟩
    choose m hm using hm
    refine ⟨m, ?_, ?_⟩
    · apply List.ext_getElem
      · simp [hl]
      · intro i h1 h2
        rw [(hm i h1).2]
        simp
    · apply mapM_ok_of_forall
      intro i hi
      exact key2 i (m i) (hm i (by rw [hl]; simpa using hi)).1

/-! ## Non-vacuity -/

/-- A path with a corner: the modes of the point after it are not matched. -/
example : NotMatched true [⟨0, 0, 0⟩, ⟨1 / 2, 0, 0⟩, ⟨1 / 2, 1 / 2, 0⟩] 2 := by
  refine Or.inl ⟨le_rfl, by simp, ?_⟩
  unfold Bends
  simp
  norm_num

/-- Gamma in the middle of a straight path, without `reorder_gamma`. -/
example : NotMatched false [⟨-1 / 2, 0, 0⟩, ⟨0, 0, 0⟩, ⟨1 / 2, 0, 0⟩] 2 := by
  refine Or.inr ⟨rfl, Or.inr ⟨by simp, ?_⟩⟩
  have h : rint (0 : ℝ) = 0 := by simp [rint]
  simp [isGamma, sumAbs, rem, h]

/-- Phases that are not 1. -/
example : ((3 / 5 : ℝ)) ^ 2 + (4 / 5 : ℝ) ^ 2 = 1 := by norm_num

/-- Eigenvectors of three modes, two of which change places after the first q-point. -/
noncomputable def exCross (i : Nat) (j k : Fin 3) : ℝ × ℝ :=
  (if i = 0 then (if j = k then 1 else 0) else if Equiv.swap (1 : Fin 3) 2 j = k then 1 else 0, 0)

theorem exCross_dominant (i : Nat) : ∃ π, Dominant (overlap modulus exCross) i π := by
  have hov : ∀ r c : Fin 3, overlap modulus exCross (i + 1) r c =
      if (if i = 0 then Equiv.swap (1 : Fin 3) 2 r else r) = c then 1 else 0 := by
    intro r c
    unfold overlap modulus exCross
    by_cases hi : i = 0
    · subst hi
      fin_cases r <;> fin_cases c <;> simp [Equiv.swap_apply_def]
    · simp only [hi, if_false, Nat.add_sub_cancel, Nat.succ_ne_zero]
      fin_cases r <;> fin_cases c <;> simp [Equiv.swap_apply_def]
  refine ⟨if i = 0 then Equiv.swap 1 2 else Equiv.refl _, fun r => ?_⟩
  simp only [hov]
  by_cases hi : i = 0
  · simp only [hi, if_true]
    refine ⟨one_pos, fun c hc => ?_, fun r' hr => ?_⟩
    · rw [if_neg (Ne.symm hc)]; simp
    · rw [if_neg (fun e => hr ((Equiv.swap (1 : Fin 3) 2).injective e))]; simp
  · simp only [hi, if_false, Equiv.refl_apply]
    refine ⟨by simp, fun c hc => ?_, fun r' hr => ?_⟩
    · rw [if_neg (Ne.symm hc)]; simp
    · rw [if_neg hr]; simp

/-- Reordering that succeeds, with a crossing of two of three modes. -/
example : ∃ r, reorderFrequencies (n := 3) (d := 3) true [⟨0, 0, 0⟩, ⟨1 / 2, 0, 0⟩] exCross
    (fun _ j => j.val) = .ok r := by
  have h := C29_reorder_partial modulus exCross
    (fun i => (calcReorder true [⟨0, 0, 0⟩, ⟨1 / 2, 0, 0⟩]).getD i true) (fun _ j => (j.val : ℝ))
    (fun i _ => Or.inr (exCross_dominant i))
  choose σ hσ using h
  exact ⟨_, mapM_ok_of_forall _ _ _ fun i _ => hσ i⟩

end Euphonic.Reorder
