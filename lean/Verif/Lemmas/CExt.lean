import Verif.Model.CExt
import Mathlib.Algebra.BigOperators.Intervals
import Mathlib.Algebra.BigOperators.Pi
import Mathlib.Algebra.Group.Pi.Basic

/-! Lemmas about the loops and arrays of `Model/CExt.lean`. -/

set_option autoImplicit false

namespace Euphonic.CExt

theorem addTo_eq (m : Mem) (k : Nat) (v : ℝ) : addTo m k v = m + Pi.single k v := by
  funext p
  by_cases h : p = k
  · subst h; simp [addTo]
  · simp [addTo, h]

theorem foldl_add_list {ι σ : Type} [AddCommMonoid σ] (l : List ι) (f : σ → ι → σ) (g : ι → σ)
    (h : ∀ x ∈ l, ∀ s, f s x = s + g x) (s : σ) : l.foldl f s = s + (l.map g).sum := by
  induction l generalizing s with
  | nil => simp
  | cons x l ih =>
      rw [List.foldl_cons, ih (fun y hy => h y (List.mem_cons_of_mem _ hy)), h x (by simp)]
      simp [add_assoc]

theorem sum_range' {σ : Type} [AddCommMonoid σ] (g : Nat → σ) (lo len : Nat) :
    ((List.range' lo len).map g).sum = ∑ k ∈ Finset.Ico lo (lo + len), g k := by
  induction len generalizing lo with
  | zero => simp
  | succ len ih =>
      rw [List.range'_succ, List.map_cons, List.sum_cons, ih,
        Finset.sum_eq_sum_Ico_succ_bot (show lo < lo + (len + 1) by omega),
        show lo + 1 + len = lo + (len + 1) by omega]

/-- A loop that only adds computes a sum. -/
theorem loop_add {σ : Type} [AddCommMonoid σ] (lo hi : Nat) (body : Nat → σ → σ) (g : Nat → σ)
    (h : ∀ k, lo ≤ k → k < hi → ∀ s, body k s = s + g k) (s : σ) :
    loop lo hi body s = s + ∑ k ∈ Finset.Ico lo hi, g k := by
  unfold loop
  rw [foldl_add_list _ _ g, sum_range']
  · by_cases hle : lo ≤ hi
    · rw [Nat.add_sub_cancel' hle]
    · rw [show hi - lo = 0 by omega, Finset.Ico_eq_empty (by omega), Finset.Ico_eq_empty (by omega)]
  · intro x hx s
    rw [List.mem_range'_1] at hx
    exact h x hx.1 (by omega) s

/-- A loop that adds to an array and advances a pointer. -/
theorem loop_count {σ : Type} [AddCommMonoid σ] (lo hi : Nat) (hle : lo ≤ hi) (body : Nat → σ × Nat → σ × Nat)
    (g : Nat → Nat → σ) (w : Nat → Nat)
    (h : ∀ k, lo ≤ k → k < hi → ∀ s, body k s = (s.1 + g k s.2, s.2 + w k)) (s : σ × Nat) :
    loop lo hi body s = (s.1 + ∑ k ∈ Finset.Ico lo hi, g k (s.2 + ∑ k' ∈ Finset.Ico lo k, w k'),
      s.2 + ∑ k ∈ Finset.Ico lo hi, w k) := by
  have key : ∀ len lo, ∀ s : σ × Nat, (∀ k, lo ≤ k → k < lo + len → ∀ s, body k s = (s.1 + g k s.2, s.2 + w k)) →
      (List.range' lo len).foldl (fun s k => body k s) s
        = (s.1 + ∑ k ∈ Finset.Ico lo (lo + len), g k (s.2 + ∑ k' ∈ Finset.Ico lo k, w k'),
          s.2 + ∑ k ∈ Finset.Ico lo (lo + len), w k) := by
    intro len
    induction len with
    | zero => intro lo s _; simp
    | succ len ih =>
        intro lo s h
        rw [List.range'_succ, List.foldl_cons, ih (lo + 1) _ fun k hk hk' => h k (by omega) (by omega),
          h lo (le_refl _) (by omega) s]
        rw [Finset.sum_eq_sum_Ico_succ_bot (show lo < lo + (len + 1) by omega),
          Finset.sum_eq_sum_Ico_succ_bot (show lo < lo + (len + 1) by omega),
          show lo + 1 + len = lo + (len + 1) by omega]
        simp only [Finset.Ico_self, Finset.sum_empty, add_zero, add_assoc, Prod.mk.injEq, and_true]
        congr 2
        refine Finset.sum_congr rfl fun k hk => ?_
        rw [Finset.sum_eq_sum_Ico_succ_bot (show lo < k by have := (Finset.mem_Ico.1 hk).1; omega)]
  unfold loop
  rw [key (hi - lo) lo s fun k hk hk' => h k hk (by omega), Nat.add_sub_cancel' hle]

theorem loop_three {σ : Type} (body : Nat → σ → σ) (s : σ) :
    loop 0 3 body s = body 2 (body 1 (body 0 s)) := rfl

theorem loop_inv {σ : Type} (P : Nat → σ → Prop) (lo hi : Nat) (hle : lo ≤ hi) (body : Nat → σ → σ) (s : σ)
    (h0 : P lo s) (h : ∀ k, lo ≤ k → k < hi → ∀ s, P k s → P (k + 1) (body k s)) :
    P hi (loop lo hi body s) := by
  have key : ∀ len lo s, P lo s → (∀ k, lo ≤ k → k < lo + len → ∀ s, P k s → P (k + 1) (body k s)) →
      P (lo + len) ((List.range' lo len).foldl (fun s k => body k s) s) := by
    intro len
    induction len with
    | zero => intro lo s h0 _; simpa using h0
    | succ len ih =>
        intro lo s h0 h
        rw [List.range'_succ, List.foldl_cons, show lo + (len + 1) = lo + 1 + len by omega]
        exact ih _ _ (h lo (le_refl _) (by omega) s h0) fun k hk hk' => h k (by omega) (by omega)
  have := key (hi - lo) lo s h0 fun k hk hk' => h k hk (by omega)
  rw [Nat.add_sub_cancel' hle] at this
  exact this

/-- Nested loops as one fold over the list of index pairs. -/
theorem loop_loop {σ : Type} (lo hi : Nat) (lo' hi' : Nat → Nat) (body : Nat → Nat → σ → σ) (s : σ) :
    loop lo hi (fun i => loop (lo' i) (hi' i) (body i)) s =
      ((List.range' lo (hi - lo)).flatMap fun i =>
        (List.range' (lo' i) (hi' i - lo' i)).map fun j => (i, j)).foldl (fun s x => body x.1 x.2 s) s := by
  unfold loop
  rw [List.foldl_flatMap]
  congr 1
  funext s i
  rw [List.foldl_map]

/-- A loop whose iterations write to different places, and read nothing that another one writes: every
place ends up with the value its own iteration gives it from the initial contents. -/
theorem foldl_disjoint {ι : Type} (l : List ι) (hl : l.Nodup) (body : ι → Mem → Mem)
    (W R : ι → Nat → Prop)
    (hW : ∀ x ∈ l, ∀ m p, ¬W x p → body x m p = m p)
    (hR : ∀ x ∈ l, ∀ m m' p, W x p → (∀ q, R x q → m q = m' q) → body x m p = body x m' p)
    (hWW : ∀ x ∈ l, ∀ y ∈ l, ∀ p, W x p → W y p → x = y)
    (hRW : ∀ x ∈ l, ∀ y ∈ l, ∀ p, R x p → W y p → x = y) (m : Mem) :
    (∀ x ∈ l, ∀ p, W x p → l.foldl (fun s x => body x s) m p = body x m p) ∧
    (∀ p, (∀ x ∈ l, ¬W x p) → l.foldl (fun s x => body x s) m p = m p) := by
  induction l generalizing m with
  | nil => exact ⟨by simp, by simp⟩
  | cons y l ih =>
      have hl' := List.nodup_cons.mp hl
      obtain ⟨h1, h2⟩ := ih hl'.2 (fun x hx => hW x (List.mem_cons_of_mem _ hx))
        (fun x hx => hR x (List.mem_cons_of_mem _ hx))
        (fun x hx z hz => hWW x (List.mem_cons_of_mem _ hx) z (List.mem_cons_of_mem _ hz))
        (fun x hx z hz => hRW x (List.mem_cons_of_mem _ hx) z (List.mem_cons_of_mem _ hz)) (body y m)
      refine ⟨?_, ?_⟩
      · intro x hx p hp
        rw [List.foldl_cons]
        rcases List.mem_cons.mp hx with rfl | hx'
        · rw [h2 p]
          intro z hz hzp
          exact hl'.1 (hWW x (by simp) z (List.mem_cons_of_mem _ hz) p hp hzp ▸ hz)
        · rw [h1 x hx' p hp]
          apply hR x hx _ _ p hp
          intro q hq
          apply hW y (by simp)
          intro hyq
          exact hl'.1 (hRW x hx y (by simp) q hq hyq ▸ hx')
      · intro p hp
        rw [List.foldl_cons, h2 p fun x hx => hp x (List.mem_cons_of_mem _ hx), hW y (by simp) m p (hp y (by simp))]

theorem loop_disjoint (lo hi : Nat) (body : Nat → Mem → Mem) (W R : Nat → Nat → Prop)
    (hW : ∀ k, lo ≤ k → k < hi → ∀ m p, ¬W k p → body k m p = m p)
    (hR : ∀ k, lo ≤ k → k < hi → ∀ m m' p, W k p → (∀ q, R k q → m q = m' q) → body k m p = body k m' p)
    (hWW : ∀ k, lo ≤ k → k < hi → ∀ k', lo ≤ k' → k' < hi → ∀ p, W k p → W k' p → k = k')
    (hRW : ∀ k, lo ≤ k → k < hi → ∀ k', lo ≤ k' → k' < hi → ∀ p, R k p → W k' p → k = k') (m : Mem) :
    (∀ k, lo ≤ k → k < hi → ∀ p, W k p → loop lo hi body m p = body k m p) ∧
    (∀ p, (∀ k, lo ≤ k → k < hi → ¬W k p) → loop lo hi body m p = m p) := by
  have hm : ∀ k, k ∈ List.range' lo (hi - lo) ↔ lo ≤ k ∧ k < hi := by
    intro k; rw [List.mem_range'_1]; omega
  obtain ⟨h1, h2⟩ := foldl_disjoint (List.range' lo (hi - lo)) List.nodup_range' body W R
    (fun x hx => hW x ((hm x).1 hx).1 ((hm x).1 hx).2)
    (fun x hx => hR x ((hm x).1 hx).1 ((hm x).1 hx).2)
    (fun x hx y hy => hWW x ((hm x).1 hx).1 ((hm x).1 hx).2 y ((hm y).1 hy).1 ((hm y).1 hy).2)
    (fun x hx y hy => hRW x ((hm x).1 hx).1 ((hm x).1 hx).2 y ((hm y).1 hy).1 ((hm y).1 hy).2) m
  exact ⟨fun k h h' => h1 k ((hm k).2 ⟨h, h'⟩), fun p hp => h2 p fun x hx => hp x ((hm x).1 hx).1 ((hm x).1 hx).2⟩

/-- `body` writes only where `W`, and what it writes there depends only on the contents where `R`. -/
structure Writes (body : Mem → Mem) (W R : Nat → Prop) : Prop where
  frame : ∀ m p, ¬W p → body m p = m p
  reads : ∀ m m' p, W p → (∀ q, R q → m q = m' q) → body m p = body m' p

theorem loop_writes (lo hi : Nat) (body : Nat → Mem → Mem) (W R : Nat → Nat → Prop)
    (h : ∀ k, lo ≤ k → k < hi → Writes (body k) (W k) (R k))
    (hWW : ∀ k, lo ≤ k → k < hi → ∀ k', lo ≤ k' → k' < hi → ∀ p, W k p → W k' p → k = k')
    (hRW : ∀ k, lo ≤ k → k < hi → ∀ k', lo ≤ k' → k' < hi → ∀ p, R k p → W k' p → k = k') :
    Writes (loop lo hi body) (fun p => ∃ k, lo ≤ k ∧ k < hi ∧ W k p) (fun p => ∃ k, lo ≤ k ∧ k < hi ∧ R k p) ∧
    ∀ k, lo ≤ k → k < hi → ∀ m p, W k p → loop lo hi body m p = body k m p := by
  have H := loop_disjoint lo hi body W R (fun k hk hk' => (h k hk hk').frame)
    (fun k hk hk' => (h k hk hk').reads) hWW hRW
  refine ⟨⟨fun m p hp => (H m).2 p fun k hk hk' hw => hp ⟨k, hk, hk', hw⟩, ?_⟩,
    fun k hk hk' m p hw => (H m).1 k hk hk' p hw⟩
  rintro m m' p ⟨k, hk, hk', hw⟩ ha
  rw [(H m).1 k hk hk' p hw, (H m').1 k hk hk' p hw]
  exact (h k hk hk').reads m m' p hw fun q hq => ha q ⟨k, hk, hk', hq⟩

theorem Writes.mono {body : Mem → Mem} {W R R' : Nat → Prop} (h : Writes body W R) (hR : ∀ p, R p → R' p) :
    Writes body W R' := ⟨h.frame, fun m m' p hp ha => h.reads m m' p hp fun q hq => ha q (hR q hq)⟩

/-! ### Index arithmetic -/

theorem elemIdx_inj {n i a j b i' a' j' b' : Nat} (ha : a < 3) (hb : b < 3) (hj : j < n) (ha' : a' < 3)
    (hb' : b' < 3) (hj' : j' < n) (h : elemIdx n i a j b = elemIdx n i' a' j' b') :
    i = i' ∧ a = a' ∧ j = j' ∧ b = b' := by
  unfold elemIdx at h
  have e : ∀ i a j b, (3 * i + a) * 3 * n + 3 * j + b = (3 * j + b) + (3 * n) * (3 * i + a) := by
    intros; ring
  rw [e, e] at h
  have hm := congrArg (· % (3 * n)) h
  have hd := congrArg (· / (3 * n)) h
  simp only [Nat.add_mul_mod_self_left] at hm
  rw [Nat.mod_eq_of_lt (by omega), Nat.mod_eq_of_lt (by omega)] at hm
  beta_reduce at hd
  rw [Nat.add_mul_div_left _ _ (by omega), Nat.add_mul_div_left _ _ (by omega),
    Nat.div_eq_of_lt (by omega), Nat.div_eq_of_lt (by omega)] at hd
  omega

theorem elemIdx_fin {n : Nat} (k l : Fin (n * 3)) :
    elemIdx n k.divNat k.modNat l.divNat l.modNat = k * (3 * n) + l := by
  unfold elemIdx
  change (3 * (k.1 / 3) + k.1 % 3) * 3 * n + 3 * (l.1 / 3) + l.1 % 3 = _
  have h1 := Nat.div_add_mod k.1 3
  have h2 := Nat.div_add_mod l.1 3
  rw [h1, add_assoc, h2]; ring

theorem elemIdx_lt {n i a j b : Nat} (hi : i < n) (ha : a < 3) (hj : j < n) (hb : b < 3) :
    elemIdx n i a j b < 9 * n * n := by
  unfold elemIdx
  have h1 : 3 * i + a + 1 ≤ 3 * n := by omega
  have h2 : (3 * i + a + 1) * (3 * n) ≤ 3 * n * (3 * n) := Nat.mul_le_mul_right _ h1
  nlinarith

theorem clear_lt {size k : Nat} (m : Mem) (h : k < size) : clear size m k = 0 := by simp [clear, h]

/-- The complex number at position `p` of an array of complex numbers. -/
noncomputable def cAt (m : Mem) (p : Nat) : ℂ := ⟨m (2 * p), m (2 * p + 1)⟩

theorem addArrays_apply (size : Nat) (x m : Mem) (p : Nat) :
    addArrays size x m p = m p + if p < size then x p else 0 := by
  unfold addArrays
  rw [loop_add 0 size _ (fun i => Pi.single i (x i)) (fun k _ _ s => addTo_eq s k _)]
  simp only [Pi.add_apply, Finset.sum_apply, Pi.single_apply]
  congr 1
  by_cases h : p < size <;> simp [h]

theorem multiplyArray_apply (size : Nat) (c : ℝ) (m : Mem) (p : Nat) :
    multiplyArray size c m p = if p < size then m p * c else m p := by
  unfold multiplyArray
  obtain ⟨h1, h2⟩ := loop_disjoint 0 size (fun i m => setAt m i (m i * c)) (fun k p => p = k) (fun k p => p = k)
    (fun k _ _ m p hp => by simp [setAt, hp])
    (fun k _ _ m m' p hp hq => by subst hp; simp [setAt, hq])
    (fun k _ _ k' _ _ p h h' => by omega) (fun k _ _ k' _ _ p h h' => by omega) m
  by_cases h : p < size
  · rw [if_pos h, h1 p (Nat.zero_le _) h p rfl]; simp [setAt]
  · rw [if_neg h, h2 p]; intro k _ hk; omega

end Euphonic.CExt
