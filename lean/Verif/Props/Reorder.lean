import Verif.Prelude
import Verif.Model.Reorder
import Mathlib.Data.Fintype.EquivFin
import Mathlib.Data.List.FinRange
import Mathlib.Data.List.Nodup
import Mathlib.Logic.Equiv.Fin.Rotate

/-! # Property C29: reordering modes -/

set_option autoImplicit false
set_option linter.unusedSectionVars false

namespace Euphonic.Reorder

variable {K : Type} [Field K] [LinearOrder K] [IsStrictOrderedRing K] {n : Nat}

theorem foldl_argmax {β : Type} (v : β → K) (l : List β) (a : β) :
    v a ≤ v (l.foldl (fun best x => if v best < v x then x else best) a) ∧
    ∀ x ∈ l, v x ≤ v (l.foldl (fun best x => if v best < v x then x else best) a) := by
  induction l generalizing a with
  | nil => simp
  | cons b l ih =>
    rw [List.foldl_cons]
    split
    · rename_i h
      obtain ⟨h1, h2⟩ := ih b
      exact ⟨h.le.trans h1, fun x hx => by
        rcases List.mem_cons.1 hx with rfl | hx
        · exact h1
        · exact h2 x hx⟩
    · rename_i h
      obtain ⟨h1, h2⟩ := ih a
      exact ⟨h1, fun x hx => by
        rcases List.mem_cons.1 hx with rfl | hx
        · exact (not_lt.1 h).trans h1
        · exact h2 x hx⟩

theorem mem_pairs (p : Fin n × Fin n) : p ∈ pairs n := by
  simp [pairs]

theorem argmax_spec [NeZero n] (dot : Fin n → Fin n → K) :
    ∃ p, argmaxFirst (fun p => dot p.1 p.2) (pairs n) = some p ∧
      ∀ r c, dot r c ≤ dot p.1 p.2 := by
  cases h : pairs n with
  | nil =>
    have := mem_pairs (n := n) (0, 0)
    rw [h] at this
    simp at this
  | cons a l =>
    refine ⟨_, rfl, fun r c => ?_⟩
    have hm := mem_pairs (n := n) (r, c)
    rw [h] at hm
    obtain ⟨h1, h2⟩ := foldl_argmax (fun p : Fin n × Fin n => dot p.1 p.2) l a
    rcases List.mem_cons.1 hm with e | hm
    · rw [← e] at h1
      exact (show dot r c ≤ _ from by rw [← e]; exact h1)
    · exact h2 _ hm

theorem find_prev (prev : Fin n → Fin n) (hp : Function.Bijective prev) (c : Fin n) :
    ∃ p, (List.finRange n).find? (fun p => decide (prev p = c)) = some p ∧ prev p = c := by
  obtain ⟨p, hp'⟩ := hp.2 c
  cases h : (List.finRange n).find? fun p => decide (prev p = c) with
  | none =>
    rw [List.find?_eq_none] at h
    exact absurd hp' (by simpa using h p (List.mem_finRange p))
  | some p' => exact ⟨p', rfl, by simpa using List.find?_some h⟩

/-- State of the loop: the pairs chosen so far have distinct rows and columns, their rows and columns
are zero, and the map is recorded. -/
structure Inv (prev : Fin n → Fin n) (P : List (Fin n × Fin n)) (d0 dot : Fin n → Fin n → K)
    (row : Fin n → Fin n) : Prop where
  rows : (P.map (·.1)).Nodup
  cols : (P.map (·.2)).Nodup
  zero : ∀ r c, r ∈ P.map (·.1) ∨ c ∈ P.map (·.2) → dot r c = 0
  same : ∀ r c, r ∉ P.map (·.1) → c ∉ P.map (·.2) → dot r c = d0 r c
  recd : ∀ p rc, rc ∈ P → prev p = rc.2 → row p = rc.1

/-- One iteration that picks a positive entry keeps the invariant; `Q` restricts what is picked. -/
theorem assignLoop_spec [NeZero n] (prev : Fin n → Fin n) (hp : Function.Bijective prev)
    (d0 : Fin n → Fin n → K) (Q : Fin n × Fin n → Prop)
    (hpick : ∀ (P : List (Fin n × Fin n)) dot row, Inv prev P d0 dot row → (∀ rc ∈ P, Q rc) →
      P.length < n → ∀ r c, (∀ r' c', dot r' c' ≤ dot r c) → 0 < dot r c ∧ Q (r, c))
    (t : Nat) (P : List (Fin n × Fin n)) (dot : Fin n → Fin n → K) (row : Fin n → Fin n)
    (hI : Inv prev P d0 dot row) (hQ : ∀ rc ∈ P, Q rc) (hlen : P.length + t = n) :
    ∃ (P' : List (Fin n × Fin n)) (dot' : Fin n → Fin n → K) (row' : Fin n → Fin n),
      assignLoop prev t dot row = .ok row' ∧ Inv prev P' d0 dot' row' ∧ (∀ rc ∈ P', Q rc) ∧
      P'.length = n := by
  induction t generalizing P dot row with
  | zero => exact ⟨P, dot, row, rfl, hI, hQ, by omega⟩
  | succ t ih =>
    obtain ⟨⟨r, c⟩, h1, h2⟩ := argmax_spec dot
    obtain ⟨p, h3, h4⟩ := find_prev prev hp c
    obtain ⟨h5, h6⟩ := hpick P dot row hI hQ (by omega) r c h2
    have hr : r ∉ P.map (·.1) := fun h => h5.ne' (hI.zero r c (Or.inl h))
    have hc : c ∉ P.map (·.2) := fun h => h5.ne' (hI.zero r c (Or.inr h))
    unfold assignLoop
    rw [h1]
    simp only [h3]
    refine ih ((r, c) :: P) _ _ ?_ ?_ (by simp; omega)
    · refine ⟨?_, ?_, ?_, ?_, ?_⟩
      · simpa using ⟨by simpa using hr, hI.rows⟩
      · simpa using ⟨by simpa using hc, hI.cols⟩
      · intro r' c' h
        simp only [zeroOut]
        split
        · rfl
        · rename_i hne
          push Not at hne
          apply hI.zero
          simpa [hne.1, hne.2] using h
      · intro r' c' e1 e2
        simp only [List.map_cons, List.mem_cons, not_or] at e1 e2
        simp only [zeroOut, e1.1, e2.1, or_self, if_false]
        exact hI.same r' c' e1.2 e2.2
      · intro p' rc hrc hpr
        rcases List.mem_cons.1 hrc with rfl | hrc
        · have : p' = p := hp.1 (hpr.trans h4.symm)
          simp [this]
        · have : p' ≠ p := by
            rintro rfl
            apply hc
            rw [← h4, hpr]
            exact List.mem_map_of_mem hrc
          rw [Function.update_of_ne this]
          exact hI.recd p' rc hrc hpr
    · intro rc hrc
      rcases List.mem_cons.1 hrc with rfl | hrc
      · exact h6
      · exact hQ rc hrc

theorem mem_of_nodup_length (l : List (Fin n)) (h : l.Nodup) (hl : l.length = n) (x : Fin n) :
    x ∈ l := by
  have hc : l.toFinset.card = n := by rw [List.toFinset_card_of_nodup h, hl]
  have : l.toFinset = Finset.univ := by
    apply Finset.eq_univ_of_card
    rw [hc, Fintype.card_fin]
  have hx : x ∈ l.toFinset := by rw [this]; exact Finset.mem_univ x
  exact List.mem_toFinset.1 hx

theorem inv_start [NeZero n] (prev : Fin n → Fin n) (d0 : Fin n → Fin n → K) (row : Fin n → Fin n) :
    Inv prev [] d0 d0 row :=
  ⟨by simp, by simp, by simp, by simp, by simp⟩

theorem inv_bijective (prev : Fin n → Fin n) (P : List (Fin n × Fin n))
    (d0 dot : Fin n → Fin n → K) (row : Fin n → Fin n) (hp : Function.Bijective prev)
    (h : Inv prev P d0 dot row) (hl : P.length = n) : Function.Bijective row := by
  apply Finite.injective_iff_bijective.1
  intro p1 p2 he
  have hm : ∀ p, ∃ rc ∈ P, prev p = rc.2 ∧ row p = rc.1 := by
    intro p
    have := mem_of_nodup_length _ h.cols (by simpa using hl) (prev p)
    obtain ⟨rc, h1, h2⟩ := List.mem_map.1 this
    exact ⟨rc, h1, h2.symm, h.recd p rc h1 h2.symm⟩
  obtain ⟨a, a1, a2, a3⟩ := hm p1
  obtain ⟨b, b1, b2, b3⟩ := hm p2
  have hab : a = b := by
    refine List.inj_on_of_nodup_map h.rows a1 b1 ?_
    rw [← a3, ← b3, he]
  apply hp.1
  rw [a2, b2, hab]

/-! ## C29 -/

/-- All overlaps between the modes of q-point `i+1` and those of q-point `i` are positive. -/
def AllPositive (dots : Nat → Fin n → Fin n → K) (i : Nat) : Prop :=
  ∀ r c, 0 < dots (i + 1) r c

/-- The overlaps between q-points `i` and `i+1` single out a one-to-one correspondence `π` of the
modes: each `(r, π r)` is positive and larger than every other overlap of its row and column. -/
def Dominant (dots : Nat → Fin n → Fin n → K) (i : Nat) (π : Equiv.Perm (Fin n)) : Prop :=
  ∀ r, 0 < dots (i + 1) r (π r) ∧ (∀ c, c ≠ π r → dots (i + 1) r c < dots (i + 1) r (π r)) ∧
    ∀ r', r' ≠ r → dots (i + 1) r' (π r) < dots (i + 1) r (π r)

theorem exists_unused (l : List (Fin n)) (h : l.length < n) : ∃ x, x ∉ l := by
  by_contra hne
  push Not at hne
  have : Finset.univ ⊆ l.toFinset := fun x _ => List.mem_toFinset.2 (hne x)
  have h2 := Finset.card_le_card this
  rw [Finset.card_univ, Fintype.card_fin] at h2
  have := List.toFinset_card_le l
  omega

theorem assign_positive [NeZero n] (prev : Fin n → Fin n) (hp : Function.Bijective prev)
    (d0 : Fin n → Fin n → K) (hd : ∀ r c, 0 < d0 r c) (row : Fin n → Fin n) :
    ∃ row', assignLoop prev n d0 row = .ok row' ∧ Function.Bijective row' := by
  obtain ⟨P, dot, row', h1, h2, _, h4⟩ := assignLoop_spec prev hp d0 (fun _ => True) (by
    intro P dot row hI _ hlen r c hmax
    refine ⟨?_, trivial⟩
    obtain ⟨r', hr'⟩ := exists_unused (P.map (·.1)) (by simpa using hlen)
    obtain ⟨c', hc'⟩ := exists_unused (P.map (·.2)) (by simpa using hlen)
    have := hmax r' c'
    rw [hI.same r' c' hr' hc'] at this
    exact (hd r' c').trans_le this) n [] d0 row (inv_start prev d0 row) (by simp) (by simp)
  exact ⟨row', h1, inv_bijective prev P d0 dot row' hp h2 h4⟩

theorem assign_dominant [NeZero n] (prev : Fin n → Fin n) (hp : Function.Bijective prev)
    (dots : Nat → Fin n → Fin n → K) (i : Nat) (π : Equiv.Perm (Fin n)) (hd : Dominant dots i π)
    (row : Fin n → Fin n) :
    ∃ row', assignLoop prev n (dots (i + 1)) row = .ok row' ∧ ∀ p, π (row' p) = prev p := by
  obtain ⟨P, dot, row', h1, h2, h3, h4⟩ := assignLoop_spec prev hp (dots (i + 1))
    (fun rc => rc.2 = π rc.1) (by
    intro P dot row hI hQ hlen r c hmax
    obtain ⟨r0, hr0⟩ := exists_unused (P.map (·.1)) (by simpa using hlen)
    have hcol : ∀ r, r ∉ P.map (·.1) → π r ∉ P.map (·.2) := by
      intro r hr hm
      obtain ⟨rc, hrc, he⟩ := List.mem_map.1 hm
      apply hr
      rw [hQ rc hrc] at he
      rw [← π.injective he]
      exact List.mem_map_of_mem hrc
    have hpos : 0 < dot r c := by
      have := hmax r0 (π r0)
      rw [hI.same _ _ hr0 (hcol r0 hr0)] at this
      exact (hd r0).1.trans_le this
    refine ⟨hpos, ?_⟩
    have hr : r ∉ P.map (·.1) := fun h => hpos.ne' (hI.zero r c (Or.inl h))
    have hc : c ∉ P.map (·.2) := fun h => hpos.ne' (hI.zero r c (Or.inr h))
    by_contra hne
    have := hmax r (π r)
    rw [hI.same _ _ hr (hcol r hr), hI.same _ _ hr hc] at this
    exact absurd ((hd r).2.1 c hne) (not_lt.2 this)) n [] _ row (inv_start prev _ row) (by simp)
      (by simp)
  refine ⟨row', h1, fun p => ?_⟩
  have := mem_of_nodup_length _ h2.cols (by simpa using h4) (prev p)
  obtain ⟨rc, e1, e2⟩ := List.mem_map.1 this
  rw [h2.recd p rc e1 e2.symm, ← e2]
  exact (h3 rc e1).symm

/-- **C29**, the part that holds. If at every q-point where an assignment is calculated all overlaps
with the previous q-point are positive, or the overlaps single out a correspondence, then the mode map
of every q-point is a permutation.  Missing: overlaps that vanish in other ways, for which the claim is
false (`C29_orthonormal_counterexample`). -/
theorem C29_permutation_partial [NeZero n] (dots : Nat → Fin n → Fin n → K) (calcAt : Nat → Bool)
    (h : ∀ i, calcAt i = true → AllPositive dots i ∨ ∃ π, Dominant dots i π) (i : Nat) :
    ∃ m, modeMap dots calcAt i = .ok m ∧ Function.Bijective m := by
  induction i with
  | zero => exact ⟨id, rfl, Function.bijective_id⟩
  | succ i ih =>
    obtain ⟨m, h1, h2⟩ := ih
    unfold modeMap
    rw [h1]
    simp only [bind, Except.bind]
    by_cases hc : calcAt i = true
    · rw [if_pos hc]
      rcases h i hc with hpos | ⟨π, hd⟩
      · exact assign_positive m h2 _ hpos _
      · obtain ⟨row, e1, e2⟩ := assign_dominant m h2 dots i π hd fun _ => 0
        refine ⟨row, e1, Finite.injective_iff_bijective.1 fun a b hab => h2.1 ?_⟩
        rw [← e2, ← e2, hab]
    · rw [if_neg hc]
      exact ⟨m, rfl, h2⟩

/-- **C29**: under the same condition the frequencies and eigenvectors of every q-point are the original
ones in another order, the same for both. -/
theorem C29_reorder_partial [NeZero n] {d : Nat} (absC : K × K → K)
    (ev : Nat → Fin n → Fin d → K × K) (calcAt : Nat → Bool) (freqs : Nat → Fin n → K)
    (h : ∀ i, calcAt i = true →
      AllPositive (overlap absC ev) i ∨ ∃ π, Dominant (overlap absC ev) i π) (i : Nat) :
    ∃ (σ : Equiv.Perm (Fin n)), reordered absC ev calcAt freqs i =
      .ok (fun j => freqs i (σ j), fun j => ev i (σ j)) := by
  obtain ⟨m, h1, h2⟩ := C29_permutation_partial (overlap absC ev) calcAt h i
  refine ⟨Equiv.ofBijective m h2, ?_⟩
  unfold reordered
  rw [h1]
  rfl

/-- **C29**: where the overlaps single out a correspondence at every step, branch `j` follows it:
the mode placed at `j` at q-point `i+1` corresponds to the one placed at `j` at q-point `i`. -/
theorem C29_branches_followed [NeZero n] (dots : Nat → Fin n → Fin n → K) (calcAt : Nat → Bool)
    (π : Nat → Equiv.Perm (Fin n)) (h : ∀ i, calcAt i = true → Dominant dots i (π i)) (i : Nat)
    (hc : calcAt i = true) :
    ∃ m m', modeMap dots calcAt i = .ok m ∧ modeMap dots calcAt (i + 1) = .ok m' ∧
      ∀ j, π i (m' j) = m j := by
  obtain ⟨m, h1, h2⟩ := C29_permutation_partial dots calcAt (fun i hi => Or.inr ⟨_, h i hi⟩) i
  obtain ⟨row, e1, e2⟩ := assign_dominant m h2 dots i (π i) (h i hc) fun _ => 0
  refine ⟨m, row, h1, ?_, e2⟩
  unfold modeMap
  rw [h1]
  simp only [bind, Except.bind, if_pos hc]
  exact e1

/-! ## The counterexample -/

/-- Eigenvectors of the second q-point: an orthogonal 6x6 matrix with a zero that the greedy choice
runs into. -/
def exRows : List (List ℚ) :=
  [[3/4, -1/4, -1/4, -1/4, 1/2, 0], [-1/4, 3/4, -1/4, -1/4, 1/2, 0],
   [-1/4, -1/4, 3/4, -1/4, 1/2, 0], [-1/4, -1/4, -1/4, 3/4, 1/2, 0],
   [1/2, 1/2, 1/2, 1/2, 0, 0], [0, 0, 0, 0, 0, 1]]

/-- Orthonormal eigenvectors at two q-points of a crystal with two atoms (six branches). -/
def exEv (i : Nat) (r k : Fin 6) : ℚ × ℚ :=
  if i = 0 then (if r = k then 1 else 0, 0) else ((exRows.getD r.val []).getD k.val 0, 0)

/-- The eigenvectors of q-point `i` are orthonormal. -/
def Orthonormal' {d : Nat} (ev : Nat → Fin n → Fin d → ℚ × ℚ) (i : Nat) : Prop :=
  ∀ r c, ∑ k, ((ev i c k).1 * (ev i r k).1 + (ev i c k).2 * (ev i r k).2) = (if r = c then 1 else 0) ∧
    ∑ k, ((ev i c k).1 * (ev i r k).2 - (ev i c k).2 * (ev i r k).1) = 0

/-- **C29** (violated). With orthonormal eigenvectors at both q-points, reordering loses one frequency
and repeats another: the frequencies 1,2,3,4,5,6 become 1,2,3,4,1,6.  All overlaps are real here, so
the modulus is the absolute value. -/
theorem C29_orthonormal_counterexample :
    Orthonormal' exEv 0 ∧ Orthonormal' exEv 1 ∧
    ∃ r, reordered (fun z => |z.1|) exEv (fun _ => true) (fun _ j => (j.val : ℚ) + 1) 1 = .ok r ∧
      List.ofFn r.1 = [1, 2, 3, 4, 1, 6] := by
  refine ⟨?_, ?_, ?_⟩
  · unfold Orthonormal'
    decide +kernel
  · unfold Orthonormal'
    decide +kernel
  · have : (reordered (fun z => |z.1|) exEv (fun _ => true) (fun _ j => (j.val : ℚ) + 1) 1).map
        (fun r => List.ofFn r.1) = .ok [1, 2, 3, 4, 1, 6] := by
      decide +kernel
    cases h : reordered (fun z => |z.1|) exEv (fun _ => true) (fun _ j => (j.val : ℚ) + 1) 1 with
    | error e => rw [h] at this; simp [Except.map] at this
    | ok r => rw [h] at this; exact ⟨r, rfl, by simpa [Except.map] using this⟩

/-! ## Non-vacuity -/

/-- Three modes whose overlaps single out a cyclic correspondence. -/
example : ∃ π, Dominant (fun _ r c => if c = r + 1 then (9/10 : ℚ) else 1/10 : Nat → Fin 3 → Fin 3 → ℚ)
    0 π := by
  refine ⟨finRotate 3, ?_⟩
  unfold Dominant
  decide +kernel

example : AllPositive (fun _ r c => if c = r + 1 then (9/10 : ℚ) else 1/10 : Nat → Fin 3 → Fin 3 → ℚ)
    0 := by
  unfold AllPositive
  decide +kernel

end Euphonic.Reorder
