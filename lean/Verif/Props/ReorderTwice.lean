import Verif.Props.ReorderPath

/-! # Property C149: reordering a second time -/

set_option autoImplicit false
set_option linter.unusedSectionVars false

namespace Euphonic.Reorder

variable {K : Type} [Field K] [LinearOrder K] [IsStrictOrderedRing K] {n : Nat}

/-! ## Specification -/

/-- No two pairs of modes of q-points `i` and `i + 1` have the same overlap, and none vanishes. -/
def NoTies (dots : Nat → Fin n → Fin n → K) (i : Nat) : Prop :=
  (∀ r c, 0 < dots (i + 1) r c) ∧
    ∀ r c r' c', dots (i + 1) r c = dots (i + 1) r' c' → r = r' ∧ c = c'

/-! ## The greedy choice -/

/-- What the loop gives when all overlaps are positive: a permutation that keeps what has been assigned and of which
every set of places not yet assigned has a place whose overlap is the largest in the set. -/
theorem assignLoop_greedy [NeZero n] (prev : Fin n → Fin n) (hp : Function.Bijective prev)
    (d0 : Fin n → Fin n → K) (hd : ∀ r c, 0 < d0 r c)
    (t : Nat) (P : List (Fin n × Fin n)) (dot : Fin n → Fin n → K) (row : Fin n → Fin n)
    (hI : Inv prev P d0 dot row) (hlen : P.length + t = n) :
    ∃ row', assignLoop prev t dot row = .ok row' ∧ Function.Bijective row' ∧
      (∀ rc ∈ P, ∀ p, prev p = rc.2 → row' p = rc.1) ∧
      ∀ U : Finset (Fin n), U.Nonempty → (∀ p ∈ U, prev p ∉ P.map (·.2)) →
        ∃ p ∈ U, ∀ a ∈ U, ∀ b ∈ U, d0 (row' a) (prev b) ≤ d0 (row' p) (prev p) := by
  induction t generalizing P dot row with
  | zero =>
    refine ⟨row, rfl, inv_bijective prev P d0 dot row hp hI (by omega), fun rc h p => hI.recd p rc h, ?_⟩
    rintro U ⟨p, hpU⟩ hU
    exact absurd (mem_of_nodup_length _ hI.cols (by simpa using hlen) (prev p)) (hU p hpU)
  | succ t ih =>
    obtain ⟨⟨r, c⟩, h1, h2⟩ := argmax_spec dot
    obtain ⟨p, h3, h4⟩ := find_prev prev hp c
    have h5 : 0 < dot r c := by
      obtain ⟨r', hr'⟩ := exists_unused (P.map (·.1)) (by simp; omega)
      obtain ⟨c', hc'⟩ := exists_unused (P.map (·.2)) (by simp; omega)
      have := h2 r' c'
      rw [hI.same r' c' hr' hc'] at this
      exact (hd r' c').trans_le this
    have hr : r ∉ P.map (·.1) := fun h => h5.ne' (hI.zero r c (Or.inl h))
    have hc : c ∉ P.map (·.2) := fun h => h5.ne' (hI.zero r c (Or.inr h))
    have hI' : Inv prev ((r, c) :: P) d0 (zeroOut dot r c) (Function.update row p r) := by
      refine ⟨?_, ?_, ?_, ?_, ?_⟩
      · simpa using ⟨by simpa using hr, hI.rows⟩
      · simpa using ⟨by simpa using hc, hI.cols⟩
      · intro r' c' h
        simp only [zeroOut]
        split
        · rfl
        · rename_i hne
          push Not at hne
          apply hI.zero
          simpa [hne.1, hne.2] using h
      · intro r' c' e1 e2
        simp only [List.map_cons, List.mem_cons, not_or] at e1 e2
        simp only [zeroOut, e1.1, e2.1, or_self, if_false]
        exact hI.same r' c' e1.2 e2.2
      · intro p' rc hrc hpr
        rcases List.mem_cons.1 hrc with rfl | hrc
        · have : p' = p := hp.1 (hpr.trans h4.symm)
          simp [this]
        · have : p' ≠ p := by
            rintro rfl
            apply hc
            rw [← h4, hpr]
            exact List.mem_map_of_mem hrc
          rw [Function.update_of_ne this]
          exact hI.recd p' rc hrc hpr
    obtain ⟨row', e1, e2, e3, e4⟩ := ih _ _ _ hI' (by simp; omega)
    refine ⟨row', ?_, e2, fun rc hrc => e3 rc (List.mem_cons_of_mem _ hrc), ?_⟩
    · unfold assignLoop
      rw [h1]
      simp only [h3]
      exact e1
    · intro U hU hfree
      by_cases hpU : p ∈ U
      · refine ⟨p, hpU, fun a ha b hb => ?_⟩
        have hrow : row' p = r := e3 (r, c) (by simp) p h4
        have hra : row' a ∉ P.map (·.1) := by
          intro hm
          obtain ⟨rc, hrc, he⟩ := List.mem_map.1 hm
          obtain ⟨p', hp'⟩ := hp.2 rc.2
          have := e3 rc (List.mem_cons_of_mem _ hrc) p' hp'
          have : a = p' := e2.1 (by rw [this, he])
          subst this
          exact hfree a ha (by rw [hp']; exact List.mem_map_of_mem hrc)
        have := h2 (row' a) (prev b)
        rw [hI.same _ _ hra (hfree b hb), hI.same _ _ hr hc] at this
        rw [hrow, h4]
        exact this
      · refine e4 U hU fun a ha => ?_
        simp only [List.map_cons, List.mem_cons, not_or]
        refine ⟨fun he => hpU ?_, hfree a ha⟩
        have : a = p := hp.1 (by rw [he, h4])
        rwa [← this]

/-- The loop on overlaps whose largest entry in any set of places is on the diagonal, and no other. -/
theorem assignLoop_diagonal [NeZero n] (d0 : Fin n → Fin n → K) (hd : ∀ r c, 0 < d0 r c)
    (hties : ∀ r c r' c', d0 r c = d0 r' c' → r = r' ∧ c = c')
    (hmax : ∀ U : Finset (Fin n), U.Nonempty → ∃ p ∈ U, ∀ a ∈ U, ∀ b ∈ U, d0 a b ≤ d0 p p)
    (row : Fin n → Fin n) : assignLoop id n d0 row = .ok id := by
  obtain ⟨P, dot, row', h1, h2, h3, h4⟩ := assignLoop_spec id Function.bijective_id d0 (fun rc => rc.1 = rc.2) (by
    intro P dot row hI hQ hlen r c hm
    have heq : ∀ x, x ∈ P.map (·.1) ↔ x ∈ P.map (·.2) := by
      intro x
      have : P.map (·.1) = P.map (·.2) := List.map_congr_left fun rc h => hQ rc h
      rw [this]
    obtain ⟨x0, hx0⟩ := exists_unused (P.map (·.1)) (by simpa using hlen)
    obtain ⟨p, hpU, hmx⟩ := hmax (Finset.univ.filter fun x => x ∉ P.map (·.1)) ⟨x0, by simpa using hx0⟩
    have hp1 : p ∉ P.map (·.1) := (Finset.mem_filter.1 hpU).2
    have hp2 : p ∉ P.map (·.2) := fun h => hp1 ((heq p).2 h)
    have h5 : 0 < dot r c := by
      have := hm p p
      rw [hI.same _ _ hp1 hp2] at this
      exact (hd p p).trans_le this
    have hr : r ∉ P.map (·.1) := fun h => h5.ne' (hI.zero r c (Or.inl h))
    have hc : c ∉ P.map (·.2) := fun h => h5.ne' (hI.zero r c (Or.inr h))
    have hc1 : c ∉ P.map (·.1) := fun h => hc ((heq c).1 h)
    refine ⟨h5, ?_⟩
    have a1 := hm p p
    rw [hI.same _ _ hp1 hp2, hI.same _ _ hr hc] at a1
    have a2 := hmx r (Finset.mem_filter.2 ⟨Finset.mem_univ _, hr⟩) c (Finset.mem_filter.2 ⟨Finset.mem_univ _, hc1⟩)
    obtain ⟨b1, b2⟩ := hties _ _ _ _ (le_antisymm a1 a2)
    show r = c
    rw [← b1, ← b2]) n [] d0 row (inv_start id d0 row) (by simp) (by simp)
  rw [h1]
  congr 1
  funext p
  have := mem_of_nodup_length _ h2.cols (by simpa using h4) p
  obtain ⟨rc, e1, e2⟩ := List.mem_map.1 this
  rw [h2.recd p rc e1 e2.symm, h3 rc e1, e2]
  rfl

/-- The mode map is a permutation, and the map calculated for the rearranged overlaps is the identity. -/
theorem modeMap_twice [NeZero n] (dots : Nat → Fin n → Fin n → K) (calcAt : Nat → Bool)
    (h : ∀ i, calcAt i = true → NoTies dots i ∨ ∃ π, Dominant dots i π)
    (m : Nat → Fin n → Fin n) (hm : ∀ i, modeMap dots calcAt i = .ok (m i)) (i : Nat) :
    modeMap (fun i r c => dots i (m i r) (m (i - 1) c)) calcAt i = .ok id := by
  have hbij : ∀ i, Function.Bijective (m i) := by
    intro i
    obtain ⟨m', h1, h2⟩ := C29_permutation_partial dots calcAt (fun i hi => (h i hi).imp_left (·.1)) i
    rw [hm i] at h1
    rw [Except.ok.inj h1]
    exact h2
  induction i with
  | zero => rfl
  | succ i ih =>
    unfold modeMap
    rw [ih]
    simp only [bind, Except.bind]
    by_cases hc : calcAt i = true
    · rw [if_pos hc]
      have hrun : assignLoop (m i) n (dots (i + 1)) (fun _ => 0) = .ok (m (i + 1)) := by
        have := hm (i + 1)
        unfold modeMap at this
        rw [hm i] at this
        simpa only [bind, Except.bind, if_pos hc] using this
      rcases h i hc with ht | ⟨π, hπ⟩
      · obtain ⟨row', e1, _, _, e4⟩ := assignLoop_greedy (m i) (hbij i) (dots (i + 1)) ht.1 n [] _ (fun _ => 0)
          (inv_start _ _ _) (by simp)
        rw [hrun] at e1
        obtain rfl := Except.ok.inj e1
        apply assignLoop_diagonal
        · intro r c
          exact ht.1 _ _
        · intro r c r' c' he
          obtain ⟨b1, b2⟩ := ht.2 _ _ _ _ he
          exact ⟨(hbij (i + 1)).1 b1, (hbij i).1 b2⟩
        · intro U hU
          exact e4 U hU fun _ _ => by simp
      · obtain ⟨row, e1, e2⟩ := assign_dominant (m i) (hbij i) dots i π hπ fun _ => 0
        rw [hrun] at e1
        obtain rfl := Except.ok.inj e1
        have hd : Dominant (fun i r c => dots i (m i r) (m (i - 1) c)) i (Equiv.refl _) := by
          intro r
          obtain ⟨a1, a2, a3⟩ := hπ (m (i + 1) r)
          simp only [Nat.add_sub_cancel, Equiv.refl_apply]
          rw [e2] at a1 a2 a3
          refine ⟨a1, fun c hcr => a2 _ fun he => hcr ((hbij i).1 he), fun r' hr => a3 _ fun he => hr ?_⟩
          exact (hbij (i + 1)).1 he
        obtain ⟨row, f1, f2⟩ := assign_dominant id Function.bijective_id
          (fun i r c => dots i (m i r) (m (i - 1) c)) i (Equiv.refl _) hd fun _ => 0
        rw [f1]
        congr 1
        funext p
        exact f2 p
    · rw [if_neg hc]
      rfl

/-! ## C149 -/

/-- **C149**, the part that holds. If, wherever modes are matched, the overlaps are positive and all different, or single
out a correspondence, then reordering modes that have been reordered changes neither frequencies nor eigenvectors.
Missing: equal overlaps, for which the claim is false (`C149_ties`). -/
theorem C149_idempotent_partial [NeZero n] {d : Nat} (absC : K × K → K) (ev : Nat → Fin n → Fin d → K × K)
    (calcAt : Nat → Bool) (freqs : Nat → Fin n → K)
    (h : ∀ i, calcAt i = true → NoTies (overlap absC ev) i ∨ ∃ π, Dominant (overlap absC ev) i π)
    (f : Nat → Fin n → K) (e : Nat → Fin n → Fin d → K × K)
    (hfe : ∀ i, reordered absC ev calcAt freqs i = .ok (f i, e i)) (i : Nat) :
    reordered absC e calcAt f i = .ok (f i, e i) := by
  have hm : ∀ i, ∃ m, modeMap (overlap absC ev) calcAt i = .ok m := by
    intro i
    have := hfe i
    unfold reordered at this
    cases hi : modeMap (overlap absC ev) calcAt i with
    | error x => rw [hi] at this; cases this
    | ok m => exact ⟨m, rfl⟩
  choose m hm using hm
  have he : ∀ i, f i = (fun j => freqs i (m i j)) ∧ e i = fun j => ev i (m i j) := by
    intro i
    have := hfe i
    unfold reordered at this
    rw [hm i] at this
    have := Except.ok.inj this
    exact ⟨(congrArg Prod.fst this).symm, (congrArg Prod.snd this).symm⟩
  have hov : overlap absC e = fun i r c => overlap absC ev i (m i r) (m (i - 1) c) := by
    funext i r c
    unfold overlap
    rw [(he i).2, (he (i - 1)).2]
  unfold reordered
  rw [hov, modeMap_twice _ _ h m hm i]
  rfl

/-- Orthonormal eigenvectors of one atom at three q-points; at the last one overlaps are equal. -/
def exTies (i : Nat) (r k : Fin 3) : ℚ × ℚ :=
  (((([[[1, 0, 0], [0, 1, 0], [0, 0, 1]], [[1, 0, 0], [0, 0, 1], [0, 1, 0]],
    [[2/3, 2/3, 1/3], [1/3, -2/3, 2/3], [-2/3, 1/3, 2/3]]] : List (List (List ℚ))).getD i []).getD r.val []).getD k.val 0, 0)

/-- The eigenvectors after one reordering. -/
def exTiesOnce (i : Nat) (r k : Fin 3) : ℚ × ℚ :=
  (((([[[1, 0, 0], [0, 1, 0], [0, 0, 1]], [[1, 0, 0], [0, 1, 0], [0, 0, 1]],
    [[2/3, 2/3, 1/3], [-2/3, 1/3, 2/3], [1/3, -2/3, 2/3]]] : List (List (List ℚ))).getD i []).getD r.val []).getD k.val 0, 0)

/-- **C149** (violated). With orthonormal eigenvectors some of whose overlaps are equal, reordering a second time changes
the order at the third q-point: the frequencies 1, 2, 3 become 1, 3, 2 by the first and 1, 2, 3 by the second.  All
overlaps are real, so the modulus is the absolute value. -/
theorem C149_ties :
    Orthonormal' exTies 0 ∧ Orthonormal' exTies 1 ∧ Orthonormal' exTies 2 ∧
    (∀ i, i < 3 → ∃ r, reordered (fun z => |z.1|) exTies (fun _ => true) (fun _ j => (j.val : ℚ) + 1) i = .ok r ∧
      r.2 = exTiesOnce i) ∧
    ((reordered (fun z => |z.1|) exTies (fun _ => true) (fun _ j => (j.val : ℚ) + 1) 2).map fun r => List.ofFn r.1) =
      .ok [1, 3, 2] ∧
    ((reordered (fun z => |z.1|) exTiesOnce (fun _ => true)
      (fun i => if i = 2 then ![1, 3, 2] else ![1, 2, 3]) 2).map fun r => List.ofFn r.1) = .ok [1, 2, 3] := by
  refine ⟨by unfold Orthonormal'; decide +kernel, by unfold Orthonormal'; decide +kernel,
    by unfold Orthonormal'; decide +kernel, ?_, by decide +kernel, by decide +kernel⟩
  intro i hi
  have h : ∀ i : Fin 3, (reordered (fun z => |z.1|) exTies (fun _ => true) (fun _ j => (j.val : ℚ) + 1) i.val).map
      (fun r => decide (∀ j k, r.2 j k = exTiesOnce i.val j k)) = .ok true := by decide +kernel
  have h := h ⟨i, hi⟩
  cases hr : reordered (fun z => |z.1|) exTies (fun _ => true) (fun _ j => (j.val : ℚ) + 1) i with
  | error e => simp only [hr] at h; cases h
  | ok r =>
    simp only [hr] at h
    refine ⟨r, rfl, ?_⟩
    have := of_decide_eq_true (Except.ok.inj h)
    funext j k
    exact this j k

/-! ## Non-vacuity -/

/-- Overlaps all positive and all different. -/
example : NoTies (fun _ r c => 1 / ((r.val : ℚ) * 3 + c.val + 1) : Nat → Fin 3 → Fin 3 → ℚ) 0 := by
  unfold NoTies
  decide +kernel

/-- The eigenvectors of a crossing single out a correspondence. -/
example (i : Nat) : ∃ π, Dominant (overlap modulus exCross) i π := exCross_dominant i

end Euphonic.Reorder
