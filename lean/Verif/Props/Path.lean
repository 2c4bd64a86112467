import Verif.Props.Lattice

/-! # Properties C34-C36: paths through reciprocal space and their labels -/

set_option autoImplicit false
set_option linter.unusedSectionVars false

namespace Euphonic.Lattice

/-! ## C34 -/

theorem norm3_nonneg (v : V3 ℝ) : 0 ≤ norm3 v := Real.sqrt_nonneg _

theorem stepLength_nonneg (recip : M3 ℝ) (d : V3 ℝ) : 0 ≤ stepLength recip d := by
  unfold stepLength
  split
  · exact le_rfl
  · exact norm3_nonneg _

theorem length_diffs {K : Type} [Sub K] (l : List (V3 K)) : (diffs l).length = l.length - 1 := by
  induction l with
  | nil => rfl
  | cons a l ih =>
    cases l with
    | nil => rfl
    | cons b l => simp only [diffs, List.length_cons] at ih ⊢; omega

theorem getElem?_diffs {K : Type} [Sub K] (l : List (V3 K)) (i : Nat) (h : i + 1 < l.length) :
    (diffs l)[i]? = some (sub l[i + 1] l[i]) := by
  induction l generalizing i with
  | nil => simp at h
  | cons a l ih =>
    cases l with
    | nil => simp at h
    | cons b l =>
      cases i with
      | zero => simp [diffs]
      | succ i =>
        simp only [diffs, List.getElem?_cons_succ]
        rw [ih i (by simpa using h)]
        simp

theorem scanl_step {α : Type} (f : ℝ → α → ℝ) (l : List α) (b : ℝ) (i : Nat) (h : i < l.length) :
    (l.scanl f b).getD (i + 1) 0 = f ((l.scanl f b).getD i 0) l[i] := by
  induction l generalizing b i with
  | nil => simp at h
  | cons a l ih =>
    cases i with
    | zero => cases l <;> simp [List.scanl]
    | succ i =>
      rw [List.scanl_cons, List.getD_cons_succ, List.getD_cons_succ, ih (f b a) i (by simpa using h)]
      simp

/-- **C34**: one value per q-point, the first one 0 (for at least one q-point). -/
theorem C34_length_and_start (recip : M3 ℝ) (qpts : List (V3 ℝ)) (h : qpts ≠ []) :
    (calcAbscissa recip qpts).length = qpts.length ∧ (calcAbscissa recip qpts)[0]? = some 0 := by
  have : 0 < qpts.length := List.length_pos_iff.2 h
  constructor
  · simp only [calcAbscissa, List.length_scanl, List.length_map, length_diffs]
    omega
  · unfold calcAbscissa
    cases (diffs qpts).map (stepLength recip) <;> simp [List.scanl]

/-- **C34**: the increment between neighbouring q-points is the Cartesian distance between them, or zero
if they are equivalent (differ by a reciprocal lattice vector within the tolerance, without being
equal). -/
theorem C34_increment (recip : M3 ℝ) (qpts : List (V3 ℝ)) (i : Nat) (h : i + 1 < qpts.length) :
    (calcAbscissa recip qpts).getD (i + 1) 0 - (calcAbscissa recip qpts).getD i 0 =
      stepLength recip (sub qpts[i + 1] qpts[i]) := by
  unfold calcAbscissa
  have hi : i < ((diffs qpts).map (stepLength recip)).length := by
    rw [List.length_map, length_diffs]; omega
  rw [scanl_step _ _ _ _ hi]
  have h2 := getElem?_diffs qpts i h
  have h3 : i < (diffs qpts).length := by rw [length_diffs]; omega
  rw [List.getElem?_eq_getElem h3] at h2
  rw [List.getElem_map, Option.some.inj h2]
  ring

/-- **C34**: the axis never decreases. -/
theorem C34_monotone (recip : M3 ℝ) (qpts : List (V3 ℝ)) (i : Nat) (h : i + 1 < qpts.length) :
    (calcAbscissa recip qpts).getD i 0 ≤ (calcAbscissa recip qpts).getD (i + 1) 0 := by
  have h1 := C34_increment recip qpts i h
  have h2 := stepLength_nonneg recip (sub qpts[i + 1] qpts[i])
  linarith

/-- **C34**: the axis does not move between q-points that differ by a reciprocal lattice vector. -/
theorem C34_equivalent_points (recip : M3 ℝ) (qpts : List (V3 ℝ)) (i : Nat) (h : i + 1 < qpts.length)
    (a b c : ℤ) (hG : qpts[i + 1] = ⟨qpts[i].x + a, qpts[i].y + b, qpts[i].z + c⟩) :
    (calcAbscissa recip qpts).getD (i + 1) 0 = (calcAbscissa recip qpts).getD i 0 := by
  have h1 := C34_increment recip qpts i h
  rw [hG] at h1
  have hs : sub (⟨qpts[i].x + a, qpts[i].y + b, qpts[i].z + c⟩ : V3 ℝ) qpts[i] =
      ⟨(a : ℝ), (b : ℝ), (c : ℝ)⟩ := by
    simp [sub]
  rw [hs] at h1
  have h2 : stepLength recip ⟨(a : ℝ), (b : ℝ), (c : ℝ)⟩ = 0 := by
    unfold stepLength
    have hrem : sumAbs (rem (⟨(a : ℝ), (b : ℝ), (c : ℝ)⟩ : V3 ℝ)) = 0 := by
      simp [sumAbs, rem, rint_intCast]
    by_cases h0 : a = 0 ∧ b = 0 ∧ c = 0
    · obtain ⟨rfl, rfl, rfl⟩ := h0
      simp [norm3, toCart, dot]
    · rw [if_pos]
      refine ⟨?_, by rw [hrem]; norm_num⟩
      have h3 : (1 : ℤ) ≤ |a| + |b| + |c| := by
        rw [Int.abs_eq_natAbs, Int.abs_eq_natAbs, Int.abs_eq_natAbs]; omega
      have h4 : ((1 : ℤ) : ℝ) ≤ ((|a| + |b| + |c| : ℤ) : ℝ) := Int.cast_le.2 h3
      push_cast at h4
      simp only [sumAbs]
      linarith
  rw [h2] at h1
  linarith

/-- **C34**: between q-points whose difference is not within the tolerance of a lattice vector the axis
moves by the length of the difference in Cartesian coordinates. -/
theorem C34_distance (recip : M3 ℝ) (qpts : List (V3 ℝ)) (i : Nat) (h : i + 1 < qpts.length)
    (hne : 1 / 1000 ≤ sumAbs (rem (sub qpts[i + 1] qpts[i]))) :
    (calcAbscissa recip qpts).getD (i + 1) 0 - (calcAbscissa recip qpts).getD i 0 =
      norm3 (toCart recip (sub qpts[i + 1] qpts[i])) := by
  rw [C34_increment recip qpts i h]
  unfold stepLength
  rw [if_neg]
  rintro ⟨_, h2⟩
  linarith

/-- A path with a jump by a reciprocal lattice vector. -/
example : (([⟨0, 0, 0⟩, ⟨1/2, 0, 0⟩, ⟨-1/2, 0, 0⟩] : List (V3 ℝ)))[2] =
    ⟨(([⟨0, 0, 0⟩, ⟨1/2, 0, 0⟩, ⟨-1/2, 0, 0⟩] : List (V3 ℝ)))[1].x + ((-1 : ℤ) : ℝ),
     (([⟨0, 0, 0⟩, ⟨1/2, 0, 0⟩, ⟨-1/2, 0, 0⟩] : List (V3 ℝ)))[1].y + ((0 : ℤ) : ℝ),
     (([⟨0, 0, 0⟩, ⟨1/2, 0, 0⟩, ⟨-1/2, 0, 0⟩] : List (V3 ℝ)))[1].z + ((0 : ℤ) : ℝ)⟩ := by
  simp; norm_num

/-! ## C35 -/

theorem length_interiorLabels (l : List (V3 ℝ)) : (interiorLabels l).length = l.length - 2 := by
  induction l with
  | nil => rfl
  | cons a l ih =>
    cases l with
    | nil => rfl
    | cons b l =>
      cases l with
      | nil => rfl
      | cons c l => simp only [interiorLabels, List.length_cons] at ih ⊢; omega

theorem getElem?_interiorLabels (l : List (V3 ℝ)) (i : Nat) (h : i + 2 < l.length) :
    (interiorLabels l)[i]? = some (dirChanged (sub l[i + 1] l[i]) (sub l[i + 2] l[i + 1]) ||
      isGamma l[i + 1] || (decide (l[i + 2].x = l[i + 1].x) && decide (l[i + 2].y = l[i + 1].y) &&
        decide (l[i + 2].z = l[i + 1].z))) := by
  induction l generalizing i with
  | nil => simp at h
  | cons a l ih =>
    cases l with
    | nil => simp at h
    | cons b l =>
      cases l with
      | nil => simp at h
      | cons c l =>
        cases i with
        | zero => simp [interiorLabels]
        | succ i =>
          simp only [interiorLabels, List.getElem?_cons_succ]
          rw [ih i (by simpa using h)]
          simp

theorem length_hasLabel (l : List (V3 ℝ)) : (hasLabel l).length = l.length := by
  unfold hasLabel
  split
  · simp
  · simp [length_interiorLabels]; omega

theorem mem_whereIdx (mask : List Bool) (i : Nat) : i ∈ whereIdx mask ↔ mask[i]? = some true := by
  simp only [whereIdx, List.mem_map, List.mem_filter, Prod.exists]
  constructor
  · rintro ⟨a, j, ⟨h1, h2⟩, rfl⟩
    rw [List.mem_zipIdx_iff_getElem?] at h1
    rw [h1]; simpa using h2
  · intro h
    exact ⟨true, i, ⟨List.mem_zipIdx_iff_getElem?.2 h, rfl⟩, rfl⟩

theorem sorted_whereIdx (mask : List Bool) : (whereIdx mask).Pairwise (· < ·) := by
  have h1 : (mask.zipIdx.map (·.2)).Pairwise (· < ·) := by
    rw [List.zipIdx_map_snd]
    exact List.pairwise_lt_range'
  unfold whereIdx
  rw [List.pairwise_map] at h1 ⊢
  exact h1.filter _

/-- What it takes for a q-point to be labelled: first, last, a gamma point, followed by the same point,
or a change of direction of the path at it. -/
def Labelled (qpts : List (V3 ℝ)) (i : Nat) : Prop :=
  ∃ (h : i < qpts.length), i = 0 ∨ i + 1 = qpts.length ∨
    isGamma qpts[i] = true ∨
    (∃ h2 : i + 1 < qpts.length, qpts[i + 1] = qpts[i]) ∨
    (∃ h2 : i + 1 < qpts.length,
      dirChanged (sub qpts[i] (qpts[i - 1]'(by omega))) (sub qpts[i + 1] qpts[i]) = true)

theorem indices_qpointLabels (table : List (String × V3 ℝ)) (t : V3 ℝ → String)
    (qpts : List (V3 ℝ)) : (qpointLabels table t qpts).map (·.1) = whereIdx (hasLabel qpts) := by
  unfold qpointLabels
  dsimp only
  apply List.map_fst_zip
  split <;> simp

/-- **C35**: for every list of q-points (of any length) the labelled indices are strictly increasing and
are exactly the first, the last, the gamma points, the points repeated by their successor and the points
where the direction changes. -/
theorem C35_labelled_points (table : List (String × V3 ℝ)) (t : V3 ℝ → String)
    (qpts : List (V3 ℝ)) :
    ((qpointLabels table t qpts).map (·.1)).Pairwise (· < ·) ∧
    ∀ i, i ∈ (qpointLabels table t qpts).map (·.1) ↔ Labelled qpts i := by
  rw [indices_qpointLabels]
  refine ⟨sorted_whereIdx _, fun i => ?_⟩
  rw [mem_whereIdx]
  constructor
  · intro h
    have hi : i < qpts.length := by
      rw [← length_hasLabel]
      exact (List.getElem?_eq_some_iff.1 h).1
    refine ⟨hi, ?_⟩
    by_cases hs : qpts.length ≤ 2
    · omega
    · unfold hasLabel at h
      rw [if_neg hs] at h
      rcases Nat.eq_zero_or_pos i with rfl | hpos
      · exact Or.inl rfl
      · obtain ⟨j, rfl⟩ : ∃ j, i = j + 1 := ⟨i - 1, by omega⟩
        by_cases hl : j + 1 + 1 = qpts.length
        · exact Or.inr (Or.inl hl)
        · have hj : j < (interiorLabels qpts).length := by rw [length_interiorLabels]; omega
          rw [List.cons_append, List.getElem?_cons_succ, List.getElem?_append_left hj,
            getElem?_interiorLabels qpts j (by omega)] at h
          have h2 := Option.some.inj h
          simp only [Bool.or_eq_true, Bool.and_eq_true, decide_eq_true_eq] at h2
          rcases h2 with (h2 | h2) | h2
          · exact Or.inr (Or.inr (Or.inr (Or.inr ⟨by omega, by simpa using h2⟩)))
          · exact Or.inr (Or.inr (Or.inl h2))
          · refine Or.inr (Or.inr (Or.inr (Or.inl ⟨by omega, ?_⟩)))
            generalize qpts[j + 1 + 1] = u at *
            generalize qpts[j + 1] = v at *
            obtain ⟨u1, u2, u3⟩ := u
            obtain ⟨v1, v2, v3⟩ := v
            simp only [V3.mk.injEq] at h2 ⊢
            exact ⟨h2.1.1, h2.1.2, h2.2⟩
  · rintro ⟨hi, h⟩
    unfold hasLabel
    by_cases hs : qpts.length ≤ 2
    · rw [if_pos hs]
      simp [hi]
    · rw [if_neg hs]
      rcases Nat.eq_zero_or_pos i with rfl | hpos
      · simp
      · obtain ⟨j, rfl⟩ : ∃ j, i = j + 1 := ⟨i - 1, by omega⟩
        rw [List.cons_append, List.getElem?_cons_succ]
        by_cases hl : j + 1 + 1 = qpts.length
        · rw [List.getElem?_append_right (by rw [length_interiorLabels]; omega), length_interiorLabels]
          have : j - (qpts.length - 2) = 0 := by omega
          rw [this]; rfl
        · have hj : j < (interiorLabels qpts).length := by rw [length_interiorLabels]; omega
          rw [List.getElem?_append_left hj, getElem?_interiorLabels qpts j (by omega)]
          congr 1
          simp only [Bool.or_eq_true, Bool.and_eq_true, decide_eq_true_eq]
          rcases h with h | h | h | ⟨h2, h⟩ | ⟨h2, h⟩
          · omega
          · omega
          · exact Or.inl (Or.inr h)
          · right
            have e : qpts[j + 2] = qpts[j + 1] := h
            rw [e]; simp
          · exact Or.inl (Or.inl (by simpa using h))

/-- **C35**: what "direction changed" means: the angle between the two steps is not 0 or 180 degrees
(beyond the tolerance); parallel and antiparallel steps never count. -/
theorem C35_parallel_steps_not_changed (d : V3 ℝ) (k : ℝ) : dirChanged d (smul k d) = false := by
  unfold dirChanged
  have h1 : dot (smul k d) d = k * dot d d := by simp only [dot, smul]; ring
  have h0 : 0 ≤ dot d d := by
    simp only [dot]
    nlinarith [mul_self_nonneg d.x, mul_self_nonneg d.y, mul_self_nonneg d.z]
  have h2 : norm3 (smul k d) = |k| * norm3 d := by
    unfold norm3
    have : dot (smul k d) (smul k d) = |k| ^ 2 * dot d d := by
      rw [sq_abs]; simp only [dot, smul]; ring
    rw [this, Real.sqrt_mul (by positivity), Real.sqrt_sq (abs_nonneg k)]
  rw [h1, h2, abs_mul, abs_of_nonneg h0, mul_assoc]
  have h3 : norm3 d * norm3 d = dot d d := Real.mul_self_sqrt h0
  rw [h3, sub_self, abs_zero, decide_eq_false_iff_not]
  norm_num

/-- A right-angle corner of unit steps is a change of direction. -/
example : dirChanged ⟨1, 0, 0⟩ ⟨0, 1, 0⟩ = true := by
  unfold dirChanged
  rw [decide_eq_true_eq]
  norm_num [dot, norm3]

/-! ## C36 -/

section Label
variable {K : Type} [Field K] [LinearOrder K] [IsStrictOrderedRing K] [FloorRing K]

/-- **C36**: adding an integer vector to a q-point does not change its label. -/
theorem C36_lattice_translation (table : List (String × V3 K)) (q : V3 K) (a b c : ℤ) :
    qptLabel table ⟨q.x + a, q.y + b, q.z + c⟩ = qptLabel table q := by
  have : norm01 (⟨q.x + a, q.y + b, q.z + c⟩ : V3 K) = norm01 q := by
    simp only [norm01, Int.floor_add_intCast, V3.mk.injEq]
    push_cast
    refine ⟨?_, ?_, ?_⟩ <;> ring
  unfold qptLabel
  rw [this]

/-- `v` matches the reference coordinates `c` in every component within `1e-6 + 1e-5 |v|`. -/
def Matches (c v : V3 K) : Prop :=
  |c.x - v.x| ≤ 1 / 10 ^ 6 + 1 / 10 ^ 5 * |v.x| ∧ |c.y - v.y| ≤ 1 / 10 ^ 6 + 1 / 10 ^ 5 * |v.y| ∧
    |c.z - v.z| ≤ 1 / 10 ^ 6 + 1 / 10 ^ 5 * |v.z|

/-- The coordinates moved into `[0, 1)`. -/
def reduced (q : V3 K) : V3 K := ⟨Int.fract q.x, Int.fract q.y, Int.fract q.z⟩

theorem closeTo_iff (c v : V3 K) : closeTo c v = true ↔ Matches c v := by
  simp [closeTo, Matches, and_assoc]

theorem norm01_eq (q : V3 K) : norm01 q = reduced q := by
  simp only [norm01, reduced, Int.self_sub_floor]

/-- **C36**: a non-empty label is only returned if one of the cyclic rolls of the reduced coordinates
matches the coordinates of that label. -/
theorem C36_sound (table : List (String × V3 K)) (q : V3 K) (h : qptLabel table q ≠ "") :
    ∃ c, (qptLabel table q, c) ∈ table ∧
      (Matches c (reduced q) ∨
       Matches c ⟨(reduced q).z, (reduced q).x, (reduced q).y⟩ ∨
       Matches c ⟨(reduced q).y, (reduced q).z, (reduced q).x⟩) := by
  unfold qptLabel at h ⊢
  dsimp only at h ⊢
  rw [norm01_eq] at *
  cases e1 : table.find? (fun e => closeTo e.2 (reduced q)) with
  | some p =>
    exact ⟨p.2, List.mem_of_find?_eq_some e1, Or.inl ((closeTo_iff _ _).1 (by
      simpa using List.find?_some e1))⟩
  | none =>
    rw [e1] at h
    dsimp only at h ⊢
    cases e2 : table.find? (fun e => closeTo e.2 (roll (reduced q))) with
    | some p =>
      exact ⟨p.2, List.mem_of_find?_eq_some e2, Or.inr (Or.inl ((closeTo_iff _ _).1 (by
        simpa [roll] using List.find?_some e2)))⟩
    | none =>
      rw [e2] at h
      dsimp only at h ⊢
      cases e3 : table.find? (fun e => closeTo e.2 (roll (roll (reduced q)))) with
      | some p =>
        exact ⟨p.2, List.mem_of_find?_eq_some e3, Or.inr (Or.inr ((closeTo_iff _ _).1 (by
          simpa [roll] using List.find?_some e3)))⟩
      | none =>
        rw [e3] at h
        exact absurd rfl h

/-- **C36**: if any entry matches the point itself (not rolled), the label is that of the first such
entry of the table. -/
theorem C36_unrolled_first (pre post : List (String × V3 K)) (e : String × V3 K) (q : V3 K)
    (he : Matches e.2 (reduced q)) (hpre : ∀ p ∈ pre, ¬ Matches p.2 (reduced q)) :
    qptLabel (pre ++ e :: post) q = e.1 := by
  unfold qptLabel
  dsimp only
  rw [norm01_eq]
  have : (pre ++ e :: post).find? (fun p => closeTo p.2 (reduced q)) = some e := by
    rw [List.find?_append]
    have h1 : pre.find? (fun p => closeTo p.2 (reduced q)) = none := by
      rw [List.find?_eq_none]
      intro p hp
      rw [closeTo_iff]
      exact hpre p hp
    rw [h1, List.find?_cons_of_pos (by simpa using (closeTo_iff _ _).2 he)]
    rfl
  rw [this]

/-- **C36**: if none of the three rolls matches any entry the label is empty. -/
theorem C36_complete (table : List (String × V3 K)) (q : V3 K)
    (h : ∀ e ∈ table, ¬ Matches e.2 (reduced q) ∧
      ¬ Matches e.2 ⟨(reduced q).z, (reduced q).x, (reduced q).y⟩ ∧
      ¬ Matches e.2 ⟨(reduced q).y, (reduced q).z, (reduced q).x⟩) : qptLabel table q = "" := by
  by_contra hne
  obtain ⟨c, h1, h2⟩ := C36_sound table q hne
  obtain ⟨a, b, d⟩ := h _ h1
  rcases h2 with h2 | h2 | h2
  · exact a h2
  · exact b h2
  · exact d h2

end Label

/-- Limitation found while proving: a point a little below a lattice vector is not recognised, although
a point equally far above it is: coordinates are reduced to `[0, 1)` and compared with 0 there. -/
theorem C36_below_lattice_point_unlabelled :
    qptLabel [("GAMMA", (⟨0, 0, 0⟩ : V3 ℚ))] ⟨1 / 10 ^ 9, 0, 0⟩ = "GAMMA" ∧
    qptLabel [("GAMMA", (⟨0, 0, 0⟩ : V3 ℚ))] ⟨-1 / 10 ^ 9, 0, 0⟩ = "" := by
  constructor <;> decide +kernel

/-- A rolled match: the table only has (1/2, 0, 0). -/
example : qptLabel [("GAMMA", (⟨0, 0, 0⟩ : V3 ℚ)), ("X", ⟨1/2, 0, 0⟩)] ⟨3, -1/2, 1⟩ = "X" := by
  decide +kernel

end Euphonic.Lattice
