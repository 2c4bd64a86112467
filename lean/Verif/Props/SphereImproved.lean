import Verif.Props.SphereGolden

/-!
# Averages over the polar samplings of a sphere (C152)

The improved polar sampling shares the points out over rings by the circumference of the ring.  The circumferences of its rings are
in the same ratio as the areas of the zones around them, so that the mean approaches the average over the sphere.  The polar grid has
as many points on each ring, and no weights: its means do not approach the average.
-/

set_option autoImplicit false

namespace Euphonic.Sampling

open Euphonic.Lattice MeasureTheory

/-! ## Counting evenly spaced points -/

theorem count_between (N : Nat) (d a b : ℝ) (hd : 0 < d) (ha : 0 ≤ a) (hab : a ≤ b) (hb : b ≤ ((N : ℝ) - 1) * d) (P : ℝ → Bool)
    (hP : ∀ p, a ≤ p → p < b → P p = true) (hP' : ∀ p, P p = true → a ≤ p ∧ p ≤ b) :
    |((((List.range N).map fun i : Nat => (i : ℝ) * d).countP P : ℕ) : ℝ) - (b - a) / d| ≤ 1 := by
  rw [List.countP_map, List.countP_eq_length_filter]
  set F := (List.range N).filter (P ∘ fun i : Nat => (i : ℝ) * d) with hF
  have ha' : 0 ≤ a / d := div_nonneg ha hd.le
  have hb' : 0 ≤ b / d := div_nonneg (ha.trans hab) hd.le
  have hab' : a / d ≤ b / d := div_le_div_of_nonneg_right hab hd.le
  have a1 := Nat.le_ceil (a / d)
  have a2 := Nat.ceil_lt_add_one ha'
  have b1 := Nat.le_ceil (b / d)
  have b2 := Nat.floor_le hb'
  have hle : ⌈a / d⌉₊ ≤ ⌈b / d⌉₊ := Nat.ceil_mono hab'
  have hnd : F.Nodup := List.nodup_range.filter _
  have low : ⌈b / d⌉₊ - ⌈a / d⌉₊ ≤ F.length := by
    have hs : List.range' ⌈a / d⌉₊ (⌈b / d⌉₊ - ⌈a / d⌉₊) ⊆ F := by
      intro i hi
      rw [List.mem_range'_1] at hi
      have h1 : a / d ≤ i := Nat.ceil_le.1 hi.1
      have h2 : (i : ℝ) < b / d := Nat.lt_ceil.1 (by omega)
      rw [div_le_iff₀ hd] at h1
      rw [lt_div_iff₀ hd] at h2
      have h3 : (i : ℝ) < N := by
        have := lt_of_mul_lt_mul_right (h2.trans_le hb) hd.le
        linarith
      rw [hF, List.mem_filter, List.mem_range]
      exact ⟨by exact_mod_cast h3, hP _ h1 h2⟩
    have := ((List.nodup_range' (step := 1)).subperm hs).length_le
    simpa using this
  have high : F.length ≤ ⌊b / d⌋₊ + 1 - ⌈a / d⌉₊ := by
    have hs : F ⊆ List.range' ⌈a / d⌉₊ (⌊b / d⌋₊ + 1 - ⌈a / d⌉₊) := by
      intro i hi
      rw [hF, List.mem_filter] at hi
      obtain ⟨h1, h2⟩ := hP' _ hi.2
      rw [← div_le_iff₀ hd] at h1
      rw [← le_div_iff₀ hd] at h2
      have h3 := Nat.ceil_le.2 h1
      have h4 := Nat.le_floor h2
      rw [List.mem_range'_1]
      omega
    have := (hnd.subperm hs).length_le
    simpa using this
  have low' : (⌈b / d⌉₊ : ℝ) ≤ F.length + ⌈a / d⌉₊ := by exact_mod_cast (by omega : ⌈b / d⌉₊ ≤ F.length + ⌈a / d⌉₊)
  have high' : (F.length : ℝ) ≤ b / d - a / d + 1 := by
    rcases le_or_gt ⌈a / d⌉₊ (⌊b / d⌋₊ + 1) with h | h
    · have : (F.length : ℝ) + ⌈a / d⌉₊ ≤ ⌊b / d⌋₊ + 1 := by
        exact_mod_cast (by omega : F.length + ⌈a / d⌉₊ ≤ ⌊b / d⌋₊ + 1)
      linarith
    · have h0 : F.length = 0 := by omega
      rw [h0]
      push_cast
      linarith
  rw [sub_div]
  exact abs_le.2 ⟨by linarith, by linarith⟩

/-! ## The share of a ring -/

/-- The area of the zone of ring `k`, as a part of the sphere. -/
noncomputable def zoneShare (n k : Nat) : ℝ := (Real.cos (k * (Real.pi / n)) - Real.cos (((k : ℝ) + 1) * (Real.pi / n))) / 2

theorem zoneShare_nonneg (n k : Nat) (hk : k < n) : 0 ≤ zoneShare n k := by
  have hn : (0 : ℝ) < n := by exact_mod_cast (by omega : 0 < n)
  have hk' : (k : ℝ) + 1 ≤ n := by exact_mod_cast hk
  have hpi := Real.pi_pos
  have hh : 0 ≤ Real.pi / n := by positivity
  unfold zoneShare
  have : Real.cos (((k : ℝ) + 1) * (Real.pi / n)) ≤ Real.cos (k * (Real.pi / n)) := by
    refine Real.cos_le_cos_of_nonneg_of_le_pi (by positivity) ?_ (mul_le_mul_of_nonneg_right (by linarith) hh)
    calc ((k : ℝ) + 1) * (Real.pi / n) ≤ n * (Real.pi / n) := mul_le_mul_of_nonneg_right hk' hh
      _ = Real.pi := mul_div_cancel₀ _ hn.ne'
  linarith

theorem sum_zoneShare (n : Nat) (hn : 0 < n) : ∑ k ∈ Finset.range n, zoneShare n k = 1 := by
  have hn' : (n : ℝ) ≠ 0 := by exact_mod_cast hn.ne'
  have := Finset.sum_range_sub' (fun k : ℕ => Real.cos (k * (Real.pi / n))) n
  simp only [Nat.cast_zero, zero_mul, Real.cos_zero, mul_div_cancel₀ _ hn', Real.cos_pi] at this
  unfold zoneShare
  rw [← Finset.sum_div]
  simp only [Nat.cast_add, Nat.cast_one] at this
  rw [this]
  norm_num

/-- A ring gets the points due to the area of its zone, up to two. -/
theorem ringCount_share (npts k : Nat) (h : 6 ≤ npts) (hk : k < nTheta npts) :
    |(ringCount (nTheta npts) npts k : ℝ) - npts * zoneShare (nTheta npts) k| ≤ 2 := by
  have hN : (6 : ℝ) ≤ npts := by exact_mod_cast h
  have hT := total_pos npts h
  have hd : 0 < ringEdge (nTheta npts) (nTheta npts) / ((npts : ℝ) - 1) := div_pos hT (by linarith)
  have hs := sin_pole_pos (nTheta npts) (by omega)
  have hle : zoneShare (nTheta npts) k ≤ 1 := by
    unfold zoneShare
    have := Real.cos_le_one (k * (Real.pi / (nTheta npts)))
    have := Real.neg_one_le_cos (((k : ℝ) + 1) * (Real.pi / (nTheta npts)))
    linarith
  have hshare : (ringEdge (nTheta npts) (k + 1) - ringEdge (nTheta npts) k) / (ringEdge (nTheta npts) (nTheta npts) / ((npts : ℝ) - 1))
      = zoneShare (nTheta npts) k * (npts - 1) := by
    have e1 := ringEdge_closed (nTheta npts) k hk.le (by omega)
    have e2 := ringEdge_closed (nTheta npts) (k + 1) hk (by omega)
    have e3 := total_eq (nTheta npts) (by omega)
    push_cast at e2
    have hd1 : (npts : ℝ) - 1 ≠ 0 := by linarith
    rw [div_div_eq_mul_div, div_eq_iff hT.ne']
    have : ringEdge (nTheta npts) (k + 1) - ringEdge (nTheta npts) k
        = zoneShare (nTheta npts) k * ringEdge (nTheta npts) (nTheta npts) := by
      apply mul_right_cancel₀ hs.ne'
      unfold zoneShare
      linear_combination e2 - e1 - (Real.cos (k * (Real.pi / (nTheta npts)))
        - Real.cos (((k : ℝ) + 1) * (Real.pi / (nTheta npts)))) / 2 * e3
    rw [this]
    ring
  have := count_between npts _ (ringEdge (nTheta npts) k) (ringEdge (nTheta npts) (k + 1)) hd
    (by rw [← ringEdge_zero (nTheta npts)]; exact ringEdge_mono _ _ _ (Nat.zero_le _))
    (ringEdge_mono _ _ _ (Nat.le_succ k))
    (by rw [mul_div_cancel₀ _ (by linarith : (npts : ℝ) - 1 ≠ 0)]; exact ringEdge_mono _ _ _ (by omega))
    (by
      classical
      exact fun p => decide (ringEdge (nTheta npts) k ≤ p ∧
        (if k + 1 = nTheta npts then p ≤ ringEdge (nTheta npts) (k + 1) else p < ringEdge (nTheta npts) (k + 1))))
    (by
      intro p h1 h2
      rw [decide_eq_true_eq]
      refine ⟨h1, ?_⟩
      split
      · exact h2.le
      · exact h2)
    (by
      intro p hp
      rw [decide_eq_true_eq] at hp
      refine ⟨hp.1, ?_⟩
      have := hp.2
      split at this
      · exact this
      · exact this.le)
  rw [hshare] at this
  have hc : |(ringCount (nTheta npts) npts k : ℝ) - zoneShare (nTheta npts) k * (npts - 1)| ≤ 1 := by
    unfold ringCount ringPoints
    convert this
  have hz := zoneShare_nonneg (nTheta npts) k hk
  obtain ⟨h1, h2⟩ := abs_le.1 hc
  exact abs_le.2 ⟨by nlinarith, by nlinarith⟩

/-! ## The points of the rings -/

theorem spacing_linspace (a b : ℝ) (n : Nat) (hn : 2 ≤ n) : spacing (linspaceOpen a b n) = .ok ((b - a) / n) := by
  obtain ⟨m, rfl⟩ : ∃ m, n = m + 2 := ⟨n - 2, by omega⟩
  unfold linspaceOpen
  rw [List.range_succ_eq_map, List.range_succ_eq_map]
  simp only [List.map_cons, List.map_map, spacing]
  congr 1
  push_cast
  ring

theorem spacing_theta (n : Nat) (hn : 2 ≤ n) : spacing (thetaSequence n) = .ok (Real.pi / n) := by
  obtain ⟨m, rfl⟩ : ∃ m, n = m + 2 := ⟨n - 2, by omega⟩
  unfold thetaSequence linspaceOpen
  rw [List.range_succ_eq_map, List.range_succ_eq_map]
  simp only [List.map_cons, List.map_map, spacing]
  congr 1
  push_cast
  ring

theorem zipIdx_map_range {α β : Type} (n : Nat) (g : Nat → α) (k : α × Nat → β) :
    (((List.range n).map g).zipIdx).map k = (List.range n).map fun i => k (g i, i) := by
  apply List.ext_getElem
  · simp
  · intro i h1 h2
    simp

theorem sum_flatten_map (n : Nat) (g : Nat → List (V3 ℝ)) (f : V3 ℝ → ℝ) :
    ((((List.range n).map g).flatten).map f).sum = ∑ k ∈ Finset.range n, ((g k).map f).sum := by
  rw [List.map_flatten, List.sum_flatten, List.map_map, List.map_map, sum_map_range]
  rfl

/-- The points of a ring, with fractions `a` and `b` of the spacings for the jitter. -/
theorem ring_points (jitter : Nat → Jitter) (hj : ∀ k, RandomJitter (jitter k)) (n npts k : Nat) (hk : k < n)
    (h : 2 ≤ ringCount n npts k) : ∃ a b : Nat → ℝ, (∀ i, 0 ≤ a i ∧ a i ≤ 1 ∧ 0 ≤ b i ∧ b i ≤ 1) ∧
      ring true jitter (Real.pi / n) n npts k = .ok ((List.range (ringCount n npts k)).map fun i : Nat =>
        onSphere (((k : ℝ) + b i) * (Real.pi / n))
          (-Real.pi + 2 * Real.pi / (ringCount n npts k : ℝ) * ((i : ℝ) + a i - 1 / 2))) := by
  choose a b ha0 ha1 hb0 hb1 hd using fun i => displacement_frac (jitter k) (hj k) i
    (2 * Real.pi / (ringCount n npts k : ℝ)) (Real.pi / n)
  refine ⟨a, b, fun i => ⟨ha0 i, ha1 i, hb0 i, hb1 i⟩, ?_⟩
  unfold ring
  simp only [spacing_linspace (-Real.pi) Real.pi _ h, bind, Except.bind, pure, Except.pure]
  congr 1
  have hs : Real.pi - -Real.pi = 2 * Real.pi := by ring
  unfold linspaceOpen
  rw [zipIdx_map_range]
  refine List.map_congr_left fun i _ => ?_
  simp only [hs, hd, theta_getD n k hk, out, if_true, onSphere_eq]
  congr 1 <;> ring

theorem near_angles {L : ℝ} {f : V3 ℝ → ℝ} (h : LipSphere L f) {t t' p p' dt dp : ℝ} (ht : |t - t'| ≤ dt) (hp : |p - p'| ≤ dp) :
    |f (onSphere t p) - f (onSphere t' p')| ≤ L * (2 * dp + 3 * dt) := by
  refine (h _ _ (onSphere_unit _ _) (onSphere_unit _ _)).trans (mul_le_mul_of_nonneg_left ?_ h.nonneg)
  have hcos : |Real.cos p - Real.cos p'| ≤ dp := (Real.abs_cos_sub_cos_le p p').trans hp
  have hsin : |Real.sin p - Real.sin p'| ≤ dp := (Real.abs_sin_sub_sin_le p p').trans hp
  have tcos : |Real.cos t - Real.cos t'| ≤ dt := (Real.abs_cos_sub_cos_le t t').trans ht
  have tsin : |Real.sin t - Real.sin t'| ≤ dt := (Real.abs_sin_sub_sin_le t t').trans ht
  have prod : ∀ s s' c c' : ℝ, |s| ≤ 1 → |c'| ≤ 1 → |s * c - s' * c'| ≤ |c - c'| + |s - s'| := by
    intro s s' c c' hs hc
    calc |s * c - s' * c'| = |s * (c - c') + (s - s') * c'| := by ring_nf
      _ ≤ |s * (c - c')| + |(s - s') * c'| := abs_add_le _ _
      _ = |s| * |c - c'| + |s - s'| * |c'| := by rw [abs_mul, abs_mul]
      _ ≤ 1 * |c - c'| + |s - s'| * 1 :=
        add_le_add (mul_le_mul_of_nonneg_right hs (abs_nonneg _)) (mul_le_mul_of_nonneg_left hc (abs_nonneg _))
      _ = _ := by ring
  simp only [onSphere]
  have hx := prod (Real.sin t) (Real.sin t') (Real.cos p) (Real.cos p') (Real.abs_sin_le_one _) (Real.abs_cos_le_one _)
  have hy := prod (Real.sin t) (Real.sin t') (Real.sin p) (Real.sin p') (Real.abs_sin_le_one _) (Real.abs_sin_le_one _)
  linarith

/-- The integral over a circle of the zone of a ring, from the points of the ring. -/
theorem ring_slice {L : ℝ} {f : V3 ℝ → ℝ} (h : LipSphere L f) (n k c : Nat) (hk : k < n) (hc : 0 < c) (a b : Nat → ℝ)
    (hab : ∀ i, 0 ≤ a i ∧ a i ≤ 1 ∧ 0 ≤ b i ∧ b i ≤ 1) (x : ℝ) (h1 : -Real.cos (k * (Real.pi / n)) ≤ x)
    (h2 : x ≤ -Real.cos (((k : ℝ) + 1) * (Real.pi / n))) :
    |slice f (-x) - 2 * Real.pi / c * ∑ i ∈ Finset.range c, f (onSphere (((k : ℝ) + b i) * (Real.pi / n))
        (-Real.pi + 2 * Real.pi / (c : ℝ) * ((i : ℝ) + a i - 1 / 2)))|
      ≤ L * (6 * Real.pi / c + 3 * (Real.pi / n)) * (2 * Real.pi) := by
  have hn : (0 : ℝ) < n := by exact_mod_cast (by omega : 0 < n)
  have hk' : (k : ℝ) + 1 ≤ n := by exact_mod_cast hk
  have hk0 : (0 : ℝ) ≤ k := Nat.cast_nonneg k
  have hc' : (0 : ℝ) < c := by exact_mod_cast hc
  have hpi := Real.pi_pos
  have hh : 0 < Real.pi / n := by positivity
  have hnh : (n : ℝ) * (Real.pi / n) = Real.pi := mul_div_cancel₀ _ hn.ne'
  have hk1 : ((k : ℝ) + 1) * (Real.pi / n) ≤ Real.pi := by
    have := mul_le_mul_of_nonneg_right hk' hh.le
    linarith
  have hk2 : 0 ≤ (k : ℝ) * (Real.pi / n) := by positivity
  have hsplit : ((k : ℝ) + 1) * (Real.pi / n) = k * (Real.pi / n) + Real.pi / n := by ring
  have t1 : (k : ℝ) * (Real.pi / n) ≤ Real.arccos (-x) := by
    rw [← Real.arccos_cos hk2 (by linarith)]
    exact Real.antitone_arccos (by linarith)
  have t2 : Real.arccos (-x) ≤ ((k : ℝ) + 1) * (Real.pi / n) := by
    rw [← Real.arccos_cos (by linarith) hk1]
    exact Real.antitone_arccos (by linarith)
  refine slice_samples h (-x) (-Real.pi) hc (fun i => onSphere (((k : ℝ) + b i) * (Real.pi / n))
        (-Real.pi + 2 * Real.pi / (c : ℝ) * ((i : ℝ) + a i - 1 / 2))) fun i hi phi p1 p2 => ?_
  obtain ⟨a0, a1, b0, b1⟩ := hab i
  refine (near_angles h (dt := Real.pi / n) (dp := 3 * Real.pi / c) ?_ ?_).trans (le_of_eq (by ring))
  · have e1 : 0 ≤ b i * (Real.pi / n) := mul_nonneg b0 hh.le
    have e2 : b i * (Real.pi / n) ≤ Real.pi / n := mul_le_of_le_one_left hh.le b1
    have e3 : ((k : ℝ) + b i) * (Real.pi / n) = k * (Real.pi / n) + b i * (Real.pi / n) := by ring
    exact abs_le.2 ⟨by linarith, by linarith⟩
  · have hw : 0 < 2 * Real.pi / c := by positivity
    have e1 : 0 ≤ 2 * Real.pi / c * a i := mul_nonneg hw.le a0
    have e2 : 2 * Real.pi / c * a i ≤ 2 * Real.pi / c := mul_le_of_le_one_right hw.le a1
    have e3 : 3 * Real.pi / c = 3 / 2 * (2 * Real.pi / c) := by ring
    have e4 : 2 * Real.pi / c * ((i : ℝ) + a i - 1 / 2) = 2 * Real.pi / c * i + 2 * Real.pi / c * a i - 1 / 2 * (2 * Real.pi / c) := by
      ring
    have e5 : 2 * Real.pi / c * ((i : ℝ) + 1) = 2 * Real.pi / c * i + 2 * Real.pi / c := by ring
    rw [e3]
    exact abs_le.2 ⟨by linarith, by linarith⟩

/-- **C152**. The improved polar sampling, with or without jitter: the mean is the average over the sphere up to an error inverse in
the number of rings. -/
theorem C152_improved {L : ℝ} {f : V3 ℝ → ℝ} (h : LipSphere L f) (npts : Nat) (hN : 6 ≤ npts) (jitter : Nat → Jitter)
    (hj : ∀ k, RandomJitter (jitter k)) : ∃ l, sphericalPolarImproved npts true jitter = .ok l ∧
      |meanOver l f - sphereAverage f| ≤ L * (50 / nTheta npts) := by
  obtain ⟨h2, hsq⟩ := nTheta_facts npts hN
  have hL := h.nonneg
  have hpi := Real.pi_pos
  have hN' : (0 : ℝ) < npts := by exact_mod_cast (by omega : 0 < npts)
  have hshare := fun k hk => ringCount_share npts k hN hk
  have htwo := fun k hk => two_le_ringCount npts k hN hk
  have hall := sum_all (nTheta npts) npts (by omega) (fun p hp => (ringPoints_bounds npts hN p hp).1)
    (fun p hp => (ringPoints_bounds npts hN p hp).2)
  have hrun : ∀ rs, (List.range (nTheta npts)).mapM (ring true jitter (Real.pi / nTheta npts) (nTheta npts) npts) = .ok rs →
      sphericalPolarImproved npts true jitter = .ok rs.flatten := by
    intro rs hrs
    unfold sphericalPolarImproved
    rw [if_neg (by omega)]
    simp only [bind, Except.bind, pure, Except.pure, spacing_theta _ h2, hrs]
  set n := nTheta npts with hn
  have hn' : (0 : ℝ) < n := by exact_mod_cast (by omega : 0 < n)
  have hex : ∀ k, ∃ a b : Nat → ℝ, k < n → (∀ i, 0 ≤ a i ∧ a i ≤ 1 ∧ 0 ≤ b i ∧ b i ≤ 1) ∧
      ring true jitter (Real.pi / n) n npts k = .ok ((List.range (ringCount n npts k)).map fun i : Nat =>
        onSphere (((k : ℝ) + b i) * (Real.pi / n))
          (-Real.pi + 2 * Real.pi / (ringCount n npts k : ℝ) * ((i : ℝ) + a i - 1 / 2))) := by
    intro k
    by_cases hk : k < n
    · obtain ⟨a, b, hh⟩ := ring_points jitter hj n npts k hk (htwo k hk)
      exact ⟨a, b, fun _ => hh⟩
    · exact ⟨fun _ => 0, fun _ => 0, fun hk' => absurd hk' hk⟩
  choose a b hab using hex
  set c : Nat → Nat := fun k => ringCount n npts k with hc
  let pt : Nat → Nat → V3 ℝ := fun k i => onSphere (((k : ℝ) + b k i) * (Real.pi / n))
    (-Real.pi + 2 * Real.pi / (c k : ℝ) * ((i : ℝ) + a k i - 1 / 2))
  have hmap : (List.range n).mapM (ring true jitter (Real.pi / n) n npts)
      = .ok ((List.range n).map fun k => (List.range (c k)).map (pt k)) :=
    mapM_ok_of_forall _ _ _ fun k hk => (hab k (List.mem_range.1 hk)).2
  refine ⟨_, hrun _ hmap, ?_⟩
  set S : Nat → ℝ := fun k => ∑ i ∈ Finset.range (c k), f (pt k i) with hS
  have hlen : (((List.range n).map fun k => (List.range (c k)).map (pt k)).flatten).length = npts := by
    rw [List.length_flatten, List.map_map]
    have : (List.length ∘ fun k => (List.range (c k)).map (pt k)) = ringCount n npts := by funext k; simp [hc]
    rw [this, hall]
  have hmean : meanOver ((List.range n).map fun k => (List.range (c k)).map (pt k)).flatten f
      = ∑ k ∈ Finset.range n, S k / npts := by
    unfold meanOver
    rw [hlen, sum_flatten_map, Finset.sum_div]
    refine Finset.sum_congr rfl fun k _ => ?_
    rw [List.map_map, sum_map_range]
    rfl
  rw [hmean]
  set w : Nat → ℝ := zoneShare n with hw
  have hw0 : ∀ k < n, 0 ≤ w k := fun k hk => zoneShare_nonneg n k hk
  have hw1 : ∑ k ∈ Finset.range n, w k = 1 := sum_zoneShare n (by omega)
  have hcs : ∑ k ∈ Finset.range n, (c k : ℝ) = npts := by
    have : ((((List.range n).map (ringCount n npts)).sum : ℕ) : ℝ) = ∑ k ∈ Finset.range n, (c k : ℝ) := by
      rw [Nat.cast_list_sum, List.map_map, sum_map_range]
      rfl
    rw [← this, hall]
  -- the integral
  have int : |sphereAverage f - ∑ k ∈ Finset.range n, w k / c k * S k|
      ≤ ∑ k ∈ Finset.range n, L * (6 * Real.pi / c k + 3 * (Real.pi / n)) * w k := by
    have R := riemann_cells (G := fun x => slice f (-x)) ((slice_continuous h).comp continuous_neg)
      (fun k => -Real.cos ((k : ℝ) * (Real.pi / n))) n (fun k => 2 * Real.pi / c k * S k)
      (fun k => L * (6 * Real.pi / c k + 3 * (Real.pi / n)) * (2 * Real.pi))
      (fun k hk => by
        have := hw0 k hk
        simp only [hw, zoneShare] at this
        push_cast
        linarith)
      (fun k hk x h1 h2 => ring_slice h n k (c k) hk (lt_of_lt_of_le two_pos (htwo k hk)) (a k) (b k) (hab k hk).1 x h1
        (by simpa using h2))
    simp only [Nat.cast_zero, zero_mul, Real.cos_zero, mul_div_cancel₀ _ hn'.ne', Real.cos_pi, neg_neg] at R
    rw [intervalIntegral.integral_comp_neg (fun x => slice f x), neg_neg] at R
    have hcell : ∀ k : ℕ, -Real.cos (((k + 1 : ℕ) : ℝ) * (Real.pi / n)) - -Real.cos ((k : ℝ) * (Real.pi / n)) = 2 * w k := by
      intro k
      simp only [hw, zoneShare]
      push_cast
      ring
    simp only [hcell] at R
    rw [sphereAverage_slices h]
    set I := ∫ z in (-1 : ℝ)..1, slice f z
    have e1 : ∑ k ∈ Finset.range n, 2 * w k * (2 * Real.pi / c k * S k) = (∑ k ∈ Finset.range n, w k / c k * S k) * (4 * Real.pi) := by
      rw [Finset.sum_mul]
      exact Finset.sum_congr rfl fun k _ => by ring
    have e2 : ∑ k ∈ Finset.range n, L * (6 * Real.pi / c k + 3 * (Real.pi / n)) * (2 * Real.pi) * (2 * w k)
        = (∑ k ∈ Finset.range n, L * (6 * Real.pi / c k + 3 * (Real.pi / n)) * w k) * (4 * Real.pi) := by
      rw [Finset.sum_mul]
      exact Finset.sum_congr rfl fun k _ => by ring
    rw [e1, e2] at R
    have e3 : I / (4 * Real.pi) - ∑ k ∈ Finset.range n, w k / c k * S k
        = (I - (∑ k ∈ Finset.range n, w k / c k * S k) * (4 * Real.pi)) / (4 * Real.pi) := by
      field_simp
    rw [e3, abs_div, abs_of_pos (by positivity : 0 < 4 * Real.pi), div_le_iff₀ (by positivity)]
    exact R
  -- the weights
  set A := f (onSphere 0 0) with hA
  have hSk : ∀ k, |S k - c k * A| ≤ c k * (6 * L) := by
    intro k
    have : S k - c k * A = ∑ i ∈ Finset.range (c k), (f (pt k i) - A) := by
      rw [Finset.sum_sub_distrib]
      simp [hS]
    rw [this]
    refine (Finset.abs_sum_le_sum_abs _ _).trans ((Finset.sum_le_sum fun i _ => h.spread _ _ _ _).trans (le_of_eq ?_))
    simp
  have hck : ∀ k < n, (2 : ℝ) ≤ c k := fun k hk => by exact_mod_cast htwo k hk
  have wts : |∑ k ∈ Finset.range n, S k / npts - ∑ k ∈ Finset.range n, w k / c k * S k| ≤ n * (12 * L / npts) := by
    have e1 : ∑ k ∈ Finset.range n, S k / npts - ∑ k ∈ Finset.range n, w k / c k * S k
        = ∑ k ∈ Finset.range n, (1 / npts - w k / c k) * (S k - c k * A) := by
      have e2 : ∑ k ∈ Finset.range n, (1 / (npts : ℝ) - w k / c k) * (c k * A) = 0 := by
        have : ∀ k ∈ Finset.range n, (1 / (npts : ℝ) - w k / c k) * (c k * A) = A / npts * c k - A * w k := by
          intro k hk
          have := hck k (Finset.mem_range.1 hk)
          have h0 : (c k : ℝ) ≠ 0 := by linarith
          field_simp
        rw [Finset.sum_congr rfl this, Finset.sum_sub_distrib, ← Finset.mul_sum, ← Finset.mul_sum, hcs, hw1]
        field_simp
        ring
      rw [← sub_zero (_ - _), ← e2, ← Finset.sum_sub_distrib, ← Finset.sum_sub_distrib]
      have e4 : ∀ k ∈ Finset.range n, (1 / (npts : ℝ) - w k / c k) * (S k - c k * A)
          = S k / npts - w k / c k * S k - (1 / (npts : ℝ) - w k / c k) * (c k * A) := fun k _ => by ring
      rw [Finset.sum_congr rfl e4]
    rw [e1]
    refine (Finset.abs_sum_le_sum_abs _ _).trans ((Finset.sum_le_sum (g := fun _ => 12 * L / npts) fun k hk => ?_).trans
      (le_of_eq (by simp)))
    have hk := Finset.mem_range.1 hk
    have h0 := hck k hk
    have hne : (c k : ℝ) ≠ 0 := by linarith
    rw [abs_mul]
    calc |1 / (npts : ℝ) - w k / c k| * |S k - c k * A| ≤ |1 / (npts : ℝ) - w k / c k| * (c k * (6 * L)) :=
          mul_le_mul_of_nonneg_left (hSk k) (abs_nonneg _)
      _ = |(c k : ℝ) - npts * w k| / npts * (6 * L) := by
        rw [show 1 / (npts : ℝ) - w k / c k = (c k - npts * w k) / (npts * c k) by field_simp, abs_div,
          abs_of_pos (by positivity : 0 < (npts : ℝ) * c k)]
        field_simp
      _ ≤ 2 / npts * (6 * L) :=
        mul_le_mul_of_nonneg_right (div_le_div_of_nonneg_right (hshare k hk) hN'.le) (by positivity)
      _ = 12 * L / npts := by ring
  have cells : ∑ k ∈ Finset.range n, L * (6 * Real.pi / c k + 3 * (Real.pi / n)) * w k ≤ L * (12 * Real.pi * n / npts + 3 * (Real.pi / n)) := by
    have e1 : ∀ k ∈ Finset.range n, L * (6 * Real.pi / c k + 3 * (Real.pi / n)) * w k
        ≤ L * (12 * Real.pi / npts) + L * (3 * (Real.pi / n)) * w k := by
      intro k hk
      have hk := Finset.mem_range.1 hk
      have h0 := hck k hk
      have h3 := (abs_le.1 (hshare k hk)).1
      have h4 : w k / c k ≤ 2 / npts := by
        rw [div_le_div_iff₀ (by linarith) hN']
        have : (npts : ℝ) * w k ≤ c k + 2 := by linarith
        linarith
      have h5 : L * (6 * Real.pi / c k) * w k ≤ L * (12 * Real.pi / npts) := by
        calc L * (6 * Real.pi / c k) * w k = L * (6 * Real.pi) * (w k / c k) := by ring
          _ ≤ L * (6 * Real.pi) * (2 / npts) := mul_le_mul_of_nonneg_left h4 (by positivity)
          _ = _ := by ring
      linarith
    refine (Finset.sum_le_sum e1).trans (le_of_eq ?_)
    rw [Finset.sum_add_distrib, ← Finset.mul_sum (f := w), hw1]
    simp
    ring
  have tot : |∑ k ∈ Finset.range n, S k / npts - sphereAverage f|
      ≤ n * (12 * L / npts) + L * (12 * Real.pi * n / npts + 3 * (Real.pi / n)) := by
    have e1 : ∑ k ∈ Finset.range n, S k / npts - sphereAverage f
        = (∑ k ∈ Finset.range n, S k / npts - ∑ k ∈ Finset.range n, w k / c k * S k)
          - (sphereAverage f - ∑ k ∈ Finset.range n, w k / c k * S k) := by ring
    rw [e1]
    exact (abs_sub _ _).trans (add_le_add wts (int.trans cells))
  refine tot.trans ?_
  have hr : (n : ℝ) / npts ≤ Real.pi / 4 / n := by
    rw [div_le_div_iff₀ hN' hn']
    nlinarith
  have hpi' : Real.pi < 3.1416 := Real.pi_lt_d4
  have hp2 : Real.pi * Real.pi ≤ 3.1416 * 3.1416 := mul_le_mul hpi'.le hpi'.le hpi.le (by norm_num)
  have fin : n * (12 / (npts : ℝ)) + (12 * Real.pi * n / npts + 3 * (Real.pi / n)) ≤ 50 / n := by
    calc n * (12 / (npts : ℝ)) + (12 * Real.pi * n / npts + 3 * (Real.pi / n))
        = (12 + 12 * Real.pi) * (n / npts) + 3 * (Real.pi / n) := by ring
      _ ≤ (12 + 12 * Real.pi) * (Real.pi / 4 / n) + 3 * (Real.pi / n) :=
        add_le_add (mul_le_mul_of_nonneg_left hr (by positivity)) (le_refl _)
      _ = (3 * (Real.pi * Real.pi) + 6 * Real.pi) / n := by ring
      _ ≤ 50 / n := div_le_div_of_nonneg_right (by linarith) hn'.le
  calc n * (12 * L / npts) + L * (12 * Real.pi * n / npts + 3 * (Real.pi / n))
      = L * (n * (12 / (npts : ℝ)) + (12 * Real.pi * n / npts + 3 * (Real.pi / n))) := by ring
    _ ≤ L * (50 / n) := mul_le_mul_of_nonneg_left fin hL

end Euphonic.Sampling
