import Verif.Model.Brille
import Mathlib.Tactic.Ring
import Mathlib.Tactic.Positivity

/-!
# C108: interpolation with Brille
-/

set_option autoImplicit false

namespace Euphonic.Brille

open Euphonic.Lattice Euphonic.Phonopy

/-! ## Dictionaries -/

theorem getKey_setKey (d : Kwargs) (k k' : String) (v : Val) :
    getKey (setKey d k v) k' = if k' = k then some v else getKey d k' := by
  have hmap : ∀ d : Kwargs, (d.any fun p => p.1 = k) = true →
      getKey (d.map fun p => if p.1 = k then (k, v) else p) k' = if k' = k then some v else getKey d k' := by
    intro d
    induction d with
    | nil => intro h; simp at h
    | cons p d ih =>
      intro h
      unfold getKey at ih ⊢
      by_cases hp : p.1 = k
      · by_cases hk : k' = k
        · simp [hp, hk]
        · have hpk : ¬ p.1 = k' := fun h => hk (h.symm.trans hp)
          have hkk : ¬ k = k' := fun h => hk h.symm
          rw [List.map_cons, if_pos hp, List.find?_cons_of_neg (by simpa using hkk),
            List.find?_cons_of_neg (by simpa using hpk), if_neg hk]
          by_cases ha : (d.any fun p => p.1 = k) = true
          · rw [ih ha, if_neg hk]
          · have : (d.map fun p => if p.1 = k then (k, v) else p) = d := by
              conv_rhs => rw [← List.map_id d]
              apply List.map_congr_left
              intro q hq
              rw [if_neg]
              · rfl
              · intro hq'
                exact ha (List.any_eq_true.2 ⟨q, hq, by simpa using hq'⟩)
            rw [this]
      · have ha : (d.any fun p => p.1 = k) = true := by simpa [hp] using h
        rw [List.map_cons, if_neg hp]
        by_cases hpk : p.1 = k'
        · have hk : ¬ k' = k := fun h => hp (hpk.trans h)
          rw [List.find?_cons_of_pos (by simpa using hpk), List.find?_cons_of_pos (by simpa using hpk), if_neg hk]
        · rw [List.find?_cons_of_neg (by simpa using hpk), List.find?_cons_of_neg (by simpa using hpk)]
          exact ih ha
  unfold setKey
  by_cases h : (d.any fun p => p.1 = k) = true
  · rw [if_pos h]
    exact hmap d h
  · rw [if_neg h]
    unfold getKey
    rw [List.find?_append]
    by_cases hk : k' = k
    · subst hk
      have : d.find? (fun p => p.1 = k') = none := by
        rw [List.find?_eq_none]
        intro p hp hpk
        exact h (List.any_eq_true.2 ⟨p, hp, hpk⟩)
      rw [this]
      simp
    · have : [(k, v)].find? (fun p => p.1 = k') = none := by
        simp
        exact fun h => hk h.symm
      rw [this, if_neg hk]
      simp

/-! ## C108 -/

section C108

/-- Frequencies in hartree and eigenvectors at q-points as arrays: axes (q-point, mode) and (q-point, mode, atom,
direction). -/
structure IsModes (n nq : Nat) (f : Arr ℝ) (e : Arr ℂ) : Prop where
  fshape : f.shape = [nq, 3 * n]
  fsize : f.data.length = nq * (3 * n)
  eshape : e.shape = [nq, 3 * n, n, 3]
  esize : e.data.length = nq * (3 * n * (n * 3))

/-- Interpolation that is exact at the points of the grid. -/
def ExactOnGrid (interp : Grid → List (V3 ℝ) → Kwargs → Except Err (Arr ℝ × Arr ℂ)) : Prop :=
  ∀ g k, interp g g.rlu k = .ok (g.values, g.vectors)

/-- Interpolation that gives arrays of the right shapes. -/
def Shaped (n : Nat) (interp : Grid → List (V3 ℝ) → Kwargs → Except Err (Arr ℝ × Arr ℂ)) : Prop :=
  ∀ g q k r, interp g q k = .ok r → r.1.shape = [q.length, 3 * n, 1] ∧ r.1.data.length = q.length * (3 * n) ∧
    r.2.shape = [q.length, 3 * n, 3 * n] ∧ r.2.data.length = q.length * (3 * n * (n * 3))

theorem fill_ok (n : Nat) (rlu : List (V3 ℝ)) (f : Arr ℝ) (e : Arr ℂ) (h : IsModes n rlu.length f e) :
    ∃ b, fill n rlu f e = .ok b ∧ b.rlu = rlu ∧ b.values = ⟨[rlu.length, 3 * n, 1], f.data⟩ ∧
      b.vectors = ⟨[rlu.length, 3 * n, 3 * n], e.data⟩ := by
  refine ⟨⟨rlu, ⟨[rlu.length, 3 * n, 1], f.data⟩, ⟨[rlu.length, 3 * n, 3 * n], e.data⟩⟩, ?_, rfl, rfl, rfl⟩
  unfold fill Arr.reshape
  rw [h.fshape, h.eshape, if_pos (by simp [h.fsize]), if_pos]
  · rfl
  · simp only [List.take, List.cons_append, List.nil_append, List.prod_cons, List.prod_nil, h.esize]
    ring

theorem calculate_of (interp : Grid → List (V3 ℝ) → Kwargs → Except Err (Arr ℝ × Arr ℂ)) (toMeV : ℝ) (cpu : Int)
    (b : Interpolator) (hn : b.nAtoms ≠ 0) (q : List (V3 ℝ)) (k : Kwargs) (r : Arr ℝ × Arr ℂ)
    (h : interp b.grid q (interpKwargs cpu k) = .ok r) (h1 : r.1.shape = [q.length, 3 * b.nAtoms, 1])
    (h2 : r.2.data.length = q.length * (3 * b.nAtoms * (b.nAtoms * 3))) :
    calculatePhonons interp toMeV cpu b q k = .ok (⟨[q.length, 3 * b.nAtoms], r.1.data.map (· * toMeV)⟩,
      ⟨[q.length, 3 * b.nAtoms, b.nAtoms, 3], r.2.data⟩) := by
  have hp : [3 * b.nAtoms, b.nAtoms, 3].prod = 3 * b.nAtoms * (b.nAtoms * 3) := by
    simp
  have hp0 : 3 * b.nAtoms * (b.nAtoms * 3) ≠ 0 := by positivity
  unfold calculatePhonons
  rw [h]
  simp only [bind, Except.bind, squeezeLast, h1, Arr.reshapeTail]
  rw [if_pos (by simp), hp]
  simp only
  rw [if_neg hp0, h2, if_pos (Nat.mul_mod_left _ _), Nat.mul_div_cancel _ (Nat.pos_of_ne_zero hp0)]
  rfl

/-- **C108**: at the points of its grid an interpolator made of force constants gives the frequencies and
eigenvectors of the force constants, converted from hartree to meV. -/
theorem C108_grid_points (interp : Grid → List (V3 ℝ) → Kwargs → Except Err (Arr ℝ × Arr ℂ)) (hi : ExactOnGrid interp)
    (toMeV : ℝ) (cpu : Int) (n : Nat) (hn : n ≠ 0) (vol : ℝ) (makeGrid : String → Kwargs → List (V3 ℝ))
    (calcModes : List (V3 ℝ) → Kwargs → Except Err (Arr ℝ × Arr ℂ)) (gridType : String) (npts : Int)
    (density : Option ℝ) (ug ui : Option Kwargs) (b : Interpolator) (d : Option Kwargs)
    (hb : fromForceConstants n vol makeGrid calcModes gridType npts density ug ui = .ok (b, d))
    (hc : ∀ q k r, getKey k "insert_gamma" = some (.bool false) → getKey k "reduce_qpts" = some (.bool false) →
      calcModes q k = .ok r → IsModes n q.length r.1 r.2) (k : Kwargs) :
    ∃ f e u, calcModes b.grid.rlu u = .ok (f, e) ∧ b.nAtoms = n ∧
      (∀ x, getKey u x = if x = "insert_gamma" ∨ x = "reduce_qpts" then some (.bool false)
        else getKey (ui.getD []) x) ∧
      calculateModes interp toMeV cpu b b.grid.rlu k =
        .ok (b.grid.rlu, ⟨f.shape, f.data.map (· * toMeV)⟩, e) := by
  have hbind : ∀ {α β : Type} {x : Except Err α} {f : α → Except Err β} {c : β}, x >>= f = .ok c →
      ∃ a, x = .ok a ∧ f a = .ok c := by
    intro α β x f c h
    cases x with
    | error e => cases h
    | ok a => exact ⟨a, rfl, h⟩
  unfold fromForceConstants at hb
  obtain ⟨gk, -, hb⟩ := hbind hb
  dsimp only at hb
  obtain ⟨ph, h1, hb⟩ := hbind hb
  obtain ⟨g, h2, hb⟩ := hbind hb
  obtain ⟨b', h3, hb⟩ := hbind hb
  cases hb
  have hm := hc _ _ ph (by unfold fourierKwargs; rw [getKey_setKey, getKey_setKey]; simp)
    (by unfold fourierKwargs; rw [getKey_setKey]; simp) h1
  obtain ⟨g', e1, e2, e3, e4⟩ := fill_ok n _ ph.1 ph.2 hm
  rw [e1] at h2
  cases h2
  unfold Interpolator.new at h3
  split at h3
  · cases h3
    refine ⟨ph.1, ph.2, _, by rw [e2]; exact h1, rfl, ?_, ?_⟩
    · intro x
      unfold fourierKwargs
      rw [getKey_setKey, getKey_setKey]
      by_cases hx : x = "insert_gamma"
      · simp [hx]
      · by_cases hy : x = "reduce_qpts" <;> simp [hx, hy]
    unfold calculateModes
    rw [calculate_of interp toMeV cpu ⟨n, g⟩ hn g.rlu k (g.values, g.vectors) (hi g _) (by rw [e3, e2])
      (by rw [e4, e2]; exact hm.esize)]
    rw [e3, e4, e2, hm.fshape]
    have : (⟨[(makeGrid gridType gk).length, 3 * n, n, 3], ph.2.data⟩ : Arr ℂ) = ph.2 := by
      rw [← hm.eshape]
    rw [this]
    rfl
  · cases h3

/-- Two q-points, one atom, a trellis of the default size: the hypotheses of `C108_grid_points` are met, with a caller
who asks for `reduce_qpts`. -/
example : ∃ b d, fromForceConstants 1 2 (fun _ _ => [⟨0, 0, 0⟩, ⟨1 / 2, 0, 0⟩])
    (fun q _ => .ok (⟨[q.length, 3], List.replicate (q.length * 3) 1⟩, ⟨[q.length, 3, 1, 3],
      List.replicate (q.length * 9) 1⟩)) "trellis" 1000 none none (some [("reduce_qpts", .bool true)]) = .ok (b, d) ∧
    b.grid.rlu.length = 2 ∧ (∀ q : List (V3 ℝ), IsModes 1 q.length ⟨[q.length, 3], List.replicate (q.length * 3) 1⟩
      ⟨[q.length, 3, 1, 3], List.replicate (q.length * 9) 1⟩) ∧ ExactOnGrid (fun g _ _ => .ok (g.values, g.vectors)) := by
  refine ⟨⟨1, ⟨[⟨0, 0, 0⟩, ⟨1 / 2, 0, 0⟩], ⟨[2, 3, 1], List.replicate 6 1⟩, ⟨[2, 3, 3], List.replicate 18 1⟩⟩⟩,
    some [("reduce_qpts", .bool false), ("insert_gamma", .bool false)], ?_, rfl,
    fun q => ⟨rfl, by simp, rfl, by simp⟩, fun _ _ => rfl⟩
  simp [fromForceConstants, gridKwargs, fill, Arr.reshape, Interpolator.new, fourierKwargs, setKey, bind, Except.bind,
    pure, Except.pure]

/-- **C108**: the arguments of the caller reach the interpolation of Brille unchanged, and without any all processors are
used. -/
theorem C108_interpolation_arguments (interp : Grid → List (V3 ℝ) → Kwargs → Except Err (Arr ℝ × Arr ℂ)) (toMeV : ℝ)
    (cpu : Int) (b : Interpolator) (q : List (V3 ℝ)) (k : Kwargs) (r : List (V3 ℝ) × Arr ℝ × Arr ℂ)
    (h : calculateModes interp toMeV cpu b q k = .ok r) :
    r.1 = q ∧ ∃ k' x, interp b.grid q k' = .ok x ∧ (k ≠ [] → k' = k) ∧
      (k = [] → getKey k' "useparallel" = some (.bool true) ∧ getKey k' "threads" = some (.int cpu)) := by
  unfold calculateModes calculatePhonons at h
  cases hx : interp b.grid q (interpKwargs cpu k) with
  | error e => rw [hx] at h; cases h
  | ok x =>
    refine ⟨?_, _, x, hx, ?_, ?_⟩
    · rw [hx] at h
      simp only [bind, Except.bind] at h
      cases h1 : squeezeLast x.1 with
      | error e => rw [h1] at h; cases h
      | ok v =>
        rw [h1] at h
        cases h2 : x.2.reshapeTail [3 * b.nAtoms, b.nAtoms, 3] with
        | error e => simp only [h2] at h; cases h
        | ok w => simp only [h2] at h; cases h; rfl
    · intro hk
      unfold interpKwargs
      rw [if_neg (by simpa using hk)]
    · intro hk
      subst hk
      exact ⟨rfl, rfl⟩

/-- **C108**: the two calculations give the same frequencies at all q-points and for all arguments. -/
theorem C108_frequencies_agree (interp : Grid → List (V3 ℝ) → Kwargs → Except Err (Arr ℝ × Arr ℂ)) (toMeV : ℝ)
    (cpu : Int) (b : Interpolator) (q : List (V3 ℝ)) (k : Kwargs) :
    calculateFrequencies interp toMeV cpu b q k =
      (calculateModes interp toMeV cpu b q k).map fun r => (r.1, r.2.1) := by
  unfold calculateFrequencies calculateModes
  cases calculatePhonons interp toMeV cpu b q k <;> rfl

/-- **C108**: the layout of what Brille returns: axis (atom, direction) becomes two axes and nothing moves. -/
theorem C108_layout (interp : Grid → List (V3 ℝ) → Kwargs → Except Err (Arr ℝ × Arr ℂ)) (toMeV : ℝ) (cpu : Int)
    (b : Interpolator) (hn : b.nAtoms ≠ 0) (hs : Shaped b.nAtoms interp) (q : List (V3 ℝ)) (k : Kwargs)
    (r : Arr ℝ × Arr ℂ) (h : interp b.grid q (interpKwargs cpu k) = .ok r) :
    ∃ f e, calculateModes interp toMeV cpu b q k = .ok (q, f, e) ∧ f.shape = [q.length, 3 * b.nAtoms] ∧
      e.shape = [q.length, 3 * b.nAtoms, b.nAtoms, 3] ∧
      (∀ i < q.length, ∀ s < 3 * b.nAtoms, f.data[i * (3 * b.nAtoms) + s]? =
        (r.1.data[(i * (3 * b.nAtoms) + s) * 1 + 0]?).map (· * toMeV)) ∧
      ∀ i < q.length, ∀ s < 3 * b.nAtoms, ∀ l < b.nAtoms, ∀ m < 3,
        e.data[((i * (3 * b.nAtoms) + s) * b.nAtoms + l) * 3 + m]? =
          r.2.data[(i * (3 * b.nAtoms) + s) * (3 * b.nAtoms) + (3 * l + m)]? := by
  obtain ⟨h1, h2, h3, h4⟩ := hs _ _ _ r h
  refine ⟨⟨[q.length, 3 * b.nAtoms], r.1.data.map (· * toMeV)⟩, ⟨[q.length, 3 * b.nAtoms, b.nAtoms, 3], r.2.data⟩,
    ?_, rfl, rfl, ?_, ?_⟩
  · unfold calculateModes
    rw [calculate_of interp toMeV cpu b hn q k r h h1 h4]
    rfl
  · intro i _ s _
    simp
  · intro i _ s _ l _ m _
    congr 1
    ring

/-- Two atoms and an interpolation by a constant: the hypotheses of `C108_layout` are met for every list of q-points. -/
example : ∃ interp : Grid → List (V3 ℝ) → Kwargs → Except Err (Arr ℝ × Arr ℂ), Shaped 2 interp ∧
    ∀ g q k, ∃ r, interp g q k = .ok r := by
  refine ⟨fun _ q _ => .ok (⟨[q.length, 6, 1], List.replicate (q.length * 6) 1⟩, ⟨[q.length, 6, 6],
    List.replicate (q.length * 36) 1⟩), ?_, fun _ _ _ => ⟨_, rfl⟩⟩
  intro g q k r h
  cases h
  exact ⟨rfl, by simp, rfl, by simp⟩

/-- **C108**: grids of other shapes are refused. -/
theorem C108_shapes_checked (n : Nat) (g : Grid) :
    (∃ b, Interpolator.new n g = .ok b) ↔
      g.values.shape = [g.rlu.length, 3 * n, 1] ∧ g.vectors.shape = [g.rlu.length, 3 * n, 3 * n] := by
  unfold Interpolator.new
  constructor
  · rintro ⟨b, hb⟩
    split at hb
    · assumption
    · cases hb
  · intro h
    rw [if_pos h]
    exact ⟨_, rfl⟩

/-- **C108**: grid arguments of the user are passed on unchanged whatever the other arguments; unknown types of
grids raise `ValueError`. -/
theorem C108_grid_arguments (t : String) (vol : ℝ) (npts : Int) (density : Option ℝ) (k : Kwargs) :
    gridKwargs t vol npts density (some k) =
      if t = "trellis" ∨ t = "mesh" ∨ t = "nest" then .ok k else .error .valueError := by
  unfold gridKwargs
  by_cases h1 : t = "trellis"
  · simp [h1]
  · by_cases h2 : t = "mesh"
    · simp [h2]
    · by_cases h3 : t = "nest"
      · simp [h3]
      · simp [h1, h2, h3]

/-- **C108**: without them the size of the cells of the grid follows from the wanted number of points: the cells fill
the irreducible zone `npts` times. -/
theorem C108_grid_size (vol : ℝ) (npts : Int) (h : npts ≠ 0) :
    (∃ v k, gridKwargs "trellis" vol npts none none = .ok k ∧ getKey k "node_volume_fraction" = some (.real v) ∧
      npts * v = vol ∧ getKey k "always_triangulate" = some (.bool false)) ∧
    (∃ v k, gridKwargs "mesh" vol npts none none = .ok k ∧ getKey k "max_size" = some (.real v) ∧ npts * v = vol ∧
      getKey k "max_points" = some (.int npts)) ∧
    ∃ k, gridKwargs "nest" vol npts none none = .ok k ∧ getKey k "number_density" = some (.int npts) := by
  have hr : (npts : ℝ) ≠ 0 := by exact_mod_cast h
  refine ⟨⟨vol / npts, _, by simp only [gridKwargs, if_true, if_neg h]; rfl, by simp [getKey], mul_div_cancel₀ _ hr,
    by simp [getKey]⟩, ⟨vol / npts, _, by simp [gridKwargs, if_neg h]; rfl, by simp [getKey], mul_div_cancel₀ _ hr,
    by simp [getKey]⟩, _, by simp [gridKwargs]; rfl, by simp [getKey]⟩

/-- **C108**: and a density of points is the same as the number of points it gives in the irreducible zone. -/
theorem C108_grid_density (t : String) (vol : ℝ) (npts m : Int) (d : ℝ) (hd : d ≠ 0) (hm : m ≠ 0) (hv : d * vol = m) :
    gridKwargs t vol npts (some d) none = gridKwargs t vol m none none := by
  have hr : (m : ℝ) ≠ 0 := by exact_mod_cast hm
  have hv0 : vol ≠ 0 := by
    rintro rfl
    apply hr
    rw [← hv, mul_zero]
  have h1 : 1 / d = vol / m := by
    rw [← hv]
    field_simp
  have h2 : pyInt (d * vol) = m := by
    rw [hv]
    unfold pyInt
    split <;> simp
  unfold gridKwargs
  simp only [if_neg hd, if_neg hm, h1, h2]

/-- Zone of volume 1/2 and density 100: fifty points. -/
example : gridKwargs "mesh" (1 / 2) 1000 (some 100) none = gridKwargs "mesh" (1 / 2) 50 none none :=
  C108_grid_density _ _ _ _ _ (by norm_num) (by norm_num) (by norm_num)

/-- **C108**: the caller's dictionary `interpolation_kwargs` is changed: both keys are `False` afterwards, whatever
they were before, so the dictionary cannot be used again for another calculation. -/
theorem C108_argument_changed (n : Nat) (vol : ℝ) (makeGrid : String → Kwargs → List (V3 ℝ))
    (calcModes : List (V3 ℝ) → Kwargs → Except Err (Arr ℝ × Arr ℂ)) (gridType : String) (npts : Int)
    (density : Option ℝ) (ug : Option Kwargs) (u : Kwargs) (b : Interpolator) (d : Option Kwargs)
    (hb : fromForceConstants n vol makeGrid calcModes gridType npts density ug (some u) = .ok (b, d)) :
    ∃ u', d = some u' ∧ getKey u' "insert_gamma" = some (.bool false) ∧
      getKey u' "reduce_qpts" = some (.bool false) ∧
      ∀ k, k ≠ "insert_gamma" → k ≠ "reduce_qpts" → getKey u' k = getKey u k := by
  have hbind : ∀ {α β : Type} {x : Except Err α} {f : α → Except Err β} {c : β}, x >>= f = .ok c →
      ∃ a, x = .ok a ∧ f a = .ok c := by
    intro α β x f c h
    cases x with
    | error e => cases h
    | ok a => exact ⟨a, rfl, h⟩
  unfold fromForceConstants at hb
  obtain ⟨gk, -, hb⟩ := hbind hb
  dsimp only at hb
  obtain ⟨ph, h1, hb⟩ := hbind hb
  obtain ⟨g, h2, hb⟩ := hbind hb
  obtain ⟨b', h3, hb⟩ := hbind hb
  cases hb
  refine ⟨_, rfl, ?_, ?_, ?_⟩
  · unfold fourierKwargs
    rw [getKey_setKey, getKey_setKey]
    simp
  · unfold fourierKwargs
    rw [getKey_setKey]
    simp
  · intro k hk1 hk2
    unfold fourierKwargs
    rw [getKey_setKey, getKey_setKey, if_neg hk2, if_neg hk1]
    rfl

end C108

end Euphonic.Brille
