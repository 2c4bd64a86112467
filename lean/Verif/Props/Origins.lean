import Verif.Props.Lattice

/-! # Properties C37, C38: enumeration of cell origins -/

set_option autoImplicit false
set_option linter.unusedSectionVars false

namespace Euphonic.Lattice

/-- Lexicographic order of integer triples. -/
def lexLt (u v : V3 ℤ) : Prop :=
  u.x < v.x ∨ (u.x = v.x ∧ (u.y < v.y ∨ (u.y = v.y ∧ u.z < v.z)))

theorem pyRange_one (a b : ℤ) : pyRange a b 1 = (List.range (b - a).toNat).map fun (i : Nat) => a + i := by
  simp [pyRange]

theorem mem_pyRange (a b x : ℤ) : x ∈ pyRange a b 1 ↔ a ≤ x ∧ x < b := by
  rw [pyRange_one, List.mem_map]
  constructor
  · rintro ⟨i, hi, rfl⟩
    rw [List.mem_range] at hi
    omega
  · rintro ⟨h1, h2⟩
    exact ⟨(x - a).toNat, by rw [List.mem_range]; omega, by omega⟩

theorem length_pyRange (a b : ℤ) : (pyRange a b 1).length = (b - a).toNat := by
  simp [pyRange_one]

theorem sorted_pyRange (a b : ℤ) : (pyRange a b 1).Pairwise (· < ·) := by
  rw [pyRange_one, List.pairwise_map]
  exact List.pairwise_lt_range.imp fun h => by omega

theorem nodup_pyRange (a b : ℤ) : (pyRange a b 1).Nodup :=
  (sorted_pyRange a b).imp fun h => ne_of_lt h

theorem getAllOrigins_eq (max min : V3 ℤ) (hx : min.x ≤ max.x) (hy : min.y ≤ max.y)
    (hz : min.z ≤ max.z) :
    getAllOrigins max min =
      .ok (grid (pyRange min.x max.x 1) (pyRange min.y max.y 1) (pyRange min.z max.z 1)) := by
  have h := columnStack_grid (pyRange min.x max.x 1) (pyRange min.y max.y 1) (pyRange min.z max.z 1)
  rw [length_pyRange, length_pyRange, length_pyRange] at h
  unfold getAllOrigins
  dsimp only
  rw [npRepeat_tile_comm]
  have e0 : (max.x - min.x).natAbs = (max.x - min.x).toNat := by omega
  have e1 : (max.y - min.y).natAbs = (max.y - min.y).toNat := by omega
  have e2 : (max.z - min.z).natAbs = (max.z - min.z).toNat := by omega
  rw [e0, e1, e2]
  exact h

theorem sorted_grid (a b c : List ℤ) (ha : a.Pairwise (· < ·)) (hb : b.Pairwise (· < ·))
    (hc : c.Pairwise (· < ·)) : (grid a b c).Pairwise lexLt := by
  unfold grid
  rw [List.pairwise_flatMap]
  refine ⟨fun x _ => ?_, ?_⟩
  · rw [List.pairwise_flatMap]
    refine ⟨fun y _ => ?_, ?_⟩
    · rw [List.pairwise_map]
      exact hc.imp fun h => Or.inr ⟨rfl, Or.inr ⟨rfl, h⟩⟩
    · refine hb.imp fun {y y'} h => ?_
      intro u hu v hv
      obtain ⟨z, _, rfl⟩ := List.mem_map.1 hu
      obtain ⟨z', _, rfl⟩ := List.mem_map.1 hv
      exact Or.inr ⟨rfl, Or.inl h⟩
  · refine ha.imp fun {x x'} h => ?_
    intro u hu v hv
    simp only [List.mem_flatMap, List.mem_map] at hu hv
    obtain ⟨y, _, z, _, rfl⟩ := hu
    obtain ⟨y', _, z', _, rfl⟩ := hv
    exact Or.inl h

/-- **C37**: for unit step and `min <= max`, `get_all_origins` lists exactly the integer triples with
`min <= x < max`, each once, in lexicographic order. -/
theorem C37_origins (max min : V3 ℤ) (hx : min.x ≤ max.x) (hy : min.y ≤ max.y) (hz : min.z ≤ max.z) :
    ∃ g, getAllOrigins max min = .ok g ∧
      (∀ v : V3 ℤ, v ∈ g ↔ (min.x ≤ v.x ∧ v.x < max.x) ∧ (min.y ≤ v.y ∧ v.y < max.y) ∧
        (min.z ≤ v.z ∧ v.z < max.z)) ∧
      g.Nodup ∧ g.Pairwise lexLt ∧
      g.length = (max.x - min.x).toNat * (max.y - min.y).toNat * (max.z - min.z).toNat := by
  refine ⟨_, getAllOrigins_eq max min hx hy hz, fun v => ?_, ?_, ?_, ?_⟩
  · rw [mem_grid, mem_pyRange, mem_pyRange, mem_pyRange]
  · exact nodup_grid _ _ _ (nodup_pyRange _ _) (nodup_pyRange _ _) (nodup_pyRange _ _)
  · exact sorted_grid _ _ _ (sorted_pyRange _ _) (sorted_pyRange _ _) (sorted_pyRange _ _)
  · rw [length_grid, length_pyRange, length_pyRange, length_pyRange]

/-- A range below and above zero. -/
example : getAllOrigins ⟨1, 2, 1⟩ ⟨-1, 1, 0⟩ = .ok [⟨-1, 1, 0⟩, ⟨0, 1, 0⟩] := by decide +kernel

/-- The documented `step` argument does not work (outside the claim of C37): with step 2 the range
`0..4` gives 32 rows in which origins repeat, instead of the 8 even triples. -/
theorem C37_step_repeats_origins :
    ∃ g, getAllOrigins ⟨4, 4, 4⟩ ⟨0, 0, 0⟩ 2 = .ok g ∧ g.length = 32 ∧ ¬ g.Nodup := by
  refine ⟨(getAllOrigins ⟨4, 4, 4⟩ ⟨0, 0, 0⟩ 2).toOption.getD [], ?_, ?_, ?_⟩ <;> decide +kernel

theorem mem_pyRange_step {a b x : ℤ} {step : Nat} (hs : 0 < step) (h : x ∈ pyRange a b step) :
    (step : ℤ) ∣ x - a ∧ a ≤ x ∧ x < b := by
  obtain ⟨i, hi, rfl⟩ := List.mem_map.1 h
  rw [List.mem_range, Nat.lt_div_iff_mul_lt hs] at hi
  refine ⟨⟨i, by ring⟩, by nlinarith [Int.natCast_nonneg step, Int.natCast_nonneg i], ?_⟩
  have h1 : i * step < (b - a).toNat := by omega
  have h2 : ((i * step : Nat) : ℤ) < b - a := by omega
  push_cast at h2
  linarith [mul_comm (i : ℤ) step]

theorem mem_columnStack {β : Type} {a b c : List β} {g : List (V3 β)} (h : columnStack a b c = .ok g)
    {v : V3 β} (hv : v ∈ g) : v.x ∈ a ∧ v.y ∈ b ∧ v.z ∈ c := by
  unfold columnStack at h
  split at h
  · obtain rfl := Except.ok.inj h
    rw [← List.map_uncurry_zip_eq_zipWith, List.mem_map] at hv
    obtain ⟨⟨x, y, z⟩, hm, rfl⟩ := hv
    have h1 := List.of_mem_zip hm
    have h2 := List.of_mem_zip h1.2
    exact ⟨h1.1, h2.1, h2.2⟩
  · cases h

/-- What remains true for other steps: every origin returned lies in the range and on the grid of the
step. -/
theorem C37_step_on_grid (max min : V3 ℤ) (step : Nat) (hs : 0 < step) (g : List (V3 ℤ))
    (h : getAllOrigins max min step = .ok g) (v : V3 ℤ) (hv : v ∈ g) :
    ((step : ℤ) ∣ v.x - min.x ∧ min.x ≤ v.x ∧ v.x < max.x) ∧
    ((step : ℤ) ∣ v.y - min.y ∧ min.y ≤ v.y ∧ v.y < max.y) ∧
    ((step : ℤ) ∣ v.z - min.z ∧ min.z ≤ v.z ∧ v.z < max.z) := by
  obtain ⟨h1, h2, h3⟩ := mem_columnStack h hv
  simp only [npRepeat, npTile, List.mem_flatMap, List.mem_flatten, List.mem_replicate] at h1 h2 h3
  obtain ⟨x, hx, -, rfl⟩ := h1
  obtain ⟨y, ⟨l, ⟨-, rfl⟩, hy⟩, -, hy'⟩ := h2
  obtain ⟨l, ⟨-, rfl⟩, hz⟩ := h3
  rw [hy']
  exact ⟨mem_pyRange_step hs hx, mem_pyRange_step hs hy, mem_pyRange_step hs hz⟩

example : getAllOrigins ⟨3, 2, 1⟩ ⟨0, 0, 0⟩ 2 = .error .valueError := by decide +kernel

/-! ## C38 -/

theorem setSlice_mid {β : Type} (p q r b : List β) (h : b.length = q.length) :
    setSlice (p ++ q ++ r) p.length b = p ++ b ++ r := by
  unfold setSlice
  rw [List.append_assoc p q r, List.take_left, ← List.append_assoc p q r, h]
  have : p.length + q.length = (p ++ q).length := by simp
  rw [this, List.drop_left]

theorem shellSteps {xy xz yz : List (V3 ℤ)} (N : ℤ) (o : V3 ℤ) :
    shellStep xy xz yz (shellStep xy xz yz
      (List.replicate (2 * xy.length + 2 * xz.length + 2 * yz.length) o) 0 (-N)) 1 N =
    (xy.map fun v => { v with z := -N }) ++ (xy.map fun v => { v with z := N }) ++
    (xz.map fun v => { v with y := -N }) ++ (xz.map fun v => { v with y := N }) ++
    (yz.map fun v => { v with x := -N }) ++ (yz.map fun v => { v with x := N }) := by
  set A0 := xy.map fun v : V3 ℤ => { v with z := -N } with hA0
  set A1 := xy.map fun v : V3 ℤ => { v with z := N } with hA1
  set B0 := xz.map fun v : V3 ℤ => { v with y := -N } with hB0
  set B1 := xz.map fun v : V3 ℤ => { v with y := N } with hB1
  set C0 := yz.map fun v : V3 ℤ => { v with x := -N } with hC0
  set C1 := yz.map fun v : V3 ℤ => { v with x := N } with hC1
  have lA0 : A0.length = xy.length := by simp [hA0]
  have lA1 : A1.length = xy.length := by simp [hA1]
  have lB0 : B0.length = xz.length := by simp [hB0]
  have lB1 : B1.length = xz.length := by simp [hB1]
  have lC0 : C0.length = yz.length := by simp [hC0]
  have lC1 : C1.length = yz.length := by simp [hC1]
  set X := List.replicate xy.length o with hX
  set Y := List.replicate xz.length o with hY
  set Z := List.replicate yz.length o with hZ
  have lX : X.length = xy.length := by simp [hX]
  have lY : Y.length = xz.length := by simp [hY]
  have lZ : Z.length = yz.length := by simp [hZ]
  have hrep : List.replicate (2 * xy.length + 2 * xz.length + 2 * yz.length) o =
      [] ++ X ++ (X ++ Y ++ Y ++ Z ++ Z) := by
    simp only [hX, hY, hZ, List.nil_append, List.replicate_append_replicate]
    congr 1; omega
  unfold shellStep
  dsimp only
  rw [← hA0, ← hA1, ← hB0, ← hB1, ← hC0, ← hC1, hrep]
  -- first pass
  have s1 := setSlice_mid [] X (X ++ Y ++ Y ++ Z ++ Z) A0 (by omega)
  have i1 : 0 * xy.length = ([] : List (V3 ℤ)).length := by simp
  rw [i1, s1]
  have s2 := setSlice_mid (A0 ++ X) Y (Y ++ Z ++ Z) B0 (by omega)
  have i2 : 2 * xy.length + 0 * xz.length = (A0 ++ X).length := by simp only [List.length_append]; omega
  have e2 : [] ++ A0 ++ (X ++ Y ++ Y ++ Z ++ Z) = A0 ++ X ++ Y ++ (Y ++ Z ++ Z) := by simp
  rw [e2, i2, s2]
  have s3 := setSlice_mid (A0 ++ X ++ B0 ++ Y) Z Z C0 (by omega)
  have i3 : 2 * (xy.length + xz.length) + 0 * yz.length = (A0 ++ X ++ B0 ++ Y).length := by
    simp only [List.length_append]; omega
  have e3 : A0 ++ X ++ B0 ++ (Y ++ Z ++ Z) = A0 ++ X ++ B0 ++ Y ++ Z ++ Z := by simp
  rw [e3, i3, s3]
  -- second pass
  have s4 := setSlice_mid A0 X (B0 ++ Y ++ C0 ++ Z) A1 (by omega)
  have i4 : 1 * xy.length = A0.length := by omega
  have e4 : A0 ++ X ++ B0 ++ Y ++ C0 ++ Z = A0 ++ X ++ (B0 ++ Y ++ C0 ++ Z) := by simp
  rw [e4, i4, s4]
  have s5 := setSlice_mid (A0 ++ A1 ++ B0) Y (C0 ++ Z) B1 (by omega)
  have i5 : 2 * xy.length + 1 * xz.length = (A0 ++ A1 ++ B0).length := by
    simp only [List.length_append]; omega
  have e5 : A0 ++ A1 ++ (B0 ++ Y ++ C0 ++ Z) = A0 ++ A1 ++ B0 ++ Y ++ (C0 ++ Z) := by simp
  rw [e5, i5, s5]
  have s6 := setSlice_mid (A0 ++ A1 ++ B0 ++ B1 ++ C0) Z [] C1 (by omega)
  have i6 : 2 * (xy.length + xz.length) + 1 * yz.length = (A0 ++ A1 ++ B0 ++ B1 ++ C0).length := by
    simp only [List.length_append]; omega
  have e6 : A0 ++ A1 ++ B0 ++ B1 ++ (C0 ++ Z) = A0 ++ A1 ++ B0 ++ B1 ++ C0 ++ Z ++ [] := by simp
  rw [e6, i6, s6]
  simp

/-- The six faces that make up shell `n >= 1`. -/
theorem shellOrigins_eq (n : Nat) (hn : 0 < n) :
    let N : ℤ := n
    let xy := grid (pyRange (-N) (N + 1) 1) (pyRange (-N) (N + 1) 1) (pyRange 0 1 1)
    let xz := grid (pyRange (-N) (N + 1) 1) (pyRange 0 1 1) (pyRange (-N + 1) N 1)
    let yz := grid (pyRange 0 1 1) (pyRange (-N + 1) N 1) (pyRange (-N + 1) N 1)
    shellOrigins n = .ok
      ((xy.map fun v => { v with z := -N }) ++ (xy.map fun v => { v with z := N }) ++
       (xz.map fun v => { v with y := -N }) ++ (xz.map fun v => { v with y := N }) ++
       (yz.map fun v => { v with x := -N }) ++ (yz.map fun v => { v with x := N })) := by
  intro N xy xz yz
  unfold shellOrigins
  rw [if_neg hn.ne']
  dsimp only
  rw [getAllOrigins_eq _ _ (by dsimp only; omega) (by dsimp only; omega) (by dsimp only; omega),
    getAllOrigins_eq _ _ (by dsimp only; omega) (by dsimp only; omega) (by dsimp only; omega),
    getAllOrigins_eq _ _ (by dsimp only; omega) (by dsimp only; omega) (by dsimp only; omega)]
  simp only [bind, Except.bind, pure, Except.pure]
  congr 1
  have hlen : (2 * n + 1) ^ 3 - (2 * n - 1) ^ 3 = 2 * xy.length + 2 * xz.length + 2 * yz.length := by
    simp only [xy, xz, yz, length_grid, length_pyRange]
    obtain ⟨m, rfl⟩ : ∃ m, n = m + 1 := ⟨n - 1, by omega⟩
    have a1 : (N + 1 - -N).toNat = 2 * m + 3 := by omega
    have a2 : (N - (-N + 1)).toNat = 2 * m + 1 := by omega
    have a3 : ((1 : ℤ) - 0).toNat = 1 := by omega
    have a4 : 2 * (m + 1) - 1 = 2 * m + 1 := by omega
    rw [a1, a2, a3, a4]
    have : (2 * (m + 1) + 1) ^ 3 = (2 * ((2 * m + 3) * (2 * m + 3) * 1) +
        2 * ((2 * m + 3) * 1 * (2 * m + 1)) + 2 * (1 * (2 * m + 1) * (2 * m + 1))) +
        (2 * m + 1) ^ 3 := by ring
    rw [this, Nat.add_sub_cancel]
  rw [hlen]
  exact shellSteps N _

/-- Distance of a cell from the origin in the maximum norm. -/
def maxAbs (v : V3 ℤ) : Nat := max v.x.natAbs (max v.y.natAbs v.z.natAbs)

/-- **C38**: shell `n` consists of exactly the integer triples with largest absolute component `n`, each
once. -/
theorem C38_shell (n : Nat) :
    ∃ g, shellOrigins n = .ok g ∧ (∀ v, v ∈ g ↔ maxAbs v = n) ∧ g.Nodup := by
  rcases Nat.eq_zero_or_pos n with rfl | hn
  · refine ⟨[⟨0, 0, 0⟩], rfl, fun v => ?_, by simp⟩
    obtain ⟨x, y, z⟩ := v
    simp only [List.mem_singleton, V3.mk.injEq, maxAbs]
    omega
  · refine ⟨_, shellOrigins_eq n hn, fun v => ?_, ?_⟩
    · obtain ⟨x, y, z⟩ := v
      simp only [List.mem_append, List.mem_map, mem_grid, mem_pyRange, maxAbs]
      constructor
      · intro h
        rcases h with ((((h | h) | h) | h) | h) | h <;> obtain ⟨⟨a, b, c⟩, ⟨h1, h2, h3⟩, h4⟩ := h <;>
          simp only [V3.mk.injEq] at h4 <;> obtain ⟨rfl, rfl, rfl⟩ := h4 <;> dsimp only at * <;> omega
      · intro h
        by_cases hz : z = -(n : ℤ)
        · exact Or.inl (Or.inl (Or.inl (Or.inl (Or.inl ⟨⟨x, y, 0⟩, ⟨by dsimp only; omega,
            by dsimp only; omega, by dsimp only; omega⟩, by simp [hz]⟩))))
        by_cases hz2 : z = (n : ℤ)
        · exact Or.inl (Or.inl (Or.inl (Or.inl (Or.inr ⟨⟨x, y, 0⟩, ⟨by dsimp only; omega,
            by dsimp only; omega, by dsimp only; omega⟩, by simp [hz2]⟩))))
        by_cases hy : y = -(n : ℤ)
        · exact Or.inl (Or.inl (Or.inl (Or.inr ⟨⟨x, 0, z⟩, ⟨by dsimp only; omega,
            by dsimp only; omega, by dsimp only; omega⟩, by simp [hy]⟩)))
        by_cases hy2 : y = (n : ℤ)
        · exact Or.inl (Or.inl (Or.inr ⟨⟨x, 0, z⟩, ⟨by dsimp only; omega,
            by dsimp only; omega, by dsimp only; omega⟩, by simp [hy2]⟩))
        by_cases hx : x = -(n : ℤ)
        · exact Or.inl (Or.inr ⟨⟨0, y, z⟩, ⟨by dsimp only; omega,
            by dsimp only; omega, by dsimp only; omega⟩, by simp [hx]⟩)
        have hx2 : x = (n : ℤ) := by omega
        exact Or.inr ⟨⟨0, y, z⟩, ⟨by dsimp only; omega,
            by dsimp only; omega, by dsimp only; omega⟩, by simp [hx2]⟩
    · have hN : (-(n : ℤ)) ≠ n := by omega
      have inj : ∀ (f : V3 ℤ → V3 ℤ) (l : List (V3 ℤ)), l.Nodup →
          (∀ u ∈ l, ∀ v ∈ l, f u = f v → u = v) → (l.map f).Nodup := by
        intro f l hl hf
        exact (List.nodup_map_iff_inj_on hl).2 hf
      simp only [List.nodup_append]
      refine ⟨⟨⟨⟨⟨?_, ?_, ?_⟩, ?_, ?_⟩, ?_, ?_⟩, ?_, ?_⟩, ?_, ?_⟩
      case refine_1 | refine_2 | refine_4 | refine_6 | refine_8 | refine_10 =>
        refine inj _ _ (nodup_grid _ _ _ (nodup_pyRange _ _) (nodup_pyRange _ _) (nodup_pyRange _ _)) ?_
        rintro ⟨a, b, c⟩ h1 ⟨a', b', c'⟩ h2 h
        simp only [mem_grid, mem_pyRange] at h1 h2
        simp only [V3.mk.injEq] at h ⊢
        omega
      case refine_3 =>
        intro u hu v hv
        simp only [List.mem_append, List.mem_map, mem_grid, mem_pyRange] at hu hv
        obtain ⟨⟨a, b, c⟩, h1, rfl⟩ := hv
        rintro rfl
        rcases hu with hu <;>
        · obtain ⟨⟨a', b', c'⟩, h2, h3⟩ := hu
          simp only [V3.mk.injEq] at h3
          dsimp only at h1 h2
          omega
      case refine_5 =>
        intro u hu v hv
        simp only [List.mem_append, List.mem_map, mem_grid, mem_pyRange] at hu hv
        obtain ⟨⟨a, b, c⟩, h1, rfl⟩ := hv
        rintro rfl
        rcases hu with hu | hu <;>
        · obtain ⟨⟨a', b', c'⟩, h2, h3⟩ := hu
          simp only [V3.mk.injEq] at h3
          dsimp only at h1 h2
          omega
      case refine_7 =>
        intro u hu v hv
        simp only [List.mem_append, List.mem_map, mem_grid, mem_pyRange] at hu hv
        obtain ⟨⟨a, b, c⟩, h1, rfl⟩ := hv
        rintro rfl
        rcases hu with (hu | hu) | hu <;>
        · obtain ⟨⟨a', b', c'⟩, h2, h3⟩ := hu
          simp only [V3.mk.injEq] at h3
          dsimp only at h1 h2
          omega
      case refine_9 =>
        intro u hu v hv
        simp only [List.mem_append, List.mem_map, mem_grid, mem_pyRange] at hu hv
        obtain ⟨⟨a, b, c⟩, h1, rfl⟩ := hv
        rintro rfl
        rcases hu with ((hu | hu) | hu) | hu <;>
        · obtain ⟨⟨a', b', c'⟩, h2, h3⟩ := hu
          simp only [V3.mk.injEq] at h3
          dsimp only at h1 h2
          omega
      case refine_11 =>
        intro u hu v hv
        simp only [List.mem_append, List.mem_map, mem_grid, mem_pyRange] at hu hv
        obtain ⟨⟨a, b, c⟩, h1, rfl⟩ := hv
        rintro rfl
        rcases hu with (((hu | hu) | hu) | hu) | hu <;>
        · obtain ⟨⟨a', b', c'⟩, h2, h3⟩ := hu
          simp only [V3.mk.injEq] at h3
          dsimp only at h1 h2
          omega

theorem maxAbs_neg (v : V3 ℤ) : maxAbs ⟨-v.x, -v.y, -v.z⟩ = maxAbs v := by
  simp [maxAbs]

/-- **C38**: every shell is closed under inversion. -/
theorem C38_shell_inversion (n : Nat) (g : List (V3 ℤ)) (h : shellOrigins n = .ok g) (v : V3 ℤ)
    (hv : v ∈ g) : (⟨-v.x, -v.y, -v.z⟩ : V3 ℤ) ∈ g := by
  obtain ⟨g', h1, h2, _⟩ := C38_shell n
  rw [h] at h1
  obtain rfl := Except.ok.inj h1
  rw [h2, maxAbs_neg]
  exact (h2 v).1 hv

/-- **C38**: shells `0..n` one after the other list every triple of the cube `|x|, |y|, |z| <= n`
exactly once (so a sum over shells counts every cell once). -/
theorem C38_cube (n : Nat) :
    ∃ gs, (List.range (n + 1)).mapM shellOrigins = .ok gs ∧ gs.flatten.Nodup ∧
      ∀ v : V3 ℤ, v ∈ gs.flatten ↔
        (-(n : ℤ) ≤ v.x ∧ v.x ≤ n) ∧ (-(n : ℤ) ≤ v.y ∧ v.y ≤ n) ∧ (-(n : ℤ) ≤ v.z ∧ v.z ≤ n) := by
  choose f hf hmem hnd using C38_shell
  have hm : ∀ l : List Nat, l.mapM shellOrigins = .ok (l.map f) := by
    intro l
    induction l with
    | nil => rfl
    | cons a l ih =>
      rw [List.mapM_cons, hf, ih]
      rfl
  refine ⟨_, hm _, ?_, fun v => ?_⟩
  · rw [List.nodup_flatten]
    refine ⟨fun l hl => ?_, ?_⟩
    · obtain ⟨k, _, rfl⟩ := List.mem_map.1 hl
      exact hnd k
    · rw [List.pairwise_map]
      refine List.nodup_range.imp fun {a b} hab => ?_
      intro v h1 h2
      exact hab (((hmem a v).1 h1).symm.trans ((hmem b v).1 h2))
  · rw [List.mem_flatten]
    constructor
    · rintro ⟨l, hl, hv⟩
      obtain ⟨k, hk, rfl⟩ := List.mem_map.1 hl
      rw [hmem] at hv
      rw [List.mem_range] at hk
      unfold maxAbs at hv
      omega
    · intro h
      refine ⟨f (maxAbs v), List.mem_map_of_mem ?_, (hmem _ v).2 rfl⟩
      rw [List.mem_range]
      unfold maxAbs
      omega

example : (shellOrigins 1).toOption.map List.length = some 26 := by decide +kernel

end Euphonic.Lattice
