import Verif.Props.SiteSymmetry
import Verif.Props.Sqw

/-!
# C172: scattering at wavevectors that a symmetry of the crystal moves into each other

The same frequencies, the same structure factors (summed over modes of equal frequencies) and the same rows of `calculate_sqw_map`,
without Debye-Waller exponents or with symmetrised ones of any grid.
-/

set_option autoImplicit false
set_option linter.unusedSectionVars false

namespace Euphonic.EquivalentVectors

open Euphonic.Lattice Euphonic.Supercell Euphonic.Phases Euphonic.Images Euphonic.DynMat Euphonic.Reduced
open Euphonic.Commensurate Euphonic.Acoustic Euphonic.Scatter Euphonic.Describe Euphonic.Symmetry Euphonic.DebyeSym
open Euphonic.SiteSymmetry Euphonic.Dos

variable {n N nq nG : Nat} {d : Description n N} {types : Fin n → String} {tol : ℝ} {ops : List (Op ℝ)}

/-! ## Specification -/

/-- The operations are a group, each leaves crystal and force constants as they are, and atoms of one kind are apart. -/
structure SymmetryGroup (d : Description n N) (types : Fin n → String) (tol : ℝ) (ops : List (Op ℝ)) (h : Fin ops.length → Change n N N) :
    Prop where
  genuine : ∀ s, Genuine d types ops[s] (h s)
  group : IsGroup ops
  pos : 0 < tol
  separated : Separated d.cv (List.ofFn types) (List.ofFn d.r) tol

/-- The exponents: none, or those of any wavevectors with any weights at any temperature, symmetrised. -/
inductive Exponents (d : Description n N) (types : Fin n → String) (tol : ℝ) (ops : List (Op ℝ)) (images : List (V3 ℤ))
    (junk : Fin N → Mat n ℝ) (eigh : Mat n ℂ → (Fin (n * 3) → ℝ) × Mat n ℂ) : Option DW → Prop
  | none : Exponents d types tol ops images junk eigh none
  | symmetrised {nG : Nat} (grid : Fin nG → V3 ℝ) (weights : Fin nG → ℝ) (chunk : Nat) (kB temp fmin : ℝ) (w : DW)
      (h : debyeWaller d.cv d.r tol (some ops) chunk (d.modes types images junk eigh grid weights) kB temp fmin true = .ok w) :
      Exponents d types tol ops images junk eigh (some w)

/-! ## Symmetrised exponents -/

theorem takes_of_genuine {op : Op ℝ} {h : Change n N N} (hg : Genuine d types op h) (i : Fin n) :
    Takes types d.r op i (h.p i) := ⟨(hg.types i).symm, genuine_image hg i⟩

theorem cartesian_of_genuine {op : Op ℝ} {h : Change n N N} (hg : Genuine d types op h) : Cartesian d.cv op h.R := by
  intro v
  rw [← hg.relates.vectors, hg.rotation]
  congr 1
  simp only [turn, toCart, castM, castV, V3.mk.injEq]
  refine ⟨?_, ?_, ?_⟩ <;> ring

theorem symmetries_of_group {h : Fin ops.length → Change n N N} (hg : SymmetryGroup d types tol ops h) {images : List (V3 ℤ)}
    (hok : d.Ok images) : Symmetries d.cv types d.r tol ops :=
  ⟨volume_ne hok, hg.pos, hg.group, fun s i => ⟨_, takes_of_genuine (hg.genuine s) i⟩, hg.separated⟩

theorem carries {h : Fin ops.length → Change n N N} (hg : SymmetryGroup d types tol ops h) {images : List (V3 ℤ)} (hok : d.Ok images)
    {junk : Fin N → Mat n ℝ} {eigh : Mat n ℂ → (Fin (n * 3) → ℝ) × Mat n ℂ} {dw : Option DW}
    (hw : Exponents d types tol ops images junk eigh dw) (s : Fin ops.length) : (h s).CarriesDWOpt dw dw := by
  cases hw with
  | none => trivial
  | symmetrised grid weights chunk kB temp fmin w hw =>
    obtain ⟨u, h1, h2⟩ := C167_equivalent_atoms (symmetries_of_group hg hok) chunk (d.modes types images junk eigh grid weights)
      kB temp fmin
    rw [hw] at h1
    injection h1 with h1
    subst h1
    refine ⟨rfl, rfl, fun i a b => ?_⟩
    refine (h2 s _ i _ (cartesian_of_genuine (hg.genuine s)) (takes_of_genuine (hg.genuine s) i) a b).trans ?_
    refine Finset.sum_congr rfl fun a' _ => Finset.sum_congr rfl fun b' _ => ?_
    rw [mul_assoc, mul_comm (u i a' b'), ← mul_assoc]
    rfl

/-! ## Structure factors -/

variable {h : Fin ops.length → Change n N N} {images : List (V3 ℤ)} {perm : Fin N → Fin N} {t : Fin N → V3 ℤ}
  {eigh eigh' : Mat n ℂ → (Fin (n * 3) → ℝ) × Mat n ℂ} {dw : Option DW}

/-- Whether the calculation succeeds does not depend on the modes. -/
theorem sf_exists {C : Cryst n} {nm : Nat} {m m' : Modes C nq nm} {data : String → Option ℂ} {dw : Option DW} {r : SF nq nm}
    (hsf : calculateStructureFactor m data dw = .ok r) : ∃ r', calculateStructureFactor m' data dw = .ok r' := by
  obtain ⟨sl, f, h1, h2, -⟩ := sf_ok _ data dw r hsf
  have h3 : ∃ f', dwFactors m' dw = .ok f' := by
    cases dw with
    | none => exact ⟨_, rfl⟩
    | some w =>
      unfold dwFactors at h2 ⊢
      by_cases hn : w.nAtoms = n
      · exact ⟨_, dif_pos hn⟩
      · simp [hn] at h2
  obtain ⟨f', h3⟩ := h3
  unfold calculateStructureFactor
  rw [h1, h3]
  exact ⟨_, rfl⟩

/-- **C172** (partial: reduced supercells, no corrections) Wavevectors that a symmetry of the crystal moves into each other: if the
calculation succeeds for one set of them, so it does for the other; the frequencies are the same, and so is the sum over modes of the
structure factors times any function of the frequency (so for every frequency the sum over the modes that have it). -/
theorem C172_structure_factor_partial (hg : SymmetryGroup d types tol ops h) (hok : d.Ok images) (hs : Symmetric d.cells d.S d.fc perm t)
    (junk junk' : Fin N → Mat n ℝ) (he : IsEigh eigh) (he' : IsEigh eigh') (hw : Exponents d types tol ops images junk eigh dw)
    (s : Fin ops.length) (Qs : Fin nq → V3 ℝ) (weights weights' : Fin nq → ℝ) (data : String → Option ℂ) {r : SF nq (n * 3)}
    (hsf : calculateStructureFactor (d.modes types images junk eigh Qs weights) data dw = .ok r) :
    ∃ r', calculateStructureFactor
        (d.modes types images junk' eigh' (fun q => unrotated ops[s] (Qs q)) weights') data dw = .ok r' ∧
      ∀ q, r'.freqs q = r.freqs q ∧
        ∀ g : ℝ → ℝ, ∑ m, g (r'.freqs q m) * r'.sf q m = ∑ m, g (r.freqs q m) * r.sf q m := by
  obtain ⟨r', hr'⟩ := sf_exists (m' := d.modes types images junk' eigh' (fun q => unrotated ops[s] (Qs q)) weights') hsf
  refine ⟨r', hr', fun q => ?_⟩
  have e : (fun q => unrotated ops[s] (Qs q)) = fun q => (h s).back (Qs q) :=
    funext fun q => (unrotated_eq (hg.genuine s) (Qs q)).symm
  rw [e] at hr'
  obtain ⟨h1, h2⟩ := C131_structure_factor_partial (hg.genuine s).relates hok hok hs junk' junk (hg.genuine s).types he' he Qs
    weights' weights data (carries hg hok hw s) hr' hsf q
  exact ⟨h1.symm, fun g => (h2 g).symm⟩

/-! ## Maps -/

theorem sqwBin_congr {nm : Nat} {f f' s s' : Fin nm → ℝ} (c : ℝ) (b : List ℝ)
    (hg : ∀ g : ℝ → ℝ, ∑ m, g (f' m) * s' m = ∑ m, g (f m) * s m) (l k : ℝ → ℝ) (i : Nat) :
    sqwBin b (fun m => f' m / c) (fun m => l (f' m) * s' m) (fun m => k (f' m) * s' m) i =
      sqwBin b (fun m => f m / c) (fun m => l (f m) * s m) (fun m => k (f m) * s m) i := by
  classical
  have e := hg fun x => (if InBin b i (x / c) then l x else 0) + if InBin b i (-(x / c)) then k x else 0
  unfold sqwBin
  convert e using 2
  · rw [add_mul, ite_mul, ite_mul, zero_mul]
  · rw [add_mul, ite_mul, ite_mul, zero_mul]

theorem list_eq {l l' : List ℝ} (hn : l.length = l'.length) (h : ∀ i < l.length, l.getD i 0 = l'.getD i 0) : l = l' := by
  refine List.ext_getElem hn fun i h1 h2 => ?_
  have := h i h1
  rwa [List.getD_eq_getElem _ _ h1, List.getD_eq_getElem _ _ h2] at this

/-- Maps are the same if temperatures, frequencies and sums over modes are. -/
theorem sqw_map_congr {nm : Nat} {r r' : SF nq nm} (ht : r'.temperature = r.temperature)
    (h2 : ∀ q, r'.freqs q = r.freqs q ∧
      ∀ g : ℝ → ℝ, ∑ m, g (r'.freqs q m) * r'.sf q m = ∑ m, g (r.freqs q m) * r.sf q m)
    (kB c sfConv : ℝ) (hc : 0 < c) (b : List ℝ) (hb : b.Pairwise (· < ·)) (calcBose : Bool) (given T : Option ℝ)
    (hT : usedTemperature calcBose r.temperature given = .ok T)
    (hz : ∀ t, T = some t → 0 < t → ∀ q m, Real.exp (|r.freqs q m| / (kB * t)) ≠ 1) :
    ∃ rows, calculateSqwMap Real.exp kB c sfConv b calcBose r.temperature given r.freqs r.sf = .ok rows ∧
      calculateSqwMap Real.exp kB c sfConv b calcBose r'.temperature given r'.freqs r'.sf = .ok rows := by
  have hf : r'.freqs = r.freqs := funext fun q => (h2 q).1
  rw [ht]
  obtain ⟨rows, a1, a2, a3⟩ := C24_sqw_bins Real.exp kB c sfConv hc b hb calcBose r.temperature given r.freqs r.sf T hT hz
  obtain ⟨rows', b1, b2, b3⟩ := C24_sqw_bins Real.exp kB c sfConv hc b hb calcBose r.temperature given r'.freqs r'.sf T hT
    (by rw [hf]; exact hz)
  refine ⟨rows, a1, b1.trans (congrArg _ ?_)⟩
  refine List.ext_getElem (b2.trans a2.symm) fun q q1 q2 => ?_
  have hq : q < nq := by omega
  obtain ⟨a4, a5⟩ := a3 ⟨q, hq⟩
  obtain ⟨b4, b5⟩ := b3 ⟨q, hq⟩
  rw [List.getD_eq_getElem _ _ q2] at a4 a5
  rw [List.getD_eq_getElem _ _ q1] at b4 b5
  refine list_eq (b4.trans a4.symm) fun i hi => ?_
  have hi' : i < b.length - 1 := by omega
  have hw : b.getD (i + 1) 0 - b.getD i 0 ≠ 0 := by
    have h3 : i + 1 < b.length := by omega
    have h4 : i < b.length := by omega
    rw [List.getD_eq_getElem _ _ h3, List.getD_eq_getElem _ _ h4]
    have := List.pairwise_iff_getElem.1 hb i (i + 1) h4 h3 (by omega)
    linarith
  refine mul_right_cancel₀ hw ((b5 i hi').trans (Eq.trans ?_ (a5 i hi').symm))
  congr 1
  have c2 := (h2 ⟨q, hq⟩).2
  cases T with
  | some t => exact sqwBin_congr c b c2 (fun x => 1 + boseFactor Real.exp kB t x) (fun x => boseFactor Real.exp kB t x) i
  | none => simpa using sqwBin_congr c b c2 (fun _ => 1) (fun _ => 1) i

/-- **C172** (partial: reduced supercells, no corrections) The maps of the two sets of wavevectors are the same, row by row and bin
by bin. -/
theorem C172_sqw_map_partial (hg : SymmetryGroup d types tol ops h) (hok : d.Ok images) (hs : Symmetric d.cells d.S d.fc perm t)
    (junk junk' : Fin N → Mat n ℝ) (he : IsEigh eigh) (he' : IsEigh eigh') (hw : Exponents d types tol ops images junk eigh dw)
    (s : Fin ops.length) (Qs : Fin nq → V3 ℝ) (weights weights' : Fin nq → ℝ) (data : String → Option ℂ) {r r' : SF nq (n * 3)}
    (hsf : calculateStructureFactor (d.modes types images junk eigh Qs weights) data dw = .ok r)
    (hsf' : calculateStructureFactor
      (d.modes types images junk' eigh' (fun q => unrotated ops[s] (Qs q)) weights') data dw = .ok r')
    (kB c sfConv : ℝ) (hc : 0 < c) (b : List ℝ) (hb : b.Pairwise (· < ·)) (calcBose : Bool) (given T : Option ℝ)
    (hT : usedTemperature calcBose r.temperature given = .ok T)
    (hz : ∀ t, T = some t → 0 < t → ∀ q m, Real.exp (|r.freqs q m| / (kB * t)) ≠ 1) :
    ∃ rows, calculateSqwMap Real.exp kB c sfConv b calcBose r.temperature given r.freqs r.sf = .ok rows ∧
      calculateSqwMap Real.exp kB c sfConv b calcBose r'.temperature given r'.freqs r'.sf = .ok rows := by
  obtain ⟨r'', h1, h2⟩ := C172_structure_factor_partial hg hok hs junk junk' he he' hw s Qs weights weights' data hsf
  rw [hsf'] at h1
  injection h1 with h1
  subst h1
  have ht : r'.temperature = r.temperature := by
    obtain ⟨_, _, _, _, rfl⟩ := sf_ok _ data dw r hsf
    obtain ⟨_, _, _, _, rfl⟩ := sf_ok _ data dw r' hsf'
    rfl
  exact sqw_map_congr ht h2 kB c sfConv hc b hb calcBose given T hT hz

/-! ## A case -/

namespace Ex

open Euphonic.DebyeSym.Ex

theorem group : IsGroup DebyeSym.Ex.ops where
  closed := by
    intro s t
    change Fin 2 at s t
    have key : ∀ s t : Fin 2, ∃ u : Fin 2, Composes (DebyeSym.Ex.ops[(s : Fin DebyeSym.Ex.ops.length)])
        (DebyeSym.Ex.ops[(t : Fin DebyeSym.Ex.ops.length)]) (DebyeSym.Ex.ops[(u : Fin DebyeSym.Ex.ops.length)]) := by
      intro s t
      refine ⟨s + t, ?_, ⟨0, 0, 0⟩, ?_⟩
      · intro v
        fin_cases s <;> fin_cases t <;> simp [DebyeSym.Ex.ops, turn]
      · fin_cases s <;> fin_cases t <;> simp [DebyeSym.Ex.ops, image]
    exact key s t
  inverse := by
    intro s
    refine ⟨s, ?_, ⟨0, 0, 0⟩, ?_⟩
    · intro v
      change Fin 2 at s
      fin_cases s <;> simp [DebyeSym.Ex.ops, turn, identity]
    · change Fin 2 at s
      fin_cases s <;> simp [DebyeSym.Ex.ops, image, identity]
  once := by
    intro s t hst
    have h := congrArg V3.y (hst.turn ⟨0, 1, 0⟩)
    change Fin 2 at s t
    fin_cases s <;> fin_cases t <;> simp [DebyeSym.Ex.ops, turn] at h ⊢ <;> norm_num at h

theorem crystal : SymmetryGroup Describe.Ex.d DebyeSym.Ex.types (1 / 1000) DebyeSym.Ex.ops ![same 2 2, half] :=
  ⟨genuine, group, by norm_num, separated _⟩

/-- Two wavevectors that the half turn exchanges, with the exponents of a third one at 300 K. -/
example (junk : Fin 2 → Mat 2 ℝ) {eigh : Mat 2 ℂ → (Fin (2 * 3) → ℝ) × Mat 2 ℂ} (he : IsEigh eigh) (kB : ℝ) :
    ∃ (w : DW) (r r' : SF 1 (2 * 3)),
      debyeWaller Describe.Ex.d.cv Describe.Ex.d.r (1 / 1000) (some DebyeSym.Ex.ops) 1000 (Describe.Ex.d.modes DebyeSym.Ex.types shells2 junk
        eigh (fun _ : Fin 1 => ⟨1 / 4, 1 / 5, 1 / 6⟩) fun _ => 1) kB 300 0 true = .ok w ∧
      calculateStructureFactor (Describe.Ex.d.modes DebyeSym.Ex.types shells2 junk eigh (fun _ => ⟨1 / 5, 1 / 3, 1 / 7⟩) fun _ => 1)
        (fun _ => some 1) (some w) = .ok r ∧
      calculateStructureFactor (Describe.Ex.d.modes DebyeSym.Ex.types shells2 junk eigh (fun _ => ⟨1 / 5, -1 / 3, -1 / 7⟩) fun _ => 1)
        (fun _ => some 1) (some w) = .ok r' ∧
      ∑ m, r'.sf 0 m = ∑ m, r.sf 0 m := by
  obtain ⟨w, h1, -⟩ := C167_equivalent_atoms (symmetries_of_group crystal Describe.Ex.ok) 1000 (Describe.Ex.d.modes DebyeSym.Ex.types shells2 junk
        eigh (fun _ : Fin 1 => ⟨1 / 4, 1 / 5, 1 / 6⟩) fun _ => 1) kB 300 0
  have h2 : ∃ r, calculateStructureFactor (Describe.Ex.d.modes DebyeSym.Ex.types shells2 junk eigh (fun _ : Fin 1 => ⟨1 / 5, 1 / 3, 1 / 7⟩)
      fun _ => 1) (fun _ => some 1) (some ⟨2, w, 300⟩) = .ok r := by
    unfold calculateStructureFactor
    simp [lookupAll, dwFactors, bind, Except.bind, pure, Except.pure]
  obtain ⟨r, hr⟩ := h2
  obtain ⟨r', h3, h4⟩ := C172_structure_factor_partial crystal Describe.Ex.ok Describe.Ex.symmetric junk junk he he
    (.symmetrised _ _ _ _ _ _ _ h1) (1 : Fin 2) _ _ (fun _ => 1) _ hr
  refine ⟨_, r, r', h1, hr, ?_, by simpa using (h4 0).2 fun _ => 1⟩
  rw [← h3]
  congr 2
  funext _
  simp [DebyeSym.Ex.ops, unrotated, neg_div]

/-- Their maps without population factors and exponents, in three bins. -/
example (junk : Fin 2 → Mat 2 ℝ) {eigh : Mat 2 ℂ → (Fin (2 * 3) → ℝ) × Mat 2 ℂ} (he : IsEigh eigh) (kB : ℝ) {r r' : SF 1 (2 * 3)}
    (h1 : calculateStructureFactor (Describe.Ex.d.modes DebyeSym.Ex.types shells2 junk eigh (fun _ => ⟨1 / 5, 1 / 3, 1 / 7⟩)
      fun _ => 1) (fun _ => some 1) none = .ok r)
    (h2 : calculateStructureFactor (Describe.Ex.d.modes DebyeSym.Ex.types shells2 junk eigh (fun _ => ⟨1 / 5, -1 / 3, -1 / 7⟩)
      fun _ => 1) (fun _ => some 1) none = .ok r') :
    calculateSqwMap Real.exp kB 1 1 [-3, -1, 1, 3] false r'.temperature none r'.freqs r'.sf =
      calculateSqwMap Real.exp kB 1 1 [-3, -1, 1, 3] false r.temperature none r.freqs r.sf := by
  have e : (fun _ : Fin 1 => (⟨1 / 5, -1 / 3, -1 / 7⟩ : V3 ℝ)) =
      fun _ => unrotated (DebyeSym.Ex.ops[(1 : Fin 2)]) ⟨1 / 5, 1 / 3, 1 / 7⟩ := by
    funext _
    simp [DebyeSym.Ex.ops, unrotated, neg_div]
  rw [e] at h2
  obtain ⟨rows, a1, a2⟩ := C172_sqw_map_partial crystal Describe.Ex.ok Describe.Ex.symmetric junk junk he he .none (1 : Fin 2) _ _ _
    _ h1 h2 kB 1 1 one_pos [-3, -1, 1, 3] (by norm_num) false none none rfl (fun t ht => by cases ht)
  rw [a1, a2]

end Ex

end Euphonic.EquivalentVectors
