import Verif.Model.PhonopyModes
import Verif.Lemmas.Split
import Mathlib.Tactic.LinearCombination
import Mathlib.Data.List.OfFn

/-!
# C105: phonon files of Phonopy in different formats
-/

set_option autoImplicit false

namespace Euphonic.Phonopy

open Euphonic.Lattice

/-! ## Specification: the data and the files that hold them -/

/-- Frequencies and eigenvectors at one q-point: `eig s l m` is component `m` of atom `l` in mode `s`. -/
structure QP (n : Nat) where
  q : V3 ℝ
  freq : Fin (n * 3) → ℝ
  eig : Fin (n * 3) → Fin n → Fin 3 → ℂ
  weight : ℝ

/-- The crystal: cell vectors and atoms. -/
structure Cryst (n : Nat) where
  cell : Fin 3 → V3 ℝ
  r : Fin n → V3 ℝ
  mass : Fin n → ℝ
  symbol : Fin n → String

/-- The coordinates of a vector. -/
def coords (v : V3 ℝ) : List ℝ := [v.x, v.y, v.z]

/-- A mesh.yaml or band.yaml file (the latter without weights), or a qpoints.yaml file (without crystal). -/
noncomputable def yamlOf {n : Nat} (c : Option (Cryst n)) (weights eigs : Bool) (l : List (QP n)) : YFile where
  phonon := l.map fun p =>
    { qPosition := coords p.q
      weight := if weights then some p.weight else none
      band := List.ofFn fun s =>
        { frequency := p.freq s
          eigenvector := if eigs then
              some (List.ofFn fun a => List.ofFn fun m => [(p.eig s a m).re, (p.eig s a m).im])
            else none } }
  lattice := c.map fun c => List.ofFn fun i => coords (c.cell i)
  points := c.map fun c => List.ofFn fun i => ⟨some (coords (c.r i)), some (c.mass i), some (c.symbol i)⟩

/-- A mesh.hdf5 or qpoints.hdf5 file (the latter without weights): the last axis of the eigenvectors counts the
coordinates of all atoms. -/
noncomputable def meshOf {n : Nat} (weights eigs : Bool) (l : List (QP n)) : HFile where
  qpoint := some ⟨[l.length, 3], l.flatMap fun p => coords p.q⟩
  path := none
  frequency := some ⟨[l.length, n * 3], l.flatMap fun p => List.ofFn p.freq⟩
  eigenvector := if eigs then some ⟨[l.length, n * 3, n * 3], l.flatMap fun p =>
      (List.ofFn fun s => List.ofFn fun k : Fin (n * 3) => p.eig s k.divNat k.modNat).flatten⟩ else none
  weight := if weights then some ⟨[l.length], l.map QP.weight⟩ else none

/-- A band.hdf5 file: a path of segments with `k` q-points each; the last axis of the eigenvectors counts the
modes. -/
noncomputable def bandOf {n : Nat} (eigs : Bool) (k : Nat) (segs : List (List (QP n))) : HFile where
  qpoint := none
  path := some ⟨[segs.length, k, 3], segs.flatMap fun l => l.flatMap fun p => coords p.q⟩
  frequency := some ⟨[segs.length, k, n * 3], segs.flatMap fun l => l.flatMap fun p => List.ofFn p.freq⟩
  eigenvector := if eigs then some ⟨[segs.length, k, n * 3, n * 3], segs.flatMap fun l => l.flatMap fun p =>
      (List.ofFn fun k : Fin (n * 3) => List.ofFn fun s => p.eig s k.divNat k.modNat).flatten⟩ else none
  weight := none

/-- The crystal in a summary file. -/
noncomputable def summaryOf {n : Nat} (c : Cryst n) (ulength umass : String) : SummaryCrystal where
  cellVectors := ⟨[3, 3], (List.ofFn fun i => coords (c.cell i)).flatten⟩
  atomR := ⟨[n, 3], (List.ofFn fun i => coords (c.r i)).flatten⟩
  atomMass := List.ofFn c.mass
  atomType := List.ofFn c.symbol
  ulength := ulength
  umass := umass

/-- All components of the eigenvectors at a q-point in order: modes, atoms, directions. -/
def flat {n : Nat} (e : Fin (n * 3) → Fin n → Fin 3 → ℂ) : List ℂ :=
  (List.ofFn fun s => (List.ofFn fun l => List.ofFn fun m => e s l m).flatten).flatten

/-- The scalar product of a q-point and a position in fractional coordinates. -/
def qDot (q r : V3 ℝ) : ℝ := q.x * r.x + q.y * r.y + q.z * r.z

/-- The eigenvectors with the phases of cells: a factor `exp(2 pi i q.r)` of the atom and a factor of absolute
value one of the mode, which is the inverse factor of the atom with a third of the number of the mode. -/
noncomputable def cellPhases {n : Nat} (r : Fin n → V3 ℝ) (p : QP n) : Fin (n * 3) → Fin n → Fin 3 → ℂ :=
  fun s l m => p.eig s l m * (Complex.exp (2 * Real.pi * Complex.I * qDot p.q (r l)) *
    (Complex.exp (2 * Real.pi * Complex.I * qDot p.q (r s.divNat)))⁻¹)

/-- What is to be read. -/
noncomputable def expected {n : Nat} (len mass freq : ℝ) (c : Cryst n) (weights eigs : Bool) (l : List (QP n)) :
    PhononOut where
  nAtoms := n
  cellVectors := (List.ofFn fun i => coords (c.cell i)).flatten.map (· * len)
  atomR := (List.ofFn fun i => coords (c.r i)).flatten
  atomMass := (List.ofFn c.mass).map (· * mass)
  atomType := List.ofFn c.symbol
  nQpts := l.length
  qpts := l.flatMap fun p => coords p.q
  frequencies := (l.flatMap fun p => List.ofFn p.freq).map (· * freq)
  eigenvectors := if eigs then some (l.flatMap fun p => flat (cellPhases c.r p)) else none
  weights := if weights then some (l.map fun p => p.weight / (l.map QP.weight).sum) else none

/-! ## Arrays -/

theorem npStack_ok {α : Type} (l : List (Arr α)) (sh : List Nat) (hl : l ≠ []) (h : ∀ a ∈ l, a.shape = sh) :
    npStack l = .ok ⟨l.length :: sh, l.flatMap Arr.data⟩ := by
  cases l with
  | nil => exact absurd rfl hl
  | cons a r =>
    unfold npStack
    simp only
    rw [if_pos, h a (by simp)]
    rw [List.all_eq_true]
    intro b hb
    simp [h a (by simp), h b (by simp [hb])]

theorem mapM_ok_map {α β : Type} (l : List α) (f : α → Except Err β) (g : α → β)
    (h : ∀ a ∈ l, f a = .ok (g a)) : l.mapM f = .ok (l.map g) := by
  induction l with
  | nil => rfl
  | cons a l ih =>
    rw [List.mapM_cons, h a (by simp), ih fun b hb => h b (by simp [hb])]
    rfl

theorem chunk_flatMap {α β : Type} (k : Nat) (l : List β) (f : β → List α) (h : ∀ b ∈ l, (f b).length = k) :
    chunk k l.length (l.flatMap f) = l.map f := by
  induction l with
  | nil => rfl
  | cons b l ih =>
    have hb := h b (by simp)
    unfold chunk
    rw [List.length_cons, List.range_succ_eq_map, List.map_cons, List.map_map, List.flatMap_cons, List.map_cons]
    congr 1
    · rw [Nat.zero_mul, List.drop_zero, ← hb, List.take_left]
    · rw [← ih fun c hc => h c (by simp [hc])]
      unfold chunk
      apply List.map_congr_left
      intro i _
      simp only [Function.comp]
      rw [show (i + 1) * k = k + i * k by ring, ← hb, List.drop_append, List.drop_eq_nil_of_le (by omega)]
      simp

theorem chunk_ofFn {α : Type} (k : Nat) {c : Nat} (f : Fin c → List α) (h : ∀ i, (f i).length = k) :
    chunk k c (List.ofFn f).flatten = List.ofFn f := by
  have := chunk_flatMap k (List.ofFn f) id (by
    intro b hb
    obtain ⟨i, rfl⟩ := List.mem_ofFn.1 hb
    exact h i)
  rwa [List.length_ofFn, List.map_id, List.flatMap_id] at this

theorem zipWith_ofFn {α β γ : Type} {n : Nat} (g : α → β → γ) (a : Fin n → α) (b : Fin n → β) :
    List.zipWith g (List.ofFn a) (List.ofFn b) = List.ofFn fun i => g (a i) (b i) := by
  apply List.ext_getElem
  · simp
  · intro i h1 h2
    simp

theorem transposeRows_ofFn {α : Type} {p q : Nat} (f : Fin p → Fin q → α) :
    transposeRows q (List.ofFn fun i => List.ofFn fun j => f i j) =
      List.ofFn fun j => List.ofFn fun i => f i j := by
  unfold transposeRows
  apply List.ext_getElem
  · simp
  · intro j h1 h2
    have hj : j < q := by simpa using h1
    simp only [List.getElem_map, List.getElem_range, List.getElem_ofFn]
    rw [List.ofFn_eq_map, List.filterMap_map, List.ofFn_eq_map, ← List.filterMap_eq_map]
    apply List.filterMap_congr
    intro i _
    simp [hj]

theorem pairUp_flatMap (l : List ℂ) : pairUp (l.flatMap fun z => [z.re, z.im]) = l := by
  induction l with
  | nil => rfl
  | cons z l ih =>
    rw [List.flatMap_cons]
    show (⟨z.re, z.im⟩ : ℂ) :: pairUp (l.flatMap fun z => [z.re, z.im]) = z :: l
    rw [ih]

theorem length_flatMap_eq {α β : Type} (k : Nat) (l : List β) (f : β → List α) (h : ∀ b ∈ l, (f b).length = k) :
    (l.flatMap f).length = l.length * k := by
  induction l with
  | nil => simp
  | cons b l ih =>
    rw [List.flatMap_cons, List.length_append, h b (by simp), ih fun c hc => h c (by simp [hc]), List.length_cons]
    ring

theorem length_flatten_ofFn {α : Type} (k : Nat) {c : Nat} (f : Fin c → List α) (h : ∀ i, (f i).length = k) :
    (List.ofFn f).flatten.length = c * k := by
  have := length_flatMap_eq k (List.ofFn f) id (by
    intro b hb
    obtain ⟨i, rfl⟩ := List.mem_ofFn.1 hb
    exact h i)
  rwa [List.length_ofFn, List.flatMap_id] at this

theorem vecs_flatMap {β : Type} (l : List β) (f : β → V3 ℝ) :
    vecs (l.flatMap fun p => coords (f p)) = l.map f := by
  have hl : (l.flatMap fun p => coords (f p)).length = l.length * 3 :=
    length_flatMap_eq 3 l _ fun _ _ => rfl
  unfold vecs
  rw [hl, Nat.mul_div_cancel _ (by norm_num), chunk_flatMap 3 l _ fun _ _ => rfl, List.map_map]
  rfl

theorem vecs_ofFn {n : Nat} (f : Fin n → V3 ℝ) :
    vecs (List.ofFn fun i => coords (f i)).flatten = List.ofFn f := by
  have := vecs_flatMap (List.ofFn f) id
  rw [List.map_id] at this
  rw [← this]
  congr 1
  rw [List.ofFn_eq_map, List.ofFn_eq_map, List.flatMap_map]
  simp [List.flatMap]

/-- The components of a mode number that is an (atom, direction) pair. -/
theorem flat_eq {n : Nat} (e : Fin (n * 3) → Fin n → Fin 3 → ℂ) :
    flat e = (List.ofFn fun j : Fin n => (List.ofFn fun k : Fin 3 => (List.ofFn fun l => List.ofFn fun m =>
      e (finProdFinEquiv (j, k)) l m).flatten).flatten).flatten := by
  unfold flat
  rw [List.ofFn_mul, List.flatten_flatten, List.map_ofFn]
  congr 1
  congr 1
  funext j
  simp only [Function.comp]
  congr 1
  congr 1
  funext k
  congr 1
  congr 1
  funext l
  congr 1
  funext m
  congr 1
  apply Fin.ext
  simp [finProdFinEquiv]
  ring

theorem length_flat {n : Nat} (e : Fin (n * 3) → Fin n → Fin 3 → ℂ) :
    (flat e).length = n * (3 * (n * 3)) := by
  unfold flat
  rw [length_flatten_ofFn (n * 3)]
  · ring
  · intro s
    exact length_flatten_ofFn 3 _ fun l => by simp

/-- The rows of a mesh.hdf5 file are the components in order. -/
theorem flat_rows {n : Nat} (e : Fin (n * 3) → Fin n → Fin 3 → ℂ) :
    (List.ofFn fun s => List.ofFn fun k : Fin (n * 3) => e s k.divNat k.modNat).flatten = flat e := by
  unfold flat
  congr 1
  congr 1
  funext s
  rw [List.ofFn_mul]
  congr 1
  congr 1
  funext l
  congr 1
  funext m
  have h1 : (⟨l * 3 + m, by omega⟩ : Fin (n * 3)).divNat = l := by
    apply Fin.ext
    simp only [Fin.divNat]
    omega
  have h2 : (⟨l * 3 + m, by omega⟩ : Fin (n * 3)).modNat = m := by
    apply Fin.ext
    simp only [Fin.modNat]
    omega
  rw [h1, h2]

theorem flatten_eq_flatMap {α : Type} {c : Nat} (f : Fin c → List α) :
    (List.ofFn f).flatten = (List.finRange c).flatMap f := by
  rw [List.ofFn_eq_map]
  rfl

theorem flatMap_ofFn {α β : Type} {c : Nat} (f : Fin c → β) (g : β → List α) :
    (List.ofFn f).flatMap g = (List.ofFn fun k => g (f k)).flatten := by
  rw [List.flatMap, List.map_ofFn]
  rfl

/-- Conversion of the phases at one q-point, on lists. -/
theorem convert_flat {n : Nat} (q : V3 ℝ) (r : Fin n → V3 ℝ) (e : Fin (n * 3) → Fin n → Fin 3 → ℂ) :
    (List.zipWith (fun rj ej =>
      (chunk (n * 3) 3 ej).flatMap fun ek =>
        (List.zipWith (fun rl el => el.map (· * conversion q rj rl)) (List.ofFn r) (chunk 3 n ek)).flatten)
      (List.ofFn r) (chunk (3 * (n * 3)) n (flat e))).flatten = flat (convertPhases q r e) := by
  have l3 : ∀ s (l : Fin n), (List.ofFn fun m => e s l m).length = 3 := fun s l => by simp
  have ln : ∀ s, ((List.ofFn fun l => List.ofFn fun m => e s l m).flatten).length = n * 3 := fun s =>
    length_flatten_ofFn 3 _ fun l => by simp
  rw [flat_eq e, chunk_ofFn _ _ (fun j => length_flatten_ofFn (n * 3) _ fun k => ln _), zipWith_ofFn,
    flat_eq (convertPhases q r e)]
  congr 1
  congr 1
  funext j
  rw [chunk_ofFn _ _ (fun k => ln _)]
  rw [flatMap_ofFn]
  congr 1
  congr 1
  funext k
  rw [chunk_ofFn _ _ (fun l => l3 _ l), zipWith_ofFn]
  congr 1
  congr 1
  funext l
  rw [List.map_ofFn]
  congr 1
  funext m
  simp only [Function.comp, convertPhases]
  congr 2
  congr 1
  apply Fin.ext
  simp [finProdFinEquiv, Fin.divNat]
  omega

theorem convertArr_ok {n : Nat} (r : Fin n → V3 ℝ) (l : List (QP n)) (sh : List Nat) :
    convertArr (List.ofFn r) (l.map QP.q) ⟨sh, l.flatMap fun p => flat p.eig⟩ =
      .ok (l.flatMap fun p => flat (convertPhases p.q r p.eig)) := by
  have hlen : (l.flatMap fun p => flat p.eig).length = l.length * (n * (3 * (n * 3))) :=
    length_flatMap_eq _ _ _ fun p _ => length_flat p.eig
  unfold convertArr Arr.reshape
  simp only [List.length_map, List.length_ofFn]
  rw [if_pos (by rw [hlen]; simp [List.prod_cons])]
  show Except.ok _ = Except.ok _
  congr 1
  rw [chunk_flatMap _ l _ fun p _ => length_flat p.eig, List.zipWith_map]
  unfold List.flatMap
  congr 1
  rw [List.zipWith_self]
  apply List.map_congr_left
  intro p _
  exact convert_flat p.q r p.eig

/-! ## Extraction -/

theorem yamlEig_ok {n : Nat} (hn : n ≠ 0) (c : Option (Cryst n)) (w : Bool) (l : List (QP n)) (hl : l ≠ []) :
    yamlEig ((yamlOf c w true l).phonon.map YPhonon.band) = .ok ⟨[l.length, n * 3, n, 3, 2],
      (l.flatMap fun p => flat p.eig).flatMap fun z => [z.re, z.im]⟩ := by
  have hfin : ∀ {k : Nat} {α : Type} (f : Fin k → α), k ≠ 0 → List.ofFn f ≠ [] := by
    intro k α f hk h
    have := congrArg List.length h
    simp at this
    exact hk this
  -- one atom
  have h1 : ∀ (p : QP n) s (a : Fin n), npStack ((List.ofFn fun m => [(p.eig s a m).re, (p.eig s a m).im]).map npArray) =
      .ok ⟨[3, 2], (List.ofFn fun m => p.eig s a m).flatMap fun z => [z.re, z.im]⟩ := by
    intro p s a
    rw [npStack_ok _ [2]]
    · simp [npArray, List.flatMap]
    · simp
    · intro b hb
      obtain ⟨x, hx, rfl⟩ := List.mem_map.1 hb
      obtain ⟨m, rfl⟩ := List.mem_ofFn.1 hx
      rfl
  -- one mode
  have h2 : ∀ (p : QP n) s, (do
      let atoms ← (← key (some (List.ofFn fun a => List.ofFn fun m => [(p.eig s a m).re, (p.eig s a m).im]))).mapM
        fun a : List (List ℝ) => npStack (a.map npArray)
      npStack atoms) = (.ok ⟨[n, 3, 2], (List.ofFn fun a => List.ofFn fun m => p.eig s a m).flatten.flatMap
        fun z => [z.re, z.im]⟩ : Except Err (Arr ℝ)) := by
    intro p s
    simp only [key, bind, Except.bind]
    have : (List.ofFn fun a => List.ofFn fun m => [(p.eig s a m).re, (p.eig s a m).im]).mapM
        (fun a : List (List ℝ) => npStack (a.map npArray)) = .ok (List.ofFn fun a : Fin n => (⟨[3, 2],
          (List.ofFn fun m => p.eig s a m).flatMap fun z => [z.re, z.im]⟩ : Arr ℝ)) := by
      rw [List.ofFn_eq_map, List.ofFn_eq_map, List.mapM_map]
      exact mapM_ok_map _ _ _ fun a _ => h1 p s a
    rw [this]
    simp only
    rw [npStack_ok _ [3, 2] (hfin _ hn)]
    · simp [List.flatMap, List.map_ofFn, Function.comp_def, List.map_flatten, List.flatten_flatten]
    · intro b hb
      obtain ⟨m, rfl⟩ := List.mem_ofFn.1 hb
      rfl
  -- one q-point
  have h3 : ∀ p : QP n, (do
      let ms ← (List.ofFn fun s => YBand.mk (p.freq s)
          (some (List.ofFn fun a => List.ofFn fun m => [(p.eig s a m).re, (p.eig s a m).im]))).mapM fun band : YBand => do
        let atoms ← (← key band.eigenvector).mapM fun a : List (List ℝ) => npStack (a.map npArray)
        npStack atoms
      npStack ms) = (.ok ⟨[n * 3, n, 3, 2], (flat p.eig).flatMap fun z => [z.re, z.im]⟩ : Except Err (Arr ℝ)) := by
    intro p
    have : (List.ofFn fun s => YBand.mk (p.freq s)
          (some (List.ofFn fun a => List.ofFn fun m => [(p.eig s a m).re, (p.eig s a m).im]))).mapM (fun band : YBand => do
        let atoms ← (← key band.eigenvector).mapM fun a : List (List ℝ) => npStack (a.map npArray)
        npStack atoms) = .ok (List.ofFn fun s => (⟨[n, 3, 2],
          (List.ofFn fun a => List.ofFn fun m => p.eig s a m).flatten.flatMap fun z : ℂ => [z.re, z.im]⟩ : Arr ℝ)) := by
      rw [List.ofFn_eq_map, List.ofFn_eq_map, List.mapM_map]
      exact mapM_ok_map _ _ _ fun s _ => h2 p s
    rw [this]
    show npStack _ = _
    rw [npStack_ok _ [n, 3, 2] (hfin _ (by omega))]
    · simp only [List.length_ofFn]
      congr 2
      unfold flat
      simp [List.flatMap, List.map_ofFn, Function.comp_def, List.map_flatten, List.flatten_flatten]
    · intro b hb
      obtain ⟨m, rfl⟩ := List.mem_ofFn.1 hb
      rfl
  unfold yamlEig yamlOf
  simp only [List.map_map, if_true, Function.comp_def]
  rw [List.mapM_map, mapM_ok_map _ _ (fun p : QP n => (⟨[n * 3, n, 3, 2],
    (flat p.eig).flatMap fun z => [z.re, z.im]⟩ : Arr ℝ)) (by intro p _; exact h3 p)]
  show npStack _ = _
  rw [npStack_ok _ [n * 3, n, 3, 2] (by simpa using hl)]
  · simp only [List.length_map, List.flatMap_map, List.flatMap_assoc]
  · intro b hb
    obtain ⟨p, -, rfl⟩ := List.mem_map.1 hb
    rfl

theorem yamlEigenvectors_ok {n : Nat} (hn : n ≠ 0) (c : Option (Cryst n)) (w : Bool) (l : List (QP n))
    (hl : l ≠ []) :
    ∃ sh, yamlEigenvectors ((yamlOf c w true l).phonon.map YPhonon.band) =
      .ok ⟨sh, l.flatMap fun p => flat p.eig⟩ := by
  unfold yamlEigenvectors
  rw [yamlEig_ok hn c w l hl]
  refine ⟨(([l.length, n * 3, n, 3] ++ [1]).filter (· ≠ 1)), ?_⟩
  simp only [bind, Except.bind, Arr.viewComplex, List.getLast?_cons_cons, List.getLast?_singleton, pairUp_flatMap]
  rfl

theorem yamlEig_none {n : Nat} (hn : n ≠ 0) (c : Option (Cryst n)) (w : Bool) (l : List (QP n)) (hl : l ≠ []) :
    yamlEigenvectors ((yamlOf c w false l).phonon.map YPhonon.band) = .error .keyError := by
  cases l with
  | nil => exact absurd rfl hl
  | cons p l =>
    obtain ⟨k, rfl⟩ : ∃ k, n = k + 1 := ⟨n - 1, by omega⟩
    unfold yamlEigenvectors yamlEig yamlOf
    simp only [List.map_cons, List.mapM_cons]
    have : ∀ (f : Fin ((k + 1) * 3) → YBand) (g : YBand → Except Err (Arr ℝ)) (e : Err) (hg : ∀ s, g (f s) = .error e),
        (List.ofFn f).mapM g = .error e := by
      intro f g e hg
      have hk : (k + 1) * 3 = (k * 3 + 2) + 1 := by ring
      cases hf : List.ofFn f with
      | nil =>
        have := congrArg List.length hf
        simp at this
      | cons b r =>
        rw [List.mapM_cons]
        obtain ⟨s, rfl⟩ := List.mem_ofFn.1 (show b ∈ List.ofFn f by rw [hf]; simp)
        rw [hg s]
        rfl
    simp only [Bool.false_eq_true, if_false]
    rw [this _ _ .keyError]
    · rfl
    · intro s
      rfl

theorem convertPhases_eq {n : Nat} (r : Fin n → V3 ℝ) (p : QP n) : convertPhases p.q r p.eig = cellPhases r p := by
  funext s l m
  unfold convertPhases cellPhases conversion qDotDiff qDot
  rw [← Complex.exp_neg, ← Complex.exp_add]
  congr 2
  push_cast
  ring

theorem stack_coords {n : Nat} (hn : n ≠ 0) (f : Fin n → V3 ℝ) :
    npStack ((List.ofFn fun i => coords (f i)).map npArray) =
      .ok ⟨[n, 3], (List.ofFn fun i => coords (f i)).flatten⟩ := by
  rw [npStack_ok _ [3]]
  · simp [npArray, List.flatMap, List.map_ofFn, Function.comp_def]
  · intro h
    have := congrArg List.length h
    simp at this
    exact hn this
  · intro b hb
    obtain ⟨x, hx, rfl⟩ := List.mem_map.1 hb
    obtain ⟨m, rfl⟩ := List.mem_ofFn.1 hx
    rfl

/-- A dictionary with the data of the q-points. -/
structure Holds {n : Nat} (d : PhononDict) (weights readEig : Bool) (l : List (QP n)) : Prop where
  qpts : d.qpts = ⟨[l.length, 3], l.flatMap fun p => coords p.q⟩
  frequencies : d.frequencies = ⟨[l.length, n * 3], l.flatMap fun p => List.ofFn p.freq⟩
  eigenvectors : readEig = true → ∃ sh, d.eigenvectors = some ⟨sh, l.flatMap fun p => flat p.eig⟩
  weights : d.weights = if weights then some (l.map QP.weight) else none

theorem read_of {n : Nat} (len mass : String → ℝ) (freq : ℝ) (f : PhononFile) (summary : Except Err SummaryCrystal)
    (readEig weights : Bool) (l : List (QP n)) (c : Cryst n) (ul um : String) (d : PhononDict)
    (hx : f.extract readEig = .ok d) (hd : Holds d weights readEig l)
    (hc : chooseCrystal d summary = .ok (summaryOf c ul um)) :
    readPhononData len mass freq f summary readEig = .ok (expected (len ul) (mass um) freq c weights readEig l) := by
  have he : outEigenvectors readEig d (summaryOf c ul um).atomR =
      .ok (if readEig then some (l.flatMap fun p => flat (cellPhases c.r p)) else none) := by
    unfold outEigenvectors
    cases hre : readEig with
    | false => rfl
    | true =>
      obtain ⟨sh, h⟩ := hd.eigenvectors hre
      rw [if_pos rfl, h, hd.qpts]
      simp only [summaryOf]
      rw [vecs_ofFn, vecs_flatMap, convertArr_ok]
      simp only [convertPhases_eq]
      rfl
  have hnone : ¬ (readEig = true ∧ d.eigenvectors.isNone = true) := by
    rintro ⟨h1, h2⟩
    obtain ⟨sh, h⟩ := hd.eigenvectors h1
    rw [h] at h2
    exact absurd h2 (by simp)
  unfold readPhononData
  rw [hx]
  simp only [bind, Except.bind, pure, Except.pure]
  rw [if_neg hnone]
  simp only [hc, he]
  rw [hd.qpts, hd.frequencies, hd.weights]
  congr 1
  unfold expected
  simp only [summaryOf, Arr.len, List.headD_cons]
  congr 1
  cases weights with
  | false => rfl
  | true => simp [convertWeights, List.map_map, Function.comp_def]

/-- Without a crystal in the file the summary is used. -/
theorem choose_summary {n : Nat} (d : PhononDict) (weights readEig : Bool) (l : List (QP n)) (hl : l ≠ [])
    (hd : Holds d weights readEig l) (hc : d.cellVectors = none) (s : SummaryCrystal) :
    chooseCrystal d (.ok s) = if s.atomR.len = n then .ok s else .error .valueError := by
  have h0 : d.frequencies.len ≠ 0 := by
    rw [hd.frequencies]
    simpa [Arr.len] using hl
  unfold chooseCrystal
  rw [hc]
  simp only [bind, Except.bind]
  rw [if_neg h0, hd.frequencies]
  simp only [List.getD_cons_succ, List.getD_cons_zero]
  by_cases h : s.atomR.len = n
  · rw [if_neg (by omega), if_pos h]
    rfl
  · rw [if_pos (by omega), if_neg h]

/-! ## What is extracted -/

theorem extractYaml_fields {n : Nat} (hn : n ≠ 0) (c : Option (Cryst n)) (weights eigs readEig : Bool)
    (l : List (QP n)) (hl : l ≠ []) (eo : Option (Arr ℂ))
    (h1 : yamlMaybeEig readEig ((yamlOf c weights eigs l).phonon.map YPhonon.band) = .ok eo) :
    ∃ d, extractYaml (yamlOf c weights eigs l) readEig = .ok d ∧ d.eigenvectors = eo ∧
      d.qpts = ⟨[l.length, 3], l.flatMap fun p => coords p.q⟩ ∧
      d.frequencies = ⟨[l.length, n * 3], l.flatMap fun p => List.ofFn p.freq⟩ ∧
      d.weights = (if weights then some (l.map QP.weight) else none) ∧
      d.cellVectors = c.map (fun c => (summaryOf c "angstrom" "amu").cellVectors) ∧
      d.atomR = c.map (fun c => (summaryOf c "angstrom" "amu").atomR) ∧
      d.atomMass = c.map (fun c => (summaryOf c "angstrom" "amu").atomMass) ∧
      d.atomType = c.map (fun c => (summaryOf c "angstrom" "amu").atomType) := by
  have hq : npStack ((yamlOf c weights eigs l).phonon.map fun p => npArray p.qPosition) =
      .ok ⟨[l.length, 3], l.flatMap fun p => coords p.q⟩ := by
    rw [npStack_ok _ [3]]
    · simp [yamlOf, npArray, List.flatMap_map]
    · simpa [yamlOf] using hl
    · intro b hb
      simp only [yamlOf, List.map_map] at hb
      obtain ⟨x, hx, rfl⟩ := List.mem_map.1 hb
      rfl
  have hw : npStack ((yamlOf c weights eigs l).phonon.map fun p => npArray (p.band.map YBand.frequency)) =
      .ok ⟨[l.length, n * 3], l.flatMap fun p => List.ofFn p.freq⟩ := by
    rw [npStack_ok _ [n * 3]]
    · simp [yamlOf, npArray, List.flatMap_map, List.map_ofFn, Function.comp_def]
    · simpa [yamlOf] using hl
    · intro b hb
      simp only [yamlOf, List.map_map] at hb
      obtain ⟨x, hx, rfl⟩ := List.mem_map.1 hb
      simp [npArray]
  have hwt : tryKey ((yamlOf c weights eigs l).phonon.mapM fun p => key p.weight) =
      .ok (if weights then some (l.map QP.weight) else none) := by
    unfold yamlOf
    simp only
    rw [List.mapM_map]
    cases weights with
    | true =>
      rw [mapM_ok_map _ _ QP.weight (by intro p _; rfl)]
      rfl
    | false =>
      cases l with
      | nil => exact absurd rfl hl
      | cons p l => rfl
  unfold extractYaml
  rw [hq, hw, h1, hwt]
  simp only [bind, Except.bind]
  cases c with
  | none =>
    exact ⟨_, rfl, rfl, rfl, rfl, rfl, rfl, rfl, rfl, rfl⟩
  | some c =>
    have hlat : npStack ((List.ofFn fun i => coords (c.cell i)).map npArray) =
        .ok (summaryOf c "angstrom" "amu").cellVectors := stack_coords (by norm_num) c.cell
    have hr : tryKey (do npStack (← (List.ofFn fun i => (⟨some (coords (c.r i)), some (c.mass i),
        some (c.symbol i)⟩ : YPoint)).mapM fun p => do return npArray (← key p.coordinates))) =
          .ok (some (summaryOf c "angstrom" "amu").atomR) := by
      rw [List.ofFn_eq_map, List.mapM_map, mapM_ok_map _ _ (fun i => npArray (coords (c.r i))) (by intro i _; rfl)]
      have := stack_coords hn c.r
      rw [List.ofFn_eq_map, List.map_map] at this
      simp only [bind, Except.bind]
      simp only [Function.comp_def] at this
      rw [this]
      simp [tryKey, summaryOf, List.ofFn_eq_map]
    have hm : tryKey ((List.ofFn fun i => (⟨some (coords (c.r i)), some (c.mass i),
        some (c.symbol i)⟩ : YPoint)).mapM fun p => key p.mass) = .ok (some (List.ofFn c.mass)) := by
      rw [List.ofFn_eq_map, List.mapM_map, mapM_ok_map _ _ c.mass (by intro i _; rfl), List.ofFn_eq_map]
      rfl
    have ht : tryKey ((List.ofFn fun i => (⟨some (coords (c.r i)), some (c.mass i),
        some (c.symbol i)⟩ : YPoint)).mapM fun p => key p.symbol) = .ok (some (List.ofFn c.symbol)) := by
      rw [List.ofFn_eq_map, List.mapM_map, mapM_ok_map _ _ c.symbol (by intro i _; rfl), List.ofFn_eq_map]
      rfl
    unfold yamlCrystal yamlOf
    simp only [Option.map_some]
    rw [hlat]
    simp only [bind, Except.bind] at hr ⊢
    rw [hr]
    simp only
    rw [hm]
    simp only
    rw [ht]
    exact ⟨_, rfl, rfl, rfl, rfl, rfl, rfl, rfl, rfl, rfl⟩

theorem extractYaml_ok {n : Nat} (hn : n ≠ 0) (c : Option (Cryst n)) (weights eigs readEig : Bool)
    (l : List (QP n)) (hl : l ≠ []) (he : readEig = true → eigs = true) :
    ∃ d, extractYaml (yamlOf c weights eigs l) readEig = .ok d ∧ Holds d weights readEig l ∧
      d.cellVectors = c.map (fun c => (summaryOf c "angstrom" "amu").cellVectors) ∧
      d.atomR = c.map (fun c => (summaryOf c "angstrom" "amu").atomR) ∧
      d.atomMass = c.map (fun c => (summaryOf c "angstrom" "amu").atomMass) ∧
      d.atomType = c.map (fun c => (summaryOf c "angstrom" "amu").atomType) := by
  have hee : ∃ eo, yamlMaybeEig readEig ((yamlOf c weights eigs l).phonon.map YPhonon.band) = .ok eo ∧
      (readEig = true → ∃ sh, eo = some ⟨sh, l.flatMap fun p => flat p.eig⟩) := by
    cases readEig with
    | false => exact ⟨none, rfl, by simp⟩
    | true =>
      rw [he rfl]
      obtain ⟨sh, h⟩ := yamlEigenvectors_ok hn c weights l hl
      exact ⟨some ⟨sh, l.flatMap fun p => flat p.eig⟩, by simp only [yamlMaybeEig, if_true, h, tryKey],
        fun _ => ⟨sh, rfl⟩⟩
  obtain ⟨eo, h1, h2⟩ := hee
  obtain ⟨d, g1, g2, g3, g4, g5, g6, g7, g8, g9⟩ := extractYaml_fields hn c weights eigs readEig l hl eo h1
  exact ⟨d, g1, ⟨g3, g4, by rw [g2]; exact h2, g5⟩, g6, g7, g8, g9⟩

theorem extractMesh_ok {n : Nat} (weights eigs readEig : Bool) (l : List (QP n))
    (he : readEig = true → eigs = true) :
    ∃ d, extractHdf5 (meshOf weights eigs l) readEig = .ok d ∧ Holds d weights readEig l ∧ d.cellVectors = none := by
  refine ⟨_, rfl, ⟨rfl, rfl, ?_, ?_⟩, rfl⟩
  · intro h
    rw [h, he h]
    simp only [if_true, meshOf, flat_rows]
    exact ⟨_, rfl⟩
  · cases weights <;> rfl

theorem transpose_block {n : Nat} (e : Fin (n * 3) → Fin n → Fin 3 → ℂ) :
    (transposeRows (n * 3) (chunk (n * 3) (n * 3)
      (List.ofFn fun k : Fin (n * 3) => List.ofFn fun s => e s k.divNat k.modNat).flatten)).flatten = flat e := by
  rw [chunk_ofFn _ _ (fun k => by simp), transposeRows_ofFn (fun k s => e s k.divNat k.modNat), flat_rows]

theorem band_rows {n : Nat} (hn : n ≠ 0) (k : Nat) (segs : List (List (QP n))) :
    flattenRows (⟨[segs.length, k, 3], segs.flatMap fun l => l.flatMap fun p => coords p.q⟩ : Arr ℝ) =
      .ok ⟨[segs.flatten.length, 3], segs.flatten.flatMap fun p => coords p.q⟩ ∧
    flattenRows (⟨[segs.length, k, n * 3], segs.flatMap fun l => l.flatMap fun p => List.ofFn p.freq⟩ : Arr ℝ) =
      .ok ⟨[segs.flatten.length, n * 3], segs.flatten.flatMap fun p => List.ofFn p.freq⟩ := by
  have hfl : ∀ {α : Type} (g : QP n → List α), (segs.flatMap fun l => l.flatMap g) = segs.flatten.flatMap g := by
    intro α g
    simp [List.flatMap, List.map_flatten, List.flatten_flatten, List.map_map, Function.comp_def]
  have hre : ∀ {α : Type} (g : QP n → List α) (t : List Nat) (sh : List Nat), t.prod ≠ 0 →
      (∀ p, (g p).length = t.prod) →
      (⟨sh, segs.flatten.flatMap g⟩ : Arr α).reshapeTail t = .ok ⟨segs.flatten.length :: t, segs.flatten.flatMap g⟩ := by
    intro α g t sh ht hg
    have hl := length_flatMap_eq t.prod segs.flatten g fun p _ => hg p
    unfold Arr.reshapeTail
    simp only
    rw [if_neg ht, hl, if_pos (Nat.mul_mod_left _ _), Nat.mul_div_cancel _ (Nat.pos_of_ne_zero ht)]
  have hq : flattenRows (⟨[segs.length, k, 3], segs.flatMap fun l => l.flatMap fun p => coords p.q⟩ : Arr ℝ) =
      .ok ⟨[segs.flatten.length, 3], segs.flatten.flatMap fun p => coords p.q⟩ := by
    rw [hfl]
    exact hre _ [3] _ (by simp) fun p => rfl
  have hw : flattenRows (⟨[segs.length, k, n * 3], segs.flatMap fun l => l.flatMap fun p => List.ofFn p.freq⟩ : Arr ℝ) =
      .ok ⟨[segs.flatten.length, n * 3], segs.flatten.flatMap fun p => List.ofFn p.freq⟩ := by
    rw [hfl]
    exact hre _ [n * 3] _ (by simpa using hn) fun p => by simp
  exact ⟨hq, hw⟩

theorem extractBand_none {n : Nat} (hn : n ≠ 0) (readEig : Bool) (k : Nat) (segs : List (List (QP n))) :
    ∃ d, extractHdf5 (bandOf false k segs) readEig = .ok d ∧ d.eigenvectors = none := by
  obtain ⟨hq, hw⟩ := band_rows hn k segs
  refine ⟨⟨⟨[segs.flatten.length, 3], segs.flatten.flatMap fun p => coords p.q⟩,
    ⟨[segs.flatten.length, n * 3], segs.flatten.flatMap fun p => List.ofFn p.freq⟩, none, none, none, none, none,
    none⟩, ?_, rfl⟩
  unfold extractHdf5 bandOf
  simp only [key, bind, Except.bind, hq, hw]
  rfl

theorem extractBand_ok {n : Nat} (hn : n ≠ 0) (eigs readEig : Bool) (k : Nat) (segs : List (List (QP n)))
    (he : readEig = true → eigs = true) :
    ∃ d, extractHdf5 (bandOf eigs k segs) readEig = .ok d ∧ Holds d false readEig segs.flatten ∧
      d.cellVectors = none := by
  have hfl : ∀ {α : Type} (g : QP n → List α), (segs.flatMap fun l => l.flatMap g) = segs.flatten.flatMap g := by
    intro α g
    simp [List.flatMap, List.map_flatten, List.flatten_flatten, List.map_map, Function.comp_def]
  have hre : ∀ {α : Type} (g : QP n → List α) (t : List Nat) (sh : List Nat), t.prod ≠ 0 →
      (∀ p, (g p).length = t.prod) →
      (⟨sh, segs.flatten.flatMap g⟩ : Arr α).reshapeTail t = .ok ⟨segs.flatten.length :: t, segs.flatten.flatMap g⟩ := by
    intro α g t sh ht hg
    have hl := length_flatMap_eq t.prod segs.flatten g fun p _ => hg p
    unfold Arr.reshapeTail
    simp only
    rw [if_neg ht, hl, if_pos (Nat.mul_mod_left _ _), Nat.mul_div_cancel _ (Nat.pos_of_ne_zero ht)]
  obtain ⟨hq, hw⟩ := band_rows hn k segs
  have hev : bandEigenvectors (some ⟨[segs.length, k, n * 3, n * 3], segs.flatMap fun l => l.flatMap fun p =>
      (List.ofFn fun k : Fin (n * 3) => List.ofFn fun s => p.eig s k.divNat k.modNat).flatten⟩) =
      .ok ⟨[segs.flatten.length, n * 3, n * 3], segs.flatten.flatMap fun p => flat p.eig⟩ := by
    rw [hfl]
    unfold bandEigenvectors
    simp only [key, bind, Except.bind]
    rw [show List.drop (List.length [segs.length, k, n * 3, n * 3] - 2) [segs.length, k, n * 3, n * 3] =
      [n * 3, n * 3] from rfl]
    have hb : ∀ p : QP n, (List.ofFn fun k : Fin (n * 3) => List.ofFn fun s =>
        p.eig s k.divNat k.modNat).flatten.length = n * 3 * (n * 3) := fun p =>
      length_flatten_ofFn (n * 3) _ fun k => by simp
    rw [hre _ [n * 3, n * 3] _ (by simpa using hn) (fun p => by rw [hb p]; simp)]
    simp only [Arr.transpose021]
    rw [chunk_flatMap _ _ _ fun p _ => hb p, List.flatMap_map]
    simp only [transpose_block]
  have hee : ∃ eo, tryKey (bandEigenvectors (bandOf eigs k segs).eigenvector) = .ok eo ∧
      (readEig = true → ∃ sh, eo = some ⟨sh, segs.flatten.flatMap fun p => flat p.eig⟩) := by
    cases eigs with
    | false =>
      refine ⟨none, rfl, fun h => absurd (he h) (by simp)⟩
    | true =>
      unfold bandOf
      simp only [if_true]
      rw [hev]
      exact ⟨_, rfl, fun _ => ⟨_, rfl⟩⟩
  obtain ⟨eo, h1, h2⟩ := hee
  refine ⟨⟨_, _, eo, none, none, none, none, none⟩, ?_, ⟨rfl, rfl, h2, rfl⟩, rfl⟩
  unfold extractHdf5
  rw [h1]
  unfold bandOf
  simp only [key, bind, Except.bind, hq, hw]
  rfl

/-! ## C105 -/

section C105

variable (len mass : String → ℝ) (freq : ℝ) {n : Nat}

/-- **C105**: a YAML file with a crystal is read to its data in the wanted units, whatever the summary; the
weights are divided by their sum and the eigenvectors are given the phases of cells. -/
theorem C105_yaml (hn : n ≠ 0) (c : Cryst n) (weights eigs readEig : Bool) (l : List (QP n)) (hl : l ≠ [])
    (he : readEig = true → eigs = true) (summary : Except Err SummaryCrystal) :
    readPhononData len mass freq (.yaml (yamlOf (some c) weights eigs l)) summary readEig =
      .ok (expected (len "angstrom") (mass "amu") freq c weights readEig l) := by
  obtain ⟨d, h, hd, h1, h2, h3, h4⟩ := extractYaml_ok hn (some c) weights eigs readEig l hl he
  refine read_of len mass freq _ summary readEig weights l c _ _ d h hd ?_
  unfold chooseCrystal
  rw [h1, h2, h3, h4]
  rfl

/-- **C105**: YAML files without crystal and HDF5 files of both layouts with the same q-points are read to the
same data, with the crystal and the units of the summary. -/
theorem C105_formats (hn : n ≠ 0) (c : Cryst n) (ul um : String) (weights eigs readEig : Bool) (l : List (QP n))
    (hl : l ≠ []) (he : readEig = true → eigs = true) (k : Nat) (segs : List (List (QP n)))
    (hs : segs.flatten = l) :
    readPhononData len mass freq (.yaml (yamlOf (n := n) none weights eigs l)) (.ok (summaryOf c ul um)) readEig =
      .ok (expected (len ul) (mass um) freq c weights readEig l) ∧
    readPhononData len mass freq (.hdf5 (meshOf weights eigs l)) (.ok (summaryOf c ul um)) readEig =
      .ok (expected (len ul) (mass um) freq c weights readEig l) ∧
    readPhononData len mass freq (.hdf5 (bandOf eigs k segs)) (.ok (summaryOf c ul um)) readEig =
      .ok (expected (len ul) (mass um) freq c false readEig l) := by
  have hlen : (summaryOf c ul um).atomR.len = n := rfl
  obtain ⟨d, h, hd, h1, -⟩ := extractYaml_ok hn none weights eigs readEig l hl he
  obtain ⟨d', h', hd', h1'⟩ := extractMesh_ok weights eigs readEig l he
  obtain ⟨d'', h'', hd'', h1''⟩ := extractBand_ok hn eigs readEig k segs he
  rw [hs] at hd''
  refine ⟨read_of len mass freq _ _ readEig weights l c _ _ d h hd ?_,
    read_of len mass freq _ _ readEig weights l c _ _ d' h' hd' ?_,
    read_of len mass freq _ _ readEig false l c _ _ d'' h'' hd'' ?_⟩
  · rw [choose_summary d weights readEig l hl hd h1, if_pos hlen]
  · rw [choose_summary d' weights readEig l hl hd' h1', if_pos hlen]
  · rw [choose_summary d'' false readEig l hl hd'' h1'', if_pos hlen]

/-- **C105**: eigenvectors that are wanted but not in the file raise `RuntimeError`, before the summary is
opened. -/
theorem C105_eigenvectors_missing (hn : n ≠ 0) (c : Option (Cryst n)) (weights : Bool) (l : List (QP n))
    (hl : l ≠ []) (k : Nat) (segs : List (List (QP n)))
    (summary : Except Err SummaryCrystal) :
    readPhononData len mass freq (.yaml (yamlOf c weights false l)) summary true = .error .runtimeError ∧
    readPhononData len mass freq (.hdf5 (meshOf weights false l)) summary true = .error .runtimeError ∧
    readPhononData len mass freq (.hdf5 (bandOf false k segs)) summary true = .error .runtimeError := by
  have fin : ∀ (f : PhononFile) (d : PhononDict), f.extract true = .ok d → d.eigenvectors = none →
      readPhononData len mass freq f summary true = .error .runtimeError := by
    intro f d h1 h2
    unfold readPhononData
    rw [h1]
    simp only [bind, Except.bind, h2]
    rfl
  refine ⟨?_, fin _ _ rfl rfl, ?_⟩
  · have h0 : yamlMaybeEig true ((yamlOf c weights false l).phonon.map YPhonon.band) = .ok none := by
      simp only [yamlMaybeEig, if_true, yamlEig_none hn c weights l hl, tryKey]
    obtain ⟨d, g1, g2, -⟩ := extractYaml_fields hn c weights false true l hl none h0
    exact fin _ d g1 g2
  · obtain ⟨d, g1, g2⟩ := extractBand_none hn true k segs
    exact fin _ d g1 g2

theorem bind_ok {α β : Type} {x : Except Err α} {f : α → Except Err β} {b : β} (h : x >>= f = .ok b) :
    ∃ a, x = .ok a ∧ f a = .ok b := by
  cases x with
  | error e => cases h
  | ok a => exact ⟨a, rfl, h⟩

/-- **C105**: a YAML file in which atoms have different numbers of coordinates is refused, not read without crystal. -/
theorem C105_ragged (f : YFile) (lat : List (List ℝ)) (pts : List YPoint) (cs : List (List ℝ)) (hlat : f.lattice = some lat)
    (hpts : f.points = some pts) (hcs : pts.map YPoint.coordinates = cs.map some) (a b : List ℝ) (ha : a ∈ cs) (hb : b ∈ cs)
    (hab : a.length ≠ b.length) (summary : Except Err SummaryCrystal) (readEig : Bool) (out : PhononOut) :
    readPhononData len mass freq (.yaml f) summary readEig ≠ .ok out := by
  intro h
  unfold readPhononData at h
  obtain ⟨d, h1, -⟩ := bind_ok h
  change extractYaml f readEig = .ok d at h1
  unfold extractYaml at h1
  obtain ⟨q, -, h1⟩ := bind_ok h1
  obtain ⟨w, -, h1⟩ := bind_ok h1
  obtain ⟨e, -, h1⟩ := bind_ok h1
  obtain ⟨wt, -, h1⟩ := bind_ok h1
  unfold yamlCrystal at h1
  rw [hlat] at h1
  simp only at h1
  obtain ⟨c, -, h1⟩ := bind_ok h1
  rw [hpts] at h1
  simp only at h1
  have hm : (pts.mapM fun p => do return npArray (← key p.coordinates)) = (.ok (cs.map npArray) : Except Err _) := by
    clear hpts h1 ha hb
    induction pts generalizing cs with
    | nil =>
      cases cs with
      | nil => rfl
      | cons c cs => simp at hcs
    | cons p pts ih =>
      cases cs with
      | nil => simp at hcs
      | cons c cs =>
        simp only [List.map_cons, List.cons.injEq] at hcs
        rw [List.mapM_cons, ih cs hcs.2, hcs.1]
        rfl
  have hs : npStack (cs.map npArray) = .error .valueError := by
    cases cs with
    | nil => cases ha
    | cons c cs =>
      unfold npStack
      simp only [List.map_cons]
      rw [if_neg]
      intro hall
      rw [List.all_eq_true] at hall
      have hlen : ∀ x ∈ c :: cs, x.length = c.length := by
        intro x hx
        rcases List.mem_cons.1 hx with rfl | hx
        · rfl
        · have := hall (npArray x) (List.mem_map.2 ⟨x, hx, rfl⟩)
          simpa [npArray] using this
      exact hab ((hlen a ha).trans (hlen b hb).symm)
  rw [hm] at h1
  simp only [bind, Except.bind, hs, tryKey] at h1
  cases h1

/-- One atom with three coordinates and one with two. -/
example (summary : Except Err SummaryCrystal) (out : PhononOut) : readPhononData len mass freq
    (.yaml ⟨[], some [[1, 0, 0], [0, 1, 0], [0, 0, 1]], some [⟨some [0, 0, 0], some 1, some "Si"⟩, ⟨some [0, 0], some 1, some "Si"⟩]⟩)
    summary false ≠ .ok out :=
  C105_ragged len mass freq _ _ _ [[0, 0, 0], [0, 0]] rfl rfl rfl [0, 0, 0] [0, 0] (by simp) (by simp) (by simp) summary false out

/-- **C105**: a summary with another number of atoms is refused. -/
theorem C105_not_commensurate {m : Nat} (hn : n ≠ 0) (hm : m ≠ n) (c : Cryst m) (ul um : String)
    (weights eigs readEig : Bool) (l : List (QP n)) (hl : l ≠ []) (he : readEig = true → eigs = true) (k : Nat)
    (segs : List (List (QP n))) (hs : segs.flatten = l) :
    readPhononData len mass freq (.yaml (yamlOf (n := n) none weights eigs l)) (.ok (summaryOf c ul um)) readEig =
      .error .valueError ∧
    readPhononData len mass freq (.hdf5 (meshOf weights eigs l)) (.ok (summaryOf c ul um)) readEig =
      .error .valueError ∧
    readPhononData len mass freq (.hdf5 (bandOf eigs k segs)) (.ok (summaryOf c ul um)) readEig =
      .error .valueError := by
  have hlen : (summaryOf c ul um).atomR.len = m := rfl
  have fin : ∀ (f : PhononFile) (d : PhononDict) (w : Bool), f.extract readEig = .ok d → Holds d w readEig l →
      d.cellVectors = none →
      readPhononData len mass freq f (.ok (summaryOf c ul um)) readEig = .error .valueError := by
    intro f d w h1 h2 h3
    have hnone : ¬ (readEig = true ∧ d.eigenvectors.isNone = true) := by
      rintro ⟨g1, g2⟩
      obtain ⟨sh, h⟩ := h2.eigenvectors g1
      rw [h] at g2
      exact absurd g2 (by simp)
    unfold readPhononData
    rw [h1]
    simp only [bind, Except.bind, pure, Except.pure]
    rw [if_neg hnone]
    rw [choose_summary d w readEig l hl h2 h3, if_neg (by rw [hlen]; exact hm)]
  obtain ⟨d, h, hd, h1, -⟩ := extractYaml_ok hn none weights eigs readEig l hl he
  obtain ⟨d', h', hd', h1'⟩ := extractMesh_ok weights eigs readEig l he
  obtain ⟨d'', h'', hd'', h1''⟩ := extractBand_ok hn eigs readEig k segs he
  rw [hs] at hd''
  exact ⟨fin _ d _ h hd h1, fin _ d' _ h' hd' h1', fin _ d'' _ h'' hd'' h1''⟩

/-- Two q-points of two atoms for the cases below. -/
noncomputable def twoPoints : List (QP 2) :=
  [⟨⟨0, 0, 0⟩, fun s => s, fun s l m => if s.val = 3 * l.val + m.val then 1 else 0, 1⟩,
   ⟨⟨1 / 2, 0, 0⟩, fun s => 2 * s, fun s l m => if s.val = 3 * l.val + m.val then Complex.I else 0, 3⟩]

/-- Two atoms in a cubic cell. -/
noncomputable def twoAtoms : Cryst 2 where
  cell i := ⟨if i = 0 then 4 else 0, if i = 1 then 4 else 0, if i = 2 then 4 else 0⟩
  r i := if i = 0 then ⟨0, 0, 0⟩ else ⟨1 / 2, 1 / 2, 1 / 2⟩
  mass i := if i = 0 then 23 else 35
  symbol i := if i = 0 then "Na" else "Cl"

/-- A mesh.yaml file with two q-points of weights 1 and 3 and two atoms, units unchanged. -/
example : ∃ o, readPhononData (fun _ => 1) (fun _ => 1) 1 (.yaml (yamlOf (some twoAtoms) true true twoPoints))
    (.error .ioError) true = .ok o ∧ o.nAtoms = 2 ∧ o.nQpts = 2 ∧ o.atomType = ["Na", "Cl"] ∧
      o.weights = some [1 / 4, 3 / 4] := by
  refine ⟨_, C105_yaml _ _ _ (by norm_num) twoAtoms true true true twoPoints (by simp [twoPoints]) (by simp) _, rfl, rfl,
    ?_, ?_⟩
  · simp [expected, twoAtoms]
  · simp [expected, twoPoints]
    norm_num

/-- The band.hdf5 file with two segments of one q-point each holds the same eigenvectors as the YAML file. -/
example : ∃ o o', readPhononData (fun _ => 1) (fun _ => 1) 1 (.yaml (yamlOf (n := 2) none true true twoPoints))
      (.ok (summaryOf twoAtoms "au" "au")) true = .ok o ∧
    readPhononData (fun _ => 1) (fun _ => 1) 1 (.hdf5 (bandOf true 1 (twoPoints.map fun p => [p])))
      (.ok (summaryOf twoAtoms "au" "au")) true = .ok o' ∧ o.eigenvectors = o'.eigenvectors ∧
    o.eigenvectors.isSome = true ∧ o.weights.isSome = true ∧ o'.weights = none := by
  obtain ⟨h1, -, h3⟩ := C105_formats (fun _ => 1) (fun _ => 1) 1 (by norm_num) twoAtoms "au" "au" true true true
    twoPoints (by simp [twoPoints]) (by simp) 1 (twoPoints.map fun p => [p]) (by simp [twoPoints])
  exact ⟨_, _, h1, h3, rfl, rfl, rfl, rfl⟩

/-- Without eigenvectors in the file. -/
example : readPhononData (fun _ => 1) (fun _ => 1) 1 (.yaml (yamlOf (some twoAtoms) true false twoPoints))
    (.error .ioError) true = .error .runtimeError ∧
    ∃ o, readPhononData (fun _ => 1) (fun _ => 1) 1 (.yaml (yamlOf (some twoAtoms) true false twoPoints))
      (.error .ioError) false = .ok o :=
  ⟨(C105_eigenvectors_missing _ _ _ (by norm_num) (some twoAtoms) true twoPoints (by simp [twoPoints]) 0 [] _).1,
    _, C105_yaml _ _ _ (by norm_num) twoAtoms true false false twoPoints (by simp [twoPoints]) (by simp) _⟩

/-- The two q-points beside a summary with one atom. -/
example : readPhononData (fun _ => 1) (fun _ => 1) 1 (.hdf5 (meshOf true true twoPoints))
    (.ok (summaryOf (n := 1) ⟨twoAtoms.cell, fun _ => ⟨0, 0, 0⟩, fun _ => 28, fun _ => "Si"⟩ "au" "au")) true =
      .error .valueError :=
  (C105_not_commensurate _ _ _ (by norm_num) (by norm_num) _ "au" "au" true true true twoPoints
    (by simp [twoPoints]) (by simp) 2 [twoPoints] (by simp)).2.1

end C105

end Euphonic.Phonopy
