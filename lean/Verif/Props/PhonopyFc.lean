import Verif.Model.PhonopyFc
import Verif.Lemmas.ConvertMap
import Verif.Props.Phonopy
import Mathlib.Order.Fin.Basic
import Mathlib.Tactic.FieldSimp

/-! # Property C141: import of force constants from Phonopy -/

set_option autoImplicit false
set_option linter.unusedSectionVars false

namespace Euphonic.PhonopyFc

open Euphonic.Lattice Euphonic.Phonopy

variable {K : Type} [Field K] [LinearOrder K] [IsStrictOrderedRing K] [FloorRing K]

/-! ## Specification -/

/-- A matrix times a number. -/
def times (k : K) (m : M3 K) : M3 K :=
  ⟨⟨k * m.a.x, k * m.a.y, k * m.a.z⟩, ⟨k * m.b.x, k * m.b.y, k * m.b.z⟩, ⟨k * m.c.x, k * m.c.y, k * m.c.z⟩⟩

/-- The vector with coordinates `v` in the supercell, in coordinates of the primitive cell. -/
def inCell (S : M3 ℤ) (v : V3 K) : V3 K :=
  ⟨v.x * S.a.x + v.y * S.b.x + v.z * S.c.x, v.x * S.a.y + v.y * S.b.y + v.z * S.c.y,
    v.x * S.a.z + v.y * S.b.z + v.z * S.c.z⟩

/-- `v` (in coordinates of the primitive cell) is, up to `tol`, a sum of supercell vectors. -/
def NearLattice (S : M3 ℤ) (tol : K) (v : V3 K) : Prop :=
  ∃ m : V3 ℤ, |v.x - (m.x * S.a.x + m.y * S.b.x + m.z * S.c.x)| ≤ tol ∧
    |v.y - (m.x * S.a.y + m.y * S.b.y + m.z * S.c.y)| ≤ tol ∧
    |v.z - (m.x * S.a.z + m.y * S.b.z + m.z * S.c.z)| ≤ tol

/-- Difference of vectors. -/
def minus (v w : V3 K) : V3 K := ⟨v.x - w.x, v.y - w.y, v.z - w.z⟩

/-- No two atoms of the supercell are at the same place. -/
def Apart (d : Doc K) : Prop :=
  ∀ k k' (hk : k < d.supercell.length) (hk' : k' < d.supercell.length), k ≠ k' →
    ¬ NearLattice d.S (2 / 10 ^ 5) (minus (inCell d.S (d.supercell[k]).coord) (inCell d.S (d.supercell[k']).coord))

/-- Number by which masses, lengths and force constants in units `pu` are multiplied to have them in units `pu'`. -/
def massRatio (u : Ureg K) (pu pu' : Option Names) : K := u.mass (unitNames pu).mass / u.mass (unitNames pu').mass
/-- See `massRatio`. -/
def lengthRatio (u : Ureg K) (pu pu' : Option Names) : K :=
  u.length (unitNames pu).length / u.length (unitNames pu').length
/-- See `massRatio`. -/
def fcRatio (u : Ureg K) (pu pu' : Option Names) : K := u.fc (unitNames pu).fc / u.fc (unitNames pu').fc

/-- The factor is in units of force constants times volume. -/
def nacIn (u : Ureg K) (pu pu' : Option Names) (n : Nac K) : Nac K :=
  { n with factor := n.factor.map (· * (lengthRatio u pu pu' ^ 3 * fcRatio u pu pu')) }

/-- The same calculation, written in other units. -/
def inUnits (u : Ureg K) (pu' : Option Names) (d : Doc K) : Doc K :=
  { d with
    lattice := times (lengthRatio u d.units pu') d.lattice
    primitive := d.primitive.map fun p => { p with mass := p.mass * massRatio u d.units pu' }
    supercell := d.supercell.map fun p => { p with mass := p.mass * massRatio u d.units pu' }
    units := pu'
    fc := d.fc.map fun f => f.map fun l => l.map (times (fcRatio u d.units pu'))
    nac := d.nac.map (nacIn u d.units pu')
    old := d.old.map (nacIn u d.units pu') }

/-- The files beside it. -/
def filesIn (u : Ureg K) (pu pu' : Option Names) (fs : Files K) : Files K :=
  { fs with
    readFc := fun f => (fs.readFc f).map fun f => f.map fun l => l.map (times (fcRatio u pu pu'))
    born := fs.born.map fun b => b.map fun b =>
      { b with nac := b.nac.map (· * (lengthRatio u pu pu' ^ 3 * fcRatio u pu pu')) } }

/-! ## Lemmas -/

theorem times_eq (k : K) (m : M3 K) : times k m = scaleM k m := rfl

theorem inCell_eq (S : M3 ℤ) (v : V3 K) : inCell S v = toPrimitive S v := rfl

theorem scaleM_scaleM (a b : K) (m : M3 K) : scaleM a (scaleM b m) = scaleM (a * b) m := by
  simp only [scaleM, smul, mul_assoc]

theorem extractCrystal_map (g : Point K → Point K) (c : M3 K → M3 K) (mm : K → K)
    (h1 : ∀ p, (g p).coord = p.coord) (h2 : ∀ p, (g p).mass = mm p.mass) (h3 : ∀ p, (g p).symbol = p.symbol)
    (h4 : ∀ p, (g p).reducedTo = p.reducedTo) (L : M3 K) (pts : List (Point K)) :
    extractCrystal (c L) (pts.map g) =
      (extractCrystal L pts).map fun p => { p with cell := c p.cell, mass := p.mass.map mm } := by
  have e1 : (pts.map g).map (·.coord) = pts.map (·.coord) := by
    rw [List.map_map]; exact List.map_congr_left fun p _ => h1 p
  have e2 : (pts.map g).map (·.mass) = (pts.map (·.mass)).map mm := by
    rw [List.map_map, List.map_map]; exact List.map_congr_left fun p _ => h2 p
  have e3 : (pts.map g).map (·.symbol) = pts.map (·.symbol) := by
    rw [List.map_map]; exact List.map_congr_left fun p _ => h3 p
  have e4 : ∀ l : List (Point K), (l.map g).mapM (fun p => key p.reducedTo) = l.mapM fun p => key p.reducedTo := by
    intro l
    induction l with
    | nil => rfl
    | cons a l ih => rw [List.map_cons, List.mapM_cons, List.mapM_cons, ih, h4]
  have e5 : reducedList (pts.map g) = reducedList pts := by
    cases pts with
    | nil => rfl
    | cons p pts =>
      have := e4 (p :: pts)
      unfold reducedList
      rw [List.map_cons] at this ⊢
      dsimp only
      rw [this, h4]
  unfold extractCrystal
  rw [e1, e2, e3, e5, List.length_map]
  cases reducedList pts with
  | error e => rfl
  | ok red => rfl

theorem extractCrystal_ok (L : M3 K) (pts : List (Point K)) (c : CrystalData K) (h : extractCrystal L pts = .ok c) :
    c.cell = L ∧ c.r = pts.map (·.coord) ∧ c.mass = pts.map (·.mass) ∧ c.types = pts.map (·.symbol) ∧ pts ≠ [] := by
  unfold extractCrystal at h
  cases pts with
  | nil => cases h
  | cons p pts =>
    cases hr : reducedList (p :: pts) with
    | error e => rw [hr] at h; cases h
    | ok red =>
      rw [hr] at h
      obtain rfl := Except.ok.inj h
      exact ⟨rfl, rfl, rfl, rfl, by simp⟩

/-- The result of `scIn`. -/
theorem scIn_ok {nu ns : Nat} {r sr : List (V3 K)} {maps : List Int × List Nat} {S : M3 ℤ}
    {inp : Supercell.ScIn K (nu + 1) (ns + 1)} (h : scIn nu ns r sr maps S = .ok inp) :
    (r.length = nu + 1 ∧ sr.length = ns + 1 ∧ maps.1.length = nu + 1 ∧ maps.2.length = ns + 1 ∧
      (∀ i ∈ maps.2, i < nu + 1) ∧ ∀ i ∈ maps.1, 0 ≤ i ∧ i < (ns : Int) + 1) ∧
    inp = { atomR := fun i => r.getD i.val ⟨0, 0, 0⟩
            scAtomR := fun k => sr.getD k.val ⟨0, 0, 0⟩
            ucToSc := fun i => Fin.ofNat _ (maps.1.getD i.val 0).toNat
            scToUc := fun k => Fin.ofNat _ (maps.2.getD k.val 0)
            S := S } := by
  unfold scIn at h
  split at h
  · cases h
  · rename_i hc
    push Not at hc
    exact ⟨hc, (Except.ok.inj h).symm⟩

/-- Every atom of the primitive cell has a first copy. -/
theorem firstCopy {nu ns : Nat} {r sr : List (V3 K)} {a : List Int} {S : M3 ℤ}
    {inp : Supercell.ScIn K (nu + 1) (ns + 1)} (h : scIn nu ns r sr (npUnique a, npUniqueInverse a) S = .ok inp)
    (i : Fin (nu + 1)) : ∃ k0, Supercell.IsFirstCopy inp i k0 := by
  obtain ⟨⟨_, _, h3, h4, h5, _⟩, rfl⟩ := scIn_ok h
  dsimp only at h3 h4 h5
  have hlen : a.length = ns + 1 := by
    rw [← h4]; simp [npUniqueInverse]
  have hi : i.val < (npUnique a).length := by rw [h3]; exact i.isLt
  have hmem : (npUnique a)[i.val] ∈ a := (mem_npUnique a _).1 (List.getElem_mem hi)
  obtain ⟨k, hk, hka⟩ := List.getElem_of_mem hmem
  have hnd : (npUnique a).Nodup := (npUnique_sorted a).imp fun h => ne_of_lt h
  have hk' : (npUniqueInverse a).getD k 0 = i.val := by
    have : (npUniqueInverse a).getD k 0 = (npUnique a).idxOf a[k] := by
      simp [npUniqueInverse, List.getD, hk]
    rw [this, hka, hnd.idxOf_getElem]
  let P : Fin (ns + 1) → Prop := fun k => Fin.ofNat (nu + 1) ((npUniqueInverse a).getD k.val 0) = i
  have hex : ∃ k, P k := ⟨⟨k, by omega⟩, by
    show Fin.ofNat (nu + 1) ((npUniqueInverse a).getD k 0) = i
    rw [hk']; exact Fin.ofNat_val_eq_self i⟩
  let wf : WellFounded (α := Fin (ns + 1)) (· < ·) := wellFounded_lt
  refine ⟨wf.min {k | P k} hex, wf.min_mem {k | P k} hex, fun k hk hkp => ?_⟩
  exact wf.not_lt_min {k | P k} hkp hk

theorem near_rint (tol : K) (v : V3 K) (h : Supercell.NearInt tol v) :
    |v.x - (Supercell.rint3 v).x| ≤ tol ∧ |v.y - (Supercell.rint3 v).y| ≤ tol ∧ |v.z - (Supercell.rint3 v).z| ≤ tol := by
  obtain ⟨a, b, c, h1, h2, h3⟩ := h
  exact ⟨(abs_sub_rint_le_abs_sub _ a).trans h1, (abs_sub_rint_le_abs_sub _ b).trans h2,
    (abs_sub_rint_le_abs_sub _ c).trans h3⟩

theorem abs_two {x y tol : K} (hx : |x| ≤ tol) (hy : |y| ≤ tol) : |x - y| ≤ 2 * tol := by
  rw [abs_le] at *
  constructor <;> linarith [hx.1, hx.2, hy.1, hy.2]

theorem distinct_of_apart {nu ns : Nat} {r sr : List (V3 K)} {maps : List Int × List Nat} {S : M3 ℤ}
    {inp : Supercell.ScIn K (nu + 1) (ns + 1)} (h : scIn nu ns r sr maps S = .ok inp)
    (ha : ∀ k k' : Fin (ns + 1), k ≠ k' →
      ¬ NearLattice S (2 / 10 ^ 5) (minus (sr.getD k.val ⟨0, 0, 0⟩) (sr.getD k'.val ⟨0, 0, 0⟩)))
    (o : Fin (ns + 1) → V3 ℤ) (ho : Supercell.cellOriginsPerAtom inp (1 / 10 ^ 5) = .ok o) :
    Supercell.DistinctAtoms inp o := by
  intro k k' hkk hl
  by_contra hne
  obtain ⟨_, rfl⟩ := scIn_ok h
  obtain ⟨_, h2, h3⟩ := Supercell.cellOrigins_ok _ _ o ho
  obtain ⟨m, hm⟩ := hl
  refine ha k k' hne ⟨m, ?_⟩
  rw [h3, h3] at hm
  obtain ⟨a1, a2, a3⟩ := near_rint _ _ (h2 k)
  obtain ⟨b1, b2, b3⟩ := near_rint _ _ (h2 k')
  have hmx := congrArg (fun v : V3 ℤ => (v.x : K)) hm
  have hmy := congrArg (fun v : V3 ℤ => (v.y : K)) hm
  have hmz := congrArg (fun v : V3 ℤ => (v.z : K)) hm
  simp only [Lattice.sub, Supercell.mulMat] at hmx hmy hmz
  push_cast at hmx hmy hmz
  simp only [Supercell.rawOrigin] at a1 a2 a3 b1 b2 b3 hmx hmy hmz
  dsimp only at hkk
  rw [hkk] at a1 a2 a3 hmx hmy hmz
  have e : (2 / 10 ^ 5 : K) = 2 * (1 / 10 ^ 5) := by ring
  rw [e]
  refine ⟨?_, ?_, ?_⟩
  · convert abs_two a1 b1 using 2
    simp only [minus]; linarith
  · convert abs_two a2 b2 using 2
    simp only [minus]; linarith
  · convert abs_two a3 b3 using 2
    simp only [minus]; linarith

theorem fcRows_map {nu ns : Nat} (inp : Supercell.ScIn K nu ns) (g : M3 K → M3 K) (hg : g zeroBlock = zeroBlock)
    (fc : List (List (M3 K))) :
    fcRows inp (fc.map fun l => l.map g) = (fcRows inp fc).map fun rows i k => g (rows i k) := by
  have e : ∀ (i k : Nat), (((fc.map fun l => l.map g).getD i []).getD k zeroBlock) = g ((fc.getD i []).getD k zeroBlock) := by
    intro i k
    rw [show ([] : List (M3 K)) = [].map g from rfl, List.getD_map]
    conv_lhs => rw [← hg]
    rw [List.getD_map]
    rfl
  have e1 : (∃ l ∈ fc.map fun l => l.map g, l.length ≠ ns) ↔ ∃ l ∈ fc, l.length ≠ ns := by simp
  unfold fcRows
  simp only [e1, List.length_map, e]
  split
  · rfl
  · split
    · rfl
    · rfl

theorem scale_zero (k : K) : scaleM k (zeroBlock : M3 K) = zeroBlock := by
  simp [scaleM, zeroBlock, smul]

/-- The factors of the units and of the values cancel. -/
theorem assemble_scale (u : Ureg K) (o : OutUnits K) {fmax thr : K} (pu pu' : Option Names) (nu ns : Nat)
    (p s s' : CrystalData K) (S : M3 ℤ) (fc : List (List (M3 K))) (b : Option (List (M3 K))) (e : Option (M3 K)) (f : Option K)
    (hn : Supercell.Numeric S fmax thr 100) (hs : s'.r = s.r) (hs' : s'.idx = s.idx)
    (ha : ∀ k k' : Fin (ns + 1), k ≠ k' → ¬ NearLattice S (2 / 10 ^ 5)
      (minus ((s.r.map (toPrimitive S)).getD k.val ⟨0, 0, 0⟩) ((s.r.map (toPrimitive S)).getD k'.val ⟨0, 0, 0⟩)))
    (hl : u.length (unitNames pu').length ≠ 0) (hm : u.mass (unitNames pu').mass ≠ 0)
    (hf : u.fc (unitNames pu').fc ≠ 0) (hl' : u.length (unitNames pu).length ≠ 0) (hf' : u.fc (unitNames pu).fc ≠ 0) :
    assemble u o fmax thr (unitNames pu') nu ns
        { p with cell := times (lengthRatio u pu pu') p.cell, mass := p.mass.map (· * massRatio u pu pu') } s' S
        (fc.map fun l => l.map (times (fcRatio u pu pu'))) b e
        (f.map (· * (lengthRatio u pu pu' ^ 3 * fcRatio u pu pu'))) =
      assemble u o fmax thr (unitNames pu) nu ns p s S fc b e f := by
  unfold assemble
  rw [hs, hs']
  dsimp only
  cases hi : scIn nu ns p.r (s.r.map (toPrimitive S)) (npUnique (s.idx.map (· - 1)), npUniqueInverse (s.idx.map (· - 1))) S with
  | error e => rfl
  | ok inp =>
    simp only [bind, Except.bind]
    have hrows := fcRows_map inp (times (fcRatio u pu pu')) (scale_zero _) fc
    rw [hrows]
    cases fcRows inp fc with
    | error e => rfl
    | ok rows =>
      simp only [Except.map]
      have hS : inp.S = S := by rw [(scIn_ok hi).2]
      have hdist := distinct_of_apart hi ha
      have hfirst := firstCopy hi
      have c1 := Supercell.convert_map (times (fcRatio u pu pu')) zeroBlock unsetBlock fmax thr (1 / 10 ^ 5) 100 inp rows
      have c2 := Supercell.convert_fill zeroBlock unsetBlock (times (fcRatio u pu pu') zeroBlock)
        (times (fcRatio u pu pu') unsetBlock) (1 / 10 ^ 5) inp (hS ▸ hn) (fun i k => times (fcRatio u pu pu') (rows i k))
        hdist hfirst
      rw [c2, c1]
      cases Supercell.convertFcPhases zeroBlock unsetBlock fmax thr (1 / 10 ^ 5) 100 inp rows with
      | error e => rfl
      | ok out =>
        simp only [Except.map, Supercell.ScOut.mapBlocks, times_eq, scaleM_scaleM, List.map_map]
        have q1 : u.length (unitNames pu').length / o.length * lengthRatio u pu pu' =
            u.length (unitNames pu).length / o.length := by
          unfold lengthRatio; field_simp
        have q2 : u.fc (unitNames pu').fc / o.fc * fcRatio u pu pu' = u.fc (unitNames pu).fc / o.fc := by
          unfold fcRatio; field_simp
        have q3 : ((fun x => x * (u.mass (unitNames pu').mass / o.mass)) ∘ fun x => x * massRatio u pu pu') =
            fun x => x * (u.mass (unitNames pu).mass / o.mass) := by
          funext x
          simp only [Function.comp]
          unfold massRatio
          rw [mul_assoc]
          congr 1
          field_simp
        have q4 : outDielectric u o (unitNames pu') b e (f.map (· * (lengthRatio u pu pu' ^ 3 * fcRatio u pu pu'))) =
            outDielectric u o (unitNames pu) b e f := by
          cases b with
          | none => rfl
          | some b =>
            cases e with
            | none => rfl
            | some e =>
              cases f with
              | none => rfl
              | some f =>
                simp only [outDielectric, Option.map_some]
                congr 2
                unfold lengthRatio fcRatio
                by_cases hf0 : f = 0
                · simp [hf0]
                by_cases ho : o.dielectric = 0
                · simp [ho]
                field_simp
        rw [q1, q2, q3, q4]

theorem chooseFc_map {C B D N C' B' D' N' : Type} (g : C → C') (s : Summary C B D N) (s' : Summary C' B' D' N')
    (hs : s'.fc = s.fc.map g) (format : Option (List Char)) (name : List Char) (read : Format → Except Err C) :
    chooseFc s' format name (fun f => (read f).map g) = (chooseFc s format name read).map g := by
  unfold chooseFc
  rw [hs]
  cases s.fc with
  | some c => rfl
  | none =>
    dsimp only [Option.map]
    cases fcFormat format name with
    | error e => rfl
    | ok f => rfl

theorem chooseDipole_map {C B D N C' : Type} (g : N → N) (s : Summary C B D N) (s' : Summary C' B D N)
    (hb : s'.born = s.born) (he : s'.dielectric = s.dielectric) (hf : s'.nac = s.nac.map g)
    (file : Option (Except Err (BornFile B D N))) :
    chooseDipole s' (file.map fun b => b.map fun b => { b with nac := b.nac.map g }) =
      (chooseDipole s file).map fun x => (x.1, x.2.1, x.2.2.map g) := by
  unfold chooseDipole
  rw [hb, he, hf]
  rcases file with _ | file
  · cases s.born <;> cases s.nac <;> rfl
  · simp only [Option.map_some, Option.isSome_map]
    by_cases hc : (s.born.isSome && s.dielectric.isSome && s.nac.isSome) = true
    · simp only [if_pos hc]
      cases s.born <;> cases s.nac <;> rfl
    · simp only [if_neg hc]
      cases file with
      | error e => rfl
      | ok f =>
        rcases f with ⟨fb, fd, fn⟩
        cases fn <;> cases s.nac <;> rfl

/-! ## C141: units -/

/-- **C141**: the result does not depend on the units in which the calculation is written down. -/
theorem C141_units (u : Ureg K) (o : OutUnits K) {fmax thr : K} (pu' : Option Names) (d : Doc K) (fs : Files K)
    (hn : Supercell.Numeric d.S fmax thr 100) (ha : Apart d)
    (hl : u.length (unitNames pu').length ≠ 0) (hm : u.mass (unitNames pu').mass ≠ 0)
    (hf : u.fc (unitNames pu').fc ≠ 0) (hl' : u.length (unitNames d.units).length ≠ 0)
    (hf' : u.fc (unitNames d.units).fc ≠ 0) :
    readInterpolation u o fmax thr (inUnits u pu' d) (filesIn u d.units pu' fs) = readInterpolation u o fmax thr d fs := by
  have e1 := extractCrystal_map (fun p : Point K => { p with mass := p.mass * massRatio u d.units pu' })
    (times (lengthRatio u d.units pu')) (· * massRatio u d.units pu') (fun _ => rfl) (fun _ => rfl) (fun _ => rfl)
    (fun _ => rfl) d.lattice
  unfold readInterpolation
  have e2 : summaryNac (inUnits u pu' d) = (summaryNac d).map (nacIn u d.units pu') := by
    unfold summaryNac inUnits
    cases d.nac with
    | some n => rfl
    | none =>
      cases d.old with
      | some n => rfl
      | none => rfl
  rw [e2]
  have e3 := e1 d.primitive
  have e4 := e1 d.supercell
  have e3' : extractCrystal (inUnits u pu' d).lattice (inUnits u pu' d).primitive = _ := e3
  have e4' : extractCrystal (inUnits u pu' d).lattice (inUnits u pu' d).supercell = _ := e4
  rw [e3', e4']
  cases extractCrystal d.lattice d.primitive with
  | error e => rfl
  | ok p =>
    cases hs : extractCrystal d.lattice d.supercell with
    | error e => rfl
    | ok s =>
      cases summaryNac d with
      | error e => rfl
      | ok n =>
        simp only [bind, Except.bind, Except.map]
        have e5 := chooseFc_map (B := List (M3 K)) (D := M3 K) (N := K) (B' := List (M3 K)) (D' := M3 K) (N' := K)
          (fun f => f.map fun l => l.map (times (fcRatio u d.units pu')))
          ⟨d.fc, n.born, n.dielectric, n.factor⟩
          ⟨(inUnits u pu' d).fc, (nacIn u d.units pu' n).born, (nacIn u d.units pu' n).dielectric,
            (nacIn u d.units pu' n).factor⟩ rfl fs.fcFormat fs.fcName fs.readFc
        have e5' : chooseFc _ (filesIn u d.units pu' fs).fcFormat (filesIn u d.units pu' fs).fcName
          (filesIn u d.units pu' fs).readFc = _ := e5
        rw [e5']
        cases chooseFc (⟨d.fc, n.born, n.dielectric, n.factor⟩ : Summary (List (List (M3 K))) (List (M3 K)) (M3 K) K)
            fs.fcFormat fs.fcName fs.readFc with
        | error e => rfl
        | ok fc =>
          simp only [Except.map]
          have e6 := chooseDipole_map (C := List (List (M3 K))) (C' := List (List (M3 K)))
            (· * (lengthRatio u d.units pu' ^ 3 * fcRatio u d.units pu'))
            ⟨d.fc, n.born, n.dielectric, n.factor⟩
            ⟨(inUnits u pu' d).fc, (nacIn u d.units pu' n).born, (nacIn u d.units pu' n).dielectric,
              (nacIn u d.units pu' n).factor⟩ rfl rfl rfl fs.born
          have e6' : chooseDipole _ (filesIn u d.units pu' fs).born = _ := e6
          rw [e6']
          cases chooseDipole (⟨d.fc, n.born, n.dielectric, n.factor⟩ : Summary (List (List (M3 K))) (List (M3 K)) (M3 K) K)
              fs.born with
          | error e => rfl
          | ok x =>
            simp only [Except.map]
            refine assemble_scale u o d.units pu' _ _ p s _ d.S fc x.1 x.2.1 x.2.2 hn rfl rfl ?_ hl hm hf hl' hf'
            intro k k' hkk hnl
            obtain ⟨_, hr, _, _, hne⟩ := extractCrystal_ok _ _ _ hs
            have hlen : s.r.length = d.supercell.length := by rw [hr, List.length_map]
            have hpos : 0 < d.supercell.length := List.length_pos_iff.2 hne
            have hk : k.val < d.supercell.length := by have := k.isLt; omega
            have hk' : k'.val < d.supercell.length := by have := k'.isLt; omega
            refine ha k.val k'.val hk hk' (fun h => hkk (Fin.ext h)) ?_
            have g : ∀ j (hj : j < d.supercell.length), (s.r.map (toPrimitive d.S)).getD j ⟨0, 0, 0⟩ =
                inCell d.S (d.supercell[j]).coord := by
              intro j hj
              rw [hr, List.map_map, List.getD_eq_getElem _ _ (by simpa using hj)]
              simp [inCell_eq]
            rw [g _ hk, g _ hk'] at hnl
            exact hnl

/-! ## C141: positions -/

/-- How Phonopy writes a supercell of `ns + 1` atoms: atom `j` of the primitive cell is represented by supercell atom
`rep j`, the representatives are in the order of the primitive cell, supercell atom `k` is a copy of atom `kind k` and
carries the number of its representative (counted from 1), which is the first copy. -/
structure Layout (d : Doc K) {nu ns : Nat} (rep : Fin (nu + 1) → Fin (ns + 1)) (kind : Fin (ns + 1) → Fin (nu + 1)) : Prop where
  primitive : d.primitive.length = nu + 1
  supercell : d.supercell.length = ns + 1
  increasing : StrictMono rep
  kind_rep : ∀ j, kind (rep j) = j
  first : ∀ k, rep (kind k) ≤ k
  reduced : ∀ k : Fin (ns + 1), (d.supercell[k.val]'(by omega)).reducedTo = some (((rep (kind k)).val : Int) + 1)

/-- The force constants `F a b` between atoms `a` and `b` of the supercell, all of them or only the rows of the
representatives. -/
def Written {nu ns : Nat} (rep : Fin (nu + 1) → Fin (ns + 1)) (F : Fin (ns + 1) → Fin (ns + 1) → M3 K)
    (fc : List (List (M3 K))) : Prop :=
  fc = List.ofFn (fun a => List.ofFn fun b => F a b) ∨ fc = List.ofFn fun i => List.ofFn fun b => F (rep i) b

/-- Coordinates of the atoms of the primitive cell in the file. -/
def coordOf (d : Doc K) (j : Nat) : V3 K := (d.primitive.map (·.coord)).getD j ⟨0, 0, 0⟩

/-- Vector, in the supercell of the file, from atom `a` to atom `b`, in coordinates of the primitive cell. -/
def trueVector (d : Doc K) (a b : Nat) : V3 K :=
  minus (inCell d.S ((d.supercell.map (·.coord)).getD b ⟨0, 0, 0⟩)) (inCell d.S ((d.supercell.map (·.coord)).getD a ⟨0, 0, 0⟩))

/-- Vector from atom `i` to atom `j` in cell `c`, according to coordinates `r`. -/
def pairVector (r : Nat → V3 K) (c : V3 ℤ) (i j : Nat) : V3 K :=
  ⟨(r j).x + c.x - (r i).x, (r j).y + c.y - (r i).y, (r j).z + c.z - (r i).z⟩

theorem getD_ofFn {α : Type} {n : Nat} (f : Fin n → α) (i : Fin n) (x : α) : (List.ofFn f).getD i.val x = f i := by
  rw [List.getD_eq_getElem _ _ (by rw [List.length_ofFn]; exact i.isLt), List.getElem_ofFn]

theorem mapM_key (l : List (Point K)) (f : Point K → Int) (h : ∀ p ∈ l, p.reducedTo = some (f p)) :
    l.mapM (fun p => key p.reducedTo) = .ok (l.map f) := by
  induction l with
  | nil => rfl
  | cons a l ih =>
    rw [List.mapM_cons, h a (by simp), ih fun p hp => h p (List.mem_cons_of_mem _ hp)]
    rfl

theorem Layout.idx {d : Doc K} {nu ns : Nat} {rep : Fin (nu + 1) → Fin (ns + 1)} {kind : Fin (ns + 1) → Fin (nu + 1)}
    (L : Layout d rep kind) {s : CrystalData K} (h : extractCrystal d.lattice d.supercell = .ok s) :
    s.idx.map (· - 1) = List.ofFn fun k => ((rep (kind k)).val : Int) := by
  have hsc := L.supercell
  have hred := L.reduced
  have e : d.supercell.mapM (fun p => key p.reducedTo) = .ok (d.supercell.map fun p => p.reducedTo.getD 0) := by
    refine mapM_key _ _ fun p hp => ?_
    obtain ⟨k, hk, rfl⟩ := List.getElem_of_mem hp
    have := hred ⟨k, by omega⟩
    dsimp only at this
    rw [this]
    rfl
  have er : reducedList d.supercell = .ok (some (d.supercell.map fun p => p.reducedTo.getD 0)) := by
    unfold reducedList
    cases hd : d.supercell with
    | nil => rw [hd] at hsc; simp at hsc
    | cons p l =>
      dsimp only
      have h0 := hred 0
      have : (d.supercell[(0 : Fin (ns + 1)).val]'(by omega)) = p := by simp [hd]
      rw [this] at h0
      rw [hd] at e
      rw [if_pos (by rw [h0]; rfl), e]
      rfl
  unfold extractCrystal at h
  rw [er] at h
  obtain rfl := Except.ok.inj h
  dsimp only [idxInCell]
  rw [List.map_map]
  refine List.ext_getElem (by simp [hsc]) fun k hk hk' => ?_
  have := hred ⟨k, by rw [List.length_ofFn] at hk'; exact hk'⟩
  dsimp only at this
  rw [List.getElem_ofFn, List.getElem_map, Function.comp, this]
  simp

theorem npUnique_ofFn {nu ns : Nat} {rep : Fin (nu + 1) → Fin (ns + 1)} {kind : Fin (ns + 1) → Fin (nu + 1)}
    (hr : StrictMono rep) (hk : ∀ j, kind (rep j) = j) :
    npUnique (List.ofFn fun k => ((rep (kind k)).val : Int)) = List.ofFn fun j => ((rep j).val : Int) := by
  have h1 : (List.ofFn fun j => ((rep j).val : Int)).Pairwise (· < ·) := by
    rw [List.pairwise_ofFn]
    intro i j hij
    have := hr hij
    rw [Fin.lt_def] at this
    omega
  refine List.Perm.eq_of_pairwise (le := (· < ·)) (fun a b _ _ h h' => absurd (lt_trans h h') (lt_irrefl _))
    (npUnique_sorted _) h1 ?_
  rw [List.perm_ext_iff_of_nodup ((npUnique_sorted _).imp fun h => ne_of_lt h) (h1.imp fun h => ne_of_lt h)]
  intro x
  rw [mem_npUnique, List.mem_ofFn, List.mem_ofFn]
  constructor
  · rintro ⟨k, rfl⟩; exact ⟨kind k, rfl⟩
  · rintro ⟨j, rfl⟩; exact ⟨rep j, by rw [hk]⟩

theorem npUniqueInverse_ofFn {nu ns : Nat} {rep : Fin (nu + 1) → Fin (ns + 1)} {kind : Fin (ns + 1) → Fin (nu + 1)}
    (hr : StrictMono rep) (hk : ∀ j, kind (rep j) = j) :
    npUniqueInverse (List.ofFn fun k => ((rep (kind k)).val : Int)) = List.ofFn fun k => (kind k).val := by
  unfold npUniqueInverse
  rw [npUnique_ofFn hr hk, List.map_ofFn]
  congr 1
  funext k
  simp only [Function.comp]
  have hnd : (List.ofFn fun j => ((rep j).val : Int)).Nodup := by
    rw [List.nodup_ofFn]
    intro i j h
    exact hr.injective (Fin.ext (by simpa using h))
  have := hnd.idxOf_getElem (kind k).val (by rw [List.length_ofFn]; exact (kind k).isLt)
  rwa [List.getElem_ofFn] at this

/-- What a successful import went through. -/
theorem readInterpolation_ok (u : Ureg K) (o : OutUnits K) {fmax thr : K} (d : Doc K) (fs : Files K) (out : Data K)
    (h : readInterpolation u o fmax thr d fs = .ok out) (fc : List (List (M3 K))) (hfc : d.fc = some fc) :
    ∃ p s n x, extractCrystal d.lattice d.primitive = .ok p ∧ extractCrystal d.lattice d.supercell = .ok s ∧
      summaryNac d = .ok n ∧
      chooseDipole (⟨d.fc, n.born, n.dielectric, n.factor⟩ : Summary (List (List (M3 K))) (List (M3 K)) (M3 K) K) fs.born
        = .ok x ∧
      assemble u o fmax thr (unitNames d.units) (p.r.length - 1) (s.r.length - 1) p s d.S fc x.1 x.2.1 x.2.2 = .ok out := by
  unfold readInterpolation at h
  cases hp : extractCrystal d.lattice d.primitive with
  | error e => rw [hp] at h; cases h
  | ok p =>
    cases hs : extractCrystal d.lattice d.supercell with
    | error e => rw [hp, hs] at h; cases h
    | ok s =>
      cases hn : summaryNac d with
      | error e => rw [hp, hs, hn] at h; cases h
      | ok n =>
        rw [hp, hs, hn] at h
        simp only [bind, Except.bind] at h
        have hc : chooseFc (⟨d.fc, n.born, n.dielectric, n.factor⟩ :
            Summary (List (List (M3 K))) (List (M3 K)) (M3 K) K) fs.fcFormat fs.fcName fs.readFc = .ok fc := by
          unfold chooseFc; rw [hfc]
        rw [hc] at h
        dsimp only at h
        cases hx : chooseDipole (⟨d.fc, n.born, n.dielectric, n.factor⟩ :
            Summary (List (List (M3 K))) (List (M3 K)) (M3 K) K) fs.born with
        | error e => rw [hx] at h; cases h
        | ok x =>
          rw [hx] at h
          exact ⟨p, s, n, x, rfl, rfl, rfl, hx, h⟩

theorem rep_id {n : Nat} (rep : Fin (n + 1) → Fin (n + 1)) (h : StrictMono rep) : rep = id := by
  refine (StrictMono.range_inj h strictMono_id).1 ?_
  rw [(Finite.injective_iff_surjective.1 h.injective).range_eq, Set.range_id]

/-- **C141**: the block between representative `i` and supercell atom `k` is found at a pair of atoms of the right kinds,
converted to the unit asked for, and in a cell such that, with the coordinates written in the file for the primitive cell,
the vector between them is the one between the two atoms of the supercell, modulo the supercell. -/
theorem C141_blocks (u : Ureg K) (o : OutUnits K) {fmax thr : K} (d : Doc K) (fs : Files K) (out : Data K)
    (h : readInterpolation u o fmax thr d fs = .ok out) {nu ns : Nat} {rep : Fin (nu + 1) → Fin (ns + 1)}
    {kind : Fin (ns + 1) → Fin (nu + 1)} (L : Layout d rep kind) (F : Fin (ns + 1) → Fin (ns + 1) → M3 K)
    (fc : List (List (M3 K))) (hfc : d.fc = some fc) (hF : Written rep F fc)
    (hn : Supercell.Numeric d.S fmax thr 100) (ha : Apart d) (i : Fin (nu + 1)) (k : Fin (ns + 1)) :
    out.nu = nu + 1 ∧ ∃ (c : Fin out.nc) (i' j' : Fin out.nu), i'.val = i.val ∧ j'.val = (kind k).val ∧
      out.sc.fc c i' j' = times (u.fc (unitNames d.units).fc / o.fc) (F (rep i) k) ∧
      NearLattice d.S (2 / 10 ^ 5) (minus (pairVector (coordOf d) (out.sc.cells c) i.val (kind k).val)
        (trueVector d (rep i).val k.val)) := by
  obtain ⟨p, s, n, x, hp, hs, _, _, h⟩ := readInterpolation_ok u o d fs out h fc hfc
  obtain ⟨_, hpr, _, _, _⟩ := extractCrystal_ok _ _ _ hp
  obtain ⟨_, hsr, _, _, _⟩ := extractCrystal_ok _ _ _ hs
  have hnu : p.r.length - 1 = nu := by rw [hpr, List.length_map, L.primitive]; rfl
  have hns : s.r.length - 1 = ns := by rw [hsr, List.length_map, L.supercell]; rfl
  rw [hnu, hns] at h
  unfold assemble at h
  dsimp only at h
  cases hi : scIn nu ns p.r (s.r.map (toPrimitive d.S))
      (npUnique (s.idx.map (· - 1)), npUniqueInverse (s.idx.map (· - 1))) d.S with
  | error e => rw [hi] at h; cases h
  | ok inp =>
    rw [hi] at h
    simp only [bind, Except.bind] at h
    cases hr : fcRows inp fc with
    | error e => rw [hr] at h; cases h
    | ok rows =>
      rw [hr] at h
      dsimp only at h
      cases hc : Supercell.convertFcPhases zeroBlock unsetBlock fmax thr (1 / 10 ^ 5) 100 inp rows with
      | error e => rw [hc] at h; cases h
      | ok sc =>
        rw [hc] at h
        obtain rfl := Except.ok.inj h
        refine ⟨rfl, ?_⟩
        dsimp only
        have hdist := distinct_of_apart hi (by
          intro k k' hkk hnl
          have hk : k.val < d.supercell.length := by have := L.supercell; have := k.isLt; omega
          have hk' : k'.val < d.supercell.length := by have := L.supercell; have := k'.isLt; omega
          refine ha k.val k'.val hk hk' (fun h => hkk (Fin.ext h)) ?_
          have g : ∀ j (hj : j < d.supercell.length), (s.r.map (toPrimitive d.S)).getD j ⟨0, 0, 0⟩ =
              inCell d.S (d.supercell[j]).coord := by
            intro j hj
            rw [hsr, List.map_map, List.getD_eq_getElem _ _ (by simpa using hj)]
            simp [inCell_eq]
          rw [g _ hk, g _ hk'] at hnl
          exact hnl)
        obtain ⟨_, hinp⟩ := scIn_ok hi
        have hidx := L.idx hs
        rw [hidx, npUnique_ofFn L.increasing L.kind_rep, npUniqueInverse_ofFn L.increasing L.kind_rep] at hinp
        have hkind : ∀ k, inp.scToUc k = kind k := by
          intro k
          rw [hinp]
          have : (List.ofFn fun k => (kind k).val).getD k.val 0 = (kind k).val := getD_ofFn _ k 0
          dsimp only
          rw [this]
          exact Fin.ofNat_val_eq_self _
        have hrep : ∀ i, inp.ucToSc i = rep i := by
          intro i
          rw [hinp]
          have : (List.ofFn fun j => ((rep j).val : Int)).getD i.val 0 = ((rep i).val : Int) := getD_ofFn _ i 0
          dsimp only
          rw [this, Int.toNat_natCast]
          exact Fin.ofNat_val_eq_self _
        have hS : inp.S = d.S := by rw [hinp]
        have hfirst : Supercell.IsFirstCopy inp i (rep i) := by
          refine ⟨by rw [hkind, L.kind_rep], fun k hk hkk => ?_⟩
          rw [hkind] at hkk
          have := L.first k
          rw [hkk] at this
          exact absurd hk (not_lt.2 this)
        have hrows : rows i k = F (rep i) k := by
          unfold fcRows at hr
          split at hr
          · cases hr
          · rcases hF with rfl | rfl
            · rw [if_pos (by rw [List.length_ofFn])] at hr
              obtain rfl := Except.ok.inj hr
              unfold Supercell.fullRows
              rw [hrep]
              dsimp only
              rw [getD_ofFn, getD_ofFn]
            · by_cases he : nu + 1 = ns + 1
              · rw [if_pos (by rw [List.length_ofFn]; exact he)] at hr
                obtain rfl := Except.ok.inj hr
                obtain rfl : nu = ns := by omega
                unfold Supercell.fullRows
                rw [hrep]
                dsimp only
                rw [getD_ofFn, getD_ofFn, rep_id rep L.increasing]
                rfl
              · rw [if_neg (by rw [List.length_ofFn]; exact he)] at hr
                obtain rfl := Except.ok.inj hr
                dsimp only
                rw [getD_ofFn, getD_ofFn]
        obtain ⟨oo, hoo⟩ : ∃ oo, Supercell.cellOriginsPerAtom inp (1 / 10 ^ 5) = .ok oo := by
          cases ho : Supercell.cellOriginsPerAtom inp (1 / 10 ^ 5) with
          | error e => unfold Supercell.convertFcPhases at hc; rw [ho] at hc; cases hc
          | ok oo => exact ⟨oo, rfl⟩
        obtain ⟨E, hE⟩ := Supercell.C40_blocks_kept _ _ (1 / 10 ^ 5) inp (hS ▸ hn) rows sc hc oo hoo (hdist oo hoo) i (rep i)
          hfirst
        obtain ⟨h1, h2, h3⟩ := hE k
        rw [hkind] at h1
        refine ⟨(E k).1, i, kind k, rfl, rfl, ?_, ?_⟩
        · rw [← h1, h2, hrows]
          rfl
        · obtain ⟨_, g2, g3⟩ := Supercell.cellOrigins_ok _ _ oo hoo
          obtain ⟨m, hm⟩ := h3
          obtain ⟨a1, a2, a3⟩ := near_rint _ _ (g2 k)
          obtain ⟨b1, b2, b3⟩ := near_rint _ _ (g2 (rep i))
          rw [g3, g3, hS] at hm
          have hmx := congrArg (fun v : V3 ℤ => (v.x : K)) hm
          have hmy := congrArg (fun v : V3 ℤ => (v.y : K)) hm
          have hmz := congrArg (fun v : V3 ℤ => (v.z : K)) hm
          simp only [Lattice.sub, Supercell.mulMat] at hmx hmy hmz
          push_cast at hmx hmy hmz
          have r0 : ∀ k, Supercell.rawOrigin inp k =
              minus (inCell d.S ((d.supercell.map (·.coord)).getD k.val ⟨0, 0, 0⟩)) (coordOf d (kind k).val) := by
            intro k
            have hsca : inp.scAtomR k = inCell d.S ((d.supercell.map (·.coord)).getD k.val ⟨0, 0, 0⟩) := by
              have hk : k.val < d.supercell.length := by have := L.supercell; have := k.isLt; omega
              rw [hinp]
              dsimp only
              rw [hsr, List.getD_eq_getElem _ _ (by simpa using hk), List.getD_eq_getElem _ _ (by simpa using hk),
                List.getElem_map]
              rfl
            have hat : inp.atomR (kind k) = coordOf d (kind k).val := by
              rw [hinp]
              dsimp only
              rw [hpr]
              rfl
            unfold Supercell.rawOrigin minus
            rw [hkind, hsca, hat]
          have r1 := r0 k
          have r2 := r0 (rep i)
          rw [L.kind_rep] at r2
          rw [r1] at a1 a2 a3 hmx hmy hmz
          rw [r2] at b1 b2 b3 hmx hmy hmz
          have e : (2 / 10 ^ 5 : K) = 2 * (1 / 10 ^ 5) := by ring
          rw [e]
          refine ⟨⟨-m.x, -m.y, -m.z⟩, ?_, ?_, ?_⟩
          · convert abs_two b1 a1 using 2
            simp only [minus, pairVector, trueVector] at hmx ⊢
            push_cast
            linarith
          · convert abs_two b2 a2 using 2
            simp only [minus, pairVector, trueVector] at hmy ⊢
            push_cast
            linarith
          · convert abs_two b3 a3 using 2
            simp only [minus, pairVector, trueVector] at hmz ⊢
            push_cast
            linarith

/-- Parts of the result that do not concern force constants. -/
theorem assemble_parts (u : Ureg K) (o : OutUnits K) {fmax thr : K} (n : Names) (nu ns : Nat) (p s : CrystalData K)
    (S : M3 ℤ) (fc : List (List (M3 K))) (b : Option (List (M3 K))) (e : Option (M3 K)) (f : Option K) (out : Data K)
    (h : assemble u o fmax thr n nu ns p s S fc b e f = .ok out) :
    out.cell = scaleM (u.length n.length / o.length) p.cell ∧ out.r = p.r.map normalise ∧ out.types = p.types ∧
    out.mass = p.mass.map (· * (u.mass n.mass / o.mass)) ∧ out.S = S ∧
    out.born = b.map (fun b => b.map (scaleM (1 / o.born))) ∧ out.dielectric = outDielectric u o n b e f := by
  unfold assemble at h
  dsimp only at h
  cases hi : scIn nu ns p.r (s.r.map (toPrimitive S))
      (npUnique (s.idx.map (· - 1)), npUniqueInverse (s.idx.map (· - 1))) S with
  | error e => rw [hi] at h; cases h
  | ok inp =>
    rw [hi] at h
    simp only [bind, Except.bind] at h
    cases hr : fcRows inp fc with
    | error e => rw [hr] at h; cases h
    | ok rows =>
      rw [hr] at h
      dsimp only at h
      cases hc : Supercell.convertFcPhases zeroBlock unsetBlock fmax thr (1 / 10 ^ 5) 100 inp rows with
      | error e => rw [hc] at h; cases h
      | ok sc =>
        rw [hc] at h
        obtain rfl := Except.ok.inj h
        exact ⟨rfl, rfl, rfl, rfl, rfl, rfl, rfl⟩

/-- Coordinates of the atoms of the imported crystal. -/
def importedCoord (out : Data K) (j : Nat) : V3 K := out.r.getD j ⟨0, 0, 0⟩

/-- **C141**, the part of the claim on positions that holds: if the coordinates of the atoms of the primitive cell lie in the
same cell (for instance all between 0 and 1), the blocks are at the right vectors according to the imported crystal, too.
Missing: coordinates in different cells, for which it is false (`C141_shifted`). -/
theorem C141_positions_partial (u : Ureg K) (o : OutUnits K) {fmax thr : K} (d : Doc K) (fs : Files K) (out : Data K)
    (h : readInterpolation u o fmax thr d fs = .ok out) {nu ns : Nat} {rep : Fin (nu + 1) → Fin (ns + 1)}
    {kind : Fin (ns + 1) → Fin (nu + 1)} (L : Layout d rep kind) (F : Fin (ns + 1) → Fin (ns + 1) → M3 K)
    (fc : List (List (M3 K))) (hfc : d.fc = some fc) (hF : Written rep F fc)
    (hn : Supercell.Numeric d.S fmax thr 100) (ha : Apart d)
    (m : V3 ℤ) (hm : ∀ p ∈ d.primitive, (m.x ≤ p.coord.x ∧ p.coord.x < m.x + 1) ∧
      (m.y ≤ p.coord.y ∧ p.coord.y < m.y + 1) ∧ (m.z ≤ p.coord.z ∧ p.coord.z < m.z + 1))
    (i : Fin (nu + 1)) (k : Fin (ns + 1)) :
    ∃ (c : Fin out.nc) (i' j' : Fin out.nu), i'.val = i.val ∧ j'.val = (kind k).val ∧
      out.sc.fc c i' j' = times (u.fc (unitNames d.units).fc / o.fc) (F (rep i) k) ∧
      NearLattice d.S (2 / 10 ^ 5) (minus (pairVector (importedCoord out) (out.sc.cells c) i.val (kind k).val)
        (trueVector d (rep i).val k.val)) := by
  obtain ⟨_, c, i', j', h1, h2, h3, h4⟩ := C141_blocks u o d fs out h L F fc hfc hF hn ha i k
  refine ⟨c, i', j', h1, h2, h3, ?_⟩
  obtain ⟨p, s, n, x, hp, hs, _, _, h⟩ := readInterpolation_ok u o d fs out h fc hfc
  obtain ⟨_, hpr, _, _, _⟩ := extractCrystal_ok _ _ _ hp
  have hr : out.r = d.primitive.map fun p => normalise p.coord := by
    rw [(assemble_parts u o _ _ _ p s d.S fc _ _ _ out h).2.1, hpr, List.map_map]
    rfl
  have hval : ∀ j, j < nu + 1 → importedCoord out j =
      ⟨(coordOf d j).x - m.x, (coordOf d j).y - m.y, (coordOf d j).z - m.z⟩ := by
    intro j hj
    have hj' : j < d.primitive.length := by rw [L.primitive]; exact hj
    unfold importedCoord coordOf
    rw [hr, List.getD_eq_getElem _ _ (by simpa using hj'), List.getD_eq_getElem _ _ (by simpa using hj'),
      List.getElem_map, List.getElem_map]
    obtain ⟨h1, h2, h3⟩ := hm _ (List.getElem_mem hj')
    unfold normalise
    rw [Int.floor_eq_iff.2 h1, Int.floor_eq_iff.2 h2, Int.floor_eq_iff.2 h3]
  have e : pairVector (importedCoord out) (out.sc.cells c) i.val (kind k).val =
      pairVector (coordOf d) (out.sc.cells c) i.val (kind k).val := by
    unfold pairVector
    rw [hval _ i.isLt, hval _ (kind k).isLt]
    simp only [V3.mk.injEq]
    refine ⟨?_, ?_, ?_⟩ <;> ring
  rw [e]
  exact h4

/-! ## C141: crystal and charges -/

/-- `a` and `b` differ by an integer. -/
def SameModOne (a b : K) : Prop := ∃ n : ℤ, a = b + n

/-- Between 0 and 1, without 1. -/
def InUnit (v : V3 K) : Prop := (0 ≤ v.x ∧ v.x < 1) ∧ (0 ≤ v.y ∧ v.y < 1) ∧ (0 ≤ v.z ∧ v.z < 1)

/-- **C141**: the crystal is the primitive cell of the file: cell vectors and masses are the same in the units asked for, the
kinds of atoms are those of the file, and every atom is at its place, moved by cell vectors into the cell. -/
theorem C141_crystal (u : Ureg K) (o : OutUnits K) {fmax thr : K} (d : Doc K) (fs : Files K) (out : Data K)
    (h : readInterpolation u o fmax thr d fs = .ok out) (fc : List (List (M3 K))) (hfc : d.fc = some fc) :
    out.cell = times (u.length (unitNames d.units).length / o.length) d.lattice ∧
    out.mass = d.primitive.map (fun p => p.mass * (u.mass (unitNames d.units).mass / o.mass)) ∧
    out.types = d.primitive.map (·.symbol) ∧ out.S = d.S ∧ out.r.length = d.primitive.length ∧
    ∀ j (hj : j < d.primitive.length), InUnit (importedCoord out j) ∧
      SameModOne (d.primitive[j]).coord.x (importedCoord out j).x ∧
      SameModOne (d.primitive[j]).coord.y (importedCoord out j).y ∧
      SameModOne (d.primitive[j]).coord.z (importedCoord out j).z := by
  obtain ⟨p, s, n, x, hp, hs, _, _, h⟩ := readInterpolation_ok u o d fs out h fc hfc
  obtain ⟨h1, h2, h3, h4, _⟩ := extractCrystal_ok _ _ _ hp
  obtain ⟨g1, g2, g3, g4, g5, _, _⟩ := assemble_parts u o _ _ _ p s d.S fc _ _ _ out h
  refine ⟨by rw [g1, h1]; rfl, by rw [g4, h3, List.map_map]; rfl, by rw [g3, h4], g5, by rw [g2, h2]; simp, ?_⟩
  intro j hj
  have e : importedCoord out j = normalise (d.primitive[j]).coord := by
    unfold importedCoord
    rw [g2, h2, List.map_map, List.getD_eq_getElem _ _ (by simpa using hj), List.getElem_map]
    rfl
  rw [e]
  unfold InUnit SameModOne normalise
  have hf : ∀ x : K, 0 ≤ x - ⌊x⌋ ∧ x - ⌊x⌋ < 1 := fun x => ⟨Int.fract_nonneg x, Int.fract_lt_one x⟩
  exact ⟨⟨hf _, hf _, hf _⟩, ⟨_, (sub_add_cancel _ _).symm⟩, ⟨_, (sub_add_cancel _ _).symm⟩, ⟨_, (sub_add_cancel _ _).symm⟩⟩

/-- **C141**: charges and dielectric tensor of the file, in the units asked for.  The number written for the dielectric tensor
is relative; times the factor it is in units of e² / (volume x force constants). -/
theorem C141_dielectric (u : Ureg K) (o : OutUnits K) {fmax thr : K} (d : Doc K) (fs : Files K) (out : Data K)
    (h : readInterpolation u o fmax thr d fs = .ok out) (fc : List (List (M3 K))) (hfc : d.fc = some fc)
    (f : K) (b : List (M3 K)) (e : M3 K) (hnac : d.nac = some ⟨some f, some b, some e⟩)
    (hf : f ≠ 0) (hL : u.length (unitNames d.units).length ≠ 0) (hF : u.fc (unitNames d.units).fc ≠ 0)
    (ho : o.dielectric ≠ 0) :
    out.born = some (b.map (times (1 / o.born))) ∧ ∃ e', out.dielectric = some e' ∧
      times (f * o.dielectric) e' =
        times (1 / (u.length (unitNames d.units).length ^ 3 * u.fc (unitNames d.units).fc)) e := by
  obtain ⟨p, s, n, x, hp, hs, hn, hx, h⟩ := readInterpolation_ok u o d fs out h fc hfc
  obtain ⟨_, _, _, _, _, g6, g7⟩ := assemble_parts u o _ _ _ p s d.S fc _ _ _ out h
  have hn' : n = ⟨some f, some b, some e⟩ := by
    unfold summaryNac at hn
    rw [hnac] at hn
    exact (Except.ok.inj hn).symm
  subst hn'
  have hx' := C63_born_from_summary (⟨d.fc, some b, some e, some f⟩ :
    Summary (List (List (M3 K))) (List (M3 K)) (M3 K) K) b e f rfl rfl rfl fs.born
  dsimp only at hx
  rw [hx'] at hx
  obtain rfl := Except.ok.inj hx
  refine ⟨g6, _, g7, ?_⟩
  rw [times_eq, times_eq, scaleM_scaleM]
  refine congrArg (fun k => scaleM k e) ?_
  field_simp

/-- **C141**: if the factor is the Coulomb constant e²/(4 pi epsilon0) in the units of the file (1 in atomic units) and the
dielectric tensor is asked for in atomic units, it is the relative permittivity written in the file. -/
theorem C141_permittivity (u : Ureg K) (o : OutUnits K) {fmax thr : K} (d : Doc K) (fs : Files K) (out : Data K)
    (h : readInterpolation u o fmax thr d fs = .ok out) (fc : List (List (M3 K))) (hfc : d.fc = some fc)
    (f : K) (b : List (M3 K)) (e : M3 K) (hnac : d.nac = some ⟨some f, some b, some e⟩)
    (hL : u.length (unitNames d.units).length ≠ 0) (hF : u.fc (unitNames d.units).fc ≠ 0)
    (hcoul : f * (u.length (unitNames d.units).length ^ 3 * u.fc (unitNames d.units).fc) = 1) (ho : o.dielectric = 1) :
    out.dielectric = some e := by
  have hf : f ≠ 0 := by
    rintro rfl
    rw [zero_mul] at hcoul
    exact zero_ne_one hcoul
  obtain ⟨_, e', h1, h2⟩ := C141_dielectric u o d fs out h fc hfc f b e hnac hf hL hF (by rw [ho]; exact one_ne_zero)
  rw [h1]
  refine congrArg some ?_
  rw [ho, mul_one] at h2
  have h3 : 1 / (u.length (unitNames d.units).length ^ 3 * u.fc (unitNames d.units).fc) = f :=
    (eq_one_div_of_mul_eq_one_left hcoul).symm
  rw [h3] at h2
  have h4 := congrArg (scaleM f⁻¹) h2
  rw [times_eq, times_eq, scaleM_scaleM, scaleM_scaleM, inv_mul_cancel₀ hf] at h4
  have h5 : ∀ m : M3 K, scaleM 1 m = m := fun m => by simp [scaleM, smul]
  rwa [h5, h5] at h4

/-- Volume of a cell. -/
def volume (c : M3 K) : K :=
  c.a.x * (c.b.y * c.c.z - c.b.z * c.c.y) - c.a.y * (c.b.x * c.c.z - c.b.z * c.c.x)
    + c.a.z * (c.b.x * c.c.y - c.b.y * c.c.x)

/-- **C141**: the term of the correction, charge x charge / (volume x permittivity), has the value that Phonopy gives it: its
factor times the term with the numbers of the file, in the unit of its force constants.  All in atomic units; `comp` is
a component of the tensor, or of its product with directions. -/
theorem C141_nac_term (u : Ureg K) (o : OutUnits K) {fmax thr : K} (d : Doc K) (fs : Files K) (out : Data K)
    (h : readInterpolation u o fmax thr d fs = .ok out) (fc : List (List (M3 K))) (hfc : d.fc = some fc)
    (f : K) (b : List (M3 K)) (e : M3 K) (hnac : d.nac = some ⟨some f, some b, some e⟩)
    (hf : f ≠ 0) (hL : u.length (unitNames d.units).length ≠ 0) (hF : u.fc (unitNames d.units).fc ≠ 0)
    (ho : o.dielectric ≠ 0) (hol : o.length ≠ 0) (hob : o.born ≠ 0)
    (comp : M3 K → K) (hcomp : ∀ k m, comp (times k m) = k * comp m) :
    ∃ b' e', out.born = some b' ∧ out.dielectric = some e' ∧ b'.length = b.length ∧
      ∀ i j (hi : i < b.length) (hj : j < b.length) (hi' : i < b'.length) (hj' : j < b'.length),
        (comp b'[i] * o.born) * (comp b'[j] * o.born) /
            ((volume out.cell * o.length ^ 3) * (comp e' * o.dielectric)) =
          f * (comp b[i] * comp b[j] / (volume d.lattice * comp e)) * u.fc (unitNames d.units).fc := by
  obtain ⟨h1, e', h2, h3⟩ := C141_dielectric u o d fs out h fc hfc f b e hnac hf hL hF ho
  obtain ⟨hc, _⟩ := C141_crystal u o d fs out h fc hfc
  refine ⟨_, e', h1, h2, by simp, fun i j hi hj hi' hj' => ?_⟩
  rw [List.getElem_map, List.getElem_map, hcomp, hcomp, hc]
  have hv : volume (times (u.length (unitNames d.units).length / o.length) d.lattice) * o.length ^ 3 =
      volume d.lattice * u.length (unitNames d.units).length ^ 3 := by
    simp only [volume, times]
    field_simp
  rw [hv]
  have h4 := congrArg comp h3
  rw [hcomp, hcomp] at h4
  have h5 : comp e' * o.dielectric =
      comp e / (f * (u.length (unitNames d.units).length ^ 3 * u.fc (unitNames d.units).fc)) := by
    field_simp
    field_simp at h4
    linear_combination h4
  rw [h5]
  by_cases hv0 : volume d.lattice = 0
  · simp [hv0]
  by_cases he0 : comp e = 0
  · simp [he0]
  field_simp

/-! ## C141: files -/

/-- **C141**: force constants in a separate file count as if they were in `phonopy.yaml`. -/
theorem C141_fc_file (u : Ureg K) (o : OutUnits K) (fmax thr : K) (d : Doc K) (fs : Files K) (fmt : Format)
    (fc : List (List (M3 K))) (h : d.fc = none) (hfmt : fcFormat fs.fcFormat fs.fcName = .ok fmt)
    (hread : fs.readFc fmt = .ok fc) :
    readInterpolation u o fmax thr d fs = readInterpolation u o fmax thr { d with fc := some fc } fs := by
  unfold readInterpolation
  dsimp only
  have hs : summaryNac { d with fc := some fc } = summaryNac d := rfl
  rw [hs]
  cases extractCrystal d.lattice d.primitive with
  | error e => rfl
  | ok p =>
    cases extractCrystal d.lattice d.supercell with
    | error e => rfl
    | ok s =>
      cases summaryNac d with
      | error e => rfl
      | ok n =>
        simp only [bind, Except.bind]
        rw [h]
        have e1 : chooseFc (⟨none, n.born, n.dielectric, n.factor⟩ :
            Summary (List (List (M3 K))) (List (M3 K)) (M3 K) K) fs.fcFormat fs.fcName fs.readFc = .ok fc := by
          unfold chooseFc
          simp only [hfmt, bind, Except.bind, hread]
        rw [e1]
        rfl

/-- The usual file: the format is recognised. -/
example : fcFormat none "FORCE_CONSTANTS".toList = .ok .phonopy := by decide +kernel

/-- **C141**: a BORN file counts as if its contents were in `phonopy.yaml`, unless everything is there already. -/
theorem C141_born_file (u : Ureg K) (o : OutUnits K) (fmax thr : K) (d : Doc K) (fs : Files K) (n : Nac K)
    (hn : d.nac = some n) (hmiss : n.born = none ∨ n.dielectric = none ∨ n.factor = none)
    (bf : BornFile (List (M3 K)) (M3 K) K) (hb : fs.born = some (.ok bf)) :
    readInterpolation u o fmax thr d fs =
      readInterpolation u o fmax thr
        { d with nac := some ⟨bf.nac.orElse fun _ => n.factor, some bf.born, some bf.dielectric⟩ } { fs with born := none } := by
  unfold readInterpolation
  dsimp only
  have hs : summaryNac d = .ok n := by unfold summaryNac; rw [hn]
  have hs' : summaryNac { d with nac := some ⟨bf.nac.orElse fun _ => n.factor, some bf.born, some bf.dielectric⟩ } =
    .ok ⟨bf.nac.orElse fun _ => n.factor, some bf.born, some bf.dielectric⟩ := rfl
  rw [hs, hs', hb]
  cases extractCrystal d.lattice d.primitive with
  | error e => rfl
  | ok p =>
    cases extractCrystal d.lattice d.supercell with
    | error e => rfl
    | ok s =>
      simp only [bind, Except.bind]
      have e1 : ∀ (a : Option (List (M3 K))) (b : Option (M3 K)) (c : Option K) (a' : Option (List (M3 K)))
          (b' : Option (M3 K)) (c' : Option K), chooseFc (⟨d.fc, a, b, c⟩ : Summary (List (List (M3 K))) (List (M3 K)) (M3 K) K)
          fs.fcFormat fs.fcName fs.readFc = chooseFc ⟨d.fc, a', b', c'⟩ fs.fcFormat fs.fcName fs.readFc :=
        fun _ _ _ _ _ _ => rfl
      rw [e1 n.born n.dielectric n.factor (some bf.born) (some bf.dielectric) (bf.nac.orElse fun _ => n.factor)]
      cases chooseFc (⟨d.fc, some bf.born, some bf.dielectric, bf.nac.orElse fun _ => n.factor⟩ :
          Summary (List (List (M3 K))) (List (M3 K)) (M3 K) K) fs.fcFormat fs.fcName fs.readFc with
      | error e => rfl
      | ok fc =>
        dsimp only
        have e2 : chooseDipole (⟨d.fc, n.born, n.dielectric, n.factor⟩ :
            Summary (List (List (M3 K))) (List (M3 K)) (M3 K) K) (some (.ok bf)) =
            chooseDipole (⟨d.fc, some bf.born, some bf.dielectric, bf.nac.orElse fun _ => n.factor⟩ :
            Summary (List (List (M3 K))) (List (M3 K)) (M3 K) K) none := by
          unfold chooseDipole
          have : (n.born.isSome && n.dielectric.isSome && n.factor.isSome) = false := by
            rcases hmiss with h | h | h <;> simp [h]
          simp only [this]
          rfl
        rw [e2]

/-- **C141**: the old way of writing charges means the same as the new one. -/
theorem C141_old_format (u : Ureg K) (o : OutUnits K) (fmax thr : K) (d : Doc K) (fs : Files K) (n : Nac K) (old : Option (Nac K)) :
    readInterpolation u o fmax thr { d with nac := none, old := some n } fs =
      readInterpolation u o fmax thr { d with nac := some n, old := old } fs := rfl

/-- **C141**: charges without a factor are an error. -/
theorem C141_factor_missing (u : Ureg K) (o : OutUnits K) (fmax thr : K) (d : Doc K) (fs : Files K) (b : List (M3 K))
    (e : Option (M3 K)) (hn : d.nac = some ⟨none, some b, e⟩) (hb : fs.born = none) :
    ∀ out, readInterpolation u o fmax thr d fs ≠ .ok out := by
  intro out h
  unfold readInterpolation at h
  have hs : summaryNac d = .ok ⟨none, some b, e⟩ := by unfold summaryNac; rw [hn]
  rw [hs, hb] at h
  cases hp : extractCrystal d.lattice d.primitive with
  | error e => rw [hp] at h; cases h
  | ok p =>
    cases hs : extractCrystal d.lattice d.supercell with
    | error e => rw [hp, hs] at h; cases h
    | ok s =>
      rw [hp, hs] at h
      simp only [bind, Except.bind] at h
      cases hc : chooseFc (⟨d.fc, some b, e, none⟩ : Summary (List (List (M3 K))) (List (M3 K)) (M3 K) K)
          fs.fcFormat fs.fcName fs.readFc with
      | error e => rw [hc] at h; cases h
      | ok fc =>
        rw [hc] at h
        cases h

/-- **C141**: without charges there is no dielectric tensor in the result, whatever the file has. -/
theorem C141_no_charges (u : Ureg K) (o : OutUnits K) {fmax thr : K} (d : Doc K) (fs : Files K) (out : Data K)
    (h : readInterpolation u o fmax thr d fs = .ok out) (fc : List (List (M3 K))) (hfc : d.fc = some fc)
    (f : Option K) (e : Option (M3 K)) (hnac : d.nac = some ⟨f, none, e⟩) (hb : fs.born = none) :
    out.born = none ∧ out.dielectric = none := by
  obtain ⟨p, s, n, x, hp, hs, hn, hx, h⟩ := readInterpolation_ok u o d fs out h fc hfc
  obtain ⟨_, _, _, _, _, g6, g7⟩ := assemble_parts u o _ _ _ p s d.S fc _ _ _ out h
  have hn' : n = ⟨f, none, e⟩ := by
    unfold summaryNac at hn
    rw [hnac] at hn
    exact (Except.ok.inj hn).symm
  subst hn'
  rw [hb] at hx
  obtain rfl := Except.ok.inj hx
  exact ⟨g6, g7⟩

/-! ## C141: names of units -/

/-- `t` is `s` with every `old`, looked for from the left, replaced. -/
inductive Rewrites (old new : List Char) : List Char → List Char → Prop
  | nil : Rewrites old new [] []
  | hit (s t : List Char) : Rewrites old new s t → Rewrites old new (old ++ s) (new ++ t)
  | miss (c : Char) (s t : List Char) : ¬ old <+: c :: s → Rewrites old new s t → Rewrites old new (c :: s) (c :: t)

theorem replaceAll_of_rewrites {old new s t : List Char} (hold : old ≠ []) (h : Rewrites old new s t) (n : Nat)
    (hn : s.length ≤ n) : replaceAll old new n s = t := by
  induction h generalizing n with
  | nil => cases n <;> rfl
  | hit s t _ ih =>
    obtain ⟨c, old', rfl⟩ := List.exists_cons_of_ne_nil hold
    cases n with
    | zero => simp at hn
    | succ n =>
      rw [List.cons_append, replaceAll, if_pos]
      · have e : List.drop (c :: old').length (c :: (old' ++ s)) = s := by simp
        rw [e, ih n (by simp at hn; omega)]
      · rw [List.isPrefixOf_iff_prefix]
        exact ⟨s, rfl⟩
  | miss c s t hc _ ih =>
    cases n with
    | zero => simp at hn
    | succ n =>
      rw [replaceAll, if_neg (by rwa [List.isPrefixOf_iff_prefix]), ih n (by simpa using hn)]

/-- **C141**: the names of the units that are looked up.  `AMU` is written `amu`; in lengths and force constants `au` is
written `bohr` and `Angstrom` `angstrom`; brackets are put around denominators first (C87). -/
theorem C141_names (n : Names) (m1 m2 m3 l1 l2 f1 f2 : List Char)
    (hm1 : Rewrites "AMU".toList "amu".toList n.mass m1) (hm2 : Rewrites "au".toList "bohr".toList m1 m2)
    (hm3 : Rewrites "Angstrom".toList "angstrom".toList m2 m3)
    (hl1 : Rewrites "au".toList "bohr".toList n.length l1) (hl2 : Rewrites "Angstrom".toList "angstrom".toList l1 l2)
    (hf1 : Rewrites "au".toList "bohr".toList (bracketUnit n.fc) f1)
    (hf2 : Rewrites "Angstrom".toList "angstrom".toList f1 f2) :
    unitNames (some n) = ⟨m3, l2, f2⟩ := by
  unfold unitNames replace
  simp only [Option.getD_some]
  rw [replaceAll_of_rewrites (by decide) hm1 _ le_rfl, replaceAll_of_rewrites (by decide) hm2 _ le_rfl,
    replaceAll_of_rewrites (by decide) hm3 _ le_rfl, replaceAll_of_rewrites (by decide) hl1 _ le_rfl,
    replaceAll_of_rewrites (by decide) hl2 _ le_rfl, replaceAll_of_rewrites (by decide) hf1 _ le_rfl,
    replaceAll_of_rewrites (by decide) hf2 _ le_rfl]

/-- **C141**: a file that does not name its units is read as if it named those of VASP. -/
theorem C141_default_units (u : Ureg K) (o : OutUnits K) (fmax thr : K) (d : Doc K) (fs : Files K) :
    readInterpolation u o fmax thr { d with units := none } fs =
      readInterpolation u o fmax thr
        { d with units := some ⟨"AMU".toList, "Angstrom".toList, "eV/Angstrom^2".toList⟩ } fs := rfl

/-- The names for VASP, Abinit and Quantum ESPRESSO. -/
example : ((unitNames none).mass = "amu".toList ∧ (unitNames none).length = "angstrom".toList ∧
      (unitNames none).fc = "eV/(angstrom^2)".toList) ∧
    ((unitNames (some ⟨"AMU".toList, "au".toList, "eV/Angstrom.au".toList⟩)).length = "bohr".toList ∧
      (unitNames (some ⟨"AMU".toList, "au".toList, "eV/Angstrom.au".toList⟩)).fc = "eV/(angstrom.bohr)".toList) ∧
    (unitNames (some ⟨"AMU".toList, "au".toList, "Ry/au^2".toList⟩)).fc = "Ry/(bohr^2)".toList := by decide +kernel

/-! ## Examples -/

namespace Ex

/-- Units: all 1 except lengths in bohr, which are 1/2. -/
def reg : Ureg ℚ := ⟨fun _ => 1, fun s => if s = "bohr".toList then 1 / 2 else 1, fun _ => 1⟩

/-- Results in units of 1. -/
def unitsOut : OutUnits ℚ := ⟨1, 1, 1, 1, 1⟩

/-- A block with one number. -/
def blk (x : ℚ) : M3 ℚ := ⟨⟨x, 0, 0⟩, ⟨0, 0, 0⟩, ⟨0, 0, 0⟩⟩

/-- Two atoms at 0 and `x` in a cell, twice along x.  `F a b` are force constants between the four atoms. -/
def doc (x : ℚ) (F : Fin 4 → Fin 4 → M3 ℚ) : Doc ℚ where
  lattice := ⟨⟨2, 0, 0⟩, ⟨0, 3, 0⟩, ⟨0, 0, 4⟩⟩
  primitive := [⟨1, ⟨0, 0, 0⟩, "Na", none⟩, ⟨2, ⟨x, 0, 0⟩, "Cl", none⟩]
  supercell := [⟨1, ⟨0, 0, 0⟩, "Na", some 1⟩, ⟨1, ⟨1 / 2, 0, 0⟩, "Na", some 1⟩, ⟨2, ⟨x / 2, 0, 0⟩, "Cl", some 3⟩,
    ⟨2, ⟨x / 2 - 1 / 2, 0, 0⟩, "Cl", some 3⟩]
  S := ⟨⟨2, 0, 0⟩, ⟨0, 1, 0⟩, ⟨0, 0, 1⟩⟩
  units := none
  fc := some (List.ofFn fun a => List.ofFn fun b => F a b)
  nac := some ⟨some 5, some [blk 3, blk (-3)], some (blk 2)⟩
  old := none

/-- No other files. -/
def files : Files ℚ := ⟨none, [], fun _ => .error .ioError, none⟩

/-- Different numbers. -/
def F0 : Fin 4 → Fin 4 → M3 ℚ := fun a b => blk (10 * a.val + b.val)

/-- Cells and the numbers of the blocks between atoms `i` and `j` of the result. -/
def blocks (x : ℚ) (i j : Nat) : Option (List (V3 ℚ) × List (V3 ℤ × ℚ)) :=
  (readInterpolation reg unitsOut 1000 (16 / 2 ^ 52) (doc x F0) files).toOption.map fun out =>
    (out.r, (List.finRange out.nc).map fun c => (out.sc.cells c,
      if h : i < out.nu ∧ j < out.nu then (out.sc.fc c ⟨i, h.1⟩ ⟨j, h.2⟩).a.x else 0))

def rep : Fin 2 → Fin 4 := ![0, 2]
def kind : Fin 4 → Fin 2 := ![0, 0, 1, 1]

theorem layout (x : ℚ) : Layout (doc x F0) rep kind where
  primitive := rfl
  supercell := rfl
  increasing := by decide
  kind_rep := by decide
  first := by decide
  reduced := fun k => by fin_cases k <;> rfl

theorem numeric (x : ℚ) : Supercell.Numeric (doc x F0).S (1000 : ℚ) (16 / 2 ^ 52) 100 where
  det_ne := by simp [doc, Supercell.det]
  thr_nonneg := by norm_num
  thr_lt := by
    have : Supercell.det (doc x F0).S = 2 := by simp [doc, Supercell.det]
    rw [this]; norm_num
  lt_fmax := by norm_num
  chunk_pos := by norm_num

theorem apart (n : ℤ) : Apart (doc (1 / 4 + n) F0) := by
  intro k k' hk hk' hne ⟨m, hm, _, _⟩
  have h4 : (doc (1 / 4 + n) F0).supercell.length = 4 := rfl
  rw [h4] at hk hk'
  have key : ∀ j : ℤ, ¬ |(j : ℚ) / 4| ≤ 2 / 10 ^ 5 ∨ j = 0 := by
    intro j
    by_cases hj : j = 0
    · exact Or.inr hj
    · left
      intro h
      have h1 : (1 : ℚ) ≤ |(j : ℚ)| := by
        have : (1 : ℤ) ≤ |j| := Int.one_le_abs hj
        exact_mod_cast this
      rw [abs_div, abs_of_pos (by norm_num : (0 : ℚ) < 4)] at h
      linarith
  have fin : ∀ (j : ℤ) (y : ℚ), y = (j : ℚ) / 4 → |y| ≤ 2 / 10 ^ 5 → j = 0 := by
    intro j y e h
    rcases key j with h' | h'
    · rw [e] at h; exact absurd h h'
    · exact h'
  rcases (by omega : k = 0 ∨ k = 1 ∨ k = 2 ∨ k = 3) with rfl | rfl | rfl | rfl <;>
  rcases (by omega : k' = 0 ∨ k' = 1 ∨ k' = 2 ∨ k' = 3) with rfl | rfl | rfl | rfl <;>
  first
  | exact hne rfl
  | (simp only [doc, minus, inCell, List.getElem_cons_zero, List.getElem_cons_succ] at hm
     push_cast at hm
     first
     | (have := fin (-4 - 8 * m.x) _ (by push_cast; ring1) hm; omega)
     | (have := fin (4 - 8 * m.x) _ (by push_cast; ring1) hm; omega)
     | (have := fin (-1 - 4 * n - 8 * m.x) _ (by push_cast; ring1) hm; omega)
     | (have := fin (3 - 4 * n - 8 * m.x) _ (by push_cast; ring1) hm; omega)
     | (have := fin (1 + 4 * n - 8 * m.x) _ (by push_cast; ring1) hm; omega)
     | (have := fin (-3 + 4 * n - 8 * m.x) _ (by push_cast; ring1) hm; omega)
     | (have := fin (7 - 4 * n - 8 * m.x) _ (by push_cast; ring1) hm; omega)
     | (have := fin (-7 + 4 * n - 8 * m.x) _ (by push_cast; ring1) hm; omega))

end Ex

/-- **C141** (violated): atoms at 0 and 5/4 (along x, in a supercell of two cells).  The crystal imported has them at 0 and
1/4, but the block between the atoms at 0 and 5/4 (2) is in cell 0, where the crystal has the atom at 1/4; that is not
the vector between them modulo the supercell, and the block (3) belongs there. -/
theorem C141_shifted :
    Ex.blocks (5 / 4) 0 1 = some ([⟨0, 0, 0⟩, ⟨1 / 4, 0, 0⟩], [(⟨0, 0, 0⟩, 2), (⟨1, 0, 0⟩, 3)]) ∧
    trueVector (Ex.doc (5 / 4) Ex.F0) 0 2 = ⟨5 / 4, 0, 0⟩ ∧ trueVector (Ex.doc (5 / 4) Ex.F0) 0 3 = ⟨1 / 4, 0, 0⟩ ∧
    ¬ NearLattice (Ex.doc (5 / 4) Ex.F0).S (2 / 10 ^ 5 : ℚ) (minus ⟨1 / 4, 0, 0⟩ ⟨5 / 4, 0, 0⟩) := by
  refine ⟨by decide +kernel, by decide +kernel, by decide +kernel, ?_⟩
  rintro ⟨m, h, _, _⟩
  simp only [Ex.doc, minus] at h
  push_cast at h
  have h1 : |((-1 - 2 * m.x : ℤ) : ℚ)| ≤ 2 / 10 ^ 5 := by
    have e : ((-1 - 2 * m.x : ℤ) : ℚ) = 1 / 4 - 5 / 4 - (m.x * 2 + m.y * 0 + m.z * 0) := by push_cast; ring
    rw [e]
    exact h
  have h2 : (1 : ℤ) ≤ |-1 - 2 * m.x| := Int.one_le_abs (by omega)
  have h3 : (1 : ℚ) ≤ |((-1 - 2 * m.x : ℤ) : ℚ)| := by exact_mod_cast h2
  linarith

/-- With the same atom written at 1/4 they are right. -/
example : Ex.blocks (1 / 4) 0 1 = some ([⟨0, 0, 0⟩, ⟨1 / 4, 0, 0⟩], [(⟨0, 0, 0⟩, 2), (⟨1, 0, 0⟩, 3)]) ∧
    trueVector (Ex.doc (1 / 4) Ex.F0) 0 2 = ⟨1 / 4, 0, 0⟩ := by decide +kernel

/-- The hypotheses of `C141_blocks` and `C141_positions_partial` hold for it. -/
example : Layout (Ex.doc (1 / 4) Ex.F0) Ex.rep Ex.kind ∧ Apart (Ex.doc (1 / 4) Ex.F0) ∧
    Written Ex.rep Ex.F0 (List.ofFn fun a => List.ofFn fun b => Ex.F0 a b) ∧
    Supercell.Numeric (Ex.doc (1 / 4) Ex.F0).S (1000 : ℚ) (16 / 2 ^ 52) 100 ∧
    (∀ p ∈ (Ex.doc (1 / 4) Ex.F0).primitive, (((0 : ℤ) : ℚ) ≤ p.coord.x ∧ p.coord.x < ((0 : ℤ) : ℚ) + 1)) := by
  refine ⟨Ex.layout _, by simpa using Ex.apart 0, Or.inl rfl, Ex.numeric _, ?_⟩
  intro p hp
  simp only [Ex.doc, List.mem_cons, List.not_mem_nil, or_false] at hp
  rcases hp with rfl | rfl <;> norm_num

/-- The other parts of the result, for values in units of bohr and force constants per bohr². -/
example : ((readInterpolation Ex.reg Ex.unitsOut 1000 (16 / 2 ^ 52)
    { Ex.doc (1 / 4) Ex.F0 with units := some ⟨"AMU".toList, "au".toList, "Ry/au^2".toList⟩ } Ex.files).toOption.map
      fun out => (out.cell.c.z, out.mass, out.types)) = some (2, [1, 2], ["Na", "Cl"]) := by decide +kernel

example : ((readInterpolation Ex.reg Ex.unitsOut 1000 (16 / 2 ^ 52)
    { Ex.doc (1 / 4) Ex.F0 with units := some ⟨"AMU".toList, "au".toList, "Ry/au^2".toList⟩ } Ex.files).toOption.map
      fun out => ((out.born.getD []).map (·.a.x), (out.dielectric.getD (Ex.blk 0)).a.x)) =
    some ([3, -3], 16 / 5) := by decide +kernel

/-- `C141_units` is about different files. -/
example : (inUnits Ex.reg (some ⟨"AMU".toList, "au".toList, "Ry/au^2".toList⟩) (Ex.doc (1 / 4) Ex.F0)).lattice.c.z = 8 ∧
    Ex.reg.length (unitNames (some ⟨"AMU".toList, "au".toList, "Ry/au^2".toList⟩)).length ≠ 0 := by decide +kernel


/-- `C141_permittivity`: the factor 8 is 1 in atomic units if lengths are halves. -/
example : (8 : ℚ) * (Ex.reg.length (unitNames (some ⟨"AMU".toList, "au".toList, "Ry/au^2".toList⟩)).length ^ 3 *
    Ex.reg.fc (unitNames (some ⟨"AMU".toList, "au".toList, "Ry/au^2".toList⟩)).fc) = 1 := by decide +kernel

/-- `C141_born_file` and `C141_factor_missing`: a file with charges, but without a factor, is refused; with a BORN file that
has one it is read. -/
example : (readInterpolation Ex.reg Ex.unitsOut 1000 (16 / 2 ^ 52)
      { Ex.doc (1 / 4) Ex.F0 with nac := some ⟨none, some [], none⟩ } Ex.files).toOption.isSome = false ∧
    ((readInterpolation Ex.reg Ex.unitsOut 1000 (16 / 2 ^ 52)
      { Ex.doc (1 / 4) Ex.F0 with nac := some ⟨none, some [], none⟩ }
      { Ex.files with born := some (.ok ⟨[Ex.blk 3, Ex.blk (-3)], Ex.blk 2, some 5⟩) }).toOption.map
        fun out => (out.dielectric.getD (Ex.blk 0)).a.x) = some (2 / 5) := by decide +kernel

end Euphonic.PhonopyFc
