import Verif.Props.Supercell
import Mathlib.Data.Fintype.Card
import Mathlib.Data.Fintype.Prod

/-! # Properties C40, C41: conversion of force constants -/

set_option autoImplicit false
set_option linter.unusedSectionVars false

namespace Euphonic.Supercell

open Euphonic.Lattice

variable {K : Type} [Field K] [LinearOrder K] [IsStrictOrderedRing K] [FloorRing K] {B : Type}
  {nu ns : Nat}

theorem mapM_ok_getElem {α β : Type} (f : α → Except Err β) (l : List α) (r : List β)
    (h : l.mapM f = .ok r) : ∃ hl : r.length = l.length, ∀ i (hi : i < l.length),
      f l[i] = .ok (r[i]'(by omega)) := by
  induction l generalizing r with
  | nil =>
    rw [List.mapM_nil] at h
    obtain rfl := Except.ok.inj h
    exact ⟨rfl, fun i hi => by simp at hi⟩
  | cons a l ih =>
    rw [List.mapM_cons] at h
    cases ha : f a with
    | error e => rw [ha] at h; cases h
    | ok b =>
      rw [ha] at h
      simp only [bind, Except.bind] at h
      cases hm : l.mapM f with
      | error e => rw [hm] at h; cases h
      | ok bs =>
        rw [hm] at h
        simp only [pure, Except.pure] at h
        obtain rfl := Except.ok.inj h
        obtain ⟨hl, hi⟩ := ih bs hm
        refine ⟨by simp [hl], fun i h2 => ?_⟩
        cases i with
        | zero => simpa using ha
        | succ i => simpa using hi i (by simpa using h2)

theorem finMapM_ok {n : Nat} {β : Type} (f : Fin n → Except Err β) (g : Fin n → β)
    (h : finMapM f = .ok g) (i : Fin n) : f i = .ok (g i) := by
  unfold finMapM at h
  split at h
  · cases h
  · rename_i l hl
    obtain ⟨h1, h2⟩ := mapM_ok_getElem f _ l hl
    have hlen : l.length = n := by simpa using h1
    rw [dif_pos hlen] at h
    have h3 := Except.ok.inj h
    rw [← h3]
    have := h2 i.val (by simp)
    simpa using this

theorem assignAll_append_not_mem {ι V : Type} [DecidableEq ι] (init : ι → V) (l : List (ι × V))
    (k : ι) (h : k ∉ l.map (·.1)) : assignAll init l k = init k := by
  induction l generalizing init with
  | nil => rfl
  | cons p l ih =>
    simp only [List.map_cons, List.mem_cons, not_or] at h
    unfold assignAll
    rw [List.foldl_cons]
    have := ih (Function.update init p.1 p.2) h.2
    unfold assignAll at this
    rw [this, Function.update_of_ne h.1]

/-- With distinct keys every assignment survives. -/
theorem assignAll_mem {ι V : Type} [DecidableEq ι] (init : ι → V) (l : List (ι × V))
    (hn : (l.map (·.1)).Nodup) (p : ι × V) (hp : p ∈ l) : assignAll init l p.1 = p.2 := by
  induction l generalizing init with
  | nil => simp at hp
  | cons q l ih =>
    simp only [List.map_cons, List.nodup_cons] at hn
    unfold assignAll
    rw [List.foldl_cons]
    rcases List.mem_cons.1 hp with rfl | hp
    · have := assignAll_append_not_mem (Function.update init p.1 p.2) l p.1 hn.1
      unfold assignAll at this
      rw [this, Function.update_self]
    · have := ih (Function.update init q.1 q.2) hn.2 hp
      unfold assignAll at this
      exact this

theorem neighbours_lattice (S : M3 ℤ) (s : V3 ℤ) (h : s ∈ neighbours S) : InLattice S s := by
  unfold neighbours at h
  split at h
  · obtain ⟨v, _, rfl⟩ := List.mem_map.1 h
    exact ⟨v, rfl⟩
  · simp at h

/-- The cell chosen for an atom is congruent to its own cell modulo the supercell. -/
theorem mapOrigin_ok (S : M3 ℤ) {nc : Nat} (cells : Fin nc → V3 ℤ) (o : V3 ℤ) (c : Fin nc)
    (h : mapOrigin S cells o = .ok c) : InLattice S (Lattice.sub o (cells c)) := by
  unfold mapOrigin at h
  split at h
  · rename_i c' hf
    obtain rfl := Except.ok.inj h
    have : c' ∈ (List.finRange nc).filter fun c => decide (o = cells c) := by rw [hf]; simp
    have := (List.mem_filter.1 this).2
    rw [decide_eq_true_eq] at this
    rw [this]
    convert InLattice.zero S using 1
    simp [Lattice.sub]
  · split at h
    · rename_i c' hf
      obtain rfl := Except.ok.inj h
      have := List.find?_some hf
      simp only [List.any_eq_true, decide_eq_true_eq] at this
      obtain ⟨s, hs, he⟩ := this
      have := neighbours_lattice S s hs
      convert this using 1
      rw [← he]
      simp [Lattice.sub]
    · cases h

/-! ## C41 -/

/-- Difference between a supercell atom and its unit cell atom. -/
def rawOrigin (inp : ScIn K (nu + 1) ns) (k : Fin ns) : V3 K :=
  ⟨(inp.scAtomR k).x - (inp.atomR (inp.scToUc k)).x, (inp.scAtomR k).y - (inp.atomR (inp.scToUc k)).y,
    (inp.scAtomR k).z - (inp.atomR (inp.scToUc k)).z⟩

/-- All components are within `tol` of some integers. -/
def NearInt (tol : K) (v : V3 K) : Prop :=
  ∃ a b c : ℤ, |v.x - a| ≤ tol ∧ |v.y - b| ≤ tol ∧ |v.z - c| ≤ tol

theorem nonInt_iff (tol : K) (v : V3 K) : nonInt tol v = false ↔ NearInt tol v := by
  unfold nonInt NearInt
  simp only [Bool.or_eq_false_iff, decide_eq_false_iff_not, not_lt]
  constructor
  · rintro ⟨⟨h1, h2⟩, h3⟩
    exact ⟨_, _, _, h1, h2, h3⟩
  · rintro ⟨a, b, c, h1, h2, h3⟩
    exact ⟨⟨(abs_sub_rint_le_abs_sub _ a).trans h1, (abs_sub_rint_le_abs_sub _ b).trans h2⟩,
      (abs_sub_rint_le_abs_sub _ c).trans h3⟩

/-- **C41**: atom counts that do not fit the determinant are refused with `ValueError`. -/
theorem C41_counts_refused (zero unset : B) (fmax thr tol : K) (N : Nat) (inp : ScIn K (nu + 1) ns)
    (rows : Fin (nu + 1) → Fin ns → B) (h : ns ≠ (det inp.S).natAbs * (nu + 1)) :
    convertFcPhases zero unset fmax thr tol N inp rows = .error .valueError := by
  unfold convertFcPhases cellOriginsPerAtom
  rw [if_pos h]
  rfl

/-- **C41**: with matching counts, a cell origin further than the tolerance from every integer vector is
refused with `RuntimeError`. -/
theorem C41_non_integer_refused (zero unset : B) (fmax thr tol : K) (N : Nat)
    (inp : ScIn K (nu + 1) ns) (rows : Fin (nu + 1) → Fin ns → B)
    (h : ns = (det inp.S).natAbs * (nu + 1)) (k : Fin ns) (hk : ¬ NearInt tol (rawOrigin inp k)) :
    convertFcPhases zero unset fmax thr tol N inp rows = .error .runtimeError := by
  unfold convertFcPhases cellOriginsPerAtom
  rw [if_neg (not_not.2 h)]
  dsimp only
  rw [if_pos]
  · rfl
  · refine ⟨k, ?_⟩
    by_contra hne
    rw [Bool.not_eq_true] at hne
    exact hk ((nonInt_iff tol _).1 hne)

theorem cellOrigins_ok (inp : ScIn K (nu + 1) ns) (tol : K) (o : Fin ns → V3 ℤ)
    (h : cellOriginsPerAtom inp tol = .ok o) :
    ns = (det inp.S).natAbs * (nu + 1) ∧ (∀ k, NearInt tol (rawOrigin inp k)) ∧
    ∀ k, o k = Lattice.sub (rint3 (rawOrigin inp k)) (rint3 (rawOrigin inp (inp.ucToSc 0))) := by
  unfold cellOriginsPerAtom at h
  split at h
  · cases h
  · rename_i h1
    dsimp only at h
    split at h
    · cases h
    · rename_i h2
      push Not at h2
      have h3 := Except.ok.inj h
      refine ⟨not_not.1 h1, fun k => (nonInt_iff tol _).1 (Bool.not_eq_true _ ▸ h2 k : nonInt tol (rawOrigin inp k) = false),
        fun k => ?_⟩
      rw [← h3]
      rfl

/-- **C41**: otherwise the origins are the nearest integers, relative to the first unit cell atom: for a
tolerance below one half, if atom `k` sits within the tolerance of cell `m` and the reference atom within
the tolerance of cell `m0`, its origin is `m - m0`. -/
theorem C41_nearest_integers (inp : ScIn K (nu + 1) ns) (tol : K) (htol : tol < 1 / 2)
    (o : Fin ns → V3 ℤ) (h : cellOriginsPerAtom inp tol = .ok o) (k : Fin ns) (m m0 : V3 ℤ)
    (hm : |(rawOrigin inp k).x - m.x| ≤ tol ∧ |(rawOrigin inp k).y - m.y| ≤ tol ∧
      |(rawOrigin inp k).z - m.z| ≤ tol)
    (hm0 : |(rawOrigin inp (inp.ucToSc 0)).x - m0.x| ≤ tol ∧
      |(rawOrigin inp (inp.ucToSc 0)).y - m0.y| ≤ tol ∧
      |(rawOrigin inp (inp.ucToSc 0)).z - m0.z| ≤ tol) :
    o k = ⟨m.x - m0.x, m.y - m0.y, m.z - m0.z⟩ := by
  obtain ⟨_, _, h3⟩ := cellOrigins_ok inp tol o h
  rw [h3]
  simp only [Lattice.sub, rint3]
  rw [rint_eq_of_abs_lt _ m.x (hm.1.trans_lt htol), rint_eq_of_abs_lt _ m.y (hm.2.1.trans_lt htol),
    rint_eq_of_abs_lt _ m.z (hm.2.2.trans_lt htol), rint_eq_of_abs_lt _ m0.x (hm0.1.trans_lt htol),
    rint_eq_of_abs_lt _ m0.y (hm0.2.1.trans_lt htol), rint_eq_of_abs_lt _ m0.z (hm0.2.2.trans_lt htol)]

/-! ## C40 -/

/-- Copies of the same atom are distinct modulo the supercell. -/
def DistinctAtoms (inp : ScIn K (nu + 1) ns) (o : Fin ns → V3 ℤ) : Prop :=
  ∀ k k', inp.scToUc k = inp.scToUc k' → InLattice inp.S (Lattice.sub (o k) (o k')) → k = k'

/-- `k0` is the first supercell atom that is a copy of unit cell atom `i`. -/
def IsFirstCopy (inp : ScIn K (nu + 1) ns) (i : Fin (nu + 1)) (k0 : Fin ns) : Prop :=
  inp.scToUc k0 = i ∧ ∀ k, k < k0 → inp.scToUc k ≠ i

theorem find_first (inp : ScIn K (nu + 1) ns) (i : Fin (nu + 1)) (k0 : Fin ns)
    (h : IsFirstCopy inp i k0) :
    ((List.finRange ns).find? fun k => decide (inp.scToUc k = i)) = some k0 := by
  rw [List.find?_eq_some_iff_getElem]
  refine ⟨by simpa using h.1, k0.val, by simp, by simp, fun j hj => ?_⟩
  simp only [List.getElem_finRange, Bool.not_eq_true', decide_eq_false_iff_not]
  exact h.2 _ (by rw [Fin.lt_def]; simpa using hj)

theorem atom0_injective (inp : ScIn K (nu + 1) ns) :
    Function.Injective (atom0Idx inp).get := by
  apply List.nodup_iff_injective_get.1
  exact (List.nodup_finRange ns).filter _

theorem atom0_type (inp : ScIn K (nu + 1) ns) (c : Fin (atom0Idx inp).length) :
    inp.scToUc ((atom0Idx inp).get c) = 0 := by
  have h : ∀ k ∈ atom0Idx inp, inp.scToUc k = 0 := by
    intro k hk
    unfold atom0Idx at hk
    simpa using (List.mem_filter.1 hk).2
  exact h _ (List.get_mem (atom0Idx inp) c)

/-- **C40**: if the conversion succeeds for a structure whose atoms are distinct modulo the supercell,
then for every unit cell atom `i` the blocks of row `i` are moved, without loss or repetition, to the
places `(cell, atom)` of the result; the block of supercell atom `k` ends up at its own kind of atom in
the cell congruent, modulo the supercell, to the vector from the first copy of `i` to `k`. -/
theorem C40_blocks_kept (zero unset : B) {fmax thr : K} (tol : K) {N : Nat}
    (inp : ScIn K (nu + 1) ns) (hn : Numeric inp.S fmax thr N) (rows : Fin (nu + 1) → Fin ns → B)
    (out : ScOut B (nu + 1) (atom0Idx inp).length)
    (h : convertFcPhases zero unset fmax thr tol N inp rows = .ok out)
    (o : Fin ns → V3 ℤ) (ho : cellOriginsPerAtom inp tol = .ok o) (hd : DistinctAtoms inp o)
    (i : Fin (nu + 1)) (k0 : Fin ns) (hk0 : IsFirstCopy inp i k0) :
    ∃ E : Fin ns ≃ Fin (atom0Idx inp).length × Fin (nu + 1), ∀ k,
      (E k).2 = inp.scToUc k ∧
      out.fc (E k).1 i (E k).2 = rows i k ∧
      InLattice inp.S (Lattice.sub (Lattice.sub (o k) (o k0)) (out.cells (E k).1)) := by
  unfold convertFcPhases at h
  rw [ho] at h
  simp only [bind, Except.bind] at h
  set cells := fun c : Fin (atom0Idx inp).length => o ((atom0Idx inp).get c) with hcells
  cases hmap : finMapM (fun k => mapOrigin inp.S cells (o k)) with
  | error e => rw [hmap] at h; cases h
  | ok cmap =>
    rw [hmap] at h
    dsimp only at h
    split at h
    · cases h
    · rename_i hlen
      simp only [ne_eq, not_not] at hlen
      split at h
      · cases h
      · rename_i conv hconv
        have hout := Except.ok.inj h
        have hco : ∀ k, InLattice inp.S (Lattice.sub (o k) (cells (cmap k))) := fun k =>
          mapOrigin_ok _ _ _ _ (finMapM_ok _ _ hmap k)
        -- the map of supercell atoms to places is a bijection
        have hinj : Function.Injective fun k => (cmap k, inp.scToUc k) := by
          intro k k' e
          simp only [Prod.mk.injEq] at e
          apply hd k k' e.2
          have h1 := hco k
          have h2 := hco k'
          rw [e.1] at h1
          have := h1.sub h2
          convert this using 1
          simp only [Lattice.sub, V3.mk.injEq]
          refine ⟨?_, ?_, ?_⟩ <;> ring
        obtain ⟨hcount, _, _⟩ := cellOrigins_ok inp tol o ho
        have hcard : Fintype.card (Fin ns) =
            Fintype.card (Fin (atom0Idx inp).length × Fin (nu + 1)) := by
          rw [Fintype.card_prod, Fintype.card_fin, Fintype.card_fin, Fintype.card_fin, hlen]
          exact hcount
        have hbij : Function.Bijective fun k => (cmap k, inp.scToUc k) :=
          (Fintype.bijective_iff_injective_and_card _).2 ⟨hinj, hcard⟩
        have hdc : DistinctCells inp.S cells := by
          intro c c' hl
          apply atom0_injective inp
          exact hd _ _ (by rw [atom0_type, atom0_type]) hl
        -- row i
        have hi := finMapM_ok _ _ hconv i
        rw [find_first inp i k0 hk0] at hi
        dsimp only at hi
        cases hrels : relativeIdx inp.S cells fmax thr N with
        | error e => rw [hrels] at hi; cases hi
        | ok rels =>
          rw [hrels] at hi
          dsimp only at hi
          have hi' := Except.ok.inj hi
          obtain ⟨hl, hrow⟩ := mapM_ok_getElem _ _ _ hrels
          have hlt : (cmap k0).val < rels.length := by
            rw [hl]; simp
          have hr0 := hrow (cmap k0).val (by simp)
          rw [List.getElem_finRange] at hr0
          have hcast : Fin.cast (List.length_finRange (n := (atom0Idx inp).length))
              ⟨(cmap k0).val, by simp⟩ = cmap k0 := by
            apply Fin.ext; simp
          rw [hcast] at hr0
          obtain ⟨σ, hσ⟩ := C39_permutation inp.S hn cells hdc (cmap k0) _ hr0
          have hget : rels.getD (cmap k0).val (fun _ => 0) = rels[(cmap k0).val] := by
            rw [List.getD_eq_getElem _ _ hlt]
          rw [hget] at hi'
          -- value placed at cell σ c
          have hval : ∀ c j, conv i (σ c).val j =
              assignAll (fun _ => zero)
                ((List.finRange ns).map fun k => ((cmap k, inp.scToUc k), rows i k)) (c, j) := by
            intro c j
            rw [← hi']
            have hnd : (((List.finRange (atom0Idx inp).length).map fun c =>
                ((rels[(cmap k0).val] c, fun j => assignAll (fun _ => zero)
                ((List.finRange ns).map fun k => ((cmap k, inp.scToUc k), rows i k)) (c, j)) :
                  Nat × (Fin (nu + 1) → B))).map (·.1)).Nodup := by
              rw [List.map_map]
              refine List.Nodup.map ?_ (List.nodup_finRange _)
              intro c c' e
              simp only [Function.comp_apply] at e
              rw [(hσ c).1, (hσ c').1] at e
              exact σ.injective (Fin.ext e)
            have := assignAll_mem (fun _ => fun _ => unset) _ hnd
              (rels[(cmap k0).val] c, fun j => assignAll (fun _ => zero)
                ((List.finRange ns).map fun k => ((cmap k, inp.scToUc k), rows i k)) (c, j))
              (List.mem_map.2 ⟨c, List.mem_finRange c, rfl⟩)
            dsimp only at this
            rw [← (hσ c).1]
            exact congrFun this j
          have htmp : ∀ k, assignAll (fun _ => zero)
              ((List.finRange ns).map fun k => ((cmap k, inp.scToUc k), rows i k))
              (cmap k, inp.scToUc k) = rows i k := by
            intro k
            refine assignAll_mem _ _ ?_ ((cmap k, inp.scToUc k), rows i k)
              (List.mem_map.2 ⟨k, List.mem_finRange k, rfl⟩)
            rw [List.map_map]
            exact List.Nodup.map hinj (List.nodup_finRange _)
          refine ⟨(Equiv.ofBijective _ hbij).trans (σ.prodCongr (Equiv.refl _)), fun k => ?_⟩
          refine ⟨rfl, ?_, ?_⟩
          · rw [← hout]
            change conv i (σ (cmap k)).val (inp.scToUc k) = rows i k
            rw [hval, htmp]
          · rw [← hout]
            change InLattice inp.S (Lattice.sub (Lattice.sub (o k) (o k0)) (cells (σ (cmap k))))
            have h1 : IsTranslation inp.S cells (cmap k0) (cmap k) (σ (cmap k)) :=
              ((hσ (cmap k)).2 _).2 rfl
            have h2 := hco k
            have h3 := hco k0
            unfold IsTranslation at h1
            obtain ⟨a, ha⟩ := h1
            obtain ⟨b, hb⟩ := h2
            obtain ⟨c, hc⟩ := h3
            refine ⟨⟨a.x + b.x - c.x, a.y + b.y - c.y, a.z + b.z - c.z⟩, ?_⟩
            simp only [Lattice.sub, mulMat, V3.mk.injEq] at ha hb hc ⊢
            obtain ⟨a1, a2, a3⟩ := ha
            obtain ⟨b1, b2, b3⟩ := hb
            obtain ⟨c1, c2, c3⟩ := hc
            refine ⟨?_, ?_, ?_⟩ <;> linarith

/-- **C40**, the part of the claim that holds: when `uc_to_sc_atom_idx` lists the first copy of every unit
cell atom (as phonopy does), the block between the supercell atom `uc_to_sc[i]` and supercell atom `k`
of a full matrix ends up in the cell congruent to the vector between these two atoms.  Missing: other
choices of `uc_to_sc_atom_idx`, for which it is false (`C40_other_copy_misplaced`). -/
theorem C40_pair_interactions_partial (zero unset : B) {fmax thr : K} (tol : K) {N : Nat}
    (inp : ScIn K (nu + 1) ns) (hn : Numeric inp.S fmax thr N) (fc : Fin ns → Fin ns → B)
    (out : ScOut B (nu + 1) (atom0Idx inp).length)
    (h : convertFcPhases zero unset fmax thr tol N inp (fullRows inp fc) = .ok out)
    (o : Fin ns → V3 ℤ) (ho : cellOriginsPerAtom inp tol = .ok o) (hd : DistinctAtoms inp o)
    (hfirst : ∀ i, IsFirstCopy inp i (inp.ucToSc i)) (i : Fin (nu + 1)) (k : Fin ns) :
    ∃ c, out.fc c i (inp.scToUc k) = fc (inp.ucToSc i) k ∧
      InLattice inp.S (Lattice.sub (Lattice.sub (o k) (o (inp.ucToSc i))) (out.cells c)) := by
  obtain ⟨E, hE⟩ := C40_blocks_kept zero unset tol inp hn _ out h o ho hd i (inp.ucToSc i) (hfirst i)
  obtain ⟨h1, h2, h3⟩ := hE k
  refine ⟨(E k).1, ?_, h3⟩
  rw [← h1]
  exact h2

/-- One atom per cell, two cells along x; `uc_to_sc` picks the copy `u`. -/
def exIn (u : Fin 2) : ScIn ℚ 1 2 where
  atomR := fun _ => ⟨0, 0, 0⟩
  scAtomR := fun k => ⟨(k.val : ℚ), 0, 0⟩
  ucToSc := fun _ => u
  scToUc := fun _ => 0
  S := ⟨⟨2, 0, 0⟩, ⟨0, 1, 0⟩, ⟨0, 0, 1⟩⟩

/-- **C40** (violated): if `uc_to_sc_atom_idx` names the second copy of the atom, the conversion succeeds
and puts the self-interaction (5) of the atom at cell (-1, 0, 0), where the interaction with its neighbour
(-5) belongs; the sum over the force constants still vanishes. -/
theorem C40_other_copy_misplaced :
    (convertFcPhases (0 : ℚ) (-1) 1000 (16 / 2 ^ 52) (1 / 10 ^ 5) 100 (exIn 1)
      (fullRows (exIn 1) fun i k => if i = k then 5 else -5)).toOption.map
        (fun out => (List.finRange _).map fun c => (out.cells c, out.fc c 0 0)) =
      some [(⟨-1, 0, 0⟩, 5), (⟨0, 0, 0⟩, -5)] := by
  decide +kernel

/-- With the first copy the same matrix is converted correctly. -/
example :
    (convertFcPhases (0 : ℚ) (-1) 1000 (16 / 2 ^ 52) (1 / 10 ^ 5) 100 (exIn 0)
      (fullRows (exIn 0) fun i k => if i = k then 5 else -5)).toOption.map
        (fun out => (List.finRange _).map fun c => (out.cells c, out.fc c 0 0)) =
      some [(⟨0, 0, 0⟩, 5), (⟨1, 0, 0⟩, -5)] := by
  decide +kernel

/-- The hypotheses of C40 hold for it. -/
example : (∀ i, IsFirstCopy (exIn 0) i ((exIn 0).ucToSc i)) ∧
    ∃ o, cellOriginsPerAtom (exIn 0) (1 / 10 ^ 5) = .ok o ∧ o 1 = ⟨1, 0, 0⟩ ∧
      DistinctAtoms (exIn 0) o := by
  refine ⟨by intro i; exact ⟨Fin.ext (by have := i.isLt; simp [exIn] at *), fun k hk => absurd hk (by simp [exIn])⟩, ?_⟩
  have h : cellOriginsPerAtom (exIn 0) (1 / 10 ^ 5) =
      .ok fun k => Lattice.sub (rint3 (rawOrigin (exIn 0) k)) (rint3 (rawOrigin (exIn 0) 0)) := by
    unfold cellOriginsPerAtom
    rw [if_neg (by decide +kernel)]
    dsimp only
    rw [if_neg (by decide +kernel)]
    rfl
  refine ⟨_, h, by decide +kernel, ?_⟩
  rintro k k' _ ⟨m, hm⟩
  have hx := congrArg V3.x hm
  have e0 : (Lattice.sub (rint3 (rawOrigin (exIn 0) 0)) (rint3 (rawOrigin (exIn 0) 0))).x = 0 := by
    decide +kernel
  have e1 : (Lattice.sub (rint3 (rawOrigin (exIn 0) 1)) (rint3 (rawOrigin (exIn 0) 0))).x = 1 := by
    decide +kernel
  have hS : (mulMat m (exIn 0).S).x = 2 * m.x := by
    simp [mulMat, exIn]; ring
  rw [hS] at hx
  dsimp only [Lattice.sub] at hx e0 e1
  match k, k' with
  | 0, 0 => rfl
  | 1, 1 => rfl
  | 0, 1 => rw [e0, e1] at hx; omega
  | 1, 0 => rw [e0, e1] at hx; omega

/-- Non-integer positions are detected. -/
example : ¬ NearInt (1 / 10 ^ 5 : ℚ) ⟨1 / 2, 0, 0⟩ := by
  rw [← nonInt_iff]
  decide +kernel

end Euphonic.Supercell
