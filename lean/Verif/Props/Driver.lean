import Verif.Model.Driver
import Verif.Lemmas.Split
import Verif.Lemmas.Rint
import Mathlib.Tactic

/-! # C45, C46, C55-C57: q-point bookkeeping, caches and options -/

set_option autoImplicit false
set_option linter.unusedSectionVars false

namespace Euphonic.Driver

open Euphonic.Lattice Euphonic.Phases

variable {K : Type} [Field K] [LinearOrder K] [IsStrictOrderedRing K] [FloorRing K]

/-! ## C46: inserting gamma points -/

/-- Specification: point `i` of `n` is neither the first nor the last. -/
def interior (n i : Nat) : Prop := 0 < i ∧ i + 1 < n

instance (n i : Nat) : Decidable (interior n i) := by unfold interior; infer_instance

/-- Specification: interior gamma points appear twice. -/
def doubled (qs : List (V3 K)) : List (V3 K) :=
  (qs.mapIdx fun i q => if interior qs.length i ∧ isGamma q then [q, q] else [q]).flatten

/-- Specification: the weight of an interior gamma point is shared between its two copies. -/
def shared (qs : List (V3 K)) (ws : List K) : List K :=
  (ws.mapIdx fun i w => if interior qs.length i ∧ isGamma (qs.getD i ⟨0, 0, 0⟩) then [w / 2, w / 2]
    else [w]).flatten

theorem npInsertGo_skip {α : Type} (i : Nat) (ins : List (Nat × α)) (a : α) (arr : List α)
    (h : ∀ p ∈ ins, i < p.1) :
    npInsertGo i ins (a :: arr) = a :: npInsertGo (i + 1) ins arr := by
  cases ins with
  | nil => simp [npInsertGo]
  | cons p ins =>
    rw [npInsertGo, if_neg]
    have := h p (by simp)
    omega

theorem npInsertGo_eq {α : Type} (P : Nat → Bool) (f : Nat → α) (arr : List α) (i : Nat) :
    npInsertGo i ((((List.range' i arr.length).filter P).zip
      (((List.range' i arr.length).filter P).map f))) arr
      = (arr.mapIdx fun j a => if P (i + j) then [f (i + j), a] else [a]).flatten := by
  induction arr generalizing i with
  | nil => simp [npInsertGo]
  | cons a arr ih =>
    have hgt : ∀ p ∈ (((List.range' (i + 1) arr.length).filter P).zip
        (((List.range' (i + 1) arr.length).filter P).map f)), i < p.1 := by
      intro p hp
      have h1 := (List.of_mem_zip hp).1
      rw [List.mem_filter, List.mem_range'_1] at h1
      omega
    have ih' := ih (i + 1)
    rw [List.length_cons, List.range'_succ, List.mapIdx_cons, List.flatten_cons, add_zero]
    have hc : (arr.mapIdx fun j a => if P (i + (j + 1)) then [f (i + (j + 1)), a] else [a])
        = arr.mapIdx fun j a => if P (i + 1 + j) then [f (i + 1 + j), a] else [a] := by
      congr 1
      funext j a
      rw [show i + (j + 1) = i + 1 + j by omega]
    rw [hc, ← ih']
    cases hP : P i
    · rw [List.filter_cons_of_neg (by simp [hP]), npInsertGo_skip _ _ _ _ hgt]
      simp
    · rw [List.filter_cons_of_pos hP, List.map_cons, List.zip_cons_cons, npInsertGo, if_pos le_rfl,
        npInsertGo_skip _ _ _ _ hgt]
      simp

theorem splitGamma_eq (qs : List (V3 K)) :
    splitGamma qs = (List.range' 0 qs.length).filter fun i =>
      decide (interior qs.length i ∧ isGamma (qs.getD i ⟨0, 0, 0⟩)) := by
  unfold splitGamma whereGamma
  rw [List.filter_filter, ← List.range_eq_range']
  apply List.filter_congr
  intro i _
  unfold interior zeroV
  rw [Bool.eq_iff_iff]
  simp only [Bool.and_eq_true, decide_eq_true_eq]
  constructor
  · rintro ⟨⟨h1, h2⟩, h3⟩
    exact ⟨⟨h1, by omega⟩, h3⟩
  · rintro ⟨⟨h1, h2⟩, h3⟩
    exact ⟨⟨h1, by omega⟩, h3⟩

theorem mapIdx_congr {α β : Type} {f g : Nat → α → β} (l : List α)
    (h : ∀ i (hi : i < l.length), f i l[i] = g i l[i]) : l.mapIdx f = l.mapIdx g := by
  apply List.ext_getElem
  · simp
  · intro i h1 h2
    rw [List.getElem_mapIdx, List.getElem_mapIdx]
    exact h i (by simpa using h1)

theorem npInsert_splitGamma {α : Type} (qs : List (V3 K)) (arr : List α) (d : α)
    (hl : arr.length = qs.length) :
    npInsert arr (splitGamma qs) ((splitGamma qs).map fun i => arr.getD i d)
      = (arr.mapIdx fun i a => if interior qs.length i ∧ isGamma (qs.getD i ⟨0, 0, 0⟩) then [a, a]
        else [a]).flatten := by
  unfold npInsert
  rw [splitGamma_eq, ← hl, npInsertGo_eq]
  congr 1
  apply mapIdx_congr
  intro i hi
  simp only [zero_add, decide_eq_true_eq, List.getD_eq_getElem _ _ hi]

/-- **C46.** With `insert_gamma` the q-points are the given ones in the given order with every interior
gamma point doubled; weights are shared equally between the copies. -/
theorem C46_insert (qs : List (V3 K)) (ws : List K) (hl : ws.length = qs.length) :
    insertGamma qs (some ws) = (doubled qs, some (shared qs ws))
    ∧ (insertGamma qs none) = (doubled qs, none) := by
  have h1 : npInsert qs (splitGamma qs) ((splitGamma qs).map fun i => qs.getD i zeroV) = doubled qs := by
    rw [npInsert_splitGamma qs qs zeroV rfl]
    unfold doubled
    congr 1
    apply mapIdx_congr
    intro i hi
    rw [List.getD_eq_getElem _ _ hi]
  refine ⟨?_, by unfold insertGamma; dsimp only; rw [h1]; rfl⟩
  unfold insertGamma
  dsimp only
  rw [h1]
  simp only [Option.map_some, Prod.mk.injEq, true_and, Option.some.injEq]
  rw [npInsert_splitGamma qs _ 0 (by simp [hl])]
  unfold shared
  congr 1
  apply List.ext_getElem
  · simp
  · intro i h1 h2
    simp only [List.getElem_mapIdx]
    have hi : i < qs.length := by simpa [hl] using h1
    have hm : i ∈ splitGamma qs ↔ (interior qs.length i ∧ isGamma (qs.getD i ⟨0, 0, 0⟩) = true) := by
      rw [splitGamma_eq, List.mem_filter, List.mem_range'_1]
      simp [hi]
    by_cases h : interior qs.length i ∧ isGamma (qs.getD i ⟨0, 0, 0⟩) = true
    · rw [if_pos h, if_pos h, if_pos (hm.2 h)]
    · rw [if_neg h, if_neg h, if_neg (fun hh => h (hm.1 hh))]

theorem sum_mapIdx {α : Type} (g : Nat → α → List K) (f : α → K) (l : List α)
    (h : ∀ i a, (g i a).sum = f a) : ((l.mapIdx g).flatten).sum = (l.map f).sum := by
  induction l generalizing g with
  | nil => simp
  | cons a l ih =>
    rw [List.mapIdx_cons, List.flatten_cons, List.sum_append, h, List.map_cons, List.sum_cons,
      ih _ (fun i a => h (i + 1) a)]

/-- **C46.** The total weight is unchanged, and there is one weight for each q-point. -/
theorem C46_total_weight (qs : List (V3 K)) (ws : List K) (hl : ws.length = qs.length) :
    ∃ qs' ws', insertGamma qs (some ws) = (qs', some ws') ∧ ws'.sum = ws.sum
      ∧ ws'.length = qs'.length := by
  refine ⟨_, _, (C46_insert qs ws hl).1, ?_, ?_⟩
  · unfold shared
    rw [sum_mapIdx _ id ws, List.map_id]
    intro i a
    by_cases h : interior qs.length i ∧ isGamma (qs.getD i ⟨0, 0, 0⟩) = true
    · rw [if_pos h]
      simp
    · rw [if_neg h]
      simp
  · unfold shared doubled
    rw [List.length_flatten, List.length_flatten]
    congr 1
    apply List.ext_getElem
    · simp [hl]
    · intro i h1 h2
      have hi : i < qs.length := by simpa [hl] using h1
      simp only [List.getElem_map, List.getElem_mapIdx, List.getD_eq_getElem _ _ hi]
      split <;> rfl

/-- A path with two gamma points inside and one at the end: three duplicates would be wrong. -/
example : insertGamma (K := ℚ) [⟨1/2, 0, 0⟩, ⟨0, 0, 0⟩, ⟨1/2, 1/2, 0⟩, ⟨1, 0, 0⟩, ⟨0, 1/2, 0⟩, ⟨0, 0, 0⟩]
    (some [1, 2, 3, 4, 5, 6])
    = ([⟨1/2, 0, 0⟩, ⟨0, 0, 0⟩, ⟨0, 0, 0⟩, ⟨1/2, 1/2, 0⟩, ⟨1, 0, 0⟩, ⟨1, 0, 0⟩, ⟨0, 1/2, 0⟩, ⟨0, 0, 0⟩],
      some [1, 1, 1, 3, 2, 2, 5, 6]) := by
  rw [(C46_insert _ _ rfl).1]
  decide +kernel

/-- **C46.** The first copy of an inserted gamma point `g` gets the direction in which the path arrives,
the second copy the one in which it leaves (unless the path leaves to an equivalent point). -/
theorem C46_directions (l r : List (V3 K)) (a g b : V3 K) :
    let qs := l ++ [a, g, g, b] ++ r
    qDir qs (l.length + 1) = sub g a
    ∧ (isGamma (sub b g) = false → qDir qs (l.length + 2) = sub b g) := by
  intro qs
  have hlen : qs.length = l.length + 4 + r.length := by
    simp only [qs, List.length_append, List.length_cons, List.length_nil]
  have hget : ∀ k, qs.getD (l.length + k) zeroV = ([a, g, g, b] ++ r).getD k zeroV := by
    intro k
    simp only [qs, List.append_assoc]
    rw [List.getD_append_right _ _ _ _ (by omega)]
    congr 1
    omega
  have h0 : isGamma (sub g g) = true := by
    have h2 : rint (0 : K) = 0 := by exact_mod_cast rint_intCast (K := K) 0
    unfold isGamma sumAbs rem sub
    simp [h2]
  constructor
  · unfold qDir
    rw [if_neg (by omega), if_neg (by omega)]
    dsimp only
    rw [show l.length + 1 + 1 = l.length + 2 by omega, show l.length + 1 - 1 = l.length + 0 by omega,
      hget 2, hget 1, hget 0]
    simp only [List.cons_append, List.nil_append, List.getD_cons_zero, List.getD_cons_succ]
    rw [if_pos h0]
  · intro hb
    unfold qDir
    rw [if_neg (by omega), if_neg (by omega)]
    dsimp only
    rw [show l.length + 2 + 1 = l.length + 3 by omega, hget 3, hget 2]
    simp only [List.cons_append, List.nil_append, List.getD_cons_zero, List.getD_cons_succ]
    rw [hb]
    simp

/-! ## C45: reducing q-points -/

theorem rint_of_rem (x : K) : rint (x - rint x) = 0 := by
  have h := abs_sub_rint_le x
  rcases lt_or_eq_of_le h with h | h
  · apply rint_eq_of_abs_lt
    simpa using h
  · have h2 := abs_sub_rint_le_abs_sub (x - rint x) 0
    rcases abs_eq (by norm_num : (0 : K) ≤ 1 / 2) |>.1 h with h | h <;> rw [h]
    · have hf : ⌊(1 / 2 : K)⌋ = 0 := by rw [Int.floor_eq_iff]; norm_num
      have hr : Int.fract (1 / 2 : K) = 1 / 2 := by rw [Int.fract, hf]; norm_num
      unfold rint
      simp only [hf, hr]
      simp
    · have hf : ⌊(-(1 / 2) : K)⌋ = -1 := by rw [Int.floor_eq_iff]; norm_num
      have hr : Int.fract (-(1 / 2) : K) = 1 / 2 := by rw [Int.fract, hf]; norm_num
      unfold rint
      simp only [hf, hr]
      simp

/-- Reducing is idempotent. -/
theorem rem_rem (q : V3 K) : rem (rem q) = rem q := by
  simp only [rem, rint_of_rem, Int.cast_zero, sub_zero]

theorem isGamma_normQ (q : V3 K) : isGamma (normQ q) = isGamma q := by
  unfold normQ
  split
  · rename_i h
    rw [h]
    have h2 : rint (0 : K) = 0 := by exact_mod_cast rint_intCast (K := K) 0
    unfold isGamma sumAbs rem zeroV
    simp [h2]
  · unfold isGamma
    rw [rem_rem]

theorem setMany_length (l idx vals : List Nat) : (setMany l idx vals).length = l.length := by
  unfold setMany
  generalize idx.zip vals = z
  induction z generalizing l with
  | nil => rfl
  | cons p z ih => rw [List.foldl_cons, ih, List.length_set]

theorem setMany_notMem (l idx vals : List Nat) (p : Nat) (hp : p ∉ idx) :
    (setMany l idx vals).getD p 0 = l.getD p 0 := by
  unfold setMany
  induction idx generalizing l vals with
  | nil => simp
  | cons i idx ih =>
    cases vals with
    | nil => simp
    | cons v vals =>
      rw [List.mem_cons, not_or] at hp
      rw [List.zip_cons_cons, List.foldl_cons, ih _ _ hp.2]
      simp only [List.getD_eq_getElem?_getD, List.getElem?_set_ne (Ne.symm hp.1)]

theorem setMany_mem (l idx vals : List Nat) (hn : idx.Nodup) (hl : ∀ i ∈ idx, i < l.length)
    (hv : vals.length = idx.length) (k : Nat) (hk : k < idx.length) :
    (setMany l idx vals).getD idx[k] 0 = vals.getD k 0 := by
  induction idx generalizing l vals k with
  | nil => simp at hk
  | cons i idx ih =>
    cases vals with
    | nil => simp at hv
    | cons v vals =>
      rw [List.nodup_cons] at hn
      have e : setMany l (i :: idx) (v :: vals) = setMany (l.set i v) idx vals := rfl
      rw [e]
      cases k with
      | zero =>
        rw [List.getElem_cons_zero, setMany_notMem _ _ _ _ hn.1]
        have := hl i (by simp)
        simp [List.getD_eq_getElem?_getD, this]
      | succ k =>
        rw [List.getElem_cons_succ, ih _ _ hn.2 (by
          intro j hj; rw [List.length_set]; exact hl j (by simp [hj])) (by simpa using hv)]
        simp

theorem npUnique_get {α : Type} [DecidableEq α] (le : α → α → Bool) (l : List α) (d : α) (p : Nat)
    (hp : p < l.length) :
    (npUnique le l).2.getD p 0 < (npUnique le l).1.length
    ∧ (npUnique le l).1.getD ((npUnique le l).2.getD p 0) d = l.getD p d := by
  unfold npUnique
  dsimp only
  have hm : l[p] ∈ (l.mergeSort le).dedup := by
    rw [List.mem_dedup, List.mem_mergeSort]; exact List.getElem_mem hp
  rw [List.getD_eq_getElem _ _ (by simpa using hp), List.getElem_map]
  have hlt := List.idxOf_lt_length_of_mem hm
  refine ⟨hlt, ?_⟩
  rw [List.getD_eq_getElem _ _ hlt, List.getElem_idxOf, List.getD_eq_getElem _ _ hp]

theorem npUnique_surj {α : Type} [DecidableEq α] (le : α → α → Bool) (l : List α) (i : Nat)
    (hi : i < (npUnique le l).1.length) : ∃ p, p < l.length ∧ (npUnique le l).2.getD p 0 = i := by
  unfold npUnique at *
  dsimp only at *
  have hm : ((l.mergeSort le).dedup)[i] ∈ l := by
    have := List.getElem_mem hi
    rw [List.mem_dedup, List.mem_mergeSort] at this
    exact this
  obtain ⟨p, hp, he⟩ := List.getElem_of_mem hm
  refine ⟨p, hp, ?_⟩
  rw [List.getD_eq_getElem _ _ (by simpa using hp), List.getElem_map, he,
    List.Nodup.idxOf_getElem (List.nodup_dedup _)]

theorem npUnique_length {α : Type} [DecidableEq α] (le : α → α → Bool) (l : List α) :
    (npUnique le l).2.length = l.length := by
  simp [npUnique]

theorem mem_whereGamma (qs : List (V3 K)) (i : Nat) :
    i ∈ whereGamma qs ↔ i < qs.length ∧ isGamma (qs.getD i zeroV) = true := by
  unfold whereGamma
  rw [List.mem_filter, List.mem_range]

theorem nodup_whereGamma (qs : List (V3 K)) : (whereGamma qs).Nodup :=
  List.nodup_range.filter _

/-- Specification: the point at which the calculation for `q` is done. -/
def evalPoint (reduce : Bool) (q : V3 K) : V3 K :=
  if reduce then (if isGamma q then ⟨0, 0, 0⟩ else rem q) else q

/-- What the reduction has to satisfy. -/
structure GoodReduction (reduce splitting : Bool) (qs rq : List (V3 K)) (qi : List Nat) : Prop where
  len : qi.length = qs.length
  lt : ∀ p, p < qs.length → qi.getD p 0 < rq.length
  point : ∀ p, p < qs.length → rq.getD (qi.getD p 0) zeroV = evalPoint reduce (qs.getD p zeroV)
  surj : ∀ i, i < rq.length → ∃ p, p < qs.length ∧ qi.getD p 0 = i
  inj : splitting = true → ∀ p p', p < qs.length → p' < qs.length →
    isGamma (qs.getD p zeroV) = true → qi.getD p' 0 = qi.getD p 0 → p' = p

theorem isGamma_evalPoint (reduce : Bool) (q : V3 K) : isGamma (evalPoint reduce q) = isGamma q := by
  unfold evalPoint
  split
  · exact isGamma_normQ q
  · rfl

theorem reduceQ_good (reduce splitting : Bool) (qs : List (V3 K)) :
    GoodReduction reduce splitting qs (reduceQ reduce splitting qs).1
      (reduceQ reduce splitting qs).2 := by
  unfold reduceQ
  cases reduce with
  | false =>
    simp only [Bool.false_eq_true, if_false]
    have hr : ∀ p, p < qs.length → (List.range qs.length).getD p 0 = p := by
      intro p hp
      rw [List.getD_eq_getElem _ _ (by simpa using hp), List.getElem_range]
    refine ⟨by simp, fun p hp => by rw [hr p hp]; exact hp, fun p hp => by
      rw [hr p hp]; simp [evalPoint], fun i hi => ⟨i, hi, hr i hi⟩, ?_⟩
    intro _ p p' hp hp' _ h
    rw [hr p hp, hr p' hp'] at h
    exact h
  | true =>
    simp only [if_true]
    have hml : (qs.map (normQ (K := K))).length = qs.length := by simp
    have hget : ∀ p, p < qs.length → (qs.map normQ).getD p zeroV
        = evalPoint true (qs.getD p zeroV) := by
      intro p hp
      rw [List.getD_eq_getElem _ _ (by simpa using hp), List.getElem_map, List.getD_eq_getElem _ _ hp]
      rfl
    have hU := fun p (hp : p < qs.length) =>
      npUnique_get rowLe (qs.map (normQ (K := K))) zeroV p (by simpa using hp)
    have hS := fun i hi => npUnique_surj rowLe (qs.map (normQ (K := K))) i hi
    have hL := npUnique_length rowLe (qs.map (normQ (K := K)))
    rcases hnu : npUnique rowLe (qs.map (normQ (K := K))) with ⟨u, inv⟩
    rw [hnu] at hU hS hL
    dsimp only at hU hS hL ⊢
    rw [hml] at hL hS
    -- two points with the same index are reduced to the same point
    have hsame : ∀ p p', p < qs.length → p' < qs.length → inv.getD p' 0 = inv.getD p 0 →
        isGamma (qs.getD p zeroV) = true → isGamma (qs.getD p' zeroV) = true := by
      intro p p' hp hp' h hg
      have h1 := (hU p hp).2
      have h2 := (hU p' hp').2
      rw [h, h1, hget p hp, hget p' hp'] at h2
      rw [← isGamma_evalPoint true (qs.getD p' zeroV), ← h2, isGamma_evalPoint, hg]
    have hwn := nodup_whereGamma qs
    have hwm := mem_whereGamma qs
    rcases hw : whereGamma qs with _ | ⟨g0, gs⟩
    · -- no gamma points
      rw [hw] at hwm
      simp only [List.length_nil, Nat.not_lt_zero, decide_false, Bool.and_false, Bool.false_eq_true,
        if_false]
      refine ⟨hL, fun p hp => (hU p hp).1, fun p hp => by rw [(hU p hp).2, hget p hp], hS, ?_⟩
      intro _ p p' hp hp' hg _
      exact absurd ((hwm p).2 ⟨hp, hg⟩) (by simp)
    · rw [hw] at hwn hwm
      rw [List.nodup_cons] at hwn
      by_cases hc : (splitting && decide (1 < (g0 :: gs).length)) = true
      · rw [if_pos hc]
        simp only [Bool.and_eq_true, decide_eq_true_eq] at hc
        dsimp only
        rw [List.tail_cons, List.length_cons, Nat.add_sub_cancel]
        have hidx : ∀ i ∈ gs, i < inv.length := by
          intro i hi
          rw [hL]
          exact ((hwm i).1 (by simp [hi])).1
        have hmem : ∀ k (hk : k < gs.length),
            (setMany inv gs (List.range' u.length gs.length)).getD gs[k] 0 = u.length + k := by
          intro k hk
          rw [setMany_mem _ _ _ hwn.2 hidx (by simp) k hk,
            List.getD_eq_getElem _ _ (by simpa using hk)]
          simp
        have hnot : ∀ p, p ∉ gs →
            (setMany inv gs (List.range' u.length gs.length)).getD p 0 = inv.getD p 0 :=
          fun p hp => setMany_notMem _ _ _ p hp
        have hzero : ∀ k, k < gs.length →
            (u ++ List.replicate gs.length (zeroV : V3 K)).getD (u.length + k) zeroV = zeroV := by
          intro k hk
          rw [List.getD_append_right _ _ _ _ (by omega), show u.length + k - u.length = k by omega,
            List.getD_eq_getElem _ _ (by simpa using hk), List.getElem_replicate]
        have hfirst : ∀ j, j < u.length →
            (u ++ List.replicate gs.length (zeroV : V3 K)).getD j zeroV = u.getD j zeroV := by
          intro j hj
          rw [List.getD_append _ _ _ _ hj]
        have hg0 : g0 < qs.length ∧ isGamma (qs.getD g0 zeroV) = true := (hwm g0).1 (by simp)
        -- every gamma point has the same original index
        have hsameidx : ∀ p, p < qs.length → isGamma (qs.getD p zeroV) = true →
            inv.getD p 0 = inv.getD g0 0 := by
          intro p hp hg
          have h1 : (qs.map (normQ (K := K))).getD p zeroV = (qs.map normQ).getD g0 zeroV := by
            rw [hget p hp, hget g0 hg0.1]
            unfold evalPoint
            rw [hg, hg0.2]
            rfl
          have h2 : inv = (qs.map normQ).map fun a => u.idxOf a := by
            have := congrArg Prod.snd hnu
            have h3 := congrArg Prod.fst hnu
            simp only [npUnique] at this h3
            rw [← this, ← h3]
          rw [h2, List.getD_eq_getElem _ _ (by simpa using hp),
            List.getD_eq_getElem _ _ (by simpa using hg0.1)]
          rw [List.getD_eq_getElem _ _ (by simpa using hp),
            List.getD_eq_getElem _ _ (by simpa using hg0.1)] at h1
          simp only [List.getElem_map] at h1 ⊢
          rw [h1]
        refine ⟨by rw [setMany_length, hL], ?_, ?_, ?_, ?_⟩
        · intro p hp
          rw [List.length_append, List.length_replicate]
          by_cases hpg : p ∈ gs
          · obtain ⟨k, hk, rfl⟩ := List.getElem_of_mem hpg
            rw [hmem k hk]
            omega
          · rw [hnot p hpg]
            have := (hU p hp).1
            omega
        · intro p hp
          by_cases hpg : p ∈ gs
          · obtain ⟨k, hk, rfl⟩ := List.getElem_of_mem hpg
            rw [hmem k hk, hzero k hk]
            have := ((hwm gs[k]).1 (by simp)).2
            unfold evalPoint
            rw [this]
            rfl
          · rw [hnot p hpg, hfirst _ (hU p hp).1, (hU p hp).2, hget p hp]
        · intro i hi
          rw [List.length_append, List.length_replicate] at hi
          by_cases h : i < u.length
          · obtain ⟨p, hp, he⟩ := hS i h
            by_cases hpg : p ∈ gs
            · refine ⟨g0, hg0.1, ?_⟩
              rw [hnot g0 hwn.1, ← hsameidx p hp ((hwm p).1 (by simp [hpg])).2, he]
            · exact ⟨p, hp, by rw [hnot p hpg, he]⟩
          · have hk : i - u.length < gs.length := by omega
            refine ⟨gs[i - u.length], ((hwm _).1 (by simp)).1, ?_⟩
            rw [hmem _ hk]
            omega
        · intro _ p p' hp hp' hg h
          by_cases hpg : p ∈ gs
          · obtain ⟨k, hk, rfl⟩ := List.getElem_of_mem hpg
            rw [hmem k hk] at h
            by_cases hpg' : p' ∈ gs
            · obtain ⟨k', hk', rfl⟩ := List.getElem_of_mem hpg'
              rw [hmem k' hk'] at h
              have : k' = k := by omega
              subst this
              rfl
            · rw [hnot p' hpg'] at h
              have := (hU p' hp').1
              omega
          · have hp0 : p = g0 := by
              have := (hwm p).2 ⟨hp, hg⟩
              rcases List.mem_cons.1 this with h | h
              · exact h
              · exact absurd h hpg
            rw [hnot p hpg] at h
            by_cases hpg' : p' ∈ gs
            · obtain ⟨k', hk', rfl⟩ := List.getElem_of_mem hpg'
              rw [hmem k' hk'] at h
              have := (hU p hp).1
              omega
            · rw [hnot p' hpg'] at h
              have hg' := hsame p p' hp hp' h hg
              have := (hwm p').2 ⟨hp', hg'⟩
              rcases List.mem_cons.1 this with h | h
              · rw [h, hp0]
              · exact absurd h hpg'
      · rw [if_neg hc]
        dsimp only
        refine ⟨hL, fun p hp => (hU p hp).1, fun p hp => by rw [(hU p hp).2, hget p hp], hS, ?_⟩
        intro hs p p' hp hp' hg h
        -- only one gamma point
        have hgs : gs = [] := by
          rw [hs] at hc
          simp only [Bool.true_and, List.length_cons, decide_eq_true_eq, not_lt] at hc
          exact List.length_eq_zero_iff.1 (by omega)
        have h1 := (hwm p).2 ⟨hp, hg⟩
        have h2 := (hwm p').2 ⟨hp', hsame p p' hp hp' h hg⟩
        rw [hgs, List.mem_singleton] at h1 h2
        rw [h1, h2]

/-- Specification: splitting direction at position `p` of the path. -/
def pathDir (splitting : Bool) (qs : List (V3 K)) (p : Nat) : Option (V3 K) :=
  if splitting && isGamma (qs.getD p ⟨0, 0, 0⟩) then
    some (if 1 < qs.length then qDir qs p else ⟨0, 0, 0⟩)
  else none

theorem positions_eq (qi : List Nat) (p : Nat) (hp : p < qi.length)
    (h : ∀ p', p' < qi.length → qi.getD p' 0 = qi.getD p 0 → p' = p) :
    positions qi (qi.getD p 0) = [p] := by
  unfold positions
  have h1 : ((List.range qi.length).filter fun p' => qi.getD p' 0 == qi.getD p 0)
      = (List.range qi.length).filter fun p' => p' == p := by
    apply List.filter_congr
    intro p' hp'
    rw [List.mem_range] at hp'
    rw [Bool.eq_iff_iff, beq_iff_eq, beq_iff_eq]
    exact ⟨h p' hp', fun e => by rw [e]⟩
  rw [h1, List.filter_beq, List.count_eq_one_of_mem List.nodup_range (List.mem_range.2 hp)]
  rfl

/-- Directions are found for all gamma points, and each q-point gets the direction of its own position. -/
theorem loopDir_spec (reduce splitting : Bool) (qs rq : List (V3 K)) (qi : List Nat)
    (hr : reduceQ reduce splitting qs = (rq, qi)) :
    ∃ dirs : List (V3 K), dirsIf splitting qs qi (if splitting then whereGamma rq else []) = .ok dirs ∧
      ∀ p, p < qs.length → loopDir splitting (if splitting then whereGamma rq else []) dirs
        (rq.getD (qi.getD p 0) zeroV) (qi.getD p 0) = .ok (pathDir splitting qs p) := by
  have hg := reduceQ_good reduce splitting qs
  rw [hr] at hg
  dsimp only at hg
  -- directions
  have hdirs : ∃ dirs : List (V3 K), dirsIf splitting qs qi (if splitting then whereGamma rq
      else []) = .ok dirs ∧ (splitting = true → dirs.length = (whereGamma rq).length ∧
      ∀ k p, p < qs.length → (whereGamma rq)[k]? = some (qi.getD p 0) →
        isGamma (qs.getD p zeroV) = true →
        dirs.getD k zeroV = if 1 < qs.length then qDir qs p else ⟨0, 0, 0⟩) := by
    unfold dirsIf
    cases hs : splitting with
    | false => exact ⟨[], by simp, by simp⟩
    | true =>
      simp only [if_true, forall_const]
      unfold getQDirs
      by_cases hl : 1 < qs.length
      · simp only [if_pos hl]
        -- position of each reduced gamma point
        have hpos : ∀ i ∈ whereGamma rq, ∃ p, p < qs.length ∧ qi.getD p 0 = i ∧
            positions qi i = [p] := by
          intro i hi
          rw [mem_whereGamma] at hi
          obtain ⟨p, hp, he⟩ := hg.surj i hi.1
          have hgam : isGamma (qs.getD p zeroV) = true := by
            rw [← isGamma_evalPoint reduce, ← hg.point p hp, he]
            exact hi.2
          refine ⟨p, hp, he, ?_⟩
          rw [← he]
          apply positions_eq _ _ (by rw [hg.len]; exact hp)
          intro p' hp' h
          exact hg.inj hs p p' hp (by rw [hg.len] at hp'; exact hp') hgam h
        refine ⟨(whereGamma rq).map fun i => qDir qs ((positions qi i).getD 0 0), ?_, by simp, ?_⟩
        · apply mapM_ok_of_forall
          intro i hi
          obtain ⟨p, -, -, h⟩ := hpos i hi
          rw [h]
          rfl
        · intro k p hp hk hgam
          obtain ⟨hk', he⟩ := List.getElem?_eq_some_iff.1 hk
          rw [List.getD_eq_getElem _ _ (by simpa using hk'), List.getElem_map, he]
          congr 1
          rw [positions_eq _ p (by rw [hg.len]; exact hp)]
          · rfl
          · intro p' hp' h
            exact hg.inj hs p p' hp (by rw [hg.len] at hp'; exact hp') hgam h
      · simp only [if_neg hl]
        refine ⟨_, rfl, by simp, ?_⟩
        intro k p _ hk _
        obtain ⟨hk', he⟩ := List.getElem?_eq_some_iff.1 hk
        rw [List.getD_eq_getElem _ _ (by simpa using hk'), List.getElem_map]
        rfl
  obtain ⟨dirs, hd, hdir⟩ := hdirs
  refine ⟨dirs, hd, ?_⟩
  have hloop : ∀ p, p < qs.length → loopDir splitting (if splitting then whereGamma rq else []) dirs
      (rq.getD (qi.getD p 0) zeroV) (qi.getD p 0) = .ok (pathDir splitting qs p) := by
    intro p hp
    unfold loopDir pathDir
    rw [hg.point p hp, isGamma_evalPoint]
    cases hs : splitting with
    | false => simp
    | true =>
      cases hgam : isGamma (qs.getD p zeroV) with
      | false =>
        have : isGamma (qs.getD p ⟨0, 0, 0⟩) = false := hgam
        rw [this]
        simp
      | true =>
        have hgam' : isGamma (qs.getD p ⟨0, 0, 0⟩) = true := hgam
        rw [hgam']
        simp only [Bool.and_true, if_true]
        obtain ⟨hlen, hval⟩ := hdir hs
        have hmem : qi.getD p 0 ∈ whereGamma rq := by
          rw [mem_whereGamma]
          refine ⟨hg.lt p hp, ?_⟩
          rw [hg.point p hp, isGamma_evalPoint, hgam]
        obtain ⟨k, hk, he⟩ := List.getElem_of_mem hmem
        have hk0 : (whereGamma rq).getD k 0 = qi.getD p 0 := by
          rw [List.getD_eq_getElem _ _ hk, he]
        have hpos : positions (whereGamma rq) (qi.getD p 0) = [k] := by
          rw [← hk0]
          apply positions_eq _ _ hk
          intro k' hk' h
          rw [List.getD_eq_getElem _ _ hk', List.getD_eq_getElem _ _ hk] at h
          exact (List.Nodup.getElem_inj_iff (nodup_whereGamma rq)).1 h
        rw [hpos]
        simp only
        rw [if_pos (by rw [hlen]; exact hk), hval k p hp (by rw [List.getElem?_eq_getElem hk, he]) hgam]
  exact hloop

/-- **C45.** The result at position `p` is that of the calculation at a point equivalent to `q_p`
(exactly zero for a gamma point), with the splitting direction belonging to position `p`; number and order
of the results are those of the q-points, no indexing error occurs, for every list of q-points. -/
theorem C45_results {R : Type} (reduce splitting : Bool) (qs : List (V3 K))
    (at1 : V3 K → Option (V3 K) → R) :
    atQpts reduce splitting qs at1 = .ok ((List.range qs.length).map fun p =>
      at1 (evalPoint reduce (qs.getD p ⟨0, 0, 0⟩)) (pathDir splitting qs p)) := by
  have hg := reduceQ_good reduce splitting qs
  unfold atQpts
  rcases hr : reduceQ reduce splitting qs with ⟨rq, qi⟩
  rw [hr] at hg
  dsimp only at hg ⊢
  obtain ⟨dirs, hd, hloop⟩ := loopDir_spec reduce splitting qs rq qi hr
  rw [hd]
  -- every reduced point belongs to some position
  have hres : ((List.range rq.length).mapM fun i => do
      let d ← loopDir splitting (if splitting then whereGamma rq else []) dirs (rq.getD i zeroV) i
      (.ok (at1 (rq.getD i zeroV) d) : Except Err R))
      = .ok ((List.range rq.length).map fun i => at1 (rq.getD i zeroV)
        ((loopDir splitting (if splitting then whereGamma rq else []) dirs (rq.getD i zeroV) i).toOption.getD
          none)) := by
    apply mapM_ok_of_forall
    intro i hi
    rw [List.mem_range] at hi
    obtain ⟨p, hp, rfl⟩ := hg.surj i hi
    rw [hloop p hp]
    rfl
  change ((List.range rq.length).mapM fun i => do
      let d ← loopDir splitting (if splitting then whereGamma rq else []) dirs (rq.getD i zeroV) i
      (.ok (at1 (rq.getD i zeroV) d) : Except Err R)) >>= _ = _
  rw [hres]
  simp only [bind, Except.bind]
  have hqi : qi = (List.range qs.length).map fun p => qi.getD p 0 := by
    apply List.ext_getElem
    · simp [hg.len]
    · intro p h1 h2
      rw [List.getElem_map, List.getElem_range, List.getD_eq_getElem _ _ h1]
  rw [mapM_ok_of_forall _ (fun i => at1 (rq.getD i zeroV)
        ((loopDir splitting (if splitting then whereGamma rq else []) dirs (rq.getD i zeroV) i).toOption.getD
          none)) qi]
  · congr 1
    conv_lhs => rw [hqi]
    rw [List.map_map]
    apply List.map_congr_left
    intro p hp
    rw [List.mem_range] at hp
    simp only [Function.comp]
    rw [hloop p hp, hg.point p hp]
    rfl
  · intro i hi
    have hlt : i < rq.length := by
      obtain ⟨p, hp, he⟩ := List.getElem_of_mem hi
      rw [hg.len] at hp
      have := hg.lt p hp
      rw [List.getD_eq_getElem _ _ (by rw [hg.len]; exact hp), he] at this
      exact this
    rw [List.getElem?_eq_getElem (by simpa using hlt), List.getElem_map, List.getElem_range]

/-- **C45.** Reducing the q-points changes no result, for every calculation that depends on a q-point only
up to reciprocal lattice vectors and rounding of gamma points. -/
theorem C45_no_effect {R : Type} (splitting : Bool) (qs : List (V3 K)) (at1 : V3 K → Option (V3 K) → R)
    (hper : ∀ q ∈ qs, ∀ d, at1 (evalPoint true q) d = at1 q d) :
    atQpts true splitting qs at1 = atQpts false splitting qs at1 := by
  rw [C45_results, C45_results]
  congr 1
  apply List.map_congr_left
  intro p hp
  rw [List.mem_range] at hp
  rw [hper _ (by rw [List.getD_eq_getElem _ _ hp]; exact List.getElem_mem hp)]
  rfl

/-- Repeated points, equivalent points and three gamma points with different directions. -/
example : atQpts (K := ℚ) true true
    [⟨1/4, 0, 0⟩, ⟨0, 0, 0⟩, ⟨5/4, 0, 0⟩, ⟨1, 0, 0⟩, ⟨1/4, 0, 1/2⟩, ⟨0, 0, 0⟩] (fun q d => (q, d))
    = .ok [(⟨1/4, 0, 0⟩, none), (⟨0, 0, 0⟩, some ⟨5/4, 0, 0⟩), (⟨1/4, 0, 0⟩, none),
      (⟨0, 0, 0⟩, some ⟨-3/4, 0, 1/2⟩), (⟨1/4, 0, 1/2⟩, none), (⟨0, 0, 0⟩, some ⟨-1/4, 0, -1/2⟩)] := by
  rw [C45_results]
  decide +kernel

end Euphonic.Driver
