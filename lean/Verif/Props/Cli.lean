import Verif.Prelude
import Verif.Model.Cli
import Verif.Lemmas.ListIdx
import Mathlib.Algebra.Order.Floor.Ring
import Mathlib.Tactic.Linarith
import Mathlib.Tactic.FieldSimp
import Mathlib.Tactic.Ring
import Mathlib.Tactic.Positivity
import Mathlib.Algebra.Order.Round
import Mathlib.Data.Rat.Floor

/-! # Properties C71, C72, C74, C79: band paths, energy bins, point counts and loading files -/

set_option autoImplicit false
set_option linter.unusedSectionVars false

namespace Euphonic.Cli

/-! ## C71 -/

theorem mem_npWhere (m : List Bool) (i : Nat) : i ∈ npWhere m ↔ m[i]? = some true := by
  unfold npWhere
  simp only [List.mem_filter, List.mem_range, List.getD_eq_getElem?_getD]
  constructor
  · rintro ⟨h, h2⟩
    rw [List.getElem?_eq_getElem h] at h2 ⊢
    simpa using h2
  · intro h
    obtain ⟨h1, h2⟩ := List.getElem?_eq_some_iff.1 h
    exact ⟨h1, by rw [h]; rfl⟩

theorem pairwise_npWhere (m : List Bool) : (npWhere m).Pairwise (· < ·) :=
  List.Pairwise.filter _ List.pairwise_lt_range

/-- How a label is shown. -/
def shown (s : String) : String := if s = "GAMMA" then "$\\Gamma$" else s

/-- **C71**. The ticks are in order of position and are exactly the labelled points, each with its
label (`GAMMA` shown as `$\Gamma$`). -/
theorem C71_ticks (labels : List String) :
    ((tickLabels labels).map (·.1)).Pairwise (· < ·) ∧
    ∀ i s, (i, s) ∈ tickLabels labels ↔ ∃ l, labels[i]? = some l ∧ l ≠ "" ∧ s = shown l := by
  have hz : tickLabels labels = (npWhere (labels.map fun s => s != "")).map
      fun i => (i, shown (labels.getD i "")) := by
    unfold tickLabels
    simp only [List.map_map]
    rw [List.zip_eq_zipWith, List.zipWith_map_right]
    rw [List.zipWith_self]
    rfl
  constructor
  · rw [hz, List.map_map]
    simpa [Function.comp_def] using pairwise_npWhere _
  · intro i s
    rw [hz, List.mem_map]
    simp only [mem_npWhere, Prod.mk.injEq, List.getElem?_map, Option.map_eq_some_iff]
    constructor
    · rintro ⟨j, ⟨l, hl, hne⟩, rfl, rfl⟩
      refine ⟨l, hl, by simpa using hne, ?_⟩
      rw [List.getD_eq_getElem?_getD, hl]; rfl
    · rintro ⟨l, hl, hne, rfl⟩
      refine ⟨i, ⟨l, hl, by simpa using hne⟩, rfl, ?_⟩
      rw [List.getD_eq_getElem?_getD, hl]; rfl

example : tickLabels ["L", "", "", "X", "", "GAMMA"] = [(0, "L"), (3, "X"), (5, "$\\Gamma$")] := by
  decide +kernel

/-- **C71**. The path is broken before point `k` exactly when point `k` and the point before it both
have labels, and these differ.  Breaks are listed in increasing order; none is at the ends. -/
theorem C71_breaks (labels : List String) :
    (breakPoints labels).Pairwise (· < ·) ∧
    ∀ k, k ∈ breakPoints labels ↔ ∃ j a b, k = j + 1 ∧ labels[j]? = some a ∧
      labels[j + 1]? = some b ∧ a ≠ "" ∧ b ≠ "" ∧ a ≠ b := by
  unfold breakPoints
  dsimp only
  constructor
  · rw [List.pairwise_map]
    exact (pairwise_npWhere _).imp (by intro a b h; omega)
  · intro k
    simp only [List.mem_map, mem_npWhere]
    have key : ∀ j, (List.zipWith (· && ·)
        (List.zipWith (· && ·) (labels.map fun s => s != "").dropLast (labels.map fun s => s != "").tail)
        (List.zipWith (· != ·) labels.dropLast labels.tail))[j]? = some true ↔
        ∃ a b, labels[j]? = some a ∧ labels[j + 1]? = some b ∧ a ≠ "" ∧ b ≠ "" ∧ a ≠ b := by
      intro j
      simp only [List.getElem?_zipWith, List.getElem?_tail, List.getElem?_dropLast, List.length_map,
        List.getElem?_map]
      by_cases hj : j < labels.length - 1
      · have h1 : j < labels.length := by omega
        have h2 : j + 1 < labels.length := by omega
        simp only [hj, if_true, List.getElem?_eq_getElem h1, List.getElem?_eq_getElem h2]
        simp only [Option.map_some, Option.some.injEq, Bool.and_eq_true, bne_iff_ne, ne_eq]
        constructor
        · rintro ⟨⟨h1, h2⟩, h3⟩; exact ⟨_, _, rfl, rfl, h1, h2, h3⟩
        · rintro ⟨a, b, rfl, rfl, h1, h2, h3⟩; exact ⟨⟨h1, h2⟩, h3⟩
      · have h2 : labels[j + 1]? = none := by
          rw [List.getElem?_eq_none_iff]; omega
        simp [hj, h2]
    constructor
    · rintro ⟨j, hj, rfl⟩
      obtain ⟨a, b, h⟩ := (key j).1 hj
      exact ⟨j, a, b, rfl, h⟩
    · rintro ⟨j, a, b, rfl, h⟩
      exact ⟨j, (key j).2 ⟨a, b, h⟩, rfl⟩

example : breakPoints ["GAMMA", "", "X", "K", "", "GAMMA", "GAMMA", "L"] = [3, 7] := by decide +kernel

/-- A point of the path which `_insert_gamma` is to duplicate: labelled `GAMMA` and neither first nor
last. -/
def Dup (labels : List String) (i : Nat) : Prop :=
  0 < i ∧ i + 1 < labels.length ∧ labels[i]? = some "GAMMA"

instance (labels : List String) (i : Nat) : Decidable (Dup labels i) := by unfold Dup; infer_instance

/-- Which point of the old path each point of the new path is. -/
def sources (labels : List String) : List Nat :=
  (List.range labels.length).flatMap fun i => if Dup labels i then [i, i] else [i]

theorem mem_gammaIndices (labels : List String) (i : Nat) : i ∈ gammaIndices labels ↔ Dup labels i := by
  unfold gammaIndices Dup
  simp only [List.mem_map, mem_npWhere, List.getElem?_map, List.getElem?_dropLast, List.length_tail,
    List.getElem?_tail, Option.map_eq_some_iff]
  constructor
  · rintro ⟨j, ⟨s, hs, hg⟩, rfl⟩
    split at hs
    · refine ⟨by omega, by omega, ?_⟩
      rw [hs]; simpa using hg
    · cases hs
  · rintro ⟨h1, h2, h3⟩
    refine ⟨i - 1, ⟨"GAMMA", ?_, by simp⟩, by omega⟩
    rw [if_pos (by omega), Nat.sub_add_cancel h1]; exact h3

theorem pairwise_gammaIndices (labels : List String) : (gammaIndices labels).Pairwise (· < ·) := by
  unfold gammaIndices
  rw [List.pairwise_map]
  exact (pairwise_npWhere _).imp (by intro a b h; omega)

/-- Inserting copies at increasing positions, from the last to the first, duplicates those positions. -/
theorem foldr_insert {β : Type} (x : β) (l : List β) (idxs : List Nat) (hs : idxs.Pairwise (· < ·))
    (hx : ∀ i ∈ idxs, l[i]? = some x) :
    idxs.foldr (fun i m => pyInsert m i x) l =
      (List.range l.length).flatMap fun i => if i ∈ idxs then [l.getD i x, l.getD i x] else [l.getD i x] := by
  induction idxs with
  | nil =>
    simp only [List.foldr_nil, List.not_mem_nil, if_false, List.flatMap_singleton']
    rw [← List.map_eq_flatMap]
    apply List.ext_getElem
    · simp
    · intro i h1 h2
      simp [List.getElem?_eq_getElem h1]
  | cons i rest ih =>
    rw [List.pairwise_cons] at hs
    rw [List.foldr_cons, ih hs.2 fun k hk => hx k (by simp [hk])]
    have hi := hx i (by simp)
    obtain ⟨hil, hie⟩ := List.getElem?_eq_some_iff.1 hi
    have hsplit : List.range l.length = List.range i ++ i :: List.range' (i + 1) (l.length - (i + 1)) := by
      rw [List.range_eq_range', List.range_eq_range']
      have : l.length = i + (1 + (l.length - (i + 1))) := by omega
      conv_lhs => rw [this]
      rw [← List.range'_append, ← List.range'_append]
      simp [Nat.add_comm]
    have hnr : i ∉ rest := fun h => absurd (hs.1 i h) (lt_irrefl _)
    have hlow : ∀ k ∈ List.range i, k ∉ rest ∧ k ∉ i :: rest := by
      intro k hk
      rw [List.mem_range] at hk
      have : k ∉ rest := fun h => by have := hs.1 k h; omega
      refine ⟨this, ?_⟩
      simp only [List.mem_cons, not_or]
      exact ⟨by omega, this⟩
    have hhigh : ∀ k ∈ List.range' (i + 1) (l.length - (i + 1)), (k ∈ i :: rest ↔ k ∈ rest) := by
      intro k hk
      rw [List.mem_range'_1] at hk
      simp only [List.mem_cons]
      constructor
      · rintro (h | h)
        · omega
        · exact h
      · exact Or.inr
    rw [hsplit]
    simp only [List.flatMap_append, List.flatMap_cons, hnr, if_false, List.mem_cons_self, if_true]
    have e1 : (List.range i).flatMap (fun k => if k ∈ rest then [l.getD k x, l.getD k x] else [l.getD k x]) =
        (List.range i).map fun k => l.getD k x := by
      rw [List.map_eq_flatMap]
      apply List.flatMap_congr
      intro k hk; rw [if_neg (hlow k hk).1]
    have e2 : (List.range i).flatMap (fun k => if k ∈ i :: rest then [l.getD k x, l.getD k x] else [l.getD k x]) =
        (List.range i).map fun k => l.getD k x := by
      rw [List.map_eq_flatMap]
      apply List.flatMap_congr
      intro k hk; rw [if_neg (hlow k hk).2]
    have e3 : (List.range' (i + 1) (l.length - (i + 1))).flatMap
          (fun k => if k ∈ i :: rest then [l.getD k x, l.getD k x] else [l.getD k x]) =
        (List.range' (i + 1) (l.length - (i + 1))).flatMap
          (fun k => if k ∈ rest then [l.getD k x, l.getD k x] else [l.getD k x]) := by
      apply List.flatMap_congr
      intro k hk
      simp only [hhigh k hk]
    rw [e1, e2, e3]
    unfold pyInsert
    rw [List.take_left' (by simp), List.drop_left' (by simp)]
    have : l.getD i x = x := by rw [List.getD_eq_getElem?_getD, hi]; rfl
    rw [this]
    simp

theorem foldl_pair {κ β : Type} (o : κ) (g : β) (idxs : List Nat) (a : List κ) (b : List β) :
    idxs.foldl (fun (st : List κ × List β) i => (pyInsert st.1 i o, pyInsert st.2 i g)) (a, b) =
      (idxs.foldl (fun m i => pyInsert m i o) a, idxs.foldl (fun m i => pyInsert m i g) b) := by
  induction idxs generalizing a b with
  | nil => rfl
  | cons i rest ih => simp only [List.foldl_cons]; exact ih _ _

/-- **C71**. Inserting gamma points repeats exactly the interior points labelled `GAMMA`, once each, and
does the same to coordinates and labels: point `m` of the new path is point `sources[m]` of the old one in
both lists. (The points labelled `GAMMA` are at the origin, as in every band path.) -/
theorem C71_gamma {κ : Type} (origin : κ) (kpts : List κ) (labels : List String)
    (hlen : kpts.length = labels.length)
    (hg : ∀ i, Dup labels i → kpts[i]? = some origin) :
    (insertGamma origin kpts labels).1.length = (sources labels).length ∧
    (insertGamma origin kpts labels).2.length = (sources labels).length ∧
    ∀ m i : Nat, (sources labels)[m]? = some i →
      i < labels.length ∧ (insertGamma origin kpts labels).1[m]? = kpts[i]? ∧
      (insertGamma origin kpts labels).2[m]? = labels[i]? := by
  have main : ∀ {β : Type} (x : β) (l : List β), l.length = labels.length →
      (∀ i, Dup labels i → l[i]? = some x) →
      (gammaIndices labels).reverse.foldl (fun m i => pyInsert m i x) l =
        (sources labels).map fun i => l.getD i x := by
    intro β x l hl hx
    rw [List.foldl_reverse, foldr_insert x l _ (pairwise_gammaIndices labels)
      (fun i hi => hx i ((mem_gammaIndices labels i).1 hi)), hl, sources, List.map_flatMap]
    apply List.flatMap_congr
    intro i _
    simp only [mem_gammaIndices]
    split <;> rfl
  have h1 := main origin kpts hlen hg
  have h2 := main "GAMMA" labels rfl fun i hi => hi.2.2
  have hpair : insertGamma origin kpts labels =
      ((sources labels).map (fun i => kpts.getD i origin), (sources labels).map fun i => labels.getD i "GAMMA") := by
    unfold insertGamma
    rw [foldl_pair, h1, h2]
  rw [hpair]
  refine ⟨by simp, by simp, ?_⟩
  intro m i hm
  have hi : i < labels.length := by
    have := List.mem_of_getElem? hm
    unfold sources at this
    rw [List.mem_flatMap] at this
    obtain ⟨k, hk, hik⟩ := this
    rw [List.mem_range] at hk
    split at hik <;> simp at hik <;> omega
  refine ⟨hi, ?_, ?_⟩
  · rw [List.getElem?_map, hm, Option.map_some, List.getD_eq_getElem _ _ (by omega),
      List.getElem?_eq_getElem (by omega)]
  · rw [List.getElem?_map, hm, Option.map_some, List.getD_eq_getElem _ _ hi,
      List.getElem?_eq_getElem hi]

/-- Non-vacuity of `C71_gamma`: two interior gamma points, one at each end. -/
example : insertGamma (0 : ℚ) [0, 1, 0, 2, 0, 0] ["GAMMA", "X", "GAMMA", "", "GAMMA", "GAMMA"] =
      ([0, 1, 0, 0, 2, 0, 0, 0],
       ["GAMMA", "X", "GAMMA", "GAMMA", "", "GAMMA", "GAMMA", "GAMMA"]) ∧
    sources ["GAMMA", "X", "GAMMA", "", "GAMMA", "GAMMA"] = [0, 1, 2, 2, 3, 4, 4, 5] := by
  decide +kernel

/-! ## C72 -/

section field
variable {α : Type} [Field α] [LinearOrder α] [IsStrictOrderedRing α]

theorem linspace_get (a b : α) (n : Nat) (hn : 1 < n) (i : Nat) (hi : i < n) :
    (linspace a b n)[i]? = some (a + (i : α) * ((b - a) / ((n : α) - 1))) := by
  unfold linspace
  rw [List.getElem?_map, List.getElem?_range hi, Option.map_some]
  have hn1 : (n : α) - 1 ≠ 0 := by
    have : (1 : α) < n := by exact_mod_cast hn
    have : (0 : α) < (n : α) - 1 := by linarith
    exact this.ne'
  split
  · rename_i h
    have : (i : α) = (n : α) - 1 := by
      have : n = i + 1 := h.1.symm
      rw [this]; push_cast; ring
    rw [this]
    congr 1
    field_simp
    ring
  · rfl

theorem le_foldl_max (l : List α) (a : α) : a ≤ l.foldl max a ∧ ∀ f ∈ l, f ≤ l.foldl max a := by
  induction l generalizing a with
  | nil => simp
  | cons b l ih =>
    obtain ⟨h1, h2⟩ := ih (max a b)
    refine ⟨le_trans (le_max_left _ _) h1, ?_⟩
    intro f hf
    rcases List.mem_cons.1 hf with rfl | hf
    · exact le_trans (le_max_right _ _) h1
    · exact h2 f hf

theorem foldl_max_mem (l : List α) (a : α) : l.foldl max a ∈ a :: l := by
  induction l generalizing a with
  | nil => simp
  | cons b l ih =>
    have := ih (max a b)
    simp only [List.foldl_cons]
    rcases List.mem_cons.1 this with h | h
    · rw [h]
      rcases max_choice a b with h | h <;> rw [h] <;> simp
    · simp [h]

theorem foldl_min_le (l : List α) (a : α) : l.foldl min a ≤ a ∧ ∀ f ∈ l, l.foldl min a ≤ f := by
  induction l generalizing a with
  | nil => simp
  | cons b l ih =>
    obtain ⟨h1, h2⟩ := ih (min a b)
    refine ⟨le_trans h1 (min_le_left _ _), ?_⟩
    intro f hf
    rcases List.mem_cons.1 hf with rfl | hf
    · exact le_trans h1 (min_le_right _ _)
    · exact h2 f hf

theorem npMax_spec (l : List α) (hl : l ≠ []) : ∃ m, npMax l = .ok m ∧ m ∈ l ∧ ∀ f ∈ l, f ≤ m := by
  cases l with
  | nil => exact absurd rfl hl
  | cons a l =>
    refine ⟨_, rfl, foldl_max_mem l a, ?_⟩
    intro f hf
    rcases List.mem_cons.1 hf with rfl | hf
    · exact (le_foldl_max l _).1
    · exact (le_foldl_max l a).2 f hf

theorem npMin_spec (l : List α) (hl : l ≠ []) : ∃ m, npMin l = .ok m ∧ ∀ f ∈ l, m ≤ f := by
  cases l with
  | nil => exact absurd rfl hl
  | cons a l =>
    refine ⟨_, rfl, ?_⟩
    intro f hf
    rcases List.mem_cons.1 hf with rfl | hf
    · exact (foldl_min_le l _).1
    · exact (foldl_min_le l a).2 f hf

/-- **C72**. When some frequency is positive, the default bins are `n` strictly increasing edges
(`n ≥ 2`); the first edge is at most 0 and strictly below every frequency, the last one strictly above
every frequency.  *Missing from the full statement:* data whose largest frequency is not positive, see
`C72_no_positive_frequency`. -/
theorem C72_covers_partial (freqs : List α) (n : Nat) (headroom room : α) (hn : 2 ≤ n)
    (hh : 1 < headroom) (hr : 0 < room) (hpos : ∃ f ∈ freqs, 0 < f) :
    ∃ e first last, energyBins freqs n none none headroom room = .ok e ∧ e.length = n ∧
      e.Pairwise (· < ·) ∧ e.head? = some first ∧ e.getLast? = some last ∧ first ≤ 0 ∧
      ∀ f ∈ freqs, first < f ∧ f < last := by
  obtain ⟨f0, hf0, hf0p⟩ := hpos
  have hne : freqs ≠ [] := List.ne_nil_of_mem hf0
  obtain ⟨M, hM, hMm, hMb⟩ := npMax_spec freqs hne
  obtain ⟨m, hm, hmb⟩ := npMin_spec (freqs.map fun f => f - room) (by simpa using hne)
  have hMpos : 0 < M := lt_of_lt_of_le hf0p (hMb f0 hf0)
  have hhi : M < M * headroom := by nlinarith
  have hlo : min m 0 ≤ 0 := min_le_right _ _
  have hlt : min m 0 < M * headroom := by linarith
  have hok : energyBins freqs n none none headroom room = .ok (linspace (min m 0) (M * headroom) n) := by
    simp only [energyBins, lowerLimit, upperLimit, hm, hM, bind, Except.bind, pure, Except.pure, ge_iff_le]
    rw [if_neg (not_le.2 hlt)]
  have hl : (linspace (min m 0) (M * headroom) n).length = n := by simp [linspace]
  refine ⟨_, min m 0, M * headroom, hok, hl, ?_, ?_, ?_, hlo, ?_⟩
  · rw [List.pairwise_iff_getElem]
    intro i j hi hj hij
    rw [hl] at hi hj
    have e1 := linspace_get (min m 0) (M * headroom) n (by omega) i hi
    have e2 := linspace_get (min m 0) (M * headroom) n (by omega) j hj
    rw [List.getElem?_eq_getElem (by rw [hl]; exact hi), Option.some.injEq] at e1
    rw [List.getElem?_eq_getElem (by rw [hl]; exact hj), Option.some.injEq] at e2
    rw [e1, e2]
    have hnn : (0 : α) < (n : α) - 1 := by
      have : (1 : α) < n := by exact_mod_cast hn
      linarith
    have hd : 0 < (M * headroom - min m 0) / ((n : α) - 1) := div_pos (by linarith) hnn
    have hij' : (i : α) < j := by exact_mod_cast hij
    nlinarith
  · rw [List.head?_eq_getElem?, linspace_get _ _ n (by omega) 0 (by omega)]
    simp
  · rw [List.getLast?_eq_getElem?, hl, linspace_get _ _ n (by omega) (n - 1) (by omega)]
    have hnn : ((n - 1 : Nat) : α) = (n : α) - 1 := by
      rw [Nat.cast_sub (by omega)]; simp
    have hn0 : (n : α) - 1 ≠ 0 := by
      have : (1 : α) < n := by exact_mod_cast hn
      intro h; linarith
    rw [hnn]
    congr 1
    field_simp
    ring
  · intro f hf
    constructor
    · have := hmb (f - room) (List.mem_map.2 ⟨f, hf, rfl⟩)
      have := min_le_left m 0
      linarith
    · exact lt_of_le_of_lt (hMb f hf) hhi

example : (∃ f ∈ ([-1, 4, 10] : List ℚ), 0 < f) ∧
    energyBins ([-1, 4, 10] : List ℚ) 3 none none (21/20) (1/100000) =
      .ok [-100001/100000, 949999/200000, 21/2] := by
  refine ⟨⟨10, by simp, by norm_num⟩, ?_⟩
  decide +kernel

/-- The code does not meet C72 for data without positive frequencies: whenever the largest frequency `M`
is not positive, either no bins are made at all or the last edge does not lie above `M` (strictly below it
if `M` is negative). -/
theorem C72_no_positive_frequency (freqs : List α) (n : Nat) (headroom room : α) (hn : 2 ≤ n)
    (hh : 1 < headroom) (M : α) (hM : M ∈ freqs) (hmax : ∀ f ∈ freqs, f ≤ M) (hneg : M ≤ 0) :
    energyBins freqs n none none headroom room = .error .valueError ∨
    ∃ e last, energyBins freqs n none none headroom room = .ok e ∧ e.getLast? = some last ∧
      last ≤ M ∧ (M < 0 → last < M) := by
  have hne : freqs ≠ [] := List.ne_nil_of_mem hM
  obtain ⟨M', hM', hm1, hm2⟩ := npMax_spec freqs hne
  have : M' = M := le_antisymm (hmax _ hm1) (hm2 _ hM)
  subst this
  obtain ⟨m, hm, _⟩ := npMin_spec (freqs.map fun f => f - room) (by simpa using hne)
  have hunf : energyBins freqs n none none headroom room =
      if M' * headroom ≤ min m 0 then .error .valueError
      else .ok (linspace (min m 0) (M' * headroom) n) := by
    simp only [energyBins, lowerLimit, upperLimit, hm, hM', bind, Except.bind, pure, Except.pure, ge_iff_le]
  rw [hunf]
  by_cases h : M' * headroom ≤ min m 0
  · left; rw [if_pos h]
  · right
    rw [if_neg h]
    refine ⟨_, M' * headroom, rfl, ?_, by nlinarith, fun h => by nlinarith⟩
    have hl : (linspace (min m 0) (M' * headroom) n).length = n := by simp [linspace]
    rw [List.getLast?_eq_getElem?, hl, linspace_get _ _ n (by omega) (n - 1) (by omega)]
    have hnn : ((n - 1 : Nat) : α) = (n : α) - 1 := by
      rw [Nat.cast_sub (by omega)]; simp
    have hn0 : (n : α) - 1 ≠ 0 := by
      have : (1 : α) < n := by exact_mod_cast hn
      intro h; linarith
    rw [hnn]
    congr 1
    field_simp
    ring

/-- Both outcomes occur. -/
example : energyBins ([-1, -1] : List ℚ) 3 none none (21/20) (1/100000) = .error .valueError ∧
    (energyBins ([-10, -1] : List ℚ) 3 none none (21/20) (1/100000)).toOption.bind (·.getLast?) =
      some (-21/20) := by
  decide +kernel

/-- **C72**. With both limits given, the bins run from the one to the other when they increase; otherwise
`ValueError` is raised.  A single limit given replaces the automatic one. -/
theorem C72_limits (freqs : List α) (n : Nat) (lo hi headroom room : α) (hn : 2 ≤ n) :
    (lo < hi → ∃ e, energyBins freqs n (some lo) (some hi) headroom room = .ok e ∧ e.length = n ∧
      e.Pairwise (· < ·) ∧ e.head? = some lo ∧ e.getLast? = some hi ∧
      ∀ i (h : i < e.length), (e[i] - lo) * ((n : α) - 1) = (i : α) * (hi - lo)) ∧
    (hi ≤ lo → energyBins freqs n (some lo) (some hi) headroom room = .error .valueError) := by
  have hunf : energyBins freqs n (some lo) (some hi) headroom room =
      if hi ≤ lo then .error .valueError else .ok (linspace lo hi n) := rfl
  rw [hunf]
  have hl : (linspace lo hi n).length = n := by simp [linspace]
  have hnn : (0 : α) < (n : α) - 1 := by
    have : (1 : α) < n := by exact_mod_cast hn
    linarith
  constructor
  · intro h
    rw [if_neg (not_le.2 h)]
    have hget : ∀ i (hi' : i < (linspace lo hi n).length),
        (linspace lo hi n)[i] = lo + (i : α) * ((hi - lo) / ((n : α) - 1)) := by
      intro i hi'
      have := linspace_get lo hi n (by omega) i (by rw [← hl]; exact hi')
      rwa [List.getElem?_eq_getElem hi', Option.some.injEq] at this
    refine ⟨_, rfl, hl, ?_, ?_, ?_, ?_⟩
    · rw [List.pairwise_iff_getElem]
      intro i j h1 h2 hij
      rw [hget, hget]
      have hd : 0 < (hi - lo) / ((n : α) - 1) := div_pos (by linarith) hnn
      have hij' : (i : α) < j := by exact_mod_cast hij
      nlinarith
    · rw [List.head?_eq_getElem?, linspace_get _ _ n (by omega) 0 (by omega)]
      simp
    · rw [List.getLast?_eq_getElem?, hl, linspace_get _ _ n (by omega) (n - 1) (by omega)]
      have hc : ((n - 1 : Nat) : α) = (n : α) - 1 := by
        rw [Nat.cast_sub (by omega)]; simp
      rw [hc]
      congr 1
      field_simp
      ring
    · intro i h'
      rw [hget]
      field_simp
      ring
  · intro h; rw [if_pos h]

example : (energyBins ([5] : List ℚ) 3 (some 1) (some 2) (21/20) (1/100000)) = .ok [1, 3/2, 2] ∧
    (energyBins ([5] : List ℚ) 3 (some 2) (some 2) (21/20) (1/100000)) = .error .valueError := by
  decide +kernel

/-! ## C74 and C94: powder map -/

variable [FloorRing α]

/-- **C74**. For `npts_min ≤ npts_max` the number of points on every sphere is between the two limits. -/
theorem C74_limits (density q : α) (lo hi : Int) (h : lo ≤ hi) :
    lo ≤ sphereNpts density lo hi q ∧ sphereNpts density lo hi q ≤ hi := by
  unfold sphereNpts
  exact ⟨le_max_left _ _, max_le h (min_le_left _ _)⟩

/-- **C74**. Between the limits the number of points is the density times q², rounded up: at least that
many, and fewer than one more. -/
theorem C74_rounds_up (density q : α) (lo hi : Int)
    (h1 : lo < sphereNpts density lo hi q) (h2 : sphereNpts density lo hi q < hi) :
    density * q ^ 2 ≤ (sphereNpts density lo hi q : α) ∧
    (sphereNpts density lo hi q : α) < density * q ^ 2 + 1 := by
  have : sphereNpts density lo hi q = ⌈density * q ^ 2⌉ := by
    unfold sphereNpts at *
    rcases max_choice lo (min hi ⌈density * q ^ 2⌉) with h | h
    · rw [h] at h1; omega
    · rw [h] at h2 ⊢
      rcases min_choice hi ⌈density * q ^ 2⌉ with h' | h'
      · rw [h'] at h2; omega
      · exact h'
  rw [this]
  exact ⟨Int.le_ceil _, Int.ceil_lt_add_one _⟩

/-- **C74**. The number of points does not decrease with |q|. -/
theorem C74_monotone (density q q' : α) (lo hi : Int) (hd : 0 ≤ density) (hq : 0 ≤ q) (hqq : q ≤ q') :
    sphereNpts density lo hi q ≤ sphereNpts density lo hi q' := by
  unfold sphereNpts
  apply max_le_max le_rfl
  apply min_le_min le_rfl
  apply Int.ceil_le_ceil
  apply mul_le_mul_of_nonneg_left _ hd
  exact pow_le_pow_left₀ hq hqq 2

example : sphereNpts (10 : ℚ) 5 500 (1/2) = 5 ∧ sphereNpts (10 : ℚ) 5 500 (3/2) = 23 ∧
    sphereNpts (10 : ℚ) 5 500 8 = 500 := by decide +kernel

/-- **C94**. The |q| bins of a powder map run exactly from `q_min` to `q_max`, are all equally wide, and
are not wider than the requested spacing (and one bin fewer would be too wide). -/
theorem C94_q_bins (qMin qMax spacing : α) (hs : 0 < spacing) (hq : qMin < qMax) :
    ∃ e, ∃ w : α, qBinEdges qMin qMax spacing = .ok e ∧ 2 ≤ e.length ∧
      e.head? = some qMin ∧ e.getLast? = some qMax ∧
      (∀ i (h : i + 1 < e.length), e[i + 1] - e[i] = w) ∧ 0 < w ∧ w ≤ spacing ∧
      spacing * ((e.length : α) - 2) < qMax - qMin := by
  have hd : 0 < (qMax - qMin) / spacing := div_pos (by linarith) hs
  have hN : 0 < nQBins qMin qMax spacing := Int.ceil_pos.2 hd
  obtain ⟨N, hNe⟩ : ∃ N : Nat, nQBins qMin qMax spacing = (N : Int) := ⟨_, (Int.toNat_of_nonneg hN.le).symm⟩
  have hNpos : 0 < N := by rw [hNe] at hN; exact_mod_cast hN
  have hNα : (0 : α) < N := by exact_mod_cast hNpos
  have hceil : (qMax - qMin) / spacing ≤ (N : α) := by
    have := Int.le_ceil ((qMax - qMin) / spacing)
    have h2 : ((nQBins qMin qMax spacing : Int) : α) = (N : α) := by rw [hNe]; simp
    rw [← h2]; exact this
  have hceil2 : (N : α) < (qMax - qMin) / spacing + 1 := by
    have := Int.ceil_lt_add_one ((qMax - qMin) / spacing)
    have h2 : ((nQBins qMin qMax spacing : Int) : α) = (N : α) := by rw [hNe]; simp
    rw [← h2]; exact this
  have hok : qBinEdges qMin qMax spacing = .ok (linspace qMin qMax (N + 1)) := by
    unfold qBinEdges
    rw [hNe, if_neg (by omega)]
    congr 2
  have hl : (linspace qMin qMax (N + 1)).length = N + 1 := by simp [linspace]
  have hcast : ((N + 1 : Nat) : α) - 1 = N := by push_cast; ring
  have hget : ∀ i (h : i < (linspace qMin qMax (N + 1)).length),
      (linspace qMin qMax (N + 1))[i] = qMin + (i : α) * ((qMax - qMin) / N) := by
    intro i h
    have := linspace_get qMin qMax (N + 1) (by omega) i (by rw [← hl]; exact h)
    rw [List.getElem?_eq_getElem h, Option.some.injEq, hcast] at this
    exact this
  refine ⟨_, (qMax - qMin) / N, hok, by omega, ?_, ?_, ?_, div_pos (by linarith) hNα, ?_, ?_⟩
  · rw [List.head?_eq_getElem?, linspace_get _ _ (N + 1) (by omega) 0 (by omega)]
    simp
  · rw [List.getLast?_eq_getElem?, hl, Nat.add_sub_cancel, linspace_get _ _ (N + 1) (by omega) N (by omega), hcast]
    congr 1
    field_simp
    ring
  · intro i h
    rw [hget, hget]
    push_cast
    ring
  · rw [div_le_iff₀ hNα]
    rw [div_le_iff₀ hs] at hceil
    linarith
  · rw [hl]
    have : (N : α) - 1 < (qMax - qMin) / spacing := by linarith
    rw [lt_div_iff₀ hs] at this
    push_cast
    linarith

/-- **C94**. No bins are returned exactly if the range is reversed by at least two spacings (`np.linspace` is asked for a
negative number of values); reversed by less there is one edge or none, and no bin. -/
theorem C94_reversed (qMin qMax spacing : α) (hs : 0 < spacing) (hq : qMax ≤ qMin) :
    (qBinEdges qMin qMax spacing = .error .valueError ↔ 2 * spacing ≤ qMin - qMax) ∧
      (qMin - qMax < 2 * spacing → ∃ e, qBinEdges qMin qMax spacing = .ok e ∧
        e.length = if qMin - qMax < spacing then 1 else 0) := by
  have h0 : nQBins qMin qMax spacing ≤ 0 :=
    Int.ceil_le.2 (by rw [div_le_iff₀ hs]; push_cast; linarith)
  have h1 : nQBins qMin qMax spacing + 1 < 0 ↔ 2 * spacing ≤ qMin - qMax := by
    rw [show nQBins qMin qMax spacing + 1 < 0 ↔ nQBins qMin qMax spacing ≤ -2 by omega]
    unfold nQBins
    rw [Int.ceil_le, div_le_iff₀ hs]
    push_cast
    constructor <;> intro h <;> linarith
  have h2 : nQBins qMin qMax spacing ≤ -1 ↔ spacing ≤ qMin - qMax := by
    unfold nQBins
    rw [Int.ceil_le, div_le_iff₀ hs]
    push_cast
    constructor <;> intro h <;> linarith
  unfold qBinEdges
  refine ⟨?_, fun h => ?_⟩
  · split_ifs with h
    · exact ⟨fun _ => h1.1 h, fun _ => rfl⟩
    · exact ⟨fun he => (by simp at he), fun he => absurd (h1.2 he) h⟩
  · have hn : ¬ nQBins qMin qMax spacing + 1 < 0 := fun hc => absurd (h1.1 hc) (not_le.2 h)
    rw [if_neg hn]
    refine ⟨_, rfl, ?_⟩
    have hl : ∀ m, (linspace qMin qMax m).length = m := by intro m; simp [linspace]
    rw [hl]
    split_ifs with h3
    · have : ¬ nQBins qMin qMax spacing ≤ -1 := fun hc => absurd (h2.1 hc) (not_le.2 h3)
      omega
    · have := h2.2 (not_lt.1 h3)
      omega

example : qBinEdges (3 : ℚ) 1 1 = .error .valueError ∧ qBinEdges (3 : ℚ) (5 / 4) 1 = .ok [] ∧
    qBinEdges (3 : ℚ) (5 / 2) 1 = .ok [3] := by decide +kernel

example : qBinEdges (0 : ℚ) 3 (4/5) = .ok [0, 3/4, 3/2, 9/4, 3] := by decide +kernel

end field

/-! ## C79 -/

/-- The last position of a range that satisfies a predicate. -/
theorem getLast_filter_range (f : Nat → Bool) (n i : Nat) (hi : i < n) (hf : f i = true)
    (hlast : ∀ j, i < j → j < n → f j = false) :
    ((List.range n).filter f).getLast? = some i := by
  have hsplit : List.range n = List.range (i + 1) ++ List.range' (i + 1) (n - (i + 1)) := by
    rw [List.range_eq_range', List.range_eq_range']
    have : n = (i + 1) + (n - (i + 1)) := by omega
    conv_lhs => rw [this]
    rw [← List.range'_append]
    simp
  rw [hsplit, List.filter_append]
  have h2 : (List.range' (i + 1) (n - (i + 1))).filter f = [] := by
    rw [List.filter_eq_nil_iff]
    intro j hj
    rw [List.mem_range'_1] at hj
    rw [hlast j (by omega) (by omega)]
    simp
  rw [h2, List.append_nil, List.range_succ, List.filter_append]
  simp [hf]

theorem getD_split {l a b : List Char} {c d : Char} (hl : l = a ++ c :: b) :
    l.getD a.length d = c ∧ ∀ j, a.length < j → j < l.length → l.getD j d ∈ b := by
  subst hl
  constructor
  · simp
  · intro j h1 h2
    rw [List.getD_eq_getElem _ _ h2, List.getElem_append_right (by omega)]
    obtain ⟨k, hk⟩ : ∃ k, j - a.length = k + 1 := ⟨j - a.length - 1, by omega⟩
    simp only [hk, List.getElem_cons_succ]
    exact List.getElem_mem _

/-- `name` ends in the extension `ext` (with its dot): there is something before the dot, and the dot is
the last one. -/
def HasExt (name ext : List Char) : Prop :=
  ∃ stem e, name = stem ++ ext ∧ stem ≠ [] ∧ ext = '.' :: e ∧ e ≠ [] ∧ '.' ∉ e

theorem suffix_of_hasExt (name ext : List Char) (h : HasExt name ext) : suffix name = ext := by
  obtain ⟨stem, e, rfl, hs, rfl, he, hd⟩ := h
  obtain ⟨g1, g2⟩ := getD_split (l := stem ++ '.' :: e) (a := stem) (c := '.') (b := e) (d := ' ') rfl
  have hs' := List.length_pos_iff.2 hs
  have he' := List.length_pos_iff.2 he
  have : ((List.range (stem ++ '.' :: e).length).filter
      fun i => (stem ++ '.' :: e).getD i ' ' == '.').getLast? = some stem.length := by
    apply getLast_filter_range
    · simp
    · rw [g1]; simp
    · intro j h1 h2
      have := g2 j h1 h2
      rw [beq_eq_false_iff_ne]
      intro h; rw [h] at this; exact hd this
  unfold suffix
  rw [this]
  simp only
  rw [if_pos ⟨hs', by simp; omega⟩, List.drop_left' rfl]

theorem hasExt_of_suffix (name : List Char) (h : suffix name ≠ []) : HasExt name (suffix name) := by
  unfold suffix at h ⊢
  cases hl : ((List.range name.length).filter fun i => name.getD i ' ' == '.').getLast? with
  | none => rw [hl] at h; exact absurd rfl h
  | some i =>
    rw [hl] at h
    simp only at h ⊢
    split at h
    · rename_i hi
      rw [if_pos hi]
      have hmem := List.mem_of_getLast? hl
      rw [List.mem_filter, List.mem_range] at hmem
      obtain ⟨hlt, hdot⟩ := hmem
      have hgt : ∀ j, i < j → j < name.length → name.getD j ' ' ≠ '.' := by
        intro j h1 h2 h3
        have hj : j ∈ (List.range name.length).filter fun i => name.getD i ' ' == '.' := by
          rw [List.mem_filter, List.mem_range]; exact ⟨h2, by simpa using h3⟩
        have hpw : ((List.range name.length).filter fun i => name.getD i ' ' == '.').Pairwise (· < ·) :=
          List.Pairwise.filter _ List.pairwise_lt_range
        obtain ⟨ys, hys⟩ := List.getLast?_eq_some_iff.1 hl
        rw [hys] at hj hpw
        rw [List.pairwise_append] at hpw
        rcases List.mem_append.1 hj with hj | hj
        · have := hpw.2.2 j hj i (by simp); omega
        · simp at hj; omega
      refine ⟨name.take i, name.drop (i + 1), (List.take_append_drop i name).symm, ?_, ?_, ?_, ?_⟩
      · intro h0
        have := congrArg List.length h0
        rw [List.length_take, List.length_nil] at this; omega
      · rw [List.drop_eq_getElem_cons hlt]
        congr 1
        rw [List.getD_eq_getElem _ _ hlt] at hdot
        simpa using hdot
      · intro h0
        have := congrArg List.length h0
        rw [List.length_drop, List.length_nil] at this; omega
      · intro hm
        obtain ⟨k, hk, hke⟩ := List.getElem_of_mem hm
        rw [List.length_drop] at hk
        rw [List.getElem_drop] at hke
        apply hgt (i + 1 + k) (by omega) (by omega)
        rw [List.getD_eq_getElem _ _ (by omega), hke]
    · exact absurd rfl h

variable {F M Q : Type}

/-- **C79**. Eigenvectors are never returned when only frequencies are asked for. -/
theorem C79_frequencies_only (env : Env F M Q) (name : List Char) (m : M) :
    loadFile env name true ≠ .ok (.modes m) := by
  intro h
  unfold loadFile at h
  dsimp only at h
  split at h
  · simp only [if_true] at h
    cases hc : env.castepFreqs <;> rw [hc] at h <;> simp [bind, Except.bind, pure, Except.pure] at h
  · split at h
    · cases hc : env.castepFc <;> rw [hc] at h <;> simp [bind, Except.bind, pure, Except.pure] at h
    · split at h
      · unfold loadJson at h
        cases hk : env.jsonKeys with
        | error e => rw [hk] at h; simp [bind, Except.bind] at h
        | ok keys =>
          rw [hk] at h
          simp only [bind, Except.bind, pure, Except.pure, Bool.true_eq_false, and_false, if_false] at h
          split at h
          · cases hc : env.jsonFc <;> rw [hc] at h <;> simp at h
          · split at h
            · cases hc : env.jsonFreqs <;> rw [hc] at h <;> simp at h
            · cases h
      · split at h
        · unfold loadPhonopy phonopyTryModes phonopyTryFreqs phonopyFc at h
          simp only [if_true, bind, Except.bind, pure, Except.pure] at h
          split at h
          · cases h
          · rename_i v hv
            split at h
            · rename_i d
              split at hv <;> simp at hv
              subst hv
              simp at h
            · split at h
              · split at h
                · split at h
                  · cases h
                  · cases h
                · cases h
              · split at h
                · cases h
                · cases h
        · cases h

/-- The extensions that are recognised. -/
def known : List (List Char) :=
  [".phonon".toList, ".castep_bin".toList, ".check".toList, ".json".toList, ".hdf5".toList,
    ".yaml".toList]

/-- **C79**. A file whose name does not end in one of the recognised extensions is refused. -/
theorem C79_unknown (env : Env F M Q) (name : List Char) (freqOnly : Bool)
    (h : ∀ ext ∈ known, ¬ HasExt name ext) : loadFile env name freqOnly = .error .valueError := by
  have hs : ∀ ext ∈ known, suffix name ≠ ext := by
    intro ext he heq
    apply h ext he
    rw [← heq]
    apply hasExt_of_suffix
    rw [heq]
    intro h0
    subst h0
    revert he
    decide
  simp only [known, List.mem_cons, List.not_mem_nil, or_false, forall_eq_or_imp, forall_eq] at hs
  obtain ⟨h1, h2, h3, h4, h5, h6⟩ := hs
  unfold loadFile
  dsimp only
  rw [if_neg h1, if_neg (by rintro (h | h); exacts [h2 h, h3 h]), if_neg h4,
    if_neg (by rintro (h | h); exacts [h5 h, h6 h])]

/-- **C79**. CASTEP files: `.phonon` gives modes, or frequencies if only these are wanted; `.castep_bin`
and `.check` give force constants. -/
theorem C79_castep (env : Env F M Q) (name : List Char) (freqOnly : Bool) :
    (HasExt name ".phonon".toList → loadFile env name freqOnly =
      if freqOnly then env.castepFreqs.map .freqs else env.castepModes.map .modes) ∧
    (HasExt name ".castep_bin".toList ∨ HasExt name ".check".toList →
      loadFile env name freqOnly = env.castepFc.map .fc) := by
  constructor
  · intro h
    have hs := suffix_of_hasExt _ _ h
    unfold loadFile
    dsimp only
    rw [hs, if_pos rfl]
    cases freqOnly
    · cases env.castepModes <;> rfl
    · cases env.castepFreqs <;> rfl
  · intro h
    have hs : suffix name = ".castep_bin".toList ∨ suffix name = ".check".toList :=
      h.imp (suffix_of_hasExt _ _) (suffix_of_hasExt _ _)
    unfold loadFile
    dsimp only
    rw [if_neg (by rcases hs with h | h <;> rw [h] <;> decide), if_pos hs]
    cases env.castepFc <;> rfl

/-- **C79**. JSON files: force constants if the object has `force_constants`; otherwise, if it has
`frequencies`, modes exactly when it also has `eigenvectors` and these are wanted, frequencies otherwise;
anything else is refused. -/
theorem C79_json (env : Env F M Q) (name : List Char) (freqOnly : Bool) (keys : List String)
    (hn : HasExt name ".json".toList) (hk : env.jsonKeys = .ok keys) :
    ("force_constants" ∈ keys → loadFile env name freqOnly = env.jsonFc.map .fc) ∧
    ("force_constants" ∉ keys → "frequencies" ∈ keys → "eigenvectors" ∈ keys → freqOnly = false →
      loadFile env name freqOnly = env.jsonModes.map .modes) ∧
    ("force_constants" ∉ keys → "frequencies" ∈ keys → ("eigenvectors" ∉ keys ∨ freqOnly = true) →
      loadFile env name freqOnly = env.jsonFreqs.map .freqs) ∧
    ("force_constants" ∉ keys → "frequencies" ∉ keys →
      loadFile env name freqOnly = .error .valueError) := by
  have hs := suffix_of_hasExt _ _ hn
  have hl : loadFile env name freqOnly = loadJson env freqOnly := by
    unfold loadFile
    dsimp only
    rw [hs, if_neg (by decide), if_neg (by decide), if_pos rfl]
  rw [hl]
  unfold loadJson
  rw [hk]
  simp only [bind, Except.bind, pure, Except.pure]
  refine ⟨?_, ?_, ?_, ?_⟩
  · intro h
    rw [if_pos h]
    cases env.jsonFc <;> rfl
  · intro h1 h2 h3 h4
    rw [if_neg h1, if_pos h2, if_pos ⟨h3, h4⟩]
    cases env.jsonModes <;> rfl
  · intro h1 h2 h3
    rw [if_neg h1, if_pos h2, if_neg (by rintro ⟨a, b⟩; rcases h3 with h | h; exacts [h a, by simp [h] at b])]
    cases env.jsonFreqs <;> rfl
  · intro h1 h2
    rw [if_neg h1, if_neg h2]

/-- The force constants belonging to a Phonopy file: a `.hdf5` file needs `phonopy.yaml` beside it, a
`.yaml` file is taken with `force_constants.hdf5` if that exists and with `FORCE_CONSTANTS` if not; the
`BORN` file is read if it exists. -/
def phonopyFcSpec (env : Env F M Q) (name : List Char) (hdf5 : Bool) : Except Err (Loaded F M Q) :=
  match hdf5, env.hasPhonopyYaml, env.hasBorn, env.hasFcHdf5 with
  | true, false, _, _ => .error .valueError
  | true, true, true, _ => (env.fcPhonopy (some "BORN".toList) "phonopy.yaml".toList name).map .fc
  | true, true, false, _ => (env.fcPhonopy none "phonopy.yaml".toList name).map .fc
  | false, _, true, true => (env.fcPhonopy (some "BORN".toList) name "force_constants.hdf5".toList).map .fc
  | false, _, true, false => (env.fcPhonopy (some "BORN".toList) name "FORCE_CONSTANTS".toList).map .fc
  | false, _, false, true => (env.fcPhonopy none name "force_constants.hdf5".toList).map .fc
  | false, _, false, false => (env.fcPhonopy none name "FORCE_CONSTANTS".toList).map .fc

/-- **C79**. Phonopy files (`.hdf5` or `.yaml`): modes if the file has them and they are wanted; otherwise
frequencies if the file has them; otherwise force constants. -/
theorem C79_phonopy (env : Env F M Q) (name : List Char) (freqOnly : Bool) (hdf5 : Bool)
    (hn : HasExt name (if hdf5 then ".hdf5".toList else ".yaml".toList)) :
    (∀ m, freqOnly = false → env.phonopyModes = .ok m → loadFile env name freqOnly = .ok (.modes m)) ∧
    (∀ q, (freqOnly = true ∨ env.phonopyModes = .error .keyError ∨
        env.phonopyModes = .error .runtimeError) → env.phonopyFreqs = .ok q →
      loadFile env name freqOnly = .ok (.freqs q)) ∧
    ((freqOnly = true ∨ env.phonopyModes = .error .keyError ∨
        env.phonopyModes = .error .runtimeError) → env.phonopyFreqs = .error .keyError →
      loadFile env name freqOnly = phonopyFcSpec env name hdf5) ∧
    (∀ e, freqOnly = false → env.phonopyModes = .error e → e ≠ .keyError → e ≠ .runtimeError →
      loadFile env name freqOnly = .error e) := by
  have hs := suffix_of_hasExt _ _ hn
  have hl : loadFile env name freqOnly = loadPhonopy env name freqOnly := by
    unfold loadFile
    dsimp only
    cases hdf5
    · simp only [Bool.false_eq_true, if_false] at hs
      rw [hs, if_neg (by decide), if_neg (by decide), if_neg (by decide), if_pos (Or.inr rfl)]
    · simp only [if_true] at hs
      rw [hs, if_neg (by decide), if_neg (by decide), if_neg (by decide), if_pos (Or.inl rfl)]
  rw [hl]
  have hnone : (freqOnly = true ∨ env.phonopyModes = .error .keyError ∨
        env.phonopyModes = .error .runtimeError) → phonopyTryModes env freqOnly = .ok none := by
    rintro (h | h | h)
    · simp [phonopyTryModes, h]
    · unfold phonopyTryModes; rw [h]; simp
    · unfold phonopyTryModes; rw [h]; simp
  have hfc : phonopyFc env name = phonopyFcSpec env name hdf5 := by
    unfold phonopyFc phonopyFcSpec
    cases hdf5
    · simp only [Bool.false_eq_true, if_false] at hs
      rw [hs]
      rw [if_neg (by decide)]
      simp only [bind, Except.bind, pure, Except.pure]
      cases env.hasPhonopyYaml <;> cases env.hasBorn <;> cases env.hasFcHdf5 <;>
        simp only [Bool.false_eq_true, if_false, if_true] <;>
        (generalize env.fcPhonopy _ _ _ = r; cases r <;> rfl)
    · simp only [if_true] at hs
      rw [hs]
      rw [if_pos rfl]
      simp only [bind, Except.bind, pure, Except.pure]
      cases env.hasPhonopyYaml <;> cases env.hasBorn <;>
        simp only [Bool.false_eq_true, if_false, if_true] <;>
        (generalize env.fcPhonopy _ _ _ = r; cases r <;> rfl)
  refine ⟨?_, ?_, ?_, ?_⟩
  · intro m hf hm
    unfold loadPhonopy phonopyTryModes
    rw [hm]
    simp [hf, bind, Except.bind, pure, Except.pure]
  · intro q h hq
    unfold loadPhonopy phonopyTryFreqs
    rw [hnone h, hq]
    rfl
  · intro h hq
    unfold loadPhonopy phonopyTryFreqs
    rw [hnone h, hq]
    exact hfc
  · intro e hf hm h1 h2
    unfold loadPhonopy phonopyTryModes
    rw [hm]
    cases e <;> simp_all [bind, Except.bind]

/-- A Phonopy directory with force constants only: all readers of phonon modes raise `KeyError`. -/
def exEnv : Env String String String where
  castepFreqs := .error .ioError
  castepModes := .error .ioError
  castepFc := .error .ioError
  jsonKeys := .ok ["crystal", "frequencies", "eigenvectors"]
  jsonFc := .error .keyError
  jsonModes := .ok "modes"
  jsonFreqs := .ok "frequencies"
  phonopyModes := .error .keyError
  phonopyFreqs := .error .keyError
  hasBorn := true
  hasPhonopyYaml := true
  hasFcHdf5 := false
  fcPhonopy := fun born summary fc => .ok (String.ofList ((born.getD []) ++ ' ' :: summary ++ ' ' :: fc))

example : (loadFile exEnv "a.b.json".toList false).toOption.map (fun x => match x with
      | .modes s => s | _ => "") = some "modes" ∧
    (loadFile exEnv "a.b.json".toList true).toOption.map (fun x => match x with
      | .freqs s => s | _ => "") = some "frequencies" ∧
    (loadFile exEnv "x.yaml".toList true).toOption.map (fun x => match x with
      | .fc s => s | _ => "") = some "BORN x.yaml FORCE_CONSTANTS" ∧
    HasExt "a.b.json".toList ".json".toList ∧ HasExt "x.yaml".toList ".yaml".toList ∧
    (∀ ext ∈ known, ¬ HasExt "data.txt".toList ext) := by
  refine ⟨by decide +kernel, by decide +kernel, by decide +kernel,
    ⟨"a.b".toList, "json".toList, by decide, by decide, by decide, by decide, by decide⟩,
    ⟨"x".toList, "yaml".toList, by decide, by decide, by decide, by decide, by decide⟩, ?_⟩
  intro ext he h
  have := suffix_of_hasExt _ _ h
  rw [show suffix "data.txt".toList = ".txt".toList by decide] at this
  subst this
  revert he
  decide

end Euphonic.Cli
