import Verif.Prelude
import Verif.Model.Cli
import Verif.Props.Group
import Verif.Props.Cli

/-! # Property C73: weighting and grouping options of the command-line tools -/

set_option autoImplicit false
set_option linter.unusedSectionVars false

namespace Euphonic.Cli

/-! ## Weighting -/

/-- **C73**. A weighting `name-suffix` whose suffix has no further dash gives `name`; `dos` gives none. -/
theorem C73_weighting (a b : List Char) (hb : '-' ∉ b) :
    pdosWeighting (a ++ '-' :: b) = .ok (some a) ∧ pdosWeighting "dos".toList = .ok none := by
  constructor
  · have hr : rfindDash (a ++ '-' :: b) = some a.length := by
      unfold rfindDash
      obtain ⟨g1, g2⟩ := getD_split (l := a ++ '-' :: b) (a := a) (c := '-') (b := b) (d := ' ') rfl
      apply getLast_filter_range
      · simp
      · rw [g1]; simp
      · intro j h1 h2
        have := g2 j h1 h2
        rw [beq_eq_false_iff_ne]
        intro h; rw [h] at this; exact hb this
    unfold pdosWeighting
    rw [if_neg, hr]
    · simp
    · intro h
      have : '-' ∈ "dos".toList := by rw [← h]; simp
      exact absurd this (by decide)
  · decide

/-- **C73**. Any other string without a dash is refused. -/
theorem C73_weighting_unknown (s : List Char) (hs : '-' ∉ s) (hd : s ≠ "dos".toList) :
    pdosWeighting s = .error .valueError := by
  have hr : rfindDash s = none := by
    unfold rfindDash
    rw [List.getLast?_eq_none_iff, List.filter_eq_nil_iff]
    intro i hi
    rw [List.mem_range] at hi
    rw [List.getD_eq_getElem _ _ hi]
    intro h
    have : s[i] = '-' := by simpa using h
    exact hs (this ▸ List.getElem_mem hi)
  unfold pdosWeighting
  rw [if_neg hd, hr]

/-- The values offered by the tools. -/
example : pdosWeighting "coherent-dos".toList = .ok (some "coherent".toList) ∧
    pdosWeighting "incoherent-dos".toList = .ok (some "incoherent".toList) ∧
    pdosWeighting "coherent-plus-incoherent-dos".toList =
      .ok (some "coherent-plus-incoherent".toList) ∧
    pdosWeighting "coherent".toList = .error .valueError := by decide +kernel

/-! ## Grouping -/

variable {V α : Type} [DecidableEq V] [Field α] [LinearOrder α] [IsStrictOrderedRing α]

theorem eraseDups_map_inj {β γ : Type} [DecidableEq β] [DecidableEq γ] (f : β → γ)
    (hf : Function.Injective f) (l : List β) : (l.map f).eraseDups = l.eraseDups.map f := by
  generalize hn : l.length = n
  induction n using Nat.strong_induction_on generalizing l with
  | _ n ih =>
    cases l with
    | nil => rfl
    | cons a l =>
      rw [List.map_cons, List.eraseDups_cons, List.eraseDups_cons, List.map_cons]
      congr 1
      rw [List.filter_map]
      have : ((fun b => !b == f a) ∘ f) = fun b => !b == a := by
        funext b
        simp [hf.eq_iff]
      rw [this]
      apply ih _ _ _ rfl
      rw [← hn, List.length_cons]
      exact Nat.lt_succ_of_le (List.length_filter_le _ _)

/-- The lines of species `v`, for species `s i` of line `i`. -/
def linesOf (s : Nat → V) (len : Nat) (v : V) : List Nat := (List.range len).filter fun i => s i = v

/-- The different species in order of first appearance. -/
def speciesList (s : Nat → V) (len : Nat) : List V := ((List.range len).map s).eraseDups

theorem mem_speciesList (s : Nat → V) (len : Nat) (v : V) :
    v ∈ speciesList s len ↔ ∃ i, i < len ∧ s i = v := by
  simp [speciesList]

theorem nodup_speciesList (s : Nat → V) (len : Nat) : (speciesList s len).Nodup := nodup_eraseDups _

/-- The grouped data without labels. -/
theorem grouped (c : MColl V α) (n : Nat) (h : c.WF n) (s : Nat → V)
    (hs : ∀ i, i < c.len → c.lineValue i "species" = some (s i)) :
    ∃ g, c.groupByKeys ["species"] = .ok g ∧ g.WF n ∧ g.x = c.x ∧ g.xUnit = c.xUnit ∧
      g.yUnit = c.yUnit ∧ g.ticks = c.ticks ∧ g.rows.length = (speciesList s c.len).length ∧
      (∀ k v, g.md.common.get k = some v ↔ ∀ i, i < g.rows.length → g.lineValue i k = some v) ∧
      ∀ i (hi : i < (speciesList s c.len).length),
        g.lineValue i "species" = some (speciesList s c.len)[i] ∧
        ∀ j, j < n → (g.rows.getD i []).getD j 0 =
          ((linesOf s c.len (speciesList s c.len)[i]).map fun l => (c.rows.getD l []).getD j 0).sum := by
  obtain ⟨g, hg, hcom, hwf, hx, hxu, hyu, ht, ks, hks, hnd, hmem, hlen, hrow⟩ :=
    groupBy_full c n h ["species"]
  have hks' : ks = (speciesList s c.len).map fun v => [some v] := by
    rw [hks, speciesList, ← eraseDups_map_inj (fun v : V => [some v]) (by
      intro a b hab; simpa using hab), List.map_map]
    have : (List.range c.len).map (c.lineKey ["species"]) =
        (List.range c.len).map ((fun v : V => [some v]) ∘ s) := by
      apply List.map_congr_left
      intro i hi
      simp only [MColl.lineKey, List.map_cons, List.map_nil, Function.comp]
      rw [hs i (List.mem_range.1 hi)]
    rw [this]
    apply eraseDups_inst <;> infer_instance
  subst hks'
  refine ⟨g, hg, hwf, hx, hxu, hyu, ht, by rw [hlen]; simp, hcom, ?_⟩
  intro i hi
  obtain ⟨h1, h2⟩ := hrow i (by simpa using hi)
  have hi' : i < ((speciesList s c.len).map fun v => [some v]).length := by simpa using hi
  have hl : c.linesWith ["species"] (((speciesList s c.len).map fun v => [some v])[i]'hi') =
      linesOf s c.len (speciesList s c.len)[i] := by
    unfold MColl.linesWith linesOf
    apply List.filter_congr
    intro l hl
    rw [List.getElem_map]
    simp only [MColl.lineKey, List.map_cons, List.map_nil, hs l (List.mem_range.1 hl)]
    simp
  rw [hl] at h1 h2
  refine ⟨?_, h1⟩
  rw [h2]
  intro l hl'
  simp only [linesOf, List.mem_filter, List.mem_range, decide_eq_true_eq] at hl'
  rw [hs l hl'.1, hl'.2]

theorem get_dictSet (d : Dict V) (k k' : String) (v : V) :
    Dict.get (dictSet d k v) k' = if k' = k then some v else Dict.get d k' := by
  unfold dictSet
  rw [Dict.get_union, Dict.get_cons, Dict.get_nil]
  by_cases h : k' = k
  · simp [h]
  · simp [h]

theorem dwf_dictSet (d : Dict V) (hd : DWF d) (k : String) (v : V) : DWF (dictSet d k v) :=
  hd.union (by simp [DWF])

/-- Labelling a grouped collection with at least two species. -/
theorem labelled (c : MColl V α) (n : Nat) (h : c.WF n) (s : Nat → V)
    (hs : ∀ i, i < c.len → c.lineValue i "species" = some (s i))
    (h2 : 2 ≤ (speciesList s c.len).length) :
    ∃ g g', c.groupByKeys ["species"] = .ok g ∧ labelLines g = .ok g' ∧ g'.WF n ∧ g'.x = c.x ∧
      g'.xUnit = c.xUnit ∧ g'.yUnit = c.yUnit ∧ g'.ticks = c.ticks ∧
      g'.rows.length = (speciesList s c.len).length ∧
      ∀ i (hi : i < (speciesList s c.len).length),
        g'.lineValue i "species" = some (speciesList s c.len)[i] ∧
        g'.lineValue i "label" = some (speciesList s c.len)[i] ∧
        ∀ j, j < n → (g'.rows.getD i []).getD j 0 =
          ((linesOf s c.len (speciesList s c.len)[i]).map fun l => (c.rows.getD l []).getD j 0).sum := by
  obtain ⟨g, hg, hwf, hx, hxu, hyu, ht, hlen, hcom, hrow⟩ := grouped c n h s hs
  -- species is not a common entry
  have hnc : g.md.common.get "species" = none := by
    cases hc : g.md.common.get "species" with
    | none => rfl
    | some w =>
      have h0 := (hcom "species" w).1 hc 0 (by omega)
      have h1 := (hcom "species" w).1 hc 1 (by omega)
      rw [(hrow 0 (by omega)).1] at h0
      rw [(hrow 1 (by omega)).1] at h1
      have heq : (speciesList s c.len)[0] = (speciesList s c.len)[1] := by
        rw [Option.some.injEq] at h0 h1; rw [h0, h1]
      have := (nodup_speciesList s c.len).getElem_inj_iff.1 heq
      omega
  have hline : ∀ i (hi : i < (speciesList s c.len).length),
      (g.lineOf i).get "species" = some (speciesList s c.len)[i] := by
    intro i hi
    have := (hrow i hi).1
    unfold MColl.lineValue at this
    rw [hnc, Option.or_none] at this
    exact this
  obtain ⟨ls, hls⟩ : ∃ ls, g.md.lines = some ls := by
    cases hl : g.md.lines with
    | some ls => exact ⟨ls, rfl⟩
    | none =>
      have := hline 0 (by omega)
      simp [MColl.lineOf, hl, Dict.get_nil] at this
  have hll : ls.length = (speciesList s c.len).length := by rw [hwf.lines ls hls, hlen]
  have hgetls : ∀ i (hi : i < ls.length), Dict.get ls[i] "species" =
      some ((speciesList s c.len)[i]'(by omega)) := by
    intro i hi
    have := hline i (by omega)
    unfold MColl.lineOf at this
    rw [hls] at this
    simp only at this
    rwa [List.getD_eq_getElem _ _ hi] at this
  set sp := speciesList s c.len with hsp
  set F : Dict V → Dict V := fun d => match Dict.get d "species" with
    | none => d
    | some v => dictSet d "label" v with hF
  have hmap : ls.mapM labelOne = .ok (ls.map F) := by
    apply mapM_ok_of_forall
    intro d hd
    obtain ⟨i, hi, rfl⟩ := List.getElem_of_mem hd
    simp only [hF, labelOne, hgetls i hi]
  have hFget : ∀ i (hi : i < ls.length), F ls[i] = dictSet ls[i] "label" (sp[i]'(by omega)) := by
    intro i hi
    simp only [hF, hgetls i hi]
    rfl
  refine ⟨g, { g with md := { g.md with lines := some (ls.map F) } }, hg, ?_, ?_, hx, hxu, hyu, ht, hlen, ?_⟩
  · unfold labelLines
    rw [hls]
    simp only [bind, Except.bind, hmap]
  · refine ⟨hwf.ne, hwf.rect, hwf.axis, ?_, hwf.dwf, ?_, hwf.nold, ?_⟩
    · intro ls' h'
      simp only [Option.some.injEq] at h'
      subst h'
      rw [List.length_map]; exact hwf.lines ls hls
    · intro ls' h' d hd
      simp only [Option.some.injEq] at h'
      subst h'
      obtain ⟨d0, hd0, rfl⟩ := List.mem_map.1 hd
      obtain ⟨i, hi, rfl⟩ := List.getElem_of_mem hd0
      rw [hFget i hi]
      exact dwf_dictSet _ (hwf.dwfl ls hls _ hd0) _ _
    · intro ls' h' d hd
      simp only [Option.some.injEq] at h'
      subst h'
      obtain ⟨d0, hd0, rfl⟩ := List.mem_map.1 hd
      obtain ⟨i, hi, rfl⟩ := List.getElem_of_mem hd0
      rw [hFget i hi, get_dictSet, if_neg (by decide)]
      exact hwf.noldl ls hls _ hd0
  · intro i hi
    have hil : i < ls.length := by omega
    have hv : ∀ k, MColl.lineValue { g with md := { g.md with lines := some (ls.map F) } } i k =
        (if k = "label" then some sp[i] else Dict.get ls[i] k).or (g.md.common.get k) := by
      intro k
      unfold MColl.lineValue MColl.lineOf
      simp only
      rw [List.getD_eq_getElem _ _ (by simpa using hil), List.getElem_map, hFget i hil, get_dictSet]
    refine ⟨?_, ?_, (hrow i hi).2⟩
    · rw [hv, if_neg (by decide), hgetls i hil]; rfl
    · rw [hv, if_pos rfl]; rfl

theorem eq_singleton_of_pairwise (l : List Int) (h : l.Pairwise (· < ·)) (a : Int)
    (hm : ∀ i, i ∈ l ↔ i = a) : l = [a] := by
  cases l with
  | nil => exact absurd ((hm a).2 rfl) (by simp)
  | cons b l =>
    have hb := (hm b).1 (by simp)
    subst hb
    cases l with
    | nil => rfl
    | cons d l =>
      have hd := (hm d).1 (by simp)
      rw [List.pairwise_cons] at h
      have := h.1 d (by simp)
      omega

/-- **C73**. Without `--pdos` the result is the total alone: the sum of all lines. -/
theorem C73_total_only (total : V) (c : MColl V α) (n : Nat) (h : c.WF n) :
    ∃ d, arrangePdos total c none = .ok (.inl d) ∧ d.x = c.x ∧ d.y.length = n ∧
      ∀ j, j < n → d.y.getD j 0 = (c.rows.map (·.getD j 0)).sum := by
  obtain ⟨d, hd, hx, _, _, _, hy, _⟩ := sum_ok c n h
  refine ⟨d, ?_, hx, ?_, ?_⟩
  · unfold arrangePdos
    rw [hd]; rfl
  · rw [hy, length_sumRows n _ h.rect]
  · intro j hj
    rw [hy, getD_sumRows n _ h.rect j hj]

/-- **C73**. `--pdos A B ...` for data with at least two species: the lines of the result are those of the
named species, in the order in which they are named; each is labelled with its species and is the sum of
exactly the lines of that species; the total is not among them. If none of the names is present, `ValueError`
is raised.  *Missing from the full statement:* named species which are absent are left out without an error
as long as one is present (`want`), and data with a single species fail, see `C73_one_species_fails`. -/
theorem C73_named_partial (total : V) (c : MColl V α) (n : Nat) (h : c.WF n) (s : Nat → V)
    (hs : ∀ i, i < c.len → c.lineValue i "species" = some (s i))
    (h2 : 2 ≤ (speciesList s c.len).length) (req : List V) (hr : req ≠ [])
    (want : List V) (hw : want = req.filter fun v => ∃ i, i < c.len ∧ s i = v) :
    (want = [] → arrangePdos total c (some req) = .error .valueError) ∧
    (want ≠ [] → ∃ r, arrangePdos total c (some req) = .ok (.inr r) ∧ r.WF n ∧ r.x = c.x ∧
      r.rows.length = want.length ∧ ∀ m (hm : m < want.length),
        r.lineValue m "species" = some want[m] ∧ r.lineValue m "label" = some want[m] ∧
        ∀ j, j < n → (r.rows.getD m []).getD j 0 =
          ((linesOf s c.len want[m]).map fun l => (c.rows.getD l []).getD j 0).sum) := by
  obtain ⟨g, g', hg, hg', hwf, hx, hxu, hyu, ht, hlen, hrow⟩ := labelled c n h s hs h2
  obtain ⟨d, hd, _⟩ := sum_ok c n h
  have harr : arrangePdos total c (some req) =
      (g'.select [("species", req)]).map Sum.inr := by
    unfold arrangePdos
    rw [hd]
    simp only [bind, Except.bind, pure, Except.pure, hg, hg']
    rw [if_pos (List.length_pos_iff.2 hr)]
    cases g'.select [("species", req)] <;> rfl
  set sp := speciesList s c.len with hsp
  have hsel : g'.selectedIndices [("species", req)] = (want.map fun v => sp.idxOf v).map Int.ofNat := by
    have h1 : g'.selectedIndices [("species", req)] =
        req.flatMap fun v => g'.selectIndices [("species", v)] := by
      unfold MColl.selectedIndices
      simp only [List.map_cons, List.map_nil, product, List.flatMap_assoc]
      apply List.flatMap_congr
      intro v _
      simp
    have h3 : ∀ v, g'.selectIndices [("species", v)] =
        if ∃ i, i < c.len ∧ s i = v then [((sp.idxOf v : Nat) : Int)] else [] := by
      intro v
      have hmem : ∀ i : Int, i ∈ g'.selectIndices [("species", v)] ↔
          ∃ j : Nat, i = j ∧ j < sp.length ∧ sp[j]? = some v := by
        intro i
        rw [mem_selectIndices g' n hwf]
        constructor
        · rintro ⟨j, rfl, hj, hv⟩
          have hj' : j < sp.length := by rw [← hlen]; exact hj
          have := hv ("species", v) (by simp)
          simp only at this
          rw [(hrow j hj').1, Option.some.injEq] at this
          exact ⟨j, rfl, hj', by rw [List.getElem?_eq_getElem hj', this]⟩
        · rintro ⟨j, rfl, hj, hv⟩
          refine ⟨j, rfl, by unfold MColl.len; rw [hlen]; exact hj, ?_⟩
          intro kv hkv
          simp only [List.mem_singleton] at hkv
          subst hkv
          simp only
          rw [(hrow j hj).1]
          rw [List.getElem?_eq_getElem hj] at hv
          exact hv
      split
      · rename_i hv
        have hv' : v ∈ sp := (mem_speciesList s c.len v).2 hv
        apply eq_singleton_of_pairwise _ (pairwise_selectIndices g' _)
        intro i
        rw [hmem]
        constructor
        · rintro ⟨j, rfl, hj, hjv⟩
          rw [List.getElem?_eq_getElem hj, Option.some.injEq] at hjv
          have : sp.idxOf v = j := by
            rw [← hjv]
            exact (nodup_speciesList s c.len).idxOf_getElem j hj
          rw [this]
        · rintro rfl
          have hlt : sp.idxOf v < sp.length := List.idxOf_lt_length_iff.2 hv'
          exact ⟨_, rfl, hlt, by rw [List.getElem?_eq_getElem hlt, List.getElem_idxOf]⟩
      · rename_i hv
        rw [List.eq_nil_iff_forall_not_mem]
        intro i hi
        obtain ⟨j, rfl, hj, hjv⟩ := (hmem i).1 hi
        exact hv ((mem_speciesList s c.len v).1 (List.mem_of_getElem? hjv))
    rw [h1, hw, List.map_map]
    simp only [h3]
    clear hw harr hr h1
    induction req with
    | nil => rfl
    | cons v req ih =>
      rw [List.flatMap_cons, ih]
      by_cases hv : ∃ i, i < c.len ∧ s i = v
      · rw [if_pos hv, List.filter_cons_of_pos (by simpa using hv)]; rfl
      · rw [if_neg hv, List.filter_cons_of_neg (by simpa using hv)]; rfl
  have hwsp : ∀ v ∈ want, v ∈ sp := by
    intro v hv
    rw [hw, List.mem_filter] at hv
    exact (mem_speciesList s c.len v).2 (by simpa using hv.2)
  rw [harr]
  constructor
  · intro hw0
    unfold MColl.select
    rw [hsel, hw0]
    rfl
  · intro hw0
    have hselect : g'.select [("species", req)] = g'.getList ((want.map fun v => sp.idxOf v).map Int.ofNat) := by
      unfold MColl.select
      dsimp only
      rw [hsel, if_neg (by simpa using hw0)]
    obtain ⟨r, hr1, rwf, rx, _, _, _, rrows, rline, _⟩ := C09_list_index g' n hwf
      (want.map fun v => sp.idxOf v) (by simpa using hw0) (by
        intro i hi
        obtain ⟨v, hv, rfl⟩ := List.mem_map.1 hi
        unfold MColl.len
        rw [hlen]
        exact List.idxOf_lt_length_iff.2 (hwsp v hv))
    refine ⟨r, by rw [hselect, hr1]; rfl, rwf, by rw [rx, hx], by rw [rrows]; simp, ?_⟩
    intro m hm
    have hlt : sp.idxOf want[m] < sp.length :=
      List.idxOf_lt_length_iff.2 (hwsp _ (List.getElem_mem _))
    have hget : sp[sp.idxOf want[m]] = want[m] := List.getElem_idxOf hlt
    obtain ⟨q1, q2, q3⟩ := hrow _ hlt
    rw [hget] at q1 q2 q3
    have hl := rline m (by simpa using hm)
    simp only [List.getElem_map] at hl
    refine ⟨by rw [hl, q1], by rw [hl, q2], ?_⟩
    intro j hj
    have hrm : r.rows.getD m [] = g'.rows.getD (sp.idxOf want[m]) [] := by
      have hm' : m < r.rows.length := by rw [rrows]; simpa using hm
      rw [List.getD_eq_getElem r.rows [] hm']
      simp only [rrows, List.getElem_map]
    rw [← q3 j hj, hrm]

/-- **C73**. `--pdos` without names, for data with at least two species: the first line is the total, labelled
as such; then one line per species in order of appearance. -/
theorem C73_all_species_partial (total : V) (c : MColl V α) (n : Nat) (h : c.WF n) (s : Nat → V)
    (hs : ∀ i, i < c.len → c.lineValue i "species" = some (s i))
    (h2 : 2 ≤ (speciesList s c.len).length) :
    ∃ r, arrangePdos total c (some []) = .ok (.inr r) ∧ r.WF n ∧ r.x = c.x ∧
      r.rows.length = (speciesList s c.len).length + 1 ∧
      r.lineValue 0 "label" = some total ∧
      (∀ j, j < n → (r.rows.getD 0 []).getD j 0 = (c.rows.map (·.getD j 0)).sum) ∧
      ∀ m (hm : m < (speciesList s c.len).length),
        r.lineValue (m + 1) "species" = some (speciesList s c.len)[m] ∧
        r.lineValue (m + 1) "label" = some (speciesList s c.len)[m] ∧
        ∀ j, j < n → (r.rows.getD (m + 1) []).getD j 0 =
          ((linesOf s c.len (speciesList s c.len)[m]).map fun l => (c.rows.getD l []).getD j 0).sum := by
  obtain ⟨g, g', hg, hg', hwf, hx, hxu, hyu, ht, hlen, hrow⟩ := labelled c n h s hs h2
  obtain ⟨d, hd, dx, dxu, dyu, dt, dy, ddwf, dnold, _⟩ := sum_ok c n h
  have hdl : d.y.length = n := by rw [dy, length_sumRows n _ h.rect]
  set d' : MSpec V α := { d with md := dictSet d.md "label" total } with hd'
  set f : Nat → MSpec V α := fun j => ⟨g'.x, g'.xUnit, g'.rows.getD j [], g'.yUnit, g'.ticks,
        Dict.union g'.md.common (g'.lineOf j)⟩ with hf
  have htl : g'.toList = .ok ((List.range g'.rows.length).map f) := MColl.toList_ok hwf
  have hmem : ∀ t ∈ (List.range g'.rows.length).map f, ∃ i, i < g'.rows.length ∧ t = f i := by
    intro t ht
    obtain ⟨i, hi, rfl⟩ := List.mem_map.1 ht
    exact ⟨i, List.mem_range.1 hi, rfl⟩
  obtain ⟨r, hr, rwf, rx, _, _, _, rrows, rline, _⟩ := fromSpectra_ok d' ((List.range g'.rows.length).map f)
    (by
      intro t ht
      rcases List.mem_cons.1 ht with rfl | ht
      · refine ⟨?_, dwf_dictSet _ ddwf _ _, ?_⟩
        · show d.x.length = d.y.length ∨ _
          rw [hdl, dx]; exact h.axis
        · show Dict.get (dictSet d.md "label" total) "line_data" = none
          rw [get_dictSet, if_neg (by decide)]; exact dnold
      · obtain ⟨i, hi, rfl⟩ := hmem t ht
        exact coll_items g' n hwf i hi)
    (by
      intro t ht'
      obtain ⟨i, hi, rfl⟩ := hmem t ht'
      refine ⟨by show g'.yUnit = d.yUnit; rw [hyu, dyu], by show g'.xUnit = d.xUnit; rw [hxu, dxu],
        by show g'.ticks = d.ticks; rw [ht, dt], ?_, ?_⟩
      · show (g'.rows.getD i []).length = d.y.length
        rw [hdl, List.getD_eq_getElem _ _ hi]
        exact hwf.rect _ (List.getElem_mem _)
      · show npAllClose g'.x d.x = _
        rw [hx, dx]; exact npAllClose_refl _)
  have harr : arrangePdos total c (some []) = .ok (.inr r) := by
    unfold arrangePdos
    rw [hd]
    simp only [bind, Except.bind, pure, Except.pure, hg, hg', List.length_nil, gt_iff_lt, lt_irrefl,
      if_false, htl]
    rw [← hd', hr]
  have hdl' : d'.y.length = n := hdl
  rw [hdl'] at rwf
  refine ⟨r, harr, rwf, by rw [rx]; exact dx, by rw [rrows]; simp [hlen], ?_, ?_, ?_⟩
  · rw [rline 0 (by simp)]
    show Dict.get (dictSet d.md "label" total) "label" = _
    rw [get_dictSet, if_pos rfl]
  · intro j hj
    rw [rrows, List.map_cons, List.getD_cons_zero]
    show d.y.getD j 0 = _
    rw [dy, getD_sumRows n _ h.rect j hj]
  · intro m hm
    obtain ⟨q1, q2, q3⟩ := hrow m hm
    have hv : ∀ k, r.lineValue (m + 1) k = g'.lineValue m k := by
      intro k
      rw [rline (m + 1) (by simp [hlen, hm])]
      simp only [List.getElem_cons_succ, List.getElem_map, List.getElem_range, hf]
      rw [Dict.get_union]; rfl
    refine ⟨by rw [hv, q1], by rw [hv, q2], ?_⟩
    intro j hj
    have hrm : r.rows.getD (m + 1) [] = g'.rows.getD m [] := by
      have hm' : m + 1 < r.rows.length := by rw [rrows]; simp [hlen, hm]
      rw [List.getD_eq_getElem r.rows [] hm']
      simp only [rrows, List.map_cons, List.getElem_cons_succ, List.getElem_map, List.getElem_range, hf]
    rw [← q3 j hj, hrm]

/-- The code does not meet C73 for data in which all atoms are of one species: with `--pdos`, named species or
not, it raises `KeyError`, because a collection of a single line has no `line_data`. -/
theorem C73_one_species_fails (total : V) (c : MColl V α) (n : Nat) (h : c.WF n) (v : V)
    (hs : ∀ i, i < c.len → c.lineValue i "species" = some v) (req : List V) :
    arrangePdos total c (some req) = .error .keyError := by
  obtain ⟨g, hg, _⟩ := grouped c n h (fun _ => v) hs
  obtain ⟨d, hd, _⟩ := sum_ok c n h
  have hpos : 0 < c.len := by unfold MColl.len; exact List.length_pos_iff.2 h.ne
  have hgi : ∃ is, c.groupIndices ["species"] = [is] := by
    rw [groupIndices_eq c n h]
    have : (List.range c.len).map (c.lineKey ["species"]) = List.replicate c.len [some v] := by
      rw [List.eq_replicate_iff]
      refine ⟨by simp, ?_⟩
      intro b hb
      obtain ⟨i, hi, rfl⟩ := List.mem_map.1 hb
      simp [MColl.lineKey, hs i (List.mem_range.1 hi)]
    rw [this]
    obtain ⟨N, hN⟩ : ∃ N, c.len = N + 1 := ⟨c.len - 1, by omega⟩
    rw [hN, List.replicate_succ, List.eraseDups_cons]
    have : (List.replicate N [some v]).filter (fun b => !b == [some v]) = [] := by
      rw [List.filter_eq_nil_iff]
      intro b hb
      rw [List.eq_of_mem_replicate hb]
      simp
    rw [this]
    exact ⟨_, rfl⟩
  obtain ⟨is, his⟩ := hgi
  have hlines : g.md.lines = none := by
    unfold MColl.groupByKeys at hg
    rw [his, List.mapM_cons, List.mapM_nil] at hg
    simp only [bind, Except.bind, pure, Except.pure] at hg
    split at hg
    · cases hg
    · rename_i parts hp
      split at hp
      · cases hp
      · rename_i t ht
        simp only [Except.ok.injEq] at hp
        subst hp
        unfold fromSpectra at hg
        simp only [List.mapM_nil, bind, Except.bind, pure, Except.pure, List.map_cons, List.map_nil] at hg
        split at hg
        · cases hg
        · rename_i m hm
          have hml : m.lines = none := by
            unfold combineMetadata at hm
            split at hm
            · cases hm
            · simp only [List.all_nil, List.filter_true, List.map_cons, List.map_nil] at hm
              have hf : (t.md.filter fun p => !Dict.hasKey t.md p.1) = [] := by
                rw [List.filter_eq_nil_iff]
                intro p hp
                have : Dict.hasKey t.md p.1 = true := by
                  rw [Dict.hasKey, List.any_eq_true]; exact ⟨p, hp, by simp⟩
                simp [this]
              rw [hf] at hm
              simp only [List.any_cons, List.isEmpty_nil, Bool.not_true, List.any_nil, Bool.or_false,
                Bool.false_eq_true, if_false, Except.ok.injEq] at hm
              rw [← hm]
          unfold MColl.new at hg
          simp only [hml] at hg
          split at hg
          · simp only [Except.ok.injEq] at hg
            rw [← hg]; exact hml
          · cases hg
  unfold arrangePdos
  rw [hd]
  simp only [bind, Except.bind, hg]
  have : labelLines g = .error .keyError := by
    unfold labelLines; rw [hlines]
  rw [this]

/-- Non-vacuity: the witness collection has two species (Na twice, Cl once). -/
example : exColl.WF 2 ∧ (∀ i, i < exColl.len → exColl.lineValue i "species" =
      some ((["Na", "Cl", "Na"]).getD i "")) ∧
    speciesList (fun i => (["Na", "Cl", "Na"]).getD i "") exColl.len = ["Na", "Cl"] := by
  refine ⟨exColl_wf, ?_, by decide +kernel⟩
  intro i hi
  have : i = 0 ∨ i = 1 ∨ i = 2 := by simp [MColl.len, exColl] at hi; omega
  rcases this with rfl | rfl | rfl <;> decide

/-- The data shown for the witness collection with `--pdos Cl Na`, `--pdos` and `--pdos Cl K`. -/
example :
    (arrangePdos "Total" exColl (some ["Cl", "Na"])).toOption.map (fun r => match r with
      | .inl _ => [] | .inr c => c.rows) = some [[3, 4], [6, 8]] ∧
    (arrangePdos "Total" exColl (some [])).toOption.map (fun r => match r with
      | .inl _ => [] | .inr c => c.rows) = some [[9, 12], [6, 8], [3, 4]] ∧
    (arrangePdos "Total" exColl (some ["Cl", "K"])).toOption.map (fun r => match r with
      | .inl _ => [] | .inr c => c.rows) = some [[3, 4]] := by decide +kernel

/-- Silicon: two atoms, one species. -/
def exSi : MColl String ℚ :=
  ⟨[0, 1, 2], "meV", [[1, 2], [3, 4]], "1/meV", none,
    ⟨[("species", "Si")], some [[("index", "0")], [("index", "1")]]⟩⟩

/-- Non-vacuity of `C73_one_species_fails`. -/
example : exSi.WF 2 ∧ (∀ i, i < exSi.len → exSi.lineValue i "species" = some "Si") ∧
    (arrangePdos "Total" exSi (some ["Si"])).toOption.isNone := by
  refine ⟨⟨by simp [exSi], by simp [exSi], by simp [exSi], by simp [exSi], by simp [exSi, DWF], ?_,
    by decide, ?_⟩, ?_, by decide +kernel⟩
  · intro ls hls d hd
    simp only [exSi, Option.some.injEq] at hls
    subst hls
    simp only [List.mem_cons, List.not_mem_nil, or_false] at hd
    rcases hd with rfl | rfl <;> simp [DWF]
  · intro ls hls d hd
    simp only [exSi, Option.some.injEq] at hls
    subst hls
    simp only [List.mem_cons, List.not_mem_nil, or_false] at hd
    rcases hd with rfl | rfl <;> decide
  · intro i hi
    have : i = 0 ∨ i = 1 := by simp [MColl.len, exSi] at hi; omega
    rcases this with rfl | rfl <;> decide

end Euphonic.Cli
