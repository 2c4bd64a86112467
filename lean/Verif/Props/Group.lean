import Verif.Prelude
import Verif.Lemmas.Group
import Verif.Props.Collection

/-! # Properties C11, C12, C13: summing, grouping and selecting lines of a collection -/

set_option autoImplicit false
set_option linter.unusedSectionVars false

namespace Euphonic

variable {V α : Type} [DecidableEq V]

/-! ## C11 -/

/-- The keys of the per-line metadata do not occur in the common metadata.  Every collection produced
by `from_spectra`, `+`, indexing, `select` or `group_by` has this property. -/
def MColl.Tidy (c : MColl V α) : Prop :=
  ∀ i, i < c.len → ∀ k, c.md.common.get k ≠ none → (c.lineOf i).get k = none

section comm
variable [AddCommMonoid α]

theorem sum_ok (c : MColl V α) (n : Nat) (h : c.WF n) :
    ∃ s, c.sum = .ok s ∧ s.x = c.x ∧ s.xUnit = c.xUnit ∧ s.yUnit = c.yUnit ∧ s.ticks = c.ticks ∧
      s.y = sumRows n c.rows ∧ DWF s.md ∧ s.md.get "line_data" = none ∧
      ∀ k, ∀ v, s.md.get k = some v ↔
        (∀ i, i < c.len → (c.lineOf i).get k = some v) ∨
        ((¬ ∃ w, ∀ i, i < c.len → (c.lineOf i).get k = some w) ∧ c.md.common.get k = some v) := by
  set ld : List (Dict V) := match c.md.lines with
    | none => List.replicate c.len []
    | some ls => ls with hld
  have hlen : ld.length = c.len := by
    rw [hld]; cases hl : c.md.lines with
    | none => simp
    | some ls => exact h.lines ls hl
  have hget : ∀ i (hi : i < ld.length), ld[i] = c.lineOf i := by
    rw [hld]
    obtain ⟨x, xu, rows, yu, t, ⟨common, lines⟩⟩ := c
    cases lines with
    | none => simp [MColl.lineOf]
    | some ls =>
      intro i hi
      simp only [MColl.lineOf]
      rw [List.getD_eq_getElem _ _ hi]
  have hmem : ∀ d ∈ ld, ∃ i, i < c.len ∧ d = c.lineOf i := by
    intro d hd
    obtain ⟨i, hi, rfl⟩ := List.getElem_of_mem hd
    exact ⟨i, by omega, hget i hi⟩
  have hpos : 0 < c.len := by
    unfold MColl.len; exact List.length_pos_iff.2 h.ne
  have hne : ld ≠ [] := by
    intro e; rw [e] at hlen; simp at hlen; omega
  obtain ⟨m, hm, hdw, hc, _, _⟩ := combineMetadata_spec ld hne
    (by intro d hd; obtain ⟨i, _, rfl⟩ := hmem d hd; exact (MColl.lineOf_props h i).1)
    (by intro d hd; obtain ⟨i, _, rfl⟩ := hmem d hd; exact (MColl.lineOf_props h i).2)
  have hc' : ∀ k v, m.common.get k = some v ↔ ∀ i, i < c.len → (c.lineOf i).get k = some v := by
    intro k v
    rw [hc]
    constructor
    · intro hh i hi
      rw [← hget i (by omega)]; exact hh _ (List.getElem_mem _)
    · intro hh d hd
      obtain ⟨i, hi, rfl⟩ := hmem d hd
      exact hh i hi
  have htidy : c.tidyMetadata = .ok m.common := by
    unfold MColl.tidyMetadata
    show (do let r ← combineMetadata ld; return r.common : Except Err (Dict V)) = _
    rw [hm]; rfl
  have hhead : (c.rows.headD []).length = n := by
    obtain ⟨r, rs, hr⟩ := List.exists_cons_of_ne_nil h.ne
    rw [hr]; exact h.rect r (by rw [hr]; simp)
  have hsl := length_sumRows n c.rows h.rect
  refine ⟨⟨c.x, c.xUnit, sumRows n c.rows, c.yUnit, c.ticks, Dict.union c.md.common m.common⟩,
    ?_, rfl, rfl, rfl, rfl, rfl, h.dwf.union hdw, ?_, ?_⟩
  · unfold MColl.sum
    rw [htidy, hhead]
    have := h.axis
    simp [bind, Except.bind, MSpec.new, hsl, this]
  · rw [Dict.get_union, h.nold]
    cases hk : m.common.get "line_data" with
    | none => rfl
    | some v =>
      have := (hc' _ v).1 hk 0 hpos
      rw [(MColl.lineOf_props h 0).2] at this; cases this
  · intro k v
    rw [Dict.get_union]
    cases hk : m.common.get k with
    | none =>
      simp only [Option.none_or]
      have hno : ∀ w, ¬ ∀ i, i < c.len → (c.lineOf i).get k = some w := by
        intro w hw; rw [(hc' k w).2 hw] at hk; cases hk
      constructor
      · intro hv; exact Or.inr ⟨by rintro ⟨w, hw⟩; exact hno w hw, hv⟩
      · rintro (hv | hv)
        · exact absurd hv (hno v)
        · exact hv.2
    | some w =>
      simp only [Option.some_or, Option.some.injEq]
      have hw := (hc' k w).1 hk
      constructor
      · rintro rfl; exact Or.inl hw
      · rintro (hv | hv)
        · have := hv 0 hpos; rw [hw 0 hpos] at this; exact Option.some.inj this
        · exact absurd ⟨w, hw⟩ hv.1

/-- **C11**. The sum of a collection has the same axis, units and labels; every datum is the sum of the
corresponding data of all the lines; and, for a collection whose per-line keys are not also common
keys, its metadata are exactly the entries that all lines share. -/
theorem C11_sum (c : MColl V α) (n : Nat) (h : c.WF n) (ht : c.Tidy) :
    ∃ s, c.sum = .ok s ∧ s.x = c.x ∧ s.xUnit = c.xUnit ∧ s.yUnit = c.yUnit ∧ s.ticks = c.ticks ∧
      s.y.length = n ∧ (∀ j, j < n → s.y.getD j 0 = (c.rows.map (·.getD j 0)).sum) ∧
      ∀ k v, s.md.get k = some v ↔ ∀ i, i < c.len → c.lineValue i k = some v := by
  obtain ⟨s, hs, hx, hxu, hyu, htk, hy, _, _, hmd⟩ := sum_ok c n h
  have hpos : 0 < c.len := by
    unfold MColl.len; exact List.length_pos_iff.2 h.ne
  refine ⟨s, hs, hx, hxu, hyu, htk, ?_, ?_, ?_⟩
  · rw [hy, length_sumRows n _ h.rect]
  · intro j hj; rw [hy, getD_sumRows n _ h.rect j hj]
  · intro k v
    rw [hmd]
    unfold MColl.lineValue
    cases hk : c.md.common.get k with
    | none => simp
    | some w =>
      have hn : ∀ i, i < c.len → (c.lineOf i).get k = none := fun i hi =>
        ht i hi k (by rw [hk]; simp)
      constructor
      · rintro (hv | hv)
        · have := hv 0 hpos; rw [hn 0 hpos] at this; cases this
        · intro i hi; rw [hn i hi]; simpa using hv.2
      · intro hv
        refine Or.inr ⟨?_, ?_⟩
        · rintro ⟨u, hu⟩
          have := hu 0 hpos; rw [hn 0 hpos] at this; cases this
        · have := hv 0 hpos; rw [hn 0 hpos] at this; simpa using this

/-- **C11**, order independence: permuting the lines does not change the summed data. -/
theorem C11_sum_perm (a b : MColl V α) (n : Nat) (ha : a.WF n) (hb : b.WF n)
    (hp : a.rows.Perm b.rows) :
    ∃ s t, a.sum = .ok s ∧ b.sum = .ok t ∧ s.y = t.y := by
  obtain ⟨s, hs, _, _, _, _, hsy, _⟩ := sum_ok a n ha
  obtain ⟨t, ht, _, _, _, _, hty, _⟩ := sum_ok b n hb
  refine ⟨s, t, hs, ht, ?_⟩
  rw [hsy, hty]
  refine ext_getD n _ _ (length_sumRows n _ ha.rect) (length_sumRows n _ hb.rect) ?_
  intro j hj
  rw [getD_sumRows n _ ha.rect j hj, getD_sumRows n _ hb.rect j hj]
  exact (hp.map _).sum_eq

end comm

/-- **C11**, finding: when a per-line key also appears in the common metadata (which the constructor
accepts), the sum keeps the common value although no line carries it: each line's own value
overrides it. -/
theorem C11_sum_untidy_metadata :
    ∃ c : MColl String ℚ, c.WF 1 ∧ (∀ i, i < c.len → c.lineValue i "k" ≠ some "a") ∧
      ∃ s, c.sum = .ok s ∧ s.md.get "k" = some "a" := by
  refine ⟨⟨[0], "", [[1], [2]], "", none, ⟨[("k", "a")], some [[("k", "b")], [("k", "c")]]⟩⟩,
    ⟨by simp, by simp, by simp, by simp, by simp [DWF], ?_, by decide, ?_⟩, ?_, ?_⟩
  · intro ls hls d hd
    simp only [Option.some.injEq] at hls
    subst hls
    simp only [List.mem_cons, List.not_mem_nil, or_false] at hd
    rcases hd with rfl | rfl <;> simp [DWF]
  · intro ls hls d hd
    simp only [Option.some.injEq] at hls
    subst hls
    simp only [List.mem_cons, List.not_mem_nil, or_false] at hd
    rcases hd with rfl | rfl <;> decide
  · intro i hi
    have : i = 0 ∨ i = 1 := by simp [MColl.len] at hi; omega
    rcases this with rfl | rfl <;> decide
  · exact ⟨_, rfl, by decide⟩

theorem exColl_tidy : exColl.Tidy := by
  intro i hi k hk
  have : k = "weighting" := by
    by_contra h
    exact hk (by simp [exColl, Dict.get_cons, Dict.get_nil, h])
  subst this
  have : i = 0 ∨ i = 1 ∨ i = 2 := by simp [MColl.len, exColl] at hi; omega
  rcases this with rfl | rfl | rfl <;> decide

/-- Non-vacuity of C11: the witness collection sums to `[9, 12]` and keeps only the common entry. -/
example : exColl.WF 2 ∧ exColl.Tidy ∧ exColl.sum.toOption.map (·.y) = some [9, 12] ∧
    exColl.sum.toOption.map (·.md) = some [("weighting", "dos")] :=
  ⟨exColl_wf, exColl_tidy, by decide +kernel, by decide +kernel⟩

/-! ## C12 -/

section field
variable [Field α] [LinearOrder α] [IsStrictOrderedRing α]

/-- The values of the requested keys for line `i` (`none` where the line has no such key). -/
def MColl.lineKey (c : MColl V α) (keys : List String) (i : Nat) : List (Option V) :=
  keys.map fun k => c.lineValue i k

/-- The lines whose values of the requested keys are `k`. -/
def MColl.linesWith (c : MColl V α) (keys : List String) (k : List (Option V)) : List Nat :=
  (List.range c.len).filter fun i => c.lineKey keys i = k

theorem groupIndices_eq (c : MColl V α) (n : Nat) (h : c.WF n) (keys : List String) :
    c.groupIndices keys = (((List.range c.len).map (c.lineKey keys)).eraseDups).map
      fun k => (c.linesWith keys k).map Int.ofNat := by
  have hlen := MColl.length_iterMetadata h
  have hz : (List.range c.iterMetadata.length).zip c.iterMetadata =
      (List.range c.len).map fun i => (i, Dict.union c.md.common (c.lineOf i)) := by
    apply List.ext_getElem
    · simp [hlen, MColl.len]
    · intro i h1 h2
      simp only [List.getElem_zip, List.getElem_range, List.getElem_map, Prod.mk.injEq, true_and]
      exact MColl.getElem_iterMetadata c i _
  have hk : ∀ i, groupKey keys (Dict.union c.md.common (c.lineOf i)) = c.lineKey keys i := by
    intro i
    unfold groupKey MColl.lineKey MColl.lineValue
    apply List.map_congr_left
    intro k _
    rw [Dict.get_union]
  unfold MColl.groupIndices
  rw [groupBy_eq, hz]
  simp only [List.map_map, Function.comp_def, List.filter_map, hk]
  rw [eraseDups_inst _ List.instBEq inferInstance inferInstance]
  rfl

/-- `group_by` with, in addition to C12, its common metadata: the entries shared by all lines. -/
theorem groupBy_full (c : MColl V α) (n : Nat) (h : c.WF n) (keys : List String) :
    ∃ r, c.groupByKeys keys = .ok r ∧
      (∀ k v, r.md.common.get k = some v ↔ ∀ g, g < r.rows.length → r.lineValue g k = some v) ∧ r.WF n ∧ r.x = c.x ∧ r.xUnit = c.xUnit ∧ r.yUnit = c.yUnit ∧
      r.ticks = c.ticks ∧
      ∃ ks : List (List (Option V)), ks = ((List.range c.len).map (c.lineKey keys)).eraseDups ∧
        ks.Nodup ∧ (∀ k, k ∈ ks ↔ ∃ i, i < c.len ∧ c.lineKey keys i = k) ∧
        r.rows.length = ks.length ∧
        ∀ g (hg : g < ks.length),
          (∀ j, j < n → (r.rows.getD g []).getD j 0 =
            ((c.linesWith keys ks[g]).map fun i => (c.rows.getD i []).getD j 0).sum) ∧
          ∀ k v, r.lineValue g k = some v ↔
            ∀ i ∈ c.linesWith keys ks[g], c.lineValue i k = some v := by
  set ks := ((List.range c.len).map (c.lineKey keys)).eraseDups with hks
  have hmemks : ∀ k, k ∈ ks ↔ ∃ i, i < c.len ∧ c.lineKey keys i = k := by
    intro k
    rw [hks, List.mem_eraseDups]
    simp
  have hlw : ∀ k ∈ ks, c.linesWith keys k ≠ [] ∧ ∀ i ∈ c.linesWith keys k, i < c.len := by
    intro k hk
    obtain ⟨i, hi, rfl⟩ := (hmemks k).1 hk
    constructor
    · intro e
      have : i ∈ c.linesWith keys (c.lineKey keys i) := by
        simp [MColl.linesWith, hi]
      rw [e] at this; simp at this
    · intro j hj
      simp [MColl.linesWith] at hj
      exact hj.1
  -- every part
  have hpart : ∀ k ∈ ks, ∃ s : MSpec V α,
      (do (← c.getList ((c.linesWith keys k).map Int.ofNat)).sum) = Except.ok s ∧
      s.x = c.x ∧ s.xUnit = c.xUnit ∧ s.yUnit = c.yUnit ∧ s.ticks = c.ticks ∧ s.WF ∧
      s.y.length = n ∧
      (∀ j, j < n → s.y.getD j 0 =
        ((c.linesWith keys k).map fun i => (c.rows.getD i []).getD j 0).sum) ∧
      (∀ key v, s.md.get key = some v ↔
        ∀ i ∈ c.linesWith keys k, c.lineValue i key = some v) := by
    intro k hk
    obtain ⟨hne, hr⟩ := hlw k hk
    obtain ⟨r, hr1, hwf, hx, hxu, hyu, ht, hrows, hline, hcom, hdisj⟩ :=
      C09_list_index c n h _ hne hr
    have htidy : r.Tidy := by
      intro i hi key hkey
      unfold MColl.lineOf
      cases hls : r.md.lines with
      | none => rfl
      | some ls =>
        simp only [List.getD_eq_getElem?_getD]
        cases hi' : ls[i]? with
        | none => rfl
        | some d => exact hdisj ls hls d (List.mem_of_getElem? hi') key hkey
    obtain ⟨s, hs, sx, sxu, syu, st, sl, sy, smd⟩ := C11_sum r n hwf htidy
    obtain ⟨s', hs', _, _, _, _, _, sdw, sld, _⟩ := sum_ok r n hwf
    rw [hs] at hs'
    cases hs'
    refine ⟨s, ?_, by rw [sx, hx], by rw [sxu, hxu], by rw [syu, hyu], by rw [st, ht],
      ⟨?_, sdw, sld⟩, sl, ?_, ?_⟩
    · rw [hr1]; exact hs
    · rw [sl, sx, hx]; exact h.axis
    · intro j hj
      rw [sy j hj, hrows, List.map_map]
      rfl
    · intro key v
      rw [smd]
      have hl : r.len = (c.linesWith keys k).length := by simp [MColl.len, hrows]
      constructor
      · intro hh i hi
        obtain ⟨j, hj, rfl⟩ := List.getElem_of_mem hi
        rw [← hline j hj key]; exact hh j (by omega)
      · intro hh j hj
        rw [hline j (by omega) key]
        exact hh _ (List.getElem_mem _)
  -- collect
  haveI : Nonempty (MSpec V α) := ⟨⟨[], "", [], "", none, []⟩⟩
  choose! f hf using hpart
  have hmap : (c.groupIndices keys).mapM (fun is => do (← c.getList is).sum) =
      .ok (ks.map f) := by
    rw [groupIndices_eq c n h keys, ← hks]
    have : ∀ l : List (List (Option V)), (∀ k ∈ l, k ∈ ks) →
        (l.map fun k => (c.linesWith keys k).map Int.ofNat).mapM
          (fun is => do (← c.getList is).sum) = Except.ok (l.map f) := by
      intro l
      induction l with
      | nil => intro _; rfl
      | cons k l ih =>
        intro hl
        rw [List.map_cons, List.mapM_cons, ih fun k' hk' => hl k' (by simp [hk'])]
        have := (hf k (hl k (by simp))).1
        rw [this]
        rfl
    exact this ks fun k hk => hk
  have hpos : 0 < c.len := by
    unfold MColl.len; exact List.length_pos_iff.2 h.ne
  have hksne : ks ≠ [] := by
    intro e
    have := (hmemks (c.lineKey keys 0)).2 ⟨0, hpos, rfl⟩
    rw [e] at this; simp at this
  obtain ⟨k0, kt, hk0⟩ := List.exists_cons_of_ne_nil hksne
  have hk0mem : k0 ∈ ks := by rw [hk0]; simp
  have hf0 := hf k0 hk0mem
  have hfs : ∀ s ∈ f k0 :: kt.map f, ∃ k ∈ ks, s = f k := by
    intro s hs
    rcases List.mem_cons.1 hs with rfl | hs
    · exact ⟨k0, hk0mem, rfl⟩
    · obtain ⟨k, hk, rfl⟩ := List.mem_map.1 hs
      exact ⟨k, by rw [hk0]; simp [hk], rfl⟩
  obtain ⟨r, hr, hwf, rx, rxu, ryu, rt, rrows, rline, rcom⟩ := fromSpectra_ok (f k0) (kt.map f)
    (by
      intro s hs
      obtain ⟨k, hk, rfl⟩ := hfs s hs
      exact (hf k hk).2.2.2.2.2.1)
    (by
      intro s hs
      obtain ⟨k, hk, rfl⟩ := hfs s (List.mem_cons_of_mem _ hs)
      obtain ⟨_, h1, h2, h3, h4, _, h6, _⟩ := hf k hk
      obtain ⟨_, g1, g2, g3, g4, _, g6, _⟩ := hf0
      refine ⟨by rw [h3, g3], by rw [h2, g2], by rw [h4, g4], by rw [h6, g6], ?_⟩
      rw [h1, g1]; exact npAllClose_refl _)
  obtain ⟨_, g1, g2, g3, g4, _, g6, _⟩ := hf0
  rw [g6] at hwf
  have hkf : f k0 :: kt.map f = ks.map f := by rw [hk0]; rfl
  rw [hkf] at rrows
  refine ⟨r, ?_, ?_, hwf, by rw [rx, g1], by rw [rxu, g2], by rw [ryu, g3], by rw [rt, g4], ks, hks,
    nodup_eraseDups _, hmemks, by rw [rrows]; simp, ?_⟩
  · unfold MColl.groupByKeys
    rw [hmap]
    show fromSpectra (ks.map f) = _
    rw [← hkf]; exact hr
  · intro k v
    rw [rcom, hkf]
    constructor
    · intro hh g hg
      rw [rrows] at hg
      rw [rline g (by rw [hkf]; simpa using hg) k]
      apply hh
      rw [List.getElem_of_eq hkf]
      exact List.getElem_mem _
    · intro hh s hs
      obtain ⟨g, hg, rfl⟩ := List.getElem_of_mem hs
      have := hh g (by rw [rrows]; simpa using hg)
      rw [rline g (by rw [hkf]; simpa using hg) k, List.getElem_of_eq hkf] at this
      exact this
  · intro g hg
    have hgm : ks[g] ∈ ks := List.getElem_mem _
    obtain ⟨_, _, _, _, _, _, hl, hy, hmd⟩ := hf ks[g] hgm
    constructor
    · intro j hj
      rw [← hy j hj, rrows, List.getD_eq_getElem _ [] (by simpa using hg), List.getElem_map,
        List.getElem_map]
    · intro k v
      rw [← hmd k v, rline g (by rw [hkf]; simpa using hg) k, List.getElem_of_eq hkf,
        List.getElem_map]

/-- **C12**. `group_by(keys)` gives one line for every combination of values of the keys, in order of
first appearance; the data of the line are the sum over exactly the lines with those values; the
metadata of the line are the entries shared by all lines of the group (so in particular the values it
was grouped by). -/
theorem C12_group_by (c : MColl V α) (n : Nat) (h : c.WF n) (keys : List String) :
    ∃ r, c.groupByKeys keys = .ok r ∧ r.WF n ∧ r.x = c.x ∧ r.xUnit = c.xUnit ∧ r.yUnit = c.yUnit ∧
      r.ticks = c.ticks ∧
      ∃ ks : List (List (Option V)), ks = ((List.range c.len).map (c.lineKey keys)).eraseDups ∧
        ks.Nodup ∧ (∀ k, k ∈ ks ↔ ∃ i, i < c.len ∧ c.lineKey keys i = k) ∧
        r.rows.length = ks.length ∧
        ∀ g (hg : g < ks.length),
          (∀ j, j < n → (r.rows.getD g []).getD j 0 =
            ((c.linesWith keys ks[g]).map fun i => (c.rows.getD i []).getD j 0).sum) ∧
          ∀ k v, r.lineValue g k = some v ↔
            ∀ i ∈ c.linesWith keys ks[g], c.lineValue i k = some v := by
  obtain ⟨r, h1, _, h2⟩ := groupBy_full c n h keys
  exact ⟨r, h1, h2⟩

/-- **C12**, conservation: grouping by any keys leaves the total of every datum unchanged. -/
theorem C12_group_by_total (c : MColl V α) (n : Nat) (h : c.WF n) (keys : List String) :
    ∃ r, c.groupByKeys keys = .ok r ∧ ∀ j, j < n →
      (r.rows.map (·.getD j 0)).sum = (c.rows.map (·.getD j 0)).sum := by
  obtain ⟨r, hr, _, _, _, _, _, ks, _, hnd, hmem, hlen, hg⟩ := C12_group_by c n h keys
  refine ⟨r, hr, ?_⟩
  intro j hj
  have h1 : r.rows.map (·.getD j 0) = ks.map fun k =>
      ((c.linesWith keys k).map fun i => (c.rows.getD i []).getD j 0).sum := by
    apply List.ext_getElem
    · simp [hlen]
    · intro g g1 g2
      simp only [List.getElem_map]
      have hgk : g < ks.length := by simpa using g2
      rw [← (hg g hgk).1 j hj, List.getD_eq_getElem r.rows [] (by simpa using g1)]
  rw [h1]
  have h2 := sum_groups (c.lineKey keys) (fun i => (c.rows.getD i []).getD j 0) (List.range c.len) ks
    hnd (by intro i hi; exact (hmem _).2 ⟨i, by simpa using hi, rfl⟩)
  unfold MColl.linesWith
  rw [h2]
  congr 1
  apply List.ext_getElem
  · simp [MColl.len]
  · intro i i1 i2
    simp only [List.getElem_map, List.getElem_range]
    rw [List.getD_eq_getElem c.rows [] (by simpa using i2)]

/-- Non-vacuity of C12: the witness collection has two species in the order Na, Cl. -/
example : exColl.WF 2 ∧ (exColl.groupByKeys ["species"]).toOption.map (·.rows) =
    some [[6, 8], [3, 4]] := ⟨exColl_wf, by decide +kernel⟩

end field

/-! ## C13 -/

/-- Line `i` meets all the criteria: for every requested key its value is one of those allowed. -/
def MColl.Meets (c : MColl V α) (crit : List (String × List V)) (i : Nat) : Prop :=
  ∀ q ∈ crit, ∃ v ∈ q.2, c.lineValue i q.1 = some v

theorem mem_selectIndices (c : MColl V α) (n : Nat) (h : c.WF n) (sel : Dict V) (i : Int) :
    i ∈ c.selectIndices sel ↔ ∃ j : Nat, i = j ∧ j < c.len ∧
      ∀ kv ∈ sel, c.lineValue j kv.1 = some kv.2 := by
  have hlen := MColl.length_iterMetadata h
  unfold MColl.selectIndices
  simp only [List.mem_filterMap]
  have key : ∀ j (hj : j < c.iterMetadata.length),
      (sel.all fun kv => (c.iterMetadata[j]).contains kv) = true ↔
      ∀ kv ∈ sel, c.lineValue j kv.1 = some kv.2 := by
    intro j hj
    have hdw := (MColl.iterMetadata_props h _ (List.getElem_mem hj)).1
    simp only [List.all_eq_true, List.contains_iff_mem]
    constructor
    · intro hh kv hkv
      have := Dict.get_of_mem hdw (hh kv hkv)
      rw [MColl.getElem_iterMetadata, Dict.get_union] at this
      exact this
    · intro hh kv hkv
      apply Dict.mem_of_get
      rw [MColl.getElem_iterMetadata, Dict.get_union]
      exact hh kv hkv
  constructor
  · rintro ⟨p, hp, hpi⟩
    obtain ⟨j, hj, rfl⟩ := List.getElem_of_mem hp
    simp only [List.length_zip, List.length_range, Nat.min_self] at hj
    simp only [List.getElem_zip, List.getElem_range] at hpi
    split at hpi
    · rename_i hs
      simp only [Option.some.injEq] at hpi
      exact ⟨j, hpi.symm, by unfold MColl.len; omega, (key j hj).1 hs⟩
    · cases hpi
  · rintro ⟨j, rfl, hj, hs⟩
    unfold MColl.len at hj
    refine ⟨(j, c.iterMetadata[j]'(by omega)), ?_, ?_⟩
    · rw [List.mem_iff_getElem]
      exact ⟨j, by simp; omega, by simp⟩
    · rw [if_pos ((key j (by omega)).2 hs)]

theorem pairwise_selectIndices (c : MColl V α) (sel : Dict V) :
    (c.selectIndices sel).Pairwise (· < ·) := by
  unfold MColl.selectIndices
  rw [List.pairwise_filterMap]
  rw [List.pairwise_iff_getElem]
  intro i j hi hj hij b hb b' hb'
  simp only [List.getElem_zip, List.getElem_range] at hb hb'
  split at hb
  · split at hb'
    · simp only [Option.some.injEq] at hb hb'
      omega
    · cases hb'
  · cases hb

theorem mem_selectedIndices (c : MColl V α) (n : Nat) (h : c.WF n) (crit : List (String × List V))
    (i : Int) : i ∈ c.selectedIndices crit ↔ ∃ j : Nat, i = j ∧ j < c.len ∧ c.Meets crit j := by
  unfold MColl.selectedIndices
  simp only [List.mem_flatMap, mem_product, mem_selectIndices c n h]
  constructor
  · rintro ⟨combo, h1, j, rfl, hj, h2⟩
    exact ⟨j, rfl, hj, (exists_combo (fun k v => c.lineValue j k = some v) crit).1 ⟨combo, h1, h2⟩⟩
  · rintro ⟨j, rfl, hj, hm⟩
    obtain ⟨combo, h1, h2⟩ := (exists_combo (fun k v => c.lineValue j k = some v) crit).2 hm
    exact ⟨combo, h1, j, rfl, hj, h2⟩

theorem product_single (crit : List (String × List V)) (hs : ∀ q ∈ crit, ∃ v, q.2 = [v]) :
    ∃ combo, product (crit.map (·.2)) = [combo] := by
  induction crit with
  | nil => exact ⟨[], rfl⟩
  | cons q crit ih =>
    obtain ⟨v, hv⟩ := hs q (by simp)
    obtain ⟨cb, hcb⟩ := ih fun q hq => hs q (by simp [hq])
    exact ⟨v :: cb, by simp [product, hv, hcb]⟩

/-- **C13**. `select` raises `ValueError` exactly when no line meets the criteria; otherwise the result
consists of lines meeting the criteria, every such line occurs, data and metadata of each line are
unchanged, and if the allowed values of each key are distinct every line occurs exactly once. -/
theorem C13_select (c : MColl V α) (n : Nat) (h : c.WF n) (crit : List (String × List V)) :
    ((¬ ∃ i, i < c.len ∧ c.Meets crit i) ↔ c.select crit = .error .valueError) ∧
    ((∃ i, i < c.len ∧ c.Meets crit i) → ∃ r, ∃ is : List Nat,
      c.select crit = .ok r ∧ r.WF n ∧ r.x = c.x ∧ r.xUnit = c.xUnit ∧ r.yUnit = c.yUnit ∧
      r.ticks = c.ticks ∧ (∀ i, i ∈ is ↔ i < c.len ∧ c.Meets crit i) ∧
      r.rows = is.map (fun i => c.rows.getD i []) ∧
      (∀ j (hj : j < is.length) k, r.lineValue j k = c.lineValue is[j] k) ∧
      ((∀ q ∈ crit, q.2.Nodup) → is.Nodup) ∧
      ((∀ q ∈ crit, ∃ v, q.2 = [v]) → is.Pairwise (· < ·))) := by
  have hsome : (∃ i, i < c.len ∧ c.Meets crit i) → ∃ r, ∃ is : List Nat,
      c.select crit = .ok r ∧ r.WF n ∧ r.x = c.x ∧ r.xUnit = c.xUnit ∧ r.yUnit = c.yUnit ∧
      r.ticks = c.ticks ∧ (∀ i, i ∈ is ↔ i < c.len ∧ c.Meets crit i) ∧
      r.rows = is.map (fun i => c.rows.getD i []) ∧
      (∀ j (hj : j < is.length) k, r.lineValue j k = c.lineValue is[j] k) ∧
      ((∀ q ∈ crit, q.2.Nodup) → is.Nodup) ∧
      ((∀ q ∈ crit, ∃ v, q.2 = [v]) → is.Pairwise (· < ·)) := by
    rintro ⟨i0, hi0, hm0⟩
    set S := c.selectedIndices crit with hS
    have hmem := mem_selectedIndices c n h crit
    have hnn : ∀ i ∈ S, 0 ≤ i := by
      intro i hi
      obtain ⟨j, rfl, _⟩ := (hmem i).1 hi
      omega
    have hback : (S.map Int.toNat).map Int.ofNat = S := by
      rw [List.map_map]
      conv_rhs => rw [← List.map_id S]
      apply List.map_congr_left
      intro i hi
      have := hnn i hi
      simp [Int.toNat_of_nonneg this]
    have hne : S ≠ [] := by
      intro e
      have := (hmem (i0 : Int)).2 ⟨i0, rfl, hi0, hm0⟩
      rw [← hS, e] at this; simp at this
    have hr : ∀ i ∈ S.map Int.toNat, i < c.len := by
      intro i hi
      obtain ⟨z, hz, rfl⟩ := List.mem_map.1 hi
      obtain ⟨j, rfl, hj, _⟩ := (hmem z).1 hz
      simpa using hj
    obtain ⟨r, hr1, hwf, hx, hxu, hyu, ht, hrows, hline, _, _⟩ :=
      C09_list_index c n h (S.map Int.toNat) (by simpa using hne) hr
    refine ⟨r, S.map Int.toNat, ?_, hwf, hx, hxu, hyu, ht, ?_, hrows, hline, ?_, ?_⟩
    · unfold MColl.select
      rw [← hS]
      have : S.isEmpty = false := by simpa using hne
      simp only [this, Bool.false_eq_true, if_false]
      rw [← hback]; exact hr1
    · intro i
      constructor
      · intro hi
        obtain ⟨z, hz, rfl⟩ := List.mem_map.1 hi
        obtain ⟨j, rfl, hj, hmj⟩ := (hmem z).1 hz
        exact ⟨by simpa using hj, by simpa using hmj⟩
      · rintro ⟨hi, hm⟩
        exact List.mem_map.2 ⟨(i : Int), (hmem _).2 ⟨i, rfl, hi, hm⟩, by simp⟩
    · intro hnd
      rw [List.nodup_map_iff_inj_on]
      · intro a ha b hb hab
        have := hnn a ha
        have := hnn b hb
        omega
      · rw [hS]
        unfold MColl.selectedIndices
        rw [List.nodup_flatMap]
        constructor
        · intro combo _
          exact (pairwise_selectIndices c _).imp (fun h => by omega)
        · have hp := nodup_product (crit.map (·.2)) (by
            intro l hl
            obtain ⟨q, hq, rfl⟩ := List.mem_map.1 hl
            exact hnd q hq)
          rw [List.Nodup] at hp
          refine hp.imp_of_mem ?_
          intro a b ha hb hab
          simp only [Function.onFun]
          rw [List.disjoint_left]
          intro i hi hi'
          obtain ⟨j, rfl, _, h1⟩ := (mem_selectIndices c n h _ i).1 hi
          obtain ⟨j', e, _, h2⟩ := (mem_selectIndices c n h _ _).1 hi'
          have : j = j' := by omega
          subst this
          have la := ((mem_product _ _).1 ha).length_eq
          have lb := ((mem_product _ _).1 hb).length_eq
          exact hab (combo_unique (fun k => c.lineValue j k) (crit.map (·.1)) a b
            (by simpa using la) (by simpa using lb) h1 h2)
    · intro hs
      have hprod := product_single crit hs
      obtain ⟨combo, hc⟩ := hprod
      have hSe : S = c.selectIndices ((crit.map (·.1)).zip combo) := by
        rw [hS]; unfold MColl.selectedIndices; rw [hc]; simp
      rw [List.pairwise_map]
      have := pairwise_selectIndices c ((crit.map (·.1)).zip combo)
      rw [← hSe] at this
      refine this.imp_of_mem ?_
      intro a b ha hb hab
      have := hnn a ha
      have := hnn b hb
      omega
  refine ⟨⟨?_, ?_⟩, hsome⟩
  · intro hno
    have : c.selectedIndices crit = [] := by
      rw [List.eq_nil_iff_forall_not_mem]
      intro i hi
      obtain ⟨j, _, hj, hm⟩ := (mem_selectedIndices c n h crit i).1 hi
      exact hno ⟨j, hj, hm⟩
    simp [MColl.select, this]
  · intro he hex
    obtain ⟨r, is, hr, _⟩ := hsome hex
    rw [hr] at he; cases he

/-- **C13**, finding: a value listed twice makes `select` return the same line twice. -/
theorem C13_select_repeated_value :
    ∃ c : MColl String ℚ, c.WF 2 ∧ c.len = 3 ∧
      (c.select [("species", ["Cl", "Cl"])]).toOption.map (·.rows) = some [[3, 4], [3, 4]] :=
  ⟨exColl, exColl_wf, rfl, by decide +kernel⟩

example : exColl.WF 2 ∧ exColl.Meets [("species", ["Cl", "K"]), ("weighting", ["dos"])] 1 := by
  refine ⟨exColl_wf, ?_⟩
  intro q hq
  simp only [List.mem_cons, List.not_mem_nil, or_false] at hq
  rcases hq with rfl | rfl
  · exact ⟨"Cl", by simp, rfl⟩
  · exact ⟨"dos", by simp, rfl⟩

end Euphonic
