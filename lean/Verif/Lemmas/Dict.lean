import Verif.Prelude
import Verif.Model.Collection

/-! Lemmas on dictionaries and `combineMetadata`. -/

set_option autoImplicit false
set_option linter.unusedSectionVars false

namespace Euphonic

variable {V α : Type} [DecidableEq V]

/-- A Python dictionary has no duplicate keys. -/
def DWF (d : Dict V) : Prop := (d.map Prod.fst).Nodup

/-- Equality of dictionaries: the same values under the same keys. -/
def DEq (d1 d2 : Dict V) : Prop := ∀ k, d1.get k = d2.get k

theorem Dict.get_nil (k : String) : Dict.get ([] : Dict V) k = none := rfl

theorem Dict.get_cons (p : String × V) (d : Dict V) (k : String) :
    Dict.get (p :: d) k = if k = p.1 then some p.2 else d.get k := by
  unfold Dict.get
  obtain ⟨a, b⟩ := p
  rw [List.lookup_cons]
  by_cases h : k = a
  · simp [h]
  · have : (k == a) = false := by simpa using h
    simp [h, this]

theorem Dict.mem_of_get {d : Dict V} {k : String} {v : V} (h : d.get k = some v) : (k, v) ∈ d := by
  induction d with
  | nil => simp [Dict.get_nil] at h
  | cons p d ih =>
    rw [Dict.get_cons] at h
    split at h
    · rename_i hk
      simp only [Option.some.injEq] at h
      subst hk; subst h
      simp
    · exact List.mem_cons_of_mem _ (ih h)

theorem Dict.get_of_mem {d : Dict V} (hd : DWF d) {k : String} {v : V} (h : (k, v) ∈ d) :
    d.get k = some v := by
  induction d with
  | nil => simp at h
  | cons p d ih =>
    rw [DWF, List.map_cons, List.nodup_cons] at hd
    rw [Dict.get_cons]
    rcases List.mem_cons.1 h with rfl | h
    · simp
    · have : k ≠ p.1 := by
        rintro rfl
        exact hd.1 (List.mem_map.2 ⟨_, h, rfl⟩)
      simp [this, ih hd.2 h]

theorem Dict.get_iff_mem {d : Dict V} (hd : DWF d) (k : String) (v : V) :
    d.get k = some v ↔ (k, v) ∈ d := ⟨Dict.mem_of_get, Dict.get_of_mem hd⟩

theorem Dict.hasKey_iff (d : Dict V) (k : String) : d.hasKey k = true ↔ (d.get k).isSome := by
  induction d with
  | nil => simp [Dict.hasKey, Dict.get_nil]
  | cons p d ih =>
    rw [Dict.get_cons]
    simp only [Dict.hasKey, List.any_cons, Bool.or_eq_true, beq_iff_eq] at ih ⊢
    by_cases h : k = p.1
    · simp [h]
    · have : ¬ p.1 = k := fun e => h e.symm
      simp [h, this, ih]

theorem Dict.hasKey_false_iff (d : Dict V) (k : String) : d.hasKey k = false ↔ d.get k = none := by
  rw [← Bool.not_eq_true, Dict.hasKey_iff]; simp

theorem Dict.hasKey_iff_mem (d : Dict V) (k : String) :
    d.hasKey k = true ↔ k ∈ d.map Prod.fst := by
  simp [Dict.hasKey]

theorem Dict.get_filter_key (d : Dict V) (f : String → Bool) (k : String) :
    Dict.get (d.filter fun p => f p.1) k = if f k then d.get k else none := by
  induction d with
  | nil => simp [Dict.get_nil]
  | cons p d ih =>
    by_cases hp : f p.1
    · rw [List.filter_cons_of_pos (p := fun p : String × V => f p.1) hp, Dict.get_cons, Dict.get_cons, ih]
      by_cases hk : k = p.1
      · simp [hk, hp]
      · simp [hk]
    · rw [List.filter_cons_of_neg (p := fun p : String × V => f p.1) hp, Dict.get_cons, ih]
      by_cases hk : k = p.1
      · simp [hk, hp]
      · simp [hk]

theorem Dict.get_append (d1 d2 : Dict V) (k : String) :
    Dict.get (d1 ++ d2) k = (d1.get k).or (d2.get k) := by
  induction d1 with
  | nil => simp [Dict.get_nil]
  | cons p d ih =>
    rw [List.cons_append, Dict.get_cons, Dict.get_cons, ih]
    split <;> simp

theorem Dict.get_mapVal (d : Dict V) (f : String → V → V) (k : String) :
    Dict.get (d.map fun p => (p.1, f p.1 p.2)) k = (d.get k).map (f k) := by
  induction d with
  | nil => simp [Dict.get_nil]
  | cons p d ih =>
    rw [List.map_cons, Dict.get_cons, Dict.get_cons, ih]
    split
    · rename_i h; subst h; simp
    · rfl

/-- Lookup in a union: the right operand wins. -/
theorem Dict.get_union (d1 d2 : Dict V) (k : String) :
    (Dict.union d1 d2).get k = (d2.get k).or (d1.get k) := by
  unfold Dict.union
  rw [Dict.get_append, Dict.get_mapVal d1 (fun k v => (d2.get k).getD v),
    Dict.get_filter_key d2 (fun k => !d1.hasKey k)]
  cases h1 : d1.get k with
  | none =>
    have := (Dict.hasKey_false_iff d1 k).2 h1
    simp [this]
  | some v =>
    cases h2 : d2.get k <;> simp

theorem DWF.filter {d : Dict V} (h : DWF d) (f : String × V → Bool) : DWF (d.filter f) := by
  unfold DWF at *
  exact (List.filter_sublist.map Prod.fst).nodup h

theorem DWF.union {d1 d2 : Dict V} (h1 : DWF d1) (h2 : DWF d2) : DWF (Dict.union d1 d2) := by
  unfold DWF Dict.union
  rw [List.map_append, List.nodup_append]
  refine ⟨?_, h2.filter _, ?_⟩
  · have : List.map Prod.fst (List.map (fun p => (p.1, (d2.get p.1).getD p.2)) d1)
        = d1.map Prod.fst := by simp [List.map_map, Function.comp_def]
    rw [this]; exact h1
  · intro a ha b hb hab
    subst hab
    simp only [List.map_map, Function.comp_def] at ha
    obtain ⟨p, hp, rfl⟩ := List.mem_map.1 hb
    have := (List.mem_filter.1 hp).2
    have h3 : d1.hasKey p.1 = true := (Dict.hasKey_iff_mem _ _).2 ha
    simp [h3] at this

/-- The entry `k ↦ v` of the common part. -/
theorem get_common {d0 : Dict V} {ds : List (Dict V)} (h0 : DWF d0) (hs : ∀ d ∈ ds, DWF d)
    (k : String) (v : V) :
    Dict.get (d0.filter fun p => ds.all fun d => d.contains p) k = some v ↔
      ∀ d ∈ d0 :: ds, Dict.get d k = some v := by
  rw [Dict.get_iff_mem (h0.filter _), List.mem_filter, ← Dict.get_iff_mem h0]
  simp only [List.all_eq_true, List.contains_iff_mem]
  constructor
  · rintro ⟨h1, h2⟩ d hd
    rcases List.mem_cons.1 hd with rfl | hd
    · exact h1
    · exact Dict.get_of_mem (hs d hd) (h2 d hd)
  · intro h
    exact ⟨h d0 (by simp), fun d hd => Dict.mem_of_get (h d (by simp [hd]))⟩

/-- Specification of `combineMetadata`. -/
theorem combineMetadata_spec (all : List (Dict V)) (hne : all ≠ []) (hw : ∀ d ∈ all, DWF d)
    (hl : ∀ d ∈ all, d.get "line_data" = none) :
    ∃ m, combineMetadata all = .ok m ∧ DWF m.common ∧
      (∀ k v, m.common.get k = some v ↔ ∀ d ∈ all, Dict.get d k = some v) ∧
      (m.lines = none ∨ m.lines = some (all.map fun d => d.filter fun p => !m.common.hasKey p.1)) ∧
      (m.lines = none ↔ ∀ d ∈ all, ∀ k, Dict.get d k ≠ none → m.common.get k ≠ none) := by
  have hany : (all.any fun d => d.hasKey "line_data") = false := by
    rw [List.any_eq_false]
    intro d hd
    rw [Bool.not_eq_true, Dict.hasKey_false_iff]
    exact hl d hd
  match all, hne with
  | d0 :: ds, _ =>
    have h0 := hw d0 (by simp)
    have hs : ∀ d ∈ ds, DWF d := fun d hd => hw d (by simp [hd])
    unfold combineMetadata
    rw [hany]
    simp only [Bool.false_eq_true, if_false]
    set common := d0.filter fun p => ds.all fun d => d.contains p with hc
    have hempty : (((d0 :: ds).map fun d => d.filter fun p => !Dict.hasKey common p.1).any
        fun d => !d.isEmpty) = false ↔
        ∀ d ∈ d0 :: ds, ∀ k, Dict.get d k ≠ none → Dict.get common k ≠ none := by
      rw [List.any_eq_false]
      constructor
      · intro h d hd k hk hck
        have h1 := h _ (List.mem_map.2 ⟨d, hd, rfl⟩)
        simp only [Bool.not_eq_eq_eq_not, Bool.not_true, List.isEmpty_eq_false_iff, ne_eq,
          not_not] at h1
        obtain ⟨v, hv⟩ := Option.ne_none_iff_exists'.1 hk
        have hm := Dict.mem_of_get hv
        rw [List.filter_eq_nil_iff] at h1
        have := h1 _ hm
        simp only [Bool.not_eq_true', Bool.not_eq_false] at this
        rw [Dict.hasKey_iff] at this
        simp [hck] at this
      · intro h l hl2
        obtain ⟨d, hd, rfl⟩ := List.mem_map.1 hl2
        simp only [Bool.not_eq_eq_eq_not, Bool.not_true, List.isEmpty_eq_false_iff, ne_eq,
          not_not]
        rw [List.filter_eq_nil_iff]
        rintro ⟨k, v⟩ hp
        simp only [Bool.not_eq_true', Bool.not_eq_false]
        rw [Dict.hasKey_iff]
        have := h d hd k (by rw [Dict.get_of_mem (hw d hd) hp]; simp)
        exact Option.isSome_iff_ne_none.2 this
    split
    · rename_i ht
      refine ⟨_, rfl, h0.filter _, get_common h0 hs, Or.inr rfl, ?_⟩
      constructor
      · intro h; simp at h
      · intro h
        rw [hempty.2 h] at ht
        simp at ht
    · rename_i hf
      refine ⟨_, rfl, h0.filter _, get_common h0 hs, Or.inl rfl, ?_⟩
      simp only [true_iff]
      exact hempty.1 (by simpa using hf)

/-- Errors of `combineMetadata`: an empty list or a nested `line_data`. -/
theorem combineMetadata_error (all : List (Dict V)) :
    (∃ d ∈ all, d.get "line_data" ≠ none) → combineMetadata all = .error .assertionError := by
  rintro ⟨d, hd, h⟩
  have : (all.any fun d => d.hasKey "line_data") = true := by
    rw [List.any_eq_true]
    refine ⟨d, hd, ?_⟩
    rw [Dict.hasKey_iff]
    exact Option.isSome_iff_ne_none.2 h
  simp [combineMetadata, this]

end Euphonic
