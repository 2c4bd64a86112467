import Verif.Prelude
import Verif.Lemmas.Split
import Verif.Lemmas.Dict

/-! Lemmas on collections. -/

set_option autoImplicit false
set_option linter.unusedSectionVars false

namespace Euphonic

variable {V α : Type} [DecidableEq V]

theorem pyGet_nonneg {β : Type} (l : List β) (i : Nat) (h : i < l.length) :
    pyGet l (i : Int) = .ok l[i] := by
  have h1 : ¬ (i : Int) < 0 := by omega
  simp [pyGet, h1, h]

theorem pyGet_neg {β : Type} (l : List β) (i : Int) (h1 : i < 0) (h2 : -l.length ≤ i) :
    pyGet l i = pyGet l (i + l.length) := by
  have h3 : ¬ (i + (l.length : Int)) < 0 := by omega
  simp [pyGet, h1, h3]

theorem pyGet_out {β : Type} (l : List β) (i : Int) (h : i < -l.length ∨ (l.length : Int) ≤ i) :
    pyGet l i = .error .indexError := by
  unfold pyGet
  rcases h with h | h
  · have h1 : i < 0 := by omega
    have h2 : i + (l.length : Int) < 0 := by omega
    simp [h1, h2]
  · have h1 : ¬ i < 0 := by omega
    have h2 : l[i.toNat]? = none := by
      rw [List.getElem?_eq_none_iff]; omega
    simp [h1, h2]

/-- Well-formedness of a collection with `n` data per line: what the constructor enforces, plus the
facts that dictionaries have distinct keys and that `line_data` is not itself a metadata key. -/
structure MColl.WF (c : MColl V α) (n : Nat) : Prop where
  ne : c.rows ≠ []
  rect : ∀ r ∈ c.rows, r.length = n
  axis : c.x.length = n ∨ c.x.length = n + 1
  lines : ∀ ls, c.md.lines = some ls → ls.length = c.rows.length
  dwf : DWF c.md.common
  dwfl : ∀ ls, c.md.lines = some ls → ∀ d ∈ ls, DWF d
  nold : c.md.common.get "line_data" = none
  noldl : ∀ ls, c.md.lines = some ls → ∀ d ∈ ls, Dict.get d "line_data" = none

/-- The per-line metadata dictionary of line `i` (empty if there is none). -/
def MColl.lineOf (c : MColl V α) (i : Nat) : Dict V :=
  match c.md.lines with
  | none => []
  | some ls => ls.getD i []

theorem MColl.length_iterMetadata {c : MColl V α} {n : Nat} (h : c.WF n) :
    c.iterMetadata.length = c.rows.length := by
  unfold MColl.iterMetadata
  cases hl : c.md.lines with
  | none => simp
  | some ls => simp [h.lines ls hl]

theorem MColl.getElem_iterMetadata (c : MColl V α) (i : Nat) (hi : i < c.iterMetadata.length) :
    c.iterMetadata[i] = Dict.union c.md.common (c.lineOf i) := by
  obtain ⟨x, xu, rows, yu, t, ⟨common, lines⟩⟩ := c
  cases lines with
  | none => simp [MColl.iterMetadata, MColl.lineOf]
  | some ls =>
    have hi' : i < ls.length := by simpa [MColl.iterMetadata] using hi
    simp [MColl.iterMetadata, MColl.lineOf, List.getD_eq_getElem?_getD, hi']

theorem MColl.lineOf_props {c : MColl V α} {n : Nat} (h : c.WF n) (i : Nat) :
    DWF (c.lineOf i) ∧ Dict.get (c.lineOf i) "line_data" = none := by
  unfold MColl.lineOf
  cases hl : c.md.lines with
  | none => exact ⟨by simp [DWF], rfl⟩
  | some ls =>
    simp only [List.getD_eq_getElem?_getD]
    cases hi : ls[i]? with
    | none => exact ⟨by simp [DWF], rfl⟩
    | some d =>
      have := List.mem_of_getElem? hi
      exact ⟨h.dwfl ls hl d this, h.noldl ls hl d this⟩

theorem MColl.iterMetadata_props {c : MColl V α} {n : Nat} (h : c.WF n) (d : Dict V)
    (hd : d ∈ c.iterMetadata) : DWF d ∧ d.get "line_data" = none := by
  obtain ⟨i, hi, rfl⟩ := List.getElem_of_mem hd
  rw [MColl.getElem_iterMetadata]
  obtain ⟨h1, h2⟩ := MColl.lineOf_props h i
  refine ⟨h.dwf.union h1, ?_⟩
  rw [Dict.get_union, h2, h.nold]; rfl

/-- Item `i` of a well-formed collection. -/
theorem MColl.getInt_ok {c : MColl V α} {n : Nat} (h : c.WF n) (i : Nat) (hi : i < c.rows.length) :
    c.getInt (i : Int) = .ok ⟨c.x, c.xUnit, c.rows[i], c.yUnit, c.ticks,
      Dict.union c.md.common (c.lineOf i)⟩ := by
  have hlen := MColl.length_iterMetadata h
  unfold MColl.getInt
  rw [pyGet_nonneg c.rows i hi, pyGet_nonneg c.iterMetadata i (by omega),
    MColl.getElem_iterMetadata]
  have hr := h.rect c.rows[i] (List.getElem_mem _)
  have := h.axis
  rw [← hr] at this
  simp [bind, Except.bind, MSpec.new, this]

theorem MColl.iterFrom_ok {c : MColl V α} {n : Nat} (h : c.WF n) (fuel i : Nat)
    (hf : c.rows.length < fuel + i) (hi : i ≤ c.rows.length) :
    c.iterFrom fuel i = .ok ((List.range' i (c.rows.length - i)).map fun j =>
      ⟨c.x, c.xUnit, c.rows.getD j [], c.yUnit, c.ticks,
        Dict.union c.md.common (c.lineOf j)⟩) := by
  induction fuel generalizing i with
  | zero => omega
  | succ fuel ih =>
    rw [MColl.iterFrom]
    rcases Nat.lt_or_ge i c.rows.length with hlt | hge
    · rw [MColl.getInt_ok h i hlt]
      simp only [ih (i + 1) (by omega) (by omega), bind, Except.bind, pure, Except.pure]
      have e : c.rows.length - i = (c.rows.length - (i + 1)) + 1 := by omega
      rw [e, List.range'_succ, List.map_cons]
      rw [List.getD_eq_getElem _ _ hlt]
    · have e : i = c.rows.length := by omega
      have : c.getInt (i : Int) = .error .indexError := by
        unfold MColl.getInt
        rw [pyGet_out c.rows i (Or.inr (by omega))]
        rfl
      rw [this]
      simp [e]

theorem MColl.toList_ok {c : MColl V α} {n : Nat} (h : c.WF n) :
    c.toList = .ok ((List.range c.rows.length).map fun j =>
      ⟨c.x, c.xUnit, c.rows.getD j [], c.yUnit, c.ticks,
        Dict.union c.md.common (c.lineOf j)⟩) := by
  unfold MColl.toList MColl.len
  rw [MColl.iterFrom_ok h _ 0 (by omega) (by omega), List.range_eq_range']
  simp

/-- What combining metadata and then reading line `i` gives back. -/
theorem combine_line (all : List (Dict V)) (m : CMeta V)
    (hc : ∀ k v, m.common.get k = some v ↔ ∀ d ∈ all, Dict.get d k = some v)
    (hl : m.lines = none ∨ m.lines = some (all.map fun d => d.filter fun p => !m.common.hasKey p.1))
    (hn : m.lines = none ↔ ∀ d ∈ all, ∀ k, Dict.get d k ≠ none → m.common.get k ≠ none)
    (i : Nat) (hi : i < all.length) (k : String) :
    ((match m.lines with | none => [] | some ls => ls.getD i [] : Dict V).get k).or (m.common.get k)
      = Dict.get all[i] k := by
  have hmem : all[i] ∈ all := List.getElem_mem _
  cases hm : m.lines with
  | none =>
    simp only [Dict.get_nil, Option.none_or]
    cases hk : Dict.get all[i] k with
    | none =>
      cases hck : m.common.get k with
      | none => rfl
      | some v => have := (hc k v).1 hck _ hmem; rw [hk] at this; cases this
    | some v =>
      have h1 := hn.1 hm _ hmem k (by rw [hk]; simp)
      obtain ⟨w, hw⟩ := Option.ne_none_iff_exists'.1 h1
      have := (hc k w).1 hw _ hmem
      rw [hk] at this
      rw [hw, this]
  | some ls =>
    rcases hl with hl | hl
    · rw [hl] at hm; cases hm
    · rw [hm] at hl
      cases hl
      simp only
      rw [List.getD_eq_getElem _ _ (by simpa using hi), List.getElem_map,
        Dict.get_filter_key (all[i]) (fun k => !m.common.hasKey k)]
      cases hck : m.common.get k with
      | none => simp [(Dict.hasKey_false_iff m.common k).2 hck]
      | some v =>
        have h2 : m.common.hasKey k = true := by rw [Dict.hasKey_iff, hck]; rfl
        simp [h2, (hc k v).1 hck _ hmem]

/-- The lines of combined metadata are well-formed dictionaries. -/
theorem combine_lines_wf (all : List (Dict V)) (m : CMeta V) (hw : ∀ d ∈ all, DWF d)
    (hno : ∀ d ∈ all, d.get "line_data" = none)
    (hl : m.lines = none ∨ m.lines = some (all.map fun d => d.filter fun p => !m.common.hasKey p.1)) :
    ∀ ls, m.lines = some ls → ls.length = all.length ∧
      (∀ d ∈ ls, DWF d ∧ Dict.get d "line_data" = none ∧
        ∀ k, m.common.get k ≠ none → Dict.get d k = none) := by
  intro ls hls
  rcases hl with hl | hl
  · rw [hl] at hls; cases hls
  · rw [hl] at hls
    cases hls
    refine ⟨by simp, ?_⟩
    intro d hd
    obtain ⟨e, he, rfl⟩ := List.mem_map.1 hd
    refine ⟨(hw e he).filter _, ?_, ?_⟩
    · rw [Dict.get_filter_key e (fun k => !m.common.hasKey k), hno e he]; simp
    · intro k hk
      rw [Dict.get_filter_key e (fun k => !m.common.hasKey k)]
      have : m.common.hasKey k = true := by
        rw [Dict.hasKey_iff]; exact Option.isSome_iff_ne_none.2 hk
      simp [this]

/-- Constructing a collection from rows and combined metadata. -/
theorem new_combined (x : List α) (xu : String) (rows : List (List α)) (yu : String) (t : Ticks)
    (n : Nat) (hne : rows ≠ []) (hr : ∀ r ∈ rows, r.length = n)
    (hx : x.length = n ∨ x.length = n + 1)
    (all : List (Dict V)) (hlen : all.length = rows.length)
    (hw : ∀ d ∈ all, DWF d) (hno : ∀ d ∈ all, d.get "line_data" = none) :
    ∃ m, combineMetadata all = .ok m ∧
      MColl.new x xu rows yu t m = .ok ⟨x, xu, rows, yu, t, m⟩ ∧
      (MColl.mk x xu rows yu t m).WF n ∧
      (∀ i (hi : i < all.length) k,
        Dict.get (Dict.union m.common ((MColl.mk x xu rows yu t m).lineOf i)) k
          = Dict.get all[i] k) ∧
      (∀ k v, m.common.get k = some v ↔ ∀ d ∈ all, Dict.get d k = some v) ∧
      (∀ ls, m.lines = some ls → ∀ d ∈ ls, ∀ k, m.common.get k ≠ none → Dict.get d k = none) := by
  have hane : all ≠ [] := by
    intro h; subst h; simp at hlen; exact hne (List.eq_nil_of_length_eq_zero hlen.symm)
  obtain ⟨m, hm, hdw, hc, hl, hnn⟩ := combineMetadata_spec all hane hw hno
  have hlw := combine_lines_wf all m hw hno hl
  refine ⟨m, hm, ?_, ?_, ?_, hc, ?_⟩
  · match rows, hne with
    | r :: rs, _ =>
      have h1 := hr r (by simp)
      have h2 := hx
      rw [← h1] at h2
      simp only [MColl.new, h2, if_true]
      cases hls : m.lines with
      | none => rfl
      | some ls =>
        have := (hlw ls hls).1
        rw [hlen] at this
        simp [this]
  · refine ⟨hne, hr, hx, ?_, hdw, ?_, ?_, ?_⟩
    · intro ls hls; rw [(hlw ls hls).1, hlen]
    · intro ls hls d hd; exact ((hlw ls hls).2 d hd).1
    · cases hk : m.common.get "line_data" with
      | none => rfl
      | some v =>
        obtain ⟨d, hd⟩ := List.exists_mem_of_ne_nil _ hane
        have := (hc _ v).1 hk d hd
        rw [hno d hd] at this; cases this
    · intro ls hls d hd; exact ((hlw ls hls).2 d hd).2.1
  · intro i hi k
    rw [Dict.get_union]
    exact combine_line all m hc hl hnn i hi k
  · intro ls hls d hd; exact ((hlw ls hls).2 d hd).2.2

end Euphonic
