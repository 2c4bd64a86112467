import Verif.Model.Labels
import Verif.Props.Path
import Verif.Lemmas.ListIdx
import Mathlib.Tactic.NormNum
import Mathlib.Tactic.IntervalCases
import Mathlib.Data.List.ProdSigma
import Mathlib.Data.List.Nodup

/-!
# C115 Generic labels of q-points
-/

set_option autoImplicit false

namespace Euphonic.Labels

open Euphonic.Lattice

/-- The text of a fraction: a numeral, or two with a stroke in between. -/
def Reads (s : String) (x : ℝ) : Prop :=
  (∃ n : Nat, s = toString n ∧ x = n) ∨ ∃ p q : Nat, s = toString p ++ "/" ++ toString q ∧ 0 < q ∧ x = (p : ℝ) / q

/-- A coordinate that there are labels for: one of the fractions between 0 and 1 with denominator 1, 2, 3, 4, or 3/8 or 5/8. -/
def Known (x : ℝ) : Prop :=
  (∃ p q : Nat, 0 < q ∧ q ≤ 4 ∧ p < q ∧ x = (p : ℝ) / q) ∨ x = 3 / 8 ∨ x = 5 / 8

/-- The tolerance in one coordinate. -/
def Near (c v : ℝ) : Prop := |c - v| ≤ 1 / 10 ^ 6 + 1 / 10 ^ 5 * |v|

theorem pairs_read : ∀ p ∈ List.zip labelStrings labelCoords, Reads p.1 p.2 ∧ ' ' ∉ p.1.toList ∧ p.1 ≠ "" ∧ Known p.2 := by
  simp only [labelStrings, labelCoords, List.zip_cons_cons, List.zip_nil_right, List.forall_mem_cons, List.not_mem_nil]
  refine ⟨⟨Or.inl ⟨0, rfl, by norm_num⟩, by decide, by decide, ?_⟩,
    ⟨Or.inr ⟨1, 4, rfl, by norm_num, by norm_num⟩, by decide, by decide, ?_⟩,
    ⟨Or.inr ⟨3, 4, rfl, by norm_num, by norm_num⟩, by decide, by decide, ?_⟩,
    ⟨Or.inr ⟨1, 2, rfl, by norm_num, by norm_num⟩, by decide, by decide, ?_⟩,
    ⟨Or.inr ⟨1, 3, rfl, by norm_num, by norm_num⟩, by decide, by decide, ?_⟩,
    ⟨Or.inr ⟨2, 3, rfl, by norm_num, by norm_num⟩, by decide, by decide, ?_⟩,
    ⟨Or.inr ⟨3, 8, rfl, by norm_num, by norm_num⟩, by decide, by decide, ?_⟩,
    ⟨Or.inr ⟨5, 8, rfl, by norm_num, by norm_num⟩, by decide, by decide, ?_⟩, by simp⟩
  · exact Or.inl ⟨0, 1, by norm_num, by norm_num, by norm_num, by norm_num⟩
  · exact Or.inl ⟨1, 4, by norm_num, by norm_num, by norm_num, by norm_num⟩
  · exact Or.inl ⟨3, 4, by norm_num, by norm_num, by norm_num, by norm_num⟩
  · exact Or.inl ⟨1, 2, by norm_num, by norm_num, by norm_num, by norm_num⟩
  · exact Or.inl ⟨1, 3, by norm_num, by norm_num, by norm_num, by norm_num⟩
  · exact Or.inl ⟨2, 3, by norm_num, by norm_num, by norm_num, by norm_num⟩
  · exact Or.inr (Or.inl (by norm_num))
  · exact Or.inr (Or.inr (by norm_num))

theorem known_listed {x : ℝ} (h : Known x) : ∃ s, (s, x) ∈ List.zip labelStrings labelCoords := by
  simp only [labelStrings, labelCoords, List.zip_cons_cons, List.zip_nil_right, List.mem_cons, Prod.mk.injEq,
    List.not_mem_nil, or_false]
  rcases h with ⟨p, q, h1, h2, h3, rfl⟩ | rfl | rfl
  · interval_cases q <;> interval_cases p
    · exact ⟨"0", Or.inl ⟨rfl, by norm_num⟩⟩
    · exact ⟨"0", Or.inl ⟨rfl, by norm_num⟩⟩
    · exact ⟨"1/2", by norm_num⟩
    · exact ⟨"0", Or.inl ⟨rfl, by norm_num⟩⟩
    · exact ⟨"1/3", by norm_num⟩
    · exact ⟨"2/3", by norm_num⟩
    · exact ⟨"0", Or.inl ⟨rfl, by norm_num⟩⟩
    · exact ⟨"1/4", by norm_num⟩
    · exact ⟨"1/2", by norm_num⟩
    · exact ⟨"3/4", by norm_num⟩
  · exact ⟨"3/8", by norm_num⟩
  · exact ⟨"5/8", by norm_num⟩

theorem mem_generic {s : String} {v : V3 ℝ} : (s, v) ∈ genericTable ↔
    ∃ a b c : String, s = a ++ " " ++ b ++ " " ++ c ∧ (a, v.x) ∈ List.zip labelStrings labelCoords ∧
      (b, v.y) ∈ List.zip labelStrings labelCoords ∧ (c, v.z) ∈ List.zip labelStrings labelCoords := by
  unfold genericTable
  simp only [List.mem_flatMap, List.mem_map, Prod.mk.injEq]
  constructor
  · rintro ⟨a, ha, b, hb, c, hc, rfl, rfl⟩
    exact ⟨a.1, b.1, c.1, rfl, ha, hb, hc⟩
  · rintro ⟨a, b, c, rfl, ha, hb, hc⟩
    exact ⟨_, ha, _, hb, _, hc, rfl, rfl⟩

/-- A label made from three texts without spaces determines them. -/
theorem join_injective {a b c a' b' c' : String} (ha : ' ' ∉ a.toList) (hb : ' ' ∉ b.toList) (ha' : ' ' ∉ a'.toList)
    (hb' : ' ' ∉ b'.toList) (h : a ++ " " ++ b ++ " " ++ c = a' ++ " " ++ b' ++ " " ++ c') : a = a' ∧ b = b' ∧ c = c' := by
  have key : ∀ (l l' r r' : List Char), ' ' ∉ l → ' ' ∉ l' → l ++ ' ' :: r = l' ++ ' ' :: r' → l = l' ∧ r = r' := by
    intro l
    induction l with
    | nil =>
      intro l' r r' _ h2 h
      cases l' with
      | nil => simpa using h
      | cons x l' => simp at h; simp [← h.1] at h2
    | cons y l ih =>
      intro l' r r' h1 h2 h
      cases l' with
      | nil => simp at h; simp [h.1] at h1
      | cons x l' =>
        simp only [List.cons_append, List.cons.injEq] at h
        obtain ⟨e1, e2⟩ := ih l' r r' (fun hm => h1 (by simp [hm])) (fun hm => h2 (by simp [hm])) h.2
        exact ⟨by rw [h.1, e1], e2⟩
  have h' := congrArg String.toList h
  simp only [String.toList_append, List.append_assoc] at h'
  obtain ⟨e1, h2⟩ := key _ _ _ _ ha ha' h'
  obtain ⟨e2, e3⟩ := key _ _ _ _ hb hb' h2
  exact ⟨String.toList_inj.1 e1, String.toList_inj.1 e2, String.toList_inj.1 e3⟩

theorem length_zip8 : (List.zip labelStrings labelCoords).length = 8 := rfl

/-- **C115** All 512 labels are different, and every label spells the coordinates it stands for. -/
theorem C115_table : (genericTable.map Prod.fst).Nodup ∧ genericTable.length = 512 ∧
    ∀ s v, (s, v) ∈ genericTable → ∃ a b c, s = a ++ " " ++ b ++ " " ++ c ∧ Reads a v.x ∧ Reads b v.y ∧ Reads c v.z := by
  have hfst : (List.zip labelStrings labelCoords).map Prod.fst = labelStrings := rfl
  have hnd : (List.zip labelStrings labelCoords).Nodup := by
    apply List.Nodup.of_map Prod.fst
    rw [hfst]
    decide
  have hprod : genericTable.map Prod.fst =
      ((List.zip labelStrings labelCoords) ×ˢ (List.zip labelStrings labelCoords) ×ˢ (List.zip labelStrings labelCoords)).map
        fun t => t.1.1 ++ " " ++ t.2.1.1 ++ " " ++ t.2.2.1 := by
    unfold genericTable
    simp only [SProd.sprod, List.product, List.map_flatMap, List.map_map]
    rfl
  have hinj : ∀ p ∈ List.zip labelStrings labelCoords, ∀ p' ∈ List.zip labelStrings labelCoords, p.1 = p'.1 → p = p' := by
    intro p hp p' hp' h
    exact List.inj_on_of_nodup_map (by rw [hfst]; decide) hp hp' h
  refine ⟨?_, by
    unfold genericTable
    dsimp only
    rw [length_flatMap_const _ _ 64, length_zip8]
    intro a _
    rw [length_flatMap_const _ _ 8, length_zip8]
    intro b _
    rw [List.length_map, length_zip8], ?_⟩
  · rw [hprod]
    refine List.Nodup.map_on ?_ (hnd.product (hnd.product hnd))
    rintro ⟨a, b, c⟩ h ⟨a', b', c'⟩ h' he
    simp only [List.mem_product] at h h'
    obtain ⟨e1, e2, e3⟩ := join_injective (pairs_read _ h.1).2.1 (pairs_read _ h.2.1).2.1 (pairs_read _ h'.1).2.1
      (pairs_read _ h'.2.1).2.1 he
    rw [hinj _ h.1 _ h'.1 e1, hinj _ h.2.1 _ h'.2.1 e2, hinj _ h.2.2 _ h'.2.2 e3]
  · intro s v h
    obtain ⟨a, b, c, rfl, ha, hb, hc⟩ := mem_generic.1 h
    exact ⟨a, b, c, rfl, (pairs_read _ ha).1, (pairs_read _ hb).1, (pairs_read _ hc).1⟩

/-- Some entry is near a vector exactly if each of its components is near a coordinate there are labels for. -/
theorem exists_near (v : V3 ℝ) : (∃ e ∈ genericTable, Matches e.2 v) ↔
    (∃ x, Known x ∧ Near x v.x) ∧ (∃ y, Known y ∧ Near y v.y) ∧ ∃ z, Known z ∧ Near z v.z := by
  constructor
  · rintro ⟨⟨s, w⟩, he, h1, h2, h3⟩
    obtain ⟨a, b, c, -, ha, hb, hc⟩ := mem_generic.1 he
    exact ⟨⟨_, (pairs_read _ ha).2.2.2, h1⟩, ⟨_, (pairs_read _ hb).2.2.2, h2⟩, ⟨_, (pairs_read _ hc).2.2.2, h3⟩⟩
  · rintro ⟨⟨x, hx, h1⟩, ⟨y, hy, h2⟩, z, hz, h3⟩
    obtain ⟨a, ha⟩ := known_listed hx
    obtain ⟨b, hb⟩ := known_listed hy
    obtain ⟨c, hc⟩ := known_listed hz
    exact ⟨(a ++ " " ++ b ++ " " ++ c, ⟨x, y, z⟩), mem_generic.2 ⟨a, b, c, rfl, ha, hb, hc⟩, h1, h2, h3⟩

/-- **C115** A q-point has a generic label exactly if each coordinate is near one of the fractions, up to an integer; the
label then spells these fractions, in the order of the coordinates. -/
theorem C115_generic_label (q : V3 ℝ) :
    (qptLabel genericTable q ≠ "" ↔ (∃ x, Known x ∧ Near x (Int.fract q.x)) ∧ (∃ y, Known y ∧ Near y (Int.fract q.y)) ∧
      ∃ z, Known z ∧ Near z (Int.fract q.z)) ∧
    (qptLabel genericTable q ≠ "" → ∃ a b c x y z, qptLabel genericTable q = a ++ " " ++ b ++ " " ++ c ∧
      Reads a x ∧ Reads b y ∧ Reads c z ∧ Near x (Int.fract q.x) ∧ Near y (Int.fract q.y) ∧ Near z (Int.fract q.z)) := by
  by_cases h : ∃ e ∈ genericTable, Matches e.2 (reduced q)
  · have hcond := (exists_near _).1 h
    have hfind : ∃ e, genericTable.find? (fun e => closeTo e.2 (reduced q)) = some e := by
      obtain ⟨e, he, hm⟩ := h
      have := List.find?_isSome (p := fun e : String × V3 ℝ => closeTo e.2 (reduced q)).2 ⟨e, he, (closeTo_iff e.2 (reduced q)).2 hm⟩
      exact Option.isSome_iff_exists.1 this
    obtain ⟨⟨s, w⟩, he⟩ := hfind
    have hlab : qptLabel genericTable q = s := by
      unfold qptLabel
      dsimp only
      rw [norm01_eq, he]
    have hmem := List.mem_of_find?_eq_some he
    have hm : Matches w (reduced q) := (closeTo_iff _ _).1 (by simpa using List.find?_some he)
    obtain ⟨a, b, c, hs, ha, hb, hc⟩ := mem_generic.1 hmem
    have hne : s ≠ "" := by
      rw [hs]
      intro h0
      have := congrArg String.toList h0
      simp at this
    rw [hlab]
    exact ⟨⟨fun _ => hcond, fun _ => hne⟩, fun _ => ⟨a, b, c, _, _, _, hs, (pairs_read _ ha).1, (pairs_read _ hb).1,
      (pairs_read _ hc).1, hm.1, hm.2.1, hm.2.2⟩⟩
  · have hcond := fun hc => h ((exists_near _).2 hc)
    have hempty : qptLabel genericTable q = "" := by
      refine C36_complete _ _ fun e he => ⟨fun hm => h ⟨e, he, hm⟩, fun hm => ?_, fun hm => ?_⟩
      · obtain ⟨h1, h2, h3⟩ := (exists_near _).1 ⟨e, he, hm⟩
        exact hcond ⟨h2, h3, h1⟩
      · obtain ⟨h1, h2, h3⟩ := (exists_near _).1 ⟨e, he, hm⟩
        exact hcond ⟨h3, h1, h2⟩
    rw [hempty]
    exact ⟨⟨fun h => absurd rfl h, fun h => absurd h hcond⟩, fun h => absurd rfl h⟩

/-- **C115** Which labels are used: the generic ones without a cell, without symmetry and for a cell without atoms,
otherwise those of `seekpath`; every other error of `seekpath` is an error. -/
theorem C115_labels_used (coordText : V3 ℝ → String) (qpts : List (V3 ℝ)) (n : Nat) (t : List (String × V3 ℝ)) :
    getQpointLabels coordText qpts none = .ok (qpointLabels genericTable coordText qpts) ∧
    getQpointLabels coordText qpts (some (n, .table t)) = .ok (qpointLabels t coordText qpts) ∧
    getQpointLabels coordText qpts (some (n, .noSymmetry)) = .ok (qpointLabels genericTable coordText qpts) ∧
    getQpointLabels coordText qpts (some (0, .badType true)) = .ok (qpointLabels genericTable coordText qpts) ∧
    (0 < n → ∀ b, getQpointLabels coordText qpts (some (n, .badType b)) = .error .assertionError) ∧
    getQpointLabels coordText qpts (some (n, .badType false)) = .error .assertionError := by
  refine ⟨rfl, rfl, rfl, rfl, ?_, rfl⟩
  intro hn b
  cases b
  · rfl
  · unfold getQpointLabels labelTable
    simp [hn.ne', bind, Except.bind]

/-- **C115** The text at each tick: the label of that point with a Greek letter for GAMMA, or, if no tick would have a
label, the coordinates of the point. -/
theorem C115_tick_text (table : List (String × V3 ℝ)) (coordText : V3 ℝ → String) (qpts : List (V3 ℝ)) (i : Nat)
    (s : String) (h : (i, s) ∈ qpointLabels table coordText qpts) : ∃ q, qpts[i]? = some q ∧
    ((∃ j q', Labelled qpts j ∧ qpts[j]? = some q' ∧ qptLabel table q' ≠ "") →
      s = if qptLabel table q = "GAMMA" then "$\\Gamma$" else qptLabel table q) ∧
    ((∀ j q', Labelled qpts j → qpts[j]? = some q' → qptLabel table q' = "") → s = coordText q) := by
  have hL : ∀ j, j ∈ whereIdx (hasLabel qpts) ↔ Labelled qpts j := by
    intro j
    rw [← (C35_labelled_points table coordText qpts).2 j, indices_qpointLabels]
  have hget : ∀ j ∈ whereIdx (hasLabel qpts), ∃ q, qpts[j]? = some q ∧ qpts.getD j ⟨0, 0, 0⟩ = q := by
    intro j hj
    rw [mem_whereIdx] at hj
    have := (List.getElem?_eq_some_iff.1 hj).1
    rw [length_hasLabel] at this
    refine ⟨qpts[j], List.getElem?_eq_getElem this, ?_⟩
    rw [List.getD_eq_getElem?_getD, List.getElem?_eq_getElem this]
    rfl
  have hG : ∀ l : String, (if l = "GAMMA" then "$\\Gamma$" else l) = "" ↔ l = "" := by
    intro l
    split
    · rename_i hl
      rw [hl]
      decide
    · rfl
  have hzip : ∀ (l : List Nat) (f : Nat → String) (i : Nat) (s : String), (i, s) ∈ l.zip (l.map f) → i ∈ l ∧ s = f i := by
    intro l f i s hm
    obtain ⟨k, hk, he⟩ := List.getElem_of_mem hm
    rw [List.getElem_zip, Prod.mk.injEq, List.getElem_map] at he
    exact ⟨he.1 ▸ List.getElem_mem _, by rw [← he.2, he.1]⟩
  unfold qpointLabels at h
  dsimp only at h
  split at h
  · rename_i hall
    rw [List.map_map] at h
    obtain ⟨hi, rfl⟩ := hzip _ _ _ _ h
    obtain ⟨q, hq, hd⟩ := hget i hi
    refine ⟨q, hq, ?_, fun _ => by rw [Function.comp_apply, hd]⟩
    rintro ⟨j, q', hj, hq', hne⟩
    exfalso
    apply hne
    rw [List.all_eq_true] at hall
    obtain ⟨q'', hq'', hd'⟩ := hget j ((hL j).2 hj)
    rw [hq'] at hq''
    cases hq''
    have := hall _ (List.mem_map.2 ⟨q', List.mem_map.2 ⟨j, (hL j).2 hj, hd'⟩, rfl⟩)
    rw [decide_eq_true_eq, hG] at this
    exact this
  · rename_i hall
    rw [List.map_map] at h
    obtain ⟨hi, rfl⟩ := hzip _ _ _ _ h
    obtain ⟨q, hq, hd⟩ := hget i hi
    refine ⟨q, hq, fun _ => by rw [Function.comp_apply, hd], ?_⟩
    intro hempty
    exfalso
    apply hall
    rw [List.all_eq_true]
    intro l hl
    obtain ⟨q1, h1, rfl⟩ := List.mem_map.1 hl
    obtain ⟨j, hj, rfl⟩ := List.mem_map.1 h1
    obtain ⟨q2, h2, hd2⟩ := hget j hj
    rw [decide_eq_true_eq, hG, hd2]
    exact hempty j q2 ((hL j).1 hj) h2

/-- **C115** The axis has one position for each q-point, and ticks only at these; the first and the last have ticks. -/
theorem C115_axis (recip : M3 ℝ) (coordText : V3 ℝ → String) (cell : Nat × Seek) (qpts : List (V3 ℝ)) (hq : qpts ≠ [])
    (x : List ℝ) (ls : List (Nat × String)) (h : axisAndLabels recip coordText cell qpts = .ok (x, ls)) :
    x.length = qpts.length ∧ (∀ p ∈ ls, p.1 < x.length) ∧ 0 ∈ ls.map Prod.fst ∧ x.length - 1 ∈ ls.map Prod.fst := by
  unfold axisAndLabels getQpointLabels at h
  cases ht : labelTable (some cell) with
  | error e => simp [ht, bind, Except.bind] at h
  | ok t =>
    simp only [ht, bind, Except.bind, pure, Except.pure, Except.ok.injEq, Prod.mk.injEq] at h
    obtain ⟨rfl, rfl⟩ := h
    have hlen := (C34_length_and_start recip qpts hq).1
    have hpos : 0 < qpts.length := List.length_pos_iff.2 hq
    have hL := (C35_labelled_points t coordText qpts).2
    refine ⟨hlen, ?_, ?_, ?_⟩
    · intro p hp
      obtain ⟨q, h1, -⟩ := C115_tick_text t coordText qpts p.1 p.2 hp
      rw [hlen]
      exact (List.getElem?_eq_some_iff.1 h1).1
    · rw [hL]
      exact ⟨hpos, Or.inl rfl⟩
    · rw [hL, hlen]
      exact ⟨by omega, Or.inr (Or.inl (by omega))⟩

/-- Concrete points: a label with three fractions, and none for a sixth. -/
example : qptLabel genericTable ⟨5 / 4, -1 / 2, 1 / 3⟩ ≠ "" ∧ qptLabel genericTable ⟨1 / 6, 0, 0⟩ = "" := by
  constructor
  · rw [(C115_generic_label _).1]
    have h1 : Int.fract ((5 : ℝ) / 4) = 1 / 4 := by rw [Int.fract_eq_iff]; exact ⟨by norm_num, by norm_num, 1, by norm_num⟩
    have h2 : Int.fract ((-1 : ℝ) / 2) = 1 / 2 := by rw [Int.fract_eq_iff]; exact ⟨by norm_num, by norm_num, -1, by norm_num⟩
    have h3 : Int.fract ((1 : ℝ) / 3) = 1 / 3 := by rw [Int.fract_eq_iff]; exact ⟨by norm_num, by norm_num, 0, by norm_num⟩
    refine ⟨⟨1 / 4, Or.inl ⟨1, 4, by norm_num, by norm_num, by norm_num, by norm_num⟩, ?_⟩,
      ⟨1 / 2, Or.inl ⟨1, 2, by norm_num, by norm_num, by norm_num, by norm_num⟩, ?_⟩,
      ⟨1 / 3, Or.inl ⟨1, 3, by norm_num, by norm_num, by norm_num, by norm_num⟩, ?_⟩⟩
    · rw [Near]; show |_ - Int.fract ((5 : ℝ) / 4)| ≤ _ + _ * |Int.fract ((5 : ℝ) / 4)|; rw [h1]; norm_num
    · rw [Near]; show |_ - Int.fract ((-1 : ℝ) / 2)| ≤ _ + _ * |Int.fract ((-1 : ℝ) / 2)|; rw [h2]; norm_num
    · rw [Near]; show |_ - Int.fract ((1 : ℝ) / 3)| ≤ _ + _ * |Int.fract ((1 : ℝ) / 3)|; rw [h3]; norm_num
  · by_contra h
    obtain ⟨⟨x, hx, hn⟩, -⟩ := (C115_generic_label _).1.1 h
    have h1 : Int.fract ((1 : ℝ) / 6) = 1 / 6 := by rw [Int.fract_eq_iff]; exact ⟨by norm_num, by norm_num, 0, by norm_num⟩
    unfold Near at hn
    change |x - Int.fract ((1 : ℝ) / 6)| ≤ _ + _ * |Int.fract ((1 : ℝ) / 6)| at hn
    rw [h1, abs_le] at hn
    norm_num [abs_of_pos] at hn
    rcases hx with ⟨p, q, g1, g2, g3, rfl⟩ | rfl | rfl
    · interval_cases q <;> interval_cases p <;> norm_num at hn
    · norm_num at hn
    · norm_num at hn

/-- The points of a primitive tetragonal lattice as `seekpath` lists them. -/
def tetragonal : List (String × V3 ℚ) :=
  [("GAMMA", ⟨0, 0, 0⟩), ("Z", ⟨0, 0, 1 / 2⟩), ("M", ⟨1 / 2, 1 / 2, 0⟩), ("A", ⟨1 / 2, 1 / 2, 1 / 2⟩),
   ("R", ⟨0, 1 / 2, 1 / 2⟩), ("X", ⟨0, 1 / 2, 0⟩)]

/-- **C115** *Violation:* coordinates are permuted cyclically until some label fits, also where the lattice has no such
symmetry. In a tetragonal lattice the four-fold axis takes (0, 1/2, 1/2) to (1/2, 0, 1/2) up to a lattice vector, but the
former is labelled R and the latter M, like (1/2, 1/2, 0), which no symmetry relates to it: the third coordinate only
changes its sign. -/
theorem C115_rolled_wrong : qptLabel tetragonal ⟨0, 1 / 2, 1 / 2⟩ = "R" ∧ qptLabel tetragonal ⟨-1 / 2, 0, 1 / 2⟩ = "M" ∧
    qptLabel tetragonal ⟨1 / 2, 1 / 2, 0⟩ = "M" := by
  refine ⟨?_, ?_, ?_⟩ <;> decide +kernel

end Euphonic.Labels
