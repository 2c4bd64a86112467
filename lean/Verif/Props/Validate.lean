import Verif.Prelude
import Verif.Model.Validate

/-! # Property C19: constructors accept exactly the well-shaped inputs -/

set_option autoImplicit false

namespace Euphonic

variable {Ty : Type}

/-- Specification: a shape matches an expected shape if it has the same rank and every extent is the
expected one, -1 standing for any extent. -/
def ShapeMatches (expected actual : List Int) : Prop :=
  expected.length = actual.length ∧
    ∀ i (h : i < expected.length) (h' : i < actual.length), expected[i] = -1 ∨ expected[i] = actual[i]

/-- Specification: the argument has one of the types. -/
def TypeOk (o : PyObj Ty) : TypeSpec Ty → Prop
  | .one t => o.isinst t = true
  | .many ts => ∃ t ∈ ts, o.isinst t = true

/-- Specification: no shape, or no shape required (`()` or `[]`), or one of the required shapes. -/
def ShapeOk (o : PyObj Ty) (s : ShapeSpec) : Prop :=
  ∀ sh, o.shape = some sh → match s with
    | .one e => e = [] ∨ ShapeMatches e sh
    | .many es => es = [] ∨ ∃ e ∈ es, ShapeMatches e sh

theorem eq_replaceDim_iff (e sh : List Int) :
    sh = replaceDim e sh ↔ ShapeMatches e sh := by
  unfold replaceDim
  split
  · rename_i h
    simp only [Bool.or_eq_true, Bool.not_eq_true', bne_iff_ne] at h
    constructor
    · rintro rfl
      exact ⟨rfl, fun i h h' => Or.inr rfl⟩
    · rintro ⟨hl, hm⟩
      rcases h with h | h
      · refine List.ext_getElem hl.symm fun i h1 h2 => ?_
        rcases hm i h2 h1 with h3 | h3
        · rw [List.any_eq_false] at h
          exact absurd (by simpa using h3) (h e[i] (List.getElem_mem h2))
        · exact h3.symm
      · exact absurd hl h
  · rename_i h
    simp only [Bool.or_eq_true, Bool.not_eq_true', bne_iff_ne, not_or, not_not] at h
    obtain ⟨_, hl⟩ := h
    constructor
    · intro heq
      refine ⟨hl, fun i h1 h2 => ?_⟩
      have := List.getElem_of_eq heq h2
      rw [List.getElem_zipWith] at this
      by_cases hm : e[i] = -1
      · exact Or.inl hm
      · rw [if_neg (by simpa using hm)] at this
        exact Or.inr this.symm
    · rintro ⟨_, hm⟩
      refine List.ext_getElem (by simp [hl]) fun i h1 h2 => ?_
      rw [List.getElem_zipWith]
      by_cases hm' : e[i]'(by omega) = -1
      · rw [if_pos (by simpa using hm')]
      · rw [if_neg (by simpa using hm')]
        rcases hm i (by omega) h1 with h3 | h3
        · exact absurd h3 hm'
        · exact h3.symm

theorem typeAny_iff (o : PyObj Ty) (t : TypeSpec Ty) : t.toList.any o.isinst = true ↔ TypeOk o t := by
  cases t <;> simp [TypeSpec.toList, TypeOk]

theorem ite_ok_iff (b : Bool) (e : Err) :
    (if b = true then (Except.ok () : Except Err Unit) else .error e) = .ok () ↔ b = true := by
  cases b <;> simp

theorem checkOne_ok (o : PyObj Ty) (t : TypeSpec Ty) (s : ShapeSpec) :
    (checkOne o t s = .ok () ↔ TypeOk o t ∧ ShapeOk o s) ∧
    (checkOne o t s = .error .typeError ↔ ¬ TypeOk o t) ∧
    (checkOne o t s = .error .valueError ↔ TypeOk o t ∧ ¬ ShapeOk o s) := by
  unfold checkOne
  by_cases ht : TypeOk o t
  · rw [if_neg (by simp [(typeAny_iff o t).2 ht])]
    cases hs : o.shape with
    | none => simp [ht, ShapeOk, hs]
    | some sh =>
      have key : (if s.truthy = true then
          (if (s.toList.any fun e => sh == replaceDim e sh) = true then
            (Except.ok () : Except Err Unit) else .error .valueError) else .ok ()) = .ok () ↔
          ShapeOk o s := by
        unfold ShapeOk
        cases s with
        | one e =>
          by_cases he : e = []
          · simp [ShapeSpec.truthy, he]
          · rw [if_pos (by simp [ShapeSpec.truthy, he]), ite_ok_iff]
            simp [ShapeSpec.toList, he, hs, eq_replaceDim_iff e sh]
        | many es =>
          by_cases he : es = []
          · simp [ShapeSpec.truthy, he]
          · have : (∃ x ∈ es, sh = replaceDim x sh) ↔ ∃ x ∈ es, ShapeMatches x sh :=
              ⟨fun ⟨x, h1, h2⟩ => ⟨x, h1, (eq_replaceDim_iff x sh).1 h2⟩,
                fun ⟨x, h1, h2⟩ => ⟨x, h1, (eq_replaceDim_iff x sh).2 h2⟩⟩
            rw [if_pos (by simp [ShapeSpec.truthy, he]), ite_ok_iff]
            simp [ShapeSpec.toList, he, hs, this]
      refine ⟨by simp only [ht, true_and]; exact key, ?_, ?_⟩
      · simp only [ht, not_true_eq_false, iff_false]
        split <;> [split; skip] <;> simp
      · simp only [ht, true_and, ← key]
        split <;> [split; skip] <;> simp
  · rw [if_pos (by
      cases h : t.toList.any o.isinst with
      | false => rfl
      | true => exact absurd ((typeAny_iff o t).1 h) ht)]
    simp [ht]

/-- **C19**: with lists of equal length, the constructor check succeeds iff every argument has an
allowed type and an allowed shape; it raises `TypeError` (`ValueError`) iff the first argument that is
not acceptable has a wrong type (has an allowed type but a wrong shape); it raises nothing else. -/
theorem C19_constructor_check (os : List (PyObj Ty)) (ts : List (TypeSpec Ty)) (ss : List ShapeSpec)
    (ht : ts.length = os.length) (hs : ss.length = os.length) :
    let Good (i : Nat) : Prop := ∀ o t s, os[i]? = some o → ts[i]? = some t → ss[i]? = some s →
      TypeOk o t ∧ ShapeOk o s
    (checkInputs os ts ss = .ok () ↔ ∀ i, Good i) ∧
    (checkInputs os ts ss = .error .typeError ↔ ∃ i, (∀ j < i, Good j) ∧
      ∃ o t, os[i]? = some o ∧ ts[i]? = some t ∧ ¬ TypeOk o t) ∧
    (checkInputs os ts ss = .error .valueError ↔ ∃ i, (∀ j < i, Good j) ∧
      ∃ o t s, os[i]? = some o ∧ ts[i]? = some t ∧ ss[i]? = some s ∧ TypeOk o t ∧ ¬ ShapeOk o s) ∧
    ∀ e, checkInputs os ts ss = .error e → e = .typeError ∨ e = .valueError := by
  induction os generalizing ts ss with
  | nil =>
    obtain rfl := List.length_eq_zero_iff.1 ht
    obtain rfl := List.length_eq_zero_iff.1 hs
    simp [checkInputs]
  | cons o os ih =>
    match ts, ss, ht, hs with
    | t :: ts, s :: ss, ht, hs =>
      simp only [List.length_cons, Nat.add_right_cancel_iff] at ht hs
      obtain ⟨i1, i2, i3, i4⟩ := ih ts ss ht hs
      obtain ⟨c1, c2, c3⟩ := checkOne_ok o t s
      by_cases hto : TypeOk o t
      · by_cases hso : ShapeOk o s
        · have hc := c1.2 ⟨hto, hso⟩
          have heq : checkInputs (o :: os) (t :: ts) (s :: ss) = checkInputs os ts ss := by
            simp [checkInputs, hc]
          intro Good
          have g0 : Good 0 := by
            intro o' t' s' h1 h2 h3
            simp only [List.getElem?_cons_zero, Option.some.injEq] at h1 h2 h3
            subst h1 h2 h3
            exact ⟨hto, hso⟩
          rw [heq]
          refine ⟨?_, ?_, ?_, i4⟩
          · rw [i1]
            constructor
            · intro h i
              cases i with
              | zero => exact g0
              | succ i => simpa [Good] using h i
            · intro h i
              simpa [Good] using h (i + 1)
          · rw [i2]
            constructor
            · rintro ⟨i, h1, o', t', h2⟩
              refine ⟨i + 1, fun j hj => ?_, o', t', by simpa using h2⟩
              cases j with
              | zero => exact g0
              | succ j => simpa [Good] using h1 j (by omega)
            · rintro ⟨i, h1, o', t', h2, h3, h4⟩
              cases i with
              | zero =>
                simp only [List.getElem?_cons_zero, Option.some.injEq] at h2 h3
                subst h2 h3
                exact absurd hto h4
              | succ i =>
                refine ⟨i, fun j hj => ?_, o', t', by simpa using h2, by simpa using h3, h4⟩
                simpa [Good] using h1 (j + 1) (by omega)
          · rw [i3]
            constructor
            · rintro ⟨i, h1, o', t', s', h2⟩
              refine ⟨i + 1, fun j hj => ?_, o', t', s', by simpa using h2⟩
              cases j with
              | zero => exact g0
              | succ j => simpa [Good] using h1 j (by omega)
            · rintro ⟨i, h1, o', t', s', h2, h3, h4, h5, h6⟩
              cases i with
              | zero =>
                simp only [List.getElem?_cons_zero, Option.some.injEq] at h2 h3 h4
                subst h2 h3 h4
                exact absurd hso h6
              | succ i =>
                refine ⟨i, fun j hj => ?_, o', t', s', by simpa using h2, by simpa using h3,
                  by simpa using h4, h5, h6⟩
                simpa [Good] using h1 (j + 1) (by omega)
        · have hc := c3.2 ⟨hto, hso⟩
          have heq : checkInputs (o :: os) (t :: ts) (s :: ss) = .error .valueError := by
            simp [checkInputs, hc]
          intro Good
          rw [heq]
          refine ⟨?_, ?_, ?_, by simp⟩
          · simp only [reduceCtorEq, false_iff, not_forall]
            exact ⟨0, fun h => hso (h o t s rfl rfl rfl).2⟩
          · simp only [Except.error.injEq, reduceCtorEq, false_iff]
            rintro ⟨i, h1, o', t', h2, h3, h4⟩
            cases i with
            | zero =>
              simp only [List.getElem?_cons_zero, Option.some.injEq] at h2 h3
              subst h2 h3
              exact h4 hto
            | succ i => exact hso (h1 0 (by omega) o t s rfl rfl rfl).2
          · simp only [true_iff]
            exact ⟨0, by omega, o, t, s, rfl, rfl, rfl, hto, hso⟩
      · have hc := c2.2 hto
        have heq : checkInputs (o :: os) (t :: ts) (s :: ss) = .error .typeError := by
          simp [checkInputs, hc]
        intro Good
        rw [heq]
        refine ⟨?_, ?_, ?_, by simp⟩
        · simp only [reduceCtorEq, false_iff, not_forall]
          exact ⟨0, fun h => hto (h o t s rfl rfl rfl).1⟩
        · simp only [true_iff]
          exact ⟨0, by omega, o, t, rfl, rfl, hto⟩
        · simp only [Except.error.injEq, reduceCtorEq, false_iff]
          rintro ⟨i, h1, o', t', s', h2, h3, h4, h5, h6⟩
          cases i with
          | zero =>
            simp only [List.getElem?_cons_zero, Option.some.injEq] at h2 h3
            subst h2 h3
            exact hto h5
          | succ i => exact hto (h1 0 (by omega) o t s rfl rfl rfl).1

/-- Non-vacuity: the call for a `(2, 3)` array with expected shape `(-1, 3)`, and `None` where `None`
or an array is allowed: accepted; and a `(2, 4)` array: refused. -/
example :
    checkInputs [⟨fun t => t == "ndarray", some [2, 3]⟩, ⟨fun t => t == "NoneType", none⟩]
      [.one "ndarray", .many ["ndarray", "NoneType"]] [.one [-1, 3], .one [2]] = .ok () ∧
    checkInputs [⟨fun t => t == "ndarray", some [2, 4]⟩, ⟨fun t => t == "NoneType", none⟩]
      [.one "ndarray", .many ["ndarray", "NoneType"]] [.one [-1, 3], .one [2]] = .error .valueError := by decide

end Euphonic
