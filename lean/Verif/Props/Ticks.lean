import Verif.Model.Ticks
import Mathlib.Data.List.Forall2

/-! # Property C05: tick label validation -/

set_option autoImplicit false

namespace Euphonic

/-! ## Specification -/

/-- `v` is an integer-like value with value `i`. -/
inductive IsIntegral : TickVal → Int → Prop
  | int (i : Int) : IsIntegral (.int i) i
  | np (i : Int) : IsIntegral (.npInt i) i
  | true : IsIntegral (.bool true) 1
  | false : IsIntegral (.bool false) 0

/-- `v` is a pair (integer, string). -/
inductive IsTick : TickVal → Int × String → Prop
  | mk {v i} (s : String) : IsIntegral v i → IsTick (.tuple [v, .str s]) (i, s)

/-- `v` describes the tick labels `t`: `None`, or a list/tuple of (integer, string) pairs; the empty
string is accepted as an empty sequence, too. -/
inductive DescribesTicks : TickVal → Option (List (Int × String)) → Prop
  | none : DescribesTicks .none none
  | list {l t} : List.Forall₂ IsTick l t → DescribesTicks (.list l) (some t)
  | tuple {l t} : List.Forall₂ IsTick l t → DescribesTicks (.tuple l) (some t)
  | emptyStr : DescribesTicks (.str "") (some [])

/-! ## Lemmas -/

theorem asInt_iff (v : TickVal) (i : Int) : v.asInt = some i ↔ IsIntegral v i := by
  constructor
  · intro h
    cases v with
    | bool b => cases b <;> simp [TickVal.asInt] at h <;> subst h <;> constructor
    | int j => simp [TickVal.asInt] at h; subst h; constructor
    | npInt j => simp [TickVal.asInt] at h; subst h; constructor
    | _ => simp [TickVal.asInt] at h
  · intro h; cases h <;> rfl

theorem asTick_iff (v : TickVal) (t : Int × String) : v.asTick = some t ↔ IsTick v t := by
  constructor
  · intro h
    unfold TickVal.asTick at h
    split at h
    · rename_i i s
      cases hi : i.asInt with
      | none => simp [hi] at h
      | some k =>
        simp [hi] at h; subst h
        exact ⟨s, (asInt_iff _ _).1 hi⟩
    · simp at h
  · rintro ⟨s, hi⟩
    simp [TickVal.asTick, (asInt_iff _ _).2 hi]

theorem mapM_asTick_iff (l : List TickVal) (t : List (Int × String)) :
    l.mapM TickVal.asTick = some t ↔ List.Forall₂ IsTick l t := by
  induction l generalizing t with
  | nil =>
    simp only [List.mapM_nil, pure, Option.some.injEq]
    constructor
    · rintro rfl; constructor
    · intro h; cases h; rfl
  | cons v l ih =>
    rw [List.mapM_cons]
    constructor
    · intro h
      cases hv : v.asTick with
      | none => simp [hv] at h
      | some a =>
        cases hl : l.mapM TickVal.asTick with
        | none => simp [hv, hl] at h
        | some b =>
          simp [hv, hl] at h
          subst h
          exact .cons ((asTick_iff _ _).1 hv) ((ih b).1 hl)
    · intro h
      cases h with
      | cons h1 h2 => simp [(asTick_iff _ _).2 h1, (ih _).2 h2]

/-! ## C05 -/

/-- **C05**. Assigning `v` to `x_tick_labels` succeeds and stores `t` if and only if `v` describes `t`. -/
theorem C05_ticks_accepted_iff (v : TickVal) (t : Option (List (Int × String))) :
    tickValue v = .ok t ↔ DescribesTicks v t := by
  constructor
  · intro h
    have main : ∀ l : List TickVal, (match l.mapM TickVal.asTick with
        | some l => (.ok (some l) : Except Err (Option (List (Int × String))))
        | Option.none => .error .typeError) = .ok t →
        ∃ r, t = some r ∧ List.Forall₂ IsTick l r := by
      intro l hl
      cases hm : l.mapM TickVal.asTick with
      | none => simp [hm] at hl
      | some r =>
        simp only [hm, Except.ok.injEq] at hl
        exact ⟨r, hl.symm, (mapM_asTick_iff l r).1 hm⟩
    cases v with
    | none => cases h; exact .none
    | list l => obtain ⟨r, rfl, hr⟩ := main l h; exact .list hr
    | tuple l => obtain ⟨r, rfl, hr⟩ := main l h; exact .tuple hr
    | str s =>
      obtain ⟨r, rfl, hr⟩ := main _ h
      cases hs : s.toList with
      | nil =>
        rw [hs] at hr
        cases hr
        have : s = "" := by
          have := congrArg String.ofList hs
          simpa using this
        subst this
        exact .emptyStr
      | cons c cs =>
        rw [hs] at hr
        cases hr with
        | cons h1 _ => cases h1
    | bool b => cases h
    | int i => cases h
    | npInt i => cases h
    | float => cases h
    | other => cases h
  · intro h
    cases h with
    | none => rfl
    | list h => simp [tickValue, TickVal.seqElems, (mapM_asTick_iff _ _).2 h]
    | tuple h => simp [tickValue, TickVal.seqElems, (mapM_asTick_iff _ _).2 h]
    | emptyStr => rfl

/-- **C05**: the only exception is `TypeError`, raised exactly for values which describe no labels. -/
theorem C05_ticks_refused_iff (v : TickVal) :
    (tickValue v = .error .typeError ↔ ¬ ∃ t, DescribesTicks v t) ∧
    ∀ e, tickValue v = .error e → e = .typeError := by
  have key : ∀ e, tickValue v = .error e → e = .typeError := by
    intro e h
    unfold tickValue at h
    split at h
    · cases h
    · split at h
      · split at h
        · cases h
        · cases h; rfl
      · cases h; rfl
  refine ⟨⟨?_, ?_⟩, key⟩
  · rintro h ⟨t, ht⟩
    rw [(C05_ticks_accepted_iff v t).2 ht] at h
    cases h
  · intro h
    cases hv : tickValue v with
    | ok t => exact absurd ⟨t, (C05_ticks_accepted_iff v t).1 hv⟩ h
    | error e => rw [key e hv]

/-- **C05**: a refused assignment leaves the object as it was and an accepted one changes nothing but
the labels. -/
theorem C05_assignment_atomic {σ : Type} (obj : Option (List (Int × String)) × σ) (v : TickVal) :
    (∀ t, DescribesTicks v t → setTicks obj v = ((t, obj.2), none)) ∧
    ((¬ ∃ t, DescribesTicks v t) → setTicks obj v = (obj, some .typeError)) := by
  constructor
  · intro t ht
    simp [setTicks, (C05_ticks_accepted_iff v t).2 ht]
  · intro h
    simp [setTicks, (C05_ticks_refused_iff v).1.2 h]

/-- **C05**: assigning the labels read from another spectrum (a list of (int, str) tuples) is the
identity on labels. -/
theorem C05_reassign (t : List (Int × String)) :
    tickValue (.list (t.map fun p => .tuple [.int p.1, .str p.2])) = .ok (some t) := by
  rw [C05_ticks_accepted_iff]
  constructor
  induction t with
  | nil => constructor
  | cons a t ih => exact .cons ⟨a.2, .int a.1⟩ ih

/-- Non-vacuity: an accepted tuple with a numpy integer, a refused list of lists. -/
example : DescribesTicks (.tuple [.tuple [.npInt 5, .str "X"], .tuple [.bool true, .str ""]])
      (some [(5, "X"), (1, "")]) ∧
    tickValue (.list [.list [.int 0, .str "X"]]) = .error .typeError ∧
    tickValue (.list [.tuple [.int 0, .str "X", .int 1]]) = .error .typeError :=
  ⟨.tuple (.cons ⟨_, .np 5⟩ (.cons ⟨_, .true⟩ .nil)), rfl, rfl⟩

end Euphonic
