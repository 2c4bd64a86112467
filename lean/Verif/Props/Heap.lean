import Verif.Model.Heap
import Mathlib.Order.Basic
import Mathlib.Order.Defs.LinearOrder
import Mathlib.Data.Nat.Basic

/-!
# C78, C96: copies share nothing; pieces of a split share their metadata
-/

set_option autoImplicit false

namespace Euphonic.Heap

variable {α : Type}

/-! ## Specification -/

/-- What can be reached by following references. -/
inductive Reach (h : Heap α) (r : Nat) : Nat → Prop where
  | root : Reach h r r
  | step {a b : Nat} {k : String} : Reach h r a → (k, Val.ref b) ∈ (h.cell a).slots → Reach h r b

/-- Executions of a program that is given a handle on the object `r` (and nothing else): in every step it creates an
object or changes one that it can reach from `r` or has created (`base` is the number of objects before it started),
and what it stores are values of its own, or references to objects it can reach or has created. -/
inductive Program (r : Nat) (base : Nat) : Heap α → Heap α → Prop where
  | done {h : Heap α} : Program r base h h
  | create {h h' : Heap α} {o : Obj α} : Program r base h h' →
      (∀ k a, (k, Val.ref a) ∈ o.slots → Reach h' r a ∨ (base ≤ a ∧ a < h'.size)) →
      Program r base h (alloc h' o).2
  | change {h h' : Heap α} {o : Obj α} {b : Nat} : Program r base h h' →
      (Reach h' r b ∨ (base ≤ b ∧ b < h'.size)) →
      (∀ k a, (k, Val.ref a) ∈ o.slots → Reach h' r a ∨ (base ≤ a ∧ a < h'.size)) →
      Program r base h (write h' b o)

/-- No dangling references, and none at free addresses. -/
def WellFormed (h : Heap α) : Prop :=
  ∀ a k b, (k, Val.ref b) ∈ (h.cell a).slots → a < h.size ∧ b < h.size

/-- The list of ticks of the spectrum `s` holds tuples of an integer and a string only (guaranteed by the setter). -/
def PlainTicks (h : Heap α) (s : Nat) : Prop :=
  ∀ a, slot (h.cell s) "_x_tick_labels" = some (.ref a) → ∀ k b, (k, Val.ref b) ∉ (h.cell a).slots

/-- What is printed of a value when references are followed `d` times. -/
inductive Tree (α : Type) where
  | leaf (s : String)
  | cut
  | node (nums : List α) (l : List (String × Tree α))

/-- Show a value. -/
def view (h : Heap α) : Nat → Val → Tree α
  | _, .prim s => .leaf s
  | 0, .ref _ => .cut
  | d + 1, .ref a => .node (h.cell a).nums ((h.cell a).slots.map fun p => (p.1, view h d p.2))

/-! ## Isolation -/

theorem reach_closed {h : Heap α} {r : Nat} {P : Nat → Prop} (hr : P r)
    (hc : ∀ a, P a → ∀ k b, (k, Val.ref b) ∈ (h.cell a).slots → P b) {a : Nat} (ha : Reach h r a) : P a := by
  induction ha with
  | root => exact hr
  | step _ hm ih => exact hc _ ih _ _ hm

/-- A program cannot leave a set of addresses that is closed under references and contains its handle and all free
addresses. -/
theorem program_inside {h h' : Heap α} {r : Nat} {base : Nat} {P : Nat → Prop} (hr : P r)
    (hbase : base ≤ h.size) (hfree : ∀ a, base ≤ a → P a)
    (hc : ∀ a, P a → ∀ k b, (k, Val.ref b) ∈ (h.cell a).slots → P b) (hp : Program r base h h') :
    (∀ a, P a → ∀ k b, (k, Val.ref b) ∈ (h'.cell a).slots → P b) ∧ (∀ a, ¬ P a → h'.cell a = h.cell a) ∧
      h.size ≤ h'.size := by
  induction hp with
  | done => exact ⟨hc, fun _ _ => rfl, le_refl _⟩
  | @create h' o _ ho ih =>
    obtain ⟨h1, h2, h3⟩ := ih
    refine ⟨?_, ?_, ?_⟩
    · intro a ha k b hm
      simp only [alloc] at hm
      split at hm
      · rcases ho k b hm with h4 | h4
        · exact reach_closed hr h1 h4
        · exact hfree _ h4.1
      · exact h1 a ha k b hm
    · intro a ha
      have : a ≠ h'.size := by rintro rfl; exact ha (hfree _ (le_trans hbase h3))
      simp only [alloc, if_neg this]
      exact h2 a ha
    · simp only [alloc]; omega
  | @change h' o c _ hcw ho ih =>
    obtain ⟨h1, h2, h3⟩ := ih
    refine ⟨?_, ?_, h3⟩
    · intro a ha k b hm
      simp only [write] at hm
      split at hm
      · rcases ho k b hm with h4 | h4
        · exact reach_closed hr h1 h4
        · exact hfree _ h4.1
      · exact h1 a ha k b hm
    · intro a ha
      have hcP : P c := by
        rcases hcw with h4 | h4
        · exact reach_closed hr h1 h4
        · exact hfree _ h4.1
      have : a ≠ c := by rintro rfl; exact ha hcP
      simp only [write, if_neg this]
      exact h2 a ha

/-- Equal cells on a closed set give equal views. -/
theorem view_congr {h h' : Heap α} {P : Nat → Prop} (hc : ∀ a, P a → ∀ k b, (k, Val.ref b) ∈ (h.cell a).slots → P b)
    (he : ∀ a, P a → h'.cell a = h.cell a) (d : Nat) : ∀ a, P a → view h' d (.ref a) = view h d (.ref a) := by
  induction d with
  | zero => intro a _; rfl
  | succ d ih =>
    intro a ha
    simp only [view, he a ha]
    congr 1
    apply List.map_congr_left
    rintro ⟨k, v⟩ hm
    cases v with
    | prim s => cases d <;> rfl
    | ref b => simp only [Prod.mk.injEq, true_and]; exact ih b (hc a ha k b hm)

/-! ## The pieces of the operations -/

/-- Building a new object: everything before stays, new objects refer to `[n, ∞)` only. -/
structure Fresh (n : Nat) (h h' : Heap α) : Prop where
  size : h.size ≤ h'.size
  old : ∀ a, a < h.size → h'.cell a = h.cell a
  new : ∀ a, h.size ≤ a → ∀ k b, (k, Val.ref b) ∈ (h'.cell a).slots → n ≤ b ∧ b < h'.size ∧ a < h'.size

theorem Fresh.refl (n : Nat) {h : Heap α} (hw : WellFormed h) : Fresh n h h :=
  ⟨le_refl _, fun _ _ => rfl, fun a h1 k b hm => by have := hw a k b hm; omega⟩

theorem Fresh.wf {n : Nat} {h h' : Heap α} (hf : Fresh n h h') (hw : WellFormed h) : WellFormed h' := by
  intro a k b hm
  by_cases ha : a < h.size
  · rw [hf.old a ha] at hm
    have := hw a k b hm
    have := hf.size
    omega
  · have := hf.new a (by omega) k b hm
    omega

theorem Fresh.trans {n : Nat} {h h' h'' : Heap α} (h1 : Fresh n h h') (h2 : Fresh n h' h'') : Fresh n h h'' := by
  refine ⟨le_trans h1.size h2.size, ?_, ?_⟩
  · intro a ha
    rw [h2.old a (lt_of_lt_of_le ha h1.size), h1.old a ha]
  · intro a ha k b hm
    by_cases h3 : a < h'.size
    · rw [h2.old a h3] at hm
      have := h1.new a ha k b hm
      have := h2.size
      omega
    · exact h2.new a (by omega) k b hm

theorem fresh_alloc {n : Nat} {h : Heap α} (hw : WellFormed h) (o : Obj α) (ho : ∀ k b, (k, Val.ref b) ∈ o.slots → n ≤ b ∧ b < h.size) :
    Fresh n h (alloc h o).2 := by
  refine ⟨by simp [alloc], ?_, ?_⟩
  · intro a ha
    simp only [alloc, if_neg (Nat.ne_of_lt ha)]
  · intro a ha k b hm
    simp only [alloc] at hm ⊢
    split at hm
    · have := ho k b hm
      omega
    · have := hw a k b hm
      omega

theorem slot_mem {o : Obj α} {n : String} {v : Val} (h : slot o n = some v) : (n, v) ∈ o.slots := by
  simp only [slot, Option.map_eq_some_iff] at h
  obtain ⟨p, hp, rfl⟩ := h
  have h1 := List.find?_some hp
  have h2 := List.mem_of_find?_eq_some hp
  simp only [beq_iff_eq] at h1
  rw [← h1]; exact h2

theorem newArrays_fresh {f : String → List α → List α} {o : Obj α} {ns : List String} :
    ∀ {h : Heap α} {r : List (String × Val) × Heap α}, newArrays f o ns h = .ok r →
    WellFormed h → ∀ n, Fresh n h r.2 ∧ ∀ k v, (k, v) ∈ r.1 → ∃ b, v = .ref b ∧ h.size ≤ b ∧ b < r.2.size := by
  induction ns with
  | nil =>
    intro h r hr hw n
    simp only [newArrays, Except.ok.injEq] at hr
    subst hr
    exact ⟨Fresh.refl n hw, by simp⟩
  | cons m ns ih =>
    intro h r hr hw n
    simp only [newArrays] at hr
    split at hr
    · rename_i a ha
      cases hs : newArrays f o ns (alloc h ⟨f m (h.cell a).nums, []⟩).2 with
      | error e => rw [hs] at hr; cases hr
      | ok s =>
        rw [hs] at hr
        simp only [bind, Except.bind, pure, Except.pure, Except.ok.injEq] at hr
        subst hr
        have h0 : Fresh n h (alloc h ⟨f m (h.cell a).nums, []⟩).2 := fresh_alloc hw _ (by simp)
        have h1 := ih hs (h0.wf hw) n
        refine ⟨h0.trans h1.1, ?_⟩
        intro k v hm
        simp only [List.mem_cons, Prod.mk.injEq] at hm
        rcases hm with ⟨rfl, rfl⟩ | hm
        · refine ⟨_, rfl, le_refl _, ?_⟩
          have := h1.1.size
          simp only [alloc] at this ⊢; omega
        · obtain ⟨b, hb, h2, h3⟩ := h1.2 k v hm
          refine ⟨b, hb, ?_, h3⟩
          simp only [alloc] at h2; omega
    · cases hr

theorem newTicks_fresh {g : List (String × Val) → List (String × Val)} {o : Obj α} {h : Heap α} {r : Val × Heap α}
    (hr : newTicks g o h = .ok r) (hw : WellFormed h)
    (hg : ∀ a, slot o "_x_tick_labels" = some (.ref a) → ∀ k b, (k, Val.ref b) ∉ g (h.cell a).slots)
    (n : Nat) : Fresh n h r.2 ∧ ∀ b, r.1 = .ref b → h.size ≤ b ∧ b < r.2.size := by
  unfold newTicks at hr
  split at hr
  · cases hr
    exact ⟨Fresh.refl n hw, by intro b hb; cases hb⟩
  · rename_i a ha
    simp only [Except.ok.injEq] at hr
    subst hr
    refine ⟨fresh_alloc hw _ (fun k b hm => absurd hm (hg a ha k b)), ?_⟩
    intro b hb
    simp only [alloc, Val.ref.injEq] at hb ⊢
    omega
  · cases hr

theorem deepcopy_fresh {h : Heap α} (hw : WellFormed h) (v : Val) (hv : ∀ a, v = .ref a → a < h.size) :
    Fresh h.size h (deepcopy h v).2 ∧
      ∀ b, (deepcopy h v).1 = .ref b → h.size ≤ b ∧ b < (deepcopy h v).2.size := by
  cases v with
  | prim s => exact ⟨Fresh.refl _ hw, by intro b hb; cases hb⟩
  | ref a =>
    have ha := hv a rfl
    refine ⟨⟨?_, ?_, ?_⟩, ?_⟩
    · simp only [deepcopy]; omega
    · intro b hb
      simp only [deepcopy, if_pos hb]
    · intro c hc k b hm
      simp only [deepcopy] at hm ⊢
      rw [if_neg (by omega)] at hm
      split at hm
      · simp only [shiftObj, List.mem_map, Prod.mk.injEq, Prod.exists] at hm
        obtain ⟨k', v, hm, rfl, hv⟩ := hm
        cases v with
        | prim s => simp [shiftVal] at hv
        | ref b' =>
          simp only [shiftVal, Val.ref.injEq] at hv
          have := hw (c - h.size) _ _ hm
          omega
      · have := hw c k b hm
        omega
    · intro b hb
      simp only [deepcopy, Val.ref.injEq] at hb ⊢
      omega

/-- `copy.deepcopy` gives an equal value. -/
theorem deepcopy_view {h : Heap α} (hw : WellFormed h) (v : Val) (hv : ∀ a, v = .ref a → a < h.size) (d : Nat) :
    view (deepcopy h v).2 d (deepcopy h v).1 = view h d v := by
  cases v with
  | prim s => cases d <;> rfl
  | ref a0 =>
    have key : ∀ d a, a < h.size → view (deepcopy h (.ref a0)).2 d (.ref (a + h.size)) = view h d (.ref a) := by
      intro d
      induction d with
      | zero => intro a _; rfl
      | succ d ih =>
        intro a ha
        have hcell : (deepcopy h (.ref a0)).2.cell (a + h.size) = shiftObj h.size (h.cell a) := by
          simp only [deepcopy]
          rw [if_neg (by omega), if_pos (by omega), Nat.add_sub_cancel]
        simp only [view, hcell, shiftObj, List.map_map]
        congr 1
        apply List.map_congr_left
        rintro ⟨k, v⟩ hm
        cases v with
        | prim s => cases d <;> rfl
        | ref b =>
          simp only [Function.comp, shiftVal, Prod.mk.injEq, true_and]
          exact ih b (hw a k b hm).2
    exact key d a0 (hv a0 rfl)

/-! ## Independence -/

/-- Nothing can be reached from both. -/
def Apart (h : Heap α) (s c : Nat) : Prop := ∀ a, Reach h s a → ¬ Reach h c a

theorem Apart.symm {h : Heap α} {s c : Nat} (ha : Apart h s c) : Apart h c s := fun a h1 h2 => ha a h2 h1

theorem reach_lt {h : Heap α} (hw : WellFormed h) {r : Nat} (hr : r < h.size) {a : Nat} (ha : Reach h r a) :
    a < h.size :=
  reach_closed (P := fun a => a < h.size) hr (fun a _ k b hm => (hw a k b hm).2) ha

theorem program_wellFormed {h h' : Heap α} {r base : Nat} (hw : WellFormed h) (hr : r < h.size)
    (hp : Program r base h h') : WellFormed h' ∧ h.size ≤ h'.size := by
  induction hp with
  | done => exact ⟨hw, le_refl _⟩
  | @create h' o _ ho ih =>
    obtain ⟨h1, h2⟩ := ih
    refine ⟨?_, by simp only [alloc]; omega⟩
    intro a k b hm
    simp only [alloc] at hm ⊢
    split at hm
    · rcases ho k b hm with h4 | h4
      · have := reach_lt h1 (lt_of_lt_of_le hr h2) h4; omega
      · omega
    · have := h1 a k b hm; omega
  | @change h' o c _ hcw ho ih =>
    obtain ⟨h1, h2⟩ := ih
    refine ⟨?_, h2⟩
    intro a k b hm
    have hlt : ∀ x, Reach h' r x ∨ (base ≤ x ∧ x < h'.size) → x < h'.size := by
      rintro x (h4 | h4)
      · exact reach_lt h1 (lt_of_lt_of_le hr h2) h4
      · exact h4.2
    simp only [write] at hm ⊢
    split at hm
    · rename_i hac
      exact ⟨hac ▸ hlt c hcw, hlt b (ho k b hm)⟩
    · exact h1 a k b hm

theorem reach_same {h h' : Heap α} {r : Nat} (he : ∀ a, Reach h r a → h'.cell a = h.cell a) {a : Nat}
    (ha : Reach h' r a) : Reach h r a := by
  induction ha with
  | root => exact .root
  | step _ hm ih => rw [he _ ih] at hm; exact .step ih hm

/-- A program only changes what it can reach from its handle and what it creates. -/
theorem program_frame {h h' : Heap α} {c : Nat} (hw : WellFormed h) (hp : Program c h.size h h') :
    (∀ a, a < h.size → ¬ Reach h c a → h'.cell a = h.cell a) ∧
      ∀ a, Reach h' c a → Reach h c a ∨ h.size ≤ a := by
  have hin := program_inside (P := fun a => Reach h c a ∨ h.size ≤ a) (.inl .root) (le_refl _) (fun a h1 => .inr h1)
    (by
      rintro a (h1 | h1) k b hm
      · exact .inl (.step h1 hm)
      · have := hw a k b hm; omega) hp
  refine ⟨fun a h1 h2 => hin.2.1 a ?_, fun a h1 => reach_closed (P := fun a => Reach h c a ∨ h.size ≤ a) (.inl .root)
    hin.1 h1⟩
  rintro (h3 | h3)
  · exact h2 h3
  · omega

/-- C78.  If nothing can be reached from both of two objects, then whatever a program does with a handle on one of
them, everything that can be observed of the other stays the same; and still nothing can be reached from both, so
that the same holds for any alternation of programs. -/
theorem C78_apart {h h' : Heap α} {s c : Nat} (hw : WellFormed h) (hs : s < h.size) (hc : c < h.size)
    (ha : Apart h s c) (hp : Program c h.size h h') :
    (∀ d, view h' d (.ref s) = view h d (.ref s)) ∧ Apart h' s c ∧ WellFormed h' ∧ s < h'.size ∧ c < h'.size := by
  obtain ⟨hf1, hf2⟩ := program_frame hw hp
  have hsame : ∀ a, Reach h s a → h'.cell a = h.cell a := fun a h1 => hf1 a (reach_lt hw hs h1) (ha a h1)
  obtain ⟨hw', hsz⟩ := program_wellFormed hw hc hp
  refine ⟨fun d => view_congr (P := Reach h s) (fun a h1 k b hm => .step h1 hm) hsame d s .root, ?_, hw', by omega,
    by omega⟩
  intro a h1 h2
  have h3 := reach_same hsame h1
  rcases hf2 a h2 with h4 | h4
  · exact ha a h3 h4
  · have := reach_lt hw hs h3; omega

/-- Programs running in turn, each with a handle on one of the two objects. -/
inductive Turns (s c : Nat) : Heap α → Heap α → Prop where
  | done {h : Heap α} : Turns s c h h
  | first {h h' h'' : Heap α} : Turns s c h h' → Program s h'.size h' h'' → Turns s c h h''
  | second {h h' h'' : Heap α} : Turns s c h h' → Program c h'.size h' h'' → Turns s c h h''

/-- C78.  In any alternation of programs working on one or the other of two objects between which nothing is shared,
a program never changes what is observed of the other object. -/
theorem C78_turns {h h' h'' : Heap α} {s c : Nat} (hw : WellFormed h) (hs : s < h.size) (hc : c < h.size)
    (ha : Apart h s c) (ht : Turns s c h h') :
    (Program c h'.size h' h'' → ∀ d, view h'' d (.ref s) = view h' d (.ref s)) ∧
    (Program s h'.size h' h'' → ∀ d, view h'' d (.ref c) = view h' d (.ref c)) := by
  have key : WellFormed h' ∧ s < h'.size ∧ c < h'.size ∧ Apart h' s c := by
    induction ht with
    | done => exact ⟨hw, hs, hc, ha⟩
    | first _ hp ih =>
      obtain ⟨h1, h2, h3, h4⟩ := ih
      obtain ⟨_, h5, h6, h7, h8⟩ := C78_apart h1 h3 h2 h4.symm hp
      exact ⟨h6, h8, h7, h5.symm⟩
    | second _ hp ih =>
      obtain ⟨h1, h2, h3, h4⟩ := ih
      obtain ⟨_, h5, h6, h7, h8⟩ := C78_apart h1 h2 h3 h4 hp
      exact ⟨h6, h7, h8, h5⟩
  obtain ⟨h1, h2, h3, h4⟩ := key
  exact ⟨fun hp => (C78_apart h1 h2 h3 h4 hp).1, fun hp => (C78_apart h1 h3 h2 h4.symm hp).1⟩

/-! ## Copies -/

theorem reach_old {h h' : Heap α} (hw : WellFormed h) {n : Nat} (hf : Fresh n h h') {s : Nat} (hs : s < h.size)
    {a : Nat} (ha : Reach h' s a) : Reach h s a ∧ a < h.size := by
  have h1 := reach_same (r := s) (fun a h1 => hf.old a (reach_lt hw hs h1)) ha
  exact ⟨h1, reach_lt hw hs h1⟩

/-- The parts of a new spectrum. -/
theorem newInstance_fresh {h h' : Heap α} {names : List String} {f : String → List α → List α}
    {g : List (String × Val) → List (String × Val)} {o : Obj α} {md : Val} {c n : Nat} (hw : WellFormed h)
    (hn : n ≤ h.size) (hmd : ∀ b, md = .ref b → n ≤ b ∧ b < h.size)
    (hg : ∀ a, slot o "_x_tick_labels" = some (.ref a) →
      a < h.size ∧ ∀ k b, (k, Val.ref b) ∉ g (h.cell a).slots)
    (hr : (do
      let arrays ← newArrays f o names h
      let ticks ← newTicks g o arrays.2
      return newInstance arrays.1 ticks.1 md ticks.2 : Except Err (Nat × Heap α)) = .ok (c, h')) :
    Fresh n h h' ∧ h.size ≤ c ∧ c < h'.size := by
  cases ha : newArrays f o names h with
  | error e => rw [ha] at hr; cases hr
  | ok r =>
    obtain ⟨f1, g1⟩ := newArrays_fresh ha hw n
    rw [ha] at hr
    simp only [bind, Except.bind] at hr
    cases ht : newTicks g o r.2 with
    | error e => rw [ht] at hr; cases hr
    | ok t =>
      obtain ⟨f2, g2⟩ := newTicks_fresh ht (f1.wf hw) (by
        intro a h1 k b
        rw [f1.old a (hg a h1).1]
        exact (hg a h1).2 k b) n
      rw [ht] at hr
      simp only [pure, Except.pure, Except.ok.injEq, newInstance] at hr
      have hc : c = t.2.size := (congrArg Prod.fst hr).symm
      have hh : h' = (alloc t.2 ⟨[], r.1 ++ [("_x_tick_labels", t.1), ("metadata", md)]⟩).2 :=
        (congrArg Prod.snd hr).symm
      have s1 := f1.size
      have s2 := f2.size
      subst hh
      refine ⟨(f1.trans f2).trans (fresh_alloc (f2.wf (f1.wf hw)) _ ?_), by omega, by simp only [alloc]; omega⟩
      intro k b hm
      simp only [List.mem_append, List.mem_cons, Prod.mk.injEq, List.not_mem_nil, or_false] at hm
      rcases hm with hm | ⟨_, hm⟩ | ⟨_, hm⟩
      · obtain ⟨b', e, h3, h4⟩ := g1 k _ hm
        cases e
        omega
      · have := g2 b hm.symm
        omega
      · have := hmd b hm.symm
        omega

theorem slot_lt {h : Heap α} (hw : WellFormed h) {s : Nat} {n : String} {a : Nat}
    (h1 : slot (h.cell s) n = some (.ref a)) : a < h.size := (hw s n a (slot_mem h1)).2

/-- C78.  `copy` leaves everything that existed as it was, and gives a new object from which nothing old can be
reached; so by `C78_turns` modifications of the copy do not show in the original, and vice versa. -/
theorem C78_copy {h h' : Heap α} {names : List String} {f : String → List α → List α} {s c : Nat}
    (hw : WellFormed h) (hs : s < h.size) (ht : PlainTicks h s) (hr : copySpectrum names f h s = .ok (c, h')) :
    (∀ a, a < h.size → h'.cell a = h.cell a) ∧ Apart h' s c ∧ WellFormed h' ∧ s < h'.size ∧ c < h'.size ∧
      ∀ a, Reach h' c a → h.size ≤ a := by
  unfold copySpectrum at hr
  dsimp only at hr
  split at hr
  · cases hr
  · rename_i m hm
    obtain ⟨f0, g0⟩ := deepcopy_fresh hw m (by rintro a rfl; exact slot_lt hw hm)
    have s0 := f0.size
    obtain ⟨f1, g1, g2⟩ := newInstance_fresh (n := h.size) (f0.wf hw) f0.size g0 (by
      intro a h1
      have := slot_lt hw h1
      refine ⟨by omega, fun k b => ?_⟩
      rw [f0.old a this]
      exact ht a h1 k b) hr
    have f2 := f0.trans f1
    have hreach : ∀ a, Reach h' c a → h.size ≤ a := fun a h1 =>
      reach_closed (P := fun a => h.size ≤ a) (by omega) (fun a h2 k b hm => (f2.new a h2 k b hm).1) h1
    have s1 := f2.size
    refine ⟨f2.old, ?_, f2.wf hw, by omega, g2, hreach⟩
    intro a h1 h2
    have := hreach a h2
    have := (reach_old hw f2 hs h1).2
    omega

/-- C78.  The statement of the property: take a copy, run any program on it; the original is as it was before the copy
was made.  Or run any program on the original; the copy is as it was made. -/
theorem C78_copy_independent {h h' h'' : Heap α} {names : List String} {f : String → List α → List α} {s c : Nat}
    (hw : WellFormed h) (hs : s < h.size) (ht : PlainTicks h s) (hr : copySpectrum names f h s = .ok (c, h')) :
    (Program c h'.size h' h'' → ∀ d, view h'' d (.ref s) = view h d (.ref s)) ∧
    (Program s h'.size h' h'' → ∀ d, view h'' d (.ref c) = view h' d (.ref c)) := by
  obtain ⟨h1, h2, h3, h4, h5, _⟩ := C78_copy hw hs ht hr
  refine ⟨fun hp d => ?_, fun hp d => (C78_apart h3 h5 h4 h2.symm hp).1 d⟩
  rw [(C78_apart h3 h4 h5 h2 hp).1 d]
  exact view_congr (P := fun a => a < h.size) (fun a _ k b hm => (hw a k b hm).2) h1 d s hs

theorem newArrays_values {f : String → List α → List α} {o : Obj α} {ns : List String} :
    ∀ {h : Heap α} {r : List (String × Val) × Heap α}, newArrays f o ns h = .ok r → WellFormed h →
    (∀ n a, slot o n = some (.ref a) → a < h.size) →
    r.1.map (·.1) = ns ∧ ∀ k v, (k, v) ∈ r.1 → ∃ a b, slot o k = some (.ref a) ∧ v = .ref b ∧
      r.2.cell b = ⟨f k (h.cell a).nums, []⟩ ∧ b < r.2.size := by
  induction ns with
  | nil =>
    intro h r hr _ _
    simp only [newArrays, Except.ok.injEq] at hr
    subst hr
    exact ⟨rfl, by simp⟩
  | cons m ns ih =>
    intro h r hr hw ho
    simp only [newArrays] at hr
    split at hr
    · rename_i a ha
      cases hs : newArrays f o ns (alloc h ⟨f m (h.cell a).nums, []⟩).2 with
      | error e => rw [hs] at hr; cases hr
      | ok s =>
        rw [hs] at hr
        simp only [bind, Except.bind, pure, Except.pure, Except.ok.injEq] at hr
        subst hr
        have h0 : Fresh 0 h (alloc h ⟨f m (h.cell a).nums, []⟩).2 := fresh_alloc hw _ (by simp)
        have h1 := ih hs (h0.wf hw) (fun n a h2 => lt_of_lt_of_le (ho n a h2) h0.size)
        have h2 := (newArrays_fresh hs (h0.wf hw) 0).1
        refine ⟨by simp [h1.1], ?_⟩
        intro k v hm
        simp only [List.mem_cons, Prod.mk.injEq] at hm
        rcases hm with ⟨rfl, rfl⟩ | hm
        · have hlt : (alloc h ⟨f k (h.cell a).nums, []⟩).1 < (alloc h ⟨f k (h.cell a).nums, []⟩).2.size := by
            simp only [alloc]; omega
          refine ⟨a, _, ha, rfl, ?_, lt_of_lt_of_le hlt h2.size⟩
          rw [h2.old _ hlt]
          simp [alloc]
        · obtain ⟨a', b, e1, e2, e3, e4⟩ := h1.2 k v hm
          refine ⟨a', b, e1, e2, ?_, e4⟩
          rw [e3, h0.old a' (ho k a' e1)]
    · cases hr

theorem slot_append_left {l l' : List (String × Val)} {nums : List α} {n : String} (hn : n ∈ l.map (·.1)) :
    ∃ v, slot (⟨nums, l ++ l'⟩ : Obj α) n = some v ∧ (n, v) ∈ l := by
  obtain ⟨p, hp, rfl⟩ := List.mem_map.1 hn
  have : (l.find? fun q => q.1 == p.1).isSome := by
    rw [List.find?_isSome]
    exact ⟨p, hp, by simp⟩
  obtain ⟨q, hq⟩ := Option.isSome_iff_exists.1 this
  refine ⟨q.2, ?_, ?_⟩
  · simp [slot, List.find?_append, hq]
  · have h1 := List.find?_some hq
    simp only [beq_iff_eq] at h1
    rw [← h1]
    exact List.mem_of_find?_eq_some hq

theorem slot_append_right {l l' : List (String × Val)} {nums : List α} {n : String} (hn : n ∉ l.map (·.1)) :
    slot (⟨nums, l ++ l'⟩ : Obj α) n = slot (⟨nums, l'⟩ : Obj α) n := by
  have : (l.find? fun q => q.1 == n) = none := by
    rw [List.find?_eq_none]
    intro q hq h1
    simp only [beq_iff_eq] at h1
    exact hn (List.mem_map.2 ⟨q, hq, h1⟩)
  simp [slot, List.find?_append, this]

/-- What a new spectrum contains. -/
theorem newInstance_values {h h' : Heap α} {names : List String} {f : String → List α → List α}
    {g : List (String × Val) → List (String × Val)} {o : Obj α} {md : Val} {c : Nat} (hw : WellFormed h)
    (ho : ∀ n a, slot o n = some (.ref a) → a < h.size)
    (hg : ∀ a, slot o "_x_tick_labels" = some (.ref a) → ∀ k b, (k, Val.ref b) ∉ g (h.cell a).slots)
    (h1 : "_x_tick_labels" ∉ names) (h2 : "metadata" ∉ names)
    (hr : (do
      let arrays ← newArrays f o names h
      let ticks ← newTicks g o arrays.2
      return newInstance arrays.1 ticks.1 md ticks.2 : Except Err (Nat × Heap α)) = .ok (c, h')) :
    (∀ n ∈ names, ∃ a b, slot o n = some (.ref a) ∧ slot (h'.cell c) n = some (.ref b) ∧
      h'.cell b = ⟨f n (h.cell a).nums, []⟩) ∧
    ((∃ t, slot o "_x_tick_labels" = some (.prim t) ∧ slot (h'.cell c) "_x_tick_labels" = some (.prim t)) ∨
      ∃ a b, slot o "_x_tick_labels" = some (.ref a) ∧ slot (h'.cell c) "_x_tick_labels" = some (.ref b) ∧
        h'.cell b = ⟨[], g (h.cell a).slots⟩) ∧
    slot (h'.cell c) "metadata" = some md := by
  have hg' : ∀ a, slot o "_x_tick_labels" = some (.ref a) →
      a < h.size ∧ ∀ k b, (k, Val.ref b) ∉ g (h.cell a).slots := fun a h3 => ⟨ho _ a h3, hg a h3⟩
  cases ha : newArrays f o names h with
  | error e => rw [ha] at hr; cases hr
  | ok r =>
    obtain ⟨f1, -⟩ := newArrays_fresh ha hw 0
    obtain ⟨v1, v2⟩ := newArrays_values ha hw ho
    rw [ha] at hr
    simp only [bind, Except.bind] at hr
    cases ht : newTicks g o r.2 with
    | error e => rw [ht] at hr; cases hr
    | ok t =>
      obtain ⟨f2, g2⟩ := newTicks_fresh ht (f1.wf hw) (by
        intro a h1 k b
        rw [f1.old a (hg' a h1).1]
        exact (hg' a h1).2 k b) 0
      rw [ht] at hr
      simp only [pure, Except.pure, Except.ok.injEq, newInstance] at hr
      have hc : c = t.2.size := (congrArg Prod.fst hr).symm
      have hh : h' = (alloc t.2 ⟨[], r.1 ++ [("_x_tick_labels", t.1), ("metadata", md)]⟩).2 :=
        (congrArg Prod.snd hr).symm
      have hcell : h'.cell c = ⟨[], r.1 ++ [("_x_tick_labels", t.1), ("metadata", md)]⟩ := by
        rw [hh, hc]; simp [alloc]
      have hold : ∀ a, a < t.2.size → h'.cell a = t.2.cell a := by
        intro a h3
        rw [hh]
        simp only [alloc, if_neg (Nat.ne_of_lt h3)]
      refine ⟨?_, ?_, ?_⟩
      · intro n hn
        obtain ⟨v, e1, e2⟩ := slot_append_left (nums := ([] : List α))
          (l' := [("_x_tick_labels", t.1), ("metadata", md)]) (by rw [v1]; exact hn : n ∈ r.1.map (·.1))
        obtain ⟨a, b, e3, rfl, e4, e5⟩ := v2 n v e2
        refine ⟨a, b, e3, by rw [hcell]; exact e1, ?_⟩
        rw [hold b (lt_of_lt_of_le e5 f2.size), f2.old b e5, e4]
      · rw [hcell, slot_append_right (by rw [v1]; exact h1)]
        have hslot : slot (⟨[], [("_x_tick_labels", t.1), ("metadata", md)]⟩ : Obj α) "_x_tick_labels" = some t.1 :=
          rfl
        rw [hslot]
        unfold newTicks at ht
        split at ht
        · rename_i t' ht'
          cases ht
          exact .inl ⟨t', ht', rfl⟩
        · rename_i a ha'
          simp only [Except.ok.injEq] at ht
          subst ht
          refine .inr ⟨a, _, ha', rfl, ?_⟩
          rw [hold _ (by simp only [alloc]; omega)]
          simp [alloc, f1.old a (ho _ a ha')]
        · cases ht
      · rw [hcell, slot_append_right (by rw [v1]; exact h2)]
        rfl

/-- C78.  A copy is equal to its original: the data are those shown by the properties of the original (`f` converts to
its units), the ticks and the metadata are the same to any depth. -/
theorem C78_copy_equal {h h' : Heap α} {names : List String} {f : String → List α → List α} {s c : Nat}
    (hw : WellFormed h) (ht : PlainTicks h s) (h1 : "_x_tick_labels" ∉ names) (h2 : "metadata" ∉ names)
    (hr : copySpectrum names f h s = .ok (c, h')) :
    (∀ n ∈ names, ∃ a b, slot (h.cell s) n = some (.ref a) ∧ slot (h'.cell c) n = some (.ref b) ∧
      (h'.cell b).nums = f n (h.cell a).nums) ∧
    ((∃ t, slot (h.cell s) "_x_tick_labels" = some (.prim t) ∧ slot (h'.cell c) "_x_tick_labels" = some (.prim t)) ∨
      ∃ a b, slot (h.cell s) "_x_tick_labels" = some (.ref a) ∧ slot (h'.cell c) "_x_tick_labels" = some (.ref b) ∧
        (h'.cell b).slots = (h.cell a).slots) ∧
    ∃ m m', slot (h.cell s) "metadata" = some m ∧ slot (h'.cell c) "metadata" = some m' ∧
      ∀ d, view h' d m' = view h d m := by
  unfold copySpectrum at hr
  dsimp only at hr
  split at hr
  · cases hr
  · rename_i m hm
    have hmlt : ∀ a, m = .ref a → a < h.size := by rintro a rfl; exact slot_lt hw hm
    obtain ⟨f0, g0⟩ := deepcopy_fresh hw m hmlt
    have s0 := f0.size
    have ho : ∀ n a, slot (h.cell s) n = some (.ref a) → a < (deepcopy h m).2.size := by
      intro n a h3
      have := slot_lt hw h3
      omega
    have hg : ∀ a, slot (h.cell s) "_x_tick_labels" = some (.ref a) →
        ∀ k b, (k, Val.ref b) ∉ id ((deepcopy h m).2.cell a).slots := by
      intro a h3 k b
      rw [f0.old a (slot_lt hw h3)]
      exact ht a h3 k b
    obtain ⟨v1, v2, v3⟩ := newInstance_values (f0.wf hw) ho hg h1 h2 hr
    obtain ⟨f1, -, -⟩ := newInstance_fresh (n := 0) (f0.wf hw) (by omega) (fun b hb => ⟨by omega, (g0 b hb).2⟩)
      (fun a h3 => ⟨ho _ a h3, hg a h3⟩) hr
    refine ⟨?_, ?_, m, _, hm, v3, ?_⟩
    · intro n hn
      obtain ⟨a, b, e1, e2, e3⟩ := v1 n hn
      refine ⟨a, b, e1, e2, ?_⟩
      rw [e3, f0.old a (slot_lt hw e1)]
    · rcases v2 with h3 | ⟨a, b, e1, e2, e3⟩
      · exact .inl h3
      · refine .inr ⟨a, b, e1, e2, ?_⟩
        rw [e3, f0.old a (slot_lt hw e1)]
        rfl
    · intro d
      rw [← deepcopy_view hw m hmlt d]
      cases hd : (deepcopy h m).1 with
      | prim t => cases d <;> rfl
      | ref b =>
        exact view_congr (P := fun a => a < (deepcopy h m).2.size)
          (fun a _ k b hm => ((f0.wf hw) a k b hm).2) f1.old d b (g0 b hd).2

/-! ## Pieces -/

/-- C78 (part).  Of a piece of `split` and the original only the metadata is shared: the arrays of data and the list of
ticks of the piece are its own.  (`g` cuts the list of ticks.) -/
theorem C78_split_partial {h h' : Heap α} {names : List String} {f : String → List α → List α}
    {g : List (String × Val) → List (String × Val)} {s c : Nat} (hw : WellFormed h) (hs : s < h.size)
    (ht : ∀ a, slot (h.cell s) "_x_tick_labels" = some (.ref a) → ∀ k b, (k, Val.ref b) ∉ g (h.cell a).slots)
    (hr : splitPiece names f g h s = .ok (c, h')) :
    (∀ a, a < h.size → h'.cell a = h.cell a) ∧ WellFormed h' ∧ s < h'.size ∧ c < h'.size ∧
    (∀ a, Reach h' c a → h.size ≤ a ∨ ∃ m, slot (h.cell s) "metadata" = some (.ref m) ∧ Reach h m a) := by
  unfold splitPiece at hr
  dsimp only at hr
  split at hr
  · cases hr
  · rename_i m hm
    have hg : ∀ a, slot (h.cell s) "_x_tick_labels" = some (.ref a) →
        a < h.size ∧ ∀ k b, (k, Val.ref b) ∉ g (h.cell a).slots := fun a h1 => ⟨slot_lt hw h1, ht a h1⟩
    obtain ⟨f1, g1, g2⟩ := newInstance_fresh (n := 0) hw (by omega)
      (by rintro b rfl; exact ⟨by omega, slot_lt hw hm⟩) hg hr
    have s1 := f1.size
    refine ⟨f1.old, f1.wf hw, by omega, g2, ?_⟩
    -- the same piece without metadata
    cases ha : newArrays f (h.cell s) names h with
    | error e => rw [ha] at hr; cases hr
    | ok r =>
      obtain ⟨f2, g3⟩ := newArrays_fresh ha hw h.size
      rw [ha] at hr
      simp only [bind, Except.bind] at hr
      cases ht' : newTicks g (h.cell s) r.2 with
      | error e => rw [ht'] at hr; cases hr
      | ok t =>
        obtain ⟨f3, g4⟩ := newTicks_fresh ht' (f2.wf hw) (by
          intro a h1 k b
          rw [f2.old a (hg a h1).1]
          exact (hg a h1).2 k b) h.size
        rw [ht'] at hr
        simp only [pure, Except.pure, Except.ok.injEq, newInstance] at hr
        have hc : c = t.2.size := (congrArg Prod.fst hr).symm
        have hh : h' = (alloc t.2 ⟨[], r.1 ++ [("_x_tick_labels", t.1), ("metadata", m)]⟩).2 :=
          (congrArg Prod.snd hr).symm
        have f4 := f2.trans f3
        intro a h1
        refine reach_closed (P := fun a => h.size ≤ a ∨ ∃ m, slot (h.cell s) "metadata" = some (.ref m) ∧
          Reach h m a) (.inl g1) ?_ h1
        rintro x (hx | ⟨m', hm', hx⟩) k b hmem
        · by_cases hxc : x = c
          · subst hxc
            have hcell : h'.cell x = ⟨[], r.1 ++ [("_x_tick_labels", t.1), ("metadata", m)]⟩ := by
              rw [hh, hc]; simp [alloc]
            rw [hcell] at hmem
            simp only [List.mem_append, List.mem_cons, Prod.mk.injEq, List.not_mem_nil, or_false] at hmem
            have s2 := f2.size
            rcases hmem with hmem | ⟨_, hmem⟩ | ⟨_, hmem⟩
            · obtain ⟨b', e, h3, h4⟩ := g3 k _ hmem
              cases e
              exact .inl h3
            · have := g4 b hmem.symm
              exact .inl (by omega)
            · subst hmem
              exact .inr ⟨b, hm, .root⟩
          · have hcell : h'.cell x = t.2.cell x := by
              rw [hh]
              simp only [alloc]
              rw [if_neg (by omega)]
            rw [hcell] at hmem
            exact .inl (f4.new x hx k b hmem).1
        · have hxlt : x < h.size := reach_lt hw (slot_lt hw hm') hx
          rw [f1.old x hxlt] at hmem
          exact .inr ⟨m', hm', .step hx hmem⟩

theorem splitPiece_new {h h' : Heap α} {names : List String} {f : String → List α → List α}
    {g : List (String × Val) → List (String × Val)} {s c : Nat} (hw : WellFormed h)
    (ht : ∀ a, slot (h.cell s) "_x_tick_labels" = some (.ref a) → ∀ k b, (k, Val.ref b) ∉ g (h.cell a).slots)
    (hr : splitPiece names f g h s = .ok (c, h')) : h.size ≤ c ∧ h.size ≤ h'.size := by
  unfold splitPiece at hr
  dsimp only at hr
  split at hr
  · cases hr
  · rename_i m hm
    obtain ⟨f1, g1, g2⟩ := newInstance_fresh (n := 0) hw (by omega)
      (by rintro b rfl; exact ⟨by omega, slot_lt hw hm⟩) (fun a h1 => ⟨slot_lt hw h1, ht a h1⟩) hr
    exact ⟨g1, f1.size⟩

/-- C78 (part).  Whatever is done to a piece, parts of the original (or anything else that existed) that cannot be
reached from the metadata of the original keep their content; these are its arrays of data and its ticks. -/
theorem C78_split_frame_partial {h h' h'' : Heap α} {names : List String} {f : String → List α → List α}
    {g : List (String × Val) → List (String × Val)} {s c : Nat} (hw : WellFormed h) (hs : s < h.size)
    (ht : ∀ a, slot (h.cell s) "_x_tick_labels" = some (.ref a) → ∀ k b, (k, Val.ref b) ∉ g (h.cell a).slots)
    (hr : splitPiece names f g h s = .ok (c, h')) (hp : Program c h'.size h' h'') (a : Nat) (ha : a < h.size)
    (hm : ∀ m, slot (h.cell s) "metadata" = some (.ref m) → ¬ Reach h m a) : h''.cell a = h.cell a := by
  obtain ⟨h1, h2, h3, h4, h5⟩ := C78_split_partial hw hs ht hr
  rw [(program_frame h2 hp).1 a (lt_of_lt_of_le ha (splitPiece_new hw ht hr).2) ?_, h1 a ha]
  intro h6
  rcases h5 a h6 with h7 | ⟨m, e, h7⟩
  · omega
  · exact hm m e h7

/-- C78 fails for the metadata of pieces: the piece holds the dictionary of the original, and a program that has a
handle on the piece only can replace its content by anything. -/
theorem C78_split_shares_metadata {h h' : Heap α} {names : List String} {f : String → List α → List α}
    {g : List (String × Val) → List (String × Val)} {s c m : Nat} (hw : WellFormed h)
    (ht : ∀ a, slot (h.cell s) "_x_tick_labels" = some (.ref a) → ∀ k b, (k, Val.ref b) ∉ g (h.cell a).slots)
    (h1 : "_x_tick_labels" ∉ names) (h2 : "metadata" ∉ names)
    (hm : slot (h.cell s) "metadata" = some (.ref m)) (hr : splitPiece names f g h s = .ok (c, h')) (x : String) :
    slot (h'.cell c) "metadata" = some (.ref m) ∧
    ∃ h'', Program c h'.size h' h'' ∧ h''.cell m = ⟨[], [("desc", .prim x)]⟩ := by
  unfold splitPiece at hr
  dsimp only at hr
  rw [hm] at hr
  have hv := newInstance_values hw (fun n a h3 => slot_lt hw h3) ht h1 h2
    hr
  refine ⟨hv.2.2, write h' m ⟨[], [("desc", .prim x)]⟩, ?_, by simp [write]⟩
  refine .change .done (.inl (.step .root (slot_mem hv.2.2))) ?_
  intro k a hmem
  simp at hmem

/-- C78 (part).  All pieces of `split`: what existed stays, and two pieces, or a piece and the original, share nothing
but the metadata of the original. -/
theorem C78_split_all_partial {names : List String} {s m : Nat}
    {ps : List ((String → List α → List α) × (List (String × Val) → List (String × Val)))} :
    ∀ {h h' : Heap α} {cs : List Nat}, WellFormed h → s < h.size → slot (h.cell s) "metadata" = some (.ref m) →
    (∀ p ∈ ps, ∀ a, slot (h.cell s) "_x_tick_labels" = some (.ref a) → ∀ k b, (k, Val.ref b) ∉ p.2 (h.cell a).slots) →
    split names s ps h = .ok (cs, h') →
    cs.length = ps.length ∧ h.size ≤ h'.size ∧ (∀ a, a < h.size → h'.cell a = h.cell a) ∧ WellFormed h' ∧
    (∀ c ∈ cs, c < h'.size ∧ ∀ a, Reach h' c a → h.size ≤ a ∨ Reach h m a) ∧
    cs.Pairwise fun c c' => ∀ a, Reach h' c a → Reach h' c' a → Reach h m a := by
  induction ps with
  | nil =>
    intro h h' cs hw hs hm ht hr
    simp only [split, Except.ok.injEq, Prod.mk.injEq] at hr
    obtain ⟨rfl, rfl⟩ := hr
    exact ⟨rfl, le_refl _, fun _ _ => rfl, hw, by simp, List.Pairwise.nil⟩
  | cons p ps ih =>
    intro h h' cs hw hs hm ht hr
    simp only [split] at hr
    cases hp : splitPiece names p.1 p.2 h s with
    | error e => rw [hp] at hr; cases hr
    | ok r =>
      obtain ⟨c1, h1⟩ := r
      rw [hp] at hr
      simp only [bind, Except.bind] at hr
      cases hq : split names s ps h1 with
      | error e => rw [hq] at hr; cases hr
      | ok t =>
        obtain ⟨cs', h2⟩ := t
        rw [hq] at hr
        simp only [pure, Except.pure, Except.ok.injEq, Prod.mk.injEq] at hr
        obtain ⟨rfl, rfl⟩ := hr
        obtain ⟨a1, a2, a3, a4, a5⟩ := C78_split_partial hw hs (ht p (by simp)) hp
        have hsz : h.size ≤ h1.size := (splitPiece_new hw (ht p (by simp)) hp).2
        have hcell : h1.cell s = h.cell s := a1 s hs
        have hreach : ∀ a, Reach h1 m a ↔ Reach h m a := by
          intro a
          have hmlt := slot_lt hw hm
          constructor
          · exact fun h6 => reach_same (fun x hx => a1 x (reach_lt hw hmlt hx)) h6
          · intro h6
            induction h6 with
            | root => exact .root
            | step h7 h8 ih' => exact .step ih' (by rw [a1 _ (reach_lt hw hmlt h7)]; exact h8)
        obtain ⟨b0, b1, b2, b3, b4, b5⟩ := ih a2 a3 (by rw [hcell]; exact hm) (by
          intro q hq' a h6 k b
          rw [hcell] at h6
          rw [a1 a (slot_lt hw h6)]
          exact ht q (by simp [hq']) a h6 k b) hq
        have hc1 : ∀ a, Reach h2 c1 a → Reach h1 c1 a := fun a h6 =>
          reach_same (fun x hx => b2 x (reach_lt a2 a4 hx)) h6
        have hP : ∀ a, Reach h1 c1 a → h.size ≤ a ∨ Reach h m a := by
          intro a h6
          rcases a5 a h6 with h7 | ⟨m', e, h7⟩
          · exact .inl h7
          · rw [hm] at e
            cases e
            exact .inr h7
        refine ⟨by simp [b0], le_trans hsz b1, ?_, b3, ?_, ?_⟩
        · intro a ha
          rw [b2 a (by omega), a1 a ha]
        · intro c hc
          rcases List.mem_cons.1 hc with rfl | hc
          · exact ⟨by omega, fun a h6 => hP a (hc1 a h6)⟩
          · refine ⟨(b4 c hc).1, fun a h6 => ?_⟩
            rcases (b4 c hc).2 a h6 with h7 | h7
            · exact .inl (by omega)
            · exact .inr ((hreach a).1 h7)
        · refine List.Pairwise.cons ?_ (b5.imp fun h6 a h7 h8 => (hreach a).1 (h6 a h7 h8))
          intro c' hc' a h6 h7
          rcases (b4 c' hc').2 a h7 with h8 | h8
          · have := reach_lt a2 a4 (hc1 a h6)
            omega
          · exact (hreach a).1 h8

/-! ## Items -/

/-- C78.  An item of a collection shares nothing with the collection as long as the entries of its metadata are plain
values. -/
theorem C78_item {h h' : Heap α} {names : List String} {f : String → List α → List α} {s c i : Nat}
    (hw : WellFormed h) (hs : s < h.size) (ht : PlainTicks h s)
    (hplain : ∀ m, slot (h.cell s) "metadata" = some (.ref m) →
      (∀ k b, (k, Val.ref b) ∈ (h.cell m).slots → k = "line_data") ∧
      ∀ l j a, slot (h.cell m) "line_data" = some (.ref l) → slot (h.cell l) j = some (.ref a) →
        ∀ k b, (k, Val.ref b) ∉ (h.cell a).slots)
    (hr : item names f i h s = .ok (c, h')) :
    (∀ a, a < h.size → h'.cell a = h.cell a) ∧ Apart h' s c ∧ WellFormed h' ∧ s < h'.size ∧ c < h'.size := by
  unfold item at hr
  dsimp only at hr
  split at hr
  · rename_i m hm
    obtain ⟨p1, p2⟩ := hplain m hm
    have key : ∀ line : Obj α, (∀ k b, (k, Val.ref b) ∉ line.slots) →
        (do
          let arrays ← newArrays f (h.cell s) names (alloc h (lineMetadata (h.cell m) line)).2
          let ticks ← newTicks id (h.cell s) arrays.2
          return newInstance arrays.1 ticks.1 (.ref (alloc h (lineMetadata (h.cell m) line)).1) ticks.2 :
            Except Err (Nat × Heap α)) = .ok (c, h') →
        (∀ a, a < h.size → h'.cell a = h.cell a) ∧ Apart h' s c ∧ WellFormed h' ∧ s < h'.size ∧ c < h'.size := by
      intro line hline hr
      have f0 : Fresh h.size h (alloc h (lineMetadata (h.cell m) line)).2 := fresh_alloc hw _ (by
        intro k b hmem
        simp only [lineMetadata, List.mem_append, List.mem_filter] at hmem
        rcases hmem with hmem | ⟨hmem, hne⟩
        · exact absurd hmem (hline k b)
        · rw [p1 k b hmem] at hne
          simp at hne)
      have s0 := f0.size
      obtain ⟨f1, g1, g2⟩ := newInstance_fresh (n := h.size) (f0.wf hw) f0.size
        (by rintro b hb; cases hb; simp only [alloc]; omega) (by
        intro a h1
        have := slot_lt hw h1
        refine ⟨by omega, fun k b => ?_⟩
        rw [f0.old a this]
        exact ht a h1 k b) hr
      have f2 := f0.trans f1
      have s1 := f2.size
      refine ⟨f2.old, ?_, f2.wf hw, by omega, g2⟩
      intro a h1 h2
      have := reach_closed (P := fun a => h.size ≤ a) (le_trans s0 g1)
        (fun a h2 k b hm => (f2.new a h2 k b hm).1) h2
      have := (reach_old hw f2 hs h1).2
      omega
    split at hr
    · exact key _ (by simp) hr
    · rename_i l hl
      split at hr
      · rename_i a ha
        exact key _ (p2 l _ a hl ha) hr
      · cases hr
    · cases hr
  · cases hr

/-! ## C96: in-place scaling -/

/-- C96.  `__mul__` leaves the original, and everything else that existed, as it was. -/
theorem C96_mul {h h' : Heap α} {names : List String} {f : String → List α → List α} {mf : α → α} {s c : Nat}
    (hw : WellFormed h) (hs : s < h.size) (ht : PlainTicks h s) (h1 : "_x_tick_labels" ∉ names)
    (h2 : "metadata" ∉ names) (hy : "_y_data" ∈ names) (hr : mul names f mf h s = .ok (c, h')) :
    (∀ a, a < h.size → h'.cell a = h.cell a) ∧
    ∃ a b, slot (h.cell s) "_y_data" = some (.ref a) ∧ slot (h'.cell c) "_y_data" = some (.ref b) ∧
      (h'.cell b).nums = (f "_y_data" (h.cell a).nums).map mf := by
  unfold mul at hr
  cases hcp : copySpectrum names f h s with
  | error e => rw [hcp] at hr; cases hr
  | ok r =>
    obtain ⟨c', h1'⟩ := r
    obtain ⟨e1, e2, e3, e4, e5, e6⟩ := C78_copy hw hs ht hcp
    obtain ⟨v1, -, -⟩ := C78_copy_equal hw ht h1 h2 hcp
    obtain ⟨a, b, q1, q2, q3⟩ := v1 _ hy
    rw [hcp] at hr
    simp only [bind, Except.bind, pure, Except.pure, imul, q2, Except.ok.injEq, Prod.mk.injEq] at hr
    obtain ⟨rfl, rfl⟩ := hr
    have hb : h.size ≤ b := e6 b (.step .root (slot_mem q2))
    have hc : h.size ≤ c' := e6 c' .root
    refine ⟨?_, a, b, q1, ?_, ?_⟩
    · intro x hx
      simp only [write]
      rw [if_neg (by omega), e1 x hx]
    · by_cases hbc : c' = b
      · subst hbc
        simp only [write, if_true]
        exact q2
      · simp only [write, if_neg hbc]
        exact q2
    · simp only [write, if_true, q3]

/-- C96 (part).  In-place scaling of a spectrum does not show in an object with which it shares nothing. -/
theorem C96_imul_partial {h h' : Heap α} {mf : α → α} {s c : Nat}
    (ha : Apart h s c) (hr : imul mf h c = .ok h') (d : Nat) : view h' d (.ref s) = view h d (.ref s) := by
  unfold imul at hr
  split at hr
  · rename_i a h1
    simp only [Except.ok.injEq] at hr
    subst hr
    refine view_congr (P := Reach h s) (fun a h1 k b hm => .step h1 hm) ?_ d s .root
    intro x hx
    have : x ≠ a := by
      rintro rfl
      exact ha x hx (.step .root (slot_mem h1))
    simp only [write, if_neg this]
  · cases hr

/-- C96 fails after assigning the data of one spectrum to another in the unit used internally: scaling the second one in
place scales the first as well. -/
theorem C96_setter_alias (h h1 h2 : Heap α) (mf : α → α) (s c q : Nat) (hsc : s ≠ c)
    (conv conv' : List α → List α)
    (hget : getData true conv "_y_data" h s = .ok (q, h1)) (hqc : q ≠ c)
    (hmul : imul mf (setData true conv' "_y_data" h1 c q) c = .ok h2) (hqs : q ≠ s) :
    slot (h2.cell s) "_y_data" = some (.ref q) ∧ (h2.cell q).nums = ((h.cell q).nums).map mf := by
  unfold getData at hget
  split at hget
  · rename_i a ha
    simp only [if_true, Except.ok.injEq, Prod.mk.injEq] at hget
    obtain ⟨rfl, rfl⟩ := hget
    have hslot : slot ((setData true conv' "_y_data" h c a).cell c) "_y_data" = some (.ref a) := by
      simp [setData, write, setSlot, slot]
    simp only [imul, hslot, Except.ok.injEq] at hmul
    subst hmul
    constructor
    · simp only [setData, write, if_true]
      rw [if_neg (Ne.symm hqs), if_neg hsc]
      exact ha
    · simp only [setData, write, if_true, if_neg hqc]
  · cases hget

/-- C96 fails for data read from a spectrum in the unit used internally: they change when the spectrum is scaled. -/
theorem C96_getter_alias (h h1 h2 : Heap α) (mf : α → α) (s q : Nat) (conv : List α → List α)
    (hget : getData true conv "_y_data" h s = .ok (q, h1)) (hmul : imul mf h1 s = .ok h2) :
    (h2.cell q).nums = ((h1.cell q).nums).map mf := by
  unfold getData at hget
  split at hget
  · rename_i a ha
    simp only [if_true, Except.ok.injEq, Prod.mk.injEq] at hget
    obtain ⟨rfl, rfl⟩ := hget
    simp only [imul, ha, Except.ok.injEq] at hmul
    subst hmul
    simp only [write, if_true]
  · cases hget

/-- C96 (part).  In any other unit the data read are a new array. -/
theorem C96_getter_converted_partial (h h1 h2 : Heap α) (hw : WellFormed h) (mf : α → α) (s q : Nat)
    (conv : List α → List α) (hs : s < h.size)
    (hget : getData false conv "_y_data" h s = .ok (q, h1)) (hmul : imul mf h1 s = .ok h2) :
    h2.cell q = h1.cell q := by
  unfold getData at hget
  split at hget
  · rename_i a ha
    have halt := slot_lt hw ha
    simp only [Bool.false_eq_true, if_false, Except.ok.injEq, Prod.mk.injEq, alloc] at hget
    obtain ⟨rfl, rfl⟩ := hget
    simp only [imul, if_neg (Nat.ne_of_lt hs), ha, Except.ok.injEq] at hmul
    subst hmul
    simp only [write]
    rw [if_neg (by omega)]
  · cases hget

/-! ## A concrete case -/

/-- A spectrum with two data arrays, a tick, and metadata with a nested list. -/
def sample : Heap Nat where
  size := 6
  cell
    | 0 => ⟨[1, 2, 3], []⟩
    | 1 => ⟨[10, 20, 30], []⟩
    | 2 => ⟨[], [("0", .prim "(1, 'X')")]⟩
    | 3 => ⟨[], [("desc", .prim "a"), ("list", .ref 4)]⟩
    | 4 => ⟨[7], []⟩
    | 5 => ⟨[], [("_x_data", .ref 0), ("_y_data", .ref 1), ("_x_tick_labels", .ref 2), ("metadata", .ref 3)]⟩
    | _ => ⟨[], []⟩

theorem sample_wellFormed : WellFormed sample := by
  intro a k b hm
  match a with
  | 0 | 1 | 2 | 4 => simp [sample] at hm
  | 3 => simp [sample] at hm ⊢; omega
  | 5 => simp [sample] at hm ⊢; omega
  | _ + 6 => simp [sample] at hm

theorem sample_plainTicks : PlainTicks sample 5 := by
  intro a ha k b
  simp [sample, slot] at ha
  subst ha
  simp [sample]

/-- The copy of the sample exists; it has its own arrays, ticks, metadata and nested list. -/
example : (copySpectrum ["_x_data", "_y_data"] (fun _ l => l) sample 5).toOption.map (fun r =>
    (r.1, (r.2.cell r.1).slots, r.2.cell 9, r.2.cell 10)) =
    some (15, [("_x_data", .ref 12), ("_y_data", .ref 13), ("_x_tick_labels", .ref 14), ("metadata", .ref 9)],
      ⟨[], [("desc", .prim "a"), ("list", .ref 10)]⟩, ⟨[7], []⟩) := by decide +kernel

/-- A piece of the sample: own arrays and ticks, but the same metadata. -/
example : (splitPiece ["_x_data", "_y_data"] (fun _ l => l.take 2) id sample 5).toOption.map (fun r =>
    (r.1, (r.2.cell r.1).slots, r.2.cell 7)) =
    some (9, [("_x_data", .ref 6), ("_y_data", .ref 7), ("_x_tick_labels", .ref 8), ("metadata", .ref 3)],
      ⟨[10, 20], []⟩) := by decide +kernel

/-- The hypotheses of `C78_copy` and `C78_split_partial` hold for it. -/
example : WellFormed sample ∧ (5 : Nat) < sample.size ∧ PlainTicks sample 5 :=
  ⟨sample_wellFormed, by decide, sample_plainTicks⟩

/-- A program that scales the data of an object and adds an entry to its metadata. -/
example : ∃ h', Program 5 sample.size sample h' ∧ h'.cell 1 = ⟨[20, 40, 60], []⟩ ∧
    h'.cell 4 = ⟨[7], [("new", .ref 6)]⟩ := by
  refine ⟨_, .change (.change (.create (o := ⟨[5], []⟩) .done (by simp)) (b := 1) (o := ⟨[20, 40, 60], []⟩)
    (.inl (.step (k := "_y_data") .root (by simp [sample, alloc]))) (by simp)) (b := 4)
    (o := ⟨[7], [("new", .ref 6)]⟩) (.inl ?_) ?_, by rfl, by rfl⟩
  · refine .step (a := 3) (k := "list") (.step (k := "metadata") .root ?_) ?_
    · simp [sample, alloc, write]
    · simp [sample, alloc, write]
  · intro k a hm
    simp at hm
    right
    simp [sample, alloc, write]
    omega

/-- Scaling in place after assigning the data of one spectrum to another changes both. -/
example : (do
      let r ← mul ["_x_data", "_y_data"] (fun _ l => l) (· * 1) sample 5
      let q ← getData true id "_y_data" r.2 5
      let h ← imul (· * 2) (setData true id "_y_data" q.2 r.1 q.1) r.1
      return (h.cell 1).nums : Except Err (List Nat)) = .ok [20, 40, 60] := by decide +kernel

end Euphonic.Heap
